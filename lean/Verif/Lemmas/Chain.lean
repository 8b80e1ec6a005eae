import Verif.Model.Chain
import Verif.Lemmas.SamplerFrozen

/-! Helper lemmas: what a history of `__next__` calls does to the session. -/

namespace PySGMCMC.Chain
open SamplerBase

variable {n : Nat} {size : Fin n → Nat}

/-- One session run as it reached the graph. -/
structure Call (size : Fin n → Nat) where
  k : Nat
  eps : Fl
  fed : ∀ i, Option (Pos size i → Fl)
  user : Dict Key Arr

/-- Apply a list of runs. -/
def applyCalls (G : GraphSem size) (l : List (Call size)) (s : G.St) : G.St :=
  l.foldl (fun s c => G.run c.k c.eps c.fed c.user s) s

theorem unflat_flat {m : Nat} (f : Fin m → Fl) : unflat m (flat f) = f := by
  funext k
  simp [unflat, flat]

/-- One step of the sampler runs the graph at most once, with the `minv_t` values of the dictionary it started from
(batches do not feed them). -/
theorem coreStep_vars (F : Feeder) (G : GraphSem size) (ok : Dict Key Arr → Bool)
    (hE : BatchesFeedUserGraph (env F G ok)) (flag : Bool) (wrap : List Arr → Out Arr) (d : Dict Key Arr)
    (s : Sampler (env F G ok)) :
    let s' := (coreStep (env F G ok) flag wrap d s).sampler
    (s'.graph = s.graph ∧ s'.minv = s.minv ∧ ∃ e, (coreStep (env F G ok) flag wrap d s).result = .error e)
    ∨ ∃ c : Call size, c.k = s.graph.nRuns ∧ c.fed = fedMinv size d
        ∧ s'.graph.vars = G.run c.k c.eps c.fed c.user s.graph.vars
        ∧ s'.graph.nRuns = s.graph.nRuns + 1
        ∧ s'.minv = if flag then
            some (List.ofFn fun i => flat ((fedMinv size d i).getD (G.minv s'.graph.vars i))) else s.minv := by
  intro s'
  have hfed : ∀ b batch' v, nextBatch (env F G ok) s = (.ok b, { s with batch := batch' }) →
      fedMinv size ((d.update b).update (Dict.single .epsilon v)) = fedMinv size d := by
    intro b batch' v hb
    funext i
    have hbi : b (.minvT i) = none := by
      unfold nextBatch at hb
      cases hsb : s.batch with
      | none =>
        rw [hsb] at hb
        simp only [Prod.mk.injEq, Except.ok.injEq] at hb
        rw [← hb.1]; rfl
      | some b0 =>
        rw [hsb] at hb
        simp only [Prod.mk.injEq] at hb
        exact hE b0 b (F.batchNext b0).2 (by rw [← hb.1]) i
    unfold fedMinv
    rw [update_single, if_neg (by simp), hbi]
  have hrun : ∀ D g', (∃ r, (env F G ok).run s.graph flag D = (r, g')) →
      (g' = s.graph ∧ ∃ e, ((env F G ok).run s.graph flag D).1 = .error e)
      ∨ (g'.vars = G.run s.graph.nRuns (epsUsed s.graph D) (fedMinv size D) D s.graph.vars
          ∧ g'.nRuns = s.graph.nRuns + 1
          ∧ ∃ f, ((env F G ok).run s.graph flag D).1 = .ok f
            ∧ f.minv = List.ofFn fun i => flat ((fedMinv size D i).getD (G.minv g'.vars i))) := by
    rintro D g' ⟨r, hr⟩
    show (g' = s.graph ∧ ∃ e, (sessionRun G ok s.graph flag D).1 = .error e) ∨ _
    have hr' : sessionRun G ok s.graph flag D = (r, g') := hr
    rw [hr]
    unfold sessionRun at hr'
    split at hr'
    · rename_i hc
      simp only [Prod.mk.injEq] at hr'
      refine .inl ⟨hr'.2.symm, ?_⟩
      unfold sessionRun; rw [if_pos hc]; exact ⟨_, rfl⟩
    · simp only [Prod.mk.injEq] at hr'
      obtain ⟨h1, h2⟩ := hr'
      refine .inr ⟨by rw [← h2], by rw [← h2], _, h1.symm, by rw [← h2]⟩
  rcases h : (coreStep (env F G ok) flag wrap d s).result with e | ⟨o, c⟩
  · obtain ⟨res, batch', hb, ⟨-, h⟩ | ⟨b, hres, ⟨sc, -, h⟩ | ⟨v, sc, -, ⟨g, hr, h⟩ | ⟨f, g, sc2, hr, -, h⟩⟩⟩⟩ :=
      coreStep_error (env F G ok) flag wrap d s e h
    · have hs' : s' = _ := h
      rw [hs']; exact .inl ⟨rfl, rfl, _, rfl⟩
    · have hs' : s' = _ := h
      rw [hs']; exact .inl ⟨rfl, rfl, _, rfl⟩
    · have hs' : s' = _ := h
      rw [hs']
      rcases hrun _ g ⟨_, hr⟩ with ⟨hg, -⟩ | ⟨-, -, f, hf, -⟩
      · exact .inl ⟨hg, rfl, _, rfl⟩
      · rw [hr] at hf; cases hf
    · have hs' : s' = _ := h
      rw [hs']
      rcases hrun _ g ⟨_, hr⟩ with ⟨-, e', he⟩ | ⟨h1, h2, f', hf, h3⟩
      · rw [hr] at he; cases he
      · rw [hr] at hf; cases hf
        subst hres
        rw [hfed b batch' v hb] at h1 h3
        refine .inr ⟨⟨s.graph.nRuns, _, fedMinv size d, _⟩, rfl, rfl, h1, h2, ?_⟩
        cases flag
        · rfl
        · simp only [if_true]; rw [h3]
  · obtain ⟨b, batch', v, sc1, sc2, f, g', hb, -, hr, -, -, -, -, h⟩ := coreStep_ok (env F G ok) flag wrap d s o c h
    have hs' : s' = _ := h
    rw [hs']
    rcases hrun _ g' ⟨_, hr⟩ with ⟨-, e', he⟩ | ⟨h1, h2, f', hf, h3⟩
    · rw [hr] at he; cases he
    · rw [hr] at hf; cases hf
      rw [hfed b batch' v hb] at h1 h3
      refine .inr ⟨⟨s.graph.nRuns, _, fedMinv size d, _⟩, rfl, rfl, h1, h2, ?_⟩
      cases flag
      · rfl
      · simp only [if_true]; rw [h3]

/-- A `feed_dict` argument that does not touch the sampler's own mass matrix. -/
def Clean (f : Feed Arr) : Prop := ∀ d, f.open = some d → ∀ i, d (.minvT i) = none

theorem fedMinv_none {d : Dict Key Arr} (h : ∀ i, d (.minvT i) = none) : fedMinv size d = fun _ => none := by
  funext i; simp [fedMinv, h]

theorem fedMinv_minvDict (m : ∀ i, Pos size i → Fl) :
    fedMinv size (minvDict n (List.ofFn fun i => flat (m i))) = fun i => some (m i) := by
  funext i
  unfold fedMinv
  rw [minvDict_apply]
  simp [i.isLt, unflat_flat]

/-- With `burn_in_steps ≤ 0` no run is ever fed a mass matrix. -/
theorem history_no_burn_in (F : Feeder) (G : GraphSem size) (ok : Dict Key Arr → Bool)
    (hE : BatchesFeedUserGraph (env F G ok)) (burnIn : Int) (h0 : burnIn ≤ 0) (fs : List (Feed Arr))
    (hfs : ∀ f ∈ fs, Clean f) (s : Sampler (env F G ok)) :
    let r := history (burnInNext (env F G ok) burnIn n) fs s
    ∃ l : List (Call size), r.2.graph.vars = applyCalls G l s.graph.vars
      ∧ (∀ c ∈ l, c.fed = fun _ => none) ∧ l.map (·.k) = (List.range l.length).map (s.graph.nRuns + ·)
      ∧ r.2.graph.nRuns = s.graph.nRuns + l.length ∧ countOk r.1 ≤ l.length := by
  induction fs generalizing s with
  | nil => exact ⟨[], rfl, by simp, by simp, rfl, Nat.le_refl _⟩
  | cons f fs ih =>
    intro r
    have hstep : (burnInNext (env F G ok) burnIn n f s).sampler = s
          ∧ (∃ e, (burnInNext (env F G ok) burnIn n f s).result = .error e) ∨
        ∃ d, f.open = some d ∧ burnInNext (env F G ok) burnIn n f s
          = coreStep (env F G ok) false unravel d s := by
      unfold burnInNext
      cases hd : f.open with
      | none => exact .inl ⟨rfl, _, rfl⟩
      | some d =>
        have hb : isBurningIn burnIn s = false := by
          unfold isBurningIn; simp only [decide_eq_false_iff_not]; omega
        refine .inr ⟨d, rfl, ?_⟩
        simp only [hb, Bool.false_eq_true, if_false, gt_iff_lt, show ¬ (0 < burnIn) by omega, baseNextDict_eq]
    have key : ((burnInNext (env F G ok) burnIn n f s).sampler.graph = s.graph
          ∧ ∃ e, (burnInNext (env F G ok) burnIn n f s).result = .error e)
        ∨ ∃ c : Call size, c.k = s.graph.nRuns ∧ c.fed = (fun _ => none)
          ∧ (burnInNext (env F G ok) burnIn n f s).sampler.graph.vars = G.run c.k c.eps c.fed c.user s.graph.vars
          ∧ (burnInNext (env F G ok) burnIn n f s).sampler.graph.nRuns = s.graph.nRuns + 1 := by
      rcases hstep with ⟨h, he⟩ | ⟨d, hd, h⟩
      · exact .inl ⟨by rw [h], he⟩
      · rw [h]
        rcases coreStep_vars F G ok hE false unravel d s with ⟨h1, -, h2⟩ | ⟨c, h1, h2, h3, h4, -⟩
        · exact .inl ⟨h1, h2⟩
        · exact .inr ⟨c, h1, by rw [h2, fedMinv_none (hfs f (by simp) d hd)], h3, h4⟩
    obtain ⟨l, i1, i2, i3, i4, i5⟩ := ih (fun g hg => hfs g (by simp [hg])) (burnInNext (env F G ok) burnIn n f s).sampler
    have hr : r = ((burnInNext (env F G ok) burnIn n f s).result ::
        (history (burnInNext (env F G ok) burnIn n) fs (burnInNext (env F G ok) burnIn n f s).sampler).1,
        (history (burnInNext (env F G ok) burnIn n) fs (burnInNext (env F G ok) burnIn n f s).sampler).2) := rfl
    rw [hr]
    rcases key with ⟨h1, e, h2⟩ | ⟨c, h1, h2, h3, h4⟩
    · rw [h1] at i1 i3 i4
      refine ⟨l, i1, i2, i3, i4, ?_⟩
      simp only [countOk, h2, List.countP_cons] at i5 ⊢
      simpa using i5
    · rw [h3] at i1
      rw [h4] at i3 i4
      refine ⟨c :: l, i1, ?_, ?_, ?_, ?_⟩
      · intro c' hc'
        rcases List.mem_cons.1 hc' with rfl | hc'
        · exact h2
        · exact i2 c' hc'
      · rw [List.map_cons, i3, List.length_cons, List.range_succ_eq_map, List.map_cons, List.map_map, h1]
        congr 1
        apply List.map_congr_left
        intro a _
        simp only [Function.comp_apply]; omega
      · simp only [List.length_cons]; rw [i4]; omega
      · simp only [countOk, List.countP_cons, List.length_cons] at i5 ⊢
        split <;> simp <;> omega

/-- After burn-in every run is fed the stored mass matrix. -/
theorem history_frozen (F : Feeder) (G : GraphSem size) (ok : Dict Key Arr → Bool)
    (hE : BatchesFeedUserGraph (env F G ok)) (burnIn : Int) (h0 : 0 < burnIn) (m : ∀ i, Pos size i → Fl)
    (fs : List (Feed Arr)) (s : Sampler (env F G ok)) (hn : burnIn ≤ s.nIterations)
    (hm : s.minv = some (List.ofFn fun i => flat (m i))) :
    let r := history (burnInNext (env F G ok) burnIn n) fs s
    ∃ l : List (Call size), r.2.graph.vars = applyCalls G l s.graph.vars
      ∧ (∀ c ∈ l, c.fed = fun i => some (m i)) ∧ l.map (·.k) = (List.range l.length).map (s.graph.nRuns + ·)
      ∧ r.2.graph.nRuns = s.graph.nRuns + l.length ∧ countOk r.1 ≤ l.length := by
  induction fs generalizing s with
  | nil => exact ⟨[], rfl, by simp, by simp, rfl, Nat.le_refl _⟩
  | cons f fs ih =>
    intro r
    have hb : isBurningIn burnIn s = false := by
      unfold isBurningIn; simp only [decide_eq_false_iff_not]; omega
    have hstep : (burnInNext (env F G ok) burnIn n f s).sampler = s
          ∧ (∃ e, (burnInNext (env F G ok) burnIn n f s).result = .error e) ∨
        ((burnInNext (env F G ok) burnIn n f s).sampler
          = (coreStep (env F G ok) false unravel (minvDict n (List.ofFn fun i => flat (m i))) s).sampler
        ∧ (burnInNext (env F G ok) burnIn n f s).result
          = (coreStep (env F G ok) false unravel (minvDict n (List.ofFn fun i => flat (m i))) s).result) := by
      unfold burnInNext
      cases hd : f.open with
      | none => exact .inl ⟨rfl, _, rfl⟩
      | some d =>
        right
        simp only [hb, Bool.false_eq_true, if_false, gt_iff_lt, h0, if_true, hm]
        exact ⟨rfl, rfl⟩
    have hcnt : s.nIterations ≤ (burnInNext (env F G ok) burnIn n f s).sampler.nIterations := by
      rw [burnInNext_count]; omega
    have key : ((burnInNext (env F G ok) burnIn n f s).sampler.graph = s.graph
          ∧ ∃ e, (burnInNext (env F G ok) burnIn n f s).result = .error e)
        ∨ ∃ c : Call size, c.k = s.graph.nRuns ∧ c.fed = (fun i => some (m i))
          ∧ (burnInNext (env F G ok) burnIn n f s).sampler.graph.vars = G.run c.k c.eps c.fed c.user s.graph.vars
          ∧ (burnInNext (env F G ok) burnIn n f s).sampler.graph.nRuns = s.graph.nRuns + 1 := by
      rcases hstep with ⟨h, he⟩ | ⟨h, he⟩
      · exact .inl ⟨by rw [h], he⟩
      · rw [h, he]
        rcases coreStep_vars F G ok hE false unravel (minvDict n (List.ofFn fun i => flat (m i))) s with
          ⟨h1, -, h2⟩ | ⟨c, h1, h2, h3, h4, -⟩
        · exact .inl ⟨h1, h2⟩
        · exact .inr ⟨c, h1, by rw [h2, fedMinv_minvDict], h3, h4⟩
    have hminv : (burnInNext (env F G ok) burnIn n f s).sampler.minv = some (List.ofFn fun i => flat (m i)) := by
      rcases hstep with ⟨h, -⟩ | ⟨h, -⟩
      · rw [h]; exact hm
      · rw [h]
        rcases coreStep_vars F G ok hE false unravel (minvDict n (List.ofFn fun i => flat (m i))) s with
          ⟨-, h2, -⟩ | ⟨c, -, -, -, -, h5⟩
        · rw [h2]; exact hm
        · rw [h5]; exact hm
    obtain ⟨l, i1, i2, i3, i4, i5⟩ := ih (burnInNext (env F G ok) burnIn n f s).sampler (by omega) hminv
    have hr : r = ((burnInNext (env F G ok) burnIn n f s).result ::
        (history (burnInNext (env F G ok) burnIn n) fs (burnInNext (env F G ok) burnIn n f s).sampler).1,
        (history (burnInNext (env F G ok) burnIn n) fs (burnInNext (env F G ok) burnIn n f s).sampler).2) := rfl
    rw [hr]
    rcases key with ⟨h1, e, h2⟩ | ⟨c, h1, h2, h3, h4⟩
    · rw [h1] at i1 i3 i4
      refine ⟨l, i1, i2, i3, i4, ?_⟩
      simp only [countOk, h2, List.countP_cons] at i5 ⊢
      simpa using i5
    · rw [h3] at i1
      rw [h4] at i3 i4
      refine ⟨c :: l, i1, ?_, ?_, ?_, ?_⟩
      · intro c' hc'
        rcases List.mem_cons.1 hc' with rfl | hc'
        · exact h2
        · exact i2 c' hc'
      · rw [List.map_cons, i3, List.length_cons, List.range_succ_eq_map, List.map_cons, List.map_map, h1]
        congr 1
        apply List.map_congr_left
        intro a _
        simp only [Function.comp_apply]; omega
      · simp only [List.length_cons]; rw [i4]; omega
      · simp only [countOk, List.countP_cons, List.length_cons] at i5 ⊢
        split <;> simp <;> omega

/-- Every call either fails without touching the variables or runs the graph exactly once. -/
theorem burnInNext_vars (F : Feeder) (G : GraphSem size) (ok : Dict Key Arr → Bool)
    (hE : BatchesFeedUserGraph (env F G ok)) (burnIn : Int) (f : Feed Arr) (s : Sampler (env F G ok)) :
    ((burnInNext (env F G ok) burnIn n f s).sampler.graph = s.graph
        ∧ ∃ e, (burnInNext (env F G ok) burnIn n f s).result = .error e)
    ∨ ∃ c : Call size, c.k = s.graph.nRuns
        ∧ (burnInNext (env F G ok) burnIn n f s).sampler.graph.vars = G.run c.k c.eps c.fed c.user s.graph.vars
        ∧ (burnInNext (env F G ok) burnIn n f s).sampler.graph.nRuns = s.graph.nRuns + 1 := by
  have hstep : ((burnInNext (env F G ok) burnIn n f s).sampler = s
        ∧ (∃ e, (burnInNext (env F G ok) burnIn n f s).result = .error e)) ∨
      ∃ flag wrap d, (burnInNext (env F G ok) burnIn n f s).sampler = (coreStep (env F G ok) flag wrap d s).sampler
        ∧ (burnInNext (env F G ok) burnIn n f s).result = (coreStep (env F G ok) flag wrap d s).result := by
    unfold burnInNext
    cases hd : f.open with
    | none => exact .inl ⟨rfl, _, rfl⟩
    | some d =>
      simp only
      split
      · exact .inr ⟨true, .many, d, rfl, rfl⟩
      · split
        · cases hm : s.minv with
          | none => exact .inl ⟨rfl, _, rfl⟩
          | some m => exact .inr ⟨false, unravel, minvDict n m, rfl, rfl⟩
        · exact .inr ⟨false, unravel, d, rfl, rfl⟩
  rcases hstep with ⟨h, he⟩ | ⟨flag, wrap, d, h, he⟩
  · exact .inl ⟨by rw [h], he⟩
  · rw [h, he]
    rcases coreStep_vars F G ok hE flag wrap d s with ⟨h1, -, h2⟩ | ⟨c, h1, -, h3, h4, -⟩
    · exact .inl ⟨h1, h2⟩
    · exact .inr ⟨c, h1, h3, h4⟩

/-- A history of calls is a sequence of graph runs, at least one per successful call. -/
theorem history_calls (F : Feeder) (G : GraphSem size) (ok : Dict Key Arr → Bool)
    (hE : BatchesFeedUserGraph (env F G ok)) (burnIn : Int) (fs : List (Feed Arr)) (s : Sampler (env F G ok)) :
    let r := history (burnInNext (env F G ok) burnIn n) fs s
    ∃ l : List (Call size), r.2.graph.vars = applyCalls G l s.graph.vars
      ∧ countOk r.1 ≤ l.length ∧ l.length ≤ fs.length := by
  induction fs generalizing s with
  | nil => exact ⟨[], rfl, Nat.le_refl _, Nat.le_refl _⟩
  | cons f fs ih =>
    intro r
    obtain ⟨l, i1, i2, i3⟩ := ih (burnInNext (env F G ok) burnIn n f s).sampler
    have hr : r = ((burnInNext (env F G ok) burnIn n f s).result ::
        (history (burnInNext (env F G ok) burnIn n) fs (burnInNext (env F G ok) burnIn n f s).sampler).1,
        (history (burnInNext (env F G ok) burnIn n) fs (burnInNext (env F G ok) burnIn n f s).sampler).2) := rfl
    rw [hr]
    rcases burnInNext_vars F G ok hE burnIn f s with ⟨h1, e, h2⟩ | ⟨c, h1, h3, h4⟩
    · rw [h1] at i1
      refine ⟨l, i1, ?_, by simp only [List.length_cons]; omega⟩
      simp only [countOk, h2, List.countP_cons] at i2 ⊢
      simpa using i2
    · rw [h3] at i1
      refine ⟨c :: l, i1, ?_, by simp only [List.length_cons]; omega⟩
      simp only [countOk, List.countP_cons, List.length_cons] at i2 ⊢
      split <;> simp <;> omega

/-- The last burn-in step stores the current value of the mass matrix variables. -/
theorem last_burn_in_step (F : Feeder) (G : GraphSem size) (ok : Dict Key Arr → Bool)
    (hE : BatchesFeedUserGraph (env F G ok)) (burnIn : Int) (f : Feed Arr) (hf : Clean f) (s : Sampler (env F G ok))
    (hn : (s.nIterations : Int) < burnIn) (o : Out Arr × Fl)
    (hok : (burnInNext (env F G ok) burnIn n f s).result = .ok o) :
    let s' := (burnInNext (env F G ok) burnIn n f s).sampler
    s'.minv = some (List.ofFn fun i => flat (G.minv s'.graph.vars i)) := by
  intro s'
  cases hd : f.open with
  | none => unfold burnInNext at hok; rw [hd] at hok; cases hok
  | some d =>
    have heq : burnInNext (env F G ok) burnIn n f s = coreStep (env F G ok) true .many d s := by
      unfold burnInNext
      rw [hd]
      have hb : isBurningIn burnIn s = true := by unfold isBurningIn; simpa using hn
      simp only [hb, if_true, burnInStep_eq]
    have hs' : s' = (coreStep (env F G ok) true .many d s).sampler := by rw [← heq]
    rw [heq] at hok
    rcases coreStep_vars F G ok hE true .many d s with ⟨-, -, e, h2⟩ | ⟨c, -, -, -, -, h5⟩
    · rw [h2] at hok; cases hok
    · rw [hs', h5]
      simp only [if_true]
      congr 1
      apply congrArg
      funext i
      rw [fedMinv_none (hf d hd)]; rfl

end PySGMCMC.Chain
