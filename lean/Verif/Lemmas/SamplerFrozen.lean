import Verif.Lemmas.SamplerObserve

/-! Helper lemmas for C12: the stored mass matrix under arbitrary histories with failures. -/

namespace PySGMCMC.SamplerBase

variable {V C : Type}

theorem lastMinv_snoc (l : List (RunRec V C)) (rec : RunRec V C) :
    lastMinv (l ++ [rec]) = match rec.fetchMinv, rec.result with
      | true, .ok f => some f.minv
      | _, _ => lastMinv l := by
  induction l with
  | nil =>
    obtain ⟨a, b, c⟩ := rec
    cases a <;> cases c <;> rfl
  | cons r l ih =>
    rw [List.cons_append, lastMinv, ih]
    obtain ⟨a, b, c⟩ := rec
    cases a <;> cases c <;> rfl

/-- The effect of one call on the record of runs: no run, or one run with the expected feed. -/
theorem run_effect (E : Env V C) (flag : Bool) (wrap : List V → Out V) (d : Dict Key V) (s : Sampler (observed E)) :
    let s' := (coreStep (observed E) flag wrap d s).sampler
    (s'.graph.2 = s.graph.2 ∧ s'.minv = s.minv ∧ s'.nIterations = s.nIterations)
    ∨ ∃ b v rec, (nextBatch (observed E) s).1 = .ok b
        ∧ s'.graph.2 = s.graph.2 ++ [rec] ∧ rec.fetchMinv = flag
        ∧ rec.feed = (d.update b).update (Dict.single .epsilon v)
        ∧ s'.minv = (match flag, rec.result with | true, .ok f => some f.minv | _, _ => s.minv) := by
  intro s'
  rcases h : (coreStep (observed E) flag wrap d s).result with e | ⟨o, c⟩
  · obtain ⟨res, batch', hb, ⟨-, h2⟩ | ⟨b, hres, ⟨sc, -, h2⟩ | ⟨v, sc, -, ⟨g, hr, h2⟩ | ⟨f, g, sc2, hr, -, h2⟩⟩⟩⟩ :=
      coreStep_error (observed E) flag wrap d s e h
    · left; simp only [s', h2, and_self]
    · left; simp only [s', h2, and_self]
    · right
      rw [observed_run] at hr
      obtain ⟨ha, hg⟩ := Prod.mk.inj hr
      refine ⟨b, v, ⟨flag, _, .error e⟩, by rw [hb, hres], ?_, rfl, rfl, ?_⟩
      · show (coreStep (observed E) flag wrap d s).sampler.graph.2 = _; rw [h2, ← hg, ← ha]; rfl
      · show (coreStep (observed E) flag wrap d s).sampler.minv = _; rw [h2]; cases flag <;> rfl
    · right
      rw [observed_run] at hr
      obtain ⟨ha, hg⟩ := Prod.mk.inj hr
      refine ⟨b, v, ⟨flag, _, .ok f⟩, by rw [hb, hres], ?_, rfl, rfl, ?_⟩
      · show (coreStep (observed E) flag wrap d s).sampler.graph.2 = _; rw [h2, ← hg, ← ha]; rfl
      · show (coreStep (observed E) flag wrap d s).sampler.minv = _; rw [h2]; cases flag <;> rfl
  · obtain ⟨b, batch', v, sc1, sc2, f, g', hb, -, hr, -, -, -, -, h2⟩ := coreStep_ok (observed E) flag wrap d s o c h
    right
    rw [observed_run] at hr
    obtain ⟨ha, hg⟩ := Prod.mk.inj hr
    refine ⟨b, v, ⟨flag, _, .ok f⟩, by rw [hb], ?_, rfl, rfl, ?_⟩
    · show (coreStep (observed E) flag wrap d s).sampler.graph.2 = _; rw [h2, ← hg, ← ha]; rfl
    · show (coreStep (observed E) flag wrap d s).sampler.minv = _; rw [h2]; cases flag <;> rfl

/-- Invariant of every history (with failures) for `burn_in_steps > 0`. -/
structure Frozen (E : Env V C) (burnIn : Int) (nP : Nat) (s : Sampler (observed E)) : Prop where
  minvOk : MinvOk burnIn s
  stored : s.minv = lastMinv s.graph.2
  after : (∃ rec ∈ s.graph.2, rec.fetchMinv = false) → burnIn ≤ s.nIterations
  fed : ∀ (k : Nat) (rec : RunRec V C), s.graph.2[k]? = some rec → rec.fetchMinv = false →
    ∃ m, lastMinv (s.graph.2.take k) = some m ∧ ∀ i < nP, rec.feed (.minvT i) = m[i]?
  order : ∀ (j k : Nat) (r r' : RunRec V C), j < k → s.graph.2[j]? = some r → s.graph.2[k]? = some r' →
    r.fetchMinv = false → r'.fetchMinv = false

theorem frozen_step (E : Env V C) (hE : BatchesFeedUserGraph E) (burnIn : Int) (h0 : 0 < burnIn) (nP : Nat)
    (feed : Feed V) (s : Sampler (observed E)) (h : Frozen E burnIn nP s) :
    Frozen E burnIn nP (burnInNext (observed E) burnIn nP feed s).sampler := by
  have hmok := burnInNext_minvOk (observed E) burnIn nP feed s h.minvOk
  have hmono : s.nIterations ≤ (burnInNext (observed E) burnIn nP feed s).sampler.nIterations := by
    rw [burnInNext_count]; omega
  cases hd : feed.open with
  | none =>
    have : (burnInNext (observed E) burnIn nP feed s).sampler = s := by unfold burnInNext; rw [hd]
    rw [this]; exact h
  | some d =>
    obtain ⟨-, h2⟩ := burnInNext_eq (observed E) burnIn nP feed d hd s h.minvOk.start
    have heff := run_effect E (isBurningIn burnIn s) (stepWrap (isBurningIn burnIn s)) (startDict burnIn nP s d) s
    simp only at heff
    rw [← h2] at heff
    generalize (burnInNext (observed E) burnIn nP feed s).sampler = s' at hmok hmono heff ⊢
    rcases heff with ⟨e1, e2, e3⟩ | ⟨b, v, rec, hb, e1, e2, e3, e4⟩
    · constructor
      · exact hmok
      · rw [e2, e1]; exact h.stored
      · rw [e1, e3]; exact h.after
      · rw [e1]; exact h.fed
      · rw [e1]; exact h.order
    · have hbn : ∀ i, b (.minvT i) = none := by
        intro i
        unfold nextBatch at hb
        cases hsb : s.batch with
        | none => rw [hsb] at hb; simp only [Except.ok.injEq] at hb; rw [← hb]; rfl
        | some b0 =>
          rw [hsb] at hb
          rcases hbb : E.batchNext b0 with ⟨r, b1⟩
          have : r = .ok b := by
            have h3 : (E.batchNext b0).1 = .ok b := hb
            rw [hbb] at h3; exact h3
          subst this
          exact hE b0 b b1 hbb i
      constructor
      · exact hmok
      · rw [e1, lastMinv_snoc, e4, e2, h.stored]
      · rintro ⟨r, hr, hrf⟩
        rw [e1, List.mem_append, List.mem_singleton] at hr
        rcases hr with hr | rfl
        · have := h.after ⟨r, hr, hrf⟩; omega
        · rw [e2] at hrf
          unfold isBurningIn at hrf
          simp only [decide_eq_false_iff_not] at hrf
          omega
      · intro k r hk hrf
        rw [e1] at hk ⊢
        by_cases hkl : k < s.graph.2.length
        · rw [List.getElem?_append_left hkl] at hk
          rw [List.take_append_of_le_length (by omega)]
          exact h.fed k r hk hrf
        · have hk2 : k = s.graph.2.length := by
            have := (List.getElem?_eq_some_iff.1 hk).1
            simp only [List.length_append, List.length_cons, List.length_nil] at this
            omega
          subst hk2
          rw [List.getElem?_append_right (Nat.le_refl _)] at hk
          simp only [Nat.sub_self, List.getElem?_cons_zero, Option.some.injEq] at hk
          subst hk
          rw [List.take_append_of_le_length (Nat.le_refl _), List.take_length]
          rw [e2] at hrf
          have hne := h.minvOk.start h0 hrf
          cases hm : s.minv with
          | none => exact absurd hm hne
          | some m =>
            refine ⟨m, by rw [← h.stored, hm], fun i hi => ?_⟩
            rw [e3, update_single, if_neg (by simp), hbn i]
            unfold startDict
            rw [hrf, if_neg (by simp), if_pos h0, hm, Option.getD_some, minvDict_apply]
            simp only
            rw [if_pos hi]
      · intro j k r r' hjk hj hk hrf
        rw [e1] at hj hk
        have hkl : k < s.graph.2.length + 1 := by
          have := (List.getElem?_eq_some_iff.1 hk).1
          simpa using this
        rw [List.getElem?_append_left (by omega)] at hj
        by_cases hkl' : k < s.graph.2.length
        · rw [List.getElem?_append_left hkl'] at hk
          exact h.order j k r r' hjk hj hk hrf
        · have hk2 : k = s.graph.2.length := by omega
          subst hk2
          rw [List.getElem?_append_right (Nat.le_refl _)] at hk
          simp only [Nat.sub_self, List.getElem?_cons_zero, Option.some.injEq] at hk
          subst hk
          have := h.after ⟨r, List.mem_of_getElem? hj, hrf⟩
          rw [e2]
          unfold isBurningIn
          simp only [decide_eq_false_iff_not]
          omega

theorem frozen_history (E : Env V C) (hE : BatchesFeedUserGraph E) (burnIn : Int) (h0 : 0 < burnIn) (nP : Nat)
    (batch : Option E.Batch) (sched : E.Sched) (graph : E.Graph) (fs : List (Feed V)) :
    Frozen E burnIn nP (history (burnInNext (observed E) burnIn nP) fs (startObserved batch sched graph)).2 :=
  history_inv (burnInNext (observed E) burnIn nP) (Frozen E burnIn nP)
    (fun f s h => frozen_step E hE burnIn h0 nP f s h) fs _
    { minvOk := fun _ h => by simp [startObserved, init] at h
      stored := rfl
      after := by rintro ⟨r, h, -⟩; simp [startObserved, init] at h
      fed := by intro k r h; simp [startObserved, init] at h
      order := by intro j k r r' _ h; simp [startObserved, init] at h }

end PySGMCMC.SamplerBase

namespace PySGMCMC.SamplerBase
variable {V C : Type}

/-- Once enough samples were drawn, every further run is fed the stored mass matrix. -/
theorem frozen_tail (E : Env V C) (hE : BatchesFeedUserGraph E) (burnIn : Int) (h0 : 0 < burnIn) (nP : Nat)
    (m : List V) (gs : List (Feed V)) (s : Sampler (observed E)) (hm : s.minv = some m)
    (hn : burnIn ≤ s.nIterations) :
    ∃ l, (history (burnInNext (observed E) burnIn nP) gs s).2.graph.2 = s.graph.2 ++ l
      ∧ (∀ rec ∈ l, rec.fetchMinv = false ∧ ∀ i < nP, rec.feed (.minvT i) = m[i]?)
      ∧ (history (burnInNext (observed E) burnIn nP) gs s).2.minv = some m := by
  induction gs generalizing s with
  | nil => exact ⟨[], by simp [history_nil], by simp, hm⟩
  | cons f gs ih =>
    rw [history_cons]
    simp only
    cases hd : f.open with
    | none =>
      have : (burnInNext (observed E) burnIn nP f s).sampler = s := by unfold burnInNext; rw [hd]
      rw [this]; exact ih s hm hn
    | some d =>
      have hburn : isBurningIn burnIn s = false := by
        unfold isBurningIn; simp only [decide_eq_false_iff_not]; omega
      obtain ⟨-, h2⟩ := burnInNext_eq (observed E) burnIn nP f d hd s (fun _ _ => by rw [hm]; simp)
      have heff := run_effect E (isBurningIn burnIn s) (stepWrap (isBurningIn burnIn s)) (startDict burnIn nP s d) s
      have hmono : s.nIterations ≤ (burnInNext (observed E) burnIn nP f s).sampler.nIterations := by
        rw [burnInNext_count]; omega
      simp only at heff
      rw [← h2] at heff
      generalize (burnInNext (observed E) burnIn nP f s).sampler = s' at hmono heff ⊢
      rcases heff with ⟨e1, e2, e3⟩ | ⟨b, v, rec, hb, e1, e2, e3, e4⟩
      · obtain ⟨l, i1, i2, i3⟩ := ih s' (by rw [e2, hm]) (by omega)
        exact ⟨l, by rw [i1, e1], i2, i3⟩
      · have hm' : s'.minv = some m := by rw [e4, hburn]; simpa using hm
        obtain ⟨l, i1, i2, i3⟩ := ih s' hm' (by omega)
        refine ⟨rec :: l, by rw [i1, e1]; simp, ?_, i3⟩
        intro r hr
        rcases List.mem_cons.1 hr with rfl | hr
        · refine ⟨by rw [e2, hburn], fun i hi => ?_⟩
          have hbn : b (.minvT i) = none := by
            unfold nextBatch at hb
            cases hsb : s.batch with
            | none => rw [hsb] at hb; simp only [Except.ok.injEq] at hb; rw [← hb]; rfl
            | some b0 =>
              rw [hsb] at hb
              have h3 : (E.batchNext b0).1 = .ok b := hb
              exact hE b0 b (E.batchNext b0).2 (by rw [← h3]) i
          rw [e3, update_single, if_neg (by simp), hbn]
          unfold startDict
          rw [hburn, if_neg (by simp), if_pos h0, hm, Option.getD_some, minvDict_apply]
          simp only
          rw [if_pos hi]
        · exact i2 r hr

end PySGMCMC.SamplerBase
