import Verif.Lemmas.SamplerObserve

/-! Recording does not change behaviour; iteration over a finite batch source. -/

namespace PySGMCMC.SamplerBase
variable {V C : Type}

theorem coreStep_err1 (E : Env V C) (flag : Bool) (wrap : List V → Out V) (d : Dict Key V) {s s1 : Sampler E}
    {e : PyErr} (h1 : nextBatch E s = (.error e, s1)) : coreStep E flag wrap d s = ⟨.error e, d, s1⟩ := by
  unfold coreStep updateFeed; rw [h1]

theorem coreStep_err2 (E : Env V C) (flag : Bool) (wrap : List V → Out V) (d : Dict Key V) {s s1 : Sampler E}
    {bb : Dict Key V} {e : PyErr} {sc : E.Sched} (h1 : nextBatch E s = (.ok bb, s1)) (h2 : E.schedNext s1.sched = (.error e, sc)) :
    coreStep E flag wrap d s = ⟨.error e, d.update bb, { s1 with sched := sc }⟩ := by
  unfold coreStep updateFeed nextStepsize; simp only [h1, h2]

theorem coreStep_err3 (E : Env V C) (flag : Bool) (wrap : List V → Out V) (d : Dict Key V) {s s1 : Sampler E}
    {bb : Dict Key V} {e : PyErr} {v : V} {sc : E.Sched} {g : E.Graph} (h1 : nextBatch E s = (.ok bb, s1))
    (h2 : E.schedNext s1.sched = (.ok v, sc))
    (h3 : E.run s1.graph flag ((d.update bb).update (Dict.single .epsilon v)) = (.error e, g)) :
    coreStep E flag wrap d s
      = ⟨.error e, (d.update bb).update (Dict.single .epsilon v), { s1 with sched := sc, graph := g }⟩ := by
  unfold coreStep updateFeed nextStepsize; simp only [h1, h2, h3]

theorem coreStep_err4 (E : Env V C) (flag : Bool) (wrap : List V → Out V) (d : Dict Key V) {s s1 : Sampler E}
    {bb : Dict Key V} {r : Except PyErr Unit} {v : V} {sc sc' : E.Sched} {g : E.Graph} {f : Fetched V C}
    (h1 : nextBatch E s = (.ok bb, s1)) (h2 : E.schedNext s1.sched = (.ok v, sc))
    (h3 : E.run s1.graph flag ((d.update bb).update (Dict.single .epsilon v)) = (.ok f, g))
    (h4 : E.schedUpdate sc (wrap f.params) f.cost = (r, sc')) :
    coreStep E flag wrap d s
      = ⟨match r with | .error e => .error e | .ok _ => .ok (wrap f.params, f.cost),
         (d.update bb).update (Dict.single .epsilon v),
         ⟨match r with | .error _ => s1.nIterations | .ok _ => s1.nIterations + 1,
          if flag then some f.minv else s1.minv, s1.batch, sc', g⟩⟩ := by
  unfold coreStep updateFeed nextStepsize finish; simp only [h1, h2, h3, h4]; cases r <;> rfl

theorem forget_coreStep (E : Env V C) (flag : Bool) (wrap : List V → Out V) (d : Dict Key V)
    (s : Sampler (observed E)) :
    (coreStep (observed E) flag wrap d s).result = (coreStep E flag wrap d (forget s)).result
    ∧ forget (coreStep (observed E) flag wrap d s).sampler = (coreStep E flag wrap d (forget s)).sampler := by
  obtain ⟨n, m, b, ⟨sc, ul⟩, ⟨g, rl⟩⟩ := s
  have key : ∀ (bb : Dict Key V) (b' : Option E.Batch),
      nextBatch (observed E) ⟨n, m, b, (sc, ul), (g, rl)⟩ = (.ok bb, ⟨n, m, b', (sc, ul), (g, rl)⟩) →
      nextBatch E ⟨n, m, b, sc, g⟩ = (.ok bb, ⟨n, m, b', sc, g⟩) →
      (coreStep (observed E) flag wrap d ⟨n, m, b, (sc, ul), (g, rl)⟩).result = (coreStep E flag wrap d ⟨n, m, b, sc, g⟩).result
      ∧ forget (coreStep (observed E) flag wrap d ⟨n, m, b, (sc, ul), (g, rl)⟩).sampler = (coreStep E flag wrap d ⟨n, m, b, sc, g⟩).sampler := by
    intro bb b' h1 h2
    rcases hs : E.schedNext sc with ⟨e | v, sc1⟩
    · have hs' : (observed E).schedNext (sc, ul) = (.error e, (sc1, ul)) := by simp only [hs]
      rw [coreStep_err2 _ _ _ _ h1 hs', coreStep_err2 _ _ _ _ h2 hs]
      exact ⟨rfl, rfl⟩
    have hs' : (observed E).schedNext (sc, ul) = (.ok v, (sc1, ul)) := by simp only [hs]
    rcases hr : E.run g flag ((d.update bb).update (Dict.single .epsilon v)) with ⟨e | f, g'⟩
    · have hr' := observed_run E (g, rl) flag ((d.update bb).update (Dict.single .epsilon v))
      rw [hr] at hr'
      rw [coreStep_err3 _ _ _ _ h1 hs' hr', coreStep_err3 _ _ _ _ h2 hs hr]
      exact ⟨rfl, rfl⟩
    have hr' := observed_run E (g, rl) flag ((d.update bb).update (Dict.single .epsilon v))
    rw [hr] at hr'
    rcases hu : E.schedUpdate sc1 (wrap f.params) f.cost with ⟨r, sc2⟩
    have hu' : (observed E).schedUpdate (sc1, ul) (wrap f.params) f.cost = (r, (sc2, ul ++ [(wrap f.params, f.cost)])) := by
      simp only [hu]
    rw [coreStep_err4 _ _ _ _ h1 hs' hr' hu', coreStep_err4 _ _ _ _ h2 hs hr hu]
    cases r <;> exact ⟨rfl, rfl⟩
  cases b with
  | none => exact key Dict.empty none rfl rfl
  | some b =>
    rcases hb : E.batchNext b with ⟨e | bb, b'⟩
    · have h1 : nextBatch (observed E) ⟨n, m, some b, (sc, ul), (g, rl)⟩ = (.error e, ⟨n, m, some b', (sc, ul), (g, rl)⟩) := by
        unfold nextBatch; simp only [hb]
      have h2 : nextBatch E ⟨n, m, some b, sc, g⟩ = (.error e, ⟨n, m, some b', sc, g⟩) := by
        unfold nextBatch; simp only [hb]
      rw [coreStep_err1 _ _ _ _ h1]
      unfold forget
      rw [coreStep_err1 _ _ _ _ h2]
      exact ⟨rfl, rfl⟩
    · refine key bb (some b') ?_ ?_
      · unfold nextBatch; simp only [hb]
      · unfold nextBatch; simp only [hb]

theorem forget_burnInNext (E : Env V C) (burnIn : Int) (nP : Nat) (f : Feed V) (s : Sampler (observed E)) :
    (burnInNext (observed E) burnIn nP f s).result = (burnInNext E burnIn nP f (forget s)).result
    ∧ forget (burnInNext (observed E) burnIn nP f s).sampler = (burnInNext E burnIn nP f (forget s)).sampler := by
  unfold burnInNext
  cases f.open with
  | none => exact ⟨rfl, rfl⟩
  | some d =>
    have h1 : isBurningIn burnIn (forget s) = isBurningIn burnIn s := rfl
    have h2 : (forget s).minv = s.minv := rfl
    simp only [h1, h2]
    split
    · exact forget_coreStep E true .many d s
    · split
      · cases s.minv with
        | none => exact ⟨rfl, rfl⟩
        | some m => exact forget_coreStep E false unravel _ s
      · exact forget_coreStep E false unravel d s

theorem islice_exhausts (E : Env V C) (hR : Reliable E) (burnIn : Int) (nP : Nat) (m : Nat) :
    ∀ (k : Nat) (b : E.Batch) (s : Sampler E), Exhausts E k b → s.batch = some b → MinvOk burnIn s →
    ∃ l s', islice (asIter (burnInNext E burnIn nP)) m s = (.ok l, s') ∧ l.length = min k m := by
  induction m with
  | zero => intro k b s _ _ _; exact ⟨[], s, rfl, by simp⟩
  | succ m ih =>
    intro k b s hk hb hm
    obtain ⟨h1, h2⟩ := burnInNext_eq E burnIn nP .none Dict.empty rfl s hm.start
    have hm' := burnInNext_minvOk E burnIn nP .none s hm
    cases k with
    | zero =>
      have hres : (burnInNext E burnIn nP .none s).result = .error .stopIteration := by
        rw [h1]
        unfold coreStep updateFeed nextBatch
        rw [hb]
        simp only [Exhausts] at hk
        rcases hbn : E.batchNext b with ⟨r, b'⟩
        rw [hbn] at hk
        simp only at hk
        subst hk
        simp only [hbn]
      refine ⟨[], (burnInNext E burnIn nP .none s).sampler, ?_, by simp⟩
      unfold islice asIter
      simp only [hres]
    | succ k =>
      obtain ⟨d, b', hbn, hk'⟩ := hk
      obtain ⟨v, sc, hsn⟩ := hR.next s.sched
      obtain ⟨f, g, hr⟩ := hR.run s.graph (isBurningIn burnIn s)
        (((startDict burnIn nP s Dict.empty).update d).update (Dict.single .epsilon v))
      obtain ⟨sc', hu⟩ := hR.update sc (stepWrap (isBurningIn burnIn s) f.params) f.cost
      have hcs : ∃ x s', coreStep E (isBurningIn burnIn s) (stepWrap (isBurningIn burnIn s)) (startDict burnIn nP s Dict.empty) s
          = ⟨.ok x, ((startDict burnIn nP s Dict.empty).update d).update (Dict.single .epsilon v), s'⟩
            ∧ s'.batch = some b' := by
        unfold coreStep updateFeed nextBatch nextStepsize
        rw [hb]
        simp only [hbn, hsn, hr, finish, hu]
        exact ⟨_, _, rfl, rfl⟩
      obtain ⟨x, s', hcs, hb'⟩ := hcs
      rw [hcs] at h1 h2
      simp only at h1 h2
      rw [h2] at hm'
      obtain ⟨l, s'', hl, hlen⟩ := ih k b' s' hk' hb' hm'
      refine ⟨x :: l, s'', ?_, by simp [hlen]⟩
      unfold islice
      simp only [asIter, h1, h2]
      rw [hl]

end PySGMCMC.SamplerBase
