import Verif.Lemmas.SamplerFrozen
import Verif.Lemmas.SamplerIter

/-!
# C09–C12, C14–C16: the iteration protocol of the samplers

`history (burnInNext E burnIn nP) fs (init …)` is what happens if `sampler.__next__(f)` is called for each `f` in
`fs` on a freshly constructed sampler, whatever the batch generator, the schedule and the session do (`E`).
`observed E` additionally records the session runs (`graph.2`) and the `schedule.update` calls (`sched.2`).
-/

namespace PySGMCMC.SamplerBase

variable {V C : Type}

/-! ## Recording does not change behaviour -/

/-- Observing a sampler does not change what it does. -/
theorem C10_recording_is_transparent (E : Env V C) (burnIn : Int) (nP : Nat) (fs : List (Feed V))
    (s : Sampler (observed E)) :
    (history (burnInNext (observed E) burnIn nP) fs s).1 = (history (burnInNext E burnIn nP) fs (forget s)).1
    ∧ forget (history (burnInNext (observed E) burnIn nP) fs s).2
        = (history (burnInNext E burnIn nP) fs (forget s)).2 := by
  induction fs generalizing s with
  | nil => exact ⟨rfl, rfl⟩
  | cons f fs ih =>
    obtain ⟨h1, h2⟩ := forget_burnInNext E burnIn nP f s
    obtain ⟨h3, h4⟩ := ih (burnInNext (observed E) burnIn nP f s).sampler
    rw [history_cons, history_cons]
    simp only
    rw [h1, h3, h4, h2]
    exact ⟨rfl, rfl⟩

/-- The samplers without burn-in behave like a burn-in sampler with `burn_in_steps = 0`. -/
theorem C10_base_sampler (E : Env V C) (nP : Nat) : baseNext E = burnInNext E 0 nP := by
  funext f s
  unfold baseNext burnInNext
  cases f.open with
  | none => rfl
  | some d =>
    have : isBurningIn 0 s = false := by unfold isBurningIn; simp only [decide_eq_false_iff_not]; omega
    simp only [this, Bool.false_eq_true, if_false, gt_iff_lt, Int.lt_irrefl]

/-! ## C09 -/

/-- C09: `n_iterations` counts the successful calls and `is_burning_in` holds exactly while fewer than
`burn_in_steps` of them have succeeded. -/
theorem C09_counting (E : Env V C) (burnIn : Int) (nP : Nat) (batch : Option E.Batch) (sched : E.Sched)
    (graph : E.Graph) (fs : List (Feed V)) :
    let r := history (burnInNext E burnIn nP) fs (init batch sched graph)
    r.2.nIterations = countOk r.1 ∧ (isBurningIn burnIn r.2 = true ↔ (countOk r.1 : Int) < burnIn) := by
  intro r
  have h : r.2.nIterations = countOk r.1 := by
    have := history_count (burnInNext E burnIn nP) (burnInNext_count E burnIn nP) fs (init batch sched graph)
    rw [show (init batch sched graph).nIterations = 0 from rfl, Nat.zero_add] at this
    exact this
  refine ⟨h, ?_⟩
  unfold isBurningIn
  rw [h]; simp

/-- C09 for samplers without burn-in. -/
theorem C09_counting_base (E : Env V C) (batch : Option E.Batch) (sched : E.Sched)
    (graph : E.Graph) (fs : List (Feed V)) :
    let r := history (baseNext E) fs (init batch sched graph)
    r.2.nIterations = countOk r.1 := by
  rw [C10_base_sampler E 0]
  exact (C09_counting E 0 0 batch sched graph fs).1

/-! ## C10 -/

/-- C10: in a chain of `n` successful steps there are exactly `n` session runs; run `k` is fed the `k`-th batch,
the `k`-th stepsize and, after burn-in, the mass matrix returned by the last burn-in run, and nothing else; it
produces sample `k`, with which the schedule is updated (once per step, in order). -/
theorem C10_step_k (E : Env V C) (burnIn : Int) (nP : Nat) (batch : Option E.Batch) (sched : E.Sched)
    (graph : E.Graph) (n : Nat) (results : List (Out V × C))
    (hok : (calls (asIter (burnInNext (observed E) burnIn nP)) n (startObserved batch sched graph)).1
      = results.map .ok) :
    let s := (calls (asIter (burnInNext (observed E) burnIn nP)) n (startObserved batch sched graph)).2
    let runs := s.graph.2
    runs.length = n ∧ s.sched.2 = results
    ∧ ∃ bs steps, batches E batch n = List.map .ok bs ∧ bs.length = n
      ∧ stepsizes E sched results = steps ∧ steps.length = n
      ∧ ∀ k < n, ∃ rec b v f, runs[k]? = some rec ∧ bs[k]? = some b ∧ steps[k]? = some v
        ∧ rec.result = .ok f
        ∧ rec.fetchMinv = decide ((k : Int) < burnIn)
        ∧ results[k]? = some (if (k : Int) < burnIn then .many f.params else unravel f.params, f.cost)
        ∧ rec.feed .epsilon = some v
        ∧ ∀ key, key ≠ .epsilon → rec.feed key =
            match b key with
            | some w => some w
            | none =>
              if 0 < burnIn ∧ burnIn ≤ k then
                match key, runs[burnIn.toNat - 1]? with
                | .minvT i, some ⟨_, _, .ok f⟩ => if i < nP then f.minv[i]? else none
                | _, _ => none
              else none := by
  intro s runs
  have hn : results.length = n := by
    have := congrArg List.length hok
    simpa using this.symm
  have h := recorded_calls E burnIn nP batch sched graph results n hok
  obtain ⟨bs, hbs⟩ := h.batchOk
  have hbl : bs.length = n := by
    have := congrArg List.length hbs
    rw [List.length_map, hn] at this
    rw [← this]
    cases batch <;> simp [batches]
  refine ⟨h.runs.trans hn, h.updates, bs, stepsizes E sched results, by rw [← hn, hbs], hbl, rfl,
    h.steps.trans hn, fun k hk => ?_⟩
  have h1 : runs[k]? = some (runs[k]'(by rw [show runs.length = results.length from h.runs]; omega)) :=
    List.getElem?_eq_getElem _
  have h2 : bs[k]? = some (bs[k]'(by omega)) := List.getElem?_eq_getElem _
  have h3 : (stepsizes E sched results)[k]? = some ((stepsizes E sched results)[k]'(by rw [h.steps]; omega)) :=
    List.getElem?_eq_getElem _
  obtain ⟨f1, ⟨f, f2, f3⟩, f4⟩ := h.feeds k _ h1
  have f5 := f4 _ _ (by rw [hbs, List.getElem?_map, h2]; rfl) h3
  refine ⟨_, _, _, f, h1, h2, h3, f2, f1, f3, ?_, ?_⟩
  · rw [f5, if_pos rfl]
  · intro key hkey
    rw [f5, if_neg hkey]
    rfl

/-! ## C11 -/

/-- C11: a call that raises does not count; the exception and the state show exactly how far it got. -/
theorem C11_failed_step (E : Env V C) (burnIn : Int) (nP : Nat) (batch : Option E.Batch) (sched : E.Sched)
    (graph : E.Graph) (fs : List (Feed V)) (feed : Feed V) (e : PyErr)
    (s : Sampler E) (hs : s = (history (burnInNext E burnIn nP) fs (init batch sched graph)).2)
    (he : (burnInNext E burnIn nP feed s).result = .error e) :
    let s' := (burnInNext E burnIn nP feed s).sampler
    s'.nIterations = s.nIterations
    ∧ (-- `feed_dict` is not a dictionary: nothing happened
      (feed.open = none ∧ e = .assertion ∧ s' = s)
      -- no batch
      ∨ (∃ b b', s.batch = some b ∧ E.batchNext b = (.error e, b') ∧ s' = { s with batch := some b' })
      -- no stepsize
      ∨ (∃ batch' sc, E.schedNext s.sched = (.error e, sc) ∧ s' = { s with batch := batch', sched := sc })
      -- the session failed
      ∨ (∃ d batch' v sc g, E.schedNext s.sched = (.ok v, sc) ∧ E.run s.graph (isBurningIn burnIn s) d = (.error e, g)
          ∧ s' = { s with batch := batch', sched := sc, graph := g })
      -- the schedule refused the update
      ∨ (∃ d batch' v sc sc' f g o, E.schedNext s.sched = (.ok v, sc)
          ∧ E.run s.graph (isBurningIn burnIn s) d = (.ok f, g) ∧ E.schedUpdate sc o f.cost = (.error e, sc')
          ∧ s' = { s with batch := batch', sched := sc', graph := g,
                          minv := if isBurningIn burnIn s then some f.minv else s.minv })) := by
  intro s'
  refine ⟨?_, ?_⟩
  · show (burnInNext E burnIn nP feed s).sampler.nIterations = _
    rw [burnInNext_count, he]; rfl
  cases hd : feed.open with
  | none =>
    left
    unfold burnInNext at he
    rw [hd] at he
    simp only [Except.error.injEq] at he
    refine ⟨rfl, he.symm, ?_⟩
    show (burnInNext E burnIn nP feed s).sampler = s
    unfold burnInNext; rw [hd]
  | some d =>
    right
    have hmok : MinvOk burnIn s := by
      rw [hs]
      exact history_inv _ (MinvOk burnIn) (fun f s h => burnInNext_minvOk E burnIn nP f s h) fs _
        (fun _ h => by simp [init] at h)
    obtain ⟨h1, h2⟩ := burnInNext_eq E burnIn nP feed d hd s hmok.start
    have h2' : s' = _ := h2
    rw [h1] at he
    rw [h2']
    obtain ⟨res, batch', hb, ⟨hres, h3⟩ | ⟨b, hres, ⟨sc, hsc, h3⟩ | ⟨v, sc, hsc, ⟨g, hr, h3⟩ | ⟨f, g, sc2, hr, hu, h3⟩⟩⟩⟩ :=
      coreStep_error E _ _ _ s e he
    · left
      unfold nextBatch at hb
      cases hsb : s.batch with
      | none => rw [hsb, hres] at hb; simp at hb
      | some b =>
        rw [hsb, hres] at hb
        simp only [Prod.mk.injEq] at hb
        refine ⟨b, (E.batchNext b).2, rfl, ?_, ?_⟩
        · rw [← hb.1]
        · rw [h3]; exact hb.2.symm
    · exact .inr (.inl ⟨batch', sc, hsc, h3⟩)
    · exact .inr (.inr (.inl ⟨_, batch', v, sc, g, hsc, hr, h3⟩))
    · exact .inr (.inr (.inr ⟨_, batch', v, sc, sc2, f, g, _, hsc, hr, hu, h3⟩))

/-! ## C12 -/

/-- C12: once `burn_in_steps` calls have succeeded, every later session run is fed the mass matrix returned by the
last run before, whatever fails or succeeds in between, and it is never fetched again. -/
theorem C12_mass_matrix_frozen (E : Env V C) (hE : BatchesFeedUserGraph E) (burnIn : Int) (h0 : 0 < burnIn)
    (nP : Nat) (batch : Option E.Batch) (sched : E.Sched) (graph : E.Graph) (fs gs : List (Feed V)) :
    let r := history (burnInNext (observed E) burnIn nP) fs (startObserved batch sched graph)
    let r' := history (burnInNext (observed E) burnIn nP) (fs ++ gs) (startObserved batch sched graph)
    burnIn ≤ countOk r.1 →
    ∃ m later, lastMinv r.2.graph.2 = some m ∧ r'.2.graph.2 = r.2.graph.2 ++ later
      ∧ ∀ rec ∈ later, rec.fetchMinv = false ∧ ∀ i < nP, rec.feed (.minvT i) = m[i]? := by
  intro r r' hn
  have hf := frozen_history E hE burnIn h0 nP batch sched graph fs
  have hc : r.2.nIterations = countOk r.1 :=
    (C09_counting (observed E) burnIn nP batch (sched, []) (graph, []) fs).1
  have hb : burnIn ≤ r.2.nIterations := by rw [hc]; exact hn
  cases hm : r.2.minv with
  | none => exact absurd hm (hf.minvOk h0 (show 0 < r.2.nIterations by omega))
  | some m =>
    obtain ⟨l, h1, h2, -⟩ := frozen_tail E hE burnIn h0 nP m gs r.2 hm hb
    refine ⟨m, l, ?_, ?_, h2⟩
    · rw [← hf.stored]; exact hm
    · show (history (burnInNext (observed E) burnIn nP) (fs ++ gs) (startObserved batch sched graph)).2.graph.2 = _
      rw [history_append]; exact h1

/-- C12 (before the boundary): during burn-in every run fetches the mass matrix, and none is fed. -/
theorem C12_adapting_during_burn_in (E : Env V C) (burnIn : Int) (nP : Nat) (s : Sampler (observed E))
    (hb : (s.nIterations : Int) < burnIn) :
    (burnInNext (observed E) burnIn nP .none s).sampler.graph.2 = s.graph.2
    ∨ ∃ rec, (burnInNext (observed E) burnIn nP .none s).sampler.graph.2 = s.graph.2 ++ [rec]
      ∧ rec.fetchMinv = true ∧ (BatchesFeedUserGraph E → ∀ i, rec.feed (.minvT i) = none) := by
  have hburn : isBurningIn burnIn s = true := by unfold isBurningIn; simpa using hb
  have heq : burnInNext (observed E) burnIn nP .none s = burnInStep (observed E) Dict.empty s := by
    unfold burnInNext Feed.open
    simp only [hburn, if_true]
  rw [heq, burnInStep_eq]
  rcases run_effect E true .many Dict.empty s with ⟨e1, -, -⟩ | ⟨b, v, rec, hbb, e1, e2, e3, -⟩
  · exact .inl e1
  · refine .inr ⟨rec, e1, e2, fun hE i => ?_⟩
    rw [e3, update_single, if_neg (by simp)]
    have hbn : b (.minvT i) = none := by
      unfold nextBatch at hbb
      cases hsb : s.batch with
      | none => rw [hsb] at hbb; simp only [Except.ok.injEq] at hbb; rw [← hbb]; rfl
      | some b0 =>
        rw [hsb] at hbb
        have h3 : (E.batchNext b0).1 = .ok b := hbb
        exact hE b0 b (E.batchNext b0).2 (by rw [← h3]) i
    rw [hbn]; rfl

/-! ## C14 -/

/-- C14, what holds: the form of a sample is determined by the phase and the number of parameters, and for two or
more parameters it is always the list of all of them. Missing: for a single parameter the form changes at the
burn-in boundary, see `C14_violated`. -/
theorem C14_sample_form_partial (E : Env V C) (burnIn : Int) (nP : Nat) (hE : ReturnsParams E nP)
    (batch : Option E.Batch) (sched : E.Sched) (graph : E.Graph) (fs : List (Feed V)) (feed : Feed V) (o : Out V) (c : C)
    (s : Sampler E) (hs : s = (history (burnInNext E burnIn nP) fs (init batch sched graph)).2)
    (hok : (burnInNext E burnIn nP feed s).result = .ok (o, c)) :
    (nP ≠ 1 → ∃ l, o = .many l ∧ l.length = nP)
    ∧ (nP = 1 → (s.nIterations : Int) < burnIn → ∃ v, o = .many [v])
    ∧ (nP = 1 → burnIn ≤ (s.nIterations : Int) → ∃ v, o = .one v) := by
  have hmok : MinvOk burnIn s := by
    rw [hs]
    exact history_inv _ (MinvOk burnIn) (fun f s h => burnInNext_minvOk E burnIn nP f s h) fs _
      (fun _ h => by simp [init] at h)
  cases hd : feed.open with
  | none => unfold burnInNext at hok; rw [hd] at hok; cases hok
  | some d =>
    obtain ⟨h1, -⟩ := burnInNext_eq E burnIn nP feed d hd s hmok.start
    rw [h1] at hok
    obtain ⟨b, batch', v, sc1, sc2, f, g', -, -, hr, ho, -, -, -, -⟩ := coreStep_ok E _ _ _ s o c hok
    have hl := hE _ _ _ _ _ hr
    rw [ho]
    unfold stepWrap isBurningIn
    refine ⟨fun h => ⟨f.params, ?_, hl⟩, fun h hb => ?_, fun h hb => ?_⟩
    · split
      · rfl
      · unfold unravel
        split
        · rename_i v0 h0; rw [h0] at hl; exact absurd hl.symm h
        · rfl
    · rw [if_pos (by simpa using hb)]
      rw [h] at hl
      obtain ⟨w, hw⟩ := List.length_eq_one_iff.1 hl
      exact ⟨w, by rw [hw]⟩
    · rw [if_neg (by simp only [decide_eq_true_eq]; omega)]
      rw [h] at hl
      obtain ⟨w, hw⟩ := List.length_eq_one_iff.1 hl
      exact ⟨w, by rw [hw]; rfl⟩

/-- C14 is violated: for every environment in which nothing fails, a burn-in sampler with a single parameter
returns lists during burn-in and bare arrays afterwards. -/
theorem C14_violated (E : Env V C) (burnIn : Int) (h0 : 0 < burnIn) (hE : ReturnsParams E 1)
    (batch : Option E.Batch) (sched : E.Sched) (graph : E.Graph) (n : Nat) (hn : burnIn < n) (results : List (Out V × C))
    (hok : (calls (asIter (burnInNext E burnIn 1)) n (init batch sched graph)).1 = results.map .ok) :
    ∃ v w c d, results[0]? = some (.many [v], c) ∧ results[burnIn.toNat]? = some (.one w, d) := by
  have key : ∀ k < n, ∃ o c, results[k]? = some (o, c) ∧
      (((k : Int) < burnIn → ∃ v, o = .many [v]) ∧ (burnIn ≤ (k : Int) → ∃ v, o = .one v)) := by
    intro k hk
    have hg := calls_get (asIter (burnInNext E burnIn 1)) n k (init batch sched graph) hk
    rw [hok, List.getElem?_map] at hg
    cases hr : results[k]? with
    | none => rw [hr] at hg; cases hg
    | some oc =>
      obtain ⟨o, c⟩ := oc
      rw [hr] at hg
      simp only [Option.map_some, Option.some.injEq] at hg
      have hs : (calls (asIter (burnInNext E burnIn 1)) k (init batch sched graph)).2
          = (history (burnInNext E burnIn 1) (List.replicate k .none) (init batch sched graph)).2 := by
        rw [calls_eq_history]
      have hcount : (calls (asIter (burnInNext E burnIn 1)) k (init batch sched graph)).2.nIterations = k := by
        rw [hs, (C09_counting E burnIn 1 batch sched graph _).1, ← calls_eq_history]
        have hpre : (calls (asIter (burnInNext E burnIn 1)) k (init batch sched graph)).1 = (results.take k).map .ok := by
          have h2 : n = k + (n - k) := by omega
          rw [h2, calls_add] at hok
          simp only at hok
          have := congrArg (List.take k) hok
          rw [List.take_append_of_le_length (by simp), List.take_of_length_le (by simp)] at this
          rw [this, List.map_take]
        rw [hpre]
        unfold countOk
        rw [List.countP_map, List.countP_eq_length.2 (by intro a _; rfl), List.length_take]
        have : results.length = n := by
          have := congrArg List.length hok
          simpa using this.symm
        omega
      have hform := C14_sample_form_partial E burnIn 1 hE batch sched graph (List.replicate k .none) .none o c _ hs hg.symm
      rw [hcount] at hform
      exact ⟨o, c, rfl, hform.2.1 rfl, hform.2.2 rfl⟩
  obtain ⟨o, c, h1, h2, -⟩ := key 0 (by omega)
  obtain ⟨o', c', h1', -, h3'⟩ := key burnIn.toNat (by omega)
  obtain ⟨v, rfl⟩ := h2 (by simpa using h0)
  obtain ⟨w, rfl⟩ := h3' (by omega)
  exact ⟨v, w, c, c', h1, h1'⟩

/-! ## C15 -/

/-- C15, what holds: samplers without burn-in phase, and burn-in samplers while they burn in, feed the caller's
values except where batch or stepsize define the same key. Missing: the sampling phase of a burn-in sampler with
`burn_in_steps > 0`, see `C15_violated`. -/
theorem C15_feed_dict_partial (E : Env V C) (burnIn : Int) (nP : Nat) (d : Dict Key V) (s : Sampler (observed E))
    (hphase : burnIn ≤ 0 ∨ (s.nIterations : Int) < burnIn) :
    let s' := (burnInNext (observed E) burnIn nP (.dict d) s).sampler
    s'.graph.2 = s.graph.2
    ∨ ∃ rec b v, s'.graph.2 = s.graph.2 ++ [rec] ∧ (nextBatch (observed E) s).1 = .ok b
      ∧ rec.feed .epsilon = some v
      ∧ ∀ key, key ≠ .epsilon → rec.feed key = (match b key with | some w => some w | none => d key) := by
  intro s'
  have hs' : ∃ flag wrap, s' = (coreStep (observed E) flag wrap d s).sampler := by
    show ∃ flag wrap, (burnInNext (observed E) burnIn nP (.dict d) s).sampler = _
    unfold burnInNext Feed.open
    simp only
    by_cases hb : isBurningIn burnIn s = true
    · rw [if_pos hb]; exact ⟨true, .many, rfl⟩
    · have : ¬ (burnIn > 0) := by
        unfold isBurningIn at hb
        simp only [decide_eq_true_eq] at hb
        omega
      rw [if_neg hb, if_neg this]; exact ⟨false, unravel, rfl⟩
  obtain ⟨flag, wrap, hs'⟩ := hs'
  rw [hs']
  rcases run_effect E flag wrap d s with ⟨e1, -, -⟩ | ⟨b, v, rec, hbb, e1, e2, e3, -⟩
  · exact .inl e1
  · refine .inr ⟨rec, b, v, e1, hbb, ?_, fun key hk => ?_⟩
    · rw [e3, update_single, if_pos rfl]
    · rw [e3, update_single, if_neg hk]
      rfl

/-- C15 is violated: after burn-in a value the caller passes for a placeholder never reaches the session (the
result does not even depend on the dictionary). -/
theorem C15_violated (E : Env V C) (burnIn : Int) (h0 : 0 < burnIn) (nP : Nat) (d d' : Dict Key V)
    (s : Sampler (observed E)) (hn : burnIn ≤ s.nIterations) :
    (burnInNext (observed E) burnIn nP (.dict d) s).result = (burnInNext (observed E) burnIn nP (.dict d') s).result
    ∧ (burnInNext (observed E) burnIn nP (.dict d) s).sampler = (burnInNext (observed E) burnIn nP (.dict d') s).sampler
    ∧ ((burnInNext (observed E) burnIn nP (.dict d) s).sampler.graph.2 = s.graph.2
      ∨ ∃ rec b, (burnInNext (observed E) burnIn nP (.dict d) s).sampler.graph.2 = s.graph.2 ++ [rec]
        ∧ (nextBatch (observed E) s).1 = .ok b ∧ ∀ name, b (.ph name) = none → rec.feed (.ph name) = none) := by
  have hb : isBurningIn burnIn s = false := by
    unfold isBurningIn; simp only [decide_eq_false_iff_not]; omega
  cases hm : s.minv with
  | none =>
    have : ∀ d : Dict Key V, burnInNext (observed E) burnIn nP (.dict d) s = ⟨.error .assertion, d, s⟩ := by
      intro d
      unfold burnInNext Feed.open
      simp only [hb, Bool.false_eq_true, if_false, gt_iff_lt, h0, if_true, hm]
    rw [this d, this d']
    exact ⟨rfl, rfl, .inl rfl⟩
  | some m =>
    have : ∀ d : Dict Key V, (burnInNext (observed E) burnIn nP (.dict d) s).result
          = (coreStep (observed E) false unravel (minvDict nP m) s).result
        ∧ (burnInNext (observed E) burnIn nP (.dict d) s).sampler
          = (coreStep (observed E) false unravel (minvDict nP m) s).sampler := by
      intro d
      unfold burnInNext Feed.open
      simp only [hb, Bool.false_eq_true, if_false, gt_iff_lt, h0, if_true, hm]
      exact ⟨rfl, rfl⟩
    refine ⟨by rw [(this d).1, (this d').1], by rw [(this d).2, (this d').2], ?_⟩
    rw [(this d).2]
    rcases run_effect E false unravel (minvDict nP m) s with ⟨e1, -, -⟩ | ⟨b, v, rec, hbb, e1, e2, e3, -⟩
    · exact .inl e1
    · refine .inr ⟨rec, b, e1, hbb, fun name hnm => ?_⟩
      rw [e3, update_single, if_neg (by simp), hnm, minvDict_apply]

/-! ## C16 -/

/-- C16: with a batch source that ends after `k` batches and nothing else failing, iterating the sampler gives
exactly `min k m` of the `m` requested samples, without an exception. -/
theorem C16_finite_batches (E : Env V C) (hR : Reliable E) (burnIn : Int) (nP k m : Nat) (b : E.Batch)
    (hk : Exhausts E k b) (sched : E.Sched) (graph : E.Graph) :
    ∃ l s', islice (asIter (burnInNext E burnIn nP)) m (init (some b) sched graph) = (.ok l, s')
      ∧ l.length = min k m :=
  islice_exhausts E hR burnIn nP m k b _ hk rfl (fun _ h => by simp [init] at h)

/-- C16 for samplers without burn-in. -/
theorem C16_finite_batches_base (E : Env V C) (hR : Reliable E) (k m : Nat) (b : E.Batch)
    (hk : Exhausts E k b) (sched : E.Sched) (graph : E.Graph) :
    ∃ l s', islice (asIter (baseNext E)) m (init (some b) sched graph) = (.ok l, s') ∧ l.length = min k m := by
  rw [C10_base_sampler E 0]
  exact C16_finite_batches E hR 0 0 k m b hk sched graph

/-! ## C72: constructor checks -/

/-- C72: the base constructor accepts its arguments iff all of them have the documented form. -/
theorem C72_constructor_checks (a : CtorArgs) :
    (ctorCheck a = .ok () ↔
      (a.batchGenerator = .none ∨ a.batchGenerator.hasAttr "__next__" = true)
      ∧ (a.seed = .none ∨ a.seed.isInt = true) ∧ a.session.isSession = true ∧ a.dtype.isDType = true
      ∧ a.costFun.isCallable = true ∧ a.schedule.hasAttr "update" = true ∧ a.schedule.hasAttr "__next__" = true
      ∧ a.schedule.hasAttr "initial_value" = true)
    ∧ (ctorCheck a = .ok () ∨ ctorCheck a = .error .assertion) := by
  have hn : ∀ v : PyVal, v.isNone = true ↔ v = .none := by intro v; cases v <;> simp [PyVal.isNone]
  have : ∀ (c : Bool) (x : Except PyErr Unit), (if !c then Except.error PyErr.assertion else x) = Except.ok () ↔ c = true ∧ x = .ok () := by
    intro c x; cases c <;> simp
  have that : ∀ (c : Bool) (x : Except PyErr Unit), (x = .ok () ∨ x = .error .assertion) →
      (if !c then Except.error PyErr.assertion else x) = Except.ok () ∨
      (if !c then Except.error PyErr.assertion else x) = Except.error PyErr.assertion := by
    intro c x h; cases c <;> simp [h]
  unfold ctorCheck
  refine ⟨by simp only [this, Bool.or_eq_true, hn, and_true], ?_⟩
  iterate 8 (apply that)
  exact .inl rfl

/-- C72: burn-in samplers additionally require an integer number of burn-in steps; every rejection is an
`AssertionError`. -/
theorem C72_burn_in_checks (burnInSteps : PyVal) (a : CtorArgs) :
    (burnInCtorCheck burnInSteps a = .ok () ↔ burnInSteps.isInt = true ∧ ctorCheck a = .ok ())
    ∧ (burnInCtorCheck burnInSteps a = .ok () ∨ burnInCtorCheck burnInSteps a = .error .assertion) := by
  have : ∀ (c : Bool) (x : Except PyErr Unit), (x = .ok () ∨ x = .error .assertion) →
      (if !c then Except.error PyErr.assertion else x) = Except.ok () ∨
      (if !c then Except.error PyErr.assertion else x) = Except.error PyErr.assertion := by
    intro c x h; cases c <;> simp [h]
  constructor
  · unfold burnInCtorCheck; cases burnInSteps.isInt <;> simp
  · unfold burnInCtorCheck ctorCheck
    iterate 9 (apply this)
    exact .inl rfl

/-! ## Non-vacuity -/

/-- A concrete environment: batches `100, 101, …` on placeholder 0 (at most `k` of them), stepsizes that react to
`update`, a graph with one integer parameter whose mass matrix changes at every run.  Nothing else fails. -/
@[reducible] def demo (k : Nat) : Env Int Int where
  Batch := Nat
  Sched := Int
  Graph := Int
  batchNext n := if n < k then (.ok (Dict.single (.ph 0) (100 + (n : Int))), n + 1) else (.error .stopIteration, n)
  schedNext s := (.ok s, s)
  schedUpdate s _ c := (.ok (), s + c)
  run g _ d := (.ok ⟨[g + (d (.ph 0)).getD 0], g, [g + 1]⟩, g + 1)

theorem demo_reliable (k : Nat) : Reliable (demo k) where
  next sc := ⟨_, _, rfl⟩
  update sc _ c := ⟨_, rfl⟩
  run g _ d := ⟨_, _, rfl⟩

theorem demo_exhausts (k j n : Nat) (h : n + j = k) : Exhausts (demo k) j n := by
  induction j generalizing n with
  | zero =>
    have : ¬ n < k := by omega
    simp [Exhausts, this]
  | succ j ih =>
    have : n < k := by omega
    exact ⟨Dict.single (.ph 0) (100 + (n : Int)), n + 1, by simp [this], ih (n + 1) (by omega)⟩

theorem demo_user_graph (k : Nat) : BatchesFeedUserGraph (demo k) := by
  intro b d b' h i
  simp only at h
  split at h
  · simp only [Prod.mk.injEq, Except.ok.injEq] at h
    rw [← h.1]; rfl
  · simp at h

example : ReturnsParams (demo 5) 1 := by
  intro g flag d f g' h
  simp only [Prod.mk.injEq, Except.ok.injEq] at h
  rw [← h.1]; rfl

/-- Four steps with `burn_in_steps = 2`, all successful (meets C10, C12, C14). -/
example : (calls (asIter (burnInNext (demo 5) 2 1)) 4 (init (some 0) 7 10)).1
    = [.ok (.many [110], 10), .ok (.many [112], 11), .ok (.one 114, 12), .ok (.one 116, 13)] := by rfl

/-- A history with a failing call: six calls, only five batches (meets C09, C11, C12). -/
example : countOk (history (burnInNext (demo 5) 2 1) (List.replicate 6 .none) (init (some 0) 7 10)).1 = 5 := by
  rfl

/-- C16 is met by the concrete source. -/
example : ∃ l s', islice (asIter (burnInNext (demo 5) 2 1)) 9 (init (some 0) 7 10) = (.ok l, s')
    ∧ l.length = 5 :=
  C16_finite_batches (demo 5) (demo_reliable 5) 2 1 5 9 0 (demo_exhausts 5 5 0 rfl) 7 10

/-- C72 accepts a typical argument list. -/
example : burnInCtorCheck (.int 3000) ⟨.none, .int 1, .obj [] false true false, .obj [] false false true,
    .obj [] true false false, .obj ["__next__", "update", "initial_value"] false false false⟩ = .ok () := by decide

end PySGMCMC.SamplerBase
