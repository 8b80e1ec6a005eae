import Verif.Lemmas.SamplerBase

/-! Helper lemmas about recorded runs. -/

namespace PySGMCMC.SamplerBase

variable {V C : Type}

/-- Schedule state after the alternating sequence `next`, `update` with the given results. -/
def schedAfter (E : Env V C) (sc : E.Sched) (rs : List (Out V × C)) : E.Sched :=
  rs.foldl (fun sc r => (E.schedUpdate (E.schedNext sc).2 r.1 r.2).2) sc

theorem stepsizes_snoc (E : Env V C) (sc : E.Sched) (rs : List (Out V × C)) (r : Out V × C) (v : V) (sc' : E.Sched)
    (hl : (stepsizes E sc rs).length = rs.length) (hv : E.schedNext (schedAfter E sc rs) = (.ok v, sc')) :
    stepsizes E sc (rs ++ [r]) = stepsizes E sc rs ++ [v] := by
  induction rs generalizing sc with
  | nil =>
    obtain ⟨o, c⟩ := r
    simp only [schedAfter, List.foldl_nil] at hv
    simp [stepsizes, hv]
  | cons q rs ih =>
    obtain ⟨o, c⟩ := q
    simp only [stepsizes, List.cons_append] at hl ⊢
    simp only [schedAfter, List.foldl_cons] at hv
    rcases hn : E.schedNext sc with ⟨e | w, sc1⟩
    · rw [hn] at hl; simp at hl
    · rw [hn] at hl hv
      simp only [List.length_cons, Nat.add_right_cancel_iff] at hl
      simp only [List.cons_append]
      rw [ih _ hl hv]

theorem batches_succ (E : Env V C) (b : Option E.Batch) (n : Nat) :
    batches E b (n + 1) = batches E b n ++
      [match b with | none => .ok Dict.empty | some b0 => (E.batchNext (calls E.batchNext n b0).2).1] := by
  cases b with
  | none => simp only [batches]; rw [List.replicate_succ']
  | some b0 => simp only [batches]; rw [calls_succ']

/-- Batch generator after `n` calls. -/
def batchAfter (E : Env V C) (b : Option E.Batch) (n : Nat) : Option E.Batch :=
  b.map fun b0 => (calls E.batchNext n b0).2

theorem observed_nextBatch (E : Env V C) (s : Sampler (observed E)) (b0 : Option E.Batch) (n : Nat)
    (hb : s.batch = batchAfter E b0 n) (b : Dict Key V) (batch' : Option E.Batch)
    (h : nextBatch (observed E) s = (.ok b, { s with batch := batch' })) :
    batch' = batchAfter E b0 (n + 1) ∧ batches E b0 (n + 1) = batches E b0 n ++ [.ok b] := by
  rw [batches_succ]
  cases b0 with
  | none =>
    simp only [batchAfter, Option.map_none] at hb
    unfold nextBatch at h
    rw [hb] at h
    simp only [Prod.mk.injEq, Except.ok.injEq] at h
    obtain ⟨rfl, h2⟩ := h
    refine ⟨?_, rfl⟩
    have := congrArg Sampler.batch h2
    simp only at this
    rw [← this, hb]; rfl
  | some b1 =>
    simp only [batchAfter, Option.map_some] at hb ⊢
    unfold nextBatch at h
    rw [hb] at h
    simp only [Prod.mk.injEq] at h
    obtain ⟨h1, h2⟩ := h
    have h3 := congrArg Sampler.batch h2
    simp only at h3
    refine ⟨?_, ?_⟩
    · rw [← h3, calls_succ'_snd]
    · rw [← h1]

theorem observed_run (E : Env V C) (g : E.Graph × List (RunRec V C)) (flag : Bool) (d : Dict Key V) :
    (observed E).run g flag d
      = ((E.run g.1 flag d).1, ((E.run g.1 flag d).2, g.2 ++ [⟨flag, d, (E.run g.1 flag d).1⟩])) := rfl

/-- What is known after `n` successful calls. -/
structure Recorded (E : Env V C) (burnIn : Int) (nP : Nat) (batch : Option E.Batch) (sched : E.Sched)
    (results : List (Out V × C)) (s : Sampler (observed E)) : Prop where
  count : s.nIterations = results.length
  batchSt : s.batch = batchAfter E batch results.length
  batchOk : ∃ bs : List (Dict Key V), batches E batch results.length = bs.map .ok
  schedSt : s.sched.1 = schedAfter E sched results
  updates : s.sched.2 = results
  steps : (stepsizes E sched results).length = results.length
  runs : s.graph.2.length = results.length
  feeds : ∀ (k : Nat) (rec : RunRec V C), s.graph.2[k]? = some rec →
    rec.fetchMinv = decide ((k : Int) < burnIn)
    ∧ (∃ f, rec.result = .ok f
        ∧ results[k]? = some (if (k : Int) < burnIn then .many f.params else unravel f.params, f.cost))
    ∧ ∀ b v, (batches E batch results.length)[k]? = some (.ok b) → (stepsizes E sched results)[k]? = some v →
      ∀ key, rec.feed key = if key = .epsilon then some v else
        match b key with
        | some w => some w
        | none =>
          if 0 < burnIn ∧ burnIn ≤ k then
            match key, s.graph.2[burnIn.toNat - 1]? with
            | .minvT i, some ⟨_, _, .ok f⟩ => if i < nP then f.minv[i]? else none
            | _, _ => none
          else none
  minvSt : 0 < burnIn → 0 < results.length →
    ∃ rec f, s.graph.2[min results.length burnIn.toNat - 1]? = some rec ∧ rec.result = .ok f ∧ s.minv = some f.minv

theorem recorded_init (E : Env V C) (burnIn : Int) (nP : Nat) (batch : Option E.Batch) (sched : E.Sched) (graph : E.Graph) :
    Recorded E burnIn nP batch sched [] (startObserved batch sched graph) where
  count := rfl
  batchSt := by cases batch <;> rfl
  batchOk := ⟨[], by cases batch <;> rfl⟩
  schedSt := rfl
  updates := rfl
  steps := rfl
  runs := rfl
  feeds := by intro k rec h; simp [startObserved, init] at h
  minvSt := by intro _ h; simp at h

theorem recorded_step (E : Env V C) (burnIn : Int) (nP : Nat) (batch : Option E.Batch) (sched : E.Sched)
    (results : List (Out V × C)) (s : Sampler (observed E)) (hrec : Recorded E burnIn nP batch sched results s)
    (o : Out V) (c : C) (hok : (burnInNext (observed E) burnIn nP .none s).result = .ok (o, c)) :
    Recorded E burnIn nP batch sched (results ++ [(o, c)]) (burnInNext (observed E) burnIn nP .none s).sampler := by
  have hmok : MinvOk burnIn s := by
    intro h0 hn
    rw [hrec.count] at hn
    obtain ⟨rec, f, -, -, h⟩ := hrec.minvSt h0 hn
    rw [h]; simp
  obtain ⟨e1, e2⟩ := burnInNext_eq (observed E) burnIn nP .none Dict.empty rfl s hmok.start
  rw [e1] at hok
  obtain ⟨b, batch', v, sc1, sc2, f, g', h1, h2, h3, h4, h5, h6, -, h8⟩ := coreStep_ok _ _ _ _ s o c hok
  rw [e2, h8]
  have hflag : isBurningIn burnIn s = decide ((results.length : Int) < burnIn) := by
    unfold isBurningIn; rw [hrec.count]
  obtain ⟨hb1, hb2⟩ := observed_nextBatch E s batch results.length hrec.batchSt b batch' h1
  -- schedule
  rcases hsn : E.schedNext s.sched.1 with ⟨r, scx⟩
  have h2' : (r, (scx, s.sched.2)) = (Except.ok v, sc1) := by
    have : (observed E).schedNext s.sched = (r, (scx, s.sched.2)) := by simp only [observed, hsn]
    rw [← this, h2]
  obtain ⟨ha, hb⟩ := Prod.mk.inj h2'
  subst ha; subst hb
  rcases hun : E.schedUpdate scx o c with ⟨r, scy⟩
  have h6' : (r, (scy, s.sched.2 ++ [(o, c)])) = (Except.ok (), sc2) := by
    have : (observed E).schedUpdate (scx, s.sched.2) o c = (r, (scy, s.sched.2 ++ [(o, c)])) := by
      simp only [observed, hun]
    rw [← this, h6]
  obtain ⟨ha, hb⟩ := Prod.mk.inj h6'
  subst ha; subst hb
  -- session
  set feed := ((startDict burnIn nP s Dict.empty).update b).update (Dict.single .epsilon v) with hfeed
  rcases hrn : E.run s.graph.1 (isBurningIn burnIn s) feed with ⟨r, gx⟩
  have h3' : (r, (gx, s.graph.2 ++ [⟨isBurningIn burnIn s, feed, r⟩])) = (Except.ok f, g') := by
    have : (observed E).run s.graph (isBurningIn burnIn s) feed
        = (r, (gx, s.graph.2 ++ [⟨isBurningIn burnIn s, feed, r⟩])) := by
      rw [observed_run, hrn]
    rw [← this, h3]
  obtain ⟨ha, hb⟩ := Prod.mk.inj h3'
  subst ha; subst hb
  have hsched : schedAfter E sched results = s.sched.1 := hrec.schedSt.symm
  have hsteps := stepsizes_snoc E sched results (o, c) v scx hrec.steps (by rw [hsched]; exact hsn)
  have hlen : (results ++ [(o, c)]).length = results.length + 1 := by simp
  obtain ⟨bs, hbs⟩ := hrec.batchOk
  have hbslen : bs.length = results.length := by
    have := congrArg List.length hbs
    rw [List.length_map] at this
    rw [← this]
    cases batch <;> simp [batches]
  refine ⟨?_, ?_, ?_, ?_, ?_, ?_, ?_, ?_, ?_⟩
  · rw [hlen]; simp only; rw [hrec.count]
  · rw [hlen]; exact hb1
  · rw [hlen, hb2, hbs]; exact ⟨bs ++ [b], by simp⟩
  · simp only [schedAfter, List.foldl_append, List.foldl_cons, List.foldl_nil]
    rw [show List.foldl _ sched results = s.sched.1 from hsched, hsn, hun]
  · simp only; rw [hrec.updates]
  · rw [hsteps]; simp [hrec.steps]
  · simp only [List.length_append, List.length_cons, List.length_nil, hrec.runs]
  · intro k rec hk
    simp only at hk
    rw [hlen, hb2, hsteps]
    by_cases hkn : k < results.length
    · have hk' : s.graph.2[k]? = some rec := by
        rw [List.getElem?_append_left (by rw [hrec.runs]; exact hkn)] at hk; exact hk
      obtain ⟨f1, ⟨f', f2, f3⟩, f4⟩ := hrec.feeds k rec hk'
      refine ⟨f1, ⟨f', f2, ?_⟩, ?_⟩
      · rw [List.getElem?_append_left hkn]; exact f3
      · intro b' v' hb' hv' key
        have hbl : (batches E batch results.length).length = results.length := by rw [hbs, List.length_map, hbslen]
        rw [List.getElem?_append_left (by rw [hbl]; exact hkn)] at hb'
        rw [List.getElem?_append_left (by rw [hrec.steps]; exact hkn)] at hv'
        rw [f4 b' v' hb' hv' key]
        simp only
        by_cases hbi : 0 < burnIn ∧ burnIn ≤ k
        · have : burnIn.toNat - 1 < s.graph.2.length := by rw [hrec.runs]; omega
          rw [List.getElem?_append_left this]
        · simp only [if_neg hbi]
    · have hk2 : k = results.length := by
        have := (List.getElem?_eq_some_iff.1 hk).1
        simp only [List.length_append, List.length_cons, List.length_nil, hrec.runs] at this
        omega
      subst hk2
      have hrec' : rec = ⟨isBurningIn burnIn s, feed, .ok f⟩ := by
        rw [List.getElem?_append_right (Nat.le_of_eq hrec.runs)] at hk
        rw [hrec.runs] at hk
        simpa using hk.symm
      subst hrec'
      refine ⟨hflag, ⟨f, rfl, ?_⟩, ?_⟩
      · rw [List.getElem?_append_right (Nat.le_refl _)]
        simp only [Nat.sub_self, List.getElem?_cons_zero, Option.some.injEq, Prod.mk.injEq]
        refine ⟨?_, h5⟩
        rw [h4, hflag]
        unfold stepWrap
        by_cases hc : (results.length : Int) < burnIn
        · simp [hc]
        · simp [hc]
      · intro b' v' hb' hv' key
        have hbl : (batches E batch results.length).length = results.length := by rw [hbs, List.length_map, hbslen]
        rw [List.getElem?_append_right (Nat.le_of_eq hbl), hbl] at hb'
        rw [List.getElem?_append_right (Nat.le_of_eq hrec.steps), hrec.steps] at hv'
        simp only [Nat.sub_self, List.getElem?_cons_zero, Option.some.injEq, Except.ok.injEq] at hb' hv'
        subst hb'; subst hv'
        rw [show (RunRec.mk (isBurningIn burnIn s) feed (Except.ok f)).feed = feed from rfl, hfeed, update_single]
        by_cases hke : key = .epsilon
        · simp [hke]
        simp only [if_neg hke]
        cases b key with
        | some w => rfl
        | none =>
          simp only
          unfold startDict
          rw [hflag]
          by_cases h0 : (results.length : Int) < burnIn
          · rw [if_pos (by simpa using h0), if_neg (by omega)]; rfl
          · rw [if_neg (by simpa using h0)]
            by_cases h9 : burnIn > 0
            · rw [if_pos h9, if_pos ⟨h9, by omega⟩]
              obtain ⟨rc, fc, r1, r2, r3⟩ := hrec.minvSt h9 (by omega)
              rw [r3, Option.getD_some, minvDict_apply]
              have : min results.length burnIn.toNat = burnIn.toNat := by omega
              rw [this] at r1
              rw [List.getElem?_append_left (by rw [hrec.runs]; omega), r1]
              obtain ⟨ra, rb, rr⟩ := rc
              simp only at r2
              subst r2
              cases key <;> rfl
            · rw [if_neg h9, if_neg (by omega)]; rfl
  · intro h0 _
    simp only [hlen]
    by_cases hc : (results.length : Int) < burnIn
    · refine ⟨⟨isBurningIn burnIn s, feed, .ok f⟩, f, ?_, rfl, ?_⟩
      · rw [show min (results.length + 1) burnIn.toNat - 1 = results.length by omega,
          List.getElem?_append_right (Nat.le_of_eq hrec.runs), hrec.runs]
        simp
      · rw [hflag]; simp [hc]
    · obtain ⟨rc, fc, r1, r2, r3⟩ := hrec.minvSt h0 (by omega)
      refine ⟨rc, fc, ?_, r2, ?_⟩
      · rw [show min (results.length + 1) burnIn.toNat - 1 = min results.length burnIn.toNat - 1 by omega,
          List.getElem?_append_left (by rw [hrec.runs]; omega)]
        exact r1
      · rw [hflag]; simp [hc, r3]

theorem recorded_calls (E : Env V C) (burnIn : Int) (nP : Nat) (batch : Option E.Batch) (sched : E.Sched)
    (graph : E.Graph) (results : List (Out V × C)) (n : Nat)
    (hok : (calls (asIter (burnInNext (observed E) burnIn nP)) n (startObserved batch sched graph)).1
      = results.map .ok) :
    Recorded E burnIn nP batch sched results
      (calls (asIter (burnInNext (observed E) burnIn nP)) n (startObserved batch sched graph)).2 := by
  induction n generalizing results with
  | zero =>
    have : results = [] := by simpa using hok.symm
    subst this
    exact recorded_init E burnIn nP batch sched graph
  | succ n ih =>
    rw [calls_succ'] at hok ⊢
    obtain ⟨rs, ⟨r, hr⟩⟩ : ∃ rs, ∃ r, results = rs ++ [r] := by
      rcases List.eq_nil_or_concat results with h | ⟨rs, r, h⟩
      · subst h; simp at hok
      · exact ⟨rs, r, by simpa using h⟩
    subst hr
    rw [List.map_append] at hok
    obtain ⟨h1, h2⟩ := List.append_inj' hok (by simp)
    simp only [List.map_cons, List.map_nil, List.cons.injEq, and_true] at h2
    obtain ⟨o, c⟩ := r
    exact recorded_step E burnIn nP batch sched rs _ (ih rs h1) o c h2

end PySGMCMC.SamplerBase
