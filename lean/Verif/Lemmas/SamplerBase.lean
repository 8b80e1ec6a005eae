import Verif.Model.SamplerBase
import Verif.Spec.Observe
import Verif.Lemmas.Iter

/-! Helper lemmas about the `__next__` protocol. -/

namespace PySGMCMC.SamplerBase

variable {V C : Type}

/-- `baseNextDict` and `burnInStep` in one definition. -/
def coreStep (E : Env V C) (flag : Bool) (wrap : List V → Out V) (d : Dict Key V) (s : Sampler E) : NextRes E :=
  match updateFeed E d s with
  | (.error e, d', s') => ⟨.error e, d', s'⟩
  | (.ok (), d', s') =>
    match E.run s'.graph flag d' with
    | (.error e, g) => ⟨.error e, d', { s' with graph := g }⟩
    | (.ok f, g) => finish E d' (wrap f.params) f.cost
        { s' with graph := g, minv := if flag then some f.minv else s'.minv }

theorem baseNextDict_eq (E : Env V C) (d : Dict Key V) (s : Sampler E) :
    baseNextDict E d s = coreStep E false unravel d s := rfl

theorem burnInStep_eq (E : Env V C) (d : Dict Key V) (s : Sampler E) :
    burnInStep E d s = coreStep E true .many d s := rfl

theorem nextBatch_frame (E : Env V C) (s : Sampler E) :
    (nextBatch E s).2 = { s with batch := (nextBatch E s).2.batch } := by
  obtain ⟨n, m, b, sc, g⟩ := s
  cases b <;> rfl

theorem coreStep_ok (E : Env V C) (flag : Bool) (wrap : List V → Out V) (d : Dict Key V) (s : Sampler E)
    (o : Out V) (c : C) (h : (coreStep E flag wrap d s).result = .ok (o, c)) :
    ∃ b batch' v sc1 sc2 f g',
      nextBatch E s = (.ok b, { s with batch := batch' })
      ∧ E.schedNext s.sched = (.ok v, sc1)
      ∧ E.run s.graph flag ((d.update b).update (Dict.single .epsilon v)) = (.ok f, g')
      ∧ o = wrap f.params ∧ c = f.cost
      ∧ E.schedUpdate sc1 o c = (.ok (), sc2)
      ∧ (coreStep E flag wrap d s).dict = (d.update b).update (Dict.single .epsilon v)
      ∧ (coreStep E flag wrap d s).sampler
          = ⟨s.nIterations + 1, if flag then some f.minv else s.minv, batch', sc2, g'⟩ := by
  have hfr := nextBatch_frame E s
  unfold coreStep updateFeed nextStepsize at h ⊢
  rcases hb : nextBatch E s with ⟨e | b, s1⟩
  · simp [hb] at h
  rw [hb] at hfr
  simp only at hfr
  generalize s1.batch = batch' at hfr
  subst hfr
  simp only [hb] at h ⊢
  rcases hs : E.schedNext s.sched with ⟨e | v, sc1⟩
  · simp [hs] at h
  simp only [hs] at h ⊢
  rcases hr : E.run s.graph flag ((d.update b).update (Dict.single .epsilon v)) with ⟨e | f, g'⟩
  · simp [hr] at h
  simp only [hr, finish] at h ⊢
  rcases hu : E.schedUpdate sc1 (wrap f.params) f.cost with ⟨e | u, sc2⟩
  · simp [hu] at h
  simp only [hu, Except.ok.injEq, Prod.mk.injEq] at h ⊢
  obtain ⟨rfl, rfl⟩ := h
  exact ⟨b, batch', v, sc1, sc2, f, g', ⟨rfl, rfl⟩, ⟨rfl, rfl⟩, hr, rfl, rfl, hu, rfl, rfl⟩

theorem coreStep_error (E : Env V C) (flag : Bool) (wrap : List V → Out V) (d : Dict Key V) (s : Sampler E)
    (e : PyErr) (h : (coreStep E flag wrap d s).result = .error e) :
    ∃ res batch', nextBatch E s = (res, { s with batch := batch' })
      ∧ ((res = .error e ∧ (coreStep E flag wrap d s).sampler = { s with batch := batch' })
        ∨ ∃ b, res = .ok b
          ∧ ((∃ sc1, E.schedNext s.sched = (.error e, sc1)
                ∧ (coreStep E flag wrap d s).sampler = { s with batch := batch', sched := sc1 })
            ∨ ∃ v sc1, E.schedNext s.sched = (.ok v, sc1)
              ∧ ((∃ g', E.run s.graph flag ((d.update b).update (Dict.single .epsilon v)) = (.error e, g')
                    ∧ (coreStep E flag wrap d s).sampler
                        = { s with batch := batch', sched := sc1, graph := g' })
                ∨ ∃ f g' sc2,
                    E.run s.graph flag ((d.update b).update (Dict.single .epsilon v)) = (.ok f, g')
                    ∧ E.schedUpdate sc1 (wrap f.params) f.cost = (.error e, sc2)
                    ∧ (coreStep E flag wrap d s).sampler
                        = { s with batch := batch', sched := sc2, graph := g',
                                   minv := if flag then some f.minv else s.minv }))) := by
  have hfr := nextBatch_frame E s
  unfold coreStep updateFeed nextStepsize at h ⊢
  rcases hb : nextBatch E s with ⟨e' | b, s1⟩ <;> rw [hb] at hfr <;> simp only at hfr <;>
    generalize s1.batch = batch' at hfr <;> subst hfr <;> simp only [hb] at h ⊢
  · simp only [Except.error.injEq] at h
    subst h
    exact ⟨_, batch', rfl, .inl ⟨rfl, rfl⟩⟩
  refine ⟨_, batch', rfl, .inr ⟨b, rfl, ?_⟩⟩
  rcases hs : E.schedNext s.sched with ⟨e' | v, sc1⟩ <;> simp only [hs] at h ⊢
  · simp only [Except.error.injEq] at h
    subst h
    exact .inl ⟨sc1, rfl, rfl⟩
  refine .inr ⟨v, sc1, rfl, ?_⟩
  rcases hr : E.run s.graph flag ((d.update b).update (Dict.single .epsilon v)) with ⟨e' | f, g'⟩ <;>
    simp only [hr, finish] at h ⊢
  · simp only [Except.error.injEq] at h
    subst h
    exact .inl ⟨g', rfl, rfl⟩
  refine .inr ⟨f, g', ?_⟩
  rcases hu : E.schedUpdate sc1 (wrap f.params) f.cost with ⟨e' | u, sc2⟩ <;> simp only [hu] at h ⊢
  · simp only [Except.error.injEq] at h
    subst h
    exact ⟨sc2, trivial, rfl, rfl⟩
  · exact absurd h (by simp)

/-! ### feed dictionaries -/

theorem minvDict_aux (a n : Nat) (m : List V) (key : Key) :
    Dict.ofList (((List.range' a n).map Key.minvT).zip m) key
      = match key with
        | .minvT i => if a ≤ i ∧ i < a + n then m[i - a]? else none
        | _ => none := by
  induction n generalizing a m with
  | zero =>
    simp only [List.range'_zero, List.map_nil, List.zip_nil_left, Dict.ofList, Dict.empty]
    cases key with
    | minvT i => simp only; rw [if_neg (by omega)]
    | _ => rfl
  | succ n ih =>
    cases m with
    | nil => cases key <;> simp [Dict.ofList, Dict.empty]
    | cons v m =>
      simp only [List.range'_succ, List.map_cons, List.zip_cons_cons, Dict.ofList]
      rw [ih]
      cases key with
      | ph k => simp
      | epsilon => simp
      | minvT i =>
        simp only [Key.minvT.injEq]
        by_cases h1 : i = a
        · subst h1
          rw [if_neg (by omega)]
          simp
        · by_cases h2 : a + 1 ≤ i ∧ i < a + 1 + n
          · rw [if_neg h1, if_pos h2, if_pos (show a ≤ i ∧ i < a + (n + 1) by omega), show i - a = (i - (a + 1)) + 1 by omega]
            simp only [List.getElem?_cons_succ]
            cases m[i - (a + 1)]? <;> rfl
          · rw [if_neg h1, if_neg h2, if_neg (show ¬ (a ≤ i ∧ i < a + (n + 1)) by omega)]

theorem minvDict_apply (n : Nat) (m : List V) (key : Key) :
    minvDict n m key = match key with
      | .minvT i => if i < n then m[i]? else none
      | _ => none := by
  unfold minvDict
  rw [List.range_eq_range', minvDict_aux]
  cases key <;> simp

theorem update_single {d b : Dict Key V} {v : V} (key : Key) :
    ((d.update b).update (Dict.single .epsilon v)) key
      = if key = .epsilon then some v else match b key with | some w => some w | none => d key := by
  unfold Dict.update Dict.single
  by_cases h : key = .epsilon
  · simp [h]
  · simp only [h, if_false]; cases b key <;> rfl

/-! ### the step of a burn-in sampler in one form -/

/-- The dictionary a step starts from: the caller's, or the frozen mass matrix after burn-in. -/
def startDict (burnIn : Int) (nParams : Nat) {E : Env V C} (s : Sampler E) (d : Dict Key V) : Dict Key V :=
  if isBurningIn burnIn s then d
  else if burnIn > 0 then minvDict nParams (s.minv.getD [])
  else d

/-- Whether the step fetches `minv_t`, and how it wraps the parameters. -/
def stepWrap (b : Bool) : List V → Out V := if b then .many else unravel

theorem burnInNext_eq (E : Env V C) (burnIn : Int) (nP : Nat) (feed : Feed V) (d : Dict Key V)
    (hd : feed.open = some d) (s : Sampler E) (hm : burnIn > 0 → isBurningIn burnIn s = false → s.minv ≠ none) :
    (burnInNext E burnIn nP feed s).result
        = (coreStep E (isBurningIn burnIn s) (stepWrap (isBurningIn burnIn s)) (startDict burnIn nP s d) s).result
    ∧ (burnInNext E burnIn nP feed s).sampler
        = (coreStep E (isBurningIn burnIn s) (stepWrap (isBurningIn burnIn s)) (startDict burnIn nP s d) s).sampler := by
  unfold burnInNext startDict stepWrap
  rw [hd]
  by_cases hb : isBurningIn burnIn s = true
  · simp only [hb, if_true, burnInStep_eq, and_self]
  · have hb' : isBurningIn burnIn s = false := by simpa using hb
    simp only [hb', Bool.false_eq_true, if_false]
    by_cases h0 : burnIn > 0
    · simp only [if_pos h0]
      cases hmv : s.minv with
      | none => exact absurd hmv (hm h0 hb')
      | some m => exact ⟨rfl, rfl⟩
    · simp only [if_neg h0, baseNextDict_eq, and_self]

/-- Reachability invariant: a step has been counted only if a mass matrix is stored (for `burn_in_steps > 0`). -/
def MinvOk (burnIn : Int) {E : Env V C} (s : Sampler E) : Prop :=
  burnIn > 0 → 0 < s.nIterations → s.minv ≠ none

theorem MinvOk.start {burnIn : Int} {E : Env V C} {s : Sampler E} (h : MinvOk burnIn s) :
    burnIn > 0 → isBurningIn burnIn s = false → s.minv ≠ none := by
  intro h0 hb
  apply h h0
  unfold isBurningIn at hb
  simp only [decide_eq_false_iff_not] at hb
  omega

theorem coreStep_count (E : Env V C) (flag : Bool) (wrap : List V → Out V) (d : Dict Key V) (s : Sampler E) :
    (coreStep E flag wrap d s).sampler.nIterations
      = s.nIterations + (match (coreStep E flag wrap d s).result with | .ok _ => 1 | .error _ => 0) := by
  rcases h : (coreStep E flag wrap d s).result with e | ⟨o, c⟩
  · obtain ⟨res, batch', -, ⟨-, h⟩ | ⟨b, -, ⟨sc, -, h⟩ | ⟨v, sc, -, ⟨g, -, h⟩ | ⟨f, g, sc2, -, -, h⟩⟩⟩⟩ :=
      coreStep_error E flag wrap d s e h <;> rw [h] <;> rfl
  · obtain ⟨b, batch', v, sc1, sc2, f, g', -, -, -, -, -, -, -, h⟩ := coreStep_ok E flag wrap d s o c h
    rw [h]

theorem burnInNext_count (E : Env V C) (burnIn : Int) (nP : Nat) (feed : Feed V) (s : Sampler E) :
    (burnInNext E burnIn nP feed s).sampler.nIterations
      = s.nIterations + (match (burnInNext E burnIn nP feed s).result with | .ok _ => 1 | .error _ => 0) := by
  unfold burnInNext
  cases feed.open with
  | none => rfl
  | some d =>
    simp only
    split
    · exact coreStep_count E true .many d s
    · split
      · cases s.minv with
        | none => rfl
        | some m => exact coreStep_count E false unravel _ s
      · exact coreStep_count E false unravel d s

theorem baseNext_count (E : Env V C) (feed : Feed V) (s : Sampler E) :
    (baseNext E feed s).sampler.nIterations
      = s.nIterations + (match (baseNext E feed s).result with | .ok _ => 1 | .error _ => 0) := by
  unfold baseNext
  cases feed.open with
  | none => rfl
  | some d => exact coreStep_count E false unravel d s

theorem coreStep_minv (E : Env V C) (flag : Bool) (wrap : List V → Out V) (d : Dict Key V) (s : Sampler E)
    (h : s.minv ≠ none) : (coreStep E flag wrap d s).sampler.minv ≠ none := by
  rcases h' : (coreStep E flag wrap d s).result with e | ⟨o, c⟩
  · obtain ⟨res, batch', -, ⟨-, h2⟩ | ⟨b, -, ⟨sc, -, h2⟩ | ⟨v, sc, -, ⟨g, -, h2⟩ | ⟨f, g, sc2, -, -, h2⟩⟩⟩⟩ :=
      coreStep_error E flag wrap d s e h' <;> rw [h2] <;> simp only <;> try exact h
    split
    · simp
    · exact h
  · obtain ⟨b, batch', v, sc1, sc2, f, g', -, -, -, -, -, -, -, h2⟩ := coreStep_ok E flag wrap d s o c h'
    rw [h2]
    simp only
    split
    · simp
    · exact h

theorem burnInNext_minvOk (E : Env V C) (burnIn : Int) (nP : Nat) (feed : Feed V) (s : Sampler E)
    (h : MinvOk burnIn s) : MinvOk burnIn (burnInNext E burnIn nP feed s).sampler := by
  cases hd : feed.open with
  | none =>
    have : (burnInNext E burnIn nP feed s).sampler = s := by unfold burnInNext; rw [hd]
    rw [this]; exact h
  | some d =>
    obtain ⟨h1, h2⟩ := burnInNext_eq E burnIn nP feed d hd s h.start
    rw [h2]
    intro h0 hn
    by_cases hm : s.minv = none
    · have hz : s.nIterations = 0 := by
        by_contra hc
        exact h h0 (Nat.pos_of_ne_zero hc) hm
      have hburn : isBurningIn burnIn s = true := by
        unfold isBurningIn; rw [hz]; simpa using h0
      rw [hburn] at hn ⊢
      rcases hr : (coreStep E true (stepWrap true) (startDict burnIn nP s d) s).result with e | ⟨o, c⟩
      · rw [coreStep_count, hr, hz] at hn
        simp at hn
      · obtain ⟨b, batch', v, sc1, sc2, f, g', -, -, -, -, -, -, -, h2⟩ := coreStep_ok E true _ _ s o c hr
        rw [h2]; simp
    · exact coreStep_minv E _ _ _ s hm

theorem history_nil {E : Env V C} (next : Feed V → Sampler E → NextRes E) (s : Sampler E) :
    history next [] s = ([], s) := rfl

theorem history_cons {E : Env V C} (next : Feed V → Sampler E → NextRes E) (f : Feed V) (fs : List (Feed V))
    (s : Sampler E) :
    history next (f :: fs) s
      = ((next f s).result :: (history next fs (next f s).sampler).1, (history next fs (next f s).sampler).2) := rfl

theorem history_append {E : Env V C} (next : Feed V → Sampler E → NextRes E) (fs gs : List (Feed V))
    (s : Sampler E) :
    history next (fs ++ gs) s
      = ((history next fs s).1 ++ (history next gs (history next fs s).2).1,
         (history next gs (history next fs s).2).2) := by
  induction fs generalizing s with
  | nil => rfl
  | cons f fs ih => simp [history_cons, ih]

theorem history_inv {E : Env V C} (next : Feed V → Sampler E → NextRes E) (Inv : Sampler E → Prop)
    (hstep : ∀ f s, Inv s → Inv (next f s).sampler) (fs : List (Feed V)) (s : Sampler E) (h : Inv s) :
    Inv (history next fs s).2 := by
  induction fs generalizing s with
  | nil => exact h
  | cons f fs ih => exact ih _ (hstep f s h)

theorem history_count {E : Env V C} (next : Feed V → Sampler E → NextRes E)
    (hstep : ∀ f s, (next f s).sampler.nIterations
      = s.nIterations + (match (next f s).result with | .ok _ => 1 | .error _ => 0))
    (fs : List (Feed V)) (s : Sampler E) :
    (history next fs s).2.nIterations = s.nIterations + countOk (history next fs s).1 := by
  induction fs generalizing s with
  | nil => rfl
  | cons f fs ih =>
    rw [history_cons]
    simp only [ih, hstep f s, countOk, List.countP_cons]
    cases (next f s).result <;> (simp; try omega)

/-- Iterating `next(sampler)` is a history with `feed_dict=None`. -/
theorem calls_eq_history {E : Env V C} (next : Feed V → Sampler E → NextRes E) (n : Nat) (s : Sampler E) :
    calls (asIter next) n s = history next (List.replicate n .none) s := by
  induction n generalizing s with
  | zero => rfl
  | succ n ih => rw [calls_succ, List.replicate_succ, history_cons, ih]; rfl

end PySGMCMC.SamplerBase
