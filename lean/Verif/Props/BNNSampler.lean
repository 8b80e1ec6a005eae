import Verif.Model.BNNSampler
import Verif.Props.Sampling
import Mathlib.Tactic.FinCases

/-!
# C86, C87: the sampler behind a Bayesian neural network
-/

namespace PySGMCMC.BNNSampler
open Sampling

variable {α : Type}

/-! ## Dictionaries -/

theorem lookup_setItem (d : List (String × α)) (k : String) (v : α) (k' : String) :
    lookup (setItem d k v) k' = if k' = k then some v else lookup d k' := by
  unfold setItem lookup
  by_cases h : d.any (fun p => p.1 == k) = true
  · rw [if_pos h]
    induction d with
    | nil => simp at h
    | cons p d ih =>
      rw [List.map_cons, List.find?_cons, List.find?_cons]
      by_cases hp : p.1 = k
      · subst hp
        simp only [beq_self_eq_true, if_true]
        by_cases hk : k' = p.1
        · subst hk; simp
        · have hk1 : (p.1 == k') = false := by simpa using fun e => hk e.symm
          simp only [hk1, hk, if_false]
          by_cases hd : d.any (fun q => q.1 == p.1) = true
          · rw [ih hd, if_neg hk]
          · rw [show d.map (fun q => if (q.1 == p.1) = true then (p.1, v) else q) = d from ?_]
            conv_rhs => rw [← List.map_id d]
            apply List.map_congr_left
            intro q hq
            have : ¬ (q.1 == p.1) = true := fun hc => hd (List.any_eq_true.2 ⟨q, hq, hc⟩)
            simp [this]
      · have hp1 : (p.1 == k) = false := by simpa using hp
        simp only [hp1, Bool.false_eq_true, if_false]
        have hd : d.any (fun q => q.1 == k) = true := by simpa [hp1] using h
        by_cases hk : p.1 = k'
        · subst hk; simp [hp]
        · have hk1 : (p.1 == k') = false := by simpa using hk
          simp only [hk1]
          exact ih hd
  · rw [if_neg h, List.find?_append]
    have hno : ∀ p ∈ d, ¬ p.1 = k := by
      intro p hp hc
      exact h (List.any_eq_true.2 ⟨p, hp, by simpa using hc⟩)
    by_cases hk : k' = k
    · subst hk
      have : d.find? (fun p => p.1 == k') = none := by
        rw [List.find?_eq_none]; intro p hp; simpa using hno p hp
      simp [this]
    · have : ((k : String) == k') = false := by simpa using fun e => hk (Eq.symm e)
      simp [hk, List.find?_cons, this]

theorem lookup_update (d e : List (String × α)) (k : String) :
    lookup (update d e) k = (lookup e.reverse k).or (lookup d k) := by
  unfold update
  induction e generalizing d with
  | nil => simp [lookup]
  | cons p e ih =>
    rw [List.foldl_cons, ih, lookup_setItem]
    have : lookup ((p :: e).reverse) k = (lookup e.reverse k).or (if k = p.1 then some p.2 else none) := by
      unfold lookup
      rw [List.reverse_cons, List.find?_append]
      by_cases hk : k = p.1
      · subst hk; cases e.reverse.find? (fun q => q.1 == p.1) <;> simp
      · have : (p.1 == k) = false := by simpa using fun e => hk (Eq.symm e)
        cases e.reverse.find? (fun q => q.1 == k) <;> simp [this, hk]
    rw [this]
    by_cases hk : k = p.1
    · simp only [hk, if_true]; cases lookup e.reverse p.1 <;> rfl
    · simp only [hk, if_false]; cases lookup e.reverse k <;> rfl

theorem keys_setItem (d : List (String × α)) (k : String) (v : α) (n : String) :
    n ∈ (setItem d k v).map (·.1) ↔ n ∈ d.map (·.1) ∨ n = k := by
  unfold setItem
  by_cases h : d.any (fun p => p.1 == k) = true
  · rw [if_pos h]
    obtain ⟨q, hq, hqk⟩ := List.any_eq_true.1 h
    have hqk' : q.1 = k := by simpa using hqk
    have hm : (d.map fun p => if (p.1 == k) = true then (k, v) else p).map (·.1) = d.map (·.1) := by
      rw [List.map_map]
      apply List.map_congr_left
      intro p _
      simp only [Function.comp]
      by_cases hp : p.1 = k
      · simp [hp]
      · have : (p.1 == k) = false := by simpa using hp
        simp [this]
    rw [hm]
    constructor
    · exact Or.inl
    · rintro (h | rfl)
      · exact h
      · exact List.mem_map.2 ⟨q, hq, hqk'⟩
  · rw [if_neg h]; simp

theorem keys_update (d e : List (String × α)) (n : String) :
    n ∈ (update d e).map (·.1) ↔ n ∈ d.map (·.1) ∨ n ∈ e.map (·.1) := by
  unfold update
  induction e generalizing d with
  | nil => simp
  | cons p e ih =>
    rw [List.foldl_cons, ih, keys_setItem, List.map_cons, List.mem_cons]
    tauto

/-! ## C86 -/

/-- What a `train` call of a network with a burn-in sampler sets itself. -/
def ownValue (own : Own α) (k : String) : Option α :=
  if k = "params" then some own.params
  else if k = "cost_fun" then some own.costFun
  else if k = "batch_generator" then some own.batchGenerator
  else if k = "session" then some own.session
  else if k = "seed" then some own.seed
  else if k = "dtype" then some own.dtype
  else if k = "stepsize_schedule" then some own.stepsizeSchedule
  else if k = "scale_grad" then some own.nDatapoints
  else if k = "burn_in_steps" then some own.burnInSteps
  else none

theorem lookup_trainKwargs (m : Method) (hm : isSupported (.member m) = true) (own : Own α) (stored : List (String × α)) (k : String) :
    lookup (trainKwargs (.member m) own stored) k = (ownValue own k).or (lookup stored k) := by
  have hb : isBurnInMcmc (.member m) = true := hm
  unfold trainKwargs
  simp only [hb, if_true, lookup_update]
  simp only [List.reverse_cons, List.reverse_nil, List.nil_append, List.cons_append, lookup, List.find?_cons, List.find?_nil]
  unfold ownValue
  by_cases h1 : k = "params"
  · subst h1; rfl
  by_cases h2 : k = "cost_fun"
  · subst h2; rfl
  by_cases h3 : k = "batch_generator"
  · subst h3; rfl
  by_cases h4 : k = "session"
  · subst h4; rfl
  by_cases h5 : k = "seed"
  · subst h5; rfl
  by_cases h6 : k = "dtype"
  · subst h6; rfl
  by_cases h7 : k = "stepsize_schedule"
  · subst h7; rfl
  by_cases h8 : k = "scale_grad"
  · subst h8; rfl
  by_cases h9 : k = "burn_in_steps"
  · subst h9; rfl
  have n : ∀ s : String, k ≠ s → (s == k) = false := fun s h => by simpa using fun e => h (Eq.symm e)
  simp only [n _ h1, n _ h2, n _ h3, n _ h4, n _ h5, n _ h6, n _ h7, n _ h8, n _ h9, h1, h2, h3, h4, h5, h6, h7, h8, h9, if_false,
    Option.map_none, Option.none_or]

theorem keys_trainKwargs (m : Method) (hm : isSupported (.member m) = true) (own : Own α) (stored : List (String × α)) (n : String) :
    n ∈ (trainKwargs (.member m) own stored).map (·.1) ↔ n ∈ stored.map (·.1) ∨ (ownValue own n).isSome = true := by
  have hb : isBurnInMcmc (.member m) = true := hm
  unfold trainKwargs
  simp only [hb, if_true, keys_update, List.map_cons, List.map_nil, List.mem_cons, List.not_mem_nil, or_false]
  unfold ownValue
  by_cases h1 : n = "params"
  · simp [h1]
  by_cases h2 : n = "cost_fun"
  · simp [h2]
  by_cases h3 : n = "batch_generator"
  · simp [h3]
  by_cases h4 : n = "session"
  · simp [h4]
  by_cases h5 : n = "seed"
  · simp [h5]
  by_cases h6 : n = "dtype"
  · simp [h6]
  by_cases h7 : n = "stepsize_schedule"
  · simp [h7]
  by_cases h8 : n = "scale_grad"
  · simp [h8]
  by_cases h9 : n = "burn_in_steps"
  · simp [h9]
  simp [h1, h2, h3, h4, h5, h6, h7, h8, h9]

theorem lookup_isSome_iff (d : List (String × α)) (k : String) : (lookup d k).isSome = true ↔ k ∈ d.map (·.1) := by
  unfold lookup
  rw [Option.isSome_map, List.find?_isSome]
  simp

theorem supported_cases {m : Method} (hm : isSupported (.member m) = true) : m = .SGHMC ∨ m = .SGLD := by
  cases m
  · exact .inl rfl
  · exact absurd hm (by decide)
  · exact .inr rfl
  · exact absurd hm (by decide)

theorem samplerKwargs_names (kwargs : List (String × α)) : ∀ p ∈ samplerKwargs kwargs, p.1 ∉ ctorNames := by
  intro p hp
  have := (List.mem_filter.1 hp).2
  simpa using this

theorem required_params {m : Method} (hm : isSupported (.member m) = true) :
    ∀ p ∈ callerParams (classOf m), p.default = none → p.name = "params" ∨ p.name = "cost_fun" := by
  rcases supported_cases hm with rfl | rfl
  · decide
  · decide

theorem setUp_snd (m : MethodVal) (own : Own α) (stored : List (String × α)) :
    (setUp m own stored).2 = getSampler m (trainKwargs m own stored) := rfl

/-- The kept keyword dictionary contains, besides the original one, only what `train` sets. -/
theorem keys_afterTrains (m : Method) (hm : isSupported (.member m) = true) (stored : List (String × α)) (owns : List (Own α)) (n : String) :
    n ∈ (afterTrains (.member m) stored owns).map (·.1) →
      n ∈ stored.map (·.1) ∨ ∃ own ∈ owns, (ownValue own n).isSome = true := by
  induction owns generalizing stored with
  | nil => exact Or.inl
  | cons o os ih =>
    intro h
    rcases ih _ h with h | ⟨own, ho, h⟩
    · rcases (keys_trainKwargs m hm o stored n).1 h with h | h
      · exact .inl h
      · exact .inr ⟨o, by simp, h⟩
    · exact .inr ⟨own, by simp [ho], h⟩

theorem ownValue_isSome (own own' : Own α) (n : String) : (ownValue own n).isSome = (ownValue own' n).isSome := by
  unfold ownValue
  split_ifs <;> rfl

theorem lookup_afterTrains (m : Method) (hm : isSupported (.member m) = true) (stored : List (String × α)) (owns : List (Own α)) (k : String)
    (hk : ∀ own, ownValue (α := α) own k = none) : lookup (afterTrains (.member m) stored owns) k = lookup stored k := by
  induction owns generalizing stored with
  | nil => rfl
  | cons o os ih =>
    show lookup (afterTrains _ (trainKwargs _ o stored) os) k = _
    rw [ih, lookup_trainKwargs m hm, hk, Option.none_or]

/-- **C86** Whatever happened in earlier `train` calls: if the keyword arguments given to the constructor besides its own
parameters are acceptable for the sampler, a `train` call creates a sampler of the configured class whose arguments are the
network's parameters, its cost, the batches of the current data, session, seed, dtype, schedule and burn-in length of the
network and `scale_grad` = the current number of datapoints, and, for every other argument, the value given to the
constructor or else the sampler's default. -/
theorem C86_arguments (m : Method) (hm : isSupported (.member m) = true) (kwargs : List (String × α)) (owns : List (Own α)) (own : Own α)
    (hok : ∀ p ∈ samplerKwargs kwargs, p.1 ∈ (callerParams (classOf m)).map Param.name) :
    ∃ args, (setUp (.member m) own (afterTrains (.member m) (samplerKwargs kwargs) owns)).2 = .ok (classOf m, args) ∧
      args.map (·.1) = (callerParams (classOf m)).map Param.name ∧
      (∀ k v, ownValue own k = some v → (k, Arg.given v) ∈ args) ∧
      ∀ p ∈ callerParams (classOf m), ownValue own p.name = none →
        (∀ v, lookup (samplerKwargs kwargs) p.name = some v → (p.name, Arg.given v) ∈ args) ∧
        (lookup (samplerKwargs kwargs) p.name = none → ∃ d, p.default = some d ∧ (p.name, Arg.dflt d) ∈ args) := by
  set d := trainKwargs (.member m) own (afterTrains (.member m) (samplerKwargs kwargs) owns) with hd
  have hsig : ∀ n, n ∈ (callerParams (classOf m)).map Param.name →
      n ∈ (signature (classOf m)).map Param.name ∧ n ≠ "cls" ∧ n ≠ "sampling_method" := by
    intro n hn
    refine ⟨?_, ?_, ?_⟩
    · obtain ⟨p, hp, rfl⟩ := List.mem_map.1 hn
      exact List.mem_map.2 ⟨p, (List.mem_filter.1 hp).1, rfl⟩
    · rintro rfl; cases m <;> revert hn <;> decide
    · rintro rfl; cases m <;> revert hn <;> decide
  have hown : ∀ n, (ownValue own n).isSome = true → n ∈ (callerParams (classOf m)).map Param.name := by
    intro n hn
    have hn' : n ∈ ["params", "cost_fun", "batch_generator", "session", "seed", "dtype", "stepsize_schedule", "scale_grad",
        "burn_in_steps"] := by
      unfold ownValue at hn
      split_ifs at hn with h1 h2 h3 h4 h5 h6 h7 h8 h9 <;> simp_all
    rcases supported_cases hm with rfl | rfl
    · fin_cases hn' <;> decide
    · fin_cases hn' <;> decide
  have hkeys : ∀ p ∈ d, p.1 ∈ (callerParams (classOf m)).map Param.name := by
    intro p hp
    rcases (keys_trainKwargs m hm own _ p.1).1 (List.mem_map.2 ⟨p, hp, rfl⟩) with h | h
    · rcases keys_afterTrains m hm _ owns p.1 h with h | ⟨o, -, h⟩
      · obtain ⟨q, hq, e⟩ := List.mem_map.1 h
        rw [← e]; exact hok q hq
      · exact hown _ (by rw [ownValue_isSome own o]; exact h)
    · exact hown _ h
  have hlook : ∀ k, lookup d k = (ownValue own k).or (lookup (afterTrains (.member m) (samplerKwargs kwargs) owns) k) :=
    fun k => lookup_trainKwargs m hm own _ k
  have hsucc : ∃ r, getSampler (.member m) d = .ok r := by
    cases hg : getSampler (.member m) d with
    | ok r => exact ⟨r, rfl⟩
    | error e =>
      exfalso
      obtain ⟨n, -, ⟨pre, a, post, heq, hn, -⟩ | ⟨-, pre, p, post, heq, hpn, hdef, hnone, -⟩⟩ :=
        (C18_rejections_partial m d (fun p hp => (hsig _ (hkeys p hp)).2) e).1 hg
      · exact hn (hsig _ (hkeys (n, a) (by rw [heq]; simp))).1
      · have hp : p ∈ callerParams (classOf m) := by rw [heq]; simp
        have := required_params hm p hp hdef
        rw [hlook] at hnone
        rcases this with h | h
        · rw [← hpn, h] at hnone; simp [ownValue] at hnone
        · rw [← hpn, h] at hnone; simp [ownValue] at hnone
  obtain ⟨⟨c, args⟩, hr⟩ := hsucc
  obtain ⟨rfl, hnames, -, -, hall⟩ := C17_arguments m d c args hr
  refine ⟨args, hr, hnames, ?_, ?_⟩
  · intro k v hk
    have hmem := hown k (by rw [hk]; rfl)
    obtain ⟨p, hp, rfl⟩ := List.mem_map.1 hmem
    exact (hall p hp).1 v (by rw [hlook, hk]; rfl)
  · intro p hp hno
    have hno' : ∀ o : Own α, ownValue o p.name = none := by
      intro o
      have := ownValue_isSome own o p.name
      rw [hno] at this
      simpa using this.symm
    have hl : lookup d p.name = lookup (samplerKwargs kwargs) p.name := by
      rw [hlook, hno, Option.none_or, lookup_afterTrains m hm _ _ _ hno']
    refine ⟨fun v hv => (hall p hp).1 v (by rw [hl, hv]), fun hv => (hall p hp).2 (by rw [hl, hv])⟩

/-- **C86** The constructor's own parameters are no sampler arguments: giving them explicitly changes nothing. -/
theorem C86_own_parameters (pre post : List (String × α)) (name : String) (v : α)
    (h : name ∈ ["session", "sampling_method", "get_net", "batch_generator", "batch_size", "stepsize_schedule", "n_nets", "n_iters",
      "burn_in_steps", "sample_steps", "normalize_input", "normalize_output", "seed", "dtype"]) :
    samplerKwargs (pre ++ (name, v) :: post) = samplerKwargs (pre ++ post) := by
  have hc : ctorNames.contains name = true := by
    fin_cases h <;> decide
  unfold samplerKwargs
  rw [List.filter_append, List.filter_append, List.filter_cons, if_neg (by simpa using hc)]

/-- **C86** An unknown keyword argument of the constructor is rejected with `ValueError`, in every `train` call, not earlier. -/
theorem C86_unknown (m : Method) (hm : isSupported (.member m) = true) (kwargs : List (String × α)) (owns : List (Own α)) (own : Own α)
    (p : String × α) (hp : p ∈ samplerKwargs kwargs) (hbad : p.1 ∉ (signature (classOf m)).map Param.name) (hcls : ∀ q ∈ kwargs, q.1 ≠ "cls") :
    ∃ n, (setUp (.member m) own (afterTrains (.member m) (samplerKwargs kwargs) owns)).2 = .error (.value n) := by
  set d := trainKwargs (.member m) own (afterTrains (.member m) (samplerKwargs kwargs) owns) with hd
  have hkeep : ∀ (stored : List (String × α)) (owns : List (Own α)), p.1 ∈ stored.map (·.1) →
      p.1 ∈ (afterTrains (.member m) stored owns).map (·.1) := by
    intro stored owns h
    induction owns generalizing stored with
    | nil => exact h
    | cons o os ih => exact ih _ ((keys_trainKwargs m hm o stored p.1).2 (.inl h))
  have hmem : p.1 ∈ d.map (·.1) := (keys_trainKwargs m hm own _ p.1).2 (.inl (hkeep _ owns (List.mem_map.2 ⟨p, hp, rfl⟩)))
  have hnames : ∀ q ∈ d, q.1 ≠ "cls" ∧ q.1 ≠ "sampling_method" := by
    intro q hq
    have hown : ∀ o : Own α, (ownValue o q.1).isSome = true → q.1 ≠ "cls" ∧ q.1 ≠ "sampling_method" := by
      intro o h
      constructor <;> intro e <;> rw [e] at h <;> simp [ownValue] at h
    rcases (keys_trainKwargs m hm own _ q.1).1 (List.mem_map.2 ⟨q, hq, rfl⟩) with h | h
    · rcases keys_afterTrains m hm _ owns q.1 h with h | ⟨o, -, h⟩
      · obtain ⟨q', hq', e⟩ := List.mem_map.1 h
        rw [← e]
        refine ⟨hcls q' ((List.mem_filter.1 hq').1), fun e' => samplerKwargs_names kwargs q' hq' ?_⟩
        rw [e']; decide
      · exact hown o h
    · exact hown own h
  cases hg : getSampler (.member m) d with
  | ok r =>
    exfalso
    obtain ⟨c, args⟩ := r
    obtain ⟨rfl, -, -, hall, -⟩ := C17_arguments m d c args hg
    obtain ⟨q, hq, e⟩ := List.mem_map.1 hmem
    exact hbad (e ▸ hall q hq)
  | error e =>
    obtain ⟨n, rfl, -⟩ := (C18_rejections_partial m d hnames e).1 hg
    exact ⟨n, hg⟩

/-! ## C87 -/

/-- **C87** With the sampling method SGHMC the sampler takes its stepsizes from the network's schedule.  Missing: SGLD, see
`C87_violated`. -/
theorem C87_schedule_partial (kwargs : List (String × α)) (owns : List (Own α)) (own : Own α)
    (c : Cls) (args : List (String × Arg α))
    (h : (setUp (.member .SGHMC) own (afterTrains (.member .SGHMC) (samplerKwargs kwargs) owns)).2 = .ok (c, args)) :
    (superArgs c args).stepsizeSchedule = some (.given own.stepsizeSchedule) := by
  have hl := lookup_trainKwargs .SGHMC rfl own (afterTrains (.member .SGHMC) (samplerKwargs kwargs) owns) "stepsize_schedule"
  rw [setUp_snd] at h
  generalize trainKwargs (.member .SGHMC) own (afterTrains (.member .SGHMC) (samplerKwargs kwargs) owns) = d at hl h
  exact C20_end_to_end_partial .SGHMC (by decide) d c args h own.stepsizeSchedule hl

/-- **C87** is false of the code for SGLD: whatever schedule the network was given, its sampler uses the constant stepsize
`0.01`. -/
theorem C87_violated (kwargs : List (String × α)) (owns : List (Own α)) (own : Own α) (c : Cls) (args : List (String × Arg α))
    (h : (setUp (.member .SGLD) own (afterTrains (.member .SGLD) (samplerKwargs kwargs) owns)).2 = .ok (c, args)) :
    (superArgs c args).stepsizeSchedule = some (.dflt (.constantSchedule 1 100)) := by
  rw [setUp_snd] at h
  generalize trainKwargs (.member .SGLD) own (afterTrains (.member .SGLD) (samplerKwargs kwargs) owns) = d at h
  exact C20_violated d c args h

/-! ## The hypotheses are met -/

/-- A second `train` call on 70 datapoints, after one on 50; `mdecay` was given to the constructor, together with a
`scale_grad` that has no effect. -/
example : (setUp (.member .SGHMC) ⟨"p", "c", "b2", "s", "none", "f64", "sched", "70", "1000"⟩
      (afterTrains (.member .SGHMC) (samplerKwargs [("mdecay", "0.1"), ("n_nets", "7"), ("scale_grad", "1")])
        [⟨"p", "c", "b1", "s", "none", "f64", "sched", "50", "1000"⟩])).2.toOption.map (fun r => r.2.map fun p => (p.1, match p.2 with
          | .given v => v
          | .dflt _ => "default"))
    = some [("params", "p"), ("cost_fun", "c"), ("batch_generator", "b2"), ("stepsize_schedule", "sched"), ("burn_in_steps", "1000"),
      ("mdecay", "0.1"), ("scale_grad", "70"), ("session", "s"), ("dtype", "f64"), ("seed", "none")] := by decide

example : ∀ p ∈ samplerKwargs [("mdecay", "0.1"), ("n_nets", "7"), ("scale_grad", "1")],
    p.1 ∈ (callerParams (classOf .SGHMC)).map Param.name := by decide

/-- `A` belongs to SGLD only. -/
example : ("A", "1") ∈ samplerKwargs [("A", "1")] ∧ "A" ∉ (signature (classOf .SGHMC)).map Param.name := by decide

end PySGMCMC.BNNSampler
