import Verif.Model.Sampling
import Verif.Lemmas.Iter
import Verif.Props.SamplerBase

/-!
# C17–C20: `Sampler.get_sampler`, supported methods and constructor plumbing
-/

namespace PySGMCMC.Sampling

variable {α : Type}

/-- The parameters a caller can set: the signature without `self`. -/
def callerParams (c : Cls) : List Param := (signature c).filter (fun p => p.name != "self")

/-- The documented class of a method. -/
def classOf : Method → Cls
  | .SGHMC => .sghmc
  | .RelativisticSGHMC => .relativistic
  | .SGLD => .sgld
  | .SVGD => .svgd

theorem parameterValue_ok {kwargs : List (String × α)} {p : Param} {r : String × Arg α}
    (h : parameterValue kwargs p = .ok r) :
    r.1 = p.name ∧ ((∃ a, lookup kwargs p.name = some a ∧ r.2 = .given a)
      ∨ (∃ d, lookup kwargs p.name = none ∧ p.default = some d ∧ r.2 = .dflt d)) := by
  unfold parameterValue at h
  cases hl : lookup kwargs p.name <;> cases hd : p.default <;> simp [hl, hd] at h <;> subst h <;> simp

theorem mapM_ok_get {β γ : Type} (f : β → Except PyErr γ) (l : List β) (r : List γ) (h : l.mapM f = .ok r) :
    r.length = l.length ∧ ∀ k (hk : k < l.length) (hk' : k < r.length), f l[k] = .ok r[k] := by
  induction l generalizing r with
  | nil => cases h; simp
  | cons a l ih =>
    rw [List.mapM_cons] at h
    cases hf : f a with
    | error e => rw [hf] at h; cases h
    | ok b =>
      rw [hf] at h
      cases hm : l.mapM f with
      | error e => rw [hm] at h; cases h
      | ok bs =>
        rw [hm] at h
        cases h
        obtain ⟨h1, h2⟩ := ih bs hm
        refine ⟨by simp [h1], fun k hk hk' => ?_⟩
        cases k with
        | zero => simpa using hf
        | succ k => simpa using h2 k (by simpa using hk) (by simpa using hk')

/-- The first failing element decides. -/
theorem mapM_error_iff {β γ : Type} (f : β → Except PyErr γ) (l : List β) (e : PyErr) :
    l.mapM f = .error e ↔ ∃ pre a post, l = pre ++ a :: post ∧ f a = .error e ∧ ∀ x ∈ pre, ∃ y, f x = .ok y := by
  induction l with
  | nil => simp [pure, Except.pure]
  | cons a l ih =>
    rw [List.mapM_cons]
    cases hf : f a with
    | error e' =>
      constructor
      · intro h
        cases h
        exact ⟨[], a, l, rfl, hf, by simp⟩
      · rintro ⟨pre, b, post, heq, hb, hpre⟩
        cases pre with
        | nil => simp only [List.nil_append, List.cons.injEq] at heq; rw [heq.1, hb] at hf; cases hf; rfl
        | cons p pre =>
          simp only [List.cons_append, List.cons.injEq] at heq
          obtain ⟨y, hy⟩ := hpre p (by simp)
          rw [← heq.1, hf] at hy; cases hy
    | ok b =>
      have : (do let b ← (Except.ok b : Except PyErr γ); let bs ← l.mapM f; pure (b :: bs)) = .error e ↔ l.mapM f = .error e := by
        cases hm : l.mapM f <;> simp [bind, Except.bind, pure, Except.pure]
      rw [this, ih]
      constructor
      · rintro ⟨pre, c, post, rfl, hc, hpre⟩
        refine ⟨a :: pre, c, post, rfl, hc, ?_⟩
        intro x hx
        rcases List.mem_cons.1 hx with rfl | hx
        · exact ⟨b, hf⟩
        · exact hpre x hx
      · rintro ⟨pre, c, post, heq, hc, hpre⟩
        cases pre with
        | nil => simp only [List.nil_append, List.cons.injEq] at heq; rw [← heq.1, hf] at hc; cases hc
        | cons p pre =>
          simp only [List.cons_append, List.cons.injEq] at heq
          exact ⟨pre, c, post, heq.2, hc, fun x hx => hpre x (by simp [hx])⟩

theorem mapM_ok_map {β γ δ : Type} (f : β → Except PyErr γ) (g : γ → δ) (g' : β → δ)
    (hfg : ∀ a b, f a = .ok b → g b = g' a) (l : List β) (r : List γ) (h : l.mapM f = .ok r) : r.map g = l.map g' := by
  obtain ⟨h1, h2⟩ := mapM_ok_get f l r h
  apply List.ext_getElem
  · simp [h1]
  · intro k hk hk'
    simp only [List.length_map] at hk hk'
    simp only [List.getElem_map]
    exact hfg _ _ (h2 k hk' hk)

theorem getSampler_ok {method : MethodVal} {kwargs : List (String × α)} {c : Cls} {args : List (String × Arg α)}
    (h : getSampler method kwargs = .ok (c, args)) :
    importClass method = some c ∧ (callerParams c).mapM (parameterValue kwargs) = .ok args
    ∧ ∀ p ∈ kwargs, p.1 ∈ (signature c).map Param.name := by
  unfold getSampler at h
  split at h
  · cases h
  · cases hi : importClass method with
    | none => rw [hi] at h; cases h
    | some c' =>
      rw [hi] at h
      simp only at h
      cases hf : kwargs.find? (fun p => !((signature c').map Param.name).contains p.1) with
      | some p => rw [hf] at h; cases h
      | none =>
        rw [hf] at h
        simp only at h
        cases hm : ((signature c').filter (fun p => p.name != "self")).mapM (parameterValue kwargs) with
        | error e => rw [hm] at h; cases h
        | ok as =>
          rw [hm] at h
          simp only [Except.ok.injEq, Prod.mk.injEq] at h
          obtain ⟨rfl, rfl⟩ := h
          refine ⟨rfl, hm, fun p hp => ?_⟩
          have := List.find?_eq_none.1 hf p hp
          simpa [List.contains_iff_mem] using this

/-! ## C17 -/

/-- C17: whenever `get_sampler` gets as far as constructing a sampler, it is the class of the method, every
constructor parameter is bound exactly once, and each is bound to the caller's value if there is one and to the
declared default otherwise. -/
theorem C17_arguments (m : Method) (kwargs : List (String × α)) (c : Cls) (args : List (String × Arg α))
    (h : getSampler (.member m) kwargs = .ok (c, args)) :
    c = classOf m ∧ args.map (·.1) = (callerParams c).map Param.name ∧ (args.map (·.1)).Nodup
    ∧ (∀ p ∈ kwargs, p.1 ∈ (signature c).map Param.name)
    ∧ ∀ p ∈ callerParams c,
      (∀ a, lookup kwargs p.name = some a → (p.name, Arg.given a) ∈ args)
      ∧ (lookup kwargs p.name = none → ∃ d, p.default = some d ∧ (p.name, Arg.dflt d) ∈ args) := by
  obtain ⟨h1, h2, h3⟩ := getSampler_ok h
  have hc : c = classOf m := by cases m <;> cases h1 <;> rfl
  have hnames : args.map (·.1) = (callerParams c).map Param.name :=
    mapM_ok_map _ _ _ (fun a b hab => (parameterValue_ok hab).1) _ _ h2
  refine ⟨hc, hnames, ?_, h3, fun p hp => ?_⟩
  · rw [hnames]; cases c <;> decide
  · obtain ⟨h4, h5⟩ := mapM_ok_get _ _ _ h2
    obtain ⟨k, hk, rfl⟩ := List.mem_iff_getElem.1 hp
    have h6 := h5 k hk (by omega)
    obtain ⟨e1, e2⟩ := parameterValue_ok h6
    have hmem : args[k]'(by omega) ∈ args := List.getElem_mem _
    constructor
    · intro a ha
      rcases e2 with ⟨a', ha', e3⟩ | ⟨d, hn, -, -⟩
      · rw [ha] at ha'; cases ha'
        rw [show ((callerParams c)[k].name, Arg.given a) = args[k]'(by omega) from by rw [← e1, ← e3]]
        exact hmem
      · rw [ha] at hn; cases hn
    · intro hn
      rcases e2 with ⟨a', ha', -⟩ | ⟨d, -, hd, e3⟩
      · rw [hn] at ha'; cases ha'
      · exact ⟨d, hd, by
          rw [show ((callerParams c)[k].name, Arg.dflt d) = args[k]'(by omega) from by rw [← e1, ← e3]]
          exact hmem⟩

/-- The default values users read in the docstrings, and the default stepsizes. -/
def documentedDefault : Method → String → Option Default
  | .SGHMC, "stepsize_schedule" => some (.constantSchedule 1 100)
  | .SGLD, "stepsize_schedule" => some (.constantSchedule 1 100)
  | .RelativisticSGHMC, "stepsize_schedule" => some (.constantSchedule 1 1000)
  | .SVGD, "stepsize_schedule" => some (.constantSchedule 1 10)
  | .SGHMC, "burn_in_steps" => some (.int 3000)
  | .SGLD, "burn_in_steps" => some (.int 3000)
  | .SGHMC, "mdecay" => some (.float 5 100)
  | .SGHMC, "scale_grad" => some (.float 1 1)
  | .SGLD, "scale_grad" => some (.float 1 1)
  | .SGLD, "A" => some (.float 1 1)
  | .RelativisticSGHMC, "mass" => some (.float 1 1)
  | .RelativisticSGHMC, "speed_of_light" => some (.float 1 1)
  | .RelativisticSGHMC, "D" => some (.float 1 1)
  | .RelativisticSGHMC, "Bhat" => some (.float 0 1)
  | .SVGD, "alpha" => some (.float 9 10)
  | .SVGD, "fudge_factor" => some (.float 1 1000000)
  | _, "batch_generator" => some .none
  | _, "session" => some .defaultSession
  | _, "dtype" => some .float64
  | _, "seed" => some .none
  | _, _ => none

/-- C17 (defaults): a parameter the caller leaves out gets its documented default, and those are all the parameters that
may be left out. -/
theorem C17_defaults (m : Method) (kwargs : List (String × α)) (c : Cls) (args : List (String × Arg α))
    (h : getSampler (.member m) kwargs = .ok (c, args)) (n : String) (hn : n ∈ args.map (·.1)) (hl : lookup kwargs n = none) :
    ∃ d, documentedDefault m n = some d ∧ (n, Arg.dflt d) ∈ args := by
  obtain ⟨rfl, h1, -, -, h2⟩ := C17_arguments m kwargs c args h
  rw [h1] at hn
  obtain ⟨p, hp, rfl⟩ := List.mem_map.1 hn
  obtain ⟨d, hd, hm⟩ := (h2 p hp).2 hl
  refine ⟨d, ?_, hm⟩
  have key : ∀ p ∈ callerParams (classOf m), ∀ d, p.default = some d → documentedDefault m p.name = some d := by
    have : (callerParams (classOf m)).all (fun p => p.default == none || documentedDefault m p.name == p.default) = true := by
      cases m <;> decide
    intro p hp d hd
    have h3 := List.all_eq_true.1 this p hp
    simp only [hd, Bool.or_eq_true, beq_iff_eq] at h3
    rcases h3 with h3 | h3
    · cases h3
    · exact h3
  exact key p hp d hd

/-! ## C18 -/

/-- C18, what holds: exactly when and with which culprit `get_sampler` raises, for all keyword dictionaries.
`getSampler` raises `ValueError` naming `n` iff `n` is the first keyword outside the constructor's parameters, or
there is none and `n` is the first parameter without default that was not given.
Missing: the keyword `self` is let through, see `C18_self_dropped`. -/
theorem C18_rejections_partial (m : Method) (kwargs : List (String × α))
    (hkw : ∀ p ∈ kwargs, p.1 ≠ "cls" ∧ p.1 ≠ "sampling_method") (e : PyErr) :
    getSampler (.member m) kwargs = .error e ↔ ∃ n, e = .value n ∧
      ((∃ pre a post, kwargs = pre ++ (n, a) :: post ∧ n ∉ (signature (classOf m)).map Param.name
          ∧ ∀ p ∈ pre, p.1 ∈ (signature (classOf m)).map Param.name)
      ∨ ((∀ p ∈ kwargs, p.1 ∈ (signature (classOf m)).map Param.name)
          ∧ ∃ pre p post, callerParams (classOf m) = pre ++ p :: post ∧ p.name = n ∧ p.default = none
            ∧ lookup kwargs n = none
            ∧ ∀ q ∈ pre, q.default = none → lookup kwargs q.name ≠ none)) := by
  have hany : kwargs.any (fun p => p.1 == "cls" || p.1 == "sampling_method") = false := by
    rw [List.any_eq_false]
    intro p hp
    have := hkw p hp
    simp [this.1, this.2]
  have hcls : importClass (.member m) = some (classOf m) := by cases m <;> rfl
  unfold getSampler
  rw [hany]
  simp only [Bool.false_eq_true, if_false, hcls]
  have hpv : ∀ q : Param, (∃ y, parameterValue kwargs q = .ok y) ↔ (q.default = none → lookup kwargs q.name ≠ none) := by
    intro q
    unfold parameterValue
    cases lookup kwargs q.name <;> cases q.default <;> simp
  have hpe : ∀ (q : Param) e, parameterValue kwargs q = .error e ↔ e = .value q.name ∧ q.default = none ∧ lookup kwargs q.name = none := by
    intro q e
    unfold parameterValue
    cases lookup kwargs q.name <;> cases q.default <;> simp [eq_comm]
  cases hf : kwargs.find? (fun p => !((signature (classOf m)).map Param.name).contains p.1) with
  | some p =>
    obtain ⟨hp1, pre, post, heq, hpre⟩ := List.find?_eq_some_iff_append.1 hf
    have hp1' : p.1 ∉ (signature (classOf m)).map Param.name := by simpa [List.contains_iff_mem] using hp1
    have hpre' : ∀ q ∈ pre, q.1 ∈ (signature (classOf m)).map Param.name := by
      intro q hq; simpa [List.contains_iff_mem] using hpre q hq
    simp only [Except.error.injEq]
    constructor
    · intro h
      exact ⟨p.1, h.symm, .inl ⟨pre, p.2, post, heq, hp1', hpre'⟩⟩
    · rintro ⟨n, rfl, ⟨pre2, a, post2, heq2, hn, hpre2⟩ | ⟨hall, -⟩⟩
      · have : kwargs.find? (fun p => !((signature (classOf m)).map Param.name).contains p.1) = some (n, a) := by
          rw [List.find?_eq_some_iff_append]
          refine ⟨by simpa [List.contains_iff_mem] using hn, pre2, post2, heq2, fun q hq => ?_⟩
          simpa [List.contains_iff_mem] using hpre2 q hq
        rw [this] at hf
        cases hf; rfl
      · exact absurd (hall p (by rw [heq]; simp)) hp1'
  | none =>
    have hall : ∀ p ∈ kwargs, p.1 ∈ (signature (classOf m)).map Param.name := by
      intro p hp
      have := List.find?_eq_none.1 hf p hp
      simpa [List.contains_iff_mem] using this
    simp only
    have h0 : ((signature (classOf m)).filter (fun p => p.name != "self")) = callerParams (classOf m) := rfl
    rw [h0]
    refine Iff.trans (b := (callerParams (classOf m)).mapM (parameterValue kwargs) = .error e) ?_ ?_
    · cases (callerParams (classOf m)).mapM (parameterValue kwargs) <;> simp
    rw [mapM_error_iff]
    constructor
    · rintro ⟨pre, a, post, heq, ha, hpre⟩
      obtain ⟨rfl, h1, h2⟩ := (hpe a e).1 ha
      exact ⟨a.name, rfl, .inr ⟨hall, pre, a, post, heq, rfl, h1, h2, fun q hq => (hpv q).1 (hpre q hq)⟩⟩
    · rintro ⟨n, rfl, ⟨pre2, a, post2, heq2, hn, -⟩ | ⟨-, pre, a, post, heq, rfl, h1, h2, hpre⟩⟩
      · exact absurd (hall (n, a) (by rw [heq2]; simp)) hn
      · exact ⟨pre, a, post, heq, (hpe a _).2 ⟨rfl, h1, h2⟩, fun q hq => (hpv q).2 (hpre q hq)⟩

/-- C18: a value that is not a member of the enum is rejected with `ValueError`, whatever the keywords. -/
theorem C18_unknown_method (kwargs : List (String × α))
    (hkw : ∀ p ∈ kwargs, p.1 ≠ "cls" ∧ p.1 ≠ "sampling_method") :
    ∃ n, getSampler .other kwargs = .error (.value n) := by
  have hany : kwargs.any (fun p => p.1 == "cls" || p.1 == "sampling_method") = false := by
    rw [List.any_eq_false]
    intro p hp
    have := hkw p hp
    simp [this.1, this.2]
  exact ⟨"sampling_method", by unfold getSampler; rw [hany]; rfl⟩

/-- C18 is violated: `self` is not a parameter a caller can set, but it is accepted and silently ignored: adding
it to any keyword list changes nothing. -/
theorem C18_self_dropped (m : Method) (kwargs : List (String × α)) (v : α) :
    getSampler (.member m) (kwargs ++ [("self", v)]) = getSampler (.member m) kwargs := by
  have hcls : importClass (.member m) = some (classOf m) := by cases m <;> rfl
  have hself : ((signature (classOf m)).map Param.name).contains "self" = true := by cases m <;> decide
  have hany : (kwargs ++ [("self", v)]).any (fun p => p.1 == "cls" || p.1 == "sampling_method")
      = kwargs.any (fun p => p.1 == "cls" || p.1 == "sampling_method") := by
    simp [List.any_append]
  have hfind : (kwargs ++ [("self", v)]).find? (fun p => !((signature (classOf m)).map Param.name).contains p.1)
      = kwargs.find? (fun p => !((signature (classOf m)).map Param.name).contains p.1) := by
    rw [List.find?_append]
    cases kwargs.find? (fun p => !((signature (classOf m)).map Param.name).contains p.1) with
    | some p => rfl
    | none =>
      rw [Option.none_or, List.find?_eq_none]
      intro p hp
      rw [List.mem_singleton] at hp
      subst hp
      simp only [hself]; simp
  have hmap : ((signature (classOf m)).filter (fun p => p.name != "self")).mapM (parameterValue (kwargs ++ [("self", v)]))
      = ((signature (classOf m)).filter (fun p => p.name != "self")).mapM (parameterValue kwargs) := by
    have hpv : ∀ p ∈ (signature (classOf m)).filter (fun p => p.name != "self"),
        parameterValue (kwargs ++ [("self", v)]) p = parameterValue kwargs p := by
      intro p hp
      rw [List.mem_filter] at hp
      have hne : p.name ≠ "self" := by simpa using hp.2
      have : lookup (kwargs ++ [("self", v)]) p.name = lookup kwargs p.name := by
        unfold lookup
        rw [List.find?_append]
        cases hk : kwargs.find? (fun q => q.1 == p.name) with
        | some q => rfl
        | none =>
          have : ("self" == p.name) = false := by simpa using fun h => hne h.symm
          simp [this]
      unfold parameterValue
      rw [this]
    generalize (signature (classOf m)).filter (fun p => p.name != "self") = l at hpv
    induction l with
    | nil => rfl
    | cons a l ih =>
      rw [List.mapM_cons, List.mapM_cons, hpv a (by simp), ih (fun p hp => hpv p (by simp [hp]))]
  unfold getSampler
  rw [hany, hcls]
  simp only [hfind, hmap]

/-! ## C19 -/

/-- C19, what holds: only members of the enum are supported, namely exactly `SGHMC` and `SGLD`, which are also
exactly the burn-in methods, although `get_sampler` knows how to build all four.
Missing: the other two members, see `C19_violated`. -/
theorem C19_supported_partial (v : MethodVal) :
    (isSupported v = true ↔ v = .member .SGHMC ∨ v = .member .SGLD) ∧ isSupported v = isBurnInMcmc v
    ∧ (isSupported v = true → ∃ m, v = .member m)
    ∧ ((importClass v).isSome = true ↔ ∃ m, v = .member m) := by
  cases v with
  | other => simp [isSupported, isBurnInMcmc, importClass]
  | member m => cases m <;> simp [isSupported, isBurnInMcmc, importClass, List.contains, List.elem] <;> decide

/-- C19 is violated: two members of the enum are reported as unsupported. -/
theorem C19_violated : isSupported (.member .RelativisticSGHMC) = false ∧ isSupported (.member .SVGD) = false
    ∧ ¬ (∀ v, isSupported v = true ↔ ∃ m, v = .member m) := by
  refine ⟨rfl, rfl, fun h => ?_⟩
  have := (h (.member .SVGD)).2 ⟨.SVGD, rfl⟩
  cases this

/-! ## C20 -/

/-- C20, what holds: every class except SGLD hands the schedule it was given to the base class, and all other
arguments are handed on by all classes. Missing: SGLD, see `C20_violated`. -/
theorem C20_schedule_partial (c : Cls) (args : List (String × Arg α)) :
    (c ≠ .sgld → (superArgs c args).stepsizeSchedule = argOf args "stepsize_schedule")
    ∧ (superArgs c args).batchGenerator = argOf args "batch_generator"
    ∧ (superArgs c args).session = argOf args "session"
    ∧ (superArgs c args).dtype = argOf args "dtype"
    ∧ (superArgs c args).seed = argOf args "seed"
    ∧ (superArgs c args).params = argOf args (if c = .svgd then "particles" else "params") := by
  refine ⟨?_, rfl, rfl, rfl, rfl, ?_⟩
  · cases c <;> intro h <;> first | rfl | exact absurd rfl h
  · cases c <;> rfl

theorem argOf_of_mem {args : List (String × Arg α)} (hn : (args.map (·.1)).Nodup) {n : String} {x : Arg α}
    (h : (n, x) ∈ args) : argOf args n = some x := by
  unfold argOf
  induction args with
  | nil => cases h
  | cons a l ih =>
    rw [List.map_cons, List.nodup_cons] at hn
    rcases List.mem_cons.1 h with rfl | h
    · simp
    · have hne : a.1 ≠ n := by
        rintro rfl
        exact hn.1 (List.mem_map.2 ⟨_, h, rfl⟩)
      rw [List.find?_cons_of_neg (by simpa using hne)]
      exact ih hn.2 h

/-- C20 end to end: if the caller gives `get_sampler` a schedule, the sampler object of every method except SGLD
holds it, and so every stepsize fed to the session is the next value of that schedule (by C10). -/
theorem C20_end_to_end_partial (m : Method) (hm : m ≠ .SGLD) (kwargs : List (String × α)) (c : Cls)
    (args : List (String × Arg α)) (h : getSampler (.member m) kwargs = .ok (c, args)) (sched : α)
    (hs : lookup kwargs "stepsize_schedule" = some sched) :
    (superArgs c args).stepsizeSchedule = some (.given sched) := by
  obtain ⟨hc, -, hnd, -, hall⟩ := C17_arguments m kwargs c args h
  have hne : c ≠ .sgld := by
    rw [hc]; cases m <;> simp [classOf] at hm ⊢
  rw [(C20_schedule_partial c args).1 hne]
  apply argOf_of_mem hnd
  have hp : ∃ p ∈ callerParams c, p.name = "stepsize_schedule" := by
    cases c <;> decide
  obtain ⟨p, hp, hpn⟩ := hp
  have := (hall p hp).1 sched (by rw [hpn]; exact hs)
  rw [hpn] at this
  exact this

/-- C20 is violated by SGLD: whatever schedule is given, the default constant schedule `0.01` is used. -/
theorem C20_violated (kwargs : List (String × α)) (c : Cls)
    (args : List (String × Arg α)) (h : getSampler (.member .SGLD) kwargs = .ok (c, args)) :
    (superArgs c args).stepsizeSchedule = some (.dflt (.constantSchedule 1 100)) := by
  obtain ⟨rfl, -⟩ := C17_arguments .SGLD kwargs c args h
  rfl

/-! ## Non-vacuity -/

/-- A typical call binds all ten parameters. -/
example : getSampler (.member .SGLD) [("cost_fun", 7), ("params", 8), ("stepsize_schedule", (9 : Nat))]
    = .ok (.sgld, [("params", .given 8), ("cost_fun", .given 7), ("batch_generator", .dflt .none),
      ("stepsize_schedule", .given 9), ("burn_in_steps", .dflt (.int 3000)), ("A", .dflt (.float 1 1)),
      ("scale_grad", .dflt (.float 1 1)), ("session", .dflt .defaultSession), ("dtype", .dflt .float64),
      ("seed", .dflt .none)]) := by rfl

/-- The first unknown keyword is named, even if parameters are missing as well. -/
example : getSampler (.member .SVGD) [("cost_fun", 7), ("mdecay", 8), ("params", (9 : Nat))]
    = .error (.value "mdecay") := by rfl

/-- The first missing parameter is named. -/
example : getSampler (.member .SVGD) [("alpha", (9 : Nat))] = .error (.value "particles") := by rfl

end PySGMCMC.Sampling
