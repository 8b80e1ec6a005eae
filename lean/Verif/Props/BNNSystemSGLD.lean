import Verif.Model.BNNSystemSGLD
import Verif.Props.BNNSystem

/-!
# C121: training and prediction of a Bayesian neural network with SGLD, end to end
-/

namespace PySGMCMC.BNNSystemSGLD
open BNN Chain SamplerBase Spec
open BaseModel (lift NonConstant col)
open BNNSystem (sizes Params finP Regular startPoint netCost setElem storedIdx stdRow stdLabel unstdLabel unstdVar attach argOf_of_mem asNumber asInt
  asSchedule asBatches script_run work_eq WorldOf userOk)

variable {R : RNG} {D n : Nat} {shape : Fin n → List Nat}

/-- `A` as given to the constructor, or 1. -/
def FrictionIs (S : Setup R D shape) (a : ℝ) : Prop :=
  Sampling.lookup (BNNSampler.samplerKwargs S.base.kwargs) "A" = some (.num (.fin a))
  ∨ Sampling.lookup (BNNSampler.samplerKwargs S.base.kwargs) "A" = none ∧ a = 1

/-- The sampler right after construction. -/
noncomputable def startOf (S : Setup R D shape) (X : List (Fin D → Fl)) (y : List Fl) (c : Conf) : Sampler (S.env c) :=
  init (some (.fresh, ⟨⟨X, y⟩, S.base.glob⟩)) ⟨[.fin 0.01]⟩ ⟨SGLD.State.start S.base.work S.base.start, .fin 0.01, 0⟩

theorem build_eq (S : Setup R D shape) (cfg : Cfg) (d : TrainData D) (a : ℝ) (ha : FrictionIs S a)
    (hkw : ∀ p ∈ BNNSampler.samplerKwargs S.base.kwargs, p.1 ∈ (Sampling.callerParams .sgld).map Sampling.Param.name) :
    S.build cfg d = .ok ⟨⟨d.placeholder, d.X.length, .fin d.X.length, .fin a, cfg.burnIn⟩, startOf S d.X d.y _⟩ := by
  obtain ⟨args, h1, h2, h3, h4⟩ := BNNSampler.C86_arguments .SGLD rfl S.base.kwargs [] (S.base.own cfg d) hkw
  have hsch := BNNSampler.C87_violated S.base.kwargs [] (S.base.own cfg d) _ args h1
  have hnd : (args.map (·.1)).Nodup := by rw [h2]; decide
  have h1' : (BNNSampler.setUp (.member .SGLD) (S.base.own cfg d) (BNNSampler.samplerKwargs S.base.kwargs)).2 = .ok (.sgld, args) := h1
  have e1 : Sampling.argOf args "scale_grad" = some (.given (.int d.X.length)) := argOf_of_mem hnd (h3 _ _ rfl)
  have e2 : Sampling.argOf args "burn_in_steps" = some (.given (.int cfg.burnIn)) := argOf_of_mem hnd (h3 _ _ rfl)
  have e3 : (Sampling.superArgs .sgld args).batchGenerator = some (.given (.batches (.fresh, ⟨⟨d.X, d.y⟩, S.base.glob⟩))) :=
    argOf_of_mem hnd (h3 _ _ rfl)
  have e4 : (Sampling.superArgs .sgld args).stepsizeSchedule = some (.dflt (.constantSchedule 1 100)) := hsch
  have e5 : (Sampling.argOf args "A").bind asNumber = some (.fin a) := by
    have hm := h4 ⟨"A", some (.float 1 1)⟩ (by decide) rfl
    rcases ha with h | ⟨h, rfl⟩
    · rw [argOf_of_mem hnd (hm.1 _ h)]; rfl
    · obtain ⟨dv, hd1, hd2⟩ := hm.2 h
      obtain rfl : Sampling.Default.float 1 1 = dv := Option.some.inj hd1
      rw [argOf_of_mem hnd hd2]
      show some (Fl.fin _) = _
      norm_num
  have e6 : asSchedule (R := R) (D := D) (.dflt (.constantSchedule 1 100)) = some ⟨[.fin 0.01]⟩ := by
    show some (Schedules.Constant.mk [Fl.fin _]) = _
    norm_num
  unfold Setup.build startOf
  simp only [h1', e1, e2, e3, e4, e5, e6, Option.bind_some, asNumber, asInt, asBatches]
  norm_cast

/-- Calls of the network's sampler are calls of the sampler object. -/
theorem calls_next (S : Setup R D shape) (c : Conf) (N : Nat) (s : Sampler (S.env c)) :
    calls S.next N (some ⟨c, s⟩)
      = ((calls (asIter (burnInNext (S.env c) c.burnIn n)) N s).1.map (Except.map fun p => (attach shape p.1, p.2)),
        some ⟨c, (calls (asIter (burnInNext (S.env c) c.burnIn n)) N s).2⟩) := by
  induction N generalizing s with
  | zero => rfl
  | succ N ih =>
    rw [calls_succ, calls_succ, List.map_cons]
    have h : S.next (some ⟨c, s⟩) = ((asIter (burnInNext (S.env c) c.burnIn n) s).1.map fun p => (attach shape p.1, p.2),
      some ⟨c, (asIter (burnInNext (S.env c) c.burnIn n) s).2⟩) := rfl
    rw [h]
    simp only
    rw [ih]

/-- The outcomes of the calls `train` makes. -/
theorem calls_world (S : Setup R D shape) (cfg : Cfg) (c : Conf) (N : Nat) (s : Sampler (S.env c)) (o : Nat → Out Arr) (cost : Nat → Fl)
    (h : (calls (asIter (burnInNext (S.env c) c.burnIn n)) N s).1 = (List.range N).map fun k => .ok (o k, cost k)) :
    (calls ((S.world cfg).next ()) N (some ⟨c, s⟩)).1 = (List.range N).map fun k => .ok (attach shape (o k), cost k) := by
  show (calls S.next N (some ⟨c, s⟩)).1 = _
  rw [calls_next, h, List.map_map]
  rfl

theorem world_of (S : Setup R D shape) (cfg : Cfg) : WorldOf (S.world cfg) shape S.base.net where
  getNet _ _ := rfl
  costGraph _ _ := rfl
  trainable _ := rfl
  logError _ _ := rfl
  varShape v h := dif_pos h

/-- The configuration of the sampler of a `train` call. -/
noncomputable def confOf (rows : List (Fin D → Fl)) (a : ℝ) (B : Nat) : Conf := ⟨0, rows.length, .fin rows.length, .fin a, B⟩

theorem buildSampler_eq (S : Setup R D shape) (cfg : Cfg) (X : List (Fin D → Fl)) (y : List Fl) (ps : List Nat) (a : ℝ)
    (ha : FrictionIs S a)
    (hkw : ∀ p ∈ BNNSampler.samplerKwargs S.base.kwargs, p.1 ∈ (Sampling.callerParams .sgld).map Sampling.Param.name) (w : S.Session) :
    (S.world cfg).buildSampler ⟨X, y, 0, ps⟩ w
      = (.ok (), some ⟨confOf X a cfg.burnIn, startOf S X y (confOf X a cfg.burnIn)⟩) := by
  have h : S.build cfg ⟨X, y, 0, ps⟩ = .ok ⟨confOf X a cfg.burnIn, startOf S X y (confOf X a cfg.burnIn)⟩ :=
    build_eq S cfg ⟨X, y, 0, ps⟩ a ha hkw
  unfold Setup.world
  simp only
  rw [h]

/-- The run of the sampler. -/
theorem sampler_run (S : Setup R D shape) (Rg : Regular S.base) (hb : 0 < S.base.batchSize) (hs : SeedOk S.base.seed) (a : ℝ)
    (θ₁ θ₀ : Params shape) (hθ₁ : S.base.first = finP θ₁) (hθ : S.base.start = finP θ₀) (z : Nat → Params shape)
    (hz : ∀ k, S.base.normal k = finP (z k)) (X : List (Fin D → ℝ)) (y : List ℝ) (hX : X ≠ []) (hl : y.length = X.length) (B N : Nat) :
    ∃ (x : Nat → Params shape) (start : Nat → Nat) (cost : Nat → Fl),
      let θs : Nat → Params shape := fun k i p =>
        (sgldChain a X.length B (fun _ => 0.01) (fun j => x j i p) (fun j => z j i p) (startPoint S.base θ₁ θ₀ i p) k).pos
      (calls (asIter (burnInNext (S.env (confOf (lift X) a B)) B n)) N (startOf S (lift X) (y.map .fin) (confOf (lift X) a B))).1
        = (List.range N).map (fun k : Nat =>
            let arrays := List.ofFn fun i => flat fun p => .fin (θs (k + 1) i p)
            .ok ((if (k : Int) < B then .many arrays else unravel arrays), cost k))
      ∧ ∀ k < N, start k + min S.base.batchSize X.length ≤ X.length ∧ ∀ i, ∃ isNew : Fin n → Bool, isNew i = false ∧ ∀ p,
        HasDerivAt (fun t => netCost Rg.f S.base.batchSize X.length ((X.drop (start k)).take (min S.base.batchSize X.length))
            ((y.drop (start k)).take (min S.base.batchSize X.length)) (setElem (mix isNew (θs (k + 1)) (before θ₀ θs k)) i p t))
          (x k i p) (mix isNew (θs (k + 1)) (before θ₀ θs k) i p) := by
  have hN : 0 < X.length := List.length_pos_iff.2 hX
  obtain ⟨Sc, Pb, start, hb0, hs0, he, hst⟩ := script_run S.base Rg hb hs 0.01 X y hX hl N
  have hlen : (lift X).length = X.length := by simp [lift]
  set c : Conf := ⟨0, X.length, .fin X.length, .fin a, B⟩ with hc
  have hcc : confOf (lift X) a B = c := by unfold confOf; rw [hlen]
  rw [hcc]
  obtain ⟨x, cost, hcalls, hx⟩ := C99_sgld_restart_partial Sc (S.graphWorld c) (userOk D 0) Pb a X.length rfl rfl
    (by exact_mod_cast hN) z
    (fun k i p => by show S.base.normal k i p = _; rw [hz k]; rfl) B (startPoint S.base θ₁ θ₀) θ₀ (.fin 0.01)
  rw [he] at hcalls hx
  refine ⟨x, start, cost, ?_⟩
  intro θs
  refine ⟨?_, fun k hk => ⟨(hst k).1, fun i => ?_⟩⟩
  · have hst0 : startOf S (lift X) (y.map .fin) c
        = init (E := S.env c) (Sc.batch 0) (Sc.sched 0)
          ⟨SGLD.State.start (fun i p => .fin (startPoint S.base θ₁ θ₀ i p)) fun i p => .fin (θ₀ i p), .fin 0.01, 0⟩ := by
      rw [hb0, hs0]
      unfold startOf
      rw [work_eq S.base θ₁ θ₀ hθ₁ hθ, hθ]
      rfl
    rw [hst0]
    exact hcalls
  · obtain ⟨isNew, hi, hxi⟩ := (hx k hk).1 i
    refine ⟨isNew, hi, fun p => ?_⟩
    rw [show x k i p = Pb.γ k (mix isNew (θs (k + 1)) (before θ₀ θs k)) i p from congrFun hxi p]
    exact (hst k).2 _ i p

/-- **C121** A network with at least two variables, trained with SGLD on real data and used for prediction: the stored networks are
the positions of one SGLD chain that uses the given `A` and burn-in length, the number of datapoints as scale, and as gradient of step `k` the
gradient of the network's cost on a window of the normalized data.  The stepsize is 0.01, whatever schedule the network was given (C87).  Start
values and predictions are as in C95. -/
theorem C121_train_and_predict (S : Setup R D shape) (Rg : Regular S.base) (cfg : Cfg) (hn : n ≠ 1) (hnets : 0 < cfg.nNets)
    (hb : 0 < S.base.batchSize) (hs : SeedOk S.base.seed) (a : ℝ) (ha : FrictionIs S a)
    (hkw : ∀ p ∈ BNNSampler.samplerKwargs S.base.kwargs, p.1 ∈ (Sampling.callerParams .sgld).map Sampling.Param.name)
    (θ₁ θ₀ : Params shape) (hθ₁ : S.base.first = finP θ₁) (hθ : S.base.start = finP θ₀) (z : Nat → Params shape)
    (hz : ∀ k, S.base.normal k = finP (z k))
    (X : List (Fin D → ℝ)) (y : List ℝ) (hX : X ≠ []) (hl : y.length = X.length)
    (hnx : cfg.normalizeInput = true → ∀ j, NonConstant X j)
    (hny : cfg.normalizeOutput = true → ∃ v ∈ y, ∃ v' ∈ y, v ≠ v') :
    ∃ (x : Nat → Params shape) (start : Nat → Nat),
      let b := min S.base.batchSize X.length
      let θs : Nat → Params shape := fun k i p =>
        (sgldChain a X.length cfg.burnIn (fun _ => 0.01) (fun j => x j i p) (fun j => z j i p) (startPoint S.base θ₁ θ₀ i p) k).pos
      let r := train cfg (S.world cfg) (.matrix (lift X)) (y.map .fin) {} none
      (∀ k < cfg.nIters, start k + b ≤ X.length ∧ ∀ i, ∃ isNew : Fin n → Bool, isNew i = false ∧ ∀ p,
        HasDerivAt (fun t => netCost Rg.f S.base.batchSize X.length (((X.map (stdRow cfg X)).drop (start k)).take b)
            (((y.map (stdLabel cfg y)).drop (start k)).take b) (setElem (mix isNew (θs (k + 1)) (before θ₀ θs k)) i p t))
          (x k i p) (mix isNew (θs (k + 1)) (before θ₀ θs k) i p))
      ∧ r.1 = .ok ()
      ∧ r.2.1.samples = (storedIdx cfg).map (fun k => .many (List.ofFn fun i => ⟨shape i, List.ofFn fun p => .fin (θs (k + 1) i p)⟩))
      ∧ ∀ (w : S.Session) (M : Nat) (T : Fin M → Fin D → ℝ),
        let out : Nat → Fin M → ℝ × ℝ := fun k i => Rg.f (θs (k + 1)) (stdRow cfg X (T i))
        predict cfg (S.world cfg) r.2.1 w (fun i j => .fin (T i j)) true
          = .ok (.individual ((storedIdx cfg).map fun k i => .fin (unstdLabel cfg y (out k i).1))
              ((storedIdx cfg).map fun k i => .fin (unstdVar cfg y (Real.exp (out k i).2))))
        ∧ (storedIdx cfg ≠ [] → predict cfg (S.world cfg) r.2.1 w (fun i j => .fin (T i j)) false
          = .ok (.summary (fun i => .fin (avg ((storedIdx cfg).map fun k => unstdLabel cfg y (out k i).1)))
              (fun i => .fin (var ((storedIdx cfg).map fun k => unstdLabel cfg y (out k i).1))))) := by
  have hy : y ≠ [] := by intro h; rw [h] at hl; exact hX (List.length_eq_zero_iff.1 hl.symm)
  obtain ⟨hX1, hX2⟩ := BNNSystem.normalizedX_real cfg ({} : Bnn D) X hX hnx
  obtain ⟨hY1, hY2⟩ := BNNSystem.normalizedY_real cfg ({} : Bnn D) y hy hny
  have hXl : (X.map (stdRow cfg X)).length = X.length := by simp
  obtain ⟨x, start, cost, hcalls, hx⟩ := sampler_run S Rg hb hs a θ₁ θ₀ hθ₁ hθ z hz (X.map (stdRow cfg X)) (y.map (stdLabel cfg y))
    (by simpa using hX) (by simp [hl]) cfg.burnIn cfg.nIters
  rw [hXl] at hcalls hx
  refine ⟨x, start, ?_⟩
  intro b θs r
  have hr : r = train cfg (S.world cfg) (.matrix (lift X)) (y.map .fin) {} none := rfl
  clear_value r
  obtain ⟨h1, h2, h3, h4, h5, h6, h7, h8⟩ := BNNSystem.train_run (S.world cfg) S.base.net (world_of S cfg) cfg hn hnets (lift X) (y.map .fin) _ _
    hX1 hY1 none _ (buildSampler_eq S cfg _ _ _ a ha hkw none) θs cost (calls_world S cfg _ _ _ _ cost hcalls) r hr
  refine ⟨hx, h1, h3, fun w M T => ?_⟩
  exact BNNSystem.predict_run (S.world cfg) S.base.net (world_of S cfg) Rg.f Rg.net_eq cfg X y hnx θs _ h2 h3 h4 h5 h6 (fun h => h7.trans (hX2 h))
    (fun h => h8.trans (hY2 h)) w M T

/-- A network with two scalar variables, mean `tanh (v₀ x)` and log variance `v₁`, trained on three points with normalization; `A = 0.5` is passed to
the constructor, together with a stepsize schedule that has no effect. -/
noncomputable example (R : RNG) (glob : R.State) (order' : Nat → SGHMC.Schedule (Fin 2)) (order : Nat → SGLD.Schedule (Fin 2)) :
    ∃ (S : Setup R 1 (fun _ : Fin 2 => [])) (_ : Regular S.base) (cfg : Cfg), (2 : Nat) ≠ 1 ∧ 0 < cfg.nNets ∧ 0 < S.base.batchSize ∧
      SeedOk S.base.seed ∧ S.base.schedule = ⟨[.fin 0.2]⟩ ∧ FrictionIs S 0.5 ∧
      (∀ p ∈ BNNSampler.samplerKwargs S.base.kwargs, p.1 ∈ (Sampling.callerParams .sgld).map Sampling.Param.name) ∧
      S.base.first = finP (fun _ _ => 2) ∧ S.base.start = finP (fun _ _ => 1) ∧ (S.base.paramFirst 0 = true ∧ S.base.paramFirst 1 = false) ∧
      (∀ k, S.base.normal k = finP (fun _ _ => 0)) ∧ storedIdx cfg = [4, 6, 8] ∧ S.order = order ∧
      cfg.normalizeInput = true ∧ cfg.normalizeOutput = true ∧
      (∀ j, NonConstant [fun _ => (0 : ℝ), fun _ => 1, fun _ => 3] (j : Fin 1)) ∧ ∃ v ∈ [(1 : ℝ), 2, 2], ∃ v' ∈ [(1 : ℝ), 2, 2], v ≠ v' := by
  refine ⟨⟨BNNSystem.realSetup R (fun θ x => (Real.tanh (θ 0 ⟨0, by decide⟩ * x 0), θ 1 ⟨0, by decide⟩)) 2 (.int 1) 0.2 [("A", .num (.fin 0.5))]
    ![true, false] (fun _ _ => 2) (fun _ _ => 1) (fun _ _ _ => 0) order' glob, order⟩,
    BNNSystem.realSetup_regular R (fun θ x => (Real.tanh (θ 0 ⟨0, by decide⟩ * x 0), θ 1 ⟨0, by decide⟩)) 2 (by norm_num) (.int 1) 0.2
      [("A", .num (.fin 0.5))] ![true, false] (fun _ _ => 2) (fun _ _ => 1) (fun _ _ _ => 0) order' glob ?_, ⟨3, 10, 3, 2, true, true⟩, by decide, by decide,
    Nat.zero_lt_two, .inr (.inr ⟨1, rfl, by norm_num, by norm_num⟩), rfl, .inl rfl, ?_, rfl, rfl,
    ⟨rfl, rfl⟩, fun _ => rfl, by decide, rfl, rfl, rfl, ?_, 1, by simp, 2, by simp, by norm_num⟩
  · intro θ i p x
    refine ⟨?_, BNNSystem.setElem_differentiable θ i p 1 _⟩
    simp only [Real.tanh_eq_sinh_div_cosh]
    have h := (BNNSystem.setElem_differentiable θ i p 0 ⟨0, by decide⟩).mul_const (x 0)
    exact (Real.differentiable_sinh.comp h).div (Real.differentiable_cosh.comp h) fun t => (Real.cosh_pos _).ne'
  · intro p hp
    simp [BNNSystem.realSetup, BNNSampler.samplerKwargs, BNNSampler.ctorNames] at hp
    subst hp
    show "A" ∈ (Sampling.callerParams .sgld).map Sampling.Param.name
    decide
  · intro j
    exact ⟨fun _ => 0, by simp, fun _ => 1, by simp, by norm_num⟩

end PySGMCMC.BNNSystemSGLD
