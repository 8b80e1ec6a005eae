import Verif.Lemmas.SGHMC
import Verif.Lemmas.BurnInStats

/-!
# C29–C33, C40 for SGHMC
-/

namespace PySGMCMC.SGHMC
open BurnInStats

variable {P : Type} [DecidableEq P] {ι : P → Type}

/-- The statistics of element `k` of parameter `i`. -/
def stats (s : State ι) (i : P) (k : ι i) : Stats :=
  ⟨(s.par i).tau k, (s.par i).r k, (s.par i).g k, (s.par i).vhat k, (s.par i).minv k⟩

theorem stats_run (inp : Inputs ι) (σ : Schedule P) (s : State ι) (i : P) (k : ι i) :
    stats (run inp σ s) i k = (stats s i k).next (((run inp σ s).par i).tGrad k) := by
  have h := run_par inp σ s i
  simp only [stats, Stats.next]
  rw [h]
  rfl

theorem stats_runs (hist : List (Inputs ι × Schedule P)) (s : State ι) (i : P) (k : ι i) :
    stats (runs hist s) i k = (gradients i k hist s).foldl Stats.next (stats s i k) := by
  induction hist generalizing s with
  | nil => rfl
  | cons x xs ih =>
    show stats (runs xs (run x.1 x.2 s)) i k = _
    rw [ih, stats_run]; rfl

theorem gradients_length (hist : List (Inputs ι × Schedule P)) (s : State ι) (i : P) (k : ι i) :
    (gradients i k hist s).length = hist.length := by
  induction hist generalizing s with
  | nil => rfl
  | cons x xs ih => simp [gradients, ih]

/-- C29 for SGHMC: from the initial state, after any chain of runs in which the evaluated gradients of an element were
finite, its statistics are finite, the squared-gradient average is positive and at least the square of the gradient
average, the window is at least 1, the rate is in (0, 1/2] and the inverse mass is positive. -/
theorem C29_sghmc_statistics (θ : ∀ i, ι i → Fl) (hist : List (Inputs ι × Schedule P)) (i : P) (k : ι i)
    (hfin : ∀ x ∈ gradients i k hist (State.init θ), Fl.IsFin x) :
    ∃ tau r g v m : ℝ,
      ((runs hist (State.init θ)).par i).tau k = .fin tau ∧ ((runs hist (State.init θ)).par i).r k = .fin r
      ∧ ((runs hist (State.init θ)).par i).g k = .fin g ∧ ((runs hist (State.init θ)).par i).vhat k = .fin v
      ∧ ((runs hist (State.init θ)).par i).minv k = .fin m
      ∧ 1 ≤ tau ∧ 0 < r ∧ r ≤ 1 / 2 ∧ g ^ 2 ≤ v ∧ 0 < v ∧ 0 < m := by
  obtain ⟨tau, r, g, v, m, he, hok, h1, h2, h3⟩ := stats_ok _ hfin
  have hs := stats_runs hist (State.init θ) i k
  rw [show stats (State.init θ) i k = Stats.init from rfl, he] at hs
  simp only [stats, Stats.mk.injEq] at hs
  exact ⟨tau, r, g, v, m, hs.1, hs.2.1, hs.2.2.1, hs.2.2.2.1, hs.2.2.2.2, hok.tau, h1, h2, hok.sq, hok.pos, h3⟩

/-- C30 for SGHMC: gradients bounded by `G ≥ 1` bound window and inverse mass. -/
theorem C30_sghmc_bounds (θ : ∀ i, ι i → Fl) (hist : List (Inputs ι × Schedule P)) (i : P) (k : ι i) (G : ℝ)
    (hG : 1 ≤ G)
    (hx : ∀ x ∈ gradients i k hist (State.init θ), ∃ r : ℝ, x = .fin r ∧ |r| ≤ G) :
    ∃ tau v m : ℝ,
      ((runs hist (State.init θ)).par i).tau k = .fin tau ∧ ((runs hist (State.init θ)).par i).vhat k = .fin v
      ∧ ((runs hist (State.init θ)).par i).minv k = .fin m
      ∧ tau ≤ hist.length + 1 ∧ 1 / 2 ^ hist.length ≤ v ∧ v ≤ G ^ 2
      ∧ 1 / (G + 3e-16) ≤ m ∧ m ≤ 2 ^ hist.length := by
  obtain ⟨tau, r, g, v, m, he, hok, h1, h2, h3, h4, h5⟩ := stats_bounds G hG _ hx
  have hs := stats_runs hist (State.init θ) i k
  rw [show stats (State.init θ) i k = Stats.init from rfl, he] at hs
  simp only [stats, Stats.mk.injEq] at hs
  rw [gradients_length] at h1 h3 h5
  refine ⟨tau, v, m, hs.1, hs.2.2.2.1, hs.2.2.2.2, h1, h3, h2, ?_, ?_⟩
  · have : (3e-16 : ℝ) = 3 * c16 := by unfold c16; norm_num
    rw [this]; exact h4
  · have h6 : (2 : ℝ) ^ (hist.length - 1) ≤ 2 ^ hist.length := pow_le_pow_right₀ (by norm_num) (by omega)
    have h7 : (1 : ℝ) ≤ 2 ^ hist.length := one_le_pow₀ (by norm_num)
    nlinarith

/-! ## C31 -/

/-- C31 (order independence): whatever order the runtime chooses, every parameter makes the simultaneous update, with
a gradient that was evaluated at its own old value (and at the old or new values of the other parameters). -/
theorem C31_any_order (inp : Inputs ι) (σ : Schedule P) (s : State ι) (i : P) :
    ∃ isNew : P → Bool, isNew i = false ∧
      (run inp σ s).par i = next inp i
        (inp.grad (fun j => if isNew j then (run inp σ s).params j else s.params j) i) (s.par i) := by
  obtain ⟨isNew, h0, h⟩ := run_grad inp σ s i
  refine ⟨isNew, h0, ?_⟩
  rw [run_par, h]

/-- C31 for a single target parameter: the run does not depend on the order at all (the cost aside, see C73). -/
theorem C31_single_parameter [Subsingleton P] (inp : Inputs ι) (σ : Schedule P) (s : State ι) (i : P) :
    (run inp σ s).par i = next inp i (inp.grad s.params i) (s.par i) := by
  obtain ⟨isNew, h0, h⟩ := C31_any_order inp σ s i
  rw [h]
  congr 2
  funext j
  rw [Subsingleton.elim j i, h0]; rfl

/-- The mass used in a step: the fed one, or the one computed from the old squared-gradient average. -/
def MassUsed (inp : Inputs ι) (i : P) (k : ι i) (v m : ℝ) : Prop :=
  (inp.fed i = none ∧ m = 1 / (Real.sqrt v + 3e-16)) ∨ ∃ f, inp.fed i = some f ∧ f k = .fin m

theorem minvSeen_eq (inp : Inputs ι) (i : P) (k : ι i) (p : PState (ι i)) (v m : ℝ) (hv : 0 < v)
    (hp : p.vhat k = .fin v) (hm : MassUsed inp i k v m) :
    minvSeen (inp.fed i) (fun k => rhsMinv (p.vhat k)) k = .fin m := by
  rcases hm with ⟨h1, rfl⟩ | ⟨f, h1, h2⟩
  · rw [h1]
    show rhsMinv (p.vhat k) = _
    rw [hp, rhsMinv_fin hv]
    congr 3
    unfold c16; norm_num
  · rw [h1]; exact h2

/-- C32: for finite stepsize, decay and mass and positive scale the noise standard deviation is positive and finite
and its square is `2 e² α m - e⁴` if that exceeds `1e-16`, and `1e-16` otherwise (`e = ε / √scale`). -/
theorem C32_noise (eps alpha scale m : ℝ) (hs : 0 < scale) :
    ∃ sd : ℝ, sigma (epsilonScaled (.fin eps) (.fin scale)) (.fin alpha) (.fin m) = .fin sd ∧ 0 < sd
      ∧ (let e := eps / Real.sqrt scale
         (1e-16 < 2 * e ^ 2 * alpha * m - e ^ 4 → sd ^ 2 = 2 * e ^ 2 * alpha * m - e ^ 4)
         ∧ (2 * e ^ 2 * alpha * m - e ^ 4 ≤ 1e-16 → sd ^ 2 = 1e-16)) := by
  set e := eps / Real.sqrt scale with he
  have hns : noiseScale (epsilonScaled (.fin eps) (.fin scale)) (.fin alpha) (.fin m)
      = .fin (2 * e ^ 2 * alpha * m - e ^ 4) := by
    unfold noiseScale epsilonScaled noiseConst
    rw [Fl.sqrt_fin hs.le, Fl.div_fin (Real.sqrt_pos.2 hs).ne']
    simp only [Fl.ofNat_def, Fl.npow_fin, Fl.mul_fin, Fl.sub_fin, ← he]
    congr 1
    push_cast
    ring
  have h16 : (0 : ℝ) < 1e-16 := by norm_num
  have hmax : 0 < max (2 * e ^ 2 * alpha * m - e ^ 4) 1e-16 := lt_max_of_lt_right h16
  refine ⟨Real.sqrt (max (2 * e ^ 2 * alpha * m - e ^ 4) 1e-16), ?_, Real.sqrt_pos.2 hmax, ?_, ?_⟩
  · unfold sigma
    rw [hns, Fl.max_fin, Fl.sqrt_fin hmax.le]
  · intro h; rw [Real.sq_sqrt hmax.le, max_eq_left h.le]
  · intro h; rw [Real.sq_sqrt hmax.le, max_eq_right h]

/-- C31 (Equation 10): the new value of every variable in one run on finite state, element by element.
`x` is the evaluated gradient, `z` the normal draw, `m` the mass used and `sd` the standard deviation of C32. -/
theorem C31_equation10 (inp : Inputs ι) (σ : Schedule P) (s : State ι) (i : P) (k : ι i)
    (tau g v mom th eps alpha scale x z m : ℝ)
    (htau : (s.par i).tau k = .fin tau) (hg : (s.par i).g k = .fin g) (hv : (s.par i).vhat k = .fin v)
    (hmom : (s.par i).mom k = .fin mom) (hth : (s.par i).vec k = .fin th)
    (heps : inp.epsilon = .fin eps) (halpha : inp.mdecay = .fin alpha) (hscale : inp.scaleGrad = .fin scale)
    (hx : ((run inp σ s).par i).tGrad k = .fin x) (hz : inp.normal i k = .fin z) (hm : MassUsed inp i k v m)
    (h1 : 1 ≤ tau) (h2 : 0 < v) (h3 : 0 < scale) :
    ∃ sd : ℝ, sigma (epsilonScaled (.fin eps) (.fin scale)) (.fin alpha) (.fin m) = .fin sd ∧
    let p' := (run inp σ s).par i
    let r := 1 / (tau + 1)
    let mom' := mom - eps ^ 2 * m * x - alpha * mom + sd * z
    p'.r k = .fin r
    ∧ p'.tau k = .fin (tau - g ^ 2 * tau / (v + 3e-16) + 1)
    ∧ p'.minv k = .fin (1 / (Real.sqrt v + 3e-16))
    ∧ p'.g k = .fin ((1 - r) * g + r * x)
    ∧ p'.vhat k = .fin ((1 - r) * v + r * x ^ 2)
    ∧ p'.mom k = .fin mom'
    ∧ p'.vec k = .fin (th + mom')
    ∧ p'.param k = .fin (th + mom') := by
  obtain ⟨sd, hsd, _⟩ := C32_noise eps alpha scale m h3
  refine ⟨sd, hsd, ?_⟩
  have hseen := minvSeen_eq inp i k (s.par i) v m h2 hv hm
  have hc : (3e-16 : ℝ) = 3 * c16 := by unfold c16; norm_num
  have hp := run_par inp σ s i
  rw [hc]
  have hdm : rhsMom inp.epsilon inp.mdecay (minvSeen (inp.fed i) (fun k => rhsMinv ((s.par i).vhat k)) k)
      (((run inp σ s).par i).tGrad k) ((s.par i).mom k)
      (sigma (epsilonScaled inp.epsilon inp.scaleGrad) inp.mdecay
        (minvSeen (inp.fed i) (fun k => rhsMinv ((s.par i).vhat k)) k) * inp.normal i k)
      = .fin (-(eps ^ 2) * m * x - alpha * mom + sd * z) := by
    rw [hseen, heps, hscale, halpha, hsd, hx, hz, hmom]
    unfold rhsMom
    simp only [Fl.npow_fin, Fl.neg_fin, Fl.mul_fin, Fl.sub_fin, Fl.add_fin]
  have hmom' : ((run inp σ s).par i).mom k = .fin (mom - eps ^ 2 * m * x - alpha * mom + sd * z) := by
    have : ((run inp σ s).par i).mom k = (s.par i).mom k + rhsMom inp.epsilon inp.mdecay
      (minvSeen (inp.fed i) (fun k => rhsMinv ((s.par i).vhat k)) k)
      (((run inp σ s).par i).tGrad k) ((s.par i).mom k)
      (sigma (epsilonScaled inp.epsilon inp.scaleGrad) inp.mdecay
        (minvSeen (inp.fed i) (fun k => rhsMinv ((s.par i).vhat k)) k) * inp.normal i k) :=
      congrFun (congrArg PState.mom hp) k
    rw [this, hdm, hmom, Fl.add_fin]
    congr 1
    ring
  have hvec' : ((run inp σ s).par i).vec k = (s.par i).vec k + ((run inp σ s).par i).mom k := by
    have e := congrFun (congrArg PState.vec hp) k
    have e2 := congrFun (congrArg PState.mom hp) k
    rw [e2]; exact e
  have hpar' : ((run inp σ s).par i).param k = (s.par i).vec k + ((run inp σ s).par i).mom k := by
    have e := congrFun (congrArg PState.param hp) k
    have e2 := congrFun (congrArg PState.mom hp) k
    rw [e2]; exact e
  refine ⟨?_, ?_, ?_, ?_, ?_, hmom', ?_, ?_⟩
  · have e : ((run inp σ s).par i).r k = rhsR ((s.par i).tau k) := congrFun (congrArg PState.r hp) k
    rw [e, htau, rhsR_fin h1]
  · have e : ((run inp σ s).par i).tau k = (s.par i).tau k + rhsTau ((s.par i).g k) ((s.par i).tau k) ((s.par i).vhat k) :=
      congrFun (congrArg PState.tau hp) k
    rw [e, htau, hg, hv, rhsTau_fin _ _ h2, Fl.add_fin]
    congr 1
    ring
  · have e : ((run inp σ s).par i).minv k = rhsMinv ((s.par i).vhat k) := congrFun (congrArg PState.minv hp) k
    rw [e, hv, rhsMinv_fin h2]
  · have e : ((run inp σ s).par i).g k = (s.par i).g k
        + rhsG (rhsR ((s.par i).tau k)) ((s.par i).g k) (((run inp σ s).par i).tGrad k) :=
      congrFun (congrArg PState.g hp) k
    rw [e, hg, htau, rhsR_fin h1, hx, rhsG_fin, Fl.add_fin]
    congr 1
    ring
  · have e : ((run inp σ s).par i).vhat k = (s.par i).vhat k
        + rhsVhat (rhsR ((s.par i).tau k)) ((s.par i).vhat k) (((run inp σ s).par i).tGrad k) :=
      congrFun (congrArg PState.vhat hp) k
    rw [e, hv, htau, rhsR_fin h1, hx, rhsVhat_fin, Fl.add_fin]
    congr 1
    ring
  · rw [hvec', hth, hmom', Fl.add_fin]
  · rw [hpar', hth, hmom', Fl.add_fin]

/-! ## C33 -/

/-- C33 for SGHMC: from any state whatsoever (any initializer schedule, any re-initialization), after a chain of at
least one run every target parameter equals the sampler's vectorized copy. -/
theorem C33_sghmc_coherent (s : State ι) (hist : List (Inputs ι × Schedule P)) (h : hist ≠ []) (i : P) :
    ((runs hist s).par i).param = ((runs hist s).par i).vec := by
  obtain ⟨pre, x, rfl⟩ := List.eq_nil_or_concat hist |>.resolve_left h
  simp only [runs, List.foldl_concat, List.concat_eq_append, List.foldl_append, List.foldl_cons, List.foldl_nil]
  rw [run_par]
  rfl

/-! ## C40 -/

/-- C40 (what holds): if the gradient of each parameter depends on that parameter only (in particular if there is only
one), a run is a deterministic function of state and inputs. -/
theorem C40_sghmc_partial (inp : Inputs ι)
    (hsep : ∀ i θ θ', θ i = θ' i → inp.grad θ i = inp.grad θ' i) (σ σ' : Schedule P) (s : State ι) :
    (run inp σ s).par = (run inp σ' s).par := by
  funext i
  have key : ∀ σ : Schedule P, (run inp σ s).par i = next inp i (inp.grad s.params i) (s.par i) := by
    intro σ
    obtain ⟨isNew, h0, h⟩ := C31_any_order inp σ s i
    rw [h]
    congr 1
    apply hsep
    simp [h0]
  rw [key, key]

/-- Two scalar parameters with cost `x * y`. -/
noncomputable def coupled : Inputs (fun _ : Bool => Unit) where
  epsilon := .fin 1
  scaleGrad := .fin 1
  mdecay := .fin 0
  normal _ _ := .fin 0
  grad θ i _ := θ (!i) ()
  cost θ := θ false () * θ true ()
  fed _ := none

noncomputable def coupledState : State (fun _ : Bool => Unit) := State.init fun _ _ => .fin 1

/-- C40 fails for parameters coupled through the cost function: two admissible execution orders of the same step give
different results. -/
theorem C40_violated :
    ((run coupled seqBool coupledState).par true).param ()
      ≠ ((run coupled gradsFirstBool coupledState).par true).param () := by
  have hm : ∀ i, MassUsed coupled i () 1 (1 / (Real.sqrt 1 + 3e-16)) := fun i => Or.inl ⟨rfl, rfl⟩
  have hstat : ∀ i, stats coupledState i () = ⟨.fin 1, .fin (1 / 2), .fin 1, .fin 1, .fin 1⟩ := by
    intro i; rw [← Stats.init_eq]; rfl
  have hi : ∀ i, (coupledState.par i).tau () = .fin 1 ∧ (coupledState.par i).g () = .fin 1
      ∧ (coupledState.par i).vhat () = .fin 1 ∧ (coupledState.par i).mom () = .fin 0
      ∧ (coupledState.par i).vec () = .fin 1 := by
    intro i
    have := hstat i
    simp only [stats, Stats.mk.injEq] at this
    refine ⟨this.1, this.2.2.1, this.2.2.2.1, ?_, rfl⟩
    show (0 : Fl) = _
    rw [Fl.ofNat_zero]
  have key : ∀ (σ : Schedule Bool) (i : Bool) (x : ℝ), ((run coupled σ coupledState).par i).tGrad () = .fin x →
      ((run coupled σ coupledState).par i).param () = .fin (1 - (1 / (1 + 3e-16)) * x) := by
    intro σ i x hx
    obtain ⟨h1, h2, h3, h4, h5⟩ := hi i
    obtain ⟨sd, _, h⟩ := C31_equation10 coupled σ coupledState i () 1 1 1 0 1 1 0 1 x 0 (1 / (Real.sqrt 1 + 3e-16))
      h1 h2 h3 h4 h5 rfl rfl rfl hx rfl (hm i) le_rfl one_pos one_pos
    rw [h.2.2.2.2.2.2.2, Real.sqrt_one]
    congr 1
    ring
  have hg1 : ∀ i, ((run coupled gradsFirstBool coupledState).par i).tGrad () = .fin 1 := by
    intro i
    cases i
    · rw [run_grad_at coupled gradsFirstBool coupledState false [.cost] _ rfl]
      simp [coupled, State.params, coupledState, State.init, PState.init]
    · rw [run_grad_at coupled gradsFirstBool coupledState true [.cost, .op false .xGrad] _ rfl]
      simp [coupled, State.params, coupledState, State.init, PState.init]
  have hg2 : ((run coupled seqBool coupledState).par false).tGrad () = .fin 1 := by
    rw [run_grad_at coupled seqBool coupledState false [.cost] _ rfl]
    simp [coupled, State.params, coupledState, State.init, PState.init]
  have hf := key seqBool false 1 hg2
  have hg3 : ((run coupled seqBool coupledState).par true).tGrad () = .fin (1 - (1 / (1 + 3e-16)) * 1) := by
    rw [run_grad_at coupled seqBool coupledState true (.cost :: Op.all.map (Node.op false)) _ rfl]
    have hmem : Node.op false Op.setParam ∈ (Node.cost :: Op.all.map (Node.op false) : List (Node Bool)) := by decide
    rw [show coupled.grad = fun θ i _ => θ (!i) () from rfl]
    simp only [Bool.not_true, hmem, if_true]
    exact hf
  rw [key _ _ _ hg3, key _ _ _ (hg1 true)]
  simp only [ne_eq, Fl.fin_inj]
  norm_num

/-! ## C73 -/

/-- C73 (what holds): the cost returned with a step is the cost function of the step's batch, with every target
parameter at its value before or after the step. -/
theorem C73_cost_partial (inp : Inputs ι) (σ : Schedule P) (s : State ι) :
    ∃ isNew : P → Bool,
      (run inp σ s).cost = inp.cost (fun j => if isNew j then (run inp σ s).params j else s.params j) :=
  run_cost inp σ s

/-- One scalar parameter, cost `x`. -/
noncomputable def linear : Inputs (fun _ : Unit => Unit) where
  epsilon := .fin 1
  scaleGrad := .fin 1
  mdecay := .fin 0
  normal _ _ := .fin 0
  grad _ _ _ := .fin 1
  cost θ := θ () ()
  fed _ := some fun _ => .fin 1

/-- C73 fails: whether the cost belongs to the parameters before or after the step depends on the execution order. -/
theorem C73_violated :
    (run linear seqUnit (State.init fun _ _ => .fin 1)).cost = .fin 1
    ∧ (run linear costLastUnit (State.init fun _ _ => .fin 1)).cost = .fin 0 := by
  constructor
  · rw [run_cost_at linear seqUnit _ [] _ rfl]
    simp [linear, State.params, State.init, PState.init]
  · rw [run_cost_at linear costLastUnit _ (Op.all.map (Node.op ())) [] rfl]
    have hmem : Node.op () Op.setParam ∈ (Op.all.map (Node.op ()) : List (Node Unit)) := by decide
    rw [show linear.cost = fun θ => θ () () from rfl]
    simp only [hmem, if_true]
    have hst : stats (State.init (ι := fun _ : Unit => Unit) fun _ _ => .fin 1) () ()
        = ⟨.fin 1, .fin (1 / 2), .fin 1, .fin 1, .fin 1⟩ := by rw [← Stats.init_eq]; rfl
    simp only [stats, Stats.mk.injEq] at hst
    have hx : ((run linear costLastUnit (State.init fun _ _ => .fin 1)).par ()).tGrad () = .fin 1 := by
      obtain ⟨_, _, h⟩ := run_grad linear costLastUnit (State.init fun _ _ => .fin 1) ()
      rw [h]; rfl
    obtain ⟨sd, _, h⟩ := C31_equation10 linear costLastUnit (State.init fun _ _ => .fin 1) () () 1 1 1 0 1 1 0 1 1 0 1
      hst.1 hst.2.2.1 hst.2.2.2.1 (by show (0 : Fl) = _; rw [Fl.ofNat_zero]) rfl rfl rfl rfl hx rfl
      (Or.inr ⟨_, rfl, rfl⟩) le_rfl one_pos one_pos
    have := h.2.2.2.2.2.2.2
    show ((run linear costLastUnit (State.init fun _ _ => .fin 1)).par ()).param () = _
    rw [this]
    norm_num

/-! ## Non-vacuity -/

/-- A three-step chain with finite gradients (C29, C30, C33). -/
example : ∀ x ∈ gradients () () [(linear, seqUnit), (linear, costLastUnit), (linear, seqUnit)]
    (State.init fun _ _ => .fin 1), ∃ r : ℝ, x = .fin r ∧ |r| ≤ 1 := by
  have hx : ∀ (σ : Schedule Unit) s, ((run linear σ s).par ()).tGrad () = .fin 1 := by
    intro σ s
    obtain ⟨_, _, h⟩ := run_grad linear σ s ()
    rw [h]; rfl
  intro x h
  simp only [gradients, hx, List.mem_cons, List.not_mem_nil, or_false, or_self] at h
  exact ⟨1, h, by norm_num⟩

end PySGMCMC.SGHMC
