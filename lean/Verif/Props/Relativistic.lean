import Verif.Lemmas.Relativistic
import Mathlib.Analysis.Convex.Function
import Mathlib.Analysis.Real.Sqrt

/-!
# C35–C37, C39, C40, C73: relativistic SGHMC
-/

namespace PySGMCMC.Relativistic

variable {P : Type} [DecidableEq P]

/-! ## C37 -/

theorem buildLoop_ok (shapes : List (List Nat)) :
    buildLoop shapes = .ok () ↔ ∀ s ∈ shapes, s.prod = 1 := by
  induction shapes with
  | nil => simp [buildLoop]
  | cons s rest ih =>
    rw [buildLoop]
    by_cases h : s.prod = 1
    · simp [reshapeOk, incrementShape, h, ih, bind, Except.bind]
    · simp [reshapeOk, incrementShape, h, bind, Except.bind]

/-- C37, what holds: the constructor accepts exactly the parameter lists in which every parameter has one element
(whatever its rank), for a `float` mass and speed of light; other shapes give `ValueError`, other numbers
`AssertionError`. Missing: parameters with several elements, see `C37_violated`. -/
theorem C37_construct_partial (mass c : Num) (shapes : List (List Nat)) :
    (construct mass c shapes = .ok () ↔
      (∃ m, mass = .float m) ∧ (∃ v, c = .float v) ∧ ∀ s ∈ shapes, s.prod = 1)
    ∧ (construct mass c shapes = .error .assertion ↔ mass = .other ∨ c = .other) := by
  have hloop : ∀ shapes, buildLoop shapes ≠ .error .assertion := by
    intro shapes
    induction shapes with
    | nil => simp [buildLoop]
    | cons s rest ih =>
      rw [buildLoop]
      by_cases h : s.prod = 1
      · simpa [reshapeOk, incrementShape, h, bind, Except.bind] using ih
      · simp [reshapeOk, incrementShape, h, bind, Except.bind]
  cases mass <;> cases c <;>
    simp [construct, momentumAsserts, bind, Except.bind, buildLoop_ok, hloop]

/-- C37 fails for every parameter with a number of elements other than one, e.g. a vector of length 2. -/
theorem C37_violated (m c : ℝ) (shape : List Nat) (rest : List (List Nat)) (h : shape.prod ≠ 1) :
    construct (.float m) (.float c) (shape :: rest) = .error (.value "reshape") := by
  simp [construct, momentumAsserts, buildLoop, reshapeOk, incrementShape, h, bind, Except.bind]

/-! ## C40, C73 and C33: order of execution -/

/-- C40 (what is true in general): whatever order the runtime chooses, every parameter makes the simultaneous update,
with a gradient evaluated at its own old value and at old or new values of the other parameters. -/
theorem C40_relativistic_any_order (inp : Inputs P) (σ : Schedule P) (s : State P) (i : P) :
    ∃ isNew : P → Bool, isNew i = false ∧
      (run inp σ s).par i = next inp i
        (-(inp.grad (fun j => if isNew j then (run inp σ s).params j else s.params j) i)) (s.par i) := by
  obtain ⟨isNew, h0, h⟩ := run_grad inp σ s i
  exact ⟨isNew, h0, by rw [run_par, h]⟩

/-- C40 (what holds) for relativistic SGHMC. -/
theorem C40_relativistic_partial (inp : Inputs P)
    (hsep : ∀ i θ θ', θ i = θ' i → inp.grad θ i = inp.grad θ' i) (σ σ' : Schedule P) (s : State P) :
    (run inp σ s).par = (run inp σ' s).par := by
  funext i
  have key : ∀ σ : Schedule P, (run inp σ s).par i = next inp i (-(inp.grad s.params i)) (s.par i) := by
    intro σ
    obtain ⟨isNew, h0, h⟩ := C40_relativistic_any_order inp σ s i
    rw [h]
    congr 2
    apply hsep
    simp [h0]
  rw [key, key]

/-- C73 for relativistic SGHMC (what holds). -/
theorem C73_relativistic_cost_partial (inp : Inputs P) (σ : Schedule P) (s : State P) :
    ∃ isNew : P → Bool,
      (run inp σ s).cost = inp.cost (fun j => if isNew j then (run inp σ s).params j else s.params j) :=
  run_cost inp σ s

/-- C33 for relativistic SGHMC: after at least one run every target parameter equals the vectorized copy. -/
theorem C33_relativistic_coherent (s : State P) (hist : List (Inputs P × Schedule P)) (h : hist ≠ []) (i : P) :
    ((runs hist s).par i).param = ((runs hist s).par i).vec := by
  obtain ⟨pre, x, rfl⟩ := List.eq_nil_or_concat hist |>.resolve_left h
  simp only [runs, List.foldl_concat, List.concat_eq_append, List.foldl_append, List.foldl_cons, List.foldl_nil]
  rw [run_par]
  rfl

/-! ## Finite steps -/

/-- The velocity on finite values. -/
noncomputable def vel (eps m c p : ℝ) : ℝ := eps * p / (m * Real.sqrt (p * p / (m ^ 2 * c ^ 2) + 1))

theorem arg_pos {m c : ℝ} (hm : 0 < m) (hc : 0 < c) (p : ℝ) : 0 < p * p / (m ^ 2 * c ^ 2) + 1 := by
  have : 0 ≤ p * p / (m ^ 2 * c ^ 2) := div_nonneg (mul_self_nonneg p) (by positivity)
  linarith

theorem pGrad_fin {m c : ℝ} (hm : 0 < m) (hc : 0 < c) (eps p : ℝ) :
    pGrad (.fin eps) (.fin m) (.fin c) (.fin p) = .fin (vel eps m c p) := by
  have h := arg_pos hm hc p
  unfold pGrad
  rw [Fl.npow_fin, Fl.npow_fin, Fl.mul_fin, Fl.mul_fin, Fl.mul_fin, Fl.div_fin (by positivity), Fl.ofNat_one, Fl.add_fin,
    Fl.sqrt_fin h.le, Fl.mul_fin, Fl.div_fin (by have := Real.sqrt_pos.2 h; positivity)]
  rfl

/-- `|velocity| < |ε| c` unless `ε = 0`. -/
theorem vel_lt {m c : ℝ} (hm : 0 < m) (hc : 0 < c) (eps p : ℝ) (he : eps ≠ 0) : |vel eps m c p| < |eps| * c := by
  have h := arg_pos hm hc p
  have hs := Real.sqrt_pos.2 h
  have key : |p| < c * (m * Real.sqrt (p * p / (m ^ 2 * c ^ 2) + 1)) := by
    have hcm : 0 < c * (m * Real.sqrt (p * p / (m ^ 2 * c ^ 2) + 1)) := by positivity
    rw [← abs_of_pos hcm]
    apply sq_lt_sq.1
    rw [mul_pow, mul_pow, Real.sq_sqrt h.le]
    have : c ^ 2 * (m ^ 2 * (p * p / (m ^ 2 * c ^ 2) + 1)) = p ^ 2 + c ^ 2 * m ^ 2 := by
      field_simp
    rw [this]
    have : 0 < c ^ 2 * m ^ 2 := by positivity
    linarith
  unfold vel
  rw [abs_div, abs_mul, abs_of_pos (show 0 < m * Real.sqrt (p * p / (m ^ 2 * c ^ 2) + 1) by positivity),
    div_lt_iff₀ (by positivity), mul_assoc]
  exact mul_lt_mul_of_pos_left key (abs_pos.2 he)

/-- Real-valued settings of a run: `m, c > 0` and stepsize `ε`. -/
structure RealInputs (inp : Inputs P) (eps m c d bhat : ℝ) : Prop where
  epsilon : inp.epsilon = .fin eps
  mass : inp.mass = .fin m
  light : inp.c = .fin c
  diff : inp.d = .fin d
  bhat : inp.bhat = .fin bhat
  mpos : 0 < m
  cpos : 0 < c

/-- One run on finite values: exactly the published update
`p ← p - ε ∇U + √(ε (2D - ε B̂)) z - D ε p / (m √(p²/(m²c²)+1))`, `θ ← θ + ε p' / (m √(p'²/(m²c²)+1))`. -/
theorem C36_finite_step (inp : Inputs P) (σ : Schedule P) (s : State P) (i : P) (eps m c d bhat p th x z : ℝ)
    (hin : RealInputs inp eps m c d bhat) (hb : 0 ≤ eps * (2 * d - eps * bhat))
    (hp : (s.par i).mom = .fin p) (hth : (s.par i).vec = .fin th)
    (hx : ((run inp σ s).par i).tGrad = .fin (-x)) (hz : inp.normal i = .fin z) :
    let p' := p - eps * x + Real.sqrt (eps * (2 * d - eps * bhat)) * z - d * vel eps m c p
    ((run inp σ s).par i).mom = .fin p'
    ∧ ((run inp σ s).par i).vec = .fin (th + vel eps m c p')
    ∧ ((run inp σ s).par i).param = .fin (th + vel eps m c p') := by
  intro p'
  have hmom : ((run inp σ s).par i).mom = .fin p' := by
    rw [run_par]
    simp only [next]
    rw [hx, hin.epsilon, hin.mass, hin.light, hin.diff, hin.bhat, hp, hz]
    unfold rhsMom noiseFactor
    rw [pGrad_fin hin.mpos hin.cpos]
    have h2 : (2 : Fl) = .fin 2 := by rw [Fl.ofNat_def]; norm_num
    simp only [h2, Fl.mul_fin, Fl.sub_fin, Fl.sqrt_fin hb, Fl.add_fin, Fl.fin_inj]
    simp only [p']
    ring
  have hvec : ((run inp σ s).par i).vec = (s.par i).vec + pGrad inp.epsilon inp.mass inp.c ((run inp σ s).par i).mom := by
    have e := congrArg PState.vec (run_par inp σ s i)
    have e2 := congrArg PState.mom (run_par inp σ s i)
    rw [e2]; exact e
  have hpar : ((run inp σ s).par i).param = ((run inp σ s).par i).vec := by
    have e := congrArg PState.vec (run_par inp σ s i)
    have e2 := congrArg PState.param (run_par inp σ s i)
    rw [e, e2]; rfl
  rw [hpar, hvec, hmom, hin.epsilon, hin.mass, hin.light, pGrad_fin hin.mpos hin.cpos, hth, Fl.add_fin]
  exact ⟨rfl, rfl, rfl⟩

/-! ## C36 -/

/-- C36 (finite): if `0 ≤ ε (2D - ε B̂)` and gradients and draws are finite, every chain keeps all state finite. -/
theorem C36_stays_finite (hist : List (Inputs P × Schedule P)) (s : State P) (i : P)
    (hp : Fl.IsFin (s.par i).mom) (hth : Fl.IsFin (s.par i).vec)
    (hin : ∀ x ∈ hist, ∃ eps m c d bhat, RealInputs x.1 eps m c d bhat ∧ 0 ≤ eps * (2 * d - eps * bhat)
      ∧ Fl.IsFin (x.1.normal i) ∧ ∀ θ, Fl.IsFin (x.1.grad θ i)) :
    Fl.IsFin ((runs hist s).par i).mom ∧ Fl.IsFin ((runs hist s).par i).vec
      ∧ (hist ≠ [] → Fl.IsFin ((runs hist s).par i).param) := by
  induction hist generalizing s with
  | nil => exact ⟨hp, hth, fun h => absurd rfl h⟩
  | cons x xs ih =>
    obtain ⟨eps, m, c, d, bhat, hr, hb, ⟨z, hz⟩, hg⟩ := hin x (by simp)
    obtain ⟨p, hp⟩ := hp
    obtain ⟨th, hth⟩ := hth
    obtain ⟨isNew, -, hgr⟩ := run_grad x.1 x.2 s i
    obtain ⟨g, hg⟩ := hg fun j => if isNew j then (run x.1 x.2 s).params j else s.params j
    rw [hg, Fl.neg_fin] at hgr
    obtain ⟨h1, h2, h3⟩ := C36_finite_step x.1 x.2 s i eps m c d bhat p th g z hr hb hp hth hgr hz
    obtain ⟨i1, i2, i3⟩ := ih (run x.1 x.2 s) ⟨_, h1⟩ ⟨_, h2⟩ (fun y hy => hin y (by simp [hy]))
    refine ⟨i1, i2, fun _ => ?_⟩
    by_cases hxs : xs = []
    · subst hxs; exact ⟨_, h3⟩
    · exact i3 hxs

theorem nan_step (inp : Inputs P) (σ : Schedule P) (s : State P) (i : P)
    (h : (s.par i).mom = .nan ∨ noiseFactor inp.epsilon inp.d inp.bhat = .nan) :
    ((run inp σ s).par i).mom = .nan ∧ ((run inp σ s).par i).param = .nan := by
  have hm : ((run inp σ s).par i).mom = .nan := by
    rw [run_par]
    simp only [next, rhsMom]
    rcases h with h | h <;> rw [h] <;> simp
  refine ⟨hm, ?_⟩
  have e := congrArg PState.param (run_par inp σ s i)
  have e2 : ((run inp σ s).par i).mom = _ := congrArg PState.mom (run_par inp σ s i)
  have : ((run inp σ s).par i).param = (s.par i).vec + pGrad inp.epsilon inp.mass inp.c ((run inp σ s).par i).mom := by
    rw [e2]; exact e
  rw [this, hm]
  simp [pGrad]

/-- C36 (NaN): in a run with `ε (2D - ε B̂) < 0` (for `ε > 0`: `ε B̂ > 2D`) every parameter becomes `NaN`, whatever the
state, gradient and draw, and it is `NaN` after every continuation of the chain. -/
theorem C36_nan_forever (x : Inputs P × Schedule P) (hist : List (Inputs P × Schedule P)) (s : State P) (i : P)
    (eps m c d bhat : ℝ) (hin : RealInputs x.1 eps m c d bhat) (hb : eps * (2 * d - eps * bhat) < 0) :
    ((runs (x :: hist) s).par i).param = .nan := by
  have hnoise : noiseFactor x.1.epsilon x.1.d x.1.bhat = .nan := by
    unfold noiseFactor
    have h2 : (2 : Fl) = .fin 2 := by rw [Fl.ofNat_def]; norm_num
    rw [hin.epsilon, hin.diff, hin.bhat, h2, Fl.mul_fin, Fl.mul_fin, Fl.sub_fin, Fl.mul_fin, Fl.sqrt_neg hb]
  have key : ∀ (hist : List (Inputs P × Schedule P)) (s : State P), (s.par i).mom = .nan → (s.par i).param = .nan →
      ((runs hist s).par i).param = .nan := by
    intro hist
    induction hist with
    | nil => intro s _ h; exact h
    | cons y ys ih =>
      intro s h _
      obtain ⟨h1, h2⟩ := nan_step y.1 y.2 s i (.inl h)
      exact ih _ h1 h2
  obtain ⟨h1, h2⟩ := nan_step x.1 x.2 s i (.inr hnoise)
  exact key hist _ h1 h2

/-- C36 as an equivalence: for a stepsize `ε > 0`, one step from finite state with finite gradient and draw leaves the
parameter a number exactly if `ε B̂ ≤ 2D`. -/
theorem C36_iff (inp : Inputs P) (σ : Schedule P) (s : State P) (i : P) (eps m c d bhat : ℝ)
    (hin : RealInputs inp eps m c d bhat) (he : 0 < eps) (hp : Fl.IsFin (s.par i).mom) (hth : Fl.IsFin (s.par i).vec)
    (hz : Fl.IsFin (inp.normal i)) (hg : ∀ θ, Fl.IsFin (inp.grad θ i)) :
    Fl.IsFin ((run inp σ s).par i).param ↔ eps * bhat ≤ 2 * d := by
  constructor
  · intro h
    by_contra hc
    have := C36_nan_forever (inp, σ) [] s i eps m c d bhat hin (mul_neg_of_pos_of_neg he (by linarith))
    obtain ⟨r, hr⟩ := h
    have e : ((run inp σ s).par i).param = .nan := this
    rw [e] at hr
    cases hr
  · intro h
    exact (C36_stays_finite [(inp, σ)] s i hp hth (by
      intro x hx
      obtain rfl : x = (inp, σ) := by simpa using hx
      exact ⟨eps, m, c, d, bhat, hin, mul_nonneg he.le (by linarith), hz, hg⟩)).2.2 (by simp)

/-! ## C35 -/

/-- C35 (one step): a parameter moves by less than `|ε| c` (provided the new momentum is a number). -/
theorem C35_speed_limit (inp : Inputs P) (σ : Schedule P) (s : State P) (i : P) (eps m c d bhat th : ℝ)
    (hin : RealInputs inp eps m c d bhat) (he : eps ≠ 0) (hth : (s.par i).vec = .fin th)
    (hp : Fl.IsFin ((run inp σ s).par i).mom) :
    ∃ th', ((run inp σ s).par i).param = .fin th' ∧ ((run inp σ s).par i).vec = .fin th' ∧ |th' - th| < |eps| * c := by
  obtain ⟨p', hp'⟩ := hp
  have hvec : ((run inp σ s).par i).vec = (s.par i).vec + pGrad inp.epsilon inp.mass inp.c ((run inp σ s).par i).mom := by
    have e := congrArg PState.vec (run_par inp σ s i)
    have e2 := congrArg PState.mom (run_par inp σ s i)
    rw [e2]; exact e
  have hpar : ((run inp σ s).par i).param = ((run inp σ s).par i).vec := by
    have e := congrArg PState.vec (run_par inp σ s i)
    have e2 := congrArg PState.param (run_par inp σ s i)
    rw [e, e2]; rfl
  refine ⟨th + vel eps m c p', ?_, ?_, ?_⟩
  · rw [hpar, hvec, hp', hth, hin.epsilon, hin.mass, hin.light, pGrad_fin hin.mpos hin.cpos, Fl.add_fin]
  · rw [hvec, hp', hth, hin.epsilon, hin.mass, hin.light, pGrad_fin hin.mpos hin.cpos, Fl.add_fin]
  · rw [add_sub_cancel_left]; exact vel_lt hin.mpos hin.cpos eps p' he

/-- C35 (chain): after `n ≥ 1` steps with stepsizes `ε₁ … εₙ` (each non-zero, with a well-defined noise term, finite
gradients and draws) a parameter has moved by less than `c (|ε₁| + … + |εₙ|)`. -/
theorem C35_chain (hist : List (Inputs P × Schedule P)) (s : State P) (i : P) (m c : ℝ) (th : ℝ) (eps : List ℝ)
    (hlen : eps.length = hist.length) (hne : hist ≠ [])
    (hp : Fl.IsFin (s.par i).mom) (hth : (s.par i).vec = .fin th)
    (hin : ∀ (k : ℕ) (x : Inputs P × Schedule P) (e : ℝ), hist[k]? = some x → eps[k]? = some e → e ≠ 0 ∧ ∃ d bhat, RealInputs x.1 e m c d bhat
      ∧ 0 ≤ e * (2 * d - e * bhat) ∧ Fl.IsFin (x.1.normal i) ∧ ∀ θ, Fl.IsFin (x.1.grad θ i)) :
    ∃ th', ((runs hist s).par i).param = .fin th' ∧ |th' - th| < (eps.map abs).sum * c := by
  induction hist generalizing s th eps with
  | nil => exact absurd rfl hne
  | cons x xs ih =>
    cases eps with
    | nil => simp at hlen
    | cons e es =>
      obtain ⟨he, d, bhat, hr, hb, ⟨z, hz⟩, hg⟩ := hin 0 x e rfl rfl
      obtain ⟨p, hp⟩ := hp
      obtain ⟨isNew, -, hgr⟩ := run_grad x.1 x.2 s i
      obtain ⟨g, hg⟩ := hg fun j => if isNew j then (run x.1 x.2 s).params j else s.params j
      rw [hg, Fl.neg_fin] at hgr
      obtain ⟨h1, h2, h3⟩ := C36_finite_step x.1 x.2 s i e m c d bhat p th g z hr hb hp hth hgr hz
      obtain ⟨t1, q1, q2, q3⟩ := C35_speed_limit x.1 x.2 s i e m c d bhat th hr he hth ⟨_, h1⟩
      by_cases hxs : xs = []
      · subst hxs
        have : es = [] := by simpa using hlen
        subst this
        refine ⟨t1, q1, by simpa using q3⟩
      · obtain ⟨t2, r1, r2⟩ := ih (run x.1 x.2 s) t1 es (by simpa using hlen) hxs ⟨_, h1⟩ q2
          (fun k y e' hy he' => hin (k + 1) y e' hy he')
        refine ⟨t2, r1, ?_⟩
        rw [List.map_cons, List.sum_cons, add_mul]
        calc |t2 - th| = |(t2 - t1) + (t1 - th)| := by ring_nf
          _ ≤ |t2 - t1| + |t1 - th| := abs_add_le _ _
          _ < |e| * c + (es.map abs).sum * c := by linarith

/-! ## C39 -/

theorem sqrt_one_add_sq_convex (k : ℝ) (hk : 0 < k) :
    ConvexOn ℝ Set.univ fun p : ℝ => Real.sqrt (p ^ 2 / k + 1) := by
  refine ⟨convex_univ, fun x _ y _ a b ha hb hab => ?_⟩
  simp only [smul_eq_mul]
  have hx : 0 ≤ x ^ 2 / k + 1 := by positivity
  have hy : 0 ≤ y ^ 2 / k + 1 := by positivity
  have sx := Real.sq_sqrt hx
  have sy := Real.sq_sqrt hy
  have nx := Real.sqrt_nonneg (x ^ 2 / k + 1)
  have ny := Real.sqrt_nonneg (y ^ 2 / k + 1)
  have hcs : x * y / k + 1 ≤ Real.sqrt (x ^ 2 / k + 1) * Real.sqrt (y ^ 2 / k + 1) := by
    rw [← Real.sqrt_mul hx]
    apply Real.le_sqrt_of_sq_le
    have e : (x ^ 2 / k + 1) * (y ^ 2 / k + 1) - (x * y / k + 1) ^ 2 = (x - y) ^ 2 / k := by field_simp; ring
    have : 0 ≤ (x - y) ^ 2 / k := by positivity
    linarith
  rw [Real.sqrt_le_iff]
  refine ⟨by positivity, ?_⟩
  have e1 : (a * x + b * y) ^ 2 / k + 1
      = a ^ 2 * (x ^ 2 / k + 1) + b ^ 2 * (y ^ 2 / k + 1) + 2 * (a * b) * (x * y / k + 1) := by
    have : (1 : ℝ) = (a + b) ^ 2 := by rw [hab]; ring
    calc (a * x + b * y) ^ 2 / k + 1 = (a * x + b * y) ^ 2 / k + (a + b) ^ 2 := by rw [← this]
      _ = _ := by field_simp; ring
  rw [e1]
  have hab0 : 0 ≤ 2 * (a * b) := by positivity
  have := mul_le_mul_of_nonneg_left hcs hab0
  calc _ ≤ a ^ 2 * (x ^ 2 / k + 1) + b ^ 2 * (y ^ 2 / k + 1)
        + 2 * (a * b) * (Real.sqrt (x ^ 2 / k + 1) * Real.sqrt (y ^ 2 / k + 1)) := by linarith
    _ = (a * Real.sqrt (x ^ 2 / k + 1) + b * Real.sqrt (y ^ 2 / k + 1)) ^ 2 := by
      nth_rw 1 [← sx]; nth_rw 1 [← sy]; ring

/-- C39: for `m, c > 0` the log density of the momentum is concave, even, and strictly largest at 0, with value
`-m c²`. -/
theorem C39_log_concave (m c : ℝ) (hm : 0 < m) (hc : 0 < c) :
    ConcaveOn ℝ Set.univ (logPdf m c) ∧ (∀ p, logPdf m c (-p) = logPdf m c p)
    ∧ logPdf m c 0 = -(m * c ^ 2) ∧ ∀ p, p ≠ 0 → logPdf m c p < logPdf m c 0 := by
  have hk : 0 < m ^ 2 * c ^ 2 := by positivity
  have hmc : 0 < m * c ^ 2 := by positivity
  have heq : logPdf m c = fun p => -((m * c ^ 2) • Real.sqrt (p ^ 2 / (m ^ 2 * c ^ 2) + 1)) := by
    funext p; unfold logPdf; simp only [smul_eq_mul]; ring
  refine ⟨?_, fun p => by unfold logPdf; rw [neg_sq], ?_, fun p hp => ?_⟩
  · rw [heq]
    exact ((sqrt_one_add_sq_convex _ hk).smul hmc.le).neg
  · unfold logPdf; simp
  · unfold logPdf
    have h1 : (1 : ℝ) < Real.sqrt (p ^ 2 / (m ^ 2 * c ^ 2) + 1) := by
      rw [Real.lt_sqrt (by norm_num)]
      have : 0 < p ^ 2 / (m ^ 2 * c ^ 2) := by positivity
      linarith
    simp only [ne_eq, OfNat.ofNat_ne_zero, not_false_eq_true, zero_pow, zero_div, zero_add, Real.sqrt_one, mul_one]
    nlinarith

/-! ## Non-vacuity -/

/-- One scalar parameter, cost `x²/2`, `D = 1`, `B̂ = b`. -/
noncomputable def quadratic (b : ℝ) : Inputs Unit where
  epsilon := .fin (1 / 10)
  mass := .fin 1
  c := .fin 2
  d := .fin 1
  bhat := .fin b
  normal _ := .fin (1 / 2)
  grad θ _ := θ ()
  cost θ := θ () * θ () / 2

/-- The hypotheses of C35, C36 (both directions): settings with `ε B̂ ≤ 2D` and with `ε B̂ > 2D`. -/
example : RealInputs (quadratic 1) (1 / 10) 1 2 1 1 ∧ (0 : ℝ) ≤ 1 / 10 * (2 * 1 - 1 / 10 * 1)
    ∧ RealInputs (quadratic 50) (1 / 10) 1 2 1 50 ∧ (1 / 10 : ℝ) * (2 * 1 - 1 / 10 * 50) < 0 :=
  ⟨⟨rfl, rfl, rfl, rfl, rfl, by norm_num, by norm_num⟩, by norm_num,
   ⟨rfl, rfl, rfl, rfl, rfl, by norm_num, by norm_num⟩, by norm_num⟩

/-- A parameter of three elements, and a 1×1 matrix next to a scalar (C37). -/
example : construct (.float 1) (.float 1) [[3]] = .error (.value "reshape")
    ∧ construct (.float 1) (.float 1) [[1, 1], []] = .ok () := ⟨C37_violated 1 1 [3] [] (by decide), by
  rw [(C37_construct_partial _ _ _).1]; simp⟩

end PySGMCMC.Relativistic
