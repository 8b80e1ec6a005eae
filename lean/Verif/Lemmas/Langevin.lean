import Verif.Lemmas.Recipe
import Mathlib.Analysis.Calculus.ParametricIntegral
import Mathlib.Analysis.Calculus.LineDeriv.IntegrationByParts
import Mathlib.Analysis.InnerProductSpace.Calculus

/-!
# The Langevin algorithm in an inner product space

What one step of the unadjusted Langevin algorithm (with stochastic gradients) does to averages over the density it targets.  Test
functions need bounded and Lipschitz first derivatives only.
-/

open MeasureTheory InnerProductSpace
namespace PySGMCMC.Langevin
set_option linter.unusedSectionVars false

section smooth
variable {E : Type*} [NormedAddCommGroup E] [NormedSpace ℝ E]

/-- `u` has derivative `D`, bounded by `A₁` and Lipschitz with constant `A₂`. -/
structure Smooth (A₁ A₂ : ℝ) (u : E → ℝ) (D : E → E →L[ℝ] ℝ) : Prop where
  deriv : ∀ x, HasFDerivAt u (D x) x
  bound : ∀ x, ‖D x‖ ≤ A₁
  lip : ∀ x y, ‖D x - D y‖ ≤ A₂ * ‖x - y‖

variable {A₁ A₂ : ℝ} {u : E → ℝ} {D : E → E →L[ℝ] ℝ}

namespace Smooth

theorem nonneg (h : Smooth A₁ A₂ u D) : 0 ≤ A₁ := (norm_nonneg _).trans (h.bound 0)

theorem continuous (h : Smooth A₁ A₂ u D) : Continuous u :=
  continuous_iff_continuousAt.2 fun x => (h.deriv x).continuousAt

theorem lipschitz (h : Smooth A₁ A₂ u D) (x y : E) : |u x - u y| ≤ A₁ * ‖x - y‖ := by
  have := convex_univ.norm_image_sub_le_of_norm_hasFDerivWithin_le (f := u) (f' := D) (C := A₁)
    (fun x _ => (h.deriv x).hasFDerivWithinAt) (fun x _ => h.bound x) (Set.mem_univ y) (Set.mem_univ x)
  simpa using this

theorem growth (h : Smooth A₁ A₂ u D) (x : E) : |u x| ≤ |u 0| + A₁ * ‖x‖ := by
  have := h.lipschitz x 0
  rw [sub_zero] at this
  have h2 := abs_sub_abs_le_abs_sub (u x) (u 0)
  linarith

theorem continuous_deriv (h : Smooth A₁ A₂ u D) : Continuous D := by
  refine LipschitzWith.continuous (K := ⟨|A₂|, abs_nonneg _⟩) (LipschitzWith.of_dist_le_mul fun x y => ?_)
  rw [dist_eq_norm, dist_eq_norm]
  exact (h.lip x y).trans (mul_le_mul_of_nonneg_right (le_abs_self _) (norm_nonneg _))

theorem apply_le (h : Smooth A₁ A₂ u D) (x v : E) : |D x v| ≤ A₁ * ‖v‖ :=
  ((D x).le_opNorm v).trans (mul_le_mul_of_nonneg_right (h.bound x) (norm_nonneg _))

theorem apply_lip (h : Smooth A₁ A₂ u D) (x y v : E) : |D x v - D y v| ≤ A₂ * ‖x - y‖ * ‖v‖ := by
  rw [← sub_apply]
  exact ((D x - D y).le_opNorm v).trans (mul_le_mul_of_nonneg_right (h.lip x y) (norm_nonneg _))

theorem taylor (h : Smooth A₁ A₂ u D) (hA : 0 ≤ A₂) (x v : E) : |u (x + v) - u x - D x v| ≤ A₂ * ‖v‖ ^ 2 := by
  have := (convex_segment x (x + v)).norm_image_sub_le_of_norm_hasFDerivWithin_le (f := fun y => u y - D x y) (f' := fun y => D y - D x)
    (C := A₂ * ‖v‖) (fun y _ => ((h.deriv y).sub (D x).hasFDerivAt).hasFDerivWithinAt)
    (fun y hy => (h.lip y x).trans (mul_le_mul_of_nonneg_left ?_ hA)) (left_mem_segment ℝ x (x + v)) (right_mem_segment ℝ x (x + v))
  · rw [map_add] at this
    have e : u (x + v) - (D x x + D x v) - (u x - D x x) = u (x + v) - u x - D x v := by ring
    rw [e, add_sub_cancel_left, Real.norm_eq_abs] at this
    linarith [this, sq (‖v‖)]
  · obtain ⟨a, b, ha, hb, hab, rfl⟩ := hy
    have e : a • x + b • (x + v) - x = b • v := by
      rw [smul_add, ← add_assoc, ← add_smul, hab, one_smul, add_sub_cancel_left]
    rw [e, norm_smul, Real.norm_eq_abs, abs_of_nonneg hb]
    exact mul_le_of_le_one_left (norm_nonneg _) (by linarith)

end Smooth
end smooth

variable {E : Type*} [NormedAddCommGroup E] [InnerProductSpace ℝ E] {A₁ A₂ : ℝ} {u : E → ℝ} {D : E → E →L[ℝ] ℝ}

variable [FiniteDimensional ℝ E] [MeasurableSpace E] [BorelSpace E] {lam : Measure E} [lam.IsAddHaarMeasure]

/-- A probability density `p` proportional to `exp (-s V)`, `g` being the gradient of `V`, with second moments. -/
structure Target (lam : Measure E) (s : ℝ) (g : E → E) (p : E → ℝ) : Prop where
  nonneg : ∀ x, 0 ≤ p x
  deriv : ∀ x, HasFDerivAt p (-(s * p x) • innerSL ℝ (g x)) x
  grad : Continuous g
  prob : IsProbabilityMeasure (lam.withDensity fun x => ENNReal.ofReal (p x))
  second : Integrable (fun x => ‖x‖ ^ 2) (lam.withDensity fun x => ENNReal.ofReal (p x))
  gradSq : Integrable (fun x => ‖g x‖ ^ 2) (lam.withDensity fun x => ENNReal.ofReal (p x))

/-- The measure. -/
noncomputable def law (lam : Measure E) (p : E → ℝ) : Measure E := lam.withDensity fun x => ENNReal.ofReal (p x)

variable {s : ℝ} {g : E → E} {p : E → ℝ}

theorem sq_integrable {Ω : Type*} [MeasurableSpace Ω] {μ : Measure Ω} [IsFiniteMeasure μ] {f : Ω → ℝ} (hm : AEStronglyMeasurable f μ)
    (h : Integrable (fun x => f x ^ 2) μ) : Integrable f μ := by
  refine ((integrable_const (1 : ℝ)).add h).mono' hm (.of_forall fun x => ?_)
  simp only [Pi.add_apply, Real.norm_eq_abs]
  nlinarith [sq_abs (f x), sq_nonneg (|f x| - 1)]

theorem integral_four {Ω : Type*} [MeasurableSpace Ω] {μ : Measure Ω} [IsProbabilityMeasure μ] {a b c : Ω → ℝ} (ha : Integrable a μ)
    (hb : Integrable b μ) (hc : Integrable c μ) (k r q : ℝ) :
    ∫ x, (a x - k - r * b x - q * c x) ∂μ = ∫ x, a x ∂μ - k - r * ∫ x, b x ∂μ - q * ∫ x, c x ∂μ := by
  have i1 : Integrable (fun x => a x - k) μ := ha.sub (integrable_const k)
  have i2 : Integrable (fun x => a x - k - r * b x) μ := i1.sub (hb.const_mul r)
  rw [integral_sub i2 (hc.const_mul q), integral_sub i1 (hb.const_mul r), integral_sub ha (integrable_const k), integral_const_mul,
    integral_const_mul]
  simp

theorem integral_three {Ω : Type*} [MeasurableSpace Ω] {μ : Measure Ω} {a b c : Ω → ℝ} (ha : Integrable a μ)
    (hb : Integrable b μ) (hc : Integrable c μ) (r : ℝ) :
    ∫ x, (a x - b x + r * c x) ∂μ = ∫ x, a x ∂μ - ∫ x, b x ∂μ + r * ∫ x, c x ∂μ := by
  have i1 : Integrable (fun x => a x - b x) μ := ha.sub hb
  rw [integral_add i1 (hc.const_mul r), integral_sub ha hb, integral_const_mul]

namespace Target

theorem continuous (h : Target lam s g p) : Continuous p := continuous_iff_continuousAt.2 fun x => (h.deriv x).continuousAt

theorem integral_law (h : Target lam s g p) (f : E → ℝ) : ∫ x, f x ∂law lam p = ∫ x, f x * p x ∂lam := by
  unfold law
  rw [integral_withDensity_eq_integral_toReal_smul (h.continuous.measurable.ennreal_ofReal) (by simp)]
  refine integral_congr_ae (.of_forall fun x => ?_)
  simp only [smul_eq_mul]
  rw [ENNReal.toReal_ofReal (h.nonneg x), mul_comm]

theorem integrable_law (h : Target lam s g p) (f : E → ℝ) : Integrable f (law lam p) ↔ Integrable (fun x => f x * p x) lam := by
  unfold law
  rw [integrable_withDensity_iff (h.continuous.measurable.ennreal_ofReal) (by simp)]
  simp only [ENNReal.toReal_ofReal (h.nonneg _)]

theorem by_parts (h : Target lam s g p) {w : E → ℝ} {D : E → E →L[ℝ] ℝ} (hw : ∀ x, HasFDerivAt w (D x) x) (y : E)
    (i1 : Integrable (fun x => D x y) (law lam p)) (i2 : Integrable w (law lam p))
    (i3 : Integrable (fun x => w x * ⟪g x, y⟫_ℝ) (law lam p)) :
    ∫ x, D x y ∂law lam p = s * ∫ x, w x * ⟪g x, y⟫_ℝ ∂law lam p := by
  rw [h.integrable_law] at i1 i2 i3
  have e : ∀ x, w x * (-(s * p x) • innerSL ℝ (g x)) y = -s * (w x * ⟪g x, y⟫_ℝ * p x) := fun x => by
    simp only [smul_apply, innerSL_apply_apply, smul_eq_mul]; ring
  have := integral_bilinear_hasFDerivAt_right_eq_neg_left_of_integrable (μ := lam) (B := ContinuousLinearMap.mul ℝ ℝ) (v := y)
    (f := w) (f' := D) (g := p) (g' := fun x => -(s * p x) • innerSL ℝ (g x)) (by simpa using i1)
    (by
      simp only [ContinuousLinearMap.mul_apply', e]
      exact i3.const_mul _)
    (by simpa using i2) (fun x _ => hw x) (fun x _ => h.deriv x)
  simp only [ContinuousLinearMap.mul_apply', e, integral_const_mul] at this
  rw [h.integral_law, h.integral_law]
  linarith

theorem finite (h : Target lam s g p) : IsProbabilityMeasure (law lam p) := h.prob

theorem int_norm (h : Target lam s g p) : Integrable (fun x => ‖x‖) (law lam p) :=
  have := h.finite
  sq_integrable measurable_norm.aestronglyMeasurable h.second

theorem int_grad (h : Target lam s g p) : Integrable (fun x => ‖g x‖) (law lam p) :=
  have := h.finite
  sq_integrable h.grad.norm.aestronglyMeasurable h.gradSq

theorem int_norm_grad (h : Target lam s g p) : Integrable (fun x => ‖x‖ * ‖g x‖) (law lam p) := by
  refine (Integrable.add (f := fun x => ‖x‖ ^ 2) h.second h.gradSq).mono' (continuous_norm.mul h.grad.norm).aestronglyMeasurable (.of_forall fun x => ?_)
  rw [Real.norm_eq_abs, abs_of_nonneg (by positivity)]
  simp only [Pi.add_apply]
  nlinarith [sq_nonneg (‖x‖ - ‖g x‖), sq_nonneg (‖x‖), sq_nonneg (‖g x‖)]

theorem int_smooth (h : Target lam s g p) (hu : Smooth A₁ A₂ u D) (y : E) : Integrable (fun x => u (x + y)) (law lam p) := by
  have := h.finite
  refine (((integrable_const (|u 0| + A₁ * ‖y‖)).add (h.int_norm.const_mul A₁))).mono'
    (hu.continuous.comp (continuous_id.add continuous_const)).aestronglyMeasurable (.of_forall fun x => ?_)
  have h1 := hu.growth (x + y)
  have h2 := mul_le_mul_of_nonneg_left (norm_add_le x y) hu.nonneg
  simp only [Real.norm_eq_abs, Pi.add_apply]
  linarith

theorem int_smooth_grad (h : Target lam s g p) (hu : Smooth A₁ A₂ u D) (y v : E) :
    Integrable (fun x => u (x + y) * ⟪g x, v⟫_ℝ) (law lam p) := by
  refine (((h.int_grad.const_mul (|u 0| + A₁ * ‖y‖)).add (h.int_norm_grad.const_mul A₁)).mul_const ‖v‖).mono'
    ((hu.continuous.comp (continuous_id.add continuous_const)).mul (h.grad.inner continuous_const)).aestronglyMeasurable (.of_forall fun x => ?_)
  have h1 := hu.growth (x + y)
  have h2 := mul_le_mul_of_nonneg_left (norm_add_le x y) hu.nonneg
  have h3 := abs_real_inner_le_norm (g x) v
  simp only [Real.norm_eq_abs, Pi.add_apply, abs_mul]
  calc |u (x + y)| * |⟪g x, v⟫_ℝ| ≤ (|u 0| + A₁ * (‖x‖ + ‖y‖)) * (‖g x‖ * ‖v‖) := by
        refine mul_le_mul (by linarith) h3 (abs_nonneg _) ?_
        have := hu.nonneg
        positivity
    _ = _ := by ring

theorem int_deriv (h : Target lam s g p) (hu : Smooth A₁ A₂ u D) (y v : E) : Integrable (fun x => D (x + y) v) (law lam p) := by
  have := h.finite
  refine (integrable_const (A₁ * ‖v‖)).mono'
    ((hu.continuous_deriv.comp (continuous_id.add continuous_const)).clm_apply continuous_const).aestronglyMeasurable (.of_forall fun x => ?_)
  exact hu.apply_le _ _

theorem int_deriv_grad (h : Target lam s g p) (hu : Smooth A₁ A₂ u D) (y v w : E) :
    Integrable (fun x => D (x + y) v * ⟪g x, w⟫_ℝ) (law lam p) := by
  refine (h.int_grad.const_mul (A₁ * ‖v‖ * ‖w‖)).mono'
    (((hu.continuous_deriv.comp (continuous_id.add continuous_const)).clm_apply continuous_const).mul
      (h.grad.inner continuous_const)).aestronglyMeasurable (.of_forall fun x => ?_)
  have h3 := abs_real_inner_le_norm (g x) w
  rw [norm_mul, Real.norm_eq_abs, Real.norm_eq_abs]
  calc |D (x + y) v| * |⟪g x, w⟫_ℝ| ≤ (A₁ * ‖v‖) * (‖g x‖ * ‖w‖) :=
        mul_le_mul (hu.apply_le _ _) h3 (abs_nonneg _) (mul_nonneg hu.nonneg (norm_nonneg _))
    _ = _ := by ring

theorem line (hu : Smooth A₁ A₂ u D) (x y : E) (t : ℝ) : HasDerivAt (fun q : ℝ => u (x + q • y)) (D (x + t • y) y) t := by
  have h1 : HasDerivAt (fun q : ℝ => x + q • y) y t := by simpa using ((hasDerivAt_id' t).smul_const y).const_add x
  exact (hu.deriv (x + t • y)).comp_hasDerivAt t h1

theorem by_parts_shift (h : Target lam s g p) (hu : Smooth A₁ A₂ u D) (y v : E) :
    ∫ x, D (x + v) y ∂law lam p = s * ∫ x, u (x + v) * ⟪g x, y⟫_ℝ ∂law lam p :=
  h.by_parts (w := fun x => u (x + v)) (D := fun x => D (x + v)) (fun x => (hasFDerivAt_comp_add_right v).2 (hu.deriv (x + v)))
    y (h.int_deriv hu _ _) (h.int_smooth hu _) (h.int_smooth_grad hu _ _)

theorem deriv_one (h : Target lam s g p) (hu : Smooth A₁ A₂ u D) (y : E) (t : ℝ) :
    HasDerivAt (fun q : ℝ => ∫ x, u (x + q • y) ∂law lam p) (∫ x, D (x + t • y) y ∂law lam p) t :=
  have := h.finite
  (hasDerivAt_integral_of_dominated_loc_of_deriv_le (bound := fun _ => A₁ * ‖y‖) (F := fun (q : ℝ) x => u (x + q • y))
    (F' := fun (q : ℝ) x => D (x + q • y) y) (Filter.univ_mem)
    (.of_forall fun _ => (h.int_smooth hu _).aestronglyMeasurable) (h.int_smooth hu _) (h.int_deriv hu _ _).aestronglyMeasurable
    (.of_forall fun _ _ _ => hu.apply_le _ _) (integrable_const _) (.of_forall fun x q _ => line hu x y q)).2

theorem deriv_two (h : Target lam s g p) (hu : Smooth A₁ A₂ u D) (y : E) (t : ℝ) :
    HasDerivAt (fun q : ℝ => ∫ x, D (x + q • y) y ∂law lam p) (s * ∫ x, D (x + t • y) y * ⟪g x, y⟫_ℝ ∂law lam p) t := by
  have e : (fun q : ℝ => ∫ x, D (x + q • y) y ∂law lam p) = fun q => s * ∫ x, u (x + q • y) * ⟪g x, y⟫_ℝ ∂law lam p :=
    funext fun q => h.by_parts_shift hu y (q • y)
  rw [e]
  refine HasDerivAt.const_mul s ?_
  refine (hasDerivAt_integral_of_dominated_loc_of_deriv_le (bound := fun x => A₁ * ‖y‖ * (‖g x‖ * ‖y‖))
    (F := fun (q : ℝ) x => u (x + q • y) * ⟪g x, y⟫_ℝ) (F' := fun (q : ℝ) x => D (x + q • y) y * ⟪g x, y⟫_ℝ) (Filter.univ_mem)
    (.of_forall fun q => (h.int_smooth_grad hu _ _).aestronglyMeasurable) (h.int_smooth_grad hu _ _)
    (h.int_deriv_grad hu _ _ _).aestronglyMeasurable
    (.of_forall fun x q _ => ?_) ((h.int_grad.mul_const _).const_mul _) (.of_forall fun x q _ => (line hu x y q).mul_const _)).2
  rw [norm_mul]
  exact mul_le_mul (hu.apply_le _ _) (abs_real_inner_le_norm _ _) (norm_nonneg _) (mul_nonneg hu.nonneg (norm_nonneg _))

/-- Moving the target by `y`. -/
theorem shift (h : Target lam s g p) (hs : 0 ≤ s) (hu : Smooth A₁ A₂ u D) (hA : 0 ≤ A₂) (y : E) :
    |∫ x, u (x + y) ∂law lam p - ∫ x, u x ∂law lam p - ∫ x, D x y ∂law lam p - s / 2 * ∫ x, D x y * ⟪g x, y⟫_ℝ ∂law lam p|
      ≤ s * A₂ * (∫ x, ‖g x‖ ∂law lam p) * ‖y‖ ^ 3 := by
  have key := Recipe.taylor_real (h.deriv_one hu y) (h.deriv_two hu y) (K := s * A₂ * (∫ x, ‖g x‖ ∂law lam p) * ‖y‖ ^ 3) fun t ht => ?_
  · simp only [one_smul, zero_smul, add_zero] at key
    rwa [show s / 2 * ∫ x, D x y * ⟪g x, y⟫_ℝ ∂law lam p = 1 / 2 * (s * ∫ x, D x y * ⟪g x, y⟫_ℝ ∂law lam p) by ring]
  · rw [← mul_sub, abs_mul, abs_of_nonneg hs, ← integral_sub (h.int_deriv_grad hu _ _ _) (h.int_deriv_grad hu _ _ _)]
    have hb : |∫ x, (D (x + t • y) y * ⟪g x, y⟫_ℝ - D (x + (0 : ℝ) • y) y * ⟪g x, y⟫_ℝ) ∂law lam p| ≤ ∫ x, A₂ * ‖y‖ ^ 3 * ‖g x‖ ∂law lam p := by
      refine (abs_integral_le_integral_abs).trans (integral_mono_of_nonneg (.of_forall fun _ => abs_nonneg _) (h.int_grad.const_mul _)
        (.of_forall fun x => ?_))
      simp only [← sub_mul, abs_mul]
      have h1 := hu.apply_lip (x + t • y) (x + (0 : ℝ) • y) y
      have h2 := abs_real_inner_le_norm (g x) y
      have h3 : ‖x + t • y - (x + (0 : ℝ) • y)‖ ≤ ‖y‖ := by
        rw [zero_smul, add_zero, add_sub_cancel_left, norm_smul, Real.norm_eq_abs, abs_of_nonneg ht.1]
        exact mul_le_of_le_one_left (norm_nonneg _) ht.2
      calc _ ≤ (A₂ * ‖y‖ * ‖y‖) * (‖g x‖ * ‖y‖) := mul_le_mul (h1.trans (by gcongr)) h2 (abs_nonneg _) (by positivity)
        _ = _ := by ring
    rw [integral_const_mul] at hb
    calc _ ≤ s * (A₂ * ‖y‖ ^ 3 * ∫ x, ‖g x‖ ∂law lam p) := mul_le_mul_of_nonneg_left hb hs
      _ = _ := by ring

end Target

/-- Noise with mean 0, unit covariance and finite third moment. -/
structure Noise (N : Measure E) : Prop where
  prob : IsProbabilityMeasure N
  mean : ∀ l : E →L[ℝ] ℝ, ∫ z, l z ∂N = 0
  cov : ∀ (l : E →L[ℝ] ℝ) (v : E), ∫ z, l z * ⟪v, z⟫_ℝ ∂N = l v
  third : Integrable (fun z => ‖z‖ ^ 3) N

variable {N : Measure E}

theorem Noise.low (hN : Noise N) (n : Nat) (hn : n ≤ 3) : Integrable (fun z => ‖z‖ ^ n) N := by
  have := hN.prob
  refine ((integrable_const (1 : ℝ)).add hN.third).mono' (measurable_norm.pow_const n).aestronglyMeasurable (.of_forall fun z => ?_)
  have h0 := norm_nonneg z
  simp only [Pi.add_apply, norm_pow, norm_norm]
  rcases le_total ‖z‖ 1 with h1 | h1
  · linarith [pow_le_one₀ h0 h1 (n := n), pow_nonneg h0 3]
  · linarith [pow_le_pow_right₀ h1 hn]

theorem Noise.norm (hN : Noise N) : Integrable (fun z => ‖z‖) N := by simpa using hN.low 1 (by norm_num)

namespace Target

/-- Moving the target by noise. -/
theorem noise (h : Target lam s g p) (hs : 0 ≤ s) (hN : Noise N) (hu : Smooth A₁ A₂ u D) (hA : 0 ≤ A₂) (r : ℝ) (hr : 0 ≤ r) :
    |∫ z, ∫ x, u (x + r • z) ∂law lam p ∂N - ∫ x, u x ∂law lam p - r ^ 2 * s / 2 * ∫ x, D x (g x) ∂law lam p|
      ≤ s * A₂ * (∫ x, ‖g x‖ ∂law lam p) * (r ^ 3 * ∫ z, ‖z‖ ^ 3 ∂N) := by
  have := h.finite
  have := hN.prob
  have cD := hu.continuous_deriv
  have i1 : Integrable (fun q : E × E => D q.2 q.1) (N.prod (law lam p)) := by
    refine ((hN.norm.comp_fst (law lam p)).const_mul A₁).mono' ((cD.comp continuous_snd).clm_apply continuous_fst).aestronglyMeasurable
      (.of_forall fun q => hu.apply_le _ _)
  have i2 : Integrable (fun q : E × E => D q.2 q.1 * ⟪g q.2, q.1⟫_ℝ) (N.prod (law lam p)) := by
    refine (((hN.low 2 (by norm_num)).mul_prod h.int_grad).const_mul A₁).mono'
      (((cD.comp continuous_snd).clm_apply continuous_fst).mul ((h.grad.comp continuous_snd).inner continuous_fst)).aestronglyMeasurable
      (.of_forall fun q => ?_)
    rw [norm_mul]
    calc _ ≤ (A₁ * ‖q.1‖) * (‖g q.2‖ * ‖q.1‖) := mul_le_mul (hu.apply_le _ _) (abs_real_inner_le_norm _ _) (abs_nonneg _)
          (mul_nonneg hu.nonneg (norm_nonneg _))
      _ = _ := by ring
  have i3 : Integrable (fun q : E × E => u (q.2 + r • q.1)) (N.prod (law lam p)) := by
    refine (((integrable_const |u 0|).add ((h.int_norm.comp_snd N).const_mul A₁)).add
      ((hN.norm.comp_fst (law lam p)).const_mul (A₁ * r))).mono'
      (hu.continuous.comp (continuous_snd.add (continuous_fst.const_smul r))).aestronglyMeasurable (.of_forall fun q => ?_)
    have h1 := hu.growth (q.2 + r • q.1)
    have h2 := mul_le_mul_of_nonneg_left (norm_add_le q.2 (r • q.1)) hu.nonneg
    rw [norm_smul, Real.norm_eq_abs, abs_of_nonneg hr] at h2
    simp only [Real.norm_eq_abs, Pi.add_apply]
    linarith
  have e1 : ∫ z, ∫ x, D x z ∂law lam p ∂N = 0 := by
    rw [integral_integral_swap i1]
    simp only [hN.mean, integral_zero]
  have e2 : ∫ z, ∫ x, D x z * ⟪g x, z⟫_ℝ ∂law lam p ∂N = ∫ x, D x (g x) ∂law lam p := by
    rw [integral_integral_swap i2]
    simp only [hN.cov]
  have j1 := i1.integral_prod_left
  have j2 := i2.integral_prod_left
  have j3 := i3.integral_prod_left
  have e3 : ∫ z, ∫ x, u (x + r • z) ∂law lam p ∂N - ∫ x, u x ∂law lam p - r ^ 2 * s / 2 * ∫ x, D x (g x) ∂law lam p
      = ∫ z, (∫ x, u (x + r • z) ∂law lam p - ∫ x, u x ∂law lam p - r * ∫ x, D x z ∂law lam p
        - r ^ 2 * s / 2 * ∫ x, D x z * ⟪g x, z⟫_ℝ ∂law lam p) ∂N := by
    rw [integral_four j3 j1 j2, e1, e2]
    ring
  rw [e3]
  refine abs_integral_le_integral_abs.trans ?_
  have hb : ∀ z, |∫ x, u (x + r • z) ∂law lam p - ∫ x, u x ∂law lam p - r * ∫ x, D x z ∂law lam p
        - r ^ 2 * s / 2 * ∫ x, D x z * ⟪g x, z⟫_ℝ ∂law lam p| ≤ s * A₂ * (∫ x, ‖g x‖ ∂law lam p) * (r ^ 3 * ‖z‖ ^ 3) := fun z => by
    have := h.shift hs hu hA (r • z)
    have e4 : ∫ x, D x (r • z) ∂law lam p = r * ∫ x, D x z ∂law lam p := by
      simp only [map_smul, smul_eq_mul, integral_const_mul]
    have e5 : s / 2 * ∫ x, D x (r • z) * ⟪g x, r • z⟫_ℝ ∂law lam p = r ^ 2 * s / 2 * ∫ x, D x z * ⟪g x, z⟫_ℝ ∂law lam p := by
      have : ∀ x, D x (r • z) * ⟪g x, r • z⟫_ℝ = r ^ 2 * (D x z * ⟪g x, z⟫_ℝ) := fun x => by
        rw [map_smul, smul_eq_mul, inner_smul_right]; ring
      simp only [this, integral_const_mul]
      ring
    rw [e4, e5, norm_smul, mul_pow, Real.norm_eq_abs, abs_of_nonneg hr] at this
    exact this
  refine (integral_mono_of_nonneg (.of_forall fun _ => abs_nonneg _) ((hN.third.const_mul _).const_mul _) (.of_forall hb)).trans (le_of_eq ?_)
  rw [integral_const_mul, integral_const_mul]

variable {Bt : Type*} [MeasurableSpace Bt] {ν : Measure Bt} [IsProbabilityMeasure ν] {γ : Bt → E → E}

/-- One step of the unadjusted Langevin algorithm with stochastic gradients leaves the target almost invariant. -/
theorem one_step (h : Target lam s g p) (hs : 0 ≤ s) (hN : Noise N) (hu : Smooth A₁ A₂ u D) (hA : 0 ≤ A₂)
    (hm : Measurable fun q : E × Bt => γ q.2 q.1) (hmean : ∀ x (l : E →L[ℝ] ℝ), ∫ β, l (γ β x) ∂ν = l (g x))
    (hsq : Integrable (fun q : E × Bt => ‖γ q.2 q.1‖ ^ 2) ((law lam p).prod ν)) (r t : ℝ) (hr : 0 ≤ r) (ht : t = r ^ 2 * s / 2) :
    |∫ q : (E × Bt) × E, u (q.1.1 - t • γ q.1.2 q.1.1 + r • q.2) ∂(((law lam p).prod ν).prod N) - ∫ x, u x ∂law lam p|
      ≤ A₂ * (t ^ 2 * ∫ q : E × Bt, ‖γ q.2 q.1‖ ^ 2 ∂((law lam p).prod ν)
        + t * r * ((∫ z, ‖z‖ ∂N) * ∫ q : E × Bt, ‖γ q.2 q.1‖ ∂((law lam p).prod ν))
        + s * (∫ x, ‖g x‖ ∂law lam p) * (r ^ 3 * ∫ z, ‖z‖ ^ 3 ∂N)) := by
  have := h.finite
  have := hN.prob
  have cD := hu.continuous_deriv
  have ht0 : 0 ≤ t := by rw [ht]; positivity
  set K := ((law lam p).prod ν).prod N with hK
  have hg1 : Integrable (fun q : E × Bt => ‖γ q.2 q.1‖) ((law lam p).prod ν) := sq_integrable hm.norm.aestronglyMeasurable hsq
  have iX : Integrable (fun q : E × Bt => ‖q.1‖) ((law lam p).prod ν) := h.int_norm.comp_fst ν
  have i0 : Integrable (fun q : (E × Bt) × E => u (q.1.1 - t • γ q.1.2 q.1.1 + r • q.2)) K := by
    refine (((integrable_const |u 0|).add ((iX.comp_fst N).const_mul A₁)).add
      (((hg1.comp_fst N).const_mul (A₁ * t)).add ((hN.norm.comp_snd ((law lam p).prod ν)).const_mul (A₁ * r)))).mono'
      (hu.continuous.measurable.comp ((measurable_fst.fst.sub ((hm.comp measurable_fst).const_smul t)).add
        (measurable_snd.const_smul r))).aestronglyMeasurable (.of_forall fun q => ?_)
    have h1 := hu.growth (q.1.1 - t • γ q.1.2 q.1.1 + r • q.2)
    have h2 := mul_le_mul_of_nonneg_left (norm_add_le (q.1.1 - t • γ q.1.2 q.1.1) (r • q.2)) hu.nonneg
    have h3 := mul_le_mul_of_nonneg_left (norm_sub_le q.1.1 (t • γ q.1.2 q.1.1)) hu.nonneg
    rw [norm_smul, Real.norm_eq_abs, abs_of_nonneg hr] at h2
    rw [norm_smul, Real.norm_eq_abs, abs_of_nonneg ht0] at h3
    simp only [Real.norm_eq_abs, Pi.add_apply]
    linarith
  have i1 : Integrable (fun q : (E × Bt) × E => u (q.1.1 + r • q.2)) K := by
    refine (((integrable_const |u 0|).add ((iX.comp_fst N).const_mul A₁)).add
      ((hN.norm.comp_snd ((law lam p).prod ν)).const_mul (A₁ * r))).mono'
      (hu.continuous.measurable.comp (measurable_fst.fst.add (measurable_snd.const_smul r))).aestronglyMeasurable (.of_forall fun q => ?_)
    have h1 := hu.growth (q.1.1 + r • q.2)
    have h2 := mul_le_mul_of_nonneg_left (norm_add_le q.1.1 (r • q.2)) hu.nonneg
    rw [norm_smul, Real.norm_eq_abs, abs_of_nonneg hr] at h2
    simp only [Real.norm_eq_abs, Pi.add_apply]
    linarith
  have mD : Measurable fun q : E × Bt => D q.1 (γ q.2 q.1) := by
    have : Continuous fun y : (E →L[ℝ] ℝ) × E => y.1 y.2 := isBoundedBilinearMap_apply.continuous
    exact this.measurable.comp ((cD.measurable.comp measurable_fst).prodMk hm)
  have i2 : Integrable (fun q : E × Bt => D q.1 (γ q.2 q.1)) ((law lam p).prod ν) :=
    (hg1.const_mul A₁).mono' mD.aestronglyMeasurable (.of_forall fun q => hu.apply_le _ _)
  have e1 : ∫ q : (E × Bt) × E, u (q.1.1 + r • q.2) ∂K = ∫ z, ∫ x, u (x + r • z) ∂law lam p ∂N := by
    rw [hK, integral_prod_symm _ i1]
    refine integral_congr_ae (.of_forall fun z => ?_)
    exact integral_fun_fst (fun x => u (x + r • z)) |>.trans (by simp)
  have e2 : ∫ q : (E × Bt) × E, D q.1.1 (γ q.1.2 q.1.1) ∂K = ∫ x, D x (g x) ∂law lam p := by
    rw [hK, integral_fun_fst (fun q : E × Bt => D q.1 (γ q.2 q.1)), integral_prod _ i2]
    simp [hmean]
  have hb : ∀ q : (E × Bt) × E, |u (q.1.1 - t • γ q.1.2 q.1.1 + r • q.2) - u (q.1.1 + r • q.2) + t * D q.1.1 (γ q.1.2 q.1.1)|
      ≤ A₂ * (t ^ 2 * ‖γ q.1.2 q.1.1‖ ^ 2 + t * r * (‖γ q.1.2 q.1.1‖ * ‖q.2‖)) := fun q => by
    have h1 := hu.taylor hA (q.1.1 + r • q.2) (-(t • γ q.1.2 q.1.1))
    have h2 := hu.apply_lip q.1.1 (q.1.1 + r • q.2) (t • γ q.1.2 q.1.1)
    rw [show q.1.1 + r • q.2 + -(t • γ q.1.2 q.1.1) = q.1.1 - t • γ q.1.2 q.1.1 + r • q.2 by abel, norm_neg, norm_smul, Real.norm_eq_abs,
      abs_of_nonneg ht0, map_neg] at h1
    rw [show q.1.1 - (q.1.1 + r • q.2) = -(r • q.2) by abel, norm_neg, norm_smul, norm_smul, Real.norm_eq_abs, Real.norm_eq_abs,
      abs_of_nonneg ht0, abs_of_nonneg hr] at h2
    have e : u (q.1.1 - t • γ q.1.2 q.1.1 + r • q.2) - u (q.1.1 + r • q.2) + t * D q.1.1 (γ q.1.2 q.1.1)
        = (u (q.1.1 - t • γ q.1.2 q.1.1 + r • q.2) - u (q.1.1 + r • q.2) - -(D (q.1.1 + r • q.2)) (t • γ q.1.2 q.1.1))
          + ((D q.1.1) (t • γ q.1.2 q.1.1) - (D (q.1.1 + r • q.2)) (t • γ q.1.2 q.1.1)) := by
      simp only [map_smul, smul_eq_mul]; ring
    rw [e]
    refine (abs_add_le _ _).trans ((add_le_add h1 h2).trans (le_of_eq ?_))
    ring
  have iB : Integrable (fun q : (E × Bt) × E => A₂ * (t ^ 2 * ‖γ q.1.2 q.1.1‖ ^ 2 + t * r * (‖γ q.1.2 q.1.1‖ * ‖q.2‖))) K :=
    (((hsq.comp_fst N).const_mul _).add ((hg1.mul_prod hN.norm).const_mul _)).const_mul _
  have hE : |∫ q : (E × Bt) × E, u (q.1.1 - t • γ q.1.2 q.1.1 + r • q.2) ∂K - ∫ z, ∫ x, u (x + r • z) ∂law lam p ∂N + t * ∫ x, D x (g x) ∂law lam p|
      ≤ A₂ * (t ^ 2 * ∫ q : E × Bt, ‖γ q.2 q.1‖ ^ 2 ∂((law lam p).prod ν)
        + t * r * ((∫ z, ‖z‖ ∂N) * ∫ q : E × Bt, ‖γ q.2 q.1‖ ∂((law lam p).prod ν))) := by
    rw [← e1, ← e2, ← integral_three i0 i1 (i2.comp_fst N)]
    refine abs_integral_le_integral_abs.trans ((integral_mono_of_nonneg (.of_forall fun _ => abs_nonneg _) iB (.of_forall hb)).trans (le_of_eq ?_))
    rw [integral_const_mul, integral_add ((hsq.comp_fst N).const_mul _) ((hg1.mul_prod hN.norm).const_mul _), integral_const_mul, integral_const_mul,
      integral_fun_fst (fun q : E × Bt => ‖γ q.2 q.1‖ ^ 2), integral_prod_mul (fun q : E × Bt => ‖γ q.2 q.1‖) fun z => ‖z‖, probReal_univ,
      one_smul]
    ring
  have hF := h.noise hs hN hu hA r hr
  rw [← ht] at hF
  have := abs_add_le (∫ q : (E × Bt) × E, u (q.1.1 - t • γ q.1.2 q.1.1 + r • q.2) ∂K - ∫ z, ∫ x, u (x + r • z) ∂law lam p ∂N + t * ∫ x, D x (g x) ∂law lam p)
    (∫ z, ∫ x, u (x + r • z) ∂law lam p ∂N - ∫ x, u x ∂law lam p - t * ∫ x, D x (g x) ∂law lam p)
  rw [show ∀ a b c d : ℝ, a - b + d + (b - c - d) = a - c by intros; ring] at this
  refine this.trans ((add_le_add hE hF).trans (le_of_eq ?_))
  ring

end Target
end PySGMCMC.Langevin
