import Verif.Lemmas.Langevin

/-!
# The Langevin algorithm with momentum in an inner product space

What one step of the underdamped Langevin algorithm (with stochastic gradients) does to averages over the law of a position `x` and a
momentum `v` for which `x - v / 2` has the target density and is independent of `v`.
-/

open MeasureTheory InnerProductSpace
namespace PySGMCMC.Langevin
set_option linter.unusedSectionVars false

variable {E : Type*} [NormedAddCommGroup E] [InnerProductSpace ℝ E] [FiniteDimensional ℝ E] [MeasurableSpace E] [BorelSpace E]
  {lam : Measure E} [lam.IsAddHaarMeasure] {A₁ A₂ s c : ℝ} {g : E → E} {p : E → ℝ} {M : Measure (E × E)} {u : E × E → ℝ} {D : E × E → E × E →L[ℝ] ℝ}

/-- The noise of a step: `q.1` is half the sum of the momenta before and after the step, `q.2` the momentum after the step. -/
structure PairNoise (M : Measure (E × E)) (c : ℝ) : Prop where
  prob : IsProbabilityMeasure M
  mean : ∀ y : E, ∫ q, ⟪y, q.1⟫_ℝ ∂M = 0
  self : ∀ (l : E →L[ℝ] ℝ) (y : E), ∫ q, l q.1 * ⟪y, q.1⟫_ℝ ∂M = c * l y
  cross : ∀ (l : E →L[ℝ] ℝ) (y : E), ∫ q, l q.2 * ⟪y, q.1⟫_ℝ ∂M = c * l y
  third : Integrable (fun q => ‖q‖ ^ 3) M

theorem PairNoise.low (hM : PairNoise M c) (n : Nat) (hn : n ≤ 3) : Integrable (fun z => ‖z‖ ^ n) M := by
  have := hM.prob
  refine ((integrable_const (1 : ℝ)).add hM.third).mono' (measurable_norm.pow_const n).aestronglyMeasurable (.of_forall fun z => ?_)
  have h0 := norm_nonneg z
  simp only [Pi.add_apply, norm_pow, norm_norm]
  rcases le_total ‖z‖ 1 with h1 | h1
  · linarith [pow_le_one₀ h0 h1 (n := n), pow_nonneg h0 3]
  · linarith [pow_le_pow_right₀ h1 hn]

theorem PairNoise.norm (hM : PairNoise M c) : Integrable (fun z => ‖z‖) M := by simpa using hM.low 1 (by norm_num)

theorem Smooth.slice (hu : Smooth A₁ A₂ u D) (hA : 0 ≤ A₂) (η : E) :
    Smooth A₁ A₂ (fun x => u (x, η)) fun x => (D (x, η)).comp (ContinuousLinearMap.inl ℝ E E) where
  deriv x := (hu.deriv (x, η)).comp x (hasFDerivAt_prodMk_left x η)
  bound x := by
    refine ((D (x, η)).opNorm_comp_le _).trans ?_
    refine (mul_le_mul (hu.bound _) (ContinuousLinearMap.norm_inl_le_one ℝ E E) (ContinuousLinearMap.opNorm_nonneg _) hu.nonneg).trans (le_of_eq (mul_one _))
  lip x y := by
    rw [← ContinuousLinearMap.sub_comp]
    refine (ContinuousLinearMap.opNorm_comp_le _ _).trans ?_
    have h1 := hu.lip (x, η) (y, η)
    have h2 : ‖((x, η) : E × E) - (y, η)‖ = ‖x - y‖ := by simp
    rw [h2] at h1
    refine (mul_le_mul h1 (ContinuousLinearMap.norm_inl_le_one ℝ E E) (ContinuousLinearMap.opNorm_nonneg _) (by positivity)).trans (le_of_eq (mul_one _))

namespace Target

variable (h : Target lam s g p)
include h

theorem int_pair (hu : Smooth A₁ A₂ u D) : Integrable (fun x => u (x, 0)) (law lam p) := by
  have := h.finite
  refine ((integrable_const |u 0|).add (h.int_norm.const_mul A₁)).mono'
    (hu.continuous.comp (continuous_id.prodMk continuous_const)).aestronglyMeasurable (.of_forall fun x => ?_)
  have h1 := hu.growth (x, 0)
  have h2 : ‖((x, 0) : E × E)‖ = ‖x‖ := by simp
  rw [h2] at h1
  exact h1

theorem int_pair_grad (hu : Smooth A₁ A₂ u D) (y : E) : Integrable (fun x => u (x, 0) * ⟪g x, y⟫_ℝ) (law lam p) := by
  refine (((h.int_grad.const_mul |u 0|).add (h.int_norm_grad.const_mul A₁)).mul_const ‖y‖).mono'
    ((hu.continuous.comp (continuous_id.prodMk continuous_const)).mul (h.grad.inner continuous_const)).aestronglyMeasurable (.of_forall fun x => ?_)
  have h1 := hu.growth (x, 0)
  have h2 : ‖((x, 0) : E × E)‖ = ‖x‖ := by simp
  rw [h2] at h1
  have h3 := abs_real_inner_le_norm (g x) y
  simp only [Real.norm_eq_abs, Pi.add_apply, abs_mul]
  calc |u (x, 0)| * |⟪g x, y⟫_ℝ| ≤ (|u 0| + A₁ * ‖x‖) * (‖g x‖ * ‖y‖) := by
        refine mul_le_mul h1 h3 (abs_nonneg _) ?_
        have := hu.nonneg
        positivity
    _ = _ := by ring

theorem int_pair_deriv_grad (hu : Smooth A₁ A₂ u D) (w : E × E) (y : E) :
    Integrable (fun x => D (x, 0) w * ⟪g x, y⟫_ℝ) (law lam p) := by
  refine (h.int_grad.const_mul (A₁ * ‖w‖ * ‖y‖)).mono'
    (((hu.continuous_deriv.comp (continuous_id.prodMk continuous_const)).clm_apply continuous_const).mul
      (h.grad.inner continuous_const)).aestronglyMeasurable (.of_forall fun x => ?_)
  have h3 := abs_real_inner_le_norm (g x) y
  rw [norm_mul, Real.norm_eq_abs, Real.norm_eq_abs]
  calc |D (x, 0) w| * |⟪g x, y⟫_ℝ| ≤ (A₁ * ‖w‖) * (‖g x‖ * ‖y‖) :=
        mul_le_mul (hu.apply_le _ _) h3 (abs_nonneg _) (mul_nonneg hu.nonneg (norm_nonneg _))
    _ = _ := by ring

/-- Moving the target by `q.1` in the presence of a momentum `q.2`. -/
theorem shift_pair (hs : 0 ≤ s) (hu : Smooth A₁ A₂ u D) (hA : 0 ≤ A₂) (q : E × E) :
    |∫ x, u (x + q.1, q.2) ∂law lam p - ∫ x, u (x, q.2) ∂law lam p
        - s * (∫ x, u (x, 0) * ⟪g x, q.1⟫_ℝ ∂law lam p + (∫ x, D (x, 0) (q.1, 0) * ⟪g x, q.1⟫_ℝ ∂law lam p) / 2
          + ∫ x, D (x, 0) (0, q.2) * ⟪g x, q.1⟫_ℝ ∂law lam p)|
      ≤ s * A₂ * (∫ x, ‖g x‖ ∂law lam p) * ‖q‖ ^ 3 := by
  have hf := h.finite
  obtain ⟨ξ, η⟩ := q
  set a := ∫ x, u (x, 0) * ⟪g x, ξ⟫_ℝ ∂law lam p with ha
  set b := ∫ x, D (x, 0) (ξ, 0) * ⟪g x, ξ⟫_ℝ ∂law lam p with hb
  set d := ∫ x, D (x, 0) (0, η) * ⟪g x, ξ⟫_ℝ ∂law lam p with hd
  have hsl := hu.slice hA η
  have hF : ∀ θ : ℝ, HasDerivAt (fun r : ℝ => ∫ x, u (x + r • ξ, η) ∂law lam p) (s * ∫ x, u (x + θ • ξ, η) * ⟪g x, ξ⟫_ℝ ∂law lam p) θ := fun θ => by
    have h1 := h.deriv_one hsl ξ θ
    rwa [h.by_parts_shift hsl ξ (θ • ξ)] at h1
  have hG : ∀ θ : ℝ, HasDerivAt (fun r : ℝ => ∫ x, u (x + r • ξ, η) ∂law lam p - s * (r * a + r ^ 2 / 2 * b + r * d))
      (s * ∫ x, u (x + θ • ξ, η) * ⟪g x, ξ⟫_ℝ ∂law lam p - s * (a + θ * b + d)) θ := fun θ => by
    have h2 : HasDerivAt (fun r : ℝ => s * (r * a + r ^ 2 / 2 * b + r * d)) (s * (a + θ * b + d)) θ := by
      have e1 := (hasDerivAt_id' θ).mul_const a
      have e2 := (((hasDerivAt_id' θ).pow 2).div_const 2).mul_const b
      have e3 := (hasDerivAt_id' θ).mul_const d
      refine (((e1.add e2).add e3).const_mul s).congr_deriv ?_
      simp
    exact (hF θ).sub h2
  have hbound : ∀ θ ∈ Set.Icc (0 : ℝ) 1, ‖s * ∫ x, u (x + θ • ξ, η) * ⟪g x, ξ⟫_ℝ ∂law lam p - s * (a + θ * b + d)‖
      ≤ s * A₂ * (∫ x, ‖g x‖ ∂law lam p) * ‖((ξ, η) : E × E)‖ ^ 3 := fun θ hθ => by
    have i1 := h.int_smooth_grad hsl (θ • ξ) ξ
    have i2 := h.int_pair_grad hu ξ
    have i3 := h.int_pair_deriv_grad hu (ξ, 0) ξ
    have i4 := h.int_pair_deriv_grad hu (0, η) ξ
    have e : ∫ x, u (x + θ • ξ, η) * ⟪g x, ξ⟫_ℝ ∂law lam p - (a + θ * b + d)
        = ∫ x, (u (x + θ • ξ, η) - u (x, 0) - D (x, 0) (θ • ξ, η)) * ⟪g x, ξ⟫_ℝ ∂law lam p := by
      have j3 := i3.const_mul θ
      have i23 : Integrable (fun x => u (x, 0) * ⟪g x, ξ⟫_ℝ + θ * (D (x, 0) (ξ, 0) * ⟪g x, ξ⟫_ℝ)) (law lam p) := i2.add j3
      have i234 : Integrable (fun x => u (x, 0) * ⟪g x, ξ⟫_ℝ + θ * (D (x, 0) (ξ, 0) * ⟪g x, ξ⟫_ℝ) + D (x, 0) (0, η) * ⟪g x, ξ⟫_ℝ) (law lam p) := i23.add i4
      rw [ha, hb, hd, ← integral_const_mul, ← integral_add i2 j3, ← integral_add i23 i4, ← integral_sub i1 i234]
      refine integral_congr_ae (.of_forall fun x => ?_)
      have e2 : D (x, 0) (θ • ξ, η) = θ * D (x, 0) (ξ, 0) + D (x, 0) (0, η) := by
        have : ((θ • ξ, η) : E × E) = θ • (ξ, 0) + (0, η) := by simp
        rw [this, map_add, map_smul, smul_eq_mul]
      simp only [e2]
      ring
    rw [← mul_sub, e, norm_mul, Real.norm_eq_abs, abs_of_nonneg hs, mul_assoc, mul_assoc]
    refine mul_le_mul_of_nonneg_left ?_ hs
    refine (norm_integral_le_integral_norm _).trans ?_
    calc ∫ x, ‖(u (x + θ • ξ, η) - u (x, 0) - D (x, 0) (θ • ξ, η)) * ⟪g x, ξ⟫_ℝ‖ ∂law lam p
        ≤ ∫ x, A₂ * ‖((ξ, η) : E × E)‖ ^ 3 * ‖g x‖ ∂law lam p := by
          refine integral_mono_of_nonneg (.of_forall fun _ => norm_nonneg _) (h.int_grad.const_mul _) (.of_forall fun x => ?_)
          have h1 := hu.taylor hA (x, 0) (θ • ξ, η)
          rw [show ((x, 0) : E × E) + (θ • ξ, η) = (x + θ • ξ, η) by simp] at h1
          have h2 := abs_real_inner_le_norm (g x) ξ
          have h3 : ‖((θ • ξ, η) : E × E)‖ ≤ ‖((ξ, η) : E × E)‖ := by
            rw [Prod.norm_mk, Prod.norm_mk]
            refine max_le_max ?_ le_rfl
            rw [norm_smul, Real.norm_eq_abs, abs_of_nonneg hθ.1]
            exact mul_le_of_le_one_left (norm_nonneg _) hθ.2
          have h4 : ‖ξ‖ ≤ ‖((ξ, η) : E × E)‖ := norm_fst_le (ξ, η)
          simp only [norm_mul, Real.norm_eq_abs]
          calc _ ≤ (A₂ * ‖((ξ, η) : E × E)‖ ^ 2) * (‖g x‖ * ‖((ξ, η) : E × E)‖) :=
                mul_le_mul (h1.trans (by gcongr)) (h2.trans (by gcongr)) (abs_nonneg _) (by positivity)
            _ = _ := by ring
      _ = A₂ * ((∫ x, ‖g x‖ ∂law lam p) * ‖((ξ, η) : E × E)‖ ^ 3) := by rw [integral_const_mul]; ring
  have key := (convex_Icc (0 : ℝ) 1).norm_image_sub_le_of_norm_hasDerivWithin_le (fun θ hθ => (hG θ).hasDerivWithinAt) hbound
    (Set.left_mem_Icc.2 zero_le_one) (Set.right_mem_Icc.2 zero_le_one)
  simp only [one_smul, zero_smul, add_zero, sub_zero, norm_one, mul_one, Real.norm_eq_abs] at key
  refine le_trans (le_of_eq ?_) key
  congr 1
  simp only [← hb]
  ring

/-- Moving the target by noise in the presence of a momentum. -/
theorem noise_pair (hs : 0 ≤ s) (hM : PairNoise M c) (hu : Smooth A₁ A₂ u D) (hA : 0 ≤ A₂) :
    |∫ q, ∫ x, u (x + q.1, q.2) ∂law lam p ∂M - ∫ q, ∫ x, u (x, q.2) ∂law lam p ∂M
        - s * c * ∫ x, D (x, 0) ((1 / 2 : ℝ) • g x, g x) ∂law lam p|
      ≤ s * A₂ * (∫ x, ‖g x‖ ∂law lam p) * ∫ q, ‖q‖ ^ 3 ∂M := by
  have := h.finite
  have := hM.prob
  have cD : Continuous fun x : E => D (x, 0) := hu.continuous_deriv.comp (continuous_id.prodMk continuous_const)
  have cu : Continuous fun x : E => u (x, 0) := hu.continuous.comp (continuous_id.prodMk continuous_const)
  have hA1 := hu.nonneg
  have n1 : ∀ q : E × E, ‖q.1‖ ≤ ‖q‖ := norm_fst_le
  have n2 : ∀ q : E × E, ‖q.2‖ ≤ ‖q‖ := norm_snd_le
  have i0 : Integrable (fun q : (E × E) × E => u (q.2 + q.1.1, q.1.2)) (M.prod (law lam p)) := by
    refine (((integrable_const |u 0|).add ((h.int_norm.comp_snd M).const_mul A₁)).add
      ((hM.norm.comp_fst (law lam p)).const_mul A₁)).mono'
      (hu.continuous.comp ((continuous_snd.add continuous_fst.fst).prodMk continuous_fst.snd)).aestronglyMeasurable (.of_forall fun q => ?_)
    have h1 := hu.growth (q.2 + q.1.1, q.1.2)
    have h2 : ‖((q.2 + q.1.1, q.1.2) : E × E)‖ ≤ ‖q.2‖ + ‖q.1‖ := by
      rw [Prod.norm_mk]
      exact max_le ((norm_add_le _ _).trans (by linarith [n1 q.1])) (by linarith [n2 q.1, norm_nonneg q.2])
    have h3 := mul_le_mul_of_nonneg_left h2 hA1
    simp only [Real.norm_eq_abs, Pi.add_apply]
    linarith
  have i1 : Integrable (fun q : (E × E) × E => u (q.2, q.1.2)) (M.prod (law lam p)) := by
    refine (((integrable_const |u 0|).add ((h.int_norm.comp_snd M).const_mul A₁)).add
      ((hM.norm.comp_fst (law lam p)).const_mul A₁)).mono'
      (hu.continuous.comp (continuous_snd.prodMk continuous_fst.snd)).aestronglyMeasurable (.of_forall fun q => ?_)
    have h1 := hu.growth (q.2, q.1.2)
    have h2 : ‖((q.2, q.1.2) : E × E)‖ ≤ ‖q.2‖ + ‖q.1‖ := by
      rw [Prod.norm_mk]
      exact max_le (by linarith [norm_nonneg q.1]) (by linarith [n2 q.1, norm_nonneg q.2])
    have h3 := mul_le_mul_of_nonneg_left h2 hA1
    simp only [Real.norm_eq_abs, Pi.add_apply]
    linarith
  have i2 : Integrable (fun q : (E × E) × E => u (q.2, 0) * ⟪g q.2, q.1.1⟫_ℝ) (M.prod (law lam p)) := by
    refine ((hM.norm.mul_prod ((h.int_grad.const_mul |u 0|).add (h.int_norm_grad.const_mul A₁)))).mono'
      ((cu.comp continuous_snd).mul ((h.grad.comp continuous_snd).inner continuous_fst.fst)).aestronglyMeasurable (.of_forall fun q => ?_)
    have h1 := hu.growth (q.2, 0)
    have h2 : ‖((q.2, 0) : E × E)‖ = ‖q.2‖ := by simp
    rw [h2] at h1
    have h3 := (abs_real_inner_le_norm (g q.2) q.1.1).trans (mul_le_mul_of_nonneg_left (n1 q.1) (norm_nonneg _))
    simp only [Real.norm_eq_abs, Pi.add_apply, abs_mul]
    calc |u (q.2, 0)| * |⟪g q.2, q.1.1⟫_ℝ| ≤ (|u 0| + A₁ * ‖q.2‖) * (‖g q.2‖ * ‖q.1‖) :=
          mul_le_mul h1 h3 (abs_nonneg _) (by positivity)
      _ = _ := by ring
  have key : ∀ f : E × E →L[ℝ] E × E, ‖f‖ ≤ 1 →
      Integrable (fun q : (E × E) × E => D (q.2, 0) (f q.1) * ⟪g q.2, q.1.1⟫_ℝ) (M.prod (law lam p)) := fun f hf => by
    refine (((hM.low 2 (by norm_num)).mul_prod h.int_grad).const_mul A₁).mono'
      (((cD.comp continuous_snd).clm_apply (f.continuous.comp continuous_fst)).mul
        ((h.grad.comp continuous_snd).inner continuous_fst.fst)).aestronglyMeasurable (.of_forall fun q => ?_)
    have h3 := (abs_real_inner_le_norm (g q.2) q.1.1).trans (mul_le_mul_of_nonneg_left (n1 q.1) (norm_nonneg _))
    have h4 : ‖f q.1‖ ≤ ‖q.1‖ := (f.le_opNorm q.1).trans (mul_le_of_le_one_left (norm_nonneg _) hf)
    rw [norm_mul]
    calc _ ≤ (A₁ * ‖q.1‖) * (‖g q.2‖ * ‖q.1‖) := mul_le_mul ((hu.apply_le _ _).trans (mul_le_mul_of_nonneg_left h4 hA1)) h3
          (abs_nonneg _) (by positivity)
      _ = _ := by ring
  have i3 : Integrable (fun q : (E × E) × E => D (q.2, 0) (q.1.1, 0) * ⟪g q.2, q.1.1⟫_ℝ) (M.prod (law lam p)) :=
    key ((ContinuousLinearMap.inl ℝ E E).comp (ContinuousLinearMap.fst ℝ E E)) (ContinuousLinearMap.opNorm_le_bound _ zero_le_one fun q => by
      simpa using n1 q)
  have i4 : Integrable (fun q : (E × E) × E => D (q.2, 0) (0, q.1.2) * ⟪g q.2, q.1.1⟫_ℝ) (M.prod (law lam p)) :=
    key ((ContinuousLinearMap.inr ℝ E E).comp (ContinuousLinearMap.snd ℝ E E)) (ContinuousLinearMap.opNorm_le_bound _ zero_le_one fun q => by
      simpa using n2 q)
  have e2 : ∫ q, ∫ x, u (x, 0) * ⟪g x, q.1⟫_ℝ ∂law lam p ∂M = 0 := by
    rw [integral_integral_swap i2]
    simp only [integral_const_mul, hM.mean, mul_zero, integral_zero]
  have e3 : ∫ q, ∫ x, D (x, 0) (q.1, 0) * ⟪g x, q.1⟫_ℝ ∂law lam p ∂M = c * ∫ x, D (x, 0) (g x, 0) ∂law lam p := by
    rw [integral_integral_swap i3, ← integral_const_mul]
    refine integral_congr_ae (.of_forall fun x => ?_)
    exact hM.self ((D (x, 0)).comp (ContinuousLinearMap.inl ℝ E E)) (g x)
  have e4 : ∫ q, ∫ x, D (x, 0) (0, q.2) * ⟪g x, q.1⟫_ℝ ∂law lam p ∂M = c * ∫ x, D (x, 0) (0, g x) ∂law lam p := by
    rw [integral_integral_swap i4, ← integral_const_mul]
    refine integral_congr_ae (.of_forall fun x => ?_)
    exact hM.cross ((D (x, 0)).comp (ContinuousLinearMap.inr ℝ E E)) (g x)
  have k3 : Integrable (fun x => D (x, 0) (g x, 0)) (law lam p) := by
    refine (h.int_grad.const_mul A₁).mono' (cD.clm_apply (h.grad.prodMk continuous_const)).aestronglyMeasurable (.of_forall fun x => ?_)
    refine (hu.apply_le _ _).trans (le_of_eq ?_)
    simp
  have k4 : Integrable (fun x => D (x, 0) (0, g x)) (law lam p) := by
    refine (h.int_grad.const_mul A₁).mono' (cD.clm_apply (continuous_const.prodMk h.grad)).aestronglyMeasurable (.of_forall fun x => ?_)
    refine (hu.apply_le _ _).trans (le_of_eq ?_)
    simp
  have e5 : ∫ x, D (x, 0) ((1 / 2 : ℝ) • g x, g x) ∂law lam p
      = (∫ x, D (x, 0) (g x, 0) ∂law lam p) / 2 + ∫ x, D (x, 0) (0, g x) ∂law lam p := by
    rw [div_eq_inv_mul (∫ x, D (x, 0) (g x, 0) ∂law lam p), ← integral_const_mul, ← integral_add (k3.const_mul _) k4]
    refine integral_congr_ae (.of_forall fun x => ?_)
    have : (((1 / 2 : ℝ) • g x, g x) : E × E) = (2 : ℝ)⁻¹ • (g x, 0) + (0, g x) := by simp
    simp only [this, map_add, map_smul, smul_eq_mul]
  have j0 := i0.integral_prod_left
  have j1 := i1.integral_prod_left
  have j2 := i2.integral_prod_left
  have j3 := i3.integral_prod_left
  have j4 := i4.integral_prod_left
  simp only at j0 j1 j2 j3 j4
  have j3' := j3.div_const 2
  have j23 : Integrable (fun q : E × E => ∫ x, u (x, 0) * ⟪g x, q.1⟫_ℝ ∂law lam p
      + (∫ x, D (x, 0) (q.1, 0) * ⟪g x, q.1⟫_ℝ ∂law lam p) / 2) M := j2.add j3'
  have j234 : Integrable (fun q : E × E => ∫ x, u (x, 0) * ⟪g x, q.1⟫_ℝ ∂law lam p
      + (∫ x, D (x, 0) (q.1, 0) * ⟪g x, q.1⟫_ℝ ∂law lam p) / 2 + ∫ x, D (x, 0) (0, q.2) * ⟪g x, q.1⟫_ℝ ∂law lam p) M := j23.add j4
  have j01 : Integrable (fun q : E × E => ∫ x, u (x + q.1, q.2) ∂law lam p - ∫ x, u (x, q.2) ∂law lam p) M := j0.sub j1
  have e : ∫ q, ∫ x, u (x + q.1, q.2) ∂law lam p ∂M - ∫ q, ∫ x, u (x, q.2) ∂law lam p ∂M
        - s * c * ∫ x, D (x, 0) ((1 / 2 : ℝ) • g x, g x) ∂law lam p
      = ∫ q, (∫ x, u (x + q.1, q.2) ∂law lam p - ∫ x, u (x, q.2) ∂law lam p
        - s * (∫ x, u (x, 0) * ⟪g x, q.1⟫_ℝ ∂law lam p + (∫ x, D (x, 0) (q.1, 0) * ⟪g x, q.1⟫_ℝ ∂law lam p) / 2
          + ∫ x, D (x, 0) (0, q.2) * ⟪g x, q.1⟫_ℝ ∂law lam p)) ∂M := by
    rw [integral_sub j01 (j234.const_mul s), integral_sub j0 j1, integral_const_mul, integral_add j23 j4, integral_add j2 j3', integral_div,
      e2, e3, e4, e5]
    ring
  rw [e]
  refine abs_integral_le_integral_abs.trans ((integral_mono_of_nonneg (.of_forall fun _ => abs_nonneg _) (hM.third.const_mul _)
    (.of_forall fun q => h.shift_pair hs hu hA q)).trans (le_of_eq ?_))
  rw [integral_const_mul]

variable {Bt : Type*} [MeasurableSpace Bt] {ν : Measure Bt} [IsProbabilityMeasure ν] {γ : Bt → E → E} {Λ : ℝ}

/-- One step of the underdamped Langevin algorithm with stochastic gradients leaves the law almost invariant. -/
theorem one_step_pair (hs : 0 ≤ s) {t : ℝ} (ht : 0 ≤ t) (hM : PairNoise M c) (hc : s * c = t) (hu : Smooth A₁ A₂ u D) (hA : 0 ≤ A₂)
    (hm : Measurable fun q : E × Bt => γ q.2 q.1) (hmean : ∀ x (l : E →L[ℝ] ℝ), ∫ β, l (γ β x) ∂ν = l (g x))
    (hΛ : 0 ≤ Λ) (hlip : ∀ β x y, ‖γ β x - γ β y‖ ≤ Λ * ‖x - y‖)
    (hsq : Integrable (fun q : E × Bt => ‖γ q.2 q.1‖ ^ 2) ((law lam p).prod ν)) :
    |∫ q : (E × Bt) × (E × E), u (q.1.1 + q.2.1 - (t / 2) • γ q.1.2 (q.1.1 + (q.2.1 - (1 / 2 : ℝ) • q.2.2)),
          q.2.2 - t • γ q.1.2 (q.1.1 + (q.2.1 - (1 / 2 : ℝ) • q.2.2))) ∂(((law lam p).prod ν).prod M)
        - ∫ q, ∫ x, u (x, q.2) ∂law lam p ∂M|
      ≤ A₂ * (2 * t ^ 2 * ((∫ q : E × Bt, ‖γ q.2 q.1‖ ^ 2 ∂((law lam p).prod ν)) + 4 * Λ ^ 2 * ∫ q, ‖q‖ ^ 2 ∂M)
          + t * ((∫ q : E × Bt, ‖γ q.2 q.1‖ ∂((law lam p).prod ν)) * (∫ q, ‖q‖ ∂M) + 2 * Λ * ∫ q, ‖q‖ ^ 2 ∂M)
          + s * (∫ x, ‖g x‖ ∂law lam p) * ∫ q, ‖q‖ ^ 3 ∂M)
        + A₁ * (2 * Λ * t * ∫ q, ‖q‖ ∂M) := by
  have := h.finite
  have := hM.prob
  have cD : Continuous fun x : E => D (x, 0) := hu.continuous_deriv.comp (continuous_id.prodMk continuous_const)
  have hA1 := hu.nonneg
  have n1 : ∀ q : E × E, ‖q.1‖ ≤ ‖q‖ := norm_fst_le
  have n2 : ∀ q : E × E, ‖q.2‖ ≤ ‖q‖ := norm_snd_le
  have n3 : ∀ q : E × E, ‖q.1 - (1 / 2 : ℝ) • q.2‖ ≤ 2 * ‖q‖ := fun q => by
    refine (norm_sub_le _ _).trans ?_
    rw [norm_smul, Real.norm_eq_abs, abs_of_pos (by norm_num : (0 : ℝ) < 1 / 2)]
    linarith [n1 q, n2 q, norm_nonneg q]
  set K := ((law lam p).prod ν).prod M with hK
  have hg1 : Integrable (fun q : E × Bt => ‖γ q.2 q.1‖) ((law lam p).prod ν) := sq_integrable hm.norm.aestronglyMeasurable hsq
  have iX : Integrable (fun q : E × Bt => ‖q.1‖) ((law lam p).prod ν) := h.int_norm.comp_fst ν
  -- the gradient that is used
  have hγ : ∀ q : (E × Bt) × (E × E), ‖γ q.1.2 (q.1.1 + (q.2.1 - (1 / 2 : ℝ) • q.2.2)) - γ q.1.2 q.1.1‖ ≤ 2 * Λ * ‖q.2‖ := fun q => by
    have h1 := hlip q.1.2 (q.1.1 + (q.2.1 - (1 / 2 : ℝ) • q.2.2)) q.1.1
    rw [add_sub_cancel_left] at h1
    have h2 := mul_le_mul_of_nonneg_left (n3 q.2) hΛ
    linarith
  have mγ : Measurable fun q : (E × Bt) × (E × E) => γ q.1.2 (q.1.1 + (q.2.1 - (1 / 2 : ℝ) • q.2.2)) :=
    hm.comp ((measurable_fst.fst.add (measurable_snd.fst.sub (measurable_snd.snd.const_smul _))).prodMk measurable_fst.snd)
  have hγ1 : ∀ q : (E × Bt) × (E × E), ‖γ q.1.2 (q.1.1 + (q.2.1 - (1 / 2 : ℝ) • q.2.2))‖ ≤ ‖γ q.1.2 q.1.1‖ + 2 * Λ * ‖q.2‖ := fun q => by
    have h1 := norm_sub_norm_le (γ q.1.2 (q.1.1 + (q.2.1 - (1 / 2 : ℝ) • q.2.2))) (γ q.1.2 q.1.1)
    linarith [hγ q]
  have i0 : Integrable (fun q : (E × Bt) × (E × E) => u (q.1.1 + q.2.1 - (t / 2) • γ q.1.2 (q.1.1 + (q.2.1 - (1 / 2 : ℝ) • q.2.2)),
      q.2.2 - t • γ q.1.2 (q.1.1 + (q.2.1 - (1 / 2 : ℝ) • q.2.2)))) K := by
    refine (((integrable_const |u 0|).add ((iX.comp_fst M).const_mul A₁)).add
      (((hg1.comp_fst M).const_mul (A₁ * t)).add ((hM.norm.comp_snd ((law lam p).prod ν)).const_mul (A₁ * (1 + t * (2 * Λ)))))).mono'
      (hu.continuous.measurable.comp (((measurable_fst.fst.add measurable_snd.fst).sub (mγ.const_smul _)).prodMk
        (measurable_snd.snd.sub (mγ.const_smul t)))).aestronglyMeasurable (.of_forall fun q => ?_)
    have h1 := hu.growth (q.1.1 + q.2.1 - (t / 2) • γ q.1.2 (q.1.1 + (q.2.1 - (1 / 2 : ℝ) • q.2.2)),
      q.2.2 - t • γ q.1.2 (q.1.1 + (q.2.1 - (1 / 2 : ℝ) • q.2.2)))
    have h4 := mul_le_mul_of_nonneg_left (hγ1 q) ht
    have h2 : ‖((q.1.1 + q.2.1 - (t / 2) • γ q.1.2 (q.1.1 + (q.2.1 - (1 / 2 : ℝ) • q.2.2)),
      q.2.2 - t • γ q.1.2 (q.1.1 + (q.2.1 - (1 / 2 : ℝ) • q.2.2))) : E × E)‖ ≤ ‖q.1.1‖ + ‖q.2‖ + t * (‖γ q.1.2 q.1.1‖ + 2 * Λ * ‖q.2‖) := by
      have h5 := mul_nonneg ht (norm_nonneg (γ q.1.2 (q.1.1 + (q.2.1 - (1 / 2 : ℝ) • q.2.2))))
      rw [Prod.norm_mk]
      refine max_le ((norm_sub_le _ _).trans ?_) ((norm_sub_le _ _).trans ?_)
      · rw [norm_smul, Real.norm_eq_abs, abs_of_nonneg (by positivity)]
        have := norm_add_le q.1.1 q.2.1
        linarith [n1 q.2]
      · rw [norm_smul, Real.norm_eq_abs, abs_of_nonneg ht]
        linarith [n2 q.2, norm_nonneg q.1.1]
    have h3 := mul_le_mul_of_nonneg_left h2 hA1
    simp only [Real.norm_eq_abs, Pi.add_apply]
    linarith
  have i1 : Integrable (fun q : (E × Bt) × (E × E) => u (q.1.1 + q.2.1, q.2.2)) K := by
    refine (((integrable_const |u 0|).add ((iX.comp_fst M).const_mul A₁)).add
      ((hM.norm.comp_snd ((law lam p).prod ν)).const_mul A₁)).mono'
      (hu.continuous.measurable.comp ((measurable_fst.fst.add measurable_snd.fst).prodMk measurable_snd.snd)).aestronglyMeasurable
      (.of_forall fun q => ?_)
    have h1 := hu.growth (q.1.1 + q.2.1, q.2.2)
    have h2 : ‖((q.1.1 + q.2.1, q.2.2) : E × E)‖ ≤ ‖q.1.1‖ + ‖q.2‖ := by
      rw [Prod.norm_mk]
      exact max_le ((norm_add_le _ _).trans (by linarith [n1 q.2])) (by linarith [n2 q.2, norm_nonneg q.1.1])
    have h3 := mul_le_mul_of_nonneg_left h2 hA1
    simp only [Real.norm_eq_abs, Pi.add_apply]
    linarith
  have nw : ∀ y : E, ‖(((1 / 2 : ℝ) • y, y) : E × E)‖ ≤ ‖y‖ := fun y => by
    rw [Prod.norm_mk, norm_smul, Real.norm_eq_abs, abs_of_pos (by norm_num : (0 : ℝ) < 1 / 2)]
    exact max_le (by linarith [norm_nonneg y]) le_rfl
  have mD : Measurable fun q : E × Bt => D (q.1, 0) ((1 / 2 : ℝ) • γ q.2 q.1, γ q.2 q.1) := by
    have : Continuous fun y : (E × E →L[ℝ] ℝ) × (E × E) => y.1 y.2 := isBoundedBilinearMap_apply.continuous
    exact this.measurable.comp ((cD.measurable.comp measurable_fst).prodMk ((hm.const_smul _).prodMk hm))
  have i2 : Integrable (fun q : E × Bt => D (q.1, 0) ((1 / 2 : ℝ) • γ q.2 q.1, γ q.2 q.1)) ((law lam p).prod ν) :=
    (hg1.const_mul A₁).mono' mD.aestronglyMeasurable (.of_forall fun q => (hu.apply_le _ _).trans (mul_le_mul_of_nonneg_left (nw _) hA1))
  have e1 : ∫ q : (E × Bt) × (E × E), u (q.1.1 + q.2.1, q.2.2) ∂K = ∫ q, ∫ x, u (x + q.1, q.2) ∂law lam p ∂M := by
    rw [hK, integral_prod_symm _ i1]
    refine integral_congr_ae (.of_forall fun z => ?_)
    exact integral_fun_fst (fun x => u (x + z.1, z.2)) |>.trans (by simp)
  have e2 : ∫ q : (E × Bt) × (E × E), D (q.1.1, 0) ((1 / 2 : ℝ) • γ q.1.2 q.1.1, γ q.1.2 q.1.1) ∂K
      = ∫ x, D (x, 0) ((1 / 2 : ℝ) • g x, g x) ∂law lam p := by
    rw [hK, integral_fun_fst (fun q : E × Bt => D (q.1, 0) ((1 / 2 : ℝ) • γ q.2 q.1, γ q.2 q.1)), integral_prod _ i2, probReal_univ, one_smul]
    refine integral_congr_ae (.of_forall fun x => ?_)
    exact hmean x ((D (x, 0)).comp (((1 / 2 : ℝ) • ContinuousLinearMap.id ℝ E).prod (ContinuousLinearMap.id ℝ E)))
  have hb : ∀ q : (E × Bt) × (E × E), |u (q.1.1 + q.2.1 - (t / 2) • γ q.1.2 (q.1.1 + (q.2.1 - (1 / 2 : ℝ) • q.2.2)),
        q.2.2 - t • γ q.1.2 (q.1.1 + (q.2.1 - (1 / 2 : ℝ) • q.2.2))) - u (q.1.1 + q.2.1, q.2.2)
        + t * D (q.1.1, 0) ((1 / 2 : ℝ) • γ q.1.2 q.1.1, γ q.1.2 q.1.1)|
      ≤ A₂ * (2 * t ^ 2 * (‖γ q.1.2 q.1.1‖ ^ 2 + 4 * Λ ^ 2 * ‖q.2‖ ^ 2) + t * (‖γ q.1.2 q.1.1‖ * ‖q.2‖ + 2 * Λ * ‖q.2‖ ^ 2))
        + A₁ * (2 * Λ * t * ‖q.2‖) := fun q => by
    set y := γ q.1.2 (q.1.1 + (q.2.1 - (1 / 2 : ℝ) • q.2.2)) with hy
    set y0 := γ q.1.2 q.1.1 with hy0
    have b1 := hγ1 q
    have b2 := hγ q
    rw [← hy, ← hy0] at b1 b2
    have h1 := hu.taylor hA (q.1.1 + q.2.1, q.2.2) (-(t • ((1 / 2 : ℝ) • y, y)))
    have h2 := hu.apply_lip (q.1.1, 0) (q.1.1 + q.2.1, q.2.2) (t • ((1 / 2 : ℝ) • y, y))
    have h3 := hu.apply_le (q.1.1, 0) (t • ((1 / 2 : ℝ) • (y0 - y), y0 - y))
    have nt : ∀ y : E, ‖t • (((1 / 2 : ℝ) • y, y) : E × E)‖ ≤ t * ‖y‖ := fun y => by
      rw [norm_smul, Real.norm_eq_abs, abs_of_nonneg ht]
      exact mul_le_mul_of_nonneg_left (nw y) ht
    have e0 : ((q.1.1 + q.2.1, q.2.2) : E × E) + -(t • ((1 / 2 : ℝ) • y, y)) = (q.1.1 + q.2.1 - (t / 2) • y, q.2.2 - t • y) := by
      rw [← sub_eq_add_neg, Prod.smul_mk, Prod.mk_sub_mk, smul_smul]
      congr 3
      ring
    have e3 : ((q.1.1, 0) : E × E) - (q.1.1 + q.2.1, q.2.2) = -q.2 := by
      rw [Prod.mk_sub_mk]
      ext <;> simp
    rw [e0, norm_neg, map_neg] at h1
    rw [e3, norm_neg] at h2
    have e : u (q.1.1 + q.2.1 - (t / 2) • y, q.2.2 - t • y) - u (q.1.1 + q.2.1, q.2.2) + t * D (q.1.1, 0) ((1 / 2 : ℝ) • y0, y0)
        = (u (q.1.1 + q.2.1 - (t / 2) • y, q.2.2 - t • y) - u (q.1.1 + q.2.1, q.2.2)
            - -(D (q.1.1 + q.2.1, q.2.2)) (t • ((1 / 2 : ℝ) • y, y)))
          + ((D (q.1.1, 0)) (t • ((1 / 2 : ℝ) • y, y)) - (D (q.1.1 + q.2.1, q.2.2)) (t • ((1 / 2 : ℝ) • y, y)))
          + D (q.1.1, 0) (t • ((1 / 2 : ℝ) • (y0 - y), y0 - y)) := by
      have : (((1 / 2 : ℝ) • (y0 - y), y0 - y) : E × E) = ((1 / 2 : ℝ) • y0, y0) - ((1 / 2 : ℝ) • y, y) := by
        rw [Prod.mk_sub_mk, smul_sub]
      simp only [this, map_smul, map_sub, smul_eq_mul]; ring
    rw [e]
    have f1 : A₂ * ‖t • (((1 / 2 : ℝ) • y, y) : E × E)‖ ^ 2 ≤ A₂ * (2 * t ^ 2 * (‖y0‖ ^ 2 + 4 * Λ ^ 2 * ‖q.2‖ ^ 2)) := by
      refine mul_le_mul_of_nonneg_left ?_ hA
      have g1 : ‖t • (((1 / 2 : ℝ) • y, y) : E × E)‖ ≤ t * (‖y0‖ + 2 * Λ * ‖q.2‖) := (nt y).trans (mul_le_mul_of_nonneg_left b1 ht)
      have g2 := pow_le_pow_left₀ (norm_nonneg _) g1 2
      have g3 := mul_nonneg (sq_nonneg t) (sq_nonneg (‖y0‖ - 2 * Λ * ‖q.2‖))
      nlinarith
    have f2 : A₂ * ‖q.2‖ * ‖t • (((1 / 2 : ℝ) • y, y) : E × E)‖ ≤ A₂ * (t * (‖y0‖ * ‖q.2‖ + 2 * Λ * ‖q.2‖ ^ 2)) := by
      have g1 : ‖t • (((1 / 2 : ℝ) • y, y) : E × E)‖ ≤ t * (‖y0‖ + 2 * Λ * ‖q.2‖) := (nt y).trans (mul_le_mul_of_nonneg_left b1 ht)
      calc _ ≤ A₂ * ‖q.2‖ * (t * (‖y0‖ + 2 * Λ * ‖q.2‖)) := by gcongr
        _ = _ := by ring
    have f3 : A₁ * ‖t • (((1 / 2 : ℝ) • (y0 - y), y0 - y) : E × E)‖ ≤ A₁ * (2 * Λ * t * ‖q.2‖) := by
      have g1 := (nt (y0 - y)).trans (mul_le_mul_of_nonneg_left ((norm_sub_rev _ _).le.trans b2) ht)
      calc _ ≤ A₁ * (t * (2 * Λ * ‖q.2‖)) := by gcongr
        _ = _ := by ring
    refine (abs_add_three _ _ _).trans ?_
    linarith
  have m1 := hM.norm
  have m2 := hM.low 2 (by norm_num)
  have k1 : Integrable (fun q : (E × Bt) × (E × E) => ‖γ q.1.2 q.1.1‖ ^ 2) K := hsq.comp_fst M
  have k2 : Integrable (fun q : (E × Bt) × (E × E) => ‖q.2‖ ^ 2) K := m2.comp_snd _
  have k3 : Integrable (fun q : (E × Bt) × (E × E) => ‖γ q.1.2 q.1.1‖ * ‖q.2‖) K := hg1.mul_prod m1
  have k4 : Integrable (fun q : (E × Bt) × (E × E) => ‖q.2‖) K := m1.comp_snd _
  have p1 : Integrable (fun q : (E × Bt) × (E × E) => ‖γ q.1.2 q.1.1‖ ^ 2 + 4 * Λ ^ 2 * ‖q.2‖ ^ 2) K := k1.add (k2.const_mul _)
  have p2 : Integrable (fun q : (E × Bt) × (E × E) => ‖γ q.1.2 q.1.1‖ * ‖q.2‖ + 2 * Λ * ‖q.2‖ ^ 2) K := k3.add (k2.const_mul _)
  have p3 : Integrable (fun q : (E × Bt) × (E × E) => 2 * t ^ 2 * (‖γ q.1.2 q.1.1‖ ^ 2 + 4 * Λ ^ 2 * ‖q.2‖ ^ 2)
      + t * (‖γ q.1.2 q.1.1‖ * ‖q.2‖ + 2 * Λ * ‖q.2‖ ^ 2)) K := (p1.const_mul _).add (p2.const_mul _)
  have iB : Integrable (fun q : (E × Bt) × (E × E) => A₂ * (2 * t ^ 2 * (‖γ q.1.2 q.1.1‖ ^ 2 + 4 * Λ ^ 2 * ‖q.2‖ ^ 2)
      + t * (‖γ q.1.2 q.1.1‖ * ‖q.2‖ + 2 * Λ * ‖q.2‖ ^ 2)) + A₁ * (2 * Λ * t * ‖q.2‖)) K :=
    (p3.const_mul A₂).add ((k4.const_mul (2 * Λ * t)).const_mul A₁)
  have hE : |∫ q : (E × Bt) × (E × E), u (q.1.1 + q.2.1 - (t / 2) • γ q.1.2 (q.1.1 + (q.2.1 - (1 / 2 : ℝ) • q.2.2)),
          q.2.2 - t • γ q.1.2 (q.1.1 + (q.2.1 - (1 / 2 : ℝ) • q.2.2))) ∂K
        - ∫ q, ∫ x, u (x + q.1, q.2) ∂law lam p ∂M + t * ∫ x, D (x, 0) ((1 / 2 : ℝ) • g x, g x) ∂law lam p|
      ≤ A₂ * (2 * t ^ 2 * ((∫ q : E × Bt, ‖γ q.2 q.1‖ ^ 2 ∂((law lam p).prod ν)) + 4 * Λ ^ 2 * ∫ q, ‖q‖ ^ 2 ∂M)
          + t * ((∫ q : E × Bt, ‖γ q.2 q.1‖ ∂((law lam p).prod ν)) * (∫ q, ‖q‖ ∂M) + 2 * Λ * ∫ q, ‖q‖ ^ 2 ∂M))
        + A₁ * (2 * Λ * t * ∫ q, ‖q‖ ∂M) := by
    rw [← e1, ← e2, ← integral_three i0 i1 (i2.comp_fst M)]
    refine abs_integral_le_integral_abs.trans ((integral_mono_of_nonneg (.of_forall fun _ => abs_nonneg _) iB (.of_forall hb)).trans (le_of_eq ?_))
    rw [integral_add (p3.const_mul A₂) ((k4.const_mul (2 * Λ * t)).const_mul A₁), integral_const_mul, integral_const_mul, integral_const_mul,
      integral_add (p1.const_mul _) (p2.const_mul _), integral_const_mul, integral_const_mul, integral_add k1 (k2.const_mul _),
      integral_add k3 (k2.const_mul _), integral_const_mul, integral_const_mul, integral_fun_fst (fun q : E × Bt => ‖γ q.2 q.1‖ ^ 2),
      integral_fun_snd (fun q : E × E => ‖q‖ ^ 2), integral_fun_snd (fun q : E × E => ‖q‖),
      integral_prod_mul (fun q : E × Bt => ‖γ q.2 q.1‖) fun z : E × E => ‖z‖, probReal_univ, probReal_univ]
    simp only [one_smul]
  have hF := h.noise_pair hs hM hu hA
  rw [hc] at hF
  have := abs_add_le (∫ q : (E × Bt) × (E × E), u (q.1.1 + q.2.1 - (t / 2) • γ q.1.2 (q.1.1 + (q.2.1 - (1 / 2 : ℝ) • q.2.2)),
          q.2.2 - t • γ q.1.2 (q.1.1 + (q.2.1 - (1 / 2 : ℝ) • q.2.2))) ∂K
        - ∫ q, ∫ x, u (x + q.1, q.2) ∂law lam p ∂M + t * ∫ x, D (x, 0) ((1 / 2 : ℝ) • g x, g x) ∂law lam p)
    (∫ q, ∫ x, u (x + q.1, q.2) ∂law lam p ∂M - ∫ q, ∫ x, u (x, q.2) ∂law lam p ∂M
        - t * ∫ x, D (x, 0) ((1 / 2 : ℝ) • g x, g x) ∂law lam p)
  rw [show ∀ a b c d : ℝ, a - b + d + (b - c - d) = a - c by intros; ring] at this
  refine this.trans ((add_le_add hE hF).trans (le_of_eq ?_))
  ring

end Target
end PySGMCMC.Langevin
