import Verif.Lemmas.Ergodic
import Verif.Lemmas.Contraction
import Verif.Lemmas.QuadraticMoments
import Verif.Props.Invariance

/-!
# Convergence of SGLD with fixed inverse masses

Coordinates in which it is the plain Langevin algorithm, and the convergence of that.
-/

open MeasureTheory InnerProductSpace ProbabilityTheory
namespace PySGMCMC.Langevin
open Recipe Contraction Invariance
set_option linter.unusedSectionVars false

variable {J : Type} [Fintype J] [DecidableEq J]

/-- Every coordinate divided by the square root of its inverse mass. -/
noncomputable def scaled (m : J → ℝ) (hm : ∀ j, 0 < m j) : (J → ℝ) ≃L[ℝ] EuclideanSpace ℝ J :=
  LinearEquiv.toContinuousLinearEquiv
    { toFun := fun x => WithLp.toLp 2 fun j => x j / √(m j)
      invFun := fun y j => √(m j) * y j
      map_add' := fun x y => by ext j; simp [add_div]
      map_smul' := fun c x => by ext j; simp [mul_div_assoc]
      left_inv := fun x => by
        funext j
        have := (Real.sqrt_pos.2 (hm j)).ne'
        simp only
        field_simp
      right_inv := fun y => by
        ext j
        have := (Real.sqrt_pos.2 (hm j)).ne'
        simp only
        field_simp }

variable {m : J → ℝ} {hm : ∀ j, 0 < m j} {lo hi : ℝ}

theorem scaled_apply (x : J → ℝ) (j : J) : scaled m hm x j = x j / √(m j) := rfl

theorem scaled_symm_apply (y : EuclideanSpace ℝ J) (j : J) : (scaled m hm).symm y j = √(m j) * y j := rfl

theorem scaled_sq (x : J → ℝ) : ‖scaled m hm x‖ ^ 2 = energy (fun j => 1 / m j) x := by
  rw [EuclideanSpace.norm_sq_eq]
  unfold energy
  refine Finset.sum_congr rfl fun j _ => ?_
  rw [scaled_apply, Real.norm_eq_abs, sq_abs, div_pow, Real.sq_sqrt (hm j).le]
  ring

theorem scaled_le (hlo : 0 < lo) (hl : ∀ j, lo ≤ m j) (x : J → ℝ) : ‖scaled m hm x‖ ≤ √(Fintype.card J / lo) * ‖x‖ := by
  refine le_of_sq_le_sq ?_ (by positivity)
  rw [scaled_sq, mul_pow, Real.sq_sqrt (by positivity)]
  unfold energy
  calc ∑ j, 1 / m j * x j ^ 2 ≤ ∑ _j : J, 1 / lo * ‖x‖ ^ 2 := by
        refine Finset.sum_le_sum fun j _ => ?_
        refine mul_le_mul (one_div_le_one_div_of_le hlo (hl j)) ?_ (sq_nonneg _) (by positivity)
        rw [← sq_abs]
        exact pow_le_pow_left₀ (abs_nonneg _) (norm_le_pi_norm x j) 2
    _ = _ := by rw [Finset.sum_const, nsmul_eq_mul, Finset.card_univ]; ring

theorem scaled_mul_le (hh : ∀ j, m j ≤ hi) (x : J → ℝ) : ‖scaled m hm (m * x)‖ ≤ √(hi * Fintype.card J) * ‖x‖ := by
  by_cases hJ : Nonempty J
  · obtain ⟨j0⟩ := hJ
    have hhi : 0 ≤ hi := (hm j0).le.trans (hh j0)
    refine le_of_sq_le_sq ?_ (by positivity)
    rw [scaled_sq, mul_pow, Real.sq_sqrt (by positivity)]
    unfold energy
    calc ∑ j, 1 / m j * (m * x) j ^ 2 ≤ ∑ _j : J, hi * ‖x‖ ^ 2 := by
          refine Finset.sum_le_sum fun j _ => ?_
          have h1 : 1 / m j * (m * x) j ^ 2 = m j * x j ^ 2 := by
            have := (hm j).ne'
            rw [Pi.mul_apply]
            field_simp
          rw [h1]
          refine mul_le_mul (hh j) ?_ (sq_nonneg _) hhi
          rw [← sq_abs]
          exact pow_le_pow_left₀ (abs_nonneg _) (norm_le_pi_norm x j) 2
      _ = _ := by rw [Finset.sum_const, nsmul_eq_mul, Finset.card_univ]; ring
  · have : IsEmpty J := not_nonempty_iff.1 hJ
    have : scaled m hm (m * x) = 0 := by ext j; exact this.elim j
    rw [this, norm_zero]
    positivity

theorem scaled_symm_le (hh : ∀ j, m j ≤ hi) (y : EuclideanSpace ℝ J) : ‖(scaled m hm).symm y‖ ≤ √hi * ‖y‖ := by
  refine (pi_norm_le_iff_of_nonneg (by positivity)).2 fun j => ?_
  rw [scaled_symm_apply, norm_mul, Real.norm_eq_abs, abs_of_nonneg (Real.sqrt_nonneg _)]
  exact mul_le_mul (Real.sqrt_le_sqrt (hh j)) (PiLp.norm_apply_le y j) (norm_nonneg _) (Real.sqrt_nonneg _)

/-- Densities in the new coordinates. -/
theorem law_scaled (T : (J → ℝ) ≃L[ℝ] EuclideanSpace ℝ J) (H : (J → ℝ) → ℝ) (hH : Continuous H) :
    law (volume.map T) (fun y => Real.exp (-H (T.symm y))) = (boltz H).map T := by
  unfold law boltz
  ext S hS
  have mT : Measurable T := T.continuous.measurable
  have mf : Measurable fun y => ENNReal.ofReal (Real.exp (-H (T.symm y))) :=
    (Real.continuous_exp.comp (hH.comp T.symm.continuous).neg).measurable.ennreal_ofReal
  rw [withDensity_apply _ hS, Measure.map_apply mT hS, withDensity_apply _ (mT hS), setLIntegral_map hS mf mT]
  simp

/-- Euclidean noise. -/
theorem noise_scaled {N : Measure (J → ℝ)} (hN : UnitNoise N) :
    Noise (N.map (WithLp.toLp 2 : (J → ℝ) → EuclideanSpace ℝ J)) := by
  have := hN.prob
  have hc : Continuous (WithLp.toLp 2 : (J → ℝ) → EuclideanSpace ℝ J) := (EuclideanSpace.equiv J ℝ).symm.continuous
  have hk := hN.kick 1
  have hl : ∀ (l : EuclideanSpace ℝ J →L[ℝ] ℝ) (z : J → ℝ), l (WithLp.toLp 2 z) = ∑ j, z j * l (EuclideanSpace.single j 1) := by
    intro l z
    have : (WithLp.toLp 2 z : EuclideanSpace ℝ J) = ∑ j, z j • EuclideanSpace.single j (1 : ℝ) := by
      ext k
      simp [Finset.sum_apply, Pi.single_apply]
    rw [this, map_sum]
    simp only [map_smul, smul_eq_mul]
  refine ⟨Measure.isProbabilityMeasure_map hc.measurable.aemeasurable, fun l => ?_, fun l v => ?_, ?_⟩
  · rw [integral_map hc.measurable.aemeasurable l.continuous.aestronglyMeasurable]
    rw [show (fun z : J → ℝ => l (WithLp.toLp 2 z)) = fun z => ∑ j, z j * l (EuclideanSpace.single j 1) from funext (hl l),
      integral_finsetSum _ fun j _ => ?_]
    · simp [integral_mul_const, hN.mean]
    · have := hk.int1 j
      simp only [one_mul] at this
      exact this.mul_const _
  · have hc2 : Continuous fun z : EuclideanSpace ℝ J => l z * ⟪v, z⟫_ℝ := l.continuous.mul (continuous_const.inner continuous_id)
    rw [integral_map hc.measurable.aemeasurable hc2.aestronglyMeasurable]
    have e : ∀ z : J → ℝ, l (WithLp.toLp 2 z) * ⟪v, (WithLp.toLp 2 z : EuclideanSpace ℝ J)⟫_ℝ
        = ∑ j, ∑ k, (z j * z k) * (l (EuclideanSpace.single j 1) * v k) := fun z => by
      rw [hl, PiLp.inner_apply, Finset.sum_mul_sum]
      refine Finset.sum_congr rfl fun j _ => Finset.sum_congr rfl fun k _ => ?_
      simp
      ring
    simp only [e]
    have hi2 : ∀ j k, Integrable (fun z : J → ℝ => z j * z k) N := fun j k => by simpa using hk.int2 j k
    rw [integral_finsetSum _ fun j _ => integrable_finsetSum _ fun k _ => (hi2 j k).mul_const _]
    have e2 : ∀ j, ∫ z : J → ℝ, ∑ k, (z j * z k) * (l (EuclideanSpace.single j 1) * v k) ∂N = v j * l (EuclideanSpace.single j 1) := fun j => by
      rw [integral_finsetSum _ fun k _ => (hi2 j k).mul_const _]
      simp only [integral_mul_const, hN.cov, ite_mul, one_mul, zero_mul, Finset.sum_ite_eq, Finset.mem_univ, if_true]
      ring
    simp only [e2]
    exact (hl l (fun j => v j)).symm
  · have hc3 : Continuous fun z : EuclideanSpace ℝ J => ‖z‖ ^ 3 := continuous_norm.pow 3
    rw [integrable_map_measure hc3.aestronglyMeasurable hc.measurable.aemeasurable]
    refine (hN.third.const_mul (√(Fintype.card J) ^ 3)).mono' ((hc.norm.pow 3).aestronglyMeasurable) (.of_forall fun z => ?_)
    have h1 : ‖(WithLp.toLp 2 z : EuclideanSpace ℝ J)‖ ≤ √(Fintype.card J) * ‖z‖ := by
      refine le_of_sq_le_sq ?_ (by positivity)
      rw [EuclideanSpace.norm_sq_eq, mul_pow, Real.sq_sqrt (by positivity)]
      calc ∑ j, ‖(WithLp.toLp 2 z : EuclideanSpace ℝ J) j‖ ^ 2 ≤ ∑ _j : J, ‖z‖ ^ 2 :=
            Finset.sum_le_sum fun j _ => pow_le_pow_left₀ (norm_nonneg _) (norm_le_pi_norm z j) 2
        _ = _ := by rw [Finset.sum_const, nsmul_eq_mul, Finset.card_univ]
    simp only [Function.comp, norm_pow, norm_norm]
    rw [← mul_pow]
    exact pow_le_pow_left₀ (norm_nonneg _) h1 3

/-! ## The cost -/

variable {Bt : Type} [MeasurableSpace Bt]

/-- Minibatch gradients `γ β` that are right on average and come from `μ`-strongly convex, `L`-smooth costs with `L₂`-Lipschitz second
derivatives. -/
structure ConvexBatches (ν : Measure Bt) (U : (J → ℝ) → ℝ) (γ : Bt → (J → ℝ) → J → ℝ) (μ L L₂ Λ : ℝ) : Prop where
  batch : BatchGrad ν U γ Λ
  smooth : ContDiff ℝ 1 U
  pos : 0 < μ
  le : μ ≤ L
  pulls : ∀ β x y, μ * ∑ j, (x j - y j) ^ 2 ≤ ∑ j, (x j - y j) * (γ β x j - γ β y j)
  cocoercive : ∀ β x y, ∑ j, (γ β x j - γ β y j) ^ 2 ≤ L * ∑ j, (x j - y j) * (γ β x j - γ β y j)
  diff : ∀ β, Differentiable ℝ (γ β)
  lip2 : ∀ β x y, ‖fderiv ℝ (γ β) x - fderiv ℝ (γ β) y‖ ≤ L₂ * ‖x - y‖
  nonneg : 0 ≤ L₂
  sq : Integrable (fun β => ‖γ β 0‖ ^ 2) ν

variable {ν : Measure Bt} [IsProbabilityMeasure ν] {U : (J → ℝ) → ℝ} {γ : Bt → (J → ℝ) → J → ℝ} {μ L L₂ Λ : ℝ}

/-- The gradient of the cost. -/
noncomputable def gradU (U : (J → ℝ) → ℝ) (x : J → ℝ) : J → ℝ := fun j => partialD U j x

namespace ConvexBatches

theorem grad_lip (h : ConvexBatches ν U γ μ L L₂ Λ) (x y : J → ℝ) : ‖gradU U x - gradU U y‖ ≤ Λ * ‖x - y‖ := by
  have hΛ := h.batch.nonneg
  refine (pi_norm_le_iff_of_nonneg (by positivity)).2 fun j => ?_
  simp only [gradU, Pi.sub_apply]
  rw [← h.batch.mean, ← h.batch.mean, ← integral_sub (h.batch.int x j) (h.batch.int y j)]
  refine (norm_integral_le_of_norm_le_const (C := Λ * ‖x - y‖) (.of_forall fun β => ?_)).trans (le_of_eq (by rw [probReal_univ, mul_one]))
  exact (norm_le_pi_norm (γ β x - γ β y) j).trans (h.batch.lip β x y)

theorem grad_pulls (h : ConvexBatches ν U γ μ L L₂ Λ) (x y : J → ℝ) :
    μ * ∑ j, (x j - y j) ^ 2 ≤ ∑ j, (x j - y j) * (gradU U x j - gradU U y j) := by
  have e : ∑ j, (x j - y j) * (gradU U x j - gradU U y j) = ∫ β, ∑ j, (x j - y j) * (γ β x j - γ β y j) ∂ν := by
    have hi : ∀ j, Integrable (fun β => (x j - y j) * (γ β x j - γ β y j)) ν := fun j =>
      ((h.batch.int x j).sub (h.batch.int y j)).const_mul (x j - y j)
    rw [integral_finsetSum _ fun j _ => hi j]
    refine Finset.sum_congr rfl fun j _ => ?_
    rw [integral_const_mul, integral_sub (h.batch.int x j) (h.batch.int y j), h.batch.mean, h.batch.mean]
    rfl
  rw [e]
  have hi : Integrable (fun β => ∑ j, (x j - y j) * (γ β x j - γ β y j)) ν :=
    integrable_finsetSum _ fun j _ => ((h.batch.int x j).sub (h.batch.int y j)).const_mul (x j - y j)
  have := integral_mono (integrable_const (μ * ∑ j, (x j - y j) ^ 2)) hi fun β => h.pulls β x y
  simpa using this

/-- The cost grows quadratically. -/
theorem grows (h : ConvexBatches ν U γ μ L L₂ Λ) : ∃ d, ∀ x, μ / 4 * ∑ j, x j ^ 2 - d ≤ U x := by
  have hμ := h.pos
  refine ⟨(∑ j, gradU U 0 j ^ 2) / μ - U 0, fun x => ?_⟩
  have hd : ∀ t : ℝ, HasDerivAt (fun q : ℝ => U (q • x)) (∑ j, x j * gradU U (t • x) j) t := fun t => by
    have h1 : HasDerivAt (fun q : ℝ => q • x) x t := by simpa using (hasDerivAt_id' t).smul_const x
    have h2 := ((h.smooth.differentiable (by norm_num)) (t • x)).hasFDerivAt.comp_hasDerivAt t h1
    rw [Recipe.fderiv_sum] at h2
    exact h2
  -- along the ray the derivative grows at least linearly
  have hge : ∀ t : ℝ, 0 ≤ t → ∑ j, x j * gradU U 0 j + μ * t * ∑ j, x j ^ 2 ≤ ∑ j, x j * gradU U (t • x) j := fun t ht => by
    rcases ht.eq_or_lt with rfl | ht
    · simp
    have h1 := h.grad_pulls (t • x) 0
    simp only [Pi.smul_apply, smul_eq_mul, Pi.zero_apply, sub_zero] at h1
    have e1 : μ * ∑ j, (t * x j) ^ 2 = t * (μ * t * ∑ j, x j ^ 2) := by
      simp only [mul_pow, ← Finset.mul_sum]; ring
    have e2 : ∑ j, t * x j * (gradU U (t • x) j - gradU U 0 j) = t * (∑ j, x j * gradU U (t • x) j - ∑ j, x j * gradU U 0 j) := by
      rw [← Finset.sum_sub_distrib, Finset.mul_sum]
      exact Finset.sum_congr rfl fun j _ => by ring
    rw [e1, e2] at h1
    linarith [le_of_mul_le_mul_left h1 ht]
  set a := ∑ j, x j * gradU U 0 j with ha
  set S := ∑ j, x j ^ 2 with hS
  have hmono : MonotoneOn (fun q : ℝ => U (q • x) - (a * q + μ * S / 2 * q ^ 2)) (Set.Icc 0 1) := by
    have hd2 : ∀ t : ℝ, HasDerivAt (fun q : ℝ => U (q • x) - (a * q + μ * S / 2 * q ^ 2))
        (∑ j, x j * gradU U (t • x) j - (a + μ * S * t)) t := fun t => by
      refine ((hd t).sub (((hasDerivAt_id' t).const_mul a).add (((hasDerivAt_id' t).pow 2).const_mul (μ * S / 2)))).congr_deriv ?_
      simp
      ring
    refine monotoneOn_of_deriv_nonneg (convex_Icc 0 1) (fun t _ => (hd2 t).continuousAt.continuousWithinAt)
      (fun t _ => (hd2 t).differentiableAt.differentiableWithinAt) fun t ht => ?_
    rw [interior_Icc] at ht
    rw [(hd2 t).deriv]
    have := hge t ht.1.le
    linarith
  have h01 := hmono (Set.left_mem_Icc.2 zero_le_one) (Set.right_mem_Icc.2 zero_le_one) zero_le_one
  simp only [zero_smul, one_smul, mul_zero, mul_one, one_pow, ne_eq, OfNat.ofNat_ne_zero, not_false_eq_true, zero_pow, add_zero, sub_zero] at h01
  have hcs : -(μ / 4 * S) - (∑ j, gradU U 0 j ^ 2) / μ ≤ a := by
    rw [ha, hS, Finset.sum_div, Finset.mul_sum, ← Finset.sum_neg_distrib, ← Finset.sum_sub_distrib]
    refine Finset.sum_le_sum fun j _ => ?_
    have : x j * gradU U 0 j + μ / 4 * x j ^ 2 + gradU U 0 j ^ 2 / μ = (μ * x j / 2 + gradU U 0 j) ^ 2 / μ := by
      field_simp
      ring
    have h2 : 0 ≤ (μ * x j / 2 + gradU U 0 j) ^ 2 / μ := by positivity
    linarith
  linarith

/-! ## A step in the new coordinates -/

/-- Multiplication with the inverse masses, in the new coordinates. -/
noncomputable def massL (m : J → ℝ) (hm : ∀ j, 0 < m j) : (J → ℝ) →L[ℝ] EuclideanSpace ℝ J :=
  (scaled m hm : (J → ℝ) →L[ℝ] EuclideanSpace ℝ J).comp (ContinuousLinearMap.mul ℝ (J → ℝ) m)

theorem massL_apply (x : J → ℝ) : massL m hm x = scaled m hm (m * x) := rfl

theorem massL_norm (hh : ∀ j, m j ≤ hi) : ‖massL m hm‖ ≤ √(hi * Fintype.card J) :=
  ContinuousLinearMap.opNorm_le_bound _ (Real.sqrt_nonneg _) fun x => scaled_mul_le (hm := hm) hh x

theorem symm_norm (hh : ∀ j, m j ≤ hi) : ‖((scaled m hm).symm : EuclideanSpace ℝ J →L[ℝ] J → ℝ)‖ ≤ √hi :=
  ContinuousLinearMap.opNorm_le_bound _ (Real.sqrt_nonneg _) fun x => scaled_symm_le hh x

/-- The gradient in the new coordinates. -/
noncomputable def driftE (m : J → ℝ) (hm : ∀ j, 0 < m j) (γ : Bt → (J → ℝ) → J → ℝ) (β : Bt) (y : EuclideanSpace ℝ J) : EuclideanSpace ℝ J :=
  massL m hm (γ β ((scaled m hm).symm y))

/-- The step. -/
noncomputable def stepE (m : J → ℝ) (hm : ∀ j, 0 < m j) (γ : Bt → (J → ℝ) → J → ℝ) (t r : ℝ) (y : EuclideanSpace ℝ J)
    (ζ : Bt × EuclideanSpace ℝ J) : EuclideanSpace ℝ J := y - t • driftE m hm γ ζ.1 y + r • ζ.2

/-- Its derivative. -/
noncomputable def stepD (m : J → ℝ) (hm : ∀ j, 0 < m j) (γ : Bt → (J → ℝ) → J → ℝ) (t : ℝ) (y : EuclideanSpace ℝ J)
    (ζ : Bt × EuclideanSpace ℝ J) : EuclideanSpace ℝ J →L[ℝ] EuclideanSpace ℝ J :=
  ContinuousLinearMap.id ℝ _ - t • ((massL m hm).comp (fderiv ℝ (γ ζ.1) ((scaled m hm).symm y))).comp
    ((scaled m hm).symm : EuclideanSpace ℝ J →L[ℝ] J → ℝ)

variable {t r s : ℝ} {N : Measure (EuclideanSpace ℝ J)}

theorem driftE_measurable (h : ConvexBatches ν U γ μ L L₂ Λ) : Measurable fun q : EuclideanSpace ℝ J × Bt => driftE m hm γ q.2 q.1 :=
  (massL m hm).continuous.measurable.comp
    (h.batch.meas.comp (((scaled m hm).symm.continuous.measurable.comp measurable_fst).prodMk measurable_snd))

theorem stepE_measurable (h : ConvexBatches ν U γ μ L L₂ Λ) :
    Measurable fun q : EuclideanSpace ℝ J × (Bt × EuclideanSpace ℝ J) => stepE m hm γ t r q.1 q.2 :=
  (measurable_fst.sub (((driftE_measurable h).comp (measurable_fst.prodMk measurable_snd.fst)).const_smul t)).add
    (measurable_snd.snd.const_smul r)

theorem stepE_deriv (h : ConvexBatches ν U γ μ L L₂ Λ) (y : EuclideanSpace ℝ J) (ζ : Bt × EuclideanSpace ℝ J) :
    HasFDerivAt (fun y => stepE m hm γ t r y ζ) (stepD m hm γ t y ζ) y := by
  have h1 : HasFDerivAt (fun y => driftE m hm γ ζ.1 y) (((massL m hm).comp (fderiv ℝ (γ ζ.1) ((scaled m hm).symm y))).comp
      ((scaled m hm).symm : EuclideanSpace ℝ J →L[ℝ] J → ℝ)) y :=
    ((massL m hm).hasFDerivAt.comp _ (h.diff ζ.1 _).hasFDerivAt).comp y (scaled m hm).symm.hasFDerivAt
  exact ((hasFDerivAt_id y).sub (h1.const_smul t)).add_const _

theorem stepE_near (h : ConvexBatches ν U γ μ L L₂ Λ) (hlo : 0 < lo) (hlh : ∀ j, lo ≤ m j ∧ m j ≤ hi) (ht : 0 ≤ t) (hL : t * hi * L ≤ 1)
    (x y : EuclideanSpace ℝ J) (ζ : Bt × EuclideanSpace ℝ J) :
    ‖stepE m hm γ t r x ζ - stepE m hm γ t r y ζ‖ ≤ √(1 - t * μ * lo) * ‖x - y‖ := by
  set T := scaled m hm with hT
  have h1 := gradient_step (Δ := fun j => T.symm x j - T.symm y j) (δ := fun j => γ ζ.1 (T.symm x) j - γ ζ.1 (T.symm y) j) hlo hlh
    h.pos.le ht (h.pulls ζ.1 (T.symm x) (T.symm y)) (h.cocoercive ζ.1 (T.symm x) (T.symm y)) hL
  rw [← scaled_sq (hm := hm), ← scaled_sq (hm := hm)] at h1
  have e1 : scaled m hm (fun j => T.symm x j - T.symm y j - t * m j * (γ ζ.1 (T.symm x) j - γ ζ.1 (T.symm y) j))
      = stepE m hm γ t r x ζ - stepE m hm γ t r y ζ := by
    have : (fun j => T.symm x j - T.symm y j - t * m j * (γ ζ.1 (T.symm x) j - γ ζ.1 (T.symm y) j))
        = (T.symm x - t • (m * γ ζ.1 (T.symm x))) - (T.symm y - t • (m * γ ζ.1 (T.symm y))) := by
      funext j
      simp only [Pi.sub_apply, Pi.smul_apply, Pi.mul_apply, smul_eq_mul]
      ring
    rw [this, ← hT, map_sub, map_sub, map_sub, map_smul, map_smul, T.apply_symm_apply, T.apply_symm_apply]
    unfold stepE driftE
    rw [massL_apply, massL_apply]
    abel
  have e2 : scaled m hm (fun j => T.symm x j - T.symm y j) = x - y := by
    have : (fun j => T.symm x j - T.symm y j) = T.symm x - T.symm y := rfl
    rw [this, ← hT, map_sub, T.apply_symm_apply, T.apply_symm_apply]
  rw [e1, e2] at h1
  calc ‖stepE m hm γ t r x ζ - stepE m hm γ t r y ζ‖ = √(‖stepE m hm γ t r x ζ - stepE m hm γ t r y ζ‖ ^ 2) := by
        rw [Real.sqrt_sq (norm_nonneg _)]
    _ ≤ √((1 - t * μ * lo) * ‖x - y‖ ^ 2) := Real.sqrt_le_sqrt h1
    _ = _ := by rw [Real.sqrt_mul' _ (sq_nonneg _), Real.sqrt_sq (norm_nonneg _)]

theorem sq_nu (h : ConvexBatches ν U γ μ L L₂ Λ) : Integrable (fun β => ‖γ β 0‖) ν :=
  sq_integrable (h.batch.meas.comp (measurable_const.prodMk measurable_id)).norm.aestronglyMeasurable h.sq

theorem stepE_step (h : ConvexBatches ν U γ μ L L₂ Λ) (hN : Noise N) (hlo : 0 < lo) (hlh : ∀ j, lo ≤ m j ∧ m j ≤ hi) (hhi : 0 ≤ hi) (ht : 0 ≤ t)
    (hL : t * hi * L ≤ 1) :
    Step (ν.prod N) (stepE m hm γ t r) (stepD m hm γ t) (√(1 - t * μ * lo)) (t * (√(hi * Fintype.card J) * (L₂ * hi))) where
  deriv := stepE_deriv h
  contr x ζ := (stepE_deriv (r := r) h x ζ).le_of_lip' (Real.sqrt_nonneg _)
    (.of_forall fun y => stepE_near h hlo hlh ht hL y x ζ)
  lip x y ζ := by
    have e : stepD m hm γ t x ζ - stepD m hm γ t y ζ = -(t • ((massL m hm).comp (fderiv ℝ (γ ζ.1) ((scaled m hm).symm x)
        - fderiv ℝ (γ ζ.1) ((scaled m hm).symm y))).comp ((scaled m hm).symm : EuclideanSpace ℝ J →L[ℝ] J → ℝ)) := by
      unfold stepD
      ext v : 1
      simp
      module
    rw [e, norm_neg, norm_smul, Real.norm_eq_abs, abs_of_nonneg ht, mul_assoc]
    refine mul_le_mul_of_nonneg_left ?_ ht
    have hh := fun j => (hlh j).2
    have h2 := h.lip2 ζ.1 ((scaled m hm).symm x) ((scaled m hm).symm y)
    have h3 : ‖(scaled m hm).symm x - (scaled m hm).symm y‖ ≤ √hi * ‖x - y‖ := by
      rw [← map_sub]; exact scaled_symm_le hh _
    have hL2 := h.nonneg
    calc _ ≤ ‖massL m hm‖ * ‖fderiv ℝ (γ ζ.1) ((scaled m hm).symm x) - fderiv ℝ (γ ζ.1) ((scaled m hm).symm y)‖
          * ‖((scaled m hm).symm : EuclideanSpace ℝ J →L[ℝ] J → ℝ)‖ :=
          (ContinuousLinearMap.opNorm_comp_le _ _).trans
            (mul_le_mul_of_nonneg_right (ContinuousLinearMap.opNorm_comp_le _ _) (norm_nonneg _))
      _ ≤ √(hi * Fintype.card J) * (L₂ * (√hi * ‖x - y‖)) * √hi := by
          gcongr
          · exact massL_norm hh
          · exact h2.trans (mul_le_mul_of_nonneg_left h3 hL2)
          · exact symm_norm hh
      _ = √(hi * Fintype.card J) * (L₂ * (√hi * √hi)) * ‖x - y‖ := by ring
      _ = _ := by rw [Real.mul_self_sqrt hhi]
  nonneg := by
    have := h.nonneg
    positivity
  meas := stepE_measurable h
  measD x v := by
    refine measurable_of_tendsto_metrizable (f := fun (n : Nat) ζ => ((n : ℝ) + 1) • (stepE m hm γ t r (x + ((n : ℝ) + 1)⁻¹ • v) ζ
      - stepE m hm γ t r x ζ)) (fun n => ?_) ?_
    · have hx : ∀ x, Measurable (stepE m hm γ t r x) := fun x => (stepE_measurable h).comp (measurable_const.prodMk measurable_id)
      exact ((hx _).sub (hx _)).const_smul ((n : ℝ) + 1)
    · rw [tendsto_pi_nhds]
      intro ζ
      refine (stepE_deriv (r := r) h x ζ).lim v ?_
      have : Filter.Tendsto (fun n : Nat => (n : ℝ) + 1) Filter.atTop Filter.atTop :=
        Filter.tendsto_atTop_add_const_right _ _ tendsto_natCast_atTop_atTop
      exact tendsto_norm_atTop_atTop.comp this
  int := by
    have := hN.prob
    refine ((((sq_nu h).const_mul (t * √(hi * Fintype.card J))).comp_fst N).add ((hN.norm.const_mul |r|).comp_snd ν)).mono'
      ((stepE_measurable h).comp (measurable_const.prodMk measurable_id)).norm.aestronglyMeasurable (.of_forall fun ζ => ?_)
    simp only [norm_norm, Pi.add_apply]
    unfold stepE driftE
    rw [map_zero, zero_sub]
    refine (norm_add_le _ _).trans (add_le_add ?_ (by rw [norm_smul, Real.norm_eq_abs]))
    rw [norm_neg, norm_smul, Real.norm_eq_abs, abs_of_nonneg ht, mul_assoc, massL_apply]
    exact mul_le_mul_of_nonneg_left (scaled_mul_le (fun j => (hlh j).2) _) ht

/-! ## The posterior in the new coordinates -/

theorem gradU_continuous (h : ConvexBatches ν U γ μ L L₂ Λ) : Continuous (gradU U) :=
  (LipschitzWith.of_dist_le_mul (K := ⟨Λ, h.batch.nonneg⟩) fun x y => by
    rw [dist_eq_norm, dist_eq_norm]; exact h.grad_lip x y).continuous

theorem gradU_growth (h : ConvexBatches ν U γ μ L L₂ Λ) (x : J → ℝ) : ‖gradU U x‖ ^ 2 ≤ 2 * Λ ^ 2 * ‖x‖ ^ 2 + 2 * ‖gradU U 0‖ ^ 2 := by
  have h1 := h.grad_lip x 0
  rw [sub_zero] at h1
  have h2 := norm_sub_norm_le (gradU U x) (gradU U 0)
  have h3 : ‖gradU U x‖ ≤ Λ * ‖x‖ + ‖gradU U 0‖ := by linarith
  have := pow_le_pow_left₀ (norm_nonneg _) h3 2
  nlinarith [sq_nonneg (Λ * ‖x‖ - ‖gradU U 0‖)]

theorem gamma_growth (h : ConvexBatches ν U γ μ L L₂ Λ) (β : Bt) (x : J → ℝ) : ‖γ β x‖ ^ 2 ≤ 2 * Λ ^ 2 * ‖x‖ ^ 2 + 2 * ‖γ β 0‖ ^ 2 := by
  have h1 := h.batch.lip β x 0
  rw [sub_zero] at h1
  have h2 := norm_sub_norm_le (γ β x) (γ β 0)
  have h3 : ‖γ β x‖ ≤ Λ * ‖x‖ + ‖γ β 0‖ := by linarith
  have := pow_le_pow_left₀ (norm_nonneg _) h3 2
  nlinarith [sq_nonneg (Λ * ‖x‖ - ‖γ β 0‖)]

theorem moments (h : ConvexBatches ν U γ μ L L₂ Λ) (hs : 0 < s) (c : ℝ) :
    IsFiniteMeasure (boltz fun x => s * U x + c) ∧ ∀ n : Nat, Integrable (fun x : J → ℝ => ‖x‖ ^ n) (boltz fun x => s * U x + c) := by
  obtain ⟨d, hd⟩ := h.grows
  have hμ := h.pos
  refine quadratic_boltz (((h.smooth.continuous.const_smul s).add continuous_const).measurable) (s * (μ / 4)) (s * d - c) (by positivity) fun x => ?_
  have := mul_le_mul_of_nonneg_left (hd x) hs.le
  linarith

/-- The posterior can be normalized. -/
theorem normalized (h : ConvexBatches ν U γ μ L L₂ Λ) (hs : 0 < s) : ∃ c, IsProbabilityMeasure (boltz fun x => s * U x + c) := by
  have := (h.moments hs 0).1
  have hc : Continuous fun x => s * U x + 0 := (h.smooth.continuous.const_smul s).add continuous_const
  have me : Measurable fun x => ENNReal.ofReal (Real.exp (-(fun x => s * U x + 0) x)) :=
    (Real.continuous_exp.comp hc.neg).measurable.ennreal_ofReal
  have h0 : boltz (fun x => s * U x + 0) ≠ 0 := by
    intro h0
    unfold boltz at h0
    rw [withDensity_eq_zero_iff me.aemeasurable] at h0
    have h1 := h0.exists
    obtain ⟨x, hx⟩ := h1
    simp only [Pi.zero_apply, ENNReal.ofReal_eq_zero] at hx
    exact absurd hx (not_le.2 (Real.exp_pos _))
  set Z := (boltz (fun x => s * U x + 0)).real Set.univ with hZ
  have hZp : 0 < Z := by
    rw [hZ, measureReal_def, ENNReal.toReal_pos_iff]
    exact ⟨Measure.measure_univ_pos.2 h0, measure_lt_top _ _⟩
  refine ⟨Real.log Z, ⟨?_⟩⟩
  have e : boltz (fun x => s * U x + Real.log Z) = ENNReal.ofReal Z⁻¹ • boltz (fun x => s * U x + 0) := by
    unfold boltz
    rw [← withDensity_smul _ me]
    congr 1
    funext x
    rw [Pi.smul_apply, smul_eq_mul, ← ENNReal.ofReal_mul (inv_pos.2 hZp).le]
    congr 1
    beta_reduce
    rw [add_zero, neg_add, Real.exp_add, Real.exp_neg (Real.log Z), Real.exp_log hZp, mul_comm]
  rw [e, Measure.smul_apply, smul_eq_mul, ← ENNReal.ofReal_toReal (measure_ne_top (boltz fun x => s * U x + 0) Set.univ), ← measureReal_def, ← hZ,
    ← ENNReal.ofReal_mul (inv_pos.2 hZp).le, inv_mul_cancel₀ hZp.ne', ENNReal.ofReal_one]

/-- The gradient of the full cost in the new coordinates. -/
noncomputable def gradE (m : J → ℝ) (hm : ∀ j, 0 < m j) (U : (J → ℝ) → ℝ) (y : EuclideanSpace ℝ J) : EuclideanSpace ℝ J :=
  massL m hm (gradU U ((scaled m hm).symm y))

/-- The density in the new coordinates. -/
noncomputable def densE (m : J → ℝ) (hm : ∀ j, 0 < m j) (U : (J → ℝ) → ℝ) (s c : ℝ) (y : EuclideanSpace ℝ J) : ℝ :=
  Real.exp (-(s * U ((scaled m hm).symm y) + c))

theorem law_eq (h : ConvexBatches ν U γ μ L L₂ Λ) (c : ℝ) :
    law (volume.map (scaled m hm)) (densE m hm U s c) = (boltz fun x => s * U x + c).map (scaled m hm) :=
  law_scaled (scaled m hm) (fun x => s * U x + c) ((h.smooth.continuous.const_smul s).add continuous_const)

theorem target (h : ConvexBatches ν U γ μ L L₂ Λ) (hs : 0 < s) {c : ℝ} (hp : IsProbabilityMeasure (boltz fun x => s * U x + c))
    (hlo : 0 < lo) (hlh : ∀ j, lo ≤ m j ∧ m j ≤ hi) :
    Target (volume.map (scaled m hm)) s (gradE m hm U) (densE m hm U s c) := by
  have mT : Measurable (scaled m hm) := (scaled m hm).continuous.measurable
  have hg : Continuous (gradE m hm U) := (massL m hm).continuous.comp (h.gradU_continuous.comp (scaled m hm).symm.continuous)
  have hM := (h.moments hs c).2 2
  have hc2 : Continuous fun y : EuclideanSpace ℝ J => ‖y‖ ^ 2 := continuous_norm.pow 2
  have hg2 : Continuous fun y => ‖gradE m hm U y‖ ^ 2 := hg.norm.pow 2
  refine ⟨fun x => (Real.exp_pos _).le, fun y => ?_, hg, ?_, ?_, ?_⟩
  · have h1 : HasFDerivAt (fun y => U ((scaled m hm).symm y)) ((fderiv ℝ U ((scaled m hm).symm y)).comp
        ((scaled m hm).symm : EuclideanSpace ℝ J →L[ℝ] J → ℝ)) y :=
      (h.smooth.differentiable (by norm_num) _).hasFDerivAt.comp y (scaled m hm).symm.hasFDerivAt
    refine (((h1.const_mul s).add_const c).neg.exp).congr_fderiv ?_
    ext v
    have e : fderiv ℝ U ((scaled m hm).symm y) ((scaled m hm).symm v) = ⟪gradE m hm U y, v⟫_ℝ := by
      rw [Recipe.fderiv_sum, PiLp.inner_apply]
      refine Finset.sum_congr rfl fun j _ => ?_
      unfold gradE
      rw [massL_apply, scaled_apply, scaled_symm_apply, Pi.mul_apply]
      simp only [gradU, RCLike.inner_apply, conj_trivial]
      have h2 : m j = √(m j) * √(m j) := (Real.mul_self_sqrt (hm j).le).symm
      have h3 := (Real.sqrt_pos.2 (hm j)).ne'
      field_simp
      rw [Real.sq_sqrt (hm j).le]
      ring
    simp only [smul_apply, neg_apply, ContinuousLinearMap.comp_apply, smul_eq_mul, innerSL_apply_apply, ContinuousLinearEquiv.coe_coe, e]
    unfold densE
    simp only [Pi.neg_apply]
    ring
  · rw [show (volume.map (scaled m hm)).withDensity (fun x => ENNReal.ofReal (densE m hm U s c x))
      = law (volume.map (scaled m hm)) (densE m hm U s c) from rfl, h.law_eq]
    exact Measure.isProbabilityMeasure_map mT.aemeasurable
  · rw [show (volume.map (scaled m hm)).withDensity (fun x => ENNReal.ofReal (densE m hm U s c x))
      = law (volume.map (scaled m hm)) (densE m hm U s c) from rfl, h.law_eq,
      integrable_map_measure hc2.aestronglyMeasurable mT.aemeasurable]
    refine (hM.const_mul (√(Fintype.card J / lo) ^ 2)).mono' (((scaled m hm).continuous.norm.pow 2).aestronglyMeasurable) (.of_forall fun x => ?_)
    simp only [Function.comp, norm_pow, norm_norm]
    rw [← mul_pow]
    exact pow_le_pow_left₀ (norm_nonneg _) (scaled_le hlo (fun j => (hlh j).1) x) 2
  · rw [show (volume.map (scaled m hm)).withDensity (fun x => ENNReal.ofReal (densE m hm U s c x))
      = law (volume.map (scaled m hm)) (densE m hm U s c) from rfl, h.law_eq,
      integrable_map_measure hg2.aestronglyMeasurable mT.aemeasurable]
    refine (((hM.const_mul (2 * Λ ^ 2)).add (integrable_const (2 * ‖gradU U 0‖ ^ 2))).const_mul (√(hi * Fintype.card J) ^ 2)).mono'
      ((hg.comp (scaled m hm).continuous).norm.pow 2).aestronglyMeasurable (.of_forall fun x => ?_)
    simp only [Function.comp, norm_pow, norm_norm, Pi.add_apply]
    refine le_trans ?_ (mul_le_mul_of_nonneg_left (h.gradU_growth x) (by positivity))
    rw [← mul_pow]
    refine pow_le_pow_left₀ (norm_nonneg _) ?_ 2
    unfold gradE
    rw [ContinuousLinearEquiv.symm_apply_apply]
    exact scaled_mul_le (hm := hm) (fun j => (hlh j).2) _

theorem drift_mean (h : ConvexBatches ν U γ μ L L₂ Λ) (y : EuclideanSpace ℝ J) (l : EuclideanSpace ℝ J →L[ℝ] ℝ) :
    ∫ β, l (driftE m hm γ β y) ∂ν = l (gradE m hm U y) := by
  have e : ∀ x : J → ℝ, l (massL m hm x) = ∑ j, x j * l (massL m hm fun k => if j = k then 1 else 0) := fun x => by
    have := LinearMap.pi_apply_eq_sum_univ ((l.comp (massL m hm) : (J → ℝ) →L[ℝ] ℝ) : (J → ℝ) →ₗ[ℝ] ℝ) x
    simpa using this
  unfold driftE gradE
  rw [show (fun β => l (massL m hm (γ β ((scaled m hm).symm y)))) = fun β => ∑ j, γ β ((scaled m hm).symm y) j
      * l (massL m hm fun k => if j = k then 1 else 0) from funext fun β => e _, e (gradU U ((scaled m hm).symm y)),
    integral_finsetSum _ fun j _ => (h.batch.int _ j).mul_const _]
  refine Finset.sum_congr rfl fun j _ => ?_
  rw [integral_mul_const, h.batch.mean]
  rfl

/-- How large the gradients are on average. -/
noncomputable def sizeG (ν : Measure Bt) (γ : Bt → (J → ℝ) → J → ℝ) (U : (J → ℝ) → ℝ) (s c Λ hi : ℝ) : ℝ :=
  hi * Fintype.card J * (2 * Λ ^ 2 * (∫ x : J → ℝ, ‖x‖ ^ 2 ∂boltz fun x => s * U x + c) + 2 * (∫ β, ‖γ β 0‖ ^ 2 ∂ν) + 2 * ‖gradU U 0‖ ^ 2)

theorem drift_sq (h : ConvexBatches ν U γ μ L L₂ Λ) (hs : 0 < s) {c : ℝ} (hp : IsProbabilityMeasure (boltz fun x => s * U x + c))
    (hhi : 0 ≤ hi) (hh : ∀ j, m j ≤ hi) :
    Integrable (fun q : EuclideanSpace ℝ J × Bt => ‖driftE m hm γ q.2 q.1‖ ^ 2) ((law (volume.map (scaled m hm)) (densE m hm U s c)).prod ν)
      ∧ ∫ q : EuclideanSpace ℝ J × Bt, ‖driftE m hm γ q.2 q.1‖ ^ 2 ∂((law (volume.map (scaled m hm)) (densE m hm U s c)).prod ν)
        ≤ sizeG ν γ U s c Λ hi
      ∧ ∫ y, ‖gradE m hm U y‖ ^ 2 ∂law (volume.map (scaled m hm)) (densE m hm U s c) ≤ sizeG ν γ U s c Λ hi := by
  have mT : Measurable (scaled m hm) := (scaled m hm).continuous.measurable
  have hM := (h.moments hs c).2 2
  have hg : Continuous (gradE m hm U) := (massL m hm).continuous.comp (h.gradU_continuous.comp (scaled m hm).symm.continuous)
  have hΛ := h.batch.nonneg
  rw [h.law_eq]
  set π := boltz fun x => s * U x + c with hπ
  set T := scaled m hm with hT
  have : IsProbabilityMeasure (π.map T) := Measure.isProbabilityMeasure_map mT.aemeasurable
  have hsq : √(hi * Fintype.card J) ^ 2 = hi * Fintype.card J := Real.sq_sqrt (by positivity)
  have hc2 : Continuous fun y : EuclideanSpace ℝ J => ‖T.symm y‖ ^ 2 := T.symm.continuous.norm.pow 2
  have iX : Integrable (fun y : EuclideanSpace ℝ J => ‖T.symm y‖ ^ 2) (π.map T) := by
    rw [integrable_map_measure hc2.aestronglyMeasurable mT.aemeasurable]
    refine hM.congr (.of_forall fun x => ?_)
    simp
  have eX : ∫ y : EuclideanSpace ℝ J, ‖T.symm y‖ ^ 2 ∂(π.map T) = ∫ x, ‖x‖ ^ 2 ∂π := by
    rw [integral_map mT.aemeasurable hc2.aestronglyMeasurable]
    simp
  have iB : Integrable (fun q : EuclideanSpace ℝ J × Bt => hi * Fintype.card J * (2 * Λ ^ 2 * ‖T.symm q.1‖ ^ 2 + 2 * ‖γ q.2 0‖ ^ 2)) ((π.map T).prod ν) :=
    (((iX.comp_fst ν).const_mul _).add ((h.sq.comp_snd (π.map T)).const_mul 2)).const_mul _
  have hb : ∀ q : EuclideanSpace ℝ J × Bt, ‖driftE m hm γ q.2 q.1‖ ^ 2
      ≤ hi * Fintype.card J * (2 * Λ ^ 2 * ‖T.symm q.1‖ ^ 2 + 2 * ‖γ q.2 0‖ ^ 2) := fun q => by
    refine le_trans ?_ (mul_le_mul_of_nonneg_left (h.gamma_growth q.2 (T.symm q.1)) (by positivity))
    rw [← hsq, ← mul_pow]
    exact pow_le_pow_left₀ (norm_nonneg _) (scaled_mul_le (hm := hm) hh _) 2
  have iD : Integrable (fun q : EuclideanSpace ℝ J × Bt => ‖driftE m hm γ q.2 q.1‖ ^ 2) ((π.map T).prod ν) := by
    refine iB.mono' ((driftE_measurable h).norm.pow_const 2).aestronglyMeasurable (.of_forall fun q => ?_)
    rw [Real.norm_eq_abs, abs_of_nonneg (sq_nonneg _)]
    exact hb q
  refine ⟨iD, (integral_mono iD iB hb).trans ?_, ?_⟩
  · rw [integral_const_mul, integral_add ((iX.comp_fst ν).const_mul _) ((h.sq.comp_snd (π.map T)).const_mul 2), integral_const_mul,
      integral_const_mul, integral_fun_fst (fun y => ‖T.symm y‖ ^ 2), integral_fun_snd (fun β => ‖γ β 0‖ ^ 2)]
    simp only [probReal_univ, one_smul, eX]
    unfold sizeG
    refine mul_le_mul_of_nonneg_left ?_ (by positivity)
    have : 0 ≤ 2 * ‖gradU U 0‖ ^ 2 := by positivity
    linarith
  · have iG : Integrable (fun y => hi * Fintype.card J * (2 * Λ ^ 2 * ‖T.symm y‖ ^ 2 + 2 * ‖gradU U 0‖ ^ 2)) (π.map T) :=
      ((iX.const_mul _).add (integrable_const _)).const_mul _
    have hb2 : ∀ y, ‖gradE m hm U y‖ ^ 2 ≤ hi * Fintype.card J * (2 * Λ ^ 2 * ‖T.symm y‖ ^ 2 + 2 * ‖gradU U 0‖ ^ 2) := fun y => by
      refine le_trans ?_ (mul_le_mul_of_nonneg_left (h.gradU_growth (T.symm y)) (by positivity))
      rw [← hsq, ← mul_pow]
      exact pow_le_pow_left₀ (norm_nonneg _) (scaled_mul_le (hm := hm) hh _) 2
    have iE : Integrable (fun y => ‖gradE m hm U y‖ ^ 2) (π.map T) := by
      refine iG.mono' (hg.norm.pow 2).aestronglyMeasurable (.of_forall fun y => ?_)
      rw [Real.norm_eq_abs, abs_of_nonneg (sq_nonneg _)]
      exact hb2 y
    refine (integral_mono iE iG hb2).trans ?_
    rw [integral_const_mul, integral_add (iX.const_mul _) (integrable_const _), integral_const_mul, eX, integral_const]
    simp only [probReal_univ, one_smul]
    unfold sizeG
    refine mul_le_mul_of_nonneg_left ?_ (by positivity)
    have : 0 ≤ ∫ β, ‖γ β 0‖ ^ 2 ∂ν := integral_nonneg fun β => sq_nonneg _
    linarith

/-! ## The chain -/

/-- How far the posterior is from being invariant under a step. -/
theorem nearly_invariant (h : ConvexBatches ν U γ μ L L₂ Λ) (hN : Noise N) (hs : 0 < s) {c : ℝ}
    (hp : IsProbabilityMeasure (boltz fun x => s * U x + c)) (hlo : 0 < lo) (hlh : ∀ j, lo ≤ m j ∧ m j ≤ hi) (hhi : 0 ≤ hi) (ht : 0 ≤ t)
    (hL : t * hi * L ≤ 1) {A₁ A₂ : ℝ} {u : EuclideanSpace ℝ J → ℝ} {D : EuclideanSpace ℝ J → EuclideanSpace ℝ J →L[ℝ] ℝ}
    (hu : Smooth A₁ A₂ u D) (hA : 0 ≤ A₂) :
    |∫ y, push (ν.prod N) (stepE m hm γ t √(2 * t / s)) u y ∂law (volume.map (scaled m hm)) (densE m hm U s c)
        - ∫ y, u y ∂law (volume.map (scaled m hm)) (densE m hm U s c)|
      ≤ A₂ * (t * (t * sizeG ν γ U s c Λ hi + √(2 * t / s) * ((1 + sizeG ν γ U s c Λ hi) * ((∫ z, ‖z‖ ∂N) + 2 * ∫ z, ‖z‖ ^ 3 ∂N)))) := by
  have hT := h.target (hm := hm) hs hp hlo hlh
  have : IsProbabilityMeasure (law (volume.map (scaled m hm)) (densE m hm U s c)) := hT.prob
  have := hN.prob
  have hstep := h.stepE_step (hm := hm) (r := √(2 * t / s)) hN hlo hlh hhi ht hL
  obtain ⟨hsq, hG, hg⟩ := h.drift_sq (hm := hm) hs hp hhi fun j => (hlh j).2
  have : (volume.map (scaled m hm) : Measure (EuclideanSpace ℝ J)).IsAddHaarMeasure := ContinuousLinearEquiv.isAddHaarMeasure_map _ _
  set π := law (volume.map (scaled m hm)) (densE m hm U s c) with hπ
  set G := sizeG ν γ U s c Λ hi
  set r := √(2 * t / s) with hr
  have hr2 : r ^ 2 = 2 * t / s := Real.sq_sqrt (by positivity)
  have hr0 : 0 ≤ r := Real.sqrt_nonneg _
  have h1 := hT.one_step hs.le hN hu hA h.driftE_measurable h.drift_mean hsq r t hr0 (by rw [hr2]; field_simp)
  have hint : Integrable (fun q : EuclideanSpace ℝ J × (Bt × EuclideanSpace ℝ J) => u (stepE m hm γ t r q.1 q.2)) (π.prod (ν.prod N)) := by
    refine ((integrable_const |u 0|).add ((((hT.int_norm.const_mul √(1 - t * μ * lo)).comp_fst (ν.prod N)).add
      (hstep.int.comp_snd π)).const_mul A₁)).mono' (hu.continuous.measurable.comp h.stepE_measurable).aestronglyMeasurable (.of_forall fun q => ?_)
    have h3 := hu.growth (stepE m hm γ t r q.1 q.2)
    have h4 := mul_le_mul_of_nonneg_left (hstep.growth q.1 q.2) hu.nonneg
    simp only [Real.norm_eq_abs, Pi.add_apply]
    linarith
  have e1 : ∫ y, push (ν.prod N) (stepE m hm γ t r) u y ∂π
      = ∫ q : (EuclideanSpace ℝ J × Bt) × EuclideanSpace ℝ J, u (q.1.1 - t • driftE m hm γ q.1.2 q.1.1 + r • q.2) ∂((π.prod ν).prod N) := by
    have h5 := (measurePreserving_prodAssoc π ν N).integral_comp' (fun q => u (stepE m hm γ t r q.1 q.2))
    rw [integral_prod _ hint] at h5
    exact h5.symm
  rw [e1]
  refine h1.trans (mul_le_mul_of_nonneg_left ?_ hA)
  have le1 : ∀ x : ℝ, x ≤ 1 + x ^ 2 := fun x => by nlinarith [sq_nonneg (x - 1)]
  have hG1 : ∫ q : EuclideanSpace ℝ J × Bt, ‖driftE m hm γ q.2 q.1‖ ∂(π.prod ν) ≤ 1 + G := by
    have := integral_mono (sq_integrable h.driftE_measurable.norm.aestronglyMeasurable hsq) ((integrable_const (1 : ℝ)).add hsq)
      fun q => le1 ‖driftE m hm γ q.2 q.1‖
    refine this.trans ?_
    rw [integral_add' (integrable_const (1 : ℝ)) hsq, integral_const, probReal_univ, one_smul]
    linarith
  have hg1 : ∫ y, ‖gradE m hm U y‖ ∂π ≤ 1 + G := by
    have hq : Integrable (fun y => ‖gradE m hm U y‖ ^ 2) π := hT.gradSq
    have := integral_mono (sq_integrable hT.grad.norm.aestronglyMeasurable hq) ((integrable_const (1 : ℝ)).add hq)
      fun q => le1 ‖gradE m hm U q‖
    refine this.trans ?_
    rw [integral_add' (integrable_const (1 : ℝ)) hq, integral_const, probReal_univ, one_smul]
    linarith
  have hZ1 : 0 ≤ ∫ z, ‖z‖ ∂N := integral_nonneg fun z => norm_nonneg _
  have hZ3 : 0 ≤ ∫ z, ‖z‖ ^ 3 ∂N := integral_nonneg fun z => by positivity
  have h6 : s * r ^ 3 = 2 * t * r := by
    rw [pow_succ, hr2]; field_simp
  calc t ^ 2 * (∫ q : EuclideanSpace ℝ J × Bt, ‖driftE m hm γ q.2 q.1‖ ^ 2 ∂(π.prod ν))
        + t * r * ((∫ z, ‖z‖ ∂N) * ∫ q : EuclideanSpace ℝ J × Bt, ‖driftE m hm γ q.2 q.1‖ ∂(π.prod ν))
        + s * (∫ y, ‖gradE m hm U y‖ ∂π) * (r ^ 3 * ∫ z, ‖z‖ ^ 3 ∂N)
      ≤ t ^ 2 * G + t * r * ((∫ z, ‖z‖ ∂N) * (1 + G)) + s * (1 + G) * (r ^ 3 * ∫ z, ‖z‖ ^ 3 ∂N) := by gcongr
    _ = t ^ 2 * G + t * r * ((∫ z, ‖z‖ ∂N) * (1 + G)) + (s * r ^ 3) * ((1 + G) * ∫ z, ‖z‖ ^ 3 ∂N) := by ring
    _ = _ := by rw [h6]; ring

theorem smooth_symm (hh : ∀ j, m j ≤ hi) (hhi : 0 ≤ hi) {A₁ A₂ : ℝ} (hA : 0 ≤ A₂) {f : (J → ℝ) → ℝ} {D : (J → ℝ) → (J → ℝ) →L[ℝ] ℝ} (hf : Smooth A₁ A₂ f D) :
    Smooth (√hi * A₁) (hi * A₂) (fun y => f ((scaled m hm).symm y))
      (fun y => (D ((scaled m hm).symm y)).comp ((scaled m hm).symm : EuclideanSpace ℝ J →L[ℝ] J → ℝ)) where
  deriv y := (hf.deriv _).comp y (scaled m hm).symm.hasFDerivAt
  bound y := by
    refine (ContinuousLinearMap.opNorm_comp_le _ _).trans ?_
    rw [mul_comm]
    exact mul_le_mul (symm_norm hh) (hf.bound _) (norm_nonneg _) (Real.sqrt_nonneg _)
  lip x y := by
    rw [← ContinuousLinearMap.sub_comp]
    refine (ContinuousLinearMap.opNorm_comp_le _ _).trans ?_
    have h1 : ‖(scaled m hm).symm x - (scaled m hm).symm y‖ ≤ √hi * ‖x - y‖ := by
      rw [← map_sub]; exact scaled_symm_le hh _
    calc _ ≤ (A₂ * (√hi * ‖x - y‖)) * √hi :=
          mul_le_mul ((hf.lip _ _).trans (mul_le_mul_of_nonneg_left h1 hA)) (symm_norm hh) (norm_nonneg _) (by positivity)
      _ = (√hi * √hi) * A₂ * ‖x - y‖ := by ring
      _ = _ := by rw [Real.mul_self_sqrt hhi]

/-- **Convergence** of the chain to the posterior, up to an error of order `√t`. -/
theorem converges (h : ConvexBatches ν U γ μ L L₂ Λ) {N : Measure (J → ℝ)} (hN : UnitNoise N) (hs : 0 < s) {c : ℝ}
    (hp : IsProbabilityMeasure (boltz fun x => s * U x + c)) (hlo : 0 < lo) (hlohi : lo ≤ hi) :
    ∃ K, 0 ≤ K ∧ ∀ {Ω : Type} [MeasurableSpace Ω] (P : Measure Ω) [IsProbabilityMeasure P] (m : J → ℝ) (t : ℝ) (β : Nat → Ω → Bt) (z : Nat → Ω → J → ℝ) (X : Nat → Ω → J → ℝ)
      (x₀ : J → ℝ), (∀ j, lo ≤ m j ∧ m j ≤ hi) → 0 < t → t * hi * L ≤ 1 → (∀ k, Measurable (β k)) → (∀ k, Measurable (z k)) →
      iIndepFun (fun k ω => (β k ω, z k ω)) P → (∀ k, P.map (fun ω => (β k ω, z k ω)) = ν.prod N) → (∀ ω, X 0 ω = x₀) →
      (∀ k ω j, X (k + 1) ω j = X k ω j - t * m j * γ (β k ω) (X k ω) j + √(2 * t * m j / s) * z k ω j) →
      ∀ {A₁ A₂ : ℝ} {f : (J → ℝ) → ℝ} {D : (J → ℝ) → (J → ℝ) →L[ℝ] ℝ}, Smooth A₁ A₂ f D → 0 ≤ A₂ → ∀ k,
        Integrable (fun ω => f (X k ω)) P
        ∧ |∫ ω, f (X k ω) ∂P - ∫ x, f x ∂boltz fun x => s * U x + c|
          ≤ √(hi * Fintype.card J / lo) * A₁ * (√(1 - t * μ * lo)) ^ k * (∫ y, ‖x₀ - y‖ ∂boltz fun x => s * U x + c) + K * √t * (A₁ + A₂) := by
  have hhi : 0 < hi := hlo.trans_le hlohi
  have hμ := h.pos
  have hLp : 0 < L := hμ.trans_le h.le
  have hL2 := h.nonneg
  have := hN.prob
  set N' := N.map (WithLp.toLp 2 : (J → ℝ) → EuclideanSpace ℝ J) with hN'
  have hNE : Noise N' := noise_scaled hN
  set G := sizeG ν γ U s c Λ hi with hGdef
  have hG : 0 ≤ G := by
    rw [hGdef]
    unfold sizeG
    have : 0 ≤ ∫ β, ‖γ β 0‖ ^ 2 ∂ν := integral_nonneg fun β => sq_nonneg _
    have : 0 ≤ ∫ x : J → ℝ, ‖x‖ ^ 2 ∂boltz fun x => s * U x + c := integral_nonneg fun β => sq_nonneg _
    positivity
  set Z := (1 + G) * ((∫ z, ‖z‖ ∂N') + 2 * ∫ z, ‖z‖ ^ 3 ∂N') with hZdef
  have hZ : 0 ≤ Z := by
    have : 0 ≤ ∫ z, ‖z‖ ∂N' := integral_nonneg fun z => norm_nonneg _
    have : 0 ≤ ∫ z, ‖z‖ ^ 3 ∂N' := integral_nonneg fun z => by positivity
    positivity
  set C := G * √(1 / (hi * L)) + √(2 / s) * Z with hC
  have hC0 : 0 ≤ C := by positivity
  set Q := √(hi * Fintype.card J) * (L₂ * hi) * (2 / (μ * lo)) with hQ
  have hQ0 : 0 ≤ Q := by positivity
  refine ⟨2 * C / (μ * lo) * (hi + Q * √hi), by positivity, ?_⟩
  intro Ω _ P _ m t β z X x₀ hlh ht hL hβ hz hind hlaw hX0 hX A₁ A₂ f D hf hA k
  have hm : ∀ j, 0 < m j := fun j => hlo.trans_le (hlh j).1
  have hA1 := hf.nonneg
  set T := scaled m hm with hT
  have mT : Measurable T := T.continuous.measurable
  set r := √(2 * t / s) with hr
  set ρ := √(1 - t * μ * lo) with hρ
  have ha1 : t * μ * lo ≤ 1 := by
    refine le_trans ?_ hL
    calc t * μ * lo = t * (lo * μ) := by ring
      _ ≤ t * (hi * L) := mul_le_mul_of_nonneg_left (mul_le_mul hlohi h.le hμ.le hhi.le) ht.le
      _ = t * hi * L := by ring
  have hρ1 : t * μ * lo / 2 ≤ 1 - ρ := by
    have : ρ ≤ 1 - t * μ * lo / 2 := Real.sqrt_le_iff.2 ⟨by linarith, by nlinarith [sq_nonneg (t * μ * lo)]⟩
    linarith
  have hapos : 0 < t * μ * lo := by positivity
  have hstep := h.stepE_step (hm := hm) (r := r) hNE hlo hlh hhi.le ht.le hL
  have hTar := h.target (hm := hm) hs hp hlo hlh
  have hpE : IsProbabilityMeasure (law (volume.map (scaled m hm)) (densE m hm U s c)) := hTar.prob
  have hsm := smooth_symm (m := m) (hm := hm) (fun j => (hlh j).2) hhi.le hA hf
  -- the chain in the new coordinates
  have hmtoLp : Measurable (WithLp.toLp 2 : (J → ℝ) → EuclideanSpace ℝ J) := ((EuclideanSpace.equiv J ℝ).symm.continuous).measurable
  have hpr := hNE.prob
  have hch := hstep.chain (P := P) (ζ := fun k ω => (β k ω, (WithLp.toLp 2 (z k ω) : EuclideanSpace ℝ J)))
    (fun k => (hβ k).prodMk (hmtoLp.comp (hz k)))
    (hind.comp (fun _ q => (q.1, (WithLp.toLp 2 q.2 : EuclideanSpace ℝ J))) fun _ => measurable_fst.prodMk (hmtoLp.comp measurable_snd))
    (fun k => by
      have e : (fun ω => (β k ω, (WithLp.toLp 2 (z k ω) : EuclideanSpace ℝ J)))
          = Prod.map id (WithLp.toLp 2 : (J → ℝ) → EuclideanSpace ℝ J) ∘ fun ω => (β k ω, z k ω) := rfl
      rw [e, ← Measure.map_map (measurable_id.prodMap hmtoLp) ((hβ k).prodMk (hz k)), hlaw k, ← Measure.map_prod_map _ _ measurable_id hmtoLp,
        Measure.map_id])
    (X := fun k ω => T (X k ω)) (x₀ := T x₀) (fun ω => by rw [hX0]) (fun k ω => by
      unfold stepE driftE
      rw [massL_apply, ← hT, T.symm_apply_apply]
      ext j
      have e1 := scaled_apply (hm := hm) (X (k + 1) ω) j
      have hsq := (Real.sqrt_pos.2 (hm j)).ne'
      simp only [PiLp.add_apply, PiLp.sub_apply, PiLp.smul_apply, smul_eq_mul, hT, scaled_apply, Pi.mul_apply]
      rw [hX, show 2 * t * m j / s = 2 * t / s * m j by ring, Real.sqrt_mul (by positivity), hr]
      field_simp) k
  have hE := hch.2.2 hsm (by positivity)
  simp only [hT, ContinuousLinearEquiv.symm_apply_apply] at hE
  have hcl := hstep.close (by linarith) hsm (by positivity) hTar.int_norm le_rfl
    (c₂ := t * (t * G + r * Z)) (by positivity) (fun {B₁ B₂ u D} hu hB => by
      have := h.nearly_invariant (hm := hm) hNE hs hp hlo hlh hhi.le ht.le hL hu hB
      rw [zero_mul, zero_add, mul_comm]
      exact this) k (T x₀)
  rw [← hE] at hcl
  have cf : Continuous fun y => f ((scaled m hm).symm y) := hsm.continuous
  have eπ : ∫ y, f ((scaled m hm).symm y) ∂law (volume.map (scaled m hm)) (densE m hm U s c) = ∫ x, f x ∂boltz fun x => s * U x + c := by
    rw [h.law_eq, integral_map mT.aemeasurable cf.aestronglyMeasurable, ← hT]
    simp only [T.symm_apply_apply]
  rw [eπ] at hcl
  have hi1 : Integrable (fun x : J → ℝ => ‖x‖) (boltz fun x => s * U x + c) := by simpa using (h.moments hs c).2 1
  have hiy : Integrable (fun y => ‖x₀ - y‖) (boltz fun x => s * U x + c) := ((integrable_const x₀).sub
    ((integrable_norm_iff (f := fun y : J → ℝ => y) continuous_id.aestronglyMeasurable).1 hi1)).norm
  have ed : ∫ y, ‖T x₀ - y‖ ∂law (volume.map (scaled m hm)) (densE m hm U s c)
      ≤ √(Fintype.card J / lo) * ∫ y, ‖x₀ - y‖ ∂boltz fun x => s * U x + c := by
    have hc : Continuous fun y : EuclideanSpace ℝ J => ‖T x₀ - y‖ := (continuous_const.sub continuous_id).norm
    rw [h.law_eq, integral_map mT.aemeasurable hc.aestronglyMeasurable, ← integral_const_mul]
    refine integral_mono_of_nonneg (.of_forall fun y => norm_nonneg _) (hiy.const_mul _) (.of_forall fun y => ?_)
    simp only [hT]
    rw [← map_sub]
    exact scaled_le hlo (fun j => (hlh j).1) _
  refine ⟨?_, hcl.trans (add_le_add ?_ ?_)⟩
  · have hmX : Measurable (X k) := by
      have := T.symm.continuous.measurable.comp hch.1
      simpa [Function.comp_def] using this
    refine ((integrable_const |f 0|).add ((hch.2.1.const_mul √hi).const_mul A₁)).mono'
      (hf.continuous.measurable.comp hmX).aestronglyMeasurable (.of_forall fun ω => ?_)
    have h1 := hf.growth (X k ω)
    have h2 := scaled_symm_le (hm := hm) (fun j => (hlh j).2) (T (X k ω))
    rw [← hT, T.symm_apply_apply] at h2
    have h3 := mul_le_mul_of_nonneg_left h2 hA1
    simp only [Real.norm_eq_abs, Pi.add_apply]
    linarith
  · calc ρ ^ k * (√hi * A₁) * ∫ y, ‖T x₀ - y‖ ∂law (volume.map (scaled m hm)) (densE m hm U s c)
        ≤ ρ ^ k * (√hi * A₁) * (√(Fintype.card J / lo) * ∫ y, ‖x₀ - y‖ ∂boltz fun x => s * U x + c) :=
          mul_le_mul_of_nonneg_left ed (by positivity)
      _ = (√hi * √(Fintype.card J / lo)) * A₁ * ρ ^ k * ∫ y, ‖x₀ - y‖ ∂boltz fun x => s * U x + c := by ring
      _ = _ := by rw [← Real.sqrt_mul hhi.le, mul_div_assoc]
  · rw [zero_mul, zero_add]
    have hst : √t * √t = t := Real.mul_self_sqrt ht.le
    have hr' : r = √t * √(2 / s) := by rw [hr, ← Real.sqrt_mul ht.le]; congr 1; ring
    have htm : √t ≤ √(1 / (hi * L)) := Real.sqrt_le_sqrt (by rw [le_div_iff₀ (by positivity)]; linarith)
    have hc2 : t * (t * G + r * Z) ≤ t * √t * C := by
      rw [mul_assoc]
      refine mul_le_mul_of_nonneg_left ?_ ht.le
      rw [hr', hC, mul_add]
      refine add_le_add ?_ (le_of_eq (by ring))
      calc t * G = √t * (G * √t) := by rw [← mul_left_comm, hst, mul_comm]
        _ ≤ _ := by gcongr
    have hl : t * (√(hi * Fintype.card J) * (L₂ * hi)) * (√hi * A₁) / (1 - ρ) ≤ Q * √hi * A₁ := by
      rw [div_le_iff₀ (by linarith)]
      calc t * (√(hi * Fintype.card J) * (L₂ * hi)) * (√hi * A₁) = Q * √hi * A₁ * (t * μ * lo / 2) := by
            rw [hQ]; field_simp
        _ ≤ _ := mul_le_mul_of_nonneg_left hρ1 (by positivity)
    rw [div_le_iff₀ (by linarith)]
    calc t * (t * G + r * Z) * (hi * A₂ + t * (√(hi * Fintype.card J) * (L₂ * hi)) * (√hi * A₁) / (1 - ρ))
        ≤ t * √t * C * (hi * A₂ + Q * √hi * A₁) := by
          refine mul_le_mul hc2 (by linarith) ?_ (by positivity)
          have : 0 ≤ t * (√(hi * Fintype.card J) * (L₂ * hi)) * (√hi * A₁) / (1 - ρ) := div_nonneg (by positivity) (by linarith)
          positivity
      _ ≤ t * √t * C * ((hi + Q * √hi) * (A₁ + A₂)) := by
          refine mul_le_mul_of_nonneg_left ?_ (by positivity)
          have : 0 ≤ hi * A₁ := by positivity
          have : 0 ≤ Q * √hi * A₂ := by positivity
          linarith
      _ = 2 * C / (μ * lo) * (hi + Q * √hi) * √t * (A₁ + A₂) * (t * μ * lo / 2) := by field_simp
      _ ≤ _ := mul_le_mul_of_nonneg_left hρ1 (by positivity)

end ConvexBatches
end PySGMCMC.Langevin
