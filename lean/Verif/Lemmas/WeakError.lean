import Verif.Lemmas.Recipe
import Mathlib.Probability.Distributions.Gaussian.Real
import Mathlib.Probability.Independence.Integration
import Mathlib.Probability.Independence.Basic

/-!
# One step of the complete recipe leaves `exp (-H)` invariant to first order
-/

open MeasureTheory
namespace PySGMCMC.Recipe

section bounds
variable {E : Type*} [NormedAddCommGroup E] [NormedSpace ℝ E]

omit [NormedSpace ℝ E] in
theorem bounded {F : Type*} [NormedAddCommGroup F] {f : E → F} (hf : Continuous f) (hc : HasCompactSupport f) :
    ∃ C, 0 ≤ C ∧ ∀ x, ‖f x‖ ≤ C := by
  obtain ⟨C, hC⟩ := hc.exists_bound_of_continuous hf
  exact ⟨C, (norm_nonneg _).trans (hC 0), hC⟩

theorem bound2 {f : E → ℝ} (hf : ContDiff ℝ 3 f) (hc : HasCompactSupport f) :
    ∃ C, 0 ≤ C ∧ ∀ x h, |fderiv ℝ (fderiv ℝ f) x h h| ≤ C * ‖h‖ ^ 2 := by
  have hf1 : ContDiff ℝ 2 (fderiv ℝ f) := hf.fderiv_right (by norm_num)
  obtain ⟨C, h0, hC⟩ := bounded (hf1.continuous_fderiv (by norm_num)) ((hc.fderiv ℝ).fderiv ℝ)
  refine ⟨C, h0, fun x h => ?_⟩
  have h3 := ContinuousLinearMap.le_opNorm₂ (fderiv ℝ (fderiv ℝ f) x) h h
  rw [Real.norm_eq_abs] at h3
  refine h3.trans ?_
  rw [sq, ← mul_assoc]
  have := hC x
  gcongr

theorem bound1 {f : E → ℝ} (hf : ContDiff ℝ 3 f) (hc : HasCompactSupport f) :
    ∃ C, 0 ≤ C ∧ ∀ x h, |fderiv ℝ f x h| ≤ C * ‖h‖ := by
  have hf1 : ContDiff ℝ 2 (fderiv ℝ f) := hf.fderiv_right (by norm_num)
  obtain ⟨C, h0, hC⟩ := bounded hf1.continuous (hc.fderiv ℝ)
  refine ⟨C, h0, fun x h => ?_⟩
  have h3 := (fderiv ℝ f x).le_opNorm h
  rw [Real.norm_eq_abs] at h3
  refine h3.trans ?_
  have := hC x
  gcongr

end bounds

section weak
variable {J : Type*} [Fintype J] [DecidableEq J]

/-- The measure with density `exp (-H)`. -/
noncomputable def boltz (H : (J → ℝ) → ℝ) : Measure (J → ℝ) := volume.withDensity fun x => ENNReal.ofReal (Real.exp (-H x))

omit [DecidableEq J] in
theorem integral_boltz {H : (J → ℝ) → ℝ} (hH : Continuous H) (g : (J → ℝ) → ℝ) :
    ∫ x, g x ∂boltz H = ∫ x, g x * Real.exp (-H x) := by
  unfold boltz
  rw [integral_withDensity_eq_integral_toReal_smul (by fun_prop) (by simp)]
  refine integral_congr_ae (.of_forall fun x => ?_)
  simp only [smul_eq_mul]
  rw [ENNReal.toReal_ofReal (Real.exp_pos _).le, mul_comm]

/-- Noise with mean 0, unit covariance and finite third moment. -/
structure UnitNoise (γ : Measure (J → ℝ)) : Prop where
  prob : IsProbabilityMeasure γ
  mean : ∀ j, ∫ z, z j ∂γ = 0
  cov : ∀ j k, ∫ z, z j * z k ∂γ = if j = k then 1 else 0
  third : Integrable (fun z => ‖z‖ ^ 3) γ

theorem UnitNoise.norm {γ : Measure (J → ℝ)} (hγ : UnitNoise γ) : Integrable (fun z => ‖z‖) γ := by
  have := hγ.prob
  refine ((integrable_const (1 : ℝ)).add hγ.third).mono' measurable_norm.aestronglyMeasurable (.of_forall fun z => ?_)
  have := norm_nonneg z
  simp only [Pi.add_apply, norm_norm]
  rcases le_total ‖z‖ 1 with h1 | h1
  · nlinarith [pow_nonneg this 3]
  · nlinarith [mul_nonneg this (sub_nonneg.2 h1), mul_nonneg (mul_nonneg this this) (sub_nonneg.2 h1)]

variable {Ω : Type*} [MeasurableSpace Ω]

/-- A random kick with mean 0, uncorrelated coordinates with standard deviations `S`, and finite third moment. -/
structure Kick (γ : Measure Ω) (ξ : Ω → J → ℝ) (S : J → ℝ) : Prop where
  meas : Measurable ξ
  mean : ∀ j, ∫ z, ξ z j ∂γ = 0
  cov : ∀ j k, ∫ z, ξ z j * ξ z k ∂γ = if j = k then S j ^ 2 else 0
  third : Integrable (fun z => ‖ξ z‖ ^ 3) γ

variable {γ : Measure Ω} [IsProbabilityMeasure γ] {ξ : Ω → J → ℝ} {S : J → ℝ}

theorem Kick.int1 (h : Kick γ ξ S) (j : J) : Integrable (fun z => ξ z j) γ := by
  refine ((integrable_const (1 : ℝ)).add h.third).mono' ((measurable_pi_apply j).comp h.meas).aestronglyMeasurable (.of_forall fun z => ?_)
  have hj := norm_le_pi_norm (ξ z) j
  have := norm_nonneg (ξ z)
  simp only [Pi.add_apply]
  rcases le_total ‖ξ z‖ 1 with h1 | h1
  · exact hj.trans (h1.trans (by nlinarith [pow_nonneg this 3]))
  · nlinarith [mul_nonneg this (sub_nonneg.2 h1), mul_nonneg (mul_nonneg this this) (sub_nonneg.2 h1)]

theorem Kick.int2 (h : Kick γ ξ S) (j k : J) : Integrable (fun z => ξ z j * ξ z k) γ := by
  refine ((integrable_const (1 : ℝ)).add h.third).mono'
    (((measurable_pi_apply j).comp h.meas).mul ((measurable_pi_apply k).comp h.meas)).aestronglyMeasurable (.of_forall fun z => ?_)
  have hj := norm_le_pi_norm (ξ z) j
  have hk := norm_le_pi_norm (ξ z) k
  have := norm_nonneg (ξ z)
  rw [norm_mul]
  refine (mul_le_mul hj hk (norm_nonneg _) this).trans ?_
  simp only [Pi.add_apply]
  rcases le_total ‖ξ z‖ 1 with h1 | h1
  · nlinarith [pow_nonneg this 3]
  · nlinarith [mul_nonneg this (sub_nonneg.2 h1), mul_nonneg (mul_nonneg this this) (sub_nonneg.2 h1)]

/-- The mean over the noise of the second order expansion. -/
theorem noise_mean (hγ : Kick γ ξ S) (b d : J → ℝ) (e : J → J → ℝ) (c ε : ℝ) (h0 : 0 ≤ ε) :
    ∫ z, (c + ∑ j, (ε * b j + √ε * ξ z j) * d j
      + 1 / 2 * ∑ j, ∑ k, (ε * b j + √ε * ξ z j) * (ε * b k + √ε * ξ z k) * e j k) ∂γ
      = c + ε * (∑ j, b j * d j + 1 / 2 * ∑ j, S j ^ 2 * e j j) + 1 / 2 * ε ^ 2 * ∑ j, ∑ k, b j * b k * e j k := by
  have hs : √ε * √ε = ε := Real.mul_self_sqrt h0
  have i1 := hγ.int1
  have i2 := hγ.int2
  have m1 : ∀ j, Integrable (fun z : Ω => (ε * b j + √ε * ξ z j) * d j) γ := fun j =>
    ((integrable_const _).add ((i1 j).const_mul _)).mul_const _
  have ex : ∀ j k (z : Ω), (ε * b j + √ε * ξ z j) * (ε * b k + √ε * ξ z k) * e j k
      = ε ^ 2 * (b j * b k * e j k) + ε * √ε * (b j * e j k) * ξ z k + ε * √ε * (b k * e j k) * ξ z j
        + ε * e j k * (ξ z j * ξ z k) := by
    intro j k z
    linear_combination (ξ z j * ξ z k * e j k) * hs
  have m2 : ∀ j k, Integrable (fun z : Ω => (ε * b j + √ε * ξ z j) * (ε * b k + √ε * ξ z k) * e j k) γ := fun j k => by
    simp_rw [ex]
    exact (((integrable_const _).add ((i1 k).const_mul _)).add ((i1 j).const_mul _)).add ((i2 j k).const_mul _)
  have v1 : ∀ j, ∫ z, (ε * b j + √ε * ξ z j) * d j ∂γ = ε * (b j * d j) := fun j => by
    rw [integral_mul_const, integral_add (integrable_const _) ((i1 j).const_mul _), integral_const_mul, integral_const_mul, hγ.mean]
    simp [mul_assoc]
  have v2 : ∀ j k, ∫ z, (ε * b j + √ε * ξ z j) * (ε * b k + √ε * ξ z k) * e j k ∂γ
      = ε ^ 2 * (b j * b k * e j k) + if j = k then ε * (S j ^ 2 * e j k) else 0 := fun j k => by
    simp_rw [ex]
    rw [integral_add (((integrable_const _).fun_add ((i1 k).const_mul _)).fun_add ((i1 j).const_mul _)) ((i2 j k).const_mul _),
      integral_add ((integrable_const _).fun_add ((i1 k).const_mul _)) ((i1 j).const_mul _),
      integral_add (integrable_const _) ((i1 k).const_mul _)]
    simp only [integral_const_mul, hγ.mean, hγ.cov]
    by_cases hjk : j = k
    · simp [hjk]; ring
    · simp [hjk]
  rw [integral_add ((integrable_const _).fun_add (integrable_finsetSum _ fun j _ => m1 j))
      ((integrable_finsetSum _ fun j _ => integrable_finsetSum _ fun k _ => m2 j k).const_mul _),
    integral_add (integrable_const _) (integrable_finsetSum _ fun j _ => m1 j), integral_const_mul,
    integral_finsetSum _ (fun j _ => m1 j), integral_finsetSum _ (fun j _ => integrable_finsetSum _ fun k _ => m2 j k)]
  simp_rw [integral_finsetSum _ (fun k _ => m2 _ k), v1, v2, Finset.sum_add_distrib, Finset.sum_ite_eq, Finset.mem_univ, if_true]
  simp only [integral_const, probReal_univ, one_smul, ← Finset.mul_sum]
  ring

variable {Bt : Type*} [MeasurableSpace Bt]

/-- The mean over state and minibatch of the first order term vanishes. -/
theorem drift_mean {H : (J → ℝ) → ℝ} (hH : ContDiff ℝ 1 H) [IsFiniteMeasure (boltz H)] (ν : Measure Bt) [IsProbabilityMeasure ν]
    (S : J → ℝ) (Q : J → J → ℝ) (hQ : ∀ j k, Q j k = -Q k j)
    (B : (J → ℝ) × Bt → J → ℝ) (hB : Measurable B) (iB : Integrable (fun y => ‖B y‖) ((boltz H).prod ν))
    (hmean : ∀ x j, ∫ β, B (x, β) j ∂ν = -(S j ^ 2 / 2 * partialD H j x + ∑ k, Q j k * partialD H k x))
    {f : (J → ℝ) → ℝ} (hf : ContDiff ℝ 3 f) (hc : HasCompactSupport f) :
    Integrable (fun y : (J → ℝ) × Bt => ∑ j, B y j * partialD f j y.1 + 1 / 2 * ∑ j, S j ^ 2 * partialD2 f j j y.1) ((boltz H).prod ν) ∧
    ∫ y, (∑ j, B y j * partialD f j y.1 + 1 / 2 * ∑ j, S j ^ 2 * partialD2 f j j y.1) ∂((boltz H).prod ν) = 0 := by
  have hf1 : ContDiff ℝ 2 (fderiv ℝ f) := hf.fderiv_right (by norm_num)
  have c1 : ∀ j, Continuous fun x => partialD f j x := fun j => hf1.continuous.clm_apply continuous_const
  have c2 : ∀ k j, Continuous fun x => partialD2 f k j x := fun k j => by
    have : Continuous (fderiv ℝ (fderiv ℝ f)) := hf1.continuous_fderiv (by norm_num)
    exact (this.clm_apply continuous_const).clm_apply continuous_const
  obtain ⟨F1, hF10, hF1⟩ := bound1 hf hc
  obtain ⟨F2, hF20, hF2⟩ := bound2 hf hc
  have hu : ∀ j : J, ‖(unit j : J → ℝ)‖ ≤ 1 := fun j => (pi_norm_le_iff_of_nonneg zero_le_one).2 fun k => by
    by_cases hk : k = j
    · subst hk; simp [unit]
    · simp [unit, hk]
  have iBj : ∀ j, Integrable (fun y => B y j) ((boltz H).prod ν) := fun j =>
    iB.mono' ((measurable_pi_apply j).comp hB).aestronglyMeasurable (.of_forall fun y => norm_le_pi_norm (B y) j)
  have iBd : ∀ j, Integrable (fun y : (J → ℝ) × Bt => B y j * partialD f j y.1) ((boltz H).prod ν) := fun j =>
    (iBj j).mul_bdd (c := F1) ((c1 j).measurable.comp measurable_fst).aestronglyMeasurable
      (.of_forall fun y => (hF1 y.1 (unit j)).trans (mul_le_of_le_one_right hF10 (hu j)))
  have ie : ∀ j, Integrable (fun y : (J → ℝ) × Bt => S j ^ 2 * partialD2 f j j y.1) ((boltz H).prod ν) := fun j =>
    (Integrable.of_bound ((c2 j j).measurable.comp measurable_fst).aestronglyMeasurable F2
      (.of_forall fun y => (hF2 y.1 (unit j)).trans (mul_le_of_le_one_right hF20 (pow_le_one₀ (norm_nonneg _) (hu j))))).const_mul _
  have iall : Integrable (fun y : (J → ℝ) × Bt => ∑ j, B y j * partialD f j y.1 + 1 / 2 * ∑ j, S j ^ 2 * partialD2 f j j y.1)
      ((boltz H).prod ν) :=
    (integrable_finsetSum _ fun j _ => iBd j).add ((integrable_finsetSum _ fun j _ => ie j).const_mul _)
  refine ⟨iall, ?_⟩
  rw [integral_prod _ iall]
  have hin : ∀ᵐ x ∂boltz H, ∫ β, (∑ j, B (x, β) j * partialD f j x + 1 / 2 * ∑ j, S j ^ 2 * partialD2 f j j x) ∂ν
      = ∑ j, -(S j ^ 2 / 2 * partialD H j x + ∑ k, Q j k * partialD H k x) * partialD f j x + 1 / 2 * ∑ j, S j ^ 2 * partialD2 f j j x := by
    have hae : ∀ᵐ x ∂boltz H, ∀ j, Integrable (fun β => B (x, β) j) ν := ae_all_iff.2 fun j => (iBj j).prod_right_ae
    filter_upwards [hae] with x hx
    rw [integral_add (integrable_finsetSum _ fun j _ => (hx j).mul_const _) (integrable_const _),
      integral_finsetSum _ fun j _ => (hx j).mul_const _]
    simp_rw [integral_mul_const, hmean]
    simp
  rw [integral_congr_ae hin, integral_boltz hH.continuous]
  exact generator_zero hf hc hH S Q hQ

/-- **One step of any dynamics of the complete recipe leaves `exp (-H)` invariant to first order.**  The drift may be random (`β`,
independent of the noise `z`), if its mean is the drift of the recipe, and the step may deviate by `ε√ε R`. -/
theorem one_step {H : (J → ℝ) → ℝ} (hH : ContDiff ℝ 1 H) [IsFiniteMeasure (boltz H)] (ν : Measure Bt) [IsProbabilityMeasure ν]
    (hγ : Kick γ ξ S) (Q : J → J → ℝ) (hQ : ∀ j k, Q j k = -Q k j)
    (B : (J → ℝ) × Bt → J → ℝ) (hB : Measurable B) (hB3 : Integrable (fun y => ‖B y‖ ^ 3) ((boltz H).prod ν))
    (hmean : ∀ x j, ∫ β, B (x, β) j ∂ν = -(S j ^ 2 / 2 * partialD H j x + ∑ k, Q j k * partialD H k x))
    (R : ((J → ℝ) × Bt) × Ω → ℝ) (hR : Integrable R (((boltz H).prod ν).prod γ))
    {f : (J → ℝ) → ℝ} (hf : ContDiff ℝ 3 f) (hc : HasCompactSupport f) :
    ∃ K, ∀ ε, 0 ≤ ε → ε ≤ 1 → ∀ X : ((J → ℝ) × Bt) × Ω → J → ℝ, AEMeasurable X (((boltz H).prod ν).prod γ) →
      (∀ q, ‖X q - (q.1.1 + (ε • B q.1 + √ε • ξ q.2))‖ ≤ ε * √ε * R q) →
      |∫ q, f (X q) ∂(((boltz H).prod ν).prod γ) - ∫ x, f x ∂boltz H| ≤ K * (ε * √ε) := by
  have hf1 : ContDiff ℝ 2 (fderiv ℝ f) := hf.fderiv_right (by norm_num)
  have cf := hf.continuous
  have c1 : ∀ j, Continuous fun x => partialD f j x := fun j => hf1.continuous.clm_apply continuous_const
  have c2 : ∀ k j, Continuous fun x => partialD2 f k j x := fun k j => by
    have : Continuous (fderiv ℝ (fderiv ℝ f)) := hf1.continuous_fderiv (by norm_num)
    exact (this.clm_apply continuous_const).clm_apply continuous_const
  obtain ⟨M, hM0, hM⟩ := taylor hf hc
  obtain ⟨L, hL⟩ := lipschitz (hf.of_le (by norm_num)) hc
  obtain ⟨F0, hF00, hF0⟩ := bounded cf hc
  obtain ⟨F2, hF20, hF2⟩ := bound2 hf hc
  have iB2 : Integrable (fun y => ‖B y‖ ^ 2) ((boltz H).prod ν) := by
    refine ((integrable_const (1 : ℝ)).add hB3).mono' (by fun_prop) (.of_forall fun y => ?_)
    have h0 := norm_nonneg (B y)
    rw [Real.norm_eq_abs, abs_of_nonneg (by positivity)]
    simp only [Pi.add_apply]
    rcases le_total ‖B y‖ 1 with h1 | h1
    · nlinarith [pow_nonneg h0 3]
    · nlinarith [mul_nonneg (mul_nonneg h0 h0) (sub_nonneg.2 h1)]
  have iB1 : Integrable (fun y => ‖B y‖) ((boltz H).prod ν) := by
    refine ((integrable_const (1 : ℝ)).add iB2).mono' (by fun_prop) (.of_forall fun y => ?_)
    have h0 := norm_nonneg (B y)
    rw [Real.norm_eq_abs, abs_of_nonneg (by positivity)]
    simp only [Pi.add_apply]
    nlinarith [sq_nonneg (‖B y‖ - 1)]
  obtain ⟨iA, hA⟩ := drift_mean hH ν S Q hQ B hB iB1 hmean hf hc
  refine ⟨L * ∫ q, R q ∂((boltz H).prod ν).prod γ
    + 4 * M * (∫ q, (‖B q.1‖ ^ 3 + ‖ξ q.2‖ ^ 3) ∂((boltz H).prod ν).prod γ)
    + 1 / 2 * F2 * ∫ y, ‖B y‖ ^ 2 ∂(boltz H).prod ν, ?_⟩
  intro ε h0 h1 X hX hXR
  set δ := ε * √ε with hδ
  have hs0 : 0 ≤ √ε := Real.sqrt_nonneg ε
  have hs1 : √ε ≤ 1 := Real.sqrt_le_one.2 h1
  have hss : √ε * √ε = ε := Real.mul_self_sqrt h0
  have hδ0 : 0 ≤ δ := mul_nonneg h0 hs0
  have hε2 : ε ^ 2 ≤ δ := by
    have : ε ≤ √ε := by nlinarith
    nlinarith
  have hε3 : ε ^ 3 ≤ δ := le_trans (by nlinarith [sq_nonneg ε]) hε2
  -- the expansion
  let h : ((J → ℝ) × Bt) × Ω → J → ℝ := fun q => ε • B q.1 + √ε • ξ q.2
  let G : ((J → ℝ) × Bt) × Ω → ℝ := fun q =>
    f q.1.1 + ∑ j, (ε * B q.1 j + √ε * ξ q.2 j) * partialD f j q.1.1
      + 1 / 2 * ∑ j, ∑ k, (ε * B q.1 j + √ε * ξ q.2 j) * (ε * B q.1 k + √ε * ξ q.2 k) * partialD2 f j k q.1.1
  have hG : ∀ q, G q = f q.1.1 + fderiv ℝ f q.1.1 (h q) + 1 / 2 * fderiv ℝ (fderiv ℝ f) q.1.1 (h q) (h q) := fun q => by
    rw [fderiv_sum, fderiv2_sum]
    rfl
  have hh3 : ∀ q, ‖h q‖ ^ 3 ≤ 4 * δ * (‖B q.1‖ ^ 3 + ‖ξ q.2‖ ^ 3) := by
    intro q
    have e1 : ‖h q‖ ≤ ε * ‖B q.1‖ + √ε * ‖ξ q.2‖ := by
      refine (norm_add_le _ _).trans ?_
      rw [norm_smul, norm_smul, Real.norm_eq_abs, Real.norm_eq_abs, abs_of_nonneg h0, abs_of_nonneg hs0]
    have e2 : ∀ a b : ℝ, 0 ≤ a → 0 ≤ b → (a + b) ^ 3 ≤ 4 * (a ^ 3 + b ^ 3) := fun a b ha hb => by
      nlinarith [mul_nonneg (add_nonneg ha hb) (sq_nonneg (a - b))]
    have hb := norm_nonneg (B q.1)
    have hz := norm_nonneg (ξ q.2)
    refine (pow_le_pow_left₀ (norm_nonneg _) e1 3).trans ((e2 _ _ (by positivity) (by positivity)).trans ?_)
    have e3 : (√ε * ‖ξ q.2‖) ^ 3 = δ * ‖ξ q.2‖ ^ 3 := by
      rw [hδ, ← hss]; ring_nf
      rw [show √(√ε ^ 2) = √ε from Real.sqrt_sq hs0]; ring
    rw [e3, mul_pow]
    have : ε ^ 3 * ‖B q.1‖ ^ 3 ≤ δ * ‖B q.1‖ ^ 3 := by gcongr
    linarith
  have hXG : ∀ q, |f (X q) - G q| ≤ δ * (L * R q + 4 * M * (‖B q.1‖ ^ 3 + ‖ξ q.2‖ ^ 3)) := by
    intro q
    have e1 := hL.dist_le_mul (X q) (q.1.1 + h q)
    rw [Real.dist_eq, dist_eq_norm] at e1
    have e2 : |f (X q) - f (q.1.1 + h q)| ≤ L * (δ * R q) := e1.trans (mul_le_mul_of_nonneg_left (hXR q) L.2)
    have e3 := hM q.1.1 (h q)
    have e4 : |f (q.1.1 + h q) - G q| ≤ M * ‖h q‖ ^ 3 := by
      rw [hG q]; refine le_of_eq_of_le ?_ e3; congr 1; ring
    have e5 := mul_le_mul_of_nonneg_left (hh3 q) hM0
    have e6 := abs_sub_le (f (X q)) (f (q.1.1 + h q)) (G q)
    linarith
  have mB : Measurable fun q : ((J → ℝ) × Bt) × Ω => B q.1 := hB.comp measurable_fst
  have mz : Measurable fun q : ((J → ℝ) × Bt) × Ω => ξ q.2 := hγ.meas.comp measurable_snd
  have mzj : ∀ j, Measurable fun q : ((J → ℝ) × Bt) × Ω => ξ q.2 j := fun j => (measurable_pi_apply j).comp mz
  have mBj' : ∀ j, Measurable fun q : ((J → ℝ) × Bt) × Ω => B q.1 j := fun j => (measurable_pi_apply j).comp mB
  have mBj : ∀ j, Measurable fun q : ((J → ℝ) × Bt) × Ω => ε * B q.1 j + √ε * ξ q.2 j := fun j =>
    ((mBj' j).const_mul ε).add ((mzj j).const_mul (√ε))
  have mx : Measurable fun q : ((J → ℝ) × Bt) × Ω => q.1.1 := measurable_fst.comp measurable_fst
  have mG : Measurable G :=
    ((cf.measurable.comp mx).add (Finset.measurable_sum _ fun j _ => (mBj j).mul ((c1 j).measurable.comp mx))).add
      ((Finset.measurable_sum _ fun j _ => Finset.measurable_sum _ fun k _ =>
        ((mBj j).mul (mBj k)).mul ((c2 j k).measurable.comp mx)).const_mul _)
  have iBz : Integrable (fun q : ((J → ℝ) × Bt) × Ω => ‖B q.1‖ ^ 3 + ‖ξ q.2‖ ^ 3) (((boltz H).prod ν).prod γ) :=
    (hB3.comp_fst γ).add (hγ.third.comp_snd _)
  have iX : Integrable (fun q => f (X q)) (((boltz H).prod ν).prod γ) :=
    Integrable.of_bound (cf.measurable.comp_aemeasurable hX).aestronglyMeasurable F0 (.of_forall fun q => hF0 _)
  have iXG : Integrable (fun q => f (X q) - G q) (((boltz H).prod ν).prod γ) :=
    (((hR.const_mul L).add (iBz.const_mul (4 * M))).const_mul δ).mono' (iX.aestronglyMeasurable.sub mG.aestronglyMeasurable)
      (.of_forall hXG)
  have iG : Integrable G (((boltz H).prod ν).prod γ) := (iX.sub iXG).congr (.of_forall fun q => by simp)
  have d1 : |∫ q, f (X q) ∂(((boltz H).prod ν).prod γ) - ∫ q, G q ∂(((boltz H).prod ν).prod γ)|
      ≤ δ * (L * ∫ q, R q ∂((boltz H).prod ν).prod γ
        + 4 * M * (∫ q, (‖B q.1‖ ^ 3 + ‖ξ q.2‖ ^ 3) ∂((boltz H).prod ν).prod γ)) := by
    rw [← integral_sub iX iG]
    refine (norm_integral_le_of_norm_le (((hR.const_mul L).add (iBz.const_mul (4 * M))).const_mul δ) (.of_forall fun q => (Real.norm_eq_abs _).trans_le (hXG q))).trans_eq ?_
    rw [integral_const_mul]
    congr 1
    have := integral_add (hR.const_mul L) (iBz.const_mul (4 * M))
    simp only [Pi.add_apply] at this ⊢
    rw [this, integral_const_mul, integral_const_mul]
  have mBq : Measurable fun y : (J → ℝ) × Bt => ∑ j, ∑ k, B y j * B y k * partialD2 f j k y.1 :=
    Finset.measurable_sum _ fun j _ => Finset.measurable_sum _ fun k _ =>
      (((measurable_pi_apply j).comp hB).mul ((measurable_pi_apply k).comp hB)).mul ((c2 j k).measurable.comp measurable_fst)
  have bC : ∀ y : (J → ℝ) × Bt, |∑ j, ∑ k, B y j * B y k * partialD2 f j k y.1| ≤ F2 * ‖B y‖ ^ 2 := fun y => by
    rw [← fderiv2_sum]; exact hF2 _ _
  have iC : Integrable (fun y : (J → ℝ) × Bt => ∑ j, ∑ k, B y j * B y k * partialD2 f j k y.1) ((boltz H).prod ν) :=
    (iB2.const_mul F2).mono' mBq.aestronglyMeasurable (.of_forall bC)
  have i0 : Integrable (fun y : (J → ℝ) × Bt => f y.1) ((boltz H).prod ν) :=
    Integrable.of_bound (cf.measurable.comp measurable_fst).aestronglyMeasurable F0 (.of_forall fun q => hF0 _)
  have d2 : ∫ q, G q ∂(((boltz H).prod ν).prod γ)
      = ∫ x, f x ∂boltz H + 1 / 2 * ε ^ 2 * ∫ y, ∑ j, ∑ k, B y j * B y k * partialD2 f j k y.1 ∂(boltz H).prod ν := by
    rw [integral_prod _ iG]
    have : ∀ y : (J → ℝ) × Bt, ∫ z, G (y, z) ∂γ = f y.1 + ε * (∑ j, B y j * partialD f j y.1 + 1 / 2 * ∑ j, S j ^ 2 * partialD2 f j j y.1)
        + 1 / 2 * ε ^ 2 * ∑ j, ∑ k, B y j * B y k * partialD2 f j k y.1 := fun y =>
      noise_mean hγ (B y) (fun j => partialD f j y.1) (fun j k => partialD2 f j k y.1) (f y.1) ε h0
    simp_rw [this]
    rw [integral_add (i0.fun_add (iA.const_mul ε)) (iC.const_mul _), integral_add i0 (iA.const_mul ε), integral_const_mul, hA,
      integral_const_mul, mul_zero, add_zero]
    congr 1
    rw [integral_fun_fst]
    simp
  have d3 : |∫ y, ∑ j, ∑ k, B y j * B y k * partialD2 f j k y.1 ∂(boltz H).prod ν| ≤ F2 * ∫ y, ‖B y‖ ^ 2 ∂(boltz H).prod ν := by
    rw [← integral_const_mul]
    exact norm_integral_le_of_norm_le (iB2.const_mul F2) (.of_forall fun y => (Real.norm_eq_abs _).trans_le (bC y))
  have d4 : |1 / 2 * ε ^ 2 * ∫ y, ∑ j, ∑ k, B y j * B y k * partialD2 f j k y.1 ∂(boltz H).prod ν|
      ≤ δ * (1 / 2 * F2 * ∫ y, ‖B y‖ ^ 2 ∂(boltz H).prod ν) := by
    rw [abs_mul, abs_of_nonneg (by positivity)]
    have := (abs_nonneg _).trans d3
    calc _ ≤ 1 / 2 * δ * (F2 * ∫ y, ‖B y‖ ^ 2 ∂(boltz H).prod ν) := by gcongr
      _ = _ := by ring
  rw [d2] at d1
  set I := ∫ y, ∑ j, ∑ k, B y j * B y k * partialD2 f j k y.1 ∂(boltz H).prod ν
  have := abs_sub_le (∫ q, f (X q) ∂(((boltz H).prod ν).prod γ)) (∫ x, f x ∂boltz H + 1 / 2 * ε ^ 2 * I) (∫ x, f x ∂boltz H)
  rw [add_sub_cancel_left] at this
  linarith

/-- `one_step` for all stepsizes, if the step is close to the dynamics for small stepsizes. -/
theorem one_step' {H : (J → ℝ) → ℝ} (hH : ContDiff ℝ 1 H) [IsFiniteMeasure (boltz H)] (ν : Measure Bt) [IsProbabilityMeasure ν]
    (hγ : Kick γ ξ S) (Q : J → J → ℝ) (hQ : ∀ j k, Q j k = -Q k j)
    (B : (J → ℝ) × Bt → J → ℝ) (hB : Measurable B) (hB3 : Integrable (fun y => ‖B y‖ ^ 3) ((boltz H).prod ν))
    (hmean : ∀ x j, ∫ β, B (x, β) j ∂ν = -(S j ^ 2 / 2 * partialD H j x + ∑ k, Q j k * partialD H k x))
    (R : ((J → ℝ) × Bt) × Ω → ℝ) (hR : Integrable R (((boltz H).prod ν).prod γ)) (ε₀ : ℝ) (hε₀ : 0 < ε₀)
    {f : (J → ℝ) → ℝ} (hf : ContDiff ℝ 3 f) (hc : HasCompactSupport f) :
    ∃ K, ∀ ε, 0 ≤ ε → ∀ X : ((J → ℝ) × Bt) × Ω → J → ℝ, AEMeasurable X (((boltz H).prod ν).prod γ) →
      (ε ≤ ε₀ → ε ≤ 1 → ∀ q, ‖X q - (q.1.1 + (ε • B q.1 + √ε • ξ q.2))‖ ≤ ε * √ε * R q) →
      |∫ q, f (X q) ∂(((boltz H).prod ν).prod γ) - ∫ x, f x ∂boltz H| ≤ K * (ε * √ε) := by
  obtain ⟨K, hK⟩ := one_step hH ν hγ Q hQ B hB hB3 hmean R hR hf hc
  obtain ⟨F0, hF00, hF0⟩ := bounded hf.continuous hc
  set m := min ε₀ 1 with hm
  have hm0 : 0 < m := lt_min hε₀ one_pos
  set T := 2 * F0 * ((boltz H).real Set.univ) with hT
  have hT0 : 0 ≤ T := by positivity
  refine ⟨max K (T / (m * √m)), fun ε h0 X hX hXR => ?_⟩
  have hδ : 0 ≤ ε * √ε := by positivity
  by_cases hε : ε ≤ m
  · exact (hK ε h0 (hε.trans (min_le_right _ _)) X hX (hXR (hε.trans (min_le_left _ _)) (hε.trans (min_le_right _ _)))).trans
      (mul_le_mul_of_nonneg_right (le_max_left _ _) hδ)
  · have hε' : m ≤ ε := (not_le.1 hε).le
    have b1 : |∫ q, f (X q) ∂(((boltz H).prod ν).prod γ)| ≤ F0 * (boltz H).real Set.univ := by
      have := norm_integral_le_of_norm_le_const (μ := ((boltz H).prod ν).prod γ) (f := fun q => f (X q)) (.of_forall fun q => hF0 (X q))
      refine (Real.norm_eq_abs _ ▸ this).trans_eq ?_
      congr 1
      simp [measureReal_def, Measure.prod_apply]
    have b2 : |∫ x, f x ∂boltz H| ≤ F0 * (boltz H).real Set.univ := by
      have := norm_integral_le_of_norm_le_const (μ := boltz H) (f := f) (.of_forall fun q => hF0 q)
      exact Real.norm_eq_abs _ ▸ this
    have b3 := abs_sub (∫ q, f (X q) ∂(((boltz H).prod ν).prod γ)) (∫ x, f x ∂boltz H)
    have hmm : 0 < m * √m := by positivity
    have hle : m * √m ≤ ε * √ε := by gcongr
    have b4 : T ≤ T / (m * √m) * (ε * √ε) := by
      rw [div_mul_eq_mul_div, le_div_iff₀ hmm]
      gcongr
    have b5 := mul_le_mul_of_nonneg_right (le_max_right K (T / (m * √m))) hδ
    linarith

omit [IsProbabilityMeasure γ] in
/-- Scaled unit noise. -/
theorem UnitNoise.kick {γ : Measure (J → ℝ)} (hγ : UnitNoise γ) (S : J → ℝ) : Kick γ (fun z => S * z) S where
  meas := measurable_pi_iff.2 fun j => (show Measurable fun z : J → ℝ => z j from measurable_pi_apply j).const_mul (S j)
  mean j := by
    simp only [Pi.mul_apply]
    rw [integral_const_mul, hγ.mean, mul_zero]
  cov j k := by
    simp only [Pi.mul_apply]
    have : ∀ z : J → ℝ, S j * z j * (S k * z k) = S j * S k * (z j * z k) := fun z => by ring
    simp_rw [this]
    rw [integral_const_mul, hγ.cov]
    by_cases h : j = k
    · subst h; simp [sq]
    · simp [h]
  third := by
    refine (hγ.third.const_mul (‖S‖ ^ 3)).mono' ?_ (.of_forall fun z => ?_)
    · have : Measurable fun z : J → ℝ => S * z := measurable_pi_iff.2 fun j => (show Measurable fun z : J → ℝ => z j from measurable_pi_apply j).const_mul (S j)
      exact (this.norm.pow_const 3).aestronglyMeasurable
    · rw [norm_pow, norm_norm, ← mul_pow]
      exact pow_le_pow_left₀ (norm_nonneg _) (norm_mul_le S z) 3

/-- Independent standard normal variables. -/
theorem unitNoise_gauss : UnitNoise (Measure.pi fun _ : J => ProbabilityTheory.gaussianReal 0 1) := by
  have hmp : ∀ j : J, MeasurePreserving (fun z : J → ℝ => z j) (Measure.pi fun _ : J => ProbabilityTheory.gaussianReal 0 1)
      (ProbabilityTheory.gaussianReal 0 1) := fun j => measurePreserving_eval _ j
  have hmean : ∀ j : J, ∫ z : J → ℝ, z j ∂(Measure.pi fun _ : J => ProbabilityTheory.gaussianReal 0 1) = 0 := fun j => by
    have := integral_map (μ := Measure.pi fun _ : J => ProbabilityTheory.gaussianReal 0 1) (hmp j).measurable.aemeasurable (f := fun x : ℝ => x) aestronglyMeasurable_id
    rw [(hmp j).map_eq, ProbabilityTheory.integral_id_gaussianReal] at this
    exact this.symm
  refine ⟨inferInstance, hmean, fun j k => ?_, ?_⟩
  · by_cases h : j = k
    · subst h
      rw [if_pos rfl]
      have := integral_map (μ := Measure.pi fun _ : J => ProbabilityTheory.gaussianReal 0 1) (hmp j).measurable.aemeasurable (f := fun x : ℝ => x * x) (by fun_prop)
      rw [(hmp j).map_eq] at this
      rw [← this]
      have hv := ProbabilityTheory.variance_id_gaussianReal (μ := 0) (v := 1)
      rw [ProbabilityTheory.variance_eq_integral aemeasurable_id] at hv
      simp only [id_eq, ProbabilityTheory.integral_id_gaussianReal, sub_zero] at hv
      simp only [← sq]
      exact_mod_cast hv
    · rw [if_neg h]
      have hind : ProbabilityTheory.IndepFun (fun z : J → ℝ => z j) (fun z : J → ℝ => z k)
          (Measure.pi fun _ : J => ProbabilityTheory.gaussianReal 0 1) :=
        (ProbabilityTheory.iIndepFun_pi (X := fun _ x => x) (fun _ => aemeasurable_id)).indepFun h
      have := hind.integral_fun_mul_eq_mul_integral (measurable_pi_apply j).aestronglyMeasurable (measurable_pi_apply k).aestronglyMeasurable
      rw [this, hmean, zero_mul]
  · have h1 : Integrable (fun x : ℝ => ‖x‖ ^ 3) (ProbabilityTheory.gaussianReal 0 1) :=
      (ProbabilityTheory.memLp_id_gaussianReal (μ := 0) (v := 1) 3).integrable_norm_pow (by norm_num)
    have h2 : ∀ j : J, Integrable (fun z : J → ℝ => ‖z j‖ ^ 3) (Measure.pi fun _ : J => ProbabilityTheory.gaussianReal 0 1) := fun j =>
      (hmp j).integrable_comp_of_integrable h1
    refine (integrable_finsetSum Finset.univ fun j _ => h2 j).mono' (measurable_norm.pow_const 3).aestronglyMeasurable (.of_forall fun z => ?_)
    rw [norm_pow, norm_norm]
    rcases isEmpty_or_nonempty J with hJ | hJ
    · have : z = 0 := Subsingleton.elim _ _
      simp [this]
    · obtain ⟨j, hj⟩ := Finite.exists_max fun j => ‖z j‖
      have : ‖z‖ ≤ ‖z j‖ := (pi_norm_le_iff_of_nonneg (norm_nonneg _)).2 hj
      exact (pow_le_pow_left₀ (norm_nonneg _) this 3).trans
        (Finset.single_le_sum (f := fun j => ‖z j‖ ^ 3) (fun _ _ => by positivity) (Finset.mem_univ j))

end weak
end PySGMCMC.Recipe
