import Mathlib.Analysis.Calculus.LineDeriv.IntegrationByParts
import Mathlib.Analysis.Calculus.ContDiff.RCLike
import Mathlib.Analysis.Calculus.FDeriv.Symmetric
import Mathlib.Analysis.SpecialFunctions.ExpDeriv
import Mathlib.MeasureTheory.Measure.Haar.OfBasis
import Mathlib.MeasureTheory.Measure.Lebesgue.Basic
import Mathlib.MeasureTheory.Measure.WithDensity
import Mathlib.MeasureTheory.Function.LocallyIntegrable
import Mathlib.MeasureTheory.Integral.Prod

/-!
# The complete recipe for stochastic gradient MCMC

Taylor expansion, integration by parts and the generator of the dynamics (Ma, Chen, Fox 2015).
-/

open MeasureTheory

namespace PySGMCMC.Recipe

section taylor
variable {E : Type*} [NormedAddCommGroup E] [NormedSpace ℝ E]

theorem taylor_real {g g' g'' : ℝ → ℝ} {K : ℝ} (h1 : ∀ t, HasDerivAt g (g' t) t) (h2 : ∀ t, HasDerivAt g' (g'' t) t)
    (hK : ∀ t ∈ Set.Icc (0 : ℝ) 1, |g'' t - g'' 0| ≤ K) : |g 1 - g 0 - g' 0 - 1 / 2 * g'' 0| ≤ K := by
  have e1 : ∀ t ∈ Set.Icc (0 : ℝ) 1, |g' t - g' 0 - g'' 0 * t| ≤ K := by
    intro t ht
    have hK0 : 0 ≤ K := (abs_nonneg _).trans (hK 0 (by simp))
    have := norm_image_sub_le_of_norm_deriv_le_segment' (f := fun s => g' s - g'' 0 * s) (f' := fun s => g'' s - g'' 0) (a := 0) (b := 1) (C := K)
      (fun s _ => (((h2 s).fun_sub ((hasDerivAt_id' s).const_mul (g'' 0))).congr_deriv (by ring)).hasDerivWithinAt) (fun s hs => hK s ⟨hs.1, hs.2.le⟩) t ht
    simp only [mul_zero, sub_zero, Real.norm_eq_abs] at this
    rw [show g' t - g' 0 - g'' 0 * t = g' t - g'' 0 * t - g' 0 by ring]
    exact this.trans (by nlinarith [ht.2])
  have := norm_image_sub_le_of_norm_deriv_le_segment_01' (f := fun s => g s - g' 0 * s - 1 / 2 * g'' 0 * s ^ 2) (f' := fun s => g' s - g' 0 - g'' 0 * s) (C := K)
    (fun s _ => ((((h1 s).fun_sub ((hasDerivAt_id' s).const_mul (g' 0))).fun_sub (((hasDerivAt_pow 2 s)).const_mul (1 / 2 * g'' 0))).congr_deriv
      (by push_cast; ring)).hasDerivWithinAt) (fun s hs => e1 s ⟨hs.1, hs.2.le⟩)
  rw [Real.norm_eq_abs] at this
  refine le_of_eq_of_le ?_ this
  congr 1; ring

theorem lipschitz {F : Type*} [NormedAddCommGroup F] [NormedSpace ℝ F] {f : E → F} (hf : ContDiff ℝ 1 f) (hc : HasCompactSupport f) :
    ∃ C : NNReal, LipschitzWith C f := ContDiff.lipschitzWith_of_hasCompactSupport hc hf one_ne_zero

/-- Second order Taylor expansion with a uniform remainder. -/
theorem taylor {f : E → ℝ} (hf : ContDiff ℝ 3 f) (hc : HasCompactSupport f) :
    ∃ M, 0 ≤ M ∧ ∀ x h, |f (x + h) - f x - fderiv ℝ f x h - 1 / 2 * fderiv ℝ (fderiv ℝ f) x h h| ≤ M * ‖h‖ ^ 3 := by
  have hf1 : ContDiff ℝ 2 (fderiv ℝ f) := hf.fderiv_right (by norm_num)
  have hf2 : ContDiff ℝ 1 (fderiv ℝ (fderiv ℝ f)) := hf1.fderiv_right (by norm_num)
  have hc2 : HasCompactSupport (fderiv ℝ (fderiv ℝ f)) := (hc.fderiv ℝ).fderiv ℝ
  obtain ⟨C, hC⟩ := lipschitz hf2 hc2
  refine ⟨C, C.2, fun x h => ?_⟩
  have hline : ∀ t : ℝ, HasDerivAt (fun s : ℝ => x + s • h) h t := fun t => by
    simpa using ((hasDerivAt_id t).smul_const h).const_add x
  have d1 : ∀ t : ℝ, HasDerivAt (fun t : ℝ => f (x + t • h)) (fderiv ℝ f (x + t • h) h) t := fun t =>
    ((hf.differentiable (by norm_num) (x + t • h)).hasFDerivAt).comp_hasDerivAt t (hline t)
  have d2 : ∀ t : ℝ, HasDerivAt (fun t : ℝ => fderiv ℝ f (x + t • h) h) (fderiv ℝ (fderiv ℝ f) (x + t • h) h h) t := fun t => by
    have e : HasDerivAt (fun t : ℝ => fderiv ℝ f (x + t • h)) (fderiv ℝ (fderiv ℝ f) (x + t • h) h) t :=
      ((hf1.differentiable (by norm_num) (x + t • h)).hasFDerivAt).comp_hasDerivAt t (hline t)
    exact (e.clm_apply (hasDerivAt_const t h)).congr_deriv (by simp)
  have d3 : ∀ t ∈ Set.Icc (0 : ℝ) 1, |fderiv ℝ (fderiv ℝ f) (x + t • h) h h - fderiv ℝ (fderiv ℝ f) (x + (0 : ℝ) • h) h h| ≤ C * ‖h‖ ^ 3 := by
    intro t ht
    have h1 := hC.dist_le_mul (x + t • h) (x + (0 : ℝ) • h)
    rw [dist_eq_norm, dist_eq_norm] at h1
    have h2 : ‖x + t • h - (x + (0 : ℝ) • h)‖ ≤ ‖h‖ := by
      rw [zero_smul, add_zero, add_sub_cancel_left, norm_smul, Real.norm_eq_abs, abs_of_nonneg ht.1]
      nlinarith [norm_nonneg h, ht.2]
    have h3 := ContinuousLinearMap.le_opNorm₂ (fderiv ℝ (fderiv ℝ f) (x + t • h) - fderiv ℝ (fderiv ℝ f) (x + (0 : ℝ) • h)) h h
    have h4 : ‖fderiv ℝ (fderiv ℝ f) (x + t • h) - fderiv ℝ (fderiv ℝ f) (x + (0 : ℝ) • h)‖ ≤ C * ‖h‖ :=
      h1.trans (mul_le_mul_of_nonneg_left h2 C.2)
    rw [sub_apply, sub_apply, Real.norm_eq_abs] at h3
    refine h3.trans ?_
    rw [show (C : ℝ) * ‖h‖ ^ 3 = C * ‖h‖ * ‖h‖ * ‖h‖ by ring]
    gcongr
  have := taylor_real d1 d2 d3
  rw [one_smul, zero_smul, add_zero] at this
  exact this

end taylor

section generator
variable {J : Type*} [Fintype J] [DecidableEq J]

/-- The unit vector `j`. -/
abbrev unit (j : J) : J → ℝ := Pi.single j 1

/-- Derivative of `f` in direction `j`. -/
noncomputable abbrev partialD (f : (J → ℝ) → ℝ) (j : J) (x : J → ℝ) : ℝ := fderiv ℝ f x (unit j)

/-- Second derivative of `f` in directions `j` and `k`. -/
noncomputable abbrev partialD2 (f : (J → ℝ) → ℝ) (j k : J) (x : J → ℝ) : ℝ := fderiv ℝ (fderiv ℝ f) x (unit j) (unit k)

theorem fderiv_sum (f : (J → ℝ) → ℝ) (x h : J → ℝ) : fderiv ℝ f x h = ∑ j, h j * partialD f j x := by
  conv_lhs => rw [← Finset.univ_sum_single h, map_sum]
  refine Finset.sum_congr rfl fun j _ => ?_
  have : (Pi.single j (h j) : J → ℝ) = h j • unit j := by rw [← Pi.single_smul, smul_eq_mul, mul_one]
  rw [this, map_smul, smul_eq_mul]

theorem fderiv2_sum (f : (J → ℝ) → ℝ) (x h h' : J → ℝ) :
    fderiv ℝ (fderiv ℝ f) x h h' = ∑ j, ∑ k, h j * h' k * partialD2 f j k x := by
  conv_lhs => rw [← Finset.univ_sum_single h, map_sum, sum_apply]
  refine Finset.sum_congr rfl fun j _ => ?_
  have : (Pi.single j (h j) : J → ℝ) = h j • unit j := by rw [← Pi.single_smul, smul_eq_mul, mul_one]
  rw [this, map_smul, smul_apply]
  conv_lhs => rw [← Finset.univ_sum_single h', map_sum, Finset.smul_sum]
  refine Finset.sum_congr rfl fun k _ => ?_
  have : (Pi.single k (h' k) : J → ℝ) = h' k • unit k := by rw [← Pi.single_smul, smul_eq_mul, mul_one]
  rw [this, map_smul, smul_eq_mul, smul_eq_mul, mul_assoc]

theorem symmetric {f : (J → ℝ) → ℝ} (hf : ContDiff ℝ 3 f) (j k : J) (x : J → ℝ) : partialD2 f j k x = partialD2 f k j x :=
  (hf.contDiffAt.isSymmSndFDerivAt (by simp; norm_num)) _ _

/-- Integration by parts against `exp (-H)`. -/
theorem by_parts {f H : (J → ℝ) → ℝ} (hf : ContDiff ℝ 3 f) (hc : HasCompactSupport f) (hH : ContDiff ℝ 1 H) (j k : J) :
    ∫ x, partialD f j x * partialD H k x * Real.exp (-H x) = ∫ x, partialD2 f k j x * Real.exp (-H x) := by
  have hf1 : ContDiff ℝ 2 (fderiv ℝ f) := hf.fderiv_right (by norm_num)
  have hd : Differentiable ℝ (fun x => partialD f j x) := (hf1.differentiable (by norm_num)).clm_apply (differentiable_const _)
  have hg : ∀ x, HasFDerivAt (fun x => Real.exp (-H x)) (Real.exp (-H x) • -fderiv ℝ H x) x := fun x =>
    ((hH.differentiable (by norm_num) x).hasFDerivAt.neg).exp
  have e1 : ∀ x, fderiv ℝ (fun x => Real.exp (-H x)) x (unit k) = -(partialD H k x * Real.exp (-H x)) := fun x => by
    rw [(hg x).fderiv, smul_apply, neg_apply, smul_eq_mul]; ring
  have e2 : ∀ x, fderiv ℝ (fun x => partialD f j x) x (unit k) = partialD2 f k j x := fun x => by
    have := ((hf1.differentiable (by norm_num) x).hasFDerivAt.clm_apply (hasFDerivAt_const (unit j) x)).fderiv
    rw [this]; simp
  have c1 : Continuous fun x => partialD f j x := hd.continuous
  have c2 : Continuous fun x => partialD2 f k j x := by
    have : Continuous (fderiv ℝ (fderiv ℝ f)) := hf1.continuous_fderiv (by norm_num)
    exact (this.clm_apply continuous_const).clm_apply continuous_const
  have c3 : Continuous fun x => partialD H k x := (hH.continuous_fderiv (by norm_num)).clm_apply continuous_const
  have c4 : Continuous fun x => Real.exp (-H x) := Real.continuous_exp.comp hH.continuous.neg
  have s1 : HasCompactSupport fun x => partialD f j x := by
    refine (hc.fderiv ℝ).comp_left (g := fun L : (J → ℝ) →L[ℝ] ℝ => L (unit j)) ?_
    simp
  have s2 : HasCompactSupport fun x => partialD2 f k j x := by
    refine ((hc.fderiv ℝ).fderiv ℝ).comp_left (g := fun L : (J → ℝ) →L[ℝ] (J → ℝ) →L[ℝ] ℝ => L (unit k) (unit j)) ?_
    simp
  have := integral_mul_fderiv_eq_neg_fderiv_mul_of_integrable (μ := (volume : Measure (J → ℝ))) (f := fun x => partialD f j x)
    (g := fun x => Real.exp (-H x)) (v := unit k)
    (by simp only [e2]; exact (c2.mul c4).integrable_of_hasCompactSupport s2.mul_right)
    (by simp only [e1]; exact (c1.mul (c3.mul c4).neg).integrable_of_hasCompactSupport s1.mul_right)
    ((c1.mul c4).integrable_of_hasCompactSupport s1.mul_right)
    (fun x _ => hd x) (fun x _ => (hg x).differentiableAt)
  simp only [e1, e2] at this
  simp only [mul_neg, integral_neg, neg_inj] at this
  rw [← this]
  refine integral_congr_ae (.of_forall fun x => ?_)
  simp only
  ring

/-- **The complete recipe** (Ma, Chen, Fox 2015) for constant diffusion `S²/2` and constant antisymmetric `Q`: the generator of the
dynamics with drift `-(S²/2 + Q) ∇H` and noise `S` integrates to zero against `exp (-H)`. -/
theorem generator_zero {f H : (J → ℝ) → ℝ} (hf : ContDiff ℝ 3 f) (hc : HasCompactSupport f) (hH : ContDiff ℝ 1 H)
    (S : J → ℝ) (Q : J → J → ℝ) (hQ : ∀ j k, Q j k = -Q k j) :
    ∫ x, (∑ j, -(S j ^ 2 / 2 * partialD H j x + ∑ k, Q j k * partialD H k x) * partialD f j x
      + 1 / 2 * ∑ j, S j ^ 2 * partialD2 f j j x) * Real.exp (-H x) = 0 := by
  have hf1 : ContDiff ℝ 2 (fderiv ℝ f) := hf.fderiv_right (by norm_num)
  have c1 : ∀ j, Continuous fun x => partialD f j x := fun j => hf1.continuous.clm_apply continuous_const
  have c2 : ∀ k j, Continuous fun x => partialD2 f k j x := fun k j => by
    have : Continuous (fderiv ℝ (fderiv ℝ f)) := hf1.continuous_fderiv (by norm_num)
    exact (this.clm_apply continuous_const).clm_apply continuous_const
  have c3 : ∀ k, Continuous fun x => partialD H k x := fun k => (hH.continuous_fderiv (by norm_num)).clm_apply continuous_const
  have c4 : Continuous fun x => Real.exp (-H x) := Real.continuous_exp.comp hH.continuous.neg
  have s1 : ∀ j, HasCompactSupport fun x => partialD f j x := fun j => by
    refine (hc.fderiv ℝ).comp_left (g := fun L : (J → ℝ) →L[ℝ] ℝ => L (unit j)) ?_
    simp
  have s2 : ∀ k j, HasCompactSupport fun x => partialD2 f k j x := fun k j => by
    refine ((hc.fderiv ℝ).fderiv ℝ).comp_left (g := fun L : (J → ℝ) →L[ℝ] (J → ℝ) →L[ℝ] ℝ => L (unit k) (unit j)) ?_
    simp
  have i1 : ∀ j k, Integrable (fun x => partialD f j x * partialD H k x * Real.exp (-H x)) := fun j k =>
    (((c1 j).mul (c3 k)).mul c4).integrable_of_hasCompactSupport (s1 j).mul_right.mul_right
  have i2 : ∀ j k, Integrable (fun x => partialD2 f j k x * Real.exp (-H x)) := fun j k =>
    ((c2 j k).mul c4).integrable_of_hasCompactSupport (s2 j k).mul_right
  have key : ∀ x, (∑ j, -(S j ^ 2 / 2 * partialD H j x + ∑ k, Q j k * partialD H k x) * partialD f j x
      + 1 / 2 * ∑ j, S j ^ 2 * partialD2 f j j x) * Real.exp (-H x)
      = ∑ j, S j ^ 2 / 2 * (partialD2 f j j x * Real.exp (-H x) - partialD f j x * partialD H j x * Real.exp (-H x))
        - ∑ j, ∑ k, Q j k * (partialD f j x * partialD H k x * Real.exp (-H x)) := by
    intro x
    rw [add_mul, Finset.mul_sum, Finset.sum_mul, Finset.sum_mul, ← Finset.sum_add_distrib, ← Finset.sum_sub_distrib]
    refine Finset.sum_congr rfl fun j _ => ?_
    have : ∑ k, Q j k * (partialD f j x * partialD H k x * Real.exp (-H x))
        = (∑ k, Q j k * partialD H k x) * (partialD f j x * Real.exp (-H x)) := by
      rw [Finset.sum_mul]
      exact Finset.sum_congr rfl fun k _ => by ring
    rw [this]
    ring
  simp_rw [key]
  have i3 : ∀ j, Integrable (fun x => S j ^ 2 / 2 * (partialD2 f j j x * Real.exp (-H x) - partialD f j x * partialD H j x * Real.exp (-H x))) :=
    fun j => ((i2 j j).sub (i1 j j)).const_mul _
  have i4 : ∀ j, Integrable (fun x => ∑ k, Q j k * (partialD f j x * partialD H k x * Real.exp (-H x))) :=
    fun j => integrable_finsetSum _ fun k _ => (i1 j k).const_mul _
  rw [integral_sub (integrable_finsetSum _ fun j _ => i3 j) (integrable_finsetSum _ fun j _ => i4 j),
    integral_finsetSum _ (fun j _ => i3 j), integral_finsetSum _ (fun j _ => i4 j)]
  have z1 : ∀ j, ∫ x, S j ^ 2 / 2 * (partialD2 f j j x * Real.exp (-H x) - partialD f j x * partialD H j x * Real.exp (-H x)) = 0 := fun j => by
    rw [integral_const_mul, integral_sub (i2 j j) (i1 j j), by_parts hf hc hH j j, sub_self, mul_zero]
  have z2 : ∀ j, ∫ x, ∑ k, Q j k * (partialD f j x * partialD H k x * Real.exp (-H x))
      = ∑ k, Q j k * ∫ x, partialD2 f k j x * Real.exp (-H x) := fun j => by
    rw [integral_finsetSum _ (fun k _ => (i1 j k).const_mul _)]
    refine Finset.sum_congr rfl fun k _ => ?_
    rw [integral_const_mul, by_parts hf hc hH j k]
  simp only [z1, z2, Finset.sum_const_zero, zero_sub, neg_eq_zero]
  have anti : ∑ j, ∑ k, Q j k * ∫ x, partialD2 f k j x * Real.exp (-H x)
      = -∑ j, ∑ k, Q j k * ∫ x, partialD2 f k j x * Real.exp (-H x) := by
    conv_lhs => rw [Finset.sum_comm]
    rw [← Finset.sum_neg_distrib]
    refine Finset.sum_congr rfl fun j _ => ?_
    rw [← Finset.sum_neg_distrib]
    refine Finset.sum_congr rfl fun k _ => ?_
    rw [hQ k j, neg_mul]
    simp_rw [symmetric hf j k]
  linarith

end generator

end PySGMCMC.Recipe
