import Verif.Lemmas.WeakError
import Mathlib.MeasureTheory.Integral.Pi
import Mathlib.Analysis.SpecialFunctions.ImproperIntegrals
import Mathlib.Analysis.SpecialFunctions.Gaussian.GaussianIntegral

/-!
# Densities `exp (-∑ h_j (x_j))`: finite mass and third moments
-/

open MeasureTheory

namespace PySGMCMC.Recipe

variable {J : Type*} [Fintype J] [DecidableEq J]

/-- A product density with third moments. -/
theorem separable (h : J → ℝ → ℝ) (hm : ∀ j, Measurable (h j)) (i0 : ∀ j, Integrable fun t => Real.exp (-h j t))
    (i3 : ∀ j, Integrable fun t : ℝ => |t| ^ 3 * Real.exp (-h j t)) :
    IsFiniteMeasure (boltz fun x => ∑ j, h j (x j)) ∧ Integrable (fun x : J → ℝ => ‖x‖ ^ 3) (boltz fun x => ∑ j, h j (x j)) := by
  have e : ∀ x : J → ℝ, Real.exp (-∑ j, h j (x j)) = ∏ j, Real.exp (-h j (x j)) := fun x => by
    rw [← Finset.sum_neg_distrib, Real.exp_sum]
  have hmH : Measurable fun x : J → ℝ => ∑ j, h j (x j) :=
    Finset.measurable_sum _ fun j _ => (hm j).comp (show Measurable fun x : J → ℝ => x j from measurable_pi_apply j)
  have hmE : Measurable fun x : J → ℝ => Real.exp (-∑ j, h j (x j)) := Real.measurable_exp.comp hmH.neg
  have j0 : Integrable fun x : J → ℝ => Real.exp (-∑ j, h j (x j)) := by
    simp_rw [e]; exact Integrable.fintype_prod i0
  refine ⟨isFiniteMeasure_withDensity_ofReal j0.2, ?_⟩
  unfold boltz
  rw [integrable_withDensity_iff (by fun_prop) (by simp)]
  have j3 : ∀ k, Integrable fun x : J → ℝ => |x k| ^ 3 * Real.exp (-∑ j, h j (x j)) := fun k => by
    have := Integrable.fintype_prod (ι := J) (μ := fun _ => (volume : Measure ℝ))
      (f := fun j t => if j = k then |t| ^ 3 * Real.exp (-h j t) else Real.exp (-h j t)) fun j => by
        by_cases hj : j = k
        · simp only [hj, if_true]; exact i3 k
        · simp only [hj, if_false]; exact i0 j
    refine this.congr (.of_forall fun x => ?_)
    simp only [e]
    rw [← Finset.mul_prod_erase _ _ (Finset.mem_univ k), ← Finset.mul_prod_erase _ _ (Finset.mem_univ k), if_pos rfl, mul_assoc]
    congr 2
    refine Finset.prod_congr rfl fun j hj => ?_
    rw [if_neg (Finset.ne_of_mem_erase hj)]
  refine (integrable_finsetSum Finset.univ fun k _ => j3 k).mono' ?_ (.of_forall fun x => ?_)
  · exact ((measurable_norm.pow_const 3).mul (hmE.ennreal_ofReal.ennreal_toReal)).aestronglyMeasurable
  · rw [ENNReal.toReal_ofReal (Real.exp_pos _).le, ← Finset.sum_mul, Real.norm_eq_abs, abs_of_nonneg (by positivity)]
    refine mul_le_mul_of_nonneg_right ?_ (Real.exp_pos _).le
    rcases isEmpty_or_nonempty J with hJ | hJ
    · have : x = 0 := Subsingleton.elim _ _
      simp [this]
    · obtain ⟨j, hj⟩ := Finite.exists_max fun j => ‖x j‖
      have : ‖x‖ ≤ ‖x j‖ := (pi_norm_le_iff_of_nonneg (norm_nonneg _)).2 hj
      exact (pow_le_pow_left₀ (norm_nonneg _) this 3).trans
        (Finset.single_le_sum (f := fun j => |x j| ^ 3) (fun _ _ => by positivity) (Finset.mem_univ j))

/-- A potential that grows at least linearly has all the moments needed. -/
theorem linear_growth {h : ℝ → ℝ} (hm : Measurable h) (c d : ℝ) (hc : 0 < c) (hg : ∀ t, c * |t| - d ≤ h t) :
    (Integrable fun t => Real.exp (-h t)) ∧ Integrable fun t : ℝ => |t| ^ 3 * Real.exp (-h t) := by
  have hb : ∀ t, Real.exp (-h t) ≤ Real.exp d * Real.exp (-(c * |t|)) := fun t => by
    rw [← Real.exp_add]; exact Real.exp_le_exp.2 (by linarith [hg t])
  have pw : ∀ (n : Nat) (t : ℝ), |t| ^ n * Real.exp (-(c * |t|)) ≤ n.factorial / c ^ n := fun n t => by
    have h1 := Real.pow_div_factorial_le_exp (x := c * |t|) (by positivity) n
    rw [Real.exp_neg, ← div_eq_mul_inv, div_le_div_iff₀ (Real.exp_pos _) (by positivity)]
    rw [div_le_iff₀ (by positivity), mul_pow] at h1
    linarith
  have int : ∀ n : Nat, Integrable fun t : ℝ => |t| ^ n * Real.exp (-h t) := fun n => by
    refine (integrable_inv_one_add_sq.const_mul (Real.exp d * (n.factorial / c ^ n + (n + 2).factorial / c ^ (n + 2)))).mono'
      ((measurable_norm.pow_const n).mul (Real.measurable_exp.comp hm.neg)).aestronglyMeasurable (.of_forall fun t => ?_)
    rw [Real.norm_eq_abs, abs_of_nonneg (by positivity), ← div_eq_mul_inv, le_div_iff₀ (by positivity)]
    have h1 := pw n t
    have h2 := pw (n + 2) t
    have h3 := hb t
    have h4 : |t| ^ (n + 2) = |t| ^ n * t ^ 2 := by rw [pow_add, sq_abs]
    calc |t| ^ n * Real.exp (-h t) * (1 + t ^ 2) ≤ |t| ^ n * (Real.exp d * Real.exp (-(c * |t|))) * (1 + t ^ 2) := by gcongr
      _ = Real.exp d * (|t| ^ n * Real.exp (-(c * |t|)) + |t| ^ (n + 2) * Real.exp (-(c * |t|))) := by rw [h4]; ring
      _ ≤ _ := by gcongr
  refine ⟨?_, int 3⟩
  simpa using int 0

/-- Half the squared norm. -/
noncomputable def halfSq (x : J → ℝ) : ℝ := ∑ j, x j ^ 2 / 2

omit [DecidableEq J] in
theorem halfSq_smooth : ContDiff ℝ 1 (halfSq : (J → ℝ) → ℝ) := by
  unfold halfSq
  fun_prop

theorem halfSq_partial (j : J) (x : J → ℝ) : partialD halfSq j x = x j := by
  have h : ∀ k : J, HasFDerivAt (fun x : J → ℝ => x k ^ 2 / 2) ((x k) • (ContinuousLinearMap.proj k : (J → ℝ) →L[ℝ] ℝ)) x := fun k => by
    have h1 : HasFDerivAt (fun x : J → ℝ => x k) (ContinuousLinearMap.proj k : (J → ℝ) →L[ℝ] ℝ) x := hasFDerivAt_apply k x
    have h2 := (h1.pow 2).const_mul (1 / 2)
    refine (h2.congr_fderiv ?_).congr_of_eventuallyEq (.of_forall fun y => ?_)
    · ext v; simp; ring
    · simp only [Pi.pow_apply]; ring
  have hs := HasFDerivAt.fun_sum (u := Finset.univ) fun k _ => h k
  show fderiv ℝ (fun x : J → ℝ => ∑ k, x k ^ 2 / 2) x (unit j) = x j
  rw [hs.fderiv, sum_apply]
  rw [Finset.sum_eq_single j]
  · simp [unit]
  · intro k _ hk; simp [unit, hk]
  · simp

end PySGMCMC.Recipe
