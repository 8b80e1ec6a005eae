import Verif.Lemmas.Separable

/-!
# Potentials that grow at least like a quadratic

`exp (-H)` then has finite mass and finite moments of every order.
-/

open MeasureTheory

namespace PySGMCMC.Recipe

variable {J : Type*} [Fintype J]

theorem quadratic_moment {H : (J → ℝ) → ℝ} (hm : Measurable H) (c d : ℝ) (hc : 0 < c)
    (hg : ∀ x, c * ∑ j, x j ^ 2 - d ≤ H x) (n : Nat) : Integrable fun x => ‖x‖ ^ n * Real.exp (-H x) := by
  classical
  have hq : Integrable fun x : J → ℝ => ∏ j, Real.exp (-(c / 2) * x j ^ 2) :=
    Integrable.fintype_prod fun _ => integrable_exp_neg_mul_sq (by positivity)
  refine (hq.const_mul (Real.exp d * (1 + n.factorial / (c / 2) ^ n))).mono'
    ((measurable_norm.pow_const n).mul (Real.measurable_exp.comp hm.neg)).aestronglyMeasurable (.of_forall fun x => ?_)
  rw [Real.norm_eq_abs, abs_of_nonneg (by positivity), ← Real.exp_sum, ← Finset.mul_sum]
  set S := ∑ j, x j ^ 2 with hS
  have hS0 : 0 ≤ S := Finset.sum_nonneg fun _ _ => sq_nonneg _
  have hx : ‖x‖ ^ 2 ≤ S := by
    have h1 : ‖x‖ ≤ Real.sqrt S := (pi_norm_le_iff_of_nonneg (Real.sqrt_nonneg _)).2 fun j =>
      Real.abs_le_sqrt (Finset.single_le_sum (f := fun j => x j ^ 2) (fun _ _ => sq_nonneg _) (Finset.mem_univ j))
    calc ‖x‖ ^ 2 ≤ Real.sqrt S ^ 2 := pow_le_pow_left₀ (norm_nonneg _) h1 2
      _ = S := Real.sq_sqrt hS0
  have hp : ‖x‖ ^ n ≤ (1 + n.factorial / (c / 2) ^ n) * Real.exp (c / 2 * S) := by
    have h1 : ‖x‖ ^ n ≤ 1 + S ^ n := by
      rcases le_total ‖x‖ 1 with h | h
      · exact (pow_le_one₀ (norm_nonneg _) h).trans (by linarith [pow_nonneg hS0 n])
      · have : ‖x‖ ≤ S := le_trans (by nlinarith) hx
        linarith [pow_le_pow_left₀ (norm_nonneg x) this n]
    have h2 := Real.pow_div_factorial_le_exp (x := c / 2 * S) (by positivity) n
    rw [div_le_iff₀ (by positivity), mul_pow] at h2
    have h3 : S ^ n ≤ n.factorial / (c / 2) ^ n * Real.exp (c / 2 * S) := by
      rw [div_mul_eq_mul_div, le_div_iff₀ (by positivity)]
      linarith
    have h4 : 1 ≤ Real.exp (c / 2 * S) := Real.one_le_exp (by positivity)
    linarith
  have he : Real.exp (-H x) ≤ Real.exp d * (Real.exp (-(c / 2) * S) * Real.exp (-(c / 2) * S)) := by
    rw [← Real.exp_add, ← Real.exp_add]
    exact Real.exp_le_exp.2 (by linarith [hg x])
  have e1 : Real.exp (c / 2 * S) * Real.exp (-(c / 2) * S) = 1 := by
    rw [← Real.exp_add]; simp
  calc ‖x‖ ^ n * Real.exp (-H x)
      ≤ ((1 + n.factorial / (c / 2) ^ n) * Real.exp (c / 2 * S)) * (Real.exp d * (Real.exp (-(c / 2) * S) * Real.exp (-(c / 2) * S))) := by
        gcongr
    _ = Real.exp d * (1 + n.factorial / (c / 2) ^ n) * Real.exp (-(c / 2) * S) * (Real.exp (c / 2 * S) * Real.exp (-(c / 2) * S)) := by ring
    _ = _ := by rw [e1, mul_one]

/-- A potential above a positive quadratic (up to a constant) has finite mass and moments of every order. -/
theorem quadratic_boltz {H : (J → ℝ) → ℝ} (hm : Measurable H) (c d : ℝ) (hc : 0 < c)
    (hg : ∀ x, c * ∑ j, x j ^ 2 - d ≤ H x) :
    IsFiniteMeasure (boltz H) ∧ ∀ n : Nat, Integrable (fun x : J → ℝ => ‖x‖ ^ n) (boltz H) := by
  have hi := quadratic_moment hm c d hc hg
  have hmE : Measurable fun x : J → ℝ => Real.exp (-H x) := Real.measurable_exp.comp hm.neg
  refine ⟨isFiniteMeasure_withDensity_ofReal (by simpa using (hi 0).2), fun n => ?_⟩
  unfold boltz
  rw [integrable_withDensity_iff (by fun_prop) (by simp)]
  refine (hi n).congr (.of_forall fun x => ?_)
  simp only [ENNReal.toReal_ofReal (Real.exp_pos _).le]

end PySGMCMC.Recipe
