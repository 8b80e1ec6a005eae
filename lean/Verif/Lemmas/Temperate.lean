import Verif.Lemmas.MixedPoly
import Verif.Lemmas.Recipe
import Mathlib.Analysis.Distribution.TemperateGrowth
import Mathlib.Analysis.Calculus.Deriv.Polynomial
import Mathlib.Analysis.SpecialFunctions.Trigonometric.DerivHyp
import Mathlib.Topology.Algebra.Polynomial

/-!
# Functions of temperate growth: what the cost of a network with `tanh` layers is made of
-/

namespace PySGMCMC.Temperate
open Function Polynomial Recipe

/-- Bounded solutions of `g' = p(g)` are of temperate growth. -/
theorem of_ode {g : ℝ → ℝ} (p : ℝ[X]) (hg : ∀ s, HasDerivAt g (p.eval (g s)) s) {B : ℝ} (hB : ∀ s, |g s| ≤ B) : HasTemperateGrowth g := by
  have step : ∀ q : ℝ[X], ∀ s, HasDerivAt (fun s => q.eval (g s)) ((derivative q * p).eval (g s)) s := fun q s => by
    rw [eval_mul]
    exact (q.hasDerivAt (g s)).comp s (hg s)
  have hit : ∀ n : ℕ, ∃ q : ℝ[X], iteratedDeriv n g = fun s => q.eval (g s) := by
    intro n
    induction n with
    | zero => exact ⟨X, by funext s; simp⟩
    | succ n ih =>
      obtain ⟨q, hq⟩ := ih
      refine ⟨derivative q * p, ?_⟩
      rw [iteratedDeriv_succ, hq]
      funext s
      exact (step q s).deriv
  refine ⟨contDiff_of_differentiable_iteratedDeriv fun n _ => ?_, fun n => ?_⟩
  · obtain ⟨q, hq⟩ := hit n
    rw [hq]
    exact fun s => (step q s).differentiableAt
  · obtain ⟨q, hq⟩ := hit n
    obtain ⟨C, hC⟩ := (isCompact_Icc (a := -B) (b := B)).exists_bound_of_continuousOn q.continuous.continuousOn
    refine ⟨0, C, fun s => ?_⟩
    rw [pow_zero, mul_one, norm_iteratedFDeriv_eq_norm_iteratedDeriv, hq]
    exact hC _ (abs_le.1 (hB s))

@[fun_prop]
theorem tanh : HasTemperateGrowth Real.tanh := by
  refine of_ode (1 - X ^ 2) (fun s => ?_) (B := 1) fun s => (Real.abs_tanh_lt_one s).le
  have hc := (Real.cosh_pos s).ne'
  have h := (Real.hasDerivAt_sinh s).div (Real.hasDerivAt_cosh s) hc
  have e : Real.tanh = Real.sinh / Real.cosh := by funext t; exact Real.tanh_eq_sinh_div_cosh t
  rw [e]
  refine h.congr_deriv ?_
  simp only [eval_sub, eval_one, eval_pow, eval_X, Pi.div_apply]
  field_simp

/-- The inverse of a variance that is bounded away from zero. -/
theorem inv_exp_add {c : ℝ} (hc : 0 < c) : HasTemperateGrowth fun s : ℝ => 1 / (Real.exp s + c) := by
  have hpos : ∀ s, 0 < Real.exp s + c := fun s => add_pos (Real.exp_pos s) hc
  refine of_ode (C c * X ^ 2 - X) (fun s => ?_) (B := 1 / c) fun s => ?_
  · have h := (hasDerivAt_const s (1 : ℝ)).div ((Real.hasDerivAt_exp s).add_const c) (hpos s).ne'
    refine h.congr_deriv ?_
    have := (hpos s).ne'
    simp only [eval_sub, eval_mul, eval_C, eval_pow, eval_X]
    field_simp
    ring
  · rw [abs_of_pos (one_div_pos.2 (hpos s))]
    exact one_div_le_one_div_of_le hc (by linarith [Real.exp_pos s])

section gradient
variable {J : Type*} [Fintype J] [DecidableEq J]

@[fun_prop]
theorem apply (j : J) : HasTemperateGrowth fun x : J → ℝ => x j :=
  (ContinuousLinearMap.proj (R := ℝ) (φ := fun _ : J => ℝ) j).hasTemperateGrowth

theorem partialD_le (f : (J → ℝ) → ℝ) (x : J → ℝ) (j : J) : |partialD f j x| ≤ ‖fderiv ℝ f x‖ := by
  have := (fderiv ℝ f x).le_opNorm (unit j)
  rwa [Pi.norm_single, norm_one, mul_one] at this

/-- The gradient of a function of temperate growth grows polynomially, and so do its local Lipschitz constants. -/
theorem polyGrad {f : (J → ℝ) → ℝ} (hf : HasTemperateGrowth f) :
    ∃ (A : ℝ) (k : ℕ), 0 ≤ A ∧ Mixed.PolyGrad (fun x j => partialD f j x) A k := by
  obtain ⟨k, C, hC, h⟩ := hf.norm_iteratedFDeriv_le_uniform 2
  have hf1 : ContDiff ℝ 1 (fderiv ℝ f) := hf.1.fderiv_right (m := 1) (by norm_cast)
  have h1 : ∀ x, ‖fderiv ℝ f x‖ ≤ C * (1 + ‖x‖) ^ k := fun x => by
    rw [← norm_iteratedFDeriv_one]; exact h 1 (by norm_num) x
  have h2 : ∀ x, ‖fderiv ℝ (fderiv ℝ f) x‖ ≤ C * (1 + ‖x‖) ^ k := fun x => by
    rw [← norm_iteratedFDeriv_one, norm_iteratedFDeriv_fderiv]; exact h 2 le_rfl x
  refine ⟨C, k, hC, fun x => (pi_norm_le_iff_of_nonneg (by positivity)).2 fun j => (partialD_le f x j).trans (h1 x), fun x x' => ?_⟩
  have hseg : ‖fderiv ℝ f x - fderiv ℝ f x'‖ ≤ C * (1 + ‖x‖ + ‖x'‖) ^ k * ‖x - x'‖ := by
    refine Convex.norm_image_sub_le_of_norm_fderiv_le (𝕜 := ℝ) (s := segment ℝ x' x) (fun y _ => (hf1.differentiable (by norm_num)) y)
      (fun y hy => (h2 y).trans ?_) (convex_segment _ _) (left_mem_segment ℝ x' x) (right_mem_segment ℝ x' x)
    have : ‖y‖ ≤ ‖x‖ + ‖x'‖ := by
      obtain ⟨a, b, ha, hb, hab, rfl⟩ := hy
      have e1 : a ≤ 1 := by linarith
      have e2 : b ≤ 1 := by linarith
      have n1 := norm_nonneg x
      have n2 := norm_nonneg x'
      refine (norm_add_le _ _).trans ?_
      rw [norm_smul, norm_smul, Real.norm_of_nonneg ha, Real.norm_of_nonneg hb]
      nlinarith
    gcongr C * ?_ ^ k
    linarith
  refine (pi_norm_le_iff_of_nonneg (by positivity)).2 fun j => ?_
  have e := (fderiv ℝ f x - fderiv ℝ f x').le_opNorm (unit j)
  rw [Pi.norm_single, norm_one, mul_one] at e
  exact e.trans hseg

end gradient

end PySGMCMC.Temperate
