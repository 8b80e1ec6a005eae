import Verif.Lemmas.GaussLaw
import Verif.Spec.FullChain
import Mathlib.Analysis.SpecificLimits.Basic
import Mathlib.Tactic.Linarith
import Mathlib.Tactic.FieldSimp
import Mathlib.Tactic.LinearCombination

/-! Linear recurrences driven by independent standard normal variables. -/

namespace PySGMCMC.LinearChain
open MeasureTheory ProbabilityTheory Filter Topology Spec

/-! ## First order -/

/-- `x' = ρ x + σ z`, solved. -/
theorem first_order {ρ σ : ℝ} {x z : Nat → ℝ} (h : ∀ k, x (k + 1) = ρ * x k + σ * z k) (n : Nat) :
    x n = ρ ^ n * x 0 + ∑ j ∈ Finset.range n, σ * ρ ^ (n - 1 - j) * z j := by
  induction n with
  | zero => simp
  | succ n ih =>
    rw [h, ih, Finset.sum_range_succ, mul_add, Finset.mul_sum, pow_succ]
    have e : ∀ j ∈ Finset.range n, ρ * (σ * ρ ^ (n - 1 - j) * z j) = σ * ρ ^ (n + 1 - 1 - j) * z j := by
      intro j hj
      have : n + 1 - 1 - j = (n - 1 - j) + 1 := by have := Finset.mem_range.1 hj; omega
      rw [this, pow_succ]; ring
    rw [Finset.sum_congr rfl e]
    simp only [Nat.add_sub_cancel, Nat.sub_self, pow_zero]
    ring

theorem geom_sq (ρ σ : ℝ) (n : Nat) : ∑ j ∈ Finset.range n, (σ * ρ ^ (n - 1 - j)) ^ 2 = σ ^ 2 * ∑ j ∈ Finset.range n, (ρ ^ j) ^ 2 := by
  rw [Finset.sum_range_reflect (fun j => (σ * ρ ^ j) ^ 2) n, Finset.mul_sum]
  exact Finset.sum_congr rfl fun j _ => by ring

theorem geom_sq_tendsto {ρ : ℝ} (h : |ρ| < 1) :
    Tendsto (fun n : Nat => ∑ j ∈ Finset.range n, (ρ ^ j) ^ 2) atTop (𝓝 (1 / (1 - ρ ^ 2))) := by
  have h2 : |ρ ^ 2| < 1 := by rw [abs_pow]; exact pow_lt_one₀ (abs_nonneg _) h two_ne_zero
  have := (hasSum_geometric_of_abs_lt_one h2).tendsto_sum_nat
  rw [one_div]
  convert this using 3 with n j
  ring

/-! ## Second order -/

/-- Influence of the position and the momentum of `n` steps ago on the position. -/
noncomputable def infl (κ β : ℝ) : Nat → ℝ × ℝ
  | 0 => (1, 0)
  | n + 1 => ((infl κ β n).1 - κ * ((infl κ β n).1 + (infl κ β n).2), β * ((infl κ β n).1 + (infl κ β n).2))

/-- `p' = β p - κ x + σ z`, `x' = x + p'`, solved. -/
theorem second_order {κ β σ : ℝ} {x p z : Nat → ℝ} (hp : ∀ k, p (k + 1) = β * p k - κ * x k + σ * z k)
    (hx : ∀ k, x (k + 1) = x k + p (k + 1)) (n : Nat) : ∀ k,
    x (k + n) = (infl κ β n).1 * x k + (infl κ β n).2 * p k
      + ∑ j ∈ Finset.range n, σ * ((infl κ β (n - 1 - j)).1 + (infl κ β (n - 1 - j)).2) * z (k + j) := by
  induction n with
  | zero => intro k; simp [infl]
  | succ n ih =>
    intro k
    rw [show k + (n + 1) = (k + 1) + n by omega, ih (k + 1), Finset.sum_range_succ']
    have e : ∀ j ∈ Finset.range n, σ * ((infl κ β (n - 1 - j)).1 + (infl κ β (n - 1 - j)).2) * z (k + 1 + j)
        = σ * ((infl κ β (n + 1 - 1 - (j + 1))).1 + (infl κ β (n + 1 - 1 - (j + 1))).2) * z (k + (j + 1)) := by
      intro j _
      rw [show n + 1 - 1 - (j + 1) = n - 1 - j by omega, show k + 1 + j = k + (j + 1) by omega]
    rw [Finset.sum_congr rfl e, hx, hp]
    simp only [infl, Nat.add_sub_cancel, Nat.sub_zero, Nat.add_zero]
    ring

theorem second_sq (κ β σ : ℝ) (n : Nat) :
    ∑ j ∈ Finset.range n, (σ * ((infl κ β (n - 1 - j)).1 + (infl κ β (n - 1 - j)).2)) ^ 2
      = σ ^ 2 * ∑ j ∈ Finset.range n, ((infl κ β j).1 + (infl κ β j).2) ^ 2 := by
  rw [Finset.sum_range_reflect (fun j => (σ * ((infl κ β j).1 + (infl κ β j).2)) ^ 2) n, Finset.mul_sum]
  exact Finset.sum_congr rfl fun j _ => by ring

/-- Stationary variance of the position for `σ = 1`. -/
noncomputable def statVar (κ β : ℝ) : ℝ := (1 + β) / (2 * κ * (1 - β) * (1 + β - κ / 2))

variable {κ β : ℝ}

/-- Stationary variance of the momentum for `σ = 1`. -/
private noncomputable def momVar (κ β : ℝ) : ℝ := 1 / ((1 - β) * (1 + β - κ / 2))

private noncomputable def quad (κ β : ℝ) (n : Nat) : ℝ :=
  statVar κ β * (infl κ β n).1 ^ 2 + momVar κ β * ((infl κ β n).1 * (infl κ β n).2 + (infl κ β n).2 ^ 2)

private theorem quad_succ (hβ : β < 1) (hκ : 0 < κ) (hs : κ < 2 * (1 + β)) (n : Nat) :
    quad κ β (n + 1) = quad κ β n - ((infl κ β n).1 + (infl κ β n).2) ^ 2 := by
  simp only [quad, infl]
  generalize (infl κ β n).1 = x
  generalize (infl κ β n).2 = y
  have h1 : (1 - β) ≠ 0 := by linarith
  have h2 : 1 + β - κ / 2 ≠ 0 := by linarith
  have h3 : κ ≠ 0 := hκ.ne'
  have hT : statVar κ β = (1 + β) / (2 * κ) * momVar κ β := by
    unfold statVar momVar; field_simp
  have hP : momVar κ β * ((1 - β) * (1 + β - κ / 2)) = 1 := one_div_mul_cancel (mul_ne_zero h1 h2)
  rw [hT]
  have hk : (1 + β) / (2 * κ) * κ = (1 + β) / 2 := by field_simp
  generalize (1 + β) / (2 * κ) = t at hk
  generalize momVar κ β = q at hP
  linear_combination (-(x + y) ^ 2) * hP + q * (κ * (x + y) ^ 2 - 2 * x * (x + y)) * hk

private theorem quad_sum (hβ : β < 1) (hκ : 0 < κ) (hs : κ < 2 * (1 + β)) (n : Nat) :
    ∑ j ∈ Finset.range n, ((infl κ β j).1 + (infl κ β j).2) ^ 2 = statVar κ β - quad κ β n := by
  induction n with
  | zero => simp [quad, infl]
  | succ n ih => rw [Finset.sum_range_succ, ih, quad_succ hβ hκ hs]; ring

private theorem quad_nonneg (hβ : β < 1) (hκ : 0 < κ) (hs : κ < 2 * (1 + β)) (n : Nat) : 0 ≤ quad κ β n := by
  have h1 : 0 < 1 - β := by linarith
  have h2 : 0 < 1 + β - κ / 2 := by linarith
  have hP : 0 < momVar κ β := by unfold momVar; positivity
  have hT : momVar κ β / 4 ≤ statVar κ β := by
    have : statVar κ β = (1 + β) / (2 * κ) * momVar κ β := by
      unfold statVar momVar; field_simp
    rw [this, div_eq_mul_inv, mul_comm]
    apply mul_le_mul_of_nonneg_right _ hP.le
    rw [le_div_iff₀ (by linarith)]
    linarith
  simp only [quad]
  generalize (infl κ β n).1 = x
  generalize (infl κ β n).2 = y
  nlinarith [mul_nonneg hP.le (sq_nonneg (x / 2 + y)), mul_nonneg (sub_nonneg.2 hT) (sq_nonneg x)]

theorem infl_tendsto (hβ : β < 1) (hκ : 0 < κ) (hs : κ < 2 * (1 + β)) :
    Tendsto (fun n => (infl κ β n).1) atTop (𝓝 0) ∧ Tendsto (fun n => (infl κ β n).2) atTop (𝓝 0) := by
  have hsum : Summable fun j => ((infl κ β j).1 + (infl κ β j).2) ^ 2 := by
    refine summable_of_sum_range_le (c := statVar κ β) (fun _ => sq_nonneg _) fun n => ?_
    rw [quad_sum hβ hκ hs]
    linarith [quad_nonneg hβ hκ hs n]
  have h0 : Tendsto (fun j => (infl κ β j).1 + (infl κ β j).2) atTop (𝓝 0) := by
    have := hsum.tendsto_atTop_zero.sqrt
    simp only [Real.sqrt_sq_eq_abs, Real.sqrt_zero] at this
    exact (tendsto_zero_iff_abs_tendsto_zero _).2 this
  have h2 : Tendsto (fun n => (infl κ β n).2) atTop (𝓝 0) := by
    rw [← tendsto_add_atTop_iff_nat 1]
    have := h0.const_mul β
    rw [mul_zero] at this
    exact this
  refine ⟨?_, h2⟩
  have := h0.sub h2
  simpa using this

theorem second_tendsto (hβ : β < 1) (hκ : 0 < κ) (hs : κ < 2 * (1 + β)) :
    Tendsto (fun n => ∑ j ∈ Finset.range n, ((infl κ β j).1 + (infl κ β j).2) ^ 2) atTop (𝓝 (statVar κ β)) := by
  obtain ⟨h1, h2⟩ := infl_tendsto hβ hκ hs
  have hq : Tendsto (quad κ β) atTop (𝓝 0) := by
    have := ((h1.pow 2).const_mul (statVar κ β)).add (((h1.mul h2).add (h2.pow 2)).const_mul (momVar κ β))
    simp only [ne_eq, OfNat.ofNat_ne_zero, not_false_eq_true, zero_pow, mul_zero, add_zero] at this
    exact this
  have := (tendsto_const_nhds (x := statVar κ β)).sub hq
  rw [sub_zero] at this
  refine this.congr fun n => (quad_sum hβ hκ hs n).symm

end PySGMCMC.LinearChain
