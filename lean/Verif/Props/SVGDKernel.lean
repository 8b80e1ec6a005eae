import Verif.Props.SVGD
import Mathlib.Analysis.SpecialFunctions.Exponential
import Mathlib.Analysis.SpecialFunctions.ExpDeriv
import Mathlib.Algebra.BigOperators.Ring.Finset

/-!
# C97: the SVGD kernel and its gradient
-/

namespace PySGMCMC.SVGD

variable {n d : Nat}

/-- The Gaussian kernel of squared width `h2` at two points. -/
noncomputable def gauss (h2 : ℝ) (p q : Fin d → ℝ) : ℝ := Real.exp (-(∑ a, (p a - q a) ^ 2) / (2 * h2))

/-! ### Positive semidefinite -/

theorem dot_pow (p q : Fin d → ℝ) (m : Nat) :
    (∑ a, p a * q a) ^ m = ∑ f : Fin m → Fin d, (∏ t, p (f t)) * ∏ t, q (f t) := by
  have h := Finset.prod_univ_sum (fun _ : Fin m => (Finset.univ : Finset (Fin d))) (fun _ a => p a * q a)
  rw [Finset.prod_const, Finset.card_univ, Fintype.card_fin] at h
  rw [h, Fintype.piFinset_univ]
  exact Finset.sum_congr rfl fun f _ => Finset.prod_mul_distrib

theorem dot_pow_psd (x : Fin n → Fin d → ℝ) (c : Fin n → ℝ) (m : Nat) :
    0 ≤ ∑ i, ∑ j, c i * c j * (∑ a, x i a * x j a) ^ m := by
  have : ∑ i, ∑ j, c i * c j * (∑ a, x i a * x j a) ^ m = ∑ f : Fin m → Fin d, (∑ i, c i * ∏ t, x i (f t)) ^ 2 := by
    have e : ∀ f : Fin m → Fin d, (∑ i, c i * ∏ t, x i (f t)) ^ 2
        = ∑ i, ∑ j, c i * c j * ((∏ t, x i (f t)) * ∏ t, x j (f t)) := by
      intro f
      rw [sq, Finset.sum_mul_sum]
      refine Finset.sum_congr rfl fun i _ => Finset.sum_congr rfl fun j _ => by ring
    simp only [e, dot_pow, Finset.mul_sum]
    calc ∑ i, ∑ j, ∑ f : Fin m → Fin d, c i * c j * ((∏ t, x i (f t)) * ∏ t, x j (f t))
        = ∑ i, ∑ f : Fin m → Fin d, ∑ j, c i * c j * ((∏ t, x i (f t)) * ∏ t, x j (f t)) :=
          Finset.sum_congr rfl fun i _ => Finset.sum_comm
      _ = _ := Finset.sum_comm
  rw [this]
  exact Finset.sum_nonneg fun f _ => sq_nonneg _

theorem exp_dot_psd (x : Fin n → Fin d → ℝ) (c : Fin n → ℝ) (t : ℝ) (ht : 0 ≤ t) :
    0 ≤ ∑ i, ∑ j, c i * c j * Real.exp (t * ∑ a, x i a * x j a) := by
  have hs : ∀ i j, HasSum (fun m : Nat => c i * c j * ((t * ∑ a, x i a * x j a) ^ m / m.factorial))
      (c i * c j * Real.exp (t * ∑ a, x i a * x j a)) := by
    intro i j
    rw [Real.exp_eq_exp_ℝ]
    exact (NormedSpace.expSeries_div_hasSum_exp (t * ∑ a, x i a * x j a)).mul_left _
  have hs2 := hasSum_sum (s := Finset.univ) fun i _ => hasSum_sum (s := Finset.univ) fun j _ => hs i j
  refine hs2.nonneg fun m => ?_
  have : ∑ i, ∑ j, c i * c j * ((t * ∑ a, x i a * x j a) ^ m / m.factorial)
      = t ^ m / m.factorial * ∑ i, ∑ j, c i * c j * (∑ a, x i a * x j a) ^ m := by
    rw [Finset.mul_sum]
    refine Finset.sum_congr rfl fun i _ => ?_
    rw [Finset.mul_sum]
    refine Finset.sum_congr rfl fun j _ => ?_
    rw [mul_pow]
    ring
  rw [this]
  exact mul_nonneg (by positivity) (dot_pow_psd x c m)

theorem gauss_psd (h2 : ℝ) (hh : 0 < h2) (x : Fin n → Fin d → ℝ) (c : Fin n → ℝ) :
    0 ≤ ∑ i, ∑ j, c i * c j * gauss h2 (x i) (x j) := by
  have h := exp_dot_psd x (fun i => c i * Real.exp (-(∑ a, x i a ^ 2) / (2 * h2))) (1 / h2) (by positivity)
  refine h.trans_eq (Finset.sum_congr rfl fun i _ => Finset.sum_congr rfl fun j _ => ?_)
  unfold gauss
  have : -(∑ a, (x i a - x j a) ^ 2) / (2 * h2)
      = -(∑ a, x i a ^ 2) / (2 * h2) + -(∑ a, x j a ^ 2) / (2 * h2) + 1 / h2 * ∑ a, x i a * x j a := by
    have e : ∑ a, (x i a - x j a) ^ 2 = ∑ a, x i a ^ 2 + ∑ a, x j a ^ 2 - 2 * ∑ a, x i a * x j a := by
      rw [Finset.mul_sum, ← Finset.sum_add_distrib, ← Finset.sum_sub_distrib]
      exact Finset.sum_congr rfl fun a _ => by ring
    rw [e]
    field_simp
    ring
  rw [this, Real.exp_add, Real.exp_add]
  ring

/-! ### The gradient -/

/-- Derivative of the kernel with respect to coordinate `a` of its first point. -/
theorem gauss_deriv (h2 : ℝ) (hh : 0 < h2) (p q : Fin d → ℝ) (a : Fin d) :
    HasDerivAt (fun t => gauss h2 (Function.update p a t) q) (gauss h2 p q * (q a - p a) / h2) (p a) := by
  have hsum : ∀ t, ∑ b, (Function.update p a t b - q b) ^ 2 = (t - q a) ^ 2 + ∑ b ∈ Finset.univ.erase a, (p b - q b) ^ 2 := by
    intro t
    rw [← Finset.add_sum_erase _ _ (Finset.mem_univ a)]
    congr 1
    · simp
    · refine Finset.sum_congr rfl fun b hb => ?_
      rw [Function.update_of_ne (Finset.ne_of_mem_erase hb)]
  have hp : ∑ b, (p b - q b) ^ 2 = (p a - q a) ^ 2 + ∑ b ∈ Finset.univ.erase a, (p b - q b) ^ 2 := by
    rw [← hsum (p a), Function.update_eq_self]
  unfold gauss
  simp only [hsum]
  have h1 : HasDerivAt (fun t => -((t - q a) ^ 2 + ∑ b ∈ Finset.univ.erase a, (p b - q b) ^ 2) / (2 * h2))
      (-(2 * (p a - q a)) / (2 * h2)) (p a) := by
    have h := ((((hasDerivAt_id (p a)).sub_const (q a)).pow 2).add_const
      (∑ b ∈ Finset.univ.erase a, (p b - q b) ^ 2)).neg.div_const (2 * h2)
    have e : -((2 : ℕ) * (id (p a) - q a) ^ (2 - 1) * 1) / (2 * h2) = -(2 * (p a - q a)) / (2 * h2) := by
      simp
    rw [← e]
    exact h
  convert h1.exp using 1
  rw [hp]
  field_simp
  ring

/-- **C97** For at least two pairwise distinct particles, `svgd_kernel` returns the matrix of a Gaussian kernel, which is positive
semidefinite, and, for each particle, the sum of the gradients of the kernel with respect to the other (first) argument. -/
theorem C97_kernel_gradient (hn : 2 ≤ n) (x : Fin n → Fin d → ℝ) (hx : Function.Injective x) :
    ∃ (h2 : ℝ) (k : Kernel n d) (D : Fin n → Fin n → Fin d → ℝ), 0 < h2 ∧ svgdKernel x = .ok k
      ∧ (∀ i j, k.matrix i j = .fin (gauss h2 (x j) (x i)))
      ∧ (∀ i j a, HasDerivAt (fun t => gauss h2 (Function.update (x j) a t) (x i)) (D i j a) (x j a))
      ∧ (∀ i a, k.grads i a = .fin (∑ j, D i j a))
      ∧ ∀ c : Fin n → ℝ, 0 ≤ ∑ i, ∑ j, c i * c j * gauss h2 (x j) (x i) := by
  obtain ⟨med, h2, k, K, G, -, -, hpos, hk, hK, hG, hKe, hsym, -, -, hGe, -⟩ := C41_kernel hn x hx
  have hKg : ∀ i j, K i j = gauss h2 (x j) (x i) := by
    intro i j
    rw [hsym, hKe]
    rfl
  refine ⟨h2, k, fun i j a => gauss h2 (x j) (x i) * (x i a - x j a) / h2, hpos, hk, fun i j => by rw [hK, hKg],
    fun i j a => gauss_deriv h2 hpos (x j) (x i) a, fun i a => ?_, fun c => ?_⟩
  · rw [hG, hGe, Finset.sum_div]
    congr 1
    exact Finset.sum_congr rfl fun j _ => by rw [hKg]
  · have := gauss_psd h2 hpos x c
    rw [Finset.sum_comm] at this
    exact this.trans_eq (Finset.sum_congr rfl fun i _ => Finset.sum_congr rfl fun j _ => by ring)

/-- **C97** In each step the kernel-weighted cost gradients form a direction along which the summed cost of the particles does not
decrease to first order (the particles are moved against it). -/
theorem C97_descent (hn : 2 ≤ n) (x : Fin n → Fin d → ℝ) (hx : Function.Injective x) (γ : Fin n → Fin d → ℝ) :
    ∃ (k : Kernel n d) (K : Fin n → Fin n → ℝ), svgdKernel x = .ok k ∧ (∀ i j, k.matrix i j = .fin (K i j))
      ∧ 0 ≤ ∑ i, ∑ a, γ i a * ∑ j, K i j * γ j a := by
  obtain ⟨h2, k, -, -, hk, hK, -, -, hpsd⟩ := C97_kernel_gradient hn x hx
  refine ⟨k, fun i j => gauss h2 (x j) (x i), hk, hK, ?_⟩
  rw [Finset.sum_comm]
  refine Finset.sum_nonneg fun a _ => ?_
  have := hpsd fun i => γ i a
  refine this.trans_eq (Finset.sum_congr rfl fun i _ => ?_)
  rw [Finset.mul_sum]
  exact Finset.sum_congr rfl fun j _ => by ring

/-- Three particles in the plane. -/
example : (2 ≤ 3) ∧ Function.Injective three := ⟨by norm_num, three_injective⟩

end PySGMCMC.SVGD
