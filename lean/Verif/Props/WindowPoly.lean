import Verif.Props.WindowBias
import Verif.Props.InvariancePoly
import Verif.Lemmas.Temperate

/-!
# Minibatch gradients of losses of temperate growth
-/

namespace PySGMCMC.Mixed

theorem PolyGrad.mono {J : Type} [Fintype J] {γ : (J → ℝ) → J → ℝ} {A A' : ℝ} {k k' : ℕ} (h : PolyGrad γ A k) (h0 : 0 ≤ A) (hA : A ≤ A') (hk : k ≤ k') :
    PolyGrad γ A' k' := by
  refine ⟨fun x => (h.growth x).trans ?_, fun x x' => (h.lip x x').trans ?_⟩
  · have : (1 : ℝ) ≤ 1 + ‖x‖ := by linarith [norm_nonneg x]
    exact mul_le_mul hA (pow_le_pow_right₀ this hk) (by positivity) (h0.trans hA)
  · have : (1 : ℝ) ≤ 1 + ‖x‖ + ‖x'‖ := by linarith [norm_nonneg x, norm_nonneg x']
    refine mul_le_mul_of_nonneg_right ?_ (norm_nonneg _)
    exact mul_le_mul hA (pow_le_pow_right₀ this hk) (by positivity) (h0.trans hA)

/-- Finitely many such gradients have common constants. -/
theorem PolyGrad.common {J : Type} [Fintype J] {κ : Type} [Fintype κ] {γ : κ → (J → ℝ) → J → ℝ}
    (h : ∀ s, ∃ (A : ℝ) (k : ℕ), 0 ≤ A ∧ PolyGrad (γ s) A k) : ∃ (A : ℝ) (k : ℕ), 0 ≤ A ∧ ∀ s, PolyGrad (γ s) A k := by
  choose A k hA h using h
  refine ⟨∑ s, A s, ∑ s, k s, Finset.sum_nonneg fun s _ => hA s, fun s => (h s).mono (hA s) ?_ ?_⟩
  · exact Finset.single_le_sum (fun s _ => hA s) (Finset.mem_univ s)
  · exact Finset.single_le_sum (fun s _ => Nat.zero_le _) (Finset.mem_univ s)

end PySGMCMC.Mixed

namespace PySGMCMC.WindowBias
open MeasureTheory Recipe Invariance DataBatches Function

variable {α : Type} {J : Type} [Fintype J] [DecidableEq J]

theorem meanLoss_temperate (ℓ : α → (J → ℝ) → ℝ) (rows : List α) (hℓ : ∀ r ∈ rows, HasTemperateGrowth (ℓ r)) : HasTemperateGrowth (meanLoss ℓ rows) := by
  have h : HasTemperateGrowth fun x => (rows.map fun r => ℓ r x).sum := by
    induction rows with
    | nil => simp only [List.map_nil, List.sum_nil]; fun_prop
    | cons r rows ih =>
      have h1 := hℓ r (by simp)
      have h2 := ih fun r hr => hℓ r (by simp [hr])
      simp only [List.map_cons, List.sum_cons]
      fun_prop
  unfold meanLoss
  simp only [div_eq_mul_inv]
  fun_prop

/-- The minibatch gradients of losses of temperate growth grow polynomially; on average they are the gradient of the weighted average loss. -/
theorem window_poly (ℓ : α → (J → ℝ) → ℝ) (data : List α) (b : Nat) (hb : 1 ≤ b) (hN : b ≤ data.length)
    (hℓ : ∀ r ∈ data, HasTemperateGrowth (ℓ r)) : ∃ (A : ℝ) (k : ℕ),
    BatchPoly (uniform (data.length - b)) (windowLoss ℓ data b) (fun s => gradient (meanLoss ℓ ((data.drop s).take b))) A k := by
  have h1 : ∀ r ∈ data, ContDiff ℝ 1 (ℓ r) := fun r hr => (hℓ r hr).1.of_le (by norm_cast)
  obtain ⟨A, k, hA, h⟩ := Mixed.PolyGrad.common (κ := Fin (data.length - b + 1)) (γ := fun s => gradient (meanLoss ℓ ((data.drop s).take b))) fun s =>
    Temperate.polyGrad (meanLoss_temperate ℓ _ fun r hr => hℓ r (List.mem_of_mem_drop (List.mem_of_mem_take hr)))
  exact ⟨A, k, window_measurable ℓ data b hb hN h1, hA, h, window_mean ℓ data b hb hN h1⟩

end PySGMCMC.WindowBias
