import Mathlib.Analysis.Normed.Group.Constructions
import Mathlib.Analysis.SpecialFunctions.Sqrt
import Mathlib.MeasureTheory.Constructions.BorelSpace.Real
import Mathlib.Tactic.Positivity
import Mathlib.Tactic.Linarith
import Mathlib.Tactic.Ring

/-!
# Updates whose gradients see a mixture of old and new values

An execution order fixes which new values the gradient of a parameter sees: only those of parameters whose gradient was
evaluated earlier.
-/

namespace PySGMCMC.Mixed

variable {J P Q : Type*} [Fintype J]

/-- The values a gradient sees: `X` where `isNew`, else `x`. -/
def seen (isNew : P → Bool) (π : J → P) (X x : J → ℝ) : J → ℝ := fun k => if isNew (π k) then X k else x k

omit [Fintype J] in
/-- New values are measurable, because a gradient only sees new values with smaller rank. -/
theorem measurable_new [MeasurableSpace Q] (isNew : P → P → Bool) (rank : P → Nat) (hrank : ∀ i j, isNew i j = true → rank j < rank i)
    (π : J → P) (X x : Q → J → ℝ) (hx : ∀ j, Measurable fun q => x q j) (Φ : J → Q × (J → ℝ) → ℝ) (hΦ : ∀ j, Measurable (Φ j))
    (h : ∀ q j, X q j = Φ j (q, seen (isNew (π j)) π (X q) (x q))) : Measurable X := by
  refine measurable_pi_iff.2 ?_
  have key : ∀ r j, rank (π j) = r → Measurable fun q => X q j := by
    intro r
    induction r using Nat.strong_induction_on with
    | _ r ih =>
      intro j hj
      have e : (fun q => X q j) = fun q => Φ j (q, seen (isNew (π j)) π (X q) (x q)) := funext fun q => h q j
      rw [e]
      refine (hΦ j).comp (measurable_id.prodMk (measurable_pi_iff.2 fun k => ?_))
      simp only [seen]
      by_cases hk : isNew (π j) (π k) = true
      · simp only [hk, if_true]
        exact ih _ (hj ▸ hrank _ _ hk) k rfl
      · simp only [hk]
        exact hx k
  exact fun j => key _ j rfl

/-- How far a step is from the step whose gradients see old values only. -/
theorem mixed_bound (γ : (J → ℝ) → J → ℝ) (Λ : ℝ) (hΛ : 0 ≤ Λ) (hlip : ∀ x x', ‖γ x - γ x'‖ ≤ Λ * ‖x - x'‖) (c x X ξ : J → ℝ) (ε : ℝ)
    (h0 : 0 ≤ ε) (h1 : ε ≤ 1) (hs : ε * (‖c‖ * Λ) ≤ 1 / 2) (isNew : J → J → Bool)
    (h : ∀ j, X j = x j + ε * (c j * γ (fun k => if isNew j k then X k else x k) j) + √ε * ξ j) :
    ‖X - (x + (ε • (fun j => c j * γ x j) + √ε • ξ))‖ ≤ ε * √ε * (‖c‖ * Λ * (2 * (‖c‖ * ‖γ x‖ + ‖ξ‖))) := by
  have hs0 := Real.sqrt_nonneg ε
  have hss := Real.mul_self_sqrt h0
  have hs1 : √ε ≤ 1 := Real.sqrt_le_one.2 h1
  have hes : ε ≤ √ε := by nlinarith
  set Δ := ‖X - x‖ with hΔ
  have hΔ0 : 0 ≤ Δ := norm_nonneg _
  have hc0 := norm_nonneg c
  have hξ0 := norm_nonneg ξ
  have hγ0 := norm_nonneg (γ x)
  have hseen : ∀ j, ‖(fun k => if isNew j k then X k else x k) - x‖ ≤ Δ := fun j => by
    refine (pi_norm_le_iff_of_nonneg hΔ0).2 fun k => ?_
    by_cases hk : isNew j k = true
    · simp only [Pi.sub_apply, hk, if_true]
      exact norm_le_pi_norm (X - x) k
    · simp [hk, hΔ0]
  have hdiff : ∀ j, |γ (fun k => if isNew j k then X k else x k) j - γ x j| ≤ Λ * Δ := fun j =>
    ((norm_le_pi_norm (γ (fun k => if isNew j k then X k else x k) - γ x) j).trans (hlip _ _)).trans
      (mul_le_mul_of_nonneg_left (hseen j) hΛ)
  have hcj : ∀ j, |c j| ≤ ‖c‖ := fun j => norm_le_pi_norm c j
  have hd : Δ ≤ ε * (‖c‖ * (‖γ x‖ + Λ * Δ)) + √ε * ‖ξ‖ := by
    refine (pi_norm_le_iff_of_nonneg (by positivity)).2 fun j => ?_
    have e : (X - x) j = ε * (c j * γ (fun k => if isNew j k then X k else x k) j) + √ε * ξ j := by
      rw [Pi.sub_apply]
      have := h j
      linarith
    rw [e, Real.norm_eq_abs]
    refine (abs_add_le _ _).trans ?_
    rw [abs_mul, abs_mul, abs_mul, abs_of_nonneg h0, abs_of_nonneg hs0]
    have hξj : |ξ j| ≤ ‖ξ‖ := norm_le_pi_norm ξ j
    have hγj : |γ (fun k => if isNew j k then X k else x k) j| ≤ ‖γ x‖ + Λ * Δ := by
      have e1 := abs_sub_abs_le_abs_sub (γ (fun k => if isNew j k then X k else x k) j) (γ x j)
      have e2 : |γ x j| ≤ ‖γ x‖ := norm_le_pi_norm (γ x) j
      linarith [hdiff j]
    have := hcj j
    gcongr
  have hΔ' : Δ ≤ √ε * (2 * (‖c‖ * ‖γ x‖ + ‖ξ‖)) := by
    have e1 : ε * (‖c‖ * Λ) * Δ ≤ 1 / 2 * Δ := mul_le_mul_of_nonneg_right hs hΔ0
    have e2 : ε * (‖c‖ * ‖γ x‖) ≤ √ε * (‖c‖ * ‖γ x‖) := by gcongr
    nlinarith
  refine (pi_norm_le_iff_of_nonneg (by positivity)).2 fun j => ?_
  have e : (X - (x + (ε • (fun j => c j * γ x j) + √ε • ξ))) j
      = ε * (c j * (γ (fun k => if isNew j k then X k else x k) j - γ x j)) := by
    simp only [Pi.sub_apply, Pi.add_apply, Pi.smul_apply, smul_eq_mul]
    have := h j
    linarith
  rw [e, Real.norm_eq_abs, abs_mul, abs_mul, abs_of_nonneg h0]
  have := hcj j
  have := hdiff j
  calc ε * (|c j| * |γ (fun k => if isNew j k then X k else x k) j - γ x j|) ≤ ε * (‖c‖ * (Λ * Δ)) := by gcongr
    _ ≤ ε * (‖c‖ * (Λ * (√ε * (2 * (‖c‖ * ‖γ x‖ + ‖ξ‖))))) := by gcongr
    _ = _ := by ring

end PySGMCMC.Mixed
