import Verif.Lemmas.Mixed
import Mathlib.Algebra.Order.BigOperators.Group.Finset
import Mathlib.Data.Fintype.Card

/-!
# Updates whose gradients see a mixture of old and new values: gradients of polynomial growth
-/

namespace PySGMCMC.Mixed

variable {J P : Type*} [Fintype J] [Fintype P]

/-- `γ` grows at most polynomially, and so do its local Lipschitz constants. -/
structure PolyGrad (γ : (J → ℝ) → J → ℝ) (A : ℝ) (k : ℕ) : Prop where
  growth : ∀ x, ‖γ x‖ ≤ A * (1 + ‖x‖) ^ k
  lip : ∀ x x', ‖γ x - γ x'‖ ≤ A * (1 + ‖x‖ + ‖x'‖) ^ k * ‖x - x'‖

/-- Number of parameters of smaller rank. -/
def level (rank : P → Nat) (i : P) : Nat := (Finset.univ.filter fun j => rank j < rank i).card

theorem level_lt {rank : P → Nat} {i j : P} (h : rank j < rank i) : level rank j < level rank i := by
  refine Finset.card_lt_card ⟨fun k hk => ?_, fun hsub => ?_⟩
  · simp only [Finset.mem_filter, Finset.mem_univ, true_and] at hk ⊢
    omega
  · have := hsub (x := j) (by simpa using h)
    simp at this

theorem level_lt_card (rank : P → Nat) (i : P) : level rank i < Fintype.card P := by
  refine Finset.card_lt_card ⟨Finset.filter_subset _ _, fun hsub => ?_⟩
  have := hsub (Finset.mem_univ i)
  simp at this

/-- How far the new values of the parameters of level below `n` are from the old ones. -/
theorem level_bound (A : ℝ) (hA : 0 ≤ A) (k : ℕ) (c : J → ℝ) (n : ℕ) : ∃ (C : ℝ) (q : ℕ), 0 ≤ C ∧
    ∀ (γ : (J → ℝ) → J → ℝ), PolyGrad γ A k → ∀ (isNew : P → P → Bool) (rank : P → Nat), (∀ i j, isNew i j = true → rank j < rank i) →
    ∀ (π : J → P) (x X ξ : J → ℝ) (ε : ℝ), 0 ≤ ε → ε ≤ 1 →
    (∀ j, X j = x j + ε * (c j * γ (seen (isNew (π j)) π X x) j) + √ε * ξ j) →
    ∀ j, level rank (π j) < n → |X j - x j| ≤ √ε * (C * (1 + ‖x‖ + ‖ξ‖) ^ q) := by
  induction n with
  | zero => exact ⟨0, 0, le_rfl, fun _ _ _ _ _ _ _ _ _ _ _ _ _ _ h => absurd h (Nat.not_lt_zero _)⟩
  | succ n ih =>
    obtain ⟨C, q, hC, ih⟩ := ih
    refine ⟨‖c‖ * (A * (1 + C) ^ k) + 1, (q + 1) * k + 1, by positivity, fun γ hγ isNew rank hrank π x X ξ ε h0 h1 h j hj => ?_⟩
    have hs0 := Real.sqrt_nonneg ε
    have hss := Real.mul_self_sqrt h0
    have hs1 : √ε ≤ 1 := Real.sqrt_le_one.2 h1
    have hes : ε ≤ √ε := by nlinarith
    set M := 1 + ‖x‖ + ‖ξ‖ with hM
    have hM1 : 1 ≤ M := by have := norm_nonneg x; have := norm_nonneg ξ; linarith
    have hMq : 1 ≤ M ^ q := one_le_pow₀ hM1
    have hd : ‖seen (isNew (π j)) π X x - x‖ ≤ √ε * (C * M ^ q) := by
      refine (pi_norm_le_iff_of_nonneg (by positivity)).2 fun l => ?_
      unfold seen
      by_cases hl : isNew (π j) (π l) = true
      · simp only [Pi.sub_apply, hl, if_true]
        have hlev := level_lt (hrank _ _ hl)
        exact ih γ hγ isNew rank hrank π x X ξ ε h0 h1 h l (by omega)
      · simp only [Pi.sub_apply, hl]
        simp
        positivity
    have hn : 1 + ‖seen (isNew (π j)) π X x‖ ≤ (1 + C) * M ^ (q + 1) := by
      have e1 := norm_le_norm_add_norm_sub' (seen (isNew (π j)) π X x) x
      have e2 : √ε * (C * M ^ q) ≤ 1 * (C * M ^ q) := mul_le_mul_of_nonneg_right hs1 (by positivity)
      have e3 : 1 + ‖x‖ ≤ M := by have := norm_nonneg ξ; linarith
      have e4 : M ≤ M ^ (q + 1) := by rw [pow_succ]; nlinarith
      have e5 : M ^ q ≤ M ^ (q + 1) := pow_le_pow_right₀ hM1 (by omega)
      nlinarith [mul_le_mul_of_nonneg_left e5 hC]
    have hg : |γ (seen (isNew (π j)) π X x) j| ≤ A * (1 + C) ^ k * M ^ ((q + 1) * k) := by
      refine (norm_le_pi_norm (γ (seen (isNew (π j)) π X x)) j).trans ((hγ.growth _).trans ?_)
      have := pow_le_pow_left₀ (by positivity) hn k
      rw [mul_pow, ← pow_mul] at this
      rw [mul_assoc]
      exact mul_le_mul_of_nonneg_left this hA
    have e : X j - x j = ε * (c j * γ (seen (isNew (π j)) π X x) j) + √ε * ξ j := by
      have := h j
      linarith
    rw [e]
    refine (abs_add_le _ _).trans ?_
    rw [abs_mul, abs_mul, abs_mul, abs_of_nonneg h0, abs_of_nonneg hs0]
    have hc : |c j| ≤ ‖c‖ := norm_le_pi_norm c j
    have hξ : |ξ j| ≤ M := by
      have h2 : |ξ j| ≤ ‖ξ‖ := norm_le_pi_norm ξ j
      have := norm_nonneg x
      linarith
    have hMe : 1 ≤ M ^ ((q + 1) * k) := one_le_pow₀ hM1
    calc ε * (|c j| * |γ (seen (isNew (π j)) π X x) j|) + √ε * |ξ j|
        ≤ √ε * (‖c‖ * (A * (1 + C) ^ k * M ^ ((q + 1) * k))) + √ε * M := by gcongr
      _ = √ε * (‖c‖ * (A * (1 + C) ^ k) * M ^ ((q + 1) * k) * 1 + 1 * M) := by ring
      _ ≤ √ε * (‖c‖ * (A * (1 + C) ^ k) * M ^ ((q + 1) * k) * M + M ^ ((q + 1) * k) * M) := by gcongr
      _ = _ := by ring

/-- How far a step is from the step whose gradients see old values only. -/
theorem mixed_poly (A : ℝ) (hA : 0 ≤ A) (k : ℕ) (c : J → ℝ) : ∃ (C : ℝ) (q : ℕ), 0 ≤ C ∧
    ∀ (γ : (J → ℝ) → J → ℝ), PolyGrad γ A k → ∀ (isNew : P → P → Bool) (rank : P → Nat), (∀ i j, isNew i j = true → rank j < rank i) →
    ∀ (π : J → P) (x X ξ : J → ℝ) (ε : ℝ), 0 ≤ ε → ε ≤ 1 →
    (∀ j, X j = x j + ε * (c j * γ (seen (isNew (π j)) π X x) j) + √ε * ξ j) →
    ‖X - (x + (ε • (fun j => c j * γ x j) + √ε • ξ))‖ ≤ ε * √ε * (C * (1 + ‖x‖ + ‖ξ‖) ^ q) := by
  obtain ⟨C, q, hC, hb⟩ := level_bound (P := P) A hA k c (Fintype.card P)
  refine ⟨‖c‖ * (A * (2 + C) ^ k * C), (q + 1) * k + q, by positivity, fun γ hγ isNew rank hrank π x X ξ ε h0 h1 h => ?_⟩
  have hs0 := Real.sqrt_nonneg ε
  have hs1 : √ε ≤ 1 := Real.sqrt_le_one.2 h1
  have hX := fun j => hb γ hγ isNew rank hrank π x X ξ ε h0 h1 h j (level_lt_card _ _)
  set M := 1 + ‖x‖ + ‖ξ‖ with hM
  have hM1 : 1 ≤ M := by have := norm_nonneg x; have := norm_nonneg ξ; linarith
  have hd : ∀ j, ‖seen (isNew (π j)) π X x - x‖ ≤ √ε * (C * M ^ q) := fun j => by
    refine (pi_norm_le_iff_of_nonneg (by positivity)).2 fun l => ?_
    unfold seen
    by_cases hl : isNew (π j) (π l) = true
    · simp only [Pi.sub_apply, hl, if_true]
      exact hX l
    · simp only [Pi.sub_apply, hl]
      simp
      positivity
  have hn : ∀ j, 1 + ‖seen (isNew (π j)) π X x‖ + ‖x‖ ≤ (2 + C) * M ^ (q + 1) := fun j => by
    have e1 := norm_le_norm_add_norm_sub' (seen (isNew (π j)) π X x) x
    have e2 : √ε * (C * M ^ q) ≤ 1 * (C * M ^ q) := mul_le_mul_of_nonneg_right hs1 (by positivity)
    have e3 : 1 + ‖x‖ ≤ M := by have := norm_nonneg ξ; linarith
    have e4 : M ≤ M ^ (q + 1) := by
      have : 1 ≤ M ^ q := one_le_pow₀ hM1
      rw [pow_succ]; nlinarith
    have e5 : M ^ q ≤ M ^ (q + 1) := pow_le_pow_right₀ hM1 (by omega)
    nlinarith [mul_le_mul_of_nonneg_left e5 hC, hd j]
  refine (pi_norm_le_iff_of_nonneg (by positivity)).2 fun j => ?_
  have e : (X - (x + (ε • (fun j => c j * γ x j) + √ε • ξ))) j
      = ε * (c j * (γ (seen (isNew (π j)) π X x) j - γ x j)) := by
    simp only [Pi.sub_apply, Pi.add_apply, Pi.smul_apply, smul_eq_mul]
    have := h j
    linarith
  rw [e, Real.norm_eq_abs, abs_mul, abs_mul, abs_of_nonneg h0]
  have hc : |c j| ≤ ‖c‖ := norm_le_pi_norm c j
  have hg : |γ (seen (isNew (π j)) π X x) j - γ x j| ≤ A * ((2 + C) ^ k * M ^ ((q + 1) * k)) * (√ε * (C * M ^ q)) := by
    refine (norm_le_pi_norm (γ (seen (isNew (π j)) π X x) - γ x) j).trans ((hγ.lip _ _).trans ?_)
    have e1 := pow_le_pow_left₀ (by positivity) (hn j) k
    rw [mul_pow, ← pow_mul] at e1
    have := hd j
    gcongr
  calc ε * (|c j| * |γ (seen (isNew (π j)) π X x) j - γ x j|)
      ≤ ε * (‖c‖ * (A * ((2 + C) ^ k * M ^ ((q + 1) * k)) * (√ε * (C * M ^ q)))) := by gcongr
    _ = _ := by rw [pow_add]; ring

end PySGMCMC.Mixed
