import Verif.Props.SghmcInvariance
import Verif.Props.InvariancePoly

/-!
# C105 for gradients of polynomial growth
-/

namespace PySGMCMC.Invariance
open MeasureTheory Recipe

section analysis
variable {J P : Type} [Fintype J] [Fintype P]

/-- The size of the new momenta of the parameters of level below `n`; the old momentum is `ε w`. -/
theorem level_momentum (A : ℝ) (hA : 0 ≤ A) (k : ℕ) (m ρ : J → ℝ) (α : ℝ) (n : ℕ) : ∃ (C : ℝ) (q : ℕ), 0 ≤ C ∧
    ∀ (γ : (J → ℝ) → J → ℝ), Mixed.PolyGrad γ A k → ∀ (isNew : P → P → Bool) (rank : P → Nat), (∀ i j, isNew i j = true → rank j < rank i) →
    ∀ (p : J → P) (θ w V' y z r : J → ℝ) (ε : ℝ), 0 ≤ ε → ε ≤ 1 → (∀ j, |r j| ≤ ‖ρ‖) →
    (∀ j, V' j = ε * w j - ε ^ 2 * m j * γ (Mixed.seen (isNew (p j)) p (fun k => θ k + V' k) θ) j - α * (ε * w j) + ε * r j * z j) →
    (∀ j, y j = θ j + (1 - α) / α * (ε * w j)) →
    ∀ j, Mixed.level rank (p j) < n → |V' j| ≤ ε * (C * (1 + ‖y‖ + ‖z‖ + ‖w‖) ^ q) := by
  induction n with
  | zero => exact ⟨0, 0, le_rfl, fun _ _ _ _ _ _ _ _ _ _ _ _ _ _ _ _ _ _ _ h => absurd h (Nat.not_lt_zero _)⟩
  | succ n ih =>
    obtain ⟨C, q, hC, ih⟩ := ih
    set κ := |(1 - α) / α| with hκ
    have hκ0 : 0 ≤ κ := abs_nonneg _
    refine ⟨|1 - α| + ‖m‖ * (A * (1 + κ + C) ^ k) + ‖ρ‖, (q + 1) * k + 1, by positivity,
      fun γ hγ isNew rank hrank p θ w V' y z r ε h0 h1 hr hV hy j hj => ?_⟩
    set M := 1 + ‖y‖ + ‖z‖ + ‖w‖ with hM
    have hy0 := norm_nonneg y
    have hz0 := norm_nonneg z
    have hw0 := norm_nonneg w
    have hM1 : 1 ≤ M := by linarith
    have hMq : 1 ≤ M ^ q := one_le_pow₀ hM1
    have hθ : ∀ l, |θ l| ≤ ‖y‖ + κ * ‖w‖ := fun l => by
      have e : θ l = y l - (1 - α) / α * (ε * w l) := by rw [hy l]; ring
      have h2 : |(1 - α) / α * (ε * w l)| ≤ κ * ‖w‖ := by
        rw [abs_mul, abs_mul, abs_of_nonneg h0]
        have : |w l| ≤ ‖w‖ := norm_le_pi_norm w l
        calc κ * (ε * |w l|) ≤ κ * (1 * ‖w‖) := by gcongr
          _ = _ := by rw [one_mul]
      rw [e]
      exact (abs_sub _ _).trans (add_le_add (norm_le_pi_norm y l) h2)
    have hn : 1 + ‖Mixed.seen (isNew (p j)) p (fun k => θ k + V' k) θ‖ ≤ (1 + κ + C) * M ^ (q + 1) := by
      have e0 : ‖Mixed.seen (isNew (p j)) p (fun k => θ k + V' k) θ‖ ≤ ‖y‖ + κ * ‖w‖ + C * M ^ q := by
        refine (pi_norm_le_iff_of_nonneg (by positivity)).2 fun l => ?_
        unfold Mixed.seen
        by_cases hl : isNew (p j) (p l) = true
        · simp only [hl, if_true]
          have hlev := Mixed.level_lt (hrank _ _ hl)
          have h2 := ih γ hγ isNew rank hrank p θ w V' y z r ε h0 h1 hr hV hy l (by omega)
          have h3 : ε * (C * M ^ q) ≤ 1 * (C * M ^ q) := mul_le_mul_of_nonneg_right h1 (by positivity)
          refine (norm_add_le _ _).trans (add_le_add (hθ l) (h2.trans ?_))
          rwa [one_mul] at h3
        · simp only [hl]
          refine (hθ l).trans ?_
          have : 0 ≤ C * M ^ q := by positivity
          linarith
      have e4 : M ≤ M ^ (q + 1) := by rw [pow_succ]; nlinarith
      have e5 : M ^ q ≤ M ^ (q + 1) := pow_le_pow_right₀ hM1 (by omega)
      have e6 : 1 + ‖y‖ ≤ M := by linarith
      have e7 : κ * ‖w‖ ≤ κ * M ^ (q + 1) := mul_le_mul_of_nonneg_left (by linarith) hκ0
      nlinarith [mul_le_mul_of_nonneg_left e5 hC]
    have hg : |γ (Mixed.seen (isNew (p j)) p (fun k => θ k + V' k) θ) j| ≤ A * (1 + κ + C) ^ k * M ^ ((q + 1) * k) := by
      refine (norm_le_pi_norm (γ (Mixed.seen (isNew (p j)) p (fun k => θ k + V' k) θ)) j).trans ((hγ.growth _).trans ?_)
      have := pow_le_pow_left₀ (by positivity) hn k
      rw [mul_pow, ← pow_mul] at this
      rw [mul_assoc]
      exact mul_le_mul_of_nonneg_left this hA
    have e : V' j = ε * ((1 - α) * w j) - ε ^ 2 * (m j * γ (Mixed.seen (isNew (p j)) p (fun k => θ k + V' k) θ) j) + ε * (r j * z j) := by
      conv_lhs => rw [hV j]
      ring
    rw [e]
    have hwj : |w j| ≤ M := (norm_le_pi_norm w j).trans (by linarith)
    have hzj : |z j| ≤ M := (norm_le_pi_norm z j).trans (by linarith)
    have hmj : |m j| ≤ ‖m‖ := norm_le_pi_norm m j
    have hrj := hr j
    have hMe : 1 ≤ M ^ ((q + 1) * k) := one_le_pow₀ hM1
    have hε2 : ε ^ 2 ≤ ε := by nlinarith
    have b : |ε * ((1 - α) * w j) - ε ^ 2 * (m j * γ (Mixed.seen (isNew (p j)) p (fun k => θ k + V' k) θ) j) + ε * (r j * z j)|
        ≤ ε * (|1 - α| * |w j|) + ε ^ 2 * (|m j| * |γ (Mixed.seen (isNew (p j)) p (fun k => θ k + V' k) θ) j|) + ε * (|r j| * |z j|) := by
      refine (abs_add_le _ _).trans (add_le_add ((abs_sub _ _).trans (le_of_eq ?_)) (le_of_eq ?_))
      · rw [abs_mul, abs_mul, abs_mul, abs_mul, abs_of_nonneg h0, abs_of_nonneg (sq_nonneg ε)]
      · rw [abs_mul, abs_mul, abs_of_nonneg h0]
    refine b.trans ?_
    calc ε * (|1 - α| * |w j|) + ε ^ 2 * (|m j| * |γ (Mixed.seen (isNew (p j)) p (fun k => θ k + V' k) θ) j|) + ε * (|r j| * |z j|)
        ≤ ε * (|1 - α| * M) + ε * (‖m‖ * (A * (1 + κ + C) ^ k * M ^ ((q + 1) * k))) + ε * (‖ρ‖ * M) := by gcongr
      _ = ε * (|1 - α| * (1 * M) + ‖m‖ * (A * (1 + κ + C) ^ k) * (M ^ ((q + 1) * k) * 1) + ‖ρ‖ * (1 * M)) := by ring
      _ ≤ ε * (|1 - α| * (M ^ ((q + 1) * k) * M) + ‖m‖ * (A * (1 + κ + C) ^ k) * (M ^ ((q + 1) * k) * M) + ‖ρ‖ * (M ^ ((q + 1) * k) * M)) := by
          gcongr
      _ = _ := by rw [pow_succ]; ring

/-- How far the resting point is from a Langevin step; the old momentum is `ε w`. -/
theorem rest_poly (A : ℝ) (hA : 0 ≤ A) (k : ℕ) (m ρ τ : J → ℝ) (α : ℝ) (hα : 0 < α) : ∃ (C : ℝ) (q : ℕ), 0 ≤ C ∧
    ∀ (γ : (J → ℝ) → J → ℝ), Mixed.PolyGrad γ A k → ∀ (isNew : P → P → Bool) (rank : P → Nat), (∀ i j, isNew i j = true → rank j < rank i) →
    ∀ (p : J → P) (θ w V' y z r : J → ℝ) (ε : ℝ), 0 ≤ ε → ε ≤ 1 → (∀ j, 0 ≤ r j) → (∀ j, r j ≤ ρ j) → (∀ j, |r j - ρ j| ≤ ε ^ 2 * τ j) →
    (∀ j, V' j = ε * w j - ε ^ 2 * m j * γ (Mixed.seen (isNew (p j)) p (fun k => θ k + V' k) θ) j - α * (ε * w j) + ε * r j * z j) →
    (∀ j, y j = θ j + (1 - α) / α * (ε * w j)) →
    ‖(fun j => θ j + V' j + (1 - α) / α * V' j) - (y + (ε ^ 2 • (fun j => -(m j / α) * γ y j) + ε • ((fun j => ρ j / α) * z)))‖
      ≤ ε ^ 3 * (C * (1 + ‖y‖ + ‖z‖ + ‖w‖) ^ q) := by
  obtain ⟨C, q, hC, hb⟩ := level_momentum (P := P) A hA k m ρ α (Fintype.card P)
  set κ := |(1 - α) / α| with hκ
  have hκ0 : 0 ≤ κ := abs_nonneg _
  refine ⟨‖m‖ * (A * (2 + κ + C) ^ k * (C + κ)) / α + ‖τ‖ / α, (q + 1) * k + (q + 1), by positivity,
    fun γ hγ isNew rank hrank p θ w V' y z r ε h0 h1 hr0 hr hτ hV hy => ?_⟩
  have hrj : ∀ j, |r j| ≤ ‖ρ‖ := fun j => by
    rw [abs_of_nonneg (hr0 j)]
    exact (hr j).trans ((le_abs_self _).trans (norm_le_pi_norm ρ j))
  have hX := fun j => hb γ hγ isNew rank hrank p θ w V' y z r ε h0 h1 hrj hV hy j (Mixed.level_lt_card _ _)
  set M := 1 + ‖y‖ + ‖z‖ + ‖w‖ with hM
  have hy0 := norm_nonneg y
  have hz0 := norm_nonneg z
  have hw0 := norm_nonneg w
  have hM1 : 1 ≤ M := by linarith
  have hMq : 1 ≤ M ^ q := one_le_pow₀ hM1
  have e4 : M ≤ M ^ (q + 1) := by rw [pow_succ]; nlinarith
  have e5 : M ^ q ≤ M ^ (q + 1) := pow_le_pow_right₀ hM1 (by omega)
  have hd : ∀ j, ‖Mixed.seen (isNew (p j)) p (fun k => θ k + V' k) θ - y‖ ≤ ε * ((C + κ) * M ^ (q + 1)) := fun j => by
    refine (pi_norm_le_iff_of_nonneg (by positivity)).2 fun l => ?_
    have hwl : |w l| ≤ M := (norm_le_pi_norm w l).trans (by linarith)
    have h2 : |(1 - α) / α * (ε * w l)| ≤ ε * (κ * M ^ (q + 1)) := by
      rw [abs_mul, abs_mul, abs_of_nonneg h0]
      calc κ * (ε * |w l|) ≤ κ * (ε * M ^ (q + 1)) := by gcongr; exact hwl.trans e4
        _ = _ := by ring
    have h3 : ε * (C * M ^ q) ≤ ε * (C * M ^ (q + 1)) := by gcongr
    have h4 : 0 ≤ ε * (C * M ^ (q + 1)) := by positivity
    have h5 : ε * ((C + κ) * M ^ (q + 1)) = ε * (C * M ^ (q + 1)) + ε * (κ * M ^ (q + 1)) := by ring
    unfold Mixed.seen
    simp only [Pi.sub_apply, hy, Real.norm_eq_abs]
    by_cases hl : isNew (p j) (p l) = true
    · rw [if_pos hl, show θ l + V' l - (θ l + (1 - α) / α * (ε * w l)) = V' l - (1 - α) / α * (ε * w l) by ring]
      have := (abs_sub (V' l) ((1 - α) / α * (ε * w l)))
      linarith [hX l]
    · rw [if_neg hl, show θ l - (θ l + (1 - α) / α * (ε * w l)) = -((1 - α) / α * (ε * w l)) by ring, abs_neg]
      linarith
  have hn : ∀ j, 1 + ‖Mixed.seen (isNew (p j)) p (fun k => θ k + V' k) θ‖ + ‖y‖ ≤ (2 + κ + C) * M ^ (q + 1) := fun j => by
    have e1 := norm_le_norm_add_norm_sub' (Mixed.seen (isNew (p j)) p (fun k => θ k + V' k) θ) y
    have e2 : ε * ((C + κ) * M ^ (q + 1)) ≤ 1 * ((C + κ) * M ^ (q + 1)) := mul_le_mul_of_nonneg_right h1 (by positivity)
    have e6 : 1 + ‖y‖ ≤ M ^ (q + 1) := by linarith
    have e7 : ‖y‖ ≤ M ^ (q + 1) := by linarith
    nlinarith [hd j]
  refine (pi_norm_le_iff_of_nonneg (by positivity)).2 fun j => ?_
  have e : ((fun j => θ j + V' j + (1 - α) / α * V' j)
      - (y + (ε ^ 2 • (fun j => -(m j / α) * γ y j) + ε • ((fun j => ρ j / α) * z)))) j
      = -(ε ^ 2 / α * (m j * (γ (Mixed.seen (isNew (p j)) p (fun k => θ k + V' k) θ) j - γ y j))) + ε / α * ((r j - ρ j) * z j) := by
    simp only [Pi.sub_apply, Pi.add_apply, Pi.smul_apply, Pi.mul_apply, smul_eq_mul, hy]
    have hV1 : V' j + (1 - α) / α * V' j = V' j / α := by field_simp; ring
    rw [add_assoc, hV1]
    conv_lhs => rw [hV j]
    field_simp
    ring
  rw [e, Real.norm_eq_abs]
  have hmj : |m j| ≤ ‖m‖ := norm_le_pi_norm m j
  have hg : |γ (Mixed.seen (isNew (p j)) p (fun k => θ k + V' k) θ) j - γ y j|
      ≤ A * ((2 + κ + C) ^ k * M ^ ((q + 1) * k)) * (ε * ((C + κ) * M ^ (q + 1))) := by
    refine (norm_le_pi_norm (γ (Mixed.seen (isNew (p j)) p (fun k => θ k + V' k) θ) - γ y) j).trans ((hγ.lip _ _).trans ?_)
    have e1 := pow_le_pow_left₀ (by positivity) (hn j) k
    rw [mul_pow, ← pow_mul] at e1
    have := hd j
    gcongr
  have b1 : |ε ^ 2 / α * (m j * (γ (Mixed.seen (isNew (p j)) p (fun k => θ k + V' k) θ) j - γ y j))|
      ≤ ε ^ 2 / α * (‖m‖ * (A * ((2 + κ + C) ^ k * M ^ ((q + 1) * k)) * (ε * ((C + κ) * M ^ (q + 1))))) := by
    rw [abs_mul, abs_of_nonneg (by positivity), abs_mul]
    gcongr
  have hzj : |z j| ≤ M ^ ((q + 1) * k + (q + 1)) := by
    refine (norm_le_pi_norm z j).trans ?_
    have : M ^ 1 ≤ M ^ ((q + 1) * k + (q + 1)) := pow_le_pow_right₀ hM1 (by omega)
    rw [pow_one] at this
    linarith
  have hτj : |r j - ρ j| ≤ ε ^ 2 * ‖τ‖ :=
    (hτ j).trans (mul_le_mul_of_nonneg_left ((le_abs_self _).trans (norm_le_pi_norm τ j)) (sq_nonneg ε))
  have b2 : |ε / α * ((r j - ρ j) * z j)| ≤ ε / α * (ε ^ 2 * ‖τ‖ * M ^ ((q + 1) * k + (q + 1))) := by
    rw [abs_mul, abs_of_nonneg (by positivity), abs_mul]
    gcongr
  refine (abs_add_le _ _).trans ?_
  rw [abs_neg]
  refine (add_le_add b1 b2).trans (le_of_eq ?_)
  rw [pow_add]
  field_simp
  ring

end analysis

section step
variable {J P : Type} [Fintype J] [DecidableEq J] [Fintype P] {Bt : Type} [MeasurableSpace Bt]

/-- One step of the resting point; the old momentum is `ε w`. -/
theorem rest_step_poly (U : (J → ℝ) → ℝ) (hU : ContDiff ℝ 1 U) (α scale c₀ : ℝ) (hα : 0 < α) (hs : 0 < scale)
    (m : J → ℝ) (hm : ∀ j, 0 < m j) (ν : Measure Bt) [IsProbabilityMeasure ν] (γ : Bt → (J → ℝ) → J → ℝ) (A : ℝ) (k : ℕ)
    (hγ : BatchPoly ν U γ A k) (N : Measure (J → ℝ)) (hN : UnitNoise N) (mN : Moments N)
    (π : Measure (J → ℝ)) (hπ : π = boltz fun x => scale * U x + c₀) [IsFiniteMeasure π] (mπ : Moments π)
    (f : (J → ℝ) → ℝ) (hf : ContDiff ℝ 3 f) (hc : HasCompactSupport f) :
    ∃ (K : ℝ) (d : ℕ), ∀ ε W, 0 ≤ ε → 0 ≤ W → ∀ (Ω : Type) [MeasurableSpace Ω] (μ : Measure Ω) [IsFiniteMeasure μ]
      (θ w V' z : Ω → J → ℝ) (β : Ω → Bt),
      Measurable θ → Measurable w → Measurable V' → Measurable z → Measurable β →
      μ.map (fun ω => ((fun j => θ ω j + (1 - α) / α * (ε * w ω j), β ω), z ω)) = (π.prod ν).prod N →
      Integrable (fun ω => (1 + ‖w ω‖) ^ d) μ → ∫ ω, (1 + ‖w ω‖) ^ d ∂μ ≤ W →
      ∀ (isNew : P → P → Bool) (rank : P → Nat), (∀ i j, isNew i j = true → rank j < rank i) → ∀ p : J → P,
      (∀ ω j, V' ω j = ε * w ω j - ε ^ 2 * m j * γ (β ω) (Mixed.seen (isNew (p j)) p (fun k => θ ω k + V' ω k) (θ ω)) j
        - α * (ε * w ω j) + ε * √(2 * α * m j / scale - ε ^ 2 / scale ^ 2) * z ω j) →
      |∫ ω, f (fun j => θ ω j + V' ω j + (1 - α) / α * V' ω j) ∂μ - ∫ x, f x ∂π| ≤ K * (1 + W) * ε ^ 3 := by
  subst hπ
  have := hN.prob
  have hA := hγ.nonneg
  set π := boltz fun x => scale * U x + c₀ with hπ
  set ρ : J → ℝ := fun j => √(2 * α * m j / scale) with hρ
  set τ : J → ℝ := fun j => 1 / scale ^ 2 / ρ j with hτ
  set S : J → ℝ := fun j => ρ j / α with hS
  have hS2 : ∀ j, S j ^ 2 = 2 * m j / (α * scale) := fun j => by
    have := hm j
    simp only [hS, hρ]
    rw [div_pow, Real.sq_sqrt (by positivity)]
    field_simp
  have hH : ContDiff ℝ 1 fun x => scale * U x + c₀ := (contDiff_const.mul hU).add contDiff_const
  have hpd : ∀ j x, partialD (fun x => scale * U x + c₀) j x = scale * partialD U j x := fun j x => by
    have h := ((hU.differentiable (by norm_num) x).hasFDerivAt.const_mul scale).add_const c₀
    unfold partialD
    rw [h.fderiv]
    simp
  let B : (J → ℝ) × Bt → J → ℝ := fun y j => -(m j / α) * γ y.2 y.1 j
  have hBm : Measurable B := measurable_pi_iff.2 fun j => (show Measurable fun y : (J → ℝ) × Bt => γ y.2 y.1 j from
    (measurable_pi_apply j).comp hγ.meas).const_mul _
  have hBn : ∀ y, ‖B y‖ ≤ ‖fun j => -(m j / α)‖ * ‖γ y.2 y.1‖ := fun y => norm_mul_le (fun j => -(m j / α)) (γ y.2 y.1)
  have hB3 : Integrable (fun y => ‖B y‖ ^ 3) (π.prod ν) := by
    refine (((mπ.one_add (k * 3)).comp_fst ν).const_mul ((‖fun j => -(m j / α)‖ * A) ^ 3)).mono' (hBm.norm.pow_const 3).aestronglyMeasurable
      (.of_forall fun y => ?_)
    rw [norm_pow, norm_norm, pow_mul, ← mul_pow]
    refine pow_le_pow_left₀ (norm_nonneg _) ((hBn y).trans ?_) 3
    rw [mul_assoc]
    exact mul_le_mul_of_nonneg_left ((hγ.poly y.2).growth y.1) (norm_nonneg _)
  have hmean : ∀ x j, ∫ β, B (x, β) j ∂ν = -(S j ^ 2 / 2 * partialD (fun x => scale * U x + c₀) j x
      + ∑ k, (0 : J → J → ℝ) j k * partialD (fun x => scale * U x + c₀) k x) := fun x j => by
    simp only [B]
    rw [integral_const_mul, hγ.mean, hpd, hS2]
    simp only [Pi.zero_apply, zero_mul, Finset.sum_const_zero]
    field_simp
    ring
  obtain ⟨C, q, hC, hrest⟩ := rest_poly (P := P) A hA k m ρ τ α hα
  obtain ⟨K₀, hK₀⟩ := one_step' hH ν (hN.kick S) 0 (by simp) B hBm hB3 hmean (fun _ => 0) (integrable_zero _ _ _) 1 one_pos hf hc
  obtain ⟨M, hM0, hM⟩ := bounded hf.continuous hc
  obtain ⟨L, hL0, hL⟩ := bounded (hf.continuous_fderiv (by norm_num)) (hc.fderiv ℝ)
  have hlip : ∀ x x' : J → ℝ, |f x - f x'| ≤ L * ‖x - x'‖ := fun x x' =>
    Convex.norm_image_sub_le_of_norm_fderiv_le (𝕜 := ℝ) (s := Set.univ) (fun x _ => (hf.differentiable (by norm_num)) x) (fun x _ => hL x)
      convex_univ trivial trivial
  have i2 : Integrable (fun y : ((J → ℝ) × Bt) × (J → ℝ) => (1 + ‖y.1.1‖) ^ (q * 2) * (1 + ‖y.2‖) ^ (q * 2)) ((π.prod ν).prod N) :=
    ((mπ.one_add (q * 2)).comp_fst ν).mul_prod (mN.one_add (q * 2))
  set G : ℝ := ∫ y : ((J → ℝ) × Bt) × (J → ℝ), (1 + ‖y.1.1‖) ^ (q * 2) * (1 + ‖y.2‖) ^ (q * 2) ∂((π.prod ν).prod N) with hG
  have hG0 : 0 ≤ G := integral_nonneg fun _ => by positivity
  set mass : ℝ := π.real Set.univ with hmass
  have hmass0 : 0 ≤ mass := measureReal_nonneg
  refine ⟨|K₀| + L * C * (1 + G) + 2 * M * mass, q * 2, fun ε W h0 hW Ω _ μ _ θ w V' z β mθ mw mV' mz mβ hlaw iW hWW isNew rank hrank p hstep => ?_⟩
  let y : Ω → J → ℝ := fun ω j => θ ω j + (1 - α) / α * (ε * w ω j)
  let X : Ω → J → ℝ := fun ω j => θ ω j + V' ω j + (1 - α) / α * V' ω j
  let X₀ : ((J → ℝ) × Bt) × (J → ℝ) → J → ℝ := fun q => q.1.1 + (ε ^ 2 • B q.1 + ε • (S * q.2))
  have my : Measurable y := by
    have : y = θ + ((1 - α) / α) • (ε • w) := rfl
    rw [this]; exact mθ.add ((mw.const_smul ε).const_smul _)
  have mX : Measurable X := by
    have : X = θ + V' + ((1 - α) / α) • V' := rfl
    rw [this]; exact (mθ.add mV').add (mV'.const_smul _)
  have mX₀ : Measurable X₀ :=
    (measurable_fst.comp measurable_fst).add (((hBm.comp measurable_fst).const_smul (ε ^ 2)).add (((hN.kick S).meas.comp measurable_snd).const_smul ε))
  have mq : Measurable fun ω => ((y ω, β ω), z ω) := (my.prodMk mβ).prodMk mz
  have hlaw' : μ.map (fun ω => ((y ω, β ω), z ω)) = (π.prod ν).prod N := hlaw
  have hmassμ : μ.real Set.univ = mass := by
    have : μ.map (fun ω => ((y ω, β ω), z ω)) Set.univ = ((π.prod ν).prod N) Set.univ := by rw [hlaw']
    rw [Measure.map_apply mq MeasurableSet.univ, Set.preimage_univ, ← Set.univ_prod_univ, Measure.prod_prod, ← Set.univ_prod_univ,
      Measure.prod_prod, measure_univ (μ := ν), measure_univ (μ := N), mul_one, mul_one] at this
    simp only [hmass, Measure.real, this]
  have hε3 : 0 ≤ ε ^ 3 := by positivity
  have iX : Integrable (fun ω => f (X ω)) μ :=
    (integrable_const M).mono' (hf.continuous.measurable.comp mX).aestronglyMeasurable (.of_forall fun ω => hM _)
  have hp1 : 0 ≤ |K₀| := abs_nonneg _
  have hp2 : 0 ≤ L * C * (1 + G) := by positivity
  have hp3 : 0 ≤ 2 * M * mass := by positivity
  rcases lt_or_ge 1 ε with hbig | h1
  · -- large steps
    have b1 : |∫ ω, f (X ω) ∂μ| ≤ M * mass := by
      have := norm_integral_le_of_norm_le_const (μ := μ) (.of_forall fun ω => hM (X ω))
      rwa [hmassμ] at this
    have b2 : |∫ x, f x ∂π| ≤ M * mass := norm_integral_le_of_norm_le_const (μ := π) (.of_forall fun x => hM x)
    have b3 : (1 : ℝ) ≤ ε ^ 3 := one_le_pow₀ hbig.le
    calc |∫ ω, f (X ω) ∂μ - ∫ x, f x ∂π| ≤ 2 * M * mass := (abs_sub _ _).trans (by linarith)
      _ ≤ (|K₀| + L * C * (1 + G) + 2 * M * mass) * 1 * 1 := by linarith
      _ ≤ _ := by gcongr; linarith
  · -- small steps
    have hpt : ∀ ω, ‖X ω - X₀ ((y ω, β ω), z ω)‖ ≤ ε ^ 3 * (C * (1 + ‖y ω‖ + ‖z ω‖ + ‖w ω‖) ^ q) := fun ω =>
      hrest (γ (β ω)) (hγ.poly (β ω)) isNew rank hrank p (θ ω) (w ω) (V' ω) (y ω) (z ω) (fun j => √(2 * α * m j / scale - ε ^ 2 / scale ^ 2))
        ε h0 h1 (fun j => Real.sqrt_nonneg _) (fun j => Real.sqrt_le_sqrt (by
          have : 0 ≤ ε ^ 2 / scale ^ 2 := by positivity
          linarith))
        (fun j => by
          have := sqrt_sub_le (b := 2 * α * m j / scale) (by have := hm j; positivity) (2 * α * m j / scale - ε ^ 2 / scale ^ 2)
          refine this.trans (le_of_eq ?_)
          rw [show 2 * α * m j / scale - ε ^ 2 / scale ^ 2 - 2 * α * m j / scale = -(ε ^ 2 / scale ^ 2) by ring, abs_neg,
            abs_of_nonneg (by positivity)]
          simp only [hτ, hρ]
          ring)
        (hstep ω) fun j => rfl
    have hpt2 : ∀ ω, (1 + ‖y ω‖ + ‖z ω‖ + ‖w ω‖) ^ q ≤ (1 + ‖y ω‖) ^ (q * 2) * (1 + ‖z ω‖) ^ (q * 2) + (1 + ‖w ω‖) ^ (q * 2) := fun ω => by
      have n1 := norm_nonneg (y ω)
      have n2 := norm_nonneg (z ω)
      have n3 := norm_nonneg (w ω)
      have a1 : 1 + ‖y ω‖ + ‖z ω‖ + ‖w ω‖ ≤ (1 + ‖y ω‖) * (1 + ‖z ω‖) * (1 + ‖w ω‖) := by
        have := mul_nonneg n1 n2
        have := mul_nonneg n1 n3
        have := mul_nonneg n2 n3
        have := mul_nonneg (mul_nonneg n1 n2) n3
        nlinarith
      have a2 := pow_le_pow_left₀ (by positivity) a1 q
      rw [mul_pow] at a2
      refine a2.trans ?_
      rw [← mul_pow (1 + ‖y ω‖) (1 + ‖z ω‖) (q * 2), pow_mul, pow_mul]
      generalize ((1 + ‖y ω‖) * (1 + ‖z ω‖)) ^ q = a
      generalize (1 + ‖w ω‖) ^ q = b
      nlinarith [sq_nonneg (a - b), sq_nonneg a, sq_nonneg b]
    have hmp : MeasurePreserving (fun ω => ((y ω, β ω), z ω)) μ ((π.prod ν).prod N) := ⟨mq, hlaw'⟩
    have j2 : Integrable (fun ω => (1 + ‖y ω‖) ^ (q * 2) * (1 + ‖z ω‖) ^ (q * 2)) μ := hmp.integrable_comp_of_integrable i2
    have e2 : ∫ ω, (1 + ‖y ω‖) ^ (q * 2) * (1 + ‖z ω‖) ^ (q * 2) ∂μ = G := by
      rw [hG, ← hlaw', integral_map mq.aemeasurable (hlaw' ▸ i2.1)]
    have iX₀ : Integrable (fun ω => f (X₀ ((y ω, β ω), z ω))) μ :=
      (integrable_const M).mono' (hf.continuous.measurable.comp (mX₀.comp mq)).aestronglyMeasurable (.of_forall fun ω => hM _)
    have e0 : ∫ ω, f (X₀ ((y ω, β ω), z ω)) ∂μ = ∫ q, f (X₀ q) ∂((π.prod ν).prod N) := by
      rw [← hlaw', integral_map (f := fun q => f (X₀ q)) mq.aemeasurable (hf.continuous.measurable.comp mX₀).aestronglyMeasurable]
    have d1 : |∫ ω, f (X ω) ∂μ - ∫ ω, f (X₀ ((y ω, β ω), z ω)) ∂μ| ≤ L * C * (G + W) * ε ^ 3 := by
      rw [← integral_sub iX iX₀]
      have ib : Integrable (fun ω => L * (ε ^ 3 * (C * ((1 + ‖y ω‖) ^ (q * 2) * (1 + ‖z ω‖) ^ (q * 2) + (1 + ‖w ω‖) ^ (q * 2))))) μ :=
        (((j2.add iW).const_mul C).const_mul _).const_mul _
      have := norm_integral_le_of_norm_le ib (.of_forall fun ω => (Real.norm_eq_abs _).trans_le
        ((hlip (X ω) (X₀ ((y ω, β ω), z ω))).trans (mul_le_mul_of_nonneg_left ((hpt ω).trans
          (mul_le_mul_of_nonneg_left (mul_le_mul_of_nonneg_left (hpt2 ω) hC) hε3)) hL0)))
      rw [Real.norm_eq_abs] at this
      refine this.trans ?_
      rw [integral_const_mul, integral_const_mul, integral_const_mul, integral_add j2 iW, e2]
      calc L * (ε ^ 3 * (C * (G + ∫ ω, (1 + ‖w ω‖) ^ (q * 2) ∂μ))) ≤ L * (ε ^ 3 * (C * (G + W))) := by gcongr
        _ = _ := by ring
    have d2 : |∫ q, f (X₀ q) ∂((π.prod ν).prod N) - ∫ x, f x ∂π| ≤ |K₀| * ε ^ 3 := by
      have hsq : √(ε ^ 2) = ε := Real.sqrt_sq h0
      have := hK₀ (ε ^ 2) (sq_nonneg ε) X₀ mX₀.aemeasurable fun _ _ q => by
        rw [hsq]
        simp [X₀]
      rw [hsq] at this
      refine this.trans ?_
      rw [← pow_succ]
      exact mul_le_mul_of_nonneg_right (le_abs_self _) hε3
    have d3 : |∫ ω, f (X ω) ∂μ - ∫ x, f x ∂π| ≤ (|K₀| + L * C * (G + W)) * ε ^ 3 := by
      rw [e0] at d1
      calc _ = |(∫ ω, f (X ω) ∂μ - ∫ q, f (X₀ q) ∂((π.prod ν).prod N)) + (∫ q, f (X₀ q) ∂((π.prod ν).prod N) - ∫ x, f x ∂π)| := by
            congr 1; ring
        _ ≤ _ := (abs_add_le _ _).trans (by linarith)
    refine d3.trans (mul_le_mul_of_nonneg_right ?_ hε3)
    have p3 : L * C * (G + W) ≤ L * C * (1 + G) * (1 + W) := by
      rw [mul_assoc (L * C)]
      refine mul_le_mul_of_nonneg_left ?_ (by positivity)
      nlinarith [mul_nonneg hG0 hW]
    nlinarith [mul_nonneg hp1 hW, mul_nonneg hp3 hW]

end step

variable {P : Type} [Fintype P] [DecidableEq P] {ι : P → Type} [∀ i, Fintype (ι i)] [∀ i, DecidableEq (ι i)]
variable {Bt : Type} [MeasurableSpace Bt]

/-- **C105** for gradients of polynomial growth: one session run of SGHMC after burn-in leaves `exp (-scale U)`, as the density of the
resting point, invariant up to `K (1 + W) ε³`; the momentum is `ε w`, and `W` bounds a moment of `w` whose order depends on the problem only. -/
theorem C105_sghmc_polynomial (U : (Elem ι → ℝ) → ℝ) (hU : ContDiff ℝ 1 U) (α scale c₀ : ℝ) (hα : 0 < α) (hs : 0 < scale)
    (m : Elem ι → ℝ) (hm : ∀ j, 0 < m j) (ν : Measure Bt) [IsProbabilityMeasure ν] (γ : Bt → (Elem ι → ℝ) → Elem ι → ℝ) (A : ℝ) (k : ℕ)
    (hγ : BatchPoly ν U γ A k) (N : Measure (Elem ι → ℝ)) (hN : UnitNoise N) (mN : Moments N)
    (π : Measure (Elem ι → ℝ)) (hπ : π = boltz fun x => scale * U x + c₀) [IsFiniteMeasure π] (mπ : Moments π)
    (f : (Elem ι → ℝ) → ℝ) (hf : ContDiff ℝ 3 f) (hc : HasCompactSupport f) :
    ∃ (K : ℝ) (d : ℕ), ∀ ε W, 0 ≤ ε → 0 ≤ W → (∀ j, 1e-16 ≤ 2 * (ε ^ 2 / scale) * α * m j - (ε ^ 2 / scale) ^ 2) →
      ∀ (Ω : Type) [MeasurableSpace Ω] (μ : Measure Ω) [IsFiniteMeasure μ] (θ w z : Ω → Elem ι → ℝ) (β : Ω → Bt),
      Measurable θ → Measurable w → Measurable z → Measurable β →
      μ.map (fun ω => ((fun j => θ ω j + (1 - α) / α * (ε * w ω j), β ω), z ω)) = (π.prod ν).prod N →
      Integrable (fun ω => (1 + ‖w ω‖) ^ d) μ → ∫ ω, (1 + ‖w ω‖) ^ d ∂μ ≤ W →
      ∀ (σ : SGHMC.Schedule P) (inp : Ω → SGHMC.Inputs ι) (s : Ω → SGHMC.State ι),
      (∀ ω, SghmcInputs ε α scale m γ (β ω) (z ω) (inp ω)) →
      (∀ ω i, ((s ω).par i).vec = fins (θ ω) i ∧ ((s ω).par i).param = fins (θ ω) i ∧ ((s ω).par i).mom = fins (ε • w ω) i) →
      ∃ θ' V' : Ω → Elem ι → ℝ, Measurable θ' ∧ Measurable V' ∧
        (∀ ω i, (SGHMC.run (inp ω) σ (s ω)).params i = fins (θ' ω) i ∧ ((SGHMC.run (inp ω) σ (s ω)).par i).mom = fins (V' ω) i) ∧
        |∫ ω, f (fun j => θ' ω j + (1 - α) / α * V' ω j) ∂μ - ∫ x, f x ∂π| ≤ K * (1 + W) * ε ^ 3 := by
  obtain ⟨K, d, hK⟩ := rest_step_poly (P := P) U hU α scale c₀ hα hs m hm ν γ A k hγ N hN mN π hπ mπ f hf hc
  refine ⟨K, d, fun ε W h0 hW hfloor Ω _ μ _ θ w z β mθ mw mz mβ hlaw iW hWW σ inp s hinp hst => ?_⟩
  obtain ⟨isNew, rank, X, V', hrank, hXm, hVm, hXV, hX, hVeq⟩ :=
    sghmc_step ε α scale h0 hs m hfloor γ hγ.meas θ (fun ω => ε • w ω) z β mθ (mw.const_smul ε) mz mβ σ inp s hinp hst
  obtain rfl : X = fun ω j => θ ω j + V' ω j := funext fun ω => funext fun j => hXV ω j
  exact ⟨_, V', hXm, hVm, hX, hK ε W h0 hW Ω μ θ w V' z β mθ mw hVm mz mβ hlaw iW hWW isNew rank hrank Sigma.fst hVeq⟩

end PySGMCMC.Invariance
