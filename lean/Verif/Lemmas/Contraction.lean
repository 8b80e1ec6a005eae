import Mathlib.Probability.Distributions.Gaussian.Real
import Mathlib.Probability.Independence.Integration
import Mathlib.Probability.Moments.Variance
import Mathlib.Analysis.InnerProductSpace.PiL2
import Mathlib.Tactic.Linarith
import Mathlib.Tactic.LinearCombination
import Mathlib.Tactic.FieldSimp

/-! Noisy recurrences whose noiseless part contracts a weighted sum of squares. -/

namespace PySGMCMC.Contraction
open MeasureTheory ProbabilityTheory

/-- `Σ w s²`. -/
def energy {J : Type} [Fintype J] (w s : J → ℝ) : ℝ := ∑ j, w j * s j ^ 2

section algebra

variable {J : Type} [Fintype J] {w : J → ℝ}

theorem energy_nonneg (hw : ∀ j, 0 ≤ w j) (s : J → ℝ) : 0 ≤ energy w s :=
  Finset.sum_nonneg fun j _ => mul_nonneg (hw j) (sq_nonneg _)

/-- Triangle inequality. -/
theorem energy_add (hw : ∀ j, 0 ≤ w j) (s t : J → ℝ) : √(energy w fun j => s j + t j) ≤ √(energy w s) + √(energy w t) := by
  have key : ∀ s : J → ℝ, √(energy w s) = ‖(WithLp.toLp 2 fun j => √(w j) * s j : EuclideanSpace ℝ J)‖ := by
    intro s
    rw [EuclideanSpace.norm_eq]
    unfold energy
    congr 1
    refine Finset.sum_congr rfl fun j _ => ?_
    rw [Real.norm_eq_abs, sq_abs, mul_pow, Real.sq_sqrt (hw j)]
  rw [key, key, key]
  refine le_trans (le_of_eq ?_) (norm_add_le _ _)
  congr 1
  ext j
  simp [mul_add]

/-- A gradient step with inverse masses `m` and stepsize `t` contracts. -/
theorem gradient_step {Δ δ m : J → ℝ} {lo hi μ L t : ℝ} (hlo : 0 < lo) (hm : ∀ j, lo ≤ m j ∧ m j ≤ hi) (hμ : 0 ≤ μ) (ht : 0 ≤ t)
    (h1 : μ * ∑ j, Δ j ^ 2 ≤ ∑ j, Δ j * δ j) (h2 : ∑ j, δ j ^ 2 ≤ L * ∑ j, Δ j * δ j) (hL : t * hi * L ≤ 1) :
    energy (fun j => 1 / m j) (fun j => Δ j - t * m j * δ j) ≤ (1 - t * μ * lo) * energy (fun j => 1 / m j) Δ := by
  have hm0 : ∀ j, 0 < m j := fun j => lt_of_lt_of_le hlo (hm j).1
  have e1 : energy (fun j => 1 / m j) (fun j => Δ j - t * m j * δ j)
      = energy (fun j => 1 / m j) Δ - 2 * t * ∑ j, Δ j * δ j + t ^ 2 * ∑ j, m j * δ j ^ 2 := by
    unfold energy
    rw [Finset.mul_sum, Finset.mul_sum, ← Finset.sum_sub_distrib, ← Finset.sum_add_distrib]
    refine Finset.sum_congr rfl fun j _ => ?_
    have := (hm0 j).ne'
    field_simp
    ring
  have hS : 0 ≤ ∑ j, Δ j * δ j := le_trans (mul_nonneg hμ (Finset.sum_nonneg fun j _ => sq_nonneg _)) h1
  have e2 : t ^ 2 * ∑ j, m j * δ j ^ 2 ≤ t * ∑ j, Δ j * δ j := by
    by_cases hJ : Nonempty J
    · obtain ⟨j0⟩ := hJ
      have hhi : 0 ≤ hi := le_trans (hm0 j0).le (hm j0).2
      have h3 : ∑ j, m j * δ j ^ 2 ≤ hi * (L * ∑ j, Δ j * δ j) := by
        refine le_trans ?_ (mul_le_mul_of_nonneg_left h2 hhi)
        rw [Finset.mul_sum]
        exact Finset.sum_le_sum fun j _ => mul_le_mul_of_nonneg_right (hm j).2 (sq_nonneg _)
      calc t ^ 2 * ∑ j, m j * δ j ^ 2 ≤ t ^ 2 * (hi * (L * ∑ j, Δ j * δ j)) := mul_le_mul_of_nonneg_left h3 (sq_nonneg t)
        _ = (t * ∑ j, Δ j * δ j) * (t * hi * L) := by ring
        _ ≤ (t * ∑ j, Δ j * δ j) * 1 := mul_le_mul_of_nonneg_left hL (mul_nonneg ht hS)
        _ = _ := mul_one _
    · have : IsEmpty J := not_nonempty_iff.mp hJ
      simp
  have e3 : lo * energy (fun j => 1 / m j) Δ ≤ ∑ j, Δ j ^ 2 := by
    unfold energy
    rw [Finset.mul_sum]
    refine Finset.sum_le_sum fun j _ => ?_
    have := hm0 j
    rw [← mul_assoc, mul_one_div]
    exact mul_le_of_le_one_left (sq_nonneg _) ((div_le_one this).mpr (hm j).1)
  have e4 : t * μ * (lo * energy (fun j => 1 / m j) Δ) ≤ t * ∑ j, Δ j * δ j := by
    rw [mul_assoc]
    exact mul_le_mul_of_nonneg_left (le_trans (mul_le_mul_of_nonneg_left e3 hμ) h1) ht
  rw [e1]
  linarith

/-- A damped momentum step: `q` is the position plus `β / (1 - β)` times the momentum, `u` is `β / (1 - β)` times the momentum,
both relative to the minimum; the gradient is taken at the position `q - u`. -/
theorem momentum_step {q u δ m : J → ℝ} {lo hi μ L b β : ℝ} (hlo : 0 < lo) (hm : ∀ j, lo ≤ m j ∧ m j ≤ hi) (hμ : 0 ≤ μ) (hb : 0 ≤ b)
    (hβ0 : 0 ≤ β) (hβ1 : β < 1)
    (h1 : μ * ∑ j, (q j - u j) ^ 2 ≤ ∑ j, (q j - u j) * δ j) (h2 : ∑ j, δ j ^ 2 ≤ L * ∑ j, (q j - u j) * δ j)
    (hμL : μ ≤ L) (hL : b * hi * L * (2 + 8 / (1 - β ^ 2)) ≤ 1) :
    energy (fun j => 1 / m j) (fun j => q j - b * m j * δ j) + energy (fun j => 1 / m j) (fun j => β * u j - β * b * m j * δ j)
      ≤ (1 - b * μ * lo / 2) * (energy (fun j => 1 / m j) q + energy (fun j => 1 / m j) u) := by
  by_cases hJ : Nonempty J
  swap
  · have : IsEmpty J := not_nonempty_iff.mp hJ
    simp [energy]
  obtain ⟨j0⟩ := hJ
  have hm0 : ∀ j, 0 < m j := fun j => lt_of_lt_of_le hlo (hm j).1
  have hlohi : lo ≤ hi := le_trans (hm j0).1 (hm j0).2
  have hhi : 0 ≤ hi := le_trans hlo.le hlohi
  have hL0 : 0 ≤ L := le_trans hμ hμL
  obtain ⟨s, hs⟩ : ∃ s, s = (1 - β ^ 2) / 2 := ⟨_, rfl⟩
  have hβ2 : β ^ 2 < 1 := by nlinarith
  have hs0 : 0 < s := by rw [hs]; linarith
  have h8 : 8 / (1 - β ^ 2) = 4 / s := by rw [hs]; have : 1 - β ^ 2 ≠ 0 := by linarith
                                          field_simp; norm_num
  rw [h8] at hL
  have hβs : β ^ 2 = 1 - 2 * s := by rw [hs]; ring
  set G := ∑ j, m j * δ j ^ 2 with hG
  set S := ∑ j, (q j - u j) * δ j with hS
  have hS0 : 0 ≤ S := le_trans (mul_nonneg hμ (Finset.sum_nonneg fun j _ => sq_nonneg _)) h1
  have hGS : G ≤ hi * L * S := by
    rw [mul_assoc]
    refine le_trans ?_ (mul_le_mul_of_nonneg_left h2 hhi)
    rw [hG, Finset.mul_sum]
    exact Finset.sum_le_sum fun j _ => mul_le_mul_of_nonneg_right (hm j).2 (sq_nonneg _)
  have e1 : energy (fun j => 1 / m j) (fun j => q j - b * m j * δ j) + energy (fun j => 1 / m j) (fun j => β * u j - β * b * m j * δ j)
      ≤ energy (fun j => 1 / m j) q + (1 - s) * energy (fun j => 1 / m j) u - 2 * b * S + b ^ 2 * (2 + 4 / s) * G := by
    unfold energy
    rw [hS, hG, Finset.mul_sum, Finset.mul_sum, Finset.mul_sum, ← Finset.sum_add_distrib, ← Finset.sum_add_distrib,
      ← Finset.sum_sub_distrib, ← Finset.sum_add_distrib]
    refine Finset.sum_le_sum fun j _ => ?_
    have hmj := hm0 j
    rw [← sub_nonneg]
    have : (1 / m j * q j ^ 2 + (1 - s) * (1 / m j * u j ^ 2) - 2 * b * ((q j - u j) * δ j) + b ^ 2 * (2 + 4 / s) * (m j * δ j ^ 2))
        - (1 / m j * (q j - b * m j * δ j) ^ 2 + 1 / m j * (β * u j - β * b * m j * δ j) ^ 2)
        = ((s * u j + (1 + β ^ 2) * (b * m j * δ j)) ^ 2 + ((4 - (1 + β ^ 2) ^ 2) + s * (1 - β ^ 2)) * (b * m j * δ j) ^ 2) / (s * m j) := by
      have h' : (β * u j - β * b * m j * δ j) ^ 2 = β ^ 2 * (u j - b * m j * δ j) ^ 2 := by ring
      rw [h', hβs]
      field_simp
      ring
    rw [this]
    refine div_nonneg (add_nonneg (sq_nonneg _) (mul_nonneg ?_ (sq_nonneg _))) (mul_pos hs0 hmj).le
    have : 0 ≤ β ^ 2 := sq_nonneg _
    nlinarith
  have e2 : b ^ 2 * (2 + 4 / s) * G ≤ b * S := by
    have hc : 0 ≤ b ^ 2 * (2 + 4 / s) := by positivity
    calc b ^ 2 * (2 + 4 / s) * G ≤ b ^ 2 * (2 + 4 / s) * (hi * L * S) := mul_le_mul_of_nonneg_left hGS hc
      _ = (b * S) * (b * hi * L * (2 + 4 / s)) := by ring
      _ ≤ (b * S) * 1 := mul_le_mul_of_nonneg_left hL (mul_nonneg hb hS0)
      _ = _ := mul_one _
  have e3 : lo * (energy (fun j => 1 / m j) q / 2 - energy (fun j => 1 / m j) u) ≤ ∑ j, (q j - u j) ^ 2 := by
    unfold energy
    rw [Finset.sum_div, ← Finset.sum_sub_distrib, Finset.mul_sum]
    refine Finset.sum_le_sum fun j _ => ?_
    have hmj := hm0 j
    have h5 : 1 / m j * q j ^ 2 / 2 - 1 / m j * u j ^ 2 ≤ 1 / m j * (q j - u j) ^ 2 := by
      rw [← sub_nonneg, show 1 / m j * (q j - u j) ^ 2 - (1 / m j * q j ^ 2 / 2 - 1 / m j * u j ^ 2)
        = 1 / m j * ((q j - 2 * u j) ^ 2 / 2) by ring]
      positivity
    calc lo * (1 / m j * q j ^ 2 / 2 - 1 / m j * u j ^ 2) ≤ lo * (1 / m j * (q j - u j) ^ 2) := mul_le_mul_of_nonneg_left h5 hlo.le
      _ = lo / m j * (q j - u j) ^ 2 := by ring
      _ ≤ _ := mul_le_of_le_one_left (sq_nonneg _) ((div_le_one hmj).mpr (hm j).1)
  have e4 : b * μ * lo * (energy (fun j => 1 / m j) q / 2 - energy (fun j => 1 / m j) u) ≤ b * S := by
    calc b * μ * lo * (energy (fun j => 1 / m j) q / 2 - energy (fun j => 1 / m j) u)
        = b * (μ * (lo * (energy (fun j => 1 / m j) q / 2 - energy (fun j => 1 / m j) u))) := by ring
      _ ≤ b * S := mul_le_mul_of_nonneg_left (le_trans (mul_le_mul_of_nonneg_left e3 hμ) h1) hb
  have hc4 : b * μ * lo * 4 ≤ s := by
    have a1 : b * μ * lo ≤ b * hi * L := by
      calc b * μ * lo = b * (μ * lo) := by ring
        _ ≤ b * (L * hi) := mul_le_mul_of_nonneg_left (mul_le_mul hμL hlohi hlo.le hL0) hb
        _ = _ := by ring
    have a2 : b * hi * L * (4 / s) ≤ 1 := by
      have : 0 ≤ b * hi * L := by positivity
      nlinarith
    have a3 : b * hi * L * 4 ≤ s := by
      rw [← mul_div_assoc, div_le_one hs0] at a2
      exact a2
    linarith
  have hU : 0 ≤ energy (fun j => 1 / m j) u := energy_nonneg (fun j => (one_div_pos.mpr (hm0 j)).le) u
  have e5 : 0 ≤ (s - b * μ * lo * (3 / 2)) * energy (fun j => 1 / m j) u :=
    mul_nonneg (by have : 0 ≤ b * μ * lo := by positivity
                   linarith) hU
  generalize energy (fun j => 1 / m j) q = Q at *
  generalize energy (fun j => 1 / m j) u = U at *
  nlinarith

end algebra

section expectation

variable {Ω : Type} [MeasurableSpace Ω] {P : Measure Ω} [IsProbabilityMeasure P] {I J : Type} [Fintype J]

/-- What is known before step `k`. -/
def past (z : Nat → I → Ω → ℝ) (k : Nat) : MeasurableSpace Ω :=
  ⨆ q ∈ {q : Nat × I | q.1 < k}, MeasurableSpace.comap (z q.1 q.2) inferInstance

omit [MeasurableSpace Ω] in
theorem past_mono (z : Nat → I → Ω → ℝ) (k : Nat) : past z k ≤ past z (k + 1) :=
  biSup_mono fun q hq => by
    simp only [Set.mem_setOf_eq] at *
    omega

omit [MeasurableSpace Ω] in
theorem draw_past (z : Nat → I → Ω → ℝ) (k : Nat) (i : I) : Measurable[past z (k + 1)] (z k i) := by
  rw [measurable_iff_comap_le]
  exact le_biSup (fun q : Nat × I => MeasurableSpace.comap (z q.1 q.2) inferInstance)
    (show (k, i) ∈ {q : Nat × I | q.1 < k + 1} from Nat.lt_succ_self k)

omit [IsProbabilityMeasure P] in
/-- The draws of a step are independent of the past. -/
theorem indep_past {z : Nat → I → Ω → ℝ} (hm : ∀ k i, Measurable (z k i)) (hi : iIndepFun (fun q : Nat × I => z q.1 q.2) P) (k : Nat)
    (i : I) {Y : Ω → ℝ} (hY : Measurable[past z k] Y) : IndepFun Y (z k i) P := by
  have h := indep_iSup_of_disjoint (m := fun q : Nat × I => MeasurableSpace.comap (z q.1 q.2) inferInstance) (μ := P)
    (fun q => (hm q.1 q.2).comap_le) hi (S := {q : Nat × I | q.1 < k}) (T := {(k, i)})
    (by rw [Set.disjoint_singleton_right]; simp)
  rw [IndepFun_iff_Indep]
  refine indep_of_indep_of_le_left (indep_of_indep_of_le_right h ?_) ?_
  · simp
  · rw [← measurable_iff_comap_le]
    exact hY

omit [IsProbabilityMeasure P] in
theorem past_le {z : Nat → I → Ω → ℝ} (hm : ∀ k i, Measurable (z k i)) (k : Nat) : past z k ≤ ‹MeasurableSpace Ω› :=
  iSup₂_le fun q _ => (hm q.1 q.2).comap_le

theorem draw_moments {Z : Ω → ℝ} (hm : Measurable Z) (hZ : P.map Z = gaussianReal 0 1) :
    MemLp Z 2 P ∧ ∫ ω, Z ω ∂P = 0 ∧ ∫ ω, Z ω ^ 2 ∂P = 1 := by
  have hL : HasLaw Z (gaussianReal 0 1) P := ⟨hm.aemeasurable, hZ⟩
  have h2 : MemLp Z 2 P := by
    have := memLp_id_gaussianReal (μ := 0) (v := 1) 2
    rw [← hZ, memLp_map_measure_iff (by fun_prop) hm.aemeasurable] at this
    exact this
  have h0 : ∫ ω, Z ω ∂P = 0 := by
    have := integral_id_gaussianReal (μ := 0) (v := 1)
    rw [← hZ, integral_map hm.aemeasurable (by fun_prop)] at this
    exact this
  refine ⟨h2, h0, ?_⟩
  have hv := variance_id_gaussianReal (μ := 0) (v := 1)
  rw [← hZ, variance_map (by fun_prop) hm.aemeasurable] at hv
  have hv' : variance Z P = 1 := by simpa using hv
  rw [variance_eq_sub h2, h0] at hv'
  simpa using hv'

/-- If every noiseless step multiplies the energy by at most `ρ`, then after `k` steps with normal noise of standard deviation `c` its
expectation is at most `ρ^k` times the energy at the start plus the noise energy `Σ w c²` times `1 + ρ + … + ρ^(k-1)`. -/
theorem expected_energy {Φ : (J → ℝ) → J → ℝ} (hΦ : Measurable Φ) {w : J → ℝ} (hw : ∀ j, 0 < w j) {ρ : ℝ} (hρ : 0 ≤ ρ)
    (hV : ∀ s, energy w (Φ s) ≤ ρ * energy w s) (c : J → ℝ) (π : J → I) {z : Nat → I → Ω → ℝ} (hm : ∀ k i, Measurable (z k i))
    (hz : ∀ k i, P.map (z k i) = gaussianReal 0 1) (hi : iIndepFun (fun q : Nat × I => z q.1 q.2) P) {s0 : J → ℝ}
    {X : Nat → Ω → J → ℝ} (h0 : ∀ ω, X 0 ω = s0) (hX : ∀ k ω j, X (k + 1) ω j = Φ (X k ω) j + c j * z k (π j) ω) (k : Nat) :
    Measurable (X k) ∧ Integrable (fun ω => energy w (X k ω)) P
    ∧ ∫ ω, energy w (X k ω) ∂P ≤ ρ ^ k * energy w s0 + energy w c * ∑ j ∈ Finset.range k, ρ ^ j := by
  have hmeas : ∀ k, Measurable[past z k] (X k) := by
    intro k
    induction k with
    | zero =>
      have : X 0 = fun _ => s0 := funext h0
      rw [this]
      exact measurable_const
    | succ k ih =>
      rw [@measurable_pi_iff]
      intro j
      have e : (fun ω => X (k + 1) ω j) = fun ω => Φ (X k ω) j + c j * z k (π j) ω := funext fun ω => hX k ω j
      rw [e]
      have a1 : Measurable[past z (k + 1)] fun ω => Φ (X k ω) j :=
        ((measurable_pi_apply j).comp hΦ).comp (ih.mono (past_mono z k) le_rfl)
      exact a1.add ((draw_past z k (π j)).const_mul (c j))
  have hmeasE : Measurable (energy w) := by unfold energy; fun_prop
  refine ⟨(hmeas k).mono (past_le hm k) le_rfl, ?_⟩
  induction k with
  | zero =>
    have : (fun ω => energy w (X 0 ω)) = fun _ => energy w s0 := by funext ω; rw [h0]
    rw [this]
    refine ⟨integrable_const _, ?_⟩
    simp
  | succ k ih =>
    obtain ⟨ih1, ih2⟩ := ih
    have hXm : Measurable (X k) := (hmeas k).mono (past_le hm k) le_rfl
    have hYm : ∀ j, Measurable fun ω => Φ (X k ω) j := fun j => ((measurable_pi_apply j).comp hΦ).comp hXm
    have hYE : Integrable (fun ω => energy w (Φ (X k ω))) P := by
      refine Integrable.mono' (ih1.const_mul ρ) (hmeasE.comp (hΦ.comp hXm)).aestronglyMeasurable (ae_of_all _ fun ω => ?_)
      rw [Real.norm_eq_abs, abs_of_nonneg (energy_nonneg (fun j => (hw j).le) _)]
      exact hV _
    have hY2 : ∀ j, MemLp (fun ω => Φ (X k ω) j) 2 P := by
      intro j
      rw [memLp_two_iff_integrable_sq (hYm j).aestronglyMeasurable]
      refine Integrable.mono' (hYE.const_mul (1 / w j)) ((hYm j).pow_const 2).aestronglyMeasurable (ae_of_all _ fun ω => ?_)
      rw [Real.norm_eq_abs, abs_of_nonneg (sq_nonneg _)]
      have : w j * Φ (X k ω) j ^ 2 ≤ energy w (Φ (X k ω)) :=
        Finset.single_le_sum (f := fun j => w j * Φ (X k ω) j ^ 2) (fun j _ => mul_nonneg (hw j).le (sq_nonneg _)) (Finset.mem_univ j)
      rw [one_div, ← div_eq_inv_mul, le_div_iff₀ (hw j)]
      linarith
    have hZ := fun j => draw_moments (hm k (π j)) (hz k (π j))
    have hsq : ∀ j, Integrable (fun ω => X (k + 1) ω j ^ 2) P
        ∧ ∫ ω, X (k + 1) ω j ^ 2 ∂P = ∫ ω, Φ (X k ω) j ^ 2 ∂P + c j ^ 2 := by
      intro j
      obtain ⟨z2, zmean, zsq⟩ := hZ j
      have i1 : Integrable (fun ω => Φ (X k ω) j ^ 2) P := (hY2 j).integrable_sq
      have i2 : Integrable (fun ω => z k (π j) ω ^ 2) P := z2.integrable_sq
      have i3 : Integrable (fun ω => Φ (X k ω) j * z k (π j) ω) P := (hY2 j).integrable_mul z2
      have hind : IndepFun (fun ω => Φ (X k ω) j) (z k (π j)) P :=
        indep_past hm hi k (π j) (((measurable_pi_apply j).comp hΦ).comp (hmeas k))
      have h3 : ∫ ω, Φ (X k ω) j * z k (π j) ω ∂P = 0 := by
        rw [hind.integral_fun_mul_eq_mul_integral (hYm j).aestronglyMeasurable (hm k (π j)).aestronglyMeasurable, zmean, mul_zero]
      have e : (fun ω => X (k + 1) ω j ^ 2)
          = fun ω => (Φ (X k ω) j ^ 2 + 2 * c j * (Φ (X k ω) j * z k (π j) ω)) + c j ^ 2 * z k (π j) ω ^ 2 := by
        funext ω
        rw [hX]
        ring
      rw [e]
      have i4 : Integrable (fun ω => Φ (X k ω) j ^ 2 + 2 * c j * (Φ (X k ω) j * z k (π j) ω)) P := i1.add (i3.const_mul _)
      refine ⟨i4.add (i2.const_mul _), ?_⟩
      rw [integral_add i4 (i2.const_mul _), integral_add i1 (i3.const_mul _), integral_const_mul,
        integral_const_mul, h3, zsq]
      ring
    have hE : (fun ω => energy w (X (k + 1) ω)) = fun ω => ∑ j, w j * X (k + 1) ω j ^ 2 := rfl
    refine ⟨?_, ?_⟩
    · rw [hE]
      exact integrable_finset_sum _ fun j _ => (hsq j).1.const_mul (w j)
    · have e1 : ∫ ω, energy w (X (k + 1) ω) ∂P = ∫ ω, energy w (Φ (X k ω)) ∂P + energy w c := by
        unfold energy
        rw [integral_finset_sum _ fun j _ => (hsq j).1.const_mul (w j),
          integral_finset_sum _ fun j _ => ((hY2 j).integrable_sq).const_mul (w j), ← Finset.sum_add_distrib]
        refine Finset.sum_congr rfl fun j _ => ?_
        rw [integral_const_mul, integral_const_mul, (hsq j).2]
        ring
      have e2 : ∫ ω, energy w (Φ (X k ω)) ∂P ≤ ρ * ∫ ω, energy w (X k ω) ∂P := by
        rw [← integral_const_mul]
        exact integral_mono hYE (ih1.const_mul ρ) fun ω => hV _
      rw [e1, Finset.sum_range_succ']
      have e3 : ρ * ∫ ω, energy w (X k ω) ∂P ≤ ρ * (ρ ^ k * energy w s0 + energy w c * ∑ j ∈ Finset.range k, ρ ^ j) :=
        mul_le_mul_of_nonneg_left ih2 hρ
      have e4 : ∑ j ∈ Finset.range k, ρ ^ (j + 1) = ρ * ∑ j ∈ Finset.range k, ρ ^ j := by
        rw [Finset.mul_sum]
        exact Finset.sum_congr rfl fun j _ => by ring
      rw [e4, pow_zero, pow_succ]
      linarith

/-- A geometric sum is below its limit. -/
theorem geom_le {ρ : ℝ} (h0 : 0 ≤ ρ) (h1 : ρ < 1) (k : Nat) : ∑ j ∈ Finset.range k, ρ ^ j ≤ 1 / (1 - ρ) := by
  have : 0 < 1 - ρ := by linarith
  rw [le_div_iff₀ this, geom_sum_mul_neg]
  have := pow_nonneg h0 k
  linarith

end expectation

end PySGMCMC.Contraction
