import Mathlib.Analysis.Calculus.MeanValue
import Mathlib.Analysis.Calculus.Deriv.MeanValue
import Mathlib.Analysis.SpecialFunctions.Gaussian.GaussianIntegral
import Mathlib.Analysis.SpecialFunctions.Gaussian.PoissonSummation
import Mathlib.MeasureTheory.Integral.IntegralEqImproper
import Mathlib.Tactic.Linarith
import Mathlib.Tactic.Positivity
import Mathlib.Tactic.FieldSimp
import Mathlib.Tactic.Ring

/-!
# Stein's equation on the line

For a cost on the line that grows at least like a square, and a function `φ` with bounded derivative, there is a function `g` with
`g' - U' g = φ - π φ`, where `π` has density `exp (-U)`.  `g` and its first two derivatives are bounded.  The cost need not be convex.
-/

open MeasureTheory Filter Topology
namespace PySGMCMC.Stein

/-- A cost with derivatives `s` and `s'` that pulls inwards at large distances. -/
structure Well (U s s' : ℝ → ℝ) (a b L : ℝ) : Prop where
  deriv : ∀ x, HasDerivAt U (s x) x
  deriv2 : ∀ x, HasDerivAt s (s' x) x
  lip : ∀ x, |s' x| ≤ L
  pos : 0 < a
  slack : 0 ≤ b
  inward : ∀ x, a * x ^ 2 - b ≤ x * s x

variable {U s s' : ℝ → ℝ} {a b L : ℝ}

/-- `h` is small compared to `exp U` at large distances. -/
def Decays (U h : ℝ → ℝ) : Prop :=
  Tendsto (fun y => h y * Real.exp (-U y)) atTop (𝓝 0) ∧ Tendsto (fun y => h y * Real.exp (-U y)) atBot (𝓝 0)

namespace Well

theorem reflect (h : Well U s s' a b L) : Well (fun y => U (-y)) (fun y => -s (-y)) (fun y => s' (-y)) a b L where
  deriv x := ((h.deriv (-x)).comp x (hasDerivAt_neg x)).congr_deriv (by ring)
  deriv2 x := (((h.deriv2 (-x)).comp x (hasDerivAt_neg x)).neg).congr_deriv (by ring)
  lip x := h.lip _
  pos := h.pos
  slack := h.slack
  inward x := by have := h.inward (-x); nlinarith

theorem continuous (h : Well U s s' a b L) : Continuous U := continuous_iff_continuousAt.2 fun x => (h.deriv x).continuousAt

theorem continuous_force (h : Well U s s' a b L) : Continuous s := continuous_iff_continuousAt.2 fun x => (h.deriv2 x).continuousAt

theorem lip_nonneg (h : Well U s s' a b L) : 0 ≤ L := (abs_nonneg _).trans (h.lip 0)

theorem force_lip (h : Well U s s' a b L) (x y : ℝ) : |s x - s y| ≤ L * |x - y| := by
  have := convex_univ.norm_image_sub_le_of_norm_hasDerivWithin_le (f := s) (f' := s') (C := L) (fun z _ => (h.deriv2 z).hasDerivWithinAt)
    (fun z _ => h.lip z) (Set.mem_univ y) (Set.mem_univ x)
  simpa [Real.norm_eq_abs] using this

theorem force_le (h : Well U s s' a b L) (x : ℝ) : |s x| ≤ (|s 0| + L) * (1 + |x|) := by
  have h1 := h.force_lip x 0
  rw [sub_zero] at h1
  have h2 := abs_sub_abs_le_abs_sub (s x) (s 0)
  nlinarith [abs_nonneg x, abs_nonneg (s 0), h.lip_nonneg]

/-- From here on the force points inwards. -/
noncomputable def far (a b : ℝ) : ℝ := 1 + 2 * b / a

theorem far_one (h : Well U s s' a b L) : 1 ≤ far a b := by
  have := div_nonneg (mul_nonneg zero_le_two h.slack) h.pos.le
  unfold far
  linarith

theorem force_far (h : Well U s s' a b L) {y : ℝ} (hy : far a b ≤ y) : a / 2 * y ≤ s y := by
  have h1 := h.inward y
  have h0 := h.pos
  have hr := h.far_one
  have hy0 : 0 < y := by linarith
  have h2 : 2 * b ≤ a * y ^ 2 := by
    have h3 : 2 * b / a ≤ y := by unfold far at hy; linarith
    rw [div_le_iff₀ h0] at h3
    nlinarith [mul_le_mul_of_nonneg_left (show (1 : ℝ) ≤ y by linarith) (mul_pos h0 hy0).le]
  have h4 : y * (a / 2 * y) ≤ y * s y := by nlinarith
  exact le_of_mul_le_mul_left h4 hy0

/-! ## Growth of the cost -/

theorem lower_right (h : Well U s s' a b L) {x : ℝ} (hx : far a b ≤ x) : U (far a b) - a / 4 * far a b ^ 2 + a / 4 * x ^ 2 ≤ U x := by
  have hd : ∀ y, HasDerivAt (fun y => U y - a / 4 * y ^ 2) (s y - a / 2 * y) y := fun y => by
    refine ((h.deriv y).sub (((hasDerivAt_id' y).pow 2).const_mul (a / 4))).congr_deriv ?_
    simp only [Nat.cast_ofNat, Nat.add_one_sub_one, pow_one]
    ring
  have hm : MonotoneOn (fun y => U y - a / 4 * y ^ 2) (Set.Ici (far a b)) := by
    refine monotoneOn_of_deriv_nonneg (convex_Ici _) (fun y _ => (hd y).continuousAt.continuousWithinAt)
      (fun y _ => (hd y).differentiableAt.differentiableWithinAt) fun y hy => ?_
    rw [interior_Ici, Set.mem_Ioi] at hy
    rw [(hd y).deriv]
    linarith [h.force_far hy.le]
  have := hm (Set.mem_Ici.2 le_rfl) (Set.mem_Ici.2 hx) hx
  simp only at this
  linarith

theorem lower (h : Well U s s' a b L) : ∃ c, ∀ x, a / 4 * x ^ 2 - c ≤ U x := by
  have hc : ContinuousOn (fun y => U y - a / 4 * y ^ 2) (Set.Icc (-far a b) (far a b)) :=
    (h.continuous.sub (continuous_const.mul (continuous_pow 2))).continuousOn
  obtain ⟨c, hc⟩ := (isCompact_Icc.image_of_continuousOn hc).bddBelow
  have hc' : ∀ y, -far a b ≤ y → y ≤ far a b → c ≤ U y - a / 4 * y ^ 2 := fun y h1 h2 => hc ⟨y, ⟨h1, h2⟩, rfl⟩
  have hr := h.far_one
  refine ⟨-c, fun x => ?_⟩
  rcases le_total x (far a b) with h1 | h1
  · rcases le_total (-far a b) x with h2 | h2
    · linarith [hc' x h2 h1]
    · have h3 := h.reflect.lower_right (x := -x) (by linarith)
      simp only [neg_neg] at h3
      have h4 := hc' (-far a b) le_rfl (by linarith)
      rw [neg_sq] at h3 h4
      linarith
  · have h3 := h.lower_right h1
    have h4 := hc' (far a b) (by linarith) le_rfl
    linarith

theorem exp_le (h : Well U s s' a b L) : ∃ c > 0, ∀ x, Real.exp (-U x) ≤ c * Real.exp (-(a / 4) * x ^ 2) := by
  obtain ⟨c, hc⟩ := h.lower
  refine ⟨Real.exp c, Real.exp_pos c, fun x => ?_⟩
  rw [← Real.exp_add]
  exact Real.exp_le_exp.2 (by linarith [hc x])

theorem integrable_of_le (h : Well U s s' a b L) {f : ℝ → ℝ} (hf : Continuous f) {D : ℝ} (hD : ∀ x, |f x| ≤ D * (1 + x ^ 2)) :
    Integrable fun x => f x * Real.exp (-U x) := by
  obtain ⟨c, hc, hx⟩ := h.exp_le
  have ha := h.pos
  have h1 : Integrable fun x : ℝ => Real.exp (-(a / 4) * x ^ 2) := integrable_exp_neg_mul_sq (by positivity)
  have h2 : Integrable fun x : ℝ => x ^ 2 * Real.exp (-(a / 4) * x ^ 2) := by
    have := integrable_rpow_mul_exp_neg_mul_sq (b := a / 4) (by positivity) (s := 2) (by norm_num)
    simpa using this
  have h3 : Integrable fun x : ℝ => D * c * (Real.exp (-(a / 4) * x ^ 2) + x ^ 2 * Real.exp (-(a / 4) * x ^ 2)) := (h1.add h2).const_mul _
  refine h3.mono' (hf.mul (Real.continuous_exp.comp h.continuous.neg)).aestronglyMeasurable (.of_forall fun x => ?_)
  rw [Real.norm_eq_abs, abs_mul, abs_of_pos (Real.exp_pos _)]
  calc |f x| * Real.exp (-U x) ≤ D * (1 + x ^ 2) * (c * Real.exp (-(a / 4) * x ^ 2)) :=
        mul_le_mul (hD x) (hx x) (Real.exp_pos _).le ((abs_nonneg _).trans (hD x))
    _ = _ := by ring

theorem decays_of_le (h : Well U s s' a b L) {f : ℝ → ℝ} {D : ℝ} (hD : ∀ x, |f x| ≤ D * (1 + x ^ 2)) : Decays U f := by
  obtain ⟨c, hc, hx⟩ := h.exp_le
  have ha := h.pos
  have h1 := tendsto_rpow_abs_mul_exp_neg_mul_sq_cocompact (a := a / 4) (by positivity) 0
  have h2 := tendsto_rpow_abs_mul_exp_neg_mul_sq_cocompact (a := a / 4) (by positivity) 2
  have h3 : Tendsto (fun x : ℝ => D * c * (|x| ^ (0 : ℝ) * Real.exp (-(a / 4) * x ^ 2) + |x| ^ (2 : ℝ) * Real.exp (-(a / 4) * x ^ 2)))
      (cocompact ℝ) (𝓝 0) := by simpa using (h1.add h2).const_mul (D * c)
  have h4 : Tendsto (fun y => f y * Real.exp (-U y)) (cocompact ℝ) (𝓝 0) := by
    refine squeeze_zero_norm (fun x => ?_) h3
    rw [Real.norm_eq_abs, abs_mul, abs_of_pos (Real.exp_pos _), Real.rpow_zero, Real.rpow_two, sq_abs]
    calc |f x| * Real.exp (-U x) ≤ D * (1 + x ^ 2) * (c * Real.exp (-(a / 4) * x ^ 2)) :=
          mul_le_mul (hD x) (hx x) (Real.exp_pos _).le ((abs_nonneg _).trans (hD x))
      _ = _ := by ring
  rw [cocompact_eq_atBot_atTop, tendsto_sup] at h4
  exact ⟨h4.2, h4.1⟩

/-! ## Barriers -/

variable {f ψ k k' : ℝ → ℝ}

theorem decay_deriv (h : Well U s s' a b L) {d : ℝ} {x : ℝ} (hf : HasDerivAt f d x) :
    HasDerivAt (fun y => f y * Real.exp (-U y)) ((d - s x * f x) * Real.exp (-U x)) x := by
  refine (hf.mul (h.deriv x).neg.exp).congr_deriv ?_
  simp only [Pi.neg_apply]
  ring

/-- A function that decays and decreases relative to the weight is nonnegative. -/
theorem nonneg_right (h : Well U s s' a b L) {R : ℝ} (hk : ∀ y, R ≤ y → HasDerivAt k (k' y) y) (hle : ∀ y, R ≤ y → k' y ≤ s y * k y)
    (ht : Tendsto (fun y => k y * Real.exp (-U y)) atTop (𝓝 0)) {y : ℝ} (hy : R ≤ y) : 0 ≤ k y := by
  have hm : AntitoneOn (fun y => k y * Real.exp (-U y)) (Set.Ici R) := by
    refine antitoneOn_of_deriv_nonpos (convex_Ici _) (fun y hy => (h.decay_deriv (hk y hy)).continuousAt.continuousWithinAt)
      (fun y hy => ?_) fun y hy => ?_
    · rw [interior_Ici, Set.mem_Ioi] at hy
      exact (h.decay_deriv (hk y hy.le)).differentiableAt.differentiableWithinAt
    · rw [interior_Ici, Set.mem_Ioi] at hy
      rw [(h.decay_deriv (hk y hy.le)).deriv]
      exact mul_nonpos_of_nonpos_of_nonneg (by linarith [hle y hy.le]) (Real.exp_pos _).le
  have h1 : 0 ≤ k y * Real.exp (-U y) := by
    refine le_of_tendsto ht ?_
    filter_upwards [eventually_ge_atTop y] with z hz
    exact hm (Set.mem_Ici.2 hy) (Set.mem_Ici.2 (hy.trans hz)) hz
  exact nonneg_of_mul_nonneg_left h1 (Real.exp_pos _)

theorem barrier_right (h : Well U s s' a b L) {R : ℝ} (hf : ∀ y, HasDerivAt f (s y * f y + ψ y) y) (hk : ∀ y, R ≤ y → HasDerivAt k (k' y) y)
    (hle : ∀ y, R ≤ y → |ψ y| ≤ s y * k y - k' y) (htf : Tendsto (fun y => f y * Real.exp (-U y)) atTop (𝓝 0))
    (htk : Tendsto (fun y => k y * Real.exp (-U y)) atTop (𝓝 0)) {y : ℝ} (hy : R ≤ y) : |f y| ≤ k y := by
  have h1 := h.nonneg_right (k := fun y => k y - f y) (k' := fun y => k' y - (s y * f y + ψ y)) (fun y hy => (hk y hy).sub (hf y))
    (fun y hy => by have := (abs_le.1 (hle y hy)).1; linarith) (by simpa [sub_mul] using htk.sub htf) hy
  have h2 := h.nonneg_right (k := fun y => k y + f y) (k' := fun y => k' y + (s y * f y + ψ y)) (fun y hy => (hk y hy).add (hf y))
    (fun y hy => by have := (abs_le.1 (hle y hy)).2; linarith) (by simpa [add_mul] using htk.add htf) hy
  exact abs_le.2 ⟨by linarith, by linarith⟩

theorem far_bound (h : Well U s s' a b L) {A : ℝ} (hA : 0 ≤ A) (hf : ∀ y, HasDerivAt f (s y * f y + ψ y) y)
    (hψ : ∀ y, |ψ y| ≤ A * (1 + |y|)) (ht : Decays U f) {y : ℝ} (hy : far a b ≤ y) : |f y| ≤ 4 / a * A := by
  have ha := h.pos
  refine h.barrier_right (k := fun _ => 4 / a * A) (k' := fun _ => 0) hf (fun y _ => hasDerivAt_const y _) (fun y hy => ?_) ht.1
    (h.decays_of_le (D := 4 / a * A) fun x => ?_).1 hy
  · refine (hψ y).trans ?_
    have h1 := h.force_far hy
    have hr := h.far_one
    rw [abs_of_pos (by linarith : 0 < y)]
    have h2 : a / 2 * y * (4 / a * A) ≤ s y * (4 / a * A) := mul_le_mul_of_nonneg_right h1 (by positivity)
    have h3 : a / 2 * y * (4 / a * A) = 2 * (A * y) := by field_simp; ring
    nlinarith
  · rw [abs_of_nonneg (by positivity)]
    exact le_mul_of_one_le_right (by positivity) (by nlinarith [sq_nonneg x])

theorem far_bound' (h : Well U s s' a b L) {A : ℝ} (hA : 0 ≤ A) (hf : ∀ y, HasDerivAt f (s y * f y + ψ y) y)
    (hψ : ∀ y, |ψ y| ≤ A) (ht : Decays U f) {y : ℝ} (hy : far a b ≤ y) : |f y| ≤ 2 / a * A * y⁻¹ := by
  have ha := h.pos
  have hr := h.far_one
  refine h.barrier_right (k := fun y => 2 / a * A * y⁻¹) (k' := fun y => 2 / a * A * -(y ^ 2)⁻¹) hf
    (fun y hy => (hasDerivAt_inv (by linarith : y ≠ 0)).const_mul _) (fun y hy => ?_) ht.1 ?_ hy
  · refine (hψ y).trans ?_
    have h1 := h.force_far hy
    have hy0 : 0 < y := by linarith
    have h2 : a / 2 * y * (2 / a * A * y⁻¹) ≤ s y * (2 / a * A * y⁻¹) := mul_le_mul_of_nonneg_right h1 (by positivity)
    have h3 : a / 2 * y * (2 / a * A * y⁻¹) = A := by field_simp
    have h4 : 0 ≤ 2 / a * A * (y ^ 2)⁻¹ := by positivity
    linarith
  · have h1 := (h.decays_of_le (f := fun _ => 2 / a * A) (D := 2 / a * A) fun x => by
      rw [abs_of_nonneg (by positivity)]
      exact le_mul_of_one_le_right (by positivity) (by nlinarith [sq_nonneg x])).1
    have h2 := h1.mul tendsto_inv_atTop_zero
    rw [mul_zero] at h2
    refine h2.congr fun y => ?_
    ring

theorem Decays.reflect (h : Decays U f) : Decays (fun y => U (-y)) (fun y => f (-y)) :=
  ⟨h.2.comp tendsto_neg_atTop_atBot, h.1.comp tendsto_neg_atBot_atTop⟩

theorem reflect_deriv (hf : ∀ y, HasDerivAt f (s y * f y + ψ y) y) (y : ℝ) :
    HasDerivAt (fun y => f (-y)) (-s (-y) * f (-y) + -ψ (-y)) y := by
  refine ((hf (-y)).comp y (hasDerivAt_neg y)).congr_deriv ?_
  ring

/-- Solutions with a right hand side of linear growth are bounded. -/
theorem bound (h : Well U s s' a b L) : ∃ C, 0 ≤ C ∧ ∀ {f ψ : ℝ → ℝ} {A : ℝ}, 0 ≤ A → (∀ y, HasDerivAt f (s y * f y + ψ y) y) →
    (∀ y, |ψ y| ≤ A * (1 + |y|)) → Decays U f → ∀ y, |f y| ≤ C * A := by
  have hr := h.far_one
  have ha := h.pos
  set R := far a b with hR
  have hcE : ContinuousOn (fun y => Real.exp (-U y)) (Set.Icc (-R) R) := (Real.continuous_exp.comp h.continuous.neg).continuousOn
  have hcF : ContinuousOn (fun y => Real.exp (U y)) (Set.Icc (-R) R) := (Real.continuous_exp.comp h.continuous).continuousOn
  obtain ⟨E, hE⟩ := (isCompact_Icc.image_of_continuousOn hcE).bddAbove
  obtain ⟨F, hF⟩ := (isCompact_Icc.image_of_continuousOn hcF).bddAbove
  have hE' : ∀ y ∈ Set.Icc (-R) R, Real.exp (-U y) ≤ E := fun y hy => hE ⟨y, hy, rfl⟩
  have hF' : ∀ y ∈ Set.Icc (-R) R, Real.exp (U y) ≤ F := fun y hy => hF ⟨y, hy, rfl⟩
  have hRm : R ∈ Set.Icc (-R) R := ⟨by linarith, le_rfl⟩
  have hE0 : 0 ≤ E := (Real.exp_pos _).le.trans (hE' R hRm)
  have hF0 : 0 ≤ F := (Real.exp_pos _).le.trans (hF' R hRm)
  refine ⟨4 / a + F * (4 / a * E + (1 + R) * E * (2 * R)), by positivity, fun {f ψ A} hA hf hψ ht y => ?_⟩
  have hex : 0 ≤ F * (4 / a * E + (1 + R) * E * (2 * R)) * A := by positivity
  rcases le_total y R with h1 | h1
  · rcases le_total (-R) y with h2 | h2
    · have h3 : |f R| ≤ 4 / a * A := h.far_bound hA hf hψ ht le_rfl
      have h4 : |f R * Real.exp (-U R) - f y * Real.exp (-U y)| ≤ A * (1 + R) * E * |R - y| := by
        have := (convex_Icc (-R) R).norm_image_sub_le_of_norm_hasDerivWithin_le (f := fun y => f y * Real.exp (-U y))
          (f' := fun y => ψ y * Real.exp (-U y)) (C := A * (1 + R) * E)
          (fun z _ => ((h.decay_deriv (hf z)).congr_deriv (by ring)).hasDerivWithinAt) (fun z hz => ?_) ⟨h2, h1⟩ hRm
        · simpa [Real.norm_eq_abs] using this
        · rw [Real.norm_eq_abs, abs_mul, abs_of_pos (Real.exp_pos _)]
          refine mul_le_mul ((hψ z).trans (mul_le_mul_of_nonneg_left ?_ hA)) (hE' z hz) (Real.exp_pos _).le (by positivity)
          linarith [abs_le.2 hz]
      have h5 : |f R * Real.exp (-U R)| ≤ 4 / a * A * E := by
        rw [abs_mul, abs_of_pos (Real.exp_pos _)]
        exact mul_le_mul h3 (hE' R hRm) (Real.exp_pos _).le (by positivity)
      have h6 : |f y * Real.exp (-U y)| ≤ 4 / a * A * E + A * (1 + R) * E * (2 * R) := by
        have h7 := abs_sub_abs_le_abs_sub (f y * Real.exp (-U y)) (f R * Real.exp (-U R))
        rw [abs_sub_comm] at h7
        have h8 : A * (1 + R) * E * |R - y| ≤ A * (1 + R) * E * (2 * R) :=
          mul_le_mul_of_nonneg_left (by rw [abs_of_nonneg (by linarith)]; linarith) (by positivity)
        linarith
      have h9 : |f y| = Real.exp (U y) * |f y * Real.exp (-U y)| := by
        rw [abs_mul, abs_of_pos (Real.exp_pos _), mul_left_comm, ← Real.exp_add, add_neg_cancel, Real.exp_zero, mul_one]
      have h10 : |f y| ≤ F * (4 / a * A * E + A * (1 + R) * E * (2 * R)) := by
        rw [h9]
        exact mul_le_mul (hF' y ⟨h2, h1⟩) h6 (abs_nonneg _) hF0
      have h11 : 0 ≤ 4 / a * A := by positivity
      linarith
    · have h3 := h.reflect.far_bound (f := fun y => f (-y)) (ψ := fun y => -ψ (-y)) hA (reflect_deriv hf)
        (fun y => by simpa using hψ (-y)) (Decays.reflect ht) (y := -y) (by linarith)
      rw [neg_neg] at h3
      linarith
  · have h3 := h.far_bound hA hf hψ ht h1
    linarith

/-- Solutions with a bounded right hand side decay like the inverse of the distance. -/
theorem bound' (h : Well U s s' a b L) : ∃ C, 0 ≤ C ∧ ∀ {f ψ : ℝ → ℝ} {A : ℝ}, 0 ≤ A → (∀ y, HasDerivAt f (s y * f y + ψ y) y) →
    (∀ y, |ψ y| ≤ A) → Decays U f → ∀ y, (1 + |y|) * |f y| ≤ C * A := by
  obtain ⟨C, hC, hb⟩ := h.bound
  have hr := h.far_one
  have ha := h.pos
  refine ⟨4 / a + (1 + far a b) * C, by positivity, fun {f ψ A} hA hf hψ ht y => ?_⟩
  have hex : 0 ≤ (1 + far a b) * C * A := by positivity
  have key : ∀ y z : ℝ, far a b ≤ y → |z| ≤ 2 / a * A * y⁻¹ → (1 + y) * |z| ≤ 4 / a * A := fun y z hy hz => by
    have hy0 : 0 < y := by linarith
    calc (1 + y) * |z| ≤ (1 + y) * (2 / a * A * y⁻¹) := mul_le_mul_of_nonneg_left hz (by positivity)
      _ ≤ (2 * y) * (2 / a * A * y⁻¹) := mul_le_mul_of_nonneg_right (by linarith) (by positivity)
      _ = 4 / a * A := by field_simp; ring
  rcases le_total y (far a b) with h1 | h1
  · rcases le_total (-far a b) y with h2 | h2
    · have h3 := hb hA hf (fun y => (hψ y).trans (le_mul_of_one_le_right hA (by linarith [abs_nonneg y]))) ht y
      have h4 : (1 + |y|) * |f y| ≤ (1 + far a b) * (C * A) :=
        mul_le_mul (by linarith [abs_le.2 ⟨h2, h1⟩]) h3 (abs_nonneg _) (by positivity)
      have h5 : 0 ≤ 4 / a * A := by positivity
      linarith
    · have h3 := h.reflect.far_bound' (f := fun y => f (-y)) (ψ := fun y => -ψ (-y)) hA (reflect_deriv hf)
        (fun y => by simpa using hψ (-y)) (Decays.reflect ht) (y := -y) (by linarith)
      rw [neg_neg] at h3
      have h4 := key (-y) (f y) (by linarith) h3
      rw [abs_of_nonpos (by linarith : y ≤ 0)]
      linarith
  · have h3 := key y (f y) h1 (h.far_bound' hA hf hψ ht h1)
    rw [abs_of_nonneg (by linarith : 0 ≤ y)]
    linarith

/-! ## The solution -/

/-- The average of `φ` over the density `exp (-U)`. -/
noncomputable def avg (U φ : ℝ → ℝ) : ℝ := ∫ y, φ y * Real.exp (-U y)

theorem lip_of_deriv {φ φ' : ℝ → ℝ} {A : ℝ} (hφ : ∀ x, HasDerivAt φ (φ' x) x) (hA : ∀ x, |φ' x| ≤ A) (x y : ℝ) : |φ x - φ y| ≤ A * |x - y| := by
  have := convex_univ.norm_image_sub_le_of_norm_hasDerivWithin_le (f := φ) (f' := φ') (C := A) (fun z _ => (hφ z).hasDerivWithinAt)
    (fun z _ => hA z) (Set.mem_univ y) (Set.mem_univ x)
  simpa [Real.norm_eq_abs] using this

theorem centered (h : Well U s s' a b L) (hn : ∫ y, Real.exp (-U y) = 1) {φ φ' : ℝ → ℝ} {A : ℝ} (hφ : ∀ x, HasDerivAt φ (φ' x) x)
    (hA : ∀ x, |φ' x| ≤ A) : (Integrable fun y => φ y * Real.exp (-U y)) ∧ (Integrable fun y => (φ y - avg U φ) * Real.exp (-U y))
      ∧ (∫ y, (φ y - avg U φ) * Real.exp (-U y) = 0) ∧ ∀ x, |φ x - avg U φ| ≤ A * (1 + avg U fun y => |y|) * (1 + |x|) := by
  have hA0 : 0 ≤ A := (abs_nonneg _).trans (hA 0)
  have hc : Continuous φ := continuous_iff_continuousAt.2 fun x => (hφ x).continuousAt
  have hl := lip_of_deriv hφ hA
  have i1 : Integrable fun y => Real.exp (-U y) := by
    simpa using h.integrable_of_le (f := fun _ => 1) continuous_const (D := 1) fun x => by simp; nlinarith [sq_nonneg x]
  have i2 : Integrable fun y => |y| * Real.exp (-U y) := h.integrable_of_le continuous_abs (D := 1) fun x => by
    rw [abs_abs]; nlinarith [sq_nonneg (|x| - 1), sq_abs x]
  have i3 : Integrable fun y => φ y * Real.exp (-U y) := h.integrable_of_le hc (D := |φ 0| + A) fun x => by
    have h1 := hl x 0
    rw [sub_zero] at h1
    have h2 := abs_sub_abs_le_abs_sub (φ x) (φ 0)
    have h3 : |x| ≤ 1 + x ^ 2 := by nlinarith [sq_nonneg (|x| - 1), sq_abs x]
    nlinarith [mul_le_mul_of_nonneg_left h3 hA0, mul_nonneg (abs_nonneg (φ 0)) (sq_nonneg x)]
  have e1 : ∀ c : ℝ, ∫ y, (φ y - c) * Real.exp (-U y) = avg U φ - c := fun c => by
    have e : (fun y => (φ y - c) * Real.exp (-U y)) = fun y => φ y * Real.exp (-U y) - c * Real.exp (-U y) := by funext y; ring
    rw [e, integral_sub i3 (i1.const_mul c), integral_const_mul, hn, mul_one, avg]
  refine ⟨i3, ?_, by rw [e1, sub_self], fun x => ?_⟩
  · have e : (fun y => (φ y - avg U φ) * Real.exp (-U y)) = fun y => φ y * Real.exp (-U y) - avg U φ * Real.exp (-U y) := by funext y; ring
    rw [e]
    exact i3.sub (i1.const_mul _)
  · have h1 : |∫ y, (φ y - φ x) * Real.exp (-U y)| ≤ ∫ y, A * (|x| * Real.exp (-U y) + |y| * Real.exp (-U y)) := by
      refine (abs_integral_le_integral_abs).trans (integral_mono_of_nonneg (.of_forall fun y => abs_nonneg _)
        (((i1.const_mul _).add i2).const_mul _) (.of_forall fun y => ?_))
      simp only
      rw [abs_mul, abs_of_pos (Real.exp_pos _), ← add_mul, ← mul_assoc]
      refine mul_le_mul_of_nonneg_right ((hl y x).trans (mul_le_mul_of_nonneg_left ?_ hA0)) (Real.exp_pos _).le
      rw [add_comm]
      exact abs_sub _ _
    rw [e1, integral_const_mul, integral_add (i1.const_mul _) i2, integral_const_mul, hn, mul_one, abs_sub_comm] at h1
    have h2 : 0 ≤ avg U fun y => |y| := integral_nonneg fun y => mul_nonneg (abs_nonneg y) (Real.exp_pos _).le
    have h3 : |x| + avg U (fun y => |y|) ≤ (1 + avg U fun y => |y|) * (1 + |x|) := by nlinarith [abs_nonneg x]
    refine h1.trans ?_
    rw [mul_assoc]
    exact mul_le_mul_of_nonneg_left h3 hA0

theorem primitive (h : Well U s s' a b L) {ψ : ℝ → ℝ} (hψ : Continuous ψ) (hi : Integrable fun y => ψ y * Real.exp (-U y))
    (h0 : ∫ y, ψ y * Real.exp (-U y) = 0) : ∃ f : ℝ → ℝ, (∀ y, HasDerivAt f (s y * f y + ψ y) y) ∧ Decays U f := by
  set p : ℝ → ℝ := fun y => ψ y * Real.exp (-U y) with hp
  have hpc : Continuous p := hψ.mul (Real.continuous_exp.comp h.continuous.neg)
  set F : ℝ → ℝ := fun x => (∫ y in Set.Iic 0, p y) + ∫ y in (0 : ℝ)..x, p y with hF
  have hFd : ∀ x, HasDerivAt F (p x) x := fun x => by
    refine HasDerivAt.const_add _ ?_
    exact intervalIntegral.integral_hasDerivAt_right (hpc.intervalIntegrable _ _) (hpc.stronglyMeasurableAtFilter _ _) hpc.continuousAt
  have hE : ∀ y, Real.exp (U y) * Real.exp (-U y) = 1 := fun y => by rw [← Real.exp_add, add_neg_cancel, Real.exp_zero]
  have hval : ∀ y, F y * Real.exp (U y) * Real.exp (-U y) = F y := fun y => by rw [mul_assoc, hE, mul_one]
  refine ⟨fun x => F x * Real.exp (U x), fun y => ?_, ?_, ?_⟩
  · refine ((hFd y).mul (h.deriv y).exp).congr_deriv ?_
    have := hE y
    simp only [hp]
    linear_combination ψ y * this
  · simp only [hval]
    have h1 := intervalIntegral_tendsto_integral_Ioi (0 : ℝ) hi.integrableOn tendsto_id
    have h2 : (∫ y in Set.Iic 0, p y) + ∫ y in Set.Ioi 0, p y = 0 := by
      rw [← setIntegral_union (Set.Iic_disjoint_Ioi le_rfl) measurableSet_Ioi hi.integrableOn hi.integrableOn, Set.Iic_union_Ioi,
        setIntegral_univ, h0]
    have h3 := h1.const_add (∫ y in Set.Iic 0, p y)
    rw [h2] at h3
    exact h3
  · simp only [hval]
    have h1 := intervalIntegral_tendsto_integral_Iic (0 : ℝ) hi.integrableOn tendsto_id
    have h3 := h1.const_sub (∫ y in Set.Iic 0, p y)
    rw [sub_self] at h3
    refine h3.congr fun x => ?_
    simp only [hF, id]
    rw [intervalIntegral.integral_symm x 0, sub_eq_add_neg]

/-- Stein's equation has a solution with bounded derivatives. -/
theorem solve (h : Well U s s' a b L) (hn : ∫ y, Real.exp (-U y) = 1) : ∃ K, 0 ≤ K ∧ ∀ {φ φ' : ℝ → ℝ} {A : ℝ},
    (∀ x, HasDerivAt φ (φ' x) x) → (∀ x, |φ' x| ≤ A) → ∃ g g' g'' : ℝ → ℝ, (∀ x, HasDerivAt g (g' x) x) ∧ (∀ x, HasDerivAt g' (g'' x) x)
      ∧ (∀ x, g' x - s x * g x = φ x - avg U φ) ∧ (∀ x, |g x| ≤ K * A) ∧ (∀ x, |g' x| ≤ K * A) ∧ ∀ x, |g'' x| ≤ K * A := by
  obtain ⟨C, hC, hb⟩ := h.bound
  obtain ⟨C', hC', hb'⟩ := h.bound'
  set m₁ := avg U fun y => |y| with hm₁
  have hm0 : 0 ≤ m₁ := integral_nonneg fun y => mul_nonneg (abs_nonneg y) (Real.exp_pos _).le
  have hL := h.lip_nonneg
  set S := |s 0| + L with hS
  have hS0 : 0 ≤ S := by positivity
  set Q := L * (C * (1 + m₁)) + 1 with hQ
  have hQ0 : 0 ≤ Q := by positivity
  refine ⟨C * (1 + m₁) + C' * Q + (S * (C' * Q) + Q), by positivity, fun {φ φ' A} hφ hA => ?_⟩
  have hA0 : 0 ≤ A := (abs_nonneg _).trans (hA 0)
  have hc : Continuous φ := continuous_iff_continuousAt.2 fun x => (hφ x).continuousAt
  obtain ⟨-, i2, i3, hlin⟩ := h.centered hn hφ hA
  obtain ⟨g, hg, hgd⟩ := h.primitive (ψ := fun y => φ y - avg U φ) (hc.sub continuous_const) i2 i3
  have hg0 : ∀ x, |g x| ≤ C * (A * (1 + m₁)) := hb (by positivity) hg hlin hgd
  set g' : ℝ → ℝ := fun x => s x * g x + (φ x - avg U φ) with hg'
  have hψ : ∀ x, |s' x * g x + φ' x| ≤ Q * A := fun x => by
    refine (abs_add_le _ _).trans ?_
    rw [abs_mul]
    have h1 := mul_le_mul (h.lip x) (hg0 x) (abs_nonneg _) hL
    have h2 := hA x
    rw [hQ]
    linarith
  have hg1 : ∀ x, HasDerivAt g' (s x * g' x + (s' x * g x + φ' x)) x := fun x => by
    refine (((h.deriv2 x).mul (hg x)).add ((hφ x).sub_const _)).congr_deriv ?_
    simp only [hg']
    ring
  have hgb : ∀ x, |g' x| ≤ (S * (C * (A * (1 + m₁))) + A * (1 + m₁)) * (1 + |x|) := fun x => by
    refine (abs_add_le _ _).trans ?_
    rw [abs_mul]
    have h1 := mul_le_mul (h.force_le x) (hg0 x) (abs_nonneg _) (by positivity)
    have h2 := hlin x
    linarith
  have hgd' : Decays U g' := h.decays_of_le (D := 2 * (S * (C * (A * (1 + m₁))) + A * (1 + m₁))) fun x => by
    refine (hgb x).trans ?_
    rw [mul_comm 2, mul_assoc]
    refine mul_le_mul_of_nonneg_left ?_ (by positivity)
    nlinarith [sq_nonneg (|x| - 1), sq_abs x]
  have hg2 := hb' (mul_nonneg hQ0 hA0) hg1 hψ hgd'
  have hg2' : ∀ x, |g' x| ≤ C' * (Q * A) := fun x => le_trans (le_mul_of_one_le_left (abs_nonneg _) (by linarith [abs_nonneg x])) (hg2 x)
  have p1 : 0 ≤ C * (1 + m₁) * A := by positivity
  have p2 : 0 ≤ C' * Q * A := by positivity
  have p3 : 0 ≤ (S * (C' * Q) + Q) * A := by positivity
  refine ⟨g, g', fun x => s x * g' x + (s' x * g x + φ' x), hg, hg1, fun x => by simp only [hg']; ring, fun x => ?_, fun x => ?_, fun x => ?_⟩
  · linarith [hg0 x]
  · linarith [hg2' x]
  · have h1 : |s x * g' x| ≤ S * (C' * (Q * A)) := by
      rw [abs_mul]
      calc |s x| * |g' x| ≤ S * (1 + |x|) * |g' x| := mul_le_mul_of_nonneg_right (h.force_le x) (abs_nonneg _)
        _ = S * ((1 + |x|) * |g' x|) := by ring
        _ ≤ _ := mul_le_mul_of_nonneg_left (hg2 x) hS0
    have h2 := abs_add_le (s x * g' x) (s' x * g x + φ' x)
    linarith [hψ x]

end Well

end PySGMCMC.Stein
