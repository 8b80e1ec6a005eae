import Verif.Lemmas.Harnack
import Verif.Lemmas.Convergence

/-!
# How well a step of SGLD preserves the posterior

The step along the full gradient satisfies detailed balance up to a factor near one.  Hence averages of a function `h` before and after a
step, from the posterior, differ by less than the stepsize times the variation of `h`.
-/

open MeasureTheory ProbabilityTheory
namespace PySGMCMC.Harris
open Confining Moves Recipe Langevin
set_option linter.unusedSectionVars false

variable {J : Type} [Fintype J] [DecidableEq J] {Bt : Type} [MeasurableSpace Bt] {ν : Measure Bt} [IsProbabilityMeasure ν]
  {G : Bt → (J → ℝ) → J → ℝ} {a b Λ L lo hi S t c : ℝ} {g : Bt → ℝ} {m : J → ℝ} {φ : (J → ℝ) → ℝ} {U : (J → ℝ) → ℝ}

/-- Mini-batch gradients of a cost. -/
structure Potential (ν : Measure Bt) (G : Bt → (J → ℝ) → J → ℝ) (U : (J → ℝ) → ℝ) (a b Λ : ℝ) (g : Bt → ℝ) (L lo hi S : ℝ) : Prop
    extends Smooth ν G a b Λ g L lo hi S where
  diff : ContDiff ℝ 1 U
  mean : ∀ x j, ∫ β, G β x j ∂ν = partialD U j x

/-- One more than the distance to the origin. -/
noncomputable def far (x : J → ℝ) : ℝ := 1 + ‖x‖

theorem one_le_far (x : J → ℝ) : 1 ≤ far x := by unfold far; linarith [norm_nonneg x]
theorem far_pos (x : J → ℝ) : 0 < far x := by linarith [one_le_far x]
theorem norm_le_far (x : J → ℝ) : ‖x‖ ≤ far x := by unfold far; linarith
theorem measurable_far : Measurable (far (J := J)) := measurable_const.add measurable_norm

namespace Potential
variable (h : Potential ν G U a b Λ g L lo hi S)
include h

theorem grad_lip (x y : J → ℝ) : ‖gradU U x - gradU U y‖ ≤ L * ‖x - y‖ := by
  have := h.lip0
  refine (pi_norm_le_iff_of_nonneg (by positivity)).2 fun j => ?_
  simp only [gradU, Pi.sub_apply]
  rw [← h.mean, ← h.mean, ← integral_sub (h.conf.integrable_G x j) (h.conf.integrable_G y j)]
  refine (norm_integral_le_of_norm_le_const (C := L * ‖x - y‖) (.of_forall fun β => ?_)).trans (le_of_eq (by rw [probReal_univ, mul_one]))
  exact (norm_le_pi_norm (G β x - G β y) j).trans (h.lip β x y)

theorem grad_continuous : Continuous (gradU U) :=
  (LipschitzWith.of_dist_le_mul (K := ⟨L, h.lip0⟩) fun x y => by
    rw [dist_eq_norm, dist_eq_norm]; exact h.grad_lip x y).continuous

theorem grad_le (x : J → ℝ) : ‖gradU U x‖ ≤ (L + ‖gradU U 0‖) * far x := by
  have h1 := h.grad_lip x 0
  rw [sub_zero] at h1
  have h2 := norm_sub_norm_le (gradU U x) (gradU U 0)
  have h3 := h.lip0
  unfold far
  nlinarith [norm_nonneg x, norm_nonneg (gradU U 0), mul_nonneg (norm_nonneg (gradU U 0)) (norm_nonneg x)]

theorem along (x y : J → ℝ) (q : ℝ) : HasDerivAt (fun q : ℝ => U (x + q • y)) (∑ j, y j * gradU U (x + q • y) j) q := by
  have h1 : HasDerivAt (fun q : ℝ => x + q • y) y q := by simpa using ((hasDerivAt_id' q).smul_const y).const_add x
  have h2 := ((h.diff.differentiable (by norm_num)) (x + q • y)).hasFDerivAt.comp_hasDerivAt q h1
  rw [Recipe.fderiv_sum] at h2
  exact h2

/-- The trapezoidal rule. -/
theorem trapezoid (x y : J → ℝ) : |U y - U x - ∑ j, (y j - x j) * ((gradU U x j + gradU U y j) / 2)| ≤ Fintype.card J * L * ‖y - x‖ ^ 2 := by
  obtain ⟨q, hq, he⟩ := exists_hasDerivAt_eq_slope (fun q : ℝ => U (x + q • (y - x))) (fun q => ∑ j, (y - x) j * gradU U (x + q • (y - x)) j)
    zero_lt_one (fun q _ => (h.along x (y - x) q).continuousAt.continuousWithinAt) fun q _ => h.along x (y - x) q
  simp only [one_smul, zero_smul, add_zero, add_sub_cancel, sub_zero, div_one] at he
  rw [← he, ← Finset.sum_sub_distrib]
  have hL := h.lip0
  have hD : ∀ (p : J → ℝ) (j : J), |gradU U (x + q • (y - x)) j - gradU U p j| ≤ L * ‖x + q • (y - x) - p‖ := fun p j =>
    (norm_le_pi_norm (gradU U (x + q • (y - x)) - gradU U p) j).trans (h.grad_lip _ _)
  have h1 : ‖x + q • (y - x) - x‖ ≤ ‖y - x‖ := by
    rw [add_sub_cancel_left, norm_smul, Real.norm_eq_abs, abs_of_pos hq.1]
    exact mul_le_of_le_one_left (norm_nonneg _) hq.2.le
  have h2 : ‖x + q • (y - x) - y‖ ≤ ‖y - x‖ := by
    have : x + q • (y - x) - y = (q - 1) • (y - x) := by
      rw [sub_smul, one_smul]; abel
    rw [this, norm_smul, Real.norm_eq_abs, abs_of_nonpos (by linarith [hq.2])]
    exact mul_le_of_le_one_left (norm_nonneg _) (by linarith [hq.1])
  refine (Finset.abs_sum_le_sum_abs _ _).trans ?_
  have key : ∀ j, |(y - x) j * gradU U (x + q • (y - x)) j - (y j - x j) * ((gradU U x j + gradU U y j) / 2)| ≤ L * ‖y - x‖ ^ 2 := fun j => by
    have e : (y - x) j * gradU U (x + q • (y - x)) j - (y j - x j) * ((gradU U x j + gradU U y j) / 2)
        = (y - x) j * (((gradU U (x + q • (y - x)) j - gradU U x j) + (gradU U (x + q • (y - x)) j - gradU U y j)) / 2) := by
      rw [Pi.sub_apply]; ring
    rw [e, abs_mul, abs_div, abs_two]
    have h3 := (hD x j).trans (mul_le_mul_of_nonneg_left h1 hL)
    have h4 := (hD y j).trans (mul_le_mul_of_nonneg_left h2 hL)
    have h5 := abs_add_le (gradU U (x + q • (y - x)) j - gradU U x j) (gradU U (x + q • (y - x)) j - gradU U y j)
    have h6 : |gradU U (x + q • (y - x)) j - gradU U x j + (gradU U (x + q • (y - x)) j - gradU U y j)| / 2 ≤ L * ‖y - x‖ := by linarith
    refine (mul_le_mul (norm_le_pi_norm (y - x) j) h6 (by positivity) (norm_nonneg _)).trans (le_of_eq (by ring))
  refine (Finset.sum_le_sum fun j _ => key j).trans (le_of_eq ?_)
  rw [Finset.sum_const, nsmul_eq_mul, Finset.card_univ, mul_assoc]

/-- The cost grows between half a point and the point. -/
theorem half (x : J → ℝ) : U ((1 / 2 : ℝ) • x) + 3 / 8 * a * ∑ j, x j ^ 2 - b ≤ U x := by
  set s := ∑ j, x j ^ 2 with hs
  have hd : ∀ q : ℝ, HasDerivAt (fun q : ℝ => U (q • x)) (∑ j, x j * gradU U (q • x) j) q := fun q => by
    simpa using h.along 0 x q
  have hin : ∀ q : ℝ, 0 < q → a * q * s - b / q ≤ ∑ j, x j * gradU U (q • x) j := fun q hq => by
    have h1 := h.conf.inward (q • x)
    rw [integral_finsetSum _ fun j _ => (h.conf.integrable_G _ j).const_mul _] at h1
    simp only [integral_const_mul, h.mean, Pi.smul_apply, smul_eq_mul] at h1
    have e1 : ∑ j, (q * x j) ^ 2 = q ^ 2 * s := by simp only [mul_pow, ← Finset.mul_sum, hs]
    have e2 : ∑ j, q * x j * partialD U j (q • x) = q * ∑ j, x j * gradU U (q • x) j := by
      rw [Finset.mul_sum]
      exact Finset.sum_congr rfl fun j _ => by simp only [gradU]; ring
    rw [e1, e2] at h1
    have h2 : q * (a * q * s - b / q) ≤ q * ∑ j, x j * gradU U (q • x) j := by
      refine le_trans (le_of_eq ?_) h1
      field_simp
    exact le_of_mul_le_mul_left h2 hq
  have hmono : MonotoneOn (fun q : ℝ => U (q • x) - (a * s / 2 * q ^ 2 - 2 * b * q)) (Set.Icc (1 / 2) 1) := by
    have hd2 : ∀ q : ℝ, HasDerivAt (fun q : ℝ => U (q • x) - (a * s / 2 * q ^ 2 - 2 * b * q))
        (∑ j, x j * gradU U (q • x) j - (a * s * q - 2 * b)) q := fun q => by
      refine ((hd q).sub ((((hasDerivAt_id' q).pow 2).const_mul (a * s / 2)).sub ((hasDerivAt_id' q).const_mul (2 * b)))).congr_deriv ?_
      simp
      ring
    refine monotoneOn_of_deriv_nonneg (convex_Icc _ _) (fun q _ => (hd2 q).continuousAt.continuousWithinAt)
      (fun q _ => (hd2 q).differentiableAt.differentiableWithinAt) fun q hq => ?_
    rw [interior_Icc] at hq
    rw [(hd2 q).deriv]
    have h1 := hin q (by linarith [hq.1])
    have h2 : b / q ≤ 2 * b := by
      rw [div_le_iff₀ (by linarith [hq.1])]
      nlinarith [h.conf.slack, hq.1]
    linarith
  have h01 := hmono (Set.left_mem_Icc.2 (by norm_num)) (Set.right_mem_Icc.2 (by norm_num)) (by norm_num)
  simp only [one_smul] at h01
  linarith

/-- The cost grows quadratically. -/
theorem grows : ∃ d, ∀ x, 3 / 8 * a * ∑ j, x j ^ 2 - d ≤ U x := by
  have ha := h.conf.pos
  have hb := h.conf.slack
  set r : ℝ := 8 / 3 * b / a + 1 with hr
  have hr0 : 0 < r := by positivity
  obtain ⟨d, hd⟩ : ∃ d, ∀ x : J → ℝ, ∑ j, x j ^ 2 ≤ r → -d ≤ U x := by
    obtain ⟨x₀, _, hx₀⟩ := (isCompact_closedBall (0 : J → ℝ) (√r)).exists_isMinOn ⟨0, by simp⟩ h.diff.continuous.continuousOn
    refine ⟨-U x₀, fun x hx => ?_⟩
    rw [neg_neg]
    refine hx₀ ?_
    rw [mem_closedBall_zero_iff]
    refine (pi_norm_le_iff_of_nonneg (Real.sqrt_nonneg _)).2 fun j => Real.abs_le_sqrt ?_
    exact (Finset.single_le_sum (f := fun j => x j ^ 2) (fun j _ => sq_nonneg _) (Finset.mem_univ j)).trans hx
  have hlow : ∀ (k : Nat) (x : J → ℝ), ∑ j, x j ^ 2 ≤ 4 ^ k * r → -d ≤ U x := by
    intro k
    induction k with
    | zero => intro x hx; exact hd x (by simpa using hx)
    | succ k ih =>
      intro x hx
      rcases le_total (∑ j, x j ^ 2) r with h1 | h1
      · exact hd x h1
      · have h2 := h.half x
        have h3 := ih ((1 / 2 : ℝ) • x) (by
          simp only [Pi.smul_apply, smul_eq_mul, mul_pow, ← Finset.mul_sum]
          rw [pow_succ] at hx
          linarith)
        have h4 : b ≤ 3 / 8 * a * ∑ j, x j ^ 2 := by
          have := mul_le_mul_of_nonneg_left h1 (by positivity : 0 ≤ 3 / 8 * a)
          rw [hr] at this
          have e : 3 / 8 * a * (8 / 3 * b / a + 1) = b + 3 / 8 * a := by field_simp
          linarith
        linarith
  have hlow' : ∀ x, -d ≤ U x := fun x => by
    obtain ⟨k, hk⟩ := pow_unbounded_of_one_lt ((∑ j, x j ^ 2) / r) (by norm_num : (1 : ℝ) < 4)
    rw [div_lt_iff₀ hr0] at hk
    exact hlow k x hk.le
  refine ⟨d + b, fun x => ?_⟩
  have h1 := h.half x
  have h2 := hlow' ((1 / 2 : ℝ) • x)
  linarith

theorem moments (c : ℝ) : IsFiniteMeasure (boltz fun x => S * U x + c) ∧ ∀ n : Nat, Integrable (fun x : J → ℝ => ‖x‖ ^ n) (boltz fun x => S * U x + c) := by
  obtain ⟨d, hd⟩ := h.grows
  have ha := h.conf.pos
  have hS := h.S_pos
  refine quadratic_boltz ((h.diff.continuous.measurable.const_mul S).add_const c) (S * (3 / 8 * a)) (S * d - c) (by positivity) fun x => ?_
  have := mul_le_mul_of_nonneg_left (hd x) hS.le
  nlinarith

end Potential

theorem far_moments {μ : Measure (J → ℝ)} [IsFiniteMeasure μ] (h : ∀ n : Nat, Integrable (fun x : J → ℝ => ‖x‖ ^ n) μ) (n : Nat) :
    Integrable (fun x => far x ^ n) μ := by
  unfold far
  simp only [add_pow, one_pow, one_mul]
  exact integrable_finsetSum _ fun k _ => (h _).mul_const _

theorem gauss_far (n : Nat) : Integrable (fun z : J → ℝ => far z ^ n) (gauss J) := by
  refine far_moments (fun n => ?_) n
  rw [gauss_boltz]
  refine (quadratic_boltz (well_continuous _ _).measurable (1 / 2) (-∑ _j : J, Real.log √(2 * Real.pi * 1 ^ 2)) (by norm_num) fun x => ?_).2 n
  unfold well
  rw [Finset.sum_add_distrib, Finset.mul_sum]
  simp only [Pi.zero_apply, Pi.one_apply, sub_zero, one_pow, mul_one]
  have : ∀ j, 1 / 2 * x j ^ 2 = x j ^ 2 / 2 := fun j => by ring
  simp only [this]
  linarith

/-! ## Detailed balance -/

theorem exp_sub_le (p q : ℝ) : |Real.exp p - Real.exp q| ≤ |p - q| * (Real.exp p + Real.exp q) := by
  have key : ∀ p q : ℝ, p ≤ q → |Real.exp p - Real.exp q| ≤ |p - q| * (Real.exp p + Real.exp q) := fun p q hpq => by
    rw [abs_of_nonpos (by linarith [Real.exp_le_exp.2 hpq]), abs_of_nonpos (by linarith)]
    have h1 := Real.add_one_le_exp (p - q)
    have h2 : Real.exp p = Real.exp (p - q) * Real.exp q := by rw [← Real.exp_add]; congr 1; ring
    have h3 := Real.exp_pos q
    have h4 := Real.exp_pos p
    have h5 := mul_le_mul_of_nonneg_right h1 h3.le
    nlinarith [mul_nonneg (by linarith : 0 ≤ q - p) h4.le]
  rcases le_total p q with h | h
  · exact key p q h
  · rw [abs_sub_comm, abs_sub_comm p q, add_comm (Real.exp p)]
    exact key q p h

/-- Averages of antisymmetric functions are small if the weight is nearly symmetric. -/
theorem antisymmetric {X : Type*} [MeasurableSpace X] {μ : Measure X} [SFinite μ] {k l d : X → X → ℝ}
    (hd : ∀ x y, d y x = -d x y) (hl : ∀ x y, |l y x| = |l x y|) (hk : ∀ x y, |k x y - k y x| ≤ |l x y| * (k x y + k y x))
    (i1 : Integrable (fun q : X × X => d q.1 q.2 * k q.1 q.2) (μ.prod μ)) (i2 : Integrable (fun q : X × X => |d q.1 q.2| * |l q.1 q.2| * k q.1 q.2) (μ.prod μ)) :
    |∫ q : X × X, d q.1 q.2 * k q.1 q.2 ∂μ.prod μ| ≤ ∫ q : X × X, |d q.1 q.2| * |l q.1 q.2| * k q.1 q.2 ∂μ.prod μ := by
  have e1 : ∫ q : X × X, -(d q.1 q.2 * k q.2 q.1) ∂μ.prod μ = ∫ q : X × X, d q.1 q.2 * k q.1 q.2 ∂μ.prod μ := by
    rw [← integral_prod_swap (μ := μ) (ν := μ)]
    refine integral_congr_ae (.of_forall fun q => ?_)
    simp only [Prod.fst_swap, Prod.snd_swap]
    rw [hd q.1 q.2]
    ring
  have e2 : ∫ q : X × X, |d q.1 q.2| * |l q.1 q.2| * k q.2 q.1 ∂μ.prod μ = ∫ q : X × X, |d q.1 q.2| * |l q.1 q.2| * k q.1 q.2 ∂μ.prod μ := by
    rw [← integral_prod_swap (μ := μ) (ν := μ)]
    refine integral_congr_ae (.of_forall fun q => ?_)
    simp only [Prod.fst_swap, Prod.snd_swap]
    rw [hd q.1 q.2, hl q.1 q.2, abs_neg]
  have i3 : Integrable (fun q : X × X => -(d q.1 q.2 * k q.2 q.1)) (μ.prod μ) := by
    refine i1.swap.congr (.of_forall fun q => ?_)
    simp only [Function.comp, Prod.fst_swap, Prod.snd_swap]
    rw [hd q.1 q.2]
    ring
  have i4 : Integrable (fun q : X × X => |d q.1 q.2| * |l q.1 q.2| * k q.2 q.1) (μ.prod μ) := by
    refine i2.swap.congr (.of_forall fun q => ?_)
    simp only [Function.comp, Prod.fst_swap, Prod.snd_swap]
    rw [hd q.1 q.2, hl q.1 q.2, abs_neg]
  have h1 : |∫ q : X × X, (d q.1 q.2 * k q.1 q.2 + -(d q.1 q.2 * k q.2 q.1)) ∂μ.prod μ|
      ≤ ∫ q : X × X, (|d q.1 q.2| * |l q.1 q.2| * k q.1 q.2 + |d q.1 q.2| * |l q.1 q.2| * k q.2 q.1) ∂μ.prod μ := by
    rw [← Real.norm_eq_abs]
    refine norm_integral_le_of_norm_le (i2.add i4) (.of_forall fun q => ?_)
    have e : d q.1 q.2 * k q.1 q.2 + -(d q.1 q.2 * k q.2 q.1) = d q.1 q.2 * (k q.1 q.2 - k q.2 q.1) := by ring
    rw [e, Real.norm_eq_abs, abs_mul]
    refine (mul_le_mul_of_nonneg_left (hk q.1 q.2) (abs_nonneg _)).trans (le_of_eq ?_)
    ring
  rw [integral_add i1 i3, integral_add i2 i4, e1, e2, ← two_mul, ← two_mul, abs_mul, abs_two] at h1
  linarith

/-- A step along the full gradient. -/
noncomputable def mid (U : (J → ℝ) → ℝ) (m : J → ℝ) (S t : ℝ) (x z : J → ℝ) : J → ℝ := fun j => (x j - t * m j * gradU U x j) + sig m S t j * z j

/-- The joint density of the posterior and a step from it. -/
noncomputable def joint (U : (J → ℝ) → ℝ) (m : J → ℝ) (S t c : ℝ) (x y : J → ℝ) : ℝ :=
  Real.exp (-(S * U x + c)) * Real.exp (-well (fun j => x j - t * m j * gradU U x j) (sig m S t) y)

/-- How far a step is from detailed balance. -/
noncomputable def defect (U : (J → ℝ) → ℝ) (m : J → ℝ) (S t : ℝ) (x y : J → ℝ) : ℝ :=
  S * (U y - U x - ∑ j, (y j - x j) * ((gradU U x j + gradU U y j) / 2)) + S * t / 4 * ∑ j, m j * (gradU U y j ^ 2 - gradU U x j ^ 2)

theorem joint_pos (x y : J → ℝ) : 0 < joint U m S t c x y := mul_pos (Real.exp_pos _) (Real.exp_pos _)

theorem joint_defect (hm : ∀ j, 0 < m j) (hS : 0 < S) (ht : 0 < t) (x y : J → ℝ) :
    |joint U m S t c x y - joint U m S t c y x| ≤ |defect U m S t x y| * (joint U m S t c x y + joint U m S t c y x) := by
  unfold joint
  rw [← Real.exp_add, ← Real.exp_add]
  refine (exp_sub_le _ _).trans (le_of_eq ?_)
  congr 2
  unfold defect well
  have hs : ∀ j, sig m S t j ^ 2 = 2 * t * m j / S := fun j => by
    have := hm j
    exact Real.sq_sqrt (by positivity)
  simp only [hs, Finset.sum_add_distrib]
  have e : ∀ j, m j * (gradU U y j ^ 2 - gradU U x j ^ 2) * (S * t / 4) - (y j - x j) * ((gradU U x j + gradU U y j) / 2) * S
      = (x j - (y j - t * m j * gradU U y j)) ^ 2 / (2 * (2 * t * m j / S)) - (y j - (x j - t * m j * gradU U x j)) ^ 2 / (2 * (2 * t * m j / S)) := fun j => by
    have := (hm j).ne'
    field_simp
    ring
  have e2 := Finset.sum_congr (rfl : (Finset.univ : Finset J) = Finset.univ) fun j _ => e j
  rw [Finset.sum_sub_distrib, Finset.sum_sub_distrib, ← Finset.sum_mul, ← Finset.sum_mul] at e2
  linarith

theorem defect_swap (x y : J → ℝ) : |defect U m S t y x| = |defect U m S t x y| := by
  rw [← abs_neg]
  congr 1
  unfold defect
  have e1 : ∑ j, (x j - y j) * ((gradU U y j + gradU U x j) / 2) = -∑ j, (y j - x j) * ((gradU U x j + gradU U y j) / 2) := by
    rw [← Finset.sum_neg_distrib]
    exact Finset.sum_congr rfl fun j _ => by ring
  have e2 : ∑ j, m j * (gradU U x j ^ 2 - gradU U y j ^ 2) = -∑ j, m j * (gradU U y j ^ 2 - gradU U x j ^ 2) := by
    rw [← Finset.sum_neg_distrib]
    exact Finset.sum_congr rfl fun j _ => by ring
  rw [e1, e2]
  ring

theorem mid_integral (hs : ∀ j, sig m S t j ≠ 0) (φ : (J → ℝ) → ℝ) (hφ : Measurable φ) (x : J → ℝ) :
    (Integrable (fun z => φ (mid U m S t x z)) (gauss J)
      ↔ Integrable fun y => φ y * Real.exp (-well (fun j => x j - t * m j * gradU U x j) (sig m S t) y)) ∧
    ∫ z, φ (mid U m S t x z) ∂gauss J = ∫ y, φ y * Real.exp (-well (fun j => x j - t * m j * gradU U x j) (sig m S t) y) := by
  have hmm : Measurable (mid U m S t x) := by unfold mid; fun_prop
  have h1 := shift_boltz (c := fun j => x j - t * m j * gradU U x j) hs
  have h2 : (gauss J).map (mid U m S t x) = boltz (well (fun j => x j - t * m j * gradU U x j) (sig m S t)) := h1
  rw [← integrable_boltz (well_continuous _ _), ← integral_boltz (well_continuous _ _), ← h2,
    integrable_map_measure hφ.aestronglyMeasurable hmm.aemeasurable, integral_map hmm.aemeasurable hφ.aestronglyMeasurable]
  exact ⟨Iff.rfl, rfl⟩

namespace Potential
variable (h : Potential ν G U a b Λ g L lo hi S)
include h

theorem measurable_mid : Measurable fun q : (J → ℝ) × (J → ℝ) => mid U m S t q.1 q.2 := by
  have := h.grad_continuous.measurable
  have hj : ∀ j, Measurable fun q : (J → ℝ) × (J → ℝ) => gradU U q.1 j := fun j => (measurable_pi_apply j).comp (this.comp measurable_fst)
  unfold mid
  refine measurable_pi_iff.2 fun j => ?_
  have h1 : Measurable fun q : (J → ℝ) × (J → ℝ) => q.1 j := (measurable_pi_apply j).comp measurable_fst
  have h2 : Measurable fun q : (J → ℝ) × (J → ℝ) => q.2 j := (measurable_pi_apply j).comp measurable_snd
  exact (h1.sub ((hj j).const_mul _)).add (h2.const_mul _)

theorem continuous_joint : Continuous fun q : (J → ℝ) × (J → ℝ) => joint U m S t c q.1 q.2 := by
  have h1 := h.grad_continuous
  have h2 := h.diff.continuous
  unfold joint well
  fun_prop

/-- Averages over steps from the posterior, as integrals over pairs. -/
theorem pairs (hs : ∀ j, sig m S t j ≠ 0) [IsProbabilityMeasure (boltz fun x => S * U x + c)] {F : (J → ℝ) → (J → ℝ) → ℝ}
    (hF : Measurable fun q : (J → ℝ) × (J → ℝ) => F q.1 q.2) {C : ℝ} {n : Nat} (hb : ∀ x z, |F x (mid U m S t x z)| ≤ C * (far x * far z) ^ n) :
    Integrable (fun q : (J → ℝ) × (J → ℝ) => F q.1 q.2 * joint U m S t c q.1 q.2) ∧
    ∫ q : (J → ℝ) × (J → ℝ), F q.1 q.2 * joint U m S t c q.1 q.2 = ∫ x, ∫ z, F x (mid U m S t x z) ∂gauss J ∂boltz fun x => S * U x + c := by
  have cH : Continuous fun x => S * U x + c := (h.diff.continuous.const_smul S).add continuous_const
  have iγ := gauss_far (J := J) n
  have iπ := far_moments (h.moments c).2 n
  have hFx : ∀ x, Measurable (F x) := fun x => hF.comp (by fun_prop : Measurable fun y : J → ℝ => (x, y))
  have hmx : ∀ x, Measurable fun z => mid U m S t x z := fun x => h.measurable_mid.comp (by fun_prop : Measurable fun y : J → ℝ => (x, y))
  have ix : ∀ x, Integrable (fun z => F x (mid U m S t x z)) (gauss J) := fun x =>
    (iγ.const_mul (C * far x ^ n)).mono' ((hFx x).comp (hmx x)).aestronglyMeasurable (.of_forall fun z => (hb x z).trans (le_of_eq (by rw [mul_pow]; ring)))
  have e0 : ∀ x y, F x y * joint U m S t c x y
      = Real.exp (-(S * U x + c)) * (F x y * Real.exp (-well (fun j => x j - t * m j * gradU U x j) (sig m S t) y)) := fun x y => by
    unfold joint; ring
  have en : ∀ x y, ‖F x y * joint U m S t c x y‖
      = Real.exp (-(S * U x + c)) * (|F x y| * Real.exp (-well (fun j => x j - t * m j * gradU U x j) (sig m S t) y)) := fun x y => by
    rw [Real.norm_eq_abs, abs_mul, abs_of_pos (joint_pos x y)]
    unfold joint; ring
  have hint : Integrable (fun q : (J → ℝ) × (J → ℝ) => F q.1 q.2 * joint U m S t c q.1 q.2) := by
    rw [Measure.volume_eq_prod]
    refine (integrable_prod_iff (hF.mul h.continuous_joint.measurable).aestronglyMeasurable).2 ⟨.of_forall fun x => ?_, ?_⟩
    · exact ((((mid_integral hs (F x) (hFx x) x).1).1 (ix x)).const_mul _).congr (.of_forall fun y => (e0 x y).symm)
    · have e1 : ∀ x, ∫ y, |F x y| * Real.exp (-well (fun j => x j - t * m j * gradU U x j) (sig m S t) y) = ∫ z, |F x (mid U m S t x z)| ∂gauss J :=
        fun x => ((mid_integral hs (fun y => |F x y|) (hFx x).abs x).2).symm
      have e2 : ∀ x, ∫ y, ‖F x y * joint U m S t c x y‖ = Real.exp (-(S * U x + c)) * ∫ z, |F x (mid U m S t x z)| ∂gauss J := fun x => by
        rw [← e1, ← integral_const_mul]
        exact integral_congr_ae (.of_forall fun y => en x y)
      have mint : Measurable fun x => ∫ z, |F x (mid U m S t x z)| ∂gauss J := by
        have h1 : Measurable fun q : (J → ℝ) × (J → ℝ) => |F q.1 (mid U m S t q.1 q.2)| := (hF.comp (measurable_fst.prodMk h.measurable_mid)).abs
        exact (h1.stronglyMeasurable.integral_prod_right (ν := gauss J)).measurable
      have i2 : Integrable (fun x => ∫ z, |F x (mid U m S t x z)| ∂gauss J) (boltz fun x => S * U x + c) := by
        refine (iπ.const_mul (C * ∫ z, far z ^ n ∂gauss J)).mono' mint.aestronglyMeasurable (.of_forall fun x => ?_)
        rw [Real.norm_eq_abs, abs_of_nonneg (integral_nonneg fun z => abs_nonneg _)]
        refine (integral_mono (ix x).abs (iγ.const_mul (C * far x ^ n)) fun z => (hb x z).trans (le_of_eq (by rw [mul_pow]; ring))).trans (le_of_eq ?_)
        rw [integral_const_mul]; ring
      rw [integrable_boltz cH] at i2
      exact i2.congr (.of_forall fun x => (mul_comm _ _).trans (e2 x).symm)
  refine ⟨hint, ?_⟩
  rw [Measure.volume_eq_prod] at hint ⊢
  rw [integral_prod _ hint, integral_boltz cH]
  refine integral_congr_ae (.of_forall fun x => ?_)
  simp only [e0, integral_const_mul]
  rw [(mid_integral hs (F x) (hFx x) x).2, mul_comm]

end Potential

/-! ## The step along the full gradient -/

/-- Values differ at most by this. -/
def Varies (M₀ M₁ : ℝ) (φ : (J → ℝ) → ℝ) : Prop := ∀ x y, |φ x - φ y| ≤ (far x + far y) * (M₀ + M₁ * ‖x - y‖)

/-- How far steps go. -/
noncomputable def reach (U : (J → ℝ) → ℝ) (L hi S : ℝ) : ℝ := hi * (L + ‖gradU U 0‖) + √(2 * hi / S)

theorem far_mul (x z : J → ℝ) : 1 ≤ far x * far z ∧ far x ≤ far x * far z ∧ ‖z‖ ≤ far x * far z := by
  have h1 := one_le_far x
  have h2 := one_le_far z
  have h3 := norm_le_far z
  refine ⟨by nlinarith, by nlinarith, by nlinarith⟩

namespace Potential
variable (h : Potential ν G U a b Λ g L lo hi S) (T : Tuned a Λ lo hi m t)
include h

theorem hi_pos : 0 < hi := h.lo_pos.trans_le h.lo_hi

theorem reach_nonneg : 0 ≤ reach U L hi S := by
  have := h.hi_pos; have := h.lip0
  unfold reach; positivity

include T

theorem sig_le (j : J) : sig m S t j ≤ √t * √(2 * hi / S) := by
  have := T.t_pos; have := h.S_pos
  unfold sig
  rw [← Real.sqrt_mul T.t_pos.le]
  refine Real.sqrt_le_sqrt ?_
  rw [mul_div_assoc']
  refine div_le_div_of_nonneg_right ?_ h.S_pos.le
  have := mul_le_mul_of_nonneg_left (T.le_hi j) T.t_pos.le
  linarith

theorem t_le_sqrt : t ≤ √t := by
  have h1 := Real.sq_sqrt T.t_pos.le
  have h2 : √t ≤ 1 := Real.sqrt_le_one.2 T.t_le
  nlinarith [Real.sqrt_nonneg t]

theorem mid_near (x z : J → ℝ) : ‖mid U m S t x z - x‖ ≤ √t * (reach U L hi S * (far x * far z)) := by
  have hh := h.hi_pos; have hr := h.reach_nonneg; have ht := T.t_pos; have hS := h.S_pos; have hL := h.lip0
  obtain ⟨p1, p2, p3⟩ := far_mul x z
  have p0 : 0 ≤ far x * far z := by linarith
  refine (pi_norm_le_iff_of_nonneg (by positivity)).2 fun j => ?_
  have e : (mid U m S t x z - x) j = -(t * m j * gradU U x j) + sig m S t j * z j := by simp only [mid, Pi.sub_apply]; ring
  rw [e]
  refine (norm_add_le _ _).trans ?_
  rw [norm_neg, Real.norm_eq_abs, Real.norm_eq_abs, abs_mul (t * m j), abs_mul (sig m S t j)]
  have hm := T.mass_pos h.toSmooth j
  rw [abs_of_pos (mul_pos ht hm), abs_of_pos (T.sig_pos h.toSmooth j)]
  have h1 : |gradU U x j| ≤ (L + ‖gradU U 0‖) * (far x * far z) :=
    (norm_le_pi_norm (gradU U x) j).trans ((h.grad_le x).trans (mul_le_mul_of_nonneg_left p2 (by positivity)))
  have h2 : |z j| ≤ far x * far z := (norm_le_pi_norm z j).trans p3
  have h3 : t * m j ≤ √t * hi := mul_le_mul (h.t_le_sqrt T) (T.le_hi j) hm.le (Real.sqrt_nonneg _)
  have h4 := mul_le_mul h3 h1 (abs_nonneg _) (by positivity)
  have h5 := mul_le_mul (h.sig_le T j) h2 (abs_nonneg _) (by positivity)
  unfold reach
  linarith

theorem mid_far (x z : J → ℝ) : far (mid U m S t x z) ≤ (1 + reach U L hi S) * (far x * far z) := by
  have hr := h.reach_nonneg
  obtain ⟨p1, p2, p3⟩ := far_mul x z
  have h1 := h.mid_near T x z
  have h2 := norm_sub_norm_le (mid U m S t x z) x
  have h3 : √t * (reach U L hi S * (far x * far z)) ≤ reach U L hi S * (far x * far z) :=
    mul_le_of_le_one_left (mul_nonneg hr (by linarith)) (Real.sqrt_le_one.2 T.t_le)
  unfold far at *
  linarith

theorem mid_varies {M₀ M₁ : ℝ} (h0 : 0 ≤ M₀) (h1 : 0 ≤ M₁) (hφ : Varies M₀ M₁ φ) (x z : J → ℝ) :
    |φ (mid U m S t x z) - φ x| ≤ (M₀ + √t * M₁) * ((2 + reach U L hi S) * (1 + reach U L hi S)) * (far x * far z) ^ 2 := by
  have hr := h.reach_nonneg
  obtain ⟨p1, p2, p3⟩ := far_mul x z
  have p0 : 0 ≤ far x * far z := by linarith
  refine (hφ _ _).trans ?_
  have h2 : far (mid U m S t x z) + far x ≤ (2 + reach U L hi S) * (far x * far z) := by linarith [h.mid_far T x z]
  have h3 : M₀ + M₁ * ‖mid U m S t x z - x‖ ≤ (M₀ + √t * M₁) * ((1 + reach U L hi S) * (far x * far z)) := by
    have h4 := mul_le_mul_of_nonneg_left (h.mid_near T x z) h1
    have h5 : 0 ≤ √t * M₁ * (far x * far z) := by positivity
    have h6 : 1 ≤ (1 + reach U L hi S) * (far x * far z) := by nlinarith
    have h7 := mul_le_mul_of_nonneg_left h6 h0
    nlinarith
  have h8 : 0 ≤ M₀ + M₁ * ‖mid U m S t x z - x‖ := by positivity
  exact (mul_le_mul h2 h3 h8 (by positivity)).trans (le_of_eq (by ring))

theorem defect_le (x z : J → ℝ) : |defect U m S t x (mid U m S t x z)|
    ≤ t * (S * Fintype.card J * L * reach U L hi S * (reach U L hi S + hi * (L + ‖gradU U 0‖) * (2 + reach U L hi S))) * (far x * far z) ^ 2 := by
  have hr := h.reach_nonneg; have hL := h.lip0; have hS := h.S_pos; have ht := T.t_pos; have hh := h.hi_pos
  obtain ⟨p1, p2, p3⟩ := far_mul x z
  set p := far x * far z with hp
  set r := reach U L hi S with hr'
  set y := mid U m S t x z with hy
  set e := L + ‖gradU U 0‖ with he
  have he0 : 0 ≤ e := by positivity
  have p0 : 0 ≤ p := by linarith
  have hn := h.mid_near T x z
  rw [← hp, ← hr', ← hy] at hn
  have hf := h.mid_far T x z
  rw [← hp, ← hr', ← hy] at hf
  have hst := Real.sq_sqrt ht.le
  have hn2 : ‖y - x‖ ^ 2 ≤ t * (r * p) ^ 2 := by
    have := pow_le_pow_left₀ (norm_nonneg _) hn 2
    rwa [mul_pow, hst] at this
  have hn1 : ‖y - x‖ ≤ r * p := hn.trans (mul_le_of_le_one_left (by positivity) (Real.sqrt_le_one.2 T.t_le))
  have h1 : |S * (U y - U x - ∑ j, (y j - x j) * ((gradU U x j + gradU U y j) / 2))| ≤ S * (Fintype.card J * L * (t * (r * p) ^ 2)) := by
    rw [abs_mul, abs_of_pos hS]
    exact mul_le_mul_of_nonneg_left ((h.trapezoid x y).trans (mul_le_mul_of_nonneg_left hn2 (by positivity))) hS.le
  have h2 : |∑ j, m j * (gradU U y j ^ 2 - gradU U x j ^ 2)| ≤ Fintype.card J * (hi * (L * (r * p) * (e * ((2 + r) * p)))) := by
    refine (Finset.abs_sum_le_sum_abs _ _).trans ?_
    have key : ∀ j, |m j * (gradU U y j ^ 2 - gradU U x j ^ 2)| ≤ hi * (L * (r * p) * (e * ((2 + r) * p))) := fun j => by
      rw [abs_mul, abs_of_pos (T.mass_pos h.toSmooth j), sq_sub_sq, abs_mul, mul_comm (|gradU U y j + gradU U x j|)]
      have a1 : |gradU U y j - gradU U x j| ≤ L * (r * p) :=
        (norm_le_pi_norm (gradU U y - gradU U x) j).trans ((h.grad_lip y x).trans (mul_le_mul_of_nonneg_left hn1 hL))
      have a2 : |gradU U y j + gradU U x j| ≤ e * ((2 + r) * p) := by
        refine (abs_add_le _ _).trans ?_
        have b1 := (norm_le_pi_norm (gradU U y) j).trans (h.grad_le y)
        have b2 := (norm_le_pi_norm (gradU U x) j).trans (h.grad_le x)
        rw [Real.norm_eq_abs, ← he] at b1 b2
        have b3 := mul_le_mul_of_nonneg_left hf he0
        have b4 := mul_le_mul_of_nonneg_left p2 he0
        linarith
      exact mul_le_mul (T.le_hi j) (mul_le_mul a1 a2 (abs_nonneg _) (by positivity)) (by positivity) hh.le
    refine (Finset.sum_le_sum fun j _ => key j).trans (le_of_eq ?_)
    rw [Finset.sum_const, nsmul_eq_mul, Finset.card_univ]
  have h3 : |S * t / 4 * ∑ j, m j * (gradU U y j ^ 2 - gradU U x j ^ 2)| ≤ S * t * (Fintype.card J * (hi * (L * (r * p) * (e * ((2 + r) * p))))) := by
    rw [abs_mul, abs_of_nonneg (by positivity)]
    exact mul_le_mul (by nlinarith) h2 (abs_nonneg _) (by positivity)
  unfold defect
  refine (abs_add_le _ _).trans ((add_le_add h1 h3).trans (le_of_eq ?_))
  ring

/-- A step along the full gradient nearly preserves the posterior. -/
theorem balance_full [IsProbabilityMeasure (boltz fun x => S * U x + c)] {M₀ M₁ : ℝ} (h0 : 0 ≤ M₀) (h1 : 0 ≤ M₁) (hm : Measurable φ)
    (hφ : Varies M₀ M₁ φ) :
    |∫ x, ∫ z, (φ (mid U m S t x z) - φ x) ∂gauss J ∂boltz fun x => S * U x + c|
      ≤ t * (M₀ + √t * M₁) * ((2 + reach U L hi S) * (1 + reach U L hi S)
        * (S * Fintype.card J * L * reach U L hi S * (reach U L hi S + hi * (L + ‖gradU U 0‖) * (2 + reach U L hi S)))
        * ((∫ x, far x ^ 4 ∂boltz fun x => S * U x + c) * ∫ z, far z ^ 4 ∂gauss J)) := by
  have hr := h.reach_nonneg; have hL := h.lip0; have hS := h.S_pos; have ht := T.t_pos; have hh := h.hi_pos
  have hs : ∀ j, sig m S t j ≠ 0 := fun j => (T.sig_pos h.toSmooth j).ne'
  have mgr := h.grad_continuous.measurable
  have md : Measurable fun q : (J → ℝ) × (J → ℝ) => φ q.2 - φ q.1 := (hm.comp measurable_snd).sub (hm.comp measurable_fst)
  have ml : Measurable fun q : (J → ℝ) × (J → ℝ) => defect U m S t q.1 q.2 := by
    have c1 := h.grad_continuous
    have c2 := h.diff.continuous
    have : Continuous fun q : (J → ℝ) × (J → ℝ) => defect U m S t q.1 q.2 := by unfold defect; fun_prop
    exact this.measurable
  set A := (2 + reach U L hi S) * (1 + reach U L hi S) with hA
  set B := S * Fintype.card J * L * reach U L hi S * (reach U L hi S + hi * (L + ‖gradU U 0‖) * (2 + reach U L hi S)) with hB
  have hA0 : 0 ≤ A := by positivity
  have hB0 : 0 ≤ B := by positivity
  have b1 := h.mid_varies T h0 h1 hφ
  have b2 : ∀ x z, |(|φ (mid U m S t x z) - φ x| * |defect U m S t x (mid U m S t x z)|)| ≤ t * (M₀ + √t * M₁) * (A * B) * (far x * far z) ^ 4 := fun x z => by
    rw [abs_mul, abs_abs, abs_abs]
    exact (mul_le_mul (b1 x z) (h.defect_le T x z) (abs_nonneg _) (by positivity)).trans (le_of_eq (by ring))
  obtain ⟨i1, e1⟩ := h.pairs (c := c) hs (F := fun x y => φ y - φ x) md b1
  obtain ⟨i2, e2⟩ := h.pairs (c := c) hs (F := fun x y => |φ y - φ x| * |defect U m S t x y|) (md.abs.mul ml.abs) b2
  rw [← e1]
  have h2 := antisymmetric (μ := (volume : Measure (J → ℝ))) (k := joint U m S t c) (l := defect U m S t) (d := fun x y => φ y - φ x)
    (fun x y => by ring) (fun x y => defect_swap x y) (fun x y => joint_defect (T.mass_pos h.toSmooth) hS ht x y) i1 i2
  refine h2.trans ?_
  rw [← Measure.volume_eq_prod, e2]
  have iγ := gauss_far (J := J) 4
  have iπ := far_moments (h.moments c).2 4
  have h3 : ∀ x, ∫ z, |φ (mid U m S t x z) - φ x| * |defect U m S t x (mid U m S t x z)| ∂gauss J
      ≤ t * (M₀ + √t * M₁) * (A * B) * (∫ z, far z ^ 4 ∂gauss J) * far x ^ 4 := fun x => by
    have := integral_mono_of_nonneg (.of_forall fun z => by positivity) (iγ.const_mul (t * (M₀ + √t * M₁) * (A * B) * far x ^ 4))
      (.of_forall fun z => (le_abs_self _).trans ((b2 x z).trans (le_of_eq (by rw [mul_pow]; ring))))
    refine this.trans (le_of_eq ?_)
    rw [integral_const_mul]
    ring
  refine (integral_mono_of_nonneg (.of_forall fun x => integral_nonneg fun z => by positivity) (iπ.const_mul _) (.of_forall h3)).trans (le_of_eq ?_)
  rw [integral_const_mul]
  ring

end Potential
end PySGMCMC.Harris
