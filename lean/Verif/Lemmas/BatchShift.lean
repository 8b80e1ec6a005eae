import Verif.Lemmas.Balance

/-!
# What mini-batches change

The noise of mini-batch gradients has mean zero.  It shifts the normal draws, and to first order shifts cancel.
-/

open MeasureTheory ProbabilityTheory
namespace PySGMCMC.Harris
open Confining Moves Recipe Langevin
set_option linter.unusedSectionVars false

variable {J : Type} [Fintype J] [DecidableEq J] {Bt : Type} [MeasurableSpace Bt] {ν : Measure Bt} [IsProbabilityMeasure ν]
  {G : Bt → (J → ℝ) → J → ℝ} {a b Λ L lo hi S t c : ℝ} {g : Bt → ℝ} {m : J → ℝ} {φ : (J → ℝ) → ℝ} {U : (J → ℝ) → ℝ}

/-! ## Shifts to first order -/

theorem dot_moment (v : J → ℝ) : Integrable (fun z : J → ℝ => (∑ j, v j * z j) ^ 2) (gauss J) ∧
    ∫ z : J → ℝ, (∑ j, v j * z j) ^ 2 ∂gauss J = ∑ j, v j ^ 2 := by
  have hij : ∀ i j, Integrable (fun z : J → ℝ => z i * z j) (gauss J) := fun i j =>
    integrable_mul_of_sq (measurable_pi_apply i) (measurable_pi_apply j) (gauss_sq i).1 (gauss_sq j).1
  have e : (fun z : J → ℝ => (∑ j, v j * z j) ^ 2) = fun z => ∑ i, ∑ j, v i * v j * (z i * z j) := by
    funext z
    rw [pow_two, Finset.sum_mul_sum]
    exact Finset.sum_congr rfl fun i _ => Finset.sum_congr rfl fun j _ => by ring
  have ii : ∀ i, Integrable (fun z : J → ℝ => ∑ j, v i * v j * (z i * z j)) (gauss J) := fun i =>
    integrable_finsetSum _ fun j _ => (hij i j).const_mul _
  rw [e]
  refine ⟨integrable_finsetSum _ fun i _ => ii i, ?_⟩
  rw [integral_finsetSum _ fun i _ => ii i]
  refine Finset.sum_congr rfl fun i _ => ?_
  rw [integral_finsetSum _ fun j _ => (hij i j).const_mul _]
  simp only [integral_const_mul, (unitNoise_gauss (J := J)).cov]
  simp [pow_two]

theorem dot_mean (v : J → ℝ) : Integrable (fun z : J → ℝ => ∑ j, v j * z j) (gauss J) ∧ ∫ z : J → ℝ, ∑ j, v j * z j ∂gauss J = 0 := by
  have i1 : ∀ j, Integrable (fun z : J → ℝ => v j * z j) (gauss J) := fun j => (gauss_id j).1.const_mul _
  refine ⟨integrable_finsetSum _ fun j _ => i1 j, ?_⟩
  rw [integral_finsetSum _ fun j _ => i1 j]
  simp only [integral_const_mul, (gauss_id _).2, mul_zero, Finset.sum_const_zero]

theorem tilt_neg_integral (v : J → ℝ) (f : (J → ℝ) → ℝ) : ∫ z, f z * tilt (-v) z ∂gauss J = ∫ z, f (z + v) ∂gauss J := by
  have := shift_integral (-v) fun z => f (z + v)
  simpa using this

theorem tilt_neg_integrable (v : J → ℝ) (f : (J → ℝ) → ℝ) : Integrable (fun z => f z * tilt (-v) z) (gauss J) ↔ Integrable (fun z => f (z + v)) (gauss J) := by
  have := shift_integrable (-v) fun z => f (z + v)
  simpa using this

/-- The square of what is left of a shift after the terms of first order. -/
theorem tilt_second (v : J → ℝ) : Integrable (fun z => (tilt (-v) z - 1 - ∑ j, v j * z j) ^ 2) (gauss J) ∧
    ∫ z, (tilt (-v) z - 1 - ∑ j, v j * z j) ^ 2 ∂gauss J = Real.exp (∑ j, v j ^ 2) - 1 - ∑ j, v j ^ 2 := by
  obtain ⟨i1, e1⟩ := tilt_moment (-v)
  obtain ⟨i2, e2⟩ := dot_moment v
  obtain ⟨i3, e3⟩ := dot_mean v
  have i4 : Integrable (fun z => 1 * tilt (-v) z) (gauss J) := (tilt_neg_integrable v fun _ => (1 : ℝ)).2 (integrable_const _)
  have e4 : ∫ z, 1 * tilt (-v) z ∂gauss J = 1 := (tilt_neg_integral v fun _ => (1 : ℝ)).trans (by simp)
  simp only [one_mul] at i4 e4
  have es : ∀ z : J → ℝ, ∑ j, v j * (z + v) j = ∑ j, v j * z j + ∑ j, v j ^ 2 := fun z => by
    rw [← Finset.sum_add_distrib]
    exact Finset.sum_congr rfl fun j _ => by rw [Pi.add_apply]; ring
  have i5 : Integrable (fun z => (∑ j, v j * z j) * tilt (-v) z) (gauss J) :=
    (tilt_neg_integrable v fun z => ∑ j, v j * z j).2 (by simp only [es]; exact i3.add (integrable_const _))
  have e5 : ∫ z, (∑ j, v j * z j) * tilt (-v) z ∂gauss J = ∑ j, v j ^ 2 := by
    rw [tilt_neg_integral v fun z => ∑ j, v j * z j]
    simp only [es]
    rw [integral_add i3 (integrable_const _), e3]
    simp
  have e6 : ∑ j, (-v) j ^ 2 = ∑ j, v j ^ 2 := Finset.sum_congr rfl fun j _ => by rw [Pi.neg_apply, neg_sq]
  rw [e6] at e1
  set N := ∑ j, v j ^ 2
  have e : (fun z => (tilt (-v) z - 1 - ∑ j, v j * z j) ^ 2) = fun z => (tilt (-v) z ^ 2 + (-2) * tilt (-v) z)
      + (((-2) * ((∑ j, v j * z j) * tilt (-v) z) + (∑ j, v j * z j) ^ 2) + (2 * (∑ j, v j * z j) + 1)) := by funext z; ring
  have a1 : Integrable (fun z => tilt (-v) z ^ 2 + (-2) * tilt (-v) z) (gauss J) := i1.add (i4.const_mul _)
  have a2 : Integrable (fun z => (-2) * ((∑ j, v j * z j) * tilt (-v) z) + (∑ j, v j * z j) ^ 2) (gauss J) := (i5.const_mul _).add i2
  have a3 : Integrable (fun z : J → ℝ => 2 * (∑ j, v j * z j) + 1) (gauss J) := (i3.const_mul _).add (integrable_const _)
  have a4 : Integrable (fun z => ((-2) * ((∑ j, v j * z j) * tilt (-v) z) + (∑ j, v j * z j) ^ 2) + (2 * (∑ j, v j * z j) + 1)) (gauss J) := a2.add a3
  rw [e]
  refine ⟨a1.add a4, ?_⟩
  rw [integral_add a1 a4, integral_add i1 (i4.const_mul _), integral_add a2 a3, integral_add (i5.const_mul _) i2,
    integral_add (i3.const_mul _) (integrable_const _)]
  simp only [integral_const_mul, e1, e2, e3, e4, e5, integral_const, probReal_univ, one_smul]
  ring

/-- Averages after small shifts. -/
theorem shift_small {v : J → ℝ} {f : (J → ℝ) → ℝ} {Q : ℝ} (hQ : 0 ≤ Q) (hf : Integrable f (gauss J)) (hf2 : Integrable (fun z => f z ^ 2) (gauss J))
    (hfv : Integrable (fun z => f (z + v)) (gauss J)) (hfd : Integrable (fun z => f z * ∑ j, v j * z j) (gauss J))
    (hle : ∫ z, f z ^ 2 ∂gauss J ≤ Q ^ 2) (hv : ∑ j, v j ^ 2 ≤ 1) :
    |∫ z, f (z + v) ∂gauss J - ∫ z, f z ∂gauss J - ∫ z, f z * ∑ j, v j * z j ∂gauss J| ≤ Q * ∑ j, v j ^ 2 := by
  have hN : 0 ≤ ∑ j, v j ^ 2 := Finset.sum_nonneg fun j _ => sq_nonneg _
  obtain ⟨i1, e1⟩ := tilt_second v
  have i2 := (tilt_neg_integrable v f).2 hfv
  have i3 : Integrable (fun z => f z * tilt (-v) z - f z) (gauss J) := i2.sub hf
  have e2 : (fun z => f z * (tilt (-v) z - 1 - ∑ j, v j * z j)) = fun z => (f z * tilt (-v) z - f z) - f z * ∑ j, v j * z j := by funext z; ring
  have e3 : ∫ z, f (z + v) ∂gauss J - ∫ z, f z ∂gauss J - ∫ z, f z * ∑ j, v j * z j ∂gauss J
      = ∫ z, f z * (tilt (-v) z - 1 - ∑ j, v j * z j) ∂gauss J := by
    rw [e2, integral_sub i3 hfd, integral_sub i2 hf, tilt_neg_integral]
  rw [e3]
  have h1 := sq_integral_mul_le hf2 i1 (by rw [e2]; exact i3.sub hfd)
  rw [e1] at h1
  refine abs_le_of_sq_le_sq ?_ (by positivity)
  refine h1.trans ?_
  rw [mul_pow]
  have h2 := Real.abs_exp_sub_one_sub_id_le (x := ∑ j, v j ^ 2) (by rwa [abs_of_nonneg hN])
  have h3 : 0 ≤ Real.exp (∑ j, v j ^ 2) - 1 - ∑ j, v j ^ 2 := by linarith [Real.add_one_le_exp (∑ j, v j ^ 2)]
  exact mul_le_mul hle ((le_abs_self _).trans h2) h3 (by positivity)

theorem dot_le {v : J → ℝ} {f : (J → ℝ) → ℝ} {Q : ℝ} (hQ : 0 ≤ Q) (hf2 : Integrable (fun z => f z ^ 2) (gauss J))
    (hfd : Integrable (fun z => f z * ∑ j, v j * z j) (gauss J))
    (hle : ∫ z, f z ^ 2 ∂gauss J ≤ Q ^ 2) (hv : 1 ≤ ∑ j, v j ^ 2) : |∫ z, f z * ∑ j, v j * z j ∂gauss J| ≤ Q * ∑ j, v j ^ 2 := by
  refine abs_le_of_sq_le_sq ?_ (by positivity)
  have h1 := sq_integral_mul_le hf2 (dot_moment v).1 hfd
  rw [(dot_moment v).2] at h1
  refine h1.trans ?_
  rw [mul_pow]
  exact mul_le_mul hle (by nlinarith) (by linarith) (by positivity)

/-! ## Mini-batches -/

/-- The shift that a mini-batch makes. -/
noncomputable def nudge (U : (J → ℝ) → ℝ) (G : Bt → (J → ℝ) → J → ℝ) (m : J → ℝ) (S t : ℝ) (x : J → ℝ) (β : Bt) : J → ℝ :=
  fun j => -(t * m j / sig m S t j) * (G β x j - gradU U x j)

/-- Fourth moments of the draws. -/
noncomputable def fourth (J : Type) [Fintype J] : ℝ := ∫ z : J → ℝ, far z ^ 4 ∂gauss J

theorem one_le_fourth : 1 ≤ fourth J := by
  have h := integral_mono (μ := gauss J) (integrable_const (1 : ℝ)) (gauss_far (J := J) 4) fun z => one_le_pow₀ (one_le_far z)
  unfold fourth
  simpa using h

theorem first_le_fourth : ∫ z : J → ℝ, far z ∂gauss J ≤ fourth J := by
  have i1 := gauss_far (J := J) 1
  simp only [pow_one] at i1
  refine integral_mono i1 (gauss_far (J := J) 4) fun z => ?_
  exact le_self_pow₀ (one_le_far z) (by norm_num)

theorem large_shift {r s n q N x : ℝ} (hr : 0 ≤ r) (hs : 1 ≤ s) (hn : s ^ 2 = n) (hq : 0 ≤ q) (hN : 0 ≤ N) (hx : 1 ≤ x) :
    N * ((2 + r) * (1 + r)) * x ^ 2 * q * n + N * (2 * (1 + r) + r * s) * (1 + r * s) * x * q ≤ N * (4 * (2 + r) ^ 2 * q) * x ^ 2 * n := by
  have a1 : 2 * (1 + r) + r * s ≤ 3 * (1 + r) * s := by nlinarith
  have a2 : 1 + r * s ≤ (1 + r) * s := by nlinarith
  have h5 : (2 * (1 + r) + r * s) * (1 + r * s) ≤ 3 * (1 + r) ^ 2 * n :=
    (mul_le_mul a1 a2 (by positivity) (by positivity)).trans (le_of_eq (by rw [← hn]; ring))
  have hn0 : 0 ≤ n := by rw [← hn]; positivity
  have h7 : x ≤ x ^ 2 := by nlinarith
  have h8 : 0 ≤ N * q := by positivity
  have h9 := mul_le_mul_of_nonneg_left (mul_le_mul h5 h7 (by linarith) (by positivity)) h8
  have h11 : (2 + r) * (1 + r) + 3 * (1 + r) ^ 2 ≤ 4 * (2 + r) ^ 2 := by nlinarith
  have h12 : 0 ≤ N * x ^ 2 * q * n := by positivity
  have := mul_le_mul_of_nonneg_left h11 h12
  linarith

namespace Potential
variable (h : Potential ν G U a b Λ g L lo hi S) (T : Tuned a Λ lo hi m t)
include h T

theorem langevin_nudge (x z : J → ℝ) (β : Bt) : langevin G m (sig m S t) t x (β, z) = mid U m S t x (z + nudge U G m S t x β) := by
  funext j
  have := (T.sig_pos h.toSmooth j).ne'
  simp only [langevin, mid, nudge, Pi.add_apply]
  field_simp
  ring

theorem nudge_sq (x : J → ℝ) (β : Bt) : ∑ j, nudge U G m S t x β j ^ 2 = S * t / 2 * ∑ j, m j * (G β x j - gradU U x j) ^ 2 := by
  rw [Finset.mul_sum]
  refine Finset.sum_congr rfl fun j _ => ?_
  have h1 := T.sig_sq h.toSmooth j
  have h2 := (T.mass_pos h.toSmooth j).ne'
  have h3 := h.S_pos.ne'
  have h4 := T.t_pos.ne'
  unfold nudge
  rw [mul_pow, neg_sq, div_pow, h1]
  field_simp

/-- What a function is on average after a step, for a mini-batch, up to first order. -/
theorem batch_step {M₀ M₁ : ℝ} (h0 : 0 ≤ M₀) (h1 : 0 ≤ M₁) (hm : Measurable φ) (hφ : Varies M₀ M₁ φ) (x : J → ℝ) (v : J → ℝ) :
    Integrable (fun z => φ (mid U m S t x (z + v))) (gauss J) ∧
    (∀ j, Integrable (fun z => (φ (mid U m S t x z) - φ x) * z j) (gauss J)) ∧
    |∫ z, φ (mid U m S t x (z + v)) ∂gauss J - ∫ z, φ (mid U m S t x z) ∂gauss J - ∑ j, v j * ∫ z, (φ (mid U m S t x z) - φ x) * z j ∂gauss J|
      ≤ (M₀ + √t * M₁) * (4 * (2 + reach U L hi S) ^ 2 * fourth J) * far x ^ 2 * ∑ j, v j ^ 2 := by
  have hr := h.reach_nonneg
  set r := reach U L hi S with hrdef
  set N := M₀ + √t * M₁ with hN
  have hN0 : 0 ≤ N := by positivity
  have hfx := one_le_far x
  have hF := one_le_fourth (J := J)
  have hmx : Measurable fun z => mid U m S t x z := h.measurable_mid.comp (by fun_prop : Measurable fun y : J → ℝ => (x, y))
  have hmv : ∀ v : J → ℝ, Measurable fun z => mid U m S t x (z + v) := fun v => hmx.comp (by fun_prop : Measurable fun z : J → ℝ => z + v)
  have b1 := h.mid_varies T h0 h1 hφ x
  rw [← hrdef] at b1
  set f : (J → ℝ) → ℝ := fun z => φ (mid U m S t x z) - φ x with hf
  have mf : Measurable f := (hm.comp hmx).sub_const _
  have i2 : Integrable (fun z => f z ^ 2) (gauss J) := by
    refine ((gauss_far (J := J) 4).const_mul ((N * ((2 + r) * (1 + r)) * far x ^ 2) ^ 2)).mono' (mf.pow_const 2).aestronglyMeasurable (.of_forall fun z => ?_)
    rw [Real.norm_eq_abs, abs_of_nonneg (sq_nonneg _), ← sq_abs]
    exact (pow_le_pow_left₀ (abs_nonneg _) (b1 z) 2).trans (le_of_eq (by ring))
  set Q := N * ((2 + r) * (1 + r)) * far x ^ 2 * fourth J with hQ
  have hQ0 : 0 ≤ Q := by positivity
  have hle : ∫ z, f z ^ 2 ∂gauss J ≤ Q ^ 2 := by
    have h2 := integral_mono i2 ((gauss_far (J := J) 4).const_mul ((N * ((2 + r) * (1 + r)) * far x ^ 2) ^ 2)) fun z => by
      rw [← sq_abs]
      exact (pow_le_pow_left₀ (abs_nonneg _) (b1 z) 2).trans (le_of_eq (by ring))
    rw [integral_const_mul] at h2
    refine h2.trans ?_
    rw [hQ, mul_pow _ (fourth J)]
    exact mul_le_mul_of_nonneg_left (show fourth J ≤ fourth J ^ 2 by nlinarith) (by positivity)
  have i1 : Integrable f (gauss J) := by
    have := integrable_mul_of_sq mf measurable_const i2 (integrable_const ((1 : ℝ) ^ 2))
    simpa using this
  have ij : ∀ j, Integrable (fun z => f z * z j) (gauss J) := fun j => integrable_mul_of_sq mf (measurable_pi_apply j) i2 (gauss_sq j).1
  have mdot : Measurable fun z : J → ℝ => ∑ j, v j * z j := by fun_prop
  have id : Integrable (fun z => f z * ∑ j, v j * z j) (gauss J) := integrable_mul_of_sq mf mdot i2 (dot_moment v).1
  have ed : ∫ z, f z * ∑ j, v j * z j ∂gauss J = ∑ j, v j * ∫ z, f z * z j ∂gauss J := by
    have e : (fun z => f z * ∑ j, v j * z j) = fun z => ∑ j, v j * (f z * z j) := by
      funext z
      rw [Finset.mul_sum]
      exact Finset.sum_congr rfl fun j _ => by ring
    rw [e, integral_finsetSum _ fun j _ => (ij j).const_mul _]
    simp only [integral_const_mul]
  -- distances after shifts
  set n := ∑ j, v j ^ 2 with hn
  have hn0 : 0 ≤ n := Finset.sum_nonneg fun j _ => sq_nonneg _
  have hd : ∀ z, ‖mid U m S t x (z + v) - mid U m S t x z‖ ≤ √t * (r * √n) := fun z => by
    refine (pi_norm_le_iff_of_nonneg (by positivity)).2 fun j => ?_
    have e : (mid U m S t x (z + v) - mid U m S t x z) j = sig m S t j * v j := by simp only [mid, Pi.sub_apply, Pi.add_apply]; ring
    rw [e, norm_mul, Real.norm_eq_abs, Real.norm_eq_abs, abs_of_pos (T.sig_pos h.toSmooth j), ← mul_assoc]
    have h2 : |v j| ≤ √n := Real.abs_le_sqrt (Finset.single_le_sum (f := fun j => v j ^ 2) (fun j _ => sq_nonneg _) (Finset.mem_univ j))
    have h3 : √(2 * hi / S) ≤ r := by
      have := h.hi_pos; have := h.lip0
      rw [hrdef]
      unfold reach
      have : 0 ≤ hi * (L + ‖gradU U 0‖) := by positivity
      linarith
    exact mul_le_mul ((h.sig_le T j).trans (mul_le_mul_of_nonneg_left h3 (Real.sqrt_nonneg _))) h2 (abs_nonneg _) (by positivity)
  have ht1 : √t ≤ 1 := Real.sqrt_le_one.2 T.t_le
  have hfar : ∀ z, far (mid U m S t x (z + v)) ≤ (1 + r) * (far x * far z) + r * √n := fun z => by
    have h2 := h.mid_far T x z
    have h3 := norm_sub_norm_le (mid U m S t x (z + v)) (mid U m S t x z)
    have h4 : √t * (r * √n) ≤ r * √n := mul_le_of_le_one_left (by positivity) ht1
    have h5 := hd z
    rw [← hrdef] at h2
    unfold far at *
    linarith
  have hdiff : ∀ z, |φ (mid U m S t x (z + v)) - φ (mid U m S t x z)| ≤ N * (2 * (1 + r) + r * √n) * (1 + r * √n) * far x * far z := fun z => by
    refine (hφ _ _).trans ?_
    obtain ⟨p1, p2, p3⟩ := far_mul x z
    have hs := Real.sqrt_nonneg n
    have h2 : far (mid U m S t x (z + v)) + far (mid U m S t x z) ≤ (2 * (1 + r) + r * √n) * (far x * far z) := by
      have h3 := h.mid_far T x z
      rw [← hrdef] at h3
      have h4 := hfar z
      have h5 : r * √n ≤ r * √n * (far x * far z) := le_mul_of_one_le_right (by positivity) p1
      linarith
    have h3 : M₀ + M₁ * ‖mid U m S t x (z + v) - mid U m S t x z‖ ≤ N * (1 + r * √n) := by
      have h4 := mul_le_mul_of_nonneg_left (hd z) h1
      have h5 : 0 ≤ M₀ * (r * √n) := by positivity
      have h6 : 0 ≤ √t * M₁ := by positivity
      rw [hN]
      linarith
    have h7 : 0 ≤ M₀ + M₁ * ‖mid U m S t x (z + v) - mid U m S t x z‖ := by positivity
    exact (mul_le_mul h2 h3 h7 (by positivity)).trans (le_of_eq (by ring))
  have g1 := gauss_far (J := J) 1
  simp only [pow_one] at g1
  have iv : Integrable (fun z => φ (mid U m S t x (z + v)) - φ (mid U m S t x z)) (gauss J) :=
    (g1.const_mul (N * (2 * (1 + r) + r * √n) * (1 + r * √n) * far x)).mono' ((hm.comp (hmv v)).sub (hm.comp hmx)).aestronglyMeasurable
      (.of_forall hdiff)
  have ix : Integrable (fun z => φ (mid U m S t x z)) (gauss J) := (i1.add (integrable_const (φ x))).congr (.of_forall fun z => by simp [hf])
  have ixv : Integrable (fun z => φ (mid U m S t x (z + v))) (gauss J) := (iv.add ix).congr (.of_forall fun z => by simp)
  refine ⟨ixv, ij, ?_⟩
  have ifv : Integrable (fun z => f (z + v)) (gauss J) := ixv.sub (integrable_const (φ x))
  have e1 : ∫ z, φ (mid U m S t x (z + v)) ∂gauss J - ∫ z, φ (mid U m S t x z) ∂gauss J = ∫ z, f (z + v) ∂gauss J - ∫ z, f z ∂gauss J := by
    rw [hf]
    simp only
    rw [integral_sub ixv (integrable_const _), integral_sub ix (integrable_const _)]
    ring
  rcases le_total n 1 with hn1 | hn1
  · rw [e1, ← ed]
    refine (shift_small hQ0 i1 i2 ifv id hle hn1).trans (mul_le_mul_of_nonneg_right ?_ hn0)
    rw [hQ]
    have h2 : (2 + r) * (1 + r) ≤ 4 * (2 + r) ^ 2 := by nlinarith
    have h3 : 0 ≤ N * far x ^ 2 * fourth J := by positivity
    have := mul_le_mul_of_nonneg_left h2 h3
    linarith
  · rw [← ed]
    refine (abs_sub _ _).trans ?_
    have h2 := dot_le hQ0 i2 id hle hn1
    have hsn : 1 ≤ √n := Real.one_le_sqrt.2 hn1
    have hsq := Real.sq_sqrt hn0
    have h3 : |∫ z, φ (mid U m S t x (z + v)) ∂gauss J - ∫ z, φ (mid U m S t x z) ∂gauss J| ≤ N * (2 * (1 + r) + r * √n) * (1 + r * √n) * far x * fourth J := by
      rw [← integral_sub ixv ix]
      have h4 := norm_integral_le_of_norm_le (f := fun z => φ (mid U m S t x (z + v)) - φ (mid U m S t x z))
        (g1.const_mul (N * (2 * (1 + r) + r * √n) * (1 + r * √n) * far x)) (.of_forall hdiff)
      rw [integral_const_mul] at h4
      exact h4.trans (mul_le_mul_of_nonneg_left first_le_fourth (by positivity))
    have h4 := large_shift hr hsn hsq (by linarith : 0 ≤ fourth J) hN0 hfx
    have h5 : Q * n + N * (2 * (1 + r) + r * √n) * (1 + r * √n) * far x * fourth J ≤ N * (4 * (2 + r) ^ 2 * fourth J) * far x ^ 2 * n := h4
    linarith

omit T in
theorem variance_le (x : J → ℝ) : Integrable (fun β => ∑ j, (G β x j - gradU U x j) ^ 2) ν ∧
    ∫ β, ∑ j, (G β x j - gradU U x j) ^ 2 ∂ν ≤ Λ * (∫ β, g β ∂ν + Fintype.card J) * far x ^ 2 := by
  have hc := h.conf
  have ij : ∀ j, Integrable (fun β => (G β x j - gradU U x j) ^ 2) ν := fun j => by
    have e : (fun β => (G β x j - gradU U x j) ^ 2) = fun β => G β x j ^ 2 + ((-(2 * gradU U x j)) * G β x j + gradU U x j ^ 2) := by funext β; ring
    rw [e]
    exact (hc.integrable_sq x j).add (((hc.integrable_G x j).const_mul _).add (integrable_const _))
  have ej : ∀ j, ∫ β, (G β x j - gradU U x j) ^ 2 ∂ν ≤ ∫ β, G β x j ^ 2 ∂ν := fun j => by
    have e : (fun β => (G β x j - gradU U x j) ^ 2) = fun β => G β x j ^ 2 + ((-(2 * gradU U x j)) * G β x j + gradU U x j ^ 2) := by funext β; ring
    have i1 : Integrable (fun β => (-(2 * gradU U x j)) * G β x j + gradU U x j ^ 2) ν := ((hc.integrable_G x j).const_mul _).add (integrable_const _)
    rw [e, integral_add (hc.integrable_sq x j) i1, integral_add ((hc.integrable_G x j).const_mul _) (integrable_const _), integral_const_mul, h.mean]
    simp only [integral_const, probReal_univ, one_smul, gradU]
    nlinarith [sq_nonneg (partialD U j x)]
  refine ⟨integrable_finsetSum _ fun j _ => ij j, ?_⟩
  rw [integral_finsetSum _ fun j _ => ij j]
  refine (Finset.sum_le_sum fun j _ => ej j).trans ?_
  rw [← integral_finsetSum _ fun j _ => hc.integrable_sq x j]
  refine (integral_mono (integrable_finsetSum _ fun j _ => hc.integrable_sq x j)
    ((hc.int.add (integrable_const (∑ j, x j ^ 2))).const_mul Λ) fun β => hc.growth β x).trans ?_
  simp only [Pi.add_apply]
  rw [integral_const_mul, integral_add hc.int (integrable_const _)]
  simp only [integral_const, probReal_univ, one_smul]
  rw [mul_assoc]
  refine mul_le_mul_of_nonneg_left ?_ hc.bound.le
  have h1 : ∑ j, x j ^ 2 ≤ Fintype.card J * far x ^ 2 := by
    have : ∀ j, x j ^ 2 ≤ far x ^ 2 := fun j => by
      rw [← sq_abs]
      exact pow_le_pow_left₀ (abs_nonneg _) ((norm_le_pi_norm x j).trans (norm_le_far x)) 2
    refine (Finset.sum_le_sum fun j _ => this j).trans (le_of_eq ?_)
    rw [Finset.sum_const, nsmul_eq_mul, Finset.card_univ]
  have h2 : 0 ≤ ∫ β, g β ∂ν := integral_nonneg hc.nonneg
  have h3 : 1 ≤ far x ^ 2 := one_le_pow₀ (one_le_far x)
  nlinarith

/-- Steps with mini-batches and steps along the full gradient. -/
theorem batch_avg {M₀ M₁ : ℝ} (h0 : 0 ≤ M₀) (h1 : 0 ≤ M₁) (hd : Dom (energy m) φ) (hφ : Varies M₀ M₁ φ) (x : J → ℝ) :
    |avg ν G m S t φ x - ∫ z, φ (mid U m S t x z) ∂gauss J|
      ≤ t * (M₀ + √t * M₁) * (4 * (2 + reach U L hi S) ^ 2 * fourth J * (S * hi / 2 * (Λ * (∫ β, g β ∂ν + Fintype.card J)))) * far x ^ 4 := by
  have hr := h.reach_nonneg
  have hF := one_le_fourth (J := J)
  have hE := T.moves_energy h.toSmooth
  have ht := T.t_pos
  have hS := h.S_pos
  have hh := h.hi_pos
  have i0 : Integrable (fun q => φ (langevin G m (sig m S t) t x q)) (ν.prod (gauss J)) := by
    obtain ⟨h1, a', b', _, h2⟩ := hd
    exact hE.integrable h1 h2 x
  set N := M₀ + √t * M₁ with hN
  have hN0 : 0 ≤ N := by positivity
  set A : Bt → ℝ := fun β => ∫ z, φ (mid U m S t x (z + nudge U G m S t x β)) ∂gauss J with hA
  have eA : avg ν G m S t φ x = ∫ β, A β ∂ν := by
    unfold avg push
    rw [integral_prod _ i0]
    simp only [h.langevin_nudge T, hA]
  have iA : Integrable A ν := by
    have := i0.integral_prod_left
    simp only [h.langevin_nudge T] at this
    exact this
  set A0 := ∫ z, φ (mid U m S t x z) ∂gauss J with hA0
  set w : J → ℝ := fun j => ∫ z, (φ (mid U m S t x z) - φ x) * z j ∂gauss J with hw
  have iv : ∀ j, Integrable (fun β => nudge U G m S t x β j * w j) ν := fun j =>
    (((h.conf.integrable_G x j).sub (integrable_const (gradU U x j))).const_mul (-(t * m j / sig m S t j))).mul_const (w j)
  have ev : ∀ j, ∫ β, nudge U G m S t x β j * w j ∂ν = 0 := fun j => by
    unfold nudge
    rw [integral_mul_const, integral_const_mul, integral_sub (h.conf.integrable_G x j) (integrable_const _), h.mean]
    simp [gradU]
  have iV : Integrable (fun β => ∑ j, nudge U G m S t x β j * w j) ν := integrable_finsetSum _ fun j _ => iv j
  have e1 : avg ν G m S t φ x - A0 = ∫ β, (A β - A0 - ∑ j, nudge U G m S t x β j * w j) ∂ν := by
    have i1 : Integrable (fun β => A β - A0) ν := iA.sub (integrable_const _)
    rw [integral_sub i1 iV, integral_sub iA (integrable_const _), integral_finsetSum _ fun j _ => iv j, eA]
    simp [ev]
  obtain ⟨iW, hW⟩ := h.variance_le x
  set B := N * (4 * (2 + reach U L hi S) ^ 2 * fourth J) * far x ^ 2 with hB
  have hB0 : 0 ≤ B := by positivity
  have hn : ∀ β, ∑ j, nudge U G m S t x β j ^ 2 ≤ S * t / 2 * hi * ∑ j, (G β x j - gradU U x j) ^ 2 := fun β => by
    rw [h.nudge_sq T, mul_assoc _ hi]
    refine mul_le_mul_of_nonneg_left ?_ (by positivity)
    rw [Finset.mul_sum]
    exact Finset.sum_le_sum fun j _ => mul_le_mul_of_nonneg_right (T.le_hi j) (sq_nonneg _)
  rw [e1, ← Real.norm_eq_abs]
  refine (norm_integral_le_of_norm_le (iW.const_mul (B * (S * t / 2 * hi))) (.of_forall fun β => ?_)).trans ?_
  · refine ((h.batch_step T h0 h1 hd.1 hφ x (nudge U G m S t x β)).2.2).trans ?_
    exact (mul_le_mul_of_nonneg_left (hn β) hB0).trans (le_of_eq (by ring))
  · rw [integral_const_mul]
    refine (mul_le_mul_of_nonneg_left hW (by positivity)).trans (le_of_eq ?_)
    rw [hB]
    ring

end Potential

/-- How well a step preserves the posterior. -/
noncomputable def bias (ν : Measure Bt) (U : (J → ℝ) → ℝ) (g : Bt → ℝ) (Λ L hi S c : ℝ) : ℝ :=
  4 * (2 + reach U L hi S) ^ 2 * fourth J * (S * hi / 2 * (Λ * (∫ β, g β ∂ν + Fintype.card J))) * (∫ x, far x ^ 4 ∂boltz fun x => S * U x + c)
  + (2 + reach U L hi S) * (1 + reach U L hi S)
        * (S * Fintype.card J * L * reach U L hi S * (reach U L hi S + hi * (L + ‖gradU U 0‖) * (2 + reach U L hi S)))
        * ((∫ x, far x ^ 4 ∂boltz fun x => S * U x + c) * fourth J)

namespace Potential
variable (h : Potential ν G U a b Λ g L lo hi S)
include h

theorem bias_nonneg (c : ℝ) : 0 ≤ bias ν U g Λ L hi S c := by
  have hr := h.reach_nonneg
  have hF : 0 ≤ fourth J := by linarith [one_le_fourth (J := J)]
  have hS := h.S_pos
  have hh := h.hi_pos
  have hL := h.lip0
  have hΛ := h.conf.bound
  have h1 : 0 ≤ ∫ β, g β ∂ν := integral_nonneg h.conf.nonneg
  have h2 : 0 ≤ ∫ x, far x ^ 4 ∂boltz fun x => S * U x + c := integral_nonneg fun x => by have := far_pos x; positivity
  unfold bias
  positivity

theorem energy_integrable (T : Tuned a Λ lo hi m t) (c : ℝ) : Integrable (energy m) (boltz fun x => S * U x + c) := by
  have hm := T.mass_pos h.toSmooth
  refine (((h.moments c).2 2).const_mul (∑ j, 1 / m j)).mono' measurable_energy.aestronglyMeasurable (.of_forall fun x => ?_)
  rw [Real.norm_eq_abs, abs_of_nonneg (energy_nonneg hm x)]
  unfold energy
  rw [Finset.sum_mul]
  refine Finset.sum_le_sum fun j _ => ?_
  rw [div_eq_mul_one_div, mul_comm]
  refine mul_le_mul_of_nonneg_left ?_ (by have := hm j; positivity)
  rw [← sq_abs]
  exact pow_le_pow_left₀ (abs_nonneg _) (norm_le_pi_norm x j) 2

/-- A step nearly preserves the posterior. -/
theorem balance [IsProbabilityMeasure (boltz fun x => S * U x + c)] (T : Tuned a Λ lo hi m t) {M₀ M₁ : ℝ} (h0 : 0 ≤ M₀) (h1 : 0 ≤ M₁)
    (hd : Dom (energy m) φ) (hφ : Varies M₀ M₁ φ) :
    |∫ x, avg ν G m S t φ x ∂(boltz fun x => S * U x + c) - ∫ x, φ x ∂boltz fun x => S * U x + c| ≤ t * (M₀ + √t * M₁) * bias ν U g Λ L hi S c := by
  have hE := T.moves_energy h.toSmooth
  have iE := h.energy_integrable T c
  have i1 : Integrable φ (boltz fun x => S * U x + c) := hd.integrable iE
  have i2 : Integrable (avg ν G m S t φ) (boltz fun x => S * U x + c) := (hd.push hE).integrable iE
  have b1 := h.mid_varies T h0 h1 hφ
  have mmid : Measurable fun x => ∫ z, (φ (mid U m S t x z) - φ x) ∂gauss J := by
    have h1 : Measurable fun q : (J → ℝ) × (J → ℝ) => φ (mid U m S t q.1 q.2) - φ q.1 := (hd.1.comp h.measurable_mid).sub (hd.1.comp measurable_fst)
    exact (h1.stronglyMeasurable.integral_prod_right (ν := gauss J)).measurable
  have hmx : ∀ x, Measurable fun z => mid U m S t x z := fun x => h.measurable_mid.comp (by fun_prop : Measurable fun y : J → ℝ => (x, y))
  set N := M₀ + √t * M₁ with hN
  have iz : ∀ x, Integrable (fun z => φ (mid U m S t x z) - φ x) (gauss J) := fun x =>
    ((gauss_far (J := J) 2).const_mul (N * ((2 + reach U L hi S) * (1 + reach U L hi S)) * far x ^ 2)).mono'
      ((hd.1.comp (hmx x)).sub_const _).aestronglyMeasurable (.of_forall fun z => (b1 x z).trans (le_of_eq (by rw [mul_pow]; ring)))
  have iz' : ∀ x, Integrable (fun z => φ (mid U m S t x z)) (gauss J) := fun x =>
    ((iz x).add (integrable_const (φ x))).congr (.of_forall fun z => by simp)
  have i3 : Integrable (fun x => ∫ z, (φ (mid U m S t x z) - φ x) ∂gauss J) (boltz fun x => S * U x + c) := by
    refine ((far_moments (h.moments c).2 2).const_mul (N * ((2 + reach U L hi S) * (1 + reach U L hi S)) * ∫ z, far z ^ 2 ∂gauss J)).mono'
      mmid.aestronglyMeasurable (.of_forall fun x => ?_)
    refine (norm_integral_le_of_norm_le ((gauss_far (J := J) 2).const_mul (N * ((2 + reach U L hi S) * (1 + reach U L hi S)) * far x ^ 2))
      (.of_forall fun z => (b1 x z).trans (le_of_eq (by rw [mul_pow]; ring)))).trans (le_of_eq ?_)
    rw [integral_const_mul]
    ring
  have i4 : Integrable (fun x => avg ν G m S t φ x - φ x) (boltz fun x => S * U x + c) := i2.sub i1
  have ex : ∀ x, avg ν G m S t φ x - φ x - ∫ z, (φ (mid U m S t x z) - φ x) ∂gauss J = avg ν G m S t φ x - ∫ z, φ (mid U m S t x z) ∂gauss J := fun x => by
    rw [integral_sub (iz' x) (integrable_const _)]
    simp
  have e1 : ∫ x, avg ν G m S t φ x ∂(boltz fun x => S * U x + c) - ∫ x, φ x ∂(boltz fun x => S * U x + c)
      = ∫ x, (avg ν G m S t φ x - φ x - ∫ z, (φ (mid U m S t x z) - φ x) ∂gauss J) ∂(boltz fun x => S * U x + c)
        + ∫ x, ∫ z, (φ (mid U m S t x z) - φ x) ∂gauss J ∂(boltz fun x => S * U x + c) := by
    rw [integral_sub i4 i3, integral_sub i2 i1]
    ring
  rw [e1]
  refine (abs_add_le _ _).trans ?_
  have h2 := h.balance_full T (c := c) h0 h1 hd.1 hφ
  simp only [ex]
  have h3 := norm_integral_le_of_norm_le (f := fun x => avg ν G m S t φ x - ∫ z, φ (mid U m S t x z) ∂gauss J)
    ((far_moments (h.moments c).2 4).const_mul _) (.of_forall fun x => h.batch_avg T h0 h1 hd hφ x)
  rw [integral_const_mul, Real.norm_eq_abs] at h3
  refine (add_le_add h3 h2).trans (le_of_eq ?_)
  unfold bias
  rw [show ∫ z : J → ℝ, far z ^ 4 ∂gauss J = fourth J from rfl]
  ring

end Potential
end PySGMCMC.Harris
