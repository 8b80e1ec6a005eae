import Verif.Lemmas.Shift
import Verif.Lemmas.HarrisPairs

/-!
# Steps of SGLD make averages smooth

A Harnack inequality for averages after some steps of SGLD.  The noise of a run that starts elsewhere is shifted little by little, so that
both runs meet.  Shifts by `D` in a time `T` cost a factor `exp (c ‖D‖² / T)`, where `c` does not depend on the stepsize.
-/

open MeasureTheory ProbabilityTheory
namespace PySGMCMC.Harris
open Confining Moves
set_option linter.unusedSectionVars false

variable {J : Type*} [Fintype J] {Bt : Type*} [MeasurableSpace Bt] {ν : Measure Bt} [IsProbabilityMeasure ν]
  {G : Bt → (J → ℝ) → J → ℝ} {a b Λ L lo hi S t : ℝ} {g : Bt → ℝ} {m : J → ℝ} {φ : (J → ℝ) → ℝ}

/-- Mini-batch gradients that confine and are Lipschitz. -/
structure Smooth (ν : Measure Bt) (G : Bt → (J → ℝ) → J → ℝ) (a b Λ : ℝ) (g : Bt → ℝ) (L lo hi S : ℝ) : Prop where
  conf : Confining ν G a b Λ g
  lip0 : 0 ≤ L
  lip : ∀ β x x', ‖G β x - G β x'‖ ≤ L * ‖x - x'‖
  lo_pos : 0 < lo
  lo_hi : lo ≤ hi
  S_pos : 0 < S

/-- Masses and stepsizes for which a sampler is stable. -/
structure Tuned (a Λ lo hi : ℝ) (m : J → ℝ) (t : ℝ) : Prop where
  lo_le : ∀ j, lo ≤ m j
  le_hi : ∀ j, m j ≤ hi
  t_pos : 0 < t
  t_le : t ≤ 1
  stable : t * hi * Λ ≤ a

/-- The scale of the noise. -/
noncomputable def sig (m : J → ℝ) (S t : ℝ) : J → ℝ := fun j => √(2 * t * m j / S)

/-- What a function is on average after a step of SGLD. -/
noncomputable abbrev avg (ν : Measure Bt) (G : Bt → (J → ℝ) → J → ℝ) (m : J → ℝ) (S t : ℝ) : ((J → ℝ) → ℝ) → (J → ℝ) → ℝ :=
  push (ν.prod (gauss J)) (langevin G m (sig m S t) t)

/-- The distance to the origin. -/
noncomputable def size (m : J → ℝ) (x : J → ℝ) : ℝ := √(1 + energy m x)

theorem measurable_size : Measurable (size m) := (measurable_const.add measurable_energy).sqrt

theorem size_sq (hm : ∀ j, 0 < m j) (x : J → ℝ) : size m x ^ 2 = 1 + energy m x := Real.sq_sqrt (by linarith [energy_nonneg hm x])

theorem one_le_size (hm : ∀ j, 0 < m j) (x : J → ℝ) : 1 ≤ size m x := Real.one_le_sqrt.2 (by linarith [energy_nonneg hm x])

theorem energy_add (hm : ∀ j, 0 < m j) (x y : J → ℝ) : energy m (x + y) ≤ 2 * energy m x + 2 * energy m y := by
  unfold energy
  rw [Finset.mul_sum, Finset.mul_sum, ← Finset.sum_add_distrib]
  refine Finset.sum_le_sum fun j _ => ?_
  have := (hm j).le
  rw [mul_div_assoc', mul_div_assoc', ← add_div, Pi.add_apply]
  exact div_le_div_of_nonneg_right (by nlinarith [sq_nonneg (x j - y j)]) this

theorem Moves.Dom.sq_energy (hm : ∀ j, 0 < m j) (h : Dom (size m) φ) : ∃ A B, 0 ≤ A ∧ 0 ≤ B ∧ ∀ x, φ x ^ 2 ≤ A * energy m x + B := by
  obtain ⟨_, a, b, ha, hb⟩ := h
  refine ⟨2 * a ^ 2, 2 * a ^ 2 + 2 * b ^ 2, by positivity, by positivity, fun x => ?_⟩
  have h1 : φ x ^ 2 ≤ (a * size m x + b) ^ 2 := by
    rw [← sq_abs]
    exact pow_le_pow_left₀ (abs_nonneg _) (hb x) 2
  have h2 := size_sq hm x
  nlinarith [sq_nonneg (a * size m x - b)]

theorem Moves.Dom.energy_of (hm : ∀ j, 0 < m j) (h : Dom (size m) φ) : Dom (energy m) fun x => φ x ^ 2 := by
  obtain ⟨A, B, hA, hB, hb⟩ := h.sq_energy hm
  exact ⟨h.1.pow_const 2, A, B, hA, fun x => by rw [abs_of_nonneg (sq_nonneg _)]; exact hb x⟩

/-! ## Drift -/

/-- A bound of the energy. -/
noncomputable def level (J : Type*) [Fintype J] (ν : Measure Bt) (g : Bt → ℝ) (a b lo S : ℝ) : ℝ :=
  (2 * b + a * ∫ β, g β ∂ν + 2 * Fintype.card J / S) * (1 + 1 / (a * lo))

namespace Smooth

theorem level_nonneg (h : Smooth ν G a b Λ g L lo hi S) : 0 ≤ level J ν g a b lo S := by
  have h1 : 0 ≤ ∫ β, g β ∂ν := integral_nonneg h.conf.nonneg
  have := h.conf.pos; have := h.conf.slack; have := h.lo_pos; have := h.S_pos
  unfold level
  positivity

end Smooth

namespace Tuned
variable (T : Tuned a Λ lo hi m t) (h : Smooth ν G a b Λ g L lo hi S)
include T h

theorem mass_pos (j : J) : 0 < m j := h.lo_pos.trans_le (T.lo_le j)

theorem sig_sq (j : J) : sig m S t j ^ 2 = 2 * t * m j / S := by
  have := T.mass_pos h j; have := T.t_pos; have := h.S_pos
  exact Real.sq_sqrt (by positivity)

theorem sig_pos (j : J) : 0 < sig m S t j := by
  have := T.mass_pos h j; have := T.t_pos; have := h.S_pos
  exact Real.sqrt_pos.2 (by positivity)

theorem moves_energy : Moves (ν.prod (gauss J)) (langevin G m (sig m S t) t) (energy m) (decay a t lo) (heat ν g a b t m (sig m S t)) :=
  h.conf.moves h.lo_pos T.lo_le T.t_pos fun j => by
    have h1 := mul_le_mul_of_nonneg_left (T.le_hi j) T.t_pos.le
    exact (mul_le_mul_of_nonneg_right h1 h.conf.bound.le).trans T.stable

theorem heat_le : heat ν g a b t m (sig m S t) ≤ (1 - decay a t lo) * level J ν g a b lo S := by
  have h1 : 0 ≤ ∫ β, g β ∂ν := integral_nonneg h.conf.nonneg
  have ha := h.conf.pos; have := h.conf.slack; have hlo := h.lo_pos; have := h.S_pos; have ht := T.t_pos
  have e1 : ∑ j, sig m S t j ^ 2 / m j = t * (2 * Fintype.card J / S) := by
    simp only [T.sig_sq h]
    have : ∀ j, 2 * t * m j / S / m j = 2 * t / S := fun j => by
      have := (T.mass_pos h j).ne'
      field_simp
    simp only [this, Finset.sum_const, nsmul_eq_mul, Finset.card_univ]
    ring
  unfold heat level
  rw [e1]
  set q := 2 * b + a * ∫ β, g β ∂ν + 2 * Fintype.card J / S with hq
  have hq0 : 0 ≤ q := by positivity
  have e2 : t * (2 * b + a * ∫ β, g β ∂ν) + t * (2 * Fintype.card J / S) = t * q := by rw [hq]; ring
  rw [e2]
  have h2 : t ≤ (1 - decay a t lo) * (1 + 1 / (a * lo)) := by
    unfold decay
    rcases le_total 0 (1 - t * a * lo) with h3 | h3
    · rw [max_eq_right h3]
      have : (1 - (1 - t * a * lo)) * (1 + 1 / (a * lo)) = t * a * lo + t := by field_simp; ring
      rw [this]
      have : 0 ≤ t * a * lo := by positivity
      linarith
    · rw [max_eq_left h3]
      have : 0 ≤ 1 / (a * lo) := by positivity
      linarith [T.t_le]
  nlinarith

/-- Steps drift to where the distance to the origin is small. -/
theorem moves_size : Moves (ν.prod (gauss J)) (langevin G m (sig m S t) t) (size m) ((1 + decay a t lo) / 2)
    ((1 - decay a t lo) * (1 + level J ν g a b lo S) / 2) := by
  have hm := T.mass_pos h
  have hE := T.moves_energy h
  have hl := h.level_nonneg
  have hint : ∀ x, Integrable (fun ζ => size m (langevin G m (sig m S t) t x ζ)) (ν.prod (gauss J)) := fun x => by
    refine ((integrable_const (1 : ℝ)).add (hE.int x)).mono' (measurable_size.comp (hE.measΨ x)).aestronglyMeasurable (.of_forall fun ζ => ?_)
    have h1 := one_le_size hm (langevin G m (sig m S t) t x ζ)
    have h2 := size_sq hm (langevin G m (sig m S t) t x ζ)
    rw [Real.norm_eq_abs, abs_of_nonneg (by linarith), Pi.add_apply]
    nlinarith
  refine ⟨hE.meas, measurable_size, fun x => Real.sqrt_nonneg _, hint, fun x => ?_, by linarith [hE.gamma], by linarith [hE.lt_one],
    by have := hE.lt_one; have : 0 ≤ 1 - decay a t lo := by linarith
       positivity⟩
  set r := size m x with hr
  have hr1 : 1 ≤ r := one_le_size hm x
  have hr2 := size_sq hm x
  rw [← hr] at hr2
  have hr0 : 0 < r := by linarith
  have h1 : ∀ ζ, size m (langevin G m (sig m S t) t x ζ) ≤ (1 + r ^ 2) / (2 * r) + 1 / (2 * r) * energy m (langevin G m (sig m S t) t x ζ) := fun ζ => by
    have h2 := size_sq hm (langevin G m (sig m S t) t x ζ)
    set u := size m (langevin G m (sig m S t) t x ζ)
    have e : (1 + r ^ 2) / (2 * r) + 1 / (2 * r) * energy m (langevin G m (sig m S t) t x ζ) = (u ^ 2 + r ^ 2) / (2 * r) := by
      rw [h2]; field_simp; ring
    rw [e, le_div_iff₀ (by positivity)]
    nlinarith [sq_nonneg (u - r)]
  have i1 : Integrable (fun ζ => (1 + r ^ 2) / (2 * r) + 1 / (2 * r) * energy m (langevin G m (sig m S t) t x ζ)) (ν.prod (gauss J)) :=
    (integrable_const _).add ((hE.int x).const_mul _)
  have h2 := integral_mono (hint x) i1 h1
  rw [integral_add (integrable_const _) ((hE.int x).const_mul _), integral_const_mul] at h2
  simp only [integral_const, probReal_univ, one_smul] at h2
  refine h2.trans ?_
  have h3 := hE.drift x
  have h4 := T.heat_le h
  set d := decay a t lo
  have h5 : ∫ ζ, energy m (langevin G m (sig m S t) t x ζ) ∂ν.prod (gauss J) ≤ d * (r ^ 2 - 1) + (1 - d) * level J ν g a b lo S := by
    rw [hr2]; linarith
  have e : (1 + r ^ 2) / (2 * r) + 1 / (2 * r) * ∫ ζ, energy m (langevin G m (sig m S t) t x ζ) ∂ν.prod (gauss J)
      = (1 + r ^ 2 + ∫ ζ, energy m (langevin G m (sig m S t) t x ζ) ∂ν.prod (gauss J)) / (2 * r) := by field_simp
  rw [e, div_le_iff₀ (by positivity)]
  have h6 : 0 ≤ (1 - d) * (1 + level J ν g a b lo S) * (r - 1) := by
    have : 0 ≤ 1 - d := by linarith [hE.lt_one]
    have : 0 ≤ r - 1 := by linarith
    positivity
  nlinarith

/-! ## Shifted runs -/

theorem langevin_shift (x y e : J → ℝ) (β : Bt) (z : J → ℝ) :
    langevin G m (sig m S t) t y (β, z + fun j => (x j - y j + e j + t * m j * (G β y j - G β x j)) / sig m S t j)
      = langevin G m (sig m S t) t x (β, z) + e := by
  funext j
  have := (T.sig_pos h j).ne'
  simp only [langevin, Pi.add_apply]
  field_simp
  ring

/-- A step from elsewhere. -/
theorem harnack_step (hφ : Dom (size m) φ) {x y e : J → ℝ} {B : ℝ}
    (hB : ∀ β, ∑ j, ((x j - y j + e j + t * m j * (G β y j - G β x j)) / sig m S t j) ^ 2 ≤ B) :
    Integrable (fun q => φ (langevin G m (sig m S t) t x q + e) ^ 2) (ν.prod (gauss J)) ∧
    avg ν G m S t φ y ^ 2 ≤ Real.exp B * ∫ q, φ (langevin G m (sig m S t) t x q + e) ^ 2 ∂ν.prod (gauss J) := by
  have hm := T.mass_pos h
  have hE := T.moves_energy h
  have hV := T.moves_size h
  obtain ⟨A, B', hA, hB', hb⟩ := hφ.sq_energy hm
  have me : Measurable fun q => φ (langevin G m (sig m S t) t x q + e) := hφ.1.comp ((hE.measΨ x).add_const e)
  have i1 : Integrable (fun q => φ (langevin G m (sig m S t) t x q + e) ^ 2) (ν.prod (gauss J)) := by
    refine (((hE.int x).const_mul (A * 2)).add (integrable_const (A * (2 * energy m e) + B'))).mono' (me.pow_const 2).aestronglyMeasurable
      (.of_forall fun q => ?_)
    rw [Real.norm_eq_abs, abs_of_nonneg (sq_nonneg _), Pi.add_apply]
    have h1 := mul_le_mul_of_nonneg_left (energy_add hm (langevin G m (sig m S t) t x q) e) hA
    linarith [hb (langevin G m (sig m S t) t x q + e)]
  have i2 : Integrable (fun q => φ (langevin G m (sig m S t) t y q)) (ν.prod (gauss J)) := by
    obtain ⟨h1, a', b', _, h2⟩ := hφ
    exact hV.integrable h1 h2 y
  refine ⟨i1, ?_⟩
  unfold avg push
  rw [integral_prod _ i2, integral_prod _ i1]
  set H : Bt → ℝ := fun β => ∫ z, φ (langevin G m (sig m S t) t y (β, z)) ∂gauss J with hH
  set R : Bt → ℝ := fun β => ∫ z, φ (langevin G m (sig m S t) t x (β, z) + e) ^ 2 ∂gauss J with hR
  have iH : Integrable H ν := i2.integral_prod_left
  have iR : Integrable R ν := i1.integral_prod_left
  have hle : ∀ᵐ β ∂ν, H β ^ 2 ≤ Real.exp B * R β := by
    filter_upwards [i2.prod_right_ae, i1.prod_right_ae] with β j2 j1
    have hs := T.langevin_shift h x y e β
    have h2 := shift_sq_le (u := fun j => (x j - y j + e j + t * m j * (G β y j - G β x j)) / sig m S t j)
      (h := fun z => φ (langevin G m (sig m S t) t y (β, z))) j2 (by simp only [hs]; exact j1)
    simp only [hs] at h2
    exact h2.trans (mul_le_mul_of_nonneg_right (Real.exp_le_exp.2 (hB β)) (integral_nonneg fun z => sq_nonneg _))
  have iH2 : Integrable (fun β => H β ^ 2) ν := by
    refine (iR.const_mul (Real.exp B)).mono' (iH.aestronglyMeasurable.pow 2) ?_
    filter_upwards [hle] with β hβ
    rw [Real.norm_eq_abs, abs_of_nonneg (sq_nonneg _)]
    exact hβ
  have h3 := sq_integral_mul_le (μ := ν) (f := H) (e := fun _ => (1 : ℝ)) iH2 (integrable_const _) (by simpa using iH)
  simp only [mul_one, one_pow, integral_const, probReal_univ, one_smul] at h3
  refine h3.trans ?_
  have h4 := integral_mono_ae iH2 (iR.const_mul (Real.exp B)) hle
  rwa [integral_const_mul] at h4

/-- Several steps from elsewhere. -/
theorem harnack_steps (hφ : Dom (size m) φ) {d : J → ℝ} {n : Nat} {B : ℝ}
    (hB : ∀ β x, ∀ k ≤ n, ∑ j, ((-d j + t * m j * (G β (x + (k : ℝ) • d) j - G β x j)) / sig m S t j) ^ 2 ≤ B) :
    ∀ k ≤ n, ∀ x, (avg ν G m S t)^[k] φ (x + (k : ℝ) • d) ^ 2 ≤ Real.exp (k * B) * (avg ν G m S t)^[k] (fun x => φ x ^ 2) x := by
  have hm := T.mass_pos h
  have hE := T.moves_energy h
  have hV := T.moves_size h
  intro k
  induction k with
  | zero => intro _ x; simp
  | succ k ih =>
    intro hk x
    have hd : Dom (size m) ((avg ν G m S t)^[k] φ) := hφ.iterate hV k
    have hd2 : Dom (energy m) ((avg ν G m S t)^[k] fun x => φ x ^ 2) := (hφ.energy_of hm).iterate hE k
    rw [Function.iterate_succ_apply', Function.iterate_succ_apply']
    obtain ⟨i1, h1⟩ := T.harnack_step h hd (x := x) (y := x + ((k + 1 : Nat) : ℝ) • d) (e := (k : ℝ) • d) (B := B) fun β => by
      refine le_of_eq_of_le (Finset.sum_congr rfl fun j _ => ?_) (hB β x (k + 1) hk)
      congr 2
      simp only [Pi.add_apply, Pi.smul_apply, smul_eq_mul]
      push_cast
      ring
    refine h1.trans ?_
    have i2 : Integrable (fun q => (avg ν G m S t)^[k] (fun x => φ x ^ 2) (langevin G m (sig m S t) t x q)) (ν.prod (gauss J)) := by
      obtain ⟨h2, a', b', _, h3⟩ := hd2
      exact hE.integrable h2 h3 x
    have h2 := integral_mono i1 (i2.const_mul (Real.exp (k * B))) fun q => ih (by omega) (langevin G m (sig m S t) t x q)
    rw [integral_const_mul] at h2
    refine (mul_le_mul_of_nonneg_left h2 (Real.exp_pos B).le).trans (le_of_eq ?_)
    rw [← mul_assoc, ← Real.exp_add]
    congr 2
    push_cast
    ring

end Tuned

/-- What shifts cost. -/
noncomputable def toll (J : Type*) [Fintype J] (L lo hi S : ℝ) : ℝ := S * Fintype.card J * (1 + 2 * (hi * L)) ^ 2 / (2 * lo)

namespace Tuned
variable (T : Tuned a Λ lo hi m t) (h : Smooth ν G a b Λ g L lo hi S)
include T h

theorem hi_nonneg : 0 ≤ hi := (h.lo_pos.trans_le h.lo_hi).le

theorem toll_nonneg : 0 ≤ toll J L lo hi S := by
  have := T.hi_nonneg h; have := h.lip0; have := h.lo_pos; have := h.S_pos
  unfold toll; positivity

theorem toll_step {n : Nat} (hn : 0 < n) (hnt : n * t ≤ 2) (D : J → ℝ) (β : Bt) (x : J → ℝ) {k : Nat} (hk : k ≤ n) :
    ∑ j, ((-((1 / n : ℝ) • D) j + t * m j * (G β (x + (k : ℝ) • ((1 / n : ℝ) • D)) j - G β x j)) / sig m S t j) ^ 2
      ≤ toll J L lo hi S * ‖D‖ ^ 2 / (n * t) / n := by
  have hL := h.lip0; have hlo := h.lo_pos; have hS := h.S_pos; have hh := T.hi_nonneg h; have ht := T.t_pos
  have hn' : (0 : ℝ) < n := Nat.cast_pos.2 hn
  have key : ∀ j, ((-((1 / n : ℝ) • D) j + t * m j * (G β (x + (k : ℝ) • ((1 / n : ℝ) • D)) j - G β x j)) / sig m S t j) ^ 2
      ≤ ((1 + 2 * (hi * L)) / n * ‖D‖) ^ 2 * (S / (2 * t * lo)) := fun j => by
    rw [div_pow, T.sig_sq h, div_eq_mul_inv]
    have hmj := T.mass_pos h j
    have h1 : |G β (x + (k : ℝ) • ((1 / n : ℝ) • D)) j - G β x j| ≤ L * ‖D‖ := by
      have h2 := norm_le_pi_norm (G β (x + (k : ℝ) • ((1 / n : ℝ) • D)) - G β x) j
      rw [Pi.sub_apply, Real.norm_eq_abs] at h2
      refine (h2.trans (h.lip _ _ _)).trans (mul_le_mul_of_nonneg_left ?_ hL)
      rw [add_sub_cancel_left, norm_smul, norm_smul, Real.norm_eq_abs, Real.norm_eq_abs, abs_of_nonneg (by positivity), abs_of_nonneg (by positivity)]
      have h3 : (k : ℝ) * (1 / n) ≤ 1 := by
        rw [mul_one_div, div_le_one hn']
        exact_mod_cast hk
      rw [← mul_assoc]
      exact mul_le_of_le_one_left (norm_nonneg _) h3
    have h4 : |-((1 / n : ℝ) • D) j + t * m j * (G β (x + (k : ℝ) • ((1 / n : ℝ) • D)) j - G β x j)| ≤ (1 + 2 * (hi * L)) / n * ‖D‖ := by
      refine (abs_add_le _ _).trans ?_
      have h5 : |-((1 / n : ℝ) • D) j| ≤ 1 / n * ‖D‖ := by
        rw [abs_neg, Pi.smul_apply, smul_eq_mul, abs_mul, abs_of_nonneg (by positivity)]
        exact mul_le_mul_of_nonneg_left (norm_le_pi_norm D j) (by positivity)
      have h6 : |t * m j * (G β (x + (k : ℝ) • ((1 / n : ℝ) • D)) j - G β x j)| ≤ t * hi * (L * ‖D‖) := by
        rw [abs_mul, abs_of_nonneg (by positivity)]
        exact mul_le_mul (mul_le_mul_of_nonneg_left (T.le_hi j) ht.le) h1 (abs_nonneg _) (by positivity)
      have h7 : t * hi * (L * ‖D‖) ≤ 2 * (hi * L) / n * ‖D‖ := by
        have h8 : t ≤ 2 / n := by rw [le_div_iff₀ hn', mul_comm]; exact hnt
        have h9 : 0 ≤ hi * L * ‖D‖ := by positivity
        have := mul_le_mul_of_nonneg_right h8 h9
        calc t * hi * (L * ‖D‖) = t * (hi * L * ‖D‖) := by ring
          _ ≤ 2 / n * (hi * L * ‖D‖) := this
          _ = _ := by ring
      have : (1 + 2 * (hi * L)) / n * ‖D‖ = 1 / n * ‖D‖ + 2 * (hi * L) / n * ‖D‖ := by ring
      linarith
    have h10 := pow_le_pow_left₀ (abs_nonneg _) h4 2
    rw [sq_abs] at h10
    refine mul_le_mul h10 ?_ (by positivity) (by positivity)
    rw [inv_div]
    exact div_le_div_of_nonneg_left hS.le (by positivity) (mul_le_mul_of_nonneg_left (T.lo_le j) (by positivity))
  refine (Finset.sum_le_sum fun j _ => key j).trans (le_of_eq ?_)
  rw [Finset.sum_const, nsmul_eq_mul, Finset.card_univ]
  unfold toll
  field_simp

/-- Averages after some steps from two starts. -/
theorem harnack (hφ : Dom (size m) φ) {n : Nat} (hn : 0 < n) (hnt : n * t ≤ 2) (x y : J → ℝ) :
    (avg ν G m S t)^[n] φ y ^ 2 ≤ Real.exp (toll J L lo hi S * ‖y - x‖ ^ 2 / (n * t)) * (avg ν G m S t)^[n] (fun x => φ x ^ 2) x := by
  have hn' : (n : ℝ) ≠ 0 := (Nat.cast_pos.2 hn).ne'
  have h1 := T.harnack_steps h hφ (d := (1 / n : ℝ) • (y - x)) (n := n) (fun β x' k hk => T.toll_step h hn hnt (y - x) β x' hk) n le_rfl x
  have e1 : x + (n : ℝ) • ((1 / n : ℝ) • (y - x)) = y := by
    rw [smul_smul, mul_one_div, div_self hn', one_smul, add_sub_cancel]
  rw [e1] at h1
  refine h1.trans (le_of_eq ?_)
  congr 2
  field_simp

end Tuned

theorem discriminant {p q r B : ℝ} (hB : 1 ≤ B) (h : ∀ c : ℝ, (q + c) ^ 2 ≤ B * (r + 2 * c * p + c ^ 2)) : (q - p) ^ 2 ≤ (B - 1) * r := by
  have key : ∀ c : ℝ, 0 ≤ (B - 1) * (c * c) + (2 * (B * p - q)) * c + (B * r - q ^ 2) := fun c => by nlinarith [h c]
  have h1 := discrim_le_zero key
  unfold discrim at h1
  have h2 : B * (q - p) ^ 2 ≤ B * ((B - 1) * (r - p ^ 2)) := by nlinarith
  have h3 := le_of_mul_le_mul_left h2 (by linarith)
  nlinarith [mul_nonneg (by linarith : 0 ≤ B - 1) (sq_nonneg p)]

namespace Tuned
variable (T : Tuned a Λ lo hi m t) (h : Smooth ν G a b Λ g L lo hi S)
include T h

theorem iterate_add_const (hφ : Dom (energy m) φ) {ψ : (J → ℝ) → ℝ} (hψ : Dom (energy m) ψ) (c : ℝ) (n : Nat) :
    (avg ν G m S t)^[n] (fun x => φ x + c * ψ x) = fun x => (avg ν G m S t)^[n] φ x + c * (avg ν G m S t)^[n] ψ x := by
  have hE := T.moves_energy h
  induction n with
  | zero => rfl
  | succ n ih =>
    rw [Function.iterate_succ_apply', ih, Function.iterate_succ_apply', Function.iterate_succ_apply']
    funext x
    have hi : ∀ {φ}, Dom (energy m) φ → Integrable (fun q => (avg ν G m S t)^[n] φ (langevin G m (sig m S t) t x q)) (ν.prod (gauss J)) := fun hφ => by
      obtain ⟨h2, a', b', _, h3⟩ := hφ.iterate hE n
      exact hE.integrable h2 h3 x
    have e1 := integral_add (hi hφ) ((hi hψ).const_mul c)
    rw [integral_const_mul] at e1
    exact e1

theorem iterate_const (c : ℝ) (n : Nat) : (avg ν G m S t)^[n] (fun _ => c) = fun _ => c := by
  induction n with
  | zero => rfl
  | succ n ih =>
    rw [Function.iterate_succ_apply', ih]
    funext x
    simp [avg, push]

theorem size_le_energy (hφ : Dom (size m) φ) : Dom (energy m) φ := by
  have hm := T.mass_pos h
  obtain ⟨h1, a', b', ha, hb⟩ := hφ
  refine ⟨h1, a', a' + b', ha, fun x => (hb x).trans ?_⟩
  have h2 := one_le_size hm x
  have h3 := size_sq hm x
  have h4 : size m x ≤ 1 + energy m x := by nlinarith
  nlinarith

theorem const_dom (c : ℝ) : Dom (energy m) fun _ => c := ⟨measurable_const, 0, |c|, le_rfl, fun x => by simp⟩

/-- Averages after some steps are smooth. -/
theorem smoothing (hφ : Dom (size m) φ) {n : Nat} (hn : 0 < n) (hnt : n * t ≤ 2) (x y : J → ℝ) :
    ((avg ν G m S t)^[n] φ y - (avg ν G m S t)^[n] φ x) ^ 2
      ≤ (Real.exp (toll J L lo hi S * ‖y - x‖ ^ 2 / (n * t)) - 1) * (avg ν G m S t)^[n] (fun x => φ x ^ 2) x := by
  have hm := T.mass_pos h
  have ht := T.t_pos
  have := T.toll_nonneg h
  have hφe := T.size_le_energy h hφ
  refine discriminant (Real.one_le_exp (by positivity)) fun c => ?_
  have hφc : Dom (size m) fun x => φ x + c * 1 := by
    obtain ⟨h1, a', b', ha, hb⟩ := hφ
    exact ⟨h1.add_const _, a', b' + |c|, ha, fun x => (abs_add_le _ _).trans (by rw [mul_one]; linarith [hb x])⟩
  have h1 := T.harnack h hφc hn hnt x y
  have e1 : (fun x => (φ x + c * 1) ^ 2) = fun x => φ x ^ 2 + 1 * (c ^ 2 + (2 * c) * φ x) := by funext x; ring
  have hd1 : Dom (energy m) fun x => c ^ 2 + (2 * c) * φ x := by
    obtain ⟨h1, a', b', ha, hb⟩ := hφe
    refine ⟨(h1.const_mul _).const_add _, |2 * c| * a', c ^ 2 + |2 * c| * b', by positivity, fun x => ?_⟩
    have h2 := mul_le_mul_of_nonneg_left (hb x) (abs_nonneg (2 * c))
    refine (abs_add_le _ _).trans ?_
    rw [abs_mul, abs_of_nonneg (sq_nonneg c)]
    linarith
  rw [e1, T.iterate_add_const h hφe (T.const_dom h 1), T.iterate_add_const h (hφ.energy_of hm) hd1,
    T.iterate_add_const h (T.const_dom h _) hφe, T.iterate_const h, T.iterate_const h] at h1
  simp only [mul_one, one_mul] at h1
  refine h1.trans (le_of_eq ?_)
  ring

end Tuned
end PySGMCMC.Harris
