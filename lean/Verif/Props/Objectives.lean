import Verif.Model.Objectives
import Verif.Lemmas.BaseModel
import Mathlib.Probability.Distributions.Gaussian.Real
import Mathlib.Tactic.Linarith
import Mathlib.Tactic.NormNum
import Mathlib.Tactic.Positivity
import Mathlib.Analysis.SpecialFunctions.Trigonometric.Bounds

/-!
# Properties of the objective functions

C68, C69, C70, C71, C76, C77, C78
-/

namespace PySGMCMC.Objectives

@[simp] theorem item_zero (a : ℝ) (l : List ℝ) : item (a :: l) 0 = .ok a := rfl
@[simp] theorem item_one (a b : ℝ) (l : List ℝ) : item (a :: b :: l) 1 = .ok b := rfl

/-! ## C68 -/

/-- **C68** `rosenbrock` is defined at all points with two or more coordinates, non-negative, and 0 exactly at `(1, 1)`. -/
theorem C68_rosenbrock (a b : ℝ) (rest : List ℝ) :
    ∃ v, rosenbrock (a :: b :: rest) = .ok v ∧ 0 ≤ v ∧ (v = 0 ↔ a = 1 ∧ b = 1) := by
  refine ⟨100 * (b - a ^ 2) ^ 2 + (a - 1) ^ 2, ?_, by positivity, ?_⟩
  · simp [rosenbrock, List.range_succ_eq_map, bind, Except.bind, pure, Except.pure]
  · constructor
    · intro h
      have h1 : 0 ≤ (b - a ^ 2) ^ 2 := sq_nonneg _
      have h2 : 0 ≤ (a - 1) ^ 2 := sq_nonneg _
      have ha : (a - 1) ^ 2 = 0 := by linarith
      have hb : (b - a ^ 2) ^ 2 = 0 := by linarith
      have ha' : a - 1 = 0 := pow_eq_zero_iff (two_ne_zero) |>.1 ha
      have hb' : b - a ^ 2 = 0 := pow_eq_zero_iff (two_ne_zero) |>.1 hb
      have : a = 1 := by linarith
      subst this
      exact ⟨rfl, by linarith⟩
    · rintro ⟨rfl, rfl⟩; norm_num

/-- **C68** The value of `rosenbrock`. -/
theorem C68_rosenbrock_value (a b : ℝ) (rest : List ℝ) :
    rosenbrock (a :: b :: rest) = .ok (100 * (b - a ^ 2) ^ 2 + (a - 1) ^ 2) := by
  simp [rosenbrock, List.range_succ_eq_map, bind, Except.bind, pure, Except.pure]

/-- **C68** `banana_log_likelihood` is at most 0, and 0 exactly at `(0, 10)`. -/
theorem C68_banana (a b : ℝ) (rest : List ℝ) :
    ∃ v, bananaLogLikelihood (a :: b :: rest) = .ok v ∧ v = -(a ^ 2 / 200) - (b + a ^ 2 / 10 - 10) ^ 2 / 2 ∧
      v ≤ 0 ∧ (v = 0 ↔ a = 0 ∧ b = 10) := by
  refine ⟨_, rfl, by norm_num; ring, ?_, ?_⟩
  · have h1 : 0 ≤ a ^ 2 := sq_nonneg _
    have h2 : 0 ≤ (b + 0.1 * a ^ 2 - 10) ^ 2 := sq_nonneg _
    norm_num at h2 ⊢
    linarith
  · constructor
    · intro h
      have h1 : 0 ≤ a ^ 2 := sq_nonneg _
      have h2 : 0 ≤ (b + 0.1 * a ^ 2 - 10) ^ 2 := sq_nonneg _
      have ha : a ^ 2 = 0 := by norm_num at h h2 ⊢; nlinarith
      have hb : (b + 0.1 * a ^ 2 - 10) ^ 2 = 0 := by norm_num at h h2 ⊢; nlinarith
      have ha' : a = 0 := pow_eq_zero_iff (two_ne_zero) |>.1 ha
      have hb' : b + 0.1 * a ^ 2 - 10 = 0 := pow_eq_zero_iff (two_ne_zero) |>.1 hb
      subst ha'
      exact ⟨rfl, by norm_num at hb'; linarith⟩
    · rintro ⟨rfl, rfl⟩; norm_num

/-- **C68** `goldstein_price` is at least 3, and 3 exactly at `(0, -1)`. -/
theorem C68_goldstein_price (a b : ℝ) (rest : List ℝ) :
    ∃ v, goldsteinPrice (a :: b :: rest) = .ok v ∧ 3 ≤ v ∧ (v = 3 ↔ a = 0 ∧ b = -1) := by
  refine ⟨_, rfl, ?_⟩
  have hg : 1 + (a + b + 1) ^ 2 * (19 - 14 * a + 3 * a ^ 2 - 14 * b + 6 * a * b + 3 * b ^ 2) =
      1 + (a + b + 1) ^ 2 * (3 * (a + b - 7 / 3) ^ 2 + 8 / 3) := by ring
  have hh : 30 + (2 * a - 3 * b) ^ 2 * (18 - 32 * a + 12 * a ^ 2 + 48 * b - 36 * a * b + 27 * b ^ 2) =
      3 + (2 * a - 3 * b - 3) ^ 2 * (3 * (2 * a - 3 * b + 1 / 3) ^ 2 + 8 / 3) := by ring
  rw [hg, hh]
  have p1 : 0 < 3 * (a + b - 7 / 3) ^ 2 + 8 / 3 := by positivity
  have p2 : 0 < 3 * (2 * a - 3 * b + 1 / 3) ^ 2 + 8 / 3 := by positivity
  set G := (a + b + 1) ^ 2 * (3 * (a + b - 7 / 3) ^ 2 + 8 / 3) with hG
  set K := (2 * a - 3 * b - 3) ^ 2 * (3 * (2 * a - 3 * b + 1 / 3) ^ 2 + 8 / 3) with hK
  have g0 : 0 ≤ G := by positivity
  have k0 : 0 ≤ K := by positivity
  have gk : 0 ≤ G * K := mul_nonneg g0 k0
  have hprod : (1 + G) * (3 + K) = 3 + K + 3 * G + G * K := by ring
  rw [hprod]
  constructor
  · linarith
  · constructor
    · intro h
      have hG0 : G = 0 := by linarith
      have hK0 : K = 0 := by linarith
      have h1 : a + b + 1 = 0 := pow_eq_zero_iff two_ne_zero |>.1 ((mul_eq_zero.1 (hG ▸ hG0)).resolve_right p1.ne')
      have h2 : 2 * a - 3 * b - 3 = 0 := pow_eq_zero_iff two_ne_zero |>.1 ((mul_eq_zero.1 (hK ▸ hK0)).resolve_right p2.ne')
      constructor <;> linarith
    · rintro ⟨rfl, rfl⟩
      norm_num [hG, hK]

/-! ## C69 -/

/-- **C69** `bohachevski` is non-negative, and 0 exactly at the origin. -/
theorem C69_bohachevski (a b : ℝ) (rest : List ℝ) :
    ∃ v, bohachevski (a :: b :: rest) = .ok v ∧
      v = a ^ 2 + 2 * b ^ 2 + 0.3 * (1 - Real.cos (3 * Real.pi * a)) + 0.4 * (1 - Real.cos (4 * Real.pi * b)) ∧
      0 ≤ v ∧ (v = 0 ↔ a = 0 ∧ b = 0) := by
  have hv : 0.7 + a ^ 2 + 2.0 * b ^ 2 - 0.3 * Real.cos (3.0 * Real.pi * a) - 0.4 * Real.cos (4.0 * Real.pi * b) =
      a ^ 2 + 2 * b ^ 2 + 0.3 * (1 - Real.cos (3 * Real.pi * a)) + 0.4 * (1 - Real.cos (4 * Real.pi * b)) := by
    rw [show (3.0 : ℝ) = 3 by norm_num, show (4.0 : ℝ) = 4 by norm_num]
    norm_num
    ring
  have c1 := Real.cos_le_one (3 * Real.pi * a)
  have c2 := Real.cos_le_one (4 * Real.pi * b)
  refine ⟨_, rfl, hv, ?_⟩
  rw [hv]
  constructor
  · have : 0 ≤ 0.3 * (1 - Real.cos (3 * Real.pi * a)) := mul_nonneg (by norm_num) (by linarith)
    have : 0 ≤ 0.4 * (1 - Real.cos (4 * Real.pi * b)) := mul_nonneg (by norm_num) (by linarith)
    positivity
  · constructor
    · intro h
      have h1 : 0 ≤ 0.3 * (1 - Real.cos (3 * Real.pi * a)) := mul_nonneg (by norm_num) (by linarith)
      have h2 : 0 ≤ 0.4 * (1 - Real.cos (4 * Real.pi * b)) := mul_nonneg (by norm_num) (by linarith)
      have h3 : 0 ≤ a ^ 2 := sq_nonneg _
      have h4 : 0 ≤ b ^ 2 := sq_nonneg _
      have ha : a ^ 2 = 0 := by linarith
      have hb : b ^ 2 = 0 := by linarith
      exact ⟨pow_eq_zero_iff two_ne_zero |>.1 ha, pow_eq_zero_iff two_ne_zero |>.1 hb⟩
    · rintro ⟨rfl, rfl⟩; simp

/-- **C69** `levy` is non-negative, and 0 exactly at 1. -/
theorem C69_levy (a : ℝ) (rest : List ℝ) :
    ∃ v, levy (a :: rest) = .ok v ∧ v = Real.sin (Real.pi * (a + 3) / 4) ^ 2
        + ((a - 1) / 4) ^ 2 * (1 + Real.sin (Real.pi * (a + 3) / 2) ^ 2) ∧
      0 ≤ v ∧ (v = 0 ↔ a = 1) := by
  refine ⟨_, rfl, ?_, by positivity, ?_⟩
  · rw [show Real.pi * (1 + (a - 1) / 4) = Real.pi * (a + 3) / 4 by ring,
      show 2 * Real.pi * (1 + (a - 1) / 4) = Real.pi * (a + 3) / 2 by ring]
    ring
  · constructor
    · intro h
      have h1 : 0 ≤ Real.sin (Real.pi * (1 + (a - 1) / 4)) ^ 2 := sq_nonneg _
      have h2 : 0 ≤ (1 + (a - 1) / 4 - 1) ^ 2 * (1 + Real.sin (2 * Real.pi * (1 + (a - 1) / 4)) ^ 2) := by positivity
      have h3 : (1 + (a - 1) / 4 - 1) ^ 2 * (1 + Real.sin (2 * Real.pi * (1 + (a - 1) / 4)) ^ 2) = 0 := by linarith
      have h4 : (1 + (a - 1) / 4 - 1) ^ 2 = 0 := (mul_eq_zero.1 h3).resolve_right (by positivity)
      have h5 : 1 + (a - 1) / 4 - 1 = 0 := pow_eq_zero_iff two_ne_zero |>.1 h4
      linarith
    · rintro rfl; simp

theorem sin_prod_range (a : ℝ) : 0 ≤ 0.5 * Real.sin (13 * a) * Real.sin (27 * a) + 0.5 ∧
    0.5 * Real.sin (13 * a) * Real.sin (27 * a) + 0.5 ≤ 1 := by
  have h : |Real.sin (13 * a) * Real.sin (27 * a)| ≤ 1 := by
    rw [abs_mul]
    exact mul_le_one₀ (Real.abs_sin_le_one _) (abs_nonneg _) (Real.abs_sin_le_one _)
  obtain ⟨h1, h2⟩ := abs_le.1 h
  constructor <;> (norm_num; nlinarith)

/-- **C69** `sin_one` takes values in `[0, 1]`, and the value 0 is attained (so the documented optimum `0.0429…` is not a
minimum over all reals). -/
theorem C69_sin_one :
    (∀ (a : ℝ) (rest : List ℝ), ∃ v, sinOne (a :: rest) = .ok v ∧
      v = (1 + Real.sin (13 * a) * Real.sin (27 * a)) / 2 ∧ 0 ≤ v ∧ v ≤ 1) ∧
    ∃ a : ℝ, sinOne [a] = .ok 0 := by
  constructor
  · intro a rest
    exact ⟨_, rfl, by norm_num; ring, (sin_prod_range a).1, (sin_prod_range a).2⟩
  · refine ⟨(Real.pi / 2 + (120 : ℤ) * (2 * Real.pi)) / 13, ?_⟩
    have h1 : 13 * ((Real.pi / 2 + (120 : ℤ) * (2 * Real.pi)) / 13) = Real.pi / 2 + (120 : ℤ) * (2 * Real.pi) := by ring
    have h2 : 27 * ((Real.pi / 2 + (120 : ℤ) * (2 * Real.pi)) / 13) = -(Real.pi / 2) + (250 : ℤ) * (2 * Real.pi) := by
      push_cast; ring
    have h3 : Real.sin (Real.pi / 2 + (120 : ℤ) * (2 * Real.pi)) = 1 := by
      rw [Real.sin_add_int_mul_two_pi, Real.sin_pi_div_two]
    have h4 : Real.sin (-(Real.pi / 2) + (250 : ℤ) * (2 * Real.pi)) = -1 := by
      rw [Real.sin_add_int_mul_two_pi, Real.sin_neg, Real.sin_pi_div_two]
    show Except.ok _ = _
    rw [h1, h2, h3, h4]
    norm_num

/-- **C69** `sin_two` is the product of `sin_one` of its coordinates, and takes values in `[0, 1]`. -/
theorem C69_sin_two (a b : ℝ) (rest : List ℝ) :
    ∃ u v, sinOne [a] = .ok u ∧ sinOne [b] = .ok v ∧ sinTwo (a :: b :: rest) = .ok (u * v) ∧ 0 ≤ u * v ∧ u * v ≤ 1 := by
  refine ⟨_, _, rfl, rfl, rfl, mul_nonneg (sin_prod_range a).1 (sin_prod_range b).1, ?_⟩
  exact mul_le_one₀ (sin_prod_range a).2 (sin_prod_range b).1 (sin_prod_range b).2

theorem npSinc_le (t : ℝ) : npSinc t ≤ 1 ∧ (npSinc t = 1 ↔ t = 0) := by
  unfold npSinc
  by_cases h : t = 0
  · simp [h]
  · simp only [h, if_false, iff_false]
    have hp : Real.pi * t ≠ 0 := mul_ne_zero Real.pi_ne_zero h
    have key : Real.sin (Real.pi * t) / (Real.pi * t) < 1 := by
      rcases lt_or_gt_of_ne hp with hneg | hpos
      · have : Real.pi * t < Real.sin (Real.pi * t) := by
          have := Real.sin_lt (show 0 < -(Real.pi * t) by linarith)
          rw [Real.sin_neg] at this
          linarith
        rw [div_lt_one_of_neg hneg]
        exact this
      · rw [div_lt_one hpos]
        exact Real.sin_lt hpos
    exact ⟨key.le, key.ne⟩

/-- **C69** `sinc` returns one value per row; it is at most the number of coordinates, with equality exactly if all
coordinates of the row are `0.5`. -/
theorem C69_sinc (x : List (List ℝ)) :
    (sinc x).length = x.length ∧
    ∀ (i : Nat) (row : List ℝ), x[i]? = some row → ∃ v, (sinc x)[i]? = some v ∧ v ≤ row.length ∧
      (v = row.length ↔ ∀ a ∈ row, a = 0.5) := by
  refine ⟨by simp [sinc], fun i row hi => ⟨_, by simp only [sinc, List.getElem?_map, hi]; rfl, ?_⟩⟩
  clear hi
  induction row with
  | nil => simp
  | cons a as ih =>
    obtain ⟨ih1, ih2⟩ := ih
    obtain ⟨h1, h2⟩ := npSinc_le (a * 10 - 5)
    have h3 : a * 10 - 5 = 0 ↔ a = 0.5 := by constructor <;> intro h <;> norm_num at h ⊢ <;> linarith
    simp only [List.map_cons, List.sum_cons, List.length_cons, List.mem_cons, forall_eq_or_imp]
    push_cast
    constructor
    · linarith
    · rw [← ih2, ← h3, ← h2]
      constructor
      · intro h; constructor <;> linarith
      · rintro ⟨h, h'⟩; linarith

/-! ## C76 Branin -/

/-- **C76** `branin` is at least `10 / (8π)` everywhere, and attains this value exactly at the points
`((2k+1)π, 5.1(2k+1)²/4 - 5(2k+1) + 6)`. -/
theorem C76_branin (a b : ℝ) (rest : List ℝ) :
    ∃ v, branin (a :: b :: rest) = .ok v ∧ 10 / (8 * Real.pi) ≤ v ∧
      (v = 10 / (8 * Real.pi) ↔ ∃ k : ℤ, a = (2 * k + 1) * Real.pi ∧ b = 5.1 * (2 * k + 1) ^ 2 / 4 - 5 * (2 * k + 1) + 6) := by
  refine ⟨_, rfl, ?_⟩
  have hpi := Real.pi_pos
  have hpi3 := Real.pi_gt_three
  have hc := Real.neg_one_le_cos a
  have hcoef : 0 < 10 * (1 - 1 / (8 * Real.pi)) := by
    have : 1 / (8 * Real.pi) < 1 := by rw [div_lt_one (by positivity)]; linarith
    linarith
  set q := (b - 5.1 / (4 * Real.pi ^ 2) * a ^ 2 + 5 * a / Real.pi - 6) with hq
  have hv : q ^ 2 + (10 * (1 - 1 / (8 * Real.pi)) * Real.cos a + 10) =
      10 / (8 * Real.pi) + (q ^ 2 + 10 * (1 - 1 / (8 * Real.pi)) * (1 + Real.cos a)) := by ring
  rw [hv]
  have h0 : 0 ≤ 10 * (1 - 1 / (8 * Real.pi)) * (1 + Real.cos a) := mul_nonneg hcoef.le (by linarith)
  have h1 : 0 ≤ q ^ 2 := sq_nonneg _
  constructor
  · linarith
  · constructor
    · intro h
      have hq0 : q = 0 := pow_eq_zero_iff two_ne_zero |>.1 (by linarith : q ^ 2 = 0)
      have hcos : Real.cos a = -1 := by
        have : 10 * (1 - 1 / (8 * Real.pi)) * (1 + Real.cos a) = 0 := by linarith
        have := (mul_eq_zero.1 this).resolve_left hcoef.ne'
        linarith
      obtain ⟨k, hk⟩ := Real.cos_eq_neg_one_iff.1 hcos
      have ha : a = (2 * k + 1) * Real.pi := by rw [← hk]; ring
      refine ⟨k, ha, ?_⟩
      rw [hq, ha] at hq0
      have e1 : 5.1 / (4 * Real.pi ^ 2) * ((2 * (k : ℝ) + 1) * Real.pi) ^ 2 = 5.1 * (2 * k + 1) ^ 2 / 4 := by
        field_simp
      have e2 : 5 * ((2 * (k : ℝ) + 1) * Real.pi) / Real.pi = 5 * (2 * k + 1) := by field_simp
      rw [e1, e2] at hq0
      linarith
    · rintro ⟨k, rfl, hb⟩
      have e1 : 5.1 / (4 * Real.pi ^ 2) * ((2 * (k : ℝ) + 1) * Real.pi) ^ 2 = 5.1 * (2 * k + 1) ^ 2 / 4 := by
        field_simp
      have e2 : 5 * ((2 * (k : ℝ) + 1) * Real.pi) / Real.pi = 5 * (2 * k + 1) := by field_simp
      have hcos : Real.cos ((2 * k + 1) * Real.pi) = -1 := Real.cos_eq_neg_one_iff.2 ⟨k, by ring⟩
      rw [hcos, hq, e1, e2, hb]
      ring

/-- **C76** The three documented optima `(-π, 12.275)`, `(π, 2.275)` and `(3π, 2.475)` are among them. -/
theorem C76_branin_documented :
    branin [-Real.pi, 12.275] = .ok (10 / (8 * Real.pi)) ∧ branin [Real.pi, 2.275] = .ok (10 / (8 * Real.pi)) ∧
    branin [3 * Real.pi, 2.475] = .ok (10 / (8 * Real.pi)) := by
  refine ⟨?_, ?_, ?_⟩
  · obtain ⟨v, h1, -, h2⟩ := C76_branin (-Real.pi) 12.275 []
    rw [h1, h2.2 ⟨-1, by push_cast; ring, by norm_num⟩]
  · obtain ⟨v, h1, -, h2⟩ := C76_branin Real.pi 2.275 []
    rw [h1, h2.2 ⟨0, by push_cast; ring, by norm_num⟩]
  · obtain ⟨v, h1, -, h2⟩ := C76_branin (3 * Real.pi) 2.475 []
    rw [h1, h2.2 ⟨1, by push_cast; ring, by norm_num⟩]

/-! ## C77 Six-hump camelback -/

theorem camel_w (w : ℝ) (hw : 0 ≤ w) :
    0 ≤ 4 * w ^ 4 - 4 * w ^ 2 - 0.0898 * w + 1.0637485 - 2 * (w - 0.7126) ^ 2 := by
  norm_num
  nlinarith [mul_nonneg hw (sq_nonneg (w - 0.7126)), sq_nonneg (w - 0.7126), sq_nonneg (w * (w - 0.7126))]

theorem camel_x (x : ℝ) (hx : 0 ≤ x) :
    0 ≤ 4 * x ^ 2 - 2.1 * x ^ 4 + x ^ 6 / 3 - 0.7126 * (x - 0.0898) - (x - 0.0898) ^ 2 / 8 - 1.0637485 + 1.03163 := by
  norm_num
  nlinarith [sq_nonneg ((x ^ 2 - 3) * (x - 0.0898)), mul_nonneg hx (sq_nonneg ((x - 1.7) * (x - 0.0898))),
    sq_nonneg ((x - 2.4) * (x - 0.0898)), sq_nonneg (x - 0.0898)]

/-- **C77** `camelback` is above `-1.03163` everywhere and below `-1.03162` at the two documented optima: these are
global minima up to `1e-5`. -/
theorem C77_camelback :
    (∀ (a b : ℝ) (rest : List ℝ), ∃ v, camelback (a :: b :: rest) = .ok v ∧ -1.03163 ≤ v) ∧
    ∃ v, camelback [0.0898, -0.7126] = .ok v ∧ camelback [-0.0898, 0.7126] = .ok v ∧ v ≤ -1.03162 := by
  constructor
  · intro a b rest
    refine ⟨_, rfl, ?_⟩
    have hab : -(|a| * |b|) ≤ a * b := by rw [← abs_mul]; exact neg_abs_le _
    have h1 := camel_w |b| (abs_nonneg b)
    have h2 := camel_x |a| (abs_nonneg a)
    have ea2 : |a| ^ 2 = a ^ 2 := sq_abs a
    have ea4 : |a| ^ 4 = a ^ 4 := by rw [show |a| ^ 4 = (|a| ^ 2) ^ 2 by ring, ea2]; ring
    have ea6 : |a| ^ 6 = a ^ 6 := by rw [show |a| ^ 6 = (|a| ^ 2) ^ 3 by ring, ea2]; ring
    have eb2 : |b| ^ 2 = b ^ 2 := sq_abs b
    have eb4 : |b| ^ 4 = b ^ 4 := by rw [show |b| ^ 4 = (|b| ^ 2) ^ 2 by ring, eb2]; ring
    rw [ea4, ea6, ea2] at h2
    rw [eb4, eb2] at h1
    have h3 : 0 ≤ 2 * (|b| - 0.7126) ^ 2 + (|a| - 0.0898) ^ 2 / 8 - (|a| - 0.0898) * (|b| - 0.7126) := by
      have : 2 * (|b| - 0.7126) ^ 2 + (|a| - 0.0898) ^ 2 / 8 - (|a| - 0.0898) * (|b| - 0.7126) =
          2 * ((|b| - 0.7126) - (|a| - 0.0898) / 4) ^ 2 := by ring
      rw [this]; positivity
    have e : (4 - 2.1 * a ^ 2 + a ^ 4 / 3) * a ^ 2 + a * b + (-4 + 4 * b ^ 2) * b ^ 2 =
        (4 * a ^ 2 - 2.1 * a ^ 4 + a ^ 6 / 3) + (4 * b ^ 4 - 4 * b ^ 2) + a * b := by ring
    rw [e]
    have e3 : (|a| - 0.0898) * (|b| - 0.7126) = |a| * |b| - 0.7126 * (|a| - 0.0898) - 0.0898 * |b| := by ring
    rw [e3] at h3
    linarith
  · refine ⟨_, rfl, ?_, ?_⟩
    · show Except.ok _ = Except.ok _
      congr 1
      norm_num
    · norm_num

/-! ## C78 Hartmann functions -/

theorem hartmann_value (x alpha : List ℝ) (A P : List (List ℝ)) (hA : ∀ a ∈ A, a.length ≤ x.length)
    (hP : ∀ r ∈ A.zip P, r.1.length ≤ r.2.length) :
    hartmann x alpha A P = .ok (-((alpha.zip (A.zip P)).map fun r =>
      r.1 * Real.exp (-(List.zipWith (fun (v : ℝ) (q : ℝ × ℝ) => q.1 * (v - 0.0001 * q.2) ^ 2) x (r.2.1.zip r.2.2)).sum)).sum) := by
  have hfold : ∀ (a p : List ℝ), a.length ≤ x.length → a.length ≤ p.length → ∀ n ≤ a.length,
      (List.range n).foldlM (m := Except PyErr) (fun acc j => do
        let xj ← item x j
        let aj ← item a j
        let pj ← item p j
        .ok (acc + aj * (xj - 0.0001 * pj) ^ 2)) 0 =
      .ok ((List.zipWith (fun (v : ℝ) (q : ℝ × ℝ) => q.1 * (v - 0.0001 * q.2) ^ 2) x (a.zip p)).take n).sum := by
    intro a p hax hap n
    induction n with
    | zero => intro _; simp [pure, Except.pure]
    | succ n ih =>
      intro hn
      have hx : n < x.length := by omega
      have ha : n < a.length := by omega
      have hp : n < p.length := by omega
      have hl : n < (List.zipWith (fun (v : ℝ) (q : ℝ × ℝ) => q.1 * (v - 0.0001 * q.2) ^ 2) x (a.zip p)).length := by
        simp; omega
      rw [List.range_succ, List.foldlM_append, ih (by omega), ← List.take_concat_get' _ n hl]
      simp [item, List.getElem?_eq_getElem hx, List.getElem?_eq_getElem ha, List.getElem?_eq_getElem hp, bind, Except.bind,
        pure, Except.pure]
  have hinner : ∀ (a p : List ℝ), a.length ≤ x.length → a.length ≤ p.length →
      (List.range a.length).foldlM (m := Except PyErr) (fun acc j => do
        let xj ← item x j
        let aj ← item a j
        let pj ← item p j
        .ok (acc + aj * (xj - 0.0001 * pj) ^ 2)) 0 =
      .ok (List.zipWith (fun (v : ℝ) (q : ℝ × ℝ) => q.1 * (v - 0.0001 * q.2) ^ 2) x (a.zip p)).sum := by
    intro a p hax hap
    rw [hfold a p hax hap a.length le_rfl, List.take_of_length_le (by simp)]
  have houter : ∀ (l : List (ℝ × List ℝ × List ℝ)), (∀ r ∈ l, r.2.1.length ≤ x.length ∧ r.2.1.length ≤ r.2.2.length) →
      ∀ acc : ℝ, l.foldlM (m := Except PyErr) (fun acc r => do
        let i ← (List.range r.2.1.length).foldlM (m := Except PyErr) (fun acc j => do
          let xj ← item x j
          let aj ← item r.2.1 j
          let pj ← item r.2.2 j
          .ok (acc + aj * (xj - 0.0001 * pj) ^ 2)) 0
        .ok (acc + r.1 * Real.exp (-i))) acc =
      .ok (acc + (l.map fun r =>
        r.1 * Real.exp (-(List.zipWith (fun (v : ℝ) (q : ℝ × ℝ) => q.1 * (v - 0.0001 * q.2) ^ 2) x (r.2.1.zip r.2.2)).sum)).sum) := by
    intro l
    induction l with
    | nil => intro _ acc; simp [pure, Except.pure]
    | cons r rs ih =>
      intro h acc
      obtain ⟨h1, h2⟩ := h r (by simp)
      rw [List.foldlM_cons, hinner _ _ h1 h2]
      simp only [bind, Except.bind]
      have := ih (fun r hr => h r (List.mem_cons_of_mem _ hr))
      simp only [bind, Except.bind] at this
      rw [this]
      simp [add_assoc]
  unfold hartmann
  simp only
  rw [houter]
  · simp [bind, Except.bind]
  · intro r hr
    have hz := (List.of_mem_zip (a := r.1) (b := r.2) hr).2
    exact ⟨hA _ (List.of_mem_zip (a := r.2.1) (b := r.2.2) hz).1, hP _ hz⟩

/-- The Hartmann function with given coefficients, `P` in units of `0.0001`. -/
noncomputable def hartmannSpec (x alpha : List ℝ) (A P : List (List ℝ)) : ℝ :=
  -((alpha.zip (A.zip P)).map fun r =>
      r.1 * Real.exp (-(List.zipWith (fun (v : ℝ) (q : ℝ × ℝ) => q.1 * (v - 0.0001 * q.2) ^ 2) x (r.2.1.zip r.2.2)).sum)).sum

theorem zipWith_sq_nonneg (x : List ℝ) (q : List (ℝ × ℝ)) (h : ∀ r ∈ q, 0 ≤ r.1) :
    0 ≤ (List.zipWith (fun (v : ℝ) (q : ℝ × ℝ) => q.1 * (v - 0.0001 * q.2) ^ 2) x q).sum := by
  induction x generalizing q with
  | nil => simp
  | cons a as ih =>
    cases q with
    | nil => simp
    | cons r rs =>
      simp only [List.zipWith_cons_cons, List.sum_cons]
      have h1 := h r (by simp)
      have h2 := ih rs (fun r' hr' => h r' (List.mem_cons_of_mem _ hr'))
      positivity

theorem hartmannSpec_range (x : List ℝ) (a1 a2 a3 a4 : ℝ) (A1 A2 A3 A4 P1 P2 P3 P4 : List ℝ) (h1 : 0 < a1) (h2 : 0 < a2)
    (h3 : 0 < a3) (h4 : 0 < a4) (hA : ∀ a ∈ [A1, A2, A3, A4], ∀ v ∈ a, 0 ≤ v) :
    -(a1 + a2 + a3 + a4) ≤ hartmannSpec x [a1, a2, a3, a4] [A1, A2, A3, A4] [P1, P2, P3, P4] ∧
    hartmannSpec x [a1, a2, a3, a4] [A1, A2, A3, A4] [P1, P2, P3, P4] < 0 := by
  have key : ∀ A ∈ [A1, A2, A3, A4], ∀ P : List ℝ,
      Real.exp (-(List.zipWith (fun (v : ℝ) (q : ℝ × ℝ) => q.1 * (v - 0.0001 * q.2) ^ 2) x (A.zip P)).sum) ≤ 1 := by
    intro A hAm P
    rw [Real.exp_le_one_iff]
    have := zipWith_sq_nonneg x (A.zip P) (fun r hr => hA A hAm r.1 (List.of_mem_zip (a := r.1) (b := r.2) hr).1)
    linarith
  have k1 := key A1 (by simp) P1
  have k2 := key A2 (by simp) P2
  have k3 := key A3 (by simp) P3
  have k4 := key A4 (by simp) P4
  simp only [hartmannSpec, List.zip_cons_cons, List.zip_nil_right, List.map_cons, List.map_nil, List.sum_cons, List.sum_nil, add_zero]
  have e1 := Real.exp_pos (-(List.zipWith (fun (v : ℝ) (q : ℝ × ℝ) => q.1 * (v - 0.0001 * q.2) ^ 2) x (A1.zip P1)).sum)
  have e2 := Real.exp_pos (-(List.zipWith (fun (v : ℝ) (q : ℝ × ℝ) => q.1 * (v - 0.0001 * q.2) ^ 2) x (A2.zip P2)).sum)
  have e3 := Real.exp_pos (-(List.zipWith (fun (v : ℝ) (q : ℝ × ℝ) => q.1 * (v - 0.0001 * q.2) ^ 2) x (A3.zip P3)).sum)
  have e4 := Real.exp_pos (-(List.zipWith (fun (v : ℝ) (q : ℝ × ℝ) => q.1 * (v - 0.0001 * q.2) ^ 2) x (A4.zip P4)).sum)
  generalize Real.exp _ = E1 at *
  generalize Real.exp _ = E2 at *
  generalize Real.exp _ = E3 at *
  generalize Real.exp _ = E4 at *
  constructor
  · nlinarith
  · have := mul_pos h1 e1
    have := mul_pos h2 e2
    have := mul_pos h3 e3
    have := mul_pos h4 e4
    linarith

/-- **C78** `hartmann3` is defined at every point with three or more coordinates, where it is the three-dimensional Hartmann
function of the literature, with values in `[-8.4, 0)`. -/
theorem C78_hartmann3 (a b c : ℝ) (rest : List ℝ) :
    ∃ v, hartmann3 (a :: b :: c :: rest) = .ok v ∧
      v = -(
        1 * Real.exp (-(3 * (a - 0.3689) ^ 2 + 10 * (b - 0.1170) ^ 2 + 30 * (c - 0.2673) ^ 2)) +
        1.2 * Real.exp (-(0.1 * (a - 0.4699) ^ 2 + 10 * (b - 0.4387) ^ 2 + 35 * (c - 0.7470) ^ 2)) +
        3 * Real.exp (-(3 * (a - 0.1090) ^ 2 + 10 * (b - 0.8732) ^ 2 + 30 * (c - 0.5547) ^ 2)) +
        3.2 * Real.exp (-(0.1 * (a - 0.0381) ^ 2 + 10 * (b - 0.5743) ^ 2 + 35 * (c - 0.8828) ^ 2))) ∧
      -8.4 ≤ v ∧ v < 0 := by
  have h := hartmannSpec_range (a :: b :: c :: rest) 1.0 1.2 3.0 3.2
    [3.0, 10.0, 30.0] [0.1, 10.0, 35.0] [3.0, 10.0, 30.0] [0.1, 10.0, 35.0]
    [3689, 1170, 2673] [4699, 4387, 7470] [1090, 8732, 5547] [381, 5743, 8828]
    (by norm_num) (by norm_num) (by norm_num) (by norm_num) (by
      simp only [List.mem_cons, List.not_mem_nil, or_false, forall_eq_or_imp, forall_eq]
      norm_num)
  refine ⟨_, hartmann_value _ _ _ _ (by simp) (by simp), ?_, le_trans (by norm_num) h.1, h.2⟩
  simp only [List.zip_cons_cons, List.zip_nil_right, List.zipWith_cons_cons, List.zipWith_nil_right, List.map_cons, List.map_nil,
    List.sum_cons, List.sum_nil, add_zero]
  norm_num [add_assoc]

/-- **C78** `hartmann6` is defined at every point with six or more coordinates, where it is the six-dimensional Hartmann
function of the literature, with values in `[-8.4, 0)`. -/
theorem C78_hartmann6 (a b c d e f : ℝ) (rest : List ℝ) :
    ∃ v, hartmann6 (a :: b :: c :: d :: e :: f :: rest) = .ok v ∧
      v = -(
        1 * Real.exp (-(10 * (a - 0.1312) ^ 2 + 3 * (b - 0.1696) ^ 2 + 17 * (c - 0.5569) ^ 2 + 3.5 * (d - 0.0124) ^ 2 + 1.7 * (e - 0.8283) ^ 2 + 8 * (f - 0.5886) ^ 2)) +
        1.2 * Real.exp (-(0.05 * (a - 0.2329) ^ 2 + 10 * (b - 0.4135) ^ 2 + 17 * (c - 0.8307) ^ 2 + 0.1 * (d - 0.3736) ^ 2 + 8 * (e - 0.1004) ^ 2 + 14 * (f - 0.9991) ^ 2)) +
        3 * Real.exp (-(3 * (a - 0.2348) ^ 2 + 3.5 * (b - 0.1451) ^ 2 + 1.7 * (c - 0.3522) ^ 2 + 10 * (d - 0.2883) ^ 2 + 17 * (e - 0.3047) ^ 2 + 8 * (f - 0.6650) ^ 2)) +
        3.2 * Real.exp (-(17 * (a - 0.4047) ^ 2 + 8 * (b - 0.8828) ^ 2 + 0.05 * (c - 0.8732) ^ 2 + 10 * (d - 0.5743) ^ 2 + 0.1 * (e - 0.1091) ^ 2 + 14 * (f - 0.0381) ^ 2))) ∧
      -8.4 ≤ v ∧ v < 0 := by
  have h := hartmannSpec_range (a :: b :: c :: d :: e :: f :: rest) 1.00 1.20 3.00 3.20
    [10.00, 3.00, 17.00, 3.50, 1.70, 8.00] [0.05, 10.00, 17.00, 0.10, 8.00, 14.00]
    [3.00, 3.50, 1.70, 10.00, 17.00, 8.00] [17.00, 8.00, 0.05, 10.00, 0.10, 14.00]
    [1312, 1696, 5569, 124, 8283, 5886] [2329, 4135, 8307, 3736, 1004, 9991] [2348, 1451, 3522, 2883, 3047, 6650] [4047, 8828, 8732, 5743, 1091, 381]
    (by norm_num) (by norm_num) (by norm_num) (by norm_num) (by
      simp only [List.mem_cons, List.not_mem_nil, or_false, forall_eq_or_imp, forall_eq]
      norm_num)
  refine ⟨_, hartmann_value _ _ _ _ (by simp) (by simp), ?_, le_trans (by norm_num) h.1, h.2⟩
  simp only [List.zip_cons_cons, List.zip_nil_right, List.zipWith_cons_cons, List.zipWith_nil_right, List.map_cons, List.map_nil,
    List.sum_cons, List.sum_nil, add_zero]
  norm_num [add_assoc]

/-- **C78** Points with too few coordinates are rejected with `IndexError`. -/
theorem C78_short (x : List ℝ) :
    (x.length < 3 → hartmann3 x = .error .index) ∧ (x.length < 6 → hartmann6 x = .error .index) := by
  constructor <;> intro h
  · match x, h with
    | [], _ | [_], _ | [_, _], _ => simp [hartmann3, hartmann, item, List.range_succ, bind, Except.bind]
  · match x, h with
    | [], _ | [_], _ | [_, _], _ | [_, _, _], _ | [_, _, _, _], _ | [_, _, _, _, _], _ =>
      simp [hartmann6, hartmann, item, List.range_succ, bind, Except.bind]

/-! ## C70 Gaussian mixtures -/

/-- One component of a mixture. -/
structure Component where
  weight : ℝ
  mean : ℝ
  variance : ℝ

/-- Nonnegative weight, positive variance. -/
def Component.Valid (c : Component) : Prop := 0 ≤ c.weight ∧ 0 < c.variance

/-- The density of a mixture of Gaussians. -/
noncomputable def mixtureDensity (cs : List Component) (x : ℝ) : ℝ :=
  (cs.map fun c => c.weight * ProbabilityTheory.gaussianPDFReal c.mean c.variance.toNNReal x).sum

theorem shifted_eq (ps : List ℝ) (h : ∀ p ∈ ps, 0 ≤ p) (m : ℝ) :
    shiftedLogsumexp (ps.map fun p => Fl.log (.fin p)) (.fin m) = Fl.log (.fin ps.sum) := by
  have h1 : (ps.map fun p => Fl.log (.fin p)).map (fun t => Fl.exp (t - .fin m)) = (ps.map fun p => p * Real.exp (-m)).map Fl.fin := by
    rw [List.map_map, List.map_map]
    apply List.map_congr_left
    intro p hp
    rcases (h p hp).lt_or_eq with hp' | hp'
    · simp only [Function.comp_apply, Fl.log_fin hp', Fl.sub_fin, Fl.exp_fin]
      rw [Real.exp_sub, Real.exp_log hp', Real.exp_neg]; rfl
    · subst hp'
      simp only [Function.comp_apply, zero_mul]
      have : Fl.log (.fin 0) = .ninf := by simp [Fl.log]
      rw [this]; rfl
  have h2 : (ps.map fun p => p * Real.exp (-m)).sum = ps.sum * Real.exp (-m) := by
    simpa using List.sum_map_mul_right ps id (Real.exp (-m))
  have hs : 0 ≤ ps.sum := List.sum_nonneg h
  have h3 : Fl.sum ((ps.map fun p => p * Real.exp (-m)).map Fl.fin) = .fin (ps.sum * Real.exp (-m)) := by
    rw [← h2, Fl.sum_map_fin]
  unfold shiftedLogsumexp
  rw [h1, h3]
  rcases hs.lt_or_eq with hs | hs
  · rw [Fl.log_fin (mul_pos hs (Real.exp_pos _)), Fl.log_fin hs, Real.log_mul hs.ne' (Real.exp_pos _).ne', Real.log_exp]
    simp
  · rw [← hs, zero_mul]
    have : Fl.log (.fin 0) = .ninf := by simp [Fl.log]
    rw [this]; rfl

theorem logsumexp_eq (ps : List ℝ) (h : ∀ p ∈ ps, 0 ≤ p) (hne : ps ≠ []) :
    logsumexp (ps.map fun p => Fl.log (.fin p)) = .ok (Fl.log (.fin ps.sum)) := by
  unfold logsumexp
  cases ps with
  | nil => exact absurd rfl hne
  | cons p ps =>
    have h0 := shifted_eq _ h 0
    split
    · rename_i hm; simp [Fl.listMax] at hm
    · rename_i m _; rw [shifted_eq _ h m]
    · rw [← h0]; simp

theorem reduceLogsumexp_eq (ps : List ℝ) (h : ∀ p ∈ ps, 0 ≤ p) :
    reduceLogsumexp (ps.map fun p => Fl.log (.fin p)) = Fl.log (.fin ps.sum) := by
  unfold reduceLogsumexp
  have h0 := shifted_eq _ h 0
  split
  · rename_i m _; rw [shifted_eq _ h m]
  · rw [← h0]; simp

theorem term_eq (c : Component) (h : c.Valid) (x : ℝ) :
    Fl.log (.fin c.weight) + normldf x c.mean c.variance =
      Fl.log (.fin (c.weight * ProbabilityTheory.gaussianPDFReal c.mean c.variance.toNNReal x)) := by
  obtain ⟨hw, hv⟩ := h
  have hpdf : 0 < ProbabilityTheory.gaussianPDFReal c.mean c.variance.toNNReal x :=
    ProbabilityTheory.gaussianPDFReal_pos _ _ _ (by simpa using hv)
  have hpi : 0 < 2 * Real.pi * c.variance := by positivity
  have hn : normldf x c.mean c.variance = .fin (Real.log (ProbabilityTheory.gaussianPDFReal c.mean c.variance.toNNReal x)) := by
    unfold normldf
    rw [Fl.log_fin hpi, Fl.mul_fin, Fl.div_fin hv.ne', Fl.sub_fin]
    congr 1
    unfold ProbabilityTheory.gaussianPDFReal
    rw [Real.coe_toNNReal _ hv.le, Real.log_mul (by positivity) (Real.exp_pos _).ne', Real.log_exp, Real.log_inv,
      Real.log_sqrt hpi.le]
    field_simp
    ring
  rw [hn]
  rcases hw.lt_or_eq with hw | hw
  · rw [Fl.log_fin hw, Fl.log_fin (mul_pos hw hpdf), Fl.add_fin, Real.log_mul hw.ne' hpdf.ne']
  · rw [← hw, zero_mul]
    have : Fl.log (.fin 0) = .ninf := by simp [Fl.log]
    rw [this]; rfl

theorem terms_eq (cs : List Component) (h : ∀ c ∈ cs, c.Valid) (x : ℝ) :
    List.zipWith (fun w (p : ℝ × ℝ) => Fl.log (.fin w) + normldf x p.1 p.2) (cs.map (·.weight))
      ((cs.map (·.mean)).zip (cs.map (·.variance))) =
    (cs.map fun c => c.weight * ProbabilityTheory.gaussianPDFReal c.mean c.variance.toNNReal x).map (fun p => Fl.log (.fin p)) := by
  induction cs with
  | nil => rfl
  | cons c cs ih =>
    simp only [List.map_cons, List.zip_cons_cons, List.zipWith_cons_cons]
    rw [term_eq c (h c (by simp)) x, ih fun c hc => h c (List.mem_cons_of_mem _ hc)]

theorem mixture_terms_nonneg (cs : List Component) (h : ∀ c ∈ cs, c.Valid) (x : ℝ) :
    ∀ p ∈ cs.map (fun c => c.weight * ProbabilityTheory.gaussianPDFReal c.mean c.variance.toNNReal x), 0 ≤ p := by
  intro p hp
  obtain ⟨c, hc, rfl⟩ := List.mem_map.1 hp
  exact mul_nonneg (h c hc).1 (ProbabilityTheory.gaussianPDFReal_nonneg _ _ _)

/-- **C70** For every mixture with nonnegative weights and positive variances, the log likelihood at a number, a one-element
sequence of a number, or a one-element sequence of a variable is the logarithm of the mixture density (`-∞` where that is zero). -/
theorem C70_density (cs : List Component) (h : ∀ c ∈ cs, c.Valid) (x : ℝ) (arg : MixArg)
    (harg : (cs ≠ [] ∧ (arg = .scalar (.number x) ∨ arg = .seq [.number x])) ∨ arg = .seq [.variable x]) :
    gmmLogLikelihood arg (cs.map (·.mean)) (cs.map (·.variance)) (cs.map (·.weight)) = .ok (Fl.log (.fin (mixtureDensity cs x))) := by
  have ht := terms_eq cs h x
  have hn := mixture_terms_nonneg cs h x
  have hl := reduceLogsumexp_eq _ hn
  unfold gmmLogLikelihood
  rw [if_neg (by simp)]
  rcases harg with ⟨hne, rfl | rfl⟩ | rfl
  · have hs := logsumexp_eq _ hn (by simpa using hne)
    simp only [unpack, bind, Except.bind, Scalar.value, ht]
    exact hs
  · have hs := logsumexp_eq _ hn (by simpa using hne)
    simp only [unpack, bind, Except.bind, Scalar.value, ht]
    exact hs
  · simp only [unpack, bind, Except.bind, Scalar.value, ht]
    exact congrArg _ hl

/-- **C70** The mixture density integrates to the sum of the weights: to one, for weights that sum to one. -/
theorem C70_integral (cs : List Component) (h : ∀ c ∈ cs, c.Valid) :
    MeasureTheory.Integrable (mixtureDensity cs) ∧ ∫ x, mixtureDensity cs x = (cs.map (·.weight)).sum := by
  induction cs with
  | nil => simp [mixtureDensity]; exact MeasureTheory.integrable_zero _ _ _
  | cons c cs ih =>
    obtain ⟨i1, i2⟩ := ih fun c hc => h c (List.mem_cons_of_mem _ hc)
    have hv := (h c (by simp)).2
    have g1 : MeasureTheory.Integrable fun x => c.weight * ProbabilityTheory.gaussianPDFReal c.mean c.variance.toNNReal x :=
      (ProbabilityTheory.integrable_gaussianPDFReal _ _).const_mul _
    have e : mixtureDensity (c :: cs) =
        fun x => c.weight * ProbabilityTheory.gaussianPDFReal c.mean c.variance.toNNReal x + mixtureDensity cs x := by
      funext x; simp [mixtureDensity]
    rw [e]
    refine ⟨g1.add i1, ?_⟩
    rw [MeasureTheory.integral_add g1 i1, i2, MeasureTheory.integral_const_mul,
      ProbabilityTheory.integral_gaussianPDFReal_eq_one _ (by simpa using hv)]
    simp

/-- The arguments `f(x)`, `f([x])`, `f([tf.Variable(x)])`. -/
def scalarArgs (x : ℝ) : List MixArg := [.scalar (.number x), .seq [.number x], .seq [.variable x]]

/-- The three components of `gmm1`, `gmm2` and `gmm3`: means -5, 0, 5, equal weights, outer variance `v`, inner variance `w`. -/
noncomputable def threeModes (v w : ℝ) : List Component := [⟨1/3, -5, v⟩, ⟨1/3, 0, w⟩, ⟨1/3, 5, v⟩]

theorem threeModes_valid {v w : ℝ} (hv : 0 < v) (hw : 0 < w) : ∀ c ∈ threeModes v w, c.Valid := by
  intro c hc
  simp only [threeModes, List.mem_cons, List.not_mem_nil, or_false] at hc
  rcases hc with rfl | rfl | rfl <;> exact ⟨by norm_num, by assumption⟩

theorem threeModes_pos {v w : ℝ} (hv : 0 < v) (hw : 0 < w) (x : ℝ) : 0 < mixtureDensity (threeModes v w) x := by
  have h1 := ProbabilityTheory.gaussianPDFReal_pos (-5) v.toNNReal x (by simpa using hv)
  have h2 := ProbabilityTheory.gaussianPDFReal_pos 0 w.toNNReal x (by simpa using hw)
  have h3 := ProbabilityTheory.gaussianPDFReal_pos 5 v.toNNReal x (by simpa using hv)
  simp only [mixtureDensity, threeModes, List.map_cons, List.map_nil, List.sum_cons, List.sum_nil]
  positivity

theorem threeModes_even (v w x : ℝ) : mixtureDensity (threeModes v w) (-x) = mixtureDensity (threeModes v w) x := by
  simp only [mixtureDensity, threeModes, List.map_cons, List.map_nil, List.sum_cons, List.sum_nil,
    ProbabilityTheory.gaussianPDFReal]
  rw [show (-x - -5) ^ 2 = (x - 5) ^ 2 by ring, show (-x - 5) ^ 2 = (x - -5) ^ 2 by ring, show (-x - 0) ^ 2 = (x - 0) ^ 2 by ring]
  ring

/-- **C70** The three predefined mixtures are everywhere finite log densities of probability distributions that are symmetric
around zero, with equally weighted modes at -5, 0 and 5 and variances `1, 1, 1`, `2, 1/2, 2` and `10/3, 3/10, 10/3`. -/
theorem C70_predefined (f : MixArg → Except PyErr Fl) (v w : ℝ)
    (hf : (f = gmm1LogLikelihood ∧ v = 1 ∧ w = 1) ∨ (f = gmm2LogLikelihood ∧ v = 2 ∧ w = 1/2) ∨
      (f = gmm3LogLikelihood ∧ v = 10/3 ∧ w = 3/10)) :
    ∃ ll : ℝ → ℝ, (∀ x, ∀ a ∈ scalarArgs x, f a = .ok (.fin (ll x))) ∧
      (∀ x, ll x = Real.log (mixtureDensity (threeModes v w) x)) ∧
      (∫ x, Real.exp (ll x) = 1) ∧ ∀ x, ll (-x) = ll x := by
  have hpos : 0 < v ∧ 0 < w := by rcases hf with ⟨_, rfl, rfl⟩ | ⟨_, rfl, rfl⟩ | ⟨_, rfl, rfl⟩ <;> norm_num
  have hval := threeModes_valid hpos.1 hpos.2
  have hfe : ∀ a, f a = gmmLogLikelihood a ((threeModes v w).map (·.mean)) ((threeModes v w).map (·.variance))
      ((threeModes v w).map (·.weight)) := by
    intro a
    rcases hf with ⟨rfl, rfl, rfl⟩ | ⟨rfl, rfl, rfl⟩ | ⟨rfl, rfl, rfl⟩
    · rfl
    · simp only [gmm2LogLikelihood, threeModes, List.map_cons, List.map_nil]; norm_num
    · simp only [gmm3LogLikelihood, threeModes, List.map_cons, List.map_nil]; norm_num
  refine ⟨fun x => Real.log (mixtureDensity (threeModes v w) x), ?_, fun _ => rfl, ?_, fun x => ?_⟩
  · intro x a ha
    rw [hfe, C70_density _ hval x a, Fl.log_fin (threeModes_pos hpos.1 hpos.2 x)]
    simp only [scalarArgs, List.mem_cons, List.not_mem_nil, or_false] at ha
    rcases ha with rfl | rfl | rfl
    · exact .inl ⟨by simp [threeModes], .inl rfl⟩
    · exact .inl ⟨by simp [threeModes], .inr rfl⟩
    · exact .inr rfl
  · simp only [Real.exp_log (threeModes_pos hpos.1 hpos.2 _)]
    rw [(C70_integral _ hval).2]
    simp only [threeModes, List.map_cons, List.map_nil, List.sum_cons, List.sum_nil]
    norm_num
  · simp only [threeModes_even]

/-- **C70** Rejected arguments: parameter sequences of different lengths, and points with a number of coordinates other than
one, raise `AssertionError`; a bare `tf.Variable`, and an empty mixture at a number, are rejected too. -/
theorem C70_rejected :
    (∀ (x : MixArg) (mu var ws : List ℝ), ¬ (mu.length = var.length ∧ mu.length = ws.length) →
      gmmLogLikelihood x mu var ws = .error .assertion) ∧
    (∀ (l : List Scalar) (mu var ws : List ℝ), l.length ≠ 1 → gmmLogLikelihood (.seq l) mu var ws = .error .assertion) ∧
    (∀ (x : ℝ) (mu var ws : List ℝ), mu.length = var.length → mu.length = ws.length →
      gmmLogLikelihood (.scalar (.variable x)) mu var ws = .error .type) ∧
    ∀ x : ℝ, ∃ msg, gmmLogLikelihood (.scalar (.number x)) [] [] [] = .error (.value msg) := by
  refine ⟨?_, ?_, ?_, ?_⟩
  · intro x mu var ws h
    rw [gmmLogLikelihood, if_pos (by intro hc; exact h ⟨hc.1, hc.1.trans hc.2⟩)]
  · intro l mu var ws h
    unfold gmmLogLikelihood
    by_cases hc : mu.length = var.length ∧ var.length = ws.length
    · rw [if_neg (not_not.2 hc)]
      have : unpack (.seq l) = .error .assertion := by
        match l, h with
        | [], _ => rfl
        | [_], h => exact absurd rfl h
        | _ :: _ :: _, _ => rfl
      rw [this]; rfl
    · rw [if_pos hc]
  · intro x mu var ws h1 h2
    rw [gmmLogLikelihood, if_neg (not_not.2 ⟨h1, h1.symm.trans h2⟩)]
    rfl
  · intro x
    exact ⟨"amax", rfl⟩

/-- Both hypotheses of `C70_density` are met by a mixture of two components. -/
example : ∃ cs : List Component, cs.length = 2 ∧ ∀ c ∈ cs, c.Valid :=
  ⟨[⟨0.25, -1, 2⟩, ⟨0.75, 3, 0.5⟩], rfl, by
    intro c hc
    simp only [List.mem_cons, List.not_mem_nil, or_false] at hc
    rcases hc with rfl | rfl <;> constructor <;> norm_num⟩

/-! ## C71 Negated log likelihoods -/

/-- **C71** For every function, argument and state, the negated function returns the negation of what the function returns,
raises what the function (or the negation) raises, has the same side effects, and keeps name and docstring. -/
theorem C71_negated {σ A V : Type} (N : HasNeg V) (f : Fun σ A V) :
    (toNegativeLogLikelihood N f).name = f.name ∧ (toNegativeLogLikelihood N f).doc = f.doc ∧
    ∀ a s, ((toNegativeLogLikelihood N f).call a s).2 = (f.call a s).2 ∧
      (∀ e, (f.call a s).1 = .error e → ((toNegativeLogLikelihood N f).call a s).1 = .error e) ∧
      ∀ v, (f.call a s).1 = .ok v → ((toNegativeLogLikelihood N f).call a s).1 = N.neg v := by
  refine ⟨rfl, rfl, fun a s => ?_⟩
  simp only [toNegativeLogLikelihood]
  rcases f.call a s with ⟨_ | v, s'⟩
  · exact ⟨rfl, fun e h => h, fun v h => by cases h⟩
  · exact ⟨rfl, fun e h => (by cases h), fun w h => (by cases h; rfl)⟩

/-- **C71** Negating twice gives back the function, if negation never fails and is an involution. -/
theorem C71_involutive {σ A V : Type} (N : HasNeg V) (neg : V → V) (h : ∀ v, N.neg v = .ok (neg v)) (hn : ∀ v, neg (neg v) = v)
    (f : Fun σ A V) : toNegativeLogLikelihood N (toNegativeLogLikelihood N f) = f := by
  have : ∀ a s, (toNegativeLogLikelihood N (toNegativeLogLikelihood N f)).call a s = f.call a s := by
    intro a s
    simp only [toNegativeLogLikelihood]
    rcases f.call a s with ⟨_ | v, s'⟩
    · rfl
    · simp only [h, hn]
  cases f
  simp only [toNegativeLogLikelihood] at this ⊢
  congr 1
  funext a s
  exact this a s

/-- **C71** Negation turns maximisers of the log likelihood into minimisers. -/
theorem C71_order {σ A : Type} (f : Fun σ A ℝ) (a b : A) (s : σ) (va vb : ℝ) (ha : (f.call a s).1 = .ok va)
    (hb : (f.call b s).1 = .ok vb) :
    ∃ na nb, ((toNegativeLogLikelihood ⟨fun v => .ok (-v)⟩ f).call a s).1 = .ok na ∧
      ((toNegativeLogLikelihood ⟨fun v => .ok (-v)⟩ f).call b s).1 = .ok nb ∧ (va ≤ vb ↔ nb ≤ na) :=
  ⟨-va, -vb, (C71_negated _ f).2.2 a s |>.2.2 _ ha, (C71_negated _ f).2.2 b s |>.2.2 _ hb, by constructor <;> intro h <;> linarith⟩

/-- The banana log likelihood, negated, is nonnegative with minimum `0` at `(0, 10)`. -/
example : ∀ x y : ℝ, ∃ v, ((toNegativeLogLikelihood (σ := Unit) ⟨fun v : ℝ => .ok (-v)⟩
    ⟨"banana_log_likelihood", none, fun x s => (bananaLogLikelihood x, s)⟩).call [x, y] ()).1 = .ok v ∧ 0 ≤ v := by
  intro x y
  refine ⟨_, rfl, ?_⟩
  have := sq_nonneg x
  have := sq_nonneg (y + 0.1 * x ^ 2 - 10)
  linarith

end PySGMCMC.Objectives
