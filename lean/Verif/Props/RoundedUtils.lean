import Verif.Props.RoundedLink
import Verif.Props.TensorUtils

/-!
# `tensor_utils` in floating point arithmetic (C110, C111)
-/

namespace PySGMCMC.Rounded

open Format

variable {f : Format} (R : Rounding f)

/-- The numbers `1` and `2` belong to the format. -/
structure _root_.PySGMCMC.Format.HasUnit (f : Format) : Prop where
  emin_nonpos : f.emin ≤ 0
  emax_nonneg : 0 ≤ f.emax

theorem _root_.PySGMCMC.Format.HasUnit.one (h : f.HasUnit) : f.IsRep 1 := rep_one h.1 h.2
theorem _root_.PySGMCMC.Format.HasUnit.two (h : f.HasUnit) : f.IsRep 2 := rep_two h.1 h.2

theorem float64_unit : float64.HasUnit := ⟨by norm_num [float64], by norm_num [float64]⟩
theorem float32_unit : float32.HasUnit := ⟨by norm_num [float32], by norm_num [float32]⟩
theorem float16_unit : float16.HasUnit := ⟨by norm_num [float16], by norm_num [float16]⟩

/-! ## Monotonicity for all results -/

theorem max_rep {a b : ℝ} (ha : f.IsRep a) (hb : f.IsRep b) : f.IsRep (max a b) := by
  rcases max_choice a b with h | h <;> rw [h] <;> assumption

/-- The denominator of `safe_divide`: infinite, or a number with the sign of `y` (positive for `y = 0`) that is at
least as large as `|y|` and as the constant. -/
theorem safeDivide_den (hu : f.HasUnit) {y c : ℝ} (hy : f.IsRep y) (hc : f.IsRep c) (hc0 : 0 < c)
    (hc2 : 2 * c ≤ f.largest) :
    let den := R.arith.add (.fin y)
      (R.arith.add (R.arith.mul (R.arith.mul (R.arith.lit 2) (Fl.sign (.fin y))) (.fin c)) (.fin c))
    (0 ≤ y ∧ (den = .pinf ∨ ∃ d, den = .fin d ∧ f.IsRep d ∧ c ≤ d ∧ y ≤ d)) ∨
      (y < 0 ∧ (den = .ninf ∨ ∃ d, den = .fin d ∧ f.IsRep d ∧ d ≤ -c ∧ d ≤ y)) := by
  intro den
  have hcc : f.IsRep (2 * c) := hc.double (by rwa [abs_of_pos (by linarith)])
  have h2 : R.arith.lit 2 = .fin 2 := R.exact hu.two
  rcases lt_trichotomy y 0 with h | h | h
  · right
    refine ⟨h, ?_⟩
    have hs : Fl.sign (.fin y) = .fin (-1) := by
      rw [Fl.sign_fin, if_neg (by linarith), if_pos h]
    have hden : den = R.rnd (y + -c) := by
      show R.arith.add _ _ = _
      rw [h2, hs, Arith.mul_fin, R.arith_rnd, R.exact (x := 2 * -1) (by simpa using hu.two.neg), Arith.mul_fin,
        R.arith_rnd, R.exact (x := 2 * -1 * c) (by
          rw [show (2 : ℝ) * -1 * c = -(2 * c) by ring]; exact hcc.neg), Arith.add_fin, R.arith_rnd,
        show (2 : ℝ) * -1 * c + c = -c by ring, R.exact hc.neg, Arith.add_fin, R.arith_rnd]
    rw [hden]
    rcases R.le_cases (b := min y (-c)) (by
        rcases min_choice y (-c) with h' | h' <;> rw [h']
        exacts [hy, hc.neg]) (x := y + -c) (le_min (by linarith) (by linarith)) with h' | ⟨d, h1, h3, h4⟩
    · exact Or.inl h'
    · exact Or.inr ⟨d, h1, h3, h4.trans (min_le_right _ _), h4.trans (min_le_left _ _)⟩
  · left
    refine ⟨h.ge, ?_⟩
    have hs : Fl.sign (.fin y) = .fin 0 := by
      rw [Fl.sign_fin, if_neg (by linarith), if_neg (by linarith)]
    have hden : den = .fin c := by
      show R.arith.add _ _ = _
      rw [h2, hs, Arith.mul_fin, R.arith_rnd, mul_zero, R.rnd_zero, Arith.mul_fin, R.arith_rnd, zero_mul, R.rnd_zero,
        Arith.add_fin, R.arith_rnd, zero_add, R.exact hc, Arith.add_fin, R.arith_rnd, h, zero_add, R.exact hc]
    exact Or.inr ⟨c, hden, hc, le_rfl, by linarith⟩
  · left
    refine ⟨h.le, ?_⟩
    have hs : Fl.sign (.fin y) = .fin 1 := by
      rw [Fl.sign_fin, if_pos h]
    have hden : den = R.arith.add (.fin y) (R.rnd (3 * c)) := by
      show R.arith.add _ _ = _
      rw [h2, hs, Arith.mul_fin, R.arith_rnd, mul_one, R.exact hu.two, Arith.mul_fin, R.arith_rnd, R.exact hcc,
        Arith.add_fin, R.arith_rnd, show 2 * c + c = 3 * c by ring]
    rw [hden]
    rcases R.ge_cases hc (x := 3 * c) (by linarith) with h' | ⟨s, h1, h3, h4⟩
    · left
      rw [h']
      rfl
    · rw [h1, Arith.add_fin, R.arith_rnd]
      rcases R.ge_cases (max_rep hy hc) (x := y + s) (max_le (by linarith) (by linarith)) with h' | ⟨d, h5, h6, h7⟩
      · exact Or.inl h'
      · exact Or.inr ⟨d, h5, h6, (le_max_right _ _).trans h7, (le_max_left _ _).trans h7⟩

/-- How far the denominator is from `y`. -/
theorem safeDivide_den_close (hu : f.HasUnit) {y c : ℝ} (hy : f.IsRep y) (hc : f.IsRep c) (hc0 : 0 < c)
    (hb : |y| + 4 * c ≤ f.largest) :
    ∃ d, R.arith.add (.fin y)
      (R.arith.add (R.arith.mul (R.arith.mul (R.arith.lit 2) (Fl.sign (.fin y))) (.fin c)) (.fin c)) = .fin d ∧
      |d - y| ≤ 4 * c + f.u * (|y| + 4 * c) := by
  have hu4 : f.u ≤ 1 / 4 := by
    unfold u
    have : (2 : ℝ) ^ (-(f.prec : ℤ)) ≤ 2 ^ (-2 : ℤ) :=
      zpow_le_zpow_right₀ (by norm_num) (by have := f.one_lt_prec; omega)
    norm_num at this ⊢
    linarith
  have hu0 : 0 < f.u := u_pos
  have hya := abs_nonneg y
  have hlh := largest_lt_huge (f := f)
  have hcc : f.IsRep (2 * c) := hc.double (by rw [abs_of_pos (by linarith)]; linarith)
  have h2 : R.arith.lit 2 = .fin 2 := R.exact hu.two
  rcases lt_trichotomy y 0 with h | h | h
  · have hs : Fl.sign (.fin y) = .fin (-1) := by
      rw [Fl.sign_fin, if_neg (by linarith), if_pos h]
    rw [h2, hs, Arith.mul_fin, R.arith_rnd, R.exact (x := 2 * -1) (by simpa using hu.two.neg), Arith.mul_fin,
      R.arith_rnd, R.exact (x := 2 * -1 * c) (by
        rw [show (2 : ℝ) * -1 * c = -(2 * c) by ring]; exact hcc.neg), Arith.add_fin, R.arith_rnd,
      show (2 : ℝ) * -1 * c + c = -c by ring, R.exact hc.neg, Arith.add_fin, R.arith_rnd]
    have hya' : |y + -c| = |y| + c := by
      rw [abs_of_neg h, abs_of_neg (by linarith)]
      ring
    obtain ⟨d, -, hd, -⟩ := R.near (y + -c) (by rw [hya']; linarith)
    refine ⟨d, hd, ?_⟩
    have h3 := R.error_add hy hc.neg hd
    rw [hya', abs_sub_comm] at h3
    have h4 : |d - y| ≤ |d - (y + -c)| + c := by
      have := abs_add_le (d - (y + -c)) (-c)
      rw [abs_neg, abs_of_pos hc0] at this
      calc |d - y| = |d - (y + -c) + -c| := by ring_nf
        _ ≤ _ := this
    nlinarith
  · have hs : Fl.sign (.fin y) = .fin 0 := by
      rw [Fl.sign_fin, if_neg (by linarith), if_neg (by linarith)]
    rw [h2, hs, Arith.mul_fin, R.arith_rnd, mul_zero, R.rnd_zero, Arith.mul_fin, R.arith_rnd, zero_mul, R.rnd_zero,
        Arith.add_fin, R.arith_rnd, zero_add, R.exact hc, Arith.add_fin, R.arith_rnd, h, zero_add, R.exact hc]
    refine ⟨c, rfl, ?_⟩
    rw [sub_zero, abs_of_pos hc0, abs_zero]
    nlinarith
  · have hs : Fl.sign (.fin y) = .fin 1 := by
      rw [Fl.sign_fin, if_pos h]
    rw [h2, hs, Arith.mul_fin, R.arith_rnd, mul_one, R.exact hu.two, Arith.mul_fin, R.arith_rnd, R.exact hcc,
        Arith.add_fin, R.arith_rnd]
    rw [abs_of_pos h] at hb ⊢
    obtain ⟨s, hs1, hs2, -⟩ := R.near (2 * c + c) (by rw [abs_of_pos (by linarith)]; linarith)
    have h3 := R.error_add hcc hc hs2
    rw [abs_of_pos (by linarith : 0 < 2 * c + c)] at h3
    have h4 := abs_le.mp h3
    rw [hs2, Arith.add_fin, R.arith_rnd]
    have hs4 : s ≤ 4 * c := by nlinarith
    have hs0 : 0 < s := by nlinarith
    obtain ⟨d, -, hd, -⟩ := R.near (y + s) (by rw [abs_of_pos (by linarith)]; linarith)
    refine ⟨d, hd, ?_⟩
    have h5 := R.error_add hy hs1 hd
    rw [abs_of_pos (by linarith : 0 < y + s)] at h5
    have h6 := abs_le.mp h5
    rw [abs_le]
    constructor <;> nlinarith

/-- **C110** `safe_divide` in floating point arithmetic of any precision, for finite arguments and a positive
constant `c`: the result is never `NaN`; it is finite unless `|x| / c` overflows; it is at most the rounded
`|x| / max(|y|, c)`; and it never has the wrong sign. -/
theorem C110_safe_divide (hu : f.HasUnit) {x y c : ℝ} (hy : f.IsRep y) (hc : f.IsRep c)
    (hc0 : 0 < c) (hc2 : 2 * c ≤ f.largest) :
    safeDivide R.arith (.fin x) (.fin y) (.fin c) ≠ .nan ∧
    (|x| / c < f.huge → ∃ r, safeDivide R.arith (.fin x) (.fin y) (.fin c) = .fin r) ∧
    (∀ r, safeDivide R.arith (.fin x) (.fin y) (.fin c) = .fin r →
      f.IsRep r ∧ (∀ b, R.rnd (|x| / max |y| c) = .fin b → |r| ≤ b) ∧
        (0 ≤ y → 0 ≤ r * x) ∧ (y < 0 → r * x ≤ 0)) := by
  -- the exact quotient that is rounded
  have hq : ∃ q : ℝ, safeDivide R.arith (.fin x) (.fin y) (.fin c) = R.rnd q ∧ |q| ≤ |x| / max |y| c ∧
      (0 ≤ y → 0 ≤ q * x) ∧ (y < 0 → q * x ≤ 0) := by
    have hm : 0 < max |y| c := lt_max_of_lt_right hc0
    have hxm : 0 ≤ |x| / max |y| c := div_nonneg (abs_nonneg _) hm.le
    rcases safeDivide_den R hu hy hc hc0 hc2 with ⟨h0, h | ⟨d, h, -, h1, h2⟩⟩ | ⟨h0, h | ⟨d, h, -, h1, h2⟩⟩
    · refine ⟨0, ?_, by simpa using hxm, fun _ => by simp, fun _ => by simp⟩
      unfold safeDivide
      rw [h]
      rfl
    · have hd : 0 < d := hc0.trans_le h1
      refine ⟨x / d, ?_, ?_, fun _ => ?_, fun hy' => absurd h0 (not_le.mpr hy')⟩
      · unfold safeDivide
        rw [h, Arith.div_fin _ hd.ne']
        rfl
      · rw [abs_div, abs_of_pos hd]
        exact div_le_div_of_nonneg_left (abs_nonneg _) hm (max_le (by rwa [abs_of_nonneg h0]) h1)
      · rw [div_mul_eq_mul_div]
        exact div_nonneg (mul_self_nonneg x) hd.le
    · refine ⟨0, ?_, by simpa using hxm, fun _ => by simp, fun _ => by simp⟩
      unfold safeDivide
      rw [h]
      rfl
    · have hd : d < 0 := by linarith
      refine ⟨x / d, ?_, ?_, fun hy' => absurd h0 (not_lt.mpr hy'), fun _ => ?_⟩
      · unfold safeDivide
        rw [h, Arith.div_fin _ hd.ne]
        rfl
      · rw [abs_div, abs_of_neg hd]
        refine div_le_div_of_nonneg_left (abs_nonneg _) hm (max_le ?_ (by linarith))
        rw [abs_of_neg h0]
        linarith
      · rw [div_mul_eq_mul_div]
        exact div_nonpos_of_nonneg_of_nonpos (mul_self_nonneg x) hd.le
  obtain ⟨q, hq, hqb, hq1, hq2⟩ := hq
  rw [hq]
  refine ⟨R.ne_nan q, fun h => ?_, fun r hr => ⟨R.rep_of_fin hr, fun b hb => ?_, fun h => ?_, fun h => ?_⟩⟩
  · obtain ⟨r, -, hr, -⟩ := R.near q (hqb.trans_lt (lt_of_le_of_lt
      (div_le_div_of_nonneg_left (abs_nonneg _) hc0 (le_max_right _ _)) h))
    exact ⟨r, hr⟩
  · have h1 := abs_le.mp hqb
    have h3 : R.rnd (-(|x| / max |y| c)) = .fin (-b) := by
      rw [R.odd, hb]
      rfl
    exact abs_le.mpr ⟨R.mono h1.1 h3 hr, R.mono h1.2 hr hb⟩
  · rcases lt_trichotomy x 0 with hx | hx | hx
    · have : q ≤ 0 := by by_contra hc; exact absurd (hq1 h) (not_le.mpr (mul_neg_of_pos_of_neg (not_le.mp hc) hx))
      exact mul_nonneg_of_nonpos_of_nonpos (R.le_rep rep_zero this hr) hx.le
    · simp [hx]
    · have : 0 ≤ q := by by_contra hc; exact absurd (hq1 h) (not_le.mpr (mul_neg_of_neg_of_pos (not_le.mp hc) hx))
      exact mul_nonneg (R.rep_le rep_zero this hr) hx.le
  · rcases lt_trichotomy x 0 with hx | hx | hx
    · have : 0 ≤ q := by by_contra hc; exact absurd (hq2 h) (not_le.mpr (mul_pos_of_neg_of_neg (not_le.mp hc) hx))
      exact mul_nonpos_of_nonneg_of_nonpos (R.rep_le rep_zero this hr) hx.le
    · simp [hx]
    · have : q ≤ 0 := by by_contra hc; exact absurd (hq2 h) (not_le.mpr (mul_pos (not_le.mp hc) hx))
      exact mul_nonpos_of_nonpos_of_nonneg (R.le_rep rep_zero this hr) hx.le

/-- **C110** (accuracy) The quotient that is rounded has a denominator close to `y`. -/
theorem C110_accuracy (hu : f.HasUnit) {x y c : ℝ} (hy : f.IsRep y) (hc : f.IsRep c) (hc0 : 0 < c)
    (hb : |y| + 4 * c ≤ f.largest) :
    ∃ d, d ≠ 0 ∧ safeDivide R.arith (.fin x) (.fin y) (.fin c) = R.rnd (x / d) ∧
      |d - y| ≤ 4 * c + f.u * (|y| + 4 * c) := by
  obtain ⟨d, hd, hcl⟩ := safeDivide_den_close R hu hy hc hc0 hb
  have hne : d ≠ 0 := by
    rcases safeDivide_den R hu hy hc hc0 (by linarith [abs_nonneg y]) with
      ⟨_, h | ⟨d', h, -, h1, -⟩⟩ | ⟨_, h | ⟨d', h, -, h1, -⟩⟩ <;> rw [hd] at h <;> cases h
    · exact (hc0.trans_le h1).ne'
    · linarith
  refine ⟨d, hne, ?_, hcl⟩
  unfold safeDivide
  rw [hd, Arith.div_fin _ hne]
  rfl

/-- The default constant `1e-16` in a format whose smallest number is at most `2 ^ -54`. -/
theorem lit_small (h1 : f.emin ≤ -54) (h2 : 0 ≤ f.emax) :
    ∃ c, R.arith.lit 1e-16 = .fin c ∧ f.IsRep c ∧ 2 ^ (-54 : ℤ) ≤ c ∧ c ≤ 2 ^ (-53 : ℤ) := by
  obtain ⟨c, hc, hr, hl, hh⟩ := R.between (a := 2 ^ (-54 : ℤ)) (b := 2 ^ (-53 : ℤ)) (x := 1e-16)
    (rep_pow h1 (by omega)) (rep_pow (by omega) (by omega)) (by norm_num) (by norm_num)
  exact ⟨c, hc, hr, hl, hh⟩

/-- **C110** With the default constant, in every format with small enough numbers (float32 and float64):
`safe_divide` is never `NaN`, and finite for every dividend up to `huge * 2 ^ -54`. -/
theorem C110_default_partial (hu : f.HasUnit) (he : f.emin ≤ -54) {x y : ℝ} (hy : f.IsRep y) :
    safeDivide' R.arith (.fin x) (.fin y) ≠ .nan ∧
    (|x| < f.huge * 2 ^ (-54 : ℤ) → ∃ r, safeDivide' R.arith (.fin x) (.fin y) = .fin r ∧ f.IsRep r) := by
  obtain ⟨c, hc, hr, hl, hh⟩ := lit_small R he hu.2
  have hc0 : 0 < c := lt_of_lt_of_le (by positivity) hl
  have hc2 : 2 * c ≤ f.largest := by
    have := hu.one.abs_le
    rw [abs_one] at this
    have h3 : c ≤ 1 / 2 := hh.trans (by norm_num)
    linarith
  have key := C110_safe_divide R hu (x := x) hy hr hc0 hc2
  unfold safeDivide'
  rw [hc]
  refine ⟨key.1, fun hx => ?_⟩
  obtain ⟨r, h⟩ := key.2.1 (by
    rw [div_lt_iff₀ hc0]
    exact hx.trans_le (mul_le_mul_of_nonneg_left hl huge_pos.le))
  exact ⟨r, h, (key.2.2 r h).1⟩

/-- Numbers below half the smallest positive number are rounded to zero. -/
theorem rnd_underflow {x : ℝ} (h : |x| < f.tiny / 2) : R.rnd x = .fin 0 := by
  have ht := tiny_pos (f := f)
  have htl : f.tiny ≤ f.largest := by
    have := rep_tiny (f := f).abs_le
    rwa [abs_of_pos ht] at this
  obtain ⟨y, hy, h1, h2⟩ := R.near x (by linarith [largest_lt_huge (f := f)])
  have h3 := h2 0 rep_zero
  rw [sub_zero] at h3
  have h4 : |y| < f.tiny := by
    have := abs_sub_abs_le_abs_sub y x
    rw [abs_sub_comm] at this
    linarith
  have h5 : y = 0 := by
    by_contra hne
    exact absurd (hy.abs.tiny_le (abs_pos.mpr hne)) (not_le.mpr h4)
  rw [h1, h5]

/-- **C110** (violated) In `tf.float16` the constant `1e-16` is rounded to zero, so `safe_divide(1, 0)` is infinite
and `safe_divide(0, 0)` is `NaN`. -/
theorem C110_violated (R : Rounding float16) :
    safeDivide' R.arith (.fin 1) (.fin 0) = .pinf ∧ safeDivide' R.arith (.fin 0) (.fin 0) = .nan := by
  have h0 : R.arith.lit 1e-16 = .fin 0 := by
    refine rnd_underflow R ?_
    rw [abs_of_pos (by norm_num)]
    unfold tiny float16
    norm_num
  have h2 : R.arith.lit 2 = .fin 2 := R.exact float16_unit.two
  have hden : R.arith.add (.fin 0)
      (R.arith.add (R.arith.mul (R.arith.mul (R.arith.lit 2) (Fl.sign (.fin 0))) (.fin 0)) (.fin 0)) = .fin 0 := by
    have hs : Fl.sign (.fin 0) = .fin 0 := by simp [Fl.sign_fin]
    rw [h2, hs]
    simp
  unfold safeDivide' safeDivide
  rw [h0, hden]
  constructor
  · simp [Arith.div, Fl.div_fin', Fl.infOf, Arith.fix]
  · simp [Arith.div, Fl.div_fin', Fl.infOf, Arith.fix]

/-- float64 and float32 meet the conditions of `C110_default_partial`, and they have a rounding. -/
example : Nonempty (Rounding float64) ∧ float64.HasUnit ∧ float64.emin ≤ -54 ∧ Nonempty (Rounding float32) ∧
    float32.HasUnit ∧ float32.emin ≤ -54 ∧ float32.IsRep (-0.5) := by
  refine ⟨Rounding.nonempty _, float64_unit, by norm_num [float64], Rounding.nonempty _, float32_unit,
    by norm_num [float32], ?_⟩
  have := (rep_pow (f := float32) (e := -1) (by norm_num [float32]) (by norm_num [float32])).neg
  norm_num at this ⊢
  exact this

/-- **C110** `safe_sqrt` in floating point arithmetic of any precision: finite and non-negative for every finite
argument, zero for negative ones, the correctly rounded root otherwise, and monotone. -/
theorem C110_safe_sqrt (hu : f.HasUnit) {x : ℝ} (hx : f.IsRep x) :
    ∃ r, safeSqrt R.arith (.fin x) = .fin r ∧ f.IsRep r ∧ 0 ≤ r ∧ (x ≤ 0 → r = 0) ∧
      R.rnd (Real.sqrt (max x 0)) = .fin r ∧ r ≤ max x 1 := by
  have h1 : safeSqrt R.arith (.fin x) = R.rnd (Real.sqrt (max x 0)) := by
    unfold safeSqrt
    have : R.arith.lit 0 = .fin 0 := R.rnd_zero
    rw [this]
    show R.arith.sqrt (.fin (max x 0)) = _
    rw [Arith.sqrt_fin _ (le_max_right _ _)]
    rfl
  have h2 : Real.sqrt (max x 0) ≤ max x 1 := by
    rw [Real.sqrt_le_left (le_max_of_le_right zero_le_one)]
    have h1 : (1 : ℝ) ≤ max x 1 := le_max_right _ _
    have h2 : max x 0 ≤ max x 1 := max_le_max le_rfl zero_le_one
    nlinarith
  obtain ⟨r, h3, h4, h5, h6⟩ := R.between rep_zero (max_rep hx hu.one) (Real.sqrt_nonneg _) h2
  refine ⟨r, by rw [h1, h3], h4, h5, fun h => ?_, h3, h6⟩
  rw [max_eq_right h, Real.sqrt_zero, R.rnd_zero] at h3
  cases h3
  rfl

theorem C110_safe_sqrt_monotone (hu : f.HasUnit) {x y a b : ℝ} (hx : f.IsRep x) (hy : f.IsRep y) (hxy : x ≤ y)
    (ha : safeSqrt R.arith (.fin x) = .fin a) (hb : safeSqrt R.arith (.fin y) = .fin b) : a ≤ b := by
  obtain ⟨r, h1, -, -, -, h2, -⟩ := C110_safe_sqrt R hu hx
  obtain ⟨s, h3, -, -, -, h4, -⟩ := C110_safe_sqrt R hu hy
  rw [h1] at ha
  rw [h3] at hb
  cases ha
  cases hb
  exact R.mono (Real.sqrt_le_sqrt (max_le_max hxy le_rfl)) h2 h4

/-! ## C111 -/

/-- **C111** `squareform` finds the side length of the matrix although it computes it with a rounded square root: in
a format with `p ≥ 3` bits, for every side length `k` from `2` to `2 ^ (p - 3)` whose square does not overflow. -/
theorem C111_dimension (hp : 3 ≤ f.prec) (he : f.emin ≤ -2) (hm : 0 ≤ f.emax) (k n : ℕ) (hk : 2 ≤ k)
    (hk' : k ≤ 2 ^ (f.prec - 3)) (hn : n * 2 = k * (k - 1)) (hl : (k : ℝ) ^ 2 ≤ f.largest) :
    dimension R.arith n = k := by
  have hk2 : (2 : ℝ) ≤ k := by exact_mod_cast hk
  have hx : (n : ℝ) * 2 = k * (k - 1) := by
    have : ((n * 2 : ℕ) : ℝ) = ((k * (k - 1) : ℕ) : ℝ) := by rw [hn]
    rw [Nat.cast_mul, Nat.cast_mul, Nat.cast_sub (by omega)] at this
    push_cast at this
    exact this
  -- the unit roundoff times the side length
  have huk : f.u * k ≤ 1 / 8 := by
    have h1 : (k : ℝ) ≤ 2 ^ (f.prec - 3) := by exact_mod_cast hk'
    have h2 : f.u * 2 ^ (f.prec - 3) = 1 / 8 := by
      unfold u
      rw [← zpow_natCast, ← zpow_add₀ (by norm_num), show -(f.prec : ℤ) + ((f.prec - 3 : ℕ) : ℤ) = -3 by omega]
      norm_num
    rw [← h2]
    exact mul_le_mul_of_nonneg_left h1 u_pos.le
  have hu0 : 0 < f.u := u_pos
  set x : ℝ := k * (k - 1) with hxdef
  have hx0 : 0 < x := by rw [hxdef]; nlinarith
  have hxl : x ≤ f.largest := by rw [hxdef]; nlinarith
  obtain ⟨y, hy, hxy, -⟩ := R.near x (by
    rw [abs_of_pos hx0]
    exact hxl.trans_lt largest_lt_huge)
  have herr : |x - y| ≤ f.u * x := by
    have := R.error_mult ((k * (k - 1) : ℤ) * 2 ^ (-f.emin).toNat) (by
      unfold tiny
      rw [hxdef]
      push_cast
      rw [mul_assoc, ← zpow_natCast, ← zpow_add₀ (by norm_num),
        show ((-f.emin).toNat : ℤ) + f.emin = 0 by omega]
      simp) hxy
    rwa [abs_of_pos hx0] at this
  have h1 := abs_le.mp herr
  have hy0 : 0 ≤ y := R.rep_le rep_zero hx0.le hxy
  have hukk : f.u * x ≤ 1 / 8 * (k - 1) := by
    rw [hxdef]
    nlinarith
  have hhi : Real.sqrt y ≤ k := by
    rw [Real.sqrt_le_left (by linarith)]
    nlinarith
  have hlo : (k : ℝ) - 3 / 4 ≤ Real.sqrt y := by
    apply Real.le_sqrt_of_sq_le
    nlinarith
  have hpow : (2 : ℕ) ^ f.prec = 2 ^ (f.prec - 3) * 8 := by
    rw [show (8 : ℕ) = 2 ^ 3 by norm_num, ← pow_add]
    congr 1
    omega
  have hrep1 : f.IsRep ((k : ℝ) - 3 / 4) := by
    refine ⟨4 * k - 3, -2, ?_, he, by omega, ?_⟩
    · rw [abs_of_nonneg (by omega)]
      have : (4 * k : ℕ) < 2 ^ f.prec := by omega
      have h' : ((4 * k : ℕ) : ℤ) < ((2 ^ f.prec : ℕ) : ℤ) := by exact_mod_cast this
      push_cast at h'
      omega
    · push_cast
      norm_num
      ring
  have hrep2 : f.IsRep (k : ℝ) := by
    have := rep_int (f := f) (by omega) hm (m := (k : ℤ)) (by
      rw [abs_of_nonneg (by omega)]
      have : (k : ℕ) < 2 ^ f.prec := by omega
      exact_mod_cast this)
    simpa using this
  obtain ⟨r, hr, -, hr1, hr2⟩ := R.between hrep1 hrep2 hlo hhi
  have hs : sqrtSize R.arith n = .fin r := by
    unfold sqrtSize
    rw [R.arith_lit, hx, hxy, Arith.sqrt_fin _ hy0]
    exact hr
  unfold dimension
  rw [hs]
  show ⌈r⌉₊ = k
  rw [Nat.ceil_eq_iff (by omega)]
  constructor
  · rw [Nat.cast_sub (by omega)]
    push_cast
    linarith
  · exact hr2

/-- **C111** In double precision `squareform` gives the same result as with exact square roots, for every tensor whose
number of elements is below `2 ^ 98`. -/
theorem C111_squareform (R : Rounding float64) (input : TensorUtils.TfInput ℝ)
    (hsize : ∀ t n, input = .tensor t → t.shape = [n] → n < 2 ^ 98) :
    TensorUtils.squareformWith (dimension R.arith) input = TensorUtils.squareform input := by
  unfold TensorUtils.squareform
  rcases input with t | t | _
  · rfl
  · rcases hshape : t.shape with _ | ⟨n, _ | ⟨m, rest⟩⟩
    · simp only [TensorUtils.squareformWith, hshape]
    · simp only [TensorUtils.squareformWith, hshape]
      by_cases hn : n = 0
      · rw [if_pos hn, if_pos hn]
      · by_cases hk : ∃ k, n * 2 = k * (k - 1)
        · obtain ⟨k, hk⟩ := hk
          have hk2 : 2 ≤ k := by
            rcases k with _ | _ | k
            · omega
            · omega
            · omega
          have hlt := hsize t n rfl hshape
          have hk50 : k ≤ 2 ^ 50 := by
            by_contra hc
            push Not at hc
            have : (2 ^ 50) * (2 ^ 50) ≤ k * (k - 1) := Nat.mul_le_mul hc.le (by omega)
            norm_num at this hlt
            omega
          have e1 : dimension R.arith n = k := by
            refine C111_dimension R (by norm_num [float64]) (by norm_num [float64]) (by norm_num [float64]) k n hk2
              (by norm_num [float64]; norm_num at hk50; exact hk50) hk ?_
            have h1 : (k : ℝ) ^ 2 ≤ (2 ^ 50) ^ 2 := by
              have : (k : ℝ) ≤ 2 ^ 50 := by exact_mod_cast hk50
              gcongr
            refine h1.trans ?_
            show ((2 : ℝ) ^ 50) ^ 2 ≤ (2 ^ 53 - 1) * 2 ^ (971 : ℤ)
            have h2 : (2 : ℝ) ^ (100 : ℤ) ≤ 2 ^ (971 : ℤ) := zpow_le_zpow_right₀ (by norm_num) (by norm_num)
            have h3 : ((2 : ℝ) ^ 50) ^ 2 = 2 ^ (100 : ℤ) := by norm_num
            have h4 : (1 : ℝ) ≤ 2 ^ 53 - 1 := by norm_num
            rw [h3]
            exact h2.trans (le_mul_of_one_le_left (by positivity) h4)
          have e2 : ⌈Real.sqrt ((n : ℝ) * 2)⌉₊ = k := TensorUtils.ceil_sqrt_dimension (by omega) hk.symm
          rw [e1, e2]
        · have hne : ∀ d : ℕ, d * (d - 1) ≠ n * 2 := fun d hd => hk ⟨d, hd.symm⟩
          rw [if_neg hn, if_neg hn, if_pos (hne _), if_pos (hne _)]
    · simp only [TensorUtils.squareformWith, hshape]
  · rfl

/-- The conditions of `C111_dimension` for a matrix of side 1000. -/
example (R : Rounding float32) : dimension R.arith 499500 = 1000 := by
  refine C111_dimension R (by norm_num [float32]) (by norm_num [float32]) (by norm_num [float32]) 1000 499500
    (by norm_num) (by norm_num [float32]) (by norm_num) ?_
  unfold largest float32
  norm_num

/-- **C111** The interpolated median of two middle values lies between them in floating point arithmetic too, unless
their sum overflows. -/
theorem C111_midpoint (hu : f.HasUnit) {a b : ℝ} (ha : f.IsRep a) (hb : f.IsRep b) (hab : a ≤ b)
    (ha2 : |2 * a| ≤ f.largest) (hb2 : |2 * b| ≤ f.largest) :
    ∃ r, midpoint R.arith (.fin a) (.fin b) = .fin r ∧ f.IsRep r ∧ a ≤ r ∧ r ≤ b := by
  obtain ⟨s, hs, -, h1, h2⟩ := R.between (ha.double ha2) (hb.double hb2) (x := a + b) (by linarith) (by linarith)
  obtain ⟨r, hr, hr', h3, h4⟩ := R.between ha hb (x := s / 2) (by linarith) (by linarith)
  refine ⟨r, ?_, hr', h3, h4⟩
  unfold midpoint
  rw [R.arith_lit, R.exact hu.two, Arith.add_fin, R.arith_rnd, hs, Arith.div_fin _ two_ne_zero]
  exact hr

/-- **C111** … and when it overflows the median of finite numbers is infinite. -/
theorem C111_midpoint_overflow (hu : f.HasUnit) : midpoint R.arith (.fin f.largest) (.fin f.largest) = .pinf := by
  unfold midpoint
  rw [R.arith_lit, R.exact hu.two, Arith.add_fin, R.arith_rnd, R.over]
  · simp only [Arith.div]
    show R.arith.fix (if (2 : ℝ) = 0 then _ else Fl.infOf 2) = _
    rw [if_neg two_ne_zero, Fl.infOf, if_pos two_pos]
    rfl
  · unfold largest huge
    have h1 : (4 : ℝ) ≤ 2 ^ f.prec := by
      have : (2 : ℝ) ^ 2 ≤ 2 ^ f.prec := pow_le_pow_right₀ (by norm_num) f.one_lt_prec
      linarith
    have : (0 : ℝ) < 2 ^ f.emax := by positivity
    nlinarith

open TensorUtils in
/-- **C111** In floating point arithmetic `median` still is a median: a number of the format, at least half of the
elements are `≤` it and at least half are `≥` it, as long as doubling the elements does not overflow. -/
theorem C111_median (hu : f.HasUnit) (t : Tensor ℝ) (hne : t.data ≠ []) (hrep : ∀ x ∈ t.data, f.IsRep x)
    (hb : ∀ x ∈ t.data, |2 * x| ≤ f.largest) :
    ∃ r, Rounded.median R.arith t = .ok (.fin r) ∧ f.IsRep r ∧
      t.data.length ≤ 2 * t.data.countP (fun a => decide (a ≤ r)) ∧
      t.data.length ≤ 2 * t.data.countP (fun a => decide (r ≤ a)) := by
  obtain ⟨s, hp, hs⟩ := exists_sorted t.data
  have hlen := hp.length_eq
  have hpos : 0 < s.length := by rw [hlen]; exact List.length_pos_iff.2 hne
  have htop := topKAll_eq t.data s hp hs
  have hmem : ∀ q (h : q < s.length), s[q] ∈ t.data := fun q h => hp.mem_iff.1 (List.getElem_mem h)
  unfold Rounded.median
  simp only [htop, ← hlen]
  rcases Nat.mod_two_eq_zero_or_one s.length with h | h
  · have h1 : s.length / 2 < s.length := by omega
    have h2 : s.length / 2 - 1 < s.length := by omega
    rw [if_neg (by omega), if_neg (by omega), List.getElem?_reverse (by omega), List.getElem?_reverse (by omega),
      show s.length - 1 - s.length / 2 = s.length / 2 - 1 by omega,
      show s.length - 1 - (s.length / 2 - 1) = s.length / 2 by omega, List.getElem?_eq_getElem h1,
      List.getElem?_eq_getElem h2]
    have h3 : s[s.length / 2 - 1] ≤ s[s.length / 2] := List.pairwise_iff_getElem.1 hs _ _ h2 h1 (by omega)
    obtain ⟨r, hr, hr', hr1, hr2⟩ := C111_midpoint R hu (hrep _ (hmem _ h2)) (hrep _ (hmem _ h1)) h3
      (hb _ (hmem _ h2)) (hb _ (hmem _ h1))
    have hcomm : midpoint R.arith (.fin s[s.length / 2]) (.fin s[s.length / 2 - 1]) =
        midpoint R.arith (.fin s[s.length / 2 - 1]) (.fin s[s.length / 2]) := by
      simp [midpoint, add_comm]
    refine ⟨r, by simp only [hcomm, hr], hr', ?_⟩
    rw [← hp.countP_eq, ← hp.countP_eq]
    have e1 := countP_le_of_sorted s hs _ h2 r hr1
    have e2 := countP_ge_of_sorted s hs _ h1 r hr2
    constructor <;> omega
  · have h1 : s.length / 2 < s.length := by omega
    rw [if_pos h, List.getElem?_reverse (by omega), show s.length - 1 - s.length / 2 = s.length / 2 by omega,
      List.getElem?_eq_getElem h1]
    refine ⟨s[s.length / 2], rfl, hrep _ (hmem _ h1), ?_⟩
    rw [← hp.countP_eq, ← hp.countP_eq]
    have e1 := countP_le_of_sorted s hs _ h1 (s[s.length / 2]) le_rfl
    have e2 := countP_ge_of_sorted s hs _ h1 (s[s.length / 2]) le_rfl
    constructor <;> omega

end PySGMCMC.Rounded
