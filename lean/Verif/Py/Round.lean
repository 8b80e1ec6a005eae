import Verif.Py.Fl
import Mathlib.Data.Int.Interval
import Mathlib.Data.Set.Finite.Lattice
import Mathlib.Data.Set.Finite.Lemmas
import Mathlib.Order.Preorder.Finite
import Mathlib.Algebra.Order.Round
import Mathlib.Algebra.Order.Archimedean.Basic
import Mathlib.Data.Int.Log
import Mathlib.Tactic.Linarith
import Mathlib.Tactic.Positivity
import Mathlib.Tactic.Ring
import Mathlib.Tactic.NormNum
import Mathlib.Tactic.FieldSimp
import Mathlib.Tactic.GCongr

/-!
# IEEE 754 rounding

A binary floating point format is given by the number of bits of the significand and the range of exponents; its
numbers are the `m * 2 ^ e` with a significand `m` of that many bits.  A rounding sends a real number to a nearest
number of the format, or to an infinity beyond the overflow threshold of IEEE 754 (4.3.1).  How ties are broken is
left open, except that it does not depend on the sign; so everything proved here holds for "ties to even" too.
Rounded operations are the exact operations of `Fl` followed by a rounding, as IEEE 754 prescribes for
`+ - * / sqrt`.
This is a model of numpy / TensorFlow arithmetic, not of a function in the repository.
Simplifications: a single zero.
-/

namespace PySGMCMC

/-- A binary floating point format. -/
structure Format where
  /-- bits of the significand -/
  prec : ℕ
  /-- exponent of the smallest positive number -/
  emin : ℤ
  /-- exponent of the last bit of the largest numbers -/
  emax : ℤ
  one_lt_prec : 1 < prec
  emin_le_emax : emin ≤ emax

namespace Format

/-- `tf.float64`, `np.float64` and Python's `float`. -/
def float64 : Format := ⟨53, -1074, 971, by norm_num, by norm_num⟩

/-- `tf.float32`. -/
def float32 : Format := ⟨24, -149, 104, by norm_num, by norm_num⟩

/-- `tf.float16`. -/
def float16 : Format := ⟨11, -24, 5, by norm_num, by norm_num⟩

variable (f : Format)

/-- `x` is a number of the format. -/
def IsRep (x : ℝ) : Prop :=
  ∃ m e : ℤ, |m| < 2 ^ f.prec ∧ f.emin ≤ e ∧ e ≤ f.emax ∧ x = m * (2 : ℝ) ^ e

/-- The largest number of the format. -/
noncomputable def largest : ℝ := (2 ^ f.prec - 1) * (2 : ℝ) ^ f.emax

/-- The overflow threshold: the largest number plus half a unit in its last place. -/
noncomputable def huge : ℝ := (2 ^ f.prec - 1 / 2) * (2 : ℝ) ^ f.emax

/-- The smallest positive number of the format. -/
noncomputable def tiny : ℝ := (2 : ℝ) ^ f.emin

/-- The unit roundoff. -/
noncomputable def u : ℝ := (2 : ℝ) ^ (-(f.prec : ℤ))

end Format

/-- A rounding to nearest. -/
structure Rounding (f : Format) where
  rnd : ℝ → Fl
  near : ∀ x, |x| < f.huge → ∃ y, f.IsRep y ∧ rnd x = .fin y ∧ ∀ z, f.IsRep z → |x - y| ≤ |x - z|
  over : ∀ x, f.huge ≤ x → rnd x = .pinf
  odd : ∀ x, rnd (-x) = -(rnd x)

namespace Format

variable {f : Format}

theorem tiny_pos : 0 < f.tiny := by unfold tiny; positivity
theorem u_pos : 0 < f.u := by unfold u; positivity
theorem largest_lt_huge : f.largest < f.huge := by
  unfold largest huge
  have : (0 : ℝ) < 2 ^ f.emax := by positivity
  nlinarith
theorem largest_pos : 0 < f.largest := by
  unfold largest
  have : (1 : ℝ) < 2 ^ f.prec := one_lt_pow₀ (by norm_num) (by have := f.one_lt_prec; omega)
  have : (0 : ℝ) < 2 ^ f.emax := by positivity
  apply mul_pos <;> linarith
theorem huge_pos : 0 < f.huge := largest_pos.trans largest_lt_huge

/-- Zero is a number of the format. -/
theorem rep_zero : f.IsRep 0 := ⟨0, f.emin, by simp, le_rfl, f.emin_le_emax, by simp⟩

theorem IsRep.neg {x : ℝ} (h : f.IsRep x) : f.IsRep (-x) := by
  obtain ⟨m, e, hm, h1, h2, rfl⟩ := h
  exact ⟨-m, e, by rwa [abs_neg], h1, h2, by push_cast; ring⟩

theorem IsRep.abs {x : ℝ} (h : f.IsRep x) : f.IsRep |x| := by
  rcases abs_choice x with h' | h' <;> rw [h']
  exacts [h, h.neg]

theorem IsRep.abs_le {x : ℝ} (h : f.IsRep x) : |x| ≤ f.largest := by
  obtain ⟨m, e, hm, h1, h2, rfl⟩ := h
  have hm' : |m| ≤ 2 ^ f.prec - 1 := by omega
  have hm'' : |(m : ℝ)| ≤ 2 ^ f.prec - 1 := by exact_mod_cast hm'
  have he : (2 : ℝ) ^ e ≤ 2 ^ f.emax := zpow_le_zpow_right₀ (by norm_num) h2
  rw [abs_mul, abs_of_pos (show (0 : ℝ) < 2 ^ e by positivity)]
  exact mul_le_mul hm'' he (by positivity) ((abs_nonneg _).trans hm'')

theorem IsRep.abs_lt {x : ℝ} (h : f.IsRep x) : |x| < f.huge := h.abs_le.trans_lt largest_lt_huge

/-- A number of the format is a multiple of its smallest positive number. -/
theorem IsRep.mult {x : ℝ} (h : f.IsRep x) : ∃ n : ℤ, x = n * f.tiny := by
  obtain ⟨m, e, hm, h1, h2, rfl⟩ := h
  refine ⟨m * 2 ^ (e - f.emin).toNat, ?_⟩
  unfold tiny
  have : (2 : ℝ) ^ e = 2 ^ (e - f.emin).toNat * 2 ^ f.emin := by
    rw [← zpow_natCast, ← zpow_add₀ (by norm_num)]
    congr 1
    omega
  push_cast
  rw [this]
  ring

/-- The smallest positive number is the smallest one. -/
theorem IsRep.tiny_le {x : ℝ} (h : f.IsRep x) (h0 : 0 < x) : f.tiny ≤ x := by
  obtain ⟨n, rfl⟩ := h.mult
  have hn : (0 : ℝ) < n := by
    by_contra hc
    exact absurd h0 (not_lt.mpr (mul_nonpos_of_nonpos_of_nonneg (not_lt.mp hc) tiny_pos.le))
  have : (1 : ℝ) ≤ n := by
    have : 0 < n := by exact_mod_cast hn
    exact_mod_cast this
  nlinarith [tiny_pos (f := f)]

theorem rep_tiny : f.IsRep f.tiny :=
  ⟨1, f.emin, by
    rw [abs_one]
    exact one_lt_pow₀ (by norm_num) (by have := f.one_lt_prec; omega), le_rfl, f.emin_le_emax, by simp [tiny]⟩

theorem rep_largest : f.IsRep f.largest := by
  refine ⟨2 ^ f.prec - 1, f.emax, ?_, f.emin_le_emax, le_rfl, ?_⟩
  · have : (1 : ℤ) ≤ 2 ^ f.prec := one_le_pow₀ (by norm_num)
    rw [abs_of_nonneg (by omega)]
    omega
  · unfold largest
    push_cast
    ring

/-- Powers of two in the range of exponents. -/
theorem rep_pow {e : ℤ} (h1 : f.emin ≤ e) (h2 : e ≤ f.emax) : f.IsRep ((2 : ℝ) ^ e) :=
  ⟨1, e, by
    rw [abs_one]
    exact one_lt_pow₀ (by norm_num) (by have := f.one_lt_prec; omega), h1, h2, by simp⟩

/-- Integers with few enough bits. -/
theorem rep_int (h1 : f.emin ≤ 0) (h2 : 0 ≤ f.emax) {m : ℤ} (hm : |m| < 2 ^ f.prec) : f.IsRep m :=
  ⟨m, 0, hm, h1, h2, by simp⟩

theorem rep_one (h1 : f.emin ≤ 0) (h2 : 0 ≤ f.emax) : f.IsRep 1 := by
  have := rep_pow h1 h2
  simpa using this

theorem rep_two (h1 : f.emin ≤ 0) (h2 : 0 ≤ f.emax) : f.IsRep 2 := by
  have := rep_int h1 h2 (m := 2) (by
    have h : (2 : ℤ) ^ 2 ≤ 2 ^ f.prec := pow_le_pow_right₀ (by norm_num) f.one_lt_prec
    norm_num at h ⊢
    omega)
  simpa using this

/-- Doubling a number is exact unless it overflows. -/
theorem IsRep.double {x : ℝ} (h : f.IsRep x) (hb : |2 * x| ≤ f.largest) : f.IsRep (2 * x) := by
  obtain ⟨m, e, hm, h1, h2, rfl⟩ := h
  rcases lt_or_eq_of_le h2 with h3 | rfl
  · exact ⟨m, e + 1, hm, by omega, by omega, by rw [zpow_add_one₀ (by norm_num)]; ring⟩
  · refine ⟨2 * m, f.emax, ?_, h1, le_rfl, by push_cast; ring⟩
    have hp : (0 : ℝ) < 2 ^ f.emax := by positivity
    rw [show 2 * ((m : ℝ) * 2 ^ f.emax) = (2 * m) * 2 ^ f.emax by ring, abs_mul, abs_of_pos hp] at hb
    have h4 : |(2 * m : ℝ)| ≤ 2 ^ f.prec - 1 := le_of_mul_le_mul_right hb hp
    have h5 : |2 * m| ≤ 2 ^ f.prec - 1 := by exact_mod_cast h4
    omega

theorem finite_rep (f : Format) : {x : ℝ | f.IsRep x}.Finite := by
  have : {x : ℝ | f.IsRep x} ⊆
      (fun p : ℤ × ℤ => (p.1 : ℝ) * 2 ^ p.2) ''
        (Set.Icc (-(2 ^ f.prec)) (2 ^ f.prec) ×ˢ Set.Icc f.emin f.emax) := by
    rintro x ⟨m, e, hm, h1, h2, rfl⟩
    refine ⟨(m, e), ⟨⟨?_, ?_⟩, h1, h2⟩, rfl⟩
    · exact (abs_lt.mp hm).1.le
    · exact (abs_lt.mp hm).2.le
  exact (((Set.finite_Icc _ _).prod (Set.finite_Icc _ _)).image _).subset this

/-- There is a nearest number. -/
theorem exists_nearest (f : Format) (x : ℝ) : ∃ y, f.IsRep y ∧ ∀ z, f.IsRep z → |x - y| ≤ |x - z| := by
  obtain ⟨y, hy, hmin⟩ := Set.exists_min_image {x : ℝ | f.IsRep x} (fun z => |x - z|) f.finite_rep ⟨0, rep_zero⟩
  exact ⟨y, hy, hmin⟩

/-- Every real number below the overflow threshold is close to a number of the format: relative to its size, or by
half the smallest positive number. -/
theorem exists_close {x : ℝ} (h : |x| < f.huge) :
    ∃ z, f.IsRep z ∧ (|x - z| ≤ f.u * |x| ∨ |x - z| ≤ f.tiny / 2) := by
  by_cases hx : x = 0
  · exact ⟨0, rep_zero, Or.inl (by simp [hx])⟩
  have hx0 : 0 < |x| := abs_pos.mpr hx
  -- the exponent of the last bit
  set e0 : ℤ := Int.log 2 |x| - f.prec + 1 with he0
  set e : ℤ := max f.emin e0 with he
  have hlo : (2 : ℝ) ^ Int.log 2 |x| ≤ |x| := Int.zpow_log_le_self (by norm_num) hx0
  have hhi : |x| < (2 : ℝ) ^ (Int.log 2 |x| + 1) := by
    have := Int.lt_zpow_succ_log_self (b := 2) (by norm_num) |x|
    simpa using this
  have hpe : (0 : ℝ) < 2 ^ e := by positivity
  set m : ℤ := round (x / 2 ^ e) with hm
  have hclose : |x - m * 2 ^ e| ≤ 2 ^ e / 2 := by
    have h1 := abs_sub_round (x / (2 : ℝ) ^ e)
    have h2 : x - m * 2 ^ e = (x / 2 ^ e - m) * 2 ^ e := by field_simp
    rw [h2, abs_mul, abs_of_pos hpe]
    nlinarith
  -- the significand fits
  have hfit : |x| / 2 ^ e < 2 ^ f.prec := by
    rw [div_lt_iff₀ hpe, ← zpow_natCast, ← zpow_add₀ (by norm_num)]
    refine hhi.trans_le (zpow_le_zpow_right₀ (by norm_num) ?_)
    have : e0 ≤ e := le_max_right _ _
    omega
  have hmabs : |m| ≤ 2 ^ f.prec := by
    have h1 : |x / (2 : ℝ) ^ e| < 2 ^ f.prec := by rwa [abs_div, abs_of_pos hpe]
    have h2 := abs_lt.mp h1
    rw [abs_le]
    constructor
    · have : round (-(2 ^ f.prec : ℤ) : ℝ) ≤ m := by
        rw [hm, round_eq, round_eq]
        apply Int.floor_le_floor
        push_cast
        linarith
      have h3 : round (-(2 ^ f.prec : ℤ) : ℝ) = -(2 ^ f.prec : ℤ) := by
        rw [← Int.cast_neg, round_intCast]
      omega
    · have : m ≤ round ((2 ^ f.prec : ℤ) : ℝ) := by
        rw [hm, round_eq, round_eq]
        apply Int.floor_le_floor
        push_cast
        linarith
      rwa [round_intCast] at this
  have herr : 2 ^ e / 2 ≤ f.u * |x| ∨ (2 : ℝ) ^ e / 2 ≤ f.tiny / 2 := by
    rcases max_choice f.emin e0 with h1 | h1
    · right
      rw [he, h1]
      exact le_rfl
    · left
      rw [he, h1]
      unfold u
      have : (2 : ℝ) ^ e0 / 2 = 2 ^ (-(f.prec : ℤ)) * 2 ^ Int.log 2 |x| := by
        rw [he0, ← zpow_add₀ (by norm_num), zpow_add_one₀ (by norm_num)]
        rw [show -(f.prec : ℤ) + Int.log 2 |x| = Int.log 2 |x| - f.prec by ring]
        ring
      rw [this]
      exact mul_le_mul_of_nonneg_left hlo (by positivity)
  have hemin : f.emin ≤ e := le_max_left _ _
  have hemax : e ≤ f.emax := by
    rw [he]
    refine max_le f.emin_le_emax ?_
    by_contra hc
    push Not at hc
    have h1 : (2 : ℝ) ^ (f.prec + f.emax) ≤ |x| := by
      refine le_trans (zpow_le_zpow_right₀ (by norm_num) ?_) hlo
      omega
    have h2 : f.huge < (2 : ℝ) ^ ((f.prec : ℤ) + f.emax) := by
      unfold huge
      rw [zpow_add₀ (by norm_num), zpow_natCast]
      have : (0 : ℝ) < 2 ^ f.emax := by positivity
      nlinarith
    linarith
  rcases lt_or_eq_of_le hmabs with hlt | heq
  · exact ⟨m * 2 ^ e, ⟨m, e, hlt, hemin, hemax, rfl⟩, herr.imp hclose.trans hclose.trans⟩
  · -- the significand is rounded up to a power of two
    have he2 : e < f.emax := by
      refine lt_of_le_of_ne hemax fun h3 => ?_
      have h4 : |(m : ℝ)| = 2 ^ f.prec := by
        rw [← Int.cast_abs, heq]
        push_cast
        rfl
      have h5 : |(m : ℝ) * 2 ^ e| ≤ |x| + 2 ^ e / 2 := by
        have := abs_sub_abs_le_abs_sub ((m : ℝ) * 2 ^ e) x
        rw [abs_sub_comm] at this
        linarith
      rw [abs_mul, abs_of_pos hpe, h4] at h5
      unfold huge at h
      rw [← h3] at h
      linarith [h]
    have hp1 : f.prec = (f.prec - 1) + 1 := by have := f.one_lt_prec; omega
    have hcases : m = 2 ^ f.prec ∨ m = -2 ^ f.prec := by
      rcases abs_choice m with h3 | h3
      · left; omega
      · right; omega
    have key : ∀ s : ℤ, |s| = 1 → (m : ℤ) = s * 2 ^ f.prec → f.IsRep (m * 2 ^ e) := by
      intro s hs h3
      refine ⟨s * 2 ^ (f.prec - 1), e + 1, ?_, by omega, by omega, ?_⟩
      · rw [abs_mul, hs, one_mul, abs_of_pos (by positivity)]
        exact pow_lt_pow_right₀ (by norm_num) (by have := f.one_lt_prec; omega)
      · have h6 : (2 : ℝ) ^ f.prec = 2 ^ (f.prec - 1) * 2 := by
          conv_lhs => rw [hp1]
          rw [pow_succ]
        rw [h3, zpow_add_one₀ (by norm_num)]
        push_cast
        rw [h6]
        ring
    refine ⟨m * 2 ^ e, ?_, herr.imp hclose.trans hclose.trans⟩
    rcases hcases with h3 | h3
    · exact key 1 (by simp) (by rw [h3]; ring)
    · exact key (-1) (by simp) (by rw [h3]; ring)

end Format

namespace Rounding

open Format
variable {f : Format} (R : Rounding f)

/-- Every format has a rounding. -/
theorem nonempty (f : Format) : Nonempty (Rounding f) := by
  classical
  choose near hrep hnear using f.exists_nearest
  have h0 : near 0 = 0 := by
    have := hnear 0 0 rep_zero
    simp only [zero_sub, abs_neg, abs_zero] at this
    exact abs_nonpos_iff.mp this
  refine ⟨⟨fun x => if f.huge ≤ x then .pinf else if x ≤ -f.huge then .ninf else
    if 0 ≤ x then .fin (near x) else .fin (-near (-x)), ?_, ?_, ?_⟩⟩
  · intro x hx
    have h1 := abs_lt.mp hx
    rw [if_neg (by linarith), if_neg (by linarith)]
    by_cases h : 0 ≤ x
    · rw [if_pos h]
      exact ⟨near x, hrep x, rfl, hnear x⟩
    · rw [if_neg h]
      refine ⟨-near (-x), (hrep _).neg, rfl, fun z hz => ?_⟩
      have := hnear (-x) (-z) hz.neg
      rw [show x - -near (-x) = -(-x - near (-x)) by ring, abs_neg]
      rwa [show x - z = -(-x - -z) by ring, abs_neg]
  · intro x hx
    rw [if_pos hx]
  · intro x
    have hp := huge_pos (f := f)
    by_cases h1 : f.huge ≤ x
    · rw [if_pos h1, if_neg (by linarith), if_pos (by linarith)]
      rfl
    · by_cases h2 : x ≤ -f.huge
      · rw [if_neg h1, if_pos h2, if_pos (by linarith)]
        rfl
      · rw [if_neg h1, if_neg h2, if_neg (by linarith), if_neg (by linarith)]
        by_cases h3 : 0 ≤ x
        · rw [if_pos h3]
          rcases lt_or_eq_of_le h3 with h4 | h4
          · rw [if_neg (by linarith), neg_neg]
            rfl
          · rw [← h4]
            simp [h0]
        · rw [if_neg h3, if_pos (by linarith)]
          show _ = Fl.fin (- -near (-x))
          rw [neg_neg]

theorem under (x : ℝ) (h : x ≤ -f.huge) : R.rnd x = .ninf := by
  have h1 := R.over (-x) (by linarith)
  have h2 := R.odd (-x)
  rw [neg_neg, h1] at h2
  exact h2

/-- Numbers of the format are kept. -/
theorem exact {x : ℝ} (h : f.IsRep x) : R.rnd x = .fin x := by
  obtain ⟨y, -, h1, h2⟩ := R.near x h.abs_lt
  have := h2 x h
  rw [sub_self, abs_zero] at this
  rw [h1]
  have : x - y = 0 := abs_nonpos_iff.mp this
  rw [sub_eq_zero.mp this]

@[simp] theorem rnd_zero : R.rnd 0 = .fin 0 := R.exact rep_zero

/-- Results are infinite or numbers of the format. -/
theorem cases (x : ℝ) : (R.rnd x = .pinf ∧ f.huge ≤ x) ∨ (R.rnd x = .ninf ∧ x ≤ -f.huge) ∨
    ∃ y, R.rnd x = .fin y ∧ f.IsRep y ∧ |x| < f.huge := by
  by_cases h : |x| < f.huge
  · obtain ⟨y, h1, h2, -⟩ := R.near x h
    exact Or.inr (Or.inr ⟨y, h2, h1, h⟩)
  · rcases le_abs'.mp (not_lt.mp h) with h1 | h1
    · exact Or.inr (Or.inl ⟨R.under x h1, h1⟩)
    · exact Or.inl ⟨R.over x h1, h1⟩

theorem ne_nan (x : ℝ) : R.rnd x ≠ .nan := by
  rcases R.cases x with ⟨h, -⟩ | ⟨h, -⟩ | ⟨y, h, -⟩ <;> rw [h] <;> simp

theorem rep_of_fin {x y : ℝ} (h : R.rnd x = .fin y) : f.IsRep y := by
  rcases R.cases x with ⟨h', -⟩ | ⟨h', -⟩ | ⟨z, h', h1, -⟩ <;> rw [h'] at h
  · cases h
  · cases h
  · cases h; exact h1

theorem lt_huge_of_fin {x y : ℝ} (h : R.rnd x = .fin y) : |x| < f.huge := by
  rcases R.cases x with ⟨h', -⟩ | ⟨h', -⟩ | ⟨z, h', -, h1⟩ <;> rw [h'] at h
  · cases h
  · cases h
  · exact h1

theorem nearest {x y : ℝ} (h : R.rnd x = .fin y) (z : ℝ) (hz : f.IsRep z) : |x - y| ≤ |x - z| := by
  obtain ⟨y', -, h1, h2⟩ := R.near x (R.lt_huge_of_fin h)
  rw [h] at h1
  cases h1
  exact h2 z hz

/-- Rounding is monotone. -/
theorem mono {x y a b : ℝ} (hxy : x ≤ y) (hx : R.rnd x = .fin a) (hy : R.rnd y = .fin b) : a ≤ b := by
  by_contra hc
  push Not at hc
  have h1 := R.nearest hx b (R.rep_of_fin hy)
  have h2 := R.nearest hy a (R.rep_of_fin hx)
  rcases eq_or_lt_of_le hxy with rfl | hlt
  · rw [hx] at hy
    cases hy
    exact lt_irrefl _ hc
  · -- `x` is at most the midpoint of `b < a` seen from `y`, and at least it seen from `x`
    have h3 : (a + b) / 2 ≤ x := by
      by_contra h4
      push Not at h4
      rcases le_total x b with h5 | h5
      · rw [abs_of_nonpos (by linarith), abs_of_nonpos (by linarith)] at h1
        linarith
      · rw [abs_of_nonpos (by linarith), abs_of_nonneg (by linarith)] at h1
        linarith
    have h4 : y ≤ (a + b) / 2 := by
      by_contra h4
      push Not at h4
      rcases le_total y a with h5 | h5
      · rw [abs_of_nonneg (by linarith), abs_of_nonpos (by linarith)] at h2
        linarith
      · rw [abs_of_nonneg (by linarith), abs_of_nonneg (by linarith)] at h2
        linarith
    linarith

theorem le_rep {x y b : ℝ} (hb : f.IsRep b) (h : x ≤ b) (hx : R.rnd x = .fin y) : y ≤ b :=
  R.mono h hx (R.exact hb)

theorem rep_le {x y a : ℝ} (ha : f.IsRep a) (h : a ≤ x) (hx : R.rnd x = .fin y) : a ≤ y :=
  R.mono h (R.exact ha) hx

/-- Rounding stays between numbers of the format. -/
theorem between {a b x : ℝ} (ha : f.IsRep a) (hb : f.IsRep b) (h1 : a ≤ x) (h2 : x ≤ b) :
    ∃ y, R.rnd x = .fin y ∧ f.IsRep y ∧ a ≤ y ∧ y ≤ b := by
  have hlt : |x| < f.huge := by
    rw [abs_lt]
    have := (abs_lt.mp ha.abs_lt).1
    have := (abs_lt.mp hb.abs_lt).2
    constructor <;> linarith
  obtain ⟨y, hy, hxy, -⟩ := R.near x hlt
  exact ⟨y, hxy, hy, R.rep_le ha h1 hxy, R.le_rep hb h2 hxy⟩

/-- The result of rounding something at least `a`. -/
theorem ge_cases {a x : ℝ} (ha : f.IsRep a) (h : a ≤ x) :
    R.rnd x = .pinf ∨ ∃ y, R.rnd x = .fin y ∧ f.IsRep y ∧ a ≤ y := by
  rcases R.cases x with ⟨h', -⟩ | ⟨-, h'⟩ | ⟨y, hy, hrep, -⟩
  · exact Or.inl h'
  · have := (abs_lt.mp ha.abs_lt).1
    linarith
  · exact Or.inr ⟨y, hy, hrep, R.rep_le ha h hy⟩

/-- The result of rounding something at most `b`. -/
theorem le_cases {b x : ℝ} (hb : f.IsRep b) (h : x ≤ b) :
    R.rnd x = .ninf ∨ ∃ y, R.rnd x = .fin y ∧ f.IsRep y ∧ y ≤ b := by
  rcases R.cases x with ⟨-, h'⟩ | ⟨h', -⟩ | ⟨y, hy, hrep, -⟩
  · have := (abs_lt.mp hb.abs_lt).2
    linarith
  · exact Or.inl h'
  · exact Or.inr ⟨y, hy, hrep, R.le_rep hb h hy⟩

/-- The rounding error. -/
theorem error {x y : ℝ} (h : R.rnd x = .fin y) : |x - y| ≤ f.u * |x| ∨ |x - y| ≤ f.tiny / 2 := by
  obtain ⟨z, hz, hc⟩ := exists_close (R.lt_huge_of_fin h)
  exact hc.imp (R.nearest h z hz).trans (R.nearest h z hz).trans

theorem error' {x y : ℝ} (h : R.rnd x = .fin y) : |x - y| ≤ f.u * |x| + f.tiny / 2 := by
  have h1 : 0 ≤ f.u * |x| := mul_nonneg u_pos.le (abs_nonneg _)
  have h2 : 0 < f.tiny := tiny_pos
  rcases R.error h with h' | h' <;> linarith

/-- Rounding a multiple of the smallest positive number (such as a sum of numbers of the format) has a purely
relative error. -/
theorem error_mult {x y : ℝ} (n : ℤ) (hn : x = n * f.tiny) (h : R.rnd x = .fin y) : |x - y| ≤ f.u * |x| := by
  rcases R.error h with h' | h'
  · exact h'
  · -- `y` is a multiple too, so the distance is a multiple; at most half a unit means equality or a large `x`
    by_cases hs : |n| < 2 ^ f.prec
    · have hrep : f.IsRep x := ⟨n, f.emin, hs, le_rfl, f.emin_le_emax, hn⟩
      rw [R.exact hrep] at h
      cases h
      simp only [sub_self, abs_zero]
      exact mul_nonneg u_pos.le (abs_nonneg _)
    · push Not at hs
      have h1 : (2 : ℝ) ^ f.prec * f.tiny ≤ |x| := by
        rw [hn, abs_mul, abs_of_pos tiny_pos]
        refine mul_le_mul_of_nonneg_right ?_ tiny_pos.le
        exact_mod_cast hs
      have h2 : f.u * (2 ^ f.prec * f.tiny) = f.tiny := by
        unfold u
        rw [← mul_assoc, ← zpow_natCast, ← zpow_add₀ (by norm_num)]
        simp
      have h3 := mul_le_mul_of_nonneg_left h1 (u_pos (f := f)).le
      rw [h2] at h3
      have := tiny_pos (f := f)
      linarith

theorem error_add {a b y : ℝ} (ha : f.IsRep a) (hb : f.IsRep b) (h : R.rnd (a + b) = .fin y) :
    |a + b - y| ≤ f.u * |a + b| := by
  obtain ⟨n, hn⟩ := ha.mult
  obtain ⟨m, hm⟩ := hb.mult
  exact R.error_mult (n + m) (by push_cast; rw [hn, hm]; ring) h

end Rounding

/-! ### Rounded operations -/

/-- How results are rounded. -/
structure Arith where
  rnd : ℝ → Fl

namespace Arith

/-- Exact arithmetic, as in `Fl`. -/
def exact : Arith := ⟨.fin⟩

variable (A : Arith)

/-- Rounding the result of an exact operation. -/
def fix : Fl → Fl
  | .fin x => A.rnd x
  | s => s

noncomputable section

/-- A number written in the program. -/
def lit (x : ℝ) : Fl := A.rnd x
def add (x y : Fl) : Fl := A.fix (x + y)
def sub (x y : Fl) : Fl := A.fix (x - y)
def mul (x y : Fl) : Fl := A.fix (x * y)
def div (x y : Fl) : Fl := A.fix (x / y)
def sqrt (x : Fl) : Fl := A.fix (Fl.sqrt x)
/-- `tf.square(x)` and `x ** n`. -/
def pow (x : Fl) (n : Nat) : Fl := A.fix (Fl.npow x n)

end

@[simp] theorem exact_fix (x : Fl) : exact.fix x = x := by cases x <;> rfl
@[simp] theorem exact_lit (x : ℝ) : exact.lit x = .fin x := rfl
@[simp] theorem exact_add (x y : Fl) : exact.add x y = x + y := exact_fix _
@[simp] theorem exact_sub (x y : Fl) : exact.sub x y = x - y := exact_fix _
@[simp] theorem exact_mul (x y : Fl) : exact.mul x y = x * y := exact_fix _
@[simp] theorem exact_div (x y : Fl) : exact.div x y = x / y := exact_fix _
@[simp] theorem exact_sqrt (x : Fl) : exact.sqrt x = Fl.sqrt x := exact_fix _
@[simp] theorem exact_pow (x : Fl) (n : Nat) : exact.pow x n = Fl.npow x n := exact_fix _

@[simp] theorem add_fin (a b : ℝ) : A.add (.fin a) (.fin b) = A.rnd (a + b) := rfl
@[simp] theorem sub_fin (a b : ℝ) : A.sub (.fin a) (.fin b) = A.rnd (a - b) := by
  rw [sub, Fl.sub_fin]
  rfl
@[simp] theorem mul_fin (a b : ℝ) : A.mul (.fin a) (.fin b) = A.rnd (a * b) := rfl
theorem div_fin {a b : ℝ} (h : b ≠ 0) : A.div (.fin a) (.fin b) = A.rnd (a / b) := by
  rw [div, Fl.div_fin h]
  rfl
theorem sqrt_fin {a : ℝ} (h : 0 ≤ a) : A.sqrt (.fin a) = A.rnd (Real.sqrt a) := by
  rw [sqrt, Fl.sqrt_fin h]
  rfl
@[simp] theorem pow_fin (a : ℝ) (n : Nat) : A.pow (.fin a) n = A.rnd (a ^ n) := by
  rw [pow, Fl.npow_fin]
  rfl

end Arith

/-- The arithmetic of a format. -/
def Rounding.arith {f : Format} (R : Rounding f) : Arith := ⟨R.rnd⟩

@[simp] theorem Rounding.arith_rnd {f : Format} (R : Rounding f) : R.arith.rnd = R.rnd := rfl
@[simp] theorem Rounding.arith_lit {f : Format} (R : Rounding f) (x : ℝ) : R.arith.lit x = R.rnd x := rfl

end PySGMCMC
