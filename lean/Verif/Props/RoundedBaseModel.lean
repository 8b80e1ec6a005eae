import Verif.Props.RoundedUtils
import Verif.Props.BaseModel

/-!
# Normalization in floating point arithmetic (C112)
-/

namespace PySGMCMC.Rounded

open Format BaseModel

variable {f : Format} (R : Rounding f)

theorem u_le_quarter (f : Format) : f.u ≤ 1 / 4 := by
  unfold u
  have : (2 : ℝ) ^ (-(f.prec : ℤ)) ≤ 2 ^ (-2 : ℤ) :=
    zpow_le_zpow_right₀ (by norm_num) (by have := f.one_lt_prec; omega)
  norm_num at this ⊢
  linarith

/-- Differences of different numbers do not underflow. -/
theorem sub_pos_rep {a b : ℝ} (ha : f.IsRep a) (hb : f.IsRep b) (hab : a < b) : f.tiny ≤ b - a := by
  obtain ⟨n, hn⟩ := ha.mult
  obtain ⟨m, hm⟩ := hb.mult
  have ht := tiny_pos (f := f)
  have h1 : (n : ℝ) < m := by
    by_contra hc
    push Not at hc
    have := mul_le_mul_of_nonneg_right hc ht.le
    rw [← hn, ← hm] at this
    linarith
  have h2 : (n : ℝ) + 1 ≤ m := by
    have : n < m := by exact_mod_cast h1
    exact_mod_cast this
  rw [hn, hm]
  nlinarith

/-- The rounded difference of two numbers `a ≤ b` of the format. -/
theorem rnd_sub {a b : ℝ} (ha : f.IsRep a) (hb : f.IsRep b) (hab : a ≤ b) (hov : b - a < f.huge) :
    ∃ d, R.rnd (b - a) = .fin d ∧ f.IsRep d ∧ 0 ≤ d ∧ (a < b → 0 < d) ∧ |b - a - d| ≤ f.u * (b - a) := by
  obtain ⟨d, hd, hr, -⟩ := R.near (b - a) (by rwa [abs_of_nonneg (by linarith)])
  refine ⟨d, hr, hd, R.rep_le rep_zero (by linarith) hr, fun h => ?_, ?_⟩
  · exact tiny_pos.trans_le (R.rep_le rep_tiny (sub_pos_rep ha hb h) hr)
  · have := R.error_add hb ha.neg (by rw [← sub_eq_add_neg]; exact hr)
    rwa [← sub_eq_add_neg, abs_of_nonneg (by linarith : 0 ≤ b - a)] at this

/-- **C112** In floating point arithmetic of any precision `zero_one_normalization` maps every number between two
different bounds into `[0, 1]`, the bounds to exactly `0` and `1`, and preserves the order, as long as the difference of
the bounds does not overflow. -/
theorem C112_zero_one (hu : f.HasUnit) {lo hi : ℝ} (hlo : f.IsRep lo) (hhi : f.IsRep hi) (hlt : lo < hi)
    (hov : hi - lo < f.huge) :
    ∃ g : ℝ → ℝ, (∀ x, f.IsRep x → lo ≤ x → x ≤ hi → zeroOne R.arith (.fin x) (.fin lo) (.fin hi) = .fin (g x) ∧
        f.IsRep (g x) ∧ 0 ≤ g x ∧ g x ≤ 1) ∧
      g lo = 0 ∧ g hi = 1 ∧
      ∀ x y, f.IsRep x → f.IsRep y → lo ≤ x → x ≤ y → y ≤ hi → g x ≤ g y := by
  obtain ⟨b, hb, hbr, -, hb0, -⟩ := rnd_sub R hlo hhi hlt.le hov
  have hb0 := hb0 hlt
  have key : ∀ x, f.IsRep x → lo ≤ x → x ≤ hi → ∃ a r, R.rnd (x - lo) = .fin a ∧ R.rnd (a / b) = .fin r ∧
      f.IsRep r ∧ 0 ≤ a ∧ a ≤ b ∧ 0 ≤ r ∧ r ≤ 1 ∧ zeroOne R.arith (.fin x) (.fin lo) (.fin hi) = .fin r := by
    intro x hx h1 h2
    obtain ⟨a, ha, har, ha0, -, -⟩ := rnd_sub R hlo hx h1 (by linarith)
    have hab : a ≤ b := R.mono (by linarith) ha hb
    obtain ⟨r, hr, hrr, hr0, hr1⟩ := R.between rep_zero hu.one (x := a / b) (div_nonneg ha0 hb0.le)
      ((div_le_one hb0).2 hab)
    refine ⟨a, r, ha, hr, hrr, ha0, hab, hr0, hr1, ?_⟩
    unfold zeroOne
    rw [Arith.sub_fin, Arith.sub_fin, R.arith_rnd, ha, hb, Arith.div_fin _ hb0.ne']
    exact hr
  classical
  choose! a r h1 h2 h3 h4 h5 h6 h7 h8 using key
  refine ⟨r, fun x hx hl hh => ⟨h8 x hx hl hh, h3 x hx hl hh, h6 x hx hl hh, h7 x hx hl hh⟩, ?_, ?_, ?_⟩
  · have e1 := h1 lo hlo le_rfl hlt.le
    have e2 := h2 lo hlo le_rfl hlt.le
    rw [sub_self, R.rnd_zero] at e1
    rw [← Fl.fin_inj.mp e1, zero_div, R.rnd_zero] at e2
    exact (Fl.fin_inj.mp e2).symm
  · have e1 := h1 hi hhi hlt.le le_rfl
    have e2 := h2 hi hhi hlt.le le_rfl
    rw [hb] at e1
    rw [← Fl.fin_inj.mp e1, div_self hb0.ne', R.exact hu.one] at e2
    exact (Fl.fin_inj.mp e2).symm
  · intro x y hx hy hl hxy hh
    have hax : a x ≤ a y := R.mono (by linarith) (h1 x hx hl (hxy.trans hh)) (h1 y hy (hl.trans hxy) hh)
    exact R.mono (div_le_div_of_nonneg_right hax hb0.le) (h2 x hx hl (hxy.trans hh)) (h2 y hy (hl.trans hxy) hh)

variable {ι : Type}

/-- **C112** The same for a whole array: in every non-constant column whose range does not overflow, all rows are mapped
into `[0, 1]`, both ends are attained and the order of the rows is kept; the bounds returned are the exact minimum and
maximum.  A constant column becomes `NaN`. -/
theorem C112_array (hu : f.HasUnit) (X : List (ι → ℝ)) (h : X ≠ []) (hrep : ∀ r ∈ X, ∀ j, f.IsRep (r j)) :
    ∃ (N : Rows ι) (lo hi : ι → ℝ),
      zeroOneNormalization R.arith (lift X) none none = .ok (N, (fun j => .fin (lo j)), fun j => .fin (hi j)) ∧
      (∀ j, (∃ r ∈ X, r j = lo j) ∧ (∃ r ∈ X, r j = hi j) ∧ ∀ r ∈ X, lo j ≤ r j ∧ r j ≤ hi j) ∧
      (∀ j, NonConstant X j → hi j - lo j < f.huge →
        ∃ g : ℝ → ℝ, column N j = (col X j).map (fun x => .fin (g x)) ∧
          (∀ x ∈ col X j, 0 ≤ g x ∧ g x ≤ 1) ∧ (∃ x ∈ col X j, g x = 0) ∧ (∃ x ∈ col X j, g x = 1) ∧
          (∀ x ∈ col X j, ∀ y ∈ col X j, x ≤ y → g x ≤ g y)) ∧
      (∀ j, ¬ NonConstant X j → ∀ v ∈ column N j, v = .nan) := by
  obtain ⟨lo, hlo, hlo'⟩ := minAxis0_lift h
  obtain ⟨hi, hhi, hhi'⟩ := maxAxis0_lift h
  refine ⟨(lift X).map fun row j => zeroOne R.arith (row j) (.fin (lo j)) (.fin (hi j)), lo, hi, ?_, ?_, ?_, ?_⟩
  · simp only [zeroOneNormalization, givenOr, hlo, hhi]
  · exact fun j => ⟨(hlo' j).1, (hhi' j).1, fun r hr => ⟨(hlo' j).2 r hr, (hhi' j).2 r hr⟩⟩
  · intro j hj hov
    have hlt : lo j < hi j := by
      obtain ⟨r, hr, s, hs, hne⟩ := hj
      have h1 := (hlo' j).2 r hr
      have h2 := (hlo' j).2 s hs
      have h3 := (hhi' j).2 r hr
      have h4 := (hhi' j).2 s hs
      rcases lt_or_gt_of_ne hne with h | h <;> linarith
    have hrl : f.IsRep (lo j) := by
      obtain ⟨r, hr, he⟩ := (hlo' j).1
      exact he ▸ hrep r hr j
    have hrh : f.IsRep (hi j) := by
      obtain ⟨r, hr, he⟩ := (hhi' j).1
      exact he ▸ hrep r hr j
    have hcol : ∀ x ∈ col X j, f.IsRep x ∧ lo j ≤ x ∧ x ≤ hi j := by
      intro x hx
      obtain ⟨r, hr, rfl⟩ := List.mem_map.1 hx
      exact ⟨hrep r hr j, (hlo' j).2 r hr, (hhi' j).2 r hr⟩
    obtain ⟨g, hg, hg0, hg1, hgm⟩ := C112_zero_one R hu hrl hrh hlt hov
    refine ⟨g, ?_, ?_, ?_, ?_, ?_⟩
    · refine column_map X _ j _ ?_
      intro r hr
      exact (hg (r j) (hrep r hr j) ((hlo' j).2 r hr) ((hhi' j).2 r hr)).1
    · intro x hx
      obtain ⟨h1, h2, h3⟩ := hcol x hx
      exact ((hg x h1 h2 h3).2).2
    · obtain ⟨r, hr, he⟩ := (hlo' j).1
      exact ⟨r j, List.mem_map.2 ⟨r, hr, rfl⟩, by rw [he, hg0]⟩
    · obtain ⟨r, hr, he⟩ := (hhi' j).1
      exact ⟨r j, List.mem_map.2 ⟨r, hr, rfl⟩, by rw [he, hg1]⟩
    · intro x hx y hy hxy
      exact hgm x y (hcol x hx).1 (hcol y hy).1 (hcol x hx).2.1 hxy (hcol y hy).2.2
  · intro j hj v hv
    obtain ⟨row, hrow, rfl⟩ := List.mem_map.1 hv
    obtain ⟨row', hrow', rfl⟩ := List.mem_map.1 hrow
    obtain ⟨r, hr, rfl⟩ := List.mem_map.1 hrow'
    have heq : ∀ s ∈ X, s j = r j := by
      intro s hs
      by_contra hne
      exact hj ⟨s, hs, r, hr, hne⟩
    obtain ⟨a, ha, ha'⟩ := (hlo' j).1
    obtain ⟨b, hb, hb'⟩ := (hhi' j).1
    rw [heq a ha] at ha'
    rw [heq b hb] at hb'
    show zeroOne R.arith (.fin (r j)) (.fin (lo j)) (.fin (hi j)) = .nan
    unfold zeroOne
    rw [← ha', ← hb', Arith.sub_fin, sub_self, R.arith_rnd, R.rnd_zero]
    simp [Arith.div, Fl.div_fin', Fl.infOf, Arith.fix]

/-- Dividing by `b` and multiplying by `b` again, both rounded. -/
theorem mul_div_close {d b r m : ℝ} (hb : 0 < b) (hr : R.rnd (d / b) = .fin r) (hm : R.rnd (b * r) = .fin m) :
    |m - d| ≤ 9 / 4 * f.u * |d| + f.tiny / 2 * (5 / 4 * b + 1) := by
  have hu := u_le_quarter f
  have hu0 : 0 < f.u := u_pos
  have ht := tiny_pos (f := f)
  have h1 := R.error' hr
  have h2 := R.error' hm
  have hd := abs_nonneg d
  -- the product
  have h3 : |b * r - d| ≤ f.u * |d| + f.tiny / 2 * b := by
    have : b * r - d = -(b * (d / b - r)) := by field_simp; ring
    rw [this, abs_neg, abs_mul, abs_of_pos hb]
    rw [abs_div, abs_of_pos hb] at h1
    calc b * |d / b - r| ≤ b * (f.u * (|d| / b) + f.tiny / 2) := mul_le_mul_of_nonneg_left h1 hb.le
      _ = f.u * |d| + f.tiny / 2 * b := by field_simp
  have h4 : |b * r| ≤ |d| + (f.u * |d| + f.tiny / 2 * b) := by
    have := abs_sub_abs_le_abs_sub (b * r) d
    linarith
  have h5 : |m - d| ≤ |b * r - m| + |b * r - d| := by
    have := abs_sub_le m (b * r) d
    rwa [abs_sub_comm m (b * r)] at this
  have h6 : f.u * |b * r| ≤ f.u * (|d| + (f.u * |d| + f.tiny / 2 * b)) := mul_le_mul_of_nonneg_left h4 hu0.le
  have h7 : f.u * (f.u * |d|) ≤ 1 / 4 * (f.u * |d|) := by nlinarith [mul_nonneg hu0.le hd]
  have h8 : f.u * (f.tiny / 2 * b) ≤ 1 / 4 * (f.tiny / 2 * b) := by
    have : 0 ≤ f.tiny / 2 * b := by positivity
    nlinarith
  nlinarith

/-- **C112** Normalizing with a mean and a positive standard deviation and unnormalizing again recovers every number up
to a few units in the last place of the number and of its distance from the mean (and underflow), unless something
overflows. -/
theorem C112_standardize {x m s z y : ℝ} (hx : f.IsRep x) (hm : f.IsRep m) (hs0 : 0 < s)
    (hz : standardize R.arith (.fin x) (.fin m) (.fin s) = .fin z)
    (hy : unstandardize R.arith (.fin z) (.fin m) (.fin s) = .fin y) :
    |y - x| ≤ f.u * |x| + 5 * f.u * |x - m| + f.tiny * (1 + s) := by
  have hu := u_le_quarter f
  have hu0 : 0 < f.u := u_pos
  have ht := tiny_pos (f := f)
  unfold standardize at hz
  unfold unstandardize at hy
  rw [Arith.sub_fin, R.arith_rnd] at hz
  rw [Arith.mul_fin, R.arith_rnd] at hy
  -- the difference is finite
  rcases R.cases (x - m) with ⟨h, -⟩ | ⟨h, -⟩ | ⟨d, hd, -, -⟩
  · rw [h] at hz
    exfalso
    simp only [Arith.div] at hz
    have : (Fl.pinf / Fl.fin s) = .pinf := by
      show (if s = 0 then Fl.pinf else Fl.infOf s) = _
      rw [if_neg hs0.ne', Fl.infOf, if_pos hs0]
    rw [this] at hz
    cases hz
  · rw [h] at hz
    exfalso
    simp only [Arith.div] at hz
    have : (Fl.ninf / Fl.fin s) = .ninf := by
      show (if s = 0 then Fl.ninf else Fl.infOf (-s)) = _
      rw [if_neg hs0.ne', Fl.infOf, if_neg (by linarith), if_pos (by linarith)]
    rw [this] at hz
    cases hz
  rw [hd, Arith.div_fin _ hs0.ne', R.arith_rnd] at hz
  rcases R.cases (z * s) with ⟨h, -⟩ | ⟨h, -⟩ | ⟨p, hp, hpr, -⟩
  · rw [h] at hy
    cases hy
  · rw [h] at hy
    cases hy
  rw [hp, Arith.add_fin, R.arith_rnd] at hy
  have e1 : |x - m - d| ≤ f.u * |x - m| := by
    have := R.error_add hx hm.neg (by rw [← sub_eq_add_neg]; exact hd)
    rwa [← sub_eq_add_neg] at this
  have e2 := mul_div_close R hs0 hz (by rw [mul_comm]; exact hp)
  have e3 := R.error_add hpr hm hy
  have hxm := abs_nonneg (x - m)
  have hxa := abs_nonneg x
  have hda : |d| ≤ 5 / 4 * |x - m| := by
    have := abs_sub_abs_le_abs_sub d (x - m)
    rw [abs_sub_comm d] at this
    nlinarith
  -- the total error before the last rounding
  have e4 : |p - (x - m)| ≤ f.u * |x - m| + (9 / 4 * f.u * |d| + f.tiny / 2 * (5 / 4 * s + 1)) := by
    have := abs_sub_le p d (x - m)
    rw [abs_sub_comm d] at this
    linarith
  have e5 : 9 / 4 * f.u * |d| ≤ 9 / 4 * f.u * (5 / 4 * |x - m|) :=
    mul_le_mul_of_nonneg_left hda (by positivity)
  set E : ℝ := f.u * |x - m| + (9 / 4 * f.u * (5 / 4 * |x - m|) + f.tiny / 2 * (5 / 4 * s + 1)) with hE
  have e6 : |p - (x - m)| ≤ E := by linarith
  have hE0 : 0 ≤ E := (abs_nonneg _).trans e6
  have e7 : |p + m| ≤ |x| + E := by
    have h1 : p + m = x + (p - (x - m)) := by ring
    have h2 := abs_add_le x (p - (x - m))
    rw [← h1] at h2
    linarith
  have e8 : |y - x| ≤ |p + m - y| + |p - (x - m)| := by
    have := abs_sub_le y (p + m) x
    rw [abs_sub_comm y (p + m), show p + m - x = p - (x - m) by ring] at this
    exact this
  have e9 : f.u * |p + m| ≤ f.u * |x| + 1 / 4 * E := by
    have := mul_le_mul_of_nonneg_left e7 hu0.le
    nlinarith
  have e10 : |y - x| ≤ f.u * |x| + 5 / 4 * E := by linarith
  have hux : 0 ≤ f.u * |x - m| := by positivity
  have hts : 0 < f.tiny * s := by positivity
  nlinarith

/-- The conditions of `C112_zero_one` for float32 and the bounds `-1` and `2`. -/
example : float32.HasUnit ∧ float32.IsRep (-1) ∧ float32.IsRep 2 ∧ (2 : ℝ) - -1 < float32.huge := by
  refine ⟨float32_unit, float32_unit.one.neg, float32_unit.two, ?_⟩
  unfold huge float32
  norm_num

end PySGMCMC.Rounded
