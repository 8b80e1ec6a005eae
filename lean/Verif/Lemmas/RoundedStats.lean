import Verif.Props.RoundedUtils

/-!
# The adaptive statistics in floating point arithmetic: error analysis of one step
-/

namespace PySGMCMC.Rounded

open Format

/-- What a format must offer for the theorems about the adaptive statistics; `float32` and `float64` do. -/
structure _root_.PySGMCMC.Format.Adequate (f : Format) : Prop where
  unit : f.HasUnit
  u_le : f.u ≤ 1 / 2 ^ 24
  tiny_le : f.tiny * 2 ^ 60 ≤ f.u ^ 3
  emin_le : f.emin ≤ -54
  range : 127 < f.emax + f.prec
  recip : f.tiny * f.largest ≤ 1

variable {f : Format} (R : Rounding f)

theorem _root_.PySGMCMC.Format.Adequate.u_small (h : f.Adequate) : f.u ≤ 1 / 10000000 :=
  h.u_le.trans (by norm_num)

/-- `float32` is adequate. -/
theorem float32_adequate : float32.Adequate where
  unit := float32_unit
  u_le := by unfold u float32; norm_num
  tiny_le := by unfold u tiny float32; norm_num
  emin_le := by norm_num [float32]
  range := by norm_num [float32]
  recip := by unfold tiny largest float32; norm_num

/-- `float64` is adequate. -/
theorem float64_adequate : float64.Adequate where
  unit := float64_unit
  u_le := by
    have : (2 : ℝ) ^ (-53 : ℤ) ≤ 2 ^ (-24 : ℤ) := zpow_le_zpow_right₀ (by norm_num) (by norm_num)
    calc float64.u = (2 : ℝ) ^ (-53 : ℤ) := rfl
      _ ≤ 2 ^ (-24 : ℤ) := this
      _ = 1 / 2 ^ 24 := by norm_num
  tiny_le := by
    have h : (2 : ℝ) ^ (-1074 : ℤ) * 2 ^ 60 ≤ 2 ^ (-159 : ℤ) := by
      rw [← zpow_natCast, ← zpow_add₀ two_ne_zero]
      exact zpow_le_zpow_right₀ (by norm_num) (by norm_num)
    calc float64.tiny * 2 ^ 60 = (2 : ℝ) ^ (-1074 : ℤ) * 2 ^ 60 := rfl
      _ ≤ 2 ^ (-159 : ℤ) := h
      _ = ((2 : ℝ) ^ (-53 : ℤ)) ^ 3 := by norm_num
      _ = float64.u ^ 3 := rfl
  emin_le := by norm_num [float64]
  range := by norm_num [float64]
  recip := by
    have h : (2 : ℝ) ^ (-1074 : ℤ) * ((2 ^ 53 - 1) * 2 ^ (971 : ℤ)) ≤ 1 := by
      have h1 : ((2 : ℝ) ^ 53 - 1) * 2 ^ (971 : ℤ) ≤ 2 ^ (53 : ℤ) * 2 ^ (971 : ℤ) :=
        mul_le_mul_of_nonneg_right (by norm_num) (by positivity)
      have h2 : (2 : ℝ) ^ (-1074 : ℤ) * (2 ^ (53 : ℤ) * 2 ^ (971 : ℤ)) ≤ 1 := by
        rw [← zpow_add₀ two_ne_zero, ← zpow_add₀ two_ne_zero]
        exact zpow_le_one_of_nonpos₀ (by norm_num) (by norm_num)
      exact (mul_le_mul_of_nonneg_left h1 (by positivity)).trans h2
    exact h

/-- All powers of two in the range. -/
theorem rep_two_pow {e : ℤ} (h1 : f.emin ≤ e) (h2 : e < f.emax + f.prec) : f.IsRep ((2 : ℝ) ^ e) := by
  rcases le_or_gt e f.emax with h | h
  · exact rep_pow h1 h
  · refine ⟨2 ^ (e - f.emax).toNat, f.emax, ?_, f.emin_le_emax, le_rfl, ?_⟩
    · rw [abs_of_pos (by positivity)]
      exact pow_lt_pow_right₀ (by norm_num) (by omega)
    · push_cast
      rw [← zpow_natCast, ← zpow_add₀ two_ne_zero]
      congr 1
      omega

theorem _root_.PySGMCMC.Format.Adequate.rep_pow (hA : f.Adequate) {e : ℕ} (h : e ≤ 127) : f.IsRep ((2 : ℝ) ^ e) := by
  have := rep_two_pow (f := f) (e := e) (by have := hA.emin_le; omega) (by have := hA.range; omega)
  exact_mod_cast this

/-! ## Real inequalities -/

/-- Weighted Cauchy–Schwarz: how the ratio of squared mean and second moment changes when a value is averaged in. -/
theorem weighted_cauchy {r g h rho N : ℝ} (hr0 : 0 ≤ r) (hr1 : r ≤ 1) (hN : 0 < N) (hg : g ^ 2 ≤ rho * N) :
    ((1 - r) * |g| + r * |h|) ^ 2 ≤ ((1 - r) * rho + r) * ((1 - r) * N + r * h ^ 2) := by
  have hrho : 0 ≤ rho := by
    by_contra hcon
    push Not at hcon
    nlinarith [sq_nonneg g, mul_pos_of_neg_of_neg hcon (neg_lt_zero.2 hN)]
  have key : 2 * (|g| * |h|) ≤ rho * h ^ 2 + N := by
    have h1 : 2 * (|g| * |h|) * N ≤ (rho * h ^ 2 + N) * N := by
      have h2 : 0 ≤ (|g| * |h| - N) ^ 2 := sq_nonneg _
      have h3 : (|g| * |h|) ^ 2 = g ^ 2 * h ^ 2 := by rw [mul_pow, sq_abs, sq_abs]
      have h4 : g ^ 2 * h ^ 2 ≤ rho * N * h ^ 2 := mul_le_mul_of_nonneg_right hg (sq_nonneg h)
      nlinarith
    exact le_of_mul_le_mul_right h1 hN
  have e1 : ((1 - r) * |g| + r * |h|) ^ 2 =
      (1 - r) ^ 2 * g ^ 2 + (1 - r) * r * (2 * (|g| * |h|)) + r ^ 2 * h ^ 2 := by
    rw [← sq_abs g, ← sq_abs h]; ring
  have h5 : (1 - r) ^ 2 * g ^ 2 ≤ (1 - r) ^ 2 * (rho * N) := mul_le_mul_of_nonneg_left hg (sq_nonneg _)
  have h6 : (1 - r) * r * (2 * (|g| * |h|)) ≤ (1 - r) * r * (rho * h ^ 2 + N) :=
    mul_le_mul_of_nonneg_left key (mul_nonneg (by linarith) hr0)
  rw [e1]
  nlinarith

/-- The step of the ratio invariant: with `T = tau + 1`, `S = ratio * tau`. -/
theorem ratio_invariant {u T S rho' y : ℝ} (hu0 : 0 ≤ u) (hu : u ≤ 1 / 10000000) (hT : 7 / 4 ≤ T) (huT : 64 * (T * u) ≤ 1)
    (hS0 : 0 ≤ S) (hS : S ^ 2 ≤ 4 * T) (hr0 : 0 ≤ rho') (hr : rho' * T ≤ (S + 1) * (1 + 25 * u)) (hy0 : 0 ≤ y)
    (hy : y ≤ T - S + 20 * u * T) : (rho' * y) ^ 2 ≤ 4 * (y + 1) := by
  have hT0 : 0 < T := by linarith
  have main : (S + 1) ^ 2 * (1 + 51 * u) * (T - S + 20 * u * T) ≤ 4 * T ^ 2 := by
    have hz : 0 ≤ T - S + 20 * u * T := hy0.trans hy
    rcases le_total T (S ^ 2) with h | h
    · -- near the boundary the ratio shrinks
      have hS1 : 13 / 10 ≤ S := by nlinarith
      have hST : S ≤ 8 / 5 * T := by nlinarith
      have h365 : 400 * (u * T) ≤ S := by
        refine (abs_le_of_sq_le_sq' (a := 400 * (u * T)) ?_ hS0).2
        have h1 : u * (u * T) ≤ 1 / 10000000 * (1 / 64) :=
          mul_le_mul hu (by linarith) (by positivity) (by norm_num)
        have h2 : u * (u * T) * T ≤ 1 / 10000000 * (1 / 64) * T := mul_le_mul_of_nonneg_right h1 hT0.le
        nlinarith
      have h1 : (S + 1) ^ 2 ≤ 4 * T + 2 * S + 1 := by nlinarith
      have h2 : (S + 1) ^ 2 * (T - S + 20 * u * T) ≤ (4 * T + 2 * S + 1) * (T - S + 20 * u * T) :=
        mul_le_mul_of_nonneg_right h1 hz
      have h3 : (4 * T + 2 * S + 1) * (T - S) ≤ 4 * T ^ 2 - 6 / 5 * (T * S) := by nlinarith
      have h4 : (4 * T + 2 * S + 1) * (20 * u * T) ≤ 160 * (u * T) * T := by
        have : 4 * T + 2 * S + 1 ≤ 8 * T := by nlinarith
        have := mul_le_mul_of_nonneg_right this (by positivity : 0 ≤ 20 * u * T)
        nlinarith
      have h5 : (S + 1) ^ 2 * (T - S + 20 * u * T) ≤ 4 * T ^ 2 - 6 / 5 * (T * S) + 160 * (u * T) * T := by
        nlinarith
      have h6 : (S + 1) ^ 2 * (T - S + 20 * u * T) * (1 + 51 * u) ≤
          (4 * T ^ 2 - 6 / 5 * (T * S) + 160 * (u * T) * T) * (1 + 51 * u) :=
        mul_le_mul_of_nonneg_right h5 (by linarith)
      have h7 : 400 * (u * T) * T ≤ S * T := mul_le_mul_of_nonneg_right h365 hT0.le
      have h8 : 0 ≤ u * (T * S) := by positivity
      have h9 : u * (u * T * T) ≤ 1 / 10000000 * (u * T * T) := mul_le_mul_of_nonneg_right hu (by positivity)
      nlinarith
    · have h1 : (S + 1) ^ 2 ≤ 16 / 5 * T := by nlinarith [sq_nonneg (S - 1)]
      have h2 : T - S + 20 * u * T ≤ T * (1 + 20 * u) := by linarith
      have h3 : (S + 1) ^ 2 * (1 + 51 * u) * (T - S + 20 * u * T) ≤ 16 / 5 * T * (1 + 51 * u) * (T * (1 + 20 * u)) := by
        refine mul_le_mul (mul_le_mul_of_nonneg_right h1 (by linarith)) h2 hz (by positivity)
      have h4 : 16 / 5 * ((1 + 51 * u) * (1 + 20 * u)) ≤ 4 := by nlinarith
      have h5 : 16 / 5 * T * (1 + 51 * u) * (T * (1 + 20 * u)) = T ^ 2 * (16 / 5 * ((1 + 51 * u) * (1 + 20 * u))) := by
        ring
      have h6 := mul_le_mul_of_nonneg_left h4 (sq_nonneg T)
      linarith
  have h1 : (rho' * T) ^ 2 ≤ ((S + 1) * (1 + 25 * u)) ^ 2 := by gcongr
  have h2 : (1 + 25 * u) ^ 2 ≤ 1 + 51 * u := by nlinarith
  have h3 : rho' ^ 2 * y * T ^ 2 ≤ 4 * T ^ 2 := by
    calc rho' ^ 2 * y * T ^ 2 = (rho' * T) ^ 2 * y := by ring
      _ ≤ ((S + 1) * (1 + 25 * u)) ^ 2 * y := mul_le_mul_of_nonneg_right h1 hy0
      _ = (S + 1) ^ 2 * (1 + 25 * u) ^ 2 * y := by ring
      _ ≤ (S + 1) ^ 2 * (1 + 51 * u) * y := by gcongr
      _ ≤ (S + 1) ^ 2 * (1 + 51 * u) * (T - S + 20 * u * T) := by gcongr
      _ ≤ _ := main
  have h4 : rho' ^ 2 * y ≤ 4 := le_of_mul_le_mul_right h3 (by positivity)
  calc (rho' * y) ^ 2 = rho' ^ 2 * y * y := by ring
    _ ≤ 4 * y := mul_le_mul_of_nonneg_right h4 hy0
    _ ≤ 4 * (y + 1) := by linarith

/-! ## Rounded numbers -/

theorem near_of_le {x : ℝ} (h : |x| ≤ f.largest) : ∃ y, f.IsRep y ∧ R.rnd x = .fin y := by
  obtain ⟨y, hy, h', -⟩ := R.near x (h.trans_lt largest_lt_huge)
  exact ⟨y, hy, h'⟩

theorem abs_le_of_error {x y e : ℝ} (h : |x - y| ≤ e) : |y| ≤ |x| + e := by
  have := abs_sub_abs_le_abs_sub y x
  rw [abs_sub_comm] at this
  linarith

theorem rep_dyadic (hA : f.Adequate) {m e : ℤ} (hm : |m| < 8) (he : -54 ≤ e) (he' : e ≤ 0) :
    f.IsRep (m * (2 : ℝ) ^ e) := by
  refine ⟨m, e, ?_, by have := hA.emin_le; omega, by have := hA.unit.2; omega, rfl⟩
  have : 2 ^ 3 ≤ 2 ^ f.prec := by
    refine Nat.pow_le_pow_right (by norm_num) ?_
    by_contra hcon
    have h1 : f.u ≥ (2 : ℝ) ^ (-(3 : ℤ)) := zpow_le_zpow_right₀ (by norm_num) (by omega)
    have := hA.u_small
    norm_num at h1
    linarith
  norm_num at this
  have h8 : (8 : ℤ) ≤ 2 ^ f.prec := by exact_mod_cast this
  linarith

theorem rep_seven_fourths (hA : f.Adequate) : f.IsRep (7 / 4) := by
  have := rep_dyadic hA (m := 7) (e := -2) (by norm_num) (by norm_num) (by norm_num)
  norm_num at this
  exact this

theorem rep_five_eighths (hA : f.Adequate) : f.IsRep (5 / 8) := by
  have := rep_dyadic hA (m := 5) (e := -3) (by norm_num) (by norm_num) (by norm_num)
  norm_num at this
  exact this

theorem one_le_largest (hA : f.Adequate) : 1 ≤ f.largest := by
  have := hA.unit.one.abs_le
  rwa [abs_one] at this

theorem tiny_le_u (hA : f.Adequate) : f.tiny * 2 ^ 60 ≤ f.u * (f.u * f.u) := by
  have := hA.tiny_le
  linarith [pow_succ f.u 2, sq f.u, mul_assoc f.u f.u f.u, mul_comm (f.u * f.u) f.u]

/-- The learning rate of the statistics. -/
theorem rate_step (hA : f.Adequate) {tau : ℝ} (ht : f.IsRep tau) (h1 : 3 / 4 ≤ tau) (h2 : 64 * ((tau + 1) * f.u) ≤ 1)
    (h3 : tau + 1 ≤ f.largest) :
    ∃ r, rhsR R.arith (.fin tau) = .fin r ∧ f.IsRep r ∧ 0 < r ∧ r ≤ 5 / 8 ∧
      |r - 1 / (tau + 1)| ≤ 3 * f.u / (tau + 1) ∧ 32 * f.u ≤ r := by
  have hu0 : 0 < f.u := u_pos
  have hu := hA.u_small
  have hT : 0 < tau + 1 := by linarith
  obtain ⟨a, har, ha⟩ := near_of_le R (x := tau + 1) (by rw [abs_of_pos hT]; exact h3)
  have e1 := R.error_add ht hA.unit.one ha
  rw [abs_of_pos hT] at e1
  have e1' := abs_le.mp e1
  have ha1 : 7 / 4 ≤ a := R.rep_le (rep_seven_fourths hA) (by linarith) ha
  have ha0 : 0 < a := by linarith
  have hd0 : 0 < 1 / a := by positivity
  have hd1 : 1 / a ≤ 4 / 7 := by
    rw [div_le_div_iff₀ ha0 (by norm_num)]
    linarith
  obtain ⟨r, hrr, hr⟩ := near_of_le R (x := 1 / a) (by
    rw [abs_of_pos hd0]
    linarith [one_le_largest hA])
  have hr58 : r ≤ 5 / 8 := R.le_rep (rep_five_eighths hA) (by linarith) hr
  have hT1 : 1 / (tau + 1) * (tau + 1) = 1 := by field_simp
  have hda : 1 / a * a = 1 := by field_simp
  have haT : a ≤ (tau + 1) * (1 + f.u) := by linarith
  have haT' : (tau + 1) * (1 - f.u) ≤ a := by linarith
  -- the quotient is a normal number
  have hlow : 32 * f.u ≤ 1 / a := by
    rw [le_div_iff₀ ha0]
    nlinarith
  have e2 : |1 / a - r| ≤ f.u * (1 / a) := by
    rcases R.error hr with h | h
    · rwa [abs_of_pos hd0] at h
    · refine h.trans ?_
      have := tiny_le_u hA
      have h5 : f.u * (f.u * f.u) ≤ f.u * f.u := by nlinarith [mul_pos hu0 hu0]
      have h6 : f.u * (32 * f.u) ≤ f.u * (1 / a) := mul_le_mul_of_nonneg_left hlow hu0.le
      have ht := tiny_pos (f := f)
      norm_num at this
      nlinarith
  have e2' := abs_le.mp e2
  have hX : 0 < 1 / (tau + 1) := by positivity
  have h6 : |1 / a - 1 / (tau + 1)| ≤ f.u * (1 / a) := by
    have : 1 / a - 1 / (tau + 1) = (tau + 1 - a) * (1 / a) * (1 / (tau + 1)) := by field_simp
    rw [this, abs_mul, abs_mul, abs_of_pos hd0, abs_of_pos hX]
    calc |tau + 1 - a| * (1 / a) * (1 / (tau + 1)) ≤ f.u * (tau + 1) * (1 / a) * (1 / (tau + 1)) := by gcongr
      _ = f.u * (1 / a) := by field_simp
  have h7 : 1 / a ≤ 1 / (tau + 1) * (1 + 2 * f.u) := by
    have h6' := abs_le.mp h6
    nlinarith
  have h8 : |r - 1 / (tau + 1)| ≤ 3 * f.u / (tau + 1) := by
    have h9 : |r - 1 / (tau + 1)| ≤ |1 / a - r| + |1 / a - 1 / (tau + 1)| := by
      rw [abs_sub_comm (1 / a) r]
      calc |r - 1 / (tau + 1)| = |(r - 1 / a) + (1 / a - 1 / (tau + 1))| := by ring_nf
        _ ≤ _ := abs_add_le _ _
    have h10 : f.u * (1 / a) ≤ f.u * (1 / (tau + 1) * (1 + 2 * f.u)) := mul_le_mul_of_nonneg_left h7 hu0.le
    have h11 : 3 * f.u / (tau + 1) = 3 * (f.u * (1 / (tau + 1))) := by ring
    have h12 : 0 < f.u * (1 / (tau + 1)) := by positivity
    rw [h11]
    nlinarith
  have hX64 : 64 * f.u ≤ 1 / (tau + 1) := by
    rw [le_div_iff₀ hT]
    linarith
  have hr32 : 32 * f.u ≤ r := by
    have h8' := abs_le.mp h8
    have h11 : 3 * f.u / (tau + 1) = 3 * f.u * (1 / (tau + 1)) := by ring
    rw [h11] at h8'
    nlinarith
  refine ⟨r, ?_, hrr, by linarith, hr58, h8, hr32⟩
  unfold rhsR
  rw [R.arith_lit, R.exact hA.unit.one, Arith.add_fin, R.arith_rnd, ha, Arith.div_fin _ ha0.ne', R.arith_rnd, hr]

/-- The lower bound of `vhat_step` from its error bounds. -/
theorem vhat_lower {u t r v h2 a b x v' H : ℝ} (hu0 : 0 < u) (hu : u ≤ 1 / 10000000) (ht0 : 0 < t) (hr0 : 0 < r)
    (hr1 : r ≤ 5 / 8) (hv0 : 0 ≤ v) (hh0 : 0 ≤ h2) (k2 : a ≤ r * v * (1 + u) + t / 2)
    (k3 : r * H * (1 - u) - t / 2 ≤ b) (k4 : b ≤ r * H * (1 + u) + t / 2) (k5 : h2 * (1 - u) - t / 2 ≤ H)
    (k7 : v - a + b - u * (a + b) ≤ v + x) (k8 : (v + x) * (1 - u) ≤ v') (ha0 : 0 ≤ a) (hb0 : 0 ≤ b) :
    ((1 - r) * v + r * h2) * (1 - 6 * u) - 3 * t ≤ v' := by
  have hrv : 0 ≤ r * v := by positivity
  have hrh : 0 ≤ r * h2 := by positivity
  have k5' : r * (h2 * (1 - u) - t / 2) ≤ r * H := mul_le_mul_of_nonneg_left (by linarith) hr0.le
  have hrt : r * t ≤ t := by nlinarith
  have hrt0 : 0 ≤ r * t := by positivity
  have k9 : a * (1 + u) ≤ r * v * (1 + 3 * u) + t := by
    have h1 := mul_le_mul_of_nonneg_right k2 (by linarith : 0 ≤ 1 + u)
    have h2 : r * v * ((1 + u) * (1 + u)) ≤ r * v * (1 + 3 * u) :=
      mul_le_mul_of_nonneg_left (by nlinarith) hrv
    have h3 : t / 2 * (1 + u) ≤ t := by nlinarith
    linarith
  have k10 : r * h2 * (1 - 4 * u) - 3 / 2 * t ≤ b * (1 - u) := by
    have h1 := mul_le_mul_of_nonneg_right k3 (by linarith : 0 ≤ 1 - u)
    have h2' := mul_le_mul_of_nonneg_right k5' (by nlinarith : 0 ≤ (1 - u) * (1 - u))
    have h3 : r * h2 * (1 - 4 * u) ≤ r * h2 * ((1 - u) * ((1 - u) * (1 - u))) :=
      mul_le_mul_of_nonneg_left (by nlinarith [mul_pos hu0 hu0]) hrh
    have h4 : r * t / 2 * ((1 - u) * (1 - u)) ≤ r * t / 2 * 1 :=
      mul_le_mul_of_nonneg_left (by nlinarith) (by linarith)
    have h5 : t / 2 * (1 - u) ≤ t / 2 * 1 := mul_le_mul_of_nonneg_left (by linarith) (by linarith)
    linarith
  have k11 : v * (1 - r) - 3 * (u * (r * v)) + r * h2 * (1 - 4 * u) - 5 / 2 * t ≤ v + x := by linarith
  have k12 : r * v ≤ 5 / 3 * ((1 - r) * v) := by nlinarith
  have k13 : ((1 - r) * v + r * h2) * (1 - 5 * u) - 5 / 2 * t ≤ v + x := by
    have h1 : u * (r * v) ≤ u * (5 / 3 * ((1 - r) * v)) := mul_le_mul_of_nonneg_left k12 hu0.le
    have h2' : 0 ≤ u * (r * h2) := by positivity
    linarith
  have hW : 0 ≤ (1 - r) * v + r * h2 := add_nonneg (mul_nonneg (by linarith) hv0) hrh
  have h1 := mul_le_mul_of_nonneg_right k13 (by linarith : 0 ≤ 1 - u)
  have h2' : ((1 - r) * v + r * h2) * (1 - 6 * u) ≤ ((1 - r) * v + r * h2) * ((1 - 5 * u) * (1 - u)) :=
    mul_le_mul_of_nonneg_left (by nlinarith) hW
  have h3 : 5 / 2 * t * (1 - u) ≤ 5 / 2 * t * 1 := mul_le_mul_of_nonneg_left (by linarith) (by linarith)
  linarith

/-- One update of the second moment. -/
theorem vhat_step {r v h M : ℝ} (hA : f.Adequate) (hr0 : 0 < r) (hr1 : r ≤ 5 / 8) (hv : f.IsRep v) (hv0 : 0 ≤ v)
    (hvM : v ≤ 2 * M) (hh : h ^ 2 ≤ M) (hM1 : 1 ≤ M) (hM : 8 * M ≤ f.largest) :
    ∃ v', R.arith.add (.fin v) (rhsVhat R.arith (.fin r) (.fin v) (.fin h)) = .fin v' ∧ f.IsRep v' ∧ 0 ≤ v' ∧
      v' ≤ 2 * M ∧ ((1 - r) * v + r * h ^ 2) * (1 - 6 * f.u) - 3 * f.tiny ≤ v' := by
  have hu0 : 0 < f.u := u_pos
  have hu := hA.u_small
  have ht0 := tiny_pos (f := f)
  have htu := tiny_le_u hA
  have ht1 : f.tiny ≤ 1 / 1000 := by
    have h5 : f.u * (f.u * f.u) ≤ 1 := by
      have : f.u * f.u ≤ 1 := by nlinarith
      nlinarith
    norm_num at htu
    linarith
  have hh0 : 0 ≤ h ^ 2 := sq_nonneg h
  -- the roundings
  obtain ⟨H, hHr, hH⟩ := near_of_le R (x := h ^ 2) (by rw [abs_of_nonneg hh0]; linarith)
  have eH := R.error' hH
  rw [abs_of_nonneg hh0] at eH
  have eH' := abs_le.mp eH
  have hH0 : 0 ≤ H := R.rep_le rep_zero hh0 hH
  have hHM : H ≤ 3 / 2 * M := by nlinarith
  have hrv : 0 ≤ r * v := by positivity
  have hrv' : r * v ≤ v := by nlinarith
  obtain ⟨a, har, ha⟩ := near_of_le R (x := r * v) (by rw [abs_of_nonneg hrv]; linarith)
  have ea := R.error' ha
  rw [abs_of_nonneg hrv] at ea
  have ea' := abs_le.mp ea
  have ha0 : 0 ≤ a := R.rep_le rep_zero hrv ha
  have hav : a ≤ v := R.le_rep hv hrv' ha
  have hna : R.rnd (-r * v) = .fin (-a) := by
    rw [show -r * v = -(r * v) by ring, R.odd, ha]
    rfl
  have hrH : 0 ≤ r * H := by positivity
  have hrH' : r * H ≤ H := by nlinarith
  obtain ⟨b, hbr, hb⟩ := near_of_le R (x := r * H) (by rw [abs_of_nonneg hrH]; linarith)
  have eb := R.error' hb
  rw [abs_of_nonneg hrH] at eb
  have eb' := abs_le.mp eb
  have hb0 : 0 ≤ b := R.rep_le rep_zero hrH hb
  have hbH : b ≤ H := R.le_rep hHr hrH' hb
  obtain ⟨x, hxr, hx⟩ := near_of_le R (x := -a + b) (by rw [abs_le]; constructor <;> linarith)
  have ex := R.error_add har.neg hbr hx
  have ex' := abs_le.mp ex
  have hab : |-a + b| ≤ a + b := by rw [abs_le]; constructor <;> linarith
  have hxv : -v ≤ x := R.rep_le hv.neg (by linarith) hx
  have hxH : x ≤ H := R.le_rep hHr (by linarith) hx
  obtain ⟨v', hv'r, hv'⟩ := near_of_le R (x := v + x) (by
    rw [abs_of_nonneg (by linarith)]
    linarith)
  have ev := R.error_add hv hxr hv'
  rw [abs_of_nonneg (by linarith : 0 ≤ v + x)] at ev
  have ev' := abs_le.mp ev
  have hv'0 : 0 ≤ v' := R.rep_le rep_zero (by linarith) hv'
  refine ⟨v', ?_, hv'r, hv'0, ?_, ?_⟩
  · unfold rhsVhat
    show R.arith.add (.fin v) (R.arith.add (R.arith.mul (.fin (-r)) (.fin v)) _) = _
    rw [Arith.pow_fin, R.arith_rnd, hH, Arith.mul_fin, Arith.mul_fin, R.arith_rnd, hna, hb, Arith.add_fin, R.arith_rnd,
      hx, Arith.add_fin, R.arith_rnd, hv']
  · rcases le_total H v with h1 | h1
    · have hba : b ≤ a := R.mono (mul_le_mul_of_nonneg_left h1 hr0.le) hb ha
      have hx0 : x ≤ 0 := R.le_rep rep_zero (by linarith) hx
      have : v' ≤ v := R.le_rep hv (by linarith) hv'
      linarith
    · have k1 : f.u * |-a + b| ≤ 1 / 10000000 * (a + b) :=
        mul_le_mul hu hab (abs_nonneg _) (by norm_num)
      have k2 : f.u * (r * v) ≤ 1 / 10000000 * (r * v) := mul_le_mul_of_nonneg_right hu hrv
      have k3 : f.u * (r * H) ≤ 1 / 10000000 * (r * H) := mul_le_mul_of_nonneg_right hu hrH
      have k4 : f.u * (v + x) ≤ 1 / 10000000 * (v + x) := mul_le_mul_of_nonneg_right hu (by linarith)
      have k5 : f.u * h ^ 2 ≤ 1 / 10000000 * h ^ 2 := mul_le_mul_of_nonneg_right hu hh0
      have k6 : v - r * v + r * H ≤ H := by nlinarith
      linarith
  · have k1 : f.u * |-a + b| ≤ f.u * (a + b) := mul_le_mul_of_nonneg_left hab hu0.le
    exact vhat_lower (a := a) (b := b) (x := x) (H := H) (h2 := h ^ 2) hu0 hu ht0 hr0 hr1 hv0 hh0 (by linarith) (by linarith) (by linarith) (by linarith) (by linarith)
      (by linarith) ha0 hb0

/-- The bound of `g_step` from its error bounds. -/
theorem g_upper {u t H P y g' : ℝ} (hu0 : 0 < u) (hu : u ≤ 1 / 10000000) (ht0 : 0 < t) (hH : 0 ≤ H)
    (h4 : y ≤ H + (u * P + t + u * (P * (1 + u) + t))) (h7 : u * P ≤ u * (5 / 3 * H)) (h10 : g' ≤ y * (1 + u)) :
    g' ≤ H * (1 + 5 * u) + 2 * t := by
  have hut : u * t ≤ 1 / 10000000 * t := mul_le_mul_of_nonneg_right hu ht0.le
  have huH : 0 ≤ u * H := by positivity
  have h8 : u * (P * (1 + u)) ≤ u * (5 / 3 * H) * (1 + u) := by
    calc u * (P * (1 + u)) = u * P * (1 + u) := by ring
      _ ≤ _ := mul_le_mul_of_nonneg_right h7 (by linarith)
  have huu : u * (u * H) ≤ 1 / 10000000 * (u * H) := mul_le_mul_of_nonneg_right hu huH
  have h9 : y ≤ H + 37 / 10 * (u * H) + 11 / 10 * t := by linarith
  have h11 := mul_le_mul_of_nonneg_right h9 (by linarith : 0 ≤ 1 + u)
  linarith

/-- One update of the first moment. -/
theorem g_step {r g h M : ℝ} (hA : f.Adequate) (hr0 : 0 < r) (hr1 : r ≤ 5 / 8) (hg : f.IsRep g) (hgM : |g| ≤ 2 * M)
    (hh : |h| ≤ M) (hM1 : 1 ≤ M) (hM : 8 * M ≤ f.largest) :
    ∃ g', R.arith.add (.fin g) (rhsG R.arith (.fin r) (.fin g) (.fin h)) = .fin g' ∧ f.IsRep g' ∧
      |g'| ≤ ((1 - r) * |g| + r * |h|) * (1 + 5 * f.u) + 2 * f.tiny := by
  have hu0 : 0 < f.u := u_pos
  have hu := hA.u_small
  have ht0 := tiny_pos (f := f)
  have htu := tiny_le_u hA
  have ht1 : f.tiny ≤ 1 / 1000 := by
    have h5 : f.u * (f.u * f.u) ≤ 1 := by
      have : f.u * f.u ≤ 1 := by nlinarith
      nlinarith
    norm_num at htu
    linarith
  have hg0 := abs_nonneg g
  have hh0 := abs_nonneg h
  have hrg : |-r * g| = r * |g| := by rw [abs_mul, abs_neg, abs_of_pos hr0]
  have hrh : |r * h| = r * |h| := by rw [abs_mul, abs_of_pos hr0]
  have hrg1 : r * |g| ≤ |g| := by nlinarith
  have hrh1 : r * |h| ≤ |h| := by nlinarith
  have hrg0 : 0 ≤ r * |g| := by positivity
  have hrh0 : 0 ≤ r * |h| := by positivity
  obtain ⟨a, har, ha⟩ := near_of_le R (x := -r * g) (by rw [hrg]; linarith)
  have ea := R.error' ha
  rw [hrg] at ea
  have ha1 := abs_le_of_error ea
  rw [hrg] at ha1
  obtain ⟨b, hbr, hb⟩ := near_of_le R (x := r * h) (by rw [hrh]; linarith)
  have eb := R.error' hb
  rw [hrh] at eb
  have hb1 := abs_le_of_error eb
  rw [hrh] at hb1
  have hab := abs_add_le a b
  have hsum : r * |g| + r * |h| ≤ 2 * M := by nlinarith
  have hab2 : |a + b| ≤ (r * |g| + r * |h|) * (1 + f.u) + f.tiny := by linarith
  have hab3 : |a + b| ≤ 3 * M := by nlinarith
  obtain ⟨x, hxr, hx⟩ := near_of_le R (x := a + b) (by linarith)
  have ex := R.error_add har hbr hx
  have hx1 := abs_le_of_error ex
  have hx2 : |x| ≤ 4 * M := by nlinarith
  have hgx := abs_add_le g x
  obtain ⟨g', hg'r, hg'⟩ := near_of_le R (x := g + x) (by linarith)
  have eg := R.error_add hg hxr hg'
  have hg1 := abs_le_of_error eg
  refine ⟨g', ?_, hg'r, ?_⟩
  · unfold rhsG
    show R.arith.add (.fin g) (R.arith.add (R.arith.mul (.fin (-r)) (.fin g)) _) = _
    rw [Arith.mul_fin, Arith.mul_fin, R.arith_rnd, ha, hb, Arith.add_fin, R.arith_rnd, hx, Arith.add_fin, R.arith_rnd,
      hg']
  · -- distance of `g + x` from the exact value
    have h1 : g + x = ((1 - r) * g + r * h) - ((-r * g - a) + (r * h - b) + (a + b - x)) := by ring
    have h2 : |(1 - r) * g + r * h| ≤ (1 - r) * |g| + r * |h| := by
      refine (abs_add_le _ _).trans_eq ?_
      rw [abs_mul, abs_mul, abs_of_pos hr0, abs_of_nonneg (by linarith : 0 ≤ 1 - r)]
    have h3 : |(-r * g - a) + (r * h - b) + (a + b - x)| ≤ |-r * g - a| + |r * h - b| + |a + b - x| :=
      (abs_add_le _ _).trans (by gcongr; exact abs_add_le _ _)
    have h4 : |g + x| ≤ (1 - r) * |g| + r * |h| + (f.u * (r * |g| + r * |h|) + f.tiny + f.u * |a + b|) := by
      rw [h1]
      refine (abs_sub _ _).trans ?_
      linarith
    have h5 : f.u * |a + b| ≤ f.u * ((r * |g| + r * |h|) * (1 + f.u) + f.tiny) :=
      mul_le_mul_of_nonneg_left hab2 hu0.le
    have h6 : r * |g| ≤ 5 / 3 * ((1 - r) * |g|) := by nlinarith
    have hH0 : 0 ≤ (1 - r) * |g| := mul_nonneg (by linarith) hg0
    have h7 : f.u * (r * |g| + r * |h|) ≤ f.u * (5 / 3 * ((1 - r) * |g| + r * |h|)) :=
      mul_le_mul_of_nonneg_left (by linarith) hu0.le
    have h10 : |g'| ≤ |g + x| * (1 + f.u) := by linarith
    exact g_upper (P := r * |g| + r * |h|) hu0 hu ht0 (by linarith) (h4.trans (by linarith)) (by linarith) h10

end PySGMCMC.Rounded
