import Verif.Props.RoundedUtils
import Verif.Props.RoundedLikelihood
import Verif.Props.RoundedMoments

/-!
# The kernel of SVGD in floating point arithmetic (C150)
-/

namespace PySGMCMC.Rounded

open Format

variable {f : Format} (R : Rounding f)

/-- With exact arithmetic the kernel is that of the main model. -/
theorem link_kernelEntry (n : Nat) (med d : ℝ) :
    kernelEntry Arith.exact (bandwidthSq Arith.exact n (.fin med)) (.fin d) = SVGD.kernelEntry (SVGD.bandwidth n med) d := by
  have h (x : ℝ) : Arith.exact.rnd x = .fin x := rfl
  simp [kernelEntry, bandwidthSq, exp, log, SVGD.kernelEntry, SVGD.bandwidth, ofNat_lit, h]

/-- A squared distance as the runtime computes it: a non-negative number or, after an overflow, infinity. -/
inductive IsSquare : Fl → Prop
  | num {d : ℝ} (h : 0 ≤ d) : IsSquare (.fin d)
  | inf : IsSquare .pinf

/-- At most, for squared distances. -/
inductive SqLE : Fl → Fl → Prop
  | num {d d' : ℝ} (h0 : 0 ≤ d) (h : d ≤ d') : SqLE (.fin d) (.fin d')
  | inf {d : ℝ} (h0 : 0 ≤ d) : SqLE (.fin d) .pinf

/-- Squares of distances are of this kind. -/
theorem square_cases (e : ℝ) : IsSquare (R.arith.pow (.fin e) 2) := by
  rw [Arith.pow_fin, R.arith_rnd]
  rcases R.ge_cases rep_zero (sq_nonneg e) with h | ⟨y, hy, -, h0⟩
  · rw [h]
    exact .inf
  · rw [hy]
    exact .num h0

/-- `-∞` divided by a positive number. -/
theorem ninf_div {b : ℝ} (hb : 0 < b) : R.arith.div .ninf (.fin b) = .ninf := by
  show R.arith.fix (if b = 0 then Fl.ninf else Fl.infOf (-b)) = _
  rw [if_neg hb.ne', Fl.infOf, if_neg (by linarith), if_pos (by linarith)]
  rfl

/-- What is exponentiated for a finite squared distance: a number that is not positive, or `-∞`. -/
theorem exponent_cases (hu : f.HasUnit) {H d : ℝ} (hH : 0 < H) (hd : 0 ≤ d) :
    R.arith.div (R.arith.div (-(.fin d)) (.fin H)) (R.arith.lit 2) = .ninf ∨
      ∃ x y, R.rnd (-d / H) = .fin y ∧ R.rnd (y / 2) = .fin x ∧ x ≤ 0 ∧
        R.arith.div (R.arith.div (-(.fin d)) (.fin H)) (R.arith.lit 2) = .fin x := by
  have hq : -d / H ≤ 0 := div_nonpos_of_nonpos_of_nonneg (by linarith) hH.le
  have hinf : R.arith.div .ninf (.fin 2) = .ninf := ninf_div R two_pos
  rw [Fl.neg_fin, Arith.div_fin _ hH.ne', R.arith_rnd, R.arith_lit, R.exact hu.two]
  rcases R.le_cases rep_zero hq with h | ⟨y, hy, -, hy0⟩
  · left
    rw [h, hinf]
  · rw [hy, Arith.div_fin _ two_ne_zero, R.arith_rnd]
    rcases R.le_cases rep_zero (x := y / 2) (by linarith) with h | ⟨x, hx, -, hx0⟩
    · exact Or.inl h
    · exact Or.inr ⟨x, y, rfl, hx, hx0, hx⟩

theorem exp_ninf : exp R.arith .ninf = .fin 0 := R.rnd_zero

theorem exponent_inf (hu : f.HasUnit) {H : ℝ} (hH : 0 < H) :
    R.arith.div (R.arith.div (-.pinf) (.fin H)) (R.arith.lit 2) = .ninf := by
  rw [R.arith_lit, R.exact hu.two]
  show R.arith.div (R.arith.div .ninf (.fin H)) (.fin 2) = _
  rw [ninf_div R hH, ninf_div R two_pos]

/-- **C150 (entries).**  With a positive bandwidth every entry of the kernel matrix is a number between 0 and 1, whatever
the distance and even if its square overflowed. -/
theorem C150_entry (hu : f.HasUnit) {H : ℝ} (hH : 0 < H) {d : Fl} (hd : IsSquare d) :
    ∃ k, kernelEntry R.arith (.fin H) d = .fin k ∧ f.IsRep k ∧ 0 ≤ k ∧ k ≤ 1 := by
  unfold kernelEntry
  cases hd with
  | inf => exact ⟨0, by rw [exponent_inf R hu hH, exp_ninf], rep_zero, le_rfl, zero_le_one⟩
  | num h0 =>
    rcases exponent_cases R hu hH h0 with h | ⟨x, y, -, -, hx, h⟩
    · exact ⟨0, by rw [h, exp_ninf], rep_zero, le_rfl, zero_le_one⟩
    · rw [h]
      obtain ⟨k, hk, hkr, h1, h2⟩ := R.between rep_zero hu.one (Real.exp_pos x).le (Real.exp_le_one_iff.2 hx)
      exact ⟨k, hk, hkr, h1, h2⟩

/-- **C150 (diagonal).**  It is exactly 1. -/
theorem C150_diagonal (hu : f.HasUnit) {H : ℝ} (hH : 0 < H) : kernelEntry R.arith (.fin H) (.fin 0) = .fin 1 := by
  unfold kernelEntry
  rw [Fl.neg_fin, Arith.div_fin _ hH.ne', R.arith_rnd, neg_zero, zero_div, R.rnd_zero, R.arith_lit, R.exact hu.two,
    Arith.div_fin _ two_ne_zero, zero_div, R.arith_rnd, R.rnd_zero]
  show R.rnd (Real.exp 0) = _
  rw [Real.exp_zero, R.exact hu.one]

/-- **C150 (order).**  Particles that are further apart do not have the larger entry. -/
theorem C150_order (hu : f.HasUnit) {H : ℝ} (hH : 0 < H) {d d' : Fl} (h : SqLE d d') {k k' : ℝ}
    (hk : kernelEntry R.arith (.fin H) d = .fin k) (hk' : kernelEntry R.arith (.fin H) d' = .fin k') : k' ≤ k := by
  have hsq : IsSquare d := by cases h with | num h0 _ => exact .num h0 | inf h0 => exact .num h0
  have hnn : 0 ≤ k := by
    obtain ⟨k₂, h1, -, h2, -⟩ := C150_entry R hu hH hsq
    rw [hk] at h1
    rw [Fl.fin.inj h1]
    exact h2
  have hzero : kernelEntry R.arith (.fin H) d' = .fin 0 → k' ≤ k := by
    intro h0
    rw [hk'] at h0
    rw [Fl.fin.inj h0]
    exact hnn
  unfold kernelEntry at hk hk' hzero
  cases h with
  | inf h0 => exact hzero (by rw [exponent_inf R hu hH, exp_ninf])
  | num h0 hle =>
    rcases exponent_cases R hu hH (h0.trans hle) with hc | ⟨x', y', hy', hx', hx'0, hc⟩
    · exact hzero (by rw [hc, exp_ninf])
    · rename_i a b
      have hab : -b / H ≤ -a / H := div_le_div_of_nonneg_right (by linarith) hH.le
      rcases exponent_cases R hu hH h0 with hc2 | ⟨x, y, hy, hx, hx0, hc2⟩
      · -- the smaller distance cannot be the one that overflows
        exfalso
        have hyy : R.rnd (-a / H) ≠ .ninf := by
          intro hn
          rcases R.cases (-a / H) with ⟨h1, -⟩ | ⟨-, h1⟩ | ⟨y, h1, -⟩
          · rw [hn] at h1; cases h1
          · have := R.under _ (hab.trans h1)
            rw [hy'] at this
            cases this
          · rw [hn] at h1; cases h1
        have hq : -a / H ≤ 0 := div_nonpos_of_nonpos_of_nonneg (by linarith) hH.le
        rcases R.le_cases rep_zero hq with h1 | ⟨y, hy, -, -⟩
        · exact hyy h1
        · have hmono : y' ≤ y := R.mono hab hy' hy
          rw [Fl.neg_fin, Arith.div_fin _ hH.ne', R.arith_rnd, hy, R.arith_lit, R.exact hu.two, Arith.div_fin _ two_ne_zero,
            R.arith_rnd] at hc2
          rcases R.cases (y / 2) with ⟨h1, -⟩ | ⟨-, h1⟩ | ⟨z, h1, -⟩
          · rw [hc2] at h1; cases h1
          · have := R.under _ ((by linarith : y' / 2 ≤ y / 2).trans h1)
            rw [hx'] at this
            cases this
          · rw [hc2] at h1; cases h1
      · rw [hc] at hk'
        rw [hc2] at hk
        have hmono : y' ≤ y := R.mono hab hy' hy
        have hmono2 : x' ≤ x := R.mono (by linarith : y' / 2 ≤ y / 2) hx' hx
        exact R.mono (Real.exp_le_exp.2 hmono2) hk' hk

set_option maxHeartbeats 1000000 in
/-- **C150 (bandwidth).**  The bandwidth of `n` particles is a positive number if the median of their squared distances
is neither close to underflow nor to overflow.  Missing: smaller medians, see `C150_violated`. -/
theorem C150_bandwidth_partial (hA : f.Adequate) {n : Nat} (hn : 1 ≤ n) (hn2 : n + 1 < 2 ^ f.prec) {med : ℝ}
    (hlow : 64 * (f.tiny * n) ≤ med) (hhigh : 64 * med ≤ f.largest) :
    ∃ H, bandwidthSq R.arith n (.fin med) = .fin H ∧ 0 < H ∧ H ≤ 16 * med + 1 := by
  have ht := tiny_pos (f := f)
  have ht1 := tiny_le_one hA
  have hu := hA.u_small
  have hu0 : 0 < f.u := u_pos
  have hn1 : (1 : ℝ) ≤ n := by exact_mod_cast hn
  have hmed : 64 * f.tiny ≤ med := by nlinarith
  have hmed0 : 0 < med := by linarith
  have hL := one_le_largest hA
  have e0 : f.emin ≤ 0 := by have := hA.emin_le; omega
  have hem : 0 ≤ f.emax := hA.unit.2
  have hL16 : (2 : ℝ) ^ 4 ≤ f.largest := pow_le_largest hA (by have := hA.range; push_cast; omega)
  have rn : f.IsRep (n : ℝ) := by
    have := rep_int (f := f) e0 hem (m := (n : ℤ)) (by rw [abs_of_nonneg (by positivity)]; exact_mod_cast (by omega))
    exact_mod_cast this
  have rn1 : f.IsRep ((n : ℝ) + 1) := by
    have := rep_int (f := f) e0 hem (m := (n : ℤ) + 1) (by rw [abs_of_nonneg (by positivity)]; exact_mod_cast hn2)
    exact_mod_cast this
  have hh := R.exact (rep_half hA)
  -- the logarithm
  have hlog0 : (0.5 : ℝ) ≤ Real.log (n + 1) := by
    have h1 : Real.log 2 ≤ Real.log (n + 1) := Real.log_le_log two_pos (by linarith)
    have := Real.log_two_gt_d9
    linarith
  have hlog1 : Real.log (n + 1) ≤ n := by
    have := Real.log_le_sub_one_of_pos (x := (n : ℝ) + 1) (by linarith)
    linarith
  obtain ⟨L, hLe, -, hL0, hL1⟩ := R.between (rep_half hA) rn hlog0 hlog1
  have hLp : 0 < L := lt_of_lt_of_le (by norm_num) hL0
  -- half of the median
  obtain ⟨a, har, ha⟩ := near_of_le R (x := 0.5 * med) (by rw [abs_of_pos (by positivity)]; linarith)
  have hae := abs_le.1 (R.error' ha)
  rw [abs_of_pos (by positivity : (0 : ℝ) < 0.5 * med)] at hae
  have hum : f.u * (0.5 * med) ≤ 1 / 10000000 * (0.5 * med) := mul_le_mul_of_nonneg_right hu (by positivity)
  have ha1 : med / 4 ≤ a := by norm_num at hae hum; linarith
  have ha2 : a ≤ med := by norm_num at hae hum; linarith
  have ha0 : 0 < a := by linarith
  -- the quotient
  have r4 : f.IsRep (2 * (2 * f.tiny)) := by
    have h2 := (rep_tiny (f := f)).double (by rw [abs_of_pos (by positivity)]; linarith)
    exact h2.double (by rw [abs_of_pos (by positivity)]; linarith)
  have hq1 : 2 * (2 * f.tiny) ≤ a / L := by
    rw [le_div_iff₀ hLp]
    have : f.tiny * L ≤ f.tiny * n := mul_le_mul_of_nonneg_left hL1 ht.le
    linarith
  have hq2 : a / L ≤ 2 * med := by
    rw [div_le_iff₀ hLp]
    have : 2 * med * 0.5 ≤ 2 * med * L := mul_le_mul_of_nonneg_left hL0 (by linarith)
    norm_num at this
    linarith
  have hq0 : 0 < a / L := by positivity
  obtain ⟨q, hqr, hq⟩ := near_of_le R (x := a / L) (by rw [abs_of_pos hq0]; linarith)
  have hqt : 2 * (2 * f.tiny) ≤ q := R.rep_le r4 hq1 hq
  have hqe := abs_le_of_error (R.error' hq)
  have hq0' : 0 < q := by linarith
  rw [abs_of_pos hq0, abs_of_pos hq0'] at hqe
  have huq : f.u * (a / L) ≤ 1 * (a / L) := mul_le_mul_of_nonneg_right (by linarith) hq0.le
  have hqm : q ≤ 4 * med + f.tiny := by linarith
  -- its root
  have hs0 : 0 < Real.sqrt q := Real.sqrt_pos.2 hq0'
  have hss : Real.sqrt q * Real.sqrt q = q := Real.mul_self_sqrt hq0'.le
  have hst : Real.sqrt f.tiny * Real.sqrt f.tiny = f.tiny := Real.mul_self_sqrt ht.le
  have hst0 : 0 < Real.sqrt f.tiny := Real.sqrt_pos.2 ht
  have hst1 : Real.sqrt f.tiny ≤ 1 := by rw [Real.sqrt_le_left zero_le_one]; linarith
  have hsl : 2 * Real.sqrt f.tiny ≤ Real.sqrt q := by
    refine Real.le_sqrt_of_sq_le ?_
    rw [mul_pow, sq (Real.sqrt _), hst]
    linarith
  have hsq1 : Real.sqrt q ≤ q + 1 := by
    have := sq_nonneg (Real.sqrt q - 1)
    have e : (Real.sqrt q - 1) ^ 2 = q - 2 * Real.sqrt q + 1 := by rw [sub_sq, sq (Real.sqrt q), hss]; ring
    rw [e] at this
    linarith only [this, hq0', hs0]
  obtain ⟨s, hsr, hs⟩ := near_of_le R (x := Real.sqrt q) (by rw [abs_of_pos hs0]; linarith)
  have hse := abs_le.1 (R.error' hs)
  rw [abs_of_pos hs0] at hse
  have hus : f.u * Real.sqrt q ≤ 1 / 10000000 * Real.sqrt q := mul_le_mul_of_nonneg_right hu hs0.le
  have htt : f.tiny ≤ Real.sqrt f.tiny := by
    have := mul_le_mul_of_nonneg_left hst1 hst0.le
    rw [hst, mul_one] at this
    exact this
  have hs1 : Real.sqrt f.tiny ≤ s := by linarith
  have hs2 : s ≤ 3 / 2 * Real.sqrt q := by linarith
  have hs0' : 0 < s := by linarith
  -- its square
  have hsq : s ^ 2 ≤ 9 / 4 * q := by
    calc s ^ 2 ≤ (3 / 2 * Real.sqrt q) ^ 2 := pow_le_pow_left₀ hs0'.le hs2 2
      _ = 9 / 4 * q := by rw [mul_pow, sq (Real.sqrt q), hss]; ring
  have hst2 : f.tiny ≤ s ^ 2 := by
    calc f.tiny = Real.sqrt f.tiny ^ 2 := by rw [sq, hst]
      _ ≤ s ^ 2 := pow_le_pow_left₀ hst0.le hs1 2
  obtain ⟨H, hHr, hH⟩ := near_of_le R (x := s ^ 2) (by rw [abs_of_pos (by positivity)]; linarith)
  have hHt : f.tiny ≤ H := R.rep_le rep_tiny hst2 hH
  have hHe := abs_le_of_error (R.error' hH)
  have hH0 : 0 < H := by linarith
  rw [abs_of_pos hH0, abs_of_pos (by positivity : 0 < s ^ 2)] at hHe
  have hu2 : f.u * s ^ 2 ≤ 1 / 10000000 * s ^ 2 := mul_le_mul_of_nonneg_right hu (by positivity)
  refine ⟨H, ?_, hH0, ?_⟩
  · unfold bandwidthSq log
    have hlg : Fl.log (.fin ((n : ℝ) + 1)) = .fin (Real.log (n + 1)) := Fl.log_fin (by linarith)
    rw [R.arith_lit, R.arith_lit, R.arith_lit, R.exact rn, R.exact hA.unit.one, Arith.add_fin, R.arith_rnd, R.exact rn1, hlg]
    show R.arith.pow (R.arith.sqrt (R.arith.div _ (R.rnd (Real.log (n + 1))))) 2 = _
    rw [hLe, hh, Arith.mul_fin, R.arith_rnd, ha, Arith.div_fin _ hLp.ne', R.arith_rnd, hq, Arith.sqrt_fin _ hq0'.le,
      R.arith_rnd, hs, Arith.pow_fin, R.arith_rnd, hH]
  · linarith

/-- With exact arithmetic the gradient is that of the main model. -/
theorem link_kernelGrad (t t' : SumTree) (h2 : Fl) (k x : Nat → Fl) (x0 : Fl) :
    kernelGrad Arith.exact t t' h2 k x x0 =
      (-(Fl.sum (t.leaves.map fun j => k j * x j)) + x0 * Fl.sum (t'.leaves.map k)) / h2 := by
  simp only [kernelGrad, Arith.exact_div, Arith.exact_add, Arith.exact_mul, link_eval]

theorem link_gradTheta (t t' t'' : SumTree) (n : Nat) (h2 : Fl) (k x lnp : Nat → Fl) (x0 : Fl) :
    gradTheta Arith.exact t t' t'' n h2 k x lnp x0 =
      (Fl.sum (t''.leaves.map fun j => k j * lnp j) +
        (-(Fl.sum (t.leaves.map fun j => k j * x j)) + x0 * Fl.sum (t'.leaves.map k)) / h2) / .fin n := by
  simp only [gradTheta, link_kernelGrad, Arith.exact_div, Arith.exact_add, Arith.exact_mul, Arith.exact_lit, link_eval]

/-- A rounded sum of products of kernel entries and moderate numbers. -/
theorem weighted_sum (hA : f.Adequate) {n m e : Nat} (t : SumTree) (ht : t.Adds n) (hn : n < 2 ^ f.prec) (hnm : n ≤ 2 ^ m)
    (he : (e : ℤ) ≤ f.emax) {k x : Nat → ℝ} (hk : ∀ j < n, 0 ≤ k j ∧ k j ≤ 1) (hx : ∀ j < n, |x j| ≤ 2 ^ e) :
    ∃ s, (t.eval R.arith fun j => R.arith.mul (.fin (k j)) (.fin (x j))) = .fin s ∧ |s| ≤ 2 ^ (m + e) := by
  have hp : ∀ j, ∃ y, j < n → R.arith.mul (.fin (k j)) (.fin (x j)) = .fin y ∧ f.IsRep y ∧ |y| ≤ 2 ^ e := by
    intro j
    by_cases hj : j < n
    · obtain ⟨y, h1, h2, h3⟩ := within_pow R hA (x := k j * x j) (e := e)
        (by have := hA.range; have := f.one_lt_prec; omega) (by
        rw [abs_mul, abs_of_nonneg (hk j hj).1]
        exact (mul_le_of_le_one_left (abs_nonneg _) (hk j hj).2).trans (hx j hj))
      exact ⟨y, fun _ => ⟨by rw [Arith.mul_fin, R.arith_rnd, h1], h2, h3⟩⟩
    · exact ⟨0, fun h => absurd h hj⟩
  choose v hv using hp
  obtain ⟨s, hs, -, hb, -⟩ := eval_step R (e := (e : ℤ)) (by have := hA.emin_le; omega) he t (v := v)
    (x := fun j => R.arith.mul (.fin (k j)) (.fin (x j))) (by rw [Adds_length ht]; exact hn) (fun i hi => by
      obtain ⟨h1, h2, h3⟩ := hv i ((Adds_mem ht).1 hi)
      exact ⟨h1, h2, by rw [zpow_natCast]; exact h3⟩)
  refine ⟨s, hs, hb.trans ?_⟩
  rw [Adds_length ht, zpow_natCast, pow_add]
  exact mul_le_mul_of_nonneg_right (by exact_mod_cast hnm) (by positivity)

set_option maxHeartbeats 1000000 in
/-- **C150 (update direction).**  With kernel entries between 0 and 1, a bandwidth that is not too small, and positions
and gradients of moderate size, `grad_theta` is a number, in every order of the additions. -/
theorem C150_direction (hA : f.Adequate) {n m e b g : Nat} (t t' t'' : SumTree) (ht : t.Adds n) (ht' : t'.Adds n)
    (ht'' : t''.Adds n) (hn : n < 2 ^ f.prec) (hnm : n ≤ 2 ^ m) (he : (e : ℤ) ≤ f.emax) (hg : (g : ℤ) ≤ f.emax)
    (hroom : (m + e + b + g + 2 : ℤ) < f.emax + f.prec) {H x0 : ℝ} (hH : 1 / 2 ^ b ≤ H) {k x lnp : Nat → ℝ}
    (hkr : ∀ j < n, f.IsRep (k j)) (hk : ∀ j < n, 0 ≤ k j ∧ k j ≤ 1) (hx : ∀ j < n, |x j| ≤ 2 ^ e)
    (hl : ∀ j < n, |lnp j| ≤ 2 ^ g) (hx0 : |x0| ≤ 2 ^ e) :
    ∃ d, gradTheta R.arith t t' t'' n (.fin H) (fun j => .fin (k j)) (fun j => .fin (x j)) (fun j => .fin (lnp j))
      (.fin x0) = .fin d ∧ f.IsRep d ∧ |d| ≤ 2 ^ (m + e + b + g + 2) := by
  have hem : 0 ≤ f.emax := hA.unit.2
  have hH0 : 0 < H := lt_of_lt_of_le (by positivity) hH
  have hn0 := Adds_pos ht
  have hn1 : (1 : ℝ) ≤ n := by exact_mod_cast hn0
  obtain ⟨s, hs, hsb⟩ := weighted_sum R hA t ht hn hnm he hk hx
  obtain ⟨p, hp, hpb⟩ := weighted_sum R hA t'' ht'' hn hnm hg hk hl
  obtain ⟨q, hq, -, hqb, -⟩ := eval_step R (e := 0) hA.unit.1 hem t' (v := k) (x := fun j => .fin (k j))
    (by rw [Adds_length ht']; exact hn) (fun i hi => by
      have hi' := (Adds_mem ht').1 hi
      refine ⟨rfl, hkr i hi', ?_⟩
      rw [zpow_zero, abs_of_nonneg (hk i hi').1]
      exact (hk i hi').2)
  have hqm : |q| ≤ 2 ^ m := by
    rw [Adds_length ht', zpow_zero, mul_one] at hqb
    exact hqb.trans (by exact_mod_cast hnm)
  obtain ⟨r, hr, -, hrb⟩ := within_pow R hA (x := x0 * q) (e := m + e) (by push_cast; omega) (by
    rw [abs_mul, add_comm, pow_add]
    exact mul_le_mul hx0 hqm (abs_nonneg _) (by positivity))
  obtain ⟨w, hw, -, hwb⟩ := within_pow R hA (x := -s + r) (e := m + e + 1) (by push_cast; omega) (by
    have := abs_add_le (-s) r
    rw [abs_neg] at this
    rw [pow_succ]
    linarith)
  obtain ⟨z, hz, -, hzb⟩ := within_pow R hA (x := w / H) (e := m + e + 1 + b) (by push_cast; omega) (by
    rw [abs_div, abs_of_pos hH0, div_le_iff₀ hH0, pow_add]
    have h1 : (1 : ℝ) ≤ 2 ^ b * H := by
      have := mul_le_mul_of_nonneg_left hH (by positivity : (0 : ℝ) ≤ 2 ^ b)
      rwa [mul_one_div_cancel (by positivity)] at this
    calc |w| ≤ 2 ^ (m + e + 1) * 1 := by rw [mul_one]; exact hwb
      _ ≤ 2 ^ (m + e + 1) * (2 ^ b * H) := mul_le_mul_of_nonneg_left h1 (by positivity)
      _ = _ := by ring)
  obtain ⟨c, hc, -, hcb⟩ := within_pow R hA (x := p + z) (e := m + e + b + g + 2) (by push_cast; omega) (by
    refine (abs_add_le _ _).trans ?_
    have h1 : (2 : ℝ) ^ (m + g) ≤ 2 ^ (m + e + b + g + 1) := pow_le_pow_right₀ (by norm_num) (by omega)
    have h2 : (2 : ℝ) ^ (m + e + 1 + b) ≤ 2 ^ (m + e + b + g + 1) := pow_le_pow_right₀ (by norm_num) (by omega)
    rw [show m + e + b + g + 2 = m + e + b + g + 1 + 1 by ring, pow_succ]
    linarith)
  obtain ⟨d, hd, hdr, hdb⟩ := within_pow R hA (x := c / n) (e := m + e + b + g + 2) (by push_cast; omega) (by
    rw [abs_div, abs_of_pos (by linarith : (0 : ℝ) < n)]
    exact (div_le_self (abs_nonneg _) hn1).trans hcb)
  refine ⟨d, ?_, hdr, hdb⟩
  unfold gradTheta kernelGrad
  rw [hs, hp, hq, lit_nat R hA.unit hn, Fl.neg_fin, Arith.mul_fin, R.arith_rnd, hr, Arith.add_fin, R.arith_rnd, hw,
    Arith.div_fin _ hH0.ne', R.arith_rnd, hz, Arith.add_fin, R.arith_rnd, hc, Arith.div_fin _ (by linarith), R.arith_rnd, hd]

/-- A number below half the smallest one is rounded to zero. -/
theorem rnd_below {x : ℝ} (hx : |x| < f.tiny / 2) : R.rnd x = .fin 0 := by
  have ht := tiny_pos (f := f)
  obtain ⟨y, hyr, hy⟩ := near_of_le R (x := x) (by
    have := (rep_tiny (f := f)).abs_le
    rw [abs_of_pos ht] at this
    linarith)
  have h1 := R.nearest hy 0 rep_zero
  rw [sub_zero] at h1
  by_contra hne
  have hy0 : y ≠ 0 := fun h => hne (by rw [hy, h])
  have h2 : f.tiny ≤ |y| := hyr.abs.tiny_le (abs_pos.2 hy0)
  have h3 := abs_sub_abs_le_abs_sub y x
  rw [abs_sub_comm] at h3
  linarith

/-- **C150 (where it breaks).**  Particles that are distinct, but closer than the square root of half the smallest
number, have the median 0, the bandwidth 0 and a kernel matrix of NaN. -/
theorem C150_violated (hA : f.Adequate) {n : Nat} (hn : 1 ≤ n) (hn2 : n + 1 < 2 ^ f.prec) (es : List ℝ) (hne : es ≠ [])
    (hes : ∀ e ∈ es, e ^ 2 < f.tiny / 2) (shape : List Nat) :
    (∀ e ∈ es, R.arith.pow (.fin e) 2 = .fin 0) ∧
    ∃ med, Rounded.median R.arith ⟨shape, es.map fun _ => 0⟩ = .ok med ∧
      ∀ e ∈ es, kernelEntry R.arith (bandwidthSq R.arith n med) (R.arith.pow (.fin e) 2) = .nan := by
  have hz : ∀ e ∈ es, R.arith.pow (.fin e) 2 = .fin 0 := by
    intro e he
    rw [Arith.pow_fin, R.arith_rnd]
    exact rnd_below R (by rw [abs_of_nonneg (sq_nonneg _)]; exact hes e he)
  refine ⟨hz, .fin 0, ?_, ?_⟩
  · obtain ⟨r, hr, -, h1, h2⟩ := C111_median R hA.unit ⟨shape, es.map fun _ => 0⟩ (by simpa using hne)
      (fun x hx => by
        obtain ⟨-, -, rfl⟩ := List.mem_map.1 hx
        exact rep_zero)
      (fun x hx => by
        obtain ⟨-, -, rfl⟩ := List.mem_map.1 hx
        rw [mul_zero, abs_zero]
        exact largest_pos.le)
    have hlen : 0 < es.length := List.length_pos_iff.2 hne
    simp only [List.length_map] at h1 h2
    have hr0 : 0 ≤ r := by
      have : 0 < (es.map fun _ => (0 : ℝ)).countP fun a => decide (a ≤ r) := by omega
      obtain ⟨a, ha, hd⟩ := List.countP_pos_iff.1 this
      obtain ⟨-, -, rfl⟩ := List.mem_map.1 ha
      exact of_decide_eq_true hd
    have hr1 : r ≤ 0 := by
      have : 0 < (es.map fun _ => (0 : ℝ)).countP fun a => decide (r ≤ a) := by omega
      obtain ⟨a, ha, hd⟩ := List.countP_pos_iff.1 this
      obtain ⟨-, -, rfl⟩ := List.mem_map.1 ha
      exact of_decide_eq_true hd
    rw [hr, le_antisymm hr1 hr0]
  · intro e he
    rw [hz e he]
    have e0 : f.emin ≤ 0 := hA.unit.1
    have hem : 0 ≤ f.emax := hA.unit.2
    have hn1 : (1 : ℝ) ≤ n := by exact_mod_cast hn
    have rn : f.IsRep (n : ℝ) := by
      have := rep_int (f := f) e0 hem (m := (n : ℤ)) (by rw [abs_of_nonneg (by positivity)]; exact_mod_cast (by omega))
      exact_mod_cast this
    have rn1 : f.IsRep ((n : ℝ) + 1) := by
      have := rep_int (f := f) e0 hem (m := (n : ℤ) + 1) (by rw [abs_of_nonneg (by positivity)]; exact_mod_cast hn2)
      exact_mod_cast this
    have hlog0 : (0.5 : ℝ) ≤ Real.log (n + 1) := by
      have h1 : Real.log 2 ≤ Real.log (n + 1) := Real.log_le_log two_pos (by linarith)
      have := Real.log_two_gt_d9
      linarith
    have hlog1 : Real.log (n + 1) ≤ n := by
      have := Real.log_le_sub_one_of_pos (x := (n : ℝ) + 1) (by linarith)
      linarith
    obtain ⟨L, hLe, -, hL0, -⟩ := R.between (rep_half hA) rn hlog0 hlog1
    have hLp : 0 < L := lt_of_lt_of_le (by norm_num) hL0
    have hlg : Fl.log (.fin ((n : ℝ) + 1)) = .fin (Real.log (n + 1)) := Fl.log_fin (by linarith)
    have hb : bandwidthSq R.arith n (.fin 0) = .fin 0 := by
      unfold bandwidthSq log
      rw [R.arith_lit, R.arith_lit, R.arith_lit, R.exact rn, R.exact hA.unit.one, Arith.add_fin, R.arith_rnd, R.exact rn1,
        hlg]
      show R.arith.pow (R.arith.sqrt (R.arith.div _ (R.rnd (Real.log (n + 1))))) 2 = _
      rw [hLe, R.exact (rep_half hA), Arith.mul_fin, mul_zero, R.arith_rnd, R.rnd_zero, Arith.div_fin _ hLp.ne', zero_div,
        R.arith_rnd, R.rnd_zero, Arith.sqrt_fin _ le_rfl, Real.sqrt_zero, R.arith_rnd, R.rnd_zero, Arith.pow_fin,
        zero_pow two_ne_zero, R.arith_rnd, R.rnd_zero]
    rw [hb]
    unfold kernelEntry
    rw [Fl.neg_fin, neg_zero]
    have h00 : R.arith.div (.fin 0) (.fin 0) = .nan := by
      show R.arith.fix (if (0 : ℝ) = 0 then Fl.infOf 0 else _) = _
      rw [if_pos rfl, Fl.infOf, if_neg (lt_irrefl _), if_neg (lt_irrefl _)]
      rfl
    rw [h00]
    have hn : ∀ x, R.arith.div .nan x = .nan := fun x => by cases x <;> rfl
    rw [hn]
    rfl

/-- In `float32`: up to 1024 particles with coordinates up to a million, gradients up to a billion and squared bandwidths
from `2 ^ -40` on. -/
example : ((10 : ℕ) + (20 : ℕ) + (40 : ℕ) + (30 : ℕ) + 2 : ℤ) < float32.emax + float32.prec ∧
    (30 : ℤ) ≤ float32.emax ∧ (SumTree.node (.leaf 1) (.leaf 0)).Adds 2 := by
  refine ⟨by norm_num [float32], by norm_num [float32], ?_⟩
  show [1, 0].Perm [0, 1]
  exact List.Perm.swap _ _ _

/-- A thousand particles in `float32` whose median squared distance is 1, and two distinct ones that are too close. -/
example (R : Rounding float32) : (∃ H, bandwidthSq R.arith 1000 (.fin 1) = .fin H ∧ 0 < H) ∧
    (1e-23 : ℝ) ^ 2 < float32.tiny / 2 := by
  have ht : float32.tiny = 1 / 2 ^ 149 := by
    simp only [tiny, float32, zpow_neg, one_div]
    norm_cast
  constructor
  · obtain ⟨H, h1, h2, -⟩ := C150_bandwidth_partial R float32_adequate (n := 1000) (by norm_num) (by norm_num [float32])
      (med := 1) (by rw [ht]; norm_num) (le_trans (by norm_num) float32_room)
    exact ⟨H, h1, h2⟩
  · rw [ht]
    norm_num

end PySGMCMC.Rounded
