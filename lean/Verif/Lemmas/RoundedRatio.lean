import Verif.Lemmas.RoundedStats

/-!
# The adaptive statistics in floating point arithmetic: the ratio of the moments and the window length
-/

namespace PySGMCMC.Rounded

open Format

variable {f : Format} (R : Rounding f)

/-- The smallest guard for which the ratio `g² / (vhat + guard)` is controlled. -/
noncomputable def guard : ℝ := 1 / 2 ^ 74

theorem guard_pos : 0 < guard := by unfold guard; positivity

theorem tiny_le_guard (hA : f.Adequate) : f.tiny ≤ f.u * guard ∧ 8 * f.tiny ^ 2 ≤ 12 * (f.u * f.u * f.u) * guard := by
  have hu0 : 0 < f.u := u_pos
  have hu := hA.u_le
  have ht := tiny_le_u hA
  have ht0 := tiny_pos (f := f)
  have h1 : f.u * f.u ≤ 1 / 2 ^ 24 * (1 / 2 ^ 24) := mul_le_mul hu hu hu0.le (by norm_num)
  have h2 : f.u * (f.u * f.u) ≤ f.u * (1 / 2 ^ 24 * (1 / 2 ^ 24)) := mul_le_mul_of_nonneg_left h1 hu0.le
  have h3 : f.tiny ≤ f.u * guard := by
    unfold guard
    norm_num at ht h2 ⊢
    linarith
  refine ⟨h3, ?_⟩
  have h4 : f.tiny ≤ guard := h3.trans (by nlinarith [guard_pos])
  have h5 : f.tiny * f.tiny ≤ f.u * (f.u * f.u) * guard := by
    have h6 : f.tiny ≤ f.u * (f.u * f.u) := by nlinarith
    exact mul_le_mul h6 h4 ht0.le (by positivity)
  nlinarith [guard_pos, mul_pos (mul_pos hu0 (mul_pos hu0 hu0)) guard_pos]

/-- A bound for a square that leaves room for rounding and underflow. -/
theorem sq_slack {u t H Q kappa G : ℝ} (hu0 : 0 < u) (hu : u ≤ 1 / 10000000) (ht0 : 0 ≤ t) (hH : 0 ≤ H)
    (hcs : H ^ 2 ≤ Q) (hQ : 12 * u * kappa ≤ Q) (ht : 8 * t ^ 2 ≤ 12 * (u * u * u) * kappa) (hG0 : 0 ≤ G)
    (hG : G ≤ H * (1 + 5 * u) + 2 * t) : G ^ 2 ≤ Q * (1 + 13 * u) := by
  have hQ0 : 0 ≤ Q := (sq_nonneg H).trans hcs
  set X := H * (1 + 5 * u) with hX
  set Y := 2 * t with hY
  have hX0 : 0 ≤ X := by positivity
  have hsq : G ^ 2 ≤ (X + Y) ^ 2 := by gcongr
  obtain ⟨w, huw, hw0⟩ : ∃ w, u * w = Y ^ 2 ∧ 0 ≤ w := ⟨Y ^ 2 / u, by field_simp, by positivity⟩
  have hYw : Y ^ 2 ≤ w := by
    rw [← huw]
    exact mul_le_of_le_one_left hw0 (by linarith)
  have h2XY : 2 * X * Y ≤ u * X ^ 2 + w := by
    have h1 : 0 ≤ (u * X - Y) ^ 2 := sq_nonneg _
    have h2 : u * (2 * X * Y) ≤ u * (u * X ^ 2 + w) := by
      have e : u * (u * X ^ 2 + w) = (u * X) ^ 2 + Y ^ 2 := by rw [mul_add, huw]; ring
      have e' : (u * X - Y) ^ 2 = (u * X) ^ 2 + Y ^ 2 - u * (2 * X * Y) := by ring
      rw [e]
      linarith
    exact le_of_mul_le_mul_left h2 hu0
  have hwQ : 2 * w ≤ u * Q := by
    have h1 : u * w ≤ u * (6 * (u * u) * kappa) := by
      have e1 : Y ^ 2 = 4 * t ^ 2 := by rw [hY]; ring
      have e2 : u * (6 * (u * u) * kappa) = 6 * (u * u * u) * kappa := by ring
      rw [huw, e1, e2]
      linarith
    have h2 := le_of_mul_le_mul_left h1 hu0
    have h3 := mul_le_mul_of_nonneg_left hQ hu0.le
    linarith
  have hX2 : X ^ 2 ≤ Q * (1 + 5 * u) ^ 2 := by
    rw [hX, mul_pow]
    exact mul_le_mul_of_nonneg_right hcs (sq_nonneg _)
  have hXX : X ^ 2 * (1 + u) ≤ Q * (1 + 5 * u) ^ 2 * (1 + u) := mul_le_mul_of_nonneg_right hX2 (by linarith)
  have hpoly : (1 + 5 * u) ^ 2 * (1 + u) + u ≤ 1 + 13 * u := by
    have : u * u ≤ 1 / 10000000 * u := mul_le_mul_of_nonneg_right hu hu0.le
    have h2 : u * (u * u) ≤ 1 / 10000000 * (u * u) := mul_le_mul_of_nonneg_right hu (by positivity)
    nlinarith
  calc G ^ 2 ≤ (X + Y) ^ 2 := hsq
    _ = X ^ 2 + 2 * X * Y + Y ^ 2 := by ring
    _ ≤ X ^ 2 * (1 + u) + 2 * w := by linarith
    _ ≤ Q * (1 + 5 * u) ^ 2 * (1 + u) + u * Q := by linarith
    _ = Q * ((1 + 5 * u) ^ 2 * (1 + u) + u) := by ring
    _ ≤ _ := mul_le_mul_of_nonneg_left hpoly hQ0

/-- How the ratio of squared first and second moment changes in one step. -/
theorem ratio_step (hA : f.Adequate) {r g v h g' v' rho kappa : ℝ} (hr32 : 32 * f.u ≤ r) (hr1 : r ≤ 5 / 8)
    (hv0 : 0 ≤ v) (hk : guard ≤ kappa) (hrho : 0 ≤ rho) (hg : g ^ 2 ≤ rho * (v + kappa))
    (hv' : ((1 - r) * v + r * h ^ 2) * (1 - 6 * f.u) - 3 * f.tiny ≤ v')
    (hg' : |g'| ≤ ((1 - r) * |g| + r * |h|) * (1 + 5 * f.u) + 2 * f.tiny) :
    g' ^ 2 ≤ ((1 - r) * rho + r) * (1 + 20 * f.u) * (v' + kappa) := by
  have hu0 : 0 < f.u := u_pos
  have hu := hA.u_small
  have ht0 := tiny_pos (f := f)
  obtain ⟨hg1, hg2⟩ := tiny_le_guard hA
  have hk0 : 0 < kappa := guard_pos.trans_le hk
  have hr0 : 0 < r := by linarith
  have hN : 0 < v + kappa := by linarith
  have hcs := weighted_cauchy (h := h) hr0.le (by linarith) hN hg
  set E := (1 - r) * rho + r with hE
  set W := (1 - r) * (v + kappa) + r * h ^ 2 with hW
  set H0 := (1 - r) * |g| + r * |h| with hH0
  have hE0 : r ≤ E := by
    have : 0 ≤ (1 - r) * rho := mul_nonneg (by linarith) hrho
    linarith
  have hrh : 0 ≤ r * h ^ 2 := by positivity
  have hW0 : 3 / 8 * kappa ≤ W := by
    have h1 : 3 / 8 * (v + kappa) ≤ (1 - r) * (v + kappa) := mul_le_mul_of_nonneg_right (by linarith) hN.le
    linarith
  have hWpos : 0 < W := by linarith
  have hQ0 : 12 * f.u * kappa ≤ E * W := by
    have : 32 * f.u * (3 / 8 * kappa) ≤ E * W := mul_le_mul (hr32.trans hE0) hW0 (by positivity) (by linarith)
    linarith
  have hH0' : 0 ≤ H0 := add_nonneg (mul_nonneg (by linarith) (abs_nonneg g)) (mul_nonneg hr0.le (abs_nonneg h))
  -- the second moment
  have hv1 : W * (1 - 6 * f.u) ≤ v' + kappa := by
    have h1 : 3 * f.tiny ≤ 6 * f.u * kappa := by nlinarith
    have h2 : 0 ≤ r * kappa := by positivity
    have h3 : 0 ≤ r * kappa * (1 - 6 * f.u) := mul_nonneg h2 (by linarith)
    have h4 : W * (1 - 6 * f.u) = ((1 - r) * v + r * h ^ 2) * (1 - 6 * f.u) + kappa * (1 - 6 * f.u) -
        r * kappa * (1 - 6 * f.u) := by rw [hW]; ring
    linarith
  -- the first moment
  have hg3 : g' ^ 2 ≤ E * W * (1 + 13 * f.u) := by
    rw [← sq_abs g']
    exact sq_slack hu0 hu (tiny_pos (f := f)).le hH0' hcs hQ0 (hg2.trans (by gcongr)) (abs_nonneg _) hg'
  have hfin : E * W * (1 + 13 * f.u) ≤ E * (1 + 20 * f.u) * (W * (1 - 6 * f.u)) := by
    have hEW : 0 ≤ E * W := mul_nonneg (by linarith) hWpos.le
    have : E * W * (1 + 13 * f.u) ≤ E * W * ((1 + 20 * f.u) * (1 - 6 * f.u)) :=
      mul_le_mul_of_nonneg_left (by nlinarith) hEW
    linarith
  have hfin2 : E * (1 + 20 * f.u) * (W * (1 - 6 * f.u)) ≤ E * (1 + 20 * f.u) * (v' + kappa) :=
    mul_le_mul_of_nonneg_left hv1 (mul_nonneg (by linarith) (by linarith))
  linarith

/-- The averaging weight in terms of the window length. -/
theorem rate_ratio {u tau r rho : ℝ} (hu0 : 0 < u) (hu : u ≤ 1 / 10000000) (ht : 3 / 4 ≤ tau) (hrho : 0 ≤ rho)
    (hr : |r - 1 / (tau + 1)| ≤ 3 * u / (tau + 1)) :
    ((1 - r) * rho + r) * (1 + 20 * u) * (tau + 1) ≤ (rho * tau + 1) * (1 + 25 * u) := by
  have hT : 0 < tau + 1 := by linarith
  have h1 : |r * (tau + 1) - 1| ≤ 3 * u := by
    have : r * (tau + 1) - 1 = (r - 1 / (tau + 1)) * (tau + 1) := by field_simp
    rw [this, abs_mul, abs_of_pos hT]
    calc |r - 1 / (tau + 1)| * (tau + 1) ≤ 3 * u / (tau + 1) * (tau + 1) := mul_le_mul_of_nonneg_right hr hT.le
      _ = 3 * u := by field_simp
  have h1' := abs_le.mp h1
  have h2 : ((1 - r) * rho + r) * (tau + 1) = rho * tau + 1 + (r * (tau + 1) - 1) * (1 - rho) := by ring
  have h3 : (r * (tau + 1) - 1) * (1 - rho) ≤ 3 * u * (1 + rho) := by
    calc (r * (tau + 1) - 1) * (1 - rho) ≤ |(r * (tau + 1) - 1) * (1 - rho)| := le_abs_self _
      _ = |r * (tau + 1) - 1| * |1 - rho| := abs_mul _ _
      _ ≤ 3 * u * (1 + rho) := by
        refine mul_le_mul h1 ?_ (abs_nonneg _) (by linarith)
        rw [abs_le]
        constructor <;> linarith
  have h4 : 3 / 4 * (1 + rho) ≤ rho * tau + 1 := by nlinarith
  have h5 : 3 * u * (1 + rho) ≤ 4 * u * (rho * tau + 1) := by nlinarith
  have h6 : 0 < rho * tau + 1 := by positivity
  have h7 : ((1 - r) * rho + r) * (tau + 1) ≤ (rho * tau + 1) * (1 + 4 * u) := by linarith
  calc ((1 - r) * rho + r) * (1 + 20 * u) * (tau + 1) = ((1 - r) * rho + r) * (tau + 1) * (1 + 20 * u) := by ring
    _ ≤ (rho * tau + 1) * (1 + 4 * u) * (1 + 20 * u) := mul_le_mul_of_nonneg_right h7 (by linarith)
    _ = (rho * tau + 1) * ((1 + 4 * u) * (1 + 20 * u)) := by ring
    _ ≤ (rho * tau + 1) * (1 + 25 * u) := mul_le_mul_of_nonneg_left (by nlinarith) h6.le

/-- What `safe_divide` divides by when the divisor is `v` and the constant `c`. -/
noncomputable def guarded (v c : ℝ) : ℝ := if v = 0 then c else v + 3 * c

theorem guarded_ge {v c : ℝ} (hv : 0 ≤ v) (hc : 0 < c) : c ≤ guarded v c ∧ v ≤ guarded v c := by
  unfold guarded
  split_ifs with h
  · constructor <;> linarith
  · constructor <;> linarith

/-- The rounded denominator of `safe_divide`. -/
theorem guarded_den (hA : f.Adequate) {v c : ℝ} (hv : f.IsRep v) (hv0 : 0 ≤ v) (hc : f.IsRep c) (hc0 : 0 < c)
    (hb : v + 4 * c ≤ f.largest) :
    ∃ d, R.arith.add (.fin v)
      (R.arith.add (R.arith.mul (R.arith.mul (R.arith.lit 2) (Fl.sign (.fin v))) (.fin c)) (.fin c)) = .fin d ∧
      f.IsRep d ∧ |d - guarded v c| ≤ 3 * f.u * guarded v c := by
  have hu0 : 0 < f.u := u_pos
  have hu := hA.u_small
  have hcc : f.IsRep (2 * c) := hc.double (by rw [abs_of_pos (by linarith)]; linarith)
  have h2 : R.arith.lit 2 = .fin 2 := R.exact hA.unit.two
  rcases hv0.eq_or_lt with h | h
  · have hs : Fl.sign (.fin v) = .fin 0 := by
      rw [Fl.sign_fin, if_neg (by linarith), if_neg (by linarith)]
    rw [h2, hs, Arith.mul_fin, R.arith_rnd, mul_zero, R.rnd_zero, Arith.mul_fin, R.arith_rnd, zero_mul, R.rnd_zero,
        Arith.add_fin, R.arith_rnd, zero_add, R.exact hc, Arith.add_fin, R.arith_rnd, ← h, zero_add, R.exact hc]
    refine ⟨c, rfl, hc, ?_⟩
    unfold guarded
    rw [if_pos rfl, sub_self, abs_zero]
    positivity
  · have hs : Fl.sign (.fin v) = .fin 1 := by
      rw [Fl.sign_fin, if_pos h]
    rw [h2, hs, Arith.mul_fin, R.arith_rnd, mul_one, R.exact hA.unit.two, Arith.mul_fin, R.arith_rnd, R.exact hcc,
        Arith.add_fin, R.arith_rnd]
    obtain ⟨s, hsr, hs⟩ := near_of_le R (x := 2 * c + c) (by rw [abs_of_pos (by linarith)]; linarith)
    have e1 := R.error_add hcc hc hs
    rw [abs_of_pos (by linarith : 0 < 2 * c + c)] at e1
    have e1' := abs_le.mp e1
    have huc : f.u * c ≤ 1 / 10000000 * c := mul_le_mul_of_nonneg_right hu hc0.le
    rw [hs, Arith.add_fin, R.arith_rnd]
    obtain ⟨d, hdr, hd⟩ := near_of_le R (x := v + s) (by rw [abs_of_pos (by linarith)]; linarith)
    have e2 := R.error_add hv hsr hd
    rw [abs_of_pos (by linarith : 0 < v + s)] at e2
    have e2' := abs_le.mp e2
    refine ⟨d, hd, hdr, ?_⟩
    unfold guarded
    rw [if_neg h.ne', abs_le]
    have huv : 0 ≤ f.u * v := by positivity
    have huuc : f.u * (f.u * c) ≤ 1 / 10000000 * (f.u * c) := mul_le_mul_of_nonneg_right hu (by positivity)
    have hus : f.u * s ≤ f.u * (2 * c + c + f.u * (2 * c + c)) := mul_le_mul_of_nonneg_left (by linarith) hu0.le
    have huc0 : 0 ≤ f.u * c := by positivity
    constructor <;> linarith

set_option maxHeartbeats 1000000 in
/-- One update of the window length.  `S` is the exact decrement. -/
theorem tau_step (hA : f.Adequate) {tau g v M : ℝ} (ht : f.IsRep tau) (hv : f.IsRep v) (hv0 : 0 ≤ v)
    (ht1 : 3 / 4 ≤ tau) (ht2 : 64 * ((tau + 1) * f.u) ≤ 1) (hvM : v ≤ 2 * M) (hgM : g ^ 2 ≤ 4 * M) (hM1 : 1 ≤ M)
    (hM : M ≤ f.u * f.largest) {c : ℝ} (hc : R.arith.lit 1e-16 = .fin c) (hcr : f.IsRep c) (hcl : 1 / 2 ^ 54 ≤ c)
    (hch : c ≤ 1 / 2 ^ 53) (hS : g ^ 2 * tau / guarded v c ≤ 2 * tau) :
    ∃ tau', R.arith.add (.fin tau) (rhsTau R.arith (.fin g) (.fin tau) (.fin v)) = .fin tau' ∧ f.IsRep tau' ∧
      |tau' - (tau + 1 - g ^ 2 * tau / guarded v c)| ≤ 20 * f.u * (tau + 1) ∧
      ∀ b, f.IsRep b → tau + 1 ≤ b → tau' ≤ b := by
  have hu0 : 0 < f.u := u_pos
  have hu := hA.u_small
  have ht0 := tiny_pos (f := f)
  have htu := tiny_le_u hA
  have hc0 : 0 < c := lt_of_lt_of_le (by positivity) hcl
  have hc1 : c ≤ 1 / 1000 := hch.trans (by norm_num)
  set N := guarded v c with hN
  obtain ⟨hNc, hNv⟩ := guarded_ge hv0 hc0
  rw [← hN] at hNc hNv
  have hN0 : 0 < N := hc0.trans_le hNc
  set S := g ^ 2 * tau / N with hSdef
  have hS0 : 0 ≤ S := by positivity
  have hSN : S * N = g ^ 2 * tau := by rw [hSdef]; field_simp
  -- sizes
  have hT64 : tau + 1 ≤ 1 / (64 * f.u) := by
    rw [le_div_iff₀ (by positivity)]
    linarith
  have hL : f.u * 8 ≤ 1 := by linarith
  have hML : 8 * M ≤ f.largest := by
    have h1 : f.u * f.largest ≤ 1 / 8 * f.largest := mul_le_mul_of_nonneg_right (by linarith) largest_pos.le
    linarith
  have hLu : M / f.u ≤ f.largest := by
    rw [div_le_iff₀ hu0]
    linarith
  have hMT : 64 * (M * (tau + 1)) ≤ f.largest := by
    have h1 : M * (tau + 1) ≤ M * (1 / (64 * f.u)) := mul_le_mul_of_nonneg_left hT64 (by linarith)
    have h2 : M * (1 / (64 * f.u)) = M / f.u / 64 := by field_simp
    linarith
  have hTL : 64 * (tau + 1) ≤ f.largest := by
    have h1 : 1 * (tau + 1) ≤ M * (tau + 1) := mul_le_mul_of_nonneg_right hM1 (by linarith)
    linarith
  -- underflow is negligible: `tiny (tau + 1) ≤ u c / 100`
  have hunder : f.tiny * (tau + 1) ≤ f.u * c / 1000 := by
    have h1 : f.tiny * (64 * f.u * (tau + 1)) ≤ f.tiny * 1 := mul_le_mul_of_nonneg_left (by linarith) ht0.le
    have h2 : f.tiny * 2 ^ 60 * 1 ≤ f.u * (f.u * f.u) := by linarith
    have h3 : f.u * (f.tiny * (tau + 1)) ≤ f.u * (f.u * c / 1000) := by
      have h4 : f.u * (f.u * f.u) ≤ f.u * (f.u * (1 / 10000000)) :=
        mul_le_mul_of_nonneg_left (mul_le_mul_of_nonneg_left hu hu0.le) hu0.le
      have h5 : f.u * (f.u * (1 / 2 ^ 54)) ≤ f.u * (f.u * c) :=
        mul_le_mul_of_nonneg_left (mul_le_mul_of_nonneg_left hcl hu0.le) hu0.le
      norm_num at h2 h5
      have : 0 < f.u * f.u := by positivity
      linarith
    exact le_of_mul_le_mul_left h3 hu0
  have htiny : f.tiny ≤ f.u * c / 1000 := by
    have h1 := mul_le_mul_of_nonneg_left (by linarith : 1 ≤ tau + 1) ht0.le
    linarith
  -- the roundings
  have hg0 : 0 ≤ g ^ 2 := sq_nonneg g
  have hgt0 : 0 ≤ g ^ 2 * tau := by positivity
  obtain ⟨n1, hn1r, hn1⟩ := near_of_le R (x := g ^ 2) (by rw [abs_of_nonneg hg0]; linarith)
  have e1 := R.error' hn1
  rw [abs_of_nonneg hg0] at e1
  have e1' := abs_le.mp e1
  have hn10 : 0 ≤ n1 := R.rep_le rep_zero hg0 hn1
  have hug : f.u * g ^ 2 ≤ 1 / 10000000 * g ^ 2 := mul_le_mul_of_nonneg_right hu hg0
  have hn15 : n1 ≤ 5 * M := by
    have : f.u * c ≤ 1 * 1 := mul_le_mul (by linarith) (by linarith) hc0.le one_pos.le
    linarith
  have hn1t : 0 ≤ n1 * tau := by positivity
  have hn1t5 : n1 * tau ≤ 5 * M * tau := mul_le_mul_of_nonneg_right hn15 (by linarith)
  obtain ⟨n2, hn2r, hn2⟩ := near_of_le R (x := n1 * tau) (by
    rw [abs_of_nonneg hn1t]
    have : 0 ≤ M * tau := by positivity
    linarith)
  have e2 := R.error' hn2
  rw [abs_of_nonneg hn1t] at e2
  have e2' := abs_le.mp e2
  have hn20 : 0 ≤ n2 := R.rep_le rep_zero hn1t hn2
  obtain ⟨d, hd, hdr, e3⟩ := guarded_den R hA hv hv0 hcr hc0 (by linarith)
  rw [← hN] at e3
  have e3' := abs_le.mp e3
  have huN : f.u * N ≤ 1 / 10000000 * N := mul_le_mul_of_nonneg_right hu hN0.le
  have hd0 : 0 < d := by linarith
  -- `n2` against `g² tau`
  have hugt : 0 ≤ f.u * (g ^ 2 * tau) := by positivity
  have huugt : f.u * (f.u * (g ^ 2 * tau)) ≤ 1 / 10000000 * (f.u * (g ^ 2 * tau)) :=
    mul_le_mul_of_nonneg_right hu hugt
  have m1 : n1 * tau ≤ (g ^ 2 + (f.u * g ^ 2 + f.tiny / 2)) * tau := mul_le_mul_of_nonneg_right (by linarith) (by linarith)
  have m2 : (g ^ 2 - (f.u * g ^ 2 + f.tiny / 2)) * tau ≤ n1 * tau := mul_le_mul_of_nonneg_right (by linarith) (by linarith)
  have htt : 0 ≤ f.tiny * tau := by positivity
  have m3 : f.u * (n1 * tau) ≤ f.u * ((g ^ 2 + (f.u * g ^ 2 + f.tiny / 2)) * tau) := mul_le_mul_of_nonneg_left m1 hu0.le
  have mtt : f.u * (f.tiny * tau) ≤ 1 / 10000000 * (f.tiny * tau) := mul_le_mul_of_nonneg_right hu htt
  have m4 : n2 ≤ g ^ 2 * tau + 21 / 10 * (f.u * (g ^ 2 * tau)) + f.tiny * (tau + 1) := by linarith
  have m5 : g ^ 2 * tau - 21 / 10 * (f.u * (g ^ 2 * tau)) - f.tiny * (tau + 1) ≤ n2 := by linarith
  -- the quotient
  have hSd : |S * d - g ^ 2 * tau| ≤ 3 * (f.u * (g ^ 2 * tau)) := by
    have : S * d - g ^ 2 * tau = S * (d - N) := by rw [← hSN]; ring
    rw [this, abs_mul, abs_of_nonneg hS0]
    calc S * |d - N| ≤ S * (3 * f.u * N) := mul_le_mul_of_nonneg_left e3 hS0
      _ = 3 * (f.u * (S * N)) := by ring
      _ = _ := by rw [hSN]
  have hSd' := abs_le.mp hSd
  have huS : 0 ≤ f.u * S := by positivity
  have huSd : f.u * (g ^ 2 * tau) ≤ f.u * S * d * (1001 / 1000) := by
    have h1 : g ^ 2 * tau ≤ S * d * (1001 / 1000) := by
      have : f.u * (g ^ 2 * tau) ≤ 1 / 10000000 * (g ^ 2 * tau) := mul_le_mul_of_nonneg_right hu hgt0
      linarith
    calc f.u * (g ^ 2 * tau) ≤ f.u * (S * d * (1001 / 1000)) := mul_le_mul_of_nonneg_left h1 hu0.le
      _ = _ := by ring
  have hdc : c / 2 ≤ d := by linarith
  have hud : f.u * c / 1000 ≤ f.u / 100 * d := by
    have h1 := mul_le_mul_of_nonneg_left hdc hu0.le
    have h2 : 0 ≤ f.u * d := by positivity
    linarith
  have q1 : n2 / d ≤ S + 52 / 10 * (f.u * S) + f.u / 100 := by
    rw [div_le_iff₀ hd0]
    have : (S + 52 / 10 * (f.u * S) + f.u / 100) * d = S * d + 52 / 10 * (f.u * S * d) + f.u / 100 * d := by ring
    rw [this]
    have h0 : 0 ≤ f.u * S * d := by positivity
    linarith
  have q2 : S - 52 / 10 * (f.u * S) - f.u / 100 ≤ n2 / d := by
    rw [le_div_iff₀ hd0]
    have : (S - 52 / 10 * (f.u * S) - f.u / 100) * d = S * d - 52 / 10 * (f.u * S * d) - f.u / 100 * d := by ring
    rw [this]
    have h0 : 0 ≤ f.u * S * d := by positivity
    linarith
  have hq0 : 0 ≤ n2 / d := by positivity
  have huS2 : f.u * S ≤ 1 / 10000000 * S := mul_le_mul_of_nonneg_right hu hS0
  obtain ⟨q, hqr, hq⟩ := near_of_le R (x := n2 / d) (by
    rw [abs_of_nonneg hq0]
    linarith)
  have e4 := R.error' hq
  rw [abs_of_nonneg hq0] at e4
  have e4' := abs_le.mp e4
  have hq0' : 0 ≤ q := R.rep_le rep_zero hq0 hq
  have huq : f.u * (n2 / d) ≤ f.u * (S + 52 / 10 * (f.u * S) + f.u / 100) := mul_le_mul_of_nonneg_left q1 hu0.le
  have huuS : f.u * (f.u * S) ≤ 1 / 10000000 * (f.u * S) := mul_le_mul_of_nonneg_right hu huS
  have huu : f.u * f.u ≤ 1 / 10000000 * f.u := mul_le_mul_of_nonneg_right hu hu0.le
  have hcu : f.u * c ≤ f.u := mul_le_of_le_one_right hu0.le (by linarith)
  have q3 : q ≤ S + 65 / 10 * (f.u * S) + f.u / 10 := by linarith
  have q4 : S - 65 / 10 * (f.u * S) - f.u / 10 ≤ q := by linarith
  obtain ⟨s, hsr, hs⟩ := near_of_le R (x := -q + 1) (by
    rw [abs_le]
    constructor <;> linarith)
  have e5 := R.error_add hqr.neg hA.unit.one hs
  have hq1 : |-q + 1| ≤ q + 1 := by rw [abs_le]; constructor <;> linarith
  have e5' := abs_le.mp e5
  have m6 : f.u * |-q + 1| ≤ f.u * (S + 65 / 10 * (f.u * S) + f.u / 10 + 1) :=
    mul_le_mul_of_nonneg_left (by linarith) hu0.le
  have hs1 : s ≤ 1 := R.le_rep hA.unit.one (by linarith) hs
  have hsabs : |tau + s| ≤ tau + q + 2 := by
    rw [abs_le]
    constructor <;> linarith
  obtain ⟨tau', ht'r, ht'⟩ := near_of_le R (x := tau + s) (by linarith)
  have e6 := R.error_add ht hsr ht'
  have e6' := abs_le.mp e6
  have m7 : f.u * |tau + s| ≤ f.u * (tau + (S + 65 / 10 * (f.u * S) + f.u / 10) + 2) :=
    mul_le_mul_of_nonneg_left (by linarith) hu0.le
  refine ⟨tau', ?_, ht'r, ?_, ?_⟩
  · have hnn1 : R.rnd (-g * g) = .fin (-n1) := by
      rw [show -g * g = -(g ^ 2) by ring, R.odd, hn1]
      rfl
    have hnn2 : R.rnd (-n1 * tau) = .fin (-n2) := by
      rw [show -n1 * tau = -(n1 * tau) by ring, R.odd, hn2]
      rfl
    have hnq : R.rnd (-n2 / d) = .fin (-q) := by
      rw [show -n2 / d = -(n2 / d) by ring, R.odd, hq]
      rfl
    unfold rhsTau safeDivide' safeDivide
    show R.arith.add (.fin tau) (R.arith.add (R.arith.div (R.arith.mul (R.arith.mul (.fin (-g)) (.fin g)) _) _) _) = _
    rw [hc, hd, Arith.mul_fin, R.arith_rnd, hnn1, Arith.mul_fin, R.arith_rnd, hnn2, Arith.div_fin _ hd0.ne',
      R.arith_rnd, hnq, R.arith_lit, R.exact hA.unit.one, Arith.add_fin, R.arith_rnd, hs, Arith.add_fin, R.arith_rnd,
      ht']
  · have huS3 : f.u * S ≤ f.u * (2 * tau) := mul_le_mul_of_nonneg_left hS hu0.le
    have hut : 0 ≤ f.u * tau := by positivity
    rw [abs_le]
    constructor <;> linarith
  · intro b hb hb1
    exact R.le_rep hb (by linarith) ht'

end PySGMCMC.Rounded
