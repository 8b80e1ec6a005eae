import Verif.Props.RoundedRun
import Verif.Lemmas.SVGD

/-!
# SVGD in floating point arithmetic (C116)
-/

namespace PySGMCMC.Rounded

open Format

variable {f : Format} (R : Rounding f)

/-- With exact arithmetic `Svgd.step` is what a session run of the exact model does to each coordinate. -/
theorem link_svgd {n d : Nat} (inp : SVGD.Inputs n d) (σ : SVGD.Schedule n) (s : SVGD.State n d) (i : Fin n)
    (k : Fin d) :
    (⟨(SVGD.run inp σ s).hist i k, (SVGD.run inp σ s).particles i k⟩ : Svgd) =
      Svgd.step .exact inp.alpha (1 - inp.alpha) inp.fudge ⟨s.hist i k, s.particles i k⟩
        (inp.epsilon, SVGD.gradTheta inp s.particles i k) := by
  obtain ⟨h1, h2, -⟩ := SVGD.run_eq inp σ s
  rw [h1, h2]
  simp only [Svgd.step, SVGD.nextParticle, SVGD.nextHist, link_rhsHist, link_adjGrad, particle, Arith.exact_sub,
    Arith.exact_mul]

/-- What the scaling of the gradient needs: `a` and `b` stand for `alpha` and `1. - alpha`, `c` for `fudge_factor`, all
after conversion to the dtype. -/
structure SvgdConst (f : Format) (a b c : ℝ) : Prop where
  a_rep : f.IsRep a
  a_pos : 0 < a
  a_le : a ≤ 1
  b_rep : f.IsRep b
  b_pos : 0 < b
  b_le : b ≤ 1
  c_rep : f.IsRep c
  c_pos : 0 < c
  c_le : c ≤ 1
  c_large : f.tiny ≤ f.u * c ^ 2

/-- The possible values of `historical_grad`. -/
def GoodHist (f : Format) (h : Fl) : Prop := h = .pinf ∨ ∃ x, h = .fin x ∧ f.IsRep x ∧ 0 ≤ x

theorem fin_mul_pinf {a : ℝ} (ha : 0 < a) : Fl.fin a * Fl.pinf = .pinf := by
  show (if 0 < a then Fl.pinf else if a < 0 then Fl.ninf else Fl.nan) = _
  rw [if_pos ha]

/-! ## One update of `historical_grad` -/

/-- The rounded square of a gradient, scaled. -/
theorem scaled_square {a b c : ℝ} (hc : SvgdConst f a b c) (g : ℝ) :
    let p := R.arith.mul (.fin b) (R.arith.pow (.fin g) 2)
    (f.huge ≤ g ^ 2 ∧ p = .pinf) ∨
      ∃ s q, R.rnd (g ^ 2) = .fin s ∧ R.rnd (b * s) = .fin q ∧ p = .fin q ∧ f.IsRep q ∧ 0 ≤ s ∧ 0 ≤ q := by
  intro p
  by_cases hg : f.huge ≤ g ^ 2
  · left
    refine ⟨hg, ?_⟩
    show R.arith.mul _ _ = _
    rw [Arith.pow_fin, R.arith_rnd, R.over _ hg]
    show R.arith.fix (Fl.fin b * Fl.pinf) = _
    rw [fin_mul_pinf hc.b_pos]
    rfl
  · right
    push Not at hg
    obtain ⟨s, hs, hsr, -⟩ := R.near (g ^ 2) (by rwa [abs_of_nonneg (sq_nonneg g)])
    have hs0 : 0 ≤ s := R.rep_le rep_zero (sq_nonneg g) hsr
    obtain ⟨q, hq, hqr, hq0, -⟩ := R.between rep_zero hs (x := b * s) (mul_nonneg hc.b_pos.le hs0)
      (mul_le_of_le_one_left hs0 hc.b_le)
    refine ⟨s, q, hsr, hq, ?_, hqr, hs0, hq0⟩
    show R.arith.mul _ _ = _
    rw [Arith.pow_fin, R.arith_rnd, hsr, Arith.mul_fin, R.arith_rnd, hq]

/-- `historical_grad` after an update: infinite, or at least the scaled square that was added. -/
theorem hist_step {a b c g : ℝ} (hc : SvgdConst f a b c) {h : Fl} (hh : GoodHist f h) :
    rhsHist R.arith (.fin a) (.fin b) h (.fin g) = .pinf ∨
      ∃ s q y, R.rnd (g ^ 2) = .fin s ∧ R.rnd (b * s) = .fin q ∧
        rhsHist R.arith (.fin a) (.fin b) h (.fin g) = .fin y ∧ f.IsRep y ∧ 0 ≤ s ∧ 0 ≤ q ∧ q ≤ y := by
  have hm : R.arith.mul (.fin a) h = .pinf ∨ ∃ x, R.arith.mul (.fin a) h = .fin x ∧ f.IsRep x ∧ 0 ≤ x := by
    rcases hh with rfl | ⟨x, rfl, hx, hx0⟩
    · left
      show R.arith.fix (Fl.fin a * Fl.pinf) = _
      rw [fin_mul_pinf hc.a_pos]
      rfl
    · right
      obtain ⟨y, hy, hyr, hy0, -⟩ := R.between rep_zero hx (x := a * x) (mul_nonneg hc.a_pos.le hx0)
        (mul_le_of_le_one_left hx0 hc.a_le)
      exact ⟨y, by rw [Arith.mul_fin, R.arith_rnd, hy], hyr, hy0⟩
  unfold rhsHist
  rcases scaled_square R hc g with ⟨-, hp⟩ | ⟨s, q, hs, hq, hp, hqr, hs0, hq0⟩
  · left
    rcases hm with hm | ⟨x, hm, -⟩ <;> rw [hm, hp] <;> rfl
  · rcases hm with hm | ⟨x, hm, hx, hx0⟩
    · left
      rw [hm, hp]
      rfl
    · rw [hm, hp, Arith.add_fin, R.arith_rnd]
      rcases R.ge_cases hqr (x := x + q) (by linarith) with h' | ⟨y, hy, hyr, hqy⟩
      · exact Or.inl h'
      · exact Or.inr ⟨s, q, y, hs, hq, hy, hyr, hs0, hq0, hqy⟩

/-- **C116 (historical gradient).**  It is never NaN and never negative. -/
theorem C116_hist {a b c g : ℝ} (hc : SvgdConst f a b c) {h : Fl} (hh : GoodHist f h) :
    GoodHist f (rhsHist R.arith (.fin a) (.fin b) h (.fin g)) := by
  rcases hist_step R (g := g) hc hh with h' | ⟨s, q, y, -, -, hy, hyr, -, hq0, hqy⟩
  · exact Or.inl h'
  · exact Or.inr ⟨y, hy, hyr, hq0.trans hqy⟩

/-! ## The scaled gradient -/

/-- A relative error in both cases of `R.error`. -/
theorem lower_of_error {x y m : ℝ} (h : R.rnd x = .fin y) (hx : 0 ≤ x) (hm : m ≤ x) (ht : f.tiny ≤ 2 * (f.u * m)) :
    (1 - f.u) * x ≤ y := by
  have h1 : |x - y| ≤ f.u * x := by
    rcases R.error h with h' | h'
    · rwa [abs_of_nonneg hx] at h'
    · have := mul_le_mul_of_nonneg_left hm (u_pos (f := f)).le
      linarith
  have := (abs_le.mp h1).2
  linarith

/-- The real inequality behind the bound of the scaled gradient. -/
theorem scale_bound {u b K g s q y rt r : ℝ} (hu0 : 0 < u) (hu : u ≤ 1 / 8) (hb : 0 < b) (hK : 0 < K)
    (hKb : 1 + 8 * u ≤ K ^ 2 * b) (hs : (1 - u) * g ^ 2 ≤ s) (hq : (1 - u) * (b * s) ≤ q) (hy : q ≤ y)
    (hrt0 : 0 ≤ rt) (hrt : rt ^ 2 = y) (hr : (1 - u) * rt ≤ r) : |g| ≤ K * r := by
  have h0 : 0 ≤ 1 - u := by linarith
  have hg := sq_nonneg g
  have h1 : (1 - u) * (b * ((1 - u) * g ^ 2)) ≤ y :=
    (mul_le_mul_of_nonneg_left (mul_le_mul_of_nonneg_left hs hb.le) h0).trans (hq.trans hy)
  have hr0 : 0 ≤ r := (mul_nonneg h0 hrt0).trans hr
  have h2 : ((1 - u) * rt) ^ 2 ≤ r ^ 2 := pow_le_pow_left₀ (mul_nonneg h0 hrt0) hr 2
  have h3 : (1 - u) ^ 4 * (b * g ^ 2) ≤ r ^ 2 := by
    have h4 : (1 - u) ^ 2 * ((1 - u) * (b * ((1 - u) * g ^ 2))) ≤ (1 - u) ^ 2 * y :=
      mul_le_mul_of_nonneg_left h1 (sq_nonneg _)
    rw [mul_pow, hrt] at h2
    calc (1 - u) ^ 4 * (b * g ^ 2) = (1 - u) ^ 2 * ((1 - u) * (b * ((1 - u) * g ^ 2))) := by ring
      _ ≤ _ := h4
      _ ≤ _ := h2
  have h5 : 1 - 4 * u ≤ (1 - u) ^ 4 := by
    have := one_add_mul_le_pow (a := -u) (by linarith) 4
    push_cast at this
    rw [← sub_eq_add_neg] at this
    linarith
  have h6 : 1 ≤ (1 - u) ^ 4 * (K ^ 2 * b) := by
    have h7 : 1 ≤ (1 - 4 * u) * (1 + 8 * u) := by nlinarith
    have h8 : (1 - 4 * u) * (1 + 8 * u) ≤ (1 - u) ^ 4 * (K ^ 2 * b) :=
      mul_le_mul h5 hKb (by linarith) (by positivity)
    exact h7.trans h8
  refine abs_le_of_sq_le_sq ?_ (by positivity)
  calc g ^ 2 = 1 * g ^ 2 := by ring
    _ ≤ (1 - u) ^ 4 * (K ^ 2 * b) * g ^ 2 := mul_le_mul_of_nonneg_right h6 hg
    _ = K ^ 2 * ((1 - u) ^ 4 * (b * g ^ 2)) := by ring
    _ ≤ K ^ 2 * r ^ 2 := mul_le_mul_of_nonneg_left h3 (sq_nonneg K)
    _ = (K * r) ^ 2 := by ring

/-- The denominator of `adj_grad`. -/
theorem adj_den {c y : ℝ} (hc : f.IsRep c) (hc0 : 0 < c) (hu : f.HasUnit) (hy : f.IsRep y) (hy0 : 0 ≤ y) :
    ∃ r, R.rnd (Real.sqrt y) = .fin r ∧ 0 ≤ r ∧
      (R.arith.add (.fin c) (R.arith.sqrt (.fin y)) = .pinf ∨
        ∃ d, R.arith.add (.fin c) (R.arith.sqrt (.fin y)) = .fin d ∧ c ≤ d ∧ r ≤ d) := by
  have h1 : Real.sqrt y ≤ max 1 y := by
    rcases le_total y 1 with h | h
    · exact (Real.sqrt_le_one.mpr h).trans (le_max_left _ _)
    · refine le_trans ?_ (le_max_right _ _)
      rw [Real.sqrt_le_left hy0]
      nlinarith
  obtain ⟨r, hr, hrr, hr0, -⟩ := R.between rep_zero (max_rep hu.one hy) (Real.sqrt_nonneg y) h1
  refine ⟨r, hr, hr0, ?_⟩
  rw [Arith.sqrt_fin _ hy0, R.arith_rnd, hr, Arith.add_fin, R.arith_rnd]
  rcases R.ge_cases (max_rep hc hrr) (x := c + r) (max_le (by linarith) (by linarith)) with h' | ⟨d, hd, -, hcd⟩
  · exact Or.inl h'
  · exact Or.inr ⟨d, hd, (le_max_left _ _).trans hcd, (le_max_right _ _).trans hcd⟩

/-- **C116 (scaled gradient).**  However large or small the gradient is, and whatever the history, the scaled gradient
is a number of absolute value at most `K`, for every number `K` of the format a little above `1 / sqrt (1 - alpha)`. -/
theorem C116_adj (hu : f.HasUnit) (hu8 : f.u ≤ 1 / 8) {a b c K g : ℝ} (hc : SvgdConst f a b c) (hK : f.IsRep K)
    (hK1 : 1 ≤ K) (hKb : 1 + 8 * f.u ≤ K ^ 2 * b) {h : Fl} (hh : GoodHist f h) :
    ∃ z, adjGrad R.arith (.fin c) (.fin g) (rhsHist R.arith (.fin a) (.fin b) h (.fin g)) = .fin z ∧ f.IsRep z ∧
      |z| ≤ K ∧ 0 ≤ z * g := by
  have hinf : R.arith.div (.fin g) .pinf = .fin 0 := R.rnd_zero
  have hu0 : 0 < f.u := u_pos
  unfold adjGrad
  rcases hist_step R (g := g) hc hh with h' | ⟨s, q, y, hs, hq, hy, hyr, hs0, hq0, hqy⟩
  · rw [h']
    refine ⟨0, ?_, rep_zero, by simpa using zero_le_one.trans hK1, by simp⟩
    have : R.arith.add (.fin c) (R.arith.sqrt .pinf) = .pinf := rfl
    rw [this, hinf]
  rw [hy]
  obtain ⟨r, hr, hr0, hd | ⟨d, hd, hcd, hrd⟩⟩ := adj_den R hc.c_rep hc.c_pos hu hyr (hq0.trans hqy)
  · rw [hd, hinf]
    exact ⟨0, rfl, rep_zero, by simpa using zero_le_one.trans hK1, by simp⟩
  have hd0 : 0 < d := hc.c_pos.trans_le hcd
  have hK0 : 0 < K := by linarith
  have key : |g| ≤ K * d := by
    rcases le_or_gt |g| (K * c) with hsm | hlg
    · exact hsm.trans (mul_le_mul_of_nonneg_left hcd hK0.le)
    refine le_trans ?_ (mul_le_mul_of_nonneg_left hrd hK0.le)
    have hc2 : 0 < c ^ 2 := pow_pos hc.c_pos 2
    have hg2 : K ^ 2 * c ^ 2 ≤ g ^ 2 := by
      rw [← mul_pow, ← sq_abs g]
      exact pow_le_pow_left₀ (mul_nonneg hK0.le hc.c_pos.le) hlg.le 2
    have hgc : c ^ 2 ≤ g ^ 2 := by
      have : 1 * c ^ 2 ≤ K ^ 2 * c ^ 2 := mul_le_mul_of_nonneg_right (by nlinarith) hc2.le
      linarith
    have hut : 0 ≤ f.u * c ^ 2 := by positivity
    have hs1 : (1 - f.u) * g ^ 2 ≤ s :=
      lower_of_error R hs (sq_nonneg g) hgc (by linarith [hc.c_large])
    have hbs : c ^ 2 / 2 ≤ b * s := by
      have h1 : b * ((1 - f.u) * (K ^ 2 * c ^ 2)) ≤ b * s :=
        mul_le_mul_of_nonneg_left ((mul_le_mul_of_nonneg_left hg2 (by linarith)).trans hs1) hc.b_pos.le
      have h2 : 1 * c ^ 2 ≤ (K ^ 2 * b) * c ^ 2 := mul_le_mul_of_nonneg_right (by linarith) hc2.le
      have h3 : (1 / 2) * ((K ^ 2 * b) * c ^ 2) ≤ (1 - f.u) * ((K ^ 2 * b) * c ^ 2) :=
        mul_le_mul_of_nonneg_right (by linarith) (by nlinarith)
      have e : b * ((1 - f.u) * (K ^ 2 * c ^ 2)) = (1 - f.u) * ((K ^ 2 * b) * c ^ 2) := by ring
      linarith
    have hq1 : (1 - f.u) * (b * s) ≤ q :=
      lower_of_error R hq (mul_nonneg hc.b_pos.le hs0) hbs (by linarith [hc.c_large])
    have hy1 : (c / 2) ^ 2 ≤ y := by
      have h1 : (1 / 2) * (b * s) ≤ (1 - f.u) * (b * s) :=
        mul_le_mul_of_nonneg_right (by linarith) (mul_nonneg hc.b_pos.le hs0)
      nlinarith
    have hrt : c / 2 ≤ Real.sqrt y := Real.le_sqrt_of_sq_le hy1
    have hcu : f.u * c ^ 2 ≤ f.u * c := by
      refine mul_le_mul_of_nonneg_left ?_ hu0.le
      have := hc.c_le
      have := hc.c_pos
      nlinarith
    have hr1 : (1 - f.u) * Real.sqrt y ≤ r :=
      lower_of_error R hr (Real.sqrt_nonneg y) hrt (by linarith [hc.c_large])
    exact scale_bound hu0 hu8 hc.b_pos hK0 hKb hs1 hq1 hqy (Real.sqrt_nonneg y) (Real.sq_sqrt (hq0.trans hqy)) hr1
  have hq : |g / d| ≤ K := by
    rw [abs_div, abs_of_pos hd0, div_le_iff₀ hd0]
    exact key
  obtain ⟨z, hz, hzr, hz1, hz2⟩ := R.between hK.neg hK (abs_le.mp hq).1 (abs_le.mp hq).2
  refine ⟨z, ?_, hzr, abs_le.mpr ⟨hz1, hz2⟩, ?_⟩
  · rw [hd, Arith.div_fin _ hd0.ne', R.arith_rnd, hz]
  · rcases le_total 0 g with h0 | h0
    · exact mul_nonneg (R.rep_le rep_zero (div_nonneg h0 hd0.le) hz) h0
    · exact mul_nonneg_of_nonpos_of_nonpos (R.le_rep rep_zero (div_nonpos_of_nonpos_of_nonneg h0 hd0.le) hz) h0

/-! ## Whole runs -/

/-- A multiple of a power of two. -/
theorem rep_mult_pow {n : ℕ} {e : ℤ} (h1 : f.emin ≤ e) (h2 : e ≤ f.emax) (hn : n < 2 ^ f.prec) :
    f.IsRep (n * (2 : ℝ) ^ e) :=
  ⟨n, e, by rw [abs_of_nonneg (by positivity)]; exact_mod_cast hn, h1, h2, by simp⟩

/-- One session run moves a coordinate by at most one unit of `2 ^ e`. -/
theorem svgd_step (hu : f.HasUnit) (hu8 : f.u ≤ 1 / 8) {a b c K : ℝ} (hc : SvgdConst f a b c) (hK : f.IsRep K)
    (hK1 : 1 ≤ K) (hKb : 1 + 8 * f.u ≤ K ^ 2 * b) {e : ℤ} (he1 : f.emin ≤ e) (he2 : e ≤ f.emax) {h : Fl}
    (hh : GoodHist f h) {t eps g : ℝ} (hp0 : 0 ≤ eps) (hp1 : eps * K ≤ 2 ^ e)
    {n : ℕ} (hn : n + 1 < 2 ^ f.prec) (ht : |t| ≤ n * 2 ^ e) :
    ∃ h' t', Svgd.step R.arith (.fin a) (.fin b) (.fin c) ⟨h, .fin t⟩ (.fin eps, .fin g) = ⟨h', .fin t'⟩ ∧
      GoodHist f h' ∧ f.IsRep t' ∧ |t'| ≤ (n + 1 : ℕ) * 2 ^ e := by
  obtain ⟨z, hz, -, hzK, -⟩ := C116_adj R (g := g) hu hu8 hc hK hK1 hKb hh
  have h1 : |eps * z| ≤ 2 ^ e := by
    rw [abs_mul, abs_of_nonneg hp0]
    exact (mul_le_mul_of_nonneg_left hzK hp0).trans hp1
  have h2e : f.IsRep ((2 : ℝ) ^ e) := rep_pow he1 he2
  obtain ⟨d, hd, -, hd1, hd2⟩ := R.between h2e.neg h2e (abs_le.mp h1).1 (abs_le.mp h1).2
  have h3 := rep_mult_pow (f := f) he1 he2 hn
  have h4 : |t - d| ≤ ((n + 1 : ℕ) : ℝ) * 2 ^ e := by
    have := abs_sub t d
    have : |d| ≤ 2 ^ e := abs_le.mpr ⟨hd1, hd2⟩
    push_cast
    linarith
  obtain ⟨t', ht', htr, ht1, ht2⟩ := R.between h3.neg h3 (abs_le.mp h4).1 (abs_le.mp h4).2
  refine ⟨_, t', ?_, C116_hist R (g := g) hc hh, htr, abs_le.mpr ⟨ht1, ht2⟩⟩
  show Svgd.mk _ (particle R.arith (.fin t) (.fin eps) (adjGrad _ _ _ _)) = _
  rw [hz]
  unfold particle
  rw [Arith.mul_fin, R.arith_rnd, hd, Arith.sub_fin, R.arith_rnd, ht']

/-- **C116 (runs).**  Fed any numbers as gradients, every coordinate of every particle stays a number, and `m` steps
move it by no more than `m` units of a power of two that bounds `epsilon * K`: rounding errors do not add up. -/
theorem C116_run (hu : f.HasUnit) (hu8 : f.u ≤ 1 / 8) {a b c K : ℝ} (hc : SvgdConst f a b c) (hK : f.IsRep K)
    (hK1 : 1 ≤ K) (hKb : 1 + 8 * f.u ≤ K ^ 2 * b) {e : ℤ} (he1 : f.emin ≤ e) (he2 : e ≤ f.emax) {t : ℝ}
    (htr : f.IsRep t) {n : ℕ} (ht : |t| ≤ n * 2 ^ e) (xs : List (ℝ × ℝ))
    (hxs : ∀ x ∈ xs, 0 ≤ x.1 ∧ x.1 * K ≤ 2 ^ e) (hn : n + xs.length < 2 ^ f.prec) :
    ∃ h' t', Svgd.run R.arith (.fin a) (.fin b) (.fin c) (.fin t) (xs.map fun x => (.fin x.1, .fin x.2)) =
      ⟨h', .fin t'⟩ ∧ GoodHist f h' ∧ f.IsRep t' ∧ |t'| ≤ (n + xs.length : ℕ) * 2 ^ e := by
  unfold Svgd.run
  have h0 : GoodHist f (R.arith.lit 0) := Or.inr ⟨0, R.rnd_zero, rep_zero, le_rfl⟩
  generalize R.arith.lit 0 = h at h0
  induction xs generalizing h t n with
  | nil => exact ⟨h, t, rfl, h0, htr, ht⟩
  | cons x xs ih =>
    obtain ⟨hx1, hx2⟩ := hxs x (by simp)
    simp only [List.length_cons] at hn ⊢
    obtain ⟨h1, t1, hst, hh1, ht1, hb1⟩ := svgd_step R (g := x.2) hu hu8 hc hK hK1 hKb he1 he2 h0 hx1 hx2 (by omega) ht
    rw [List.map_cons, List.foldl_cons, hst]
    obtain ⟨h2, t2, h3, h4, h5, h6⟩ := ih ht1 hb1 (fun y hy => hxs y (by simp [hy])) (by omega) h1 hh1
    exact ⟨h2, t2, h3, h4, h5, by rwa [show n + (xs.length + 1) = n + 1 + xs.length by omega]⟩

/-- **C116 (overflow).**  A gradient whose square overflows freezes the coordinate: neither the step that sees it nor
any later step moves it, whatever the later gradients are. -/
theorem C116_frozen {a b c : ℝ} (hc : SvgdConst f a b c) {h : Fl} (hh : GoodHist f h) {t : ℝ} (ht : f.IsRep t)
    {eps g : ℝ} (hg : f.huge ≤ g ^ 2) (xs : List (ℝ × ℝ)) :
    ((eps, g) :: xs |>.map fun x => (Fl.fin x.1, Fl.fin x.2)).foldl
      (Svgd.step R.arith (.fin a) (.fin b) (.fin c)) ⟨h, .fin t⟩ = ⟨.pinf, .fin t⟩ := by
  have hadj : ∀ g : ℝ, adjGrad R.arith (.fin c) (.fin g) .pinf = .fin 0 := fun g => by
    unfold adjGrad
    have : R.arith.add (.fin c) (R.arith.sqrt .pinf) = .pinf := rfl
    rw [this]
    exact R.rnd_zero
  have hpart : ∀ e g : ℝ, particle R.arith (.fin t) (.fin e) (adjGrad R.arith (.fin c) (.fin g) .pinf) = .fin t := by
    intro e g
    unfold particle
    rw [hadj, Arith.mul_fin, R.arith_rnd, mul_zero, R.rnd_zero, Arith.sub_fin, R.arith_rnd, sub_zero, R.exact ht]
  have hstay : ∀ g : ℝ, rhsHist R.arith (.fin a) (.fin b) .pinf (.fin g) = .pinf := fun g => by
    unfold rhsHist
    have : R.arith.mul (.fin a) .pinf = .pinf := by
      show R.arith.fix (Fl.fin a * Fl.pinf) = _
      rw [fin_mul_pinf hc.a_pos]
      rfl
    rw [this]
    rcases scaled_square R hc g with ⟨-, hp⟩ | ⟨s, q, -, -, hp, -⟩ <;> rw [hp] <;> rfl
  have hfirst : rhsHist R.arith (.fin a) (.fin b) h (.fin g) = .pinf := by
    rcases hist_step R (g := g) hc hh with h' | ⟨s, q, y, hs, -⟩
    · exact h'
    · rw [R.over _ hg] at hs
      cases hs
  rw [List.map_cons, List.foldl_cons]
  have hs : Svgd.step R.arith (.fin a) (.fin b) (.fin c) ⟨h, .fin t⟩ (.fin eps, .fin g) = ⟨.pinf, .fin t⟩ := by
    show Svgd.mk _ (particle R.arith (.fin t) (.fin eps) (adjGrad _ _ _ _)) = _
    simp only [hfirst, hpart]
  show List.foldl _ (Svgd.step _ _ _ _ _ (.fin eps, .fin g)) _ = _
  rw [hs]
  induction xs with
  | nil => rfl
  | cons x xs ih =>
    rw [List.map_cons, List.foldl_cons]
    have hs : Svgd.step R.arith (.fin a) (.fin b) (.fin c) ⟨.pinf, .fin t⟩ (.fin x.1, .fin x.2) = ⟨.pinf, .fin t⟩ := by
      show Svgd.mk _ (particle R.arith (.fin t) (.fin x.1) (adjGrad _ _ _ _)) = _
      simp only [hstay, hpart]
    rw [hs]
    exact ih

/-! ## The default hyperparameters -/

/-- Powers of two below one. -/
theorem rep_inv_pow (hA : f.Adequate) {k : ℕ} (hk : k ≤ 54) : f.IsRep (1 / 2 ^ k) := by
  have := rep_two_pow (f := f) (e := -(k : ℤ)) (by have := hA.emin_le; omega) (by have := hA.range; omega)
  rwa [zpow_neg, zpow_natCast, ← one_div] at this

/-- **C116 (defaults).**  In `float32` and `float64` the default hyperparameters `alpha=0.9` and `fudge_factor=1e-6`
meet the requirements of the theorems above, with `K = 13 / 4`: no gradient moves a coordinate by more than
`3.25 * epsilon`, up to one rounding.  The literals may have been rounded before, as `1. - alpha` is. -/
theorem C116_defaults (hA : f.Adequate) {al be fu : ℝ} (hal : |al - 9 / 10| ≤ 1 / 10 ^ 10)
    (hbe : |be - 1 / 10| ≤ 1 / 10 ^ 10) (hfu : |fu - 1 / 10 ^ 6| ≤ 1 / 10 ^ 10) :
    ∃ a b c, R.arith.lit al = .fin a ∧ R.arith.lit be = .fin b ∧ R.arith.lit fu = .fin c ∧ SvgdConst f a b c ∧
      f.IsRep (13 / 4) ∧ 1 + 8 * f.u ≤ (13 / 4) ^ 2 * b := by
  rw [abs_le] at hal hbe hfu
  have hpow : ∀ {k : ℕ}, k ≤ 54 → f.IsRep (1 / 2 ^ k) := fun h => rep_inv_pow hA h
  obtain ⟨a, ha, har, ha0, ha1⟩ := R.between (hpow (k := 1) (by norm_num)) hA.unit.one (x := al)
    (by norm_num at *; linarith) (by norm_num at *; linarith)
  obtain ⟨b, hb, hbr, hb0, hb1⟩ := R.between (hpow (k := 4) (by norm_num)) hA.unit.one (x := be)
    (by norm_num at *; linarith) (by norm_num at *; linarith)
  obtain ⟨c, hc, hcr, hc0, hc1⟩ := R.between (hpow (k := 21) (by norm_num)) hA.unit.one (x := fu)
    (by norm_num at *; linarith) (by norm_num at *; linarith)
  have hu0 : 0 < f.u := u_pos
  have hus := hA.u_le
  have hp : 24 ≤ f.prec := by
    by_contra hcon
    have h1 : (2 : ℝ) ^ (-23 : ℤ) ≤ f.u := zpow_le_zpow_right₀ (by norm_num) (by omega)
    norm_num at h1 hus
    linarith
  refine ⟨a, b, c, ha, hb, hc, ⟨har, ?_, ha1, hbr, ?_, hb1, hcr, ?_, hc1, ?_⟩, ?_, ?_⟩
  · exact lt_of_lt_of_le (by norm_num) ha0
  · exact lt_of_lt_of_le (by norm_num) hb0
  · exact lt_of_lt_of_le (by norm_num) hc0
  · have h1 := hA.tiny_le
    have h2 : (1 / 2 ^ 21 : ℝ) ^ 2 ≤ c ^ 2 := pow_le_pow_left₀ (by norm_num) hc0 2
    have h3 : f.u ^ 2 ≤ (1 / 2 ^ 24) ^ 2 := pow_le_pow_left₀ hu0.le hus 2
    have h4 : f.u * f.u ^ 2 ≤ f.u * (1 / 2 ^ 24) ^ 2 := mul_le_mul_of_nonneg_left h3 hu0.le
    have h5 : f.u * (1 / 2 ^ 21) ^ 2 ≤ f.u * c ^ 2 := mul_le_mul_of_nonneg_left h2 hu0.le
    have h6 : f.u ^ 3 = f.u * f.u ^ 2 := by ring
    norm_num at *
    nlinarith [tiny_pos (f := f)]
  · refine ⟨13, -2, ?_, ?_, ?_, by norm_num⟩
    · rw [abs_of_pos (by norm_num)]
      exact lt_of_lt_of_le (by norm_num) (pow_le_pow_right₀ (by norm_num : (1 : ℤ) ≤ 2) hp)
    · have := hA.emin_le
      omega
    · have := hA.unit.emax_nonneg
      omega
  · have h1 := R.error' hb
    have ht := tiny_le_u hA
    rw [abs_of_pos (by norm_num at *; linarith : 0 < be)] at h1
    have h2 := (abs_le.mp h1).2
    have h3 : f.u * be ≤ 1 / 2 ^ 24 * 1 := mul_le_mul hus (by norm_num at *; linarith) (by norm_num at *; linarith)
      (by norm_num)
    have h4 : f.tiny ≤ 1 / 2 ^ 24 := by
      have := hA.tiny_le
      have h5 : f.u ^ 3 ≤ (1 / 2 ^ 24) ^ 3 := pow_le_pow_left₀ hu0.le hus 3
      norm_num at *
      nlinarith [tiny_pos (f := f)]
    norm_num at *
    linarith

/-! ## The hypotheses can be met -/

/-- A `float32` run with the defaults, a stepsize of `0.1` and gradients of the most different sizes: a thousand steps
move a coordinate by at most `500`. -/
example (R : Rounding float32) (t : ℝ) (htr : float32.IsRep t) (ht : |t| ≤ 4) (gs : List ℝ) (hlen : gs.length ≤ 1000) :
    ∃ a b c h' t', R.arith.lit (9 / 10) = .fin a ∧ R.arith.lit (1 / 10) = .fin b ∧ R.arith.lit (1 / 10 ^ 6) = .fin c ∧
      Svgd.run R.arith (.fin a) (.fin b) (.fin c) (.fin t)
        ((gs.map fun g => (1 / 10, g)).map fun x => (.fin x.1, .fin x.2)) = ⟨h', .fin t'⟩ ∧ |t'| ≤ 504 := by
  obtain ⟨a, b, c, ha, hb, hc, hs, hK, hKb⟩ := C116_defaults R float32_adequate (al := 9 / 10) (be := 1 / 10)
    (fu := 1 / 10 ^ 6) (by norm_num) (by norm_num) (by norm_num)
  obtain ⟨h', t', hrun, -, -, hb'⟩ := C116_run R float32_unit (by norm_num [u, float32]) hs hK (by norm_num) hKb
    (e := -1) (by norm_num [float32]) (by norm_num [float32]) htr (n := 8) (by norm_num; linarith)
    (gs.map fun g => (1 / 10, g)) (by
      intro x hx
      obtain ⟨g, -, rfl⟩ := List.mem_map.mp hx
      norm_num) (by
      simp only [List.length_map]
      have : float32.prec = 24 := rfl
      rw [this]
      omega)
  refine ⟨a, b, c, h', t', ha, hb, hc, hrun, hb'.trans ?_⟩
  have : ((8 + (gs.map fun g => ((1 / 10 : ℝ), g)).length : ℕ) : ℝ) ≤ 1008 := by
    simp only [List.length_map]
    exact_mod_cast (by omega : 8 + gs.length ≤ 1008)
  norm_num at this ⊢
  linarith

/-- A gradient of `2 ^ 64` freezes a coordinate in `float32`. -/
example : float32.huge ≤ ((2 : ℝ) ^ 64) ^ 2 := by
  unfold huge float32
  norm_num

end PySGMCMC.Rounded
