import Verif.Props.RoundedRun
import Verif.Model.BNNCost
import Mathlib.Analysis.SpecialFunctions.ExpDeriv
import Mathlib.Analysis.Calculus.Deriv.Inv
import Mathlib.Analysis.Complex.ExponentialBounds

/-!
# The likelihood of a Bayesian neural network in floating point arithmetic (C149)
-/

namespace PySGMCMC.Rounded

open Format

variable {f : Format} (R : Rounding f)

/-! ## Exact arithmetic: derivatives -/

/-- The log likelihood of a label, up to a constant. -/
noncomputable def logLikelihood (y mean logVar : ℝ) : ℝ :=
  -(y - mean) ^ 2 / (2 * (Real.exp logVar + 1e-16)) - logVar / 2

/-- **C149 (meaning).**  In exact arithmetic the summand is the log likelihood and the two gradients are its partial
derivatives. -/
theorem C149_exact (g y mean logVar : ℝ) :
    logLike Arith.exact (.fin y) (.fin mean) (.fin logVar) = .fin (logLikelihood y mean logVar) ∧
    (∃ a, meanGrad Arith.exact (.fin g) (.fin y) (.fin mean) (.fin logVar) = .fin a ∧
      HasDerivAt (fun m => g * logLikelihood y m logVar) a mean) ∧
    ∃ a, logVarGrad Arith.exact (.fin g) (.fin y) (.fin mean) (.fin logVar) = .fin a ∧
      HasDerivAt (fun l => g * logLikelihood y mean l) a logVar := by
  have hw : 0 < Real.exp logVar + 1e-16 := by positivity
  have hw' := hw.ne'
  have hexp : exp Arith.exact (.fin logVar) = .fin (Real.exp logVar) := by simp [exp]
  have hvar : variance Arith.exact (.fin logVar) = .fin (Real.exp logVar + 1e-16) := by
    simp only [variance, hexp, Arith.exact_add, Arith.exact_lit, Fl.add_fin]
  have hinv : varInv Arith.exact (.fin logVar) = .fin (1 / (Real.exp logVar + 1e-16)) := by
    simp only [varInv, hvar, Arith.exact_div, Arith.exact_lit, Fl.div_fin hw']
  have hsq : sqErr Arith.exact (.fin y) (.fin mean) = .fin ((y - mean) ^ 2) := by
    simp only [sqErr, Arith.exact_pow, Arith.exact_sub, Fl.sub_fin, Fl.npow_fin]
  refine ⟨?_, ⟨g * ((y - mean) / (Real.exp logVar + 1e-16)), ?_, ?_⟩,
    ⟨g * ((y - mean) ^ 2 * Real.exp logVar / (2 * (Real.exp logVar + 1e-16) ^ 2) - 1 / 2), ?_, ?_⟩⟩
  · simp only [logLike, hsq, hinv, Arith.exact_sub, Arith.exact_mul, Arith.exact_lit, Fl.neg_fin, Fl.mul_fin, Fl.sub_fin]
    congr 1
    unfold logLikelihood
    field_simp
    ring
  · simp only [meanGrad, hinv, Arith.exact_sub, Arith.exact_mul, Arith.exact_lit, Fl.neg_fin, Fl.mul_fin, Fl.sub_fin]
    congr 1
    field_simp
    ring
  · have h1 : HasDerivAt (fun m : ℝ => (y - m) ^ 2) (2 * (y - mean) * -1) mean := by
      have h0 : HasDerivAt (fun m : ℝ => y - m) (-1) mean := by simpa using (hasDerivAt_id mean).const_sub y
      have h3 := h0.mul h0
      refine (h3.congr_deriv (by ring)).congr_of_eventuallyEq (Filter.Eventually.of_forall fun m => ?_)
      show (y - m) ^ 2 = (y - m) * (y - m)
      ring
    have h2 := (((h1.neg.div_const (2 * (Real.exp logVar + 1e-16))).sub_const (logVar / 2)).const_mul g)
    refine h2.congr_deriv ?_
    field_simp
  · simp only [logVarGrad, hsq, hvar, hexp, Arith.exact_add, Arith.exact_mul, Arith.exact_lit, Arith.exact_div, Fl.neg_fin,
      Fl.mul_fin, Fl.div_fin hw', Fl.add_fin]
    congr 1
    field_simp
    ring
  · have h1 : HasDerivAt (fun l : ℝ => 2 * (Real.exp l + 1e-16)) (2 * Real.exp logVar) logVar :=
      ((Real.hasDerivAt_exp logVar).add_const _).const_mul 2
    have h2 := ((hasDerivAt_const logVar (-(y - mean) ^ 2)).div h1 (by positivity)).sub ((hasDerivAt_id logVar).div_const 2)
    refine (h2.const_mul g).congr_deriv ?_
    field_simp
    ring

/-- **C149 (meaning, default network).**  In exact arithmetic the gradient of the output bias is the derivative of the sum
of the rows' log likelihoods, plus what arrives from the prior. -/
theorem C149_exact_default_net (t : SumTree) (g bias : ℝ) (y mean prior : Nat → ℝ) :
    ∃ a, outputBiasGrad Arith.exact t (.fin g) (fun i => .fin (y i)) (fun i => .fin (mean i)) (fun i => .fin (prior i))
        (.fin bias) = .fin a ∧
      HasDerivAt (fun b => (t.leaves.map fun i => g * logLikelihood (y i) (mean i) b + b * prior i).sum) a bias := by
  induction t with
  | leaf i =>
    obtain ⟨-, -, a, ha, hd⟩ := C149_exact g (y i) (mean i) bias
    have h1 : Arith.exact.mul (Arith.exact.lit 1) (.fin bias) = .fin bias := by
      rw [Arith.exact_mul, Arith.exact_lit, Fl.mul_fin, one_mul]
    refine ⟨a + prior i, ?_, ?_⟩
    · simp only [outputBiasGrad, SumTree.eval]
      rw [h1, ha, Arith.exact_add, Arith.exact_mul, Arith.exact_lit, Fl.add_fin, Fl.mul_fin, mul_one]
    · have h2 := hd.add ((hasDerivAt_id bias).mul_const (prior i))
      rw [one_mul] at h2
      refine h2.congr_of_eventuallyEq (Filter.Eventually.of_forall fun b => ?_)
      simp [SumTree.leaves]
  | node l r hl hr =>
    obtain ⟨a, ha, hda⟩ := hl
    obtain ⟨b, hb, hdb⟩ := hr
    refine ⟨a + b, ?_, ?_⟩
    · unfold outputBiasGrad at ha hb ⊢
      rw [SumTree.eval, ha, hb, Arith.exact_add, Fl.add_fin]
    · refine (hda.add hdb).congr_of_eventuallyEq (Filter.Eventually.of_forall fun c => ?_)
      simp [SumTree.leaves]

/-- With exact arithmetic the summand is that of the main model. -/
theorem link_logLike (y mean logVar : Fl) : logLike Arith.exact y mean logVar = BNN.rowLogLike (mean, logVar) y := by
  simp [logLike, sqErr, varInv, variance, exp, BNN.rowLogLike, BNN.fVarInv]

/-! ## Rounded arithmetic -/

/-- Rounding stays between powers of two. -/
theorem within_pow (hA : f.Adequate) {x : ℝ} {e : ℕ} (he : (e : ℤ) < f.emax + f.prec) (h : |x| ≤ 2 ^ e) :
    ∃ y, R.rnd x = .fin y ∧ f.IsRep y ∧ |y| ≤ 2 ^ e := by
  have hr : f.IsRep ((2 : ℝ) ^ e) := by
    have := rep_two_pow (f := f) (e := e) (by have := hA.emin_le; omega) (by omega)
    exact_mod_cast this
  have h' := abs_le.1 h
  obtain ⟨y, hy, hyr, h1, h2⟩ := R.between hr.neg hr h'.1 h'.2
  exact ⟨y, hy, hyr, abs_le.2 ⟨h1, h2⟩⟩

theorem rep_half (hA : f.Adequate) : f.IsRep 0.5 := by
  have := rep_dyadic hA (m := 1) (e := -1) (by norm_num) (by norm_num) (by norm_num)
  norm_num at this ⊢
  exact this

/-- The rounded variance and what is divided by it. -/
theorem variance_rounded (hA : f.Adequate) {v : ℝ} (hv : f.IsRep v) (hv0 : 0 ≤ v) :
    ∃ i a, R.arith.div (R.arith.lit 1) (R.arith.add (.fin v) (R.arith.lit 1e-16)) = .fin i ∧ 0 ≤ i ∧ i ≤ 2 ^ 54 ∧
      R.arith.div (R.arith.div (-(R.arith.lit 1)) (R.arith.add (.fin v) (R.arith.lit 1e-16)))
        (R.arith.add (.fin v) (R.arith.lit 1e-16)) = .fin (-a) ∧
      0 ≤ a ∧ a ≤ 2 ^ 108 ∧ a * v ≤ 2 ^ 55 + 1 := by
  obtain ⟨c, hc, hcr, hcl, hch⟩ := lit_default R hA
  have hc0 : 0 < c := lt_of_lt_of_le (by positivity) hcl
  have h1 : R.arith.lit 1 = .fin 1 := R.exact hA.unit.one
  have ht := tiny_pos (f := f)
  have hu := hA.u_small
  rw [hc, h1, Arith.add_fin, R.arith_rnd]
  rcases R.ge_cases hv (x := v + c) (by linarith) with h | ⟨w, hw, hwr, hwv⟩
  · rw [h]
    have hd : ∀ x, R.arith.div (.fin x) .pinf = .fin 0 := fun x => R.rnd_zero
    refine ⟨0, 0, hd _, le_rfl, by positivity, ?_, le_rfl, by positivity, by rw [zero_mul]; positivity⟩
    rw [Fl.neg_fin, hd, hd, neg_zero]
  · rw [hw]
    have hwc : c ≤ w := R.rep_le hcr (by linarith) hw
    have hwl : 1 / 2 ^ 54 ≤ w := hcl.trans hwc
    have hw0 : 0 < w := hc0.trans_le hwc
    have hinv : 1 / w ≤ 2 ^ 54 := by
      rw [div_le_iff₀ hw0]
      have := mul_le_mul_of_nonneg_left hwl (by positivity : (0 : ℝ) ≤ 2 ^ 54)
      norm_num at this ⊢
      linarith
    obtain ⟨i, hi, -, hi0, hi1⟩ := between_pow R hA (e := 54) (by norm_num) (x := 1 / w) (by positivity) hinv
    have hiw : i / w ≤ 2 ^ 108 := by
      have h2 : i / w = i * (1 / w) := by ring
      rw [h2]
      calc i * (1 / w) ≤ 2 ^ 54 * 2 ^ 54 := mul_le_mul hi1 hinv (by positivity) (by positivity)
        _ = 2 ^ 108 := by norm_num
    obtain ⟨a, ha, har, ha0, ha1⟩ := between_pow R hA (e := 108) (by norm_num) (x := i / w) (by positivity) hiw
    refine ⟨i, a, ?_, hi0, hi1, ?_, ha0, ha1, ?_⟩
    · rw [Arith.div_fin _ hw0.ne', R.arith_rnd, hi]
    · have hn : R.rnd (-1 / w) = .fin (-i) := by rw [neg_div, R.odd, hi]; rfl
      have hn' : R.rnd (-i / w) = .fin (-a) := by rw [neg_div, R.odd, ha]; rfl
      rw [Fl.neg_fin, Arith.div_fin _ hw0.ne', R.arith_rnd, hn, Arith.div_fin _ hw0.ne', R.arith_rnd, hn']
    · have he := (abs_le.1 (R.error' ha)).1
      have hq0 : 0 ≤ i / w := by positivity
      rw [abs_of_nonneg hq0] at he
      have hab : a ≤ 2 * (i / w) + f.tiny := by nlinarith
      have htv : f.tiny * v ≤ 1 := by
        have h2 := hv.abs_le
        rw [abs_of_nonneg hv0] at h2
        exact (mul_le_mul_of_nonneg_left h2 ht.le).trans hA.recip
      have hvw : i / w * v ≤ i := by
        rw [div_mul_eq_mul_div, div_le_iff₀ hw0]
        exact mul_le_mul_of_nonneg_left hwv hi0
      have := mul_le_mul_of_nonneg_right hab hv0
      nlinarith

/-- The reciprocal of the variance is a number whether `exp` overflows or not. -/
theorem varInv_rounded (hA : f.Adequate) (l : ℝ) :
    ∃ i, varInv R.arith (.fin l) = .fin i ∧ 0 ≤ i ∧ i ≤ 2 ^ 54 := by
  unfold varInv variance exp
  rw [Fl.exp_fin]
  show ∃ i, R.arith.div _ (R.arith.add (R.rnd (Real.exp l)) _) = _ ∧ _
  rcases R.ge_cases rep_zero (Real.exp_pos l).le with h | ⟨v, hv, hvr, hv0⟩
  · obtain ⟨c, hc, -⟩ := lit_default R hA
    refine ⟨0, ?_, le_rfl, by positivity⟩
    rw [h, hc, R.arith_lit, R.exact hA.unit.one]
    show R.rnd 0 = _
    exact R.rnd_zero
  · obtain ⟨i, -, hi, h0, h1, -⟩ := variance_rounded R hA hvr hv0
    exact ⟨i, by rw [hv, hi], h0, h1⟩

/-- The rounded error and its square. -/
theorem sqErr_rounded (hA : f.Adequate) {e : ℕ} (he : (2 * e + 108 : ℤ) < f.emax + f.prec) {y mean : ℝ}
    (hy : |y - mean| ≤ 2 ^ e) :
    ∃ x s, R.arith.sub (.fin y) (.fin mean) = .fin x ∧ |x| ≤ 2 ^ e ∧
      sqErr R.arith (.fin y) (.fin mean) = .fin s ∧ |s| ≤ 2 ^ (2 * e) := by
  obtain ⟨x, hx, -, hxb⟩ := within_pow R hA (by omega) hy
  obtain ⟨s, hs, -, hsb⟩ := within_pow R hA (x := x ^ 2) (e := 2 * e) (by push_cast; omega) (by
    rw [abs_pow, pow_mul', sq, sq]
    exact mul_le_mul hxb hxb (abs_nonneg _) (by positivity))
  refine ⟨x, s, by rw [Arith.sub_fin, R.arith_rnd, hx], hxb, ?_, hsb⟩
  unfold sqErr
  rw [Arith.sub_fin, R.arith_rnd, hx, Arith.pow_fin, R.arith_rnd, hs]

theorem pow_le_largest (hA : f.Adequate) {e : ℕ} (he : (e : ℤ) < f.emax + f.prec) : (2 : ℝ) ^ e ≤ f.largest := by
  have hr : f.IsRep ((2 : ℝ) ^ e) := by
    have := rep_two_pow (f := f) (e := e) (by have := hA.emin_le; omega) (by omega)
    exact_mod_cast this
  have := hr.abs_le
  rwa [abs_of_nonneg (by positivity)] at this

/-- **C149 (the cost is a number).**  The log likelihood of a label is a number for every predicted log variance, also
where its exponential overflows or underflows. -/
theorem C149_likelihood (hA : f.Adequate) {e : ℕ} (he : (2 * e + 108 : ℤ) < f.emax + f.prec) {y mean l : ℝ}
    (hy : |y - mean| ≤ 2 ^ e) (hl : f.IsRep l) :
    ∃ t, logLike R.arith (.fin y) (.fin mean) (.fin l) = .fin t ∧ |t| ≤ |l| + 2 ^ (2 * e + 56) := by
  obtain ⟨x, s, -, -, hs, hsb⟩ := sqErr_rounded R hA he hy
  obtain ⟨i, hi, hi0, hi1⟩ := varInv_rounded R hA l
  have hh := R.exact (rep_half hA)
  have hu := hA.u_small
  have hu0 : 0 < f.u := u_pos
  have ht1 := tiny_le_one hA
  have ht := tiny_pos (f := f)
  obtain ⟨j, hj, -, hj0, hj1⟩ := between_pow R hA (e := 54) (by norm_num) (x := 0.5 * i) (by positivity) (by
    norm_num at hi1 ⊢
    linarith)
  have h1E : (1 : ℝ) ≤ 2 ^ (2 * e) := one_le_pow₀ (by norm_num)
  obtain ⟨a, ha, -, hab⟩ := within_pow R hA (x := -s * j) (e := 2 * e + 54) (by push_cast; omega) (by
    rw [abs_mul, abs_neg, abs_of_nonneg hj0, pow_add]
    exact mul_le_mul hsb hj1 hj0 (by positivity))
  have hlL := hl.abs_le
  have hbig : (2 : ℝ) ^ (2 * e + 108) ≤ f.largest := pow_le_largest hA (by push_cast; omega)
  rw [pow_add] at hbig hab
  obtain ⟨b, hbr, hb⟩ := near_of_le R (x := 0.5 * l) (by
    rw [abs_mul, abs_of_pos (by norm_num)]
    norm_num
    linarith [abs_nonneg l])
  have hbe := abs_le_of_error (R.error' hb)
  rw [abs_mul, abs_of_pos (by norm_num : (0 : ℝ) < 0.5)] at hbe
  have hul : f.u * (0.5 * |l|) ≤ 1 / 10000000 * (0.5 * |l|) :=
    mul_le_mul_of_nonneg_right hu (by positivity)
  have hbb : |b| ≤ 0.6 * |l| + 1 := by
    norm_num at hbe hul ⊢
    linarith [abs_nonneg l]
  have hsub : |a - b| ≤ 2 ^ (2 * e) * 2 ^ 54 + (0.6 * |l| + 1) := (abs_sub _ _).trans (add_le_add hab hbb)
  obtain ⟨t, htr, htt⟩ := near_of_le R (x := a - b) (hsub.trans (by
    norm_num at hbig ⊢
    linarith))
  refine ⟨t, ?_, ?_⟩
  · unfold logLike
    rw [hs, hi, R.arith_lit, hh, Arith.mul_fin, R.arith_rnd, hj, Fl.neg_fin, Arith.mul_fin, R.arith_rnd, ha, Arith.mul_fin,
      R.arith_rnd, hb, Arith.sub_fin, R.arith_rnd, htt]
  · have hte := abs_le_of_error (R.error' htt)
    have : f.u * |a - b| ≤ 1 / 10000000 * |a - b| := mul_le_mul_of_nonneg_right hu (abs_nonneg _)
    rw [pow_add]
    norm_num at this hsub ⊢
    linarith [abs_nonneg l]

/-- **C149 (gradient of the mean).**  It is a number for every predicted log variance. -/
theorem C149_mean_gradient (hA : f.Adequate) {e : ℕ} (he : (2 * e + 108 : ℤ) < f.emax + f.prec) {g y mean : ℝ} (l : ℝ)
    (hg : |g| ≤ 1) (hy : |y - mean| ≤ 2 ^ e) :
    ∃ a, meanGrad R.arith (.fin g) (.fin y) (.fin mean) (.fin l) = .fin a ∧ |a| ≤ 2 ^ (e + 55) := by
  obtain ⟨x, s, hx, hxb, -⟩ := sqErr_rounded R hA he hy
  obtain ⟨i, hi, hi0, hi1⟩ := varInv_rounded R hA l
  have hh := R.exact (rep_half hA)
  obtain ⟨j, hj, -, hj0, hj1⟩ := between_pow R hA (e := 54) (by norm_num) (x := 0.5 * i) (by positivity) (by
    norm_num at hi1 ⊢
    linarith)
  obtain ⟨q, hq, -, hqb⟩ := within_pow R hA (x := g * j) (e := 54) (by push_cast; omega) (by
    rw [abs_mul, abs_of_nonneg hj0]
    exact (mul_le_of_le_one_left hj0 hg).trans hj1)
  obtain ⟨z, hz, -, hzb⟩ := within_pow R hA (x := x * 2) (e := e + 1) (by push_cast; omega) (by
    rw [abs_mul, abs_of_pos (two_pos : (0 : ℝ) < 2), pow_succ]
    exact mul_le_mul_of_nonneg_right hxb two_pos.le)
  obtain ⟨a, ha, -, hab⟩ := within_pow R hA (x := -q * z) (e := e + 55) (by push_cast; omega) (by
    rw [abs_mul, abs_neg]
    calc |q| * |z| ≤ 2 ^ 54 * 2 ^ (e + 1) := mul_le_mul hqb hzb (abs_nonneg _) (by positivity)
      _ = 2 ^ (e + 55) := by ring)
  refine ⟨-a, ?_, by rwa [abs_neg]⟩
  unfold meanGrad
  rw [hi, hx, R.arith_lit, R.arith_lit, hh, R.exact hA.unit.two, Arith.mul_fin, R.arith_rnd, hj, Arith.mul_fin, R.arith_rnd,
    hq, Arith.mul_fin, R.arith_rnd, hz, Fl.neg_fin, Arith.mul_fin, R.arith_rnd, ha, Fl.neg_fin]

/-- **C149 (gradient of the log variance).**  It is a number as long as the exponential of the predicted log variance
does not overflow.  Missing: larger log variances, see `C149_violated`. -/
theorem C149_gradient_partial (hA : f.Adequate) {e : ℕ} (he : (2 * e + 108 : ℤ) < f.emax + f.prec) {g y mean l : ℝ}
    (hg : |g| ≤ 1) (hy : |y - mean| ≤ 2 ^ e) (hl : Real.exp l ≤ f.largest) :
    ∃ a, logVarGrad R.arith (.fin g) (.fin y) (.fin mean) (.fin l) = .fin a ∧ |a| ≤ 2 ^ (2 * e + 59) := by
  obtain ⟨x, s, -, -, hs, hsb⟩ := sqErr_rounded R hA he hy
  have hh := R.exact (rep_half hA)
  have hu := hA.u_small
  have hu0 : 0 < f.u := u_pos
  have ht1 := tiny_le_one hA
  have ht := tiny_pos (f := f)
  obtain ⟨v, hv, hvr, hv0, -⟩ := R.between rep_zero rep_largest (Real.exp_pos l).le hl
  have hexp : exp R.arith (.fin l) = .fin v := by
    unfold exp
    rw [Fl.exp_fin]
    exact hv
  obtain ⟨i, a, -, -, -, ha, ha0, ha1, hav⟩ := variance_rounded R hA hvr hv0
  have hvar : variance R.arith (.fin l) = R.arith.add (.fin v) (R.arith.lit 1e-16) := by rw [variance, hexp]
  have h1E : (1 : ℝ) ≤ 2 ^ (2 * e) := one_le_pow₀ (by norm_num)
  obtain ⟨p, hp, -, hpb⟩ := within_pow R hA (x := g * -s) (e := 2 * e) (by push_cast; omega) (by
    rw [abs_mul, abs_neg]
    exact (mul_le_of_le_one_left (abs_nonneg _) hg).trans hsb)
  obtain ⟨q, hq, -, hqb⟩ := within_pow R hA (x := p * 0.5) (e := 2 * e) (by push_cast; omega) (by
    rw [abs_mul, abs_of_pos (by norm_num : (0 : ℝ) < 0.5)]
    exact (mul_le_of_le_one_right (abs_nonneg _) (by norm_num)).trans hpb)
  obtain ⟨d, hd, -, hdb⟩ := within_pow R hA (x := q * -a) (e := 2 * e + 108) (by push_cast; omega) (by
    rw [abs_mul, abs_neg, abs_of_nonneg ha0, pow_add]
    exact mul_le_mul hqb ha1 ha0 (by positivity))
  -- multiplied by the exponential again
  have hde := abs_le_of_error (R.error' hd)
  rw [abs_mul, abs_neg, abs_of_nonneg ha0] at hde
  have hd2 : |d| ≤ 2 * (|q| * a) + f.tiny := by
    have : f.u * (|q| * a) ≤ 1 * (|q| * a) := mul_le_mul_of_nonneg_right (by linarith) (by positivity)
    linarith
  have htv : f.tiny * v ≤ 1 := by
    have h2 := hvr.abs_le
    rw [abs_of_nonneg hv0] at h2
    exact (mul_le_mul_of_nonneg_left h2 ht.le).trans hA.recip
  have hqav : |q| * (a * v) ≤ 2 ^ (2 * e) * (2 ^ 55 + 1) :=
    mul_le_mul hqb hav (mul_nonneg ha0 hv0) (by positivity)
  have hdv : |d * v| ≤ 2 ^ (2 * e + 58) := by
    rw [abs_mul, abs_of_nonneg hv0, pow_add]
    have h2 := mul_le_mul_of_nonneg_right hd2 hv0
    have h3 : (2 * (|q| * a) + f.tiny) * v = 2 * (|q| * (a * v)) + f.tiny * v := by ring
    rw [h3] at h2
    norm_num at hqav ⊢
    linarith
  obtain ⟨k, hk, -, hkb⟩ := within_pow R hA (e := 2 * e + 58) (by push_cast; omega) hdv
  obtain ⟨m, hm, -, hmb⟩ := within_pow R hA (x := -g * 0.5) (e := 0) (by push_cast; omega) (by
    rw [abs_mul, abs_neg, abs_of_pos (by norm_num : (0 : ℝ) < 0.5), pow_zero]
    norm_num
    linarith)
  obtain ⟨t, htt, -, htb⟩ := within_pow R hA (x := k + m) (e := 2 * e + 59) (by push_cast; omega) (by
    refine (abs_add_le _ _).trans ?_
    rw [pow_add] at hkb ⊢
    norm_num at hkb hmb ⊢
    linarith)
  refine ⟨t, ?_, htb⟩
  unfold logVarGrad
  simp only [hvar, hexp, hs, R.arith_lit, hh]
  rw [R.arith_lit, R.arith_lit] at ha
  rw [ha]
  simp only [Fl.neg_fin, Arith.mul_fin, R.arith_rnd, hp, hq, hd, hk, hm, Arith.add_fin, htt]

/-- **C149 (where it breaks).**  If the exponential of the predicted log variance overflows, the gradient is NaN, whatever
the label, the predicted mean and the gradient that arrives. -/
theorem C149_violated (hA : f.Adequate) (g y mean : Fl) {l : ℝ} (hl : f.huge ≤ Real.exp l) :
    logVarGrad R.arith g y mean (.fin l) = .nan := by
  have hexp : exp R.arith (.fin l) = .pinf := by
    unfold exp
    rw [Fl.exp_fin]
    exact R.over _ hl
  obtain ⟨c, hc, -⟩ := lit_default R hA
  have hvar : variance R.arith (.fin l) = .pinf := by
    unfold variance
    rw [hexp, hc]
    rfl
  have hz : ∀ x, R.arith.div (.fin x) .pinf = .fin 0 := fun x => R.rnd_zero
  unfold logVarGrad
  simp only [hvar, hexp, R.arith_lit, R.exact hA.unit.one, Fl.neg_fin, hz]
  have key : ∀ q : Fl, R.arith.mul (R.arith.mul q (.fin 0)) .pinf = .nan := by
    intro q
    cases q with
    | fin r =>
      rw [Arith.mul_fin, mul_zero, R.arith_rnd, R.rnd_zero]
      show R.arith.fix (Fl.infOf 0) = _
      simp [Fl.infOf, Arith.fix]
    | pinf =>
      have : R.arith.mul .pinf (.fin 0) = .nan := by
        show R.arith.fix (Fl.infOf 0) = _
        simp [Fl.infOf, Arith.fix]
      rw [this]
      rfl
    | ninf =>
      have : R.arith.mul .ninf (.fin 0) = .nan := by
        show R.arith.fix (Fl.infOf (-0)) = _
        simp [Fl.infOf, Arith.fix]
      rw [this]
      rfl
    | nan => rfl
  rw [key]
  rfl

theorem add_nan (A : Arith) (x : Fl) : A.add x .nan = .nan := by cases x <;> rfl
theorem mul_nan (A : Arith) (x : Fl) : A.mul x .nan = .nan := by cases x <;> rfl
theorem nan_add (A : Arith) (x : Fl) : A.add .nan x = .nan := by cases x <;> rfl
theorem nan_mul (A : Arith) (x : Fl) : A.mul .nan x = .nan := by cases x <;> rfl
theorem nan_sub (A : Arith) (x : Fl) : A.sub .nan x = .nan := by cases x <;> rfl

/-- A sum with a NaN is NaN in every order of the additions. -/
theorem eval_nan (A : Arith) {x : Nat → Fl} {i : Nat} (hx : x i = .nan) (t : SumTree) (hi : i ∈ t.leaves) :
    t.eval A x = .nan := by
  induction t with
  | leaf j =>
    rw [SumTree.leaves, List.mem_singleton] at hi
    rw [SumTree.eval, ← hi, hx]
  | node l r hl hr =>
    rw [SumTree.leaves, List.mem_append] at hi
    rw [SumTree.eval]
    rcases hi with h | h
    · rw [hl h, nan_add]
    · rw [hr h, add_nan]

/-- **C149 (the default network).**  If the exponential of the output bias overflows, its gradient is NaN on every
non-empty minibatch, whatever the data, the other parameters and the prior. -/
theorem C149_violated_default_net (hA : f.Adequate) {n : Nat} (hn : 0 < n) (t : SumTree) (ht : t.Adds n) (g : Fl)
    (y mean prior : Nat → Fl) {bias : ℝ} (hb : f.IsRep bias) (hl : f.huge ≤ Real.exp bias) :
    outputBiasGrad R.arith t g y mean prior (.fin bias) = .nan := by
  have h1 : R.arith.mul (R.arith.lit 1) (.fin bias) = .fin bias := by
    rw [R.arith_lit, R.exact hA.unit.one, Arith.mul_fin, one_mul, R.arith_rnd, R.exact hb]
  refine eval_nan R.arith (i := 0) ?_ t (ht.mem_iff.2 (List.mem_range.2 hn))
  rw [h1, C149_violated R hA _ _ _ hl, nan_add, nan_mul]

/-! ## What a NaN gradient does to SGHMC -/

/-- **C149 (consequence).**  After one NaN gradient a parameter of SGHMC is NaN for the rest of the run. -/
theorem C149_violated_forever (A : Arith) (sc md th : Fl) (xs : List StepIn) (x : StepIn) (hx : x.grad = .nan)
    (ys : List StepIn) : (Sghmc.run A sc md th (xs ++ x :: ys)).theta = .nan := by
  induction ys using List.reverseRecOn with
  | nil =>
    unfold Sghmc.run
    rw [List.foldl_append, List.foldl_cons, List.foldl_nil]
    unfold Sghmc.step sghmcMom
    simp only [hx, mul_nan, nan_sub, nan_add, add_nan]
  | append_singleton ys y ih =>
    unfold Sghmc.run at ih ⊢
    rw [← List.cons_append, ← List.append_assoc, List.foldl_append, List.foldl_cons, List.foldl_nil]
    show A.add (List.foldl (Sghmc.step A sc md) (Sghmc.init A th) (xs ++ x :: ys)).theta _ = _
    rw [ih, nan_add]

/-- **C149 (consequence).**  The same for SGLD. -/
theorem C149_violated_forever_sgld (A : Arith) (a sc th : Fl) (xs : List StepIn) (x : StepIn) (hx : x.grad = .nan)
    (ys : List StepIn) : (Sgld.run A a sc th (xs ++ x :: ys)).theta = .nan := by
  induction ys using List.reverseRecOn with
  | nil =>
    unfold Sgld.run
    rw [List.foldl_append, List.foldl_cons, List.foldl_nil]
    unfold Sgld.step sgldVec
    simp only [hx, mul_nan, nan_add, add_nan]
  | append_singleton ys y ih =>
    unfold Sgld.run at ih ⊢
    rw [← List.cons_append, ← List.append_assoc, List.foldl_append, List.foldl_cons, List.foldl_nil]
    show A.add (List.foldl (Sgld.step A a sc) (Sgld.init A th) (xs ++ x :: ys)).theta _ = _
    rw [ih, nan_add]

/-- **C149 (consequence).**  If a single one of the stored networks predicts NaN, so does the model: mean and variance. -/
theorem C149_violated_predict (A : Arith) {n : Nat} (t t' : SumTree) (ht : t.Adds n) (ht' : t'.Adds n) (x : Nat → Fl)
    {i : Nat} (hi : i < n) (hx : x i = .nan) : predictRow A t t' n x = (.nan, .nan) := by
  have hd : ∀ y, A.div .nan y = .nan := fun y => by cases y <;> rfl
  have hm : npMean A t n x = .nan := by
    unfold npMean
    rw [eval_nan A hx t (ht.mem_iff.2 (List.mem_range.2 hi)), hd]
  unfold predictRow
  rw [hm]
  have hs : A.pow (A.sub (x i) .nan) 2 = .nan := by
    rw [hx, nan_sub]
    rfl
  unfold npMeanSq npMean
  rw [eval_nan A (x := fun i => A.pow (A.sub (x i) .nan) 2) hs t' (ht'.mem_iff.2 (List.mem_range.2 hi)), hd]

/-! ## Concrete cases -/

/-- In `float32` labels may be up to 512 away from their predictions, in `float64` up to `2 ^ 400` and more. -/
example : float32.Adequate ∧ (2 * (9 : ℕ) + 108 : ℤ) < float32.emax + float32.prec ∧
    float64.Adequate ∧ (2 * (400 : ℕ) + 108 : ℤ) < float64.emax + float64.prec :=
  ⟨float32_adequate, by norm_num [float32], float64_adequate, by norm_num [float64]⟩

/-- A log variance of 88 does not overflow in `float32`, one of 89 does; in `float64` one of 710 does. -/
example : Real.exp 88 ≤ float32.largest ∧ float32.huge ≤ Real.exp 89 ∧ float64.huge ≤ Real.exp 710 := by
  have h1 := Real.exp_one_gt_d9
  have h2 := Real.exp_one_lt_d9
  have e (n : ℕ) : Real.exp n = Real.exp 1 ^ n := by rw [← Real.exp_nat_mul, mul_one]
  refine ⟨?_, ?_, ?_⟩
  · refine le_trans ?_ float32_room
    have := e 88
    push_cast at this
    rw [this]
    exact (pow_le_pow_left₀ (Real.exp_pos _).le h2.le 88).trans (by norm_num)
  · have := e 89
    push_cast at this
    rw [this]
    refine le_trans ?_ (pow_le_pow_left₀ (by norm_num) h1.le 89)
    have h104 : (2 : ℝ) ^ (104 : ℤ) = 2 ^ 104 := by norm_cast
    simp only [huge, float32, h104]
    norm_num
  · have := e 710
    push_cast at this
    rw [this]
    have h10 : (22026 : ℝ) ≤ Real.exp 1 ^ 10 := le_trans (by norm_num) (pow_le_pow_left₀ (by norm_num) h1.le 10)
    have h710 : Real.exp 1 ^ 710 = (Real.exp 1 ^ 10) ^ 71 := by rw [← pow_mul]
    rw [h710]
    refine le_trans ?_ (pow_le_pow_left₀ (by norm_num) h10 71)
    have h971 : (2 : ℝ) ^ (971 : ℤ) = (2 ^ 97) ^ 10 * 2 := by
      rw [← pow_mul, ← pow_succ, ← zpow_natCast]
      rfl
    simp only [huge, float64, h971]
    norm_num

end PySGMCMC.Rounded
