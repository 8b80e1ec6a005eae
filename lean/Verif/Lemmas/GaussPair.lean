import Verif.Lemmas.Underdamped
import Mathlib.Probability.Distributions.Gaussian.Real
import Mathlib.MeasureTheory.Constructions.Pi

/-!
# Pairs of linear combinations of two independent noises

The noise of `PairNoise` as linear combinations of the momentum before a step and of the noise of the step.
-/

open MeasureTheory ProbabilityTheory InnerProductSpace
namespace PySGMCMC.Langevin
set_option linter.unusedSectionVars false

section general

variable {E : Type*} [NormedAddCommGroup E] [InnerProductSpace ℝ E] [FiniteDimensional ℝ E] [MeasurableSpace E] [BorelSpace E]
  {N : Measure E} {a b d e c : ℝ}

/-- The pair `(a y + b z, d y + e z)` of independent `y` and `z`. -/
def combine (a b d e : ℝ) (q : E × E) : E × E := (a • q.1 + b • q.2, d • q.1 + e • q.2)

theorem combine_continuous : Continuous (combine a b d e : E × E → E × E) :=
  ((continuous_fst.const_smul a).add (continuous_snd.const_smul b)).prodMk ((continuous_fst.const_smul d).add (continuous_snd.const_smul e))

theorem combine_le {κ : ℝ} (ha : |a| ≤ κ) (hb : |b| ≤ κ) (hd : |d| ≤ κ) (he : |e| ≤ κ) (q : E × E) :
    ‖combine a b d e q‖ ≤ κ * (‖q.1‖ + ‖q.2‖) := by
  have h : ∀ {x y : ℝ}, |x| ≤ κ → |y| ≤ κ → ‖x • q.1 + y • q.2‖ ≤ κ * (‖q.1‖ + ‖q.2‖) := fun {x y} hx hy => by
    refine (norm_add_le _ _).trans ?_
    rw [norm_smul, norm_smul, mul_add]
    exact add_le_add (mul_le_mul_of_nonneg_right hx (norm_nonneg _)) (mul_le_mul_of_nonneg_right hy (norm_nonneg _))
  exact max_le (h ha hb) (h hd he)

theorem Noise.both (hN : Noise N) (n : Nat) (hn : n ≤ 3) : Integrable (fun q : E × E => (‖q.1‖ + ‖q.2‖) ^ n) (N.prod N) := by
  have := hN.prob
  have h1 : Integrable (fun q : E × E => 1 + 4 * (‖q.1‖ ^ 3 + ‖q.2‖ ^ 3)) (N.prod N) :=
    (integrable_const (1 : ℝ)).add (((hN.third.comp_fst N).add (hN.third.comp_snd N)).const_mul 4)
  refine h1.mono' ((measurable_fst.norm.add measurable_snd.norm).pow_const n).aestronglyMeasurable (.of_forall fun q => ?_)
  have h0 := norm_nonneg q.1
  have h0' := norm_nonneg q.2
  set x := ‖q.1‖
  set y := ‖q.2‖
  rw [Real.norm_eq_abs, abs_of_nonneg (by positivity)]
  have h3 : (x + y) ^ 3 ≤ 4 * (x ^ 3 + y ^ 3) := by nlinarith [mul_nonneg (add_nonneg h0 h0') (sq_nonneg (x - y))]
  rcases le_total (x + y) 1 with h | h
  · have := pow_le_one₀ (n := n) (by positivity : 0 ≤ x + y) h
    have : 0 ≤ x ^ 3 + y ^ 3 := by positivity
    linarith
  · have := pow_le_pow_right₀ h hn
    linarith

theorem Noise.moment (hN : Noise N) {κ : ℝ} (hκ : 0 ≤ κ) (ha : |a| ≤ κ) (hb : |b| ≤ κ) (hd : |d| ≤ κ) (he : |e| ≤ κ) (n : Nat) (hn : n ≤ 3) :
    ∫ q, ‖q‖ ^ n ∂(N.prod N).map (combine a b d e) ≤ κ ^ n * ∫ q : E × E, (‖q.1‖ + ‖q.2‖) ^ n ∂(N.prod N) := by
  have hc : Continuous fun q : E × E => ‖q‖ ^ n := continuous_norm.pow n
  rw [integral_map combine_continuous.measurable.aemeasurable hc.aestronglyMeasurable, ← integral_const_mul]
  refine integral_mono_of_nonneg (.of_forall fun q => by positivity) ((hN.both n hn).const_mul _) (.of_forall fun q => ?_)
  beta_reduce
  rw [← mul_pow]
  exact pow_le_pow_left₀ (norm_nonneg _) (combine_le ha hb hd he q) n

theorem Noise.second (hN : Noise N) (l k : E →L[ℝ] ℝ) : Integrable (fun z => l z * k z) N := by
  have hc : Continuous fun z => l z * k z := l.continuous.mul k.continuous
  refine ((hN.low 2 (by norm_num)).const_mul (‖l‖ * ‖k‖)).mono' hc.aestronglyMeasurable (.of_forall fun z => ?_)
  rw [norm_mul]
  calc ‖l z‖ * ‖k z‖ ≤ (‖l‖ * ‖z‖) * (‖k‖ * ‖z‖) := mul_le_mul (l.le_opNorm z) (k.le_opNorm z) (norm_nonneg _) (by positivity)
    _ = _ := by ring

theorem Noise.first (hN : Noise N) (l : E →L[ℝ] ℝ) : Integrable (fun z => l z) N := by
  refine ((hN.low 1 (by norm_num)).const_mul ‖l‖).mono' l.continuous.aestronglyMeasurable (.of_forall fun z => ?_)
  rw [pow_one]
  exact l.le_opNorm z

theorem Noise.bilinear (hN : Noise N) (l : E →L[ℝ] ℝ) (x : E) (a b d e : ℝ) :
    ∫ q : E × E, l (d • q.1 + e • q.2) * ⟪x, a • q.1 + b • q.2⟫_ℝ ∂(N.prod N) = (a * d + b * e) * l x := by
  have := hN.prob
  set k : E →L[ℝ] ℝ := innerSL ℝ x
  have hk : ∀ z, k z = ⟪x, z⟫_ℝ := fun z => rfl
  have e1 : ∀ q : E × E, l (d • q.1 + e • q.2) * ⟪x, a • q.1 + b • q.2⟫_ℝ
      = (d * a) * (l q.1 * k q.1) + (d * b) * (l q.1 * k q.2) + (e * a) * (k q.1 * l q.2) + (e * b) * (l q.2 * k q.2) := fun q => by
    rw [← hk, map_add, map_add, map_smul, map_smul, map_smul, map_smul]
    simp only [smul_eq_mul]
    ring
  simp only [e1]
  have i1 : Integrable (fun q : E × E => (d * a) * (l q.1 * k q.1)) (N.prod N) := ((hN.second l k).comp_fst N).const_mul _
  have i2 : Integrable (fun q : E × E => (d * b) * (l q.1 * k q.2)) (N.prod N) := ((hN.first l).mul_prod (hN.first k)).const_mul _
  have i3 : Integrable (fun q : E × E => (e * a) * (k q.1 * l q.2)) (N.prod N) := ((hN.first k).mul_prod (hN.first l)).const_mul _
  have i4 : Integrable (fun q : E × E => (e * b) * (l q.2 * k q.2)) (N.prod N) := ((hN.second l k).comp_snd N).const_mul _
  have i12 : Integrable (fun q : E × E => (d * a) * (l q.1 * k q.1) + (d * b) * (l q.1 * k q.2)) (N.prod N) := i1.add i2
  have i123 : Integrable (fun q : E × E => (d * a) * (l q.1 * k q.1) + (d * b) * (l q.1 * k q.2) + (e * a) * (k q.1 * l q.2)) (N.prod N) := i12.add i3
  rw [integral_add i123 i4, integral_add i12 i3, integral_add i1 i2, integral_const_mul, integral_const_mul, integral_const_mul,
    integral_const_mul, integral_prod_mul (f := fun z => l z) (g := fun z => k z), integral_prod_mul (f := fun z => k z) (g := fun z => l z),
    hN.mean l, integral_fun_fst (f := fun z => l z * k z), integral_fun_snd (f := fun z => l z * k z), probReal_univ, one_smul]
  simp only [hk]
  rw [hN.cov]
  ring

theorem pairNoise (hN : Noise N) (h1 : a * a + b * b = c) (h2 : a * d + b * e = c) : PairNoise ((N.prod N).map (combine a b d e)) c := by
  have := hN.prob
  have hm : Measurable (combine a b d e : E × E → E × E) := combine_continuous.measurable
  refine ⟨Measure.isProbabilityMeasure_map hm.aemeasurable, fun y => ?_, fun l y => ?_, fun l y => ?_, ?_⟩
  · have hc : Continuous fun q : E × E => ⟪y, q.1⟫_ℝ := continuous_const.inner continuous_fst
    rw [integral_map hm.aemeasurable hc.aestronglyMeasurable]
    set k : E →L[ℝ] ℝ := innerSL ℝ y
    have i1 : Integrable (fun q : E × E => a * k q.1) (N.prod N) := ((hN.first k).comp_fst N).const_mul _
    have i2 : Integrable (fun q : E × E => b * k q.2) (N.prod N) := ((hN.first k).comp_snd N).const_mul _
    have e1 : ∀ q : E × E, ⟪y, (combine a b d e q).1⟫_ℝ = a * k q.1 + b * k q.2 := fun q => by
      show k (a • q.1 + b • q.2) = _
      rw [map_add, map_smul, map_smul, smul_eq_mul, smul_eq_mul]
    simp only [e1]
    rw [integral_add i1 i2, integral_const_mul, integral_const_mul, integral_fun_fst (f := fun z => k z), integral_fun_snd (f := fun z => k z), hN.mean]
    simp
  · have hc : Continuous fun q : E × E => l q.1 * ⟪y, q.1⟫_ℝ := (l.continuous.comp continuous_fst).mul (continuous_const.inner continuous_fst)
    rw [integral_map hm.aemeasurable hc.aestronglyMeasurable]
    exact (hN.bilinear l y a b a b).trans (by rw [h1])
  · have hc : Continuous fun q : E × E => l q.2 * ⟪y, q.1⟫_ℝ := (l.continuous.comp continuous_snd).mul (continuous_const.inner continuous_fst)
    rw [integral_map hm.aemeasurable hc.aestronglyMeasurable]
    exact (hN.bilinear l y a b d e).trans (by rw [h2])
  · have hc : Continuous fun q : E × E => ‖q‖ ^ 3 := continuous_norm.pow 3
    rw [integrable_map_measure hc.aestronglyMeasurable hm.aemeasurable]
    set κ := |a| + |b| + |d| + |e|
    refine ((hN.both 3 le_rfl).const_mul (κ ^ 3)).mono' (hc.comp combine_continuous).aestronglyMeasurable (.of_forall fun q => ?_)
    simp only [Function.comp_apply, norm_pow, norm_norm]
    rw [← mul_pow]
    have := abs_nonneg a
    have := abs_nonneg b
    have := abs_nonneg d
    have := abs_nonneg e
    exact pow_le_pow_left₀ (norm_nonneg _) (combine_le (by linarith) (by linarith) (by linarith) (by linarith) q) 3

end general

/-! ## Normal noise -/

theorem gauss_combine_real (d e τ : ℝ) (h : d ^ 2 + e ^ 2 = τ ^ 2) :
    ((gaussianReal 0 1).prod (gaussianReal 0 1)).map (fun q => d * q.1 + e * q.2) = (gaussianReal 0 1).map (τ * ·) := by
  have hd : Measurable fun x : ℝ => d * x := measurable_const_mul d
  have he : Measurable fun x : ℝ => e * x := measurable_const_mul e
  have e1 : (fun q : ℝ × ℝ => d * q.1 + e * q.2) = (fun q : ℝ × ℝ => q.1 + q.2) ∘ Prod.map (d * ·) (e * ·) := rfl
  rw [e1, ← Measure.map_map measurable_add (hd.prodMap he), ← Measure.map_prod_map _ _ hd he]
  have := gaussianReal_conv_gaussianReal (m₁ := d * 0) (m₂ := e * 0) (v₁ := .mk (d ^ 2) (sq_nonneg _) * 1) (v₂ := .mk (e ^ 2) (sq_nonneg _) * 1)
  rw [gaussianReal_map_const_mul, gaussianReal_map_const_mul, gaussianReal_map_const_mul]
  unfold Measure.conv at this
  rw [this]
  congr 1
  · ring
  · apply NNReal.eq
    simp [h]

variable {J : Type} [Fintype J]

theorem gauss_combine_pi (d e τ : ℝ) (h : d ^ 2 + e ^ 2 = τ ^ 2) :
    ((Measure.pi fun _ : J => gaussianReal 0 1).prod (Measure.pi fun _ : J => gaussianReal 0 1)).map (fun q => d • q.1 + e • q.2)
      = (Measure.pi fun _ : J => gaussianReal 0 1).map (fun y => τ • y) := by
  have hp := measurePreserving_arrowProdEquivProdArrow ℝ ℝ J (fun _ => gaussianReal 0 1) (fun _ => gaussianReal 0 1)
  have m1 : Measurable fun q : (J → ℝ) × (J → ℝ) => d • q.1 + e • q.2 := (measurable_fst.const_smul d).add (measurable_snd.const_smul e)
  have m2 : Measurable fun q : ℝ × ℝ => d * q.1 + e * q.2 := (measurable_fst.const_mul d).add (measurable_snd.const_mul e)
  rw [← hp.map_eq, Measure.map_map m1 hp.measurable]
  have e1 : (fun q : (J → ℝ) × (J → ℝ) => d • q.1 + e • q.2) ∘ MeasurableEquiv.arrowProdEquivProdArrow ℝ ℝ J
      = fun x j => (fun q : ℝ × ℝ => d * q.1 + e * q.2) (x j) := rfl
  have e2 : (fun y : J → ℝ => τ • y) = fun y j => (fun x : ℝ => τ * x) (y j) := rfl
  have p1 : IsProbabilityMeasure (((gaussianReal 0 1).prod (gaussianReal 0 1)).map (fun q => d * q.1 + e * q.2)) :=
    Measure.isProbabilityMeasure_map m2.aemeasurable
  have p2 : IsProbabilityMeasure ((gaussianReal 0 1).map (fun x : ℝ => τ * x)) :=
    Measure.isProbabilityMeasure_map (measurable_const_mul τ).aemeasurable
  rw [e1, Measure.pi_map_pi (fun _ => m2.aemeasurable), e2, Measure.pi_map_pi (fun _ => (measurable_const_mul τ).aemeasurable)]
  congr 1
  funext j
  exact gauss_combine_real d e τ h

/-- Standard normal noise. -/
noncomputable def stdNormal (J : Type) [Fintype J] : Measure (EuclideanSpace ℝ J) :=
  (Measure.pi fun _ : J => gaussianReal 0 1).map (WithLp.toLp 2)

/-- Combinations of independent normal vectors are normal. -/
theorem gauss_combine (d e τ : ℝ) (h : d ^ 2 + e ^ 2 = τ ^ 2) :
    ((stdNormal J).prod (stdNormal J)).map (fun q => d • q.1 + e • q.2) = (stdNormal J).map (fun y => τ • y) := by
  have ml : Measurable (WithLp.toLp 2 : (J → ℝ) → EuclideanSpace ℝ J) := ((EuclideanSpace.equiv J ℝ).symm.continuous).measurable
  have m1 : Measurable fun q : EuclideanSpace ℝ J × EuclideanSpace ℝ J => d • q.1 + e • q.2 := (measurable_fst.const_smul d).add (measurable_snd.const_smul e)
  have m2 : Measurable fun q : (J → ℝ) × (J → ℝ) => d • q.1 + e • q.2 := (measurable_fst.const_smul d).add (measurable_snd.const_smul e)
  have m3 : Measurable fun q : EuclideanSpace ℝ J => τ • q := measurable_id.const_smul τ
  have m4 : Measurable fun q : J → ℝ => τ • q := measurable_id.const_smul τ
  unfold stdNormal
  rw [Measure.map_prod_map _ _ ml ml, Measure.map_map m1 (ml.prodMap ml), Measure.map_map m3 ml]
  have e1 : (fun q : EuclideanSpace ℝ J × EuclideanSpace ℝ J => d • q.1 + e • q.2) ∘ Prod.map (WithLp.toLp 2) (WithLp.toLp 2)
      = WithLp.toLp 2 ∘ fun q : (J → ℝ) × (J → ℝ) => d • q.1 + e • q.2 := rfl
  have e2 : (fun q : EuclideanSpace ℝ J => τ • q) ∘ WithLp.toLp 2 = WithLp.toLp 2 ∘ fun q : J → ℝ => τ • q := rfl
  rw [e1, e2, ← Measure.map_map ml m2, ← Measure.map_map ml m4, gauss_combine_pi d e τ h]

end PySGMCMC.Langevin
