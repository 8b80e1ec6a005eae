import Verif.Lemmas.Stein
import Mathlib.Probability.Distributions.Gaussian.Real
import Mathlib.MeasureTheory.Integral.Prod

/-!
# How far the stationary law of a step is from the target

A step moves `q` by a multiple of a stochastic gradient, taken at a point `x` near `q`, and by Gaussian noise.  If the law of `q` does not
change, averages over it differ from averages over the density `exp (-U)` by a quantity that is small if the step is.  The cost need not
be convex: Stein's equation takes the place of a contraction.
-/

open MeasureTheory ProbabilityTheory Filter Topology
namespace PySGMCMC.Stein

/-! ## Taylor's formula -/

theorem mvt {k k' : ℝ → ℝ} (hk : ∀ u, HasDerivAt k (k' u) u) {y h C : ℝ} (hC : ∀ u, |u - y| ≤ |h| → |k' u| ≤ C) :
    |k (y + h) - k y| ≤ C * |h| := by
  have := (convex_closedBall y |h|).norm_image_sub_le_of_norm_hasDerivWithin_le (f := k) (f' := k') (C := C)
    (fun u _ => (hk u).hasDerivWithinAt) (fun u hu => hC u (by simpa [Real.dist_eq] using hu))
    (Metric.mem_closedBall_self (abs_nonneg h)) (show y + h ∈ _ by simp [Real.dist_eq])
  simpa [Real.norm_eq_abs] using this

variable {f g g' g'' : ℝ → ℝ} {M : ℝ}

theorem taylor1 (hf : ∀ x, HasDerivAt f (g x) x) (hg : ∀ x, HasDerivAt g (g' x) x) (hM : ∀ x, |g' x| ≤ M) (y h : ℝ) :
    |f (y + h) - f y - h * g y| ≤ M * h ^ 2 := by
  have h1 := mvt (k := fun u => f u - u * g y) (k' := fun u => g u - g y) (fun u => by
    exact ((hf u).sub ((hasDerivAt_id' u).mul_const (g y))).congr_deriv (by ring)) (y := y) (h := h) (C := M * |h|) fun u hu =>
      (Well.lip_of_deriv hg hM u y).trans (mul_le_mul_of_nonneg_left hu ((abs_nonneg _).trans (hM 0)))
  have e : f (y + h) - (y + h) * g y - (f y - y * g y) = f (y + h) - f y - h * g y := by ring
  rw [e, mul_assoc, ← sq, sq_abs] at h1
  exact h1

theorem taylor2 (hf : ∀ x, HasDerivAt f (g x) x) (hg : ∀ x, HasDerivAt g (g' x) x) (hg' : ∀ x, HasDerivAt g' (g'' x) x)
    (hM : ∀ x, |g'' x| ≤ M) (y h : ℝ) : |f (y + h) - f y - h * g y - h ^ 2 / 2 * g' y| ≤ M * |h| ^ 3 := by
  have h1 := mvt (k := fun u => f u - u * g y - (u - y) ^ 2 / 2 * g' y) (k' := fun u => g u - g y - (u - y) * g' y) (fun u => by
    refine (((hf u).sub ((hasDerivAt_id' u).mul_const (g y))).sub
      (((((hasDerivAt_id' u).sub_const y).pow 2).div_const 2).mul_const (g' y))).congr_deriv ?_
    simp only [Nat.cast_ofNat, Nat.add_one_sub_one, pow_one]
    ring) (y := y) (h := h) (C := M * h ^ 2) fun u hu => by
      have h2 := taylor1 hg hg' hM y (u - y)
      rw [add_sub_cancel] at h2
      refine h2.trans (mul_le_mul_of_nonneg_left ?_ ((abs_nonneg _).trans (hM 0)))
      rw [← sq_abs, ← sq_abs h]
      exact pow_le_pow_left₀ (abs_nonneg _) hu 2
  have e : f (y + h) - (y + h) * g y - (y + h - y) ^ 2 / 2 * g' y - (f y - y * g y - (y - y) ^ 2 / 2 * g' y)
      = f (y + h) - f y - h * g y - h ^ 2 / 2 * g' y := by ring
  have e2 : M * h ^ 2 * |h| = M * |h| ^ 3 := by rw [← sq_abs]; ring
  rw [e, e2] at h1
  exact h1

/-- A move and noise one after the other. -/
theorem taylor_step (hf : ∀ x, HasDerivAt f (g x) x) (hg : ∀ x, HasDerivAt g (g' x) x) (hg' : ∀ x, HasDerivAt g' (g'' x) x)
    (hM1 : ∀ x, |g' x| ≤ M) (hM2 : ∀ x, |g'' x| ≤ M) (q d n : ℝ) :
    |f (q + d + n) - f q - d * g q - n * g (q + d) - n ^ 2 / 2 * g' q| ≤ M * (|n| ^ 3 + d ^ 2 + n ^ 2 * |d|) := by
  have h1 := taylor2 hf hg hg' hM2 (q + d) n
  have h2 := taylor1 hf hg hM1 q d
  have h3 : |n ^ 2 / 2 * (g' (q + d) - g' q)| ≤ M * (n ^ 2 * |d|) := by
    rw [abs_mul, abs_of_nonneg (by positivity)]
    have h4 := Well.lip_of_deriv hg' hM2 (q + d) q
    rw [add_sub_cancel_left] at h4
    have h5 : 0 ≤ M * |d| := mul_nonneg ((abs_nonneg _).trans (hM1 0)) (abs_nonneg d)
    nlinarith [sq_nonneg n, mul_le_mul_of_nonneg_left h4 (by positivity : 0 ≤ n ^ 2 / 2), mul_nonneg (sq_nonneg n) h5]
  rw [abs_le] at h1 h2 h3 ⊢
  constructor <;> nlinarith

/-! ## The bias -/

theorem gauss_cube : Integrable (fun z : ℝ => |z| ^ 3) (gaussianReal 0 1) := by
  have := (memLp_id_gaussianReal (μ := 0) (v := 1) 3).integrable_norm_pow (by norm_num)
  simpa using this

theorem gauss_sq : Integrable (fun z : ℝ => z ^ 2) (gaussianReal 0 1) ∧ ∫ z, z ^ 2 ∂gaussianReal 0 1 = 1 := by
  refine ⟨(memLp_id_gaussianReal 2).integrable_sq, ?_⟩
  have h := variance_id_gaussianReal (μ := 0) (v := 1)
  rw [variance_eq_integral aemeasurable_id] at h
  simpa using h

theorem gauss_id : Integrable (fun z : ℝ => z) (gaussianReal 0 1) ∧ ∫ z, z ∂gaussianReal 0 1 = 0 :=
  ⟨(memLp_id_gaussianReal 1).integrable le_rfl, integral_id_gaussianReal⟩

variable {Bt : Type*} [MeasurableSpace Bt] {U s s' : ℝ → ℝ} {a b L : ℝ}

/-- The stochastic gradients on the line: unbiased and of linear growth. -/
structure Batches (ν : Measure Bt) (s : ℝ → ℝ) (G : Bt → ℝ → ℝ) (Λ : ℝ) (g₀ : Bt → ℝ) : Prop where
  meas : Measurable fun q : Bt × ℝ => G q.1 q.2
  growth : ∀ β x, G β x ^ 2 ≤ Λ * (g₀ β + x ^ 2)
  nonneg : ∀ β, 0 ≤ g₀ β
  int : Integrable g₀ ν
  bound : 0 < Λ
  mean : ∀ x, ∫ β, G β x ∂ν = s x

variable {ν : Measure Bt} [IsProbabilityMeasure ν] {G : Bt → ℝ → ℝ} {Λ σ τ ρ : ℝ} {g₀ : Bt → ℝ} {μ : Measure (ℝ × ℝ)} [IsProbabilityMeasure μ]

namespace Batches
variable {u : ℝ → ℝ}

theorem sq_integrable (h : Batches ν u G Λ g₀) (hx : Integrable (fun p : ℝ × ℝ => p.2 ^ 2) μ) :
    Integrable (fun w : (ℝ × ℝ) × Bt => G w.2 w.1.2 ^ 2) (μ.prod ν) ∧
      ∫ w : (ℝ × ℝ) × Bt, G w.2 w.1.2 ^ 2 ∂μ.prod ν ≤ Λ * (∫ β, g₀ β ∂ν + ∫ p : ℝ × ℝ, p.2 ^ 2 ∂μ) := by
  have hm : Measurable fun w : (ℝ × ℝ) × Bt => G w.2 w.1.2 := h.meas.comp (measurable_snd.prodMk (measurable_snd.comp measurable_fst))
  have i1 : Integrable (fun w : (ℝ × ℝ) × Bt => g₀ w.2) (μ.prod ν) := h.int.comp_snd μ
  have i2 : Integrable (fun w : (ℝ × ℝ) × Bt => w.1.2 ^ 2) (μ.prod ν) := hx.comp_fst ν
  have i3 : Integrable (fun w : (ℝ × ℝ) × Bt => Λ * (g₀ w.2 + w.1.2 ^ 2)) (μ.prod ν) := (i1.add i2).const_mul Λ
  have i4 : Integrable (fun w : (ℝ × ℝ) × Bt => G w.2 w.1.2 ^ 2) (μ.prod ν) := i3.mono' (hm.pow_const 2).aestronglyMeasurable
    (.of_forall fun w => by rw [Real.norm_eq_abs, abs_of_nonneg (sq_nonneg _)]; exact h.growth _ _)
  refine ⟨i4, (integral_mono i4 i3 fun w => h.growth _ _).trans (le_of_eq ?_)⟩
  have e1 : ∫ w : (ℝ × ℝ) × Bt, g₀ w.2 ∂μ.prod ν = ∫ β, g₀ β ∂ν := by rw [integral_fun_snd]; simp
  have e2 : ∫ w : (ℝ × ℝ) × Bt, w.1.2 ^ 2 ∂μ.prod ν = ∫ p : ℝ × ℝ, p.2 ^ 2 ∂μ := by
    rw [integral_fun_fst (fun p : ℝ × ℝ => p.2 ^ 2)]; simp
  rw [integral_const_mul, integral_add i1 i2, e1, e2]

theorem abs_integrable (h : Batches ν u G Λ g₀) (hx : Integrable (fun p : ℝ × ℝ => p.2 ^ 2) μ) :
    Integrable (fun w : (ℝ × ℝ) × Bt => |G w.2 w.1.2|) (μ.prod ν) ∧
      ∫ w : (ℝ × ℝ) × Bt, |G w.2 w.1.2| ∂μ.prod ν ≤ 1 + Λ * (∫ β, g₀ β ∂ν + ∫ p : ℝ × ℝ, p.2 ^ 2 ∂μ) := by
  have hm : Measurable fun w : (ℝ × ℝ) × Bt => G w.2 w.1.2 := h.meas.comp (measurable_snd.prodMk (measurable_snd.comp measurable_fst))
  obtain ⟨i1, h1⟩ := h.sq_integrable hx
  have i2 : Integrable (fun w : (ℝ × ℝ) × Bt => 1 + G w.2 w.1.2 ^ 2) (μ.prod ν) := (integrable_const 1).add i1
  have hle : ∀ w : (ℝ × ℝ) × Bt, |G w.2 w.1.2| ≤ 1 + G w.2 w.1.2 ^ 2 := fun w => by
    nlinarith [sq_nonneg (|G w.2 w.1.2| - 1), sq_abs (G w.2 w.1.2)]
  have i3 : Integrable (fun w : (ℝ × ℝ) × Bt => |G w.2 w.1.2|) (μ.prod ν) := i2.mono' hm.norm.aestronglyMeasurable
    (.of_forall fun w => by rw [Real.norm_eq_abs, abs_abs]; exact hle w)
  refine ⟨i3, (integral_mono i3 i2 hle).trans ?_⟩
  rw [integral_add (integrable_const 1) i1]
  simpa using h1

theorem slice (h : Batches ν u G Λ g₀) (x : ℝ) : Integrable (fun β => G β x) ν := by
  have hm : Measurable fun β => G β x := h.meas.comp (measurable_id.prodMk measurable_const)
  have i1 : Integrable (fun β => 1 + Λ * (g₀ β + x ^ 2)) ν := (integrable_const 1).add ((h.int.add (integrable_const _)).const_mul Λ)
  refine i1.mono' hm.aestronglyMeasurable (.of_forall fun β => ?_)
  rw [Real.norm_eq_abs]
  nlinarith [sq_nonneg (|G β x| - 1), sq_abs (G β x), h.growth β x]

/-- The drift seen by a bounded function of `q`. -/
theorem drift (h : Batches ν u G Λ g₀) (hx : Integrable (fun p : ℝ × ℝ => p.2 ^ 2) μ) (hg : Continuous g) {M : ℝ} (hM : ∀ x, |g x| ≤ M) :
    Integrable (fun w : (ℝ × ℝ) × Bt => G w.2 w.1.2 * g w.1.1) (μ.prod ν) ∧ Integrable (fun p : ℝ × ℝ => u p.2 * g p.1) μ ∧
      ∫ w : (ℝ × ℝ) × Bt, G w.2 w.1.2 * g w.1.1 ∂μ.prod ν = ∫ p : ℝ × ℝ, u p.2 * g p.1 ∂μ := by
  have hm : Measurable fun w : (ℝ × ℝ) × Bt => G w.2 w.1.2 := h.meas.comp (measurable_snd.prodMk (measurable_snd.comp measurable_fst))
  obtain ⟨i1, -⟩ := h.abs_integrable hx
  have hmg : Measurable fun w : (ℝ × ℝ) × Bt => g w.1.1 := hg.measurable.comp (measurable_fst.comp measurable_fst)
  have i2 : Integrable (fun w : (ℝ × ℝ) × Bt => G w.2 w.1.2 * g w.1.1) (μ.prod ν) :=
    (i1.mul_const M).mono' (hm.mul hmg).aestronglyMeasurable (.of_forall fun w => by
      rw [Real.norm_eq_abs, abs_mul]
      exact mul_le_mul_of_nonneg_left (hM _) (abs_nonneg _))
  have e : ∀ p : ℝ × ℝ, ∫ β, G β p.2 * g p.1 ∂ν = u p.2 * g p.1 := fun p => by rw [integral_mul_const, h.mean]
  refine ⟨i2, ?_, ?_⟩
  · have := i2.integral_prod_left
    simpa only [e] using this
  · rw [integral_prod _ i2]
    simp only [e]

end Batches

/-- The bias of a stationary law. -/
theorem bias (hU : Well U s s' a b L) (hn : ∫ y, Real.exp (-U y) = 1) : ∃ K, 0 ≤ K ∧
    ∀ {ν : Measure Bt} [IsProbabilityMeasure ν] {G : Bt → ℝ → ℝ} {Λ σ τ ρ : ℝ} {g₀ : Bt → ℝ} {μ : Measure (ℝ × ℝ)} [IsProbabilityMeasure μ],
    Batches ν (fun x => s x / σ) G Λ g₀ → 0 < σ → 0 < τ → Integrable (fun p : ℝ × ℝ => |p.1|) μ → Integrable (fun p : ℝ × ℝ => p.2 ^ 2) μ →
    ((μ.prod ν).prod (gaussianReal 0 1)).map (fun w => w.1.1.1 + -τ * G w.1.2 w.1.1.2 + ρ * w.2) = μ.map Prod.fst →
    ∀ {φ φ' : ℝ → ℝ} {A : ℝ}, (∀ x, HasDerivAt φ (φ' x) x) → (∀ x, |φ' x| ≤ A) →
    let B := Λ * (∫ β, g₀ β ∂ν + ∫ p : ℝ × ℝ, p.2 ^ 2 ∂μ)
    |∫ p : ℝ × ℝ, φ p.1 ∂μ - Well.avg U φ| ≤ K * A * (σ / τ * (|ρ| ^ 3 + τ ^ 2 * B + ρ ^ 2 * (τ * (1 + B)) + |τ / σ - ρ ^ 2 / 2|)
      + ∫ p : ℝ × ℝ, |p.1 - p.2| ∂μ) := by
  obtain ⟨K, hK0, hK⟩ := hU.solve hn
  set κ := ∫ z : ℝ, |z| ^ 3 ∂gaussianReal 0 1 with hκ
  have hκ0 : 0 ≤ κ := integral_nonneg fun z => by positivity
  have hL := hU.lip_nonneg
  refine ⟨K * (1 + κ + L), by positivity, ?_⟩
  intro ν _ G Λ σ τ ρ g₀ μ _ hG hσ hτ hq hx hinv φ φ' A hφ hA B
  have hA0 : 0 ≤ A := (abs_nonneg _).trans (hA 0)
  obtain ⟨g, g', g'', hg, hg', hst, b0, b1, b2⟩ := hK hφ hA
  set M := K * A with hM
  have hM0 : 0 ≤ M := by positivity
  have cg : Continuous g := continuous_iff_continuousAt.2 fun x => (hg x).continuousAt
  have cg' : Continuous g' := continuous_iff_continuousAt.2 fun x => (hg' x).continuousAt
  have cφ : Continuous φ := continuous_iff_continuousAt.2 fun x => (hφ x).continuousAt
  set f : ℝ → ℝ := fun x => ∫ y in (0 : ℝ)..x, g y with hf
  have hfd : ∀ x, HasDerivAt f (g x) x := fun x =>
    intervalIntegral.integral_hasDerivAt_right (cg.intervalIntegrable _ _) (cg.stronglyMeasurableAtFilter _ _) cg.continuousAt
  have cf : Continuous f := continuous_iff_continuousAt.2 fun x => (hfd x).continuousAt
  have hfl : ∀ x, |f x| ≤ M * |x| := fun x => by
    have := Well.lip_of_deriv hfd b0 x 0
    simpa [hf] using this
  set N := gaussianReal 0 1
  set W := μ.prod ν
  set d : (ℝ × ℝ) × Bt → ℝ := fun w => -τ * G w.2 w.1.2 with hd
  have md : Measurable d := (hG.meas.comp (measurable_snd.prodMk (measurable_snd.comp measurable_fst))).const_mul _
  have mq : Measurable fun w : (ℝ × ℝ) × Bt => w.1.1 := measurable_fst.comp measurable_fst
  obtain ⟨iG2, hG2⟩ := hG.sq_integrable hx
  obtain ⟨iG1, hG1⟩ := hG.abs_integrable hx
  have hB0 : 0 ≤ B := (integral_nonneg fun w => sq_nonneg _).trans hG2
  obtain ⟨id2, iu, hdr⟩ := hG.drift hx cg b0
  -- integrability of the terms
  have jf : Integrable (fun p : ℝ × ℝ => f p.1) μ := (hq.const_mul M).mono' (cf.measurable.comp measurable_fst).aestronglyMeasurable
    (.of_forall fun p => hfl p.1)
  have j0 : Integrable (fun w : ((ℝ × ℝ) × Bt) × ℝ => f w.1.1.1) (W.prod N) := (jf.comp_fst ν).comp_fst N
  have mstep : Measurable fun w : ((ℝ × ℝ) × Bt) × ℝ => w.1.1.1 + -τ * G w.1.2 w.1.1.2 + ρ * w.2 :=
    ((mq.add md).comp measurable_fst).add (measurable_snd.const_mul ρ)
  have jm : Integrable f (μ.map Prod.fst) := (integrable_map_measure cf.aestronglyMeasurable measurable_fst.aemeasurable).2 jf
  have j1 : Integrable (fun w : ((ℝ × ℝ) × Bt) × ℝ => f (w.1.1.1 + d w.1 + ρ * w.2)) (W.prod N) := by
    rw [← hinv] at jm
    exact (integrable_map_measure cf.aestronglyMeasurable mstep.aemeasurable).1 jm
  have e1 : ∫ w : ((ℝ × ℝ) × Bt) × ℝ, f (w.1.1.1 + d w.1 + ρ * w.2) ∂W.prod N = ∫ w : ((ℝ × ℝ) × Bt) × ℝ, f w.1.1.1 ∂W.prod N := by
    have h1 := integral_map mstep.aemeasurable (f := f) cf.aestronglyMeasurable (μ := W.prod N)
    rw [hinv, integral_map measurable_fst.aemeasurable cf.aestronglyMeasurable] at h1
    rw [integral_fun_fst (fun w : (ℝ × ℝ) × Bt => f w.1.1), integral_fun_fst (fun p : ℝ × ℝ => f p.1), probReal_univ, probReal_univ,
      one_smul, one_smul]
    exact h1.symm
  have j2' : Integrable (fun w : (ℝ × ℝ) × Bt => d w * g w.1.1) W := by
    have := id2.const_mul (-τ)
    refine this.congr (.of_forall fun w => ?_)
    simp only [hd]; ring
  have j2 : Integrable (fun w : ((ℝ × ℝ) × Bt) × ℝ => d w.1 * g w.1.1.1) (W.prod N) := j2'.comp_fst N
  have e2 : ∫ w : ((ℝ × ℝ) × Bt) × ℝ, d w.1 * g w.1.1.1 ∂W.prod N = -τ * ∫ p : ℝ × ℝ, s p.2 / σ * g p.1 ∂μ := by
    rw [integral_fun_fst (fun w : (ℝ × ℝ) × Bt => d w * g w.1.1), ← hdr, ← integral_const_mul]
    simp only [probReal_univ, one_smul, hd]
    exact integral_congr_ae (.of_forall fun w => by ring)
  have mg : Measurable fun w : (ℝ × ℝ) × Bt => g (w.1.1 + d w) := cg.measurable.comp (mq.add md)
  have ig : Integrable (fun w : (ℝ × ℝ) × Bt => g (w.1.1 + d w)) W := (integrable_const M).mono' mg.aestronglyMeasurable (.of_forall fun w => b0 _)
  have j3 : Integrable (fun w : ((ℝ × ℝ) × Bt) × ℝ => ρ * w.2 * g (w.1.1.1 + d w.1)) (W.prod N) := by
    have := ig.mul_prod (gauss_id.1.const_mul ρ)
    refine this.congr (.of_forall fun w => ?_)
    simp only; ring
  have e3 : ∫ w : ((ℝ × ℝ) × Bt) × ℝ, ρ * w.2 * g (w.1.1.1 + d w.1) ∂W.prod N = 0 := by
    have h1 := integral_prod_mul (μ := W) (ν := N) (fun w : (ℝ × ℝ) × Bt => g (w.1.1 + d w)) (fun z : ℝ => ρ * z)
    rw [integral_const_mul, gauss_id.2, mul_zero, mul_zero] at h1
    rw [← h1]
    exact integral_congr_ae (.of_forall fun w => by ring)
  have ig' : Integrable (fun p : ℝ × ℝ => g' p.1) μ := (integrable_const M).mono' (cg'.measurable.comp measurable_fst).aestronglyMeasurable
    (.of_forall fun p => b1 _)
  have j4 : Integrable (fun w : ((ℝ × ℝ) × Bt) × ℝ => (ρ * w.2) ^ 2 / 2 * g' w.1.1.1) (W.prod N) := by
    have := (ig'.comp_fst ν).mul_prod (gauss_sq.1.const_mul (ρ ^ 2 / 2))
    refine this.congr (.of_forall fun w => ?_)
    simp only; ring
  have e4 : ∫ w : ((ℝ × ℝ) × Bt) × ℝ, (ρ * w.2) ^ 2 / 2 * g' w.1.1.1 ∂W.prod N = ρ ^ 2 / 2 * ∫ p : ℝ × ℝ, g' p.1 ∂μ := by
    have h1 := integral_prod_mul (μ := W) (ν := N) (fun w : (ℝ × ℝ) × Bt => g' w.1.1) (fun z : ℝ => ρ ^ 2 / 2 * z ^ 2)
    rw [integral_const_mul, gauss_sq.2, mul_one, integral_fun_fst (fun p : ℝ × ℝ => g' p.1)] at h1
    simp only [probReal_univ, one_smul] at h1
    rw [mul_comm, ← h1]
    exact integral_congr_ae (.of_forall fun w => by ring)
  -- the remainder
  have id1 : Integrable (fun w : (ℝ × ℝ) × Bt => |d w|) W := by
    refine (iG1.const_mul τ).congr (.of_forall fun w => ?_)
    simp only [hd]
    rw [abs_mul, abs_neg, abs_of_pos hτ]
  have vd1 : ∫ w, |d w| ∂W ≤ τ * (1 + B) := by
    have e : ∫ w, |d w| ∂W = τ * ∫ w : (ℝ × ℝ) × Bt, |G w.2 w.1.2| ∂W := by
      rw [← integral_const_mul]
      refine integral_congr_ae (.of_forall fun w => ?_)
      simp only [hd]
      rw [abs_mul, abs_neg, abs_of_pos hτ]
    rw [e]
    exact mul_le_mul_of_nonneg_left hG1 hτ.le
  have ids : Integrable (fun w : (ℝ × ℝ) × Bt => d w ^ 2) W := by
    refine (iG2.const_mul (τ ^ 2)).congr (.of_forall fun w => ?_)
    simp only [hd]
    ring
  have vds : ∫ w, d w ^ 2 ∂W ≤ τ ^ 2 * B := by
    have e : ∫ w, d w ^ 2 ∂W = τ ^ 2 * ∫ w : (ℝ × ℝ) × Bt, G w.2 w.1.2 ^ 2 ∂W := by
      rw [← integral_const_mul]
      refine integral_congr_ae (.of_forall fun w => ?_)
      simp only [hd]
      ring
    rw [e]
    exact mul_le_mul_of_nonneg_left hG2 (sq_nonneg τ)
  have r1 : Integrable (fun w : ((ℝ × ℝ) × Bt) × ℝ => |ρ * w.2| ^ 3) (W.prod N) := by
    have := (gauss_cube.const_mul (|ρ| ^ 3)).comp_snd W
    refine this.congr (.of_forall fun w => ?_)
    simp only [abs_mul]; ring
  have v1 : ∫ w : ((ℝ × ℝ) × Bt) × ℝ, |ρ * w.2| ^ 3 ∂W.prod N = |ρ| ^ 3 * κ := by
    rw [integral_fun_snd (fun z : ℝ => |ρ * z| ^ 3), hκ, ← integral_const_mul]
    simp only [probReal_univ, one_smul]
    exact integral_congr_ae (.of_forall fun z => by simp only [abs_mul]; ring)
  have r2 : Integrable (fun w : ((ℝ × ℝ) × Bt) × ℝ => d w.1 ^ 2) (W.prod N) := ids.comp_fst N
  have v2 : ∫ w : ((ℝ × ℝ) × Bt) × ℝ, d w.1 ^ 2 ∂W.prod N ≤ τ ^ 2 * B := by
    rw [integral_fun_fst (fun w => d w ^ 2)]
    simpa using vds
  have r3 : Integrable (fun w : ((ℝ × ℝ) × Bt) × ℝ => (ρ * w.2) ^ 2 * |d w.1|) (W.prod N) := by
    have := id1.mul_prod (gauss_sq.1.const_mul (ρ ^ 2))
    refine this.congr (.of_forall fun w => ?_)
    simp only; ring
  have v3 : ∫ w : ((ℝ × ℝ) × Bt) × ℝ, (ρ * w.2) ^ 2 * |d w.1| ∂W.prod N ≤ ρ ^ 2 * (τ * (1 + B)) := by
    have h1 := integral_prod_mul (μ := W) (ν := N) (fun w => |d w|) (fun z : ℝ => ρ ^ 2 * z ^ 2)
    rw [integral_const_mul, gauss_sq.2, mul_one] at h1
    have h2 : ∫ w : ((ℝ × ℝ) × Bt) × ℝ, (ρ * w.2) ^ 2 * |d w.1| ∂W.prod N = ρ ^ 2 * ∫ w, |d w| ∂W := by
      rw [mul_comm, ← h1]
      exact integral_congr_ae (.of_forall fun w => by ring)
    rw [h2]
    exact mul_le_mul_of_nonneg_left vd1 (sq_nonneg ρ)
  set rem : ((ℝ × ℝ) × Bt) × ℝ → ℝ := fun w =>
    f (w.1.1.1 + d w.1 + ρ * w.2) - f w.1.1.1 - d w.1 * g w.1.1.1 - ρ * w.2 * g (w.1.1.1 + d w.1) - (ρ * w.2) ^ 2 / 2 * g' w.1.1.1 with hrem
  have hre : ∫ w, rem w ∂W.prod N = τ * (∫ p : ℝ × ℝ, s p.2 / σ * g p.1 ∂μ) - ρ ^ 2 / 2 * ∫ p : ℝ × ℝ, g' p.1 ∂μ := by
    have k1 := integral_sub j1 j0
    have k2 := integral_sub (j1.sub j0) j2
    have k3 := integral_sub ((j1.sub j0).sub j2) j3
    have k4 := integral_sub (((j1.sub j0).sub j2).sub j3) j4
    simp only [Pi.sub_apply] at k1 k2 k3 k4
    rw [hrem, k4, k3, k2, k1, e1, e2, e3, e4]
    ring
  have hle : |∫ w, rem w ∂W.prod N| ≤ M * (|ρ| ^ 3 * κ + τ ^ 2 * B + ρ ^ 2 * (τ * (1 + B))) := by
    have k1 : Integrable (fun w : ((ℝ × ℝ) × Bt) × ℝ => M * (|ρ * w.2| ^ 3 + d w.1 ^ 2 + (ρ * w.2) ^ 2 * |d w.1|)) (W.prod N) :=
      ((r1.add r2).add r3).const_mul M
    have k2 := norm_integral_le_of_norm_le k1 (f := rem) (.of_forall fun w => taylor_step hfd hg hg' b1 b2 w.1.1.1 (d w.1) (ρ * w.2))
    have k3 := integral_add (r1.add r2) r3
    have k4 := integral_add r1 r2
    simp only [Pi.add_apply] at k3 k4
    rw [integral_const_mul, k3, k4, v1] at k2
    refine k2.trans (mul_le_mul_of_nonneg_left ?_ hM0)
    linarith
  -- Stein's equation
  have js : Integrable (fun p : ℝ × ℝ => s p.2 * g p.1) μ := by
    refine (iu.const_mul σ).congr (.of_forall fun p => ?_)
    simp only
    field_simp
  have jφ : Integrable (fun p : ℝ × ℝ => φ p.1) μ := by
    refine ((integrable_const |φ 0|).add (hq.const_mul A)).mono' (cφ.measurable.comp measurable_fst).aestronglyMeasurable (.of_forall fun p => ?_)
    have h1 := Well.lip_of_deriv hφ hA p.1 0
    have h2 := abs_sub_abs_le_abs_sub (φ p.1) (φ 0)
    rw [sub_zero] at h1
    simp only [Real.norm_eq_abs, Pi.add_apply]
    linarith
  have jdiff : Integrable (fun p : ℝ × ℝ => (s p.1 - s p.2) * g p.1) μ := by
    have k1 : Integrable (fun p : ℝ × ℝ => g' p.1 - φ p.1 + Well.avg U φ - s p.2 * g p.1) μ := ((ig'.sub jφ).add (integrable_const _)).sub js
    refine k1.congr (.of_forall fun p => ?_)
    simp only
    linear_combination hst p.1
  have jqx : Integrable (fun p : ℝ × ℝ => |p.1 - p.2|) μ := by
    have k1 : Integrable (fun p : ℝ × ℝ => |p.1| + (1 + p.2 ^ 2)) μ := hq.add ((integrable_const 1).add hx)
    refine k1.mono' (measurable_fst.sub measurable_snd).norm.aestronglyMeasurable (.of_forall fun p => ?_)
    rw [Real.norm_eq_abs, abs_abs]
    have := abs_sub p.1 p.2
    nlinarith [sq_nonneg (|p.2| - 1), sq_abs p.2]
  have hdiff : |∫ p : ℝ × ℝ, (s p.1 - s p.2) * g p.1 ∂μ| ≤ M * (L * ∫ p : ℝ × ℝ, |p.1 - p.2| ∂μ) := by
    have k1 : Integrable (fun p : ℝ × ℝ => M * (L * |p.1 - p.2|)) μ := (jqx.const_mul L).const_mul M
    have k2 := norm_integral_le_of_norm_le k1 (f := fun p : ℝ × ℝ => (s p.1 - s p.2) * g p.1) (.of_forall fun p => by
      rw [Real.norm_eq_abs, abs_mul, mul_comm]
      exact mul_le_mul (b0 _) (hU.force_lip _ _) (abs_nonneg _) hM0)
    rwa [integral_const_mul, integral_const_mul] at k2
  have hig' : |∫ p : ℝ × ℝ, g' p.1 ∂μ| ≤ M := by
    have k2 := norm_integral_le_of_norm_le (integrable_const M) (f := fun p : ℝ × ℝ => g' p.1) (.of_forall fun p => b1 p.1) (μ := μ)
    simpa using k2
  have hmain : ∫ p : ℝ × ℝ, φ p.1 ∂μ - Well.avg U φ = ∫ p : ℝ × ℝ, g' p.1 ∂μ - ∫ p : ℝ × ℝ, s p.2 * g p.1 ∂μ
      - ∫ p : ℝ × ℝ, (s p.1 - s p.2) * g p.1 ∂μ := by
    have k0 : Integrable (fun p : ℝ × ℝ => g' p.1 - s p.2 * g p.1) μ := ig'.sub js
    rw [← integral_sub ig' js, ← integral_sub k0 jdiff]
    have k1 : ∫ p : ℝ × ℝ, φ p.1 ∂μ - Well.avg U φ = ∫ p : ℝ × ℝ, φ p.1 - Well.avg U φ ∂μ := by
      rw [integral_sub jφ (integrable_const _)]
      simp
    rw [k1]
    refine integral_congr_ae (.of_forall fun p => ?_)
    simp only [Pi.sub_apply]
    linear_combination -hst p.1
  have hsσ : ∫ p : ℝ × ℝ, s p.2 / σ * g p.1 ∂μ = (∫ p : ℝ × ℝ, s p.2 * g p.1 ∂μ) / σ := by
    rw [← integral_div]
    exact integral_congr_ae (.of_forall fun p => by ring)
  have hsplit : ∫ p : ℝ × ℝ, g' p.1 ∂μ - ∫ p : ℝ × ℝ, s p.2 * g p.1 ∂μ
      = σ / τ * (-(∫ w, rem w ∂W.prod N) + (τ / σ - ρ ^ 2 / 2) * ∫ p : ℝ × ℝ, g' p.1 ∂μ) := by
    rw [hre, hsσ]
    field_simp
    ring
  rw [hmain, hsplit]
  have hστ : 0 < σ / τ := by positivity
  have hq0 : 0 ≤ ∫ p : ℝ × ℝ, |p.1 - p.2| ∂μ := integral_nonneg fun p => abs_nonneg _
  have k1 : |σ / τ * (-(∫ w, rem w ∂W.prod N) + (τ / σ - ρ ^ 2 / 2) * ∫ p : ℝ × ℝ, g' p.1 ∂μ)|
      ≤ σ / τ * (M * (|ρ| ^ 3 * κ + τ ^ 2 * B + ρ ^ 2 * (τ * (1 + B))) + |τ / σ - ρ ^ 2 / 2| * M) := by
    rw [abs_mul, abs_of_pos hστ]
    refine mul_le_mul_of_nonneg_left ((abs_add_le _ _).trans (add_le_add (by rwa [abs_neg]) ?_)) hστ.le
    rw [abs_mul]
    exact mul_le_mul_of_nonneg_left hig' (abs_nonneg _)
  refine (abs_sub _ _).trans ((add_le_add k1 hdiff).trans ?_)
  generalize hI : (∫ p : ℝ × ℝ, |p.1 - p.2| ∂μ) = I at hq0 ⊢
  generalize hX : |ρ| ^ 3 = X
  have hX0 : 0 ≤ X := by rw [← hX]; positivity
  generalize hY : ρ ^ 2 * (τ * (1 + B)) = Y
  have hY0 : 0 ≤ Y := by rw [← hY]; positivity
  generalize hZ : |τ / σ - ρ ^ 2 / 2| = Z
  have hZ0 : 0 ≤ Z := by rw [← hZ]; positivity
  have hV0 : 0 ≤ τ ^ 2 * B := by positivity
  generalize τ ^ 2 * B = V at hV0
  generalize σ / τ = S at hστ
  have e : K * (1 + κ + L) * A * (S * (X + V + Y + Z) + I) - (S * (M * (X * κ + V + Y) + Z * M) + M * (L * I))
      = M * (S * (X + (κ + L) * (V + Y + Z) + L * X) + (1 + κ) * I) := by rw [hM]; ring
  have e0 : 0 ≤ M * (S * (X + (κ + L) * (V + Y + Z) + L * X) + (1 + κ) * I) := by positivity
  linarith

/-! ## Second moments -/

theorem Batches.mean_sq {u : ℝ → ℝ} (h : Batches ν u G Λ g₀) (x : ℝ) : u x ^ 2 ≤ Λ * (∫ β, g₀ β ∂ν + x ^ 2) := by
  have hm : Measurable fun β => G β x := h.meas.comp (measurable_id.prodMk measurable_const)
  have i1 : Integrable (fun β => Λ * (g₀ β + x ^ 2)) ν := (h.int.add (integrable_const _)).const_mul Λ
  have i2 : Integrable (fun β => G β x ^ 2) ν := i1.mono' (hm.pow_const 2).aestronglyMeasurable
    (.of_forall fun β => by rw [Real.norm_eq_abs, abs_of_nonneg (sq_nonneg _)]; exact h.growth β x)
  have h1 : ∫ β, G β x ^ 2 ∂ν ≤ Λ * (∫ β, g₀ β ∂ν + x ^ 2) := by
    refine (integral_mono i2 i1 fun β => h.growth β x).trans (le_of_eq ?_)
    rw [integral_const_mul, integral_add h.int (integrable_const _)]
    simp
  refine le_trans ?_ h1
  have h2 : 0 ≤ ∫ β, (G β x - u x) ^ 2 ∂ν := integral_nonneg fun β => sq_nonneg _
  have h3 : ∫ β, (G β x - u x) ^ 2 ∂ν = ∫ β, G β x ^ 2 ∂ν - u x ^ 2 := by
    have i3 : Integrable (fun β => 2 * u x * G β x) ν := (h.slice x).const_mul _
    have i4 : Integrable (fun β => G β x ^ 2 - 2 * u x * G β x) ν := i2.sub i3
    have e : (fun β => (G β x - u x) ^ 2) = fun β => G β x ^ 2 - 2 * u x * G β x + u x ^ 2 := by funext β; ring
    rw [e, integral_add i4 (integrable_const _), integral_sub i2 i3, integral_const_mul, h.mean]
    simp only [integral_const, probReal_univ, one_smul]
    ring
  linarith

/-- The balance of second moments of a quantity whose law does not change. -/
theorem second {u : ℝ → ℝ} {c : ℝ} (hG : Batches ν u G Λ g₀) (hu : Measurable u) (hq : Integrable (fun p : ℝ × ℝ => p.1 ^ 2) μ)
    (hx : Integrable (fun p : ℝ × ℝ => p.2 ^ 2) μ)
    (hinv : ((μ.prod ν).prod (gaussianReal 0 1)).map (fun w => c * w.1.1.1 + -τ * G w.1.2 w.1.1.2 + ρ * w.2) = μ.map Prod.fst) :
    Integrable (fun p : ℝ × ℝ => p.1 * u p.2) μ ∧
    (1 - c ^ 2) * ∫ p : ℝ × ℝ, p.1 ^ 2 ∂μ + 2 * c * τ * ∫ p : ℝ × ℝ, p.1 * u p.2 ∂μ
      ≤ τ ^ 2 * (Λ * (∫ β, g₀ β ∂ν + ∫ p : ℝ × ℝ, p.2 ^ 2 ∂μ)) + ρ ^ 2 := by
  set N := gaussianReal 0 1
  set W := μ.prod ν
  have mG : Measurable fun w : (ℝ × ℝ) × Bt => G w.2 w.1.2 := hG.meas.comp (measurable_snd.prodMk (measurable_snd.comp measurable_fst))
  have mq : Measurable fun w : (ℝ × ℝ) × Bt => w.1.1 := measurable_fst.comp measurable_fst
  obtain ⟨iG2, hG2⟩ := hG.sq_integrable hx
  have iqW : Integrable (fun w : (ℝ × ℝ) × Bt => w.1.1 ^ 2) W := hq.comp_fst ν
  have iqG : Integrable (fun w : (ℝ × ℝ) × Bt => w.1.1 * G w.2 w.1.2) W := by
    refine (iqW.add iG2).mono' (mq.mul mG).aestronglyMeasurable (.of_forall fun w => ?_)
    rw [Real.norm_eq_abs, abs_mul]
    simp only [Pi.add_apply]
    nlinarith [sq_nonneg (|w.1.1| - |G w.2 w.1.2|), sq_abs w.1.1, sq_abs (G w.2 w.1.2), sq_nonneg w.1.1, sq_nonneg (G w.2 w.1.2)]
  have e : ∀ p : ℝ × ℝ, ∫ β, p.1 * G β p.2 ∂ν = p.1 * u p.2 := fun p => by rw [integral_const_mul, hG.mean]
  have iqu : Integrable (fun p : ℝ × ℝ => p.1 * u p.2) μ := by
    have := iqG.integral_prod_left
    simpa only [e] using this
  have vqu : ∫ w : (ℝ × ℝ) × Bt, w.1.1 * G w.2 w.1.2 ∂W = ∫ p : ℝ × ℝ, p.1 * u p.2 ∂μ := by
    rw [integral_prod _ iqG]
    simp only [e]
  refine ⟨iqu, ?_⟩
  -- before the noise
  set y : (ℝ × ℝ) × Bt → ℝ := fun w => c * w.1.1 + -τ * G w.2 w.1.2 with hy
  have my : Measurable y := (mq.const_mul c).add (mG.const_mul (-τ))
  have iy2 : Integrable (fun w => y w ^ 2) W := by
    refine (((iqW.const_mul (c ^ 2)).sub (iqG.const_mul (2 * c * τ))).add (iG2.const_mul (τ ^ 2))).congr (.of_forall fun w => ?_)
    simp only [Pi.add_apply, Pi.sub_apply, hy]
    ring
  have vy2 : ∫ w, y w ^ 2 ∂W = c ^ 2 * ∫ p : ℝ × ℝ, p.1 ^ 2 ∂μ - 2 * c * τ * (∫ p : ℝ × ℝ, p.1 * u p.2 ∂μ)
      + τ ^ 2 * ∫ w : (ℝ × ℝ) × Bt, G w.2 w.1.2 ^ 2 ∂W := by
    have k1 : Integrable (fun w : (ℝ × ℝ) × Bt => c ^ 2 * w.1.1 ^ 2 - 2 * c * τ * (w.1.1 * G w.2 w.1.2)) W :=
      (iqW.const_mul (c ^ 2)).sub (iqG.const_mul (2 * c * τ))
    have k2 : (fun w => y w ^ 2) = fun w : (ℝ × ℝ) × Bt => c ^ 2 * w.1.1 ^ 2 - 2 * c * τ * (w.1.1 * G w.2 w.1.2) + τ ^ 2 * G w.2 w.1.2 ^ 2 := by
      funext w
      simp only [hy]
      ring
    have k3 : ∫ w : (ℝ × ℝ) × Bt, w.1.1 ^ 2 ∂W = ∫ p : ℝ × ℝ, p.1 ^ 2 ∂μ := by
      rw [integral_fun_fst (fun p : ℝ × ℝ => p.1 ^ 2)]; simp
    rw [k2, integral_add k1 (iG2.const_mul _), integral_sub (iqW.const_mul _) (iqG.const_mul _), integral_const_mul, integral_const_mul,
      integral_const_mul, vqu, k3]
  have iy : Integrable y W := by
    refine ((integrable_const 1).add iy2).mono' my.aestronglyMeasurable (.of_forall fun w => ?_)
    rw [Real.norm_eq_abs]
    simp only [Pi.add_apply]
    nlinarith [sq_nonneg (|y w| - 1), sq_abs (y w)]
  -- after the noise
  have mstep : Measurable fun w : ((ℝ × ℝ) × Bt) × ℝ => c * w.1.1.1 + -τ * G w.1.2 w.1.1.2 + ρ * w.2 :=
    (my.comp measurable_fst).add (measurable_snd.const_mul ρ)
  have h1 := integral_map mstep.aemeasurable (f := fun y : ℝ => y ^ 2) (continuous_pow 2).aestronglyMeasurable (μ := W.prod N)
  rw [hinv, integral_map measurable_fst.aemeasurable (continuous_pow 2).aestronglyMeasurable] at h1
  have j1 : Integrable (fun w : ((ℝ × ℝ) × Bt) × ℝ => y w.1 ^ 2) (W.prod N) := iy2.comp_fst N
  have j2 : Integrable (fun w : ((ℝ × ℝ) × Bt) × ℝ => y w.1 * (2 * ρ * w.2)) (W.prod N) := iy.mul_prod (gauss_id.1.const_mul (2 * ρ))
  have j3 : Integrable (fun w : ((ℝ × ℝ) × Bt) × ℝ => ρ ^ 2 * w.2 ^ 2) (W.prod N) := (gauss_sq.1.const_mul (ρ ^ 2)).comp_snd W
  have j12 : Integrable (fun w : ((ℝ × ℝ) × Bt) × ℝ => y w.1 ^ 2 + y w.1 * (2 * ρ * w.2)) (W.prod N) := j1.add j2
  have v1 : ∫ w : ((ℝ × ℝ) × Bt) × ℝ, y w.1 ^ 2 ∂W.prod N = ∫ w, y w ^ 2 ∂W := by
    rw [integral_fun_fst (fun w => y w ^ 2)]; simp
  have v2 : ∫ w : ((ℝ × ℝ) × Bt) × ℝ, y w.1 * (2 * ρ * w.2) ∂W.prod N = 0 := by
    rw [integral_prod_mul (μ := W) (ν := N) y (fun z : ℝ => 2 * ρ * z), integral_const_mul, gauss_id.2, mul_zero, mul_zero]
  have v3 : ∫ w : ((ℝ × ℝ) × Bt) × ℝ, ρ ^ 2 * w.2 ^ 2 ∂W.prod N = ρ ^ 2 := by
    rw [integral_fun_snd (fun z : ℝ => ρ ^ 2 * z ^ 2), integral_const_mul, gauss_sq.2]; simp
  have h2 : ∫ w : ((ℝ × ℝ) × Bt) × ℝ, (c * w.1.1.1 + -τ * G w.1.2 w.1.1.2 + ρ * w.2) ^ 2 ∂W.prod N = ∫ w, y w ^ 2 ∂W + ρ ^ 2 := by
    have k : (fun w : ((ℝ × ℝ) × Bt) × ℝ => (c * w.1.1.1 + -τ * G w.1.2 w.1.1.2 + ρ * w.2) ^ 2)
        = fun w => y w.1 ^ 2 + y w.1 * (2 * ρ * w.2) + ρ ^ 2 * w.2 ^ 2 := by
      funext w
      simp only [hy]
      ring
    rw [k, integral_add j12 j3, integral_add j1 j2, v1, v2, v3, add_zero]
  rw [h2, vy2] at h1
  have h3 := mul_le_mul_of_nonneg_left hG2 (sq_nonneg τ)
  linarith

end PySGMCMC.Stein
