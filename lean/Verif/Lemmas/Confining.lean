import Verif.Lemmas.HarrisForgets
import Verif.Lemmas.WeakError
import Mathlib.Probability.Distributions.Gaussian.Real
import Mathlib.MeasureTheory.Constructions.Pi
import Mathlib.MeasureTheory.Integral.Pi

/-!
# Langevin steps with gradients that confine
-/

open MeasureTheory ProbabilityTheory
namespace PySGMCMC.Harris
set_option linter.unusedSectionVars false

variable {J : Type*} [Fintype J] {Bt : Type*} [MeasurableSpace Bt] {ν : Measure Bt} [IsProbabilityMeasure ν]
  {G : Bt → (J → ℝ) → J → ℝ} {a b Λ : ℝ} {g : Bt → ℝ} {m s : J → ℝ} {t : ℝ}

/-! ## Common parts of normal laws -/

/-- Products of lower bounds are lower bounds of products. -/
theorem pi_minor {μ ρ : J → Measure ℝ} [∀ j, SigmaFinite (μ j)] {c : J → ENNReal} (h : ∀ j, c j • μ j ≤ ρ j) :
    (∏ j, c j) • Measure.pi μ ≤ Measure.pi ρ := by
  have h1 : ((∏ j, c j) • Measure.pi μ).toOuterMeasure ≤ OuterMeasure.pi fun j => (ρ j).toOuterMeasure := by
    rw [OuterMeasure.le_pi]
    intro S _
    have h2 : ((∏ j, c j) • Measure.pi μ) (Set.univ.pi S) = ∏ j, (c j • μ j) (S j) := by
      simp only [Measure.smul_apply, smul_eq_mul, Measure.pi_pi, Finset.prod_mul_distrib]
    exact h2.le.trans (Finset.prod_le_prod' fun j _ => h j (S j))
  refine Measure.le_iff.2 fun A hA => ?_
  refine (h1 A).trans (le_of_eq ?_)
  rw [Measure.pi, toMeasure_apply _ _ hA]

/-- The density of a normal law with mean in `[-M, M]` on the unit interval is at least this. -/
noncomputable def low (v : NNReal) (M : ℝ) : ℝ := (√(2 * Real.pi * v))⁻¹ * Real.exp (-(1 + M) ^ 2 / (2 * v))

theorem low_pos {v : NNReal} (hv : v ≠ 0) (M : ℝ) : 0 < low v M := by
  have : (0 : ℝ) < v := NNReal.coe_pos.2 (pos_iff_ne_zero.2 hv)
  unfold low
  have := Real.pi_pos
  positivity

theorem gauss_minor {c M : ℝ} {v : NNReal} (hv : v ≠ 0) (hc : |c| ≤ M) :
    ENNReal.ofReal (low v M) • (volume.restrict (Set.Icc 0 1)) ≤ gaussianReal c v := by
  refine Measure.le_iff.2 fun A hA => ?_
  rw [gaussianReal_apply _ hv, Measure.smul_apply, smul_eq_mul, Measure.restrict_apply hA]
  calc ENNReal.ofReal (low v M) * volume (A ∩ Set.Icc 0 1) = ∫⁻ _ in A ∩ Set.Icc 0 1, ENNReal.ofReal (low v M) := by
        rw [setLIntegral_const]
    _ ≤ ∫⁻ x in A ∩ Set.Icc 0 1, gaussianPDF c v x := by
        refine setLIntegral_mono (measurable_gaussianPDF c v) fun x hx => ENNReal.ofReal_le_ofReal ?_
        have hx1 := hx.2.1
        have hx2 := hx.2.2
        have hc' := abs_le.1 hc
        unfold low gaussianPDFReal
        have : (x - c) ^ 2 ≤ (1 + M) ^ 2 := sq_le_sq' (by linarith) (by linarith)
        have : -(1 + M) ^ 2 / (2 * (v : ℝ)) ≤ -(x - c) ^ 2 / (2 * v) := div_le_div_of_nonneg_right (by linarith) (by positivity)
        exact mul_le_mul_of_nonneg_left (Real.exp_le_exp.2 this) (by positivity)
    _ ≤ ∫⁻ x in A, gaussianPDF c v x := lintegral_mono_set Set.inter_subset_left

/-- The uniform law on the unit cube. -/
noncomputable def cube (J : Type*) [Fintype J] : Measure (J → ℝ) := Measure.pi fun _ => volume.restrict (Set.Icc (0 : ℝ) 1)

instance : IsProbabilityMeasure (volume.restrict (Set.Icc (0 : ℝ) 1)) := ⟨by simp⟩
instance : IsProbabilityMeasure (cube J) := by unfold cube; infer_instance

/-- Independent normal draws. -/
noncomputable abbrev gauss (J : Type*) [Fintype J] : Measure (J → ℝ) := Measure.pi fun _ => gaussianReal 0 1

/-- The variance of `s z`. -/
noncomputable def var (s : ℝ) : NNReal := .mk (s ^ 2) (sq_nonneg _)

theorem var_ne {s : ℝ} (hs : s ≠ 0) : var s ≠ 0 := by
  rw [var, ne_eq, ← NNReal.coe_inj]
  simpa using hs

theorem shift_minor {c s M : J → ℝ} (hs : ∀ j, s j ≠ 0) (hc : ∀ j, |c j| ≤ M j) :
    ENNReal.ofReal (∏ j, low (var (s j)) (M j)) • cube J ≤ (gauss J).map fun z j => c j + s j * z j := by
  have hmap : ∀ j, (gaussianReal 0 1).map (fun z => c j + s j * z) = gaussianReal (c j) (var (s j)) := fun j => by
    have h1 : (fun z => c j + s j * z) = (c j + ·) ∘ (s j * ·) := rfl
    rw [h1, ← Measure.map_map (by fun_prop) (by fun_prop), gaussianReal_map_const_mul, gaussianReal_map_const_add]
    simp [var]
  have h2 := Measure.pi_map_pi (μ := fun _ : J => gaussianReal 0 1) (f := fun j z => c j + s j * z)
    (hμ := fun j => by rw [hmap]; infer_instance) fun j => by fun_prop
  rw [gauss, h2]
  simp only [hmap]
  rw [ENNReal.ofReal_prod_of_nonneg fun j _ => (low_pos (var_ne (hs j)) _).le]
  exact pi_minor fun j => gauss_minor (var_ne (hs j)) (hc j)

/-! ## Gradients that confine -/

/-- Minibatch gradients of at most linear growth that on average point away from the origin at large distances.  The cost need not be
convex. -/
structure Confining (ν : Measure Bt) (G : Bt → (J → ℝ) → J → ℝ) (a b Λ : ℝ) (g : Bt → ℝ) : Prop where
  meas : Measurable fun q : Bt × (J → ℝ) => G q.1 q.2
  growth : ∀ β x, ∑ j, G β x j ^ 2 ≤ Λ * (g β + ∑ j, x j ^ 2)
  nonneg : ∀ β, 0 ≤ g β
  int : Integrable g ν
  pos : 0 < a
  slack : 0 ≤ b
  bound : 0 < Λ
  inward : ∀ x, a * ∑ j, x j ^ 2 - b ≤ ∫ β, ∑ j, x j * G β x j ∂ν

/-- A step of SGLD. -/
def langevin (G : Bt → (J → ℝ) → J → ℝ) (m s : J → ℝ) (t : ℝ) (x : J → ℝ) (q : Bt × (J → ℝ)) : J → ℝ :=
  fun j => x j - t * m j * G q.1 x j + s j * q.2 j

namespace Confining

theorem measurable_langevin (h : Confining ν G a b Λ g) : Measurable fun q : (J → ℝ) × (Bt × (J → ℝ)) => langevin G m s t q.1 q.2 := by
  have hp : Measurable fun q : (J → ℝ) × (Bt × (J → ℝ)) => (q.2.1, q.1) := (measurable_fst.comp measurable_snd).prodMk measurable_fst
  have hG : Measurable fun q : (J → ℝ) × (Bt × (J → ℝ)) => G q.2.1 q.1 := h.meas.comp hp
  refine measurable_pi_iff.2 fun j => ?_
  have h1 : Measurable fun q : (J → ℝ) × (Bt × (J → ℝ)) => G q.2.1 q.1 j := (measurable_pi_apply j).comp hG
  have h2 : Measurable fun q : (J → ℝ) × (Bt × (J → ℝ)) => q.1 j := (measurable_pi_apply j).comp measurable_fst
  have h3 : Measurable fun q : (J → ℝ) × (Bt × (J → ℝ)) => q.2.2 j := (measurable_pi_apply j).comp (measurable_snd.comp measurable_snd)
  exact (h2.sub (h1.const_mul _)).add (h3.const_mul _)

theorem abs_le_of (h : Confining ν G a b Λ g) {r M : ℝ} {x : J → ℝ} {β : Bt} (hx : ∑ j, x j ^ 2 ≤ r) (hβ : g β ≤ M) (j : J) :
    |G β x j| ≤ √(Λ * (M + r)) := by
  refine Real.abs_le_sqrt ?_
  refine (Finset.single_le_sum (f := fun j => G β x j ^ 2) (fun j _ => sq_nonneg _) (Finset.mem_univ j)).trans ((h.growth β x).trans ?_)
  exact mul_le_mul_of_nonneg_left (add_le_add hβ hx) h.bound.le

/-- Half of the batches are not extreme. -/
theorem typical (h : Confining ν G a b Λ g) : ENNReal.ofReal (1 / 2) ≤ ν {β | g β ≤ 2 * ∫ β, g β ∂ν + 1} := by
  have hI : 0 ≤ ∫ β, g β ∂ν := integral_nonneg h.nonneg
  have hmk := mul_meas_ge_le_integral_of_nonneg (ae_of_all _ h.nonneg) h.int (2 * ∫ β, g β ∂ν + 1)
  have h1 : ν.real {β | 2 * ∫ β, g β ∂ν + 1 ≤ g β} ≤ 1 / 2 := by
    have : 0 ≤ ν.real {β | 2 * ∫ β, g β ∂ν + 1 ≤ g β} := measureReal_nonneg
    by_contra hc
    push Not at hc
    nlinarith
  have h2 : 1 ≤ ν.real {β | g β ≤ 2 * ∫ β, g β ∂ν + 1} + ν.real {β | 2 * ∫ β, g β ∂ν + 1 ≤ g β} := by
    refine le_trans (le_of_eq ?_) (measureReal_union_le _ _)
    rw [show {β | g β ≤ 2 * ∫ β, g β ∂ν + 1} ∪ {β | 2 * ∫ β, g β ∂ν + 1 ≤ g β} = Set.univ from
      Set.eq_univ_of_forall fun β => le_total (g β) _]
    exact probReal_univ.symm
  refine ENNReal.ofReal_le_of_le_toReal ?_
  change 1 / 2 ≤ ν.real _
  linarith

/-- The common part of steps from a ball: `x` is where the gradient is taken, `c` the center of the step. -/
theorem minor (h : Confining ν G a b Λ g) (hs : ∀ j, s j ≠ 0) (r M₀ : ℝ) : ∃ δ > 0, ∀ c x : J → ℝ, (∀ j, |c j| ≤ M₀) → ∑ j, x j ^ 2 ≤ r →
    ENNReal.ofReal δ • cube J ≤ (ν.prod (gauss J)).map fun q j => c j - t * m j * G q.1 x j + s j * q.2 j := by
  set M := 2 * ∫ β, g β ∂ν + 1 with hM
  set p := ∏ j, low (var (s j)) (M₀ + |t * m j| * √(Λ * (M + r))) with hp
  have hp0 : 0 < p := Finset.prod_pos fun j _ => low_pos (var_ne (hs j)) _
  refine ⟨1 / 2 * p, by positivity, fun c x hc hx => ?_⟩
  set Φ : Bt × (J → ℝ) → J → ℝ := fun q j => c j - t * m j * G q.1 x j + s j * q.2 j with hΦ
  have hmΨ : Measurable Φ := by
    have hG : Measurable fun q : Bt × (J → ℝ) => G q.1 x := h.meas.comp (measurable_fst.prodMk measurable_const)
    refine measurable_pi_iff.2 fun j => ?_
    have h1 : Measurable fun q : Bt × (J → ℝ) => G q.1 x j := (measurable_pi_apply j).comp hG
    have h3 : Measurable fun q : Bt × (J → ℝ) => q.2 j := (measurable_pi_apply j).comp measurable_snd
    exact (measurable_const.sub (h1.const_mul _)).add (h3.const_mul _)
  refine Measure.le_iff.2 fun A hA => ?_
  rw [Measure.map_apply hmΨ hA, Measure.prod_apply (hmΨ hA), Measure.smul_apply, smul_eq_mul]
  have hpt : ∀ β, g β ≤ M → ENNReal.ofReal p * cube J A ≤ gauss J (Prod.mk β ⁻¹' (Φ ⁻¹' A)) := fun β hβ => by
    have h1 := shift_minor (c := fun j => c j - t * m j * G β x j) (M := fun j => M₀ + |t * m j| * √(Λ * (M + r))) hs (fun j => by
      refine (abs_sub _ _).trans (add_le_add (hc j) ?_)
      rw [abs_mul]
      exact mul_le_mul_of_nonneg_left (h.abs_le_of hx hβ j) (abs_nonneg _)) A
    rw [Measure.map_apply (by fun_prop) hA] at h1
    exact h1
  have hmp : Measurable fun β => gauss J (Prod.mk β ⁻¹' (Φ ⁻¹' A)) := measurable_measure_prodMk_left (hmΨ hA)
  calc ENNReal.ofReal (1 / 2 * p) * cube J A = ENNReal.ofReal (1 / 2) * (ENNReal.ofReal p * cube J A) := by
        rw [ENNReal.ofReal_mul (by norm_num), mul_assoc]
    _ ≤ ν {β | g β ≤ M} * (ENNReal.ofReal p * cube J A) := mul_le_mul_left h.typical _
    _ = ∫⁻ _ in {β | g β ≤ M}, ENNReal.ofReal p * cube J A ∂ν := by rw [setLIntegral_const, mul_comm]
    _ ≤ ∫⁻ β in {β | g β ≤ M}, gauss J (Prod.mk β ⁻¹' (Φ ⁻¹' A)) ∂ν := setLIntegral_mono hmp fun β hβ => hpt β hβ
    _ ≤ _ := setLIntegral_le_lintegral _ _

/-! ## The energy decreases on average -/

theorem gauss_sq (j : J) : Integrable (fun z : J → ℝ => z j ^ 2) (gauss J) ∧ ∫ z : J → ℝ, z j ^ 2 ∂gauss J = 1 := by
  classical
  have h : ∫ z : J → ℝ, z j ^ 2 ∂gauss J = 1 := by
    have := (Recipe.unitNoise_gauss (J := J)).cov j j
    simpa only [if_true, pow_two] using this
  exact ⟨Integrable.of_integral_ne_zero (by rw [h]; exact one_ne_zero), h⟩

theorem gauss_id (j : J) : Integrable (fun z : J → ℝ => z j) (gauss J) ∧ ∫ z : J → ℝ, z j ∂gauss J = 0 := by
  classical
  refine ⟨((integrable_const (1 : ℝ)).add (gauss_sq j).1).mono' (measurable_pi_apply j).aestronglyMeasurable (ae_of_all _ fun z => ?_),
    (Recipe.unitNoise_gauss (J := J)).mean j⟩
  simp only [Pi.add_apply, Real.norm_eq_abs]
  exact abs_le.2 ⟨by nlinarith [sq_nonneg (z j + 1)], by nlinarith [sq_nonneg (z j - 1)]⟩

/-- The second moment of a step. -/
theorem noise_moment {c : Bt → ℝ} (hc : Integrable c ν) (hc2 : Integrable (fun β => c β ^ 2) ν) (σ : ℝ) (j : J) :
    Integrable (fun q : Bt × (J → ℝ) => (c q.1 + σ * q.2 j) ^ 2) (ν.prod (gauss J)) ∧
      ∫ q : Bt × (J → ℝ), (c q.1 + σ * q.2 j) ^ 2 ∂ν.prod (gauss J) = ∫ β, c β ^ 2 ∂ν + σ ^ 2 := by
  have e1 : (fun q : Bt × (J → ℝ) => (c q.1 + σ * q.2 j) ^ 2) = fun q => c q.1 ^ 2 * 1 + (2 * σ * (c q.1 * q.2 j) + σ ^ 2 * (1 * q.2 j ^ 2)) := by
    funext q; ring
  have i1 : Integrable (fun q : Bt × (J → ℝ) => c q.1 ^ 2 * 1) (ν.prod (gauss J)) := hc2.mul_prod (integrable_const (1 : ℝ))
  have i2 : Integrable (fun q : Bt × (J → ℝ) => c q.1 * q.2 j) (ν.prod (gauss J)) := hc.mul_prod (gauss_id j).1
  have i3 : Integrable (fun q : Bt × (J → ℝ) => 1 * q.2 j ^ 2) (ν.prod (gauss J)) := (integrable_const (1 : ℝ)).mul_prod (gauss_sq j).1
  have i4 : Integrable (fun q : Bt × (J → ℝ) => 2 * σ * (c q.1 * q.2 j) + σ ^ 2 * (1 * q.2 j ^ 2)) (ν.prod (gauss J)) :=
    (i2.const_mul _).add (i3.const_mul _)
  rw [e1]
  refine ⟨i1.add i4, ?_⟩
  rw [integral_add i1 i4, integral_add (i2.const_mul _) (i3.const_mul _), integral_const_mul, integral_const_mul,
    integral_prod_mul (fun β => c β ^ 2) (fun _ : J → ℝ => (1 : ℝ)), integral_prod_mul c (fun z : J → ℝ => z j),
    integral_prod_mul (fun _ : Bt => (1 : ℝ)) (fun z : J → ℝ => z j ^ 2), (gauss_id j).2, (gauss_sq j).2]
  simp

/-- The distance to the origin, weighted with the masses. -/
noncomputable def energy (m : J → ℝ) (x : J → ℝ) : ℝ := ∑ j, x j ^ 2 / m j

theorem energy_nonneg (hm : ∀ j, 0 < m j) (x : J → ℝ) : 0 ≤ energy m x := Finset.sum_nonneg fun j _ => div_nonneg (sq_nonneg _) (hm j).le

theorem measurable_energy : Measurable (energy m) := by unfold energy; fun_prop

theorem integrable_sq (h : Confining ν G a b Λ g) (x : J → ℝ) (j : J) : Integrable (fun β => G β x j ^ 2) ν := by
  have hm : Measurable fun β => G β x := h.meas.comp (by fun_prop : Measurable fun β : Bt => (β, x))
  have hj : Measurable fun β => G β x j := (measurable_pi_apply j).comp hm
  refine ((h.int.add (integrable_const (∑ j, x j ^ 2))).const_mul Λ).mono' (hj.pow_const 2).aestronglyMeasurable (ae_of_all _ fun β => ?_)
  rw [Real.norm_eq_abs, abs_of_nonneg (sq_nonneg _)]
  exact (Finset.single_le_sum (f := fun j => G β x j ^ 2) (fun j _ => sq_nonneg _) (Finset.mem_univ j)).trans (h.growth β x)

theorem integrable_G (h : Confining ν G a b Λ g) (x : J → ℝ) (j : J) : Integrable (fun β => G β x j) ν := by
  have hm : Measurable fun β => G β x := h.meas.comp (by fun_prop : Measurable fun β : Bt => (β, x))
  have hj : Measurable fun β => G β x j := (measurable_pi_apply j).comp hm
  refine ((integrable_const (1 : ℝ)).add (h.integrable_sq x j)).mono' hj.aestronglyMeasurable (ae_of_all _ fun β => ?_)
  simp only [Pi.add_apply, Real.norm_eq_abs]
  exact abs_le.2 ⟨by nlinarith [sq_nonneg (G β x j + 1)], by nlinarith [sq_nonneg (G β x j - 1)]⟩

/-- The energy of a step on average: `x` is where the gradient is taken, `c` the center of the step. -/
theorem energy_step (h : Confining ν G a b Λ g) (hm : ∀ j, 0 < m j) (c x : J → ℝ) :
    Integrable (fun q => energy m fun j => c j - t * m j * G q.1 x j + s j * q.2 j) (ν.prod (gauss J)) ∧
      ∫ q, energy m (fun j => c j - t * m j * G q.1 x j + s j * q.2 j) ∂ν.prod (gauss J)
        = energy m c - 2 * t * ∫ β, ∑ j, c j * G β x j ∂ν + t ^ 2 * ∑ j, m j * ∫ β, G β x j ^ 2 ∂ν + ∑ j, s j ^ 2 / m j := by
  have hc : ∀ j, Integrable (fun β => c j - t * m j * G β x j) ν := fun j => (integrable_const _).sub ((h.integrable_G x j).const_mul _)
  have esq : ∀ j, (fun β => (c j - t * m j * G β x j) ^ 2) = fun β => c j ^ 2 + ((-(2 * t * m j * c j)) * G β x j + (t * m j) ^ 2 * G β x j ^ 2) := fun j => by
    funext β; ring
  have hi2 : ∀ j, Integrable (fun β => (-(2 * t * m j * c j)) * G β x j + (t * m j) ^ 2 * G β x j ^ 2) ν := fun j =>
    ((h.integrable_G x j).const_mul _).add ((h.integrable_sq x j).const_mul _)
  have hc2 : ∀ j, Integrable (fun β => (c j - t * m j * G β x j) ^ 2) ν := fun j => by
    rw [esq]
    exact (integrable_const _).add (hi2 j)
  have hv : ∀ j, ∫ β, (c j - t * m j * G β x j) ^ 2 ∂ν = c j ^ 2 - 2 * t * m j * c j * ∫ β, G β x j ∂ν + (t * m j) ^ 2 * ∫ β, G β x j ^ 2 ∂ν := fun j => by
    rw [esq, integral_add (integrable_const _) (hi2 j), integral_add ((h.integrable_G x j).const_mul _) ((h.integrable_sq x j).const_mul _),
      integral_const_mul, integral_const_mul]
    simp only [integral_const, probReal_univ, one_smul]
    ring
  have hterm := fun j => noise_moment (hc j) (hc2 j) (s j) j
  have hii : ∀ j, Integrable (fun q : Bt × (J → ℝ) => (c j - t * m j * G q.1 x j + s j * q.2 j) ^ 2 / m j) (ν.prod (gauss J)) := fun j =>
    (hterm j).1.div_const _
  refine ⟨integrable_finsetSum _ fun j _ => hii j, ?_⟩
  unfold energy
  rw [integral_finsetSum _ fun j _ => hii j]
  simp only [integral_div, (hterm _).2, hv]
  rw [integral_finsetSum _ fun j _ => (h.integrable_G x j).const_mul (c j)]
  simp only [integral_const_mul]
  rw [Finset.mul_sum, Finset.mul_sum, ← Finset.sum_sub_distrib, ← Finset.sum_add_distrib, ← Finset.sum_add_distrib]
  refine Finset.sum_congr rfl fun j _ => ?_
  have := (hm j).ne'
  field_simp

/-- How fast the energy decreases, and how much noise adds to it. -/
noncomputable def decay (a t lo : ℝ) : ℝ := max 0 (1 - t * a * lo)
noncomputable def heat (ν : Measure Bt) (g : Bt → ℝ) (a b t : ℝ) (m s : J → ℝ) : ℝ := t * (2 * b + a * ∫ β, g β ∂ν) + ∑ j, s j ^ 2 / m j

theorem sq_le_energy {hi : ℝ} (hm : ∀ j, 0 < m j) (hhi : ∀ j, m j ≤ hi) (x : J → ℝ) : ∑ j, x j ^ 2 ≤ hi * energy m x := by
  unfold energy
  rw [Finset.mul_sum]
  refine Finset.sum_le_sum fun j _ => ?_
  rw [mul_div_assoc', le_div_iff₀ (hm j), mul_comm]
  exact mul_le_mul_of_nonneg_right (hhi j) (sq_nonneg _)

theorem energy_le_sq {lo : ℝ} (hm : ∀ j, 0 < m j) (hlo : ∀ j, lo ≤ m j) (x : J → ℝ) : lo * energy m x ≤ ∑ j, x j ^ 2 := by
  unfold energy
  rw [Finset.mul_sum]
  refine Finset.sum_le_sum fun j _ => ?_
  rw [mul_div_assoc', div_le_iff₀ (hm j), mul_comm]
  exact mul_le_mul_of_nonneg_left (hlo j) (sq_nonneg _)

theorem grad_le (h : Confining ν G a b Λ g) {τ a' : ℝ} (ha' : 0 ≤ a') (hst : ∀ j, τ * m j * Λ ≤ a') (x : J → ℝ) :
    τ * ∑ j, m j * ∫ β, G β x j ^ 2 ∂ν ≤ a' * (∫ β, g β ∂ν + ∑ j, x j ^ 2) := by
  have h3 : ∑ j, Λ * (τ * m j) * ∫ β, G β x j ^ 2 ∂ν ≤ ∑ j, a' * ∫ β, G β x j ^ 2 ∂ν := Finset.sum_le_sum fun j _ =>
    mul_le_mul_of_nonneg_right (by linarith [hst j]) (integral_nonneg fun β => sq_nonneg _)
  have h4 : ∑ j, ∫ β, G β x j ^ 2 ∂ν ≤ Λ * (∫ β, g β ∂ν + ∑ j, x j ^ 2) := by
    rw [← integral_finsetSum _ fun j _ => h.integrable_sq x j]
    refine (integral_mono (integrable_finsetSum _ fun j _ => h.integrable_sq x j)
      ((h.int.add (integrable_const (∑ j, x j ^ 2))).const_mul Λ) fun β => h.growth β x).trans (le_of_eq ?_)
    simp only [Pi.add_apply]
    rw [integral_const_mul, integral_add h.int (integrable_const _)]
    simp
  rw [← Finset.mul_sum] at h3
  have h5 : ∑ j, Λ * (τ * m j) * ∫ β, G β x j ^ 2 ∂ν = Λ * (τ * ∑ j, m j * ∫ β, G β x j ^ 2 ∂ν) := by
    rw [Finset.mul_sum, Finset.mul_sum]
    exact Finset.sum_congr rfl fun j _ => by ring
  rw [h5] at h3
  have h6 : Λ * (τ * ∑ j, m j * ∫ β, G β x j ^ 2 ∂ν) ≤ Λ * (a' * (∫ β, g β ∂ν + ∑ j, x j ^ 2)) :=
    h3.trans ((mul_le_mul_of_nonneg_left h4 ha').trans (le_of_eq (by ring)))
  exact le_of_mul_le_mul_left h6 h.bound

theorem energy_drift (h : Confining ν G a b Λ g) {lo : ℝ} (hlo : ∀ j, lo ≤ m j) (hm : ∀ j, 0 < m j) (ht : 0 < t)
    (hst : ∀ j, t * m j * Λ ≤ a) (x : J → ℝ) :
    ∫ q, energy m (langevin G m s t x q) ∂ν.prod (gauss J) ≤ decay a t lo * energy m x + heat ν g a b t m s := by
  have hE : ∫ q, energy m (langevin G m s t x q) ∂ν.prod (gauss J) = _ := (h.energy_step hm x x).2
  rw [hE]
  have h1 := mul_le_mul_of_nonneg_left (h.inward x) (by linarith : 0 ≤ 2 * t)
  have h2 := mul_le_mul_of_nonneg_left (h.grad_le h.pos.le hst x) ht.le
  have h8 := mul_le_mul_of_nonneg_left (energy_le_sq hm hlo x) (mul_nonneg ht.le h.pos.le)
  have h9 : (1 - t * a * lo) * energy m x ≤ decay a t lo * energy m x := mul_le_mul_of_nonneg_right (le_max_right _ _) (energy_nonneg hm x)
  unfold heat
  linarith

theorem decay_lt {lo : ℝ} (ha : 0 < a) (ht : 0 < t) (hlo : 0 < lo) : decay a t lo < 1 :=
  max_lt zero_lt_one (by have := mul_pos (mul_pos ht ha) hlo; linarith)

theorem heat_nonneg (h : Confining ν G a b Λ g) (hm : ∀ j, 0 < m j) (ht : 0 < t) : 0 ≤ heat ν g a b t m s := by
  have h1 : 0 ≤ ∫ β, g β ∂ν := integral_nonneg h.nonneg
  have h2 : 0 ≤ ∑ j, s j ^ 2 / m j := Finset.sum_nonneg fun j _ => div_nonneg (sq_nonneg _) (hm j).le
  have := h.pos.le
  have := h.slack
  unfold heat
  positivity

/-- Steps of SGLD drift to where the energy is small. -/
theorem moves (h : Confining ν G a b Λ g) {lo : ℝ} (hlo0 : 0 < lo) (hlo : ∀ j, lo ≤ m j) (ht : 0 < t) (hst : ∀ j, t * m j * Λ ≤ a) :
    Moves (ν.prod (gauss J)) (langevin G m s t) (energy m) (decay a t lo) (heat ν g a b t m s) where
  meas := h.measurable_langevin
  measV := measurable_energy
  nonneg := energy_nonneg fun j => hlo0.trans_le (hlo j)
  int x := (h.energy_step (fun j => hlo0.trans_le (hlo j)) x x).1
  drift := h.energy_drift hlo (fun j => hlo0.trans_le (hlo j)) ht hst
  gamma := le_max_left _ _
  lt_one := decay_lt h.pos ht hlo0
  pos := h.heat_nonneg (fun j => hlo0.trans_le (hlo j)) ht

theorem small (h : Confining ν G a b Λ g) {hi : ℝ} (hm : ∀ j, 0 < m j) (hhi : ∀ j, m j ≤ hi) (hhi0 : 0 ≤ hi) (hs : ∀ j, s j ≠ 0) :
    Small (ν.prod (gauss J)) (langevin G m s t) (energy m) := fun R => by
  obtain ⟨δ, hδ, hmin⟩ := h.minor (m := m) (t := t) hs (hi * R) √(hi * R)
  refine ⟨δ, hδ, cube J, inferInstance, fun x hx => ?_⟩
  have h1 : ∑ j, x j ^ 2 ≤ hi * R := (sq_le_energy hm hhi x).trans (mul_le_mul_of_nonneg_left hx hhi0)
  refine hmin x x (fun j => Real.abs_le_sqrt ?_) h1
  exact (Finset.single_le_sum (f := fun j => x j ^ 2) (fun j _ => sq_nonneg _) (Finset.mem_univ j)).trans h1

theorem bounds (m : J → ℝ) (hm : ∀ j, 0 < m j) : ∃ lo hi, 0 < lo ∧ (∀ j, lo ≤ m j) ∧ (∀ j, m j ≤ hi) ∧ 1 ≤ hi := by
  refine ⟨(1 + ∑ j, (m j)⁻¹)⁻¹, 1 + ∑ j, m j, ?_, fun j => ?_, fun j => ?_, ?_⟩
  · have : 0 ≤ ∑ j, (m j)⁻¹ := Finset.sum_nonneg fun j _ => (inv_pos.2 (hm j)).le
    positivity
  · have h1 := Finset.single_le_sum (f := fun j => (m j)⁻¹) (fun j _ => (inv_pos.2 (hm j)).le) (Finset.mem_univ j)
    exact inv_le_of_inv_le₀ (hm j) (by linarith)
  · have := Finset.single_le_sum (f := fun j => m j) (fun j _ => (hm j).le) (Finset.mem_univ j)
    linarith
  · have : 0 ≤ ∑ j, m j := Finset.sum_nonneg fun j _ => (hm j).le
    linarith

/-- SGLD forgets where it started, and averages over its samples converge. -/
theorem forgets (h : Confining ν G a b Λ g) (hm : ∀ j, 0 < m j) (ht : 0 < t) (hst : ∀ j, t * m j * Λ ≤ a) (hs : ∀ j, s j ≠ 0) :
    ∃ (π : Measure (J → ℝ)) (C ρ : ℝ), IsProbabilityMeasure π ∧ law (ν.prod (gauss J)) (langevin G m s t) π = π
      ∧ Integrable (fun x => ∑ j, x j ^ 2) π ∧ 0 ≤ C ∧ 0 ≤ ρ ∧ ρ < 1
      ∧ ∀ {Ω : Type} [MeasurableSpace Ω] (P : Measure Ω) [IsProbabilityMeasure P] (ζ : Nat → Ω → Bt × (J → ℝ)) (X : Nat → Ω → J → ℝ) (x₀ : J → ℝ),
        (∀ k, Measurable (ζ k)) → iIndepFun ζ P → (∀ k, P.map (ζ k) = ν.prod (gauss J)) → (∀ ω, X 0 ω = x₀) →
        (∀ k ω, X (k + 1) ω = langevin G m s t (X k ω) (ζ k ω)) → ∀ {f : (J → ℝ) → ℝ} {A : ℝ}, Measurable f → 0 ≤ A →
        ((∀ x, |f x| ≤ A * (1 + ∑ j, x j ^ 2)) → ∀ k, Integrable (fun ω => f (X k ω)) P ∧
          |∫ ω, f (X k ω) ∂P - ∫ x, f x ∂π| ≤ A * (C * (1 + ∑ j, x₀ j ^ 2)) * ρ ^ k)
        ∧ ((∀ x, |f x| ≤ A * (1 + √(∑ j, x j ^ 2))) → ∀ {I : Finset Nat}, I.Nonempty →
          Integrable (fun ω => ((∑ k ∈ I, f (X k ω)) / I.card - ∫ x, f x ∂π) ^ 2) P ∧
          ∫ ω, ((∑ k ∈ I, f (X k ω)) / I.card - ∫ x, f x ∂π) ^ 2 ∂P ≤ A ^ 2 * (C * (1 + ∑ j, x₀ j ^ 2)) / I.card) := by
  obtain ⟨lo, hi, hlo0, hlo, hhi, hhi1⟩ := bounds m hm
  have M := h.moves (s := s) hlo0 hlo ht hst
  have S := h.small (t := t) hm hhi (zero_le_one.trans hhi1) hs
  obtain ⟨_, _, _, D⟩ := M.mixes S
  obtain ⟨_, _, _, D'⟩ := M.sqrt.mixes (S.sqrt (energy_nonneg hm))
  exact D.forgets D' (Finset.measurable_fun_sum _ fun j _ => (measurable_pi_apply j).pow_const 2) (fun x => Finset.sum_nonneg fun j _ => sq_nonneg _)
    hlo0 hhi1 (sq_le_energy hm hhi) (energy_le_sq hm hlo)

end Confining
end PySGMCMC.Harris
