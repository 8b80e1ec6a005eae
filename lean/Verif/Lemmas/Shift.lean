import Verif.Lemmas.Confining
import Verif.Lemmas.QuadraticMoments

/-!
# Shifted normal draws

The density of independent normal draws, and what averages over shifted draws have to do with averages over draws.
-/

open MeasureTheory ProbabilityTheory
namespace PySGMCMC.Harris
open Recipe

variable {J : Type*} [Fintype J]

/-- The logarithm of the density of `c + s z`, up to its sign. -/
noncomputable def well (c s y : J → ℝ) : ℝ := ∑ j, ((y j - c j) ^ 2 / (2 * s j ^ 2) + Real.log √(2 * Real.pi * s j ^ 2))

theorem gauss_map {c s : ℝ} : (gaussianReal 0 1).map (fun z => c + s * z) = gaussianReal c (var s) := by
  have h1 : (fun z => c + s * z) = (c + ·) ∘ (s * ·) := rfl
  rw [h1, ← Measure.map_map (by fun_prop) (by fun_prop), gaussianReal_map_const_mul, gaussianReal_map_const_add]
  simp [var]

theorem pdf_eq {c s y : ℝ} (hs : s ≠ 0) :
    gaussianPDFReal c (var s) y = Real.exp (-((y - c) ^ 2 / (2 * s ^ 2) + Real.log √(2 * Real.pi * s ^ 2))) := by
  have h0 : 0 < √(2 * Real.pi * s ^ 2) := Real.sqrt_pos.2 (by have := Real.pi_pos; positivity)
  unfold gaussianPDFReal
  rw [neg_add, Real.exp_add, Real.exp_neg (Real.log _), Real.exp_log h0, mul_comm, neg_div]
  rfl

/-- Scaled and shifted normal draws have a density. -/
theorem shift_boltz {c s : J → ℝ} (hs : ∀ j, s j ≠ 0) : (gauss J).map (fun z j => c j + s j * z j) = boltz (well c s) := by
  have h2 := Measure.pi_map_pi (μ := fun _ : J => gaussianReal 0 1) (f := fun j z => c j + s j * z)
    (hμ := fun j => by rw [gauss_map]; infer_instance) fun j => by fun_prop
  rw [gauss, h2]
  simp only [gauss_map]
  have hv : ∀ j, var (s j) ≠ 0 := fun j => var_ne (hs j)
  refine Measure.pi_eq fun S hS => ?_
  set F : J → ℝ → ℝ := fun j => (S j).indicator (gaussianPDFReal (c j) (var (s j))) with hF
  have hF0 : ∀ j y, 0 ≤ F j y := fun j y => Set.indicator_nonneg (fun y _ => gaussianPDFReal_nonneg _ _ y) y
  have hint : ∀ j, Integrable (F j) volume := fun j => (integrable_gaussianPDFReal _ _).indicator (hS j)
  have e1 : ∀ y : J → ℝ, ENNReal.ofReal (∏ j, F j (y j)) = (Set.univ.pi S).indicator (fun y => ENNReal.ofReal (Real.exp (-well c s y))) y := fun y => by
    by_cases hy : y ∈ Set.univ.pi S
    · rw [Set.indicator_of_mem hy]
      congr 1
      unfold well
      rw [← Finset.sum_neg_distrib, Real.exp_sum]
      refine Finset.prod_congr rfl fun j _ => ?_
      rw [hF]
      simp only
      rw [Set.indicator_of_mem (hy j (Set.mem_univ j)), pdf_eq (hs j)]
    · rw [Set.indicator_of_notMem hy]
      simp only [Set.mem_pi, Set.mem_univ, true_imp_iff, not_forall] at hy
      obtain ⟨j, hj⟩ := hy
      rw [Finset.prod_eq_zero (Finset.mem_univ j) (Set.indicator_of_notMem hj _), ENNReal.ofReal_zero]
  have hmS : MeasurableSet (Set.univ.pi S) := MeasurableSet.univ_pi hS
  unfold boltz
  rw [withDensity_apply _ hmS, ← lintegral_indicator hmS]
  simp only [← e1]
  have hprod : Integrable (fun y : J → ℝ => ∏ j, F j (y j)) volume := Integrable.fintype_prod hint
  rw [← ofReal_integral_eq_lintegral_ofReal hprod (.of_forall fun y => Finset.prod_nonneg fun j _ => hF0 j _)]
  have h3 : ∫ y : J → ℝ, ∏ j, F j (y j) = ∏ j, ∫ y, F j y := integral_fintype_prod_eq_prod F
  rw [h3, ENNReal.ofReal_prod_of_nonneg fun j _ => integral_nonneg (hF0 j)]
  refine Finset.prod_congr rfl fun j _ => ?_
  rw [gaussianReal_apply_eq_integral _ (hv j), integral_indicator (hS j)]

theorem well_continuous (c s : J → ℝ) : Continuous (well c s) := by unfold well; fun_prop

theorem gauss_boltz : gauss J = boltz (well (0 : J → ℝ) 1) := by
  rw [← shift_boltz (s := 1) fun j => one_ne_zero]
  simp

/-- The weight that makes draws look shifted by `-u`. -/
noncomputable def tilt (u z : J → ℝ) : ℝ := Real.exp (-(∑ j, u j * z j) - (∑ j, u j ^ 2) / 2)

theorem tilt_continuous (u : J → ℝ) : Continuous (tilt u) := by unfold tilt; fun_prop

theorem tilt_well (u z : J → ℝ) : tilt u z * Real.exp (-well 0 1 z) = Real.exp (-well 0 1 (z + u)) := by
  unfold tilt well
  rw [← Real.exp_add]
  congr 1
  rw [Finset.sum_div, ← Finset.sum_neg_distrib, ← Finset.sum_neg_distrib, ← Finset.sum_neg_distrib, ← Finset.sum_sub_distrib, ← Finset.sum_add_distrib]
  refine Finset.sum_congr rfl fun j _ => ?_
  simp only [Pi.zero_apply, Pi.one_apply, Pi.add_apply]
  ring

theorem integrable_boltz {H : (J → ℝ) → ℝ} (hH : Continuous H) (g : (J → ℝ) → ℝ) :
    Integrable g (boltz H) ↔ Integrable fun x => g x * Real.exp (-H x) := by
  unfold boltz
  rw [integrable_withDensity_iff (by fun_prop) (by simp)]
  simp only [ENNReal.toReal_ofReal (Real.exp_pos _).le]

/-- Averages over draws are weighted averages over shifted draws. -/
theorem shift_integral (u : J → ℝ) (h : (J → ℝ) → ℝ) : ∫ z, h (z + u) * tilt u z ∂gauss J = ∫ z, h z ∂gauss J := by
  rw [gauss_boltz, integral_boltz (well_continuous _ _), integral_boltz (well_continuous _ _)]
  simp only [mul_assoc, tilt_well]
  exact integral_add_right_eq_self (fun z => h z * Real.exp (-well 0 1 z)) u

theorem shift_integrable (u : J → ℝ) (h : (J → ℝ) → ℝ) : Integrable (fun z => h (z + u) * tilt u z) (gauss J) ↔ Integrable h (gauss J) := by
  rw [gauss_boltz, integrable_boltz (well_continuous _ _), integrable_boltz (well_continuous _ _)]
  simp only [mul_assoc, tilt_well]
  constructor
  · intro h1
    have := h1.comp_add_right (-u)
    simpa using this
  · intro h1
    exact h1.comp_add_right u

theorem tilt_sq (u z : J → ℝ) : tilt u z ^ 2 = Real.exp (∑ j, u j ^ 2) * tilt (2 • u) z := by
  unfold tilt
  rw [← Real.exp_nat_mul, ← Real.exp_add]
  congr 1
  simp only [Pi.smul_apply, nsmul_eq_mul, Nat.cast_ofNat, mul_pow, mul_assoc, ← Finset.mul_sum]
  ring

theorem tilt_moment (u : J → ℝ) : Integrable (fun z => tilt u z ^ 2) (gauss J) ∧ ∫ z, tilt u z ^ 2 ∂gauss J = Real.exp (∑ j, u j ^ 2) := by
  have h1 := (shift_integrable (2 • u) fun _ => (1 : ℝ)).2 (integrable_const 1)
  have h2 := shift_integral (2 • u) fun _ => (1 : ℝ)
  simp only [one_mul] at h1 h2
  simp only [tilt_sq, integral_const_mul, h2]
  exact ⟨h1.const_mul _, by simp⟩

theorem sq_integral_mul_le {Ω : Type*} [MeasurableSpace Ω] {μ : Measure Ω} {f e : Ω → ℝ} (hf : Integrable (fun x => f x ^ 2) μ)
    (he : Integrable (fun x => e x ^ 2) μ) (hi : Integrable (fun x => f x * e x) μ) :
    (∫ x, f x * e x ∂μ) ^ 2 ≤ (∫ x, f x ^ 2 ∂μ) * ∫ x, e x ^ 2 ∂μ := by
  have key : ∀ q : ℝ, 0 ≤ (∫ x, e x ^ 2 ∂μ) * (q * q) + (-(2 * ∫ x, f x * e x ∂μ)) * q + ∫ x, f x ^ 2 ∂μ := fun q => by
    have h1 : 0 ≤ ∫ x, (f x - q * e x) ^ 2 ∂μ := integral_nonneg fun x => sq_nonneg _
    have e1 : (fun x => (f x - q * e x) ^ 2) = fun x => f x ^ 2 + (q * q * e x ^ 2 + -(2 * q) * (f x * e x)) := by funext x; ring
    have i1 : Integrable (fun x => q * q * e x ^ 2 + -(2 * q) * (f x * e x)) μ := (he.const_mul _).add (hi.const_mul _)
    rw [e1, integral_add hf i1, integral_add (he.const_mul _) (hi.const_mul _), integral_const_mul,
      integral_const_mul] at h1
    linarith
  have := discrim_le_zero key
  unfold discrim at this
  linarith

/-- Averages over draws and over shifted draws. -/
theorem shift_sq_le {u : J → ℝ} {h : (J → ℝ) → ℝ} (hi : Integrable h (gauss J)) (h2 : Integrable (fun z => h (z + u) ^ 2) (gauss J)) :
    (∫ z, h z ∂gauss J) ^ 2 ≤ Real.exp (∑ j, u j ^ 2) * ∫ z, h (z + u) ^ 2 ∂gauss J := by
  rw [← shift_integral u h, mul_comm, ← (tilt_moment u).2]
  exact sq_integral_mul_le h2 (tilt_moment u).1 ((shift_integrable u h).2 hi)

end PySGMCMC.Harris
