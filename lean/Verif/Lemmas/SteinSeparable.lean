import Verif.Lemmas.Confining
import Verif.Lemmas.SteinSteps

/-!
# Costs that are sums over the parameters
-/

open MeasureTheory ProbabilityTheory Filter Topology
namespace PySGMCMC.Stein

variable {J : Type*} [Fintype J] {Bt : Type*} [MeasurableSpace Bt] {U u u' : J → ℝ → ℝ} {a b L : ℝ} {ν : Measure Bt} [IsProbabilityMeasure ν]
  {G : J → Bt → ℝ → ℝ} {Λ : ℝ} {g : Bt → ℝ}

/-- Forces that pull inward one by one pull inward together. -/
theorem confining [Nonempty J] (hU : ∀ j, Well (U j) (u j) (u' j) a b L) (hG : ∀ j, Batches ν (u j) (G j) Λ g) :
    Harris.Confining ν (fun β x j => G j β (x j)) a (∑ _j : J, b) Λ (fun β => ∑ _j : J, g β) where
  meas := by
    refine measurable_pi_iff.2 fun j => ?_
    have h1 : Measurable fun y : Bt × (J → ℝ) => y.2 j := (measurable_pi_apply j).comp measurable_snd
    exact (hG j).meas.comp (measurable_fst.prodMk h1)
  growth β x := by
    rw [← Finset.sum_add_distrib, Finset.mul_sum]
    exact Finset.sum_le_sum fun j _ => (hG j).growth β (x j)
  nonneg β := Finset.sum_nonneg fun j _ => (hG j).nonneg β
  int := integrable_finsetSum _ fun j _ => (hG j).int
  pos := (hU (Classical.arbitrary J)).pos
  slack := Finset.sum_nonneg fun j _ => (hU j).slack
  bound := (hG (Classical.arbitrary J)).bound
  inward x := by
    rw [integral_finsetSum _ fun j _ => (((hG j).slice (x j)).const_mul (x j)), Finset.mul_sum, ← Finset.sum_sub_distrib]
    refine Finset.sum_le_sum fun j _ => ?_
    rw [integral_const_mul, (hG j).mean]
    exact (hU j).inward (x j)

/-- One parameter of a product of normal draws. -/
theorem eval_draws (j : J) {X : Type*} [MeasurableSpace X] {π : Measure X} [IsProbabilityMeasure π] {Y : Type*} [MeasurableSpace Y]
    {F : X × (Bt × ℝ) → Y} (hF : Measurable F) :
    (π.prod (ν.prod (Measure.pi fun _ : J => gaussianReal 0 1))).map (fun w => F (w.1, (w.2.1, w.2.2 j))) = (π.prod (ν.prod (gaussianReal 0 1))).map F := by
  have h1 : (Measure.pi fun _ : J => gaussianReal 0 1).map (Function.eval j) = gaussianReal 0 1 := (measurePreserving_eval (fun _ : J => gaussianReal 0 1) j).map_eq
  have m1 : Measurable (Prod.map (id : Bt → Bt) (Function.eval j : (J → ℝ) → ℝ)) := measurable_id.prodMap (measurable_pi_apply j)
  have m2 : Measurable (Prod.map (id : X → X) (Prod.map (id : Bt → Bt) (Function.eval j : (J → ℝ) → ℝ))) := measurable_id.prodMap m1
  have h2 : ν.prod (gaussianReal 0 1) = (ν.prod (Measure.pi fun _ : J => gaussianReal 0 1)).map (Prod.map id (Function.eval j)) := by
    have := Measure.map_prod_map ν (Measure.pi fun _ : J => gaussianReal 0 1) measurable_id (measurable_pi_apply j)
    rwa [Measure.map_id, h1] at this
  have h3 : π.prod (ν.prod (gaussianReal 0 1)) = (π.prod (ν.prod (Measure.pi fun _ : J => gaussianReal 0 1))).map (Prod.map id (Prod.map id (Function.eval j))) := by
    have := Measure.map_prod_map π (ν.prod (Measure.pi fun _ : J => gaussianReal 0 1)) measurable_id m1
    rwa [Measure.map_id, ← h2] at this
  rw [h3, Measure.map_map hF m2]
  rfl

/-- A step of each parameter on its own leaves the law of each parameter as it is. -/
theorem eval_law (j : J) {X Z : Type*} [MeasurableSpace X] [MeasurableSpace Z] {π : Measure X} [IsProbabilityMeasure π] {e : X → Z} (he : Measurable e)
    {T : X × (Bt × (J → ℝ)) → X} (hT : Measurable T) {F : Z × (Bt × ℝ) → Z} (hF : Measurable F)
    (hTF : ∀ w, e (T w) = F (e w.1, (w.2.1, w.2.2 j))) (hinv : (π.prod (ν.prod (Measure.pi fun _ : J => gaussianReal 0 1))).map T = π) :
    ((π.map e).prod (ν.prod (gaussianReal 0 1))).map F = π.map e := by
  have m1 : Measurable (Prod.map e (id : Bt × ℝ → Bt × ℝ)) := he.prodMap measurable_id
  have h1 : (π.map e).prod (ν.prod (gaussianReal 0 1)) = (π.prod (ν.prod (gaussianReal 0 1))).map (Prod.map e id) := by
    have := Measure.map_prod_map π (ν.prod (gaussianReal 0 1)) he measurable_id
    rwa [Measure.map_id] at this
  rw [h1, Measure.map_map hF m1, ← eval_draws j (hF.comp m1)]
  conv_rhs => rw [← hinv]
  rw [Measure.map_map he hT]
  congr 1
  funext w
  exact (hTF w).symm

/-- Estimates of a stationary law that is near another law estimate that one. -/
theorem combine {Ω : Type*} [MeasurableSpace Ω] {P : Measure Ω} [IsProbabilityMeasure P] {Y : Nat → Ω → ℝ} {y₀ m v E : ℝ} {r : Nat → ℝ} {R : Finset Nat → ℝ}
    (h1 : ∀ k, Integrable (fun ω => Y k ω - y₀) P ∧ |∫ ω, (Y k ω - y₀) ∂P - m| ≤ r k)
    (h2 : ∀ {I : Finset Nat}, I.Nonempty → Integrable (fun ω => ((∑ k ∈ I, (Y k ω - y₀)) / I.card - m) ^ 2) P
      ∧ ∫ ω, ((∑ k ∈ I, (Y k ω - y₀)) / I.card - m) ^ 2 ∂P ≤ R I) (hE : |m + y₀ - v| ≤ E) :
    (∀ k, Integrable (Y k) P ∧ |∫ ω, Y k ω ∂P - v| ≤ r k + E) ∧ ∀ {I : Finset Nat}, I.Nonempty →
      Integrable (fun ω => ((∑ k ∈ I, Y k ω) / I.card - v) ^ 2) P ∧ ∫ ω, ((∑ k ∈ I, Y k ω) / I.card - v) ^ 2 ∂P ≤ 2 * R I + 2 * E ^ 2 := by
  have hY : ∀ k, Integrable (Y k) P := fun k => by
    have := (h1 k).1.add (integrable_const y₀)
    refine this.congr (.of_forall fun ω => ?_)
    simp
  refine ⟨fun k => ⟨hY k, ?_⟩, fun {I} hI => ?_⟩
  · have h3 := (h1 k).2
    rw [integral_sub (hY k) (integrable_const y₀)] at h3
    simp only [integral_const, probReal_univ, smul_eq_mul, one_mul] at h3
    calc |∫ ω, Y k ω ∂P - v| = |(∫ ω, Y k ω ∂P - y₀ - m) + (m + y₀ - v)| := by congr 1; ring
      _ ≤ r k + E := (abs_add_le _ _).trans (add_le_add h3 hE)
  · obtain ⟨h3, h4⟩ := h2 hI
    have hc : (0 : ℝ) < I.card := by exact_mod_cast hI.card_pos
    have e : ∀ ω, (∑ k ∈ I, Y k ω) / I.card - v = ((∑ k ∈ I, (Y k ω - y₀)) / I.card - m) + (m + y₀ - v) := fun ω => by
      rw [Finset.sum_sub_distrib, Finset.sum_const, nsmul_eq_mul]
      field_simp
      ring
    have i1 : Integrable (fun ω => (∑ k ∈ I, (Y k ω - y₀)) / I.card - m) P :=
      ((integrable_finsetSum _ fun k _ => (h1 k).1).div_const _).sub (integrable_const m)
    have i2 : Integrable (fun ω => ((∑ k ∈ I, Y k ω) / I.card - v) ^ 2) P := by
      have := (h3.add (i1.const_mul (2 * (m + y₀ - v)))).add (integrable_const ((m + y₀ - v) ^ 2))
      refine this.congr (.of_forall fun ω => ?_)
      simp only [Pi.add_apply, e]
      ring
    refine ⟨i2, ?_⟩
    have hE2 : (m + y₀ - v) ^ 2 ≤ E ^ 2 := by rw [← sq_abs]; exact pow_le_pow_left₀ (abs_nonneg _) hE 2
    have h5 := integral_mono i2 ((h3.const_mul 2).add (integrable_const (2 * E ^ 2))) fun ω => by
      simp only [Pi.add_apply, e]
      nlinarith [sq_nonneg ((∑ k ∈ I, (Y k ω - y₀)) / I.card - m - (m + y₀ - v))]
    refine h5.trans ?_
    simp only [Pi.add_apply]
    rw [integral_add (h3.const_mul 2) (integrable_const _), integral_const_mul]
    simp only [integral_const, probReal_univ, smul_eq_mul, one_mul]
    linarith

/-- Functions with bounded derivative grow linearly. -/
theorem growth_of_deriv {φ φ' : ℝ → ℝ} {A : ℝ} (hφ : ∀ x, HasDerivAt φ (φ' x) x) (hA : ∀ x, |φ' x| ≤ A) (x : J → ℝ) (j : J) :
    |φ (x j) - φ 0| ≤ A * (1 + ∑ j, x j ^ 2) ∧ |φ (x j) - φ 0| ≤ A * (1 + √(∑ j, x j ^ 2)) := by
  have hA0 : 0 ≤ A := (abs_nonneg _).trans (hA 0)
  have h1 : |φ (x j) - φ 0| ≤ A * |x j| := by simpa using mvt hφ (y := 0) (h := x j) fun u _ => hA u
  have h5 : x j ^ 2 ≤ ∑ j, x j ^ 2 := Finset.single_le_sum (f := fun j => x j ^ 2) (fun _ _ => sq_nonneg _) (Finset.mem_univ j)
  refine ⟨h1.trans (mul_le_mul_of_nonneg_left ?_ hA0), h1.trans (mul_le_mul_of_nonneg_left ?_ hA0)⟩
  · nlinarith [sq_nonneg (|x j| - 1), sq_abs (x j)]
  · have := Real.abs_le_sqrt h5
    linarith

end PySGMCMC.Stein
