import Mathlib.Probability.Distributions.Gaussian.Real
import Mathlib.Probability.HasLawExists
import Mathlib.MeasureTheory.Function.ConvergenceInDistribution
import Mathlib.MeasureTheory.Measure.LevyConvergence

/-! Linear combinations of independent standard normal variables, and limits of normal distributions. -/

namespace PySGMCMC.GaussLaw
open MeasureTheory ProbabilityTheory Filter Topology

variable {Ω : Type} [MeasurableSpace Ω] {P : Measure Ω}

/-- A constant plus a linear combination of independent standard normal variables is normally distributed. -/
theorem law_sum {Z : Nat → Ω → ℝ} (hm : ∀ k, Measurable (Z k)) (hi : iIndepFun Z P) (hZ : ∀ k, P.map (Z k) = gaussianReal 0 1)
    (b : ℝ) (c : Nat → ℝ) (n : Nat) :
    P.map (fun ω => b + ∑ j ∈ Finset.range n, c j * Z j ω) = gaussianReal b (∑ j ∈ Finset.range n, c j ^ 2).toNNReal := by
  have hP : IsProbabilityMeasure P := by
    constructor
    have h0 : P.map (Z 0) Set.univ = 1 := by rw [hZ 0]; exact measure_univ
    rwa [Measure.map_apply (hm 0) MeasurableSet.univ, Set.preimage_univ] at h0
  have hi' : iIndepFun (fun j ω => c j * Z j ω) P := hi.comp (fun j x => c j * x) fun j => by fun_prop
  have hm' : ∀ j, Measurable fun ω => c j * Z j ω := fun j => by fun_prop
  induction n with
  | zero =>
    simp only [Finset.range_zero, Finset.sum_empty, add_zero, Real.toNNReal_zero, gaussianReal_zero_var]
    rw [Measure.map_const, measure_univ, one_smul]
  | succ n ih =>
    have hd : IndepFun (fun ω => b + ∑ j ∈ Finset.range n, c j * Z j ω) (fun ω => c n * Z n ω) P := by
      have h := hi'.indepFun_finsetSum_of_notMem hm' (s := Finset.range n) (i := n) (by simp)
      have h2 := h.comp (φ := fun x => b + x) (ψ := id) (by fun_prop) measurable_id
      convert h2 using 1
      · funext ω
        simp [Function.comp, Finset.sum_apply]
      · rfl
    have hn : P.map (fun ω => c n * Z n ω) = gaussianReal 0 (c n ^ 2).toNNReal := by
      have h := Measure.map_map (μ := P) (g := fun x : ℝ => c n * x) (f := Z n) (by fun_prop) (hm n)
      rw [hZ n, gaussianReal_map_const_mul] at h
      rw [show (fun ω => c n * Z n ω) = (fun x => c n * x) ∘ Z n from rfl, ← h]
      congr 1
      · simp
      · rw [mul_one]
        exact NNReal.eq (by simp [Real.coe_toNNReal _ (sq_nonneg (c n))])
    have hs := gaussianReal_add_gaussianReal_of_indepFun hd ih hn
    rw [add_zero, ← Real.toNNReal_add (Finset.sum_nonneg fun _ _ => sq_nonneg _) (sq_nonneg _), ← Finset.sum_range_succ] at hs
    rw [← hs]
    congr 1
    funext ω
    simp only [Pi.add_apply, Finset.sum_range_succ]
    ring

/-- Normal distributions converge when their parameters do. -/
theorem tendsto_normal {X : Nat → Ω → ℝ} [IsProbabilityMeasure P] (hX : ∀ k, Measurable (X k)) {μ v : Nat → ℝ} {μ' v' : ℝ}
    (h : ∀ k, P.map (X k) = gaussianReal (μ k) (v k).toNNReal) (hμ : Tendsto μ atTop (𝓝 μ')) (hv : Tendsto v atTop (𝓝 v')) :
    TendstoInDistribution X atTop (id : ℝ → ℝ) (fun _ => P) (gaussianReal μ' v'.toNNReal) where
  forall_aemeasurable k := (hX k).aemeasurable
  aemeasurable_limit := aemeasurable_id
  tendsto := by
    refine ProbabilityMeasure.tendsto_iff_tendsto_charFun.2 fun t => ?_
    simp only [ProbabilityMeasure.coe_mk, Measure.map_id]
    simp only [h, charFun_gaussianReal]
    have hv2 : Tendsto (fun k => (((v k).toNNReal : NNReal) : ℝ)) atTop (𝓝 (v'.toNNReal : ℝ)) := by
      simp only [Real.coe_toNNReal']
      exact hv.max tendsto_const_nhds
    have h1 := (Complex.continuous_ofReal.tendsto _).comp hμ
    have h2 := (Complex.continuous_ofReal.tendsto _).comp hv2
    refine (Complex.continuous_exp.tendsto _).comp ?_
    exact ((h1.const_mul (t : ℂ)).mul_const _).sub ((h2.mul_const _).div_const _)

/-- There are independent standard normal variables. -/
theorem exists_normals (ι : Type) : ∃ (Ω : Type) (_ : MeasurableSpace Ω) (P : Measure Ω) (Z : ι → Ω → ℝ),
    (∀ i, Measurable (Z i)) ∧ (∀ i, P.map (Z i) = gaussianReal 0 1) ∧ iIndepFun Z P := by
  obtain ⟨Ω, mΩ, P, Z, h1, h2, h3, -⟩ := exists_iid ι (gaussianReal 0 1)
  exact ⟨Ω, mΩ, P, Z, h1, fun i => (h2 i).map_eq, h3⟩

end PySGMCMC.GaussLaw
