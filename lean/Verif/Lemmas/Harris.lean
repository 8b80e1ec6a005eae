import Mathlib.MeasureTheory.Integral.Prod
import Mathlib.MeasureTheory.VectorMeasure.Basic
import Mathlib.MeasureTheory.Integral.Layercake
import Mathlib.Analysis.SpecificLimits.Basic
import Mathlib.Probability.Independence.Basic
import Mathlib.Tactic.LinearCombination
import Mathlib.Tactic.FieldSimp
import Mathlib.Tactic.Positivity

/-!
# Markov chains that forget where they started

Harris's theorem with the proof of Hairer and Mattingly: a chain that drifts to where a function `V` is small, and whose steps from there
have a common part, has a stationary law, and averages of functions that grow at most like `V` approach those of that law geometrically.
-/

open MeasureTheory ProbabilityTheory Filter Topology
namespace PySGMCMC.Harris
set_option linter.unusedSectionVars false

variable {E : Type*} [MeasurableSpace E] {Z : Type*} [MeasurableSpace Z] {κ : Measure Z} [IsProbabilityMeasure κ] {Ψ : E → Z → E} {V : E → ℝ}
  {γ K R δ β M w C ρ : ℝ} {η : Measure E} {φ : E → ℝ}

/-- What a function is on average after a step. -/
noncomputable def push (κ : Measure Z) (Ψ : E → Z → E) (u : E → ℝ) : E → ℝ := fun x => ∫ ζ, u (Ψ x ζ) ∂κ

/-- A Markov chain that drifts to where `V` is small. -/
structure Moves (κ : Measure Z) (Ψ : E → Z → E) (V : E → ℝ) (γ K : ℝ) : Prop where
  meas : Measurable fun q : E × Z => Ψ q.1 q.2
  measV : Measurable V
  nonneg : ∀ x, 0 ≤ V x
  int : ∀ x, Integrable (fun ζ => V (Ψ x ζ)) κ
  drift : ∀ x, ∫ ζ, V (Ψ x ζ) ∂κ ≤ γ * V x + K
  gamma : 0 ≤ γ
  lt_one : γ < 1
  pos : 0 ≤ K

/-- A Markov chain that drifts to where `V` is small, where its steps have a common part. -/
structure Drifts (κ : Measure Z) (Ψ : E → Z → E) (V : E → ℝ) (γ K R δ : ℝ) (η : Measure E) : Prop extends Moves κ Ψ V γ K where
  far : 2 * K < (1 - γ) * R
  prob : IsProbabilityMeasure η
  delta : 0 < δ
  minor : ∀ x, V x ≤ R → ENNReal.ofReal δ • η ≤ κ.map (Ψ x)

/-- Values differ at most in proportion to `V`. -/
def Osc (V : E → ℝ) (β M : ℝ) (φ : E → ℝ) : Prop := ∀ x y, |φ x - φ y| ≤ M * (2 + β * V x + β * V y)

theorem Osc.center [Nonempty E] (h : Osc V β M φ) : ∃ c, ∀ x, |φ x - c| ≤ M * (1 + β * V x) := by
  have hb : ∀ x y, φ x - M * (1 + β * V x) ≤ φ y + M * (1 + β * V y) := fun x y => by
    have := (abs_le.1 (h x y)).2
    linarith
  have hB : BddAbove (Set.range fun x => φ x - M * (1 + β * V x)) := by
    obtain ⟨y⟩ := ‹Nonempty E›
    exact ⟨_, by rintro _ ⟨x, rfl⟩; exact hb x y⟩
  refine ⟨⨆ x, φ x - M * (1 + β * V x), fun x => abs_le.2 ⟨?_, ?_⟩⟩
  · have : (⨆ x, φ x - M * (1 + β * V x)) ≤ φ x + M * (1 + β * V x) := ciSup_le fun y => hb y x
    linarith
  · have := le_ciSup hB x
    linarith

/-- How strongly `V` counts. -/
noncomputable def weight (K δ : ℝ) : ℝ := δ / (2 * (K + 1))

/-- How fast differences shrink. -/
noncomputable def rate (γ K R δ : ℝ) : ℝ :=
  max (max (1 - δ / 2) γ) (1 - weight K δ * ((1 - γ) * R - 2 * K) / (2 + weight K δ * R))

theorem small_arith {S : ℝ} (hK : 0 ≤ K) (hδ : 0 < δ) (hS : 0 ≤ S) :
    2 + weight K δ * (γ * S + 2 * K) - 2 * δ ≤ max (1 - δ / 2) γ * (2 + weight K δ * S) := by
  have hw : 0 ≤ weight K δ := by unfold weight; positivity
  have h1 : weight K δ * (2 * K) ≤ δ := by
    unfold weight
    rw [div_mul_eq_mul_div, div_le_iff₀ (by positivity)]
    nlinarith
  have h2 : (1 - δ / 2) * 2 ≤ max (1 - δ / 2) γ * 2 := mul_le_mul_of_nonneg_right (le_max_left _ _) (by norm_num)
  have h3 : γ * (weight K δ * S) ≤ max (1 - δ / 2) γ * (weight K δ * S) := mul_le_mul_of_nonneg_right (le_max_right _ _) (by positivity)
  linarith

theorem large_arith {w S : ℝ} (hγ : γ < 1) (hK : 0 ≤ K) (hw : 0 ≤ w) (hR : 0 ≤ R) (hS : R ≤ S) :
    2 + w * (γ * S + 2 * K) ≤ (1 - w * ((1 - γ) * R - 2 * K) / (2 + w * R)) * (2 + w * S) := by
  have hp : 0 < 2 + w * R := by positivity
  have h : w * ((1 - γ) * R - 2 * K) / (2 + w * R) * (2 + w * S) ≤ w * ((1 - γ) * S - 2 * K) := by
    rw [div_mul_eq_mul_div, div_le_iff₀ hp, mul_assoc, mul_assoc]
    refine mul_le_mul_of_nonneg_left ?_ hw
    have h1 : 0 ≤ (1 - γ) * (S - R) := mul_nonneg (by linarith) (by linarith)
    have h2 : 0 ≤ K * w * (S - R) := mul_nonneg (mul_nonneg hK hw) (by linarith)
    nlinarith
  linarith

namespace Moves

theorem measΨ (h : Moves κ Ψ V γ K) (x : E) : Measurable (Ψ x) := h.meas.comp (by fun_prop : Measurable fun ζ : Z => (x, ζ))

theorem measurable_push (h : Moves κ Ψ V γ K) (hφ : Measurable φ) : Measurable (push κ Ψ φ) := by
  have h1 : StronglyMeasurable (Function.uncurry fun x ζ => φ (Ψ x ζ)) := (hφ.comp h.meas).stronglyMeasurable
  exact h1.integral_prod_right.measurable

/-- Functions dominated by `V` have averages. -/
theorem integrable (h : Moves κ Ψ V γ K) (hφ : Measurable φ) {a b : ℝ} (hb : ∀ x, |φ x| ≤ a * V x + b) (x : E) :
    Integrable (fun ζ => φ (Ψ x ζ)) κ := by
  refine Integrable.mono' (((h.int x).const_mul a).add (integrable_const b)) (hφ.comp (h.measΨ x)).aestronglyMeasurable ?_
  exact ae_of_all _ fun ζ => hb _

end Moves

namespace Drifts

theorem weight_pos (h : Drifts κ Ψ V γ K R δ η) : 0 < weight K δ := by
  have := h.pos; have := h.delta
  unfold weight; positivity

theorem R_pos (h : Drifts κ Ψ V γ K R δ η) : 0 < R := by
  have h1 := h.far; have h2 := h.pos; have h3 := h.lt_one
  by_contra hR
  have : (1 - γ) * R ≤ 0 := mul_nonpos_of_nonneg_of_nonpos (by linarith) (by linarith)
  linarith

theorem rate_lt (h : Drifts κ Ψ V γ K R δ η) : rate γ K R δ < 1 := by
  have h1 := h.far; have h2 := h.weight_pos; have h3 := h.lt_one; have h4 := h.delta; have h5 := h.R_pos
  refine max_lt (max_lt (by linarith) h3) ?_
  have : 0 < weight K δ * ((1 - γ) * R - 2 * K) / (2 + weight K δ * R) := div_pos (mul_pos h2 (by linarith)) (by positivity)
  linarith

theorem rate_nonneg (h : Drifts κ Ψ V γ K R δ η) : 0 ≤ rate γ K R δ := h.gamma.trans ((le_max_right _ _).trans (le_max_left _ _))

/-- The common part of steps is a lower bound of averages. -/
theorem minor_integral (h : Drifts κ Ψ V γ K R δ η) {x : E} (hx : V x ≤ R) (hφ : Measurable φ) (h0 : ∀ x, 0 ≤ φ x)
    (hi : Integrable (fun ζ => φ (Ψ x ζ)) κ) : Integrable φ η ∧ δ * ∫ y, φ y ∂η ≤ ∫ ζ, φ (Ψ x ζ) ∂κ := by
  have hi' : Integrable φ (κ.map (Ψ x)) := (integrable_map_measure hφ.aestronglyMeasurable (h.measΨ x).aemeasurable).2 hi
  have hd := h.delta
  refine ⟨?_, ?_⟩
  · have := hi'.mono_measure (h.minor x hx)
    rwa [integrable_smul_measure (by simpa using hd) ENNReal.ofReal_ne_top] at this
  · have := integral_mono_measure (h.minor x hx) (ae_of_all _ h0) hi'
    rwa [integral_smul_measure, ENNReal.toReal_ofReal hd.le, smul_eq_mul, integral_map (h.measΨ x).aemeasurable hφ.aestronglyMeasurable] at this

/-- Differences shrink. -/
theorem contract (h : Drifts κ Ψ V γ K R δ η) [Nonempty E] (hM : 0 ≤ M) (hφ : Measurable φ) (ho : Osc V (weight K δ) M φ) :
    Osc V (weight K δ) (rate γ K R δ * M) (push κ Ψ φ) := by
  obtain ⟨c, hc⟩ := ho.center
  have hw := h.weight_pos
  set w := weight K δ with hwdef
  have hbd : ∀ x, |φ x| ≤ M * w * V x + (M + |c|) := fun x => by
    have h1 := abs_add_le (φ x - c) c
    rw [sub_add_cancel] at h1
    linarith [hc x]
  have hi := h.integrable hφ hbd
  have hiV := h.int
  -- averages of the two differences to the bound
  have hiW : ∀ x, Integrable (fun ζ => M * (1 + w * V (Ψ x ζ))) κ := fun x => ((integrable_const 1).add ((hiV x).const_mul w)).const_mul M
  have hiC : ∀ x, Integrable (fun ζ => φ (Ψ x ζ) - c) κ := fun x => (hi x).sub (integrable_const c)
  have hup : ∀ x, Integrable (fun ζ => M * (1 + w * V (Ψ x ζ)) + (φ (Ψ x ζ) - c)) κ := fun x =>
    (hiW x).add (hiC x)
  have hdn : ∀ x, Integrable (fun ζ => M * (1 + w * V (Ψ x ζ)) - (φ (Ψ x ζ) - c)) κ := fun x =>
    (hiW x).sub (hiC x)
  have eup : ∀ x, ∫ ζ, (M * (1 + w * V (Ψ x ζ)) + (φ (Ψ x ζ) - c)) ∂κ = M * (1 + w * ∫ ζ, V (Ψ x ζ) ∂κ) + (push κ Ψ φ x - c) := fun x => by
    rw [integral_add (hiW x) (hiC x), integral_const_mul,
      integral_add (integrable_const 1) ((hiV x).const_mul w), integral_const_mul, integral_sub (hi x) (integrable_const c)]
    simp [push]
  have edn : ∀ x, ∫ ζ, (M * (1 + w * V (Ψ x ζ)) - (φ (Ψ x ζ) - c)) ∂κ = M * (1 + w * ∫ ζ, V (Ψ x ζ) ∂κ) - (push κ Ψ φ x - c) := fun x => by
    rw [integral_sub (hiW x) (hiC x), integral_const_mul,
      integral_add (integrable_const 1) ((hiV x).const_mul w), integral_const_mul, integral_sub (hi x) (integrable_const c)]
    simp [push]
  have pup : ∀ x, 0 ≤ M * (1 + w * V x) + (φ x - c) := fun x => by linarith [(abs_le.1 (hc x)).1]
  have pdn : ∀ x, 0 ≤ M * (1 + w * V x) - (φ x - c) := fun x => by linarith [(abs_le.1 (hc x)).2]
  have mup : Measurable fun x => M * (1 + w * V x) + (φ x - c) := (((h.measV.const_mul w).const_add 1).const_mul M).add (hφ.sub_const c)
  have mdn : Measurable fun x => M * (1 + w * V x) - (φ x - c) := (((h.measV.const_mul w).const_add 1).const_mul M).sub (hφ.sub_const c)
  have one : ∀ x y, push κ Ψ φ x - push κ Ψ φ y ≤ rate γ K R δ * M * (2 + w * V x + w * V y) := fun x y => by
    have hx0 := h.nonneg x
    have hy0 := h.nonneg y
    have hdx := h.drift x
    have hdy := h.drift y
    have hMw : 0 ≤ M * w := mul_nonneg hM hw.le
    have hsum : M * (1 + w * ∫ ζ, V (Ψ x ζ) ∂κ) + M * (1 + w * ∫ ζ, V (Ψ y ζ) ∂κ) ≤ M * (2 + w * (γ * (V x + V y) + 2 * K)) := by
      have h1 := mul_le_mul_of_nonneg_left hdx hMw
      have h2 := mul_le_mul_of_nonneg_left hdy hMw
      linarith
    rcases le_total R (V x + V y) with hR | hR
    · have h1 : 0 ≤ ∫ ζ, (M * (1 + w * V (Ψ x ζ)) - (φ (Ψ x ζ) - c)) ∂κ := integral_nonneg fun ζ => pdn _
      have h2 : 0 ≤ ∫ ζ, (M * (1 + w * V (Ψ y ζ)) + (φ (Ψ y ζ) - c)) ∂κ := integral_nonneg fun ζ => pup _
      rw [edn] at h1
      rw [eup] at h2
      have h3 := large_arith h.lt_one h.pos hw.le h.R_pos.le hR
      have h4 : (1 - w * ((1 - γ) * R - 2 * K) / (2 + w * R)) * (2 + w * (V x + V y)) ≤ rate γ K R δ * (2 + w * (V x + V y)) :=
        mul_le_mul_of_nonneg_right (le_max_right _ _) (by positivity)
      have h5 := mul_le_mul_of_nonneg_left (h3.trans h4) hM
      linarith
    · obtain ⟨i1, h1⟩ := h.minor_integral (by linarith : V x ≤ R) mdn pdn (hdn x)
      obtain ⟨i2, h2⟩ := h.minor_integral (by linarith : V y ≤ R) mup pup (hup y)
      rw [edn] at h1
      rw [eup] at h2
      have hη := h.prob
      have hs : ∫ z, (M * (1 + w * V z) - (φ z - c)) ∂η + ∫ z, (M * (1 + w * V z) + (φ z - c)) ∂η = ∫ z, 2 * M * (1 + w * V z) ∂η := by
        rw [← integral_add i1 i2]
        refine integral_congr_ae (ae_of_all _ fun z => ?_)
        simp only
        ring
      have hiη : Integrable (fun z => 2 * M * (1 + w * V z)) η := by
        refine (i1.add i2).congr (ae_of_all _ fun z => ?_)
        simp only [Pi.add_apply]
        ring
      have hl : 2 * M ≤ ∫ z, 2 * M * (1 + w * V z) ∂η := by
        have := integral_mono (integrable_const (2 * M)) hiη fun z => by
          have := h.nonneg z
          have : 0 ≤ M * (w * V z) := by positivity
          simp only
          linarith
        simpa using this
      have hδ := mul_le_mul_of_nonneg_left hl h.delta.le
      rw [← hs, mul_add] at hδ
      have h3 := small_arith (γ := γ) h.pos h.delta (add_nonneg hx0 hy0)
      have h4 : max (1 - δ / 2) γ * (2 + w * (V x + V y)) ≤ rate γ K R δ * (2 + w * (V x + V y)) :=
        mul_le_mul_of_nonneg_right (le_max_left _ _) (by positivity)
      have h5 := mul_le_mul_of_nonneg_left (h3.trans h4) hM
      linarith
  intro x y
  refine abs_le.2 ⟨?_, one x y⟩
  have := one y x
  linarith

/-- Differences vanish geometrically. -/
theorem iterate (h : Drifts κ Ψ V γ K R δ η) [Nonempty E] (hM : 0 ≤ M) (hφ : Measurable φ) (ho : Osc V (weight K δ) M φ) (n : Nat) :
    Measurable ((push κ Ψ)^[n] φ) ∧ Osc V (weight K δ) (rate γ K R δ ^ n * M) ((push κ Ψ)^[n] φ) := by
  induction n with
  | zero => simpa using ⟨hφ, ho⟩
  | succ n ih =>
    rw [Function.iterate_succ_apply']
    refine ⟨h.measurable_push ih.1, ?_⟩
    rw [pow_succ', mul_assoc]
    exact h.contract (mul_nonneg (pow_nonneg h.rate_nonneg n) hM) ih.1 ih.2

end Drifts

/-- A Markov chain that drifts to where `V` is small and along which differences vanish geometrically. -/
structure Mixes (κ : Measure Z) (Ψ : E → Z → E) (V : E → ℝ) (γ K w C ρ : ℝ) : Prop extends Moves κ Ψ V γ K where
  weight_pos : 0 < w
  const_nonneg : 0 ≤ C
  rate_nonneg : 0 ≤ ρ
  rate_lt : ρ < 1
  osc : ∀ {M : ℝ} {φ : E → ℝ}, 0 ≤ M → Measurable φ → Osc V w M φ → ∀ n : Nat, Osc V w (C * ρ ^ n * M) ((push κ Ψ)^[n] φ)

theorem Drifts.mixes (h : Drifts κ Ψ V γ K R δ η) [Nonempty E] : Mixes κ Ψ V γ K (weight K δ) 1 (rate γ K R δ) where
  toMoves := h.toMoves
  weight_pos := h.weight_pos
  const_nonneg := zero_le_one
  rate_nonneg := h.rate_nonneg
  rate_lt := h.rate_lt
  osc hM hφ ho n := by rw [one_mul]; exact (h.iterate hM hφ ho n).2

theorem Moves.iterate_measurable (h : Moves κ Ψ V γ K) (hφ : Measurable φ) (n : Nat) : Measurable ((push κ Ψ)^[n] φ) := by
  induction n with
  | zero => exact hφ
  | succ n ih =>
    rw [Function.iterate_succ_apply']
    exact h.measurable_push ih

/-! ## Limits of measures -/

/-- Probability measures that converge uniformly on all sets have a limit. -/
theorem limit_measure {μ : Nat → Measure E} (hμ : ∀ n, IsProbabilityMeasure (μ n)) {ℓ : Set E → ℝ} {r : Nat → ℝ} (hr : Tendsto r atTop (𝓝 0))
    (h : ∀ n A, MeasurableSet A → |(μ n).real A - ℓ A| ≤ r n) :
    ∃ π : Measure E, IsProbabilityMeasure π ∧ ∀ A, MeasurableSet A → π.real A = ℓ A := by
  have hlim : ∀ A, MeasurableSet A → Tendsto (fun n => (μ n).real A) atTop (𝓝 (ℓ A)) := fun A hA => by
    rw [tendsto_iff_dist_tendsto_zero]
    exact squeeze_zero (fun _ => dist_nonneg) (fun n => h n A hA) hr
  have h0 : ∀ A, MeasurableSet A → 0 ≤ ℓ A := fun A hA => ge_of_tendsto' (hlim A hA) fun n => measureReal_nonneg
  have hempty : ℓ ∅ = 0 := tendsto_nhds_unique (hlim ∅ MeasurableSet.empty) (by simp)
  have huniv : ℓ Set.univ = 1 := tendsto_nhds_unique (hlim _ MeasurableSet.univ) (by
    have : ∀ n, (μ n).real Set.univ = 1 := fun n => by have := hμ n; exact probReal_univ
    simp [this])
  have hsum : ∀ f : Nat → Set E, (∀ i, MeasurableSet (f i)) → Pairwise (Function.onFun Disjoint f) →
      HasSum (fun i => ℓ (f i)) (ℓ (⋃ i, f i)) := fun f hf hd => by
    rw [hasSum_iff_tendsto_nat_of_nonneg (fun i => h0 _ (hf i)), Metric.tendsto_atTop]
    intro ε hε
    obtain ⟨n, hn⟩ := (hr.eventually (gt_mem_nhds (show 0 < ε / 3 by linarith))).exists
    have := hμ n
    have hs : HasSum (fun i => (μ n).real (f i)) ((μ n).real (⋃ i, f i)) := by
      have := (μ n).toSignedMeasure.m_iUnion hf hd
      simpa only [Measure.toSignedMeasure_apply_measurable (hf _), Measure.toSignedMeasure_apply_measurable (MeasurableSet.iUnion hf)] using this
    obtain ⟨N, hN⟩ := Metric.tendsto_atTop.1 hs.tendsto_sum_nat (ε / 3) (by linarith)
    refine ⟨N, fun k hk => ?_⟩
    have hfin : ∀ m, ∑ i ∈ Finset.range k, (μ m).real (f i) = (μ m).real (⋃ i ∈ Finset.range k, f i) := fun m => by
      have := hμ m
      exact (measureReal_biUnion_finset (fun i _ j _ hij => hd hij) fun i _ => hf i).symm
    have hmk : MeasurableSet (⋃ i ∈ Finset.range k, f i) := Finset.measurableSet_biUnion _ fun i _ => hf i
    have heq : ∑ i ∈ Finset.range k, ℓ (f i) = ℓ (⋃ i ∈ Finset.range k, f i) := by
      refine tendsto_nhds_unique (tendsto_finsetSum _ fun i _ => hlim _ (hf i)) ?_
      simpa only [hfin] using hlim _ hmk
    have h1 := h n _ hmk
    have h2 := h n _ (MeasurableSet.iUnion hf)
    have h3 := hN k hk
    rw [hfin, Real.dist_eq] at h3
    rw [heq, Real.dist_eq]
    rw [abs_le] at h1 h2
    rw [abs_lt] at h3 ⊢
    constructor <;> linarith
  let π : Measure E := Measure.ofMeasurable (fun A _ => ENNReal.ofReal (ℓ A)) (by simp [hempty]) fun f hf hd => by
    rw [← (hsum f hf hd).tsum_eq, ENNReal.ofReal_tsum_of_nonneg (fun i => h0 _ (hf i)) (hsum f hf hd).summable]
  have hπ : ∀ A, MeasurableSet A → π A = ENNReal.ofReal (ℓ A) := fun A hA => Measure.ofMeasurable_apply A hA
  refine ⟨π, ⟨by rw [hπ _ MeasurableSet.univ, huniv]; simp⟩, fun A hA => ?_⟩
  rw [measureReal_def, hπ A hA, ENNReal.toReal_ofReal (h0 A hA)]

/-- Measures that are close on all sets give close averages. -/
theorem close_integral {μ ν : Measure E} [IsProbabilityMeasure μ] [IsProbabilityMeasure ν] {r : ℝ}
    (h : ∀ A, MeasurableSet A → |μ.real A - ν.real A| ≤ r) {f : E → ℝ} (hf : Measurable f) {B : ℝ} (h0 : ∀ x, 0 ≤ f x) (h1 : ∀ x, f x ≤ B) :
    |∫ x, f x ∂μ - ∫ x, f x ∂ν| ≤ r * B := by
  have hint : ∀ ρ : Measure E, IsProbabilityMeasure ρ → Integrable f ρ := fun ρ hρ =>
    Integrable.of_bound hf.aestronglyMeasurable B (ae_of_all _ fun x => by rw [Real.norm_eq_abs, abs_of_nonneg (h0 x)]; exact h1 x)
  have hlay : ∀ ρ : Measure E, IsProbabilityMeasure ρ → ∫ x, f x ∂ρ = ∫ t in Set.Ioc 0 B, ρ.real {a | t < f a} := fun ρ hρ => by
    rw [(hint ρ hρ).integral_eq_integral_meas_lt (ae_of_all _ h0)]
    refine (setIntegral_eq_of_subset_of_forall_sdiff_eq_zero measurableSet_Ioi Set.Ioc_subset_Ioi_self fun t ht => ?_)
    have : {a | t < f a} = ∅ := by
      ext a
      simp only [Set.mem_sdiff, Set.mem_Ioi, Set.mem_Ioc, not_and, not_le] at ht
      simpa using (h1 a).trans (ht.2 ht.1).le
    simp [this]
  have hmeas : ∀ ρ : Measure E, IsProbabilityMeasure ρ → IntegrableOn (fun t => ρ.real {a | t < f a}) (Set.Ioc 0 B) := fun ρ hρ => by
    have hanti : Antitone fun t => ρ.real {a | t < f a} := fun s t hst => measureReal_mono fun a (ha : t < f a) => hst.trans_lt ha
    exact Integrable.of_bound hanti.measurable.aestronglyMeasurable 1 (ae_of_all _ fun t => by
      rw [Real.norm_eq_abs, abs_of_nonneg measureReal_nonneg]
      exact measureReal_le_one)
  obtain ⟨x₀⟩ : Nonempty E := nonempty_of_isProbabilityMeasure μ
  have hB : 0 ≤ B := (h0 x₀).trans (h1 x₀)
  rw [hlay μ inferInstance, hlay ν inferInstance, ← integral_sub (hmeas μ inferInstance) (hmeas ν inferInstance), ← Real.norm_eq_abs]
  refine (norm_setIntegral_le_of_norm_le_const (by simp) fun t _ => h _ (measurableSet_lt measurable_const hf)).trans (le_of_eq ?_)
  rw [Real.volume_real_Ioc_of_le hB, sub_zero]

/-! ## The law of the chain -/

/-- The law after a step. -/
noncomputable def law (κ : Measure Z) (Ψ : E → Z → E) (μ : Measure E) : Measure E := (μ.prod κ).map fun q => Ψ q.1 q.2

namespace Moves

/-- Functions that grow at most like `V`. -/
def Dom (V : E → ℝ) (φ : E → ℝ) : Prop := Measurable φ ∧ ∃ a b, 0 ≤ a ∧ ∀ x, |φ x| ≤ a * V x + b

theorem Dom.integrable (hφ : Dom V φ) {μ : Measure E} [hμ' : IsProbabilityMeasure μ] (hV : Integrable V μ) :
    Integrable φ μ := by
  obtain ⟨hm, a, b, _, hb⟩ := hφ
  exact Integrable.mono' ((hV.const_mul a).add (integrable_const b)) hm.aestronglyMeasurable (ae_of_all _ hb)

theorem self_dom (h : Moves κ Ψ V γ K) : Dom V V := ⟨h.measV, 1, 0, zero_le_one, fun x => by rw [abs_of_nonneg (h.nonneg x)]; linarith⟩

theorem push_le (h : Moves κ Ψ V γ K) (hφ : Measurable φ) {a b : ℝ} (ha : 0 ≤ a) (hb : ∀ x, |φ x| ≤ a * V x + b) (x : E) :
    ∫ ζ, |φ (Ψ x ζ)| ∂κ ≤ a * γ * V x + (a * K + b) := by
  have h1 : ∫ ζ, |φ (Ψ x ζ)| ∂κ ≤ ∫ ζ, (a * V (Ψ x ζ) + b) ∂κ :=
    integral_mono (h.integrable hφ hb x).abs (((h.int x).const_mul a).add (integrable_const b)) fun ζ => hb _
  rw [integral_add ((h.int x).const_mul a) (integrable_const b), integral_const_mul] at h1
  simp only [integral_const, probReal_univ, one_smul] at h1
  have := mul_le_mul_of_nonneg_left (h.drift x) ha
  linarith

theorem Dom.push (h : Moves κ Ψ V γ K) (hφ : Dom V φ) : Dom V (push κ Ψ φ) := by
  obtain ⟨hm, a, b, ha, hb⟩ := hφ
  exact ⟨h.measurable_push hm, a * γ, a * K + b, mul_nonneg ha h.gamma, fun x => abs_integral_le_integral_abs.trans (h.push_le hm ha hb x)⟩

theorem Dom.iterate (h : Moves κ Ψ V γ K) (hφ : Dom V φ) (n : Nat) : Dom V ((Harris.push κ Ψ)^[n] φ) := by
  induction n with
  | zero => exact hφ
  | succ n ih =>
    rw [Function.iterate_succ_apply']
    exact ih.push h

theorem law_prob (h : Moves κ Ψ V γ K) (μ : Measure E) [IsProbabilityMeasure μ] : IsProbabilityMeasure (law κ Ψ μ) :=
  Measure.isProbabilityMeasure_map h.meas.aemeasurable

theorem law_integral (h : Moves κ Ψ V γ K) {μ : Measure E} [IsProbabilityMeasure μ] (hV : Integrable V μ) (hφ : Dom V φ) :
    Integrable φ (law κ Ψ μ) ∧ ∫ x, φ x ∂law κ Ψ μ = ∫ x, push κ Ψ φ x ∂μ := by
  have hm := hφ.1
  have hi : Integrable (fun q : E × Z => φ (Ψ q.1 q.2)) (μ.prod κ) := by
    obtain ⟨_, a, b, ha, hb⟩ := hφ
    refine (integrable_prod_iff (hm.comp h.meas).aestronglyMeasurable).2 ⟨ae_of_all _ fun x => h.integrable hm hb x, ?_⟩
    have hd : Dom V (Harris.push κ Ψ fun x => |φ x|) := Dom.push h ⟨hm.norm, a, b, ha, fun x => by rw [abs_abs]; exact hb x⟩
    exact hd.integrable hV
  refine ⟨(integrable_map_measure hm.aestronglyMeasurable h.meas.aemeasurable).2 hi, ?_⟩
  rw [law, integral_map h.meas.aemeasurable hm.aestronglyMeasurable, integral_prod _ hi]
  rfl

theorem laws (h : Moves κ Ψ V γ K) {μ : Measure E} [hμ : IsProbabilityMeasure μ] (hV : Integrable V μ) (n : Nat) (hφ : Dom V φ) :
    IsProbabilityMeasure ((law κ Ψ)^[n] μ) ∧ Integrable φ ((law κ Ψ)^[n] μ) ∧
      ∫ x, φ x ∂(law κ Ψ)^[n] μ = ∫ x, (push κ Ψ)^[n] φ x ∂μ := by
  induction n generalizing μ with
  | zero => exact ⟨hμ, Dom.integrable (hμ' := hμ) hφ hV, rfl⟩
  | succ n ih =>
    have := h.law_prob μ
    obtain ⟨h1, h2, h3⟩ := ih (h.law_integral hV h.self_dom).1
    rw [Function.iterate_succ_apply]
    refine ⟨h1, h2, h3.trans ?_⟩
    rw [(h.law_integral hV (hφ.iterate h n)).2]
    simp only [← Function.iterate_succ_apply' (f := push κ Ψ)]

/-- Averages of functions below `V` stay bounded. -/
theorem bounded (h : Moves κ Ψ V γ K) (hφ : Dom V φ) (hle : ∀ x, φ x ≤ V x) (n : Nat) (x : E) :
    (push κ Ψ)^[n] φ x ≤ γ ^ n * (V x - K / (1 - γ)) + K / (1 - γ) := by
  have h1 : 0 < 1 - γ := by linarith [h.lt_one]
  induction n generalizing x with
  | zero => simpa using hle x
  | succ n ih =>
    rw [Function.iterate_succ_apply']
    have hd := hφ.iterate h n
    obtain ⟨hm, a, b, _, hb⟩ := hd
    have hi2 : Integrable (fun ζ => γ ^ n * (V (Ψ x ζ) - K / (1 - γ)) + K / (1 - γ)) κ :=
      (((h.int x).sub (integrable_const _)).const_mul _).add (integrable_const _)
    have hi3 : Integrable (fun ζ => γ ^ n * (V (Ψ x ζ) - K / (1 - γ))) κ := ((h.int x).sub (integrable_const _)).const_mul _
    have h2 := integral_mono (h.integrable hm hb x) hi2 fun ζ => ih _
    rw [integral_add hi3 (integrable_const _), integral_const_mul, integral_sub (h.int x) (integrable_const _)] at h2
    simp only [integral_const, probReal_univ, one_smul] at h2
    have h3 := mul_le_mul_of_nonneg_left (h.drift x) (pow_nonneg h.gamma n)
    have h4 : K = (1 - γ) * (K / (1 - γ)) := by field_simp
    have h5 : γ ^ n * K = γ ^ n * ((1 - γ) * (K / (1 - γ))) := by rw [← h4]
    refine h2.trans ?_
    rw [pow_succ]
    linarith

theorem stationary_le (h : Moves κ Ψ V γ K) {π : Measure E} [IsProbabilityMeasure π] (hinv : law κ Ψ π = π) (hVπ : Integrable V π) :
    ∫ x, V x ∂π ≤ K / (1 - γ) := by
  have h1 : 0 < 1 - γ := by linarith [h.lt_one]
  have h2 := (h.law_integral hVπ h.self_dom).2
  rw [hinv] at h2
  have h3 : ∫ x, push κ Ψ V x ∂π ≤ ∫ x, (γ * V x + K) ∂π :=
    integral_mono ((h.self_dom.push h).integrable hVπ) ((hVπ.const_mul γ).add (integrable_const K)) fun x => h.drift x
  rw [integral_add (hVπ.const_mul γ) (integrable_const K), integral_const_mul] at h3
  simp only [integral_const, probReal_univ, one_smul] at h3
  rw [le_div_iff₀ h1]
  linarith

end Moves

namespace Mixes
open Moves

theorem iterate (h : Mixes κ Ψ V γ K w C ρ) (hM : 0 ≤ M) (hφ : Measurable φ) (ho : Osc V w M φ) (n : Nat) :
    Measurable ((push κ Ψ)^[n] φ) ∧ Osc V w (C * ρ ^ n * M) ((push κ Ψ)^[n] φ) :=
  ⟨h.iterate_measurable hφ n, h.osc hM hφ ho n⟩

theorem osc_of_le (h : Mixes κ Ψ V γ K w C ρ) {A : ℝ} (hA : 0 ≤ A) (hb : ∀ x, |φ x| ≤ A * (1 + V x)) :
    Osc V w (A * max 1 w⁻¹) φ := fun x y => by
  have hw := h.weight_pos
  have h1 : |φ x - φ y| ≤ A * (2 + V x + V y) := (abs_sub _ _).trans (by linarith [hb x, hb y])
  refine h1.trans ?_
  rw [mul_assoc]
  refine mul_le_mul_of_nonneg_left ?_ hA
  have h2 : ∀ x, V x ≤ max 1 w⁻¹ * (w * V x) := fun x => by
    have : 1 ≤ max 1 w⁻¹ * w := by
      rw [← inv_mul_cancel₀ hw.ne']
      exact mul_le_mul_of_nonneg_right (le_max_right _ _) hw.le
    rw [← mul_assoc]
    exact le_mul_of_one_le_left (h.nonneg x) this
  have h3 : (1 : ℝ) ≤ max 1 w⁻¹ := le_max_left _ _
  linarith [h2 x, h2 y]

/-- There is a stationary law. -/
theorem stationary (h : Mixes κ Ψ V γ K w C ρ) [Nonempty E] :
    ∃ π : Measure E, IsProbabilityMeasure π ∧ law κ Ψ π = π ∧ Integrable V π ∧ ∫ x, V x ∂π ≤ K / (1 - γ) := by
  obtain ⟨x₀⟩ := ‹Nonempty E›
  have : Nonempty E := ⟨x₀⟩
  have h1 : 0 < 1 - γ := by linarith [h.lt_one]
  have hV0 : Integrable V (Measure.dirac x₀) := integrable_dirac' h.measV.stronglyMeasurable (by simp)
  have hlaws := fun (n : Nat) {φ : E → ℝ} (hφ : Dom V φ) => h.laws hV0 n hφ
  have hprob : ∀ n, IsProbabilityMeasure ((law κ Ψ)^[n] (Measure.dirac x₀)) := fun n => (hlaws n h.self_dom).1
  have hdirac : ∀ n {φ : E → ℝ}, Dom V φ → ∫ x, φ x ∂(law κ Ψ)^[n] (Measure.dirac x₀) = (push κ Ψ)^[n] φ x₀ := fun n φ hφ => by
    rw [(hlaws n hφ).2.2, integral_dirac' _ _ (hφ.iterate h.toMoves n).1.stronglyMeasurable]
  have hind : ∀ A : Set E, MeasurableSet A → Dom V (A.indicator fun _ => (1 : ℝ)) := fun A hA =>
    ⟨measurable_const.indicator hA, 0, 1, le_rfl, fun x => by by_cases hx : x ∈ A <;> simp [hx]⟩
  have hreal : ∀ n A, MeasurableSet A → ((law κ Ψ)^[n] (Measure.dirac x₀)).real A = (push κ Ψ)^[n] (A.indicator fun _ => (1 : ℝ)) x₀ :=
    fun n A hA => by
      rw [← hdirac n (hind A hA), integral_indicator_const _ hA, smul_eq_mul, mul_one]
  -- the laws form a Cauchy sequence, uniformly on all sets
  have hw := h.weight_pos
  set c := C * (1 / 2 * (2 + w * V x₀ + w * (γ * V x₀ + K))) with hc
  have hstep : ∀ n A, MeasurableSet A → dist (((law κ Ψ)^[n] (Measure.dirac x₀)).real A) (((law κ Ψ)^[n + 1] (Measure.dirac x₀)).real A) ≤
      c * ρ ^ n := fun n A hA => by
    rw [hreal n A hA, hreal (n + 1) A hA, Function.iterate_succ_apply', Real.dist_eq]
    have ho : Osc V w (1 / 2) (A.indicator fun _ => (1 : ℝ)) := fun x y => by
      have hx := mul_nonneg hw.le (h.nonneg x)
      have hy := mul_nonneg hw.le (h.nonneg y)
      have : |A.indicator (fun _ => (1 : ℝ)) x - A.indicator (fun _ => (1 : ℝ)) y| ≤ 1 := by
        by_cases hx : x ∈ A <;> by_cases hy : y ∈ A <;> simp [hx, hy]
      linarith
    obtain ⟨hm, hosc⟩ := h.iterate (by norm_num) (hind A hA).1 ho n
    set g := (push κ Ψ)^[n] (A.indicator fun _ => (1 : ℝ))
    obtain ⟨_, a, b, _, hb⟩ := (hind A hA).iterate h.toMoves n
    have hi := h.integrable hm hb x₀
    have he : g x₀ - push κ Ψ g x₀ = ∫ ζ, (g x₀ - g (Ψ x₀ ζ)) ∂κ := by
      rw [integral_sub (integrable_const _) hi]
      simp [push]
    rw [he]
    refine abs_integral_le_integral_abs.trans ?_
    have hi2 : Integrable (fun ζ => C * ρ ^ n * (1 / 2) * (2 + w * V x₀ + w * V (Ψ x₀ ζ))) κ :=
      ((integrable_const (2 + w * V x₀)).add ((h.int x₀).const_mul w)).const_mul _
    refine (integral_mono ((integrable_const _).sub hi).abs hi2 fun ζ => hosc _ _).trans ?_
    rw [integral_const_mul, integral_add (integrable_const (2 + w * V x₀)) ((h.int x₀).const_mul w), integral_const_mul]
    simp only [integral_const, probReal_univ, one_smul]
    have h2 := mul_le_mul_of_nonneg_left (h.drift x₀) hw.le
    have h3 : C * ρ ^ n * (1 / 2) * (2 + w * V x₀ + w * ∫ ζ, V (Ψ x₀ ζ) ∂κ) ≤
        C * ρ ^ n * (1 / 2) * (2 + w * V x₀ + w * (γ * V x₀ + K)) :=
      mul_le_mul_of_nonneg_left (by linarith) (mul_nonneg (mul_nonneg h.const_nonneg (pow_nonneg h.rate_nonneg n)) (by norm_num))
    rw [hc]
    linarith
  have hlim : ∀ A, ∃ l, MeasurableSet A → Tendsto (fun n => ((law κ Ψ)^[n] (Measure.dirac x₀)).real A) atTop (𝓝 l) := fun A => by
    by_cases hA : MeasurableSet A
    · obtain ⟨l, hl⟩ := cauchySeq_tendsto_of_complete (cauchySeq_of_le_geometric _ _ h.rate_lt fun n => hstep n A hA)
      exact ⟨l, fun _ => hl⟩
    · exact ⟨0, fun hA' => absurd hA' hA⟩
  choose ℓ hℓ using hlim
  have hbound : ∀ n A, MeasurableSet A → |((law κ Ψ)^[n] (Measure.dirac x₀)).real A - ℓ A| ≤ c * ρ ^ n / (1 - ρ) :=
    fun n A hA => dist_le_of_le_geometric_of_tendsto _ _ h.rate_lt (fun n => hstep n A hA) (hℓ A hA) n
  have hr : Tendsto (fun n => c * ρ ^ n / (1 - ρ)) atTop (𝓝 0) := by
    have := ((tendsto_pow_atTop_nhds_zero_of_lt_one h.rate_nonneg h.rate_lt).const_mul c).div_const (1 - ρ)
    simpa using this
  obtain ⟨π, hπ, hπℓ⟩ := limit_measure hprob hr hbound
  have hclose : ∀ n {f : E → ℝ} {B : ℝ}, Measurable f → (∀ x, 0 ≤ f x) → (∀ x, f x ≤ B) →
      |∫ x, f x ∂(law κ Ψ)^[n] (Measure.dirac x₀) - ∫ x, f x ∂π| ≤ c * ρ ^ n / (1 - ρ) * B := fun n f B hf h0 hB => by
    have := hprob n
    exact close_integral (fun A hA => by rw [hπℓ A hA]; exact hbound n A hA) hf h0 hB
  have hconv : ∀ {f : E → ℝ} {B : ℝ}, Measurable f → (∀ x, 0 ≤ f x) → (∀ x, f x ≤ B) →
      Tendsto (fun n => ∫ x, f x ∂(law κ Ψ)^[n] (Measure.dirac x₀)) atTop (𝓝 (∫ x, f x ∂π)) := fun {f B} hf h0 hB => by
    rw [tendsto_iff_dist_tendsto_zero]
    refine squeeze_zero (fun _ => dist_nonneg) (fun n => hclose n hf h0 hB) ?_
    simpa using hr.mul_const B
  -- `V` has an average
  have hmin : ∀ N : Nat, ∫ x, min (V x) N ∂π ≤ V x₀ + K / (1 - γ) := fun N => by
    have hm : Measurable fun x => min (V x) (N : ℝ) := h.measV.min measurable_const
    have h0 : ∀ x, 0 ≤ min (V x) (N : ℝ) := fun x => le_min (h.nonneg x) (Nat.cast_nonneg N)
    have hdom : Dom V fun x => min (V x) (N : ℝ) :=
      ⟨hm, 1, 0, zero_le_one, fun x => by rw [abs_of_nonneg (h0 x)]; linarith [min_le_left (V x) (N : ℝ)]⟩
    refine le_of_tendsto' (hconv hm h0 fun x => min_le_right _ _) fun n => ?_
    rw [hdirac n hdom]
    refine (h.bounded hdom (fun x => min_le_left _ _) n x₀).trans ?_
    have hg1 : γ ^ n ≤ 1 := pow_le_one₀ h.gamma h.lt_one.le
    have hg0 : 0 ≤ γ ^ n := pow_nonneg h.gamma n
    have hK := div_nonneg h.pos h1.le
    have := mul_le_mul_of_nonneg_right hg1 (h.nonneg x₀)
    have := mul_nonneg hg0 hK
    linarith
  have hVπ : Integrable V π := by
    refine ⟨h.measV.aestronglyMeasurable, ?_⟩
    have hfat : ∫⁻ x, ENNReal.ofReal (V x) ∂π ≤ ENNReal.ofReal (V x₀ + K / (1 - γ)) := by
      have hpt : ∀ x, ENNReal.ofReal (V x) = liminf (fun N : Nat => ENNReal.ofReal (min (V x) N)) atTop := fun x => by
        refine (Tendsto.liminf_eq (tendsto_nhds_of_eventually_eq ?_)).symm
        obtain ⟨N, hN⟩ := exists_nat_ge (V x)
        filter_upwards [eventually_ge_atTop N] with k hk
        rw [min_eq_left (hN.trans (by exact_mod_cast hk))]
      simp only [hpt]
      refine (lintegral_liminf_le fun N => (h.measV.min measurable_const).ennreal_ofReal).trans ?_
      refine liminf_le_of_le (by isBoundedDefault) fun b hb => ?_
      obtain ⟨N, hN⟩ := hb.exists
      refine hN.trans ?_
      have h0 : ∀ x, 0 ≤ min (V x) (N : ℝ) := fun x => le_min (h.nonneg x) (Nat.cast_nonneg N)
      rw [← ofReal_integral_eq_lintegral_ofReal _ (ae_of_all _ h0)]
      · exact ENNReal.ofReal_le_ofReal (hmin N)
      · exact Integrable.of_bound (h.measV.min measurable_const).aestronglyMeasurable N (ae_of_all _ fun x => by
          rw [Real.norm_eq_abs, abs_of_nonneg (h0 x)]
          exact min_le_right _ _)
    rw [hasFiniteIntegral_iff_ofReal (ae_of_all _ h.nonneg)]
    exact hfat.trans_lt ENNReal.ofReal_lt_top
  have hlawprob := h.law_prob π
  have hinv : law κ Ψ π = π := by
    refine Measure.ext fun A hA => ?_
    rw [← ENNReal.toReal_eq_toReal_iff' (measure_ne_top _ _) (measure_ne_top _ _)]
    change (law κ Ψ π).real A = π.real A
    have h2 : (law κ Ψ π).real A = ∫ x, push κ Ψ (A.indicator fun _ => (1 : ℝ)) x ∂π := by
      rw [← (h.law_integral hVπ (hind A hA)).2, integral_indicator_const _ hA, smul_eq_mul, mul_one]
    rw [h2, hπℓ A hA]
    have hdp : Dom V (push κ Ψ (A.indicator fun _ => (1 : ℝ))) := (hind A hA).push h.toMoves
    have hnn : ∀ x, 0 ≤ A.indicator (fun _ => (1 : ℝ)) x := fun x => Set.indicator_nonneg (fun _ _ => zero_le_one) x
    have hle : ∀ x, A.indicator (fun _ => (1 : ℝ)) x ≤ 1 := fun x => Set.indicator_le' (fun _ _ => le_rfl) (fun _ _ => zero_le_one) x
    refine tendsto_nhds_unique (hconv (B := 1) hdp.1 (fun x => integral_nonneg fun ζ => hnn _) fun x => ?_) ?_
    · have := integral_mono (h.integrable (a := 0) (b := 1) (hind A hA).1 (fun x => by rw [abs_of_nonneg (hnn x)]; linarith [hle x]) x)
        (integrable_const (1 : ℝ)) fun ζ => hle _
      exact this.trans (by simp)
    · have h3 : ∀ n, ∫ x, push κ Ψ (A.indicator fun _ => (1 : ℝ)) x ∂(law κ Ψ)^[n] (Measure.dirac x₀) =
          ((law κ Ψ)^[n + 1] (Measure.dirac x₀)).real A := fun n => by
        rw [hdirac n hdp, hreal (n + 1) A hA, Function.iterate_succ_apply]
      simp only [h3]
      exact (hℓ A hA).comp (tendsto_add_atTop_nat 1)
  exact ⟨π, hπ, hinv, hVπ, h.stationary_le hinv hVπ⟩

theorem law_iterate {π : Measure E} (hinv : law κ Ψ π = π) (n : Nat) : (law κ Ψ)^[n] π = π := Function.iterate_fixed hinv n

/-- How much a start counts. -/
noncomputable def gap (γ K w C : ℝ) : ℝ := C * max 1 w⁻¹ * (2 + w * (K / (1 - γ)) + w)

theorem gap_nonneg (h : Mixes κ Ψ V γ K w C ρ) : 0 ≤ gap γ K w C := by
  have := h.weight_pos
  have : 0 ≤ K / (1 - γ) := div_nonneg h.pos (by linarith [h.lt_one])
  have : (0 : ℝ) ≤ max 1 w⁻¹ := zero_le_one.trans (le_max_left _ _)
  have := h.const_nonneg
  unfold gap
  positivity

/-- Averages approach those of the stationary law. -/
theorem geometric (h : Mixes κ Ψ V γ K w C ρ) [Nonempty E] {π : Measure E} [IsProbabilityMeasure π] (hinv : law κ Ψ π = π)
    (hVπ : Integrable V π) (hπ : ∫ x, V x ∂π ≤ K / (1 - γ)) (hφ : Measurable φ) {A : ℝ} (hA : 0 ≤ A) (hb : ∀ x, |φ x| ≤ A * (1 + V x))
    (n : Nat) (x : E) : |(push κ Ψ)^[n] φ x - ∫ y, φ y ∂π| ≤ A * gap γ K w C * (1 + V x) * ρ ^ n := by
  have hd : Dom V φ := ⟨hφ, A, A, hA, fun x => (hb x).trans (by linarith)⟩
  have hm : 0 ≤ A * max 1 w⁻¹ := mul_nonneg hA (zero_le_one.trans (le_max_left _ _))
  obtain ⟨h1, h2⟩ := h.iterate hm hφ (h.osc_of_le hA hb) n
  have h3 := (h.laws hVπ n hd).2.2
  rw [law_iterate hinv] at h3
  have hi := (hd.iterate h.toMoves n).integrable hVπ
  have hw := h.weight_pos
  set g := (push κ Ψ)^[n] φ
  have he : g x - ∫ y, φ y ∂π = ∫ y, (g x - g y) ∂π := by
    rw [h3, integral_sub (integrable_const _) hi]
    simp
  rw [he]
  refine abs_integral_le_integral_abs.trans ?_
  have hi2 : Integrable (fun y => C * ρ ^ n * (A * max 1 w⁻¹) * (2 + w * V x + w * V y)) π :=
    ((integrable_const (2 + w * V x)).add (hVπ.const_mul w)).const_mul _
  refine (integral_mono ((integrable_const _).sub hi).abs hi2 fun y => h2 _ _).trans ?_
  rw [integral_const_mul, integral_add (integrable_const (2 + w * V x)) (hVπ.const_mul w), integral_const_mul]
  simp only [integral_const, probReal_univ, one_smul]
  have hV := h.nonneg x
  have hK := div_nonneg h.pos (by linarith [h.lt_one] : 0 ≤ 1 - γ)
  have h4 : 2 + w * V x + w * ∫ y, V y ∂π ≤ (2 + w * (K / (1 - γ)) + w) * (1 + V x) := by
    have h5 := mul_le_mul_of_nonneg_left hπ hw.le
    have h6 : 0 ≤ (2 + w * (K / (1 - γ))) * V x := by positivity
    linarith
  have h7 := mul_le_mul_of_nonneg_left h4 (mul_nonneg (mul_nonneg h.const_nonneg (pow_nonneg h.rate_nonneg n)) hm)
  refine h7.trans (le_of_eq ?_)
  rw [gap]
  ring

/-- The stationary law is unique. -/
theorem unique (h : Mixes κ Ψ V γ K w C ρ) [Nonempty E] {π π' : Measure E} [IsProbabilityMeasure π] [IsProbabilityMeasure π']
    (hinv : law κ Ψ π = π) (hVπ : Integrable V π) (hπ : ∫ x, V x ∂π ≤ K / (1 - γ)) (hinv' : law κ Ψ π' = π') (hVπ' : Integrable V π') :
    π' = π := by
  refine Measure.ext fun A hA => ?_
  rw [← ENNReal.toReal_eq_toReal_iff' (measure_ne_top _ _) (measure_ne_top _ _)]
  change π'.real A = π.real A
  have hind : Measurable (A.indicator fun _ => (1 : ℝ)) := measurable_const.indicator hA
  have hb : ∀ x, |A.indicator (fun _ => (1 : ℝ)) x| ≤ 1 * (1 + V x) := fun x => by
    have := h.nonneg x
    by_cases hx : x ∈ A <;> simp [hx] <;> linarith
  have hd : Dom V (A.indicator fun _ => (1 : ℝ)) := ⟨hind, 1, 1, zero_le_one, fun x => (hb x).trans (by linarith)⟩
  have hreal : ∀ ρ : Measure E, ∫ x, A.indicator (fun _ => (1 : ℝ)) x ∂ρ = ρ.real A := fun ρ => by
    rw [integral_indicator_const _ hA, smul_eq_mul, mul_one]
  have hn : ∀ n : Nat, |π'.real A - π.real A| ≤ 1 * gap γ K w C * (1 + ∫ x, V x ∂π') * ρ ^ n := fun n => by
    have h3 := (h.laws hVπ' n hd).2.2
    rw [law_iterate hinv', hreal] at h3
    have hi := (hd.iterate h.toMoves n).integrable hVπ'
    have he : π'.real A - π.real A = ∫ x, ((push κ Ψ)^[n] (A.indicator fun _ => (1 : ℝ)) x - π.real A) ∂π' := by
      rw [h3, integral_sub hi (integrable_const _)]
      simp
    rw [he]
    refine abs_integral_le_integral_abs.trans ?_
    have hi2 : Integrable (fun x => 1 * gap γ K w C * (1 + V x) * ρ ^ n) π' :=
      (((integrable_const 1).add hVπ').const_mul _).mul_const _
    refine (integral_mono (hi.sub (integrable_const _)).abs hi2 fun x => ?_).trans (le_of_eq ?_)
    · have := h.geometric hinv hVπ hπ hind zero_le_one hb n x
      rwa [hreal] at this
    · rw [integral_mul_const, integral_const_mul, integral_add (integrable_const 1) hVπ']
      simp
  have hz : Tendsto (fun n => 1 * gap γ K w C * (1 + ∫ x, V x ∂π') * ρ ^ n) atTop (𝓝 0) := by
    simpa using (tendsto_pow_atTop_nhds_zero_of_lt_one h.rate_nonneg h.rate_lt).const_mul (1 * gap γ K w C * (1 + ∫ x, V x ∂π'))
  have := le_antisymm (ge_of_tendsto' hz hn) (abs_nonneg _)
  linarith [abs_eq_zero.1 this]

end Mixes

/-! ## Averages along the chain -/

section chain
open Moves
variable {Ω : Type*} [MeasurableSpace Ω] {P : Measure Ω} [IsProbabilityMeasure P] {ζ : Nat → Ω → Z}

/-- What is known before step `k`. -/
@[instance_reducible] def before (ζ : Nat → Ω → Z) (k : Nat) : MeasurableSpace Ω := ⨆ j ∈ Set.Iio k, MeasurableSpace.comap (ζ j) inferInstance

theorem before_measurable (hΨ : Measurable fun q : E × Z => Ψ q.1 q.2) {X : Nat → Ω → E} {x₀ : E} (h0 : ∀ ω, X 0 ω = x₀)
    (hX : ∀ k ω, X (k + 1) ω = Ψ (X k ω) (ζ k ω)) (k : Nat) : Measurable[before ζ k] (X k) := by
  induction k with
  | zero =>
    rw [show X 0 = fun _ => x₀ from funext h0]
    exact measurable_const
  | succ k ih =>
    rw [show X (k + 1) = fun ω => Ψ (X k ω) (ζ k ω) from funext (hX k)]
    have hmono : before ζ k ≤ before ζ (k + 1) := biSup_mono fun j hj => by
      simp only [Set.mem_Iio] at *
      omega
    have hz : Measurable[before ζ (k + 1)] (ζ k) := by
      rw [measurable_iff_comap_le]
      exact le_biSup (fun j => MeasurableSpace.comap (ζ j) inferInstance) (show k ∈ Set.Iio (k + 1) from Nat.lt_succ_self k)
    exact hΨ.comp (Measurable.prodMk (ih.mono hmono le_rfl) hz)

theorem before_indepFun (hζ : ∀ k, Measurable (ζ k)) (hi : iIndepFun ζ P) (k : Nat) {Y : Ω → E} (hY : Measurable[before ζ k] Y) :
    IndepFun Y (ζ k) P := by
  have h := indep_iSup_of_disjoint (m := fun j => MeasurableSpace.comap (ζ j) inferInstance) (μ := P)
    (fun j => (hζ j).comap_le) hi (S := Set.Iio k) (T := {k}) (by rw [Set.disjoint_singleton_right]; simp)
  rw [IndepFun_iff_Indep]
  refine indep_of_indep_of_le_left (indep_of_indep_of_le_right h ?_) ?_
  · simp
  · rw [← measurable_iff_comap_le]
    exact hY

/-- The law of a chain driven by independent draws. -/
theorem chain_law (hΨ : Measurable fun q : E × Z => Ψ q.1 q.2) (hζ : ∀ k, Measurable (ζ k)) (hi : iIndepFun ζ P) (hlaw : ∀ k, P.map (ζ k) = κ)
    {X : Nat → Ω → E} {x₀ : E} (h0 : ∀ ω, X 0 ω = x₀) (hX : ∀ k ω, X (k + 1) ω = Ψ (X k ω) (ζ k ω)) (k : Nat) :
    Measurable (X k) ∧ P.map (X k) = (law κ Ψ)^[k] (Measure.dirac x₀) := by
  have hle : ∀ k, before ζ k ≤ ‹MeasurableSpace Ω› := fun k => iSup₂_le fun j _ => (hζ j).comap_le
  have hm : ∀ k, Measurable (X k) := fun k => (before_measurable hΨ h0 hX k).mono (hle k) le_rfl
  refine ⟨hm k, ?_⟩
  induction k with
  | zero => rw [show X 0 = fun _ => x₀ from funext h0, Measure.map_const]; simp
  | succ k ih =>
    rw [Function.iterate_succ_apply', ← ih, law, ← hlaw k,
      ← (before_indepFun hζ hi k (before_measurable hΨ h0 hX k)).map_prod_eq_prod_map_map (hm k).aemeasurable (hζ k).aemeasurable,
      Measure.map_map hΨ ((hm k).prodMk (hζ k))]
    congr 1
    exact funext (hX k)

/-- Averages along the chain approach those of the stationary law. -/
theorem Mixes.chain (h : Mixes κ Ψ V γ K w C ρ) [Nonempty E] (hζ : ∀ k, Measurable (ζ k)) (hi : iIndepFun ζ P) (hlaw : ∀ k, P.map (ζ k) = κ)
    {X : Nat → Ω → E} {x₀ : E} (h0 : ∀ ω, X 0 ω = x₀) (hX : ∀ k ω, X (k + 1) ω = Ψ (X k ω) (ζ k ω))
    {π : Measure E} [IsProbabilityMeasure π] (hinv : law κ Ψ π = π) (hVπ : Integrable V π) (hπ : ∫ x, V x ∂π ≤ K / (1 - γ))
    (hφ : Measurable φ) {A : ℝ} (hA : 0 ≤ A) (hb : ∀ x, |φ x| ≤ A * (1 + V x)) (k : Nat) :
    Integrable (fun ω => φ (X k ω)) P ∧
      |∫ ω, φ (X k ω) ∂P - ∫ y, φ y ∂π| ≤ A * gap γ K w C * (1 + V x₀) * ρ ^ k := by
  have hV0 : Integrable V (Measure.dirac x₀) := integrable_dirac' h.measV.stronglyMeasurable (by simp)
  have hd : Dom V φ := ⟨hφ, A, A, hA, fun x => (hb x).trans (by linarith)⟩
  obtain ⟨hm, hl⟩ := chain_law h.meas hζ hi hlaw h0 hX k
  obtain ⟨_, h2, h3⟩ := h.laws hV0 k hd
  rw [← hl] at h2 h3
  rw [integral_map hm.aemeasurable hφ.aestronglyMeasurable, integral_dirac' _ _ (hd.iterate h.toMoves k).1.stronglyMeasurable] at h3
  refine ⟨(integrable_map_measure hφ.aestronglyMeasurable hm.aemeasurable).1 h2, ?_⟩
  rw [h3]
  exact h.geometric hinv hVπ hπ hφ hA hb k x₀

/-- `V` stays bounded on average. -/
theorem Moves.moment (h : Moves κ Ψ V γ K) (hζ : ∀ k, Measurable (ζ k)) (hi : iIndepFun ζ P) (hlaw : ∀ k, P.map (ζ k) = κ)
    {X : Nat → Ω → E} {x₀ : E} (h0 : ∀ ω, X 0 ω = x₀) (hX : ∀ k ω, X (k + 1) ω = Ψ (X k ω) (ζ k ω)) (k : Nat) :
    Integrable (fun ω => V (X k ω)) P ∧ ∫ ω, V (X k ω) ∂P ≤ V x₀ + K / (1 - γ) := by
  have hV0 : Integrable V (Measure.dirac x₀) := integrable_dirac' h.measV.stronglyMeasurable (by simp)
  have hd := h.self_dom
  obtain ⟨hm, hl⟩ := chain_law h.meas hζ hi hlaw h0 hX k
  obtain ⟨_, h2, h3⟩ := h.laws hV0 k hd
  rw [← hl] at h2 h3
  rw [integral_map hm.aemeasurable h.measV.aestronglyMeasurable, integral_dirac' _ _ (hd.iterate h k).1.stronglyMeasurable] at h3
  refine ⟨(integrable_map_measure h.measV.aestronglyMeasurable hm.aemeasurable).1 h2, ?_⟩
  rw [h3]
  refine (h.bounded hd (fun x => le_rfl) k x₀).trans ?_
  have hg1 : γ ^ k ≤ 1 := pow_le_one₀ h.gamma h.lt_one.le
  have hK := div_nonneg h.pos (by linarith [h.lt_one] : 0 ≤ 1 - γ)
  have := mul_le_mul_of_nonneg_right hg1 (h.nonneg x₀)
  have := mul_nonneg (pow_nonneg h.gamma k) hK
  linarith

end chain
end PySGMCMC.Harris
