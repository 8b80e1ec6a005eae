import Verif.Lemmas.MomentumStep

/-!
# The law that a step with momentum nearly keeps
-/

open MeasureTheory ProbabilityTheory PySGMCMC.Contraction PySGMCMC.Recipe PySGMCMC.Invariance
namespace PySGMCMC.Langevin
set_option linter.unusedSectionVars false

variable {E : Type*} [NormedAddCommGroup E] [InnerProductSpace ℝ E] [FiniteDimensional ℝ E] [MeasurableSpace E] [BorelSpace E]
  {F : Type*} [NormedAddCommGroup F] [NormedSpace ℝ F] {A₁ A₂ : ℝ} {u : F → ℝ} {D : F → F →L[ℝ] ℝ}

theorem Smooth.comp_linear {E : Type*} [NormedAddCommGroup E] [NormedSpace ℝ E] (hu : Smooth A₁ A₂ u D) (hA : 0 ≤ A₂) (A : E →L[ℝ] F) :
    Smooth (‖A‖ * A₁) (‖A‖ ^ 2 * A₂) (fun x => u (A x)) fun x => (D (A x)).comp A where
  deriv x := (hu.deriv _).comp x A.hasFDerivAt
  bound x := by
    refine (ContinuousLinearMap.opNorm_comp_le _ _).trans ?_
    rw [mul_comm]
    exact mul_le_mul_of_nonneg_left (hu.bound _) (norm_nonneg _)
  lip x y := by
    rw [← ContinuousLinearMap.sub_comp]
    refine (ContinuousLinearMap.opNorm_comp_le _ _).trans ?_
    have h1 : ‖A x - A y‖ ≤ ‖A‖ * ‖x - y‖ := by rw [← map_sub]; exact A.le_opNorm _
    calc _ ≤ (A₂ * (‖A‖ * ‖x - y‖)) * ‖A‖ :=
          mul_le_mul_of_nonneg_right ((hu.lip _ _).trans (mul_le_mul_of_nonneg_left h1 hA)) (norm_nonneg _)
      _ = _ := by ring

theorem abs_integral_le_const {X : Type*} [MeasurableSpace X] {P : Measure X} [IsProbabilityMeasure P] {f : X → ℝ} {C : ℝ}
    (h : ∀ x, |f x| ≤ C) : |∫ x, f x ∂P| ≤ C :=
  (norm_integral_le_of_norm_le_const (μ := P) (f := f) (C := C) (.of_forall h)).trans (le_of_eq (by rw [probReal_univ, mul_one]))

/-- What a step with noise of the right size leaves almost unchanged: the position minus half the momentum has the target density, and
the momentum is independent of it. -/
noncomputable def phaseLaw (π N : Measure E) (A : E × E →L[ℝ] F) (τ : ℝ) [MeasurableSpace F] : Measure F :=
  (π.prod N).map fun q => A (q.1, τ • q.2)

section

variable [MeasurableSpace F] [BorelSpace F] {π N : Measure E} {A : E × E →L[ℝ] F} {τ : ℝ}

theorem phase_continuous : Continuous fun q : E × E => A (q.1, τ • q.2) := A.continuous.comp (continuous_fst.prodMk (continuous_snd.const_smul τ))

theorem phaseLaw_prob [IsProbabilityMeasure π] [IsProbabilityMeasure N] : IsProbabilityMeasure (phaseLaw π N A τ) :=
  Measure.isProbabilityMeasure_map phase_continuous.measurable.aemeasurable

theorem phaseLaw_norm [IsProbabilityMeasure π] (hπ : Integrable (fun x => ‖x‖) π) (hN : Noise N) : Integrable (fun y => ‖y‖) (phaseLaw π N A τ) := by
  have := hN.prob
  unfold phaseLaw
  rw [integrable_map_measure continuous_norm.measurable.aestronglyMeasurable phase_continuous.measurable.aemeasurable]
  refine (((hπ.comp_fst N).add ((hN.norm.const_mul |τ|).comp_snd π)).const_mul ‖A‖).mono'
    (continuous_norm.comp phase_continuous).aestronglyMeasurable (.of_forall fun q => ?_)
  simp only [Function.comp_apply, norm_norm, Pi.add_apply]
  refine (A.le_opNorm _).trans (mul_le_mul_of_nonneg_left ?_ (norm_nonneg _))
  refine max_le (le_add_of_nonneg_right (by positivity)) (le_trans (le_of_eq ?_) (le_add_of_nonneg_left (norm_nonneg _)))
  rw [norm_smul, Real.norm_eq_abs]

end

variable {J : Type} [Fintype J] [DecidableEq J] {m : J → ℝ} {hm : ∀ j, 0 < m j} {lo hi : ℝ} {Bt : Type} [MeasurableSpace Bt]
  {ν : Measure Bt} [IsProbabilityMeasure ν]
  {U : (J → ℝ) → ℝ} {γ : Bt → (J → ℝ) → J → ℝ} {μ L L₂ Λ b β t s : ℝ} {N : Measure (EuclideanSpace ℝ J)}

namespace ConvexBatches

theorem driftE_lip (h : ConvexBatches ν U γ μ L L₂ Λ) (hhi : 0 ≤ hi) (hh : ∀ j, m j ≤ hi) (ζ : Bt) (x y : EuclideanSpace ℝ J) :
    ‖driftE m hm γ ζ x - driftE m hm γ ζ y‖ ≤ √(Fintype.card J) * (Λ * hi) * ‖x - y‖ := by
  have h1 := h.batch.lip ζ ((scaled m hm).symm x) ((scaled m hm).symm y)
  have h2 : ‖(scaled m hm).symm x - (scaled m hm).symm y‖ ≤ √hi * ‖x - y‖ := by rw [← map_sub]; exact scaled_symm_le hh _
  have h3 := h1.trans (mul_le_mul_of_nonneg_left h2 h.batch.nonneg)
  unfold driftE
  rw [← map_sub]
  refine ((massL m hm).le_opNorm _).trans ((mul_le_mul (massL_norm hh) h3 (norm_nonneg _) (Real.sqrt_nonneg _)).trans (le_of_eq ?_))
  rw [Real.sqrt_mul hhi]
  calc √hi * √(Fintype.card J) * (Λ * (√hi * ‖x - y‖)) = √(Fintype.card J) * (Λ * (√hi * √hi)) * ‖x - y‖ := by ring
    _ = _ := by rw [Real.mul_self_sqrt hhi]

variable {G : Type*} [NormedAddCommGroup G] [InnerProductSpace ℝ G] [FiniteDimensional ℝ G] [MeasurableSpace G] [BorelSpace G] {W : Moves J G}
  {u : G → ℝ} {D : G → G →L[ℝ] ℝ} {σ τ r ρ ℓ : ℝ} {R : EuclideanSpace ℝ J →L[ℝ] EuclideanSpace ℝ J}
  {A : EuclideanSpace ℝ J × EuclideanSpace ℝ J →L[ℝ] G} {Ψ' : G → Bt × EuclideanSpace ℝ J → G →L[ℝ] G}

/-- How the state is made of `x - v / 2` and the momentum `v`. -/
structure Lifts (W : Moves J G) (A : EuclideanSpace ℝ J × EuclideanSpace ℝ J →L[ℝ] G) (b r β t σ : ℝ) : Prop where
  pos : ∀ p v, W.pos (A (p, v)) = p + (1 / 2 : ℝ) • v
  step : ∀ p v g z, W.keep (A (p, v)) - b • W.kick g + W.kick (r • z)
    = A (p + (1 / 2 : ℝ) • (v + (β • v - t • g + σ • z)), β • v - t • g + σ • z)

/-- The bound of `one_step_pair`. -/
noncomputable def pairError (ν : Measure Bt) (γ : Bt → (J → ℝ) → J → ℝ) (U : (J → ℝ) → ℝ) (s c Λ hi t : ℝ)
    (M : Measure (EuclideanSpace ℝ J × EuclideanSpace ℝ J)) (A₁ A₂ : ℝ) : ℝ :=
  A₂ * (2 * t ^ 2 * (sizeG ν γ U s c Λ hi + 4 * (√(Fintype.card J) * (Λ * hi)) ^ 2 * ∫ q, ‖q‖ ^ 2 ∂M)
      + t * ((1 + sizeG ν γ U s c Λ hi) * (∫ q, ‖q‖ ∂M) + 2 * (√(Fintype.card J) * (Λ * hi)) * ∫ q, ‖q‖ ^ 2 ∂M)
      + s * (1 + sizeG ν γ U s c Λ hi) * ∫ q, ‖q‖ ^ 3 ∂M)
    + A₁ * (2 * (√(Fintype.card J) * (Λ * hi)) * t * ∫ q, ‖q‖ ∂M)

/-- A step with noise of the right size. -/
theorem ideal_invariant (h : ConvexBatches ν U γ μ L L₂ Λ) (hN : Noise N) (hs : 0 < s) {c : ℝ}
    (hp : IsProbabilityMeasure (boltz fun x => s * U x + c)) (hlo : 0 < lo) (hlh : ∀ j, lo ≤ m j ∧ m j ≤ hi) (hhi : 0 ≤ hi) (ht : 0 ≤ t)
    (hη : (N.prod N).map (fun q => (β * τ) • q.1 + σ • q.2) = N.map (fun y => τ • y))
    {M : Measure (EuclideanSpace ℝ J × EuclideanSpace ℝ J)} (hM : M = (N.prod N).map (combine ((1 + β) * τ / 2) (σ / 2) (β * τ) σ))
    (hP : PairNoise M (t / s)) (hW : Lifts W A b r β t σ) (hu : Smooth A₁ A₂ u D) (hA : 0 ≤ A₂) :
    |∫ q : (EuclideanSpace ℝ J × EuclideanSpace ℝ J) × (Bt × EuclideanSpace ℝ J),
          u (stepP m hm γ b W (r • ContinuousLinearMap.id ℝ _) (A (q.1.1, τ • q.1.2)) q.2)
          ∂(((law (volume.map (scaled m hm)) (densE m hm U s c)).prod N).prod (ν.prod N))
        - ∫ y, u y ∂phaseLaw (law (volume.map (scaled m hm)) (densE m hm U s c)) N A τ|
      ≤ pairError ν γ U s c Λ hi t M (‖A‖ * A₁) (‖A‖ ^ 2 * A₂) := by
  have hT := h.target (hm := hm) hs hp hlo hlh
  have : IsProbabilityMeasure (law (volume.map (scaled m hm)) (densE m hm U s c)) := hT.prob
  have := hN.prob
  have := hP.prob
  obtain ⟨hsq, hG, hg⟩ := h.drift_sq (hm := hm) hs hp hhi fun j => (hlh j).2
  have : (volume.map (scaled m hm) : Measure (EuclideanSpace ℝ J)).IsAddHaarMeasure := ContinuousLinearEquiv.isAddHaarMeasure_map _ _
  have hLam : 0 ≤ √(Fintype.card J) * (Λ * hi) := mul_nonneg (Real.sqrt_nonneg _) (mul_nonneg h.batch.nonneg hhi)
  have hUA := hu.comp_linear hA A
  have h1 := hT.one_step_pair hs.le ht hP (by field_simp) hUA (by positivity) h.driftE_measurable h.drift_mean hLam
    (h.driftE_lip hhi fun j => (hlh j).2) hsq
  set π := law (volume.map (scaled m hm)) (densE m hm U s c) with hπ
  -- the two sides
  have mstep : Measurable fun q : (EuclideanSpace ℝ J × EuclideanSpace ℝ J) × (Bt × EuclideanSpace ℝ J) =>
      u (stepP m hm γ b W (r • ContinuousLinearMap.id ℝ _) (A (q.1.1, τ • q.1.2)) q.2) :=
    hu.continuous.measurable.comp ((h.stepP_measurable (W := W)).comp ((phase_continuous.measurable.comp measurable_fst).prodMk measurable_snd))
  have hcomm := prod_comm4 π ν N N
  have mc : Measurable (combine ((1 + β) * τ / 2) (σ / 2) (β * τ) σ : EuclideanSpace ℝ J × EuclideanSpace ℝ J → _) := combine_continuous.measurable
  have mdr : Measurable fun q : (EuclideanSpace ℝ J × Bt) × (EuclideanSpace ℝ J × EuclideanSpace ℝ J) =>
      driftE m hm γ q.1.2 (q.1.1 + (q.2.1 - (1 / 2 : ℝ) • q.2.2)) :=
    h.driftE_measurable.comp ((measurable_fst.fst.add (measurable_snd.fst.sub (measurable_snd.snd.const_smul (1 / 2 : ℝ)))).prodMk measurable_fst.snd)
  have mg : Measurable fun q : (EuclideanSpace ℝ J × Bt) × (EuclideanSpace ℝ J × EuclideanSpace ℝ J) =>
      u (A (q.1.1 + q.2.1 - (t / 2) • driftE m hm γ q.1.2 (q.1.1 + (q.2.1 - (1 / 2 : ℝ) • q.2.2)),
          q.2.2 - t • driftE m hm γ q.1.2 (q.1.1 + (q.2.1 - (1 / 2 : ℝ) • q.2.2)))) :=
    hUA.continuous.measurable.comp (((measurable_fst.fst.add measurable_snd.fst).sub (mdr.const_smul (t / 2))).prodMk
      (measurable_snd.snd.sub (mdr.const_smul t)))
  have e1 : ∫ q : (EuclideanSpace ℝ J × EuclideanSpace ℝ J) × (Bt × EuclideanSpace ℝ J),
          u (stepP m hm γ b W (r • ContinuousLinearMap.id ℝ _) (A (q.1.1, τ • q.1.2)) q.2) ∂((π.prod N).prod (ν.prod N))
      = ∫ q : (EuclideanSpace ℝ J × Bt) × (EuclideanSpace ℝ J × EuclideanSpace ℝ J),
        u (A (q.1.1 + q.2.1 - (t / 2) • driftE m hm γ q.1.2 (q.1.1 + (q.2.1 - (1 / 2 : ℝ) • q.2.2)),
          q.2.2 - t • driftE m hm γ q.1.2 (q.1.1 + (q.2.1 - (1 / 2 : ℝ) • q.2.2)))) ∂((π.prod ν).prod M) := by
    have hMp : (π.prod ν).prod M = ((π.prod ν).prod (N.prod N)).map (Prod.map id (combine ((1 + β) * τ / 2) (σ / 2) (β * τ) σ)) := by
      rw [hM, ← Measure.map_prod_map _ _ measurable_id mc, Measure.map_id]
    rw [hMp, integral_map (measurable_id.prodMap mc).aemeasurable mg.aestronglyMeasurable, ← hcomm.map_eq,
      integral_map hcomm.measurable.aemeasurable mstep.aestronglyMeasurable]
    refine integral_congr_ae (.of_forall fun q => ?_)
    simp only [Prod.map_fst, Prod.map_snd, id_eq, combine]
    congr 1
    have ep : q.1.1 + ((((1 + β) * τ / 2) • q.2.1 + (σ / 2) • q.2.2) - (1 / 2 : ℝ) • ((β * τ) • q.2.1 + σ • q.2.2))
        = q.1.1 + (1 / 2 : ℝ) • (τ • q.2.1) := by module
    rw [ep]
    unfold stepP
    simp only [smul_apply, ContinuousLinearMap.id_apply]
    rw [hW.pos, hW.step]
    congr 1
    refine Prod.ext ?_ ?_
    · simp only
      module
    · simp only
      module
  have e2 : ∫ y, u y ∂phaseLaw π N A τ = ∫ q, ∫ x, u (A (x, q.2)) ∂π ∂M := by
    have hc : Continuous fun v => ∫ x, u (A (x, v)) ∂π := by
      refine (LipschitzWith.of_dist_le_mul (K := .mk (‖A‖ * A₁) hUA.nonneg) fun v w => ?_).continuous
      rw [dist_eq_norm, dist_eq_norm, NNReal.coe_mk]
      have i : ∀ v, Integrable (fun x => u (A (x, v))) π := fun v => by
        have hcv : Continuous fun x : EuclideanSpace ℝ J => u (A (x, v)) := hUA.continuous.comp (continuous_id.prodMk continuous_const)
        refine ((integrable_const (|u (A (0, v))|)).add (hT.int_norm.const_mul (‖A‖ * A₁))).mono' hcv.aestronglyMeasurable (.of_forall fun x => ?_)
        have h3 := hUA.lipschitz (x, v) (0, v)
        have h4 := abs_sub_abs_le_abs_sub (u (A (x, v))) (u (A (0, v)))
        have h5 : ‖((x, v) : EuclideanSpace ℝ J × EuclideanSpace ℝ J) - (0, v)‖ = ‖x‖ := by simp
        rw [h5] at h3
        simp only [Real.norm_eq_abs, Pi.add_apply]
        linarith
      rw [← integral_sub (i v) (i w)]
      refine (norm_integral_le_of_norm_le_const (C := ‖A‖ * A₁ * ‖v - w‖) (.of_forall fun x => ?_)).trans (le_of_eq (by rw [probReal_univ, mul_one]))
      have h3 := hUA.lipschitz (x, v) (x, w)
      have h5 : ‖((x, v) : EuclideanSpace ℝ J × EuclideanSpace ℝ J) - (x, w)‖ = ‖v - w‖ := by simp
      rw [h5] at h3
      exact h3
    have hint : Integrable (fun q : EuclideanSpace ℝ J × EuclideanSpace ℝ J => u (A (q.1, τ • q.2))) (π.prod N) := by
      have hcu : Continuous fun q : EuclideanSpace ℝ J × EuclideanSpace ℝ J => u (A (q.1, τ • q.2)) := hu.continuous.comp phase_continuous
      have hn := phaseLaw_norm (A := A) (τ := τ) hT.int_norm hN
      unfold phaseLaw at hn
      rw [integrable_map_measure continuous_norm.measurable.aestronglyMeasurable phase_continuous.measurable.aemeasurable] at hn
      refine ((integrable_const (|u 0|)).add (hn.const_mul A₁)).mono' hcu.aestronglyMeasurable (.of_forall fun q => ?_)
      exact hu.growth _
    have e3 : M.map Prod.snd = N.map (fun y => τ • y) := by
      rw [hM, Measure.map_map measurable_snd mc, ← hη]
      rfl
    have m3 : Measurable fun y : EuclideanSpace ℝ J => τ • y := measurable_id.const_smul τ
    unfold phaseLaw
    rw [integral_map phase_continuous.measurable.aemeasurable hu.continuous.aestronglyMeasurable, integral_prod_symm _ hint]
    have e4 := integral_map (μ := M) (φ := Prod.snd) measurable_snd.aemeasurable (f := fun v => ∫ x, u (A (x, v)) ∂π) hc.aestronglyMeasurable
    rw [e3, integral_map m3.aemeasurable hc.aestronglyMeasurable] at e4
    exact e4
  rw [e1, e2]
  refine h1.trans ?_
  unfold pairError
  have le1 : ∀ x : ℝ, x ≤ 1 + x ^ 2 := fun x => by nlinarith [sq_nonneg (x - 1)]
  have hG1 : ∫ q : EuclideanSpace ℝ J × Bt, ‖driftE m hm γ q.2 q.1‖ ∂(π.prod ν) ≤ 1 + sizeG ν γ U s c Λ hi := by
    have := integral_mono (sq_integrable h.driftE_measurable.norm.aestronglyMeasurable hsq) ((integrable_const (1 : ℝ)).add hsq)
      fun q => le1 ‖driftE m hm γ q.2 q.1‖
    refine this.trans ?_
    rw [integral_add' (integrable_const (1 : ℝ)) hsq, integral_const, probReal_univ, one_smul]
    linarith
  have hg1 : ∫ y, ‖gradE m hm U y‖ ∂π ≤ 1 + sizeG ν γ U s c Λ hi := by
    have hq : Integrable (fun y => ‖gradE m hm U y‖ ^ 2) π := hT.gradSq
    have := integral_mono (sq_integrable hT.grad.norm.aestronglyMeasurable hq) ((integrable_const (1 : ℝ)).add hq)
      fun q => le1 ‖gradE m hm U q‖
    refine this.trans ?_
    rw [integral_add' (integrable_const (1 : ℝ)) hq, integral_const, probReal_univ, one_smul]
    linarith
  have hM1 : 0 ≤ ∫ q, ‖q‖ ∂M := integral_nonneg fun z => norm_nonneg _
  have hM3 : 0 ≤ ∫ q, ‖q‖ ^ 3 ∂M := integral_nonneg fun z => by positivity
  have := hUA.nonneg
  gcongr

/-- A step with noise of any size. -/
theorem nearly_invariantP (h : ConvexBatches ν U γ μ L L₂ Λ) (hN : Noise N) (hs : 0 < s) {c : ℝ}
    (hp : IsProbabilityMeasure (boltz fun x => s * U x + c)) (hlo : 0 < lo) (hlh : ∀ j, lo ≤ m j ∧ m j ≤ hi) (hhi : 0 ≤ hi) (ht : 0 ≤ t)
    (hη : (N.prod N).map (fun q => (β * τ) • q.1 + σ • q.2) = N.map (fun y => τ • y))
    {M : Measure (EuclideanSpace ℝ J × EuclideanSpace ℝ J)} (hM : M = (N.prod N).map (combine ((1 + β) * τ / 2) (σ / 2) (β * τ) σ))
    (hP : PairNoise M (t / s)) (hW : Lifts W A b r β t σ) (hst : ∀ R, Step (ν.prod N) (stepP m hm γ b W R) Ψ' ρ ℓ)
    (hk : ‖W.kick‖ ≤ 2) {κ : ℝ} (hκ : 0 ≤ κ) (hr : 0 ≤ r) (hR : ‖R‖ ≤ r + √κ) (hd1 : ‖R - r • ContinuousLinearMap.id ℝ _‖ ≤ √κ)
    (hd2 : ‖R - r • ContinuousLinearMap.id ℝ _‖ * r ≤ κ)
    (hu : Smooth A₁ A₂ u D) (hA : 0 ≤ A₂) :
    |∫ y, push (ν.prod N) (stepP m hm γ b W R) u y ∂phaseLaw (law (volume.map (scaled m hm)) (densE m hm U s c)) N A τ
        - ∫ y, u y ∂phaseLaw (law (volume.map (scaled m hm)) (densE m hm U s c)) N A τ|
      ≤ pairError ν γ U s c Λ hi t M (‖A‖ * A₁) (‖A‖ ^ 2 * A₂) + A₂ * (12 * κ * ∫ z, ‖z‖ ^ 2 ∂N) := by
  have h1 := h.ideal_invariant (A₂ := A₂) hN hs hp hlo hlh hhi ht hη hM hP hW hu hA (hm := hm)
  have hT := h.target (hm := hm) hs hp hlo hlh
  have : IsProbabilityMeasure (law (volume.map (scaled m hm)) (densE m hm U s c)) := hT.prob
  have := hN.prob
  set π := law (volume.map (scaled m hm)) (densE m hm U s c) with hπ
  have : IsProbabilityMeasure (phaseLaw π N A τ) := phaseLaw_prob
  have hPh := phaseLaw_norm (A := A) (τ := τ) hT.int_norm hN
  have hint : ∀ R, Integrable (push (ν.prod N) (stepP m hm γ b W R) u) (phaseLaw π N A τ) := fun R => by
    have hsm := (hst R).smooth hu hA
    exact ((integrable_const _).add (hPh.const_mul _)).mono' hsm.continuous.aestronglyMeasurable (.of_forall fun y => hsm.growth y)
  -- the noise
  have hchange : ∀ y, |push (ν.prod N) (stepP m hm γ b W R) u y - push (ν.prod N) (stepP m hm γ b W (r • ContinuousLinearMap.id ℝ _)) u y|
      ≤ A₂ * (12 * κ * ∫ z, ‖z‖ ^ 2 ∂N) := fun y => by
    unfold push
    have i1 := (hst R).int_smooth hu y
    have i2 := (hst (r • ContinuousLinearMap.id ℝ _)).int_smooth hu y
    rw [integral_prod _ i1, integral_prod _ i2, ← integral_sub i1.integral_prod_left i2.integral_prod_left]
    refine abs_integral_le_const fun ζ => ?_
    have h2 := hu.noise_change hA hN (W.kick.comp R) (W.kick.comp (r • ContinuousLinearMap.id ℝ _))
      (W.keep y - b • W.kick (driftE m hm γ ζ (W.pos y)))
    refine h2.trans (mul_le_mul_of_nonneg_left (mul_le_mul_of_nonneg_right ?_ (integral_nonneg fun z => by positivity)) hA)
    rw [← ContinuousLinearMap.comp_sub]
    have hid : ‖r • ContinuousLinearMap.id ℝ (EuclideanSpace ℝ J)‖ ≤ r := by
      rw [norm_smul, Real.norm_eq_abs, abs_of_nonneg hr]
      exact mul_le_of_le_one_right hr ContinuousLinearMap.norm_id_le
    have k1 : ‖W.kick.comp R‖ ≤ 2 * (r + √κ) := (W.kick.opNorm_comp_le R).trans (mul_le_mul hk hR (norm_nonneg _) (by norm_num))
    have k2 : ‖W.kick.comp (r • ContinuousLinearMap.id ℝ (EuclideanSpace ℝ J))‖ ≤ 2 * r :=
      (W.kick.opNorm_comp_le _).trans (mul_le_mul hk hid (norm_nonneg _) (by norm_num))
    have k3 : ‖W.kick.comp (R - r • ContinuousLinearMap.id ℝ (EuclideanSpace ℝ J))‖ ≤ 2 * ‖R - r • ContinuousLinearMap.id ℝ (EuclideanSpace ℝ J)‖ :=
      (W.kick.opNorm_comp_le _).trans (mul_le_mul_of_nonneg_right hk (norm_nonneg _))
    have k4 := defect_le (x := 2 * r + √κ) hr hκ (norm_nonneg _) hd1 hd2 le_rfl
    calc _ ≤ (2 * (r + √κ) + 2 * r) * (2 * ‖R - r • ContinuousLinearMap.id ℝ (EuclideanSpace ℝ J)‖) :=
          mul_le_mul (add_le_add k1 k2) k3 (norm_nonneg _) (by positivity)
      _ = 4 * ((2 * r + √κ) * ‖R - r • ContinuousLinearMap.id ℝ (EuclideanSpace ℝ J)‖) := by ring
      _ ≤ _ := by linarith
  have h2 : |∫ y, push (ν.prod N) (stepP m hm γ b W R) u y ∂phaseLaw π N A τ
      - ∫ y, push (ν.prod N) (stepP m hm γ b W (r • ContinuousLinearMap.id ℝ _)) u y ∂phaseLaw π N A τ| ≤ A₂ * (12 * κ * ∫ z, ‖z‖ ^ 2 ∂N) := by
    rw [← integral_sub (hint _) (hint _)]
    exact abs_integral_le_const hchange
  have e1 : ∫ y, push (ν.prod N) (stepP m hm γ b W (r • ContinuousLinearMap.id ℝ _)) u y ∂phaseLaw π N A τ
      = ∫ q : (EuclideanSpace ℝ J × EuclideanSpace ℝ J) × (Bt × EuclideanSpace ℝ J),
          u (stepP m hm γ b W (r • ContinuousLinearMap.id ℝ _) (A (q.1.1, τ • q.1.2)) q.2) ∂((π.prod N).prod (ν.prod N)) := by
    have hs0 := hst (r • ContinuousLinearMap.id ℝ _)
    have mstep : Measurable fun q : (EuclideanSpace ℝ J × EuclideanSpace ℝ J) × (Bt × EuclideanSpace ℝ J) =>
        u (stepP m hm γ b W (r • ContinuousLinearMap.id ℝ _) (A (q.1.1, τ • q.1.2)) q.2) :=
      hu.continuous.measurable.comp ((h.stepP_measurable (W := W)).comp ((phase_continuous.measurable.comp measurable_fst).prodMk measurable_snd))
    have hn := hPh
    unfold phaseLaw at hn
    rw [integrable_map_measure continuous_norm.measurable.aestronglyMeasurable phase_continuous.measurable.aemeasurable] at hn
    have hi : Integrable (fun q : (EuclideanSpace ℝ J × EuclideanSpace ℝ J) × (Bt × EuclideanSpace ℝ J) =>
        u (stepP m hm γ b W (r • ContinuousLinearMap.id ℝ _) (A (q.1.1, τ • q.1.2)) q.2)) ((π.prod N).prod (ν.prod N)) := by
      refine ((integrable_const |u 0|).add ((((hn.const_mul ρ).comp_fst (ν.prod N)).add
        (hs0.int.comp_snd (π.prod N))).const_mul A₁)).mono' mstep.aestronglyMeasurable (.of_forall fun q => ?_)
      have h3 := hu.growth (stepP m hm γ b W (r • ContinuousLinearMap.id ℝ _) (A (q.1.1, τ • q.1.2)) q.2)
      have h4 := mul_le_mul_of_nonneg_left (hs0.growth (A (q.1.1, τ • q.1.2)) q.2) hu.nonneg
      simp only [Real.norm_eq_abs, Pi.add_apply, Function.comp_apply]
      linarith
    unfold phaseLaw
    rw [integral_map phase_continuous.measurable.aemeasurable (hs0.smooth hu hA).continuous.aestronglyMeasurable, integral_prod _ hi]
    rfl
  rw [e1] at h2
  have h3 := abs_add_le (∫ y, push (ν.prod N) (stepP m hm γ b W R) u y ∂phaseLaw π N A τ
    - ∫ q : (EuclideanSpace ℝ J × EuclideanSpace ℝ J) × (Bt × EuclideanSpace ℝ J),
          u (stepP m hm γ b W (r • ContinuousLinearMap.id ℝ _) (A (q.1.1, τ • q.1.2)) q.2) ∂((π.prod N).prod (ν.prod N)))
    (∫ q : (EuclideanSpace ℝ J × EuclideanSpace ℝ J) × (Bt × EuclideanSpace ℝ J),
          u (stepP m hm γ b W (r • ContinuousLinearMap.id ℝ _) (A (q.1.1, τ • q.1.2)) q.2) ∂((π.prod N).prod (ν.prod N))
      - ∫ y, u y ∂phaseLaw π N A τ)
  rw [sub_add_sub_cancel] at h3
  linarith

end ConvexBatches

end PySGMCMC.Langevin
