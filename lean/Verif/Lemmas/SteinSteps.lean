import Verif.Lemmas.SteinBias

/-!
# The bias of SGLD and SGHMC for costs on the line

Averages over a stationary law of SGLD differ from averages over the density proportional to `exp (-σ U)` by a multiple of the root of the
stepsize, which enters the step squared for SGHMC.  The cost need not be convex.
-/

open MeasureTheory ProbabilityTheory Filter Topology
namespace PySGMCMC.Stein

variable {Bt : Type*} [MeasurableSpace Bt] {U u u' : ℝ → ℝ} {a b L : ℝ} {ν : Measure Bt} [IsProbabilityMeasure ν] {G : Bt → ℝ → ℝ}
  {Λ σ : ℝ} {g₀ : Bt → ℝ}

theorem Well.scale (h : Well U u u' a b L) (hσ : 0 < σ) (c : ℝ) :
    Well (fun x => σ * U x + c) (fun x => σ * u x) (fun x => σ * u' x) (σ * a) (σ * b) (σ * L) where
  deriv x := ((h.deriv x).const_mul σ).add_const c
  deriv2 x := (h.deriv2 x).const_mul σ
  lip x := by rw [abs_mul, abs_of_pos hσ]; exact mul_le_mul_of_nonneg_left (h.lip x) hσ.le
  pos := mul_pos hσ h.pos
  slack := mul_nonneg hσ.le h.slack
  inward x := by have := mul_le_mul_of_nonneg_left (h.inward x) hσ.le; linarith

theorem Well.normalize (h : Well U u u' a b L) (hσ : 0 < σ) : ∃ c, ∫ y, Real.exp (-(σ * U y + c)) = 1 := by
  have hw := h.scale hσ 0
  have i1 : Integrable fun y => Real.exp (-(σ * U y + 0)) := by
    simpa using hw.integrable_of_le (f := fun _ => 1) continuous_const (D := 1) fun x => by simp; nlinarith [sq_nonneg x]
  have hz : 0 < ∫ y, Real.exp (-(σ * U y + 0)) := integral_exp_pos i1
  refine ⟨Real.log (∫ y, Real.exp (-(σ * U y + 0))), ?_⟩
  have e : ∀ y, Real.exp (-(σ * U y + Real.log (∫ y, Real.exp (-(σ * U y + 0))))) = (∫ y, Real.exp (-(σ * U y + 0)))⁻¹ * Real.exp (-(σ * U y + 0)) := by
    intro y
    rw [← Real.exp_log (inv_pos.2 hz), ← Real.exp_add, Real.log_inv]
    congr 1
    ring
  simp only [e]
  rw [integral_const_mul, inv_mul_cancel₀ hz.ne']

theorem prod_shape {X Y : Type*} [MeasurableSpace X] [MeasurableSpace Y] {π : Measure X} [IsProbabilityMeasure π] {e : X → ℝ × ℝ} (he : Measurable e)
    {F : ((ℝ × ℝ) × Bt) × ℝ → Y} (hF : Measurable F) :
    (((π.map e).prod ν).prod (gaussianReal 0 1)).map F = (π.prod (ν.prod (gaussianReal 0 1))).map fun w => F ((e w.1, w.2.1), w.2.2) := by
  have h1 : (π.map e).prod ν = (π.prod ν).map (Prod.map e id) := by
    have := Measure.map_prod_map π ν he measurable_id
    rwa [Measure.map_id] at this
  have m1 : Measurable (Prod.map e (id : Bt → Bt)) := he.prodMap measurable_id
  have h2 : ((π.map e).prod ν).prod (gaussianReal 0 1) = ((π.prod ν).prod (gaussianReal 0 1)).map (Prod.map (Prod.map e id) id) := by
    rw [h1]
    have := Measure.map_prod_map (π.prod ν) (gaussianReal 0 1) m1 measurable_id
    rwa [Measure.map_id] at this
  have m2 : Measurable (Prod.map (Prod.map e (id : Bt → Bt)) (id : ℝ → ℝ)) := m1.prodMap measurable_id
  rw [h2, Measure.map_map hF m2, ← Measure.prodAssoc_prod, Measure.map_map ?_ MeasurableEquiv.prodAssoc.measurable]
  · rfl
  · exact hF.comp (((he.comp measurable_fst).prodMk (measurable_fst.comp measurable_snd)).prodMk (measurable_snd.comp measurable_snd))

/-- The second moment of a stationary law of SGLD. -/
theorem sgld_arith {a b Λ σ τ g X I : ℝ} (ha : 0 < a) (hσ : 0 < σ) (hτ : 0 < τ) (hst : τ * Λ ≤ a) (hg : 0 ≤ g) (hX : 0 ≤ X)
    (hI : a * X - b ≤ I) (h : 2 * τ * I ≤ τ ^ 2 * (Λ * (g + X)) + 2 * τ / σ) : X ≤ (2 * b + a * g + 2 / σ) / a := by
  have h1 : 2 * I ≤ τ * Λ * (g + X) + 2 / σ := by
    have e : τ ^ 2 * (Λ * (g + X)) + 2 * τ / σ = τ * (τ * Λ * (g + X) + 2 / σ) := by ring
    rw [e, mul_assoc, mul_left_comm] at h
    exact le_of_mul_le_mul_left h hτ
  have h2 := mul_le_mul_of_nonneg_right hst (add_nonneg hg hX)
  rw [le_div_iff₀ ha]
  linarith

/-- The bias of SGLD. -/
theorem sgld_bias (hU : Well U u u' a b L) (hG : Batches ν u G Λ g₀) (hσ : 0 < σ) : ∃ c K, 0 ≤ K ∧ ∫ y, Real.exp (-(σ * U y + c)) = 1 ∧
    ∀ {τ : ℝ}, 0 < τ → τ * Λ ≤ a → ∀ {μ : Measure ℝ} [IsProbabilityMeasure μ], Integrable (fun x => x ^ 2) μ →
    (μ.prod (ν.prod (gaussianReal 0 1))).map (fun w => w.1 - τ * G w.2.1 w.1 + √(2 * τ / σ) * w.2.2) = μ →
    ∀ {φ φ' : ℝ → ℝ} {A : ℝ}, (∀ x, HasDerivAt φ (φ' x) x) → (∀ x, |φ' x| ≤ A) →
    |∫ x, φ x ∂μ - ∫ y, φ y * Real.exp (-(σ * U y + c))| ≤ K * √τ * A := by
  obtain ⟨c, hc⟩ := hU.normalize hσ
  obtain ⟨K, hK0, hK⟩ := bias (Bt := Bt) (hU.scale hσ c) hc
  have ha := hU.pos
  have hΛ := hG.bound
  have hg : 0 ≤ ∫ β, g₀ β ∂ν := integral_nonneg hG.nonneg
  set X₀ := (2 * b + a * (∫ β, g₀ β ∂ν) + 2 / σ) / a with hX₀
  have hb := hU.slack
  have hX00 : 0 ≤ X₀ := by positivity
  set B₀ := Λ * (∫ β, g₀ β ∂ν + X₀) with hB₀
  have hB00 : 0 ≤ B₀ := by positivity
  refine ⟨c, K * (2 * √(2 / σ) + (σ * B₀ + 2 * (1 + B₀)) * √(a / Λ)), by positivity, hc, ?_⟩
  intro τ hτ hst μ _ hx hinv φ φ' A hφ hA
  have hA0 : 0 ≤ A := (abs_nonneg _).trans (hA 0)
  have mdup : Measurable fun x : ℝ => ((x, x) : ℝ × ℝ) := measurable_id.prodMk measurable_id
  have hpr : IsProbabilityMeasure (μ.map fun x : ℝ => ((x, x) : ℝ × ℝ)) := Measure.isProbabilityMeasure_map mdup.aemeasurable
  have mstep : Measurable fun w : ((ℝ × ℝ) × Bt) × ℝ => 1 * w.1.1.1 + -τ * G w.1.2 w.1.1.2 + √(2 * τ / σ) * w.2 := by
    have m1 : Measurable fun w : ((ℝ × ℝ) × Bt) × ℝ => w.1.1.1 := measurable_fst.comp (measurable_fst.comp measurable_fst)
    have m2 : Measurable fun w : ((ℝ × ℝ) × Bt) × ℝ => G w.1.2 w.1.1.2 := hG.meas.comp
      ((measurable_snd.comp measurable_fst).prodMk (measurable_snd.comp (measurable_fst.comp measurable_fst)))
    exact ((m1.const_mul 1).add (m2.const_mul (-τ))).add (measurable_snd.const_mul _)
  have hinv' : (((μ.map fun x : ℝ => ((x, x) : ℝ × ℝ)).prod ν).prod (gaussianReal 0 1)).map
      (fun w => 1 * w.1.1.1 + -τ * G w.1.2 w.1.1.2 + √(2 * τ / σ) * w.2) = (μ.map fun x : ℝ => ((x, x) : ℝ × ℝ)).map Prod.fst := by
    rw [prod_shape mdup mstep, Measure.map_map measurable_fst mdup]
    have e1 : (Prod.fst ∘ fun x : ℝ => ((x, x) : ℝ × ℝ)) = id := rfl
    rw [e1, Measure.map_id]
    conv_rhs => rw [← hinv]
    congr 1
    funext w
    ring
  have i1 : Integrable (fun p : ℝ × ℝ => p.1 ^ 2) (μ.map fun x : ℝ => ((x, x) : ℝ × ℝ)) :=
    (integrable_map_measure (measurable_fst.pow_const 2).aestronglyMeasurable mdup.aemeasurable).2 hx
  have i2 : Integrable (fun p : ℝ × ℝ => p.2 ^ 2) (μ.map fun x : ℝ => ((x, x) : ℝ × ℝ)) :=
    (integrable_map_measure (measurable_snd.pow_const 2).aestronglyMeasurable mdup.aemeasurable).2 hx
  have iabs : Integrable (fun x : ℝ => |x|) μ := ((integrable_const 1).add hx).mono' measurable_id.norm.aestronglyMeasurable
    (.of_forall fun x => by
      rw [Real.norm_eq_abs, abs_abs]
      simp only [Pi.add_apply]
      nlinarith [sq_nonneg (|x| - 1), sq_abs x])
  have i3 : Integrable (fun p : ℝ × ℝ => |p.1|) (μ.map fun x : ℝ => ((x, x) : ℝ × ℝ)) :=
    (integrable_map_measure measurable_fst.norm.aestronglyMeasurable mdup.aemeasurable).2 iabs
  have hX : ∫ p : ℝ × ℝ, p.2 ^ 2 ∂(μ.map fun x : ℝ => ((x, x) : ℝ × ℝ)) = ∫ x, x ^ 2 ∂μ :=
    integral_map mdup.aemeasurable (measurable_snd.pow_const 2).aestronglyMeasurable
  have cu : Continuous u := hU.continuous_force
  obtain ⟨iqu, hsec⟩ := second hG cu.measurable i1 i2 hinv'
  have iqu' : Integrable (fun x : ℝ => x * u x) μ :=
    (integrable_map_measure (measurable_fst.mul (cu.measurable.comp measurable_snd)).aestronglyMeasurable mdup.aemeasurable).1 iqu
  have hqu : ∫ p : ℝ × ℝ, p.1 * u p.2 ∂(μ.map fun x : ℝ => ((x, x) : ℝ × ℝ)) = ∫ x, x * u x ∂μ :=
    integral_map mdup.aemeasurable (measurable_fst.mul (cu.measurable.comp measurable_snd)).aestronglyMeasurable
  have hin : a * (∫ x, x ^ 2 ∂μ) - b ≤ ∫ x, x * u x ∂μ := by
    have h1 := integral_mono ((hx.const_mul a).sub (integrable_const b)) iqu' fun x => by simpa using hU.inward x
    simp only [Pi.sub_apply] at h1
    rw [integral_sub (hx.const_mul a) (integrable_const b), integral_const_mul] at h1
    simpa using h1
  have hρ2 : √(2 * τ / σ) ^ 2 = 2 * τ / σ := Real.sq_sqrt (by positivity)
  rw [hX, hqu, hρ2] at hsec
  have hX0 : 0 ≤ ∫ x, x ^ 2 ∂μ := integral_nonneg fun x => sq_nonneg x
  have hXX : ∫ x, x ^ 2 ∂μ ≤ X₀ := sgld_arith ha hσ hτ hst hg hX0 hin (by linarith)
  have hs' : (fun x => σ * u x / σ) = u := by funext x; field_simp
  have hG' : Batches ν (fun x => σ * u x / σ) G Λ g₀ := by rw [hs']; exact hG
  have hmain := hK hG' hσ hτ i3 i2 (by simpa only [one_mul] using hinv') hφ hA
  simp only [Well.avg] at hmain
  have hφm : ∫ p : ℝ × ℝ, φ p.1 ∂(μ.map fun x : ℝ => ((x, x) : ℝ × ℝ)) = ∫ x, φ x ∂μ := by
    have cφ : Continuous φ := continuous_iff_continuousAt.2 fun x => (hφ x).continuousAt
    exact integral_map mdup.aemeasurable (cφ.measurable.comp measurable_fst).aestronglyMeasurable
  have hdist : ∫ p : ℝ × ℝ, |p.1 - p.2| ∂(μ.map fun x : ℝ => ((x, x) : ℝ × ℝ)) = 0 := by
    have h := integral_map (μ := μ) mdup.aemeasurable (f := fun p : ℝ × ℝ => |p.1 - p.2|) (measurable_fst.sub measurable_snd).norm.aestronglyMeasurable
    rw [h]
    simp
  rw [hφm, hdist, hX] at hmain
  refine hmain.trans ?_
  have hz : τ / σ - √(2 * τ / σ) ^ 2 / 2 = 0 := by rw [hρ2]; ring
  have hcub : |√(2 * τ / σ)| ^ 3 = 2 * τ / σ * (√(2 / σ) * √τ) := by
    rw [abs_of_nonneg (Real.sqrt_nonneg _), pow_succ, hρ2, ← Real.sqrt_mul (by positivity)]
    congr 2
    ring
  rw [hz, hcub, hρ2, abs_zero, add_zero, add_zero]
  have hsτ : τ ≤ √(a / Λ) * √τ := by
    have h1 : τ ≤ a / Λ := by rwa [le_div_iff₀ hΛ]
    calc τ = √τ * √τ := (Real.mul_self_sqrt hτ.le).symm
      _ ≤ √(a / Λ) * √τ := mul_le_mul_of_nonneg_right (Real.sqrt_le_sqrt h1) (Real.sqrt_nonneg _)
  set B := Λ * (∫ β, g₀ β ∂ν + ∫ x, x ^ 2 ∂μ) with hB
  have hBB : B ≤ B₀ := mul_le_mul_of_nonneg_left (by linarith) hΛ.le
  have e1 : σ / τ * (2 * τ / σ * (√(2 / σ) * √τ) + τ ^ 2 * B + 2 * τ / σ * (τ * (1 + B))) = 2 * √(2 / σ) * √τ + τ * (σ * B + 2 * (1 + B)) := by
    have hσ' := hσ.ne'
    have hτ' := hτ.ne'
    generalize √(2 / σ) = v
    generalize √τ = w
    clear_value B
    field_simp
    ring
  rw [e1]
  have h5 : τ * (σ * B + 2 * (1 + B)) ≤ (√(a / Λ) * √τ) * (σ * B₀ + 2 * (1 + B₀)) := by
    have hB0 : 0 ≤ B := by positivity
    refine mul_le_mul hsτ ?_ (by positivity) (by positivity)
    have := mul_le_mul_of_nonneg_left hBB hσ.le
    linarith
  have h6 : K * A * (2 * √(2 / σ) * √τ + τ * (σ * B + 2 * (1 + B))) ≤ K * A * (2 * √(2 / σ) * √τ + (√(a / Λ) * √τ) * (σ * B₀ + 2 * (1 + B₀))) :=
    mul_le_mul_of_nonneg_left (by linarith) (by positivity)
  refine h6.trans (le_of_eq ?_)
  ring

end PySGMCMC.Stein
