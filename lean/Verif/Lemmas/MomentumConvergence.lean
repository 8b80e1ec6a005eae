import Verif.Lemmas.MomentumInvariant

/-!
# Convergence of the algorithm with momentum
-/

open MeasureTheory ProbabilityTheory PySGMCMC.Contraction PySGMCMC.Recipe PySGMCMC.Invariance
namespace PySGMCMC.Langevin
set_option linter.unusedSectionVars false

theorem Smooth.mono {F : Type*} [NormedAddCommGroup F] [NormedSpace ℝ F] {A₁ A₂ B₁ B₂ : ℝ} {u : F → ℝ} {D : F → F →L[ℝ] ℝ}
    (hu : Smooth A₁ A₂ u D) (h1 : A₁ ≤ B₁) (h2 : A₂ ≤ B₂) : Smooth B₁ B₂ u D where
  deriv := hu.deriv
  bound x := (hu.bound x).trans h1
  lip x y := (hu.lip x y).trans (mul_le_mul_of_nonneg_right h2 (norm_nonneg _))

variable {J : Type} [Fintype J] [DecidableEq J] {m : J → ℝ} {hm : ∀ j, 0 < m j} {lo hi : ℝ} {Bt : Type} [MeasurableSpace Bt]
  {ν : Measure Bt} [IsProbabilityMeasure ν]
  {U : (J → ℝ) → ℝ} {γ : Bt → (J → ℝ) → J → ℝ} {μ L L₂ Λ α t s σ : ℝ}

/-- The state made of `x - v / 2` and the momentum `v`. -/
noncomputable def liftL (α : ℝ) : EuclideanSpace ℝ J × EuclideanSpace ℝ J →L[ℝ] Phase J :=
  pairL (ContinuousLinearMap.fst ℝ _ _ + (1 / 2 + (1 - α) / α) • ContinuousLinearMap.snd ℝ _ _) (((1 - α) / α) • ContinuousLinearMap.snd ℝ _ _)

theorem liftL_fst (α : ℝ) (q : EuclideanSpace ℝ J × EuclideanSpace ℝ J) : (liftL α q).fst = q.1 + (1 / 2 + (1 - α) / α) • q.2 := rfl
theorem liftL_snd (α : ℝ) (q : EuclideanSpace ℝ J × EuclideanSpace ℝ J) : (liftL α q).snd = ((1 - α) / α) • q.2 := rfl

namespace ConvexBatches

theorem lifts (hα : α ≠ 0) : Lifts (moves (1 - α)) (liftL α : _ →L[ℝ] Phase J) (t / α) (σ / α) (1 - α) t σ where
  pos p v := by
    show posL (liftL α (p, v)) = _
    rw [posL_apply, liftL_fst, liftL_snd]
    module
  step p v g z := by
    unfold moves
    refine phase_ext ?_ ?_
    · simp only [WithLp.sub_fst, WithLp.add_fst, WithLp.smul_fst, keepL_fst, kickL_fst, liftL_fst]
      match_scalars <;> field_simp <;> ring
    · simp only [WithLp.sub_snd, WithLp.add_snd, WithLp.smul_snd, keepL_snd, kickL_snd, liftL_snd]
      match_scalars <;> field_simp

/-- Position and momentum as a state. -/
noncomputable def state (m : J → ℝ) (hm : ∀ j, 0 < m j) (α : ℝ) (x v : J → ℝ) : Phase J :=
  split.symm (scaled m hm x + ((1 - α) / α) • scaled m hm v, ((1 - α) / α) • scaled m hm v)

theorem state_pos (x v : J → ℝ) : posL (state m hm α x v) = scaled m hm x := by
  unfold state
  rw [posL_apply, fst_symm, snd_symm]
  module

theorem state_step (hα : α ≠ 0) {q x v x' v' z : J → ℝ} {b : Bt} (hv : ∀ j, v' j = (1 - α) * v j - t * m j * γ b x j + √(q j) * z j)
    (hx : ∀ j, x' j = x j + v' j) :
    state m hm α x' v' = stepP m hm γ (t / α) (moves (1 - α)) (diagL fun j => √(q j) / (α * √(m j))) (state m hm α x v) (b, WithLp.toLp 2 z) := by
  have ev : scaled m hm v' = (1 - α) • scaled m hm v - t • driftE m hm γ b (scaled m hm x)
      + α • diagL (fun j => √(q j) / (α * √(m j))) (WithLp.toLp 2 z) := by
    ext j
    have hsq := (Real.sqrt_pos.2 (hm j)).ne'
    simp only [PiLp.add_apply, PiLp.sub_apply, PiLp.smul_apply, smul_eq_mul, diagL_apply, driftE, massL_apply, scaled_apply, Pi.mul_apply,
      ContinuousLinearEquiv.symm_apply_apply]
    rw [hv]
    field_simp
  have ex : scaled m hm x' = scaled m hm x + scaled m hm v' := by rw [← map_add]; congr 1; funext j; exact hx j
  have hp : (moves (1 - α)).pos (state m hm α x v) = scaled m hm x := state_pos x v
  unfold stepP
  rw [hp]
  set d := diagL (fun j => √(q j) / (α * √(m j))) (WithLp.toLp 2 z)
  set g := driftE m hm γ b (scaled m hm x)
  unfold state moves
  refine phase_ext ?_ ?_
  · simp only [WithLp.sub_fst, WithLp.add_fst, WithLp.smul_fst, keepL_fst, kickL_fst, fst_symm]
    rw [ex, ev]
    match_scalars <;> field_simp <;> ring
  · simp only [WithLp.sub_snd, WithLp.add_snd, WithLp.smul_snd, keepL_snd, kickL_snd, snd_symm]
    rw [ev]
    match_scalars <;> field_simp

/-! ## Arithmetic -/

/-- The error of a step divided by `t ^ (3 / 2)`. -/
noncomputable def flow (G Lam k Z1 Z2 Z3 S0 s : ℝ) : ℝ :=
  2 * S0 * (G + 4 * Lam ^ 2 * (k ^ 2 * Z2 * S0 ^ 2)) + (1 + G) * (k * Z1) + 2 * Lam * (k ^ 2 * Z2 * S0) + s * (1 + G) * (k ^ 3 * Z3)

theorem flow_nonneg {G Lam k Z1 Z2 Z3 S0 s : ℝ} (hG : 0 ≤ G) (hL : 0 ≤ Lam) (hk : 0 ≤ k) (h1 : 0 ≤ Z1) (h2 : 0 ≤ Z2) (h3 : 0 ≤ Z3) (h0 : 0 ≤ S0)
    (hs : 0 ≤ s) : 0 ≤ flow G Lam k Z1 Z2 Z3 S0 s := by unfold flow; positivity

theorem pair_arith {G Lam k Z1 Z2 Z3 S S0 t s M1 M2 M3 : ℝ} (hG : 0 ≤ G) (hL : 0 ≤ Lam) (h2 : 0 ≤ Z2) (hS : 0 ≤ S) (hSt : S ^ 2 = t) (hS0 : S ≤ S0)
    (hs : 0 ≤ s) (m1 : M1 ≤ (S * k) ^ 1 * Z1) (m2 : M2 ≤ (S * k) ^ 2 * Z2) (m3 : M3 ≤ (S * k) ^ 3 * Z3) :
    2 * t ^ 2 * (G + 4 * Lam ^ 2 * M2) + t * ((1 + G) * M1 + 2 * Lam * M2) + s * (1 + G) * M3 ≤ t * S * flow G Lam k Z1 Z2 Z3 S0 s
    ∧ 2 * Lam * t * M1 ≤ t * S * (2 * Lam * (k * Z1)) := by
  subst hSt
  constructor
  · calc 2 * (S ^ 2) ^ 2 * (G + 4 * Lam ^ 2 * M2) + S ^ 2 * ((1 + G) * M1 + 2 * Lam * M2) + s * (1 + G) * M3
        ≤ 2 * (S ^ 2) ^ 2 * (G + 4 * Lam ^ 2 * ((S * k) ^ 2 * Z2)) + S ^ 2 * ((1 + G) * ((S * k) ^ 1 * Z1) + 2 * Lam * ((S * k) ^ 2 * Z2))
          + s * (1 + G) * ((S * k) ^ 3 * Z3) := by gcongr
      _ = S ^ 2 * S * (2 * S * (G + 4 * Lam ^ 2 * (k ^ 2 * Z2 * S ^ 2)) + (1 + G) * (k * Z1) + 2 * Lam * (k ^ 2 * Z2 * S)
          + s * (1 + G) * (k ^ 3 * Z3)) := by ring
      _ ≤ _ := by
          have := hS.trans hS0
          unfold flow
          gcongr
  · calc 2 * Lam * S ^ 2 * M1 ≤ 2 * Lam * S ^ 2 * ((S * k) ^ 1 * Z1) := by gcongr
      _ = _ := by ring

theorem bias_arith {t S κ w a C1 C2 Z q g ρ B₁ B₂ : ℝ} (ht : 0 < t) (hS : 0 ≤ S) (hκ : 0 ≤ κ) (hw : 0 ≤ w) (ha : 0 ≤ a) (hC1 : 0 ≤ C1) (hC2 : 0 ≤ C2)
    (hZ : 0 ≤ Z) (hq : 0 ≤ q) (hg : 0 < g) (hρ : g * t ≤ 1 - ρ) (hB1 : 0 ≤ B₁) (hB2 : 0 ≤ B₂) :
    (a * (t * S * C1) * B₁ + (a ^ 2 * (t * S * C2) + 12 * (w * κ) * Z) * (B₂ + t * q * B₁ / (1 - ρ))) / (1 - ρ)
      ≤ (a * C1 + a ^ 2 * C2 + 12 * w * Z) / g * (1 + q / g) * (S + κ / t) * (B₁ + B₂) := by
  have h0 : 0 < g * t := by positivity
  have h1 : t * q * B₁ / (1 - ρ) ≤ q / g * B₁ := by
    calc t * q * B₁ / (1 - ρ) ≤ t * q * B₁ / (g * t) := by gcongr
      _ = _ := by field_simp
  have h2 : 0 ≤ κ / t := by positivity
  have h3 : 0 ≤ q / g := by positivity
  calc (a * (t * S * C1) * B₁ + (a ^ 2 * (t * S * C2) + 12 * (w * κ) * Z) * (B₂ + t * q * B₁ / (1 - ρ))) / (1 - ρ)
      ≤ (a * (t * S * C1) * B₁ + (a ^ 2 * (t * S * C2) + 12 * (w * κ) * Z) * (B₂ + q / g * B₁)) / (g * t) := by
        have : 0 ≤ t * q * B₁ / (1 - ρ) := div_nonneg (by positivity) (by linarith)
        gcongr
    _ = (a * C1 * S * B₁ + (a ^ 2 * C2 * S + 12 * w * Z * (κ / t)) * (B₂ + q / g * B₁)) / g := by field_simp
    _ ≤ (a * C1 * (S + κ / t) * ((1 + q / g) * (B₁ + B₂)) + (a ^ 2 * C2 * (S + κ / t) + 12 * w * Z * (S + κ / t)) * ((1 + q / g) * (B₁ + B₂))) / g := by
        have e1 : B₁ ≤ (1 + q / g) * (B₁ + B₂) := by nlinarith [mul_nonneg h3 hB1, mul_nonneg h3 hB2]
        have e2 : B₂ + q / g * B₁ ≤ (1 + q / g) * (B₁ + B₂) := by nlinarith [mul_nonneg h3 hB1, mul_nonneg h3 hB2]
        gcongr <;> linarith
    _ = _ := by ring

theorem sizeG_nonneg (hhi : 0 ≤ hi) (c : ℝ) : 0 ≤ sizeG ν γ U s c Λ hi := by
  unfold sizeG
  have : 0 ≤ ∫ β, ‖γ β 0‖ ^ 2 ∂ν := integral_nonneg fun β => sq_nonneg _
  have : 0 ≤ ∫ x : J → ℝ, ‖x‖ ^ 2 ∂boltz fun x => s * U x + c := integral_nonneg fun β => sq_nonneg _
  positivity

/-- The law of position and momentum that the chain approaches. -/
noncomputable def limitLaw (m : J → ℝ) (hm : ∀ j, 0 < m j) (U : (J → ℝ) → ℝ) (s c α τ : ℝ) : Measure (Phase J) :=
  phaseLaw (law (volume.map (scaled m hm)) (densE m hm U s c)) (stdNormal J) (liftL α) τ

theorem smooth_phase (hh : ∀ j, m j ≤ hi) (hhi : 0 ≤ hi) {A₁ A₂ : ℝ} (hA : 0 ≤ A₂) {f : (J → ℝ) → ℝ} {D : (J → ℝ) → (J → ℝ) →L[ℝ] ℝ} (hf : Smooth A₁ A₂ f D) :
    ∃ D', Smooth (2 * (√hi * A₁)) (4 * (hi * A₂)) (fun y : Phase J => f ((scaled m hm).symm (posL y))) D' := by
  have h1 := (smooth_symm (m := m) (hm := hm) hh hhi hA hf).comp_linear (by positivity) (posL : Phase J →L[ℝ] _)
  have hA1 := hf.nonneg
  have hp : ‖(posL : Phase J →L[ℝ] _)‖ ≤ 2 := posL_norm
  have hp0 := norm_nonneg (posL : Phase J →L[ℝ] _)
  exact ⟨_, h1.mono (mul_le_mul_of_nonneg_right hp (by positivity)) (mul_le_mul_of_nonneg_right (by nlinarith) (by positivity))⟩

/-- How far a state is from the limit law. -/
theorem dist_limit (h : ConvexBatches ν U γ μ L L₂ Λ) (hs : 0 < s) {c : ℝ} (hp : IsProbabilityMeasure (boltz fun x => s * U x + c))
    (hlo : 0 < lo) (hlh : ∀ j, lo ≤ m j ∧ m j ≤ hi) (hα0 : 0 < α) (hα1 : α ≤ 1) {τ : ℝ} (hτ : 0 ≤ τ) (x₀ v₀ : J → ℝ) :
    ∫ y, ‖state m hm α x₀ v₀ - y‖ ∂limitLaw m hm U s c α τ
      ≤ √(Fintype.card J / lo) * ((∫ y, ‖x₀ - y‖ ∂boltz fun x => s * U x + c) + 2 * ((1 - α) / α) * ‖v₀‖)
        + (1 / 2 + 2 * ((1 - α) / α)) * τ * ∫ z, ‖z‖ ∂stdNormal J := by
  have hN : Noise (stdNormal J) := noise_scaled unitNoise_gauss
  have := hN.prob
  have hT := h.target (hm := hm) hs hp hlo hlh
  have : IsProbabilityMeasure (law (volume.map (scaled m hm)) (densE m hm U s c)) := hT.prob
  have hβ : 0 ≤ (1 - α) / α := div_nonneg (by linarith) hα0.le
  set w := (1 - α) / α with hw
  have hc : Continuous fun y : Phase J => ‖state m hm α x₀ v₀ - y‖ := (continuous_const.sub continuous_id).norm
  have mT : Measurable (scaled m hm) := (scaled m hm).continuous.measurable
  have hi1 : Integrable (fun x : J → ℝ => ‖x‖) (boltz fun x => s * U x + c) := by simpa using (h.moments hs c).2 1
  have hiy : Integrable (fun y => ‖x₀ - y‖) (boltz fun x => s * U x + c) := ((integrable_const x₀).sub
    ((integrable_norm_iff (f := fun y : J → ℝ => y) continuous_id.aestronglyMeasurable).1 hi1)).norm
  have hcx : Continuous fun y : EuclideanSpace ℝ J => ‖scaled m hm x₀ - y‖ := (continuous_const.sub continuous_id).norm
  have ed : ∫ y, ‖scaled m hm x₀ - y‖ ∂law (volume.map (scaled m hm)) (densE m hm U s c)
      ≤ √(Fintype.card J / lo) * ∫ y, ‖x₀ - y‖ ∂boltz fun x => s * U x + c := by
    rw [h.law_eq, integral_map mT.aemeasurable hcx.aestronglyMeasurable, ← integral_const_mul]
    refine integral_mono_of_nonneg (.of_forall fun y => norm_nonneg _) (hiy.const_mul _) (.of_forall fun y => ?_)
    beta_reduce
    rw [← map_sub]
    exact scaled_le hlo (fun j => (hlh j).1) _
  have hint : Integrable (fun y => ‖scaled m hm x₀ - y‖) (law (volume.map (scaled m hm)) (densE m hm U s c)) := ((integrable_const (scaled m hm x₀)).sub
    ((integrable_norm_iff (f := fun y : EuclideanSpace ℝ J => y) continuous_id.aestronglyMeasurable).1 hT.int_norm)).norm
  have hv := scaled_le (hm := hm) hlo (fun j => (hlh j).1) v₀
  set π := law (volume.map (scaled m hm)) (densE m hm U s c) with hπ
  have hb : ∀ q : EuclideanSpace ℝ J × EuclideanSpace ℝ J, ‖state m hm α x₀ v₀ - liftL α (q.1, τ • q.2)‖
      ≤ ‖scaled m hm x₀ - q.1‖ + 2 * w * ‖scaled m hm v₀‖ + (1 / 2 + 2 * w) * τ * ‖q.2‖ := fun q => by
    refine (phase_le _).trans ?_
    rw [WithLp.sub_fst, WithLp.sub_snd, liftL_fst, liftL_snd]
    unfold state
    rw [fst_symm, snd_symm, ← hw]
    have e1 : scaled m hm x₀ + w • scaled m hm v₀ - (q.1 + (1 / 2 + w) • (τ • q.2))
        = (scaled m hm x₀ - q.1) + (w • scaled m hm v₀ - ((1 / 2 + w) * τ) • q.2) := by module
    have e2 : w • scaled m hm v₀ - w • (τ • q.2) = w • scaled m hm v₀ - (w * τ) • q.2 := by module
    simp only
    rw [e1, e2]
    have k1 := norm_add_le (scaled m hm x₀ - q.1) (w • scaled m hm v₀ - ((1 / 2 + w) * τ) • q.2)
    have k2 := norm_sub_le (w • scaled m hm v₀) (((1 / 2 + w) * τ) • q.2)
    have k3 := norm_sub_le (w • scaled m hm v₀) ((w * τ) • q.2)
    rw [norm_smul, norm_smul, Real.norm_eq_abs, Real.norm_eq_abs, abs_of_nonneg hβ, abs_of_nonneg (by positivity)] at k2
    rw [norm_smul, norm_smul, Real.norm_eq_abs, Real.norm_eq_abs, abs_of_nonneg hβ, abs_of_nonneg (by positivity)] at k3
    linarith
  unfold limitLaw phaseLaw
  rw [integral_map phase_continuous.measurable.aemeasurable hc.aestronglyMeasurable]
  have i1 : Integrable (fun q : EuclideanSpace ℝ J × EuclideanSpace ℝ J => ‖scaled m hm x₀ - q.1‖ + 2 * w * ‖scaled m hm v₀‖) (π.prod (stdNormal J)) :=
    (hint.comp_fst _).add (integrable_const _)
  have i2 : Integrable (fun q : EuclideanSpace ℝ J × EuclideanSpace ℝ J => (1 / 2 + 2 * w) * τ * ‖q.2‖) (π.prod (stdNormal J)) :=
    (hN.norm.const_mul ((1 / 2 + 2 * w) * τ)).comp_snd π
  have i3 : Integrable (fun q : EuclideanSpace ℝ J × EuclideanSpace ℝ J => ‖scaled m hm x₀ - q.1‖) (π.prod (stdNormal J)) := hint.comp_fst _
  have h2 := integral_mono_of_nonneg (.of_forall fun q => norm_nonneg _) (i1.add i2) (.of_forall hb)
  refine h2.trans ?_
  rw [integral_add' i1 i2, integral_add i3 (integrable_const _), integral_const, probReal_univ, one_smul,
    integral_fun_fst (f := fun x => ‖scaled m hm x₀ - x‖), integral_fun_snd (f := fun x => (1 / 2 + 2 * w) * τ * ‖x‖), probReal_univ, one_smul,
    probReal_univ, one_smul, integral_const_mul]
  have h4 : 2 * w * ‖scaled m hm v₀‖ ≤ 2 * w * (√(Fintype.card J / lo) * ‖v₀‖) := mul_le_mul_of_nonneg_left hv (by positivity)
  linarith

/-- Positions under the limit law. -/
theorem limit_pos (h : ConvexBatches ν U γ μ L L₂ Λ) (hs : 0 < s) {c : ℝ} (hp : IsProbabilityMeasure (boltz fun x => s * U x + c))
    (hlo : 0 < lo) (hlh : ∀ j, lo ≤ m j ∧ m j ≤ hi) (hhi : 0 ≤ hi) (hα0 : 0 < α) {τ : ℝ} (hτ : 0 ≤ τ) {A₁ A₂ : ℝ} (hA : 0 ≤ A₂)
    {f : (J → ℝ) → ℝ} {D : (J → ℝ) → (J → ℝ) →L[ℝ] ℝ} (hf : Smooth A₁ A₂ f D) :
    |∫ y, f ((scaled m hm).symm (posL y)) ∂limitLaw m hm U s c α τ - ∫ x, f x ∂boltz fun x => s * U x + c|
      ≤ √hi * A₁ * (τ / 2 * ∫ z, ‖z‖ ∂stdNormal J) := by
  have hN : Noise (stdNormal J) := noise_scaled unitNoise_gauss
  have := hN.prob
  have hT := h.target (hm := hm) hs hp hlo hlh
  have : IsProbabilityMeasure (law (volume.map (scaled m hm)) (densE m hm U s c)) := hT.prob
  have mT : Measurable (scaled m hm) := (scaled m hm).continuous.measurable
  have hsm := smooth_symm (m := m) (hm := hm) (fun j => (hlh j).2) hhi hA hf
  obtain ⟨D', hph⟩ := smooth_phase (m := m) (hm := hm) (fun j => (hlh j).2) hhi hA hf
  have e0 : ∫ x, f x ∂(boltz fun x => s * U x + c) = ∫ y, f ((scaled m hm).symm y) ∂law (volume.map (scaled m hm)) (densE m hm U s c) := by
    rw [h.law_eq, integral_map mT.aemeasurable hsm.continuous.aestronglyMeasurable]
    simp only [ContinuousLinearEquiv.symm_apply_apply]
  have hn := phaseLaw_norm (A := (liftL α : _ →L[ℝ] Phase J)) (τ := τ) hT.int_norm hN
  unfold phaseLaw at hn
  rw [integrable_map_measure continuous_norm.measurable.aestronglyMeasurable phase_continuous.measurable.aemeasurable] at hn
  set π := law (volume.map (scaled m hm)) (densE m hm U s c) with hπ
  unfold limitLaw phaseLaw
  rw [e0, integral_map phase_continuous.measurable.aemeasurable hph.continuous.aestronglyMeasurable]
  have hpos : ∀ q : EuclideanSpace ℝ J × EuclideanSpace ℝ J, posL (liftL α (q.1, τ • q.2)) = q.1 + (τ / 2) • q.2 := fun q => by
    rw [posL_apply, liftL_fst, liftL_snd]
    module
  have i1 : Integrable (fun q : EuclideanSpace ℝ J × EuclideanSpace ℝ J => f ((scaled m hm).symm (posL (liftL α (q.1, τ • q.2))))) (π.prod (stdNormal J)) :=
    ((integrable_const _).add (hn.const_mul _)).mono' (hph.continuous.comp phase_continuous).aestronglyMeasurable (.of_forall fun q => hph.growth _)
  have i2 : Integrable (fun q : EuclideanSpace ℝ J × EuclideanSpace ℝ J => f ((scaled m hm).symm q.1)) (π.prod (stdNormal J)) := by
    have : Integrable (fun x => f ((scaled m hm).symm x)) π :=
      ((integrable_const _).add (hT.int_norm.const_mul _)).mono' hsm.continuous.aestronglyMeasurable (.of_forall fun q => hsm.growth _)
    exact this.comp_fst _
  have e1 : ∫ y, f ((scaled m hm).symm y) ∂π = ∫ q : EuclideanSpace ℝ J × EuclideanSpace ℝ J, f ((scaled m hm).symm q.1) ∂(π.prod (stdNormal J)) := by
    rw [integral_fun_fst (f := fun x => f ((scaled m hm).symm x)), probReal_univ, one_smul]
  rw [e1, ← integral_sub i1 i2, ← integral_const_mul, ← integral_const_mul]
  have e2 : ∫ z, √hi * A₁ * (τ / 2 * ‖z‖) ∂stdNormal J
      = ∫ q : EuclideanSpace ℝ J × EuclideanSpace ℝ J, √hi * A₁ * (τ / 2 * ‖q.2‖) ∂(π.prod (stdNormal J)) := by
    rw [integral_fun_snd (f := fun z => √hi * A₁ * (τ / 2 * ‖z‖)), probReal_univ, one_smul]
  rw [e2]
  refine abs_integral_le_integral_abs.trans (integral_mono (i1.sub i2).abs (((hN.norm.const_mul (τ / 2)).const_mul (√hi * A₁)).comp_snd π) fun q => ?_)
  simp only [hpos]
  refine (hsm.lipschitz (q.1 + (τ / 2) • q.2) q.1).trans (le_of_eq ?_)
  rw [add_sub_cancel_left, norm_smul, Real.norm_eq_abs, abs_of_nonneg (by positivity)]

theorem small_step {α t lo hi μ L : ℝ} (hα0 : 0 < α) (hα1 : α ≤ 1) (ht : 0 < t) (hlo : 0 < lo) (hlohi : lo ≤ hi) (hμ : 0 < μ) (hμL : μ ≤ L)
    (hL : t / α * hi * L * (2 + 8 / (1 - (1 - α) ^ 2)) ≤ 1) :
    √t ≤ √(α / (hi * L)) ∧ 0 ≤ √(1 - t / α * μ * lo / 2) ∧ μ * lo / (4 * α) * t ≤ 1 - √(1 - t / α * μ * lo / 2) := by
  have hhi : 0 < hi := hlo.trans_le hlohi
  have hLp : 0 < L := hμ.trans_le hμL
  set b := t / α with hb
  have hb0 : 0 < b := by positivity
  have hden : 0 < 1 - (1 - α) ^ 2 := by nlinarith
  have hbL : b * hi * L ≤ 1 := by
    refine le_trans ?_ hL
    have : 0 ≤ b * hi * L := by positivity
    have h8 : 0 ≤ 8 / (1 - (1 - α) ^ 2) := by positivity
    exact le_mul_of_one_le_right this (by linarith)
  refine ⟨Real.sqrt_le_sqrt ?_, Real.sqrt_nonneg _, ?_⟩
  · rw [le_div_iff₀ (by positivity)]
    have e : b * hi * L = t * (hi * L) / α := by rw [hb]; ring
    rw [e, div_le_one hα0] at hbL
    exact hbL
  · have hbm : b * μ * lo ≤ 1 := by
      refine le_trans ?_ hbL
      calc b * μ * lo = b * (lo * μ) := by ring
        _ ≤ b * (hi * L) := mul_le_mul_of_nonneg_left (mul_le_mul hlohi hμL hμ.le hhi.le) hb0.le
        _ = b * hi * L := by ring
    have hbm0 : 0 < b * μ * lo := by positivity
    have h1 : √(1 - b * μ * lo / 2) ≤ 1 - b * μ * lo / 4 := Real.sqrt_le_iff.2 ⟨by linarith, by nlinarith [sq_nonneg (b * μ * lo)]⟩
    have h2 : μ * lo / (4 * α) * t = b * μ * lo / 4 := by rw [hb]; field_simp
    linarith

/-- Noise and momentum of the right size. -/
theorem ideal_noise {α t s : ℝ} (hα0 : 0 < α) (hα1 : α ≤ 1) (ht : 0 < t) (hs : 0 < s) : ∃ σ τ : ℝ, 0 ≤ σ ∧ 0 ≤ τ ∧ τ ≤ √t * √(2 / s)
    ∧ σ ^ 2 = 2 * t * α / s ∧ (1 + (1 - α)) * τ / 2 * ((1 + (1 - α)) * τ / 2) + σ / 2 * (σ / 2) = t / s
    ∧ (1 + (1 - α)) * τ / 2 * ((1 - α) * τ) + σ / 2 * σ = t / s ∧ ((1 - α) * τ) ^ 2 + σ ^ 2 = τ ^ 2
    ∧ |(1 + (1 - α)) * τ / 2| ≤ √t * √(2 / s) ∧ |σ / 2| ≤ √t * √(2 / s) ∧ |(1 - α) * τ| ≤ √t * √(2 / s) ∧ |σ| ≤ √t * √(2 / s) := by
  have hα2 : 0 < 2 - α := by linarith
  have hσ0 : 0 ≤ √(2 * t * α / s) := Real.sqrt_nonneg _
  have hτ0 : 0 ≤ √(2 * t / (s * (2 - α))) := Real.sqrt_nonneg _
  have hσ2 : √(2 * t * α / s) ^ 2 = 2 * t * α / s := Real.sq_sqrt (by positivity)
  have hτ2 : √(2 * t / (s * (2 - α))) ^ 2 = 2 * t / (s * (2 - α)) := Real.sq_sqrt (by positivity)
  have hσk : √(2 * t * α / s) ≤ √t * √(2 / s) := by
    rw [← Real.sqrt_mul ht.le]
    refine Real.sqrt_le_sqrt ?_
    rw [show 2 * t * α / s = t * (2 / s) * α by ring]
    exact mul_le_of_le_one_right (by positivity) hα1
  have hτk : √(2 * t / (s * (2 - α))) ≤ √t * √(2 / s) := by
    rw [← Real.sqrt_mul ht.le]
    refine Real.sqrt_le_sqrt ?_
    rw [show 2 * t / (s * (2 - α)) = t * (2 / s) / (2 - α) by field_simp]
    exact div_le_self (by positivity) (by linarith)
  generalize √(2 * t * α / s) = σ at *
  generalize √(2 * t / (s * (2 - α))) = τ at *
  generalize √t * √(2 / s) = k at *
  refine ⟨σ, τ, hσ0, hτ0, hτk, hσ2, ?_, ?_, ?_, ?_, ?_, ?_, ?_⟩
  · have : (1 + (1 - α)) * τ / 2 * ((1 + (1 - α)) * τ / 2) + σ / 2 * (σ / 2) = (2 - α) ^ 2 * τ ^ 2 / 4 + σ ^ 2 / 4 := by ring
    rw [this, hσ2, hτ2]
    field_simp
    ring
  · have : (1 + (1 - α)) * τ / 2 * ((1 - α) * τ) + σ / 2 * σ = (2 - α) * (1 - α) * τ ^ 2 / 2 + σ ^ 2 / 2 := by ring
    rw [this, hσ2, hτ2]
    field_simp
    ring
  · rw [mul_pow, hσ2, hτ2]
    field_simp
    ring
  · rw [abs_of_nonneg (by nlinarith)]
    nlinarith
  · rw [abs_of_nonneg (by linarith)]; linarith
  · rw [abs_of_nonneg (mul_nonneg (by linarith) hτ0)]; nlinarith
  · rw [abs_of_nonneg hσ0]; exact hσk

set_option maxHeartbeats 800000 in
/-- **Convergence** of the chain with momentum to the posterior, up to an error of order `√t + κ / t`, with `κ` how far the variance of
the noise is from the right one. -/
theorem converges_momentum (h : ConvexBatches ν U γ μ L L₂ Λ) (hs : 0 < s) {c : ℝ} (hp : IsProbabilityMeasure (boltz fun x => s * U x + c))
    (hlo : 0 < lo) (hlohi : lo ≤ hi) (hα0 : 0 < α) (hα1 : α ≤ 1) :
    ∃ K, 0 ≤ K ∧ ∀ {Ω : Type} [MeasurableSpace Ω] (P : Measure Ω) [IsProbabilityMeasure P] (m q : J → ℝ) (t κ : ℝ) (β : Nat → Ω → Bt)
      (z : Nat → Ω → J → ℝ) (X V : Nat → Ω → J → ℝ) (x₀ v₀ : J → ℝ), (∀ j, lo ≤ m j ∧ m j ≤ hi) → 0 < t →
      t / α * hi * L * (2 + 8 / (1 - (1 - α) ^ 2)) ≤ 1 → 0 ≤ κ → (∀ j, |q j - 2 * t * α * m j / s| ≤ κ) →
      (∀ k, Measurable (β k)) → (∀ k, Measurable (z k)) → iIndepFun (fun k ω => (β k ω, z k ω)) P →
      (∀ k, P.map (fun ω => (β k ω, z k ω)) = ν.prod (Measure.pi fun _ => gaussianReal 0 1)) → (∀ ω, X 0 ω = x₀) → (∀ ω, V 0 ω = v₀) →
      (∀ k ω j, V (k + 1) ω j = (1 - α) * V k ω j - t * m j * γ (β k ω) (X k ω) j + √(q j) * z k ω j) →
      (∀ k ω j, X (k + 1) ω j = X k ω j + V (k + 1) ω j) →
      ∀ {A₁ A₂ : ℝ} {f : (J → ℝ) → ℝ} {D : (J → ℝ) → (J → ℝ) →L[ℝ] ℝ}, Smooth A₁ A₂ f D → 0 ≤ A₂ → ∀ k,
        Integrable (fun ω => f (X k ω)) P
        ∧ |∫ ω, f (X k ω) ∂P - ∫ x, f x ∂boltz fun x => s * U x + c|
          ≤ 2 * √(hi * Fintype.card J / lo) * A₁ * (√(1 - t / α * μ * lo / 2)) ^ k
              * ((∫ y, ‖x₀ - y‖ ∂boltz fun x => s * U x + c) + 2 * ((1 - α) / α) * ‖v₀‖)
            + K * (√t + κ / t) * (A₁ + A₂) := by
  have hhi : 0 < hi := hlo.trans_le hlohi
  have hμ := h.pos
  have hLp : 0 < L := hμ.trans_le h.le
  have hL2 := h.nonneg
  have hN : Noise (stdNormal J) := noise_scaled unitNoise_gauss
  have := hN.prob
  have hG : 0 ≤ sizeG ν γ U s c Λ hi := sizeG_nonneg hhi.le c
  set G := sizeG ν γ U s c Λ hi with hGdef
  set Lam := √(Fintype.card J) * (Λ * hi) with hLamdef
  have hLam : 0 ≤ Lam := mul_nonneg (Real.sqrt_nonneg _) (mul_nonneg h.batch.nonneg hhi.le)
  set kk := √(2 / s) with hkk
  have hkk0 : 0 ≤ kk := Real.sqrt_nonneg _
  set Z := fun n : Nat => ∫ q : EuclideanSpace ℝ J × EuclideanSpace ℝ J, (‖q.1‖ + ‖q.2‖) ^ n ∂((stdNormal J).prod (stdNormal J)) with hZ
  have hZ0 : ∀ n, 0 ≤ Z n := fun n => integral_nonneg fun q => by positivity
  set S0 := √(α / (hi * L)) with hS0
  have hS00 : 0 ≤ S0 := Real.sqrt_nonneg _
  set C2 := flow G Lam kk (Z 1) (Z 2) (Z 3) S0 s with hC2
  have hC20 : 0 ≤ C2 := flow_nonneg hG hLam hkk0 (hZ0 1) (hZ0 2) (hZ0 3) hS00 hs.le
  set C1 := 2 * Lam * (kk * Z 1) with hC1
  have hC10 : 0 ≤ C1 := by have := hZ0 1; positivity
  set a := ‖(liftL α : _ →L[ℝ] Phase J)‖ with ha
  have ha0 : 0 ≤ a := ContinuousLinearMap.opNorm_nonneg _
  set Z2 := ∫ z, ‖z‖ ^ 2 ∂stdNormal J with hZ2
  have hZ20 : 0 ≤ Z2 := integral_nonneg fun q => by positivity
  set Z1 := ∫ z, ‖z‖ ∂stdNormal J with hZ1
  have hZ10 : 0 ≤ Z1 := integral_nonneg fun q => by positivity
  set w := 1 / (α ^ 2 * lo) with hw
  have hw0 : 0 ≤ w := by positivity
  set qq := 8 * (√(hi * Fintype.card J) * (L₂ * hi)) / α with hqq
  have hqq0 : 0 ≤ qq := by positivity
  set g := μ * lo / (4 * α) with hg
  have hg0 : 0 < g := by positivity
  set v := (1 - α) / α with hv
  have hv0 : 0 ≤ v := div_nonneg (by linarith) hα0.le
  set K0 := (a * C1 + a ^ 2 * C2 + 12 * w * Z2) / g * (1 + qq / g) with hK0
  have hK00 : 0 ≤ K0 := by positivity
  refine ⟨K0 * (2 * √hi + 4 * hi) + 2 * √hi * ((1 / 2 + 2 * v) * kk * Z1) + √hi * (kk / 2 * Z1), by positivity, ?_⟩
  intro Ω _ P _ m q t κ β z X V x₀ v₀ hlh ht hL hκ hq hβ hz hind hlaw hX0 hV0 hV hX A₁ A₂ f D hf hA k
  have hm : ∀ j, 0 < m j := fun j => hlo.trans_le (hlh j).1
  have hA1 := hf.nonneg
  set S := √t with hSdef
  have hS : 0 ≤ S := Real.sqrt_nonneg _
  have hSt : S ^ 2 = t := Real.sq_sqrt ht.le
  set b := t / α with hb
  have hb0 : 0 < b := by positivity
  -- the stepsize is small
  have hβ0 : 0 ≤ 1 - α := by linarith
  have hβ1 : 1 - α < 1 := by linarith
  have hden : 0 < 1 - (1 - α) ^ 2 := by nlinarith
  set ρ := √(1 - b * μ * lo / 2) with hρ
  obtain ⟨hSS0, hρ0, hρ1⟩ : S ≤ S0 ∧ 0 ≤ ρ ∧ g * t ≤ 1 - ρ := small_step hα0 hα1 ht hlo hlohi hμ h.le hL
  have hgt : 0 < g * t := by positivity
  have hρk : ρ ^ k ≤ 1 := pow_le_one₀ hρ0 (by linarith)
  -- the ideal noise
  obtain ⟨σ, τ, hσ0, hτ0, hτk, hσ2, n1, n2, n3, c1, c2, c3, c4⟩ := ideal_noise hα0 hα1 ht hs
  set M := ((stdNormal J).prod (stdNormal J)).map (combine ((1 + (1 - α)) * τ / 2) (σ / 2) ((1 - α) * τ) σ) with hM
  have hP : PairNoise M (t / s) := pairNoise hN n1 n2
  have hη : ((stdNormal J).prod (stdNormal J)).map (fun q => ((1 - α) * τ) • q.1 + σ • q.2) = (stdNormal J).map (fun y => τ • y) :=
    gauss_combine _ _ _ n3
  have hmom := fun n hn => hN.moment (by positivity : 0 ≤ S * kk) c1 c2 c3 c4 n hn
  have m1 := hmom 1 (by norm_num)
  simp only [pow_one] at m1
  obtain ⟨p2, p1⟩ := pair_arith (G := G) (Lam := Lam) (k := kk) (s := s) hG hLam (hZ0 2) hS hSt hSS0 hs.le
    (M1 := ∫ q, ‖q‖ ∂M) (Z1 := Z 1) (by simp only [hZ, pow_one]; exact m1) (hmom 2 (by norm_num)) (hmom 3 (by norm_num))
  -- the actual noise
  set R := diagL (fun j => √(q j) / (α * √(m j))) with hR
  set r := σ / α with hr
  have hr0 : 0 ≤ r := by positivity
  have hnear : ∀ j, |√(q j) / (α * √(m j)) - r| ≤ √(w * κ) ∧ |√(q j) / (α * √(m j)) - r| * r ≤ w * κ := fun j => by
    have e : √(q j) / (α * √(m j)) = √(q j / (α ^ 2 * m j)) := by
      rw [Real.sqrt_div' _ (by have := hm j; positivity), Real.sqrt_mul (by positivity), Real.sqrt_sq hα0.le]
    rw [e]
    refine sqrt_near hr0 ?_
    have hmj := hm j
    have e2 : q j / (α ^ 2 * m j) - r ^ 2 = (q j - 2 * t * α * m j / s) / (α ^ 2 * m j) := by
      rw [hr, div_pow, hσ2]
      field_simp
    rw [e2, abs_div, abs_of_pos (by positivity : 0 < α ^ 2 * m j)]
    calc |q j - 2 * t * α * m j / s| / (α ^ 2 * m j) ≤ κ / (α ^ 2 * lo) := by
          have := hq j
          have := (hlh j).1
          gcongr
      _ = w * κ := by rw [hw]; ring
  have hd1 : ‖R - r • ContinuousLinearMap.id ℝ _‖ ≤ √(w * κ) := by
    rw [hR, diagL_sub]
    exact diagL_norm (Real.sqrt_nonneg _) fun j => (hnear j).1
  have hd2 : ‖R - r • ContinuousLinearMap.id ℝ _‖ * r ≤ w * κ := by
    rcases hr0.eq_or_lt with h0 | h0
    · rw [← h0, mul_zero]; positivity
    · rw [← le_div_iff₀ h0, hR, diagL_sub]
      exact diagL_norm (by positivity) fun j => (le_div_iff₀ h0).2 (hnear j).2
  have hRn : ‖R‖ ≤ r + √(w * κ) := by
    refine diagL_norm (by positivity) fun j => ?_
    have h1 := abs_sub_abs_le_abs_sub (√(q j) / (α * √(m j))) r
    rw [abs_of_nonneg hr0] at h1
    linarith [(hnear j).1]
  -- the step
  have hstep := fun R => h.stepP_step (hm := hm) (R := R) hN hlo hlh hhi.le hb0.le hβ0 hβ1 hL
  have hTar := h.target (hm := hm) hs hp hlo hlh
  have hpE : IsProbabilityMeasure (law (volume.map (scaled m hm)) (densE m hm U s c)) := hTar.prob
  have hpL : IsProbabilityMeasure (limitLaw m hm U s c α τ) := phaseLaw_prob
  obtain ⟨D', hsm⟩ := smooth_phase (m := m) (hm := hm) (fun j => (hlh j).2) hhi.le hA hf
  have hinv : ∀ {B₁ B₂ : ℝ} {u : Phase J → ℝ} {D : Phase J → Phase J →L[ℝ] ℝ}, Smooth B₁ B₂ u D → 0 ≤ B₂ →
      |∫ y, push (ν.prod (stdNormal J)) (stepP m hm γ b (moves (1 - α)) R) u y ∂limitLaw m hm U s c α τ - ∫ y, u y ∂limitLaw m hm U s c α τ|
        ≤ a * (t * S * C1) * B₁ + (a ^ 2 * (t * S * C2) + 12 * (w * κ) * Z2) * B₂ := fun {B₁ B₂ u D} hu hB => by
    have h1 := h.nearly_invariantP (hm := hm) hN hs hp hlo hlh hhi.le ht.le hη hM hP (lifts hα0.ne') hstep (kickL_norm hβ0 hβ1.le)
      (by positivity) hr0 hRn hd1 hd2 hu hB
    have h2 := mul_le_mul_of_nonneg_left p2 (by positivity : 0 ≤ a ^ 2 * B₂)
    have h3 := mul_le_mul_of_nonneg_left p1 (mul_nonneg ha0 hu.nonneg)
    unfold pairError at h1
    unfold limitLaw
    refine h1.trans ((add_le_add (add_le_add h2 h3) le_rfl).trans (le_of_eq ?_))
    ring
  have hcl := (hstep R).close (by linarith) hsm (by positivity) (phaseLaw_norm hTar.int_norm hN) (π := limitLaw m hm U s c α τ)
    (by positivity) (by positivity) hinv k (state m hm α x₀ v₀)
  -- the chain
  have hmtoLp : Measurable (WithLp.toLp 2 : (J → ℝ) → EuclideanSpace ℝ J) := ((EuclideanSpace.equiv J ℝ).symm.continuous).measurable
  have hch := (hstep R).chain (P := P) (ζ := fun k ω => (β k ω, (WithLp.toLp 2 (z k ω) : EuclideanSpace ℝ J)))
    (fun k => (hβ k).prodMk (hmtoLp.comp (hz k)))
    (hind.comp (fun _ q => (q.1, (WithLp.toLp 2 q.2 : EuclideanSpace ℝ J))) fun _ => measurable_fst.prodMk (hmtoLp.comp measurable_snd))
    (fun k => by
      have e : (fun ω => (β k ω, (WithLp.toLp 2 (z k ω) : EuclideanSpace ℝ J)))
          = Prod.map id (WithLp.toLp 2 : (J → ℝ) → EuclideanSpace ℝ J) ∘ fun ω => (β k ω, z k ω) := rfl
      rw [e, ← Measure.map_map (measurable_id.prodMap hmtoLp) ((hβ k).prodMk (hz k)), hlaw k, ← Measure.map_prod_map _ _ measurable_id hmtoLp,
        Measure.map_id]
      rfl)
    (X := fun k ω => state m hm α (X k ω) (V k ω)) (x₀ := state m hm α x₀ v₀) (fun ω => by rw [hX0, hV0])
    (fun k ω => state_step hα0.ne' (hV k ω) (hX k ω)) k
  have hE := hch.2.2 hsm (by positivity)
  simp only [state_pos, ContinuousLinearEquiv.symm_apply_apply] at hE
  rw [← hE] at hcl
  have hlim := h.limit_pos (hm := hm) hs hp hlo hlh hhi.le hα0 hτ0 hA hf
  have hdist := h.dist_limit (hm := hm) hs hp hlo hlh hα0 hα1 hτ0 x₀ v₀
  constructor
  · have hmX : Measurable (X k) := by
      have := (scaled m hm).symm.continuous.measurable.comp (posL.continuous.measurable.comp hch.1)
      simpa [Function.comp_def, state_pos] using this
    have hg := fun ω => hsm.growth (state m hm α (X k ω) (V k ω))
    simp only [state_pos, ContinuousLinearEquiv.symm_apply_apply] at hg
    exact ((integrable_const _).add (hch.2.1.const_mul _)).mono' (hf.continuous.measurable.comp hmX).aestronglyMeasurable (.of_forall hg)
  · have hbias := bias_arith (κ := κ) (B₁ := 2 * (√hi * A₁)) (B₂ := 4 * (hi * A₂)) ht hS hκ hw0 ha0 hC10 hC20 hZ20 hqq0 hg0 hρ1 (by positivity) (by positivity)
    have el : b * (8 * (√(hi * Fintype.card J) * (L₂ * hi))) = t * qq := by rw [hb, hqq]; ring
    rw [el] at hcl
    have h1 := hcl.trans (add_le_add (mul_le_mul_of_nonneg_left hdist (by positivity)) hbias)
    have h2 := abs_add_le (∫ ω, f (X k ω) ∂P - ∫ y, f ((scaled m hm).symm (posL y)) ∂limitLaw m hm U s c α τ)
      (∫ y, f ((scaled m hm).symm (posL y)) ∂limitLaw m hm U s c α τ - ∫ x, f x ∂boltz fun x => s * U x + c)
    rw [sub_add_sub_cancel] at h2
    refine h2.trans ((add_le_add h1 hlim).trans ?_)
    set dx := ∫ y, ‖x₀ - y‖ ∂boltz fun x => s * U x + c with hdx
    set κt := κ / t with hκt
    have hκt0 : 0 ≤ κt := by positivity
    have e1 : √(hi * Fintype.card J / lo) = √hi * √(Fintype.card J / lo) := by rw [mul_div_assoc, Real.sqrt_mul hhi.le]
    rw [e1]
    have b1 : ρ ^ k * (2 * (√hi * A₁)) * ((1 / 2 + 2 * v) * τ * Z1) ≤ 2 * √hi * ((1 / 2 + 2 * v) * kk * Z1) * (S + κt) * (A₁ + A₂) := by
      calc ρ ^ k * (2 * (√hi * A₁)) * ((1 / 2 + 2 * v) * τ * Z1) ≤ 1 * (2 * (√hi * A₁)) * ((1 / 2 + 2 * v) * (S * kk) * Z1) := by gcongr
        _ = 2 * √hi * ((1 / 2 + 2 * v) * kk * Z1) * S * A₁ := by ring
        _ ≤ _ := by gcongr <;> linarith
    have b2 : √hi * A₁ * (τ / 2 * Z1) ≤ √hi * (kk / 2 * Z1) * (S + κt) * (A₁ + A₂) := by
      calc √hi * A₁ * (τ / 2 * Z1) ≤ √hi * A₁ * (S * kk / 2 * Z1) := by gcongr
        _ = √hi * (kk / 2 * Z1) * S * A₁ := by ring
        _ ≤ _ := by gcongr <;> linarith
    have b3 : K0 * (S + κt) * (2 * (√hi * A₁) + 4 * (hi * A₂)) ≤ K0 * (S + κt) * ((2 * √hi + 4 * hi) * (A₁ + A₂)) := by
      refine mul_le_mul_of_nonneg_left ?_ (by positivity)
      have : 0 ≤ 2 * √hi * A₂ + 4 * hi * A₁ := by positivity
      linarith
    linarith

end ConvexBatches

end PySGMCMC.Langevin
