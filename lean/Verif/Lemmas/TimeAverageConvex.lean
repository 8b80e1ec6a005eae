import Verif.Lemmas.TimeAverage
import Verif.Lemmas.MomentumConvergence

/-!
# Averages along one run of SGLD or SGHMC
-/

open MeasureTheory ProbabilityTheory
namespace PySGMCMC.Langevin
open PySGMCMC.Contraction Invariance Recipe
set_option linter.unusedSectionVars false

namespace Walk
variable {E : Type*} [NormedAddCommGroup E] [MeasurableSpace E] [BorelSpace E]
  {Z : Type*} [MeasurableSpace Z] {κ : Measure Z} [IsProbabilityMeasure κ] {Ψ : E → Z → E} {ρ : ℝ}
  {A : ℝ} {f : E → ℝ} {Ω : Type*} [MeasurableSpace Ω] {P : Measure Ω} [IsProbabilityMeasure P] {ζ : Nat → Ω → Z}

theorem rate_arith {A ρ g t a b a0 b0 q s2 : ℝ} (hA : 0 ≤ A) (ht : 0 < t) (hg : 0 < g) (hgt : g * t ≤ 1 - ρ) (ha : a ≤ t * a0) (ha0 : 0 ≤ a0)
    (hb : b ≤ t ^ 2 * b0) (hb0 : 0 ≤ b0) (hb' : 0 ≤ b) (hq : 0 ≤ q) (hs : s2 ≤ t * a0) (hs0 : 0 ≤ s2) (ha' : 0 ≤ a) :
    (A / (1 - ρ)) ^ 2 * (a + b * (q + s2 / (1 - ρ) ^ 2)) ≤ A ^ 2 / (g ^ 2 * t) * (a0 * (1 + b0 / g ^ 2) + t * b0 * q) := by
  have hgt0 : 0 < g * t := by positivity
  have h0 : 0 < 1 - ρ := hgt0.trans_le hgt
  have h1 : (A / (1 - ρ)) ^ 2 ≤ (A / (g * t)) ^ 2 := by gcongr
  have h2 : s2 / (1 - ρ) ^ 2 ≤ t * a0 / (g * t) ^ 2 := by gcongr
  have h3 : a + b * (q + s2 / (1 - ρ) ^ 2) ≤ t * a0 + t ^ 2 * b0 * (q + t * a0 / (g * t) ^ 2) := by gcongr
  refine (mul_le_mul h1 h3 (by positivity) (by positivity)).trans (le_of_eq ?_)
  field_simp
  ring

/-- Averages along a run, if a step moves little and forgets little. -/
theorem average_rate (h : Walk κ Ψ ρ) (hζ : ∀ k, Measurable (ζ k)) (hi : iIndepFun ζ P) (hlaw : ∀ k, P.map (ζ k) = κ)
    {X : Nat → Ω → E} {x₀ : E} (h0 : ∀ ω, X 0 ω = x₀) (hX : ∀ k ω, X (k + 1) ω = Ψ (X k ω) (ζ k ω))
    (hf : Lip A f) (hA : 0 ≤ A) {a b a0 b0 g t : ℝ} (ctr : E → E) (hc : ctr 0 = 0)
    (hv : ∀ x, ∫ ζ, ‖Ψ x ζ - ctr x‖ ^ 2 ∂κ ≤ a + b * ‖x‖ ^ 2) (hb' : 0 ≤ b) (ht : 0 < t) (hg : 0 < g) (hgt : g * t ≤ 1 - ρ) (ha : a ≤ t * a0)
    (ha' : 0 ≤ a) (hb : b ≤ t ^ 2 * b0) (hb0 : 0 ≤ b0) {I : Finset Nat} (hI : I.Nonempty) {N : Nat} (hN : ∀ k ∈ I, k < N) (c : ℝ) :
    Integrable (fun ω => ((∑ k ∈ I, f (X k ω)) / I.card - c) ^ 2) P
      ∧ ∫ ω, ((∑ k ∈ I, f (X k ω)) / I.card - c) ^ 2 ∂P
        ≤ N / (I.card : ℝ) ^ 2 * (A ^ 2 / (g ^ 2 * t) * (a0 * (1 + b0 / g ^ 2) + t * b0 * ‖x₀‖ ^ 2))
          + ((∑ k ∈ I, |∫ ω, f (X k ω) ∂P - c|) / I.card) ^ 2 := by
  obtain ⟨h1, h2⟩ := h.average hζ hi hlaw h0 hX hf hA hb' ctr hv hI hN c
  refine ⟨h1, h2.trans (add_le_add (mul_le_mul_of_nonneg_left ?_ (by positivity)) le_rfl)⟩
  have hs := hv 0
  simp only [hc, sub_zero, norm_zero] at hs
  rw [zero_pow two_ne_zero, mul_zero, add_zero] at hs
  have ha0 : 0 ≤ a0 := by
    by_contra hneg
    have := mul_neg_of_pos_of_neg ht (not_le.1 hneg)
    linarith
  exact rate_arith hA ht hg hgt ha ha0 hb hb0 hb' (by positivity) (hs.trans ha) (integral_nonneg fun _ => by positivity) ha'

end Walk

namespace ConvexBatches
variable {J : Type} [Fintype J] [DecidableEq J] {m : J → ℝ} {hm : ∀ j, 0 < m j} {lo hi : ℝ} {Bt : Type} [MeasurableSpace Bt] {ν : Measure Bt}
  [IsProbabilityMeasure ν] {U : (J → ℝ) → ℝ} {γ : Bt → (J → ℝ) → J → ℝ} {μ L L₂ Λ b : ℝ} {N : Measure (EuclideanSpace ℝ J)}
  {F : Type*} [NormedAddCommGroup F] [InnerProductSpace ℝ F] [MeasurableSpace F] [BorelSpace F]
  {W : Moves J F} {R : EuclideanSpace ℝ J →L[ℝ] EuclideanSpace ℝ J}

theorem drift_growth (h : ConvexBatches ν U γ μ L L₂ Λ) (hhi : 0 ≤ hi) (hh : ∀ j, m j ≤ hi) (β : Bt) (x : EuclideanSpace ℝ J) :
    ‖driftE m hm γ β x‖ ^ 2 ≤ hi * Fintype.card J * (2 * Λ ^ 2 * (hi * ‖x‖ ^ 2) + 2 * ‖γ β 0‖ ^ 2) := by
  have h1 : ‖driftE m hm γ β x‖ ≤ √(hi * Fintype.card J) * ‖γ β ((scaled m hm).symm x)‖ := scaled_mul_le (hm := hm) hh _
  have h2 := pow_le_pow_left₀ (norm_nonneg _) h1 2
  rw [mul_pow, Real.sq_sqrt (by positivity)] at h2
  refine h2.trans (mul_le_mul_of_nonneg_left ((h.gamma_growth β _).trans ?_) (by positivity))
  have h3 := pow_le_pow_left₀ (norm_nonneg _) (scaled_symm_le (hm := hm) hh x) 2
  rw [mul_pow, Real.sq_sqrt hhi] at h3
  have := mul_le_mul_of_nonneg_left h3 (by positivity : 0 ≤ 2 * Λ ^ 2)
  linarith

/-- How far a step is from its linear part. -/
theorem jitter (h : ConvexBatches ν U γ μ L L₂ Λ) (hN : Noise N) (hhi : 0 ≤ hi) (hh : ∀ j, m j ≤ hi) (hk : ‖W.kick‖ ≤ 2) (hp : ‖W.pos‖ ≤ 2)
    (hmeas : Measurable fun q : F × (Bt × EuclideanSpace ℝ J) => stepP m hm γ b W R q.1 q.2) (y : F) :
    Integrable (fun ζ => ‖stepP m hm γ b W R y ζ - W.keep y‖ ^ 2) (ν.prod N)
      ∧ ∫ ζ, ‖stepP m hm γ b W R y ζ - W.keep y‖ ^ 2 ∂(ν.prod N)
        ≤ (16 * b ^ 2 * (hi * Fintype.card J) * (∫ β, ‖γ β 0‖ ^ 2 ∂ν) + 8 * ‖R‖ ^ 2 * ∫ z, ‖z‖ ^ 2 ∂N)
          + 64 * b ^ 2 * (hi * Fintype.card J) * (Λ ^ 2 * hi) * ‖y‖ ^ 2 := by
  have := hN.prob
  have hd : 0 ≤ hi * Fintype.card J := by positivity
  have hpt : ∀ ζ, ‖stepP m hm γ b W R y ζ - W.keep y‖ ^ 2 ≤ 64 * b ^ 2 * (hi * Fintype.card J) * (Λ ^ 2 * hi) * ‖y‖ ^ 2
      + (16 * b ^ 2 * (hi * Fintype.card J) * ‖γ ζ.1 0‖ ^ 2 + 8 * ‖R‖ ^ 2 * ‖ζ.2‖ ^ 2) := fun ζ => by
    have e : stepP m hm γ b W R y ζ - W.keep y = W.kick (R ζ.2 - b • driftE m hm γ ζ.1 (W.pos y)) := by
      unfold stepP
      rw [map_sub, map_smul]
      abel
    rw [e]
    have h1 : ‖W.kick (R ζ.2 - b • driftE m hm γ ζ.1 (W.pos y))‖ ≤ 2 * (‖R‖ * ‖ζ.2‖ + |b| * ‖driftE m hm γ ζ.1 (W.pos y)‖) := by
      refine (W.kick.le_of_opNorm_le hk _).trans (mul_le_mul_of_nonneg_left ((norm_sub_le _ _).trans (add_le_add (R.le_opNorm _) ?_)) (by norm_num))
      rw [norm_smul, Real.norm_eq_abs]
    have h2 := pow_le_pow_left₀ (norm_nonneg _) h1 2
    have h3 := h.drift_growth (hm := hm) hhi hh ζ.1 (W.pos y)
    have h4 := pow_le_pow_left₀ (norm_nonneg _) (W.pos.le_of_opNorm_le hp y) 2
    rw [mul_pow] at h4
    have h5 : (2 * (‖R‖ * ‖ζ.2‖ + |b| * ‖driftE m hm γ ζ.1 (W.pos y)‖)) ^ 2
        ≤ 8 * ‖R‖ ^ 2 * ‖ζ.2‖ ^ 2 + 8 * b ^ 2 * ‖driftE m hm γ ζ.1 (W.pos y)‖ ^ 2 := by
      rw [← sq_abs b]
      nlinarith [sq_nonneg (‖R‖ * ‖ζ.2‖ - |b| * ‖driftE m hm γ ζ.1 (W.pos y)‖)]
    have h6 : ‖driftE m hm γ ζ.1 (W.pos y)‖ ^ 2 ≤ hi * Fintype.card J * (2 * Λ ^ 2 * (hi * (2 ^ 2 * ‖y‖ ^ 2)) + 2 * ‖γ ζ.1 0‖ ^ 2) :=
      h3.trans (mul_le_mul_of_nonneg_left (add_le_add (mul_le_mul_of_nonneg_left (mul_le_mul_of_nonneg_left h4 hhi) (by positivity)) le_rfl) hd)
    have h7 := mul_le_mul_of_nonneg_left h6 (by positivity : 0 ≤ 8 * b ^ 2)
    linarith
  have i1 : Integrable (fun ζ : Bt × EuclideanSpace ℝ J => 16 * b ^ 2 * (hi * Fintype.card J) * ‖γ ζ.1 0‖ ^ 2) (ν.prod N) :=
    (h.sq.comp_fst N).const_mul _
  have i2 : Integrable (fun ζ : Bt × EuclideanSpace ℝ J => 8 * ‖R‖ ^ 2 * ‖ζ.2‖ ^ 2) (ν.prod N) :=
    ((hN.low 2 (by norm_num)).comp_snd ν).const_mul _
  have i3 : Integrable (fun ζ : Bt × EuclideanSpace ℝ J => 16 * b ^ 2 * (hi * Fintype.card J) * ‖γ ζ.1 0‖ ^ 2 + 8 * ‖R‖ ^ 2 * ‖ζ.2‖ ^ 2) (ν.prod N) :=
    i1.add i2
  have i4 : Integrable (fun ζ : Bt × EuclideanSpace ℝ J => 64 * b ^ 2 * (hi * Fintype.card J) * (Λ ^ 2 * hi) * ‖y‖ ^ 2
      + (16 * b ^ 2 * (hi * Fintype.card J) * ‖γ ζ.1 0‖ ^ 2 + 8 * ‖R‖ ^ 2 * ‖ζ.2‖ ^ 2)) (ν.prod N) := (integrable_const _).add i3
  have hm1 : Measurable fun ζ => stepP m hm γ b W R y ζ := hmeas.comp (measurable_const.prodMk measurable_id)
  have hc : Continuous fun v : F => ‖v - W.keep y‖ ^ 2 := (continuous_id.sub continuous_const).norm.pow 2
  have hi0 : Integrable (fun ζ => ‖stepP m hm γ b W R y ζ - W.keep y‖ ^ 2) (ν.prod N) :=
    i4.mono' (hc.measurable.comp hm1).aestronglyMeasurable (.of_forall fun ζ => by
      rw [norm_pow, norm_norm]
      exact hpt ζ)
  refine ⟨hi0, (integral_mono hi0 i4 hpt).trans (le_of_eq ?_)⟩
  have e1 : ∫ ζ : Bt × EuclideanSpace ℝ J, ‖γ ζ.1 0‖ ^ 2 ∂(ν.prod N) = ∫ β, ‖γ β 0‖ ^ 2 ∂ν := by
    rw [integral_fun_fst (fun β => ‖γ β 0‖ ^ 2)]
    simp
  have e2 : ∫ ζ : Bt × EuclideanSpace ℝ J, ‖ζ.2‖ ^ 2 ∂(ν.prod N) = ∫ z, ‖z‖ ^ 2 ∂N := by
    rw [integral_fun_snd (fun z : EuclideanSpace ℝ J => ‖z‖ ^ 2)]
    simp
  rw [integral_add (integrable_const _) i3, integral_add i1 i2, integral_const, integral_const_mul, integral_const_mul, e1, e2, probReal_univ, one_smul]
  ring

/-- Steps that contract are walks. -/
theorem walk (h : ConvexBatches ν U γ μ L L₂ Λ) (hN : Noise N) (hhi : 0 ≤ hi) (hh : ∀ j, m j ≤ hi) (hk : ‖W.kick‖ ≤ 2) (hp : ‖W.pos‖ ≤ 2)
    (hmeas : Measurable fun q : F × (Bt × EuclideanSpace ℝ J) => stepP m hm γ b W R q.1 q.2) {ρ : ℝ} (h0 : 0 ≤ ρ) (h1 : ρ < 1)
    (hnear : ∀ x y ζ, ‖stepP m hm γ b W R x ζ - stepP m hm γ b W R y ζ‖ ≤ ρ * ‖x - y‖) : Walk (ν.prod N) (stepP m hm γ b W R) ρ where
  nonneg := h0
  lt := h1
  near := hnear
  meas := hmeas
  sq := by simpa using (h.jitter (hm := hm) hN hhi hh hk hp hmeas 0).1

/-- Averages along a run of steps that contract. -/
theorem average_steps (h : ConvexBatches ν U γ μ L L₂ Λ) (hN : Noise N) (hhi : 0 ≤ hi) (hh : ∀ j, m j ≤ hi) (hk : ‖W.kick‖ ≤ 2) (hp : ‖W.pos‖ ≤ 2)
    (hmeas : Measurable fun q : F × (Bt × EuclideanSpace ℝ J) => stepP m hm γ b W R q.1 q.2) {ρ : ℝ} (h0 : 0 ≤ ρ)
    (hnear : ∀ x y ζ, ‖stepP m hm γ b W R x ζ - stepP m hm γ b W R y ζ‖ ≤ ρ * ‖x - y‖) {a0 b0 g t : ℝ} (ht : 0 < t) (hg : 0 < g) (hgt : g * t ≤ 1 - ρ)
    (ha : 16 * b ^ 2 * (hi * Fintype.card J) * (∫ β, ‖γ β 0‖ ^ 2 ∂ν) + 8 * ‖R‖ ^ 2 * (∫ z, ‖z‖ ^ 2 ∂N) ≤ t * a0)
    (hb : 64 * b ^ 2 * (hi * Fintype.card J) * (Λ ^ 2 * hi) ≤ t ^ 2 * b0) (hb0 : 0 ≤ b0)
    {Ω : Type*} [MeasurableSpace Ω] {P : Measure Ω} [IsProbabilityMeasure P] {ζ : Nat → Ω → Bt × EuclideanSpace ℝ J} (hζ : ∀ k, Measurable (ζ k))
    (hi' : iIndepFun ζ P) (hlaw : ∀ k, P.map (ζ k) = ν.prod N) {Y : Nat → Ω → F} {y₀ : F} (hY0 : ∀ ω, Y 0 ω = y₀)
    (hY : ∀ k ω, Y (k + 1) ω = stepP m hm γ b W R (Y k ω) (ζ k ω)) {A : ℝ} {f : F → ℝ} (hf : Lip A f) (hA : 0 ≤ A)
    {I : Finset Nat} (hI : I.Nonempty) {n : Nat} (hn : ∀ k ∈ I, k < n) (c : ℝ) :
    Integrable (fun ω => ((∑ k ∈ I, f (Y k ω)) / I.card - c) ^ 2) P
      ∧ ∫ ω, ((∑ k ∈ I, f (Y k ω)) / I.card - c) ^ 2 ∂P
        ≤ n / (I.card : ℝ) ^ 2 * (A ^ 2 / (g ^ 2 * t) * (a0 * (1 + b0 / g ^ 2) + t * b0 * ‖y₀‖ ^ 2))
          + ((∑ k ∈ I, |∫ ω, f (Y k ω) ∂P - c|) / I.card) ^ 2 := by
  have := hN.prob
  have hgt0 : 0 < g * t := by positivity
  have hg0 : 0 ≤ ∫ β, ‖γ β 0‖ ^ 2 ∂ν := integral_nonneg fun _ => by positivity
  have hz0 : 0 ≤ ∫ z, ‖z‖ ^ 2 ∂N := integral_nonneg fun _ => by positivity
  exact (h.walk (hm := hm) hN hhi hh hk hp hmeas h0 (by linarith) hnear).average_rate hζ hi' hlaw hY0 hY hf hA W.keep (map_zero _)
    (fun y => (h.jitter (hm := hm) hN hhi hh hk hp hmeas y).2) (by positivity) ht hg hgt ha (by positivity) hb hb0 hI hn c

/-- SGLD has no momentum. -/
noncomputable def still : Moves J (EuclideanSpace ℝ J) := ⟨.id ℝ _, .id ℝ _, .id ℝ _⟩

theorem stepE_still {t r : ℝ} : stepE m hm γ t r = stepP m hm γ t still (r • .id ℝ _) := by
  funext y ζ
  rfl

/-- The law of the draws in the new coordinates. -/
theorem toLp_law {Ω : Type} [MeasurableSpace Ω] {P : Measure Ω} {N : Measure (J → ℝ)} [IsProbabilityMeasure N] {β : Nat → Ω → Bt} {z : Nat → Ω → J → ℝ}
    (hβ : ∀ k, Measurable (β k)) (hz : ∀ k, Measurable (z k)) (hind : iIndepFun (fun k ω => (β k ω, z k ω)) P)
    (hlaw : ∀ k, P.map (fun ω => (β k ω, z k ω)) = ν.prod N) :
    (∀ k, Measurable fun ω => (β k ω, (WithLp.toLp 2 (z k ω) : EuclideanSpace ℝ J)))
      ∧ iIndepFun (fun k ω => (β k ω, (WithLp.toLp 2 (z k ω) : EuclideanSpace ℝ J))) P
      ∧ ∀ k, P.map (fun ω => (β k ω, (WithLp.toLp 2 (z k ω) : EuclideanSpace ℝ J)))
        = ν.prod (N.map (WithLp.toLp 2 : (J → ℝ) → EuclideanSpace ℝ J)) := by
  have hmtoLp : Measurable (WithLp.toLp 2 : (J → ℝ) → EuclideanSpace ℝ J) := ((EuclideanSpace.equiv J ℝ).symm.continuous).measurable
  refine ⟨fun k => (hβ k).prodMk (hmtoLp.comp (hz k)),
    hind.comp (fun _ q => (q.1, (WithLp.toLp 2 q.2 : EuclideanSpace ℝ J))) fun _ => measurable_fst.prodMk (hmtoLp.comp measurable_snd), fun k => ?_⟩
  have e : (fun ω => (β k ω, (WithLp.toLp 2 (z k ω) : EuclideanSpace ℝ J)))
      = Prod.map id (WithLp.toLp 2 : (J → ℝ) → EuclideanSpace ℝ J) ∘ fun ω => (β k ω, z k ω) := rfl
  rw [e, ← Measure.map_map (measurable_id.prodMap hmtoLp) ((hβ k).prodMk (hz k)), hlaw k, ← Measure.map_prod_map _ _ measurable_id hmtoLp,
    Measure.map_id]

theorem average_arith {A hi g t p q Y : ℝ} (hhi : 0 ≤ hi) (ht : 0 < t) (hp : 0 ≤ p) (hq : 0 ≤ q) (hY : 0 ≤ Y) :
    (√hi * A) ^ 2 / (g ^ 2 * t) * (p + t * q * Y) ≤ hi / g ^ 2 * (p + q) * A ^ 2 * (1 + t * Y) / t := by
  rw [mul_pow, Real.sq_sqrt hhi]
  have h1 : p + t * q * Y ≤ (p + q) * (1 + t * Y) := by
    have : 0 ≤ p * (t * Y) + q := by positivity
    linarith
  calc hi * A ^ 2 / (g ^ 2 * t) * (p + t * q * Y) ≤ hi * A ^ 2 / (g ^ 2 * t) * ((p + q) * (1 + t * Y)) := by gcongr
    _ = _ := by ring

theorem still_step {t : ℝ} (x x' z : J → ℝ) (β : Bt) {s : ℝ} (hs : 0 < s) (ht : 0 < t)
    (hx : ∀ j, x' j = x j - t * m j * γ β x j + √(2 * t * m j / s) * z j) :
    scaled m hm x' = stepP m hm γ t still (√(2 * t / s) • .id ℝ _) (scaled m hm x) (β, WithLp.toLp 2 z) := by
  rw [← stepE_still]
  unfold stepE driftE
  rw [massL_apply, ContinuousLinearEquiv.symm_apply_apply]
  ext j
  have hsq := (Real.sqrt_pos.2 (hm j)).ne'
  simp only [PiLp.add_apply, PiLp.sub_apply, PiLp.smul_apply, smul_eq_mul, scaled_apply, Pi.mul_apply]
  rw [hx, show 2 * t * m j / s = 2 * t / s * m j by ring, Real.sqrt_mul (by positivity)]
  field_simp

/-- Averages of Lipschitz functions along a run without momentum. -/
theorem averages (h : ConvexBatches ν U γ μ L L₂ Λ) {N : Measure (J → ℝ)} (hN : UnitNoise N) {s : ℝ} (hs : 0 < s) (hlo : 0 < lo) (hlohi : lo ≤ hi) :
    ∃ K, 0 ≤ K ∧ ∀ {Ω : Type} [MeasurableSpace Ω] (P : Measure Ω) [IsProbabilityMeasure P] (m : J → ℝ) (t : ℝ) (β : Nat → Ω → Bt)
      (z : Nat → Ω → J → ℝ) (X : Nat → Ω → J → ℝ) (x₀ : J → ℝ), (∀ j, lo ≤ m j ∧ m j ≤ hi) → 0 < t → t * hi * L ≤ 1 →
      (∀ k, Measurable (β k)) → (∀ k, Measurable (z k)) →
      iIndepFun (fun k ω => (β k ω, z k ω)) P → (∀ k, P.map (fun ω => (β k ω, z k ω)) = ν.prod N) → (∀ ω, X 0 ω = x₀) →
      (∀ k ω j, X (k + 1) ω j = X k ω j - t * m j * γ (β k ω) (X k ω) j + √(2 * t * m j / s) * z k ω j) →
      ∀ {A : ℝ} {f : (J → ℝ) → ℝ}, Lip A f → 0 ≤ A → ∀ {I : Finset Nat}, I.Nonempty → ∀ {n : Nat}, (∀ k ∈ I, k < n) → ∀ c,
        Integrable (fun ω => ((∑ k ∈ I, f (X k ω)) / I.card - c) ^ 2) P
        ∧ ∫ ω, ((∑ k ∈ I, f (X k ω)) / I.card - c) ^ 2 ∂P
          ≤ n / (I.card : ℝ) ^ 2 * (K * A ^ 2 * (1 + t * ‖x₀‖ ^ 2) / t) + ((∑ k ∈ I, |∫ ω, f (X k ω) ∂P - c|) / I.card) ^ 2 := by
  have hhi : 0 < hi := hlo.trans_le hlohi
  have hμ := h.pos
  have hLp : 0 < L := hμ.trans_le h.le
  have := hN.prob
  set N' := N.map (WithLp.toLp 2 : (J → ℝ) → EuclideanSpace ℝ J) with hN'
  have hNE : Noise N' := noise_scaled hN
  have hpr := hNE.prob
  set d : ℝ := hi * Fintype.card J with hd
  have hd0 : 0 ≤ d := by positivity
  set g0 := ∫ β, ‖γ β 0‖ ^ 2 ∂ν with hg0
  have hg00 : 0 ≤ g0 := integral_nonneg fun _ => by positivity
  set z2 := ∫ z, ‖z‖ ^ 2 ∂N' with hz2
  have hz20 : 0 ≤ z2 := integral_nonneg fun _ => by positivity
  set g := μ * lo / 2 with hg
  have hgp : 0 < g := by positivity
  set a0 := 16 * (1 / (hi * L)) * d * g0 + 8 * (2 / s) * z2 with ha0
  have ha00 : 0 ≤ a0 := by positivity
  set b0 := 64 * d * (Λ ^ 2 * hi) with hb0
  have hb00 : 0 ≤ b0 := by positivity
  refine ⟨hi / g ^ 2 * (a0 * (1 + b0 / g ^ 2) + b0 * (Fintype.card J / lo)), by positivity, ?_⟩
  intro Ω _ P _ m t β z X x₀ hlh ht hL hβ hz hind hlaw hX0 hX A f hf hA I hI n hn c
  have hm : ∀ j, 0 < m j := fun j => hlo.trans_le (hlh j).1
  obtain ⟨l1, l2, l3⟩ := toLp_law hβ hz hind hlaw
  set T := scaled m hm with hT
  set r := √(2 * t / s) with hr
  have hr2 : r ^ 2 = 2 * t / s := Real.sq_sqrt (by positivity)
  have ha1 : t * μ * lo ≤ 1 := by
    refine le_trans ?_ hL
    calc t * μ * lo = t * (lo * μ) := by ring
      _ ≤ t * (hi * L) := mul_le_mul_of_nonneg_left (mul_le_mul hlohi h.le hμ.le hhi.le) ht.le
      _ = t * hi * L := by ring
  have hapos : 0 < t * μ * lo := by positivity
  have hρ1 : g * t ≤ 1 - √(1 - t * μ * lo) := by
    have : √(1 - t * μ * lo) ≤ 1 - t * μ * lo / 2 := Real.sqrt_le_iff.2 ⟨by linarith, by nlinarith [sq_nonneg (t * μ * lo)]⟩
    rw [hg]
    linarith
  have htm : t ≤ 1 / (hi * L) := by rw [le_div_iff₀ (by positivity)]; linarith
  have hid : ‖ContinuousLinearMap.id ℝ (EuclideanSpace ℝ J)‖ ≤ 1 := ContinuousLinearMap.norm_id_le
  have hRn : ‖r • ContinuousLinearMap.id ℝ (EuclideanSpace ℝ J)‖ ^ 2 ≤ r ^ 2 := by
    rw [norm_smul, mul_pow, Real.norm_eq_abs, sq_abs]
    refine mul_le_of_le_one_right (sq_nonneg _) (pow_le_one₀ (norm_nonneg _) hid)
  have hmeas : Measurable fun q : EuclideanSpace ℝ J × (Bt × EuclideanSpace ℝ J) => stepP m hm γ t still (r • .id ℝ _) q.1 q.2 := by
    rw [← stepE_still]; exact stepE_measurable h
  have hk : ‖(still (J := J)).kick‖ ≤ 2 := hid.trans (by norm_num)
  have hp : ‖(still (J := J)).pos‖ ≤ 2 := hid.trans (by norm_num)
  have hlip : Lip (√hi * A) fun y => f (T.symm y) := fun x y => by
    refine (hf _ _).trans ?_
    rw [← map_sub, mul_comm √hi, mul_assoc]
    exact mul_le_mul_of_nonneg_left (scaled_symm_le (hm := hm) (fun j => (hlh j).2) _) hA
  have hz3 : 16 * t ^ 2 * (hi * Fintype.card J) * (∫ β, ‖γ β 0‖ ^ 2 ∂ν) + 8 * ‖r • ContinuousLinearMap.id ℝ (EuclideanSpace ℝ J)‖ ^ 2 * (∫ z, ‖z‖ ^ 2 ∂N')
      ≤ t * a0 := by
    rw [← hd, ← hg0, ← hz2]
    have h1 : t ^ 2 ≤ t * (1 / (hi * L)) := by rw [pow_two]; exact mul_le_mul_of_nonneg_left htm ht.le
    have h2 := mul_le_mul_of_nonneg_right h1 (by positivity : 0 ≤ 16 * d * g0)
    have h3 := mul_le_mul_of_nonneg_right (hRn.trans_eq hr2) (by positivity : 0 ≤ 8 * z2)
    have e : t * a0 = t * (1 / (hi * L)) * (16 * d * g0) + 2 * t / s * (8 * z2) := by rw [ha0]; ring
    rw [e]
    linarith
  have hav := h.average_steps (hm := hm) (W := still) hNE hhi.le (fun j => (hlh j).2) hk hp hmeas (Real.sqrt_nonneg (1 - t * μ * lo))
    (fun x y ζ => by rw [← stepE_still]; exact stepE_near h hlo hlh ht.le hL x y ζ) ht hgp hρ1 hz3 (b0 := b0) (le_of_eq (by rw [hb0]; ring)) hb00
    l1 l2 l3 (Y := fun k ω => T (X k ω)) (y₀ := T x₀) (fun ω => by rw [hX0]) (fun k ω => still_step _ _ _ _ hs ht (hX k ω)) hlip (by positivity) hI hn c
  simp only [T.symm_apply_apply] at hav
  refine ⟨hav.1, hav.2.trans (add_le_add (mul_le_mul_of_nonneg_left ?_ (by positivity)) le_rfl)⟩
  have hx := pow_le_pow_left₀ (norm_nonneg _) (scaled_le (hm := hm) hlo (fun j => (hlh j).1) x₀) 2
  rw [mul_pow, Real.sq_sqrt (by positivity)] at hx
  have h4 : t * b0 * ‖T x₀‖ ^ 2 ≤ t * (b0 * (Fintype.card J / lo)) * ‖x₀‖ ^ 2 := by
    have := mul_le_mul_of_nonneg_left hx (by positivity : 0 ≤ t * b0)
    linarith
  refine le_trans ?_ (average_arith (A := A) (g := g) hhi.le ht (by positivity) (by positivity) (sq_nonneg ‖x₀‖))
  gcongr

/-! ## With momentum -/

theorem momentum_arith {A hi g t p0 p1 κ e q Y : ℝ} (hhi : 0 ≤ hi) (ht : 0 < t) (h0 : 0 ≤ p0) (h1 : 0 ≤ p1) (he : 0 ≤ e) (hκ : 0 ≤ κ) (hq : 0 ≤ q) (hY : 0 ≤ Y) :
    (2 * (√hi * A)) ^ 2 / (g ^ 2 * t) * ((p0 + p1 * κ) * e + t * q * Y) ≤ 4 * hi / g ^ 2 * (p0 * e + p1 * e + q) * A ^ 2 * (1 + κ + t * Y) / t := by
  rw [mul_pow, mul_pow, Real.sq_sqrt hhi]
  have h1 : (p0 + p1 * κ) * e + t * q * Y ≤ (p0 * e + p1 * e + q) * (1 + κ + t * Y) := by
    have : 0 ≤ p0 * e * (κ + t * Y) + p1 * e * (1 + t * Y) + q * (1 + κ) := by positivity
    linarith
  calc 2 ^ 2 * (hi * A ^ 2) / (g ^ 2 * t) * ((p0 + p1 * κ) * e + t * q * Y)
      ≤ 2 ^ 2 * (hi * A ^ 2) / (g ^ 2 * t) * ((p0 * e + p1 * e + q) * (1 + κ + t * Y)) := by gcongr
    _ = _ := by ring

theorem state_norm (hlo : 0 < lo) (hl : ∀ j, lo ≤ m j) {α : ℝ} (hα0 : 0 < α) (hα1 : α ≤ 1) (x v : J → ℝ) :
    ‖state m hm α x v‖ ^ 2 ≤ Fintype.card J / lo * (‖x‖ + 2 * ((1 - α) / α) * ‖v‖) ^ 2 := by
  have hw : 0 ≤ (1 - α) / α := div_nonneg (by linarith) hα0.le
  have h1 : ‖state m hm α x v‖ ≤ √(Fintype.card J / lo) * (‖x‖ + 2 * ((1 - α) / α) * ‖v‖) := by
    refine (phase_le _).trans ?_
    unfold state
    rw [fst_symm, snd_symm]
    simp only
    set w := (1 - α) / α
    have k1 := norm_add_le (scaled m hm x) (w • scaled m hm v)
    rw [norm_smul, Real.norm_eq_abs, abs_of_nonneg hw] at k1 ⊢
    have k2 := scaled_le (hm := hm) hlo hl x
    have k3 := mul_le_mul_of_nonneg_left (scaled_le (hm := hm) hlo hl v) hw
    linarith
  have h2 := pow_le_pow_left₀ (norm_nonneg _) h1 2
  rwa [mul_pow, Real.sq_sqrt (by positivity)] at h2

theorem noise_norm {α t s κ : ℝ} {q : J → ℝ} (hα : 0 < α) (ht : 0 < t) (hs : 0 < s) (hκ : 0 ≤ κ) (hlo : 0 < lo) (hl : ∀ j, lo ≤ m j)
    (hq : ∀ j, |q j - 2 * t * α * m j / s| ≤ κ) :
    ‖diagL (fun j => √(q j) / (α * √(m j)))‖ ^ 2 ≤ t * (2 / (α * s) + 1 / (α ^ 2 * lo) * (κ / t)) := by
  have h1 : ‖diagL (fun j => √(q j) / (α * √(m j)))‖ ≤ √(t * (2 / (α * s) + 1 / (α ^ 2 * lo) * (κ / t))) := by
    refine diagL_norm (Real.sqrt_nonneg _) fun j => ?_
    have hmj : 0 < m j := hlo.trans_le (hl j)
    have e : √(q j) / (α * √(m j)) = √(q j / (α ^ 2 * m j)) := by
      rw [Real.sqrt_div' _ (by positivity), Real.sqrt_mul (by positivity), Real.sqrt_sq hα.le]
    rw [e, abs_of_nonneg (Real.sqrt_nonneg _)]
    refine Real.sqrt_le_sqrt ?_
    have h2 := (abs_le.1 (hq j)).2
    calc q j / (α ^ 2 * m j) ≤ (2 * t * α * m j / s + κ) / (α ^ 2 * m j) := by gcongr; linarith
      _ = 2 * t / (α * s) + κ / (α ^ 2 * m j) := by field_simp
      _ ≤ 2 * t / (α * s) + κ / (α ^ 2 * lo) := by have := hl j; gcongr
      _ = _ := by field_simp
  have h2 := pow_le_pow_left₀ (norm_nonneg _) h1 2
  rwa [Real.sq_sqrt (by positivity)] at h2

/-- Averages of Lipschitz functions along a run with momentum. -/
theorem averages_momentum (h : ConvexBatches ν U γ μ L L₂ Λ) {s α : ℝ} (hs : 0 < s) (hlo : 0 < lo) (hlohi : lo ≤ hi) (hα0 : 0 < α) (hα1 : α ≤ 1) :
    ∃ K, 0 ≤ K ∧ ∀ {Ω : Type} [MeasurableSpace Ω] (P : Measure Ω) [IsProbabilityMeasure P] (m q : J → ℝ) (t κ : ℝ) (β : Nat → Ω → Bt)
      (z : Nat → Ω → J → ℝ) (X V : Nat → Ω → J → ℝ) (x₀ v₀ : J → ℝ), (∀ j, lo ≤ m j ∧ m j ≤ hi) → 0 < t →
      t / α * hi * L * (2 + 8 / (1 - (1 - α) ^ 2)) ≤ 1 → 0 ≤ κ → (∀ j, |q j - 2 * t * α * m j / s| ≤ κ) →
      (∀ k, Measurable (β k)) → (∀ k, Measurable (z k)) → iIndepFun (fun k ω => (β k ω, z k ω)) P →
      (∀ k, P.map (fun ω => (β k ω, z k ω)) = ν.prod (Measure.pi fun _ => gaussianReal 0 1)) → (∀ ω, X 0 ω = x₀) → (∀ ω, V 0 ω = v₀) →
      (∀ k ω j, V (k + 1) ω j = (1 - α) * V k ω j - t * m j * γ (β k ω) (X k ω) j + √(q j) * z k ω j) →
      (∀ k ω j, X (k + 1) ω j = X k ω j + V (k + 1) ω j) →
      ∀ {A : ℝ} {f : (J → ℝ) → ℝ}, Lip A f → 0 ≤ A → ∀ {I : Finset Nat}, I.Nonempty → ∀ {n : Nat}, (∀ k ∈ I, k < n) → ∀ c,
        Integrable (fun ω => ((∑ k ∈ I, f (X k ω)) / I.card - c) ^ 2) P
        ∧ ∫ ω, ((∑ k ∈ I, f (X k ω)) / I.card - c) ^ 2 ∂P
          ≤ n / (I.card : ℝ) ^ 2 * (K * A ^ 2 * (1 + κ / t + t * (‖x₀‖ + 2 * ((1 - α) / α) * ‖v₀‖) ^ 2) / t)
            + ((∑ k ∈ I, |∫ ω, f (X k ω) ∂P - c|) / I.card) ^ 2 := by
  have hhi : 0 < hi := hlo.trans_le hlohi
  have hμ := h.pos
  have hLp : 0 < L := hμ.trans_le h.le
  have hN : Noise (stdNormal J) := noise_scaled unitNoise_gauss
  have hpr := hN.prob
  set d : ℝ := hi * Fintype.card J with hd
  have hd0 : 0 ≤ d := by positivity
  set g0 := ∫ β, ‖γ β 0‖ ^ 2 ∂ν with hg0
  have hg00 : 0 ≤ g0 := integral_nonneg fun _ => by positivity
  set z2 := ∫ z, ‖z‖ ^ 2 ∂stdNormal J with hz2
  have hz20 : 0 ≤ z2 := integral_nonneg fun _ => by positivity
  set g := μ * lo / (4 * α) with hg
  have hgp : 0 < g := by positivity
  set p0 := 16 * (1 / (α * (hi * L))) * d * g0 + 8 * (2 / (α * s)) * z2 with hp0
  have hp00 : 0 ≤ p0 := by positivity
  set p1 := 8 * (1 / (α ^ 2 * lo)) * z2 with hp1
  have hp10 : 0 ≤ p1 := by positivity
  set b0 := 64 * d * (Λ ^ 2 * hi) / α ^ 2 with hb0
  have hb00 : 0 ≤ b0 := by positivity
  refine ⟨4 * hi / g ^ 2 * (p0 * (1 + b0 / g ^ 2) + p1 * (1 + b0 / g ^ 2) + b0 * (Fintype.card J / lo)), by positivity, ?_⟩
  intro Ω _ P _ m q t κ β z X V x₀ v₀ hlh ht hL hκ hq hβ hz hind hlaw hX0 hV0 hV hX A f hf hA I hI n hn c
  have hm : ∀ j, 0 < m j := fun j => hlo.trans_le (hlh j).1
  obtain ⟨l1, l2, l3⟩ := toLp_law hβ hz hind hlaw
  set T := scaled m hm with hT
  have hβ0 : 0 ≤ 1 - α := by linarith
  have hβ1 : 1 - α < 1 := by linarith
  obtain ⟨hS, hρ0, hρ1⟩ := small_step hα0 hα1 ht hlo hlohi hμ h.le hL
  have htm : t ≤ α / (hi * L) := (Real.sqrt_le_sqrt_iff (by positivity)).1 hS
  have hRn := noise_norm (lo := lo) hα0 ht hs hκ hlo (fun j => (hlh j).1) hq
  have hlip : Lip (2 * (√hi * A)) fun y : Phase J => f (T.symm (posL y)) := fun x y => by
    refine (hf _ _).trans ?_
    rw [← map_sub, ← map_sub]
    have h1 := scaled_symm_le (hm := hm) (fun j => (hlh j).2) (posL (x - y))
    have h2 := mul_le_mul_of_nonneg_left (posL_le (x - y)) (Real.sqrt_nonneg hi)
    have h3 := mul_le_mul_of_nonneg_left (h1.trans h2) hA
    linarith
  have hz3 : 16 * (t / α) ^ 2 * (hi * Fintype.card J) * (∫ β, ‖γ β 0‖ ^ 2 ∂ν)
      + 8 * ‖diagL (fun j => √(q j) / (α * √(m j)))‖ ^ 2 * (∫ z, ‖z‖ ^ 2 ∂stdNormal J) ≤ t * (p0 + p1 * (κ / t)) := by
    rw [← hd, ← hg0, ← hz2]
    have h1 : (t / α) ^ 2 ≤ t * (1 / (α * (hi * L))) := by
      calc (t / α) ^ 2 = t * (t / α ^ 2) := by ring
        _ ≤ t * (α / (hi * L) / α ^ 2) := by gcongr
        _ = _ := by field_simp
    have h2 := mul_le_mul_of_nonneg_right h1 (by positivity : 0 ≤ 16 * d * g0)
    have h3 := mul_le_mul_of_nonneg_right hRn (by positivity : 0 ≤ 8 * z2)
    have e : t * (p0 + p1 * (κ / t)) = t * (1 / (α * (hi * L))) * (16 * d * g0) + t * (2 / (α * s) + 1 / (α ^ 2 * lo) * (κ / t)) * (8 * z2) := by
      rw [hp0, hp1]; ring
    rw [e]
    linarith
  have hav := h.average_steps (hm := hm) (W := moves (1 - α)) hN hhi.le (fun j => (hlh j).2) (kickL_norm hβ0 hβ1.le) posL_norm (stepP_measurable h) hρ0
    (h.stepP_near hlo hlh (by positivity) hβ0 hβ1 hL) ht hgp hρ1 hz3 (b0 := b0) (le_of_eq (by rw [hb0, hd]; field_simp)) hb00
    l1 l2 l3 (Y := fun k ω => state m hm α (X k ω) (V k ω)) (y₀ := state m hm α x₀ v₀) (fun ω => by rw [hX0, hV0])
    (fun k ω => state_step hα0.ne' (hV k ω) (hX k ω)) hlip (by positivity) hI hn c
  simp only [state_pos, ← hT, T.symm_apply_apply] at hav
  refine ⟨hav.1, hav.2.trans (add_le_add (mul_le_mul_of_nonneg_left ?_ (by positivity)) le_rfl)⟩
  have hx := state_norm (hm := hm) hlo (fun j => (hlh j).1) hα0 hα1 x₀ v₀
  have h4 : t * b0 * ‖state m hm α x₀ v₀‖ ^ 2 ≤ t * (b0 * (Fintype.card J / lo)) * (‖x₀‖ + 2 * ((1 - α) / α) * ‖v₀‖) ^ 2 := by
    have := mul_le_mul_of_nonneg_left hx (by positivity : 0 ≤ t * b0)
    linarith
  refine le_trans ?_ (momentum_arith (A := A) (g := g) hhi.le ht hp00 hp10 (by positivity) (by positivity) (by positivity)
    (sq_nonneg (‖x₀‖ + 2 * ((1 - α) / α) * ‖v₀‖)))
  gcongr

/-! ## Both errors together -/

theorem bias_mean {e : Nat → ℝ} {p q ρ r : ℝ} (hp : 0 ≤ p) (hρ : 0 ≤ ρ) (hr : 0 < r) (hr1 : r ≤ 1 - ρ) (he : ∀ k, e k ≤ p * ρ ^ k + q)
    {I : Finset Nat} (hI : I.Nonempty) : (∑ k ∈ I, e k) / I.card ≤ p / (I.card * r) + q := by
  have hc : (0 : ℝ) < I.card := by exact_mod_cast hI.card_pos
  have h1 : ∑ k ∈ I, ρ ^ k ≤ 1 / r := by
    have hs : Summable fun k : Nat => ρ ^ k := summable_geometric_of_lt_one hρ (by linarith)
    refine (hs.sum_le_tsum I fun k _ => by positivity).trans ?_
    rw [tsum_geometric_of_lt_one hρ (by linarith), ← one_div]
    exact one_div_le_one_div_of_le hr hr1
  rw [div_le_iff₀ hc]
  calc ∑ k ∈ I, e k ≤ ∑ k ∈ I, (p * ρ ^ k + q) := Finset.sum_le_sum fun k _ => he k
    _ = p * ∑ k ∈ I, ρ ^ k + I.card * q := by rw [Finset.sum_add_distrib, ← Finset.mul_sum, Finset.sum_const, nsmul_eq_mul]
    _ ≤ p * (1 / r) + I.card * q := by gcongr
    _ = _ := by field_simp

theorem combine_arith {M v n I K K1 K2 K3 A w bias E D t g B : ℝ} (hv : v = K1 * A ^ 2 * w / t) (hM : M ≤ n / I ^ 2 * v + bias ^ 2) (hb0 : 0 ≤ bias)
    (hb : bias ≤ K3 * A * D / (I * (g * t)) + K2 * E * B) (hn : 0 ≤ n) (hI : 0 < I) (hg : 0 < g) (ht : 0 < t) (hw : 0 ≤ w) (hA : 0 ≤ A) (hD : 0 ≤ D)
    (hE : 0 ≤ E) (hB : 0 ≤ B) (hK : K = K1 + K2 + K3 / g) (h1 : 0 ≤ K1) (h2 : 0 ≤ K2) (h3 : 0 ≤ K3) :
    M ≤ n / I ^ 2 * (K * A ^ 2 * w / t) + (K * A * D / (I * t) + K * E * B) ^ 2 := by
  have h3g : 0 ≤ K3 / g := by positivity
  have k1 : K1 ≤ K := by linarith
  have k2 : K2 ≤ K := by linarith
  have k3 : K3 / g ≤ K := by linarith
  refine hM.trans (add_le_add ?_ (pow_le_pow_left₀ hb0 (hb.trans (add_le_add ?_ ?_)) 2))
  · rw [hv]
    gcongr
  · calc K3 * A * D / (I * (g * t)) = K3 / g * A * D / (I * t) := by field_simp
      _ ≤ _ := by gcongr
  · gcongr

/-- **Averages along a run of SGLD.** -/
theorem mean_square (h : ConvexBatches ν U γ μ L L₂ Λ) {N : Measure (J → ℝ)} (hN : UnitNoise N) {s : ℝ} (hs : 0 < s) {c : ℝ}
    (hp : IsProbabilityMeasure (boltz fun x => s * U x + c)) (hlo : 0 < lo) (hlohi : lo ≤ hi) :
    ∃ K, 0 ≤ K ∧ ∀ {Ω : Type} [MeasurableSpace Ω] (P : Measure Ω) [IsProbabilityMeasure P] (m : J → ℝ) (t : ℝ) (β : Nat → Ω → Bt)
      (z : Nat → Ω → J → ℝ) (X : Nat → Ω → J → ℝ) (x₀ : J → ℝ), (∀ j, lo ≤ m j ∧ m j ≤ hi) → 0 < t → t * hi * L ≤ 1 →
      (∀ k, Measurable (β k)) → (∀ k, Measurable (z k)) →
      iIndepFun (fun k ω => (β k ω, z k ω)) P → (∀ k, P.map (fun ω => (β k ω, z k ω)) = ν.prod N) → (∀ ω, X 0 ω = x₀) →
      (∀ k ω j, X (k + 1) ω j = X k ω j - t * m j * γ (β k ω) (X k ω) j + √(2 * t * m j / s) * z k ω j) →
      ∀ {A₁ A₂ : ℝ} {f : (J → ℝ) → ℝ} {D : (J → ℝ) → (J → ℝ) →L[ℝ] ℝ}, Smooth A₁ A₂ f D → 0 ≤ A₂ →
      ∀ {I : Finset Nat}, I.Nonempty → ∀ {n : Nat}, (∀ k ∈ I, k < n) →
        Integrable (fun ω => ((∑ k ∈ I, f (X k ω)) / I.card - ∫ x, f x ∂boltz fun x => s * U x + c) ^ 2) P
        ∧ ∫ ω, ((∑ k ∈ I, f (X k ω)) / I.card - ∫ x, f x ∂boltz fun x => s * U x + c) ^ 2 ∂P
          ≤ n / (I.card : ℝ) ^ 2 * (K * A₁ ^ 2 * (1 + t * ‖x₀‖ ^ 2) / t)
            + (K * A₁ * (∫ y, ‖x₀ - y‖ ∂boltz fun x => s * U x + c) / (I.card * t) + K * √t * (A₁ + A₂)) ^ 2 := by
  obtain ⟨K1, hK1, h1⟩ := h.averages hN hs hlo hlohi
  obtain ⟨K2, hK2, h2⟩ := h.converges hN hs hp hlo hlohi
  have hμ := h.pos
  have hg : 0 < μ * lo / 2 := by positivity
  refine ⟨K1 + K2 + √(hi * Fintype.card J / lo) / (μ * lo / 2), by positivity, ?_⟩
  intro Ω _ P _ m t β z X x₀ hlh ht hL hβ hz hind hlaw hX0 hX A₁ A₂ f D hf hA I hI n hn
  have hA1 := hf.nonneg
  have hc : (0 : ℝ) < I.card := by exact_mod_cast hI.card_pos
  obtain ⟨i1, i2⟩ := h1 P m t β z X x₀ hlh ht hL hβ hz hind hlaw hX0 hX (fun x y => hf.lipschitz x y) hA1 hI hn (∫ x, f x ∂boltz fun x => s * U x + c)
  have hρ1 : μ * lo / 2 * t ≤ 1 - √(1 - t * μ * lo) := by
    have ha1 : t * μ * lo ≤ 1 := by
      refine le_trans ?_ hL
      calc t * μ * lo = t * (lo * μ) := by ring
        _ ≤ t * (hi * L) := mul_le_mul_of_nonneg_left (mul_le_mul hlohi h.le hμ.le (hlo.le.trans hlohi)) ht.le
        _ = t * hi * L := by ring
    have : √(1 - t * μ * lo) ≤ 1 - t * μ * lo / 2 := Real.sqrt_le_iff.2 ⟨by linarith, by nlinarith [sq_nonneg (t * μ * lo)]⟩
    linarith
  set dx := ∫ y, ‖x₀ - y‖ ∂boltz fun x => s * U x + c with hdx
  have hdx0 : 0 ≤ dx := integral_nonneg fun _ => norm_nonneg _
  have hb := bias_mean (e := fun k => |∫ ω, f (X k ω) ∂P - ∫ x, f x ∂boltz fun x => s * U x + c|)
    (p := √(hi * Fintype.card J / lo) * A₁ * dx) (q := K2 * √t * (A₁ + A₂)) (by positivity) (Real.sqrt_nonneg (1 - t * μ * lo))
    (by positivity : 0 < μ * lo / 2 * t) hρ1
    (fun k => ((h2 P m t β z X x₀ hlh ht hL hβ hz hind hlaw hX0 hX hf hA k).2.trans (le_of_eq (by ring)))) hI
  exact ⟨i1, combine_arith rfl i2 (div_nonneg (Finset.sum_nonneg fun k _ => abs_nonneg _) hc.le) hb (by positivity) hc hg ht (by positivity) hA1 hdx0
    (Real.sqrt_nonneg _) (by positivity) rfl hK1 hK2 (Real.sqrt_nonneg _)⟩

/-- **Averages along a run of SGHMC.** -/
theorem mean_square_momentum (h : ConvexBatches ν U γ μ L L₂ Λ) {s α : ℝ} (hs : 0 < s) {c : ℝ}
    (hp : IsProbabilityMeasure (boltz fun x => s * U x + c)) (hlo : 0 < lo) (hlohi : lo ≤ hi) (hα0 : 0 < α) (hα1 : α ≤ 1) :
    ∃ K, 0 ≤ K ∧ ∀ {Ω : Type} [MeasurableSpace Ω] (P : Measure Ω) [IsProbabilityMeasure P] (m q : J → ℝ) (t κ : ℝ) (β : Nat → Ω → Bt)
      (z : Nat → Ω → J → ℝ) (X V : Nat → Ω → J → ℝ) (x₀ v₀ : J → ℝ), (∀ j, lo ≤ m j ∧ m j ≤ hi) → 0 < t →
      t / α * hi * L * (2 + 8 / (1 - (1 - α) ^ 2)) ≤ 1 → 0 ≤ κ → (∀ j, |q j - 2 * t * α * m j / s| ≤ κ) →
      (∀ k, Measurable (β k)) → (∀ k, Measurable (z k)) → iIndepFun (fun k ω => (β k ω, z k ω)) P →
      (∀ k, P.map (fun ω => (β k ω, z k ω)) = ν.prod (Measure.pi fun _ => gaussianReal 0 1)) → (∀ ω, X 0 ω = x₀) → (∀ ω, V 0 ω = v₀) →
      (∀ k ω j, V (k + 1) ω j = (1 - α) * V k ω j - t * m j * γ (β k ω) (X k ω) j + √(q j) * z k ω j) →
      (∀ k ω j, X (k + 1) ω j = X k ω j + V (k + 1) ω j) →
      ∀ {A₁ A₂ : ℝ} {f : (J → ℝ) → ℝ} {D : (J → ℝ) → (J → ℝ) →L[ℝ] ℝ}, Smooth A₁ A₂ f D → 0 ≤ A₂ →
      ∀ {I : Finset Nat}, I.Nonempty → ∀ {n : Nat}, (∀ k ∈ I, k < n) →
        Integrable (fun ω => ((∑ k ∈ I, f (X k ω)) / I.card - ∫ x, f x ∂boltz fun x => s * U x + c) ^ 2) P
        ∧ ∫ ω, ((∑ k ∈ I, f (X k ω)) / I.card - ∫ x, f x ∂boltz fun x => s * U x + c) ^ 2 ∂P
          ≤ n / (I.card : ℝ) ^ 2 * (K * A₁ ^ 2 * (1 + κ / t + t * (‖x₀‖ + 2 * ((1 - α) / α) * ‖v₀‖) ^ 2) / t)
            + (K * A₁ * ((∫ y, ‖x₀ - y‖ ∂boltz fun x => s * U x + c) + 2 * ((1 - α) / α) * ‖v₀‖) / (I.card * t)
              + K * (√t + κ / t) * (A₁ + A₂)) ^ 2 := by
  obtain ⟨K1, hK1, h1⟩ := h.averages_momentum hs hlo hlohi hα0 hα1
  obtain ⟨K2, hK2, h2⟩ := h.converges_momentum hs hp hlo hlohi hα0 hα1
  have hμ := h.pos
  have hg : 0 < μ * lo / (4 * α) := by positivity
  refine ⟨K1 + K2 + 2 * √(hi * Fintype.card J / lo) / (μ * lo / (4 * α)), by positivity, ?_⟩
  intro Ω _ P _ m q t κ β z X V x₀ v₀ hlh ht hL hκ hq hβ hz hind hlaw hX0 hV0 hV hX A₁ A₂ f D hf hA I hI n hn
  have hA1 := hf.nonneg
  have hc : (0 : ℝ) < I.card := by exact_mod_cast hI.card_pos
  have hw : 0 ≤ (1 - α) / α := div_nonneg (by linarith) hα0.le
  obtain ⟨i1, i2⟩ := h1 P m q t κ β z X V x₀ v₀ hlh ht hL hκ hq hβ hz hind hlaw hX0 hV0 hV hX (fun x y => hf.lipschitz x y) hA1 hI hn
    (∫ x, f x ∂boltz fun x => s * U x + c)
  obtain ⟨-, hρ0, hρ1⟩ := small_step hα0 hα1 ht hlo hlohi hμ h.le hL
  set dx := (∫ y, ‖x₀ - y‖ ∂boltz fun x => s * U x + c) + 2 * ((1 - α) / α) * ‖v₀‖ with hdx
  have hdx0 : 0 ≤ dx := add_nonneg (integral_nonneg fun _ => norm_nonneg _) (by positivity)
  have hb := bias_mean (e := fun k => |∫ ω, f (X k ω) ∂P - ∫ x, f x ∂boltz fun x => s * U x + c|)
    (p := 2 * √(hi * Fintype.card J / lo) * A₁ * dx) (q := K2 * (√t + κ / t) * (A₁ + A₂)) (by positivity) hρ0
    (by positivity : 0 < μ * lo / (4 * α) * t) hρ1
    (fun k => ((h2 P m q t κ β z X V x₀ v₀ hlh ht hL hκ hq hβ hz hind hlaw hX0 hV0 hV hX hf hA k).2.trans (le_of_eq (by ring)))) hI
  exact ⟨i1, combine_arith rfl i2 (div_nonneg (Finset.sum_nonneg fun k _ => abs_nonneg _) hc.le) hb (by positivity) hc hg ht (by positivity) hA1 hdx0
    (by positivity) (by positivity) rfl hK1 hK2 (by positivity)⟩

end ConvexBatches
end PySGMCMC.Langevin
