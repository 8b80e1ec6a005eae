import Verif.Lemmas.HarrisAverage
import Mathlib.Analysis.SpecialFunctions.Pow.Real

/-!
# Conditions under which chains forget where they started

Steps from where `V` is small have a common part, or pairs of steps do.
-/

open MeasureTheory ProbabilityTheory Filter Topology
namespace PySGMCMC.Harris
set_option linter.unusedSectionVars false

variable {E : Type*} [MeasurableSpace E] {Z : Type*} [MeasurableSpace Z] {κ : Measure Z} [IsProbabilityMeasure κ] {Ψ : E → Z → E} {V : E → ℝ}
  {γ K w C ρ M : ℝ} {φ : E → ℝ}

/-- Steps from where `V` is small have a common part. -/
def Small (κ : Measure Z) (Ψ : E → Z → E) (V : E → ℝ) : Prop :=
  ∀ R, ∃ δ > 0, ∃ η : Measure E, IsProbabilityMeasure η ∧ ∀ x, V x ≤ R → ENNReal.ofReal δ • η ≤ κ.map (Ψ x)

/-- Two steps. -/
def twice (Ψ : E → Z → E) (x : E) (q : Z × Z) : E := Ψ (Ψ x q.1) q.2

theorem far_arith {γ K : ℝ} (hγ : γ < 1) : 2 * K < (1 - γ) * (2 * K / (1 - γ) + 1) := by
  have : 0 < 1 - γ := by linarith
  rw [mul_add, mul_div_cancel₀ _ this.ne']
  linarith

theorem sqrt_drift {γ K u : ℝ} (hγ : 0 ≤ γ) (hK : 0 ≤ K) (hu : 0 ≤ u) : √(γ * u + K) ≤ √γ * √u + √K := by
  rw [← Real.sqrt_mul hγ]
  have h1 : 0 ≤ γ * u := mul_nonneg hγ hu
  refine Real.sqrt_le_iff.2 ⟨by positivity, ?_⟩
  have h2 : 0 ≤ √(γ * u) * √K := by positivity
  rw [add_sq, Real.sq_sqrt h1, Real.sq_sqrt hK]
  linarith

theorem weigh {hi S V A : ℝ} (hA : 0 ≤ A) (hhi : 1 ≤ hi) (h : S ≤ hi * V) : A * (1 + S) ≤ A * hi * (1 + V) := by
  rw [mul_assoc]
  exact mul_le_mul_of_nonneg_left (by nlinarith) hA

theorem unweigh {lo S V C : ℝ} (hlo : 0 < lo) (hC : 0 ≤ C) (hS : 0 ≤ S) (h : lo * V ≤ S) : C * (1 + V) ≤ C * (1 + lo⁻¹) * (1 + S) := by
  have h1 : V ≤ lo⁻¹ * S := by
    rw [le_inv_mul_iff₀ hlo]
    exact h
  have h2 : 0 < lo⁻¹ := inv_pos.2 hlo
  rw [mul_assoc]
  exact mul_le_mul_of_nonneg_left (by nlinarith) hC

namespace Moves

theorem mixes (h : Moves κ Ψ V γ K) (hs : Small κ Ψ V) [Nonempty E] : ∃ w C ρ, Mixes κ Ψ V γ K w C ρ := by
  obtain ⟨δ, hδ, η, hη, hm⟩ := hs (2 * K / (1 - γ) + 1)
  exact ⟨_, _, _, (Drifts.mk h (far_arith h.lt_one) hη hδ hm).mixes⟩

theorem twice_eq (h : Moves κ Ψ V γ K) (hφ : Dom V φ) (x : E) :
    Integrable (fun q => φ (twice Ψ x q)) (κ.prod κ) ∧ push (κ.prod κ) (twice Ψ) φ x = push κ Ψ (push κ Ψ φ) x := by
  have hm : Measurable fun q : Z × Z => twice Ψ x q := h.meas.comp (((h.measΨ x).comp measurable_fst).prodMk measurable_snd)
  have hi : Integrable (fun q => φ (twice Ψ x q)) (κ.prod κ) := by
    obtain ⟨hφm, a, b, ha, hb⟩ := hφ
    refine (integrable_prod_iff (hφm.comp hm).aestronglyMeasurable).2 ⟨ae_of_all _ fun q => h.integrable hφm hb (Ψ x q), ?_⟩
    have hd : Dom V (Harris.push κ Ψ fun x => |φ x|) := Dom.push h ⟨hφm.norm, a, b, ha, fun x => by rw [abs_abs]; exact hb x⟩
    obtain ⟨hdm, a', b', _, hb'⟩ := hd
    exact h.integrable hdm hb' x
  refine ⟨hi, ?_⟩
  unfold push
  rw [integral_prod _ hi]
  rfl

theorem twice (h : Moves κ Ψ V γ K) : Moves (κ.prod κ) (twice Ψ) V (γ * γ) (γ * K + K) where
  meas := by
    have h1 : Measurable fun q : E × Z × Z => Ψ q.1 q.2.1 := h.meas.comp (measurable_fst.prodMk (measurable_fst.comp measurable_snd))
    exact h.meas.comp (h1.prodMk (measurable_snd.comp measurable_snd))
  measV := h.measV
  nonneg := h.nonneg
  int x := (h.twice_eq h.self_dom x).1
  drift x := by
    change push (κ.prod κ) (Harris.twice Ψ) V x ≤ _
    rw [(h.twice_eq h.self_dom x).2]
    obtain ⟨hdm, a, b, _, hb⟩ := h.self_dom.push h
    have h1 := integral_mono (h.integrable hdm hb x) (((h.int x).const_mul γ).add (integrable_const K)) fun ζ => h.drift (Ψ x ζ)
    simp only [Pi.add_apply] at h1
    rw [integral_add ((h.int x).const_mul γ) (integrable_const K), integral_const_mul] at h1
    simp only [integral_const, probReal_univ, one_smul] at h1
    have h2 := mul_le_mul_of_nonneg_left (h.drift x) h.gamma
    exact h1.trans (by linarith)
  gamma := mul_nonneg h.gamma h.gamma
  lt_one := mul_lt_one_of_nonneg_of_lt_one_left h.gamma h.lt_one h.lt_one.le
  pos := add_nonneg (mul_nonneg h.gamma h.pos) h.pos

theorem twice_iterate (h : Moves κ Ψ V γ K) (hφ : Dom V φ) (k : Nat) :
    (push (κ.prod κ) (Harris.twice Ψ))^[k] φ = (push κ Ψ)^[2 * k] φ := by
  induction k generalizing φ with
  | zero => rfl
  | succ k ih =>
    have e : push (κ.prod κ) (Harris.twice Ψ) φ = push κ Ψ (push κ Ψ φ) := funext fun x => (h.twice_eq hφ x).2
    rw [Function.iterate_succ_apply, e, ih ((hφ.push h).push h), show 2 * (k + 1) = 2 * k + 1 + 1 by ring, Function.iterate_succ_apply,
      Function.iterate_succ_apply]

/-- One step does not separate values much. -/
theorem osc_step (h : Moves κ Ψ V γ K) (hw : 0 ≤ w) (hM : 0 ≤ M) (hφ : Dom V φ) (ho : Osc V w M φ) :
    Osc V w ((1 + w * K) * M) (push κ Ψ φ) := fun x y => by
  obtain ⟨hm, a, b, _, hb⟩ := hφ
  have hix := h.integrable hm hb x
  have hiy := h.integrable hm hb y
  have h1 : ∀ z, |push κ Ψ φ x - φ z| ≤ M * (2 + w * (γ * V x + K) + w * V z) := fun z => by
    have e : push κ Ψ φ x - φ z = ∫ ζ, (φ (Ψ x ζ) - φ z) ∂κ := by
      rw [integral_sub hix (integrable_const _)]
      simp [push]
    rw [e]
    have hi2 : Integrable (fun ζ => M * (2 + w * V (Ψ x ζ) + w * V z)) κ :=
      (((integrable_const (2 : ℝ)).add ((h.int x).const_mul w)).add (integrable_const _)).const_mul M
    have hi3 : Integrable (fun ζ => 2 + w * V (Ψ x ζ)) κ := (integrable_const (2 : ℝ)).add ((h.int x).const_mul w)
    refine abs_integral_le_integral_abs.trans ((integral_mono (hix.sub (integrable_const _)).abs hi2 fun ζ => ho _ _).trans ?_)
    rw [integral_const_mul, integral_add hi3 (integrable_const _), integral_add (integrable_const _) ((h.int x).const_mul w), integral_const_mul]
    simp only [integral_const, probReal_univ, one_smul]
    have := mul_le_mul_of_nonneg_left (h.drift x) hw
    exact mul_le_mul_of_nonneg_left (by linarith) hM
  have e : push κ Ψ φ x - push κ Ψ φ y = ∫ ζ, (push κ Ψ φ x - φ (Ψ y ζ)) ∂κ := by
    rw [integral_sub (integrable_const _) hiy]
    simp [push]
  rw [e]
  have hi2 : Integrable (fun ζ => M * (2 + w * (γ * V x + K) + w * V (Ψ y ζ))) κ :=
    ((integrable_const (2 + w * (γ * V x + K))).add ((h.int y).const_mul w)).const_mul M
  refine abs_integral_le_integral_abs.trans ((integral_mono ((integrable_const _).sub hiy).abs hi2 fun ζ => h1 _).trans ?_)
  rw [integral_const_mul, integral_add (integrable_const _) ((h.int y).const_mul w), integral_const_mul]
  simp only [integral_const, probReal_univ, one_smul]
  have h2 := mul_le_mul_of_nonneg_left (h.drift y) hw
  rw [mul_comm (1 + w * K), mul_assoc]
  refine mul_le_mul_of_nonneg_left ?_ hM
  have hx := mul_nonneg hw (h.nonneg x)
  have hy := mul_nonneg hw (h.nonneg y)
  have h3 : γ * (w * V x) ≤ w * V x := mul_le_of_le_one_left hx h.lt_one.le
  have h4 : γ * (w * V y) ≤ w * V y := mul_le_of_le_one_left hy h.lt_one.le
  have h5 : 0 ≤ w * K * (w * V x + w * V y) := mul_nonneg (mul_nonneg hw h.pos) (add_nonneg hx hy)
  linarith

theorem mixes_twice (h : Moves κ Ψ V γ K) (hs : Small (κ.prod κ) (Harris.twice Ψ) V) [Nonempty E] : ∃ w C ρ, Mixes κ Ψ V γ K w C ρ := by
  obtain ⟨w, C, r, D⟩ := h.twice.mixes hs
  have hw := D.weight_pos
  have hC := D.const_nonneg
  have hr0 := D.rate_nonneg
  have hr1 := D.rate_lt
  have hK : 0 ≤ w * K := mul_nonneg hw.le h.pos
  set ρ := max (1 / 2) √r with hρ
  have hρ2 : 1 / 2 ≤ ρ := le_max_left _ _
  have hρ0 : 0 ≤ ρ := by linarith
  have hrρ : r ≤ ρ ^ 2 := by
    rw [← Real.sq_sqrt hr0]
    exact pow_le_pow_left₀ (Real.sqrt_nonneg _) (le_max_right _ _) 2
  have hrk : ∀ k : Nat, r ^ k ≤ ρ ^ (2 * k) := fun k => by
    rw [pow_mul]
    exact pow_le_pow_left₀ hr0 hrρ k
  refine ⟨w, 2 * C * (1 + w * K), ρ, ⟨h, hw, by positivity, hρ0, max_lt (by norm_num) ?_, fun {M φ} hM hφ ho n => ?_⟩⟩
  · rw [Real.sqrt_lt' one_pos, one_pow]
    exact hr1
  · obtain ⟨c, hc⟩ := ho.center
    have hd : Dom V φ := ⟨hφ, M * w, M + |c|, mul_nonneg hM hw.le, fun x => by
      have h1 := abs_add_le (φ x - c) c
      rw [sub_add_cancel] at h1
      linarith [hc x]⟩
    have hmono : ∀ {M₁ M₂ : ℝ} {ψ : E → ℝ}, Osc V w M₁ ψ → M₁ ≤ M₂ → Osc V w M₂ ψ := fun {M₁ M₂ ψ} h1 h2 x y => by
      have hx := mul_nonneg hw.le (h.nonneg x)
      have hy := mul_nonneg hw.le (h.nonneg y)
      exact (h1 x y).trans (mul_le_mul_of_nonneg_right h2 (by linarith))
    rcases Nat.even_or_odd' n with ⟨k, rfl | rfl⟩
    · have h1 := D.osc hM hφ ho k
      rw [h.twice_iterate hd] at h1
      refine hmono h1 (mul_le_mul_of_nonneg_right ?_ hM)
      have h2 := mul_le_mul_of_nonneg_left (hrk k) hC
      have h3 : 0 ≤ C * ρ ^ (2 * k) := by positivity
      have h4 : 0 ≤ C * ρ ^ (2 * k) * (w * K) := by positivity
      linarith
    · have h1 := D.osc (by positivity) (h.measurable_push hφ) (h.osc_step hw.le hM hd ho) k
      rw [h.twice_iterate (hd.push h)] at h1
      rw [Function.iterate_succ_apply]
      refine hmono h1 ?_
      rw [← mul_assoc]
      refine mul_le_mul_of_nonneg_right ?_ hM
      have h2 := mul_le_mul_of_nonneg_left (hrk k) (by positivity : 0 ≤ C * (1 + w * K))
      have h3 : 0 ≤ C * (1 + w * K) * ρ ^ (2 * k) := by positivity
      have h4 := mul_le_mul_of_nonneg_left hρ2 h3
      rw [pow_succ]
      linarith

/-- The root of `V` decreases as well. -/
theorem sqrt (h : Moves κ Ψ V γ K) : Moves κ Ψ (fun x => √(V x)) √γ √K := by
  have hint : ∀ x, Integrable (fun q => √(V (Ψ x q))) κ := fun x => by
    refine ((integrable_const (1 : ℝ)).add (h.int x)).mono' (h.measV.sqrt.comp (h.measΨ x)).aestronglyMeasurable (ae_of_all _ fun q => ?_)
    have h0 := h.nonneg (Ψ x q)
    simp only [Pi.add_apply, Real.norm_eq_abs, abs_of_nonneg (Real.sqrt_nonneg _)]
    nlinarith [Real.sq_sqrt h0, sq_nonneg (√(V (Ψ x q)) - 1)]
  refine ⟨h.meas, h.measV.sqrt, fun x => Real.sqrt_nonneg _, hint, fun x => ?_, Real.sqrt_nonneg _, ?_, Real.sqrt_nonneg _⟩
  · have h1 : (∫ q, √(V (Ψ x q)) ∂κ) ^ 2 ≤ ∫ q, V (Ψ x q) ∂κ := by
      set I := ∫ q, √(V (Ψ x q)) ∂κ with hI
      have h2 : 0 ≤ ∫ q, (√(V (Ψ x q)) - I) ^ 2 ∂κ := integral_nonneg fun q => sq_nonneg _
      have e : (fun q => (√(V (Ψ x q)) - I) ^ 2) = fun q => V (Ψ x q) + ((-(2 * I)) * √(V (Ψ x q)) + I ^ 2) := by
        funext q
        rw [sub_sq, Real.sq_sqrt (h.nonneg _)]
        ring
      have hi2 : Integrable (fun q => (-(2 * I)) * √(V (Ψ x q)) + I ^ 2) κ := ((hint x).const_mul _).add (integrable_const _)
      rw [e, integral_add (h.int x) hi2, integral_add ((hint x).const_mul _) (integrable_const _), integral_const_mul, ← hI] at h2
      simp only [integral_const, probReal_univ, one_smul] at h2
      nlinarith
    exact (Real.le_sqrt_of_sq_le (h1.trans (h.drift x))).trans (sqrt_drift h.gamma h.pos (h.nonneg x))
  · rw [Real.sqrt_lt' one_pos, one_pow]
    exact h.lt_one

end Moves

theorem Small.sqrt {Z : Type*} [MeasurableSpace Z] {κ : Measure Z} {Ψ : E → Z → E} (h : Small κ Ψ V) (h0 : ∀ x, 0 ≤ V x) : Small κ Ψ fun x => √(V x) := fun R => by
  obtain ⟨δ, hδ, η, hη, hm⟩ := h (R ^ 2)
  refine ⟨δ, hδ, η, hη, fun x hx => hm x ?_⟩
  rw [← Real.sq_sqrt (h0 x)]
  exact pow_le_pow_left₀ (Real.sqrt_nonneg _) hx 2

/-- A chain forgets where it started, and averages over its samples converge.  Sizes are measured with `S`. -/
theorem Mixes.forgets {w' C' ρ' : ℝ} [Nonempty E] (D : Mixes κ Ψ V γ K w C ρ) (D' : Mixes κ Ψ (fun x => √(V x)) √γ √K w' C' ρ') {S : E → ℝ}
    (hSm : Measurable S) (hSn : ∀ x, 0 ≤ S x) {lo hi : ℝ} (hlo0 : 0 < lo) (hhi1 : 1 ≤ hi) (hsq : ∀ x, S x ≤ hi * V x) (hen : ∀ x, lo * V x ≤ S x) :
    ∃ (π : Measure E) (C ρ : ℝ), IsProbabilityMeasure π ∧ law κ Ψ π = π ∧ Integrable S π ∧ 0 ≤ C ∧ 0 ≤ ρ ∧ ρ < 1
      ∧ ∀ {Ω : Type} [MeasurableSpace Ω] (P : Measure Ω) [IsProbabilityMeasure P] (ζ : Nat → Ω → Z) (X : Nat → Ω → E) (x₀ : E),
        (∀ k, Measurable (ζ k)) → iIndepFun ζ P → (∀ k, P.map (ζ k) = κ) → (∀ ω, X 0 ω = x₀) →
        (∀ k ω, X (k + 1) ω = Ψ (X k ω) (ζ k ω)) → ∀ {f : E → ℝ} {A : ℝ}, Measurable f → 0 ≤ A →
        ((∀ x, |f x| ≤ A * (1 + S x)) → ∀ k, Integrable (fun ω => f (X k ω)) P ∧
          |∫ ω, f (X k ω) ∂P - ∫ x, f x ∂π| ≤ A * (C * (1 + S x₀)) * ρ ^ k)
        ∧ ((∀ x, |f x| ≤ A * (1 + √(S x))) → ∀ {I : Finset Nat}, I.Nonempty →
          Integrable (fun ω => ((∑ k ∈ I, f (X k ω)) / I.card - ∫ x, f x ∂π) ^ 2) P ∧
          ∫ ω, ((∑ k ∈ I, f (X k ω)) / I.card - ∫ x, f x ∂π) ^ 2 ∂P ≤ A ^ 2 * (C * (1 + S x₀)) / I.card) := by
  have hhi0 : 0 ≤ hi := zero_le_one.trans hhi1
  obtain ⟨π, hπ, hinv, hVπ, hle⟩ := D.stationary
  set C₁ := gap γ K w C
  set C₂ := gap √γ √K w' C'
  have hC₁ : 0 ≤ C₁ := D.gap_nonneg
  have hC₂ : 0 ≤ C₂ := D'.gap_nonneg
  have hρ₁ := D.rate_nonneg
  have hρ₁' := D.rate_lt
  have hρ₂ := D'.rate_nonneg
  have hρ₂' := D'.rate_lt
  have hKK : 0 ≤ K / (1 - γ) := div_nonneg D.pos (by linarith [D.lt_one])
  have hVn := D.nonneg
  have hπ2 : Integrable S π := by
    refine (hVπ.const_mul hi).mono' hSm.aestronglyMeasurable (ae_of_all _ fun x => ?_)
    rw [Real.norm_eq_abs, abs_of_nonneg (hSn x)]
    exact hsq x
  have hWπ : Integrable (fun x => √(V x)) π := by
    refine ((integrable_const (1 : ℝ)).add hVπ).mono' D.measV.sqrt.aestronglyMeasurable (ae_of_all _ fun x => ?_)
    simp only [Pi.add_apply, Real.norm_eq_abs, abs_of_nonneg (Real.sqrt_nonneg _)]
    nlinarith [Real.sq_sqrt (hVn x), sq_nonneg (√(V x) - 1)]
  have hWle := D'.stationary_le hinv hWπ
  set c₂ := 2 * (hi * C₂) ^ 2 * (2 / (1 - ρ')) * (1 + K / (1 - γ)) with hc₂
  have hc₂0 : 0 ≤ c₂ := by
    have : 0 < 1 - ρ' := by linarith
    positivity
  refine ⟨π, hi * C₁ * (1 + lo⁻¹) + c₂ * (1 + lo⁻¹), ρ, hπ, hinv, hπ2, ?_, hρ₁, hρ₁', ?_⟩
  · have : 0 < lo⁻¹ := inv_pos.2 hlo0
    positivity
  intro Ω _ P _ ζ X x₀ hζ hind hlaw h0 hX f A hf hA
  have hl0 : 0 < lo⁻¹ := inv_pos.2 hlo0
  have hx₀ := hSn x₀
  refine ⟨fun hb k => ?_, fun hb I hI => ?_⟩
  · obtain ⟨h1, h2⟩ := D.chain hζ hind hlaw h0 hX hinv hVπ hle hf (mul_nonneg hA hhi0) (fun x => (hb x).trans (weigh hA hhi1 (hsq x))) k
    refine ⟨h1, h2.trans ?_⟩
    refine mul_le_mul_of_nonneg_right ?_ (pow_nonneg hρ₁ k)
    have h3 := unweigh (C := A * hi * C₁) hlo0 (by positivity) hx₀ (hen x₀)
    have h4 : 0 ≤ A * (c₂ * (1 + lo⁻¹) * (1 + S x₀)) := by positivity
    exact h3.trans (by linarith)
  · have hV2 : ∀ k, Integrable (fun ω => √(V (X k ω)) ^ 2) P := fun k => by
      simp only [Real.sq_sqrt (hVn _)]
      exact (D.moment hζ hind hlaw h0 hX k).1
    have hS : ∀ k, ∫ ω, √(V (X k ω)) ^ 2 ∂P ≤ V x₀ + K / (1 - γ) := fun k => by
      simp only [Real.sq_sqrt (hVn _)]
      exact (D.moment hζ hind hlaw h0 hX k).2
    have hb' : ∀ x, |f x| ≤ A * hi * (1 + √(V x)) := fun x => by
      refine (hb x).trans (weigh hA hhi1 ?_)
      refine Real.sqrt_le_iff.2 ⟨by positivity, ?_⟩
      rw [mul_pow, Real.sq_sqrt (hVn x)]
      refine (hsq x).trans (mul_le_mul_of_nonneg_right ?_ (hVn x))
      nlinarith
    have hcov := D'.covariance hζ hind hlaw h0 hX hV2 hinv hWπ hWle hf (mul_nonneg hA hhi0) hb' hS
    have hc0 : 0 ≤ 2 * (A * hi * C₂) ^ 2 * (1 + (V x₀ + K / (1 - γ))) := by
      have := hVn x₀
      positivity
    obtain ⟨i1, i2⟩ := average_of_covariance hρ₂ hρ₂' hc0 hcov hI
    have hc : (0 : ℝ) < I.card := by exact_mod_cast hI.card_pos
    have e : (fun ω => ((∑ k ∈ I, f (X k ω)) / (I.card : ℝ) - ∫ x, f x ∂π) ^ 2) = fun ω => ((∑ k ∈ I, (f (X k ω) - ∫ x, f x ∂π)) / (I.card : ℝ)) ^ 2 := by
      funext ω
      rw [Finset.sum_sub_distrib, Finset.sum_const, nsmul_eq_mul, sub_div, mul_div_cancel_left₀ _ hc.ne']
    rw [e]
    refine ⟨i1, i2.trans (div_le_div_of_nonneg_right ?_ hc.le)⟩
    have hV0 := hVn x₀
    have h1 : 1 + (V x₀ + K / (1 - γ)) ≤ (1 + K / (1 - γ)) * (1 + V x₀) := by nlinarith
    have hq : 0 ≤ 2 / (1 - ρ') := div_nonneg (by norm_num) (by linarith)
    have h2 : 2 * (A * hi * C₂) ^ 2 * (1 + (V x₀ + K / (1 - γ))) * (2 / (1 - ρ')) ≤ A ^ 2 * (c₂ * (1 + V x₀)) := by
      have h3 := mul_le_mul_of_nonneg_left h1 (by positivity : 0 ≤ 2 * (A * hi * C₂) ^ 2 * (2 / (1 - ρ')))
      calc _ = 2 * (A * hi * C₂) ^ 2 * (2 / (1 - ρ')) * (1 + (V x₀ + K / (1 - γ))) := by ring
        _ ≤ _ := h3
        _ = _ := by rw [hc₂]; ring
    have h4 := mul_le_mul_of_nonneg_left (unweigh hlo0 hc₂0 hx₀ (hen x₀)) (sq_nonneg A)
    have h5 : 0 ≤ A ^ 2 * (hi * C₁ * (1 + lo⁻¹) * (1 + S x₀)) := by positivity
    refine h2.trans (h4.trans ?_)
    linarith

end PySGMCMC.Harris
