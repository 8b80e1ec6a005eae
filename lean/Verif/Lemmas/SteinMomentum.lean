import Verif.Lemmas.SteinSeparable
import Verif.Lemmas.ConfiningMomentum

/-!
# The bias of SGHMC for costs on the line
-/

open MeasureTheory ProbabilityTheory Filter Topology
namespace PySGMCMC.Stein

/-! ## Arithmetic -/

/-- The size of the momentum. -/
theorem momentum_arith {α τ σ s V I N B : ℝ} (hα0 : 0 < α) (hα1 : α ≤ 1)
    (h : (1 - (1 - α) ^ 2) * V + 2 * (1 - α) * τ * I ≤ τ ^ 2 * B + s ^ 2) (hI : -(2 * τ * I) ≤ α * V + τ ^ 2 / α * N) (hN : N ≤ B)
    (hs : s ^ 2 ≤ 2 * α * τ / σ) : V ≤ (τ / α) ^ 2 * B + 2 * τ / σ := by
  have h1 : 0 ≤ 1 - α := by linarith
  have h2 := mul_le_mul_of_nonneg_left hI h1
  have h3 : τ ^ 2 / α * N ≤ τ ^ 2 / α * B := mul_le_mul_of_nonneg_left hN (by positivity)
  have h4 := mul_le_mul_of_nonneg_left h3 h1
  have h5 : α * V ≤ τ ^ 2 * B + (1 - α) * (τ ^ 2 / α * B) + 2 * α * τ / σ := by nlinarith
  have h6 : τ ^ 2 * B + (1 - α) * (τ ^ 2 / α * B) + 2 * α * τ / σ = α * ((τ / α) ^ 2 * B + 2 * τ / σ) := by
    field_simp
    ring
  rw [h6] at h5
  exact le_of_mul_le_mul_left h5 hα0

/-- The condition on the stepsize, in the form in which it is used. -/
theorem stepsize_arith {α τ Λ a : ℝ} (hα0 : 0 < α) (hα1 : α ≤ 1) (hτ : 0 < τ) (hΛ : 0 < Λ) (ha : 0 < a)
    (hst : τ * Harris.Confining.coupling α * α * Λ ≤ a) :
    τ / α * Λ ≤ a ∧ τ / α * Λ + 2 * ((1 - α) / α) ^ 2 * (τ / α * Λ) ^ 2 / a ≤ a := by
  set y := τ / α * Λ with hy
  have hy0 : 0 < y := by positivity
  have h1 : y + 2 * ((1 - α) / α) ^ 2 * y ≤ a := by
    refine le_trans ?_ hst
    have e : τ * Harris.Confining.coupling α * α * Λ = y * (1 + α ^ 2 + 2 * (1 - α) ^ 2 * (1 / α ^ 2 + 1) ^ 2 * α) := by
      rw [hy, Harris.Confining.coupling]
      field_simp
    rw [e]
    have h2 : ((1 - α) / α) ^ 2 ≤ (1 - α) ^ 2 * (1 / α ^ 2 + 1) ^ 2 * α := by
      rw [div_pow, div_eq_mul_one_div, mul_assoc]
      refine mul_le_mul_of_nonneg_left ?_ (sq_nonneg _)
      have h3 : 1 / α ^ 2 ≤ (1 / α ^ 2) ^ 2 * α := by
        rw [div_pow, one_pow, ← pow_mul, div_mul_eq_mul_div, one_mul, div_le_div_iff₀ (by positivity) (by positivity)]
        have : α ^ (2 * 2) ≤ α ^ 3 := pow_le_pow_of_le_one hα0.le hα1 (by norm_num)
        nlinarith
      have h4 : (1 / α ^ 2) ^ 2 ≤ (1 / α ^ 2 + 1) ^ 2 := pow_le_pow_left₀ (by positivity) (by linarith) 2
      exact h3.trans (mul_le_mul_of_nonneg_right h4 hα0.le)
    nlinarith [mul_le_mul_of_nonneg_left h2 hy0.le, mul_nonneg hy0.le (sq_nonneg α)]
  have h0 : 0 ≤ 2 * ((1 - α) / α) ^ 2 * y := by positivity
  have h2 : y ≤ a := by linarith
  refine ⟨h2, ?_⟩
  have h3 : 2 * ((1 - α) / α) ^ 2 * y ^ 2 / a ≤ 2 * ((1 - α) / α) ^ 2 * y := by
    rw [div_le_iff₀ ha]
    nlinarith [mul_le_mul_of_nonneg_left h2 h0]
  linarith

/-- The size of the position. -/
theorem position_arith {a b α τ Λ σ g X V I J N r : ℝ} (hα0 : 0 < α) (hα1 : α ≤ 1) (hτ : 0 < τ) (hσ : 0 < σ) (hΛ : 0 < Λ) (ha : 0 < a)
    (hg : 0 ≤ g) (hX : 0 ≤ X) (hr : r = (1 - α) / α)
    (hy : τ / α * Λ ≤ a) (hy2 : τ / α * Λ + 2 * ((1 - α) / α) ^ 2 * (τ / α * Λ) ^ 2 / a ≤ a)
    (hV : V ≤ (τ / α) ^ 2 * (Λ * (g + X)) + 2 * τ / σ) (hI : a * X - b ≤ I) (hN : N ≤ Λ * (g + X))
    (hJ : -(2 * r * J) ≤ a / (2 * Λ) * N + 2 * Λ * r ^ 2 / a * V)
    (h : 2 * (τ / α) * (I + r * J) ≤ (τ / α) ^ 2 * (Λ * (g + X)) + 2 * τ / (α * σ)) :
    X ≤ 2 / a * (2 * b + 2 / σ + 3 * a / 2 * g + 4 * r ^ 2 / σ) := by
  have hτα : 0 < τ / α := by positivity
  have h1 : 2 * (I + r * J) ≤ τ / α * Λ * (g + X) + 2 / σ := by
    have e : (τ / α) ^ 2 * (Λ * (g + X)) + 2 * τ / (α * σ) = τ / α * (τ / α * Λ * (g + X) + 2 / σ) := by field_simp
    rw [e, mul_assoc, mul_left_comm] at h
    exact le_of_mul_le_mul_left h hτα
  have h2 : a / (2 * Λ) * N ≤ a / 2 * (g + X) := by
    refine (mul_le_mul_of_nonneg_left hN (by positivity)).trans (le_of_eq ?_)
    field_simp
  have h3 : 2 * Λ * r ^ 2 / a * V ≤ 2 * r ^ 2 * (τ / α * Λ) ^ 2 / a * (g + X) + 4 * r ^ 2 / σ := by
    refine (mul_le_mul_of_nonneg_left hV (by positivity)).trans ?_
    have e : 2 * Λ * r ^ 2 / a * ((τ / α) ^ 2 * (Λ * (g + X)) + 2 * τ / σ)
        = 2 * r ^ 2 * (τ / α * Λ) ^ 2 / a * (g + X) + 4 * r ^ 2 / σ * (τ * Λ / a) := by
      field_simp
      ring
    rw [e]
    have h4 : τ * Λ / a ≤ 1 := by
      rw [div_le_one ha]
      have : τ * Λ = α * (τ / α * Λ) := by field_simp
      rw [this]
      calc α * (τ / α * Λ) ≤ 1 * (τ / α * Λ) := mul_le_mul_of_nonneg_right hα1 (by positivity)
        _ ≤ a := by rw [one_mul]; exact hy
    have h5 := mul_le_mul_of_nonneg_left h4 (show 0 ≤ 4 * r ^ 2 / σ by positivity)
    linarith
  have h6 := mul_le_mul_of_nonneg_right hy2 (add_nonneg hg hX)
  rw [← hr, add_mul] at h6
  have h7 : a / 2 * X ≤ 2 * b + 2 / σ + 3 * a / 2 * g + 4 * r ^ 2 / σ := by linarith
  have h8 := mul_le_mul_of_nonneg_left h7 (show 0 ≤ 2 / a by positivity)
  have e : 2 / a * (a / 2 * X) = X := by field_simp
  rwa [e] at h8

/-- The terms of the bias of SGHMC. -/
theorem terms_arith {α τ σ s B B₀ a Λ : ℝ} (hα0 : 0 < α) (hτ : 0 < τ) (hσ : 0 < σ) (hΛ : 0 < Λ) (ha : 0 < a)
    (hy : τ / α * Λ ≤ a) (hs : s ^ 2 ≤ 2 * α * τ / σ) (hB : 0 ≤ B) (hBB : B ≤ B₀) (D : ℝ) :
    σ / (τ / α) * (|s / α| ^ 3 + (τ / α) ^ 2 * B + (s / α) ^ 2 * (τ / α * (1 + B)) + D)
      ≤ (2 * √(2 / σ) + √(a / Λ) * (σ * B₀ + 2 * (1 + B₀))) * √(τ / α) + σ * α * (D / τ) := by
  set t := τ / α with ht
  have ht0 : 0 < t := by positivity
  have h1 : (s / α) ^ 2 ≤ 2 * t / σ := by
    rw [div_pow, div_le_iff₀ (by positivity)]
    refine hs.trans (le_of_eq ?_)
    rw [ht]
    field_simp
  have h2 : |s / α| ≤ √(2 / σ) * √t := by
    rw [← Real.sqrt_mul (by positivity)]
    refine Real.abs_le_sqrt (h1.trans (le_of_eq ?_))
    ring
  have h3 : |s / α| ^ 3 ≤ 2 * t / σ * (√(2 / σ) * √t) := by
    rw [pow_succ, sq_abs]
    exact mul_le_mul h1 h2 (abs_nonneg _) (by positivity)
  have h4 : (s / α) ^ 2 * (t * (1 + B)) ≤ 2 * t / σ * (t * (1 + B)) := mul_le_mul_of_nonneg_right h1 (by positivity)
  have h5 : t ≤ √(a / Λ) * √t := by
    have h1 : t ≤ a / Λ := by rwa [le_div_iff₀ hΛ]
    calc t = √t * √t := (Real.mul_self_sqrt ht0.le).symm
      _ ≤ √(a / Λ) * √t := mul_le_mul_of_nonneg_right (Real.sqrt_le_sqrt h1) (Real.sqrt_nonneg _)
  have h6 : σ / t * (|s / α| ^ 3 + t ^ 2 * B + (s / α) ^ 2 * (t * (1 + B)) + D)
      ≤ σ / t * (2 * t / σ * (√(2 / σ) * √t) + t ^ 2 * B + 2 * t / σ * (t * (1 + B)) + D) :=
    mul_le_mul_of_nonneg_left (by linarith) (by positivity)
  have e1 : σ / t * (2 * t / σ * (√(2 / σ) * √t) + t ^ 2 * B + 2 * t / σ * (t * (1 + B)) + D)
      = 2 * √(2 / σ) * √t + t * (σ * B + 2 * (1 + B)) + σ * D / t := by
    have hσ' := hσ.ne'
    have ht' := ht0.ne'
    clear_value t
    generalize √(2 / σ) = v
    generalize √t = w
    field_simp
    ring
  have h7 : t * (σ * B + 2 * (1 + B)) ≤ (√(a / Λ) * √t) * (σ * B₀ + 2 * (1 + B₀)) := by
    refine mul_le_mul h5 ?_ (by positivity) (by positivity)
    have := mul_le_mul_of_nonneg_left hBB hσ.le
    linarith
  have e2 : σ * D / t = σ * α * (D / τ) := by rw [ht]; field_simp
  rw [e1, e2] at h6
  refine h6.trans ?_
  rw [add_mul]
  have e3 : √(a / Λ) * (σ * B₀ + 2 * (1 + B₀)) * √t = (√(a / Λ) * √t) * (σ * B₀ + 2 * (1 + B₀)) := by ring
  rw [e3]
  linarith

/-! ## Stationary laws of position and momentum -/

variable {Bt : Type*} [MeasurableSpace Bt] {U u u' : ℝ → ℝ} {a b L : ℝ} {ν : Measure Bt} [IsProbabilityMeasure ν] {G : Bt → ℝ → ℝ}
  {Λ σ : ℝ} {g₀ : Bt → ℝ} {μ : Measure (ℝ × ℝ)} [IsProbabilityMeasure μ]

theorem pair_law {e : ℝ × ℝ → ℝ × ℝ} (he : Measurable e) {T : (ℝ × ℝ) × (Bt × ℝ) → ℝ × ℝ} (hT : Measurable T) {F : ((ℝ × ℝ) × Bt) × ℝ → ℝ}
    (hF : Measurable F) (h : ∀ w, (e (T w)).1 = F ((e w.1, w.2.1), w.2.2)) (hinv : (μ.prod (ν.prod (gaussianReal 0 1))).map T = μ) :
    (((μ.map e).prod ν).prod (gaussianReal 0 1)).map F = (μ.map e).map Prod.fst := by
  rw [prod_shape he hF, Measure.map_map measurable_fst he]
  conv_rhs => rw [← hinv]
  rw [Measure.map_map (measurable_fst.comp he) hT]
  congr 1
  funext w
  exact (h w).symm

/-- A step of SGHMC on the line. -/
def hopLine (G : Bt → ℝ → ℝ) (α τ s : ℝ) (w : (ℝ × ℝ) × (Bt × ℝ)) : ℝ × ℝ :=
  let v := (1 - α) * w.1.2 - τ * G w.2.1 w.1.1 + s * w.2.2
  (w.1.1 + v, v)

theorem measurable_hopLine (hG : Batches ν u G Λ g₀) (α τ s : ℝ) : Measurable (hopLine G α τ s) := by
  have m1 : Measurable fun w : (ℝ × ℝ) × (Bt × ℝ) => w.1.1 := measurable_fst.comp measurable_fst
  have m2 : Measurable fun w : (ℝ × ℝ) × (Bt × ℝ) => w.1.2 := measurable_snd.comp measurable_fst
  have m3 : Measurable fun w : (ℝ × ℝ) × (Bt × ℝ) => w.2.2 := measurable_snd.comp measurable_snd
  have m4 : Measurable fun w : (ℝ × ℝ) × (Bt × ℝ) => G w.2.1 w.1.1 := hG.meas.comp ((measurable_fst.comp measurable_snd).prodMk m1)
  have m5 : Measurable fun w : (ℝ × ℝ) × (Bt × ℝ) => (1 - α) * w.1.2 - τ * G w.2.1 w.1.1 + s * w.2.2 :=
    ((m2.const_mul _).sub (m4.const_mul _)).add (m3.const_mul _)
  exact (m1.add m5).prodMk m5

/-- Second moments of a stationary law of SGHMC. -/
theorem sghmc_moments (hU : Well U u u' a b L) (hG : Batches ν u G Λ g₀) (hσ : 0 < σ) {α : ℝ} (hα0 : 0 < α) (hα1 : α ≤ 1) {τ s : ℝ} (hτ : 0 < τ)
    (hst : τ * Harris.Confining.coupling α * α * Λ ≤ a) (hs : s ^ 2 ≤ 2 * α * τ / σ)
    (ix : Integrable (fun p : ℝ × ℝ => p.1 ^ 2) μ) (iv : Integrable (fun p : ℝ × ℝ => p.2 ^ 2) μ)
    (hinv : (μ.prod (ν.prod (gaussianReal 0 1))).map (hopLine G α τ s) = μ) :
    ∫ p : ℝ × ℝ, p.1 ^ 2 ∂μ ≤ 2 / a * (2 * b + 2 / σ + 3 * a / 2 * (∫ β, g₀ β ∂ν) + 4 * ((1 - α) / α) ^ 2 / σ) ∧
    ∫ p : ℝ × ℝ, p.2 ^ 2 ∂μ ≤ (τ / α) ^ 2 * (Λ * (∫ β, g₀ β ∂ν + ∫ p : ℝ × ℝ, p.1 ^ 2 ∂μ)) + 2 * τ / σ := by
  have ha := hU.pos
  have hΛ := hG.bound
  have hg : 0 ≤ ∫ β, g₀ β ∂ν := integral_nonneg hG.nonneg
  have mu : Measurable u := hU.continuous_force.measurable
  have mT := measurable_hopLine hG α τ s
  set r := (1 - α) / α with hr
  have hr0 : 0 ≤ r := div_nonneg (by linarith) hα0.le
  -- the force
  have iu : Integrable (fun p : ℝ × ℝ => u p.1 ^ 2) μ := by
    refine ((integrable_const (∫ β, g₀ β ∂ν)).add ix |>.const_mul Λ).mono' ((mu.comp measurable_fst).pow_const 2).aestronglyMeasurable
      (.of_forall fun p => ?_)
    rw [Real.norm_eq_abs, abs_of_nonneg (sq_nonneg _)]
    exact hG.mean_sq p.1
  have hN : ∫ p : ℝ × ℝ, u p.1 ^ 2 ∂μ ≤ Λ * (∫ β, g₀ β ∂ν + ∫ p : ℝ × ℝ, p.1 ^ 2 ∂μ) := by
    have h1 := integral_mono iu ((integrable_const (∫ β, g₀ β ∂ν)).add ix |>.const_mul Λ) fun p => hG.mean_sq p.1
    simp only [Pi.add_apply] at h1
    rw [integral_const_mul, integral_add (integrable_const _) ix] at h1
    simpa using h1
  -- the momentum
  have m1 : Measurable fun p : ℝ × ℝ => ((p.2, p.1) : ℝ × ℝ) := measurable_snd.prodMk measurable_fst
  have hp1 : IsProbabilityMeasure (μ.map fun p : ℝ × ℝ => ((p.2, p.1) : ℝ × ℝ)) := Measure.isProbabilityMeasure_map m1.aemeasurable
  have mF : ∀ c τ s : ℝ, Measurable fun w : ((ℝ × ℝ) × Bt) × ℝ => c * w.1.1.1 + -τ * G w.1.2 w.1.1.2 + s * w.2 := fun c τ s => by
    have m1 : Measurable fun w : ((ℝ × ℝ) × Bt) × ℝ => w.1.1.1 := measurable_fst.comp (measurable_fst.comp measurable_fst)
    have m2 : Measurable fun w : ((ℝ × ℝ) × Bt) × ℝ => G w.1.2 w.1.1.2 := hG.meas.comp
      ((measurable_snd.comp measurable_fst).prodMk (measurable_snd.comp (measurable_fst.comp measurable_fst)))
    exact ((m1.const_mul c).add (m2.const_mul (-τ))).add (measurable_snd.const_mul _)
  have hv := pair_law m1 mT (mF (1 - α) τ s) (fun w => by simp only [hopLine]; ring) hinv
  obtain ⟨ivu, hvs⟩ := second hG mu
    ((integrable_map_measure (measurable_fst.pow_const 2).aestronglyMeasurable m1.aemeasurable).2 iv)
    ((integrable_map_measure (measurable_snd.pow_const 2).aestronglyMeasurable m1.aemeasurable).2 ix) hv
  have evu : ∫ p : ℝ × ℝ, p.1 * u p.2 ∂(μ.map fun p : ℝ × ℝ => ((p.2, p.1) : ℝ × ℝ)) = ∫ p : ℝ × ℝ, p.2 * u p.1 ∂μ :=
    integral_map m1.aemeasurable (measurable_fst.mul (mu.comp measurable_snd)).aestronglyMeasurable
  rw [integral_map m1.aemeasurable (measurable_fst.pow_const 2).aestronglyMeasurable,
    integral_map m1.aemeasurable (measurable_snd.pow_const 2).aestronglyMeasurable, evu] at hvs
  replace ivu : Integrable (fun p : ℝ × ℝ => p.2 * u p.1) μ :=
    (integrable_map_measure (measurable_fst.mul (mu.comp measurable_snd)).aestronglyMeasurable m1.aemeasurable).1 ivu
  have hI : -(2 * τ * ∫ p : ℝ × ℝ, p.2 * u p.1 ∂μ) ≤ α * ∫ p : ℝ × ℝ, p.2 ^ 2 ∂μ + τ ^ 2 / α * ∫ p : ℝ × ℝ, u p.1 ^ 2 ∂μ := by
    have h1 := integral_mono (ivu.const_mul (-(2 * τ))) ((iv.const_mul α).add (iu.const_mul (τ ^ 2 / α))) fun p => by
      simp only [Pi.add_apply]
      have h2 : 0 ≤ (α * p.2 + τ * u p.1) ^ 2 / α := by positivity
      have h3 : (α * p.2 + τ * u p.1) ^ 2 / α = α * p.2 ^ 2 + 2 * τ * (p.2 * u p.1) + τ ^ 2 / α * u p.1 ^ 2 := by field_simp; ring
      linarith
    simp only [Pi.add_apply] at h1
    rw [integral_add (iv.const_mul α) (iu.const_mul _), integral_const_mul, integral_const_mul, integral_const_mul] at h1
    linarith
  have hV := momentum_arith hα0 hα1 hvs hI hN hs
  refine ⟨?_, hV⟩
  -- the position
  have m2 : Measurable fun p : ℝ × ℝ => ((p.1 + r * p.2, p.1) : ℝ × ℝ) := (measurable_fst.add (measurable_snd.const_mul r)).prodMk measurable_fst
  have hp2 : IsProbabilityMeasure (μ.map fun p : ℝ × ℝ => ((p.1 + r * p.2, p.1) : ℝ × ℝ)) := Measure.isProbabilityMeasure_map m2.aemeasurable
  have hq := pair_law m2 mT (mF 1 (τ / α) (s / α)) (fun w => by simp only [hopLine, hr]; field_simp; ring) hinv
  have ivx : Integrable (fun p : ℝ × ℝ => (p.1 + r * p.2) ^ 2) μ := by
    refine ((ix.const_mul 2).add (iv.const_mul (2 * r ^ 2))).mono' ((measurable_fst.add (measurable_snd.const_mul r)).pow_const 2).aestronglyMeasurable
      (.of_forall fun p => ?_)
    rw [Real.norm_eq_abs, abs_of_nonneg (sq_nonneg _)]
    simp only [Pi.add_apply]
    nlinarith [sq_nonneg (p.1 - r * p.2)]
  obtain ⟨iqu, hqs⟩ := second hG mu
    ((integrable_map_measure (measurable_fst.pow_const 2).aestronglyMeasurable m2.aemeasurable).2 ivx)
    ((integrable_map_measure (measurable_snd.pow_const 2).aestronglyMeasurable m2.aemeasurable).2 ix) hq
  have equ : ∫ p : ℝ × ℝ, p.1 * u p.2 ∂(μ.map fun p : ℝ × ℝ => ((p.1 + r * p.2, p.1) : ℝ × ℝ)) = ∫ p : ℝ × ℝ, (p.1 + r * p.2) * u p.1 ∂μ :=
    integral_map m2.aemeasurable (measurable_fst.mul (mu.comp measurable_snd)).aestronglyMeasurable
  rw [integral_map m2.aemeasurable (measurable_snd.pow_const 2).aestronglyMeasurable, equ] at hqs
  replace iqu : Integrable (fun p : ℝ × ℝ => (p.1 + r * p.2) * u p.1) μ :=
    (integrable_map_measure (measurable_fst.mul (mu.comp measurable_snd)).aestronglyMeasurable m2.aemeasurable).1 iqu
  have ixu : Integrable (fun p : ℝ × ℝ => p.1 * u p.1) μ := by
    refine (iqu.sub (ivu.const_mul r)).congr (.of_forall fun p => ?_)
    simp only [Pi.sub_apply]
    ring
  have e1 : ∫ p : ℝ × ℝ, (p.1 + r * p.2) * u p.1 ∂μ = ∫ p : ℝ × ℝ, p.1 * u p.1 ∂μ + r * ∫ p : ℝ × ℝ, p.2 * u p.1 ∂μ := by
    rw [← integral_const_mul, ← integral_add ixu (ivu.const_mul r)]
    congr 1
    funext p
    ring
  have hin : a * (∫ p : ℝ × ℝ, p.1 ^ 2 ∂μ) - b ≤ ∫ p : ℝ × ℝ, p.1 * u p.1 ∂μ := by
    have h1 := integral_mono ((ix.const_mul a).sub (integrable_const b)) ixu fun p => by simpa using hU.inward p.1
    simp only [Pi.sub_apply] at h1
    rw [integral_sub (ix.const_mul a) (integrable_const b), integral_const_mul] at h1
    simpa using h1
  have hJ : -(2 * r * ∫ p : ℝ × ℝ, p.2 * u p.1 ∂μ)
      ≤ a / (2 * Λ) * ∫ p : ℝ × ℝ, u p.1 ^ 2 ∂μ + 2 * Λ * r ^ 2 / a * ∫ p : ℝ × ℝ, p.2 ^ 2 ∂μ := by
    have h1 := integral_mono (ivu.const_mul (-(2 * r))) ((iu.const_mul (a / (2 * Λ))).add (iv.const_mul (2 * Λ * r ^ 2 / a))) fun p => by
      simp only [Pi.add_apply]
      have h2 : 0 ≤ (a * u p.1 + 2 * Λ * r * p.2) ^ 2 / (2 * Λ * a) := by positivity
      have h3 : (a * u p.1 + 2 * Λ * r * p.2) ^ 2 / (2 * Λ * a) = a / (2 * Λ) * u p.1 ^ 2 + 2 * r * (p.2 * u p.1) + 2 * Λ * r ^ 2 / a * p.2 ^ 2 := by
        field_simp
        ring
      linarith
    simp only [Pi.add_apply] at h1
    rw [integral_add (iu.const_mul _) (iv.const_mul _), integral_const_mul, integral_const_mul, integral_const_mul] at h1
    linarith
  obtain ⟨hy, hy2⟩ := stepsize_arith hα0 hα1 hτ hΛ ha hst
  have hX : 0 ≤ ∫ p : ℝ × ℝ, p.1 ^ 2 ∂μ := integral_nonneg fun p => sq_nonneg _
  refine position_arith hα0 hα1 hτ hσ hΛ ha hg hX hr hy hy2 hV hin hN hJ ?_
  have h9 : (s / α) ^ 2 ≤ 2 * τ / (α * σ) := by
    rw [div_pow, div_le_iff₀ (by positivity)]
    refine hs.trans (le_of_eq ?_)
    field_simp
  rw [e1] at hqs
  linarith

theorem abs_integrable {X : Type*} [MeasurableSpace X] {μ : Measure X} [IsProbabilityMeasure μ] {f : X → ℝ} (mf : Measurable f)
    (hf : Integrable (fun p => f p ^ 2) μ) : Integrable (fun p => |f p|) μ :=
  ((integrable_const 1).add hf).mono' mf.norm.aestronglyMeasurable (.of_forall fun p => by
    rw [Real.norm_eq_abs, abs_abs]
    simp only [Pi.add_apply]
    nlinarith [sq_nonneg (|f p| - 1), sq_abs (f p)])

theorem abs_sq_le {X : Type*} [MeasurableSpace X] {μ : Measure X} [IsProbabilityMeasure μ] {f : X → ℝ} (mf : Measurable f)
    (hf : Integrable (fun p => f p ^ 2) μ) : (∫ p, |f p| ∂μ) ^ 2 ≤ ∫ p, f p ^ 2 ∂μ := by
  have iav := abs_integrable mf hf
  set y := ∫ p, |f p| ∂μ with hy
  have h2 := integral_mono ((iav.const_mul (2 * y)).sub (integrable_const (y ^ 2))) hf fun p => by
    simp only [Pi.sub_apply]
    nlinarith [sq_nonneg (|f p| - y), sq_abs (f p)]
  simp only [Pi.sub_apply] at h2
  rw [integral_sub (iav.const_mul _) (integrable_const _), integral_const_mul, ← hy] at h2
  simp only [integral_const, probReal_univ, smul_eq_mul, one_mul] at h2
  nlinarith

theorem lip_integrable {X : Type*} [MeasurableSpace X] {μ : Measure X} [IsProbabilityMeasure μ] {f : X → ℝ} (mf : Measurable f)
    (hf : Integrable (fun p => |f p|) μ) {φ φ' : ℝ → ℝ} {A : ℝ} (hφ : ∀ x, HasDerivAt φ (φ' x) x) (hA : ∀ x, |φ' x| ≤ A) :
    Integrable (fun p => φ (f p)) μ := by
  have cφ : Continuous φ := continuous_iff_continuousAt.2 fun x => (hφ x).continuousAt
  refine ((integrable_const |φ 0|).add (hf.const_mul A)).mono' (cφ.measurable.comp mf).aestronglyMeasurable (.of_forall fun p => ?_)
  have h1 : |φ (0 + f p) - φ 0| ≤ A * |f p| := mvt hφ fun u _ => hA u
  rw [zero_add] at h1
  rw [Real.norm_eq_abs]
  simp only [Pi.add_apply]
  calc |φ (f p)| = |φ 0 + (φ (f p) - φ 0)| := by congr 1; ring
    _ ≤ |φ 0| + A * |f p| := (abs_add_le _ _).trans (add_le_add le_rfl h1)

/-- The position is near the slow variable. -/
theorem slow_near {r : ℝ} (hr0 : 0 ≤ r) (ix : Integrable (fun p : ℝ × ℝ => |p.1|) μ) (iv : Integrable (fun p : ℝ × ℝ => |p.2|) μ)
    {φ φ' : ℝ → ℝ} {A : ℝ} (hφ : ∀ x, HasDerivAt φ (φ' x) x) (hA : ∀ x, |φ' x| ≤ A) :
    Integrable (fun p : ℝ × ℝ => |p.1 + r * p.2|) μ ∧
    |∫ p : ℝ × ℝ, φ p.1 ∂μ - ∫ p : ℝ × ℝ, φ (p.1 + r * p.2) ∂μ| ≤ A * r * ∫ p : ℝ × ℝ, |p.2| ∂μ := by
  have mq : Measurable fun p : ℝ × ℝ => p.1 + r * p.2 := measurable_fst.add (measurable_snd.const_mul r)
  have iaq : Integrable (fun p : ℝ × ℝ => |p.1 + r * p.2|) μ :=
    (ix.add (iv.const_mul r)).mono' mq.norm.aestronglyMeasurable (.of_forall fun p => by
      rw [Real.norm_eq_abs, abs_abs]
      refine (abs_add_le _ _).trans (le_of_eq ?_)
      simp only [Pi.add_apply]
      rw [abs_mul, abs_of_nonneg hr0])
  refine ⟨iaq, ?_⟩
  have ifx := lip_integrable measurable_fst ix hφ hA
  have ifq := lip_integrable mq iaq hφ hA
  rw [← integral_sub ifx ifq, ← integral_const_mul]
  refine abs_integral_le_integral_abs.trans (integral_mono (ifx.sub ifq).abs (iv.const_mul (A * r)) fun p => ?_)
  beta_reduce
  rw [abs_sub_comm]
  have h1 : |φ (p.1 + r * p.2) - φ p.1| ≤ A * |r * p.2| := mvt hφ fun u _ => hA u
  refine h1.trans (le_of_eq ?_)
  rw [abs_mul, abs_of_nonneg hr0]
  ring

theorem final_arith {x q y A r E K T M w t σ α D v : ℝ} (hA : 0 ≤ A) (hr : 0 ≤ r) (hK : 0 ≤ K) (ht : 0 ≤ t) (hD : 0 ≤ D) (hM : 0 ≤ M) (hw : 0 ≤ w)
    (hσ : 0 ≤ σ) (hα : 0 ≤ α) (hv : 0 ≤ v) (h1 : |x - q| ≤ A * r * E) (h2 : |q - y| ≤ K * A * (T + r * E)) (hT : T ≤ M * (w * t) + σ * α * D)
    (hE : E ≤ v * w * t) : |x - y| ≤ (K * (M * w + σ * α + r * (v * w)) + r * (v * w)) * (t + D) * A := by
  have h3 : |x - y| ≤ A * r * E + K * A * (T + r * E) := by
    calc |x - y| = |(x - q) + (q - y)| := by congr 1; ring
      _ ≤ _ := (abs_add_le _ _).trans (add_le_add h1 h2)
  have h4 : A * r * E ≤ A * r * (v * w * t) := mul_le_mul_of_nonneg_left hE (by positivity)
  have h5 : r * E ≤ r * (v * w * t) := mul_le_mul_of_nonneg_left hE hr
  have h6 : K * A * (T + r * E) ≤ K * A * (M * (w * t) + σ * α * D + r * (v * w * t)) := mul_le_mul_of_nonneg_left (by linarith) (by positivity)
  have h7 : A * r * (v * w * t) + K * A * (M * (w * t) + σ * α * D + r * (v * w * t))
      ≤ (K * (M * w + σ * α + r * (v * w)) + r * (v * w)) * (t + D) * A := by
    have e : (K * (M * w + σ * α + r * (v * w)) + r * (v * w)) * (t + D) * A
        = A * r * (v * w * t) + K * A * (M * (w * t) + σ * α * D + r * (v * w * t))
          + A * (K * (M * w * D + σ * α * t + r * (v * w) * D) + r * (v * w) * D) := by ring
    rw [e]
    have : 0 ≤ A * (K * (M * w * D + σ * α * t + r * (v * w) * D) + r * (v * w) * D) := by positivity
    linarith
  linarith

/-- The size of the momentum, in the form in which it is used. -/
theorem small_arith {α τ σ Λ a B B₀ V : ℝ} (hα0 : 0 < α) (hα1 : α ≤ 1) (hτ : 0 < τ) (hσ : 0 < σ) (hΛ : 0 < Λ) (ha : 0 < a) (hB : 0 ≤ B) (hBB : B ≤ B₀)
    (hy : τ / α * Λ ≤ a) (hV : V ≤ (τ / α) ^ 2 * B + 2 * τ / σ) : V ≤ (a / Λ * B₀ + 2 / σ) * (1 / α) * τ := by
  refine hV.trans ?_
  have h4 : τ / α ≤ a / Λ := by rwa [le_div_iff₀ hΛ]
  have h5 : (τ / α) ^ 2 * B ≤ τ / α * (a / Λ) * B₀ := by
    rw [pow_two]
    exact mul_le_mul (mul_le_mul_of_nonneg_left h4 (by positivity)) hBB hB (by positivity)
  have h6 : 2 * τ / σ ≤ 2 / σ * (1 / α) * τ := by
    have h7 : 1 ≤ 1 / α := by rw [le_div_iff₀ hα0]; linarith
    calc 2 * τ / σ = 2 / σ * 1 * τ := by ring
      _ ≤ 2 / σ * (1 / α) * τ := by gcongr
  have e : (a / Λ * B₀ + 2 / σ) * (1 / α) * τ = τ / α * (a / Λ) * B₀ + 2 / σ * (1 / α) * τ := by ring
  rw [e]
  linarith

/-- The bias of SGHMC. -/
theorem sghmc_bias (hU : Well U u u' a b L) (hG : Batches ν u G Λ g₀) (hσ : 0 < σ) {α : ℝ} (hα0 : 0 < α) (hα1 : α ≤ 1) :
    ∃ c K, 0 ≤ K ∧ ∫ y, Real.exp (-(σ * U y + c)) = 1 ∧
    ∀ {τ s : ℝ}, 0 < τ → τ * Harris.Confining.coupling α * α * Λ ≤ a → s ^ 2 ≤ 2 * α * τ / σ →
    ∀ {μ : Measure (ℝ × ℝ)} [IsProbabilityMeasure μ], Integrable (fun p : ℝ × ℝ => p.1 ^ 2) μ → Integrable (fun p : ℝ × ℝ => p.2 ^ 2) μ →
    (μ.prod (ν.prod (gaussianReal 0 1))).map (hopLine G α τ s) = μ →
    ∀ {φ φ' : ℝ → ℝ} {A : ℝ}, (∀ x, HasDerivAt φ (φ' x) x) → (∀ x, |φ' x| ≤ A) →
    |∫ p : ℝ × ℝ, φ p.1 ∂μ - ∫ y, φ y * Real.exp (-(σ * U y + c))| ≤ K * (√τ + |τ / α / σ - (s / α) ^ 2 / 2| / τ) * A := by
  obtain ⟨c, hc⟩ := hU.normalize hσ
  obtain ⟨K, hK0, hK⟩ := bias (Bt := Bt) (hU.scale hσ c) hc
  have ha := hU.pos
  have hΛ := hG.bound
  have hb := hU.slack
  have hg : 0 ≤ ∫ β, g₀ β ∂ν := integral_nonneg hG.nonneg
  have hr0 : 0 ≤ (1 - α) / α := div_nonneg (by linarith) hα0.le
  have hX00 : 0 ≤ 2 / a * (2 * b + 2 / σ + 3 * a / 2 * (∫ β, g₀ β ∂ν) + 4 * ((1 - α) / α) ^ 2 / σ) := by positivity
  have hs' : (fun x => σ * u x / σ) = u := by funext x; field_simp
  have hG' : Batches ν (fun x => σ * u x / σ) G Λ g₀ := by rw [hs']; exact hG
  have hkey : ∀ {τ s : ℝ}, 0 < τ → τ * Harris.Confining.coupling α * α * Λ ≤ a → s ^ 2 ≤ 2 * α * τ / σ →
      ∀ {μ : Measure (ℝ × ℝ)} [IsProbabilityMeasure μ], Integrable (fun p : ℝ × ℝ => p.1 ^ 2) μ → Integrable (fun p : ℝ × ℝ => p.2 ^ 2) μ →
      (μ.prod (ν.prod (gaussianReal 0 1))).map (hopLine G α τ s) = μ →
      ∀ {φ φ' : ℝ → ℝ} {A : ℝ}, (∀ x, HasDerivAt φ (φ' x) x) → (∀ x, |φ' x| ≤ A) → Integrable (fun p : ℝ × ℝ => |p.1 + (1 - α) / α * p.2|) μ →
      |∫ p : ℝ × ℝ, φ (p.1 + (1 - α) / α * p.2) ∂μ - ∫ y, φ y * Real.exp (-(σ * U y + c))|
        ≤ K * A * (σ / (τ / α) * (|s / α| ^ 3 + (τ / α) ^ 2 * (Λ * (∫ β, g₀ β ∂ν + ∫ p : ℝ × ℝ, p.1 ^ 2 ∂μ))
          + (s / α) ^ 2 * (τ / α * (1 + Λ * (∫ β, g₀ β ∂ν + ∫ p : ℝ × ℝ, p.1 ^ 2 ∂μ))) + |τ / α / σ - (s / α) ^ 2 / 2|)
          + (1 - α) / α * ∫ p : ℝ × ℝ, |p.2| ∂μ) := by
    intro τ s hτ hst hs μ _ ix iv hinv φ φ' A hφ hA iaq
    set r := (1 - α) / α with hr
    have mT := measurable_hopLine hG α τ s
    have m2 : Measurable fun p : ℝ × ℝ => ((p.1 + r * p.2, p.1) : ℝ × ℝ) := (measurable_fst.add (measurable_snd.const_mul r)).prodMk measurable_fst
    have hp2 : IsProbabilityMeasure (μ.map fun p : ℝ × ℝ => ((p.1 + r * p.2, p.1) : ℝ × ℝ)) := Measure.isProbabilityMeasure_map m2.aemeasurable
    have mF : Measurable fun w : ((ℝ × ℝ) × Bt) × ℝ => w.1.1.1 + -(τ / α) * G w.1.2 w.1.1.2 + s / α * w.2 := by
      have m1 : Measurable fun w : ((ℝ × ℝ) × Bt) × ℝ => w.1.1.1 := measurable_fst.comp (measurable_fst.comp measurable_fst)
      have m2 : Measurable fun w : ((ℝ × ℝ) × Bt) × ℝ => G w.1.2 w.1.1.2 := hG.meas.comp
        ((measurable_snd.comp measurable_fst).prodMk (measurable_snd.comp (measurable_fst.comp measurable_fst)))
      exact (m1.add (m2.const_mul (-(τ / α)))).add (measurable_snd.const_mul _)
    have hq := pair_law m2 mT mF (fun w => by simp only [hopLine, hr]; field_simp; ring) hinv
    have hmain := hK hG' hσ (show 0 < τ / α by positivity)
      ((integrable_map_measure measurable_fst.norm.aestronglyMeasurable m2.aemeasurable).2 iaq)
      ((integrable_map_measure (measurable_snd.pow_const 2).aestronglyMeasurable m2.aemeasurable).2 ix) hq hφ hA
    simp only [Well.avg] at hmain
    have cφ : Continuous φ := continuous_iff_continuousAt.2 fun x => (hφ x).continuousAt
    have hφm : ∫ p : ℝ × ℝ, φ p.1 ∂(μ.map fun p : ℝ × ℝ => ((p.1 + r * p.2, p.1) : ℝ × ℝ)) = ∫ p : ℝ × ℝ, φ (p.1 + r * p.2) ∂μ :=
      integral_map m2.aemeasurable (cφ.measurable.comp measurable_fst).aestronglyMeasurable
    have hX2 : ∫ p : ℝ × ℝ, p.2 ^ 2 ∂(μ.map fun p : ℝ × ℝ => ((p.1 + r * p.2, p.1) : ℝ × ℝ)) = ∫ p : ℝ × ℝ, p.1 ^ 2 ∂μ :=
      integral_map m2.aemeasurable (measurable_snd.pow_const 2).aestronglyMeasurable
    have hdist : ∫ p : ℝ × ℝ, |p.1 - p.2| ∂(μ.map fun p : ℝ × ℝ => ((p.1 + r * p.2, p.1) : ℝ × ℝ)) = r * ∫ p : ℝ × ℝ, |p.2| ∂μ := by
      have h := integral_map (μ := μ) m2.aemeasurable (f := fun p : ℝ × ℝ => |p.1 - p.2|) (measurable_fst.sub measurable_snd).norm.aestronglyMeasurable
      rw [h, ← integral_const_mul]
      congr 1
      funext p
      rw [add_sub_cancel_left, abs_mul, abs_of_nonneg hr0]
    rw [hφm, hX2, hdist] at hmain
    exact hmain
  generalize hX₀ : 2 / a * (2 * b + 2 / σ + 3 * a / 2 * (∫ β, g₀ β ∂ν) + 4 * ((1 - α) / α) ^ 2 / σ) = X₀ at hX00
  have hB00 : 0 ≤ Λ * (∫ β, g₀ β ∂ν + X₀) := by positivity
  refine ⟨c, K * ((2 * √(2 / σ) + √(a / Λ) * (σ * (Λ * (∫ β, g₀ β ∂ν + X₀)) + 2 * (1 + Λ * (∫ β, g₀ β ∂ν + X₀)))) * √(1 / α) + σ * α
      + (1 - α) / α * (√(a / Λ * (Λ * (∫ β, g₀ β ∂ν + X₀)) + 2 / σ) * √(1 / α)))
      + (1 - α) / α * (√(a / Λ * (Λ * (∫ β, g₀ β ∂ν + X₀)) + 2 / σ) * √(1 / α)), by positivity, hc, ?_⟩
  intro τ s hτ hst hs μ _ ix iv hinv φ φ' A hφ hA
  have hA0 : 0 ≤ A := (abs_nonneg _).trans (hA 0)
  obtain ⟨hX, hV⟩ := sghmc_moments hU hG hσ hα0 hα1 hτ hst hs ix iv hinv
  rw [hX₀] at hX
  obtain ⟨hy, -⟩ := stepsize_arith hα0 hα1 hτ hΛ ha hst
  have iax := abs_integrable measurable_fst ix
  have iav := abs_integrable measurable_snd iv
  obtain ⟨iaq, hnear⟩ := slow_near hr0 iax iav hφ hA
  have hmain := hkey hτ hst hs ix iv hinv hφ hA iaq
  have hB0 : 0 ≤ Λ * (∫ β, g₀ β ∂ν + ∫ p : ℝ × ℝ, p.1 ^ 2 ∂μ) :=
    mul_nonneg hΛ.le (add_nonneg hg (integral_nonneg fun p => sq_nonneg _))
  have hBB : Λ * (∫ β, g₀ β ∂ν + ∫ p : ℝ × ℝ, p.1 ^ 2 ∂μ) ≤ Λ * (∫ β, g₀ β ∂ν + X₀) := mul_le_mul_of_nonneg_left (by linarith) hΛ.le
  have hterms := terms_arith hα0 hτ hσ hΛ ha hy hs hB0 hBB |τ / α / σ - (s / α) ^ 2 / 2|
  have hE := Real.abs_le_sqrt ((abs_sq_le measurable_snd iv).trans (small_arith hα0 hα1 hτ hσ hΛ ha hB0 hBB hy hV))
  rw [Real.sqrt_mul (by positivity), Real.sqrt_mul (by positivity)] at hE
  have hτα : √(τ / α) = √(1 / α) * √τ := by rw [← Real.sqrt_mul (by positivity)]; congr 1; ring
  rw [hτα] at hterms
  exact final_arith hA0 hr0 hK0 (Real.sqrt_nonneg _) (by positivity) (by positivity) (Real.sqrt_nonneg _) hσ.le hα0.le (Real.sqrt_nonneg _)
    hnear hmain hterms ((le_abs_self _).trans hE)

end PySGMCMC.Stein
