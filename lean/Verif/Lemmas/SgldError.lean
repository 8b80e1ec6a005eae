import Verif.Lemmas.SgldCoupled
import Verif.Lemmas.SteinSeparable

/-!
# How far the samples of SGLD are from the posterior

The constants depend on the cost only: neither on the stepsize, nor on the masses, as long as these are bounded.
-/

open MeasureTheory ProbabilityTheory Filter Topology
namespace PySGMCMC.Harris
open Confining Moves Mixes Recipe Langevin
set_option linter.unusedSectionVars false

variable {J : Type} [Fintype J] [DecidableEq J] {Bt : Type} [MeasurableSpace Bt] {ν : Measure Bt} [IsProbabilityMeasure ν]
  {G : Bt → (J → ℝ) → J → ℝ} {a b Λ L lo hi S t c : ℝ} {g : Bt → ℝ} {m : J → ℝ} {φ : (J → ℝ) → ℝ} {U : (J → ℝ) → ℝ} {n : Nat} {A : ℝ}

/-! ## Rates -/

theorem root_pow {r : ℝ} (h0 : 0 ≤ r) (hn : 0 < n) (i : Nat) : (r ^ (1 / n : ℝ)) ^ (n * i) = r ^ i := by
  rw [pow_mul, one_div, Real.rpow_inv_natCast_pow h0 hn.ne']

theorem root_le {r : ℝ} (h0 : 0 < r) (h1 : r < 1) (ht : 0 < t) (hn : UnitTime t n) (k : Nat) :
    (r ^ (1 / n : ℝ)) ^ k ≤ Real.exp (-(-Real.log r / 2 * t * k)) := by
  have hn0 : (0 : ℝ) < n := Nat.cast_pos.2 hn.pos
  rw [Real.rpow_def_of_pos h0, ← Real.exp_nat_mul]
  refine Real.exp_le_exp.2 ?_
  have hl : Real.log r < 0 := Real.log_neg h0 h1
  have h2 : t / 2 ≤ 1 / n := by
    rw [le_div_iff₀ hn0]
    linarith [hn.le]
  have h3 := mul_le_mul_of_nonneg_right h2 (Nat.cast_nonneg (α := ℝ) k)
  have h4 := mul_le_mul_of_nonneg_left h3 (neg_nonneg.2 hl.le)
  linarith

theorem root_gap {r : ℝ} (h0 : 0 < r) (h1 : r < 1) (ht : 0 < t) (ht1 : t ≤ 1) (hn : UnitTime t n) :
    2 / (1 - r ^ (1 / n : ℝ)) ≤ 2 * (1 + 1 / (-Real.log r / 2)) / t := by
  have hl : 0 < -Real.log r / 2 := by linarith [Real.log_neg h0 h1]
  have h2 := root_le h0 h1 ht hn 1
  rw [pow_one, Nat.cast_one, mul_one] at h2
  set l := -Real.log r / 2
  have h3 : Real.exp (-(l * t)) ≤ 1 / (1 + l * t) := by
    rw [Real.exp_neg, ← one_div]
    have := Real.add_one_le_exp (l * t)
    exact one_div_le_one_div_of_le (by positivity) (by linarith)
  have h4 : l * t / (1 + l * t) ≤ 1 - r ^ (1 / n : ℝ) := by
    have : 1 - 1 / (1 + l * t) = l * t / (1 + l * t) := by
      have : 1 + l * t ≠ 0 := by positivity
      field_simp
      ring
    linarith
  have h5 : 0 < l * t / (1 + l * t) := by positivity
  refine (div_le_div_of_nonneg_left (by norm_num) h5 h4).trans ?_
  have e : 2 / (l * t / (1 + l * t)) = 2 * (1 / (l * t) + 1) := by field_simp
  have e2 : 2 * (1 + 1 / l) / t = 2 * (1 / (l * t) + 1 / t) := by field_simp; ring
  rw [e, e2]
  have : 1 ≤ 1 / t := by rw [le_div_iff₀ ht]; linarith
  linarith

namespace Potential
variable (h : Potential ν G U a b Λ g L lo hi S)
include h

/-- The posterior can be normalized. -/
theorem normalized : ∃ c, IsProbabilityMeasure (boltz fun x => S * U x + c) := by
  have := (h.moments 0).1
  have hc : Continuous fun x => S * U x + 0 := (h.diff.continuous.const_smul S).add continuous_const
  have me : Measurable fun x => ENNReal.ofReal (Real.exp (-(fun x => S * U x + 0) x)) :=
    (Real.continuous_exp.comp hc.neg).measurable.ennreal_ofReal
  have h0 : boltz (fun x => S * U x + 0) ≠ 0 := by
    intro h0
    unfold boltz at h0
    rw [withDensity_eq_zero_iff me.aemeasurable] at h0
    have h1 := h0.exists
    obtain ⟨x, hx⟩ := h1
    simp only [Pi.zero_apply, ENNReal.ofReal_eq_zero] at hx
    exact absurd hx (not_le.2 (Real.exp_pos _))
  set Z := (boltz (fun x => S * U x + 0)).real Set.univ with hZ
  have hZp : 0 < Z := by
    rw [hZ, measureReal_def, ENNReal.toReal_pos_iff]
    exact ⟨Measure.measure_univ_pos.2 h0, measure_lt_top _ _⟩
  refine ⟨Real.log Z, ⟨?_⟩⟩
  have e : boltz (fun x => S * U x + Real.log Z) = ENNReal.ofReal Z⁻¹ • boltz (fun x => S * U x + 0) := by
    unfold boltz
    rw [← withDensity_smul _ me]
    congr 1
    funext x
    rw [Pi.smul_apply, smul_eq_mul, ← ENNReal.ofReal_mul (inv_pos.2 hZp).le]
    congr 1
    beta_reduce
    rw [add_zero, neg_add, Real.exp_add, Real.exp_neg (Real.log Z), Real.exp_log hZp, mul_comm]
  rw [e, Measure.smul_apply, smul_eq_mul, ← ENNReal.ofReal_toReal (measure_ne_top (boltz fun x => S * U x + 0) Set.univ), ← measureReal_def, ← hZ,
    ← ENNReal.ofReal_mul (inv_pos.2 hZp).le, inv_mul_cancel₀ hZp.ne', ENNReal.ofReal_one]

theorem drift_nonneg : 0 ≤ blockBias (J := J) ν U g a b Λ L lo hi S c := by
  have := h.bias_nonneg c
  have := h.lo_pos
  unfold blockBias
  positivity

theorem size_integrable (T : Tuned a Λ lo hi m t) (c : ℝ) [IsProbabilityMeasure (boltz fun x => S * U x + c)] :
    Integrable (size m) (boltz fun x => S * U x + c) :=
  (T.size_le_energy h.toSmooth (T.moves_size h.toSmooth).self_dom).integrable (h.energy_integrable T c)

/-- The stationary law is near the posterior. -/
theorem stationary_near [Nonempty J] [IsProbabilityMeasure (boltz fun x => S * U x + c)] (T : Tuned a Λ lo hi m t) (hn : UnitTime t n)
    {γ K w C r Γ : ℝ} (M : Mixes (ν.prod (gauss J)) (langevin G m (sig m S t) t) (size m) γ K w C (r ^ (1 / n : ℝ))) (hΓ : gap γ K w C = Γ)
    (hr0 : 0 < r) (hr1 : r < 1) {π : Measure (J → ℝ)} [IsProbabilityMeasure π]
    (hinv : law (ν.prod (gauss J)) (langevin G m (sig m S t) t) π = π) (hVπ : Integrable (size m) π) (hπ : ∫ x, size m x ∂π ≤ K / (1 - γ))
    (hφ : Measurable φ) (hA : 0 ≤ A) (hb : ∀ x, |φ x| ≤ A * size m x) :
    |∫ x, φ x ∂(boltz fun x => S * U x + c) - ∫ x, φ x ∂π| ≤ √t * (2 * A * Γ * blockBias (J := J) ν U g a b Λ L lo hi S c / (1 - r)) := by
  have hs := h.toSmooth
  have hm := T.mass_pos hs
  have hV := T.moves_size hs
  have hE := T.moves_energy hs
  have hD := h.drift_nonneg (c := c)
  set D := blockBias (J := J) ν U g a b Λ L lo hi S c
  have hΓ0 : 0 ≤ Γ := by rw [← hΓ]; exact M.gap_nonneg
  have is := h.size_integrable T c
  set μ := boltz fun x => S * U x + c
  set e := ∫ x, φ x ∂π
  have hdom := size_dom hφ hA hb
  have hdE := T.size_le_energy hs hdom
  set ψ : Nat → (J → ℝ) → ℝ := fun i x => (avg ν G m S t)^[n * i] φ x + -e * 1 with hψ
  have mψ : ∀ i, Measurable (ψ i) := fun i => ((hdom.iterate hV (n * i)).1).add_const _
  have bψ : ∀ i x, |ψ i x| ≤ 2 * A * Γ * r ^ i * size m x := fun i x => by
    have h1 := M.geometric hinv hVπ hπ hφ hA (fun x => (hb x).trans (mul_le_mul_of_nonneg_left (by linarith) hA)) (n * i) x
    rw [hΓ, root_pow hr0.le hn.pos] at h1
    have h2 := one_le_size hm x
    have e1 : ψ i x = (push (ν.prod (gauss J)) (langevin G m (sig m S t) t))^[n * i] φ x - ∫ y, φ y ∂π := by
      simp only [hψ]; ring
    rw [e1]
    refine h1.trans ?_
    have h3 : A * Γ * (1 + size m x) ≤ A * Γ * (2 * size m x) := mul_le_mul_of_nonneg_left (by linarith) (by positivity)
    have h4 := mul_le_mul_of_nonneg_right h3 (pow_nonneg hr0.le i)
    linarith
  have sψ : ∀ i, (avg ν G m S t)^[n] (ψ i) = ψ (i + 1) := fun i => by
    simp only [hψ]
    rw [T.iterate_add_const hs (hdE.iterate hE (n * i)) (T.const_dom hs 1), T.iterate_const hs]
    funext x
    rw [← Function.iterate_add_apply, show n + n * i = n * (i + 1) by ring]
  have iψ : ∀ i, Integrable (ψ i) μ := fun i => (is.const_mul _).mono' (mψ i).aestronglyMeasurable (.of_forall fun x => bψ i x)
  have hst : ∀ i, |∫ x, ψ (i + 1) x ∂μ - ∫ x, ψ i x ∂μ| ≤ √t * (2 * A * Γ * D) * r ^ i := fun i => by
    have h1 := h.block (c := c) T hn (mψ i) (B := 2 * A * Γ * r ^ i) (by positivity) (bψ i)
    rw [sψ] at h1
    refine h1.trans (le_of_eq ?_)
    ring
  have hsum : ∀ N, |∫ x, ψ N x ∂μ - ∫ x, ψ 0 x ∂μ| ≤ √t * (2 * A * Γ * D / (1 - r)) := fun N => by
    rw [← Finset.sum_range_sub (fun i => ∫ x, ψ i x ∂μ)]
    refine (Finset.abs_sum_le_sum_abs _ _).trans ((Finset.sum_le_sum fun i _ => hst i).trans ?_)
    rw [← Finset.mul_sum]
    have h1 : ∑ i ∈ Finset.range N, r ^ i ≤ (1 - r)⁻¹ :=
      sum_le_hasSum _ (fun n _ => pow_nonneg hr0.le n) (hasSum_geometric_of_lt_one hr0.le hr1)
    have h2 := mul_le_mul_of_nonneg_left h1 (by positivity : 0 ≤ √t * (2 * A * Γ * D))
    refine h2.trans (le_of_eq ?_)
    rw [div_eq_mul_inv]
    ring
  have hlast : ∀ N, |∫ x, ψ N x ∂μ| ≤ 2 * A * Γ * (∫ x, size m x ∂μ) * r ^ N := fun N => by
    have h1 := norm_integral_le_of_norm_le (is.const_mul (2 * A * Γ * r ^ N)) (f := ψ N) (.of_forall fun x => bψ N x)
    rw [integral_const_mul, Real.norm_eq_abs] at h1
    refine h1.trans (le_of_eq ?_)
    ring
  have e0 : ∫ x, ψ 0 x ∂μ = ∫ x, φ x ∂μ - e := by
    have i0 : Integrable φ μ := hdE.integrable (h.energy_integrable T c)
    have : ψ 0 = fun x => φ x - e := by
      funext x
      simp only [hψ, Nat.mul_zero, Function.iterate_zero, id]
      ring
    rw [this, integral_sub i0 (integrable_const _)]
    simp
  rw [← e0]
  have hlim : Tendsto (fun N : Nat => √t * (2 * A * Γ * D / (1 - r)) + 2 * A * Γ * (∫ x, size m x ∂μ) * r ^ N) atTop
      (𝓝 (√t * (2 * A * Γ * D / (1 - r)) + 2 * A * Γ * (∫ x, size m x ∂μ) * 0)) :=
    ((tendsto_pow_atTop_nhds_zero_of_lt_one hr0.le hr1).const_mul _).const_add _
  rw [mul_zero, add_zero] at hlim
  refine ge_of_tendsto' hlim fun N => ?_
  have h1 := hsum N
  have h2 := hlast N
  rw [abs_le] at h1 h2 ⊢
  constructor <;> linarith [h1.1, h1.2, h2.1, h2.2]

/-- Averages over samples, and their errors.  The constants do not depend on the masses nor on the stepsize. -/
theorem samples [Nonempty J] : ∃ c K C l : ℝ, IsProbabilityMeasure (boltz fun x => S * U x + c) ∧ 0 ≤ K ∧ 0 ≤ C ∧ 0 < l ∧
    ∀ {m : J → ℝ} {t : ℝ}, Tuned a Λ lo hi m t → ∀ {Ω : Type} [MeasurableSpace Ω] (P : Measure Ω) [IsProbabilityMeasure P]
      (ζ : Nat → Ω → Bt × (J → ℝ)) (X : Nat → Ω → J → ℝ) (x₀ : J → ℝ),
      (∀ k, Measurable (ζ k)) → iIndepFun ζ P → (∀ k, P.map (ζ k) = ν.prod (gauss J)) → (∀ ω, X 0 ω = x₀) →
      (∀ k ω, X (k + 1) ω = langevin G m (sig m S t) t (X k ω) (ζ k ω)) → ∀ {f : (J → ℝ) → ℝ} {A : ℝ}, Measurable f → 0 ≤ A →
      (∀ x, |f x| ≤ A * (1 + ‖x‖)) →
      (∀ k, Integrable (fun ω => f (X k ω)) P ∧
        |∫ ω, f (X k ω) ∂P - ∫ x, f x ∂boltz fun x => S * U x + c| ≤ A * (C * (1 + ‖x₀‖)) * Real.exp (-(l * t * k)) + A * (K * √t))
      ∧ ∀ {I : Finset Nat}, I.Nonempty →
        Integrable (fun ω => ((∑ k ∈ I, f (X k ω)) / I.card - ∫ x, f x ∂boltz fun x => S * U x + c) ^ 2) P ∧
        ∫ ω, ((∑ k ∈ I, f (X k ω)) / I.card - ∫ x, f x ∂boltz fun x => S * U x + c) ^ 2 ∂P
          ≤ 2 * (A * (C * (1 + ‖x₀‖))) ^ 2 / (I.card * t) + 2 * (A * (K * √t)) ^ 2 := by
  have hs := h.toSmooth
  have hlo := hs.lo_pos
  have hl := hs.level_nonneg
  obtain ⟨c, hp⟩ := h.normalized
  obtain ⟨w, C, r, Γ, hΓ0, hr2, hr1, hmix⟩ := hs.mixes_uniform
  have hr0 : 0 < r := by linarith
  have hl0 : 0 < -Real.log r / 2 := by linarith [Real.log_neg hr0 hr1]
  have hD := h.drift_nonneg (c := c)
  set D := blockBias (J := J) ν U g a b Λ L lo hi S c with hDe
  set l := -Real.log r / 2 with hle
  set q := 1 + (Fintype.card J : ℝ) / lo with hq
  have hq0 : 0 ≤ q := by positivity
  set s := 1 + √hi with hse
  have hs0 : 0 ≤ s := by positivity
  set V := level J ν g a b lo S with hVe
  have h1r : 0 < 1 - r := by linarith
  have hC2 : 0 ≤ 8 * (1 + V) * (1 + 1 / l) := by positivity
  refine ⟨c, 2 * s * Γ * D / (1 - r), s * Γ * q * (2 + √(8 * (1 + V) * (1 + 1 / l))), l, hp, by positivity, by positivity, hl0, ?_⟩
  intro m t T Ω _ P _ ζ X x₀ hζ hi' hlaw h0 hX f A hf hA hb
  have hn := T.unit
  have hm := T.mass_pos hs
  have ht := T.t_pos
  obtain ⟨M, hΓ, hK⟩ := hmix T hn
  obtain ⟨π, hπp, hinv, hVπ, hπ⟩ := M.stationary
  have hA' : 0 ≤ A * s := by positivity
  have hb1 : ∀ x, |f x| ≤ A * s * size m x := fun x => by
    refine (hb x).trans ?_
    rw [mul_assoc]
    exact mul_le_mul_of_nonneg_left (T.far_le_size hs x) hA
  have hb2 : ∀ x, |f x| ≤ A * s * (1 + size m x) := fun x => (hb1 x).trans (mul_le_mul_of_nonneg_left (by linarith) hA')
  have hnear := h.stationary_near (c := c) T hn M hΓ hr0 hr1 hinv hVπ hπ hf hA' hb1
  have hx0 := T.size_le_far hs x₀
  have hx1 := one_le_size hm x₀
  have hE := T.moves_energy hs
  have hfar : far x₀ = 1 + ‖x₀‖ := rfl
  -- the second moments
  have hV2 : ∀ k, Integrable (fun ω => size m (X k ω) ^ 2) P ∧ ∫ ω, size m (X k ω) ^ 2 ∂P ≤ (1 + V) * size m x₀ ^ 2 := fun k => by
    obtain ⟨i1, h1⟩ := hE.moment hζ hi' hlaw h0 hX k
    simp only [size_sq hm]
    refine ⟨(integrable_const 1).add i1, ?_⟩
    rw [integral_add (integrable_const 1) i1]
    simp only [integral_const, probReal_univ, one_smul]
    have hd := decay_lt hs.conf.pos ht hlo
    have h2 : heat ν g a b t m (sig m S t) / (1 - decay a t lo) ≤ V := by
      rw [div_le_iff₀ (by linarith)]
      linarith [T.heat_le hs]
    have h3 := mul_nonneg hl (energy_nonneg hm x₀)
    linarith
  refine Stein.combine (y₀ := 0) (m := ∫ x, f x ∂π) (r := fun k => A * (s * Γ * q * (2 + √(8 * (1 + V) * (1 + 1 / l))) * (1 + ‖x₀‖)) * Real.exp (-(l * t * k)))
    (R := fun I => (A * (s * Γ * q * (2 + √(8 * (1 + V) * (1 + 1 / l))) * (1 + ‖x₀‖))) ^ 2 / (I.card * t)) (E := A * (2 * s * Γ * D / (1 - r) * √t)) ?_ ?_ ?_ |>.imp id (fun h3 {I} hI => ?_)
  · intro k
    obtain ⟨i1, h1⟩ := M.chain hζ hi' hlaw h0 hX hinv hVπ hπ hf hA' hb2 k
    simp only [sub_zero]
    refine ⟨i1, h1.trans ?_⟩
    rw [hΓ]
    have h2 := root_le hr0 hr1 ht hn k
    rw [← hle] at h2
    have hsq := Real.sqrt_nonneg (8 * (1 + V) * (1 + 1 / l))
    have hf0 : 0 ≤ 1 + ‖x₀‖ := by positivity
    have h3 : 1 + size m x₀ ≤ q * (2 + √(8 * (1 + V) * (1 + 1 / l))) * (1 + ‖x₀‖) := by
      rw [← hfar] at hf0 ⊢
      have h4 : 0 ≤ q * √(8 * (1 + V) * (1 + 1 / l)) * far x₀ := by positivity
      linarith
    calc A * s * Γ * (1 + size m x₀) * (r ^ (1 / (⌈1 / t⌉₊ : ℝ))) ^ k
        ≤ A * s * Γ * (q * (2 + √(8 * (1 + V) * (1 + 1 / l))) * (1 + ‖x₀‖)) * Real.exp (-(l * t * k)) := by gcongr
      _ = _ := by ring
  · intro I hI
    simp only [sub_zero]
    have hcov := M.covariance hζ hi' hlaw h0 hX (fun k => (hV2 k).1) hinv hVπ hπ hf hA' hb2 (fun k => (hV2 k).2)
    have hρ0 := M.rate_nonneg
    have hρ1 := M.rate_lt
    obtain ⟨i1, h1⟩ := average_of_covariance hρ0 hρ1 (by positivity) hcov hI
    have hc : (0 : ℝ) < I.card := by exact_mod_cast hI.card_pos
    have e1 : ∀ ω, (∑ k ∈ I, (f (X k ω) - ∫ y, f y ∂π)) / (I.card : ℝ) = (∑ k ∈ I, f (X k ω)) / I.card - ∫ y, f y ∂π := fun ω => by
      rw [Finset.sum_sub_distrib, Finset.sum_const, nsmul_eq_mul, sub_div, mul_div_cancel_left₀ _ hc.ne']
    simp only [e1] at i1 h1
    refine ⟨i1, h1.trans ?_⟩
    rw [hΓ]
    have h2 := root_gap hr0 hr1 ht T.t_le hn
    rw [← hle] at h2
    have hff : 0 ≤ far x₀ := (far_pos x₀).le
    have hx2 : size m x₀ ^ 2 ≤ (q * far x₀) ^ 2 := pow_le_pow_left₀ (by linarith) hx0 2
    have h3 : 1 + (1 + V) * size m x₀ ^ 2 ≤ 2 * (1 + V) * (q * far x₀) ^ 2 := by
      have h4 : 1 ≤ size m x₀ ^ 2 := one_le_pow₀ hx1
      have h5 := mul_le_mul_of_nonneg_left hx2 (by positivity : 0 ≤ 1 + V)
      have h6 := mul_le_mul_of_nonneg_left (h4.trans hx2) hl
      linarith
    have hz := Real.sqrt_nonneg (8 * (1 + V) * (1 + 1 / l))
    have hz2 := Real.sq_sqrt hC2
    set z := √(8 * (1 + V) * (1 + 1 / l)) with hze
    have h7 : 8 * (1 + V) * (1 + 1 / l) ≤ (2 + z) ^ 2 := by nlinarith
    calc 2 * (A * s * Γ) ^ 2 * (1 + (1 + V) * size m x₀ ^ 2) * (2 / (1 - r ^ (1 / (⌈1 / t⌉₊ : ℝ)))) / I.card
        ≤ 2 * (A * s * Γ) ^ 2 * (2 * (1 + V) * (q * far x₀) ^ 2) * (2 * (1 + 1 / l) / t) / I.card := by gcongr
      _ = (A * s * Γ * (q * far x₀)) ^ 2 * (8 * (1 + V) * (1 + 1 / l)) / (I.card * t) := by
        have := hc.ne'
        have := ht.ne'
        have := hl0.ne'
        field_simp
        ring
      _ ≤ (A * s * Γ * (q * far x₀)) ^ 2 * (2 + z) ^ 2 / (I.card * t) := by gcongr
      _ = _ := by rw [hfar]; ring
  · rw [add_zero, abs_sub_comm]
    refine hnear.trans (le_of_eq ?_)
    ring
  · obtain ⟨h4, h5⟩ := h3 hI
    refine ⟨h4, h5.trans (le_of_eq ?_)⟩
    ring

end Potential

end PySGMCMC.Harris
