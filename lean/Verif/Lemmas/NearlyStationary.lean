import Verif.Lemmas.SgldError

/-!
# Laws that steps of SGLD nearly preserve

Such a law is near the stationary law of SGLD, for functions that do not vary too fast.
-/

open MeasureTheory ProbabilityTheory Filter Topology
namespace PySGMCMC.Harris
open Confining Moves Mixes Recipe Langevin
set_option linter.unusedSectionVars false

variable {J : Type} [Fintype J] [DecidableEq J] {Bt : Type} [MeasurableSpace Bt] {ν : Measure Bt} [IsProbabilityMeasure ν]
  {G : Bt → (J → ℝ) → J → ℝ} {a b Λ L lo hi S t c : ℝ} {g : Bt → ℝ} {m : J → ℝ} {φ : (J → ℝ) → ℝ} {n : Nat} {A B D M : ℝ} {μ : Measure (J → ℝ)}

/-- Steps of SGLD change averages of functions that vary slowly by a power of the stepsize more than one. -/
structure Kept (ν : Measure Bt) (G : Bt → (J → ℝ) → J → ℝ) (S : ℝ) (m : J → ℝ) (t D : ℝ) (μ : Measure (J → ℝ)) : Prop where
  int : Integrable (energy m) μ
  nonneg : 0 ≤ D
  step : ∀ (φ : (J → ℝ) → ℝ) (M : ℝ), 0 ≤ M → Dom (energy m) φ → Varies 0 M φ → |∫ x, avg ν G m S t φ x ∂μ - ∫ x, φ x ∂μ| ≤ t * √t * (M * D)

/-- How fast averages vary after some steps. -/
noncomputable def smoothing (J : Type*) [Fintype J] (ν : Measure Bt) (g : Bt → ℝ) (a b L lo hi S : ℝ) : ℝ :=
  (1 + Fintype.card J / lo) * √(2 * toll J L lo hi S * (1 + level J ν g a b lo S))

theorem Varies.mono {M' : ℝ} (hv : Varies 0 M φ) (h : M ≤ M') : Varies 0 M' φ := fun x y => by
  refine (hv x y).trans (mul_le_mul_of_nonneg_left ?_ (add_nonneg (far_pos x).le (far_pos y).le))
  exact add_le_add_right (mul_le_mul_of_nonneg_right h (norm_nonneg _)) 0

theorem Varies.add_const (hv : Varies 0 M φ) (e : ℝ) : Varies 0 M fun x => φ x + e := fun x y => by
  simpa using hv x y

namespace Kept
variable [IsProbabilityMeasure μ] (hk : Kept ν G S m t D μ) (T : Tuned a Λ lo hi m t) (h : Smooth ν G a b Λ g L lo hi S)
include hk T h

theorem smoothing_nonneg : 0 ≤ smoothing J ν g a b L lo hi S := by
  have := h.lo_pos
  unfold smoothing
  positivity

theorem block (hn : UnitTime t n) (hφ : Measurable φ) (hB : 0 ≤ B) (hb : ∀ x, |φ x| ≤ B * size m x) (hM : 0 ≤ M) (hv : Varies 0 M φ) :
    |∫ x, (avg ν G m S t)^[n] φ x ∂μ - ∫ x, φ x ∂μ| ≤ √t * (D * (M + 3 * B * smoothing J ν g a b L lo hi S)) := by
  have hE := T.moves_energy h
  have hd : Dom (energy m) φ := T.size_le_energy h (size_dom hφ hB hb)
  have ht := T.t_pos
  have hlo := h.lo_pos
  have hD := hk.nonneg
  have hw0 := hk.smoothing_nonneg T h
  set w := smoothing J ν g a b L lo hi S with hw
  set I : Nat → ℝ := fun i => ∫ x, (avg ν G m S t)^[i] φ x ∂μ with hI
  have hstep : ∀ i, i + 1 < n → |I (i + 1 + 1) - I (i + 1)| ≤ √t * (D * B * w * (√t * (1 / √((i : ℝ) + 1)))) := fun i hin => by
    have h1 : ((i + 1 : Nat) : ℝ) * t ≤ 2 := by
      refine le_trans (mul_le_mul_of_nonneg_right ?_ ht.le) hn.le
      exact_mod_cast hin.le
    have hv := T.iterate_varies h hφ hB hb (Nat.succ_pos i) h1
    rw [mul_assoc B, ← smoothing, ← hw] at hv
    have h2 := hk.step _ _ (by positivity) (hd.iterate hE (i + 1)) hv
    simp only [hI]
    rw [Function.iterate_succ_apply']
    refine h2.trans (le_of_eq ?_)
    have hi0 : 0 < √((i : ℝ) + 1) := Real.sqrt_pos.2 (by positivity)
    have hst0 : 0 < √t := Real.sqrt_pos.2 ht
    push_cast
    rw [Real.sqrt_mul (by positivity : (0 : ℝ) ≤ (i : ℝ) + 1) t]
    field_simp
    rw [Real.sq_sqrt ht.le]
  have hfirst : |I 1 - I 0| ≤ √t * (D * M) := by
    have h2 := hk.step _ _ hM hd hv
    refine (le_of_eq ?_).trans (h2.trans ?_)
    · simp only [hI, Function.iterate_one, Function.iterate_zero, id]
    · have := mul_le_mul_of_nonneg_right (mul_le_of_le_one_left (Real.sqrt_nonneg t) T.t_le) (mul_nonneg hM hD)
      linarith
  obtain ⟨N, rfl⟩ : ∃ N, n = N + 1 := ⟨n - 1, by have := hn.pos; omega⟩
  have e0 : I (N + 1) - I 0 = (∑ i ∈ Finset.range N, (I (i + 1 + 1) - I (i + 1))) + (I 1 - I 0) := by
    rw [← Finset.sum_range_sub, Finset.sum_range_succ']
  have hsum : |∑ i ∈ Finset.range N, (I (i + 1 + 1) - I (i + 1))| ≤ √t * (D * B * w * 3) := by
    refine (Finset.abs_sum_le_sum_abs _ _).trans ((Finset.sum_le_sum fun i hin => hstep i (by have := Finset.mem_range.1 hin; omega)).trans ?_)
    rw [← Finset.mul_sum, ← Finset.mul_sum, ← Finset.mul_sum]
    refine mul_le_mul_of_nonneg_left (mul_le_mul_of_nonneg_left ?_ (by positivity)) (Real.sqrt_nonneg _)
    have h1 := mul_le_mul_of_nonneg_left (sum_inv_sqrt N) (Real.sqrt_nonneg t)
    refine h1.trans ?_
    have h2 : √t * √N ≤ 3 / 2 := by
      rw [← Real.sqrt_mul ht.le]
      refine Real.sqrt_le_iff.2 ⟨by norm_num, ?_⟩
      have h3 := hn.le
      push_cast at h3
      nlinarith
    linarith
  have hgoal : |I (N + 1) - I 0| ≤ √t * (D * (M + 3 * B * w)) := by
    rw [e0]
    refine (abs_add_le _ _).trans ((add_le_add hsum hfirst).trans (le_of_eq ?_))
    ring
  exact hgoal

/-- A law that steps nearly preserve is near the stationary law. -/
theorem near [Nonempty J] (hn : UnitTime t n) {γ K w C r Γ : ℝ}
    (X : Mixes (ν.prod (gauss J)) (langevin G m (sig m S t) t) (size m) γ K w C (r ^ (1 / n : ℝ))) (hΓ : gap γ K w C = Γ)
    (hr0 : 1 / 2 ≤ r) (hr1 : r < 1) {π : Measure (J → ℝ)} [IsProbabilityMeasure π]
    (hinv : law (ν.prod (gauss J)) (langevin G m (sig m S t) t) π = π) (hVπ : Integrable (size m) π) (hπ : ∫ x, size m x ∂π ≤ K / (1 - γ))
    (hφ : Measurable φ) (hA : 0 ≤ A) (hb : ∀ x, |φ x| ≤ A * size m x) (hv : Varies 0 A φ) :
    |∫ x, φ x ∂μ - ∫ x, φ x ∂π| ≤ √t * (A * (D * (1 + 10 * Γ * smoothing J ν g a b L lo hi S) / (1 - r))) := by
  have hm := T.mass_pos h
  have hV := T.moves_size h
  have hE := T.moves_energy h
  have hD := hk.nonneg
  have hr : 0 < r := by linarith
  have hΓ0 : 0 ≤ Γ := by rw [← hΓ]; exact X.gap_nonneg
  have hw0 := hk.smoothing_nonneg T h
  have is : Integrable (size m) μ := (T.size_le_energy h hV.self_dom).integrable hk.int
  set e := ∫ x, φ x ∂π
  have hdom := size_dom hφ hA hb
  have hdE := T.size_le_energy h hdom
  have hsm : ∀ {B : ℝ} {χ : (J → ℝ) → ℝ}, Measurable χ → 0 ≤ B → (∀ x, |χ x| ≤ B * size m x) →
      Varies 0 (B * smoothing J ν g a b L lo hi S) ((avg ν G m S t)^[n] χ) := fun {B χ} hχ hB hb => by
    have h1 := T.iterate_varies h hχ hB hb hn.pos hn.le
    rw [mul_assoc, ← smoothing] at h1
    refine h1.mono ?_
    have h2 : 1 ≤ √((n : ℝ) * t) := Real.one_le_sqrt.2 hn.ge
    exact div_le_self (by positivity) h2
  set w' := smoothing J ν g a b L lo hi S with hw
  set ψ : Nat → (J → ℝ) → ℝ := fun i x => (avg ν G m S t)^[n * i] φ x + -e * 1 with hψ
  have mψ : ∀ i, Measurable (ψ i) := fun i => ((hdom.iterate hV (n * i)).1).add_const _
  have bψ : ∀ i x, |ψ i x| ≤ 2 * A * Γ * r ^ i * size m x := fun i x => by
    have h1 := X.geometric hinv hVπ hπ hφ hA (fun x => (hb x).trans (mul_le_mul_of_nonneg_left (by linarith) hA)) (n * i) x
    rw [hΓ, root_pow hr.le hn.pos] at h1
    have h2 := one_le_size hm x
    have e1 : ψ i x = (push (ν.prod (gauss J)) (langevin G m (sig m S t) t))^[n * i] φ x - ∫ y, φ y ∂π := by
      simp only [hψ]; ring
    rw [e1]
    refine h1.trans ?_
    have h3 : A * Γ * (1 + size m x) ≤ A * Γ * (2 * size m x) := mul_le_mul_of_nonneg_left (by linarith) (by positivity)
    have h4 := mul_le_mul_of_nonneg_right h3 (pow_nonneg hr.le i)
    linarith
  have sψ : ∀ i, (avg ν G m S t)^[n] (ψ i) = ψ (i + 1) := fun i => by
    simp only [hψ]
    rw [T.iterate_add_const h (hdE.iterate hE (n * i)) (T.const_dom h 1), T.iterate_const h]
    funext x
    rw [← Function.iterate_add_apply, show n + n * i = n * (i + 1) by ring]
  have vψ : ∀ i, Varies 0 (A * r ^ i * (1 + 4 * Γ * w')) (ψ i) := fun i => by
    cases i with
    | zero =>
      have : ψ 0 = fun x => φ x + -e := by
        funext x
        simp only [hψ, Nat.mul_zero, Function.iterate_zero, id, mul_one]
      rw [this, pow_zero, mul_one]
      refine (hv.add_const _).mono ?_
      have : 0 ≤ A * (4 * Γ * w') := by positivity
      linarith
    | succ i =>
      have h1 := hsm (mψ i) (by positivity) (bψ i)
      rw [sψ] at h1
      refine h1.mono ?_
      rw [pow_succ]
      have h2 : 0 ≤ A * (r ^ i * r) := by positivity
      have h3 := mul_le_mul_of_nonneg_left hr0 (by positivity : 0 ≤ 4 * A * Γ * r ^ i * w')
      linarith
  have iψ : ∀ i, Integrable (ψ i) μ := fun i => (is.const_mul _).mono' (mψ i).aestronglyMeasurable (.of_forall fun x => bψ i x)
  have hst : ∀ i, |∫ x, ψ (i + 1) x ∂μ - ∫ x, ψ i x ∂μ| ≤ √t * (A * (D * (1 + 10 * Γ * w'))) * r ^ i := fun i => by
    have h1 := hk.block T h hn (mψ i) (B := 2 * A * Γ * r ^ i) (by positivity) (bψ i) (by positivity) (vψ i)
    rw [sψ] at h1
    refine h1.trans (le_of_eq ?_)
    rw [← hw]
    ring
  have h1r : 0 < 1 - r := by linarith
  have hsum : ∀ N, |∫ x, ψ N x ∂μ - ∫ x, ψ 0 x ∂μ| ≤ √t * (A * (D * (1 + 10 * Γ * w') / (1 - r))) := fun N => by
    rw [← Finset.sum_range_sub (fun i => ∫ x, ψ i x ∂μ)]
    refine (Finset.abs_sum_le_sum_abs _ _).trans ((Finset.sum_le_sum fun i _ => hst i).trans ?_)
    rw [← Finset.mul_sum]
    have h1 : ∑ i ∈ Finset.range N, r ^ i ≤ (1 - r)⁻¹ :=
      sum_le_hasSum _ (fun n _ => pow_nonneg hr.le n) (hasSum_geometric_of_lt_one hr.le hr1)
    have h2 := mul_le_mul_of_nonneg_left h1 (by positivity : 0 ≤ √t * (A * (D * (1 + 10 * Γ * w'))))
    refine h2.trans (le_of_eq ?_)
    rw [div_eq_mul_inv]
    ring
  have hlast : ∀ N, |∫ x, ψ N x ∂μ| ≤ 2 * A * Γ * (∫ x, size m x ∂μ) * r ^ N := fun N => by
    have h1 := norm_integral_le_of_norm_le (is.const_mul (2 * A * Γ * r ^ N)) (f := ψ N) (.of_forall fun x => bψ N x)
    rw [integral_const_mul, Real.norm_eq_abs] at h1
    refine h1.trans (le_of_eq ?_)
    ring
  have e0 : ∫ x, ψ 0 x ∂μ = ∫ x, φ x ∂μ - e := by
    have i0 : Integrable φ μ := hdE.integrable hk.int
    have : ψ 0 = fun x => φ x - e := by
      funext x
      simp only [hψ, Nat.mul_zero, Function.iterate_zero, id]
      ring
    rw [this, integral_sub i0 (integrable_const _)]
    simp
  rw [← e0]
  have hlim : Tendsto (fun N : Nat => √t * (A * (D * (1 + 10 * Γ * w') / (1 - r))) + 2 * A * Γ * (∫ x, size m x ∂μ) * r ^ N) atTop
      (𝓝 (√t * (A * (D * (1 + 10 * Γ * w') / (1 - r))) + 2 * A * Γ * (∫ x, size m x ∂μ) * 0)) :=
    ((tendsto_pow_atTop_nhds_zero_of_lt_one hr.le hr1).const_mul _).const_add _
  rw [mul_zero, add_zero] at hlim
  refine ge_of_tendsto' hlim fun N => ?_
  have h1 := hsum N
  have h2 := hlast N
  rw [abs_le] at h1 h2 ⊢
  constructor <;> linarith [h1.1, h1.2, h2.1, h2.2]

end Kept

end PySGMCMC.Harris
