import Verif.Props.Invariance
import Verif.Lemmas.MixedPoly
import Verif.Lemmas.GaussLaw

/-!
# C103 for gradients of polynomial growth

The gradient of the cost of a deep network is not Lipschitz continuous; it and its local Lipschitz constants grow polynomially.
-/

namespace PySGMCMC.Invariance
open MeasureTheory Recipe

section moments
variable {J : Type} [Fintype J]

/-- All moments exist. -/
def Moments (μ : Measure (J → ℝ)) : Prop := ∀ n : ℕ, Integrable (fun x => ‖x‖ ^ n) μ

theorem one_add_pow_le (t : ℝ) (ht : 0 ≤ t) (n : ℕ) : (1 + t) ^ n ≤ 2 ^ n * (1 + t ^ n) := by
  rcases le_total t 1 with h | h
  · calc (1 + t) ^ n ≤ 2 ^ n := pow_le_pow_left₀ (by positivity) (by linarith) n
      _ = 2 ^ n * 1 := (mul_one _).symm
      _ ≤ _ := by gcongr; have := pow_nonneg ht n; linarith
  · calc (1 + t) ^ n ≤ (2 * t) ^ n := pow_le_pow_left₀ (by positivity) (by linarith) n
      _ = 2 ^ n * t ^ n := mul_pow _ _ _
      _ ≤ _ := by gcongr; linarith

theorem Moments.one_add {μ : Measure (J → ℝ)} [IsFiniteMeasure μ] (h : Moments μ) (n : ℕ) : Integrable (fun x => (1 + ‖x‖) ^ n) μ := by
  refine (((integrable_const (1 : ℝ)).add (h n)).const_mul (2 ^ n)).mono' ?_ (.of_forall fun x => ?_)
  · have : Measurable fun x : J → ℝ => 1 + ‖x‖ := measurable_const.add measurable_norm
    exact (this.pow_const n).aestronglyMeasurable
  · rw [norm_pow, Real.norm_of_nonneg (by positivity : (0 : ℝ) ≤ 1 + ‖x‖)]
    exact one_add_pow_le _ (norm_nonneg x) n

/-- Standard normal draws have all moments. -/
theorem moments_gauss : Moments (Measure.pi fun _ : J => ProbabilityTheory.gaussianReal 0 1) := fun n => by
  have h1 : ∀ j : J, Integrable (fun z : J → ℝ => |z j| ^ n) (Measure.pi fun _ : J => ProbabilityTheory.gaussianReal 0 1) := fun j => by
    have h : Integrable (fun t : ℝ => |t| ^ n) (ProbabilityTheory.gaussianReal 0 1) := by
      have := (ProbabilityTheory.memLp_id_gaussianReal (μ := 0) (v := 1) (n : NNReal)).integrable_norm_pow'
      simpa using this
    exact integrable_comp_eval (μ := fun _ : J => ProbabilityTheory.gaussianReal 0 1) (i := j) h
  refine ((integrable_const (1 : ℝ)).add (integrable_finsetSum Finset.univ fun j _ => h1 j)).mono' (measurable_norm.pow_const n).aestronglyMeasurable
    (.of_forall fun z => ?_)
  rw [norm_pow, norm_norm]
  simp only [Pi.add_apply]
  have h0 : ∀ j, 0 ≤ |z j| ^ n := fun j => by positivity
  by_cases hJ : Nonempty J
  · obtain ⟨j, hj⟩ := (Finite.exists_max fun j => |z j|)
    have e : ‖z‖ ≤ |z j| := (pi_norm_le_iff_of_nonneg (abs_nonneg _)).2 hj
    have e2 := Finset.single_le_sum (f := fun j => |z j| ^ n) (fun j _ => h0 j) (Finset.mem_univ j)
    have e3 := pow_le_pow_left₀ (norm_nonneg z) e n
    linarith
  · have : IsEmpty J := not_nonempty_iff.1 hJ
    have e : ‖z‖ = 0 := by rw [Subsingleton.elim z 0, norm_zero]
    rw [e]
    have := Finset.sum_nonneg (s := Finset.univ) fun j (_ : j ∈ Finset.univ) => h0 j
    have := pow_le_one₀ (n := n) (le_refl (0 : ℝ)) zero_le_one
    linarith

end moments

variable {P : Type} [Fintype P] [DecidableEq P] {ι : P → Type} [∀ i, Fintype (ι i)] [∀ i, DecidableEq (ι i)]

/-- `γ β` is the gradient on mini-batch `β`, of polynomial growth; on average it is the gradient of `U`. -/
structure BatchPoly {J : Type} [Fintype J] [DecidableEq J] {Bt : Type} [MeasurableSpace Bt] (ν : Measure Bt) (U : (J → ℝ) → ℝ)
    (γ : Bt → (J → ℝ) → J → ℝ) (A : ℝ) (k : ℕ) : Prop where
  meas : Measurable fun y : (J → ℝ) × Bt => γ y.2 y.1
  nonneg : 0 ≤ A
  poly : ∀ β, Mixed.PolyGrad (γ β) A k
  mean : ∀ x j, ∫ β, γ β x j ∂ν = partialD U j x

variable {Bt : Type} [MeasurableSpace Bt]

/-- **C103** for gradients of polynomial growth: one session run of SGLD after burn-in leaves `exp (-(scale + 3e-16) U)` invariant up to
`K ε√ε`, if that density and the normal draws have all moments. -/
theorem C103_sgld_polynomial (U : (Elem ι → ℝ) → ℝ) (hU : ContDiff ℝ 1 U) (a scale c₀ : ℝ) (ha : 0 ≤ a) (hs : 0 < scale)
    (m : Elem ι → ℝ) (hm : ∀ j, 0 ≤ m j) (ν : Measure Bt) [IsProbabilityMeasure ν] (γ : Bt → (Elem ι → ℝ) → Elem ι → ℝ) (A : ℝ) (k : ℕ)
    (hγ : BatchPoly ν U γ A k) (N : Measure (Elem ι → ℝ)) (hN : UnitNoise N) (mN : Moments N)
    (π : Measure (Elem ι → ℝ)) (hπ : π = boltz fun x => (scale + 3e-16) * U x + c₀) [IsFiniteMeasure π] (mπ : Moments π)
    (f : (Elem ι → ℝ) → ℝ) (hf : ContDiff ℝ 3 f) (hc : HasCompactSupport f) :
    ∃ K, ∀ ε, 0 ≤ ε → ∀ (σ : SGLD.Schedule P) (inp : Bt → (Elem ι → ℝ) → SGLD.Inputs ι)
      (s : ((Elem ι → ℝ) × Bt) × (Elem ι → ℝ) → SGLD.State ι),
      (∀ β z, SgldInputs ε a scale m γ β z (inp β z)) →
      (∀ q i, ((s q).par i).vec = fins q.1.1 i ∧ ((s q).par i).param = fins q.1.1 i) →
      ∃ X : ((Elem ι → ℝ) × Bt) × (Elem ι → ℝ) → Elem ι → ℝ, Measurable X ∧
        (∀ q, (SGLD.run (inp q.1.2 q.2) σ (s q)).params = fins (X q)) ∧
        |∫ q, f (X q) ∂((π.prod ν).prod N) - ∫ x, f x ∂π| ≤ K * (ε * √ε) := by
  subst hπ
  have := hN.prob
  set S : Elem ι → ℝ := fun j => √(2 * m j * a / (scale + 3e-16)) with hS
  set c : Elem ι → ℝ := fun j => -(m j * a) with hcdef
  have hs' : 0 < scale + 3e-16 := by positivity
  have hS2 : ∀ j, S j ^ 2 = 2 * m j * a / (scale + 3e-16) := fun j => by
    have := hm j
    rw [hS]; exact Real.sq_sqrt (by positivity)
  have hH : ContDiff ℝ 1 fun x => (scale + 3e-16) * U x + c₀ := (contDiff_const.mul hU).add contDiff_const
  have hpd : ∀ j x, partialD (fun x => (scale + 3e-16) * U x + c₀) j x = (scale + 3e-16) * partialD U j x := fun j x => by
    have h := ((hU.differentiable (by norm_num) x).hasFDerivAt.const_mul (scale + 3e-16)).add_const c₀
    unfold partialD
    rw [h.fderiv]
    simp
  let B : (Elem ι → ℝ) × Bt → Elem ι → ℝ := fun y j => c j * γ y.2 y.1 j
  have hBm : Measurable B := measurable_pi_iff.2 fun j => (show Measurable fun y : (Elem ι → ℝ) × Bt => γ y.2 y.1 j from
    (measurable_pi_apply j).comp hγ.meas).const_mul (c j)
  have hBn : ∀ y, ‖B y‖ ≤ ‖c‖ * ‖γ y.2 y.1‖ := fun y => norm_mul_le c (γ y.2 y.1)
  have hA := hγ.nonneg
  have hB3 : Integrable (fun y => ‖B y‖ ^ 3) ((boltz fun x => (scale + 3e-16) * U x + c₀).prod ν) := by
    refine (((mπ.one_add (k * 3)).comp_fst ν).const_mul ((‖c‖ * A) ^ 3)).mono' (hBm.norm.pow_const 3).aestronglyMeasurable (.of_forall fun y => ?_)
    rw [norm_pow, norm_norm, pow_mul, ← mul_pow]
    refine pow_le_pow_left₀ (norm_nonneg _) ((hBn y).trans ?_) 3
    rw [mul_assoc]
    exact mul_le_mul_of_nonneg_left ((hγ.poly y.2).growth y.1) (norm_nonneg c)
  have hmean : ∀ x j, ∫ β, B (x, β) j ∂ν = -(S j ^ 2 / 2 * partialD (fun x => (scale + 3e-16) * U x + c₀) j x
      + ∑ k, (0 : Elem ι → Elem ι → ℝ) j k * partialD (fun x => (scale + 3e-16) * U x + c₀) k x) := fun x j => by
    simp only [B]
    rw [integral_const_mul, hγ.mean, hpd, hS2]
    simp only [Pi.zero_apply, zero_mul, Finset.sum_const_zero, hcdef]
    field_simp
    ring
  obtain ⟨C, p, hC, hmix⟩ := Mixed.mixed_poly (P := P) A hA k c
  let R : ((Elem ι → ℝ) × Bt) × (Elem ι → ℝ) → ℝ := fun q => C * (1 + ‖q.1.1‖ + ‖S * q.2‖) ^ p
  have hR : Integrable R (((boltz fun x => (scale + 3e-16) * U x + c₀).prod ν).prod N) := by
    have h1 := ((mπ.one_add p).comp_fst ν).mul_prod ((mN.one_add p).const_mul ((1 + ‖S‖) ^ p))
    refine (h1.const_mul C).mono' ?_ (.of_forall fun q => ?_)
    · have m1 : Measurable fun q : ((Elem ι → ℝ) × Bt) × (Elem ι → ℝ) => ‖q.1.1‖ := measurable_norm.comp (measurable_fst.comp measurable_fst)
      have m2 : Measurable fun q : ((Elem ι → ℝ) × Bt) × (Elem ι → ℝ) => ‖S * q.2‖ :=
        measurable_norm.comp ((hN.kick S).meas.comp measurable_snd)
      exact ((((measurable_const.add m1).add m2).pow_const p).const_mul C).aestronglyMeasurable
    · have h0 : 0 ≤ 1 + ‖q.1.1‖ + ‖S * q.2‖ := by positivity
      rw [Real.norm_of_nonneg (by positivity)]
      refine mul_le_mul_of_nonneg_left ?_ hC
      rw [← mul_pow, ← mul_pow]
      refine pow_le_pow_left₀ h0 ?_ p
      have e1 := norm_mul_le S q.2
      have := norm_nonneg S
      have := norm_nonneg q.1.1
      have := norm_nonneg q.2
      have h2 : 1 + ‖S * q.2‖ ≤ (1 + ‖S‖) * (1 + ‖q.2‖) := by nlinarith
      have h3 : 1 ≤ (1 + ‖S‖) * (1 + ‖q.2‖) := by nlinarith [norm_nonneg (S * q.2)]
      nlinarith
  obtain ⟨K, hK⟩ := one_step' hH ν (hN.kick S) 0 (by simp) B hBm hB3 hmean R hR 1 one_pos hf hc
  refine ⟨K, fun ε h0 σ inp s hinp hst => ?_⟩
  obtain ⟨isNew, rank, X, hrank, hXm, hX, hXeq⟩ := sgld_step ε a scale h0 hs m hm γ hγ.meas σ inp s hinp hst
  refine ⟨X, hXm, hX, hK ε h0 X hXm.aemeasurable fun _ h1 q => ?_⟩
  exact hmix (γ q.1.2) (hγ.poly q.1.2) isNew rank hrank Sigma.fst q.1.1 (X q) (S * q.2) ε h0 h1 (hXeq q)

end PySGMCMC.Invariance
