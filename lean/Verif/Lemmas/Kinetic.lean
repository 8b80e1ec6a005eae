import Verif.Lemmas.Separable

/-!
# Dynamics with momenta

Positions `x (inl i)` and momenta `x (inr i)`, energy `G(position) + ∑ T_i(momentum_i)`.
-/

open MeasureTheory

namespace PySGMCMC.Recipe

variable {I : Type*} [Fintype I] [DecidableEq I]

/-- The energy. -/
def energy (G : (I → ℝ) → ℝ) (T : I → ℝ → ℝ) (c₀ : ℝ) (x : I ⊕ I → ℝ) : ℝ := G (fun i => x (.inl i)) + ∑ i, T i (x (.inr i)) + c₀

theorem energy_fderiv {G : (I → ℝ) → ℝ} (hG : ContDiff ℝ 1 G) {T T' : I → ℝ → ℝ} (hT : ∀ i t, HasDerivAt (T i) (T' i t) t) (c₀ : ℝ) (x : I ⊕ I → ℝ) :
    HasFDerivAt (energy G T c₀) ((fderiv ℝ G fun i => x (.inl i)).comp (ContinuousLinearMap.pi fun i => ContinuousLinearMap.proj (.inl i))
      + ∑ i, T' i (x (.inr i)) • (ContinuousLinearMap.proj (.inr i) : (I ⊕ I → ℝ) →L[ℝ] ℝ)) x := by
  have h1 : HasFDerivAt (fun (x : I ⊕ I → ℝ) (i : I) => x (.inl i))
      (ContinuousLinearMap.pi fun i => (ContinuousLinearMap.proj (.inl i) : (I ⊕ I → ℝ) →L[ℝ] ℝ)) x :=
    hasFDerivAt_pi.2 fun i => hasFDerivAt_apply (Sum.inl i) x
  have h2 : HasFDerivAt G (fderiv ℝ G fun i => x (.inl i)) fun i => x (.inl i) := (hG.differentiable (by norm_num) _).hasFDerivAt
  have h3 : ∀ i, HasFDerivAt (fun x : I ⊕ I → ℝ => T i (x (.inr i)))
      (T' i (x (.inr i)) • (ContinuousLinearMap.proj (.inr i) : (I ⊕ I → ℝ) →L[ℝ] ℝ)) x := fun i =>
    (hT i (x (.inr i))).comp_hasFDerivAt x (hasFDerivAt_apply (.inr i) x)
  exact ((HasFDerivAt.comp x h2 h1).add (HasFDerivAt.fun_sum (u := Finset.univ) fun i _ => h3 i)).add_const c₀

theorem energy_pos {G : (I → ℝ) → ℝ} (hG : ContDiff ℝ 1 G) {T T' : I → ℝ → ℝ} (hT : ∀ i t, HasDerivAt (T i) (T' i t) t) (c₀ : ℝ) (x : I ⊕ I → ℝ)
    (i : I) : partialD (energy G T c₀) (.inl i) x = partialD G i fun i => x (.inl i) := by
  unfold partialD
  rw [(energy_fderiv hG hT c₀ x).fderiv]
  rw [add_apply, sum_apply, ContinuousLinearMap.comp_apply]
  have e : (ContinuousLinearMap.pi fun i => (ContinuousLinearMap.proj (.inl i) : (I ⊕ I → ℝ) →L[ℝ] ℝ)) (unit (.inl i)) = unit i := by
    funext j
    by_cases hj : j = i
    · subst hj; simp [unit]
    · simp [unit, hj]
  rw [e]
  simp [unit]

theorem energy_mom {G : (I → ℝ) → ℝ} (hG : ContDiff ℝ 1 G) {T T' : I → ℝ → ℝ} (hT : ∀ i t, HasDerivAt (T i) (T' i t) t) (c₀ : ℝ) (x : I ⊕ I → ℝ)
    (i : I) : partialD (energy G T c₀) (.inr i) x = T' i (x (.inr i)) := by
  unfold partialD
  rw [(energy_fderiv hG hT c₀ x).fderiv]
  rw [add_apply, sum_apply, ContinuousLinearMap.comp_apply]
  have e : (ContinuousLinearMap.pi fun i => (ContinuousLinearMap.proj (.inl i) : (I ⊕ I → ℝ) →L[ℝ] ℝ)) (unit (.inr i)) = 0 := by
    funext j; simp [unit]
  rw [e, map_zero, zero_add, Finset.sum_eq_single i]
  · simp [unit]
  · intro k _ hk; simp [unit, hk]
  · simp

theorem energy_smooth {G : (I → ℝ) → ℝ} (hG : ContDiff ℝ 1 G) {T T' : I → ℝ → ℝ} (hT : ∀ i t, HasDerivAt (T i) (T' i t) t)
    (hT' : ∀ i, Continuous (T' i)) (c₀ : ℝ) : ContDiff ℝ 1 (energy G T c₀) := by
  have hT1 : ∀ i, ContDiff ℝ 1 (T i) := fun i => contDiff_one_iff_deriv.2
    ⟨fun t => (hT i t).differentiableAt, by rw [show deriv (T i) = T' i from funext fun t => (hT i t).deriv]; exact hT' i⟩
  have h1 : ContDiff ℝ 1 fun (x : I ⊕ I → ℝ) (i : I) => x (.inl i) := contDiff_pi.2 fun i => contDiff_apply ℝ ℝ (Sum.inl i)
  have h2 : ∀ i, ContDiff ℝ 1 fun (x : I ⊕ I → ℝ) => T i (x (.inr i)) := fun i => (hT1 i).comp (contDiff_apply ℝ ℝ (Sum.inr i))
  exact ((hG.comp h1).add (ContDiff.sum fun i _ => h2 i)).add contDiff_const

/-- The kick acts on the momenta only. -/
theorem UnitNoise.kickMom {γ : Measure (I → ℝ)} (hγ : UnitNoise γ) (S : I → ℝ) :
    Kick γ (fun z => Sum.elim 0 (S * z) : (I → ℝ) → I ⊕ I → ℝ) (Sum.elim 0 S) := by
  have hk := hγ.kick S
  have hm : Measurable fun z : I → ℝ => (Sum.elim 0 (S * z) : I ⊕ I → ℝ) := measurable_pi_iff.2 fun j => by
    cases j with
    | inl i => exact measurable_const
    | inr i => exact (measurable_pi_apply i).comp hk.meas
  refine ⟨hm, fun j => ?_, fun j k => ?_, ?_⟩
  · cases j with
    | inl i => simp
    | inr i => exact hk.mean i
  · cases j with
    | inl i => simp
    | inr i =>
      cases k with
      | inl k => simp
      | inr k => simpa using hk.cov i k
  · refine hk.third.mono' (hm.norm.pow_const 3).aestronglyMeasurable (.of_forall fun z => ?_)
    rw [norm_pow, norm_norm]
    refine pow_le_pow_left₀ (norm_nonneg _) ((pi_norm_le_iff_of_nonneg (norm_nonneg _)).2 fun j => ?_) 3
    cases j with
    | inl i => simp
    | inr i => exact norm_le_pi_norm (S * z) i

variable {Bt : Type*} [MeasurableSpace Bt]

/-- The drift of dynamics with momenta: force `g`, velocity `A T'` and friction `S²/2`. -/
noncomputable def kineticDrift (T' : I → ℝ → ℝ) (A S : I → ℝ) (g : Bt → (I → ℝ) → I → ℝ) (y : (I ⊕ I → ℝ) × Bt) : I ⊕ I → ℝ :=
  Sum.elim (fun i => A i * T' i (y.1 (.inr i))) fun i => -g y.2 (fun i => y.1 (.inl i)) i - S i ^ 2 / 2 * T' i (y.1 (.inr i))

/-- Dynamics with momenta leave `exp (-energy)` invariant up to `K ε√ε`, if the force is `A ∇G` on average. -/
theorem kinetic_step {G : (I → ℝ) → ℝ} (hG : ContDiff ℝ 1 G) {T T' : I → ℝ → ℝ} (hT : ∀ i t, HasDerivAt (T i) (T' i t) t)
    (hT' : ∀ i, Continuous (T' i)) (c₀ : ℝ) [IsFiniteMeasure (boltz (energy G T c₀))] (ν : Measure Bt) [IsProbabilityMeasure ν]
    {γ : Measure (I → ℝ)} (hγ : UnitNoise γ) (A S : I → ℝ) (g : Bt → (I → ℝ) → I → ℝ)
    (hg : Measurable fun y : (I → ℝ) × Bt => g y.2 y.1) (hgi : ∀ θ i, Integrable (fun β => g β θ i) ν)
    (hmean : ∀ θ i, ∫ β, g β θ i ∂ν = A i * partialD G i θ)
    (h3 : Integrable (fun y => ‖kineticDrift T' A S g y‖ ^ 3) ((boltz (energy G T c₀)).prod ν))
    (R : ((I ⊕ I → ℝ) × Bt) × (I → ℝ) → ℝ) (hR : Integrable R (((boltz (energy G T c₀)).prod ν).prod γ)) (hR0 : ∀ q, 0 ≤ R q)
    (ε₀ : ℝ) (hε₀ : 0 < ε₀)
    {f : (I ⊕ I → ℝ) → ℝ} (hf : ContDiff ℝ 3 f) (hc : HasCompactSupport f) :
    ∃ K, ∀ ε, 0 ≤ ε → ∀ X : ((I ⊕ I → ℝ) × Bt) × (I → ℝ) → I ⊕ I → ℝ, AEMeasurable X (((boltz (energy G T c₀)).prod ν).prod γ) →
      (ε ≤ ε₀ → ε ≤ 1 → ∀ q,
        (∀ i, |X q (.inl i) - (q.1.1 (.inl i) + ε * (A i * T' i (q.1.1 (.inr i))))| ≤ ε * √ε * R q) ∧
        ∀ i, |X q (.inr i) - (q.1.1 (.inr i) + ε * (-g q.1.2 (fun i => q.1.1 (.inl i)) i - S i ^ 2 / 2 * T' i (q.1.1 (.inr i)))
          + √ε * (S i * q.2 i))| ≤ ε * √ε * R q) →
      |∫ q, f (X q) ∂(((boltz (energy G T c₀)).prod ν).prod γ) - ∫ x, f x ∂boltz (energy G T c₀)| ≤ K * (ε * √ε) := by
  have := hγ.prob
  let Q : I ⊕ I → I ⊕ I → ℝ := fun j k => match j, k with
    | .inl i, .inr k => if i = k then -A i else 0
    | .inr i, .inl k => if i = k then A i else 0
    | _, _ => 0
  have hQ : ∀ j k, Q j k = -Q k j := by
    rintro (j | j) (k | k) <;> simp only [Q, neg_zero]
    · by_cases h : j = k
      · subst h; simp
      · simp [h, Ne.symm h]
    · by_cases h : j = k
      · subst h; simp
      · simp [h, Ne.symm h]
  have hBm : Measurable (kineticDrift T' A S g : (I ⊕ I → ℝ) × Bt → I ⊕ I → ℝ) := by
    refine measurable_pi_iff.2 fun j => ?_
    have mp : ∀ i, Measurable fun y : (I ⊕ I → ℝ) × Bt => T' i (y.1 (.inr i)) := fun i =>
      (hT' i).measurable.comp ((measurable_pi_apply (Sum.inr i)).comp measurable_fst)
    have mθ : Measurable fun y : (I ⊕ I → ℝ) × Bt => ((fun i => y.1 (.inl i) : I → ℝ), y.2) :=
      (measurable_pi_iff.2 fun i => (measurable_pi_apply (Sum.inl i)).comp measurable_fst).prodMk measurable_snd
    cases j with
    | inl i => exact (mp i).const_mul (A i)
    | inr i => exact ((measurable_pi_apply i).comp (hg.comp mθ)).neg.sub ((mp i).const_mul _)
  have hm : ∀ x j, ∫ β, kineticDrift T' A S g (x, β) j ∂ν
      = -((Sum.elim 0 S : I ⊕ I → ℝ) j ^ 2 / 2 * partialD (energy G T c₀) j x + ∑ k, Q j k * partialD (energy G T c₀) k x) := by
    intro x j
    cases j with
    | inl i =>
      simp only [kineticDrift, Sum.elim_inl, integral_const, probReal_univ, one_smul, Fintype.sum_sum_type, Q, zero_mul,
        Finset.sum_const_zero, zero_add, Pi.zero_apply, ite_mul, Finset.sum_ite_eq, Finset.mem_univ, if_true, energy_mom hG hT]
      ring
    | inr i =>
      have e : ∫ β, kineticDrift T' A S g (x, β) (.inr i) ∂ν = -(A i * partialD G i fun i => x (.inl i)) - S i ^ 2 / 2 * T' i (x (.inr i)) := by
        simp only [kineticDrift, Sum.elim_inr]
        rw [integral_sub (f := fun β => -g β (fun i => x (.inl i)) i) (hgi _ i).neg (integrable_const _), integral_neg, hmean]
        simp
      rw [e]
      simp only [Sum.elim_inr, Fintype.sum_sum_type, Q, zero_mul, Finset.sum_const_zero, add_zero, ite_mul, Finset.sum_ite_eq,
        Finset.mem_univ, if_true, energy_mom hG hT, energy_pos hG hT]
      ring
  obtain ⟨K, hK⟩ := one_step' (energy_smooth hG hT hT' c₀) ν (hγ.kickMom S) Q hQ _ hBm h3 hm R hR ε₀ hε₀ hf hc
  refine ⟨K, fun ε h0 X hX hb => hK ε h0 X hX fun hle h1 q => ?_⟩
  obtain ⟨b1, b2⟩ := hb hle h1 q
  refine (pi_norm_le_iff_of_nonneg (mul_nonneg (mul_nonneg h0 (Real.sqrt_nonneg ε)) (hR0 q))).2 fun j => ?_
  cases j with
  | inl i =>
    refine le_of_eq_of_le ?_ (b1 i)
    rw [Real.norm_eq_abs]
    simp [kineticDrift]
  | inr i =>
    refine le_of_eq_of_le ?_ (b2 i)
    rw [Real.norm_eq_abs]
    simp only [kineticDrift, Pi.sub_apply, Pi.add_apply, Pi.smul_apply, smul_eq_mul, Sum.elim_inr, Pi.mul_apply]
    congr 1
    ring

end PySGMCMC.Recipe
