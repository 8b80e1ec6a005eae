import Verif.Lemmas.Langevin
import Mathlib.Analysis.InnerProductSpace.PiL2
import Mathlib.Probability.Independence.Basic
import Mathlib.Probability.Independence.Integration

/-!
# Markov chains that contract, and how far from a nearly invariant law they end
-/

open MeasureTheory InnerProductSpace ProbabilityTheory
namespace PySGMCMC.Langevin
set_option linter.unusedSectionVars false

variable {E : Type*} [NormedAddCommGroup E] [InnerProductSpace ℝ E] [FiniteDimensional ℝ E] [MeasurableSpace E] [BorelSpace E]
  {Z : Type*} [MeasurableSpace Z] {κ : Measure Z} [IsProbabilityMeasure κ] {Ψ : E → Z → E} {Ψ' : E → Z → E →L[ℝ] E} {ρ ℓ : ℝ}
  {A₁ A₂ : ℝ} {u : E → ℝ} {D : E → E →L[ℝ] ℝ}

/-- A random map whose derivative is at most `ρ` and `ℓ`-Lipschitz. -/
structure Step (κ : Measure Z) (Ψ : E → Z → E) (Ψ' : E → Z → E →L[ℝ] E) (ρ ℓ : ℝ) : Prop where
  deriv : ∀ x ζ, HasFDerivAt (fun x => Ψ x ζ) (Ψ' x ζ) x
  contr : ∀ x ζ, ‖Ψ' x ζ‖ ≤ ρ
  lip : ∀ x y ζ, ‖Ψ' x ζ - Ψ' y ζ‖ ≤ ℓ * ‖x - y‖
  nonneg : 0 ≤ ℓ
  meas : Measurable fun q : E × Z => Ψ q.1 q.2
  measD : ∀ x v, Measurable fun ζ => Ψ' x ζ v
  int : Integrable (fun ζ => ‖Ψ 0 ζ‖) κ

/-- What a function is on average after a step. -/
noncomputable def push (κ : Measure Z) (Ψ : E → Z → E) (u : E → ℝ) : E → ℝ := fun x => ∫ ζ, u (Ψ x ζ) ∂κ

namespace Step

theorem nonneg_rho (h : Step κ Ψ Ψ' ρ ℓ) : 0 ≤ ρ := by
  obtain ⟨ζ⟩ : Nonempty Z := by
    by_contra hne
    rw [not_nonempty_iff] at hne
    have : κ Set.univ = 1 := measure_univ
    rw [Set.univ_eq_empty_iff.2 hne, measure_empty] at this
    exact zero_ne_one this
  exact (norm_nonneg _).trans (h.contr 0 ζ)

theorem near (h : Step κ Ψ Ψ' ρ ℓ) (x y : E) (ζ : Z) : ‖Ψ x ζ - Ψ y ζ‖ ≤ ρ * ‖x - y‖ :=
  convex_univ.norm_image_sub_le_of_norm_hasFDerivWithin_le (f := fun x => Ψ x ζ) (f' := fun x => Ψ' x ζ) (C := ρ)
    (fun x _ => (h.deriv x ζ).hasFDerivWithinAt) (fun x _ => h.contr x ζ) (Set.mem_univ y) (Set.mem_univ x)

theorem growth (h : Step κ Ψ Ψ' ρ ℓ) (x : E) (ζ : Z) : ‖Ψ x ζ‖ ≤ ρ * ‖x‖ + ‖Ψ 0 ζ‖ := by
  have h1 := h.near x 0 ζ
  rw [sub_zero] at h1
  have h2 := norm_sub_norm_le (Ψ x ζ) (Ψ 0 ζ)
  linarith

theorem meas_at (h : Step κ Ψ Ψ' ρ ℓ) (x : E) : Measurable (Ψ x) := h.meas.comp (measurable_const.prodMk measurable_id)

theorem int_smooth (h : Step κ Ψ Ψ' ρ ℓ) (hu : Smooth A₁ A₂ u D) (x : E) : Integrable (fun ζ => u (Ψ x ζ)) κ := by
  refine ((integrable_const (|u 0| + A₁ * (ρ * ‖x‖))).add (h.int.const_mul A₁)).mono'
    (hu.continuous.measurable.comp (h.meas_at x)).aestronglyMeasurable (.of_forall fun ζ => ?_)
  have h1 := hu.growth (Ψ x ζ)
  have h2 := mul_le_mul_of_nonneg_left (h.growth x ζ) hu.nonneg
  simp only [Real.norm_eq_abs, Pi.add_apply]
  linarith

theorem comp_sum (l : E →L[ℝ] ℝ) : l = ∑ i, l (stdOrthonormalBasis ℝ E i) • innerSL ℝ (stdOrthonormalBasis ℝ E i) := by
  ext v
  conv_lhs => rw [← (stdOrthonormalBasis ℝ E).sum_repr v, map_sum]
  rw [sum_apply]
  refine Finset.sum_congr rfl fun i _ => ?_
  rw [map_smul, smul_apply, smul_eq_mul, smul_eq_mul, mul_comm, innerSL_apply_apply, OrthonormalBasis.repr_apply_apply]

theorem meas_deriv (h : Step κ Ψ Ψ' ρ ℓ) (hu : Smooth A₁ A₂ u D) (x : E) :
    AEStronglyMeasurable (fun ζ => (D (Ψ x ζ)).comp (Ψ' x ζ)) κ := by
  have e : (fun ζ => (D (Ψ x ζ)).comp (Ψ' x ζ))
      = fun ζ => ∑ i, (D (Ψ x ζ)) (Ψ' x ζ (stdOrthonormalBasis ℝ E i)) • innerSL ℝ (stdOrthonormalBasis ℝ E i) :=
    funext fun ζ => comp_sum _
  rw [e]
  refine Finset.aestronglyMeasurable_fun_sum _ fun i _ => ?_
  have hb : Continuous fun y : (E →L[ℝ] ℝ) × E => y.1 y.2 := isBoundedBilinearMap_apply.continuous
  have : Measurable fun ζ => (D (Ψ x ζ)) (Ψ' x ζ (stdOrthonormalBasis ℝ E i)) :=
    hb.measurable.comp ((hu.continuous_deriv.measurable.comp (h.meas_at x)).prodMk (h.measD x _))
  exact this.aestronglyMeasurable.smul_const _

theorem deriv_le (h : Step κ Ψ Ψ' ρ ℓ) (hu : Smooth A₁ A₂ u D) (x : E) (ζ : Z) : ‖(D (Ψ x ζ)).comp (Ψ' x ζ)‖ ≤ ρ * A₁ :=
  ((D (Ψ x ζ)).opNorm_comp_le _).trans (by
    rw [mul_comm ρ]
    exact mul_le_mul (hu.bound _) (h.contr _ _) (norm_nonneg _) hu.nonneg)

theorem int_deriv (h : Step κ Ψ Ψ' ρ ℓ) (hu : Smooth A₁ A₂ u D) (x : E) : Integrable (fun ζ => (D (Ψ x ζ)).comp (Ψ' x ζ)) κ :=
  (integrable_const (ρ * A₁)).mono' (h.meas_deriv hu x) (.of_forall fun ζ => h.deriv_le hu x ζ)

/-- A step makes functions flatter. -/
theorem smooth (h : Step κ Ψ Ψ' ρ ℓ) (hu : Smooth A₁ A₂ u D) (hA : 0 ≤ A₂) :
    Smooth (ρ * A₁) (ρ ^ 2 * A₂ + ℓ * A₁) (push κ Ψ u) fun x => ∫ ζ, (D (Ψ x ζ)).comp (Ψ' x ζ) ∂κ where
  deriv x := hasFDerivAt_integral_of_dominated_of_fderiv_le (bound := fun _ => ρ * A₁) (F := fun x ζ => u (Ψ x ζ))
    (F' := fun x ζ => (D (Ψ x ζ)).comp (Ψ' x ζ)) (Filter.univ_mem) (.of_forall fun _ => (h.int_smooth hu _).aestronglyMeasurable)
    (h.int_smooth hu x) (h.meas_deriv hu x) (.of_forall fun ζ x _ => h.deriv_le hu x ζ) (integrable_const _)
    (.of_forall fun ζ x _ => (hu.deriv (Ψ x ζ)).comp x (h.deriv x ζ))
  bound x := by
    refine (norm_integral_le_of_norm_le_const (.of_forall fun ζ => h.deriv_le hu x ζ)).trans (le_of_eq ?_)
    rw [probReal_univ, mul_one]
  lip x y := by
    rw [← integral_sub (h.int_deriv hu x) (h.int_deriv hu y)]
    refine (norm_integral_le_of_norm_le_const (C := (ρ ^ 2 * A₂ + ℓ * A₁) * ‖x - y‖) (.of_forall fun ζ => ?_)).trans (le_of_eq ?_)
    · have hρ := h.nonneg_rho
      have e : (D (Ψ x ζ)).comp (Ψ' x ζ) - (D (Ψ y ζ)).comp (Ψ' y ζ)
          = (D (Ψ x ζ) - D (Ψ y ζ)).comp (Ψ' x ζ) + (D (Ψ y ζ)).comp (Ψ' x ζ - Ψ' y ζ) := by
        ext v
        simp
      rw [e]
      refine (norm_add_le _ _).trans ?_
      have h1 : ‖(D (Ψ x ζ) - D (Ψ y ζ)).comp (Ψ' x ζ)‖ ≤ (A₂ * (ρ * ‖x - y‖)) * ρ :=
        (ContinuousLinearMap.opNorm_comp_le _ _).trans (mul_le_mul ((hu.lip _ _).trans (mul_le_mul_of_nonneg_left (h.near _ _ _) hA))
          (h.contr _ _) (norm_nonneg _) (by positivity))
      have h2 : ‖(D (Ψ y ζ)).comp (Ψ' x ζ - Ψ' y ζ)‖ ≤ A₁ * (ℓ * ‖x - y‖) :=
        (ContinuousLinearMap.opNorm_comp_le _ _).trans (mul_le_mul (hu.bound _) (h.lip _ _ _) (norm_nonneg _) hu.nonneg)
      linarith
    · rw [probReal_univ, mul_one]

end Step

/-- Constants of the second derivative after `k` steps. -/
def curv (ρ ℓ A₁ A₂ : ℝ) : Nat → ℝ
  | 0 => A₂
  | k + 1 => ρ * curv ρ ℓ A₁ A₂ k + ℓ * (ρ ^ k * A₁)

theorem curv_nonneg (hρ : 0 ≤ ρ) (hℓ : 0 ≤ ℓ) (h1 : 0 ≤ A₁) (h2 : 0 ≤ A₂) (k : Nat) : 0 ≤ curv ρ ℓ A₁ A₂ k := by
  induction k with
  | zero => exact h2
  | succ k ih => unfold curv; positivity

theorem geom_le_inv (hρ : 0 ≤ ρ) (h1 : ρ < 1) (k : Nat) : ∑ j ∈ Finset.range k, ρ ^ j ≤ 1 / (1 - ρ) := by
  rw [geom_sum_eq h1.ne, ← neg_div_neg_eq, neg_sub, neg_sub]
  have : 0 < 1 - ρ := by linarith
  gcongr
  linarith [pow_nonneg hρ k]

theorem curv_sum (hρ : 0 ≤ ρ) (hρ1 : ρ < 1) (hℓ : 0 ≤ ℓ) (h1 : 0 ≤ A₁) (h2 : 0 ≤ A₂) (k : Nat) :
    ∑ j ∈ Finset.range k, curv ρ ℓ A₁ A₂ j ≤ (A₂ + ℓ * A₁ / (1 - ρ)) / (1 - ρ) := by
  have h0 : 0 < 1 - ρ := by linarith
  induction k with
  | zero => simp only [Finset.range_zero, Finset.sum_empty]; positivity
  | succ k ih =>
    rw [Finset.sum_range_succ']
    simp only [curv]
    rw [Finset.sum_add_distrib, ← Finset.mul_sum, ← Finset.mul_sum, ← Finset.sum_mul]
    have hg := geom_le_inv hρ hρ1 k
    calc _ ≤ ρ * ((A₂ + ℓ * A₁ / (1 - ρ)) / (1 - ρ)) + ℓ * (1 / (1 - ρ) * A₁) + A₂ := by gcongr
      _ = _ := by field_simp; ring

namespace Step

theorem iterate (h : Step κ Ψ Ψ' ρ ℓ) (hρ : ρ ≤ 1) (hu : Smooth A₁ A₂ u D) (hA : 0 ≤ A₂) (k : Nat) :
    ∃ D', Smooth (ρ ^ k * A₁) (curv ρ ℓ A₁ A₂ k) ((push κ Ψ)^[k] u) D' := by
  have h0 := h.nonneg_rho
  induction k with
  | zero => exact ⟨D, by simpa [curv] using hu⟩
  | succ k ih =>
    obtain ⟨D', hD⟩ := ih
    have hc := curv_nonneg h0 h.nonneg hu.nonneg hA k
    have := h.smooth hD hc
    rw [Function.iterate_succ_apply']
    refine ⟨_, this.deriv, fun x => (this.bound x).trans (le_of_eq (by ring)), fun x y => (this.lip x y).trans ?_⟩
    refine mul_le_mul_of_nonneg_right ?_ (norm_nonneg _)
    simp only [curv]
    nlinarith [mul_nonneg h0 hc]

/-- If every step changes averages over `π` by little, then the chain ends near `π`, wherever it starts. -/
theorem close (h : Step κ Ψ Ψ' ρ ℓ) (hρ : ρ < 1) (hu : Smooth A₁ A₂ u D) (hA : 0 ≤ A₂) {π : Measure E} [IsProbabilityMeasure π]
    (hπ : Integrable (fun x => ‖x‖) π) {c₁ c₂ : ℝ} (h1 : 0 ≤ c₁) (h2 : 0 ≤ c₂)
    (hinv : ∀ {A₁ A₂ : ℝ} {u : E → ℝ} {D : E → E →L[ℝ] ℝ}, Smooth A₁ A₂ u D → 0 ≤ A₂ →
      |∫ x, push κ Ψ u x ∂π - ∫ x, u x ∂π| ≤ c₁ * A₁ + c₂ * A₂) (k : Nat) (x : E) :
    |(push κ Ψ)^[k] u x - ∫ y, u y ∂π|
      ≤ ρ ^ k * A₁ * ∫ y, ‖x - y‖ ∂π + (c₁ * A₁ + c₂ * (A₂ + ℓ * A₁ / (1 - ρ))) / (1 - ρ) := by
  have h0 := h.nonneg_rho
  have hs : ∀ {A₁ A₂ : ℝ} {u : E → ℝ} {D : E → E →L[ℝ] ℝ}, Smooth A₁ A₂ u D → Integrable u π := fun {A₁ A₂ u D} hu =>
    ((integrable_const |u 0|).add (hπ.const_mul A₁)).mono' hu.continuous.aestronglyMeasurable (.of_forall fun x => hu.growth x)
  obtain ⟨Dk, hk⟩ := h.iterate hρ.le hu hA k
  -- the start is forgotten
  have e1 : |(push κ Ψ)^[k] u x - ∫ y, (push κ Ψ)^[k] u y ∂π| ≤ ρ ^ k * A₁ * ∫ y, ‖x - y‖ ∂π := by
    have : (push κ Ψ)^[k] u x - ∫ y, (push κ Ψ)^[k] u y ∂π = ∫ y, ((push κ Ψ)^[k] u x - (push κ Ψ)^[k] u y) ∂π := by
      rw [integral_sub (integrable_const _) (hs hk)]
      simp
    rw [this, ← integral_const_mul]
    have hi : Integrable (fun y => ‖x - y‖) π := ((integrable_const ‖x‖).add hπ).mono'
      (continuous_const.sub continuous_id).norm.aestronglyMeasurable (.of_forall fun y => by
        rw [norm_norm]; exact norm_sub_le x y)
    exact abs_integral_le_integral_abs.trans (integral_mono_of_nonneg (.of_forall fun _ => abs_nonneg _) (hi.const_mul _)
      (.of_forall fun y => hk.lipschitz x y))
  -- averages over the target drift slowly
  have e2 : |∫ y, (push κ Ψ)^[k] u y ∂π - ∫ y, u y ∂π|
      ≤ ∑ j ∈ Finset.range k, (c₁ * (ρ ^ j * A₁) + c₂ * curv ρ ℓ A₁ A₂ j) := by
    clear e1 hk Dk
    induction k with
    | zero => simp
    | succ k ih =>
      obtain ⟨Dk, hk⟩ := h.iterate hρ.le hu hA k
      have := hinv hk (curv_nonneg h0 h.nonneg hu.nonneg hA k)
      rw [Finset.sum_range_succ, Function.iterate_succ_apply']
      have h3 := abs_add_le (∫ y, push κ Ψ ((push κ Ψ)^[k] u) y ∂π - ∫ y, (push κ Ψ)^[k] u y ∂π) (∫ y, (push κ Ψ)^[k] u y ∂π - ∫ y, u y ∂π)
      rw [sub_add_sub_cancel] at h3
      linarith
  have e3 : ∑ j ∈ Finset.range k, (c₁ * (ρ ^ j * A₁) + c₂ * curv ρ ℓ A₁ A₂ j)
      ≤ (c₁ * A₁ + c₂ * (A₂ + ℓ * A₁ / (1 - ρ))) / (1 - ρ) := by
    rw [Finset.sum_add_distrib, ← Finset.mul_sum, ← Finset.mul_sum, ← Finset.sum_mul]
    have hg := mul_le_mul_of_nonneg_left (mul_le_mul_of_nonneg_right (geom_le_inv h0 hρ k) hu.nonneg) h1
    have hc := mul_le_mul_of_nonneg_left (curv_sum h0 hρ h.nonneg hu.nonneg hA k) h2
    refine (add_le_add hg hc).trans (le_of_eq ?_)
    ring
  have := abs_add_le ((push κ Ψ)^[k] u x - ∫ y, (push κ Ψ)^[k] u y ∂π) (∫ y, (push κ Ψ)^[k] u y ∂π - ∫ y, u y ∂π)
  rw [sub_add_sub_cancel] at this
  linarith

end Step

/-! ## The chain -/

section chain
variable {Ω : Type*} [MeasurableSpace Ω] {P : Measure Ω} [IsProbabilityMeasure P] {ζ : Nat → Ω → Z}

/-- What is known before step `k`. -/
@[instance_reducible] def before (ζ : Nat → Ω → Z) (k : Nat) : MeasurableSpace Ω := ⨆ j ∈ Set.Iio k, MeasurableSpace.comap (ζ j) inferInstance

theorem chain_measurable (hΨ : Measurable fun q : E × Z => Ψ q.1 q.2) {X : Nat → Ω → E} {x₀ : E} (h0 : ∀ ω, X 0 ω = x₀)
    (hX : ∀ k ω, X (k + 1) ω = Ψ (X k ω) (ζ k ω)) (k : Nat) : Measurable[before ζ k] (X k) := by
  induction k with
  | zero =>
    rw [show X 0 = fun _ => x₀ from funext h0]
    exact measurable_const
  | succ k ih =>
    rw [show X (k + 1) = fun ω => Ψ (X k ω) (ζ k ω) from funext (hX k)]
    have hmono : before ζ k ≤ before ζ (k + 1) := biSup_mono fun j hj => by
      simp only [Set.mem_Iio] at *
      omega
    have hz : Measurable[before ζ (k + 1)] (ζ k) := by
      rw [measurable_iff_comap_le]
      exact le_biSup (fun j => MeasurableSpace.comap (ζ j) inferInstance) (show k ∈ Set.Iio (k + 1) from Nat.lt_succ_self k)
    exact hΨ.comp (Measurable.prodMk (ih.mono hmono le_rfl) hz)

theorem chain_indep (hζ : ∀ k, Measurable (ζ k)) (hi : iIndepFun ζ P) (k : Nat) {Y : Ω → E} (hY : Measurable[before ζ k] Y) :
    IndepFun Y (ζ k) P := by
  have h := indep_iSup_of_disjoint (m := fun j => MeasurableSpace.comap (ζ j) inferInstance) (μ := P)
    (fun j => (hζ j).comap_le) hi (S := Set.Iio k) (T := {k}) (by rw [Set.disjoint_singleton_right]; simp)
  rw [IndepFun_iff_Indep]
  refine indep_of_indep_of_le_left (indep_of_indep_of_le_right h ?_) ?_
  · simp
  · rw [← measurable_iff_comap_le]
    exact hY

/-- Averages along the chain. -/
theorem Step.chain (h : Step κ Ψ Ψ' ρ ℓ) (hζ : ∀ k, Measurable (ζ k)) (hi : iIndepFun ζ P) (hlaw : ∀ k, P.map (ζ k) = κ)
    {X : Nat → Ω → E} {x₀ : E} (h0 : ∀ ω, X 0 ω = x₀) (hX : ∀ k ω, X (k + 1) ω = Ψ (X k ω) (ζ k ω)) (k : Nat) :
    Measurable (X k) ∧ Integrable (fun ω => ‖X k ω‖) P ∧ ∀ {A₁ A₂ : ℝ} {u : E → ℝ} {D : E → E →L[ℝ] ℝ}, Smooth A₁ A₂ u D → 0 ≤ A₂ →
      ∫ ω, u (X k ω) ∂P = (push κ Ψ)^[k] u x₀ := by
  have hle : ∀ k, before ζ k ≤ ‹MeasurableSpace Ω› := fun k => iSup₂_le fun j _ => (hζ j).comap_le
  have hm : ∀ k, Measurable (X k) := fun k => (chain_measurable h.meas h0 hX k).mono (hle k) le_rfl
  refine ⟨hm k, ?_⟩
  induction k with
  | zero =>
    refine ⟨by simp [h0], fun {A₁ A₂ u D} hu _ => ?_⟩
    simp [h0]
  | succ k ih =>
    have hz : Integrable (fun ω => ‖Ψ 0 (ζ k ω)‖) P := by
      have := h.int
      rw [← hlaw k] at this
      exact this.comp_measurable (hζ k)
    have hint : Integrable (fun ω => ‖X (k + 1) ω‖) P := by
      refine ((ih.1.const_mul ρ).add hz).mono' (hm (k + 1)).norm.aestronglyMeasurable (.of_forall fun ω => ?_)
      rw [norm_norm, hX]
      exact h.growth _ _
    refine ⟨hint, fun {A₁ A₂ u D} hu hA => ?_⟩
    rw [Function.iterate_succ_apply, ← ih.2 (h.smooth hu hA) (by have := h.nonneg; have := hu.nonneg; positivity)]
    have hind := chain_indep hζ hi k (chain_measurable h.meas h0 hX k)
    have hmap := (indepFun_iff_map_prod_eq_prod_map_map (hm k).aemeasurable (hζ k).aemeasurable).1 hind
    have hq : Measurable fun q : E × Z => u (Ψ q.1 q.2) := hu.continuous.measurable.comp h.meas
    have hprod : Integrable (fun q : E × Z => u (Ψ q.1 q.2)) ((P.map (X k)).prod κ) := by
      rw [← hlaw k, ← hmap, integrable_map_measure hq.aestronglyMeasurable ((hm k).prodMk (hζ k)).aemeasurable]
      refine ((integrable_const |u 0|).add (hint.const_mul A₁)).mono' (hq.comp ((hm k).prodMk (hζ k))).aestronglyMeasurable
        (.of_forall fun ω => ?_)
      have := hu.growth (X (k + 1) ω)
      rw [hX] at this
      simpa [hX] using this
    have := Measure.isProbabilityMeasure_map (μ := P) (hm k).aemeasurable
    calc ∫ ω, u (X (k + 1) ω) ∂P = ∫ ω, u (Ψ (X k ω) (ζ k ω)) ∂P := by simp only [hX]
      _ = ∫ q : E × Z, u (Ψ q.1 q.2) ∂(P.map fun ω => (X k ω, ζ k ω)) :=
        (integral_map ((hm k).prodMk (hζ k)).aemeasurable hq.aestronglyMeasurable).symm
      _ = ∫ x, push κ Ψ u x ∂(P.map (X k)) := by
        rw [hmap, hlaw k, integral_prod _ hprod]
        rfl
      _ = ∫ ω, push κ Ψ u (X k ω) ∂P :=
        integral_map (hm k).aemeasurable (h.smooth hu hA).continuous.aestronglyMeasurable

end chain
end PySGMCMC.Langevin
