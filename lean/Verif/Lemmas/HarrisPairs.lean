import Verif.Lemmas.HarrisForgets
import Mathlib.Analysis.SpecialFunctions.Pow.Real

/-!
# Chains of which any two meet

Harris's theorem for several steps at once.  Instead of a common part of all steps it is enough that the laws of any two chains that start
where `V` is small are not too different after `n` steps.  Constants do not depend on `n`, so that they do not depend on the stepsize either
when `n` steps make up one unit of time.
-/

open MeasureTheory ProbabilityTheory Filter Topology
namespace PySGMCMC.Harris
set_option linter.unusedSectionVars false

variable {E : Type*} [MeasurableSpace E] {Z : Type*} [MeasurableSpace Z] {κ : Measure Z} [IsProbabilityMeasure κ] {Ψ : E → Z → E} {V : E → ℝ}
  {γ K R δ β M w C ρ γ' K' : ℝ} {φ : E → ℝ} {n : Nat}

/-- Laws of which each is part of the other. -/
theorem overlap {μ₁ μ₂ : Measure E} [IsProbabilityMeasure μ₁] [IsProbabilityMeasure μ₂] {B : ℝ} (hB : 1 ≤ B)
    (h : ∀ g : E → ℝ, Measurable g → (∀ z, 0 ≤ g z) → (∀ z, g z ≤ 1) → (∫ z, g z ∂μ₂) ^ 2 ≤ B * ∫ z, g z ^ 2 ∂μ₁)
    {g : E → ℝ} (hg : Measurable g) (hg1 : ∀ z, |g z| ≤ 1) :
    |∫ z, g z ∂μ₁ - ∫ z, g z ∂μ₂| ≤ 2 * (1 - 1 / (4 * B)) := by
  have hB0 : 0 < B := by linarith
  have key : ∀ p : E → ℝ, Measurable p → (∀ z, 0 ≤ p z) → (∀ z, p z ≤ 1) → ∫ z, p z ∂μ₂ - ∫ z, p z ∂μ₁ ≤ 1 - 1 / (4 * B) := by
    intro p hp h0 h1
    have hi : ∀ μ : Measure E, IsProbabilityMeasure μ → Integrable p μ := fun μ _ =>
      Integrable.of_bound hp.aestronglyMeasurable 1 (ae_of_all _ fun z => by rw [Real.norm_eq_abs, abs_of_nonneg (h0 z)]; exact h1 z)
    have hi2 : Integrable (fun z => p z ^ 2) μ₁ :=
      Integrable.of_bound (hp.pow_const 2).aestronglyMeasurable 1 (ae_of_all _ fun z => by
        rw [Real.norm_eq_abs, abs_of_nonneg (sq_nonneg _)]
        exact pow_le_one₀ (h0 z) (h1 z))
    have h2 := h p hp h0 h1
    have h3 : ∫ z, p z ^ 2 ∂μ₁ ≤ ∫ z, p z ∂μ₁ := integral_mono hi2 (hi μ₁ inferInstance) fun z => by
      have := h0 z; have := h1 z
      simp only
      nlinarith
    have h4 : ∫ z, p z ∂μ₂ ≤ 1 := by
      have := integral_mono (hi μ₂ inferInstance) (integrable_const (1 : ℝ)) h1
      simpa using this
    have h5 : 0 ≤ ∫ z, p z ∂μ₁ := integral_nonneg h0
    have h6 := h2.trans (mul_le_mul_of_nonneg_left h3 hB0.le)
    set x := ∫ z, p z ∂μ₁
    set y := ∫ z, p z ∂μ₂
    have hq : 1 / (4 * B) ≤ 1 / 2 := by
      rw [div_le_div_iff₀ (by positivity) (by norm_num)]
      linarith
    rcases le_total y (1 / 2) with hy | hy
    · linarith
    · have h7 : 1 / 4 ≤ B * x := by nlinarith
      have h8 : 1 / (4 * B) ≤ x := by
        rw [div_le_iff₀ (by positivity)]
        linarith
      linarith
  have hi : ∀ μ : Measure E, IsProbabilityMeasure μ → Integrable g μ := fun μ _ =>
    Integrable.of_bound hg.aestronglyMeasurable 1 (ae_of_all _ fun z => by rw [Real.norm_eq_abs]; exact hg1 z)
  have h1 := key (fun z => (1 + g z) / 2) ((hg.const_add 1).div_const 2) (fun z => by linarith [(abs_le.1 (hg1 z)).1])
    fun z => by linarith [(abs_le.1 (hg1 z)).2]
  have h2 := key (fun z => (1 - g z) / 2) ((measurable_const.sub hg).div_const 2) (fun z => by linarith [(abs_le.1 (hg1 z)).2])
    fun z => by linarith [(abs_le.1 (hg1 z)).1]
  have e1 : ∀ μ : Measure E, IsProbabilityMeasure μ → ∫ z, (1 + g z) / 2 ∂μ = (1 + ∫ z, g z ∂μ) / 2 := fun μ hμ => by
    rw [integral_div, integral_add (integrable_const 1) (hi μ hμ)]; simp
  have e2 : ∀ μ : Measure E, IsProbabilityMeasure μ → ∫ z, (1 - g z) / 2 ∂μ = (1 - ∫ z, g z ∂μ) / 2 := fun μ hμ => by
    rw [integral_div, integral_sub (integrable_const 1) (hi μ hμ)]; simp
  rw [e1 μ₁ inferInstance, e1 μ₂ inferInstance] at h1
  rw [e2 μ₁ inferInstance, e2 μ₂ inferInstance] at h2
  exact abs_le.2 ⟨by linarith, by linarith⟩

/-- Averages over laws that are not too different. -/
theorem pair_bound {μ₁ μ₂ : Measure E} [IsProbabilityMeasure μ₁] [IsProbabilityMeasure μ₂] (hV : Measurable V) (h0 : ∀ z, 0 ≤ V z)
    (h1 : Integrable V μ₁) (h2 : Integrable V μ₂) (hw : 0 ≤ w) (hM : 0 ≤ M) (hφ : Measurable φ) {c : ℝ} (hc : ∀ z, |φ z - c| ≤ M * (1 + w * V z))
    (hd : ∀ g : E → ℝ, Measurable g → (∀ z, |g z| ≤ 1) → |∫ z, g z ∂μ₁ - ∫ z, g z ∂μ₂| ≤ 2 * (1 - δ)) :
    ∫ z, φ z ∂μ₁ - ∫ z, φ z ∂μ₂ ≤ M * (2 + w * (∫ z, V z ∂μ₁ + ∫ z, V z ∂μ₂) - 2 * δ) := by
  set g : E → ℝ := fun z => max (-1) (min 1 ((φ z - c) / M)) with hg
  have mg : Measurable g := measurable_const.max (measurable_const.min ((hφ.sub_const c).div_const M))
  have hg1 : ∀ z, |g z| ≤ 1 := fun z => abs_le.2 ⟨le_max_left _ _, max_le (by norm_num) (min_le_left _ _)⟩
  have hdiff : ∀ z, |φ z - c - M * g z| ≤ M * (w * V z) := fun z => by
    have hz := hc z
    have hwV : 0 ≤ w * V z := mul_nonneg hw (h0 z)
    rcases hM.eq_or_lt with hM0 | hM0
    · rw [← hM0] at hz ⊢
      simpa using hz
    · set ψ := (φ z - c) / M with hψ
      have e : φ z - c = M * ψ := by rw [hψ, mul_div_cancel₀ _ hM0.ne']
      rw [e, abs_mul, abs_of_pos hM0] at hz
      have hz' := le_of_mul_le_mul_left hz hM0
      rw [e, ← mul_sub, abs_mul, abs_of_pos hM0]
      refine mul_le_mul_of_nonneg_left ?_ hM
      have hgz : g z = max (-1) (min 1 ψ) := rfl
      rw [hgz]
      have ha := abs_le.1 hz'
      rcases le_total ψ 1 with h | h
      · rw [min_eq_right h]
        rcases le_total (-1) ψ with h' | h'
        · rw [max_eq_right h', sub_self, abs_zero]; exact hwV
        · rw [max_eq_left h']
          exact abs_le.2 ⟨by linarith, by linarith⟩
      · rw [min_eq_left h, max_eq_right (by norm_num)]
        exact abs_le.2 ⟨by linarith, by linarith⟩
  have hiφ : ∀ μ : Measure E, IsProbabilityMeasure μ → Integrable V μ → Integrable φ μ := fun μ _ hVμ => by
    refine (((integrable_const (M + |c|)).add (hVμ.const_mul (M * w)))).mono' hφ.aestronglyMeasurable (ae_of_all _ fun z => ?_)
    have h3 := abs_add_le (φ z - c) c
    rw [sub_add_cancel] at h3
    simp only [Pi.add_apply, Real.norm_eq_abs]
    linarith [hc z]
  have hig : ∀ μ : Measure E, IsProbabilityMeasure μ → Integrable g μ := fun μ _ =>
    Integrable.of_bound mg.aestronglyMeasurable 1 (ae_of_all _ fun z => by rw [Real.norm_eq_abs]; exact hg1 z)
  have hpart : ∀ μ : Measure E, IsProbabilityMeasure μ → Integrable V μ →
      |∫ z, φ z ∂μ - c - M * ∫ z, g z ∂μ| ≤ M * (w * ∫ z, V z ∂μ) := fun μ hμ hVμ => by
    have i1 : Integrable (fun z => φ z - c) μ := (hiφ μ hμ hVμ).sub (integrable_const c)
    have e : ∫ z, φ z ∂μ - c - M * ∫ z, g z ∂μ = ∫ z, (φ z - c - M * g z) ∂μ := by
      rw [integral_sub i1 ((hig μ hμ).const_mul M), integral_sub (hiφ μ hμ hVμ) (integrable_const c),
        integral_const_mul]
      simp
    rw [e, ← integral_const_mul, ← integral_const_mul]
    exact abs_integral_le_integral_abs.trans (integral_mono (((hiφ μ hμ hVμ).sub (integrable_const c)).sub ((hig μ hμ).const_mul M)).abs
      ((hVμ.const_mul w).const_mul M) hdiff)
  have a1 := (abs_le.1 (hpart μ₁ inferInstance h1)).2
  have a2 := (abs_le.1 (hpart μ₂ inferInstance h2)).1
  have a3 := mul_le_mul_of_nonneg_left (abs_le.1 (hd g mg hg1)).2 hM
  linarith

/-- Laws of chains that start where `V` is small are not too different after `n` steps. -/
def Pairs (κ : Measure Z) (Ψ : E → Z → E) (V : E → ℝ) (n : Nat) (R δ : ℝ) : Prop :=
  ∀ x y, V x ≤ R → V y ≤ R → ∀ g : E → ℝ, Measurable g → (∀ z, |g z| ≤ 1) → |(push κ Ψ)^[n] g x - (push κ Ψ)^[n] g y| ≤ 2 * (1 - δ)

namespace Moves

theorem dirac_laws (h : Moves κ Ψ V γ K) (n : Nat) (x : E) (hφ : Dom V φ) :
    IsProbabilityMeasure ((law κ Ψ)^[n] (Measure.dirac x)) ∧ Integrable φ ((law κ Ψ)^[n] (Measure.dirac x)) ∧
      ∫ y, φ y ∂(law κ Ψ)^[n] (Measure.dirac x) = (push κ Ψ)^[n] φ x := by
  have hV0 : Integrable V (Measure.dirac x) := integrable_dirac' h.measV.stronglyMeasurable (by simp)
  obtain ⟨h1, h2, h3⟩ := h.laws hV0 n hφ
  refine ⟨h1, h2, h3.trans ?_⟩
  rw [integral_dirac' _ _ (h.iterate_measurable hφ.1 n).stronglyMeasurable]

theorem bounded_dom {g : E → ℝ} (hg : Measurable g) (hg1 : ∀ z, |g z| ≤ 1) : Dom V g := ⟨hg, 0, 1, le_rfl, fun x => by simpa using hg1 x⟩

/-- What is known of the drift of `n` steps. -/
structure Settles (γ K : ℝ) (n : Nat) (γ' K' R δ : ℝ) : Prop where
  pow : γ ^ n ≤ γ'
  lt : γ' < 1
  limit : K / (1 - γ) ≤ K'
  far : 2 * K' < (1 - γ') * R
  delta : 0 < δ
  one : δ ≤ 1

theorem many_le (h : Moves κ Ψ V γ K) (hK : K / (1 - γ) ≤ K') (n : Nat) (x : E) : (push κ Ψ)^[n] V x ≤ γ ^ n * V x + K' := by
  have h1 := h.bounded h.self_dom (fun _ => le_rfl) n x
  have h2 : 0 ≤ K / (1 - γ) := div_nonneg h.pos (by linarith [h.lt_one])
  have h3 := mul_nonneg (pow_nonneg h.gamma n) h2
  linarith

theorem contract_pairs (h : Moves κ Ψ V γ K) [Nonempty E] (hp : Pairs κ Ψ V n R δ) (hs : Settles γ K n γ' K' R δ) (hM : 0 ≤ M)
    (hφ : Measurable φ) (ho : Osc V (weight K' δ) M φ) : Osc V (weight K' δ) (rate γ' K' R δ * M) ((push κ Ψ)^[n] φ) := by
  have hK0 : 0 ≤ K' := (div_nonneg h.pos (by linarith [h.lt_one])).trans hs.limit
  have hδ := hs.delta
  have hw : 0 < weight K' δ := by unfold weight; positivity
  obtain ⟨c, hc⟩ := ho.center
  set w := weight K' δ with hwdef
  have hd : Dom V φ := ⟨hφ, M * w, M + |c|, by positivity, fun x => by
    have h1 := abs_add_le (φ x - c) c
    rw [sub_add_cancel] at h1
    linarith [hc x]⟩
  have hg0 : 0 ≤ γ' := (pow_nonneg h.gamma n).trans hs.pow
  have hR : 0 < R := by
    by_contra hR
    have h2 := hs.far
    have : (1 - γ') * R ≤ 0 := mul_nonpos_of_nonneg_of_nonpos (by linarith [hs.lt]) (by linarith)
    linarith
  have hV : ∀ x, (push κ Ψ)^[n] V x ≤ γ' * V x + K' := fun x => by
    have h1 := h.many_le hs.limit n x
    have h2 := mul_le_mul_of_nonneg_right hs.pow (h.nonneg x)
    linarith
  have hbase : ∀ x y d, (∀ g : E → ℝ, Measurable g → (∀ z, |g z| ≤ 1) → |(push κ Ψ)^[n] g x - (push κ Ψ)^[n] g y| ≤ 2 * (1 - d)) →
      (push κ Ψ)^[n] φ x - (push κ Ψ)^[n] φ y ≤ M * (2 + w * (γ' * (V x + V y) + 2 * K') - 2 * d) := fun x y d hd' => by
    obtain ⟨p1, i1, _⟩ := h.dirac_laws n x h.self_dom
    obtain ⟨p2, i2, _⟩ := h.dirac_laws n y h.self_dom
    have := pair_bound (δ := d) h.measV h.nonneg i1 i2 hw.le hM hφ hc fun g hg hg1 => by
      rw [(h.dirac_laws n x (bounded_dom hg hg1)).2.2, (h.dirac_laws n y (bounded_dom hg hg1)).2.2]
      exact hd' g hg hg1
    rw [(h.dirac_laws n x hd).2.2, (h.dirac_laws n y hd).2.2, (h.dirac_laws n x h.self_dom).2.2, (h.dirac_laws n y h.self_dom).2.2] at this
    refine this.trans (mul_le_mul_of_nonneg_left ?_ hM)
    have h3 := mul_le_mul_of_nonneg_left (add_le_add (hV x) (hV y)) hw.le
    linarith
  have one : ∀ x y, (push κ Ψ)^[n] φ x - (push κ Ψ)^[n] φ y ≤ rate γ' K' R δ * M * (2 + w * V x + w * V y) := fun x y => by
    have hx0 := h.nonneg x
    have hy0 := h.nonneg y
    rcases le_total R (V x + V y) with hR' | hR'
    · have h1 := hbase x y 0 fun g hg hg1 => by
        obtain ⟨p1, i1, e1⟩ := h.dirac_laws n x (bounded_dom (V := V) hg hg1)
        obtain ⟨p2, i2, e2⟩ := h.dirac_laws n y (bounded_dom (V := V) hg hg1)
        have b : ∀ μ : Measure E, IsProbabilityMeasure μ → |∫ z, g z ∂μ| ≤ 1 := fun μ _ => by
          have := norm_integral_le_of_norm_le_const (μ := μ) (C := 1) (ae_of_all _ fun z => by rw [Real.norm_eq_abs]; exact hg1 z)
          simpa using this
        rw [← e1, ← e2]
        refine (abs_sub _ _).trans ?_
        linarith [b _ p1, b _ p2]
      have h3 := large_arith hs.lt hK0 hw.le hR.le hR'
      have h4 : (1 - w * ((1 - γ') * R - 2 * K') / (2 + w * R)) * (2 + w * (V x + V y)) ≤ rate γ' K' R δ * (2 + w * (V x + V y)) :=
        mul_le_mul_of_nonneg_right (le_max_right _ _) (by positivity)
      have h5 := mul_le_mul_of_nonneg_left (h3.trans h4) hM
      linarith
    · have h1 := hbase x y δ (hp x y (by linarith) (by linarith))
      have h3 := small_arith (γ := γ') hK0 hs.delta (add_nonneg hx0 hy0)
      have h4 : max (1 - δ / 2) γ' * (2 + w * (V x + V y)) ≤ rate γ' K' R δ * (2 + w * (V x + V y)) :=
        mul_le_mul_of_nonneg_right (le_max_left _ _) (by positivity)
      have h5 := mul_le_mul_of_nonneg_left (h3.trans h4) hM
      linarith
  intro x y
  refine abs_le.2 ⟨?_, one x y⟩
  have := one y x
  linarith

theorem rate_bounds (hg0 : 0 ≤ γ') (hK0 : 0 ≤ K') (hs : Settles γ K n γ' K' R δ) : 1 / 2 ≤ rate γ' K' R δ ∧ rate γ' K' R δ < 1 := by
  have hδ := hs.delta
  have hw : 0 < weight K' δ := by unfold weight; positivity
  have hR : 0 < R := by
    by_contra hR
    have h2 := hs.far
    have : (1 - γ') * R ≤ 0 := mul_nonpos_of_nonneg_of_nonpos (by linarith [hs.lt]) (by linarith)
    linarith
  refine ⟨?_, max_lt (max_lt (by linarith) hs.lt) ?_⟩
  · exact le_trans (by linarith [hs.one]) ((le_max_left _ _).trans (le_max_left _ _))
  · have : 0 < weight K' δ * ((1 - γ') * R - 2 * K') / (2 + weight K' δ * R) := div_pos (mul_pos hw (by linarith [hs.far])) (by positivity)
    linarith

/-- `r` steps do not make differences much larger. -/
theorem osc_steps (h : Moves κ Ψ V γ K) [Nonempty E] (hK : K / (1 - γ) ≤ K') (hw : 0 ≤ w) (hM : 0 ≤ M) (hφ : Measurable φ) (ho : Osc V w M φ) (r : Nat) :
    Osc V w ((1 + w * K') * M) ((push κ Ψ)^[r] φ) := by
  have hK0 : 0 ≤ K' := (div_nonneg h.pos (by linarith [h.lt_one])).trans hK
  obtain ⟨c, hc⟩ := ho.center
  have hd : Dom V φ := ⟨hφ, M * w, M + |c|, by positivity, fun x => by
    have h1 := abs_add_le (φ x - c) c
    rw [sub_add_cancel] at h1
    linarith [hc x]⟩
  have hx : ∀ x, |(push κ Ψ)^[r] φ x - c| ≤ M * (1 + w * (V x + K')) := fun x => by
    obtain ⟨p, iφ, eφ⟩ := h.dirac_laws r x hd
    obtain ⟨_, iV, eV⟩ := h.dirac_laws r x h.self_dom
    have e : (push κ Ψ)^[r] φ x - c = ∫ y, (φ y - c) ∂(law κ Ψ)^[r] (Measure.dirac x) := by
      rw [integral_sub iφ (integrable_const c), eφ]; simp
    have iB : Integrable (fun y => M * (1 + w * V y)) ((law κ Ψ)^[r] (Measure.dirac x)) :=
      ((integrable_const 1).add (iV.const_mul w)).const_mul M
    have h1 : ∫ y, M * (1 + w * V y) ∂(law κ Ψ)^[r] (Measure.dirac x) = M * (1 + w * (push κ Ψ)^[r] V x) := by
      rw [integral_const_mul, integral_add (integrable_const 1) (iV.const_mul w), integral_const_mul, eV]; simp
    rw [e]
    refine abs_integral_le_integral_abs.trans ((integral_mono (iφ.sub (integrable_const c)).abs iB hc).trans ?_)
    rw [h1]
    refine mul_le_mul_of_nonneg_left ?_ hM
    have h2 := h.many_le hK r x
    have h3 : γ ^ r * V x ≤ 1 * V x := mul_le_mul_of_nonneg_right (pow_le_one₀ h.gamma h.lt_one.le) (h.nonneg x)
    have h4 := mul_le_mul_of_nonneg_left (h2.trans (by linarith : _ ≤ V x + K')) hw
    linarith
  intro x y
  have h1 := hx x
  have h2 := hx y
  rw [abs_sub_comm] at h2
  have h3 := abs_add_le ((push κ Ψ)^[r] φ x - c) (c - (push κ Ψ)^[r] φ y)
  rw [sub_add_sub_cancel] at h3
  have hwK : 0 ≤ w * K' := mul_nonneg hw hK0
  have h4 : 0 ≤ w * K' * (w * V x + w * V y) := mul_nonneg hwK (add_nonneg (mul_nonneg hw (h.nonneg x)) (mul_nonneg hw (h.nonneg y)))
  have h5 := mul_nonneg hM h4
  linarith

theorem contract_blocks (h : Moves κ Ψ V γ K) [Nonempty E] (hp : Pairs κ Ψ V n R δ) (hs : Settles γ K n γ' K' R δ) (hM : 0 ≤ M)
    (hφ : Measurable φ) (ho : Osc V (weight K' δ) M φ) (i : Nat) :
    Osc V (weight K' δ) (rate γ' K' R δ ^ i * M) ((push κ Ψ)^[n * i] φ) := by
  have hK0 : 0 ≤ K' := (div_nonneg h.pos (by linarith [h.lt_one])).trans hs.limit
  have hg0 : 0 ≤ γ' := (pow_nonneg h.gamma n).trans hs.pow
  have hr : 0 ≤ rate γ' K' R δ := by linarith [(rate_bounds hg0 hK0 hs).1]
  induction i with
  | zero => simpa using ho
  | succ i ih =>
    rw [show n * (i + 1) = n + n * i by ring, Function.iterate_add_apply, pow_succ', mul_assoc]
    exact h.contract_pairs hp hs (mul_nonneg (pow_nonneg hr i) hM) (h.iterate_measurable hφ _) ih

/-- The chain mixes: constants do not depend on the number of steps of a block. -/
theorem mixes_pairs (h : Moves κ Ψ V γ K) [Nonempty E] (hn : 0 < n) (hp : Pairs κ Ψ V n R δ) (hs : Settles γ K n γ' K' R δ) :
    Mixes κ Ψ V γ K (weight K' δ) (2 * (1 + weight K' δ * K')) (rate γ' K' R δ ^ (1 / n : ℝ)) := by
  have hK0 : 0 ≤ K' := (div_nonneg h.pos (by linarith [h.lt_one])).trans hs.limit
  have hg0 : 0 ≤ γ' := (pow_nonneg h.gamma n).trans hs.pow
  have hδ := hs.delta
  have hw : 0 < weight K' δ := by unfold weight; positivity
  obtain ⟨hr1, hr2⟩ := rate_bounds hg0 hK0 hs
  set r := rate γ' K' R δ with hr
  have hr0 : 0 < r := by linarith
  have hn' : (0 : ℝ) < n := by exact_mod_cast hn
  set ρ := r ^ (1 / n : ℝ) with hρ
  have hρ0 : 0 < ρ := Real.rpow_pos_of_pos hr0 _
  have hρ1 : ρ < 1 := Real.rpow_lt_one hr0.le hr2 (by positivity)
  have hρn : ρ ^ n = r := by
    rw [hρ, ← Real.rpow_natCast, ← Real.rpow_mul hr0.le, one_div_mul_cancel hn'.ne', Real.rpow_one]
  refine ⟨h, hw, by positivity, hρ0.le, hρ1, ?_⟩
  intro M φ hM hφ ho k
  have hk : k = n * (k / n) + k % n := (Nat.div_add_mod k n).symm
  have h1 := h.osc_steps hs.limit hw.le hM hφ ho (k % n)
  have h2 := h.contract_blocks hp hs (by positivity) (h.iterate_measurable hφ (k % n)) h1 (k / n)
  rw [← Function.iterate_add_apply, ← hk] at h2
  have h3 : r ^ (k / n) ≤ 2 * ρ ^ k := by
    have e : ρ ^ k = r ^ (k / n) * ρ ^ (k % n) := by
      conv_lhs => rw [hk]
      rw [pow_add, pow_mul, hρn]
    have h4 : r ≤ ρ ^ (k % n) := by
      rw [← hρn]
      exact pow_le_pow_of_le_one hρ0.le hρ1.le (Nat.mod_lt _ hn).le
    rw [e]
    have h5 := pow_pos hr0 (k / n)
    nlinarith
  intro x y
  refine (h2 x y).trans (mul_le_mul_of_nonneg_right ?_ ?_)
  · have h6 : 0 ≤ (1 + weight K' δ * K') * M := by positivity
    have := mul_le_mul_of_nonneg_right h3 h6
    linarith
  · have := h.nonneg x
    have := h.nonneg y
    positivity

end Moves
end PySGMCMC.Harris
