import Verif.Lemmas.Ergodic

/-!
# Averages along one run of a chain that contracts
-/

open MeasureTheory ProbabilityTheory
namespace PySGMCMC.Langevin
set_option linter.unusedSectionVars false

/-- What is known before step `k` is independent of step `k`. -/
theorem before_indep {Ω Z F : Type*} [MeasurableSpace Ω] [MeasurableSpace Z] [MeasurableSpace F] {P : Measure Ω} {ζ : Nat → Ω → Z}
    (hζ : ∀ k, Measurable (ζ k)) (hi : iIndepFun ζ P) (k : Nat) {Y : Ω → F} (hY : Measurable[before ζ k] Y) : IndepFun Y (ζ k) P := by
  have h := indep_iSup_of_disjoint (m := fun j => MeasurableSpace.comap (ζ j) inferInstance) (μ := P)
    (fun j => (hζ j).comap_le) hi (S := Set.Iio k) (T := {k}) (by rw [Set.disjoint_singleton_right]; simp)
  rw [IndepFun_iff_Indep]
  refine indep_of_indep_of_le_left (indep_of_indep_of_le_right h ?_) ?_
  · simp
  · rw [← measurable_iff_comap_le]
    exact hY

theorem before_mono {Ω Z : Type*} [MeasurableSpace Z] (ζ : Nat → Ω → Z) (k : Nat) : before ζ k ≤ before ζ (k + 1) :=
  biSup_mono fun j hj => by
    simp only [Set.mem_Iio] at *
    omega

/-- Adding something with conditional mean zero adds variances. -/
theorem sq_add_centered {Ω Z F : Type*} [MeasurableSpace Ω] [MeasurableSpace Z] [MeasurableSpace F] {P : Measure Ω} [IsProbabilityMeasure P]
    {κ : Measure Z} [IsProbabilityMeasure κ] {Y : Ω → ℝ} {X : Ω → F} {ζ : Ω → Z} (hY : Measurable Y) (hX : Measurable X) (hζ : Measurable ζ)
    (hind : IndepFun (fun ω => (Y ω, X ω)) ζ P) (hlaw : P.map ζ = κ) {G : F → Z → ℝ} (hG : Measurable fun q : F × Z => G q.1 q.2)
    (hY2 : Integrable (fun ω => Y ω ^ 2) P) (hG2 : Integrable (fun ω => G (X ω) (ζ ω) ^ 2) P) (h0 : ∀ x, ∫ z, G x z ∂κ = 0)
    {V : F → ℝ} (hV : ∀ x, ∫ z, G x z ^ 2 ∂κ ≤ V x) (hVi : Integrable (fun ω => V (X ω)) P)
    (hVm : Measurable V) :
    Integrable (fun ω => (Y ω + G (X ω) (ζ ω)) ^ 2) P ∧ ∫ ω, G (X ω) (ζ ω) ∂P = 0
      ∧ ∫ ω, (Y ω + G (X ω) (ζ ω)) ^ 2 ∂P ≤ ∫ ω, Y ω ^ 2 ∂P + ∫ ω, V (X ω) ∂P := by
  have hGm : Measurable fun ω => G (X ω) (ζ ω) := hG.comp (hX.prodMk hζ)
  have hYL : MemLp Y 2 P := (memLp_two_iff_integrable_sq hY.aestronglyMeasurable).2 hY2
  have hGL : MemLp (fun ω => G (X ω) (ζ ω)) 2 P := (memLp_two_iff_integrable_sq hGm.aestronglyMeasurable).2 hG2
  have hYG : Integrable (fun ω => Y ω * G (X ω) (ζ ω)) P := hYL.integrable_mul hGL
  have hGi : Integrable (fun ω => G (X ω) (ζ ω)) P := hGL.integrable (by norm_num)
  have hYX : Measurable fun ω => (Y ω, X ω) := hY.prodMk hX
  have hmap := (indepFun_iff_map_prod_eq_prod_map_map hYX.aemeasurable hζ.aemeasurable).1 hind
  rw [hlaw] at hmap
  have := Measure.isProbabilityMeasure_map (μ := P) hYX.aemeasurable
  -- averages of functions of the three
  have key : ∀ H : (ℝ × F) × Z → ℝ, Measurable H → Integrable (fun ω => H ((Y ω, X ω), ζ ω)) P →
      ∫ ω, H ((Y ω, X ω), ζ ω) ∂P = ∫ q, ∫ z, H (q, z) ∂κ ∂(P.map fun ω => (Y ω, X ω)) := fun H hH hi => by
    have h1 : Integrable H ((P.map fun ω => (Y ω, X ω)).prod κ) := by
      rw [← hmap]
      exact (integrable_map_measure hH.aestronglyMeasurable (hYX.prodMk hζ).aemeasurable).2 hi
    rw [← integral_prod _ h1, ← hmap, integral_map (hYX.prodMk hζ).aemeasurable hH.aestronglyMeasurable]
  have hG' : Measurable fun q : (ℝ × F) × Z => G q.1.2 q.2 := hG.comp ((measurable_snd.comp measurable_fst).prodMk measurable_snd)
  have k1 : ∫ ω, G (X ω) (ζ ω) ∂P = 0 := by
    rw [key (fun q => G q.1.2 q.2) hG' hGi]
    simp [h0]
  have k2 : ∫ ω, Y ω * G (X ω) (ζ ω) ∂P = 0 := by
    rw [key (fun q => q.1.1 * G q.1.2 q.2) ((measurable_fst.comp measurable_fst).mul hG') hYG]
    simp [integral_const_mul, h0]
  have k3 : ∫ ω, G (X ω) (ζ ω) ^ 2 ∂P ≤ ∫ ω, V (X ω) ∂P := by
    rw [key (fun q => G q.1.2 q.2 ^ 2) (hG'.pow_const 2) hG2, ← integral_map (φ := fun ω => (Y ω, X ω)) (f := fun q : ℝ × F => V q.2)
      hYX.aemeasurable (hVm.comp measurable_snd).aestronglyMeasurable]
    refine integral_mono_of_nonneg (.of_forall fun q => integral_nonneg fun z => sq_nonneg _) ?_ (.of_forall fun q => hV q.2)
    exact (integrable_map_measure (hVm.comp measurable_snd).aestronglyMeasurable hYX.aemeasurable).2 hVi
  have e : (fun ω => (Y ω + G (X ω) (ζ ω)) ^ 2) = fun ω => Y ω ^ 2 + 2 * (Y ω * G (X ω) (ζ ω)) + G (X ω) (ζ ω) ^ 2 := by
    funext ω; ring
  have i1 : Integrable (fun ω => Y ω ^ 2 + 2 * (Y ω * G (X ω) (ζ ω))) P := hY2.add (hYG.const_mul 2)
  refine ⟨e ▸ i1.add hG2, k1, ?_⟩
  rw [e, integral_add i1 hG2, integral_add hY2 (hYG.const_mul 2), integral_const_mul, k2]
  linarith

variable {E : Type*} [NormedAddCommGroup E] [MeasurableSpace E] [BorelSpace E]
  {Z : Type*} [MeasurableSpace Z] {κ : Measure Z} [IsProbabilityMeasure κ] {Ψ : E → Z → E} {ρ : ℝ}

/-- A random map that contracts and moves the origin by a square integrable amount. -/
structure Walk (κ : Measure Z) (Ψ : E → Z → E) (ρ : ℝ) : Prop where
  nonneg : 0 ≤ ρ
  lt : ρ < 1
  near : ∀ x y ζ, ‖Ψ x ζ - Ψ y ζ‖ ≤ ρ * ‖x - y‖
  meas : Measurable fun q : E × Z => Ψ q.1 q.2
  sq : Integrable (fun ζ => ‖Ψ 0 ζ‖ ^ 2) κ

/-- A function with Lipschitz constant `c`. -/
def Lip (c : ℝ) (u : E → ℝ) : Prop := ∀ x y, |u x - u y| ≤ c * ‖x - y‖

theorem Lip.continuous {c : ℝ} {u : E → ℝ} (h : Lip c u) : Continuous u := by
  refine continuous_iff_continuousAt.2 fun x => ?_
  rw [ContinuousAt, tendsto_iff_norm_sub_tendsto_zero]
  refine squeeze_zero (fun _ => norm_nonneg _) (fun y => h y x) ?_
  have : Continuous fun y => c * ‖y - x‖ := continuous_const.mul (continuous_id.sub continuous_const).norm
  simpa using this.tendsto x

namespace Walk
variable {c : ℝ} {u : E → ℝ}

theorem growth (h : Walk κ Ψ ρ) (x : E) (ζ : Z) : ‖Ψ x ζ‖ ≤ ρ * ‖x‖ + ‖Ψ 0 ζ‖ := by
  have h1 := h.near x 0 ζ
  rw [sub_zero] at h1
  have h2 := norm_sub_norm_le (Ψ x ζ) (Ψ 0 ζ)
  linarith

theorem growth_sq (h : Walk κ Ψ ρ) (x : E) (ζ : Z) : ‖Ψ x ζ‖ ^ 2 ≤ ρ * ‖x‖ ^ 2 + ‖Ψ 0 ζ‖ ^ 2 / (1 - ρ) := by
  have h1 := pow_le_pow_left₀ (norm_nonneg _) (h.growth x ζ) 2
  refine h1.trans ?_
  have h0 : 0 < 1 - ρ := by linarith [h.lt]
  have hρ := h.nonneg
  generalize ‖x‖ = a at *
  generalize ‖Ψ 0 ζ‖ = b at *
  rw [← sub_nonneg]
  have : ρ * a ^ 2 + b ^ 2 / (1 - ρ) - (ρ * a + b) ^ 2 = ρ * ((1 - ρ) * a - b) ^ 2 / (1 - ρ) := by field_simp; ring
  rw [this]
  positivity

theorem meas_at (h : Walk κ Ψ ρ) (x : E) : Measurable (Ψ x) := h.meas.comp (measurable_const.prodMk measurable_id)

theorem int_sq (h : Walk κ Ψ ρ) (x : E) : Integrable (fun ζ => ‖Ψ x ζ‖ ^ 2) κ :=
  ((integrable_const (ρ * ‖x‖ ^ 2)).add (h.sq.div_const (1 - ρ))).mono' ((h.meas_at x).norm.pow_const 2).aestronglyMeasurable
    (.of_forall fun ζ => by
      rw [norm_pow, norm_norm]
      exact h.growth_sq x ζ)

theorem int (h : Walk κ Ψ ρ) (x : E) : Integrable (fun ζ => ‖Ψ x ζ‖) κ :=
  ((memLp_two_iff_integrable_sq (h.meas_at x).norm.aestronglyMeasurable).2 (h.int_sq x)).integrable (by norm_num)

theorem lip_sq (hu : Lip c u) (x : E) : u x ^ 2 ≤ 2 * u 0 ^ 2 + 2 * c ^ 2 * ‖x‖ ^ 2 := by
  have h1 := hu x 0
  rw [sub_zero] at h1
  have h2 := pow_le_pow_left₀ (abs_nonneg _) h1 2
  rw [sq_abs, mul_pow] at h2
  nlinarith [sq_nonneg (u x - 2 * u 0)]

theorem int_lip_sq (h : Walk κ Ψ ρ) (hu : Lip c u) (x : E) : Integrable (fun ζ => u (Ψ x ζ) ^ 2) κ :=
  ((integrable_const (2 * u 0 ^ 2)).add ((h.int_sq x).const_mul (2 * c ^ 2))).mono'
    ((hu.continuous.measurable.comp (h.meas_at x)).pow_const 2).aestronglyMeasurable (.of_forall fun ζ => by
      rw [Real.norm_eq_abs, abs_of_nonneg (sq_nonneg _)]
      exact lip_sq hu (Ψ x ζ))

theorem int_lip (h : Walk κ Ψ ρ) (hu : Lip c u) (x : E) : Integrable (fun ζ => u (Ψ x ζ)) κ :=
  ((memLp_two_iff_integrable_sq (hu.continuous.measurable.comp (h.meas_at x)).aestronglyMeasurable).2 (h.int_lip_sq hu x)).integrable (by norm_num)

theorem push_lip (h : Walk κ Ψ ρ) (hu : Lip c u) (hc : 0 ≤ c) : Lip (ρ * c) (push κ Ψ u) := fun x y => by
  unfold push
  rw [← integral_sub (h.int_lip hu x) (h.int_lip hu y)]
  have h1 : ∀ ζ, ‖u (Ψ x ζ) - u (Ψ y ζ)‖ ≤ ρ * c * ‖x - y‖ := fun ζ => by
    rw [Real.norm_eq_abs]
    refine (hu _ _).trans ?_
    have := mul_le_mul_of_nonneg_left (h.near x y ζ) hc
    linarith
  have h2 := norm_integral_le_of_norm_le_const (μ := κ) (.of_forall h1)
  rwa [probReal_univ, mul_one] at h2

/-- The variance of a function after a step. -/
theorem variance (h : Walk κ Ψ ρ) (hu : Lip c u) (x y : E) :
    Integrable (fun ζ => (u (Ψ x ζ) - push κ Ψ u x) ^ 2) κ
      ∧ ∫ ζ, (u (Ψ x ζ) - push κ Ψ u x) ^ 2 ∂κ ≤ c ^ 2 * ∫ ζ, ‖Ψ x ζ - y‖ ^ 2 ∂κ := by
  have i1 := h.int_lip hu x
  have i2 := h.int_lip_sq hu x
  have i3 : ∀ a : ℝ, Integrable (fun ζ => (u (Ψ x ζ) - a) ^ 2) κ ∧ ∫ ζ, (u (Ψ x ζ) - a) ^ 2 ∂κ
      = ∫ ζ, u (Ψ x ζ) ^ 2 ∂κ - 2 * a * push κ Ψ u x + a ^ 2 := fun a => by
    have e : (fun ζ => (u (Ψ x ζ) - a) ^ 2) = fun ζ => u (Ψ x ζ) ^ 2 - 2 * a * u (Ψ x ζ) + a ^ 2 := by funext ζ; ring
    have i4 : Integrable (fun ζ => u (Ψ x ζ) ^ 2 - 2 * a * u (Ψ x ζ)) κ := i2.sub (i1.const_mul _)
    refine ⟨e ▸ i4.add (integrable_const _), ?_⟩
    rw [e, integral_add i4 (integrable_const _), integral_sub i2 (i1.const_mul _), integral_const_mul]
    simp [push]
  refine ⟨(i3 _).1, ?_⟩
  have h1 : ∫ ζ, (u (Ψ x ζ) - push κ Ψ u x) ^ 2 ∂κ ≤ ∫ ζ, (u (Ψ x ζ) - u y) ^ 2 ∂κ := by
    rw [(i3 _).2, (i3 _).2]
    nlinarith [sq_nonneg (u y - push κ Ψ u x)]
  refine h1.trans ?_
  rw [← integral_const_mul]
  by_cases hi : Integrable (fun ζ => ‖Ψ x ζ - y‖ ^ 2) κ
  · refine integral_mono (i3 _).1 (hi.const_mul _) fun ζ => ?_
    have := pow_le_pow_left₀ (abs_nonneg _) (hu (Ψ x ζ) y) 2
    rwa [sq_abs, mul_pow] at this
  · exfalso
    apply hi
    refine ((h.int_sq x).const_mul 2 |>.add (integrable_const (2 * ‖y‖ ^ 2))).mono' ?_ (.of_forall fun ζ => ?_)
    · have hc : Continuous fun v : E => ‖v - y‖ ^ 2 := ((continuous_id.sub continuous_const).norm.pow 2)
      exact (hc.measurable.comp (h.meas_at x)).aestronglyMeasurable
    · rw [norm_pow, norm_norm]
      have h3 := pow_le_pow_left₀ (norm_nonneg _) (norm_sub_le (Ψ x ζ) y) 2
      simp only [Pi.add_apply]
      nlinarith [sq_nonneg (‖Ψ x ζ‖ - ‖y‖)]

end Walk

/-- The expected weighted sum of `f` over `n` steps from step `i` on. -/
noncomputable def back (κ : Measure Z) (Ψ : E → Z → E) (w : Nat → ℝ) (f : E → ℝ) : Nat → Nat → E → ℝ
  | _, 0 => fun _ => 0
  | i, n + 1 => fun x => w i * f x + push κ Ψ (back κ Ψ w f (i + 1) n) x

namespace Walk
variable {A : ℝ} {f : E → ℝ} {w : Nat → ℝ}

theorem back_lip (h : Walk κ Ψ ρ) (hf : Lip A f) (hA : 0 ≤ A) (hw : ∀ k, |w k| ≤ 1) (n : Nat) :
    ∀ i, Lip (A / (1 - ρ)) (back κ Ψ w f i n) := by
  have h0 : 0 < 1 - ρ := by linarith [h.lt]
  have hc : 0 ≤ A / (1 - ρ) := by positivity
  induction n with
  | zero =>
    intro i x y
    simp only [back, sub_self, abs_zero]
    positivity
  | succ n ih =>
    intro i x y
    simp only [back]
    have h1 := h.push_lip (ih (i + 1)) hc x y
    have h2 : |w i * f x - w i * f y| ≤ A * ‖x - y‖ := by
      rw [← mul_sub, abs_mul]
      exact (mul_le_of_le_one_left (abs_nonneg _) (hw i)).trans (hf x y)
    have h3 := abs_add_le (w i * f x - w i * f y) (push κ Ψ (back κ Ψ w f (i + 1) n) x - push κ Ψ (back κ Ψ w f (i + 1) n) y)
    rw [show w i * f x + push κ Ψ (back κ Ψ w f (i + 1) n) x - (w i * f y + push κ Ψ (back κ Ψ w f (i + 1) n) y)
      = w i * f x - w i * f y + (push κ Ψ (back κ Ψ w f (i + 1) n) x - push κ Ψ (back κ Ψ w f (i + 1) n) y) by ring]
    have e : A / (1 - ρ) * ‖x - y‖ = A * ‖x - y‖ + ρ * (A / (1 - ρ)) * ‖x - y‖ := by field_simp; ring
    linarith

variable {Ω : Type*} [MeasurableSpace Ω] {P : Measure Ω} [IsProbabilityMeasure P] {ζ : Nat → Ω → Z}

theorem walk_measurable (hΨ : Measurable fun q : E × Z => Ψ q.1 q.2) {X : Nat → Ω → E} {x₀ : E} (h0 : ∀ ω, X 0 ω = x₀)
    (hX : ∀ k ω, X (k + 1) ω = Ψ (X k ω) (ζ k ω)) (k : Nat) : Measurable[before ζ k] (X k) := by
  induction k with
  | zero =>
    rw [show X 0 = fun _ => x₀ from funext h0]
    exact measurable_const
  | succ k ih =>
    rw [show X (k + 1) = fun ω => Ψ (X k ω) (ζ k ω) from funext (hX k)]
    have hz : Measurable[before ζ (k + 1)] (ζ k) := by
      rw [measurable_iff_comap_le]
      exact le_biSup (fun j => MeasurableSpace.comap (ζ j) inferInstance) (show k ∈ Set.Iio (k + 1) from Nat.lt_succ_self k)
    exact hΨ.comp (Measurable.prodMk (ih.mono (before_mono ζ k) le_rfl) hz)

theorem before_le (hζ : ∀ k, Measurable (ζ k)) (k : Nat) : before ζ k ≤ ‹MeasurableSpace Ω› := iSup₂_le fun j _ => (hζ j).comap_le

/-- Second moments stay bounded. -/
theorem moment (h : Walk κ Ψ ρ) (hζ : ∀ k, Measurable (ζ k)) (hlaw : ∀ k, P.map (ζ k) = κ)
    {X : Nat → Ω → E} {x₀ : E} (h0 : ∀ ω, X 0 ω = x₀) (hX : ∀ k ω, X (k + 1) ω = Ψ (X k ω) (ζ k ω)) (k : Nat) :
    Integrable (fun ω => ‖X k ω‖ ^ 2) P ∧ ∫ ω, ‖X k ω‖ ^ 2 ∂P ≤ ‖x₀‖ ^ 2 + (∫ ζ, ‖Ψ 0 ζ‖ ^ 2 ∂κ) / (1 - ρ) ^ 2 := by
  have hm : ∀ k, Measurable (X k) := fun k => (walk_measurable h.meas h0 hX k).mono (before_le hζ k) le_rfl
  have hρ : 0 < 1 - ρ := by linarith [h.lt]
  have hs0 : 0 ≤ ∫ ζ, ‖Ψ 0 ζ‖ ^ 2 ∂κ := integral_nonneg fun _ => by positivity
  induction k with
  | zero =>
    simp only [h0]
    refine ⟨integrable_const _, ?_⟩
    rw [integral_const, probReal_univ, one_smul]
    have : 0 ≤ (∫ ζ, ‖Ψ 0 ζ‖ ^ 2 ∂κ) / (1 - ρ) ^ 2 := by positivity
    linarith
  | succ k ih =>
    have hz : Integrable (fun ω => ‖Ψ 0 (ζ k ω)‖ ^ 2) P := by
      have := h.sq
      rw [← hlaw k] at this
      exact this.comp_measurable (hζ k)
    have hb : Integrable (fun ω => ρ * ‖X k ω‖ ^ 2 + ‖Ψ 0 (ζ k ω)‖ ^ 2 / (1 - ρ)) P := (ih.1.const_mul ρ).add (hz.div_const _)
    have hle : ∀ ω, ‖X (k + 1) ω‖ ^ 2 ≤ ρ * ‖X k ω‖ ^ 2 + ‖Ψ 0 (ζ k ω)‖ ^ 2 / (1 - ρ) := fun ω => by
      rw [hX]; exact h.growth_sq _ _
    have hi : Integrable (fun ω => ‖X (k + 1) ω‖ ^ 2) P := hb.mono' ((hm (k + 1)).norm.pow_const 2).aestronglyMeasurable
      (.of_forall fun ω => by rw [norm_pow, norm_norm]; exact hle ω)
    refine ⟨hi, (integral_mono hi hb hle).trans ?_⟩
    rw [integral_add (ih.1.const_mul ρ) (hz.div_const _), integral_const_mul, integral_div]
    have e : ∫ ω, ‖Ψ 0 (ζ k ω)‖ ^ 2 ∂P = ∫ ζ, ‖Ψ 0 ζ‖ ^ 2 ∂κ := by
      rw [← hlaw k, integral_map (hζ k).aemeasurable ((h.meas_at 0).norm.pow_const 2).aestronglyMeasurable]
    rw [e]
    have h1 := mul_le_mul_of_nonneg_left ih.2 h.nonneg
    have h2 : ρ * ‖x₀‖ ^ 2 ≤ ‖x₀‖ ^ 2 := mul_le_of_le_one_left (by positivity) h.lt.le
    have e2 : (∫ ζ, ‖Ψ 0 ζ‖ ^ 2 ∂κ) / (1 - ρ) ^ 2 = ρ * ((∫ ζ, ‖Ψ 0 ζ‖ ^ 2 ∂κ) / (1 - ρ) ^ 2) + (∫ ζ, ‖Ψ 0 ζ‖ ^ 2 ∂κ) / (1 - ρ) := by
      field_simp; ring
    linarith

/-- The weighted sum of `f` over one run is near its expectation. -/
theorem sum_variance (h : Walk κ Ψ ρ) (hζ : ∀ k, Measurable (ζ k)) (hi : iIndepFun ζ P) (hlaw : ∀ k, P.map (ζ k) = κ)
    {X : Nat → Ω → E} {x₀ : E} (h0 : ∀ ω, X 0 ω = x₀) (hX : ∀ k ω, X (k + 1) ω = Ψ (X k ω) (ζ k ω))
    (hf : Lip A f) (hA : 0 ≤ A) (hw : ∀ k, |w k| ≤ 1) {a b : ℝ} (hb : 0 ≤ b) (ctr : E → E)
    (hv : ∀ x, ∫ ζ, ‖Ψ x ζ - ctr x‖ ^ 2 ∂κ ≤ a + b * ‖x‖ ^ 2) (N : Nat) :
    Integrable (fun ω => (∑ k ∈ Finset.range N, w k * f (X k ω) - back κ Ψ w f 0 N x₀) ^ 2) P
      ∧ ∫ ω, (∑ k ∈ Finset.range N, w k * f (X k ω) - back κ Ψ w f 0 N x₀) ∂P = 0
      ∧ ∫ ω, (∑ k ∈ Finset.range N, w k * f (X k ω) - back κ Ψ w f 0 N x₀) ^ 2 ∂P
        ≤ N * ((A / (1 - ρ)) ^ 2 * (a + b * (‖x₀‖ ^ 2 + (∫ ζ, ‖Ψ 0 ζ‖ ^ 2 ∂κ) / (1 - ρ) ^ 2))) := by
  have hmb := walk_measurable h.meas h0 hX
  have hm : ∀ k, Measurable (X k) := fun k => (hmb k).mono (before_le hζ k) le_rfl
  have hρ : 0 < 1 - ρ := by linarith [h.lt]
  have hc : 0 ≤ A / (1 - ρ) := by positivity
  set M2 := ‖x₀‖ ^ 2 + (∫ ζ, ‖Ψ 0 ζ‖ ^ 2 ∂κ) / (1 - ρ) ^ 2 with hM2
  -- the expectation of the sum given the first steps
  have key : ∀ i ≤ N, Integrable (fun ω => (∑ k ∈ Finset.range i, w k * f (X k ω) + back κ Ψ w f i (N - i) (X i ω) - back κ Ψ w f 0 N x₀) ^ 2) P
      ∧ ∫ ω, (∑ k ∈ Finset.range i, w k * f (X k ω) + back κ Ψ w f i (N - i) (X i ω) - back κ Ψ w f 0 N x₀) ∂P = 0
      ∧ ∫ ω, (∑ k ∈ Finset.range i, w k * f (X k ω) + back κ Ψ w f i (N - i) (X i ω) - back κ Ψ w f 0 N x₀) ^ 2 ∂P
        ≤ i * ((A / (1 - ρ)) ^ 2 * (a + b * M2)) := by
    intro i
    induction i with
    | zero => intro _; simp [h0]
    | succ i ih =>
      intro hiN
      obtain ⟨j1, j2, j3⟩ := ih (by omega)
      set Y := fun ω => ∑ k ∈ Finset.range i, w k * f (X k ω) + back κ Ψ w f i (N - i) (X i ω) - back κ Ψ w f 0 N x₀ with hY
      set g := back κ Ψ w f (i + 1) (N - (i + 1)) with hg
      have hgl : Lip (A / (1 - ρ)) g := h.back_lip hf hA hw _ _
      have hpl := h.push_lip hgl hc
      have hYb : Measurable[before ζ i] Y := by
        refine Measurable.sub (Measurable.add (Finset.measurable_sum _ fun k hk => ?_) ?_) measurable_const
        · have hki : before ζ k ≤ before ζ i := biSup_mono fun j hj => by
            have := Finset.mem_range.1 hk
            simp only [Set.mem_Iio] at *
            omega
          exact measurable_const.mul (hf.continuous.measurable.comp ((hmb k).mono hki le_rfl))
        · exact (h.back_lip hf hA hw _ _).continuous.measurable.comp (hmb i)
      have hYm : Measurable Y := hYb.mono (before_le hζ i) le_rfl
      have hind : IndepFun (fun ω => (Y ω, X i ω)) (ζ i) P := before_indep hζ hi i (hYb.prodMk (hmb i))
      have hGm : Measurable fun q : E × Z => g (Ψ q.1 q.2) - push κ Ψ g q.1 :=
        (hgl.continuous.measurable.comp h.meas).sub (hpl.continuous.measurable.comp measurable_fst)
      have hnext : (fun ω => ∑ k ∈ Finset.range (i + 1), w k * f (X k ω) + g (X (i + 1) ω) - back κ Ψ w f 0 N x₀)
          = fun ω => Y ω + (g (Ψ (X i ω) (ζ i ω)) - push κ Ψ g (X i ω)) := by
        funext ω
        have e : back κ Ψ w f i (N - i) (X i ω) = w i * f (X i ω) + push κ Ψ g (X i ω) := by
          rw [show N - i = (N - (i + 1)) + 1 by omega]
          rfl
        simp only [hY]
        rw [Finset.sum_range_succ, e, hX]
        ring
      have hsqX := h.moment hζ hlaw h0 hX
      have hlipsq : ∀ {c : ℝ} {u : E → ℝ} (hu : Lip c u) k, Integrable (fun ω => u (X k ω) ^ 2) P := fun {c u} hu k =>
        ((integrable_const (2 * u 0 ^ 2)).add ((hsqX k).1.const_mul (2 * c ^ 2))).mono'
          ((hu.continuous.measurable.comp (hm k)).pow_const 2).aestronglyMeasurable (.of_forall fun ω => by
            rw [Real.norm_eq_abs, abs_of_nonneg (sq_nonneg _)]
            exact lip_sq hu (X k ω))
      have hG2 : Integrable (fun ω => (g (Ψ (X i ω) (ζ i ω)) - push κ Ψ g (X i ω)) ^ 2) P := by
        have h1 := hlipsq hgl (i + 1)
        simp only [hX] at h1
        refine ((h1.const_mul 2).add ((hlipsq hpl i).const_mul 2)).mono' ((hGm.comp ((hm i).prodMk (hζ i))).pow_const 2).aestronglyMeasurable
          (.of_forall fun ω => ?_)
        rw [Real.norm_eq_abs, abs_of_nonneg (sq_nonneg _)]
        simp only [Pi.add_apply]
        nlinarith [sq_nonneg (g (Ψ (X i ω) (ζ i ω)) + push κ Ψ g (X i ω))]
      have hVi : Integrable (fun ω => (A / (1 - ρ)) ^ 2 * (a + b * ‖X i ω‖ ^ 2)) P :=
        (((integrable_const a).add ((hsqX i).1.const_mul b)).const_mul _)
      have hs := sq_add_centered (G := fun x z => g (Ψ x z) - push κ Ψ g x) (V := fun x => (A / (1 - ρ)) ^ 2 * (a + b * ‖x‖ ^ 2)) hYm (hm i)
        (hζ i) hind (hlaw i) hGm j1 hG2 (fun x => by
          rw [integral_sub (h.int_lip hgl x) (integrable_const _)]
          simp [push])
        (fun x => (h.variance hgl x (ctr x)).2.trans (mul_le_mul_of_nonneg_left (hv x) (sq_nonneg _))) hVi
        ((measurable_const.add (measurable_norm.pow_const 2 |>.const_mul b)).const_mul _)
      have hYi : Integrable Y P := ((memLp_two_iff_integrable_sq hYm.aestronglyMeasurable).2 j1).integrable (by norm_num)
      have hGi : Integrable (fun ω => g (Ψ (X i ω) (ζ i ω)) - push κ Ψ g (X i ω)) P :=
        ((memLp_two_iff_integrable_sq (hGm.comp ((hm i).prodMk (hζ i))).aestronglyMeasurable).2 hG2).integrable (by norm_num)
      have hsq : (fun ω => (∑ k ∈ Finset.range (i + 1), w k * f (X k ω) + g (X (i + 1) ω) - back κ Ψ w f 0 N x₀) ^ 2)
          = fun ω => (Y ω + (g (Ψ (X i ω) (ζ i ω)) - push κ Ψ g (X i ω))) ^ 2 := funext fun ω => congrArg (· ^ 2) (congrFun hnext ω)
      refine ⟨hsq ▸ hs.1, ?_, ?_⟩
      · rw [hnext, integral_add hYi hGi, j2, hs.2.1, add_zero]
      · rw [hsq]
        refine hs.2.2.trans ?_
        have e : ∫ ω, (A / (1 - ρ)) ^ 2 * (a + b * ‖X i ω‖ ^ 2) ∂P = (A / (1 - ρ)) ^ 2 * (a + b * ∫ ω, ‖X i ω‖ ^ 2 ∂P) := by
          rw [integral_const_mul, integral_add (integrable_const a) ((hsqX i).1.const_mul b), integral_const_mul]
          simp
        rw [e]
        have h1 := mul_le_mul_of_nonneg_left (add_le_add_right (mul_le_mul_of_nonneg_left (hsqX i).2 hb) a) (sq_nonneg (A / (1 - ρ)))
        push_cast
        linarith
  have hN := key N le_rfl
  simpa [back] using hN

/-- The average of `f` over some steps of one run: its mean square error is a variance that decreases with the number of steps, and
the square of the average bias. -/
theorem average (h : Walk κ Ψ ρ) (hζ : ∀ k, Measurable (ζ k)) (hi : iIndepFun ζ P) (hlaw : ∀ k, P.map (ζ k) = κ)
    {X : Nat → Ω → E} {x₀ : E} (h0 : ∀ ω, X 0 ω = x₀) (hX : ∀ k ω, X (k + 1) ω = Ψ (X k ω) (ζ k ω))
    (hf : Lip A f) (hA : 0 ≤ A) {a b : ℝ} (hb : 0 ≤ b) (ctr : E → E) (hv : ∀ x, ∫ ζ, ‖Ψ x ζ - ctr x‖ ^ 2 ∂κ ≤ a + b * ‖x‖ ^ 2)
    {I : Finset Nat} (hI : I.Nonempty) {N : Nat} (hN : ∀ k ∈ I, k < N) (c : ℝ) :
    Integrable (fun ω => ((∑ k ∈ I, f (X k ω)) / I.card - c) ^ 2) P
      ∧ ∫ ω, ((∑ k ∈ I, f (X k ω)) / I.card - c) ^ 2 ∂P
        ≤ N / (I.card : ℝ) ^ 2 * ((A / (1 - ρ)) ^ 2 * (a + b * (‖x₀‖ ^ 2 + (∫ ζ, ‖Ψ 0 ζ‖ ^ 2 ∂κ) / (1 - ρ) ^ 2)))
          + ((∑ k ∈ I, |∫ ω, f (X k ω) ∂P - c|) / I.card) ^ 2 := by
  set w : Nat → ℝ := fun k => if k ∈ I then 1 else 0 with hw
  have hw1 : ∀ k, |w k| ≤ 1 := fun k => by simp only [hw]; split_ifs <;> simp
  obtain ⟨s1, s2, s3⟩ := h.sum_variance hζ hi hlaw h0 hX hf hA hw1 hb ctr hv N
  have hsum : ∀ ω, ∑ k ∈ Finset.range N, w k * f (X k ω) = ∑ k ∈ I, f (X k ω) := fun ω => by
    simp only [hw, ite_mul, one_mul, zero_mul]
    rw [← Finset.sum_filter, Finset.filter_mem_eq_inter, Finset.inter_eq_right.2 fun k hk => Finset.mem_range.2 (hN k hk)]
  simp only [hsum] at s1 s2 s3
  set r := back κ Ψ w f 0 N x₀ with hr
  have hm : ∀ k, Measurable (X k) := fun k => (walk_measurable h.meas h0 hX k).mono (before_le hζ k) le_rfl
  have hfi : ∀ k, Integrable (fun ω => f (X k ω)) P := fun k => by
    have h2 := (h.moment hζ hlaw h0 hX k).1
    have hfm := (hf.continuous.measurable.comp (hm k)).aestronglyMeasurable (μ := P)
    refine ((memLp_two_iff_integrable_sq hfm).2 (((integrable_const (2 * f 0 ^ 2)).add (h2.const_mul (2 * A ^ 2))).mono' (hfm.pow 2)
      (.of_forall fun ω => ?_))).integrable (by norm_num)
    simp only [Function.comp_apply]
    rw [Real.norm_eq_abs, abs_of_nonneg (sq_nonneg _)]
    exact lip_sq hf (X k ω)
  have hS : Integrable (fun ω => ∑ k ∈ I, f (X k ω)) P := integrable_finsetSum _ fun k _ => hfi k
  have hES : ∑ k ∈ I, ∫ ω, f (X k ω) ∂P = r := by
    rw [integral_sub hS (integrable_const _), integral_finsetSum _ fun k _ => hfi k] at s2
    simp only [integral_const, probReal_univ, one_smul] at s2
    linarith
  have hn : 0 < (I.card : ℝ) := Nat.cast_pos.2 (Finset.card_pos.2 hI)
  have hdi : Integrable (fun ω => ∑ k ∈ I, f (X k ω) - r) P := hS.sub (integrable_const _)
  have e : (fun ω => ((∑ k ∈ I, f (X k ω)) / I.card - c) ^ 2) = fun ω => 1 / (I.card : ℝ) ^ 2 * (∑ k ∈ I, f (X k ω) - r) ^ 2
      + 2 / I.card * (r / I.card - c) * (∑ k ∈ I, f (X k ω) - r) + (r / I.card - c) ^ 2 := by
    funext ω
    field_simp
    ring
  have i1 : Integrable (fun ω => 1 / (I.card : ℝ) ^ 2 * (∑ k ∈ I, f (X k ω) - r) ^ 2
      + 2 / I.card * (r / I.card - c) * (∑ k ∈ I, f (X k ω) - r)) P := (s1.const_mul _).add (hdi.const_mul _)
  refine ⟨e ▸ i1.add (integrable_const _), ?_⟩
  rw [e, integral_add i1 (integrable_const _), integral_add (s1.const_mul _) (hdi.const_mul _), integral_const_mul, integral_const_mul, s2]
  simp only [integral_const, probReal_univ, one_smul, mul_zero, add_zero]
  refine add_le_add ?_ ?_
  · have := mul_le_mul_of_nonneg_left s3 (by positivity : 0 ≤ 1 / (I.card : ℝ) ^ 2)
    refine this.trans (le_of_eq ?_)
    ring
  · rw [← sq_abs]
    refine pow_le_pow_left₀ (abs_nonneg _) ?_ 2
    have e2 : r / I.card - c = (∑ k ∈ I, (∫ ω, f (X k ω) ∂P - c)) / I.card := by
      rw [Finset.sum_sub_distrib, hES, Finset.sum_const, nsmul_eq_mul]
      field_simp
    rw [e2, abs_div, abs_of_pos hn]
    exact div_le_div_of_nonneg_right (Finset.abs_sum_le_sum_abs _ _) hn.le

end Walk
end PySGMCMC.Langevin
