import Verif.Lemmas.GaussPair
import Verif.Lemmas.Convergence
import Mathlib.Analysis.Normed.Lp.MeasurableSpace
import Mathlib.Analysis.InnerProductSpace.ProdL2

/-!
# A step with momentum as a contraction

The state of the underdamped Langevin algorithm as a point of an inner product space in which a step is a contraction: with `α` the
friction, `v` the momentum and `x` the position, the pair of `x + ((1 - α) / α) v` and `((1 - α) / α) v`, scaled by the masses.
-/

open MeasureTheory ProbabilityTheory PySGMCMC.Contraction
namespace PySGMCMC.Langevin
set_option linter.unusedSectionVars false

/-! ## Products of measures -/

theorem prod_comm4 {A B C D : Type*} [MeasurableSpace A] [MeasurableSpace B] [MeasurableSpace C] [MeasurableSpace D]
    (a : Measure A) (b : Measure B) (c : Measure C) (d : Measure D) [SFinite a] [SFinite b] [SFinite c] [SFinite d] :
    MeasurePreserving (fun q : (A × B) × (C × D) => ((q.1.1, q.2.1), (q.1.2, q.2.2))) ((a.prod b).prod (c.prod d)) ((a.prod c).prod (b.prod d)) := by
  have h1 : MeasurePreserving (fun q : (A × B) × (C × D) => (q.1.1, (q.1.2, q.2))) ((a.prod b).prod (c.prod d)) (a.prod (b.prod (c.prod d))) :=
    measurePreserving_prodAssoc a b (c.prod d)
  have h2 : MeasurePreserving (fun q : B × (C × D) => ((q.1, q.2.1), q.2.2)) (b.prod (c.prod d)) ((b.prod c).prod d) :=
    (measurePreserving_prodAssoc b c d).symm
  have h3 : MeasurePreserving (fun q : (B × C) × D => ((q.1.2, q.1.1), q.2)) ((b.prod c).prod d) ((c.prod b).prod d) :=
    (Measure.measurePreserving_swap (μ := b) (ν := c)).prod (MeasurePreserving.id d)
  have h4 : MeasurePreserving (fun q : (C × B) × D => (q.1.1, (q.1.2, q.2))) ((c.prod b).prod d) (c.prod (b.prod d)) :=
    measurePreserving_prodAssoc c b d
  have h5 : MeasurePreserving (fun q : A × (C × (B × D)) => ((q.1, q.2.1), q.2.2)) (a.prod (c.prod (b.prod d))) ((a.prod c).prod (b.prod d)) :=
    (measurePreserving_prodAssoc a c (b.prod d)).symm
  exact h5.comp (((MeasurePreserving.id a).prod (h4.comp (h3.comp h2))).comp h1)

/-! ## A change of the noise -/

section change

variable {E : Type*} [NormedAddCommGroup E] [InnerProductSpace ℝ E] [FiniteDimensional ℝ E] [MeasurableSpace E] [BorelSpace E]
  {F : Type*} [NormedAddCommGroup F] [NormedSpace ℝ F] {N : Measure E} {A₁ A₂ : ℝ} {u : F → ℝ} {D : F → F →L[ℝ] ℝ}

theorem Smooth.taylor_two (hu : Smooth A₁ A₂ u D) (hA : 0 ≤ A₂) (a v w : F) :
    |u (a + v) - u (a + w) - D a (v - w)| ≤ A₂ * ((‖v‖ + ‖w‖) * ‖v - w‖) := by
  have hs : Convex ℝ (Metric.closedBall a (‖v‖ + ‖w‖)) := convex_closedBall _ _
  have hv : a + v ∈ Metric.closedBall a (‖v‖ + ‖w‖) := by simp
  have hw : a + w ∈ Metric.closedBall a (‖v‖ + ‖w‖) := by simp
  have h := hs.norm_image_sub_le_of_norm_hasFDerivWithin_le' (f := u) (f' := D) (φ := D a) (C := A₂ * (‖v‖ + ‖w‖))
    (fun x _ => (hu.deriv x).hasFDerivWithinAt) (fun x hx => by
      refine (hu.lip x a).trans (mul_le_mul_of_nonneg_left ?_ hA)
      rwa [Metric.mem_closedBall, dist_eq_norm] at hx) hw hv
  rw [add_sub_add_left_eq_sub, Real.norm_eq_abs] at h
  linarith

theorem Smooth.int_linear (hu : Smooth A₁ A₂ u D) (hN : Noise N) (V : E →L[ℝ] F) (a : F) : Integrable (fun z => u (a + V z)) N := by
  have := hN.prob
  have hc : Continuous fun z => u (a + V z) := hu.continuous.comp (continuous_const.add V.continuous)
  refine ((integrable_const (|u a|)).add ((hN.low 1 (by norm_num)).const_mul (A₁ * ‖V‖))).mono' hc.aestronglyMeasurable (.of_forall fun z => ?_)
  have h1 := hu.lipschitz (a + V z) a
  rw [add_sub_cancel_left] at h1
  have h2 := mul_le_mul_of_nonneg_left (V.le_opNorm z) hu.nonneg
  have h3 := abs_sub_abs_le_abs_sub (u (a + V z)) (u a)
  simp only [Real.norm_eq_abs, Pi.add_apply, pow_one]
  linarith

/-- Noise of the wrong size changes averages little. -/
theorem Smooth.noise_change (hu : Smooth A₁ A₂ u D) (hA : 0 ≤ A₂) (hN : Noise N) (V W : E →L[ℝ] F) (a : F) :
    |∫ z, u (a + V z) ∂N - ∫ z, u (a + W z) ∂N| ≤ A₂ * ((‖V‖ + ‖W‖) * ‖V - W‖ * ∫ z, ‖z‖ ^ 2 ∂N) := by
  have := hN.prob
  have i1 := hu.int_linear hN V a
  have i2 := hu.int_linear hN W a
  have i3 : Integrable (fun z => (D a).comp (V - W) z) N := hN.first _
  have e : ∫ z, u (a + V z) ∂N - ∫ z, u (a + W z) ∂N = ∫ z, (u (a + V z) - u (a + W z) - (D a).comp (V - W) z) ∂N := by
    have i12 : Integrable (fun z => u (a + V z) - u (a + W z)) N := i1.sub i2
    rw [integral_sub i12 i3, integral_sub i1 i2, hN.mean, sub_zero]
  rw [e, ← integral_const_mul, ← integral_const_mul]
  refine abs_integral_le_integral_abs.trans (integral_mono ((i1.sub i2).sub i3).abs (((hN.low 2 (by norm_num)).const_mul _).const_mul _) fun z => ?_)
  refine (hu.taylor_two hA a (V z) (W z)).trans (mul_le_mul_of_nonneg_left ?_ hA)
  have h1 := V.le_opNorm z
  have h2 := W.le_opNorm z
  have h3 := (V - W).le_opNorm z
  rw [sub_apply] at h3
  calc (‖V z‖ + ‖W z‖) * ‖V z - W z‖ ≤ (‖V‖ * ‖z‖ + ‖W‖ * ‖z‖) * (‖V - W‖ * ‖z‖) := by gcongr
    _ = _ := by ring

/-- How much wrong sizes matter. -/
theorem defect_le {r κ d x : ℝ} (hr : 0 ≤ r) (hκ : 0 ≤ κ) (hd : 0 ≤ d) (h1 : d ≤ √κ) (h2 : d * r ≤ κ) (hx : x ≤ 2 * r + √κ) : x * d ≤ 3 * κ := by
  have h3 : √κ * d ≤ κ := by
    calc √κ * d ≤ √κ * √κ := mul_le_mul_of_nonneg_left h1 (Real.sqrt_nonneg _)
      _ = κ := Real.mul_self_sqrt hκ
  nlinarith [mul_le_mul_of_nonneg_right hx hd]

theorem sqrt_near {r κ q : ℝ} (hr : 0 ≤ r) (h : |q - r ^ 2| ≤ κ) : |√q - r| ≤ √κ ∧ |√q - r| * r ≤ κ := by
  have hκ : 0 ≤ κ := (abs_nonneg _).trans h
  have hq := Real.sqrt_nonneg q
  obtain ⟨h1, h2⟩ := abs_le.1 h
  by_cases h0 : 0 ≤ q
  · have e : (√q - r) * (√q + r) = q - r ^ 2 := by
      have := Real.sq_sqrt h0
      linear_combination this
    have h3 : |√q - r| * (√q + r) ≤ κ := by
      calc |√q - r| * (√q + r) = |√q - r| * |√q + r| := by rw [abs_of_nonneg (by positivity : 0 ≤ √q + r)]
        _ = |q - r ^ 2| := by rw [← abs_mul, e]
        _ ≤ κ := h
    have h4 : |√q - r| ≤ √q + r := abs_le.2 ⟨by linarith, by linarith⟩
    refine ⟨Real.le_sqrt_of_sq_le ?_, ?_⟩
    · rw [sq]
      exact (mul_le_mul_of_nonneg_left h4 (abs_nonneg _)).trans h3
    · exact (mul_le_mul_of_nonneg_left (by linarith) (abs_nonneg _)).trans h3
  · have e : √q = 0 := Real.sqrt_eq_zero_of_nonpos (by linarith)
    rw [e, zero_sub, abs_neg, abs_of_nonneg hr]
    have : r ^ 2 ≤ κ := by linarith
    exact ⟨Real.le_sqrt_of_sq_le this, by linarith [sq r]⟩

end change

/-! ## The step -/

variable {J : Type} [Fintype J] [DecidableEq J]

/-- What a step does to the state: `keep` without gradient and noise, `kick` with them; `pos` is the position. -/
structure Moves (J : Type) [Fintype J] (F : Type*) [NormedAddCommGroup F] [InnerProductSpace ℝ F] where
  keep : F →L[ℝ] F
  kick : EuclideanSpace ℝ J →L[ℝ] F
  pos : F →L[ℝ] EuclideanSpace ℝ J

/-- Pairs of vectors with the Euclidean norm. -/
abbrev Phase (J : Type) [Fintype J] := WithLp 2 (EuclideanSpace ℝ J × EuclideanSpace ℝ J)

/-- The two vectors. -/
noncomputable def split : Phase J ≃L[ℝ] EuclideanSpace ℝ J × EuclideanSpace ℝ J := WithLp.prodContinuousLinearEquiv 2 ℝ _ _

theorem split_fst (y : Phase J) : (split y).1 = y.fst := rfl
theorem split_snd (y : Phase J) : (split y).2 = y.snd := rfl
theorem fst_symm (q : EuclideanSpace ℝ J × EuclideanSpace ℝ J) : (split.symm q : Phase J).fst = q.1 := rfl
theorem snd_symm (q : EuclideanSpace ℝ J × EuclideanSpace ℝ J) : (split.symm q : Phase J).snd = q.2 := rfl

/-- The first vector. -/
noncomputable def firstL : Phase J →L[ℝ] EuclideanSpace ℝ J :=
  (ContinuousLinearMap.fst ℝ (EuclideanSpace ℝ J) (EuclideanSpace ℝ J)).comp
    (split : Phase J ≃L[ℝ] EuclideanSpace ℝ J × EuclideanSpace ℝ J).toContinuousLinearMap

/-- The second vector. -/
noncomputable def secondL : Phase J →L[ℝ] EuclideanSpace ℝ J :=
  (ContinuousLinearMap.snd ℝ (EuclideanSpace ℝ J) (EuclideanSpace ℝ J)).comp
    (split : Phase J ≃L[ℝ] EuclideanSpace ℝ J × EuclideanSpace ℝ J).toContinuousLinearMap

/-- A pair of vectors. -/
noncomputable def pairL {F : Type*} [NormedAddCommGroup F] [NormedSpace ℝ F] (a b : F →L[ℝ] EuclideanSpace ℝ J) : F →L[ℝ] Phase J :=
  (split : Phase J ≃L[ℝ] EuclideanSpace ℝ J × EuclideanSpace ℝ J).symm.toContinuousLinearMap.comp (a.prod b)

/-- The position. -/
noncomputable def posL : Phase J →L[ℝ] EuclideanSpace ℝ J := firstL - secondL

theorem posL_apply (y : Phase J) : posL y = y.fst - y.snd := rfl

/-- What a step without gradient and noise does. -/
noncomputable def keepL (β : ℝ) : Phase J →L[ℝ] Phase J := pairL firstL (β • secondL)

theorem keepL_fst (β : ℝ) (y : Phase J) : (keepL β y).fst = y.fst := rfl
theorem keepL_snd (β : ℝ) (y : Phase J) : (keepL β y).snd = β • y.snd := rfl

/-- What gradient and noise do. -/
noncomputable def kickL (β : ℝ) : EuclideanSpace ℝ J →L[ℝ] Phase J :=
  pairL (ContinuousLinearMap.id ℝ _) (β • ContinuousLinearMap.id ℝ _)

theorem kickL_fst (β : ℝ) (y : EuclideanSpace ℝ J) : (kickL β y).fst = y := rfl
theorem kickL_snd (β : ℝ) (y : EuclideanSpace ℝ J) : (kickL β y).snd = β • y := rfl

theorem phase_ext {x y : Phase J} (h1 : x.fst = y.fst) (h2 : x.snd = y.snd) : x = y :=
  split.injective (Prod.ext h1 h2)

theorem phase_le (y : Phase J) : ‖y‖ ≤ ‖y.fst‖ + ‖y.snd‖ := by
  refine le_of_sq_le_sq ?_ (by positivity)
  rw [WithLp.prod_norm_sq_eq_of_L2]
  nlinarith [norm_nonneg y.fst, norm_nonneg y.snd]

theorem posL_le (y : Phase J) : ‖posL y‖ ≤ 2 * ‖y‖ := by
  rw [posL_apply]
  refine (norm_sub_le _ _).trans ?_
  linarith [WithLp.norm_fst_le _ y, WithLp.norm_snd_le _ y]

theorem posL_norm : ‖(posL : Phase J →L[ℝ] _)‖ ≤ 2 := ContinuousLinearMap.opNorm_le_bound _ (by norm_num) posL_le

theorem kickL_norm {β : ℝ} (h0 : 0 ≤ β) (h1 : β ≤ 1) : ‖(kickL β : _ →L[ℝ] Phase J)‖ ≤ 2 :=
  ContinuousLinearMap.opNorm_le_bound _ (by norm_num) fun y => by
    refine (phase_le _).trans ?_
    rw [kickL_fst, kickL_snd, norm_smul, Real.norm_eq_abs, abs_of_nonneg h0]
    nlinarith [norm_nonneg y]

/-- Every coordinate times a number. -/
noncomputable def diagL (c : J → ℝ) : EuclideanSpace ℝ J →L[ℝ] EuclideanSpace ℝ J :=
  ((EuclideanSpace.equiv J ℝ).symm : (J → ℝ) →L[ℝ] EuclideanSpace ℝ J).comp
    ((ContinuousLinearMap.mul ℝ (J → ℝ) c).comp (EuclideanSpace.equiv J ℝ : EuclideanSpace ℝ J →L[ℝ] J → ℝ))

theorem diagL_apply (c : J → ℝ) (z : EuclideanSpace ℝ J) (j : J) : diagL c z j = c j * z j := rfl

theorem diagL_norm {c : J → ℝ} {d : ℝ} (hd : 0 ≤ d) (h : ∀ j, |c j| ≤ d) : ‖diagL c‖ ≤ d :=
  ContinuousLinearMap.opNorm_le_bound _ hd fun z => by
    refine le_of_sq_le_sq ?_ (by positivity)
    rw [EuclideanSpace.norm_sq_eq, mul_pow, EuclideanSpace.norm_sq_eq, Finset.mul_sum]
    refine Finset.sum_le_sum fun j _ => ?_
    rw [diagL_apply, norm_mul, mul_pow, Real.norm_eq_abs]
    exact mul_le_mul_of_nonneg_right (pow_le_pow_left₀ (abs_nonneg _) (h j) 2) (sq_nonneg _)

theorem diagL_sub (c : J → ℝ) (r : ℝ) : diagL c - r • ContinuousLinearMap.id ℝ _ = diagL fun j => c j - r := by
  ext z j
  simp only [sub_apply, smul_apply, ContinuousLinearMap.id_apply, PiLp.sub_apply, PiLp.smul_apply, diagL_apply, smul_eq_mul]
  ring

variable {m : J → ℝ} {hm : ∀ j, 0 < m j} {lo hi : ℝ} {Bt : Type} [MeasurableSpace Bt] {ν : Measure Bt} [IsProbabilityMeasure ν]
  {U : (J → ℝ) → ℝ} {γ : Bt → (J → ℝ) → J → ℝ} {μ L L₂ Λ b β t s : ℝ} {N : Measure (EuclideanSpace ℝ J)}
  {R : EuclideanSpace ℝ J →L[ℝ] EuclideanSpace ℝ J}

section

variable {F : Type*} [NormedAddCommGroup F] [InnerProductSpace ℝ F] [FiniteDimensional ℝ F] [MeasurableSpace F] [BorelSpace F] {W : Moves J F}

namespace ConvexBatches

/-- The step. -/
noncomputable def stepP (m : J → ℝ) (hm : ∀ j, 0 < m j) (γ : Bt → (J → ℝ) → J → ℝ) (b : ℝ) (W : Moves J F)
    (R : EuclideanSpace ℝ J →L[ℝ] EuclideanSpace ℝ J) (y : F) (ζ : Bt × EuclideanSpace ℝ J) : F :=
  W.keep y - b • W.kick (driftE m hm γ ζ.1 (W.pos y)) + W.kick (R ζ.2)

/-- The derivative of the gradient. -/
noncomputable def driftD (m : J → ℝ) (hm : ∀ j, 0 < m j) (γ : Bt → (J → ℝ) → J → ℝ) (ζ : Bt) (x : EuclideanSpace ℝ J) :
    EuclideanSpace ℝ J →L[ℝ] EuclideanSpace ℝ J :=
  (massL m hm).comp ((fderiv ℝ (γ ζ) ((scaled m hm).symm x)).comp ((scaled m hm).symm : EuclideanSpace ℝ J →L[ℝ] J → ℝ))

/-- The derivative of the step. -/
noncomputable def stepPD (m : J → ℝ) (hm : ∀ j, 0 < m j) (γ : Bt → (J → ℝ) → J → ℝ) (b : ℝ) (W : Moves J F) (y : F)
    (ζ : Bt × EuclideanSpace ℝ J) : F →L[ℝ] F :=
  W.keep - b • W.kick.comp ((driftD m hm γ ζ.1 (W.pos y)).comp W.pos)

theorem comp_le {A B C F : Type*} [NormedAddCommGroup A] [NormedSpace ℝ A] [NormedAddCommGroup B] [NormedSpace ℝ B]
    [NormedAddCommGroup C] [NormedSpace ℝ C] [NormedAddCommGroup F] [NormedSpace ℝ F] {f : C →L[ℝ] F} {g : B →L[ℝ] C} {k : A →L[ℝ] B} {x y z : ℝ}
    (h1 : ‖f‖ ≤ x) (h2 : ‖g‖ ≤ y) (h3 : ‖k‖ ≤ z) (hx : 0 ≤ x) : ‖f.comp (g.comp k)‖ ≤ x * (y * z) :=
  (f.opNorm_comp_le _).trans (mul_le_mul h1 ((g.opNorm_comp_le k).trans
    (mul_le_mul h2 h3 (norm_nonneg _) ((norm_nonneg _).trans h2))) (norm_nonneg _) hx)

theorem driftD_lip (h : ConvexBatches ν U γ μ L L₂ Λ) (hhi : 0 ≤ hi) (hh : ∀ j, m j ≤ hi) (ζ : Bt) (x y : EuclideanSpace ℝ J) :
    ‖driftD m hm γ ζ x - driftD m hm γ ζ y‖ ≤ √(hi * Fintype.card J) * (L₂ * hi) * ‖x - y‖ := by
  have e2 : driftD m hm γ ζ x - driftD m hm γ ζ y = (massL m hm).comp ((fderiv ℝ (γ ζ) ((scaled m hm).symm x)
      - fderiv ℝ (γ ζ) ((scaled m hm).symm y)).comp ((scaled m hm).symm : EuclideanSpace ℝ J →L[ℝ] J → ℝ)) := by
    unfold driftD
    ext v : 1
    simp only [sub_apply, ContinuousLinearMap.comp_apply, map_sub]
  have h3 : ‖(scaled m hm).symm x - (scaled m hm).symm y‖ ≤ √hi * ‖x - y‖ := by
    rw [← map_sub]; exact scaled_symm_le hh _
  have h2 := (h.lip2 ζ ((scaled m hm).symm x) ((scaled m hm).symm y)).trans (mul_le_mul_of_nonneg_left h3 h.nonneg)
  have h1 := comp_le (massL_norm (hm := hm) hh) h2 (symm_norm (hm := hm) hh) (Real.sqrt_nonneg _)
  rw [e2]
  refine h1.trans (le_of_eq ?_)
  calc √(hi * Fintype.card J) * (L₂ * (√hi * ‖x - y‖) * √hi) = √(hi * Fintype.card J) * (L₂ * (√hi * √hi)) * ‖x - y‖ := by ring
    _ = _ := by rw [Real.mul_self_sqrt hhi]

theorem stepP_measurable (h : ConvexBatches ν U γ μ L L₂ Λ) :
    Measurable fun q : F × (Bt × EuclideanSpace ℝ J) => stepP m hm γ b W R q.1 q.2 := by
  have h1 : Measurable fun q : F × (Bt × EuclideanSpace ℝ J) => driftE m hm γ q.2.1 (W.pos q.1) :=
    (driftE_measurable h).comp ((W.pos.continuous.measurable.comp measurable_fst).prodMk measurable_snd.fst)
  exact ((W.keep.continuous.measurable.comp measurable_fst).sub ((W.kick.continuous.measurable.comp h1).const_smul b)).add
    (W.kick.continuous.measurable.comp (R.continuous.measurable.comp measurable_snd.snd))

theorem stepP_deriv (h : ConvexBatches ν U γ μ L L₂ Λ) (y : F) (ζ : Bt × EuclideanSpace ℝ J) :
    HasFDerivAt (fun y => stepP m hm γ b W R y ζ) (stepPD m hm γ b W y ζ) y := by
  have h1 : HasFDerivAt (fun y => driftE m hm γ ζ.1 y) (driftD m hm γ ζ.1 (W.pos y)) (W.pos y) :=
    ((massL m hm).hasFDerivAt.comp _ (h.diff ζ.1 _).hasFDerivAt).comp (W.pos y) (scaled m hm).symm.hasFDerivAt
  have h2 := W.kick.hasFDerivAt.comp y (h1.comp y W.pos.hasFDerivAt)
  exact (W.keep.hasFDerivAt.sub (h2.const_smul b)).add_const _

theorem stepPD_lip (h : ConvexBatches ν U γ μ L L₂ Λ) (hlh : ∀ j, m j ≤ hi) (hhi : 0 ≤ hi) (hb : 0 ≤ b) (hk : ‖W.kick‖ ≤ 2) (hp : ‖W.pos‖ ≤ 2) (x y : F)
    (ζ : Bt × EuclideanSpace ℝ J) : ‖stepPD m hm γ b W x ζ - stepPD m hm γ b W y ζ‖ ≤ b * (8 * (√(hi * Fintype.card J) * (L₂ * hi))) * ‖x - y‖ := by
  have e : stepPD m hm γ b W x ζ - stepPD m hm γ b W y ζ
      = -(b • W.kick.comp ((driftD m hm γ ζ.1 (W.pos x) - driftD m hm γ ζ.1 (W.pos y)).comp W.pos)) := by
    unfold stepPD
    ext v : 1
    simp only [sub_apply, smul_apply, neg_apply, ContinuousLinearMap.comp_apply, map_sub]
    module
  rw [e, norm_neg, norm_smul, Real.norm_eq_abs, abs_of_nonneg hb, mul_assoc]
  refine mul_le_mul_of_nonneg_left ?_ hb
  have hpos : ‖W.pos x - W.pos y‖ ≤ 2 * ‖x - y‖ := by
    rw [← map_sub]
    exact W.pos.le_of_opNorm_le hp _
  have hL2 := h.nonneg
  have h4 := (driftD_lip (hm := hm) h hhi hlh ζ.1 (W.pos x) (W.pos y)).trans
    (mul_le_mul_of_nonneg_left hpos (by positivity))
  exact comp_le hk h4 hp (by positivity) |>.trans (le_of_eq (by ring))

theorem stepPD_meas (h : ConvexBatches ν U γ μ L L₂ Λ) (x v : F) : Measurable fun ζ => stepPD m hm γ b W x ζ v := by
  refine measurable_of_tendsto_metrizable (f := fun (n : Nat) ζ => ((n : ℝ) + 1) • (stepP m hm γ b W 0 (x + ((n : ℝ) + 1)⁻¹ • v) ζ
    - stepP m hm γ b W 0 x ζ)) (fun n => ?_) ?_
  · have hx : ∀ x, Measurable (stepP m hm γ b W 0 x) := fun x => (stepP_measurable h).comp (measurable_const.prodMk measurable_id)
    exact ((hx _).sub (hx _)).const_smul ((n : ℝ) + 1)
  · rw [tendsto_pi_nhds]
    intro ζ
    refine (stepP_deriv (R := 0) h x ζ).lim v ?_
    have : Filter.Tendsto (fun n : Nat => (n : ℝ) + 1) Filter.atTop Filter.atTop :=
      Filter.tendsto_atTop_add_const_right _ _ tendsto_natCast_atTop_atTop
    exact tendsto_norm_atTop_atTop.comp this

theorem stepP_int (h : ConvexBatches ν U γ μ L L₂ Λ) (hlh : ∀ j, m j ≤ hi) (hhi : 0 ≤ hi) (hb : 0 ≤ b) (hk : ‖W.kick‖ ≤ 2) (hp : ‖W.pos‖ ≤ 2) (hN : Noise N) :
    Integrable (fun ζ => ‖stepP m hm γ b W R 0 ζ‖) (ν.prod N) := by
  have := hN.prob
  refine ((((sq_nu h).const_mul (b * (2 * √(hi * Fintype.card J)))).comp_fst N).add ((hN.norm.const_mul (2 * ‖R‖)).comp_snd ν)).mono'
    ((stepP_measurable h).comp (measurable_const.prodMk measurable_id)).norm.aestronglyMeasurable (.of_forall fun ζ => ?_)
  simp only [norm_norm, Pi.add_apply]
  unfold stepP driftE
  rw [map_zero, map_zero, map_zero, zero_sub]
  have hk : ∀ v, ‖W.kick v‖ ≤ 2 * ‖v‖ := W.kick.le_of_opNorm_le hk
  refine (norm_add_le _ _).trans (add_le_add ?_ ?_)
  · rw [norm_neg, norm_smul, Real.norm_eq_abs, abs_of_nonneg hb, mul_assoc, massL_apply, mul_assoc]
    exact mul_le_mul_of_nonneg_left ((hk _).trans (mul_le_mul_of_nonneg_left (scaled_mul_le hlh _) (by norm_num))) hb
  · refine (hk _).trans ?_
    rw [mul_assoc]
    exact mul_le_mul_of_nonneg_left (R.le_opNorm _) (by norm_num)

end ConvexBatches

end

/-- The moves of the algorithm with momentum. -/
noncomputable def moves (β : ℝ) : Moves J (Phase J) := ⟨keepL β, kickL β, posL⟩

namespace ConvexBatches

theorem stepP_near (h : ConvexBatches ν U γ μ L L₂ Λ) (hlo : 0 < lo) (hlh : ∀ j, lo ≤ m j ∧ m j ≤ hi) (hb : 0 ≤ b) (hβ0 : 0 ≤ β) (hβ1 : β < 1)
    (hL : b * hi * L * (2 + 8 / (1 - β ^ 2)) ≤ 1) (x y : Phase J) (ζ : Bt × EuclideanSpace ℝ J) :
    ‖stepP m hm γ b (moves β) R x ζ - stepP m hm γ b (moves β) R y ζ‖ ≤ √(1 - b * μ * lo / 2) * ‖x - y‖ := by
  set T := scaled m hm with hT
  have hp : ∀ j, T.symm (posL x) j - T.symm (posL y) j = T.symm (x.fst - y.fst) j - T.symm (x.snd - y.snd) j := fun j => by
    rw [posL_apply, posL_apply, map_sub, map_sub, map_sub, map_sub]
    simp only [Pi.sub_apply]
    ring
  have g1 := h.pulls ζ.1 (T.symm (posL x)) (T.symm (posL y))
  have g2 := h.cocoercive ζ.1 (T.symm (posL x)) (T.symm (posL y))
  simp only [hp] at g1 g2
  have h1 := momentum_step (q := T.symm (x.fst - y.fst)) (u := T.symm (x.snd - y.snd))
    (δ := fun j => γ ζ.1 (T.symm (posL x)) j - γ ζ.1 (T.symm (posL y)) j) hlo hlh h.pos.le hb hβ0 hβ1 g1 g2 h.le hL
  rw [← scaled_sq (hm := hm), ← scaled_sq (hm := hm), ← scaled_sq (hm := hm), ← scaled_sq (hm := hm), ← hT, T.apply_symm_apply,
    T.apply_symm_apply] at h1
  set δ := driftE m hm γ ζ.1 (posL x) - driftE m hm γ ζ.1 (posL y) with hδ
  have eδ : T (m * (γ ζ.1 (T.symm (posL x)) - γ ζ.1 (T.symm (posL y)))) = δ := by
    rw [hδ, mul_sub, map_sub]; rfl
  have e1 : T (fun j => T.symm (x.fst - y.fst) j - b * m j * (γ ζ.1 (T.symm (posL x)) j - γ ζ.1 (T.symm (posL y)) j))
      = (x.fst - y.fst) - b • δ := by
    have : (fun j => T.symm (x.fst - y.fst) j - b * m j * (γ ζ.1 (T.symm (posL x)) j - γ ζ.1 (T.symm (posL y)) j))
        = T.symm (x.fst - y.fst) - b • (m * (γ ζ.1 (T.symm (posL x)) - γ ζ.1 (T.symm (posL y)))) := by
      funext j
      simp only [Pi.sub_apply, Pi.smul_apply, Pi.mul_apply, smul_eq_mul]
      ring
    rw [this, map_sub, map_smul, T.apply_symm_apply, eδ]
  have e2 : T (fun j => β * T.symm (x.snd - y.snd) j - β * b * m j * (γ ζ.1 (T.symm (posL x)) j - γ ζ.1 (T.symm (posL y)) j))
      = β • (x.snd - y.snd) - (b * β) • δ := by
    have : (fun j => β * T.symm (x.snd - y.snd) j - β * b * m j * (γ ζ.1 (T.symm (posL x)) j - γ ζ.1 (T.symm (posL y)) j))
        = β • T.symm (x.snd - y.snd) - (b * β) • (m * (γ ζ.1 (T.symm (posL x)) - γ ζ.1 (T.symm (posL y)))) := by
      funext j
      simp only [Pi.sub_apply, Pi.smul_apply, Pi.mul_apply, smul_eq_mul]
      ring
    rw [this, map_sub, map_smul, map_smul, T.apply_symm_apply, eδ]
  rw [e1, e2] at h1
  have f1 : (stepP m hm γ b (moves β) R x ζ - stepP m hm γ b (moves β) R y ζ).fst = (x.fst - y.fst) - b • δ := by
    unfold stepP moves
    simp only [WithLp.sub_fst, WithLp.add_fst, WithLp.smul_fst, keepL_fst, kickL_fst, hδ]
    module
  have f2 : (stepP m hm γ b (moves β) R x ζ - stepP m hm γ b (moves β) R y ζ).snd = β • (x.snd - y.snd) - (b * β) • δ := by
    unfold stepP moves
    simp only [WithLp.sub_snd, WithLp.add_snd, WithLp.smul_snd, keepL_snd, kickL_snd, hδ]
    module
  rw [← f1, ← f2, ← WithLp.prod_norm_sq_eq_of_L2,
    show ‖x.fst - y.fst‖ ^ 2 + ‖x.snd - y.snd‖ ^ 2 = ‖x - y‖ ^ 2 from (WithLp.prod_norm_sq_eq_of_L2 (x - y)).symm] at h1
  calc ‖stepP m hm γ b (moves β) R x ζ - stepP m hm γ b (moves β) R y ζ‖ = √(‖stepP m hm γ b (moves β) R x ζ - stepP m hm γ b (moves β) R y ζ‖ ^ 2) := by
        rw [Real.sqrt_sq (norm_nonneg _)]
    _ ≤ √((1 - b * μ * lo / 2) * ‖x - y‖ ^ 2) := Real.sqrt_le_sqrt h1
    _ = _ := by rw [Real.sqrt_mul' _ (sq_nonneg _), Real.sqrt_sq (norm_nonneg _)]

theorem stepP_step (h : ConvexBatches ν U γ μ L L₂ Λ) (hN : Noise N) (hlo : 0 < lo) (hlh : ∀ j, lo ≤ m j ∧ m j ≤ hi) (hhi : 0 ≤ hi)
    (hb : 0 ≤ b) (hβ0 : 0 ≤ β) (hβ1 : β < 1) (hL : b * hi * L * (2 + 8 / (1 - β ^ 2)) ≤ 1) :
    Step (ν.prod N) (stepP m hm γ b (moves β) R) (stepPD m hm γ b (moves β)) (√(1 - b * μ * lo / 2)) (b * (8 * (√(hi * Fintype.card J) * (L₂ * hi)))) where
  deriv := stepP_deriv h
  contr x ζ := (stepP_deriv (R := R) h x ζ).le_of_lip' (Real.sqrt_nonneg _)
    (.of_forall fun y => stepP_near h hlo hlh hb hβ0 hβ1 hL y x ζ)
  lip := stepPD_lip h (fun j => (hlh j).2) hhi hb (kickL_norm hβ0 hβ1.le) posL_norm
  nonneg := by
    have := h.nonneg
    positivity
  meas := stepP_measurable h
  measD := stepPD_meas h
  int := stepP_int h (fun j => (hlh j).2) hhi hb (kickL_norm hβ0 hβ1.le) posL_norm hN

end ConvexBatches

end PySGMCMC.Langevin
