import Verif.Props.SgldForgets
import Verif.Lemmas.SteinSeparable

/-!
# C132 and C133: SGLD samples posteriors with several modes

C128 says that the samples approach a stationary law, whatever the cost.  Here that law is compared with the posterior: for a cost that is a
sum over the parameters, averages of either differ by at most a constant times the square root of the stepsize.  The constant does not
depend on the stepsize.  The cost need not be convex in any parameter.  C133 is about the mixtures that the package defines as benchmarks.
-/

namespace PySGMCMC.Chain
open SamplerBase BurnInStats Spec MeasureTheory ProbabilityTheory Contraction Invariance Recipe Harris

variable {n : Nat} {size : Fin n → Nat} {Bt : Type} [MeasurableSpace Bt]

/-- **C132** SGLD samples the posterior of costs that are not convex, up to an error of the order of the square root of the stepsize. -/
theorem C132_sgld_posterior [Nonempty (Elem (Pos size))] {ν : Measure Bt} [IsProbabilityMeasure ν] {U u u' : Elem (Pos size) → ℝ → ℝ}
    {G : Elem (Pos size) → Bt → ℝ → ℝ} {a₀ b₀ L Λ : ℝ} {g : Bt → ℝ} (hU : ∀ q, Stein.Well (U q) (u q) (u' q) a₀ b₀ L)
    (hG : ∀ q, Stein.Batches ν (u q) (G q) Λ g) (scale : ℝ) (hs : 0 < scale) :
    ∃ (c : Elem (Pos size) → ℝ) (K : ℝ), (∀ q, ∫ y, Real.exp (-((scale + 3e-16) * U q y + c q)) = 1) ∧ 0 ≤ K ∧
    ∀ (mass : Elem (Pos size) → ℝ), (∀ q, 0 < mass q) → ∀ (t : ℝ), 0 < t → (∀ q, t * mass q * Λ ≤ a₀) →
    ∃ C ρ : ℝ, 0 ≤ C ∧ 0 ≤ ρ ∧ ρ < 1 ∧
    ∀ {F : Feeder} (W : SGLDWorld size) (ok : Dict Key Arr → Bool) {Ω : Type} [MeasurableSpace Ω] (P : Measure Ω)
      (S : Ω → ∀ N, Script F N) (Pb : ∀ ω N, Problem (S ω N) W.grad W.cost ok) (gen : Ω → Option F.Batch) (sched : F.Sched) (eps : Nat → ℝ)
      (b0 : Nat → Bt) (β : Nat → Ω → Bt) (a : ℝ) (B : Nat) (e : ℝ) (z0 : Nat → ∀ i, Pos size i → ℝ) (z : Nat → ∀ i, Pos size i → Ω → ℝ)
      (order : Ω → Nat → SGLD.Schedule (Fin n)) (θ : ∀ i, Pos size i → ℝ) (eps0 : Fl),
      (∀ ω N, (S ω N).batch 0 = gen ω) → (∀ ω N, (S ω N).sched 0 = sched) → (∀ ω N, (S ω N).eps = eps) →
      (∀ ω N k θ i p, (Pb ω N).γ k θ i p = G ⟨i, p⟩ (batchesAfter B b0 β ω k) (θ i p)) → RandomSteps ν P β z →
      W.a = .fin a → W.scaleGrad = .fin scale → 0 < B → e * a = t → (∀ k, B ≤ k → eps k = e) →
      let world : Ω → SGLDWorld size := fun ω =>
        { W with normal := fun k i p => .fin (drawsAfter B z0 z ω k i p), order := order ω }
      let atEnd := sgldVec a scale B eps (fun k θ i p => G ⟨i, p⟩ (b0 k) (θ i p)) z0 θ B
      (∀ i p, (atEnd i p).mass = mass ⟨i, p⟩) →
      ∃ X : Nat → Ω → Elem (Pos size) → ℝ,
        (∀ N ω, ∃ cost : Nat → Fl,
          (calls (asIter (burnInNext (env F (world ω).graph ok) B n)) N
              (init (gen ω) sched ⟨SGLD.State.init fun i p => .fin (θ i p), eps0, 0⟩)).1
            = (List.range N).map (fun k : Nat =>
                let arrays := List.ofFn fun i => flat fun p => .fin (X (k + 1) ω ⟨i, p⟩)
                .ok ((if (k : Int) < B then .many arrays else unravel arrays), cost k)))
        ∧ ∀ (q : Elem (Pos size)) {φ φ' : ℝ → ℝ} {A : ℝ}, (∀ x, HasDerivAt φ (φ' x) x) → (∀ x, |φ' x| ≤ A) →
          let posterior := ∫ y, φ y * Real.exp (-((scale + 3e-16) * U q y + c q))
          let start := C * (1 + ∑ q : Elem (Pos size), (atEnd q.1 q.2).pos ^ 2)
          (∀ k, Integrable (fun ω => φ (X (B + k) ω q)) P ∧
            |∫ ω, φ (X (B + k) ω q) ∂P - posterior| ≤ A * start * ρ ^ k + K * √(t * mass q) * A)
          ∧ ∀ {I : Finset Nat}, I.Nonempty →
            Integrable (fun ω => ((∑ k ∈ I, φ (X (B + k) ω q)) / I.card - posterior) ^ 2) P ∧
            ∫ ω, ((∑ k ∈ I, φ (X (B + k) ω q)) / I.card - posterior) ^ 2 ∂P
              ≤ 2 * (A ^ 2 * start / I.card) + 2 * (K * √(t * mass q) * A) ^ 2 := by
  have hs' : 0 < scale + 3e-16 := by positivity
  choose c K hK0 hc hK using fun q => Stein.sgld_bias (hU q) (hG q) hs'
  refine ⟨c, ∑ q, K q, hc, Finset.sum_nonneg fun q _ => hK0 q, fun mass hmass t ht hst => ?_⟩
  have hconf : Confining ν (flatGrad fun β (θ : ∀ i, Pos size i → ℝ) i p => G ⟨i, p⟩ β (θ i p)) a₀ (∑ _q : Elem (Pos size), b₀) Λ
      (fun β => ∑ _q : Elem (Pos size), g β) := Stein.confining hU hG
  obtain ⟨π, C, ρ, hπ, hπ2, hC, hρ0, hρ1, hinv, h⟩ := C128_sgld_forgets hconf (fun β i θ θ' h => by funext p; simp only [h])
    scale hs mass hmass t ht hst
  refine ⟨C, ρ, hC, hρ0, hρ1, ?_⟩
  intro F W ok Ω _ P S Pb gen sched eps b0 β a B e z0 z order θ eps0 hgen hsched heps hPb hR ha hsc hB het he world atEnd hm
  have := hR.prob
  obtain ⟨X, hX, hb⟩ := h W ok P S Pb gen sched eps b0 β a B e z0 z order θ eps0 hgen hsched heps
    (fun ω N k θ => by funext i p; exact hPb ω N k θ i p) hR ha hsc hB het he hm
  refine ⟨X, hX, ?_⟩
  intro q φ φ' A hφ hA posterior start
  have hA0 : 0 ≤ A := (abs_nonneg _).trans (hA 0)
  have cφ : Continuous φ := continuous_iff_continuousAt.2 fun x => (hφ x).continuousAt
  have mq : Measurable fun x : Elem (Pos size) → ℝ => x q := measurable_pi_apply q
  have mT : Measurable fun (w : (Elem (Pos size) → ℝ) × (Bt × (Elem (Pos size) → ℝ))) (q : Elem (Pos size)) =>
      w.1 q - t * mass q * flatGrad (fun β (θ : ∀ i, Pos size i → ℝ) i p => G ⟨i, p⟩ β (θ i p)) w.2.1 w.1 q
        + √(2 * t * mass q / (scale + 3e-16)) * w.2.2 q := hconf.measurable_langevin
  have mF : Measurable fun w : ℝ × (Bt × ℝ) => w.1 - t * mass q * G q w.2.1 w.1 + √(2 * (t * mass q) / (scale + 3e-16)) * w.2.2 :=
    (measurable_fst.sub (((hG q).meas.comp ((measurable_fst.comp measurable_snd).prodMk measurable_fst)).const_mul _)).add
      ((measurable_snd.comp measurable_snd).const_mul _)
  have hstat := Stein.eval_law q mq mT mF (fun w => by simp only [flatGrad, mul_assoc]) hinv
  have hpr : IsProbabilityMeasure (π.map fun x : Elem (Pos size) → ℝ => x q) := Measure.isProbabilityMeasure_map mq.aemeasurable
  have hsq : Integrable (fun x : ℝ => x ^ 2) (π.map fun x : Elem (Pos size) → ℝ => x q) := by
    refine (integrable_map_measure (measurable_id.pow_const 2).aestronglyMeasurable mq.aemeasurable).2 ?_
    refine hπ2.mono' (mq.pow_const 2).aestronglyMeasurable (.of_forall fun x => ?_)
    rw [Real.norm_eq_abs, Function.comp, abs_of_nonneg (sq_nonneg _)]
    exact Finset.single_le_sum (f := fun q => x q ^ 2) (fun _ _ => sq_nonneg _) (Finset.mem_univ q)
  have hbias := hK q (mul_pos ht (hmass q)) (hst q) hsq hstat hφ hA
  have hint : Integrable (fun x : Elem (Pos size) → ℝ => φ (x q) - φ 0) π := by
    refine (((integrable_const 1).add hπ2).const_mul A).mono' ((cφ.measurable.comp mq).sub_const _).aestronglyMeasurable (.of_forall fun x => ?_)
    rw [Real.norm_eq_abs]
    exact (Stein.growth_of_deriv hφ hA x q).1
  have hm' : ∫ x : Elem (Pos size) → ℝ, (φ (x q) - φ 0) ∂π + φ 0 = ∫ y, φ y ∂(π.map fun x : Elem (Pos size) → ℝ => x q) := by
    have i1 : Integrable (fun x : Elem (Pos size) → ℝ => φ (x q)) π :=
      (hint.add (integrable_const (φ 0))).congr (.of_forall fun x => by simp)
    rw [integral_sub i1 (integrable_const _), integral_map mq.aemeasurable cφ.measurable.aestronglyMeasurable]
    simp
  obtain ⟨h1, h2⟩ := hb (f := fun x => φ (x q) - φ 0) ((cφ.measurable.comp mq).sub_const _) hA0
  refine Stein.combine (y₀ := φ 0) (h1 fun x => (Stein.growth_of_deriv hφ hA x q).1)
    (fun {I} hI => h2 (fun x => (Stein.growth_of_deriv hφ hA x q).2) hI) ?_
  rw [hm']
  refine hbias.trans ?_
  have h5 : K q ≤ ∑ q, K q := Finset.single_le_sum (f := K) (fun q _ => hK0 q) (Finset.mem_univ q)
  gcongr

/-! ## A cost with many minima -/

theorem bumpy_well : Stein.Well (fun x => x ^ 2 / 2 - 3 * Real.cos x) (fun x => x + 3 * Real.sin x) (fun x => 1 + 3 * Real.cos x) (1 / 2) (9 / 2) 4 where
  deriv x := by
    refine ((((hasDerivAt_id' x).pow 2).div_const 2).sub ((Real.hasDerivAt_cos x).const_mul 3)).congr_deriv ?_
    simp only [Nat.cast_ofNat, Nat.add_one_sub_one, pow_one]
    ring
  deriv2 x := (hasDerivAt_id' x).add ((Real.hasDerivAt_sin x).const_mul 3)
  lip x := by
    rw [abs_le]
    constructor <;> linarith [Real.cos_le_one x, Real.neg_one_le_cos x]
  pos := by norm_num
  slack := by norm_num
  inward x := by nlinarith [Real.sin_sq_le_one x, sq_nonneg (x + 3 * Real.sin x)]

theorem bumpy_batches : Stein.Batches (gaussianReal 0 1) (fun x => x + 3 * Real.sin x) (fun β x => x - β + 3 * Real.sin x) 3 (fun β => β ^ 2 + 9) where
  meas := (measurable_snd.sub measurable_fst).add ((Real.measurable_sin.comp measurable_snd).const_mul 3)
  growth β x := by
    nlinarith [Real.sin_sq_le_one x, sq_nonneg (x + β), sq_nonneg (x - 3 * Real.sin x), sq_nonneg (β + 3 * Real.sin x)]
  nonneg β := by positivity
  int := (memLp_id_gaussianReal 2).integrable_sq.add (integrable_const 9)
  bound := by norm_num
  mean x := by
    have hi : Integrable (fun t : ℝ => t) (gaussianReal 0 1) := (memLp_id_gaussianReal 1).integrable le_rfl
    have h3 : Integrable (fun t : ℝ => x - t) (gaussianReal 0 1) := (integrable_const x).sub hi
    rw [integral_add h3 (integrable_const _), integral_sub (integrable_const _) hi, integral_id_gaussianReal]
    simp

/-- Whatever the parameters and wherever the run starts, the mean of a parameter is estimated up to a multiple of the square root of the
stepsize, though the cost has many minima. -/
example [Nonempty (Elem (Pos size))] (order : Nat → SGLD.Schedule (Fin n)) : ∃ c K : ℝ,
    ∫ y, Real.exp (-((10 + 3e-16) * (y ^ 2 / 2 - 3 * Real.cos y) + c)) = 1 ∧ 0 ≤ K ∧ ∀ t : ℝ, 0 < t → t ≤ 1 / 6 →
    ∃ C ρ : ℝ, ρ < 1 ∧ ∀ θ : ∀ i, Pos size i → ℝ,
    ∃ (Ω : Type) (_ : MeasurableSpace Ω) (P : Measure Ω) (β : Nat → Ω → ℝ) (z : Nat → ∀ i, Pos size i → Ω → ℝ)
      (X : Nat → Ω → Elem (Pos size) → ℝ),
      RandomSteps (gaussianReal 0 1) P β z
      ∧ (∀ N ω, ∃ cost : Nat → Fl,
        (calls (asIter (burnInNext (env (streamFeeder t) (SGLDWorld.graph
            ⟨.fin 10, .fin 1, bumpyFl, fun _ _ => 0, fun k i p => .fin (drawsAfter 1 (fun _ _ _ => 0) z ω k i p), order⟩) fun _ => true) (1 : Nat) n)) N
            (init (some (batchesAfter 1 (fun _ => 0) β ω, 0)) () ⟨SGLD.State.init fun i p => .fin (θ i p), .fin 0, 0⟩)).1
          = (List.range N).map (fun k : Nat =>
              let arrays := List.ofFn fun i => flat fun p => .fin (X (k + 1) ω ⟨i, p⟩)
              .ok ((if (k : Int) < (1 : Nat) then .many arrays else unravel arrays), cost k)))
      ∧ ∃ R, ∀ q k, |∫ ω, X (1 + k) ω q ∂P - ∫ y, y * Real.exp (-((10 + 3e-16) * (y ^ 2 / 2 - 3 * Real.cos y) + c))| ≤ C * R * ρ ^ k + K * √t := by
  obtain ⟨c, K, hc, hK, h⟩ := C132_sgld_posterior (size := size) (U := fun _ x => x ^ 2 / 2 - 3 * Real.cos x) (G := fun _ β x => x - β + 3 * Real.sin x)
    (fun _ => bumpy_well) (fun _ => bumpy_batches) 10 (by norm_num)
  obtain ⟨q₀⟩ := ‹Nonempty (Elem (Pos size))›
  have hcq : ∀ q, c q = c q₀ := fun q => by
    have e : ∀ q, ∫ y, Real.exp (-((10 + 3e-16) * (y ^ 2 / 2 - 3 * Real.cos y) + c q))
        = Real.exp (-c q) * ∫ y, Real.exp (-((10 + 3e-16) * (y ^ 2 / 2 - 3 * Real.cos y))) := fun q => by
      rw [← integral_const_mul]
      congr 1
      funext y
      rw [← Real.exp_add]
      congr 1
      ring
    have h1 := hc q
    have h2 := hc q₀
    rw [e] at h1 h2
    have h3 : ∫ y, Real.exp (-((10 + 3e-16) * (y ^ 2 / 2 - 3 * Real.cos y))) ≠ 0 := by
      intro h0
      rw [h0, mul_zero] at h1
      exact zero_ne_one h1
    have h4 := mul_right_cancel₀ h3 (h1.trans h2.symm)
    linarith [Real.exp_injective h4]
  refine ⟨c q₀, K, hc q₀, hK, fun t ht ht6 => ?_⟩
  obtain ⟨C, ρ, -, -, h2, h⟩ := h (fun _ => 1 / (1 + 3e-16)) (fun _ => by norm_num) t ht (fun _ => by
    have : (1 : ℝ) / (1 + 3e-16) ≤ 1 := by norm_num
    nlinarith)
  refine ⟨C, ρ, h2, fun θ => ?_⟩
  obtain ⟨Ω, mΩ, P, ζ, h1, h2, h3, h4⟩ := exists_iid Nat ((gaussianReal 0 1).prod (Measure.pi fun _ : Elem (Pos size) => gaussianReal 0 1))
  have hR : RandomSteps (gaussianReal 0 1) P (fun k ω => (ζ k ω).1) (fun k i p ω => (ζ k ω).2 ⟨i, p⟩) :=
    ⟨h4, fun k => (h1 k).fst, fun k i p => (measurable_pi_apply _).comp (h1 k).snd, h3, fun k => (h2 k).map_eq⟩
  have hmass : ∀ i p, (sgldVec (κ := Pos size) 1 10 (1 : Nat) (fun _ => t) (fun k θ i p => θ i p - 0 + 3 * Real.sin (θ i p)) (fun _ _ _ => 0) θ 1 i p).mass
      = 1 / (1 + 3e-16) := by
    intro i p
    simp only [sgldVec, sgldStep, Coord.start, Coord.massUsed, after_false Nat.zero_lt_one, Bool.false_eq_true, if_false, Real.sqrt_one]
  obtain ⟨X, hX, hb⟩ := h (F := streamFeeder t) ⟨.fin 10, .fin 1, bumpyFl, fun _ _ => 0, fun _ _ _ => 0, order⟩ (fun _ => true) P
    (fun ω => streamScript t (batchesAfter 1 (fun _ => 0) (fun k ω => (ζ k ω).1) ω))
    (fun ω => bumpyProblem t (batchesAfter 1 (fun _ => 0) (fun k ω => (ζ k ω).1) ω))
    (fun ω => some (batchesAfter 1 (fun _ => 0) (fun k ω => (ζ k ω).1) ω, 0)) () (fun _ => t) (fun _ => 0) (fun k ω => (ζ k ω).1) 1 1 t
    (fun _ _ _ => 0) (fun k i p ω => (ζ k ω).2 ⟨i, p⟩) (fun _ => order) θ (.fin 0) (fun _ _ => rfl) (fun _ _ => rfl) (fun _ _ => rfl)
    (fun _ _ _ _ _ _ => rfl) hR rfl rfl one_pos (mul_one t) (fun _ _ => rfl) hmass
  refine ⟨Ω, mΩ, P, _, _, X, hR, hX, 1 + ∑ q : Elem (Pos size),
    (sgldVec 1 10 (1 : Nat) (fun _ => t) (fun _ θ i p => θ i p - 0 + 3 * Real.sin (θ i p)) (fun _ _ _ => 0) θ 1 q.1 q.2).pos ^ 2, fun q k => ?_⟩
  have h5 := ((hb q (φ := fun x => x) (φ' := fun _ => 1) (A := 1) (fun x => hasDerivAt_id' x) (fun x => by simp)).1 k).2
  rw [hcq q] at h5
  refine h5.trans (add_le_add (le_of_eq (by ring)) ?_)
  rw [mul_one]
  refine mul_le_mul_of_nonneg_left (Real.sqrt_le_sqrt ?_) hK
  exact mul_le_of_le_one_right ht.le (by norm_num)

/-! ## Mixtures of Gaussians -/

section mixtures
open Objectives
variable {cs : List Component}

/-- A normal density with the smaller variance, times the square of a linear function, is at most a multiple of the other density. -/
theorem pdf_dominated {v v' : ℝ} (hv : 0 < v) (hvv : v < v') (μ μ' : ℝ) : ∃ κ, 0 ≤ κ ∧ ∀ x,
    gaussianPDFReal μ v.toNNReal x * ((x - μ) / v - (x - μ') / v') ^ 2 ≤ κ * gaussianPDFReal μ' v'.toNNReal x := by
  have hv' : 0 < v' := hv.trans hvv
  have hd : 0 < v' - v := by linarith
  set D := (μ - μ') ^ 2 / (2 * (v' - v)) with hD
  set d := (v' - v) / (v * v') with hd'
  have hd0 : 0 < d := by positivity
  have hn : 0 < √(2 * Real.pi * v) := Real.sqrt_pos.2 (by positivity)
  have hn' : 0 < √(2 * Real.pi * v') := Real.sqrt_pos.2 (by positivity)
  refine ⟨(√(2 * Real.pi * v))⁻¹ * √(2 * Real.pi * v') * (Real.exp D * (2 * d)), by positivity, fun x => ?_⟩
  rw [gaussianPDFReal_def, gaussianPDFReal_def, Real.coe_toNNReal v hv.le, Real.coe_toNNReal v' hv'.le]
  set R := (x - μ) / v - (x - μ') / v' with hR
  have e1 : -(x - μ) ^ 2 / (2 * v) = -(x - μ') ^ 2 / (2 * v') + D + -(R ^ 2 / (2 * d)) := by
    have h1 := hv.ne'
    have h2 := hv'.ne'
    have h3 := hd.ne'
    rw [hD, hR, hd']
    field_simp
    ring
  have h1 : Real.exp (-(R ^ 2 / (2 * d))) * R ^ 2 ≤ 2 * d := by
    have h2 : R ^ 2 / (2 * d) ≤ Real.exp (R ^ 2 / (2 * d)) := by linarith [Real.add_one_le_exp (R ^ 2 / (2 * d))]
    have h3 : Real.exp (-(R ^ 2 / (2 * d))) * (R ^ 2 / (2 * d)) ≤ 1 := by
      rw [Real.exp_neg, inv_mul_le_iff₀ (Real.exp_pos _), mul_one]
      exact h2
    calc Real.exp (-(R ^ 2 / (2 * d))) * R ^ 2 = Real.exp (-(R ^ 2 / (2 * d))) * (R ^ 2 / (2 * d)) * (2 * d) := by
          have := hd0.ne'
          field_simp
      _ ≤ 1 * (2 * d) := mul_le_mul_of_nonneg_right h3 (by positivity)
      _ = 2 * d := one_mul _
  beta_reduce
  rw [e1, Real.exp_add, Real.exp_add]
  have h4 : 0 ≤ (√(2 * Real.pi * v))⁻¹ * (Real.exp (-(x - μ') ^ 2 / (2 * v')) * Real.exp D) := by positivity
  calc (√(2 * Real.pi * v))⁻¹ * (Real.exp (-(x - μ') ^ 2 / (2 * v')) * Real.exp D * Real.exp (-(R ^ 2 / (2 * d)))) * R ^ 2
      = (√(2 * Real.pi * v))⁻¹ * (Real.exp (-(x - μ') ^ 2 / (2 * v')) * Real.exp D) * (Real.exp (-(R ^ 2 / (2 * d))) * R ^ 2) := by ring
    _ ≤ (√(2 * Real.pi * v))⁻¹ * (Real.exp (-(x - μ') ^ 2 / (2 * v')) * Real.exp D) * (2 * d) := mul_le_mul_of_nonneg_left h1 h4
    _ = _ := by
      have := hn'.ne'
      field_simp

/-- The spread of the slopes of the components, weighted by their densities, is at most a multiple of the density of the mixture. -/
theorem mixture_spread (hcs : ∀ c ∈ cs, c.Valid) (hw : ∃ c ∈ cs, 0 < c.weight) : ∃ κ, 0 ≤ κ ∧ ∀ x, ∃ y,
    (cs.map fun c => c.weight * gaussianPDFReal c.mean c.variance.toNNReal x * ((x - c.mean) / c.variance - y) ^ 2).sum ≤ κ * mixtureDensity cs x := by
  obtain ⟨d, ⟨hd, hdw⟩, hmax⟩ := Set.exists_max_image {c | c ∈ cs ∧ 0 < c.weight} (fun c => c.variance)
    ((List.finite_toSet cs).subset fun c hc => hc.1) (by obtain ⟨c, h⟩ := hw; exact ⟨c, h⟩)
  have hle : ∀ c ∈ cs, ∀ x, c.weight * gaussianPDFReal c.mean c.variance.toNNReal x ≤ mixtureDensity cs x := fun c hc x => by
    have h1 : ∀ y ∈ cs.map fun c => c.weight * gaussianPDFReal c.mean c.variance.toNNReal x, 0 ≤ y := by
      intro y hy
      obtain ⟨c, hc, rfl⟩ := List.mem_map.1 hy
      exact mul_nonneg (hcs c hc).1 (gaussianPDFReal_nonneg _ _ _)
    exact List.single_le_sum h1 _ (List.mem_map.2 ⟨c, hc, rfl⟩)
  have key : ∀ c ∈ cs, ∃ κ, 0 ≤ κ ∧ ∀ x,
      c.weight * gaussianPDFReal c.mean c.variance.toNNReal x * ((x - c.mean) / c.variance - (x - d.mean) / d.variance) ^ 2 ≤ κ * mixtureDensity cs x := by
    intro c hc
    rcases (hcs c hc).1.eq_or_lt with h0 | h0
    · refine ⟨0, le_rfl, fun x => ?_⟩
      rw [← h0]
      simp
    · rcases (hmax c ⟨hc, h0⟩).eq_or_lt with h1 | h1
      · refine ⟨((d.mean - c.mean) / d.variance) ^ 2, sq_nonneg _, fun x => ?_⟩
        have h1 : c.variance = d.variance := h1
        have e : (x - c.mean) / c.variance - (x - d.mean) / d.variance = (d.mean - c.mean) / d.variance := by rw [h1]; ring
        rw [e, mul_comm]
        exact mul_le_mul_of_nonneg_left (hle c hc x) (sq_nonneg _)
      · obtain ⟨κ, hκ, h2⟩ := pdf_dominated (hcs c hc).2 h1 c.mean d.mean
        refine ⟨c.weight * κ / d.weight, by positivity, fun x => ?_⟩
        have h3 := mul_le_mul_of_nonneg_left (h2 x) h0.le
        have h4 : c.weight * κ / d.weight * (d.weight * gaussianPDFReal d.mean d.variance.toNNReal x) ≤ c.weight * κ / d.weight * mixtureDensity cs x :=
          mul_le_mul_of_nonneg_left (hle d hd x) (by positivity)
        refine le_trans (le_of_eq (by ring)) (h3.trans (le_trans (le_of_eq ?_) h4))
        have := hdw.ne'
        field_simp
  choose! κ hκ0 hκ using key
  refine ⟨(cs.map κ).sum, List.sum_nonneg fun y hy => ?_, fun x => ⟨(x - d.mean) / d.variance, ?_⟩⟩
  · obtain ⟨c, hc, rfl⟩ := List.mem_map.1 hy
    exact hκ0 c hc
  · rw [← List.sum_map_mul_right]
    exact sum_map_le _ fun c hc => hκ c hc x

theorem sum_map_sub' {α : Type} (l : List α) (f g : α → ℝ) : (l.map fun a => f a - g a).sum = (l.map f).sum - (l.map g).sum := by
  induction l with
  | nil => simp
  | cons a l ih =>
    simp only [List.map_cons, List.sum_cons, ih]
    ring

/-- The slope of the density of a mixture has a derivative. -/
theorem slope_deriv (hcs : ∀ c ∈ cs, c.Valid) (x : ℝ) : HasDerivAt
    (fun x => (cs.map fun c => c.weight * gaussianPDFReal c.mean c.variance.toNNReal x * ((x - c.mean) / c.variance)).sum)
    (cs.map fun c => c.weight * gaussianPDFReal c.mean c.variance.toNNReal x * (1 / c.variance - ((x - c.mean) / c.variance) ^ 2)).sum x := by
  induction cs with
  | nil => simpa using hasDerivAt_const x (0 : ℝ)
  | cons c cs ih =>
    have h1 : HasDerivAt (fun x => (x - c.mean) / c.variance) (1 / c.variance) x := ((hasDerivAt_id' x).sub_const c.mean).div_const c.variance
    have h2 := (((pdf_deriv (hcs c (by simp)).2 c.mean x).const_mul c.weight).mul h1).add (ih fun d hd => hcs d (by simp [hd]))
    simp only [List.map_cons, List.sum_cons]
    refine h2.congr_deriv ?_
    ring

/-- The second derivative of the negative logarithm of the density of a mixture. -/
noncomputable def curvature (cs : List Component) (x : ℝ) : ℝ :=
  (cs.map fun c => c.weight * gaussianPDFReal c.mean c.variance.toNNReal x * (1 / c.variance - ((x - c.mean) / c.variance) ^ 2)).sum / mixtureDensity cs x
    + score cs x ^ 2

theorem curvature_deriv (hcs : ∀ c ∈ cs, c.Valid) (hw : ∃ c ∈ cs, 0 < c.weight) (x : ℝ) : HasDerivAt (score cs) (curvature cs x) x := by
  have hp := (mixture_pos hcs hw x).ne'
  refine ((slope_deriv hcs x).div (mixture_deriv hcs x) hp).congr_deriv ?_
  rw [curvature, score]
  field_simp
  ring

theorem curvature_bounds (hcs : ∀ c ∈ cs, c.Valid) (hw : ∃ c ∈ cs, 0 < c.weight) : ∃ L, ∀ x, |curvature cs x| ≤ L := by
  obtain ⟨M, lo, hi, hM, hlo, hhi, h⟩ := mixture_bounds hcs
  obtain ⟨κ, hκ0, hκ⟩ := mixture_spread hcs hw
  refine ⟨1 / lo + κ, fun x => ?_⟩
  obtain ⟨y, hy⟩ := hκ x
  have hp := mixture_pos hcs hw x
  have hwn : ∀ c ∈ cs, 0 ≤ c.weight * gaussianPDFReal c.mean c.variance.toNNReal x := fun c hc =>
    mul_nonneg (hcs c hc).1 (gaussianPDFReal_nonneg _ _ _)
  set S := (cs.map fun c => c.weight * gaussianPDFReal c.mean c.variance.toNNReal x * ((x - c.mean) / c.variance)).sum with hS
  set Q := (cs.map fun c => c.weight * gaussianPDFReal c.mean c.variance.toNNReal x * ((x - c.mean) / c.variance) ^ 2).sum with hQ
  set V := (cs.map fun c => c.weight * gaussianPDFReal c.mean c.variance.toNNReal x * (1 / c.variance)).sum with hV
  have e1 : ∀ y, (cs.map fun c => c.weight * gaussianPDFReal c.mean c.variance.toNNReal x * ((x - c.mean) / c.variance - y) ^ 2).sum
      = Q - 2 * y * S + y ^ 2 * mixtureDensity cs x := fun y => by
    rw [hQ, hS, mixtureDensity, ← List.sum_map_mul_left, ← List.sum_map_mul_left, ← sum_map_sub', ← List.sum_map_add]
    congr 1
    refine List.map_congr_left fun c _ => ?_
    ring
  have e2 : (cs.map fun c => c.weight * gaussianPDFReal c.mean c.variance.toNNReal x * (1 / c.variance - ((x - c.mean) / c.variance) ^ 2)).sum = V - Q := by
    rw [hQ, hV, ← sum_map_sub']
    congr 1
    refine List.map_congr_left fun c _ => ?_
    ring
  have hV0 : 0 ≤ V := List.sum_nonneg fun y hy => by
    obtain ⟨c, hc, rfl⟩ := List.mem_map.1 hy
    exact mul_nonneg (hwn c hc) (one_div_nonneg.2 (hcs c hc).2.le)
  have hV1 : V ≤ 1 / lo * mixtureDensity cs x := by
    rw [hV, mixtureDensity, ← List.sum_map_mul_left]
    refine sum_map_le _ fun c hc => ?_
    rw [mul_comm]
    exact mul_le_mul_of_nonneg_right (one_div_le_one_div_of_le hlo (h c hc).2.1) (hwn c hc)
  have hsc : score cs x = S / mixtureDensity cs x := rfl
  have h0 : 0 ≤ Q - S ^ 2 / mixtureDensity cs x := by
    have h1 : 0 ≤ (cs.map fun c => c.weight * gaussianPDFReal c.mean c.variance.toNNReal x * ((x - c.mean) / c.variance - score cs x) ^ 2).sum :=
      List.sum_nonneg fun y hy => by
        obtain ⟨c, hc, rfl⟩ := List.mem_map.1 hy
        exact mul_nonneg (hwn c hc) (sq_nonneg _)
    rw [e1, hsc] at h1
    refine h1.trans (le_of_eq ?_)
    have := hp.ne'
    field_simp
    ring
  have h1 : Q - S ^ 2 / mixtureDensity cs x ≤ κ * mixtureDensity cs x := by
    rw [e1] at hy
    have h2 : 0 ≤ mixtureDensity cs x * (y - S / mixtureDensity cs x) ^ 2 := by positivity
    have h3 : mixtureDensity cs x * (y - S / mixtureDensity cs x) ^ 2 = S ^ 2 / mixtureDensity cs x - 2 * y * S + y ^ 2 * mixtureDensity cs x := by
      have := hp.ne'
      field_simp
      ring
    linarith
  have e3 : curvature cs x = (V - (Q - S ^ 2 / mixtureDensity cs x)) / mixtureDensity cs x := by
    rw [curvature, e2, hsc]
    have := hp.ne'
    field_simp
    ring
  rw [e3, abs_div, abs_of_pos hp, div_le_iff₀ hp, abs_le]
  have h5 : 0 ≤ 1 / lo * mixtureDensity cs x := by positivity
  have h6 : 0 ≤ κ * mixtureDensity cs x := by positivity
  constructor <;> linarith

/-- Mixtures are wells. -/
theorem mixture_well (hcs : ∀ c ∈ cs, c.Valid) (hw : ∃ c ∈ cs, 0 < c.weight) : ∃ a b L Λ g : ℝ, 0 < a ∧ 0 < Λ ∧
    Stein.Well (fun x => -Real.log (mixtureDensity cs x)) (score cs) (curvature cs) a b L ∧
    Stein.Batches (Measure.dirac ()) (score cs) (fun _ => score cs) Λ (fun _ => g) := by
  obtain ⟨M, lo, hi, hM, hlo, hhi, h⟩ := mixture_bounds hcs
  obtain ⟨L, hL⟩ := curvature_bounds hcs hw
  have hb := score_bounds hcs hw hlo h
  refine ⟨1 / (2 * hi), M ^ 2 / (2 * lo), L, 2 / lo ^ 2, M ^ 2, by positivity, by positivity,
    ⟨score_deriv hcs hw, curvature_deriv hcs hw, hL, by positivity, by positivity, fun x => le_trans (le_of_eq (by ring)) (hb x).2⟩,
    ⟨(score_measurable cs).comp measurable_snd, fun _ x => ?_, fun _ => sq_nonneg M, integrable_const _, by positivity, fun x => integral_dirac _ _⟩⟩
  have h1 : score cs x ^ 2 ≤ ((|x| + M) / lo) ^ 2 := by
    rw [← sq_abs]
    exact pow_le_pow_left₀ (abs_nonneg _) (hb x).1 2
  refine h1.trans ?_
  rw [div_pow, div_mul_eq_mul_div]
  refine div_le_div_of_nonneg_right ?_ (by positivity)
  nlinarith [sq_nonneg (|x| - M), sq_abs x]

/-- **C133** SGLD samples the benchmark mixtures: the cost is the negative of the package's mixture log likelihood, as in C129. -/
theorem C133_sgld_mixtures (hcs : ∀ c ∈ cs, c.Valid) (hw : ∃ c ∈ cs, 0 < c.weight) :
    ∃ ll : ℝ → ℝ, (∀ x, ∀ arg ∈ [MixArg.seq [.number x], .seq [.variable x]],
      gmmLogLikelihood arg (cs.map (·.mean)) (cs.map (·.variance)) (cs.map (·.weight)) = .ok (.fin (ll x))) ∧ Differentiable ℝ ll ∧
    ∃ t₀ > 0, ∀ (scale : ℝ), 0 < scale → ∃ c K : ℝ, ∫ y, Real.exp ((scale + 3e-16) * ll y - c) = 1 ∧ 0 ≤ K ∧
    ∀ (mass : ℝ), 0 < mass → ∀ (t : ℝ), 0 < t → t * mass ≤ t₀ → ∃ C ρ : ℝ, 0 ≤ C ∧ 0 ≤ ρ ∧ ρ < 1 ∧
    ∀ {F : Feeder} (W : SGLDWorld fun _ : Fin 1 => 1) (ok : Dict Key Arr → Bool) {Ω : Type} [MeasurableSpace Ω] (P : Measure Ω)
      (S : ∀ N, Script F N) (Pb : ∀ N, Problem (S N) W.grad W.cost ok) (gen : Option F.Batch) (sched : F.Sched) (eps : Nat → ℝ)
      (a : ℝ) (B : Nat) (e : ℝ) (z0 : Nat → ∀ i, Pos (fun _ : Fin 1 => 1) i → ℝ) (z : Nat → ∀ i, Pos (fun _ : Fin 1 => 1) i → Ω → ℝ)
      (order : Ω → Nat → SGLD.Schedule (Fin 1)) (θ : ∀ i, Pos (fun _ : Fin 1 => 1) i → ℝ) (eps0 : Fl),
      (∀ N, (S N).batch 0 = gen) → (∀ N, (S N).sched 0 = sched) → (∀ N, (S N).eps = eps) →
      (∀ N k θ i p, (Pb N).γ k θ i p = deriv (fun x => -ll x) (θ i p)) → RandomSteps (Measure.dirac ()) P (fun _ _ => ()) z →
      W.a = .fin a → W.scaleGrad = .fin scale → 0 < B → e * a = t → (∀ k, B ≤ k → eps k = e) →
      let world : Ω → SGLDWorld fun _ : Fin 1 => 1 := fun ω =>
        { W with normal := fun k i p => .fin (drawsAfter B z0 z ω k i p), order := order ω }
      let atEnd := sgldVec a scale B eps (fun _ θ i p => deriv (fun x => -ll x) (θ i p)) z0 θ B
      (∀ i p, (atEnd i p).mass = mass) →
      ∃ X : Nat → Ω → Elem (Pos fun _ : Fin 1 => 1) → ℝ,
        (∀ N ω, ∃ cost : Nat → Fl,
          (calls (asIter (burnInNext (env F (world ω).graph ok) B 1)) N
              (init gen sched ⟨SGLD.State.init fun i p => .fin (θ i p), eps0, 0⟩)).1
            = (List.range N).map (fun k : Nat =>
                let arrays := List.ofFn fun i => flat fun p => .fin (X (k + 1) ω ⟨i, p⟩)
                .ok ((if (k : Int) < B then .many arrays else unravel arrays), cost k)))
        ∧ ∀ (q : Elem (Pos fun _ : Fin 1 => 1)) {φ φ' : ℝ → ℝ} {A : ℝ}, (∀ x, HasDerivAt φ (φ' x) x) → (∀ x, |φ' x| ≤ A) →
          let posterior := ∫ y, φ y * Real.exp ((scale + 3e-16) * ll y - c)
          let start := C * (1 + ∑ q : Elem (Pos fun _ : Fin 1 => 1), (atEnd q.1 q.2).pos ^ 2)
          (∀ k, Integrable (fun ω => φ (X (B + k) ω q)) P ∧
            |∫ ω, φ (X (B + k) ω q) ∂P - posterior| ≤ A * start * ρ ^ k + K * √(t * mass) * A)
          ∧ ∀ {I : Finset Nat}, I.Nonempty →
            Integrable (fun ω => ((∑ k ∈ I, φ (X (B + k) ω q)) / I.card - posterior) ^ 2) P ∧
            ∫ ω, ((∑ k ∈ I, φ (X (B + k) ω q)) / I.card - posterior) ^ 2 ∂P
              ≤ 2 * (A ^ 2 * start / I.card) + 2 * (K * √(t * mass) * A) ^ 2 := by
  have hd : ∀ x, deriv (fun x => -Real.log (mixtureDensity cs x)) x = score cs x := fun x => (score_deriv hcs hw x).deriv
  obtain ⟨a₀, b₀, L, Λ, g, ha₀, hΛ, hU, hG⟩ := mixture_well hcs hw
  obtain ⟨ll, hll, hdiff, -⟩ := C129_mixtures_forget hcs hw
  have e1 : ll = fun x => Real.log (mixtureDensity cs x) := by
    funext y
    have h1 := hll y (.seq [.variable y]) (by simp)
    rw [C70_density _ hcs y _ (.inr rfl), Fl.log_fin (mixture_pos hcs hw y)] at h1
    simpa using h1.symm
  refine ⟨ll, hll, hdiff, a₀ / Λ, div_pos ha₀ hΛ, fun scale hs => ?_⟩
  subst e1
  have : Nonempty (Elem (Pos fun _ : Fin 1 => 1)) := ⟨⟨0, ⟨0, by simp⟩⟩⟩
  obtain ⟨c, K, hc, hK, h⟩ := C132_sgld_posterior (size := fun _ : Fin 1 => 1) (fun _ => hU) (fun _ => hG) scale hs
  have hq : ∀ q : Elem (Pos fun _ : Fin 1 => 1), q = ⟨0, ⟨0, by simp⟩⟩ := fun q => by
    obtain ⟨i, p⟩ := q
    obtain rfl : i = 0 := Subsingleton.elim _ _
    congr 1
    exact Fin.ext (Nat.lt_one_iff.1 p.2)
  have e2 : ∀ y, Real.exp ((scale + 3e-16) * Real.log (mixtureDensity cs y) - c ⟨0, ⟨0, by simp⟩⟩)
      = Real.exp (-((scale + 3e-16) * -Real.log (mixtureDensity cs y) + c ⟨0, ⟨0, by simp⟩⟩)) := fun y => by
    congr 1
    ring
  refine ⟨c ⟨0, ⟨0, by simp⟩⟩, K, by simp only [e2]; exact hc _, hK, fun mass hmass t ht htm => ?_⟩
  obtain ⟨C, ρ, h1, h2, h3, h4⟩ := h (fun _ => mass) (fun _ => hmass) t ht (fun _ => by rwa [le_div_iff₀ hΛ] at htm)
  refine ⟨C, ρ, h1, h2, h3, ?_⟩
  intro F W ok Ω _ P S Pb gen sched eps a B e z0 z order θ eps0 hgen hsched heps hPb hR ha hsc hB het he
  simp only [hd] at hPb ⊢
  intro hm
  obtain ⟨X, hX, hb⟩ := h4 W ok P (fun _ => S) (fun _ => Pb) (fun _ => gen) sched eps (fun _ => ()) (fun _ _ => ()) a B e z0 z order θ eps0
    (fun _ => hgen) (fun _ => hsched) (fun _ => heps) (fun _ N k θ i p => hPb N k θ i p) hR ha hsc hB het he hm
  refine ⟨X, hX, fun q φ φ' A hφ hA => ?_⟩
  simp only [e2]
  have h5 := hb q hφ hA
  rw [hq q] at h5 ⊢
  exact h5

/-- Averages over one run of SGLD on the package's third mixture, which has three modes, from any start: the error is of the order of the
root of the stepsize once the run is long. -/
example (order : Nat → SGLD.Schedule (Fin 1)) : ∃ (ll : ℝ → ℝ) (t₀ c K : ℝ), 0 < t₀ ∧ ∫ y, Real.exp ((1 + 3e-16) * ll y - c) = 1 ∧
    (∀ x, gmmLogLikelihood (.seq [.variable x]) [-5, 0, 5] [10 / 3, 3 / 10, 10 / 3] [1 / 3, 1 / 3, 1 / 3] = .ok (.fin (ll x))) ∧
    ∀ t : ℝ, 0 < t → t ≤ t₀ → ∃ C : ℝ, ∀ θ : ∀ i, Pos (fun _ : Fin 1 => 1) i → ℝ,
    ∃ (Ω : Type) (_ : MeasurableSpace Ω) (P : Measure Ω) (z : Nat → ∀ i, Pos (fun _ : Fin 1 => 1) i → Ω → ℝ)
      (X : Nat → Ω → Elem (Pos fun _ : Fin 1 => 1) → ℝ),
      (∀ N ω, ∃ cost : Nat → Fl,
        (calls (asIter (burnInNext (env (streamFeeder t) (SGLDWorld.graph
            ⟨.fin 1, .fin 1, fun _ θ i p => scoreFl (threeModes (10 / 3) (3 / 10)) (θ i p), fun _ _ => 0,
              fun k i p => .fin (drawsAfter 1 (fun _ _ _ => 0) z ω k i p), order⟩) fun _ => true) (1 : Nat) 1)) N
            (init none () ⟨SGLD.State.init fun i p => .fin (θ i p), .fin 0, 0⟩)).1
          = (List.range N).map (fun k : Nat =>
              let arrays := List.ofFn fun i => flat fun p => .fin (X (k + 1) ω ⟨i, p⟩)
              .ok ((if (k : Int) < (1 : Nat) then .many arrays else unravel arrays), cost k)))
      ∧ ∃ R, ∀ q N, 0 < N → ∫ ω, ((∑ k ∈ Finset.range N, X (1 + k) ω q) / N - ∫ y, y * Real.exp ((1 + 3e-16) * ll y - c)) ^ 2 ∂P
          ≤ 2 * (C * R / N) + 2 * K ^ 2 * t := by
  have hcs := threeModes_valid (v := 10 / 3) (w := 3 / 10) (by norm_num) (by norm_num)
  have hw : ∃ c ∈ threeModes (10 / 3) (3 / 10), 0 < c.weight := ⟨⟨1 / 3, 0, 3 / 10⟩, by simp [threeModes], by norm_num⟩
  obtain ⟨ll, hll, -, t₀, ht₀, h⟩ := C133_sgld_mixtures hcs hw
  have hd : ∀ x, deriv (fun x => -ll x) x = score (threeModes (10 / 3) (3 / 10)) x := fun x => by
    have e : ll = fun x => Real.log (mixtureDensity (threeModes (10 / 3) (3 / 10)) x) := by
      funext y
      have h1 := hll y (.seq [.variable y]) (by simp)
      rw [C70_density _ hcs y _ (.inr rfl), Fl.log_fin (mixture_pos hcs hw y)] at h1
      simpa using h1.symm
    rw [e]
    exact (score_deriv hcs hw x).deriv
  obtain ⟨c, K, hc, hK, h⟩ := h 1 one_pos
  refine ⟨ll, t₀, c, K, ht₀, hc, fun x => hll x _ (by simp), fun t ht htt => ?_⟩
  obtain ⟨C, ρ, -, -, -, h⟩ := h (1 / (1 + 3e-16)) (by norm_num) t ht ((mul_le_of_le_one_right ht.le (by norm_num)).trans htt)
  refine ⟨C, fun θ => ?_⟩
  obtain ⟨Ω, mΩ, P, ζ, h1, h2, h3, h4⟩ := exists_iid Nat
    ((Measure.dirac ()).prod (Measure.pi fun _ : Elem (Pos fun _ : Fin 1 => 1) => gaussianReal 0 1))
  have hR : RandomSteps (Measure.dirac ()) P (fun _ _ => ()) (fun k i p ω => (ζ k ω).2 ⟨i, p⟩) :=
    ⟨h4, fun k => (h1 k).fst, fun k i p => (measurable_pi_apply _).comp (h1 k).snd, h3, fun k => (h2 k).map_eq⟩
  have hmass : ∀ i p, (sgldVec (κ := Pos fun _ : Fin 1 => 1) 1 1 (1 : Nat) (fun _ => t) (fun _ θ i p => deriv (fun x => -ll x) (θ i p))
      (fun _ _ _ => 0) θ 1 i p).mass = 1 / (1 + 3e-16) := by
    intro i p
    simp only [sgldVec, sgldStep, Coord.start, Coord.massUsed, after_false Nat.zero_lt_one, Bool.false_eq_true, if_false, Real.sqrt_one]
  obtain ⟨X, hX, hb⟩ := h (F := streamFeeder t) ⟨.fin 1, .fin 1, fun _ θ i p => scoreFl (threeModes (10 / 3) (3 / 10)) (θ i p), fun _ _ => 0,
      fun _ _ _ => 0, order⟩ (fun _ => true) P (fun N => plainScript t N) (fun N => scoreProblem _ t N) none () (fun _ => t) 1 1 t (fun _ _ _ => 0)
    (fun k i p ω => (ζ k ω).2 ⟨i, p⟩) (fun _ => order) θ (.fin 0) (fun _ => rfl) (fun _ => rfl) (fun _ => rfl)
    (fun _ _ _ _ _ => (hd _).symm) hR rfl rfl one_pos (mul_one t) (fun _ _ => rfl) hmass
  refine ⟨Ω, mΩ, P, _, X, hX, 1 + ∑ q : Elem (Pos fun _ : Fin 1 => 1),
    (sgldVec 1 1 (1 : Nat) (fun _ => t) (fun _ θ i p => deriv (fun x => -ll x) (θ i p)) (fun _ _ _ => 0) θ 1 q.1 q.2).pos ^ 2, fun q N hN => ?_⟩
  have h5 := ((hb q (φ := fun x => x) (φ' := fun _ => 1) (A := 1) (fun x => hasDerivAt_id' x) (fun x => by simp)).2
    (I := Finset.range N) ⟨0, Finset.mem_range.2 hN⟩).2
  rw [Finset.card_range] at h5
  refine h5.trans (add_le_add (le_of_eq (by ring)) ?_)
  rw [mul_one, mul_pow, Real.sq_sqrt (by positivity), mul_assoc]
  refine mul_le_mul_of_nonneg_left (mul_le_mul_of_nonneg_left ?_ (sq_nonneg K)) zero_le_two
  exact mul_le_of_le_one_right ht.le (by norm_num)

end mixtures

end PySGMCMC.Chain
