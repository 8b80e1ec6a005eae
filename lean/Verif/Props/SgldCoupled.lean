import Verif.Props.SgldNonconvex
import Verif.Lemmas.SgldError
import Verif.Lemmas.SVGD
import Verif.Lemmas.Separable
import Mathlib.Analysis.SpecialFunctions.Trigonometric.Bounds

/-!
# C138: SGLD samples posteriors whose parameters depend on each other

C132 is about costs that are a sum over the entries of the parameters.  Here the entries of a parameter may depend on each other in any
way, and the cost need not be convex.  Errors are bounded for all functions of at most linear growth, continuous or not, so that the
probability of any event is estimated.  Neither the constants nor the rate depend on the stepsize.
-/

namespace PySGMCMC.Chain
open SamplerBase BurnInStats Spec MeasureTheory ProbabilityTheory Contraction Invariance Recipe Harris Langevin

variable {n : Nat} {size : Fin n → Nat} {Bt : Type} [MeasurableSpace Bt]

/-- **C138** SGLD samples the posterior of costs that are neither convex nor sums over entries.  The constants `c`, `K`, `C` and `l` depend
on the cost, on `scale` and on bounds for the masses only.  In particular they do not depend on the stepsize. -/
theorem C138_sgld_coupled [Nonempty (Elem (Pos size))] {ν : Measure Bt} [IsProbabilityMeasure ν] {U : (Elem (Pos size) → ℝ) → ℝ}
    {γ : Bt → (∀ i, Pos size i → ℝ) → ∀ i, Pos size i → ℝ} {a₀ b₀ Λ L lo hi : ℝ} {g : Bt → ℝ} (hγ : Confining ν (flatGrad γ) a₀ b₀ Λ g)
    (hL : 0 ≤ L) (hlip : ∀ β x x', ‖flatGrad γ β x - flatGrad γ β x'‖ ≤ L * ‖x - x'‖) (hU : ContDiff ℝ 1 U)
    (hmean : ∀ x q, ∫ β, flatGrad γ β x q ∂ν = partialD U q x)
    (hsep : ∀ β i θ θ', θ i = θ' i → γ β θ i = γ β θ' i) (scale : ℝ) (hs : 0 < scale) (hlo : 0 < lo) (hlh : lo ≤ hi) :
    ∃ c K C l : ℝ, IsProbabilityMeasure (boltz fun x => (scale + 3e-16) * U x + c) ∧ 0 ≤ K ∧ 0 ≤ C ∧ 0 < l ∧
    ∀ {F : Feeder} (W : SGLDWorld size) (ok : Dict Key Arr → Bool) {Ω : Type} [MeasurableSpace Ω] (P : Measure Ω)
      (S : Ω → ∀ N, Script F N) (Pb : ∀ ω N, Problem (S ω N) W.grad W.cost ok) (gen : Ω → Option F.Batch) (sched : F.Sched) (eps : Nat → ℝ)
      (b0 : Nat → Bt) (β : Nat → Ω → Bt) (a : ℝ) (B : Nat) (e : ℝ) (z0 : Nat → ∀ i, Pos size i → ℝ) (z : Nat → ∀ i, Pos size i → Ω → ℝ)
      (order : Ω → Nat → SGLD.Schedule (Fin n)) (θ : ∀ i, Pos size i → ℝ) (eps0 : Fl),
      (∀ ω N, (S ω N).batch 0 = gen ω) → (∀ ω N, (S ω N).sched 0 = sched) → (∀ ω N, (S ω N).eps = eps) →
      (∀ ω N k θ, (Pb ω N).γ k θ = γ (batchesAfter B b0 β ω k) θ) → RandomSteps ν P β z →
      W.a = .fin a → W.scaleGrad = .fin scale → 0 < B → (∀ k, B ≤ k → eps k = e) →
      0 < e * a → e * a ≤ 1 → e * a * hi * Λ ≤ a₀ →
      let world : Ω → SGLDWorld size := fun ω =>
        { W with normal := fun k i p => .fin (drawsAfter B z0 z ω k i p), order := order ω }
      let atEnd := sgldVec a scale B eps (fun k => γ (b0 k)) z0 θ B
      (∀ i p, lo ≤ (atEnd i p).mass) → (∀ i p, (atEnd i p).mass ≤ hi) →
      ∃ X : Nat → Ω → Elem (Pos size) → ℝ,
        (∀ N ω, ∃ cost : Nat → Fl,
          (calls (asIter (burnInNext (env F (world ω).graph ok) B n)) N
              (init (gen ω) sched ⟨SGLD.State.init fun i p => .fin (θ i p), eps0, 0⟩)).1
            = (List.range N).map (fun k : Nat =>
                let arrays := List.ofFn fun i => flat fun p => .fin (X (k + 1) ω ⟨i, p⟩)
                .ok ((if (k : Int) < B then .many arrays else unravel arrays), cost k)))
        ∧ let posterior := boltz fun x => (scale + 3e-16) * U x + c
          let start := C * (1 + ‖fun q : Elem (Pos size) => (atEnd q.1 q.2).pos‖)
          (∀ {f : (Elem (Pos size) → ℝ) → ℝ} {A : ℝ}, Measurable f → 0 ≤ A → (∀ x, |f x| ≤ A * (1 + ‖x‖)) →
            (∀ k, Integrable (fun ω => f (X (B + k) ω)) P ∧
              |∫ ω, f (X (B + k) ω) ∂P - ∫ x, f x ∂posterior| ≤ A * start * Real.exp (-(l * (e * a) * k)) + A * (K * √(e * a)))
            ∧ ∀ {I : Finset Nat}, I.Nonempty →
              Integrable (fun ω => ((∑ k ∈ I, f (X (B + k) ω)) / I.card - ∫ x, f x ∂posterior) ^ 2) P ∧
              ∫ ω, ((∑ k ∈ I, f (X (B + k) ω)) / I.card - ∫ x, f x ∂posterior) ^ 2 ∂P
                ≤ 2 * (A * start) ^ 2 / (I.card * (e * a)) + 2 * (A * (K * √(e * a))) ^ 2)
          ∧ ∀ (E : Set (Elem (Pos size) → ℝ)), MeasurableSet E → ∀ k,
            |P.real {ω | X (B + k) ω ∈ E} - posterior.real E| ≤ start * Real.exp (-(l * (e * a) * k)) + K * √(e * a) := by
  have hs' : 0 < scale + 3e-16 := by positivity
  have hpot : Potential ν (flatGrad γ) U a₀ b₀ Λ g L lo hi (scale + 3e-16) := ⟨⟨hγ, hL, hlip, hlo, hlh, hs'⟩, hU, hmean⟩
  obtain ⟨c, K, C, l, hp, hK, hC, hl, h⟩ := hpot.samples
  refine ⟨c, K, C, l, hp, hK, hC, hl, ?_⟩
  intro F W ok Ω _ P S Pb gen sched eps b0 β a B e z0 z order θ eps0 hgen hsched heps hPb hR ha hsc hB he ht ht1 hst world atEnd hmlo hmhi
  have := hR.prob
  have T : Tuned a₀ Λ lo hi (fun q : Elem (Pos size) => (atEnd q.1 q.2).mass) (e * a) :=
    ⟨fun q => hmlo q.1 q.2, fun q => hmhi q.1 q.2, ht, ht1, hst⟩
  have hq : ∀ ω N, (Pb ω N).γ = fun k => γ (batchesAfter B b0 β ω k) := fun ω N => by funext k θ; exact hPb ω N k θ
  have h00 : ∀ ω, sgldVec a scale B eps (fun k => γ (batchesAfter B b0 β ω k)) (drawsAfter B z0 z ω) θ B = atEnd := fun ω =>
    sgldVec_congr' a scale B eps θ B (fun j hj => by unfold batchesAfter; rw [if_pos hj]) fun j hj => drawsAfter_lt hj
  set X : Nat → Ω → Elem (Pos size) → ℝ := fun k ω q =>
    (sgldVec a scale B eps (fun k => γ (batchesAfter B b0 β ω k)) (drawsAfter B z0 z ω) θ k q.1 q.2).pos with hX
  have hζ : ∀ k, Measurable fun ω => (β k ω, fun q : Elem (Pos size) => z k q.1 q.2 ω) := fun k =>
    (hR.batch k).prodMk (measurable_pi_iff.2 fun q => hR.draw k q.1 q.2)
  have hX0 : ∀ ω, X (B + 0) ω = fun q => (atEnd q.1 q.2).pos := fun ω => by
    funext q
    simp only [hX]
    rw [Nat.add_zero, h00 ω]
  have hXs : ∀ k ω, X (B + (k + 1)) ω = langevin (flatGrad γ) (fun q : Elem (Pos size) => (atEnd q.1 q.2).mass)
      (sig (fun q : Elem (Pos size) => (atEnd q.1 q.2).mass) (scale + 3e-16) (e * a)) (e * a) (X (B + k) ω)
      (β k ω, fun q : Elem (Pos size) => z k q.1 q.2 ω) := fun k ω => by
    funext q
    have h1 := (sgldVec_after a scale hB eps (fun k => γ (batchesAfter B b0 β ω k)) (drawsAfter B z0 z ω) θ).2 (B + k) q.1 q.2
      (Nat.le_add_right B k)
    rw [he _ (Nat.le_add_right B k), drawsAfter_add, h00 ω, batchesAfter_add] at h1
    simp only [hX]
    rw [← Nat.add_assoc, h1]
    unfold langevin flatGrad sgldSd sig
    beta_reduce
    rw [show 2 * (e * a) * (atEnd q.1 q.2).mass / (scale + 3e-16) = 2 * e * (atEnd q.1 q.2).mass * a / (scale + 3e-16) by ring,
      show e * a * (atEnd q.1 q.2).mass = e * (atEnd q.1 q.2).mass * a by ring]
  have hmain := fun {f : (Elem (Pos size) → ℝ) → ℝ} {A : ℝ} => h T P _ (fun k => X (B + k)) _ hζ hR.indep hR.law hX0 hXs (f := f) (A := A)
  refine ⟨X, ?_, ?_⟩
  · intro N ω
    obtain ⟨cost, hcost⟩ := C89_sgld_deterministic (S ω N) (world ω) ok
      ⟨(Pb ω N).γ, (Pb ω N).c, (Pb ω N).grad_eq, (Pb ω N).cost_eq, (Pb ω N).accepts⟩ a scale ha hsc hs (drawsAfter B z0 z ω) (fun _ _ _ => rfl)
      B θ eps0 (fun k _ i θ θ' hθ => by simp only [hPb]; exact hsep _ i θ θ' hθ)
    refine ⟨cost, ?_⟩
    rw [hgen, hsched] at hcost
    rw [hcost]
    simp only [heps, hq, hX]
  · intro posterior start
    refine ⟨fun {f A} hf hA hb => hmain hf hA hb, fun E hE k => ?_⟩
    have h1 := (hmain (f := E.indicator fun _ => 1) (A := 1) (measurable_const.indicator hE) zero_le_one (fun x => by
      have := norm_nonneg x
      by_cases hx : x ∈ E
      · rw [Set.indicator_of_mem hx, abs_one]; linarith
      · rw [Set.indicator_of_notMem hx, abs_zero]; positivity)).1 k
    have mX : Measurable (X (B + k)) := (chain_law (X := fun k => X (B + k)) hγ.measurable_langevin hζ hR.indep hR.law hX0 hXs k).1
    have mE : MeasurableSet {ω | X (B + k) ω ∈ E} := mX hE
    have e1 : ∫ ω, E.indicator (fun _ => (1 : ℝ)) (X (B + k) ω) ∂P = P.real {ω | X (B + k) ω ∈ E} := by
      have h2 : (fun ω => E.indicator (fun _ => (1 : ℝ)) (X (B + k) ω)) = {ω | X (B + k) ω ∈ E}.indicator fun _ => (1 : ℝ) := by
        funext ω
        rfl
      rw [h2, integral_indicator_const _ mE]
      simp
    rw [e1, integral_indicator_const _ hE] at h1
    simpa only [smul_eq_mul, mul_one, one_mul] using h1.2

/-! ## A cost whose entries depend on each other -/

/-- The cost `∑ θ² / 2 + 3 cos ∑ θ`, with one sum of each kind for every parameter. -/
noncomputable def ripples (x : Elem (Pos size) → ℝ) : ℝ := ∑ q, x q ^ 2 / 2 + ∑ i, 3 * Real.cos (∑ p, x ⟨i, p⟩)

/-- Its gradient, with data that shift the entries. -/
noncomputable def ripple (β : ℝ) (θ : ∀ i, Pos size i → ℝ) : ∀ i, Pos size i → ℝ := fun i p => θ i p - β - 3 * Real.sin (∑ p, θ i p)

/-- The same in the model's numbers. -/
noncomputable def rippleFl (d : Dict Key Arr) (θ : ∀ i, Pos size i → Fl) : ∀ i, Pos size i → Fl := fun i p =>
  match d (.ph 0) with
  | some [b] => θ i p - b - threeSinFl (Fl.sum (List.ofFn fun p => θ i p))
  | _ => .nan

noncomputable def rippleProblem (e : ℝ) (b : Nat → ℝ) (N : Nat) :
    Problem (size := size) (streamScript e b N) rippleFl (fun _ _ => 0) (fun _ => true) where
  γ k := ripple (b k)
  c _ _ := 0
  grad_eq k _ d h θ i p := by
    unfold rippleFl
    rw [h 0]
    show Fl.fin (θ i p) - Fl.fin (b k) - threeSinFl (Fl.sum (List.ofFn fun p => Fl.fin (θ i p))) = _
    rw [SVGD.sum_fin]
    rfl
  cost_eq _ _ _ _ _ := rfl
  accepts _ _ _ _ := rfl

theorem ripple_confining (size : Fin n → Nat) : Confining (gaussianReal 0 1) (flatGrad (ripple (size := size))) (1 / 2)
    (∑ _q : Elem (Pos size), 9 / 2) 3 (fun β => ∑ _q : Elem (Pos size), (β ^ 2 + 9)) := by
  have hi : Integrable (fun t : ℝ => t) (gaussianReal 0 1) := (memLp_id_gaussianReal 1).integrable le_rfl
  have hi2 : Integrable (fun t : ℝ => t ^ 2) (gaussianReal 0 1) := (memLp_id_gaussianReal 2).integrable_sq
  refine ⟨?_, fun β x => ?_, fun β => Finset.sum_nonneg fun _ _ => by positivity, integrable_finsetSum _ fun _ _ => hi2.add (integrable_const 9),
    by norm_num, Finset.sum_nonneg fun _ _ => by norm_num, by norm_num, fun x => ?_⟩
  · refine measurable_pi_iff.2 fun q => ?_
    have h1 : ∀ q, Measurable fun y : ℝ × (Elem (Pos size) → ℝ) => y.2 q := fun q => (measurable_pi_apply q).comp measurable_snd
    exact ((h1 q).sub measurable_fst).sub ((Real.measurable_sin.comp (Finset.measurable_fun_sum _ fun p _ => h1 ⟨q.1, p⟩)).const_mul 3)
  · rw [← Finset.sum_add_distrib, Finset.mul_sum]
    refine Finset.sum_le_sum fun q _ => ?_
    simp only [flatGrad, ripple]
    set s := Real.sin (∑ p, x ⟨q.1, p⟩) with hs
    have h1 : s ^ 2 ≤ 1 := Real.sin_sq_le_one _
    have e : (⟨q.1, q.2⟩ : Elem (Pos size)) = q := rfl
    rw [e]
    nlinarith [sq_nonneg (x q + β), sq_nonneg (x q + 3 * s), sq_nonneg (β - 3 * s)]
  · have h1 : ∀ q : Elem (Pos size), Integrable (fun β : ℝ => x q * flatGrad ripple β x q) (gaussianReal 0 1) := fun q =>
      (((integrable_const (x q)).sub hi).sub (integrable_const (3 * Real.sin (∑ p, x ⟨q.1, p⟩)))).const_mul _
    rw [integral_finsetSum _ fun q _ => h1 q, Finset.mul_sum, ← Finset.sum_sub_distrib]
    refine Finset.sum_le_sum fun q _ => ?_
    set s := Real.sin (∑ p, x ⟨q.1, p⟩) with hs
    have h2 : ∫ β : ℝ, x q * flatGrad ripple β x q ∂gaussianReal 0 1 = x q * (x q - 3 * s) := by
      have h3 : Integrable (fun t : ℝ => x q - t) (gaussianReal 0 1) := (integrable_const (x q)).sub hi
      have h4 : ∫ t : ℝ, x q - t - 3 * s ∂gaussianReal 0 1 = x q - 3 * s := by
        rw [integral_sub h3 (integrable_const _), integral_sub (integrable_const _) hi, integral_id_gaussianReal]
        simp
      rw [← h4, ← integral_const_mul]
      rfl
    rw [h2]
    have h5 : s ^ 2 ≤ 1 := Real.sin_sq_le_one _
    nlinarith [sq_nonneg (x q - 3 * s)]

theorem ripple_lip (β : ℝ) (x x' : Elem (Pos size) → ℝ) :
    ‖flatGrad ripple β x - flatGrad ripple β x'‖ ≤ (1 + 3 * Fintype.card (Elem (Pos size))) * ‖x - x'‖ := by
  refine (pi_norm_le_iff_of_nonneg (by positivity)).2 fun q => ?_
  have hq : ∀ q, |x q - x' q| ≤ ‖x - x'‖ := fun q => norm_le_pi_norm (x - x') q
  have h1 : |∑ p, x ⟨q.1, p⟩ - ∑ p, x' ⟨q.1, p⟩| ≤ Fintype.card (Elem (Pos size)) * ‖x - x'‖ := by
    rw [← Finset.sum_sub_distrib]
    refine (Finset.abs_sum_le_sum_abs _ _).trans ((Finset.sum_le_sum fun p _ => hq ⟨q.1, p⟩).trans ?_)
    rw [Finset.sum_const, nsmul_eq_mul, Finset.card_univ]
    refine mul_le_mul_of_nonneg_right ?_ (norm_nonneg _)
    exact_mod_cast Fintype.card_le_of_injective (fun p : Pos size q.1 => (⟨q.1, p⟩ : Elem (Pos size))) sigma_mk_injective
  have h2 : |Real.sin (∑ p, x ⟨q.1, p⟩) - Real.sin (∑ p, x' ⟨q.1, p⟩)| ≤ |∑ p, x ⟨q.1, p⟩ - ∑ p, x' ⟨q.1, p⟩| := by
    exact Real.abs_sin_sub_sin_le _ _
  rw [Pi.sub_apply, Real.norm_eq_abs]
  simp only [flatGrad, ripple]
  have h3 := hq q
  rw [abs_le] at h3 ⊢
  have h4 := abs_le.1 (h2.trans h1)
  constructor <;> linarith [h3.1, h3.2, h4.1, h4.2]

theorem ripples_smooth : ContDiff ℝ 1 (ripples (size := size)) := by
  unfold ripples
  fun_prop

theorem ripples_partial (x : Elem (Pos size) → ℝ) (q : Elem (Pos size)) : partialD ripples q x = x q - 3 * Real.sin (∑ p, x ⟨q.1, p⟩) := by
  have h1 : ∀ i, HasFDerivAt (fun x : Elem (Pos size) → ℝ => 3 * Real.cos (∑ p, x ⟨i, p⟩))
      ((3 : ℝ) • (-Real.sin (∑ p, x ⟨i, p⟩)) • ∑ p : Pos size i, (ContinuousLinearMap.proj (⟨i, p⟩ : Elem (Pos size)) : (Elem (Pos size) → ℝ) →L[ℝ] ℝ)) x :=
    fun i => by
      have h2 := HasFDerivAt.fun_sum (u := Finset.univ) fun (p : Pos size i) _ => (hasFDerivAt_apply (𝕜 := ℝ) (⟨i, p⟩ : Elem (Pos size)) x)
      exact (h2.cos).const_mul 3
  have h3 := HasFDerivAt.fun_sum (u := Finset.univ) fun i _ => h1 i
  have h4 : DifferentiableAt ℝ (halfSq : (Elem (Pos size) → ℝ) → ℝ) x := halfSq_smooth.differentiable one_ne_zero x
  have h5 : HasFDerivAt (ripples (size := size)) _ x := h4.hasFDerivAt.add h3
  show fderiv ℝ ripples x (unit q) = _
  rw [h5.fderiv, add_apply, sum_apply]
  have h6 : fderiv ℝ halfSq x (unit q) = x q := halfSq_partial q x
  rw [h6, Finset.sum_eq_single q.1]
  · have h7 : ∑ p : Pos size q.1, (unit q : Elem (Pos size) → ℝ) ⟨q.1, p⟩ = 1 := by
      rw [Finset.sum_eq_single q.2]
      · exact Pi.single_eq_same q 1
      · intro p _ hp
        refine Pi.single_eq_of_ne (fun h => hp ?_) 1
        obtain ⟨i, p'⟩ := q
        simpa using h
      · simp
    simp only [smul_apply, sum_apply, ContinuousLinearMap.proj_apply, smul_eq_mul]
    rw [h7]
    ring
  · intro i _ hi
    have h7 : ∑ p : Pos size i, (unit q : Elem (Pos size) → ℝ) ⟨i, p⟩ = 0 := by
      refine Finset.sum_eq_zero fun p _ => Pi.single_eq_of_ne (fun h => hi ?_) 1
      rw [← h]
    simp only [smul_apply, sum_apply, ContinuousLinearMap.proj_apply, smul_eq_mul]
    rw [h7]
    ring
  · simp

theorem ripple_mean (x : Elem (Pos size) → ℝ) (q : Elem (Pos size)) : ∫ β, flatGrad ripple β x q ∂gaussianReal 0 1 = partialD ripples q x := by
  have hi : Integrable (fun t : ℝ => t) (gaussianReal 0 1) := (memLp_id_gaussianReal 1).integrable le_rfl
  have h3 : Integrable (fun t : ℝ => x q - t) (gaussianReal 0 1) := (integrable_const (x q)).sub hi
  rw [ripples_partial]
  show ∫ t : ℝ, x q - t - 3 * Real.sin (∑ p, x ⟨q.1, p⟩) ∂gaussianReal 0 1 = _
  rw [integral_sub h3 (integrable_const _), integral_sub (integrable_const _) hi, integral_id_gaussianReal]
  simp

/-- Whatever the parameters and wherever the run starts, the probability of any event is estimated up to a multiple of the square root of the
stepsize, though the cost has many minima and the entries of a parameter depend on each other. -/
example [Nonempty (Elem (Pos size))] (order : Nat → SGLD.Schedule (Fin n)) : ∃ c K C l : ℝ,
    IsProbabilityMeasure (boltz fun x : Elem (Pos size) → ℝ => (10 + 3e-16) * ripples x + c) ∧ 0 < l ∧
    ∀ t : ℝ, 0 < t → t ≤ 1 / 6 → ∀ θ : ∀ i, Pos size i → ℝ,
    ∃ (Ω : Type) (_ : MeasurableSpace Ω) (P : Measure Ω) (β : Nat → Ω → ℝ) (z : Nat → ∀ i, Pos size i → Ω → ℝ)
      (X : Nat → Ω → Elem (Pos size) → ℝ),
      RandomSteps (gaussianReal 0 1) P β z
      ∧ (∀ N ω, ∃ cost : Nat → Fl,
        (calls (asIter (burnInNext (env (streamFeeder t) (SGLDWorld.graph
            ⟨.fin 10, .fin 1, rippleFl, fun _ _ => 0, fun k i p => .fin (drawsAfter 1 (fun _ _ _ => 0) z ω k i p), order⟩) fun _ => true) (1 : Nat) n)) N
            (init (some (batchesAfter 1 (fun _ => 0) β ω, 0)) () ⟨SGLD.State.init fun i p => .fin (θ i p), .fin 0, 0⟩)).1
          = (List.range N).map (fun k : Nat =>
              let arrays := List.ofFn fun i => flat fun p => .fin (X (k + 1) ω ⟨i, p⟩)
              .ok ((if (k : Int) < (1 : Nat) then .many arrays else unravel arrays), cost k)))
      ∧ ∃ R, ∀ (E : Set (Elem (Pos size) → ℝ)), MeasurableSet E → ∀ k,
        |P.real {ω | X (1 + k) ω ∈ E} - (boltz fun x => (10 + 3e-16) * ripples x + c).real E| ≤ C * R * Real.exp (-(l * t * k)) + K * √t := by
  obtain ⟨c, K, C, l, hp, hK, hC, hl, h⟩ := C138_sgld_coupled (ripple_confining size) (by positivity) ripple_lip ripples_smooth ripple_mean
    (fun β i θ θ' h => by funext p; simp only [ripple, h]) 10 (by norm_num) (lo := 1 / (1 + 3e-16)) (hi := 1) (by norm_num) (by norm_num)
  refine ⟨c, K, C, l, hp, hl, fun t ht ht6 θ => ?_⟩
  obtain ⟨Ω, mΩ, P, ζ, h1, h2, h3, h4⟩ := exists_iid Nat ((gaussianReal 0 1).prod (Measure.pi fun _ : Elem (Pos size) => gaussianReal 0 1))
  have hR : RandomSteps (gaussianReal 0 1) P (fun k ω => (ζ k ω).1) (fun k i p ω => (ζ k ω).2 ⟨i, p⟩) :=
    ⟨h4, fun k => (h1 k).fst, fun k i p => (measurable_pi_apply _).comp (h1 k).snd, h3, fun k => (h2 k).map_eq⟩
  have hmass : ∀ i p, (sgldVec (κ := Pos size) 1 10 (1 : Nat) (fun _ => t) (fun _ => ripple 0) (fun _ _ _ => 0) θ 1 i p).mass = 1 / (1 + 3e-16) := by
    intro i p
    simp only [sgldVec, sgldStep, Coord.start, Coord.massUsed, after_false Nat.zero_lt_one, Bool.false_eq_true, if_false, Real.sqrt_one]
  obtain ⟨X, hX, hb⟩ := h (F := streamFeeder t) ⟨.fin 10, .fin 1, rippleFl, fun _ _ => 0, fun _ _ _ => 0, order⟩ (fun _ => true) P
    (fun ω => streamScript t (batchesAfter 1 (fun _ => 0) (fun k ω => (ζ k ω).1) ω))
    (fun ω => rippleProblem t (batchesAfter 1 (fun _ => 0) (fun k ω => (ζ k ω).1) ω))
    (fun ω => some (batchesAfter 1 (fun _ => 0) (fun k ω => (ζ k ω).1) ω, 0)) () (fun _ => t) (fun _ => 0) (fun k ω => (ζ k ω).1) 1 1 t
    (fun _ _ _ => 0) (fun k i p ω => (ζ k ω).2 ⟨i, p⟩) (fun _ => order) θ (.fin 0) (fun _ _ => rfl) (fun _ _ => rfl) (fun _ _ => rfl)
    (fun _ _ _ _ => rfl) hR rfl rfl one_pos (fun _ _ => rfl) (by linarith) (by linarith) (by linarith) (fun i p => (hmass i p).ge)
    (fun i p => (hmass i p).le.trans (by norm_num))
  refine ⟨Ω, mΩ, P, _, _, X, hR, hX, 1 + ‖fun q : Elem (Pos size) =>
    (sgldVec 1 10 (1 : Nat) (fun _ => t) (fun _ => ripple 0) (fun _ _ _ => 0) θ 1 q.1 q.2).pos‖, fun E hE k => ?_⟩
  have h5 := hb.2 E hE k
  rwa [mul_one] at h5

end PySGMCMC.Chain
