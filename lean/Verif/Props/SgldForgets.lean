import Verif.Props.SgldConverges
import Verif.Props.Objectives
import Verif.Lemmas.Confining

/-!
# C128 and C129: SGLD forgets where it started

C123 is about strongly convex costs.  Here the cost need not be convex: posteriors with several modes are allowed.  Mini-batch gradients
grow at most linearly, and on average they point away from the origin at large distances.  Then the law of the samples approaches a
stationary law that does not depend on the start, and averages over the samples of one run approach averages of that law.  C129 is about
the mixtures that the package defines as benchmarks.
-/

namespace PySGMCMC.Chain
open SamplerBase BurnInStats Spec MeasureTheory ProbabilityTheory Contraction Invariance Recipe Harris

variable {n : Nat} {size : Fin n → Nat} {Bt : Type} [MeasurableSpace Bt]

/-- **C128** SGLD forgets where it started.  The stationary law `π`, `C` and `ρ` depend on the cost, on `scale`, on the product `t` of the
stepsize and `A`, and on the masses at the end of burn-in only: not on the position at the end of burn-in, nor on anything else. -/
theorem C128_sgld_forgets {ν : Measure Bt} [IsProbabilityMeasure ν] {γ : Bt → (∀ i, Pos size i → ℝ) → ∀ i, Pos size i → ℝ}
    {a₀ b₀ Λ : ℝ} {g : Bt → ℝ} (hγ : Confining ν (flatGrad γ) a₀ b₀ Λ g)
    (hsep : ∀ β i θ θ', θ i = θ' i → γ β θ i = γ β θ' i) (scale : ℝ) (hs : 0 < scale) (mass : Elem (Pos size) → ℝ) (hmass : ∀ q, 0 < mass q)
    (t : ℝ) (ht : 0 < t) (hst : ∀ q, t * mass q * Λ ≤ a₀) :
    ∃ (π : Measure (Elem (Pos size) → ℝ)) (C ρ : ℝ), IsProbabilityMeasure π ∧ Integrable (fun x => ∑ q, x q ^ 2) π ∧ 0 ≤ C ∧ 0 ≤ ρ ∧ ρ < 1 ∧
    (π.prod (ν.prod (Measure.pi fun _ => gaussianReal 0 1))).map
        (fun p q => p.1 q - t * mass q * flatGrad γ p.2.1 p.1 q + √(2 * t * mass q / (scale + 3e-16)) * p.2.2 q) = π ∧
    ∀ {F : Feeder} (W : SGLDWorld size) (ok : Dict Key Arr → Bool) {Ω : Type} [MeasurableSpace Ω] (P : Measure Ω)
      (S : Ω → ∀ N, Script F N) (Pb : ∀ ω N, Problem (S ω N) W.grad W.cost ok) (gen : Ω → Option F.Batch) (sched : F.Sched) (eps : Nat → ℝ)
      (b0 : Nat → Bt) (β : Nat → Ω → Bt) (a : ℝ) (B : Nat) (e : ℝ) (z0 : Nat → ∀ i, Pos size i → ℝ) (z : Nat → ∀ i, Pos size i → Ω → ℝ)
      (order : Ω → Nat → SGLD.Schedule (Fin n)) (θ : ∀ i, Pos size i → ℝ) (eps0 : Fl),
      (∀ ω N, (S ω N).batch 0 = gen ω) → (∀ ω N, (S ω N).sched 0 = sched) → (∀ ω N, (S ω N).eps = eps) →
      (∀ ω N k θ, (Pb ω N).γ k θ = γ (batchesAfter B b0 β ω k) θ) → RandomSteps ν P β z →
      W.a = .fin a → W.scaleGrad = .fin scale → 0 < B → e * a = t → (∀ k, B ≤ k → eps k = e) →
      let world : Ω → SGLDWorld size := fun ω =>
        { W with normal := fun k i p => .fin (drawsAfter B z0 z ω k i p), order := order ω }
      let atEnd := sgldVec a scale B eps (fun k => γ (b0 k)) z0 θ B
      (∀ i p, (atEnd i p).mass = mass ⟨i, p⟩) →
      ∃ X : Nat → Ω → Elem (Pos size) → ℝ,
        (∀ N ω, ∃ cost : Nat → Fl,
          (calls (asIter (burnInNext (env F (world ω).graph ok) B n)) N
              (init (gen ω) sched ⟨SGLD.State.init fun i p => .fin (θ i p), eps0, 0⟩)).1
            = (List.range N).map (fun k : Nat =>
                let arrays := List.ofFn fun i => flat fun p => .fin (X (k + 1) ω ⟨i, p⟩)
                .ok ((if (k : Int) < B then .many arrays else unravel arrays), cost k)))
        ∧ ∀ {f : (Elem (Pos size) → ℝ) → ℝ} {A : ℝ}, Measurable f → 0 ≤ A →
          ((∀ x, |f x| ≤ A * (1 + ∑ q, x q ^ 2)) → ∀ k, Integrable (fun ω => f (X (B + k) ω)) P ∧
            |∫ ω, f (X (B + k) ω) ∂P - ∫ x, f x ∂π| ≤ A * (C * (1 + ∑ q : Elem (Pos size), (atEnd q.1 q.2).pos ^ 2)) * ρ ^ k)
          ∧ ((∀ x, |f x| ≤ A * (1 + √(∑ q, x q ^ 2))) → ∀ {I : Finset Nat}, I.Nonempty →
            Integrable (fun ω => ((∑ k ∈ I, f (X (B + k) ω)) / I.card - ∫ x, f x ∂π) ^ 2) P ∧
            ∫ ω, ((∑ k ∈ I, f (X (B + k) ω)) / I.card - ∫ x, f x ∂π) ^ 2 ∂P
              ≤ A ^ 2 * (C * (1 + ∑ q : Elem (Pos size), (atEnd q.1 q.2).pos ^ 2)) / I.card) := by
  have hs' : 0 < scale + 3e-16 := by positivity
  have hsd : ∀ q, √(2 * t * mass q / (scale + 3e-16)) ≠ 0 := fun q => by
    have := hmass q
    exact (Real.sqrt_pos.2 (by positivity)).ne'
  obtain ⟨π, C, ρ, hπ, hinv, hπ2, hC, hρ0, hρ1, hK⟩ := hγ.forgets hmass ht hst hsd
  refine ⟨π, C, ρ, hπ, hπ2, hC, hρ0, hρ1, hinv, ?_⟩
  intro F W ok Ω _ P S Pb gen sched eps b0 β a B e z0 z order θ eps0 hgen hsched heps hPb hR ha hsc hB het he world atEnd hm
  have := hR.prob
  have hq : ∀ ω N, (Pb ω N).γ = fun k => γ (batchesAfter B b0 β ω k) := fun ω N => by funext k θ; exact hPb ω N k θ
  have h00 : ∀ ω, sgldVec a scale B eps (fun k => γ (batchesAfter B b0 β ω k)) (drawsAfter B z0 z ω) θ B = atEnd := fun ω =>
    sgldVec_congr' a scale B eps θ B (fun j hj => by unfold batchesAfter; rw [if_pos hj]) fun j hj => drawsAfter_lt hj
  refine ⟨fun k ω q => (sgldVec a scale B eps (fun k => γ (batchesAfter B b0 β ω k)) (drawsAfter B z0 z ω) θ k q.1 q.2).pos, ?_, ?_⟩
  · intro N ω
    obtain ⟨cost, hcost⟩ := C89_sgld_deterministic (S ω N) (world ω) ok
      ⟨(Pb ω N).γ, (Pb ω N).c, (Pb ω N).grad_eq, (Pb ω N).cost_eq, (Pb ω N).accepts⟩ a scale ha hsc hs (drawsAfter B z0 z ω) (fun _ _ _ => rfl)
      B θ eps0 (fun k _ i θ θ' hθ => by simp only [hPb]; exact hsep _ i θ θ' hθ)
    refine ⟨cost, ?_⟩
    rw [hgen, hsched] at hcost
    rw [hcost]
    simp only [heps, hq]
  · intro f A hf hA
    refine hK P (fun k ω => (β k ω, fun q : Elem (Pos size) => z k q.1 q.2 ω))
      (fun k ω q => (sgldVec a scale B eps (fun k => γ (batchesAfter B b0 β ω k)) (drawsAfter B z0 z ω) θ (B + k) q.1 q.2).pos)
      (fun q => (atEnd q.1 q.2).pos) (fun k => (hR.batch k).prodMk (measurable_pi_iff.2 fun q => hR.draw k q.1 q.2)) hR.indep hR.law
      (fun ω => ?_) (fun k ω => ?_) hf hA
    · funext q
      rw [Nat.add_zero, h00 ω]
    · funext q
      have h1 := (sgldVec_after a scale hB eps (fun k => γ (batchesAfter B b0 β ω k)) (drawsAfter B z0 z ω) θ).2 (B + k) q.1 q.2 (Nat.le_add_right B k)
      rw [he _ (Nat.le_add_right B k), drawsAfter_add, h00 ω, batchesAfter_add, hm] at h1
      rw [← Nat.add_assoc, h1]
      unfold langevin flatGrad sgldSd
      beta_reduce
      rw [← het, show 2 * (e * a) * mass q / (scale + 3e-16) = 2 * e * mass q * a / (scale + 3e-16) by ring,
        show e * a * mass q = e * mass q * a by ring]

/-! ## A cost with many minima -/

/-- The gradient of a cost that is not convex, `(θ - β)² / 2 - 3 cos θ`. -/
noncomputable def bumpy (β : ℝ) (θ : ∀ i, Pos size i → ℝ) : ∀ i, Pos size i → ℝ := fun i p => θ i p - β + 3 * Real.sin (θ i p)

/-- Three times the sine of a number of the model. -/
noncomputable def threeSinFl : Fl → Fl
  | .fin r => .fin (3 * Real.sin r)
  | _ => .nan

/-- The same in the model's numbers. -/
noncomputable def bumpyFl (d : Dict Key Arr) (θ : ∀ i, Pos size i → Fl) : ∀ i, Pos size i → Fl := fun i p =>
  match d (.ph 0) with
  | some [b] => θ i p - b + threeSinFl (θ i p)
  | _ => .nan

noncomputable def bumpyProblem (e : ℝ) (b : Nat → ℝ) (N : Nat) :
    Problem (size := size) (streamScript e b N) bumpyFl (fun _ _ => 0) (fun _ => true) where
  γ k := bumpy (b k)
  c _ _ := 0
  grad_eq k _ d h θ i p := by
    unfold bumpyFl
    rw [h 0]
    rfl
  cost_eq _ _ _ _ _ := rfl
  accepts _ _ _ _ := rfl

theorem bumpy_confining (size : Fin n → Nat) : Confining (gaussianReal 0 1) (flatGrad (bumpy (size := size))) (1 / 2)
    (∑ _q : Elem (Pos size), 9 / 2) 3 (fun β => ∑ _q : Elem (Pos size), (β ^ 2 + 9)) := by
  have hi : Integrable (fun t : ℝ => t) (gaussianReal 0 1) := (memLp_id_gaussianReal 1).integrable le_rfl
  have hi2 : Integrable (fun t : ℝ => t ^ 2) (gaussianReal 0 1) := (memLp_id_gaussianReal 2).integrable_sq
  refine ⟨?_, fun β x => ?_, fun β => Finset.sum_nonneg fun _ _ => by positivity, integrable_finsetSum _ fun _ _ => hi2.add (integrable_const 9),
    by norm_num, Finset.sum_nonneg fun _ _ => by norm_num, by norm_num, fun x => ?_⟩
  · refine measurable_pi_iff.2 fun q => ?_
    have h1 : Measurable fun y : ℝ × (Elem (Pos size) → ℝ) => y.2 q := (measurable_pi_apply q).comp measurable_snd
    exact (h1.sub measurable_fst).add ((Real.measurable_sin.comp h1).const_mul 3)
  · rw [← Finset.sum_add_distrib, Finset.mul_sum]
    refine Finset.sum_le_sum fun q _ => ?_
    simp only [flatGrad, bumpy]
    nlinarith [Real.sin_sq_le_one (x q), sq_nonneg (x q + β), sq_nonneg (x q - 3 * Real.sin (x q)), sq_nonneg (β + 3 * Real.sin (x q))]
  · have h1 : ∀ q : Elem (Pos size), Integrable (fun β : ℝ => x q * flatGrad bumpy β x q) (gaussianReal 0 1) := fun q =>
      (((integrable_const (x q)).sub hi).add (integrable_const (3 * Real.sin (x q)))).const_mul _
    rw [integral_finsetSum _ fun q _ => h1 q, Finset.mul_sum, ← Finset.sum_sub_distrib]
    refine Finset.sum_le_sum fun q _ => ?_
    have h2 : ∫ β : ℝ, x q * flatGrad bumpy β x q ∂gaussianReal 0 1 = x q * (x q + 3 * Real.sin (x q)) := by
      have h3 : Integrable (fun t : ℝ => x q - t) (gaussianReal 0 1) := (integrable_const (x q)).sub hi
      have h4 : ∫ t : ℝ, x q - t + 3 * Real.sin (x q) ∂gaussianReal 0 1 = x q + 3 * Real.sin (x q) := by
        rw [integral_add h3 (integrable_const _), integral_sub (integrable_const _) hi, integral_id_gaussianReal]
        simp
      rw [← h4, ← integral_const_mul]
      rfl
    rw [h2]
    nlinarith [Real.sin_sq_le_one (x q), sq_nonneg (x q + 3 * Real.sin (x q))]

/-- For any parameters there is one law that SGLD with random mini-batches approaches from any start. -/
example (size : Fin n → Nat) (order : Nat → SGLD.Schedule (Fin n)) : ∃ (π : Measure (Elem (Pos size) → ℝ)) (C ρ : ℝ),
    IsProbabilityMeasure π ∧ ρ < 1 ∧ ∀ θ : ∀ i, Pos size i → ℝ,
    ∃ (Ω : Type) (_ : MeasurableSpace Ω) (P : Measure Ω) (β : Nat → Ω → ℝ) (z : Nat → ∀ i, Pos size i → Ω → ℝ)
      (X : Nat → Ω → Elem (Pos size) → ℝ),
      RandomSteps (gaussianReal 0 1) P β z
      ∧ (∀ N ω, ∃ cost : Nat → Fl,
        (calls (asIter (burnInNext (env (streamFeeder (1 / 6)) (SGLDWorld.graph
            ⟨.fin 10, .fin 1, bumpyFl, fun _ _ => 0, fun k i p => .fin (drawsAfter 1 (fun _ _ _ => 0) z ω k i p), order⟩) fun _ => true) (1 : Nat) n)) N
            (init (some (batchesAfter 1 (fun _ => 0) β ω, 0)) () ⟨SGLD.State.init fun i p => .fin (θ i p), .fin 0, 0⟩)).1
          = (List.range N).map (fun k : Nat =>
              let arrays := List.ofFn fun i => flat fun p => .fin (X (k + 1) ω ⟨i, p⟩)
              .ok ((if (k : Int) < (1 : Nat) then .many arrays else unravel arrays), cost k)))
      ∧ ∃ R, ∀ q k, |∫ ω, X (1 + k) ω q ∂P - ∫ x, x q ∂π| ≤ C * R * ρ ^ k := by
  obtain ⟨π, C, ρ, h1, -, -, -, h2, -, h⟩ := C128_sgld_forgets (bumpy_confining size) (fun β i θ θ' h => by funext p; simp only [bumpy, h])
    10 (by norm_num) (fun _ => 1 / (1 + 3e-16)) (fun _ => by norm_num) (1 / 6) (by norm_num) (fun _ => by norm_num)
  refine ⟨π, C, ρ, h1, h2, fun θ => ?_⟩
  obtain ⟨Ω, mΩ, P, ζ, h1, h2, h3, h4⟩ := exists_iid Nat ((gaussianReal 0 1).prod (Measure.pi fun _ : Elem (Pos size) => gaussianReal 0 1))
  have hR : RandomSteps (gaussianReal 0 1) P (fun k ω => (ζ k ω).1) (fun k i p ω => (ζ k ω).2 ⟨i, p⟩) :=
    ⟨h4, fun k => (h1 k).fst, fun k i p => (measurable_pi_apply _).comp (h1 k).snd, h3, fun k => (h2 k).map_eq⟩
  have hmass : ∀ i p, (sgldVec (κ := Pos size) 1 10 (1 : Nat) (fun _ => 1 / 6) (fun k => bumpy 0) (fun _ _ _ => 0) θ 1 i p).mass = 1 / (1 + 3e-16) := by
    intro i p
    simp only [sgldVec, sgldStep, Coord.start, Coord.massUsed, after_false Nat.zero_lt_one, Bool.false_eq_true, if_false, Real.sqrt_one]
  obtain ⟨X, hX, hb⟩ := h (F := streamFeeder (1 / 6)) ⟨.fin 10, .fin 1, bumpyFl, fun _ _ => 0, fun _ _ _ => 0, order⟩ (fun _ => true) P
    (fun ω => streamScript (1 / 6) (batchesAfter 1 (fun _ => 0) (fun k ω => (ζ k ω).1) ω))
    (fun ω => bumpyProblem (1 / 6) (batchesAfter 1 (fun _ => 0) (fun k ω => (ζ k ω).1) ω))
    (fun ω => some (batchesAfter 1 (fun _ => 0) (fun k ω => (ζ k ω).1) ω, 0)) () (fun _ => 1 / 6) (fun _ => 0) (fun k ω => (ζ k ω).1) 1 1 (1 / 6)
    (fun _ _ _ => 0) (fun k i p ω => (ζ k ω).2 ⟨i, p⟩) (fun _ => order) θ (.fin 0) (fun _ _ => rfl) (fun _ _ => rfl) (fun _ _ => rfl)
    (fun _ _ _ _ => rfl) hR rfl rfl one_pos (by norm_num) (fun _ _ => rfl) hmass
  refine ⟨Ω, mΩ, P, _, _, X, hR, hX, 1 + ∑ q : Elem (Pos size),
    (sgldVec 1 10 (1 : Nat) (fun _ => 1 / 6) (fun _ => bumpy 0) (fun _ _ _ => 0) θ 1 q.1 q.2).pos ^ 2, fun q k => ?_⟩
  refine ((hb (measurable_pi_apply q) zero_le_one).1 (fun x => ?_) k).2.trans (le_of_eq (by ring))
  have h5 : x q ^ 2 ≤ ∑ q, x q ^ 2 := Finset.single_le_sum (f := fun q => x q ^ 2) (fun _ _ => sq_nonneg _) (Finset.mem_univ q)
  rw [abs_le]
  constructor <;> nlinarith [sq_nonneg (x q - 1), sq_nonneg (x q + 1)]

/-! ## Mixtures of Gaussians -/

section mixtures
open Objectives
variable {cs : List Component}

/-- The derivative of the negative logarithm of the density of a mixture. -/
noncomputable def score (cs : List Component) (x : ℝ) : ℝ :=
  (cs.map fun c => c.weight * gaussianPDFReal c.mean c.variance.toNNReal x * ((x - c.mean) / c.variance)).sum / mixtureDensity cs x

theorem mixture_pos (hcs : ∀ c ∈ cs, c.Valid) (hw : ∃ c ∈ cs, 0 < c.weight) (x : ℝ) : 0 < mixtureDensity cs x := by
  obtain ⟨c, hc, hcw⟩ := hw
  have h1 : ∀ y ∈ cs.map fun c => c.weight * gaussianPDFReal c.mean c.variance.toNNReal x, 0 ≤ y := by
    intro y hy
    obtain ⟨c, hc, rfl⟩ := List.mem_map.1 hy
    exact mul_nonneg (hcs c hc).1 (gaussianPDFReal_nonneg _ _ _)
  refine lt_of_lt_of_le ?_ (List.single_le_sum h1 _ (List.mem_map.2 ⟨c, hc, rfl⟩))
  exact mul_pos hcw (gaussianPDFReal_pos _ _ _ (by simpa using (hcs c hc).2))

theorem pdf_deriv {v : ℝ} (hv : 0 < v) (μ x : ℝ) :
    HasDerivAt (gaussianPDFReal μ v.toNNReal) (-(gaussianPDFReal μ v.toNNReal x * ((x - μ) / v))) x := by
  have h1 : HasDerivAt (fun y : ℝ => -(y - μ) ^ 2 / (2 * v)) (-((x - μ) / v)) x := by
    refine ((((hasDerivAt_id' x).sub_const μ).pow 2).neg.div_const (2 * v)).congr_deriv ?_
    simp only [Nat.cast_ofNat, Nat.add_one_sub_one, pow_one]
    field_simp
  have h2 := (h1.exp.const_mul (√(2 * Real.pi * v))⁻¹)
  have e : gaussianPDFReal μ v.toNNReal = fun y => (√(2 * Real.pi * v))⁻¹ * Real.exp (-(y - μ) ^ 2 / (2 * v)) := by
    rw [gaussianPDFReal_def, Real.coe_toNNReal v hv.le]
  rw [e]
  refine h2.congr_deriv ?_
  ring

theorem mixture_deriv (hcs : ∀ c ∈ cs, c.Valid) (x : ℝ) : HasDerivAt (mixtureDensity cs)
    (-(cs.map fun c => c.weight * gaussianPDFReal c.mean c.variance.toNNReal x * ((x - c.mean) / c.variance)).sum) x := by
  induction cs with
  | nil =>
    have e : mixtureDensity [] = fun _ => 0 := by
      funext y
      simp [mixtureDensity]
    rw [e]
    exact (hasDerivAt_const x (0 : ℝ)).congr_deriv (by simp)
  | cons c cs ih =>
    have h1 := ((pdf_deriv (hcs c (by simp)).2 c.mean x).const_mul c.weight).add (ih fun d hd => hcs d (by simp [hd]))
    have e : mixtureDensity (c :: cs) = fun y => c.weight * gaussianPDFReal c.mean c.variance.toNNReal y + mixtureDensity cs y := by
      funext y
      simp [mixtureDensity]
    rw [e]
    refine h1.congr_deriv ?_
    simp only [List.map_cons, List.sum_cons]
    ring

theorem score_deriv (hcs : ∀ c ∈ cs, c.Valid) (hw : ∃ c ∈ cs, 0 < c.weight) (x : ℝ) :
    HasDerivAt (fun x => -Real.log (mixtureDensity cs x)) (score cs x) x := by
  refine ((mixture_deriv hcs x).log (mixture_pos hcs hw x).ne').neg.congr_deriv ?_
  rw [score, neg_div, neg_neg]

theorem mixture_bounds (hcs : ∀ c ∈ cs, c.Valid) : ∃ M lo hi : ℝ, 0 ≤ M ∧ 0 < lo ∧ 0 < hi ∧ ∀ c ∈ cs, |c.mean| ≤ M ∧ lo ≤ c.variance ∧ c.variance ≤ hi := by
  induction cs with
  | nil => exact ⟨0, 1, 1, le_rfl, one_pos, one_pos, by simp⟩
  | cons c cs ih =>
    obtain ⟨M, lo, hi, hM, hlo, hhi, h⟩ := ih fun d hd => hcs d (by simp [hd])
    refine ⟨max M |c.mean|, min lo c.variance, max hi c.variance, le_max_of_le_left hM, lt_min hlo (hcs c (by simp)).2, lt_max_of_lt_left hhi, ?_⟩
    intro d hd
    rcases List.mem_cons.1 hd with rfl | hd
    · exact ⟨le_max_right _ _, min_le_right _ _, le_max_right _ _⟩
    · obtain ⟨h1, h2, h3⟩ := h d hd
      exact ⟨h1.trans (le_max_left _ _), (min_le_left _ _).trans h2, h3.trans (le_max_left _ _)⟩

theorem sum_map_le {α : Type} (l : List α) {f g : α → ℝ} (h : ∀ a ∈ l, f a ≤ g a) : (l.map f).sum ≤ (l.map g).sum := List.sum_le_sum h

theorem score_bounds (hcs : ∀ c ∈ cs, c.Valid) (hw : ∃ c ∈ cs, 0 < c.weight) {M lo hi : ℝ} (hlo : 0 < lo)
    (h : ∀ c ∈ cs, |c.mean| ≤ M ∧ lo ≤ c.variance ∧ c.variance ≤ hi) (x : ℝ) :
    |score cs x| ≤ (|x| + M) / lo ∧ x ^ 2 / (2 * hi) - M ^ 2 / (2 * lo) ≤ x * score cs x := by
  have hp := mixture_pos hcs hw x
  have hwn : ∀ c ∈ cs, 0 ≤ c.weight * gaussianPDFReal c.mean c.variance.toNNReal x := fun c hc =>
    mul_nonneg (hcs c hc).1 (gaussianPDFReal_nonneg _ _ _)
  refine ⟨?_, ?_⟩
  · have hup : ∀ c ∈ cs, |(x - c.mean) / c.variance| ≤ (|x| + M) / lo := fun c hc => by
      obtain ⟨h1, h2, h3⟩ := h c hc
      rw [abs_div, abs_of_pos (hcs c hc).2]
      exact div_le_div₀ (by linarith [abs_nonneg x, abs_nonneg c.mean]) ((abs_sub _ _).trans (by linarith)) hlo h2
    rw [score, abs_div, abs_of_pos hp, div_le_iff₀ hp, abs_le]
    constructor
    · rw [← neg_mul, mixtureDensity, ← List.sum_map_mul_left]
      refine sum_map_le _ fun c hc => ?_
      have := mul_le_mul_of_nonneg_left (abs_le.1 (hup c hc)).1 (hwn c hc)
      linarith
    · rw [mixtureDensity, ← List.sum_map_mul_left]
      refine sum_map_le _ fun c hc => ?_
      have := mul_le_mul_of_nonneg_left (abs_le.1 (hup c hc)).2 (hwn c hc)
      linarith
  · rw [score, mul_div_assoc', le_div_iff₀ hp, mixtureDensity, ← List.sum_map_mul_left, ← List.sum_map_mul_left]
    refine sum_map_le _ fun c hc => ?_
    obtain ⟨h1, h2, h3⟩ := h c hc
    have hv := (hcs c hc).2
    have k1 : x ^ 2 / (2 * hi) - M ^ 2 / (2 * lo) ≤ x * ((x - c.mean) / c.variance) := by
      have k2 : x ^ 2 / (2 * hi) ≤ x ^ 2 / (2 * c.variance) := div_le_div_of_nonneg_left (sq_nonneg x) (by positivity) (by linarith)
      have k3 : c.mean ^ 2 / (2 * c.variance) ≤ M ^ 2 / (2 * lo) :=
        div_le_div₀ (sq_nonneg M) (by rw [← sq_abs]; exact pow_le_pow_left₀ (abs_nonneg _) h1 2) (by positivity) (by linarith)
      have k4 : x ^ 2 / (2 * c.variance) - c.mean ^ 2 / (2 * c.variance) ≤ x * ((x - c.mean) / c.variance) := by
        rw [← sub_div, mul_div_assoc', div_le_div_iff₀ (by positivity) hv]
        nlinarith [mul_nonneg hv.le (sq_nonneg (x - c.mean))]
      linarith
    have := mul_le_mul_of_nonneg_left k1 (hwn c hc)
    linarith

theorem score_measurable (cs : List Component) : Measurable (score cs) := by
  have hm : ∀ (l : List Component) (f : Component → ℝ → ℝ), (∀ c, Measurable (f c)) → Measurable fun x => (l.map fun c => f c x).sum := by
    intro l f hf
    induction l with
    | nil => simp
    | cons c l ih =>
      simp only [List.map_cons, List.sum_cons]
      exact (hf c).add ih
  have h1 : ∀ c : Component, Measurable (gaussianPDFReal c.mean c.variance.toNNReal) := fun c => measurable_gaussianPDFReal _ _
  exact (hm cs _ fun c => ((h1 c).const_mul _).mul ((measurable_id.sub_const _).div_const _)).div (hm cs _ fun c => (h1 c).const_mul _)

/-- The gradients of the negative log likelihood of a mixture confine. -/
theorem mixture_confining (hcs : ∀ c ∈ cs, c.Valid) (hw : ∃ c ∈ cs, 0 < c.weight) : ∃ a₀ b₀ Λ : ℝ, 0 < a₀ ∧ 0 < Λ ∧
    ∃ g, Confining (Measure.dirac ()) (fun (_ : Unit) (x : Elem (Pos size) → ℝ) q => score cs (x q)) a₀ b₀ Λ g := by
  obtain ⟨M, lo, hi, hM, hlo, hhi, h⟩ := mixture_bounds hcs
  have hb := score_bounds hcs hw hlo h
  refine ⟨1 / (2 * hi), ∑ _q : Elem (Pos size), M ^ 2 / (2 * lo), 2 / lo ^ 2, by positivity, by positivity,
    fun _ => ∑ _q : Elem (Pos size), M ^ 2, ?_, fun _ x => ?_, fun _ => Finset.sum_nonneg fun _ _ => sq_nonneg M, integrable_const _, by positivity,
    Finset.sum_nonneg fun _ _ => by positivity, by positivity, fun x => ?_⟩
  · exact measurable_pi_iff.2 fun q => (score_measurable cs).comp ((measurable_pi_apply q).comp measurable_snd)
  · rw [← Finset.sum_add_distrib, Finset.mul_sum]
    refine Finset.sum_le_sum fun q _ => ?_
    have h1 : score cs (x q) ^ 2 ≤ ((|x q| + M) / lo) ^ 2 := by
      rw [← sq_abs]
      exact pow_le_pow_left₀ (abs_nonneg _) (hb (x q)).1 2
    refine h1.trans ?_
    rw [div_pow, div_mul_eq_mul_div]
    refine div_le_div_of_nonneg_right ?_ (by positivity)
    nlinarith [sq_nonneg (|x q| - M), sq_abs (x q)]
  · rw [integral_dirac, Finset.mul_sum, ← Finset.sum_sub_distrib]
    refine Finset.sum_le_sum fun q _ => le_trans (le_of_eq ?_) (hb (x q)).2
    ring

/-- **C129** SGLD forgets where it started on the benchmark mixtures: the cost is the negative of the package's mixture log likelihood of
the only coordinate of the only parameter, with any means, variances and weights, and its gradient is the derivative of that. -/
theorem C129_mixtures_forget (hcs : ∀ c ∈ cs, c.Valid) (hw : ∃ c ∈ cs, 0 < c.weight) :
    ∃ ll : ℝ → ℝ, (∀ x, ∀ arg ∈ [MixArg.seq [.number x], .seq [.variable x]],
      gmmLogLikelihood arg (cs.map (·.mean)) (cs.map (·.variance)) (cs.map (·.weight)) = .ok (.fin (ll x))) ∧ Differentiable ℝ ll ∧
    ∃ t₀ > 0, ∀ (scale : ℝ), 0 < scale → ∀ (mass : ℝ), 0 < mass → ∀ (t : ℝ), 0 < t → t * mass ≤ t₀ →
    ∃ (π : Measure (Elem (Pos fun _ : Fin 1 => 1) → ℝ)) (C ρ : ℝ), IsProbabilityMeasure π ∧ Integrable (fun x => ∑ q, x q ^ 2) π ∧
    0 ≤ C ∧ 0 ≤ ρ ∧ ρ < 1 ∧
    ∀ {F : Feeder} (W : SGLDWorld fun _ : Fin 1 => 1) (ok : Dict Key Arr → Bool) {Ω : Type} [MeasurableSpace Ω] (P : Measure Ω)
      (S : ∀ N, Script F N) (Pb : ∀ N, Problem (S N) W.grad W.cost ok) (gen : Option F.Batch) (sched : F.Sched) (eps : Nat → ℝ)
      (a : ℝ) (B : Nat) (e : ℝ) (z0 : Nat → ∀ i, Pos (fun _ : Fin 1 => 1) i → ℝ) (z : Nat → ∀ i, Pos (fun _ : Fin 1 => 1) i → Ω → ℝ)
      (order : Ω → Nat → SGLD.Schedule (Fin 1)) (θ : ∀ i, Pos (fun _ : Fin 1 => 1) i → ℝ) (eps0 : Fl),
      (∀ N, (S N).batch 0 = gen) → (∀ N, (S N).sched 0 = sched) → (∀ N, (S N).eps = eps) →
      (∀ N k θ i p, (Pb N).γ k θ i p = deriv (fun x => -ll x) (θ i p)) → RandomSteps (Measure.dirac ()) P (fun _ _ => ()) z →
      W.a = .fin a → W.scaleGrad = .fin scale → 0 < B → e * a = t → (∀ k, B ≤ k → eps k = e) →
      let world : Ω → SGLDWorld fun _ : Fin 1 => 1 := fun ω =>
        { W with normal := fun k i p => .fin (drawsAfter B z0 z ω k i p), order := order ω }
      let atEnd := sgldVec a scale B eps (fun _ θ i p => deriv (fun x => -ll x) (θ i p)) z0 θ B
      (∀ i p, (atEnd i p).mass = mass) →
      ∃ X : Nat → Ω → Elem (Pos fun _ : Fin 1 => 1) → ℝ,
        (∀ N ω, ∃ cost : Nat → Fl,
          (calls (asIter (burnInNext (env F (world ω).graph ok) B 1)) N
              (init gen sched ⟨SGLD.State.init fun i p => .fin (θ i p), eps0, 0⟩)).1
            = (List.range N).map (fun k : Nat =>
                let arrays := List.ofFn fun i => flat fun p => .fin (X (k + 1) ω ⟨i, p⟩)
                .ok ((if (k : Int) < B then .many arrays else unravel arrays), cost k)))
        ∧ ∀ {f : (Elem (Pos fun _ : Fin 1 => 1) → ℝ) → ℝ} {A : ℝ}, Measurable f → 0 ≤ A →
          ((∀ x, |f x| ≤ A * (1 + ∑ q, x q ^ 2)) → ∀ k, Integrable (fun ω => f (X (B + k) ω)) P ∧
            |∫ ω, f (X (B + k) ω) ∂P - ∫ x, f x ∂π| ≤ A * (C * (1 + ∑ q : Elem (Pos fun _ : Fin 1 => 1), (atEnd q.1 q.2).pos ^ 2)) * ρ ^ k)
          ∧ ((∀ x, |f x| ≤ A * (1 + √(∑ q, x q ^ 2))) → ∀ {I : Finset Nat}, I.Nonempty →
            Integrable (fun ω => ((∑ k ∈ I, f (X (B + k) ω)) / I.card - ∫ x, f x ∂π) ^ 2) P ∧
            ∫ ω, ((∑ k ∈ I, f (X (B + k) ω)) / I.card - ∫ x, f x ∂π) ^ 2 ∂P
              ≤ A ^ 2 * (C * (1 + ∑ q : Elem (Pos fun _ : Fin 1 => 1), (atEnd q.1 q.2).pos ^ 2)) / I.card) := by
  have hd : ∀ x, deriv (fun x => -Real.log (mixtureDensity cs x)) x = score cs x := fun x => (score_deriv hcs hw x).deriv
  obtain ⟨a₀, b₀, Λ, ha₀, hΛ, g, hg⟩ := mixture_confining (size := fun _ : Fin 1 => 1) hcs hw
  have hne : cs ≠ [] := by rintro rfl; simp at hw
  refine ⟨fun x => Real.log (mixtureDensity cs x), fun x arg harg => ?_, ?_, a₀ / Λ, div_pos ha₀ hΛ, ?_⟩
  · rw [C70_density cs hcs x arg, Fl.log_fin (mixture_pos hcs hw x)]
    simp only [List.mem_cons, List.not_mem_nil, or_false] at harg
    rcases harg with rfl | rfl
    · exact .inl ⟨hne, .inr rfl⟩
    · exact .inr rfl
  · intro x
    have := (score_deriv hcs hw x).differentiableAt.neg
    simpa using this
  · intro scale hs mass hmass t ht htm
    obtain ⟨π, C, ρ, h1, h2, h3, h4, h5, -, h6⟩ := C128_sgld_forgets (size := fun _ : Fin 1 => 1)
      (γ := fun (_ : Unit) θ i p => score cs (θ i p)) (a₀ := a₀) (b₀ := b₀) (Λ := Λ) (g := g) hg
      (fun β i θ θ' h => by funext p; simp only [h]) scale hs (fun _ => mass) (fun _ => hmass) t ht
      (fun _ => by rwa [le_div_iff₀ hΛ] at htm)
    refine ⟨π, C, ρ, h1, h2, h3, h4, h5, ?_⟩
    intro F W ok Ω _ P S Pb gen sched eps a B e z0 z order θ eps0 hgen hsched heps hPb hR ha hsc hB het he
    simp only [hd] at hPb ⊢
    exact h6 W ok P (fun _ => S) (fun _ => Pb) (fun _ => gen) sched eps (fun _ => ()) (fun _ _ => ()) a B e z0 z order θ eps0
      (fun _ => hgen) (fun _ => hsched) (fun _ => heps) (fun _ N k θ => by funext i p; exact hPb N k θ i p) hR ha hsc hB het he

/-- No batches, and stepsize `e`. -/
noncomputable def plainScript (e : ℝ) (N : Nat) : Script (streamFeeder e) N where
  batch _ := none
  data _ := Dict.empty
  sched _ := ()
  eps _ := e
  supplies _ _ := ⟨rfl, rfl⟩
  stepsize _ _ := ⟨(), rfl, fun _ _ => rfl⟩
  user _ _ _ _ := rfl

/-- The gradient of the negative log likelihood of a mixture, in the model's numbers. -/
noncomputable def scoreFl (cs : List Component) : Fl → Fl
  | .fin r => .fin (score cs r)
  | _ => .nan

noncomputable def scoreProblem (cs : List Component) (e : ℝ) (N : Nat) :
    Problem (size := fun _ : Fin 1 => 1) (plainScript e N) (fun _ θ i p => scoreFl cs (θ i p)) (fun _ _ => 0) (fun _ => true) where
  γ _ θ i p := score cs (θ i p)
  c _ _ := 0
  grad_eq _ _ _ _ _ _ _ := rfl
  cost_eq _ _ _ _ _ := rfl
  accepts _ _ _ _ := rfl

/-- The package's third mixture has three modes, and one law that SGLD approaches from any start, whichever mode that is. -/
example (order : Nat → SGLD.Schedule (Fin 1)) : ∃ t > 0, ∃ (π : Measure (Elem (Pos fun _ : Fin 1 => 1) → ℝ)) (C ρ : ℝ),
    IsProbabilityMeasure π ∧ ρ < 1 ∧ ∀ θ : ∀ i, Pos (fun _ : Fin 1 => 1) i → ℝ,
    ∃ (Ω : Type) (_ : MeasurableSpace Ω) (P : Measure Ω) (z : Nat → ∀ i, Pos (fun _ : Fin 1 => 1) i → Ω → ℝ)
      (X : Nat → Ω → Elem (Pos fun _ : Fin 1 => 1) → ℝ),
      (∀ N ω, ∃ cost : Nat → Fl,
        (calls (asIter (burnInNext (env (streamFeeder t) (SGLDWorld.graph
            ⟨.fin 1, .fin 1, fun _ θ i p => scoreFl (threeModes (10 / 3) (3 / 10)) (θ i p), fun _ _ => 0,
              fun k i p => .fin (drawsAfter 1 (fun _ _ _ => 0) z ω k i p), order⟩) fun _ => true) (1 : Nat) 1)) N
            (init none () ⟨SGLD.State.init fun i p => .fin (θ i p), .fin 0, 0⟩)).1
          = (List.range N).map (fun k : Nat =>
              let arrays := List.ofFn fun i => flat fun p => .fin (X (k + 1) ω ⟨i, p⟩)
              .ok ((if (k : Int) < (1 : Nat) then .many arrays else unravel arrays), cost k)))
      ∧ ∃ R, ∀ q k, |∫ ω, X (1 + k) ω q ∂P - ∫ x, x q ∂π| ≤ C * R * ρ ^ k := by
  have hcs := threeModes_valid (v := 10 / 3) (w := 3 / 10) (by norm_num) (by norm_num)
  have hw : ∃ c ∈ threeModes (10 / 3) (3 / 10), 0 < c.weight := ⟨⟨1 / 3, 0, 3 / 10⟩, by simp [threeModes], by norm_num⟩
  obtain ⟨ll, hll, -, t, ht, h⟩ := C129_mixtures_forget hcs hw
  have hd : ∀ x, deriv (fun x => -ll x) x = score (threeModes (10 / 3) (3 / 10)) x := fun x => by
    have e : ll = fun x => Real.log (mixtureDensity (threeModes (10 / 3) (3 / 10)) x) := by
      funext y
      have h1 := hll y (.seq [.variable y]) (by simp)
      rw [C70_density _ hcs y _ (.inr rfl), Fl.log_fin (mixture_pos hcs hw y)] at h1
      simpa using h1.symm
    rw [e]
    exact (score_deriv hcs hw x).deriv
  obtain ⟨π, C, ρ, h1, -, -, -, h2, h⟩ := h 1 one_pos (1 / (1 + 3e-16)) (by norm_num) t ht
    (mul_le_of_le_one_right ht.le (by norm_num))
  refine ⟨t, ht, π, C, ρ, h1, h2, fun θ => ?_⟩
  obtain ⟨Ω, mΩ, P, ζ, h1, h2, h3, h4⟩ := exists_iid Nat
    ((Measure.dirac ()).prod (Measure.pi fun _ : Elem (Pos fun _ : Fin 1 => 1) => gaussianReal 0 1))
  have hR : RandomSteps (Measure.dirac ()) P (fun _ _ => ()) (fun k i p ω => (ζ k ω).2 ⟨i, p⟩) :=
    ⟨h4, fun k => (h1 k).fst, fun k i p => (measurable_pi_apply _).comp (h1 k).snd, h3, fun k => (h2 k).map_eq⟩
  have hmass : ∀ i p, (sgldVec (κ := Pos fun _ : Fin 1 => 1) 1 1 (1 : Nat) (fun _ => t) (fun _ θ i p => deriv (fun x => -ll x) (θ i p))
      (fun _ _ _ => 0) θ 1 i p).mass = 1 / (1 + 3e-16) := by
    intro i p
    simp only [sgldVec, sgldStep, Coord.start, Coord.massUsed, after_false Nat.zero_lt_one, Bool.false_eq_true, if_false, Real.sqrt_one]
  obtain ⟨X, hX, hb⟩ := h (F := streamFeeder t) ⟨.fin 1, .fin 1, fun _ θ i p => scoreFl (threeModes (10 / 3) (3 / 10)) (θ i p), fun _ _ => 0,
      fun _ _ _ => 0, order⟩ (fun _ => true) P (fun N => plainScript t N) (fun N => scoreProblem _ t N) none () (fun _ => t) 1 1 t (fun _ _ _ => 0)
    (fun k i p ω => (ζ k ω).2 ⟨i, p⟩) (fun _ => order) θ (.fin 0) (fun _ => rfl) (fun _ => rfl) (fun _ => rfl)
    (fun _ _ _ _ _ => (hd _).symm) hR rfl rfl one_pos (mul_one t) (fun _ _ => rfl) hmass
  refine ⟨Ω, mΩ, P, _, X, hX, 1 + ∑ q : Elem (Pos fun _ : Fin 1 => 1),
    (sgldVec 1 1 (1 : Nat) (fun _ => t) (fun _ θ i p => deriv (fun x => -ll x) (θ i p)) (fun _ _ _ => 0) θ 1 q.1 q.2).pos ^ 2, fun q k => ?_⟩
  refine ((hb (measurable_pi_apply q) zero_le_one).1 (fun x => ?_) k).2.trans (le_of_eq (by ring))
  have h5 : x q ^ 2 ≤ ∑ q, x q ^ 2 := Finset.single_le_sum (f := fun q => x q ^ 2) (fun _ _ => sq_nonneg _) (Finset.mem_univ q)
  rw [abs_le]
  constructor <;> nlinarith [sq_nonneg (x q - 1), sq_nonneg (x q + 1)]

end mixtures

end PySGMCMC.Chain
