import Verif.Props.SgldForgets
import Verif.Props.SghmcConverges
import Verif.Lemmas.ConfiningMomentum

/-!
# C130 and C131: SGHMC forgets where it started

The same as C128 and C129 for SGHMC.  The stationary law is a law of position and momentum.  It depends on the cost, on `scale`, on
`alpha`, on the stepsize and on the masses, but not on position and momentum at the end of burn-in.
-/

namespace PySGMCMC.Chain
open SamplerBase BurnInStats Spec MeasureTheory ProbabilityTheory Contraction Invariance Recipe Harris

variable {n : Nat} {size : Fin n → Nat} {Bt : Type} [MeasurableSpace Bt]

theorem sghmcSd_ne {e alpha scale m : ℝ} (hs : 0 < scale) : sghmcSd e alpha scale m ≠ 0 := by
  rw [sghmcSd_eq hs]
  exact (Real.sqrt_pos.2 (lt_of_lt_of_le (by norm_num) (le_max_right _ _))).ne'

/-- After burn-in SGHMC makes the same random step again and again, in position and momentum. -/
theorem sghmc_hops {ν : Measure Bt} {γ : Bt → (∀ i, Pos size i → ℝ) → ∀ i, Pos size i → ℝ}
    (hsep : ∀ β i θ θ', θ i = θ' i → γ β θ i = γ β θ' i) {scale alpha : ℝ} (hs : 0 < scale) {mass : Elem (Pos size) → ℝ} {e : ℝ}
    {F : Feeder} (W : SGHMCWorld size) (ok : Dict Key Arr → Bool) {Ω : Type} [MeasurableSpace Ω] (P : Measure Ω)
    (S : Ω → ∀ N, Script F N) (Pb : ∀ ω N, Problem (S ω N) W.grad W.cost ok) (gen : Ω → Option F.Batch) (sched : F.Sched) (eps : Nat → ℝ)
    (b0 : Nat → Bt) (β : Nat → Ω → Bt) (B : Nat) (z0 : Nat → ∀ i, Pos size i → ℝ) (z : Nat → ∀ i, Pos size i → Ω → ℝ)
    (order : Ω → Nat → SGHMC.Schedule (Fin n)) (θ : ∀ i, Pos size i → ℝ) (eps0 : Fl)
    (hgen : ∀ ω N, (S ω N).batch 0 = gen ω) (hsched : ∀ ω N, (S ω N).sched 0 = sched) (heps : ∀ ω N, (S ω N).eps = eps)
    (hPb : ∀ ω N k θ, (Pb ω N).γ k θ = γ (batchesAfter B b0 β ω k) θ) (hR : RandomSteps ν P β z)
    (ha : W.mdecay = .fin alpha) (hsc : W.scaleGrad = .fin scale) (hB : 0 < B) (he : ∀ k, B ≤ k → eps k = e) :
    let world : Ω → SGHMCWorld size := fun ω =>
      { W with normal := fun k i p => .fin (drawsAfter B z0 z ω k i p), order := order ω }
    let atEnd := sghmcVec alpha scale B eps (fun k => γ (b0 k)) z0 θ B
    let ζ := fun (k : Nat) ω => (β k ω, fun q : Elem (Pos size) => z k q.1 q.2 ω)
    (∀ i p, (atEnd i p).mass = mass ⟨i, p⟩) →
    (∀ k, Measurable (ζ k)) ∧ iIndepFun ζ P ∧ (∀ k, P.map (ζ k) = ν.prod (gauss (Elem (Pos size)))) ∧
    ∃ X : Nat → Ω → (Elem (Pos size) → ℝ) × (Elem (Pos size) → ℝ),
      (∀ N ω, ∃ cost : Nat → Fl,
        (calls (asIter (burnInNext (env F (world ω).graph ok) B n)) N
            (init (gen ω) sched ⟨SGHMC.State.init fun i p => .fin (θ i p), eps0, 0⟩)).1
          = (List.range N).map (fun k : Nat =>
              let arrays := List.ofFn fun i => flat fun p => .fin ((X (k + 1) ω).1 ⟨i, p⟩)
              .ok ((if (k : Int) < B then .many arrays else unravel arrays), cost k)))
      ∧ (∀ ω, X (B + 0) ω = (fun q => (atEnd q.1 q.2).pos, fun q => (atEnd q.1 q.2).mom))
      ∧ ∀ k ω, X (B + (k + 1)) ω = hop (flatGrad γ) mass (fun q => sghmcSd e alpha scale (mass q)) (e ^ 2) alpha (X (B + k) ω) (ζ k ω) := by
  intro world atEnd ζ hm
  refine ⟨fun k => (hR.batch k).prodMk (measurable_pi_iff.2 fun q => hR.draw k q.1 q.2), hR.indep, hR.law, ?_⟩
  have hq : ∀ ω N, (Pb ω N).γ = fun k => γ (batchesAfter B b0 β ω k) := fun ω N => by funext k θ; exact hPb ω N k θ
  have h00 : ∀ ω, sghmcVec alpha scale B eps (fun k => γ (batchesAfter B b0 β ω k)) (drawsAfter B z0 z ω) θ B = atEnd := fun ω =>
    sghmcVec_congr' alpha scale B eps θ B (fun j hj => by unfold batchesAfter; rw [if_pos hj]) fun j hj => drawsAfter_lt hj
  refine ⟨fun k ω => (fun q => (sghmcVec alpha scale B eps (fun k => γ (batchesAfter B b0 β ω k)) (drawsAfter B z0 z ω) θ k q.1 q.2).pos,
    fun q => (sghmcVec alpha scale B eps (fun k => γ (batchesAfter B b0 β ω k)) (drawsAfter B z0 z ω) θ k q.1 q.2).mom), ?_, ?_, ?_⟩
  · intro N ω
    obtain ⟨cost, hcost⟩ := C88_sghmc_deterministic (S ω N) (world ω) ok
      ⟨(Pb ω N).γ, (Pb ω N).c, (Pb ω N).grad_eq, (Pb ω N).cost_eq, (Pb ω N).accepts⟩ alpha scale ha hsc hs (drawsAfter B z0 z ω) (fun _ _ _ => rfl)
      B θ eps0 (fun k _ i θ θ' hθ => by simp only [hPb]; exact hsep _ i θ θ' hθ)
    refine ⟨cost, ?_⟩
    rw [hgen, hsched] at hcost
    rw [hcost]
    simp only [heps, hq]
  · intro ω
    simp only [Nat.add_zero, h00 ω]
  · intro k ω
    have h1 : ∀ q : Elem (Pos size), (sghmcVec alpha scale B eps (fun k => γ (batchesAfter B b0 β ω k)) (drawsAfter B z0 z ω) θ (B + k + 1) q.1 q.2).mom
        = kick (flatGrad γ) mass (fun q => sghmcSd e alpha scale (mass q)) (e ^ 2) alpha
          (fun q => (sghmcVec alpha scale B eps (fun k => γ (batchesAfter B b0 β ω k)) (drawsAfter B z0 z ω) θ (B + k) q.1 q.2).pos,
           fun q => (sghmcVec alpha scale B eps (fun k => γ (batchesAfter B b0 β ω k)) (drawsAfter B z0 z ω) θ (B + k) q.1 q.2).mom)
          (β k ω, fun q : Elem (Pos size) => z k q.1 q.2 ω) q := fun q => by
      have h1 := ((sghmcVec_after alpha scale hB eps (fun k => γ (batchesAfter B b0 β ω k)) (drawsAfter B z0 z ω) θ).2 (B + k) q.1 q.2
        (Nat.le_add_right B k)).2
      rw [he _ (Nat.le_add_right B k), drawsAfter_add, h00 ω, batchesAfter_add, hm] at h1
      exact h1
    rw [← Nat.add_assoc]
    refine Prod.ext (funext fun q => ?_) (funext fun q => h1 q)
    refine (((sghmcVec_after alpha scale hB eps (fun k => γ (batchesAfter B b0 β ω k)) (drawsAfter B z0 z ω) θ).2 (B + k) q.1 q.2
        (Nat.le_add_right B k)).1).trans ?_
    rw [h1 q]
    rfl

/-- **C130** SGHMC forgets where it started. -/
theorem C130_sghmc_forgets {ν : Measure Bt} [IsProbabilityMeasure ν] {γ : Bt → (∀ i, Pos size i → ℝ) → ∀ i, Pos size i → ℝ}
    {a₀ b₀ Λ : ℝ} {g : Bt → ℝ} (hγ : Confining ν (flatGrad γ) a₀ b₀ Λ g)
    (hsep : ∀ β i θ θ', θ i = θ' i → γ β θ i = γ β θ' i) (scale alpha : ℝ) (hs : 0 < scale) (hα0 : 0 < alpha) (hα1 : alpha ≤ 1)
    (mass : Elem (Pos size) → ℝ) (hmass : ∀ q, 0 < mass q) (e : ℝ) (he0 : 0 < e)
    (hst : ∀ q, e ^ 2 * (1 / alpha ^ 2 + 1 + 2 * ((1 - alpha) / alpha ^ 2 + (1 - alpha)) ^ 2 / alpha) * alpha * mass q * Λ ≤ a₀) :
    ∃ (π : Measure ((Elem (Pos size) → ℝ) × (Elem (Pos size) → ℝ))) (C ρ : ℝ), IsProbabilityMeasure π
    ∧ Integrable (fun x => ∑ q, x.1 q ^ 2 + ∑ q, x.2 q ^ 2) π ∧ 0 ≤ C ∧ 0 ≤ ρ ∧ ρ < 1 ∧
    (π.prod (ν.prod (Measure.pi fun _ => gaussianReal 0 1))).map
        (fun p =>
          let v := fun q => (1 - alpha) * p.1.2 q - e ^ 2 * mass q * flatGrad γ p.2.1 p.1.1 q + sghmcSd e alpha scale (mass q) * p.2.2 q
          (fun q => p.1.1 q + v q, v)) = π ∧
    ∀ {F : Feeder} (W : SGHMCWorld size) (ok : Dict Key Arr → Bool) {Ω : Type} [MeasurableSpace Ω] (P : Measure Ω)
      (S : Ω → ∀ N, Script F N) (Pb : ∀ ω N, Problem (S ω N) W.grad W.cost ok) (gen : Ω → Option F.Batch) (sched : F.Sched) (eps : Nat → ℝ)
      (b0 : Nat → Bt) (β : Nat → Ω → Bt) (B : Nat) (z0 : Nat → ∀ i, Pos size i → ℝ) (z : Nat → ∀ i, Pos size i → Ω → ℝ)
      (order : Ω → Nat → SGHMC.Schedule (Fin n)) (θ : ∀ i, Pos size i → ℝ) (eps0 : Fl),
      (∀ ω N, (S ω N).batch 0 = gen ω) → (∀ ω N, (S ω N).sched 0 = sched) → (∀ ω N, (S ω N).eps = eps) →
      (∀ ω N k θ, (Pb ω N).γ k θ = γ (batchesAfter B b0 β ω k) θ) → RandomSteps ν P β z →
      W.mdecay = .fin alpha → W.scaleGrad = .fin scale → 0 < B → (∀ k, B ≤ k → eps k = e) →
      let world : Ω → SGHMCWorld size := fun ω =>
        { W with normal := fun k i p => .fin (drawsAfter B z0 z ω k i p), order := order ω }
      let atEnd := sghmcVec alpha scale B eps (fun k => γ (b0 k)) z0 θ B
      (∀ i p, (atEnd i p).mass = mass ⟨i, p⟩) →
      ∃ X : Nat → Ω → Elem (Pos size) → ℝ,
        (∀ N ω, ∃ cost : Nat → Fl,
          (calls (asIter (burnInNext (env F (world ω).graph ok) B n)) N
              (init (gen ω) sched ⟨SGHMC.State.init fun i p => .fin (θ i p), eps0, 0⟩)).1
            = (List.range N).map (fun k : Nat =>
                let arrays := List.ofFn fun i => flat fun p => .fin (X (k + 1) ω ⟨i, p⟩)
                .ok ((if (k : Int) < B then .many arrays else unravel arrays), cost k)))
        ∧ let size₀ := ∑ q : Elem (Pos size), (atEnd q.1 q.2).pos ^ 2 + ∑ q : Elem (Pos size), (atEnd q.1 q.2).mom ^ 2
          ∀ {f : (Elem (Pos size) → ℝ) → ℝ} {A : ℝ}, Measurable f → 0 ≤ A →
          ((∀ x, |f x| ≤ A * (1 + ∑ q, x q ^ 2)) → ∀ k, Integrable (fun ω => f (X (B + k) ω)) P ∧
            |∫ ω, f (X (B + k) ω) ∂P - ∫ x, f x.1 ∂π| ≤ A * (C * (1 + size₀)) * ρ ^ k)
          ∧ ((∀ x, |f x| ≤ A * (1 + √(∑ q, x q ^ 2))) → ∀ {I : Finset Nat}, I.Nonempty →
            Integrable (fun ω => ((∑ k ∈ I, f (X (B + k) ω)) / I.card - ∫ x, f x.1 ∂π) ^ 2) P ∧
            ∫ ω, ((∑ k ∈ I, f (X (B + k) ω)) / I.card - ∫ x, f x.1 ∂π) ^ 2 ∂P ≤ A ^ 2 * (C * (1 + size₀)) / I.card) := by
  obtain ⟨π, C, ρ, hπ, hinv, hπ2, hC, hρ0, hρ1, hK⟩ := hγ.forgets_momentum (m := mass) (t := e ^ 2) (α := alpha)
    (s := fun q => sghmcSd e alpha scale (mass q)) hmass hα0 hα1 (by positivity) hst (fun q => sghmcSd_ne hs)
  refine ⟨π, C, ρ, hπ, hπ2, hC, hρ0, hρ1, hinv, ?_⟩
  intro F W ok Ω _ P S Pb gen sched eps b0 β B z0 z order θ eps0 hgen hsched heps hPb hR ha hsc hB he world atEnd hm
  have := hR.prob
  obtain ⟨hζ, hi, hlaw, X, hX, h0, hstep⟩ := sghmc_hops hsep hs W ok P S Pb gen sched eps b0 β B z0 z order θ eps0 hgen hsched heps hPb hR ha hsc hB he hm
  refine ⟨fun k ω => (X k ω).1, hX, ?_⟩
  · intro size₀ f A hf hA
    obtain ⟨h1, h2⟩ := hK P _ (fun k ω => X (B + k) ω) _ hζ hi hlaw h0 hstep (hf.comp measurable_fst) hA
    · refine ⟨fun hfb => h1 fun x => (hfb x.1).trans ?_, fun hfb => h2 fun x => (hfb x.1).trans ?_⟩
      · refine mul_le_mul_of_nonneg_left (add_le_add le_rfl ?_) hA
        exact le_add_of_nonneg_right (Finset.sum_nonneg fun _ _ => sq_nonneg _)
      · refine mul_le_mul_of_nonneg_left (add_le_add le_rfl (Real.sqrt_le_sqrt ?_)) hA
        exact le_add_of_nonneg_right (Finset.sum_nonneg fun _ _ => sq_nonneg _)

/-- For any parameters there is one law that SGHMC with random mini-batches approaches from any start, though the cost has many minima. -/
example (size : Fin n → Nat) (order : Nat → SGHMC.Schedule (Fin n)) : ∃ (π : Measure ((Elem (Pos size) → ℝ) × (Elem (Pos size) → ℝ))) (C ρ : ℝ),
    IsProbabilityMeasure π ∧ ρ < 1 ∧ ∀ θ : ∀ i, Pos size i → ℝ,
    ∃ (Ω : Type) (_ : MeasurableSpace Ω) (P : Measure Ω) (β : Nat → Ω → ℝ) (z : Nat → ∀ i, Pos size i → Ω → ℝ)
      (X : Nat → Ω → Elem (Pos size) → ℝ),
      RandomSteps (gaussianReal 0 1) P β z
      ∧ (∀ N ω, ∃ cost : Nat → Fl,
        (calls (asIter (burnInNext (env (streamFeeder (1 / 10)) (SGHMCWorld.graph
            ⟨.fin 10, .fin 0.5, bumpyFl, fun _ _ => 0, fun k i p => .fin (drawsAfter 1 (fun _ _ _ => 0) z ω k i p), order⟩) fun _ => true) (1 : Nat) n)) N
            (init (some (batchesAfter 1 (fun _ => 0) β ω, 0)) () ⟨SGHMC.State.init fun i p => .fin (θ i p), .fin 0, 0⟩)).1
          = (List.range N).map (fun k : Nat =>
              let arrays := List.ofFn fun i => flat fun p => .fin (X (k + 1) ω ⟨i, p⟩)
              .ok ((if (k : Int) < (1 : Nat) then .many arrays else unravel arrays), cost k)))
      ∧ ∃ R, ∀ q k, |∫ ω, X (1 + k) ω q ∂P - ∫ x, x.1 q ∂π| ≤ C * R * ρ ^ k := by
  obtain ⟨π, C, ρ, h1, -, -, -, h2, -, h⟩ := C130_sghmc_forgets (bumpy_confining size) (fun β i θ θ' h => by funext p; simp only [bumpy, h])
    10 0.5 (by norm_num) (by norm_num) (by norm_num) (fun _ => 1 / (1 + 3e-16)) (fun _ => by norm_num) (1 / 10) (by norm_num) (fun _ => by norm_num)
  refine ⟨π, C, ρ, h1, h2, fun θ => ?_⟩
  obtain ⟨Ω, mΩ, P, ζ, h1, h2, h3, h4⟩ := exists_iid Nat ((gaussianReal 0 1).prod (Measure.pi fun _ : Elem (Pos size) => gaussianReal 0 1))
  have hR : RandomSteps (gaussianReal 0 1) P (fun k ω => (ζ k ω).1) (fun k i p ω => (ζ k ω).2 ⟨i, p⟩) :=
    ⟨h4, fun k => (h1 k).fst, fun k i p => (measurable_pi_apply _).comp (h1 k).snd, h3, fun k => (h2 k).map_eq⟩
  have hmass : ∀ i p, (sghmcVec (κ := Pos size) 0.5 10 (1 : Nat) (fun _ => 1 / 10) (fun k => bumpy 0) (fun _ _ _ => 0) θ 1 i p).mass = 1 / (1 + 3e-16) := by
    intro i p
    simp only [sghmcVec, sghmcStep, Coord.start, Coord.massUsed, after_false Nat.zero_lt_one, Bool.false_eq_true, if_false, Real.sqrt_one]
  obtain ⟨X, hX, hb⟩ := h (F := streamFeeder (1 / 10)) ⟨.fin 10, .fin 0.5, bumpyFl, fun _ _ => 0, fun _ _ _ => 0, order⟩ (fun _ => true) P
    (fun ω => streamScript (1 / 10) (batchesAfter 1 (fun _ => 0) (fun k ω => (ζ k ω).1) ω))
    (fun ω => bumpyProblem (1 / 10) (batchesAfter 1 (fun _ => 0) (fun k ω => (ζ k ω).1) ω))
    (fun ω => some (batchesAfter 1 (fun _ => 0) (fun k ω => (ζ k ω).1) ω, 0)) () (fun _ => 1 / 10) (fun _ => 0) (fun k ω => (ζ k ω).1) 1
    (fun _ _ _ => 0) (fun k i p ω => (ζ k ω).2 ⟨i, p⟩) (fun _ => order) θ (.fin 0) (fun _ _ => rfl) (fun _ _ => rfl) (fun _ _ => rfl)
    (fun _ _ _ _ => rfl) hR rfl rfl one_pos (fun _ _ => rfl) hmass
  refine ⟨Ω, mΩ, P, _, _, X, hR, hX, 1 + (∑ q : Elem (Pos size),
    (sghmcVec 0.5 10 (1 : Nat) (fun _ => 1 / 10) (fun _ => bumpy 0) (fun _ _ _ => 0) θ 1 q.1 q.2).pos ^ 2 + ∑ q : Elem (Pos size),
    (sghmcVec 0.5 10 (1 : Nat) (fun _ => 1 / 10) (fun _ => bumpy 0) (fun _ _ _ => 0) θ 1 q.1 q.2).mom ^ 2), fun q k => ?_⟩
  refine ((hb (measurable_pi_apply q) zero_le_one).1 (fun x => ?_) k).2.trans (le_of_eq (by ring))
  have h5 : x q ^ 2 ≤ ∑ q, x q ^ 2 := Finset.single_le_sum (f := fun q => x q ^ 2) (fun _ _ => sq_nonneg _) (Finset.mem_univ q)
  rw [abs_le]
  constructor <;> nlinarith [sq_nonneg (x q - 1), sq_nonneg (x q + 1)]

/-! ## Mixtures of Gaussians -/

section mixtures
open Objectives
variable {cs : List Component}

/-- **C131** SGHMC forgets where it started on the benchmark mixtures, as C129 for SGLD. -/
theorem C131_mixtures_forget (hcs : ∀ c ∈ cs, c.Valid) (hw : ∃ c ∈ cs, 0 < c.weight) :
    ∃ ll : ℝ → ℝ, (∀ x, ∀ arg ∈ [MixArg.seq [.number x], .seq [.variable x]],
      gmmLogLikelihood arg (cs.map (·.mean)) (cs.map (·.variance)) (cs.map (·.weight)) = .ok (.fin (ll x))) ∧ Differentiable ℝ ll ∧
    ∀ (alpha : ℝ), 0 < alpha → alpha ≤ 1 →
    ∃ t₀ > 0, ∀ (scale : ℝ), 0 < scale → ∀ (mass : ℝ), 0 < mass → ∀ (e : ℝ), 0 < e → e ^ 2 * mass ≤ t₀ →
    ∃ (π : Measure ((Elem (Pos fun _ : Fin 1 => 1) → ℝ) × (Elem (Pos fun _ : Fin 1 => 1) → ℝ))) (C ρ : ℝ), IsProbabilityMeasure π
    ∧ Integrable (fun x => ∑ q, x.1 q ^ 2 + ∑ q, x.2 q ^ 2) π ∧ 0 ≤ C ∧ 0 ≤ ρ ∧ ρ < 1 ∧
    ∀ {F : Feeder} (W : SGHMCWorld fun _ : Fin 1 => 1) (ok : Dict Key Arr → Bool) {Ω : Type} [MeasurableSpace Ω] (P : Measure Ω)
      (S : ∀ N, Script F N) (Pb : ∀ N, Problem (S N) W.grad W.cost ok) (gen : Option F.Batch) (sched : F.Sched) (eps : Nat → ℝ)
      (B : Nat) (z0 : Nat → ∀ i, Pos (fun _ : Fin 1 => 1) i → ℝ) (z : Nat → ∀ i, Pos (fun _ : Fin 1 => 1) i → Ω → ℝ)
      (order : Ω → Nat → SGHMC.Schedule (Fin 1)) (θ : ∀ i, Pos (fun _ : Fin 1 => 1) i → ℝ) (eps0 : Fl),
      (∀ N, (S N).batch 0 = gen) → (∀ N, (S N).sched 0 = sched) → (∀ N, (S N).eps = eps) →
      (∀ N k θ i p, (Pb N).γ k θ i p = deriv (fun x => -ll x) (θ i p)) → RandomSteps (Measure.dirac ()) P (fun _ _ => ()) z →
      W.mdecay = .fin alpha → W.scaleGrad = .fin scale → 0 < B → (∀ k, B ≤ k → eps k = e) →
      let world : Ω → SGHMCWorld fun _ : Fin 1 => 1 := fun ω =>
        { W with normal := fun k i p => .fin (drawsAfter B z0 z ω k i p), order := order ω }
      let atEnd := sghmcVec alpha scale B eps (fun _ θ i p => deriv (fun x => -ll x) (θ i p)) z0 θ B
      (∀ i p, (atEnd i p).mass = mass) →
      ∃ X : Nat → Ω → Elem (Pos fun _ : Fin 1 => 1) → ℝ,
        (∀ N ω, ∃ cost : Nat → Fl,
          (calls (asIter (burnInNext (env F (world ω).graph ok) B 1)) N
              (init gen sched ⟨SGHMC.State.init fun i p => .fin (θ i p), eps0, 0⟩)).1
            = (List.range N).map (fun k : Nat =>
                let arrays := List.ofFn fun i => flat fun p => .fin (X (k + 1) ω ⟨i, p⟩)
                .ok ((if (k : Int) < B then .many arrays else unravel arrays), cost k)))
        ∧ let size₀ := ∑ q : Elem (Pos fun _ : Fin 1 => 1), (atEnd q.1 q.2).pos ^ 2 + ∑ q : Elem (Pos fun _ : Fin 1 => 1), (atEnd q.1 q.2).mom ^ 2
          ∀ {f : (Elem (Pos fun _ : Fin 1 => 1) → ℝ) → ℝ} {A : ℝ}, Measurable f → 0 ≤ A →
          ((∀ x, |f x| ≤ A * (1 + ∑ q, x q ^ 2)) → ∀ k, Integrable (fun ω => f (X (B + k) ω)) P ∧
            |∫ ω, f (X (B + k) ω) ∂P - ∫ x, f x.1 ∂π| ≤ A * (C * (1 + size₀)) * ρ ^ k)
          ∧ ((∀ x, |f x| ≤ A * (1 + √(∑ q, x q ^ 2))) → ∀ {I : Finset Nat}, I.Nonempty →
            Integrable (fun ω => ((∑ k ∈ I, f (X (B + k) ω)) / I.card - ∫ x, f x.1 ∂π) ^ 2) P ∧
            ∫ ω, ((∑ k ∈ I, f (X (B + k) ω)) / I.card - ∫ x, f x.1 ∂π) ^ 2 ∂P ≤ A ^ 2 * (C * (1 + size₀)) / I.card) := by
  have hd : ∀ x, deriv (fun x => -Real.log (mixtureDensity cs x)) x = score cs x := fun x => (score_deriv hcs hw x).deriv
  obtain ⟨a₀, b₀, Λ, ha₀, hΛ, g, hg⟩ := mixture_confining (size := fun _ : Fin 1 => 1) hcs hw
  obtain ⟨ll, hll, hdiff, -⟩ := C129_mixtures_forget hcs hw
  have e1 : ll = fun x => Real.log (mixtureDensity cs x) := by
    funext y
    have h1 := hll y (.seq [.variable y]) (by simp)
    rw [C70_density _ hcs y _ (.inr rfl), Fl.log_fin (mixture_pos hcs hw y)] at h1
    simpa using h1.symm
  refine ⟨ll, hll, hdiff, fun alpha hα0 hα1 => ?_⟩
  subst e1
  set u := (1 / alpha ^ 2 + 1 + 2 * ((1 - alpha) / alpha ^ 2 + (1 - alpha)) ^ 2 / alpha) * alpha * Λ with hu
  have hu0 : 0 < u := by positivity
  refine ⟨a₀ / u, div_pos ha₀ hu0, ?_⟩
  intro scale hs mass hmass e he0 htm
  obtain ⟨π, C, ρ, h1, h2, h3, h4, h5, -, h6⟩ := C130_sghmc_forgets (size := fun _ : Fin 1 => 1)
    (γ := fun (_ : Unit) θ i p => score cs (θ i p)) (a₀ := a₀) (b₀ := b₀) (Λ := Λ) (g := g) hg
    (fun β i θ θ' h => by funext p; simp only [h]) scale alpha hs hα0 hα1 (fun _ => mass) (fun _ => hmass) e he0
    (fun _ => by
      rw [le_div_iff₀ hu0, hu] at htm
      exact (le_of_eq (by ring)).trans htm)
  refine ⟨π, C, ρ, h1, h2, h3, h4, h5, ?_⟩
  intro F W ok Ω _ P S Pb gen sched eps B z0 z order θ eps0 hgen hsched heps hPb hR ha hsc hB he
  simp only [hd] at hPb ⊢
  exact h6 W ok P (fun _ => S) (fun _ => Pb) (fun _ => gen) sched eps (fun _ => ()) (fun _ _ => ()) B z0 z order θ eps0
    (fun _ => hgen) (fun _ => hsched) (fun _ => heps) (fun _ N k θ => by funext i p; exact hPb N k θ i p) hR ha hsc hB he

/-- The package's third mixture has three modes, and one law that SGHMC approaches from any start, whichever mode that is. -/
example (order : Nat → SGHMC.Schedule (Fin 1)) : ∃ t > 0, ∃ (π : Measure ((Elem (Pos fun _ : Fin 1 => 1) → ℝ) × (Elem (Pos fun _ : Fin 1 => 1) → ℝ))) (C ρ : ℝ),
    IsProbabilityMeasure π ∧ ρ < 1 ∧ ∀ θ : ∀ i, Pos (fun _ : Fin 1 => 1) i → ℝ,
    ∃ (Ω : Type) (_ : MeasurableSpace Ω) (P : Measure Ω) (z : Nat → ∀ i, Pos (fun _ : Fin 1 => 1) i → Ω → ℝ)
      (X : Nat → Ω → Elem (Pos fun _ : Fin 1 => 1) → ℝ),
      (∀ N ω, ∃ cost : Nat → Fl,
        (calls (asIter (burnInNext (env (streamFeeder t) (SGHMCWorld.graph
            ⟨.fin 1, .fin 0.05, fun _ θ i p => scoreFl (threeModes (10 / 3) (3 / 10)) (θ i p), fun _ _ => 0,
              fun k i p => .fin (drawsAfter 1 (fun _ _ _ => 0) z ω k i p), order⟩) fun _ => true) (1 : Nat) 1)) N
            (init none () ⟨SGHMC.State.init fun i p => .fin (θ i p), .fin 0, 0⟩)).1
          = (List.range N).map (fun k : Nat =>
              let arrays := List.ofFn fun i => flat fun p => .fin (X (k + 1) ω ⟨i, p⟩)
              .ok ((if (k : Int) < (1 : Nat) then .many arrays else unravel arrays), cost k)))
      ∧ ∃ R, ∀ q k, |∫ ω, X (1 + k) ω q ∂P - ∫ x, x.1 q ∂π| ≤ C * R * ρ ^ k := by
  have hcs := threeModes_valid (v := 10 / 3) (w := 3 / 10) (by norm_num) (by norm_num)
  have hw : ∃ c ∈ threeModes (10 / 3) (3 / 10), 0 < c.weight := ⟨⟨1 / 3, 0, 3 / 10⟩, by simp [threeModes], by norm_num⟩
  obtain ⟨ll, hll, -, h0⟩ := C131_mixtures_forget hcs hw
  obtain ⟨t₀, ht₀, h⟩ := h0 0.05 (by norm_num) (by norm_num)
  obtain ⟨t, ht, htt⟩ : ∃ t > 0, t ^ 2 = t₀ := ⟨√t₀, Real.sqrt_pos.2 ht₀, Real.sq_sqrt ht₀.le⟩
  have hd : ∀ x, deriv (fun x => -ll x) x = score (threeModes (10 / 3) (3 / 10)) x := fun x => by
    have e : ll = fun x => Real.log (mixtureDensity (threeModes (10 / 3) (3 / 10)) x) := by
      funext y
      have h1 := hll y (.seq [.variable y]) (by simp)
      rw [C70_density _ hcs y _ (.inr rfl), Fl.log_fin (mixture_pos hcs hw y)] at h1
      simpa using h1.symm
    rw [e]
    exact (score_deriv hcs hw x).deriv
  obtain ⟨π, C, ρ, h1, -, -, -, h2, h⟩ := h 1 one_pos (1 / (1 + 3e-16)) (by norm_num) t ht
    (by rw [htt]; exact mul_le_of_le_one_right ht₀.le (by norm_num))
  refine ⟨t, ht, π, C, ρ, h1, h2, fun θ => ?_⟩
  obtain ⟨Ω, mΩ, P, ζ, h1, h2, h3, h4⟩ := exists_iid Nat
    ((Measure.dirac ()).prod (Measure.pi fun _ : Elem (Pos fun _ : Fin 1 => 1) => gaussianReal 0 1))
  have hR : RandomSteps (Measure.dirac ()) P (fun _ _ => ()) (fun k i p ω => (ζ k ω).2 ⟨i, p⟩) :=
    ⟨h4, fun k => (h1 k).fst, fun k i p => (measurable_pi_apply _).comp (h1 k).snd, h3, fun k => (h2 k).map_eq⟩
  have hmass : ∀ i p, (sghmcVec (κ := Pos fun _ : Fin 1 => 1) 0.05 1 (1 : Nat) (fun _ => t) (fun _ θ i p => deriv (fun x => -ll x) (θ i p))
      (fun _ _ _ => 0) θ 1 i p).mass = 1 / (1 + 3e-16) := by
    intro i p
    simp only [sghmcVec, sghmcStep, Coord.start, Coord.massUsed, after_false Nat.zero_lt_one, Bool.false_eq_true, if_false, Real.sqrt_one]
  obtain ⟨X, hX, hb⟩ := h (F := streamFeeder t) ⟨.fin 1, .fin 0.05, fun _ θ i p => scoreFl (threeModes (10 / 3) (3 / 10)) (θ i p), fun _ _ => 0,
      fun _ _ _ => 0, order⟩ (fun _ => true) P (fun N => plainScript t N) (fun N => scoreProblem _ t N) none () (fun _ => t) 1 (fun _ _ _ => 0)
    (fun k i p ω => (ζ k ω).2 ⟨i, p⟩) (fun _ => order) θ (.fin 0) (fun _ => rfl) (fun _ => rfl) (fun _ => rfl)
    (fun _ _ _ _ _ => (hd _).symm) hR rfl rfl one_pos (fun _ _ => rfl) hmass
  refine ⟨Ω, mΩ, P, _, X, hX, 1 + (∑ q : Elem (Pos fun _ : Fin 1 => 1),
    (sghmcVec 0.05 1 (1 : Nat) (fun _ => t) (fun _ θ i p => deriv (fun x => -ll x) (θ i p)) (fun _ _ _ => 0) θ 1 q.1 q.2).pos ^ 2 +
    ∑ q : Elem (Pos fun _ : Fin 1 => 1), (sghmcVec 0.05 1 (1 : Nat) (fun _ => t) (fun _ θ i p => deriv (fun x => -ll x) (θ i p)) (fun _ _ _ => 0) θ 1 q.1 q.2).mom ^ 2), fun q k => ?_⟩
  refine ((hb (measurable_pi_apply q) zero_le_one).1 (fun x => ?_) k).2.trans (le_of_eq (by ring))
  have h5 : x q ^ 2 ≤ ∑ q, x q ^ 2 := Finset.single_le_sum (f := fun q => x q ^ 2) (fun _ _ => sq_nonneg _) (Finset.mem_univ q)
  rw [abs_le]
  constructor <;> nlinarith [sq_nonneg (x q - 1), sq_nonneg (x q + 1)]

end mixtures

end PySGMCMC.Chain
