import Verif.Props.SgldCoupled
import Verif.Lemmas.SgldOrders
import Verif.Lemmas.MixedPoly

/-!
# C142: SGLD samples posteriors of several parameters, in any execution order

C138 is about costs in which each parameter's gradient depends on that parameter only.  Otherwise the samples depend on the order in which the
runtime executes the operations of a step, because the gradient of one parameter may be evaluated before or after another parameter is
updated.  Here the order may change from step to step, and may depend on all values seen so far, the ones of the current step included.
It must not depend on random numbers that have not been drawn yet.
-/

namespace PySGMCMC.Chain
open SamplerBase BurnInStats Spec MeasureTheory ProbabilityTheory Contraction Invariance Recipe Harris Langevin Confining

variable {n : Nat} {size : Fin n → Nat}

/-! ## Gradients in a given order -/

/-- Evaluate gradients again and again, each time at the values the last ones lead to. -/
noncomputable def settle (γ : (∀ i, Pos size i → ℝ) → ∀ i, Pos size i → ℝ) (R : Fin n → Fin n → Bool) (f : ∀ i, Pos size i → ℝ → ℝ)
    (old : ∀ i, Pos size i → ℝ) : Nat → ∀ i, Pos size i → ℝ
  | 0 => fun _ _ => 0
  | s + 1 => fun i => γ (mix (R i) (fun j p => f j p (settle γ R f old s j p)) old) i

theorem settle_eq {γ : (∀ i, Pos size i → ℝ) → ∀ i, Pos size i → ℝ} {R : Fin n → Fin n → Bool} {f : ∀ i, Pos size i → ℝ → ℝ}
    {old y : ∀ i, Pos size i → ℝ} {rank : Fin n → Nat} (hrank : ∀ i j, R i j = true → rank j < rank i)
    (hy : ∀ i, y i = γ (mix (R i) (fun j p => f j p (y j p)) old) i) : settle γ R f old n = y := by
  have key : ∀ s i, Mixed.level rank i < s → settle γ R f old s i = y i := by
    intro s
    induction s with
    | zero => exact fun i h => absurd h (Nat.not_lt_zero _)
    | succ s ih =>
      intro i hi
      rw [hy i]
      unfold settle
      congr 1
      funext j
      unfold mix
      by_cases hj : R i j = true
      · simp only [hj, if_true]
        have := Mixed.level_lt (hrank i j hj)
        rw [ih j (by omega)]
      · simp only [hj, if_false, Bool.false_eq_true]
  funext i
  exact key n i (by simpa using Mixed.level_lt_card rank i)

/-- Positions of an SGLD run whose gradients are `x`. -/
noncomputable def sgldPath (a scale : ℝ) (B : Int) (eps : Nat → ℝ) (z x : Nat → ∀ i, Pos size i → ℝ) (θ : ∀ i, Pos size i → ℝ) (k : Nat) :
    ∀ i, Pos size i → ℝ := fun i p => (sgldChain a scale B eps (fun j => x j i p) (fun j => z j i p) (θ i p) k).pos

/-- In the first `N` steps, `x` are the gradients that are evaluated if the operations are executed in order `order`: a gradient sees the new
values of the parameters that have been updated by then, and the old values of the others. -/
def Evaluated (a scale : ℝ) (B : Int) (eps : Nat → ℝ) (γ : Nat → (∀ i, Pos size i → ℝ) → ∀ i, Pos size i → ℝ) (z : Nat → ∀ i, Pos size i → ℝ)
    (order : Nat → SGLD.Schedule (Fin n)) (θ : ∀ i, Pos size i → ℝ) (N : Nat) (x : Nat → ∀ i, Pos size i → ℝ) : Prop :=
  ∀ k < N, ∀ i, x k i = γ k (mix (SGLD.sees (order k) i) (sgldPath a scale B eps z x θ (k + 1)) (sgldPath a scale B eps z x θ k)) i

theorem sgldChain_congr' (a scale : ℝ) (B : Int) (eps : Nat → ℝ) {x x' z z' : Nat → ℝ} (th : ℝ) (k : Nat)
    (h : ∀ j < k, x j = x' j) (hz : ∀ j < k, z j = z' j) : sgldChain a scale B eps x z th k = sgldChain a scale B eps x' z' th k := by
  induction k with
  | zero => rfl
  | succ k ih => simp only [sgldChain]; rw [ih (fun j hj => h j (by omega)) fun j hj => hz j (by omega), h k (by omega), hz k (by omega)]

theorem sgldPath_congr (a scale : ℝ) (B : Int) (eps : Nat → ℝ) {x x' z z' : Nat → ∀ i, Pos size i → ℝ} (θ : ∀ i, Pos size i → ℝ) (k : Nat)
    (h : ∀ j < k, x j = x' j) (hz : ∀ j < k, z j = z' j) : sgldPath a scale B eps z x θ k = sgldPath a scale B eps z' x' θ k := by
  funext i p
  unfold sgldPath
  rw [sgldChain_congr' a scale B eps (θ i p) k (fun j hj => congrFun (congrFun (h j hj) i) p) fun j hj => congrFun (congrFun (hz j hj) i) p]

/-- The order determines the gradients. -/
theorem evaluated_unique {a scale : ℝ} {B : Int} {eps : Nat → ℝ} {γ γ' : Nat → (∀ i, Pos size i → ℝ) → ∀ i, Pos size i → ℝ}
    {z z' : Nat → ∀ i, Pos size i → ℝ} {order order' : Nat → SGLD.Schedule (Fin n)} {θ : ∀ i, Pos size i → ℝ} {N : Nat}
    {x x' : Nat → ∀ i, Pos size i → ℝ} (h : Evaluated a scale B eps γ z order θ N x) (h' : Evaluated a scale B eps γ' z' order' θ N x')
    (hγ : ∀ k < N, γ k = γ' k) (hz : ∀ k < N, z k = z' k) (ho : ∀ k < N, order k = order' k) : ∀ k < N, x k = x' k := by
  intro k
  induction k using Nat.strong_induction_on with
  | _ k ih =>
    intro hk
    have hp := sgldPath_congr a scale B eps θ k (fun j hj => ih j hj (by omega)) fun j hj => hz j (by omega)
    set f : ∀ i, Pos size i → ℝ → ℝ := fun i p y => (sgldStep (eps k) a scale (afterBurnIn B k) y (z k i p)
      (sgldChain a scale B eps (fun j => x j i p) (fun j => z j i p) (θ i p) k)).pos with hf
    have e1 : sgldPath a scale B eps z x θ (k + 1) = fun j p => f j p (x k j p) := rfl
    have e2 : sgldPath a scale B eps z' x' θ (k + 1) = fun j p => f j p (x' k j p) := by
      funext i p
      simp only [sgldPath, hf, sgldChain]
      rw [sgldChain_congr' a scale B eps (θ i p) k (fun j hj => congrFun (congrFun (ih j hj (by omega)) i) p)
        fun j hj => congrFun (congrFun (hz j (by omega)) i) p, hz k hk]
    have h1 := h k hk
    have h2 := h' k hk
    rw [e1] at h1
    rw [e2, ← hγ k hk, ← ho k hk, ← hp] at h2
    rw [← settle_eq (SGLD.sees_rank (order k)) h1, ← settle_eq (SGLD.sees_rank (order k)) h2]

theorem sgldChain_after (a scale : ℝ) {B : Nat} (hB : 0 < B) (eps x z : Nat → ℝ) (th : ℝ) (k : Nat) :
    let c := sgldChain a scale B eps x z th
    (c (B + (k + 1))).pos = (c (B + k)).pos - eps (B + k) * (c B).mass * a * x (B + k) + sgldSd (eps (B + k)) a scale (c B).mass * z (B + k) := by
  intro c
  have hm : ∀ k, (c (B + k)).mass = (c B).mass := by
    intro k
    induction k with
    | zero => rfl
    | succ k ih =>
      rw [← Nat.add_assoc]
      simp only [c, sgldChain, sgldStep, Coord.massUsed, after_true hB, if_true]
      exact ih
  have := hm k
  simp only [c] at this
  rw [← Nat.add_assoc]
  simp only [c, sgldChain, sgldStep, Coord.massUsed, after_true hB, if_true, this]

/-- The chain of an SGLD sampler, with the gradients its execution orders lead to. -/
theorem sgld_chain_evaluated {F : Feeder} {N : Nat} (S : Script F N) (W : SGLDWorld size) (ok : Dict Key Arr → Bool)
    (Pb : Problem S W.grad W.cost ok) (a scale : ℝ) (ha : W.a = .fin a) (hsc : W.scaleGrad = .fin scale) (hs : 0 < scale)
    (z : Nat → ∀ i, Pos size i → ℝ) (hz : ∀ k i p, W.normal k i p = .fin (z k i p)) (B : Int) (θ : ∀ i, Pos size i → ℝ) (eps0 : Fl) :
    ∃ (x : Nat → ∀ i, Pos size i → ℝ) (cost : Nat → Fl),
      (calls (asIter (burnInNext (env F W.graph ok) B n)) N
          (init (S.batch 0) (S.sched 0) ⟨SGLD.State.init fun i p => .fin (θ i p), eps0, 0⟩)).1
        = (List.range N).map (fun k : Nat =>
            let arrays := List.ofFn fun i => flat fun p => .fin (sgldPath a scale B S.eps z x θ (k + 1) i p)
            .ok ((if (k : Int) < B then .many arrays else unravel arrays), cost k))
      ∧ Evaluated a scale B S.eps Pb.γ z W.order θ N x := by
  have h0 : ∀ θs : Nat → ∀ i, Pos size i → ℝ, θs 0 = θ → before θ θs = θs := before_eq θ
  obtain ⟨x, cost, h, hx⟩ := sgld_restart_sees S W ok Pb a scale ha hsc hs z hz B θ θ eps0
  refine ⟨x, cost, h, ?_⟩
  rw [h0 _ rfl] at hx
  exact fun k hk => (hx k hk).1

/-! ## Random orders -/

variable {Bt : Type} [MeasurableSpace Bt]

/-- What happens after burn-in is random: `ℱ k` is what is known before step `k`.  Batch and normal draws of a step are independent of what is
known before the step, the execution order of the step is known when the step is over. -/
structure Unforeseen {Ω : Type} [mΩ : MeasurableSpace Ω] (ν : Measure Bt) (P : Measure Ω) (ℱ : Nat → MeasurableSpace Ω) (β : Nat → Ω → Bt)
    (z : Nat → ∀ i, Pos size i → Ω → ℝ) (order : Nat → Ω → SGLD.Schedule (Fin n)) : Prop where
  prob : IsProbabilityMeasure P
  mono : Monotone ℱ
  le : ∀ k, ℱ k ≤ mΩ
  step : ∀ k, Measurable[ℱ (k + 1)] fun ω => (β k ω, fun q : Elem (Pos size) => z k q.1 q.2 ω)
  order : ∀ k (A : Set (SGLD.Schedule (Fin n))), MeasurableSet[ℱ (k + 1)] {ω | order k ω ∈ A}
  indep : ∀ k, Indep (ℱ k) (MeasurableSpace.comap (fun ω => (β k ω, fun q : Elem (Pos size) => z k q.1 q.2 ω)) inferInstance) P
  law : ∀ k, P.map (fun ω => (β k ω, fun q : Elem (Pos size) => z k q.1 q.2 ω)) = ν.prod (Measure.pi fun _ => gaussianReal 0 1)

/-- The positions after one step in a given order. -/
noncomputable def stepIn (γ : Bt → (∀ i, Pos size i → ℝ) → ∀ i, Pos size i → ℝ) (m s : Elem (Pos size) → ℝ) (t : ℝ) (R : Fin n → Fin n → Bool)
    (x : Elem (Pos size) → ℝ) (q : Bt × (Elem (Pos size) → ℝ)) : Elem (Pos size) → ℝ :=
  let f : ∀ i, Pos size i → ℝ → ℝ := fun i p y => x ⟨i, p⟩ - t * m ⟨i, p⟩ * y + s ⟨i, p⟩ * q.2 ⟨i, p⟩
  fun l => f l.1 l.2 (settle (γ q.1) R f (fun i p => x ⟨i, p⟩) n l.1 l.2)

theorem measurable_stepIn {γ : Bt → (∀ i, Pos size i → ℝ) → ∀ i, Pos size i → ℝ}
    (hγ : Measurable fun q : Bt × (Elem (Pos size) → ℝ) => flatGrad γ q.1 q.2) (m s : Elem (Pos size) → ℝ) (t : ℝ) (R : Fin n → Fin n → Bool) :
    Measurable fun u : (Elem (Pos size) → ℝ) × (Bt × (Elem (Pos size) → ℝ)) => stepIn γ m s t R u.1 u.2 := by
  have hx : ∀ l : Elem (Pos size), Measurable fun u : (Elem (Pos size) → ℝ) × (Bt × (Elem (Pos size) → ℝ)) => u.1 l := fun l =>
    (measurable_pi_apply l).comp measurable_fst
  have hz : ∀ l : Elem (Pos size), Measurable fun u : (Elem (Pos size) → ℝ) × (Bt × (Elem (Pos size) → ℝ)) => u.2.2 l := fun l =>
    (measurable_pi_apply l).comp (measurable_snd.comp measurable_snd)
  have key : ∀ (k : Nat) (l : Elem (Pos size)), Measurable fun u : (Elem (Pos size) → ℝ) × (Bt × (Elem (Pos size) → ℝ)) =>
      settle (γ u.2.1) R (fun i p y => u.1 ⟨i, p⟩ - t * m ⟨i, p⟩ * y + s ⟨i, p⟩ * u.2.2 ⟨i, p⟩) (fun i p => u.1 ⟨i, p⟩) k l.1 l.2 := by
    intro k
    induction k with
    | zero => exact fun l => measurable_const
    | succ k ih =>
      intro l
      have h1 : Measurable fun u : (Elem (Pos size) → ℝ) × (Bt × (Elem (Pos size) → ℝ)) => fun l' : Elem (Pos size) =>
          mix (R l.1) (fun j p => u.1 ⟨j, p⟩ - t * m ⟨j, p⟩
            * settle (γ u.2.1) R (fun i p y => u.1 ⟨i, p⟩ - t * m ⟨i, p⟩ * y + s ⟨i, p⟩ * u.2.2 ⟨i, p⟩) (fun i p => u.1 ⟨i, p⟩) k j p
              + s ⟨j, p⟩ * u.2.2 ⟨j, p⟩) (fun i p => u.1 ⟨i, p⟩) l'.1 l'.2 := by
        refine measurable_pi_iff.2 fun l' => ?_
        unfold mix
        by_cases hR : R l.1 l'.1 = true
        · simp only [hR, if_true]
          exact ((hx l').sub ((ih l').const_mul _)).add ((hz l').const_mul _)
        · simp only [hR, if_false, Bool.false_eq_true]
          exact hx l'
      exact (measurable_pi_apply l).comp (hγ.comp ((measurable_fst.comp measurable_snd).prodMk h1))
  refine measurable_pi_iff.2 fun l => ?_
  exact ((hx l).sub ((key n l).const_mul _)).add ((hz l).const_mul _)

/-- Measurability of a step in a random order. -/
theorem measurable_in_order {Ω : Type} {𝒢 : MeasurableSpace Ω} {γ : Bt → (∀ i, Pos size i → ℝ) → ∀ i, Pos size i → ℝ}
    (hγ : Measurable fun q : Bt × (Elem (Pos size) → ℝ) => flatGrad γ q.1 q.2) (m s : Elem (Pos size) → ℝ) (t : ℝ)
    {order : Ω → SGLD.Schedule (Fin n)} (ho : ∀ A : Set (SGLD.Schedule (Fin n)), MeasurableSet[𝒢] {ω | order ω ∈ A})
    {x : Ω → Elem (Pos size) → ℝ} (hx : Measurable[𝒢] x) {q : Ω → Bt × (Elem (Pos size) → ℝ)} (hq : Measurable[𝒢] q) :
    Measurable[𝒢] fun ω => stepIn γ m s t (SGLD.sees (order ω)) (x ω) (q ω) := by
  intro A hA
  have e : (fun ω => stepIn γ m s t (SGLD.sees (order ω)) (x ω) (q ω)) ⁻¹' A
      = ⋃ R : Fin n → Fin n → Bool, {ω | order ω ∈ {σ | SGLD.sees σ = R}} ∩ {ω | stepIn γ m s t R (x ω) (q ω) ∈ A} := by
    ext ω
    simp
  rw [e]
  refine MeasurableSet.iUnion fun R => (ho _).inter ?_
  exact ((measurable_stepIn hγ m s t R).comp (hx.prodMk hq)) hA

/-- The orders of a run: fixed ones during burn-in, then random ones. -/
def ordersAfter {Ω : Type} (B : Nat) (o0 : Nat → SGLD.Schedule (Fin n)) (o : Nat → Ω → SGLD.Schedule (Fin n)) (ω : Ω) (k : Nat) :
    SGLD.Schedule (Fin n) := if k < B then o0 k else o (k - B) ω

theorem ordersAfter_add {Ω : Type} (B : Nat) (o0 : Nat → SGLD.Schedule (Fin n)) (o : Nat → Ω → SGLD.Schedule (Fin n)) (ω : Ω) (k : Nat) :
    ordersAfter B o0 o ω (B + k) = o k ω := by
  unfold ordersAfter; rw [if_neg (by omega), Nat.add_sub_cancel_left]

theorem Evaluated.mono {a scale : ℝ} {B : Int} {eps : Nat → ℝ} {γ : Nat → (∀ i, Pos size i → ℝ) → ∀ i, Pos size i → ℝ}
    {z : Nat → ∀ i, Pos size i → ℝ} {order : Nat → SGLD.Schedule (Fin n)} {θ : ∀ i, Pos size i → ℝ} {N M : Nat}
    {x : Nat → ∀ i, Pos size i → ℝ} (h : Evaluated a scale B eps γ z order θ N x) (hM : M ≤ N) : Evaluated a scale B eps γ z order θ M x :=
  fun k hk => h k (by omega)

/-- The runs of all lengths are one run. -/
theorem evaluated_all {a scale : ℝ} {B : Int} {eps : Nat → ℝ} {γ : Nat → (∀ i, Pos size i → ℝ) → ∀ i, Pos size i → ℝ}
    {z : Nat → ∀ i, Pos size i → ℝ} {order : Nat → SGLD.Schedule (Fin n)} {θ : ∀ i, Pos size i → ℝ}
    {x : Nat → Nat → ∀ i, Pos size i → ℝ} (h : ∀ N, Evaluated a scale B eps γ z order θ N (x N)) :
    (∀ N, ∀ k < N, x N k = x (k + 1) k) ∧ ∀ N, Evaluated a scale B eps γ z order θ N fun k => x (k + 1) k := by
  have h1 : ∀ N, ∀ k < N, x N k = x (k + 1) k := fun N k hk =>
    evaluated_unique ((h N).mono (M := k + 1) (by omega)) (h (k + 1)) (fun _ _ => rfl) (fun _ _ => rfl) (fun _ _ => rfl) k (by omega)
  refine ⟨h1, fun N k hk i => ?_⟩
  beta_reduce
  rw [sgldPath_congr a scale B eps (x := fun k => x (k + 1) k) (x' := x (k + 1)) θ k (fun j hj => (h1 (k + 1) j (by omega)).symm) fun _ _ => rfl,
    sgldPath_congr a scale B eps (x := fun k => x (k + 1) k) (x' := x (k + 1)) θ (k + 1) (fun j hj => (h1 (k + 1) j hj).symm) fun _ _ => rfl]
  exact h (k + 1) k (by omega) i

set_option maxHeartbeats 1000000 in
/-- **SGLD estimates posterior expectations whatever depends on whatever, and whatever the runtime does first.**  C138's bounds hold, for
functions with bounded slope, if the gradient of a parameter depends on other parameters as well.  The order in which the operations of a step
are executed may be a different one in each step, may be random, and may depend on everything but draws yet to come. -/
theorem C142_sgld_orders [Nonempty (Elem (Pos size))] {ν : Measure Bt} [IsProbabilityMeasure ν] {U : (Elem (Pos size) → ℝ) → ℝ}
    {γ : Bt → (∀ i, Pos size i → ℝ) → ∀ i, Pos size i → ℝ} {a₀ b₀ Λ L lo hi : ℝ} {g : Bt → ℝ} (hγ : Confining ν (flatGrad γ) a₀ b₀ Λ g)
    (hL : 0 ≤ L) (hlip : ∀ β x x', ‖flatGrad γ β x - flatGrad γ β x'‖ ≤ L * ‖x - x'‖) (hU : ContDiff ℝ 1 U)
    (hmean : ∀ x q, ∫ β, flatGrad γ β x q ∂ν = partialD U q x) (scale : ℝ) (hs : 0 < scale) (hlo : 0 < lo) (hlh : lo ≤ hi) :
    ∃ c K C l t₁ : ℝ, IsProbabilityMeasure (boltz fun x => (scale + 3e-16) * U x + c) ∧ 0 ≤ K ∧ 0 ≤ C ∧ 0 < l ∧ 0 < t₁ ∧
    ∀ {F : Feeder} (W : SGLDWorld size) (ok : Dict Key Arr → Bool) {Ω : Type} [MeasurableSpace Ω] (P : Measure Ω) (ℱ : Nat → MeasurableSpace Ω)
      (S : Ω → ∀ N, Script F N) (Pb : ∀ ω N, Problem (S ω N) W.grad W.cost ok) (gen : Ω → Option F.Batch) (sched : F.Sched) (eps : Nat → ℝ)
      (b0 : Nat → Bt) (β : Nat → Ω → Bt) (a : ℝ) (B : Nat) (e : ℝ) (z0 : Nat → ∀ i, Pos size i → ℝ) (z : Nat → ∀ i, Pos size i → Ω → ℝ)
      (o0 : Nat → SGLD.Schedule (Fin n)) (o : Nat → Ω → SGLD.Schedule (Fin n)) (θ : ∀ i, Pos size i → ℝ) (eps0 : Fl)
      (x0 : Nat → ∀ i, Pos size i → ℝ),
      (∀ ω N, (S ω N).batch 0 = gen ω) → (∀ ω N, (S ω N).sched 0 = sched) → (∀ ω N, (S ω N).eps = eps) →
      (∀ ω N k θ, (Pb ω N).γ k θ = γ (batchesAfter B b0 β ω k) θ) → Unforeseen ν P ℱ β z o →
      W.a = .fin a → W.scaleGrad = .fin scale → 0 < B → (∀ k, B ≤ k → eps k = e) → 0 < e * a → e * a ≤ t₁ →
      let world : Ω → SGLDWorld size := fun ω =>
        { W with normal := fun k i p => .fin (drawsAfter B z0 z ω k i p), order := ordersAfter B o0 o ω }
      Evaluated a scale B eps (fun k => γ (b0 k)) z0 o0 θ B x0 →
      let atEnd := fun i p => sgldChain a scale B eps (fun j => x0 j i p) (fun j => z0 j i p) (θ i p) B
      (∀ i p, lo ≤ (atEnd i p).mass) → (∀ i p, (atEnd i p).mass ≤ hi) →
      ∃ X : Nat → Ω → Elem (Pos size) → ℝ,
        (∀ N ω, ∃ cost : Nat → Fl,
          (calls (asIter (burnInNext (env F (world ω).graph ok) B n)) N
              (init (gen ω) sched ⟨SGLD.State.init fun i p => .fin (θ i p), eps0, 0⟩)).1
            = (List.range N).map (fun k : Nat =>
                let arrays := List.ofFn fun i => flat fun p => .fin (X (k + 1) ω ⟨i, p⟩)
                .ok ((if (k : Int) < B then .many arrays else unravel arrays), cost k)))
        ∧ let posterior := boltz fun x => (scale + 3e-16) * U x + c
          let start := C * (1 + ‖fun q : Elem (Pos size) => (atEnd q.1 q.2).pos‖ ^ 2)
          ∀ {f : (Elem (Pos size) → ℝ) → ℝ} {A : ℝ}, 0 ≤ A → (∀ x y, |f x - f y| ≤ A * ‖x - y‖) →
            (∀ k, Integrable (fun ω => f (X (B + k) ω)) P ∧
              |∫ ω, f (X (B + k) ω) ∂P - ∫ x, f x ∂posterior| ≤ A * (start * Real.exp (-(l * (e * a) * k)) + K * √(e * a)))
            ∧ ∀ {D : ℝ}, (∀ x, |f x| ≤ D) → ∀ {I : Finset Nat}, I.Nonempty →
              Integrable (fun ω => ((∑ k ∈ I, f (X (B + k) ω)) / I.card - ∫ x, f x ∂posterior) ^ 2) P ∧
              ∫ ω, ((∑ k ∈ I, f (X (B + k) ω)) / I.card - ∫ x, f x ∂posterior) ^ 2 ∂P
                ≤ D * A * (start / (I.card * (e * a)) + K * √(e * a)) := by
  have hs' : 0 < scale + 3e-16 := by positivity
  have hhi : 0 < hi := hlo.trans_le hlh
  have hpot : Potential ν (flatGrad γ) U a₀ b₀ Λ g L lo hi (scale + 3e-16) := ⟨⟨hγ, hL, hlip, hlo, hlh, hs'⟩, hU, hmean⟩
  obtain ⟨c, K, C, l, t₁, hp, hK, hC, hl, ht₁, h⟩ := hpot.trails_average
  have hΛ := hγ.bound
  have ha₀ := hγ.pos
  set M : ℝ := 1 + Fintype.card (Elem (Pos size)) / lo with hM
  have hM1 : 1 ≤ M := by rw [hM]; exact le_add_of_nonneg_right (by positivity)
  refine ⟨c, K, C * M, l, min t₁ (min 1 (a₀ / (hi * Λ))), hp, hK, by positivity, hl, by positivity, ?_⟩
  intro F W ok Ω _ P ℱ S Pb gen sched eps b0 β a B e z0 z o0 o θ eps0 x0 hgen hsched heps hPb hR ha hsc hB he ht htt world hx0 atEnd hmlo hmhi
  have := hR.prob
  have ht1 : e * a ≤ t₁ := htt.trans (min_le_left _ _)
  have ht2 : e * a ≤ 1 := htt.trans ((min_le_right _ _).trans (min_le_left _ _))
  have ht3 : e * a * hi * Λ ≤ a₀ := by
    have := htt.trans ((min_le_right _ _).trans (min_le_right _ _))
    rw [le_div_iff₀ (by positivity)] at this
    linarith
  set m : Elem (Pos size) → ℝ := fun q => (atEnd q.1 q.2).mass with hm
  have T : Tuned a₀ Λ lo hi m (e * a) := ⟨fun q => hmlo q.1 q.2, fun q => hmhi q.1 q.2, ht, ht2, ht3⟩
  have hq : ∀ ω N, (Pb ω N).γ = fun k => γ (batchesAfter B b0 β ω k) := fun ω N => by funext k θ; exact hPb ω N k θ
  have hrun := fun ω N => sgld_chain_evaluated (S ω N) (world ω) ok
      ⟨(Pb ω N).γ, (Pb ω N).c, (Pb ω N).grad_eq, (Pb ω N).cost_eq, (Pb ω N).accepts⟩ a scale ha hsc hs (drawsAfter B z0 z ω) (fun _ _ _ => rfl)
      B θ eps0
  simp only [hq, hgen, hsched, heps] at hrun
  choose x cost hcalls hx using hrun
  have hall := fun ω => evaluated_all (hx ω)
  set xx : Ω → Nat → ∀ i, Pos size i → ℝ := fun ω k => x ω (k + 1) k with hxx
  set X : Nat → Ω → Elem (Pos size) → ℝ := fun k ω q => sgldPath a scale B eps (drawsAfter B z0 z ω) (xx ω) θ k q.1 q.2 with hX
  have hburn : ∀ ω, ∀ k < B, xx ω k = x0 k := fun ω =>
    evaluated_unique ((hall ω).2 B) hx0 (fun k hk => by unfold batchesAfter; rw [if_pos hk]) (fun k hk => drawsAfter_lt hk)
      fun k hk => by show ordersAfter B o0 o ω k = o0 k; unfold ordersAfter; rw [if_pos hk]
  have hend : ∀ ω i p, sgldChain a scale B eps (fun j => xx ω j i p) (fun j => drawsAfter B z0 z ω j i p) (θ i p) B = atEnd i p := fun ω i p =>
    sgldChain_congr' a scale B eps (θ i p) B (fun j hj => by rw [hburn ω j hj]) fun j hj => by rw [drawsAfter_lt hj]
  have hX0 : ∀ ω, X (B + 0) ω = fun q => (atEnd q.1 q.2).pos := fun ω => by
    funext q
    show (sgldChain a scale B eps (fun j => xx ω j q.1 q.2) (fun j => drawsAfter B z0 z ω j q.1 q.2) (θ q.1 q.2) (B + 0)).pos = _
    rw [Nat.add_zero, hend ω]
  have hXs : ∀ k ω q, X (B + (k + 1)) ω q = X (B + k) ω q - e * a * m q * xx ω (B + k) q.1 q.2
      + sig m (scale + 3e-16) (e * a) q * z k q.1 q.2 ω := fun k ω q => by
    have h1 := sgldChain_after a scale hB eps (fun j => xx ω j q.1 q.2) (fun j => drawsAfter B z0 z ω j q.1 q.2) (θ q.1 q.2) k
    simp only [hend, he _ (Nat.le_add_right B k), drawsAfter_add] at h1
    simp only [hX, sgldPath]
    rw [h1]
    unfold sgldSd sig
    simp only [hm]
    rw [show 2 * (e * a) * (atEnd q.1 q.2).mass / (scale + 3e-16) = 2 * e * (atEnd q.1 q.2).mass * a / (scale + 3e-16) by ring,
      show e * a * (atEnd q.1 q.2).mass = e * (atEnd q.1 q.2).mass * a by ring]
  have hgrad : ∀ k ω i, xx ω (B + k) i = γ (β k ω) (mix (SGLD.sees (o k ω) i) (fun i p => X (B + (k + 1)) ω ⟨i, p⟩) fun i p => X (B + k) ω ⟨i, p⟩) i :=
    fun k ω i => by
      have h1 := (hall ω).2 (B + k + 1) (B + k) (by omega) i
      beta_reduce at h1
      rw [batchesAfter_add] at h1
      rw [show (world ω).order (B + k) = o k ω from ordersAfter_add B o0 o ω k] at h1
      exact h1
  have hstep : ∀ k ω, X (B + (k + 1)) ω = stepIn γ m (sig m (scale + 3e-16) (e * a)) (e * a) (SGLD.sees (o k ω)) (X (B + k) ω)
      (β k ω, fun q : Elem (Pos size) => z k q.1 q.2 ω) := fun k ω => by
    have h1 : settle (γ (β k ω)) (SGLD.sees (o k ω)) (fun i p y => X (B + k) ω ⟨i, p⟩ - e * a * m ⟨i, p⟩ * y
        + sig m (scale + 3e-16) (e * a) ⟨i, p⟩ * z k i p ω) (fun i p => X (B + k) ω ⟨i, p⟩) n = xx ω (B + k) :=
      settle_eq (SGLD.sees_rank (o k ω)) fun i => by
        rw [hgrad k ω i]
        congr 2
        funext j p
        exact hXs k ω ⟨j, p⟩
    funext q
    unfold stepIn
    dsimp only
    rw [h1, hXs]
  have hmeas : ∀ k, Measurable[ℱ k] (X (B + k)) := fun k => by
    induction k with
    | zero =>
      rw [funext hX0]
      exact @measurable_const _ _ _ (ℱ 0) _
    | succ k ih =>
      rw [funext (hstep k)]
      exact measurable_in_order hγ.meas m _ _ (hR.order k) (ih.mono (hR.mono (Nat.le_succ k)) le_rfl) (hR.step k)
  have hTr : Trails P ν (flatGrad γ) m (scale + 3e-16) (e * a) (e * a * hi * L) ℱ (fun k ω => (β k ω, fun q : Elem (Pos size) => z k q.1 q.2 ω))
      fun k => X (B + k) := by
    refine ⟨hR.mono, hR.le, hmeas, fun k => (hR.step k).mono (hR.le _) le_rfl, hR.indep, hR.law, fun k ω => ?_, ?_⟩
    · refine (pi_norm_le_iff_of_nonneg (by positivity)).2 fun q => ?_
      set y : Elem (Pos size) → ℝ := fun r => mix (SGLD.sees (o k ω) q.1) (fun i p => X (B + (k + 1)) ω ⟨i, p⟩) (fun i p => X (B + k) ω ⟨i, p⟩) r.1 r.2 with hy
      have h1 : xx ω (B + k) q.1 q.2 = flatGrad γ (β k ω) y q := by rw [hgrad k ω q.1]; rfl
      have h2 : (X (B + (k + 1)) ω - langevin (flatGrad γ) m (sig m (scale + 3e-16) (e * a)) (e * a) (X (B + k) ω)
          (β k ω, fun q : Elem (Pos size) => z k q.1 q.2 ω)) q
          = e * a * m q * (flatGrad γ (β k ω) (X (B + k) ω) - flatGrad γ (β k ω) y) q := by
        simp only [Pi.sub_apply]
        rw [hXs k ω q, h1]
        unfold langevin
        ring
      have h3 : ‖X (B + k) ω - y‖ ≤ ‖X (B + (k + 1)) ω - X (B + k) ω‖ := by
        refine (pi_norm_le_iff_of_nonneg (norm_nonneg _)).2 fun r => ?_
        simp only [Pi.sub_apply, hy]
        unfold mix
        by_cases hr : SGLD.sees (o k ω) q.1 r.1 = true
        · simp only [hr, if_true]
          rw [norm_sub_rev]
          exact norm_le_pi_norm (X (B + (k + 1)) ω - X (B + k) ω) r
        · simp only [hr, if_false, Bool.false_eq_true]
          rw [sub_self, norm_zero]
          exact norm_nonneg _
      have h4 := (norm_le_pi_norm (flatGrad γ (β k ω) (X (B + k) ω) - flatGrad γ (β k ω) y) q).trans
        ((hlip _ _ _).trans (mul_le_mul_of_nonneg_left h3 hL))
      have hmq : 0 < m q := hlo.trans_le (T.lo_le q)
      rw [h2, norm_mul, Real.norm_of_nonneg (by positivity)]
      calc e * a * m q * ‖(flatGrad γ (β k ω) (X (B + k) ω) - flatGrad γ (β k ω) y) q‖
          ≤ e * a * hi * (L * ‖X (B + (k + 1)) ω - X (B + k) ω‖) :=
            mul_le_mul (mul_le_mul_of_nonneg_left (T.le_hi q) ht.le) h4 (norm_nonneg _) (by positivity)
        _ = _ := by ring
    · simp only [hX0]
      exact integrable_const _
  have hen : 1 + ∫ ω, Confining.energy m (X (B + 0) ω) ∂P ≤ M * (1 + ‖fun q : Elem (Pos size) => (atEnd q.1 q.2).pos‖ ^ 2) := by
    simp only [hX0, integral_const, probReal_univ, one_smul]
    set v : Elem (Pos size) → ℝ := fun q => (atEnd q.1 q.2).pos
    have h1 := Confining.energy_le_sq (fun q => hlo.trans_le (T.lo_le q)) T.lo_le v
    have h2 : ∑ j, v j ^ 2 ≤ Fintype.card (Elem (Pos size)) * ‖v‖ ^ 2 := by
      have h3 : ∀ j ∈ Finset.univ, v j ^ 2 ≤ ‖v‖ ^ 2 := fun j _ => by
        rw [show v j ^ 2 = ‖v j‖ ^ 2 by rw [Real.norm_eq_abs, sq_abs]]
        exact pow_le_pow_left₀ (norm_nonneg _) (norm_le_pi_norm v j) 2
      simpa using Finset.sum_le_sum h3
    have h4 : Confining.energy m v ≤ Fintype.card (Elem (Pos size)) / lo * ‖v‖ ^ 2 := by
      rw [div_mul_eq_mul_div, le_div_iff₀ hlo]
      linarith
    have h5 : 0 ≤ (Fintype.card (Elem (Pos size)) : ℝ) / lo := by positivity
    rw [hM]
    nlinarith [sq_nonneg ‖v‖]
  refine ⟨X, fun N ω => ⟨cost ω N, ?_⟩, ?_⟩
  · rw [hcalls ω N]
    refine List.map_congr_left fun k hk => ?_
    have hk' : k < N := List.mem_range.1 hk
    have h1 : sgldPath a scale B eps (drawsAfter B z0 z ω) (x ω N) θ (k + 1) = sgldPath a scale B eps (drawsAfter B z0 z ω) (xx ω) θ (k + 1) :=
      sgldPath_congr a scale B eps θ (k + 1) (fun j hj => (hall ω).1 N j (by omega)) fun _ _ => rfl
    rw [h1]
  · intro posterior start f A hA hf
    obtain ⟨h1, h2⟩ := h T ht1 hTr hA hf
    have h0 : C * (1 + ∫ ω, Confining.energy m (X (B + 0) ω) ∂P) ≤ start := by
      show _ ≤ C * M * (1 + _)
      rw [mul_assoc]
      exact mul_le_mul_of_nonneg_left hen hC
    refine ⟨fun k => ⟨(h1 k).1, (h1 k).2.trans ?_⟩, fun {D} hD {I} hI => ⟨(h2 hD hI).1, (h2 hD hI).2.trans ?_⟩⟩
    · have := Real.exp_nonneg (-(l * (e * a) * k))
      gcongr
    · have hD0 : 0 ≤ D := (abs_nonneg _).trans (hD 0)
      have hI' : (0 : ℝ) < I.card := by exact_mod_cast hI.card_pos
      exact mul_le_mul_of_nonneg_left (add_le_add (div_le_div_of_nonneg_right h0 (mul_pos hI' ht).le) le_rfl) (mul_nonneg hD0 hA)

/-! ## A cost in which every entry depends on all parameters -/

/-- The cost `∑ θ² / 2 + 3 cos ∑ θ`, with sums over all entries of all parameters. -/
noncomputable def swells (x : Elem (Pos size) → ℝ) : ℝ := ∑ q, x q ^ 2 / 2 + 3 * Real.cos (∑ q, x q)

/-- Its gradient, with data that shift the entries. -/
noncomputable def swell (β : ℝ) (θ : ∀ i, Pos size i → ℝ) : ∀ i, Pos size i → ℝ := fun i p => θ i p - β - 3 * Real.sin (∑ i, ∑ p, θ i p)

/-- The same in the model's numbers. -/
noncomputable def swellFl (d : Dict Key Arr) (θ : ∀ i, Pos size i → Fl) : ∀ i, Pos size i → Fl := fun i p =>
  match d (.ph 0) with
  | some [b] => θ i p - b - threeSinFl (Fl.sum (List.ofFn fun i => Fl.sum (List.ofFn fun p => θ i p)))
  | _ => .nan

noncomputable def swellProblem (e : ℝ) (b : Nat → ℝ) (N : Nat) :
    Problem (size := size) (streamScript e b N) swellFl (fun _ _ => 0) (fun _ => true) where
  γ k := swell (b k)
  c _ _ := 0
  grad_eq k _ d h θ i p := by
    unfold swellFl
    rw [h 0]
    show Fl.fin (θ i p) - Fl.fin (b k) - threeSinFl (Fl.sum (List.ofFn fun i => Fl.sum (List.ofFn fun p => Fl.fin (θ i p)))) = _
    simp only [SVGD.sum_fin]
    rfl
  cost_eq _ _ _ _ _ := rfl
  accepts _ _ _ _ := rfl

theorem flat_swell (β : ℝ) (x : Elem (Pos size) → ℝ) (q : Elem (Pos size)) : flatGrad swell β x q = x q - β - 3 * Real.sin (∑ q, x q) := by
  rw [Fintype.sum_sigma]
  rfl

theorem swell_confining (size : Fin n → Nat) : Confining (gaussianReal 0 1) (flatGrad (swell (size := size))) (1 / 2)
    (∑ _q : Elem (Pos size), 9 / 2) 3 (fun β => ∑ _q : Elem (Pos size), (β ^ 2 + 9)) := by
  have hi : Integrable (fun t : ℝ => t) (gaussianReal 0 1) := (memLp_id_gaussianReal 1).integrable le_rfl
  have hi2 : Integrable (fun t : ℝ => t ^ 2) (gaussianReal 0 1) := (memLp_id_gaussianReal 2).integrable_sq
  refine ⟨?_, fun β x => ?_, fun β => Finset.sum_nonneg fun _ _ => by positivity, integrable_finsetSum _ fun _ _ => hi2.add (integrable_const 9),
    by norm_num, Finset.sum_nonneg fun _ _ => by norm_num, by norm_num, fun x => ?_⟩
  · refine measurable_pi_iff.2 fun q => ?_
    simp only [flat_swell]
    have h1 : ∀ q, Measurable fun y : ℝ × (Elem (Pos size) → ℝ) => y.2 q := fun q => (measurable_pi_apply q).comp measurable_snd
    exact ((h1 q).sub measurable_fst).sub ((Real.measurable_sin.comp (Finset.measurable_fun_sum _ fun p _ => h1 p)).const_mul 3)
  · rw [← Finset.sum_add_distrib, Finset.mul_sum]
    refine Finset.sum_le_sum fun q _ => ?_
    rw [flat_swell]
    set s := Real.sin (∑ q, x q) with hs
    have h1 : s ^ 2 ≤ 1 := Real.sin_sq_le_one _
    nlinarith [sq_nonneg (x q + β), sq_nonneg (x q + 3 * s), sq_nonneg (β - 3 * s)]
  · simp only [flat_swell]
    set s := Real.sin (∑ q, x q) with hs
    have h1 : ∀ q : Elem (Pos size), Integrable (fun β : ℝ => x q * (x q - β - 3 * s)) (gaussianReal 0 1) := fun q =>
      (((integrable_const (x q)).sub hi).sub (integrable_const (3 * s))).const_mul _
    rw [integral_finsetSum _ fun q _ => h1 q, Finset.mul_sum, ← Finset.sum_sub_distrib]
    refine Finset.sum_le_sum fun q _ => ?_
    have h2 : ∫ β : ℝ, x q * (x q - β - 3 * s) ∂gaussianReal 0 1 = x q * (x q - 3 * s) := by
      have h3 : Integrable (fun t : ℝ => x q - t) (gaussianReal 0 1) := (integrable_const (x q)).sub hi
      rw [integral_const_mul, integral_sub h3 (integrable_const _), integral_sub (integrable_const _) hi, integral_id_gaussianReal]
      simp
    rw [h2]
    have h5 : s ^ 2 ≤ 1 := Real.sin_sq_le_one _
    nlinarith [sq_nonneg (x q - 3 * s)]

theorem swell_lip (β : ℝ) (x x' : Elem (Pos size) → ℝ) :
    ‖flatGrad swell β x - flatGrad swell β x'‖ ≤ (1 + 3 * Fintype.card (Elem (Pos size))) * ‖x - x'‖ := by
  refine (pi_norm_le_iff_of_nonneg (by positivity)).2 fun q => ?_
  have hq : ∀ q, |x q - x' q| ≤ ‖x - x'‖ := fun q => norm_le_pi_norm (x - x') q
  have h1 : |∑ q, x q - ∑ q, x' q| ≤ Fintype.card (Elem (Pos size)) * ‖x - x'‖ := by
    rw [← Finset.sum_sub_distrib]
    refine (Finset.abs_sum_le_sum_abs _ _).trans ((Finset.sum_le_sum fun p _ => hq p).trans ?_)
    rw [Finset.sum_const, nsmul_eq_mul, Finset.card_univ]
  have h2 : |Real.sin (∑ q, x q) - Real.sin (∑ q, x' q)| ≤ |∑ q, x q - ∑ q, x' q| := Real.abs_sin_sub_sin_le _ _
  rw [Pi.sub_apply, Real.norm_eq_abs, flat_swell, flat_swell]
  have h3 := hq q
  rw [abs_le] at h3 ⊢
  have h4 := abs_le.1 (h2.trans h1)
  constructor <;> linarith [h3.1, h3.2, h4.1, h4.2]

theorem swells_smooth : ContDiff ℝ 1 (swells (size := size)) := by
  unfold swells
  fun_prop

theorem swells_partial (x : Elem (Pos size) → ℝ) (q : Elem (Pos size)) : partialD swells q x = x q - 3 * Real.sin (∑ q, x q) := by
  have h2 := HasFDerivAt.fun_sum (u := Finset.univ) fun (r : Elem (Pos size)) _ => (hasFDerivAt_apply (𝕜 := ℝ) r x)
  have h3 := h2.cos.const_mul 3
  have h4 : DifferentiableAt ℝ (halfSq : (Elem (Pos size) → ℝ) → ℝ) x := halfSq_smooth.differentiable one_ne_zero x
  have h5 : HasFDerivAt (swells (size := size)) _ x := h4.hasFDerivAt.add h3
  show fderiv ℝ swells x (unit q) = _
  rw [h5.fderiv, add_apply]
  have h6 : fderiv ℝ halfSq x (unit q) = x q := halfSq_partial q x
  have h7 : ∑ r, (unit q : Elem (Pos size) → ℝ) r = 1 := by
    rw [Finset.sum_eq_single q]
    · exact Pi.single_eq_same q 1
    · intro p _ hp
      exact Pi.single_eq_of_ne hp 1
    · simp
  rw [h6]
  simp only [smul_apply, sum_apply, ContinuousLinearMap.proj_apply, smul_eq_mul]
  rw [h7]
  ring

theorem swell_mean (x : Elem (Pos size) → ℝ) (q : Elem (Pos size)) : ∫ β, flatGrad swell β x q ∂gaussianReal 0 1 = partialD swells q x := by
  have hi : Integrable (fun t : ℝ => t) (gaussianReal 0 1) := (memLp_id_gaussianReal 1).integrable le_rfl
  have h3 : Integrable (fun t : ℝ => x q - t) (gaussianReal 0 1) := (integrable_const (x q)).sub hi
  rw [swells_partial]
  simp only [flat_swell]
  rw [integral_sub h3 (integrable_const _), integral_sub (integrable_const _) hi, integral_id_gaussianReal]
  simp

/-- Every parameter's gradient depends on every other parameter, and the runtime picks the order of each step after looking at the step's data:
`σ` if they are negative, `τ` otherwise.  The mean of every entry is estimated all the same. -/
example [Nonempty (Elem (Pos size))] (σ τ : SGLD.Schedule (Fin n)) : ∃ c K C l t₁ : ℝ,
    IsProbabilityMeasure (boltz fun x : Elem (Pos size) → ℝ => (10 + 3e-16) * swells x + c) ∧ 0 < l ∧ 0 < t₁ ∧
    ∀ t : ℝ, 0 < t → t ≤ t₁ → ∀ θ : ∀ i, Pos size i → ℝ,
    ∃ (Ω : Type) (_ : MeasurableSpace Ω) (P : Measure Ω) (β : Nat → Ω → ℝ) (z : Nat → ∀ i, Pos size i → Ω → ℝ)
      (X : Nat → Ω → Elem (Pos size) → ℝ),
      RandomSteps (gaussianReal 0 1) P β z
      ∧ (∀ N ω, ∃ cost : Nat → Fl,
        (calls (asIter (burnInNext (env (streamFeeder t) (SGLDWorld.graph
            ⟨.fin 10, .fin 1, swellFl, fun _ _ => 0, fun k i p => .fin (drawsAfter 1 (fun _ _ _ => 0) z ω k i p),
              ordersAfter 1 (fun _ => σ) (fun k ω => if β k ω < 0 then σ else τ) ω⟩) fun _ => true) (1 : Nat) n)) N
            (init (some (batchesAfter 1 (fun _ => 0) β ω, 0)) () ⟨SGLD.State.init fun i p => .fin (θ i p), .fin 0, 0⟩)).1
          = (List.range N).map (fun k : Nat =>
              let arrays := List.ofFn fun i => flat fun p => .fin (X (k + 1) ω ⟨i, p⟩)
              .ok ((if (k : Int) < (1 : Nat) then .many arrays else unravel arrays), cost k)))
      ∧ ∃ R, ∀ q k, |∫ ω, X (1 + k) ω q ∂P - ∫ x, x q ∂boltz fun x => (10 + 3e-16) * swells x + c| ≤ C * R * Real.exp (-(l * t * k)) + K * √t := by
  obtain ⟨c, K, C, l, t₁, hp, hK, hC, hl, ht₁, h⟩ := C142_sgld_orders (swell_confining size) (by positivity) swell_lip swells_smooth swell_mean
    10 (by norm_num) (lo := 1 / (1 + 3e-16)) (hi := 1) (by norm_num) (by norm_num)
  refine ⟨c, K, C, l, t₁, hp, hl, ht₁, fun t ht htt θ => ?_⟩
  obtain ⟨Ω, mΩ, P, ζ, h1, h2, h3, h4⟩ := exists_iid Nat ((gaussianReal 0 1).prod (Measure.pi fun _ : Elem (Pos size) => gaussianReal 0 1))
  have hR : RandomSteps (gaussianReal 0 1) P (fun k ω => (ζ k ω).1) (fun k i p ω => (ζ k ω).2 ⟨i, p⟩) :=
    ⟨h4, fun k => (h1 k).fst, fun k i p => (measurable_pi_apply _).comp (h1 k).snd, h3, fun k => (h2 k).map_eq⟩
  have hc : ∀ k, MeasurableSpace.comap (ζ k) inferInstance ≤ mΩ := fun k => (h1 k).comap_le
  have hζ : ∀ k, Measurable[⨆ j ∈ {j | j < k + 1}, MeasurableSpace.comap (ζ j) inferInstance] (ζ k) := fun k =>
    Measurable.mono (comap_measurable (ζ k)) (le_iSup₂_of_le k (Nat.lt_succ_self k) le_rfl) le_rfl
  have hun : Unforeseen (gaussianReal 0 1) P (fun k => ⨆ j ∈ {j | j < k}, MeasurableSpace.comap (ζ j) inferInstance) (fun k ω => (ζ k ω).1)
      (fun k i p ω => (ζ k ω).2 ⟨i, p⟩) (fun k ω => if (ζ k ω).1 < 0 then σ else τ) := by
    refine ⟨h4, fun k k' hk => ?_, fun k => iSup₂_le fun j _ => hc j, hζ, fun k A => ?_, fun k => ?_, fun k => (h2 k).map_eq⟩
    · exact biSup_mono fun j hj => lt_of_lt_of_le hj hk
    · have hneg : MeasurableSet[⨆ j ∈ {j | j < k + 1}, MeasurableSpace.comap (ζ j) inferInstance] {ω | (ζ k ω).1 < 0} :=
        (measurable_fst.comp (hζ k)) measurableSet_Iio
      have e : {ω | (if (ζ k ω).1 < 0 then σ else τ) ∈ A} = ({ω | (ζ k ω).1 < 0} ∩ {_ω | σ ∈ A}) ∪ ({ω | (ζ k ω).1 < 0}ᶜ ∩ {_ω | τ ∈ A}) := by
        ext ω
        by_cases h : (ζ k ω).1 < 0 <;> simp [h]
      rw [e]
      exact (hneg.inter (@MeasurableSet.const _ (_) _)).union (hneg.compl.inter (@MeasurableSet.const _ (_) _))
    · have h5 := indep_iSup_of_disjoint hc h3 (S := {j | j < k}) (T := {k}) (by simp)
      simpa using h5
  obtain ⟨x0, -, -, hx0⟩ := sgld_chain_evaluated (size := size) (streamScript t (fun _ => 0) 1)
    ⟨.fin 10, .fin 1, swellFl, fun _ _ => 0, fun _ _ _ => .fin 0, fun _ => σ⟩ (fun _ => true) (swellProblem t (fun _ => 0) 1) 1 10 rfl rfl (by norm_num)
    (fun _ _ _ => 0) (fun _ _ _ => rfl) (1 : Nat) θ (.fin 0)
  have hmass : ∀ i p, (sgldChain 1 10 (1 : Nat) (fun _ => t) (fun j => x0 j i p) (fun _ => 0) (θ i p) 1).mass = 1 / (1 + 3e-16) := by
    intro i p
    simp only [sgldChain, sgldStep, Coord.start, Coord.massUsed, after_false Nat.zero_lt_one, Bool.false_eq_true, if_false, Real.sqrt_one]
  obtain ⟨X, hX, hb⟩ := h (F := streamFeeder t) ⟨.fin 10, .fin 1, swellFl, fun _ _ => 0, fun _ _ _ => 0, fun _ => σ⟩ (fun _ => true) P
    (fun k => ⨆ j ∈ {j | j < k}, MeasurableSpace.comap (ζ j) inferInstance)
    (fun ω => streamScript t (batchesAfter 1 (fun _ => 0) (fun k ω => (ζ k ω).1) ω))
    (fun ω => swellProblem t (batchesAfter 1 (fun _ => 0) (fun k ω => (ζ k ω).1) ω))
    (fun ω => some (batchesAfter 1 (fun _ => 0) (fun k ω => (ζ k ω).1) ω, 0)) () (fun _ => t) (fun _ => 0) (fun k ω => (ζ k ω).1) 1 1 t
    (fun _ _ _ => 0) (fun k i p ω => (ζ k ω).2 ⟨i, p⟩) (fun _ => σ) (fun k ω => if (ζ k ω).1 < 0 then σ else τ) θ (.fin 0) x0
    (fun _ _ => rfl) (fun _ _ => rfl) (fun _ _ => rfl)
    (fun _ _ _ _ => rfl) hun rfl rfl one_pos (fun _ _ => rfl) (by linarith) (by linarith) hx0 (fun i p => (hmass i p).ge)
    (fun i p => (hmass i p).le.trans (by norm_num))
  refine ⟨Ω, mΩ, P, _, _, X, hR, hX, 1 + ‖fun q : Elem (Pos size) =>
    (sgldChain 1 10 (1 : Nat) (fun _ => t) (fun j => x0 j q.1 q.2) (fun _ => 0) (θ q.1 q.2) 1).pos‖ ^ 2, fun q k => ?_⟩
  have h5 := ((hb (f := fun x => x q) (A := 1) zero_le_one (fun x y => by rw [one_mul]; exact norm_le_pi_norm (x - y) q)).1 k).2
  rwa [mul_one, one_mul] at h5

end PySGMCMC.Chain
