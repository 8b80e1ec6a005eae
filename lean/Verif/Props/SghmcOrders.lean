import Verif.Props.SgldOrders
import Verif.Props.SghmcUniform
import Verif.Lemmas.SghmcOrders

/-!
# C144: SGHMC samples posteriors of several parameters, in any execution order

What C142 says about SGLD, for SGHMC: the gradient of a parameter may depend on the other parameters, and the runtime may execute the operations
of each step in another order, which may depend on all values seen so far.
-/

namespace PySGMCMC.Chain
open SamplerBase BurnInStats Spec MeasureTheory ProbabilityTheory Contraction Invariance Recipe Harris Langevin Confining

variable {n : Nat} {size : Fin n → Nat}

namespace Momenta

/-! ## Gradients in a given order -/

/-- Positions of an SGHMC run whose gradients are `x`. -/
noncomputable def sghmcPath (alpha scale : ℝ) (B : Int) (eps : Nat → ℝ) (z x : Nat → ∀ i, Pos size i → ℝ) (θ : ∀ i, Pos size i → ℝ) (k : Nat) :
    ∀ i, Pos size i → ℝ := fun i p => (sghmcChain alpha scale B eps (fun j => x j i p) (fun j => z j i p) (θ i p) k).pos

/-- In the first `N` steps, `x` are the gradients that are evaluated if the operations are executed in order `order`: a gradient sees the new
values of the parameters that have been updated by then, and the old values of the others. -/
def Evaluated (alpha scale : ℝ) (B : Int) (eps : Nat → ℝ) (γ : Nat → (∀ i, Pos size i → ℝ) → ∀ i, Pos size i → ℝ) (z : Nat → ∀ i, Pos size i → ℝ)
    (order : Nat → SGHMC.Schedule (Fin n)) (θ : ∀ i, Pos size i → ℝ) (N : Nat) (x : Nat → ∀ i, Pos size i → ℝ) : Prop :=
  ∀ k < N, ∀ i, x k i = γ k (mix (SGHMC.sees (order k) i) (sghmcPath alpha scale B eps z x θ (k + 1)) (sghmcPath alpha scale B eps z x θ k)) i

theorem sghmcChain_congr' (alpha scale : ℝ) (B : Int) (eps : Nat → ℝ) {x x' z z' : Nat → ℝ} (th : ℝ) (k : Nat)
    (h : ∀ j < k, x j = x' j) (hz : ∀ j < k, z j = z' j) : sghmcChain alpha scale B eps x z th k = sghmcChain alpha scale B eps x' z' th k := by
  induction k with
  | zero => rfl
  | succ k ih => simp only [sghmcChain]; rw [ih (fun j hj => h j (by omega)) fun j hj => hz j (by omega), h k (by omega), hz k (by omega)]

theorem sghmcPath_congr (alpha scale : ℝ) (B : Int) (eps : Nat → ℝ) {x x' z z' : Nat → ∀ i, Pos size i → ℝ} (θ : ∀ i, Pos size i → ℝ) (k : Nat)
    (h : ∀ j < k, x j = x' j) (hz : ∀ j < k, z j = z' j) : sghmcPath alpha scale B eps z x θ k = sghmcPath alpha scale B eps z' x' θ k := by
  funext i p
  unfold sghmcPath
  rw [sghmcChain_congr' alpha scale B eps (θ i p) k (fun j hj => congrFun (congrFun (h j hj) i) p) fun j hj => congrFun (congrFun (hz j hj) i) p]

/-- The order determines the gradients. -/
theorem evaluated_unique {alpha scale : ℝ} {B : Int} {eps : Nat → ℝ} {γ γ' : Nat → (∀ i, Pos size i → ℝ) → ∀ i, Pos size i → ℝ}
    {z z' : Nat → ∀ i, Pos size i → ℝ} {order order' : Nat → SGHMC.Schedule (Fin n)} {θ : ∀ i, Pos size i → ℝ} {N : Nat}
    {x x' : Nat → ∀ i, Pos size i → ℝ} (h : Evaluated alpha scale B eps γ z order θ N x) (h' : Evaluated alpha scale B eps γ' z' order' θ N x')
    (hγ : ∀ k < N, γ k = γ' k) (hz : ∀ k < N, z k = z' k) (ho : ∀ k < N, order k = order' k) : ∀ k < N, x k = x' k := by
  intro k
  induction k using Nat.strong_induction_on with
  | _ k ih =>
    intro hk
    have hp := sghmcPath_congr alpha scale B eps θ k (fun j hj => ih j hj (by omega)) fun j hj => hz j (by omega)
    set f : ∀ i, Pos size i → ℝ → ℝ := fun i p y => (sghmcStep (eps k) alpha scale (afterBurnIn B k) y (z k i p)
      (sghmcChain alpha scale B eps (fun j => x j i p) (fun j => z j i p) (θ i p) k)).pos with hf
    have e1 : sghmcPath alpha scale B eps z x θ (k + 1) = fun j p => f j p (x k j p) := rfl
    have e2 : sghmcPath alpha scale B eps z' x' θ (k + 1) = fun j p => f j p (x' k j p) := by
      funext i p
      simp only [sghmcPath, hf, sghmcChain]
      rw [sghmcChain_congr' alpha scale B eps (θ i p) k (fun j hj => congrFun (congrFun (ih j hj (by omega)) i) p)
        fun j hj => congrFun (congrFun (hz j (by omega)) i) p, hz k hk]
    have h1 := h k hk
    have h2 := h' k hk
    rw [e1] at h1
    rw [e2, ← hγ k hk, ← ho k hk, ← hp] at h2
    rw [← settle_eq (SGHMC.sees_rank (order k)) h1, ← settle_eq (SGHMC.sees_rank (order k)) h2]

theorem sghmcChain_after (alpha scale : ℝ) {B : Nat} (hB : 0 < B) (eps x z : Nat → ℝ) (th : ℝ) (k : Nat) :
    let c := sghmcChain alpha scale B eps x z th
    (c (B + (k + 1))).pos = (c (B + k)).pos + (c (B + (k + 1))).mom ∧
    (c (B + (k + 1))).mom = (1 - alpha) * (c (B + k)).mom - eps (B + k) ^ 2 * (c B).mass * x (B + k)
      + sghmcSd (eps (B + k)) alpha scale (c B).mass * z (B + k) := by
  intro c
  have hm : ∀ k, (c (B + k)).mass = (c B).mass := by
    intro k
    induction k with
    | zero => rfl
    | succ k ih =>
      rw [← Nat.add_assoc]
      simp only [c, sghmcChain, sghmcStep, Coord.massUsed, after_true hB, if_true]
      exact ih
  have := hm k
  simp only [c] at this
  rw [← Nat.add_assoc]
  refine ⟨rfl, ?_⟩
  simp only [c, sghmcChain, sghmcStep, Coord.massUsed, after_true hB, if_true, this]
  ring

/-- The chain of an SGHMC sampler, with the gradients its execution orders lead to. -/
theorem sghmc_chain_evaluated {F : Feeder} {N : Nat} (S : Script F N) (W : SGHMCWorld size) (ok : Dict Key Arr → Bool)
    (Pb : Problem S W.grad W.cost ok) (alpha scale : ℝ) (ha : W.mdecay = .fin alpha) (hsc : W.scaleGrad = .fin scale) (hs : 0 < scale)
    (z : Nat → ∀ i, Pos size i → ℝ) (hz : ∀ k i p, W.normal k i p = .fin (z k i p)) (B : Int) (θ : ∀ i, Pos size i → ℝ) (eps0 : Fl) :
    ∃ (x : Nat → ∀ i, Pos size i → ℝ) (cost : Nat → Fl),
      (calls (asIter (burnInNext (env F W.graph ok) B n)) N
          (init (S.batch 0) (S.sched 0) ⟨SGHMC.State.init fun i p => .fin (θ i p), eps0, 0⟩)).1
        = (List.range N).map (fun k : Nat =>
            let arrays := List.ofFn fun i => flat fun p => .fin (sghmcPath alpha scale B S.eps z x θ (k + 1) i p)
            .ok ((if (k : Int) < B then .many arrays else unravel arrays), cost k))
      ∧ Evaluated alpha scale B S.eps Pb.γ z W.order θ N x := by
  have h0 : ∀ θs : Nat → ∀ i, Pos size i → ℝ, θs 0 = θ → before θ θs = θs := before_eq θ
  obtain ⟨x, cost, h, hx⟩ := sghmc_restart_sees S W ok Pb alpha scale ha hsc hs z hz B θ θ eps0
  refine ⟨x, cost, h, ?_⟩
  rw [h0 _ rfl] at hx
  exact fun k hk => (hx k hk).1

/-! ## Random orders -/

variable {Bt : Type} [MeasurableSpace Bt]

/-- What happens after burn-in is random: `ℱ k` is what is known before step `k`.  Batch and normal draws of a step are independent of what is
known before the step, the execution order of the step is known when the step is over. -/
structure Unforeseen {Ω : Type} [mΩ : MeasurableSpace Ω] (ν : Measure Bt) (P : Measure Ω) (ℱ : Nat → MeasurableSpace Ω) (β : Nat → Ω → Bt)
    (z : Nat → ∀ i, Pos size i → Ω → ℝ) (order : Nat → Ω → SGHMC.Schedule (Fin n)) : Prop where
  prob : IsProbabilityMeasure P
  mono : Monotone ℱ
  le : ∀ k, ℱ k ≤ mΩ
  step : ∀ k, Measurable[ℱ (k + 1)] fun ω => (β k ω, fun q : Elem (Pos size) => z k q.1 q.2 ω)
  order : ∀ k (A : Set (SGHMC.Schedule (Fin n))), MeasurableSet[ℱ (k + 1)] {ω | order k ω ∈ A}
  indep : ∀ k, Indep (ℱ k) (MeasurableSpace.comap (fun ω => (β k ω, fun q : Elem (Pos size) => z k q.1 q.2 ω)) inferInstance) P
  law : ∀ k, P.map (fun ω => (β k ω, fun q : Elem (Pos size) => z k q.1 q.2 ω)) = ν.prod (Measure.pi fun _ => gaussianReal 0 1)

/-- Positions and momenta after one step in a given order. -/
noncomputable def stepIn (γ : Bt → (∀ i, Pos size i → ℝ) → ∀ i, Pos size i → ℝ) (m s : Elem (Pos size) → ℝ) (t α : ℝ) (R : Fin n → Fin n → Bool)
    (x : (Elem (Pos size) → ℝ) × (Elem (Pos size) → ℝ)) (q : Bt × (Elem (Pos size) → ℝ)) : (Elem (Pos size) → ℝ) × (Elem (Pos size) → ℝ) :=
  let f : ∀ i, Pos size i → ℝ → ℝ := fun i p y => (1 - α) * x.2 ⟨i, p⟩ - t * m ⟨i, p⟩ * y + s ⟨i, p⟩ * q.2 ⟨i, p⟩
  let v := fun l : Elem (Pos size) => f l.1 l.2 (settle (γ q.1) R (fun i p y => x.1 ⟨i, p⟩ + f i p y) (fun i p => x.1 ⟨i, p⟩) n l.1 l.2)
  (fun l => x.1 l + v l, v)

theorem measurable_stepIn {γ : Bt → (∀ i, Pos size i → ℝ) → ∀ i, Pos size i → ℝ}
    (hγ : Measurable fun q : Bt × (Elem (Pos size) → ℝ) => flatGrad γ q.1 q.2) (m s : Elem (Pos size) → ℝ) (t α : ℝ) (R : Fin n → Fin n → Bool) :
    Measurable fun u : ((Elem (Pos size) → ℝ) × (Elem (Pos size) → ℝ)) × (Bt × (Elem (Pos size) → ℝ)) => stepIn γ m s t α R u.1 u.2 := by
  have hx : ∀ l : Elem (Pos size), Measurable fun u : ((Elem (Pos size) → ℝ) × (Elem (Pos size) → ℝ)) × (Bt × (Elem (Pos size) → ℝ)) => u.1.1 l := fun l =>
    (measurable_pi_apply l).comp (measurable_fst.comp measurable_fst)
  have hv : ∀ l : Elem (Pos size), Measurable fun u : ((Elem (Pos size) → ℝ) × (Elem (Pos size) → ℝ)) × (Bt × (Elem (Pos size) → ℝ)) => u.1.2 l := fun l =>
    (measurable_pi_apply l).comp (measurable_snd.comp measurable_fst)
  have hz : ∀ l : Elem (Pos size), Measurable fun u : ((Elem (Pos size) → ℝ) × (Elem (Pos size) → ℝ)) × (Bt × (Elem (Pos size) → ℝ)) => u.2.2 l := fun l =>
    (measurable_pi_apply l).comp (measurable_snd.comp measurable_snd)
  have key : ∀ (k : Nat) (l : Elem (Pos size)), Measurable fun u : ((Elem (Pos size) → ℝ) × (Elem (Pos size) → ℝ)) × (Bt × (Elem (Pos size) → ℝ)) =>
      settle (γ u.2.1) R (fun i p y => u.1.1 ⟨i, p⟩ + ((1 - α) * u.1.2 ⟨i, p⟩ - t * m ⟨i, p⟩ * y + s ⟨i, p⟩ * u.2.2 ⟨i, p⟩))
        (fun i p => u.1.1 ⟨i, p⟩) k l.1 l.2 := by
    intro k
    induction k with
    | zero => exact fun l => measurable_const
    | succ k ih =>
      intro l
      have h1 : Measurable fun u : ((Elem (Pos size) → ℝ) × (Elem (Pos size) → ℝ)) × (Bt × (Elem (Pos size) → ℝ)) => fun l' : Elem (Pos size) =>
          mix (R l.1) (fun j p => u.1.1 ⟨j, p⟩ + ((1 - α) * u.1.2 ⟨j, p⟩ - t * m ⟨j, p⟩
            * settle (γ u.2.1) R (fun i p y => u.1.1 ⟨i, p⟩ + ((1 - α) * u.1.2 ⟨i, p⟩ - t * m ⟨i, p⟩ * y + s ⟨i, p⟩ * u.2.2 ⟨i, p⟩))
                (fun i p => u.1.1 ⟨i, p⟩) k j p
              + s ⟨j, p⟩ * u.2.2 ⟨j, p⟩)) (fun i p => u.1.1 ⟨i, p⟩) l'.1 l'.2 := by
        refine measurable_pi_iff.2 fun l' => ?_
        unfold mix
        by_cases hR : R l.1 l'.1 = true
        · simp only [hR, if_true]
          exact (hx l').add ((((hv l').const_mul _).sub ((ih l').const_mul _)).add ((hz l').const_mul _))
        · simp only [hR, if_false, Bool.false_eq_true]
          exact hx l'
      exact (measurable_pi_apply l).comp (hγ.comp ((measurable_fst.comp measurable_snd).prodMk h1))
  have hw : ∀ l : Elem (Pos size), Measurable fun u : ((Elem (Pos size) → ℝ) × (Elem (Pos size) → ℝ)) × (Bt × (Elem (Pos size) → ℝ)) =>
      (stepIn γ m s t α R u.1 u.2).2 l := fun l => (((hv l).const_mul _).sub ((key n l).const_mul _)).add ((hz l).const_mul _)
  exact (measurable_pi_iff.2 fun l => (hx l).add (hw l)).prodMk (measurable_pi_iff.2 hw)

/-- Measurability of a step in a random order. -/
theorem measurable_in_order {Ω : Type} {𝒢 : MeasurableSpace Ω} {γ : Bt → (∀ i, Pos size i → ℝ) → ∀ i, Pos size i → ℝ}
    (hγ : Measurable fun q : Bt × (Elem (Pos size) → ℝ) => flatGrad γ q.1 q.2) (m s : Elem (Pos size) → ℝ) (t α : ℝ)
    {order : Ω → SGHMC.Schedule (Fin n)} (ho : ∀ A : Set (SGHMC.Schedule (Fin n)), MeasurableSet[𝒢] {ω | order ω ∈ A})
    {x : Ω → (Elem (Pos size) → ℝ) × (Elem (Pos size) → ℝ)} (hx : Measurable[𝒢] x) {q : Ω → Bt × (Elem (Pos size) → ℝ)} (hq : Measurable[𝒢] q) :
    Measurable[𝒢] fun ω => stepIn γ m s t α (SGHMC.sees (order ω)) (x ω) (q ω) := by
  intro A hA
  have e : (fun ω => stepIn γ m s t α (SGHMC.sees (order ω)) (x ω) (q ω)) ⁻¹' A
      = ⋃ R : Fin n → Fin n → Bool, {ω | order ω ∈ {σ | SGHMC.sees σ = R}} ∩ {ω | stepIn γ m s t α R (x ω) (q ω) ∈ A} := by
    ext ω
    simp
  rw [e]
  refine MeasurableSet.iUnion fun R => (ho _).inter ?_
  exact ((measurable_stepIn hγ m s t α R).comp (hx.prodMk hq)) hA

/-- The orders of a run: fixed ones during burn-in, then random ones. -/
def ordersAfter {Ω : Type} (B : Nat) (o0 : Nat → SGHMC.Schedule (Fin n)) (o : Nat → Ω → SGHMC.Schedule (Fin n)) (ω : Ω) (k : Nat) :
    SGHMC.Schedule (Fin n) := if k < B then o0 k else o (k - B) ω

theorem ordersAfter_add {Ω : Type} (B : Nat) (o0 : Nat → SGHMC.Schedule (Fin n)) (o : Nat → Ω → SGHMC.Schedule (Fin n)) (ω : Ω) (k : Nat) :
    ordersAfter B o0 o ω (B + k) = o k ω := by
  unfold ordersAfter; rw [if_neg (by omega), Nat.add_sub_cancel_left]

theorem Evaluated.mono {alpha scale : ℝ} {B : Int} {eps : Nat → ℝ} {γ : Nat → (∀ i, Pos size i → ℝ) → ∀ i, Pos size i → ℝ}
    {z : Nat → ∀ i, Pos size i → ℝ} {order : Nat → SGHMC.Schedule (Fin n)} {θ : ∀ i, Pos size i → ℝ} {N M : Nat}
    {x : Nat → ∀ i, Pos size i → ℝ} (h : Evaluated alpha scale B eps γ z order θ N x) (hM : M ≤ N) : Evaluated alpha scale B eps γ z order θ M x :=
  fun k hk => h k (by omega)

/-- The runs of all lengths are one run. -/
theorem evaluated_all {alpha scale : ℝ} {B : Int} {eps : Nat → ℝ} {γ : Nat → (∀ i, Pos size i → ℝ) → ∀ i, Pos size i → ℝ}
    {z : Nat → ∀ i, Pos size i → ℝ} {order : Nat → SGHMC.Schedule (Fin n)} {θ : ∀ i, Pos size i → ℝ}
    {x : Nat → Nat → ∀ i, Pos size i → ℝ} (h : ∀ N, Evaluated alpha scale B eps γ z order θ N (x N)) :
    (∀ N, ∀ k < N, x N k = x (k + 1) k) ∧ ∀ N, Evaluated alpha scale B eps γ z order θ N fun k => x (k + 1) k := by
  have h1 : ∀ N, ∀ k < N, x N k = x (k + 1) k := fun N k hk =>
    evaluated_unique ((h N).mono (M := k + 1) (by omega)) (h (k + 1)) (fun _ _ => rfl) (fun _ _ => rfl) (fun _ _ => rfl) k (by omega)
  refine ⟨h1, fun N k hk i => ?_⟩
  beta_reduce
  rw [sghmcPath_congr alpha scale B eps (x := fun k => x (k + 1) k) (x' := x (k + 1)) θ k (fun j hj => (h1 (k + 1) j (by omega)).symm) fun _ _ => rfl,
    sghmcPath_congr alpha scale B eps (x := fun k => x (k + 1) k) (x' := x (k + 1)) θ (k + 1) (fun j hj => (h1 (k + 1) j hj).symm) fun _ _ => rfl]
  exact h (k + 1) k (by omega) i

end Momenta

variable {Bt : Type} [MeasurableSpace Bt]

set_option maxHeartbeats 1000000 in
/-- **SGHMC estimates posterior expectations whatever depends on whatever, and whatever the runtime does first.**  C140's bounds hold if the
gradient of a parameter depends on other parameters as well, for stepsizes that are small enough (`Mild`).  The order in which the operations of
a step are executed may be a different one in each step, may be random, and may depend on everything but draws yet to come. -/
theorem C144_sghmc_orders [Nonempty (Elem (Pos size))] {ν : Measure Bt} [IsProbabilityMeasure ν] {U : (Elem (Pos size) → ℝ) → ℝ}
    {γ : Bt → (∀ i, Pos size i → ℝ) → ∀ i, Pos size i → ℝ} {a₀ b₀ Λ L lo hi : ℝ} {g : Bt → ℝ} (hγ : Confining ν (flatGrad γ) a₀ b₀ Λ g)
    (hL : 0 ≤ L) (hlip : ∀ β x x', ‖flatGrad γ β x - flatGrad γ β x'‖ ≤ L * ‖x - x'‖) (hU : ContDiff ℝ 1 U)
    (hmean : ∀ x q, ∫ β, flatGrad γ β x q ∂ν = partialD U q x) (scale alpha : ℝ) (hs : 0 < scale) (hα0 : 0 < alpha) (hα1 : alpha ≤ 1)
    (hlo : 0 < lo) (hlh : lo ≤ hi) :
    ∃ c K C l : ℝ, IsProbabilityMeasure (boltz fun x => scale * U x + c) ∧ 0 ≤ K ∧ 0 ≤ C ∧ 0 < l ∧
    ∀ (e : ℝ), 0 < e → e ^ 2 ≤ alpha →
    e ^ 2 * (1 / alpha ^ 2 + 1 + 2 * ((1 - alpha) / alpha ^ 2 + (1 - alpha)) ^ 2 / alpha) * alpha * hi * Λ ≤ a₀ →
    Mild (Elem (Pos size)) a₀ L lo hi alpha (e ^ 2 / alpha) →
    ∀ {F : Feeder} (W : SGHMCWorld size) (ok : Dict Key Arr → Bool) {Ω : Type} [MeasurableSpace Ω] (P : Measure Ω) (ℱ : Nat → MeasurableSpace Ω)
      (S : Ω → ∀ N, Script F N) (Pb : ∀ ω N, Problem (S ω N) W.grad W.cost ok) (gen : Ω → Option F.Batch) (sched : F.Sched) (eps : Nat → ℝ)
      (b0 : Nat → Bt) (β : Nat → Ω → Bt) (B : Nat) (z0 : Nat → ∀ i, Pos size i → ℝ) (z : Nat → ∀ i, Pos size i → Ω → ℝ)
      (o0 : Nat → SGHMC.Schedule (Fin n)) (o : Nat → Ω → SGHMC.Schedule (Fin n)) (θ : ∀ i, Pos size i → ℝ) (eps0 : Fl)
      (x0 : Nat → ∀ i, Pos size i → ℝ),
      (∀ ω N, (S ω N).batch 0 = gen ω) → (∀ ω N, (S ω N).sched 0 = sched) → (∀ ω N, (S ω N).eps = eps) →
      (∀ ω N k θ, (Pb ω N).γ k θ = γ (batchesAfter B b0 β ω k) θ) → Momenta.Unforeseen ν P ℱ β z o →
      W.mdecay = .fin alpha → W.scaleGrad = .fin scale → 0 < B → (∀ k, B ≤ k → eps k = e) →
      let world : Ω → SGHMCWorld size := fun ω =>
        { W with normal := fun k i p => .fin (drawsAfter B z0 z ω k i p), order := Momenta.ordersAfter B o0 o ω }
      Momenta.Evaluated alpha scale B eps (fun k => γ (b0 k)) z0 o0 θ B x0 →
      let atEnd := fun i p => sghmcChain alpha scale B eps (fun j => x0 j i p) (fun j => z0 j i p) (θ i p) B
      (∀ i p, lo ≤ (atEnd i p).mass) → (∀ i p, (atEnd i p).mass ≤ hi) →
      (∀ i p, 1e-16 ≤ 2 * (e ^ 2 / scale) * alpha * (atEnd i p).mass - (e ^ 2 / scale) ^ 2) →
      ∃ X : Nat → Ω → Elem (Pos size) → ℝ,
        (∀ N ω, ∃ cost : Nat → Fl,
          (calls (asIter (burnInNext (env F (world ω).graph ok) B n)) N
              (init (gen ω) sched ⟨SGHMC.State.init fun i p => .fin (θ i p), eps0, 0⟩)).1
            = (List.range N).map (fun k : Nat =>
                let arrays := List.ofFn fun i => flat fun p => .fin (X (k + 1) ω ⟨i, p⟩)
                .ok ((if (k : Int) < B then .many arrays else unravel arrays), cost k)))
        ∧ let posterior := boltz fun x => scale * U x + c
          let start := C * (1 + (∑ q : Elem (Pos size), (atEnd q.1 q.2).pos ^ 2 + ∑ q : Elem (Pos size), (atEnd q.1 q.2).mom ^ 2))
          ∀ {f : (Elem (Pos size) → ℝ) → ℝ} {A : ℝ}, 0 ≤ A → (∀ x y, |f x - f y| ≤ A * ‖x - y‖) →
            (∀ k, Integrable (fun ω => f (X (B + k) ω)) P ∧
              |∫ ω, f (X (B + k) ω) ∂P - ∫ x, f x ∂posterior| ≤ A * (start * Real.exp (-(l * e ^ 2 * k)) + K * e))
            ∧ ∀ {D : ℝ}, (∀ x, |f x| ≤ D) → ∀ {I : Finset Nat}, I.Nonempty →
              Integrable (fun ω => ((∑ k ∈ I, f (X (B + k) ω)) / I.card - ∫ x, f x ∂posterior) ^ 2) P ∧
              ∫ ω, ((∑ k ∈ I, f (X (B + k) ω)) / I.card - ∫ x, f x ∂posterior) ^ 2 ∂P
                ≤ D * A * (start / (I.card * e ^ 2) + K * e) := by
  have hpot : Potential ν (flatGrad γ) U a₀ b₀ Λ g L lo hi scale := ⟨⟨hγ, hL, hlip, hlo, hlh, hs⟩, hU, hmean⟩
  obtain ⟨c, K, C, l, hp, hK, hC, hl, h⟩ := hpot.rolls_average hα0 hα1 (1 / (scale ^ 2 * √(2 * lo / scale)))
  set M : ℝ := 1 + (2 + 2 * ((1 - alpha) / alpha) ^ 2) / lo with hM
  have hM0 : 0 ≤ M := by positivity
  refine ⟨c, K / √alpha, C * M, l, hp, by positivity, by positivity, hl, ?_⟩
  intro e he0 he1 hst hmild F W ok Ω _ P ℱ S Pb gen sched eps b0 β B z0 z o0 o θ eps0 x0 hgen hsched heps hPb hR ha hsc hB he world hx0 atEnd hmlo hmhi hfloor
  have := hR.prob
  set m : Elem (Pos size) → ℝ := fun q => (atEnd q.1 q.2).mass with hm
  set sd : Elem (Pos size) → ℝ := fun q => sghmcSd e alpha scale (m q) with hsd
  have hmass : ∀ q, 0 < m q := fun q => hlo.trans_le (hmlo q.1 q.2)
  have hΛ := hγ.bound
  have hcp := Confining.coupling_pos hα0
  have hst' : e ^ 2 * Confining.coupling alpha * alpha * hi * Λ ≤ a₀ := hst
  obtain ⟨π, _, _, hπ, hinv, hπ2, _⟩ := hγ.forgets_momentum (m := m) (t := e ^ 2) (α := alpha)
    (s := sd) hmass hα0 hα1 (by positivity) (fun q => by
      refine le_trans (mul_le_mul_of_nonneg_right (mul_le_mul_of_nonneg_left (hmhi q.1 q.2) ?_) hΛ.le) hst'
      positivity) (fun q => sghmcSd_ne hs)
  have hτ1 : e ^ 2 / alpha ≤ 1 := (div_le_one hα0).2 he1
  have hh : 0 ≤ hi := (hlo.le).trans hlh
  have T : Tuned a₀ Λ lo hi m (e ^ 2 / alpha) := ⟨fun q => hmlo q.1 q.2, fun q => hmhi q.1 q.2, by positivity, hτ1, by
    refine le_trans ?_ hst'
    refine mul_le_mul_of_nonneg_right (mul_le_mul_of_nonneg_right ?_ hh) hΛ.le
    have k3 : 1 / alpha ≤ Confining.coupling alpha * alpha := by
      unfold Confining.coupling
      have e : (1 / alpha ^ 2 + 1 + 2 * ((1 - alpha) / alpha ^ 2 + (1 - alpha)) ^ 2 / alpha) * alpha
          = 1 / alpha + (alpha + 2 * ((1 - alpha) / alpha ^ 2 + (1 - alpha)) ^ 2) := by
        field_simp
        ring
      rw [e]
      have : 0 ≤ alpha + 2 * ((1 - alpha) / alpha ^ 2 + (1 - alpha)) ^ 2 := by positivity
      linarith
    have := mul_le_mul_of_nonneg_left k3 (sq_nonneg e)
    rw [mul_one_div] at this
    linarith⟩
  have co : Coasts ν (flatGrad γ) a₀ Λ lo hi scale alpha (1 / (scale ^ 2 * √(2 * lo / scale))) (e ^ 2) m sd π := ⟨T, hα0, hα1, hst',
    fun q => ((sghmcSd_noise hs hα0 he0 (hmass q) (hfloor q.1 q.2)).1).trans (le_of_eq (by ring)),
    fun q => sghmcSd_near hs hα0 he0 hlo (hmlo q.1 q.2) (hfloor q.1 q.2), hinv, hπ2⟩
  have hq : ∀ ω N, (Pb ω N).γ = fun k => γ (batchesAfter B b0 β ω k) := fun ω N => by funext k θ; exact hPb ω N k θ
  have hrun := fun ω N => Momenta.sghmc_chain_evaluated (S ω N) (world ω) ok
      ⟨(Pb ω N).γ, (Pb ω N).c, (Pb ω N).grad_eq, (Pb ω N).cost_eq, (Pb ω N).accepts⟩ alpha scale ha hsc hs (drawsAfter B z0 z ω) (fun _ _ _ => rfl)
      B θ eps0
  simp only [hq, hgen, hsched, heps] at hrun
  choose x cost hcalls hx using hrun
  have hall := fun ω => Momenta.evaluated_all (hx ω)
  set xx : Ω → Nat → ∀ i, Pos size i → ℝ := fun ω k => x ω (k + 1) k with hxx
  set ch : Nat → Ω → Elem (Pos size) → Coord := fun k ω q =>
    sghmcChain alpha scale B eps (fun j => xx ω j q.1 q.2) (fun j => drawsAfter B z0 z ω j q.1 q.2) (θ q.1 q.2) k with hch
  set Y : Nat → Ω → (Elem (Pos size) → ℝ) × (Elem (Pos size) → ℝ) := fun k ω => (fun q => (ch k ω q).pos, fun q => (ch k ω q).mom) with hY
  have hburn : ∀ ω, ∀ k < B, xx ω k = x0 k := fun ω =>
    Momenta.evaluated_unique ((hall ω).2 B) hx0 (fun k hk => by unfold batchesAfter; rw [if_pos hk]) (fun k hk => drawsAfter_lt hk)
      fun k hk => by show Momenta.ordersAfter B o0 o ω k = o0 k; unfold Momenta.ordersAfter; rw [if_pos hk]
  have hend : ∀ ω i p, sghmcChain alpha scale B eps (fun j => xx ω j i p) (fun j => drawsAfter B z0 z ω j i p) (θ i p) B = atEnd i p := fun ω i p =>
    Momenta.sghmcChain_congr' alpha scale B eps (θ i p) B (fun j hj => by rw [hburn ω j hj]) fun j hj => by rw [drawsAfter_lt hj]
  have hY0 : ∀ ω, Y (B + 0) ω = (fun q => (atEnd q.1 q.2).pos, fun q => (atEnd q.1 q.2).mom) := fun ω => by
    simp only [hY, hch, Nat.add_zero, hend ω]
  have hYs : ∀ k ω q, (Y (B + (k + 1)) ω).1 q = (Y (B + k) ω).1 q + (Y (B + (k + 1)) ω).2 q ∧
      (Y (B + (k + 1)) ω).2 q = (1 - alpha) * (Y (B + k) ω).2 q - e ^ 2 * m q * xx ω (B + k) q.1 q.2 + sd q * z k q.1 q.2 ω := fun k ω q => by
    have h1 := Momenta.sghmcChain_after alpha scale hB eps (fun j => xx ω j q.1 q.2) (fun j => drawsAfter B z0 z ω j q.1 q.2) (θ q.1 q.2) k
    simp only [hend, he _ (Nat.le_add_right B k), drawsAfter_add] at h1
    exact h1
  have hgrad : ∀ k ω i, xx ω (B + k) i = γ (β k ω) (mix (SGHMC.sees (o k ω) i) (fun i p => (Y (B + (k + 1)) ω).1 ⟨i, p⟩)
      fun i p => (Y (B + k) ω).1 ⟨i, p⟩) i :=
    fun k ω i => by
      have h1 := (hall ω).2 (B + k + 1) (B + k) (by omega) i
      beta_reduce at h1
      rw [batchesAfter_add] at h1
      rw [show (world ω).order (B + k) = o k ω from Momenta.ordersAfter_add B o0 o ω k] at h1
      exact h1
  have hstep : ∀ k ω, Y (B + (k + 1)) ω = Momenta.stepIn γ m sd (e ^ 2) alpha (SGHMC.sees (o k ω)) (Y (B + k) ω)
      (β k ω, fun q : Elem (Pos size) => z k q.1 q.2 ω) := fun k ω => by
    have h1 : settle (γ (β k ω)) (SGHMC.sees (o k ω)) (fun i p y => (Y (B + k) ω).1 ⟨i, p⟩ + ((1 - alpha) * (Y (B + k) ω).2 ⟨i, p⟩ - e ^ 2 * m ⟨i, p⟩ * y
        + sd ⟨i, p⟩ * z k i p ω)) (fun i p => (Y (B + k) ω).1 ⟨i, p⟩) n = xx ω (B + k) :=
      settle_eq (SGHMC.sees_rank (o k ω)) fun i => by
        rw [hgrad k ω i]
        congr 2
        funext j p
        exact ((hYs k ω ⟨j, p⟩).1).trans (by rw [(hYs k ω ⟨j, p⟩).2])
    have h2 : ∀ q, (Y (B + (k + 1)) ω).2 q = (Momenta.stepIn γ m sd (e ^ 2) alpha (SGHMC.sees (o k ω)) (Y (B + k) ω)
      (β k ω, fun q : Elem (Pos size) => z k q.1 q.2 ω)).2 q := fun q => by
      unfold Momenta.stepIn
      dsimp only
      rw [h1, (hYs k ω q).2]
    refine Prod.ext (funext fun q => ?_) (funext h2)
    rw [(hYs k ω q).1, h2 q]
    rfl
  have hmeas : ∀ k, Measurable[ℱ k] (Y (B + k)) := fun k => by
    induction k with
    | zero =>
      rw [funext hY0]
      exact @measurable_const _ _ _ (ℱ 0) _
    | succ k ih =>
      rw [funext (hstep k)]
      exact Momenta.measurable_in_order hγ.meas m _ _ _ (hR.order k) (ih.mono (hR.mono (Nat.le_succ k)) le_rfl) (hR.step k)
  have hRo : Rolls P ν (flatGrad γ) m sd (e ^ 2) alpha (e ^ 2 * hi * L) ℱ (fun k ω => (β k ω, fun q : Elem (Pos size) => z k q.1 q.2 ω))
      fun k => Y (B + k) := by
    refine ⟨hR.mono, hR.le, hmeas, fun k => (hR.step k).mono (hR.le _) le_rfl, hR.indep, hR.law, fun k ω => funext fun q => (hYs k ω q).1,
      fun k ω => ?_, ?_⟩
    · refine (pi_norm_le_iff_of_nonneg (by positivity)).2 fun q => ?_
      set y : Elem (Pos size) → ℝ := fun r => mix (SGHMC.sees (o k ω) q.1) (fun i p => (Y (B + (k + 1)) ω).1 ⟨i, p⟩)
        (fun i p => (Y (B + k) ω).1 ⟨i, p⟩) r.1 r.2 with hy
      have h1 : xx ω (B + k) q.1 q.2 = flatGrad γ (β k ω) y q := by rw [hgrad k ω q.1]; rfl
      have h2 : ((Y (B + (k + 1)) ω).2 - (hop (flatGrad γ) m sd (e ^ 2) alpha (Y (B + k) ω)
          (β k ω, fun q : Elem (Pos size) => z k q.1 q.2 ω)).2) q
          = e ^ 2 * m q * (flatGrad γ (β k ω) (Y (B + k) ω).1 - flatGrad γ (β k ω) y) q := by
        simp only [Pi.sub_apply]
        rw [(hYs k ω q).2, h1]
        unfold hop kick
        ring
      have h3 : ‖(Y (B + k) ω).1 - y‖ ≤ ‖(Y (B + (k + 1)) ω).2‖ := by
        refine (pi_norm_le_iff_of_nonneg (norm_nonneg _)).2 fun r => ?_
        simp only [Pi.sub_apply, hy]
        unfold mix
        by_cases hr : SGHMC.sees (o k ω) q.1 r.1 = true
        · simp only [hr, if_true]
          rw [norm_sub_rev, (hYs k ω _).1, add_sub_cancel_left]
          exact norm_le_pi_norm (Y (B + (k + 1)) ω).2 r
        · simp only [hr, if_false, Bool.false_eq_true]
          rw [sub_self, norm_zero]
          exact norm_nonneg _
      have h4 := (norm_le_pi_norm (flatGrad γ (β k ω) (Y (B + k) ω).1 - flatGrad γ (β k ω) y) q).trans
        ((hlip _ _ _).trans (mul_le_mul_of_nonneg_left h3 hL))
      have hmq : 0 < m q := hmass q
      rw [h2, norm_mul, Real.norm_of_nonneg (by positivity)]
      calc e ^ 2 * m q * ‖(flatGrad γ (β k ω) (Y (B + k) ω).1 - flatGrad γ (β k ω) y) q‖
          ≤ e ^ 2 * hi * (L * ‖(Y (B + (k + 1)) ω).2‖) :=
            mul_le_mul (mul_le_mul_of_nonneg_left (T.le_hi q) (sq_nonneg e)) h4 (norm_nonneg _) (by positivity)
        _ = _ := by ring
    · simp only [hY0]
      exact integrable_const _
  set size0 : ℝ := ∑ q : Elem (Pos size), (atEnd q.1 q.2).pos ^ 2 + ∑ q : Elem (Pos size), (atEnd q.1 q.2).mom ^ 2 with hsize0
  have hsz0 : 0 ≤ size0 := add_nonneg (Finset.sum_nonneg fun _ _ => sq_nonneg _) (Finset.sum_nonneg fun _ _ => sq_nonneg _)
  have hen : 1 + ∫ ω, total m alpha (Y (B + 0) ω) ∂P ≤ M * (1 + size0) := by
    simp only [hY0, integral_const, probReal_univ, one_smul]
    have h1 := le_size2 (α := alpha) hmass hlo T.lo_le (fun q : Elem (Pos size) => (atEnd q.1 q.2).pos, fun q : Elem (Pos size) => (atEnd q.1 q.2).mom)
    have h2 : Confining.size2 (fun q : Elem (Pos size) => (atEnd q.1 q.2).pos, fun q : Elem (Pos size) => (atEnd q.1 q.2).mom) = size0 := rfl
    rw [h2, div_mul_eq_mul_div, div_le_iff₀ (by positivity)] at h1
    have h3 : total m alpha (fun q : Elem (Pos size) => (atEnd q.1 q.2).pos, fun q : Elem (Pos size) => (atEnd q.1 q.2).mom)
        ≤ (2 + 2 * ((1 - alpha) / alpha) ^ 2) / lo * size0 := by
      rw [div_mul_eq_mul_div, le_div_iff₀ hlo]
      linarith
    have h5 : 0 ≤ (2 + 2 * ((1 - alpha) / alpha) ^ 2) / lo := by positivity
    rw [hM]
    nlinarith
  refine ⟨fun k ω => (Y k ω).1, fun N ω => ⟨cost ω N, ?_⟩, ?_⟩
  · rw [hcalls ω N]
    refine List.map_congr_left fun k hk => ?_
    have hk' : k < N := List.mem_range.1 hk
    have h1 : Momenta.sghmcPath alpha scale B eps (drawsAfter B z0 z ω) (x ω N) θ (k + 1)
        = Momenta.sghmcPath alpha scale B eps (drawsAfter B z0 z ω) (xx ω) θ (k + 1) :=
      Momenta.sghmcPath_congr alpha scale B eps θ (k + 1) (fun j hj => (hall ω).1 N j (by omega)) fun _ _ => rfl
    rw [h1]
    rfl
  · intro posterior start f A hA hf
    obtain ⟨h1, h2⟩ := h co hmild hRo hA hf
    have h0 : C * (1 + ∫ ω, total m alpha (Y (B + 0) ω) ∂P) ≤ start := by
      show _ ≤ C * M * (1 + _)
      rw [mul_assoc]
      exact mul_le_mul_of_nonneg_left hen hC
    have e1 : K * √(e ^ 2 / alpha) = K / √alpha * e := by
      rw [Real.sqrt_div (sq_nonneg e), Real.sqrt_sq he0.le]
      ring
    have hq : e ^ 2 ≤ e ^ 2 / alpha := le_div_self (sq_nonneg e) hα0 hα1
    have hst0 : 0 ≤ start := mul_nonneg (mul_nonneg hC hM0) (by linarith)
    rw [e1] at h1 h2
    refine ⟨fun k => ⟨(h1 k).1, (h1 k).2.trans ?_⟩, fun {D} hD {I} hI => ⟨(h2 hD hI).1, (h2 hD hI).2.trans ?_⟩⟩
    · refine mul_le_mul_of_nonneg_left (add_le_add ?_ le_rfl) hA
      refine mul_le_mul h0 (Real.exp_le_exp.2 (neg_le_neg ?_)) (Real.exp_nonneg _) hst0
      exact mul_le_mul_of_nonneg_right (mul_le_mul_of_nonneg_left hq hl.le) (Nat.cast_nonneg k)
    · have hD0 : 0 ≤ D := (abs_nonneg _).trans (hD 0)
      have hI' : (0 : ℝ) < I.card := by exact_mod_cast hI.card_pos
      refine mul_le_mul_of_nonneg_left (add_le_add ?_ le_rfl) (mul_nonneg hD0 hA)
      have hee : 0 < e ^ 2 := pow_pos he0 2
      exact (div_le_div_of_nonneg_right h0 (mul_pos hI' (div_pos hee hα0)).le).trans
        (div_le_div_of_nonneg_left hst0 (mul_pos hI' hee) (mul_le_mul_of_nonneg_left hq hI'.le))

theorem swell_mild {t : ℝ} (ht : t ≤ 1e-6) (ht0 : 0 ≤ t) :
    Mild (Elem (Pos fun _ : Fin 2 => 1)) (1 / 2) (1 + 3 * Fintype.card (Elem (Pos fun _ : Fin 2 => 1))) (1 / 2) 1 0.5 (t ^ 2 / 0.5) := by
  have hc : Fintype.card (Elem (Pos fun _ : Fin 2 => 1)) = 2 := by simp [Elem, Pos]
  have h2 : t ^ 2 ≤ 1e-12 := (pow_le_pow_left₀ ht0 ht 2).trans (by norm_num)
  have h3 : t ^ 2 / 0.5 ≤ 2e-12 := by rw [div_le_iff₀ (by norm_num)]; norm_num; linarith
  have h4 : 0 ≤ t ^ 2 / 0.5 := by positivity
  have hp : pace (1 / 2) (1 / 2) 0.5 = 1 / 12 := by unfold pace; norm_num
  have hk : sink (1 / 2) (1 / 2) 0.5 = 1 / 96 := by unfold sink; rw [hp]; norm_num
  have hr : stray (Elem (Pos fun _ : Fin 2 => 1)) (1 + 3 * Fintype.card (Elem (Pos fun _ : Fin 2 => 1))) (1 / 2) 1 = 784 := by
    unfold stray; rw [hc]; norm_num
  have hs : scatter (Elem (Pos fun _ : Fin 2 => 1)) (1 / 2) (1 + 3 * Fintype.card (Elem (Pos fun _ : Fin 2 => 1))) (1 / 2) 1 0.5 = 380240 := by
    unfold scatter; rw [hk, hr]; norm_num
  have hg : tug (1 / 2) 1 0.5 = 7.5 := by unfold tug; norm_num
  refine ⟨?_, ?_, ?_, ?_⟩
  · rw [hc]; norm_num; linarith
  · rw [hr]; norm_num; linarith
  · rw [hs, hg, hk]; norm_num; linarith
  · rw [hs, hg, hk]; norm_num; linarith

/-- Two parameters, each of whose gradients depends on both.  The runtime picks the order of each step after looking at the step's data: `σ` if
they are negative, `τ` otherwise.  The mean of every entry is estimated all the same. -/
example (σ τ : SGHMC.Schedule (Fin 2)) : ∃ c K C l : ℝ,
    IsProbabilityMeasure (boltz fun x : Elem (Pos fun _ : Fin 2 => 1) → ℝ => 10 * swells x + c) ∧ 0 < l ∧
    ∀ t : ℝ, 1e-7 ≤ t → t ≤ 1e-6 → ∀ θ : ∀ i, Pos (fun _ : Fin 2 => 1) i → ℝ,
    ∃ (Ω : Type) (_ : MeasurableSpace Ω) (P : Measure Ω) (β : Nat → Ω → ℝ) (z : Nat → ∀ i, Pos (fun _ : Fin 2 => 1) i → Ω → ℝ)
      (X : Nat → Ω → Elem (Pos fun _ : Fin 2 => 1) → ℝ),
      RandomSteps (gaussianReal 0 1) P β z
      ∧ (∀ N ω, ∃ cost : Nat → Fl,
        (calls (asIter (burnInNext (env (streamFeeder t) (SGHMCWorld.graph
            ⟨.fin 10, .fin 0.5, swellFl, fun _ _ => 0, fun k i p => .fin (drawsAfter 1 (fun _ _ _ => 0) z ω k i p),
              Momenta.ordersAfter 1 (fun _ => σ) (fun k ω => if β k ω < 0 then σ else τ) ω⟩) fun _ => true) (1 : Nat) 2)) N
            (init (some (batchesAfter 1 (fun _ => 0) β ω, 0)) () ⟨SGHMC.State.init fun i p => .fin (θ i p), .fin 0, 0⟩)).1
          = (List.range N).map (fun k : Nat =>
              let arrays := List.ofFn fun i => flat fun p => .fin (X (k + 1) ω ⟨i, p⟩)
              .ok ((if (k : Int) < (1 : Nat) then .many arrays else unravel arrays), cost k)))
      ∧ ∃ R, ∀ q k, |∫ ω, X (1 + k) ω q ∂P - ∫ x, x q ∂boltz fun x : Elem (Pos fun _ : Fin 2 => 1) → ℝ => 10 * swells x + c|
          ≤ C * R * Real.exp (-(l * t ^ 2 * k)) + K * t := by
  have : Nonempty (Elem (Pos fun _ : Fin 2 => 1)) := ⟨⟨0, (0 : Fin 1)⟩⟩
  obtain ⟨c, K, C, l, hp, hK, hC, hl, h⟩ := C144_sghmc_orders (swell_confining fun _ : Fin 2 => 1) (by positivity) swell_lip swells_smooth swell_mean
    10 0.5 (by norm_num) (by norm_num) (by norm_num) (lo := 1 / 2) (hi := 1) (by norm_num) (by norm_num)
  refine ⟨c, K, C, l, hp, hl, fun t ht0 ht1 θ => ?_⟩
  have ht : 0 < t := lt_of_lt_of_le (by norm_num) ht0
  have hsq : t ^ 2 ≤ 1e-12 := (pow_le_pow_left₀ ht.le ht1 2).trans (by norm_num)
  have hsq0 : 1e-14 ≤ t ^ 2 := le_trans (by norm_num) (pow_le_pow_left₀ (by norm_num) ht0 2)
  replace h := @h t ht (by linarith) (by norm_num; linarith) (swell_mild ht1 ht.le)
  obtain ⟨Ω, mΩ, P, ζ, h1, h2, h3, h4⟩ := exists_iid Nat ((gaussianReal 0 1).prod (Measure.pi fun _ : Elem (Pos fun _ : Fin 2 => 1) => gaussianReal 0 1))
  have hR : RandomSteps (gaussianReal 0 1) P (fun k ω => (ζ k ω).1) (fun k i p ω => (ζ k ω).2 ⟨i, p⟩) :=
    ⟨h4, fun k => (h1 k).fst, fun k i p => (measurable_pi_apply _).comp (h1 k).snd, h3, fun k => (h2 k).map_eq⟩
  have hc : ∀ k, MeasurableSpace.comap (ζ k) inferInstance ≤ mΩ := fun k => (h1 k).comap_le
  have hζ : ∀ k, Measurable[⨆ j ∈ {j | j < k + 1}, MeasurableSpace.comap (ζ j) inferInstance] (ζ k) := fun k =>
    Measurable.mono (comap_measurable (ζ k)) (le_iSup₂_of_le k (Nat.lt_succ_self k) le_rfl) le_rfl
  have hun : Momenta.Unforeseen (gaussianReal 0 1) P (fun k => ⨆ j ∈ {j | j < k}, MeasurableSpace.comap (ζ j) inferInstance) (fun k ω => (ζ k ω).1)
      (fun k i p ω => (ζ k ω).2 ⟨i, p⟩) (fun k ω => if (ζ k ω).1 < 0 then σ else τ) := by
    refine ⟨h4, fun k k' hk => ?_, fun k => iSup₂_le fun j _ => hc j, hζ, fun k A => ?_, fun k => ?_, fun k => (h2 k).map_eq⟩
    · exact biSup_mono fun j hj => lt_of_lt_of_le hj hk
    · have hneg : MeasurableSet[⨆ j ∈ {j | j < k + 1}, MeasurableSpace.comap (ζ j) inferInstance] {ω | (ζ k ω).1 < 0} :=
        (measurable_fst.comp (hζ k)) measurableSet_Iio
      have e : {ω | (if (ζ k ω).1 < 0 then σ else τ) ∈ A} = ({ω | (ζ k ω).1 < 0} ∩ {_ω | σ ∈ A}) ∪ ({ω | (ζ k ω).1 < 0}ᶜ ∩ {_ω | τ ∈ A}) := by
        ext ω
        by_cases h : (ζ k ω).1 < 0 <;> simp [h]
      rw [e]
      exact (hneg.inter (@MeasurableSet.const _ (_) _)).union (hneg.compl.inter (@MeasurableSet.const _ (_) _))
    · have h5 := indep_iSup_of_disjoint hc h3 (S := {j | j < k}) (T := {k}) (by simp)
      simpa using h5
  obtain ⟨x0, -, -, hx0⟩ := Momenta.sghmc_chain_evaluated (size := fun _ : Fin 2 => 1) (streamScript t (fun _ => 0) 1)
    ⟨.fin 10, .fin 0.5, swellFl, fun _ _ => 0, fun _ _ _ => .fin 0, fun _ => σ⟩ (fun _ => true) (swellProblem t (fun _ => 0) 1) 0.5 10 rfl rfl (by norm_num)
    (fun _ _ _ => 0) (fun _ _ _ => rfl) (1 : Nat) θ (.fin 0)
  have hmass : ∀ i p, (sghmcChain 0.5 10 (1 : Nat) (fun _ => t) (fun j => x0 j i p) (fun _ => 0) (θ i p) 1).mass = 1 / (1 + 3e-16) := by
    intro i p
    simp only [sghmcChain, sghmcStep, Coord.start, Coord.massUsed, after_false Nat.zero_lt_one, Bool.false_eq_true, if_false, Real.sqrt_one]
  obtain ⟨X, hX, hb⟩ := h (F := streamFeeder t) ⟨.fin 10, .fin 0.5, swellFl, fun _ _ => 0, fun _ _ _ => 0, fun _ => σ⟩ (fun _ => true) P
    (fun k => ⨆ j ∈ {j | j < k}, MeasurableSpace.comap (ζ j) inferInstance)
    (fun ω => streamScript t (batchesAfter 1 (fun _ => 0) (fun k ω => (ζ k ω).1) ω))
    (fun ω => swellProblem t (batchesAfter 1 (fun _ => 0) (fun k ω => (ζ k ω).1) ω))
    (fun ω => some (batchesAfter 1 (fun _ => 0) (fun k ω => (ζ k ω).1) ω, 0)) () (fun _ => t) (fun _ => 0) (fun k ω => (ζ k ω).1) 1
    (fun _ _ _ => 0) (fun k i p ω => (ζ k ω).2 ⟨i, p⟩) (fun _ => σ) (fun k ω => if (ζ k ω).1 < 0 then σ else τ) θ (.fin 0) x0
    (fun _ _ => rfl) (fun _ _ => rfl) (fun _ _ => rfl)
    (fun _ _ _ _ => rfl) hun rfl rfl one_pos (fun _ _ => rfl) hx0 (fun i p => le_of_le_of_eq (by norm_num) (hmass i p).symm)
    (fun i p => (hmass i p).le.trans (by norm_num)) (fun i p => by
      beta_reduce
      rw [hmass i p]
      have h2 : (0.9 : ℝ) ≤ 1 / (1 + 3e-16) := by norm_num
      have h3 : 2 * (t ^ 2 / 10) * 0.5 * 0.9 ≤ 2 * (t ^ 2 / 10) * 0.5 * (1 / (1 + 3e-16)) := mul_le_mul_of_nonneg_left h2 (by positivity)
      nlinarith)
  set d : Elem (Pos fun _ : Fin 2 => 1) → Coord := fun q =>
    sghmcChain 0.5 10 (1 : Nat) (fun _ => t) (fun j => x0 j q.1 q.2) (fun _ => 0) (θ q.1 q.2) 1
  refine ⟨Ω, mΩ, P, _, _, X, hR, hX, 1 + (∑ q, (d q).pos ^ 2 + ∑ q, (d q).mom ^ 2), fun q k => ?_⟩
  have h5 := ((hb (f := fun x => x q) (A := 1) zero_le_one (fun x y => by rw [one_mul]; exact norm_le_pi_norm (x - y) q)).1 k).2
  rw [one_mul] at h5
  exact h5

end PySGMCMC.Chain
