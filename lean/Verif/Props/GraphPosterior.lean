import Verif.Props.Gradients
import Verif.Props.SghmcOrders
import Verif.Lemmas.BNNCostGraph

/-!
# C147: samplers with a cost the user wrote sample its posterior

The minibatches are drawn independently from finitely many possible ones, as `generate_batches` does.  The density that is sampled is that of the
cost averaged over the minibatches.
-/

namespace PySGMCMC.Gradients
open TensorUtils Recipe Chain SamplerBase Spec MeasureTheory ProbabilityTheory Contraction Invariance Harris Langevin Confining

/-- If the partial derivatives of a differentiable function are continuous, it is continuously differentiable. -/
theorem contDiff_of_partials {J : Type} [Fintype J] [DecidableEq J] {f : (J → ℝ) → ℝ} (hf : Differentiable ℝ f)
    (hc : ∀ q, Continuous fun x => partialD f q x) : ContDiff ℝ 1 f := by
  rw [contDiff_one_iff_fderiv]
  refine ⟨hf, ?_⟩
  have e : fderiv ℝ f = fun x => ∑ q, (partialD f q x) • (ContinuousLinearMap.proj q : (J → ℝ) →L[ℝ] ℝ) := by
    funext x
    ext y
    rw [_root_.sum_apply]
    conv_lhs => rw [show y = ∑ q, y q • (Pi.single q 1 : J → ℝ) from by
      funext j; simp [Finset.sum_apply, Pi.single_apply]]
    rw [map_sum]
    refine Finset.sum_congr rfl fun q _ => ?_
    rw [map_smul]
    show y q * partialD f q x = partialD f q x * y q
    ring
  rw [e]
  exact continuous_finsetSum _ fun q _ => (hc q).smul continuous_const

section
variable {n : Nat} {size : Fin n → Nat} {ctx : List Nat} {Bt : Type} [Fintype Bt] [MeasurableSpace Bt] [MeasurableSingletonClass Bt]

/-- The cost averaged over the minibatches. -/
noncomputable def meanCost (T : Graph size (Nat → Option Arr) Fl ctx) (cost : Ref ctx 1) (ν : Measure Bt) (feeds : Bt → Nat → Option Arr) :
    Point size → ℝ := fun x => ∑ β, ν.real {β} * T.costAt cost (feeds β) x

/-- A cost function that builds the graph `T`, for minibatches `feeds β` with law `ν`: it is computed from all parameters by operations that are
differentiable everywhere, its derivatives are Lipschitz continuous, and on average over the minibatches it pulls inwards at large distances. -/
structure Samplable (T : Graph size (Nat → Option Arr) Fl ctx) (cost : Ref ctx 1) (ν : Measure Bt) (feeds : Bt → Nat → Option Arr) (L a b : ℝ) : Prop where
  uses : ∀ i, T.uses 1 cost i
  sound : ∀ β θ, T.Sound (feeds β) θ
  nonneg : 0 ≤ L
  lip : ∀ β q x x', |partialD (T.costAt cost (feeds β)) q x - partialD (T.costAt cost (feeds β)) q x'| ≤ L * ‖x - x'‖
  pos : 0 < a
  slack : 0 ≤ b
  inward : ∀ x, a * ∑ q, x q ^ 2 - b ≤ ∑ q, x q * partialD (meanCost T cost ν feeds) q x

/-- The partial derivatives on a minibatch. -/
noncomputable def batchGrad (T : Graph size (Nat → Option Arr) Fl ctx) (cost : Ref ctx 1) (feeds : Bt → Nat → Option Arr) (β : Bt)
    (θ : ∀ i, Pos size i → ℝ) (i : Fin n) (p : Pos size i) : ℝ := partialD (T.costAt cost (feeds β)) ⟨i, p⟩ fun q => θ q.1 q.2

namespace Samplable
variable {T : Graph size (Nat → Option Arr) Fl ctx} {cost : Ref ctx 1} {ν : Measure Bt} [IsProbabilityMeasure ν] {feeds : Bt → Nat → Option Arr} {L a b : ℝ}
  (h : Samplable T cost ν feeds L a b)
include h

theorem diff (β : Bt) : Differentiable ℝ (T.costAt cost (feeds β)) := fun x => (C143_gradients T cost (x := x) (h.sound β _)).1

theorem cont (β : Bt) (q : Elem (Pos size)) : Continuous fun x => partialD (T.costAt cost (feeds β)) q x :=
  (LipschitzWith.of_dist_le_mul (K := ⟨L, h.nonneg⟩) fun x y => by
    rw [Real.dist_eq, dist_eq_norm]
    exact h.lip β q x y).continuous

theorem partial_mean (q : Elem (Pos size)) (x : Point size) :
    partialD (meanCost T cost ν feeds) q x = ∑ β, ν.real {β} * partialD (T.costAt cost (feeds β)) q x := by
  have hF : HasFDerivAt (meanCost T cost ν feeds) (∑ β, ν.real {β} • fderiv ℝ (T.costAt cost (feeds β)) x) x :=
    HasFDerivAt.fun_sum fun β _ => (h.diff β x).hasFDerivAt.const_mul _
  unfold partialD
  rw [hF.fderiv, _root_.sum_apply]
  rfl

theorem smooth : ContDiff ℝ 1 (meanCost T cost ν feeds) := by
  refine contDiff_of_partials (fun x => ?_) fun q => ?_
  · exact DifferentiableAt.fun_sum fun β _ => (h.diff β x).const_mul _
  · simp only [h.partial_mean]
    exact continuous_finsetSum _ fun β _ => continuous_const.mul (h.cont β q)

omit h in
theorem flat_eq (β : Bt) (x : Point size) (q : Elem (Pos size)) :
    flatGrad (batchGrad T cost feeds) β x q = partialD (T.costAt cost (feeds β)) q x := rfl

theorem lipschitz (β : Bt) (x x' : Elem (Pos size) → ℝ) :
    ‖flatGrad (batchGrad T cost feeds) β x - flatGrad (batchGrad T cost feeds) β x'‖ ≤ L * ‖x - x'‖ := by
  rw [pi_norm_le_iff_of_nonneg (mul_nonneg h.nonneg (norm_nonneg _))]
  exact fun q => h.lip β q x x'

theorem mean (x : Elem (Pos size) → ℝ) (q : Elem (Pos size)) :
    ∫ β, flatGrad (batchGrad T cost feeds) β x q ∂ν = partialD (meanCost T cost ν feeds) q x := by
  rw [h.partial_mean, integral_fintype .of_finite]
  rfl

theorem confining : Confining ν (flatGrad (batchGrad T cost feeds)) a b (1 + 2 * Fintype.card (Elem (Pos size)) * L ^ 2)
    fun β => ∑ q, 2 * partialD (T.costAt cost (feeds β)) q 0 ^ 2 := by
  refine ⟨measurable_from_prod_countable_right fun β => measurable_pi_iff.2 fun q => (h.cont β q).measurable, fun β x => ?_,
    fun β => Finset.sum_nonneg fun q _ => by positivity, .of_finite, h.pos, h.slack, by positivity, fun x => ?_⟩
  · set s := ∑ q : Elem (Pos size), x q ^ 2 with hs
    have hs0 : 0 ≤ s := Finset.sum_nonneg fun _ _ => sq_nonneg _
    have hn : ‖x‖ ^ 2 ≤ s := by
      have h1 : ‖x‖ ≤ √s := (pi_norm_le_iff_of_nonneg (Real.sqrt_nonneg _)).2 fun q => by
        rw [Real.norm_eq_abs, ← Real.sqrt_sq_eq_abs]
        exact Real.sqrt_le_sqrt (Finset.single_le_sum (f := fun q => x q ^ 2) (fun _ _ => sq_nonneg _) (Finset.mem_univ q))
      calc ‖x‖ ^ 2 ≤ √s ^ 2 := pow_le_pow_left₀ (norm_nonneg _) h1 2
        _ = s := Real.sq_sqrt hs0
    have hq : ∀ q, flatGrad (batchGrad T cost feeds) β x q ^ 2 ≤ 2 * partialD (T.costAt cost (feeds β)) q 0 ^ 2 + 2 * L ^ 2 * s := fun q => by
      rw [flat_eq]
      set u := partialD (T.costAt cost (feeds β)) q x
      set v := partialD (T.costAt cost (feeds β)) q 0
      have h1 : |u - v| ≤ L * ‖x‖ := by simpa using h.lip β q x 0
      have h2 : (u - v) ^ 2 ≤ L ^ 2 * s := by
        have h3 : (u - v) ^ 2 ≤ (L * ‖x‖) ^ 2 := by
          rw [← sq_abs (u - v)]
          exact pow_le_pow_left₀ (abs_nonneg _) h1 2
        rw [mul_pow] at h3
        exact h3.trans (mul_le_mul_of_nonneg_left hn (sq_nonneg _))
      nlinarith [sq_nonneg (u - 2 * v)]
    set g := ∑ q : Elem (Pos size), 2 * partialD (T.costAt cost (feeds β)) q 0 ^ 2 with hg
    have hg0 : 0 ≤ g := Finset.sum_nonneg fun q _ => by positivity
    have h4 : ∑ q, flatGrad (batchGrad T cost feeds) β x q ^ 2 ≤ g + Fintype.card (Elem (Pos size)) * (2 * L ^ 2 * s) := by
      refine (Finset.sum_le_sum fun q _ => hq q).trans (le_of_eq ?_)
      rw [Finset.sum_add_distrib, Finset.sum_const, Finset.card_univ, nsmul_eq_mul]
    have h5 : 0 ≤ 2 * (Fintype.card (Elem (Pos size)) : ℝ) * L ^ 2 * g := by positivity
    nlinarith
  · rw [integral_finsetSum _ fun q _ => .of_finite]
    simp only [integral_const_mul, h.mean]
    exact h.inward x

end Samplable

/-- The problem a sampler solves if step `k` uses the minibatch `βs k`. -/
noncomputable def batchProblem {F : Feeder} {N : Nat} (S : Script F N) (T : Graph size (Nat → Option Arr) Fl ctx) (cost : Ref ctx 1)
    (feeds : Bt → Nat → Option Arr) (hu : ∀ i, T.uses 1 cost i) (h : ∀ β θ, T.Sound (feeds β) θ) (βs : Nat → Bt)
    (hfed : ∀ k < N, fed (S.data k) = feeds (βs k)) :
    Problem S (fun d => gradOf T cost (fed d)) (fun d θ => T.eval (fed d) θ 1 cost 0) (fun _ => true) :=
  let G := graphProblem S T cost hu fun k hk θ => by rw [hfed k hk]; exact h _ θ
  { γ := fun k => batchGrad T cost feeds (βs k)
    c := G.c
    grad_eq := fun k hk d hd θ i p => by
      rw [G.grad_eq k hk d hd θ i p]
      show Fl.fin (partialD (T.costAt cost (fed (S.data k))) ⟨i, p⟩ fun q => θ q.1 q.2) = _
      rw [hfed k hk]
      rfl
    cost_eq := G.cost_eq
    accepts := G.accepts }

/-- **C147** SGLD with a cost function that builds a graph, on independently drawn minibatches: expectations over samples approach those of the
density proportional to `exp(-(scale_grad + 3e-16) * mean cost)`, and so do averages over a run. -/
theorem C147_sgld_posterior [Nonempty (Elem (Pos size))] {ν : Measure Bt} [IsProbabilityMeasure ν] {T : Graph size (Nat → Option Arr) Fl ctx} {cost : Ref ctx 1}
    {feeds : Bt → Nat → Option Arr} {L a₀ b₀ lo hi : ℝ} (h : Samplable T cost ν feeds L a₀ b₀) (scale : ℝ) (hs : 0 < scale) (hlo : 0 < lo) (hlh : lo ≤ hi) :
    ∃ c K C l t₁ : ℝ, IsProbabilityMeasure (boltz fun x => (scale + 3e-16) * meanCost T cost ν feeds x + c) ∧ 0 ≤ K ∧ 0 ≤ C ∧ 0 < l ∧ 0 < t₁ ∧
    ∀ {F : Feeder} {Ω : Type} [MeasurableSpace Ω] (P : Measure Ω) (ℱ : Nat → MeasurableSpace Ω)
      (S : Ω → ∀ N, Script F N) (gen : Ω → Option F.Batch) (sched : F.Sched) (eps : Nat → ℝ)
      (b0 : Nat → Bt) (β : Nat → Ω → Bt) (a : ℝ) (B : Nat) (e : ℝ) (z0 : Nat → ∀ i, Pos size i → ℝ) (z : Nat → ∀ i, Pos size i → Ω → ℝ)
      (o0 : Nat → SGLD.Schedule (Fin n)) (o : Nat → Ω → SGLD.Schedule (Fin n)) (θ : ∀ i, Pos size i → ℝ) (eps0 : Fl)
      (x0 : Nat → ∀ i, Pos size i → ℝ),
      (∀ ω N, (S ω N).batch 0 = gen ω) → (∀ ω N, (S ω N).sched 0 = sched) → (∀ ω N, (S ω N).eps = eps) →
      (∀ ω N, ∀ k < N, fed ((S ω N).data k) = feeds (batchesAfter B b0 β ω k)) → Unforeseen ν P ℱ β z o →
      0 < B → (∀ k, B ≤ k → eps k = e) → 0 < e * a → e * a ≤ t₁ →
      let world : Ω → SGLDWorld size := fun ω => ⟨.fin scale, .fin a, fun d => gradOf T cost (fed d), fun d θ => T.eval (fed d) θ 1 cost 0,
        fun k i p => .fin (drawsAfter B z0 z ω k i p), ordersAfter B o0 o ω⟩
      Evaluated a scale B eps (fun k => batchGrad T cost feeds (b0 k)) z0 o0 θ B x0 →
      let atEnd := fun i p => sgldChain a scale B eps (fun j => x0 j i p) (fun j => z0 j i p) (θ i p) B
      (∀ i p, lo ≤ (atEnd i p).mass) → (∀ i p, (atEnd i p).mass ≤ hi) →
      ∃ X : Nat → Ω → Elem (Pos size) → ℝ,
        (∀ N ω, ∃ cost : Nat → Fl,
          (calls (asIter (burnInNext (env F (world ω).graph fun _ => true) B n)) N
              (init (gen ω) sched ⟨SGLD.State.init fun i p => .fin (θ i p), eps0, 0⟩)).1
            = (List.range N).map (fun k : Nat =>
                let arrays := List.ofFn fun i => flat fun p => .fin (X (k + 1) ω ⟨i, p⟩)
                .ok ((if (k : Int) < B then .many arrays else unravel arrays), cost k)))
        ∧ let posterior := boltz fun x => (scale + 3e-16) * meanCost T cost ν feeds x + c
          let start := C * (1 + ‖fun q : Elem (Pos size) => (atEnd q.1 q.2).pos‖ ^ 2)
          ∀ {f : (Elem (Pos size) → ℝ) → ℝ} {A : ℝ}, 0 ≤ A → (∀ x y, |f x - f y| ≤ A * ‖x - y‖) →
            (∀ k, Integrable (fun ω => f (X (B + k) ω)) P ∧
              |∫ ω, f (X (B + k) ω) ∂P - ∫ x, f x ∂posterior| ≤ A * (start * Real.exp (-(l * (e * a) * k)) + K * √(e * a)))
            ∧ ∀ {D : ℝ}, (∀ x, |f x| ≤ D) → ∀ {I : Finset Nat}, I.Nonempty →
              Integrable (fun ω => ((∑ k ∈ I, f (X (B + k) ω)) / I.card - ∫ x, f x ∂posterior) ^ 2) P ∧
              ∫ ω, ((∑ k ∈ I, f (X (B + k) ω)) / I.card - ∫ x, f x ∂posterior) ^ 2 ∂P
                ≤ D * A * (start / (I.card * (e * a)) + K * √(e * a)) := by
  obtain ⟨c, K, C, l, t₁, hp, hK, hC, hl, ht₁, hall⟩ := C142_sgld_orders h.confining h.nonneg h.lipschitz h.smooth h.mean scale hs hlo hlh
  refine ⟨c, K, C, l, t₁, hp, hK, hC, hl, ht₁, ?_⟩
  intro F Ω _ P ℱ S gen sched eps b0 β a B e z0 z o0 o θ eps0 x0 hgen hsched heps hfed hun hB he ht htt world hx0 atEnd hmlo hmhi
  exact hall ⟨.fin scale, .fin a, fun d => gradOf T cost (fed d), fun d θ => T.eval (fed d) θ 1 cost 0, fun _ _ _ => 0, o0⟩ (fun _ => true) P ℱ S
    (fun ω N => batchProblem (S ω N) T cost feeds h.uses h.sound (batchesAfter B b0 β ω) (hfed ω N)) gen sched eps b0 β a B e z0 z o0 o θ eps0 x0
    hgen hsched heps (fun _ _ _ _ => rfl) hun rfl rfl hB he ht htt hx0 hmlo hmhi

/-- **C147** The same for SGHMC, with the density proportional to `exp(-scale_grad * mean cost)`. -/
theorem C147_sghmc_posterior [Nonempty (Elem (Pos size))] {ν : Measure Bt} [IsProbabilityMeasure ν] {T : Graph size (Nat → Option Arr) Fl ctx} {cost : Ref ctx 1}
    {feeds : Bt → Nat → Option Arr} {L a₀ b₀ lo hi : ℝ} (h : Samplable T cost ν feeds L a₀ b₀) (scale alpha : ℝ) (hs : 0 < scale) (hα0 : 0 < alpha)
    (hα1 : alpha ≤ 1) (hlo : 0 < lo) (hlh : lo ≤ hi) :
    ∃ c K C l : ℝ, IsProbabilityMeasure (boltz fun x => scale * meanCost T cost ν feeds x + c) ∧ 0 ≤ K ∧ 0 ≤ C ∧ 0 < l ∧
    ∀ (e : ℝ), 0 < e → e ^ 2 ≤ alpha →
    e ^ 2 * (1 / alpha ^ 2 + 1 + 2 * ((1 - alpha) / alpha ^ 2 + (1 - alpha)) ^ 2 / alpha) * alpha * hi
      * (1 + 2 * Fintype.card (Elem (Pos size)) * L ^ 2) ≤ a₀ →
    Mild (Elem (Pos size)) a₀ L lo hi alpha (e ^ 2 / alpha) →
    ∀ {F : Feeder} {Ω : Type} [MeasurableSpace Ω] (P : Measure Ω) (ℱ : Nat → MeasurableSpace Ω)
      (S : Ω → ∀ N, Script F N) (gen : Ω → Option F.Batch) (sched : F.Sched) (eps : Nat → ℝ)
      (b0 : Nat → Bt) (β : Nat → Ω → Bt) (B : Nat) (z0 : Nat → ∀ i, Pos size i → ℝ) (z : Nat → ∀ i, Pos size i → Ω → ℝ)
      (o0 : Nat → SGHMC.Schedule (Fin n)) (o : Nat → Ω → SGHMC.Schedule (Fin n)) (θ : ∀ i, Pos size i → ℝ) (eps0 : Fl)
      (x0 : Nat → ∀ i, Pos size i → ℝ),
      (∀ ω N, (S ω N).batch 0 = gen ω) → (∀ ω N, (S ω N).sched 0 = sched) → (∀ ω N, (S ω N).eps = eps) →
      (∀ ω N, ∀ k < N, fed ((S ω N).data k) = feeds (batchesAfter B b0 β ω k)) → Momenta.Unforeseen ν P ℱ β z o →
      0 < B → (∀ k, B ≤ k → eps k = e) →
      let world : Ω → SGHMCWorld size := fun ω => ⟨.fin scale, .fin alpha, fun d => gradOf T cost (fed d), fun d θ => T.eval (fed d) θ 1 cost 0,
        fun k i p => .fin (drawsAfter B z0 z ω k i p), Momenta.ordersAfter B o0 o ω⟩
      Momenta.Evaluated alpha scale B eps (fun k => batchGrad T cost feeds (b0 k)) z0 o0 θ B x0 →
      let atEnd := fun i p => sghmcChain alpha scale B eps (fun j => x0 j i p) (fun j => z0 j i p) (θ i p) B
      (∀ i p, lo ≤ (atEnd i p).mass) → (∀ i p, (atEnd i p).mass ≤ hi) →
      (∀ i p, 1e-16 ≤ 2 * (e ^ 2 / scale) * alpha * (atEnd i p).mass - (e ^ 2 / scale) ^ 2) →
      ∃ X : Nat → Ω → Elem (Pos size) → ℝ,
        (∀ N ω, ∃ cost : Nat → Fl,
          (calls (asIter (burnInNext (env F (world ω).graph fun _ => true) B n)) N
              (init (gen ω) sched ⟨SGHMC.State.init fun i p => .fin (θ i p), eps0, 0⟩)).1
            = (List.range N).map (fun k : Nat =>
                let arrays := List.ofFn fun i => flat fun p => .fin (X (k + 1) ω ⟨i, p⟩)
                .ok ((if (k : Int) < B then .many arrays else unravel arrays), cost k)))
        ∧ let posterior := boltz fun x => scale * meanCost T cost ν feeds x + c
          let start := C * (1 + (∑ q : Elem (Pos size), (atEnd q.1 q.2).pos ^ 2 + ∑ q : Elem (Pos size), (atEnd q.1 q.2).mom ^ 2))
          ∀ {f : (Elem (Pos size) → ℝ) → ℝ} {A : ℝ}, 0 ≤ A → (∀ x y, |f x - f y| ≤ A * ‖x - y‖) →
            (∀ k, Integrable (fun ω => f (X (B + k) ω)) P ∧
              |∫ ω, f (X (B + k) ω) ∂P - ∫ x, f x ∂posterior| ≤ A * (start * Real.exp (-(l * e ^ 2 * k)) + K * e))
            ∧ ∀ {D : ℝ}, (∀ x, |f x| ≤ D) → ∀ {I : Finset Nat}, I.Nonempty →
              Integrable (fun ω => ((∑ k ∈ I, f (X (B + k) ω)) / I.card - ∫ x, f x ∂posterior) ^ 2) P ∧
              ∫ ω, ((∑ k ∈ I, f (X (B + k) ω)) / I.card - ∫ x, f x ∂posterior) ^ 2 ∂P
                ≤ D * A * (start / (I.card * e ^ 2) + K * e) := by
  obtain ⟨c, K, C, l, hp, hK, hC, hl, hall⟩ := C144_sghmc_orders h.confining h.nonneg h.lipschitz h.smooth h.mean scale alpha hs hα0 hα1 hlo hlh
  refine ⟨c, K, C, l, hp, hK, hC, hl, ?_⟩
  intro e he0 he1 hst hmild F Ω _ P ℱ S gen sched eps b0 β B z0 z o0 o θ eps0 x0 hgen hsched heps hfed hun hB he world hx0 atEnd hmlo hmhi hfloor
  exact hall e he0 he1 hst hmild ⟨.fin scale, .fin alpha, fun d => gradOf T cost (fed d), fun d θ => T.eval (fed d) θ 1 cost 0, fun _ _ _ => 0, o0⟩
    (fun _ => true) P ℱ S
    (fun ω N => batchProblem (S ω N) T cost feeds h.uses h.sound (batchesAfter B b0 β ω) (hfed ω N)) gen sched eps b0 β B z0 z o0 o θ eps0 x0
    hgen hsched heps (fun _ _ _ _ => rfl) hun rfl rfl hB he hx0 hmlo hmhi hfloor

end

/-! ## Bayesian linear regression -/

section regression
variable {s d : Nat}

/-- Weights and bias. -/
abbrev wb (d : Nat) : Fin 2 → Nat := ![d, 1]

/-- A minibatch of `s` rows in placeholder 0 and its labels in placeholder 1. -/
noncomputable def rowsFeed (X : Fin s → Fin d → ℝ) (y : Fin s → ℝ) : Nat → Option Arr
  | 0 => some (List.ofFn fun t : Fin (s * d) => .fin (X (BNNSystem.rowOf t) (BNNSystem.colOf t)))
  | 1 => some (List.ofFn fun r => .fin (y r))
  | _ => none

/-- What is fed for a placeholder. -/
noncomputable def readFeed (p : Nat) {m : Nat} (feed : Nat → Option Arr) (t : Fin m) : Fl := match feed p with
  | some l => l.getD t .nan
  | none => .nan

theorem read_rows (X : Fin s → Fin d → ℝ) (y : Fin s → ℝ) (t : Fin (s * d)) :
    readFeed 0 (rowsFeed X y) t = .fin (X (BNNSystem.rowOf t) (BNNSystem.colOf t)) := by
  show (List.ofFn fun t : Fin (s * d) => Fl.fin (X (BNNSystem.rowOf t) (BNNSystem.colOf t))).getD t .nan = _
  rw [List.getD_eq_getElem _ _ (by simp)]
  simp

theorem read_labels (X : Fin s → Fin d → ℝ) (y : Fin s → ℝ) (r : Fin s) : readFeed 1 (rowsFeed X y) r = .fin (y r) := by
  show (List.ofFn fun r => Fl.fin (y r)).getD r .nan = _
  rw [List.getD_eq_getElem _ _ (by simp)]
  simp

/-- The residuals `X w + b - y`. -/
noncomputable def residuals (s d : Nat) : Graph (wb d) (Nat → Option Arr) Fl [s, s, s, s, s, s * d, s * d, s * d, 1, d] :=
  ((((((((((Graph.nil : Graph (wb d) (Nat → Option Arr) Fl []).snoc (.param 0 : Op (wb d) _ Fl [] d)).snoc (.param 1 : Op (wb d) _ Fl [d] 1)).snoc
    (.data (readFeed 0))).snoc (.gather BNNSystem.colOf (.there (.there .here)))).snoc (.mul (.there .here) .here)).snoc (.reduce BNNSystem.rowOf .here)).snoc
    (.gather (fun _ => (0 : Fin 1)) (.there (.there (.there (.there .here)))))).snoc (.add (.there .here) .here)).snoc
    (.data (readFeed 1))).snoc (.sub (.there .here) .here)

/-- The cost `c * ∑ (X w + b - y)² + lam * (|w|² + b²)`. -/
noncomputable def ridge (s d : Nat) (c lam : ℝ) : Graph (wb d) (Nat → Option Arr) Fl
    [1, 1, 1, 1, 1, d, 1, 1, s, s, s, s, s, s, s * d, s * d, s * d, 1, d] :=
  ((((((((residuals s d).snoc (.map (fun v => v * v) (fun v => v + v) .here)).snoc (.reduce (fun _ => (0 : Fin 1)) .here)).snoc
    (.map (fun v => .fin c * v) (fun _ => .fin c) .here)).snoc
    (.map (fun v => v * v) (fun v => v + v)
      (.there (.there (.there (.there (.there (.there (.there (.there (.there (.there (.there (.there .here)))))))))))))).snoc
    (.reduce (fun _ => (0 : Fin 1)) .here)).snoc
    (.map (fun v => v * v) (fun v => v + v)
      (.there (.there (.there (.there (.there (.there (.there (.there (.there (.there (.there (.there (.there .here))))))))))))))).snoc
    (.add (.there .here) .here)).snoc (.map (fun v => .fin lam * v) (fun _ => .fin lam) .here) |>.snoc
    (.add .here (.there (.there (.there (.there (.there .here))))))

theorem ridge_uses (c lam : ℝ) (i : Fin 2) : (ridge s d c lam).uses 1 .here i := by
  fin_cases i
  · exact .inl (.inl rfl)
  · exact .inl (.inr rfl)

theorem ridge_sound (c lam : ℝ) (X : Fin s → Fin d → ℝ) (y : Fin s → ℝ) (θ : ∀ i, Fin (wb d i) → ℝ) : (ridge s d c lam).Sound (rowsFeed X y) θ := by
  have h1 : ∀ y : ℝ, HasDerivAt (fun y : ℝ => (Fl.fin y * Fl.fin y).val) (y + y) y := fun y => by
    have := (hasDerivAt_id y).mul (hasDerivAt_id y)
    simp only [id, mul_one, one_mul] at this
    exact this
  have h2 : ∀ c y : ℝ, HasDerivAt (fun y : ℝ => (Fl.fin c * Fl.fin y).val) c y := fun c y => by
    have := (hasDerivAt_id y).const_mul c
    simp only [id, mul_one] at this
    exact this
  refine ⟨⟨⟨⟨⟨⟨⟨⟨⟨⟨⟨⟨⟨⟨⟨⟨⟨⟨⟨trivial, trivial⟩, trivial⟩, fun l => ⟨_, read_rows X y l⟩⟩, trivial⟩, trivial⟩, trivial⟩, trivial⟩, trivial⟩,
    fun l => ⟨_, read_labels X y l⟩⟩, trivial⟩, fun l => ⟨⟨_, rfl⟩, ⟨_, rfl⟩, h1 _⟩⟩, trivial⟩, fun l => ⟨⟨_, rfl⟩, ⟨_, rfl⟩, h2 c _⟩⟩,
    fun l => ⟨⟨_, rfl⟩, ⟨_, rfl⟩, h1 _⟩⟩, trivial⟩, fun l => ⟨⟨_, rfl⟩, ⟨_, rfl⟩, h1 _⟩⟩, trivial⟩, fun l => ⟨⟨_, rfl⟩, ⟨_, rfl⟩, h2 lam _⟩⟩, trivial⟩

/-- The weights and the bias at a point. -/
noncomputable def weight (x : Point (wb d)) (p : Fin d) : ℝ := x ⟨0, p⟩
noncomputable def bias (x : Point (wb d)) : ℝ := x ⟨1, (0 : Fin 1)⟩

/-- The value of the cost. -/
theorem ridge_cost (c lam : ℝ) (X : Fin s → Fin d → ℝ) (y : Fin s → ℝ) (x : Point (wb d)) :
    (ridge s d c lam).costAt .here (rowsFeed X y) x
      = c * ∑ r, (∑ p, X r p * weight x p + bias x - y r) ^ 2 + lam * (∑ p, weight x p ^ 2 + bias x ^ 2) := by
  unfold Graph.costAt
  rw [Fin.sum_univ_one]
  show (lam * (total (fun _ => (0 : Fin 1)) (fun p => weight x p * weight x p) 0 + bias x * bias x))
    + c * total (fun _ => (0 : Fin 1)) (fun r =>
      ((total BNNSystem.rowOf (fun t : Fin (s * d) => (readFeed 0 (rowsFeed X y) t).val * weight x (BNNSystem.colOf t)) r + bias x)
        - (readFeed 1 (rowsFeed X y) r).val) * ((total BNNSystem.rowOf (fun t : Fin (s * d) => (readFeed 0 (rowsFeed X y) t).val * weight x (BNNSystem.colOf t)) r + bias x)
        - (readFeed 1 (rowsFeed X y) r).val)) 0 = _
  simp only [total_real, read_rows, read_labels, Fl.val_fin]
  simp only [if_true]
  have e : ∀ r, (∑ t : Fin (s * d), if BNNSystem.rowOf t = r then X (BNNSystem.rowOf t) (BNNSystem.colOf t) * weight x (BNNSystem.colOf t) else 0)
      = ∑ p, X r p * weight x p := fun r => by
    rw [BNNSystem.sum_at2]
    simp only [BNNSystem.rowOf_at2, BNNSystem.colOf_at2]
    rw [Finset.sum_eq_single r]
    · simp
    · intro b _ hb
      simp [hb]
    · simp
  simp only [e]
  rw [add_comm]
  simp only [← pow_two]

/-- The features of a row: the bias has feature one. -/
def feature (f : Fin d → ℝ) : (Σ i, Fin (wb d i)) → ℝ
  | ⟨0, p⟩ => f p
  | ⟨1, _⟩ => 1

theorem sum_wb (f : (Σ i, Fin (wb d i)) → ℝ) : ∑ q, f q = ∑ p : Fin d, f ⟨0, p⟩ + f ⟨1, (0 : Fin 1)⟩ := by
  rw [Fintype.sum_sigma, Fin.sum_univ_two]
  congr 1
  exact Fin.sum_univ_one fun p : Fin 1 => f ⟨1, p⟩

theorem ridge_quadratic (c lam : ℝ) (X : Fin s → Fin d → ℝ) (y : Fin s → ℝ) :
    (ridge s d c lam).costAt .here (rowsFeed X y) = fun x => c * ∑ r, (∑ q, feature (X r) q * x q - y r) ^ 2 + lam * ∑ q, x q ^ 2 := by
  funext x
  rw [ridge_cost, sum_wb (fun q => x q ^ 2)]
  congr 2
  refine Finset.sum_congr rfl fun r _ => ?_
  rw [sum_wb]
  show (_ - _) ^ 2 = ((∑ p, X r p * weight x p + 1 * bias x) - y r) ^ 2
  rw [one_mul]

/-- Derivatives of a sum of squares of linear functions. -/
theorem quadratic_partial {J : Type} [Fintype J] [DecidableEq J] (c lam : ℝ) (v : Fin s → J → ℝ) (y : Fin s → ℝ) (q : J) (x : J → ℝ) :
    partialD (fun x => c * ∑ r, (∑ j, v r j * x j - y r) ^ 2 + lam * ∑ j, x j ^ 2) q x
      = c * ∑ r, 2 * (∑ j, v r j * x j - y r) * v r q + lam * (2 * x q) := by
  have hp : ∀ j, HasFDerivAt (fun x : J → ℝ => x j) (ContinuousLinearMap.proj j : (J → ℝ) →L[ℝ] ℝ) x := fun j => hasFDerivAt_apply j x
  have h1 : ∀ r, HasFDerivAt (fun x : J → ℝ => (∑ j, v r j * x j - y r) ^ 2)
      ((2 * (∑ j, v r j * x j - y r)) • ∑ j, v r j • (ContinuousLinearMap.proj j : (J → ℝ) →L[ℝ] ℝ)) x := fun r => by
    have h2 : HasFDerivAt (fun x : J → ℝ => ∑ j, v r j * x j - y r) (∑ j, v r j • (ContinuousLinearMap.proj j : (J → ℝ) →L[ℝ] ℝ)) x :=
      (HasFDerivAt.fun_sum fun j _ => (hp j).const_mul (v r j)).sub_const _
    have h3 := h2.pow 2
    simp only [Nat.add_one_sub_one, pow_one, nsmul_eq_mul, Nat.cast_ofNat] at h3
    exact h3
  have h2 : HasFDerivAt (fun x : J → ℝ => ∑ j, x j ^ 2) (∑ j, (2 * x j) • (ContinuousLinearMap.proj j : (J → ℝ) →L[ℝ] ℝ)) x :=
    HasFDerivAt.fun_sum fun j _ => by simpa using (hp j).pow 2
  have h3 : HasFDerivAt (fun x : J → ℝ => ∑ r, (∑ j, v r j * x j - y r) ^ 2)
      (∑ r, (2 * (∑ j, v r j * x j - y r)) • ∑ j, v r j • (ContinuousLinearMap.proj j : (J → ℝ) →L[ℝ] ℝ)) x := HasFDerivAt.fun_sum fun r _ => h1 r
  have h4 : HasFDerivAt (fun x : J → ℝ => c * ∑ r, (∑ j, v r j * x j - y r) ^ 2 + lam * ∑ j, x j ^ 2) _ x := (h3.const_mul c).add (h2.const_mul lam)
  have e : ∀ j, (ContinuousLinearMap.proj j : (J → ℝ) →L[ℝ] ℝ) (unit q) = if j = q then 1 else 0 := fun j => by
    show (unit q : J → ℝ) j = _
    simp [unit, Pi.single_apply]
  show fderiv ℝ _ x (unit q) = _
  rw [h4.fderiv]
  simp only [add_apply, smul_apply, _root_.sum_apply, smul_eq_mul, e, mul_ite, mul_one, mul_zero,
    Finset.sum_ite_eq', Finset.mem_univ, if_true]

variable {Bt : Type} [Fintype Bt] [MeasurableSpace Bt] [MeasurableSingletonClass Bt]

/-- **C147** Bayesian linear regression meets the conditions, for every dataset and every way to form minibatches of `s` rows. -/
theorem C147_regression (ν : Measure Bt) [IsProbabilityMeasure ν] {c lam : ℝ} (hc : 0 ≤ c) (hlam : 0 < lam) (X : Bt → Fin s → Fin d → ℝ) (y : Bt → Fin s → ℝ) :
    (∀ x, meanCost (ridge s d c lam) .here ν (fun β => rowsFeed (X β) (y β)) x
      = c * ∑ β, ν.real {β} * ∑ r, (∑ p, X β r p * weight x p + bias x - y β r) ^ 2 + lam * (∑ p, weight x p ^ 2 + bias x ^ 2))
    ∧ ∃ L b, Samplable (ridge s d c lam) .here ν (fun β => rowsFeed (X β) (y β)) L (2 * lam) b := by
  have hν : ∑ β, ν.real {β} = 1 := by
    have := integral_fintype (μ := ν) (f := fun _ : Bt => (1 : ℝ)) .of_finite
    simpa using this.symm
  have hpart : ∀ β q x, partialD ((ridge s d c lam).costAt .here (rowsFeed (X β) (y β))) q x
      = c * ∑ r, 2 * (∑ j, feature (X β r) j * x j - y β r) * feature (X β r) q + lam * (2 * x q) := fun β q x => by
    rw [ridge_quadratic]
    exact quadratic_partial c lam _ _ q x
  refine ⟨fun x => ?_, ?_⟩
  · unfold meanCost
    simp only [ridge_cost, mul_add, Finset.sum_add_distrib]
    simp only [← Finset.sum_mul, hν, one_mul, ← mul_assoc]
    simp only [mul_comm _ c, mul_assoc, ← Finset.mul_sum]
  · set L : ℝ := 2 * lam + ∑ β, ∑ q, c * ∑ r, 2 * (∑ j, |feature (X β r) j|) * |feature (X β r) q| with hL
    have hterm : ∀ β q, 0 ≤ c * ∑ r, 2 * (∑ j, |feature (X β r) j|) * |feature (X β r) q| := fun β q =>
      mul_nonneg hc (Finset.sum_nonneg fun r _ => mul_nonneg (mul_nonneg (by norm_num) (Finset.sum_nonneg fun _ _ => abs_nonneg _)) (abs_nonneg _))
    have hL0 : 0 ≤ L := add_nonneg (by linarith) (Finset.sum_nonneg fun β _ => Finset.sum_nonneg fun q _ => hterm β q)
    refine ⟨L, ∑ β, ν.real {β} * (c * ∑ r, y β r ^ 2), ridge_uses c lam, fun β θ => ridge_sound c lam _ _ θ, hL0, fun β q x x' => ?_, by linarith,
      Finset.sum_nonneg fun β _ => mul_nonneg measureReal_nonneg (mul_nonneg hc (Finset.sum_nonneg fun _ _ => sq_nonneg _)), fun x => ?_⟩
    · rw [hpart, hpart]
      have e : c * ∑ r, 2 * (∑ j, feature (X β r) j * x j - y β r) * feature (X β r) q + lam * (2 * x q)
          - (c * ∑ r, 2 * (∑ j, feature (X β r) j * x' j - y β r) * feature (X β r) q + lam * (2 * x' q))
          = c * ∑ r, 2 * (∑ j, feature (X β r) j * (x - x') j) * feature (X β r) q + 2 * lam * (x - x') q := by
        have e1 : ∀ r, ∑ j, feature (X β r) j * (x - x') j = ∑ j, feature (X β r) j * x j - ∑ j, feature (X β r) j * x' j := fun r => by
          rw [← Finset.sum_sub_distrib]
          exact Finset.sum_congr rfl fun j _ => mul_sub _ _ _
        simp only [e1]
        rw [Pi.sub_apply]
        have e2 : ∑ r, 2 * (∑ j, feature (X β r) j * x j - ∑ j, feature (X β r) j * x' j) * feature (X β r) q
            = ∑ r, 2 * (∑ j, feature (X β r) j * x j - y β r) * feature (X β r) q - ∑ r, 2 * (∑ j, feature (X β r) j * x' j - y β r) * feature (X β r) q := by
          rw [← Finset.sum_sub_distrib]
          exact Finset.sum_congr rfl fun r _ => by ring
        rw [e2]
        ring
      rw [e]
      have hq : ∀ j, |(x - x') j| ≤ ‖x - x'‖ := fun j => norm_le_pi_norm (x - x') j
      have h1 : |∑ r, 2 * (∑ j, feature (X β r) j * (x - x') j) * feature (X β r) q| ≤ (∑ r, 2 * (∑ j, |feature (X β r) j|) * |feature (X β r) q|) * ‖x - x'‖ := by
        rw [Finset.sum_mul]
        refine (Finset.abs_sum_le_sum_abs _ _).trans (Finset.sum_le_sum fun r _ => ?_)
        rw [abs_mul, abs_mul, abs_of_pos (two_pos : (0 : ℝ) < 2)]
        have h2 : |∑ j, feature (X β r) j * (x - x') j| ≤ (∑ j, |feature (X β r) j|) * ‖x - x'‖ := by
          rw [Finset.sum_mul]
          refine (Finset.abs_sum_le_sum_abs _ _).trans (Finset.sum_le_sum fun j _ => ?_)
          rw [abs_mul]
          exact mul_le_mul_of_nonneg_left (hq j) (abs_nonneg _)
        have h3 := mul_le_mul_of_nonneg_right h2 (abs_nonneg (feature (X β r) q))
        calc 2 * |∑ j, feature (X β r) j * (x - x') j| * |feature (X β r) q|
            = 2 * (|∑ j, feature (X β r) j * (x - x') j| * |feature (X β r) q|) := by ring
          _ ≤ 2 * ((∑ j, |feature (X β r) j|) * ‖x - x'‖ * |feature (X β r) q|) := by linarith
          _ = _ := by ring
      have h4 : |c * ∑ r, 2 * (∑ j, feature (X β r) j * (x - x') j) * feature (X β r) q|
          ≤ c * (∑ r, 2 * (∑ j, |feature (X β r) j|) * |feature (X β r) q|) * ‖x - x'‖ := by
        rw [abs_mul, abs_of_nonneg hc, mul_assoc]
        exact mul_le_mul_of_nonneg_left h1 hc
      have h5 : |2 * lam * (x - x') q| ≤ 2 * lam * ‖x - x'‖ := by
        rw [abs_mul, abs_of_pos (by linarith)]
        exact mul_le_mul_of_nonneg_left (hq q) (by linarith)
      have h6 : c * (∑ r, 2 * (∑ j, |feature (X β r) j|) * |feature (X β r) q|) ≤ L - 2 * lam := by
        rw [hL, add_sub_cancel_left]
        exact (Finset.single_le_sum (f := fun q => c * ∑ r, 2 * (∑ j, |feature (X β r) j|) * |feature (X β r) q|) (fun q _ => hterm β q) (Finset.mem_univ q)).trans
          (Finset.single_le_sum (f := fun β => ∑ q, c * ∑ r, 2 * (∑ j, |feature (X β r) j|) * |feature (X β r) q|)
            (fun β _ => Finset.sum_nonneg fun q _ => hterm β q) (Finset.mem_univ β))
      have h7 := mul_le_mul_of_nonneg_right h6 (norm_nonneg (x - x'))
      have h8 := abs_add_le (c * ∑ r, 2 * (∑ j, feature (X β r) j * (x - x') j) * feature (X β r) q) (2 * lam * (x - x') q)
      linarith
    · have hd : ∀ β, Differentiable ℝ ((ridge s d c lam).costAt .here (rowsFeed (X β) (y β))) := fun β x =>
        (C143_gradients (ridge s d c lam) .here (x := x) (ridge_sound c lam _ _ _)).1
      have hm : ∀ q, partialD (meanCost (ridge s d c lam) .here ν fun β => rowsFeed (X β) (y β)) q x
          = ∑ β, ν.real {β} * partialD ((ridge s d c lam).costAt .here (rowsFeed (X β) (y β))) q x := fun q => by
        have hF : HasFDerivAt (meanCost (ridge s d c lam) .here ν fun β => rowsFeed (X β) (y β))
            (∑ β, ν.real {β} • fderiv ℝ ((ridge s d c lam).costAt .here (rowsFeed (X β) (y β))) x) x :=
          HasFDerivAt.fun_sum fun β _ => (hd β x).hasFDerivAt.const_mul _
        unfold partialD
        rw [hF.fderiv, _root_.sum_apply]
        rfl
      have hβ : ∀ β, 2 * lam * ∑ q, x q ^ 2 - c * ∑ r, y β r ^ 2 ≤ ∑ q, x q * partialD ((ridge s d c lam).costAt .here (rowsFeed (X β) (y β))) q x := fun β => by
        simp only [hpart]
        have e : ∑ q, x q * (c * ∑ r, 2 * (∑ j, feature (X β r) j * x j - y β r) * feature (X β r) q + lam * (2 * x q))
            = c * ∑ r, 2 * (∑ j, feature (X β r) j * x j - y β r) * (∑ j, feature (X β r) j * x j) + 2 * lam * ∑ q, x q ^ 2 := by
          simp only [mul_add, Finset.sum_add_distrib]
          congr 1
          · simp only [Finset.mul_sum]
            rw [Finset.sum_comm]
            refine Finset.sum_congr rfl fun r _ => Finset.sum_congr rfl fun q _ => by ring
          · rw [Finset.mul_sum]
            exact Finset.sum_congr rfl fun q _ => by ring
        rw [e]
        have h1 : -(c * ∑ r, y β r ^ 2) ≤ c * ∑ r, 2 * (∑ j, feature (X β r) j * x j - y β r) * (∑ j, feature (X β r) j * x j) := by
          rw [← mul_neg, ← Finset.sum_neg_distrib]
          refine mul_le_mul_of_nonneg_left (Finset.sum_le_sum fun r _ => ?_) hc
          nlinarith [sq_nonneg (∑ j, feature (X β r) j * x j), sq_nonneg (∑ j, feature (X β r) j * x j - y β r)]
        linarith
      have hsw : ∑ q, x q * ∑ β, ν.real {β} * partialD ((ridge s d c lam).costAt .here (rowsFeed (X β) (y β))) q x
          = ∑ β, ∑ q, x q * (ν.real {β} * partialD ((ridge s d c lam).costAt .here (rowsFeed (X β) (y β))) q x) := by
        simp only [Finset.mul_sum]
        exact Finset.sum_comm
      simp only [hm]
      rw [hsw]
      have h1 : ∀ β, ν.real {β} * (2 * lam * ∑ q, x q ^ 2) - ν.real {β} * (c * ∑ r, y β r ^ 2)
          ≤ ∑ q, x q * (ν.real {β} * partialD ((ridge s d c lam).costAt .here (rowsFeed (X β) (y β))) q x) := fun β => by
        have h2 := mul_le_mul_of_nonneg_left (hβ β) (measureReal_nonneg (μ := ν) (s := {β}))
        rw [mul_sub] at h2
        refine h2.trans (le_of_eq ?_)
        rw [Finset.mul_sum]
        exact Finset.sum_congr rfl fun q _ => by ring
      have h3 := Finset.sum_le_sum fun β (_ : β ∈ Finset.univ) => h1 β
      rw [Finset.sum_sub_distrib, ← Finset.sum_mul, hν, one_mul] at h3
      exact h3

end regression

/-! ## An example -/

/-- A batch generator that supplies given feeds, and a constant stepsize. -/
@[reducible] noncomputable def feedFeeder (e : ℝ) : Feeder where
  Batch := (Nat → Nat → Option Arr) × Nat
  Sched := Unit
  batchNext b := (.ok fun key => match key with
    | .ph p => b.1 b.2 p
    | _ => none, (b.1, b.2 + 1))
  schedNext _ := (.ok [.fin e], ())
  schedUpdate _ _ _ := (.ok (), ())

noncomputable def feedScript (e : ℝ) (b : Nat → Nat → Option Arr) (N : Nat) : Script (feedFeeder e) N where
  batch k := some (b, k)
  data k := fun key => match key with
    | .ph p => b k p
    | _ => none
  sched _ := ()
  eps _ := e
  supplies k _ := ⟨rfl, rfl⟩
  stepsize k _ := ⟨(), rfl, fun _ _ => rfl⟩
  user k _ key h := by
    cases key with
    | ph p => exact absurd rfl (h p)
    | _ => rfl

/-- Linear regression with SGLD on minibatches of `s` rows drawn from any finite collection: for small stepsizes the mean of every weight is
estimated. -/
example {s d : Nat} {Bt : Type} [Fintype Bt] [Nonempty Bt] [MeasurableSpace Bt] [MeasurableSingletonClass Bt] (ν : Measure Bt) [IsProbabilityMeasure ν]
    (X : Bt → Fin s → Fin d → ℝ) (y : Bt → Fin s → ℝ) (σ : SGLD.Schedule (Fin 2)) : ∃ c K C l t₁ : ℝ, 0 < l ∧ 0 < t₁ ∧
    ∀ t : ℝ, 0 < t → t ≤ t₁ → ∀ θ : ∀ i, Pos (wb d) i → ℝ,
    ∃ (Ω : Type) (_ : MeasurableSpace Ω) (P : Measure Ω) (β : Nat → Ω → Bt) (z : Nat → ∀ i, Pos (wb d) i → Ω → ℝ)
      (x : Nat → Ω → Elem (Pos (wb d)) → ℝ),
      RandomSteps ν P β z
      ∧ (∀ N ω, ∃ cost : Nat → Fl,
        (calls (asIter (burnInNext (env (feedFeeder t) (SGLDWorld.graph
            ⟨.fin 10, .fin 1, fun d' => gradOf (ridge s d 0.5 0.1) .here (fed d'), fun d' θ => (ridge s d 0.5 0.1).eval (fed d') θ 1 .here 0,
              fun k i p => .fin (drawsAfter 1 (fun _ _ _ => 0) z ω k i p), ordersAfter 1 (fun _ => σ) (fun _ _ => σ) ω⟩) fun _ => true) (1 : Nat) 2)) N
            (init (some (fun k => rowsFeed (X (batchesAfter 1 (fun _ => Classical.arbitrary Bt) β ω k)) (y (batchesAfter 1 (fun _ => Classical.arbitrary Bt) β ω k)), 0)) ()
              ⟨SGLD.State.init fun i p => .fin (θ i p), .fin 0, 0⟩)).1
          = (List.range N).map (fun k : Nat =>
              let arrays := List.ofFn fun i => flat fun p => .fin (x (k + 1) ω ⟨i, p⟩)
              .ok ((if (k : Int) < (1 : Nat) then .many arrays else unravel arrays), cost k)))
      ∧ ∃ R, ∀ q k, |∫ ω, x (1 + k) ω q ∂P - ∫ x, x q ∂boltz fun x => (10 + 3e-16) * meanCost (ridge s d 0.5 0.1) .here ν (fun β => rowsFeed (X β) (y β)) x + c|
          ≤ C * R * Real.exp (-(l * t * k)) + K * √t := by
  obtain ⟨-, L, b, hsam⟩ := C147_regression ν (c := 0.5) (lam := 0.1) (by norm_num) (by norm_num) X y
  have : Nonempty (Elem (Pos (wb d))) := ⟨⟨1, (0 : Fin 1)⟩⟩
  obtain ⟨c, K, C, l, t₁, hp, hK, hC, hl, ht₁, h⟩ := C147_sgld_posterior hsam 10 (by norm_num) (lo := 1 / (1 + 3e-16)) (hi := 1) (by norm_num) (by norm_num)
  refine ⟨c, K, C, l, t₁, hl, ht₁, fun t ht htt θ => ?_⟩
  obtain ⟨Ω, mΩ, P, ζ, h1, h2, h3, h4⟩ := exists_iid Nat (ν.prod (Measure.pi fun _ : Elem (Pos (wb d)) => gaussianReal 0 1))
  set β : Nat → Ω → Bt := fun k ω => (ζ k ω).1 with hβ
  set z : Nat → ∀ i, Pos (wb d) i → Ω → ℝ := fun k i p ω => (ζ k ω).2 ⟨i, p⟩ with hz
  have hR : RandomSteps ν P β z :=
    ⟨h4, fun k => (h1 k).fst, fun k i p => (measurable_pi_apply _).comp (h1 k).snd, h3, fun k => (h2 k).map_eq⟩
  have hc : ∀ k, MeasurableSpace.comap (ζ k) inferInstance ≤ mΩ := fun k => (h1 k).comap_le
  have hζ : ∀ k, Measurable[⨆ j ∈ {j | j < k + 1}, MeasurableSpace.comap (ζ j) inferInstance] (ζ k) := fun k =>
    Measurable.mono (comap_measurable (ζ k)) (le_iSup₂_of_le k (Nat.lt_succ_self k) le_rfl) le_rfl
  have hun : Unforeseen ν P (fun k => ⨆ j ∈ {j | j < k}, MeasurableSpace.comap (ζ j) inferInstance) β z (fun _ _ => σ) := by
    refine ⟨h4, fun k k' hk => ?_, fun k => iSup₂_le fun j _ => hc j, hζ, fun k A => @MeasurableSet.const _ (_) _, fun k => ?_, fun k => (h2 k).map_eq⟩
    · exact biSup_mono fun j hj => lt_of_lt_of_le hj hk
    · have h5 := indep_iSup_of_disjoint hc h3 (S := {j | j < k}) (T := {k}) (by simp)
      simpa using h5
  set b0 : Bt := Classical.arbitrary Bt
  set feeds : Bt → Nat → Option Arr := fun β => rowsFeed (X β) (y β) with hfeeds
  obtain ⟨x0, -, -, hx0⟩ := sgld_chain_evaluated (size := wb d) (feedScript t (fun _ => feeds b0) 1)
    ⟨.fin 10, .fin 1, fun d' => gradOf (ridge s d 0.5 0.1) .here (fed d'), fun d' θ => (ridge s d 0.5 0.1).eval (fed d') θ 1 .here 0,
      fun _ _ _ => .fin 0, fun _ => σ⟩ (fun _ => true)
    (batchProblem (feedScript t (fun _ => feeds b0) 1) (ridge s d 0.5 0.1) .here feeds hsam.uses hsam.sound (fun _ => b0) fun _ _ => rfl)
    1 10 rfl rfl (by norm_num) (fun _ _ _ => 0) (fun _ _ _ => rfl) (1 : Nat) θ (.fin 0)
  have hmass : ∀ i p, (sgldChain 1 10 (1 : Nat) (fun _ => t) (fun j => x0 j i p) (fun _ => 0) (θ i p) 1).mass = 1 / (1 + 3e-16) := by
    intro i p
    simp only [sgldChain, sgldStep, Coord.start, Coord.massUsed, after_false Nat.zero_lt_one, Bool.false_eq_true, if_false, Real.sqrt_one]
  obtain ⟨x, hX, hb⟩ := h (F := feedFeeder t) P (fun k => ⨆ j ∈ {j | j < k}, MeasurableSpace.comap (ζ j) inferInstance)
    (fun ω => feedScript t fun k => feeds (batchesAfter 1 (fun _ => b0) β ω k)) (fun ω => some (fun k => feeds (batchesAfter 1 (fun _ => b0) β ω k), 0)) ()
    (fun _ => t) (fun _ => b0) β 1 1 t (fun _ _ _ => 0) z (fun _ => σ) (fun _ _ => σ) θ (.fin 0) x0
    (fun _ _ => rfl) (fun _ _ => rfl) (fun _ _ => rfl) (fun _ _ _ _ => rfl) hun one_pos (fun _ _ => rfl) (by linarith) (by linarith) hx0
    (fun i p => (hmass i p).ge) (fun i p => (hmass i p).le.trans (by norm_num))
  refine ⟨Ω, mΩ, P, β, z, x, hR, hX, 1 + ‖fun q : Elem (Pos (wb d)) =>
    (sgldChain 1 10 (1 : Nat) (fun _ => t) (fun j => x0 j q.1 q.2) (fun _ => 0) (θ q.1 q.2) 1).pos‖ ^ 2, fun q k => ?_⟩
  have h5 := ((hb (f := fun x => x q) (A := 1) zero_le_one (fun x y => by rw [one_mul]; exact norm_le_pi_norm (x - y) q)).1 k).2
  rwa [mul_one, one_mul] at h5

end PySGMCMC.Gradients
