import Verif.Lemmas.SVGDGraph
import Verif.Props.Gradients
import Verif.Props.PlainChain

/-!
# C146: every SVGD particle follows the derivative of the cost at its own position
-/

namespace PySGMCMC.SVGDGraph
open Gradients Recipe
open BNNSystem (at2 rowOf colOf at2_inj rowOf_at2 colOf_at2 sum_at2)

section
variable {δ : Type} {ctx : List Nat} {n d c : Nat}

/-- **C146** The cost SVGD reports for a particle is the cost function's value at that particle. -/
theorem C146_cost (T : Graph (fun _ : Unit => d) δ Fl ctx) (cost : Ref ctx c) {feed : δ} {x : Fin n → Fin d → ℝ} (h : ∀ i, T.Sound feed fun _ => x i)
    (i : Fin n) (l : Fin c) :
    (mapFn n T cost).graph.eval feed (fun _ t => .fin (x (rowOf t) (colOf t))) _ (mapFn n T cost).acc (at2 i l)
      = T.eval feed (fun _ a => .fin (x i a)) c cost l := by
  have e1 := eval_fin (mapFn n T cost).graph (mapFn_sound T cost h) (mapFn n T cost).acc (at2 i l)
  have e2 := eval_fin T (h i) cost l
  rw [mapFn_value] at e1
  exact e1.trans e2.symm

/-- **C146** Differentiating the sum of all costs with respect to the stacked particles gives, row by row, the gradient of the cost function at
that particle alone: what the other particles are does not matter. -/
theorem C146_gradient (hn : n ≠ 0) (T : Graph (fun _ : Unit => d) δ Fl ctx) (cost : Ref ctx c) {feed : δ} {x : Fin n → Fin d → ℝ}
    (h : ∀ i, T.Sound feed fun _ => x i) (hu : T.uses c cost ()) :
    stackGrad T cost feed (fun i a => .fin (x i a)) = some fun i a => .fin (partialD (T.costAt cost feed) ⟨(), a⟩ fun q => x i q.2) := by
  set C := mapFn n T cost with hC
  set y : Point (fun _ : Unit => n * d) := fun q => x (rowOf q.2) (colOf q.2) with hy
  have h1 := (C143_gradients C.graph C.acc (feed := feed) (x := y) (mapFn_sound T cost h)).2 () ((mapFn_uses T cost).2 ⟨hn, hu⟩)
  have h2 : C.graph.gradients C.acc feed (fun _ t => .fin (x (rowOf t) (colOf t))) () = _ := h1
  unfold stackGrad
  rw [← hC, h2, Option.map_some]
  congr 1
  funext i a
  refine congrArg Fl.fin ?_
  have hrow : ∀ j, rowMap n d j y = fun q => x j q.2 := fun j => by
    funext q
    show x (rowOf (at2 j q.2)) (colOf (at2 j q.2)) = _
    rw [rowOf_at2, colOf_at2]
  have hd : ∀ j, HasFDerivAt (T.costAt cost feed) (fderiv ℝ (T.costAt cost feed) fun q => x j q.2) (rowMap n d j y) := fun j => by
    rw [hrow]
    exact (C143_gradients T cost (x := fun q => x j q.2) (h j)).1.hasFDerivAt
  have hF : HasFDerivAt (C.graph.costAt C.acc feed) (∑ j, (fderiv ℝ (T.costAt cost feed) fun q => x j q.2).comp (rowMap n d j)) y := by
    rw [show C.graph.costAt C.acc feed = fun y => ∑ j, T.costAt cost feed (rowMap n d j y) from funext fun y => mapFn_costAt T cost feed y]
    exact HasFDerivAt.fun_sum fun j _ => (hd j).comp y (rowMap n d j).hasFDerivAt
  unfold partialD
  rw [hF.fderiv, ContinuousLinearMap.sum_apply, Finset.sum_eq_single i]
  · show fderiv ℝ (T.costAt cost feed) (fun q => x i q.2) (rowMap n d i (Pi.single ⟨(), at2 i a⟩ 1)) = _
    congr 1
    funext q
    obtain ⟨u, b⟩ := q
    show (Pi.single (⟨(), at2 i a⟩ : Σ _ : Unit, Fin (n * d)) 1 : Point fun _ : Unit => n * d) ⟨(), at2 i b⟩
      = (Pi.single (⟨(), a⟩ : Σ _ : Unit, Fin d) 1 : Point fun _ : Unit => d) ⟨(), b⟩
    simp [Pi.single_apply, at2_inj]
  · intro j _ hj
    show fderiv ℝ (T.costAt cost feed) (fun q => x j q.2) (rowMap n d j (Pi.single ⟨(), at2 i a⟩ 1)) = 0
    have e : rowMap n d j (Pi.single ⟨(), at2 i a⟩ 1) = 0 := by
      funext q
      show (Pi.single (⟨(), at2 i a⟩ : Σ _ : Unit, Fin (n * d)) 1 : Point fun _ : Unit => n * d) ⟨(), at2 j q.2⟩ = 0
      simp [Pi.single_apply, at2_inj, hj]
    rw [e, map_zero]
  · simp

/-- **C146** There is no gradient (`[None]`, for which the constructor fails) exactly if the cost is not computed from the particle, or there are
no particles. -/
theorem C146_none (T : Graph (fun _ : Unit => d) δ Fl ctx) (cost : Ref ctx c) (feed : δ) (x : Fin n → Fin d → Fl) :
    stackGrad T cost feed x = none ↔ n = 0 ∨ ¬ T.uses c cost () := by
  unfold stackGrad
  rw [Option.map_eq_none_iff, gradients_none, mapFn_uses]
  tauto

end

/-! ## Chains -/

section chains
open Chain SamplerBase Spec
variable {ctx : List Nat} {n d : Nat}

/-- The gradient of the cost function at one particle. -/
noncomputable def particleGrad {δ : Type} {c : Nat} (T : Graph (fun _ : Unit => d) δ Fl ctx) (cost : Ref ctx c) (feed : δ) (y : Fin d → Fl) (a : Fin d) : Fl :=
  match T.gradients cost feed (fun _ => y) () with
  | some g => g a
  | none => .nan

theorem particleGrad_eq {δ : Type} {c : Nat} (T : Graph (fun _ : Unit => d) δ Fl ctx) (cost : Ref ctx c) {feed : δ} {y : Fin d → ℝ}
    (h : T.Sound feed fun _ => y) (hu : T.uses c cost ()) (a : Fin d) :
    particleGrad T cost feed (fun a => .fin (y a)) a = .fin (partialD (T.costAt cost feed) ⟨(), a⟩ fun q => y q.2) := by
  have h1 := (C143_gradients T cost (feed := feed) (x := fun q => y q.2) h).2 () hu
  have h2 : T.gradients cost feed (fun _ a => .fin (y a)) () = _ := h1
  unfold particleGrad
  rw [h2]

/-- **C146** The rows of the gradient of the stack are the gradients at the particles. -/
theorem C146_rows {δ : Type} {c : Nat} (hn : n ≠ 0) (T : Graph (fun _ : Unit => d) δ Fl ctx) (cost : Ref ctx c) {feed : δ} {x : Fin n → Fin d → ℝ}
    (h : ∀ i, T.Sound feed fun _ => x i) (hu : T.uses c cost ()) :
    stackGrad T cost feed (fun i a => .fin (x i a)) = some fun i => particleGrad T cost feed fun a => .fin (x i a) := by
  rw [C146_gradient hn T cost h hu]
  congr 1
  funext i a
  exact (particleGrad_eq T cost (h i) hu a).symm

/-- SVGD with a cost function that builds a graph. -/
noncomputable def svgdProblem {F : Feeder (Fin n → Fl)} {N : Nat} (S : Script F N) (T : Graph (fun _ : Unit => d) (Nat → Option Arr) Fl ctx)
    (cost : Ref ctx 1) (hu : T.uses 1 cost ()) (h : ∀ k < N, ∀ y : Fin d → ℝ, T.Sound (fed (S.data k)) fun _ => y) (al f : Fl)
    (unspecified : (Fin n → Fin d → Fl) → SVGD.Kernel n d) (order : Nat → SVGD.Schedule n) :
    SVGDProblem S ⟨al, f, fun e => particleGrad T cost (fed e), fun e y => T.eval (fed e) (fun _ => y) 1 cost 0, unspecified, order⟩ (fun _ => true) where
  γ k y a := partialD (T.costAt cost (fed (S.data k))) ⟨(), a⟩ fun q => y q.2
  c k y := .fin (T.costAt cost (fed (S.data k)) fun q => y q.2)
  grad_eq k hk e he y a := by
    have e1 : fed e = fed (S.data k) := funext he
    show particleGrad T cost (fed e) (fun a => .fin (y a)) a = _
    rw [e1, particleGrad_eq T cost (h k hk y) hu a]
  cost_eq k hk e he y := by
    have e1 : fed e = fed (S.data k) := funext he
    show T.eval (fed e) (fun _ a => .fin (y a)) 1 cost 0 = _
    rw [e1, eval_fin T (h k hk y) cost 0]
    unfold Graph.costAt
    rw [Fin.sum_univ_one]
    rfl
  accepts _ _ _ _ := rfl

/-- **C146** SVGD with a cost function that builds a graph: as long as the particles stay pairwise distinct, the samples are the positions of the
recurrence of C91 with the partial derivatives of the cost on the current batch, each at its own particle, and the costs are those of the
particles before the step. -/
theorem C146_svgd_follows (hn : 2 ≤ n) {F : Feeder (Fin n → Fl)} {N : Nat} (S : Script F N) (T : Graph (fun _ : Unit => d) (Nat → Option Arr) Fl ctx)
    (cost : Ref ctx 1) (hu : T.uses 1 cost ()) (h : ∀ k < N, ∀ y : Fin d → ℝ, T.Sound (fed (S.data k)) fun _ => y) (al f : ℝ) (h0 : 0 ≤ al) (h1 : al < 1)
    (f0 : 0 < f) (unspecified : (Fin n → Fin d → Fl) → SVGD.Kernel n d) (order : Nat → SVGD.Schedule n) (x : Fin n → Fin d → ℝ) (eps0 : Fl) :
    let W : SVGDWorld n d := ⟨.fin al, .fin f, fun e => particleGrad T cost (fed e), fun e y => T.eval (fed e) (fun _ => y) 1 cost 0, unspecified, order⟩
    let γ : Nat → (Fin d → ℝ) → Fin d → ℝ := fun k y a => partialD (T.costAt cost (fed (S.data k))) ⟨(), a⟩ fun q => y q.2
    (∀ k < N, Function.Injective (svgdChain al f S.eps γ x k).1) →
    (calls (asIter (baseNext (env F W.graph fun _ => true))) N (init (S.batch 0) (S.sched 0) ⟨SVGD.State.init fun i a => .fin (x i a), eps0, 0⟩)).1
      = (List.range N).map (fun k : Nat =>
          .ok (.many (List.ofFn fun i => flat fun a => .fin ((svgdChain al f S.eps γ x (k + 1)).1 i a)),
            fun i => .fin (T.costAt cost (fed (S.data k)) fun q => (svgdChain al f S.eps γ x k).1 i q.2))) := by
  intro W γ hinj
  exact C91_svgd_chain hn S W (fun _ => true) (svgdProblem S T cost hu h (.fin al) (.fin f) unspecified order) al f rfl rfl h0 h1 f0 x eps0 hinj

/-- The cost `|y|²`. -/
noncomputable def quad (d : Nat) : Graph (fun _ : Unit => d) (Nat → Option Arr) Fl [1, d, d] :=
  ((Graph.nil.snoc (.param ())).snoc (.map (fun v => Fl.npow v 2) (fun v => 2 * v) .here)).snoc (.reduce (fun _ => 0) .here)

theorem quad_sound (d : Nat) (feed : Nat → Option Arr) (y : Fin d → ℝ) : (quad d).Sound feed fun _ => y :=
  ⟨⟨⟨trivial, trivial⟩, fun l => ⟨by simp, by simp [Fl.ofNat_def], by simpa [Fl.ofNat_def] using hasDerivAt_pow 2 _⟩⟩, trivial⟩

/-- The gradient of every particle is twice its position. -/
example (hn : n ≠ 0) (feed : Nat → Option Arr) (x : Fin n → Fin d → ℝ) :
    stackGrad (quad d) .here feed (fun i a => .fin (x i a)) = some fun i a => .fin (2 * x i a) := by
  rw [C146_rows hn (quad d) .here (fun i => quad_sound d feed (x i)) rfl]
  congr 1
  funext i a
  show (1 : Fl) * (2 * Fl.fin (x i a)) = _
  simp [Fl.ofNat_def]

/-- SVGD with this cost: particles on a diagonal. -/
example (order : Nat → SVGD.Schedule 3) (junk : (Fin 3 → Fin 2 → Fl) → SVGD.Kernel 3 2) :=
  C146_svgd_follows (n := 3) (by norm_num) (halvingScript (Fin 3 → Fl) 1) (quad 2) .here rfl (fun _ _ y => quad_sound 2 _ y) 0.9 1e-6 (by norm_num)
    (by norm_num) (by norm_num) junk order (fun i _ => 10 * i) (.fin 0) (fun k hk => by
      obtain rfl : k = 0 := by omega
      intro i j hij
      have h : (10 : ℝ) * ((i : ℕ) : ℝ) = 10 * ((j : ℕ) : ℝ) := congrFun hij 0
      have h2 : ((i : ℕ) : ℝ) = ((j : ℕ) : ℝ) := by linarith
      exact Fin.ext (by exact_mod_cast h2))

/-- A cost that ignores its argument has no gradient. -/
example (feed : Nat → Option Arr) (x : Fin n → Fin d → Fl) :
    stackGrad (Graph.nil.snoc (.data fun _ (_ : Fin 1) => 1)) .here feed x = none := (C146_none _ _ _ _).2 (.inr id)

end chains
end PySGMCMC.SVGDGraph
