import Verif.Lemmas.BNNCostGraph
import Verif.Props.Gradients

/-!
# C145: training follows the derivative of the cost, computed by going backwards through its graph
-/

namespace PySGMCMC.BNNSystem
open BNN Chain Gradients TensorUtils
open BNNPosterior (defaultReal defaultRow_real split setElem_split)
open BaseModel (lift)
open Spec DataBatches

variable {R : RNG} {D n : Nat} {shape : Fin n → List Nat}

/-- The graph of a network computes a function of real numbers, row by row, by differentiable operations. -/
def NetGraph.Computes (G : NetGraph D shape) (f : Params shape → (Fin D → ℝ) → ℝ × ℝ) : Prop :=
  ∀ (rows : List (Fin D → ℝ)) (ys : List ℝ) (θ : Params shape), (G.graph rows.length).Sound (lift rows, ys.map .fin) θ
    ∧ ∀ r : Fin rows.length, (G.graph rows.length).eval (lift rows, ys.map .fin) (finP θ) _ (G.out rows.length) (at2 r 0) = .fin (f θ rows[r]).1
      ∧ (G.graph rows.length).eval (lift rows, ys.map .fin) (finP θ) _ (G.out rows.length) (at2 r 1) = .fin (f θ rows[r]).2

/-- **C145** The graph computes the cost: for every network, all minibatches and all values of the variables, numbers or not. -/
theorem C145_cost (S : Setup R D shape) (G : NetGraph D shape) (N : Nat) (rows : List (Fin D → Fl)) (ys : List Fl) (hl : rows.length = ys.length)
    (θ : ∀ i, Pos (sizes shape) i → Fl)
    (hG : ∀ r : Fin rows.length, ((G.graph rows.length).eval (rows, ys) θ _ (G.out rows.length) (at2 r 0),
      (G.graph rows.length).eval (rows, ys) θ _ (G.out rows.length) (at2 r 1)) = S.net θ rows[r]) (l : Fin 1) :
    (G.cost rows.length S.batchSize N).graph.eval (rows, ys) θ 1 (G.cost rows.length S.batchSize N).node l = S.cost N rows ys θ := by
  unfold NetGraph.cost
  rw [cost_value _ _ _ _ _ _ _ hl.symm]
  simp only [hG]
  unfold Setup.cost
  congr 2
  apply List.ext_getElem
  · simp
  · intro k hk1 hk2
    simp

/-- **C145** A sampler can always be constructed: whatever the network computes its output from, the prior makes the cost depend on every
trainable variable. -/
theorem C145_construct (G : NetGraph D shape) (m batchSize N : Nat) (feed : Fed D) (θ : ∀ i, Pos (sizes shape) i → Fl) :
    ∃ g, grads (G.cost m batchSize N).graph (G.cost m batchSize N).node feed θ = .ok g :=
  (C143_construct _ _ feed θ).1.2 fun i => cost_uses _ _ _ _ i

/-- **C145** What training uses as gradients are numbers, the partial derivatives of the cost of the minibatch. -/
theorem C145_gradients (S : Setup R D shape) (hB : 0 < S.batchSize) (G : NetGraph D shape) (f : Params shape → (Fin D → ℝ) → ℝ × ℝ)
    (hf : ∀ θ x, S.net (finP θ) (fun j => .fin (x j)) = (.fin (f θ x).1, .fin (f θ x).2)) (hG : G.Computes f) (N : Nat) (hN : 0 < N)
    (rows : List (Fin D → ℝ)) (ys : List ℝ) (hne : rows ≠ []) (hl : rows.length = ys.length) (θ : Params shape) :
    ∃ γ : Params shape, G.grad S.batchSize N (lift rows) (ys.map .fin) (finP θ) = finP γ ∧
      ∀ i p, HasDerivAt (fun t => (S.cost N (lift rows) (ys.map .fin) (finP (setElem θ i p t))).val) (γ i p) (θ i p) := by
  have hlen : (lift rows).length = rows.length := by simp [lift]
  have hm : 0 < rows.length := List.length_pos_iff.2 hne
  set C := G.cost rows.length S.batchSize N with hC
  set feed : Fed D := (lift rows, ys.map .fin) with hfeed
  have hs : ∀ θ' : Params shape, C.graph.Sound feed θ' := fun θ' => by
    refine cost_sound _ _ hB hN hm (hG rows ys θ').1 fun r => ?_
    have : (r : Nat) < ys.length := hl ▸ r.2
    show ((ys.map Fl.fin).getD r .nan).IsFin
    simp [this]
  have hval : ∀ θ' : Params shape, C.graph.costAt C.node feed (fun q => θ' q.1 q.2) = (S.cost N (lift rows) (ys.map .fin) (finP θ')).val := by
    intro θ'
    have e1 := eval_fin C.graph (hs θ') C.node 0
    have e2 : C.graph.eval feed (finP θ') 1 C.node 0 = S.cost N (lift rows) (ys.map .fin) (finP θ') := by
      have key : ∀ (m : Nat) (hm : (lift rows).length = m), (G.cost m S.batchSize N).graph.eval feed (finP θ') 1 (G.cost m S.batchSize N).node 0
          = (G.cost (lift rows).length S.batchSize N).graph.eval feed (finP θ') 1 (G.cost (lift rows).length S.batchSize N).node 0 := by
        rintro _ rfl
        rfl
      rw [hC, key _ hlen]
      refine C145_cost S G N (lift rows) (ys.map .fin) (by simpa [lift] using hl) (finP θ') (fun r => ?_) 0
      have key2 : ∀ (m : Nat) (hm : m = rows.length) (r : Fin m), ((G.graph m).eval feed (finP θ') _ (G.out m) (at2 r 0),
          (G.graph m).eval feed (finP θ') _ (G.out m) (at2 r 1)) = S.net (finP θ') fun j => .fin ((rows[(r : Nat)]'(by rw [← hm]; exact r.2)) j) := by
        rintro _ rfl r
        obtain ⟨h1, h2⟩ := (hG rows ys θ').2 r
        rw [h1, h2, hf]
        rfl
      refine (key2 _ hlen r).trans (congrArg _ ?_)
      have e : ∀ (k : Nat) (h : k < (lift rows).length), (lift rows)[k] = fun j => Fl.fin ((rows[k]'(by rw [← hlen]; exact h)) j) := by
        intro k h
        simp [lift]
      exact (e r r.2).symm
    rw [← e2]
    show ∑ l : Fin 1, C.graph.real.eval feed θ' 1 C.node l = _
    rw [Fin.sum_univ_one]
    exact (congrArg Fl.val e1).symm
  obtain ⟨h1, h2⟩ := C143_gradients C.graph C.node (feed := feed) (x := fun q => θ q.1 q.2) (hs θ)
  refine ⟨fun i p => Recipe.partialD (C.graph.costAt C.node feed) ⟨i, p⟩ fun q => θ q.1 q.2, ?_, fun i p => ?_⟩
  · have key : ∀ (m : Nat) (hm : (lift rows).length = m), G.grad S.batchSize N (lift rows) (ys.map .fin) (finP θ)
        = gradOf (G.cost m S.batchSize N).graph (G.cost m S.batchSize N).node feed (finP θ) := by
      rintro _ rfl
      rfl
    rw [key _ hlen]
    funext i p
    unfold gradOf
    have h3 := h2 i (cost_uses _ _ _ _ i)
    have h4 : C.graph.gradients C.node feed (finP θ) i = _ := h3
    rw [← hC, h4]
    rfl
  · have h3 := h1.hasFDerivAt.comp_hasDerivAt_of_eq (θ i p) (hasDerivAt_update (fun q : Σ i, Pos (sizes shape) i => θ q.1 q.2) ⟨i, p⟩ (θ i p))
      (Function.update_eq_self_iff.2 rfl).symm
    refine h3.congr_of_eventuallyEq (Filter.Eventually.of_forall fun t => ?_)
    refine (hval _).symm.trans (congrArg (C.graph.costAt C.node feed) ?_)
    funext q
    exact congrFun (congrFun (setElem_split (fun q : Σ i, Pos (sizes shape) i => θ q.1 q.2) i p t) q.1) q.2

/-- What the theorems on training assume of TensorFlow (`Regular`) holds if the gradients are computed from the graph. -/
noncomputable def regular_of_graph (S : Setup R D shape) (hB : 0 < S.batchSize) (G : NetGraph D shape) (hS : S.grad = G.grad S.batchSize)
    (f : Params shape → (Fin D → ℝ) → ℝ × ℝ) (hf : ∀ θ x, S.net (finP θ) (fun j => .fin (x j)) = (.fin (f θ x).1, .fin (f θ x).2))
    (hG : G.Computes f) : Regular S where
  f := f
  net_eq := hf
  γ N rows ys θ i p := (S.grad N (lift rows) (ys.map .fin) (finP θ) i p).val
  grad_eq N rows ys θ hN hne hl := by
    obtain ⟨γ, h, -⟩ := C145_gradients S hB G f hf hG N hN rows ys hne hl θ
    rw [hS, h]
    rfl
  isGrad N rows ys θ i p hN hne hl := by
    obtain ⟨γ, h, h'⟩ := C145_gradients S hB G f hf hG N hN rows ys hne hl θ
    rw [hS, h]
    exact h' i p

/-- A network with two scalar variables whose output is computed from the first only: the likelihood has no gradient for the second, and without
the prior a sampler could not be constructed; with it, it can, and its gradients are partial derivatives. -/
example : ∃ (G : NetGraph 1 (fun _ : Fin 2 => [])) (f : Params (fun _ : Fin 2 => []) → (Fin 1 → ℝ) → ℝ × ℝ), G.Computes f
    ∧ (∀ m B feed θ, ((likelihood (G.graph m) (G.out m) B).gradients .here feed θ 1 = none
      ∧ grads (likelihood (G.graph m) (G.out m) B) .here feed θ = .error (.value "vectorize")))
    ∧ ∀ m B N feed θ, ∃ g, grads (G.cost m B N).graph (G.cost m B N).node feed θ = .ok g := by
  let G : NetGraph 1 (fun _ : Fin 2 => []) := ⟨fun m => [m * 2, sizes (fun _ : Fin 2 => []) 0],
    fun m => (Graph.nil.snoc (.param 0)).snoc (.gather (fun _ : Fin (m * 2) => ⟨0, by simp [sizes]⟩) .here), fun m => .here⟩
  refine ⟨G, fun θ _ => (θ 0 ⟨0, by simp [sizes]⟩, θ 0 ⟨0, by simp [sizes]⟩), fun rows ys θ => ⟨⟨⟨trivial, trivial⟩, trivial⟩, fun r => ⟨rfl, rfl⟩⟩,
    fun m B feed θ => ?_, fun m B N feed θ => C145_construct G m B N feed θ⟩
  have h : ¬ (likelihood (G.graph m) (G.out m) B).uses 1 .here 1 := by
    simp [likelihood, Graph.uses, Op.uses, G, square, scale, over, minus, plusConst, sumAll]
  exact ⟨(gradients_none _ _ _ _ _).2 h, (C143_construct _ _ feed θ).2 ⟨1, h⟩⟩

/-! ## The default network -/

theorem default_computes : (defaultGraph D).Computes defaultReal := fun rows ys θ => by
  have hs := default_sound rows (ys.map .fin) θ
  refine ⟨hs, fun r => ?_⟩
  obtain ⟨h1, h2⟩ := default_value rows (ys.map .fin) θ r
  have e1 := eval_fin _ hs ((defaultGraph D).out rows.length) (at2 r 0)
  have e2 := eval_fin _ hs ((defaultGraph D).out rows.length) (at2 r 1)
  rw [h1] at e1
  rw [h2] at e2
  exact ⟨e1, e2⟩

/-- A network object with the default network, and the gradients that `tf.gradients` computes from the graph of its cost. -/
noncomputable def backpropSetup (R : RNG) (D batchSize : Nat) (seed : PyVal) (eps : ℝ) (kwargs : List (String × Val R D)) (paramFirst : Fin 9 → Bool)
    (θ₁ θ₀ : Params (defaultShape D)) (z : Nat → Params (defaultShape D)) (order : Nat → SGHMC.Schedule (Fin 9)) (glob : R.State) :
    Setup R D (defaultShape D) :=
  { BNNPosterior.defaultSetup R D batchSize seed eps kwargs paramFirst θ₁ θ₀ z order glob with grad := (defaultGraph D).grad batchSize }

/-- **C145** The graph of the default network computes the default network, and the gradients of its cost are partial derivatives for all
values of the variables. -/
theorem C145_default_network (S : Setup R D (defaultShape D)) (hB : 0 < S.batchSize) (hS : S.net = defaultRow) (N : Nat) (hN : 0 < N)
    (rows : List (Fin D → ℝ)) (ys : List ℝ) (hne : rows ≠ []) (hl : rows.length = ys.length) (θ : Params (defaultShape D)) :
    ∃ γ : Params (defaultShape D), (defaultGraph D).grad S.batchSize N (lift rows) (ys.map .fin) (finP θ) = finP γ ∧
      ∀ i p, HasDerivAt (fun t => (S.cost N (lift rows) (ys.map .fin) (finP (setElem θ i p t))).val) (γ i p) (θ i p) :=
  C145_gradients S hB _ defaultReal (fun θ x => by rw [hS]; exact defaultRow_real θ x) default_computes N hN rows ys hne hl θ

/-- **C145** Training the default network with gradients computed backwards through the graph of its cost succeeds on every dataset without
constant columns, and stores the number of samples asked for. -/
theorem C145_train (R : RNG) (B : Nat) (hB : 0 < B) (seed : PyVal) (hs : SeedOk seed) (eps : ℝ) (paramFirst : Fin 9 → Bool)
    (θ₁ θ₀ : Params (defaultShape D)) (z : Nat → Params (defaultShape D)) (order : Nat → SGHMC.Schedule (Fin 9)) (glob : R.State) (cfg : Cfg)
    (hnets : 0 < cfg.nNets) (X : List (Fin D → ℝ)) (y : List ℝ) (hX : X ≠ []) (hl : y.length = X.length)
    (hnx : cfg.normalizeInput = true → ∀ j, BaseModel.NonConstant X j) (hny : cfg.normalizeOutput = true → ∃ v ∈ y, ∃ v' ∈ y, v ≠ v') :
    let S := backpropSetup R D B seed eps [] paramFirst θ₁ θ₀ z order glob
    let r := train cfg (S.world cfg) (.matrix (lift X)) (y.map .fin) {} none
    r.1 = .ok () ∧ r.2.1.samples.length = (storedIdx cfg).length := by
  intro S r
  have Rg : Regular S := regular_of_graph S hB (defaultGraph D) rfl defaultReal (fun θ x => defaultRow_real θ x) default_computes
  obtain ⟨x, start, h⟩ := C95_train_and_predict S Rg cfg (by decide) hnets hB hs eps rfl 0.05
    (.inr ⟨rfl, by norm_num⟩) (fun p hp => absurd hp (List.not_mem_nil)) θ₁ θ₀ rfl rfl z (fun _ => rfl) X y hX hl hnx hny
  refine ⟨h.2.1, ?_⟩
  rw [h.2.2.1, List.length_map]

end PySGMCMC.BNNSystem
