import Verif.Model.SVGDGraph
import Verif.Lemmas.BNNCostGraph
import Verif.Lemmas.Gradients

/-!
# The graph of SVGD's costs: values, differentiability, and whether it depends on the particles
-/

namespace PySGMCMC.SVGDGraph
open Gradients Recipe
open BNNSystem (at2 rowOf colOf at2_inj rowOf_at2 colOf_at2 sum_at2)

section copy
variable {P : Type} {size : P → Nat} {d₀ : Nat} {δ α : Type} {ctx ctx' : List Nat}

section eval
variable [Add α] [Sub α] [Neg α] [Mul α] [OfNat α 0] [OfNat α 1]

omit [Neg α] [OfNat α 1] in
theorem eval_right (T' : Graph size δ α ctx') (x : Ref ctx' d₀) (T : Graph (fun _ : Unit => d₀) δ α ctx) (feed : δ) (θ : ∀ i, Fin (size i) → α)
    {d : Nat} (r : Ref ctx' d) : (copy T' x T).eval feed θ d (right r ctx) = T'.eval feed θ d r := by
  induction T with
  | nil => rfl
  | snoc T o ih => exact ih

omit [Neg α] [OfNat α 1] in
theorem eval_left (T' : Graph size δ α ctx') (x : Ref ctx' d₀) (T : Graph (fun _ : Unit => d₀) δ α ctx) (feed : δ) (θ : ∀ i, Fin (size i) → α)
    {d : Nat} (r : Ref ctx d) : (copy T' x T).eval feed θ d (left ctx' r) = T.eval feed (fun _ => T'.eval feed θ d₀ x) d r := by
  induction T generalizing d with
  | nil => exact nomatch r
  | snoc T o ih =>
    cases r with
    | there r => exact ih r
    | here =>
      show (copyOp x o).eval feed θ ((copy T' x T).eval feed θ) = o.eval feed _ (T.eval feed _)
      cases o with
      | param i => exact eval_right T' x T feed θ x
      | data v => rfl
      | map f f' y => simp only [copyOp, Op.eval, ih]
      | add y z => simp only [copyOp, Op.eval, ih]
      | sub y z => simp only [copyOp, Op.eval, ih]
      | mul y z => simp only [copyOp, Op.eval, ih]
      | gather ix y => simp only [copyOp, Op.eval, ih]
      | reduce ix y => simp only [copyOp, Op.eval, ih]

omit [Add α] [Sub α] [Neg α] [Mul α] [OfNat α 0] [OfNat α 1] in
theorem uses_right (T' : Graph size δ α ctx') (x : Ref ctx' d₀) (T : Graph (fun _ : Unit => d₀) δ α ctx) {d : Nat} (r : Ref ctx' d) (i : P) :
    (copy T' x T).uses d (right r ctx) i ↔ T'.uses d r i := by
  induction T with
  | nil => exact Iff.rfl
  | snoc T o ih => exact ih

omit [Add α] [Sub α] [Neg α] [Mul α] [OfNat α 0] [OfNat α 1] in
theorem uses_left (T' : Graph size δ α ctx') (x : Ref ctx' d₀) (T : Graph (fun _ : Unit => d₀) δ α ctx) {d : Nat} (r : Ref ctx d) (i : P) :
    (copy T' x T).uses d (left ctx' r) i ↔ T.uses d r () ∧ T'.uses d₀ x i := by
  induction T generalizing d with
  | nil => exact nomatch r
  | snoc T o ih =>
    cases r with
    | there r => exact ih r
    | here =>
      show (copyOp x o).uses (copy T' x T).uses i ↔ o.uses T.uses () ∧ _
      cases o with
      | param j => simp only [copyOp, Op.uses, uses_right, true_and]
      | data v => simp only [copyOp, Op.uses, false_and]
      | map f f' y => simp only [copyOp, Op.uses, ih]
      | add y z => simp only [copyOp, Op.uses, ih, or_and_right]
      | sub y z => simp only [copyOp, Op.uses, ih, or_and_right]
      | mul y z => simp only [copyOp, Op.uses, ih, or_and_right]
      | gather ix y => simp only [copyOp, Op.uses, ih]
      | reduce ix y => simp only [copyOp, Op.uses, ih]

end eval

theorem copy_real (T' : Graph size δ Fl ctx') (x : Ref ctx' d₀) (T : Graph (fun _ : Unit => d₀) δ Fl ctx) : (copy T' x T).real = copy T'.real x T.real := by
  induction T with
  | nil => rfl
  | snoc T o ih =>
    show Graph.snoc (copy T' x T).real (copyOp x o).real = _
    rw [ih]
    cases o <;> rfl

theorem copy_sound (T' : Graph size δ Fl ctx') (x : Ref ctx' d₀) (T : Graph (fun _ : Unit => d₀) δ Fl ctx) {feed : δ} {θ : ∀ i, Fin (size i) → ℝ}
    (h' : T'.Sound feed θ) (h : T.Sound feed fun _ => T'.real.eval feed θ d₀ x) : (copy T' x T).Sound feed θ := by
  induction T with
  | nil => exact h'
  | snoc T o ih =>
    refine ⟨ih h.1, ?_⟩
    have h2 := h.2
    rw [copy_real]
    cases o with
    | data v => exact h2
    | map f f' y =>
      intro l
      have := h2 l
      rw [← eval_left T'.real x T.real feed θ y] at this
      exact this
    | _ => trivial

end copy

section mapFn
variable {δ : Type} {ctx : List Nat} {n d c : Nat} (T : Graph (fun _ : Unit => d) δ Fl ctx) (cost : Ref ctx c)

theorem step_stack (B : Costs δ n d c) (i : Fin n) (feed : δ) (θ : Unit → Fin (n * d) → ℝ) :
    (B.step T cost i).graph.real.eval feed θ _ (B.step T cost i).stack = B.graph.real.eval feed θ _ B.stack := by
  show (copy (B.graph.snoc (.gather (fun a : Fin d => at2 i a) B.stack)) .here T).real.eval feed θ _ (right (.there B.stack) ctx) = _
  rw [copy_real, eval_right]
  rfl

theorem step_acc (B : Costs δ n d c) (i : Fin n) (feed : δ) (θ : Unit → Fin (n * d) → ℝ) (j : Fin n) (l : Fin c) :
    (B.step T cost i).graph.real.eval feed θ _ (B.step T cost i).acc (at2 j l) = B.graph.real.eval feed θ _ B.acc (at2 j l)
      + if i = j then T.real.eval feed (fun _ a => B.graph.real.eval feed θ _ B.stack (at2 i a)) c cost l else 0 := by
  have e : (B.step T cost i).graph.real.eval feed θ _ (B.step T cost i).acc (at2 j l)
      = (copy (B.graph.snoc (.gather (fun a : Fin d => at2 i a) B.stack)) .here T).real.eval feed θ _ (right (.there B.acc) ctx) (at2 j l)
        + total (fun l : Fin c => at2 i l) ((copy (B.graph.snoc (.gather (fun a : Fin d => at2 i a) B.stack)) .here T).real.eval feed θ _ (left _ cost)) (at2 j l) := rfl
  rw [e, copy_real, eval_right, eval_left, total_real]
  congr 1
  simp only [at2_inj]
  split_ifs with h
  · subst h
    simp
    rfl
  · simp [h]

theorem step_sound (B : Costs δ n d c) (i : Fin n) {feed : δ} {θ : Unit → Fin (n * d) → ℝ} (h : B.graph.Sound feed θ)
    (hT : T.Sound feed fun _ a => B.graph.real.eval feed θ _ B.stack (at2 i a)) : (B.step T cost i).graph.Sound feed θ :=
  ⟨⟨copy_sound _ _ T ⟨h, trivial⟩ hT, trivial⟩, trivial⟩

theorem loop (is : List (Fin n)) (B : Costs δ n d c) (feed : δ) (θ : Unit → Fin (n * d) → ℝ) (hs : B.graph.real.eval feed θ _ B.stack = θ ()) :
    (∀ j l, (is.foldl (Costs.step T cost) B).graph.real.eval feed θ _ (is.foldl (Costs.step T cost) B).acc (at2 j l) = B.graph.real.eval feed θ _ B.acc (at2 j l)
      + (is.map fun i => if i = j then T.real.eval feed (fun _ a => θ () (at2 i a)) c cost l else 0).sum)
    ∧ (B.graph.Sound feed θ → (∀ i, T.Sound feed fun _ a => θ () (at2 i a)) → (is.foldl (Costs.step T cost) B).graph.Sound feed θ) := by
  induction is generalizing B with
  | nil => exact ⟨fun j l => by simp, fun h _ => h⟩
  | cons i is ih =>
    obtain ⟨h1, h2⟩ := ih (B.step T cost i) (by rw [step_stack, hs])
    refine ⟨fun j l => ?_, fun h hT => h2 (step_sound T cost B i h (by rw [hs]; exact hT i)) hT⟩
    rw [List.foldl_cons, h1, step_acc, hs, List.map_cons, List.sum_cons, add_assoc]

theorem loop_uses (is : List (Fin n)) (B : Costs δ n d c) (hs : B.graph.uses _ B.stack ()) :
    (is.foldl (Costs.step T cost) B).graph.uses _ (is.foldl (Costs.step T cost) B).acc () ↔ B.graph.uses _ B.acc () ∨ (is ≠ [] ∧ T.uses c cost ()) := by
  induction is generalizing B with
  | nil => simp
  | cons i is ih =>
    have h1 : (B.step T cost i).graph.uses _ (B.step T cost i).stack () ↔ B.graph.uses _ B.stack () :=
      uses_right (B.graph.snoc (.gather (fun a : Fin d => at2 i a) B.stack)) .here T (.there B.stack) ()
    have h2 : (B.step T cost i).graph.uses _ (B.step T cost i).acc () ↔ B.graph.uses _ B.acc () ∨ T.uses c cost () := by
      have e1 := uses_right (B.graph.snoc (.gather (fun a : Fin d => at2 i a) B.stack)) .here T (.there B.acc) ()
      have e2 := uses_left (B.graph.snoc (.gather (fun a : Fin d => at2 i a) B.stack)) .here T cost ()
      exact or_congr e1 (e2.trans (and_iff_left hs))
    rw [List.foldl_cons, ih _ (h1.2 hs), h2]
    constructor
    · rintro ((h | h) | ⟨-, h⟩)
      · exact .inl h
      · exact .inr ⟨by simp, h⟩
      · exact .inr ⟨by simp, h⟩
    · rintro (h | ⟨-, h⟩)
      · exact .inl (.inl h)
      · exact .inl (.inr h)

/-- The costs of all particles. -/
theorem mapFn_value (feed : δ) (x : Fin n → Fin d → ℝ) (j : Fin n) (l : Fin c) :
    (mapFn n T cost).graph.real.eval feed (fun _ t => x (rowOf t) (colOf t)) _ (mapFn n T cost).acc (at2 j l) = T.real.eval feed (fun _ => x j) c cost l := by
  have h := (loop T cost (List.finRange n) ⟨[n * c, n * d], (Graph.nil.snoc (.param ())).snoc (.data fun _ _ => 0), .there .here, .here⟩ feed
    (fun _ t => x (rowOf t) (colOf t)) rfl).1 j l
  refine h.trans ?_
  rw [← List.ofFn_eq_map, List.sum_ofFn]
  simp only [rowOf_at2, colOf_at2, Finset.sum_ite_eq', Finset.mem_univ, if_true]
  show (0 : Fl).val + _ = _
  simp

theorem mapFn_sound {feed : δ} {x : Fin n → Fin d → ℝ} (h : ∀ i, T.Sound feed fun _ => x i) :
    (mapFn n T cost).graph.Sound feed (fun _ t => x (rowOf t) (colOf t)) :=
  (loop T cost (List.finRange n) ⟨[n * c, n * d], (Graph.nil.snoc (.param ())).snoc (.data fun _ _ => 0), .there .here, .here⟩ feed
    (fun _ t => x (rowOf t) (colOf t)) rfl).2 ⟨⟨trivial, trivial⟩, fun _ => by simp⟩ fun i => by simpa only [rowOf_at2, colOf_at2] using h i

theorem mapFn_uses : (mapFn n T cost).graph.uses _ (mapFn n T cost).acc () ↔ n ≠ 0 ∧ T.uses c cost () := by
  have h := loop_uses T cost (List.finRange n) ⟨[n * c, n * d], (Graph.nil.snoc (.param ())).snoc (.data fun _ _ => 0), .there .here, .here⟩ rfl
  refine h.trans ?_
  rw [ne_eq, List.finRange_eq_nil_iff]
  exact or_iff_right id

/-- The row of a particle in the stack. -/
noncomputable def rowMap (n d : Nat) (j : Fin n) : Point (fun _ : Unit => n * d) →L[ℝ] Point (fun _ : Unit => d) :=
  ContinuousLinearMap.pi fun q => ContinuousLinearMap.proj (⟨(), at2 j q.2⟩ : Σ _ : Unit, Fin (n * d))

theorem mapFn_costAt (feed : δ) (y : Point (fun _ : Unit => n * d)) :
    (mapFn n T cost).graph.costAt (mapFn n T cost).acc feed y = ∑ j, T.costAt cost feed (rowMap n d j y) := by
  unfold Graph.costAt
  rw [sum_at2]
  refine Finset.sum_congr rfl fun j _ => Finset.sum_congr rfl fun l _ => ?_
  have h := mapFn_value T cost feed (fun i a => y ⟨(), at2 i a⟩) j l
  have e : (fun (_ : Unit) (t : Fin (n * d)) => y ⟨(), at2 (rowOf t) (colOf t)⟩) = y.at := by
    funext u t
    show y ⟨(), finProdFinEquiv ((finProdFinEquiv.symm t).1, (finProdFinEquiv.symm t).2)⟩ = y ⟨u, t⟩
    rw [Prod.mk.eta, Equiv.apply_symm_apply]
  rw [e] at h
  exact h

end mapFn
end PySGMCMC.SVGDGraph
