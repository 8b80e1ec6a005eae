import Verif.Model.Chain
import Verif.Model.TensorUtils

/-!
# Model of `tf.gradients` and of its use in the samplers (`samplers/sghmc.py:121-122`, `samplers/sgld.py:112-113`,
`samplers/relativistic_sghmc.py:100-103`)

The other modules take gradients as inputs.  Here they are computed from the graph a cost function builds, in the way TensorFlow computes them:
backwards from the cost, every node handing on to its operands what arrived at it, and a parameter at which nothing arrives has the gradient
`None`.

A node is represented by the row of its elements, whatever its shape.  Operations: elementwise functions with their derivatives, sums,
differences and products of two tensors of the same size, and two families that rearrange elements: `gather` (slicing, reshaping, transposing,
broadcasting, tiling) and `reduce` (sums along axes).  Others are compositions of these: a division is a product with an elementwise inverse, a
matrix product is a `reduce` of a product of two `gather`s.  `tf.stop_gradient`, control flow and operations without derivative are left out.
-/

namespace PySGMCMC.Gradients
open TensorUtils

/-- A reference to a node of a graph, by the list of the sizes of its nodes, latest first. -/
inductive Ref : List Nat → Nat → Type
  | here {d : Nat} {ctx : List Nat} : Ref (d :: ctx) d
  | there {d d' : Nat} {ctx : List Nat} : Ref ctx d → Ref (d' :: ctx) d

/-- Operations with results of size `d`, on nodes of a graph.  `size` are the sizes of the parameters, `δ` the data that can be fed. -/
inductive Op {P : Type} (size : P → Nat) (δ α : Type) (ctx : List Nat) : Nat → Type
  /-- the value of a parameter -/
  | param (i : P) : Op size δ α ctx (size i)
  /-- a constant or placeholder -/
  | data {d : Nat} (v : δ → Fin d → α) : Op size δ α ctx d
  /-- an elementwise function and its derivative -/
  | map {d : Nat} (f f' : α → α) (x : Ref ctx d) : Op size δ α ctx d
  | add {d : Nat} (x y : Ref ctx d) : Op size δ α ctx d
  | sub {d : Nat} (x y : Ref ctx d) : Op size δ α ctx d
  | mul {d : Nat} (x y : Ref ctx d) : Op size δ α ctx d
  /-- element `l` is element `ix l` of the operand -/
  | gather {d d' : Nat} (ix : Fin d → Fin d') (x : Ref ctx d') : Op size δ α ctx d
  /-- element `l` is the sum of all elements `j` of the operand with `ix j = l` -/
  | reduce {d d' : Nat} (ix : Fin d' → Fin d) (x : Ref ctx d') : Op size δ α ctx d

/-- A graph: operations in the order in which they were created. -/
inductive Graph {P : Type} (size : P → Nat) (δ α : Type) : List Nat → Type
  | nil : Graph size δ α []
  | snoc {ctx : List Nat} {d : Nat} (T : Graph size δ α ctx) (o : Op size δ α ctx d) : Graph size δ α (d :: ctx)

/-- Values of all nodes. -/
abbrev Env (α : Type) (ctx : List Nat) := ∀ d, Ref ctx d → Fin d → α

/-- What arrived at the nodes, if anything. -/
abbrev Adj (α : Type) (ctx : List Nat) := ∀ d, Ref ctx d → Option (Fin d → α)

section semantics
variable {P : Type} {size : P → Nat} {δ α : Type} {ctx : List Nat} [Add α] [Sub α] [Neg α] [Mul α] [OfNat α 0] [OfNat α 1]

/-- Sum of the elements with index `l`. -/
def total {d d' : Nat} (ix : Fin d' → Fin d) (v : Fin d' → α) (l : Fin d) : α :=
  (List.ofFn fun j => if ix j = l then v j else 0).foldl (· + ·) 0

/-- The value of an operation. -/
def Op.eval (feed : δ) (θ : ∀ i, Fin (size i) → α) (e : Env α ctx) : {d : Nat} → Op size δ α ctx d → Fin d → α
  | _, .param i => θ i
  | _, .data v => v feed
  | _, .map f _ x => fun l => f (e _ x l)
  | _, .add x y => fun l => e _ x l + e _ y l
  | _, .sub x y => fun l => e _ x l - e _ y l
  | _, .mul x y => fun l => e _ x l * e _ y l
  | _, .gather ix x => fun l => e _ x (ix l)
  | _, .reduce ix x => total ix (e _ x)

/-- The values of all nodes (`session.run`). -/
def Graph.eval (feed : δ) (θ : ∀ i, Fin (size i) → α) : {ctx : List Nat} → Graph size δ α ctx → Env α ctx
  | _, .nil => fun _ r => nomatch r
  | _, .snoc T o => fun _ r => match r with
    | .here => o.eval feed θ (T.eval feed θ)
    | .there r => T.eval feed θ _ r

/-- Something that arrives at one node. -/
def Adj.single : {ctx : List Nat} → {d : Nat} → Ref ctx d → (Fin d → α) → Adj α ctx
  | _, _, .here, g => fun _ r => match r with
    | .here => some g
    | .there _ => none
  | _, _, .there x, g => fun _ r => match r with
    | .here => none
    | .there r => Adj.single x g _ r

/-- Gradients arriving at the same node are added (`_AggregatedGrads`). -/
def plus {d : Nat} : Option (Fin d → α) → Option (Fin d → α) → Option (Fin d → α)
  | none, b => b
  | a, none => a
  | some a, some b => some fun l => a l + b l

def Adj.plus (a b : Adj α ctx) : Adj α ctx := fun d r => Gradients.plus (a d r) (b d r)

/-- What a node hands on to its operands if `g` arrived at it. -/
def Op.back (e : Env α ctx) : {d : Nat} → Op size δ α ctx d → (Fin d → α) → Adj α ctx
  | _, .param _, _ => fun _ _ => none
  | _, .data _, _ => fun _ _ => none
  | _, .map _ f' x, g => Adj.single x fun l => g l * f' (e _ x l)
  | _, .add x y, g => (Adj.single x g).plus (Adj.single y g)
  | _, .sub x y, g => (Adj.single x g).plus (Adj.single y fun l => -g l)
  | _, .mul x y, g => (Adj.single x fun l => g l * e _ y l).plus (Adj.single y fun l => g l * e _ x l)
  | _, .gather ix x, g => Adj.single x (total ix g)
  | _, .reduce ix x, g => Adj.single x fun j => g (ix j)

/-- What arrives at the parameters themselves. -/
def Op.arrives [DecidableEq P] : {d : Nat} → Op size δ α ctx d → (Fin d → α) → ∀ i, Option (Fin (size i) → α)
  | _, .param j, g => fun i => if h : j = i then some (h ▸ g) else none
  | _, _, _ => fun _ => none

/-- Go through the graph backwards. -/
def Graph.back [DecidableEq P] : {ctx : List Nat} → Graph size δ α ctx → Env α ctx → Adj α ctx → ∀ i, Option (Fin (size i) → α)
  | _, .nil, _, _ => fun _ => none
  | _, .snoc T o, e, a => match a _ .here with
    | none => T.back (fun d r => e d (.there r)) fun d r => a d (.there r)
    | some g => fun i => plus (o.arrives g i)
        (T.back (fun d r => e d (.there r)) (Adj.plus (fun d r => a d (.there r)) (o.back (fun d r => e d (.there r)) g)) i)

/-- `tf.gradients(cost, params)`: the sum of the elements of `cost` is differentiated. -/
def Graph.gradients [DecidableEq P] (T : Graph size δ α ctx) {d : Nat} (cost : Ref ctx d) (feed : δ) (θ : ∀ i, Fin (size i) → α) (i : P) :
    Option (Fin (size i) → α) :=
  T.back (T.eval feed θ) (Adj.single cost fun _ => 1) i

/-- Which parameters a node is computed from. -/
def Op.uses (r : ∀ d, Ref ctx d → P → Prop) : {d : Nat} → Op size δ α ctx d → P → Prop
  | _, .param j, i => j = i
  | _, .data _, _ => False
  | _, .map _ _ x, i => r _ x i
  | _, .add x y, i => r _ x i ∨ r _ y i
  | _, .sub x y, i => r _ x i ∨ r _ y i
  | _, .mul x y, i => r _ x i ∨ r _ y i
  | _, .gather _ x, i => r _ x i
  | _, .reduce _ x, i => r _ x i

/-- Which parameters a node is computed from, directly or through other nodes. -/
def Graph.uses : {ctx : List Nat} → Graph size δ α ctx → ∀ d, Ref ctx d → P → Prop
  | _, .nil, _, r, _ => nomatch r
  | _, .snoc T o, _, r, i => match r with
    | .here => o.uses T.uses i
    | .there r => T.uses _ r i

end semantics

/-! ## The samplers -/

section samplers
variable {n : Nat} {size : Fin n → Nat} {δ : Type} {ctx : List Nat}

/-- `vectorize(gradient)` for an entry of the list that `tf.gradients` returns: `None` is not a tensor. -/
def column {d : Nat} : Option (Fin d → Fl) → Except PyErr (Tensor Fl)
  | some g => vectorize (.tensor ⟨[d], List.ofFn g⟩)
  | none => vectorize .other

/-- `grads = [vectorize(gradient) for gradient in tf.gradients(self.cost, params)]` (`sghmc.py:121-122`, `sgld.py:112-113`): the values of the
nodes, or the exception raised while the graph is built. -/
noncomputable def grads (T : Graph size δ Fl ctx) {d : Nat} (cost : Ref ctx d) (feed : δ) (θ : ∀ i, Fin (size i) → Fl) :
    Except PyErr (List (Tensor Fl)) :=
  (List.finRange n).mapM fun i => column (T.gradients cost feed θ i)

/-- The same with `-self.cost` (`relativistic_sghmc.py:100-103`). -/
noncomputable def gradsNeg (T : Graph size δ Fl ctx) {d : Nat} (cost : Ref ctx d) (feed : δ) (θ : ∀ i, Fin (size i) → Fl) :
    Except PyErr (List (Tensor Fl)) :=
  grads (T.snoc (.map (fun x => -x) (fun _ => -1) cost)) .here feed θ

/-- The gradient nodes as the samplers' graphs use them. -/
noncomputable def gradOf (T : Graph size δ Fl ctx) {d : Nat} (cost : Ref ctx d) (feed : δ) (θ : ∀ i, Fin (size i) → Fl) :
    ∀ i, Fin (size i) → Fl := fun i p => match T.gradients cost feed θ i with
  | some g => g p
  | none => .nan

end samplers
end PySGMCMC.Gradients
