import Verif.Model.Gradients
import Verif.Model.BNNCostGraph

/-!
# The graph of SVGD's costs and its gradient (`samplers/svgd.py:84-90`, `121`)

The cost function receives one particle.  `tf.map_fn` applies it to every row of the stacked particles, and `tf.gradients` differentiates the
sum of all costs with respect to the stack.

Simplifications: `tf.map_fn` is unrolled: its body is built once per particle; the outputs are put together by adding tensors that are zero
elsewhere.
-/

namespace PySGMCMC.SVGDGraph
open Gradients
open BNNSystem (at2 rowOf colOf)

noncomputable section

section copy
variable {P : Type} {size : P → Nat} {d₀ : Nat} {δ α : Type} {ctx ctx' : List Nat}

/-- A node of a graph in a graph that continues the other one. -/
def left {d : Nat} (ctx' : List Nat) : {ctx : List Nat} → Ref ctx d → Ref (ctx ++ ctx') d
  | _, .here => .here
  | _, .there r => .there (left ctx' r)

/-- A node of the graph that is continued. -/
def right {d : Nat} (r : Ref ctx' d) : (ctx : List Nat) → Ref (ctx ++ ctx') d
  | [] => r
  | _ :: ctx => .there (right r ctx)

/-- An operation of the body with the node `x` in place of the particle. -/
def copyOp (x : Ref ctx' d₀) : {d : Nat} → Op (fun _ : Unit => d₀) δ α ctx d → Op size δ α (ctx ++ ctx') d
  | _, .param _ => .gather id (right x ctx)
  | _, .data v => .data v
  | _, .map f f' y => .map f f' (left ctx' y)
  | _, .add y z => .add (left ctx' y) (left ctx' z)
  | _, .sub y z => .sub (left ctx' y) (left ctx' z)
  | _, .mul y z => .mul (left ctx' y) (left ctx' z)
  | _, .gather ix y => .gather ix (left ctx' y)
  | _, .reduce ix y => .reduce ix (left ctx' y)

/-- `cost_fun(particle)`: build the graph of the cost function on the node `x`. -/
def copy (T' : Graph size δ α ctx') (x : Ref ctx' d₀) : {ctx : List Nat} → Graph (fun _ : Unit => d₀) δ α ctx → Graph size δ α (ctx ++ ctx')
  | _, .nil => T'
  | _, .snoc T o => .snoc (copy T' x T) (copyOp x o)

end copy

section mapFn
variable {δ : Type} {ctx : List Nat} {n d c : Nat}

/-- A graph over the stacked particles, with the stack and the costs computed so far. -/
structure Costs (δ : Type) (n d c : Nat) where
  ctx : List Nat
  graph : Graph (fun _ : Unit => n * d) δ Fl ctx
  stack : Ref ctx (n * d)
  acc : Ref ctx (n * c)

/-- The body of `tf.map_fn` for particle `i`. -/
def Costs.step (T : Graph (fun _ : Unit => d) δ Fl ctx) (cost : Ref ctx c) (B : Costs δ n d c) (i : Fin n) : Costs δ n d c :=
  let T1 := B.graph.snoc (.gather (fun a : Fin d => at2 i a) B.stack)                            -- particle
  let T2 := copy T1 .here T                                                                      -- cost_fun(particle)
  let T3 := T2.snoc (.reduce (fun l : Fin c => at2 i l) (left _ cost))
  ⟨_, T3.snoc (.add (.there (right (.there B.acc) ctx)) .here), .there (.there (right (.there B.stack) ctx)), .here⟩

/-- `tf.map_fn(lambda particle: cost_fun(particle), self.particles)` (`svgd.py:87`). -/
def mapFn (n : Nat) (T : Graph (fun _ : Unit => d) δ Fl ctx) (cost : Ref ctx c) : Costs δ n d c :=
  (List.finRange n).foldl (Costs.step T cost)
    ⟨[n * c, n * d], (Graph.nil.snoc (.param ())).snoc (.data fun _ _ => 0), .there .here, .here⟩

/-- `tf.gradients(self.cost, self.particles)` (`svgd.py:121`): the value for stacked particles, `none` for `[None]`. -/
def stackGrad (T : Graph (fun _ : Unit => d) δ Fl ctx) (cost : Ref ctx c) (feed : δ) (x : Fin n → Fin d → Fl) : Option (Fin n → Fin d → Fl) :=
  ((mapFn n T cost).graph.gradients (mapFn n T cost).acc feed (fun _ t => x (rowOf t) (colOf t)) ()).map fun g i a => g (at2 i a)

end mapFn
end
end PySGMCMC.SVGDGraph
