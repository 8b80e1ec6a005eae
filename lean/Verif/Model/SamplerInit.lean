import Verif.Model.TensorUtils

/-!
# Model of the variable initialisation in `MCMCSampler.__init__` (`samplers/base_classes.py:96-122`)

The session holds a store of variables, uninitialized ones have no value.  `vectorize(param)` creates a new variable
whose initial value is `reshape(param.initialized_value())`, i.e. (TensorFlow 1) a conditional: the value of `param`
if it is initialized and otherwise `param`'s initial value.  Testing and reading are separate nodes.
`session.run(init)` runs the initializers in any order.

Simplifications: target parameters are pairwise distinct; `initial_value` tensors are evaluated once per run, so all
uses in a run see the same value (also for random initial values).
-/

namespace PySGMCMC.SamplerInit
open TensorUtils

/-- Variables of the session. -/
inductive Var (P : Type) where
  /-- a target parameter -/
  | par (i : P)
  /-- its vectorized clone -/
  | vec (i : P)
  /-- `self.epsilon` -/
  | epsilon
  /-- any other variable of the user's graph -/
  | other (n : Nat)
deriving DecidableEq

/-- Values of the variables and the outcomes of the `is_variable_initialized` tests of the conditionals. -/
structure Store (P : Type) where
  val : Var P → Option (Tensor Fl)
  test : P → Bool

/-- Constant data of the constructor call. -/
structure Ctor (P : Type) where
  /-- `self.params` -/
  params : List P
  /-- `param.initial_value` -/
  initialValue : P → Tensor Fl
  /-- `stepsize_schedule.initial_value` -/
  stepsize : Tensor Fl
  /-- initial values of the other variables -/
  others : Nat → Tensor Fl

variable {P : Type} [DecidableEq P]

/-- The variables handed to `uninitialized_params` (`base_classes.py:116`). -/
def candidates (c : Ctor P) : List (Var P) := c.params.map .par ++ c.params.map .vec ++ [.epsilon]

/-- `uninitialized_params(session=self.session, params=...)` (`base_classes.py:114-117`). -/
def toInit (c : Ctor P) (s : Store P) : Except PyErr (List (Var P)) :=
  uninitializedParams (some fun v => (s.val v).isSome) (candidates c)

/-- Nodes of the initialisation run. -/
inductive Node (P : Type) where
  /-- the predicate of `param.initialized_value()` -/
  | test (i : P)
  /-- the initializer of a variable -/
  | init (v : Var P)
deriving DecidableEq

/-- Set the value of a variable. -/
def Store.set (s : Store P) (v : Var P) (t : Option (Tensor Fl)) : Store P :=
  { s with val := fun w => if w = v then t else s.val w }

/-- `param.initialized_value()` after its test has been evaluated. -/
def initializedValue (c : Ctor P) (s : Store P) (i : P) : Option (Tensor Fl) :=
  if s.test i then s.val (.par i) else some (c.initialValue i)

/-- Execute a node (`base_classes.py:103-119`, `tensor_utils.py:92-95`). -/
def exec (c : Ctor P) (s : Store P) : Node P → Store P
  | .test i => { s with test := fun j => if j = i then (s.val (.par i)).isSome else s.test j }
  | .init (.par i) => s.set (.par i) (some (c.initialValue i))
  | .init (.vec i) =>
    match (initializedValue c s i).map fun t => vectorize (.tensor t) with
    | some (.ok v) => s.set (.vec i) (some v)
    | _ => s
  | .init .epsilon => s.set .epsilon (some c.stepsize)
  | .init (.other n) => s.set (.other n) (some (c.others n))

/-- An execution order of `session.run(init)` for the given variables. -/
structure Schedule (vars : List (Var P)) where
  order : List (Node P)
  nodup : order.Nodup
  init_iff : ∀ v, .init v ∈ order ↔ v ∈ vars
  test_first : ∀ pre i post, order = pre ++ .init (.vec i) :: post → .test i ∈ pre

/-- `self.session.run(init)` (`base_classes.py:119`); also the user's `session.run(tf.global_variables_initializer())` after the
sampler was constructed (`bayesian_neural_network.py:468`, `sample_chains.py:373`), for `vars` all variables of the graph. -/
def runInit (c : Ctor P) (s : Store P) {vars : List (Var P)} (σ : Schedule vars) : Store P :=
  σ.order.foldl (exec c) s

end PySGMCMC.SamplerInit
