import Verif.Py.Fl
import Verif.Py.Tensor

/-!
# Model of `pysgmcmc/samplers/relativistic_sghmc.py`

The momentum of each target parameter is a scalar variable (`tf.Variable(momentum_sample)`), so the reshapes between it
and the parameter only exist for parameters with exactly one element.  As in `Model/SGHMC.lean` a session run
executes every node once in any order that respects the dependencies, and a node reads the variables it uses when it
is executed.  `P` is the type of target parameters.
-/

namespace PySGMCMC.Relativistic

/-! ## Construction -/

/-- A constructor argument that must be a Python `float`. -/
inductive Num where
  | float (r : ℝ)
  | other

/-- `assert isinstance(m, float)`, `assert isinstance(c, float)` (`relativistic_sghmc.py:205-206`). -/
def momentumAsserts (mass c : Num) : Except PyErr Unit :=
  match mass with
  | .other => .error .assertion
  | .float _ => match c with
    | .other => .error .assertion
    | .float _ => .ok ()

/-- Static shape of `self.epsilon * grad + n - D * p_grad`, i.e. of `vectorize(param)` broadcast with scalars. -/
def incrementShape (param : List Nat) : List Nat := [param.prod, 1]

/-- `tf.reshape(tensor, shape)` on static shapes. -/
def reshapeOk (old new : List Nat) : Except PyErr Unit :=
  if old.prod = new.prod then .ok () else .error (.value "reshape")

/-- The graph construction loop (`relativistic_sghmc.py:120-140`): the increment is reshaped to the scalar momentum and
the velocity (a scalar) to the vectorized parameter, whose value is then reshaped to the parameter's own shape. -/
def buildLoop : List (List Nat) → Except PyErr Unit
  | [] => .ok ()
  | shape :: rest => do
    reshapeOk (incrementShape shape) []
    reshapeOk [] [shape.prod, 1]
    reshapeOk [shape.prod, 1] shape
    buildLoop rest

/-- The part of the constructor that is specific to this sampler (`relativistic_sghmc.py:91-140`). -/
def construct (mass c : Num) (shapes : List (List Nat)) : Except PyErr Unit := do
  momentumAsserts mass c
  buildLoop shapes

/-- `relativistic_log_pdf` (`relativistic_sghmc.py:209-215`) for finite arguments. -/
noncomputable def logPdf (m c p : ℝ) : ℝ := -m * c ^ 2 * Real.sqrt (p ^ 2 / (m ^ 2 * c ^ 2) + 1)

/-! ## One session run -/

/-- Nodes of one parameter. -/
inductive Op where
  /-- gradient of `-cost` (`relativistic_sghmc.py:97-103`) -/
  | xGrad
  /-- increment of the momentum, including `p_grad` and `n` (`relativistic_sghmc.py:123-128`) -/
  | xMom
  /-- `momentum_t`(`126-129`) -/
  | setMom
  /-- `p_grad_new`(`131`) -/
  | xVel
  /-- `vectorized_theta_t`(`132-135`) -/
  | setVec
  /-- `self.theta_t[i]`(`137-140`) -/
  | setParam
deriving DecidableEq, Repr

/-- All nodes of a parameter. -/
def Op.all : List Op := [.xGrad, .xMom, .setMom, .xVel, .setVec, .setParam]

/-- Data dependencies; there are no control dependencies. -/
def Op.deps : Op → List Op
  | .xGrad => []
  | .xMom => [.xGrad]
  | .setMom => [.xMom]
  | .xVel => [.setMom]
  | .setVec => [.xVel]
  | .setParam => [.setVec]

/-- Variables (first three) and intermediate results of one parameter. -/
structure PState where
  mom : Fl
  vec : Fl
  param : Fl
  tGrad : Fl
  tMom : Fl
  tVel : Fl

variable {P : Type} [DecidableEq P]

/-- Everything a run depends on besides the variables. -/
structure Inputs (P : Type) where
  epsilon : Fl
  mass : Fl
  c : Fl
  d : Fl
  bhat : Fl
  normal : P → Fl
  /-- gradient of the cost function on this run's batch -/
  grad : (P → Fl) → P → Fl
  /-- the cost function on this run's batch -/
  cost : (P → Fl) → Fl

noncomputable section

/-- `p_grad` (`relativistic_sghmc.py:123`, `131`). -/
def pGrad (epsilon m c p : Fl) : Fl :=
  epsilon * p / (m * Fl.sqrt (p * p / (Fl.npow m 2 * Fl.npow c 2) + 1))

/-- The factor of the normal draw (`relativistic_sghmc.py:125`). -/
def noiseFactor (epsilon d bhat : Fl) : Fl := Fl.sqrt (epsilon * (2 * d - epsilon * bhat))

/-- Increment of the momentum (`relativistic_sghmc.py:126-129`); `grad` is the gradient of `-cost`. -/
def rhsMom (epsilon m c d bhat grad normal p : Fl) : Fl :=
  epsilon * grad + noiseFactor epsilon d bhat * normal - d * pGrad epsilon m c p

/-- Effect of a node. -/
def evalOp (inp : Inputs P) (params : P → Fl) (i : P) (o : Op) (p : PState) : PState :=
  match o with
  | .xGrad => { p with tGrad := -(inp.grad params i) }
  | .xMom => { p with tMom := rhsMom inp.epsilon inp.mass inp.c inp.d inp.bhat p.tGrad (inp.normal i) p.mom }
  | .setMom => { p with mom := p.mom + p.tMom }
  | .xVel => { p with tVel := pGrad inp.epsilon inp.mass inp.c p.mom }
  | .setVec => { p with vec := p.vec + p.tVel }
  | .setParam => { p with param := p.vec }

/-- Nodes of the whole graph. -/
inductive Node (P : Type) where
  | op (i : P) (o : Op)
  | cost

/-- State of all parameters plus the fetched cost. -/
structure State (P : Type) where
  par : P → PState
  cost : Fl

/-- The current values of the target parameters. -/
def State.params (s : State P) : P → Fl := fun i => (s.par i).param

/-- Execute one node. -/
def exec (inp : Inputs P) (s : State P) : Node P → State P
  | .op i o => { s with par := Function.update s.par i (evalOp inp s.params i o (s.par i)) }
  | .cost => { s with cost := inp.cost s.params }

/-- Dependencies of a node. -/
def Node.deps : Node P → List (Node P)
  | .op i o => o.deps.map (Node.op i)
  | .cost => []

/-- A possible execution order of the runtime: every node exactly once, dependencies first. -/
structure Schedule (P : Type) where
  order : List (Node P)
  nodup : order.Nodup
  complete : ∀ n, n ∈ order
  respects : ∀ pre n post, order = pre ++ n :: post → ∀ d ∈ n.deps, d ∈ pre

/-- One `session.run([theta_t, cost])`. -/
def run (inp : Inputs P) (σ : Schedule P) (s : State P) : State P := σ.order.foldl (exec inp) s

end

end PySGMCMC.Relativistic
