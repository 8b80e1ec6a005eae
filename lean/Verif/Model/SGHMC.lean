import Verif.Model.BurnInStats

/-!
# Model of `pysgmcmc/samplers/sghmc.py`: the TensorFlow graph and one `session.run`

A session run executes every node of the graph exactly once, in any order that respects data and control
dependencies.  A node that computes something reads the variables it uses at the moment it is executed
(in TensorFlow 1 reading a variable does not copy it); a separate node performs the assignment.
Nodes exist once per target parameter; `cost` is the fetched cost.

`P` is the type of target parameters, `ι i` the type of element positions of parameter `i` (vectorizing only changes
the shape, see C21).  Gradient, cost, normal draws and fed values are inputs.
Simplification: the gradient of one parameter is evaluated at one moment, and so is the cost.
-/

namespace PySGMCMC.SGHMC

open BurnInStats

/-- The nodes of one parameter. `x…` evaluates an expression, `set…` is an assign op. -/
inductive Op where
  /-- the gradient (`sghmc.py:121`) -/
  | xGrad
  /-- `1. / (tau + 1)` -/
  | xR
  /-- `r_t` -/
  | setR
  | xTau
  /-- `tau_t` -/
  | setTau
  | xMinv
  /-- `minv_t` -/
  | setMinv
  | xG
  /-- `g_t` -/
  | setG
  | xVhat
  /-- `v_hat_t` -/
  | setVhat
  /-- `sigma * normal` -/
  | xSample
  | xMom
  /-- `v_t` -/
  | setMom
  /-- `vectorized_Theta_t` -/
  | setVec
  /-- `theta_t` -/
  | setParam
deriving DecidableEq, Repr

/-- All nodes of a parameter. -/
def Op.all : List Op :=
  [.xGrad, .xR, .setR, .xTau, .setTau, .xMinv, .setMinv, .xG, .setG, .xVhat, .setVhat, .xSample, .xMom, .setMom,
    .setVec, .setParam]

/-- Data and control dependencies (`sghmc.py:165-251`); the control dependencies are those of the
`with tf.control_dependencies` blocks in lines 171, 185 and 200. -/
def Op.deps : Op → List Op
  | .xGrad => []
  | .xR => []
  | .setR => [.xR]
  | .xTau => [.setR]
  | .setTau => [.xTau, .setR]
  | .xMinv => [.setR]
  | .setMinv => [.xMinv, .setR]
  | .xG => [.setTau, .setMinv, .setR, .xGrad]
  | .setG => [.xG, .setTau, .setMinv, .setR]
  | .xVhat => [.setTau, .setMinv, .setR, .xGrad]
  | .setVhat => [.xVhat, .setTau, .setMinv, .setR]
  | .xSample => [.setG, .setVhat, .setMinv]
  | .xMom => [.setG, .setVhat, .setMinv, .xGrad, .xSample]
  | .setMom => [.xMom, .setG, .setVhat]
  | .setVec => [.setMom, .setG, .setVhat]
  | .setParam => [.setVec, .setG, .setVhat]

/-- Variables (first eight) and intermediate results of one parameter; each is a vector of elements. -/
structure PState (ι : Type) where
  tau : ι → Fl
  r : ι → Fl
  g : ι → Fl
  vhat : ι → Fl
  minv : ι → Fl
  /-- `V`, the momentum -/
  mom : ι → Fl
  /-- `vectorized_param` -/
  vec : ι → Fl
  /-- the target parameter itself -/
  param : ι → Fl
  tGrad : ι → Fl
  tR : ι → Fl
  tTau : ι → Fl
  tMinv : ι → Fl
  tG : ι → Fl
  tVhat : ι → Fl
  tSample : ι → Fl
  tMom : ι → Fl

variable {P : Type} [DecidableEq P] {ι : P → Type}

/-- Everything a run depends on besides the variables. -/
structure Inputs (ι : P → Type) where
  /-- the stepsize fed for `self.epsilon` -/
  epsilon : Fl
  scaleGrad : Fl
  mdecay : Fl
  /-- the normal draws of this run -/
  normal : ∀ i, ι i → Fl
  /-- gradient of the cost function on this run's batch -/
  grad : (∀ i, ι i → Fl) → ∀ i, ι i → Fl
  /-- the cost function on this run's batch -/
  cost : (∀ i, ι i → Fl) → Fl
  /-- values fed for `minv_t[i]` -/
  fed : ∀ i, Option (ι i → Fl)

noncomputable section

/-- `epsilon_scaled` (`sghmc.py:115`). -/
def epsilonScaled (epsilon scaleGrad : Fl) : Fl := epsilon / Fl.sqrt scaleGrad

/-- `noise` (`sghmc.py:111`). -/
def noiseConst : Fl := 0

/-- `noise_scale` (`sghmc.py:211-217`). -/
def noiseScale (es mdecay minv : Fl) : Fl :=
  2 * Fl.npow es 2 * mdecay * minv - 2 * Fl.npow es 3 * Fl.npow minv 2 * noiseConst - Fl.npow es 4

/-- `sigma` (`sghmc.py:220`). -/
def sigma (es mdecay minv : Fl) : Fl := Fl.sqrt (Fl.max (noiseScale es mdecay minv) (Fl.fin 1e-16))

/-- Increment of the momentum (`sghmc.py:235-236`). -/
def rhsMom (epsilon mdecay minv grad mom sample : Fl) : Fl :=
  -(Fl.npow epsilon 2) * minv * grad - mdecay * mom + sample

/-- The value of `minv_t` seen by its consumers: feeding a tensor replaces its value but the assign op still runs
because of the control dependencies on it. -/
def minvSeen {κ : Type} (fed : Option (κ → Fl)) (minv : κ → Fl) : κ → Fl := fed.getD minv

/-- Effect of a node of parameter `i`; `params` are the current values of all target parameters. -/
def evalOp (inp : Inputs ι) (params : ∀ i, ι i → Fl) (i : P) (o : Op) (p : PState (ι i)) : PState (ι i) :=
  match o with
  | .xGrad => { p with tGrad := inp.grad params i }
  | .xR => { p with tR := fun k => rhsR (p.tau k) }
  | .setR => { p with r := p.tR }
  | .xTau => { p with tTau := fun k => rhsTau (p.g k) (p.tau k) (p.vhat k) }
  | .setTau => { p with tau := fun k => p.tau k + p.tTau k }
  | .xMinv => { p with tMinv := fun k => rhsMinv (p.vhat k) }
  | .setMinv => { p with minv := p.tMinv }
  | .xG => { p with tG := fun k => rhsG (p.r k) (p.g k) (p.tGrad k) }
  | .setG => { p with g := fun k => p.g k + p.tG k }
  | .xVhat => { p with tVhat := fun k => rhsVhat (p.r k) (p.vhat k) (p.tGrad k) }
  | .setVhat => { p with vhat := fun k => p.vhat k + p.tVhat k }
  | .xSample =>
    let sample := fun k =>
      sigma (epsilonScaled inp.epsilon inp.scaleGrad) inp.mdecay (minvSeen (inp.fed i) p.minv k) * inp.normal i k
    { p with tSample := sample }
  | .xMom =>
    let rhs := fun k =>
      rhsMom inp.epsilon inp.mdecay (minvSeen (inp.fed i) p.minv k) (p.tGrad k) (p.mom k) (p.tSample k)
    { p with tMom := rhs }
  | .setMom => { p with mom := fun k => p.mom k + p.tMom k }
  | .setVec => { p with vec := fun k => p.vec k + p.mom k }
  | .setParam => { p with param := p.vec }

/-- Nodes of the whole graph. -/
inductive Node (P : Type) where
  | op (i : P) (o : Op)
  | cost

/-- State of all parameters plus the fetched cost. -/
structure State (ι : P → Type) where
  par : ∀ i, PState (ι i)
  cost : Fl

/-- The current values of the target parameters. -/
def State.params (s : State ι) : ∀ i, ι i → Fl := fun i => (s.par i).param

/-- Execute one node. -/
def exec (inp : Inputs ι) (s : State ι) : Node P → State ι
  | .op i o => { s with par := Function.update s.par i (evalOp inp s.params i o (s.par i)) }
  | .cost => { s with cost := inp.cost s.params }

/-- Dependencies of a node. -/
def Node.deps : Node P → List (Node P)
  | .op i o => o.deps.map (Node.op i)
  | .cost => []

/-- A possible execution order of the runtime: every node exactly once, dependencies first. -/
structure Schedule (P : Type) where
  order : List (Node P)
  nodup : order.Nodup
  complete : ∀ n, n ∈ order
  respects : ∀ pre n post, order = pre ++ n :: post → ∀ d ∈ n.deps, d ∈ pre

/-- One `session.run([theta_t, cost, minv_t])`. -/
def run (inp : Inputs ι) (σ : Schedule P) (s : State ι) : State ι := σ.order.foldl (exec inp) s

/-- Values after running the initializers (`sghmc.py:126-155`) for parameter values `θ`. -/
def PState.init {κ : Type} (θ : κ → Fl) : PState κ where
  tau _ := tau0
  r _ := r0
  g _ := g0
  vhat _ := vhat0
  minv _ := minv0
  mom _ := 0
  vec := θ
  param := θ
  tGrad _ := 0
  tR _ := 0
  tTau _ := 0
  tMinv _ := 0
  tG _ := 0
  tVhat _ := 0
  tSample _ := 0
  tMom _ := 0

end

/-- All variables after running the initializers (`sghmc.py:126-155`, `base_classes.py:103-119`), for the values `θ` in the sampler's working
copies and `θ0` in the target parameters. -/
noncomputable def State.start {P : Type} {ι : P → Type} (θ θ0 : ∀ i, ι i → Fl) : State ι := ⟨fun i => { PState.init (θ i) with param := θ0 i }, 0⟩

end PySGMCMC.SGHMC
