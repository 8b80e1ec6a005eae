import Verif.Model.TensorUtils
import Verif.Model.SamplerBase

/-!
# Model of `pysgmcmc/samplers/svgd.py`

`n` particles, each a vector of `d` coordinates.  The whole step reads the particles once, through
`self.particles = tf.stack(particles)`; as in `Model/SGHMC.lean` a session run executes every node once, in any order
that respects the data dependencies (there are no control dependencies).

Simplifications: `pdist`, `squareform` and `median` are modelled for finite positions (`Model/TensorUtils.lean`); what
the kernel yields for particles with non-finite coordinates is left open (`Inputs.unspecified`).
-/

namespace PySGMCMC.SVGD
open TensorUtils

/-! ## Construction -/

/-- What the constructor looks at. -/
structure CtorArgs where
  /-- `isinstance(alpha, (int, float))` -/
  alphaNumber : Bool
  /-- `isinstance(fudge_factor, (int, float))` -/
  fudgeNumber : Bool
  /-- `hasattr(cost_fun, "__name__")` -/
  costNamed : Bool
  /-- the arguments passed on to `MCMCSampler.__init__`; `costFun` is the user's function -/
  base : SamplerBase.CtorArgs
  /-- the graph already has a variable `historical_grad` -/
  histExists : Bool
  /-- static shapes of the particles -/
  shapes : List (List Nat)

/-- `tf.stack(particles)`: the static shape of the result. -/
def stackShape : List (List Nat) → Except PyErr (List Nat)
  | [] => .ok [0]
  | s :: rest => if rest.all (· == s) then .ok ((rest.length + 1) :: s) else .error (.value "stack")

/-- `tf.squeeze`: all dimensions of size one are removed. -/
def squeeze (shape : List Nat) : List Nat := shape.filter (· != 1)

/-- `tf.matmul(a, b)` for a `rows × cols` matrix `a`. -/
def matmulOk (cols : Nat) (b : List Nat) : Except PyErr Unit :=
  match b with
  | [k, _] => if k = cols then .ok () else .error (.value "matmul")
  | _ => .error (.value "matmul")

/-- `SVGDSampler.__init__` (`svgd.py:81-144`) as far as it can raise. The wrapper passed to the base class is always
callable. -/
def construct (a : CtorArgs) : Except PyErr Unit := do
  if !a.alphaNumber then .error .assertion
  if !a.fudgeNumber then .error .assertion
  if !a.base.costFun.isCallable then .error .assertion
  let particles ← stackShape a.shapes
  if !a.costNamed then .error .attribute
  SamplerBase.ctorCheck a.base
  if a.histExists then .error (.value "historical_grad")
  let lnpgrad := squeeze (1 :: particles)
  match particles with
  | [n, _] => matmulOk n lnpgrad
  | _ => .error (.value "2-d")

/-! ## The kernel -/

/-- Kernel matrix and kernel gradients. -/
structure Kernel (n d : Nat) where
  matrix : Fin n → Fin n → Fl
  grads : Fin n → Fin d → Fl

/-- `tf.stack(particles)`. -/
def stackTensor {n d : Nat} (x : Fin n → Fin d → ℝ) : Tensor ℝ :=
  ⟨[n, d], (List.ofFn fun i => List.ofFn (x i)).flatten⟩

noncomputable section

variable {n d : Nat}

/-- `squareform(pdist(particles)) ** 2` (`svgd.py:164-165`). -/
def pairwiseDistances (x : Fin n → Fin d → ℝ) : Except PyErr (Tensor ℝ) := do
  let e ← pdist (.tensor (stackTensor x)) "euclidean"
  let sq ← squareform (.tensor e)
  .ok ⟨sq.shape, sq.data.map (· ^ 2)⟩

/-- The bandwidth `h` (`svgd.py:168-170`). -/
def bandwidth (n : Nat) (med : ℝ) : Fl := Fl.sqrt (Fl.fin 0.5 * Fl.fin med / Fl.log (Fl.fin n + 1))

/-- An entry of the kernel matrix (`svgd.py:172`). -/
def kernelEntry (h : Fl) (dist : ℝ) : Fl := Fl.exp (-(Fl.fin dist) / Fl.npow h 2 / 2)

/-- `svgd_kernel` (`svgd.py:146-180`). -/
def svgdKernel (x : Fin n → Fin d → ℝ) : Except PyErr (Kernel n d) := do
  let pairwise ← pairwiseDistances x
  let med ← median pairwise
  let h := bandwidth n med
  let matrix : Fin n → Fin n → Fl := fun i j => kernelEntry h ((pairwise.get [i, j]).getD 0)
  let kernelSum : Fin n → Fl := fun i => Fl.sum (List.ofFn (matrix i))
  let grads : Fin n → Fin d → Fl := fun i a =>
    (-(Fl.sum (List.ofFn fun j => matrix i j * Fl.fin (x j a))) + Fl.fin (x i a) * kernelSum i) / Fl.npow h 2
  .ok ⟨matrix, grads⟩

/-! ## One session run -/

/-- Everything a run depends on besides the variables. -/
structure Inputs (n d : Nat) where
  epsilon : Fl
  alpha : Fl
  fudge : Fl
  /-- gradient of the user's cost function of one particle, on this run's batch -/
  grad : (Fin d → Fl) → Fin d → Fl
  /-- the user's cost function of one particle, on this run's batch -/
  cost : (Fin d → Fl) → Fl
  /-- kernel for positions that are not all finite -/
  unspecified : (Fin n → Fin d → Fl) → Kernel n d

open Classical in
/-- `self.svgd_kernel(self.particles)` (`svgd.py:123`). -/
def kernelOf (inp : Inputs n d) (x : Fin n → Fin d → Fl) : Kernel n d :=
  if ∀ i a, (x i a).IsFin then
    match svgdKernel fun i a => (x i a).val with
    | .ok k => k
    | .error _ => inp.unspecified x
  else inp.unspecified x

/-- `grad_theta` (`svgd.py:121-128`). -/
def gradTheta (inp : Inputs n d) (x : Fin n → Fin d → Fl) : Fin n → Fin d → Fl := fun i a =>
  let k := kernelOf inp x
  (Fl.sum (List.ofFn fun j => k.matrix i j * inp.grad (x j) a) + k.grads i a) / Fl.fin n

/-- Right-hand side of `historical_grad_t` (`svgd.py:130-133`). -/
def rhsHist (alpha hist grad : Fl) : Fl := alpha * hist + (1 - alpha) * Fl.npow grad 2

/-- `adj_grad` (`svgd.py:135-138`). -/
def adjGrad (fudge grad hist : Fl) : Fl := grad / (fudge + Fl.sqrt hist)

/-- Nodes of the graph. -/
inductive Node (n : Nat) where
  /-- `tf.stack(particles)` -/
  | stack
  /-- `grad_theta` -/
  | grad
  /-- value for `historical_grad_t` -/
  | xHist
  /-- `historical_grad_t` -/
  | setHist
  /-- `adj_grad` -/
  | adj
  /-- `self.theta_t[i]` -/
  | sub (i : Fin n)
  /-- `self.cost` -/
  | cost
deriving DecidableEq

/-- Data dependencies. -/
def Node.deps : Node n → List (Node n)
  | .stack => []
  | .grad => [.stack]
  | .xHist => [.grad]
  | .setHist => [.xHist]
  | .adj => [.grad, .setHist]
  | .sub _ => [.adj]
  | .cost => [.stack]

/-- Variables (first two), intermediate results and the fetched cost (one per particle). -/
structure State (n d : Nat) where
  particles : Fin n → Fin d → Fl
  hist : Fin n → Fin d → Fl
  tStack : Fin n → Fin d → Fl
  tGrad : Fin n → Fin d → Fl
  tHist : Fin n → Fin d → Fl
  tAdj : Fin n → Fin d → Fl
  cost : Fin n → Fl

/-- Execute one node (`svgd.py:85-88`, `121-144`). -/
def exec (inp : Inputs n d) (s : State n d) : Node n → State n d
  | .stack => { s with tStack := s.particles }
  | .grad => { s with tGrad := gradTheta inp s.tStack }
  | .xHist => { s with tHist := fun i a => rhsHist inp.alpha (s.hist i a) (s.tGrad i a) }
  | .setHist => { s with hist := s.tHist }
  | .adj => { s with tAdj := fun i a => adjGrad inp.fudge (s.tGrad i a) (s.hist i a) }
  | .sub i =>
    let new := fun a => s.particles i a - inp.epsilon * s.tAdj i a
    { s with particles := Function.update s.particles i new }
  | .cost => { s with cost := fun i => inp.cost (s.tStack i) }

/-- A possible execution order of the runtime: every node exactly once, dependencies first. -/
structure Schedule (n : Nat) where
  order : List (Node n)
  nodup : order.Nodup
  complete : ∀ x, x ∈ order
  respects : ∀ pre x post, order = pre ++ x :: post → ∀ y ∈ x.deps, y ∈ pre

/-- One `session.run([theta_t, cost])`. -/
def run (inp : Inputs n d) (σ : Schedule n) (s : State n d) : State n d := σ.order.foldl (exec inp) s

/-- The variables after the constructor (`svgd.py:112-119`), for particles at `x`. -/
def State.init (x : Fin n → Fin d → Fl) : State n d :=
  { particles := x, hist := fun _ _ => 0, tStack := fun _ _ => 0, tGrad := fun _ _ => 0, tHist := fun _ _ => 0,
    tAdj := fun _ _ => 0, cost := fun _ => 0 }

end

end PySGMCMC.SVGD
