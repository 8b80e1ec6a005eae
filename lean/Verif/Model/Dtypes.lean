import Verif.Py.Basic

/-!
# Element types (`dtype`) of the graphs that samplers and networks build

TensorFlow converts Python numbers to the type of the tensor they meet, but it never converts one tensor type to another: an
operation on a `float32` and a `float64` tensor fails when the graph is built.  Here every definition maps the types of the
inputs to the type of the result; `none` means that TensorFlow raises `TypeError` or `ValueError` (which of the two is not
modelled).  Values are in the other files of the model.

Simplifications: complex, quantized, `bfloat16` and other integer types are left out; operands have known types; cost
functions are differentiable with respect to all parameters, so that the gradients exist and have the types of the parameters.
-/

namespace PySGMCMC.Dtypes

/-- `tf.DType`. -/
inductive DType where
  | float16 | float32 | float64 | int32 | int64 | bool
deriving DecidableEq, Repr

/-- `dtype.is_floating`. -/
def DType.floating : DType → Bool
  | .float16 | .float32 | .float64 => true
  | _ => false

/-- An operand: a tensor or variable of some type, or a Python number. -/
inductive Val where
  | tensor (d : DType)
  | float
  | int
deriving DecidableEq, Repr

/-- The type of a tensor. -/
def Val.dtype? : Val → Option DType
  | .tensor d => some d
  | _ => none

/-! ## Rules of TensorFlow -/

/-- `tf.convert_to_tensor(v, dtype=d)`. -/
def convert (v : Val) (d : DType) : Option Val :=
  match v with
  | .tensor e => if e = d then some (.tensor d) else none
  | .float => if d.floating then some (.tensor d) else none
  | .int => if d = .bool then none else some (.tensor d)

/-- `tf.convert_to_tensor(v)`: Python numbers become `float32` and `int32`. -/
def convertAny : Val → Val
  | .tensor e => .tensor e
  | .float => .tensor .float32
  | .int => .tensor .int32

/-- `tf.constant(v, dtype=d)`: the value is a Python number. -/
def constant (v : Val) (d : DType) : Option Val :=
  match v with
  | .tensor _ => none
  | v => convert v d

/-- `a + b`, `a - b`, `a * b`, `a ** b`: a Python number is converted to the type of the other operand; otherwise the types
have to agree. -/
def arith (a b : Val) : Option Val :=
  match a, b with
  | .tensor d, b => if d = .bool then none else convert b d
  | a, .tensor d => if d = .bool then none else convert a d
  | .int, .int => some .int
  | _, _ => some .float

/-- `a / b` and `tf.divide(a, b)`: the same, but integers are divided as `float64`. -/
def quotient (a b : Val) : Option Val :=
  match arith a b with
  | some (.tensor d) => some (.tensor (if d.floating then d else .float64))
  | some _ => some .float
  | none => none

/-- `-a`, `tf.square(a)`, `tf.sign(a)`, `tf.reduce_sum(a)`, `tf.reduce_mean(a)`, `tf.reduce_prod(a)`: any numeric type. -/
def numeric (a : Val) : Option Val :=
  match convertAny a with
  | .tensor d => if d = .bool then none else some (.tensor d)
  | v => some v

/-- `tf.sqrt(a)`, `tf.exp(a)`, `tf.log(a)`, `tf.tanh(a)`, `tf.norm(a)`: floating types only. -/
def analytic (a : Val) : Option Val :=
  match convertAny a with
  | .tensor d => if d.floating then some (.tensor d) else none
  | v => some v

/-- `tf.maximum(a, b)`, `tf.matmul(a, b)` and the two halves of `tf.clip_by_value`: inputs of one numeric type. -/
def same (a b : Val) : Option Val :=
  match a with
  | .tensor d => if d = .bool then none else convert b d
  | _ => none

/-- `tf.stack(l)`, `tf.concat(l)`, `tf.dynamic_stitch(l)`, `tf.convert_to_tensor(l)` for tensors of types `l`; without
elements the result is `float32`. -/
def stack : List DType → Option Val
  | [] => some (.tensor .float32)
  | d :: l => if l.all (· == d) then some (.tensor d) else none

/-- `tf.Variable(v, dtype=d)` and `tf.get_variable(…, dtype=d, initializer=v)`. -/
def newVariable (v : Val) (d : DType) : Option Val := convert v d

/-- `tf.ones_like(a, dtype=d)`, `tf.zeros_like(a, dtype=d)`. -/
def onesLike (_ : Val) (d : DType) : Option Val := some (.tensor d)

/-- `tf.random_normal(shape, dtype=d)` and the initializers with random values. -/
def randomNormal (d : DType) : Option Val := if d.floating then some (.tensor d) else none

/-- `tf.cast(a, d)`. -/
def cast (_ : Val) (d : DType) : Option Val := some (.tensor d)

/-- `tf.assign(ref, v)`, `tf.assign_add(ref, v)`, `tf.assign_sub(ref, v)`. -/
def assign (ref v : Val) : Option Val :=
  match ref with
  | .tensor d => convert v d
  | _ => none

/-! ## `tensor_utils.py` -/

/-- `vectorize` (`tensor_utils.py:86-105`). -/
def vectorize (a : Val) : Option Val :=
  match a with
  | .tensor d => some (.tensor d)
  | _ => none

/-- `unvectorize` (`tensor_utils.py:153`). -/
def unvectorize (a : Val) : Option Val := some (convertAny a)

/-- `median` (`tensor_utils.py:196-208`) of a tensor with `n` elements. -/
def median (n : Nat) (a : Val) : Option Val := do
  let x ← numeric a
  if n % 2 = 1 then some x else quotient (← arith x x) .int

/-- `safe_divide` (`tensor_utils.py:269`). -/
def safeDivide (x y : Val) : Option Val := do
  let s ← numeric y
  quotient x (← arith y (← arith (← arith (← arith .float s) .float) .float))

/-- `safe_sqrt` (`tensor_utils.py:272-317`). -/
def safeSqrt (x : Val) : Option Val := do
  analytic (← same (← same (convertAny x) .float) .float)

/-- `pdist` (`tensor_utils.py:371-404`) of a matrix with `m` rows. -/
def pdist (m : Nat) (a : Val) : Option Val :=
  match a with
  | .tensor d => do
    let pairs := (List.range m).flatMap fun i => (List.range m).filter fun j => decide (i < j)
    let ds ← pairs.mapM fun _ => (arith (.tensor d) (.tensor d)).bind analytic
    stack (ds.filterMap Val.dtype?)
  | _ => none

/-- `squareform` (`tensor_utils.py:464-575`) of a vector with `n` elements. -/
def squareform (n : Nat) (a : Val) : Option Val :=
  match a with
  | .tensor d => if n = 0 then some (.tensor d) else do
    let v ← stack [d, d, d]
    arith v v
  | _ => none

/-! ## `samplers/base_classes.py` -/

/-- `MCMCSampler.__init__` (`base_classes.py:97-108`): the copies of the parameters and `epsilon`. -/
def baseInit (dtype : DType) (initialValue : Val) (params : List DType) : Option (List Val × Val) := do
  let vec ← params.mapM fun d => vectorize (.tensor d)
  let epsilon ← newVariable initialValue dtype
  return (vec, epsilon)

/-- `_draw_noise_sample` (`base_classes.py:218-220`). -/
def drawNoiseSample (dtype : DType) (sigma : Val) : Option Val := do arith sigma (← randomNormal dtype)

/-- The variables and updates that SGHMC and SGLD share (`sghmc.py:126-197`, `sgld.py:117-180`) for one parameter:
the types of `minv_t`, `g_t` and `v_hat_t`. -/
def burnInStats (dtype : DType) (vec grad : Val) : Option (Val × Val × Val) := do
  let tau ← newVariable (← onesLike vec dtype) dtype
  let r ← quotient .float (← arith tau .int)
  let g ← newVariable (← onesLike vec dtype) dtype
  let vHat ← newVariable (← onesLike vec dtype) dtype
  let minv ← quotient (← constant .float dtype) (← analytic vHat)
  let rT ← assign r (← quotient .float (← arith tau .int))
  let _ ← assign tau (← arith (← safeDivide (← arith (← arith (← numeric g) g) tau) vHat) .int)
  let minvT ← assign minv (← safeDivide .float (← safeSqrt vHat))
  let gT ← assign g (← arith (← arith (← numeric rT) g) (← arith rT grad))
  let vHatT ← assign vHat (← arith (← arith (← numeric rT) vHat) (← arith rT (← arith grad .int)))
  return (minvT, gT, vHatT)

/-! ## `samplers/sghmc.py` -/

/-- The loop body of `SGHMCSampler.__init__` (`sghmc.py:152-253`) for one parameter of type `p`: the type of its samples. -/
def sghmcParam (dtype : DType) (noise epsilon epsilonScaled mdecay : Val) (p : DType) (vec : Val) : Option Val := do
  let grad ← vectorize (.tensor p)
  let mom ← newVariable (← onesLike vec dtype) dtype
  let (minvT, _, _) ← burnInStats dtype vec grad
  let a ← arith (← arith (← arith (← constant .float dtype) (← arith epsilonScaled (← constant .float dtype))) mdecay) minvT
  let b ← arith (← arith (← arith (← constant .float dtype) (← arith epsilonScaled (← constant .float dtype)))
    (← numeric minvT)) noise
  let noiseScale ← arith (← arith a b) (← arith epsilonScaled .int)
  let sigma ← analytic (← same noiseScale .float)
  let sample ← drawNoiseSample dtype sigma
  let force ← arith (← arith (← numeric (← arith epsilon .int)) minvT) grad
  let vT ← assign mom (← arith (← arith force (← arith mdecay mom)) sample)
  let theta ← assign vec vT
  assign (.tensor p) (← unvectorize theta)

/-- `SGHMCSampler.__init__` (`sghmc.py:102-253`): the types of the samples. -/
def sghmc (dtype : DType) (initialValue scaleGrad mdecay : Val) (params : List DType) : Option (List Val) := do
  let (vec, epsilon) ← baseInit dtype initialValue params
  let noise ← constant .float dtype
  let scaleGrad ← constant scaleGrad dtype
  let epsilonScaled ← quotient epsilon (← analytic scaleGrad)
  let mdecay ← constant mdecay dtype
  (params.zip vec).mapM fun pv => sghmcParam dtype noise epsilon epsilonScaled mdecay pv.1 pv.2

/-! ## `samplers/sgld.py` -/

/-- The loop body of `SGLDSampler.__init__` (`sgld.py:117-213`) for one parameter of type `p`. -/
def sgldParam (dtype : DType) (noise epsilon a scaleGrad : Val) (p : DType) (vec : Val) : Option Val := do
  let grad ← vectorize (.tensor p)
  let (minvT, _, _) ← burnInStats dtype vec grad
  let spread ← safeDivide (← arith minvT (← arith a noise)) scaleGrad
  let sigma ← safeSqrt (← arith (← arith .float epsilon) spread)
  let sample ← drawNoiseSample dtype sigma
  let drift ← arith (← arith (← arith (← numeric epsilon) minvT) a) grad
  let theta ← assign vec (← arith drift sample)
  assign (.tensor p) (← unvectorize theta)

/-- `SGLDSampler.__init__` (`sgld.py:96-213`); the schedule is not passed on, so `epsilon` starts at the default `0.01`. -/
def sgld (dtype : DType) (scaleGrad a : Val) (params : List DType) : Option (List Val) := do
  let (vec, epsilon) ← baseInit dtype .float params
  let a ← constant a dtype
  let noise ← constant .float dtype
  let scaleGrad ← constant scaleGrad dtype
  (params.zip vec).mapM fun pv => sgldParam dtype noise epsilon a scaleGrad pv.1 pv.2

/-! ## `samplers/relativistic_sghmc.py` -/

/-- `p_grad` and `p_grad_new` (`relativistic_sghmc.py:123`, `131`). -/
def pGrad (epsilon m c momentum : Val) : Option Val := do
  let ratio ← quotient (← arith momentum momentum) (← arith (← numeric m) (← numeric c))
  quotient (← arith epsilon momentum) (← arith m (← analytic (← arith ratio .int)))

/-- The loop body (`relativistic_sghmc.py:108-140`) for one parameter of type `p`. The drawn momentum is a number. -/
def relativisticParam (dtype : DType) (epsilon d bHat m c : Val) (p : DType) (vec : Val) : Option Val := do
  let grad ← vectorize (← numeric (.tensor p))
  let momentum ← newVariable .float dtype
  let v ← pGrad epsilon m c momentum
  let spread ← arith epsilon (← arith (← arith .int d) (← arith epsilon bHat))
  let n ← arith (← analytic spread) (← randomNormal dtype)
  let momentumT ← assign momentum (← arith (← arith (← arith epsilon grad) n) (← arith d v))
  let theta ← assign vec (← pGrad epsilon m c momentumT)
  assign (.tensor p) (← unvectorize theta)

/-- `RelativisticSGHMCSampler.__init__` (`relativistic_sghmc.py:91-140`); mass and speed of light are floats
(`relativistic_sghmc.py:205-206`). -/
def relativistic (dtype : DType) (initialValue d bHat : Val) (params : List DType) : Option (List Val) := do
  let (vec, epsilon) ← baseInit dtype initialValue params
  let d ← constant d dtype
  let bHat ← constant bHat dtype
  let m ← constant .float dtype
  let c ← constant .float dtype
  (params.zip vec).mapM fun pv => relativisticParam dtype epsilon d bHat m c pv.1 pv.2

/-! ## `samplers/svgd.py` -/

/-- `svgd_kernel` (`svgd.py:165-180`) for `n` particles: the types of the kernel matrix and of its gradients. -/
def svgdKernel (n : Nat) (nParticles particles : Val) : Option (Val × Val) := do
  let distances ← squareform (n * (n - 1) / 2) (← pdist n particles)
  let squares ← arith distances .int
  let h ← analytic (← quotient (← arith .float (← median (n * n) squares)) (← analytic (← arith nParticles .float)))
  let kernel ← analytic (← quotient (← quotient (← numeric squares) (← arith h .int)) .int)
  let sum ← numeric kernel
  let grads ← arith (← numeric (← same kernel particles)) (← arith particles sum)
  return (kernel, ← quotient grads (← arith h .int))

/-- `SVGDSampler.__init__` (`svgd.py:82-144`) for particles of types `params` and a cost of type `cost`: `tf.map_fn` declares
the type of the particles for its results. -/
def svgd (dtype : DType) (initialValue alpha fudge : Val) (cost : DType) (params : List DType) : Option (List Val) := do
  if params = [] then none else
  let particles ← stack params
  let _ ← assign particles (.tensor cost)
  let _ ← baseInit dtype initialValue params
  let fudge ← constant fudge dtype
  let epsilon ← newVariable initialValue dtype
  let nParticles ← cast .int dtype
  let hist ← newVariable (.tensor dtype) dtype
  let (kernel, grads) ← svgdKernel params.length nParticles particles
  let gradTheta ← quotient (← arith (← same kernel particles) grads) nParticles
  let histT ← assign hist (← arith (← arith alpha hist) (← arith (← arith .float alpha) (← arith gradTheta .int)))
  let adj ← quotient gradTheta (← arith fudge (← analytic histT))
  params.mapM fun p => do assign (.tensor p) (← arith epsilon adj)

/-! ## `models/bayesian_neural_network.py` -/

/-- `tf.layers.dense` (`bayesian_neural_network.py:30-56`): weights have the type of the inputs. -/
def dense (inputs : Val) : Option Val :=
  match inputs with
  | .tensor d => do
    let kernel ← newVariable (← randomNormal d) d
    let bias ← newVariable (.tensor d) d
    arith (← same inputs kernel) bias
  | _ => none

/-- `get_default_net` (`bayesian_neural_network.py:28-70`). -/
def defaultNet (dtype : DType) (inputs : Val) : Option Val := do
  let l1 ← analytic (← dense inputs)
  let l2 ← analytic (← dense l1)
  let l3 ← analytic (← dense l2)
  let l4 ← dense l3
  let bias ← newVariable .float dtype
  match l4, ← arith (← onesLike l4 dtype) bias with
  | .tensor a, .tensor b => stack [a, b]
  | _, _ => none

/-- `log_variance_prior_log_like` (`bayesian_neural_network.py:102-107`). -/
def logVariancePrior (dtype : DType) (logVar : Val) : Option Val := do
  let mean ← constant .float dtype
  let var ← constant .float dtype
  let q ← safeDivide (← numeric (← numeric (← arith logVar (← analytic mean)))) (← arith .float var)
  numeric (← numeric (← arith q (← arith .float (← analytic var))))

/-- `weight_prior_log_like` (`bayesian_neural_network.py:131-141`) for variables of types `params`. -/
def weightPrior (dtype : DType) (params : List DType) : Option Val := do
  let wdecay ← constant .float dtype
  let logLike ← params.foldlM (fun ll p => do
    arith ll (← numeric (← arith (← arith (← numeric wdecay) .float) (← numeric (.tensor p))))) (← convert .float dtype)
  let nParams ← params.foldlM (fun n _ => do
    arith n (← cast (← numeric (.tensor .float32)) dtype)) (← convert .float dtype)
  safeDivide logLike nParams

/-- `negative_log_likelihood` (`bayesian_neural_network.py:363-388`) with the placeholders of `train` (`421-426`) and the
default network; `trainable` are the types of all trainable variables of the graph. -/
def negativeLogLikelihood (dtype : DType) (trainable : List DType) : Option Val := do
  let output ← defaultNet dtype (.tensor dtype)
  let varInv ← quotient .float (← arith (← analytic output) .float)
  let mse ← numeric (← arith (.tensor dtype) output)
  let ll ← numeric (← numeric (← arith (← arith (← numeric mse) (← arith .float varInv)) (← arith .float output)))
  let ll ← quotient ll (← constant .int dtype)
  let nExamples ← constant .int dtype
  let ll ← arith ll (← quotient (← logVariancePrior dtype output) nExamples)
  let ll ← arith ll (← quotient (← weightPrior dtype trainable) nExamples)
  numeric ll

end PySGMCMC.Dtypes
