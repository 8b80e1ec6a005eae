import Verif.Py.Round
import Verif.Model.TensorUtils
import Verif.Model.SGHMC
import Verif.Model.SGLD
import Verif.Model.Relativistic
import Verif.Model.SVGD
import Verif.Model.BaseModel

/-!
# The formulas of the samplers in floating point arithmetic

The other models compute with exact reals and IEEE special values.  Here the same formulas are written out once more,
operation by operation, with every result rounded (`Py/Round.lean`).  The rounding `A` is a parameter; with
`Arith.exact` the definitions below are those of the other models (`Props/RoundedLink.lean`).

Simplifications: `x ** n` is the correctly rounded power; a Python number is converted to the dtype by one rounding;
subexpressions are not fused or reordered by the runtime.
-/

namespace PySGMCMC.Rounded

variable (A : Arith)

noncomputable section

/-! ## `tensor_utils.py` -/

/-- `safe_divide` (`tensor_utils.py:211-269`). -/
def safeDivide (x y c : Fl) : Fl :=
  A.div x (A.add y (A.add (A.mul (A.mul (A.lit 2) (Fl.sign y)) c) c))

/-- `safe_divide` with the default constant `1e-16`. -/
def safeDivide' (x y : Fl) : Fl := safeDivide A x y (A.lit 1e-16)

/-- `safe_sqrt` with the default bounds (`tensor_utils.py:272-323`). -/
def safeSqrt (x : Fl) : Fl := A.sqrt (Fl.max (Fl.min x Fl.pinf) (A.lit 0))

/-- `(a + b) / 2` in `median` (`tensor_utils.py:208`). -/
def midpoint (a b : Fl) : Fl := A.div (A.add a b) (A.lit 2)

/-- `median` (`tensor_utils.py:160-208`): sorting is exact, only the interpolation is rounded. -/
def median (t : Tensor ℝ) : Except PyErr Fl :=
  let sorted := TensorUtils.topKAll t.data
  let n := t.data.length
  let mid := n / 2
  if n % 2 = 1 then
    match sorted[mid]? with
    | some v => .ok (.fin v)
    | none => .error .index
  else
    if mid = 0 then .error .index
    else match sorted[mid - 1]?, sorted[mid]? with
      | some a, some b => .ok (midpoint A (.fin a) (.fin b))
      | _, _ => .error .index

/-- The argument of `int` in `dimension = int(np.ceil(np.sqrt(n_elements * 2)))` (`tensor_utils.py:478`): the product
of Python ints is exact and converted to a float. -/
def sqrtSize (n : Nat) : Fl := A.sqrt (A.lit ((n : ℝ) * 2))

/-- `dimension` in `squareform` (`tensor_utils.py:478`); `int` of an infinite float is an `OverflowError`, which does
not occur for the sizes of tensors (here: 0). -/
def dimension (n : Nat) : Nat :=
  match sqrtSize A n with
  | .fin r => ⌈r⌉₊
  | _ => 0

/-! ## The adaptive statistics of SGHMC and SGLD -/

/-- Right-hand side of `r_t` (`sghmc.py:168`, `sgld.py:154`). -/
def rhsR (tau : Fl) : Fl := A.div (A.lit 1) (A.add tau (A.lit 1))

/-- Increment of `tau` (`sghmc.py:174`, `sgld.py:159`). -/
def rhsTau (g tau vhat : Fl) : Fl := A.add (safeDivide' A (A.mul (A.mul (-g) g) tau) vhat) (A.lit 1)

/-- Right-hand side of `minv_t` (`sghmc.py:181`, `sgld.py:165`). -/
def rhsMinv (vhat : Fl) : Fl := safeDivide' A (A.lit 1) (safeSqrt A vhat)

/-- Increment of `g` (`sghmc.py:188`, `sgld.py:172`). -/
def rhsG (r g grad : Fl) : Fl := A.add (A.mul (-r) g) (A.mul r grad)

/-- Increment of `v_hat` (`sghmc.py:194`, `sgld.py:178`). -/
def rhsVhat (r vhat grad : Fl) : Fl := A.add (A.mul (-r) vhat) (A.mul r (A.pow grad 2))

/-- The statistics of one element. -/
structure Stats where
  tau : Fl
  g : Fl
  vhat : Fl
  minv : Fl

/-- Initial values (`sghmc.py:126-149`, `sgld.py:117-141`). -/
def Stats.init : Stats where
  tau := A.lit 1
  g := A.lit 1
  vhat := A.lit 1
  minv := A.div (A.lit 1) (A.sqrt (A.lit 1))

/-- The updates of one session run (`sghmc.py:168-197`, `sgld.py:154-180`): `tau` and `minv` use the old `g` and
`v_hat`, `r` the old `tau`. -/
def Stats.step (s : Stats) (grad : Fl) : Stats where
  tau := A.add s.tau (rhsTau A s.g s.tau s.vhat)
  g := A.add s.g (rhsG A (rhsR A s.tau) s.g grad)
  vhat := A.add s.vhat (rhsVhat A (rhsR A s.tau) s.vhat grad)
  minv := rhsMinv A s.vhat

/-- The statistics after a history of gradients. -/
def Stats.after (grads : List Fl) : Stats := grads.foldl (Stats.step A) (Stats.init A)

/-! ## `sghmc.py` -/

/-- `epsilon_scaled` (`sghmc.py:115`). -/
def epsilonScaled (epsilon scaleGrad : Fl) : Fl := A.div epsilon (A.sqrt scaleGrad)

/-- `noise_scale` (`sghmc.py:211-217`). -/
def noiseScale (es mdecay minv : Fl) : Fl :=
  A.sub
    (A.sub (A.mul (A.mul (A.mul (A.lit 2) (A.pow es 2)) mdecay) minv)
      (A.mul (A.mul (A.mul (A.lit 2) (A.pow es 3)) (A.pow minv 2)) (A.lit 0)))
    (A.pow es 4)

/-- `sigma` (`sghmc.py:220`). -/
def sghmcSigma (es mdecay minv : Fl) : Fl := A.sqrt (Fl.max (noiseScale A es mdecay minv) (A.lit 1e-16))

/-- Increment of the momentum (`sghmc.py:235-236`). -/
def sghmcMom (epsilon mdecay minv grad mom sample : Fl) : Fl :=
  A.add (A.sub (A.mul (A.mul (-(A.pow epsilon 2)) minv) grad) (A.mul mdecay mom)) sample

/-- What one session run receives for an element: the stepsize, the gradient, the normal draw and the value fed for
`minv_t` after the burn-in phase (`base_classes.py:449-456`). -/
structure StepIn where
  epsilon : Fl
  grad : Fl
  normal : Fl
  fed : Option Fl

/-- The variables of one element of a target parameter in `SGHMCSampler`. -/
structure Sghmc where
  stats : Stats
  mom : Fl
  theta : Fl

/-- Initial values (`sghmc.py:126-155`). -/
def Sghmc.init (theta : Fl) : Sghmc := ⟨Stats.init A, A.lit 0, theta⟩

/-- One session run (`sghmc.py:165-251`). -/
def Sghmc.step (scaleGrad mdecay : Fl) (s : Sghmc) (x : StepIn) : Sghmc :=
  let stats := s.stats.step A x.grad
  let minv := x.fed.getD stats.minv
  let sample := A.mul (sghmcSigma A (epsilonScaled A x.epsilon scaleGrad) mdecay minv) x.normal
  let mom := A.add s.mom (sghmcMom A x.epsilon mdecay minv x.grad s.mom sample)
  ⟨stats, mom, A.add s.theta mom⟩

/-- A chain of session runs. -/
def Sghmc.run (scaleGrad mdecay theta : Fl) (xs : List StepIn) : Sghmc :=
  xs.foldl (Sghmc.step A scaleGrad mdecay) (Sghmc.init A theta)

/-! ## `sgld.py` -/

/-- `sigma` (`sgld.py:186-191`). -/
def sgldSigma (epsilon a scaleGrad minv : Fl) : Fl :=
  safeSqrt A (A.mul (A.mul (A.lit 2) epsilon) (safeDivide' A (A.mul minv (A.sub a (A.lit 0))) scaleGrad))

/-- Increment of the vectorized parameter (`sgld.py:203`). -/
def sgldVec (epsilon a minv grad sample : Fl) : Fl :=
  A.add (A.mul (A.mul (A.mul (-epsilon) minv) a) grad) sample

/-- The variables of one element of a target parameter in `SGLDSampler`. -/
structure Sgld where
  stats : Stats
  theta : Fl

/-- Initial values (`sgld.py:117-141`). -/
def Sgld.init (theta : Fl) : Sgld := ⟨Stats.init A, theta⟩

/-- One session run (`sgld.py:150-215`). -/
def Sgld.step (a scaleGrad : Fl) (s : Sgld) (x : StepIn) : Sgld :=
  let stats := s.stats.step A x.grad
  let minv := x.fed.getD stats.minv
  let sample := A.mul (sgldSigma A x.epsilon a scaleGrad minv) x.normal
  ⟨stats, A.add s.theta (sgldVec A x.epsilon a minv x.grad sample)⟩

/-- A chain of session runs. -/
def Sgld.run (a scaleGrad theta : Fl) (xs : List StepIn) : Sgld :=
  xs.foldl (Sgld.step A a scaleGrad) (Sgld.init A theta)

/-! ## `relativistic_sghmc.py` -/

/-- `p_grad` (`relativistic_sghmc.py:123`, `131`). -/
def pGrad (epsilon m c p : Fl) : Fl :=
  A.div (A.mul epsilon p)
    (A.mul m (A.sqrt (A.add (A.div (A.mul p p) (A.mul (A.pow m 2) (A.pow c 2))) (A.lit 1))))

/-- The factor of the normal draw (`relativistic_sghmc.py:125`). -/
def noiseFactor (epsilon d bhat : Fl) : Fl :=
  A.sqrt (A.mul epsilon (A.sub (A.mul (A.lit 2) d) (A.mul epsilon bhat)))

/-- Increment of the momentum (`relativistic_sghmc.py:126-129`); `grad` is the gradient of `-cost`. -/
def relMom (epsilon m c d bhat grad normal p : Fl) : Fl :=
  A.sub (A.add (A.mul epsilon grad) (A.mul (noiseFactor A epsilon d bhat) normal)) (A.mul d (pGrad A epsilon m c p))

/-- What one session run of `RelativisticSGHMCSampler` receives for a parameter: the stepsize, the gradient of `-cost`
and the normal draw. -/
structure RelIn where
  epsilon : Fl
  grad : Fl
  normal : Fl

/-- The variables of a target parameter in `RelativisticSGHMCSampler`. -/
structure Rel where
  mom : Fl
  theta : Fl

/-- One session run (`relativistic_sghmc.py:120-135`): the displacement uses the new momentum. -/
def Rel.step (m c d bhat : Fl) (s : Rel) (x : RelIn) : Rel :=
  let mom := A.add s.mom (relMom A x.epsilon m c d bhat x.grad x.normal s.mom)
  ⟨mom, A.add s.theta (pGrad A x.epsilon m c mom)⟩

/-- A chain of session runs from a sampled initial momentum `p` (`relativistic_sghmc.py:108-113`). -/
def Rel.run (m c d bhat p theta : Fl) (xs : List RelIn) : Rel := xs.foldl (Rel.step A m c d bhat) ⟨p, theta⟩

/-! ## `svgd.py` -/

/-- Right-hand side of `historical_grad_t` (`svgd.py:130-133`); `alpha` and `beta` are the Python numbers `alpha` and
`1. - alpha` after conversion to the dtype. -/
def rhsHist (alpha beta hist grad : Fl) : Fl := A.add (A.mul alpha hist) (A.mul beta (A.pow grad 2))

/-- `adj_grad` (`svgd.py:135-138`). -/
def adjGrad (fudge grad hist : Fl) : Fl := A.div grad (A.add fudge (A.sqrt hist))

/-- New value of a particle's coordinate (`svgd.py:140-144`). -/
def particle (x epsilon adj : Fl) : Fl := A.sub x (A.mul epsilon adj)

/-- One coordinate of a particle and its `historical_grad`. -/
structure Svgd where
  hist : Fl
  theta : Fl

/-- One session run (`svgd.py:130-144`) with stepsize `epsilon` and `grad_theta = grad`. -/
def Svgd.step (alpha beta fudge : Fl) (s : Svgd) (x : Fl × Fl) : Svgd :=
  let hist := rhsHist A alpha beta s.hist x.2
  ⟨hist, particle A s.theta x.1 (adjGrad A fudge x.2 hist)⟩

/-- A chain of session runs; `historical_grad` starts at zero (`svgd.py:112-115`). -/
def Svgd.run (alpha beta fudge theta : Fl) (xs : List (Fl × Fl)) : Svgd :=
  xs.foldl (Svgd.step A alpha beta fudge) ⟨A.lit 0, theta⟩

/-- `tf.exp`, correctly rounded (simplification). -/
def exp (x : Fl) : Fl := A.fix (Fl.exp x)

/-- `tf.log`, correctly rounded (simplification). -/
def log (x : Fl) : Fl := A.fix (Fl.log x)

/-- `h ** 2` in `svgd_kernel` (`svgd.py:168-170`, `172`) for `n` particles and the median of their squared distances. -/
def bandwidthSq (n : Nat) (med : Fl) : Fl :=
  A.pow (A.sqrt (A.div (A.mul (A.lit 0.5) med) (log A (A.add (A.lit n) (A.lit 1))))) 2

/-- An entry of `kernel_matrix` (`svgd.py:172`) for the squared distance `d`. -/
def kernelEntry (h2 d : Fl) : Fl := exp A (A.div (A.div (-d) h2) (A.lit 2))

/-! ## `base_model.py` -/

/-- An element of `zero_one_normalization` (`base_model.py:116`). -/
def zeroOne (x lower upper : Fl) : Fl := A.div (A.sub x lower) (A.sub upper lower)

/-- An element of `zero_one_unnormalization` (`base_model.py:122`). -/
def unZeroOne (x lower upper : Fl) : Fl := A.add lower (A.mul (A.sub upper lower) x)

/-- `zero_one_normalization` (`base_model.py:109-118`); minima and maxima are exact. -/
def zeroOneNormalization {ι : Type} (X : BaseModel.Rows ι) (lower upper : Option (ι → Fl)) :
    Except PyErr (BaseModel.Rows ι × (ι → Fl) × (ι → Fl)) :=
  match BaseModel.givenOr lower (BaseModel.minAxis0 X) with
  | .error e => .error e
  | .ok l =>
    match BaseModel.givenOr upper (BaseModel.maxAxis0 X) with
    | .error e => .error e
    | .ok u => .ok (X.map fun row j => zeroOne A (row j) (l j) (u j), l, u)

/-- `(X - mean) / std` on one element (`base_model.py:131`). -/
def standardize (x mean std : Fl) : Fl := A.div (A.sub x mean) std

/-- `X_normalized * std + mean` on one element (`base_model.py:137`). -/
def unstandardize (x mean std : Fl) : Fl := A.add (A.mul x std) mean

/-- An order in which the elements of an array are added; the leaves are positions.  numpy adds pairwise or row by row,
depending on the memory layout, so theorems are about all orders. -/
inductive SumTree where
  | leaf (i : Nat)
  | node (l r : SumTree)

namespace SumTree

/-- The positions that are added. -/
def leaves : SumTree → List Nat
  | leaf i => [i]
  | node l r => l.leaves ++ r.leaves

/-- The largest number of additions an element takes part in. -/
def depth : SumTree → Nat
  | leaf _ => 0
  | node l r => Nat.max l.depth r.depth + 1

/-- The rounded sum. -/
def eval (x : Nat → Fl) : SumTree → Fl
  | leaf i => x i
  | node l r => A.add (l.eval x) (r.eval x)

/-- Every one of the `n` elements is added once. -/
def Adds (t : SumTree) (n : Nat) : Prop := t.leaves.Perm (List.range n)

end SumTree

/-- A coordinate of a particle's `kernel_gradients` (`svgd.py:173-180`): `k` is the particle's row of the kernel matrix,
`x` that coordinate of all particles and `x0` the particle's own; `t` and `t'` are the orders of the additions in
`tf.matmul` and `tf.reduce_sum`. -/
def kernelGrad (t t' : SumTree) (h2 : Fl) (k x : Nat → Fl) (x0 : Fl) : Fl :=
  A.div (A.add (-(t.eval A fun j => A.mul (k j) (x j))) (A.mul x0 (t'.eval A k))) h2

/-- The same coordinate of `grad_theta` (`svgd.py:125-128`) for the gradients `lnp` of the cost and `n` particles. -/
def gradTheta (t t' t'' : SumTree) (n : Nat) (h2 : Fl) (k x lnp : Nat → Fl) (x0 : Fl) : Fl :=
  A.div (A.add (t''.eval A fun j => A.mul (k j) (lnp j)) (kernelGrad A t t' h2 k x x0)) (A.lit n)

/-- `np.mean(x, axis=0)` of a column of `n` elements (`base_model.py:127`, `bayesian_neural_network.py:619`). -/
def npMean (t : SumTree) (n : Nat) (x : Nat → Fl) : Fl := A.div (t.eval A x) (A.lit n)

/-- `np.mean((x - m) ** 2, axis=0)` (`bayesian_neural_network.py:622`); `np.std` computes the same before taking the
root. -/
def npMeanSq (t : SumTree) (n : Nat) (x : Nat → Fl) (m : Fl) : Fl := npMean A t n fun i => A.pow (A.sub (x i) m) 2

/-- `np.std(x, axis=0)` (`base_model.py:129`); `t` is the order of the additions for the mean, `t'` for the squares. -/
def npStd (t t' : SumTree) (n : Nat) (x : Nat → Fl) : Fl := A.sqrt (npMeanSq A t' n x (npMean A t n x))

/-- Element `i` of a column after `zero_mean_unit_var_normalization` (`base_model.py:125-133`). -/
def zeroMeanUnitVar (t t' : SumTree) (n : Nat) (x : Nat → Fl) (i : Nat) : Fl :=
  standardize A (x i) (npMean A t n x) (npStd A t t' n x)

/-- Mean and variance returned by `predict` for one row, from the outputs `x` of `n` networks, before the normalization
of the labels is undone (`bayesian_neural_network.py:619-622`). -/
def predictRow (t t' : SumTree) (n : Nat) (x : Nat → Fl) : Fl × Fl :=
  (npMean A t n x, npMeanSq A t' n x (npMean A t n x))

/-- The same after undoing it with the mean `m` and standard deviation `s` of the labels
(`bayesian_neural_network.py:624-628`). -/
def predictRowUnnormalized (t t' : SumTree) (n : Nat) (x : Nat → Fl) (m s : Fl) : Fl × Fl :=
  let p := predictRow A t t' n x
  (unstandardize A p.1 m s, A.mul p.2 (A.pow s 2))

/-! ## `bayesian_neural_network.py`: the likelihood of a label and what `tf.gradients` computes for it -/

/-- `tf.exp(f_log_var) + 1e-16` (`bayesian_neural_network.py:368`). -/
def variance (logVar : Fl) : Fl := A.add (exp A logVar) (A.lit 1e-16)

/-- `f_var_inv` (`bayesian_neural_network.py:368`). -/
def varInv (logVar : Fl) : Fl := A.div (A.lit 1) (variance A logVar)

/-- `mse` (`bayesian_neural_network.py:370`). -/
def sqErr (y mean : Fl) : Fl := A.pow (A.sub y mean) 2

/-- The summand of `log_like` for a row (`bayesian_neural_network.py:373`). -/
def logLike (y mean logVar : Fl) : Fl :=
  A.sub (A.mul (-(sqErr A y mean)) (A.mul (A.lit 0.5) (varInv A logVar))) (A.mul (A.lit 0.5) logVar)

/-- What `tf.gradients` computes for `f_mean` if it arrives at the summand with `g` (`bayesian_neural_network.py:365-373`):
the registered gradients of `Mul`, `Neg`, `Square` and `Sub`, in this order. -/
def meanGrad (g y mean logVar : Fl) : Fl :=
  -(A.mul (-(A.mul g (A.mul (A.lit 0.5) (varInv A logVar)))) (A.mul (A.sub y mean) (A.lit 2)))

/-- What `tf.gradients` computes for `f_log_var` if it arrives at the summand with `g`
(`bayesian_neural_network.py:366-373`).  The registered gradient of `x / w` with respect to `w` is
`grad * ((-x / w) / w)`, that of `exp` is `grad * exp(x)`. -/
def logVarGrad (g y mean logVar : Fl) : Fl :=
  let dInv := A.mul (A.mul g (-(sqErr A y mean))) (A.lit 0.5)
  let dVar := A.mul dInv (A.div (A.div (-(A.lit 1)) (variance A logVar)) (variance A logVar))
  A.add (A.mul dVar (exp A logVar)) (A.mul (-g) (A.lit 0.5))

/-- What `tf.gradients` computes for `output_bias` of the default network (`bayesian_neural_network.py:56-65`,
`365-386`): every row's `f_log_var` is one times the bias, so the rows' gradients are added up in some order; `prior i`
is what arrives at row `i` from the prior of the variance. -/
def outputBiasGrad (t : SumTree) (g : Fl) (y mean prior : Nat → Fl) (bias : Fl) : Fl :=
  t.eval A fun i => A.mul (A.add (logVarGrad A g (y i) (mean i) (A.mul (A.lit 1) bias)) (prior i)) (A.lit 1)

end

end PySGMCMC.Rounded
