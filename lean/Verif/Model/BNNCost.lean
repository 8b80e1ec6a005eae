import Verif.Model.TensorUtils

/-!
# Model of `pysgmcmc/models/bayesian_neural_network.py`: default network, priors, training cost

Simplifications: dtypes are not modelled (`tf.to_float` and `tf.cast` are exact); the labels of a minibatch have shape
`(b, 1)`, one per row of the network output, as `generate_batches` feeds them.
-/

namespace PySGMCMC.BNN
open TensorUtils

noncomputable section

/-! ## Default network -/

/-- Weights and biases of `tf.layers.dense`. -/
structure Dense (a b : Nat) where
  kernel : Fin a → Fin b → Fl
  bias : Fin b → Fl

/-- `tf.layers.dense` with `tf.matmul(inputs, kernel) + bias` and an activation, on one row. -/
def Dense.apply {a b : Nat} (l : Dense a b) (act : Fl → Fl) (x : Fin a → Fl) : Fin b → Fl :=
  fun j => act (Fl.sum (List.ofFn fun i => x i * l.kernel i j) + l.bias j)

/-- The trainable variables of the default network, in order of creation. -/
structure DefaultParams (D : Nat) where
  fc1 : Dense D 50
  fc2 : Dense 50 50
  fc3 : Dense 50 50
  fc4 : Dense 50 1
  outputBias : Fl

/-- `get_default_net` (`bayesian_neural_network.py:28-69`): one row `(mean, log variance)` per input row. -/
def defaultNet {D : Nat} (p : DefaultParams D) (inputs : List (Fin D → Fl)) : List (Fl × Fl) :=
  inputs.map fun x =>
    let h1 := p.fc1.apply Fl.tanh x
    let h2 := p.fc2.apply Fl.tanh h1
    let h3 := p.fc3.apply Fl.tanh h2
    (p.fc4.apply id h3 0, 1 * p.outputBias)

/-! ## Priors -/

/-- `log_variance_prior_log_like` (`bayesian_neural_network.py:77-107`); `logVar` are the rows of the argument. -/
def logVariancePriorLogLike (logVar : List (List Fl)) (mean var : Fl) : Fl :=
  let term := fun v => safeDivide' (-(Fl.npow (v - Fl.log mean) 2)) (2 * var) - Fl.fin 0.5 * Fl.log var
  Fl.mean (logVar.map fun row => Fl.sum (row.map term))

/-- The loop of `weight_prior_log_like`: `log_like` and `n_params` (`bayesian_neural_network.py:133-140`). -/
def weightPriorLoop (wdecay : Fl) (acc : Fl × Fl) : List (Tensor Fl) → Fl × Fl
  | [] => acc
  | p :: ps =>
    let ll := Fl.sum (p.data.map fun w => -wdecay * Fl.fin 0.5 * Fl.npow w 2)
    weightPriorLoop wdecay (acc.1 + ll, acc.2 + Fl.fin (p.shape.prod : ℕ)) ps

/-- `weight_prior_log_like` (`bayesian_neural_network.py:110-141`). -/
def weightPriorLogLike (parameters : List (Tensor Fl)) (wdecay : Fl) : Fl :=
  let r := weightPriorLoop wdecay (0, 0) parameters
  safeDivide' r.1 r.2

/-! ## Training cost -/

/-- `f_var_inv` (`bayesian_neural_network.py:368`). -/
def fVarInv (logVar : Fl) : Fl := 1 / (Fl.exp logVar + Fl.fin 1e-16)

/-- One row of `-mse * (0.5 * f_var_inv) - 0.5 * f_log_var` (`bayesian_neural_network.py:370-373`). -/
def rowLogLike (out : Fl × Fl) (y : Fl) : Fl :=
  -(Fl.npow (y - out.1) 2) * (Fl.fin 0.5 * fVarInv out.2) - Fl.fin 0.5 * out.2

/-- `negative_log_likelihood` (`bayesian_neural_network.py:337-388`): the pair of the negative log likelihood and the
mean squared error for the network output and the labels of a minibatch; `batchSize` is `self.batch_size`,
`nExamples` is `self.X.shape[0]` and `trainable` are the values of `tf.trainable_variables()`. -/
def negativeLogLikelihood (out : List (Fl × Fl)) (y : List Fl) (batchSize nExamples : Nat)
    (trainable : List (Tensor Fl)) : Fl × Fl :=
  let logLike := Fl.sum (List.zipWith rowLogLike out y)                                       -- :372-374
  let logLike := logLike / Fl.fin (batchSize : ℕ)                                             -- :377
  let nEx := Fl.fin (nExamples : ℕ)                                                           -- :380
  let logLike := logLike + logVariancePriorLogLike (out.map fun o => [o.2]) (Fl.fin 1e-6) (Fl.fin 0.01) / nEx   -- :383
  let logLike := logLike + weightPriorLogLike trainable 1 / nEx                               -- :386
  (-logLike, Fl.mean (List.zipWith (fun o v => Fl.npow (v - o.1) 2) out y))                   -- :388

end

end PySGMCMC.BNN
