import Verif.Model.BNNDefault
import Verif.Model.Gradients
import Mathlib.Logic.Equiv.Fin.Basic

/-!
# The graph that training differentiates (`models/bayesian_neural_network.py:28-69`, `77-141`, `337-388`)

`Model/BNNSystem.lean` takes the gradients of the training cost as an input.  Here they are computed: `negative_log_likelihood` builds a graph
(`Model/Gradients.lean`), node by node, on top of the graph that `get_net` builds, and `tf.gradients` goes backwards through it.

Simplifications: the number of rows of a minibatch is fixed per graph (the placeholders leave it open); a node with a constant operand is an
elementwise function of the other operand; `tf.concat` is the sum of its two operands moved to their places.
-/

namespace PySGMCMC.BNNSystem
open BNN Chain Gradients TensorUtils

noncomputable section

/-- What is fed for the placeholders: the rows and labels of a minibatch (`bayesian_neural_network.py:421-424`). -/
abbrev Fed (D : Nat) := List (Fin D → Fl) × List Fl

/-- Where entry `(r, c)` of a matrix is stored. -/
def at2 {m b : Nat} (r : Fin m) (c : Fin b) : Fin (m * b) := finProdFinEquiv (r, c)

/-- Row and column of an entry. -/
def rowOf {m b : Nat} (t : Fin (m * b)) : Fin m := (finProdFinEquiv.symm t).1
def colOf {m b : Nat} (t : Fin (m * b)) : Fin b := (finProdFinEquiv.symm t).2

section
variable {D n : Nat} {shape : Fin n → List Nat} {ctx : List Nat}

/-- Graphs over the trainable variables. -/
abbrev Net (D : Nat) (shape : Fin n → List Nat) (ctx : List Nat) := Graph (sizes shape) (Fed D) Fl ctx

/-- `tf.square`. -/
def square {d : Nat} (x : Ref ctx d) : Op (sizes shape) (Fed D) Fl ctx d := .map (fun v => Fl.npow v 2) (fun v => 2 * v) x

/-- `c * x` for a constant. -/
def scale {d : Nat} (c : Fl) (x : Ref ctx d) : Op (sizes shape) (Fed D) Fl ctx d := .map (fun v => c * v) (fun _ => c) x

/-- `x / c` for a constant. -/
def over {d : Nat} (c : Fl) (x : Ref ctx d) : Op (sizes shape) (Fed D) Fl ctx d := .map (fun v => v / c) (fun _ => 1 / c) x

/-- `safe_divide(x, c)` for a constant (`tensor_utils.py:211-269`). -/
def safeOver {d : Nat} (c : Fl) (x : Ref ctx d) : Op (sizes shape) (Fed D) Fl ctx d :=
  .map (fun v => safeDivide' v c) (fun _ => safeDivide' 1 c) x

/-- `-x`. -/
def minus {d : Nat} (x : Ref ctx d) : Op (sizes shape) (Fed D) Fl ctx d := .map (fun v => -v) (fun _ => -1) x

/-- `x + c` and `x - c` for a constant. -/
def plusConst {d : Nat} (c : Fl) (x : Ref ctx d) : Op (sizes shape) (Fed D) Fl ctx d := .map (fun v => v + c) (fun _ => 1) x
def minusConst {d : Nat} (c : Fl) (x : Ref ctx d) : Op (sizes shape) (Fed D) Fl ctx d := .map (fun v => v - c) (fun _ => 1) x

/-- `tf.reduce_sum`. -/
def sumAll {d : Nat} (x : Ref ctx d) : Op (sizes shape) (Fed D) Fl ctx 1 := .reduce (fun _ => 0) x

/-- `f_mean` to the division by `batch_size` (`bayesian_neural_network.py:365-377`), on the nodes of the network with output `out`.  The inner
`tf.reduce_sum` adds up rows of one element each and is left out. -/
def likelihood {m : Nat} (T : Net D shape ctx) (out : Ref ctx (m * 2)) (batchSize : Nat) :
    Net D shape (1 :: 1 :: m :: m :: m :: m :: m :: m :: m :: m :: m :: m :: m :: m :: m :: ctx) :=
  let T := T.snoc (.gather (fun r : Fin m => at2 r 0) out)                                       -- f_mean                  :365
  let T := T.snoc (.gather (fun r : Fin m => at2 r 1) (.there out))                              -- f_log_var               :366
  let T := T.snoc (.map Fl.exp Fl.exp .here)                                                     -- tf.exp(f_log_var)       :368
  let T := T.snoc (plusConst (Fl.fin 1e-16) .here)                                               -- … + 1e-16               :368
  let T := T.snoc (.map (fun v => 1 / v) (fun v => -(1 / (v * v))) .here)                        -- f_var_inv               :368
  let T := T.snoc (.data fun feed (r : Fin m) => feed.2.getD r .nan)                             -- Y
  let T := T.snoc (.sub .here (.there (.there (.there (.there (.there .here))))))                -- Y - f_mean              :370
  let T := T.snoc (square .here)                                                                 -- mse                     :370
  let T := T.snoc (minus .here)                                                                  -- -mse                    :373
  let T := T.snoc (scale (Fl.fin 0.5) (.there (.there (.there (.there .here)))))                 -- 0.5 * f_var_inv         :373
  let T := T.snoc (.mul (.there .here) .here)                                                    -- -mse * …                :373
  let T := T.snoc (scale (Fl.fin 0.5)
    (.there (.there (.there (.there (.there (.there (.there (.there (.there .here))))))))))      -- 0.5 * f_log_var         :373
  let T := T.snoc (.sub (.there .here) .here)                                                    --                         :373
  let T := T.snoc (sumAll .here)                                                                 -- log_like                :372
  T.snoc (over (Fl.fin (batchSize : ℕ)) .here)                                                   -- log_like / batch_size   :377

/-- Where `f_log_var` is. -/
def logVarRef {m : Nat} : Ref (1 :: 1 :: m :: m :: m :: m :: m :: m :: m :: m :: m :: m :: m :: m :: m :: ctx) m :=
  .there (.there (.there (.there (.there (.there (.there (.there (.there (.there (.there (.there (.there .here))))))))))))

/-- `log_variance_prior_log_like` (`bayesian_neural_network.py:77-107`) on `logVar`, divided by `n_examples` and added to `logLike` (`:383`).
The inner `tf.reduce_sum` adds up rows of one element each and is left out. -/
def addVariancePrior {m : Nat} (T : Net D shape ctx) (logVar : Ref ctx m) (logLike : Ref ctx 1) (mean var : Fl) (nExamples : Nat) :
    Net D shape (1 :: 1 :: 1 :: 1 :: m :: m :: m :: m :: m :: ctx) :=
  let T := T.snoc (minusConst (Fl.log mean) logVar)                                              -- log_var - log(mean)     :105
  let T := T.snoc (square .here)                                                                 --                         :105
  let T := T.snoc (minus .here)                                                                  --                         :105
  let T := T.snoc (safeOver (2 * var) .here)                                                     -- safe_divide             :105
  let T := T.snoc (minusConst (Fl.fin 0.5 * Fl.log var) .here)                                   -- … - 0.5 * log(var)      :105-106
  let T := T.snoc (sumAll .here)                                                                 -- tf.reduce_mean          :104
  let T := T.snoc (over (Fl.fin (m : ℕ)) .here)                                                  -- tf.reduce_mean          :104
  let T := T.snoc (over (Fl.fin (nExamples : ℕ)) .here)                                          -- … / n_examples          :383
  T.snoc (.add (.there (.there (.there (.there (.there (.there (.there (.there logLike)))))))) .here)   -- log_like +=      :383

/-- A graph with two of its nodes: `log_like` in `negative_log_likelihood` and `log_like` in `weight_prior_log_like`. -/
structure Priors (D : Nat) (shape : Fin n → List Nat) where
  ctx : List Nat
  graph : Net D shape ctx
  outer : Ref ctx 1
  inner : Ref ctx 1

/-- One pass of the loop of `weight_prior_log_like` (`bayesian_neural_network.py:136-137`). -/
def Priors.step (wdecay : Fl) (B : Priors D shape) (i : Fin n) : Priors D shape where
  ctx := 1 :: 1 :: sizes shape i :: sizes shape i :: sizes shape i :: B.ctx
  graph :=
    let T := B.graph.snoc (.param i)                                                             -- parameter
    let T := T.snoc (square .here)                                                               -- tf.square(parameter)
    let T := T.snoc (scale (-wdecay * Fl.fin 0.5) .here)                                         -- -Wdecay * 0.5 * …
    let T := T.snoc (sumAll .here)                                                               -- tf.reduce_sum
    T.snoc (.add (.there (.there (.there (.there B.inner)))) .here)                              -- log_like +=
  outer := .there (.there (.there (.there (.there B.outer))))
  inner := .here

/-- `n_params` at the end of the loop (`bayesian_neural_network.py:134-140`). -/
def nParams (shape : Fin n → List Nat) : Fl := (List.finRange n).foldl (fun a i => a + Fl.fin ((shape i).prod : ℕ)) 0

/-- A graph with a cost. -/
structure Cost (D : Nat) (shape : Fin n → List Nat) where
  ctx : List Nat
  graph : Net D shape ctx
  node : Ref ctx 1

/-- `negative_log_likelihood` (`bayesian_neural_network.py:363-388`, first component) for a minibatch of `m` rows. -/
def costGraph {m : Nat} (T : Net D shape ctx) (out : Ref ctx (m * 2)) (batchSize nExamples : Nat) : Cost D shape :=
  let T := likelihood T out batchSize
  let T := addVariancePrior T logVarRef .here (Fl.fin 1e-6) (Fl.fin 0.01) nExamples              -- :383
  let B : Priors D shape := (List.finRange n).foldl (Priors.step 1)                              -- tf.trainable_variables()
    ⟨_, T.snoc (.data fun _ _ => 0), .there .here, .here⟩                                        -- log_like = 0            :133
  let T := B.graph.snoc (safeOver (nParams shape) B.inner)                                       -- safe_divide             :141
  let T := T.snoc (over (Fl.fin (nExamples : ℕ)) .here)                                          -- … / n_examples          :386
  let T := T.snoc (.add (.there (.there B.outer)) .here)                                         -- log_like +=             :386
  let T := T.snoc (minus .here)                                                                  -- -log_like               :388
  ⟨_, T, .here⟩

/-- The graph `get_net` builds for minibatches of `m` rows, and its output. -/
structure NetGraph (D : Nat) (shape : Fin n → List Nat) where
  ctx : Nat → List Nat
  graph : ∀ m, Net D shape (ctx m)
  out : ∀ m, Ref (ctx m) (m * 2)

/-- The cost of training with a network. -/
def NetGraph.cost (G : NetGraph D shape) (m batchSize nExamples : Nat) : Cost D shape := costGraph (G.graph m) (G.out m) batchSize nExamples

/-- The gradients training uses (`tf.gradients(cost, params)` in the sampler's constructor): the values for a minibatch. -/
def NetGraph.grad (G : NetGraph D shape) (batchSize nExamples : Nat) (rows : List (Fin D → Fl)) (ys : List Fl) (θ : ∀ i, Pos (sizes shape) i → Fl) :
    ∀ i, Pos (sizes shape) i → Fl :=
  gradOf (G.cost rows.length batchSize nExamples).graph (G.cost rows.length batchSize nExamples).node (rows, ys) θ

/-- `tf.layers.dense`: a matrix product with the kernel, the bias and the activation, on all rows (`bayesian_neural_network.py:30-56`). -/
def dense {m a b : Nat} (T : Net D shape ctx) (x : Ref ctx (m * a)) (kernel bias : Fin n) (ker : Fin a → Fin b → Fin (sizes shape kernel))
    (bia : Fin b → Fin (sizes shape bias)) (act act' : Fl → Fl) :
    Net D shape (m * b :: m * b :: m * b :: sizes shape bias :: m * b :: m * (a * b) :: m * (a * b) :: m * (a * b) :: sizes shape kernel :: ctx) :=
  let T := T.snoc (.param kernel)
  let T := T.snoc (.gather (fun t : Fin (m * (a * b)) => at2 (rowOf t) (rowOf (colOf t))) (.there x))
  let T := T.snoc (.gather (fun t : Fin (m * (a * b)) => ker (rowOf (colOf t)) (colOf (colOf t))) (.there .here))
  let T := T.snoc (.mul (.there .here) .here)
  let T := T.snoc (.reduce (fun t : Fin (m * (a * b)) => at2 (rowOf t) (colOf (colOf t))) .here)
  let T := T.snoc (.param bias)
  let T := T.snoc (.gather (fun t : Fin (m * b) => bia (colOf t)) .here)
  let T := T.snoc (.add (.there (.there .here)) .here)
  T.snoc (.map act act' .here)

end

/-- The derivative of `tanh` as TensorFlow computes it: `1 - y²`. -/
def tanhGrad (v : Fl) : Fl := 1 - Fl.npow (Fl.tanh v) 2

/-- The graph of `get_default_net` (`bayesian_neural_network.py:28-69`). -/
def defaultGraph (D : Nat) : NetGraph D (defaultShape D) where
  ctx := _
  graph m :=
    let X : Net D (defaultShape D) [m * D] := Graph.nil.snoc (.data fun feed t => feed.1.getD (rowOf t) (fun _ => .nan) (colOf t))
    let T := dense (m := m) (a := D) (b := 50) X .here 0 1 cell slot Fl.tanh tanhGrad
    let T := dense (m := m) (a := 50) (b := 50) T .here 2 3 cell slot Fl.tanh tanhGrad
    let T := dense (m := m) (a := 50) (b := 50) T .here 4 5 cell slot Fl.tanh tanhGrad
    let T := dense (m := m) (a := 50) (b := 1) T .here 6 7 cell slot id (fun _ => 1)
    let T := T.snoc (.data fun _ _ => 1)                                                         -- tf.ones_like(layer_4)   :64
    let T := T.snoc (.param 8)                                                                   -- output_bias             :58
    let T := T.snoc (.gather (fun _ : Fin (m * 1) => cell (a := 1) (b := 1) 0 0) .here)
    let T := T.snoc (.mul (.there (.there .here)) .here)                                         -- ones * output_bias      :64
    let T := T.snoc (.reduce (fun t : Fin (m * 1) => at2 (b := 2) (rowOf t) 0) (.there (.there (.there (.there .here)))))
    let T := T.snoc (.reduce (fun t : Fin (m * 1) => at2 (b := 2) (rowOf t) 1) (.there .here))
    T.snoc (.add (.there .here) .here)                                                           -- tf.concat               :63
  out m := .here

end

end PySGMCMC.BNNSystem
