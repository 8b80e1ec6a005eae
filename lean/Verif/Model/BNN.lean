import Verif.Model.BaseModel
import Verif.Model.Sampling

/-!
# Model of `pysgmcmc/models/bayesian_neural_network.py`: the class `BayesianNeuralNetwork`

The graph, the session, the sampler and the batch generator form an arbitrary outside world `ω` whose operations may
fail and may depend on their whole past (`World`).  The model follows which attributes of the object are assigned
before an operation that may fail.

Simplifications: training and test inputs have the same number `D` of columns; labels are a vector of shape `(N,)`;
all variables that are not fed have a value; log messages are not modelled (but the session run made for them is).
-/

namespace PySGMCMC.BNN
open BaseModel (Rows standardize unstandardize meanAxis0)

/-! ## Construction -/

/-- Arguments checked by the constructor. -/
structure CtorArgs where
  nNets : PyVal := .int 100
  nIters : PyVal := .int 50000
  burnInSteps : PyVal := .int 1000
  sampleSteps : PyVal := .int 100
  batchSize : PyVal := .int 20
  dtype : PyVal
  getNet : PyVal
  batchGenerator : PyVal
  stepsizeSchedule : PyVal
  samplingMethod : Sampling.MethodVal := .member .SGHMC

/-- The checks of `__init__` (`bayesian_neural_network.py:242-268`). -/
def construct (a : CtorArgs) : Except PyErr Unit :=
  if !a.nNets.isInt then .error .assertion
  else if !a.nIters.isInt then .error .assertion
  else if !a.burnInSteps.isInt then .error .assertion
  else if !a.sampleSteps.isInt then .error .assertion
  else if !a.batchSize.isInt then .error .assertion
  else if !a.dtype.isDType then .error .assertion
  else if ¬ a.nNets.toInt > 0 then .error .assertion
  else if ¬ a.nIters.toInt > 0 then .error .assertion
  else if ¬ a.burnInSteps.toInt ≥ 0 then .error .assertion
  else if ¬ a.sampleSteps.toInt > 0 then .error .assertion
  else if ¬ a.batchSize.toInt > 0 then .error .assertion
  else if !a.getNet.isCallable then .error .assertion
  else if !a.batchGenerator.isCallable then .error .assertion
  else if !a.stepsizeSchedule.hasAttr "update" then .error .assertion
  else if !a.stepsizeSchedule.hasAttr "__next__" then .error .assertion
  else if !Sampling.isSupported a.samplingMethod then .error (.value "sampling_method")
  else .ok ()

/-- The configuration after a successful construction. -/
structure Cfg where
  nNets : Nat
  nIters : Nat
  burnIn : Nat
  sampleSteps : Nat
  normalizeInput : Bool
  normalizeOutput : Bool

/-! ## The object -/

/-- A sampled network: what the sampler's `__next__` returned for the parameters. -/
abbrev Sample := SamplerBase.Out (Tensor Fl)

/-- What `get_net` built: the placeholder it reads and the value of its output (mean and log variance per row) for
given values of the variables. -/
structure Net (D : Nat) where
  input : Nat
  eval : (Nat → Tensor Fl) → {N : Nat} → (Fin N → Fin D → Fl) → Fin N → Fl × Fl

/-- The attributes of a `BayesianNeuralNetwork` that change (`bayesian_neural_network.py:288-298`). -/
structure Bnn (D : Nat) where
  isTrained : Bool := false
  samples : List Sample := []
  /-- `self.X`, `self.y`; the attributes do not exist before the first `train` call (no constructor assigns them) -/
  data : Option (Rows (Fin D) × List Fl) := none
  /-- `self.x_mean`, `self.x_std` -/
  xStats : Option ((Fin D → Fl) × (Fin D → Fl)) := none
  /-- `self.y_mean`, `self.y_std` -/
  yStats : Option (Fl × Fl) := none
  /-- `self.X_Minibatch` -/
  xMinibatch : Option Nat := none
  /-- `self.net_output` -/
  netOutput : Option (Net D) := none
  /-- `self.network_params` -/
  networkParams : List Nat := []
  /-- number of placeholders created so far -/
  nPlaceholders : Nat := 0

/-- What is handed to the batch generator, the sampler, and to the logging runs. -/
structure TrainData (D : Nat) where
  X : Rows (Fin D)
  y : List Fl
  placeholder : Nat
  params : List Nat

/-- The outside world. -/
structure World (D : Nat) (ω H C : Type) where
  /-- `self.get_net(inputs=placeholder, …)` -/
  getNet : Nat → ω → Step ω (Net D)
  /-- the rest of `negative_log_likelihood` -/
  costGraph : Net D → ω → Step ω Unit
  /-- `tf.trainable_variables()` -/
  trainable : ω → List Nat
  /-- `self.batch_generator(…)`, `Sampler.get_sampler(…)` and `session.run(tf.global_variables_initializer())` -/
  buildSampler : TrainData D → ω → Step ω H
  /-- `next(self.sampler)` -/
  next : H → ω → Step ω (Sample × C)
  /-- `session.run([Nll, Mse], …)`; changes no variable -/
  logError : TrainData D → ω → Except PyErr Unit
  /-- static shape of a variable -/
  varShape : Nat → List Nat
  /-- current value of a variable in the session -/
  varValue : ω → Nat → Tensor Fl

variable {D : Nat} {ω H C : Type}

/-- `deque.append` with `maxlen` (`bayesian_neural_network.py:290`, `527`). -/
def pushBounded (maxlen : Nat) (l : List Sample) (x : Sample) : List Sample :=
  if l.length < maxlen then l ++ [x] else (l ++ [x]).drop 1

/-- The sampling loop (`bayesian_neural_network.py:510-531`): `fuel` is what is left of the `islice`, `i` is
`iteration_index`. -/
def trainLoop (cfg : Cfg) (next : ω → Step ω (Sample × C)) (logError : ω → Except PyErr Unit) :
    (fuel i : Nat) → List Sample → ω → Except PyErr Unit × List Sample × ω
  | 0, _, samples, w => (.ok (), samples, w)
  | fuel + 1, i, samples, w =>
    match next w with
    | (.error .stopIteration, w') => (.ok (), samples, w')
    | (.error e, w') => (.error e, samples, w')
    | (.ok (values, _), w') =>
      if i ≤ cfg.burnIn then
        if i % 512 = 0 then
          match logError w' with
          | .error e => (.error e, samples, w')
          | .ok () => trainLoop cfg next logError fuel (i + 1) samples w'
        else trainLoop cfg next logError fuel (i + 1) samples w'
      else if i % cfg.sampleSteps = 0 then
        match logError w' with
        | .error e => (.error e, samples, w')
        | .ok () =>
          let samples' := pushBounded cfg.nNets samples values
          if samples'.length = cfg.nNets then (.ok (), samples', w')
          else trainLoop cfg next logError fuel (i + 1) samples' w'
      else trainLoop cfg next logError fuel (i + 1) samples w'

/-- An array argument: a matrix, or an array that does not have two dimensions. -/
inductive Input (D : Nat) where
  | matrix (rows : Rows (Fin D))
  | other

/-- `self.X`, `self.x_mean`, `self.x_std` (`bayesian_neural_network.py:411-414`). -/
noncomputable def normalizedX (cfg : Cfg) (b : Bnn D) (X : Rows (Fin D)) : Rows (Fin D) × Bnn D :=
  if cfg.normalizeInput then
    let r := BaseModel.zeroMeanUnitVarNormalization X none none
    (r.1, { b with xStats := some (r.2.1, r.2.2) })
  else (X, b)

/-- `self.y`, `self.y_mean`, `self.y_std` (`bayesian_neural_network.py:411`, `416-417`). -/
noncomputable def normalizedY (cfg : Cfg) (b : Bnn D) (y : List Fl) : List Fl × Bnn D :=
  if cfg.normalizeOutput then
    let r := BaseModel.zeroMeanUnitVarNormalization (ι := Unit) (y.map fun v _ => v) none none
    (r.1.map fun row => row (), { b with yStats := some (r.2.1 (), r.2.2 ()) })
  else (y, b)

/-- `train(X, y)` (`bayesian_neural_network.py:390-533`). -/
noncomputable def train (cfg : Cfg) (W : World D ω H C) (X : Input D) (y : List Fl) (b : Bnn D) (w : ω) :
    Except PyErr Unit × Bnn D × ω :=
  match X with
  | .other => (.error .assertion, b, w)                                  -- the decorator
  | .matrix rows =>
    let (X', b) := normalizedX cfg b rows                                -- :411-414
    let (y', b) := normalizedY cfg b y                                   -- :416-417
    let ph := b.nPlaceholders
    let b := { b with data := some (X', y'), xMinibatch := some ph, nPlaceholders := ph + 1 }   -- :411-424
    match W.getNet ph w with                                             -- :427, :363
    | (.error e, w) => (.error e, b, w)
    | (.ok net, w) =>
      let b := { b with netOutput := some net }
      match W.costGraph net w with                                       -- :427, :365-388
      | (.error e, w) => (.error e, b, w)
      | (.ok (), w) =>
        let params := W.trainable w                                      -- :431
        let b := { b with networkParams := params, samples := [] }       -- :435
        let d : TrainData D := ⟨X', y', ph, params⟩
        match W.buildSampler d w with                                    -- :437-468
        | (.error e, w) => (.error e, b, w)
        | (.ok h, w) =>
          match trainLoop cfg (W.next h) (W.logError d) cfg.nIters 0 [] w with
          | (.error e, samples, w) => (.error e, { b with samples := samples }, w)
          | (.ok (), samples, w) => (.ok (), { b with samples := samples, isTrained := true }, w)   -- :533

/-! ## Prediction -/

/-- `zip(self.network_params, params)` (`bayesian_neural_network.py:555`): a list of arrays is paired element by
element, a single array is iterated over its first axis (`TypeError` for a number). -/
def zipParams (vars : List Nat) : Sample → Except PyErr (List (Nat × Tensor Fl))
  | .many l => .ok (vars.zip l)
  | .one t =>
    match t.shape with
    | [] => .error .type
    | n :: ds => .ok (vars.zip ((List.range n).map fun i => ⟨ds, (t.data.drop (i * ds.prod)).take ds.prod⟩))

/-- `compute_network_output` (`bayesian_neural_network.py:535-557`): `session.run` rejects values of another shape, and
fails if the network reads a placeholder that is not fed. -/
def computeNetworkOutput (W : World D ω H C) (b : Bnn D) (w : ω) (sample : Sample) {N : Nat}
    (X : Fin N → Fin D → Fl) : Except PyErr (Fin N → Fl × Fl) := do
  let pairs ← zipParams b.networkParams sample
  match b.xMinibatch, b.netOutput with
  | some ph, some net =>
    if !(pairs.all fun p => p.2.shape == W.varShape p.1) then .error (.value "feed_dict")
    if net.input ≠ ph then .error (.session 0)
    let fed := Dict.ofList pairs
    .ok (net.eval (fun v => (fed v).getD (W.varValue w v)) X)
  | _, _ => .error .attribute

/-- What `predict` returns. -/
inductive Prediction (N : Nat) where
  /-- mean and variance of shape `(N,)` -/
  | summary (mean variance : Fin N → Fl)
  /-- without sampled networks: two numbers -/
  | scalars (mean variance : Fl)
  /-- `return_individual_predictions=True`: one row per sampled network -/
  | individual (f noise : List (Fin N → Fl))

noncomputable section

/-- `X_` (`bayesian_neural_network.py:592-597`). -/
def testInput (cfg : Cfg) (b : Bnn D) {N : Nat} (X : Fin N → Fin D → Fl) : Except PyErr (Fin N → Fin D → Fl) :=
  if cfg.normalizeInput then
    match b.xStats with
    | some (m, s) => .ok fun i j => standardize (X i j) (m j) (s j)
    | none => .error .attribute
  else .ok X

/-- The statistics used to undo the normalization of the labels, `none` if there is nothing to undo. -/
def labelStats (cfg : Cfg) (b : Bnn D) : Except PyErr (Option (Fl × Fl)) :=
  if cfg.normalizeOutput then
    match b.yStats with
    | some s => .ok (some s)
    | none => .error .attribute
  else .ok none

/-- `zero_mean_unit_var_unnormalization(·, self.y_mean, self.y_std)` if the labels were normalized. -/
def unnormalizeMean (stats : Option (Fl × Fl)) (v : Fl) : Fl :=
  match stats with
  | some (m, s) => unstandardize v m s
  | none => v

/-- `… *= self.y_std ** 2` if the labels were normalized. -/
def unnormalizeVar (stats : Option (Fl × Fl)) (v : Fl) : Fl :=
  match stats with
  | some (_, s) => v * Fl.npow s 2
  | none => v

/-- The result for the network outputs `outs` (`bayesian_neural_network.py:608-630`). -/
def summarize (individual : Bool) (stats : Option (Fl × Fl)) {N : Nat} (outs : List (Fin N → Fl × Fl)) : Prediction N :=
  let f : List (Fin N → Fl) := outs.map fun o i => (o i).1
  let noise : List (Fin N → Fl) := outs.map fun o i => Fl.exp (o i).2
  if individual then
    .individual (f.map fun row i => unnormalizeMean stats (row i)) (noise.map fun row i => unnormalizeVar stats (row i))
  else
    match f with
    | [] => .scalars (unnormalizeMean stats (Fl.mean [])) (unnormalizeVar stats (Fl.mean []))
    | _ =>
      let m := meanAxis0 f
      let v := meanAxis0 (f.map fun row i => Fl.npow (row i - m i) 2)
      .summary (fun i => unnormalizeMean stats (m i)) (fun i => unnormalizeVar stats (v i))

/-- `predict(X_test, return_individual_predictions)` (`bayesian_neural_network.py:559-630`) for a matrix. -/
def predict (cfg : Cfg) (W : World D ω H C) (b : Bnn D) (w : ω) {N : Nat} (X : Fin N → Fin D → Fl)
    (individual : Bool) : Except PyErr (Prediction N) :=
  if !b.isTrained then .error (.value "untrained")
  else do
    let X' ← testInput cfg b X
    let outs ← b.samples.mapM fun s => computeNetworkOutput W b w s X'
    let stats ← labelStats cfg b
    .ok (summarize individual stats outs)

/-- `predict` including the decorator: an array that is not a matrix is rejected first. -/
def predictChecked (cfg : Cfg) (W : World D ω H C) (b : Bnn D) (w : ω) (X : Input D) (individual : Bool) :
    Except PyErr (Σ N, Prediction N) :=
  match X with
  | .other => .error .assertion
  | .matrix rows => do
    let p ← predict cfg W b w (fun i : Fin rows.length => rows.get i) individual
    .ok ⟨rows.length, p⟩

end

/-! ## Arrays of any shape -/

/-- The rows of an array with two dimensions and `D` columns. -/
def rowsOf (D : Nat) (X : Tensor Fl) : Rows (Fin D) := (List.range (X.shape.headD 0)).map fun i j => X.data.getD (i * D + j) .nan

/-- `train(X, y)` as decorated (`bayesian_neural_network.py:390`): the decorator is the one for `predict`, it does not look at `y`.
Simplification: `y` has one dimension; `D` is the number of columns of `X`. -/
noncomputable def trainArray (cfg : Cfg) (W : World D ω H C) (X : Tensor Fl) (y : List Fl) (s : Bnn D × ω) : Step (Bnn D × ω) Unit :=
  BaseModel.checkShapesPredict (fun X s => train cfg W (.matrix (rowsOf D X)) y s.1 s.2) X s

/-- `predict(X_test, return_individual_predictions)` as decorated (`bayesian_neural_network.py:559`). -/
noncomputable def predictArray (cfg : Cfg) (W : World D ω H C) (X : Tensor Fl) (individual : Bool) (s : Bnn D × ω) :
    Step (Bnn D × ω) (Σ N, Prediction N) :=
  BaseModel.checkShapesPredict (fun X s => (predictChecked cfg W s.1 s.2 (.matrix (rowsOf D X)) individual, s)) X s

/-! ## Methods of `BaseModel` on a network

`BayesianNeuralNetwork` derives from `object`; of `BaseModel` it uses only the decorator `_check_shapes_predict`. -/

/-- Where a method can be defined. -/
inductive Definer
  | network | baseModel
deriving DecidableEq

/-- The methods in the body of a class: `bayesian_neural_network.py:148,300,337,391,535,560` and `base_model.py:8,16,30,48,66,74,81,94`. -/
def Definer.methods : Definer → List String
  | .network => ["__init__", "_set_up_train_graph", "negative_log_likelihood", "train", "compute_network_output", "predict"]
  | .baseModel => ["__init__", "train", "update", "predict", "_check_shapes_train", "_check_shapes_predict", "get_json_data", "get_incumbent"]

/-- The class of a network object: `BayesianNeuralNetwork` itself (`bayesian_neural_network.py:147`), or a class a user derives from it
and from `BaseModel`, in this order and without methods of its own. -/
inductive NetClass
  | plain | withBase
deriving DecidableEq

/-- The method resolution order, without `object`. -/
def NetClass.mro : NetClass → List Definer
  | .plain => [.network]
  | .withBase => [.network, .baseModel]

/-- Python's lookup of a method: the first class in the order that defines the name, `AttributeError` if none does. -/
def NetClass.lookup (c : NetClass) (name : String) : Except PyErr Definer :=
  match c.mro.find? fun d => d.methods.contains name with
  | some d => .ok d
  | none => .error .attribute

/-- `update(X, y)` (`base_model.py:30-45`) on a network: `np.append` of the stored data and the new data, then `train`.  An array that is
no matrix cannot be appended. -/
noncomputable def update (c : NetClass) (cfg : Cfg) (W : World D ω H C) (X : Input D) (y : List Fl) (b : Bnn D) (w : ω) :
    Except PyErr Unit × Bnn D × ω :=
  match c.lookup "update", b.data, X with
  | .error e, _, _ => (.error e, b, w)
  | .ok _, none, _ => (.error .attribute, b, w)
  | .ok _, some _, .other => (.error (.value "concatenate"), b, w)
  | .ok _, some (X0, y0), .matrix rows => train cfg W (.matrix (X0 ++ rows)) (y0 ++ y) b w

/-- A matrix as an array. -/
def matrixArray (rows : Rows (Fin D)) : Tensor Fl := ⟨[rows.length, D], rows.flatMap fun r => List.ofFn r⟩

/-- `self.X`, `self.y` as arrays. -/
def stored (b : Bnn D) : Except PyErr BaseModel.Stored :=
  match b.data with
  | none => .error .attribute
  | some (X, y) => .ok ⟨some (matrixArray X), some ⟨[y.length], y⟩⟩

/-- `get_incumbent()` (`base_model.py:94-106`) on a network. -/
noncomputable def getIncumbent (c : NetClass) (b : Bnn D) : Except PyErr (Tensor Fl × Tensor Fl) := do
  let _ ← c.lookup "get_incumbent"
  BaseModel.getIncumbent (← stored b)

/-- `get_json_data()` (`base_model.py:81-92`) on a network. -/
def getJsonData (c : NetClass) (b : Bnn D) : Except PyErr (Option BaseModel.Nested × Option BaseModel.Nested × String) := do
  let _ ← c.lookup "get_json_data"
  return BaseModel.getJsonData (← stored b)

end PySGMCMC.BNN
