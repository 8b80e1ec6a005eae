import Verif.Model.Sampling

/-!
# Model of `pysgmcmc/models/bayesian_neural_network.py`: how `train` sets up its sampler

`self.sampler_kwargs` is a Python dict (a list of pairs in insertion order) that survives from one `train` call to the next.
`α` is the type of the values.
-/

namespace PySGMCMC.BNNSampler
open Sampling

variable {α : Type}

/-- `d[k] = v` on a dict in insertion order. -/
def setItem (d : List (String × α)) (k : String) (v : α) : List (String × α) :=
  if d.any (fun p => p.1 == k) then d.map fun p => if p.1 == k then (k, v) else p else d ++ [(k, v)]

/-- `d.update(e)` -/
def update (d e : List (String × α)) : List (String × α) := e.foldl (fun d p => setItem d p.1 p.2) d

/-- The named parameters of `BayesianNeuralNetwork.__init__` (`bayesian_neural_network.py:147-156`). -/
def ctorNames : List String :=
  ["self", "session", "sampling_method", "get_net", "batch_generator", "batch_size", "stepsize_schedule", "n_nets", "n_iters",
    "burn_in_steps", "sample_steps", "normalize_input", "normalize_output", "seed", "dtype"]

/-- `**sampler_kwargs` of a constructor call with the given keyword arguments: those that are no named parameters
(`bayesian_neural_network.py:156`, `285`). -/
def samplerKwargs (kwargs : List (String × α)) : List (String × α) := kwargs.filter fun p => !ctorNames.contains p.1

/-- The values `train` determines itself. -/
structure Own (α : Type) where
  params : α
  costFun : α
  batchGenerator : α
  session : α
  seed : α
  dtype : α
  stepsizeSchedule : α
  nDatapoints : α
  burnInSteps : α

/-- The two `update` calls (`bayesian_neural_network.py:437-457`). -/
def trainKwargs (method : MethodVal) (own : Own α) (stored : List (String × α)) : List (String × α) :=
  let d := update stored [("params", own.params), ("cost_fun", own.costFun), ("batch_generator", own.batchGenerator),
    ("session", own.session), ("seed", own.seed), ("dtype", own.dtype), ("stepsize_schedule", own.stepsizeSchedule)]
  if isBurnInMcmc method then update d [("scale_grad", own.nDatapoints), ("burn_in_steps", own.burnInSteps)] else d

/-- The sampler a `train` call asks for (`bayesian_neural_network.py:437-466`): the new `self.sampler_kwargs` and the class
with its arguments. -/
def setUp (method : MethodVal) (own : Own α) (stored : List (String × α)) :
    List (String × α) × Except PyErr (Cls × List (String × Arg α)) :=
  let d := trainKwargs method own stored
  (d, getSampler method d)

/-- `self.sampler_kwargs` after a sequence of `train` calls. -/
def afterTrains (method : MethodVal) (stored : List (String × α)) : List (Own α) → List (String × α)
  | [] => stored
  | own :: rest => afterTrains method (setUp method own stored).1 rest

end PySGMCMC.BNNSampler
