import Verif.Py.Basic

/-!
# Model of `pysgmcmc/samplers/base_classes.py`: the `__next__` protocol

The sampler talks to three foreign objects: the batch generator, the stepsize schedule and the TensorFlow
session.  They are an arbitrary environment `Env` whose operations may fail and may depend on their whole past
(each carries its own state).  The graphs of the concrete samplers are modelled in their own files.

`V` is the type of fetched/fed values (numpy arrays), `C` the type of cost values.
Simplifications: dictionaries are compared up to ordering; feed keys are the placeholders of the user's graph,
the stepsize variable `self.epsilon` and the tensors `self.minv_t[i]`.
-/

namespace PySGMCMC.SamplerBase

/-- Keys of a `feed_dict`. -/
inductive Key where
  /-- a tensor of the user's graph -/
  | ph (name : Nat)
  /-- `self.epsilon` -/
  | epsilon
  /-- `self.minv_t[i]` -/
  | minvT (i : Nat)
deriving DecidableEq, Repr

/-- What `session.run` returns for `[theta_t, cost]` (and `minv_t` if fetched). -/
structure Fetched (V C : Type) where
  params : List V
  cost : C
  minv : List V

/-- The `params` part of a sample: the list, or the single array it is unravelled to. -/
inductive Out (V : Type) where
  | many (l : List V)
  | one (v : V)

/-- The sampler's environment. -/
structure Env (V C : Type) where
  Batch : Type
  Sched : Type
  Graph : Type
  /-- `next(batch_generator)` -/
  batchNext : Batch → Step Batch (Dict Key V)
  /-- `next(stepsize_schedule)` -/
  schedNext : Sched → Step Sched V
  /-- `stepsize_schedule.update(params, cost)` -/
  schedUpdate : Sched → Out V → C → Step Sched Unit
  /-- `session.run([theta_t, cost] (+ [minv_t]), feed_dict)`; the flag tells whether `minv_t` is fetched -/
  run : Graph → Bool → Dict Key V → Step Graph (Fetched V C)

variable {V C : Type}

/-- A sampler object together with the state of its environment. -/
structure Sampler (E : Env V C) where
  /-- `self.n_iterations` -/
  nIterations : Nat
  /-- `self.minv`, an attribute that exists only after a burn-in step -/
  minv : Option (List V)
  /-- `self.batch_generator` -/
  batch : Option E.Batch
  /-- `self.stepsize_schedule` -/
  sched : E.Sched
  graph : E.Graph

/-- The `feed_dict` argument of `__next__`: `None`, a dictionary, or something without an `update` method. -/
inductive Feed (V : Type) where
  | none
  | dict (d : Dict Key V)
  | bad

/-- `feed_dict = dict()` if it is `None`; `Option.none` means that the assertion
`feed_dict is None or hasattr(feed_dict, "update")` fails (`base_classes.py:289-294`, `427-430`). -/
def Feed.open : Feed V → Option (Dict Key V)
  | .none => some Dict.empty
  | .dict d => some d
  | .bad => Option.none

/-- Result of a `__next__` call: sample or exception, the dictionary object passed in as it is afterwards
(the code calls `feed_dict.update` on the caller's object), and the sampler afterwards. -/
structure NextRes (E : Env V C) where
  result : Except PyErr (Out V × C)
  dict : Dict Key V
  sampler : Sampler E

/-- `_next_batch` (`base_classes.py:124-192`). -/
def nextBatch (E : Env V C) (s : Sampler E) : Step (Sampler E) (Dict Key V) :=
  match s.batch with
  | some b => let (r, b') := E.batchNext b; (r, { s with batch := some b' })
  | none => (.ok Dict.empty, s)

/-- `_next_stepsize` (`base_classes.py:195-197`). -/
def nextStepsize (E : Env V C) (s : Sampler E) : Step (Sampler E) (Dict Key V) :=
  match E.schedNext s.sched with
  | (.ok v, sc) => (.ok (Dict.single .epsilon v), { s with sched := sc })
  | (.error e, sc) => (.error e, { s with sched := sc })

/-- The two `feed_dict.update` lines (`base_classes.py:296-297` and `434-435`).
The dictionary is mutated step by step, also if the second call raises. -/
def updateFeed (E : Env V C) (d : Dict Key V) (s : Sampler E) : Except PyErr Unit × Dict Key V × Sampler E :=
  match nextBatch E s with
  | (.error e, s') => (.error e, d, s')
  | (.ok b, s') =>
    match nextStepsize E s' with
    | (.error e, s'') => (.error e, d.update b, s'')
    | (.ok eps, s'') => (.ok (), (d.update b).update eps, s'')

/-- `if len(params) == 1: params = params[0]` (`base_classes.py:302-304`). -/
def unravel : List V → Out V
  | [v] => .one v
  | l => .many l

/-- `stepsize_schedule.update(params, cost)`, then `n_iterations += 1`, then return
(`base_classes.py:306-310` and `443-446`). -/
def finish (E : Env V C) (d : Dict Key V) (out : Out V) (cost : C) (s : Sampler E) : NextRes E :=
  match E.schedUpdate s.sched out cost with
  | (.error e, sc) => ⟨.error e, d, { s with sched := sc }⟩
  | (.ok (), sc) => ⟨.ok (out, cost), d, { s with sched := sc, nIterations := s.nIterations + 1 }⟩

/-- `MCMCSampler.__next__` after the argument check (`base_classes.py:293-310`). -/
def baseNextDict (E : Env V C) (d : Dict Key V) (s : Sampler E) : NextRes E :=
  match updateFeed E d s with
  | (.error e, d', s') => ⟨.error e, d', s'⟩
  | (.ok (), d', s') =>
    match E.run s'.graph false d' with
    | (.error e, g) => ⟨.error e, d', { s' with graph := g }⟩
    | (.ok f, g) => finish E d' (unravel f.params) f.cost { s' with graph := g }

/-- `MCMCSampler.__next__(feed_dict)` (`base_classes.py:258-310`). The assertion on `theta_t`/`cost` in line 291
always holds, both are set by the constructor. -/
def baseNext (E : Env V C) (feed : Feed V) (s : Sampler E) : NextRes E :=
  match feed.open with
  | none => ⟨.error .assertion, Dict.empty, s⟩
  | some d => baseNextDict E d s

/-- `is_burning_in` (`base_classes.py:393-406`). -/
def isBurningIn {E : Env V C} (burnIn : Int) (s : Sampler E) : Bool := decide ((s.nIterations : Int) < burnIn)

/-- A burn-in step (`base_classes.py:432-446`). `self.minv` is assigned as soon as the session returns. -/
def burnInStep (E : Env V C) (d : Dict Key V) (s : Sampler E) : NextRes E :=
  match updateFeed E d s with
  | (.error e, d', s') => ⟨.error e, d', s'⟩
  | (.ok (), d', s') =>
    match E.run s'.graph true d' with
    | (.error e, g) => ⟨.error e, d', { s' with graph := g }⟩
    | (.ok f, g) => finish E d' (.many f.params) f.cost { s' with graph := g, minv := some f.minv }

/-- `dict(zip(self.minv_t, self.minv))` with `nParams` tensors in `minv_t` (`base_classes.py:454`). -/
def minvDict (nParams : Nat) (minv : List V) : Dict Key V :=
  Dict.ofList (((List.range nParams).map Key.minvT).zip minv)

/-- `BurnInMCMCSampler.__next__(feed_dict)` (`base_classes.py:408-456`). -/
def burnInNext (E : Env V C) (burnIn : Int) (nParams : Nat) (feed : Feed V) (s : Sampler E) : NextRes E :=
  match feed.open with
  | none => ⟨.error .assertion, Dict.empty, s⟩
  | some d =>
    if isBurningIn burnIn s then burnInStep E d s
    else if burnIn > 0 then
      match s.minv with
      | none => ⟨.error .assertion, d, s⟩
      | some m =>
        -- `feed_dict` is rebound to a fresh dictionary: the caller's object keeps its contents
        let r := baseNextDict E (minvDict nParams m) s
        { r with dict := d }
    else baseNextDict E d s

/-- `next(sampler)` as an iterator, i.e. `__next__()` without `feed_dict`. -/
def asIter {E : Env V C} (next : Feed V → Sampler E → NextRes E) (s : Sampler E) : Step (Sampler E) (Out V × C) :=
  let r := next .none s
  (r.result, r.sampler)

/-- A history of `__next__` calls with arbitrary `feed_dict` arguments. -/
def history {E : Env V C} (next : Feed V → Sampler E → NextRes E) :
    List (Feed V) → Sampler E → List (Except PyErr (Out V × C)) × Sampler E
  | [], s => ([], s)
  | f :: fs, s =>
    let r := next f s
    let (rs, s') := history next fs r.sampler
    (r.result :: rs, s')

/-- The sampler right after construction: `n_iterations = 0`, no `minv` (`base_classes.py:73-122`). -/
def init {E : Env V C} (batch : Option E.Batch) (sched : E.Sched) (graph : E.Graph) : Sampler E :=
  { nIterations := 0, minv := none, batch := batch, sched := sched, graph := graph }

/-- Arguments checked by the constructors. -/
structure CtorArgs where
  batchGenerator : PyVal
  seed : PyVal
  session : PyVal
  dtype : PyVal
  costFun : PyVal
  schedule : PyVal

/-- The assertions of `MCMCSampler.__init__` (`base_classes.py:73-89`). -/
def ctorCheck (a : CtorArgs) : Except PyErr Unit :=
  if !(a.batchGenerator.isNone || a.batchGenerator.hasAttr "__next__") then .error .assertion
  else if !(a.seed.isNone || a.seed.isInt) then .error .assertion
  else if !a.session.isSession then .error .assertion
  else if !a.dtype.isDType then .error .assertion
  else if !a.costFun.isCallable then .error .assertion
  else if !a.schedule.hasAttr "update" then .error .assertion
  else if !a.schedule.hasAttr "__next__" then .error .assertion
  else if !a.schedule.hasAttr "initial_value" then .error .assertion
  else .ok ()

/-- The assertions of `BurnInMCMCSampler.__init__` (`base_classes.py:384-391`). -/
def burnInCtorCheck (burnInSteps : PyVal) (a : CtorArgs) : Except PyErr Unit :=
  if !burnInSteps.isInt then .error .assertion else ctorCheck a

end PySGMCMC.SamplerBase
