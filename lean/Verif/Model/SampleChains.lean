import Verif.Py.Tensor
import Verif.Py.Fl
import Verif.Model.SamplerBase

/-!
# Model of `pysgmcmc/diagnostics/sample_chains.py`

A sample is a Python object: a float (Python or numpy), a numpy array, or a list of such objects.
`get_values` returns `np.asarray(values)`; the model returns the list of values.
`pymc3.backends.base.MultiTrace` is modelled as far as its constructor can fail.
-/

namespace PySGMCMC.SampleChains

/-- Python objects that occur as samples or as parts of them. -/
inductive Obj where
  /-- a float; the flag tells numpy floats from Python floats -/
  | float (numpy : Bool) (x : Fl)
  /-- a `numpy.ndarray` -/
  | array (t : Tensor Fl)
  | list (l : List Obj)

namespace Obj

/-- `len(o)` -/
def len : Obj → Except PyErr Nat
  | .float _ _ => .error .type
  | .array t => match t.shape with
    | [] => .error .type
    | m :: _ => .ok m
  | .list l => .ok l.length

/-- `isinstance(o, (float, np.float32, np.float64))` -/
def isFloat : Obj → Bool
  | .float _ _ => true
  | _ => false

/-- A value fetched from a session: rank zero arrays come back as numpy floats. -/
def ofTensor (t : Tensor Fl) : Obj :=
  match t.shape with
  | [] => .float true (t.data.getD 0 .nan)
  | _ => .array t

/-- `o[i]` for `i >= 0` -/
def item (o : Obj) (i : Nat) : Except PyErr Obj :=
  match o with
  | .float true _ => .error .index
  | .float false _ => .error .type
  | .array t => match t.shape with
    | [] => .error .index
    | m :: rest =>
      if i < m then .ok (ofTensor ⟨rest, (t.data.drop (i * rest.prod)).take rest.prod⟩) else .error .index
  | .list l => match l[i]? with
    | some a => .ok a
    | none => .error .index

end Obj

/-- `PYSGMCMCTrace` objects. -/
structure Trace where
  /-- `self.chain` -/
  chain : Int
  samples : List Obj
  nVars : Nat
  varnames : List String

/-- The `samples` argument of the constructor. -/
inductive Samples where
  /-- an object without `__len__` -/
  | unsized
  /-- a list or array -/
  | seq (l : List Obj)

/-- `self.varnames`: anonymous names `"0"`, `"1"`, … if none are given (`sample_chains.py:80-93`). -/
def namesOr (varnames : Option (List String)) (nVars : Nat) : List String :=
  match varnames with
  | none => (List.range nVars).map fun i => toString i
  | some names => names

/-- `PYSGMCMCTrace.__init__` (`sample_chains.py:60-95`). -/
def mkTrace (chainId : Int) (samples : Samples) (varnames : Option (List String)) : Except PyErr Trace :=
  match samples with
  | .unsized => .error .assertion
  | .seq [] => .error .assertion
  | .seq (first :: rest) => do
    let all := first :: rest
    let nVars ← if first.isFloat then .ok 1 else first.len
    let samples := if first.isFloat then all.map (fun s => Obj.list [s]) else all
    if nVars < 1 then .error .assertion
    let names := namesOr varnames nVars
    if names.length ≠ nVars then .error .assertion
    .ok ⟨chainId, samples, nVars, names⟩

variable {σ C : Type}

/-- `PYSGMCMCTrace.from_sampler` (`sample_chains.py:166-181`). `params` are the names of the target parameters (if they
have one). `keep_every` is not used. -/
def fromSampler (next : σ → Step σ (Obj × C)) (params : List (Option String)) (chainId : Int) (nSamples : Nat)
    (_keepEvery : Int) (varnames : Option (List String)) (s : σ) : Step σ Trace :=
  match islice next nSamples s with
  | (.error e, s') => (.error e, s')
  | (.ok l, s') =>
    let samples := l.map Prod.fst
    if !(params.all Option.isSome) then (.error .assertion, s')
    else
      let names := match varnames with
        | none => params.map fun p => p.getD ""
        | some names => names
      (mkTrace chainId (.seq samples) (some names), s')

/-- `get_values(varname, burn, thin)` (`sample_chains.py:322-335`). -/
def getValues (tr : Trace) (varname : String) (burn thin : Int) : Except PyErr (List Obj) :=
  match tr.varnames.idxOf? varname with
  | none => .error (.value varname)
  | some varIndex => do
    let samples ← pyGetSlice tr.samples { start := some burn, step := some thin }
    samples.mapM fun sample => sample.item varIndex

/-- `__getitem__(index)` (`sample_chains.py:209-212`). -/
def getItem (tr : Trace) (index : PyVal) : Except PyErr (List Obj) :=
  if !index.isInt then .error .assertion
  else if !(decide (0 ≤ index.toInt) && decide (index.toInt < tr.varnames.length)) then .error .assertion
  else match tr.varnames[index.toInt.toNat]? with
    | some name => getValues tr name 0 1
    | none => .error .index

/-- `_slice(slice_)` (`sample_chains.py:214-237`). -/
def slice (tr : Trace) (sl : PySlice) : Except PyErr Trace := do
  let samples ← pyGetSlice tr.samples sl
  let varnames ← pyGetSlice tr.varnames sl
  mkTrace tr.chain (.seq samples) (some varnames)

/-- `point(index)` (`sample_chains.py:251-255`). -/
def point (tr : Trace) (index : Int) : Except PyErr (Dict String Obj) := do
  let sample ← pyIndex tr.samples index
  let pairs ← tr.varnames.zipIdx.mapM fun (p : String × Nat) => do
    let v ← sample.item p.2
    .ok (p.1, v)
  .ok (Dict.ofList pairs)

/-- `__len__` (`sample_chains.py:257-259`). -/
def length (tr : Trace) : Nat := tr.samples.length

/-- `pymc3.backends.base.MultiTrace(straces)`: chains must have distinct ids. -/
def multiTrace (straces : List Trace) : Except PyErr (List Trace) :=
  if (straces.map Trace.chain).Nodup then .ok straces else .error (.value "Chains are not unique.")

/-- What `pymc3_multitrace` does with the outside world `ω`: `get_sampler(session=...)` returns a sampler (a handle
`H`), which is then stepped; the initializer is run on its session. -/
structure World (ω H C : Type) where
  getSampler : ω → Step ω H
  /-- `session.run(tf.global_variables_initializer())` -/
  initVars : H → ω → Step ω Unit
  next : H → ω → Step ω (Obj × C)
  params : H → List (Option String)

variable {ω H : Type}

/-- The body of the loop (`sample_chains.py:369-380`). -/
def oneChain (W : World ω H C) (samplesPerChain : Nat) (keepEvery : Int) (names : Option (List String)) (chainId : Nat)
    (w : ω) : Step ω Trace :=
  match W.getSampler w with
  | (.error e, w1) => (.error e, w1)
  | (.ok h, w1) =>
    match W.initVars h w1 with
    | (.error e, w2) => (.error e, w2)
    | (.ok (), w2) => fromSampler (W.next h) (W.params h) chainId samplesPerChain keepEvery names w2

/-- The loop (`sample_chains.py:367-382`) over the given chain ids. -/
def chains (W : World ω H C) (samplesPerChain : Nat) (keepEvery : Int) (names : Option (List String)) :
    List Nat → ω → Step ω (List Trace)
  | [], w => (.ok [], w)
  | i :: is, w =>
    match oneChain W samplesPerChain keepEvery names i w with
    | (.error e, w') => (.error e, w')
    | (.ok tr, w') =>
      match chains W samplesPerChain keepEvery names is w' with
      | (.error e, w'') => (.error e, w'')
      | (.ok trs, w'') => (.ok (tr :: trs), w'')

/-- `pymc3_multitrace` (`sample_chains.py:338-384`). -/
def multitrace (W : World ω H C) (nChains samplesPerChain : Nat) (keepEvery : Int) (names : Option (List String))
    (w : ω) : Step ω (List Trace) :=
  match chains W samplesPerChain keepEvery names (List.range nChains) w with
  | (.error e, w') => (.error e, w')
  | (.ok trs, w') => (multiTrace trs, w')

/-- The value a sampler's `__next__` returns for the parameters, as a Python object (`base_classes.py:302-310`, `446`). -/
def outObj : SamplerBase.Out (Tensor Fl) → Obj
  | .many l => .list (l.map Obj.ofTensor)
  | .one v => Obj.ofTensor v

/-- A sampler as an iterator over Python objects. -/
def samplerIter {E : SamplerBase.Env (Tensor Fl) C} (next : SamplerBase.Feed (Tensor Fl) → SamplerBase.Sampler E →
    SamplerBase.NextRes E) (s : SamplerBase.Sampler E) : Step (SamplerBase.Sampler E) (Obj × C) :=
  let r := SamplerBase.asIter next s
  (r.1.map fun p => (outObj p.1, p.2), r.2)

end PySGMCMC.SampleChains
