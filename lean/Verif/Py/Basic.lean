/-!
# Python semantics used by the model

Exceptions as values, the dynamically typed arguments that the code inspects with `isinstance` /
`hasattr`, iterators and `itertools.islice`, dictionaries and extended slices.
Nothing in this file models a function of the repository; it models the Python runtime.
-/

namespace PySGMCMC

/-- Python exceptions that the modelled code raises or lets through. -/
inductive PyErr where
  /-- `AssertionError` -/
  | assertion
  /-- `ValueError`; the string is the offending name if the message mentions one -/
  | value (culprit : String)
  /-- `NotImplementedError` -/
  | notImplemented
  /-- `StopIteration` -/
  | stopIteration
  /-- `IndexError` -/
  | index
  /-- `TypeError` -/
  | type
  /-- `AttributeError` -/
  | attribute
  /-- an error raised by `tensorflow.Session.run` (the number identifies it) -/
  | session (code : Nat)
  /-- any other exception raised by user code (a generator, schedule, ...) -/
  | other (code : Nat)
deriving DecidableEq, Repr

/-- A dynamically typed Python value, as far as the argument checks look at it. -/
inductive PyVal where
  | none
  | bool (b : Bool)
  | int (z : Int)
  | float
  | str (s : String)
  /-- any other object; only its attribute names and whether it is callable / a session / a dtype matter -/
  | obj (attrs : List String) (callable isSession isDType : Bool)
deriving DecidableEq, Repr

namespace PyVal

/-- `isinstance(v, int)`; `bool` is a subclass of `int`. -/
def isInt : PyVal → Bool
  | .bool _ => true
  | .int _ => true
  | _ => false

/-- the integer value of an `int`/`bool` (0 otherwise, never used there) -/
def toInt : PyVal → Int
  | .bool b => if b then 1 else 0
  | .int z => z
  | _ => 0

/-- `v is None` -/
def isNone : PyVal → Bool
  | .none => true
  | _ => false

/-- `callable(v)` -/
def isCallable : PyVal → Bool
  | .obj _ c _ _ => c
  | _ => false

/-- `isinstance(v, (tf.Session, tf.InteractiveSession))` -/
def isSession : PyVal → Bool
  | .obj _ _ s _ => s
  | _ => false

/-- `isinstance(v, tf.DType)` -/
def isDType : PyVal → Bool
  | .obj _ _ _ d => d
  | _ => false

/-- `hasattr(v, name)` for the attribute names the code asks for (`__next__`, `update`, `initial_value`):
builtin values of the other kinds have none of them. -/
def hasAttr (v : PyVal) (name : String) : Bool :=
  match v with
  | .obj attrs _ _ _ => attrs.contains name
  | _ => false

end PyVal

/-! ## Iterators -/

/-- The result of one `next(it)` call: the value or exception, and the iterator's new state. -/
abbrev Step (σ α : Type _) := Except PyErr α × σ

/-- `list(itertools.islice(it, n))`, also the `for` loop over an `islice`: at most `n` items, stops early and
silently on `StopIteration`; any other exception propagates (the items collected so far are lost). -/
def islice {σ : Type _} {α : Type _} (next : σ → Step σ α) : Nat → σ → Except PyErr (List α) × σ
  | 0, s => (.ok [], s)
  | n + 1, s =>
    match next s with
    | (.error .stopIteration, s') => (.ok [], s')
    | (.error e, s') => (.error e, s')
    | (.ok a, s') =>
      match islice next n s' with
      | (.ok l, s'') => (.ok (a :: l), s'')
      | (.error e, s'') => (.error e, s'')

/-- `next(it)` called `n` times, whatever each call does: the list of results and the final state. -/
def calls {σ : Type _} {α : Type _} (next : σ → Step σ α) : Nat → σ → List (Except PyErr α) × σ
  | 0, s => ([], s)
  | n + 1, s =>
    let (r, s') := next s
    let (rs, s'') := calls next n s'
    (r :: rs, s'')

/-! ## Dictionaries -/

/-- A Python `dict` up to ordering. -/
abbrev Dict (κ ν : Type _) := κ → Option ν

namespace Dict
variable {κ ν : Type _}

/-- `dict()` -/
def empty : Dict κ ν := fun _ => none

/-- `d.update(e)` -/
def update (d e : Dict κ ν) : Dict κ ν := fun k =>
  match e k with
  | some v => some v
  | none => d k

/-- `{k: v}` -/
def single [DecidableEq κ] (k : κ) (v : ν) : Dict κ ν := fun k' => if k' = k then some v else none

/-- `dict(pairs)`: later entries win. -/
def ofList [DecidableEq κ] : List (κ × ν) → Dict κ ν
  | [] => empty
  | (k, v) :: rest => fun k' =>
    match ofList rest k' with
    | some w => some w
    | none => if k' = k then some v else none

end Dict

/-! ## Slices -/

/-- A Python `slice(start, stop, step)` object. -/
structure PySlice where
  start : Option Int := none
  stop : Option Int := none
  step : Option Int := none
deriving DecidableEq, Repr

namespace PySlice

/-- The effective step. -/
def stepVal (s : PySlice) : Int := s.step.getD 1

/-- One end of `slice.indices(len)` (CPython `PySlice_AdjustIndices`): `dflt` is used for `None`, a negative
number counts from the end, the result is clamped to `[lower, upper]`. -/
def adjust (len lower upper dflt : Int) : Option Int → Int
  | none => dflt
  | some v => if v < 0 then max (v + len) lower else min v upper

/-- `range(start, stop, step)` as a list of integers (`step ≠ 0`). -/
def rangeList (start stop step : Int) : List Int :=
  let n : Nat :=
    if 0 < step then (if start < stop then ((stop - start - 1) / step + 1).toNat else 0)
    else (if stop < start then ((start - stop - 1) / (-step) + 1).toNat else 0)
  (List.range n).map fun (i : Nat) => start + (i : Int) * step

/-- The positions selected by the slice in a sequence of length `len` (`range(*s.indices(len))`). -/
def indices (s : PySlice) (len : Nat) : List Int :=
  let st := s.stepVal
  let lower : Int := if st < 0 then -1 else 0
  let upper : Int := if st < 0 then (len : Int) - 1 else len
  let a := adjust len lower upper (if st < 0 then upper else lower) s.start
  let b := adjust len lower upper (if st < 0 then lower else upper) s.stop
  rangeList a b st

end PySlice

/-- `l[slice]`; a zero step is a `ValueError`. -/
def pyGetSlice {α : Type _} (l : List α) (s : PySlice) : Except PyErr (List α) :=
  if s.stepVal = 0 then .error (.value "slice step cannot be zero")
  else .ok ((s.indices l.length).filterMap fun i => l[i.toNat]?)

/-- `l[i]` with Python's negative indexing. -/
def pyIndex {α : Type _} (l : List α) (i : Int) : Except PyErr α :=
  let j := if i < 0 then i + l.length else i
  if j < 0 then .error .index
  else match l[j.toNat]? with
    | some a => .ok a
    | none => .error .index

end PySGMCMC
