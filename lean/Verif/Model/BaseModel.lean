import Verif.Py.Tensor
import Verif.Py.Fl

/-!
# Model of `pysgmcmc/models/base_model.py`

The normalizations work along axis 0: an array of shape `(N, d1, …, dk)` is the list of its `N` rows, a row
being a function from the trailing multi-indices `ι` to numbers (`ι = Fin D` for an `(N, D)` matrix,
`ι = Unit` for a vector of shape `(N,)`).  All the numpy operations used there act on each column separately.

Stored data, concatenation and shape checks use `Tensor` (shape and row-major elements).
Simplification: `get_json_data` is modelled by the stored arrays themselves (`tolist` keeps shape and elements).
-/

namespace PySGMCMC

namespace Fl
noncomputable section
open Classical

/-- `x < y` (false if either is `NaN`). -/
def lt : Fl → Fl → Bool
  | fin a, fin b => decide (a < b)
  | fin _, pinf => true
  | ninf, fin _ => true
  | ninf, pinf => true
  | _, _ => false

/-- `np.isnan` -/
def isNan : Fl → Bool
  | nan => true
  | _ => false

/-- `np.min` of a non-empty sequence (`NaN` propagates). -/
def listMin : List Fl → Option Fl
  | [] => none
  | x :: xs => some (xs.foldl min x)

/-- `np.max` of a non-empty sequence (`NaN` propagates). -/
def listMax : List Fl → Option Fl
  | [] => none
  | x :: xs => some (xs.foldl max x)

/-- `np.std` of a sequence: `sqrt(mean((x - mean(x)) ** 2))`. -/
def std (l : List Fl) : Fl :=
  sqrt (mean (l.map fun x => npow (x - mean l) 2))

/-- The scan of `np.argmin`: `best` is the index of the current minimum `m`, `i` the index of the next element.
A `NaN` wins against everything and ends the scan. -/
def argminFrom (m : Fl) (best : Nat) (i : Nat) : List Fl → Nat
  | [] => best
  | x :: xs =>
    if m.isNan then best
    else if x.lt m || x.isNan then argminFrom x i (i + 1) xs
    else argminFrom m best (i + 1) xs

/-- `np.argmin` of the elements of an array; `ValueError` for an empty one. -/
def argmin : List Fl → Except PyErr Nat
  | [] => .error (.value "argmin")
  | x :: xs => .ok (argminFrom x 0 1 xs)

end
end Fl

namespace BaseModel
noncomputable section

/-! ## Normalization -/

/-- Rows of an array along axis 0. -/
abbrev Rows (ι : Type) := List (ι → Fl)

variable {ι : Type}

/-- Column `j` of an array. -/
def column (X : Rows ι) (j : ι) : List Fl := X.map (· j)

/-- `np.min(X, axis=0)`; `ValueError` for an array without rows. -/
def minAxis0 (X : Rows ι) : Except PyErr (ι → Fl) :=
  match X with
  | [] => .error (.value "min")
  | _ => .ok fun j => (Fl.listMin (column X j)).getD .nan

/-- `np.max(X, axis=0)`; `ValueError` for an array without rows. -/
def maxAxis0 (X : Rows ι) : Except PyErr (ι → Fl) :=
  match X with
  | [] => .error (.value "max")
  | _ => .ok fun j => (Fl.listMax (column X j)).getD .nan

/-- `np.mean(X, axis=0)` (all `NaN` for an array without rows). -/
def meanAxis0 (X : Rows ι) : ι → Fl := fun j => Fl.mean (column X j)

/-- `np.std(X, axis=0)` (all `NaN` for an array without rows). -/
def stdAxis0 (X : Rows ι) : ι → Fl := fun j => Fl.std (column X j)

/-- `lower` or `upper` of `zero_one_normalization`: the given value, otherwise the computed one. -/
def givenOr (v : Option (ι → Fl)) (dflt : Except PyErr (ι → Fl)) : Except PyErr (ι → Fl) :=
  match v with
  | some l => .ok l
  | none => dflt

/-- `zero_one_normalization` (`base_model.py:109-118`). -/
def zeroOneNormalization (X : Rows ι) (lower upper : Option (ι → Fl)) :
    Except PyErr (Rows ι × (ι → Fl) × (ι → Fl)) :=
  match givenOr lower (minAxis0 X) with                                       -- :111-112
  | .error e => .error e
  | .ok l =>
    match givenOr upper (maxAxis0 X) with                                     -- :113-114
    | .error e => .error e
    | .ok u => .ok (X.map fun row j => (row j - l j) / (u j - l j), l, u)     -- :116-118

/-- `zero_one_unnormalization` (`base_model.py:121-122`). -/
def zeroOneUnnormalization (Xn : Rows ι) (lower upper : ι → Fl) : Rows ι :=
  Xn.map fun row j => lower j + (upper j - lower j) * row j

/-- `(X - mean) / std` on one element (`base_model.py:131`). -/
def standardize (x mean std : Fl) : Fl := (x - mean) / std

/-- `X_normalized * std + mean` on one element (`base_model.py:137`). -/
def unstandardize (x mean std : Fl) : Fl := x * std + mean

/-- `zero_mean_unit_var_normalization` (`base_model.py:125-133`). -/
def zeroMeanUnitVarNormalization (X : Rows ι) (mean std : Option (ι → Fl)) : Rows ι × (ι → Fl) × (ι → Fl) :=
  let m := mean.getD (meanAxis0 X)                                            -- :126-127
  let s := std.getD (stdAxis0 X)                                              -- :128-129
  (X.map fun row j => standardize (row j) (m j) (s j), m, s)                  -- :131-133

/-- `zero_mean_unit_var_unnormalization` (`base_model.py:136-137`). -/
def zeroMeanUnitVarUnnormalization (Xn : Rows ι) (mean std : ι → Fl) : Rows ι :=
  Xn.map fun row j => unstandardize (row j) (mean j) (std j)

end

/-! ## The abstract model class -/

/-- The attributes `self.X` and `self.y`; `None` after `__init__` (`base_model.py:8-13`). -/
structure Stored where
  X : Option (Tensor Fl) := none
  y : Option (Tensor Fl) := none

/-- `np.append(a, b, axis=0)` (`np.concatenate`): `ValueError` if `a` is `None` (a 0-dimensional array), if an
array is 0-dimensional or if the trailing shapes differ. -/
def appendAxis0 (a : Option (Tensor Fl)) (b : Tensor Fl) : Except PyErr (Tensor Fl) :=
  match a with
  | none => .error (.value "concatenate")
  | some a =>
    match a.shape, b.shape with
    | n :: ds, m :: es => if ds = es then .ok ⟨(n + m) :: ds, a.data ++ b.data⟩ else .error (.value "concatenate")
    | _, _ => .error (.value "concatenate")

/-- A concrete model class: the state `σ` of its instances, where `self.X`, `self.y` live in it, and its `train`
method (abstract in `base_model.py:15-28`). -/
structure Subclass (σ : Type) where
  stored : σ → Stored
  train : Tensor Fl → Tensor Fl → σ → Step σ Unit

/-- `update` (`base_model.py:30-45`): append to the stored data and train on the result. -/
def update {σ : Type} (C : Subclass σ) (X y : Tensor Fl) (s : σ) : Step σ Unit :=
  match appendAxis0 (C.stored s).X X with
  | .error e => (.error e, s)
  | .ok X' =>
    match appendAxis0 (C.stored s).y y with
    | .error e => (.error e, s)
    | .ok y' => C.train X' y' s

/-- The first dimension, `a.shape[0]`; `IndexError` for a 0-dimensional array. -/
def shape0 (t : Tensor Fl) : Except PyErr Nat :=
  match t.shape with
  | [] => .error .index
  | n :: _ => .ok n

/-- `_check_shapes_train` (`base_model.py:66-72`) around a method `f(X, y)`. -/
def checkShapesTrain {σ α : Type} (f : Tensor Fl → Tensor Fl → σ → Step σ α) (X y : Tensor Fl) (s : σ) : Step σ α :=
  match shape0 X with
  | .error e => (.error e, s)
  | .ok n =>
    match shape0 y with
    | .error e => (.error e, s)
    | .ok m =>
      if n ≠ m then (.error .assertion, s)
      else if X.shape.length ≠ 2 then (.error .assertion, s)
      else if y.shape.length ≠ 1 then (.error .assertion, s)
      else f X y s

/-- `_check_shapes_predict` (`base_model.py:74-79`) around a method `f(X, …)`. -/
def checkShapesPredict {σ α : Type} (f : Tensor Fl → σ → Step σ α) (X : Tensor Fl) (s : σ) : Step σ α :=
  if X.shape.length ≠ 2 then (.error .assertion, s) else f X s

/-- `a[i]` for an array and a non-negative integer index: the sub-array, `IndexError` if out of range or if the
array is 0-dimensional. -/
def subarray (t : Tensor Fl) (i : Nat) : Except PyErr (Tensor Fl) :=
  match t.shape with
  | [] => .error .index
  | n :: ds => if i < n then .ok ⟨ds, (t.data.drop (i * ds.prod)).take ds.prod⟩ else .error .index

/-- What `tolist` returns: a number, or a list of such things. -/
inductive Nested
  | value (v : Fl)
  | list (l : List Nested)

/-- numpy's `a.tolist()`, for an array with the given shape and row-major elements. -/
def tolist : List Nat → List Fl → Nested
  | [], data => .value (data.headD .nan)
  | n :: ds, data => .list ((List.range n).map fun i => tolist ds ((data.drop (i * ds.prod)).take ds.prod))

/-- `get_json_data` (`base_model.py:81-92`): the stored arrays as nested lists under `"X"`, `"y"`, and an empty string. -/
def getJsonData (s : Stored) : Option Nested × Option Nested × String :=
  (s.X.map fun t => tolist t.shape t.data, s.y.map fun t => tolist t.shape t.data, "")

noncomputable section

/-- `np.argmin(self.y)`: over the flattened array; `np.argmin(None)` is 0. -/
def argminOf (y : Option (Tensor Fl)) : Except PyErr Nat :=
  match y with
  | none => .ok 0
  | some y => Fl.argmin y.data

/-- `self.X[best_idx]`: `TypeError` for `None`. -/
def itemOf (t : Option (Tensor Fl)) (i : Nat) : Except PyErr (Tensor Fl) :=
  match t with
  | none => .error .type
  | some t => subarray t i

/-- `get_incumbent` (`base_model.py:94-106`). -/
def getIncumbent (s : Stored) : Except PyErr (Tensor Fl × Tensor Fl) :=
  match argminOf s.y with
  | .error e => .error e
  | .ok best =>
    match itemOf s.X best with
    | .error e => .error e
    | .ok x =>
      match itemOf s.y best with
      | .error e => .error e
      | .ok v => .ok (x, v)

end

end BaseModel

end PySGMCMC
