import Verif.Py.Basic
import Mathlib.Algebra.BigOperators.Group.List.Basic
import Mathlib.Algebra.Order.BigOperators.Group.List

/-!
# Dense tensors

A tensor is a static shape together with its elements in row-major order.  This is a model of
TensorFlow / numpy, not of a function of the repository.
-/

namespace PySGMCMC

/-- A dense tensor. -/
structure Tensor (α : Type) where
  shape : List Nat
  data : List α

namespace Tensor
variable {α : Type}

/-- The number of elements fits the shape. -/
def WF (t : Tensor α) : Prop := t.data.length = t.shape.prod

/-- `tf.reshape(t, shape)` with a fully defined shape: fails if the number of elements differs. -/
def reshape (t : Tensor α) (shape : List Nat) : Except PyErr (Tensor α) :=
  if t.data.length = shape.prod then .ok ⟨shape, t.data⟩ else .error (.value "reshape")

/-- Valid multi-indices. -/
def validIdx : List Nat → List Nat → Bool
  | [], [] => true
  | d :: ds, i :: is => decide (i < d) && validIdx ds is
  | _, _ => false

/-- Row-major offset of a multi-index. -/
def offset : List Nat → List Nat → Nat
  | _ :: ds, i :: is => i * ds.prod + offset ds is
  | _, _ => 0

/-- The element at a multi-index. -/
def get (t : Tensor α) (idx : List Nat) : Option α :=
  if validIdx t.shape idx then t.data[offset t.shape idx]? else none

end Tensor

end PySGMCMC
