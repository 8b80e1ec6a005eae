import Verif.Py.Tensor
import Verif.Py.Fl
import Mathlib.Data.List.Sort
import Mathlib.Algebra.Order.Floor.Semiring

/-!
# Model of `pysgmcmc/tensor_utils.py`

`safe_divide` and `safe_sqrt` work on idealised floats (`Fl`); `median`, `pdist` and `squareform` are modelled on
tensors with finite entries (`ℝ`).
Static shapes are fully known; dtypes are not modelled.
-/

namespace PySGMCMC.TensorUtils

/-- What the functions distinguish with `isinstance`. -/
inductive TfInput (α : Type) where
  /-- a `tf.Variable` (its initial value) -/
  | var (t : Tensor α)
  | tensor (t : Tensor α)
  | other

/-- `vectorize` (`tensor_utils.py:17-104`): the value (for a variable: the initial value of the new variable). -/
def vectorize {α : Type} : TfInput α → Except PyErr (Tensor α)
  | .var t => t.reshape [t.shape.prod, 1]
  | .tensor t => t.reshape [t.shape.prod, 1]
  | .other => .error (.value "vectorize")

/-- `unvectorize` (`tensor_utils.py:107-153`). -/
def unvectorize {α : Type} (t : Tensor α) (originalShape : List Nat) : Except PyErr (Tensor α) :=
  t.reshape originalShape

noncomputable section

/-- `tf.nn.top_k(t, k=n, sorted=True).values` for all `n` elements: descending order. -/
def topKAll (l : List ℝ) : List ℝ := l.mergeSort (fun a b => decide (b ≤ a))

/-- `median` (`tensor_utils.py:160-208`). For an empty tensor the index `-1` is out of range. -/
def median (t : Tensor ℝ) : Except PyErr ℝ :=
  let sorted := topKAll t.data
  let n := t.data.length
  let mid := n / 2
  if n % 2 = 1 then
    match sorted[mid]? with
    | some v => .ok v
    | none => .error .index
  else
    if mid = 0 then .error .index
    else match sorted[mid - 1]?, sorted[mid]? with
      | some a, some b => .ok ((a + b) / 2)
      | _, _ => .error .index

/-- `safe_divide` (`tensor_utils.py:211-269`); the constant is an explicit argument. -/
def safeDivide (x y c : Fl) : Fl := x / (y + (2 * Fl.sign y * c + c))

/-- `safe_divide` with the default constant `1e-16`. -/
def safeDivide' (x y : Fl) : Fl := safeDivide x y (Fl.fin (1e-16))

/-- `safe_sqrt` with the default bounds (`tensor_utils.py:272-323`);
`tf.clip_by_value(x, lo, hi) = max(min(x, hi), lo)`. -/
def safeSqrt (x : Fl) : Fl := Fl.sqrt (Fl.max (Fl.min x Fl.pinf) 0)

/-- Row `i` of a 2-d tensor. -/
def row (t : Tensor ℝ) (i : Nat) : List ℝ := (t.data.drop (i * t.shape.getD 1 0)).take (t.shape.getD 1 0)

/-- `tf.norm(u - v)` (`tensor_utils.py:400-401`). -/
def euclideanDistance (u v : List ℝ) : ℝ := Real.sqrt ((List.zipWith (fun a b => (a - b) * (a - b)) u v).sum)

/-- The index pairs of the double loops `for i in range(m): for j in range(i + 1, m)`
(`tensor_utils.py:406-407` and `529-530`). -/
def loopPairs (m : Nat) : List (Nat × Nat) :=
  (List.range m).flatMap fun i => (List.range' (i + 1) (m - (i + 1))).map fun j => (i, j)

/-- `pdist` (`tensor_utils.py:326-419`). -/
def pdist (input : TfInput ℝ) (metric : String) : Except PyErr (Tensor ℝ) :=
  match input with
  | .other => .error .assertion
  | .var t | .tensor t =>
    if t.shape.length ≠ 2 then .error (.value "2-d")
    else if metric = "euclidean" then
      let distances := (loopPairs (t.shape.getD 0 0)).map fun p => euclideanDistance (row t p.1) (row t p.2)
      .ok ⟨[distances.length], distances⟩
    else .error .notImplemented

/-- `range(0, stop, step)` for positive `step`. -/
def pyRange (stop step : Nat) : List Nat := (List.range ((stop + step - 1) / step)).map (· * step)

/-- The value at position `p`: the last pair with that index wins. -/
def stitchAt {α : Type} : List (Nat × α) → Nat → Option α
  | [], _ => none
  | (q, x) :: rest, p =>
    match stitchAt rest p with
    | some y => some y
    | none => if q = p then some x else none

/-- `tf.dynamic_stitch(indices, data)` for vectors: each index list must be as long as its data; the result has
`max index + 1` entries. Positions without index are undefined (here: 0; does not occur). -/
def dynamicStitch (indices : List (List Nat)) (data : List (List ℝ)) : Except PyErr (List ℝ) :=
  if indices.map List.length = data.map List.length then
    let pairs := indices.flatten.zip data.flatten
    let n := (indices.flatten.map (· + 1)).foldl max 0
    .ok ((List.range n).map fun p => (stitchAt pairs p).getD 0)
  else .error (.value "dynamic_stitch")

/-- `upper_triangular_indices` (`tensor_utils.py:505-532`). -/
def upperTriangularIndices (dimension : Nat) : List Nat := (loopPairs dimension).map fun p => dimension * p.1 + p.2

/-- `tf.transpose` of a `k × k` matrix. -/
def transpose (k : Nat) (l : List ℝ) : List ℝ :=
  (List.range (k * k)).map fun p => l.getD (p % k * k + p / k) 0

/-- `squareform` (`tensor_utils.py:422-576`) for a way `dim` of computing `dimension` from the number of elements.
Not being a `tf.Tensor` (e.g. being a variable) is an `AssertionError`; a scalar has no `shape[0]`;
`remaining_indices` is iterated in increasing order (a Python set of small ints; only zeros are stored there). -/
def squareformWith (dim : Nat → Nat) (input : TfInput ℝ) : Except PyErr (Tensor ℝ) :=
  match input with
  | .other => .error .assertion
  | .var _ => .error .assertion
  | .tensor t =>
    match t.shape with
    | [] => .error .index
    | [n] =>
      if n = 0 then .ok ⟨[1, 1], [0]⟩
      else
        let dimension := dim n
        if dimension * (dimension - 1) ≠ n * 2 then .error (.value "binomial")
        else
          let total := dimension ^ 2
          let nFill := total - n - dimension
          let diagonal := pyRange total (dimension + 1)
          let upper := upperTriangularIndices dimension
          let remaining := (List.range total).filter fun p => !(diagonal.contains p || upper.contains p)
          match dynamicStitch [diagonal, upper, remaining]
              [List.replicate dimension 0, t.data, List.replicate nFill 0] with
          | .error e => .error e
          | .ok stitched =>
            match (Tensor.mk [stitched.length, 1] stitched).reshape [dimension, dimension] with
            | .error e => .error e
            | .ok u => .ok ⟨[dimension, dimension], List.zipWith (· + ·) u.data (transpose dimension u.data)⟩
    | _ => .error .notImplemented

/-- `squareform` with `int(np.ceil(np.sqrt(n_elements * 2)))` (`tensor_utils.py:478`) computed with exact square roots
(for rounded ones see C111). -/
def squareform (input : TfInput ℝ) : Except PyErr (Tensor ℝ) :=
  squareformWith (fun n => ⌈Real.sqrt ((n : ℝ) * 2)⌉₊) input

end

/-- `uninitialized_params` (`tensor_utils.py:579-605`): the parameters whose flag is false.
`none` stands for a session argument of the wrong type. -/
def uninitializedParams {Var : Type} (initialized : Option (Var → Bool)) (params : List Var) :
    Except PyErr (List Var) :=
  match initialized with
  | none => .error .assertion
  | some flag => .ok (((params.zip (params.map flag)).filter fun p => !p.2).map (·.1))

end PySGMCMC.TensorUtils
