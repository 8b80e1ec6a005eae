import Verif.Py.Tensor

/-!
# What the tensor properties talk about
-/

namespace PySGMCMC

/-- All multi-indices of a shape in row-major (lexicographic) order. -/
def lexIdx : List Nat → List (List Nat)
  | [] => [[]]
  | d :: ds => (List.range d).flatMap fun i => (lexIdx ds).map fun is => i :: is

/-- Position of the pair `i < j` when the pairs of `m` observations are listed row by row. -/
def condensedPos (m i j : Nat) : Nat := i * m - i * (i + 1) / 2 + (j - i - 1)

end PySGMCMC
