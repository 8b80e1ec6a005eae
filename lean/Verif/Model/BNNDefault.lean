import Verif.Model.BNNSystem

/-!
# The default network `get_default_net` as a network for `Model/BNNSystem.lean`
-/

namespace PySGMCMC.BNNSystem
open BNN Chain

noncomputable section

/-- The shapes of the variables of `get_default_net`, in order of creation (`bayesian_neural_network.py:28-69`): a kernel and a bias per
dense layer and the output bias. -/
def defaultShape (D : Nat) : Fin 9 → List Nat := ![[D, 50], [50], [50, 50], [50], [50, 50], [50], [50, 1], [1], [1, 1]]

/-- Where entry `(i, j)` of a matrix is stored (row by row). -/
def cell {a b : Nat} (i : Fin a) (j : Fin b) : Fin [a, b].prod :=
  ⟨i * b + j, by
    have := i.2
    have := j.2
    simp only [List.prod_cons, List.prod_nil, mul_one]
    nlinarith⟩

/-- Where entry `j` of a vector is stored. -/
def slot {b : Nat} (j : Fin b) : Fin [b].prod := ⟨j, by simp⟩

/-- The layers for the values of the variables. -/
def unpack {D : Nat} (v : ∀ i, Pos (sizes (defaultShape D)) i → Fl) : DefaultParams D where
  fc1 := ⟨fun i j => v 0 (cell i j), fun j => v 1 (slot j)⟩
  fc2 := ⟨fun i j => v 2 (cell i j), fun j => v 3 (slot j)⟩
  fc3 := ⟨fun i j => v 4 (cell i j), fun j => v 5 (slot j)⟩
  fc4 := ⟨fun i j => v 6 (cell i j), fun j => v 7 (slot j)⟩
  outputBias := v 8 (cell (a := 1) (b := 1) 0 0)

/-- `get_default_net` on one row. -/
def defaultRow {D : Nat} (v : ∀ i, Pos (sizes (defaultShape D)) i → Fl) (x : Fin D → Fl) : Fl × Fl :=
  (defaultNet (unpack v) [x]).headD (.nan, .nan)

end

end PySGMCMC.BNNSystem
