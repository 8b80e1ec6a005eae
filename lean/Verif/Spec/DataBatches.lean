import Verif.Py.Basic

/-! Specification vocabulary for minibatches (independent of the model). -/

namespace PySGMCMC.Spec

/-- `v` is the Python integer `k > 0` (`True` counts as `1`). -/
def PosInt (v : PyVal) (k : Nat) : Prop := 0 < k ∧ (v = .int k ∨ (v = .bool true ∧ k = 1))

/-- `v` is a legal seed: `None`, a `bool`, or an integer in `[0, 2**32 - 1]`. -/
def SeedOk (v : PyVal) : Prop :=
  v = .none ∨ (∃ b, v = .bool b) ∨ ∃ z : Int, v = .int z ∧ 0 ≤ z ∧ z < 4294967296

/-- `l` consists of the `b` items of `whole` at positions `start, start + 1, …`. -/
def IsWindow {γ : Type} (l whole : List γ) (start b : Nat) : Prop :=
  l.length = b ∧ start + b ≤ whole.length ∧ ∀ i < b, l[i]? = whole[start + i]?

end PySGMCMC.Spec
