import Verif.Lemmas.TensorUtils

/-! Subarrays `t[i]` of a tensor. -/

namespace PySGMCMC.Tensor

variable {α : Type}

/-- Elements of `t[i]`. -/
theorem sub_get (t : Tensor α) (n : Nat) (ds : List Nat) (ht : t.shape = n :: ds) (i : Nat) (hi : i < n)
    (idx : List Nat) :
    (⟨ds, (t.data.drop (i * ds.prod)).take ds.prod⟩ : Tensor α).get idx = t.get (i :: idx) := by
  unfold get
  rw [ht]
  simp only [validIdx, hi, decide_true, Bool.true_and, offset]
  split
  · rename_i h
    rw [List.getElem?_take_of_lt (offset_lt h), List.getElem?_drop]
  · rfl

end PySGMCMC.Tensor
