import Verif.Model.Schedules
import Verif.Lemmas.Iter

/-! Property C08: the constant stepsize schedule. -/

namespace PySGMCMC.Schedules

/-- **C08.** Under every interleaving of `next` and `update` calls (by any number of users) each `next` returns the
initial value, no call fails, and the object and its string form never change. -/
theorem C08_constant_schedule {V A : Type} (v : V) (hist : List (Call A)) (repr : V → String) :
    let r := (Constant.mk v).history hist
    r.2 = Constant.mk v
    ∧ r.2.str repr = "ConstantStepsizeSchedule(stepsize=" ++ repr v ++ ")"
    ∧ r.1.length = hist.length
    ∧ (∀ k : Nat, hist[k]? = some Call.next → r.1[k]? = some (Ret.value (.ok v)))
    ∧ (∀ (k : Nat) (args : List A), hist[k]? = some (Call.update args) → r.1[k]? = some (Ret.unit (.ok ()))) := by
  have key : ((Constant.mk v).history hist).2 = Constant.mk v
      ∧ ((Constant.mk v).history hist).1
        = hist.map (fun c => match c with | .next => .value (.ok v) | .update _ => .unit (.ok ())) := by
    induction hist with
    | nil => exact ⟨rfl, rfl⟩
    | cons c cs ih =>
      obtain ⟨h1, h2⟩ := ih
      cases c with
      | next => exact ⟨h1, by rw [List.map_cons, ← h2]; rfl⟩
      | update args => exact ⟨h1, by rw [List.map_cons, ← h2]; rfl⟩
  obtain ⟨h1, h2⟩ := key
  intro r
  refine ⟨h1, by rw [show r.2 = _ from h1]; rfl, by rw [show r.1 = _ from h2]; simp, ?_, ?_⟩
  · intro k hk
    rw [show r.1 = _ from h2, List.getElem?_map, hk]; rfl
  · intro k args hk
    rw [show r.1 = _ from h2, List.getElem?_map, hk]; rfl

/-- **C08** (iteration). `islice(schedule, n)` yields `n` copies of the value, for every `n`. -/
theorem C08_islice {V : Type} (v : V) (n : Nat) :
    islice Constant.next n (Constant.mk v) = (.ok (List.replicate n v), Constant.mk v) := by
  induction n with
  | zero => rfl
  | succ n ih => simp only [islice, Constant.next] at *; rw [ih]; rfl

/-- Non-vacuity: a history mixing `update` and `next`. -/
example : ((Constant.mk (V := Nat) 7).history (A := Nat) [.next, .update [1, 2], .next]).1
    = [.value (.ok 7), .unit (.ok ()), .value (.ok 7)] := rfl

end PySGMCMC.Schedules
