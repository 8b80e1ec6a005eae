import Verif.Py.Basic

/-!
# Model of `pysgmcmc/stepsize_schedules.py`

The abstract base class only stores `initial_value`; the one concrete schedule is modelled below.
`repr : V → String` stands for Python's `format` of the value.
-/

namespace PySGMCMC.Schedules

/-- The object `ConstantStepsizeSchedule(initial_value)` (`stepsize_schedules.py:8-9`, `37`). -/
structure Constant (V : Type) where
  initialValue : V

/-- `__next__` (`stepsize_schedules.py:40-64`). -/
def Constant.next {V : Type} (s : Constant V) : Step (Constant V) V := (.ok s.initialValue, s)

/-- `update(*args, **kwargs)` (`stepsize_schedules.py:89-91`). -/
def Constant.update {V A : Type} (s : Constant V) (_args : List A) : Except PyErr Unit × Constant V := (.ok (), s)

/-- `__str__` (`stepsize_schedules.py:66-87`). -/
def Constant.str {V : Type} (repr : V → String) (s : Constant V) : String :=
  "ConstantStepsizeSchedule(stepsize=" ++ repr s.initialValue ++ ")"

/-- A call on the schedule object. -/
inductive Call (A : Type) where
  | next
  | update (args : List A)

/-- What a call returns. -/
inductive Ret (V : Type) where
  | value (v : Except PyErr V)
  | unit (r : Except PyErr Unit)

/-- Perform one call on the object. -/
def Constant.call {V A : Type} (s : Constant V) : Call A → Ret V × Constant V
  | .next => let (r, s') := s.next; (.value r, s')
  | .update args => let (r, s') := s.update args; (.unit r, s')

/-- Perform a history of calls, collecting what each returns. -/
def Constant.history {V A : Type} (s : Constant V) : List (Call A) → List (Ret V) × Constant V
  | [] => ([], s)
  | c :: cs =>
    let (r, s') := s.call c
    let (rs, s'') := s'.history cs
    (r :: rs, s'')

end PySGMCMC.Schedules
