import Verif.Model.SamplerBase

/-!
Observation of a sampler from outside: an environment that behaves like `E` and additionally records every
session run and every `schedule.update`.  Also the stream of stepsizes a schedule produces when it is used
alternately (`next`, `update`, `next`, …).
-/

namespace PySGMCMC.SamplerBase

variable {V C : Type}

/-- One session run as seen by the session. -/
structure RunRec (V C : Type) where
  fetchMinv : Bool
  feed : Dict Key V
  result : Except PyErr (Fetched V C)

/-- `E` with recording. -/
@[reducible] def observed (E : Env V C) : Env V C where
  Batch := E.Batch
  Sched := E.Sched × List (Out V × C)
  Graph := E.Graph × List (RunRec V C)
  batchNext := E.batchNext
  schedNext s := let (r, s') := E.schedNext s.1; (r, s', s.2)
  schedUpdate s o c := let (r, s') := E.schedUpdate s.1 o c; (r, s', s.2 ++ [(o, c)])
  run g flag d := let (r, g') := E.run g.1 flag d; (r, g', g.2 ++ [⟨flag, d, r⟩])

/-- Start recording. -/
def startObserved {E : Env V C} (batch : Option E.Batch) (sched : E.Sched) (graph : E.Graph) :
    Sampler (observed E) :=
  init (E := observed E) batch (sched, []) (graph, [])

/-- Stop recording. -/
def forget {E : Env V C} (s : Sampler (observed E)) : Sampler E :=
  { nIterations := s.nIterations, minv := s.minv, batch := s.batch, sched := s.sched.1, graph := s.graph.1 }

/-- The stepsizes a schedule yields if after each of them it is updated with the given result. -/
def stepsizes (E : Env V C) : E.Sched → List (Out V × C) → List V
  | _, [] => []
  | sc, (o, c) :: rest =>
    match E.schedNext sc with
    | (.ok v, sc') => v :: stepsizes E (E.schedUpdate sc' o c).2 rest
    | (.error _, _) => []

/-- The batches a generator yields in its first `n` calls (the empty dictionary if there is no generator). -/
def batches (E : Env V C) : Option E.Batch → Nat → List (Except PyErr (Dict Key V))
  | none, n => List.replicate n (.ok Dict.empty)
  | some b, n => (calls E.batchNext n b).1

end PySGMCMC.SamplerBase

namespace PySGMCMC.SamplerBase
variable {V C : Type}

/-- The mass matrix delivered by the most recent run that fetched it. -/
def lastMinv : List (RunRec V C) → Option (List V)
  | [] => none
  | rec :: rest =>
    match lastMinv rest with
    | some m => some m
    | none =>
      match rec.fetchMinv, rec.result with
      | true, .ok f => some f.minv
      | _, _ => none

/-- Batches feed placeholders of the user's graph, never the sampler's own mass matrix tensors. -/
def BatchesFeedUserGraph (E : Env V C) : Prop :=
  ∀ b d b', E.batchNext b = (.ok d, b') → ∀ i, d (.minvT i) = none

/-- Number of calls that returned a sample. -/
def countOk (rs : List (Except PyErr (Out V × C))) : Nat :=
  rs.countP (fun r => match r with | .ok _ => true | .error _ => false)

/-- The generator delivers exactly `k` more batches and then raises `StopIteration`. -/
def Exhausts (E : Env V C) : Nat → E.Batch → Prop
  | 0, b => (E.batchNext b).1 = .error .stopIteration
  | k + 1, b => ∃ d b', E.batchNext b = (.ok d, b') ∧ Exhausts E k b'

/-- Neither the schedule nor the session ever fails. -/
structure Reliable (E : Env V C) : Prop where
  next : ∀ sc, ∃ v sc', E.schedNext sc = (.ok v, sc')
  update : ∀ sc o c, ∃ sc', E.schedUpdate sc o c = (.ok (), sc')
  run : ∀ g flag d, ∃ f g', E.run g flag d = (.ok f, g')

/-- The session returns one array per target parameter. -/
def ReturnsParams (E : Env V C) (nP : Nat) : Prop :=
  ∀ g flag d f g', E.run g flag d = (.ok f, g') → f.params.length = nP

end PySGMCMC.SamplerBase
