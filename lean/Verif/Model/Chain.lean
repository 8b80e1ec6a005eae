import Verif.Model.SamplerBase
import Verif.Model.SGHMC
import Verif.Model.SGLD

/-!
# A sampler with its session: `base_classes.py` on top of `sghmc.py` / `sgld.py`

Instantiates the environment of `Model/SamplerBase.lean` with the graphs of `Model/SGHMC.lean` and `Model/SGLD.lean`.
Values are flattened arrays.  What the outside world decides (order of execution, normal draws) may depend on how many
runs there were; gradient and cost may depend on what is fed for the placeholders of the user's graph.

Simplification: `session.run` fails only because of a badly shaped value for one of the sampler's own tensors (then
before anything is executed) or because the user's graph rejects its feed.
-/

namespace PySGMCMC.Chain
open SamplerBase

/-- A flattened array. -/
abbrev Arr := List Fl

/-- Element positions of the target parameters. -/
abbrev Pos {n : Nat} (size : Fin n → Nat) : Fin n → Type := fun i => Fin (size i)

/-- The graph of a sampler; `C` is the type of the fetched cost.  Samplers without burn-in have no `minv`. -/
structure GraphSem {n : Nat} (size : Fin n → Nat) (C : Type := Fl) where
  /-- all variables -/
  St : Type
  /-- run number `k` with the stepsize, the values for `minv_t` and the feed of the user's graph -/
  run : Nat → Fl → (∀ i, Option (Pos size i → Fl)) → Dict Key Arr → St → St
  /-- current target parameters -/
  param : St → ∀ i, Pos size i → Fl
  /-- the cost of the last run -/
  cost : St → C
  /-- current value of the inverse mass matrix variables -/
  minv : St → ∀ i, Pos size i → Fl

variable {n : Nat} {size : Fin n → Nat} {C : Type}

/-- Session: variables, the stepsize variable, and the number of runs so far. -/
structure Session (G : GraphSem size C) where
  vars : G.St
  epsilon : Fl
  nRuns : Nat

/-- Flatten. -/
def flat {m : Nat} (f : Fin m → Fl) : Arr := List.ofFn f

/-- Read an array of the right length. -/
def unflat (m : Nat) (l : Arr) : Fin m → Fl := fun k => l.getD k .nan

/-- The shape checks of `session.run` on the sampler's own tensors. -/
def feedOk (size : Fin n → Nat) (d : Dict Key Arr) : Bool :=
  (match d .epsilon with | some v => v.length == 1 | none => true)
  && (List.finRange n).all fun i => match d (.minvT i) with | some v => v.length == size i | none => true

/-- The stepsize used in a run. -/
def epsUsed {G : GraphSem size C} (s : Session G) (d : Dict Key Arr) : Fl :=
  match d .epsilon with
  | some v => v.getD 0 .nan
  | none => s.epsilon

/-- The values fed for `minv_t`. -/
def fedMinv (size : Fin n → Nat) (d : Dict Key Arr) : ∀ i, Option (Pos size i → Fl) :=
  fun i => (d (.minvT i)).map (unflat (size i))

/-- `session.run([theta_t, cost] (+ [minv_t]), feed_dict)` (`base_classes.py:299`, `437-440`). -/
def sessionRun (G : GraphSem size C) (userOk : Dict Key Arr → Bool) (s : Session G) (_fetchMinv : Bool)
    (d : Dict Key Arr) : Step (Session G) (Fetched Arr C) :=
  if !(feedOk size d && userOk d) then (.error (.value "feed_dict"), s)
  else
    let vars := G.run s.nRuns (epsUsed s d) (fedMinv size d) d s.vars
    (.ok { params := List.ofFn fun i => flat (G.param vars i)
           cost := G.cost vars
           minv := List.ofFn fun i => flat ((fedMinv size d i).getD (G.minv vars i)) },
     { s with vars := vars, nRuns := s.nRuns + 1 })

/-- Batch generator and stepsize schedule of the user. -/
structure Feeder (C : Type := Fl) where
  Batch : Type
  Sched : Type
  batchNext : Batch → Step Batch (Dict Key Arr)
  schedNext : Sched → Step Sched Arr
  schedUpdate : Sched → Out Arr → C → Step Sched Unit

/-- The environment of a sampler with graph `G`. -/
@[reducible] def env (F : Feeder C) (G : GraphSem size C) (userOk : Dict Key Arr → Bool) : Env Arr C where
  Batch := F.Batch
  Sched := F.Sched
  Graph := Session G
  batchNext := F.batchNext
  schedNext := F.schedNext
  schedUpdate := F.schedUpdate
  run := sessionRun G userOk

/-- What an SGHMC sampler is constructed with, and the choices of the outside world. -/
structure SGHMCWorld (size : Fin n → Nat) where
  scaleGrad : Fl
  mdecay : Fl
  grad : Dict Key Arr → (∀ i, Pos size i → Fl) → ∀ i, Pos size i → Fl
  cost : Dict Key Arr → (∀ i, Pos size i → Fl) → Fl
  normal : Nat → ∀ i, Pos size i → Fl
  order : Nat → SGHMC.Schedule (Fin n)

/-- Inputs of run `k`. -/
def SGHMCWorld.inputs (W : SGHMCWorld size) (k : Nat) (eps : Fl) (fed : ∀ i, Option (Pos size i → Fl))
    (d : Dict Key Arr) : SGHMC.Inputs (Pos size) where
  epsilon := eps
  scaleGrad := W.scaleGrad
  mdecay := W.mdecay
  normal := W.normal k
  grad := W.grad d
  cost := W.cost d
  fed := fed

/-- The graph of `SGHMCSampler`. -/
@[reducible] noncomputable def SGHMCWorld.graph (W : SGHMCWorld size) : GraphSem size where
  St := SGHMC.State (Pos size)
  run k eps fed d s := SGHMC.run (W.inputs k eps fed d) (W.order k) s
  param s := s.params
  cost s := s.cost
  minv s i := (s.par i).minv

/-- What an SGLD sampler is constructed with, and the choices of the outside world. -/
structure SGLDWorld (size : Fin n → Nat) where
  scaleGrad : Fl
  a : Fl
  grad : Dict Key Arr → (∀ i, Pos size i → Fl) → ∀ i, Pos size i → Fl
  cost : Dict Key Arr → (∀ i, Pos size i → Fl) → Fl
  normal : Nat → ∀ i, Pos size i → Fl
  order : Nat → SGLD.Schedule (Fin n)

/-- Inputs of run `k`. -/
def SGLDWorld.inputs (W : SGLDWorld size) (k : Nat) (eps : Fl) (fed : ∀ i, Option (Pos size i → Fl))
    (d : Dict Key Arr) : SGLD.Inputs (Pos size) where
  epsilon := eps
  scaleGrad := W.scaleGrad
  a := W.a
  normal := W.normal k
  grad := W.grad d
  cost := W.cost d
  fed := fed

/-- The graph of `SGLDSampler`. -/
@[reducible] noncomputable def SGLDWorld.graph (W : SGLDWorld size) : GraphSem size where
  St := SGLD.State (Pos size)
  run k eps fed d s := SGLD.run (W.inputs k eps fed d) (W.order k) s
  param s := s.params
  cost s := s.cost
  minv s i := (s.par i).minv

end PySGMCMC.Chain
