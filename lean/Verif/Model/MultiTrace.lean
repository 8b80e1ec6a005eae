import Verif.Model.Chain
import Verif.Model.SampleChains

/-!
# `pymc3_multitrace` on the package's samplers: `diagnostics/sample_chains.py` on top of `samplers/`

Instantiates the outside world of `pymc3_multitrace` (`Model/SampleChains.lean`) with the samplers of `Model/Chain.lean`.  The user's
`get_sampler` may step the sampler before it returns it.

Simplification: the initial values of the variables are constants, so that running the initializer again gives the same values; the
sampler's working copies are initialized from the parameters and may keep their values (`SamplerInit.C99_reinit_partial`).
-/

namespace PySGMCMC.MultiTrace
open SamplerBase Chain SampleChains

variable {n : Nat} {size : Fin n → Nat} {C : Type} {F : Feeder C} {G : GraphSem size C} {ok : Dict Key Arr → Bool}

/-- `session.run(tf.global_variables_initializer())` (`sample_chains.py:373`): every variable of the graph, those of the sampler (`reset`)
and its stepsize included, gets its initial value.  Attributes of Python objects and the state of random ops do not change. -/
def initVariables (reset : G.St → G.St) (eps0 : Fl) (s : Sampler (env F G ok)) : Sampler (env F G ok) :=
  { s with graph := { s.graph with vars := reset s.graph.vars, epsilon := eps0 } }

/-- The variables of an SGLD sampler after all initializers ran (`sgld.py:104-142`, `base_classes.py:103-119`): parameter `i` has its
initial value, and its working copy this value or the one before, depending on which of the two initializers came first. -/
noncomputable def sgldReset (paramFirst : Fin n → Bool) (θ : ∀ i, Pos size i → Fl) (s : SGLD.State (Pos size)) : SGLD.State (Pos size) :=
  SGLD.State.start (fun i => if paramFirst i then θ i else s.params i) θ

/-- As `sgldReset` for SGHMC (`sghmc.py:126-155`). -/
noncomputable def sghmcReset (paramFirst : Fin n → Bool) (θ : ∀ i, Pos size i → Fl) (s : SGHMC.State (Pos size)) : SGHMC.State (Pos size) :=
  SGHMC.State.start (fun i => if paramFirst i then θ i else s.params i) θ

/-- A sample as a Python object, for target parameters of the given shapes. -/
def sampleObj (shape : Fin n → List Nat) : Out Arr → Obj
  | .many l => .list (List.zipWith (fun sh v => Obj.ofTensor ⟨sh, v⟩) (List.ofFn shape) l)
  | .one v => Obj.ofTensor ⟨(List.ofFn shape).headD [], v⟩

/-- What a user's `get_sampler` does: the sampler it constructs for the `i`-th chain and how often it steps it. -/
structure Factory (F : Feeder C) (G : GraphSem size C) (ok : Dict Key Arr → Bool) where
  batch : Nat → Option F.Batch
  sched : Nat → F.Sched
  start : Nat → G.St
  /-- what the second run of the initializers makes of the variables -/
  reset : Nat → G.St → G.St
  eps0 : Fl
  /-- number of steps before the sampler is returned -/
  steps : Nat
  names : Fin n → String

/-- The world of `pymc3_multitrace`: the number of chains begun, and the current sampler with its session. -/
abbrev Factory.Ω (_ : Factory F G ok) := Nat × Option (Sampler (env F G ok))

variable (next : Feed Arr → Sampler (env F G ok) → NextRes (env F G ok))

/-- The sampler for chain `i` as `get_sampler` returns it. -/
def Factory.returned (U : Factory F G ok) (i : Nat) : Sampler (env F G ok) :=
  (calls (asIter next) U.steps (init (U.batch i) (U.sched i) ⟨U.start i, U.eps0, 0⟩)).2

/-- `get_sampler`, the initializer and the sampler in `pymc3_multitrace` (`sample_chains.py:369-380`). -/
def Factory.world (U : Factory F G ok) (shape : Fin n → List Nat) : World U.Ω Nat C where
  getSampler w := (.ok w.1, w.1 + 1, some (U.returned next w.1))
  initVars i w := (.ok (), w.1, w.2.map (initVariables (U.reset i) U.eps0))
  next _ w := match w.2 with
    | none => (.error .attribute, w)
    | some s =>
      let r := asIter next s
      (r.1.map fun p => (sampleObj shape p.1, p.2), w.1, some r.2)
  params _ := List.ofFn fun i => some (U.names i)

end PySGMCMC.MultiTrace
