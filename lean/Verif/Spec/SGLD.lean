import Verif.Model.SGLD

/-!
# The preconditioned Langevin step, all at once

As in `Spec/SGHMC.lean`: no notion of operations or order.
-/

namespace PySGMCMC.SGLD
open BurnInStats

variable {P : Type} {ι : P → Type}

/-- The simultaneous update for gradient `γ`. -/
noncomputable def next (inp : Inputs ι) (i : P) (γ : ι i → Fl) (p : PState (ι i)) : PState (ι i) :=
  let r : ι i → Fl := fun k => rhsR (p.tau k)
  let minv : ι i → Fl := fun k => rhsMinv (p.vhat k)
  let used : ι i → Fl := minvSeen (inp.fed i) minv
  let sample : ι i → Fl := fun k => sigma inp.epsilon inp.a inp.scaleGrad (used k) * inp.normal i k
  let dvec : ι i → Fl := fun k => rhsVec inp.epsilon inp.a (used k) (γ k) (sample k)
  { tau := fun k => p.tau k + rhsTau (p.g k) (p.tau k) (p.vhat k)
    r := r
    g := fun k => p.g k + rhsG (r k) (p.g k) (γ k)
    vhat := fun k => p.vhat k + rhsVhat (r k) (p.vhat k) (γ k)
    minv := minv
    vec := fun k => p.vec k + dvec k
    param := fun k => p.vec k + dvec k
    tGrad := γ
    tR := r
    tTau := fun k => rhsTau (p.g k) (p.tau k) (p.vhat k)
    tMinv := minv
    tG := fun k => rhsG (r k) (p.g k) (γ k)
    tVhat := fun k => rhsVhat (r k) (p.vhat k) (γ k)
    tSample := sample
    tVec := dvec }

variable [DecidableEq P]

/-- A chain of session runs, each with its own inputs and its own execution order. -/
noncomputable def runs (hist : List (Inputs ι × Schedule P)) (s : State ι) : State ι :=
  hist.foldl (fun s x => run x.1 x.2 s) s

/-- The gradients that were evaluated for element `k` of parameter `i` in a chain of runs. -/
noncomputable def gradients (i : P) (k : ι i) : List (Inputs ι × Schedule P) → State ι → List Fl
  | [], _ => []
  | x :: xs, s => ((run x.1 x.2 s).par i).tGrad k :: gradients i k xs (run x.1 x.2 s)

/-- The state after running all initializers, with target parameters `θ`. -/
noncomputable def State.init (θ : ∀ i, ι i → Fl) : State ι := ⟨fun i => PState.init (θ i), 0⟩

end PySGMCMC.SGLD
