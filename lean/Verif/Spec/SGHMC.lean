import Verif.Model.SGHMC

/-!
# The published SGHMC recurrences, all at once

`next` computes the whole new state of a parameter from the old state and a gradient, with no notion of operations,
dependencies or order: averaging rate from the old window; window and inverse mass matrix from the old averages;
averages from the new rate; momentum from the (new or fed) inverse mass matrix; position from the new momentum.
-/

namespace PySGMCMC.SGHMC
open BurnInStats

variable {P : Type} {ι : P → Type}

/-- The simultaneous update for gradient `γ`. -/
noncomputable def next (inp : Inputs ι) (i : P) (γ : ι i → Fl) (p : PState (ι i)) : PState (ι i) :=
  let r : ι i → Fl := fun k => rhsR (p.tau k)
  let minv : ι i → Fl := fun k => rhsMinv (p.vhat k)
  let used : ι i → Fl := minvSeen (inp.fed i) minv
  let sample : ι i → Fl := fun k =>
    sigma (epsilonScaled inp.epsilon inp.scaleGrad) inp.mdecay (used k) * inp.normal i k
  let dmom : ι i → Fl := fun k => rhsMom inp.epsilon inp.mdecay (used k) (γ k) (p.mom k) (sample k)
  let mom : ι i → Fl := fun k => p.mom k + dmom k
  { tau := fun k => p.tau k + rhsTau (p.g k) (p.tau k) (p.vhat k)
    r := r
    g := fun k => p.g k + rhsG (r k) (p.g k) (γ k)
    vhat := fun k => p.vhat k + rhsVhat (r k) (p.vhat k) (γ k)
    minv := minv
    mom := mom
    vec := fun k => p.vec k + mom k
    param := fun k => p.vec k + mom k
    tGrad := γ
    tR := r
    tTau := fun k => rhsTau (p.g k) (p.tau k) (p.vhat k)
    tMinv := minv
    tG := fun k => rhsG (r k) (p.g k) (γ k)
    tVhat := fun k => rhsVhat (r k) (p.vhat k) (γ k)
    tSample := sample
    tMom := dmom }

variable [DecidableEq P]

/-- A chain of session runs, each with its own inputs and its own execution order. -/
noncomputable def runs (hist : List (Inputs ι × Schedule P)) (s : State ι) : State ι :=
  hist.foldl (fun s x => run x.1 x.2 s) s

/-- The gradients that were evaluated for element `k` of parameter `i` in a chain of runs. -/
noncomputable def gradients (i : P) (k : ι i) : List (Inputs ι × Schedule P) → State ι → List Fl
  | [], _ => []
  | x :: xs, s => ((run x.1 x.2 s).par i).tGrad k :: gradients i k xs (run x.1 x.2 s)

/-- The state after running all initializers, with target parameters `θ`. -/
noncomputable def State.init (θ : ∀ i, ι i → Fl) : State ι := ⟨fun i => PState.init (θ i), 0⟩

end PySGMCMC.SGHMC
