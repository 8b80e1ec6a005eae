import Verif.Model.Relativistic

/-! The relativistic SGHMC update at once, and chains of runs. -/

namespace PySGMCMC.Relativistic

variable {P : Type}

/-- The simultaneous update for the gradient `γ` of `-cost`. -/
noncomputable def next (inp : Inputs P) (i : P) (γ : Fl) (p : PState) : PState :=
  let dmom := rhsMom inp.epsilon inp.mass inp.c inp.d inp.bhat γ (inp.normal i) p.mom
  let mom := p.mom + dmom
  let vel := pGrad inp.epsilon inp.mass inp.c mom
  { mom := mom, vec := p.vec + vel, param := p.vec + vel, tGrad := γ, tMom := dmom, tVel := vel }

variable [DecidableEq P]

/-- A chain of session runs, each with its own inputs and its own execution order. -/
noncomputable def runs (hist : List (Inputs P × Schedule P)) (s : State P) : State P :=
  hist.foldl (fun s x => run x.1 x.2 s) s

end PySGMCMC.Relativistic
