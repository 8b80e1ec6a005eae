import Verif.Model.SGHMC
import Verif.Model.SGLD
import Verif.Model.Relativistic
import Verif.Model.SVGD

/-!
# Changing target parameters between two steps

The target parameters are variables of the user (`base_classes.py:33-34`), so the user may assign to them between two calls of `next`, for
example with `session.run(param.assign(value))`, and another sampler with the same target parameters assigns to them in each of its
steps.  Such an assignment changes the variable itself and nothing else; in particular not the "vectorized clones" that the
samplers keep (`base_classes.py:102-103`) and update (`sghmc.py:241-250`, `sgld.py:201-211`, `relativistic_sghmc.py:132-140`).
The update of `SVGDSampler` does not use the clones (`svgd.py:140-144`).
-/

namespace PySGMCMC

/-- The variables after the user assigned `θ` to the target parameters of an `SGHMCSampler`. -/
def SGHMC.State.assign {P : Type} {ι : P → Type} (s : SGHMC.State ι) (θ : ∀ i, ι i → Fl) : SGHMC.State ι :=
  ⟨fun i => { s.par i with param := θ i }, s.cost⟩

/-- The variables after the user assigned `θ` to the target parameters of an `SGLDSampler`. -/
def SGLD.State.assign {P : Type} {ι : P → Type} (s : SGLD.State ι) (θ : ∀ i, ι i → Fl) : SGLD.State ι :=
  ⟨fun i => { s.par i with param := θ i }, s.cost⟩

/-- The variables after the user assigned `θ` to the target parameters of a `RelativisticSGHMCSampler`. -/
def Relativistic.State.assign {P : Type} (s : Relativistic.State P) (θ : P → Fl) : Relativistic.State P :=
  ⟨fun i => { s.par i with param := θ i }, s.cost⟩

/-- The variables after the user assigned `x` to the particles of an `SVGDSampler`. -/
def SVGD.State.assign {n d : Nat} (s : SVGD.State n d) (x : Fin n → Fin d → Fl) : SVGD.State n d := { s with particles := x }

end PySGMCMC
