import Verif.Model.Chain
import Verif.Model.Relativistic
import Verif.Model.SVGD

/-!
# A sampler without burn-in with its session: `base_classes.py` on top of `relativistic_sghmc.py` / `svgd.py`

As `Model/Chain.lean`.  `MCMCSampler.__next__` is `SamplerBase.baseNext`.
-/

namespace PySGMCMC.Chain
open SamplerBase

variable {n : Nat}

/-- What a relativistic SGHMC sampler is constructed with, and the choices of the outside world. Only parameters with one
element are possible (C37). -/
structure RelWorld (n : Nat) where
  mass : Fl
  c : Fl
  d : Fl
  bhat : Fl
  grad : Dict Key Arr → (Fin n → Fl) → Fin n → Fl
  cost : Dict Key Arr → (Fin n → Fl) → Fl
  normal : Nat → Fin n → Fl
  order : Nat → Relativistic.Schedule (Fin n)

/-- Inputs of run `k`. -/
def RelWorld.inputs (W : RelWorld n) (k : Nat) (eps : Fl) (d : Dict Key Arr) : Relativistic.Inputs (Fin n) where
  epsilon := eps
  mass := W.mass
  c := W.c
  d := W.d
  bhat := W.bhat
  normal := W.normal k
  grad := W.grad d
  cost := W.cost d

/-- The graph of `RelativisticSGHMCSampler`. -/
@[reducible] noncomputable def RelWorld.graph (W : RelWorld n) : GraphSem (fun _ : Fin n => 1) where
  St := Relativistic.State (Fin n)
  run k eps _ d s := Relativistic.run (W.inputs k eps d) (W.order k) s
  param s i _ := s.params i
  cost s := s.cost
  minv _ _ _ := .nan

/-- The variables after construction (`relativistic_sghmc.py:108-113`, `base_classes.py:110-122`) for momenta `p`. -/
noncomputable def RelWorld.start (θ p : Fin n → Fl) : Relativistic.State (Fin n) :=
  ⟨fun i => ⟨p i, θ i, θ i, 0, 0, 0⟩, 0⟩

/-- As `RelWorld.start`, for the values `θ` in the sampler's working copies and `θ0` in the target parameters (which differ if
initializers were run again, see `SamplerInit.C99_working_copy_violated`). -/
noncomputable def RelWorld.startFrom (θ θ0 p : Fin n → Fl) : Relativistic.State (Fin n) :=
  ⟨fun i => ⟨p i, θ i, θ0 i, 0, 0, 0⟩, 0⟩

/-- What an SVGD sampler of `n` particles with `d` elements is constructed with, and the choices of the outside world. -/
structure SVGDWorld (n d : Nat) where
  alpha : Fl
  fudge : Fl
  /-- gradient of the cost function of one particle -/
  grad : Dict Key Arr → (Fin d → Fl) → Fin d → Fl
  cost : Dict Key Arr → (Fin d → Fl) → Fl
  unspecified : (Fin n → Fin d → Fl) → SVGD.Kernel n d
  order : Nat → SVGD.Schedule n

variable {d : Nat}

/-- Inputs of run `k`. -/
def SVGDWorld.inputs (W : SVGDWorld n d) (eps : Fl) (feed : Dict Key Arr) : SVGD.Inputs n d where
  epsilon := eps
  alpha := W.alpha
  fudge := W.fudge
  grad := W.grad feed
  cost := W.cost feed
  unspecified := W.unspecified

/-- The graph of `SVGDSampler`; the cost is fetched for all particles. -/
@[reducible] noncomputable def SVGDWorld.graph (W : SVGDWorld n d) : GraphSem (fun _ : Fin n => d) (Fin n → Fl) where
  St := SVGD.State n d
  run k eps _ feed s := SVGD.run (W.inputs eps feed) (W.order k) s
  param s := s.particles
  cost s := s.cost
  minv _ _ _ := .nan

end PySGMCMC.Chain
