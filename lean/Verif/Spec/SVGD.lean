import Verif.Model.SVGD
import Mathlib.Analysis.InnerProductSpace.PiL2

/-! The SVGD step at once, chains of steps, and the RBF kernel in closed form. -/

namespace PySGMCMC.SVGD

variable {n d : Nat}

/-- New gradient history. -/
noncomputable def nextHist (inp : Inputs n d) (s : State n d) (i : Fin n) (a : Fin d) : Fl :=
  rhsHist inp.alpha (s.hist i a) (gradTheta inp s.particles i a)

/-- New position. -/
noncomputable def nextParticle (inp : Inputs n d) (s : State n d) (i : Fin n) (a : Fin d) : Fl :=
  s.particles i a - inp.epsilon * adjGrad inp.fudge (gradTheta inp s.particles i a) (nextHist inp s i a)

/-- A chain of session runs. -/
noncomputable def runs (hist : List (Inputs n d × Schedule n)) (s : State n d) : State n d :=
  hist.foldl (fun s x => run x.1 x.2 s) s

/-- Squared Euclidean distance of two particles. -/
def sqDist (x : Fin n → Fin d → ℝ) (i j : Fin n) : ℝ := ∑ a, (x i a - x j a) ^ 2

/-- The Gaussian kernel of two particles with squared bandwidth `h2`. -/
noncomputable def rbf (h2 : ℝ) (x : Fin n → Fin d → ℝ) (i j : Fin n) : ℝ := Real.exp (-(sqDist x i j) / (2 * h2))

end PySGMCMC.SVGD
