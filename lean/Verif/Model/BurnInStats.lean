import Verif.Model.TensorUtils

/-!
# The adaptive statistics shared by SGHMC and SGLD

`samplers/sghmc.py:124-196` and `samplers/sgld.py:115-180` contain the same code.  All of these operations are
elementwise, so they are given per element.
-/

namespace PySGMCMC.BurnInStats

open TensorUtils

noncomputable section

/-- Initial value of `tau` (`sghmc.py:126`, `sgld.py:117`). -/
def tau0 : Fl := 1
/-- Initial value of `R` (`sghmc.py:131`, `sgld.py:122`). -/
def r0 : Fl := 1 / (tau0 + 1)
/-- Initial value of `g` (`sghmc.py:135`, `sgld.py:126`). -/
def g0 : Fl := 1
/-- Initial value of `v_hat` (`sghmc.py:140`, `sgld.py:131`). -/
def vhat0 : Fl := 1
/-- Initial value of `minv` (`sghmc.py:146-149`, `sgld.py:138-141`). -/
def minv0 : Fl := 1 / Fl.sqrt vhat0

/-- Right-hand side of `r_t` (`sghmc.py:168`, `sgld.py:154`). -/
def rhsR (tau : Fl) : Fl := 1 / (tau + 1)

/-- Increment of `tau` (`sghmc.py:174`, `sgld.py:159`). -/
def rhsTau (g tau vhat : Fl) : Fl := safeDivide' (-g * g * tau) vhat + 1

/-- Right-hand side of `minv_t` (`sghmc.py:181`, `sgld.py:165`). -/
def rhsMinv (vhat : Fl) : Fl := safeDivide' 1 (safeSqrt vhat)

/-- Increment of `g` (`sghmc.py:188`, `sgld.py:172`). -/
def rhsG (r g grad : Fl) : Fl := -r * g + r * grad

/-- Increment of `v_hat` (`sghmc.py:194`, `sgld.py:178`). -/
def rhsVhat (r vhat grad : Fl) : Fl := -r * vhat + r * Fl.npow grad 2

end

end PySGMCMC.BurnInStats
