import Verif.Model.SampleChains

/-!
# Model of `pysgmcmc/diagnostics/sampler_diagnostics.py`

A pymc3 diagnostic is an arbitrary function of the recorded traces that may fail.
-/

namespace PySGMCMC.SamplerDiagnostics
open SampleChains

variable {ω H C R : Type}

/-- `_pymc3_diagnostic` (`sampler_diagnostics.py:7-44`): `keep_every` and `parameter_names` of `pymc3_multitrace` keep
their defaults. -/
def pymc3Diagnostic (W : World ω H C) (diagnostic : List Trace → Except PyErr R) (nChains samplesPerChain : Nat) (w : ω) :
    Step ω R :=
  match multitrace W nChains samplesPerChain 10 none w with
  | (.error e, w') => (.error e, w')
  | (.ok traces, w') => (diagnostic traces, w')

/-- The two diagnostics imported from pymc3. -/
structure Pymc3 (R : Type) where
  effectiveN : List Trace → Except PyErr R
  gelmanRubin : List Trace → Except PyErr R

/-- `effective_sample_sizes` (`sampler_diagnostics.py:47-115`). -/
def effectiveSampleSizes (M : Pymc3 R) (W : World ω H C) (nChains : Nat := 2) (samplesPerChain : Nat := 100) (w : ω) : Step ω R :=
  pymc3Diagnostic W M.effectiveN nChains samplesPerChain w

/-- `gelman_rubin` (`sampler_diagnostics.py:118-194`). -/
def gelmanRubin (M : Pymc3 R) (W : World ω H C) (nChains : Nat := 2) (samplesPerChain : Nat := 100) (w : ω) : Step ω R :=
  pymc3Diagnostic W M.gelmanRubin nChains samplesPerChain w

end PySGMCMC.SamplerDiagnostics
