import Verif.Model.SampleChains
import Mathlib.Algebra.Order.Floor.Ring

/-!
# Model of `docs/source/experiments/compute_ess.py`

The experiment script: effective sample sizes for a range of stepsizes.  The outside world `ω` builds a sampler for a
given stepsize (new graph, new session, variables initialized) and steps it; pymc3's `effective_n` and the mean over
its values are an arbitrary function of the traces.

Simplifications: parsed command line arguments are given (argparse is not modelled); stepsizes are reals; the array made
of the extracted samples is the list of samples; writing the result to the output file is not modelled.
-/

namespace PySGMCMC.ComputeEss
open SampleChains

/-- `list(itertools.islice(it, 0, stop, step))`: all `stop` items are consumed (CPython advances to `stop` before it reports
exhaustion), those with an index divisible by `step` are kept.  `i` is the index of the next item. -/
def isliceStep {σ α : Type} (next : σ → Step σ α) (step : Nat) : (fuel i : Nat) → σ → Except PyErr (List α) × σ
  | 0, _, s => (.ok [], s)
  | fuel + 1, i, s =>
    match next s with
    | (.error .stopIteration, s') => (.ok [], s')
    | (.error e, s') => (.error e, s')
    | (.ok a, s') =>
      match isliceStep next step fuel (i + 1) s' with
      | (.ok l, s'') => (.ok (if i % step = 0 then a :: l else l), s'')
      | (.error e, s'') => (.error e, s'')

/-- `extract_samples` (`compute_ess.py:177-183`). -/
def extractSamples {σ C : Type} (next : σ → Step σ (Obj × C)) (nSamples keepEvery : Nat) (s : σ) :
    Except PyErr (List Obj) × σ :=
  match isliceStep next keepEvery (nSamples * keepEvery) 0 s with
  | (.ok l, s') => (.ok (l.map Prod.fst), s')
  | (.error e, s') => (.error e, s')

/-- The parsed command line (`compute_ess.py:31-127`). -/
structure Args where
  benchmark : String
  sampler : String := "RelativisticSGHMC"
  nIterations : Int := 1
  nChains : Int := 20
  samplesPerChain : Int := 10000
  keepEvery : Int := 10
  stepsizeMin : ℝ
  stepsizeMax : ℝ
  stepsizeStep : ℝ
  stepsize : Option ℝ := none

noncomputable section

open Classical in
/-- The argument checks (`compute_ess.py:150-169`, `187-197`). -/
def check (a : Args) : Except PyErr Unit :=
  if a.benchmark ∉ ["banana", "gmm1", "gmm2", "gmm3"] then .error (.value "Unsupported benchmark function")
  else if ¬ 1 ≤ a.nIterations then .error .assertion
  else if ¬ 2 ≤ a.nChains then .error .assertion
  else if ¬ 1 ≤ a.samplesPerChain then .error .assertion
  else if ¬ 1 ≤ a.keepEvery then .error .assertion
  else if ¬ a.stepsizeMin ≤ a.stepsizeMax then .error .assertion
  else if ¬ 0 ≤ a.stepsizeMin then .error .assertion
  else if ¬ 0 < a.stepsizeStep then .error .assertion
  else if a.sampler ∉ ["RelativisticSGHMC", "SGHMC", "SGLD"] then .error .assertion
  else .ok ()

/-- `np.arange(start, stop, step)` -/
def arange (start stop step : ℝ) : List ℝ :=
  (List.range ⌈(stop - start) / step⌉.toNat).map fun i : Nat => start + (i : ℝ) * step

/-- `stepsizes` (`compute_ess.py:201-206`). -/
def stepsizes (a : Args) : List ℝ :=
  match a.stepsize with
  | none => arange a.stepsizeMin a.stepsizeMax a.stepsizeStep
  | some e => [e]

/-- `varnames` (`compute_ess.py:216-224`). -/
def varnames (benchmark : String) : List String := if benchmark = "banana" then ["x", "y"] else ["x"]

/-- The outside world. -/
structure World (ω H C : Type) where
  /-- new graph and session, parameters, sampler and variable initialization (`compute_ess.py:212-234`) -/
  newSampler : String → String → ℝ → ω → Step ω H
  next : H → ω → Step ω (Obj × C)
  /-- mean of the effective sample sizes -/
  meanEss : List Trace → Except PyErr Fl

variable {ω H C : Type}

/-- The traces of one sampler (`compute_ess.py:238-246`), for the given chain ids. -/
def traces (W : World ω H C) (a : Args) (h : H) : List Nat → ω → Step ω (List Trace)
  | [], w => (.ok [], w)
  | i :: is, w =>
    match extractSamples (W.next h) a.samplesPerChain.toNat 10 w with
    | (.error e, w') => (.error e, w')
    | (.ok samples, w') =>
      match mkTrace i (.seq samples) (some (varnames a.benchmark)) with
      | .error e => (.error e, w')
      | .ok tr =>
        match traces W a h is w' with
        | (.error e, w'') => (.error e, w'')
        | (.ok trs, w'') => (.ok (tr :: trs), w'')

/-- The body of the inner loop (`compute_ess.py:212-250`). -/
def one (W : World ω H C) (a : Args) (e : ℝ) (w : ω) : Step ω Fl :=
  match W.newSampler a.sampler a.benchmark e w with
  | (.error err, w1) => (.error err, w1)
  | (.ok h, w1) =>
    match traces W a h (List.range a.nChains.toNat) w1 with
    | (.error err, w2) => (.error err, w2)
    | (.ok trs, w2) =>
      match multiTrace trs with
      | .error err => (.error err, w2)
      | .ok mt => (W.meanEss mt, w2)

/-- The loops (`compute_ess.py:210-250`) over the stepsizes still to do; returns the appended pairs `(stepsize, value)` in order. -/
def loop (W : World ω H C) (a : Args) : List ℝ → ω → Step ω (List (ℝ × Fl))
  | [], w => (.ok [], w)
  | e :: es, w =>
    match one W a e w with
    | (.error err, w') => (.error err, w')
    | (.ok v, w') =>
      match loop W a es w' with
      | (.error err, w'') => (.error err, w'')
      | (.ok rest, w'') => (.ok ((e, v) :: rest), w'')

open Classical in
/-- `ess_vals`, a `defaultdict(list)`: for each stepsize the values appended under this key. -/
def essVals (pairs : List (ℝ × Fl)) (e : ℝ) : List Fl := (pairs.filter fun p => p.1 = e).map Prod.snd

/-- `main` (`compute_ess.py:30-253`) up to writing the result. -/
def main (W : World ω H C) (a : Args) (w : ω) : Step ω (ℝ → List Fl) :=
  match check a with
  | .error e => (.error e, w)
  | .ok () =>
    match loop W a (List.replicate a.nIterations.toNat (stepsizes a)).flatten w with
    | (.error e, w') => (.error e, w')
    | (.ok pairs, w') => (.ok (essVals pairs), w')

end

end PySGMCMC.ComputeEss
