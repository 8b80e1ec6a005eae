import Verif.Model.SamplerDiagnostics
import Verif.Props.SampleChains

/-!
# Properties of the sampler diagnostics
-/

namespace PySGMCMC.SamplerDiagnostics
open SampleChains

variable {ω H C R : Type}

/-- `keep_every` has no effect on one chain. -/
theorem oneChain_keepEvery (W : World ω H C) (n : Nat) (k k' : Int) (names : Option (List String)) (i : Nat) (w : ω) :
    oneChain W n k names i w = oneChain W n k' names i w := rfl

/-- **C80** If all `m` chains can be recorded, `effective_sample_sizes` and `gelman_rubin` return what pymc3 computes from
exactly these `m` traces, which carry the ids `0, …, m-1` in this order, and nothing else happens afterwards. -/
theorem C80_diagnostics (M : Pymc3 R) (W : World ω H C) (m n : Nat) (world : Nat → ω) (trace : Nat → Trace)
    (hall : ∀ i < m, oneChain W n 1 none i (world i) = (.ok (trace i), world (i + 1))) :
    effectiveSampleSizes M W m n (world 0) = (M.effectiveN ((List.range m).map trace), world m) ∧
    gelmanRubin M W m n (world 0) = (M.gelmanRubin ((List.range m).map trace), world m) ∧
    ∀ i < m, (trace i).chain = i := by
  have h := C52_succeeds W m n 10 none world trace fun i hi => by rw [← hall i hi]; rfl
  refine ⟨?_, ?_, fun i hi => ?_⟩
  · simp only [effectiveSampleSizes, pymc3Diagnostic, h]
  · simp only [gelmanRubin, pymc3Diagnostic, h]
  · obtain ⟨s, w1, w2, samples, -, -, -, -, hm⟩ := oneChain_ok W n 1 none i _ _ _ (hall i hi)
    exact (mkTrace_ok _ _ _ _ hm).1

/-- **C80** The same in terms of the samplers: if for each of the `m` chains the factory yields a sampler, its variables can be initialized and
its next `n` steps return lists with one entry per parameter, pymc3 gets exactly `m` traces; the `i`-th has the id `i`, the parameter names as variables
and consists of the `n` samples of the `i`-th sampler. -/
theorem C80_chains (M : Pymc3 R) (W : World ω H C) (m n : Nat) (hn : 1 ≤ n) (world w1 w2 : Nat → ω) (s : Nat → H)
    (params : Nat → List String) (rows : Nat → List (List Obj × C))
    (hget : ∀ i < m, W.getSampler (world i) = (.ok (s i), w1 i)) (hinit : ∀ i < m, W.initVars (s i) (w1 i) = (.ok (), w2 i))
    (hpar : ∀ i < m, W.params (s i) = (params i).map some) (hpos : ∀ i < m, 1 ≤ (params i).length)
    (hsteps : ∀ i < m, calls (W.next (s i)) n (w2 i) = ((rows i).map fun r => .ok (.list r.1, r.2), world (i + 1)))
    (hlen : ∀ i < m, ∀ r ∈ rows i, r.1.length = (params i).length) :
    ∃ trace : Nat → Trace,
      effectiveSampleSizes M W m n (world 0) = (M.effectiveN ((List.range m).map trace), world m) ∧
      gelmanRubin M W m n (world 0) = (M.gelmanRubin ((List.range m).map trace), world m) ∧
      ∀ i < m, (trace i).chain = i ∧ (trace i).varnames = params i ∧ length (trace i) = n
        ∧ (trace i).samples = (rows i).map fun r => .list r.1 := by
  have key : ∀ i, ∃ tr : Trace, i < m → oneChain W n 1 none i (world i) = (.ok tr, world (i + 1)) ∧ tr.chain = i ∧ tr.varnames = params i
      ∧ length tr = n ∧ tr.samples = (rows i).map fun r => .list r.1 := by
    intro i
    by_cases hi : i < m
    · obtain ⟨tr, h1, h2, h3, h4, h5⟩ := C49_keep_all_partial (W.next (s i)) (params i) i n none (w2 i) (rows i) hn
        (by rw [hsteps i hi]) (hlen i hi) (hpos i hi)
      refine ⟨tr, fun _ => ⟨?_, h5, h4, h3, h2⟩⟩
      rw [hsteps i hi] at h1
      simp only [oneChain, hget i hi, hinit i hi, hpar i hi]
      exact h1
    · exact ⟨⟨0, [], 0, []⟩, fun h => absurd h hi⟩
  choose trace htr using key
  obtain ⟨h1, h2, -⟩ := C80_diagnostics M W m n world trace fun i hi => (htr i hi).1
  exact ⟨trace, h1, h2, fun i hi => (htr i hi).2⟩

/-- **C80** If recording a chain fails, so do both functions, with the same exception, whatever pymc3 would compute, and no
further chain is started. -/
theorem C80_failure (M : Pymc3 R) (W : World ω H C) (m n : Nat) (world : Nat → ω) (trace : Nat → Trace) (i : Nat) (hi : i < m)
    (e : PyErr) (w' : ω) (hpre : ∀ j < i, oneChain W n 1 none j (world j) = (.ok (trace j), world (j + 1)))
    (herr : oneChain W n 1 none i (world i) = (.error e, w')) :
    effectiveSampleSizes M W m n (world 0) = (.error e, w') ∧ gelmanRubin M W m n (world 0) = (.error e, w') := by
  have h := C52_failure W m n 10 none world trace i hi e w' (fun j hj => by rw [← hpre j hj]; rfl) (by rw [← herr]; rfl)
  constructor
  · simp only [effectiveSampleSizes, pymc3Diagnostic, h]
  · simp only [gelmanRubin, pymc3Diagnostic, h]

/-- **C80** Without further arguments two chains of one hundred samples are used. -/
theorem C80_defaults (M : Pymc3 R) (W : World ω H C) (w : ω) :
    effectiveSampleSizes M W (w := w) = effectiveSampleSizes M W 2 100 w ∧ gelmanRubin M W (w := w) = gelmanRubin M W 2 100 w :=
  ⟨rfl, rfl⟩

/-- The hypotheses are met: three chains of five samples of a counter; the diagnostic here counts the traces. -/
example : effectiveSampleSizes (R := Nat) ⟨fun trs => .ok trs.length, fun _ => .error .type⟩ counterWorld 3 5 42 = (.ok 3, 5) := by
  obtain ⟨trace, h, -⟩ := C80_chains (R := Nat) ⟨fun trs => .ok trs.length, fun _ => .error .type⟩ counterWorld 3 5 (by omega)
    (fun i => match i with | 0 => 42 | _ => 5) (fun _ => 100) (fun _ => 0) (fun _ => ()) (fun _ => ["x"])
    (fun _ => (List.range 5).map fun (i : Nat) => ([Obj.float true (.fin ((0 + i : Nat) : ℝ))], ()))
    (fun _ _ => rfl) (fun _ _ => rfl) (fun _ _ => rfl) (fun _ _ => by simp)
    (fun _ _ => by
      show calls counter 5 0 = _
      rw [counter_calls, List.map_map]; rfl)
    (fun _ _ r hr => by obtain ⟨i, -, rfl⟩ := List.mem_map.1 hr; rfl)
  simpa using h

end PySGMCMC.SamplerDiagnostics
