import Verif.Model.BNNSystem

/-!
# A whole network that samples with SGLD: `bayesian_neural_network.py` on top of `sgld.py`

As `Model/BNNSystem.lean`, with the sampling method `Sampler.SGLD`; the simplifications are the same.
-/

namespace PySGMCMC.BNNSystemSGLD
open BNN Chain SamplerBase BNNSystem

/-- As `BNNSystem.Setup` (whose execution orders are not used), with the execution orders of the SGLD graph. -/
structure Setup (R : RNG) (D : Nat) {n : Nat} (shape : Fin n → List Nat) where
  base : BNNSystem.Setup R D shape
  order : Nat → SGLD.Schedule (Fin n)

/-- What the sampler of a `train` call is constructed with. -/
structure Conf where
  placeholder : Nat
  nExamples : Nat
  scaleGrad : Fl
  a : Fl
  burnIn : Int

variable {R : RNG} {D n : Nat} {shape : Fin n → List Nat}

noncomputable section

/-- The sampler's graph. -/
def Setup.graphWorld (S : Setup R D shape) (c : Conf) : SGLDWorld (sizes shape) where
  scaleGrad := c.scaleGrad
  a := c.a
  grad := onBatch D c.placeholder (fun _ _ _ => .nan) fun rows ys => S.base.grad c.nExamples rows ys
  cost := onBatch D c.placeholder (fun _ => .nan) fun rows ys => S.base.cost c.nExamples rows ys
  normal := S.base.normal
  order := S.order

/-- The sampler's environment. -/
@[reducible] def Setup.env (S : Setup R D shape) (c : Conf) : Env Arr Fl :=
  Chain.env (S.base.feeder c.placeholder) (S.graphWorld c).graph (userOk D c.placeholder)

/-- `Sampler.get_sampler(self.sampling_method, **self.sampler_kwargs)` and `session.run(tf.global_variables_initializer())`
(`bayesian_neural_network.py:437-468`). -/
def Setup.build (S : Setup R D shape) (cfg : Cfg) (d : TrainData D) : Except PyErr (Σ c : Conf, Sampler (S.env c)) :=
  match (BNNSampler.setUp (.member .SGLD) (S.base.own cfg d) (BNNSampler.samplerKwargs S.base.kwargs)).2 with
  | .error e => .error e
  | .ok (cls, args) =>
    let base := Sampling.superArgs cls args
    match (Sampling.argOf args "scale_grad").bind asNumber, (Sampling.argOf args "A").bind asNumber,
      (Sampling.argOf args "burn_in_steps").bind asInt, base.stepsizeSchedule.bind asSchedule, base.batchGenerator.bind asBatches with
    | some scale, some a, some B, some sched, some batches =>
      .ok ⟨⟨d.placeholder, d.X.length, scale, a, B⟩,
        init batches sched ⟨SGLD.State.start S.base.work S.base.start, sched.initialValue.getD 0 .nan, 0⟩⟩
    | _, _, _, _, _ => .error .type

/-- The session: before the first `train` call, or with the sampler. -/
abbrev Setup.Session (S : Setup R D shape) := Option (Σ c : Conf, Sampler (S.env c))

/-- `next(self.sampler)` (`bayesian_neural_network.py:510-512`) -/
def Setup.next (S : Setup R D shape) : S.Session → Step S.Session (Sample × Fl)
  | none => (.error .attribute, none)
  | some ⟨c, s⟩ =>
    let r := asIter (burnInNext (S.env c) c.burnIn n) s
    (r.1.map fun p => (attach shape p.1, p.2), some ⟨c, r.2⟩)

/-- The outside world of a `train` call (`bayesian_neural_network.py:390-533`). -/
def Setup.world (S : Setup R D shape) (cfg : Cfg) : World D S.Session Unit Fl where
  getNet ph w := (.ok ⟨ph, fun assign _ X i => S.base.net (fun v p => (assign v).data.getD p .nan) (X i)⟩, w)
  costGraph _ w := (.ok (), w)
  trainable _ := List.range n
  buildSampler d w := match S.build cfg d with
    | .error e => (.error e, w)
    | .ok s => (.ok (), some s)
  next _ := S.next
  logError _ _ := .ok ()
  varShape v := if h : v < n then shape ⟨v, h⟩ else []
  varValue w v := if h : v < n then ⟨shape ⟨v, h⟩, flat (match w with
      | some ⟨_, s⟩ => SGLD.State.params s.graph.vars ⟨v, h⟩
      | none => S.base.start ⟨v, h⟩)⟩ else ⟨[], []⟩

end

end PySGMCMC.BNNSystemSGLD
