import Verif.Model.BNN
import Verif.Model.BNNCost
import Verif.Model.BNNSampler
import Verif.Model.Chain
import Verif.Model.DataBatches
import Verif.Model.Schedules

/-!
# A whole network: `bayesian_neural_network.py` on top of `data_batches.py`, `sampling.py`, `sghmc.py` and `base_classes.py`

Instantiates the outside world of `Model/BNN.lean` for the first `train` call of a network with the default batch generator
`generate_batches`, a `ConstantStepsizeSchedule` and the sampling method SGHMC.  Left open: the network function `get_net` builds, the start
values of its variables, TensorFlow's gradient, its execution orders and normal draws, numpy's generator.

Simplifications: the network acts on every row of its input separately; its variables are the only trainable ones; the feed of a minibatch
is flattened, with as many rows as labels; session runs succeed when both placeholders are fed.
-/

namespace PySGMCMC.BNNSystem
open BNN Chain SamplerBase

/-- Number of elements of each variable. -/
abbrev sizes {n : Nat} (shape : Fin n → List Nat) : Fin n → Nat := fun i => (shape i).prod

/-- A batch generator object together with the arrays it was given. -/
abbrev Batches (R : RNG) (D : Nat) := DataBatches.Gen R × DataBatches.World R (Fin D → Fl) Fl

/-- Values of keyword arguments of a sampler. -/
inductive Val (R : RNG) (D : Nat) where
  | batches (g : Batches R D)
  | schedule (s : Schedules.Constant Arr)
  | num (v : Fl)
  | int (k : Int)
  /-- params, cost function, session, seed, dtype and everything else -/
  | object

/-- What a network is constructed with, and the choices of the outside world. -/
structure Setup (R : RNG) (D : Nat) {n : Nat} (shape : Fin n → List Nat) where
  /-- the network built by `get_net`: mean and log variance for the values of the variables and an input row -/
  net : (∀ i, Pos (sizes shape) i → Fl) → (Fin D → Fl) → Fl × Fl
  /-- the initial values of the variables that are drawn when the sampler is constructed -/
  first : ∀ i, Pos (sizes shape) i → Fl
  /-- the initial values drawn by `tf.global_variables_initializer()` afterwards -/
  start : ∀ i, Pos (sizes shape) i → Fl
  /-- whether a variable or the sampler's working copy of it is initialized first then -/
  paramFirst : Fin n → Bool
  batchSize : Nat
  seed : PyVal
  schedule : Schedules.Constant Arr
  /-- the keyword arguments of the constructor call -/
  kwargs : List (String × Val R D)
  /-- `tf.gradients(Nll, params)` for a number of datapoints, the rows and labels of a minibatch and the values of the variables -/
  grad : Nat → List (Fin D → Fl) → List Fl → (∀ i, Pos (sizes shape) i → Fl) → ∀ i, Pos (sizes shape) i → Fl
  normal : Nat → ∀ i, Pos (sizes shape) i → Fl
  order : Nat → SGHMC.Schedule (Fin n)
  /-- numpy's global generator -/
  glob : R.State

variable {R : RNG} {D n : Nat} {shape : Fin n → List Nat}

noncomputable section

/-- `Nll` for a number of datapoints and a minibatch (`bayesian_neural_network.py:427`). -/
def Setup.cost (S : Setup R D shape) (nExamples : Nat) (rows : List (Fin D → Fl)) (ys : List Fl)
    (θ : ∀ i, Pos (sizes shape) i → Fl) : Fl :=
  (negativeLogLikelihood (rows.map (S.net θ)) ys S.batchSize nExamples (List.ofFn fun i => ⟨shape i, flat (θ i)⟩)).1

/-- The rows of a fed minibatch. -/
def encodeRows (rows : List (Fin D → Fl)) : Arr := rows.flatMap fun r => List.ofFn r

/-- Read `m` rows. -/
def decodeRows (D m : Nat) (l : Arr) : List (Fin D → Fl) := (List.range m).map fun r j => l.getD (r * D + j) .nan

/-- `self.X_Minibatch` and `self.Y_Minibatch` of the placeholders number `ph` (`bayesian_neural_network.py:421-424`). -/
def xKey (ph : Nat) : Key := .ph (2 * ph)
def yKey (ph : Nat) : Key := .ph (2 * ph + 1)

/-- `generate_batches(x=self.X, x_placeholder=…, y=self.y, y_placeholder=…, batch_size=self.batch_size, seed=self.seed)` and the
schedule (`bayesian_neural_network.py:440-450`). -/
@[reducible] def Setup.feeder (S : Setup R D shape) (ph : Nat) : Feeder where
  Batch := Batches R D
  Sched := Schedules.Constant Arr
  batchNext g := match DataBatches.nextBatch R ⟨.int S.batchSize, S.seed⟩ g with
    | (.ok b, g') => (.ok (Dict.ofList [(xKey ph, encodeRows (b.xs.read g'.2.data.x)), (yKey ph, b.ys.read g'.2.data.y)]), g')
    | (.error e, g') => (.error e, g')
  schedNext s := s.next
  schedUpdate s out c := s.update [(out, c)]

/-- What the sampler of a `train` call is constructed with. -/
structure Conf where
  placeholder : Nat
  nExamples : Nat
  scaleGrad : Fl
  mdecay : Fl
  burnIn : Int

/-- A graph evaluation on a minibatch; `dflt` if a placeholder is not fed. -/
def onBatch {β : Type} (D ph : Nat) (dflt : β) (f : List (Fin D → Fl) → List Fl → β) (d : Dict Key Arr) : β :=
  match d (xKey ph), d (yKey ph) with
  | some xs, some ys => f (decodeRows D ys.length xs) ys
  | _, _ => dflt

/-- The sampler's graph. -/
def Setup.graphWorld (S : Setup R D shape) (c : Conf) : SGHMCWorld (sizes shape) where
  scaleGrad := c.scaleGrad
  mdecay := c.mdecay
  grad := onBatch D c.placeholder (fun _ _ _ => .nan) fun rows ys => S.grad c.nExamples rows ys
  cost := onBatch D c.placeholder (fun _ => .nan) fun rows ys => S.cost c.nExamples rows ys
  normal := S.normal
  order := S.order

/-- Both placeholders must be fed. -/
def userOk (D ph : Nat) (d : Dict Key Arr) : Bool := onBatch D ph false (fun _ _ => true) d

/-- The sampler's environment. -/
@[reducible] def Setup.env (S : Setup R D shape) (c : Conf) : Env Arr Fl :=
  Chain.env (S.feeder c.placeholder) (S.graphWorld c).graph (userOk D c.placeholder)

/-! ## Construction of the sampler -/

/-- A number passed for a keyword, or the default. -/
def asNumber : Sampling.Arg (Val R D) → Option Fl
  | .given (.num v) => some v
  | .given (.int k) => some (.fin k)
  | .dflt (.float a b) => some (.fin ((a : ℝ) / b))
  | .dflt (.int k) => some (.fin k)
  | _ => none

/-- An integer passed for a keyword, or the default. -/
def asInt : Sampling.Arg (Val R D) → Option Int
  | .given (.int k) => some k
  | .dflt (.int k) => some k
  | _ => none

/-- A stepsize schedule passed for a keyword, or the default. -/
def asSchedule : Sampling.Arg (Val R D) → Option (Schedules.Constant Arr)
  | .given (.schedule s) => some s
  | .dflt (.constantSchedule a b) => some ⟨[.fin ((a : ℝ) / b)]⟩
  | _ => none

/-- A batch generator passed for a keyword, or the default `None`. -/
def asBatches : Sampling.Arg (Val R D) → Option (Option (Batches R D))
  | .given (.batches g) => some (some g)
  | .dflt .none => some none
  | _ => none

/-- The values `train` determines itself (`bayesian_neural_network.py:437-457`); the batch generator is a new generator over
`self.X`, `self.y`. -/
def Setup.own (S : Setup R D shape) (cfg : Cfg) (d : TrainData D) : BNNSampler.Own (Val R D) where
  params := .object
  costFun := .object
  batchGenerator := .batches (.fresh, ⟨⟨d.X, d.y⟩, S.glob⟩)
  session := .object
  seed := .object
  dtype := .object
  stepsizeSchedule := .schedule S.schedule
  nDatapoints := .int d.X.length
  burnInSteps := .int cfg.burnIn

/-- The sampler's working copies after `session.run(tf.global_variables_initializer())` (`SamplerInit.C99_reinit_partial`). -/
def Setup.work (S : Setup R D shape) : ∀ i, Pos (sizes shape) i → Fl := fun i => if S.paramFirst i then S.start i else S.first i

/-- `Sampler.get_sampler(self.sampling_method, **self.sampler_kwargs)` and `session.run(tf.global_variables_initializer())`
(`bayesian_neural_network.py:437-468`). -/
def Setup.build (S : Setup R D shape) (cfg : Cfg) (d : TrainData D) : Except PyErr (Σ c : Conf, Sampler (S.env c)) :=
  match (BNNSampler.setUp (.member .SGHMC) (S.own cfg d) (BNNSampler.samplerKwargs S.kwargs)).2 with
  | .error e => .error e
  | .ok (cls, args) =>
    let base := Sampling.superArgs cls args
    match (Sampling.argOf args "scale_grad").bind asNumber, (Sampling.argOf args "mdecay").bind asNumber,
      (Sampling.argOf args "burn_in_steps").bind asInt, base.stepsizeSchedule.bind asSchedule, base.batchGenerator.bind asBatches with
    | some scale, some mdecay, some B, some sched, some batches =>
      .ok ⟨⟨d.placeholder, d.X.length, scale, mdecay, B⟩,
        init batches sched ⟨SGHMC.State.start S.work S.start, sched.initialValue.getD 0 .nan, 0⟩⟩
    | _, _, _, _, _ => .error .type

/-! ## The world -/

/-- The parameter arrays of a sample with their shapes. -/
def attach (shape : Fin n → List Nat) : Out Arr → Sample
  | .many l => .many (List.zipWith Tensor.mk (List.ofFn shape) l)
  | .one v => .one ⟨(List.ofFn shape).headD [], v⟩

/-- The session: before the first `train` call, or with the sampler. -/
abbrev Setup.Session (S : Setup R D shape) := Option (Σ c : Conf, Sampler (S.env c))

/-- `next(self.sampler)` -/
def Setup.next (S : Setup R D shape) : S.Session → Step S.Session (Sample × Fl)
  | none => (.error .attribute, none)
  | some ⟨c, s⟩ =>
    let r := asIter (burnInNext (S.env c) c.burnIn n) s
    (r.1.map fun p => (attach shape p.1, p.2), some ⟨c, r.2⟩)

/-- The outside world of a `train` call (`bayesian_neural_network.py:390-533`). -/
def Setup.world (S : Setup R D shape) (cfg : Cfg) : World D S.Session Unit Fl where
  getNet ph w := (.ok ⟨ph, fun assign _ X i => S.net (fun v p => (assign v).data.getD p .nan) (X i)⟩, w)
  costGraph _ w := (.ok (), w)
  trainable _ := List.range n
  buildSampler d w := match S.build cfg d with
    | .error e => (.error e, w)
    | .ok s => (.ok (), some s)
  next _ := S.next
  logError _ _ := .ok ()
  varShape v := if h : v < n then shape ⟨v, h⟩ else []
  varValue w v := if h : v < n then ⟨shape ⟨v, h⟩, flat (match w with
      | some ⟨_, s⟩ => SGHMC.State.params s.graph.vars ⟨v, h⟩
      | none => S.start ⟨v, h⟩)⟩ else ⟨[], []⟩

end

end PySGMCMC.BNNSystem
