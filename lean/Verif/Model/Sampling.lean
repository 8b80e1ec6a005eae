import Verif.Model.SamplerBase

/-!
# Model of `pysgmcmc/sampling.py` and of the argument plumbing of the sampler constructors

`α` is the type of the values a caller passes.
-/

namespace PySGMCMC.Sampling

/-- The members of the `Sampler` enum (`sampling.py:8-11`). -/
inductive Method where
  | SGHMC
  | RelativisticSGHMC
  | SGLD
  | SVGD
deriving DecidableEq, Repr

/-- The sampler classes. -/
inductive Cls where
  | sghmc
  | sgld
  | relativistic
  | svgd
deriving DecidableEq, Repr

/-- Default values in constructor signatures. -/
inductive Default where
  | none
  /-- `ConstantStepsizeSchedule(num / den)` -/
  | constantSchedule (num den : Nat)
  | int (n : Nat)
  /-- a float literal `num / den` -/
  | float (num den : Nat)
  /-- `tf.get_default_session()` at import time -/
  | defaultSession
  /-- `tf.float64` -/
  | float64
deriving DecidableEq, Repr

/-- A value bound to a parameter. -/
inductive Arg (α : Type) where
  | given (a : α)
  | dflt (d : Default)

/-- A parameter of a signature; `none` means that it has no default (`inspect._empty`). -/
structure Param where
  name : String
  default : Option Default
deriving DecidableEq, Repr

/-- `signature(Get_Sampler.__init__).parameters` (`sghmc.py:31-34`, `sgld.py:32-35`,
`relativistic_sghmc.py:24-27`, `svgd.py:23-26`). -/
def signature : Cls → List Param
  | .sghmc => [⟨"self", none⟩, ⟨"params", none⟩, ⟨"cost_fun", none⟩, ⟨"batch_generator", some .none⟩,
      ⟨"stepsize_schedule", some (.constantSchedule 1 100)⟩, ⟨"burn_in_steps", some (.int 3000)⟩,
      ⟨"mdecay", some (.float 5 100)⟩, ⟨"scale_grad", some (.float 1 1)⟩, ⟨"session", some .defaultSession⟩,
      ⟨"dtype", some .float64⟩, ⟨"seed", some .none⟩]
  | .sgld => [⟨"self", none⟩, ⟨"params", none⟩, ⟨"cost_fun", none⟩, ⟨"batch_generator", some .none⟩,
      ⟨"stepsize_schedule", some (.constantSchedule 1 100)⟩, ⟨"burn_in_steps", some (.int 3000)⟩,
      ⟨"A", some (.float 1 1)⟩, ⟨"scale_grad", some (.float 1 1)⟩, ⟨"session", some .defaultSession⟩,
      ⟨"dtype", some .float64⟩, ⟨"seed", some .none⟩]
  | .relativistic => [⟨"self", none⟩, ⟨"params", none⟩, ⟨"cost_fun", none⟩, ⟨"batch_generator", some .none⟩,
      ⟨"stepsize_schedule", some (.constantSchedule 1 1000)⟩, ⟨"mass", some (.float 1 1)⟩,
      ⟨"speed_of_light", some (.float 1 1)⟩, ⟨"D", some (.float 1 1)⟩, ⟨"Bhat", some (.float 0 1)⟩,
      ⟨"session", some .defaultSession⟩, ⟨"dtype", some .float64⟩, ⟨"seed", some .none⟩]
  | .svgd => [⟨"self", none⟩, ⟨"particles", none⟩, ⟨"cost_fun", none⟩, ⟨"batch_generator", some .none⟩,
      ⟨"stepsize_schedule", some (.constantSchedule 1 10)⟩, ⟨"alpha", some (.float 9 10)⟩,
      ⟨"fudge_factor", some (.float 1 1000000)⟩, ⟨"session", some .defaultSession⟩, ⟨"dtype", some .float64⟩,
      ⟨"seed", some .none⟩]

/-- Any Python value passed as `sampling_method`. -/
inductive MethodVal where
  | member (m : Method)
  | other
deriving DecidableEq, Repr

/-- `is_burn_in_mcmc` (`sampling.py:14-40`). -/
def isBurnInMcmc (v : MethodVal) : Bool := [MethodVal.member .SGHMC, .member .SGLD].contains v

/-- `is_supported` (`sampling.py:43-64`). -/
def isSupported (v : MethodVal) : Bool := [MethodVal.member .SGHMC, .member .SGLD].contains v

/-- The `if`/`elif` chain of imports (`sampling.py:175-193`). -/
def importClass : MethodVal → Option Cls
  | .member .SGHMC => some .sghmc
  | .member .SGLD => some .sgld
  | .member .RelativisticSGHMC => some .relativistic
  | .member .SVGD => some .svgd
  | .other => none

variable {α : Type}

/-- `sampler_args.get(name)`. -/
def lookup (kwargs : List (String × α)) (name : String) : Option α := (kwargs.find? (fun p => p.1 == name)).map (·.2)

/-- `parameter_value` (`sampling.py:231-265`). -/
def parameterValue (kwargs : List (String × α)) (p : Param) : Except PyErr (String × Arg α) :=
  match lookup kwargs p.name, p.default with
  | none, none => .error (.value p.name)
  | some a, _ => .ok (p.name, .given a)
  | none, some d => .ok (p.name, .dflt d)

/-- `Sampler.get_sampler(sampling_method, **sampler_args)` up to the constructor call
(`sampling.py:67-273`): the class and the keyword arguments it is called with.
The keyword dictionary is a list of pairs in insertion order; keywords `cls` and `sampling_method` clash with
the parameters of `get_sampler` itself. -/
def getSampler (method : MethodVal) (kwargs : List (String × α)) : Except PyErr (Cls × List (String × Arg α)) :=
  if kwargs.any (fun p => p.1 == "cls" || p.1 == "sampling_method") then .error .type
  else match importClass method with
  | none => .error (.value "sampling_method")
  | some c =>
    match kwargs.find? (fun p => !((signature c).map Param.name).contains p.1) with
    | some p => .error (.value p.1)
    | none =>
      match ((signature c).filter (fun p => p.name != "self")).mapM (parameterValue kwargs) with
      | .error e => .error e
      | .ok args => .ok (c, args)

/-! ## Constructor plumbing -/

/-- The arguments `MCMCSampler.__init__` receives. -/
structure BaseArgs (α : Type) where
  params : Option (Arg α)
  batchGenerator : Option (Arg α)
  stepsizeSchedule : Option (Arg α)
  session : Option (Arg α)
  dtype : Option (Arg α)
  seed : Option (Arg α)

/-- The value of the keyword argument `name` in a constructor call. -/
def argOf (args : List (String × Arg α)) (name : String) : Option (Arg α) :=
  (args.find? (fun p => p.1 == name)).map (·.2)

/-- The `super().__init__` calls (`sghmc.py:102-107`, `sgld.py:96-100`, `relativistic_sghmc.py:91-95`,
`svgd.py:92-98`, and `base_classes.py:386-389`). `SGLDSampler` does not pass its schedule on, so that the default
`ConstantStepsizeSchedule(0.01)` of `BurnInMCMCSampler.__init__` (`base_classes.py:322`) applies.
(The cost function is passed on as well, wrapped in `tf.map_fn` by SVGD.) -/
def superArgs (c : Cls) (args : List (String × Arg α)) : BaseArgs α where
  params := argOf args (match c with | .svgd => "particles" | _ => "params")
  batchGenerator := argOf args "batch_generator"
  stepsizeSchedule := match c with
    | .sgld => some (.dflt (.constantSchedule 1 100))
    | _ => argOf args "stepsize_schedule"
  session := argOf args "session"
  dtype := argOf args "dtype"
  seed := argOf args "seed"

end PySGMCMC.Sampling
