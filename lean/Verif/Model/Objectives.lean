import Verif.Model.BaseModel
import Mathlib.Analysis.Real.Pi.Bounds

/-!
# Model of `pysgmcmc/diagnostics/objective_functions.py`

A point is a sequence of reals, indexed as in Python (`IndexError` past the end).  The benchmark functions map reals to
reals without partial operations, so their arithmetic is that of `ℝ`; the Gaussian mixtures use `Fl`, since logarithms and
divisions may leave the reals.

Simplifications: no rounding; a `tf.Variable` is a scalar variable and evaluating the returned tensor gives the modelled
value; divisions by a zero variance follow numpy (`±∞`, `NaN`), not Python floats (`ZeroDivisionError`).
-/

namespace PySGMCMC.Objectives

/-- `x[i]` -/
def item (x : List ℝ) (i : Nat) : Except PyErr ℝ :=
  match x[i]? with
  | some v => .ok v
  | none => .error .index

/-! ## `to_negative_log_likelihood` -/

/-- A Python function: what `functools.wraps` copies, and its behaviour on arguments (it may raise and change a state). -/
structure Fun (σ A V : Type) where
  name : String
  doc : Option String
  call : A → σ → Step σ V

/-- `-` on a returned value may itself raise (`TypeError`). -/
structure HasNeg (V : Type) where
  neg : V → Except PyErr V

/-- `to_negative_log_likelihood` (`objective_functions.py:7-45`). -/
def toNegativeLogLikelihood {σ A V : Type} (N : HasNeg V) (f : Fun σ A V) : Fun σ A V where
  name := f.name
  doc := f.doc
  call a s :=
    match f.call a s with
    | (.error e, s') => (.error e, s')
    | (.ok v, s') => (N.neg v, s')

noncomputable section

/-! ## Banana and Gaussian mixtures -/

/-- `banana_log_likelihood` (`objective_functions.py:49-59`). -/
def bananaLogLikelihood (x : List ℝ) : Except PyErr ℝ := do
  let x0 ← item x 0
  let x1 ← item x 1
  .ok (-0.5 * (0.01 * x0 ^ 2 + (x1 + 0.1 * x0 ^ 2 - 10) ^ 2))

/-- The shifted sum both `logsumexp`s compute. -/
def shiftedLogsumexp (a : List Fl) (m : Fl) : Fl := Fl.log (Fl.sum (a.map fun t => Fl.exp (t - m))) + m

/-- `scipy.misc.logsumexp` of a list: shifted by the maximum if that is finite; the maximum of nothing is a `ValueError`. -/
def logsumexp (a : List Fl) : Except PyErr Fl :=
  match Fl.listMax a with
  | none => .error (.value "amax")
  | some (.fin m) => .ok (shiftedLogsumexp a (.fin m))
  | some _ => .ok (shiftedLogsumexp a 0)

/-- `tf.reduce_logsumexp` of a list, as `logsumexp`, but the maximum of nothing is `-∞`. -/
def reduceLogsumexp (a : List Fl) : Fl :=
  match Fl.listMax a with
  | some (.fin m) => shiftedLogsumexp a (.fin m)
  | _ => shiftedLogsumexp a 0

/-- `normldf`, `normldf_tf` (`objective_functions.py:71-73`, `79-80`). -/
def normldf (x mu var : ℝ) : Fl :=
  Fl.fin (-0.5) * Fl.log (.fin (2 * Real.pi * var)) - Fl.fin (0.5 * (x - mu) ^ 2) / .fin var

/-- The first argument of the mixture functions: a number, a scalar `tf.Variable`, or a sequence of such. -/
inductive Scalar where
  | number (x : ℝ)
  | variable (x : ℝ)

/-- See `Scalar`. -/
inductive MixArg where
  | scalar (s : Scalar)
  | seq (l : List Scalar)

/-- The value of a number or variable. -/
def Scalar.value : Scalar → ℝ
  | .number x => x
  | .variable x => x

/-- `if hasattr(x, "__iter__"): assert(len(x) == 1); x = x[0]` (`objective_functions.py:66-68`).  `tf.Variable` has an
`__iter__` (that raises), but no `__len__`. -/
def unpack : MixArg → Except PyErr Scalar
  | .scalar (.number x) => .ok (.number x)
  | .scalar (.variable _) => .error .type
  | .seq [s] => .ok s
  | .seq _ => .error .assertion

/-- `gaussian_mixture_model_log_likelihood` (`objective_functions.py:62-85`). -/
def gmmLogLikelihood (x : MixArg) (mu var weights : List ℝ) : Except PyErr Fl :=
  if ¬ (mu.length = var.length ∧ var.length = weights.length) then .error .assertion
  else do
    let s ← unpack x
    let terms := List.zipWith (fun w (p : ℝ × ℝ) => Fl.log (.fin w) + normldf s.value p.1 p.2) weights (mu.zip var)
    match s with
    | .variable _ => .ok (reduceLogsumexp terms)
    | .number _ => logsumexp terms

/-- `gmm1_log_likelihood` with the default means, variances and weights (`objective_functions.py:62-63`, `89-90`). -/
def gmm1LogLikelihood (x : MixArg) : Except PyErr Fl := gmmLogLikelihood x [-5, 0, 5] [1, 1, 1] [1/3, 1/3, 1/3]

/-- `gmm2_log_likelihood` (`objective_functions.py:93-94`). -/
def gmm2LogLikelihood (x : MixArg) : Except PyErr Fl := gmmLogLikelihood x [-5, 0, 5] [1/0.5, 0.5, 1/0.5] [1/3, 1/3, 1/3]

/-- `gmm3_log_likelihood` (`objective_functions.py:97-98`). -/
def gmm3LogLikelihood (x : MixArg) : Except PyErr Fl := gmmLogLikelihood x [-5, 0, 5] [1/0.3, 0.3, 1/0.3] [1/3, 1/3, 1/3]

/-! ## Synthetic functions -/

/-- `np.sinc` -/
def npSinc (t : ℝ) : ℝ := if t = 0 then 1 else Real.sin (Real.pi * t) / (Real.pi * t)

/-- `sinc` (`objective_functions.py:101-102`): one value per row of a matrix. -/
def sinc (x : List (List ℝ)) : List ℝ := x.map fun row => (row.map fun v => npSinc (v * 10 - 5)).sum

/-- `bohachevski` (`objective_functions.py:107-122`). -/
def bohachevski (x : List ℝ) : Except PyErr ℝ := do
  let x0 ← item x 0
  let x1 ← item x 1
  let y := 0.7 + x0 ^ 2 + 2.0 * x1 ^ 2
  let y := y - 0.3 * Real.cos (3.0 * Real.pi * x0)
  let y := y - 0.4 * Real.cos (4.0 * Real.pi * x1)
  .ok y

/-- `branin` (`objective_functions.py:125-139`). -/
def branin (x : List ℝ) : Except PyErr ℝ := do
  let x1 ← item x 1
  let x0 ← item x 0
  let y := (x1 - (5.1 / (4 * Real.pi ^ 2)) * x0 ^ 2 + 5 * x0 / Real.pi - 6) ^ 2
  let y := y + (10 * (1 - 1 / (8 * Real.pi)) * Real.cos x0 + 10)
  .ok y

/-- `camelback` (`objective_functions.py:142-156`). -/
def camelback (x : List ℝ) : Except PyErr ℝ := do
  let x0 ← item x 0
  let x1 ← item x 1
  .ok ((4 - 2.1 * (x0 ^ 2) + ((x0 ^ 4) / 3)) * (x0 ^ 2) + x0 * x1 + (-4 + 4 * (x1 ^ 2)) * (x1 ^ 2))

/-- `goldstein_price` (`objective_functions.py:159-173`). -/
def goldsteinPrice (x : List ℝ) : Except PyErr ℝ := do
  let x0 ← item x 0
  let x1 ← item x 1
  .ok ((1 + (x0 + x1 + 1) ^ 2 * (19 - 14 * x0 + 3 * x0 ^ 2 - 14 * x1 + 6 * x0 * x1 + 3 * x1 ^ 2))
    * (30 + (2 * x0 - 3 * x1) ^ 2 * (18 - 32 * x0 + 12 * x0 ^ 2 + 48 * x1 - 36 * x0 * x1 + 27 * x1 ^ 2)))

/-- The loops of `hartmann3` and `hartmann6`: `-∑ᵢ αᵢ exp(-∑ⱼ Aᵢⱼ (xⱼ - Pᵢⱼ)²)`, with `P` given in units of `0.0001`. -/
def hartmann (x : List ℝ) (alpha : List ℝ) (A P : List (List ℝ)) : Except PyErr ℝ := do
  let inner := fun (a p : List ℝ) => (List.range a.length).foldlM (m := Except PyErr) (fun acc j => do
    let xj ← item x j
    let aj ← item a j
    let pj ← item p j
    .ok (acc + aj * (xj - 0.0001 * pj) ^ 2)) 0
  let s ← ((alpha.zip (A.zip P))).foldlM (m := Except PyErr) (fun acc r => do
    let i ← inner r.2.1 r.2.2
    .ok (acc + r.1 * Real.exp (-i))) 0
  .ok (-s)

/-- `hartmann3` (`objective_functions.py:176-203`). -/
def hartmann3 (x : List ℝ) : Except PyErr ℝ := hartmann x [1.0, 1.2, 3.0, 3.2]
  [[3.0, 10.0, 30.0], [0.1, 10.0, 35.0], [3.0, 10.0, 30.0], [0.1, 10.0, 35.0]]
  [[3689, 1170, 2673], [4699, 4387, 7470], [1090, 8732, 5547], [381, 5743, 8828]]

/-- `hartmann6` (`objective_functions.py:206-234`). -/
def hartmann6 (x : List ℝ) : Except PyErr ℝ := hartmann x [1.00, 1.20, 3.00, 3.20]
  [[10.00, 3.00, 17.00, 3.50, 1.70, 8.00], [0.05, 10.00, 17.00, 0.10, 8.00, 14.00],
   [3.00, 3.50, 1.70, 10.00, 17.00, 8.00], [17.00, 8.00, 0.05, 10.00, 0.10, 14.00]]
  [[1312, 1696, 5569, 124, 8283, 5886], [2329, 4135, 8307, 3736, 1004, 9991],
   [2348, 1451, 3522, 2883, 3047, 6650], [4047, 8828, 8732, 5743, 1091, 381]]

/-- `levy` (`objective_functions.py:237-252`). -/
def levy (x : List ℝ) : Except PyErr ℝ := do
  let x0 ← item x 0
  let z := 1 + ((x0 - 1) / 4)
  let s := Real.sin (Real.pi * z) ^ 2
  .ok (s + ((z - 1) ^ 2) * (1 + Real.sin (2 * Real.pi * z) ^ 2))

/-- `rosenbrock` (`objective_functions.py:255-273`). -/
def rosenbrock (x : List ℝ) : Except PyErr ℝ :=
  (List.range (2 - 1)).foldlM (m := Except PyErr) (fun y i => do
    let b ← item x (i + 1)
    let a ← item x i
    .ok (y + 100 * (b - a ^ 2) ^ 2 + (a - 1) ^ 2)) 0

/-- `sin_one` (`objective_functions.py:276-294`). -/
def sinOne (x : List ℝ) : Except PyErr ℝ := do
  let x0 ← item x 0
  .ok (0.5 * Real.sin (13 * x0) * Real.sin (27 * x0) + 0.5)

/-- `sin_two` (`objective_functions.py:297-315`). -/
def sinTwo (x : List ℝ) : Except PyErr ℝ := do
  let x0 ← item x 0
  let x1 ← item x 1
  .ok ((0.5 * Real.sin (13 * x0) * Real.sin (27 * x0) + 0.5) * (0.5 * Real.sin (13 * x1) * Real.sin (27 * x1) + 0.5))

end

end PySGMCMC.Objectives
