import Mathlib.Analysis.SpecialFunctions.Log.Basic
import Mathlib.Analysis.SpecialFunctions.Sqrt
import Mathlib.Analysis.SpecialFunctions.Trigonometric.Deriv

/-!
# Idealised IEEE floating point numbers

`Fl` is the set of reals with `+∞`, `-∞` and `NaN`.  Arithmetic on finite values is exact; the special
values follow the IEEE 754 rules (`x/0 = ±∞`, `0/0 = NaN`, `∞ - ∞ = NaN`, `0 * ∞ = NaN`,
`sqrt` and `log` of a negative number are `NaN`, ...).
Simplifications: no rounding, no overflow or underflow, a single (positive) zero.
This is a model of numpy / TensorFlow arithmetic, not of a function in the repository.
-/

namespace PySGMCMC

/-- Idealised floating point numbers. -/
inductive Fl where
  | fin (r : ℝ)
  | pinf
  | ninf
  | nan

namespace Fl

noncomputable section
open Classical

/-- The infinity with the sign of `s`; `NaN` for `s = 0`. -/
def infOf (s : ℝ) : Fl := if 0 < s then pinf else if s < 0 then ninf else nan

/-- Unary minus. -/
def neg : Fl → Fl
  | fin r => fin (-r)
  | pinf => ninf
  | ninf => pinf
  | nan => nan

/-- Addition. -/
def add : Fl → Fl → Fl
  | nan, _ => nan
  | _, nan => nan
  | fin a, fin b => fin (a + b)
  | fin _, pinf => pinf
  | fin _, ninf => ninf
  | pinf, ninf => nan
  | ninf, pinf => nan
  | pinf, _ => pinf
  | ninf, _ => ninf

/-- Multiplication. -/
def mul : Fl → Fl → Fl
  | nan, _ => nan
  | _, nan => nan
  | fin a, fin b => fin (a * b)
  | fin a, pinf => infOf a
  | fin a, ninf => infOf (-a)
  | pinf, fin b => infOf b
  | ninf, fin b => infOf (-b)
  | pinf, pinf => pinf
  | ninf, ninf => pinf
  | pinf, ninf => ninf
  | ninf, pinf => ninf

/-- Division. -/
def div : Fl → Fl → Fl
  | nan, _ => nan
  | _, nan => nan
  | fin a, fin b => if b = 0 then infOf a else fin (a / b)
  | fin _, pinf => fin 0
  | fin _, ninf => fin 0
  | pinf, fin b => if b = 0 then pinf else infOf b
  | ninf, fin b => if b = 0 then ninf else infOf (-b)
  | pinf, pinf => nan
  | pinf, ninf => nan
  | ninf, pinf => nan
  | ninf, ninf => nan

/-- Square root. -/
def sqrt : Fl → Fl
  | fin r => if 0 ≤ r then fin (Real.sqrt r) else nan
  | pinf => pinf
  | ninf => nan
  | nan => nan

/-- `tf.sign` / `np.sign`. -/
def sign : Fl → Fl
  | fin r => if 0 < r then fin 1 else if r < 0 then fin (-1) else fin 0
  | pinf => fin 1
  | ninf => fin (-1)
  | nan => nan

/-- `tf.maximum` (`NaN` propagates). -/
def max : Fl → Fl → Fl
  | nan, _ => nan
  | _, nan => nan
  | fin a, fin b => fin (Max.max a b)
  | pinf, _ => pinf
  | _, pinf => pinf
  | ninf, x => x
  | x, ninf => x

/-- `tf.minimum` (`NaN` propagates). -/
def min : Fl → Fl → Fl
  | nan, _ => nan
  | _, nan => nan
  | fin a, fin b => fin (Min.min a b)
  | ninf, _ => ninf
  | _, ninf => ninf
  | pinf, x => x
  | x, pinf => x

/-- `exp`. -/
def exp : Fl → Fl
  | fin r => fin (Real.exp r)
  | pinf => pinf
  | ninf => fin 0
  | nan => nan

/-- `log`. -/
def log : Fl → Fl
  | fin r => if 0 < r then fin (Real.log r) else if r = 0 then ninf else nan
  | pinf => pinf
  | ninf => nan
  | nan => nan

/-- `tanh`. -/
def tanh : Fl → Fl
  | fin r => fin (Real.tanh r)
  | pinf => fin 1
  | ninf => fin (-1)
  | nan => nan

instance : Neg Fl := ⟨neg⟩
instance : Add Fl := ⟨add⟩
instance : Sub Fl := ⟨fun a b => a + (-b)⟩
instance : Mul Fl := ⟨mul⟩
instance : Div Fl := ⟨div⟩
instance (n : Nat) : OfNat Fl n := ⟨fin (n : ℝ)⟩
instance : OfScientific Fl := ⟨fun m s e => fin (OfScientific.ofScientific m s e)⟩
instance : Inhabited Fl := ⟨nan⟩

/-- `x ** n` for a literal natural exponent (exact). -/
def npow (x : Fl) : Nat → Fl
  | 0 => fin 1
  | n + 1 => npow x n * x

/-- The value is an ordinary number. -/
def IsFin (x : Fl) : Prop := ∃ r : ℝ, x = fin r

/-- The finite value of `x` (0 for special values; only used next to `IsFin`). -/
def val : Fl → ℝ
  | fin r => r
  | _ => 0

/-- Sum of a sequence, left to right (`reduce_sum`, `np.sum`). -/
def sum (l : List Fl) : Fl := l.foldl (· + ·) (fin 0)

/-- Arithmetic mean (`reduce_mean`, `np.mean`): `NaN` for an empty sequence. -/
def mean (l : List Fl) : Fl := sum l / fin (l.length : ℝ)

/-! ### Computation rules on finite values -/

@[simp] theorem neg_fin (a : ℝ) : -(fin a) = fin (-a) := rfl
@[simp] theorem add_fin (a b : ℝ) : fin a + fin b = fin (a + b) := rfl
@[simp] theorem sub_fin (a b : ℝ) : fin a - fin b = fin (a - b) := by
  show add (fin a) (neg (fin b)) = _
  simp [neg, add, sub_eq_add_neg]
@[simp] theorem mul_fin (a b : ℝ) : fin a * fin b = fin (a * b) := rfl
theorem div_fin' (a b : ℝ) : fin a / fin b = if b = 0 then infOf a else fin (a / b) := rfl
theorem div_fin {a b : ℝ} (h : b ≠ 0) : fin a / fin b = fin (a / b) := by
  rw [div_fin', if_neg h]
theorem sqrt_fin' (a : ℝ) : sqrt (fin a) = if 0 ≤ a then fin (Real.sqrt a) else nan := rfl
theorem sqrt_fin {a : ℝ} (h : 0 ≤ a) : sqrt (fin a) = fin (Real.sqrt a) := by
  rw [sqrt_fin', if_pos h]
theorem sqrt_neg {a : ℝ} (h : a < 0) : sqrt (fin a) = nan := by
  rw [sqrt_fin', if_neg (not_le.mpr h)]
@[simp] theorem max_fin (a b : ℝ) : max (fin a) (fin b) = fin (Max.max a b) := rfl
@[simp] theorem min_fin (a b : ℝ) : min (fin a) (fin b) = fin (Min.min a b) := rfl
@[simp] theorem exp_fin (a : ℝ) : exp (fin a) = fin (Real.exp a) := rfl
@[simp] theorem tanh_fin (a : ℝ) : tanh (fin a) = fin (Real.tanh a) := rfl
theorem log_fin {a : ℝ} (h : 0 < a) : log (fin a) = fin (Real.log a) := by
  show (if 0 < a then _ else _) = _
  rw [if_pos h]
theorem sign_fin (a : ℝ) :
    sign (fin a) = if 0 < a then fin 1 else if a < 0 then fin (-1) else fin 0 := rfl
theorem ofNat_def (n : Nat) : (OfNat.ofNat n : Fl) = fin (n : ℝ) := rfl
@[simp] theorem ofNat_zero : (0 : Fl) = fin 0 := by simp [ofNat_def]
@[simp] theorem ofNat_one : (1 : Fl) = fin 1 := by simp [ofNat_def]
theorem ofSci_def (m : Nat) (s : Bool) (e : Nat) :
    (OfScientific.ofScientific m s e : Fl) = fin (OfScientific.ofScientific m s e) := rfl

@[simp] theorem npow_fin (a : ℝ) (n : Nat) : npow (fin a) n = fin (a ^ n) := by
  induction n with
  | zero => simp [npow]
  | succ n ih => simp [npow, ih, pow_succ]

/-! ### NaN propagates -/

@[simp] theorem nan_add (x : Fl) : nan + x = nan := by cases x <;> rfl
@[simp] theorem add_nan (x : Fl) : x + nan = nan := by cases x <;> rfl
@[simp] theorem neg_nan : -nan = nan := rfl
@[simp] theorem nan_sub (x : Fl) : nan - x = nan := nan_add _
@[simp] theorem sub_nan (x : Fl) : x - nan = nan := add_nan x
@[simp] theorem nan_mul (x : Fl) : nan * x = nan := by cases x <;> rfl
@[simp] theorem mul_nan (x : Fl) : x * nan = nan := by cases x <;> rfl
@[simp] theorem nan_div (x : Fl) : nan / x = nan := by cases x <;> rfl
@[simp] theorem div_nan (x : Fl) : x / nan = nan := by cases x <;> rfl
@[simp] theorem sqrt_nan : sqrt nan = nan := rfl

@[simp] theorem isFin_fin (r : ℝ) : IsFin (fin r) := ⟨r, rfl⟩
@[simp] theorem not_isFin_nan : ¬ IsFin nan := by rintro ⟨r, h⟩; cases h
@[simp] theorem not_isFin_pinf : ¬ IsFin pinf := by rintro ⟨r, h⟩; cases h
@[simp] theorem not_isFin_ninf : ¬ IsFin ninf := by rintro ⟨r, h⟩; cases h
@[simp] theorem val_fin (r : ℝ) : val (fin r) = r := rfl
@[simp] theorem fin_inj {a b : ℝ} : fin a = fin b ↔ a = b := ⟨fun h => by cases h; rfl, fun h => by rw [h]⟩
theorem IsFin.eq {x : Fl} (h : IsFin x) : x = fin x.val := by obtain ⟨r, rfl⟩ := h; rfl

theorem foldl_add_fin (l : List ℝ) (a : ℝ) :
    (l.map fin).foldl (· + ·) (fin a) = fin (a + l.sum) := by
  induction l generalizing a with
  | nil => simp
  | cons x xs ih => simp [ih, add_assoc]

@[simp] theorem sum_map_fin (l : List ℝ) : sum (l.map fin) = fin l.sum := by
  rw [sum, foldl_add_fin, zero_add]

theorem mean_map_fin {l : List ℝ} (h : l ≠ []) : mean (l.map fin) = fin (l.sum / l.length) := by
  have : (l.length : ℝ) ≠ 0 := by
    simpa using h
  rw [mean, sum_map_fin, List.length_map, div_fin this]

@[simp] theorem mean_nil : mean [] = nan := by
  simp [mean, sum, div_fin', infOf]

end

end Fl

end PySGMCMC
