import Mathlib.Analysis.SpecialFunctions.Sqrt
import Mathlib.Analysis.SpecialFunctions.Log.Basic

/-!
# The algorithms as recurrences over real numbers

One coordinate of an SGHMC / SGLD chain with burn-in, as in Springenberg et al. (2016), with no notion of graphs,
sessions, dictionaries or samplers.  `x k` is the gradient and `z k` the standard normal draw of step `k`.
-/

namespace PySGMCMC.Spec

noncomputable section

/-- Window, gradient average, squared-gradient average, momentum, position and the last inverse mass. -/
structure Coord where
  tau : ℝ
  g : ℝ
  v : ℝ
  mom : ℝ
  pos : ℝ
  mass : ℝ

/-- The inverse mass of a step: adapted, or kept. -/
def Coord.massUsed (frozen : Bool) (c : Coord) : ℝ := if frozen then c.mass else 1 / (√c.v + 3e-16)

/-- The running averages after a step with gradient `x`. -/
def Coord.averaged (x : ℝ) (c : Coord) : Coord :=
  let r := 1 / (c.tau + 1)
  { c with
    tau := c.tau - c.g ^ 2 * c.tau / (c.v + 3e-16) + 1
    g := (1 - r) * c.g + r * x
    v := (1 - r) * c.v + r * x ^ 2 }

/-- Standard deviation of the SGHMC noise (C32). -/
def sghmcSd (eps alpha scale m : ℝ) : ℝ :=
  let e := eps / √scale
  √(max (2 * e ^ 2 * alpha * m - e ^ 4) 1e-16)

/-- One SGHMC step. -/
def sghmcStep (eps alpha scale : ℝ) (frozen : Bool) (x z : ℝ) (c : Coord) : Coord :=
  let m := c.massUsed frozen
  let mom := c.mom - eps ^ 2 * m * x - alpha * c.mom + sghmcSd eps alpha scale m * z
  { c.averaged x with mom := mom, pos := c.pos + mom, mass := m }

/-- Standard deviation of the SGLD noise (C34). -/
def sgldSd (eps a scale m : ℝ) : ℝ := √(2 * eps * m * a / (scale + 3e-16))

/-- One SGLD step. -/
def sgldStep (eps a scale : ℝ) (frozen : Bool) (x z : ℝ) (c : Coord) : Coord :=
  let m := c.massUsed frozen
  { c.averaged x with pos := c.pos - eps * m * a * x + sgldSd eps a scale m * z, mass := m }

/-- The start. -/
def Coord.start (th : ℝ) : Coord := ⟨1, 1, 1, 0, th, 1⟩

/-- Step `k` (from 0) comes after burn-in. -/
def afterBurnIn (B : Int) (k : Nat) : Bool := decide (0 < B ∧ B ≤ k)

/-- An SGHMC chain. -/
def sghmcChain (alpha scale : ℝ) (B : Int) (eps x z : Nat → ℝ) (th : ℝ) : Nat → Coord
  | 0 => .start th
  | k + 1 => sghmcStep (eps k) alpha scale (afterBurnIn B k) (x k) (z k) (sghmcChain alpha scale B eps x z th k)

/-- An SGLD chain. -/
def sgldChain (a scale : ℝ) (B : Int) (eps x z : Nat → ℝ) (th : ℝ) : Nat → Coord
  | 0 => .start th
  | k + 1 => sgldStep (eps k) a scale (afterBurnIn B k) (x k) (z k) (sgldChain a scale B eps x z th k)

variable {P : Type} {κ : P → Type}

/-- A whole SGHMC chain with gradients `γ k` of the cost on batch `k`, all evaluated at the old positions. -/
def sghmcVec (alpha scale : ℝ) (B : Int) (eps : Nat → ℝ) (γ : Nat → (∀ i, κ i → ℝ) → ∀ i, κ i → ℝ) (z : Nat → ∀ i, κ i → ℝ)
    (θ : ∀ i, κ i → ℝ) : Nat → ∀ i, κ i → Coord
  | 0 => fun i p => .start (θ i p)
  | k + 1 => fun i p =>
    let c := sghmcVec alpha scale B eps γ z θ k
    sghmcStep (eps k) alpha scale (afterBurnIn B k) (γ k (fun i p => (c i p).pos) i p) (z k i p) (c i p)

/-- A whole SGLD chain. -/
def sgldVec (a scale : ℝ) (B : Int) (eps : Nat → ℝ) (γ : Nat → (∀ i, κ i → ℝ) → ∀ i, κ i → ℝ) (z : Nat → ∀ i, κ i → ℝ)
    (θ : ∀ i, κ i → ℝ) : Nat → ∀ i, κ i → Coord
  | 0 => fun i p => .start (θ i p)
  | k + 1 => fun i p =>
    let c := sgldVec a scale B eps γ z θ k
    sgldStep (eps k) a scale (afterBurnIn B k) (γ k (fun i p => (c i p).pos) i p) (z k i p) (c i p)

/-! ## Relativistic SGHMC (Lu et al. 2017) -/

/-- `ε` times the relativistic velocity of momentum `p`. -/
def relMove (eps m c p : ℝ) : ℝ := eps * p / (m * √(p * p / (m ^ 2 * c ^ 2) + 1))

/-- A parameter of a relativistic SGHMC chain: position and momentum. -/
def relStep (eps m c D bhat x z : ℝ) (q : ℝ × ℝ) : ℝ × ℝ :=
  let p := q.2 - eps * x - D * relMove eps m c q.2 + √(eps * (2 * D - eps * bhat)) * z
  (q.1 + relMove eps m c p, p)

/-- A chain for the gradients `x`. -/
def relChain (m c D bhat : ℝ) (eps x z : Nat → ℝ) (th p : ℝ) : Nat → ℝ × ℝ
  | 0 => (th, p)
  | k + 1 => relStep (eps k) m c D bhat (x k) (z k) (relChain m c D bhat eps x z th p k)

/-- A whole chain with gradients `γ k` evaluated at the old positions. -/
def relVec (m c D bhat : ℝ) (eps : Nat → ℝ) (γ : Nat → (P → ℝ) → P → ℝ) (z : Nat → P → ℝ) (th p : P → ℝ) : Nat → P → ℝ × ℝ
  | 0 => fun i => (th i, p i)
  | k + 1 => fun i =>
    let q := relVec m c D bhat eps γ z th p k
    relStep (eps k) m c D bhat (γ k (fun j => (q j).1) i) (z k i) (q i)

/-! ## SVGD as implemented -/

/-- The median of a list: the middle element in increasing order, or the mean of the two middle elements. -/
def listMedian (l : List ℝ) : ℝ :=
  let s := l.mergeSort (fun a b => decide (a ≤ b))
  if s.length % 2 = 1 then s.getD (s.length / 2) 0 else (s.getD (s.length / 2 - 1) 0 + s.getD (s.length / 2) 0) / 2

variable {n d : Nat}

/-- Squared Euclidean distance of particles `i` and `j`. -/
def dist2 (x : Fin n → Fin d → ℝ) (i j : Fin n) : ℝ := ∑ a, (x i a - x j a) ^ 2

/-- Squared kernel width: the median of all `n²` squared distances over `2 log (n + 1)`. -/
def width2 (x : Fin n → Fin d → ℝ) : ℝ :=
  listMedian (List.ofFn fun i => List.ofFn fun j => dist2 x i j).flatten / (2 * Real.log (n + 1))

/-- Gaussian kernel. -/
def gaussK (x : Fin n → Fin d → ℝ) (i j : Fin n) : ℝ := Real.exp (-dist2 x i j / (2 * width2 x))

/-- The direction in which particle `i` does not go, for cost gradients `g`. -/
def svgdDir (g x : Fin n → Fin d → ℝ) (i : Fin n) (a : Fin d) : ℝ :=
  (∑ j, gaussK x i j * g j a + (∑ j, gaussK x i j * (x i a - x j a)) / width2 x) / n

/-- One step on particles and gradient history. -/
def svgdStep (eps al f : ℝ) (γ : (Fin d → ℝ) → Fin d → ℝ) (s : (Fin n → Fin d → ℝ) × (Fin n → Fin d → ℝ)) :
    (Fin n → Fin d → ℝ) × (Fin n → Fin d → ℝ) :=
  let φ := svgdDir (fun j => γ (s.1 j)) s.1
  let h := fun i a => al * s.2 i a + (1 - al) * φ i a ^ 2
  (fun i a => s.1 i a - eps * (φ i a / (f + √(h i a))), h)

/-- A chain. -/
def svgdChain (al f : ℝ) (eps : Nat → ℝ) (γ : Nat → (Fin d → ℝ) → Fin d → ℝ) (x : Fin n → Fin d → ℝ) :
    Nat → (Fin n → Fin d → ℝ) × (Fin n → Fin d → ℝ)
  | 0 => (x, fun _ _ => 0)
  | k + 1 => svgdStep (eps k) al f (γ k) (svgdChain al f eps γ x k)

/-- The values before step `k` of a chain whose values after step `k` are `θs (k + 1)`, started at `θ0`. -/
def before {α : Type*} (θ0 : α) (θs : Nat → α) : Nat → α
  | 0 => θ0
  | k + 1 => θs (k + 1)

theorem before_eq {α : Type*} (θ0 : α) (θs : Nat → α) (h : θs 0 = θ0) : before θ0 θs = θs := by
  funext k
  cases k with
  | zero => exact h.symm
  | succ k => rfl

end

end PySGMCMC.Spec
