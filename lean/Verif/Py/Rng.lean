import Verif.Py.Basic

/-!
# `numpy.random.RandomState`

An abstract random generator: any deterministic state machine that honours the ranges documented by numpy.
All theorems hold for every such machine.  `interval` is the draw used inside `RandomState.shuffle`
(numpy `mtrand.pyx`, `random_interval(state, max)`, result in `[0, max]`).
-/

namespace PySGMCMC

/-- A numpy random generator. -/
structure RNG where
  State : Type
  /-- `rng = RandomState(); rng.seed(seed)` -/
  seeded : Int → State
  /-- `rng.randint(0, high)` -/
  randint : State → Nat → Nat × State
  /-- `random_interval(rng, max)` -/
  interval : State → Nat → Nat × State
  /-- numpy's contract: `randint(0, high)` is end-exclusive -/
  randint_lt : ∀ s high, 0 < high → (randint s high).1 < high
  /-- numpy's contract: `random_interval` is end-inclusive -/
  interval_le : ∀ s m, (interval s m).1 ≤ m

/-- Exchange positions `i` and `j` of a list. -/
def swapAt {γ : Type _} (l : List γ) (i j : Nat) : List γ :=
  match l[i]?, l[j]? with
  | some a, some b => (l.set i b).set j a
  | _, _ => l

/-- The loop of `RandomState.shuffle`: `for i in reversed(range(1, n))` with `n = k + 1`:
draw `j` in `[0, i]` and exchange items `i` and `j`. -/
def shuffleLoop (R : RNG) {γ : Type _} : Nat → R.State → List γ → List γ × R.State
  | 0, s, l => (l, s)
  | k + 1, s, l =>
    let (j, s') := R.interval s (k + 1)
    shuffleLoop R k s' (swapAt l (k + 1) j)

/-- `rng.shuffle(l)` -/
def shuffle (R : RNG) {γ : Type _} (s : R.State) (l : List γ) : List γ × R.State :=
  shuffleLoop R (l.length - 1) s l

end PySGMCMC
