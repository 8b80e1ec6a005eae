import Verif.Py.Rng

/-!
# Model of `pysgmcmc/data_batches.py`

numpy basic slices are *views*: a batch refers to a range of the caller's array.  The world therefore
contains the caller's two arrays, and a batch is a pair of ranges into them.

Simplifications: rows and labels are opaque values (`α`, `β`); `y` has one label per row
(shape `(N,)` or `(N, 1)`), so that `y[a:b, None].reshape(-1, 1)` is the view of rows `a..b` of `y`;
the two placeholders are different objects; logging is not modelled.
-/

namespace PySGMCMC.DataBatches

/-- The caller's arrays `x` and `y`. -/
structure Data (α β : Type) where
  x : List α
  y : List β

/-- Everything a `next()` on a batch generator can read or modify: the caller's arrays and
numpy's global random generator. -/
structure World (R : RNG) (α β : Type) where
  data : Data α β
  glob : R.State

/-- A numpy view of rows `start .. stop` of an array. -/
structure View where
  start : Nat
  stop : Nat
deriving DecidableEq, Repr

/-- The rows a view currently shows. -/
def View.read {γ : Type} (v : View) (l : List γ) : List γ := (l.drop v.start).take (v.stop - v.start)

/-- `arr[a:b]` for `0 ≤ a ≤ b`, clamped to the length as Python does. -/
def sliceView {γ : Type} (l : List γ) (a b : Nat) : View := ⟨min a l.length, min b l.length⟩

/-- The yielded `feed_dict`: the views stored under `x_placeholder` and `y_placeholder`. -/
structure Batch where
  xs : View
  ys : View
deriving DecidableEq, Repr

/-- Keyword arguments inspected at run time. -/
structure Args where
  batchSize : PyVal := .int 20
  seed : PyVal := .none

/-- State of the generator object returned by `generate_batches(...)`. -/
inductive Gen (R : RNG) where
  /-- created, body not started -/
  | fresh
  /-- suspended at the `yield`: `rng`, `n_examples`, `batch_size` -/
  | running (rng : R.State) (n b : Nat)
  /-- raised or returned -/
  | done

/-- Loop body, `data_batches.py:118-129`: draw `start`, slice, yield. -/
def drawBatch (R : RNG) {α β : Type} (rng : R.State) (n b : Nat) (w : World R α β) :
    Step (Gen R × World R α β) Batch :=
  let (start, rng') := R.randint rng (n - b + 1)
  (.ok ⟨sliceView w.data.x start (start + b), sliceView w.data.y start (start + b)⟩,
    .running rng' n b, w)

/-- `seed = np.random.randint(1, 100000)` if `seed is None` (`data_batches.py:101-102`, `195-196`);
`randint(1, 100000)` is `1 + randint(0, 99999)`. -/
def chooseSeed (R : RNG) (seed : PyVal) (g : R.State) : Int × R.State :=
  if seed.isNone then
    let (v, g') := R.randint g 99999
    ((v : Int) + 1, g')
  else (seed.toInt, g)

/-- `next()` on the generator returned by `generate_batches` (`data_batches.py:10-129`). -/
def nextBatch (R : RNG) {α β : Type} (a : Args) :
    Gen R × World R α β → Step (Gen R × World R α β) Batch
  | (.fresh, w) =>
    -- data_batches.py:90-97, the five assertions in order
    if !a.batchSize.isInt then (.error .assertion, .done, w)
    else if ¬ a.batchSize.toInt > 0 then (.error .assertion, .done, w)
    else if !(a.seed.isNone || a.seed.isInt) then (.error .assertion, .done, w)
    else if !(a.seed.isNone || (decide (0 ≤ a.seed.toInt) && decide (a.seed.toInt ≤ 2 ^ 32 - 1))) then
      (.error .assertion, .done, w)
    else if w.data.y.length ≠ w.data.x.length then (.error .assertion, .done, w)
    else
      let n := w.data.x.length                                -- :99
      let (seed, glob') := chooseSeed R a.seed w.glob         -- :101-102
      let rng := R.seeded seed                                -- :104-105
      let b := min a.batchSize.toInt.toNat n                  -- :109-111
      drawBatch R rng n b { w with glob := glob' }
  | (.running rng n b, w) => drawBatch R rng n b w
  | (.done, w) => (.error .stopIteration, .done, w)

/-- State of the generator object returned by `generate_shuffled_batches(...)`. -/
inductive ShuffledGen (R : RNG) where
  | fresh
  /-- suspended at the `yield`: `rng_x`, `rng_y`, the inner generator -/
  | running (rngX rngY : R.State) (inner : Gen R)
  | done

/-- In-place `rng.shuffle(view)`: the rows of the viewed range of the base array are permuted. -/
def shuffleView (R : RNG) {γ : Type} (s : R.State) (v : View) (l : List γ) : List γ × R.State :=
  let (rows, s') := shuffle R s (v.read l)
  (l.take v.start ++ rows ++ l.drop (v.start + rows.length), s')

/-- Loop body, `data_batches.py:202-206`: take a batch from the inner generator, shuffle both views in place. -/
def shuffledStep (R : RNG) {α β : Type} (a : Args) (rngX rngY : R.State) (inner : Gen R) (w : World R α β) :
    Step (ShuffledGen R × World R α β) Batch :=
  match nextBatch R a (inner, w) with
  | (.ok batch, inner', w') =>
    let (x', rngX') := shuffleView R rngX batch.xs w'.data.x
    let (y', rngY') := shuffleView R rngY batch.ys w'.data.y
    (.ok batch, .running rngX' rngY' inner', { w' with data := ⟨x', y'⟩ })
  | (.error .stopIteration, _, w') => (.error .stopIteration, .done, w')
  | (.error e, _, w') => (.error e, .done, w')

/-- numpy's own check in `RandomState.seed`: non-integers are rejected with `TypeError`, integers outside
`[0, 2**32 - 1]` with `ValueError`.  Simplification: numpy also accepts a sequence of integers, which the inner generator's own assertion
then rejects with `AssertionError`; here this is a `TypeError` too. -/
def numpySeedError (seed : PyVal) : Option PyErr :=
  if !seed.isInt then some .type
  else if seed.toInt < 0 ∨ 2 ^ 32 - 1 < seed.toInt then some (.value "seed")
  else none

/-- `next()` on the generator returned by `generate_shuffled_batches` (`data_batches.py:132-206`).
The seed is fixed before the inner generator is created, so the inner call sees an explicit seed. -/
def nextShuffled (R : RNG) {α β : Type} (a : Args) :
    ShuffledGen R × World R α β → Step (ShuffledGen R × World R α β) Batch
  | (.fresh, w) =>
    match a.seed with
    | .none =>
      let (seed, glob') := chooseSeed R .none w.glob                       -- :195-196
      shuffledStep R { a with seed := .int seed } (R.seeded seed) (R.seeded seed) .fresh
        { w with glob := glob' }
    | s =>
      match numpySeedError s with                                          -- :198-200
      | some e => (.error e, .done, w)
      | none => shuffledStep R a (R.seeded s.toInt) (R.seeded s.toInt) .fresh w
  | (.running rx ry inner, w) => shuffledStep R a rx ry inner w
  | (.done, w) => (.error .stopIteration, .done, w)

end PySGMCMC.DataBatches
