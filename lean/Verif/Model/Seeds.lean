import Verif.Py.Fl

/-!
# Noise seeding

What `seed=` does to the random ops of a sampler: `MCMCSampler._draw_noise_sample`
(`samplers/base_classes.py:198-220`, used by SGHMC at `sghmc.py:223-225` and SGLD at `sgld.py:193-195`) and
`tf.random_normal(..., seed=seed)` at `relativistic_sghmc.py:125`.  All of them pass the sampler's own seed as
*op-level* seed.  TensorFlow 1.x (`python/framework/random_seed.py:get_seed`) combines it with the graph-level seed; every
random op owns a generator initialised with the resulting pair.
-/

namespace PySGMCMC.Seeds

/-- `random_seed._MAXINT32` -/
def maxInt32 : Nat := 2 ^ 31 - 1

/-- `random_seed.DEFAULT_GRAPH_SEED` -/
def defaultGraphSeed : Nat := 87654321

/-- The part of a `tf.Graph` that matters for seeding. -/
structure Graph where
  /-- `tf.set_random_seed` -/
  seed : Option Int
  /-- `graph._last_id`: number of operations created so far -/
  lastId : Nat

/-- `random_seed._truncate_seed` -/
def truncate (s : Int) : Nat := (s % (maxInt32 : Int)).toNat

/-- The pair handed to the kernel; `none` means that the kernel seeds itself from the system's entropy. -/
def getSeed (g : Graph) (op : Option Int) : Option (Nat × Nat) :=
  let seeds := match g.seed, op with
    | some gs, some s => some (truncate gs, truncate s)
    | some gs, none => some (truncate gs, truncate g.lastId)
    | none, some s => some (defaultGraphSeed, truncate s)
    | none, none => none
  if seeds = some (0, 0) then some (0, maxInt32) else seeds

/-- `tf.random_normal(shape, seed=op)`: three constants, then `get_seed`, then `RandomStandardNormal`, `mul`, `add`. -/
def randomNormal (g : Graph) (op : Option Int) : Option (Nat × Nat) × Graph :=
  let g1 := { g with lastId := g.lastId + 3 }
  (getSeed g1 op, { g1 with lastId := g1.lastId + 3 })

/-- The construction loop of a sampler: for each target parameter some other operations (`between`) and one noise op
with the sampler's seed. -/
def buildNoise (seed : Option Int) : List Nat → Graph → List (Option (Nat × Nat)) × Graph
  | [], g => ([], g)
  | b :: rest, g =>
    let (s, g1) := randomNormal { g with lastId := g.lastId + b } seed
    let (ss, g2) := buildNoise seed rest g1
    (s :: ss, g2)

/-- The values a normal op produces.  A seeded kernel advances its own counter with every execution by an amount that
depends on the number of elements only, so its `k`-th output is a function of the pair, `k` and the number of
elements. -/
structure Kernels where
  /-- seeded kernels: pair, execution number, number of elements, element -/
  seeded : Nat × Nat → Nat → Nat → Nat → Fl
  /-- kernels seeded from entropy: which op, execution number, number of elements, element -/
  entropy : Nat → Nat → Nat → Nat → Fl

/-- Output of noise op number `i` with the seeds `s`.  A kernel takes the pair `(0, 0)` for "no seed" (TensorFlow's
`GuardedPhiloxRandom::Init`). -/
def Kernels.draw (K : Kernels) (s : Option (Nat × Nat)) (i k size j : Nat) : Fl :=
  match s with
  | some p => if p = (0, 0) then K.entropy i k size j else K.seeded p k size j
  | none => K.entropy i k size j

/-- The draws of all noise ops of a sampler. -/
def noise (K : Kernels) (seeds : List (Option (Nat × Nat))) (i k size j : Nat) : Fl :=
  K.draw (seeds.getD i none) i k size j

end PySGMCMC.Seeds
