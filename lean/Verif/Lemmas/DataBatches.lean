import Verif.Model.DataBatches
import Verif.Spec.DataBatches
import Verif.Lemmas.Iter
import Verif.Lemmas.Shuffle

/-! Helper lemmas for the minibatch generators, and two concrete random generators for examples. -/

namespace PySGMCMC.DataBatches
open PySGMCMC.Spec

variable {α β : Type}

/-- A generator that always answers `v` to `randint` (0 if out of range) and `j` to `interval`. -/
def constRNG (v j : Nat) : RNG where
  State := Unit
  seeded _ := ()
  randint _ n := (if v < n then v else 0, ())
  interval _ m := (min j m, ())
  randint_lt s n h := by dsimp only; split <;> assumption
  interval_le s m := Nat.min_le_right _ _

/-- A linear congruential generator. -/
def lcg : RNG where
  State := Nat
  seeded z := z.toNat
  randint s n := (((s * 1103515245 + 12345) / 65536) % n, (s * 1103515245 + 12345) % 2147483648)
  interval s m := (((s * 1103515245 + 12345) / 65536) % (m + 1), (s * 1103515245 + 12345) % 2147483648)
  randint_lt _ _ h := Nat.mod_lt _ h
  interval_le _ m := Nat.le_of_lt_succ (Nat.mod_lt _ (Nat.succ_pos m))

theorem posInt_facts {v : PyVal} {k : Nat} (h : PosInt v k) :
    v.isInt = true ∧ v.toInt > 0 ∧ v.toInt.toNat = k := by
  obtain ⟨h0, rfl | ⟨rfl, rfl⟩⟩ := h
  · simp [PyVal.isInt, PyVal.toInt]; omega
  · simp [PyVal.isInt, PyVal.toInt]

theorem posInt_of_facts {v : PyVal} (h1 : v.isInt = true) (h2 : v.toInt > 0) : PosInt v v.toInt.toNat := by
  cases v with
  | bool b => cases b <;> simp [PyVal.toInt, PosInt] at *
  | int z => simp only [PyVal.toInt, PosInt] at *; exact ⟨by omega, .inl (by congr 1; omega)⟩
  | _ => simp [PyVal.isInt] at h1

theorem seedOk_iff (v : PyVal) :
    SeedOk v ↔ (v.isNone || v.isInt) = true
      ∧ (v.isNone || (decide (0 ≤ v.toInt) && decide (v.toInt ≤ 2 ^ 32 - 1))) = true := by
  unfold SeedOk
  cases v with
  | bool b => cases b <;> simp [PyVal.isNone, PyVal.isInt, PyVal.toInt]
  | int z =>
    have e : (PyVal.int z).toInt = z := rfl
    rw [e]
    simp only [PyVal.isNone, PyVal.isInt, reduceCtorEq, exists_false, false_or, PyVal.int.injEq,
      exists_eq_left', Bool.false_or, Bool.and_eq_true, decide_eq_true_iff, true_and]
    omega
  | _ => simp [PyVal.isNone, PyVal.isInt]

theorem chooseSeed_range (R : RNG) (g : R.State) :
    1 ≤ (chooseSeed R .none g).1 ∧ (chooseSeed R .none g).1 ≤ 99999 := by
  have := R.randint_lt g 99999 (by omega)
  have e : (chooseSeed R .none g).1 = ((R.randint g 99999).1 : Int) + 1 := rfl
  rw [e]
  omega

theorem numpySeedError_int (z : Int) (h0 : 0 ≤ z) (h1 : z < 4294967296) : numpySeedError (.int z) = none := by
  unfold numpySeedError
  rw [if_neg (by simp [PyVal.isInt]), if_neg (by show ¬ (z < 0 ∨ 2 ^ 32 - 1 < z); omega)]

theorem nextBatch_valid (R : RNG) (a : Args) (w : World R α β) (bs : Nat)
    (hb : PosInt a.batchSize bs) (hs : SeedOk a.seed) (hl : w.data.y.length = w.data.x.length) :
    nextBatch R a (.fresh, w)
      = drawBatch R (R.seeded (chooseSeed R a.seed w.glob).1) w.data.x.length (min bs w.data.x.length)
          { w with glob := (chooseSeed R a.seed w.glob).2 } := by
  obtain ⟨h1, h2, h3⟩ := posInt_facts hb
  obtain ⟨h4, h5⟩ := (seedOk_iff _).1 hs
  simp only [nextBatch, h1, h2, h3, h4, h5, hl, not_true, ne_eq, Bool.not_true, Bool.false_eq_true, if_false]

theorem nextBatch_invalid (R : RNG) (a : Args) (w : World R α β)
    (h : ¬ ((∃ bs, PosInt a.batchSize bs) ∧ SeedOk a.seed ∧ w.data.y.length = w.data.x.length)) :
    nextBatch R a (.fresh, w) = (.error .assertion, .done, w) := by
  simp only [nextBatch]
  split_ifs with c1 c2 c3 c4 c5 <;> try rfl
  exfalso
  apply h
  refine ⟨⟨_, posInt_of_facts (by simpa using c1) (by simpa using c2)⟩, (seedOk_iff _).2 ⟨by simpa only [Bool.not_eq_true, Bool.not_eq_false'] using c3, by simpa only [Bool.not_eq_true, Bool.not_eq_false'] using c4⟩, by simpa using c5⟩

theorem calls_done (R : RNG) (a : Args) (w : World R α β) (n : Nat) :
    calls (nextBatch R a) n (.done, w) = (List.replicate n (.error .stopIteration), .done, w) := by
  induction n with
  | zero => rfl
  | succ n ih => rw [calls_succ]; simp only [nextBatch, ih, List.replicate_succ]

theorem nextBatch_data (R : RNG) (a : Args) (s : Gen R × World R α β) :
    (nextBatch R a s).2.2.data = s.2.data := by
  obtain ⟨g, w⟩ := s
  cases g with
  | fresh =>
    by_cases h : ((∃ bs, PosInt a.batchSize bs) ∧ SeedOk a.seed ∧ w.data.y.length = w.data.x.length)
    · obtain ⟨⟨bs, hb⟩, hs, hl⟩ := h
      rw [nextBatch_valid R a w bs hb hs hl]; rfl
    · rw [nextBatch_invalid R a w h]
  | running => rfl
  | done => rfl

theorem drawBatch_spec (R : RNG) (rng : R.State) (n b : Nat) (w : World R α β) (hb : b ≤ n)
    (hx : w.data.x.length = n) (hy : w.data.y.length = n) :
    ∃ start rng', start + b ≤ n
      ∧ drawBatch R rng n b w = (.ok ⟨⟨start, start + b⟩, ⟨start, start + b⟩⟩, .running rng' n b, w) := by
  have h := R.randint_lt rng (n - b + 1) (by omega)
  refine ⟨(R.randint rng (n - b + 1)).1, (R.randint rng (n - b + 1)).2, by omega, ?_⟩
  simp only [drawBatch, sliceView, hx, hy]
  generalize (R.randint rng (n - b + 1)).1 = st at h ⊢
  rw [Nat.min_eq_left (by omega), Nat.min_eq_left (by omega)]

/-- State of a valid plain generator: fresh, or running with the right parameters. -/
def GenOk (R : RNG) (n b : Nat) : Gen R → Prop
  | .fresh => True
  | .running _ n' b' => n' = n ∧ b' = b
  | .done => False

theorem nextBatch_spec (R : RNG) (a : Args) (g : Gen R) (w : World R α β) (bs n : Nat)
    (hb : PosInt a.batchSize bs) (hs : SeedOk a.seed)
    (hx : w.data.x.length = n) (hy : w.data.y.length = n) (hg : GenOk R n (min bs n) g) :
    ∃ start rng' glob', start + min bs n ≤ n
      ∧ nextBatch R a (g, w) = (.ok ⟨⟨start, start + min bs n⟩, ⟨start, start + min bs n⟩⟩,
          .running rng' n (min bs n), { w with glob := glob' }) := by
  cases g with
  | fresh =>
    rw [nextBatch_valid R a w bs hb hs (by omega), hx]
    obtain ⟨start, rng', h1, h2⟩ := drawBatch_spec R (R.seeded (chooseSeed R a.seed w.glob).1) n (min bs n)
      { w with glob := (chooseSeed R a.seed w.glob).2 } (Nat.min_le_right _ _) hx hy
    exact ⟨start, rng', _, h1, h2⟩
  | running rng n' b' =>
    obtain ⟨rfl, rfl⟩ := hg
    obtain ⟨start, rng', h1, h2⟩ := drawBatch_spec R rng n' _ w (Nat.min_le_right bs n') hx hy
    exact ⟨start, rng', w.glob, h1, h2⟩
  | done => exact hg.elim

theorem calls_batch (R : RNG) (a : Args) (w : World R α β) (bs : Nat)
    (hb : PosInt a.batchSize bs) (hs : SeedOk a.seed) (hl : w.data.y.length = w.data.x.length)
    (n k : Nat) (hk : k < n) :
    ∃ batch start, (calls (nextBatch R a) n (.fresh, w)).1[k]? = some (.ok batch)
      ∧ start + min bs w.data.x.length ≤ w.data.x.length
      ∧ batch.xs = ⟨start, start + min bs w.data.x.length⟩
      ∧ batch.ys = ⟨start, start + min bs w.data.x.length⟩
      ∧ batch.xs = batch.ys := by
  have inv := calls_inv (nextBatch R a)
    (fun s => s.2.data = w.data ∧ GenOk R w.data.x.length (min bs w.data.x.length) s.1) (by
      rintro ⟨g, v⟩ ⟨h1, h2⟩
      simp only at h1 h2
      obtain ⟨start, rng', glob', h3, h4⟩ := nextBatch_spec R a g v bs w.data.x.length hb hs
        (by rw [h1]) (by rw [h1, hl]) h2
      rw [h4]
      exact ⟨h1, rfl, rfl⟩) k (.fresh, w) ⟨rfl, trivial⟩
  rw [calls_get _ _ _ _ hk]
  obtain ⟨h1, h2⟩ := inv
  rcases hst : (calls (nextBatch R a) k (Gen.fresh, w)).2 with ⟨g, v⟩
  rw [hst] at h1 h2
  obtain ⟨start, rng', glob', h3, h4⟩ := nextBatch_spec R a g v bs w.data.x.length hb hs
    (by rw [h1]) (by rw [h1, hl]) h2
  rw [h4]
  exact ⟨_, start, rfl, h3, rfl, rfl, rfl⟩

theorem isWindow_read {γ : Type} (l : List γ) (start b : Nat) (h : start + b ≤ l.length) :
    IsWindow ((View.mk start (start + b)).read l) l start b := by
  refine ⟨?_, h, ?_⟩
  · simp [View.read]; omega
  · intro i hi
    simp only [View.read, Nat.add_sub_cancel_left]
    rw [List.getElem?_take_of_lt hi, List.getElem?_drop]

/-! ### the shuffled generator -/

theorem shuffleView_eq (R : RNG) {γ : Type} (s : R.State) (start b : Nat) (l : List γ) (h : start + b ≤ l.length) :
    shuffleView R s ⟨start, start + b⟩ l
      = (l.take start ++ (shuffle R s ((View.mk start (start + b)).read l)).1 ++ l.drop (start + b),
         (shuffle R s ((View.mk start (start + b)).read l)).2) := by
  have hw := (isWindow_read l start b h).1
  simp only [shuffleView, shuffle_length, hw]

theorem split_window {γ : Type} (l : List γ) (start b : Nat) :
    l = l.take start ++ (View.mk start (start + b)).read l ++ l.drop (start + b) := by
  have h1 : (l.drop start).take b ++ l.drop (start + b) = l.drop start := by
    rw [← List.drop_drop]; exact List.take_append_drop b _
  simp only [View.read, Nat.add_sub_cancel_left]
  rw [List.append_assoc, h1, List.take_append_drop]

theorem shuffleView_perm (R : RNG) {γ : Type} (s : R.State) (start b : Nat) (l : List γ)
    (h : start + b ≤ l.length) : (shuffleView R s ⟨start, start + b⟩ l).1.Perm l := by
  rw [shuffleView_eq R s start b l h]
  conv_rhs => rw [split_window l start b]
  exact ((shuffle_perm R s _).append_left _).append_right _

theorem shuffleView_read (R : RNG) {γ : Type} (s : R.State) (start b : Nat) (l : List γ)
    (h : start + b ≤ l.length) :
    (View.mk start (start + b)).read (shuffleView R s ⟨start, start + b⟩ l).1
      = (shuffle R s ((View.mk start (start + b)).read l)).1 := by
  have hw := (isWindow_read l start b h).1
  rw [shuffleView_eq R s start b l h]
  simp only
  generalize hsh : (shuffle R s ((View.mk start (start + b)).read l)).1 = m
  have hm : m.length = b := by rw [← hsh, shuffle_length, hw]
  simp only [View.read, Nat.add_sub_cancel_left]
  have h2 : (l.take start).length = start := by simp; omega
  rw [List.append_assoc]
  conv_lhs => rw [show start = (l.take start).length + 0 by omega]
  simp only [List.length_take, Nat.min_eq_left (show start ≤ l.length by omega), Nat.add_zero]
  rw [List.drop_append_of_le_length (by omega), List.drop_of_length_le (by omega), List.nil_append,
    List.take_append_of_le_length (by omega), List.take_of_length_le (by omega)]

theorem read_zip {γ δ : Type} (v : View) (x : List γ) (y : List δ) :
    v.read (x.zip y) = (v.read x).zip (v.read y) := by
  simp only [View.read, List.zip, List.drop_zipWith, List.take_zipWith]

theorem shuffleView_zip (R : RNG) {γ δ : Type} (s : R.State) (start b : Nat) (x : List γ) (y : List δ)
    (hxy : x.length = y.length) (h : start + b ≤ x.length) :
    (shuffleView R s ⟨start, start + b⟩ (x.zip y)).1
      = (shuffleView R s ⟨start, start + b⟩ x).1.zip (shuffleView R s ⟨start, start + b⟩ y).1
    ∧ (shuffleView R s ⟨start, start + b⟩ x).2 = (shuffleView R s ⟨start, start + b⟩ y).2 := by
  have h1 := (isWindow_read x start b h).1
  have h2 := (isWindow_read y start b (by omega)).1
  obtain ⟨h3, h4⟩ := shuffle_zip R s ((View.mk start (start + b)).read x) ((View.mk start (start + b)).read y)
    (by omega)
  rw [shuffleView_eq R s start b x h, shuffleView_eq R s start b y (by omega),
    shuffleView_eq R s start b (x.zip y) (by simp; omega)]
  refine ⟨?_, h4⟩
  simp only
  rw [read_zip, h3, List.zip_append (by simp [h1, h2, hxy]), List.zip_append (by simp [hxy]),
    List.zip, List.take_zipWith, List.drop_zipWith]

/-- The arrays contain the original pairs, possibly reordered. -/
def SamePairs (d0 d : Data α β) : Prop :=
  d.x.length = d0.x.length ∧ d.y.length = d0.x.length ∧ (d.x.zip d.y).Perm (d0.x.zip d0.y)

/-- State of a valid shuffled generator: fresh, or running with both random generators in lock-step. -/
def ShOk (R : RNG) (n b : Nat) : ShuffledGen R → Prop
  | .fresh => True
  | .running rx ry inner => rx = ry ∧ GenOk R n b inner
  | .done => False

theorem shuffledStep_spec (R : RNG) (a : Args) (rng : R.State) (g : Gen R) (w : World R α β) (bs n : Nat)
    (hb : PosInt a.batchSize bs) (hs : SeedOk a.seed)
    (hx : w.data.x.length = n) (hy : w.data.y.length = n) (hg : GenOk R n (min bs n) g) :
    ∃ start rng' gen' glob', start + min bs n ≤ n ∧ GenOk R n (min bs n) gen'
      ∧ nextBatch R a (g, w) = (.ok ⟨⟨start, start + min bs n⟩, ⟨start, start + min bs n⟩⟩,
          gen', { w with glob := glob' })
      ∧ shuffledStep R a rng rng g w = (.ok ⟨⟨start, start + min bs n⟩, ⟨start, start + min bs n⟩⟩,
          .running rng' rng' gen',
          ⟨⟨(shuffleView R rng ⟨start, start + min bs n⟩ w.data.x).1,
            (shuffleView R rng ⟨start, start + min bs n⟩ w.data.y).1⟩, glob'⟩) := by
  obtain ⟨start, rng', glob', h1, h2⟩ := nextBatch_spec R a g w bs n hb hs hx hy hg
  refine ⟨start, (shuffleView R rng ⟨start, start + min bs n⟩ w.data.x).2, .running rng' n (min bs n), glob', h1, ⟨rfl, rfl⟩, h2, ?_⟩
  · unfold shuffledStep
    rw [h2]
    simp only
    rw [← (shuffleView_zip R rng start (min bs n) w.data.x w.data.y (by omega) (by omega)).2]

/-- One `next()` of the shuffled generator from a valid state, together with the plain generator's answer. -/
theorem nextShuffled_spec (R : RNG) (a : Args) (g : ShuffledGen R) (w : World R α β) (bs n : Nat)
    (hb : PosInt a.batchSize bs) (hs : SeedOk a.seed)
    (hx : w.data.x.length = n) (hy : w.data.y.length = n) (hg : ShOk R n (min bs n) g) :
    ∃ start rng rng' gen' glob', start + min bs n ≤ n ∧ GenOk R n (min bs n) gen'
      ∧ nextShuffled R a (g, w) = (.ok ⟨⟨start, start + min bs n⟩, ⟨start, start + min bs n⟩⟩,
          .running rng' rng' gen',
          ⟨⟨(shuffleView R rng ⟨start, start + min bs n⟩ w.data.x).1,
            (shuffleView R rng ⟨start, start + min bs n⟩ w.data.y).1⟩, glob'⟩) := by
  cases g with
  | fresh =>
    obtain ⟨bsv, sv⟩ := a
    cases sv with
    | none =>
      have hs' : SeedOk (PyVal.int (chooseSeed R .none w.glob).1) := by
        refine .inr (.inr ⟨_, rfl, ?_⟩)
        have := chooseSeed_range R w.glob
        omega
      obtain ⟨start, rng', gen', glob', h1, h2, -, h3⟩ := shuffledStep_spec R
        ⟨bsv, .int (chooseSeed R .none w.glob).1⟩ (R.seeded (chooseSeed R .none w.glob).1) .fresh
        { w with glob := (chooseSeed R .none w.glob).2 } bs n hb hs' hx hy trivial
      exact ⟨start, _, rng', gen', glob', h1, h2, h3⟩
    | bool b =>
      obtain ⟨start, rng', gen', glob', h1, h2, -, h3⟩ := shuffledStep_spec R
        ⟨bsv, .bool b⟩ (R.seeded (PyVal.bool b).toInt) .fresh w bs n hb hs hx hy trivial
      refine ⟨start, R.seeded (PyVal.bool b).toInt, rng', gen', glob', h1, h2, ?_⟩
      have : numpySeedError (.bool b) = none := by cases b <;> rfl
      simp only [nextShuffled, this]; exact h3
    | int z =>
      obtain ⟨start, rng', gen', glob', h1, h2, -, h3⟩ := shuffledStep_spec R
        ⟨bsv, .int z⟩ (R.seeded (PyVal.int z).toInt) .fresh w bs n hb hs hx hy trivial
      refine ⟨start, R.seeded (PyVal.int z).toInt, rng', gen', glob', h1, h2, ?_⟩
      have : numpySeedError (.int z) = none := by
        rcases hs with h | ⟨b, h⟩ | ⟨z', h, h5, h6⟩ <;> cases h
        exact numpySeedError_int z h5 h6
      simp only [nextShuffled, this]; exact h3
    | float => rcases hs with h | ⟨b, h⟩ | ⟨z, h, -⟩ <;> cases h
    | str => rcases hs with h | ⟨b, h⟩ | ⟨z, h, -⟩ <;> cases h
    | obj => rcases hs with h | ⟨b, h⟩ | ⟨z, h, -⟩ <;> cases h
  | running rx ry inner =>
    obtain ⟨rfl, hg⟩ := hg
    obtain ⟨start, rng', gen', glob', h1, h2, -, h3⟩ := shuffledStep_spec R a rx inner w bs n hb hs hx hy hg
    exact ⟨start, rx, rng', gen', glob', h1, h2, h3⟩
  | done => exact hg.elim

theorem samePairs_shuffle (R : RNG) (rng : R.State) (d0 d : Data α β) (start b : Nat)
    (h : SamePairs d0 d) (hb : start + b ≤ d0.x.length) :
    SamePairs d0 ⟨(shuffleView R rng ⟨start, start + b⟩ d.x).1, (shuffleView R rng ⟨start, start + b⟩ d.y).1⟩ := by
  obtain ⟨h1, h2, h3⟩ := h
  refine ⟨?_, ?_, ?_⟩
  · exact (shuffleView_perm R rng start b d.x (by omega)).length_eq.trans h1
  · exact (shuffleView_perm R rng start b d.y (by omega)).length_eq.trans h2
  · simp only
    rw [← (shuffleView_zip R rng start b d.x d.y (by omega) (by omega)).1]
    exact (shuffleView_perm R rng start b _ (by simp; omega)).trans h3

theorem shuffled_inv (R : RNG) (a : Args) (w : World R α β) (bs : Nat)
    (hb : PosInt a.batchSize bs) (hs : SeedOk a.seed) (hl : w.data.y.length = w.data.x.length) (k : Nat) :
    SamePairs w.data (calls (nextShuffled R a) k (.fresh, w)).2.2.data
    ∧ ShOk R w.data.x.length (min bs w.data.x.length) (calls (nextShuffled R a) k (.fresh, w)).2.1 :=
  calls_inv (nextShuffled R a)
    (fun s => SamePairs w.data s.2.data ∧ ShOk R w.data.x.length (min bs w.data.x.length) s.1) (by
      rintro ⟨g, v⟩ ⟨h1, h2⟩
      obtain ⟨start, rng, rng', gen', glob', h3, h4, h5⟩ :=
        nextShuffled_spec R a g v bs w.data.x.length hb hs h1.1 h1.2.1 h2
      rw [h5]
      exact ⟨samePairs_shuffle R rng w.data v.data start _ h1 h3, rfl, h4⟩)
    k (.fresh, w) ⟨⟨rfl, hl, List.Perm.refl _⟩, trivial⟩

theorem calls_shuffled (R : RNG) (a : Args) (w : World R α β) (bs : Nat)
    (hb : PosInt a.batchSize bs) (hs : SeedOk a.seed) (hl : w.data.y.length = w.data.x.length) (k : Nat) :
    let before := (calls (nextShuffled R a) k (.fresh, w)).2.2.data
    let after := (calls (nextShuffled R a) (k + 1) (.fresh, w)).2.2.data
    let b := min bs w.data.x.length
    ∃ (batch : Batch) (start : Nat), (calls (nextShuffled R a) (k + 1) (.fresh, w)).1[k]? = some (.ok batch)
      ∧ start + b ≤ w.data.x.length
      ∧ batch.xs = ⟨start, start + b⟩
      ∧ batch.ys = ⟨start, start + b⟩
      ∧ SamePairs w.data before
      ∧ (batch.xs.read after.x).length = b
      ∧ (batch.ys.read after.y).length = b
      ∧ ((batch.xs.read after.x).zip (batch.ys.read after.y)).Perm
          ((View.mk start (start + b)).read (before.x.zip before.y)) := by
  intro before after b
  obtain ⟨h1, h2⟩ := shuffled_inv R a w bs hb hs hl k
  rw [calls_get _ _ _ _ (Nat.lt_succ_self k)]
  have hafter : after = (nextShuffled R a (calls (nextShuffled R a) k (.fresh, w)).2).2.2.data := by
    show (calls (nextShuffled R a) (k + 1) (.fresh, w)).2.2.data = _
    rw [calls_succ'_snd]
  have hbefore : before = (calls (nextShuffled R a) k (.fresh, w)).2.2.data := rfl
  rcases hst : (calls (nextShuffled R a) k (ShuffledGen.fresh, w)).2 with ⟨g, v⟩
  rw [hst] at h1 h2 hafter hbefore
  obtain ⟨start, rng, rng', gen', glob', h3, h4, h5⟩ :=
    nextShuffled_spec R a g v bs w.data.x.length hb hs h1.1 h1.2.1 h2
  rw [h5] at hafter ⊢
  simp only at h1 hbefore hafter
  refine ⟨_, start, rfl, h3, rfl, rfl, by rw [hbefore]; exact h1, ?_⟩
  rw [hafter, hbefore]
  obtain ⟨h6, h7, -⟩ := h1
  simp only
  rw [shuffleView_read R rng start _ _ (by omega), shuffleView_read R rng start _ _ (by omega)]
  have hwx := (isWindow_read v.data.x start (min bs w.data.x.length) (by omega)).1
  have hwy := (isWindow_read v.data.y start (min bs w.data.x.length) (by omega)).1
  refine ⟨by rw [shuffle_length, hwx], by rw [shuffle_length, hwy], ?_⟩
  rw [← (shuffle_zip R rng _ _ (by rw [hwx, hwy])).1, read_zip]
  exact shuffle_perm R rng _

theorem shuffle_short (R : RNG) {γ : Type} (s : R.State) (l : List γ) (h : l.length ≤ 1) :
    (shuffle R s l).1 = l := by
  have : l.length - 1 = 0 := by omega
  simp [shuffle, this, shuffleLoop]

theorem calls_shuffled_one (R : RNG) (a : Args) (w : World R α β) (bs : Nat)
    (hb : PosInt a.batchSize bs) (hs : SeedOk a.seed) (hl : w.data.y.length = w.data.x.length) (k : Nat)
    (h1 : min bs w.data.x.length ≤ 1) : (calls (nextShuffled R a) k (.fresh, w)).2.2.data = w.data := by
  refine (calls_inv (nextShuffled R a)
    (fun s => s.2.data = w.data ∧ ShOk R w.data.x.length (min bs w.data.x.length) s.1) ?_
    k (.fresh, w) ⟨rfl, trivial⟩).1
  rintro ⟨g, v⟩ ⟨h2, h3⟩
  simp only at h2
  obtain ⟨start, rng, rng', gen', glob', h4, h5, h6⟩ :=
    nextShuffled_spec R a g v bs w.data.x.length hb hs (by rw [h2]) (by rw [h2, hl]) h3
  rw [h6]
  refine ⟨?_, rfl, h5⟩
  have hx : (shuffleView R rng ⟨start, start + min bs w.data.x.length⟩ w.data.x).1 = w.data.x := by
    rw [shuffleView_eq _ _ _ _ _ h4]
    simp only
    rw [shuffle_short _ _ _ (by rw [(isWindow_read w.data.x start _ h4).1]; exact h1)]
    exact (split_window w.data.x start _).symm
  have hy : (shuffleView R rng ⟨start, start + min bs w.data.x.length⟩ w.data.y).1 = w.data.y := by
    rw [shuffleView_eq _ _ _ _ _ (by omega)]
    simp only
    rw [shuffle_short _ _ _ (by rw [(isWindow_read w.data.y start _ (by omega)).1]; exact h1)]
    exact (split_window w.data.y start _).symm
  simp only [h2, hx, hy]

theorem drawBatch_congr (R : RNG) (rng : R.State) (n b : Nat) (w w' : World R α β)
    (hx : w.data.x.length = w'.data.x.length) (hy : w.data.y.length = w'.data.y.length) :
    (drawBatch R rng n b w).1 = (drawBatch R rng n b w').1
    ∧ (drawBatch R rng n b w).2.1 = (drawBatch R rng n b w').2.1 := by
  simp only [drawBatch, sliceView, hx, hy, and_self]

/-- A started plain generator looks at the lengths of the arrays only, and no longer at the arguments. -/
theorem nextBatch_congr (R : RNG) (a a' : Args) (g : Gen R) (hg : g ≠ .fresh) (w w' : World R α β)
    (hx : w.data.x.length = w'.data.x.length) (hy : w.data.y.length = w'.data.y.length) :
    (nextBatch R a (g, w)).1 = (nextBatch R a' (g, w')).1
    ∧ (nextBatch R a (g, w)).2.1 = (nextBatch R a' (g, w')).2.1
    ∧ (nextBatch R a (g, w)).2.1 ≠ .fresh
    ∧ (nextBatch R a (g, w)).2.2 = w := by
  cases g with
  | fresh => exact absurd rfl hg
  | running rng n b =>
    obtain ⟨h1, h2⟩ := drawBatch_congr R rng n b w w' hx hy
    exact ⟨h1, h2, by simp [nextBatch, drawBatch], rfl⟩
  | done => exact ⟨rfl, rfl, by simp [nextBatch], rfl⟩

theorem chooseSeed_seeded (R : RNG) (s : PyVal) (h : s ≠ .none) (g : R.State) :
    chooseSeed R s g = (s.toInt, g) := by
  cases s <;> first | rfl | exact absurd rfl h

/-- With an explicit seed the global random state is neither read nor written. -/
theorem nextBatch_seeded (R : RNG) (a : Args) (hseed : a.seed ≠ .none) (gen : Gen R) (d : Data α β) (g g' : R.State) :
    (nextBatch R a (gen, ⟨d, g⟩)).1 = (nextBatch R a (gen, ⟨d, g'⟩)).1
    ∧ (nextBatch R a (gen, ⟨d, g⟩)).2.1 = (nextBatch R a (gen, ⟨d, g'⟩)).2.1
    ∧ (nextBatch R a (gen, ⟨d, g⟩)).2.2 = ⟨d, g⟩
    ∧ (nextBatch R a (gen, ⟨d, g⟩)).2.1 ≠ .fresh := by
  cases gen with
  | fresh =>
    by_cases h : ((∃ bs, PosInt a.batchSize bs) ∧ SeedOk a.seed ∧ d.y.length = d.x.length)
    · obtain ⟨⟨bs, hb⟩, hs, hl⟩ := h
      rw [nextBatch_valid R a ⟨d, g⟩ bs hb hs hl, nextBatch_valid R a ⟨d, g'⟩ bs hb hs hl,
        chooseSeed_seeded R _ hseed, chooseSeed_seeded R _ hseed]
      obtain ⟨h1, h2⟩ := drawBatch_congr R (R.seeded a.seed.toInt) d.x.length (min bs d.x.length)
        ⟨d, g⟩ ⟨d, g'⟩ rfl rfl
      exact ⟨h1, h2, rfl, by simp [drawBatch]⟩
    · rw [nextBatch_invalid R a ⟨d, g⟩ h, nextBatch_invalid R a ⟨d, g'⟩ h]
      simp
  | running rng n b =>
    obtain ⟨h1, h2, h3, h4⟩ := nextBatch_congr R a a (.running rng n b) (by simp) ⟨d, g⟩ ⟨d, g'⟩ rfl rfl
    exact ⟨h1, h2, h4, h3⟩
  | done => simp [nextBatch]

/-- Starting without a seed is starting with the seed drawn from the global generator. -/
theorem nextBatch_unseeded (R : RNG) (bs : PyVal) (w : World R α β) :
    (nextBatch R ⟨bs, .none⟩ (.fresh, w)).1
      = (nextBatch R ⟨bs, .int (chooseSeed R .none w.glob).1⟩ (.fresh, w)).1
    ∧ (nextBatch R ⟨bs, .none⟩ (.fresh, w)).2.1
      = (nextBatch R ⟨bs, .int (chooseSeed R .none w.glob).1⟩ (.fresh, w)).2.1
    ∧ (nextBatch R ⟨bs, .none⟩ (.fresh, w)).2.1 ≠ .fresh := by
  have hs' : SeedOk (PyVal.int (chooseSeed R .none w.glob).1) := by
    refine .inr (.inr ⟨_, rfl, ?_⟩)
    have := chooseSeed_range R w.glob
    omega
  have hsn : SeedOk PyVal.none := .inl rfl
  by_cases h : (∃ b, PosInt bs b) ∧ w.data.y.length = w.data.x.length
  · obtain ⟨⟨b, hb⟩, hl⟩ := h
    rw [nextBatch_valid R ⟨bs, .none⟩ w b hb hsn hl, nextBatch_valid R ⟨bs, .int _⟩ w b hb hs' hl]
    exact ⟨rfl, rfl, by simp [drawBatch]⟩
  · rw [nextBatch_invalid R ⟨bs, .none⟩ w (fun hh => h ⟨hh.1, hh.2.2⟩),
      nextBatch_invalid R ⟨bs, .int _⟩ w (fun hh => h ⟨hh.1, hh.2.2⟩)]
    simp

theorem plain_seeded (R : RNG) (a : Args) (hseed : a.seed ≠ .none) (d : Data α β) (g g' : R.State) (n : Nat) :
    (calls (nextBatch R a) n (.fresh, ⟨d, g⟩)).1 = (calls (nextBatch R a) n (.fresh, ⟨d, g'⟩)).1
    ∧ (calls (nextBatch R a) n (.fresh, ⟨d, g⟩)).2.2.glob = g := by
  have := calls_bisim (nextBatch R a) (nextBatch R a)
    (fun (s t : Gen R × World R α β) => s.1 = t.1 ∧ s.2 = ⟨d, g⟩ ∧ t.2 = ⟨d, g'⟩) (by
      rintro ⟨s1, s2⟩ ⟨t1, t2⟩ ⟨h1, h2, h3⟩
      simp only at h1 h2 h3
      subst h1; subst h2; subst h3
      obtain ⟨h1, h2, h3, -⟩ := nextBatch_seeded R a hseed s1 d g g'
      obtain ⟨-, -, h4, -⟩ := nextBatch_seeded R a hseed s1 d g' g
      exact ⟨h1, h2, h3, h4⟩) n (.fresh, ⟨d, g⟩) (.fresh, ⟨d, g'⟩) ⟨rfl, rfl, rfl⟩
  exact ⟨this.1, by rw [this.2.2.1]⟩

theorem plain_unseeded (R : RNG) (bs : PyVal) (w : World R α β) :
    ∃ z : Int, 1 ≤ z ∧ z ≤ 99999 ∧ ∀ n,
      (calls (nextBatch R ⟨bs, .none⟩) n (.fresh, w)).1 = (calls (nextBatch R ⟨bs, .int z⟩) n (.fresh, w)).1 := by
  obtain ⟨h1, h2, h3⟩ := nextBatch_unseeded R bs w
  obtain ⟨r1, r2⟩ := chooseSeed_range R w.glob
  generalize (chooseSeed R .none w.glob).1 = z at h1 h2 r1 r2
  refine ⟨z, r1, r2, fun n => ?_⟩
  cases n with
  | zero => simp only [calls_zero]
  | succ n =>
    have := calls_bisim (nextBatch R ⟨bs, .none⟩) (nextBatch R ⟨bs, .int z⟩)
      (fun (s t : Gen R × World R α β) => s.1 = t.1 ∧ s.1 ≠ .fresh ∧ s.2.data = t.2.data) (by
        rintro ⟨s1, s2⟩ ⟨t1, t2⟩ ⟨h1, h2, h3⟩
        simp only at h1 h2 h3
        subst h1
        obtain ⟨h4, h5, h6, h7⟩ := nextBatch_congr R ⟨bs, .none⟩ ⟨bs, .int z⟩ s1 h2 s2 t2
          (by rw [h3]) (by rw [h3])
        exact ⟨h4, h5, h6, by rw [nextBatch_data, nextBatch_data]; exact h3⟩) n
      (nextBatch R ⟨bs, .none⟩ (.fresh, w)).2 (nextBatch R ⟨bs, .int z⟩ (.fresh, w)).2
      ⟨h2, h3, by rw [nextBatch_data, nextBatch_data]⟩
    simp only [calls_succ, h1, this.1]

/-- A shuffled generator whose inner generator has been started. -/
def Started (R : RNG) : ShuffledGen R → Prop
  | .fresh => False
  | .running _ _ inner => inner ≠ .fresh
  | .done => True

/-- `shuffledStep` depends on the inner generator's answer only. -/
theorem shuffledStep_congr (R : RNG) (a a' : Args) (rx ry : R.State) (inner : Gen R) (w w' : World R α β)
    (hd : w.data = w'.data) (h1 : (nextBatch R a (inner, w)).1 = (nextBatch R a' (inner, w')).1)
    (h2 : (nextBatch R a (inner, w)).2.1 = (nextBatch R a' (inner, w')).2.1)
    (h3 : (nextBatch R a (inner, w)).2.1 ≠ .fresh) :
    (shuffledStep R a rx ry inner w).1 = (shuffledStep R a' rx ry inner w').1
    ∧ (shuffledStep R a rx ry inner w).2.1 = (shuffledStep R a' rx ry inner w').2.1
    ∧ (shuffledStep R a rx ry inner w).2.2.data = (shuffledStep R a' rx ry inner w').2.2.data
    ∧ Started R (shuffledStep R a rx ry inner w).2.1
    ∧ (shuffledStep R a rx ry inner w).2.2.glob = (nextBatch R a (inner, w)).2.2.glob := by
  have d1 := nextBatch_data R a (inner, w)
  have d2 := nextBatch_data R a' (inner, w')
  unfold shuffledStep
  rcases e1 : nextBatch R a (inner, w) with ⟨r, g, v⟩
  rcases e2 : nextBatch R a' (inner, w') with ⟨r', g', v'⟩
  rw [e1, e2] at h1 h2
  rw [e1] at h3 d1
  rw [e2] at d2
  simp only at h1 h2 h3 d1 d2
  subst h1; subst h2
  have hv : v.data = v'.data := by rw [d1, d2, hd]
  rcases r with e | b
  · cases e <;> simp [hv, Started]
  · simp only [hv, Started]
    exact ⟨trivial, trivial, trivial, h3, trivial⟩

theorem nextShuffled_seeded (R : RNG) (a : Args) (hseed : a.seed ≠ .none) (gen : ShuffledGen R) (d : Data α β)
    (g g' : R.State) :
    (nextShuffled R a (gen, ⟨d, g⟩)).1 = (nextShuffled R a (gen, ⟨d, g'⟩)).1
    ∧ (nextShuffled R a (gen, ⟨d, g⟩)).2.1 = (nextShuffled R a (gen, ⟨d, g'⟩)).2.1
    ∧ (nextShuffled R a (gen, ⟨d, g⟩)).2.2.data = (nextShuffled R a (gen, ⟨d, g'⟩)).2.2.data
    ∧ (nextShuffled R a (gen, ⟨d, g⟩)).2.2.glob = g := by
  have key : ∀ rx ry inner,
      (shuffledStep R a rx ry inner ⟨d, g⟩).1 = (shuffledStep R a rx ry inner ⟨d, g'⟩).1
      ∧ (shuffledStep R a rx ry inner ⟨d, g⟩).2.1 = (shuffledStep R a rx ry inner ⟨d, g'⟩).2.1
      ∧ (shuffledStep R a rx ry inner ⟨d, g⟩).2.2.data = (shuffledStep R a rx ry inner ⟨d, g'⟩).2.2.data
      ∧ (shuffledStep R a rx ry inner ⟨d, g⟩).2.2.glob = g := by
    intro rx ry inner
    obtain ⟨h1, h2, h3, h4⟩ := nextBatch_seeded R a hseed inner d g g'
    obtain ⟨k1, k2, k3, -, k5⟩ := shuffledStep_congr R a a rx ry inner ⟨d, g⟩ ⟨d, g'⟩ rfl h1 h2 h4
    exact ⟨k1, k2, k3, by rw [k5, h3]⟩
  cases gen with
  | fresh =>
    obtain ⟨bsv, sv⟩ := a
    cases sv with
    | none => exact absurd rfl hseed
    | _ =>
      simp only [nextShuffled]
      split
      · simp
      · exact key _ _ _
  | running rx ry inner => exact key _ _ _
  | done => simp [nextShuffled]

theorem shuffled_seeded (R : RNG) (a : Args) (hseed : a.seed ≠ .none) (d : Data α β) (g g' : R.State)
    (n : Nat) :
    (calls (nextShuffled R a) n (.fresh, ⟨d, g⟩)).1 = (calls (nextShuffled R a) n (.fresh, ⟨d, g'⟩)).1
    ∧ (calls (nextShuffled R a) n (.fresh, ⟨d, g⟩)).2.2.data = (calls (nextShuffled R a) n (.fresh, ⟨d, g'⟩)).2.2.data
    ∧ (calls (nextShuffled R a) n (.fresh, ⟨d, g⟩)).2.2.glob = g := by
  have := calls_bisim (nextShuffled R a) (nextShuffled R a)
    (fun (s t : ShuffledGen R × World R α β) => s.1 = t.1 ∧ s.2.data = t.2.data ∧ s.2.glob = g) (by
      rintro ⟨s1, d1, g1⟩ ⟨t1, d2, g2⟩ ⟨h1, h2, h3⟩
      simp only at h1 h2 h3
      subst h1; subst h2; subst h3
      obtain ⟨h1, h2, h3, h4⟩ := nextShuffled_seeded R a hseed s1 d1 g1 g2
      exact ⟨h1, h2, h3, h4⟩) n (.fresh, ⟨d, g⟩) (.fresh, ⟨d, g'⟩) ⟨rfl, rfl, rfl⟩
  exact ⟨this.1, this.2.2.1, this.2.2.2⟩

theorem nextShuffled_started (R : RNG) (a a' : Args) (gen : ShuffledGen R) (hg : Started R gen) (w w' : World R α β)
    (hd : w.data = w'.data) :
    (nextShuffled R a (gen, w)).1 = (nextShuffled R a' (gen, w')).1
    ∧ (nextShuffled R a (gen, w)).2.1 = (nextShuffled R a' (gen, w')).2.1
    ∧ (nextShuffled R a (gen, w)).2.2.data = (nextShuffled R a' (gen, w')).2.2.data
    ∧ Started R (nextShuffled R a (gen, w)).2.1 := by
  cases gen with
  | fresh => exact hg.elim
  | running rx ry inner =>
    obtain ⟨h1, h2, h3, -⟩ := nextBatch_congr R a a' inner hg w w' (by rw [hd]) (by rw [hd])
    obtain ⟨k1, k2, k3, k4, -⟩ := shuffledStep_congr R a a' rx ry inner w w' hd h1 h2 h3
    exact ⟨k1, k2, k3, k4⟩
  | done => exact ⟨rfl, rfl, hd, trivial⟩

theorem numpySeedError_drawn (R : RNG) (g : R.State) :
    numpySeedError (.int (chooseSeed R .none g).1) = none := by
  have := chooseSeed_range R g
  exact numpySeedError_int _ (by omega) (by omega)

theorem nextShuffled_unseeded (R : RNG) (bs : PyVal) (w : World R α β) :
    (nextShuffled R ⟨bs, .none⟩ (.fresh, w)).1
      = (nextShuffled R ⟨bs, .int (chooseSeed R .none w.glob).1⟩ (.fresh, w)).1
    ∧ (nextShuffled R ⟨bs, .none⟩ (.fresh, w)).2.1
      = (nextShuffled R ⟨bs, .int (chooseSeed R .none w.glob).1⟩ (.fresh, w)).2.1
    ∧ (nextShuffled R ⟨bs, .none⟩ (.fresh, w)).2.2.data
      = (nextShuffled R ⟨bs, .int (chooseSeed R .none w.glob).1⟩ (.fresh, w)).2.2.data
    ∧ Started R (nextShuffled R ⟨bs, .none⟩ (.fresh, w)).2.1 := by
  simp only [nextShuffled, numpySeedError_drawn]
  obtain ⟨h1, h2, -, h4⟩ := nextBatch_seeded R ⟨bs, .int (chooseSeed R .none w.glob).1⟩ (by simp) .fresh w.data
    (chooseSeed R .none w.glob).2 w.glob
  obtain ⟨k1, k2, k3, k4, -⟩ := shuffledStep_congr R _ _ (R.seeded (chooseSeed R .none w.glob).1)
    (R.seeded (chooseSeed R .none w.glob).1) .fresh ⟨w.data, (chooseSeed R .none w.glob).2⟩ w rfl h1 h2 h4
  exact ⟨k1, k2, k3, k4⟩

theorem shuffled_unseeded (R : RNG) (bs : PyVal) (w : World R α β) :
    ∃ z : Int, 1 ≤ z ∧ z ≤ 99999 ∧ ∀ n,
      (calls (nextShuffled R ⟨bs, .none⟩) n (.fresh, w)).1
        = (calls (nextShuffled R ⟨bs, .int z⟩) n (.fresh, w)).1
      ∧ (calls (nextShuffled R ⟨bs, .none⟩) n (.fresh, w)).2.2.data
        = (calls (nextShuffled R ⟨bs, .int z⟩) n (.fresh, w)).2.2.data := by
  refine ⟨_, (chooseSeed_range R w.glob).1, (chooseSeed_range R w.glob).2, fun n => ?_⟩
  cases n with
  | zero => exact ⟨rfl, rfl⟩
  | succ n =>
    obtain ⟨h1, h2, h3, h4⟩ := nextShuffled_unseeded R bs w
    simp only [calls_succ, h1]
    have := calls_bisim (nextShuffled R ⟨bs, .none⟩) (nextShuffled R ⟨bs, .int (chooseSeed R .none w.glob).1⟩)
      (fun (s t : ShuffledGen R × World R α β) => s.1 = t.1 ∧ Started R s.1 ∧ s.2.data = t.2.data) (by
        rintro ⟨s1, s2⟩ ⟨t1, t2⟩ ⟨h1, h2, h3⟩
        simp only at h1 h2 h3
        subst h1
        obtain ⟨k1, k2, k3, k4⟩ := nextShuffled_started R ⟨bs, .none⟩ ⟨bs, .int (chooseSeed R .none w.glob).1⟩
          s1 h2 s2 t2 h3
        exact ⟨k1, k2, k4, k3⟩) n _ _ ⟨h2, h4, h3⟩
    exact ⟨by rw [this.1], this.2.2.2⟩

/-- The first shuffled batch shows the window of the first plain batch. -/
theorem nextShuffled_first (R : RNG) (a : Args) (w : World R α β) (bs : Nat)
    (hb : PosInt a.batchSize bs) (hs : SeedOk a.seed) (hl : w.data.y.length = w.data.x.length) :
    (nextShuffled R a (.fresh, w)).1 = (nextBatch R a (.fresh, w)).1
    ∧ ∃ rx ry, (nextShuffled R a (.fresh, w)).2.1 = .running rx ry (nextBatch R a (.fresh, w)).2.1 := by
  have seeded : ∀ z : PyVal, z ≠ .none → SeedOk z → numpySeedError z = none →
      (nextShuffled R ⟨a.batchSize, z⟩ (.fresh, w)).1 = (nextBatch R ⟨a.batchSize, z⟩ (.fresh, w)).1
      ∧ ∃ rx ry, (nextShuffled R ⟨a.batchSize, z⟩ (.fresh, w)).2.1
          = .running rx ry (nextBatch R ⟨a.batchSize, z⟩ (.fresh, w)).2.1 := by
    intro z hz hs hn
    have e : nextShuffled R ⟨a.batchSize, z⟩ (.fresh, w)
        = shuffledStep R ⟨a.batchSize, z⟩ (R.seeded z.toInt) (R.seeded z.toInt) .fresh w := by
      cases z with
      | none => exact absurd rfl hz
      | _ => simp only [nextShuffled, hn]
    obtain ⟨start, rng', gen', glob', -, -, h1, h2⟩ := shuffledStep_spec R ⟨a.batchSize, z⟩ (R.seeded z.toInt)
      .fresh w bs w.data.x.length hb hs rfl hl trivial
    rw [e, h2, h1]
    exact ⟨rfl, _, _, rfl⟩
  rcases hs with h | ⟨b, h⟩ | ⟨z, h, h1, h2⟩
  · have ea : a = ⟨a.batchSize, .none⟩ := by rw [← h]
    rw [ea]
    obtain ⟨k1, k2, -, -⟩ := nextShuffled_unseeded R a.batchSize w
    obtain ⟨l1, l2, -⟩ := nextBatch_unseeded R a.batchSize w
    rw [k1, k2, l1, l2]
    have := chooseSeed_range R w.glob
    exact seeded _ (by simp) (.inr (.inr ⟨_, rfl, by omega, by omega⟩)) (numpySeedError_drawn R w.glob)
  · have ea : a = ⟨a.batchSize, .bool b⟩ := by rw [← h]
    rw [ea]
    exact seeded _ (by simp) (.inr (.inl ⟨b, rfl⟩)) (by cases b <;> rfl)
  · have ea : a = ⟨a.batchSize, .int z⟩ := by rw [← h]
    rw [ea]
    refine seeded _ (by simp) (.inr (.inr ⟨z, rfl, h1, h2⟩)) ?_
    exact numpySeedError_int z h1 h2

theorem shuffled_windows (R : RNG) (a : Args) (w : World R α β) (bs : Nat)
    (hb : PosInt a.batchSize bs) (hs : SeedOk a.seed) (hl : w.data.y.length = w.data.x.length) (n : Nat) :
    (calls (nextShuffled R a) n (.fresh, w)).1 = (calls (nextBatch R a) n (.fresh, w)).1 := by
  cases n with
  | zero => rfl
  | succ n =>
    obtain ⟨h1, rx, ry, h2⟩ := nextShuffled_first R a w bs hb hs hl
    have hinv := shuffled_inv R a w bs hb hs hl 1
    simp only [calls_succ, h1]
    congr 1
    have hd : (nextBatch R a (.fresh, w)).2.2.data = w.data := nextBatch_data R a (.fresh, w)
    have hne : (nextBatch R a (.fresh, w)).2.1 ≠ .fresh := by
      obtain ⟨start, rng', glob', -, h⟩ := nextBatch_spec R a .fresh w bs w.data.x.length hb hs rfl hl trivial
      rw [h]; simp
    refine (calls_bisim _ _ (fun (s : ShuffledGen R × World R α β) (t : Gen R × World R α β) =>
      (∃ rx, s.1 = .running rx rx t.1) ∧ t.1 ≠ .fresh ∧ t.2.data = w.data
      ∧ GenOk R w.data.x.length (min bs w.data.x.length) t.1
      ∧ s.2.data.x.length = w.data.x.length ∧ s.2.data.y.length = w.data.x.length) ?_ n _ _ ?_).1
    · rintro ⟨s1, s2⟩ ⟨t1, t2⟩ ⟨⟨r, h1⟩, h2, h3, h4, h5, h6⟩
      simp only at h1 h2 h3 h4 h5 h6
      subst h1
      obtain ⟨start, rng', gen', glob', k1, k2, k3, k4⟩ :=
        shuffledStep_spec R a r t1 s2 bs w.data.x.length hb hs h5 h6 h4
      obtain ⟨c1, c2, c3, c4⟩ := nextBatch_congr R a a t1 h2 t2 s2 (by rw [h3, h5]) (by rw [h3, h6, hl])
      rw [c1, c2]
      simp only [nextShuffled]
      rw [k4, k3]
      rw [k3] at c2
      refine ⟨rfl, ⟨_, rfl⟩, by rw [← c2]; exact c3, by rw [c4, h3], k2, ?_, ?_⟩
      · exact (shuffleView_perm R r start _ _ (by omega)).length_eq.trans h5
      · exact (shuffleView_perm R r start _ _ (by omega)).length_eq.trans h6
    · obtain ⟨i1, i2⟩ := hinv
      simp only [calls_succ, calls_zero] at i1 i2
      rw [h2] at i2
      obtain ⟨e, i2⟩ := i2
      subst e
      exact ⟨⟨_, h2⟩, hne, hd, i2, i1.1, i1.2.1⟩

end PySGMCMC.DataBatches
