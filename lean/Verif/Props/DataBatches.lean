import Verif.Model.DataBatches
import Verif.Spec.DataBatches
import Verif.Lemmas.DataBatches
import Mathlib.Data.Set.Card
import Mathlib.Order.Interval.Finset.Nat

/-! Properties C01–C07: minibatch generation (`pysgmcmc/data_batches.py`). -/

namespace PySGMCMC.DataBatches
open PySGMCMC.Spec

variable {α β : Type}

/-- **C01.** Every yielded batch is an aligned window of `min(batch_size, N)` consecutive rows of the dataset. -/
theorem C01_batches_are_aligned_windows (R : RNG) (a : Args) (w : World R α β) (bs : Nat)
    (hb : PosInt a.batchSize bs) (hs : SeedOk a.seed) (hlen : w.data.y.length = w.data.x.length) (k : Nat) :
    ∃ batch start,
      (calls (nextBatch R a) (k + 1) (.fresh, w)).1[k]? = some (.ok batch)
      ∧ IsWindow (batch.xs.read w.data.x) w.data.x start (min bs w.data.x.length)
      ∧ IsWindow (batch.ys.read w.data.y) w.data.y start (min bs w.data.x.length) := by
  obtain ⟨batch, start, h, h1, h2, h3, h4⟩ := calls_batch R a w bs hb hs hlen (k + 1) k (by omega)
  refine ⟨batch, start, h, ?_, ?_⟩
  · rw [h2]; exact isWindow_read _ _ _ h1
  · rw [h3]; exact isWindow_read _ _ _ (by omega)

/-- **C02** (failure side). The first `next()` raises `AssertionError` exactly for the invalid arguments. -/
theorem C02_first_next_fails_iff (R : RNG) (a : Args) (w : World R α β) :
    (nextBatch R a (.fresh, w)).1 = .error .assertion
      ↔ ¬ ((∃ bs, PosInt a.batchSize bs) ∧ SeedOk a.seed ∧ w.data.y.length = w.data.x.length) := by
  constructor
  · rintro h ⟨⟨bs, hb⟩, hs, hl⟩
    rw [nextBatch_valid R a w bs hb hs hl] at h
    simp [drawBatch] at h
  · intro h
    rw [nextBatch_invalid R a w h]

/-- **C02** (after a failure). A generator that raised is exhausted, and nothing was modified. -/
theorem C02_failed_generator_is_exhausted (R : RNG) (a : Args) (w : World R α β)
    (h : ¬ ((∃ bs, PosInt a.batchSize bs) ∧ SeedOk a.seed ∧ w.data.y.length = w.data.x.length)) (n : Nat) :
    (calls (nextBatch R a) (n + 1) (.fresh, w)).1
        = .error .assertion :: List.replicate n (.error .stopIteration)
    ∧ (calls (nextBatch R a) (n + 1) (.fresh, w)).2.2 = w := by
  rw [calls_succ, nextBatch_invalid R a w h]
  have := calls_done R a w n
  simp [this]

/-- **C02** (success side). With valid arguments every `next()`, for ever, yields a batch. -/
theorem C02_valid_generator_never_fails (R : RNG) (a : Args) (w : World R α β)
    (h : (∃ bs, PosInt a.batchSize bs) ∧ SeedOk a.seed ∧ w.data.y.length = w.data.x.length) (n : Nat) :
    ∀ r ∈ (calls (nextBatch R a) n (.fresh, w)).1, ∃ batch, r = .ok batch := by
  obtain ⟨⟨bs, hb⟩, hs, hl⟩ := h
  intro r hr
  obtain ⟨k, hk⟩ := List.mem_iff_getElem?.1 hr
  have hk' : k < n := by
    have := (List.getElem?_eq_some_iff.1 hk).1; simpa using this
  obtain ⟨batch, start, h1, -⟩ := calls_batch R a w bs hb hs hl n k hk'
  rw [h1] at hk
  exact ⟨batch, by simpa using hk.symm⟩

/-- **C03.** Plain batches never change the dataset, so batches handed out earlier keep showing the same rows. -/
theorem C03_dataset_unchanged (R : RNG) (a : Args) (w : World R α β) (g : Gen R) (n : Nat) :
    (calls (nextBatch R a) n (g, w)).2.2.data = w.data
    ∧ ∀ batch : Batch,
        batch.xs.read (calls (nextBatch R a) n (g, w)).2.2.data.x = batch.xs.read w.data.x
        ∧ batch.ys.read (calls (nextBatch R a) n (g, w)).2.2.data.y = batch.ys.read w.data.y := by
  have h : (calls (nextBatch R a) n (g, w)).2.2.data = w.data :=
    calls_inv (nextBatch R a) (fun s => s.2.data = w.data)
      (fun s hs => (nextBatch_data R a s).trans hs) n (g, w) rfl
  exact ⟨h, fun _ => by rw [h]; exact ⟨rfl, rfl⟩⟩

/-- Some generator, dataset of `N` rows and legal arguments make `generate_batches` yield, as its first batch,
the window of `b` rows that starts at row `s`. -/
def Drawable (N b s : Nat) : Prop :=
  ∃ (R : RNG) (a : Args) (w : World R Unit Unit) (batch : Batch),
    PosInt a.batchSize b ∧ SeedOk a.seed ∧ w.data.x.length = N ∧ w.data.y.length = N
    ∧ (nextBatch R a (.fresh, w)).1 = .ok batch ∧ batch.xs.start = s

/-- The drawable windows are exactly the windows inside the dataset. -/
theorem C04_drawable_iff (N b s : Nat) (hb : 1 ≤ b) (hN : b ≤ N) : Drawable N b s ↔ s + b ≤ N := by
  constructor
  · rintro ⟨R, a, w, batch, h1, h2, h3, h4, h5, h6⟩
    obtain ⟨batch', start, h, h7, h8, h9, -⟩ := calls_batch R a w b h1 h2 (by omega) 1 0 (by omega)
    rw [calls_get _ _ _ _ (by omega), calls_zero] at h
    simp only [h5, Option.some.injEq, Except.ok.injEq] at h
    subst h; subst h3
    rw [h8] at h6
    simp only at h6
    omega
  · intro h
    refine ⟨constRNG s 0, ⟨.int b, .int 0⟩, ⟨⟨List.replicate N (), List.replicate N ()⟩, ()⟩, _,
      ⟨hb, .inl rfl⟩, .inr (.inr ⟨0, rfl, by decide, by decide⟩), by simp, by simp,
      by rw [nextBatch_valid _ _ _ b ⟨hb, .inl rfl⟩ (.inr (.inr ⟨0, rfl, by decide, by decide⟩)) (by simp)]; rfl, ?_⟩
    have e1 : min b N = b := by omega
    simp only [sliceView, List.length_replicate, e1, if_pos (show s < N - b + 1 by omega)]
    omega

/-- **C04** (frequency). Row `i` is contained in exactly `min(i+1, b, N-b+1, N-i)` of the drawable windows. -/
theorem C04_row_frequency (N b i : Nat) (hb : 1 ≤ b) (hN : b ≤ N) (hi : i < N) :
    {s | Drawable N b s ∧ s ≤ i ∧ i < s + b}.ncard = min (min (i + 1) b) (min (N - b + 1) (N - i)) := by
  have h : {s | Drawable N b s ∧ s ≤ i ∧ i < s + b} = ↑(Finset.Icc (i + 1 - b) (min i (N - b))) := by
    ext s
    simp only [C04_drawable_iff N b s hb hN, Set.mem_ofPred_eq, Finset.coe_Icc, Set.mem_Icc]
    omega
  rw [h, Set.ncard_coe_finset, Nat.card_Icc]
  omega

/-- **C04** (reachability). Every row occurs in some drawable window. -/
theorem C04_every_row_reachable (N b i : Nat) (hb : 1 ≤ b) (hN : b ≤ N) (hi : i < N) :
    ∃ s, Drawable N b s ∧ s ≤ i ∧ i < s + b :=
  ⟨min i (N - b), (C04_drawable_iff N b _ hb hN).2 (by omega), by omega, by omega⟩

/-- **C04** (bias). The rows are equally represented if and only if `b = 1` or `b = N`. -/
theorem C04_uniform_iff (N b : Nat) (hb : 1 ≤ b) (hN : b ≤ N) :
    (∀ i j, i < N → j < N →
      {s | Drawable N b s ∧ s ≤ i ∧ i < s + b}.ncard = {s | Drawable N b s ∧ s ≤ j ∧ j < s + b}.ncard)
    ↔ (b = 1 ∨ b = N) := by
  constructor
  · intro h
    have := h 0 (min (b - 1) (N - b)) (by omega) (by omega)
    rw [C04_row_frequency N b _ hb hN (by omega), C04_row_frequency N b _ hb hN (by omega)] at this
    omega
  · intro h i j hi hj
    rw [C04_row_frequency N b _ hb hN hi, C04_row_frequency N b _ hb hN hj]
    omega

/-- **C05.** Shuffled batches keep each datapoint with its label.  After `k` batches the caller's arrays still
contain the original (row, label) pairs (in some order), and batch number `k` consists, right after it was yielded,
of `min(batch_size, N)` pairs of the original dataset: the rows of one window of the arrays before the call. -/
theorem C05_shuffled_pairs_preserved (R : RNG) (a : Args) (w : World R α β) (bs : Nat)
    (hb : PosInt a.batchSize bs) (hs : SeedOk a.seed) (hlen : w.data.y.length = w.data.x.length) (k : Nat) :
    let before := (calls (nextShuffled R a) k (.fresh, w)).2.2.data
    let after := (calls (nextShuffled R a) (k + 1) (.fresh, w)).2.2.data
    ∃ batch start window,
      (calls (nextShuffled R a) (k + 1) (.fresh, w)).1[k]? = some (.ok batch)
      ∧ (before.x.zip before.y).Perm (w.data.x.zip w.data.y)
      ∧ IsWindow window (before.x.zip before.y) start (min bs w.data.x.length)
      ∧ (batch.xs.read after.x).length = min bs w.data.x.length
      ∧ (batch.ys.read after.y).length = min bs w.data.x.length
      ∧ ((batch.xs.read after.x).zip (batch.ys.read after.y)).Perm window := by
  intro before after
  obtain ⟨batch, start, h0, h1, h2, h3, h4, h5, h6, h7⟩ := calls_shuffled R a w bs hb hs hlen k
  have hxl : before.x.length = w.data.x.length := h4.1
  have hyl : before.y.length = w.data.x.length := h4.2.1
  have hwin : IsWindow ((View.mk start (start + min bs w.data.x.length)).read (before.x.zip before.y))
      (before.x.zip before.y) start (min bs w.data.x.length) :=
    isWindow_read _ _ _ (by simp only [List.length_zip]; omega)
  refine ⟨batch, start, _, h0, h4.2.2, hwin, ?_, ?_, ?_⟩
  · exact h5
  · exact h6
  · exact h7

/-- **C06, violated.** Full claim: drawing shuffled batches leaves the caller's arrays unchanged.
This is false of the code: there is a generator, a dataset of two rows and legal arguments
for which one `next()` reorders the caller's arrays. -/
theorem C06_caller_arrays_modified :
    ∃ (R : RNG) (a : Args) (w : World R Nat Nat),
      PosInt a.batchSize 2 ∧ SeedOk a.seed ∧ w.data.y.length = w.data.x.length
      ∧ (calls (nextShuffled R a) 1 (.fresh, w)).2.2.data.x ≠ w.data.x
      ∧ (calls (nextShuffled R a) 1 (.fresh, w)).2.2.data.y ≠ w.data.y := by
  refine ⟨constRNG 0 0, ⟨.int 2, .int 0⟩, ⟨⟨[10, 20], [1, 2]⟩, ()⟩, ⟨by decide, .inl rfl⟩,
    .inr (.inr ⟨0, rfl, by decide, by decide⟩), rfl, ?_, ?_⟩ <;>
  · decide

/-- **C06, proved part.** The arrays are only ever reordered (pairs stay together, see C05), and with
`batch_size = 1` (or at most one row) they are left exactly as they were. -/
theorem C06_caller_arrays_partial (R : RNG) (a : Args) (w : World R α β) (bs : Nat)
    (hb : PosInt a.batchSize bs) (hs : SeedOk a.seed) (hlen : w.data.y.length = w.data.x.length) (k : Nat) :
    let d := (calls (nextShuffled R a) k (.fresh, w)).2.2.data
    d.x.length = w.data.x.length ∧ d.y.length = w.data.y.length
    ∧ (d.x.zip d.y).Perm (w.data.x.zip w.data.y)
    ∧ (min bs w.data.x.length ≤ 1 → d = w.data) := by
  intro d
  have h := (calls_shuffled R a w bs hb hs hlen k)
  obtain ⟨batch, start, h0, h1, h2, h3, h4, -⟩ := h
  exact ⟨h4.1, by rw [hlen]; exact h4.2.1, h4.2.2, fun h1 => calls_shuffled_one R a w bs hb hs hlen k h1⟩

/-- **C07** (plain batches, explicit seed). The stream does not depend on numpy's global random state and
does not change it. -/
theorem C07_explicit_seed (R : RNG) (a : Args) (hseed : a.seed ≠ .none) (d : Data α β) (g g' : R.State) (n : Nat) :
    (calls (nextBatch R a) n (.fresh, ⟨d, g⟩)).1 = (calls (nextBatch R a) n (.fresh, ⟨d, g'⟩)).1
    ∧ (calls (nextBatch R a) n (.fresh, ⟨d, g⟩)).2.2.glob = g :=
  plain_seeded R a hseed d g g' n

/-- **C07** (plain batches, `seed=None`). The stream is the stream of an explicit seed in `[1, 99999]`. -/
theorem C07_no_seed (R : RNG) (bs : PyVal) (w : World R α β) :
    ∃ z : Int, 1 ≤ z ∧ z ≤ 99999 ∧ ∀ n,
      (calls (nextBatch R ⟨bs, .none⟩) n (.fresh, w)).1 = (calls (nextBatch R ⟨bs, .int z⟩) n (.fresh, w)).1 :=
  plain_unseeded R bs w

/-- **C07** (shuffled batches, explicit seed). The stream of batches, and what happens to the arrays, does not
depend on numpy's global random state and does not change it. -/
theorem C07_shuffled_explicit_seed (R : RNG) (a : Args) (hseed : a.seed ≠ .none) (d : Data α β) (g g' : R.State)
    (n : Nat) :
    (calls (nextShuffled R a) n (.fresh, ⟨d, g⟩)).1 = (calls (nextShuffled R a) n (.fresh, ⟨d, g'⟩)).1
    ∧ (calls (nextShuffled R a) n (.fresh, ⟨d, g⟩)).2.2.data = (calls (nextShuffled R a) n (.fresh, ⟨d, g'⟩)).2.2.data
    ∧ (calls (nextShuffled R a) n (.fresh, ⟨d, g⟩)).2.2.glob = g :=
  shuffled_seeded R a hseed d g g' n

/-- **C07** (shuffled batches, `seed=None`). The stream is the stream of an explicit seed in `[1, 99999]`. -/
theorem C07_shuffled_no_seed (R : RNG) (bs : PyVal) (w : World R α β) :
    ∃ z : Int, 1 ≤ z ∧ z ≤ 99999 ∧ ∀ n,
      (calls (nextShuffled R ⟨bs, .none⟩) n (.fresh, w)).1
        = (calls (nextShuffled R ⟨bs, .int z⟩) n (.fresh, w)).1
      ∧ (calls (nextShuffled R ⟨bs, .none⟩) n (.fresh, w)).2.2.data
        = (calls (nextShuffled R ⟨bs, .int z⟩) n (.fresh, w)).2.2.data :=
  shuffled_unseeded R bs w

/-- **C07** (windows). With the same arguments the shuffled stream visits the same windows, in the same order, as
the plain stream. -/
theorem C07_shuffled_same_windows (R : RNG) (a : Args) (w : World R α β) (bs : Nat)
    (hb : PosInt a.batchSize bs) (hs : SeedOk a.seed) (hlen : w.data.y.length = w.data.x.length) (n : Nat) :
    (calls (nextShuffled R a) n (.fresh, w)).1 = (calls (nextBatch R a) n (.fresh, w)).1 :=
  shuffled_windows R a w bs hb hs hlen n

/-! ### Non-vacuity: a concrete generator (a linear congruential machine), dataset and arguments -/

example : PosInt (PyVal.int 2) 2 ∧ SeedOk (PyVal.int 7) ∧ SeedOk PyVal.none := by
  refine ⟨⟨by decide, .inl rfl⟩, .inr (.inr ⟨7, rfl, by decide, by decide⟩), .inl rfl⟩

/-- The hypotheses of C01–C07 hold for this world, and three batches of a real stream look as claimed. -/
example :
    let w : World lcg Nat Nat := ⟨⟨[10, 20, 30, 40, 50], [1, 2, 3, 4, 5]⟩, (11 : Nat)⟩
    let a : Args := ⟨.int 2, .int 7⟩
    w.data.y.length = w.data.x.length
    ∧ ((calls (nextBatch lcg a) 3 (.fresh, w)).1.map fun r =>
        match r with | .ok b => (b.xs.read w.data.x, b.ys.read w.data.y) | _ => ([], []))
      = [([10, 20], [1, 2]), ([30, 40], [3, 4]), ([10, 20], [1, 2])] := by decide

/-- Three shuffled batches without a seed: the caller's arrays are reordered, the pairs stay together. -/
example :
    let w : World lcg Nat Nat := ⟨⟨[10, 20, 30, 40, 50], [1, 2, 3, 4, 5]⟩, (11 : Nat)⟩
    let r := (calls (nextShuffled lcg ⟨.int 3, .none⟩) 3 (.fresh, w)).2.2.data
    (r.x, r.y) = ([30, 40, 10, 20, 50], [3, 4, 1, 2, 5]) := by decide

/-- C02's failing side: a float batch size. -/
example : ¬ ∃ bs, PosInt PyVal.float bs := by rintro ⟨bs, -, h | ⟨h, -⟩⟩ <;> cases h

end PySGMCMC.DataBatches
