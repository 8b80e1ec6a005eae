import Verif.Lemmas.DataBatches
import Verif.Lemmas.Shuffle
import Mathlib.Data.Set.Card
import Mathlib.Order.Interval.Finset.Nat
import Mathlib.Data.Nat.Factorial.Basic
import Mathlib.Logic.Equiv.Fin.Basic

/-!
# C92: the orders of shuffled batches are equally likely

`RandomState.shuffle` makes one draw for each of the `b - 1` exchanges.  There are `b!` possible sequences of draws, and each of the
`b!` orders of a batch of different rows results from exactly one of them.
-/

namespace PySGMCMC
variable {γ : Type}

/-- The draws of `rng.shuffle` on `k + 1` items, in order. -/
def drawsOf (R : RNG) : Nat → R.State → List Nat
  | 0, _ => []
  | k + 1, s => (R.interval s (k + 1)).1 :: drawsOf R k (R.interval s (k + 1)).2

/-- Sequences of draws numpy's generator may return for `k + 1` items: the first in `[0, k]`, the second in `[0, k - 1]`, … -/
def Possible : Nat → List Nat → Prop
  | 0, d => d = []
  | k + 1, d => ∃ j r, d = j :: r ∧ j ≤ k + 1 ∧ Possible k r

/-- A generator whose draws are `d`. -/
def scripted (d : List Nat) : RNG where
  State := List Nat
  seeded _ := d
  randint s h := (0, s)
  interval s m := (min (s.headD 0) m, s.tail)
  randint_lt _ _ h := h
  interval_le _ _ := Nat.min_le_right _ _

theorem drawsOf_possible (R : RNG) (k : Nat) (s : R.State) : Possible k (drawsOf R k s) := by
  induction k generalizing s with
  | zero => rfl
  | succ k ih => exact ⟨_, _, rfl, R.interval_le _ _, ih _⟩

theorem drawsOf_scripted (k : Nat) (d d0 : List Nat) (h : Possible k d) : drawsOf (scripted d0) k d = d := by
  induction k generalizing d with
  | zero => rw [show d = [] from h]; rfl
  | succ k ih =>
    obtain ⟨j, r, rfl, hj, hr⟩ := h
    show min j (k + 1) :: drawsOf (scripted d0) k r = _
    rw [Nat.min_eq_left hj, ih r hr]

/-- Items behind position `k` stay where they are. -/
theorem shuffleLoop_behind (R : RNG) (k : Nat) (s : R.State) (l : List γ) (hk : k < l.length) (p : Nat) (hp : k < p) :
    (shuffleLoop R k s l).1[p]? = l[p]? := by
  induction k generalizing s l with
  | zero => rfl
  | succ k ih =>
    have hj := R.interval_le s (k + 1)
    show (shuffleLoop R k (R.interval s (k + 1)).2 (swapAt l (k + 1) (R.interval s (k + 1)).1)).1[p]? = _
    rw [ih _ _ (by rw [swapAt_length]; omega) (by omega), swapAt_get _ _ _ _ hk (by omega), if_neg (by omega), if_neg (by omega)]

theorem swapAt_nodup {l : List γ} (h : l.Nodup) (i j : Nat) : (swapAt l i j).Nodup := (swapAt_perm l i j).nodup_iff.2 h

theorem getElem?_inj {l : List γ} (h : l.Nodup) {i j : Nat} (hi : i < l.length) (e : l[i]? = l[j]?) : i = j := by
  rw [List.getElem?_eq_getElem hi] at e
  obtain ⟨hj, e'⟩ := List.getElem?_eq_some_iff.1 e.symm
  exact (h.getElem_inj_iff (hi := hi) (hj := hj)).1 e'.symm

/-- Different draws give different results, equal draws equal ones. -/
theorem shuffleLoop_eq_iff (R R' : RNG) (k : Nat) (s : R.State) (s' : R'.State) (l : List γ) (hl : l.Nodup) (hk : k < l.length) :
    (shuffleLoop R k s l).1 = (shuffleLoop R' k s' l).1 ↔ drawsOf R k s = drawsOf R' k s' := by
  induction k generalizing s s' l with
  | zero => simp [shuffleLoop, drawsOf]
  | succ k ih =>
    have hj := R.interval_le s (k + 1)
    have hj' := R'.interval_le s' (k + 1)
    show (shuffleLoop R k (R.interval s (k + 1)).2 (swapAt l (k + 1) (R.interval s (k + 1)).1)).1
      = (shuffleLoop R' k (R'.interval s' (k + 1)).2 (swapAt l (k + 1) (R'.interval s' (k + 1)).1)).1 ↔ _
    simp only [drawsOf, List.cons.injEq]
    constructor
    · intro h
      have e := congrArg (·[k + 1]?) h
      rw [shuffleLoop_behind _ _ _ _ (by rw [swapAt_length]; omega) _ (by omega),
        shuffleLoop_behind _ _ _ _ (by rw [swapAt_length]; omega) _ (by omega), swapAt_get _ _ _ _ hk (by omega),
        swapAt_get _ _ _ _ hk (by omega)] at e
      have e2 : l[(R.interval s (k + 1)).1]? = l[(R'.interval s' (k + 1)).1]? := by
        have a1 : ∀ j : Nat, (if k + 1 = j then l[k + 1]? else if k + 1 = k + 1 then l[j]? else l[k + 1]?) = l[j]? := by
          intro j
          by_cases h : k + 1 = j
          · rw [if_pos h, h]
          · rw [if_neg h, if_pos rfl]
        rwa [a1, a1] at e
      have e3 := getElem?_inj hl (by omega) e2
      refine ⟨e3, ?_⟩
      rw [← e3] at h
      exact (ih _ _ _ (swapAt_nodup hl _ _) (by rw [swapAt_length]; omega)).1 h
    · rintro ⟨e, h⟩
      rw [← e]
      exact (ih _ _ _ (swapAt_nodup hl _ _) (by rw [swapAt_length]; omega)).2 h

/-- Every rearrangement of the first `k + 1` items is reached. -/
theorem shuffleLoop_reaches (k : Nat) (l t : List γ) (hl : l.Nodup) (hp : t.Perm l) (hk : k < l.length)
    (hb : ∀ p, k < p → t[p]? = l[p]?) : ∃ d, Possible k d ∧ ∀ d0, (shuffleLoop (scripted d0) k d l).1 = t := by
  induction k generalizing l with
  | zero =>
    refine ⟨[], rfl, fun _ => ?_⟩
    show l = t
    match l, t, hp with
    | a :: r, [], hp => simp at hp
    | a :: r, b :: r', hp =>
      have hr : r = r' := by
        apply List.ext_getElem?
        intro i
        have := hb (i + 1) (by omega)
        simpa using this.symm
      subst hr
      have : b ∈ a :: r := hp.mem_iff.1 (by simp)
      have hn := hp.nodup_iff.2 hl
      rcases List.mem_cons.1 this with h | h
      · rw [h]
      · exact absurd h (List.nodup_cons.1 hn).1
    | [], _, _ => simp at hk
  | succ k ih =>
    have ht : k + 1 < t.length := by rw [hp.length_eq]; exact hk
    have htn := hp.nodup_iff.2 hl
    have hm : t[k + 1] ∈ l := hp.mem_iff.1 (List.getElem_mem ht)
    obtain ⟨j, hj⟩ := List.mem_iff_getElem?.1 hm
    obtain ⟨hjl, -⟩ := List.getElem?_eq_some_iff.1 hj
    have hjk : j ≤ k + 1 := by
      by_contra hc
      have := hb j (by omega)
      rw [hj, ← List.getElem?_eq_getElem ht] at this
      have := getElem?_inj htn (by rw [hp.length_eq]; exact hjl) this
      omega
    obtain ⟨d, hd, h⟩ := ih (swapAt l (k + 1) j) (swapAt_nodup hl _ _) (hp.trans (swapAt_perm _ _ _).symm) (by rw [swapAt_length]; omega) (by
      intro p hp'
      rw [swapAt_get _ _ _ _ hk hjl]
      by_cases h1 : p = k + 1
      · subst h1
        rw [List.getElem?_eq_getElem ht, ← hj]
        by_cases h2 : k + 1 = j
        · rw [if_pos h2, h2]
        · rw [if_neg h2, if_pos rfl]
      · rw [if_neg (by omega), if_neg h1]
        exact hb p (by omega))
    refine ⟨j :: d, ⟨j, d, rfl, hjk, hd⟩, fun d0 => ?_⟩
    show (shuffleLoop (scripted d0) k d (swapAt l (k + 1) (min j (k + 1)))).1 = t
    rw [Nat.min_eq_left hjk]
    exact h d0

/-- The result of a shuffle for given draws. -/
def Shuffled (d : List Nat) (l t : List γ) : Prop :=
  ∀ (R : RNG) (s : R.State), drawsOf R (l.length - 1) s = d → (shuffle R s l).1 = t

/-- **C92** Each order of different items results from exactly one of the possible sequences of draws. -/
theorem C92_exactly_one (l t : List γ) (hl : l.Nodup) (ht : t.Perm l) : ∃! d, Possible (l.length - 1) d ∧ Shuffled d l t := by
  cases l with
  | nil =>
    refine ⟨[], ⟨rfl, fun R s _ => ?_⟩, fun d hd => hd.1⟩
    rw [List.perm_nil.1 ht]; rfl
  | cons a r =>
    have hk : (a :: r).length - 1 < (a :: r).length := by simp
    obtain ⟨d, hd, h⟩ := shuffleLoop_reaches ((a :: r).length - 1) (a :: r) t hl ht hk (fun p hp => by
      rw [List.getElem?_eq_none (by rw [ht.length_eq]; omega), List.getElem?_eq_none (by omega)])
    refine ⟨d, ⟨hd, fun R s hs => ?_⟩, fun d' hd' => ?_⟩
    · rw [← h d]
      exact (shuffleLoop_eq_iff R (scripted d) _ s d _ hl hk).2 (by rw [hs, drawsOf_scripted _ _ _ hd])
    · have e := hd'.2 (scripted d') d' (drawsOf_scripted _ _ _ hd'.1)
      rw [← h d'] at e
      have := (shuffleLoop_eq_iff (scripted d') (scripted d') _ d' d _ hl hk).1 e
      rwa [drawsOf_scripted _ _ _ hd, drawsOf_scripted _ _ _ hd'.1] at this

/-- **C92** There are `(k + 1)!` possible sequences of draws for `k + 1` items. -/
theorem C92_number_of_draws (k : Nat) : {d | Possible k d}.ncard = (k + 1).factorial := by
  induction k with
  | zero =>
    have : {d | Possible 0 d} = {[]} := by ext d; rfl
    rw [this]; simp
  | succ k ih =>
    have : {d | Possible (k + 1) d} = (fun p : Nat × List Nat => p.1 :: p.2) '' (Set.Iic (k + 1) ×ˢ {d | Possible k d}) := by
      ext d
      constructor
      · rintro ⟨j, r, rfl, hj, hr⟩
        exact ⟨(j, r), ⟨hj, hr⟩, rfl⟩
      · rintro ⟨⟨j, r⟩, ⟨hj, hr⟩, rfl⟩
        exact ⟨j, r, rfl, hj, hr⟩
    rw [this, Set.ncard_image_of_injective _ (by rintro ⟨a, b⟩ ⟨c, d⟩ h; simpa using h), Set.ncard_prod, ih, Nat.factorial_succ (k + 1)]
    congr 1
    rw [show (Set.Iic (k + 1)) = ↑(Finset.Iic (k + 1)) by simp, Set.ncard_coe_finset, Nat.card_Iic]

/-- **C92** The draws of every generator are among the possible ones, and determine the result. -/
theorem C92_draws_determine (R R' : RNG) (s : R.State) (s' : R'.State) (l : List γ) (hl : l.Nodup) :
    Possible (l.length - 1) (drawsOf R (l.length - 1) s)
    ∧ ((shuffle R s l).1 = (shuffle R' s' l).1 ↔ drawsOf R (l.length - 1) s = drawsOf R' (l.length - 1) s') := by
  refine ⟨drawsOf_possible _ _ _, ?_⟩
  cases l with
  | nil => simp [shuffle, shuffleLoop, drawsOf]
  | cons a r => exact shuffleLoop_eq_iff R R' _ s s' _ hl (by simp)

namespace DataBatches
open Spec
variable {α β : Type}

/-- **C92** What `generate_shuffled_batches` yields as batch `k`: the rows and the labels of a window, both shuffled with the same draws. -/
theorem C92_batches (R : RNG) (a : Args) (w : World R α β) (bs : Nat)
    (hb : PosInt a.batchSize bs) (hs : SeedOk a.seed) (hlen : w.data.y.length = w.data.x.length) (k : Nat) :
    let before := (calls (nextShuffled R a) k (.fresh, w)).2.2.data
    let after := (calls (nextShuffled R a) (k + 1) (.fresh, w)).2.2.data
    ∃ (batch : Batch) (start : Nat) (s : R.State) (rows : List α) (labels : List β),
      (calls (nextShuffled R a) (k + 1) (.fresh, w)).1[k]? = some (.ok batch)
      ∧ IsWindow rows before.x start (min bs w.data.x.length)
      ∧ IsWindow labels before.y start (min bs w.data.x.length)
      ∧ batch.xs.read after.x = (shuffle R s rows).1
      ∧ batch.ys.read after.y = (shuffle R s labels).1 := by
  intro before after
  obtain ⟨h1, h2⟩ := shuffled_inv R a w bs hb hs hlen k
  rw [calls_get _ _ _ _ (Nat.lt_succ_self k)]
  have hafter : after = (nextShuffled R a (calls (nextShuffled R a) k (.fresh, w)).2).2.2.data := by
    show (calls (nextShuffled R a) (k + 1) (.fresh, w)).2.2.data = _
    rw [calls_succ'_snd]
  have hbefore : before = (calls (nextShuffled R a) k (.fresh, w)).2.2.data := rfl
  rcases hst : (calls (nextShuffled R a) k (ShuffledGen.fresh, w)).2 with ⟨g, v⟩
  rw [hst] at h1 h2 hafter hbefore
  obtain ⟨start, rng, rng', gen', glob', h3, h4, h5⟩ :=
    nextShuffled_spec R a g v bs w.data.x.length hb hs h1.1 h1.2.1 h2
  rw [h5] at hafter ⊢
  simp only at h1 hbefore hafter
  obtain ⟨h6, h7, -⟩ := h1
  refine ⟨_, start, rng, _, _, rfl, isWindow_read before.x start (min bs w.data.x.length) (by rw [hbefore]; omega),
    isWindow_read before.y start (min bs w.data.x.length) (by rw [hbefore]; omega), ?_, ?_⟩
  · rw [hafter, hbefore]
    exact shuffleView_read R rng start _ _ (by omega)
  · rw [hafter, hbefore]
    exact shuffleView_read R rng start _ _ (by omega)

end DataBatches

/-- Three different rows: six sequences of draws, each order from exactly one. -/
example (t : List Nat) (ht : t.Perm [10, 20, 30]) : {d | Possible 2 d}.ncard = 6 ∧ ∃! d, Possible 2 d ∧ Shuffled d [10, 20, 30] t :=
  ⟨C92_number_of_draws 2, C92_exactly_one [10, 20, 30] t (by decide) ht⟩

end PySGMCMC
