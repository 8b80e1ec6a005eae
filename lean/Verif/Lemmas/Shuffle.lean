import Verif.Py.Rng
import Mathlib.Data.List.Perm.Basic
import Mathlib.Logic.Equiv.List

/-! Helper lemmas about in-place shuffling. -/

namespace PySGMCMC

variable {γ δ : Type _}

@[simp] theorem swapAt_length (l : List γ) (i j : Nat) : (swapAt l i j).length = l.length := by
  unfold swapAt; split <;> simp

theorem swapAt_map (f : γ → δ) (l : List γ) (i j : Nat) :
    swapAt (l.map f) i j = (swapAt l i j).map f := by
  unfold swapAt
  simp only [List.getElem?_map]
  cases l[i]? <;> cases l[j]? <;> simp [List.map_set]

theorem swapAt_get (l : List γ) (i j k : Nat) (hi : i < l.length) (hj : j < l.length) :
    (swapAt l i j)[k]? = if k = j then l[i]? else if k = i then l[j]? else l[k]? := by
  unfold swapAt
  rw [List.getElem?_eq_getElem hi, List.getElem?_eq_getElem hj]
  simp only [List.getElem?_set, List.length_set]
  by_cases h1 : j = k
  · subst h1; simp [hj]
  · by_cases h2 : i = k
    · subst h2; simp [h1, hi, Ne.symm h1]
    · simp [h1, h2, Ne.symm h1, Ne.symm h2]

theorem swapAt_perm (l : List γ) (i j : Nat) : (swapAt l i j).Perm l := by
  unfold swapAt
  split
  · rename_i a b ha hb
    obtain ⟨hi, rfl⟩ := List.getElem?_eq_some_iff.1 ha
    obtain ⟨hj, rfl⟩ := List.getElem?_eq_some_iff.1 hb
    exact List.set_set_perm hi hj
  · exact List.Perm.refl _

theorem shuffleLoop_perm (R : RNG) (k : Nat) (s : R.State) (l : List γ) :
    (shuffleLoop R k s l).1.Perm l := by
  induction k generalizing s l with
  | zero => exact List.Perm.refl _
  | succ k ih => exact (ih _ _).trans (swapAt_perm _ _ _)

theorem shuffle_perm (R : RNG) (s : R.State) (l : List γ) : (shuffle R s l).1.Perm l :=
  shuffleLoop_perm R _ s l

@[simp] theorem shuffle_length (R : RNG) (s : R.State) (l : List γ) :
    (shuffle R s l).1.length = l.length := (shuffle_perm R s l).length_eq

/-- Shuffling does not look at the items: it commutes with `map` and its draws depend on the length only. -/
theorem shuffleLoop_map (R : RNG) (f : γ → δ) (k : Nat) (s : R.State) (l : List γ) :
    shuffleLoop R k s (l.map f) = ((shuffleLoop R k s l).1.map f, (shuffleLoop R k s l).2) := by
  induction k generalizing s l with
  | zero => rfl
  | succ k ih => simp only [shuffleLoop, swapAt_map, ih]

theorem shuffle_map (R : RNG) (f : γ → δ) (s : R.State) (l : List γ) :
    shuffle R s (l.map f) = ((shuffle R s l).1.map f, (shuffle R s l).2) := by
  simp only [shuffle, List.length_map, shuffleLoop_map]

/-- The list shuffled by the same draws as a list of pairs. -/
theorem shuffle_zip (R : RNG) (s : R.State) (x : List γ) (y : List δ) (h : x.length = y.length) :
    (shuffle R s (x.zip y)).1 = (shuffle R s x).1.zip (shuffle R s y).1
    ∧ (shuffle R s x).2 = (shuffle R s y).2 := by
  have hx : x = (x.zip y).map Prod.fst := by rw [List.map_fst_zip]; omega
  have hy : y = (x.zip y).map Prod.snd := by rw [List.map_snd_zip]; omega
  generalize x.zip y = l at hx hy ⊢
  subst hx; subst hy
  rw [shuffle_map, shuffle_map]
  exact ⟨by rw [← List.zip_of_prod rfl rfl], rfl⟩

end PySGMCMC
