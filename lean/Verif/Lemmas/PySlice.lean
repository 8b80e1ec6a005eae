import Verif.Py.Basic
import Mathlib.Tactic.Ring
import Mathlib.Tactic.NormNum

/-! Python slices with non-negative start and positive step, and the full slice. -/

namespace PySGMCMC

theorem filterMap_getElem? {α β : Type _} (f : α → Option β) (L : List α) (h : ∀ x ∈ L, (f x).isSome) (k : Nat) :
    (L.filterMap f)[k]? = (L[k]?).bind f := by
  induction L generalizing k with
  | nil => simp
  | cons x xs ih =>
    obtain ⟨y, hy⟩ := Option.isSome_iff_exists.1 (h x (by simp))
    rw [List.filterMap_cons_some hy]
    cases k with
    | zero => simp [hy]
    | succ k => simpa using ih (fun z hz => h z (by simp [hz])) k

/-- Elements of a range with positive step. -/
theorem rangeList_getElem? (a b st : Nat) (hst : 0 < st) (k : Nat) :
    (PySlice.rangeList (a : Int) b st)[k]? = if a + k * st < b then some (((a + k * st : Nat)) : Int) else none := by
  unfold PySlice.rangeList
  rw [if_pos (by exact_mod_cast hst), List.getElem?_map]
  by_cases hab : a < b
  · rw [if_pos (by exact_mod_cast hab)]
    have hn : ((((b : Int) - a - 1) / st + 1).toNat) = (b - a - 1) / st + 1 := by
      have h1 : ((b : Int) - a - 1) = ((b - a - 1 : Nat) : Int) := by omega
      have h2 : ((b - a - 1 : Nat) : Int) / (st : Int) + 1 = (((b - a - 1) / st + 1 : Nat) : Int) := by push_cast; rfl
      rw [h1, h2, Int.toNat_natCast]
    rw [hn]
    have hiff : k < (b - a - 1) / st + 1 ↔ a + k * st < b := by
      rw [Nat.lt_succ_iff, Nat.le_div_iff_mul_le hst]; omega
    by_cases hk : a + k * st < b
    · rw [if_pos hk, List.getElem?_range (hiff.2 hk)]; simp
    · rw [if_neg hk, List.getElem?_eq_none (by simpa using fun h => hk (hiff.1 h))]; rfl
  · rw [if_neg (by exact_mod_cast hab)]
    have : ¬ a + k * st < b := by have := Nat.zero_le (k * st); omega
    simp [this]

/-- `l[burn::thin]` for `burn ≥ 0`, `thin > 0`. -/
theorem pyGetSlice_from {α : Type _} (l : List α) (burn thin : Nat) (ht : 0 < thin) :
    ∃ r, pyGetSlice l { start := some (burn : Int), step := some (thin : Int) } = .ok r
      ∧ ∀ k, r[k]? = l[burn + k * thin]? := by
  have hne : ¬ (PySlice.stepVal { start := some (burn : Int), step := some (thin : Int) } = 0) := by
    simp only [PySlice.stepVal, Option.getD_some]; omega
  have hidx : PySlice.indices { start := some (burn : Int), step := some (thin : Int) } l.length
      = PySlice.rangeList ((min burn l.length : Nat) : Int) (l.length : Nat) (thin : Nat) := by
    have h0 : ¬ ((thin : Int) < 0) := by omega
    have h1 : ¬ ((burn : Int) < 0) := by omega
    simp only [PySlice.indices, PySlice.stepVal, Option.getD_some, h0, if_false, PySlice.adjust, h1]
    push_cast; rfl
  refine ⟨_, by unfold pyGetSlice; rw [if_neg hne], fun k => ?_⟩
  rw [hidx, filterMap_getElem?]
  · rw [rangeList_getElem? _ _ _ ht]
    by_cases hb : burn ≤ l.length
    · rw [Nat.min_eq_left hb]
      by_cases hk : burn + k * thin < l.length
      · rw [if_pos hk, Option.bind_some, Int.toNat_natCast]
      · rw [if_neg hk, List.getElem?_eq_none (by omega)]; rfl
    · rw [Nat.min_eq_right (by omega), if_neg (by omega), List.getElem?_eq_none (by have := Nat.zero_le (k * thin); omega)]
      rfl
  · intro x hx
    obtain ⟨k, hk⟩ := List.mem_iff_getElem?.1 hx
    rw [rangeList_getElem? _ _ _ ht] at hk
    split at hk
    · rename_i hlt
      obtain rfl := Option.some.inj hk
      rw [Int.toNat_natCast]
      simpa using hlt
    · cases hk

/-- `l[:]` -/
theorem pyGetSlice_full {α : Type _} (l : List α) : pyGetSlice l {} = .ok l := by
  obtain ⟨r, h, hr⟩ := pyGetSlice_from l 0 1 (by norm_num)
  have he : pyGetSlice l {} = pyGetSlice l { start := some ((0 : Nat) : Int), step := some ((1 : Nat) : Int) } := by
    simp [pyGetSlice, PySlice.stepVal, PySlice.indices, PySlice.adjust]
  rw [he, h]
  congr 1
  apply List.ext_getElem?
  intro k
  rw [hr]; simp

/-- `l[-b::thin]` starts `b` elements before the end (or at the start). -/
theorem pyGetSlice_neg {α : Type _} (l : List α) (b thin : Nat) (hb : 0 < b) (ht : 0 < thin) :
    pyGetSlice l { start := some (-(b : Int)), step := some (thin : Int) }
      = pyGetSlice l { start := some ((l.length - b : Nat) : Int), step := some (thin : Int) } := by
  have h0 : ¬ ((thin : Int) < 0) := by omega
  have h1 : (-(b : Int)) < 0 := by omega
  have h2 : ¬ (((l.length - b : Nat) : Int) < 0) := by omega
  have h3 : max (-(b : Int) + l.length) 0 = min ((l.length - b : Nat) : Int) l.length := by omega
  simp only [pyGetSlice, PySlice.stepVal, Option.getD_some, PySlice.indices, h0, if_false, PySlice.adjust, h1, if_true, h2,
    h3]

/-- `l[::-1]` -/
theorem pyGetSlice_reverse {α : Type _} (l : List α) : pyGetSlice l { step := some (-1) } = .ok l.reverse := by
  have hidx : PySlice.indices { step := some (-1) } l.length
      = (List.range l.length).map fun (i : Nat) => ((l.length : Int) - 1) + (i : Int) * (-1) := by
    simp only [PySlice.indices, PySlice.stepVal, Option.getD_some, show ((-1 : Int) < 0) = True by simp, if_true,
      PySlice.adjust, PySlice.rangeList, show ¬ ((0 : Int) < -1) by omega, if_false]
    congr 2
    split
    · rw [show (- -1 : Int) = 1 by norm_num, Int.ediv_one]; omega
    · omega
  unfold pyGetSlice
  rw [if_neg (by simp [PySlice.stepVal]), hidx]
  congr 1
  apply List.ext_getElem?
  intro k
  rw [filterMap_getElem?]
  · rw [List.getElem?_map]
    by_cases hk : k < l.length
    · rw [List.getElem?_range hk, List.getElem?_reverse hk]
      simp only [Option.map_some, Option.bind_some]
      congr 1
      omega
    · rw [List.getElem?_eq_none (by simpa using hk), List.getElem?_eq_none (by simpa using hk)]
      rfl
  · intro x hx
    obtain ⟨i, hi, rfl⟩ := List.mem_map.1 hx
    rw [List.mem_range] at hi
    simp
    omega

/-- A zero step is an error. -/
theorem pyGetSlice_zero {α : Type _} (l : List α) (a : Option Int) (b : Option Int) :
    pyGetSlice l { start := a, stop := b, step := some 0 } = .error (.value "slice step cannot be zero") := by
  simp [pyGetSlice, PySlice.stepVal]

end PySGMCMC
