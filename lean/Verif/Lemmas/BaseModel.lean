import Verif.Model.BaseModel
import Verif.Spec.BaseModel

/-! Lemmas about the numpy reductions used in `base_model.py`. -/

namespace PySGMCMC

namespace Fl
open Spec

theorem std_map_fin {l : List ℝ} (h : l ≠ []) : std (l.map fin) = fin (Real.sqrt (var l)) := by
  have h2 : (l.map fin).map (fun x => npow (x - mean (l.map fin)) 2) = (l.map fun x => (x - avg l) ^ 2).map fin := by
    rw [List.map_map, List.map_map]
    apply List.map_congr_left
    intro x _
    simp only [Function.comp, mean_map_fin h, sub_fin, npow_fin]
    rfl
  unfold std
  rw [h2, mean_map_fin (by simpa using h)]
  have : (l.map fun x => (x - avg l) ^ 2).sum / ((l.map fun x => (x - avg l) ^ 2).length : ℝ) = var l := rfl
  rw [this, sqrt_fin (var_nonneg l)]

theorem foldl_min_fin (l : List ℝ) (a : ℝ) : ∃ m, (l.map fin).foldl min (fin a) = fin m ∧ (m = a ∨ m ∈ l) ∧
    m ≤ a ∧ ∀ x ∈ l, m ≤ x := by
  induction l generalizing a with
  | nil => exact ⟨a, rfl, Or.inl rfl, le_rfl, by simp⟩
  | cons x xs ih =>
    obtain ⟨m, h1, h2, h3, h4⟩ := ih (Min.min a x)
    refine ⟨m, by simpa using h1, ?_, le_trans h3 (min_le_left _ _), ?_⟩
    · rcases h2 with h2 | h2
      · rcases min_choice a x with h | h
        · exact Or.inl (h2.trans h)
        · exact Or.inr (by rw [h2, h]; simp)
      · exact Or.inr (List.mem_cons_of_mem _ h2)
    · intro y hy
      rcases List.mem_cons.1 hy with rfl | hy
      · exact le_trans h3 (min_le_right _ _)
      · exact h4 y hy

theorem foldl_max_fin (l : List ℝ) (a : ℝ) : ∃ m, (l.map fin).foldl max (fin a) = fin m ∧ (m = a ∨ m ∈ l) ∧
    a ≤ m ∧ ∀ x ∈ l, x ≤ m := by
  induction l generalizing a with
  | nil => exact ⟨a, rfl, Or.inl rfl, le_rfl, by simp⟩
  | cons x xs ih =>
    obtain ⟨m, h1, h2, h3, h4⟩ := ih (Max.max a x)
    refine ⟨m, by simpa using h1, ?_, le_trans (le_max_left _ _) h3, ?_⟩
    · rcases h2 with h2 | h2
      · rcases max_choice a x with h | h
        · exact Or.inl (h2.trans h)
        · exact Or.inr (by rw [h2, h]; simp)
      · exact Or.inr (List.mem_cons_of_mem _ h2)
    · intro y hy
      rcases List.mem_cons.1 hy with rfl | hy
      · exact le_trans (le_max_right _ _) h3
      · exact h4 y hy

theorem listMin_map_fin {l : List ℝ} (h : l ≠ []) :
    ∃ m, listMin (l.map fin) = some (fin m) ∧ m ∈ l ∧ ∀ x ∈ l, m ≤ x := by
  obtain ⟨a, xs, rfl⟩ := List.exists_cons_of_ne_nil h
  obtain ⟨m, h1, h2, h3, h4⟩ := foldl_min_fin xs a
  refine ⟨m, by simp [listMin, h1], ?_, ?_⟩
  · rcases h2 with rfl | h2
    · simp
    · exact List.mem_cons_of_mem _ h2
  · intro x hx
    rcases List.mem_cons.1 hx with rfl | hx
    · exact h3
    · exact h4 x hx

theorem listMax_map_fin {l : List ℝ} (h : l ≠ []) :
    ∃ m, listMax (l.map fin) = some (fin m) ∧ m ∈ l ∧ ∀ x ∈ l, x ≤ m := by
  obtain ⟨a, xs, rfl⟩ := List.exists_cons_of_ne_nil h
  obtain ⟨m, h1, h2, h3, h4⟩ := foldl_max_fin xs a
  refine ⟨m, by simp [listMax, h1], ?_, ?_⟩
  · rcases h2 with rfl | h2
    · simp
    · exact List.mem_cons_of_mem _ h2
  · intro x hx
    rcases List.mem_cons.1 hx with rfl | hx
    · exact h3
    · exact h4 x hx

/-! ## argmin -/

@[simp] theorem lt_fin (a b : ℝ) : (fin a).lt (fin b) = decide (a < b) := by
  simp [lt]
theorem lt_irrefl (x : Fl) : x.lt x = false := by cases x <;> simp [lt]
theorem lt_trans {x y z : Fl} (h1 : x.lt y = true) (h2 : y.lt z = true) : x.lt z = true := by
  cases x <;> cases y <;> cases z <;> simp_all [lt]
  exact _root_.lt_trans h1 h2
theorem not_lt_trans {x y z : Fl} (hy : y.isNan = false) (h1 : y.lt x = false) (h2 : z.lt y = false) : z.lt x = false := by
  cases x <;> cases y <;> cases z <;> simp_all [lt, isNan]
  exact le_trans h1 h2
theorem lt_of_lt_of_not_lt {x y z : Fl} (hz : z.isNan = false) (h1 : x.lt y = true) (h2 : z.lt y = false) :
    x.lt z = true := by
  cases x <;> cases y <;> cases z <;> simp_all [lt, isNan]
  exact lt_of_lt_of_le h1 h2

/-- What the scan of `np.argmin` returns. -/
theorem argminFrom_spec (l : List Fl) : ∀ (pre : List Fl) (m : Fl) (best : Nat),
    pre[best]? = some m →
    (m.isNan = true → ∀ (j : Nat) (w : Fl), j < best → pre[j]? = some w → w.isNan = false) →
    (m.isNan = false → ∀ (j : Nat) (w : Fl), pre[j]? = some w → w.isNan = false ∧ w.lt m = false ∧
      (j < best → m.lt w = true)) →
    ∃ v, (pre ++ l)[argminFrom m best pre.length l]? = some v ∧
      (v.isNan = true → ∀ (j : Nat) (w : Fl), j < argminFrom m best pre.length l → (pre ++ l)[j]? = some w →
        w.isNan = false) ∧
      (v.isNan = false → ∀ (j : Nat) (w : Fl), (pre ++ l)[j]? = some w → w.isNan = false ∧ w.lt v = false ∧
        (j < argminFrom m best pre.length l → v.lt w = true)) := by
  induction l with
  | nil =>
    intro pre m best h1 h2 h3
    exact ⟨m, by simpa [argminFrom] using h1, by simpa [argminFrom] using h2, by simpa [argminFrom] using h3⟩
  | cons x xs ih =>
    intro pre m best h1 h2 h3
    have hb : best < pre.length := (List.getElem?_eq_some_iff.1 h1).1
    by_cases hm : m.isNan = true
    · refine ⟨m, ?_, ?_, ?_⟩
      · simp only [argminFrom, hm, if_true]
        rw [List.getElem?_append_left hb]
        exact h1
      · intro _ j w hj hw
        simp only [argminFrom, hm, if_true] at hj
        rw [List.getElem?_append_left (by omega)] at hw
        exact h2 hm j w hj hw
      · intro hc; rw [hm] at hc; cases hc
    · have hm' : m.isNan = false := by simpa using hm
      have h3' := h3 hm'
      have hsplit : ∀ (j : Nat) (w : Fl), (pre ++ [x])[j]? = some w →
          (j < pre.length ∧ pre[j]? = some w) ∨ (j = pre.length ∧ w = x) := by
        intro j w hw
        by_cases hj : j < pre.length
        · rw [List.getElem?_append_left hj] at hw
          exact Or.inl ⟨hj, hw⟩
        · rw [List.getElem?_append_right (by omega)] at hw
          obtain ⟨hk, he⟩ := List.getElem?_eq_some_iff.1 hw
          simp only [List.length_cons, List.length_nil] at hk
          have h0 : j - pre.length = 0 := by omega
          simp only [h0, List.getElem_cons_zero] at he
          exact Or.inr ⟨by omega, he.symm⟩
      have happ : pre ++ x :: xs = (pre ++ [x]) ++ xs := by simp
      have hlen : pre.length + 1 = (pre ++ [x]).length := by simp
      by_cases hx : (x.lt m || x.isNan) = true
      · have hstep : argminFrom m best pre.length (x :: xs) = argminFrom x pre.length (pre ++ [x]).length xs := by
          rw [argminFrom, if_neg hm, if_pos hx, hlen]
        rw [hstep, happ]
        apply ih (pre ++ [x]) x pre.length
        · simp
        · intro _ j w hj hw
          rcases hsplit j w hw with ⟨_, hw'⟩ | ⟨he, _⟩
          · exact (h3' j w hw').1
          · omega
        · intro hxn j w hw
          have hlt : x.lt m = true := by simpa [hxn] using hx
          rcases hsplit j w hw with ⟨hj, hw'⟩ | ⟨he, rfl⟩
          · have := h3' j w hw'
            have hxw := lt_of_lt_of_not_lt this.1 hlt this.2.1
            refine ⟨this.1, ?_, fun _ => hxw⟩
            cases hwx : w.lt x with
            | false => rfl
            | true => have := lt_trans hwx hxw; rw [lt_irrefl] at this; cases this
          · exact ⟨hxn, lt_irrefl _, fun h => by omega⟩
      · have hxx := hx
        simp only [Bool.or_eq_true, not_or, Bool.not_eq_true] at hxx
        obtain ⟨hx1, hx2⟩ := hxx
        have hstep : argminFrom m best pre.length (x :: xs) = argminFrom m best (pre ++ [x]).length xs := by
          rw [argminFrom, if_neg hm, if_neg hx, hlen]
        rw [hstep, happ]
        apply ih (pre ++ [x]) m best
        · rw [List.getElem?_append_left hb]; exact h1
        · intro hc; exact absurd hc hm
        · intro _ j w hw
          rcases hsplit j w hw with ⟨hj, hw'⟩ | ⟨he, rfl⟩
          · exact h3' j w hw'
          · exact ⟨hx2, hx1, fun h => by omega⟩

/-- `np.argmin` returns the first minimum, or the first `NaN` if there is one. -/
theorem argmin_spec {l : List Fl} (h : l ≠ []) : ∃ (i : Nat) (v : Fl), argmin l = .ok i ∧ l[i]? = some v ∧
    (v.isNan = true → ∀ (j : Nat) (w : Fl), j < i → l[j]? = some w → w.isNan = false) ∧
    (v.isNan = false → ∀ (j : Nat) (w : Fl), l[j]? = some w → w.isNan = false ∧ w.lt v = false ∧
      (j < i → v.lt w = true)) := by
  obtain ⟨x, xs, rfl⟩ := List.exists_cons_of_ne_nil h
  obtain ⟨v, h1, h2, h3⟩ := argminFrom_spec xs [x] x 0 (by simp) (by intro _ j w hj; omega) (by
    intro hx j w hw
    obtain ⟨hj, he⟩ := List.getElem?_eq_some_iff.1 hw
    have hj0 : j = 0 := by simpa using hj
    subst hj0
    simp only [List.getElem_cons_zero] at he
    subst he
    exact ⟨hx, lt_irrefl _, fun h => by omega⟩)
  exact ⟨_, v, rfl, h1, h2, h3⟩

end Fl

end PySGMCMC
