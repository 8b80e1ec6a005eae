import Mathlib.Data.Real.Sqrt
import Mathlib.Tactic.Ring
import Mathlib.Tactic.FieldSimp
import Mathlib.Tactic.Linarith
import Mathlib.Tactic.Positivity
import Mathlib.Algebra.BigOperators.Group.List.Basic
import Mathlib.Algebra.BigOperators.Ring.List
import Mathlib.Algebra.Order.BigOperators.Group.List

/-! Mean and population variance of a finite list of reals. -/

namespace PySGMCMC.Spec

/-- Arithmetic mean. -/
noncomputable def avg (l : List ℝ) : ℝ := l.sum / l.length

/-- Population variance. -/
noncomputable def var (l : List ℝ) : ℝ := avg (l.map fun x => (x - avg l) ^ 2)

theorem var_nonneg (l : List ℝ) : 0 ≤ var l := by
  unfold var avg
  apply div_nonneg
  · apply List.sum_nonneg
    intro x hx
    obtain ⟨y, -, rfl⟩ := List.mem_map.1 hx
    positivity
  · positivity

theorem sum_affine (l : List ℝ) (a b : ℝ) : (l.map fun x => a * x + b).sum = a * l.sum + l.length * b := by
  induction l with
  | nil => simp
  | cons x xs ih => simp only [List.map_cons, List.sum_cons, ih, List.length_cons]; push_cast; ring

theorem avg_affine {l : List ℝ} (h : l ≠ []) (a b : ℝ) : avg (l.map fun x => a * x + b) = a * avg l + b := by
  have h' : (l.length : ℝ) ≠ 0 := by simpa using h
  unfold avg
  rw [sum_affine, List.length_map]
  field_simp

theorem sum_mul (l : List ℝ) (f : ℝ → ℝ) (a : ℝ) : (l.map fun x => a * f x).sum = a * (l.map f).sum := by
  induction l with
  | nil => simp
  | cons x xs ih => simp only [List.map_cons, List.sum_cons, ih]; ring

theorem var_affine {l : List ℝ} (h : l ≠ []) (a b : ℝ) : var (l.map fun x => a * x + b) = a ^ 2 * var l := by
  unfold var
  rw [avg_affine h, List.map_map]
  have : ((fun x => (x - (a * avg l + b)) ^ 2) ∘ fun x => a * x + b) = fun x => a ^ 2 * (x - avg l) ^ 2 := by
    funext x; simp only [Function.comp]; ring
  rw [this]
  unfold avg
  rw [sum_mul]
  simp only [List.length_map]
  ring

/-- The variance vanishes exactly for constant lists. -/
theorem var_eq_zero_iff (l : List ℝ) : var l = 0 ↔ ∀ x ∈ l, ∀ y ∈ l, x = y := by
  by_cases h : l = []
  · subst h; simp [var, avg]
  have h' : (l.length : ℝ) ≠ 0 := by simpa using h
  constructor
  · intro hv
    have hs : (l.map fun x => (x - avg l) ^ 2).sum = 0 := by
      unfold var at hv
      rw [avg] at hv
      simpa [h] using hv
    have key : ∀ x ∈ l, x = avg l := by
      intro x hx
      have hle : (x - avg l) ^ 2 ≤ (l.map fun x => (x - avg l) ^ 2).sum := by
        apply List.single_le_sum
        · intro y hy
          obtain ⟨z, -, rfl⟩ := List.mem_map.1 hy
          positivity
        · exact List.mem_map.2 ⟨x, hx, rfl⟩
      rw [hs] at hle
      have : (x - avg l) ^ 2 = 0 := le_antisymm hle (by positivity)
      have := pow_eq_zero_iff (n := 2) (by norm_num) |>.1 this
      linarith
    intro x hx y hy
    rw [key x hx, key y hy]
  · intro hc
    obtain ⟨c, xs, rfl⟩ := List.exists_cons_of_ne_nil h
    have hrep : ∀ x ∈ c :: xs, x = c := fun x hx => hc x hx c (by simp)
    have hsum : (c :: xs).sum = (c :: xs).length * c := by
      have := List.eq_replicate_of_mem hrep
      rw [this]
      simp
    have havg : avg (c :: xs) = c := by
      unfold avg
      rw [hsum]
      field_simp
    have : (c :: xs).map (fun x => (x - avg (c :: xs)) ^ 2) = (c :: xs).map fun _ => 0 := by
      apply List.map_congr_left
      intro x hx
      rw [havg, hrep x hx]; ring
    unfold var
    rw [this]
    simp [avg]

end PySGMCMC.Spec
