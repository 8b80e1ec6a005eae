import Verif.Py.Basic
import Mathlib.Tactic.Common

/-! Helper lemmas about repeated `next()` calls. -/

namespace PySGMCMC

variable {σ : Type _} {α : Type _}

@[simp] theorem calls_zero (next : σ → Step σ α) (s : σ) : calls next 0 s = ([], s) := rfl

theorem calls_succ (next : σ → Step σ α) (n : Nat) (s : σ) :
    calls next (n + 1) s = ((next s).1 :: (calls next n (next s).2).1, (calls next n (next s).2).2) := rfl

@[simp] theorem calls_length (next : σ → Step σ α) (n : Nat) (s : σ) :
    (calls next n s).1.length = n := by
  induction n generalizing s with
  | zero => rfl
  | succ n ih => simp [calls_succ, ih]

theorem calls_add (next : σ → Step σ α) (m n : Nat) (s : σ) :
    calls next (m + n) s
      = ((calls next m s).1 ++ (calls next n (calls next m s).2).1,
         (calls next n (calls next m s).2).2) := by
  induction m generalizing s with
  | zero => simp
  | succ m ih => rw [Nat.succ_add, calls_succ, ih, calls_succ]; simp

/-- Running one more call at the end. -/
theorem calls_succ' (next : σ → Step σ α) (n : Nat) (s : σ) :
    calls next (n + 1) s
      = ((calls next n s).1 ++ [(next (calls next n s).2).1], (next (calls next n s).2).2) := by
  rw [calls_add]; rfl

theorem calls_succ'_snd (next : σ → Step σ α) (n : Nat) (s : σ) :
    (calls next (n + 1) s).2 = (next (calls next n s).2).2 := by rw [calls_succ']

/-- The `k`-th result is the result of `next` in the state reached after `k` calls. -/
theorem calls_get (next : σ → Step σ α) (n k : Nat) (s : σ) (h : k < n) :
    (calls next n s).1[k]? = some (next (calls next k s).2).1 := by
  obtain ⟨m, rfl⟩ : ∃ m, n = k + (m + 1) := ⟨n - k - 1, by omega⟩
  rw [calls_add, calls_succ]
  simp

/-- An invariant of single calls is an invariant of call sequences. -/
theorem calls_inv (next : σ → Step σ α) (Inv : σ → Prop) (hstep : ∀ s, Inv s → Inv (next s).2)
    (n : Nat) (s : σ) (h : Inv s) : Inv (calls next n s).2 := by
  induction n generalizing s with
  | zero => exact h
  | succ n ih => rw [calls_succ]; exact ih _ (hstep _ h)

/-- Bisimulation: related iterators give equal results. -/
theorem calls_bisim {τ : Type _} (next : σ → Step σ α) (next' : τ → Step τ α) (Rel : σ → τ → Prop)
    (hstep : ∀ s t, Rel s t → (next s).1 = (next' t).1 ∧ Rel (next s).2 (next' t).2)
    (n : Nat) (s : σ) (t : τ) (h : Rel s t) :
    (calls next n s).1 = (calls next' n t).1 ∧ Rel (calls next n s).2 (calls next' n t).2 := by
  induction n generalizing s t with
  | zero => exact ⟨rfl, h⟩
  | succ n ih =>
    obtain ⟨h1, h2⟩ := hstep _ _ h
    obtain ⟨h3, h4⟩ := ih _ _ h2
    simp only [calls_succ]
    exact ⟨by rw [h1, h3], h4⟩

/-- If every call from an invariant state succeeds, `islice` returns exactly the results of `n` calls. -/
theorem islice_eq_calls (next : σ → Step σ α) (n : Nat) (s : σ) (l : List α)
    (h : (calls next n s).1 = l.map Except.ok) : islice next n s = (.ok l, (calls next n s).2) := by
  induction n generalizing s l with
  | zero =>
    cases l with
    | nil => rfl
    | cons => simp at h
  | succ n ih =>
    cases l with
    | nil => simp [calls_succ] at h
    | cons a l =>
      simp only [calls_succ, List.map_cons, List.cons.injEq] at h
      obtain ⟨h1, h2⟩ := h
      have := ih _ _ h2
      unfold islice
      rcases hn : next s with ⟨r, s'⟩
      rw [hn] at h1 this h2
      simp only at h1; subst h1
      simp only [this]
      simp [calls_succ, hn]

end PySGMCMC
