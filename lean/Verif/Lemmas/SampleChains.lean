import Verif.Model.SampleChains
import Verif.Lemmas.PySlice
import Verif.Lemmas.Iter
import Mathlib.Data.List.Nodup

/-! Lemmas about `Except`-valued maps, dictionaries and `islice`. -/

namespace PySGMCMC

theorem mapM_ok {ε α β : Type} (f : α → Except ε β) (g : α → β) (l : List α) (h : ∀ x ∈ l, f x = .ok (g x)) :
    l.mapM f = .ok (l.map g) := by
  induction l with
  | nil => rfl
  | cons x xs ih =>
    rw [List.mapM_cons, h x (by simp), ih fun y hy => h y (by simp [hy])]
    rfl

theorem mapM_error {ε α β : Type} (f : α → Except ε β) (e : ε) (pre post : List α) (x : α) (g : α → β)
    (h : ∀ y ∈ pre, f y = .ok (g y)) (hx : f x = .error e) : (pre ++ x :: post).mapM f = .error e := by
  induction pre with
  | nil => rw [List.nil_append, List.mapM_cons, hx]; rfl
  | cons y ys ih =>
    rw [List.cons_append, List.mapM_cons, h y (by simp), ih fun z hz => h z (by simp [hz])]
    rfl

theorem ofList_getElem {κ ν : Type} [DecidableEq κ] (l : List (κ × ν)) (hd : (l.map Prod.fst).Nodup) (j : Nat) (k : κ)
    (v : ν) (h : l[j]? = some (k, v)) : Dict.ofList l k = some v := by
  induction l generalizing j with
  | nil => simp at h
  | cons p ps ih =>
    rw [List.map_cons, List.nodup_cons] at hd
    cases j with
    | zero =>
      obtain rfl : p = (k, v) := by simpa using h
      have hn : Dict.ofList ps k = none := by
        by_contra hne
        have : ∀ qs : List (κ × ν), Dict.ofList qs k ≠ none → k ∈ qs.map Prod.fst := by
          intro qs
          induction qs with
          | nil => simp [Dict.ofList, Dict.empty]
          | cons q qs ihq =>
            intro hq
            simp only [Dict.ofList] at hq
            by_cases hqk : k = q.1
            · simp [hqk]
            · cases hqs : Dict.ofList qs k with
              | none => simp [hqs, hqk] at hq
              | some w => exact List.mem_cons_of_mem _ (ihq (by simp [hqs]))
        exact hd.1 (this ps hne)
      simp [Dict.ofList, hn]
    | succ j =>
      have := ih hd.2 j (by simpa using h)
      simp [Dict.ofList, this]

theorem ofList_none {κ ν : Type} [DecidableEq κ] (l : List (κ × ν)) (k : κ) (h : k ∉ l.map Prod.fst) :
    Dict.ofList l k = none := by
  induction l with
  | nil => rfl
  | cons p ps ih =>
    rw [List.map_cons, List.mem_cons, not_or] at h
    simp [Dict.ofList, ih h.2, h.1]

end PySGMCMC
