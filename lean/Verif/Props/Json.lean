import Verif.Props.BNNData
import Verif.Lemmas.TensorRow

/-!
# `get_json_data`

C124 the nested lists hold exactly the stored data
-/

namespace PySGMCMC.BaseModel
open Spec

/-- `l[i][j]…`: the number at a position in nested lists, nothing if there is none. -/
def Nested.at : Nested → List Nat → Option Fl
  | .value v, [] => some v
  | .list l, i :: is => (l[i]?).bind fun x => x.at is
  | _, _ => none

theorem tolist_at (s : List Nat) : ∀ (d : List Fl), d.length = s.prod → ∀ idx, (tolist s d).at idx = (⟨s, d⟩ : Tensor Fl).get idx := by
  induction s with
  | nil =>
    intro d hd idx
    obtain ⟨v, rfl⟩ := List.length_eq_one_iff.1 (show d.length = 1 by simpa using hd)
    cases idx <;> simp [tolist, Nested.at, Tensor.get, Tensor.validIdx, Tensor.offset]
  | cons n ds ih =>
    intro d hd idx
    cases idx with
    | nil => simp [tolist, Nested.at, Tensor.get, Tensor.validIdx]
    | cons i idx =>
      simp only [tolist, Nested.at, List.getElem?_map]
      by_cases hi : i < n
      · rw [List.getElem?_range hi, Option.map_some, Option.bind_some, ih _ _ idx,
          Tensor.sub_get ⟨n :: ds, d⟩ n ds rfl i hi idx]
        rw [List.prod_cons] at hd
        have : (i + 1) * ds.prod ≤ n * ds.prod := Nat.mul_le_mul_right _ hi
        rw [Nat.add_mul, Nat.one_mul] at this
        rw [List.length_take, List.length_drop]
        omega
      · rw [List.getElem?_eq_none (by simpa using hi)]
        simp [Tensor.get, Tensor.validIdx, hi]

theorem tolist_injective (s : List Nat) : ∀ (s' : List Nat) (d d' : List Fl), d.length = s.prod → d'.length = s'.prod → 0 ∉ s → 0 ∉ s' →
    tolist s d = tolist s' d' → s = s' ∧ d = d' := by
  induction s with
  | nil =>
    intro s' d d' hd hd' _ _ h
    cases s' with
    | nil =>
      obtain ⟨v, rfl⟩ := List.length_eq_one_iff.1 (show d.length = 1 by simpa using hd)
      obtain ⟨v', rfl⟩ := List.length_eq_one_iff.1 (show d'.length = 1 by simpa using hd')
      simpa [tolist] using h
    | cons => simp [tolist] at h
  | cons n ds ih =>
    intro s' d d' hd hd' h0 h0' h
    cases s' with
    | nil => simp [tolist] at h
    | cons m ds' =>
      simp only [tolist, Nested.list.injEq] at h
      have hnm : n = m := by simpa using congrArg List.length h
      subst hnm
      have hn : 0 < n := Nat.pos_of_ne_zero fun h => h0 (by simp [h])
      rw [List.prod_cons] at hd hd'
      have hlen : ∀ (p : Nat) (e : List Fl), e.length = n * p → ∀ i < n, ((e.drop (i * p)).take p).length = p := by
        intro p e he i hi
        have : (i + 1) * p ≤ n * p := Nat.mul_le_mul_right _ hi
        rw [Nat.add_mul, Nat.one_mul] at this
        rw [List.length_take, List.length_drop]
        omega
      have hch : ∀ i < n, ds = ds' ∧ (d.drop (i * ds.prod)).take ds.prod = (d'.drop (i * ds'.prod)).take ds'.prod := by
        intro i hi
        have h' : tolist ds ((d.drop (i * ds.prod)).take ds.prod) = tolist ds' ((d'.drop (i * ds'.prod)).take ds'.prod) :=
          (List.map_inj_left.1 h) i (List.mem_range.2 hi)
        exact ih ds' _ _ (hlen _ _ hd i hi) (hlen _ _ hd' i hi) (fun hh => h0 (List.mem_cons_of_mem _ hh))
          (fun hh => h0' (List.mem_cons_of_mem _ hh)) h'
      obtain ⟨rfl, -⟩ := hch 0 hn
      refine ⟨rfl, List.ext_getElem? fun k => ?_⟩
      by_cases hk : k < n * ds.prod
      · have hp : 0 < ds.prod := Nat.pos_of_ne_zero fun h => by simp [h] at hk
        have hi : k / ds.prod < n := (Nat.div_lt_iff_lt_mul hp).2 hk
        have e := congrArg (fun l => l[k % ds.prod]?) (hch _ hi).2
        simp only [List.getElem?_take_of_lt (Nat.mod_lt k hp), List.getElem?_drop, Nat.div_add_mod'] at e
        exact e
      · rw [List.getElem?_eq_none (by omega), List.getElem?_eq_none (by omega)]

/-- **C124** What `get_json_data` returns holds, for a stored array of any shape, the element with index `(i, j, …)` at `[i][j]…` and has
nothing else in it; an attribute that is `None` stays `None`. -/
theorem C124_elements (s : Stored) :
    (∀ X, s.X = some X → X.data.length = X.shape.prod →
      ∃ l, (getJsonData s).1 = some l ∧ ∀ idx, l.at idx = X.get idx) ∧
    (∀ y, s.y = some y → y.data.length = y.shape.prod →
      ∃ l, (getJsonData s).2.1 = some l ∧ ∀ idx, l.at idx = y.get idx) ∧
    (s.X = none → (getJsonData s).1 = none) ∧ (s.y = none → (getJsonData s).2.1 = none) ∧ (getJsonData s).2.2 = "" := by
  refine ⟨fun X h hl => ⟨_, by simp only [getJsonData, h, Option.map_some], tolist_at _ _ hl⟩,
    fun y h hl => ⟨_, by simp only [getJsonData, h, Option.map_some], tolist_at _ _ hl⟩, fun h => by simp [getJsonData, h],
    fun h => by simp [getJsonData, h], rfl⟩

/-- **C124** Nothing is lost: two models whose arrays have no empty axis and that return the same data store the same arrays. -/
theorem C124_recover (s s' : Stored) (hs : ∀ t, t ∈ s.X ∨ t ∈ s.y ∨ t ∈ s'.X ∨ t ∈ s'.y → t.data.length = t.shape.prod ∧ 0 ∉ t.shape)
    (h : getJsonData s = getJsonData s') : s = s' := by
  have key : ∀ o o' : Option (Tensor Fl), (∀ t, t ∈ o ∨ t ∈ o' → t.data.length = t.shape.prod ∧ 0 ∉ t.shape) →
      (o.map fun t => tolist t.shape t.data) = (o'.map fun t => tolist t.shape t.data) → o = o' := by
    rintro (_ | ⟨a, b⟩) (_ | ⟨a', b'⟩) ht he <;> simp at he ⊢
    have h1 := ht ⟨a, b⟩ (Or.inl rfl)
    have h2 := ht ⟨a', b'⟩ (Or.inr rfl)
    exact tolist_injective a a' b b' h1.1 h2.1 h1.2 h2.2 he
  simp only [getJsonData, Prod.mk.injEq, and_true] at h
  obtain ⟨X, y⟩ := s
  obtain ⟨X', y'⟩ := s'
  rw [key X X' (fun t ht => hs t (by tauto)) h.1, key y y' (fun t ht => hs t (by tauto)) h.2]

/-- **C124** An empty axis hides the axes after it: arrays of shapes `(0, 2)` and `(0, 3)` give the same empty list. -/
theorem C124_empty : getJsonData ⟨some ⟨[0, 2], []⟩, none⟩ = getJsonData ⟨some ⟨[0, 3], []⟩, none⟩ := rfl

/-- A stored matrix with two rows of two elements. -/
example : (getJsonData ⟨some ⟨[2, 2], [.fin 1, .fin 2, .fin 3, .fin 4]⟩, some ⟨[2], [.fin 5, .nan]⟩⟩)
    = (some (.list [.list [.value (.fin 1), .value (.fin 2)], .list [.value (.fin 3), .value (.fin 4)]]),
      some (.list [.value (.fin 5), .value .nan]), "") := rfl

/-- **C124** After training of a model that stores what it is given, the elements are those of the training data, whatever was trained
before. -/
theorem C124_trained (X y : Tensor Fl) (hX : X.data.length = X.shape.prod) (hy : y.data.length = y.shape.prod) (s : Stored)
    (h : (storing.train X y s).1 = .ok ()) :
    ∃ lX ly, getJsonData (storing.train X y s).2 = (some lX, some ly, "") ∧ (∀ idx, lX.at idx = X.get idx) ∧
      ∀ idx, ly.at idx = y.get idx := by
  have hs : (storing.train X y s).2 = ⟨some X, some y⟩ := by
    rcases checkShapesTrain_iff (fun X y (_ : Stored) => ((.ok (), ⟨some X, some y⟩) : Step Stored Unit)) X y s with ⟨h1, -⟩ | ⟨⟨e, h1⟩, -⟩
    · have : storing.train X y s = _ := h1
      rw [this]
    · have : storing.train X y s = _ := h1
      rw [this] at h
      simp at h
  rw [hs]
  exact ⟨_, _, rfl, tolist_at _ _ hX, tolist_at _ _ hy⟩

example : (storing.train ⟨[2, 1], [.fin 1, .fin 2]⟩ ⟨[2], [.fin 3, .fin 4]⟩ {}).1 = .ok () := rfl

end PySGMCMC.BaseModel
