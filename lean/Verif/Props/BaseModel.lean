import Verif.Lemmas.BaseModel
import Mathlib.Tactic.NormNum

/-!
# Properties of `pysgmcmc/models/base_model.py`

C53 zero mean / unit variance normalization, C54 zero-one normalization, C55 the incumbent,
C56 `update` retrains on everything seen so far.
-/

namespace PySGMCMC.BaseModel
open Spec

variable {ι : Type}

/-- A matrix of ordinary numbers. -/
def lift (X : List (ι → ℝ)) : Rows ι := X.map fun r j => .fin (r j)

/-- Column `j` takes two different values. -/
def NonConstant (X : List (ι → ℝ)) (j : ι) : Prop := ∃ r ∈ X, ∃ s ∈ X, r j ≠ s j

/-- The numbers in column `j`. -/
def col (X : List (ι → ℝ)) (j : ι) : List ℝ := X.map (· j)

theorem column_lift (X : List (ι → ℝ)) (j : ι) : column (lift X) j = (col X j).map .fin := by
  simp [column, lift, col, Function.comp_def]

theorem nonConstant_ne_nil {X : List (ι → ℝ)} {j : ι} (h : NonConstant X j) : X ≠ [] := by
  obtain ⟨r, hr, -⟩ := h
  exact List.ne_nil_of_mem hr

theorem nonConstant_var {X : List (ι → ℝ)} {j : ι} (h : NonConstant X j) : 0 < var (col X j) := by
  obtain ⟨r, hr, s, hs, hne⟩ := h
  refine lt_of_le_of_ne (var_nonneg _) fun h0 => hne ?_
  exact (var_eq_zero_iff _).1 h0.symm _ (List.mem_map.2 ⟨r, hr, rfl⟩) _ (List.mem_map.2 ⟨s, hs, rfl⟩)

theorem constant_var {X : List (ι → ℝ)} {j : ι} (h : ¬ NonConstant X j) : var (col X j) = 0 := by
  rw [var_eq_zero_iff]
  intro x hx y hy
  obtain ⟨r, hr, rfl⟩ := List.mem_map.1 hx
  obtain ⟨s, hs, rfl⟩ := List.mem_map.1 hy
  by_contra hne
  exact h ⟨r, hr, s, hs, hne⟩

theorem meanAxis0_lift {X : List (ι → ℝ)} (h : X ≠ []) (j : ι) : meanAxis0 (lift X) j = .fin (avg (col X j)) := by
  rw [meanAxis0, column_lift, Fl.mean_map_fin (by simpa [col] using h)]
  rfl

theorem stdAxis0_lift {X : List (ι → ℝ)} (h : X ≠ []) (j : ι) :
    stdAxis0 (lift X) j = .fin (Real.sqrt (var (col X j))) := by
  rw [stdAxis0, column_lift, Fl.std_map_fin (by simpa [col] using h)]

theorem column_map (X : List (ι → ℝ)) (f : (ι → Fl) → ι → Fl) (j : ι) (g : ℝ → Fl)
    (h : ∀ r ∈ X, f (fun k => .fin (r k)) j = g (r j)) : column ((lift X).map f) j = (col X j).map g := by
  simp only [column, lift, col, List.map_map]
  apply List.map_congr_left
  intro r hr
  exact h r hr

/-! ## C53 -/

/-- **C53** A non-constant column is mapped to ordinary numbers with mean 0 and population variance 1; the returned
mean and standard deviation are those of the data, and element `i` of the column is `(x_i - mean) / std`. -/
theorem C53_normalize (X : List (ι → ℝ)) (j : ι) (h : NonConstant X j) :
    ∃ (c : List ℝ) (m s : ℝ), column (zeroMeanUnitVarNormalization (lift X) none none).1 j = c.map .fin ∧
      (zeroMeanUnitVarNormalization (lift X) none none).2.1 j = .fin m ∧
      (zeroMeanUnitVarNormalization (lift X) none none).2.2 j = .fin s ∧
      m = avg (col X j) ∧ 0 < s ∧ s ^ 2 = var (col X j) ∧
      c = (col X j).map (fun x => (x - m) / s) ∧ avg c = 0 ∧ var c = 1 := by
  have hne := nonConstant_ne_nil h
  have hv := nonConstant_var h
  have hs := Real.sqrt_pos.2 hv
  have hcol : col X j ≠ [] := by simpa [col] using hne
  have haff : (col X j).map (fun x => (x - avg (col X j)) / Real.sqrt (var (col X j))) =
      (col X j).map fun x => (1 / Real.sqrt (var (col X j))) * x + -(avg (col X j) / Real.sqrt (var (col X j))) := by
    apply List.map_congr_left
    intro x _
    ring
  refine ⟨(col X j).map (fun x => (x - avg (col X j)) / Real.sqrt (var (col X j))), _, _, ?_, ?_, ?_, rfl, hs,
    Real.sq_sqrt hv.le, rfl, ?_, ?_⟩
  · rw [zeroMeanUnitVarNormalization, List.map_map]
    refine column_map X _ j _ ?_
    intro r _
    simp only [standardize, Option.getD_none, meanAxis0_lift hne, stdAxis0_lift hne, Fl.sub_fin]
    rw [Fl.div_fin hs.ne']
    rfl
  · exact meanAxis0_lift hne j
  · exact stdAxis0_lift hne j
  · rw [haff, avg_affine hcol]
    ring
  · rw [haff, var_affine hcol, div_pow, Real.sq_sqrt hv.le]
    field_simp

/-- **C53** `zero_mean_unit_var_unnormalization` with the returned mean and standard deviation recovers every
non-constant column exactly. -/
theorem C53_roundtrip (X : List (ι → ℝ)) (j : ι) (h : NonConstant X j) :
    column (zeroMeanUnitVarUnnormalization (zeroMeanUnitVarNormalization (lift X) none none).1
      (zeroMeanUnitVarNormalization (lift X) none none).2.1
      (zeroMeanUnitVarNormalization (lift X) none none).2.2) j = column (lift X) j := by
  have hne := nonConstant_ne_nil h
  have hs := Real.sqrt_pos.2 (nonConstant_var h)
  rw [column_lift, zeroMeanUnitVarUnnormalization, zeroMeanUnitVarNormalization, List.map_map]
  refine column_map X _ j _ ?_
  intro r _
  simp only [Function.comp, standardize, unstandardize, Option.getD_none, meanAxis0_lift hne, stdAxis0_lift hne, Fl.sub_fin]
  rw [Fl.div_fin hs.ne', Fl.mul_fin, Fl.add_fin, Fl.fin_inj]
  field_simp
  ring

/-- **C53** A constant column becomes `NaN` in every row. -/
theorem C53_constant (X : List (ι → ℝ)) (j : ι) (h : ¬ NonConstant X j) :
    ∀ v ∈ column (zeroMeanUnitVarNormalization (lift X) none none).1 j, v = .nan := by
  by_cases hne : X = []
  · subst hne; simp [zeroMeanUnitVarNormalization, column, lift]
  have hv := constant_var h
  have hall : ∀ r ∈ X, r j = avg (col X j) := by
    intro r hr
    have hc := (var_eq_zero_iff _).1 hv
    have hlen : (X.length : ℝ) ≠ 0 := by simpa using hne
    have : col X j = List.replicate X.length (r j) := by
      have := List.eq_replicate_of_mem (l := col X j) (a := r j) fun x hx => hc x hx _ (List.mem_map.2 ⟨r, hr, rfl⟩)
      simpa [col] using this
    rw [avg, this]
    simp
    field_simp
  have : column (zeroMeanUnitVarNormalization (lift X) none none).1 j = (col X j).map fun _ => .nan := by
    rw [zeroMeanUnitVarNormalization]
    refine column_map X _ j _ ?_
    intro r hr
    simp only [standardize, Option.getD_none, meanAxis0_lift hne, stdAxis0_lift hne, Fl.sub_fin, hv, Real.sqrt_zero,
      hall r hr, sub_self]
    simp [Fl.div_fin', Fl.infOf]
  rw [this]
  intro v hv
  obtain ⟨_, -, rfl⟩ := List.mem_map.1 hv
  rfl

/-- **C53** With a given mean and a given non-zero scale (as `predict` does with the training statistics) the data
is mapped by `(x - mean) / std` and recovered by the inverse; the given values are returned. -/
theorem C53_given (X : List (ι → ℝ)) (m s : ι → ℝ) (hs : ∀ j, s j ≠ 0) :
    zeroMeanUnitVarNormalization (lift X) (some fun j => .fin (m j)) (some fun j => .fin (s j)) =
      (lift (X.map fun r j => (r j - m j) / s j), (fun j => .fin (m j)), fun j => .fin (s j)) ∧
    zeroMeanUnitVarUnnormalization (lift (X.map fun r j => (r j - m j) / s j)) (fun j => .fin (m j))
      (fun j => .fin (s j)) = lift X := by
  constructor
  · simp only [zeroMeanUnitVarNormalization, Option.getD_some, lift, List.map_map, Prod.mk.injEq, and_true]
    apply List.map_congr_left
    intro r _
    funext j
    simp only [Function.comp, standardize, unstandardize, Fl.sub_fin]
    rw [Fl.div_fin (hs j)]
  · simp only [zeroMeanUnitVarUnnormalization, lift, List.map_map]
    apply List.map_congr_left
    intro r _
    funext j
    have := hs j
    simp only [Function.comp, standardize, unstandardize, Fl.mul_fin, Fl.add_fin, Fl.fin_inj]
    field_simp
    ring

/-! ## C54 -/

theorem minAxis0_lift {X : List (ι → ℝ)} (h : X ≠ []) :
    ∃ lo : ι → ℝ, minAxis0 (lift X) = .ok (fun j => .fin (lo j)) ∧ ∀ j, (∃ r ∈ X, r j = lo j) ∧ ∀ r ∈ X, lo j ≤ r j := by
  have key : ∀ j, ∃ m, Fl.listMin (column (lift X) j) = some (.fin m) ∧ (∃ r ∈ X, r j = m) ∧ ∀ r ∈ X, m ≤ r j := by
    intro j
    obtain ⟨m, h1, h2, h3⟩ := Fl.listMin_map_fin (l := col X j) (by simpa [col] using h)
    refine ⟨m, by rw [column_lift, h1], ?_, fun r hr => h3 _ (List.mem_map.2 ⟨r, hr, rfl⟩)⟩
    obtain ⟨r, hr, he⟩ := List.mem_map.1 h2
    exact ⟨r, hr, he⟩
  choose lo h1 h2 using key
  refine ⟨lo, ?_, h2⟩
  obtain ⟨a, xs, rfl⟩ := List.exists_cons_of_ne_nil h
  show Except.ok _ = _
  congr 1
  funext j
  show (Fl.listMin (column (lift (a :: xs)) j)).getD .nan = _
  rw [h1 j]
  rfl

theorem maxAxis0_lift {X : List (ι → ℝ)} (h : X ≠ []) :
    ∃ hi : ι → ℝ, maxAxis0 (lift X) = .ok (fun j => .fin (hi j)) ∧ ∀ j, (∃ r ∈ X, r j = hi j) ∧ ∀ r ∈ X, r j ≤ hi j := by
  have key : ∀ j, ∃ m, Fl.listMax (column (lift X) j) = some (.fin m) ∧ (∃ r ∈ X, r j = m) ∧ ∀ r ∈ X, r j ≤ m := by
    intro j
    obtain ⟨m, h1, h2, h3⟩ := Fl.listMax_map_fin (l := col X j) (by simpa [col] using h)
    refine ⟨m, by rw [column_lift, h1], ?_, fun r hr => h3 _ (List.mem_map.2 ⟨r, hr, rfl⟩)⟩
    obtain ⟨r, hr, he⟩ := List.mem_map.1 h2
    exact ⟨r, hr, he⟩
  choose hi h1 h2 using key
  refine ⟨hi, ?_, h2⟩
  obtain ⟨a, xs, rfl⟩ := List.exists_cons_of_ne_nil h
  show Except.ok _ = _
  congr 1
  funext j
  show (Fl.listMax (column (lift (a :: xs)) j)).getD .nan = _
  rw [h1 j]
  rfl

/-- **C54** For a matrix with at least one row `zero_one_normalization` returns the column minima and maxima.  In a
non-constant column every row is mapped to a number in `[0, 1]`, both ends are attained, the order of the rows is
preserved and reflected, and `zero_one_unnormalization` recovers the column exactly.  A constant column becomes
`NaN`. -/
theorem C54_normalize (X : List (ι → ℝ)) (h : X ≠ []) :
    ∃ (N : Rows ι) (lo hi : ι → ℝ),
      zeroOneNormalization (lift X) none none = .ok (N, (fun j => .fin (lo j)), fun j => .fin (hi j)) ∧
      (∀ j, (∃ r ∈ X, r j = lo j) ∧ (∃ r ∈ X, r j = hi j) ∧ ∀ r ∈ X, lo j ≤ r j ∧ r j ≤ hi j) ∧
      (∀ j, NonConstant X j → ∃ f : ℝ → ℝ, column N j = (col X j).map (fun x => .fin (f x)) ∧
        (∀ x ∈ col X j, 0 ≤ f x ∧ f x ≤ 1) ∧ (∃ x ∈ col X j, f x = 0) ∧ (∃ x ∈ col X j, f x = 1) ∧
        (∀ x y, f x ≤ f y ↔ x ≤ y) ∧
        column (zeroOneUnnormalization N (fun j => .fin (lo j)) fun j => .fin (hi j)) j = column (lift X) j) ∧
      (∀ j, ¬ NonConstant X j → ∀ v ∈ column N j, v = .nan) := by
  obtain ⟨lo, hlo, hlo'⟩ := minAxis0_lift h
  obtain ⟨hi, hhi, hhi'⟩ := maxAxis0_lift h
  refine ⟨(lift X).map fun row j => (row j - .fin (lo j)) / (.fin (hi j) - .fin (lo j)), lo, hi, ?_, ?_, ?_, ?_⟩
  · simp only [zeroOneNormalization, givenOr, hlo, hhi]
  · exact fun j => ⟨(hlo' j).1, (hhi' j).1, fun r hr => ⟨(hlo' j).2 r hr, (hhi' j).2 r hr⟩⟩
  · intro j hj
    have hlt : lo j < hi j := by
      obtain ⟨r, hr, s, hs, hne⟩ := hj
      have h1 := (hlo' j).2 r hr
      have h2 := (hlo' j).2 s hs
      have h3 := (hhi' j).2 r hr
      have h4 := (hhi' j).2 s hs
      rcases lt_or_gt_of_ne hne with h | h <;> linarith
    have hd : 0 < hi j - lo j := by linarith
    refine ⟨fun x => (x - lo j) / (hi j - lo j), ?_, ?_, ?_, ?_, ?_, ?_⟩
    · refine column_map X _ j _ ?_
      intro r _
      simp only [Fl.sub_fin]
      rw [Fl.div_fin hd.ne']
    · intro x hx
      obtain ⟨r, hr, rfl⟩ := List.mem_map.1 hx
      have h1 := (hlo' j).2 r hr
      have h2 := (hhi' j).2 r hr
      exact ⟨div_nonneg (by linarith) hd.le, (div_le_one hd).2 (by linarith)⟩
    · obtain ⟨r, hr, he⟩ := (hlo' j).1
      exact ⟨r j, List.mem_map.2 ⟨r, hr, rfl⟩, by simp [he]⟩
    · obtain ⟨r, hr, he⟩ := (hhi' j).1
      exact ⟨r j, List.mem_map.2 ⟨r, hr, rfl⟩, by simp only [he]; exact div_self hd.ne'⟩
    · intro x y
      rw [div_le_div_iff_of_pos_right hd]
      constructor <;> intro <;> linarith
    · rw [column_lift, zeroOneUnnormalization, List.map_map]
      refine column_map X _ j _ ?_
      intro r _
      simp only [Function.comp, Fl.sub_fin]
      rw [Fl.div_fin hd.ne', Fl.mul_fin, Fl.add_fin, Fl.fin_inj]
      field_simp
      ring
  · intro j hj v hv
    obtain ⟨row, hrow, rfl⟩ := List.mem_map.1 hv
    obtain ⟨row', hrow', rfl⟩ := List.mem_map.1 hrow
    obtain ⟨r, hr, rfl⟩ := List.mem_map.1 hrow'
    have heq : ∀ s ∈ X, s j = r j := by
      intro s hs
      by_contra hne
      exact hj ⟨s, hs, r, hr, hne⟩
    obtain ⟨a, ha, ha'⟩ := (hlo' j).1
    obtain ⟨b, hb, hb'⟩ := (hhi' j).1
    rw [heq a ha] at ha'
    rw [heq b hb] at hb'
    simp only [← ha', ← hb', Fl.sub_fin, sub_self]
    simp [Fl.div_fin', Fl.infOf]

/-- **C54** Without rows the minimum does not exist: `ValueError`. -/
theorem C54_empty (upper : Option (ι → Fl)) : zeroOneNormalization ([] : Rows ι) none upper = .error (.value "min") := rfl

/-- **C54** With given bounds `lower ≠ upper` the data is mapped by `(x - lower) / (upper - lower)`, which the
unnormalization inverts; the given bounds are returned and the data's own range plays no role. -/
theorem C54_given (X : List (ι → ℝ)) (lo hi : ι → ℝ) (hne : ∀ j, lo j ≠ hi j) :
    zeroOneNormalization (lift X) (some fun j => .fin (lo j)) (some fun j => .fin (hi j)) =
      .ok (lift (X.map fun r j => (r j - lo j) / (hi j - lo j)), (fun j => .fin (lo j)), fun j => .fin (hi j)) ∧
    zeroOneUnnormalization (lift (X.map fun r j => (r j - lo j) / (hi j - lo j))) (fun j => .fin (lo j))
      (fun j => .fin (hi j)) = lift X := by
  have hd : ∀ j, hi j - lo j ≠ 0 := fun j => sub_ne_zero.2 (hne j).symm
  constructor
  · simp only [zeroOneNormalization, givenOr, lift, List.map_map, Except.ok.injEq, Prod.mk.injEq, and_true]
    apply List.map_congr_left
    intro r _
    funext j
    simp only [Function.comp, Fl.sub_fin]
    rw [Fl.div_fin (hd j)]
  · simp only [zeroOneUnnormalization, lift, List.map_map]
    apply List.map_congr_left
    intro r _
    funext j
    have := hd j
    simp only [Function.comp, Fl.sub_fin, Fl.mul_fin, Fl.add_fin, Fl.fin_inj]
    field_simp
    ring

/-- Two rows, the first column varies, the second is constant. -/
example : NonConstant [![(1 : ℝ), 5], ![3, 5]] 0 ∧ ¬ NonConstant [![(1 : ℝ), 5], ![3, 5]] 1 := by
  constructor
  · exact ⟨![1, 5], by simp, ![3, 5], by simp, by simp⟩
  · rintro ⟨r, hr, s, hs, hne⟩
    simp only [List.mem_cons, List.not_mem_nil, or_false] at hr hs
    rcases hr with rfl | rfl <;> rcases hs with rfl | rfl <;> simp at hne

/-! ## C55 -/

/-- The element of a one-dimensional array. -/
theorem get_vector (n : Nat) (d : List Fl) (i : Nat) (hi : i < n) : (⟨[n], d⟩ : Tensor Fl).get [i] = d[i]? := by
  simp [Tensor.get, Tensor.validIdx, Tensor.offset, hi]

/-- The rows of an array: every element of `a[i]` is the element of `a` with `i` in front of the index. -/
theorem subarray_get (n : Nat) (ds : List Nat) (d : List Fl) (i : Nat) (hi : i < n) :
    ∃ t, subarray ⟨n :: ds, d⟩ i = .ok t ∧ t.shape = ds ∧ ∀ idx, t.get idx = (⟨n :: ds, d⟩ : Tensor Fl).get (i :: idx) := by
  refine ⟨⟨ds, (d.drop (i * ds.prod)).take ds.prod⟩, by simp [subarray, hi], rfl, ?_⟩
  intro idx
  have hoff : ∀ (ds idx : List Nat), Tensor.validIdx ds idx = true → Tensor.offset ds idx < ds.prod := by
    intro ds
    induction ds with
    | nil => intro idx h; cases idx <;> simp_all [Tensor.validIdx, Tensor.offset]
    | cons a as ih =>
      intro idx h
      cases idx with
      | nil => simp [Tensor.validIdx] at h
      | cons b bs =>
        simp only [Tensor.validIdx, Bool.and_eq_true, decide_eq_true_eq] at h
        have := ih bs h.2
        simp only [Tensor.offset, List.prod_cons]
        calc b * as.prod + Tensor.offset as bs < b * as.prod + as.prod := by omega
          _ = (b + 1) * as.prod := by ring
          _ ≤ a * as.prod := Nat.mul_le_mul_right _ h.1
  simp only [Tensor.get, Tensor.validIdx, hi, decide_true, Bool.true_and]
  split
  · rename_i hv
    have := hoff ds idx hv
    rw [List.getElem?_take_of_lt this, List.getElem?_drop]
    rfl
  · rfl

/-- **C55** With `N ≥ 1` stored points and values, `get_incumbent` returns the stored point and the stored value at one
index `i`.  If no stored value is `NaN`, that value is minimal among all stored values and every earlier value is
strictly larger.  If some stored value is `NaN`, the first `NaN` observation is returned. -/
theorem C55_incumbent (N : Nat) (ds : List Nat) (xd yd : List Fl) (hN : 0 < N) (hy : yd.length = N) :
    ∃ (i : Nat) (v : Fl) (x y : Tensor Fl), i < N ∧
      getIncumbent ⟨some ⟨N :: ds, xd⟩, some ⟨[N], yd⟩⟩ = .ok (x, y) ∧
      x.shape = ds ∧ (∀ idx, x.get idx = (⟨N :: ds, xd⟩ : Tensor Fl).get (i :: idx)) ∧
      y.shape = [] ∧ y.get [] = some v ∧ (⟨[N], yd⟩ : Tensor Fl).get [i] = some v ∧
      (.nan ∉ yd → ∀ (j : Nat) (w : Fl), (⟨[N], yd⟩ : Tensor Fl).get [j] = some w →
        w.lt v = false ∧ (j < i → v.lt w = true)) ∧
      (.nan ∈ yd → v = .nan ∧ ∀ j : Nat, j < i → (⟨[N], yd⟩ : Tensor Fl).get [j] ≠ some .nan) := by
  have hne : yd ≠ [] := by rintro rfl; simp at hy; omega
  obtain ⟨i, v, h1, h2, h3, h4⟩ := Fl.argmin_spec hne
  have hi : i < N := by rw [← hy]; exact (List.getElem?_eq_some_iff.1 h2).1
  obtain ⟨x, hx1, hx2, hx3⟩ := subarray_get N ds xd i hi
  obtain ⟨y, hy1, hy2, hy3⟩ := subarray_get N [] yd i hi
  have hget : ∀ (j : Nat) (w : Fl), (⟨[N], yd⟩ : Tensor Fl).get [j] = some w → yd[j]? = some w := by
    intro j w hw
    by_cases hj : j < N
    · rwa [get_vector _ _ _ hj] at hw
    · simp [Tensor.get, Tensor.validIdx, hj] at hw
  refine ⟨i, v, x, y, hi, ?_, hx2, hx3, hy2, ?_, ?_, ?_, ?_⟩
  · simp [getIncumbent, argminOf, itemOf, h1, hx1, hy1]
  · rw [hy3, get_vector _ _ _ hi, h2]
  · rw [get_vector _ _ _ hi, h2]
  · intro hn j w hw
    have hv : v.isNan = false := by
      cases v <;> simp [Fl.isNan]
      exact hn (List.mem_of_getElem? h2)
    exact (h4 hv j w (hget j w hw)).2
  · intro hn
    have hv : v = .nan := by
      obtain ⟨k, hk⟩ := List.getElem?_of_mem hn
      cases hvn : v.isNan with
      | true => cases v <;> simp_all [Fl.isNan]
      | false => have := (h4 hvn k _ hk).1; simp [Fl.isNan] at this
    refine ⟨hv, fun j hj hw => ?_⟩
    have := h3 (by rw [hv]; rfl) j _ hj (hget j _ hw)
    simp [Fl.isNan] at this

/-- **C55** Before any data is stored, and for an empty data set, `get_incumbent` fails. -/
theorem C55_empty : getIncumbent {} = .error .type ∧
    ∀ X : Option (Tensor Fl), getIncumbent ⟨X, some ⟨[0], []⟩⟩ = .error (.value "argmin") := by
  exact ⟨rfl, fun _ => rfl⟩

/-- Three points; the second and third tie and the second is returned. -/
example : getIncumbent ⟨some ⟨[3, 1], [.fin 10, .fin 20, .fin 30]⟩, some ⟨[3], [.fin 2, .fin 1, .fin 1]⟩⟩ =
    .ok (⟨[1], [.fin 20]⟩, ⟨[], [.fin 1]⟩) := by
  have : Fl.argmin [.fin 2, .fin 1, .fin 1] = .ok 1 := by
    simp [Fl.argmin, Fl.argminFrom, Fl.isNan]
  simp [getIncumbent, argminOf, itemOf, this, subarray, List.take]

/-! ## C56 -/

/-- The subclass contract: a successful `train` leaves exactly its arguments in `self.X`, `self.y`. -/
def StoresData {σ : Type} (C : Subclass σ) : Prop :=
  ∀ X y s, (C.train X y s).1 = .ok () → C.stored (C.train X y s).2 = ⟨some X, some y⟩

/-- A sequence of `update` calls that all succeed. -/
inductive Updates {σ : Type} (C : Subclass σ) : σ → List (Tensor Fl × Tensor Fl) → σ → Prop
  | nil (s : σ) : Updates C s [] s
  | snoc {s s' : σ} {l : List (Tensor Fl × Tensor Fl)} (X y : Tensor Fl) (h : Updates C s l s')
      (ok : (update C X y s').1 = .ok ()) : Updates C s (l ++ [(X, y)]) (update C X y s').2

/-- All points (first components) and labels of a list of data sets with a common trailing shape, one after the
other. -/
def concatData (ds : List Nat) (l : List (Tensor Fl)) : Tensor Fl :=
  ⟨(l.map fun t => t.shape.headD 0).sum :: ds, (l.map (·.data)).flatten⟩

/-- `np.append` along axis 0 of two arrays of the same trailing shape never fails. -/
theorem appendAxis0_ok (n m : Nat) (ds : List Nat) (a b : List Fl) :
    appendAxis0 (some ⟨n :: ds, a⟩) ⟨m :: ds, b⟩ = .ok ⟨(n + m) :: ds, a ++ b⟩ := by
  simp [appendAxis0]

/-- **C56** One `update`: after a training on `(X0, y0)`, `update(X, y)` behaves exactly as `train` on the
concatenation, whatever the subclass's `train` does with it. -/
theorem C56_update {σ : Type} (C : Subclass σ) (s : σ) (n m : Nat) (ds : List Nat) (a b ya yb : List Fl)
    (k l : Nat) (hs : C.stored s = ⟨some ⟨n :: ds, a⟩, some ⟨[k], ya⟩⟩) :
    update C ⟨m :: ds, b⟩ ⟨[l], yb⟩ s = C.train ⟨(n + m) :: ds, a ++ b⟩ ⟨[k + l], ya ++ yb⟩ s := by
  simp [update, hs, appendAxis0]

/-- What an `update` that gets as far as training passes to `train`. -/
theorem update_ok {σ : Type} (C : Subclass σ) (X y : Tensor Fl) (s : σ) (h : (update C X y s).1 = .ok ()) :
    ∃ X' y', appendAxis0 (C.stored s).X X = .ok X' ∧ appendAxis0 (C.stored s).y y = .ok y' ∧
      update C X y s = C.train X' y' s := by
  unfold update at h ⊢
  split at h
  · cases h
  · split at h
    · cases h
    · rename_i X' hX _ y' hy
      refine ⟨X', y', hX, hy, ?_⟩
      simp only [hX, hy]

theorem appendAxis0_eq {n : Nat} {ds : List Nat} {a : List Fl} {b t : Tensor Fl}
    (h : appendAxis0 (some ⟨n :: ds, a⟩) b = .ok t) :
    t = ⟨(n + b.shape.headD 0) :: ds, a ++ b.data⟩ := by
  obtain ⟨sb, db⟩ := b
  cases sb with
  | nil => simp [appendAxis0] at h
  | cons m es =>
    simp only [appendAxis0] at h
    split at h
    · cases h; rfl
    · cases h

/-- **C56** After `train(X0, y0)` and any sequence of updates that succeeded, the model is trained on — its last `train`
call received, and it stores — the concatenation of all the data in order. -/
theorem C56_history {σ : Type} (C : Subclass σ) (hC : StoresData C) (n k : Nat) (ds : List Nat) (x0 y0 : List Fl)
    (s : σ) (h0 : (C.train ⟨n :: ds, x0⟩ ⟨[k], y0⟩ s).1 = .ok ()) (l : List (Tensor Fl × Tensor Fl)) (s' : σ)
    (hl : Updates C (C.train ⟨n :: ds, x0⟩ ⟨[k], y0⟩ s).2 l s') :
    ∃ sPrev, s' = (C.train (concatData ds (⟨n :: ds, x0⟩ :: l.map (·.1))) (concatData [] (⟨[k], y0⟩ :: l.map (·.2))) sPrev).2 ∧
      C.stored s' = ⟨some (concatData ds (⟨n :: ds, x0⟩ :: l.map (·.1))), some (concatData [] (⟨[k], y0⟩ :: l.map (·.2)))⟩ := by
  generalize hst : (C.train ⟨n :: ds, x0⟩ ⟨[k], y0⟩ s).2 = st at hl
  induction hl with
  | nil =>
    subst hst
    refine ⟨s, by simp [concatData], ?_⟩
    rw [hC _ _ _ h0]
    simp [concatData]
  | @snoc sp l X y hprev ok ih =>
    obtain ⟨_, -, ihs⟩ := ih
    obtain ⟨X', y', hX, hy, hu⟩ := update_ok C X y _ ok
    rw [ihs] at hX hy
    have hX' := appendAxis0_eq hX
    have hy' := appendAxis0_eq hy
    have e1 : X' = concatData ds (⟨n :: ds, x0⟩ :: (l.map (·.1) ++ [X])) := by
      rw [hX']; simp [concatData, Nat.add_assoc]
    have e2 : y' = concatData [] (⟨[k], y0⟩ :: (l.map (·.2) ++ [y])) := by
      rw [hy']; simp [concatData, Nat.add_assoc]
    refine ⟨sp, ?_, ?_⟩
    · rw [hu, List.map_append, List.map_append, e1, e2]; rfl
    · rw [hu] at ok ⊢
      rw [hC _ _ _ ok, List.map_append, List.map_append, e1, e2]; rfl

/-- **C56** `update` before any training fails with `ValueError` and changes nothing; so does an update with another
number of columns. -/
theorem C56_update_errors {σ : Type} (C : Subclass σ) (X y : Tensor Fl) (s : σ) :
    ((C.stored s).X = none → update C X y s = (.error (.value "concatenate"), s)) ∧
    (∀ n m ds es a b, (C.stored s).X = some ⟨n :: ds, a⟩ → X = ⟨m :: es, b⟩ → ds ≠ es →
      update C X y s = (.error (.value "concatenate"), s)) := by
  constructor
  · intro h; simp [update, h, appendAxis0]
  · rintro n m ds es a b h rfl hne; simp [update, h, appendAxis0, hne]

/-- A minimal subclass: `train` (decorated with `_check_shapes_train`) stores its arguments. -/
def storing : Subclass Stored := ⟨id, checkShapesTrain fun X y _ => (.ok (), ⟨some X, some y⟩)⟩

/-- The contract of C56 is satisfiable, and the decorated `train` accepts exactly matrices with one label per row. -/
theorem checkShapesTrain_iff {σ α : Type} (f : Tensor Fl → Tensor Fl → σ → Step σ α) (X y : Tensor Fl) (s : σ) :
    (checkShapesTrain f X y s = f X y s ∧ ∃ n d, X.shape = [n, d] ∧ y.shape = [n]) ∨
    ((∃ e, checkShapesTrain f X y s = (.error e, s)) ∧ ¬ ∃ n d, X.shape = [n, d] ∧ y.shape = [n]) := by
  obtain ⟨sx, dx⟩ := X
  obtain ⟨sy, dy⟩ := y
  match sx, sy with
  | [], _ => right; simp [checkShapesTrain, shape0]
  | _ :: _, [] => right; simp [checkShapesTrain, shape0]
  | n :: ds, m :: es =>
    match ds, es with
    | [d], [] =>
      by_cases h : n = m
      · left; simp [checkShapesTrain, shape0, h]
      · right
        refine ⟨⟨.assertion, by simp [checkShapesTrain, shape0, h]⟩, ?_⟩
        rintro ⟨a, b, h1, h2⟩
        simp only [List.cons.injEq, and_true] at h1 h2
        exact h (h1.1.trans h2.symm)
    | [], _ => right; refine ⟨⟨.assertion, by simp [checkShapesTrain, shape0]⟩, by simp⟩
    | _ :: _ :: _, _ => right; refine ⟨⟨.assertion, by simp [checkShapesTrain, shape0]⟩, by simp⟩
    | [_], _ :: _ => right; refine ⟨⟨.assertion, by simp [checkShapesTrain, shape0]⟩, by simp⟩

theorem storing_stores : StoresData storing := by
  intro X y s h
  rcases checkShapesTrain_iff (fun X y (_ : Stored) => ((.ok (), ⟨some X, some y⟩) : Step Stored Unit)) X y s with ⟨h1, -⟩ | ⟨⟨e, h1⟩, -⟩
  · show (checkShapesTrain _ X y s).2 = _
    rw [h1]
  · have : (checkShapesTrain (fun X y (_ : Stored) => ((.ok (), ⟨some X, some y⟩) : Step Stored Unit)) X y s).1 = .ok () := h
    rw [h1] at this
    cases this

/-- **C56** For a subclass that stores what it is trained on, no update with matching shapes fails: every sequence of
data sets with one label per row and the same number of columns runs through. -/
theorem C56_succeeds (d : Nat) (l : List (Nat × List Fl × List Fl)) (n : Nat) (x0 y0 : List Fl) (s : Stored) :
    ∃ s', Updates storing (storing.train ⟨[n, d], x0⟩ ⟨[n], y0⟩ s).2
      (l.map fun e => (⟨[e.1, d], e.2.1⟩, ⟨[e.1], e.2.2⟩)) s' ∧
      ∃ N xd yd, storing.stored s' = ⟨some ⟨[N, d], xd⟩, some ⟨[N], yd⟩⟩ := by
  induction l using List.reverseRecOn with
  | nil => exact ⟨_, .nil _, n, x0, y0, by simp [storing, checkShapesTrain, shape0]⟩
  | append_singleton l e ih =>
    obtain ⟨s', h, N, xd, yd, hs⟩ := ih
    have hu := C56_update storing s' N e.1 [d] xd e.2.1 yd e.2.2 N e.1 hs
    rw [List.map_append]
    refine ⟨_, .snoc _ _ h ?_, N + e.1, xd ++ e.2.1, yd ++ e.2.2, ?_⟩
    · show (update storing _ _ s').1 = _
      rw [hu]
      simp [storing, checkShapesTrain, shape0]
    · show storing.stored (update storing _ _ s').2 = _
      rw [hu]
      simp [storing, checkShapesTrain, shape0]

/-- Training on two rows, then an update with one row. -/
example : update storing ⟨[1, 1], [.fin 3]⟩ ⟨[1], [.fin 30]⟩
      (storing.train ⟨[2, 1], [.fin 1, .fin 2]⟩ ⟨[2], [.fin 10, .fin 20]⟩ {}).2 =
    (.ok (), ⟨some ⟨[3, 1], [.fin 1, .fin 2, .fin 3]⟩, some ⟨[3], [.fin 10, .fin 20, .fin 30]⟩⟩) := by
  simp [update, storing, checkShapesTrain, shape0, appendAxis0]

end PySGMCMC.BaseModel
