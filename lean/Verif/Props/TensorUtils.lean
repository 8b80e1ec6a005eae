import Verif.Lemmas.TensorUtils
import Mathlib.Analysis.InnerProductSpace.PiL2
import Mathlib.Tactic.FieldSimp
import Mathlib.Tactic.Positivity

/-!
# C21–C27: `tensor_utils`
-/

namespace PySGMCMC.TensorUtils

/-! ## C21 -/

/-- C21 (round trip): vectorizing and unvectorizing with the original shape gives the tensor back. -/
theorem C21_roundtrip {α : Type} (t : Tensor α) (h : t.WF) :
    ∀ input, input = TfInput.tensor t ∨ input = TfInput.var t →
      ∃ v, vectorize input = .ok v ∧ unvectorize v t.shape = .ok t := by
  have hl : t.data.length = t.shape.prod := h
  rintro input (rfl | rfl) <;>
    exact ⟨⟨[t.shape.prod, 1], t.data⟩, by simp [vectorize, Tensor.reshape, hl],
      by simp [unvectorize, Tensor.reshape, hl]⟩

/-- C21 (row-major column): the vectorized tensor is a column whose entries are the elements of the tensor in
lexicographic order of their multi-indices. -/
theorem C21_rowMajor {α : Type} (t v : Tensor α) (h : t.WF) (input : TfInput α)
    (hi : input = .tensor t ∨ input = .var t) (hv : vectorize input = .ok v) :
    v.shape = [t.shape.prod, 1] ∧ v.WF
      ∧ (List.range t.shape.prod).map (fun k => v.get [k, 0]) = (lexIdx t.shape).map t.get := by
  have hl : t.data.length = t.shape.prod := h
  have hv' : v = ⟨[t.shape.prod, 1], t.data⟩ := by
    rcases hi with rfl | rfl <;> simp [vectorize, Tensor.reshape, hl] at hv <;> exact hv.symm
  subst hv'
  refine ⟨rfl, by simp [Tensor.WF, hl], ?_⟩
  rw [← data_eq_lexIdx t h]
  apply List.ext_getElem?
  intro k
  by_cases hk : k < t.shape.prod
  · simp [hk, Tensor.get, Tensor.validIdx, Tensor.offset, hl]
  · simp [hk, hl]

/-- C21 (failure): `unvectorize` fails exactly on a mismatch of the number of elements. -/
theorem C21_unvectorize_fails {α : Type} (t : Tensor α) (h : t.WF) (shape : List Nat) :
    (∃ e, unvectorize t shape = .error e) ↔ t.shape.prod ≠ shape.prod := by
  have hl : t.data.length = t.shape.prod := h
  by_cases hs : t.shape.prod = shape.prod <;> simp [unvectorize, Tensor.reshape, hl, hs]

/-- C21 (other inputs): `vectorize` raises `ValueError` exactly for arguments that are not tensors. -/
theorem C21_vectorize_rejects {α : Type} (input : TfInput α)
    (hwf : ∀ t, input = .tensor t ∨ input = .var t → t.WF) :
    (∃ e, vectorize input = .error e) ↔ input = .other ∧ vectorize input = .error (.value "vectorize") := by
  cases input with
  | other => simp [vectorize]
  | var t => have := hwf t (Or.inr rfl); unfold Tensor.WF at this; simp [vectorize, Tensor.reshape, this]
  | tensor t => have := hwf t (Or.inl rfl); unfold Tensor.WF at this; simp [vectorize, Tensor.reshape, this]

example : (⟨[2, 3], ["a", "b", "c", "d", "e", "f"]⟩ : Tensor String).WF := rfl
example : lexIdx [2, 3] = [[0, 0], [0, 1], [0, 2], [1, 0], [1, 1], [1, 2]] := rfl

/-! ## C22 -/

theorem topKAll_perm (l : List ℝ) : (topKAll l).Perm l := List.mergeSort_perm _ _

theorem topKAll_sorted (l : List ℝ) : (topKAll l).Pairwise (fun a b => b ≤ a) := by
  have := List.pairwise_mergeSort (le := fun a b : ℝ => decide (b ≤ a))
    (by intro a b c; simp only [decide_eq_true_eq]; exact fun h1 h2 => le_trans h2 h1)
    (by intro a b; simp only [Bool.or_eq_true, decide_eq_true_eq]; exact le_total b a) l
  exact this.imp (by simp)

theorem topKAll_eq (l s : List ℝ) (hp : s.Perm l) (hs : s.Pairwise (· ≤ ·)) : topKAll l = s.reverse := by
  apply List.Perm.eq_of_pairwise (le := fun a b => b ≤ a)
  · intro a b _ _ h1 h2; exact le_antisymm h2 h1
  · exact topKAll_sorted l
  · exact List.pairwise_reverse.2 hs
  · exact (topKAll_perm l).trans (hp.symm.trans (List.reverse_perm s).symm)

/-- C22 (order statistic): with `s` the elements in increasing order, the median is the middle element, or the mean
of the two middle elements. -/
theorem C22_order_statistic (t : Tensor ℝ) (s : List ℝ) (hp : s.Perm t.data) (hs : s.Pairwise (· ≤ ·))
    (hne : t.data ≠ []) :
    (s.length % 2 = 1 → median t = .ok (s.getD (s.length / 2) 0))
      ∧ (s.length % 2 = 0 → median t = .ok ((s.getD (s.length / 2 - 1) 0 + s.getD (s.length / 2) 0) / 2)) := by
  have hlen : s.length = t.data.length := hp.length_eq
  have hpos : 0 < s.length := by rw [hlen]; exact List.length_pos_iff.2 hne
  have htop := topKAll_eq t.data s hp hs
  constructor
  · intro hodd
    unfold median
    simp only [htop, ← hlen, hodd, if_true]
    rw [List.getElem?_reverse (by omega), show s.length - 1 - s.length / 2 = s.length / 2 by omega]
    simp [show s.length / 2 < s.length by omega]
  · intro heven
    unfold median
    simp only [htop, ← hlen, heven]
    rw [if_neg (by omega), if_neg (by omega), List.getElem?_reverse (by omega), List.getElem?_reverse (by omega),
      show s.length - 1 - s.length / 2 = s.length / 2 - 1 by omega,
      show s.length - 1 - (s.length / 2 - 1) = s.length / 2 by omega]
    have h1 : s.length / 2 < s.length := by omega
    have h2 : s.length / 2 - 1 < s.length := by omega
    simp [h1, h2, add_comm]

/-- C22 (order independence): the median depends on the multiset of elements only, not on their order or on the
shape. -/
theorem C22_order_independent (t u : Tensor ℝ) (h : t.data.Perm u.data) : median t = median u := by
  have h1 : topKAll t.data = topKAll u.data := by
    apply List.Perm.eq_of_pairwise (le := fun a b => b ≤ a)
    · intro a b _ _ h1 h2; exact le_antisymm h2 h1
    · exact topKAll_sorted _
    · exact topKAll_sorted _
    · exact (topKAll_perm _).trans (h.trans (topKAll_perm _).symm)
  unfold median
  rw [h1, h.length_eq]

theorem countP_le_of_sorted (s : List ℝ) (hs : s.Pairwise (· ≤ ·)) (q : Nat) (hq : q < s.length) (x : ℝ)
    (hx : s[q] ≤ x) : q + 1 ≤ s.countP (fun a => decide (a ≤ x)) := by
  have h1 : (s.take (q + 1)).countP (fun a => decide (a ≤ x)) = (s.take (q + 1)).length := by
    rw [List.countP_eq_length]
    intro a ha
    obtain ⟨i, hi, rfl⟩ := List.getElem_of_mem ha
    simp only [List.length_take] at hi
    simp only [List.getElem_take, decide_eq_true_eq]
    refine le_trans ?_ hx
    rcases Nat.lt_or_ge i q with h | h
    · exact List.pairwise_iff_getElem.1 hs i q (by omega) hq h
    · have : i = q := by omega
      subst this; exact le_rfl
  have h2 : (s.take (q + 1)).countP (fun a => decide (a ≤ x)) ≤ s.countP (fun a => decide (a ≤ x)) :=
    (List.take_sublist _ _).countP_le
  rw [h1, List.length_take] at h2
  omega

theorem countP_ge_of_sorted (s : List ℝ) (hs : s.Pairwise (· ≤ ·)) (q : Nat) (hq : q < s.length) (x : ℝ)
    (hx : x ≤ s[q]) : s.length - q ≤ s.countP (fun a => decide (x ≤ a)) := by
  have h1 : (s.drop q).countP (fun a => decide (x ≤ a)) = (s.drop q).length := by
    rw [List.countP_eq_length]
    intro a ha
    obtain ⟨i, hi, rfl⟩ := List.getElem_of_mem ha
    simp only [List.length_drop] at hi
    simp only [List.getElem_drop, decide_eq_true_eq]
    refine le_trans hx ?_
    rcases Nat.eq_zero_or_pos i with h | h
    · subst h; simp
    · exact List.pairwise_iff_getElem.1 hs q (q + i) hq (by omega) (by omega)
  have h2 : (s.drop q).countP (fun a => decide (x ≤ a)) ≤ s.countP (fun a => decide (x ≤ a)) :=
    (List.drop_sublist _ _).countP_le
  rw [h1, List.length_drop] at h2
  omega

theorem exists_sorted (l : List ℝ) : ∃ s : List ℝ, s.Perm l ∧ s.Pairwise (· ≤ ·) :=
  ⟨(topKAll l).reverse, (List.reverse_perm _).trans (topKAll_perm l), by
    rw [List.pairwise_reverse]; exact topKAll_sorted l⟩

/-- C22 (half on each side): a non-empty tensor has a median, at least half of the elements are `≤` it and at least
half are `≥` it. -/
theorem C22_half (t : Tensor ℝ) (hne : t.data ≠ []) :
    ∃ x, median t = .ok x ∧ t.data.length ≤ 2 * t.data.countP (fun a => decide (a ≤ x))
      ∧ t.data.length ≤ 2 * t.data.countP (fun a => decide (x ≤ a)) := by
  obtain ⟨s, hp, hs⟩ := exists_sorted t.data
  have hlen := hp.length_eq
  have hpos : 0 < s.length := by rw [hlen]; exact List.length_pos_iff.2 hne
  obtain ⟨hodd, heven⟩ := C22_order_statistic t s hp hs hne
  rw [← hlen]
  rcases Nat.mod_two_eq_zero_or_one s.length with h | h
  · refine ⟨_, heven h, ?_⟩
    rw [← hp.countP_eq, ← hp.countP_eq]
    have h1 : s.length / 2 < s.length := by omega
    have h2 : s.length / 2 - 1 < s.length := by omega
    have h3 : s[s.length / 2 - 1] ≤ s[s.length / 2] :=
      List.pairwise_iff_getElem.1 hs _ _ h2 h1 (by omega)
    simp only [List.getD_eq_getElem?_getD, List.getElem?_eq_getElem h1, List.getElem?_eq_getElem h2,
      Option.getD_some]
    constructor
    · have := countP_le_of_sorted s hs _ h2 ((s[s.length / 2 - 1] + s[s.length / 2]) / 2) (by linarith)
      omega
    · have := countP_ge_of_sorted s hs _ h1 ((s[s.length / 2 - 1] + s[s.length / 2]) / 2) (by linarith)
      omega
  · refine ⟨_, hodd h, ?_⟩
    rw [← hp.countP_eq, ← hp.countP_eq]
    have h1 : s.length / 2 < s.length := by omega
    simp only [List.getD_eq_getElem?_getD, List.getElem?_eq_getElem h1, Option.getD_some]
    constructor
    · have := countP_le_of_sorted s hs _ h1 (s[s.length / 2]) le_rfl
      omega
    · have := countP_ge_of_sorted s hs _ h1 (s[s.length / 2]) le_rfl
      omega

example : median ⟨[2, 2], [7, 1, 5, 3]⟩ = .ok 4 := by
  have := (C22_order_statistic ⟨[2, 2], [7, 1, 5, 3]⟩ [1, 3, 5, 7]
    (by
      refine (List.Perm.cons 1 (List.Perm.swap 5 3 [7])).trans ?_
      refine (List.Perm.cons 1 (List.Perm.cons 5 (List.Perm.swap 7 3 []))).trans ?_
      refine (List.Perm.cons 1 (List.Perm.swap 7 5 [3])).trans ?_
      exact List.Perm.swap 7 1 [5, 3])
    (by norm_num) (by simp)).2 (by simp)
  rw [this]
  norm_num

/-! ## C23, C24 -/

/-- The denominator used by `safe_divide`. -/
theorem safeDivide_fin (x y c : ℝ) (hc : 0 < c) :
    ∃ d : ℝ, d ≠ 0 ∧ safeDivide (.fin x) (.fin y) (.fin c) = .fin (x / d)
      ∧ ((0 < y ∧ d = y + 3 * c) ∨ (y = 0 ∧ d = c) ∨ (y < 0 ∧ d = y - c)) := by
  rcases lt_trichotomy y 0 with h | h | h
  · refine ⟨y - c, by linarith, ?_, Or.inr (Or.inr ⟨h, rfl⟩)⟩
    have h0 : ¬ (0 < y) := by linarith
    have hd : y + (2 * -1 * c + c) ≠ 0 := by linarith
    simp only [safeDivide, Fl.sign, h0, h, if_true, if_false, Fl.ofNat_def, Fl.mul_fin, Fl.add_fin]
    rw [show y + ((2 : ℕ) * -1 * c + c) = y - c by push_cast; ring, Fl.div_fin (by linarith)]
  · refine ⟨c, ne_of_gt hc, ?_, Or.inr (Or.inl ⟨h, rfl⟩)⟩
    subst h
    simp only [safeDivide, Fl.sign, lt_irrefl, if_false, Fl.ofNat_def, Fl.mul_fin, Fl.add_fin]
    rw [show (0 : ℝ) + ((2 : ℕ) * 0 * c + c) = c by push_cast; ring, Fl.div_fin (ne_of_gt hc)]
  · refine ⟨y + 3 * c, by linarith, ?_, Or.inl ⟨h, rfl⟩⟩
    simp only [safeDivide, Fl.sign, h, if_true, Fl.ofNat_def, Fl.mul_fin, Fl.add_fin]
    rw [show y + ((2 : ℕ) * 1 * c + c) = y + 3 * c by push_cast; ring, Fl.div_fin (by linarith)]

/-- C23: `safe_divide` is finite, has the sign of the quotient, is bounded by `|x| / c` and close to `x / y`. -/
theorem C23_safe_divide (x y c : ℝ) (hc : 0 < c) :
    ∃ r : ℝ, safeDivide (.fin x) (.fin y) (.fin c) = .fin r
      ∧ (y ≠ 0 → SignType.sign r = SignType.sign (x / y)) ∧ (y = 0 → SignType.sign r = SignType.sign x)
      ∧ |r| ≤ |x| / c
      ∧ (y ≠ 0 → |r - x / y| ≤ 3 * c * |x| / (|y| * (|y| + c))) := by
  obtain ⟨d, hd, heq, hcase⟩ := safeDivide_fin x y c hc
  refine ⟨x / d, heq, ?_, ?_, ?_, ?_⟩
  · intro hy
    have : SignType.sign d = SignType.sign y := by
      rcases hcase with ⟨h, rfl⟩ | ⟨h, rfl⟩ | ⟨h, rfl⟩
      · rw [sign_pos h, sign_pos (by linarith)]
      · exact absurd h hy
      · rw [sign_neg h, sign_neg (by linarith)]
    rw [div_eq_mul_inv, div_eq_mul_inv, sign_mul, sign_mul]
    congr 1
    rcases lt_or_gt_of_ne hy with h | h
    · have hd : d < 0 := by rwa [sign_neg h, sign_eq_neg_one_iff] at this
      rw [sign_neg (inv_lt_zero.2 h), sign_neg (inv_lt_zero.2 hd)]
    · have hd : 0 < d := by rwa [sign_pos h, sign_eq_one_iff] at this
      rw [sign_pos (inv_pos.2 h), sign_pos (inv_pos.2 hd)]
  · intro hy
    have hd : d = c := by
      rcases hcase with ⟨h, _⟩ | ⟨_, h⟩ | ⟨h, _⟩
      · linarith
      · exact h
      · linarith
    subst hd
    rw [div_eq_mul_inv, sign_mul, sign_pos (inv_pos.2 hc), mul_one]
  · rw [abs_div]
    apply div_le_div_of_nonneg_left (abs_nonneg _) hc
    rcases hcase with ⟨h, rfl⟩ | ⟨h, rfl⟩ | ⟨h, rfl⟩
    · rw [abs_of_pos (by linarith)]; linarith
    · exact le_abs_self _
    · rw [abs_of_neg (by linarith)]; linarith
  · intro hy
    have hx := abs_nonneg x
    rcases hcase with ⟨h, rfl⟩ | ⟨h, rfl⟩ | ⟨h, rfl⟩
    · rw [show x / (y + 3 * c) - x / y = - (3 * c * x / (y * (y + 3 * c))) by field_simp; ring, abs_neg, abs_div,
        abs_mul, abs_of_pos (by linarith : 0 < 3 * c), abs_of_pos (by positivity : 0 < y * (y + 3 * c)), abs_of_pos h]
      apply div_le_div_of_nonneg_left (by positivity) (by positivity)
      apply mul_le_mul_of_nonneg_left _ h.le
      linarith
    · exact absurd h hy
    · have h1 : y - c < 0 := by linarith
      have h2 : 0 < y * (y - c) := mul_pos_of_neg_of_neg h h1
      rw [show x / (y - c) - x / y = c * x / (y * (y - c)) by
        have := h1.ne; field_simp; ring, abs_div, abs_mul, abs_of_pos hc, abs_of_pos h2, abs_of_neg h]
      rw [show -y * (-y + c) = y * (y - c) by ring]
      apply div_le_div_of_nonneg_right _ h2.le
      nlinarith [mul_nonneg hc.le hx]

/-- C24: `safe_sqrt` of a finite value is finite, non-negative, the square root of a non-negative argument and `0`
for a negative one. -/
theorem C24_safe_sqrt (x : ℝ) :
    ∃ r : ℝ, safeSqrt (.fin x) = .fin r ∧ 0 ≤ r ∧ (0 ≤ x → r * r = x) ∧ (x < 0 → r = 0) := by
  refine ⟨Real.sqrt (max x 0), ?_, Real.sqrt_nonneg _, ?_, ?_⟩
  · have : Fl.max (Fl.min (.fin x) Fl.pinf) 0 = .fin (max x 0) := by
      rw [Fl.ofNat_zero]; rfl
    rw [safeSqrt, this, Fl.sqrt_fin (le_max_right _ _)]
  · intro h; rw [max_eq_left h, Real.mul_self_sqrt h]
  · intro h; rw [max_eq_right h.le, Real.sqrt_zero]

/-- C24 (monotone). -/
theorem C24_monotone (x y a b : ℝ) (hxy : x ≤ y) (hx : safeSqrt (.fin x) = .fin a) (hy : safeSqrt (.fin y) = .fin b) :
    a ≤ b := by
  obtain ⟨r, h1, h2, h3, h4⟩ := C24_safe_sqrt x
  obtain ⟨s, g1, g2, g3, g4⟩ := C24_safe_sqrt y
  rw [h1] at hx; rw [g1] at hy
  cases hx; cases hy
  rcases lt_or_ge x 0 with h | h
  · rw [h4 h]; exact g2
  · have e1 := h3 h
    have e2 := g3 (le_trans h hxy)
    nlinarith

/-! ## C25–C27 -/

/-- Observation `i` of a 2-d tensor with `d` columns, as a point of Euclidean space. -/
noncomputable def obs (t : Tensor ℝ) (d i : Nat) : EuclideanSpace ℝ (Fin d) :=
  WithLp.toLp 2 fun k => (t.get [i, k.1]).getD 0

theorem row_eq_ofFn (t : Tensor ℝ) (m d i : Nat) (hs : t.shape = [m, d]) (hwf : t.WF) (hi : i < m) :
    row t i = List.ofFn fun k : Fin d => (t.get [i, k.1]).getD 0 := by
  have hl : t.data.length = m * d := by have := hwf; unfold Tensor.WF at this; rw [this, hs]; simp
  have hle : (i + 1) * d ≤ m * d := Nat.mul_le_mul_right _ hi
  rw [Nat.add_mul, Nat.one_mul] at hle
  apply List.ext_getElem
  · simp [row, hs, hl]; omega
  · intro k h1 h2
    simp only [List.length_ofFn] at h2
    have h3 : i * d + k < t.data.length := by omega
    simp [row, hs, Tensor.get, Tensor.validIdx, Tensor.offset, hi, h2, h3]

theorem euclideanDistance_eq (t : Tensor ℝ) (m d i j : Nat) (hs : t.shape = [m, d]) (hwf : t.WF) (hi : i < m)
    (hj : j < m) : euclideanDistance (row t i) (row t j) = dist (obs t d i) (obs t d j) := by
  rw [row_eq_ofFn t m d i hs hwf hi, row_eq_ofFn t m d j hs hwf hj, EuclideanSpace.dist_eq, euclideanDistance]
  congr 1
  have : ∀ (f g : Fin d → ℝ), List.zipWith (fun a b => (a - b) * (a - b)) (List.ofFn f) (List.ofFn g)
      = List.ofFn fun k => (f k - g k) * (f k - g k) := by
    intro f g
    apply List.ext_getElem
    · simp
    · intro k h1 h2; simp
  rw [this, List.sum_ofFn]
  apply Finset.sum_congr rfl
  intro k _
  rw [Real.dist_eq, sq_abs, pow_two]
  rfl

/-- C25 (entries): `pdist` of `m` observations is a vector of `m(m-1)/2` entries with the distance of observations
`i < j` at position `i*m - i(i+1)/2 + (j-i-1)`. -/
theorem C25_pdist (t : Tensor ℝ) (m d : Nat) (hs : t.shape = [m, d]) (hwf : t.WF) (input : TfInput ℝ)
    (hin : input = .tensor t ∨ input = .var t) :
    ∃ v : List ℝ, pdist input "euclidean" = .ok ⟨[m * (m - 1) / 2], v⟩ ∧ v.length = m * (m - 1) / 2
      ∧ ∀ i j, i < j → j < m →
        v[i * m - i * (i + 1) / 2 + (j - i - 1)]? = some (dist (obs t d i) (obs t d j)) := by
  refine ⟨(loopPairs m).map fun p => euclideanDistance (row t p.1) (row t p.2), ?_, ?_, ?_⟩
  · rcases hin with rfl | rfl <;> simp [pdist, hs, loopPairs_length]
  · simp [loopPairs_length]
  · intro i j hij hj
    have := loopPairs_get m i j hij hj
    unfold condensedPos at this
    rw [List.getElem?_map, this, Option.map_some, euclideanDistance_eq t m d i j hs hwf (by omega) hj]

/-- C25 (errors): non-tensors fail the assertion; a rank other than 2 is a `ValueError` whatever the metric; for
rank 2 every metric other than "euclidean" is a `NotImplementedError`. -/
theorem C25_errors (metric : String) :
    pdist .other metric = .error .assertion
      ∧ (∀ t input, (input = .tensor t ∨ input = .var t) → t.shape.length ≠ 2 →
          pdist input metric = .error (.value "2-d"))
      ∧ (∀ t input, (input = .tensor t ∨ input = .var t) → t.shape.length = 2 → metric ≠ "euclidean" →
          pdist input metric = .error .notImplemented) := by
  refine ⟨rfl, ?_, ?_⟩
  · rintro t input (rfl | rfl) h <;> simp [pdist, h]
  · rintro t input (rfl | rfl) h hm <;> simp [pdist, h, hm]

/-- C26 (accepted lengths): `squareform` of a vector succeeds exactly for the lengths `k(k-1)/2`; otherwise it
raises `ValueError`. -/
theorem C26_success (n : Nat) (data : List ℝ) (hwf : data.length = n) :
    ((∃ r, squareform (.tensor ⟨[n], data⟩) = .ok r) ↔ ∃ k, n = k * (k - 1) / 2)
      ∧ ((¬ ∃ k, n = k * (k - 1) / 2) → squareform (.tensor ⟨[n], data⟩) = .error (.value "binomial")) := by
  have heven : ∀ k : Nat, k * (k - 1) % 2 = 0 := by
    intro k
    have := Nat.even_mul_pred_self k
    exact Nat.even_iff.1 this
  by_cases hn : n = 0
  · subst hn
    refine ⟨⟨fun _ => ⟨0, rfl⟩, fun _ => ⟨_, by simp [squareform, squareformWith]; rfl⟩⟩, fun h => absurd ⟨0, rfl⟩ h⟩
  · by_cases hk : ∃ k, n = k * (k - 1) / 2
    · obtain ⟨k, hk⟩ := hk
      have := heven k
      obtain ⟨out, ho, _⟩ := squareform_ok k n data (by omega) (by omega) hwf
      exact ⟨⟨fun _ => ⟨k, hk⟩, fun _ => ⟨_, ho⟩⟩, fun h => absurd ⟨k, hk⟩ h⟩
    · have : squareform (.tensor ⟨[n], data⟩) = .error (.value "binomial") := by
        simp only [squareform, squareformWith]
        rw [if_neg hn, if_pos]
        intro h
        exact hk ⟨⌈Real.sqrt ((n : ℝ) * 2)⌉₊, by omega⟩
      refine ⟨⟨fun ⟨r, hr⟩ => ?_, fun h => absurd h hk⟩, fun _ => this⟩
      rw [this] at hr; cases hr

/-- C26 (entries): the result is `k × k`, with zero diagonal, symmetric, and holds the vector row by row above the
diagonal. -/
theorem C26_entries (k : Nat) (hk : 0 < k) (data : List ℝ) (hwf : data.length = k * (k - 1) / 2) :
    ∃ r : Tensor ℝ, squareform (.tensor ⟨[k * (k - 1) / 2], data⟩) = .ok r ∧ r.shape = [k, k] ∧ r.WF
      ∧ (∀ i, i < k → r.get [i, i] = some 0)
      ∧ (∀ i j, i < k → j < k → r.get [i, j] = r.get [j, i])
      ∧ (∀ i j, i < j → j < k → r.get [i, j] = data[i * k - i * (i + 1) / 2 + (j - i - 1)]?) := by
  by_cases h1 : k = 1
  · subst h1
    refine ⟨⟨[1, 1], [0]⟩, by simp [squareform, squareformWith], rfl, rfl, ?_, ?_, ?_⟩
    · intro i hi
      have : i = 0 := by omega
      subst this; rfl
    · intro i j hi hj
      have : i = 0 := by omega
      have : j = 0 := by omega
      subst_vars; rfl
    · intro i j hi hj; omega
  · have heven : k * (k - 1) % 2 = 0 := Nat.even_iff.1 (Nat.even_mul_pred_self k)
    have hpos : 0 < k * (k - 1) / 2 := by
      obtain ⟨j, rfl⟩ : ∃ j, k = j + 2 := ⟨k - 2, by omega⟩
      have : 2 ≤ (j + 2) * (j + 2 - 1) := by
        have : 2 * 1 ≤ (j + 2) * (j + 2 - 1) := Nat.mul_le_mul (by omega) (by omega)
        omega
      omega
    obtain ⟨out, ho, hlen, hent⟩ := squareform_ok k (k * (k - 1) / 2) data hpos (by omega) hwf
    refine ⟨_, ho, rfl, by simp [Tensor.WF, hlen], ?_, ?_, ?_⟩
    · intro i hi
      simp [Tensor.get, Tensor.validIdx, Tensor.offset, hi, hent i i hi hi]
    · intro i j hi hj
      simp only [Tensor.get, Tensor.validIdx, Tensor.offset, hi, hj, List.prod_cons, List.prod_nil, mul_one,
        Nat.add_zero, decide_true, Bool.and_self, if_true, hent i j hi hj, hent j i hj hi]
      rcases Nat.lt_trichotomy i j with h | h | h
      · simp [h, Nat.not_lt_of_gt h]
      · subst h; simp
      · simp [h, Nat.not_lt_of_gt h]
    · intro i j hij hj
      have hi : i < k := by omega
      have hp := condensedPos_lt hij hj
      simp only [Tensor.get, Tensor.validIdx, Tensor.offset, hi, hj, List.prod_cons, List.prod_nil, mul_one,
        Nat.add_zero, decide_true, Bool.and_self, if_true, hent i j hi hj, hij]
      rw [← hwf] at hp
      rw [List.getD_eq_getElem?_getD, List.getElem?_eq_getElem hp]
      unfold condensedPos at hp
      rw [List.getElem?_eq_getElem hp]
      rfl

/-- C26 (other inputs): tensors of rank other than 1 give `NotImplementedError`, variables and other objects an
`AssertionError`, a scalar tensor an `IndexError`. -/
theorem C26_other_inputs (t : Tensor ℝ) :
    (2 ≤ t.shape.length → squareform (.tensor t) = .error .notImplemented)
      ∧ (t.shape = [] → squareform (.tensor t) = .error .index)
      ∧ squareform (.var t) = .error .assertion ∧ squareform .other = .error .assertion := by
  obtain ⟨shape, data⟩ := t
  refine ⟨?_, ?_, rfl, rfl⟩
  · rcases shape with _ | ⟨a, _ | ⟨b, c⟩⟩ <;> simp [squareform, squareformWith]
  · rintro h; simp only at h; subst h; rfl

/-- C27: the redundant matrix of the condensed distances is the distance matrix of the observations. -/
theorem C27_distance_matrix (t : Tensor ℝ) (m d : Nat) (hm : 0 < m) (hs : t.shape = [m, d]) (hwf : t.WF)
    (input : TfInput ℝ) (hin : input = .tensor t ∨ input = .var t) :
    ∃ v r, pdist input "euclidean" = .ok v ∧ squareform (.tensor v) = .ok r ∧ r.shape = [m, m] ∧ r.WF
      ∧ ∀ i j, i < m → j < m → r.get [i, j] = some (dist (obs t d i) (obs t d j)) := by
  obtain ⟨v, hv, hlen, hpos⟩ := C25_pdist t m d hs hwf input hin
  obtain ⟨r, hr, hshape, hrwf, hdiag, hsym, hup⟩ := C26_entries m hm v hlen
  refine ⟨_, r, hv, hr, hshape, hrwf, fun i j hi hj => ?_⟩
  rcases Nat.lt_trichotomy i j with h | h | h
  · rw [hup i j h hj, hpos i j h hj]
  · subst h; rw [hdiag i hi, dist_self]
  · rw [hsym i j hi hj, hup j i h hi, hpos j i h hi, dist_comm]

/-- C27 (metric): hence symmetric, zero on the diagonal, non-negative, and the triangle inequality holds. -/
theorem C27_metric (t : Tensor ℝ) (m d : Nat) (hm : 0 < m) (hs : t.shape = [m, d]) (hwf : t.WF) :
    ∃ v r, pdist (.tensor t) "euclidean" = .ok v ∧ squareform (.tensor v) = .ok r
      ∧ ∀ i j k, i < m → j < m → k < m → ∃ a b c : ℝ,
        r.get [i, j] = some a ∧ r.get [j, k] = some b ∧ r.get [i, k] = some c
        ∧ r.get [j, i] = some a ∧ r.get [i, i] = some 0 ∧ 0 ≤ a ∧ c ≤ a + b := by
  obtain ⟨v, r, hv, hr, _, _, hent⟩ := C27_distance_matrix t m d hm hs hwf _ (Or.inl rfl)
  refine ⟨v, r, hv, hr, fun i j k hi hj hk => ⟨_, _, _, hent i j hi hj, hent j k hj hk, hent i k hi hk, ?_, ?_,
    dist_nonneg, dist_triangle _ _ _⟩⟩
  · rw [hent j i hj hi, dist_comm]
  · rw [hent i i hi hi, dist_self]

/-- A concrete non-degenerate input: three points of the plane. -/
example : (⟨[3, 2], [0, 0, 3, 4, 6, 8]⟩ : Tensor ℝ).WF := rfl
example : 3 * (3 - 1) / 2 = 3 := rfl

/-- `uninitialized_params` returns exactly the parameters whose flag is false, in order. -/
theorem uninitializedParams_ok {Var : Type} (flag : Var → Bool) (params : List Var) :
    uninitializedParams (some flag) params = .ok (params.filter fun p => !flag p) := by
  unfold uninitializedParams
  congr 1
  induction params with
  | nil => rfl
  | cons p ps ih => cases h : flag p <;> simp_all

end PySGMCMC.TensorUtils
