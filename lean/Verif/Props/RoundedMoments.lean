import Verif.Props.RoundedSVGD
import Verif.Props.RoundedBaseModel
import Verif.Props.SVGD
import Verif.Model.BNN

/-!
# Standardization and predictions in floating point arithmetic (C117, C118)
-/

namespace PySGMCMC.Rounded

open Format

variable {f : Format} (R : Rounding f)

/-! ## With exact arithmetic -/

theorem fl_add_assoc (a b c : Fl) : a + b + c = a + (b + c) := by
  cases a <;> cases b <;> cases c <;> first | rfl | (show Fl.fin _ = Fl.fin _; rw [add_assoc])

theorem fl_zero_add (a : Fl) : Fl.fin 0 + a = a := by
  cases a <;> first | rfl | (show Fl.fin _ = Fl.fin _; rw [zero_add])

theorem fl_sum_cons (a : Fl) (l : List Fl) : Fl.sum (a :: l) = a + Fl.sum l := by
  have key : ∀ (l : List Fl) (s : Fl), l.foldl (· + ·) s = s + l.foldl (· + ·) (Fl.fin 0) := by
    intro l
    induction l with
    | nil => intro s; simp only [List.foldl_nil]; rw [SVGD.fl_add_comm, fl_zero_add]
    | cons b l ih =>
      intro s
      rw [List.foldl_cons, List.foldl_cons, ih, ih (Fl.fin 0 + b), fl_zero_add, fl_add_assoc]
  unfold Fl.sum
  rw [List.foldl_cons, key, fl_zero_add]

theorem fl_sum_append (l l' : List Fl) : Fl.sum (l ++ l') = Fl.sum l + Fl.sum l' := by
  induction l with
  | nil => rw [List.nil_append]; exact (fl_zero_add _).symm
  | cons a l ih => rw [List.cons_append, fl_sum_cons, ih, fl_sum_cons, fl_add_assoc]

theorem link_eval (x : Nat → Fl) (t : SumTree) : t.eval .exact x = Fl.sum (t.leaves.map x) := by
  induction t with
  | leaf i => simp only [SumTree.eval, SumTree.leaves, List.map_cons, List.map_nil, fl_sum_cons]
              show x i = x i + Fl.fin 0
              rw [SVGD.fl_add_comm, fl_zero_add]
  | node l r hl hr =>
    rw [SumTree.eval, SumTree.leaves, List.map_append, fl_sum_append, hl, hr, Arith.exact_add]

/-- With exact arithmetic every order gives the mean of the exact models. -/
theorem link_npMean (x : Nat → Fl) {t : SumTree} {n : Nat} (ht : t.Adds n) :
    npMean .exact t n x = Fl.mean ((List.range n).map x) := by
  unfold npMean Fl.mean
  rw [link_eval, SVGD.sum_perm (ht.map x), List.length_map, List.length_range, Arith.exact_lit, Arith.exact_div]

theorem link_npMeanSq (x : Nat → Fl) {t : SumTree} {n : Nat} (ht : t.Adds n) (m : Fl) :
    npMeanSq .exact t n x m = Fl.mean (((List.range n).map x).map fun y => Fl.npow (y - m) 2) := by
  unfold npMeanSq
  rw [link_npMean _ ht, List.map_map]
  simp only [Arith.exact_pow, Arith.exact_sub, Function.comp_def]

theorem link_npStd (x : Nat → Fl) {t t' : SumTree} {n : Nat} (ht : t.Adds n) (ht' : t'.Adds n) :
    npStd .exact t t' n x = Fl.std ((List.range n).map x) := by
  unfold npStd Fl.std
  rw [link_npMean _ ht, link_npMeanSq _ ht', Arith.exact_sqrt]

theorem range_getD {ι : Type} (X : BaseModel.Rows ι) (j : ι) :
    ((List.range X.length).map fun i => (BaseModel.column X j).getD i .nan) = BaseModel.column X j := by
  apply List.ext_getElem?
  intro i
  simp only [BaseModel.column, List.getElem?_map, List.getD_eq_getElem?_getD]
  rcases lt_or_ge i X.length with h | h
  · simp [h]
  · simp [h]

/-- Columns of the matrix returned by the exact `zero_mean_unit_var_normalization`. -/
theorem link_zeroMeanUnitVar {ι : Type} (X : BaseModel.Rows ι) (j : ι) {t t' : SumTree} (ht : t.Adds X.length)
    (ht' : t'.Adds X.length) :
    BaseModel.column (BaseModel.zeroMeanUnitVarNormalization X none none).1 j =
      (List.range X.length).map
        (zeroMeanUnitVar .exact t t' X.length fun i => (BaseModel.column X j).getD i .nan) := by
  have h : ∀ i, zeroMeanUnitVar .exact t t' X.length (fun i => (BaseModel.column X j).getD i .nan) i =
      BaseModel.standardize ((BaseModel.column X j).getD i .nan) (Fl.mean (BaseModel.column X j))
        (Fl.std (BaseModel.column X j)) := by
    intro i
    unfold zeroMeanUnitVar
    rw [link_standardize, link_npMean _ ht, link_npStd _ ht ht', range_getD]
  rw [funext h]
  conv_lhs =>
    unfold BaseModel.zeroMeanUnitVarNormalization
  simp only [Option.getD_none, BaseModel.meanAxis0, BaseModel.stdAxis0]
  have e : ((List.range X.length).map fun i => BaseModel.standardize ((BaseModel.column X j).getD i .nan)
      (Fl.mean (BaseModel.column X j)) (Fl.std (BaseModel.column X j))) =
      (((List.range X.length).map fun i => (BaseModel.column X j).getD i .nan).map fun x =>
        BaseModel.standardize x (Fl.mean (BaseModel.column X j)) (Fl.std (BaseModel.column X j))) := by
    rw [List.map_map]; rfl
  rw [e, range_getD]
  simp only [BaseModel.column, List.map_map, Function.comp_def]

/-- Rows of the exact `predict`. -/
theorem link_predictRow {N : Nat} (outs : List (Fin N → Fl × Fl)) (ho : outs ≠ []) (stats : Option (Fl × Fl)) (i : Fin N)
    {t t' : SumTree} (ht : t.Adds outs.length) (ht' : t'.Adds outs.length) :
    ∃ m v, BNN.summarize false stats outs = .summary m v ∧
      (m i, v i) = match stats with
        | none => predictRow .exact t t' outs.length fun k => (outs.map fun o => (o i).1).getD k .nan
        | some (μ, s) =>
          predictRowUnnormalized .exact t t' outs.length (fun k => (outs.map fun o => (o i).1).getD k .nan) μ s := by
  have hr : ((List.range outs.length).map fun k => (outs.map fun o => (o i).1).getD k .nan) = outs.map fun o => (o i).1 := by
    apply List.ext_getElem?
    intro k
    simp only [List.getElem?_map, List.getD_eq_getElem?_getD]
    rcases lt_or_ge k outs.length with h | h
    · simp [h]
    · simp [h]
  have hm : npMean .exact t outs.length (fun k => (outs.map fun o => (o i).1).getD k .nan) =
      Fl.mean (outs.map fun o => (o i).1) := by rw [link_npMean _ ht, hr]
  have hv : ∀ m, npMeanSq .exact t' outs.length (fun k => (outs.map fun o => (o i).1).getD k .nan) m =
      Fl.mean ((outs.map fun o => (o i).1).map fun y => Fl.npow (y - m) 2) := fun m => by
    rw [link_npMeanSq _ ht', hr]
  have e : BNN.summarize false stats outs = .summary
      (fun i => BNN.unnormalizeMean stats (BaseModel.meanAxis0 (outs.map fun o i => (o i).1) i))
      (fun i => BNN.unnormalizeVar stats (BaseModel.meanAxis0 ((outs.map fun o i => (o i).1).map fun row i =>
        Fl.npow (row i - BaseModel.meanAxis0 (outs.map fun o i => (o i).1) i) 2) i)) := by
    obtain ⟨o, os, rfl⟩ := List.exists_cons_of_ne_nil ho
    rfl
  refine ⟨_, _, e, ?_⟩
  cases stats with
  | none =>
    simp only [predictRow, hm, hv, BNN.unnormalizeMean, BNN.unnormalizeVar, BaseModel.meanAxis0, BaseModel.column,
      List.map_map, Function.comp_def]
  | some p =>
    simp only [predictRowUnnormalized, predictRow, hm, hv, BNN.unnormalizeMean, BNN.unnormalizeVar, BaseModel.meanAxis0,
      BaseModel.column, List.map_map, Function.comp_def, link_unstandardize, Arith.exact_mul, Arith.exact_pow]

/-! ## Sums -/

theorem leaves_pos (t : SumTree) : 0 < t.leaves.length := by
  induction t with
  | leaf => simp [SumTree.leaves]
  | node l r hl _ => simp only [SumTree.leaves, List.length_append]; omega

theorem list_abs_sum (v : Nat → ℝ) (l : List Nat) : |(l.map v).sum| ≤ (l.map fun i => |v i|).sum := by
  induction l with
  | nil => simp
  | cons a l ih =>
    simp only [List.map_cons, List.sum_cons]
    exact (abs_add_le _ _).trans (by linarith)

/-- A rounded sum of numbers below a power of two: no overflow, no bound crossed, and the usual error. -/
theorem eval_step {e : ℤ} (he1 : f.emin ≤ e) (he2 : e ≤ f.emax) {x : Nat → Fl} {v : Nat → ℝ} (t : SumTree)
    (hn : t.leaves.length < 2 ^ f.prec) (hx : ∀ i ∈ t.leaves, x i = .fin (v i) ∧ f.IsRep (v i) ∧ |v i| ≤ 2 ^ e) :
    ∃ s, t.eval R.arith x = .fin s ∧ f.IsRep s ∧ |s| ≤ t.leaves.length * 2 ^ e ∧
      |s - (t.leaves.map v).sum| ≤ ((1 + f.u) ^ t.depth - 1) * (t.leaves.map fun i => |v i|).sum ∧
      ((∀ i ∈ t.leaves, 0 ≤ v i) → 0 ≤ s ∧ ∀ i ∈ t.leaves, v i ≤ s) := by
  have hu0 : 0 < f.u := u_pos
  induction t with
  | leaf i =>
    obtain ⟨h1, h2, h3⟩ := hx i (by simp [SumTree.leaves])
    refine ⟨v i, h1, h2, by simpa [SumTree.leaves] using h3, by simp [SumTree.leaves, SumTree.depth], ?_⟩
    intro h
    simpa [SumTree.leaves] using h
  | node l r hl hr =>
    simp only [SumTree.leaves, List.length_append, List.mem_append] at hn hx
    obtain ⟨a, ha, har, ha1, ha2, ha3⟩ := hl (by omega) fun i hi => hx i (Or.inl hi)
    obtain ⟨b, hb, hbr, hb1, hb2, hb3⟩ := hr (by omega) fun i hi => hx i (Or.inr hi)
    have hrep := rep_mult_pow (f := f) he1 he2 hn
    have hab : |a + b| ≤ ((l.leaves.length + r.leaves.length : ℕ) : ℝ) * 2 ^ e := by
      have := abs_add_le a b
      push_cast
      linarith
    obtain ⟨s, hs, hsr, hs1, hs2⟩ := R.between hrep.neg hrep (abs_le.mp hab).1 (abs_le.mp hab).2
    refine ⟨s, by rw [SumTree.eval, ha, hb, Arith.add_fin, R.arith_rnd, hs], hsr, ?_, ?_, ?_⟩
    · rw [SumTree.leaves, List.length_append]
      exact abs_le.mpr ⟨hs1, hs2⟩
    · have herr := R.error_add har hbr hs
      simp only [SumTree.leaves, List.map_append, List.sum_append, SumTree.depth]
      set Sa := (l.leaves.map v).sum
      set Sb := (r.leaves.map v).sum
      set Ta := (l.leaves.map fun i => |v i|).sum
      set Tb := (r.leaves.map fun i => |v i|).sum
      have hTa : 0 ≤ Ta := List.sum_nonneg (by simp)
      have hTb : 0 ≤ Tb := List.sum_nonneg (by simp)
      set D := Nat.max l.depth r.depth
      have hp1 : (1 + f.u) ^ l.depth ≤ (1 + f.u) ^ D := pow_le_pow_right₀ (by linarith) (Nat.le_max_left _ _)
      have hp2 : (1 + f.u) ^ r.depth ≤ (1 + f.u) ^ D := pow_le_pow_right₀ (by linarith) (Nat.le_max_right _ _)
      set P := (1 + f.u) ^ D
      have h1 : |a - Sa| ≤ (P - 1) * Ta := ha2.trans (mul_le_mul_of_nonneg_right (by linarith) hTa)
      have h2 : |b - Sb| ≤ (P - 1) * Tb := hb2.trans (mul_le_mul_of_nonneg_right (by linarith) hTb)
      have hSa : |Sa| ≤ Ta := by
        have := list_abs_sum v l.leaves
        exact this
      have hSb : |Sb| ≤ Tb := by
        have := list_abs_sum v r.leaves
        exact this
      have h3 : |(a + b) - (Sa + Sb)| ≤ (P - 1) * (Ta + Tb) := by
        have := abs_add_le (a - Sa) (b - Sb)
        rw [show a - Sa + (b - Sb) = a + b - (Sa + Sb) by ring] at this
        linarith
      have h4 : |a + b| ≤ P * (Ta + Tb) := by
        have h5 := abs_add_le (a + b - (Sa + Sb)) (Sa + Sb)
        rw [show a + b - (Sa + Sb) + (Sa + Sb) = a + b by ring] at h5
        have h6 := abs_add_le Sa Sb
        linarith
      have h5 := mul_le_mul_of_nonneg_left h4 hu0.le
      have h6 := abs_sub_le s (a + b) (Sa + Sb)
      rw [abs_sub_comm s (a + b)] at h6
      rw [pow_succ]
      have : ((P * (1 + f.u)) - 1) * (Ta + Tb) = (P - 1) * (Ta + Tb) + f.u * (P * (Ta + Tb)) := by ring
      linarith
    · intro h0
      simp only [SumTree.leaves, List.mem_append] at h0 ⊢
      obtain ⟨pa, qa⟩ := ha3 fun i hi => h0 i (Or.inl hi)
      obtain ⟨pb, qb⟩ := hb3 fun i hi => h0 i (Or.inr hi)
      have k1 : a ≤ s := R.rep_le har (by linarith) hs
      have k2 : b ≤ s := R.rep_le hbr (by linarith) hs
      refine ⟨pa.trans k1, ?_⟩
      rintro i (hi | hi)
      · exact (qa i hi).trans k1
      · exact (qb i hi).trans k2

theorem Adds_length {t : SumTree} {n : Nat} (h : t.Adds n) : t.leaves.length = n := by
  simpa using h.length_eq

theorem Adds_pos {t : SumTree} {n : Nat} (h : t.Adds n) : 0 < n := Adds_length h ▸ leaves_pos t

theorem Adds_mem {t : SumTree} {n : Nat} (h : t.Adds n) {i : Nat} : i ∈ t.leaves ↔ i < n := by
  rw [h.mem_iff, List.mem_range]

theorem Adds_sum {t : SumTree} {n : Nat} (h : t.Adds n) (v : Nat → ℝ) :
    (t.leaves.map v).sum = ∑ i ∈ Finset.range n, v i := by
  rw [(h.map v).sum_eq, Finset.sum_range, ← List.sum_ofFn, List.ofFn_eq_map, ← List.map_coe_finRange_eq_range, List.map_map]
  rfl

/-- Number of elements as a number of the dtype. -/
theorem lit_nat (hu : f.HasUnit) {n : Nat} (hn : n < 2 ^ f.prec) : R.arith.lit n = .fin n := by
  rw [R.arith_lit]
  refine R.exact ?_
  have := rep_int (f := f) hu.1 hu.2 (m := n) (by rw [abs_of_nonneg (by positivity)]; exact_mod_cast hn)
  exact_mod_cast this

theorem eval_congr (A : Arith) {x y : Nat → Fl} (t : SumTree) (h : ∀ i ∈ t.leaves, x i = y i) :
    t.eval A x = t.eval A y := by
  induction t with
  | leaf i => exact h i (by simp [SumTree.leaves])
  | node l r hl hr =>
    simp only [SumTree.leaves, List.mem_append] at h
    rw [SumTree.eval, SumTree.eval, hl fun i hi => h i (Or.inl hi), hr fun i hi => h i (Or.inr hi)]

/-- The rounded mean. -/
theorem mean_step (hu : f.HasUnit) {e : ℤ} (he1 : f.emin ≤ e) (he2 : e ≤ f.emax) {x : Nat → Fl} {v : Nat → ℝ}
    {t : SumTree} {n : Nat} (ht : t.Adds n) (hn : n < 2 ^ f.prec)
    (hx : ∀ i < n, x i = .fin (v i) ∧ f.IsRep (v i) ∧ |v i| ≤ 2 ^ e) :
    ∃ m s, npMean R.arith t n x = .fin m ∧ f.IsRep m ∧ |m| ≤ 2 ^ e ∧ R.rnd (s / n) = .fin m ∧
      |m - (∑ i ∈ Finset.range n, v i) / n| ≤
        ((1 + f.u) ^ (t.depth + 1) - 1) * ((∑ i ∈ Finset.range n, |v i|) / n) + f.tiny / 2 ∧
      ((∀ i < n, 0 ≤ v i) → 0 ≤ s ∧ 0 ≤ m ∧ ∀ i < n, v i ≤ s) := by
  have hu0 : 0 < f.u := u_pos
  have hn0 : (0 : ℝ) < n := by exact_mod_cast Adds_pos ht
  obtain ⟨s, hs, hsr, hs1, hs2, hs3⟩ := eval_step R he1 he2 t (by rwa [Adds_length ht])
    fun i hi => hx i ((Adds_mem ht).1 hi)
  rw [Adds_length ht] at hs1
  rw [Adds_sum ht, Adds_sum ht] at hs2
  have hp : f.IsRep ((2 : ℝ) ^ e) := rep_pow he1 he2
  have hb : |s / n| ≤ 2 ^ e := by
    rw [abs_div, abs_of_pos hn0, div_le_iff₀ hn0]
    linarith
  obtain ⟨m, hm, hmr, hm1, hm2⟩ := R.between hp.neg hp (abs_le.mp hb).1 (abs_le.mp hb).2
  refine ⟨m, s, by rw [npMean, hs, lit_nat R hu hn, Arith.div_fin _ hn0.ne', R.arith_rnd, hm], hmr,
    abs_le.mpr ⟨hm1, hm2⟩, hm, ?_, ?_⟩
  · set S := ∑ i ∈ Finset.range n, v i
    set T := ∑ i ∈ Finset.range n, |v i|
    have hST : |S| ≤ T := Finset.abs_sum_le_sum_abs _ _
    have hT : 0 ≤ T := Finset.sum_nonneg fun i _ => abs_nonneg _
    have hP : 1 ≤ (1 + f.u) ^ t.depth := one_le_pow₀ (by linarith)
    set P := (1 + f.u) ^ t.depth
    have h1 := R.error' hm
    have h2 : |s| ≤ P * T := by
      have h5 := abs_add_le (s - S) S
      rw [sub_add_cancel] at h5
      linarith
    have h3 : |s / n| ≤ P * (T / n) := by
      rw [abs_div, abs_of_pos hn0, ← mul_div_assoc]
      exact div_le_div_of_nonneg_right h2 hn0.le
    have h4 : |s / n - S / n| ≤ (P - 1) * (T / n) := by
      rw [← sub_div, abs_div, abs_of_pos hn0, ← mul_div_assoc]
      exact div_le_div_of_nonneg_right hs2 hn0.le
    have h5 := abs_sub_le m (s / n) (S / n)
    rw [abs_sub_comm m (s / n)] at h5
    have h6 := mul_le_mul_of_nonneg_left h3 hu0.le
    have : (P * (1 + f.u) - 1) * (T / n) = (P - 1) * (T / n) + f.u * (P * (T / n)) := by ring
    rw [pow_succ, this]
    linarith
  · intro h0
    obtain ⟨p, q⟩ := hs3 fun i hi => h0 i ((Adds_mem ht).1 hi)
    exact ⟨p, R.rep_le rep_zero (div_nonneg p hn0.le) hm, fun i hi => q i ((Adds_mem ht).2 hi)⟩

/-- One squared deviation, with its error. -/
theorem square_step {e : ℤ} (he0 : f.emin ≤ e) (he0' : f.emin ≤ 2 * e + 2) (he : 2 * e + 2 ≤ f.emax) (he1 : e + 1 ≤ f.emax)
    {a m : ℝ} (ha : f.IsRep a) (hm : f.IsRep m) (ha1 : |a| ≤ 2 ^ e) (hm1 : |m| ≤ 2 ^ e) :
    ∃ d q, R.rnd (a - m) = .fin d ∧ f.IsRep d ∧ |d| ≤ 2 ^ (e + 1) ∧ R.rnd (d ^ 2) = .fin q ∧ f.IsRep q ∧ 0 ≤ q ∧
      |q| ≤ 2 ^ (2 * e + 2) ∧ |d - (a - m)| ≤ f.u * |a - m| ∧
      |q - (a - m) ^ 2| ≤ ((1 + f.u) ^ 3 - 1) * (a - m) ^ 2 + f.tiny / 2 := by
  have hu0 : 0 < f.u := u_pos
  have h2 : (2 : ℝ) ^ (e + 1) = 2 * 2 ^ e := by rw [zpow_add₀ two_ne_zero, zpow_one, mul_comm]
  have h3 : (2 : ℝ) ^ (2 * e + 2) = (2 ^ (e + 1)) ^ 2 := by
    rw [← zpow_natCast, ← zpow_mul]; congr 1; push_cast; ring
  have hd0 : |a - m| ≤ 2 ^ (e + 1) := (abs_sub a m).trans (by rw [h2]; linarith)
  have hr1 : f.IsRep ((2 : ℝ) ^ (e + 1)) := rep_pow (by omega) he1
  have hr2 : f.IsRep ((2 : ℝ) ^ (2 * e + 2)) := rep_pow he0' he
  obtain ⟨d, hd, hdr, hd1, hd2⟩ := R.between hr1.neg hr1 (abs_le.mp hd0).1 (abs_le.mp hd0).2
  have hdb : |d| ≤ 2 ^ (e + 1) := abs_le.mpr ⟨hd1, hd2⟩
  have hsq : d ^ 2 ≤ 2 ^ (2 * e + 2) := by
    rw [h3, ← sq_abs]
    exact pow_le_pow_left₀ (abs_nonneg d) hdb 2
  obtain ⟨q, hq, hqr, hq0, hq1⟩ := R.between rep_zero hr2 (sq_nonneg d) hsq
  have herr : |a - m - d| ≤ f.u * |a - m| := by
    have := R.error_add ha hm.neg (y := d) (by rw [← sub_eq_add_neg]; exact hd)
    rwa [← sub_eq_add_neg] at this
  refine ⟨d, q, hd, hdr, hdb, hq, hqr, hq0, by rwa [abs_of_nonneg hq0], by rwa [abs_sub_comm], ?_⟩
  set b := a - m
  have hb := sq_nonneg b
  have e1 : |d ^ 2 - b ^ 2| ≤ ((1 + f.u) ^ 2 - 1) * b ^ 2 := by
    have k1 : |d + b| ≤ (2 + f.u) * |b| := by
      have := abs_add_le (d - b) (2 * b)
      rw [show d - b + 2 * b = d + b by ring, abs_mul, abs_two, abs_sub_comm] at this
      linarith
    have k2 : |d ^ 2 - b ^ 2| = |b - d| * |d + b| := by
      rw [abs_sub_comm, ← abs_mul]; congr 1; ring
    rw [k2]
    calc |b - d| * |d + b| ≤ (f.u * |b|) * ((2 + f.u) * |b|) := mul_le_mul herr k1 (abs_nonneg _) (by positivity)
      _ = ((1 + f.u) ^ 2 - 1) * |b| ^ 2 := by ring
      _ = _ := by rw [sq_abs]
  have e2 : |d ^ 2 - q| ≤ f.u * d ^ 2 + f.tiny / 2 := by
    have := R.error' hq
    rwa [abs_of_nonneg (sq_nonneg d)] at this
  have e3 : d ^ 2 ≤ (1 + f.u) ^ 2 * b ^ 2 := by
    have := le_abs_self (d ^ 2 - b ^ 2)
    linarith
  have e4 := mul_le_mul_of_nonneg_left e3 hu0.le
  have e5 := abs_sub_le q (d ^ 2) (b ^ 2)
  rw [abs_sub_comm q (d ^ 2)] at e5
  have : ((1 + f.u) ^ 3 - 1) * b ^ 2 = ((1 + f.u) ^ 2 - 1) * b ^ 2 + f.u * ((1 + f.u) ^ 2 * b ^ 2) := by ring
  linarith

/-- The rounded mean of squared deviations. -/
theorem meanSq_step (hu : f.HasUnit) {e : ℤ} (he0 : 0 ≤ e) (he : 2 * e + 2 ≤ f.emax) {x : Nat → Fl} {v : Nat → ℝ}
    {t : SumTree} {n : Nat} (ht : t.Adds n) (hn : n < 2 ^ f.prec)
    (hx : ∀ i < n, x i = .fin (v i) ∧ f.IsRep (v i) ∧ |v i| ≤ 2 ^ e) {m : ℝ} (hm : f.IsRep m) (hm1 : |m| ≤ 2 ^ e) :
    ∃ w s, npMeanSq R.arith t n x (.fin m) = .fin w ∧ f.IsRep w ∧ 0 ≤ w ∧ w ≤ 2 ^ (2 * e + 2) ∧
      R.rnd (s / n) = .fin w ∧ 0 ≤ s ∧
      (∀ i < n, ∃ d q, R.rnd (v i - m) = .fin d ∧ f.IsRep d ∧ |d - (v i - m)| ≤ f.u * |v i - m| ∧
        R.rnd (d ^ 2) = .fin q ∧ f.IsRep q ∧ 0 ≤ q ∧ q ≤ s) ∧
      |w - (∑ i ∈ Finset.range n, (v i - m) ^ 2) / n| ≤
        ((1 + f.u) ^ (t.depth + 4) - 1) * ((∑ i ∈ Finset.range n, (v i - m) ^ 2) / n) +
          (1 + f.u) ^ (t.depth + 1) * f.tiny := by
  have hu0 : 0 < f.u := u_pos
  have ht0 : 0 < f.tiny := tiny_pos
  have hn0 : (0 : ℝ) < n := by exact_mod_cast Adds_pos ht
  have hmin := hu.1
  have key : ∀ i, ∃ d q, i < n → R.rnd (v i - m) = .fin d ∧ f.IsRep d ∧ |d - (v i - m)| ≤ f.u * |v i - m| ∧
      R.rnd (d ^ 2) = .fin q ∧ f.IsRep q ∧ 0 ≤ q ∧ |q| ≤ 2 ^ (2 * e + 2) ∧
      |q - (v i - m) ^ 2| ≤ ((1 + f.u) ^ 3 - 1) * (v i - m) ^ 2 + f.tiny / 2 := by
    intro i
    by_cases hi : i < n
    · obtain ⟨-, h2, h3⟩ := hx i hi
      obtain ⟨d, q, a1, a2, -, a4, a5, a6, a7, a8, a9⟩ :=
        square_step R (e := e) (by omega) (by omega) he (by omega) h2 hm h3 hm1
      exact ⟨d, q, fun _ => ⟨a1, a2, a8, a4, a5, a6, a7, a9⟩⟩
    · exact ⟨0, 0, fun h => absurd h hi⟩
  choose d q h using key
  obtain ⟨w, s, hw, hwr, hw1, hws, hwe, hw0⟩ := mean_step R hu (e := 2 * e + 2) (by omega) he
    (x := fun i => R.arith.pow (R.arith.sub (x i) (.fin m)) 2) (v := q) ht hn (fun i hi => by
      obtain ⟨a1, a2, a3, a4, a5, a6, a7, a8⟩ := h i hi
      obtain ⟨b1, -, -⟩ := hx i hi
      refine ⟨?_, a5, a7⟩
      rw [b1, Arith.sub_fin, R.arith_rnd, a1, Arith.pow_fin, R.arith_rnd, a4])
  obtain ⟨s0, w0, hs⟩ := hw0 fun i hi => (h i hi).2.2.2.2.2.1
  refine ⟨w, s, hw, hwr, w0, (le_abs_self w).trans hw1, hws, s0, fun i hi => ?_, ?_⟩
  · obtain ⟨a1, a2, a3, a4, a5, a6, a7, a8⟩ := h i hi
    exact ⟨d i, q i, a1, a2, a3, a4, a5, a6, hs i hi⟩
  · have hQ : |(∑ i ∈ Finset.range n, q i) / n - (∑ i ∈ Finset.range n, (v i - m) ^ 2) / n| ≤
        ((1 + f.u) ^ 3 - 1) * ((∑ i ∈ Finset.range n, (v i - m) ^ 2) / n) + f.tiny / 2 := by
      rw [← sub_div, abs_div, abs_of_pos hn0, div_le_iff₀ hn0, ← Finset.sum_sub_distrib]
      refine (Finset.abs_sum_le_sum_abs _ _).trans
        ((Finset.sum_le_sum fun i hi => (h i (Finset.mem_range.1 hi)).2.2.2.2.2.2.2).trans (le_of_eq ?_))
      rw [Finset.sum_add_distrib, ← Finset.mul_sum, Finset.sum_const, Finset.card_range, nsmul_eq_mul]
      field_simp
    have hqabs : ∑ i ∈ Finset.range n, |q i| = ∑ i ∈ Finset.range n, q i :=
      Finset.sum_congr rfl fun i hi => abs_of_nonneg (h i (Finset.mem_range.1 hi)).2.2.2.2.2.1
    rw [hqabs] at hwe
    set W := (∑ i ∈ Finset.range n, (v i - m) ^ 2) / (n : ℝ) with hW
    set Q := (∑ i ∈ Finset.range n, q i) / (n : ℝ)
    have hP : 1 ≤ (1 + f.u) ^ (t.depth + 1) := one_le_pow₀ (by linarith)
    have e0 : (1 + f.u) ^ (t.depth + 4) = (1 + f.u) ^ (t.depth + 1) * (1 + f.u) ^ 3 := by rw [← pow_add]
    rw [e0]
    set P := (1 + f.u) ^ (t.depth + 1)
    set C := (1 + f.u) ^ 3
    have e1 : Q ≤ C * W + f.tiny / 2 := by
      have := le_abs_self (Q - W)
      linarith
    have e2 := mul_le_mul_of_nonneg_left e1 (sub_nonneg.2 hP)
    have e3 := abs_sub_le w Q W
    have e4 : (P * C - 1) * W = (P - 1) * (C * W) + (C - 1) * W := by ring
    have e5 : f.tiny ≤ P * f.tiny := le_mul_of_one_le_left ht0.le hP
    rw [e4]
    have e6 : (P - 1) * (C * W + f.tiny / 2) = (P - 1) * (C * W) + P * f.tiny / 2 - f.tiny / 2 := by ring
    linarith

/-! ## Standardization -/

/-- C117 (mean): whatever the order in which numpy adds, the mean of a column bounded by a power of two respects the same
bound, and its error is that of `depth + 1` roundings of the terms. -/
theorem C117_mean (hA : f.Adequate) {e : ℤ} (he1 : f.emin ≤ e) (he2 : e ≤ f.emax) {x : Nat → Fl} {v : Nat → ℝ}
    {t : SumTree} {n : Nat} (ht : t.Adds n) (hn : n < 2 ^ f.prec)
    (hx : ∀ i < n, x i = .fin (v i) ∧ f.IsRep (v i) ∧ |v i| ≤ 2 ^ e) :
    ∃ m, npMean R.arith t n x = .fin m ∧ f.IsRep m ∧ |m| ≤ 2 ^ e ∧
      |m - (∑ i ∈ Finset.range n, v i) / n| ≤
        ((1 + f.u) ^ (t.depth + 1) - 1) * ((∑ i ∈ Finset.range n, |v i|) / n) + f.tiny / 2 := by
  obtain ⟨m, -, h1, h2, h3, -, h4, -⟩ := mean_step R hA.unit he1 he2 ht hn hx
  exact ⟨m, h1, h2, h3, h4⟩

/-- A power of two below the root of a positive number of the format. -/
theorem root_lower (hA : f.Adequate) {w s : ℝ} (hw : f.tiny ≤ w) (hs : R.rnd (Real.sqrt w) = .fin s) :
    f.tiny ≤ 2 * s ^ 2 ∧ 0 < s := by
  have hmin := hA.emin_le
  have hmax := hA.unit.2
  have hk : f.IsRep ((2 : ℝ) ^ (f.emin / 2)) := rep_pow (by omega) (by omega)
  have hk2 : ((2 : ℝ) ^ (f.emin / 2)) ^ 2 = 2 ^ (2 * (f.emin / 2)) := by
    rw [← zpow_natCast, ← zpow_mul, mul_comm]; rfl
  have h1 : ((2 : ℝ) ^ (f.emin / 2)) ^ 2 ≤ w := by
    refine le_trans ?_ hw
    rw [hk2]
    exact zpow_le_zpow_right₀ (by norm_num) (by omega)
  have hpos : (0 : ℝ) < 2 ^ (f.emin / 2) := by positivity
  have h2 := R.rep_le hk (Real.le_sqrt_of_sq_le h1) hs
  refine ⟨?_, hpos.trans_le h2⟩
  have h3 : ((2 : ℝ) ^ (f.emin / 2)) ^ 2 ≤ s ^ 2 := pow_le_pow_left₀ hpos.le h2 2
  have h4 : f.tiny ≤ 2 * (2 : ℝ) ^ (2 * (f.emin / 2)) := by
    have : (2 : ℝ) * 2 ^ (2 * (f.emin / 2)) = 2 ^ (2 * (f.emin / 2) + 1) := by
      rw [zpow_add₀ two_ne_zero, zpow_one, mul_comm]
    rw [this]
    exact zpow_le_zpow_right₀ (by norm_num) (by omega)
  rw [hk2] at h3
  linarith

/-- A deviation that is not tiny, compared with the rounded standard deviation. -/
theorem dev_bound (hA : f.Adequate) {n : Nat} (hn0 : 0 < n) {b d q S w s K : ℝ}
    (hd : |d - b| ≤ f.u * |b|) (hbig : n * f.tiny ≤ f.u / 2 * b ^ 2) (hq : R.rnd (d ^ 2) = .fin q) (hqS : q ≤ S)
    (hw : R.rnd (S / n) = .fin w) (hs : R.rnd (Real.sqrt w) = .fin s) (hK0 : 0 < K) (hK : n * (1 + 8 * f.u) ≤ K ^ 2) :
    |d| ≤ K * s ∧ 0 < w := by
  have hu0 : 0 < f.u := u_pos
  have hu := hA.u_small
  have ht0 : 0 < f.tiny := tiny_pos
  have hn' : (1 : ℝ) ≤ n := by exact_mod_cast hn0
  have hnp : (0 : ℝ) < n := by linarith
  have hb2 : 3 / 4 * b ^ 2 ≤ d ^ 2 := by
    have h1 : (1 - f.u) * |b| ≤ |d| := by
      have := abs_sub_abs_le_abs_sub b d
      rw [abs_sub_comm] at this
      linarith
    have h2 := pow_le_pow_left₀ (by have := abs_nonneg b; exact mul_nonneg (by linarith) this) h1 2
    rw [mul_pow, sq_abs, sq_abs] at h2
    have h3 : (3 / 4 : ℝ) ≤ (1 - f.u) ^ 2 := by nlinarith
    have := mul_le_mul_of_nonneg_right h3 (sq_nonneg b)
    linarith
  -- the square
  have hubd : f.u * (3 / 4 * b ^ 2) ≤ f.u * d ^ 2 := mul_le_mul_of_nonneg_left hb2 hu0.le
  have hnt : f.tiny ≤ n * f.tiny := le_mul_of_one_le_left ht0.le hn'
  have hs1 : (1 - f.u) * d ^ 2 ≤ q := lower_of_error R hq (sq_nonneg d) le_rfl (by linarith)
  have hqd : 3 / 4 * d ^ 2 ≤ q := by
    have : (3 / 4 : ℝ) * d ^ 2 ≤ (1 - f.u) * d ^ 2 := mul_le_mul_of_nonneg_right (by linarith) (sq_nonneg d)
    linarith
  have hq0 : 0 ≤ q := by have := sq_nonneg d; linarith
  -- the mean
  have hqn : f.tiny ≤ f.u * (q / n) := by
    rw [← mul_div_assoc, le_div_iff₀ hnp]
    have h1 : f.u * (3 / 4 * (3 / 4 * b ^ 2)) ≤ f.u * q := mul_le_mul_of_nonneg_left (by linarith) hu0.le
    linarith
  have hSn : q / n ≤ S / n := div_le_div_of_nonneg_right hqS hnp.le
  have hq1 : (1 - f.u) * (S / n) ≤ w := lower_of_error R hw ((div_nonneg hq0 hnp.le).trans hSn) hSn (by linarith)
  have hq2 : (1 - f.u) * (1 / n * q) ≤ w := by
    refine le_trans (mul_le_mul_of_nonneg_left ?_ (by linarith)) hq1
    rw [one_div, inv_mul_eq_div]
    exact hSn
  have hwt : f.tiny ≤ 2 * f.u * w := by
    have h1 : 1 / 2 * (q / n) ≤ w := by
      refine le_trans ?_ hq2
      rw [one_div (n : ℝ), inv_mul_eq_div]
      exact mul_le_mul_of_nonneg_right (by linarith) (div_nonneg hq0 hnp.le)
    have := mul_le_mul_of_nonneg_left h1 hu0.le
    linarith
  have hw0 : 0 < w := by
    by_contra hcon
    push Not at hcon
    have := mul_nonneg hu0.le (neg_nonneg.2 hcon)
    linarith
  -- the root
  have hroot : f.tiny ≤ 2 * (f.u * Real.sqrt w) := by
    have htu : f.tiny ≤ f.u := by
      have h1 := tiny_le_u hA
      have h2 : f.u * (f.u * f.u) ≤ f.u := by
        have : f.u * f.u ≤ 1 := by nlinarith
        nlinarith
      have h3 : f.tiny ≤ f.tiny * 2 ^ 60 := le_mul_of_one_le_right ht0.le (by norm_num)
      linarith
    have h1 : (f.tiny / (2 * f.u)) ^ 2 ≤ w := by
      rw [div_pow, div_le_iff₀ (by positivity)]
      have h2 : f.tiny ^ 2 ≤ f.tiny * f.u := by
        rw [sq]; exact mul_le_mul_of_nonneg_left htu ht0.le
      have h3 : f.tiny * f.u ≤ 2 * f.u * w * f.u := mul_le_mul_of_nonneg_right hwt hu0.le
      have h4 : 0 ≤ w * (2 * f.u ^ 2) := by positivity
      linarith [show w * (2 * f.u) ^ 2 = 2 * f.u * w * f.u + w * (2 * f.u ^ 2) by ring]
    have h2 := Real.le_sqrt_of_sq_le h1
    rw [div_le_iff₀ (by positivity)] at h2
    linarith
  have hr1 : (1 - f.u) * Real.sqrt w ≤ s := lower_of_error R hs (Real.sqrt_nonneg w) le_rfl hroot
  refine ⟨?_, hw0⟩
  refine scale_bound (b := 1 / (n : ℝ)) (q := w) (y := w) hu0 (by linarith) (by positivity) hK0 ?_ hs1 hq2 le_rfl
    (Real.sqrt_nonneg w) (Real.sq_sqrt hw0.le) hr1
  rw [mul_one_div, le_div_iff₀ hnp]
  linarith

/-- C117 (main): a column bounded by a power of two is standardized without overflow, whatever the order in which numpy
adds.  The standard deviation `s` is a number; if it is zero, every value is within `sqrt(2 n tiny / u)` of the mean and
no normalized value is a number; otherwise all of them are numbers, bounded by `2 ^ (prec + 2)`, their order is that of
the values, and a value that is not that close to the mean is at most about `sqrt(n)` standard deviations away. -/
theorem C117_standardize (hA : f.Adequate) {e : ℤ} (he0 : 0 ≤ e) (he : 2 * e + 3 ≤ f.emax) {x : Nat → Fl} {v : Nat → ℝ}
    {t t' : SumTree} {n : Nat} (ht : t.Adds n) (ht' : t'.Adds n) (hn : n < 2 ^ f.prec)
    (hx : ∀ i < n, x i = .fin (v i) ∧ f.IsRep (v i) ∧ |v i| ≤ 2 ^ e) :
    ∃ m s, npMean R.arith t n x = .fin m ∧ npStd R.arith t t' n x = .fin s ∧ 0 ≤ s ∧ s ≤ 2 ^ (e + 1) ∧
      (s = 0 → ∀ i < n, f.u / 2 * (v i - m) ^ 2 < n * f.tiny ∧
        ∀ z, zeroMeanUnitVar R.arith t t' n x i ≠ .fin z) ∧
      (s ≠ 0 → ∃ z : Nat → ℝ, (∀ i < n, zeroMeanUnitVar R.arith t t' n x i = .fin (z i) ∧ f.IsRep (z i) ∧
          |z i| ≤ 2 ^ (f.prec + 2) ∧
          (n * f.tiny ≤ f.u / 2 * (v i - m) ^ 2 → ∀ K, f.IsRep K → 0 < K → n * (1 + 8 * f.u) ≤ K ^ 2 → |z i| ≤ K)) ∧
        ∀ i < n, ∀ j < n, v i ≤ v j → z i ≤ z j) := by
  have hu0 : 0 < f.u := u_pos
  have hu := hA.u_small
  have ht0 : 0 < f.tiny := tiny_pos
  have hmin := hA.emin_le
  have hn0 := Adds_pos ht
  have hn' : (1 : ℝ) ≤ n := by exact_mod_cast hn0
  obtain ⟨m, -, hm, hmr, hm1, -, -, -⟩ := mean_step R hA.unit (e := e) (by omega) (by omega) ht hn hx
  obtain ⟨w, S, hw, hwr, hw0, hw1, hSw, hS0, hdev, -⟩ :=
    meanSq_step R hA.unit he0 (by omega) ht' hn hx hmr hm1
  have h3 : (2 : ℝ) ^ (2 * e + 2) = (2 ^ (e + 1)) ^ 2 := by
    rw [← zpow_natCast, ← zpow_mul]; congr 1; push_cast; ring
  have hroot : Real.sqrt w ≤ 2 ^ (e + 1) := by
    rw [Real.sqrt_le_left (by positivity), ← h3]
    exact hw1
  obtain ⟨s, hs, hsr, hs0, hs1⟩ := R.between rep_zero (rep_pow (f := f) (e := e + 1) (by omega) (by omega))
    (Real.sqrt_nonneg w) hroot
  have hstd : npStd R.arith t t' n x = .fin s := by
    rw [npStd, hm, hw, Arith.sqrt_fin _ hw0, R.arith_rnd, hs]
  have hval : ∀ i < n, ∀ d, R.rnd (v i - m) = .fin d →
      zeroMeanUnitVar R.arith t t' n x i = R.arith.div (.fin d) (.fin s) := by
    intro i hi d hd
    rw [zeroMeanUnitVar, standardize, hm, hstd, (hx i hi).1, Arith.sub_fin, R.arith_rnd, hd]
  -- a large K for the first part
  have hKbig : (n : ℝ) * (1 + 8 * f.u) ≤ (2 * n) ^ 2 := by nlinarith
  refine ⟨m, s, hm, hstd, hs0, hs1, ?_, ?_⟩
  · rintro rfl i hi
    obtain ⟨d, q, hd, hdr, hde, hq, hqr, hq0, hqS⟩ := hdev i hi
    constructor
    · by_contra hcon
      push Not at hcon
      obtain ⟨-, hwp⟩ := dev_bound R hA hn0 hde hcon hq hqS hSw hs (K := 2 * n) (by linarith) hKbig
      have := (root_lower R hA (hwr.tiny_le hwp) hs).2
      exact lt_irrefl _ this
    · intro z hz
      rw [hval i hi d hd] at hz
      unfold Arith.div at hz
      rw [Fl.div_fin', if_pos rfl, Fl.infOf] at hz
      split_ifs at hz <;> simp [Arith.fix] at hz
  · intro hsne
    have hspos : 0 < s := lt_of_le_of_ne hs0 (Ne.symm hsne)
    have hwp : 0 < w := by
      rcases hw0.lt_or_eq with h | h
      · exact h
      · rw [← h, Real.sqrt_zero, R.rnd_zero] at hs
        exact absurd (Fl.fin.inj hs).symm hsne
    have hst : f.tiny ≤ 2 * s ^ 2 := (root_lower R hA (hwr.tiny_le hwp) hs).1
    have hup : f.u * 2 ^ f.prec = 1 := by
      unfold u
      rw [← zpow_natCast, ← zpow_add₀ two_ne_zero]
      simp
    have hnu : n * f.u ≤ 1 := by
      rw [← hup, mul_comm]
      exact mul_le_mul_of_nonneg_left (by exact_mod_cast hn.le) hu0.le
    have hrepB : f.IsRep ((2 : ℝ) ^ (f.prec + 2)) := by
      have := rep_two_pow (f := f) (e := (f.prec : ℤ) + 2) (by omega) (by omega)
      exact_mod_cast this
    have hB : f.u * 2 ^ (f.prec + 2) = 4 := by rw [pow_add]; linarith
    have hfin : ∀ i, ∃ z d, i < n → R.rnd (v i - m) = .fin d ∧ R.rnd (d / s) = .fin z ∧ f.IsRep z ∧
        |z| ≤ 2 ^ (f.prec + 2) ∧
        (n * f.tiny ≤ f.u / 2 * (v i - m) ^ 2 → ∀ K, f.IsRep K → 0 < K → n * (1 + 8 * f.u) ≤ K ^ 2 → |z| ≤ K) := by
      intro i
      by_cases hi : i < n
      swap
      · exact ⟨0, 0, fun h => absurd h hi⟩
      obtain ⟨d, q, hd, hdr, hde, hq, hqr, hq0, hqS⟩ := hdev i hi
      have hK : n * f.tiny ≤ f.u / 2 * (v i - m) ^ 2 → ∀ K, 0 < K → n * (1 + 8 * f.u) ≤ K ^ 2 → |d / s| ≤ K := by
        intro h1 K h2 h4
        rw [abs_div, abs_of_pos hspos, div_le_iff₀ hspos]
        exact (dev_bound R hA hn0 hde h1 hq hqS hSw hs h2 h4).1
      have hle : |d / s| ≤ 2 ^ (f.prec + 2) := by
        rcases le_or_gt (n * f.tiny) (f.u / 2 * (v i - m) ^ 2) with h1 | h1
        · refine hK h1 _ (by positivity) ?_
          have h4 : (n : ℝ) ≤ 2 ^ f.prec := by exact_mod_cast hn.le
          have h5 : (1 : ℝ) ≤ 2 ^ f.prec := one_le_pow₀ (by norm_num)
          rw [pow_add]
          nlinarith
        · rw [abs_div, abs_of_pos hspos, div_le_iff₀ hspos]
          refine abs_le_of_sq_le_sq ?_ (by positivity)
          have k1 : |d| ≤ (1 + f.u) * |v i - m| := by
            have := abs_add_le (d - (v i - m)) (v i - m)
            rw [sub_add_cancel] at this
            linarith
          have k2 : d ^ 2 ≤ 2 * (v i - m) ^ 2 := by
            have := pow_le_pow_left₀ (abs_nonneg d) k1 2
            rw [mul_pow, sq_abs, sq_abs] at this
            have h5 : (1 + f.u) ^ 2 ≤ 2 := by nlinarith
            have := mul_le_mul_of_nonneg_right h5 (sq_nonneg (v i - m))
            linarith
          have k3 : f.u ^ 2 * d ^ 2 ≤ f.u ^ 2 * (2 ^ (f.prec + 2) * s) ^ 2 := by
            have e1 : f.u ^ 2 * (2 ^ (f.prec + 2) * s) ^ 2 = 16 * s ^ 2 := by
              rw [← mul_pow, ← mul_assoc, hB]; ring
            rw [e1]
            have e2 : f.u * d ^ 2 ≤ 4 * (n * f.tiny) := by
              have := mul_le_mul_of_nonneg_left k2 hu0.le
              linarith
            have e3 := mul_le_mul_of_nonneg_left e2 hu0.le
            have e4 := mul_le_mul_of_nonneg_right hnu ht0.le
            have e5 : f.u * (4 * (n * f.tiny)) = 4 * (n * f.u * f.tiny) := by ring
            rw [sq f.u, mul_assoc]
            have := sq_nonneg s
            linarith
          exact le_of_mul_le_mul_left k3 (by positivity)
      obtain ⟨z, hz, hzr, hz1, hz2⟩ := R.between hrepB.neg hrepB (abs_le.mp hle).1 (abs_le.mp hle).2
      refine ⟨z, d, fun _ => ⟨hd, hz, hzr, abs_le.mpr ⟨hz1, hz2⟩, fun h1 K hKr h2 h4 => ?_⟩⟩
      have h5 := abs_le.mp (hK h1 K h2 h4)
      exact abs_le.mpr ⟨R.rep_le hKr.neg h5.1 hz, R.le_rep hKr h5.2 hz⟩
    choose z d h using hfin
    refine ⟨z, fun i hi => ?_, fun i hi j hj hij => ?_⟩
    · obtain ⟨a1, a2, a3, a4, a5⟩ := h i hi
      exact ⟨by rw [hval i hi _ a1, Arith.div_fin _ hsne, R.arith_rnd, a2], a3, a4, a5⟩
    · obtain ⟨a1, a2, -⟩ := h i hi
      obtain ⟨b1, b2, -⟩ := h j hj
      have h4 : d i ≤ d j := R.mono (by linarith) a1 b1
      exact R.mono (div_le_div_of_nonneg_right h4 hspos.le) a2 b2

/-! ### A constant column -/

theorem tree_one {t : SumTree} (h : t.leaves.length = 1) : ∃ i, t = .leaf i := by
  cases t with
  | leaf i => exact ⟨i, rfl⟩
  | node l r =>
    have := leaves_pos l
    have := leaves_pos r
    simp only [SumTree.leaves, List.length_append] at h
    omega

theorem tree_two {t : SumTree} (h : t.leaves.length = 2) : ∃ i j, t = .node (.leaf i) (.leaf j) := by
  cases t with
  | leaf i => simp [SumTree.leaves] at h
  | node l r =>
    have h1 := leaves_pos l
    have h2 := leaves_pos r
    simp only [SumTree.leaves, List.length_append] at h
    obtain ⟨i, rfl⟩ := tree_one (t := l) (by omega)
    obtain ⟨j, rfl⟩ := tree_one (t := r) (by omega)
    exact ⟨i, j, rfl⟩

/-- Three equal numbers `c` are added as `c + c`, then `+ c`, in every order. -/
theorem eval_three (A : Arith) {x : Nat → Fl} {c : Fl} {t : SumTree} (h : t.leaves.length = 3)
    (hx : ∀ i ∈ t.leaves, x i = c) : t.eval A x = A.add (A.add c c) c := by
  cases t with
  | leaf i => simp [SumTree.leaves] at h
  | node l r =>
    have h1 := leaves_pos l
    have h2 := leaves_pos r
    simp only [SumTree.leaves, List.length_append, List.mem_append] at h hx
    rcases Nat.lt_or_ge l.leaves.length 2 with hl | hl
    · obtain ⟨i, rfl⟩ := tree_one (t := l) (by omega)
      obtain ⟨j, k, rfl⟩ := tree_two (t := r) (by omega)
      simp only [SumTree.eval, hx i (by simp [SumTree.leaves]), hx j (by simp [SumTree.leaves]),
        hx k (by simp [SumTree.leaves])]
      unfold Arith.add
      rw [SVGD.fl_add_comm]
    · obtain ⟨i, rfl⟩ := tree_one (t := r) (by omega)
      obtain ⟨j, k, rfl⟩ := tree_two (t := l) (by omega)
      simp only [SumTree.eval, hx i (by simp [SumTree.leaves]), hx j (by simp [SumTree.leaves]),
        hx k (by simp [SumTree.leaves])]

/-- Numbers of `float32` above `2 ^ (24 + k - 1)` are multiples of `2 ^ k`. -/
theorem float32_mult {y : ℝ} (hy : float32.IsRep y) (k : ℕ) (h : (2 : ℝ) ^ (23 + k) ≤ |y|) : ∃ j : ℤ, y = j * 2 ^ k := by
  obtain ⟨m, e, hm, -, -, rfl⟩ := hy
  have hk : (k : ℤ) ≤ e := by
    by_contra hcon
    push Not at hcon
    have h1 : |(m : ℝ)| < 2 ^ 24 := by
      have : |m| < 2 ^ 24 := hm
      exact_mod_cast this
    have h2 : (2 : ℝ) ^ e ≤ 2 ^ ((k : ℤ) - 1) := zpow_le_zpow_right₀ (by norm_num) (by omega)
    rw [abs_mul, abs_of_pos (by positivity : (0 : ℝ) < 2 ^ e)] at h
    have h3 : |(m : ℝ)| * 2 ^ e < 2 ^ 24 * 2 ^ ((k : ℤ) - 1) :=
      mul_lt_mul h1 h2 (by positivity) (by positivity)
    have h4 : (2 : ℝ) ^ 24 * 2 ^ ((k : ℤ) - 1) = 2 ^ (23 + k) := by
      rw [← zpow_natCast, ← zpow_natCast, ← zpow_add₀ two_ne_zero]
      congr 1
      push_cast
      ring
    linarith
  obtain ⟨d, hd⟩ := Int.eq_ofNat_of_zero_le (sub_nonneg.2 hk)
  refine ⟨m * 2 ^ d, ?_⟩
  rw [show e = d + k by omega, zpow_add₀ two_ne_zero]
  push_cast
  simp only [zpow_natCast]
  ring

/-- C117 (constant column): in exact arithmetic a constant column is standardized to `NaN`.  In `float32` the rounding
error of the mean is enough to give it a standard deviation: three values 11184814 become three times 1 or three times
-1, whatever the order of the additions and the way ties are broken. -/
theorem C117_constant (R : Rounding float32) {x : Nat → Fl} {t t' : SumTree} (ht : t.Adds 3) (ht' : t'.Adds 3)
    (hx : ∀ i < 3, x i = .fin 11184814) :
    npStd R.arith t t' 3 x = .fin 1 ∧
      ((∀ i < 3, zeroMeanUnitVar R.arith t t' 3 x i = .fin 1) ∨
        ∀ i < 3, zeroMeanUnitVar R.arith t t' 3 x i = .fin (-1)) := by
  have rep : ∀ k : ℤ, |k| < 2 ^ 24 → float32.IsRep k := fun k hk => rep_int (by norm_num [float32]) (by norm_num [float32]) hk
  have r4 : ∀ k : ℤ, |k| < 2 ^ 24 → float32.IsRep (k * 2 ^ (2 : ℤ)) := fun k hk =>
    ⟨k, 2, hk, by norm_num [float32], by norm_num [float32], rfl⟩
  have l3 : R.arith.lit ((3 : ℕ) : ℝ) = .fin 3 := by
    have := lit_nat R float32_unit (n := 3) (by norm_num [float32])
    exact_mod_cast this
  -- the mean
  have s2 : R.rnd ((11184814 : ℝ) + 11184814) = .fin 22369628 := by
    rw [show (11184814 : ℝ) + 11184814 = 22369628 by norm_num]
    refine R.exact ?_
    have := r4 5592407 (by norm_num)
    norm_num at this
    exact this
  obtain ⟨y, hyr, hy⟩ := near_of_le R (x := (22369628 : ℝ) + 11184814) (by
    have := (r4 8388611 (by norm_num)).abs_le
    norm_num at this ⊢
    linarith)
  have hy1 := R.nearest hy 33554440 (by have := r4 8388610 (by norm_num); norm_num at this; exact this)
  norm_num at hy1
  have hy2 := abs_le.mp hy1
  obtain ⟨j, hj⟩ := float32_mult hyr 2 (by
    rw [abs_of_nonneg (by linarith)]
    norm_num
    linarith)
  have hj1 : j = 8388610 ∨ j = 8388611 := by
    have h1 : (8388610 : ℝ) ≤ j := by linarith
    have h2 : (j : ℝ) ≤ 8388611 := by linarith
    have h1' : 8388610 ≤ j := by exact_mod_cast h1
    have h2' : j ≤ 8388611 := by exact_mod_cast h2
    omega
  have hmean : ∃ b : ℝ, (b = 1 ∨ b = -1) ∧ npMean R.arith t 3 x = .fin (11184814 - b) := by
    have third : ∀ c : ℤ, 2 ^ 23 < c → c + 1 < 2 ^ 24 → ∀ a : ℝ, |a - c| < 1 / 2 → R.rnd a = .fin c := by
      intro c h1 h2 a ha
      have hcr := rep c (by rw [abs_of_pos (by omega)]; omega)
      have ha' := abs_lt.mp ha
      have h1' : (2 : ℝ) ^ 23 + 1 ≤ c := by exact_mod_cast h1
      have h2' : (c : ℝ) + 1 ≤ 2 ^ 24 := by exact_mod_cast h2.le
      obtain ⟨w, hwr, hw⟩ := near_of_le R (x := a) (by
        have := (rep (c + 1) (by rw [abs_of_pos (by omega)]; omega)).abs_le
        push_cast at this
        rw [abs_of_pos (by linarith)] at this ⊢
        linarith)
      have h3 := R.nearest hw c hcr
      have h4 := abs_le.mp h3
      obtain ⟨i, hi⟩ := float32_mult hwr 0 (by
        have : (0 : ℝ) ≤ w := by linarith
        rw [abs_of_nonneg this]
        norm_num
        linarith)
      rw [pow_zero, mul_one] at hi
      have h5 : |(i : ℝ) - c| < 1 := by
        rw [← hi]
        calc |w - c| ≤ |w - a| + |a - c| := abs_sub_le _ _ _
          _ < 1 := by rw [abs_sub_comm w a]; linarith
      have h6 : |i - c| < 1 := by exact_mod_cast h5
      have h7 : i = c := by have := Int.abs_lt_one_iff.mp h6; omega
      rw [hw, hi, h7]
    have he : npMean R.arith t 3 x = R.rnd (y / 3) := by
      rw [npMean, eval_three R.arith (Adds_length ht) fun i hi => hx i ((Adds_mem ht).1 hi), l3, Arith.add_fin, R.arith_rnd,
        s2, Arith.add_fin, R.arith_rnd, hy, Arith.div_fin _ (by norm_num), R.arith_rnd]
    rcases hj1 with h | h
    · refine ⟨1, Or.inl rfl, ?_⟩
      rw [he, third 11184813 (by norm_num) (by norm_num) _ (by rw [hj, h]; norm_num)]
      norm_num
    · refine ⟨-1, Or.inr rfl, ?_⟩
      rw [he, third 11184815 (by norm_num) (by norm_num) _ (by rw [hj, h]; norm_num)]
      norm_num
  obtain ⟨b, hb, hm⟩ := hmean
  have hbr : float32.IsRep b := by
    rcases hb with rfl | rfl
    · exact_mod_cast rep 1 (by norm_num)
    · exact_mod_cast rep (-1) (by norm_num)
  have hb2 : b ^ 2 = 1 := by rcases hb with rfl | rfl <;> norm_num
  have hd : R.rnd ((11184814 : ℝ) - (11184814 - b)) = .fin b := by rw [sub_sub_cancel]; exact R.exact hbr
  have i1 : R.rnd 1 = .fin 1 := R.exact (by exact_mod_cast rep 1 (by norm_num))
  have i2 : R.rnd (1 + 1) = .fin 2 := by
    rw [show (1 : ℝ) + 1 = 2 by norm_num]; exact R.exact (by exact_mod_cast rep 2 (by norm_num))
  have i3 : R.rnd (2 + 1) = .fin 3 := by
    rw [show (2 : ℝ) + 1 = 3 by norm_num]; exact R.exact (by exact_mod_cast rep 3 (by norm_num))
  have hstd : npStd R.arith t t' 3 x = .fin 1 := by
    rw [npStd, hm, npMeanSq, npMean, eval_three R.arith (c := .fin 1) (Adds_length ht') fun i hi => by
      rw [hx i ((Adds_mem ht').1 hi), Arith.sub_fin, R.arith_rnd, hd, Arith.pow_fin, R.arith_rnd, hb2, i1]]
    rw [l3, Arith.add_fin, R.arith_rnd, i2, Arith.add_fin, R.arith_rnd, i3, Arith.div_fin _ (by norm_num), R.arith_rnd,
      div_self (by norm_num), i1, Arith.sqrt_fin _ zero_le_one, Real.sqrt_one, R.arith_rnd, i1]
  refine ⟨hstd, ?_⟩
  have hz : ∀ i < 3, zeroMeanUnitVar R.arith t t' 3 x i = .fin b := by
    intro i hi
    rw [zeroMeanUnitVar, standardize, hm, hstd, hx i hi, Arith.sub_fin, R.arith_rnd, hd, Arith.div_fin _ one_ne_zero,
      R.arith_rnd, div_one, R.exact hbr]
  rcases hb with rfl | rfl
  · exact Or.inl hz
  · exact Or.inr hz

/-! ## Predictions -/

/-- C118 (main): if the outputs of the sampled networks for a row are bounded by a power of two, `predict` returns
numbers: a mean with the same bound and a variance that is never negative, both close to the exact ones; the variance
also contains the squared error of the mean. -/
theorem C118_predict (hA : f.Adequate) {e : ℤ} (he0 : 0 ≤ e) (he : 2 * e + 2 ≤ f.emax) {x : Nat → Fl} {v : Nat → ℝ}
    {t t' : SumTree} {n : Nat} (ht : t.Adds n) (ht' : t'.Adds n) (hn : n < 2 ^ f.prec)
    (hx : ∀ i < n, x i = .fin (v i) ∧ f.IsRep (v i) ∧ |v i| ≤ 2 ^ e) :
    ∃ m w, predictRow R.arith t t' n x = (.fin m, .fin w) ∧ f.IsRep m ∧ f.IsRep w ∧ |m| ≤ 2 ^ e ∧ 0 ≤ w ∧
      w ≤ 2 ^ (2 * e + 2) ∧
      ∀ μ V, μ = (∑ i ∈ Finset.range n, v i) / n → V = (∑ i ∈ Finset.range n, (v i - μ) ^ 2) / n →
        |m - μ| ≤ ((1 + f.u) ^ (t.depth + 1) - 1) * ((∑ i ∈ Finset.range n, |v i|) / n) + f.tiny / 2 ∧
        |w - (V + (m - μ) ^ 2)| ≤
          ((1 + f.u) ^ (t'.depth + 4) - 1) * (V + (m - μ) ^ 2) + (1 + f.u) ^ (t'.depth + 1) * f.tiny := by
  have hmin := hA.emin_le
  have hn0 : (0 : ℝ) < n := by exact_mod_cast Adds_pos ht
  obtain ⟨m, -, hm, hmr, hm1, -, hme, -⟩ := mean_step R hA.unit (e := e) (by omega) (by omega) ht hn hx
  obtain ⟨w, S, hw, hwr, hw0, hw1, -, -, -, hwe⟩ := meanSq_step R hA.unit he0 he ht' hn hx hmr hm1
  refine ⟨m, w, by rw [predictRow, hm, hw], hmr, hwr, hm1, hw0, hw1, ?_⟩
  rintro μ V hμ hV
  have key : (∑ i ∈ Finset.range n, (v i - m) ^ 2) / n = V + (m - μ) ^ 2 := by
    have h1 : ∑ i ∈ Finset.range n, (v i - m) ^ 2 =
        ∑ i ∈ Finset.range n, (v i - μ) ^ 2 + 2 * (μ - m) * (∑ i ∈ Finset.range n, v i - n * μ) + n * (m - μ) ^ 2 := by
      have h2 : ∀ i ∈ Finset.range n, (v i - m) ^ 2 = (v i - μ) ^ 2 + 2 * (μ - m) * (v i - μ) + (m - μ) ^ 2 := by
        intro i _
        ring
      rw [Finset.sum_congr rfl h2, Finset.sum_add_distrib, Finset.sum_add_distrib, ← Finset.mul_sum,
        Finset.sum_sub_distrib, Finset.sum_const, Finset.sum_const, Finset.card_range, nsmul_eq_mul, nsmul_eq_mul]
    have h3 : ∑ i ∈ Finset.range n, v i - n * μ = 0 := by
      rw [hμ]
      field_simp
      ring
    rw [h1, h3, hV]
    field_simp
    ring
  rw [key] at hwe
  exact ⟨by rw [hμ]; exact hme, hwe⟩

/-- C118 (one network): the prediction is the output of the network and the variance is zero, exactly. -/
theorem C118_single (hu : f.HasUnit) {x : Nat → Fl} {a : ℝ} {t t' : SumTree} (ht : t.Adds 1) (ht' : t'.Adds 1)
    (ha : f.IsRep a) (hx : x 0 = .fin a) : predictRow R.arith t t' 1 x = (.fin a, .fin 0) := by
  have one : ∀ t : SumTree, t.Adds 1 → ∀ y : Nat → Fl, ∀ b : ℝ, f.IsRep b → y 0 = .fin b →
      npMean R.arith t 1 y = .fin b := by
    intro t ht y b hb hy
    obtain ⟨i, rfl⟩ := tree_one (Adds_length ht)
    have hi : i = 0 := by
      have := (Adds_mem ht (i := i)).1 (by simp [SumTree.leaves])
      omega
    subst hi
    have hl := lit_nat R hu (n := 1) (by
      have := f.one_lt_prec
      exact Nat.one_lt_two_pow (by omega))
    rw [Nat.cast_one] at hl
    rw [npMean, SumTree.eval, hy, Nat.cast_one, hl, Arith.div_fin _ one_ne_zero, div_one, R.arith_rnd, R.exact hb]
  rw [predictRow, one t ht x a ha hx, npMeanSq, one t' ht' _ 0 rep_zero]
  rw [hx, Arith.sub_fin, sub_self, R.arith_rnd, R.rnd_zero, Arith.pow_fin, R.arith_rnd]
  norm_num

/-- C118 (with normalized labels): undoing the normalization keeps mean and variance numbers and the variance
nonnegative. -/
theorem C118_unnormalized (hA : f.Adequate) {e k : ℤ} (he0 : 0 ≤ e) (hk0 : 0 ≤ k) (he : 2 * e + 2 + 2 * k ≤ f.emax)
    {x : Nat → Fl} {v : Nat → ℝ} {t t' : SumTree} {n : Nat} (ht : t.Adds n) (ht' : t'.Adds n) (hn : n < 2 ^ f.prec)
    (hx : ∀ i < n, x i = .fin (v i) ∧ f.IsRep (v i) ∧ |v i| ≤ 2 ^ e) {μ s : ℝ} (hμ : |μ| ≤ 2 ^ k) (hs0 : 0 ≤ s)
    (hs : s ≤ 2 ^ k) :
    ∃ m w, predictRowUnnormalized R.arith t t' n x (.fin μ) (.fin s) = (.fin m, .fin w) ∧ f.IsRep m ∧ f.IsRep w ∧
      |m| ≤ 2 ^ (e + k + 1) ∧ 0 ≤ w ∧ w ≤ 2 ^ (2 * e + 2 + 2 * k) := by
  have hmin := hA.emin_le
  obtain ⟨m, w, hp, hmr, hwr, hm, hw0, hw1, -⟩ := C118_predict R hA he0 (by omega) ht ht' hn hx
  have r : ∀ j : ℤ, 0 ≤ j → j ≤ f.emax → f.IsRep ((2 : ℝ) ^ j) := fun j h1 h2 => rep_pow (by omega) h2
  have hadd : ∀ i j : ℤ, (2 : ℝ) ^ (i + j) = 2 ^ i * 2 ^ j := fun i j => zpow_add₀ two_ne_zero i j
  -- the mean
  have h1 : |m * s| ≤ 2 ^ (e + k) := by
    rw [abs_mul, abs_of_nonneg hs0, hadd]
    exact mul_le_mul hm hs hs0 (by positivity)
  obtain ⟨a, ha, -, ha1, ha2⟩ := R.between (r (e + k) (by omega) (by omega)).neg (r (e + k) (by omega) (by omega))
    (abs_le.mp h1).1 (abs_le.mp h1).2
  have h2 : |a + μ| ≤ 2 ^ (e + k + 1) := by
    have h3 : |a| ≤ 2 ^ (e + k) := abs_le.mpr ⟨ha1, ha2⟩
    have h4 : (2 : ℝ) ^ k ≤ 2 ^ (e + k) := zpow_le_zpow_right₀ (by norm_num) (by omega)
    have := abs_add_le a μ
    rw [hadd, zpow_one]
    linarith
  obtain ⟨b, hb, hbr, hb1, hb2⟩ := R.between (r (e + k + 1) (by omega) (by omega)).neg
    (r (e + k + 1) (by omega) (by omega)) (abs_le.mp h2).1 (abs_le.mp h2).2
  -- the variance
  have h5 : s ^ 2 ≤ 2 ^ (2 * k) := by
    have : (2 : ℝ) ^ (2 * k) = (2 ^ k) ^ 2 := by rw [← zpow_natCast, ← zpow_mul, mul_comm]; rfl
    rw [this]
    exact pow_le_pow_left₀ hs0 hs 2
  obtain ⟨c, hc, -, hc0, hc1⟩ := R.between rep_zero (r (2 * k) (by omega) (by omega)) (sq_nonneg s) h5
  have h6 : w * c ≤ 2 ^ (2 * e + 2 + 2 * k) := by
    rw [hadd]
    exact mul_le_mul hw1 hc1 hc0 (by positivity)
  obtain ⟨g, hg, hgr, hg0, hg1⟩ := R.between rep_zero (r (2 * e + 2 + 2 * k) (by omega) he) (mul_nonneg hw0 hc0) h6
  refine ⟨b, g, ?_, hbr, hgr, abs_le.mpr ⟨hb1, hb2⟩, hg0, hg1⟩
  simp only [predictRowUnnormalized, hp, unstandardize, Arith.mul_fin, R.arith_rnd, ha, Arith.add_fin, hb, Arith.pow_fin,
    hc, hg]

/-! ## The hypotheses are met -/

/-- A column of `float32` numbers. -/
example (R : Rounding float32) : ∃ m s, npMean R.arith (.node (.leaf 0) (.node (.leaf 2) (.leaf 1))) 3
      (fun i => .fin ((2 : ℝ) ^ (i : ℤ))) = .fin m ∧
    npStd R.arith (.node (.leaf 0) (.node (.leaf 2) (.leaf 1))) (.node (.node (.leaf 0) (.leaf 1)) (.leaf 2)) 3
      (fun i => .fin ((2 : ℝ) ^ (i : ℤ))) = .fin s ∧ 0 ≤ s := by
  obtain ⟨m, s, h1, h2, h3, -⟩ := C117_standardize R float32_adequate (e := 2) (by norm_num) (by norm_num [float32])
    (x := fun i => .fin ((2 : ℝ) ^ (i : ℤ))) (v := fun i => (2 : ℝ) ^ (i : ℤ))
    (t := .node (.leaf 0) (.node (.leaf 2) (.leaf 1))) (t' := .node (.node (.leaf 0) (.leaf 1)) (.leaf 2)) (n := 3)
    (by unfold SumTree.Adds; decide) (by unfold SumTree.Adds; decide) (by norm_num [float32])
    (fun i hi => ⟨rfl, rep_pow (by simp only [float32]; omega) (by simp only [float32]; omega), by
      rw [abs_of_pos (by positivity)]
      exact zpow_le_zpow_right₀ (by norm_num) (by omega)⟩)
  exact ⟨m, s, h1, h2, h3⟩

/-- Two orders of three elements. -/
example : (SumTree.node (.leaf 0) (.node (.leaf 2) (.leaf 1))).Adds 3 ∧
    (SumTree.node (.node (.leaf 1) (.leaf 0)) (.leaf 2)).Adds 3 := by
  unfold SumTree.Adds; decide

/-- The outputs of two networks in `float64`. -/
example (R : Rounding float64) : ∃ m w, predictRow R.arith (.node (.leaf 0) (.leaf 1)) (.node (.leaf 1) (.leaf 0)) 2
    (fun i => .fin ((2 : ℝ) ^ (i : ℤ))) = (.fin m, .fin w) ∧ 0 ≤ w := by
  obtain ⟨m, w, h1, -, -, -, h2, -⟩ := C118_predict R float64_adequate (e := 2) (by norm_num) (by norm_num [float64])
    (x := fun i => .fin ((2 : ℝ) ^ (i : ℤ))) (v := fun i => (2 : ℝ) ^ (i : ℤ))
    (t := .node (.leaf 0) (.leaf 1)) (t' := .node (.leaf 1) (.leaf 0)) (n := 2)
    (by unfold SumTree.Adds; decide) (by unfold SumTree.Adds; decide) (by norm_num [float64])
    (fun i hi => ⟨rfl, rep_pow (by simp only [float64]; omega) (by simp only [float64]; omega), by
      rw [abs_of_pos (by positivity)]
      exact zpow_le_zpow_right₀ (by norm_num) (by omega)⟩)
  exact ⟨m, w, h1, h2⟩

end PySGMCMC.Rounded
