import Verif.Props.SampleChains

/-!
# Traces without variable names
-/

namespace PySGMCMC.SampleChains

theorem toString_injective {i j : Nat} (h : toString i = toString j) : i = j := by
  have h1 : Nat.toDigits 10 i = Nat.toDigits 10 j := by
    have h' : (Nat.repr i).toList = (Nat.repr j).toList := by
      show (toString i).toList = (toString j).toList
      rw [h]
    simpa using h'
  rw [← Nat.ofDigitChars_ten_toDigits (n := i), ← Nat.ofDigitChars_ten_toDigits (n := j), h1]

/-- The decimal numerals of `0, …, n - 1` are distinct. -/
theorem numerals_nodup (n : Nat) : ((List.range n).map fun i => toString i).Nodup :=
  List.Nodup.map (fun _ _ h => toString_injective h) List.nodup_range

/-- **C79** A trace built without names from a rectangular table with `m` columns names its variables `"0"`, …, `"m-1"`;
the name `"j"` is that of column `j`, for any number of columns (the names are distinct), and other names are unknown. -/
theorem C79_anonymous (chain : Int) (rows : List (List Obj)) (m : Nat) (hm : 0 < m) (hne : rows ≠ [])
    (hrect : ∀ r ∈ rows, r.length = m) :
    ∃ tr, mkTrace chain (.seq (rows.map .list)) none = .ok tr ∧ tr.chain = chain ∧ length tr = rows.length ∧
      tr.varnames.length = m ∧ tr.varnames.Nodup ∧
      (∀ j < m, ∀ burn thin : Nat, 0 < thin → ∃ vs, getValues tr (toString j) burn thin = .ok vs ∧
        ∀ k, vs[k]? = (rows[burn + k * thin]?).bind fun r => r[j]?) ∧
      ∀ name, (∀ j < m, name ≠ toString j) → ∀ burn thin, ∃ e, getValues tr name burn thin = .error (.value e) := by
  have hlen : ((List.range m).map fun i => toString i).length = m := by simp
  obtain ⟨tr, h1, h2, h3, h4, h5⟩ := C46_table chain rows ((List.range m).map fun i => toString i) hne
    (fun r hr => by rw [hlen]; exact hrect r hr) (by simp; omega) (numerals_nodup m)
  refine ⟨tr, ?_, h2, h4, by rw [h3, hlen], by rw [h3]; exact numerals_nodup m, ?_, ?_⟩
  · rw [← h1]
    obtain ⟨r0, rs, rfl⟩ := List.exists_cons_of_ne_nil hne
    have h0 : r0.length = m := hrect r0 (by simp)
    simp only [mkTrace, namesOr, List.map_cons, Obj.isFloat, Bool.false_eq_true, if_false, Obj.len, h0, bind, Except.bind]
  · intro j hj burn thin ht
    exact h5 j (toString j) (by simp [hj]) burn thin ht
  · intro name hname burn thin
    unfold getValues
    have : tr.varnames.idxOf? name = none := by
      rw [h3, List.idxOf?_eq_none_iff]
      intro hc
      obtain ⟨j, hj, e⟩ := List.mem_map.1 hc
      exact hname j (List.mem_range.1 hj) e.symm
    rw [this]
    exact ⟨_, rfl⟩

/-- **C79** A chain of plain floats is a trace with the single variable `"0"`. -/
theorem C79_scalar (chain : Int) (xs : List (Bool × Fl)) (hne : xs ≠ []) :
    ∃ tr, mkTrace chain (.seq (xs.map fun x => .float x.1 x.2)) none = .ok tr ∧ tr.varnames = ["0"] ∧
      getValues tr "0" 0 1 = .ok (xs.map fun x => .float x.1 x.2) := by
  obtain ⟨x0, xs', rfl⟩ := List.exists_cons_of_ne_nil hne
  refine ⟨⟨chain, ((x0 :: xs').map fun x => Obj.list [.float x.1 x.2]), 1, ["0"]⟩, ?_, rfl, ?_⟩
  · simp only [mkTrace, namesOr, List.map_cons, Obj.isFloat, if_true, bind, Except.bind, List.map_map]
    rfl
  · obtain ⟨vs, h1, h2⟩ := C46_get_values
      ⟨chain, ((x0 :: xs').map fun x => Obj.list [.float x.1 x.2]), 1, ["0"]⟩ "0" 0 rfl (by intro i hi; omega)
      (fun s => match s with
        | .list [a] => a
        | s => s) (by
          intro s hs
          obtain ⟨x, -, rfl⟩ := List.mem_map.1 hs
          rfl) 0 1 (by norm_num)
    rw [show getValues _ "0" 0 1 = .ok vs from h1]
    congr 1
    apply List.ext_getElem?
    intro k
    rw [h2]
    simp only [List.getElem?_map, Nat.zero_add, Nat.mul_one]
    cases (x0 :: xs')[k]? <;> rfl

/-- Twelve columns: the names have different lengths. -/
example : ∃ tr, mkTrace 3 (.seq ([List.replicate 12 (Obj.float true 0)].map .list)) none = .ok tr ∧
    tr.varnames = ["0", "1", "2", "3", "4", "5", "6", "7", "8", "9", "10", "11"] := ⟨_, rfl, rfl⟩

end PySGMCMC.SampleChains
