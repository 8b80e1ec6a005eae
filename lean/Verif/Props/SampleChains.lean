import Verif.Lemmas.TensorRow
import Verif.Lemmas.SampleChains
import Verif.Props.SamplerBase

/-! # C46–C52: traces -/

namespace PySGMCMC.SampleChains

@[simp] theorem namesOr_some (names : List String) (n : Nat) : namesOr (some names) n = names := rfl

/-! ## C46 -/

theorem idxOf?_first (l : List String) (x : String) (j : Nat) (h : l[j]? = some x) (hf : ∀ i < j, l[i]? ≠ some x) :
    l.idxOf? x = some j := by
  induction l generalizing j with
  | nil => simp at h
  | cons y ys ih =>
    rw [List.idxOf?_cons]
    cases j with
    | zero =>
      obtain rfl : y = x := by simpa using h
      simp
    | succ j =>
      have hyx : ¬ y = x := by
        rintro rfl
        exact hf 0 (by omega) (by simp)
      have := ih j (by simpa using h) fun i hi => by simpa using hf (i + 1) (by omega)
      simp [hyx, this]

/-- C46: for a known name (`j` is the first position that carries it), non-negative `burn` and positive `thin`,
`get_values` returns the `j`-th entries of the samples `burn`, `burn + thin`, …, in this order. -/
theorem C46_get_values (tr : Trace) (name : String) (j : Nat) (hname : tr.varnames[j]? = some name)
    (hfirst : ∀ i < j, tr.varnames[i]? ≠ some name) (v : Obj → Obj) (hv : ∀ s ∈ tr.samples, s.item j = .ok (v s))
    (burn thin : Nat) (ht : 0 < thin) :
    ∃ vs, getValues tr name burn thin = .ok vs ∧ ∀ k, vs[k]? = (tr.samples[burn + k * thin]?).map v := by
  obtain ⟨r, hr, hk⟩ := pyGetSlice_from tr.samples burn thin ht
  refine ⟨r.map v, ?_, fun k => by rw [List.getElem?_map, hk]⟩
  unfold getValues
  rw [idxOf?_first _ _ _ hname hfirst]
  simp only [hr, bind, Except.bind]
  apply mapM_ok
  intro s hs
  obtain ⟨k, hks⟩ := List.mem_iff_getElem?.1 hs
  rw [hk] at hks
  exact hv s (List.mem_of_getElem? hks)

/-- C46 for a trace built from a rectangular table of samples. -/
theorem C46_table (chain : Int) (rows : List (List Obj)) (names : List String) (hne : rows ≠ [])
    (hrect : ∀ r ∈ rows, r.length = names.length) (hn : names ≠ []) (hd : names.Nodup) :
    ∃ tr, mkTrace chain (.seq (rows.map .list)) (some names) = .ok tr ∧ tr.chain = chain ∧ tr.varnames = names
      ∧ length tr = rows.length
      ∧ ∀ (j : Nat) (name : String), names[j]? = some name → ∀ burn thin : Nat, 0 < thin →
        ∃ vs, getValues tr name burn thin = .ok vs ∧ ∀ k, vs[k]? = (rows[burn + k * thin]?).bind fun r => r[j]? := by
  obtain ⟨r0, rs, rfl⟩ := List.exists_cons_of_ne_nil hne
  have h0 : r0.length = names.length := hrect r0 (by simp)
  have hpos : 0 < names.length := List.length_pos_iff.2 hn
  refine ⟨⟨chain, (r0 :: rs).map .list, names.length, names⟩, ?_, rfl, rfl, by simp [length], ?_⟩
  · simp only [mkTrace, namesOr_some, List.map_cons, Obj.isFloat, Bool.false_eq_true, if_false, Obj.len, h0, bind, Except.bind]
    rw [if_neg (by omega)]
    simp
  · intro j name hj burn thin ht
    have hjl : j < names.length := (List.getElem?_eq_some_iff.1 hj).1
    have hfirst : ∀ i < j, names[i]? ≠ some name := by
      intro i hi hc
      obtain ⟨h1, h2⟩ := List.getElem?_eq_some_iff.1 hc
      obtain ⟨h3, h4⟩ := List.getElem?_eq_some_iff.1 hj
      have := (List.Nodup.getElem_inj_iff hd).1 (h2.trans h4.symm)
      omega
    obtain ⟨vs, h1, h2⟩ := C46_get_values ⟨chain, (r0 :: rs).map .list, names.length, names⟩ name j hj hfirst
      (fun s => match s with
        | .list l => l.getD j (.float true .nan)
        | s => s) (by
        intro s hs
        obtain ⟨r, hr, rfl⟩ := List.mem_map.1 hs
        have : j < r.length := by rw [hrect r hr]; exact hjl
        simp [Obj.item, List.getElem?_eq_getElem this, List.getD_eq_getElem?_getD]) burn thin ht
    refine ⟨vs, h1, fun k => ?_⟩
    rw [h2]
    simp only [List.getElem?_map]
    cases hrow : (r0 :: rs)[burn + k * thin]? with
    | none => rfl
    | some r =>
      have : j < r.length := by rw [hrect r (List.mem_of_getElem? hrow)]; exact hjl
      simp [List.getElem?_eq_getElem this, List.getD_eq_getElem?_getD]

/-- C46 for samples that are arrays with one entry per variable along their first axis: variable `j` of a sample is the
subarray `sample[j]`; entries of one-dimensional samples are numpy floats. -/
theorem C46_array (t : Tensor Fl) (m : Nat) (ds : List Nat) (ht : t.shape = m :: ds) (hwf : t.WF) (j : Nat) :
    (j < m → ds = [] → ∃ x, (Obj.array t).item j = .ok (.float true x) ∧ t.get [j] = some x) ∧
    (j < m → ds ≠ [] → ∃ s : Tensor Fl, (Obj.array t).item j = .ok (.array s) ∧ s.shape = ds ∧
      ∀ idx, s.get idx = t.get (j :: idx)) ∧
    (m ≤ j → (Obj.array t).item j = .error .index) := by
  refine ⟨fun hj hd => ?_, fun hj hd => ?_, fun hj => ?_⟩
  · subst hd
    have hlen : j < t.data.length := by
      unfold Tensor.WF at hwf
      rw [hwf, ht]
      simpa using hj
    refine ⟨t.data[j], ?_, ?_⟩
    · simp [Obj.item, ht, hj, Obj.ofTensor, List.getElem?_take, List.getElem?_drop, List.getElem?_eq_getElem hlen]
    · simp [Tensor.get, ht, Tensor.validIdx, hj, Tensor.offset, List.getElem?_eq_getElem hlen]
  · refine ⟨⟨ds, (t.data.drop (j * ds.prod)).take ds.prod⟩, ?_, rfl, t.sub_get m ds ht j hj⟩
    obtain ⟨d, ds, rfl⟩ := List.exists_cons_of_ne_nil hd
    simp only [Obj.item, ht, hj, if_true, Obj.ofTensor]
  · simp only [Obj.item, ht, if_neg (not_lt.2 hj)]

example : (Obj.array ⟨[2, 1], [.fin 5, .fin 7]⟩).item 1 = .ok (.array ⟨[1], [.fin 7]⟩) := rfl

/-- C46: a negative `burn` counts from the end of the chain. -/
theorem C46_negative_burn (tr : Trace) (name : String) (b thin : Nat) (hb : 0 < b) (ht : 0 < thin) :
    getValues tr name (-(b : Int)) thin = getValues tr name ((length tr - b : Nat) : Int) thin := by
  unfold getValues length
  rw [pyGetSlice_neg _ _ _ hb ht]

/-- C46: unknown names give `ValueError`, also `thin = 0`. -/
theorem C46_errors (tr : Trace) (name : String) (burn thin : Int) :
    (name ∉ tr.varnames → getValues tr name burn thin = .error (.value name))
    ∧ (name ∈ tr.varnames → thin = 0 → ∃ m, getValues tr name burn thin = .error (.value m)) := by
  constructor
  · intro h
    unfold getValues
    have : tr.varnames.idxOf? name = none := List.idxOf?_eq_none_iff.2 h
    rw [this]
  · rintro h rfl
    unfold getValues
    cases hi : tr.varnames.idxOf? name with
    | none => exact absurd h (List.idxOf?_eq_none_iff.1 hi)
    | some j => exact ⟨_, by simp only [pyGetSlice_zero]; rfl⟩

/-! ## C47 -/

/-- `trace[i]` is `get_values` of the `i`-th name. -/
theorem getItem_eq (tr : Trace) (index : PyVal) (i : Nat) (hint : index.isInt = true) (hi : index.toInt = i)
    (hlt : i < tr.varnames.length) : getItem tr index = getValues tr tr.varnames[i] 0 1 := by
  unfold getItem
  simp only [hint, hi, Bool.not_true, Bool.false_eq_true, if_false, Int.toNat_natCast, List.getElem?_eq_getElem hlt]
  rw [if_neg (by simp; omega)]

/-- C47: `trace[i]` is `get_values` of the `i`-th name (`True`/`False` count as 1/0); with distinct names these are the
`i`-th entries of all samples. -/
theorem C47_get_item (tr : Trace) (hd : tr.varnames.Nodup) (index : PyVal) (i : Nat) (hint : index.isInt = true)
    (hi : index.toInt = i) (hlt : i < tr.varnames.length) (v : Obj → Obj) (hv : ∀ s ∈ tr.samples, s.item i = .ok (v s)) :
    getItem tr index = .ok (tr.samples.map v) := by
  have hname : tr.varnames[i]? = some tr.varnames[i] := List.getElem?_eq_getElem hlt
  obtain ⟨vs, h1, h2⟩ := C46_get_values tr tr.varnames[i] i hname (by
    intro k hk hc
    obtain ⟨h1, h2⟩ := List.getElem?_eq_some_iff.1 hc
    have := (List.Nodup.getElem_inj_iff hd).1 h2
    omega) v hv 0 1 (by norm_num)
  rw [getItem_eq tr index i hint hi hlt, show getValues tr tr.varnames[i] 0 1 = .ok vs from h1]
  congr 1
  apply List.ext_getElem?
  intro k
  rw [h2]; simp

/-- C47: everything else is an `AssertionError`. -/
theorem C47_bad_index (tr : Trace) (index : PyVal)
    (h : index.isInt = false ∨ index.toInt < 0 ∨ (tr.varnames.length : Int) ≤ index.toInt) :
    getItem tr index = .error .assertion := by
  unfold getItem
  split
  · rfl
  · rename_i h1
    rw [if_pos]
    rcases h with h | h | h
    · simp [h] at h1
    · simp; omega
    · simp; omega

/-- C47 (boundary): if two parameters share a name, `trace[i]` shows the first of them. -/
theorem C47_duplicate_names (tr : Trace) (i j : Nat) (hij : tr.varnames[i]? = tr.varnames[j]?)
    (hi : i < tr.varnames.length) : getItem tr (.int i) = getItem tr (.int j) := by
  have hj : j < tr.varnames.length := by
    rw [List.getElem?_eq_getElem hi] at hij
    exact (List.getElem?_eq_some_iff.1 hij.symm).1
  rw [List.getElem?_eq_getElem hi, List.getElem?_eq_getElem hj, Option.some.injEq] at hij
  rw [getItem_eq tr _ i rfl rfl hi, getItem_eq tr _ j rfl rfl hj, hij]

/-! ## C48 -/

/-- C48: for distinct names, `point(i)` maps exactly the names of the trace, each to the `i`-th value of
`get_values(name)`; `i` may be negative as usual. -/
theorem C48_point (tr : Trace) (hd : tr.varnames.Nodup)
    (hs : ∀ s ∈ tr.samples, ∀ j < tr.varnames.length, ∃ v, s.item j = .ok v) (i : Int)
    (hi : -(length tr : Int) ≤ i ∧ i < length tr) :
    ∃ d, point tr i = .ok d
      ∧ (∀ name ∈ tr.varnames, ∃ vs v, getValues tr name 0 1 = .ok vs ∧ pyIndex vs i = .ok v ∧ d name = some v)
      ∧ ∀ name, name ∉ tr.varnames → d name = none := by
  unfold length at hi
  obtain ⟨p, hp, hpl⟩ : ∃ p : Nat, (if i < 0 then i + tr.samples.length else i) = p ∧ p < tr.samples.length := by
    split
    · exact ⟨(i + tr.samples.length).toNat, by omega, by omega⟩
    · exact ⟨i.toNat, by omega, by omega⟩
  have hidx : ∀ (l : List Obj), l.length = tr.samples.length → ∀ v, l[p]? = some v → pyIndex l i = .ok v := by
    intro l hl v hv
    unfold pyIndex
    rw [hl]
    simp only [hp, Int.toNat_natCast, hv]
    rw [if_neg (by omega)]
  set s := tr.samples[p] with hsdef
  have hsm : s ∈ tr.samples := List.getElem_mem hpl
  choose! g hg using hs
  have hpoint : point tr i = .ok (Dict.ofList (tr.varnames.zipIdx.map fun q => (q.1, g s q.2))) := by
    unfold point
    rw [hidx tr.samples rfl s (List.getElem?_eq_getElem hpl)]
    simp only [bind, Except.bind]
    rw [mapM_ok (g := fun q => (q.1, g s q.2))]
    intro q hq
    have : q.2 < tr.varnames.length := by
      have := List.mem_zipIdx hq
      omega
    rw [hg s hsm q.2 this]
  refine ⟨_, hpoint, ?_, ?_⟩
  · intro name hname
    obtain ⟨j, hj, rfl⟩ := List.getElem_of_mem hname
    have hnm : tr.varnames[j]? = some tr.varnames[j] := List.getElem?_eq_getElem hj
    obtain ⟨vs, h1, h2⟩ := C46_get_values tr tr.varnames[j] j hnm (by
      intro k hk hc
      obtain ⟨h1, h2⟩ := List.getElem?_eq_some_iff.1 hc
      have := (List.Nodup.getElem_inj_iff hd).1 h2
      omega) (fun s => g s j) (fun s hs => hg s hs j hj) 0 1 (by norm_num)
    have hvs : vs = tr.samples.map fun s => g s j := by
      apply List.ext_getElem?
      intro k
      rw [h2]; simp
    refine ⟨vs, g s j, h1, hidx vs (by rw [hvs]; simp) _ ?_, ?_⟩
    · rw [h2]
      simp [List.getElem?_eq_getElem hpl, hsdef]
    · apply ofList_getElem _ _ j
      · rw [List.getElem?_map, List.getElem?_zipIdx, hnm]
        simp
      · rw [List.map_map]
        have : (tr.varnames.zipIdx.map (Prod.fst ∘ fun q => (q.1, g s q.2))) = tr.varnames := by
          rw [show (Prod.fst ∘ fun q : String × Nat => (q.1, g s q.2)) = Prod.fst from rfl]
          exact List.zipIdx_map_fst 0 tr.varnames
        rw [this]; exact hd
  · intro name hname
    apply ofList_none
    rw [List.map_map, show (Prod.fst ∘ fun q : String × Nat => (q.1, g s q.2)) = Prod.fst from rfl, List.zipIdx_map_fst]
    exact hname

/-- C48: an index outside the chain is an `IndexError`. -/
theorem C48_bad_index (tr : Trace) (i : Int) (hi : i < -(length tr : Int) ∨ (length tr : Int) ≤ i) :
    point tr i = .error .index := by
  unfold length at hi
  unfold point pyIndex
  by_cases hneg : i < 0
  · simp only [hneg, if_true]
    rw [if_pos (by omega)]; rfl
  · simp only [hneg, if_false]
    rw [List.getElem?_eq_none (by omega)]; rfl

/-! ## C49 -/

variable {σ C : Type}

/-- What `from_sampler` records if the next `n` steps of the sampler succeed: these `n` consecutive samples, whatever
`keep_every` is. -/
theorem fromSampler_calls (next : σ → Step σ (Obj × C)) (params : List String) (id : Int) (n : Nat) (k : Int)
    (names : Option (List String)) (s : σ) (l : List (Obj × C)) (h : (calls next n s).1 = l.map .ok) :
    fromSampler next (params.map some) id n k names s
      = (mkTrace id (.seq (l.map Prod.fst)) (some (names.getD params)), (calls next n s).2) := by
  unfold fromSampler
  rw [islice_eq_calls next n s l h]
  have hall : ((params.map some).all Option.isSome) = true := by simp
  simp only [hall, Bool.not_true, Bool.false_eq_true, if_false]
  cases names with
  | none => simp [Function.comp_def]
  | some names => simp

/-- C49 (what holds): with `keep_every = 1` the trace holds exactly the next `n ≥ 1` samples of the chain, for
parameters that are sampled as a list with the right number of entries.
Missing: `keep_every ≠ 1`, see `C49_violated`. -/
theorem C49_keep_all_partial (next : σ → Step σ (Obj × C)) (params : List String) (id : Int) (n : Nat)
    (names : Option (List String)) (s : σ) (rows : List (List Obj × C)) (hn : 1 ≤ n)
    (h : (calls next n s).1 = rows.map fun r => .ok (.list r.1, r.2))
    (hlen : ∀ r ∈ rows, r.1.length = (names.getD params).length) (h1 : 1 ≤ (names.getD params).length) :
    ∃ tr, fromSampler next (params.map some) id n 1 names s = (.ok tr, (calls next n s).2)
      ∧ tr.samples = rows.map (fun r => .list r.1) ∧ length tr = n ∧ tr.varnames = names.getD params ∧ tr.chain = id := by
  have h' : (calls next n s).1 = (rows.map fun r => ((Obj.list r.1, r.2) : Obj × C)).map .ok := by rw [h, List.map_map]; rfl
  have hl : rows.length = n := by
    have := congrArg List.length h
    simpa using this.symm
  cases rows with
  | nil => simp at hl; omega
  | cons r0 rs =>
    rw [fromSampler_calls next params id n 1 names s _ h']
    refine ⟨⟨id, ((r0 :: rs).map fun r => .list r.1), (names.getD params).length, names.getD params⟩, ?_, rfl, ?_, rfl, rfl⟩
    · simp only [List.map_cons, mkTrace, namesOr_some, Obj.isFloat, Bool.false_eq_true, if_false, Obj.len, hlen r0 (by simp), bind, Except.bind]
      rw [if_neg (by omega)]
      simp [Function.comp_def]
    · simp only [length, List.length_map]; exact hl

/-- A sampler whose `i`-th sample is the number `i`. -/
noncomputable def counter (s : Nat) : Step Nat (Obj × Unit) := (.ok (.list [.float true (.fin s)], ()), s + 1)

theorem counter_calls (n s : Nat) :
    calls counter n s = ((List.range n).map fun (i : Nat) => .ok (.list [.float true (.fin ((s + i : Nat) : ℝ))], ()), s + n) := by
  induction n generalizing s with
  | zero => rfl
  | succ n ih =>
    rw [calls_succ]
    simp only [counter, ih]
    rw [List.range_succ_eq_map]
    simp only [List.map_cons, List.map_map, Nat.add_zero]
    refine Prod.ext ?_ (by simp; omega)
    simp only [List.cons.injEq, true_and]
    apply List.map_congr_left
    intro i _
    simp only [Function.comp_apply]
    rw [show s + 1 + i = s + (i + 1) by omega]

/-- C49 fails for every `n ≥ 2` and `keep_every = k ≥ 2`: the recorded samples are not every `k`-th sample of the chain,
from whichever offset one starts counting. -/
theorem C49_violated (n k : Nat) (hn : 2 ≤ n) (hk : 2 ≤ k) :
    ∃ tr, (fromSampler counter [some "x"] 0 n k none 0).1 = .ok tr
      ∧ ∀ offset : Nat, tr.samples
        ≠ (List.range n).map fun (i : Nat) => .list [.float true (.fin ((offset + k * i : Nat) : ℝ))] := by
  have hc : (calls counter n 0).1
      = ((List.range n).map fun (i : Nat) => ([Obj.float true (.fin ((0 + i : Nat) : ℝ))], ())).map
        fun r => .ok (.list r.1, r.2) := by
    rw [counter_calls, List.map_map]; rfl
  have hmk := C49_keep_all_partial counter ["x"] 0 n none 0 _ (by omega) hc
    (by intro r hr; obtain ⟨i, -, rfl⟩ := List.mem_map.1 hr; rfl) (by simp)
  obtain ⟨tr, h1, h2, -⟩ := hmk
  refine ⟨tr, ?_, ?_⟩
  · have : fromSampler counter [some "x"] 0 n k none 0 = fromSampler counter [some "x"] 0 n 1 none 0 := rfl
    rw [this]
    exact congrArg Prod.fst h1
  · intro offset hcon
    rw [h2, List.map_map] at hcon
    have h0 := congrArg (fun l => l[0]?) hcon
    have h1 := congrArg (fun l => l[1]?) hcon
    simp [show 0 < n by omega, show 1 < n by omega] at h0 h1
    have h0' : (offset : ℝ) = 0 := by exact_mod_cast h0.symm
    have : (1 : ℝ) = (0 : ℝ) + k := by rw [← h0']; exact_mod_cast h1
    have : k = 1 := by exact_mod_cast (by linarith : (k : ℝ) = 1)
    omega

/-! ## C50 -/

section recorded
open SamplerBase

theorem calls_samplerIter {E : Env (Tensor Fl) C} (next : Feed (Tensor Fl) → Sampler E → NextRes E) (n : Nat)
    (s : Sampler E) (results : List (Out (Tensor Fl) × C)) (h : (calls (asIter next) n s).1 = results.map .ok) :
    (calls (samplerIter next) n s).1 = (results.map fun p => (outObj p.1, p.2)).map .ok := by
  induction n generalizing s results with
  | zero => obtain rfl : results = [] := by simpa using h.symm
            rfl
  | succ n ih =>
    cases results with
    | nil => simp [calls_succ] at h
    | cons r rs =>
      simp only [calls_succ, List.map_cons, List.cons.injEq] at h
      simp only [calls_succ, List.map_cons]
      have h2 : (samplerIter next s).2 = (asIter next s).2 := rfl
      have h1 : (samplerIter next s).1 = .ok (outObj r.1, r.2) := by
        unfold samplerIter
        simp only [h.1]
        rfl
      rw [h1, h2, ih _ rs h.2]

/-- The samples drawn after any history, by phase. -/
theorem calls_forms (E : Env (Tensor Fl) C) (burnIn : Int) (nP : Nat) (hE : ReturnsParams E nP) (batch : Option E.Batch)
    (sched : E.Sched) (graph : E.Graph) (fs : List (Feed (Tensor Fl))) (s : Sampler E)
    (hs : s = (history (burnInNext E burnIn nP) fs (init batch sched graph)).2) (n : Nat)
    (results : List (Out (Tensor Fl) × C)) (hok : (calls (asIter (burnInNext E burnIn nP)) n s).1 = results.map .ok)
    (k : Nat) (o : Out (Tensor Fl)) (c : C) (hk : results[k]? = some (o, c)) :
    (nP ≠ 1 → ∃ l, o = .many l ∧ l.length = nP)
    ∧ (nP = 1 → ((s.nIterations + k : Nat) : Int) < burnIn → ∃ v, o = .many [v])
    ∧ (nP = 1 → burnIn ≤ ((s.nIterations + k : Nat) : Int) → ∃ v, o = .one v) := by
  have hlen : results.length = n := by
    have := congrArg List.length hok
    simpa using this.symm
  have hkn : k < n := by rw [← hlen]; exact (List.getElem?_eq_some_iff.1 hk).1
  have hg := calls_get (asIter (burnInNext E burnIn nP)) n k s hkn
  rw [hok, List.getElem?_map, hk] at hg
  simp only [Option.map_some, Option.some.injEq] at hg
  have hsk : (calls (asIter (burnInNext E burnIn nP)) k s).2 = (history (burnInNext E burnIn nP) (fs ++ List.replicate k .none)
      (init batch sched graph)).2 := by
    rw [calls_eq_history, history_append, ← hs]
  have hcount : (calls (asIter (burnInNext E burnIn nP)) k s).2.nIterations = s.nIterations + k := by
    have hpre : (calls (asIter (burnInNext E burnIn nP)) k s).1 = (results.take k).map .ok := by
      have h2 : n = k + (n - k) := by omega
      rw [h2, calls_add] at hok
      simp only at hok
      have := congrArg (List.take k) hok
      rw [List.take_append_of_le_length (by simp), List.take_of_length_le (by simp)] at this
      rw [this, List.map_take]
    have := history_count (burnInNext E burnIn nP) (burnInNext_count E burnIn nP) (List.replicate k .none) s
    rw [← calls_eq_history, hpre] at this
    rw [this]
    unfold countOk
    rw [List.countP_map, List.countP_eq_length.2 (by intro a _; rfl), List.length_take]
    omega
  have := C14_sample_form_partial E burnIn nP hE batch sched graph _ .none o c _ hsk hg.symm
  rw [hcount] at this
  exact this

/-- C50 (what holds): for a sampler with at least two parameters, recorded at any time (also across the burn-in
boundary), `get_values` of the `j`-th name shows the `j`-th parameter of every sample drawn.
Missing: samplers with a single parameter, see `C50_single_partial` and `C50_violated`. -/
theorem C50_recorded_partial (E : Env (Tensor Fl) C) (burnIn : Int) (nP : Nat) (h2 : 2 ≤ nP) (hE : ReturnsParams E nP)
    (batch : Option E.Batch) (sched : E.Sched) (graph : E.Graph) (fs : List (Feed (Tensor Fl))) (s : Sampler E)
    (hs : s = (history (burnInNext E burnIn nP) fs (init batch sched graph)).2) (n : Nat) (hn : 1 ≤ n)
    (results : List (Out (Tensor Fl) × C)) (hok : (calls (asIter (burnInNext E burnIn nP)) n s).1 = results.map .ok)
    (names : List String) (hnames : names.length = nP) (hd : names.Nodup) (id k : Int) :
    ∃ tr, (fromSampler (samplerIter (burnInNext E burnIn nP)) (names.map some) id n k none s).1 = .ok tr
      ∧ length tr = n ∧ tr.varnames = names
      ∧ ∀ (j : Nat) (name : String), names[j]? = some name → ∃ vs, getValues tr name 0 1 = .ok vs ∧ vs.length = n
        ∧ ∀ (i : Nat) (o : Out (Tensor Fl)) (c : C), results[i]? = some (o, c) →
          ∃ ps p, o = .many ps ∧ ps[j]? = some p ∧ vs[i]? = some (.ofTensor p) := by
  have hform : ∀ r ∈ results, ∃ l, r.1 = .many l ∧ l.length = nP := by
    intro r hr
    obtain ⟨i, hi⟩ := List.mem_iff_getElem?.1 hr
    exact (calls_forms E burnIn nP hE batch sched graph fs s hs n results hok i r.1 r.2 hi).1 (by omega)
  have hlen : results.length = n := by
    have := congrArg List.length hok
    simpa using this.symm
  let row : Out (Tensor Fl) → List Obj := fun o => match o with
    | .many l => l.map Obj.ofTensor
    | .one v => [Obj.ofTensor v]
  have hrow : ∀ r ∈ results, outObj r.1 = .list (row r.1) := by
    intro r hr
    obtain ⟨l, hl, -⟩ := hform r hr
    rw [hl]; rfl
  have hcalls := calls_samplerIter (burnInNext E burnIn nP) n s results hok
  rw [fromSampler_calls _ names id n k none s _ hcalls]
  have hmap : (results.map fun p => (outObj p.1, p.2)).map Prod.fst = (results.map fun p => row p.1).map .list := by
    rw [List.map_map, List.map_map]
    exact List.map_congr_left fun r hr => hrow r hr
  rw [hmap]
  obtain ⟨tr, t1, -, t3, t4, t5⟩ := C46_table id (results.map fun p => row p.1) names
    (by intro h; have := congrArg List.length h; simp [hlen] at this; omega)
    (by
      intro r hr
      obtain ⟨q, hq, rfl⟩ := List.mem_map.1 hr
      obtain ⟨l, hl, hll⟩ := hform q hq
      rw [hl, hnames]; simpa [row] using hll)
    (by intro h; rw [h] at hnames; simp at hnames; omega) hd
  refine ⟨tr, by simpa using t1, by rw [t4]; simpa using hlen, t3, fun j name hj => ?_⟩
  obtain ⟨vs, v1, v2⟩ := t5 j name hj 0 1 (by norm_num)
  have hval : ∀ (i : Nat) (o : Out (Tensor Fl)) (c : C), results[i]? = some (o, c) →
          ∃ ps p, o = .many ps ∧ ps[j]? = some p ∧ vs[i]? = some (.ofTensor p) := by
    intro i o c hi
    obtain ⟨l, hl, hll⟩ := hform (o, c) (List.mem_of_getElem? hi)
    have hjl : j < l.length := by rw [hll, ← hnames]; exact (List.getElem?_eq_some_iff.1 hj).1
    refine ⟨l, l[j], hl, List.getElem?_eq_getElem hjl, ?_⟩
    rw [v2]
    simp only at hl
    simp [hi, row, hl, hjl]
  refine ⟨vs, v1, ?_, hval⟩
  apply le_antisymm
  · by_contra hgt
    have hlt : n < vs.length := by omega
    have := v2 n
    rw [List.getElem?_eq_getElem hlt] at this
    simp [hlen] at this
  · by_contra hlt
    have hlt : vs.length < n := by omega
    obtain ⟨ps, p, -, -, h3⟩ := hval vs.length results[vs.length].1 results[vs.length].2 (by simp [hlen, hlt])
    simp at h3

/-- A trace of a single parameter. -/
theorem single_trace (id : Int) (name : String) (vals seq : List Obj) (hne : vals ≠ [])
    (h : seq = vals.map (fun v => .list [v]) ∨ (seq = vals ∧ ∀ v ∈ vals, v.isFloat = true)) :
    mkTrace id (.seq seq) (some [name]) = .ok ⟨id, vals.map (fun v => .list [v]), 1, [name]⟩ := by
  obtain ⟨v, vs, rfl⟩ := List.exists_cons_of_ne_nil hne
  rcases h with rfl | ⟨rfl, h⟩
  · simp [mkTrace, namesOr_some, Obj.isFloat, Obj.len, bind, Except.bind]
  · have := h v (by simp)
    simp [mkTrace, namesOr_some, this, bind, Except.bind]

theorem single_values (id : Int) (name : String) (vals : List Obj) :
    getValues ⟨id, vals.map (fun v => .list [v]), 1, [name]⟩ name 0 1 = .ok vals := by
  obtain ⟨vs, h1, h2⟩ := C46_get_values ⟨id, vals.map (fun v => .list [v]), 1, [name]⟩ name 0 rfl (by intro i hi; omega)
    (fun s => match s with
      | .list l => l.getD 0 (.float true .nan)
      | s => s)
    (by
      intro s hs
      obtain ⟨v, -, rfl⟩ := List.mem_map.1 hs
      rfl) 0 1 (by norm_num)
  rw [show getValues ⟨id, vals.map (fun v => .list [v]), 1, [name]⟩ name 0 1 = .ok vs from h1]
  congr 1
  apply List.ext_getElem?
  intro k
  rw [h2]
  simp [Function.comp_def]

/-- C50 for a single parameter (what holds): recorded during burn-in only, or, if it is a scalar, after burn-in only.
Missing: `C50_violated_boundary`, `C50_violated_vector`. -/
theorem C50_single_partial (E : Env (Tensor Fl) C) (burnIn : Int) (hE : ReturnsParams E 1)
    (batch : Option E.Batch) (sched : E.Sched) (graph : E.Graph) (fs : List (Feed (Tensor Fl))) (s : Sampler E)
    (hs : s = (history (burnInNext E burnIn 1) fs (init batch sched graph)).2) (n : Nat) (hn : 1 ≤ n)
    (results : List (Out (Tensor Fl) × C)) (hok : (calls (asIter (burnInNext E burnIn 1)) n s).1 = results.map .ok)
    (name : String) (id k : Int)
    (hphase : ((s.nIterations + n : Nat) : Int) ≤ burnIn
      ∨ (burnIn ≤ s.nIterations ∧ ∀ r ∈ results, ∀ v, r.1 = .one v → v.shape = [])) :
    ∃ tr vs, (fromSampler (samplerIter (burnInNext E burnIn 1)) [some name] id n k none s).1 = .ok tr
      ∧ length tr = n ∧ tr.varnames = [name] ∧ getValues tr name 0 1 = .ok vs ∧ vs.length = n
      ∧ ∀ (i : Nat) (o : Out (Tensor Fl)) (c : C), results[i]? = some (o, c) →
          ∃ p, (o = .many [p] ∨ o = .one p) ∧ vs[i]? = some (.ofTensor p) := by
  have hlen : results.length = n := by
    have := congrArg List.length hok
    simpa using this.symm
  have hforms := calls_forms E burnIn 1 hE batch sched graph fs s hs n results hok
  let val : Out (Tensor Fl) → Obj := fun o => match o with
    | .many l => .ofTensor (l.getD 0 ⟨[], []⟩)
    | .one v => .ofTensor v
  have hcalls := calls_samplerIter (burnInNext E burnIn 1) n s results hok
  have hfs := fromSampler_calls (samplerIter (burnInNext E burnIn 1)) [name] id n k none s _ hcalls
  simp only [List.map_cons, List.map_nil] at hfs
  have hmk : mkTrace id (.seq ((results.map fun p => (outObj p.1, p.2)).map Prod.fst)) (some [name])
      = .ok ⟨id, (results.map fun r => val r.1).map (fun v => .list [v]), 1, [name]⟩ := by
    apply single_trace
    · intro h
      have := congrArg List.length h
      simp [hlen] at this; omega
    · rcases hphase with hb | ⟨hb, hsc⟩
      · left
        rw [List.map_map, List.map_map]
        apply List.map_congr_left
        intro r hr
        obtain ⟨i, hi⟩ := List.mem_iff_getElem?.1 hr
        have hin : i < n := by rw [← hlen]; exact (List.getElem?_eq_some_iff.1 hi).1
        obtain ⟨v, hv⟩ := (hforms i r.1 r.2 hi).2.1 rfl (by push_cast at hb ⊢; omega)
        simp [outObj, val, hv]
      · right
        have hone : ∀ r ∈ results, ∃ v, r.1 = .one v := by
          intro r hr
          obtain ⟨i, hi⟩ := List.mem_iff_getElem?.1 hr
          exact (hforms i r.1 r.2 hi).2.2 rfl (by push_cast; omega)
        constructor
        · rw [List.map_map]
          apply List.map_congr_left
          intro r hr
          obtain ⟨v, hv⟩ := hone r hr
          simp [outObj, val, hv]
        · intro o ho
          obtain ⟨r, hr, rfl⟩ := List.mem_map.1 ho
          obtain ⟨v, hv⟩ := hone r hr
          have := hsc r hr v hv
          simp [val, hv, Obj.ofTensor, this, Obj.isFloat]
  refine ⟨_, results.map fun r => val r.1, by rw [hfs]; exact hmk, by simpa [length] using hlen, rfl, single_values _ _ _,
    by simpa using hlen, fun i o c hi => ?_⟩
  have hin : i < n := by rw [← hlen]; exact (List.getElem?_eq_some_iff.1 hi).1
  rcases hphase with hb | ⟨hb, -⟩
  · obtain ⟨v, hv⟩ := (hforms i o c hi).2.1 rfl (by push_cast at hb ⊢; omega)
    exact ⟨v, .inl hv, by simp [hi, val, hv]⟩
  · obtain ⟨v, hv⟩ := (hforms i o c hi).2.2 rfl (by push_cast; omega)
    exact ⟨v, .inr hv, by simp [hi, val, hv]⟩

/-- C50 fails across the burn-in boundary: for every sampler with a single scalar parameter, a trace recorded from the
start past the end of burn-in cannot be read, `get_values` raises `IndexError`. -/
theorem C50_violated_boundary (E : Env (Tensor Fl) C) (burnIn : Int) (h0 : 0 < burnIn) (hE : ReturnsParams E 1)
    (batch : Option E.Batch) (sched : E.Sched) (graph : E.Graph) (n : Nat) (hn : burnIn < n)
    (results : List (Out (Tensor Fl) × C))
    (hok : (calls (asIter (burnInNext E burnIn 1)) n (init batch sched graph)).1 = results.map .ok)
    (hscalar : ∀ r ∈ results, ∀ v, r.1 = .one v → v.shape = []) (name : String) (id k : Int) :
    ∃ tr, (fromSampler (samplerIter (burnInNext E burnIn 1)) [some name] id n k none (init batch sched graph)).1 = .ok tr
      ∧ getValues tr name 0 1 = .error .index := by
  have hlen : results.length = n := by
    have := congrArg List.length hok
    simpa using this.symm
  have hforms := calls_forms E burnIn 1 hE batch sched graph [] (init batch sched graph) rfl n results hok
  have hcalls := calls_samplerIter (burnInNext E burnIn 1) n _ results hok
  have hfs := fromSampler_calls (samplerIter (burnInNext E burnIn 1)) [name] id n k none _ _ hcalls
  simp only [List.map_cons, List.map_nil] at hfs
  set outs := (results.map fun p => (outObj p.1, p.2)).map Prod.fst with houts
  have hget : ∀ i : Nat, outs[i]? = (results[i]?).map fun p : Out (Tensor Fl) × C => outObj p.1 := by
    intro i; simp [houts, Function.comp_def]
  obtain ⟨b, rfl⟩ : ∃ b : Nat, burnIn = b := ⟨burnIn.toNat, by omega⟩
  have hb : b < n := by omega
  have h0' : 0 < b := by omega
  have hinit : (init batch sched graph : Sampler E).nIterations = 0 := rfl
  rw [hinit] at hforms
  -- the first sample is a list
  have hex : ∀ i < n, ∃ o c, results[i]? = some (o, c) := fun i hi =>
    ⟨(results[i]'(by omega)).1, (results[i]'(by omega)).2, List.getElem?_eq_getElem (by omega)⟩
  obtain ⟨o0, c0, hr0⟩ := hex 0 (by omega)
  obtain ⟨ob, cb, hrb⟩ := hex b hb
  obtain ⟨v0, hv0⟩ := (hforms 0 _ _ hr0).2.1 rfl (by omega)
  obtain ⟨w, hw⟩ := (hforms b _ _ hrb).2.2 rfl (by omega)
  have hwshape := hscalar (ob, cb) (List.mem_of_getElem? hrb) w hw
  have hout0 : outs[0]? = some (.list [.ofTensor v0]) := by rw [hget, hr0]; simp [outObj, hv0]
  have hmk : mkTrace id (.seq outs) (some [name]) = .ok ⟨id, outs, 1, [name]⟩ := by
    cases houtc : outs with
    | nil => rw [houtc] at hout0; simp at hout0
    | cons o os =>
      rw [houtc] at hout0
      obtain rfl : o = .list [.ofTensor v0] := by simpa using hout0
      simp [mkTrace, namesOr_some, Obj.isFloat, Obj.len, bind, Except.bind]
  refine ⟨⟨id, outs, 1, [name]⟩, by rw [hfs]; simpa using hmk, ?_⟩
  unfold getValues
  have : ([name] : List String).idxOf? name = some 0 := by simp [List.idxOf?_cons]
  simp only [this]
  obtain ⟨l, hl, hk⟩ := pyGetSlice_from outs 0 1 (by norm_num)
  have hl' : l = outs := List.ext_getElem? fun i => by rw [hk]; simp
  simp only [Nat.cast_zero, Nat.cast_one] at hl
  rw [hl, hl']
  simp only [bind, Except.bind]
  have houtb : b < outs.length := by simp [houts, hlen, hb]
  have hsplit : outs = outs.take b ++ outs[b] :: outs.drop (b + 1) := by
    rw [← List.drop_eq_getElem_cons houtb, List.take_append_drop]
  rw [hsplit]
  apply mapM_error (g := fun s => match s with
      | .list l => l.getD 0 (.float true .nan)
      | s => s)
  · intro o ho
    obtain ⟨i, hi⟩ := List.mem_iff_getElem?.1 ho
    rw [List.getElem?_take] at hi
    split at hi
    · rename_i hib
      obtain ⟨oi, ci, hri⟩ := hex i (by omega)
      rw [hget, hri] at hi
      obtain ⟨v, hv⟩ := (hforms i _ _ hri).2.1 rfl (by omega)
      simp only [Option.map_some, Option.some.injEq] at hi
      rw [← hi, hv]
      rfl
    · cases hi
  · have : outs[b] = Obj.float true (w.data.getD 0 .nan) := by
      have h1 : outs[b]? = some outs[b] := List.getElem?_eq_getElem houtb
      rw [hget, hrb] at h1
      simp only [Option.map_some, Option.some.injEq] at h1
      rw [← h1, hw]
      simp [outObj, Obj.ofTensor, hwshape]
    rw [this]
    rfl

/-- C50 fails for a single vector parameter after burn-in: it cannot even be recorded if it has `m ≠ 1` elements. -/
theorem C50_violated_vector (E : Env (Tensor Fl) C) (burnIn : Int) (hE : ReturnsParams E 1)
    (batch : Option E.Batch) (sched : E.Sched) (graph : E.Graph) (fs : List (Feed (Tensor Fl))) (s : Sampler E)
    (hs : s = (history (burnInNext E burnIn 1) fs (init batch sched graph)).2) (hb : burnIn ≤ s.nIterations) (n : Nat)
    (hn : 1 ≤ n) (results : List (Out (Tensor Fl) × C))
    (hok : (calls (asIter (burnInNext E burnIn 1)) n s).1 = results.map .ok) (m : Nat) (hm : m ≠ 1)
    (hshape : ∀ r ∈ results, ∀ v, r.1 = .one v → v.shape = [m]) (name : String) (id k : Int) :
    (fromSampler (samplerIter (burnInNext E burnIn 1)) [some name] id n k none s).1 = .error .assertion := by
  have hlen : results.length = n := by
    have := congrArg List.length hok
    simpa using this.symm
  have hforms := calls_forms E burnIn 1 hE batch sched graph fs s hs n results hok
  have hcalls := calls_samplerIter (burnInNext E burnIn 1) n s results hok
  have hfs := fromSampler_calls (samplerIter (burnInNext E burnIn 1)) [name] id n k none s _ hcalls
  simp only [List.map_cons, List.map_nil] at hfs
  rw [hfs]
  cases results with
  | nil => simp at hlen; omega
  | cons r rs =>
    obtain ⟨v, hv⟩ := (hforms 0 r.1 r.2 (by simp)).2.2 rfl (by push_cast; omega)
    have hsh := hshape r (by simp) v hv
    simp only [List.map_cons, outObj, hv, Obj.ofTensor, hsh, mkTrace, namesOr_some, Obj.isFloat, Bool.false_eq_true, if_false, Obj.len,
      bind, Except.bind, Option.getD_none]
    by_cases hm1 : m < 1
    · rw [if_pos hm1]
    · rw [if_neg hm1]
      simp [Ne.symm hm]

end recorded

/-! ## C51 -/

theorem mkTrace_ok (id : Int) (seq : List Obj) (names : Option (List String)) (tr : Trace)
    (h : mkTrace id (.seq seq) names = .ok tr) :
    tr.chain = id ∧ tr.varnames.length = tr.nVars ∧ 1 ≤ tr.nVars
    ∧ ∃ s ss, tr.samples = s :: ss ∧ s.isFloat = false ∧ s.len = .ok tr.nVars := by
  cases seq with
  | nil => cases h
  | cons first rest =>
    simp only [mkTrace, bind, Except.bind] at h
    cases hf : first.isFloat with
    | true =>
      simp only [hf, if_true] at h
      rw [if_neg (by omega)] at h
      split at h
      · cases h
      · rename_i hl
        obtain rfl := (Except.ok.inj h).symm
        exact ⟨rfl, not_not.1 hl, le_rfl, _, _, rfl, rfl, rfl⟩
    | false =>
      simp only [hf, Bool.false_eq_true, if_false] at h
      cases hlen : first.len with
      | error e => rw [hlen] at h; cases h
      | ok m =>
        rw [hlen] at h
        simp only at h
        by_cases hm : m < 1
        · rw [if_pos hm] at h; cases h
        · rw [if_neg hm] at h
          split at h
          · cases h
          · rename_i hl
            obtain rfl := (Except.ok.inj h).symm
            exact ⟨rfl, not_not.1 hl, Nat.le_of_not_lt hm, _, _, rfl, hf, hlen⟩

/-- C51 (what holds): the full slice `trace[:]` is the trace itself. Missing: everything else, see `C51_violated`. -/
theorem C51_full_slice_partial (id : Int) (seq : List Obj) (names : Option (List String)) (tr : Trace)
    (h : mkTrace id (.seq seq) names = .ok tr) : slice tr {} = .ok tr := by
  obtain ⟨-, h2, h3, s, ss, h4, h5, h6⟩ := mkTrace_ok id seq names tr h
  unfold slice
  rw [pyGetSlice_full, pyGetSlice_full]
  simp only [bind, Except.bind, mkTrace, namesOr_some, h4, h5, h6, Bool.false_eq_true, if_false]
  rw [if_neg (by omega)]
  simp only [h2, ne_eq, not_true_eq_false, if_false]
  cases tr
  simp_all

/-- C51 fails for every slice that selects a proper part of the parameters: instead of a trace restricted to these
parameters there is an `AssertionError`, because samples are sliced in time. -/
theorem C51_violated (tr : Trace) (hrect : ∀ s ∈ tr.samples, s.isFloat = false ∧ s.len = .ok tr.varnames.length)
    (sl : PySlice) (names : List String) (hsl : pyGetSlice tr.varnames sl = .ok names)
    (hpart : names.length ≠ tr.varnames.length) : slice tr sl = .error .assertion := by
  have hst : sl.stepVal ≠ 0 := by
    intro h0
    unfold pyGetSlice at hsl
    rw [if_pos h0] at hsl
    cases hsl
  unfold slice
  obtain ⟨ss, hss, hmem⟩ : ∃ ss, pyGetSlice tr.samples sl = .ok ss ∧ ∀ s ∈ ss, s ∈ tr.samples := by
    unfold pyGetSlice
    rw [if_neg hst]
    refine ⟨_, rfl, fun s hs => ?_⟩
    obtain ⟨i, -, hi⟩ := List.mem_filterMap.1 hs
    exact List.mem_of_getElem? hi
  rw [hss, hsl]
  simp only [bind, Except.bind]
  cases ss with
  | nil => rfl
  | cons s ss =>
    obtain ⟨h1, h2⟩ := hrect s (hmem s (by simp))
    simp only [mkTrace, h1, h2, Bool.false_eq_true, if_false, bind, Except.bind]
    split
    · rfl
    · rw [if_pos (by simpa [namesOr] using hpart)]

/-- C51 also fails silently: `trace[::-1]` on a table of samples reverses names and time but not the entries of the
samples, so that every name shows the values of another parameter. -/
theorem C51_violated_reversed (chain : Int) (rows : List (List Obj)) (names : List String) (hne : rows ≠ [])
    (hrect : ∀ r ∈ rows, r.length = names.length) (hn : names ≠ []) (hd : names.Nodup) :
    ∃ tr tr', mkTrace chain (.seq (rows.map .list)) (some names) = .ok tr ∧ slice tr { step := some (-1) } = .ok tr'
      ∧ ∀ (j : Nat) (name : String), names[j]? = some name → ∃ vs, getValues tr' name 0 1 = .ok vs
        ∧ ∀ k : Nat, vs[k]? = (rows.reverse[k]?).bind fun r => r[names.length - 1 - j]? := by
  obtain ⟨tr, t1, t2, t3, t4, -⟩ := C46_table chain rows names hne hrect hn hd
  have hs : tr.samples = rows.map .list := by
    obtain ⟨r0, rs, rfl⟩ := List.exists_cons_of_ne_nil hne
    have h0 : r0.length = names.length := hrect r0 (by simp)
    have hpos : 0 < names.length := List.length_pos_iff.2 hn
    simp only [mkTrace, namesOr_some, List.map_cons, Obj.isFloat, Bool.false_eq_true, if_false, Obj.len, h0, bind, Except.bind] at t1
    rw [if_neg (by omega)] at t1
    simp only [ne_eq, not_true_eq_false, if_false, Except.ok.injEq] at t1
    rw [← t1]; simp
  obtain ⟨tr', u1, -, u3, -, u5⟩ := C46_table chain rows.reverse names.reverse (by simpa using hne)
    (by intro r hr; simpa using hrect r (by simpa using hr)) (by simpa using hn) (by simpa using hd)
  refine ⟨tr, tr', t1, ?_, fun j name hj => ?_⟩
  · unfold slice
    rw [pyGetSlice_reverse, pyGetSlice_reverse, hs, t3, t2]
    simp only [bind, Except.bind]
    rw [← List.map_reverse]
    exact u1
  · have hjl : j < names.length := (List.getElem?_eq_some_iff.1 hj).1
    obtain ⟨vs, v1, v2⟩ := u5 (names.length - 1 - j) name (by
      rw [List.getElem?_reverse (by omega), ← hj]; congr 1; omega) 0 1 (by norm_num)
    exact ⟨vs, v1, fun k => by rw [v2]; simp⟩

/-! ## C52 -/

variable {ω H : Type}

theorem chains_ok (W : World ω H C) (n : Nat) (k : Int) (names : Option (List String)) (ids : List Nat) (w w' : ω)
    (trs : List Trace) (h : chains W n k names ids w = (.ok trs, w')) :
    trs.length = ids.length ∧ ∃ world : Nat → ω, world 0 = w ∧ world ids.length = w'
      ∧ ∀ (i id : Nat), ids[i]? = some id → ∃ tr, trs[i]? = some tr
        ∧ oneChain W n k names id (world i) = (.ok tr, world (i + 1)) := by
  induction ids generalizing w trs with
  | nil =>
    simp only [chains, Prod.mk.injEq, Except.ok.injEq] at h
    obtain ⟨rfl, rfl⟩ := h
    exact ⟨rfl, fun _ => w, rfl, rfl, fun i id hi => by simp at hi⟩
  | cons id ids ih =>
    simp only [chains] at h
    cases h1 : oneChain W n k names id w with
    | mk r w1 =>
      rw [h1] at h
      cases r with
      | error e => simp at h
      | ok tr =>
        simp only at h
        cases h2 : chains W n k names ids w1 with
        | mk r2 w2 =>
          rw [h2] at h
          cases r2 with
          | error e => simp at h
          | ok trs' =>
            simp only [Prod.mk.injEq, Except.ok.injEq] at h
            obtain ⟨rfl, rfl⟩ := h
            obtain ⟨g1, world, g2, g3, g4⟩ := ih w1 trs' h2
            refine ⟨by simp [g1], fun i => match i with
              | 0 => w
              | i + 1 => world i, rfl, by simpa using g3, ?_⟩
            intro i id' hi
            cases i with
            | zero =>
              obtain rfl : id = id' := by simpa using hi
              exact ⟨tr, rfl, by simp only [g2]; exact h1⟩
            | succ i =>
              obtain ⟨t, ht, ht'⟩ := g4 i id' (by simpa using hi)
              exact ⟨t, by simpa using ht, ht'⟩

theorem oneChain_ok (W : World ω H C) (n : Nat) (k : Int) (names : Option (List String)) (i : Nat) (w w' : ω) (tr : Trace)
    (hone : oneChain W n k names i w = (.ok tr, w')) :
    ∃ s w1 w2 samples, W.getSampler w = (.ok s, w1) ∧ W.initVars s w1 = (.ok (), w2)
      ∧ islice (W.next s) n w2 = (.ok samples, w') ∧ (∀ p ∈ W.params s, p.isSome)
      ∧ mkTrace i (.seq (samples.map Prod.fst)) (some (names.getD ((W.params s).map (·.getD "")))) = .ok tr := by
  unfold oneChain at hone
  cases e1 : W.getSampler w with
  | mk r1 v1 =>
    rw [e1] at hone
    cases r1 with
    | error e => simp at hone
    | ok s =>
      simp only at hone
      cases e2 : W.initVars s v1 with
      | mk r2 v2 =>
        rw [e2] at hone
        cases r2 with
        | error e => simp at hone
        | ok u =>
          simp only [fromSampler] at hone
          cases e3 : islice (W.next s) n v2 with
          | mk r3 v3 =>
            rw [e3] at hone
            cases r3 with
            | error e => simp at hone
            | ok samples =>
              simp only at hone
              by_cases hall : ((W.params s).all Option.isSome) = true
              · simp only [hall, Bool.not_true, Bool.false_eq_true, if_false, Prod.mk.injEq] at hone
                obtain ⟨hm, rfl⟩ := hone
                refine ⟨s, v1, v2, samples, rfl, e2, e3, fun p hp => List.all_eq_true.1 hall p hp, ?_⟩
                cases names <;> exact hm
              · simp [hall] at hone

theorem chains_ids (W : World ω H C) (m n : Nat) (k : Int) (names : Option (List String)) (w w' : ω)
    (trs : List Trace) (h : chains W n k names (List.range m) w = (.ok trs, w')) :
    trs.map Trace.chain = (List.range m).map Int.ofNat := by
  obtain ⟨g1, world, -, -, g4⟩ := chains_ok W n k names _ w w' trs h
  rw [List.length_range] at g1
  apply List.ext_getElem?
  intro i
  by_cases hi : i < m
  · obtain ⟨tr, ht, hone⟩ := g4 i i (List.getElem?_range hi)
    obtain ⟨s, w1, w2, samples, -, -, -, -, hm⟩ := oneChain_ok W n k names i _ _ tr hone
    rw [List.getElem?_map, ht, List.getElem?_map, List.getElem?_range hi]
    simp [(mkTrace_ok _ _ _ _ hm).1]
  · rw [List.getElem?_eq_none (by simp [g1]; omega), List.getElem?_eq_none (by simp; omega)]

/-- The check for distinct chain ids never fails. -/
theorem multitrace_eq (W : World ω H C) (m n : Nat) (k : Int) (names : Option (List String)) (w : ω) :
    multitrace W m n k names w = chains W n k names (List.range m) w := by
  unfold multitrace
  cases h1 : chains W n k names (List.range m) w with
  | mk r w1 =>
    cases r with
    | error e1 => rfl
    | ok trs =>
      have : (trs.map Trace.chain).Nodup := by
        rw [chains_ids W m n k names w w1 trs h1]
        exact List.nodup_range.map (fun a b h => by simpa using h)
      simp [multiTrace, this]

/-- C52: if `pymc3_multitrace` succeeds, it returns one trace per chain, with ids `0, …, m-1`; the `i`-th is built from
what a fresh sampler (obtained after chain `i-1` was finished, variables just initialized) returns for its next `n`
steps, however `keep_every` is set. -/
theorem C52_multitrace (W : World ω H C) (m n : Nat) (k : Int) (names : Option (List String)) (w w' : ω)
    (trs : List Trace) (h : multitrace W m n k names w = (.ok trs, w')) :
    trs.map Trace.chain = (List.range m).map Int.ofNat ∧ ∃ world : Nat → ω, world 0 = w ∧ world m = w'
      ∧ ∀ i < m, ∃ tr s w1 w2 samples, trs[i]? = some tr
        ∧ W.getSampler (world i) = (.ok s, w1) ∧ W.initVars s w1 = (.ok (), w2)
        ∧ islice (W.next s) n w2 = (.ok samples, world (i + 1))
        ∧ (∀ p ∈ W.params s, p.isSome)
        ∧ mkTrace i (.seq (samples.map Prod.fst)) (some (names.getD ((W.params s).map (·.getD "")))) = .ok tr := by
  rw [multitrace_eq] at h
  obtain ⟨g1, world, g2, g3, g4⟩ := chains_ok W n k names _ w w' trs h
  rw [List.length_range] at g3
  refine ⟨chains_ids W m n k names w w' trs h, world, g2, g3, fun i hi => ?_⟩
  obtain ⟨tr, ht, hone⟩ := g4 i i (List.getElem?_range hi)
  obtain ⟨s, w1, w2, samples, h1, h2, h3, h4, h5⟩ := oneChain_ok W n k names i _ _ tr hone
  exact ⟨tr, s, w1, w2, samples, ht, h1, h2, h3, h4, h5⟩

/-- C52 (converse): if every chain can be built, `pymc3_multitrace` succeeds. -/
theorem C52_succeeds (W : World ω H C) (m n : Nat) (k : Int) (names : Option (List String)) (world : Nat → ω)
    (trace : Nat → Trace) (hall : ∀ i < m, oneChain W n k names i (world i) = (.ok (trace i), world (i + 1))) :
    multitrace W m n k names (world 0) = (.ok ((List.range m).map trace), world m) := by
  rw [multitrace_eq]
  have key : ∀ (l a : Nat), a + l = m → chains W n k names (List.range' a l) (world a)
      = (.ok ((List.range' a l).map trace), world m) := by
    intro l
    induction l with
    | zero => intro a ha; obtain rfl : a = m := by omega
              rfl
    | succ l ih =>
      intro a ha
      rw [List.range'_succ]
      simp only [chains, hall a (by omega), ih (a + 1) (by omega), List.map_cons]
  rw [List.range_eq_range']
  exact key m 0 (by omega)

/-- C52: a failing factory, initializer or step makes the whole call fail with this exception. -/
theorem C52_failure (W : World ω H C) (m n : Nat) (k : Int) (names : Option (List String)) (world : Nat → ω)
    (trace : Nat → Trace) (i : Nat) (hi : i < m) (e : PyErr) (w' : ω)
    (hpre : ∀ j < i, oneChain W n k names j (world j) = (.ok (trace j), world (j + 1)))
    (herr : oneChain W n k names i (world i) = (.error e, w')) :
    multitrace W m n k names (world 0) = (.error e, w') := by
  rw [multitrace_eq]
  have key : ∀ (d a l : Nat), a + d = i → d < l → chains W n k names (List.range' a l) (world a) = (.error e, w') := by
    intro d
    induction d with
    | zero =>
      intro a l ha hl
      obtain rfl : a = i := by omega
      obtain ⟨l, rfl⟩ : ∃ l', l = l' + 1 := ⟨l - 1, by omega⟩
      rw [List.range'_succ]
      simp only [chains, herr]
    | succ d ih =>
      intro a l ha hl
      obtain ⟨l, rfl⟩ : ∃ l', l = l' + 1 := ⟨l - 1, by omega⟩
      rw [List.range'_succ]
      simp only [chains, hpre a (by omega), ih (a + 1) l (by omega) (by omega)]
  rw [List.range_eq_range']
  exact key i 0 m (by omega) hi

/-! ## Non-vacuity -/

/-- A table with two parameters, four samples. -/
noncomputable def table : List (List Obj) :=
  [[.float true (.fin 0), .float true (.fin 1)], [.float true (.fin 2), .float true (.fin 3)],
   [.float true (.fin 4), .float true (.fin 5)], [.float true (.fin 6), .float true (.fin 7)]]

example : ∃ tr, mkTrace 7 (.seq (table.map .list)) (some ["x", "y"]) = .ok tr
    ∧ getValues tr "y" 1 2 = .ok [.float true (.fin 3), .float true (.fin 7)] := by
  obtain ⟨tr, h1, -, -, -, h5⟩ := C46_table 7 table ["x", "y"] (by simp [table]) (by simp [table]) (by simp) (by decide)
  refine ⟨tr, h1, ?_⟩
  obtain ⟨vs, h6, h7⟩ := h5 1 "y" rfl 1 2 (by norm_num)
  rw [show getValues tr "y" 1 2 = .ok vs from h6]
  congr 1
  apply List.ext_getElem?
  intro k
  rw [h7]
  match k with
  | 0 => rfl
  | 1 => rfl
  | k + 2 => rw [List.getElem?_eq_none (by simp [table]; omega), List.getElem?_eq_none (by simp)]; rfl

/-- The factory of `counter` samplers never fails: three chains of five samples each. -/
noncomputable def counterWorld : World Nat Unit Unit :=
  { getSampler := fun _ => (.ok (), 100), initVars := fun _ _ => (.ok (), 0), next := fun _ => counter,
    params := fun _ => [some "x"] }

example : ∃ trs, multitrace counterWorld 3 5 10 none 42 = (.ok trs, 5) ∧ trs.length = 3 := by
  have hone : ∀ (i w : Nat), ∃ tr, oneChain counterWorld 5 10 none i w = (.ok tr, 5) := by
    intro i w
    have hc : (calls counter 5 0).1
        = ((List.range 5).map fun (i : Nat) => ([Obj.float true (.fin ((0 + i : Nat) : ℝ))], ())).map
          fun r => .ok (.list r.1, r.2) := by
      rw [counter_calls, List.map_map]; rfl
    obtain ⟨tr, h, -⟩ := C49_keep_all_partial counter ["x"] i 5 none 0 _ (by omega) hc
      (by intro r hr; obtain ⟨i, -, rfl⟩ := List.mem_map.1 hr; rfl) (by simp)
    refine ⟨tr, ?_⟩
    have : (calls counter 5 0).2 = 5 := by rw [counter_calls]
    rw [this] at h
    exact h
  choose f hf using hone
  refine ⟨_, C52_succeeds counterWorld 3 5 10 none (fun i => match i with | 0 => 42 | _ => 5)
    (fun i => f i (match i with | 0 => 42 | _ => 5)) (fun i _ => ?_), by simp⟩
  exact hf i _

end PySGMCMC.SampleChains
