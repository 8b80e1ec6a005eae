import Verif.Model.ComputeEss
import Verif.Props.SampleChains
import Mathlib.Algebra.Order.Archimedean.Real.Basic

/-!
# Properties of the ESS experiment
-/

namespace PySGMCMC.ComputeEss
open SampleChains

variable {σ α C ω H : Type}

/-! ## C81 -/

theorem isliceStep_calls (next : σ → Step σ α) (k fuel i : Nat) (s : σ) (l : List α) (h : (calls next fuel s).1 = l.map .ok) :
    isliceStep next k fuel i s
      = (.ok (((l.zipIdx i).filter fun p => decide (p.2 % k = 0)).map Prod.fst), (calls next fuel s).2) := by
  induction fuel generalizing i s l with
  | zero =>
    obtain rfl : l = [] := by simpa using h.symm
    rfl
  | succ n ih =>
    cases l with
    | nil => simp [calls_succ] at h
    | cons a l =>
      simp only [calls_succ, List.map_cons, List.cons.injEq] at h
      obtain ⟨h1, h2⟩ := h
      have := ih (i + 1) _ _ h2
      unfold isliceStep
      rcases hn : next s with ⟨r, s'⟩
      rw [hn] at h1 this h2
      simp only at h1; subst h1
      simp only [this]
      simp only [calls_succ, hn, List.zipIdx_cons, List.filter_cons]
      by_cases hk : i % k = 0 <;> simp [hk]

theorem filter_zipIdx_none (l : List α) (k i : Nat) (h : ∀ j < l.length, (i + j) % k ≠ 0) :
    (l.zipIdx i).filter (fun p => decide (p.2 % k = 0)) = [] := by
  rw [List.filter_eq_nil_iff]
  rintro ⟨a, j⟩ hm
  have h1 := List.le_snd_of_mem_zipIdx hm
  have h2 := List.snd_lt_add_of_mem_zipIdx hm
  simp only at h1 h2
  have := h (j - i) (by omega)
  rw [show i + (j - i) = j by omega] at this
  simpa using this

theorem pick (k : Nat) (hk : 1 ≤ k) (n : Nat) (l : List α) (hl : l.length = n * k) (i : Nat) (hi : k ∣ i) :
    (((l.zipIdx i).filter fun p => decide (p.2 % k = 0)).map Prod.fst).map some = (List.range n).map fun j => l[j * k]? := by
  induction n generalizing l i with
  | zero =>
    obtain rfl : l = [] := List.length_eq_zero_iff.1 (by simpa using hl)
    rfl
  | succ n ih =>
    have hl' : l.length = n * k + k := by rw [hl]; ring
    cases l with
    | nil => simp at hl'; omega
    | cons a t =>
      have ht : t = t.take (k - 1) ++ t.drop (k - 1) := (List.take_append_drop _ _).symm
      simp only [List.length_cons] at hl'
      have hlt : (t.take (k - 1)).length = k - 1 := by rw [List.length_take]; omega
      have h2 := ih (t.drop (k - 1)) (by rw [List.length_drop]; omega) (i + k) (by simpa using hi)
      obtain ⟨q, rfl⟩ := hi
      have hz : ((a :: t).zipIdx (k * q)).filter (fun p => decide (p.2 % k = 0))
          = (a, k * q) :: ((t.drop (k - 1)).zipIdx (k * q + k)).filter (fun p => decide (p.2 % k = 0)) := by
        rw [List.zipIdx_cons, List.filter_cons, if_pos (by simp)]
        congr 1
        conv_lhs => rw [ht]
        rw [List.zipIdx_append, List.filter_append, filter_zipIdx_none, List.nil_append, hlt]
        · rw [show k * q + 1 + (k - 1) = k * q + k by omega]
        · intro j hj
          rw [hlt] at hj
          rw [show k * q + 1 + j = (1 + j) + k * q by ring, Nat.add_mul_mod_self_left, Nat.mod_eq_of_lt (by omega)]
          omega
      rw [hz, List.map_cons, List.map_cons, h2, List.range_succ_eq_map, List.map_cons, List.map_map]
      simp only [Nat.zero_mul, List.getElem?_cons_zero]
      congr 1
      apply List.map_congr_left
      intro j _
      simp only [Function.comp, List.getElem?_drop]
      rw [show (j + 1) * k = (k - 1 + j * k) + 1 by rw [Nat.succ_mul]; omega, List.getElem?_cons_succ]

/-- **C81** `extract_samples` keeps the items `0, k, …, (n-1)k` and consumes exactly `n * k` items. -/
theorem C81_extract (next : σ → Step σ (Obj × C)) (n k : Nat) (hk : 1 ≤ k) (s : σ) (l : List (Obj × C))
    (h : (calls next (n * k) s).1 = l.map .ok) :
    ∃ samples, extractSamples next n k s = (.ok samples, (calls next (n * k) s).2) ∧ samples.length = n
      ∧ ∀ j < n, samples[j]? = (l[j * k]?).map Prod.fst := by
  have hlen : l.length = n * k := by
    have := congrArg List.length h
    simpa using this.symm
  have hp := pick k hk n l hlen 0 (by simp)
  refine ⟨_, by simp only [extractSamples, isliceStep_calls next k _ 0 s l h]; rfl, ?_, ?_⟩
  · have := congrArg List.length hp
    simpa using this
  · intro j hj
    have := congrArg (fun l => l[j]?) hp
    simp only [List.getElem?_map, List.getElem?_range hj, Option.map_some] at this
    rw [List.getElem?_map]
    simp only [List.getElem?_map]
    rcases hx : ((List.filter (fun p => decide (p.2 % k = 0)) (l.zipIdx 0))[j]?) with _ | x
    · rw [hx] at this; simp at this
    · rw [hx] at this
      simp only [Option.map_some, Option.some.injEq] at this
      rw [← this]
      rw [show (List.filter (fun p => decide (p.2 % k = 0)) l.zipIdx)[j]? = some x from hx]
      rfl

/-- An exception of the sampler ends `extract_samples` with the same exception; nothing is returned. -/
theorem C81_extract_error (next : σ → Step σ (Obj × C)) (n k : Nat) (s : σ) (m : Nat) (hm : m < n * k) (l : List (Obj × C))
    (h : (calls next m s).1 = l.map .ok) (e : PyErr) (s' : σ) (he : next (calls next m s).2 = (.error e, s'))
    (hne : e ≠ .stopIteration) : extractSamples next n k s = (.error e, s') := by
  have key : ∀ (m fuel i : Nat) (s : σ) (l : List (Obj × C)), m < fuel → (calls next m s).1 = l.map .ok →
      next (calls next m s).2 = (.error e, s') → isliceStep next k fuel i s = (.error e, s') := by
    intro m
    induction m with
    | zero =>
      intro fuel i s l hf _ he
      obtain ⟨fuel, rfl⟩ : ∃ f, fuel = f + 1 := ⟨fuel - 1, by omega⟩
      unfold isliceStep
      simp only [calls_zero] at he
      rw [he]
      cases e <;> first | rfl | exact absurd rfl hne
    | succ m ih =>
      intro fuel i s l hf h he
      obtain ⟨fuel, rfl⟩ : ∃ f, fuel = f + 1 := ⟨fuel - 1, by omega⟩
      cases l with
      | nil => simp [calls_succ] at h
      | cons a l =>
        simp only [calls_succ, List.map_cons, List.cons.injEq] at h he
        obtain ⟨h1, h2⟩ := h
        have := ih fuel (i + 1) _ _ (by omega) h2 he
        unfold isliceStep
        rcases hn : next s with ⟨r, s''⟩
        rw [hn] at h1 this
        simp only at h1; subst h1
        simp only [this]
  unfold extractSamples
  rw [key m _ 0 s l hm h he]

/-- The samples recorded for chain `i` of a run `l`. -/
theorem traces_eq (W : World ω H C) (a : Args) (h : H) (n : Nat) (hn : a.samplesPerChain.toNat = n) (m : Nat) (w : ω)
    (l : List (Obj × C)) (hcalls : (calls (W.next h) (m * (n * 10)) w).1 = l.map .ok) (i0 : Nat) (tr : Nat → Trace)
    (htr : ∀ i < m, ∀ samples : List Obj, samples.length = n →
      (∀ j < n, samples[j]? = (l[(i * n + j) * 10]?).map Prod.fst) →
      mkTrace ((i0 + i : Nat) : Int) (.seq samples) (some (varnames a.benchmark)) = .ok (tr i)) :
    traces W a h (List.range' i0 m) w = (.ok ((List.range m).map tr), (calls (W.next h) (m * (n * 10)) w).2) := by
  induction m generalizing w l i0 tr with
  | zero => simp [traces]
  | succ m ih =>
    have hsplit : (m + 1) * (n * 10) = n * 10 + m * (n * 10) := by ring
    rw [hsplit] at hcalls ⊢
    rw [calls_add] at hcalls ⊢
    simp only at hcalls ⊢
    obtain ⟨l1, l2, hl, h1, h2⟩ := List.append_eq_map_iff.1 hcalls
    have hl1 : l1.length = n * 10 := by
      have := congrArg List.length h1
      simpa using this
    obtain ⟨samples, he, hs, hj⟩ := C81_extract (W.next h) n 10 (by norm_num) w l1 h1.symm
    rw [List.range'_succ]
    unfold traces
    rw [hn, he]
    simp only
    have h0 := htr 0 (by omega) samples hs (by
      intro j hjn
      rw [hj j hjn, hl, List.getElem?_append_left (by omega)]
      simp)
    rw [show ((i0 + 0 : Nat) : Int) = (i0 : Int) by simp] at h0
    rw [h0]
    simp only
    rw [ih _ l2 h2.symm (i0 + 1) (fun i => tr (i + 1))]
    · rw [List.range_succ_eq_map, List.map_cons, List.map_map]
      rfl
    · intro i hi samples hs hj
      have := htr (i + 1) (by omega) samples hs (by
        intro j hjn
        rw [hj j hjn, hl, List.getElem?_append_right (by rw [hl1]; nlinarith), hl1]
        congr 3
        rw [show (i * n + j) * 10 = ((i + 1) * n + j) * 10 - n * 10 by
          rw [show ((i + 1) * n + j) * 10 = (i * n + j) * 10 + n * 10 by ring]; omega])
      rw [show i0 + 1 + i = i0 + (i + 1) by ring]
      exact this

/-- `one` with traces of distinct ids. -/
theorem one_eq (W : World ω H C) (a : Args) (e : ℝ) (w w1 : ω) (h : H) (hnew : W.newSampler a.sampler a.benchmark e w = (.ok h, w1))
    (n m : Nat) (hn : a.samplesPerChain.toNat = n) (hm : a.nChains.toNat = m)
    (l : List (Obj × C)) (hcalls : (calls (W.next h) (m * (n * 10)) w1).1 = l.map .ok) (tr : Nat → Trace)
    (htr : ∀ i < m, ∀ samples : List Obj, samples.length = n →
      (∀ j < n, samples[j]? = (l[(i * n + j) * 10]?).map Prod.fst) →
      mkTrace (i : Int) (.seq samples) (some (varnames a.benchmark)) = .ok (tr i))
    (hid : ∀ i < m, (tr i).chain = i) :
    one W a e w = (W.meanEss ((List.range m).map tr), (calls (W.next h) (m * (n * 10)) w1).2) := by
  have ht := traces_eq W a h n hn m w1 l hcalls 0 tr (by simpa using htr)
  unfold one
  rw [hnew]
  simp only [hm]
  rw [List.range_eq_range', ht]
  simp only [multiTrace]
  rw [if_pos]
  · simp only [List.range_eq_range']
  rw [List.map_map]
  have : (List.range m).map (Trace.chain ∘ tr) = (List.range m).map (fun i : Nat => (i : Int)) :=
    List.map_congr_left fun i hi => hid i (List.mem_range.1 hi)
  rw [this]
  exact List.Nodup.map (fun a b h => by simpa using h) List.nodup_range

theorem ext_range (n : Nat) (samples : List Obj) (f : Nat → Obj) (hs : samples.length = n)
    (hj : ∀ j < n, samples[j]? = some (f j)) : samples = (List.range n).map f := by
  apply List.ext_getElem?
  intro j
  by_cases h : j < n
  · rw [hj j h, List.getElem?_map, List.getElem?_range h]; rfl
  · rw [List.getElem?_eq_none (by omega), List.getElem?_eq_none (by simp; omega)]

/-- **C82** (two parameters) The chains are consecutive segments of a single run of one sampler; with `--keep-every 10`,
sample `j` of chain `i` is the result of step `(i * n + j) * keep_every`.  Missing: other values of `--keep-every` (see
`C82_violated`). -/
theorem C82_banana_partial (W : World ω H C) (a : Args) (hb : a.benchmark = "banana") (e : ℝ) (w w1 : ω) (h : H)
    (hnew : W.newSampler a.sampler a.benchmark e w = (.ok h, w1))
    (n m k : Nat) (hn : a.samplesPerChain = n) (hn1 : 1 ≤ n) (hm : a.nChains = m) (hk : a.keepEvery = k) (hk10 : k = 10)
    (x y : Nat → Obj) (c : Nat → C)
    (hcalls : (calls (W.next h) (m * (n * k)) w1).1 = (List.range (m * (n * k))).map fun t => .ok (.list [x t, y t], c t)) :
    ∃ trs : List Trace, one W a e w = (W.meanEss trs, (calls (W.next h) (m * (n * k)) w1).2) ∧ trs.length = m
      ∧ ∀ (i : Nat) (tr : Trace), trs[i]? = some tr → tr.chain = i ∧ length tr = n ∧ tr.varnames = ["x", "y"]
        ∧ getValues tr "x" 0 1 = .ok ((List.range n).map fun j => x ((i * n + j) * k))
        ∧ getValues tr "y" 0 1 = .ok ((List.range n).map fun j => y ((i * n + j) * k)) := by
  subst hk10
  have hlt : ∀ i < m, ∀ j < n, (i * n + j) * 10 < m * (n * 10) := by
    intro i hi j hj
    have : (i + 1) * n ≤ m * n := Nat.mul_le_mul_right _ hi
    nlinarith
  have hrow : ∀ i : Nat, ∃ tr, mkTrace (i : Int)
      (.seq (((List.range n).map fun j => [x ((i * n + j) * 10), y ((i * n + j) * 10)]).map .list)) (some ["x", "y"]) = .ok tr
      ∧ tr.chain = i ∧ length tr = n ∧ tr.varnames = ["x", "y"]
        ∧ getValues tr "x" 0 1 = .ok ((List.range n).map fun j => x ((i * n + j) * 10))
        ∧ getValues tr "y" 0 1 = .ok ((List.range n).map fun j => y ((i * n + j) * 10)) := by
    intro i
    obtain ⟨tr, h1, h2, h3, h4, h5⟩ := C46_table (i : Int)
      ((List.range n).map fun j => [x ((i * n + j) * 10), y ((i * n + j) * 10)]) ["x", "y"]
      (by simp; omega) (by intro r hr; obtain ⟨j, -, rfl⟩ := List.mem_map.1 hr; rfl) (by simp) (by decide)
    refine ⟨tr, h1, h2, by simpa using h4, h3, ?_, ?_⟩
    · obtain ⟨vs, hv, hk⟩ := h5 0 "x" rfl 0 1 (by norm_num)
      simp only [Nat.cast_zero, Nat.cast_one] at hv
      rw [hv]; congr 1
      apply List.ext_getElem?
      intro q
      rw [hk]
      by_cases hq : q < n <;> simp [hq]
    · obtain ⟨vs, hv, hk⟩ := h5 1 "y" rfl 0 1 (by norm_num)
      simp only [Nat.cast_zero, Nat.cast_one] at hv
      rw [hv]; congr 1
      apply List.ext_getElem?
      intro q
      rw [hk]
      by_cases hq : q < n <;> simp [hq]
  choose tr hmk hrest using hrow
  have hone := one_eq W a e w w1 h hnew n m (by rw [hn]; rfl) (by rw [hm]; rfl)
    ((List.range (m * (n * 10))).map fun t => (Obj.list [x t, y t], c t)) (by rw [hcalls, List.map_map]; rfl) tr (by
      intro i hi samples hs hj
      have : samples = ((List.range n).map fun j => [x ((i * n + j) * 10), y ((i * n + j) * 10)]).map .list := by
        rw [List.map_map]
        refine ext_range n samples _ hs fun j hjn => ?_
        rw [hj j hjn, List.getElem?_map, List.getElem?_range (hlt i hi j hjn)]
        rfl
      rw [this, hb]
      exact hmk i) (fun i _ => (hrest i).1)
  refine ⟨_, hone, by simp, ?_⟩
  intro i t ht
  rw [List.getElem?_map] at ht
  have hi : i < m := by
    by_contra hc
    rw [List.getElem?_eq_none (by simp; omega)] at ht
    cases ht
  rw [List.getElem?_range hi] at ht
  obtain rfl : tr i = t := by simpa using ht
  exact hrest i

/-- **C82** (one parameter) As `C82_banana_partial`, for samplers that return plain floats. -/
theorem C82_gmm_partial (W : World ω H C) (a : Args) (hb : a.benchmark ≠ "banana") (e : ℝ) (w w1 : ω) (h : H)
    (hnew : W.newSampler a.sampler a.benchmark e w = (.ok h, w1))
    (n m k : Nat) (hn : a.samplesPerChain = n) (hn1 : 1 ≤ n) (hm : a.nChains = m) (hk : a.keepEvery = k) (hk10 : k = 10)
    (x : Nat → Fl) (c : Nat → C)
    (hcalls : (calls (W.next h) (m * (n * k)) w1).1 = (List.range (m * (n * k))).map fun t => .ok (.float true (x t), c t)) :
    ∃ trs : List Trace, one W a e w = (W.meanEss trs, (calls (W.next h) (m * (n * k)) w1).2) ∧ trs.length = m
      ∧ ∀ (i : Nat) (tr : Trace), trs[i]? = some tr → tr.chain = i ∧ length tr = n ∧ tr.varnames = ["x"]
        ∧ getValues tr "x" 0 1 = .ok ((List.range n).map fun j => .float true (x ((i * n + j) * k))) := by
  subst hk10
  have hlt : ∀ i < m, ∀ j < n, (i * n + j) * 10 < m * (n * 10) := by
    intro i hi j hj
    have : (i + 1) * n ≤ m * n := Nat.mul_le_mul_right _ hi
    nlinarith
  set vals : Nat → List Obj := fun i => (List.range n).map fun j => .float true (x ((i * n + j) * 10)) with hvals
  set tr : Nat → Trace := fun i => ⟨i, (vals i).map (fun v => .list [v]), 1, ["x"]⟩ with htr
  have hone := one_eq W a e w w1 h hnew n m (by rw [hn]; rfl) (by rw [hm]; rfl)
    ((List.range (m * (n * 10))).map fun t => (Obj.float true (x t), c t)) (by rw [hcalls, List.map_map]; rfl) tr (by
      intro i hi samples hs hj
      have : samples = vals i := by
        refine ext_range n samples _ hs fun j hjn => ?_
        rw [hj j hjn, List.getElem?_map, List.getElem?_range (hlt i hi j hjn)]
        rfl
      rw [this, varnames, if_neg hb]
      exact single_trace i "x" (vals i) (vals i) (by simp [hvals]; omega) (.inr ⟨rfl, by
        intro v hv
        obtain ⟨j, -, rfl⟩ := List.mem_map.1 hv
        rfl⟩)) (fun i _ => rfl)
  refine ⟨_, hone, by simp, ?_⟩
  intro i t ht
  rw [List.getElem?_map] at ht
  have hi : i < m := by
    by_contra hc
    rw [List.getElem?_eq_none (by simp; omega)] at ht
    cases ht
  rw [List.getElem?_range hi] at ht
  obtain rfl : tr i = t := by simpa using ht
  exact ⟨rfl, by simp [htr, hvals, length], rfl, single_values i "x" (vals i)⟩

theorem traces_keepEvery (W : World ω H C) (a : Args) (k : Int) (h : H) (ids : List Nat) (w : ω) :
    traces W { a with keepEvery := k } h ids w = traces W a h ids w := by
  induction ids generalizing w with
  | nil => rfl
  | cons i is ih => unfold traces; simp only [ih]

theorem one_keepEvery (W : World ω H C) (a : Args) (k : Int) (e : ℝ) (w : ω) :
    one W { a with keepEvery := k } e w = one W a e w := by
  unfold one
  simp only [traces_keepEvery]

theorem loop_keepEvery (W : World ω H C) (a : Args) (k : Int) (es : List ℝ) (w : ω) :
    loop W { a with keepEvery := k } es w = loop W a es w := by
  induction es generalizing w with
  | nil => rfl
  | cons e es ih => unfold loop; simp only [ih, one_keepEvery]

/-- **C82** is false of the code: `--keep-every` has no effect, every accepted value gives the result for `10`. -/
theorem C82_violated (W : World ω H C) (a : Args) (k : Int) (hk : 1 ≤ k) (ha : 1 ≤ a.keepEvery) (w : ω) :
    main W { a with keepEvery := k } w = main W a w := by
  have hc : check { a with keepEvery := k } = check a := by
    unfold check
    simp only [hk, ha, not_true_eq_false, if_false]
  have hs : stepsizes { a with keepEvery := k } = stepsizes a := rfl
  unfold main
  rw [hc, hs]
  simp only [loop_keepEvery]

/-! ## C83 -/

theorem mem_arange (start stop step : ℝ) (hs : 0 < step) (e : ℝ) :
    e ∈ arange start stop step ↔ (∃ i : Nat, e = start + i * step) ∧ e < stop := by
  unfold arange
  rw [List.mem_map]
  have key : ∀ i : Nat, i < ⌈(stop - start) / step⌉.toNat ↔ start + i * step < stop := by
    intro i
    rw [Int.lt_toNat, Int.lt_ceil, lt_div_iff₀ hs, Int.cast_natCast]
    constructor <;> intro h <;> linarith
  constructor
  · rintro ⟨i, hi, rfl⟩
    exact ⟨⟨i, rfl⟩, (key i).1 (List.mem_range.1 hi)⟩
  · rintro ⟨⟨i, rfl⟩, h⟩
    exact ⟨i, List.mem_range.2 ((key i).2 h), rfl⟩

theorem arange_sorted (start stop step : ℝ) (hs : 0 < step) : (arange start stop step).Pairwise (· < ·) := by
  unfold arange
  rw [List.pairwise_map]
  refine List.pairwise_lt_range.imp ?_
  intro a b hab
  have : (a : ℝ) < b := by exact_mod_cast hab
  nlinarith

/-- **C83** Without `--stepsize`, the stepsizes tried are exactly `min, min + inc, min + 2 inc, …` as far as they are below
`max`, each once and in increasing order; with `--stepsize e` it is `e` alone. -/
theorem C83_stepsizes (a : Args) (hs : 0 < a.stepsizeStep) :
    (a.stepsize = none → (∀ e, e ∈ stepsizes a ↔ (∃ i : Nat, e = a.stepsizeMin + i * a.stepsizeStep) ∧ e < a.stepsizeMax)
      ∧ (stepsizes a).Pairwise (· < ·))
    ∧ ∀ e, a.stepsize = some e → stepsizes a = [e] := by
  refine ⟨fun h => ?_, fun e h => by simp [stepsizes, h]⟩
  simp only [stepsizes, h]
  exact ⟨mem_arange _ _ _ hs, arange_sorted _ _ _ hs⟩

/-- **C83** The upper end is never tried; in particular nothing is tried if both ends agree. -/
theorem C83_upper_end (a : Args) (hs : 0 < a.stepsizeStep) (h : a.stepsize = none) :
    a.stepsizeMax ∉ stepsizes a ∧ (a.stepsizeMin = a.stepsizeMax → stepsizes a = []) := by
  have hm := ((C83_stepsizes a hs).1 h).1
  refine ⟨fun hc => lt_irrefl _ ((hm _).1 hc).2, fun he => List.eq_nil_iff_forall_not_mem.2 fun e hc => ?_⟩
  obtain ⟨⟨i, rfl⟩, hlt⟩ := (hm _).1 hc
  have : 0 ≤ (i : ℝ) * a.stepsizeStep := by positivity
  linarith

theorem loop_fst (W : World ω H C) (a : Args) (es : List ℝ) (w w' : ω) (pairs : List (ℝ × Fl))
    (h : loop W a es w = (.ok pairs, w')) : pairs.map Prod.fst = es := by
  induction es generalizing w w' pairs with
  | nil =>
    unfold loop at h
    obtain ⟨rfl, -⟩ : pairs = [] ∧ w = w' := by simpa [eq_comm] using h
    rfl
  | cons e es ih =>
    unfold loop at h
    split at h
    · cases h
    · split at h
      · cases h
      · rename_i hl
        obtain ⟨rfl, -⟩ : _ = pairs ∧ _ = w' := by simpa using h
        simp [ih _ _ _ hl]

theorem essVals_length (pairs : List (ℝ × Fl)) (e : ℝ) :
    (essVals pairs e).length = by classical exact (pairs.map Prod.fst).count e := by
  classical
  induction pairs with
  | nil => rfl
  | cons p ps ih =>
    unfold essVals at ih ⊢
    rw [List.filter_cons, List.map_cons, List.count_cons]
    by_cases h : p.1 = e
    · simp [h, ih]
    · simp [h, ih]

theorem count_flatten_replicate [DecidableEq α] (n : Nat) (l : List α) (a : α) :
    (List.replicate n l).flatten.count a = n * l.count a := by
  induction n with
  | zero => simp
  | succ n ih => rw [List.replicate_succ, List.flatten_cons, List.count_append, ih]; ring

/-- **C83** If the script gets to the end, it reports exactly `--n-iterations` values for every stepsize tried, and none for
any other. -/
theorem C83_counts (W : World ω H C) (a : Args) (w w' : ω) (f : ℝ → List Fl) (h : main W a w = (.ok f, w')) :
    (∀ e ∈ stepsizes a, ((f e).length : Int) = a.nIterations) ∧ ∀ e, e ∉ stepsizes a → f e = [] := by
  classical
  unfold main at h
  split at h
  · cases h
  · rename_i hc
    split at h
    · cases h
    · rename_i pairs w'' hl
      obtain ⟨rfl, rfl⟩ : essVals pairs = f ∧ w'' = w' := by simpa using h
      have hfst := loop_fst W a _ _ _ _ hl
      have hn : 1 ≤ a.nIterations ∧ 0 < a.stepsizeStep := by
        unfold check at hc
        split_ifs at hc with h1 h2 h3 h4 h5 h6 h7 h8 h9
        exact ⟨h2, h8⟩
      have hnd : (stepsizes a).Nodup := by
        rcases hst : a.stepsize with _ | e
        · exact ((C83_stepsizes a hn.2).1 hst).2.imp fun h => ne_of_lt h
        · rw [(C83_stepsizes a hn.2).2 e hst]; simp
      have hcount : ∀ e, (essVals pairs e).length = a.nIterations.toNat * (stepsizes a).count e := by
        intro e
        rw [essVals_length, ← count_flatten_replicate, ← hfst]
      constructor
      · intro e he
        rw [hcount, List.count_eq_one_of_mem hnd he]
        omega
      · intro e he
        exact List.length_eq_zero_iff.1 (by rw [hcount, List.count_eq_zero.2 he, Nat.mul_zero])

/-! ## C84 -/

/-- **C84** The script starts to sample iff the arguments are acceptable. -/
theorem C84_accepts (a : Args) : check a = .ok () ↔
    a.benchmark ∈ ["banana", "gmm1", "gmm2", "gmm3"] ∧ a.sampler ∈ ["RelativisticSGHMC", "SGHMC", "SGLD"]
    ∧ 1 ≤ a.nIterations ∧ 2 ≤ a.nChains ∧ 1 ≤ a.samplesPerChain ∧ 1 ≤ a.keepEvery
    ∧ 0 ≤ a.stepsizeMin ∧ a.stepsizeMin ≤ a.stepsizeMax ∧ 0 < a.stepsizeStep := by
  unfold check
  split_ifs with h1 h2 h3 h4 h5 h6 h7 h8 h9
  all_goals simp only [false_iff, true_iff]
  all_goals tauto

/-- **C84** Otherwise it raises before it builds or runs any sampler: `ValueError` for an unknown benchmark, `AssertionError`
for everything else. -/
theorem C84_rejects (W : World ω H C) (a : Args) (h : check a ≠ .ok ()) (w : ω) :
    (a.benchmark ∉ ["banana", "gmm1", "gmm2", "gmm3"] → ∃ msg, main W a w = (.error (.value msg), w))
    ∧ (a.benchmark ∈ ["banana", "gmm1", "gmm2", "gmm3"] → main W a w = (.error .assertion, w)) := by
  unfold main
  constructor
  · intro hb
    refine ⟨"Unsupported benchmark function", ?_⟩
    rw [show check a = .error (.value "Unsupported benchmark function") by unfold check; rw [if_pos hb]]
  · intro hb
    rw [show check a = .error .assertion by
      unfold check at h ⊢
      rw [if_neg (not_not.2 hb)] at h ⊢
      split_ifs at h ⊢ <;> first | rfl | exact absurd rfl h]

/-! ## The hypotheses are met -/

/-- A world in which every sampler counts its steps in both parameters; the "effective sample size" is the number of traces. -/
noncomputable def countWorld : World Nat Unit Unit where
  newSampler _ _ _ _ := (.ok (), 0)
  next _ t := (.ok (.list [.float true (.fin t), .float true (.fin (2 * t))], ()), t + 1)
  meanEss trs := .ok (.fin trs.length)

theorem countWorld_calls (N s : Nat) : calls (countWorld.next ()) N s
    = ((List.range N).map fun t => .ok (.list [.float true (.fin ((s + t : Nat) : ℝ)), .float true (.fin (2 * ((s + t : Nat) : ℝ)))], ()), s + N) := by
  induction N generalizing s with
  | zero => rfl
  | succ n ih =>
    rw [calls_succ]
    simp only [countWorld] at ih ⊢
    rw [ih, List.range_succ_eq_map]
    simp only [List.map_cons, List.map_map, Nat.add_zero]
    refine Prod.ext ?_ (by simp only; omega)
    simp only [List.cons.injEq, true_and]
    apply List.map_congr_left
    intro i _
    simp only [Function.comp, Nat.succ_eq_add_one, show s + 1 + i = s + (i + 1) by ring]

/-- Three chains of four samples, `--keep-every 5`: still every tenth step is kept. -/
example : ∃ trs, one countWorld { benchmark := "banana", nChains := 3, samplesPerChain := 4, keepEvery := 5, stepsizeMin := 0, stepsizeMax := 1, stepsizeStep := 1 }
      1 7 = (countWorld.meanEss trs, 120)
    ∧ trs.length = 3 ∧ ∀ tr, trs[2]? = some tr → getValues tr "x" 0 1
      = .ok ((List.range 4).map fun (j : Nat) => .float true (.fin (((2 * 4 + j) * 10 : Nat) : ℝ))) := by
  obtain ⟨trs, h1, h2, h3⟩ := C82_banana_partial countWorld { benchmark := "banana", nChains := 3, samplesPerChain := 4, stepsizeMin := 0, stepsizeMax := 1, stepsizeStep := 1 }
    rfl 1 7 0 () rfl 4 3 10 rfl (by norm_num) rfl rfl rfl
    (fun t => .float true (.fin (t : ℝ))) (fun t => .float true (.fin (2 * (t : ℝ)))) (fun _ => ())
    (by rw [countWorld_calls]; simp)
  refine ⟨trs, ?_, h2, fun tr ht => (h3 2 tr ht).2.2.2.1⟩
  rw [countWorld_calls] at h1
  rw [← one_keepEvery _ _ 5] at h1
  exact h1

/-- Acceptable arguments. -/
example : check { benchmark := "gmm2", sampler := "SGLD", stepsizeMin := 0.01, stepsizeMax := 8, stepsizeStep := 0.05 } = .ok () := by
  rw [C84_accepts]; norm_num

/-- The stepsizes from `0.1` to `0.3` by `0.1`: `0.3` is not tried. -/
example : (0.2 : ℝ) ∈ stepsizes { benchmark := "gmm2", stepsizeMin := 0.1, stepsizeMax := 0.3, stepsizeStep := 0.1 } := by
  rw [((C83_stepsizes _ (by norm_num)).1 rfl).1]
  exact ⟨⟨1, by norm_num⟩, by norm_num⟩

end PySGMCMC.ComputeEss
