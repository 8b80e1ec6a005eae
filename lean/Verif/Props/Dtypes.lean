import Verif.Model.Dtypes
import Mathlib.Logic.Basic
import Mathlib.Tactic.ByContra

/-!
# Element types

C136: samplers and networks can be built in every floating point type.  C137: `pdist`, `squareform` and `median` keep the
type of their input, except for `pdist` of a single point.
-/

namespace PySGMCMC.Dtypes

/-- A Python number. -/
def Val.IsNumber (v : Val) : Prop := v = .float ∨ v = .int

/-- `mapM` of a function that succeeds exactly on the elements that satisfy `c`. -/
theorem mapM_if {α β : Type} (f : α → Option β) (c : α → Prop) [DecidablePred c] (g : α → β)
    (h : ∀ a, f a = if c a then some (g a) else none) (l : List α) :
    l.mapM f = if ∀ a ∈ l, c a then some (l.map g) else none := by
  induction l with
  | nil => simp
  | cons a l ih =>
    rw [List.mapM_cons, h a, ih]
    by_cases ha : c a
    · by_cases hl : ∀ x ∈ l, c x
      · have h1 : ∀ x ∈ a :: l, c x := by simpa [ha] using hl
        rw [if_pos ha, if_pos hl, if_pos h1]
        rfl
      · have h1 : ¬ ∀ x ∈ a :: l, c x := fun h' => hl fun x hx => h' x (List.mem_cons_of_mem _ hx)
        rw [if_pos ha, if_neg hl, if_neg h1]
        rfl
    · have h1 : ¬ ∀ x ∈ a :: l, c x := fun h' => ha (h' a List.mem_cons_self)
      rw [if_neg ha, if_neg h1]
      rfl

/-- The same for the pairs of a parameter and its copy. -/
theorem zip_mapM_if {β : Type} (f : DType × Val → Option β) (c : DType → Prop) [DecidablePred c] (g : DType → β)
    (h : ∀ d, f (d, .tensor d) = if c d then some (g d) else none) (l : List DType) :
    (l.zip (l.map Val.tensor)).mapM f = if ∀ d ∈ l, c d then some (l.map g) else none := by
  rw [← mapM_if (fun d => f (d, .tensor d)) c g h l]
  induction l with
  | nil => rfl
  | cons a l ih => rw [List.map_cons, List.zip_cons_cons, List.mapM_cons, List.mapM_cons, ih]

theorem vectorize_all (l : List DType) : (l.mapM fun d => vectorize (.tensor d)) = some (l.map Val.tensor) := by
  rw [mapM_if (fun d => vectorize (.tensor d)) (fun _ => True) Val.tensor (fun _ => rfl)]
  simp

theorem float_or_none {d : DType} {v : Val} (hd : d.floating = true) (hv : v.IsNumber) :
    convert v d = some (.tensor d) ∧ constant v d = some (.tensor d) := by
  rcases hv with rfl | rfl <;> cases d <;> first | exact ⟨rfl, rfl⟩ | cases hd

theorem baseInit_eq (dtype : DType) (v : Val) (params : List DType) :
    baseInit dtype v params
      = (convert v dtype).bind fun e => some (params.map Val.tensor, e) := by
  unfold baseInit newVariable
  rw [vectorize_all]
  rfl

/-- C136: an SGHMC sampler for parameters of types `params` can be built with argument `dtype` exactly if `dtype` is a floating
point type and the type of every parameter; its samples have the types of the parameters. -/
theorem C136_sghmc (dtype : DType) {initialValue scaleGrad mdecay : Val} (h1 : initialValue.IsNumber) (h2 : scaleGrad.IsNumber)
    (h3 : mdecay.IsNumber) (params : List DType) :
    sghmc dtype initialValue scaleGrad mdecay params
      = if dtype.floating ∧ ∀ p ∈ params, p = dtype then some (params.map Val.tensor) else none := by
  unfold sghmc
  rw [baseInit_eq]
  have hp : ∀ p, sghmcParam dtype (.tensor dtype) (.tensor dtype) (.tensor dtype) (.tensor dtype) p (.tensor p)
      = if dtype.floating ∧ p = dtype then some (.tensor p) else none := by
    intro p
    cases dtype <;> cases p <;> rfl
  have hz := zip_mapM_if (fun pv : DType × Val => sghmcParam dtype (.tensor dtype) (.tensor dtype) (.tensor dtype) (.tensor dtype) pv.1 pv.2)
    (fun p => dtype.floating ∧ p = dtype) Val.tensor hp params
  by_cases hd : dtype.floating = true
  · rw [(float_or_none hd h1).1, (float_or_none hd h2).2, (float_or_none hd h3).2]
    have hc : constant .float dtype = some (.tensor dtype) := (float_or_none hd (.inl rfl)).2
    have ha : analytic (.tensor dtype) = some (.tensor dtype) := by simp [analytic, convertAny, hd]
    have hq : quotient (.tensor dtype) (.tensor dtype) = some (.tensor dtype) := by cases dtype <;> first | rfl | cases hd
    simp only [hc, ha, hq, Option.bind_eq_bind, Option.bind_some, hz, hd, true_and]
  · have hc : constant .float dtype = none := by cases dtype <;> first | rfl | exact absurd rfl hd
    rw [if_neg (fun h => hd h.1), hc]
    cases convert initialValue dtype <;> rfl

/-- C136: the same for SGLD. -/
theorem C136_sgld (dtype : DType) {scaleGrad a : Val} (h2 : scaleGrad.IsNumber) (h3 : a.IsNumber) (params : List DType) :
    sgld dtype scaleGrad a params
      = if dtype.floating ∧ ∀ p ∈ params, p = dtype then some (params.map Val.tensor) else none := by
  unfold sgld
  rw [baseInit_eq]
  have hp : ∀ p, sgldParam dtype (.tensor dtype) (.tensor dtype) (.tensor dtype) (.tensor dtype) p (.tensor p)
      = if dtype.floating ∧ p = dtype then some (.tensor p) else none := by
    intro p
    cases dtype <;> cases p <;> rfl
  have hz := zip_mapM_if (fun pv : DType × Val => sgldParam dtype (.tensor dtype) (.tensor dtype) (.tensor dtype) (.tensor dtype) pv.1 pv.2)
    (fun p => dtype.floating ∧ p = dtype) Val.tensor hp params
  by_cases hd : dtype.floating = true
  · have hc : constant .float dtype = some (.tensor dtype) := (float_or_none hd (.inl rfl)).2
    rw [(float_or_none hd (.inl rfl)).1, (float_or_none hd h2).2, (float_or_none hd h3).2, hc]
    simp only [Option.bind_eq_bind, Option.bind_some, hz, hd, true_and]
  · have hc : convert .float dtype = none := by cases dtype <;> first | rfl | exact absurd rfl hd
    rw [if_neg (fun h => hd h.1), hc]
    rfl

/-- C136: the same for relativistic SGHMC. -/
theorem C136_relativistic (dtype : DType) {initialValue d bHat : Val} (h1 : initialValue.IsNumber) (h2 : d.IsNumber) (h3 : bHat.IsNumber)
    (params : List DType) :
    relativistic dtype initialValue d bHat params
      = if dtype.floating ∧ ∀ p ∈ params, p = dtype then some (params.map Val.tensor) else none := by
  unfold relativistic
  rw [baseInit_eq]
  have hp : ∀ p, relativisticParam dtype (.tensor dtype) (.tensor dtype) (.tensor dtype) (.tensor dtype) (.tensor dtype) p (.tensor p)
      = if dtype.floating ∧ p = dtype then some (.tensor p) else none := by
    intro p
    cases dtype <;> cases p <;> rfl
  have hz := zip_mapM_if (fun pv : DType × Val =>
      relativisticParam dtype (.tensor dtype) (.tensor dtype) (.tensor dtype) (.tensor dtype) (.tensor dtype) pv.1 pv.2)
    (fun p => dtype.floating ∧ p = dtype) Val.tensor hp params
  by_cases hd : dtype.floating = true
  · have hc : constant .float dtype = some (.tensor dtype) := (float_or_none hd (.inl rfl)).2
    rw [(float_or_none hd h1).1, (float_or_none hd h2).2, (float_or_none hd h3).2]
    simp only [hc, Option.bind_eq_bind, Option.bind_some, hz, hd, true_and]
  · have hc : constant .float dtype = none := by cases dtype <;> first | rfl | exact absurd rfl hd
    rw [if_neg (fun h => hd h.1), hc]
    cases convert initialValue dtype <;> cases constant d dtype <;> cases constant bHat dtype <;> rfl

theorem stack_eq (d : DType) (l : List DType) : stack (d :: l) = if ∀ p ∈ l, p = d then some (.tensor d) else none := by
  have h : (l.all (· == d)) = true ↔ ∀ p ∈ l, p = d := by simp
  simp only [stack, h]

theorem pairs_eq_nil (m : Nat) :
    ((List.range m).flatMap fun i => (List.range m).filter fun j => decide (i < j)) = [] ↔ m ≤ 1 := by
  constructor
  · intro h
    by_contra hm
    have h1 : 1 ∈ ((List.range m).flatMap fun i => (List.range m).filter fun j => decide (i < j)) := by
      rw [List.mem_flatMap]
      refine ⟨0, List.mem_range.2 (by omega), ?_⟩
      rw [List.mem_filter]
      exact ⟨List.mem_range.2 (by omega), by decide⟩
    rw [h] at h1
    cases h1
  · intro h
    rw [List.flatMap_eq_nil_iff]
    intro i hi
    rw [List.filter_eq_nil_iff]
    intro j hj
    have := List.mem_range.1 hi
    have := List.mem_range.1 hj
    simp only [decide_eq_true_eq]
    omega

theorem dtypes_const (d : DType) (l : List Nat) :
    (l.map fun _ => Val.tensor d).filterMap Val.dtype? = List.replicate l.length d := by
  induction l with
  | nil => rfl
  | cons a l ih =>
    rw [List.map_cons, List.filterMap_cons_some (by rfl : Val.dtype? (.tensor d) = some d), ih]
    rfl

/-- C137: `pdist` of a matrix with at least two rows keeps its type; other types than floating point types are rejected. -/
theorem C137_pdist_partial (m : Nat) (hm : 2 ≤ m) (d : DType) :
    pdist m (.tensor d) = if d.floating then some (.tensor d) else none := by
  unfold pdist
  have hne := mt (pairs_eq_nil m).1 (by omega)
  generalize ((List.range m).flatMap fun i => (List.range m).filter fun j => decide (i < j)) = l at hne
  have hf : ∀ _ : Nat, ((arith (.tensor d) (.tensor d)).bind analytic) = if d.floating = true then some (.tensor d) else none := by
    intro _
    cases d <;> rfl
  obtain ⟨a, l, rfl⟩ := List.exists_cons_of_ne_nil hne
  have hmap := mapM_if (fun _ : Nat => (arith (.tensor d) (.tensor d)).bind analytic) (fun _ => d.floating = true) (fun _ => Val.tensor d) hf (a :: l)
  dsimp only
  rw [hmap]
  by_cases hd : d.floating = true
  · rw [if_pos (fun _ _ => hd), if_pos hd]
    simp only [Option.bind_eq_bind, Option.bind_some]
    rw [dtypes_const, List.length_cons, List.replicate_succ, stack_eq, if_pos]
    intro p hp
    exact List.eq_of_mem_replicate hp
  · rw [if_neg (fun h => hd (h a List.mem_cons_self)), if_neg hd]
    rfl

/-- C137 fails for a single point: the empty result of `pdist` is of type `float32`, whatever the type of the input. -/
theorem C137_pdist_violated (m : Nat) (hm : m ≤ 1) (d : DType) : pdist m (.tensor d) = some (.tensor .float32) := by
  unfold pdist
  rw [(pairs_eq_nil m).2 hm]
  rfl

/-- C137: `squareform` keeps the type. -/
theorem C137_squareform (n : Nat) (d : DType) (hd : d ≠ .bool) : squareform n (.tensor d) = some (.tensor d) := by
  unfold squareform
  by_cases hn : n = 0
  · simp [hn]
  · cases d <;> first | exact absurd rfl hd | simp [hn, stack, arith, convert]

/-- C137: `median` keeps floating point types. -/
theorem C137_median (n : Nat) (d : DType) (hd : d.floating = true) : median n (.tensor d) = some (.tensor d) := by
  unfold median
  by_cases hn : n % 2 = 1
  · cases d <;> first | cases hd; done | simp [hn, numeric, convertAny]
  · cases d <;> first | cases hd; done | simp [hn, numeric, convertAny, quotient, arith, convert, DType.floating]

/-- The kernel from the type of the distances on. -/
def kernelFrom (n : Nat) (nParticles particles distances : Val) : Option (Val × Val) := do
  let squares ← arith distances .int
  let h ← analytic (← quotient (← arith .float (← median (n * n) squares)) (← analytic (← arith nParticles .float)))
  let kernel ← analytic (← quotient (← quotient (← numeric squares) (← arith h .int)) .int)
  let sum ← numeric kernel
  let grads ← arith (← numeric (← same kernel particles)) (← arith particles sum)
  return (kernel, ← quotient grads (← arith h .int))

/-- Operations on tensors of one floating point type. -/
theorem closed {d : DType} (hd : d.floating = true) :
    arith (.tensor d) (.tensor d) = some (.tensor d) ∧ arith (.tensor d) .int = some (.tensor d) ∧ arith (.tensor d) .float = some (.tensor d)
    ∧ arith .float (.tensor d) = some (.tensor d) ∧ arith .int (.tensor d) = some (.tensor d)
    ∧ quotient (.tensor d) (.tensor d) = some (.tensor d) ∧ quotient (.tensor d) .int = some (.tensor d)
    ∧ quotient .float (.tensor d) = some (.tensor d)
    ∧ numeric (.tensor d) = some (.tensor d) ∧ analytic (.tensor d) = some (.tensor d) ∧ same (.tensor d) (.tensor d) = some (.tensor d)
    ∧ same (.tensor d) .float = some (.tensor d)
    ∧ convert (.tensor d) d = some (.tensor d) ∧ convert .float d = some (.tensor d) ∧ convert .int d = some (.tensor d)
    ∧ constant .float d = some (.tensor d) ∧ constant .int d = some (.tensor d) ∧ randomNormal d = some (.tensor d)
    ∧ assign (.tensor d) (.tensor d) = some (.tensor d) := by
  cases d <;> first | (cases hd; done) | (refine ⟨?_, ?_, ?_, ?_, ?_, ?_, ?_, ?_, ?_, ?_, ?_, ?_, ?_, ?_, ?_, ?_, ?_, ?_, ?_⟩ <;> rfl)

theorem kernelFrom_eq (n : Nat) (dtype d : DType) (hd : d.floating = true) :
    kernelFrom n (.tensor dtype) (.tensor d) (.tensor d) = if d = dtype then some (.tensor d, .tensor d) else none := by
  obtain ⟨h1, h2, h3, h4, -, h6, h7, -, h9, h10, h11, -⟩ := closed hd
  unfold kernelFrom
  by_cases he : d = dtype
  · subst he
    simp -implicitDefEqProofs only [h1, h2, h3, h4, h6, h7, h9, h10, h11, Option.bind_eq_bind, Option.bind_some, C137_median _ d hd, if_true]
    rfl
  · have hq : quotient (.tensor d) (.tensor dtype) = none := by cases d <;> cases dtype <;> first | rfl | exact absurd rfl he
    have hx : (do analytic (← arith (.tensor dtype) .float)) = some (.tensor dtype) ∨ (do analytic (← arith (.tensor dtype) .float)) = none := by
      cases dtype <;> simp [arith, convert, analytic, convertAny, DType.floating]
    simp -implicitDefEqProofs only [h2, h4, Option.bind_eq_bind, Option.bind_some, C137_median _ d hd, if_neg he] at hx ⊢
    rw [← Option.bind_assoc]
    rcases hx with hx | hx
    · rw [hx]
      simp -implicitDefEqProofs only [Option.bind_some, hq, Option.bind_none]
    · rw [hx]
      simp -implicitDefEqProofs only [Option.bind_none]

theorem svgdKernel_eq (n : Nat) (hn : 2 ≤ n) (dtype d : DType) :
    svgdKernel n (.tensor dtype) (.tensor d)
      = if d.floating ∧ d = dtype then some (.tensor d, .tensor d) else none := by
  have h : svgdKernel n (.tensor dtype) (.tensor d) = ((pdist n (.tensor d)).bind fun x => squareform (n * (n - 1) / 2) x).bind
      (kernelFrom n (.tensor dtype) (.tensor d)) := by
    unfold svgdKernel kernelFrom
    simp only [Option.bind_eq_bind, Option.bind_assoc]
  rw [h, C137_pdist_partial n hn]
  by_cases hd : d.floating = true
  · have hb : d ≠ .bool := by rintro rfl; cases hd
    rw [if_pos hd, Option.bind_some, C137_squareform _ d hb, Option.bind_some, kernelFrom_eq n dtype d hd]
    simp only [hd, true_and]
  · rw [if_neg hd, if_neg fun h => hd h.1, Option.bind_none, Option.bind_none]

/-- C136: an SVGD sampler for at least two particles can be built exactly if `dtype` is a floating point type and the type of all
particles and of the cost. -/
theorem C136_svgd (dtype : DType) {initialValue alpha fudge : Val} (h1 : initialValue.IsNumber) (h2 : alpha.IsNumber)
    (h3 : fudge.IsNumber) (cost : DType) (params : List DType) (hn : 2 ≤ params.length) :
    svgd dtype initialValue alpha fudge cost params
      = if dtype.floating ∧ cost = dtype ∧ ∀ p ∈ params, p = dtype then some (params.map Val.tensor) else none := by
  obtain ⟨d, l, rfl⟩ := List.exists_cons_of_ne_nil (List.ne_nil_of_length_pos (by omega : 0 < params.length))
  have hnil : (d :: l) ≠ [] := List.cons_ne_nil _ _
  unfold svgd
  rw [if_neg hnil, stack_eq, baseInit_eq]
  by_cases hl : ∀ p ∈ l, p = d
  rotate_left
  · rw [if_neg hl, if_neg]
    · rfl
    · rintro ⟨_, _, h⟩
      exact hl fun p hp => (h p (List.mem_cons_of_mem _ hp)).trans (h d List.mem_cons_self).symm
  rw [if_pos hl]
  have hcost : assign (.tensor d) (.tensor cost) = if cost = d then some (.tensor d) else none := rfl
  have hhist : newVariable (.tensor dtype) dtype = some (.tensor dtype) := by simp [newVariable, convert]
  have hcast : cast .int dtype = some (.tensor dtype) := rfl
  have heps : newVariable initialValue dtype = convert initialValue dtype := rfl
  simp -implicitDefEqProofs only [Option.bind_eq_bind, Option.bind_some, hcost, hhist, hcast, heps, svgdKernel_eq _ hn]
  by_cases hc : cost = d
  rotate_left
  · rw [if_neg hc, Option.bind_none, if_neg]
    rintro ⟨_, h, h'⟩
    exact hc (h.trans (h' d List.mem_cons_self).symm)
  rw [if_pos hc, Option.bind_some]
  by_cases hk : d.floating = true ∧ d = dtype
  rotate_left
  · rw [if_neg hk, if_neg]
    · cases convert initialValue dtype with
      | none => rfl
      | some e =>
        cases constant fudge dtype with
        | none => rfl
        | some f => rfl
    · rintro ⟨hf, _, h'⟩
      have hdd := h' d List.mem_cons_self
      exact hk ⟨hdd ▸ hf, hdd⟩
  obtain ⟨hf, rfl⟩ := hk
  obtain ⟨g1, g2, g3, g4, g5, g6, g7, g8, g9, g10, g11, g12, g13, g14, g15, g16, g17, g18, g19⟩ := closed hf
  have ha : arith alpha (.tensor d) = some (.tensor d) := by rcases h2 with rfl | rfl <;> assumption
  have ha' : ∃ v : Val, arith .float alpha = some v ∧ arith v (.tensor d) = some (.tensor d) := by
    rcases h2 with rfl | rfl <;> exact ⟨.float, rfl, g4⟩
  obtain ⟨v, hv, hv'⟩ := ha'
  rw [if_pos ⟨hf, rfl⟩, (float_or_none hf h1).1, (float_or_none hf h3).2]
  simp -implicitDefEqProofs only [Option.bind_some, g1, g2, g6, g10, g11, g19, ha, hv, hv']
  have hm := mapM_if (fun p : DType => assign (.tensor p) (.tensor d)) (fun p => p = d) Val.tensor
    (fun p => by
      by_cases hp : p = d
      · subst hp
        rw [if_pos rfl, g19]
      · rw [if_neg hp]
        exact if_neg fun h => hp h.symm) (d :: l)
  rw [hm]
  have hall : ∀ p ∈ d :: l, p = d := by
    intro p hp
    rcases List.mem_cons.1 hp with rfl | hp
    · rfl
    · exact hl p hp
  rw [if_pos hall, if_pos ⟨hf, hc, hall⟩]

/-- A loop that keeps a type as long as every element has it. -/
theorem foldlM_if (d : DType) (f : Val → DType → Option Val) (h : ∀ p, f (.tensor d) p = if p = d then some (.tensor d) else none)
    (l : List DType) : l.foldlM f (.tensor d) = if ∀ p ∈ l, p = d then some (.tensor d) else none := by
  induction l with
  | nil => simp
  | cons a l ih =>
    rw [List.foldlM_cons, h a]
    by_cases ha : a = d
    · rw [if_pos ha, Option.bind_eq_bind, Option.bind_some, ih]
      simp [ha]
    · rw [if_neg ha, if_neg fun h' => ha (h' a List.mem_cons_self)]
      rfl

theorem foldlM_const (d : DType) (f : Val → DType → Option Val) (h : ∀ p, f (.tensor d) p = some (.tensor d))
    (l : List DType) : l.foldlM f (.tensor d) = some (.tensor d) := by
  induction l with
  | nil => rfl
  | cons a l ih => rw [List.foldlM_cons, h a, Option.bind_eq_bind, Option.bind_some, ih]

theorem safeDivide_eq {d : DType} (hd : d.floating = true) : safeDivide (.tensor d) (.tensor d) = some (.tensor d) := by
  cases d <;> first | (cases hd; done) | rfl

theorem weightPrior_eq (d : DType) (hd : d.floating = true) (l : List DType) :
    weightPrior d l = if ∀ p ∈ l, p = d then some (.tensor d) else none := by
  obtain ⟨g1, g2, g3, g4, g5, g6, g7, g8, g9, g10, g11, g12, g13, g14, g15, g16, g17, g18, g19⟩ := closed hd
  unfold weightPrior
  simp -implicitDefEqProofs only [g14, g16, Option.bind_eq_bind, Option.bind_some]
  rw [foldlM_if d _ (fun p => ?_), foldlM_const d _ (fun p => ?_)]
  · by_cases h : ∀ p ∈ l, p = d
    · rw [if_pos h, Option.bind_some, Option.bind_some, safeDivide_eq hd]
    · rw [if_neg h, Option.bind_none]
  · exact g1
  · cases d <;> first | (cases hd; done) | (cases p <;> rfl)

theorem defaultNet_eq (d : DType) (hd : d.floating = true) : defaultNet d (.tensor d) = some (.tensor d) := by
  cases d <;> first | (cases hd; done) | rfl

theorem logVariancePrior_eq (d : DType) (hd : d.floating = true) : logVariancePrior d (.tensor d) = some (.tensor d) := by
  cases d <;> first | (cases hd; done) | rfl

/-- C136: the graph `train` builds for the default network is accepted exactly if `dtype` is a floating point type and the type
of all trainable variables of the graph. -/
theorem C136_network (dtype : DType) (trainable : List DType) :
    negativeLogLikelihood dtype trainable
      = if dtype.floating ∧ ∀ t ∈ trainable, t = dtype then some (.tensor dtype) else none := by
  by_cases hd : dtype.floating = true
  rotate_left
  · rw [if_neg fun h => hd h.1]
    have h : defaultNet dtype (.tensor dtype) = none := by cases dtype <;> first | rfl | exact absurd rfl hd
    unfold negativeLogLikelihood
    rw [h]
    rfl
  obtain ⟨g1, g2, g3, g4, g5, g6, g7, g8, g9, g10, g11, g12, g13, g14, g15, g16, g17, g18, g19⟩ := closed hd
  unfold negativeLogLikelihood
  simp -implicitDefEqProofs only [defaultNet_eq dtype hd, logVariancePrior_eq dtype hd, weightPrior_eq dtype hd, g1, g3, g4, g6, g8, g9, g10,
    g17, Option.bind_eq_bind, Option.bind_some, hd, true_and]
  by_cases h : ∀ t ∈ trainable, t = dtype
  · rw [if_pos h]
    simp -implicitDefEqProofs only [Option.bind_some, g1, g6, g9]
  · rw [if_neg h, Option.bind_none]

/-- C136: a network with 32 bit floats trains with SGHMC and SGLD. -/
example : negativeLogLikelihood .float32 (List.replicate 9 .float32) = some (.tensor .float32)
    ∧ sghmc .float32 .float .int .float (List.replicate 9 .float32) = some (List.replicate 9 (.tensor .float32)) := by
  rw [C136_network, C136_sghmc _ (.inl rfl) (.inr rfl) (.inl rfl)]
  exact ⟨rfl, rfl⟩

/-- C136: parameters of TensorFlow's default type need `dtype=tf.float32`; the default argument `tf.float64` is rejected. -/
example : sgld .float64 .float .float [.float32] = none ∧ sgld .float32 .float .float [.float32] = some [.tensor .float32] := by
  rw [C136_sgld _ (.inl rfl) (.inl rfl), C136_sgld _ (.inl rfl) (.inl rfl)]
  exact ⟨rfl, rfl⟩

/-- C136: relativistic SGHMC and SVGD in single precision. -/
example : relativistic .float32 .float .float .int [.float32, .float32] = some [.tensor .float32, .tensor .float32]
    ∧ svgd .float32 .float .float .float .float32 [.float32, .float32] = some [.tensor .float32, .tensor .float32]
    ∧ svgd .float64 .float .float .float .float64 [.float64, .float32] = none := by
  rw [C136_relativistic _ (.inl rfl) (.inl rfl) (.inr rfl), C136_svgd _ (.inl rfl) (.inl rfl) (.inl rfl) _ _ (by decide),
    C136_svgd _ (.inl rfl) (.inl rfl) (.inl rfl) _ _ (by decide)]
  exact ⟨rfl, rfl, rfl⟩

/-- C137: double precision points. -/
example : pdist 3 (.tensor .float64) = some (.tensor .float64) ∧ pdist 1 (.tensor .float64) = some (.tensor .float32) :=
  ⟨C137_pdist_partial 3 (by decide) _, C137_pdist_violated 1 (by decide) _⟩

end PySGMCMC.Dtypes
