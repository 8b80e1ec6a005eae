import Verif.Model.Gradients
import Verif.Lemmas.Recipe
import Mathlib.Analysis.Calculus.FDeriv.Mul
import Mathlib.Analysis.Calculus.FDeriv.Add
import Mathlib.Analysis.Calculus.FDeriv.Pi
import Mathlib.Analysis.Calculus.Deriv.Comp

/-!
# Backpropagation computes derivatives
-/

namespace PySGMCMC.Gradients

/-! ## Which parameters get a gradient -/

section reach
variable {P : Type} [DecidableEq P] {size : P → Nat} {δ α : Type} {ctx : List Nat} [Add α] [Sub α] [Neg α] [Mul α] [OfNat α 0] [OfNat α 1]

theorem plus_isSome {d : Nat} (a b : Option (Fin d → α)) : (plus a b).isSome = (a.isSome || b.isSome) := by
  cases a <;> cases b <;> rfl

/-- Something arrives at a node from which parameter `i` is computed. -/
def Adj.reaches (a : Adj α ctx) (T : Graph size δ α ctx) (i : P) : Prop := ∃ d r, (a d r).isSome ∧ T.uses d r i

theorem reaches_single {d : Nat} (x : Ref ctx d) (g : Fin d → α) (T : Graph size δ α ctx) (i : P) :
    (Adj.single x g).reaches T i ↔ T.uses d x i := by
  induction T generalizing d with
  | nil => exact nomatch x
  | snoc T o ih =>
    cases x with
    | here =>
      constructor
      · rintro ⟨d', r, h, hu⟩
        cases r with
        | here => exact hu
        | there r => simp [Adj.single] at h
      · intro hu
        exact ⟨_, .here, rfl, hu⟩
    | there x =>
      constructor
      · rintro ⟨d', r, h, hu⟩
        cases r with
        | here => simp [Adj.single] at h
        | there r => exact (ih x g).1 ⟨d', r, h, hu⟩
      · intro hu
        obtain ⟨d', r, h, hu'⟩ := (ih x g).2 hu
        exact ⟨d', .there r, h, hu'⟩

theorem reaches_plus (a b : Adj α ctx) (T : Graph size δ α ctx) (i : P) : (a.plus b).reaches T i ↔ a.reaches T i ∨ b.reaches T i := by
  unfold Adj.reaches Adj.plus
  simp only [plus_isSome, Bool.or_eq_true, or_and_right, exists_or]

theorem reaches_none (T : Graph size δ α ctx) (i : P) : ¬ Adj.reaches (α := α) (fun _ _ => none) T i := by
  rintro ⟨d, r, h, -⟩
  simp at h

/-- A node hands on to the nodes its parameters come from. -/
theorem back_reaches {d : Nat} (o : Op size δ α ctx d) (e : Env α ctx) (g : Fin d → α) (T : Graph size δ α ctx) (i : P) :
    (o.arrives g i).isSome ∨ (o.back e g).reaches T i ↔ o.uses T.uses i := by
  cases o with
  | param j =>
    simp only [Op.arrives, Op.back, Op.uses, reaches_none, or_false]
    by_cases h : j = i <;> simp [h]
  | data v => simp [Op.arrives, Op.back, Op.uses, reaches_none]
  | map f f' x => simp [Op.arrives, Op.back, Op.uses, reaches_single]
  | add x y => simp [Op.arrives, Op.back, Op.uses, reaches_single, reaches_plus]
  | sub x y => simp [Op.arrives, Op.back, Op.uses, reaches_single, reaches_plus]
  | mul x y => simp [Op.arrives, Op.back, Op.uses, reaches_single, reaches_plus]
  | gather ix x => simp [Op.arrives, Op.back, Op.uses, reaches_single]
  | reduce ix x => simp [Op.arrives, Op.back, Op.uses, reaches_single]

theorem back_isSome (T : Graph size δ α ctx) (e : Env α ctx) (a : Adj α ctx) (i : P) : (T.back e a i).isSome ↔ a.reaches T i := by
  induction T with
  | nil =>
    constructor
    · intro h; simp [Graph.back] at h
    · rintro ⟨_, r, -⟩; exact nomatch r
  | snoc T o ih =>
    have hs : a.reaches (T.snoc o) i ↔ ((a _ .here).isSome ∧ o.uses T.uses i) ∨ Adj.reaches (fun d r => a d (.there r)) T i := by
      constructor
      · rintro ⟨d, r, h, hu⟩
        cases r with
        | here => exact .inl ⟨h, hu⟩
        | there r => exact .inr ⟨d, r, h, hu⟩
      · rintro (⟨h, hu⟩ | ⟨d, r, h, hu⟩)
        · exact ⟨_, .here, h, hu⟩
        · exact ⟨d, .there r, h, hu⟩
    rw [hs]
    unfold Graph.back
    cases h : a _ .here with
    | none => simp only [ih, Option.isSome_none, Bool.false_eq_true, false_and, false_or]
    | some g =>
      simp only [plus_isSome, Bool.or_eq_true, ih, Option.isSome_some, true_and]
      rw [reaches_plus, ← back_reaches o (fun d r => e d (.there r)) g T i]
      tauto

/-- The gradient of a parameter is `None` exactly if the cost is not computed from it. -/
theorem gradients_none (T : Graph size δ α ctx) {d : Nat} (cost : Ref ctx d) (feed : δ) (θ : ∀ i, Fin (size i) → α) (i : P) :
    T.gradients cost feed θ i = none ↔ ¬ T.uses d cost i := by
  rw [← not_iff_not, not_not, ← reaches_single cost (fun _ => (1 : α)) T i, ← back_isSome T (T.eval feed θ), Graph.gradients]
  exact Option.isSome_iff_ne_none.symm

omit [DecidableEq P] [OfNat α 1] [Neg α] in
/-- A node that is not computed from a parameter does not depend on it. -/
theorem eval_unused (T : Graph size δ α ctx) (feed : δ) {θ θ' : ∀ i, Fin (size i) → α} {d : Nat} (x : Ref ctx d)
    (h : ∀ i, T.uses d x i → θ i = θ' i) : T.eval feed θ d x = T.eval feed θ' d x := by
  induction T generalizing d with
  | nil => exact nomatch x
  | snoc T o ih =>
    cases x with
    | there x => exact ih x h
    | here =>
      show o.eval feed θ (T.eval feed θ) = o.eval feed θ' (T.eval feed θ')
      have h : ∀ i, o.uses T.uses i → θ i = θ' i := h
      cases o with
      | param j => exact h j rfl
      | data v => rfl
      | map f f' x => simp only [Op.eval, ih x h]
      | add x y => simp only [Op.eval, ih x fun i hi => h i (.inl hi), ih y fun i hi => h i (.inr hi)]
      | sub x y => simp only [Op.eval, ih x fun i hi => h i (.inl hi), ih y fun i hi => h i (.inr hi)]
      | mul x y => simp only [Op.eval, ih x fun i hi => h i (.inl hi), ih y fun i hi => h i (.inr hi)]
      | gather ix x => simp only [Op.eval, ih x h]
      | reduce ix x => simp only [Op.eval, ih x h]

end reach

/-! ## Real numbers -/

section real
variable {P : Type} {size : P → Nat} {δ : Type} {ctx : List Nat}

theorem foldl_add_real (l : List ℝ) (s : ℝ) : l.foldl (· + ·) s = s + l.sum := by
  induction l generalizing s with
  | nil => simp
  | cons x l ih => rw [List.foldl_cons, ih, List.sum_cons, add_assoc]

theorem total_real {d d' : Nat} (ix : Fin d' → Fin d) (v : Fin d' → ℝ) (l : Fin d) : total ix v l = ∑ j, if ix j = l then v j else 0 := by
  unfold total
  rw [foldl_add_real, List.sum_ofFn, zero_add]

theorem total_fin {d d' : Nat} (ix : Fin d' → Fin d) (v : Fin d' → ℝ) (l : Fin d) : total ix (fun j => Fl.fin (v j)) l = .fin (total ix v l) := by
  have h1 : (List.ofFn fun j => if ix j = l then Fl.fin (v j) else 0) = (List.ofFn fun j => if ix j = l then v j else 0).map Fl.fin := by
    rw [List.map_ofFn]
    congr 1
    funext j
    by_cases h : ix j = l
    · simp [h]
    · simp only [h, if_false, Function.comp]
      show Fl.fin ((0 : Nat) : ℝ) = _
      rw [Nat.cast_zero]
  unfold total
  rw [h1, foldl_add_real, zero_add]
  have h2 := Fl.sum_map_fin (List.ofFn fun j => if ix j = l then v j else 0)
  unfold Fl.sum at h2
  rw [← h2]
  show _ = List.foldl (· + ·) (Fl.fin 0) _
  congr 1
  show Fl.fin ((0 : Nat) : ℝ) = _
  rw [Nat.cast_zero]

/-- The same operation on real numbers. -/
noncomputable def Op.real : {d : Nat} → Op size δ Fl ctx d → Op size δ ℝ ctx d
  | _, .param i => .param i
  | _, .data v => .data fun s l => (v s l).val
  | _, .map f f' x => .map (fun y => (f (.fin y)).val) (fun y => (f' (.fin y)).val) x
  | _, .add x y => .add x y
  | _, .sub x y => .sub x y
  | _, .mul x y => .mul x y
  | _, .gather ix x => .gather ix x
  | _, .reduce ix x => .reduce ix x

/-- The same graph on real numbers. -/
noncomputable def Graph.real : {ctx : List Nat} → Graph size δ Fl ctx → Graph size δ ℝ ctx
  | _, .nil => .nil
  | _, .snoc T o => .snoc T.real o.real

/-- Constants and data are numbers; elementwise functions are defined where they are evaluated, and their derivatives are what they are said
to be. -/
def Op.Sound (feed : δ) (e : Env ℝ ctx) : {d : Nat} → Op size δ Fl ctx d → Prop
  | _, .data v => ∀ l, (v feed l).IsFin
  | _, .map f f' x => ∀ l, (f (.fin (e _ x l))).IsFin ∧ (f' (.fin (e _ x l))).IsFin
      ∧ HasDerivAt (fun y => (f (.fin y)).val) (f' (.fin (e _ x l))).val (e _ x l)
  | _, _ => True

/-- All operations are sound at the values of the parameters. -/
def Graph.Sound (feed : δ) (θ : ∀ i, Fin (size i) → ℝ) : {ctx : List Nat} → Graph size δ Fl ctx → Prop
  | _, .nil => True
  | _, .snoc T o => T.Sound feed θ ∧ o.Sound feed (T.real.eval feed θ)

theorem fin_val {x : Fl} (h : x.IsFin) : .fin x.val = x := by
  obtain ⟨r, rfl⟩ := h
  rfl

theorem eval_fin (T : Graph size δ Fl ctx) {feed : δ} {θ : ∀ i, Fin (size i) → ℝ} (h : T.Sound feed θ) {d : Nat} (x : Ref ctx d) (l : Fin d) :
    T.eval feed (fun i p => .fin (θ i p)) d x l = .fin (T.real.eval feed θ d x l) := by
  induction T generalizing d with
  | nil => exact nomatch x
  | snoc T o ih =>
    cases x with
    | there x => exact ih h.1 x l
    | here =>
      have ih' := fun {d} (x : Ref _ d) l => ih h.1 x l
      have hs := h.2
      show o.eval feed _ (T.eval feed _) l = .fin (o.real.eval feed θ (T.real.eval feed θ) l)
      cases o with
      | param j => rfl
      | data v => exact (fin_val (hs l)).symm
      | map f f' x => simp only [Op.eval, Op.real, ih']; exact (fin_val (hs l).1).symm
      | add x y => simp only [Op.eval, Op.real, ih']; rfl
      | sub x y => simp only [Op.eval, Op.real, ih']; rfl
      | mul x y => simp only [Op.eval, Op.real, ih']; rfl
      | gather ix x => simp only [Op.eval, Op.real, ih']
      | reduce ix x =>
        simp only [Op.eval, Op.real]
        rw [← total_fin]
        congr 1
        funext l
        exact ih' x l

/-- Values that arrive, as numbers of the model. -/
def fins {d : Nat} (a : Option (Fin d → ℝ)) : Option (Fin d → Fl) := a.map fun g l => .fin (g l)

theorem fins_plus {d : Nat} (a b : Option (Fin d → ℝ)) : fins (plus a b) = plus (fins a) (fins b) := by
  cases a <;> cases b <;> rfl

theorem fins_single {d : Nat} (x : Ref ctx d) (g : Fin d → ℝ) : (fun d' r => fins (Adj.single x g d' r)) = Adj.single x fun l => Fl.fin (g l) := by
  funext d' r
  induction ctx generalizing d d' with
  | nil => exact nomatch x
  | cons c ctx ih =>
    cases x with
    | here => cases r <;> rfl
    | there x =>
      cases r with
      | here => rfl
      | there r => exact ih x g d' r

theorem fins_adj_plus (a b : Adj ℝ ctx) : (fun d r => fins (a.plus b d r)) = Adj.plus (fun d r => fins (a d r)) fun d r => fins (b d r) := by
  funext d r
  exact fins_plus _ _

theorem op_back_fin {d : Nat} (o : Op size δ Fl ctx d) {feed : δ} {e : Env ℝ ctx} (h : o.Sound feed e) (g : Fin d → ℝ) :
    o.back (fun d r l => .fin (e d r l)) (fun l => .fin (g l)) = fun d r => fins (o.real.back e g d r) := by
  cases o with
  | param j => rfl
  | data v => rfl
  | map f f' x =>
    simp only [Op.back, Op.real, fins_single]
    congr 1
    funext l
    show Fl.fin (g l) * f' (Fl.fin (e _ x l)) = _
    rw [← fin_val (h l).2.1]
    rfl
  | add x y => simp only [Op.back, Op.real, fins_adj_plus, fins_single]
  | sub x y => simp only [Op.back, Op.real, fins_adj_plus, fins_single]; rfl
  | mul x y => simp only [Op.back, Op.real, fins_adj_plus, fins_single]; rfl
  | gather ix x =>
    simp only [Op.back, Op.real, fins_single]
    congr 1
    funext l
    exact total_fin ix g l
  | reduce ix x => simp only [Op.back, Op.real, fins_single]

theorem back_fin [DecidableEq P] (T : Graph size δ Fl ctx) {feed : δ} {θ : ∀ i, Fin (size i) → ℝ} (h : T.Sound feed θ) (a : Adj ℝ ctx) (i : P) :
    T.back (fun d r l => .fin (T.real.eval feed θ d r l)) (fun d r => fins (a d r)) i = fins (T.real.back (T.real.eval feed θ) a i) := by
  induction T with
  | nil => rfl
  | snoc T o ih =>
    unfold Graph.real Graph.back
    cases ha : a _ .here with
    | none =>
      simp only [ha, fins, Option.map_none]
      exact ih h.1 fun d r => a d (.there r)
    | some g =>
      simp only [ha, show fins (some g) = some fun l => Fl.fin (g l) from rfl]
      rw [fins_plus]
      congr 1
      · cases o with
        | param j =>
          simp only [Op.arrives, Op.real, fins]
          by_cases hj : j = i
          · subst hj; simp
          · simp [hj]
        | _ => rfl
      · have h1 := op_back_fin o h.2 g
        have h2 := ih h.1 (Adj.plus (fun d r => a d (.there r)) (o.real.back (T.real.eval feed θ) g))
        rw [fins_adj_plus, ← h1] at h2
        exact h2

/-- The gradients the samplers see are those of the graph on real numbers. -/
theorem gradients_fin [DecidableEq P] (T : Graph size δ Fl ctx) {feed : δ} {θ : ∀ i, Fin (size i) → ℝ} (h : T.Sound feed θ) {d : Nat}
    (cost : Ref ctx d) (i : P) : T.gradients cost feed (fun i p => .fin (θ i p)) i = fins (T.real.gradients cost feed θ i) := by
  unfold Graph.gradients
  rw [← back_fin T h, fins_single]
  have h1 : T.eval feed (fun i p => .fin (θ i p)) = fun d r l => .fin (T.real.eval feed θ d r l) := by
    funext d r l
    exact eval_fin T h r l
  rw [h1]
  congr 2
  funext l
  show Fl.fin ((1 : Nat) : ℝ) = _
  rw [Nat.cast_one]

end real

/-! ## Derivatives -/

section derivative
variable {P : Type} [Fintype P] {size : P → Nat} {δ : Type} {ctx : List Nat}

/-- Points: one number for every element of every parameter. -/
abbrev Point (size : P → Nat) := (Σ i, Fin (size i)) → ℝ

/-- The parameters at a point. -/
def Point.at (x : Point size) : ∀ i, Fin (size i) → ℝ := fun i p => x ⟨i, p⟩

/-- The derivative of an operation, from those of its operands. -/
noncomputable def Op.tan (e : Env ℝ ctx) (D : Env (Point size →L[ℝ] ℝ) ctx) : {d : Nat} → Op size δ ℝ ctx d → Fin d → (Point size →L[ℝ] ℝ)
  | _, .param i => fun l => ContinuousLinearMap.proj (⟨i, l⟩ : Σ i, Fin (size i))
  | _, .data _ => fun _ => 0
  | _, .map _ f' x => fun l => f' (e _ x l) • D _ x l
  | _, .add x y => fun l => D _ x l + D _ y l
  | _, .sub x y => fun l => D _ x l - D _ y l
  | _, .mul x y => fun l => e _ x l • D _ y l + e _ y l • D _ x l
  | _, .gather ix x => fun l => D _ x (ix l)
  | _, .reduce ix x => fun l => ∑ j, if ix j = l then D _ x j else 0

/-- The derivatives of all nodes. -/
noncomputable def Graph.tan (feed : δ) (θ : ∀ i, Fin (size i) → ℝ) : {ctx : List Nat} → Graph size δ ℝ ctx → Env (Point size →L[ℝ] ℝ) ctx
  | _, .nil => fun _ r => nomatch r
  | _, .snoc T o => fun _ r => match r with
    | .here => o.tan (T.eval feed θ) (T.tan feed θ)
    | .there r => T.tan feed θ _ r

theorem hasFDerivAt_eval (T : Graph size δ Fl ctx) {feed : δ} {x₀ : Point size} (h : T.Sound feed x₀.at) {d : Nat} (r : Ref ctx d) (l : Fin d) :
    HasFDerivAt (fun x : Point size => T.real.eval feed x.at d r l) (T.real.tan feed x₀.at d r l) x₀ := by
  induction T generalizing d with
  | nil => exact nomatch r
  | snoc T o ih =>
    cases r with
    | there r => exact ih h.1 r l
    | here =>
      have ih' := fun {d} (x : Ref _ d) l => ih h.1 x l
      have hs := h.2
      show HasFDerivAt (fun x : Point size => o.real.eval feed x.at (T.real.eval feed x.at) l)
        (o.real.tan (T.real.eval feed x₀.at) (T.real.tan feed x₀.at) l) x₀
      cases o with
      | param j => exact hasFDerivAt_apply _ _
      | data v => exact hasFDerivAt_const _ _
      | map f f' x => exact (hs l).2.2.comp_hasFDerivAt x₀ (ih' x l)
      | add x y => exact (ih' x l).add (ih' y l)
      | sub x y => exact (ih' x l).sub (ih' y l)
      | mul x y => exact (ih' x l).mul (ih' y l)
      | gather ix x => exact ih' x (ix l)
      | reduce ix x =>
        simp only [Op.eval, Op.real, Op.tan, total_real]
        refine HasFDerivAt.fun_sum fun j _ => ?_
        by_cases hj : ix j = l
        · simp only [hj, if_true]; exact ih' x j
        · simp only [hj, if_false]; exact hasFDerivAt_const _ _

/-- What arrived, zero if nothing did. -/
def amount {d : Nat} (a : Option (Fin d → ℝ)) : Fin d → ℝ := a.getD 0

theorem amount_plus {d : Nat} (a b : Option (Fin d → ℝ)) (l : Fin d) : amount (plus a b) l = amount a l + amount b l := by
  cases a <;> cases b <;> simp [amount, plus]

variable {F : Type} [AddCommGroup F] [Module ℝ F]

/-- The sum over all nodes of what arrived times the derivative. -/
def pair : (ctx : List Nat) → Adj ℝ ctx → Env F ctx → F
  | [], _, _ => 0
  | _ :: ctx, a, D => ∑ l, amount (a _ .here) l • D _ .here l + pair ctx (fun d r => a d (.there r)) fun d r => D d (.there r)

theorem pair_plus (a b : Adj ℝ ctx) (D : Env F ctx) : pair ctx (a.plus b) D = pair ctx a D + pair ctx b D := by
  induction ctx with
  | nil => simp [pair]
  | cons c ctx ih =>
    have := ih (fun d r => a d (.there r)) (fun d r => b d (.there r)) fun d r => D d (.there r)
    simp only [pair, Adj.plus, amount_plus, add_smul, Finset.sum_add_distrib]
    unfold Adj.plus at this
    rw [this]
    abel

theorem pair_none (D : Env F ctx) : pair ctx (fun _ _ => none) D = 0 := by
  induction ctx with
  | nil => rfl
  | cons c ctx ih => simp [pair, amount, ih]

theorem pair_single {d : Nat} (x : Ref ctx d) (g : Fin d → ℝ) (D : Env F ctx) : pair ctx (Adj.single x g) D = ∑ l, g l • D d x l := by
  induction ctx generalizing d with
  | nil => exact nomatch x
  | cons c ctx ih =>
    cases x with
    | here => simp [pair, Adj.single, amount, pair_none]
    | there x =>
      simp only [pair, Adj.single]
      rw [ih x g fun d r => D d (.there r)]
      simp [amount]

/-- What arrived at the parameters, as a linear function. -/
noncomputable def arrived (A : ∀ i, Option (Fin (size i) → ℝ)) : Point size →L[ℝ] ℝ :=
  ∑ q : Σ i, Fin (size i), amount (A q.1) q.2 • ContinuousLinearMap.proj q

theorem arrived_plus (A A' : ∀ i, Option (Fin (size i) → ℝ)) : arrived (fun i => plus (A i) (A' i)) = arrived A + arrived A' := by
  unfold arrived
  simp only [amount_plus, add_smul, Finset.sum_add_distrib]

theorem arrived_none : arrived (size := size) (fun _ => none) = 0 := by
  simp [arrived, amount]

theorem sum_sum_ite {d d' : Nat} (ix : Fin d' → Fin d) (g : Fin d → ℝ) (v : Fin d' → F) :
    ∑ l, g l • ∑ j, (if ix j = l then v j else 0) = ∑ j, g (ix j) • v j := by
  simp only [Finset.smul_sum, smul_ite, smul_zero]
  rw [Finset.sum_comm]
  refine Finset.sum_congr rfl fun j _ => ?_
  simp

theorem sum_total {d d' : Nat} (ix : Fin d' → Fin d) (g : Fin d' → ℝ) (v : Fin d → F) : ∑ j, total ix g j • v j = ∑ l, g l • v (ix l) := by
  simp only [total_real, Finset.sum_smul, ite_smul, zero_smul]
  rw [Finset.sum_comm]
  refine Finset.sum_congr rfl fun j _ => ?_
  simp

/-- Every operation hands on what it should. -/
theorem op_pair [DecidableEq P] {d : Nat} (o : Op size δ ℝ ctx d) (e : Env ℝ ctx) (D : Env (Point size →L[ℝ] ℝ) ctx) (g : Fin d → ℝ) :
    arrived (o.arrives g) + pair ctx (o.back e g) D = ∑ l, g l • o.tan e D l := by
  cases o with
  | param j =>
    simp only [Op.back, pair_none, add_zero, Op.tan, Op.arrives, arrived]
    rw [Fintype.sum_sigma, Finset.sum_eq_single j]
    · simp [amount]
    · intro i _ hi
      simp [amount, Ne.symm hi]
    · simp
  | data v => simp [Op.back, Op.tan, Op.arrives, arrived_none, pair_none]
  | map f f' x =>
    simp only [Op.back, Op.tan, Op.arrives, arrived_none, pair_single, zero_add, mul_smul]
  | add x y => simp only [Op.back, Op.tan, Op.arrives, arrived_none, pair_single, pair_plus, zero_add, smul_add, Finset.sum_add_distrib]
  | sub x y =>
    simp only [Op.back, Op.tan, Op.arrives, arrived_none, pair_single, pair_plus, zero_add, smul_sub, Finset.sum_sub_distrib, neg_smul,
      Finset.sum_neg_distrib]
    rw [← sub_eq_add_neg]
  | mul x y =>
    simp only [Op.back, Op.tan, Op.arrives, arrived_none, pair_single, pair_plus, zero_add, smul_add, Finset.sum_add_distrib, mul_smul]
    rw [add_comm]
  | gather ix x => simp only [Op.back, Op.tan, Op.arrives, arrived_none, pair_single, zero_add, sum_total]
  | reduce ix x => simp only [Op.back, Op.tan, Op.arrives, arrived_none, pair_single, zero_add, sum_sum_ite]

theorem back_pair [DecidableEq P] (T : Graph size δ ℝ ctx) (feed : δ) (θ : ∀ i, Fin (size i) → ℝ) (a : Adj ℝ ctx) :
    arrived (T.back (T.eval feed θ) a) = pair ctx a (T.tan feed θ) := by
  induction T with
  | nil => simp [Graph.back, arrived_none, pair]
  | snoc T o ih =>
    unfold Graph.back
    cases ha : a _ .here with
    | none =>
      simp only [pair, ha]
      have := ih fun d r => a d (.there r)
      simp only [amount, Option.getD_none, Pi.zero_apply, zero_smul, Finset.sum_const_zero, zero_add]
      exact this
    | some g =>
      simp only [arrived_plus]
      have h1 := ih (Adj.plus (fun d r => a d (.there r)) (o.back (T.eval feed θ) g))
      have h2 := op_pair o (T.eval feed θ) (T.tan feed θ) g
      rw [pair_plus] at h1
      simp only [pair, ha, amount, Option.getD_some]
      show arrived (o.arrives g) + arrived (T.back (T.eval feed θ) _) = ∑ l, g l • o.tan (T.eval feed θ) (T.tan feed θ) l + pair _ _ (T.tan feed θ)
      refine (congrArg (arrived (o.arrives g) + ·) h1).trans ?_
      rw [← h2]
      abel

/-- The sum of the elements of the cost, as a function of a point. -/
noncomputable def Graph.costAt (T : Graph size δ Fl ctx) {d : Nat} (cost : Ref ctx d) (feed : δ) (x : Point size) : ℝ :=
  ∑ l, T.real.eval feed x.at d cost l

theorem hasFDerivAt_cost [DecidableEq P] (T : Graph size δ Fl ctx) {d : Nat} (cost : Ref ctx d) {feed : δ} {x₀ : Point size}
    (h : T.Sound feed x₀.at) : HasFDerivAt (T.costAt cost feed) (arrived (T.real.gradients cost feed x₀.at)) x₀ := by
  unfold Graph.gradients
  rw [back_pair, pair_single]
  simp only [one_smul]
  exact HasFDerivAt.fun_sum fun l _ => hasFDerivAt_eval T h cost l

theorem arrived_unit [DecidableEq P] (A : ∀ i, Option (Fin (size i) → ℝ)) (i : P) (p : Fin (size i)) :
    arrived A (Pi.single (⟨i, p⟩ : Σ i, Fin (size i)) 1) = amount (A i) p := by
  unfold arrived
  rw [sum_apply, Finset.sum_eq_single (⟨i, p⟩ : Σ i, Fin (size i))]
  · simp
  · intro q _ hq
    simp [Pi.single_eq_of_ne hq]
  · simp

end derivative
end PySGMCMC.Gradients
