import Verif.Lemmas.Gradients
import Verif.Props.SgldOrders

/-!
# C143: samplers follow the derivative of the cost the user wrote
-/

namespace PySGMCMC.Gradients
open TensorUtils Recipe

/-! ## `tf.gradients` -/

section gradients
variable {P : Type} [Fintype P] [DecidableEq P] {size : P → Nat} {δ : Type} {ctx : List Nat}

/-- **C143** For every graph, every cost in it, all data and all points where its operations are defined and differentiable: the cost is a
differentiable function of the parameters, and the gradient of a parameter the cost is computed from consists of its partial derivatives. -/
theorem C143_gradients (T : Graph size δ Fl ctx) {d : Nat} (cost : Ref ctx d) {feed : δ} {x : Point size} (h : T.Sound feed x.at) :
    DifferentiableAt ℝ (T.costAt cost feed) x ∧
    ∀ i, T.uses d cost i → T.gradients cost feed (fun i p => .fin (x.at i p)) i = some fun p => .fin (partialD (T.costAt cost feed) ⟨i, p⟩ x) := by
  have h1 := hasFDerivAt_cost T cost h
  refine ⟨h1.differentiableAt, fun i hi => ?_⟩
  have h2 := gradients_fin T h cost i
  cases h3 : T.real.gradients cost feed x.at i with
  | none =>
    rw [h3] at h2
    exact absurd hi ((gradients_none T cost feed _ i).1 h2)
  | some g =>
    rw [h3] at h2
    rw [h2]
    unfold fins
    rw [Option.map_some]
    congr 1
    funext p
    unfold partialD
    rw [h1.fderiv, arrived_unit, h3]
    rfl

/-- **C143** A parameter has no gradient (`None`) exactly if the cost is not computed from it; then the cost does not depend on it. -/
theorem C143_none {α : Type} [Add α] [Sub α] [Neg α] [Mul α] [OfNat α 0] [OfNat α 1] (T : Graph size δ α ctx) {d : Nat} (cost : Ref ctx d)
    (feed : δ) (θ : ∀ i, Fin (size i) → α) (i : P) :
    (T.gradients cost feed θ i = none ↔ ¬ T.uses d cost i) ∧
    (T.gradients cost feed θ i = none → ∀ θ', (∀ j, j ≠ i → θ j = θ' j) → T.eval feed θ d cost = T.eval feed θ' d cost) := by
  refine ⟨gradients_none T cost feed θ i, fun h θ' hθ => eval_unused T feed cost fun j hj => hθ j ?_⟩
  rintro rfl
  exact (gradients_none T cost feed θ j).1 h hj

end gradients

/-! ## Constructing samplers -/

section samplers
variable {n : Nat} {size : Fin n → Nat} {δ : Type} {ctx : List Nat}

theorem column_some {d : Nat} (g : Fin d → Fl) : column (some g) = .ok ⟨[d, 1], List.ofFn g⟩ := by
  simp [column, vectorize, Tensor.reshape]

theorem mapM_ok {α β : Type} {f : α → Except PyErr β} {g : α → β} (l : List α) (h : ∀ a ∈ l, f a = .ok (g a)) : l.mapM f = .ok (l.map g) := by
  induction l with
  | nil => rfl
  | cons a l ih =>
    rw [List.mapM_cons, h a (by simp), ih fun b hb => h b (by simp [hb])]
    rfl

theorem mapM_error {α β : Type} {f : α → Except PyErr β} {g : α → β} {e : PyErr} (l : List α) (h : ∀ a ∈ l, f a = .ok (g a) ∨ f a = .error e)
    (hbad : ∃ a ∈ l, f a = .error e) : l.mapM f = .error e := by
  induction l with
  | nil => simp at hbad
  | cons a l ih =>
    rw [List.mapM_cons]
    rcases h a (by simp) with ha | ha
    · rw [ha]
      have : ∃ b ∈ l, f b = .error e := by
        obtain ⟨b, hb, hbe⟩ := hbad
        rcases List.mem_cons.1 hb with rfl | hb
        · rw [ha] at hbe; simp at hbe
        · exact ⟨b, hb, hbe⟩
      rw [ih (fun b hb => h b (by simp [hb])) this]
      rfl
    · rw [ha]
      rfl

/-- **C143** A sampler can be constructed exactly if the cost is computed from every one of its parameters; otherwise the constructor raises a
`ValueError`. -/
theorem C143_construct (T : Graph size δ Fl ctx) {d : Nat} (cost : Ref ctx d) (feed : δ) (θ : ∀ i, Fin (size i) → Fl) :
    ((∃ g, grads T cost feed θ = .ok g) ↔ ∀ i, T.uses d cost i) ∧
    ((∃ i, ¬ T.uses d cost i) → grads T cost feed θ = .error (.value "vectorize")) := by
  have h1 : (∃ i, ¬ T.uses d cost i) → grads T cost feed θ = .error (.value "vectorize") := by
    rintro ⟨i, hi⟩
    refine mapM_error (g := fun i => ⟨[size i, 1], List.ofFn (gradOf T cost feed θ i)⟩) _ (fun j _ => ?_) ⟨i, List.mem_finRange i, ?_⟩
    · unfold gradOf
      cases hj : T.gradients cost feed θ j with
      | none => exact .inr rfl
      | some g => exact .inl (column_some g)
    · rw [(gradients_none T cost feed θ i).2 hi]
      rfl
  refine ⟨⟨fun ⟨g, hg⟩ => ?_, fun hu => ?_⟩, h1⟩
  · by_contra hc
    rw [h1 (not_forall.1 hc)] at hg
    simp at hg
  · refine ⟨_, mapM_ok (g := fun i => ⟨[size i, 1], List.ofFn (gradOf T cost feed θ i)⟩) _ fun i _ => ?_⟩
    unfold gradOf
    cases hi : T.gradients cost feed θ i with
    | none => exact absurd (hu i) ((gradients_none T cost feed θ i).1 hi)
    | some g => exact column_some g

/-- **C143** SGHMC and SGLD use columns of partial derivatives of the cost. -/
theorem C143_columns (T : Graph size δ Fl ctx) {d : Nat} (cost : Ref ctx d) {feed : δ} {x : Point size} (h : T.Sound feed x.at)
    (hu : ∀ i, T.uses d cost i) : grads T cost feed (fun i p => .fin (x.at i p))
      = .ok (List.ofFn fun i => ⟨[size i, 1], List.ofFn fun p => .fin (partialD (T.costAt cost feed) ⟨i, p⟩ x)⟩) := by
  rw [List.ofFn_eq_map]
  refine mapM_ok _ fun i _ => ?_
  rw [(C143_gradients T cost h).2 i (hu i)]
  exact column_some _

/-- **C143** Relativistic SGHMC uses columns of partial derivatives of the negative cost. -/
theorem C143_columns_relativistic (T : Graph size δ Fl ctx) {d : Nat} (cost : Ref ctx d) {feed : δ} {x : Point size} (h : T.Sound feed x.at)
    (hu : ∀ i, T.uses d cost i) : gradsNeg T cost feed (fun i p => .fin (x.at i p))
      = .ok (List.ofFn fun i => ⟨[size i, 1], List.ofFn fun p => .fin (-partialD (T.costAt cost feed) ⟨i, p⟩ x)⟩) := by
  have e1 : ∀ y : ℝ, (-(Fl.fin y)) = .fin (-y) := fun _ => rfl
  have e2 : (-1 : Fl) = .fin (-1) := by
    show Fl.fin (-((1 : Nat) : ℝ)) = _
    rw [Nat.cast_one]
  have h1 : Graph.Sound feed x.at (T.snoc (.map (fun x => -x) (fun _ => -1) cost)) := by
    refine ⟨h, fun l => ⟨⟨_, e1 _⟩, ⟨_, e2⟩, ?_⟩⟩
    rw [e2]
    exact (hasDerivAt_id _).neg
  have h2 := C143_columns (T.snoc (.map (fun x => -x) (fun _ => -1) cost)) .here h1 fun i => hu i
  unfold gradsNeg
  rw [h2]
  have h3 : Graph.costAt (T.snoc (.map (fun x => -x) (fun _ => -1) cost)) .here feed = fun y => -T.costAt cost feed y := by
    funext y
    unfold Graph.costAt
    rw [← Finset.sum_neg_distrib]
    rfl
  simp only [h3]
  have h4 : ∀ i p, partialD (fun y => -T.costAt cost feed y) ⟨i, p⟩ x = -partialD (T.costAt cost feed) ⟨i, p⟩ x := by
    intro i p
    unfold partialD
    rw [fderiv_fun_neg]
    rfl
  simp only [h4]

end samplers
end PySGMCMC.Gradients

/-! ## Chains -/

namespace PySGMCMC.Chain
open SamplerBase BurnInStats Spec Recipe Gradients

variable {n : Nat} {size : Fin n → Nat} {ctx : List Nat}

/-- What a batch feeds to the placeholders of the user's graph. -/
def fed (d : Dict Key Arr) (p : Nat) : Option Arr := d (.ph p)

/-- A cost function that builds the graph `T`. -/
noncomputable def graphProblem {F : Feeder} {N : Nat} (S : Script F N) (T : Graph size (Nat → Option Arr) Fl ctx) (cost : Ref ctx 1)
    (hu : ∀ i, T.uses 1 cost i) (h : ∀ k < N, ∀ θ : ∀ i, Pos size i → ℝ, T.Sound (fed (S.data k)) θ) :
    Problem S (fun d => gradOf T cost (fed d)) (fun d θ => T.eval (fed d) θ 1 cost 0) (fun _ => true) where
  γ k θ i p := partialD (T.costAt cost (fed (S.data k))) ⟨i, p⟩ fun q => θ q.1 q.2
  c k θ := .fin (T.costAt cost (fed (S.data k)) fun q => θ q.1 q.2)
  grad_eq k hk d hd θ i p := by
    have e : fed d = fed (S.data k) := funext hd
    have h1 := (C143_gradients T cost (x := fun q => θ q.1 q.2) (h k hk θ)).2 i (hu i)
    unfold gradOf
    beta_reduce
    rw [e, show T.gradients cost (fed (S.data k)) (fun i p => .fin (θ i p)) i = _ from h1]
  cost_eq k hk d hd θ := by
    have e : fed d = fed (S.data k) := funext hd
    beta_reduce
    rw [e, eval_fin T (h k hk θ) cost 0]
    unfold Graph.costAt
    rw [Fin.sum_univ_one]
    rfl
  accepts _ _ _ _ := rfl

/-- **C143** SGLD with a cost function that builds a graph moves every parameter along the partial derivatives of the cost on the current batch,
taken where the parameters are, up to which of the other parameters have already been updated in this step. -/
theorem C143_sgld_follows {F : Feeder} {N : Nat} (S : Script F N) (T : Graph size (Nat → Option Arr) Fl ctx) (cost : Ref ctx 1)
    (hu : ∀ i, T.uses 1 cost i) (h : ∀ k < N, ∀ θ : ∀ i, Pos size i → ℝ, T.Sound (fed (S.data k)) θ) (a scale : ℝ) (hs : 0 < scale)
    (z : Nat → ∀ i, Pos size i → ℝ) (order : Nat → SGLD.Schedule (Fin n)) (B : Int) (θ : ∀ i, Pos size i → ℝ) (eps0 : Fl) :
    let W : SGLDWorld size := ⟨.fin scale, .fin a, fun d => gradOf T cost (fed d), fun d θ => T.eval (fed d) θ 1 cost 0,
      fun k i p => .fin (z k i p), order⟩
    ∃ (x : Nat → ∀ i, Pos size i → ℝ) (c : Nat → ℝ),
      let θs : Nat → ∀ i, Pos size i → ℝ := fun k i p =>
        (sgldChain a scale B S.eps (fun j => x j i p) (fun j => z j i p) (θ i p) k).pos
      (calls (asIter (burnInNext (env F W.graph fun _ => true) B n)) N
          (init (S.batch 0) (S.sched 0) ⟨SGLD.State.init fun i p => .fin (θ i p), eps0, 0⟩)).1
        = (List.range N).map (fun k : Nat =>
            let arrays := List.ofFn fun i => flat fun p => .fin (θs (k + 1) i p)
            .ok ((if (k : Int) < B then .many arrays else unravel arrays), .fin (c k)))
      ∧ ∀ k < N, let U := T.costAt cost (fed (S.data k))
        (∀ i, ∃ isNew : Fin n → Bool, isNew i = false ∧
          ∀ p, x k i p = partialD U ⟨i, p⟩ fun q => mix isNew (θs (k + 1)) (θs k) q.1 q.2)
        ∧ ∃ isNew : Fin n → Bool, c k = U fun q => mix isNew (θs (k + 1)) (θs k) q.1 q.2 := by
  intro W
  obtain ⟨x, c, h1, h2⟩ := C89_sgld_chain S W (fun _ => true) (graphProblem S T cost hu h) a scale rfl rfl hs z (fun _ _ _ => rfl) B θ eps0
  refine ⟨x, fun k => (c k).val, ?_, fun k hk => ⟨fun i => ?_, ?_⟩⟩
  · rw [h1]
    refine List.map_congr_left fun k hk => ?_
    obtain ⟨isNew, hc⟩ := (h2 k (List.mem_range.1 hk)).2
    have hf : Fl.fin (c k).val = c k := fin_val ⟨_, hc⟩
    simp only [hf]
  · obtain ⟨isNew, h3, h4⟩ := (h2 k hk).1 i
    exact ⟨isNew, h3, fun p => congrFun h4 p⟩
  · obtain ⟨isNew, hc⟩ := (h2 k hk).2
    exact ⟨isNew, congrArg Fl.val hc⟩

/-- **C143** The same for SGHMC. -/
theorem C143_sghmc_follows {F : Feeder} {N : Nat} (S : Script F N) (T : Graph size (Nat → Option Arr) Fl ctx) (cost : Ref ctx 1)
    (hu : ∀ i, T.uses 1 cost i) (h : ∀ k < N, ∀ θ : ∀ i, Pos size i → ℝ, T.Sound (fed (S.data k)) θ) (alpha scale : ℝ) (hs : 0 < scale)
    (z : Nat → ∀ i, Pos size i → ℝ) (order : Nat → SGHMC.Schedule (Fin n)) (B : Int) (θ : ∀ i, Pos size i → ℝ) (eps0 : Fl) :
    let W : SGHMCWorld size := ⟨.fin scale, .fin alpha, fun d => gradOf T cost (fed d), fun d θ => T.eval (fed d) θ 1 cost 0,
      fun k i p => .fin (z k i p), order⟩
    ∃ (x : Nat → ∀ i, Pos size i → ℝ) (c : Nat → ℝ),
      let θs : Nat → ∀ i, Pos size i → ℝ := fun k i p =>
        (sghmcChain alpha scale B S.eps (fun j => x j i p) (fun j => z j i p) (θ i p) k).pos
      (calls (asIter (burnInNext (env F W.graph fun _ => true) B n)) N
          (init (S.batch 0) (S.sched 0) ⟨SGHMC.State.init fun i p => .fin (θ i p), eps0, 0⟩)).1
        = (List.range N).map (fun k : Nat =>
            let arrays := List.ofFn fun i => flat fun p => .fin (θs (k + 1) i p)
            .ok ((if (k : Int) < B then .many arrays else unravel arrays), .fin (c k)))
      ∧ ∀ k < N, let U := T.costAt cost (fed (S.data k))
        (∀ i, ∃ isNew : Fin n → Bool, isNew i = false ∧
          ∀ p, x k i p = partialD U ⟨i, p⟩ fun q => mix isNew (θs (k + 1)) (θs k) q.1 q.2)
        ∧ ∃ isNew : Fin n → Bool, c k = U fun q => mix isNew (θs (k + 1)) (θs k) q.1 q.2 := by
  intro W
  obtain ⟨x, c, h1, h2⟩ := C88_sghmc_chain S W (fun _ => true) (graphProblem S T cost hu h) alpha scale rfl rfl hs z (fun _ _ _ => rfl) B θ eps0
  refine ⟨x, fun k => (c k).val, ?_, fun k hk => ⟨fun i => ?_, ?_⟩⟩
  · rw [h1]
    refine List.map_congr_left fun k hk => ?_
    obtain ⟨isNew, hc⟩ := (h2 k (List.mem_range.1 hk)).2
    have hf : Fl.fin (c k).val = c k := fin_val ⟨_, hc⟩
    simp only [hf]
  · obtain ⟨isNew, h3, h4⟩ := (h2 k hk).1 i
    exact ⟨isNew, h3, fun p => congrFun h4 p⟩
  · obtain ⟨isNew, hc⟩ := (h2 k hk).2
    exact ⟨isNew, congrArg Fl.val hc⟩

/-! ## An example -/

/-- The cost `∑ (a * b - data)²` of two parameters with `m` elements each, on batches of one number. -/
noncomputable def regression (m : Nat) : Graph (fun _ : Fin 2 => m) (Nat → Option Arr) Fl [1, m, m, m, m, m, m] :=
  .snoc (.snoc (.snoc (.snoc (.snoc (.snoc (.snoc .nil (.param 0)) (.param 1)) (.mul (.there .here) .here))
    (.data fun d _ => match d 0 with
      | some [b] => b
      | _ => .nan)) (.sub (.there .here) .here)) (.map (fun x => x * x) (fun x => x + x) .here)) (.reduce (fun _ => 0) .here)

theorem regression_uses (m : Nat) (i : Fin 2) : (regression m).uses 1 .here i := by
  show ((0 : Fin 2) = i ∨ (1 : Fin 2) = i) ∨ False
  fin_cases i
  · exact .inl (.inl rfl)
  · exact .inl (.inr rfl)

theorem regression_sound (m : Nat) {d : Nat → Option Arr} {b : ℝ} (hd : d 0 = some [.fin b]) (θ : ∀ _ : Fin 2, Fin m → ℝ) :
    (regression m).Sound d θ := by
  have h1 : ∀ y : ℝ, HasDerivAt (fun y : ℝ => (Fl.fin y * Fl.fin y).val) (y + y) y := fun y => by
    have := (hasDerivAt_id y).mul (hasDerivAt_id y)
    simp only [id, mul_one, one_mul] at this
    exact this
  refine ⟨⟨⟨⟨⟨⟨⟨trivial, trivial⟩, trivial⟩, trivial⟩, fun l => ?_⟩, trivial⟩, fun l => ⟨⟨_, rfl⟩, ⟨_, rfl⟩, h1 _⟩⟩, trivial⟩
  show Fl.IsFin (match d 0 with | some [b] => b | _ => .nan)
  rw [hd]
  exact ⟨b, rfl⟩

/-- The cost is what it should be, and so are its derivatives. -/
example (m : Nat) {d : Nat → Option Arr} {b : ℝ} (hd : d 0 = some [.fin b]) (x : Point fun _ : Fin 2 => m) :
    (regression m).costAt .here d x = ∑ l, (x ⟨0, l⟩ * x ⟨1, l⟩ - b) ^ 2
    ∧ (regression m).gradients .here d (fun i p => .fin (x ⟨i, p⟩)) 0
      = some fun p => .fin (partialD (fun x : Point fun _ : Fin 2 => m => ∑ l, (x ⟨0, l⟩ * x ⟨1, l⟩ - b) ^ 2) ⟨0, p⟩ x) := by
  have h1 : ∀ x, (regression m).costAt .here d x = ∑ l, (x ⟨0, l⟩ * x ⟨1, l⟩ - b) ^ 2 := by
    intro x
    unfold Graph.costAt
    rw [Fin.sum_univ_one]
    show total _ _ 0 = _
    rw [total_real]
    refine Finset.sum_congr rfl fun l _ => ?_
    rw [if_pos rfl]
    show (x ⟨0, l⟩ * x ⟨1, l⟩ - Fl.val (match d 0 with | some [b] => b | _ => .nan))
      * (x ⟨0, l⟩ * x ⟨1, l⟩ - Fl.val (match d 0 with | some [b] => b | _ => .nan)) = _
    rw [hd]
    show (x ⟨0, l⟩ * x ⟨1, l⟩ - b) * (x ⟨0, l⟩ * x ⟨1, l⟩ - b) = _
    ring
  refine ⟨h1 x, ?_⟩
  have h2 := (C143_gradients (regression m) .here (x := x) (regression_sound m hd _)).2 0 (regression_uses m 0)
  rwa [funext h1] at h2

/-- SGLD with this cost. -/
example (N m : Nat) (t : ℝ) (b : Nat → ℝ) (z : Nat → ∀ _ : Fin 2, Fin m → ℝ) (order : Nat → SGLD.Schedule (Fin 2)) (B : Int)
    (θ : ∀ _ : Fin 2, Fin m → ℝ) := C143_sgld_follows (streamScript t b N) (regression m) .here (regression_uses m)
  (fun k _ => regression_sound m (b := b k) rfl) 1 10 (by norm_num) z order B θ (.fin 0)

/-- A cost that ignores the second parameter. -/
noncomputable def careless (m : Nat) : Graph (fun _ : Fin 2 => m) (Nat → Option Arr) Fl [m, m, m] :=
  .snoc (.snoc (.snoc .nil (.param 0)) (.param 1)) (.mul (.there .here) (.there .here))

/-- No sampler can be constructed for it. -/
example (m : Nat) (d : Nat → Option Arr) (θ : ∀ _ : Fin 2, Fin m → Fl) : grads (careless m) .here d θ = .error (.value "vectorize") :=
  (C143_construct (careless m) .here d θ).2 ⟨1, by
    show ¬ ((0 : Fin 2) = 1 ∨ (0 : Fin 2) = 1)
    decide⟩

end PySGMCMC.Chain
