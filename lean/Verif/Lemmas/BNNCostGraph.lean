import Verif.Model.BNNCostGraph
import Verif.Lemmas.Gradients
import Verif.Props.BNNInvariance

/-!
# The graph of the training cost: values, differentiability, and the variables it is computed from
-/

namespace PySGMCMC.BNNSystem
open BNN Chain Gradients TensorUtils
open BNNPosterior (defaultReal)
open BaseModel (lift)

section
variable {D n : Nat} {shape : Fin n → List Nat} {ctx : List Nat}

theorem total_one {d : Nat} (v : Fin d → Fl) (l : Fin 1) : total (fun _ => (0 : Fin 1)) v l = Fl.sum (List.ofFn v) := by
  unfold total Fl.sum
  have : ∀ j : Fin d, (if (0 : Fin 1) = l then v j else 0) = v j := fun j => if_pos (Subsingleton.elim _ _)
  simp only [this]
  rw [show (0 : Fl) = Fl.fin 0 by simp]

theorem sum_one (x : Fl) : Fl.sum [x] = x := by
  cases x with
  | fin r => simp [Fl.sum]
  | _ => rfl

theorem likelihood_value {m : Nat} (T : Net D shape ctx) (out : Ref ctx (m * 2)) (batchSize : Nat) (feed : Fed D) (θ : ∀ i, Pos (sizes shape) i → Fl) (l : Fin 1) :
    (likelihood T out batchSize).eval feed θ 1 .here l
      = Fl.sum (List.ofFn fun r : Fin m => rowLogLike (T.eval feed θ _ out (at2 r 0), T.eval feed θ _ out (at2 r 1)) (feed.2.getD r .nan))
        / Fl.fin (batchSize : ℕ) := by
  rw [← total_one _ l]
  rfl

theorem logVar_value {m : Nat} (T : Net D shape ctx) (out : Ref ctx (m * 2)) (batchSize : Nat) (feed : Fed D) (θ : ∀ i, Pos (sizes shape) i → Fl) :
    (likelihood T out batchSize).eval feed θ m logVarRef = fun r => T.eval feed θ _ out (at2 r 1) := rfl

theorem variancePrior_value {m : Nat} (T : Net D shape ctx) (logVar : Ref ctx m) (logLike : Ref ctx 1) (mean var : Fl) (nExamples : Nat)
    (feed : Fed D) (θ : ∀ i, Pos (sizes shape) i → Fl) (l : Fin 1) :
    (addVariancePrior T logVar logLike mean var nExamples).eval feed θ 1 .here l
      = T.eval feed θ 1 logLike l + Fl.sum (List.ofFn fun r : Fin m =>
        safeDivide' (-(Fl.npow (T.eval feed θ _ logVar r - Fl.log mean) 2)) (2 * var) - Fl.fin 0.5 * Fl.log var) / Fl.fin (m : ℕ) / Fl.fin (nExamples : ℕ) := by
  rw [← total_one _ l]
  rfl

theorem step_value (wdecay : Fl) (B : Priors D shape) (i : Fin n) (feed : Fed D) (θ : ∀ i, Pos (sizes shape) i → Fl) (l : Fin 1) :
    (B.step wdecay i).graph.eval feed θ 1 (B.step wdecay i).inner l
      = B.graph.eval feed θ 1 B.inner l + Fl.sum (List.ofFn fun p => -wdecay * Fl.fin 0.5 * Fl.npow (θ i p) 2)
    ∧ (B.step wdecay i).graph.eval feed θ 1 (B.step wdecay i).outer l = B.graph.eval feed θ 1 B.outer l := by
  refine ⟨?_, rfl⟩
  rw [← total_one _ l]
  rfl

theorem loop_value (wdecay : Fl) (is : List (Fin n)) (B : Priors D shape) (feed : Fed D) (θ : ∀ i, Pos (sizes shape) i → Fl) (l : Fin 1) (c : Fl) :
    (((is.foldl (Priors.step wdecay) B).graph.eval feed θ 1 (is.foldl (Priors.step wdecay) B).inner l),
      is.foldl (fun a i => a + Fl.fin ((shape i).prod : ℕ)) c)
      = weightPriorLoop wdecay (B.graph.eval feed θ 1 B.inner l, c) (is.map fun i => ⟨shape i, flat (θ i)⟩)
    ∧ (is.foldl (Priors.step wdecay) B).graph.eval feed θ 1 (is.foldl (Priors.step wdecay) B).outer l = B.graph.eval feed θ 1 B.outer l := by
  induction is generalizing B c with
  | nil => exact ⟨rfl, rfl⟩
  | cons i is ih =>
    obtain ⟨h1, h2⟩ := ih (B.step wdecay i) (c + Fl.fin ((shape i).prod : ℕ))
    obtain ⟨h3, h4⟩ := step_value wdecay B i feed θ l
    refine ⟨?_, by rw [List.foldl_cons, h2, h4]⟩
    rw [List.foldl_cons, List.foldl_cons, h1, h3]
    simp only [List.map_cons, weightPriorLoop, flat, List.map_ofFn, Function.comp_def]

theorem cost_value {m : Nat} (T : Net D shape ctx) (out : Ref ctx (m * 2)) (batchSize nExamples : Nat) (feed : Fed D) (θ : ∀ i, Pos (sizes shape) i → Fl)
    (l : Fin 1) (hm : feed.2.length = m) :
    (costGraph T out batchSize nExamples).graph.eval feed θ 1 (costGraph T out batchSize nExamples).node l
      = (negativeLogLikelihood (List.ofFn fun r : Fin m => (T.eval feed θ _ out (at2 r 0), T.eval feed θ _ out (at2 r 1))) feed.2 batchSize nExamples
          (List.ofFn fun i => ⟨shape i, flat (θ i)⟩)).1 := by
  obtain ⟨h1, h2⟩ := loop_value (D := D) (shape := shape) 1 (List.finRange n)
    ⟨_, (addVariancePrior (likelihood T out batchSize) logVarRef .here (Fl.fin 1e-6) (Fl.fin 0.01) nExamples).snoc (.data fun _ _ => 0), .there .here, .here⟩ feed θ l 0
  rw [← List.ofFn_eq_map] at h1
  have e1 := congrArg Prod.fst h1
  have e2 := congrArg Prod.snd h1
  simp only at e1 e2
  have e3 : (costGraph T out batchSize nExamples).graph.eval feed θ 1 (costGraph T out batchSize nExamples).node l
      = -(((addVariancePrior (likelihood T out batchSize) logVarRef .here (Fl.fin 1e-6) (Fl.fin 0.01) nExamples).eval feed θ 1 .here l)
        + weightPriorLogLike (List.ofFn fun i => ⟨shape i, flat (θ i)⟩) 1 / Fl.fin (nExamples : ℕ)) := by
    unfold weightPriorLogLike
    refine Eq.trans ?_ (congrArg (fun v => -(_ + safeDivide' v _ / _)) e1)
    refine Eq.trans ?_ (congrArg (fun v => -(_ + safeDivide' _ v / _)) e2)
    refine Eq.trans ?_ (congrArg (fun v => -(v + safeDivide' _ _ / _)) h2)
    rfl
  rw [e3, variancePrior_value, likelihood_value, logVar_value]
  have e4 : List.zipWith rowLogLike (List.ofFn fun r : Fin m => (T.eval feed θ _ out (at2 r 0), T.eval feed θ _ out (at2 r 1))) feed.2
      = List.ofFn fun r : Fin m => rowLogLike (T.eval feed θ _ out (at2 r 0), T.eval feed θ _ out (at2 r 1)) (feed.2.getD r .nan) := by
    apply List.ext_getElem
    · simp [hm]
    · intro k hk1 hk2
      simp only [List.length_ofFn] at hk2
      have : k < feed.2.length := hm ▸ hk2
      simp [this]
  unfold negativeLogLikelihood logVariancePriorLogLike Fl.mean
  rw [e4]
  simp only [List.map_ofFn, Function.comp_def, List.length_ofFn, List.map_cons, List.map_nil, sum_one]

/-! ## Differentiability -/

section sound
variable {feed : Fed D} {e : Env ℝ ctx} {d : Nat} (x : Ref ctx d)

theorem square_sound : (square (shape := shape) x).Sound feed e := fun l => by
  refine ⟨by simp, by simp [Fl.ofNat_def], ?_⟩
  simpa [Fl.ofNat_def] using hasDerivAt_pow 2 (e d x l)

theorem scale_sound (c : ℝ) : (scale (shape := shape) (.fin c) x).Sound feed e := fun l => by
  refine ⟨by simp, by simp, ?_⟩
  simpa using (hasDerivAt_id (e d x l)).const_mul c

theorem over_sound {c : ℝ} (hc : c ≠ 0) : (over (shape := shape) (.fin c) x).Sound feed e := fun l => by
  have h : (1 : Fl) / Fl.fin c = .fin (1 / c) := by rw [Fl.ofNat_one, Fl.div_fin hc]
  simp only [Fl.div_fin hc, h]
  exact ⟨by simp, by simp, (hasDerivAt_id (e d x l)).div_const c⟩

theorem safeDivide_const (y : ℝ) : ∃ c : ℝ, ∀ v, safeDivide' (.fin v) (.fin y) = .fin (v / c) := by
  have h : ∃ c : ℝ, c ≠ 0 ∧ Fl.fin y + (2 * Fl.sign (.fin y) * Fl.fin 1e-16 + Fl.fin 1e-16) = .fin c := by
    rw [Fl.sign_fin, Fl.ofNat_def]
    split_ifs with h1 h2
    · exact ⟨y + ((2 : ℕ) * 1 * 1e-16 + 1e-16), by positivity, rfl⟩
    · refine ⟨y + ((2 : ℕ) * (-1) * 1e-16 + 1e-16), ?_, rfl⟩
      norm_num
      linarith
    · refine ⟨y + ((2 : ℕ) * 0 * 1e-16 + 1e-16), ?_, rfl⟩
      have : y = 0 := le_antisymm (not_lt.1 h1) (not_lt.1 h2)
      rw [this]
      norm_num
  obtain ⟨c, hc, hy⟩ := h
  refine ⟨c, fun v => ?_⟩
  unfold safeDivide' safeDivide
  rw [hy, Fl.div_fin hc]

theorem safeOver_sound (y : ℝ) : (safeOver (shape := shape) (.fin y) x).Sound feed e := fun l => by
  obtain ⟨c, hc⟩ := safeDivide_const y
  have h : safeDivide' 1 (.fin y) = .fin (1 / c) := by rw [Fl.ofNat_one, hc]
  simp only [hc, h]
  exact ⟨by simp, by simp, (hasDerivAt_id (e d x l)).div_const c⟩

theorem minus_sound : (minus (shape := shape) x).Sound feed e := fun l => by
  refine ⟨by simp, by simp, ?_⟩
  simpa using hasDerivAt_neg (e d x l)

theorem plusConst_sound (c : ℝ) : (plusConst (shape := shape) (.fin c) x).Sound feed e := fun l => by
  refine ⟨by simp, by simp, ?_⟩
  simpa using (hasDerivAt_id (e d x l)).add_const c

theorem minusConst_sound (c : ℝ) : (minusConst (shape := shape) (.fin c) x).Sound feed e := fun l => by
  refine ⟨by simp, by simp, ?_⟩
  simpa using (hasDerivAt_id (e d x l)).sub_const c

theorem inv_sound (h : ∀ l, 0 < e d x l) :
    (Op.map (size := sizes shape) (δ := Fed D) (fun v => 1 / v) (fun v => -(1 / (v * v))) x).Sound feed e := fun l => by
  have h0 := (h l).ne'
  have h1 : (1 : Fl) / Fl.fin (e d x l) = .fin (1 / e d x l) := by rw [Fl.ofNat_one, Fl.div_fin h0]
  have h2 : -((1 : Fl) / (Fl.fin (e d x l) * Fl.fin (e d x l))) = .fin (-(1 / (e d x l * e d x l))) := by
    rw [Fl.ofNat_one, Fl.mul_fin, Fl.div_fin (mul_ne_zero h0 h0), Fl.neg_fin]
  refine ⟨⟨_, h1⟩, ⟨_, h2⟩, ?_⟩
  show HasDerivAt (fun y => ((1 : Fl) / Fl.fin y).val) (-((1 : Fl) / (Fl.fin (e d x l) * Fl.fin (e d x l)))).val (e d x l)
  rw [h2]
  have h3 : HasDerivAt (fun y : ℝ => 1 / y) (-(1 / (e d x l * e d x l))) (e d x l) := by
    have := hasDerivAt_inv h0
    rw [show -(1 / (e d x l * e d x l)) = -(e d x l ^ 2)⁻¹ by rw [one_div, pow_two]]
    simpa [one_div] using this
  refine h3.congr_of_eventuallyEq ?_
  filter_upwards [isOpen_ne.mem_nhds h0] with y hy
  rw [Fl.ofNat_one, Fl.div_fin hy]
  rfl

theorem exp_sound : (Op.map (size := sizes shape) (δ := Fed D) Fl.exp Fl.exp x).Sound feed e := fun l => by
  refine ⟨by simp, by simp, ?_⟩
  simpa using Real.hasDerivAt_exp (e d x l)

end sound

theorem likelihood_sound {m : Nat} (T : Net D shape ctx) (out : Ref ctx (m * 2)) {batchSize : Nat} (hb : 0 < batchSize) {feed : Fed D}
    {θ : ∀ i, Pos (sizes shape) i → ℝ} (h : T.Sound feed θ) (hy : ∀ r : Fin m, (feed.2.getD r .nan).IsFin) :
    (likelihood T out batchSize).Sound feed θ := by
  refine ⟨⟨⟨⟨⟨⟨⟨⟨⟨⟨⟨⟨⟨⟨⟨h, trivial⟩, trivial⟩, exp_sound _⟩, plusConst_sound _ _⟩, inv_sound _ fun l => ?_⟩, hy⟩, trivial⟩, square_sound _⟩,
    minus_sound _⟩, scale_sound _ _⟩, trivial⟩, scale_sound _ _⟩, trivial⟩, trivial⟩, over_sound _ (by exact_mod_cast hb.ne')⟩
  exact add_pos (Real.exp_pos (T.real.eval feed θ _ out (at2 l 1))) (by norm_num)

theorem variancePrior_sound {m : Nat} (T : Net D shape ctx) (logVar : Ref ctx m) (logLike : Ref ctx 1) {mean var : ℝ} (hmean : 0 < mean) (hvar : 0 < var)
    {nExamples : Nat} (hN : 0 < nExamples) (hm : 0 < m) {feed : Fed D} {θ : ∀ i, Pos (sizes shape) i → ℝ} (h : T.Sound feed θ) :
    (addVariancePrior T logVar logLike (.fin mean) (.fin var) nExamples).Sound feed θ := by
  have h2 : (2 : Fl) * Fl.fin var = .fin ((2 : ℕ) * var) := rfl
  unfold addVariancePrior
  rw [Fl.log_fin hmean, Fl.log_fin hvar, h2]
  exact ⟨⟨⟨⟨⟨⟨⟨⟨⟨h, minusConst_sound _ _⟩, square_sound _⟩, minus_sound _⟩, safeOver_sound _ _⟩, minusConst_sound _ _⟩, trivial⟩,
    over_sound _ (by exact_mod_cast hm.ne')⟩, over_sound _ (by exact_mod_cast hN.ne')⟩, trivial⟩

theorem loop_sound (is : List (Fin n)) (B : Priors D shape) {feed : Fed D} {θ : ∀ i, Pos (sizes shape) i → ℝ} (h : B.graph.Sound feed θ) :
    (is.foldl (Priors.step 1) B).graph.Sound feed θ := by
  induction is generalizing B with
  | nil => exact h
  | cons i is ih =>
    refine ih _ ⟨⟨⟨⟨⟨h, trivial⟩, square_sound _⟩, ?_⟩, trivial⟩, trivial⟩
    rw [Fl.ofNat_one, Fl.neg_fin, Fl.mul_fin]
    exact scale_sound _ _

theorem nParams_fin (shape : Fin n → List Nat) : ∃ y, nParams shape = .fin y := by
  have : ∀ (is : List (Fin n)) (a : ℝ), ∃ y, is.foldl (fun a i => a + Fl.fin ((shape i).prod : ℕ)) (Fl.fin a) = .fin y := by
    intro is
    induction is with
    | nil => exact fun a => ⟨a, rfl⟩
    | cons i is ih => exact fun a => ih _
  unfold nParams
  rw [Fl.ofNat_zero]
  exact this _ _

theorem cost_sound {m : Nat} (T : Net D shape ctx) (out : Ref ctx (m * 2)) {batchSize nExamples : Nat} (hb : 0 < batchSize) (hN : 0 < nExamples) (hm : 0 < m)
    {feed : Fed D} {θ : ∀ i, Pos (sizes shape) i → ℝ} (h : T.Sound feed θ) (hy : ∀ r : Fin m, (feed.2.getD r .nan).IsFin) :
    (costGraph T out batchSize nExamples).graph.Sound feed θ := by
  obtain ⟨y, hy'⟩ := nParams_fin shape
  unfold costGraph
  rw [hy']
  refine ⟨⟨⟨⟨loop_sound _ _ ⟨variancePrior_sound _ _ _ (by norm_num) (by norm_num) hN hm (likelihood_sound T out hb h hy), fun l => by simp⟩,
    safeOver_sound _ _⟩, over_sound _ (by exact_mod_cast hN.ne')⟩, trivial⟩, minus_sound _⟩

/-! ## All variables are used -/

theorem loop_uses (wdecay : Fl) (is : List (Fin n)) (B : Priors D shape) (i : Fin n) (h : i ∈ is ∨ B.graph.uses 1 B.inner i) :
    (is.foldl (Priors.step wdecay) B).graph.uses 1 (is.foldl (Priors.step wdecay) B).inner i := by
  induction is generalizing B with
  | nil => simpa using h
  | cons j is ih =>
    refine ih _ ?_
    rcases h with h | h
    · rcases List.mem_cons.1 h with rfl | h
      · exact .inr (.inr rfl)
      · exact .inl h
    · exact .inr (.inl h)

theorem cost_uses {m : Nat} (T : Net D shape ctx) (out : Ref ctx (m * 2)) (batchSize nExamples : Nat) (i : Fin n) :
    (costGraph T out batchSize nExamples).graph.uses 1 (costGraph T out batchSize nExamples).node i :=
  .inr (loop_uses _ _ _ i (.inl (List.mem_finRange i)))


/-! ## Dense layers -/

theorem rowOf_at2 {m b : Nat} (r : Fin m) (c : Fin b) : rowOf (at2 r c) = r := by simp [rowOf, at2]
theorem colOf_at2 {m b : Nat} (r : Fin m) (c : Fin b) : colOf (at2 r c) = c := by simp [colOf, at2]
theorem at2_inj {m b : Nat} {r r' : Fin m} {c c' : Fin b} : at2 r c = at2 r' c' ↔ r = r' ∧ c = c' := by simp [at2]
theorem sum_at2 {m b : Nat} (v : Fin (m * b) → ℝ) : ∑ t, v t = ∑ r, ∑ c, v (at2 r c) := by
  rw [← Fintype.sum_prod_type', ← finProdFinEquiv.sum_comp]
  rfl

theorem dense_value {m a b : Nat} (T : Net D shape ctx) (x : Ref ctx (m * a)) (kernel bias : Fin n) (ker : Fin a → Fin b → Fin (sizes shape kernel))
    (bia : Fin b → Fin (sizes shape bias)) (act act' : Fl → Fl) (feed : Fed D) (θ : ∀ i, Pos (sizes shape) i → ℝ) (r : Fin m) (j : Fin b) :
    (dense T x kernel bias ker bia act act').real.eval feed θ _ .here (at2 r j)
      = (act (.fin (∑ i, T.real.eval feed θ _ x (at2 r i) * θ kernel (ker i j) + θ bias (bia j)))).val := by
  have e : (dense T x kernel bias ker bia act act').real.eval feed θ _ .here (at2 r j)
      = (act (.fin (total (fun t : Fin (m * (a * b)) => at2 (rowOf t) (colOf (colOf t)))
          (fun t => T.real.eval feed θ _ x (at2 (rowOf t) (rowOf (colOf t))) * θ kernel (ker (rowOf (colOf t)) (colOf (colOf t)))) (at2 r j)
          + θ bias (bia (colOf (at2 r j)))))).val := rfl
  rw [e, total_real, colOf_at2, sum_at2]
  have e2 : ∀ r' : Fin m, (∑ c : Fin (a * b), if at2 (rowOf (at2 r' c)) (colOf (colOf (at2 r' c))) = at2 r j
      then T.real.eval feed θ _ x (at2 (rowOf (at2 r' c)) (rowOf (colOf (at2 r' c)))) * θ kernel (ker (rowOf (colOf (at2 r' c))) (colOf (colOf (at2 r' c))))
      else 0) = if r' = r then ∑ i, T.real.eval feed θ _ x (at2 r' i) * θ kernel (ker i j) else 0 := by
    intro r'
    rw [sum_at2]
    simp only [rowOf_at2, colOf_at2, at2_inj]
    split_ifs with h
    · simp [h]
    · simp [h]
  simp only [e2]
  simp

/-- An elementwise function with its derivative. -/
def Smooth (f f' : Fl → Fl) : Prop := ∀ v : ℝ, (f (.fin v)).IsFin ∧ (f' (.fin v)).IsFin ∧ HasDerivAt (fun y => (f (.fin y)).val) (f' (.fin v)).val v

theorem dense_sound {m a b : Nat} (T : Net D shape ctx) (x : Ref ctx (m * a)) (kernel bias : Fin n) (ker : Fin a → Fin b → Fin (sizes shape kernel))
    (bia : Fin b → Fin (sizes shape bias)) {act act' : Fl → Fl} (hact : Smooth act act') {feed : Fed D} {θ : ∀ i, Pos (sizes shape) i → ℝ}
    (h : T.Sound feed θ) : (dense T x kernel bias ker bia act act').Sound feed θ :=
  ⟨⟨⟨⟨⟨⟨⟨⟨⟨h, trivial⟩, trivial⟩, trivial⟩, trivial⟩, trivial⟩, trivial⟩, trivial⟩, trivial⟩, fun _ => hact _⟩

theorem smooth_id : Smooth id (fun _ => 1) := fun v => ⟨⟨_, rfl⟩, by simp, by simpa using hasDerivAt_id' v⟩

theorem smooth_tanh : Smooth Fl.tanh tanhGrad := fun v => by
  refine ⟨⟨_, rfl⟩, by simp [tanhGrad], ?_⟩
  have h := (Real.hasDerivAt_sinh v).div (Real.hasDerivAt_cosh v) (Real.cosh_pos v).ne'
  have e : (tanhGrad (.fin v)).val = (Real.cosh v * Real.cosh v - Real.sinh v * Real.sinh v) / Real.cosh v ^ 2 := by
    have := (Real.cosh_pos v).ne'
    simp only [tanhGrad, Fl.tanh_fin, Fl.npow_fin, Fl.ofNat_one, Fl.sub_fin, Fl.val_fin, Real.tanh_eq_sinh_div_cosh]
    field_simp
  rw [e]
  refine h.congr_of_eventuallyEq (Filter.Eventually.of_forall fun y => ?_)
  exact Real.tanh_eq_sinh_div_cosh y

end

/-! ## The default network -/

theorem default_sound {D : Nat} (rows : List (Fin D → ℝ)) (ys : List Fl) (θ : Params (defaultShape D)) :
    ((defaultGraph D).graph rows.length).Sound (lift rows, ys) θ := by
  refine ⟨⟨⟨⟨⟨⟨⟨dense_sound _ _ _ _ _ _ smooth_id (dense_sound _ _ _ _ _ _ smooth_tanh (dense_sound _ _ _ _ _ _ smooth_tanh
    (dense_sound _ _ _ _ _ _ smooth_tanh ⟨trivial, fun l => ?_⟩))), fun _ => by simp⟩, trivial⟩, trivial⟩, trivial⟩, trivial⟩, trivial⟩, trivial⟩
  simp [lift]

theorem default_value {D : Nat} (rows : List (Fin D → ℝ)) (ys : List Fl) (θ : Params (defaultShape D)) (r : Fin rows.length) :
    ((defaultGraph D).graph rows.length).real.eval (lift rows, ys) θ _ ((defaultGraph D).out rows.length) (at2 r 0) = (defaultReal θ rows[r]).1
    ∧ ((defaultGraph D).graph rows.length).real.eval (lift rows, ys) θ _ ((defaultGraph D).out rows.length) (at2 r 1) = (defaultReal θ rows[r]).2 := by
  let m := rows.length
  let X : Net D (defaultShape D) [m * D] := Graph.nil.snoc (.data fun feed t => feed.1.getD (rowOf t) (fun _ => .nan) (colOf t))
  let T1 := dense (m := m) (a := D) (b := 50) X .here 0 1 cell slot Fl.tanh tanhGrad
  let T2 := dense (m := m) (a := 50) (b := 50) T1 .here 2 3 cell slot Fl.tanh tanhGrad
  let T3 := dense (m := m) (a := 50) (b := 50) T2 .here 4 5 cell slot Fl.tanh tanhGrad
  let T4 := dense (m := m) (a := 50) (b := 1) T3 .here 6 7 cell slot id (fun _ => 1)
  let feed : Fed D := (lift rows, ys)
  let u1 : Fin 50 → ℝ := RDense.eval (⟨fun i j => θ 0 (cell i j), fun j => θ 1 (slot j)⟩ : RDense D 50) Real.tanh rows[r]
  let u2 : Fin 50 → ℝ := RDense.eval (⟨fun i j => θ 2 (cell i j), fun j => θ 3 (slot j)⟩ : RDense 50 50) Real.tanh u1
  let u3 : Fin 50 → ℝ := RDense.eval (⟨fun i j => θ 4 (cell i j), fun j => θ 5 (slot j)⟩ : RDense 50 50) Real.tanh u2
  have v0 : ∀ j, X.real.eval feed θ _ .here (at2 r j) = rows[r] j := by
    intro j
    show ((lift rows).getD (rowOf (at2 r j)) (fun _ => .nan) (colOf (at2 r j))).val = _
    rw [rowOf_at2, colOf_at2]
    simp [lift]
  have v1 : ∀ j, T1.real.eval feed θ _ .here (at2 r j) = u1 j := by
    intro j
    refine (dense_value (m := m) (b := 50) X .here 0 1 cell slot Fl.tanh tanhGrad feed θ r j).trans ?_
    simp only [v0]
    rfl
  have v2 : ∀ j, T2.real.eval feed θ _ .here (at2 r j) = u2 j := by
    intro j
    refine (dense_value (m := m) (b := 50) T1 .here 2 3 cell slot Fl.tanh tanhGrad feed θ r j).trans ?_
    simp only [v1]
    rfl
  have v3 : ∀ j, T3.real.eval feed θ _ .here (at2 r j) = u3 j := by
    intro j
    refine (dense_value (m := m) (b := 50) T2 .here 4 5 cell slot Fl.tanh tanhGrad feed θ r j).trans ?_
    simp only [v2]
    rfl
  have v4 : T4.real.eval feed θ _ .here (at2 r 0) = RDense.eval ⟨fun i j => θ 6 (cell i j), fun j => θ 7 (slot j)⟩ id u3 0 := by
    refine (dense_value (m := m) (b := 1) T3 .here 6 7 cell slot id (fun _ => 1) feed θ r 0).trans ?_
    simp only [v3]
    rfl
  have out : ∀ c, ((defaultGraph D).graph m).real.eval feed θ _ ((defaultGraph D).out m) (at2 r c)
      = total (fun t : Fin (m * 1) => at2 (b := 2) (rowOf t) 0) (T4.real.eval feed θ _ .here) (at2 r c)
        + total (fun t : Fin (m * 1) => at2 (b := 2) (rowOf t) 1) (fun _ => (1 : Fl).val * θ 8 (cell (a := 1) (b := 1) 0 0)) (at2 r c) := fun c => rfl
  constructor
  · rw [out, total_real, total_real, sum_at2, sum_at2]
    simp only [rowOf_at2, at2_inj]
    simp [v4]
    rfl
  · rw [out, total_real, total_real, sum_at2, sum_at2]
    simp [rowOf_at2, at2_inj, defaultReal]
end PySGMCMC.BNNSystem
