import Verif.Props.BNNUnits

/-!
# What a network remembers of its data: `get_incumbent` and `update`

C100 `get_incumbent` on a network, C101 `update` on a network
-/

namespace PySGMCMC.BNN
open BaseModel (Rows standardize meanAxis0 stdAxis0 lift col NonConstant)
open Spec

variable {D : Nat} {ω H C : Type}

/-- What `train` leaves in `self.X`, `self.y`, whether it succeeds or not. -/
theorem train_data (cfg : Cfg) (W : World D ω H C) (rows : Rows (Fin D)) (y : List Fl) (b : Bnn D) (w : ω) :
    (train cfg W (.matrix rows) y b w).2.1.data = some ((normalizedX cfg b rows).1, (normalizedY cfg b y).1) := by
  have hY : (normalizedY cfg (normalizedX cfg b rows).2 y).1 = (normalizedY cfg b y).1 := normalizedY_fst _ _ _ _
  rw [train_rest, hY]
  unfold trainRest
  simp only
  split
  · rfl
  · split
    · rfl
    · split
      · rfl
      · split <;> rfl

/-! ## Which class provides a method -/

theorem lookup_withBase : NetClass.withBase.lookup "update" = .ok .baseModel ∧ NetClass.withBase.lookup "get_incumbent" = .ok .baseModel ∧
    NetClass.withBase.lookup "get_json_data" = .ok .baseModel := by decide

/-- **C100** Training and prediction are the network's own in both classes, and so is the constructor (which assigns no data); the methods
that read the stored data exist only in a class that derives from `BaseModel` too. -/
theorem C100_lookup : ∀ c : NetClass, c.lookup "train" = .ok .network ∧ c.lookup "predict" = .ok .network ∧
    c.lookup "__init__" = .ok .network ∧
    ∀ name ∈ ["update", "get_incumbent", "get_json_data"], c.lookup name = if c = .withBase then .ok .baseModel else .error .attribute := by
  intro c
  cases c <;> decide

/-! ## C100 -/

/-- Element `(i, j)` of a matrix. -/
theorem matrixArray_get (rows : Rows (Fin D)) (i : Nat) (row : Fin D → Fl) (hrow : rows[i]? = some row) (j : Fin D) :
    (matrixArray rows).get [i, j] = some (row j) := by
  obtain ⟨hi, rfl⟩ := List.getElem?_eq_some_iff.1 hrow
  have key : ∀ (l : Rows (Fin D)) (i : Nat) (hi : i < l.length), (l.flatMap fun r => List.ofFn r)[i * D + j]? = some (l[i] j) := by
    intro l
    induction l with
    | nil => intro i hi; simp at hi
    | cons r rs ih =>
      intro i hi
      rw [List.flatMap_cons]
      cases i with
      | zero =>
        rw [Nat.zero_mul, Nat.zero_add, List.getElem?_append_left (by simp)]
        simp
      | succ i =>
        rw [List.getElem?_append_right (by simp; nlinarith)]
        have : (i + 1) * D + j - (List.ofFn r).length = i * D + j := by
          rw [List.length_ofFn, Nat.add_mul, Nat.one_mul]; omega
        rw [this, ih i (by simpa using hi)]
        rfl
  simp [matrixArray, Tensor.get, Tensor.validIdx, Tensor.offset, hi, key rows i hi]

/-- `self.y` for labels that are numbers. -/
theorem labels_data (cfg : Cfg) (b : Bnn D) (y : List ℝ) :
    (cfg.normalizeOutput = false → (normalizedY cfg b (y.map .fin)).1 = y.map .fin) ∧
    (cfg.normalizeOutput = true → (∃ u ∈ y, ∃ v ∈ y, u ≠ v) →
      (normalizedY cfg b (y.map .fin)).1 = y.map (fun t => .fin ((t - avg y) / Real.sqrt (var y))) ∧ 0 < var y) ∧
    (cfg.normalizeOutput = true → (¬ ∃ u ∈ y, ∃ v ∈ y, u ≠ v) → (normalizedY cfg b (y.map .fin)).1 = y.map (fun _ => .nan)) := by
  have hl : (y.map Fl.fin).map (fun v (_ : Unit) => v) = lift (y.map fun v _ => v) := by
    simp [lift, Function.comp_def]
  have hc : col (y.map fun v (_ : Unit) => v) () = y := by simp [col, Function.comp_def]
  refine ⟨fun h => by simp [normalizedY, h], fun h hd => ?_, fun h hd => ?_⟩
  · have hn : NonConstant (y.map fun v (_ : Unit) => v) () := by
      obtain ⟨u, hu, v, hv, hne⟩ := hd
      exact ⟨_, List.mem_map.2 ⟨u, hu, rfl⟩, _, List.mem_map.2 ⟨v, hv, rfl⟩, hne⟩
    have hv := BaseModel.nonConstant_var hn
    have hne := BaseModel.nonConstant_ne_nil hn
    rw [hc] at hv
    refine ⟨?_, hv⟩
    simp only [normalizedY, h, if_true, hl, BaseModel.zeroMeanUnitVarNormalization, Option.getD_none, BaseModel.meanAxis0_lift hne,
      BaseModel.stdAxis0_lift hne, hc]
    rw [lift, List.map_map, List.map_map, List.map_map]
    apply List.map_congr_left
    intro t _
    simp only [Function.comp, standardize, Fl.sub_fin]
    rw [Fl.div_fin (Real.sqrt_pos.2 hv).ne']
  · cases y with
    | nil => simp [normalizedY, h, BaseModel.zeroMeanUnitVarNormalization]
    | cons y0 ys =>
      have hn : ¬ NonConstant ((y0 :: ys).map fun v (_ : Unit) => v) () := by
        rintro ⟨r, hr, s, hs, hne⟩
        obtain ⟨u, hu, rfl⟩ := List.mem_map.1 hr
        obtain ⟨v, hv, rfl⟩ := List.mem_map.1 hs
        exact hd ⟨u, hu, v, hv, hne⟩
      have hne : ((y0 :: ys).map fun v (_ : Unit) => v) ≠ [] := by simp
      have hv := BaseModel.constant_var hn
      rw [hc] at hv
      have hall : ∀ t ∈ y0 :: ys, t = avg (y0 :: ys) := by
        intro t ht
        have hs : ((y0 :: ys).map fun _ => t) = y0 :: ys := by
          conv_rhs => rw [← List.map_id (y0 :: ys)]
          apply List.map_congr_left
          intro u hu
          by_contra hc
          exact hd ⟨t, ht, u, hu, hc⟩
        have := avg_affine (l := y0 :: ys) (by simp) 0 t
        simp only [zero_mul, zero_add] at this
        rw [hs] at this
        exact this.symm
      simp only [normalizedY, h, if_true, hl, BaseModel.zeroMeanUnitVarNormalization, Option.getD_none, BaseModel.meanAxis0_lift hne,
        BaseModel.stdAxis0_lift hne, hc, hv]
      rw [lift, List.map_map, List.map_map, List.map_map]
      apply List.map_congr_left
      intro t ht
      simp only [Function.comp, standardize, Fl.sub_fin, Real.sqrt_zero, ← hall t ht, sub_self]
      simp [Fl.div_fin', Fl.infOf]

/-- Column `j` of `self.X` for inputs that are numbers. -/
theorem inputs_data (cfg : Cfg) (b : Bnn D) (X : List (Fin D → ℝ)) :
    (normalizedX cfg b (lift X)).1.length = X.length ∧
    (cfg.normalizeInput = false → (normalizedX cfg b (lift X)).1 = lift X) ∧
    (cfg.normalizeInput = true → ∀ j, NonConstant X j → ∀ (i : Nat) (hi : i < X.length) (row : Fin D → Fl),
      (normalizedX cfg b (lift X)).1[i]? = some row → row j = .fin ((X[i] j - avg (col X j)) / Real.sqrt (var (col X j)))) := by
  refine ⟨?_, fun h => by simp [normalizedX, h], fun h j hj i hi row hrow => ?_⟩
  · unfold normalizedX
    split <;> simp [BaseModel.zeroMeanUnitVarNormalization, lift]
  · have hne := BaseModel.nonConstant_ne_nil hj
    have hm := BaseModel.meanAxis0_lift hne j
    have hs := BaseModel.stdAxis0_lift hne j
    simp only [normalizedX, h, if_true, BaseModel.zeroMeanUnitVarNormalization, Option.getD_none, List.getElem?_map,
      List.getElem?_eq_getElem (show i < (lift X).length by simpa [lift] using hi), Option.map_some, Option.some.injEq] at hrow
    rw [← hrow]
    have hl : ∀ h', ((lift X)[i]'h') j = .fin (X[i] j) := by unfold lift; intro h'; rw [List.getElem_map]
    simp only [hm, hs, standardize, hl, Fl.sub_fin]
    rw [Fl.div_fin (Real.sqrt_pos.2 (BaseModel.nonConstant_var hj)).ne']

/-- **C100** (partial: the property fails for the class itself, see `C100_missing`, and for normalized data, see `C100_violated`)  For a
class that derives from `BaseModel` too: after a `train` call on numbers that got as far as
storing the data — succeeding or not — `get_incumbent` picks the first of the training points with the smallest label (the labels must
not all be equal if they are normalized).  Without normalization it returns that point and that label; otherwise what it returns is the
point and the label in normalized form. -/
theorem C100_incumbent_partial (cfg : Cfg) (W : World D ω H C) (X : List (Fin D → ℝ)) (y : List ℝ) (hlen : X.length = y.length)
    (hne : y ≠ []) (hdiff : cfg.normalizeOutput = true → ∃ u ∈ y, ∃ v ∈ y, u ≠ v) (b : Bnn D) (w : ω) :
    ∃ (i : Nat) (hi : i < y.length) (p v : Tensor Fl), (∀ (k : Nat) (hk : k < y.length), y[i] ≤ y[k] ∧ (k < i → y[i] < y[k])) ∧
      getIncumbent .withBase (train cfg W (.matrix (lift X)) (y.map .fin) b w).2.1 = .ok (p, v) ∧ p.shape = [D] ∧ v.shape = [] ∧
      (cfg.normalizeInput = false → ∀ j : Fin D, p.get [(j : Nat)] = some (.fin (X[i] j))) ∧
      (cfg.normalizeInput = true → ∀ j : Fin D, NonConstant X j →
        p.get [(j : Nat)] = some (.fin ((X[i] j - avg (col X j)) / Real.sqrt (var (col X j))))) ∧
      (cfg.normalizeOutput = false → v.get [] = some (.fin y[i])) ∧
      (cfg.normalizeOutput = true → v.get [] = some (.fin ((y[i] - avg y) / Real.sqrt (var y)))) := by
  obtain ⟨f, hf, hmono⟩ : ∃ f : ℝ → ℝ, (normalizedY cfg b (y.map .fin)).1 = y.map (fun t => .fin (f t)) ∧
      ((∀ s t, f s < f t ↔ s < t) ∧ (cfg.normalizeOutput = false → f = id) ∧
        (cfg.normalizeOutput = true → f = fun t => (t - avg y) / Real.sqrt (var y))) := by
    cases hc : cfg.normalizeOutput with
    | false => exact ⟨id, (labels_data cfg b y).1 hc, fun _ _ => Iff.rfl, fun _ => rfl, fun h => by simp at h⟩
    | true =>
      obtain ⟨h1, h2⟩ := (labels_data cfg b y).2.1 hc (hdiff hc)
      refine ⟨_, h1, fun s t => ?_, fun h => by simp at h, fun _ => rfl⟩
      rw [div_lt_div_iff_of_pos_right (Real.sqrt_pos.2 h2)]
      constructor <;> intro h <;> linarith
  have hlX := (inputs_data cfg b X).1
  obtain ⟨i, v, x, yv, hi, hinc, hxs, hxg, hys, hyg, hyd, hmin, -⟩ := BaseModel.C55_incumbent y.length [D]
    (matrixArray (normalizedX cfg b (lift X)).1).data (y.map (fun t => .fin (f t))) (List.length_pos_iff.2 hne) (by simp)
  have hnn : Fl.nan ∉ y.map (fun t => Fl.fin (f t)) := by simp
  have hget : ∀ k (hk : k < y.length), (⟨[y.length], y.map (fun t => .fin (f t))⟩ : Tensor Fl).get [k] = some (.fin (f y[k])) := by
    intro k hk
    rw [BaseModel.get_vector _ _ _ hk]
    simp [hk]
  have hv : v = .fin (f y[i]) := by
    rw [hget i hi] at hyd
    exact (Option.some.inj hyd).symm
  have hmat : matrixArray (normalizedX cfg b (lift X)).1
      = ⟨y.length :: [D], (matrixArray (normalizedX cfg b (lift X)).1).data⟩ := by
    rw [← hlen, ← hlX]; rfl
  obtain ⟨row, hrow⟩ : ∃ row, (normalizedX cfg b (lift X)).1[i]? = some row :=
    ⟨_, List.getElem?_eq_getElem (by omega)⟩
  have hx : ∀ j : Fin D, x.get [(j : Nat)] = some (row j) := by
    intro j
    rw [hxg, ← hmat, matrixArray_get _ _ _ hrow]
  refine ⟨i, hi, x, yv, ?_, ?_, hxs, hys, ?_, ?_, ?_, ?_⟩
  · intro k hk
    obtain ⟨h1, h2⟩ := hmin hnn k _ (hget k hk)
    rw [hv] at h1 h2
    simp only [Fl.lt, decide_eq_false_iff_not, hmono.1, not_lt, decide_eq_true_eq] at h1 h2
    exact ⟨h1, h2⟩
  · simp only [getIncumbent, lookup_withBase, stored, train_data, hf, bind, Except.bind, List.length_map]
    rw [hmat, hinc]
  · intro hc j
    rw [hx j]
    rw [(inputs_data cfg b X).2.1 hc, lift, List.getElem?_map, List.getElem?_eq_getElem (by omega)] at hrow
    rw [← Option.some.inj hrow]
  · intro hc j hj
    rw [hx j, (inputs_data cfg b X).2.2 hc j hj i (by omega) row hrow]
  · intro hc
    rw [hyg, hv, hmono.2.1 hc]; rfl
  · intro hc
    rw [hyg, hv, hmono.2.2 hc]

/-- **C100** Normalized labels that are all equal become `NaN`: the first training point is returned with the value `NaN`. -/
theorem C100_constant (cfg : Cfg) (hc : cfg.normalizeOutput = true) (W : World D ω H C) (X : List (Fin D → ℝ)) (y : List ℝ)
    (hlen : X.length = y.length) (hne : y ≠ []) (hsame : ¬ ∃ u ∈ y, ∃ v ∈ y, u ≠ v) (b : Bnn D) (w : ω) :
    ∃ p v : Tensor Fl, getIncumbent .withBase (train cfg W (.matrix (lift X)) (y.map .fin) b w).2.1 = .ok (p, v) ∧ v.get [] = some .nan ∧
      (cfg.normalizeInput = false → ∀ j : Fin D, p.get [(j : Nat)] = (X[0]?).map fun r => .fin (r j)) := by
  have hf := (labels_data cfg b y).2.2 hc hsame
  have hlX := (inputs_data cfg b X).1
  obtain ⟨i, v, x, yv, hi, hinc, hxs, hxg, hys, hyg, hyd, -, hnan⟩ := BaseModel.C55_incumbent y.length [D]
    (matrixArray (normalizedX cfg b (lift X)).1).data (y.map (fun _ => .nan)) (List.length_pos_iff.2 hne) (by simp)
  obtain ⟨hv, hfirst⟩ := hnan (by
    obtain ⟨a, l, rfl⟩ := List.exists_cons_of_ne_nil hne
    simp)
  have hi0 : i = 0 := by
    by_contra h
    exact hfirst 0 (by omega) (by rw [BaseModel.get_vector _ _ _ (List.length_pos_iff.2 hne)]; simp [List.length_pos_iff.2 hne])
  subst hi0
  have hmat : matrixArray (normalizedX cfg b (lift X)).1
      = ⟨y.length :: [D], (matrixArray (normalizedX cfg b (lift X)).1).data⟩ := by
    rw [← hlen, ← hlX]; rfl
  refine ⟨x, yv, ?_, by rw [hyg, hv], fun hx j => ?_⟩
  · simp only [getIncumbent, lookup_withBase, stored, train_data, hf, bind, Except.bind, List.length_map]
    rw [hmat, hinc]
  · rw [hxg, ← hmat, (inputs_data cfg b X).2.1 hx]
    have hX : 0 < X.length := by omega
    rw [matrixArray_get _ 0 _ (by rw [lift, List.getElem?_map, List.getElem?_eq_getElem hX]; rfl), List.getElem?_eq_getElem hX]
    rfl

/-- **C100** fails: `BayesianNeuralNetwork` has no method `get_incumbent` and no method `get_json_data`, trained or not. -/
theorem C100_missing (b : Bnn D) : getIncumbent .plain b = .error .attribute ∧ getJsonData .plain b = .error .attribute := ⟨rfl, rfl⟩

/-- **C100** With the methods of `BaseModel`, a network that was never trained has no data: `get_incumbent` and `get_json_data` raise `AttributeError`. -/
theorem C100_untrained : getIncumbent .withBase ({} : Bnn D) = .error .attribute ∧ getJsonData .withBase ({} : Bnn D) = .error .attribute := ⟨rfl, rfl⟩

theorem avg_le_of_min {y : List ℝ} (hne : y ≠ []) (m : ℝ) (h : ∀ t ∈ y, m ≤ t) : m ≤ avg y := by
  have hs : y.length * m ≤ y.sum := by
    clear hne
    induction y with
    | nil => simp
    | cons a l ih =>
      have := ih fun t ht => h t (List.mem_cons_of_mem _ ht)
      have := h a List.mem_cons_self
      push_cast [List.length_cons, List.sum_cons]
      linarith
  have hp : (0 : ℝ) < y.length := by exact_mod_cast List.length_pos_iff.2 hne
  rw [avg, le_div_iff₀ hp]
  linarith

theorem avg_eq_min {y : List ℝ} (hne : y ≠ []) (m : ℝ) (h : ∀ t ∈ y, m ≤ t) (ha : avg y = m) : ∀ t ∈ y, t = m := by
  have hp : (0 : ℝ) < y.length := by exact_mod_cast List.length_pos_iff.2 hne
  have hs : y.sum = y.length * m := by
    rw [avg, div_eq_iff hp.ne'] at ha
    linarith
  clear ha hp hne
  have key : ∀ l : List ℝ, (∀ t ∈ l, m ≤ t) → l.length * m ≤ l.sum ∧ (l.sum = l.length * m → ∀ t ∈ l, t = m) := by
    intro l
    induction l with
    | nil => intro _; simp
    | cons a l ih =>
      intro hl
      obtain ⟨h1, h2⟩ := ih fun t ht => hl t (List.mem_cons_of_mem _ ht)
      have ha := hl a List.mem_cons_self
      refine ⟨by push_cast [List.length_cons, List.sum_cons]; linarith, fun he => ?_⟩
      push_cast [List.length_cons, List.sum_cons] at he
      have e1 : a = m := by linarith
      have e2 : l.sum = l.length * m := by linarith
      intro t ht
      rcases List.mem_cons.1 ht with rfl | ht
      · exact e1
      · exact h2 e2 t ht
  exact (key y h).2 hs

/-- **C100** fails: with normalized labels (the default) that are not all equal, the value `get_incumbent` returns is a negative number,
whatever the labels are; if no label is negative it was never observed. -/
theorem C100_violated (cfg : Cfg) (hc : cfg.normalizeOutput = true) (W : World D ω H C) (X : List (Fin D → ℝ)) (y : List ℝ)
    (hlen : X.length = y.length) (hdiff : ∃ u ∈ y, ∃ v ∈ y, u ≠ v) (b : Bnn D) (w : ω) :
    ∃ (p v : Tensor Fl) (r : ℝ), getIncumbent .withBase (train cfg W (.matrix (lift X)) (y.map .fin) b w).2.1 = .ok (p, v) ∧
      v.get [] = some (.fin r) ∧ r < 0 ∧ ((∀ t ∈ y, 0 ≤ t) → r ∉ y) := by
  have hne : y ≠ [] := by obtain ⟨u, hu, -⟩ := hdiff; exact List.ne_nil_of_mem hu
  obtain ⟨i, hi, p, v, hmin, hinc, -, -, -, -, -, hv⟩ := C100_incumbent_partial cfg W X y hlen hne (fun _ => hdiff) b w
  have hpos := ((labels_data cfg b y).2.1 hc hdiff).2
  have hall : ∀ t ∈ y, y[i] ≤ t := by
    intro t ht
    obtain ⟨k, hk, rfl⟩ := List.mem_iff_getElem.1 ht
    exact (hmin k hk).1
  have hlt : y[i] < avg y := by
    refine lt_of_le_of_ne (avg_le_of_min hne _ hall) fun he => ?_
    obtain ⟨u, hu, v, hv, huv⟩ := hdiff
    have := avg_eq_min hne _ hall he.symm
    exact huv ((this u hu).trans (this v hv).symm)
  have hr : (y[i] - avg y) / Real.sqrt (var y) < 0 := div_neg_of_neg_of_pos (by linarith) (Real.sqrt_pos.2 hpos)
  exact ⟨p, v, _, hinc, hv hc, hr, fun h0 hm => absurd (h0 _ hm) (by linarith)⟩

/-! ## C101 -/

/-- A sequence of `update` calls, whatever their outcomes. -/
noncomputable def updates (cfg : Cfg) (W : World D ω H C) : List (Rows (Fin D) × List Fl) → Bnn D → ω → Bnn D × ω
  | [], b, w => (b, w)
  | (X, y) :: l, b, w => updates cfg W l (update .withBase cfg W (.matrix X) y b w).2.1 (update .withBase cfg W (.matrix X) y b w).2.2

theorem updates_data (cfg : Cfg) (hx : cfg.normalizeInput = false) (hy : cfg.normalizeOutput = false) (W : World D ω H C)
    (l : List (Rows (Fin D) × List Fl)) : ∀ (b : Bnn D) (w : ω) (X0 : Rows (Fin D)) (y0 : List Fl), b.data = some (X0, y0) →
    (updates cfg W l b w).1.data = some (X0 ++ (l.map (·.1)).flatten, y0 ++ (l.map (·.2)).flatten) := by
  induction l with
  | nil => intro b w X0 y0 h; simp [updates, h]
  | cons p l ih =>
    intro b w X0 y0 h
    obtain ⟨X, y⟩ := p
    rw [updates, ih _ _ (X0 ++ X) (y0 ++ y)]
    · simp [List.append_assoc]
    · simp only [update, lookup_withBase, h, train_data, normalizedX, normalizedY, hx, hy, Bool.false_eq_true, if_false]

/-- **C101** (partial: the property fails for the class itself, see `C101_missing`, and for normalized data, see `C101_violated`)  For a
class that derives from `BaseModel` too: without normalization, after `train(X0, y0)` and any
number of `update` calls — succeeding or not — the next `update(X, y)` is exactly `train` on all the data in order. -/
theorem C101_update_partial (cfg : Cfg) (hx : cfg.normalizeInput = false) (hy : cfg.normalizeOutput = false) (W : World D ω H C)
    (X0 : Rows (Fin D)) (y0 : List Fl) (b : Bnn D) (w : ω) (l : List (Rows (Fin D) × List Fl)) (X : Rows (Fin D)) (y : List Fl) :
    let r := train cfg W (.matrix X0) y0 b w
    let s := updates cfg W l r.2.1 r.2.2
    update .withBase cfg W (.matrix X) y s.1 s.2
      = train cfg W (.matrix ((X0 :: l.map (·.1) ++ [X]).flatten)) ((y0 :: l.map (·.2) ++ [y]).flatten) s.1 s.2 := by
  intro r s
  have h0 : r.2.1.data = some (X0, y0) := by
    simp only [r, train_data, normalizedX, normalizedY, hx, hy, Bool.false_eq_true, if_false]
  have := updates_data cfg hx hy W l r.2.1 r.2.2 X0 y0 h0
  simp only [update, lookup_withBase, s, this]
  simp [List.append_assoc]

/-- **C101** fails: `BayesianNeuralNetwork` has no method `update`; the call raises `AttributeError`, and neither the network nor anything
else changes. -/
theorem C101_missing (cfg : Cfg) (W : World D ω H C) (X : Input D) (y : List Fl) (b : Bnn D) (w : ω) :
    update .plain cfg W X y b w = (.error .attribute, b, w) := rfl

/-- **C101** With the methods of `BaseModel`: before any training `update` raises `AttributeError`; an array that is no matrix is rejected.  Nothing changes then. -/
theorem C101_rejected (cfg : Cfg) (W : World D ω H C) (X : Input D) (y : List Fl) (b : Bnn D) (w : ω) :
    (b.data = none → update .withBase cfg W X y b w = (.error .attribute, b, w)) ∧
    (b.data ≠ none → update .withBase cfg W .other y b w = (.error (.value "concatenate"), b, w)) := by
  constructor
  · intro h; simp [update, lookup_withBase, h]
  · intro h
    obtain ⟨d, hd⟩ := Option.ne_none_iff_exists'.1 h
    simp [update, lookup_withBase, hd]

/-- Statistics of the input do not survive a normalizing `train` call. -/
theorem train_forgets (cfg : Cfg) (hx : cfg.normalizeInput = true) (hy : cfg.normalizeOutput = true) (W : World D ω H C)
    (rows : Rows (Fin D)) (y : List Fl) (b : Bnn D) (w : ω) (xs : Option ((Fin D → Fl) × (Fin D → Fl))) (ys : Option (Fl × Fl)) :
    train cfg W (.matrix rows) y { b with xStats := xs, yStats := ys } w = train cfg W (.matrix rows) y b w := by
  rw [train_rest, train_rest]
  simp only [normalizedX, normalizedY, hx, hy, if_true]

/-- **C101** fails: with normalization (the default) a network that was trained on `(X0, y0)` and then updated with `(X1, y1)` is in
exactly the same state as one trained on the old data in other units (multiplied and shifted) and then updated with the same new data:
how the old data lie relative to the new data plays no role. -/
theorem C101_violated (cfg : Cfg) (hx : cfg.normalizeInput = true) (hy : cfg.normalizeOutput = true) (W : World D ω H C)
    (X : List (Fin D → ℝ)) (y : List ℝ) (hX : X ≠ []) (hy0 : y ≠ []) (a b : Fin D → ℝ) (ha : ∀ j, 0 < a j) (c d : ℝ)
    (hc : 0 < c) (bn : Bnn D) (w : ω) (X1 : Rows (Fin D)) (y1 : List Fl) :
    let r := train cfg W (.matrix (lift X)) (y.map .fin) bn w
    let r' := train cfg W (.matrix (lift (inUnits a b X))) (y.map fun v => .fin (c * v + d)) bn w
    update .withBase cfg W (.matrix X1) y1 r'.2.1 r'.2.2 = update .withBase cfg W (.matrix X1) y1 r.2.1 r.2.2 := by
  intro r r'
  obtain ⟨q, m, s, my, sy, h1, h2⟩ := train_inUnits cfg hx hy W X y hX hy0 a b ha c d hc bn w
  have hd : ∃ p, q.2.1.data = some p := by
    have := train_data cfg W (lift X) (y.map .fin) bn w
    rw [h1] at this
    exact ⟨_, this⟩
  obtain ⟨⟨X0, y0⟩, hd⟩ := hd
  have hu : ∀ xs ys, update .withBase cfg W (.matrix X1) y1 { q.2.1 with xStats := xs, yStats := ys } q.2.2
      = train cfg W (.matrix (X0 ++ X1)) (y0 ++ y1) { q.2.1 with xStats := xs, yStats := ys } q.2.2 := by
    intro xs ys
    unfold update
    simp only [lookup_withBase, hd]
  simp only [r, r', h1, h2]
  rw [hu, hu]
  exact (train_forgets cfg hx hy W _ _ q.2.1 _ _ _).trans (train_forgets cfg hx hy W _ _ q.2.1 _ _ _).symm

/-- **C101** fails: with normalized inputs the mean an updated network uses for a column is the sum of the new data divided by the number
of all points; it is the mean of all the data only if the old data had mean zero. -/
theorem C101_violated_mean (cfg : Cfg) (hx : cfg.normalizeInput = true) (W : World D ω H C)
    (X X1 : List (Fin D → ℝ)) (y y1 : List Fl) (j : Fin D) (hj : NonConstant X j) (b : Bnn D) (w : ω) :
    let r := train cfg W (.matrix (lift X)) y b w
    ∃ m s : Fin D → Fl, (update .withBase cfg W (.matrix (lift X1)) y1 r.2.1 r.2.2).2.1.xStats = some (m, s) ∧
      m j = .fin ((col X1 j).sum / (X.length + X1.length)) ∧
      (m j = .fin (avg (col (X ++ X1) j)) ↔ (col X j).sum = 0) := by
  intro r
  have hne := BaseModel.nonConstant_ne_nil hj
  have hd := train_data cfg W (lift X) y b w
  obtain ⟨c, m, s, hc, -, -, -, -, -, hcc, ha, -⟩ := BaseModel.C53_normalize X j hj
  have hX0 : (normalizedX cfg b (lift X)).1 = (BaseModel.zeroMeanUnitVarNormalization (lift X) none none).1 := by
    simp only [normalizedX, hx, if_true]
  have hp : (0 : ℝ) < X.length := by exact_mod_cast List.length_pos_iff.2 hne
  have hc0 : c.sum = 0 := by
    rw [avg, div_eq_zero_iff] at ha
    rcases ha with h | h
    · exact h
    · rw [hcc] at h; simp [col] at h; exact absurd h hne
  have hcl : c.length = X.length := by rw [hcc]; simp [col]
  have hmean : meanAxis0 ((normalizedX cfg b (lift X)).1 ++ lift X1) j = .fin ((col X1 j).sum / (X.length + X1.length)) := by
    rw [hX0, meanAxis0, BaseModel.column, List.map_append]
    rw [show List.map (fun r => r j) (BaseModel.zeroMeanUnitVarNormalization (lift X) none none).1 = c.map .fin from hc,
      show List.map (fun r => r j) (lift X1) = (col X1 j).map .fin from BaseModel.column_lift X1 j, ← List.map_append, Fl.mean_map_fin]
    · simp [hc0, hcl, col]
    · intro h
      have := congrArg List.length h
      simp [hcl] at this
      exact hne this.1
  refine ⟨meanAxis0 ((normalizedX cfg b (lift X)).1 ++ lift X1), stdAxis0 ((normalizedX cfg b (lift X)).1 ++ lift X1), ?_, hmean, ?_⟩
  · simp only [r, update, lookup_withBase, hd]
    rw [train_rest, (trainRest_xStats _ _ _ _ _ _).1]
    have : ∀ (b0 : Bnn D) y, (normalizedY cfg b0 y).2.xStats = b0.xStats := fun b0 y => by simp
    rw [this]
    simp only [normalizedX, hx, if_true, BaseModel.zeroMeanUnitVarNormalization, Option.getD_none]
  · rw [hmean, Fl.fin_inj, avg]
    have hq : (0 : ℝ) < X.length + X1.length := by positivity
    simp only [col, List.map_append, List.sum_append, List.length_append, List.length_map, Nat.cast_add]
    rw [div_left_inj' hq.ne']
    constructor <;> intro h <;> linarith

/-- The hypotheses are met: points 10 and 12, then a new point 100: the updated network subtracts 100/3 instead of 122/3. -/
example (w : Nat) : ∃ m s : Fin 1 → Fl,
    (update .withBase ⟨2, 10, 3, 2, true, true⟩ demo (.matrix (lift [fun _ => 100])) [.fin 3]
      (train ⟨2, 10, 3, 2, true, true⟩ demo (.matrix (lift [fun _ => 10, fun _ => 12])) [.fin 1, .fin 2] {} w).2.1
      (train ⟨2, 10, 3, 2, true, true⟩ demo (.matrix (lift [fun _ => 10, fun _ => 12])) [.fin 1, .fin 2] {} w).2.2).2.1.xStats
        = some (m, s) ∧ m 0 = .fin (100 / 3) := by
  obtain ⟨m, s, h1, h2, -⟩ := C101_violated_mean ⟨2, 10, 3, 2, true, true⟩ rfl demo [fun _ => 10, fun _ => 12] [fun _ => 100]
    [.fin 1, .fin 2] [.fin 3] 0 ⟨_, List.mem_cons_self, _, List.mem_cons_of_mem _ List.mem_cons_self, by norm_num⟩ {} w
  refine ⟨m, s, h1, ?_⟩
  rw [h2, Fl.fin_inj]
  norm_num [col]

/-- The incumbent of labels 5, 3, 4 is the second point, and with normalized labels the returned value is negative. -/
example (w : Nat) : ∃ (p v : Tensor Fl) (r : ℝ),
    getIncumbent .withBase (train ⟨2, 10, 3, 2, true, true⟩ demo (.matrix (lift [fun _ => 10, fun _ => 12, fun _ => 14]))
      ([5, 3, 4].map .fin) {} w).2.1 = .ok (p, v) ∧ v.get [] = some (.fin r) ∧ r < 0 ∧ r ∉ [(5 : ℝ), 3, 4] := by
  obtain ⟨p, v, r, h1, h2, h3, h4⟩ := C100_violated ⟨2, 10, 3, 2, true, true⟩ rfl demo [fun _ => 10, fun _ => 12, fun _ => 14] [5, 3, 4]
    rfl ⟨5, by simp, 3, by simp, by norm_num⟩ {} w
  exact ⟨p, v, r, h1, h2, h3, h4 (by norm_num)⟩

end PySGMCMC.BNN
