import Verif.Props.BNNPredict

/-!
# C85: normalization makes the network independent of the units of the data
-/

namespace PySGMCMC.BNN
open BaseModel (Rows unstandardize standardize meanAxis0 stdAxis0 column lift col)
open Spec

variable {D : Nat} {ω H C : Type}

/-! ## Arithmetic -/

theorem infOf_mul_pos {a : ℝ} (ha : 0 < a) (t : ℝ) : Fl.infOf (a * t) = Fl.infOf t := by
  have h1 : 0 < a * t ↔ 0 < t := by constructor <;> intro h <;> nlinarith [mul_pos ha ha]
  have h2 : a * t < 0 ↔ t < 0 := by constructor <;> intro h <;> nlinarith [mul_pos ha ha]
  simp only [Fl.infOf, h1, h2]

theorem standardize_scale {a : ℝ} (ha : 0 < a) (b x m s : ℝ) :
    standardize (.fin (a * x + b)) (.fin (a * m + b)) (.fin (a * s)) = standardize (.fin x) (.fin m) (.fin s) := by
  unfold standardize
  rw [Fl.sub_fin, Fl.sub_fin, Fl.div_fin', Fl.div_fin', show a * x + b - (a * m + b) = a * (x - m) by ring]
  by_cases hs : s = 0
  · simp [hs, infOf_mul_pos ha]
  · rw [if_neg (mul_ne_zero ha.ne' hs), if_neg hs, mul_div_mul_left _ _ ha.ne']

theorem unstandardize_scale {c : ℝ} (hc : 0 < c) (d m s : ℝ) (v : Fl) :
    unstandardize v (.fin (c * m + d)) (.fin (c * s)) = .fin c * unstandardize v (.fin m) (.fin s) + .fin d := by
  unfold unstandardize
  cases v with
  | nan => simp
  | fin r => simp only [Fl.mul_fin, Fl.add_fin, Fl.fin_inj]; ring
  | pinf =>
    show Fl.infOf (c * s) + _ = Fl.fin c * (Fl.infOf s + _) + _
    rw [infOf_mul_pos hc]
    have hcp : Fl.fin c * Fl.pinf = .pinf := by show Fl.infOf c = _; simp [Fl.infOf, hc]
    have hcn : Fl.fin c * Fl.ninf = .ninf := by
      show Fl.infOf (-c) = _
      rw [Fl.infOf, if_neg (by linarith), if_pos (by linarith)]
    have hp : ∀ x : ℝ, Fl.pinf + Fl.fin x = .pinf := fun _ => rfl
    have hn : ∀ x : ℝ, Fl.ninf + Fl.fin x = .ninf := fun _ => rfl
    unfold Fl.infOf
    split_ifs
    · simp only [hp, hcp]
    · simp only [hn, hcn]
    · simp
  | ninf =>
    show Fl.infOf (-(c * s)) + _ = Fl.fin c * (Fl.infOf (-s) + _) + _
    rw [← mul_neg, infOf_mul_pos hc]
    have hcp : Fl.fin c * Fl.pinf = .pinf := by show Fl.infOf c = _; simp [Fl.infOf, hc]
    have hcn : Fl.fin c * Fl.ninf = .ninf := by
      show Fl.infOf (-c) = _
      rw [Fl.infOf, if_neg (by linarith), if_pos (by linarith)]
    have hp : ∀ x : ℝ, Fl.pinf + Fl.fin x = .pinf := fun _ => rfl
    have hn : ∀ x : ℝ, Fl.ninf + Fl.fin x = .ninf := fun _ => rfl
    unfold Fl.infOf
    split_ifs
    · simp only [hp, hcp]
    · simp only [hn, hcn]
    · simp

theorem var_scale {c : ℝ} (hc : 0 < c) (s : ℝ) (v : Fl) :
    v * Fl.npow (.fin (c * s)) 2 = .fin (c ^ 2) * (v * Fl.npow (.fin s) 2) := by
  have hc2 : 0 < c ^ 2 := by positivity
  rw [Fl.npow_fin, Fl.npow_fin, mul_pow]
  have hcp : Fl.fin (c ^ 2) * Fl.pinf = .pinf := by show Fl.infOf (c ^ 2) = _; simp [Fl.infOf, hc2]
  have hcn : Fl.fin (c ^ 2) * Fl.ninf = .ninf := by
    show Fl.infOf (-(c ^ 2)) = _
    rw [Fl.infOf, if_neg (by linarith), if_pos (by linarith)]
  cases v with
  | nan => simp
  | fin r => simp only [Fl.mul_fin, Fl.fin_inj]; ring
  | pinf =>
    show Fl.infOf (c ^ 2 * s ^ 2) = Fl.fin (c ^ 2) * Fl.infOf (s ^ 2)
    rw [infOf_mul_pos hc2]
    unfold Fl.infOf
    split_ifs <;> simp [hcp, hcn]
  | ninf =>
    show Fl.infOf (-(c ^ 2 * s ^ 2)) = Fl.fin (c ^ 2) * Fl.infOf (-(s ^ 2))
    rw [← mul_neg, infOf_mul_pos hc2]
    unfold Fl.infOf
    split_ifs <;> simp [hcp, hcn]

/-! ## Normalization of affinely transformed data -/

/-- The same data in other units: column `j` is multiplied by `a j` and shifted by `b j`. -/
def inUnits {ι : Type} (a b : ι → ℝ) (X : List (ι → ℝ)) : List (ι → ℝ) := X.map fun r j => a j * r j + b j

theorem col_inUnits {ι : Type} (a b : ι → ℝ) (X : List (ι → ℝ)) (j : ι) :
    col (inUnits a b X) j = (col X j).map fun x => a j * x + b j := by
  simp [col, inUnits, Function.comp_def]

theorem normalization_inUnits {ι : Type} (a b : ι → ℝ) (ha : ∀ j, 0 < a j) (X : List (ι → ℝ)) (hne : X ≠ []) :
    ∃ m s : ι → ℝ, BaseModel.zeroMeanUnitVarNormalization (lift X) none none
        = ((lift X).map fun row j => standardize (row j) (.fin (m j)) (.fin (s j)), (fun j => .fin (m j)), fun j => .fin (s j)) ∧
      BaseModel.zeroMeanUnitVarNormalization (lift (inUnits a b X)) none none
        = ((lift X).map fun row j => standardize (row j) (.fin (m j)) (.fin (s j)), (fun j => .fin (a j * m j + b j)),
          fun j => .fin (a j * s j)) := by
  have hne' : inUnits a b X ≠ [] := by simpa [inUnits] using hne
  have hcol : ∀ j, col X j ≠ [] := fun j => by simpa [col] using hne
  refine ⟨fun j => avg (col X j), fun j => Real.sqrt (var (col X j)), ?_, ?_⟩
  · simp only [BaseModel.zeroMeanUnitVarNormalization, Option.getD_none, BaseModel.meanAxis0_lift hne, BaseModel.stdAxis0_lift hne]
    rw [show meanAxis0 (lift X) = fun j => .fin (avg (col X j)) from funext fun j => BaseModel.meanAxis0_lift hne j,
      show stdAxis0 (lift X) = fun j => .fin (Real.sqrt (var (col X j))) from funext fun j => BaseModel.stdAxis0_lift hne j]
  · have hm : meanAxis0 (lift (inUnits a b X)) = fun j => .fin (a j * avg (col X j) + b j) := by
      funext j
      rw [BaseModel.meanAxis0_lift hne', col_inUnits, avg_affine (hcol j)]
    have hs : stdAxis0 (lift (inUnits a b X)) = fun j => .fin (a j * Real.sqrt (var (col X j))) := by
      funext j
      rw [BaseModel.stdAxis0_lift hne', col_inUnits, var_affine (hcol j), Real.sqrt_mul (sq_nonneg _), Real.sqrt_sq (ha j).le]
    simp only [BaseModel.zeroMeanUnitVarNormalization, Option.getD_none, hm, hs, Prod.mk.injEq, and_true]
    rw [lift, lift, inUnits, List.map_map, List.map_map, List.map_map]
    apply List.map_congr_left
    intro r _
    funext j
    simp only [Function.comp]
    exact standardize_scale (ha j) _ _ _ _

/-! ## Training -/

/-- `train` after the normalization. -/
noncomputable def trainRest (cfg : Cfg) (W : World D ω H C) (X' : Rows (Fin D)) (y' : List Fl) (b : Bnn D) (w : ω) :
    Except PyErr Unit × Bnn D × ω :=
  let ph := b.nPlaceholders
  let b := { b with data := some (X', y'), xMinibatch := some ph, nPlaceholders := ph + 1 }
  match W.getNet ph w with
  | (.error e, w) => (.error e, b, w)
  | (.ok net, w) =>
    let b := { b with netOutput := some net }
    match W.costGraph net w with
    | (.error e, w) => (.error e, b, w)
    | (.ok (), w) =>
      let params := W.trainable w
      let b := { b with networkParams := params, samples := [] }
      let d : TrainData D := ⟨X', y', ph, params⟩
      match W.buildSampler d w with
      | (.error e, w) => (.error e, b, w)
      | (.ok h, w) =>
        match trainLoop cfg (W.next h) (W.logError d) cfg.nIters 0 [] w with
        | (.error e, samples, w) => (.error e, { b with samples := samples }, w)
        | (.ok (), samples, w) => (.ok (), { b with samples := samples, isTrained := true }, w)

theorem train_rest (cfg : Cfg) (W : World D ω H C) (rows : Rows (Fin D)) (y : List Fl) (b : Bnn D) (w : ω) :
    train cfg W (.matrix rows) y b w = trainRest cfg W (normalizedX cfg b rows).1
      (normalizedY cfg (normalizedX cfg b rows).2 y).1 (normalizedY cfg (normalizedX cfg b rows).2 y).2 w := rfl

/-- After the normalization the statistics are carried along unchanged. -/
theorem trainRest_stats (cfg : Cfg) (W : World D ω H C) (X' : Rows (Fin D)) (y' : List Fl) (b : Bnn D) (w : ω)
    (xs : Option ((Fin D → Fl) × (Fin D → Fl))) (ys : Option (Fl × Fl)) :
    trainRest cfg W X' y' { b with xStats := xs, yStats := ys } w
      = ((trainRest cfg W X' y' b w).1, { (trainRest cfg W X' y' b w).2.1 with xStats := xs, yStats := ys },
        (trainRest cfg W X' y' b w).2.2) := by
  unfold trainRest
  simp only
  split
  · simp_all
  · split
    · simp_all
    · split
      · simp_all
      · split <;> simp_all

theorem trainRest_xStats (cfg : Cfg) (W : World D ω H C) (X' : Rows (Fin D)) (y' : List Fl) (b : Bnn D) (w : ω) :
    (trainRest cfg W X' y' b w).2.1.xStats = b.xStats ∧ (trainRest cfg W X' y' b w).2.1.yStats = b.yStats := by
  have := trainRest_stats cfg W X' y' b w b.xStats b.yStats
  rw [show ({ b with xStats := b.xStats, yStats := b.yStats } : Bnn D) = b from rfl] at this
  have h1 := congrArg (fun r => r.2.1.xStats) this
  have h2 := congrArg (fun r => r.2.1.yStats) this
  exact ⟨h1, h2⟩

/-! ## Prediction -/

/-- A prediction in other units: `v ↦ c v + d` for means, `v ↦ c² v` for variances. -/
noncomputable def Prediction.inUnits (c d : ℝ) {N : Nat} : Prediction N → Prediction N
  | .summary m v => .summary (fun i => .fin c * m i + .fin d) (fun i => .fin (c ^ 2) * v i)
  | .scalars m v => .scalars (.fin c * m + .fin d) (.fin (c ^ 2) * v)
  | .individual f n => .individual (f.map fun row i => .fin c * row i + .fin d) (n.map fun row i => .fin (c ^ 2) * row i)

theorem summarize_inUnits {c : ℝ} (hc : 0 < c) (d m s : ℝ) (ind : Bool) {N : Nat} (outs : List (Fin N → Fl × Fl)) :
    summarize ind (some (.fin (c * m + d), .fin (c * s))) outs = (summarize ind (some (.fin m, .fin s)) outs).inUnits c d := by
  have hm : ∀ v, unnormalizeMean (some (.fin (c * m + d), .fin (c * s))) v
      = .fin c * unnormalizeMean (some (.fin m, .fin s)) v + .fin d := fun v => unstandardize_scale hc d m s v
  have hv : ∀ v, unnormalizeVar (some (.fin (c * m + d), .fin (c * s))) v
      = .fin (c ^ 2) * unnormalizeVar (some (.fin m, .fin s)) v := fun v => var_scale hc s v
  unfold summarize
  cases ind with
  | true => simp only [if_true, Prediction.inUnits, hm, hv, List.map_map, Function.comp_def]
  | false =>
    simp only [Bool.false_eq_true, if_false]
    cases outs with
    | nil => simp only [List.map_nil, Prediction.inUnits, hm, hv]
    | cons o os => simp only [List.map_cons, Prediction.inUnits, hm, hv]

/-- Predictions after training in other units. -/
theorem predict_inUnits (cfg : Cfg) (hx : cfg.normalizeInput = true) (hy : cfg.normalizeOutput = true) (W : World D ω H C)
    (bn : Bnn D) (w : ω) (a b m s : Fin D → ℝ) (ha : ∀ j, 0 < a j) (c d my sy : ℝ) (hc : 0 < c)
    (hxs : bn.xStats = some (fun j => .fin (m j), fun j => .fin (s j))) (hys : bn.yStats = some (.fin my, .fin sy))
    {N : Nat} (X : Fin N → Fin D → ℝ) (ind : Bool) :
    predict cfg W { bn with
        xStats := some (fun j => .fin (a j * m j + b j), fun j => .fin (a j * s j))
        yStats := some (.fin (c * my + d), .fin (c * sy)) } w (fun i j => .fin (a j * X i j + b j)) ind
      = (predict cfg W bn w (fun i j => .fin (X i j)) ind).map (Prediction.inUnits c d) := by
  unfold predict
  cases ht : bn.isTrained with
  | false => rfl
  | true =>
  show (do
      let X' ← testInput cfg { bn with
        xStats := some (fun j => .fin (a j * m j + b j), fun j => .fin (a j * s j))
        yStats := some (.fin (c * my + d), .fin (c * sy)) } (fun (i : Fin N) j => .fin (a j * X i j + b j))
      let outs ← bn.samples.mapM fun sm => computeNetworkOutput W bn w sm X'
      let stats ← labelStats cfg { bn with
        xStats := some (fun j => .fin (a j * m j + b j), fun j => .fin (a j * s j))
        yStats := some (.fin (c * my + d), .fin (c * sy)) }
      Except.ok (summarize ind stats outs)) = _
  simp only [Bool.not_true, Bool.false_eq_true, if_false]
  have hX : testInput cfg { bn with
        xStats := some (fun j => .fin (a j * m j + b j), fun j => .fin (a j * s j))
        yStats := some (.fin (c * my + d), .fin (c * sy)) } (fun (i : Fin N) j => .fin (a j * X i j + b j))
      = testInput cfg bn (fun (i : Fin N) j => .fin (X i j)) := by
    simp only [testInput, hx, if_true, hxs]
    congr 1
    funext i j
    exact standardize_scale (ha j) _ _ _ _
  rw [hX]
  simp only [testInput, hx, if_true, hxs, bind, Except.bind, labelStats, hy, hys]
  cases (bn.samples.mapM fun sm => computeNetworkOutput W bn w sm fun i j => standardize (.fin (X i j)) (.fin (m j)) (.fin (s j))) with
  | error e => rfl
  | ok outs => simp only [Except.map, summarize_inUnits hc]

/-- Training in other units differs in the stored statistics only. -/
theorem train_inUnits (cfg : Cfg) (hx : cfg.normalizeInput = true) (hy : cfg.normalizeOutput = true) (W : World D ω H C)
    (X : List (Fin D → ℝ)) (y : List ℝ) (hX : X ≠ []) (hy0 : y ≠ []) (a b : Fin D → ℝ) (ha : ∀ j, 0 < a j) (c d : ℝ)
    (hc : 0 < c) (bn : Bnn D) (w : ω) :
    ∃ (r : Except PyErr Unit × Bnn D × ω) (m s : Fin D → ℝ) (my sy : ℝ),
      train cfg W (.matrix (lift X)) (y.map .fin) bn w = (r.1, { r.2.1 with
        xStats := some (fun j => .fin (m j), fun j => .fin (s j))
        yStats := some (.fin my, .fin sy) }, r.2.2) ∧
      train cfg W (.matrix (lift (inUnits a b X))) (y.map fun v => .fin (c * v + d)) bn w = (r.1, { r.2.1 with
        xStats := some (fun j => .fin (a j * m j + b j), fun j => .fin (a j * s j))
        yStats := some (.fin (c * my + d), .fin (c * sy)) }, r.2.2) := by
  obtain ⟨m, s, h1, h2⟩ := normalization_inUnits a b ha X hX
  obtain ⟨my, sy, h3, h4⟩ := normalization_inUnits (fun _ : Unit => c) (fun _ => d) (fun _ => hc) (y.map fun v _ => v)
    (by simpa using hy0)
  have hly : (y.map Fl.fin).map (fun v (_ : Unit) => v) = lift (y.map fun v _ => v) := by
    simp [lift, Function.comp_def]
  have hly' : (y.map fun v => Fl.fin (c * v + d)).map (fun v (_ : Unit) => v)
      = lift (inUnits (fun _ => c) (fun _ => d) (y.map fun v _ => v)) := by
    simp [lift, inUnits, Function.comp_def]
  have e1 : normalizedX cfg bn (lift X)
      = ((lift X).map fun row j => standardize (row j) (.fin (m j)) (.fin (s j)),
        { bn with xStats := some (fun j => .fin (m j), fun j => .fin (s j)) }) := by
    simp only [normalizedX, hx, if_true, h1]
  have e2 : normalizedX cfg bn (lift (inUnits a b X))
      = ((lift X).map fun row j => standardize (row j) (.fin (m j)) (.fin (s j)),
        { bn with xStats := some (fun j => .fin (a j * m j + b j), fun j => .fin (a j * s j)) }) := by
    simp only [normalizedX, hx, if_true, h2]
  have e3 : ∀ b0 : Bnn D, normalizedY cfg b0 (y.map .fin)
      = ((lift (y.map fun v (_ : Unit) => v)).map (fun row => standardize (row ()) (.fin (my ())) (.fin (sy ()))),
        { b0 with yStats := some (.fin (my ()), .fin (sy ())) }) := by
    intro b0
    simp only [normalizedY, hy, if_true, hly, h3, List.map_map, Function.comp_def]
  have e4 : ∀ b0 : Bnn D, normalizedY cfg b0 (y.map fun v => .fin (c * v + d))
      = ((lift (y.map fun v (_ : Unit) => v)).map (fun row => standardize (row ()) (.fin (my ())) (.fin (sy ()))),
        { b0 with yStats := some (.fin (c * my () + d), .fin (c * sy ())) }) := by
    intro b0
    simp only [normalizedY, hy, if_true, hly', h4, List.map_map, Function.comp_def]
  set Xn : Rows (Fin D) := (lift X).map fun row j => standardize (row j) (.fin (m j)) (.fin (s j))
  set yn : List Fl := (lift (y.map fun v (_ : Unit) => v)).map (fun row => standardize (row ()) (.fin (my ())) (.fin (sy ())))
  have t1 : train cfg W (.matrix (lift X)) (y.map .fin) bn w = trainRest cfg W Xn yn { bn with
      xStats := some (fun j => .fin (m j), fun j => .fin (s j))
      yStats := some (.fin (my ()), .fin (sy ())) } w := by
    rw [train_rest, e1]; simp only [e3]
  have t2 : train cfg W (.matrix (lift (inUnits a b X))) (y.map fun v => .fin (c * v + d)) bn w = trainRest cfg W Xn yn { bn with
      xStats := some (fun j => .fin (a j * m j + b j), fun j => .fin (a j * s j))
      yStats := some (.fin (c * my () + d), .fin (c * sy ())) } w := by
    rw [train_rest, e2]; simp only [e4]
  have r1 := trainRest_stats cfg W Xn yn bn w (some (fun j => .fin (m j), fun j => .fin (s j)))
    (some (.fin (my ()), .fin (sy ())))
  have r2 := trainRest_stats cfg W Xn yn bn w (some (fun j => .fin (a j * m j + b j), fun j => .fin (a j * s j)))
    (some (.fin (c * my () + d), .fin (c * sy ())))
  exact ⟨trainRest cfg W Xn yn bn w, m, s, my (), sy (), t1.trans r1, t2.trans r2⟩

/-- **C85** With normalized inputs and outputs, a change of the units of the data (every input column and the labels get
multiplied by a positive number and shifted) changes nothing but the units of the predictions: training takes the same
course (same result, same effect on the outside world, same networks), and every later prediction on test points in the new
units is the old prediction in the new units. -/
theorem C85_units (cfg : Cfg) (hx : cfg.normalizeInput = true) (hy : cfg.normalizeOutput = true) (W : World D ω H C)
    (X : List (Fin D → ℝ)) (y : List ℝ) (hX : X ≠ []) (hy0 : y ≠ []) (a b : Fin D → ℝ) (ha : ∀ j, 0 < a j) (c d : ℝ)
    (hc : 0 < c) (bn : Bnn D) (w : ω) :
    (train cfg W (.matrix (lift (inUnits a b X))) (y.map fun v => .fin (c * v + d)) bn w).1
      = (train cfg W (.matrix (lift X)) (y.map .fin) bn w).1 ∧
    (train cfg W (.matrix (lift (inUnits a b X))) (y.map fun v => .fin (c * v + d)) bn w).2.2
      = (train cfg W (.matrix (lift X)) (y.map .fin) bn w).2.2 ∧
    (train cfg W (.matrix (lift (inUnits a b X))) (y.map fun v => .fin (c * v + d)) bn w).2.1.samples
      = (train cfg W (.matrix (lift X)) (y.map .fin) bn w).2.1.samples ∧
    ∀ (w' : ω) (N : Nat) (T : Fin N → Fin D → ℝ) (ind : Bool),
      predict cfg W (train cfg W (.matrix (lift (inUnits a b X))) (y.map fun v => .fin (c * v + d)) bn w).2.1 w'
          (fun i j => .fin (a j * T i j + b j)) ind
        = (predict cfg W (train cfg W (.matrix (lift X)) (y.map .fin) bn w).2.1 w' (fun i j => .fin (T i j)) ind).map
          (Prediction.inUnits c d) := by
  obtain ⟨r, m, s, my, sy, h1, h2⟩ := train_inUnits cfg hx hy W X y hX hy0 a b ha c d hc bn w
  rw [h1, h2]
  refine ⟨rfl, rfl, rfl, ?_⟩
  intro w' N T ind
  exact predict_inUnits cfg hx hy W { r.2.1 with
      xStats := some (fun j => .fin (m j), fun j => .fin (s j))
      yStats := some (.fin my, .fin sy) } w' a b m s ha c d my sy hc rfl rfl T ind

/-- **C85** The networks are trained on data with mean 0 and variance 1 whatever the units, and the test points are
transformed with the same numbers as the training data: if a test point is the `k`-th training point, the networks see
exactly what they saw in training. -/
theorem C85_same_transform (cfg : Cfg) (hx : cfg.normalizeInput = true) (W : World D ω H C)
    (X : List (Fin D → ℝ)) (y : List Fl) (bn : Bnn D) (w : ω) (k : Nat) (hk : k < X.length) :
    ∃ T', testInput cfg (train cfg W (.matrix (lift X)) y bn w).2.1 (fun (_ : Fin 1) j => .fin (X[k] j)) = .ok T' ∧
      (normalizedX cfg bn (lift X)).1[k]? = some (T' 0) := by
  have hs : (train cfg W (.matrix (lift X)) y bn w).2.1.xStats
      = some (meanAxis0 (lift X), stdAxis0 (lift X)) := by
    rw [train_rest, (trainRest_xStats _ _ _ _ _ _).1]
    have : ∀ b0 : Bnn D, (normalizedY cfg b0 y).2.xStats = b0.xStats := fun b0 => by simp
    rw [this]
    simp only [normalizedX, hx, if_true, BaseModel.zeroMeanUnitVarNormalization, Option.getD_none]
  refine ⟨_, by simp only [testInput, hx, if_true, hs]; rfl, ?_⟩
  simp only [normalizedX, hx, if_true, BaseModel.zeroMeanUnitVarNormalization, Option.getD_none, List.getElem?_map, lift,
    List.getElem?_eq_getElem hk, Option.map_some]

/-- The hypotheses are met: lengths in millimetres instead of metres, temperatures in Fahrenheit instead of Celsius. -/
example (w : Nat) (T : Fin 3 → Fin 1 → ℝ) (w' : Nat) :
    predict ⟨2, 10, 3, 2, true, true⟩ demo
        (train ⟨2, 10, 3, 2, true, true⟩ demo (.matrix (lift (inUnits (fun _ => 1000) (fun _ => 0) [fun _ => 1, fun _ => 2])))
          ([20, 25].map fun v : ℝ => .fin (1.8 * v + 32)) {} w).2.1 w' (fun i j => .fin (1000 * T i j + 0)) false
      = (predict ⟨2, 10, 3, 2, true, true⟩ demo
        (train ⟨2, 10, 3, 2, true, true⟩ demo (.matrix (lift [fun _ => 1, fun _ => 2])) ([20, 25].map Fl.fin) {} w).2.1 w'
          (fun i j => .fin (T i j)) false).map (Prediction.inUnits 1.8 32) :=
  (C85_units _ rfl rfl demo _ _ (by simp) (by simp) _ _ (by norm_num) _ _ (by norm_num) _ _).2.2.2 _ _ _ _

end PySGMCMC.BNN
