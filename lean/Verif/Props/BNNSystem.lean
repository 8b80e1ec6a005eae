import Verif.Model.BNNSystem
import Verif.Props.BNNPredict
import Verif.Props.BNNCost
import Verif.Props.BNNSampler
import Verif.Props.FullChain
import Verif.Props.DataBatches
import Mathlib.Analysis.SpecialFunctions.Trigonometric.DerivHyp

/-!
# C95: training and prediction of a Bayesian neural network, end to end
-/

namespace PySGMCMC.BNNSystem
open BNN Chain SamplerBase Spec
open BaseModel (lift NonConstant col)

variable {R : RNG} {D n : Nat} {shape : Fin n → List Nat}

/-! ## What training and prediction should compute -/

noncomputable section

/-- An input row as the network sees it. -/
def stdRow (cfg : Cfg) (X : List (Fin D → ℝ)) (x : Fin D → ℝ) : Fin D → ℝ :=
  fun j => if cfg.normalizeInput then (x j - avg (col X j)) / √(var (col X j)) else x j

/-- A label as the network sees it. -/
def stdLabel (cfg : Cfg) (y : List ℝ) (v : ℝ) : ℝ := if cfg.normalizeOutput then (v - avg y) / √(var y) else v

/-- A predicted label in the units of the labels. -/
def unstdLabel (cfg : Cfg) (y : List ℝ) (v : ℝ) : ℝ := if cfg.normalizeOutput then v * √(var y) + avg y else v

/-- A predicted variance in the units of the labels. -/
def unstdVar (cfg : Cfg) (y : List ℝ) (v : ℝ) : ℝ := if cfg.normalizeOutput then v * var y else v

/-- Values of all variables. -/
abbrev Params {n : Nat} (shape : Fin n → List Nat) := ∀ i, Pos (sizes shape) i → ℝ

/-- The cost of a network `f` with parameters `θ` on a minibatch of `N` datapoints. -/
def netCost (f : Params shape → (Fin D → ℝ) → ℝ × ℝ) (batchSize N : Nat) (rows : List (Fin D → ℝ)) (ys : List ℝ) (θ : Params shape) : ℝ :=
  (List.zipWith (fun x y => (y - (f θ x).1) ^ 2 / (2 * (Real.exp (f θ x).2 + 1e-16)) + (f θ x).2 / 2) rows ys).sum / batchSize
  - avg (rows.map fun x => -((f θ x).2 - Real.log 1e-6) ^ 2 / (2 * 0.01 + 3e-16) - Real.log 0.01 / 2) / N
  + (1 / 2 * ((∑ i, ∑ p, θ i p ^ 2) / ((∑ i, (sizes shape i : ℝ)) + 3e-16))) / N

/-- `θ` with element `p` of variable `i` replaced by `t`. -/
def setElem (θ : Params shape) (i : Fin n) (p : Pos (sizes shape) i) (t : ℝ) : Params shape :=
  Function.update θ i (Function.update (θ i) p t)

/-- The iterations whose networks are stored. -/
def storedIdx (cfg : Cfg) : List Nat :=
  ((List.range cfg.nIters).filter fun i => decide (cfg.burnIn < i) && decide (i % cfg.sampleSteps = 0)).take cfg.nNets

/-- Where the chain starts: for every variable the first or the second value drawn. -/
def startPoint (S : Setup R D shape) (θ₁ θ₀ : Params shape) : Params shape := fun i => if S.paramFirst i then θ₀ i else θ₁ i

/-- Values in the model. -/
def finP (θ : Params shape) : ∀ i, Pos (sizes shape) i → Fl := fun i p => .fin (θ i p)

/-- The network maps real numbers to real numbers, and TensorFlow's gradient is the gradient of the cost. -/
structure Regular (S : Setup R D shape) where
  f : Params shape → (Fin D → ℝ) → ℝ × ℝ
  net_eq : ∀ θ x, S.net (finP θ) (fun j => .fin (x j)) = (.fin (f θ x).1, .fin (f θ x).2)
  γ : Nat → List (Fin D → ℝ) → List ℝ → Params shape → Params shape
  grad_eq : ∀ N rows ys θ, 0 < N → rows ≠ [] → rows.length = ys.length → S.grad N (lift rows) (ys.map .fin) (finP θ) = finP (γ N rows ys θ)
  isGrad : ∀ N rows ys θ i p, 0 < N → rows ≠ [] → rows.length = ys.length →
    HasDerivAt (fun t => (S.cost N (lift rows) (ys.map .fin) (finP (setElem θ i p t))).val) (γ N rows ys θ i p) (θ i p)

end

/-! ## Parts -/

theorem work_eq (S : Setup R D shape) (θ₁ θ₀ : Params shape) (h1 : S.first = finP θ₁) (h0 : S.start = finP θ₀) :
    S.work = finP (startPoint S θ₁ θ₀) := by
  funext i p
  unfold Setup.work finP startPoint
  rw [h1, h0]
  split <;> rfl

theorem decode_encode (rows : List (Fin D → Fl)) : decodeRows D rows.length (encodeRows rows) = rows := by
  unfold decodeRows encodeRows
  induction rows with
  | nil => rfl
  | cons r rows ih =>
    rw [List.length_cons, List.range_succ_eq_map, List.map_cons, List.map_map]
    congr 1
    · funext j
      rw [List.flatMap_cons, List.getD_eq_getElem?_getD, List.getElem?_append_left (by simp)]
      simp
    · conv_rhs => rw [← ih]
      apply List.map_congr_left
      intro k _
      funext j
      simp only [Function.comp]
      rw [List.flatMap_cons, List.getD_eq_getElem?_getD, List.getD_eq_getElem?_getD,
        List.getElem?_append_right (by simp only [List.length_ofFn, Nat.succ_mul]; omega)]
      congr 2
      simp only [List.length_ofFn, Nat.succ_mul]; omega

theorem sum_flatMap {α : Type} (l : List α) (g : α → List ℝ) : (l.flatMap g).sum = (l.map fun a => (g a).sum).sum := by
  induction l with
  | nil => rfl
  | cons a l ih => simp [ih]

theorem weights_ofFn (θ : Params shape) :
    (weights (List.ofFn fun i => (⟨shape i, List.ofFn (θ i)⟩ : Tensor ℝ))).length = ∑ i, sizes shape i
    ∧ ((weights (List.ofFn fun i => (⟨shape i, List.ofFn (θ i)⟩ : Tensor ℝ))).map (· ^ 2)).sum = ∑ i, ∑ p, θ i p ^ 2 := by
  unfold weights
  constructor
  · rw [List.length_flatMap, List.map_ofFn, List.sum_ofFn]
    simp
  · rw [List.map_flatMap, sum_flatMap, List.map_ofFn, List.sum_ofFn]
    apply Finset.sum_congr rfl
    intro i _
    simp [List.map_ofFn, List.sum_ofFn]

theorem cost_fin (S : Setup R D shape) (f : Params shape → (Fin D → ℝ) → ℝ × ℝ)
    (hf : ∀ θ x, S.net (finP θ) (fun j => .fin (x j)) = (.fin (f θ x).1, .fin (f θ x).2)) (hb : 0 < S.batchSize) (N : Nat) (hN : 0 < N)
    (rows : List (Fin D → ℝ)) (ys : List ℝ) (hne : rows ≠ []) (hl : rows.length = ys.length) (θ : Params shape) :
    S.cost N (lift rows) (ys.map .fin) (finP θ) = .fin (netCost f S.batchSize N rows ys θ) := by
  have h0 : 0 < ys.length := by rw [← hl]; exact List.length_pos_iff.2 hne
  have hout : (lift rows).map (S.net (finP θ)) = liftOut (rows.map (f θ)) := by
    unfold lift liftOut
    rw [List.map_map, List.map_map]
    apply List.map_congr_left
    intro x _
    exact hf θ x
  have hlp := logVariancePrior_fin ((rows.map (f θ)).map fun o => [o.2]) (by simpa using hne) 1e-6 0.01 (by norm_num) (by norm_num)
  rw [List.map_map] at hlp
  obtain ⟨wp, hwp, hwp2, -, -⟩ := C65_weight_prior 1 (List.ofFn fun i => (⟨shape i, List.ofFn (θ i)⟩ : Tensor ℝ)) (by
    intro p hp
    obtain ⟨i, rfl⟩ := (List.mem_ofFn' _ _).1 hp
    simp)
  have hten : liftTensors (List.ofFn fun i => (⟨shape i, List.ofFn (θ i)⟩ : Tensor ℝ))
      = List.ofFn fun i => ⟨shape i, flat (finP θ i)⟩ := by
    unfold liftTensors
    rw [List.map_ofFn]
    congr 1
    funext i
    simp [flat, List.map_ofFn, Function.comp_def]
    rfl
  rw [hten, show (Fl.fin 1) = 1 from Fl.ofNat_one.symm] at hwp
  have := C64_violated (rows.map (f θ)) ys S.batchSize N (List.ofFn fun i => ⟨shape i, flat (finP θ i)⟩) (by simpa using hl) h0 hb hN _ wp
    hlp hwp
  unfold Setup.cost
  rw [hout, this]
  congr 1
  have hys : (ys.length : ℝ) ≠ 0 := by positivity
  have hbs : (S.batchSize : ℝ) ≠ 0 := by positivity
  rw [(weights_ofFn θ).1, (weights_ofFn θ).2] at hwp2
  have hz : (List.zipWith gaussCost (rows.map (f θ)) ys)
      = List.zipWith (fun x y => (y - (f θ x).1) ^ 2 / (2 * (Real.exp (f θ x).2 + 1e-16)) + (f θ x).2 / 2) rows ys := by
    rw [List.zipWith_map_left]; rfl
  have hlen : (List.zipWith (fun x y => (y - (f θ x).1) ^ 2 / (2 * (Real.exp (f θ x).2 + 1e-16)) + (f θ x).2 / 2) rows ys).length = ys.length := by
    rw [List.length_zipWith, hl, Nat.min_self]
  rw [hz, hwp2]
  unfold netCost
  rw [show avg (List.zipWith (fun x y => (y - (f θ x).1) ^ 2 / (2 * (Real.exp (f θ x).2 + 1e-16)) + (f θ x).2 / 2) rows ys)
    = (List.zipWith (fun x y => (y - (f θ x).1) ^ 2 / (2 * (Real.exp (f θ x).2 + 1e-16)) + (f θ x).2 / 2) rows ys).sum / ys.length by
      unfold avg; rw [hlen]]
  simp only [List.map_map, Function.comp_def, List.map_cons, List.map_nil, List.sum_cons, List.sum_nil, add_zero]
  push_cast
  field_simp
  ring

/-- Normalized inputs. -/
theorem normalizedX_real (cfg : Cfg) (b : Bnn D) (X : List (Fin D → ℝ)) (hne : X ≠ [])
    (hX : cfg.normalizeInput = true → ∀ j, NonConstant X j) :
    (normalizedX cfg b (lift X)).1 = lift (X.map (stdRow cfg X)) ∧
    (cfg.normalizeInput = true → (normalizedX cfg b (lift X)).2.xStats
      = some (fun j => .fin (avg (col X j)), fun j => .fin (√(var (col X j))))) := by
  unfold normalizedX
  by_cases h : cfg.normalizeInput = true
  · rw [if_pos h]
    refine ⟨?_, fun _ => ?_⟩
    · show (BaseModel.zeroMeanUnitVarNormalization (lift X) none none).1 = _
      unfold BaseModel.zeroMeanUnitVarNormalization lift
      simp only [List.map_map]
      apply List.map_congr_left
      intro x _
      funext j
      have hs := Real.sqrt_pos.2 (BaseModel.nonConstant_var (hX h j))
      simp only [Function.comp, BaseModel.standardize, Option.getD_none, stdRow, h, if_true]
      rw [show (X.map fun (r : Fin D → ℝ) j => Fl.fin (r j)) = lift X from rfl, BaseModel.meanAxis0_lift hne, BaseModel.stdAxis0_lift hne,
        Fl.sub_fin, Fl.div_fin hs.ne']
    · show some ((BaseModel.zeroMeanUnitVarNormalization (lift X) none none).2.1,
        (BaseModel.zeroMeanUnitVarNormalization (lift X) none none).2.2) = _
      congr 2
      · funext j; exact BaseModel.meanAxis0_lift hne j
      · funext j; exact BaseModel.stdAxis0_lift hne j
  · rw [if_neg h]
    refine ⟨?_, fun h' => absurd h' h⟩
    show lift X = lift (X.map (stdRow cfg X))
    have : stdRow cfg X = id := by funext x j; simp [stdRow, h]
    rw [this, List.map_id]

/-- Normalized labels. -/
theorem normalizedY_real (cfg : Cfg) (b : Bnn D) (y : List ℝ) (hne : y ≠ [])
    (hy : cfg.normalizeOutput = true → ∃ v ∈ y, ∃ v' ∈ y, v ≠ v') :
    (normalizedY cfg b (y.map .fin)).1 = (y.map (stdLabel cfg y)).map .fin ∧
    (cfg.normalizeOutput = true → (normalizedY cfg b (y.map .fin)).2.yStats = some (.fin (avg y), .fin (√(var y)))) := by
  unfold normalizedY
  have hlift : ((y.map Fl.fin).map fun v (_ : Unit) => v) = lift (y.map fun v (_ : Unit) => v) := by
    unfold lift; simp [Function.comp_def]
  have hcol : col (y.map fun v (_ : Unit) => v) () = y := by unfold col; simp [Function.comp_def]
  have hne' : (y.map fun v (_ : Unit) => v) ≠ [] := by simpa using hne
  by_cases h : cfg.normalizeOutput = true
  · rw [if_pos h]
    obtain ⟨v, hv, v', hv', hd⟩ := hy h
    have hnc : NonConstant (y.map fun v (_ : Unit) => v) () :=
      ⟨fun _ => v, List.mem_map.2 ⟨v, hv, rfl⟩, fun _ => v', List.mem_map.2 ⟨v', hv', rfl⟩, hd⟩
    have hs := Real.sqrt_pos.2 (BaseModel.nonConstant_var hnc)
    have hm := BaseModel.meanAxis0_lift hne' ()
    have hsd := BaseModel.stdAxis0_lift hne' ()
    rw [hcol] at hs hm hsd
    rw [hlift]
    refine ⟨?_, fun _ => ?_⟩
    · show ((BaseModel.zeroMeanUnitVarNormalization (lift (y.map fun v (_ : Unit) => v)) none none).1.map fun row => row ()) = _
      unfold BaseModel.zeroMeanUnitVarNormalization
      simp only [Option.getD_none, List.map_map, Function.comp_def, hm, hsd]
      unfold lift
      simp only [List.map_map]
      apply List.map_congr_left
      intro v _
      simp only [Function.comp, BaseModel.standardize, stdLabel, h, if_true, Fl.sub_fin]
      rw [Fl.div_fin hs.ne']
    · show some ((BaseModel.zeroMeanUnitVarNormalization (lift (y.map fun v (_ : Unit) => v)) none none).2.1 (),
        (BaseModel.zeroMeanUnitVarNormalization (lift (y.map fun v (_ : Unit) => v)) none none).2.2 ()) = _
      congr 2
  · rw [if_neg h]
    refine ⟨?_, fun h' => absurd h' h⟩
    simp only [List.map_map]
    apply List.map_congr_left
    intro v _
    simp [stdLabel, h]

/-! ### The sampler -/

theorem argOf_of_mem {α : Type} {args : List (String × Sampling.Arg α)} (hnd : (args.map (·.1)).Nodup) {k : String} {v : Sampling.Arg α}
    (h : (k, v) ∈ args) : Sampling.argOf args k = some v := by
  unfold Sampling.argOf
  induction args with
  | nil => simp at h
  | cons p args ih =>
    rw [List.map_cons, List.nodup_cons] at hnd
    rw [List.find?_cons]
    rcases List.mem_cons.1 h with rfl | h
    · simp
    · have : (p.1 == k) = false := by
        simp only [beq_eq_false_iff_ne, ne_eq]
        rintro rfl
        exact hnd.1 (List.mem_map.2 ⟨_, h, rfl⟩)
      rw [this]
      exact ih hnd.2 h

/-- `mdecay` as given to the constructor, or 0.05. -/
def MdecayIs (S : Setup R D shape) (alpha : ℝ) : Prop :=
  Sampling.lookup (BNNSampler.samplerKwargs S.kwargs) "mdecay" = some (.num (.fin alpha))
  ∨ Sampling.lookup (BNNSampler.samplerKwargs S.kwargs) "mdecay" = none ∧ alpha = 0.05

theorem build_eq (S : Setup R D shape) (cfg : Cfg) (d : TrainData D) (alpha : ℝ) (hα : MdecayIs S alpha)
    (hkw : ∀ p ∈ BNNSampler.samplerKwargs S.kwargs, p.1 ∈ (Sampling.callerParams .sghmc).map Sampling.Param.name) :
    S.build cfg d = .ok ⟨⟨d.placeholder, d.X.length, .fin d.X.length, .fin alpha, cfg.burnIn⟩,
      init (some (.fresh, ⟨⟨d.X, d.y⟩, S.glob⟩)) S.schedule
        ⟨SGHMC.State.start S.work S.start, S.schedule.initialValue.getD 0 .nan, 0⟩⟩ := by
  obtain ⟨args, h1, h2, h3, h4⟩ := BNNSampler.C86_arguments .SGHMC rfl S.kwargs [] (S.own cfg d) hkw
  have hsch := BNNSampler.C87_schedule_partial S.kwargs [] (S.own cfg d) _ args h1
  have hnd : (args.map (·.1)).Nodup := by rw [h2]; decide
  have h1' : (BNNSampler.setUp (.member .SGHMC) (S.own cfg d) (BNNSampler.samplerKwargs S.kwargs)).2 = .ok (.sghmc, args) := h1
  have e1 : Sampling.argOf args "scale_grad" = some (.given (.int d.X.length)) := argOf_of_mem hnd (h3 _ _ rfl)
  have e2 : Sampling.argOf args "burn_in_steps" = some (.given (.int cfg.burnIn)) := argOf_of_mem hnd (h3 _ _ rfl)
  have e3 : (Sampling.superArgs .sghmc args).batchGenerator = some (.given (.batches (.fresh, ⟨⟨d.X, d.y⟩, S.glob⟩))) :=
    argOf_of_mem hnd (h3 _ _ rfl)
  have e4 : (Sampling.superArgs .sghmc args).stepsizeSchedule = some (.given (.schedule S.schedule)) := hsch
  have e5 : (Sampling.argOf args "mdecay").bind asNumber = some (.fin alpha) := by
    have hm := h4 ⟨"mdecay", some (.float 5 100)⟩ (by decide) rfl
    rcases hα with h | ⟨h, rfl⟩
    · rw [argOf_of_mem hnd (hm.1 _ h)]; rfl
    · obtain ⟨dv, hd1, hd2⟩ := hm.2 h
      obtain rfl : Sampling.Default.float 5 100 = dv := Option.some.inj hd1
      rw [argOf_of_mem hnd hd2]
      show some (Fl.fin _) = _
      norm_num
  unfold Setup.build
  simp only [h1', e1, e2, e3, e4, e5, Option.bind_some, asNumber, asInt, asSchedule, asBatches]
  norm_cast

/-- A batch generator over real data of `train`. -/
theorem batches_spec (S : Setup R D shape) (hb : 0 < S.batchSize) (hs : SeedOk S.seed) (X : List (Fin D → Fl)) (y : List Fl)
    (hl : y.length = X.length) :
    ∃ (st : Nat → Batches R D) (start : Nat → Nat), st 0 = (.fresh, ⟨⟨X, y⟩, S.glob⟩) ∧
      ∀ k, start k + min S.batchSize X.length ≤ X.length ∧ (st k).2.data = ⟨X, y⟩ ∧
        DataBatches.nextBatch R ⟨.int S.batchSize, S.seed⟩ (st k)
          = (.ok ⟨⟨start k, start k + min S.batchSize X.length⟩, ⟨start k, start k + min S.batchSize X.length⟩⟩, st (k + 1)) := by
  set a : DataBatches.Args := ⟨.int S.batchSize, S.seed⟩ with ha
  set st : Nat → Batches R D := fun k => (calls (DataBatches.nextBatch R a) k (.fresh, ⟨⟨X, y⟩, S.glob⟩)).2 with hst
  have hpos : PosInt a.batchSize S.batchSize := ⟨hb, .inl rfl⟩
  have inv : ∀ k, (st k).2.data = ⟨X, y⟩ ∧ DataBatches.GenOk R X.length (min S.batchSize X.length) (st k).1 := by
    intro k
    refine calls_inv (DataBatches.nextBatch R a)
      (fun s => s.2.data = ⟨X, y⟩ ∧ DataBatches.GenOk R X.length (min S.batchSize X.length) s.1) ?_ k _ ⟨rfl, trivial⟩
    rintro ⟨g, v⟩ ⟨h1, h2⟩
    simp only at h1 h2
    obtain ⟨start, rng', glob', h3, h4⟩ := DataBatches.nextBatch_spec R a g v S.batchSize X.length hpos hs (by rw [h1]) (by rw [h1]; exact hl) h2
    rw [h4]
    exact ⟨h1, rfl, rfl⟩
  have step : ∀ k, ∃ start, start + min S.batchSize X.length ≤ X.length ∧ DataBatches.nextBatch R a (st k)
      = (.ok ⟨⟨start, start + min S.batchSize X.length⟩, ⟨start, start + min S.batchSize X.length⟩⟩, st (k + 1)) := by
    intro k
    obtain ⟨h1, h2⟩ := inv k
    have hnext : (DataBatches.nextBatch R a (st k)).2 = st (k + 1) := (calls_succ'_snd _ _ _).symm
    rcases hk : st k with ⟨g, v⟩
    rw [hk] at h1 h2 hnext
    obtain ⟨start, rng', glob', h3, h4⟩ := DataBatches.nextBatch_spec R a g v S.batchSize X.length hpos hs (by rw [h1]) (by rw [h1]; exact hl) h2
    refine ⟨start, h3, ?_⟩
    rw [← hnext, h4]
  choose start h using step
  exact ⟨st, start, rfl, fun k => ⟨(h k).1, (inv k).1, (h k).2⟩⟩

/-- Calls of the network's sampler are calls of the sampler object. -/
theorem calls_next (S : Setup R D shape) (c : Conf) (N : Nat) (s : Sampler (S.env c)) :
    calls S.next N (some ⟨c, s⟩)
      = ((calls (asIter (burnInNext (S.env c) c.burnIn n)) N s).1.map (Except.map fun p => (attach shape p.1, p.2)),
        some ⟨c, (calls (asIter (burnInNext (S.env c) c.burnIn n)) N s).2⟩) := by
  induction N generalizing s with
  | zero => rfl
  | succ N ih =>
    rw [calls_succ, calls_succ, List.map_cons]
    have h : S.next (some ⟨c, s⟩) = ((asIter (burnInNext (S.env c) c.burnIn n) s).1.map fun p => (attach shape p.1, p.2),
      some ⟨c, (asIter (burnInNext (S.env c) c.burnIn n) s).2⟩) := rfl
    rw [h]
    simp only
    rw [ih]

/-- The outcomes of the calls `train` makes. -/
theorem calls_world (S : Setup R D shape) (cfg : Cfg) (c : Conf) (N : Nat) (s : Sampler (S.env c)) (o : Nat → Out Arr) (cost : Nat → Fl)
    (h : (calls (asIter (burnInNext (S.env c) c.burnIn n)) N s).1 = (List.range N).map fun k => .ok (o k, cost k)) :
    (calls ((S.world cfg).next ()) N (some ⟨c, s⟩)).1 = (List.range N).map fun k => .ok (attach shape (o k), cost k) := by
  show (calls S.next N (some ⟨c, s⟩)).1 = _
  rw [calls_next, h, List.map_map]
  rfl

theorem attach_many (f : Fin n → Arr) : attach shape (.many (List.ofFn f)) = .many (List.ofFn fun i => ⟨shape i, f i⟩) := by
  simp only [attach]
  congr 1
  apply List.ext_getElem
  · simp
  · intro k h1 h2
    simp

theorem attach_unravel (hn : n ≠ 1) (f : Fin n → Arr) :
    attach shape (unravel (List.ofFn f)) = .many (List.ofFn fun i => ⟨shape i, f i⟩) := by
  rw [← attach_many]
  congr 1
  have hl : (List.ofFn f).length = n := List.length_ofFn
  generalize List.ofFn f = l at hl
  match l, hl with
  | [], _ => rfl
  | [v], h => exact absurd h.symm hn
  | _ :: _ :: _, _ => rfl

theorem zipIdx_range_map {α : Type} (g : Nat → α) (N : Nat) : ((List.range N).map g).zipIdx = (List.range N).map fun k => (g k, k) := by
  apply List.ext_getElem
  · simp
  · intro k h1 h2
    simp

theorem mapM_ok_of {α β : Type} (f : α → Except PyErr β) (g : α → β) (l : List α) (h : ∀ a ∈ l, f a = .ok (g a)) :
    l.mapM f = .ok (l.map g) := by
  induction l with
  | nil => rfl
  | cons a l ih =>
    rw [List.mapM_cons, h a (by simp), ih fun b hb => h b (by simp [hb])]
    rfl

theorem read_window {α : Type} (s b : Nat) (l : List α) : (DataBatches.View.mk s (s + b)).read l = (l.drop s).take b := by
  unfold DataBatches.View.read
  simp

/-- The configuration of the sampler of a `train` call. -/
noncomputable def confOf (rows : List (Fin D → Fl)) (alpha : ℝ) (B : Nat) : Conf := ⟨0, rows.length, .fin rows.length, .fin alpha, B⟩

/-- The sampler right after construction. -/
noncomputable def startOf (S : Setup R D shape) (X : List (Fin D → Fl)) (y : List Fl) (c : Conf) : Sampler (S.env c) :=
  init (some (.fresh, ⟨⟨X, y⟩, S.glob⟩)) S.schedule
    ⟨SGHMC.State.start S.work S.start, S.schedule.initialValue.getD 0 .nan, 0⟩

theorem onBatch_eq {β : Type} (rows : List (Fin D → Fl)) (labels : List Fl) (hl : rows.length = labels.length) (dflt : β)
    (g : List (Fin D → Fl) → List Fl → β) (dict : Dict Key Arr) (hx : dict (xKey 0) = some (encodeRows rows)) (hy : dict (yKey 0) = some labels) :
    onBatch D 0 dflt g dict = g rows labels := by
  unfold onBatch
  rw [hx, hy]
  simp only
  rw [← hl, decode_encode]

/-- The gradient and the cost of a sampler with the placeholders number 0. -/
noncomputable def gradOn (S : Setup R D shape) (N : Nat) : Dict Key Arr → (∀ i, Pos (sizes shape) i → Fl) → ∀ i, Pos (sizes shape) i → Fl :=
  onBatch D 0 (fun _ _ _ => .nan) fun rows ys => S.grad N rows ys

noncomputable def costOn (S : Setup R D shape) (N : Nat) : Dict Key Arr → (∀ i, Pos (sizes shape) i → Fl) → Fl :=
  onBatch D 0 (fun _ => .nan) fun rows ys => S.cost N rows ys

/-- What a sampler of the network is fed in `N` calls: windows of the data and a constant stepsize.  The gradients it evaluates are those of the
cost on these windows. -/
theorem script_run (S : Setup R D shape) (Rg : Regular S) (hb : 0 < S.batchSize) (hs : SeedOk S.seed) (eps : ℝ)
    (X : List (Fin D → ℝ)) (y : List ℝ) (hX : X ≠ []) (hl : y.length = X.length) (N : Nat) :
    ∃ (Sc : Script (S.feeder 0) N) (Pb : Problem Sc (gradOn S X.length) (costOn S X.length) (userOk D 0)) (start : Nat → Nat),
      Sc.batch 0 = some (.fresh, ⟨⟨lift X, y.map .fin⟩, S.glob⟩) ∧ Sc.sched 0 = ⟨[.fin eps]⟩ ∧ Sc.eps = (fun _ => eps)
      ∧ ∀ k, start k + min S.batchSize X.length ≤ X.length ∧ ∀ θ i p,
        HasDerivAt (fun t => netCost Rg.f S.batchSize X.length ((X.drop (start k)).take (min S.batchSize X.length))
            ((y.drop (start k)).take (min S.batchSize X.length)) (setElem θ i p t)) (Pb.γ k θ i p) (θ i p) := by
  have hN : 0 < X.length := List.length_pos_iff.2 hX
  obtain ⟨st, start, hst0, hst⟩ := batches_spec S hb hs (lift X) (y.map .fin) (by simp [lift, hl])
  rw [show (lift X).length = X.length by simp [lift]] at hst
  set b := min S.batchSize X.length with hbdef
  have hb0 : 0 < b := by rw [hbdef]; exact lt_min hb hN
  set rows : Nat → List (Fin D → ℝ) := fun k => (X.drop (start k)).take b with hrows
  set labels : Nat → List ℝ := fun k => (y.drop (start k)).take b with hlabels
  have hrl : ∀ k, (rows k).length = b := by
    intro k; have := (hst k).1; simp only [hrows, List.length_take, List.length_drop]; omega
  have hll : ∀ k, (labels k).length = b := by
    intro k; have := (hst k).1; simp only [hlabels, List.length_take, List.length_drop, hl]; omega
  set data : Nat → Dict Key Arr := fun k => Dict.ofList [(xKey 0, encodeRows (lift (rows k))), (yKey 0, (labels k).map .fin)] with hdata
  have hdx : ∀ k, data k (xKey 0) = some (encodeRows (lift (rows k))) := by
    intro k; simp [hdata, Dict.ofList, Dict.empty, xKey, yKey]
  have hdy : ∀ k, data k (yKey 0) = some ((labels k).map .fin) := by
    intro k; simp [hdata, Dict.ofList, Dict.empty, xKey, yKey]
  have hbatch : ∀ k, (S.feeder 0).batchNext (st k) = (.ok (data k), st (k + 1)) := by
    intro k
    show (match DataBatches.nextBatch R ⟨.int S.batchSize, S.seed⟩ (st k) with
      | (.ok b, g') => ((Except.ok (Dict.ofList [(xKey 0, encodeRows (b.xs.read g'.2.data.x)), (yKey 0, b.ys.read g'.2.data.y)])
          : Except PyErr (Dict Key Arr)), g')
      | (.error e, g') => (Except.error e, g')) = _
    rw [(hst k).2.2]
    simp only [(hst (k + 1)).2.1, read_window]
    simp only [hdata, hrows, hlabels, lift, List.map_drop, List.map_take]
  let Sc : Script (S.feeder 0) N :=
    { batch := fun k => some (st k)
      data := data
      sched := fun _ => ⟨[.fin eps]⟩
      eps := fun _ => eps
      supplies := fun k _ => by
        show (S.feeder 0).batchNext (st k) = _ ∧ some (st (k + 1)) = _
        rw [hbatch k]; exact ⟨rfl, rfl⟩
      stepsize := fun k _ => ⟨⟨[.fin eps]⟩, rfl, fun _ _ => rfl⟩
      user := fun k _ key hkey => by
        have e1 : key ≠ yKey 0 := hkey _
        have e2 : key ≠ xKey 0 := hkey _
        simp only [hdata, Dict.ofList, Dict.empty]
        rw [if_neg e1, if_neg e2] }
  have hlr : ∀ k, (lift (rows k)).length = ((labels k).map Fl.fin).length := by intro k; simp [lift, hrl, hll]
  let Pb : Problem Sc (gradOn S X.length) (costOn S X.length) (userOk D 0) :=
    { γ := fun k => Rg.γ X.length (rows k) (labels k)
      c := fun k θ => S.cost X.length (lift (rows k)) ((labels k).map .fin) (finP θ)
      grad_eq := fun k _ dict h θ i p => by
        have := onBatch_eq (lift (rows k)) ((labels k).map .fin) (hlr k) (fun _ _ _ => Fl.nan)
          (fun rows ys => S.grad X.length rows ys) dict ((h _).trans (hdx k)) ((h _).trans (hdy k))
        have h2 := congrFun (congrFun (congrFun this (finP θ)) i) p
        rw [Rg.grad_eq _ _ _ _ hN (List.ne_nil_of_length_pos (by rw [hrl]; exact hb0)) (by rw [hrl, hll])] at h2
        exact h2
      cost_eq := fun k _ dict h θ => by
        have := onBatch_eq (lift (rows k)) ((labels k).map .fin) (hlr k) (fun _ => Fl.nan)
          (fun rows ys => S.cost X.length rows ys) dict ((h _).trans (hdx k)) ((h _).trans (hdy k))
        exact congrFun this (finP θ)
      accepts := fun k _ dict h =>
        onBatch_eq (lift (rows k)) ((labels k).map .fin) (hlr k) false (fun _ _ => true) dict ((h _).trans (hdx k)) ((h _).trans (hdy k)) }
  refine ⟨Sc, Pb, start, congrArg some hst0, rfl, rfl, fun k => ⟨(hst k).1, fun θ i p => ?_⟩⟩
  have hg := Rg.isGrad X.length (rows k) (labels k) θ i p hN
    (List.ne_nil_of_length_pos (by rw [hrl]; exact hb0)) (by rw [hrl, hll])
  have hfun : (fun t => (S.cost X.length (lift (rows k)) ((labels k).map .fin) (finP (setElem θ i p t))).val)
      = fun t => netCost Rg.f S.batchSize X.length (rows k) (labels k) (setElem θ i p t) := by
    funext t
    rw [cost_fin S Rg.f Rg.net_eq hb X.length hN (rows k) (labels k) (List.ne_nil_of_length_pos (by rw [hrl]; exact hb0))
      (by rw [hrl, hll])]
    rfl
  rw [hfun] at hg
  exact hg

/-- The run of the sampler. -/
theorem sampler_run (S : Setup R D shape) (Rg : Regular S) (hb : 0 < S.batchSize) (hs : SeedOk S.seed) (eps : ℝ)
    (heps : S.schedule = ⟨[.fin eps]⟩) (alpha : ℝ) (θ₁ θ₀ : Params shape) (hθ₁ : S.first = finP θ₁) (hθ : S.start = finP θ₀) (z : Nat → Params shape)
    (hz : ∀ k, S.normal k = finP (z k)) (X : List (Fin D → ℝ)) (y : List ℝ) (hX : X ≠ []) (hl : y.length = X.length) (B N : Nat) :
    ∃ (x : Nat → Params shape) (start : Nat → Nat) (cost : Nat → Fl),
      let θs : Nat → Params shape := fun k i p =>
        (sghmcChain alpha X.length B (fun _ => eps) (fun j => x j i p) (fun j => z j i p) (startPoint S θ₁ θ₀ i p) k).pos
      (calls (asIter (burnInNext (S.env (confOf (lift X) alpha B)) B n)) N (startOf S (lift X) (y.map .fin) (confOf (lift X) alpha B))).1
        = (List.range N).map (fun k : Nat =>
            let arrays := List.ofFn fun i => flat fun p => .fin (θs (k + 1) i p)
            .ok ((if (k : Int) < B then .many arrays else unravel arrays), cost k))
      ∧ ∀ k < N, start k + min S.batchSize X.length ≤ X.length ∧ ∀ i, ∃ isNew : Fin n → Bool, isNew i = false ∧ ∀ p,
        HasDerivAt (fun t => netCost Rg.f S.batchSize X.length ((X.drop (start k)).take (min S.batchSize X.length))
            ((y.drop (start k)).take (min S.batchSize X.length)) (setElem (mix isNew (θs (k + 1)) (before θ₀ θs k)) i p t))
          (x k i p) (mix isNew (θs (k + 1)) (before θ₀ θs k) i p) := by
  have hN : 0 < X.length := List.length_pos_iff.2 hX
  obtain ⟨Sc, Pb, start, hb0, hs0, he, hst⟩ := script_run S Rg hb hs eps X y hX hl N
  have hlen : (lift X).length = X.length := by simp [lift]
  set c : Conf := ⟨0, X.length, .fin X.length, .fin alpha, B⟩ with hc
  have hcc : confOf (lift X) alpha B = c := by unfold confOf; rw [hlen]
  rw [hcc]
  obtain ⟨x, cost, hcalls, hx⟩ := C99_sghmc_restart_partial Sc (S.graphWorld c) (userOk D 0) Pb alpha X.length rfl rfl
    (by exact_mod_cast hN) z
    (fun k i p => by show S.normal k i p = _; rw [hz k]; rfl) B (startPoint S θ₁ θ₀) θ₀ (S.schedule.initialValue.getD 0 .nan)
  rw [he] at hcalls hx
  refine ⟨x, start, cost, ?_⟩
  intro θs
  refine ⟨?_, fun k hk => ⟨(hst k).1, fun i => ?_⟩⟩
  · have hst0 : startOf S (lift X) (y.map .fin) c
        = init (E := S.env c) (Sc.batch 0) (Sc.sched 0)
          ⟨SGHMC.State.start (fun i p => .fin (startPoint S θ₁ θ₀ i p)) fun i p => .fin (θ₀ i p), S.schedule.initialValue.getD 0 .nan, 0⟩ := by
      rw [hb0, hs0]
      unfold startOf
      rw [work_eq S θ₁ θ₀ hθ₁ hθ, hθ, heps]
      rfl
    rw [hst0]
    exact hcalls
  · obtain ⟨isNew, hi, hxi⟩ := (hx k hk).1 i
    refine ⟨isNew, hi, fun p => ?_⟩
    rw [show x k i p = Pb.γ k (mix isNew (θs (k + 1)) (before θ₀ θs k)) i p from congrFun hxi p]
    exact (hst k).2 _ i p

theorem buildSampler_eq (S : Setup R D shape) (cfg : Cfg) (X : List (Fin D → Fl)) (y : List Fl) (ps : List Nat) (alpha : ℝ)
    (hα : MdecayIs S alpha)
    (hkw : ∀ p ∈ BNNSampler.samplerKwargs S.kwargs, p.1 ∈ (Sampling.callerParams .sghmc).map Sampling.Param.name) (w : S.Session) :
    (S.world cfg).buildSampler ⟨X, y, 0, ps⟩ w
      = (.ok (), some ⟨confOf X alpha cfg.burnIn, startOf S X y (confOf X alpha cfg.burnIn)⟩) := by
  have h : S.build cfg ⟨X, y, 0, ps⟩ = .ok ⟨confOf X alpha cfg.burnIn, startOf S X y (confOf X alpha cfg.burnIn)⟩ :=
    build_eq S cfg ⟨X, y, 0, ps⟩ alpha hα hkw
  unfold Setup.world
  simp only
  rw [h]

/-- A world whose networks are built by `net`, with `n` variables of the given shapes, in which logging does not fail. -/
structure WorldOf {ω C : Type} (W : World D ω Unit C) (shape : Fin n → List Nat)
    (net : (∀ i, Pos (sizes shape) i → Fl) → (Fin D → Fl) → Fl × Fl) : Prop where
  getNet : ∀ ph w, W.getNet ph w = (.ok ⟨ph, fun assign _ X i => net (fun v p => (assign v).data.getD p .nan) (X i)⟩, w)
  costGraph : ∀ nt w, W.costGraph nt w = (.ok (), w)
  trainable : ∀ w, W.trainable w = List.range n
  logError : ∀ d w, W.logError d w = .ok ()
  varShape : ∀ v (h : v < n), W.varShape v = shape ⟨v, h⟩

theorem world_of (S : Setup R D shape) (cfg : Cfg) : WorldOf (S.world cfg) shape S.net where
  getNet _ _ := rfl
  costGraph _ _ := rfl
  trainable _ := rfl
  logError _ _ := rfl
  varShape v h := dif_pos h

/-- What `train` leaves in the object. -/
theorem train_run {ω C : Type} (W : World D ω Unit C) (net : (∀ i, Pos (sizes shape) i → Fl) → (Fin D → Fl) → Fl × Fl) (hW : WorldOf W shape net)
    (cfg : Cfg) (hn : n ≠ 1) (hnets : 0 < cfg.nNets) (rows : BaseModel.Rows (Fin D)) (y : List Fl) (Xn : List (Fin D → Fl)) (yn : List Fl)
    (hX : (normalizedX cfg ({} : Bnn D) rows).1 = Xn) (hY : (normalizedY cfg ({} : Bnn D) y).1 = yn) (w0 w1 : ω)
    (hbuild : W.buildSampler ⟨Xn, yn, 0, List.range n⟩ w0 = (.ok (), w1)) (θs : Nat → Params shape) (cost : Nat → C)
    (hcalls : (calls (W.next ()) cfg.nIters w1).1
      = (List.range cfg.nIters).map (fun k : Nat =>
          let arrays := List.ofFn fun i => flat fun p => .fin (θs (k + 1) i p)
          .ok (attach shape (if (k : Int) < cfg.burnIn then .many arrays else unravel arrays), cost k))) :
    ∀ r, r = train cfg W (.matrix rows) y {} w0 →
    r.1 = .ok () ∧ r.2.1.isTrained = true
      ∧ r.2.1.samples = (storedIdx cfg).map (fun k => .many (List.ofFn fun i => ⟨shape i, List.ofFn fun p => .fin (θs (k + 1) i p)⟩))
      ∧ r.2.1.networkParams = List.range n ∧ r.2.1.xMinibatch = some 0
      ∧ r.2.1.netOutput = some ⟨0, fun assign _ X i => net (fun v p => (assign v).data.getD p .nan) (X i)⟩
      ∧ r.2.1.xStats = (normalizedX cfg ({} : Bnn D) rows).2.xStats ∧ r.2.1.yStats = (normalizedY cfg ({} : Bnn D) y).2.yStats := by
  intro r hr
  have hprep : Prepared cfg W rows y ({} : Bnn D) w0 ⟨Xn, yn, 0, List.range n⟩ () w1 := by
    refine ⟨_, w0, w0, hW.getNet _ _, hW.costGraph _ _, ?_, hbuild⟩
    rw [hX, hY, hW.trainable]
  set results : List (Sample × C) := (List.range cfg.nIters).map (fun k : Nat =>
    let arrays := List.ofFn fun i => flat fun p => .fin (θs (k + 1) i p)
    (attach shape (if (k : Int) < cfg.burnIn then .many arrays else unravel arrays), cost k)) with hresults
  have hrlen : results.length = cfg.nIters := by simp [hresults]
  have hres : (calls (W.next ()) results.length w1).1 = results.map .ok := by
    rw [hrlen, hcalls, hresults, List.map_map]
    rfl
  obtain ⟨h1, h2, h3⟩ := C58_collect cfg hnets W rows y {} w0 _ () _ hprep (hW.logError _) results hres (.inl hrlen)
  rw [← hr] at h1 h2 h3
  obtain ⟨b0, hb1, hb2, hb3, ⟨net', hb4⟩, hb5, hb6, htr⟩ := train_eq cfg W rows y {} w0 _ () _ hprep
  refine ⟨h1, h2, ?_, ?_⟩
  · rw [h3, hresults, zipIdx_range_map, List.filter_map, List.map_map, storedIdx, ← List.map_take]
    apply List.map_congr_left
    intro k hk
    have hk' := (List.mem_filter.1 (List.mem_of_mem_take hk)).2
    simp only [Function.comp, Bool.and_eq_true, decide_eq_true_eq] at hk'
    simp only [Function.comp]
    rw [if_neg (by omega), attach_unravel hn]
    rfl
  · have hnet : b0.netOutput = some ⟨0, fun assign _ X i => net (fun v p => (assign v).data.getD p .nan) (X i)⟩ := by
      obtain ⟨w1, hnet1⟩ := hb4
      rw [hW.getNet] at hnet1
      rw [hnet1.2, ← Except.ok.inj (congrArg Prod.fst hnet1.1)]
    rw [hr, htr]
    exact ⟨hb2, hb3, hnet, hb5, hb6⟩

/-- Predictions of an object with stored networks. -/
theorem predict_run {ω C : Type} (W : World D ω Unit C) (net : (∀ i, Pos (sizes shape) i → Fl) → (Fin D → Fl) → Fl × Fl)
    (hW : WorldOf W shape net) (f : Params shape → (Fin D → ℝ) → ℝ × ℝ)
    (hf : ∀ θ x, net (finP θ) (fun j => .fin (x j)) = (.fin (f θ x).1, .fin (f θ x).2)) (cfg : Cfg) (X : List (Fin D → ℝ)) (y : List ℝ)
    (hnx : cfg.normalizeInput = true → ∀ j, NonConstant X j)
    (θs : Nat → Params shape) (obj : Bnn D) (h2 : obj.isTrained = true)
    (hsamples : obj.samples = (storedIdx cfg).map (fun k => .many (List.ofFn fun i => ⟨shape i, List.ofFn fun p => .fin (θs (k + 1) i p)⟩)))
    (hps : obj.networkParams = List.range n) (hmb : obj.xMinibatch = some 0)
    (hnet : obj.netOutput = some ⟨0, fun assign _ X i => net (fun v p => (assign v).data.getD p .nan) (X i)⟩)
    (hxs : cfg.normalizeInput = true → obj.xStats = some ((fun j => .fin (avg (col X j))), fun j => .fin (√(var (col X j)))))
    (hys : cfg.normalizeOutput = true → obj.yStats = some (.fin (avg y), .fin (√(var y))))
    (w : ω) (M : Nat) (T : Fin M → Fin D → ℝ) :
    let out : Nat → Fin M → ℝ × ℝ := fun k i => f (θs (k + 1)) (stdRow cfg X (T i))
    predict cfg W obj w (fun i j => .fin (T i j)) true
      = .ok (.individual ((storedIdx cfg).map fun k i => .fin (unstdLabel cfg y (out k i).1))
          ((storedIdx cfg).map fun k i => .fin (unstdVar cfg y (Real.exp (out k i).2))))
    ∧ (storedIdx cfg ≠ [] → predict cfg W obj w (fun i j => .fin (T i j)) false
      = .ok (.summary (fun i => .fin (avg ((storedIdx cfg).map fun k => unstdLabel cfg y (out k i).1)))
          (fun i => .fin (var ((storedIdx cfg).map fun k => unstdLabel cfg y (out k i).1))))) := by
  intro out
  have htest : testInput cfg obj (fun i j => .fin (T i j)) = .ok fun (i : Fin M) j => Fl.fin (stdRow cfg X (T i) j) := by
    unfold testInput
    by_cases h : cfg.normalizeInput = true
    · rw [if_pos h, hxs h]
      simp only
      congr 1
      funext i j
      have hsd := Real.sqrt_pos.2 (BaseModel.nonConstant_var (hnx h j))
      simp only [BaseModel.standardize, Fl.sub_fin, stdRow, h, if_true]
      rw [Fl.div_fin hsd.ne']
    · rw [if_neg h]
      congr 1
      funext i j
      simp [stdRow, h]
  have hstats : labelStats cfg obj = .ok (if cfg.normalizeOutput then some (.fin (avg y), .fin (√(var y))) else none) := by
    unfold labelStats
    by_cases h : cfg.normalizeOutput = true
    · rw [if_pos h, if_pos h, hys h]
    · rw [if_neg h, if_neg h]
  have houts : (obj.samples.mapM fun s => computeNetworkOutput W obj w s fun (i : Fin M) j => Fl.fin (stdRow cfg X (T i) j))
      = .ok ((storedIdx cfg).map fun k i => (.fin (out k i).1, .fin (out k i).2)) := by
    rw [hsamples, List.mapM_map]
    refine mapM_ok_of _ _ _ fun k _ => ?_
    simp only [Function.comp]
    obtain ⟨assign, ha1, ha2, -⟩ := C67_stored_partial W obj w
      (List.ofFn fun i => (⟨shape i, List.ofFn fun p => .fin (θs (k + 1) i p)⟩ : Tensor Fl))
      (fun (i : Fin M) j => Fl.fin (stdRow cfg X (T i) j)) _ hnet (by rw [hmb]) (by rw [hps]; exact List.nodup_range)
      (by rw [hps]; simp) (by
        intro q v t hv ht
        rw [hps] at hv
        obtain ⟨hq, e⟩ := List.getElem?_eq_some_iff.1 hv
        rw [List.getElem_range] at e
        subst e
        have hq' : q < n := by simpa using hq
        rw [List.getElem?_ofFn, dif_pos hq'] at ht
        rw [← Option.some.inj ht]
        exact (hW.varShape q hq').symm)
    rw [ha1]
    congr 1
    funext i
    show net (fun v p => (assign v).data.getD p .nan) (fun j => Fl.fin (stdRow cfg X (T i) j)) = _
    have hass : (fun (v : Fin n) (p : Pos (sizes shape) v) => (assign v).data.getD p Fl.nan) = finP (θs (k + 1)) := by
      funext v p
      have := ha2 v v (by rw [hps]; simp)
      rw [List.getElem?_ofFn, dif_pos v.2] at this
      rw [← Option.some.inj this]
      rw [List.getD_eq_getElem?_getD, List.getElem?_ofFn, dif_pos p.2]
      rfl
    rw [hass, hf]
  have hind : predict cfg W obj w (fun i j => .fin (T i j)) true
      = .ok (.individual ((storedIdx cfg).map fun k i => .fin (unstdLabel cfg y (out k i).1))
          ((storedIdx cfg).map fun k i => .fin (unstdVar cfg y (Real.exp (out k i).2)))) := by
    rw [predict_of cfg W obj w _ _ true _ _ h2 htest houts hstats]
    unfold summarize
    simp only [if_true, List.map_map]
    congr 2
    · apply List.map_congr_left
      intro k _
      funext i
      simp only [Function.comp, unnormalizeMean, unstdLabel]
      by_cases h : cfg.normalizeOutput = true
      · simp [h, BaseModel.unstandardize]
      · simp [h]
    · apply List.map_congr_left
      intro k _
      funext i
      simp only [Function.comp, unnormalizeVar, unstdVar]
      by_cases h : cfg.normalizeOutput = true
      · simp [h, Real.sq_sqrt (var_nonneg y)]
      · simp [h]
  refine ⟨hind, fun hne => ?_⟩
  have hfs : FiniteStats (if cfg.normalizeOutput then some (Fl.fin (avg y), Fl.fin (√(var y))) else none) := by
    by_cases h : cfg.normalizeOutput = true
    · simp [h, FiniteStats]
    · simp [h, FiniteStats]
  obtain ⟨F, Z, P, V, e1, -, -, e2, e3⟩ := summarize_point hfs
    ((storedIdx cfg).map fun k (i : Fin M) => (Fl.fin (out k i).1, Fl.fin (out k i).2)) (by simpa using hne)
  rw [predict_of cfg W obj w _ _ true _ _ h2 htest houts hstats, e1] at hind
  have hF := Prediction.individual.inj (Except.ok.inj hind)
  rw [predict_of cfg W obj w _ _ false _ _ h2 htest houts hstats, e2]
  have hpt : ∀ i, P i = .fin (avg ((storedIdx cfg).map fun k => unstdLabel cfg y (out k i).1))
      ∧ V i = .fin (var ((storedIdx cfg).map fun k => unstdLabel cfg y (out k i).1)) := by
    intro i
    obtain ⟨c, hc1, hc2, hc3⟩ := e3 i (by
      rw [hF.1]
      intro f hf
      obtain ⟨k, -, rfl⟩ := List.mem_map.1 hf
      simp)
    rw [hF.1, List.map_map] at hc1
    have hc : c = (storedIdx cfg).map fun k => unstdLabel cfg y (out k i).1 := by
      apply List.map_injective_iff.2 (fun a b (h : Fl.fin a = Fl.fin b) => Fl.fin_inj.1 h)
      rw [← hc1, List.map_map]
      rfl
    rw [← hc]
    exact ⟨hc2, hc3⟩
  rw [funext fun i => (hpt i).1, funext fun i => (hpt i).2]

/-- **C95** A network with at least two variables, trained with SGHMC on real data and used for prediction: the stored networks are
the positions of one SGHMC chain that uses the given stepsize, friction and burn-in length, the number of datapoints as scale, and as
gradient of step `k` the gradient of the network's cost on a window of the normalized data.  The initial values are drawn twice (`θ₁`, then
`θ₀`): the chain starts at one of them for every variable, and the first gradient is taken at the second.  `predict` returns the outputs of these networks at the normalized test points, in the units of the labels, or their mean and variance. -/
theorem C95_train_and_predict (S : Setup R D shape) (Rg : Regular S) (cfg : Cfg) (hn : n ≠ 1) (hnets : 0 < cfg.nNets)
    (hb : 0 < S.batchSize) (hs : SeedOk S.seed) (eps : ℝ) (heps : S.schedule = ⟨[.fin eps]⟩) (alpha : ℝ) (hα : MdecayIs S alpha)
    (hkw : ∀ p ∈ BNNSampler.samplerKwargs S.kwargs, p.1 ∈ (Sampling.callerParams .sghmc).map Sampling.Param.name)
    (θ₁ θ₀ : Params shape) (hθ₁ : S.first = finP θ₁) (hθ : S.start = finP θ₀) (z : Nat → Params shape) (hz : ∀ k, S.normal k = finP (z k))
    (X : List (Fin D → ℝ)) (y : List ℝ) (hX : X ≠ []) (hl : y.length = X.length)
    (hnx : cfg.normalizeInput = true → ∀ j, NonConstant X j)
    (hny : cfg.normalizeOutput = true → ∃ v ∈ y, ∃ v' ∈ y, v ≠ v') :
    ∃ (x : Nat → Params shape) (start : Nat → Nat),
      let b := min S.batchSize X.length
      let θs : Nat → Params shape := fun k i p =>
        (sghmcChain alpha X.length cfg.burnIn (fun _ => eps) (fun j => x j i p) (fun j => z j i p) (startPoint S θ₁ θ₀ i p) k).pos
      let r := train cfg (S.world cfg) (.matrix (lift X)) (y.map .fin) {} none
      (∀ k < cfg.nIters, start k + b ≤ X.length ∧ ∀ i, ∃ isNew : Fin n → Bool, isNew i = false ∧ ∀ p,
        HasDerivAt (fun t => netCost Rg.f S.batchSize X.length (((X.map (stdRow cfg X)).drop (start k)).take b)
            (((y.map (stdLabel cfg y)).drop (start k)).take b) (setElem (mix isNew (θs (k + 1)) (before θ₀ θs k)) i p t))
          (x k i p) (mix isNew (θs (k + 1)) (before θ₀ θs k) i p))
      ∧ r.1 = .ok ()
      ∧ r.2.1.samples = (storedIdx cfg).map (fun k => .many (List.ofFn fun i => ⟨shape i, List.ofFn fun p => .fin (θs (k + 1) i p)⟩))
      ∧ ∀ (w : S.Session) (M : Nat) (T : Fin M → Fin D → ℝ),
        let out : Nat → Fin M → ℝ × ℝ := fun k i => Rg.f (θs (k + 1)) (stdRow cfg X (T i))
        predict cfg (S.world cfg) r.2.1 w (fun i j => .fin (T i j)) true
          = .ok (.individual ((storedIdx cfg).map fun k i => .fin (unstdLabel cfg y (out k i).1))
              ((storedIdx cfg).map fun k i => .fin (unstdVar cfg y (Real.exp (out k i).2))))
        ∧ (storedIdx cfg ≠ [] → predict cfg (S.world cfg) r.2.1 w (fun i j => .fin (T i j)) false
          = .ok (.summary (fun i => .fin (avg ((storedIdx cfg).map fun k => unstdLabel cfg y (out k i).1)))
              (fun i => .fin (var ((storedIdx cfg).map fun k => unstdLabel cfg y (out k i).1))))) := by
  have hy : y ≠ [] := by intro h; rw [h] at hl; exact hX (List.length_eq_zero_iff.1 hl.symm)
  obtain ⟨hX1, hX2⟩ := normalizedX_real cfg ({} : Bnn D) X hX hnx
  obtain ⟨hY1, hY2⟩ := normalizedY_real cfg ({} : Bnn D) y hy hny
  have hXl : (X.map (stdRow cfg X)).length = X.length := by simp
  obtain ⟨x, start, cost, hcalls, hx⟩ := sampler_run S Rg hb hs eps heps alpha θ₁ θ₀ hθ₁ hθ z hz (X.map (stdRow cfg X)) (y.map (stdLabel cfg y))
    (by simpa using hX) (by simp [hl]) cfg.burnIn cfg.nIters
  rw [hXl] at hcalls hx
  refine ⟨x, start, ?_⟩
  intro b θs r
  have hr : r = train cfg (S.world cfg) (.matrix (lift X)) (y.map .fin) {} none := rfl
  clear_value r
  obtain ⟨h1, h2, h3, h4, h5, h6, h7, h8⟩ := train_run (S.world cfg) S.net (world_of S cfg) cfg hn hnets (lift X) (y.map .fin) _ _ hX1 hY1 none _
    (buildSampler_eq S cfg _ _ _ alpha hα hkw none) θs cost (calls_world S cfg _ _ _ _ cost hcalls) r hr
  refine ⟨hx, h1, h3, fun w M T => ?_⟩
  exact predict_run (S.world cfg) S.net (world_of S cfg) Rg.f Rg.net_eq cfg X y hnx θs _ h2 h3 h4 h5 h6 (fun h => h7.trans (hX2 h)) (fun h => h8.trans (hY2 h)) w M T

/-! ## The hypotheses can be met: every differentiable network -/

/-- A network given by a function on real numbers, with the gradient of its cost. -/
noncomputable def realSetup (R : RNG) (f : Params shape → (Fin D → ℝ) → ℝ × ℝ) (batchSize : Nat) (seed : PyVal) (eps : ℝ)
    (kwargs : List (String × Val R D)) (paramFirst : Fin n → Bool) (θ₁ θ₀ : Params shape) (z : Nat → Params shape) (order : Nat → SGHMC.Schedule (Fin n)) (glob : R.State) :
    Setup R D shape where
  net θ x := let o := f (fun i p => (θ i p).val) (fun j => (x j).val)
    (.fin o.1, .fin o.2)
  first := finP θ₁
  start := finP θ₀
  paramFirst := paramFirst
  batchSize := batchSize
  seed := seed
  schedule := ⟨[.fin eps]⟩
  kwargs := kwargs
  grad N rows ys θ i p := .fin (deriv (fun t => netCost f batchSize N (rows.map fun r j => (r j).val) (ys.map Fl.val)
    (setElem (fun i p => (θ i p).val) i p t)) (θ i p).val)
  normal k := finP (z k)
  order := order
  glob := glob

theorem differentiable_sum (l : List (ℝ → ℝ)) (h : ∀ g ∈ l, Differentiable ℝ g) : Differentiable ℝ fun t => (l.map fun g => g t).sum := by
  induction l with
  | nil => simp
  | cons g l ih =>
    simp only [List.map_cons, List.sum_cons]
    exact (h g (by simp)).add (ih fun g' hg' => h g' (by simp [hg']))

theorem setElem_differentiable (θ : Params shape) (i : Fin n) (p : Pos (sizes shape) i) (i' : Fin n) (p' : Pos (sizes shape) i') :
    Differentiable ℝ fun t => setElem θ i p t i' p' := by
  unfold setElem
  by_cases h : i' = i
  · subst h
    simp only [Function.update_self]
    by_cases h' : p' = p
    · subst h'
      simp only [Function.update_self]
      exact differentiable_id
    · simp only [Function.update_of_ne h']
      exact differentiable_const _
  · simp only [Function.update_of_ne h]
    exact differentiable_const _

theorem netCost_differentiable (f : Params shape → (Fin D → ℝ) → ℝ × ℝ) (batchSize N : Nat) (rows : List (Fin D → ℝ)) (ys : List ℝ)
    (θ : Params shape) (i : Fin n) (p : Pos (sizes shape) i)
    (hf : ∀ x, Differentiable ℝ (fun t => (f (setElem θ i p t) x).1) ∧ Differentiable ℝ fun t => (f (setElem θ i p t) x).2) :
    Differentiable ℝ fun t => netCost f batchSize N rows ys (setElem θ i p t) := by
  unfold netCost
  refine ((Differentiable.div_const ?_ _).sub (Differentiable.div_const ?_ _)).add (Differentiable.div_const ?_ _)
  · have := differentiable_sum (List.zipWith (fun x y t => (y - (f (setElem θ i p t) x).1) ^ 2
      / (2 * (Real.exp (f (setElem θ i p t) x).2 + 1e-16)) + (f (setElem θ i p t) x).2 / 2) rows ys) (by
      intro g hg
      obtain ⟨k, hk, rfl⟩ := List.mem_iff_getElem.1 hg
      rw [List.getElem_zipWith]
      rw [List.length_zipWith] at hk
      have hk' : k < rows.length := by omega
      obtain ⟨h1, h2⟩ := hf (rows[k]'hk')
      refine (Differentiable.div (((differentiable_const _).sub h1).pow 2) ((h2.exp.add_const _).const_mul _) ?_).add (h2.div_const _)
      intro t
      have := Real.exp_pos (f (setElem θ i p t) (rows[k]'hk')).2
      have h16 : (0 : ℝ) < 1e-16 := by norm_num
      positivity)
    simpa only [List.map_zipWith] using this
  · unfold avg
    simp only [List.length_map]
    refine Differentiable.div_const ?_ _
    have := differentiable_sum (rows.map fun x t => -((f (setElem θ i p t) x).2 - Real.log 1e-6) ^ 2 / (2 * 0.01 + 3e-16)
      - Real.log 0.01 / 2) (by
      intro g hg
      obtain ⟨x, -, rfl⟩ := List.mem_map.1 hg
      exact ((((hf x).2.sub_const _).pow 2).neg.div_const _).sub_const _)
    simpa only [List.map_map, Function.comp_def] using this
  · refine Differentiable.const_mul (Differentiable.div_const ?_ _) _
    refine Differentiable.fun_sum fun i' _ => Differentiable.fun_sum fun p' _ => ?_
    exact (setElem_differentiable θ i p i' p').pow 2

/-- Every network that is differentiable in each parameter meets the assumptions on TensorFlow. -/
noncomputable def realSetup_regular (R : RNG) (f : Params shape → (Fin D → ℝ) → ℝ × ℝ) (batchSize : Nat) (hb : 0 < batchSize) (seed : PyVal)
    (eps : ℝ) (kwargs : List (String × Val R D)) (paramFirst : Fin n → Bool) (θ₁ θ₀ : Params shape) (z : Nat → Params shape) (order : Nat → SGHMC.Schedule (Fin n))
    (glob : R.State)
    (hf : ∀ θ i p x, Differentiable ℝ (fun t => (f (setElem θ i p t) x).1) ∧ Differentiable ℝ fun t => (f (setElem θ i p t) x).2) :
    Regular (realSetup R f batchSize seed eps kwargs paramFirst θ₁ θ₀ z order glob) where
  f := f
  net_eq θ x := rfl
  γ N rows ys θ i p := deriv (fun t => netCost f batchSize N rows ys (setElem θ i p t)) (θ i p)
  grad_eq N rows ys θ _ _ _ := by
    funext i p
    simp only [realSetup, lift, List.map_map, Function.comp_def, finP, Fl.val]
    simp
  isGrad N rows ys θ i p hN hne hl := by
    have h := ((netCost_differentiable f batchSize N rows ys θ i p (hf θ i p)) (θ i p)).hasDerivAt
    have e : (fun t => ((realSetup R f batchSize seed eps kwargs paramFirst θ₁ θ₀ z order glob).cost N (lift rows) (ys.map .fin)
        (finP (setElem θ i p t))).val) = fun t => netCost f batchSize N rows ys (setElem θ i p t) := by
      funext t
      rw [cost_fin (realSetup R f batchSize seed eps kwargs paramFirst θ₁ θ₀ z order glob) f (fun _ _ => rfl) hb N hN rows ys hne hl]
      rfl
    rw [e]
    exact h

/-- A network with two scalar variables, mean `tanh (v₀ x)` and log variance `v₁`, trained on three points with normalization. -/
noncomputable example (R : RNG) (glob : R.State) (order : Nat → SGHMC.Schedule (Fin 2)) :
    ∃ (S : Setup R 1 (fun _ : Fin 2 => [])) (_ : Regular S) (cfg : Cfg), (2 : Nat) ≠ 1 ∧ 0 < cfg.nNets ∧ 0 < S.batchSize ∧ SeedOk S.seed ∧
      S.schedule = ⟨[.fin 0.01]⟩ ∧ MdecayIs S 0.05 ∧
      (∀ p ∈ BNNSampler.samplerKwargs S.kwargs, p.1 ∈ (Sampling.callerParams .sghmc).map Sampling.Param.name) ∧
      S.first = finP (fun _ _ => 2) ∧ S.start = finP (fun _ _ => 1) ∧ (S.paramFirst 0 = true ∧ S.paramFirst 1 = false) ∧ (∀ k, S.normal k = finP (fun _ _ => 0)) ∧ storedIdx cfg = [4, 6, 8] ∧
      cfg.normalizeInput = true ∧ cfg.normalizeOutput = true ∧
      (∀ j, NonConstant [fun _ => (0 : ℝ), fun _ => 1, fun _ => 3] (j : Fin 1)) ∧ ∃ v ∈ [(1 : ℝ), 2, 2], ∃ v' ∈ [(1 : ℝ), 2, 2], v ≠ v' := by
  refine ⟨realSetup R (fun θ x => (Real.tanh (θ 0 ⟨0, by decide⟩ * x 0), θ 1 ⟨0, by decide⟩)) 2 (.int 1) 0.01 [] ![true, false] (fun _ _ => 2) (fun _ _ => 1)
    (fun _ _ _ => 0) order glob, realSetup_regular R _ 2 (by norm_num) _ _ _ _ _ _ _ _ _ ?_, ⟨3, 10, 3, 2, true, true⟩, by decide, by decide,
    Nat.zero_lt_two, .inr (.inr ⟨1, rfl, by norm_num, by norm_num⟩), rfl, .inr ⟨rfl, by norm_num⟩, by simp [realSetup, BNNSampler.samplerKwargs], rfl, rfl,
    ⟨rfl, rfl⟩, fun _ => rfl, by decide, rfl, rfl, ?_, 1, by simp, 2, by simp, by norm_num⟩
  · intro θ i p x
    refine ⟨?_, setElem_differentiable θ i p 1 _⟩
    simp only [Real.tanh_eq_sinh_div_cosh]
    have h := (setElem_differentiable θ i p 0 ⟨0, by decide⟩).mul_const (x 0)
    exact (Real.differentiable_sinh.comp h).div (Real.differentiable_cosh.comp h) fun t => (Real.cosh_pos _).ne'
  · intro j
    exact ⟨fun _ => 0, by simp, fun _ => 1, by simp, by norm_num⟩

end PySGMCMC.BNNSystem
