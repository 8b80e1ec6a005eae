import Verif.Props.BNNSystemSGLD

/-!
# C122: malformed training data
-/

namespace PySGMCMC.BNNMalformed
open BNN Chain SamplerBase Spec
open BNNSystem (sizes)

variable {R : RNG} {D n : Nat} {shape : Fin n → List Nat} {ω H C : Type}

/-- **C122** Arrays that are no matrices are rejected by `train` and `predict`, and nothing changes; a matrix is handed on. -/
theorem C122_shape (cfg : Cfg) (W : World D ω H C) (X : Tensor Fl) (y : List Fl) (ind : Bool) (s : Bnn D × ω) :
    ((∃ N m, X.shape = [N, m]) ∧ trainArray cfg W X y s = train cfg W (.matrix (rowsOf D X)) y s.1 s.2
      ∧ predictArray cfg W X ind s = (predictChecked cfg W s.1 s.2 (.matrix (rowsOf D X)) ind, s))
    ∨ ((¬ ∃ N m, X.shape = [N, m]) ∧ trainArray cfg W X y s = (.error .assertion, s) ∧ trainArray cfg W X y s = train cfg W .other y s.1 s.2
      ∧ predictArray cfg W X ind s = (.error .assertion, s) ∧ predictArray cfg W X ind s = (predictChecked cfg W s.1 s.2 .other ind, s)) := by
  obtain ⟨sh, data⟩ := X
  match sh with
  | [] => right; simp [trainArray, predictArray, predictChecked, BaseModel.checkShapesPredict, train]
  | [_] => right; simp [trainArray, predictArray, predictChecked, BaseModel.checkShapesPredict, train]
  | [a, b] => left; simp [trainArray, predictArray, BaseModel.checkShapesPredict]
  | _ :: _ :: _ :: _ => right; simp [trainArray, predictArray, predictChecked, BaseModel.checkShapesPredict, train]

/-- The rows of a matrix. -/
theorem rowsOf_flat (rows : List (Fin D → Fl)) : rowsOf D ⟨[rows.length, D], rows.flatMap fun r => List.ofFn r⟩ = rows :=
  BNNSystem.decode_encode rows

/-- A batch generator over arrays of different lengths. -/
theorem feeder_error (S : BNNSystem.Setup R D shape) (ph : Nat) (X : List (Fin D → Fl)) (y : List Fl) (hne : y.length ≠ X.length)
    (glob : R.State) :
    (S.feeder ph).batchNext (.fresh, ⟨⟨X, y⟩, glob⟩) = (.error .assertion, (.done, ⟨⟨X, y⟩, glob⟩)) := by
  show (match DataBatches.nextBatch R ⟨.int S.batchSize, S.seed⟩ (.fresh, ⟨⟨X, y⟩, glob⟩) with
      | (.ok b, g') => ((Except.ok (Dict.ofList [(BNNSystem.xKey ph, BNNSystem.encodeRows (b.xs.read g'.2.data.x)),
            (BNNSystem.yKey ph, b.ys.read g'.2.data.y)]) : Except PyErr (Dict Key Arr)), g')
      | (.error e, g') => (Except.error e, g')) = _
  have : DataBatches.nextBatch R ⟨.int S.batchSize, S.seed⟩ (.fresh, ⟨⟨X, y⟩, glob⟩)
      = (.error .assertion, (.done, ⟨⟨X, y⟩, glob⟩)) := by
    unfold DataBatches.nextBatch
    simp only
    split_ifs <;> first | rfl | (exfalso; exact absurd hne ‹_›)
  rw [this]

/-- A sampler whose batch generator raises in its first call. -/
theorem next_error {E : Env Arr Fl} (B : Int) (nP : Nat) (b b' : E.Batch) (sched : E.Sched) (g : E.Graph) (e : PyErr)
    (h : E.batchNext b = (.error e, b')) (hB : 0 ≤ B) :
    (asIter (burnInNext E B nP) (init (some b) sched g)).1 = .error e := by
  have hu : ∀ d, updateFeed E d (init (some b) sched g) = (.error e, d, { init (some b) sched g with batch := some b' }) := by
    intro d
    unfold updateFeed nextBatch init
    simp only [h]
  unfold asIter burnInNext
  simp only [Feed.open]
  by_cases h0 : isBurningIn B (init (some b) sched g) = true
  · rw [if_pos h0]
    unfold burnInStep
    rw [hu]
  · rw [if_neg h0]
    have : ¬ B > 0 := by
      intro hp
      apply h0
      unfold isBurningIn init
      simpa using hp
    rw [if_neg this]
    unfold baseNextDict
    rw [hu]

/-- What is left of a `train` call whose first step fails. -/
theorem train_fails (cfg : Cfg) (hn : 0 < cfg.nNets) (hi : 0 < cfg.nIters) (W : World D ω H C) (rows : BaseModel.Rows (Fin D)) (y : List Fl)
    (b : Bnn D) (w : ω) (d : TrainData D) (h : H) (w' : ω) (hp : Prepared cfg W rows y b w d h w') (hlog : ∀ v, W.logError d v = .ok ())
    (e : PyErr) (he : e ≠ .stopIteration) (herr : (W.next h w').1 = .error e) :
    (train cfg W (.matrix rows) y b w).1 = .error e ∧ (train cfg W (.matrix rows) y b w).2.1.isTrained = b.isTrained
      ∧ (train cfg W (.matrix rows) y b w).2.1.samples = [] :=
  C58_failure cfg hn W rows y b w d h w' hp hlog [] rfl hi (by simpa using hn) e he herr

theorem normalizedX_length (cfg : Cfg) (b : Bnn D) (rows : BaseModel.Rows (Fin D)) : (normalizedX cfg b rows).1.length = rows.length := by
  unfold normalizedX BaseModel.zeroMeanUnitVarNormalization
  split <;> simp

theorem normalizedY_length (cfg : Cfg) (b : Bnn D) (y : List Fl) : (normalizedY cfg b y).1.length = y.length := by
  unfold normalizedY BaseModel.zeroMeanUnitVarNormalization
  split <;> simp

theorem built_sghmc (S : BNNSystem.Setup R D shape) (cfg : Cfg) (d : TrainData D) (w : S.Session) (s) (h : S.build cfg d = .ok s) :
    (S.world cfg).buildSampler d w = (.ok (), some s) := by
  unfold BNNSystem.Setup.world
  simp only
  rw [h]

theorem built_sgld (S : BNNSystemSGLD.Setup R D shape) (cfg : Cfg) (d : TrainData D) (w : S.Session) (s) (h : S.build cfg d = .ok s) :
    (S.world cfg).buildSampler d w = (.ok (), some s) := by
  unfold BNNSystemSGLD.Setup.world
  simp only
  rw [h]

/-- **C122** Unless there is one label per row, training with SGHMC fails with an `AssertionError`, the network is not trained by it, and
`predict` on a network that was not trained before keeps refusing to work. -/
theorem C122_labels_sghmc_partial (S : BNNSystem.Setup R D shape) (cfg : Cfg) (hn : 0 < cfg.nNets) (hi : 0 < cfg.nIters) (alpha : ℝ)
    (hα : BNNSystem.MdecayIs S alpha)
    (hkw : ∀ p ∈ BNNSampler.samplerKwargs S.kwargs, p.1 ∈ (Sampling.callerParams .sghmc).map Sampling.Param.name)
    (X : BaseModel.Rows (Fin D)) (y : List Fl) (hl : y.length ≠ X.length) (b : Bnn D) (w : S.Session) :
    ∀ r, r = train cfg (S.world cfg) (.matrix X) y b w →
      r.1 = .error .assertion ∧ r.2.1.isTrained = b.isTrained ∧ r.2.1.samples = []
      ∧ (b.isTrained = false → ∀ (N : Nat) (T : Fin N → Fin D → Fl) ind, predict cfg (S.world cfg) r.2.1 r.2.2 T ind = .error (.value "untrained")) := by
  rintro r rfl
  set Xn := (normalizedX cfg b X).1 with hXn
  set yn := (normalizedY cfg b y).1 with hyn
  have hb := BNNSystem.build_eq S cfg ⟨Xn, yn, b.nPlaceholders, List.range n⟩ alpha hα hkw
  have hbs := built_sghmc S cfg _ w _ hb
  have hp : Prepared cfg (S.world cfg) X y b w ⟨Xn, yn, b.nPlaceholders, List.range n⟩ () _ := ⟨_, w, w, rfl, rfl, rfl, hbs⟩
  have hlen : yn.length ≠ Xn.length := by rw [hyn, hXn, normalizedX_length, normalizedY_length]; exact hl
  obtain ⟨h1, h2, h3⟩ := train_fails cfg hn hi (S.world cfg) X y b w _ () _ hp (fun _ => rfl) .assertion (by simp) (by
    show (Except.map _ (asIter (burnInNext _ _ n) (init _ _ _)).1) = _
    rw [next_error _ _ _ _ _ _ .assertion (feeder_error S b.nPlaceholders Xn yn hlen S.glob) (by positivity)]
    rfl)
  refine ⟨h1, h2, h3, fun hb0 N T ind => ?_⟩
  unfold predict
  rw [h2, hb0]
  rfl

/-- **C122** The same with SGLD. -/
theorem C122_labels_sgld_partial (S : BNNSystemSGLD.Setup R D shape) (cfg : Cfg) (hn : 0 < cfg.nNets) (hi : 0 < cfg.nIters) (a : ℝ)
    (ha : BNNSystemSGLD.FrictionIs S a)
    (hkw : ∀ p ∈ BNNSampler.samplerKwargs S.base.kwargs, p.1 ∈ (Sampling.callerParams .sgld).map Sampling.Param.name)
    (X : BaseModel.Rows (Fin D)) (y : List Fl) (hl : y.length ≠ X.length) (b : Bnn D) (w : S.Session) :
    ∀ r, r = train cfg (S.world cfg) (.matrix X) y b w →
      r.1 = .error .assertion ∧ r.2.1.isTrained = b.isTrained ∧ r.2.1.samples = []
      ∧ (b.isTrained = false → ∀ (N : Nat) (T : Fin N → Fin D → Fl) ind, predict cfg (S.world cfg) r.2.1 r.2.2 T ind = .error (.value "untrained")) := by
  rintro r rfl
  set Xn := (normalizedX cfg b X).1 with hXn
  set yn := (normalizedY cfg b y).1 with hyn
  have hb := BNNSystemSGLD.build_eq S cfg ⟨Xn, yn, b.nPlaceholders, List.range n⟩ a ha hkw
  have hbs := built_sgld S cfg _ w _ hb
  have hp : Prepared cfg (S.world cfg) X y b w ⟨Xn, yn, b.nPlaceholders, List.range n⟩ () _ := ⟨_, w, w, rfl, rfl, rfl, hbs⟩
  have hlen : yn.length ≠ Xn.length := by rw [hyn, hXn, normalizedX_length, normalizedY_length]; exact hl
  obtain ⟨h1, h2, h3⟩ := train_fails cfg hn hi (S.world cfg) X y b w _ () _ hp (fun _ => rfl) .assertion (by simp) (by
    show (Except.map _ (asIter (burnInNext _ _ n) (init _ _ _)).1) = _
    rw [next_error _ _ _ _ _ _ .assertion (feeder_error S.base b.nPlaceholders Xn yn hlen S.base.glob) (by positivity)]
    rfl)
  refine ⟨h1, h2, h3, fun hb0 N T ind => ?_⟩
  unfold predict
  rw [h2, hb0]
  rfl

/-! ## No data at all -/

theorem mul_special {a : Fl} (ha : ¬ a.IsFin) (x : Fl) : ¬ (a * x).IsFin ∧ ¬ (x * a).IsFin := by
  have key : ∀ (u v : Fl), ¬ u.IsFin → ¬ (u * v).IsFin ∧ ¬ (v * u).IsFin := by
    intro u v hu
    cases u with
    | fin r => exact absurd ⟨r, rfl⟩ hu
    | nan => simp
    | pinf =>
      cases v with
      | fin r =>
        constructor <;> (show ¬ (Fl.infOf r).IsFin; unfold Fl.infOf; split_ifs <;> (rintro ⟨_, h⟩; cases h))
      | _ => constructor <;> (rintro ⟨_, h⟩; cases h)
    | ninf =>
      cases v with
      | fin r =>
        constructor <;> (show ¬ (Fl.infOf (-r)).IsFin; unfold Fl.infOf; split_ifs <;> (rintro ⟨_, h⟩; cases h))
      | _ => constructor <;> (rintro ⟨_, h⟩; cases h)
  exact key a x ha

theorem special_mul_zero {a : Fl} (ha : ¬ a.IsFin) : a * Fl.fin 0 = .nan := by
  cases a with
  | fin r => exact absurd ⟨r, rfl⟩ ha
  | nan => simp
  | pinf => show Fl.infOf 0 = _; simp [Fl.infOf]
  | ninf => show Fl.infOf (-0) = _; simp [Fl.infOf]

/-- With `scale_grad = 0` every session run of SGHMC sets all parameters to NaN. -/
theorem sghmc_scale_zero {P : Type} [DecidableEq P] {ι : P → Type} (inp : SGHMC.Inputs ι) (e : ℝ) (he : inp.epsilon = .fin e)
    (h0 : inp.scaleGrad = .fin 0) (σ : SGHMC.Schedule P) (s : SGHMC.State ι) (i : P) (k : ι i) : (SGHMC.run inp σ s).params i k = .nan := by
  have hes : ¬ (SGHMC.epsilonScaled inp.epsilon inp.scaleGrad).IsFin := by
    rw [he, h0]
    unfold SGHMC.epsilonScaled
    rw [Fl.sqrt_fin le_rfl, Real.sqrt_zero, Fl.div_fin', if_pos rfl]
    unfold Fl.infOf
    split_ifs <;> (rintro ⟨_, h⟩; cases h)
  have hsig : ∀ md m, SGHMC.sigma (SGHMC.epsilonScaled inp.epsilon inp.scaleGrad) md m = .nan := by
    intro md m
    unfold SGHMC.sigma SGHMC.noiseScale SGHMC.noiseConst
    have h3 : ¬ (Fl.npow (SGHMC.epsilonScaled inp.epsilon inp.scaleGrad) 3).IsFin := (mul_special hes _).2
    rw [Fl.ofNat_zero, special_mul_zero (mul_special (mul_special h3 _).2 _).1, Fl.sub_nan, Fl.nan_sub]
    rfl
  show ((SGHMC.run inp σ s).par i).param k = _
  rw [SGHMC.run_par]
  unfold SGHMC.next SGHMC.rhsMom
  simp only [hsig, Fl.nan_mul, Fl.add_nan]

/-- What a network's SGHMC sampler returns without data. -/
theorem empty_run (S : BNNSystem.Setup R D shape) (hb : 0 < S.batchSize) (hs : SeedOk S.seed) (eps : ℝ) (heps : S.schedule = ⟨[.fin eps]⟩)
    (alpha : ℝ) (B N : Nat) :
    ∃ cost : Nat → Fl,
      (calls (asIter (burnInNext (S.env (BNNSystem.confOf (D := D) [] alpha B)) B n)) N
          (BNNSystem.startOf S [] [] (BNNSystem.confOf (D := D) [] alpha B))).1
        = (List.range N).map fun k : Nat =>
            let arrays := List.ofFn fun i : Fin n => flat fun _ : Pos (sizes shape) i => .nan
            .ok ((if (k : Int) < B then .many arrays else unravel arrays), cost k) := by
  obtain ⟨st, start, hst0, hst⟩ := BNNSystem.batches_spec S hb hs [] [] rfl
  set data : Dict Key Arr := Dict.ofList [(BNNSystem.xKey 0, []), (BNNSystem.yKey 0, [])] with hdata
  have hbatch : ∀ k, (S.feeder 0).batchNext (st k) = (.ok data, st (k + 1)) := by
    intro k
    show (match DataBatches.nextBatch R ⟨.int S.batchSize, S.seed⟩ (st k) with
      | (.ok b, g') => ((Except.ok (Dict.ofList [(BNNSystem.xKey 0, BNNSystem.encodeRows (b.xs.read g'.2.data.x)),
          (BNNSystem.yKey 0, b.ys.read g'.2.data.y)]) : Except PyErr (Dict Key Arr)), g')
      | (.error e, g') => (Except.error e, g')) = _
    rw [(hst k).2.2]
    simp only [(hst (k + 1)).2.1]
    simp only [hdata, DataBatches.View.read, BNNSystem.encodeRows]
    simp
  let Sc : Script (S.feeder 0) N :=
    { batch := fun k => some (st k)
      data := fun _ => data
      sched := fun _ => ⟨[.fin eps]⟩
      eps := fun _ => eps
      supplies := fun k _ => by
        show (S.feeder 0).batchNext (st k) = _ ∧ some (st (k + 1)) = _
        rw [hbatch k]; exact ⟨rfl, rfl⟩
      stepsize := fun k _ => ⟨⟨[.fin eps]⟩, rfl, fun _ _ => rfl⟩
      user := fun k _ key hkey => by
        have e1 : key ≠ BNNSystem.yKey 0 := hkey _
        have e2 : key ≠ BNNSystem.xKey 0 := hkey _
        simp only [hdata, Dict.ofList, Dict.empty]
        rw [if_neg e1, if_neg e2] }
  set c := BNNSystem.confOf (D := D) [] alpha B with hc
  have hcalls := calls_script Sc (S.graphWorld c).graph (BNNSystem.userOk D 0) B (SGHMC.State.start S.work S.start)
    (S.schedule.initialValue.getD 0 .nan) (fun k _ => by
      have hx : feedAt Sc B k (seq Sc (S.graphWorld c).graph B (SGHMC.State.start S.work S.start) k).2 (BNNSystem.xKey 0) = some [] := by
        simp [feedAt, Dict.update, Dict.single, Sc, hdata, Dict.ofList, Dict.empty, BNNSystem.xKey, BNNSystem.yKey]
      have hy : feedAt Sc B k (seq Sc (S.graphWorld c).graph B (SGHMC.State.start S.work S.start) k).2 (BNNSystem.yKey 0) = some [] := by
        simp [feedAt, Dict.update, Dict.single, Sc, hdata, Dict.ofList, Dict.empty, BNNSystem.xKey, BNNSystem.yKey]
      unfold BNNSystem.userOk BNNSystem.onBatch
      rw [hx, hy]) N le_rfl
  refine ⟨fun k => (S.graphWorld c).graph.cost (seq Sc (S.graphWorld c).graph B (SGHMC.State.start S.work S.start) (k + 1)).1, ?_⟩
  have hstart : BNNSystem.startOf S [] [] c
      = init (E := S.env c) (Sc.batch 0) (Sc.sched 0) ⟨SGHMC.State.start S.work S.start, S.schedule.initialValue.getD 0 .nan, 0⟩ := by
    unfold BNNSystem.startOf
    have : Sc.batch 0 = some (.fresh, ⟨⟨[], []⟩, S.glob⟩) := congrArg some hst0
    rw [this, show Sc.sched 0 = ⟨[.fin eps]⟩ from rfl, ← heps]
  rw [hstart]
  refine (congrArg Prod.fst hcalls).trans ?_
  apply List.map_congr_left
  intro k _
  have hp : paramsAt Sc (S.graphWorld c).graph B (SGHMC.State.start S.work S.start) k
      = List.ofFn fun i : Fin n => flat fun _ : Pos (sizes shape) i => .nan := by
    unfold paramsAt
    congr 1
    funext i
    congr 1
    funext p
    exact sghmc_scale_zero ((S.graphWorld c).inputs k _ _ _) eps rfl (by simp [hc, BNNSystem.Setup.graphWorld, BNNSystem.confOf, SGHMCWorld.inputs]) _ _ i p
  rw [hp]

/-- **C122, violated** An empty data set is accepted by a network with SGHMC: training reports success, and every stored network consists of NaN. -/
theorem C122_empty_violated (S : BNNSystem.Setup R D shape) (cfg : Cfg) (hn : n ≠ 1) (hnets : 0 < cfg.nNets) (hb : 0 < S.batchSize)
    (hs : SeedOk S.seed) (eps : ℝ) (heps : S.schedule = ⟨[.fin eps]⟩) (alpha : ℝ) (hα : BNNSystem.MdecayIs S alpha)
    (hkw : ∀ p ∈ BNNSampler.samplerKwargs S.kwargs, p.1 ∈ (Sampling.callerParams .sghmc).map Sampling.Param.name) :
    ∀ r, r = train cfg (S.world cfg) (.matrix []) [] {} none →
      r.1 = .ok () ∧ r.2.1.isTrained = true
      ∧ r.2.1.samples = (BNNSystem.storedIdx cfg).map fun _ => .many (List.ofFn fun i => ⟨shape i, List.replicate (sizes shape i) .nan⟩) := by
  rintro r rfl
  have hX : (normalizedX cfg ({} : Bnn D) []).1 = [] := List.length_eq_zero_iff.1 (normalizedX_length _ _ _)
  have hY : (normalizedY cfg ({} : Bnn D) []).1 = [] := List.length_eq_zero_iff.1 (normalizedY_length _ _ _)
  have hbuild := BNNSystem.buildSampler_eq S cfg [] [] (List.range n) alpha hα hkw none
  have hp : Prepared cfg (S.world cfg) [] [] ({} : Bnn D) none ⟨[], [], 0, List.range n⟩ () _ :=
    ⟨_, none, none, rfl, rfl, by rw [hX, hY]; rfl, hbuild⟩
  obtain ⟨cost, hcost⟩ := empty_run S hb hs eps heps alpha cfg.burnIn cfg.nIters
  have hcalls := BNNSystem.calls_world S cfg _ cfg.nIters _ _ cost hcost
  set results : List (Sample × Fl) := (List.range cfg.nIters).map (fun k : Nat =>
    let arrays := List.ofFn fun i : Fin n => flat fun _ : Pos (sizes shape) i => .nan
    (BNNSystem.attach shape (if (k : Int) < cfg.burnIn then .many arrays else unravel arrays), cost k)) with hresults
  have hrlen : results.length = cfg.nIters := by simp [hresults]
  obtain ⟨h1, h2, h3⟩ := C58_collect cfg hnets (S.world cfg) [] [] {} none _ () _ hp (fun _ => rfl) results (by
    rw [hrlen, hcalls, hresults, List.map_map]
    rfl) (.inl hrlen)
  refine ⟨h1, h2, ?_⟩
  rw [h3, hresults, BNNSystem.zipIdx_range_map, List.filter_map, List.map_map, BNNSystem.storedIdx, ← List.map_take]
  apply List.map_congr_left
  intro k hk
  have hk' := (List.mem_filter.1 (List.mem_of_mem_take hk)).2
  simp only [Function.comp, Bool.and_eq_true, decide_eq_true_eq] at hk'
  simp only [Function.comp]
  rw [if_neg (by omega), BNNSystem.attach_unravel hn]
  simp only [flat, List.ofFn_const]

/-- A network with two scalar variables, three networks to be stored: two rows with one label are rejected, no rows at all are accepted. -/
noncomputable example (R : RNG) (glob : R.State) (order : Nat → SGHMC.Schedule (Fin 2)) :
    ∃ (S : BNNSystem.Setup R 1 (fun _ : Fin 2 => [])) (cfg : Cfg), (2 : Nat) ≠ 1 ∧ 0 < cfg.nNets ∧ 0 < cfg.nIters ∧ 0 < S.batchSize ∧ SeedOk S.seed ∧
      S.schedule = ⟨[.fin 0.01]⟩ ∧ BNNSystem.MdecayIs S 0.05 ∧
      (∀ p ∈ BNNSampler.samplerKwargs S.kwargs, p.1 ∈ (Sampling.callerParams .sghmc).map Sampling.Param.name) ∧
      (BNNSystem.storedIdx cfg).length = 3 ∧ ([.fin 1] : List Fl).length ≠ ([fun _ => .fin 1, fun _ => .fin 2] : BaseModel.Rows (Fin 1)).length :=
  ⟨BNNSystem.realSetup R (fun θ x => (Real.tanh (θ 0 ⟨0, by decide⟩ * x 0), θ 1 ⟨0, by decide⟩)) 2 (.int 1) 0.01 [] ![true, false]
    (fun _ _ => 2) (fun _ _ => 1) (fun _ _ _ => 0) order glob, ⟨3, 10, 3, 2, true, true⟩, by decide, by decide, by decide,
    Nat.zero_lt_two, .inr (.inr ⟨1, rfl, by norm_num, by norm_num⟩), rfl, .inr ⟨rfl, by norm_num⟩,
    by simp [BNNSystem.realSetup, BNNSampler.samplerKwargs], by decide, by simp⟩

end PySGMCMC.BNNMalformed
