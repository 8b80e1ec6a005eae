import Verif.Lemmas.TensorRow
import Verif.Lemmas.BNN
import Verif.Props.SampleChains

/-!
# Properties of the class `BayesianNeuralNetwork`: construction, training, prediction of stored networks

C57, C58, C59, C60, C67
-/

namespace PySGMCMC.BNN

open BaseModel (Rows)

variable {D : Nat} {ω H C : Type}

/-! ## C57 -/

/-- The documented argument types. -/
structure ValidArgs (a : CtorArgs) : Prop where
  nNets : a.nNets.isInt = true ∧ 0 < a.nNets.toInt
  nIters : a.nIters.isInt = true ∧ 0 < a.nIters.toInt
  burnInSteps : a.burnInSteps.isInt = true ∧ 0 ≤ a.burnInSteps.toInt
  sampleSteps : a.sampleSteps.isInt = true ∧ 0 < a.sampleSteps.toInt
  batchSize : a.batchSize.isInt = true ∧ 0 < a.batchSize.toInt
  dtype : a.dtype.isDType = true
  getNet : a.getNet.isCallable = true
  batchGenerator : a.batchGenerator.isCallable = true
  schedule : a.stepsizeSchedule.hasAttr "update" = true ∧ a.stepsizeSchedule.hasAttr "__next__" = true

/-- **C57** The constructor succeeds exactly for valid arguments and a supported sampling method; invalid arguments give
`AssertionError` (whatever the method), an unsupported method with otherwise valid arguments gives `ValueError`. -/
theorem C57_construct (a : CtorArgs) :
    (construct a = .ok () ↔ ValidArgs a ∧ Sampling.isSupported a.samplingMethod = true) ∧
    (construct a = .error .assertion ↔ ¬ ValidArgs a) ∧
    (construct a = .error (.value "sampling_method") ↔ ValidArgs a ∧ Sampling.isSupported a.samplingMethod = false) := by
  have key : (ValidArgs a ∧ construct a = if Sampling.isSupported a.samplingMethod then .ok () else .error (.value "sampling_method"))
      ∨ (¬ ValidArgs a ∧ construct a = .error .assertion) := by
    unfold construct
    by_cases h1 : (!a.nNets.isInt) = true
    · rw [if_pos h1]; right; refine ⟨fun v => ?_, rfl⟩; simp [v.nNets.1] at h1
    rw [if_neg h1]
    by_cases h2 : (!a.nIters.isInt) = true
    · rw [if_pos h2]; right; refine ⟨fun v => ?_, rfl⟩; simp [v.nIters.1] at h2
    rw [if_neg h2]
    by_cases h3 : (!a.burnInSteps.isInt) = true
    · rw [if_pos h3]; right; refine ⟨fun v => ?_, rfl⟩; simp [v.burnInSteps.1] at h3
    rw [if_neg h3]
    by_cases h4 : (!a.sampleSteps.isInt) = true
    · rw [if_pos h4]; right; refine ⟨fun v => ?_, rfl⟩; simp [v.sampleSteps.1] at h4
    rw [if_neg h4]
    by_cases h5 : (!a.batchSize.isInt) = true
    · rw [if_pos h5]; right; refine ⟨fun v => ?_, rfl⟩; simp [v.batchSize.1] at h5
    rw [if_neg h5]
    by_cases h6 : (!a.dtype.isDType) = true
    · rw [if_pos h6]; right; refine ⟨fun v => ?_, rfl⟩; simp [v.dtype] at h6
    rw [if_neg h6]
    by_cases h7 : ¬ a.nNets.toInt > 0
    · rw [if_pos h7]; right; refine ⟨fun v => ?_, rfl⟩; exact h7 v.nNets.2
    rw [if_neg h7]
    by_cases h8 : ¬ a.nIters.toInt > 0
    · rw [if_pos h8]; right; refine ⟨fun v => ?_, rfl⟩; exact h8 v.nIters.2
    rw [if_neg h8]
    by_cases h9 : ¬ a.burnInSteps.toInt ≥ 0
    · rw [if_pos h9]; right; refine ⟨fun v => ?_, rfl⟩; exact h9 v.burnInSteps.2
    rw [if_neg h9]
    by_cases h10 : ¬ a.sampleSteps.toInt > 0
    · rw [if_pos h10]; right; refine ⟨fun v => ?_, rfl⟩; exact h10 v.sampleSteps.2
    rw [if_neg h10]
    by_cases h11 : ¬ a.batchSize.toInt > 0
    · rw [if_pos h11]; right; refine ⟨fun v => ?_, rfl⟩; exact h11 v.batchSize.2
    rw [if_neg h11]
    by_cases h12 : (!a.getNet.isCallable) = true
    · rw [if_pos h12]; right; refine ⟨fun v => ?_, rfl⟩; simp [v.getNet] at h12
    rw [if_neg h12]
    by_cases h13 : (!a.batchGenerator.isCallable) = true
    · rw [if_pos h13]; right; refine ⟨fun v => ?_, rfl⟩; simp [v.batchGenerator] at h13
    rw [if_neg h13]
    by_cases h14 : (!a.stepsizeSchedule.hasAttr "update") = true
    · rw [if_pos h14]; right; refine ⟨fun v => ?_, rfl⟩; simp [v.schedule.1] at h14
    rw [if_neg h14]
    by_cases h15 : (!a.stepsizeSchedule.hasAttr "__next__") = true
    · rw [if_pos h15]; right; refine ⟨fun v => ?_, rfl⟩; simp [v.schedule.2] at h15
    rw [if_neg h15]
    left
    refine ⟨⟨⟨by simpa using h1, by simpa using h7⟩, ⟨by simpa using h2, by simpa using h8⟩,
      ⟨by simpa using h3, by simpa using h9⟩, ⟨by simpa using h4, by simpa using h10⟩,
      ⟨by simpa using h5, by simpa using h11⟩, by simpa using h6, by simpa using h12, by simpa using h13,
      ⟨by simpa using h14, by simpa using h15⟩⟩, ?_⟩
    cases Sampling.isSupported a.samplingMethod <;> simp
  rcases key with ⟨hv, hc⟩ | ⟨hv, hc⟩
  · rw [hc]
    cases Sampling.isSupported a.samplingMethod <;> simp [hv]
  · rw [hc]
    simp [hv]

/-- The defaults are valid. -/
example : ValidArgs
    { dtype := .obj [] false false true
      getNet := .obj [] true false false
      batchGenerator := .obj [] true false false
      stepsizeSchedule := .obj ["update", "__next__"] false false false } :=
  ⟨by decide, by decide, by decide, by decide, by decide, by decide, by decide, by decide, by decide⟩

/-! ## The stages of `train` -/

/-- A `train` call on a matrix whose preparations (network, cost, batch generator, sampler, initializer) succeed: the
sampler handle `h`, the data `d` used for training and the world `w'` in which sampling starts. -/
structure Prepared (cfg : Cfg) (W : World D ω H C) (rows : Rows (Fin D)) (y : List Fl) (b : Bnn D) (w : ω)
    (d : TrainData D) (h : H) (w' : ω) : Prop where
  prepared : ∃ (net : Net D) (w1 w2 : ω), W.getNet b.nPlaceholders w = (.ok net, w1) ∧
    W.costGraph net w1 = (.ok (), w2) ∧
    d = ⟨(normalizedX cfg b rows).1, (normalizedY cfg b y).1, b.nPlaceholders, W.trainable w2⟩ ∧
    W.buildSampler d w2 = (.ok h, w')

@[simp] theorem normalizedX_ph (cfg : Cfg) (b : Bnn D) (rows : Rows (Fin D)) :
    (normalizedX cfg b rows).2.nPlaceholders = b.nPlaceholders ∧ (normalizedX cfg b rows).2.isTrained = b.isTrained ∧
    (normalizedX cfg b rows).2.samples = b.samples ∧ (normalizedX cfg b rows).2.netOutput = b.netOutput ∧
    (normalizedX cfg b rows).2.networkParams = b.networkParams ∧ (normalizedX cfg b rows).2.yStats = b.yStats := by
  unfold normalizedX; split <;> simp

@[simp] theorem normalizedY_ph (cfg : Cfg) (b : Bnn D) (y : List Fl) :
    (normalizedY cfg b y).2.nPlaceholders = b.nPlaceholders ∧ (normalizedY cfg b y).2.isTrained = b.isTrained ∧
    (normalizedY cfg b y).2.samples = b.samples ∧ (normalizedY cfg b y).2.netOutput = b.netOutput ∧
    (normalizedY cfg b y).2.networkParams = b.networkParams ∧ (normalizedY cfg b y).2.xStats = b.xStats := by
  unfold normalizedY; split <;> simp

theorem normalizedY_fst (cfg : Cfg) (b b' : Bnn D) (y : List Fl) : (normalizedY cfg b y).1 = (normalizedY cfg b' y).1 := by
  unfold normalizedY; split <;> rfl

/-- What a prepared `train` call does. -/
theorem train_eq (cfg : Cfg) (W : World D ω H C) (rows : Rows (Fin D)) (y : List Fl) (b : Bnn D) (w : ω)
    (d : TrainData D) (h : H) (w' : ω) (hp : Prepared cfg W rows y b w d h w') :
    ∃ b' : Bnn D, b'.isTrained = b.isTrained ∧ b'.networkParams = d.params ∧ b'.xMinibatch = some d.placeholder ∧
      (∃ net w1, W.getNet d.placeholder w = (.ok net, w1) ∧ b'.netOutput = some net) ∧
      b'.xStats = (normalizedX cfg b rows).2.xStats ∧ b'.yStats = (normalizedY cfg b y).2.yStats ∧
      train cfg W (.matrix rows) y b w =
        ((trainLoop cfg (W.next h) (W.logError d) cfg.nIters 0 [] w').1,
         { b' with samples := (trainLoop cfg (W.next h) (W.logError d) cfg.nIters 0 [] w').2.1,
                   isTrained := match (trainLoop cfg (W.next h) (W.logError d) cfg.nIters 0 [] w').1 with
                     | .ok () => true
                     | .error _ => b.isTrained },
         (trainLoop cfg (W.next h) (W.logError d) cfg.nIters 0 [] w').2.2) := by
  obtain ⟨net, w1, w2, h1, h2, h3, h4⟩ := hp.prepared
  have hY : (normalizedY cfg (normalizedX cfg b rows).2 y).1 = (normalizedY cfg b y).1 := normalizedY_fst _ _ _ _
  have hn : (normalizedY cfg (normalizedX cfg b rows).2 y).2.nPlaceholders = b.nPlaceholders := by simp
  have hYs : (normalizedY cfg (normalizedX cfg b rows).2 y).2.yStats = (normalizedY cfg b y).2.yStats := by
    unfold normalizedY; split
    · rfl
    · simp
  refine ⟨{ (normalizedY cfg (normalizedX cfg b rows).2 y).2 with
      data := some ((normalizedX cfg b rows).1, (normalizedY cfg b y).1), xMinibatch := some b.nPlaceholders, nPlaceholders := b.nPlaceholders + 1, netOutput := some net,
      networkParams := W.trainable w2, samples := [] }, by simp, by rw [h3], by rw [h3],
      ⟨net, w1, by rw [h3]; exact h1, rfl⟩, by simp, hYs, ?_⟩
  unfold train
  simp only [hn, h1, h2, hY, ← h3, h4]
  rcases hl : trainLoop cfg (W.next h) (W.logError d) cfg.nIters 0 [] w' with ⟨r, samples, w''⟩
  cases r with
  | error e => simp
  | ok u => cases u; rfl

/-! ## C58 -/

/-- **C58** Let the sampler deliver `results` and then either be cut off by `n_iters` or stop by itself.  Then `train`
succeeds and the stored networks are exactly the outputs with an index `i`, `burn_in_steps < i` and `i` divisible by
`sample_steps`, in order, cut off after `n_nets`. -/
theorem C58_collect (cfg : Cfg) (hn : 0 < cfg.nNets) (W : World D ω H C) (rows : Rows (Fin D)) (y : List Fl) (b : Bnn D)
    (w : ω) (d : TrainData D) (h : H) (w' : ω) (hp : Prepared cfg W rows y b w d h w')
    (hlog : ∀ v, W.logError d v = .ok ()) (results : List (Sample × C))
    (hres : (calls (W.next h) results.length w').1 = results.map .ok)
    (hend : results.length = cfg.nIters ∨ results.length < cfg.nIters ∧
      (W.next h (calls (W.next h) results.length w').2).1 = .error .stopIteration) :
    (train cfg W (.matrix rows) y b w).1 = .ok () ∧
    (train cfg W (.matrix rows) y b w).2.1.isTrained = true ∧
    (train cfg W (.matrix rows) y b w).2.1.samples =
      ((results.zipIdx.filter fun p => decide (cfg.burnIn < p.2) && decide (p.2 % cfg.sampleSteps = 0)).map (·.1.1)).take cfg.nNets := by
  obtain ⟨b', -, -, -, -, -, -, htr⟩ := train_eq cfg W rows y b w d h w' hp
  have hle : results.length ≤ cfg.nIters := by rcases hend with h | h <;> omega
  obtain ⟨hA, hB⟩ := trainLoop_spec cfg (W.next h) (W.logError d) hlog results cfg.nIters 0 [] w' hres (by simpa using hn) hle
  have key : ∃ w'', trainLoop cfg (W.next h) (W.logError d) cfg.nIters 0 [] w' = (.ok (), (kept cfg results 0).take cfg.nNets, w'') := by
    by_cases hq : cfg.nNets ≤ (kept cfg results 0).length
    · obtain ⟨k, -, -, -, hkl, hkt⟩ := hA (by simpa using hq)
      refine ⟨(calls (W.next h) k w').2, ?_⟩
      rw [hkt, kept_take]
      simp only [List.length_nil, Nat.zero_add] at hkl
      rw [hkl]
      simp
    · have hB := hB (by simp; omega)
      have htake : (kept cfg results 0).take cfg.nNets = kept cfg results 0 := List.take_of_length_le (by omega)
      rw [hB, htake]
      rcases hend with he | ⟨he, hs⟩
      · rw [he, Nat.sub_self]
        exact ⟨_, rfl⟩
      · obtain ⟨f, hf⟩ : ∃ f, cfg.nIters - results.length = f + 1 := ⟨cfg.nIters - results.length - 1, by omega⟩
        rw [hf, trainLoop]
        rcases hnx : W.next h (calls (W.next h) results.length w').2 with ⟨r, w''⟩
        rw [hnx] at hs
        simp only at hs
        subst hs
        exact ⟨w'', by simp⟩
  obtain ⟨w'', hk⟩ := key
  rw [htr, hk]
  exact ⟨rfl, rfl, rfl⟩

/-- **C58** Training stops as soon as `n_nets` networks are stored: if the sampler delivers `results` and enough of them
are eligible, the sampler is advanced exactly up to the `n_nets`-th eligible output and no further. -/
theorem C58_stops (cfg : Cfg) (hn : 0 < cfg.nNets) (W : World D ω H C) (rows : Rows (Fin D)) (y : List Fl) (b : Bnn D)
    (w : ω) (d : TrainData D) (h : H) (w' : ω) (hp : Prepared cfg W rows y b w d h w')
    (hlog : ∀ v, W.logError d v = .ok ()) (results : List (Sample × C))
    (hres : (calls (W.next h) results.length w').1 = results.map .ok) (hle : results.length ≤ cfg.nIters)
    (hq : cfg.nNets ≤ ((List.range results.length).filter (Eligible cfg)).length) :
    ∃ k, 0 < k ∧ k ≤ results.length ∧ Eligible cfg (k - 1) = true ∧
      ((List.range k).filter (Eligible cfg)).length = cfg.nNets ∧
      (train cfg W (.matrix rows) y b w).1 = .ok () ∧
      (train cfg W (.matrix rows) y b w).2.1.samples.length = cfg.nNets ∧
      (train cfg W (.matrix rows) y b w).2.2 = (calls (W.next h) k w').2 := by
  obtain ⟨b', -, -, -, -, -, -, htr⟩ := train_eq cfg W rows y b w d h w' hp
  obtain ⟨hA, -⟩ := trainLoop_spec cfg (W.next h) (W.logError d) hlog results cfg.nIters 0 [] w' hres (by simpa using hn) hle
  obtain ⟨k, hk0, hk, hke, hkl, hkt⟩ := hA (by simpa [kept_length] using hq)
  refine ⟨k, hk0, hk, by simpa using hke, ?_, ?_⟩
  · simp only [List.length_nil, Nat.zero_add, kept_length] at hkl
    rwa [List.length_take_of_le hk] at hkl
  · rw [htr, hkt]
    exact ⟨rfl, by simpa using hkl, rfl⟩

/-- **C58** A sampler error before enough networks are stored is passed on; the networks stored so far remain in the
object, which does not become trained. -/
theorem C58_failure (cfg : Cfg) (hn : 0 < cfg.nNets) (W : World D ω H C) (rows : Rows (Fin D)) (y : List Fl) (b : Bnn D)
    (w : ω) (d : TrainData D) (h : H) (w' : ω) (hp : Prepared cfg W rows y b w d h w')
    (hlog : ∀ v, W.logError d v = .ok ()) (results : List (Sample × C))
    (hres : (calls (W.next h) results.length w').1 = results.map .ok) (hlt : results.length < cfg.nIters)
    (hq : ((List.range results.length).filter (Eligible cfg)).length < cfg.nNets) (e : PyErr) (he : e ≠ .stopIteration)
    (herr : (W.next h (calls (W.next h) results.length w').2).1 = .error e) :
    (train cfg W (.matrix rows) y b w).1 = .error e ∧
    (train cfg W (.matrix rows) y b w).2.1.isTrained = b.isTrained ∧
    (train cfg W (.matrix rows) y b w).2.1.samples = kept cfg results 0 := by
  obtain ⟨b', -, -, -, -, -, -, htr⟩ := train_eq cfg W rows y b w d h w' hp
  obtain ⟨-, hB⟩ := trainLoop_spec cfg (W.next h) (W.logError d) hlog results cfg.nIters 0 [] w' hres (by simpa using hn) hlt.le
  have hB := hB (by simpa [kept_length] using hq)
  obtain ⟨f, hf⟩ : ∃ f, cfg.nIters - results.length = f + 1 := ⟨cfg.nIters - results.length - 1, by omega⟩
  have : ∃ w'', trainLoop cfg (W.next h) (W.logError d) cfg.nIters 0 [] w' = (.error e, kept cfg results 0, w'') := by
    rw [hB, hf, trainLoop]
    rcases hnx : W.next h (calls (W.next h) results.length w').2 with ⟨r, w''⟩
    rw [hnx] at herr
    simp only at herr
    subst herr
    refine ⟨w'', ?_⟩
    cases e <;> simp at he ⊢
  obtain ⟨w'', hk⟩ := this
  rw [htr, hk]
  exact ⟨rfl, rfl, rfl⟩

/-! ## C59 -/

/-- **C59** (partial: the property fails for some configurations, see `C59_violated`)  If the sampler delivers all
`n_iters` outputs, training succeeds and the number of stored networks is the smaller of `n_nets` and
`⌊(n_iters - 1) / sample_steps⌋ - ⌊burn_in_steps / sample_steps⌋`; it is `n_nets` exactly for those configurations for
which the latter number is at least `n_nets`. -/
theorem C59_count_partial (cfg : Cfg) (hn : 0 < cfg.nNets) (hi : 0 < cfg.nIters) (W : World D ω H C) (rows : Rows (Fin D))
    (y : List Fl) (b : Bnn D) (w : ω) (d : TrainData D) (h : H) (w' : ω) (hp : Prepared cfg W rows y b w d h w')
    (hlog : ∀ v, W.logError d v = .ok ()) (results : List (Sample × C)) (hlen : results.length = cfg.nIters)
    (hres : (calls (W.next h) results.length w').1 = results.map .ok) :
    (train cfg W (.matrix rows) y b w).1 = .ok () ∧
    (train cfg W (.matrix rows) y b w).2.1.samples.length =
      min cfg.nNets ((cfg.nIters - 1) / cfg.sampleSteps - cfg.burnIn / cfg.sampleSteps) ∧
    ((train cfg W (.matrix rows) y b w).2.1.samples.length = cfg.nNets ↔
      cfg.nNets ≤ (cfg.nIters - 1) / cfg.sampleSteps - cfg.burnIn / cfg.sampleSteps) := by
  obtain ⟨h1, -, h3⟩ := C58_collect cfg hn W rows y b w d h w' hp hlog results hres (Or.inl hlen)
  have h4 : (train cfg W (.matrix rows) y b w).2.1.samples.length =
      min cfg.nNets ((cfg.nIters - 1) / cfg.sampleSteps - cfg.burnIn / cfg.sampleSteps) := by
    rw [h3, List.length_take]
    have := kept_length cfg results
    rw [hlen, show cfg.nIters = (cfg.nIters - 1) + 1 by omega, eligible_count] at this
    rw [← this]
    rfl
  refine ⟨h1, h4, ?_⟩
  rw [h4]
  omega

/-- With the default configuration there are always enough iterations. -/
example : 100 ≤ (50000 - 1) / 100 - 1000 / 100 := by norm_num

/-! ## C60 -/

/-- What can happen to a network between two predictions: `train` calls and arbitrary changes of the world. -/
inductive Event (D : Nat) (ω : Type) where
  | train (X : Input D) (y : List Fl)
  | outside (f : ω → ω)

/-- The outcomes of the `train` calls of a history, and the final state. -/
noncomputable def runEvents (cfg : Cfg) (W : World D ω H C) : List (Event D ω) → Bnn D → ω → List (Except PyErr Unit) × Bnn D × ω
  | [], b, w => ([], b, w)
  | .train X y :: es, b, w =>
    let r := train cfg W X y b w
    let rest := runEvents cfg W es r.2.1 r.2.2
    (r.1 :: rest.1, rest.2)
  | .outside f :: es, b, w => runEvents cfg W es b (f w)

/-- A `train` call makes the object trained exactly if it succeeds; otherwise the flag stays. -/
theorem train_isTrained (cfg : Cfg) (W : World D ω H C) (X : Input D) (y : List Fl) (b : Bnn D) (w : ω) :
    (train cfg W X y b w).2.1.isTrained = true ↔ b.isTrained = true ∨ (train cfg W X y b w).1 = .ok () := by
  cases X with
  | other => simp [train]
  | matrix rows =>
    unfold train
    simp only
    rcases W.getNet _ w with ⟨_ | net, w1⟩
    · simp
    rcases hc : W.costGraph net w1 with ⟨_ | u, w2⟩
    · simp [hc]
    simp only [hc]
    rcases W.buildSampler _ w2 with ⟨_ | hd, w3⟩
    · simp
    simp only [normalizedX_ph, normalizedY_ph]
    generalize trainLoop cfg (W.next hd) (W.logError ⟨(normalizedX cfg b rows).1,
      (normalizedY cfg (normalizedX cfg b rows).2 y).1, b.nPlaceholders, W.trainable w2⟩) cfg.nIters 0 [] w3 = r
    rcases r with ⟨_ | u, samples, w4⟩
    · simp
    · simp

theorem runEvents_isTrained (cfg : Cfg) (W : World D ω H C) (es : List (Event D ω)) : ∀ (b : Bnn D) (w : ω),
    (runEvents cfg W es b w).2.1.isTrained = true ↔ b.isTrained = true ∨ .ok () ∈ (runEvents cfg W es b w).1 := by
  induction es with
  | nil => intro b w; simp [runEvents]
  | cons e es ih =>
    intro b w
    cases e with
    | train X y =>
      simp only [runEvents, ih, train_isTrained, List.mem_cons]
      tauto
    | outside f => simp only [runEvents, ih]

theorem mapM_error_of {α β : Type} (f : α → Except PyErr β) (bad : PyErr) (hf : ∀ a, f a ≠ .error bad) :
    ∀ l : List α, l.mapM f ≠ .error bad := by
  intro l
  induction l with
  | nil => simp [pure, Except.pure]
  | cons a as ih =>
    rw [List.mapM_cons]
    cases hfa : f a with
    | error e =>
      intro hc
      simp only [bind, Except.bind] at hc
      exact hf a (by rw [hfa, Except.error.inj hc])
    | ok b =>
      cases hr : as.mapM f with
      | error e =>
        intro hc
        simp only [bind, Except.bind] at hc
        exact ih (by rw [hr, Except.error.inj hc])
      | ok bs => simp [bind, Except.bind, pure, Except.pure]

theorem computeNetworkOutput_ne (W : World D ω H C) (b : Bnn D) (w : ω) (s : Sample) {N : Nat} (X : Fin N → Fin D → Fl) :
    computeNetworkOutput W b w s X ≠ .error (.value "untrained") := by
  unfold computeNetworkOutput
  cases hz : zipParams b.networkParams s with
  | error e =>
    intro hc
    simp only [bind, Except.bind] at hc
    cases s with
    | many l => simp [zipParams] at hz
    | one t =>
      rw [Except.error.inj hc] at hz
      simp only [zipParams] at hz
      split at hz <;> simp at hz
  | ok pairs =>
    simp only [bind, Except.bind]
    split
    · split
      · simp
      · split <;> simp
    · simp

/-- **C60** After any history of `train` calls (failing or not, with arbitrary interference from outside) on a new network,
`predict` raises the `ValueError` about an untrained network exactly if no `train` call of the history succeeded. -/
theorem C60_untrained (cfg : Cfg) (W : World D ω H C) (es : List (Event D ω)) (w : ω) {N : Nat} (X : Fin N → Fin D → Fl)
    (individual : Bool) :
    predict cfg W (runEvents cfg W es {} w).2.1 (runEvents cfg W es {} w).2.2 X individual = .error (.value "untrained") ↔
      .ok () ∉ (runEvents cfg W es ({} : Bnn D) w).1 := by
  have ht := runEvents_isTrained cfg W es ({} : Bnn D) w
  generalize runEvents cfg W es ({} : Bnn D) w = r at *
  simp only [Bool.false_eq_true, false_or] at ht
  rw [← not_iff_not, not_not, ← ht]
  constructor
  · intro h
    by_contra hc
    simp only [Bool.not_eq_true] at hc
    exact h (by simp [predict, hc])
  · intro h hc
    unfold predict at hc
    simp only [h, Bool.not_true, Bool.false_eq_true, if_false] at hc
    cases hX : testInput cfg r.2.1 X with
    | error e =>
      simp only [hX, bind, Except.bind] at hc
      unfold testInput at hX
      split at hX
      · split at hX <;> simp_all
      · cases hX
    | ok X' =>
      simp only [hX, bind, Except.bind] at hc
      cases hm : (r.2.1.samples.mapM fun s => computeNetworkOutput W r.2.1 r.2.2 s X') with
      | error e =>
        rw [hm] at hc
        simp only at hc
        exact mapM_error_of _ _ (fun s => computeNetworkOutput_ne W r.2.1 r.2.2 s X') _ (by rw [hm, Except.error.inj hc])
      | ok outs =>
        rw [hm] at hc
        simp only at hc
        unfold labelStats at hc
        split at hc
        · rename_i hs
          split at hs
          · split at hs <;> simp_all
          · cases hs
        · cases hc

/-- **C60** In particular a failing first `train` call leaves the network untrained. -/
theorem C60_failed_first (cfg : Cfg) (W : World D ω H C) (X : Input D) (y : List Fl) (w : ω) (e : PyErr)
    (hf : (train cfg W X y {} w).1 = .error e) {N : Nat} (T : Fin N → Fin D → Fl) (individual : Bool) :
    predict cfg W (train cfg W X y {} w).2.1 (train cfg W X y {} w).2.2 T individual = .error (.value "untrained") := by
  have := (C60_untrained cfg W [.train X y] w T individual).2 (by simp [runEvents, hf])
  simpa [runEvents] using this

/-! ## C67 -/

/-- The value the `k`-th variable has among stored parameter values. -/
theorem ofList_zip {vars : List Nat} {l : List (Tensor Fl)} (hd : vars.Nodup) (hl : l.length = vars.length) (k : Nat)
    (v : Nat) (hv : vars[k]? = some v) : Dict.ofList (vars.zip l) v = l[k]? := by
  induction vars generalizing l k with
  | nil => simp at hv
  | cons x xs ih =>
    obtain ⟨a, as, rfl⟩ : ∃ a as, l = a :: as := by
      cases l with
      | nil => simp at hl
      | cons a as => exact ⟨a, as, rfl⟩
    rw [List.nodup_cons] at hd
    cases k with
    | zero =>
      obtain rfl : x = v := by simpa using hv
      have hnone : Dict.ofList (xs.zip as) x = none := by
        apply ofList_none
        intro hm
        obtain ⟨p, hp, he⟩ := List.mem_map.1 hm
        exact hd.1 (he ▸ (List.of_mem_zip (a := p.1) (b := p.2) hp).1)
      simp [Dict.ofList, hnone]
    | succ k =>
      have := ih hd.2 (by simpa using hl) k (by simpa using hv)
      have hlt : k < as.length := by
        have := (List.getElem?_eq_some_iff.1 hv).1
        simp at this hl; omega
      simp only [List.zip_cons_cons, Dict.ofList, this]
      rw [List.getElem?_eq_getElem hlt]
      simp [List.getElem?_eq_getElem hlt]

/-- **C67** (partial: networks with a single variable fail, see `C67_single_variable`)  For a stored list of parameter
values, one per network variable and of its shape, `compute_network_output` is the network's output with every network
variable at exactly its stored value, whatever the variables currently hold. -/
theorem C67_stored_partial (W : World D ω H C) (b : Bnn D) (w : ω) (l : List (Tensor Fl)) {N : Nat} (X : Fin N → Fin D → Fl)
    (net : Net D) (hnet : b.netOutput = some net) (hph : b.xMinibatch = some net.input) (hd : b.networkParams.Nodup)
    (hl : l.length = b.networkParams.length)
    (hshape : ∀ (k v : Nat) (t : Tensor Fl), b.networkParams[k]? = some v → l[k]? = some t → t.shape = W.varShape v) :
    ∃ assign : Nat → Tensor Fl, computeNetworkOutput W b w (.many l) X = .ok (net.eval assign X) ∧
      (∀ k v : Nat, b.networkParams[k]? = some v → l[k]? = some (assign v)) ∧
      (∀ v, v ∉ b.networkParams → assign v = W.varValue w v) := by
  refine ⟨fun v => (Dict.ofList (b.networkParams.zip l) v).getD (W.varValue w v), ?_, ?_, ?_⟩
  · have hall : ((b.networkParams.zip l).all fun p => p.2.shape == W.varShape p.1) = true := by
      rw [List.all_eq_true]
      intro p hp
      obtain ⟨k, hk⟩ := List.mem_iff_getElem?.1 hp
      rw [List.getElem?_zip_eq_some] at hk
      simp [hshape k p.1 p.2 hk.1 hk.2]
    simp [computeNetworkOutput, zipParams, hnet, hph, hall, bind, Except.bind]
  · intro k v hv
    have hlt : k < l.length := by rw [hl]; exact (List.getElem?_eq_some_iff.1 hv).1
    simp only [ofList_zip hd hl k v hv, List.getElem?_eq_getElem hlt, Option.getD_some]
  · intro v hv
    have : Dict.ofList (b.networkParams.zip l) v = none := by
      apply ofList_none
      intro hm
      obtain ⟨p, hp, he⟩ := List.mem_map.1 hm
      exact hv (he ▸ (List.of_mem_zip (a := p.1) (b := p.2) hp).1)
    simp [this]

/-- **C67** For a network with one variable of shape `n :: ds`, `n ≥ 1`, the stored sample is a single array, and
`compute_network_output` fails with `ValueError`; for a scalar variable it fails with `TypeError`. -/
theorem C67_single_variable (W : World D ω H C) (b : Bnn D) (w : ω) (v : Nat) (t : Tensor Fl) {N : Nat}
    (X : Fin N → Fin D → Fl) (hp : b.networkParams = [v]) (ht : t.shape = W.varShape v)
    (hph : b.xMinibatch.isSome = true) (hnet : b.netOutput.isSome = true) :
    (∀ n ds, W.varShape v = (n + 1) :: ds → computeNetworkOutput W b w (.one t) X = .error (.value "feed_dict")) ∧
    (W.varShape v = [] → computeNetworkOutput W b w (.one t) X = .error .type) := by
  obtain ⟨ph, hph⟩ := Option.isSome_iff_exists.1 hph
  obtain ⟨net, hnet⟩ := Option.isSome_iff_exists.1 hnet
  constructor
  · intro n ds hs
    rw [hs] at ht
    have hne : ¬ ds = (n + 1) :: ds := by
      intro h; have := congrArg List.length h; simp at this
    simp [computeNetworkOutput, zipParams, ht, hp, hph, hnet, bind, Except.bind, List.range_succ_eq_map, hs, hne]
  · intro hs
    rw [hs] at ht
    simp [computeNetworkOutput, zipParams, ht, bind, Except.bind]

/-- **C67** A stored single array with a first axis is treated like the list of its entries `t[0]`, `t[1]`, … -/
theorem C67_array (W : World D ω H C) (b : Bnn D) (w : ω) (t : Tensor Fl) (n : Nat) (ds : List Nat)
    (ht : t.shape = n :: ds) {N : Nat} (X : Fin N → Fin D → Fl) :
    ∃ l : List (Tensor Fl), l.length = n ∧
      (∀ i < n, ∃ s, l[i]? = some s ∧ s.shape = ds ∧ ∀ idx, s.get idx = t.get (i :: idx)) ∧
      computeNetworkOutput W b w (.one t) X = computeNetworkOutput W b w (.many l) X := by
  refine ⟨(List.range n).map fun i => ⟨ds, (t.data.drop (i * ds.prod)).take ds.prod⟩, by simp, ?_, ?_⟩
  · intro i hi
    refine ⟨⟨ds, (t.data.drop (i * ds.prod)).take ds.prod⟩, ?_, rfl, t.sub_get n ds ht i hi⟩
    rw [List.getElem?_map, List.getElem?_range hi]
    rfl
  · unfold computeNetworkOutput
    simp only [zipParams, ht]

open SamplerBase in
/-- **C67** The form of the stored networks when the sampler is a burn-in sampler (SGHMC, SGLD) with the network's `nP`
variables: for `nP ≠ 1` each is a list of `nP` arrays (so `C67_stored_partial` applies), for `nP = 1` each is a single
array (so `C67_single_variable` applies); all are drawn after burn-in. -/
theorem C67_forms_partial {E : Env (Tensor Fl) C} (nP : Nat) (hE : ReturnsParams E nP) (cfg : Cfg)
    (hn : 0 < cfg.nNets) (W : World D (Sampler E) H C) (rows : Rows (Fin D)) (y : List Fl) (b : Bnn D) (w : Sampler E)
    (d : TrainData D) (h : H) (batch : Option E.Batch) (sched : E.Sched) (graph : E.Graph)
    (hp : Prepared cfg W rows y b w d h (init batch sched graph))
    (hnext : W.next h = asIter (burnInNext E cfg.burnIn nP))
    (hlog : ∀ v, W.logError d v = .ok ()) (results : List (Sample × C))
    (hres : (calls (W.next h) results.length (init batch sched graph)).1 = results.map .ok)
    (hend : results.length = cfg.nIters ∨ results.length < cfg.nIters ∧
      (W.next h (calls (W.next h) results.length (init batch sched graph)).2).1 = .error .stopIteration) :
    ∀ s ∈ (train cfg W (.matrix rows) y b w).2.1.samples,
      (nP ≠ 1 → ∃ l, s = .many l ∧ l.length = nP) ∧ (nP = 1 → ∃ v, s = .one v) := by
  obtain ⟨-, -, h3⟩ := C58_collect cfg hn W rows y b w d h _ hp hlog results hres hend
  intro s hs
  rw [h3] at hs
  have hs := List.mem_of_mem_take hs
  obtain ⟨p, hp', rfl⟩ := List.mem_map.1 hs
  rw [List.mem_filter] at hp'
  obtain ⟨hmem, hel⟩ := hp'
  simp only [Bool.and_eq_true, decide_eq_true_eq] at hel
  obtain ⟨⟨o, c⟩, i⟩ := p
  have hi : results[i]? = some (o, c) := by
    have := List.mem_zipIdx_iff_getElem?.1 hmem
    simpa using this
  rw [hnext] at hres
  have hf := SampleChains.calls_forms E cfg.burnIn nP hE batch sched graph [] (init batch sched graph) rfl results.length
    results hres i o c hi
  refine ⟨hf.1, fun h1 => hf.2.2 h1 ?_⟩
  simp only [init]
  simp only at hel
  omega

end PySGMCMC.BNN
