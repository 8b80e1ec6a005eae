import Verif.Model.BNNDefault
import Verif.Props.BNNPosterior
import Verif.Props.SghmcInvariancePoly
import Mathlib.Analysis.Calculus.Deriv.Pi

/-!
# C109: training steps of a Bayesian neural network keep the density it targets, up to discretisation error
-/

namespace PySGMCMC.BNNPosterior
open MeasureTheory Recipe Invariance DataBatches WindowBias BNN BNNSystem Chain Spec Function
open BaseModel (lift)

variable {R : RNG} {D n : Nat} {shape : Fin n → List Nat}

/-- The outputs of a network for the rows of a dataset are smooth functions of its weights of temperate growth. -/
def SmoothNet (f : Params shape → (Fin D → ℝ) → ℝ × ℝ) (data : List ((Fin D → ℝ) × ℝ)) : Prop :=
  ∀ r ∈ data, HasTemperateGrowth (fun x : Weights shape → ℝ => (f (split x) r.1).1) ∧ HasTemperateGrowth fun x : Weights shape → ℝ => (f (split x) r.1).2

theorem rowLoss_temperate {f : Params shape → (Fin D → ℝ) → ℝ × ℝ} {data : List ((Fin D → ℝ) × ℝ)} (h : SmoothNet f data) (c : ℝ) (N : Nat)
    (r : (Fin D → ℝ) × ℝ) (hr : r ∈ data) : HasTemperateGrowth (rowLoss f c N r) := by
  obtain ⟨h1, h2⟩ := h r hr
  have e : HasTemperateGrowth fun x : Weights shape → ℝ => 1 / (Real.exp (f (split x) r.1).2 + 1e-16) :=
    (Temperate.inv_exp_add (c := 1e-16) (by norm_num)).comp h2
  have w : HasTemperateGrowth fun x : Weights shape → ℝ => ∑ i, ∑ p, split x i p ^ 2 := by
    refine HasTemperateGrowth.sum fun i _ => HasTemperateGrowth.sum fun p _ => ?_
    exact (Temperate.apply (⟨i, p⟩ : Weights shape)).pow 2
  have e2 : rowLoss f c N r = fun x => c * ((r.2 - (f (split x) r.1).1) ^ 2 * (1 / 2) * (1 / (Real.exp (f (split x) r.1).2 + 1e-16))
      + (f (split x) r.1).2 * (1 / 2))
      + ((((f (split x) r.1).2 - Real.log 1e-6) ^ 2 * (2 * 0.01 + 3e-16)⁻¹ + Real.log 0.01 / 2)
        + 1 / 2 * ((∑ i, ∑ p, split x i p ^ 2) * ((∑ i, (sizes shape i : ℝ)) + 3e-16)⁻¹)) * (N : ℝ)⁻¹ := by
    funext x
    unfold rowLoss gaussCost varPrior weightPrior
    have : Real.exp (f (split x) r.1).2 + 1e-16 ≠ 0 := by positivity
    field_simp
  rw [e2]
  fun_prop

theorem setElem_split (x : Weights shape → ℝ) (i : Fin n) (p : Pos (sizes shape) i) (t : ℝ) :
    setElem (split x) i p t = split (Function.update x ⟨i, p⟩ t) := by
  funext i' p'
  unfold setElem split
  by_cases h : i' = i
  · subst h
    rw [Function.update_self]
    by_cases h' : p' = p
    · subst h'; rw [Function.update_self, Function.update_self]
    · rw [Function.update_of_ne h', Function.update_of_ne]
      intro hc
      exact h' (eq_of_heq (Sigma.mk.inj hc).2)
  · rw [Function.update_of_ne h, Function.update_of_ne]
    intro hc
    exact h (Sigma.mk.inj hc).1

/-- The rows of a window. -/
abbrev window (data : List ((Fin D → ℝ) × ℝ)) (b s : Nat) : List ((Fin D → ℝ) × ℝ) := (data.drop s).take b

/-- TensorFlow's gradient on a minibatch. -/
theorem regular_gradient (S : Setup R D shape) (Rg : Regular S) (hB : 0 < S.batchSize) (data : List ((Fin D → ℝ) × ℝ)) (hd : data ≠ [])
    (hf : SmoothNet Rg.f data) (b : Nat) (hb : 1 ≤ b) (s : Nat) (hs : s + b ≤ data.length) (x : Weights shape → ℝ) (j : Weights shape) :
    Rg.γ data.length ((window data b s).map Prod.fst) ((window data b s).map Prod.snd) (split x) j.1 j.2
      = gradient (meanLoss (rowLoss Rg.f (b / S.batchSize) data.length) (window data b s)) x j := by
  have h0 : 0 < data.length := List.length_pos_iff.2 hd
  have hl : (window data b s).length = b := by simp; omega
  have hne : window data b s ≠ [] := fun h => by rw [h] at hl; simp at hl; omega
  have h1 := Rg.isGrad data.length ((window data b s).map Prod.fst) ((window data b s).map Prod.snd) (split x) j.1 j.2 h0 (by simpa using hne) (by simp)
  have e : (fun t => (S.cost data.length (lift ((window data b s).map Prod.fst)) (((window data b s).map Prod.snd).map .fin)
      (finP (setElem (split x) j.1 j.2 t))).val)
      = fun t => meanLoss (rowLoss Rg.f (b / S.batchSize) data.length) (window data b s) (Function.update x j t) := by
    funext t
    rw [cost_fin S Rg.f Rg.net_eq hB _ h0 _ _ (by simpa using hne) (by simp), setElem_split, cost_rows _ _ _ _ hne, hl]
    rfl
  rw [e] at h1
  have ht : HasTemperateGrowth (meanLoss (rowLoss Rg.f (b / S.batchSize) data.length) (window data b s)) :=
    meanLoss_temperate _ _ fun r hr => rowLoss_temperate hf _ _ r (List.mem_of_mem_drop (List.mem_of_mem_take hr))
  have hdiff := (ht.1.differentiable (by norm_num)) (Function.update x j (x j))
  have h2 := hdiff.hasFDerivAt.comp_hasDerivAt (x j) (hasDerivAt_update x j (x j))
  rw [Function.update_eq_self] at h2
  exact h1.unique h2

/-- The gradients on the minibatches, and their average. -/
theorem bnn_batchPoly (S : Setup R D shape) (Rg : Regular S) (hB : 0 < S.batchSize) (data : List ((Fin D → ℝ) × ℝ)) (hd : data ≠ [])
    (hf : SmoothNet Rg.f data) (b : Nat) (hb : b = min S.batchSize data.length) : ∃ (A : ℝ) (k : ℕ),
    BatchPoly (uniform (data.length - b)) (windowLoss (rowLoss Rg.f (b / S.batchSize) data.length) data b)
      (fun s x j => Rg.γ data.length ((window data b s).map Prod.fst) ((window data b s).map Prod.snd) (split x) j.1 j.2) A k := by
  have h0 : 0 < data.length := List.length_pos_iff.2 hd
  obtain ⟨A, k, h⟩ := window_poly (rowLoss Rg.f (b / S.batchSize) data.length) data b (by omega) (by omega) fun r hr => rowLoss_temperate hf _ _ r hr
  refine ⟨A, k, ?_⟩
  have e : (fun (s : Fin (data.length - b + 1)) (x : Weights shape → ℝ) (j : Weights shape) =>
      Rg.γ data.length ((window data b s).map Prod.fst) ((window data b s).map Prod.snd) (split x) j.1 j.2)
      = fun s : Fin (data.length - b + 1) => gradient (meanLoss (rowLoss Rg.f (b / S.batchSize) data.length) ((data.drop (s : Nat)).take b)) := by
    funext s x j
    exact regular_gradient S Rg hB data hd hf b (by omega) s (by omega) x j
  rw [e]
  exact h

theorem smooth_measurable {f : Params shape → (Fin D → ℝ) → ℝ × ℝ} {data : List ((Fin D → ℝ) × ℝ)} (h : SmoothNet f data) :
    ∀ r ∈ data, Measurable fun x : Weights shape → ℝ => f (split x) r.1 := fun r hr =>
  ((h r hr).1.1.continuous.measurable).prodMk (h r hr).2.1.continuous.measurable

/-- A step of SGLD on a minibatch of the dataset, as training sets it up: `scale_grad` is the number of datapoints. -/
structure SgldStep (S : Setup R D shape) (data : List ((Fin D → ℝ) × ℝ)) (batch : Batch) (ε a : ℝ) (m z : Weights shape → ℝ)
    (inp : SGLD.Inputs fun i => Pos (sizes shape) i) : Prop where
  epsilon : inp.epsilon = .fin ε
  a : inp.a = .fin a
  scale : inp.scaleGrad = .fin data.length
  fed : ∀ i, inp.fed i = some (fins m i)
  grad : inp.grad = S.grad data.length (batch.xs.read (held data).x) (batch.ys.read (held data).y)
  normal : inp.normal = fins z

/-- A step of SGHMC on a minibatch of the dataset, as training sets it up. -/
structure SghmcStep (S : Setup R D shape) (data : List ((Fin D → ℝ) × ℝ)) (batch : Batch) (ε α : ℝ) (m z : Weights shape → ℝ)
    (inp : SGHMC.Inputs fun i => Pos (sizes shape) i) : Prop where
  epsilon : inp.epsilon = .fin ε
  mdecay : inp.mdecay = .fin α
  scale : inp.scaleGrad = .fin data.length
  fed : ∀ i, inp.fed i = some (fins m i)
  grad : inp.grad = S.grad data.length (batch.xs.read (held data).x) (batch.ys.read (held data).y)
  normal : inp.normal = fins z

theorem held_read (data : List ((Fin D → ℝ) × ℝ)) (b s : Nat) (hb : b ≤ data.length) (hs : s < data.length - b + 1) (batch : Batch)
    (h : IsBatch (held data) b s batch) : batch.xs.read (held data).x = lift ((window data b s).map Prod.fst)
      ∧ batch.ys.read (held data).y = ((window data b s).map Prod.snd).map .fin := by
  have hlx : (held data).x.length = data.length := by simp [held, lift]
  have hly : (held data).y.length = data.length := by simp [held]
  obtain ⟨e1, e2⟩ := view_read h (by rw [hlx, hly]) (by omega) (by rw [hlx]; exact hs)
  rw [e1, e2]
  constructor
  · simp [held, lift, List.map_take, List.map_drop]
  · simp [held, List.map_take, List.map_drop]

theorem grad_read (S : Setup R D shape) (Rg : Regular S) (data : List ((Fin D → ℝ) × ℝ)) (b s : Nat) (hb0 : 0 < b) (hb : b ≤ data.length)
    (hs : s < data.length - b + 1) (batch : Batch) (h : IsBatch (held data) b s batch) (x : Weights shape → ℝ) :
    S.grad data.length (batch.xs.read (held data).x) (batch.ys.read (held data).y) (fins x)
      = fins fun j => Rg.γ data.length ((window data b s).map Prod.fst) ((window data b s).map Prod.snd) (split x) j.1 j.2 := by
  obtain ⟨e1, e2⟩ := held_read data b s hb hs batch h
  rw [e1, e2]
  refine Rg.grad_eq _ _ _ (split x) (by omega) ?_ (by simp)
  refine List.ne_nil_of_length_pos ?_
  simp only [window, List.length_map, List.length_take, List.length_drop]
  omega

/-- **C109** One step of training with SGLD after burn-in, on a random minibatch, leaves the density that training targets (C108) invariant up to
`K ε√ε`, for every network whose outputs are smooth of temperate growth in its weights. -/
theorem C109_sgld (S : Setup R D shape) (Rg : Regular S) (hB : 0 < S.batchSize) (data : List ((Fin D → ℝ) × ℝ)) (hd : data ≠ [])
    (hf : SmoothNet Rg.f data) (b : Nat) (hb : b = min S.batchSize data.length) (gen : Fin (data.length - b + 1) → Batch)
    (hgen : ∀ s : Fin (data.length - b + 1), IsBatch (held data) b s (gen s)) (a : ℝ) (ha : 0 ≤ a) (m : Weights shape → ℝ) (hm : ∀ j, 0 ≤ m j)
    (π : Measure (Weights shape → ℝ)) (hπ : π = boltz fun x => (1 + 3e-16 / data.length) * potential Rg.f data S.batchSize (split x))
    (N : Measure (Weights shape → ℝ)) (hN : N = Measure.pi fun _ => ProbabilityTheory.gaussianReal 0 1)
    (g : (Weights shape → ℝ) → ℝ) (hg : ContDiff ℝ 3 g) (hc : HasCompactSupport g) :
    ∃ K, ∀ ε, 0 ≤ ε → ∀ (σ : SGLD.Schedule (Fin n)) (inp : Fin (data.length - b + 1) → (Weights shape → ℝ) → SGLD.Inputs fun i => Pos (sizes shape) i)
      (s : ((Weights shape → ℝ) × Fin (data.length - b + 1)) × (Weights shape → ℝ) → SGLD.State fun i => Pos (sizes shape) i),
      (∀ β z, SgldStep S data (gen β) ε a m z (inp β z)) →
      (∀ q i, ((s q).par i).vec = fins q.1.1 i ∧ ((s q).par i).param = fins q.1.1 i) →
      ∃ X : ((Weights shape → ℝ) × Fin (data.length - b + 1)) × (Weights shape → ℝ) → Weights shape → ℝ, Measurable X ∧
        (∀ q, (SGLD.run (inp q.1.2 q.2) σ (s q)).params = fins (X q)) ∧
        |∫ q, g (X q) ∂((π.prod (uniform (data.length - b))).prod N) - ∫ x, g x ∂π| ≤ K * (ε * √ε) := by
  have h0 : 0 < data.length := List.length_pos_iff.2 hd
  have h0' : (0 : ℝ) < data.length := by exact_mod_cast h0
  obtain ⟨A, k, hγ⟩ := bnn_batchPoly S Rg hB data hd hf b hb
  have e : π = boltz fun x => ((data.length : ℝ) + 3e-16) * windowLoss (rowLoss Rg.f (b / S.batchSize) data.length) data b x + 0 := by
    rw [hπ]
    congr 1
    funext x
    subst hb
    rw [← scaled_windowLoss Rg.f data hd S.batchSize hB x]
    field_simp
    ring
  obtain ⟨i1, i2⟩ := C108_proper Rg.f data hd S.batchSize hB (smooth_measurable hf) (1 + 3e-16 / data.length) (by positivity)
  rw [← hπ] at i1 i2
  have hU : ContDiff ℝ 1 (windowLoss (rowLoss Rg.f (b / S.batchSize) data.length) data b) :=
    windowLoss_smooth _ data b fun r hr => (rowLoss_temperate hf _ _ r hr).1.of_le (by norm_cast)
  subst hN
  obtain ⟨K, hK⟩ := C103_sgld_polynomial _ hU a data.length 0 ha h0' m hm (uniform (data.length - b)) _ A k hγ _ unitNoise_gauss moments_gauss π e i2 g hg hc
  refine ⟨K, fun ε hε σ inp s hinp hst => hK ε hε σ inp s (fun β z => ?_) hst⟩
  have h := hinp β z
  exact ⟨h.epsilon, h.a, h.scale, h.fed, fun x => by rw [h.grad]; exact grad_read S Rg data b β (by omega) (by omega) β.2 _ (hgen β) x, h.normal⟩

/-- **C109** One step of training with SGHMC after burn-in, on a random minibatch, leaves the density that training targets (C108), as the density of the
resting point, invariant up to `K (1 + W) ε³`. -/
theorem C109_sghmc (S : Setup R D shape) (Rg : Regular S) (hB : 0 < S.batchSize) (data : List ((Fin D → ℝ) × ℝ)) (hd : data ≠ [])
    (hf : SmoothNet Rg.f data) (b : Nat) (hb : b = min S.batchSize data.length) (gen : Fin (data.length - b + 1) → Batch)
    (hgen : ∀ s : Fin (data.length - b + 1), IsBatch (held data) b s (gen s)) (α : ℝ) (hα : 0 < α) (m : Weights shape → ℝ) (hm : ∀ j, 0 < m j)
    (π : Measure (Weights shape → ℝ)) (hπ : π = boltz fun x => potential Rg.f data S.batchSize (split x))
    (N : Measure (Weights shape → ℝ)) (hN : N = Measure.pi fun _ => ProbabilityTheory.gaussianReal 0 1)
    (g : (Weights shape → ℝ) → ℝ) (hg : ContDiff ℝ 3 g) (hc : HasCompactSupport g) :
    ∃ (K : ℝ) (d : ℕ), ∀ ε W, 0 ≤ ε → 0 ≤ W → (∀ j, 1e-16 ≤ 2 * (ε ^ 2 / data.length) * α * m j - (ε ^ 2 / data.length) ^ 2) →
      ∀ (Ω : Type) [MeasurableSpace Ω] (μ : Measure Ω) [IsFiniteMeasure μ] (θ w z : Ω → Weights shape → ℝ) (β : Ω → Fin (data.length - b + 1)),
      Measurable θ → Measurable w → Measurable z → Measurable β →
      μ.map (fun ω => ((fun j => θ ω j + (1 - α) / α * (ε * w ω j), β ω), z ω)) = (π.prod (uniform (data.length - b))).prod N →
      Integrable (fun ω => (1 + ‖w ω‖) ^ d) μ → ∫ ω, (1 + ‖w ω‖) ^ d ∂μ ≤ W →
      ∀ (σ : SGHMC.Schedule (Fin n)) (inp : Ω → SGHMC.Inputs fun i => Pos (sizes shape) i) (s : Ω → SGHMC.State fun i => Pos (sizes shape) i),
      (∀ ω, SghmcStep S data (gen (β ω)) ε α m (z ω) (inp ω)) →
      (∀ ω i, ((s ω).par i).vec = fins (θ ω) i ∧ ((s ω).par i).param = fins (θ ω) i ∧ ((s ω).par i).mom = fins (ε • w ω) i) →
      ∃ θ' V' : Ω → Weights shape → ℝ, Measurable θ' ∧ Measurable V' ∧
        (∀ ω i, (SGHMC.run (inp ω) σ (s ω)).params i = fins (θ' ω) i ∧ ((SGHMC.run (inp ω) σ (s ω)).par i).mom = fins (V' ω) i) ∧
        |∫ ω, g (fun j => θ' ω j + (1 - α) / α * V' ω j) ∂μ - ∫ x, g x ∂π| ≤ K * (1 + W) * ε ^ 3 := by
  have h0 : 0 < data.length := List.length_pos_iff.2 hd
  have h0' : (0 : ℝ) < data.length := by exact_mod_cast h0
  obtain ⟨A, k, hγ⟩ := bnn_batchPoly S Rg hB data hd hf b hb
  have e : π = boltz fun x => (data.length : ℝ) * windowLoss (rowLoss Rg.f (b / S.batchSize) data.length) data b x + 0 := by
    rw [hπ]
    congr 1
    funext x
    subst hb
    rw [scaled_windowLoss Rg.f data hd S.batchSize hB x, add_zero]
  obtain ⟨i1, i2⟩ := C108_proper Rg.f data hd S.batchSize hB (smooth_measurable hf) 1 one_pos
  simp only [one_mul] at i1 i2
  rw [← hπ] at i1 i2
  have hU : ContDiff ℝ 1 (windowLoss (rowLoss Rg.f (b / S.batchSize) data.length) data b) :=
    windowLoss_smooth _ data b fun r hr => (rowLoss_temperate hf _ _ r hr).1.of_le (by norm_cast)
  subst hN
  obtain ⟨K, d, hK⟩ := C105_sghmc_polynomial _ hU α data.length 0 hα h0' m hm (uniform (data.length - b)) _ A k hγ _ unitNoise_gauss moments_gauss π e i2 g hg hc
  refine ⟨K, d, fun ε W hε hW hfl Ω _ μ _ θ w z β mθ mw mz mβ hlaw iW hWW σ inp s hinp hst =>
    hK ε W hε hW hfl Ω μ θ w z β mθ mw mz mβ hlaw iW hWW σ inp s (fun ω => ?_) hst⟩
  have h := hinp ω
  exact ⟨h.epsilon, h.mdecay, h.scale, h.fed, fun x => by rw [h.grad]; exact grad_read S Rg data b (β ω) (by omega) (by omega) (β ω).2 _ (hgen (β ω)) x, h.normal⟩

/-! ## The default network -/

/-- The default network on real numbers. -/
noncomputable def defaultReal (θ : Params (defaultShape D)) (x : Fin D → ℝ) : ℝ × ℝ :=
  let l1 : RDense D 50 := ⟨fun i j => θ 0 (cell i j), fun j => θ 1 (slot j)⟩
  let l2 : RDense 50 50 := ⟨fun i j => θ 2 (cell i j), fun j => θ 3 (slot j)⟩
  let l3 : RDense 50 50 := ⟨fun i j => θ 4 (cell i j), fun j => θ 5 (slot j)⟩
  let l4 : RDense 50 1 := ⟨fun i j => θ 6 (cell i j), fun j => θ 7 (slot j)⟩
  (l4.eval id (l3.eval Real.tanh (l2.eval Real.tanh (l1.eval Real.tanh x))) 0, θ 8 (cell (a := 1) (b := 1) 0 0))

/-- **C109** Every element of a matrix (row by row) and of a vector among the variables is the weight or bias of one pair of units, or of one unit. -/
theorem C109_default_layout {a b : Nat} (v : Fin [a, b].prod → ℝ) (u : Fin [b].prod → ℝ) :
    List.ofFn v = (List.ofFn fun i : Fin a => List.ofFn fun j : Fin b => v (cell i j)).flatten ∧ List.ofFn u = List.ofFn fun j : Fin b => u (slot j) := by
  constructor
  · have e : [a, b].prod = a * b := by simp
    rw [List.ofFn_congr e, List.ofFn_mul]
    rfl
  · have e : [b].prod = b := by simp
    rw [List.ofFn_congr e]
    rfl

theorem defaultRow_real (θ : Params (defaultShape D)) (x : Fin D → ℝ) :
    defaultRow (finP θ) (fun j => .fin (x j)) = (.fin (defaultReal θ x).1, .fin (defaultReal θ x).2) := by
  have h := (C66_bounded (D := D) ⟨fun i j => θ 0 (cell i j), fun j => θ 1 (slot j)⟩ ⟨fun i j => θ 2 (cell i j), fun j => θ 3 (slot j)⟩
    ⟨fun i j => θ 4 (cell i j), fun j => θ 5 (slot j)⟩ ⟨fun i j => θ 6 (cell i j), fun j => θ 7 (slot j)⟩ (θ 8 (cell (a := 1) (b := 1) 0 0)) [x]).1
  have e : defaultNet (unpack (finP θ)) [fun j => .fin (x j)] = [(.fin (defaultReal θ x).1, .fin (defaultReal θ x).2)] := h
  unfold defaultRow
  rw [e]
  rfl

theorem layer_temperate {J : Type} [Fintype J] [DecidableEq J] {a b : Nat} (u : (J → ℝ) → Fin a → ℝ) (hu : ∀ i, HasTemperateGrowth fun x => u x i)
    (ker : Fin a → Fin b → J) (bias : Fin b → J) (act : ℝ → ℝ) (hact : HasTemperateGrowth act) (j : Fin b) :
    HasTemperateGrowth fun x : J → ℝ => RDense.eval ⟨fun i j => x (ker i j), fun j => x (bias j)⟩ act (u x) j := by
  have h : HasTemperateGrowth fun x : J → ℝ => ∑ i, u x i * x (ker i j) + x (bias j) := by fun_prop
  exact hact.comp h

/-- The default network is smooth of temperate growth in its weights. -/
theorem default_smooth (data : List ((Fin D → ℝ) × ℝ)) : SmoothNet (shape := defaultShape D) defaultReal data := fun r _ => by
  refine ⟨?_, Temperate.apply (⟨8, cell (a := 1) (b := 1) 0 0⟩ : Weights (defaultShape D))⟩
  have h1 := fun j => layer_temperate (J := Weights (defaultShape D)) (fun _ => r.1) (fun i => by fun_prop) (fun i (j : Fin 50) => ⟨0, cell i j⟩)
    (fun j => ⟨1, slot j⟩) Real.tanh Temperate.tanh j
  have h2 := fun j => layer_temperate (J := Weights (defaultShape D)) _ h1 (fun i (j : Fin 50) => ⟨2, cell i j⟩) (fun j => ⟨3, slot j⟩) Real.tanh Temperate.tanh j
  have h3 := fun j => layer_temperate (J := Weights (defaultShape D)) _ h2 (fun i (j : Fin 50) => ⟨4, cell i j⟩) (fun j => ⟨5, slot j⟩) Real.tanh Temperate.tanh j
  exact layer_temperate (J := Weights (defaultShape D)) _ h3 (fun i (j : Fin 1) => ⟨6, cell i j⟩) (fun j => ⟨7, slot j⟩) id (by fun_prop) 0

/-- **C109** The default network meets the assumptions: the function of real numbers that it computes is smooth of temperate growth in its weights. -/
theorem C109_default_network (S : Setup R D (defaultShape D)) (hS : S.net = defaultRow) (Rg : Regular S) (data : List ((Fin D → ℝ) × ℝ)) :
    Rg.f = defaultReal ∧ SmoothNet Rg.f data := by
  have e : Rg.f = defaultReal := by
    funext θ x
    have h := Rg.net_eq θ x
    rw [hS, defaultRow_real] at h
    simp only [Prod.mk.injEq, Fl.fin.injEq] at h
    exact Prod.ext h.1.symm h.2.symm
  exact ⟨e, e ▸ default_smooth data⟩

theorem smooth_setElem {f : Params shape → (Fin D → ℝ) → ℝ × ℝ} (hf : ∀ data, SmoothNet f data) (θ : Params shape) (i : Fin n) (p : Pos (sizes shape) i)
    (x : Fin D → ℝ) : Differentiable ℝ (fun t => (f (setElem θ i p t) x).1) ∧ Differentiable ℝ fun t => (f (setElem θ i p t) x).2 := by
  obtain ⟨h1, h2⟩ := hf [(x, 0)] (x, 0) (by simp)
  have e : ∀ t, setElem θ i p t = split (Function.update (fun j : Weights shape => θ j.1 j.2) ⟨i, p⟩ t) := fun t =>
    setElem_split (fun j : Weights shape => θ j.1 j.2) i p t
  have hu : Differentiable ℝ (Function.update (fun j : Weights shape => θ j.1 j.2) (⟨i, p⟩ : Weights shape)) := fun t =>
    (hasDerivAt_update _ _ t).differentiableAt
  simp only [e]
  exact ⟨(h1.1.differentiable (by norm_num)).comp hu, (h2.1.differentiable (by norm_num)).comp hu⟩

/-- A network object with the default network, and the gradient of its cost. -/
noncomputable def defaultSetup (R : RNG) (D batchSize : Nat) (seed : PyVal) (eps : ℝ) (kwargs : List (String × Val R D)) (paramFirst : Fin 9 → Bool)
    (θ₁ θ₀ : Params (defaultShape D)) (z : Nat → Params (defaultShape D)) (order : Nat → SGHMC.Schedule (Fin 9)) (glob : R.State) :
    Setup R D (defaultShape D) :=
  { realSetup R defaultReal batchSize seed eps kwargs paramFirst θ₁ θ₀ z order glob with net := defaultRow }

/-- The default network meets the assumptions on TensorFlow. -/
noncomputable def defaultSetup_regular (R : RNG) (D batchSize : Nat) (hb : 0 < batchSize) (seed : PyVal) (eps : ℝ) (kwargs : List (String × Val R D))
    (paramFirst : Fin 9 → Bool) (θ₁ θ₀ : Params (defaultShape D)) (z : Nat → Params (defaultShape D)) (order : Nat → SGHMC.Schedule (Fin 9)) (glob : R.State) :
    Regular (defaultSetup R D batchSize seed eps kwargs paramFirst θ₁ θ₀ z order glob) where
  f := defaultReal
  net_eq θ x := defaultRow_real θ x
  γ := (realSetup_regular R defaultReal batchSize hb seed eps kwargs paramFirst θ₁ θ₀ z order glob fun θ i p x => smooth_setElem default_smooth θ i p x).γ
  grad_eq := (realSetup_regular R defaultReal batchSize hb seed eps kwargs paramFirst θ₁ θ₀ z order glob fun θ i p x => smooth_setElem default_smooth θ i p x).grad_eq
  isGrad N rows ys θ i p hN hne hl := by
    have h := (realSetup_regular R defaultReal batchSize hb seed eps kwargs paramFirst θ₁ θ₀ z order glob fun θ i p x =>
      smooth_setElem default_smooth θ i p x).isGrad N rows ys θ i p hN hne hl
    have e : ∀ θ, (defaultSetup R D batchSize seed eps kwargs paramFirst θ₁ θ₀ z order glob).cost N (lift rows) (ys.map .fin) (finP θ)
        = (realSetup R defaultReal batchSize seed eps kwargs paramFirst θ₁ θ₀ z order glob).cost N (lift rows) (ys.map .fin) (finP θ) := fun θ => by
      rw [cost_fin (defaultSetup R D batchSize seed eps kwargs paramFirst θ₁ θ₀ z order glob) defaultReal defaultRow_real hb N hN rows ys hne hl,
        cost_fin (realSetup R defaultReal batchSize seed eps kwargs paramFirst θ₁ θ₀ z order glob) defaultReal (fun _ _ => rfl) hb N hN rows ys hne hl]
      rfl
    simp only [e]
    exact h

/-- A training step of the default network with SGLD, on a dataset of any size and with any batch size, from values drawn from the target density. -/
example (R : RNG) (B : Nat) (hB : 0 < B) (order : Nat → SGHMC.Schedule (Fin 9)) (glob : R.State) (data : List ((Fin D → ℝ) × ℝ)) (hd : data ≠ [])
    (g : (Weights (defaultShape D) → ℝ) → ℝ) (hg : ContDiff ℝ 3 g) (hc : HasCompactSupport g) :
    let S := defaultSetup R D B .none 0.01 [] (fun _ => true) (fun _ _ => 0) (fun _ _ => 0) (fun _ _ _ => 0) order glob
    let b := min B data.length
    let gen : Fin (data.length - b + 1) → Batch := fun s => ⟨sliceView (held data).x s (s + b), sliceView (held data).y s (s + b)⟩
    let π := boltz fun x => (1 + 3e-16 / data.length) * potential defaultReal data B (split x)
    let N := Measure.pi fun _ : Weights (defaultShape D) => ProbabilityTheory.gaussianReal 0 1
    ∃ K, ∀ ε, 0 ≤ ε → ∀ σ : SGLD.Schedule (Fin 9), ∃ X : ((Weights (defaultShape D) → ℝ) × Fin (data.length - b + 1)) × (Weights (defaultShape D) → ℝ) → _,
      Measurable X ∧
      (∀ q, (SGLD.run ⟨.fin ε, .fin data.length, .fin 1, fins q.2, S.grad data.length ((gen q.1.2).xs.read (held data).x) ((gen q.1.2).ys.read (held data).y),
        fun _ => 0, fun i => some (fins (fun _ => 1) i)⟩ σ (SGLD.State.init (fins q.1.1))).params = fins (X q)) ∧
      |∫ q, g (X q) ∂((π.prod (uniform (data.length - b))).prod N) - ∫ x, g x ∂π| ≤ K * (ε * √ε) := by
  intro S b gen π N
  have hlx : (held data).x.length = data.length := by simp [held, lift]
  obtain ⟨K, hK⟩ := C109_sgld S (defaultSetup_regular R D B hB .none 0.01 [] (fun _ => true) (fun _ _ => 0) (fun _ _ => 0) (fun _ _ _ => 0) order glob) hB data hd
    (default_smooth data) b rfl gen (fun s => isBatch_exists (held data) b (s.cast (by rw [hlx]))) 1 zero_le_one (fun _ => 1) (fun _ => zero_le_one) π rfl N rfl g hg hc
  exact ⟨K, fun ε h0 σ => hK ε h0 σ (fun β z => ⟨.fin ε, .fin data.length, .fin 1, fins z, S.grad data.length ((gen β).xs.read (held data).x)
    ((gen β).ys.read (held data).y), fun _ => 0, fun i => some (fins (fun _ => 1) i)⟩) (fun q => SGLD.State.init (fins q.1.1))
    (fun β z => ⟨rfl, rfl, rfl, fun _ => rfl, rfl, rfl⟩) fun q i => ⟨rfl, rfl⟩⟩

/-- A training step of the default network with SGHMC: the resting point is drawn from the target density, and the momentum is a standard normal
draw times `ε`. -/
example (R : RNG) (B : Nat) (hB : 0 < B) (order : Nat → SGHMC.Schedule (Fin 9)) (glob : R.State) (data : List ((Fin D → ℝ) × ℝ)) (hd : data ≠ [])
    (α : ℝ) (hα : 0 < α) (g : (Weights (defaultShape D) → ℝ) → ℝ) (hg : ContDiff ℝ 3 g) (hc : HasCompactSupport g) :
    let S := defaultSetup R D B .none 0.01 [] (fun _ => true) (fun _ _ => 0) (fun _ _ => 0) (fun _ _ _ => 0) order glob
    let b := min B data.length
    let gen : Fin (data.length - b + 1) → Batch := fun s => ⟨sliceView (held data).x s (s + b), sliceView (held data).y s (s + b)⟩
    let π := boltz fun x => potential defaultReal data B (split x)
    let N := Measure.pi fun _ : Weights (defaultShape D) => ProbabilityTheory.gaussianReal 0 1
    let κ := (1 - α) / α
    ∃ K, ∀ ε, 0 ≤ ε → 1e-16 ≤ 2 * (ε ^ 2 / data.length) * α * 1 - (ε ^ 2 / data.length) ^ 2 → ∀ σ : SGHMC.Schedule (Fin 9),
      ∃ θ' V' : (((Weights (defaultShape D) → ℝ) × Fin (data.length - b + 1)) × (Weights (defaultShape D) → ℝ)) × (Weights (defaultShape D) → ℝ)
        → Weights (defaultShape D) → ℝ, Measurable θ' ∧ Measurable V' ∧
      (∀ ω i, (SGHMC.run ⟨.fin ε, .fin data.length, .fin α, fins ω.1.2,
          S.grad data.length ((gen ω.1.1.2).xs.read (held data).x) ((gen ω.1.1.2).ys.read (held data).y), fun _ => 0, fun i => some (fins (fun _ => 1) i)⟩ σ
          ⟨fun i => { SGHMC.PState.init (fins (ω.1.1.1 - κ • ε • ω.2) i) with mom := fins (ε • ω.2) i }, 0⟩).params i = fins (θ' ω) i) ∧
      |∫ ω, g (fun j => θ' ω j + κ * V' ω j) ∂(((π.prod (uniform (data.length - b))).prod N).prod N) - ∫ x, g x ∂π| ≤ K * ε ^ 3 := by
  intro S b gen π N κ
  have hlx : (held data).x.length = data.length := by simp [held, lift]
  obtain ⟨h1, -⟩ := C108_proper (defaultReal (D := D)) data hd B hB (smooth_measurable (default_smooth data)) 1 one_pos
  simp only [one_mul] at h1
  have hfin : IsFiniteMeasure π := h1
  obtain ⟨K, d, hK⟩ := C109_sghmc S (defaultSetup_regular R D B hB .none 0.01 [] (fun _ => true) (fun _ _ => 0) (fun _ _ => 0) (fun _ _ _ => 0) order glob) hB data hd
    (default_smooth data) b rfl gen (fun s => isBatch_exists (held data) b (s.cast (by rw [hlx]))) α hα (fun _ => 1) (fun _ => one_pos) π rfl N rfl g hg hc
  let Ω := (((Weights (defaultShape D) → ℝ) × Fin (data.length - b + 1)) × (Weights (defaultShape D) → ℝ)) × (Weights (defaultShape D) → ℝ)
  let μ : Measure Ω := ((π.prod (uniform (data.length - b))).prod N).prod N
  let W : ℝ := ∫ ω : Ω, (1 + ‖ω.2‖) ^ d ∂μ
  have hW : 0 ≤ W := integral_nonneg fun _ => by positivity
  have mN : Moments N := moments_gauss
  have iW : Integrable (fun ω : Ω => (1 + ‖ω.2‖) ^ d) μ := (mN.one_add d).comp_snd _
  refine ⟨K * (1 + W), fun ε h0 hfl σ => ?_⟩
  obtain ⟨θ', V', a, b', c, e⟩ := hK ε W h0 hW (fun _ => hfl) Ω μ (fun ω => ω.1.1.1 - κ • ε • ω.2) (fun ω => ω.2) (fun ω => ω.1.2) (fun ω => ω.1.1.2)
    ((measurable_fst.comp (measurable_fst.comp measurable_fst)).sub ((measurable_snd.const_smul ε).const_smul κ)) measurable_snd
    (measurable_snd.comp measurable_fst) (measurable_snd.comp (measurable_fst.comp measurable_fst))
    (by
      have e : (fun ω : Ω => ((fun j => (ω.1.1.1 - κ • ε • ω.2) j + (1 - α) / α * (ε * ω.2 j), ω.1.1.2), ω.1.2)) = Prod.fst := by
        funext ω
        have : (fun j => (ω.1.1.1 - κ • ε • ω.2) j + (1 - α) / α * (ε * ω.2 j)) = ω.1.1.1 := by
          funext j; simp [κ]
        rw [this]
      rw [e]
      exact measurePreserving_fst.map_eq)
    iW le_rfl σ
    (fun ω => ⟨.fin ε, .fin data.length, .fin α, fins ω.1.2, S.grad data.length ((gen ω.1.1.2).xs.read (held data).x) ((gen ω.1.1.2).ys.read (held data).y),
      fun _ => 0, fun i => some (fins (fun _ => 1) i)⟩)
    (fun ω => ⟨fun i => { SGHMC.PState.init (fins (ω.1.1.1 - κ • ε • ω.2) i) with mom := fins (ε • ω.2) i }, 0⟩)
    (fun ω => ⟨rfl, rfl, rfl, fun _ => rfl, rfl, rfl⟩) fun ω i => ⟨rfl, rfl, rfl⟩
  exact ⟨θ', V', a, b', fun ω i => (c ω i).1, e⟩

/-- Three rows, two at a time: the middle row counts twice as much as the others. -/
example (R : RNG) (order : Nat → SGHMC.Schedule (Fin 9)) (glob : R.State) (r₀ r₁ r₂ : (Fin D → ℝ) × ℝ) (θ : Params (defaultShape D)) :
    let S := defaultSetup R D 2 .none 0.01 [] (fun _ => true) (fun _ _ => 0) (fun _ _ => 0) (fun _ _ _ => 0) order glob
    let d := held [r₀, r₁, r₂]
    let cost := fun s => (S.cost 3 ((sliceView d.x s (s + 2)).read d.x) ((sliceView d.y s (s + 2)).read d.y) (finP θ)).val
    3 * ((cost 0 + cost 1) / 2) = 3 / 4 * gaussCost (defaultReal θ r₀.1) r₀.2 + 3 / 2 * gaussCost (defaultReal θ r₁.1) r₁.2
      + 3 / 4 * gaussCost (defaultReal θ r₂.1) r₂.2 + varPrior (θ 8 (cell (a := 1) (b := 1) 0 0)) + weightPrior θ := by
  intro S d cost
  have h := (C108_target_partial S defaultReal defaultRow_real Nat.zero_lt_two [r₀, r₁, r₂] (by simp) 2 rfl
    (fun s => ⟨sliceView d.x s (s + 2), sliceView d.y s (s + 2)⟩) (fun s => isBatch_exists d 2 s) θ).2
  have hw : weight 3 2 0 = 1 / 4 ∧ weight 3 2 1 = 1 / 2 ∧ weight 3 2 2 = 1 / 4 := by
    unfold weight freq; norm_num
  have hc : (∑ s : Fin ([r₀, r₁, r₂].length - 2 + 1), (S.cost [r₀, r₁, r₂].length ((sliceView d.x s (s + 2)).read d.x) ((sliceView d.y s (s + 2)).read d.y) (finP θ)).val)
      = cost 0 + cost 1 := Fin.sum_univ_two _
  have hp : potential defaultReal [r₀, r₁, r₂] S.batchSize θ = 3 / 4 * gaussCost (defaultReal θ r₀.1) r₀.2 + 3 / 2 * gaussCost (defaultReal θ r₁.1) r₁.2
      + 3 / 4 * gaussCost (defaultReal θ r₂.1) r₂.2 + varPrior (θ 8 (cell (a := 1) (b := 1) 0 0)) + weightPrior θ := by
    have e : potential defaultReal [r₀, r₁, r₂] S.batchSize θ
        = (power 3 2 0 * gaussCost (defaultReal θ r₀.1) r₀.2 + power 3 2 1 * gaussCost (defaultReal θ r₁.1) r₁.2 + power 3 2 2 * gaussCost (defaultReal θ r₂.1) r₂.2)
          + (weight 3 2 0 * varPrior (θ 8 (cell (a := 1) (b := 1) 0 0)) + weight 3 2 1 * varPrior (θ 8 (cell (a := 1) (b := 1) 0 0))
            + weight 3 2 2 * varPrior (θ 8 (cell (a := 1) (b := 1) 0 0))) + weightPrior θ := by
      exact congrArg₂ (· + ·) (congrArg₂ (· + ·) (Fin.sum_univ_three _) (Fin.sum_univ_three _)) rfl
    rw [e]
    unfold power
    rw [show min 2 3 = 2 from rfl, hw.1, hw.2.1, hw.2.2]
    push_cast
    ring
  rw [hp, hc] at h
  rw [← h]
  norm_num

/-- **C95** for the default network: training succeeds on every dataset without constant columns. -/
theorem C95_default_network (R : RNG) (B : Nat) (hB : 0 < B) (seed : PyVal) (hs : SeedOk seed) (eps : ℝ) (paramFirst : Fin 9 → Bool)
    (θ₁ θ₀ : Params (defaultShape D)) (z : Nat → Params (defaultShape D)) (order : Nat → SGHMC.Schedule (Fin 9)) (glob : R.State) (cfg : Cfg)
    (hnets : 0 < cfg.nNets) (X : List (Fin D → ℝ)) (y : List ℝ) (hX : X ≠ []) (hl : y.length = X.length)
    (hnx : cfg.normalizeInput = true → ∀ j, BaseModel.NonConstant X j) (hny : cfg.normalizeOutput = true → ∃ v ∈ y, ∃ v' ∈ y, v ≠ v') :
    let S := defaultSetup R D B seed eps [] paramFirst θ₁ θ₀ z order glob
    let r := train cfg (S.world cfg) (.matrix (lift X)) (y.map .fin) {} none
    r.1 = .ok () ∧ r.2.1.samples.length = (storedIdx cfg).length := by
  intro S r
  obtain ⟨x, start, h⟩ := C95_train_and_predict S (defaultSetup_regular R D B hB seed eps [] paramFirst θ₁ θ₀ z order glob) cfg (by decide) hnets hB hs eps rfl 0.05
    (.inr ⟨rfl, by norm_num⟩) (fun p hp => absurd hp (List.not_mem_nil)) θ₁ θ₀ rfl rfl z (fun _ => rfl) X y hX hl hnx hny
  refine ⟨h.2.1, ?_⟩
  rw [h.2.2.1, List.length_map]

end PySGMCMC.BNNPosterior
