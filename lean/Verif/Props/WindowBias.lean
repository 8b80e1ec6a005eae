import Verif.Props.DataBatches
import Verif.Props.Invariance
import Mathlib.Probability.ProbabilityMassFunction.Integrals
import Mathlib.Probability.Distributions.Uniform

/-!
# C106: which density samplers target with minibatches from `generate_batches`

The average of the minibatch gradients is the gradient of a weighted average loss, in which row `i` of `N` has weight
`min(i+1, b, N-b+1, N-i) / (b (N-b+1))`.
-/

namespace PySGMCMC.WindowBias
open MeasureTheory Recipe Invariance DataBatches

/-- Number of windows that contain row `i`. -/
def freq (N b i : Nat) : Nat := min (min (i + 1) b) (min (N - b + 1) (N - i))

/-- The weight of row `i`. -/
noncomputable def weight (N b i : Nat) : ℝ := freq N b i / (b * (N - b + 1 : Nat))

theorem card_windows (N b i : Nat) (hN : b ≤ N) (hi : i < N) :
    ((Finset.range (N - b + 1)).filter fun s => s ≤ i ∧ i < s + b).card = freq N b i := by
  have h : ((Finset.range (N - b + 1)).filter fun s => s ≤ i ∧ i < s + b) = Finset.Icc (i + 1 - b) (min i (N - b)) := by
    ext s
    simp only [Finset.mem_filter, Finset.mem_range, Finset.mem_Icc]
    omega
  rw [h, Nat.card_Icc]
  unfold freq
  omega

/-- Adding up all windows. -/
theorem sum_windows (N b : Nat) (hN : b ≤ N) (g : Nat → ℝ) :
    ∑ s ∈ Finset.range (N - b + 1), ∑ i ∈ Finset.range b, g (s + i) = ∑ i ∈ Finset.range N, freq N b i * g i := by
  have h1 : ∀ s ∈ Finset.range (N - b + 1), ∑ i ∈ Finset.range b, g (s + i)
      = ∑ i ∈ Finset.range N, if s ≤ i ∧ i < s + b then g i else 0 := fun s hs => by
    rw [Finset.mem_range] at hs
    rw [← Finset.sum_filter]
    have : (Finset.range N).filter (fun i => s ≤ i ∧ i < s + b) = Finset.Ico s (s + b) := by
      ext i; simp only [Finset.mem_filter, Finset.mem_range, Finset.mem_Ico]; omega
    rw [this, Finset.sum_Ico_eq_sum_range, Nat.add_sub_cancel_left]
  rw [Finset.sum_congr rfl h1, Finset.sum_comm]
  refine Finset.sum_congr rfl fun i hi => ?_
  rw [← Finset.sum_filter, Finset.sum_const, card_windows N b i hN (Finset.mem_range.1 hi), nsmul_eq_mul]

theorem sum_weight (N b : Nat) (hb : 1 ≤ b) (hN : b ≤ N) : ∑ i ∈ Finset.range N, weight N b i = 1 := by
  have h := sum_windows N b hN fun _ => 1
  simp only [mul_one, Finset.sum_const, Finset.card_range, nsmul_eq_mul] at h
  unfold weight
  rw [← Finset.sum_div, ← h]
  have : (0 : ℝ) < b := by exact_mod_cast hb
  have : (0 : ℝ) < (N - b + 1 : Nat) := by positivity
  field_simp

/-- The weights are those of the average over all rows exactly if `b = 1` or `b = N`. -/
theorem weight_uniform_iff (N b : Nat) (hb : 1 ≤ b) (hN : b ≤ N) : (∀ i < N, weight N b i = 1 / N) ↔ (b = 1 ∨ b = N) := by
  have hb' : (0 : ℝ) < b := by exact_mod_cast hb
  have hM : (0 : ℝ) < (N - b + 1 : Nat) := by positivity
  have hN' : (0 : ℝ) < N := by exact_mod_cast (by omega : 0 < N)
  have key : ∀ i, weight N b i = 1 / N ↔ freq N b i * N = b * (N - b + 1) := fun i => by
    unfold weight
    rw [div_eq_div_iff (by positivity) (by positivity), one_mul]
    exact_mod_cast Iff.rfl
  constructor
  · intro h
    have h0 := (key 0).1 (h 0 (by omega))
    have e : freq N b 0 = 1 := by unfold freq; omega
    rw [e, one_mul] at h0
    by_contra hc
    push Not at hc
    obtain ⟨c, rfl⟩ : ∃ c, b = c + 2 := ⟨b - 2, by omega⟩
    obtain ⟨d, rfl⟩ : ∃ d, N = c + 3 + d := ⟨N - (c + 3), by omega⟩
    have e2 : c + 3 + d - (c + 2) + 1 = d + 2 := by omega
    rw [e2] at h0
    nlinarith
  · intro h i hi
    rw [key]
    rcases h with rfl | rfl
    · have : freq N 1 i = 1 := by unfold freq; omega
      rw [this]; omega
    · have : freq b b i = 1 := by unfold freq; omega
      rw [this]
      rw [Nat.sub_self]; omega

variable {α : Type} {J : Type} [Fintype J] [DecidableEq J]

/-- Average loss of the rows. -/
noncomputable def meanLoss (ℓ : α → (J → ℝ) → ℝ) (rows : List α) (x : J → ℝ) : ℝ := (rows.map fun r => ℓ r x).sum / rows.length

/-- Weighted average loss of the rows of a dataset. -/
noncomputable def windowLoss (ℓ : α → (J → ℝ) → ℝ) (data : List α) (b : Nat) (x : J → ℝ) : ℝ :=
  ∑ i : Fin data.length, weight data.length b i * ℓ data[i] x

/-- Gradient. -/
noncomputable def gradient (U : (J → ℝ) → ℝ) (x : J → ℝ) : J → ℝ := fun j => partialD U j x

/-- Rows with labels. -/
abbrev rowsOf {α β : Type} (d : Data α β) : List (α × β) := d.x.zip d.y

/-- The rows with labels that a batch shows. -/
abbrev batchRows {α β : Type} (d : Data α β) (batch : Batch) : List (α × β) := (batch.xs.read d.x).zip (batch.ys.read d.y)

/-- The batches a running generator of `generate_batches` yields, by the position drawn. -/
def IsBatch {α β : Type} (d : Data α β) (b s : Nat) (batch : Batch) : Prop :=
  ∃ (R : RNG) (a : Args) (rng : R.State) (w : World R α β), w.data = d ∧ (R.randint rng (d.x.length - b + 1)).1 = s
    ∧ (nextBatch R a (.running rng d.x.length b, w)).1 = .ok batch

theorem batch_read {α β : Type} {d : Data α β} {b s : Nat} {batch : Batch} (h : IsBatch d b s batch) (hlen : d.y.length = d.x.length)
    (hN : b ≤ d.x.length) (hs : s < d.x.length - b + 1) : batchRows d batch = ((rowsOf d).drop s).take b := by
  obtain ⟨R, a, rng, w, rfl, h1, h2⟩ := h
  unfold nextBatch drawBatch at h2
  simp only [Except.ok.injEq] at h2
  rw [h1] at h2
  rw [← h2]
  have e1 : min s w.data.x.length = s := by omega
  have e2 : min (s + b) w.data.x.length = s + b := by omega
  simp only [batchRows, View.read, sliceView, hlen, e1, e2, Nat.add_sub_cancel_left, List.zip_eq_zipWith, List.take_zipWith, List.drop_zipWith, rowsOf]

theorem partialD_smul {U : (J → ℝ) → ℝ} {x : J → ℝ} (hU : DifferentiableAt ℝ U x) (c : ℝ) (j : J) : partialD (fun x => c * U x) j x = c * partialD U j x := by
  unfold partialD
  rw [(hU.hasFDerivAt.const_mul c).fderiv]
  simp

theorem partialD_sum {κ : Type} (t : Finset κ) (c : κ → ℝ) (U : κ → (J → ℝ) → ℝ) {x : J → ℝ} (hU : ∀ k ∈ t, DifferentiableAt ℝ (U k) x) (j : J) :
    partialD (fun x => ∑ k ∈ t, c k * U k x) j x = ∑ k ∈ t, c k * partialD (U k) j x := by
  unfold partialD
  rw [(HasFDerivAt.fun_sum fun k hk => ((hU k hk).hasFDerivAt.const_mul (c k))).fderiv]
  simp

/-- Item `i`, for an index that is given as a natural number. -/
noncomputable def item (data : List α) (h : data ≠ []) (i : Nat) : α := data[i]?.getD (data.head h)

theorem item_eq (data : List α) (h : data ≠ []) (i : Nat) (hi : i < data.length) : item data h i = data[i] := by
  unfold item; rw [List.getElem?_eq_getElem hi]; rfl

theorem window_sum (data : List α) (h : data ≠ []) (b s : Nat) (hs : s + b ≤ data.length) (g : α → ℝ) :
    (((data.drop s).take b).map g).sum = ∑ i ∈ Finset.range b, g (item data h (s + i)) := by
  have hl : ((data.drop s).take b).length = b := by simp; omega
  have e : ((data.drop s).take b).map g = (List.range b).map fun i => g (item data h (s + i)) := by
    apply List.ext_getElem
    · simp; omega
    · intro i h1 h2
      simp only [List.length_map, List.length_range] at h2
      simp only [List.getElem_map, List.getElem_take, List.getElem_drop, List.getElem_range]
      rw [item_eq _ _ _ (by omega)]
  have key : ∀ (n : Nat) (F : Nat → ℝ), ((List.range n).map F).sum = ∑ i ∈ Finset.range n, F i := fun n F => by
    induction n with
    | zero => rfl
    | succ n ih => rw [List.range_succ, List.map_append, List.sum_append, ih, Finset.sum_range_succ]; simp
  rw [e, key]

/-- All starting positions are equally likely. -/
noncomputable abbrev uniform (M : Nat) : Measure (Fin (M + 1)) := (PMF.uniformOfFintype (Fin (M + 1))).toMeasure

theorem uniform_integral (M : Nat) (F : Fin (M + 1) → ℝ) : ∫ s, F s ∂uniform M = (∑ s, F s) / (M + 1 : Nat) := by
  rw [PMF.integral_eq_sum]
  simp only [PMF.uniformOfFintype_apply, Fintype.card_fin, smul_eq_mul]
  rw [← Finset.mul_sum, ENNReal.toReal_inv, ENNReal.toReal_natCast]
  field_simp

variable {β : Type}

theorem meanLoss_gradient (ℓ : α → (J → ℝ) → ℝ) (data : List α) (h : data ≠ []) (b : Nat) (hℓ : ∀ r ∈ data, ContDiff ℝ 1 (ℓ r)) (s : Nat)
    (hs : s + b ≤ data.length) (x : J → ℝ) (j : J) :
    gradient (meanLoss ℓ ((data.drop s).take b)) x j = (∑ i ∈ Finset.range b, gradient (ℓ (item data h (s + i))) x j) / b := by
  have hl : ((data.drop s).take b).length = b := by simp; omega
  have e : meanLoss ℓ ((data.drop s).take b) = fun x => ∑ i ∈ Finset.range b, (1 / b : ℝ) * ℓ (item data h (s + i)) x := by
    funext x
    unfold meanLoss
    rw [window_sum data h b s hs, hl, ← Finset.mul_sum, one_div_mul_eq_div]
  unfold gradient
  rw [e, partialD_sum]
  · rw [← Finset.mul_sum, one_div_mul_eq_div]
  · intro i hi
    rw [Finset.mem_range] at hi
    rw [item_eq _ _ _ (by omega)]
    exact (hℓ _ (List.getElem_mem _)).differentiable (by norm_num) x

theorem windowLoss_smooth (ℓ : α → (J → ℝ) → ℝ) (data : List α) (b : Nat) (hℓ : ∀ r ∈ data, ContDiff ℝ 1 (ℓ r)) :
    ContDiff ℝ 1 (windowLoss ℓ data b) :=
  ContDiff.sum fun i _ => contDiff_const.mul (hℓ _ (List.getElem_mem _))

theorem window_item (ℓ : α → (J → ℝ) → ℝ) (data : List α) (h : data ≠ []) (b : Nat) (hN : b ≤ data.length) (hℓ : ∀ r ∈ data, ContDiff ℝ 1 (ℓ r)) :
    (∀ (s : Fin (data.length - b + 1)) i, i ∈ Finset.range b → item data h (s + i) ∈ data)
    ∧ ∀ (s : Fin (data.length - b + 1)) x j, gradient (meanLoss ℓ ((data.drop s).take b)) x j
      = (∑ i ∈ Finset.range b, gradient (ℓ (item data h (s + i))) x j) / b := by
  have hg : ∀ s : Fin (data.length - b + 1), (s : Nat) + b ≤ data.length := fun s => by omega
  refine ⟨fun s i hi => ?_, fun s x j => meanLoss_gradient ℓ data h b hℓ s (hg s) x j⟩
  rw [Finset.mem_range] at hi
  have := hg s
  rw [item_eq _ _ _ (by omega)]
  exact List.getElem_mem _

theorem window_measurable (ℓ : α → (J → ℝ) → ℝ) (data : List α) (b : Nat) (hb : 1 ≤ b) (hN : b ≤ data.length)
    (hℓ : ∀ r ∈ data, ContDiff ℝ 1 (ℓ r)) :
    Measurable fun y : (J → ℝ) × Fin (data.length - b + 1) => gradient (meanLoss ℓ ((data.drop y.2).take b)) y.1 := by
  have h : data ≠ [] := fun h => by simp [h] at hN; omega
  obtain ⟨hmem, e⟩ := window_item ℓ data h b hN hℓ
  refine measurable_from_prod_countable_left fun s => ?_
  refine measurable_pi_iff.2 fun j => ?_
  simp only [e]
  refine (Finset.measurable_sum _ fun i hi => ?_).div_const _
  have hc : Continuous fun x => gradient (ℓ (item data h (s + i))) x j :=
    ((hℓ _ (hmem s i hi)).continuous_fderiv (by norm_num)).clm_apply continuous_const
  exact hc.measurable

/-- On average over the windows the gradient of the average loss is the gradient of the weighted average loss. -/
theorem window_mean (ℓ : α → (J → ℝ) → ℝ) (data : List α) (b : Nat) (hb : 1 ≤ b) (hN : b ≤ data.length)
    (hℓ : ∀ r ∈ data, ContDiff ℝ 1 (ℓ r)) (x : J → ℝ) (j : J) :
    ∫ s, gradient (meanLoss ℓ ((data.drop s).take b)) x j ∂uniform (data.length - b) = partialD (windowLoss ℓ data b) j x := by
  have h : data ≠ [] := fun h => by simp [h] at hN; omega
  obtain ⟨hmem, e⟩ := window_item ℓ data h b hN hℓ
  rw [uniform_integral]
  simp only [e]
  rw [← Finset.sum_div, ← Finset.sum_range (n := data.length - b + 1) (f := fun s => ∑ i ∈ Finset.range b, gradient (ℓ (item data h (s + i))) x j),
    sum_windows _ _ hN fun i => gradient (ℓ (item data h i)) x j]
  unfold windowLoss
  rw [partialD_sum]
  · rw [Finset.sum_range]
    rw [div_div, Finset.sum_div]
    refine Finset.sum_congr rfl fun i _ => ?_
    rw [item_eq _ _ _ i.2]
    unfold weight gradient
    simp only [Fin.getElem_fin]
    ring
  · intro i _
    exact (hℓ _ (List.getElem_mem _)).differentiable (by norm_num) x

theorem window_gradient (ℓ : α → (J → ℝ) → ℝ) (data : List α) (b : Nat) (hb : 1 ≤ b) (hN : b ≤ data.length)
    (hℓ : ∀ r ∈ data, ContDiff ℝ 1 (ℓ r)) (Λ : ℝ) (hΛ : 0 ≤ Λ)
    (hlip : ∀ r ∈ data, ∀ x x', ‖gradient (ℓ r) x - gradient (ℓ r) x'‖ ≤ Λ * ‖x - x'‖) :
    BatchGrad (uniform (data.length - b)) (windowLoss ℓ data b) (fun s => gradient (meanLoss ℓ ((data.drop s).take b))) Λ := by
  have h : data ≠ [] := fun h => by simp [h] at hN; omega
  have hb' : (0 : ℝ) < b := by exact_mod_cast hb
  obtain ⟨hmem, e⟩ := window_item ℓ data h b hN hℓ
  refine ⟨window_measurable ℓ data b hb hN hℓ, hΛ, fun s x x' => ?_, fun x j => Integrable.of_finite, window_mean ℓ data b hb hN hℓ⟩
  refine (pi_norm_le_iff_of_nonneg (by positivity)).2 fun j => ?_
  rw [Pi.sub_apply, e, e, ← sub_div, ← Finset.sum_sub_distrib, norm_div, Real.norm_of_nonneg hb'.le, div_le_iff₀ hb']
  refine (norm_sum_le _ _).trans ((Finset.sum_le_sum fun i hi => (?_ : _ ≤ Λ * ‖x - x'‖)).trans (le_of_eq ?_))
  · exact (norm_le_pi_norm (gradient (ℓ (item data h (s + i))) x - gradient (ℓ (item data h (s + i))) x') j).trans (hlip _ (hmem s i hi) x x')
  · rw [Finset.sum_const, Finset.card_range, nsmul_eq_mul, mul_comm]

/-- **C106** (what holds) On average over the windows `generate_batches` draws from, the gradient of the average loss of a minibatch is the gradient of a
weighted average loss of all rows. Missing: the weights are not `1/N`, see `C106_unbiased_iff` and `C106_violated`. -/
theorem C106_gradient_partial (ℓ : α × β → (J → ℝ) → ℝ) (d : Data α β) (hlen : d.y.length = d.x.length) (b : Nat) (hb : 1 ≤ b) (hN : b ≤ d.x.length)
    (hℓ : ∀ r ∈ rowsOf d, ContDiff ℝ 1 (ℓ r)) (Λ : ℝ) (hΛ : 0 ≤ Λ)
    (hlip : ∀ r ∈ rowsOf d, ∀ x x', ‖gradient (ℓ r) x - gradient (ℓ r) x'‖ ≤ Λ * ‖x - x'‖)
    (gen : Fin (d.x.length - b + 1) → Batch) (hgen : ∀ s : Fin (d.x.length - b + 1), IsBatch d b s (gen s)) :
    BatchGrad (uniform (d.x.length - b)) (windowLoss ℓ (rowsOf d) b) (fun s => gradient (meanLoss ℓ (batchRows d (gen s)))) Λ := by
  have e0 : ∀ s, batchRows d (gen s) = ((rowsOf d).drop s).take b := fun s => batch_read (hgen s) hlen hN s.2
  simp only [e0]
  have hl : (rowsOf d).length = d.x.length := by simp [hlen]
  rw [← hl] at hN ⊢
  exact window_gradient ℓ (rowsOf d) b hb hN hℓ Λ hΛ hlip

/-- **C106** The weighted average is the average, whatever the dataset and the loss, exactly if minibatches have one row or all rows. -/
theorem C106_unbiased_iff (N b : Nat) (hb : 1 ≤ b) (hN : b ≤ N) :
    (∀ (data : List Nat) (ℓ : Nat → (J → ℝ) → ℝ), data.length = N → windowLoss ℓ data b = meanLoss ℓ data) ↔ (b = 1 ∨ b = N) := by
  have hN0 : 0 < N := by omega
  rw [← weight_uniform_iff N b hb hN]
  constructor
  · intro h i hi
    have := congrFun (h (List.range N) (fun r _ => if r = i then 1 else 0) (by simp)) 0
    unfold windowLoss meanLoss at this
    have e1 : (List.map (fun r => if r = i then (1 : ℝ) else 0) (List.range N)).sum = 1 := by
      rw [List.sum_map_ite_eq]
      simp [List.count_eq_one_of_mem (List.nodup_range) (List.mem_range.2 hi)]
    rw [e1] at this
    have hl : (List.range N).length = N := List.length_range
    rw [show (1 : ℝ) / N = 1 / (List.range N).length by rw [hl], ← this, Finset.sum_eq_single ⟨i, by simpa using hi⟩]
    · simp
    · intro k _ hk
      have : (k : Nat) ≠ i := fun h => hk (Fin.ext h)
      simp [this]
    · simp
  · intro h data ℓ hd
    funext x
    subst hd
    unfold windowLoss meanLoss
    rw [Finset.sum_congr rfl fun i _ => by rw [h i i.2], ← Finset.mul_sum, one_div_mul_eq_div]
    congr 1
    conv_rhs => rw [← List.ofFn_getElem (xs := data), List.map_ofFn, List.sum_ofFn]
    rfl

/-- **C106** fails for every other batch size: for some dataset and smooth loss with Lipschitz gradients the minibatch gradients are, on average,
too small by the factor `N / (b (N - b + 1)) < 1`. -/
theorem C106_violated (N b : Nat) (hb : 1 < b) (hN : b < N) : ∃ (data : List Nat) (ℓ : Nat → (J → ℝ) → ℝ), data.length = N
    ∧ (∀ r, ContDiff ℝ 1 (ℓ r)) ∧ (∀ r x x', ‖gradient (ℓ r) x - gradient (ℓ r) x'‖ ≤ N * ‖x - x'‖)
    ∧ (N : ℝ) / (b * (N - b + 1 : Nat)) < 1
    ∧ ∀ x, gradient (meanLoss ℓ data) x = x ∧ gradient (windowLoss ℓ data b) x = ((N : ℝ) / (b * (N - b + 1 : Nat))) • x := by
  have hN' : (0 : ℝ) < N := by exact_mod_cast (by omega : 0 < N)
  have hz : ∀ (j : J) x, partialD (fun _ : J → ℝ => (0 : ℝ)) j x = 0 := fun j x => by unfold partialD; simp
  have hNh : ∀ x, gradient (fun x : J → ℝ => (N : ℝ) * halfSq x) x = (N : ℝ) • x := fun x => by
    funext j
    unfold gradient
    rw [partialD_smul (halfSq_smooth.differentiable (by norm_num) x), halfSq_partial]; rfl
  have hℓ0 : ∀ r : Nat, r ≠ 0 → (fun x : J → ℝ => if r = 0 then (N : ℝ) * halfSq x else 0) = fun _ => 0 := fun r hr => by
    funext x; rw [if_neg hr]
  have hmean : ∀ x : J → ℝ, ((List.range N).map fun r => if r = 0 then (N : ℝ) * halfSq x else 0).sum = N * halfSq x := fun x => by
    obtain ⟨n, rfl⟩ : ∃ n, N = n + 1 := ⟨N - 1, by omega⟩
    rw [List.range_succ_eq_map]
    have : List.map ((fun r => if r = 0 then ((n : ℝ) + 1) * halfSq x else 0) ∘ Nat.succ) (List.range n) = (List.range n).map fun _ => 0 :=
      List.map_congr_left fun r _ => by simp
    simp [this]
  refine ⟨List.range N, fun r x => if r = 0 then N * halfSq x else 0, by simp, fun r => ?_, fun r x x' => ?_, ?_, fun x => ⟨?_, ?_⟩⟩
  · by_cases hr : r = 0
    · subst hr; simpa using contDiff_const.mul halfSq_smooth
    · show ContDiff ℝ 1 (fun x : J → ℝ => if r = 0 then (N : ℝ) * halfSq x else 0)
      rw [hℓ0 r hr]; exact contDiff_const
  · by_cases hr : r = 0
    · subst hr
      simp only [if_true, hNh]
      rw [← smul_sub, norm_smul, Real.norm_of_nonneg hN'.le]
    · show ‖gradient (fun x : J → ℝ => if r = 0 then (N : ℝ) * halfSq x else 0) x - gradient (fun x : J → ℝ => if r = 0 then (N : ℝ) * halfSq x else 0) x'‖ ≤ _
      rw [hℓ0 r hr]
      have : ∀ x : J → ℝ, gradient (fun _ : J → ℝ => (0 : ℝ)) x = 0 := fun x => funext fun j => hz j x
      rw [this, this, sub_self, norm_zero]; positivity
  · obtain ⟨c, rfl⟩ : ∃ c, b = c + 2 := ⟨b - 2, by omega⟩
    obtain ⟨d, rfl⟩ : ∃ d, N = c + 3 + d := ⟨N - (c + 3), by omega⟩
    rw [div_lt_one (by positivity)]
    have e2 : c + 3 + d - (c + 2) + 1 = d + 2 := by omega
    rw [e2]
    exact_mod_cast (by nlinarith : c + 3 + d < (c + 2) * (d + 2))
  · have e : meanLoss (fun r (x : J → ℝ) => if r = 0 then (N : ℝ) * halfSq x else 0) (List.range N) = halfSq := by
      funext x
      unfold meanLoss
      rw [hmean, List.length_range]
      field_simp
    rw [e]
    funext j
    exact halfSq_partial j x
  · have e : windowLoss (fun r (x : J → ℝ) => if r = 0 then (N : ℝ) * halfSq x else 0) (List.range N) b
        = fun x => ((1 : ℝ) / (b * (N - b + 1 : Nat)) * N) * halfSq x := by
      funext x
      unfold windowLoss
      rw [Finset.sum_eq_single ⟨0, by simp; omega⟩]
      · have : freq N b 0 = 1 := by unfold freq; omega
        simp [weight, this]
        ring
      · intro k _ hk
        have : (k : Nat) ≠ 0 := fun h => hk (Fin.ext h)
        simp [this]
      · simp
    rw [e]
    funext j
    unfold gradient
    rw [partialD_smul (halfSq_smooth.differentiable (by norm_num) x), halfSq_partial, one_div_mul_eq_div]
    rfl

theorem batch_third {M : Nat} {π : Measure (J → ℝ)} [IsFiniteMeasure π] {U : (J → ℝ) → ℝ} {γ : Fin (M + 1) → (J → ℝ) → J → ℝ} {Λ : ℝ}
    (hγ : BatchGrad (uniform M) U γ Λ) (h : ∀ s, Integrable (fun x => ‖γ s x‖ ^ 3) π) :
    Integrable (fun y : (J → ℝ) × Fin (M + 1) => ‖γ y.2 y.1‖ ^ 3) (π.prod (uniform M)) :=
  (integrable_prod_iff' (hγ.meas.norm.pow_const 3).aestronglyMeasurable).2 ⟨.of_forall fun s => h s, Integrable.of_finite⟩

section
variable {P : Type} [Fintype P] [DecidableEq P] {ι : P → Type} [∀ i, Fintype (ι i)] [∀ i, DecidableEq (ι i)]

/-- **C106** (what holds) One session run of SGLD after burn-in, on a minibatch of `generate_batches`, leaves the density of the weighted average loss
invariant up to `K ε√ε`. Missing: this is the posterior of the dataset only if minibatches have one row or all rows. -/
theorem C106_sgld_partial (ℓ : α × β → (Elem ι → ℝ) → ℝ) (d : Data α β) (hlen : d.y.length = d.x.length) (b : Nat) (hb : 1 ≤ b) (hN : b ≤ d.x.length)
    (hℓ : ∀ r ∈ rowsOf d, ContDiff ℝ 1 (ℓ r)) (Λ : ℝ) (hΛ : 0 ≤ Λ)
    (hlip : ∀ r ∈ rowsOf d, ∀ x x', ‖gradient (ℓ r) x - gradient (ℓ r) x'‖ ≤ Λ * ‖x - x'‖)
    (gen : Fin (d.x.length - b + 1) → Batch) (hgen : ∀ s : Fin (d.x.length - b + 1), IsBatch d b s (gen s))
    (a scale c₀ : ℝ) (ha : 0 ≤ a) (hs : 0 < scale) (m : Elem ι → ℝ) (hm : ∀ j, 0 ≤ m j) (N : Measure (Elem ι → ℝ)) (hNoise : UnitNoise N)
    (π : Measure (Elem ι → ℝ)) (hπ : π = boltz fun x => (scale + 3e-16) * windowLoss ℓ (rowsOf d) b x + c₀) [IsFiniteMeasure π]
    (h3 : ∀ s, Integrable (fun x => ‖gradient (meanLoss ℓ (batchRows d (gen s))) x‖ ^ 3) π)
    (f : (Elem ι → ℝ) → ℝ) (hf : ContDiff ℝ 3 f) (hc : HasCompactSupport f) :
    ∃ K, ∀ ε, 0 ≤ ε → ∀ (σ : SGLD.Schedule P) (inp : Fin (d.x.length - b + 1) → (Elem ι → ℝ) → SGLD.Inputs ι)
      (s : ((Elem ι → ℝ) × Fin (d.x.length - b + 1)) × (Elem ι → ℝ) → SGLD.State ι),
      (∀ k z, SgldInputs ε a scale m (fun k => gradient (meanLoss ℓ (batchRows d (gen k)))) k z (inp k z)) →
      (∀ q i, ((s q).par i).vec = fins q.1.1 i ∧ ((s q).par i).param = fins q.1.1 i) →
      ∃ X : ((Elem ι → ℝ) × Fin (d.x.length - b + 1)) × (Elem ι → ℝ) → Elem ι → ℝ, Measurable X ∧
        (∀ q, (SGLD.run (inp q.1.2 q.2) σ (s q)).params = fins (X q)) ∧
        |∫ q, f (X q) ∂((π.prod (uniform (d.x.length - b))).prod N) - ∫ x, f x ∂π| ≤ K * (ε * √ε) := by
  have hγ := C106_gradient_partial ℓ d hlen b hb hN hℓ Λ hΛ hlip gen hgen
  have h3' := batch_third (γ := fun k => gradient (meanLoss ℓ (batchRows d (gen k)))) hγ h3
  exact C103_sgld_invariant (windowLoss ℓ (rowsOf d) b) (windowLoss_smooth ℓ _ b hℓ) a scale c₀ ha hs m hm (uniform (d.x.length - b)) _ Λ hγ N hNoise
    π hπ h3' f hf hc

end

/-! ## The hypotheses are met

Row `(r, c)` has the loss `c |x|²/2` with `c > 0`. -/

/-- A generator that draws a given position. -/
def fixedDraw : RNG where
  State := Nat
  seeded _ := 0
  randint s h := (if s < h then s else 0, s)
  interval _ _ := (0, 0)
  randint_lt s h hh := by dsimp only; split <;> omega
  interval_le _ _ := Nat.zero_le _

theorem isBatch_exists {α β : Type} (d : Data α β) (b : Nat) (s : Fin (d.x.length - b + 1)) :
    IsBatch d b s ⟨sliceView d.x s (s + b), sliceView d.y s (s + b)⟩ :=
  ⟨fixedDraw, {}, (s : Nat), ⟨d, (0 : Nat)⟩, rfl, if_pos s.2, by
    unfold nextBatch drawBatch fixedDraw
    simp only [if_pos s.2]⟩

theorem quad_gradient (c : ℝ) (x : J → ℝ) : gradient (fun x : J → ℝ => c * halfSq x) x = c • x := by
  funext j
  unfold gradient
  rw [partialD_smul (halfSq_smooth.differentiable (by norm_num) x), halfSq_partial]; rfl

theorem weight_pos (N b i : Nat) (hb : 1 ≤ b) (hi : i < N) : 0 < weight N b i := by
  have : 0 < freq N b i := by unfold freq; omega
  unfold weight
  positivity

section
variable {P : Type} [Fintype P] [DecidableEq P] {ι : P → Type} [∀ i, Fintype (ι i)] [∀ i, DecidableEq (ι i)]

example (d : Data α ℝ) (hlen : d.y.length = d.x.length) (b : Nat) (hb : 1 ≤ b) (hN : b ≤ d.x.length) (hpos : ∀ r ∈ rowsOf d, 0 < r.2)
    (a scale : ℝ) (ha : 0 ≤ a) (hs : 0 < scale) (m : Elem ι → ℝ) (hm : ∀ j, 0 ≤ m j) (f : (Elem ι → ℝ) → ℝ) (hf : ContDiff ℝ 3 f)
    (hc : HasCompactSupport f) :
    let N := Measure.pi fun _ : Elem ι => ProbabilityTheory.gaussianReal 0 1
    let ℓ : α × ℝ → (Elem ι → ℝ) → ℝ := fun r x => r.2 * halfSq x
    let gen : Fin (d.x.length - b + 1) → Batch := fun s => ⟨sliceView d.x s (s + b), sliceView d.y s (s + b)⟩
    let γ := fun k => gradient (meanLoss ℓ (batchRows d (gen k)))
    let π := boltz fun x : Elem ι → ℝ => (scale + 3e-16) * windowLoss ℓ (rowsOf d) b x + 0
    ∃ K, ∀ ε, 0 ≤ ε → ∀ (σ : SGLD.Schedule P) (inp : Fin (d.x.length - b + 1) → (Elem ι → ℝ) → SGLD.Inputs ι),
      (∀ k z, SgldInputs ε a scale m γ k z (inp k z)) →
      ∃ X : ((Elem ι → ℝ) × Fin (d.x.length - b + 1)) × (Elem ι → ℝ) → Elem ι → ℝ, Measurable X ∧
        (∀ q, (SGLD.run (inp q.1.2 q.2) σ (SGLD.State.init (fins q.1.1))).params = fins (X q)) ∧
        |∫ q, f (X q) ∂((π.prod (uniform (d.x.length - b))).prod N) - ∫ x, f x ∂π| ≤ K * (ε * √ε) := by
  intro N ℓ gen γ π
  have hl : (rowsOf d).length = d.x.length := by simp [hlen]
  have hne : 0 < (rowsOf d).length := by omega
  have hw : ∃ C > 0, windowLoss ℓ (rowsOf d) b = fun x => C * halfSq x := by
    refine ⟨∑ i : Fin (rowsOf d).length, weight (rowsOf d).length b i * (rowsOf d)[i].2, ?_, ?_⟩
    · refine Finset.sum_pos (fun i _ => mul_pos (weight_pos _ _ _ hb i.2) (hpos _ (List.getElem_mem _))) ⟨⟨0, hne⟩, Finset.mem_univ _⟩
    · funext x
      unfold windowLoss
      rw [Finset.sum_mul]
      exact Finset.sum_congr rfl fun i _ => by simp only [ℓ]; ring
  obtain ⟨C, hC, hw⟩ := hw
  have hπ : π = boltz fun x : Elem ι → ℝ => ((scale + 3e-16) * C) * halfSq x + 0 := by
    simp only [π]; rw [hw]; simp only [mul_assoc]
  obtain ⟨h1, h2⟩ := halfSq_boltz (J := Elem ι) ((scale + 3e-16) * C) (by positivity)
  rw [← hπ] at h1 h2
  have hmean : ∀ rows : List (α × ℝ), meanLoss ℓ rows = fun x => ((rows.map Prod.snd).sum / rows.length) * halfSq x := fun rows => by
    funext x
    unfold meanLoss
    simp only [ℓ]
    rw [List.sum_map_mul_right, div_mul_eq_mul_div]
  have h3 : ∀ s, Integrable (fun x => ‖γ s x‖ ^ 3) π := fun s => by
    simp only [γ, hmean, quad_gradient, norm_smul, mul_pow]
    exact h2.const_mul _
  have hle : ∀ r ∈ rowsOf d, r.2 ≤ ((rowsOf d).map Prod.snd).sum := fun r hr =>
    List.single_le_sum (fun c hc => by obtain ⟨q, hq, rfl⟩ := List.mem_map.1 hc; exact (hpos q hq).le) _ (List.mem_map_of_mem hr)
  obtain ⟨K, hK⟩ := C106_sgld_partial ℓ d hlen b hb hN (fun r _ => contDiff_const.mul halfSq_smooth) ((rowsOf d).map Prod.snd).sum
    (List.sum_nonneg fun c hc => by obtain ⟨q, hq, rfl⟩ := List.mem_map.1 hc; exact (hpos q hq).le)
    (fun r hr x x' => by
      simp only [ℓ, quad_gradient]
      rw [← smul_sub, norm_smul, Real.norm_of_nonneg (hpos r hr).le]
      exact mul_le_mul_of_nonneg_right (hle r hr) (norm_nonneg _))
    gen (fun s => isBatch_exists d b s) a scale 0 ha hs m hm N unitNoise_gauss π rfl h3 f hf hc
  exact ⟨K, fun ε h0 σ inp hinp => hK ε h0 σ inp (fun q => SGLD.State.init (fins q.1.1)) hinp fun q i => ⟨rfl, rfl⟩⟩

end

end PySGMCMC.WindowBias
