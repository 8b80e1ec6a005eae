import Verif.Model.BNNCost
import Verif.Lemmas.BurnInStats
import Verif.Props.SVGD
import Verif.Spec.BaseModel
import Mathlib.Probability.Distributions.Gaussian.Real

/-!
# Properties of the training cost, the priors and the default network of `bayesian_neural_network.py`

C64, C65, C66
-/

namespace PySGMCMC.BNN
open TensorUtils Spec BurnInStats

/-! ## C64 -/

/-- Minus the log likelihood (up to the constant `log(2π)/2`) of one label under a network's Gaussian prediction
`(mean, log variance)`, with the guard `1e-16` on the variance. -/
noncomputable def gaussCost (o : ℝ × ℝ) (y : ℝ) : ℝ := (y - o.1) ^ 2 / (2 * (Real.exp o.2 + 1e-16)) + o.2 / 2

/-- Lifted network outputs. -/
def liftOut (out : List (ℝ × ℝ)) : List (Fl × Fl) := out.map fun o => (.fin o.1, .fin o.2)

theorem rowLogLike_fin (o : ℝ × ℝ) (y : ℝ) : rowLogLike (.fin o.1, .fin o.2) (.fin y) = .fin (-gaussCost o y) := by
  have hpos : (0 : ℝ) < Real.exp o.2 + 1e-16 := by positivity
  have h1 : fVarInv (.fin o.2) = .fin (1 / (Real.exp o.2 + 1e-16)) := by
    simp only [fVarInv, Fl.exp_fin, Fl.add_fin, Fl.ofNat_one]
    rw [Fl.div_fin hpos.ne']
  simp only [rowLogLike, h1, Fl.sub_fin, Fl.npow_fin, Fl.neg_fin, Fl.mul_fin, Fl.fin_inj, gaussCost]
  field_simp
  ring

theorem zipWith_lift {γ : Type} (f : Fl × Fl → Fl → γ) (g : ℝ × ℝ → ℝ → γ)
    (h : ∀ o y, f (.fin o.1, .fin o.2) (.fin y) = g o y) (out : List (ℝ × ℝ)) (y : List ℝ) :
    List.zipWith f (liftOut out) (y.map .fin) = List.zipWith g out y := by
  simp only [liftOut, List.zipWith_map, h]

/-- **C64** (partial: holds for minibatches with as many rows as `batch_size`, see `C64_violated`)  For a minibatch of
exactly `batch_size` rows, the cost is the average over its rows of the guarded Gaussian cost, minus the two prior terms
divided by the dataset size; the second result is the mean squared error. -/
theorem C64_average_partial (out : List (ℝ × ℝ)) (y : List ℝ) (batchSize nExamples : Nat) (trainable : List (Tensor Fl))
    (hl : out.length = batchSize) (hy : y.length = batchSize) (hb : 0 < batchSize) (hn : 0 < nExamples) (lp wp : ℝ)
    (hlp : logVariancePriorLogLike (out.map fun o => [.fin o.2]) (.fin 1e-6) (.fin 0.01) = .fin lp)
    (hwp : weightPriorLogLike trainable 1 = .fin wp) :
    negativeLogLikelihood (liftOut out) (y.map .fin) batchSize nExamples trainable =
      (.fin (avg (List.zipWith gaussCost out y) - lp / nExamples - wp / nExamples),
       .fin (avg (List.zipWith (fun o v => (v - o.1) ^ 2) out y))) := by
  have hb' : (batchSize : ℝ) ≠ 0 := by positivity
  have hn' : (nExamples : ℝ) ≠ 0 := by positivity
  have h1 : List.zipWith rowLogLike (liftOut out) (y.map .fin) = (List.zipWith (fun o v => -gaussCost o v) out y).map .fin := by
    rw [zipWith_lift _ (fun o v => .fin (-gaussCost o v)) rowLogLike_fin, List.map_zipWith]
  have h2 : List.zipWith (fun o v => Fl.npow (v - o.1) 2) (liftOut out) (y.map .fin) =
      (List.zipWith (fun o v => (v - o.1) ^ 2) out y).map .fin := by
    rw [zipWith_lift _ (fun o v => .fin ((v - o.1) ^ 2)) (fun o v => by simp), List.map_zipWith]
  have h3 : (liftOut out).map (fun o => [o.2]) = out.map fun o => [.fin o.2] := by simp [liftOut]
  have hlen : (List.zipWith gaussCost out y).length = batchSize := by simp [hl, hy]
  have hne : List.zipWith (fun (o : ℝ × ℝ) (v : ℝ) => (v - o.1) ^ 2) out y ≠ [] := by
    intro h
    have := congrArg List.length h
    simp [hl, hy] at this
    omega
  have hneg : (List.zipWith (fun o v => -gaussCost o v) out y).sum = -(List.zipWith gaussCost out y).sum := by
    clear hl hy h1 h2 h3 hlen hne hlp
    induction out generalizing y with
    | nil => simp
    | cons o os ih =>
      cases y with
      | nil => simp
      | cons v vs => simp only [List.zipWith_cons_cons, List.sum_cons, ih]; ring
  unfold negativeLogLikelihood
  simp only [h1, h2, h3, hlp, hwp, Fl.sum_map_fin]
  rw [Fl.div_fin hb', Fl.div_fin hn', Fl.div_fin hn', Fl.mean_map_fin hne]
  simp only [Fl.add_fin, Fl.neg_fin, hneg, avg, hlen, List.length_zipWith, hl, hy, min_self]
  refine Prod.ext ?_ rfl
  simp only [Fl.fin_inj]
  ring

/-- **C64** The guarded Gaussian cost against the Gaussian density: it is the negative log density, up to the constant
`log(2π)/2`, with an error that is never positive and at most `1e-16 (y - mean)² / (2 variance²)`. -/
theorem C64_gaussian_partial (o : ℝ × ℝ) (y : ℝ) :
    gaussCost o y ≤ -Real.log (ProbabilityTheory.gaussianPDFReal o.1 (Real.exp o.2).toNNReal y)
      - Real.log (2 * Real.pi) / 2 ∧
    -Real.log (ProbabilityTheory.gaussianPDFReal o.1 (Real.exp o.2).toNNReal y) - Real.log (2 * Real.pi) / 2
      - 1e-16 * (y - o.1) ^ 2 / (2 * Real.exp o.2 ^ 2) ≤ gaussCost o y := by
  obtain ⟨m, s⟩ := o
  have he := Real.exp_pos s
  have hlog : Real.log (ProbabilityTheory.gaussianPDFReal m (Real.exp s).toNNReal y) =
      -(y - m) ^ 2 / (2 * Real.exp s) - s / 2 - Real.log (2 * Real.pi) / 2 := by
    unfold ProbabilityTheory.gaussianPDFReal
    simp only [Real.coe_toNNReal _ he.le]
    have hs : (0 : ℝ) < 2 * Real.pi * Real.exp s := by positivity
    rw [Real.log_mul (by positivity) (by positivity), Real.log_exp, Real.log_inv, Real.log_sqrt hs.le,
      Real.log_mul (by positivity) he.ne', Real.log_exp]
    ring
  simp only [hlog, gaussCost]
  clear hlog
  generalize Real.exp s = E at *
  have hq : 0 ≤ (y - m) ^ 2 := sq_nonneg _
  generalize (y - m) ^ 2 = q at *
  have e1 : -(-q / (2 * E) - s / 2 - Real.log (2 * Real.pi) / 2) - Real.log (2 * Real.pi) / 2 = q / (2 * E) + s / 2 := by ring
  rw [e1]
  have hE : (0 : ℝ) < E + 1e-16 := by linarith [show (0 : ℝ) < 1e-16 by norm_num]
  constructor
  · have : q / (2 * (E + 1e-16)) ≤ q / (2 * E) := by
      apply div_le_div_of_nonneg_left hq (by positivity)
      linarith [show (0 : ℝ) < 1e-16 by norm_num]
    linarith
  · have : q / (2 * E) - 1e-16 * q / (2 * E ^ 2) ≤ q / (2 * (E + 1e-16)) := by
      rw [div_sub_div _ _ (by positivity) (by positivity), div_le_div_iff₀ (by positivity) (by positivity)]
      have : (q * (2 * E ^ 2) - 2 * E * (1e-16 * q)) * (2 * (E + 1e-16)) = q * (2 * E * (2 * E ^ 2)) - 4 * E * q * 1e-16 ^ 2 := by
        ring
      rw [this]
      have : 0 ≤ 4 * E * q * (1e-16 : ℝ) ^ 2 := by positivity
      linarith
    linarith

/-- **C64** The order of the rows of a minibatch does not matter, for all values including infinities and `NaN`. -/
theorem C64_order_partial (rows rows' : List ((Fl × Fl) × Fl)) (h : rows.Perm rows') (batchSize nExamples : Nat)
    (trainable : List (Tensor Fl)) :
    negativeLogLikelihood (rows.map (·.1)) (rows.map (·.2)) batchSize nExamples trainable =
      negativeLogLikelihood (rows'.map (·.1)) (rows'.map (·.2)) batchSize nExamples trainable := by
  have hz : ∀ {γ : Type} (f : Fl × Fl → Fl → γ) (l : List ((Fl × Fl) × Fl)),
      List.zipWith f (l.map (·.1)) (l.map (·.2)) = l.map fun p => f p.1 p.2 := by
    intro γ f l
    rw [List.zipWith_map, List.zipWith_self]
  have hmean : ∀ {l l' : List Fl}, l.Perm l' → Fl.mean l = Fl.mean l' := by
    intro l l' hp
    unfold Fl.mean
    rw [SVGD.sum_perm hp, hp.length_eq]
  unfold negativeLogLikelihood logVariancePriorLogLike
  simp only [hz, List.map_map]
  have e1 : ∀ g : (Fl × Fl) × Fl → Fl, Fl.sum (rows.map g) = Fl.sum (rows'.map g) := fun g => SVGD.sum_perm (h.map g)
  have e2 : ∀ g : (Fl × Fl) × Fl → Fl, Fl.mean (rows.map g) = Fl.mean (rows'.map g) := fun g => hmean (h.map g)
  rw [e1, e2, e2]

/-- **C64** fails for minibatches with another number of rows than `batch_size`: the data part of the cost is then
`rows / batch_size` times the average.  (`generate_batches` delivers such minibatches exactly for datasets with fewer than
`batch_size` rows.) -/
theorem C64_violated (out : List (ℝ × ℝ)) (y : List ℝ) (batchSize nExamples : Nat) (trainable : List (Tensor Fl))
    (hl : out.length = y.length) (h0 : 0 < y.length) (hb : 0 < batchSize) (hn : 0 < nExamples) (lp wp : ℝ)
    (hlp : logVariancePriorLogLike (out.map fun o => [.fin o.2]) (.fin 1e-6) (.fin 0.01) = .fin lp)
    (hwp : weightPriorLogLike trainable 1 = .fin wp) :
    (negativeLogLikelihood (liftOut out) (y.map .fin) batchSize nExamples trainable).1 =
      .fin (y.length / batchSize * avg (List.zipWith gaussCost out y) - lp / nExamples - wp / nExamples) := by
  have h := C64_average_partial out y y.length nExamples trainable hl rfl h0 hn lp wp hlp hwp
  have h0' : (y.length : ℝ) ≠ 0 := by positivity
  have hb' : (batchSize : ℝ) ≠ 0 := by positivity
  have hn' : (nExamples : ℝ) ≠ 0 := by positivity
  have h1 : List.zipWith rowLogLike (liftOut out) (y.map .fin) = (List.zipWith (fun o v => -gaussCost o v) out y).map .fin := by
    rw [zipWith_lift _ (fun o v => .fin (-gaussCost o v)) rowLogLike_fin, List.map_zipWith]
  have h3 : (liftOut out).map (fun o => [o.2]) = out.map fun o => [.fin o.2] := by simp [liftOut]
  have h := congrArg Prod.fst h
  unfold negativeLogLikelihood at h ⊢
  simp only [h1, h3, hlp, hwp, Fl.sum_map_fin] at h ⊢
  rw [Fl.div_fin hn', Fl.div_fin hn', Fl.div_fin h0'] at h
  rw [Fl.div_fin hn', Fl.div_fin hn', Fl.div_fin hb']
  simp only [Fl.add_fin, Fl.neg_fin, Fl.fin_inj] at h ⊢
  have h' : avg (List.zipWith gaussCost out y) = -((List.zipWith (fun o v => -gaussCost o v) out y).sum / y.length) := by
    linarith
  rw [h']
  field_simp
  ring

/-! ## C65 -/

/-- The tensors of a list of arrays of reals. -/
def liftTensors (ps : List (Tensor ℝ)) : List (Tensor Fl) := ps.map fun p => ⟨p.shape, p.data.map .fin⟩

/-- All weights of a list of arrays. -/
def weights (ps : List (Tensor ℝ)) : List ℝ := ps.flatMap (·.data)

theorem weightPriorLoop_fin (wd : ℝ) (ps : List (Tensor ℝ)) (hwf : ∀ p ∈ ps, p.data.length = p.shape.prod) :
    ∀ a n : ℝ, weightPriorLoop (.fin wd) (.fin a, .fin n) (liftTensors ps) =
      (.fin (a + -(wd / 2) * ((weights ps).map (· ^ 2)).sum), .fin (n + (weights ps).length)) := by
  induction ps with
  | nil => intro a n; simp [liftTensors, weights, weightPriorLoop]
  | cons p ps ih =>
    intro a n
    have h1 : Fl.sum ((p.data.map Fl.fin).map fun w => -Fl.fin wd * Fl.fin 0.5 * Fl.npow w 2) =
        .fin (-(wd / 2) * (p.data.map (· ^ 2)).sum) := by
      have : (p.data.map Fl.fin).map (fun w => -Fl.fin wd * Fl.fin 0.5 * Fl.npow w 2) =
          (p.data.map fun w => -(wd / 2) * w ^ 2).map .fin := by
        simp only [List.map_map]
        apply List.map_congr_left
        intro w _
        simp only [Function.comp, Fl.neg_fin, Fl.mul_fin, Fl.npow_fin, Fl.fin_inj]
        ring
      rw [this, Fl.sum_map_fin, sum_mul]
    have hw : (p.shape.prod : ℝ) = p.data.length := by rw [hwf p (by simp)]
    simp only [liftTensors, List.map_cons, weightPriorLoop]
    rw [h1]
    simp only [Fl.add_fin]
    have := ih (fun q hq => hwf q (List.mem_cons_of_mem _ hq)) (a + -(wd / 2) * (p.data.map (· ^ 2)).sum) (n + (p.shape.prod : ℕ))
    simp only [liftTensors] at this
    rw [this]
    simp only [weights, List.flatMap_cons, List.map_append, List.sum_append, List.length_append]
    refine Prod.ext ?_ ?_
    · simp only [Fl.fin_inj]; ring
    · simp only [Fl.fin_inj]; rw [Nat.cast_add, hw]; ring

/-- **C65** `weight_prior_log_like` is `-wdecay/2` times the sum of the squares of all weights over their number plus
`3e-16`; for non-negative `wdecay` it is at most 0, and for positive `wdecay` it is 0 exactly if all weights are 0. -/
theorem C65_weight_prior (wd : ℝ) (ps : List (Tensor ℝ)) (hwf : ∀ p ∈ ps, p.data.length = p.shape.prod) :
    ∃ r : ℝ, weightPriorLogLike (liftTensors ps) (.fin wd) = .fin r ∧
      r = -(wd / 2) * (((weights ps).map (· ^ 2)).sum / ((weights ps).length + 3e-16)) ∧
      (0 ≤ wd → r ≤ 0) ∧ (0 < wd → (r = 0 ↔ ∀ w ∈ weights ps, w = 0)) := by
  have hsq : 0 ≤ ((weights ps).map (· ^ 2)).sum := by
    apply List.sum_nonneg
    intro x hx
    obtain ⟨y, -, rfl⟩ := List.mem_map.1 hx
    positivity
  have hzero : ((weights ps).map (· ^ 2)).sum = 0 ↔ ∀ w ∈ weights ps, w = 0 := by
    constructor
    · intro hs w hw
      have : w ^ 2 ≤ ((weights ps).map (· ^ 2)).sum := by
        apply List.single_le_sum
        · intro x hx
          obtain ⟨y, -, rfl⟩ := List.mem_map.1 hx
          positivity
        · exact List.mem_map.2 ⟨w, hw, rfl⟩
      rw [hs] at this
      exact pow_eq_zero_iff (n := 2) (by norm_num) |>.1 (le_antisymm this (by positivity))
    · intro h
      have : (weights ps).map (· ^ 2) = (weights ps).map fun _ => (0 : ℝ) := by
        apply List.map_congr_left
        intro w hw
        rw [h w hw]; norm_num
      rw [this]; simp
  have hden : (0 : ℝ) < (weights ps).length + 3e-16 := by positivity
  have hval : weightPriorLogLike (liftTensors ps) (.fin wd) =
      .fin (-(wd / 2) * (((weights ps).map (· ^ 2)).sum / ((weights ps).length + 3e-16))) := by
    unfold weightPriorLogLike
    simp only [Fl.ofNat_zero]
    rw [weightPriorLoop_fin wd ps hwf]
    simp only [zero_add]
    obtain ⟨d, hd, he, hcase⟩ := safeDivide_fin (-(wd / 2) * ((weights ps).map (· ^ 2)).sum) ((weights ps).length : ℝ) 1e-16
      (by norm_num)
    show safeDivide _ _ _ = _
    rw [he, Fl.fin_inj]
    rcases hcase with ⟨h, rfl⟩ | ⟨h, rfl⟩ | ⟨h, -⟩
    · rw [mul_div_assoc]
      norm_num
    · have hnil : weights ps = [] := by
        rw [← List.length_eq_zero_iff]
        exact_mod_cast h
      simp [hnil]
    · exact absurd h (not_lt.2 (by positivity))
  refine ⟨_, hval, rfl, ?_, ?_⟩
  · intro hwd
    have : 0 ≤ wd / 2 * (((weights ps).map (· ^ 2)).sum / ((weights ps).length + 3e-16)) := by positivity
    linarith
  · intro hwd
    rw [← hzero]
    constructor
    · intro h
      have h2 : wd / 2 ≠ 0 := by positivity
      have := (mul_eq_zero.1 h).resolve_left (neg_ne_zero.2 h2)
      exact (div_eq_zero_iff.1 this).resolve_right hden.ne'
    · intro h
      rw [h]; simp

example : ∃ r : ℝ, weightPriorLogLike (liftTensors [⟨[2], [1, 3]⟩, ⟨[], [2]⟩]) (.fin 1) = .fin r ∧ r < 0 := by
  obtain ⟨r, h1, -, h3, h4⟩ := C65_weight_prior 1 [⟨[2], [1, 3]⟩, ⟨[], [2]⟩] (by simp)
  refine ⟨r, h1, lt_of_le_of_ne (h3 (by norm_num)) fun h => ?_⟩
  have := (h4 (by norm_num)).1 h 1 (by simp [weights])
  norm_num at this

/-- The log variance prior for real arguments. -/
theorem logVariancePrior_fin (rows : List (List ℝ)) (hne : rows ≠ []) (m v : ℝ) (hm : 0 < m) (hv : 0 < v) :
    logVariancePriorLogLike (rows.map fun r => r.map .fin) (.fin m) (.fin v) =
      .fin (avg (rows.map fun r => (r.map fun x => -(x - Real.log m) ^ 2 / (2 * v + 3e-16) - Real.log v / 2).sum)) := by
  have h2 : (2 : Fl) = .fin 2 := by rw [Fl.ofNat_def]; norm_num
  have hterm : ∀ x : ℝ, safeDivide' (-(Fl.npow (Fl.fin x - Fl.log (.fin m)) 2)) (2 * .fin v) - Fl.fin 0.5 * Fl.log (.fin v) =
      .fin (-(x - Real.log m) ^ 2 / (2 * v + 3e-16) - Real.log v / 2) := by
    intro x
    rw [Fl.log_fin hm, Fl.log_fin hv, h2]
    simp only [Fl.sub_fin, Fl.npow_fin, Fl.neg_fin, Fl.mul_fin]
    rw [safeDivide'_pos _ (by positivity : 0 < 2 * v)]
    simp only [Fl.sub_fin, Fl.fin_inj, c16]
    norm_num
    ring
  unfold logVariancePriorLogLike
  have : (rows.map fun r => r.map Fl.fin).map (fun row => Fl.sum (row.map fun v' =>
      safeDivide' (-(Fl.npow (v' - Fl.log (.fin m)) 2)) (2 * .fin v) - Fl.fin 0.5 * Fl.log (.fin v))) =
      (rows.map fun r => (r.map fun x => -(x - Real.log m) ^ 2 / (2 * v + 3e-16) - Real.log v / 2).sum).map .fin := by
    simp only [List.map_map]
    apply List.map_congr_left
    intro r _
    simp only [Function.comp, List.map_map]
    rw [show r.map ((fun v' => safeDivide' (-(Fl.npow (v' - Fl.log (.fin m)) 2)) (2 * .fin v) - Fl.fin 0.5 * Fl.log (.fin v)) ∘ Fl.fin)
        = (r.map fun x => -(x - Real.log m) ^ 2 / (2 * v + 3e-16) - Real.log v / 2).map .fin by
      simp only [List.map_map]
      apply List.map_congr_left
      intro x _
      exact hterm x, Fl.sum_map_fin]
  simp only
  rw [this, Fl.mean_map_fin (by simpa using hne)]
  rfl

/-- **C65** `log_variance_prior_log_like` is the mean over the rows of the sums of
`-(x - log mean)² / (2 var + 3e-16) - log(var)/2`.  Compared with the value for rows of the same lengths filled with
`log mean` it is never larger, and equal exactly if all log variances equal `log mean`. -/
theorem C65_log_variance_prior (rows : List (List ℝ)) (hne : rows ≠ []) (m v : ℝ) (hm : 0 < m) (hv : 0 < v) :
    ∃ r best : ℝ, logVariancePriorLogLike (rows.map fun r => r.map .fin) (.fin m) (.fin v) = .fin r ∧
      logVariancePriorLogLike (rows.map fun r => r.map fun _ => .fin (Real.log m)) (.fin m) (.fin v) = .fin best ∧
      r = avg (rows.map fun r => (r.map fun x => -(x - Real.log m) ^ 2 / (2 * v + 3e-16) - Real.log v / 2).sum) ∧
      r ≤ best ∧ (r = best ↔ ∀ row ∈ rows, ∀ x ∈ row, x = Real.log m) := by
  have hbest := logVariancePrior_fin (rows.map fun r => r.map fun _ => Real.log m) (by simpa using hne) m v hm hv
  simp only [List.map_map, Function.comp_def] at hbest
  have hd : (0 : ℝ) < 2 * v + 3e-16 := by positivity
  have hlen : (0 : ℝ) < rows.length := by
    have := List.length_pos_iff.2 hne
    exact_mod_cast this
  -- the difference is a sum of squares
  have hdiff : ∀ row : List ℝ, (row.map fun x => -(x - Real.log m) ^ 2 / (2 * v + 3e-16) - Real.log v / 2).sum =
      (row.map fun _ => -(Real.log m - Real.log m) ^ 2 / (2 * v + 3e-16) - Real.log v / 2).sum
        - (row.map fun x => (x - Real.log m) ^ 2 / (2 * v + 3e-16)).sum := by
    intro row
    induction row with
    | nil => simp
    | cons x xs ih => simp only [List.map_cons, List.sum_cons, ih]; ring
  have hdiff2 : (rows.map fun r => (r.map fun x => -(x - Real.log m) ^ 2 / (2 * v + 3e-16) - Real.log v / 2).sum).sum =
      (rows.map fun r => (r.map fun _ => -(Real.log m - Real.log m) ^ 2 / (2 * v + 3e-16) - Real.log v / 2).sum).sum
        - (rows.map fun r => (r.map fun x => (x - Real.log m) ^ 2 / (2 * v + 3e-16)).sum).sum := by
    clear hne hbest hlen
    induction rows with
    | nil => simp
    | cons r rs ih => simp only [List.map_cons, List.sum_cons, ih, hdiff r]; ring
  have hrow0 : ∀ row : List ℝ, 0 ≤ (row.map fun x => (x - Real.log m) ^ 2 / (2 * v + 3e-16)).sum := by
    intro row
    apply List.sum_nonneg
    intro z hz
    obtain ⟨x, -, rfl⟩ := List.mem_map.1 hz
    positivity
  have hrowz : ∀ row : List ℝ, (row.map fun x => (x - Real.log m) ^ 2 / (2 * v + 3e-16)).sum = 0 ↔ ∀ x ∈ row, x = Real.log m := by
    intro row
    constructor
    · intro h x hx
      have : (x - Real.log m) ^ 2 / (2 * v + 3e-16) ≤ (row.map fun x => (x - Real.log m) ^ 2 / (2 * v + 3e-16)).sum := by
        apply List.single_le_sum
        · intro z hz
          obtain ⟨x, -, rfl⟩ := List.mem_map.1 hz
          positivity
        · exact List.mem_map.2 ⟨x, hx, rfl⟩
      rw [h] at this
      have h0 : (x - Real.log m) ^ 2 / (2 * v + 3e-16) = 0 := le_antisymm this (by positivity)
      have := (div_eq_zero_iff.1 h0).resolve_right hd.ne'
      have := pow_eq_zero_iff (n := 2) (by norm_num) |>.1 this
      linarith
    · intro h
      have : (row.map fun x => (x - Real.log m) ^ 2 / (2 * v + 3e-16)) = row.map fun _ => (0 : ℝ) := by
        apply List.map_congr_left
        intro x hx
        rw [h x hx]; simp
      rw [this]; simp
  have htot0 : 0 ≤ (rows.map fun r => (r.map fun x => (x - Real.log m) ^ 2 / (2 * v + 3e-16)).sum).sum := by
    apply List.sum_nonneg
    intro z hz
    obtain ⟨row, -, rfl⟩ := List.mem_map.1 hz
    exact hrow0 row
  have htotz : (rows.map fun r => (r.map fun x => (x - Real.log m) ^ 2 / (2 * v + 3e-16)).sum).sum = 0 ↔
      ∀ row ∈ rows, ∀ x ∈ row, x = Real.log m := by
    constructor
    · intro h row hrow
      have hle : (row.map fun x => (x - Real.log m) ^ 2 / (2 * v + 3e-16)).sum ≤
          (rows.map fun r => (r.map fun x => (x - Real.log m) ^ 2 / (2 * v + 3e-16)).sum).sum := by
        apply List.single_le_sum
        · intro z hz
          obtain ⟨row, -, rfl⟩ := List.mem_map.1 hz
          exact hrow0 row
        · exact List.mem_map.2 ⟨row, hrow, rfl⟩
      rw [h] at hle
      exact (hrowz row).1 (le_antisymm hle (hrow0 row))
    · intro h
      have : (rows.map fun r => (r.map fun x => (x - Real.log m) ^ 2 / (2 * v + 3e-16)).sum) = rows.map fun _ => (0 : ℝ) := by
        apply List.map_congr_left
        intro row hrow
        exact (hrowz row).2 (h row hrow)
      rw [this]; simp
  refine ⟨_, _, logVariancePrior_fin rows hne m v hm hv, hbest, rfl, ?_, ?_⟩
  · simp only [avg, List.length_map, Function.comp_def, List.map_map]
    rw [hdiff2]
    apply div_le_div_of_nonneg_right _ hlen.le
    linarith
  · rw [← htotz]
    simp only [avg, List.length_map, Function.comp_def, List.map_map]
    rw [hdiff2, div_left_inj' hlen.ne']
    constructor <;> intro h <;> linarith

/-- The prior terms in the hypotheses of `C64_average_partial` and `C64_violated` exist for every non-empty minibatch and all
well-formed real weights. -/
example (out : List (ℝ × ℝ)) (hne : out ≠ []) (ps : List (Tensor ℝ)) (hwf : ∀ p ∈ ps, p.data.length = p.shape.prod) :
    (∃ lp, logVariancePriorLogLike (out.map fun o => [.fin o.2]) (.fin 1e-6) (.fin 0.01) = .fin lp) ∧
    ∃ wp, weightPriorLogLike (liftTensors ps) 1 = .fin wp := by
  constructor
  · have := logVariancePrior_fin (out.map fun o => [o.2]) (by simpa using hne) 1e-6 0.01 (by norm_num) (by norm_num)
    simp only [List.map_map, Function.comp_def, List.map_cons, List.map_nil] at this
    exact ⟨_, this⟩
  · obtain ⟨r, hr, -⟩ := C65_weight_prior 1 ps hwf
    exact ⟨r, by simpa using hr⟩

/-! ## C66 -/

/-- Weights and biases that are real numbers. -/
structure RDense (a b : Nat) where
  kernel : Fin a → Fin b → ℝ
  bias : Fin b → ℝ

/-- The corresponding layer of the model. -/
def RDense.lift {a b : Nat} (l : RDense a b) : Dense a b := ⟨fun i j => .fin (l.kernel i j), fun j => .fin (l.bias j)⟩

/-- `x ↦ act(x W + b)`. -/
def RDense.eval {a b : Nat} (l : RDense a b) (act : ℝ → ℝ) (x : Fin a → ℝ) (j : Fin b) : ℝ :=
  act (∑ i, x i * l.kernel i j + l.bias j)

theorem dense_fin {a b : Nat} (l : RDense a b) (act : Fl → Fl) (ract : ℝ → ℝ) (h : ∀ r, act (.fin r) = .fin (ract r))
    (x : Fin a → ℝ) : l.lift.apply act (fun i => .fin (x i)) = fun j => .fin (l.eval ract x j) := by
  funext j
  simp only [Dense.apply, RDense.lift, RDense.eval, Fl.mul_fin, SVGD.sum_fin, Fl.add_fin, h]

/-- **C66** The default network maps the rows of its input one by one: as many output rows as input rows, and the output
of a concatenation is the concatenation of the outputs.  All rows have the same log variance. -/
theorem C66_rowwise {D : Nat} (p : DefaultParams D) (xs ys : List (Fin D → Fl)) :
    (defaultNet p xs).length = xs.length ∧ defaultNet p (xs ++ ys) = defaultNet p xs ++ defaultNet p ys ∧
    ∀ o ∈ defaultNet p xs, o.2 = 1 * p.outputBias := by
  refine ⟨by simp [defaultNet], by simp [defaultNet], ?_⟩
  intro o ho
  obtain ⟨x, -, rfl⟩ := List.mem_map.1 ho
  rfl

/-- **C66** For real weights and inputs the mean output of row `x` is the three-layer `tanh` network at `x`; its absolute value is
at most the sum of the absolute weights of the last layer plus the absolute value of its bias, whatever `x` is. -/
theorem C66_bounded {D : Nat} (l1 : RDense D 50) (l2 l3 : RDense 50 50) (l4 : RDense 50 1) (ob : ℝ) (xs : List (Fin D → ℝ)) :
    defaultNet ⟨l1.lift, l2.lift, l3.lift, l4.lift, .fin ob⟩ (xs.map fun x i => .fin (x i)) =
      xs.map (fun x => (.fin (l4.eval id (l3.eval Real.tanh (l2.eval Real.tanh (l1.eval Real.tanh x))) 0), .fin ob)) ∧
    ∀ x, |l4.eval id (l3.eval Real.tanh (l2.eval Real.tanh (l1.eval Real.tanh x))) 0| ≤ ∑ i, |l4.kernel i 0| + |l4.bias 0| := by
  constructor
  · simp only [defaultNet, List.map_map]
    apply List.map_congr_left
    intro x _
    simp only [Function.comp]
    rw [dense_fin l1 Fl.tanh Real.tanh (fun _ => rfl), dense_fin l2 Fl.tanh Real.tanh (fun _ => rfl),
      dense_fin l3 Fl.tanh Real.tanh (fun _ => rfl), dense_fin l4 id id (fun _ => rfl)]
    simp
  · intro x
    generalize l2.eval Real.tanh (l1.eval Real.tanh x) = h
    unfold RDense.eval
    refine (abs_add_le _ _).trans ?_
    refine add_le_add ((Finset.abs_sum_le_sum_abs _ _).trans (Finset.sum_le_sum fun i _ => ?_)) le_rfl
    rw [abs_mul]
    have : |Real.tanh (∑ j, h j * l3.kernel j i + l3.bias i)| ≤ 1 := (Real.abs_tanh_lt_one _).le
    calc _ ≤ 1 * |l4.kernel i 0| := mul_le_mul_of_nonneg_right this (abs_nonneg _)
      _ = _ := one_mul _

end PySGMCMC.BNN
