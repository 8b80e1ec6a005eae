import Verif.Props.BNNSystem
import Verif.Props.WindowPoly
import Verif.Lemmas.QuadraticMoments

/-!
# C108: the density that training of a Bayesian neural network targets
-/

namespace PySGMCMC.BNNPosterior
open MeasureTheory Recipe Invariance DataBatches WindowBias BNN BNNSystem Chain Spec
open BaseModel (lift)

variable {R : RNG} {D n : Nat} {shape : Fin n → List Nat}

/-- The elements of all variables. -/
abbrev Weights {n : Nat} (shape : Fin n → List Nat) : Type := Elem fun i => Pos (sizes shape) i

noncomputable section

/-- The elements, variable by variable. -/
def split (x : Weights shape → ℝ) : Params shape := fun i p => x ⟨i, p⟩

/-- Minus the log prior density of the log variance of one row. -/
def varPrior (lv : ℝ) : ℝ := (lv - Real.log 1e-6) ^ 2 / (2 * 0.01 + 3e-16) + Real.log 0.01 / 2

/-- Minus the log prior density of the weights. -/
def weightPrior (θ : Params shape) : ℝ := 1 / 2 * ((∑ i, ∑ p, θ i p ^ 2) / ((∑ i, (sizes shape i : ℝ)) + 3e-16))

/-- Minus the log posterior density for a dataset, up to a constant. -/
def negLogPosterior (f : Params shape → (Fin D → ℝ) → ℝ × ℝ) (data : List ((Fin D → ℝ) × ℝ)) (θ : Params shape) : ℝ :=
  ∑ i : Fin data.length, gaussCost (f θ data[i].1) data[i].2
  + (∑ i : Fin data.length, varPrior (f θ data[i].1).2) / data.length + weightPrior θ

/-- The power to which the likelihood of row `i` of `N` is raised, for a batch size. -/
def power (N B i : Nat) : ℝ := N * weight N (min B N) i * ((min B N : Nat) / B)

/-- What training targets instead. -/
def potential (f : Params shape → (Fin D → ℝ) → ℝ × ℝ) (data : List ((Fin D → ℝ) × ℝ)) (B : Nat) (θ : Params shape) : ℝ :=
  ∑ i : Fin data.length, power data.length B i * gaussCost (f θ data[i].1) data[i].2
  + ∑ i : Fin data.length, weight data.length (min B data.length) i * varPrior (f θ data[i].1).2 + weightPrior θ

/-- The contribution of a row to the cost of a minibatch. -/
def rowLoss (f : Params shape → (Fin D → ℝ) → ℝ × ℝ) (c : ℝ) (N : Nat) (r : (Fin D → ℝ) × ℝ) (x : Weights shape → ℝ) : ℝ :=
  c * gaussCost (f (split x) r.1) r.2 + (varPrior (f (split x) r.1).2 + weightPrior (split x)) / N

theorem sum_rows (f : Params shape → (Fin D → ℝ) → ℝ × ℝ) (c : ℝ) (N : Nat) (rows : List ((Fin D → ℝ) × ℝ)) (x : Weights shape → ℝ) :
    (rows.map fun r => rowLoss f c N r x).sum = c * (List.zipWith (fun x' y => gaussCost (f (split x) x') y) (rows.map Prod.fst) (rows.map Prod.snd)).sum
      + (((rows.map Prod.fst).map fun x' => varPrior (f (split x) x').2).sum + rows.length * weightPrior (split x)) / N := by
  induction rows with
  | nil => simp
  | cons r rows ih =>
    simp only [List.map_cons, List.sum_cons, List.zipWith_cons_cons, List.length_cons, ih]
    unfold rowLoss
    push_cast
    ring

/-- The cost of a minibatch is the average contribution of its rows. -/
theorem cost_rows (f : Params shape → (Fin D → ℝ) → ℝ × ℝ) (B N : Nat) (rows : List ((Fin D → ℝ) × ℝ)) (hr : rows ≠ []) (x : Weights shape → ℝ) :
    netCost f B N (rows.map Prod.fst) (rows.map Prod.snd) (split x) = meanLoss (rowLoss f (rows.length / B) N) rows x := by
  have h0 : (0 : ℝ) < rows.length := by exact_mod_cast List.length_pos_iff.2 hr
  have e : ∀ l : List (Fin D → ℝ), (l.map fun x' => -((f (split x) x').2 - Real.log 1e-6) ^ 2 / (2 * 0.01 + 3e-16) - Real.log 0.01 / 2).sum
      = -(l.map fun x' => varPrior (f (split x) x').2).sum := fun l => by
    induction l with
    | nil => simp
    | cons a l ih =>
      simp only [List.map_cons, List.sum_cons, ih]
      unfold varPrior
      ring
  unfold meanLoss netCost avg
  rw [sum_rows, e]
  simp only [List.length_map]
  unfold gaussCost weightPrior
  by_cases hB : (B : ℝ) = 0
  · simp only [hB, div_zero, zero_mul]
    field_simp
    ring
  · field_simp
    ring

theorem window_value {α : Type} {J : Type} (ℓ : α → (J → ℝ) → ℝ) (data : List α) (b : Nat) (hb : 1 ≤ b) (hN : b ≤ data.length) (x : J → ℝ) :
    (∑ s : Fin (data.length - b + 1), meanLoss ℓ ((data.drop s).take b) x) / (data.length - b + 1 : Nat) = windowLoss ℓ data b x := by
  have h : data ≠ [] := fun h => by simp [h] at hN; omega
  have e : ∀ s : Fin (data.length - b + 1), meanLoss ℓ ((data.drop s).take b) x = (∑ i ∈ Finset.range b, ℓ (item data h (s + i)) x) / b := fun s => by
    have hl : ((data.drop s).take b).length = b := by simp; omega
    unfold meanLoss
    rw [window_sum data h b s (by omega), hl]
  simp only [e]
  rw [← Finset.sum_div, ← Finset.sum_range (n := data.length - b + 1) (f := fun s => ∑ i ∈ Finset.range b, ℓ (item data h (s + i)) x),
    sum_windows _ _ hN fun i => ℓ (item data h i) x]
  unfold windowLoss
  rw [Finset.sum_range, div_div, Finset.sum_div]
  refine Finset.sum_congr rfl fun i _ => ?_
  rw [item_eq _ _ _ i.2]
  unfold weight
  simp only [Fin.getElem_fin]
  ring

theorem scaled_windowLoss (f : Params shape → (Fin D → ℝ) → ℝ × ℝ) (data : List ((Fin D → ℝ) × ℝ)) (hd : data ≠ []) (B : Nat) (hB : 0 < B)
    (x : Weights shape → ℝ) :
    data.length * windowLoss (rowLoss f ((min B data.length : Nat) / B) data.length) data (min B data.length) x = potential f data B (split x) := by
  have h0 : 0 < data.length := List.length_pos_iff.2 hd
  have h0' : (data.length : ℝ) ≠ 0 := by positivity
  have h1 : ∑ i : Fin data.length, weight data.length (min B data.length) i = 1 := by
    rw [← Finset.sum_range (n := data.length) (f := fun i => weight data.length (min B data.length) i)]
    exact sum_weight _ _ (by omega) (by omega)
  unfold windowLoss potential
  rw [Finset.mul_sum, ← one_mul (weightPrior _), ← h1, Finset.sum_mul, ← Finset.sum_add_distrib, ← Finset.sum_add_distrib]
  refine Finset.sum_congr rfl fun i _ => ?_
  unfold rowLoss power
  field_simp
  ring

theorem view_read {α β : Type} {d : Data α β} {b s : Nat} {batch : Batch} (h : IsBatch d b s batch) (hlen : d.y.length = d.x.length)
    (hN : b ≤ d.x.length) (hs : s < d.x.length - b + 1) : batch.xs.read d.x = (d.x.drop s).take b ∧ batch.ys.read d.y = (d.y.drop s).take b := by
  obtain ⟨R, a, rng, w, rfl, h1, h2⟩ := h
  unfold nextBatch drawBatch at h2
  simp only [Except.ok.injEq] at h2
  rw [h1] at h2
  rw [← h2]
  have e1 : min s w.data.x.length = s := by omega
  have e2 : min (s + b) w.data.x.length = s + b := by omega
  simp only [View.read, sliceView, hlen, e1, e2, Nat.add_sub_cancel_left, and_self]

/-- The dataset as the network holds it. -/
def held (data : List ((Fin D → ℝ) × ℝ)) : Data (Fin D → Fl) Fl := ⟨lift (data.map Prod.fst), (data.map Prod.snd).map .fin⟩

/-- **C108** (what holds) For every network, dataset and batch size the cost of a minibatch, averaged over the minibatches `generate_batches` can draw and
multiplied by the number `N` of datapoints, which is what training passes as `scale_grad`, is the sum of the minus log likelihoods of all rows, each
times its power, the weighted average of the minus log prior of the log variances and the minus log prior of the weights.
Missing: the powers are not 1, see `C108_posterior_iff`. -/
theorem C108_target_partial (S : Setup R D shape) (f : Params shape → (Fin D → ℝ) → ℝ × ℝ)
    (hf : ∀ θ x, S.net (finP θ) (fun j => .fin (x j)) = (.fin (f θ x).1, .fin (f θ x).2)) (hB : 0 < S.batchSize)
    (data : List ((Fin D → ℝ) × ℝ)) (hd : data ≠ []) (b : Nat) (hb : b = min S.batchSize data.length)
    (gen : Fin (data.length - b + 1) → Batch) (hgen : ∀ s : Fin (data.length - b + 1), IsBatch (held data) b s (gen s)) (θ : Params shape) :
    (∀ s, ∃ c, S.cost data.length ((gen s).xs.read (held data).x) ((gen s).ys.read (held data).y) (finP θ) = .fin c)
    ∧ data.length * ((∑ s, (S.cost data.length ((gen s).xs.read (held data).x) ((gen s).ys.read (held data).y) (finP θ)).val)
        / (data.length - b + 1 : Nat)) = potential f data S.batchSize θ := by
  have h0 : 0 < data.length := List.length_pos_iff.2 hd
  have hb1 : 1 ≤ b := by omega
  have hbN : b ≤ data.length := by omega
  have hlx : (held data).x.length = data.length := by simp [held, lift]
  have hly : (held data).y.length = data.length := by simp [held]
  have hcost : ∀ s, S.cost data.length ((gen s).xs.read (held data).x) ((gen s).ys.read (held data).y) (finP θ)
      = .fin (meanLoss (rowLoss f ((b : Nat) / S.batchSize) data.length) ((data.drop s).take b) fun j => θ j.1 j.2) := fun s => by
    obtain ⟨e1, e2⟩ := view_read (hgen s) (by rw [hlx, hly]) (by omega) (by rw [hlx]; exact s.2)
    have hl : ((data.drop s).take b).length = b := by simp; omega
    have hne : (data.drop s).take b ≠ [] := fun h => by rw [h] at hl; simp at hl; omega
    have hx : ((held data).x.drop s).take b = lift (((data.drop s).take b).map Prod.fst) := by
      simp [held, lift, List.map_take, List.map_drop]
    have hy : ((held data).y.drop s).take b = (((data.drop s).take b).map Prod.snd).map .fin := by
      simp [held, List.map_take, List.map_drop]
    rw [e1, e2, hx, hy, cost_fin S f hf hB _ h0 _ _ (by simpa using hne) (by simp)]
    congr 1
    have := cost_rows f S.batchSize data.length ((data.drop s).take b) hne fun j => θ j.1 j.2
    rw [hl] at this
    exact this
  refine ⟨fun s => ⟨_, hcost s⟩, ?_⟩
  simp only [hcost, Fl.val]
  rw [window_value _ data b hb1 hbN]
  subst hb
  exact scaled_windowLoss f data hd S.batchSize hB fun j => θ j.1 j.2

/-- The powers are 1 for one row, or all rows, at a time and for no other batch size. -/
theorem power_iff (N B : Nat) (hN : 0 < N) (hB : 0 < B) : (∀ i < N, power N B i = 1) ↔ (B = 1 ∨ B = N) := by
  have hN' : (0 : ℝ) < N := by exact_mod_cast hN
  have hB' : (0 : ℝ) < B := by exact_mod_cast hB
  rcases le_or_gt B N with h | h
  · have hm : min B N = B := by omega
    rw [← weight_uniform_iff N B hB h]
    unfold power
    rw [hm, div_self hB'.ne']
    refine forall₂_congr fun i _ => ?_
    rw [mul_one, eq_div_iff hN'.ne', mul_comm]
  · have hm : min B N = N := by omega
    refine ⟨fun hp => ?_, fun hp => by omega⟩
    have h1 := hp 0 hN
    unfold power at h1
    rw [hm, (weight_uniform_iff N N hN le_rfl).2 (.inr rfl) 0 hN, mul_one_div_cancel hN'.ne', one_mul, div_eq_one_iff_eq hB'.ne'] at h1
    have : N = B := by exact_mod_cast h1
    omega

theorem potential_eq (f : Params shape → (Fin D → ℝ) → ℝ × ℝ) (data : List ((Fin D → ℝ) × ℝ)) (hd : data ≠ []) (B : Nat)
    (hB : B = 1 ∨ B = data.length) (θ : Params shape) : potential f data B θ = negLogPosterior f data θ := by
  have h0 : 0 < data.length := List.length_pos_iff.2 hd
  have hp := (power_iff data.length B h0 (by omega)).2 hB
  have hm : min B data.length = B := by omega
  have hw := (weight_uniform_iff data.length B (by omega) (by omega)).2 hB
  unfold potential negLogPosterior
  rw [hm, Finset.sum_div]
  congr 2
  · exact Finset.sum_congr rfl fun i _ => by rw [hp i i.2, one_mul]
  · exact Finset.sum_congr rfl fun i _ => by rw [hw i i.2, one_div_mul_eq_div]

/-- **C108** Training targets the posterior, whatever the network and the dataset, exactly if minibatches have one row or all rows. -/
theorem C108_posterior_iff (N B : Nat) (hN : 0 < N) (hB : 0 < B) :
    (∀ (D n : Nat) (shape : Fin n → List Nat) (f : Params shape → (Fin D → ℝ) → ℝ × ℝ) (data : List ((Fin D → ℝ) × ℝ)), data.length = N →
      ∃ c, ∀ θ, potential f data B θ = negLogPosterior f data θ + c) ↔ (B = 1 ∨ B = N) := by
  constructor
  · intro h
    rw [← power_iff N B hN hB]
    intro i hi
    -- one scalar variable; row `i` has input 1, the others 0
    let f : Params (fun _ : Fin 1 => []) → (Fin 1 → ℝ) → ℝ × ℝ := fun θ x => (θ 0 ⟨0, by decide⟩ * x 0, 0)
    let data : List ((Fin 1 → ℝ) × ℝ) := (List.range N).map fun k => (fun _ => if k = i then 1 else 0, 0)
    have hl : data.length = N := by simp [data]
    obtain ⟨c, hc⟩ := h 1 1 (fun _ => []) f data hl
    have key : ∀ (t : ℝ) (w : Nat → ℝ), ∑ k : Fin data.length, w k * gaussCost (f (fun _ _ => t) data[k].1) data[k].2 = w i * (t ^ 2 / (2 * (1 + 1e-16))) := fun t w => by
      rw [Finset.sum_eq_single (⟨i, by omega⟩ : Fin data.length)]
      · simp [f, data, gaussCost]
      · intro k _ hk
        have : (k : Nat) ≠ i := fun h => hk (Fin.ext h)
        simp [f, data, gaussCost, this]
      · simp
    have key1 : ∀ t : ℝ, ∑ k : Fin data.length, gaussCost (f (fun _ _ => t) data[k].1) data[k].2 = t ^ 2 / (2 * (1 + 1e-16)) := fun t => by
      have := key t fun _ => 1
      simpa using this
    have h1 := hc fun _ _ => 1
    have h0 := hc fun _ _ => 0
    unfold potential negLogPosterior at h1 h0
    rw [key 1 (power data.length B), key1] at h1
    rw [key 0 (power data.length B), key1] at h0
    simp only [f, hl] at h1 h0
    have : power N B i * (1 / (2 * (1 + 1e-16))) = 1 / (2 * (1 + 1e-16)) := by
      simp only [one_pow, ne_eq, OfNat.ofNat_ne_zero, not_false_eq_true, zero_pow, zero_div, mul_zero] at h1 h0
      linarith
    have hpos : (0 : ℝ) < 1 / (2 * (1 + 1e-16)) := by positivity
    exact mul_right_cancel₀ hpos.ne' (this.trans (one_mul _).symm)
  · intro h D n shape f data hl
    subst hl
    exact ⟨0, fun θ => by rw [potential_eq f data (List.length_pos_iff.1 hN) B h, add_zero]⟩

/-- **C108** fails for every other batch size: in between the first row counts less than once, and if more rows are asked for than there are,
all rows count less than once. -/
theorem C108_violated (N B : Nat) (hN : 0 < N) : (1 < B → B < N → power N B 0 = N / (B * (N - B + 1 : Nat)) ∧ power N B 0 < 1)
    ∧ (N < B → ∀ i < N, power N B i = N / B ∧ power N B i < 1) := by
  have hN' : (0 : ℝ) < N := by exact_mod_cast hN
  constructor
  · intro h1 h2
    have hB' : (0 : ℝ) < B := by exact_mod_cast (by omega : 0 < B)
    have hm : min B N = B := by omega
    have hf : freq N B 0 = 1 := by unfold freq; omega
    have e : power N B 0 = N / (B * (N - B + 1 : Nat)) := by
      unfold power weight
      rw [hm, div_self hB'.ne', hf, mul_one, Nat.cast_one, mul_one_div]
    refine ⟨e, ?_⟩
    rw [e]
    obtain ⟨c, rfl⟩ : ∃ c, B = c + 2 := ⟨B - 2, by omega⟩
    obtain ⟨d, rfl⟩ : ∃ d, N = c + 3 + d := ⟨N - (c + 3), by omega⟩
    rw [div_lt_one (by positivity)]
    have e2 : c + 3 + d - (c + 2) + 1 = d + 2 := by omega
    rw [e2]
    exact_mod_cast (by nlinarith : c + 3 + d < (c + 2) * (d + 2))
  · intro h i hi
    have hB' : (0 : ℝ) < B := by exact_mod_cast (by omega : 0 < B)
    have hm : min B N = N := by omega
    have e : power N B i = N / B := by
      unfold power
      rw [hm, (weight_uniform_iff N N hN le_rfl).2 (.inr rfl) i hi, mul_one_div_cancel hN'.ne', one_mul]
    refine ⟨e, ?_⟩
    rw [e, div_lt_one hB']
    exact_mod_cast h

theorem weight_nonneg (N b i : Nat) : 0 ≤ weight N b i := by unfold weight; positivity

theorem power_nonneg (N B i : Nat) : 0 ≤ power N B i := by
  have := weight_nonneg N (min B N) i
  unfold power; positivity

/-- The terms of a row are bounded below. -/
theorem row_bound (o : ℝ × ℝ) (y q w : ℝ) (hq : 0 ≤ q) (hw : 0 < w) :
    q * (Real.log 1e-6 / 2) - q ^ 2 / (16 / (2 * 0.01 + 3e-16) * w) + w * (Real.log 0.01 / 2) ≤ q * gaussCost o y + w * varPrior o.2 := by
  have h1 : o.2 / 2 ≤ gaussCost o y := by
    have : 0 ≤ (y - o.1) ^ 2 / (2 * (Real.exp o.2 + 1e-16)) := by positivity
    unfold gaussCost
    linarith
  have h2 : q * (o.2 / 2) ≤ q * gaussCost o y := mul_le_mul_of_nonneg_left h1 hq
  unfold varPrior
  set κ : ℝ := 1 / (2 * 0.01 + 3e-16) with hκ
  have hκ0 : 0 < κ := by positivity
  have e1 : (o.2 - Real.log 1e-6) ^ 2 / (2 * 0.01 + 3e-16) = κ * (o.2 - Real.log 1e-6) ^ 2 := by rw [hκ]; ring
  have e2 : (16 : ℝ) / (2 * 0.01 + 3e-16) = 16 * κ := by rw [hκ]; ring
  rw [e1, e2]
  generalize Real.log 1e-6 = l at *
  generalize o.2 = v at *
  have h3 : 0 ≤ w * κ * ((v - l) + q / (4 * (w * κ))) ^ 2 := by positivity
  have e3 : w * κ * ((v - l) + q / (4 * (w * κ))) ^ 2 = w * κ * (v - l) ^ 2 + q * (v - l) / 2 + q ^ 2 / (16 * κ * w) := by
    field_simp
    ring
  rw [e3] at h3
  nlinarith

theorem weight_pos (N b i : Nat) (hb : 1 ≤ b) (hi : i < N) (hN : b ≤ N) : 0 < weight N b i := by
  have h1 : 1 ≤ freq N b i := by unfold freq; omega
  have h2 : (0 : ℝ) < freq N b i := by exact_mod_cast h1
  have h3 : (0 : ℝ) < b := by exact_mod_cast hb
  unfold weight
  positivity

theorem potential_bound (f : Params shape → (Fin D → ℝ) → ℝ × ℝ) (data : List ((Fin D → ℝ) × ℝ)) (hd : data ≠ []) (B : Nat) (hB : 0 < B) :
    ∃ d, ∀ x : Weights shape → ℝ, 1 / (2 * ((∑ i, (sizes shape i : ℝ)) + 3e-16)) * ∑ j, x j ^ 2 - d ≤ potential f data B (split x) := by
  have h0 : 0 < data.length := List.length_pos_iff.2 hd
  refine ⟨-∑ i : Fin data.length, (power data.length B i * (Real.log 1e-6 / 2)
    - power data.length B i ^ 2 / (16 / (2 * 0.01 + 3e-16) * weight data.length (min B data.length) i)
    + weight data.length (min B data.length) i * (Real.log 0.01 / 2)), fun x => ?_⟩
  have e : weightPrior (split x) = 1 / (2 * ((∑ i, (sizes shape i : ℝ)) + 3e-16)) * ∑ j, x j ^ 2 := by
    unfold weightPrior split
    rw [Fintype.sum_sigma]
    have : (0 : ℝ) < (∑ i, (sizes shape i : ℝ)) + 3e-16 := by positivity
    field_simp
  unfold potential
  rw [e, ← Finset.sum_add_distrib]
  have := Finset.sum_le_sum (s := Finset.univ) fun (i : Fin data.length) _ => row_bound (f (split x) data[i].1) data[i].2
    (power data.length B i) (weight data.length (min B data.length) i) (power_nonneg _ _ _) (weight_pos _ _ _ (by omega) i.2 (by omega))
  linarith

theorem split_measurable_potential (f : Params shape → (Fin D → ℝ) → ℝ × ℝ) (data : List ((Fin D → ℝ) × ℝ)) (B : Nat)
    (hf : ∀ r ∈ data, Measurable fun x : Weights shape → ℝ => f (split x) r.1) : Measurable fun x : Weights shape → ℝ => potential f data B (split x) := by
  have h1 : ∀ i : Fin data.length, Measurable fun x : Weights shape → ℝ => f (split x) data[i].1 := fun i => hf _ (List.getElem_mem _)
  have hw : Measurable fun x : Weights shape → ℝ => weightPrior (split x) := by
    have : ∀ i p, Measurable fun x : Weights shape → ℝ => split x i p := fun i p => measurable_pi_apply (⟨i, p⟩ : Weights shape)
    unfold weightPrior
    exact (((Finset.measurable_sum _ fun i _ => Finset.measurable_sum _ fun p _ => (this i p).pow_const 2)).div_const _).const_mul _
  have hg : ∀ i : Fin data.length, Measurable fun x : Weights shape → ℝ => gaussCost (f (split x) data[i].1) data[i].2 := fun i => by
    have a := (h1 i).fst
    have b := (h1 i).snd
    unfold gaussCost
    exact ((measurable_const.sub a).pow_const 2).div (((Real.measurable_exp.comp b).add_const _).const_mul _) |>.add (b.div_const _)
  have hv : ∀ i : Fin data.length, Measurable fun x : Weights shape → ℝ => varPrior (f (split x) data[i].1).2 := fun i => by
    unfold varPrior
    exact ((((h1 i).snd.sub_const _).pow_const 2).div_const _).add_const _
  unfold potential
  exact ((Finset.measurable_sum _ fun i _ => (hg i).const_mul _).add (Finset.measurable_sum _ fun i _ => (hv i).const_mul _)).add hw

/-- **C108** The density that training targets is proper, whatever the (measurable) network, the dataset and the batch size: it has finite total
mass and finite moments of every order. The same holds for its powers. -/
theorem C108_proper (f : Params shape → (Fin D → ℝ) → ℝ × ℝ) (data : List ((Fin D → ℝ) × ℝ)) (hd : data ≠ []) (B : Nat) (hB : 0 < B)
    (hf : ∀ r ∈ data, Measurable fun x : Weights shape → ℝ => f (split x) r.1) (κ : ℝ) (hκ : 0 < κ) :
    IsFiniteMeasure (boltz fun x : Weights shape → ℝ => κ * potential f data B (split x))
    ∧ Moments (boltz fun x : Weights shape → ℝ => κ * potential f data B (split x)) := by
  obtain ⟨d, h⟩ := potential_bound f data hd B hB
  have : (0 : ℝ) < (∑ i, (sizes shape i : ℝ)) + 3e-16 := by positivity
  refine quadratic_boltz ((split_measurable_potential f data B hf).const_mul κ)
    (κ * (1 / (2 * ((∑ i, (sizes shape i : ℝ)) + 3e-16)))) (κ * d) (by positivity) fun x => ?_
  have := mul_le_mul_of_nonneg_left (h x) hκ.le
  rw [mul_sub, ← mul_assoc] at this
  exact this

end

end PySGMCMC.BNNPosterior
