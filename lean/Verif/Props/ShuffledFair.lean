import Verif.Lemmas.WindowMixing
import Verif.Props.WindowBias
import Verif.Props.ShuffleLaw

/-!
# C107: shuffled batches are fair to all rows in the long run

`generate_shuffled_batches` draws windows as `generate_batches` does, so its first batches prefer rows in the middle (C106).  But it reorders
the dataset in place: after many batches every row is equally likely to be anywhere, and batches are fair.
-/

namespace PySGMCMC.ShuffledFair
open Finset Filter Topology Mixing DataBatches WindowBias Spec

/-! ## Averages over the draws -/

/-- Average over the draws of `rng.shuffle` on `k + 1` items: the first from `0, …, k`, the next from `0, …, k - 1`, …. -/
noncomputable def avgDraws : Nat → (List Nat → ℝ) → ℝ
  | 0, F => F []
  | k + 1, F => avg (k + 2) fun j => avgDraws k fun d => F (j :: d)

/-- Average over the draws for `n` batches: for each a position `< M` and the draws of shuffling `k + 1` items. -/
noncomputable def avgSteps (M k : Nat) : Nat → (List (Nat × List Nat) → ℝ) → ℝ
  | 0, F => F []
  | n + 1, F => avg M fun s => avgDraws k fun d => avgSteps M k n fun st => F ((s, d) :: st)

/-- A random generator that makes the given draws: positions and draws of shuffling are consumed separately. -/
def tape (st : List (Nat × List Nat)) : RNG where
  State := List Nat × List Nat
  seeded _ := (st.map Prod.fst, st.flatMap Prod.snd)
  randint t h := (if t.1.headD 0 < h then t.1.headD 0 else 0, (t.1.tail, t.2))
  interval t m := (min (t.2.headD 0) m, (t.1, t.2.tail))
  randint_lt t h hh := by dsimp only; split <;> omega
  interval_le _ _ := Nat.min_le_right _ _

theorem avgDraws_congr (k : Nat) {F G : List Nat → ℝ} (h : ∀ d, Possible k d → F d = G d) : avgDraws k F = avgDraws k G := by
  induction k generalizing F G with
  | zero => exact h _ rfl
  | succ k ih => exact avg_congr fun j hj => ih fun d hd => h _ ⟨j, d, rfl, by omega, hd⟩

theorem avgDraws_const (k : Nat) (c : ℝ) : avgDraws k (fun _ => c) = c := by
  induction k with
  | zero => rfl
  | succ k ih => unfold avgDraws; simp only [ih]; exact avg_const (Nat.succ_pos _) c

theorem avgSteps_congr (M k n : Nat) {F G : List (Nat × List Nat) → ℝ}
    (h : ∀ st, st.length = n → (∀ sd ∈ st, sd.1 < M ∧ Possible k sd.2) → F st = G st) : avgSteps M k n F = avgSteps M k n G := by
  induction n generalizing F G with
  | zero => exact h _ rfl (by simp)
  | succ n ih =>
    refine avg_congr fun s hs => avgDraws_congr k fun d hd => ih fun st hl hst => h _ (by simp [hl]) ?_
    intro sd hsd
    rcases List.mem_cons.1 hsd with rfl | hsd
    · exact ⟨hs, hd⟩
    · exact hst _ hsd

/-! ## The effect of the draws on the rows -/

variable {γ : Type}

/-- Shuffling with given draws. -/
def applyDraws : Nat → List Nat → List γ → List γ
  | k + 1, j :: d, l => applyDraws k d (swapAt l (k + 1) j)
  | _, _, l => l

theorem shuffleLoop_tape (st0 : List (Nat × List Nat)) (k : Nat) (ss d ds : List Nat) (l : List γ) (hd : Possible k d) :
    shuffleLoop (tape st0) k (ss, d ++ ds) l = (applyDraws k d l, (ss, ds)) := by
  induction k generalizing d l with
  | zero => rw [show d = [] from hd]; rfl
  | succ k ih =>
    obtain ⟨j, r, rfl, hj, hr⟩ := hd
    show shuffleLoop (tape st0) k (ss, r ++ ds) (swapAt l (k + 1) (min j (k + 1))) = _
    rw [Nat.min_eq_left hj, ih r _ hr]
    rfl

theorem applyDraws_perm (k : Nat) (d : List Nat) (l : List γ) : (applyDraws k d l).Perm l := by
  induction k generalizing d l with
  | zero => exact List.Perm.refl _
  | succ k ih =>
    cases d with
    | nil => exact List.Perm.refl _
    | cons j d => exact (ih d _).trans (swapAt_perm l _ _)

/-- Weighted sum of the items, by position. -/
noncomputable def wsum (g : Option γ → ℝ) (h : Nat → ℝ) (l : List γ) : ℝ := ∑ q ∈ range l.length, h q * g l[q]?

theorem wsum_congr (g : Option γ → ℝ) {h h' : Nat → ℝ} (l : List γ) (e : ∀ q < l.length, h q = h' q) : wsum g h l = wsum g h' l :=
  sum_congr rfl fun q hq => by rw [e q (mem_range.1 hq)]

theorem wsum_avg (g : Option γ → ℝ) (n : Nat) (h : Nat → Nat → ℝ) (l : List γ) :
    avg n (fun j => wsum g (h j) l) = wsum g (fun q => avg n fun j => h j q) l := by
  unfold wsum
  rw [avg_sum]
  exact sum_congr rfl fun q _ => avg_mul_right _ _ _

theorem wsum_append (g : Option γ → ℝ) (h : Nat → ℝ) (l l' : List γ) :
    wsum g h (l ++ l') = wsum g h l + wsum g (fun q => h (l.length + q)) l' := by
  unfold wsum
  rw [List.length_append, sum_range_add]
  congr 1
  · exact sum_congr rfl fun q hq => by rw [List.getElem?_append_left (mem_range.1 hq)]
  · exact sum_congr rfl fun q _ => by rw [List.getElem?_append_right (by omega), Nat.add_sub_cancel_left]

theorem wsum_swap (g : Option γ → ℝ) (h : Nat → ℝ) (l : List γ) (i j : Nat) (hi : i < l.length) (hj : j < l.length) :
    wsum g h (swapAt l i j) = wsum g (fun q => h (Equiv.swap i j q)) l := by
  unfold wsum
  rw [swapAt_length]
  refine sum_nbij' (fun q => Equiv.swap i j q) (fun q => Equiv.swap i j q) ?_ ?_ ?_ ?_ ?_
  · intro q hq
    rw [mem_range] at *
    rw [Equiv.swap_apply_def]; split_ifs <;> omega
  · intro q hq
    rw [mem_range] at *
    rw [Equiv.swap_apply_def]; split_ifs <;> omega
  · intro q _; exact Equiv.swap_apply_self _ _ _
  · intro q _; exact Equiv.swap_apply_self _ _ _
  · intro q _
    dsimp only
    rw [Equiv.swap_apply_self, swapAt_get _ _ _ _ hi hj, Equiv.swap_apply_def]
    congr 2
    by_cases h1 : q = i
    · by_cases h2 : q = j
      · rw [if_pos h2, if_pos h1, ← h1, h2]
      · rw [if_neg h2, if_pos h1, if_pos h1]
    · by_cases h2 : q = j
      · rw [if_pos h2, if_neg h1, if_pos h2]
      · rw [if_neg h2, if_neg h1, if_neg h1, if_neg h2]

/-- On average, shuffling `k + 1` items takes the mean of the weights. -/
theorem shuffle_mean (k : Nat) (h : Nat → ℝ) (q : Nat) :
    avg (k + 2) (fun j => windowMean (k + 1) 0 h (Equiv.swap (k + 1) j q)) = windowMean (k + 2) 0 h q := by
  have hk : (0 : ℝ) < (k + 1 : Nat) := by positivity
  have hsum : ∑ i ∈ range (k + 2), h (0 + i) = (k + 1 : Nat) * avg (k + 1) (fun i => h (0 + i)) + h (k + 1) := by
    rw [sum_range_succ, avg_mul_card (by omega)]; simp
  by_cases h1 : k + 1 < q
  · rw [windowMean_out _ _ _ _ (by omega), avg_congr (G := fun _ => h q), avg_const (by omega)]
    intro j hj
    rw [Equiv.swap_apply_of_ne_of_ne (by omega) (by omega), windowMean_out _ _ _ _ (by omega)]
  · rw [show windowMean (k + 2) 0 h q = avg (k + 2) fun i => h (0 + i) by unfold windowMean; rw [if_pos (by omega)]]
    unfold avg
    congr 1
    rw [hsum]
    have hin : ∀ p, p < k + 1 → windowMean (k + 1) 0 h p = avg (k + 1) fun i => h (0 + i) := fun p hp => by
      unfold windowMean; rw [if_pos (by omega)]
    by_cases h2 : q = k + 1
    · subst h2
      rw [sum_range_succ, sum_congr rfl fun j hj => by rw [Equiv.swap_apply_left, hin j (mem_range.1 hj)], sum_const, card_range, nsmul_eq_mul,
        Equiv.swap_apply_left, windowMean_out _ _ _ _ (by omega)]
    · have hq : q ∈ range (k + 2) := mem_range.2 (by omega)
      rw [← add_sum_erase _ _ hq, Equiv.swap_apply_right, windowMean_out _ _ _ (k + 1) (by omega), add_comm]
      congr 1
      rw [sum_congr rfl (g := fun _ => avg (k + 1) fun i => h (0 + i)), sum_const, card_erase_of_mem hq, card_range, nsmul_eq_mul]
      · rfl
      · intro j hj
        rw [mem_erase] at hj
        rw [Equiv.swap_apply_of_ne_of_ne h2 (Ne.symm hj.1), hin q (by omega)]

theorem shuffle_wsum (g : Option γ → ℝ) (k : Nat) (h : Nat → ℝ) (l : List γ) (hk : k < l.length) :
    avgDraws k (fun d => wsum g h (applyDraws k d l)) = wsum g (windowMean (k + 1) 0 h) l := by
  induction k generalizing l with
  | zero =>
    refine wsum_congr g l fun q _ => ?_
    unfold windowMean
    split
    · rename_i hq
      have : q = 0 := by omega
      subst this
      simp [avg]
    · rfl
  | succ k ih =>
    show avg (k + 2) (fun j => avgDraws k fun d => wsum g h (applyDraws k d (swapAt l (k + 1) j))) = _
    rw [avg_congr fun j hj => by rw [ih (swapAt l (k + 1) j) (by rw [swapAt_length]; omega), wsum_swap g _ l (k + 1) j hk (by omega)], wsum_avg]
    exact wsum_congr g l fun q _ => shuffle_mean k h q

/-- The rows after one batch. -/
def stepRows (b : Nat) (l : List γ) (sd : Nat × List Nat) : List γ :=
  l.take sd.1 ++ applyDraws (b - 1) sd.2 ((l.drop sd.1).take b) ++ l.drop (sd.1 + b)

theorem stepRows_length (b : Nat) (l : List γ) (sd : Nat × List Nat) (h : sd.1 + b ≤ l.length) : (stepRows b l sd).length = l.length := by
  unfold stepRows
  simp only [List.length_append, List.length_take, List.length_drop, (applyDraws_perm _ _ _).length_eq]
  omega

theorem step_wsum (g : Option γ → ℝ) (b s : Nat) (hb : 1 ≤ b) (h : Nat → ℝ) (l : List γ) (hs : s + b ≤ l.length) :
    avgDraws (b - 1) (fun d => wsum g h (stepRows b l (s, d))) = wsum g (windowMean b s h) l := by
  have hl1 : (l.take s).length = s := by simp; omega
  have hl2 : ((l.drop s).take b).length = b := by simp; omega
  have e : ∀ d, wsum g h (stepRows b l (s, d)) = wsum g h (l.take s) + wsum g (fun q => h (s + b + q)) (l.drop (s + b))
      + wsum g (fun q => h (s + q)) (applyDraws (b - 1) d ((l.drop s).take b)) := fun d => by
    unfold stepRows
    rw [wsum_append, wsum_append, hl1, List.length_append, hl1, (applyDraws_perm _ _ _).length_eq, hl2]
    ring
  have hadd : ∀ (k : Nat) (c : ℝ) (F : List Nat → ℝ), avgDraws k (fun d => c + F d) = c + avgDraws k F := fun k => by
    induction k with
    | zero => intro c F; rfl
    | succ k ih =>
      intro c F
      unfold avgDraws
      simp only [ih]
      have : (0 : ℝ) < (k + 2 : Nat) := by positivity
      unfold avg
      rw [sum_add_distrib, sum_const, card_range, nsmul_eq_mul]
      field_simp
  simp only [e]
  rw [hadd, shuffle_wsum g (b - 1) _ _ (by omega), Nat.sub_add_cancel hb]
  conv_rhs => rw [split_window l s b]
  rw [wsum_append, wsum_append]
  simp only [View.read, Nat.add_sub_cancel_left, hl1, List.length_append, hl2]
  have e1 : wsum g (windowMean b s h) (l.take s) = wsum g h (l.take s) := wsum_congr g _ fun q hq => windowMean_out _ _ _ _ (by omega)
  have e2 : wsum g (fun q => windowMean b s h (s + b + q)) (l.drop (s + b)) = wsum g (fun q => h (s + b + q)) (l.drop (s + b)) :=
    wsum_congr g _ fun q hq => windowMean_out _ _ _ _ (by omega)
  have e3 : wsum g (fun q => windowMean b s h (s + q)) ((l.drop s).take b) = wsum g (windowMean b 0 fun q => h (s + q)) ((l.drop s).take b) :=
    wsum_congr g _ fun q hq => by
      rw [windowMean_in _ _ _ _ (by omega)]
      unfold windowMean
      rw [if_pos (by omega)]
      simp
  rw [e1, e2, e3]
  ring

/-- Sum of `g` over the rows of the last batch. -/
noncomputable def lastSum (b : Nat) (g : γ → ℝ) : List (Nat × List Nat) → List γ → ℝ
  | [], _ => 0
  | [sd], l => ((((stepRows b l sd).drop sd.1).take b).map g).sum
  | sd :: sd' :: st, l => lastSum b g (sd' :: st) (stepRows b l sd)

theorem stepRows_window (b : Nat) (l : List γ) (sd : Nat × List Nat) (h : sd.1 + b ≤ l.length) :
    ((stepRows b l sd).drop sd.1).take b = applyDraws (b - 1) sd.2 ((l.drop sd.1).take b) := by
  have hl1 : (l.take sd.1).length = sd.1 := by simp; omega
  have hl2 : (applyDraws (b - 1) sd.2 ((l.drop sd.1).take b)).length = b := by rw [(applyDraws_perm _ _ _).length_eq]; simp; omega
  unfold stepRows
  rw [List.append_assoc, List.drop_append_of_le_length (by omega), List.drop_of_length_le (by omega), List.nil_append,
    List.take_append_of_le_length (by omega), List.take_of_length_le (by omega)]

theorem sum_window (g : γ → ℝ) (l : List γ) (b s : Nat) (h : s + b ≤ l.length) :
    (((l.drop s).take b).map g).sum = ∑ i ∈ range b, (l[s + i]?).elim 0 g := by
  induction b with
  | zero => simp
  | succ b ih =>
    rw [sum_range_succ, ← ih (by omega), List.take_add_one, List.map_append, List.sum_append, List.getElem?_drop,
      List.getElem?_eq_getElem (show s + b < l.length by omega)]
    simp

/-- Expected sum of the last of `n + 1` batches. -/
theorem avg_lastSum (g : γ → ℝ) (N b : Nat) (hb : 1 ≤ b) (hN : b ≤ N) (n : Nat) (l : List γ) (hl : l.length = N) :
    avgSteps (N - b + 1) (b - 1) (n + 1) (fun st => lastSum b g st l)
      = wsum (fun o => o.elim 0 g) ((mix N b)^[n] fun q => freq N b q / (N - b + 1 : Nat)) l := by
  induction n generalizing l with
  | zero =>
    show avg (N - b + 1) (fun s => avgDraws (b - 1) fun d => lastSum b g [(s, d)] l) = _
    have e : ∀ s < N - b + 1, (avgDraws (b - 1) fun d => lastSum b g [(s, d)] l) = ∑ i ∈ range b, (l[s + i]?).elim 0 g := fun s hs => by
      have : ∀ d, lastSum b g [(s, d)] l = ∑ i ∈ range b, (l[s + i]?).elim 0 g := fun d => by
        show ((((stepRows b l (s, d)).drop s).take b).map g).sum = _
        rw [stepRows_window b l (s, d) (by simp only; omega), (((applyDraws_perm _ _ _)).map g).sum_eq, sum_window g l b s (by omega)]
      simp only [this, avgDraws_const]
    rw [avg_congr e]
    unfold avg wsum
    rw [sum_windows N b hN fun i => (l[i]?).elim 0 g, sum_div, hl]
    exact sum_congr rfl fun q _ => by simp only [Function.iterate_zero, id]; ring
  | succ n ih =>
    show avg (N - b + 1) (fun s => avgDraws (b - 1) fun d => avgSteps (N - b + 1) (b - 1) (n + 1) fun st => lastSum b g ((s, d) :: st) l) = _
    rw [Function.iterate_succ_apply']
    show _ = wsum _ (fun q => avg (N - b + 1) fun s => windowMean b s _ q) l
    rw [← wsum_avg]
    refine avg_congr fun s hs => ?_
    rw [← step_wsum _ b s hb _ l (by omega)]
    refine avgDraws_congr _ fun d _ => ?_
    rw [← ih (stepRows b l (s, d)) (by rw [stepRows_length b l (s, d) (by simp only; omega), hl])]
    refine avgSteps_congr _ _ _ fun st hst _ => ?_
    cases st with
    | nil => simp at hst
    | cons sd st => rfl

theorem sum_freq (N b : Nat) (hb : 1 ≤ b) (hN : b ≤ N) :
    (∑ q ∈ range N, (freq N b q : ℝ) / (N - b + 1 : Nat)) = b := by
  have hb' : (0 : ℝ) < b := by exact_mod_cast hb
  have h := sum_weight N b hb hN
  unfold weight at h
  rw [sum_congr rfl fun q _ => show (freq N b q : ℝ) / (N - b + 1 : Nat) = b * (freq N b q / (b * (N - b + 1 : Nat))) by field_simp,
    ← mul_sum, h, mul_one]

theorem lastSum_tendsto (g : γ → ℝ) (N b : Nat) (hb : 1 ≤ b) (hN : b ≤ N) (l : List γ) (hl : l.length = N) :
    Tendsto (fun n => avgSteps (N - b + 1) (b - 1) (n + 1) fun st => lastSum b g st l) atTop (𝓝 (b * ((l.map g).sum / N))) := by
  simp only [avg_lastSum g N b hb hN _ l hl]
  have hlim : ∀ q < N, Tendsto (fun n => (mix N b)^[n] (fun q => (freq N b q : ℝ) / (N - b + 1 : Nat)) q) atTop (𝓝 (b / N)) := fun q hq => by
    rcases Nat.eq_or_lt_of_le hb with rfl | hb2
    · have hf : (fun q => (freq N 1 q : ℝ) / (N - 1 + 1 : Nat)) q = 1 / N := by
        have : freq N 1 q = 1 := by unfold freq; omega
        simp only [this, Nat.sub_add_cancel (show 1 ≤ N by omega), Nat.cast_one]
      have hit : ∀ n, (mix N 1)^[n] (fun q => (freq N 1 q : ℝ) / (N - 1 + 1 : Nat)) q = 1 / N := fun n => by
        induction n with
        | zero => exact hf
        | succ n ih =>
          rw [Function.iterate_succ_apply']
          show avg (N - 1 + 1) (fun s => windowMean 1 s ((mix N 1)^[n] _) q) = _
          rw [avg_congr (G := fun _ => (1 : ℝ) / N), avg_const (Nat.succ_pos _)]
          intro s _
          unfold windowMean
          split
          · rename_i h
            have : q = s := by omega
            subst this
            unfold avg
            rw [sum_range_one, Nat.cast_one, div_one]
            exact ih
          · exact ih
      simp only [hit, Nat.cast_one]
      exact tendsto_const_nhds
    · have := mix_tendsto N b hb2 hN (fun q => (freq N b q : ℝ) / (N - b + 1 : Nat)) q hq
      rwa [sum_freq N b hb hN] at this
  have h := tendsto_finsetSum (range l.length) fun q hq => (hlim q (by rw [← hl]; exact mem_range.1 hq)).mul_const ((l[q]?).elim 0 g)
  have e : (b : ℝ) * ((l.map g).sum / N) = ∑ q ∈ range l.length, b / N * (l[q]?).elim 0 g := by
    have := sum_window g l l.length 0 (by omega)
    simp only [List.drop_zero, List.take_length, Nat.zero_add] at this
    rw [this, ← mul_sum]
    ring
  rw [e]
  exact h

/-! ## What the generator yields for given draws -/

variable {α β : Type}

/-- Sum of `g` over the rows (with labels) of batch `n`, as the caller sees it when it is yielded. -/
noncomputable def batchSum {R : RNG} (g : α × β → ℝ) (n : Nat) (c : List (Except PyErr Batch) × (ShuffledGen R × World R α β)) : ℝ :=
  match c.1[n]? with
  | some (.ok batch) => ((batchRows c.2.2.data batch).map g).sum
  | _ => 0

/-- Draws that are possible for batches of `b` out of `N` rows. -/
def ValidDraws (N b : Nat) (st : List (Nat × List Nat)) : Prop := ∀ sd ∈ st, sd.1 < N - b + 1 ∧ Possible (b - 1) sd.2

theorem shuffledStep_tape (st0 : List (Nat × List Nat)) (a : Args) (N b s : Nat) (d ss ss1 ds ds1 : List Nat) (inner : Gen (tape st0))
    (w : World (tape st0) α β) (glob' : (tape st0).State) (hN : b ≤ N) (hs : s < N - b + 1) (hd : Possible (b - 1) d)
    (hx : w.data.x.length = N) (hy : w.data.y.length = N)
    (hin : nextBatch (tape st0) a (inner, w) = drawBatch (tape st0) (s :: ss, ds1) N b { w with glob := glob' }) :
    ∃ w' : World (tape st0) α β, shuffledStep (tape st0) a (ss1, d ++ ds) (ss1, d ++ ds) inner w
        = (.ok ⟨⟨s, s + b⟩, ⟨s, s + b⟩⟩, .running (ss1, ds) (ss1, ds) (.running (ss, ds1) N b), w')
      ∧ w'.data.x.length = N ∧ w'.data.y.length = N ∧ rowsOf w'.data = stepRows b (rowsOf w.data) (s, d) := by
  have hdraw : drawBatch (tape st0) (s :: ss, ds1) N b { w with glob := glob' }
      = (.ok ⟨⟨s, s + b⟩, ⟨s, s + b⟩⟩, .running (ss, ds1) N b, { w with glob := glob' }) := by
    unfold drawBatch
    have : (tape st0).randint (s :: ss, ds1) (N - b + 1) = (s, (ss, ds1)) := by
      show ((if s < N - b + 1 then s else 0), _) = _
      rw [if_pos hs]; rfl
    simp only [this, sliceView, hx, hy]
    rw [Nat.min_eq_left (by omega), Nat.min_eq_left (by omega)]
  rw [hdraw] at hin
  have key : ∀ {δ : Type} (l : List δ), l.length = N → shuffleView (tape st0) (ss1, d ++ ds) ⟨s, s + b⟩ l
      = (stepRows b l (s, d), (ss1, ds)) := fun l hl => by
    refine (shuffleView_eq (tape st0) (ss1, d ++ ds) s b l (by omega)).trans ?_
    unfold shuffle
    rw [(isWindow_read l s b (by omega)).1, shuffleLoop_tape _ _ _ _ _ _ hd]
    simp only [View.read, Nat.add_sub_cancel_left, stepRows]
    rfl
  refine ⟨⟨⟨stepRows b w.data.x (s, d), stepRows b w.data.y (s, d)⟩, glob'⟩, ?_, ?_, ?_, ?_⟩
  · unfold shuffledStep
    rw [hin]
    simp only
    rw [key w.data.x hx, key w.data.y hy]
  · rw [stepRows_length _ _ _ (by simp only; omega), hx]
  · rw [stepRows_length _ _ _ (by simp only; omega), hy]
  · have := (shuffleView_zip (tape st0) (ss1, d ++ ds) s b w.data.x w.data.y (by omega) (by omega)).1
    rw [key w.data.x hx, key w.data.y hy, key (w.data.x.zip w.data.y) (by simp [hx, hy])] at this
    exact this.symm

theorem batchSum_succ {R : RNG} (a : Args) (g : α × β → ℝ) (n : Nat) (s : ShuffledGen R × World R α β) :
    batchSum g (n + 1) (calls (nextShuffled R a) (n + 2) s) = batchSum g n (calls (nextShuffled R a) (n + 1) (nextShuffled R a s).2) := by
  unfold batchSum
  rw [calls_succ]
  simp only [List.getElem?_cons_succ]

theorem batchSum_window {R : RNG} (g : α × β → ℝ) (s b : Nat) (r : List (Except PyErr Batch)) (st : ShuffledGen R × World R α β) :
    batchSum g 0 (.ok ⟨⟨s, s + b⟩, ⟨s, s + b⟩⟩ :: r, st) = ((((rowsOf st.2.data).drop s).take b).map g).sum := by
  unfold batchSum
  simp only [List.getElem?_cons_zero, batchRows]
  rw [← read_zip]
  simp only [View.read, Nat.add_sub_cancel_left]

/-- A running generator. -/
theorem batchSum_running (st0 : List (Nat × List Nat)) (a : Args) (g : α × β → ℝ) (N b : Nat) (hN : b ≤ N) (sd : Nat × List Nat)
    (st : List (Nat × List Nat)) (hst : ValidDraws N b (sd :: st)) (ss1 ds1 : List Nat) (w : World (tape st0) α β)
    (hx : w.data.x.length = N) (hy : w.data.y.length = N) :
    batchSum g st.length (calls (nextShuffled (tape st0) a) (st.length + 1)
      (.running (ss1, (sd :: st).flatMap Prod.snd) (ss1, (sd :: st).flatMap Prod.snd) (.running ((sd :: st).map Prod.fst, ds1) N b), w))
      = lastSum b g (sd :: st) (rowsOf w.data) := by
  induction st generalizing sd w with
  | nil =>
    obtain ⟨s, d⟩ := sd
    obtain ⟨h1, h2⟩ := hst (s, d) (by simp)
    obtain ⟨w', e, hx', hy', hr⟩ := shuffledStep_tape (α := α) (β := β) st0 a N b s d [] ss1 [] ds1 (.running ([s], ds1) N b) w w.glob hN h1 h2 hx hy rfl
    have e' : nextShuffled (tape st0) a (.running (ss1, d ++ []) (ss1, d ++ []) (.running ([s], ds1) N b), w) = _ := e
    simp only [List.flatMap_cons, List.flatMap_nil, List.map_cons, List.map_nil, List.length_nil, Nat.zero_add, calls_succ, calls_zero]
    rw [e', batchSum_window g s b _ _, hr]
    rfl
  | cons sd' st ih =>
    obtain ⟨s, d⟩ := sd
    obtain ⟨h1, h2⟩ := hst (s, d) (by simp)
    obtain ⟨w', e, hx', hy', hr⟩ := shuffledStep_tape (α := α) (β := β) st0 a N b s d ((sd' :: st).map Prod.fst) ss1 ((sd' :: st).flatMap Prod.snd) ds1
      (.running (s :: (sd' :: st).map Prod.fst, ds1) N b) w w.glob hN h1 h2 hx hy rfl
    rw [List.length_cons, batchSum_succ]
    have e' : nextShuffled (tape st0) a (.running (ss1, ((s, d) :: sd' :: st).flatMap Prod.snd) (ss1, ((s, d) :: sd' :: st).flatMap Prod.snd)
      (.running (((s, d) :: sd' :: st).map Prod.fst, ds1) N b), w) = _ := e
    rw [e', ih sd' (fun x hx => hst x (List.mem_cons_of_mem _ hx)) w' hx' hy', hr]
    rfl

/-- A new generator. -/
theorem batchSum_fresh (a : Args) (bs : Nat) (hb : PosInt a.batchSize bs) (hs : SeedOk a.seed) (g : α × β → ℝ) (sd : Nat × List Nat)
    (st : List (Nat × List Nat)) (w : World (tape (sd :: st)) α β) (hlen : w.data.y.length = w.data.x.length)
    (hst : ValidDraws w.data.x.length (min bs w.data.x.length) (sd :: st)) :
    batchSum g st.length (calls (nextShuffled (tape (sd :: st)) a) (st.length + 1) (.fresh, w))
      = lastSum (min bs w.data.x.length) g (sd :: st) (rowsOf w.data) := by
  -- the first call
  obtain ⟨s, d⟩ := sd
  obtain ⟨h1, h2⟩ := hst (s, d) (by simp)
  have first : ∃ w' : World (tape ((s, d) :: st)) α β, nextShuffled (tape ((s, d) :: st)) a (.fresh, w)
        = (.ok ⟨⟨s, s + min bs w.data.x.length⟩, ⟨s, s + min bs w.data.x.length⟩⟩,
          .running (((s, d) :: st).map Prod.fst, st.flatMap Prod.snd) (((s, d) :: st).map Prod.fst, st.flatMap Prod.snd)
            (.running (st.map Prod.fst, ((s, d) :: st).flatMap Prod.snd) w.data.x.length (min bs w.data.x.length)), w')
      ∧ w'.data.x.length = w.data.x.length ∧ w'.data.y.length = w.data.x.length
      ∧ rowsOf w'.data = stepRows (min bs w.data.x.length) (rowsOf w.data) (s, d) := by
    have go : ∀ (z : PyVal) (glob : (tape ((s, d) :: st)).State), SeedOk z →
        ∃ w' : World (tape ((s, d) :: st)) α β,
          shuffledStep (tape ((s, d) :: st)) ⟨a.batchSize, z⟩ (((s, d) :: st).map Prod.fst, ((s, d) :: st).flatMap Prod.snd)
            (((s, d) :: st).map Prod.fst, ((s, d) :: st).flatMap Prod.snd) .fresh { w with glob := glob }
        = (.ok ⟨⟨s, s + min bs w.data.x.length⟩, ⟨s, s + min bs w.data.x.length⟩⟩,
          .running (((s, d) :: st).map Prod.fst, st.flatMap Prod.snd) (((s, d) :: st).map Prod.fst, st.flatMap Prod.snd)
            (.running (st.map Prod.fst, ((s, d) :: st).flatMap Prod.snd) w.data.x.length (min bs w.data.x.length)), w')
      ∧ w'.data.x.length = w.data.x.length ∧ w'.data.y.length = w.data.x.length
      ∧ rowsOf w'.data = stepRows (min bs w.data.x.length) (rowsOf w.data) (s, d) := fun z glob hz =>
      shuffledStep_tape (α := α) (β := β) ((s, d) :: st) ⟨a.batchSize, z⟩ w.data.x.length (min bs w.data.x.length) s d (st.map Prod.fst)
        (((s, d) :: st).map Prod.fst) (st.flatMap Prod.snd) (((s, d) :: st).flatMap Prod.snd) .fresh { w with glob := glob }
        _ (Nat.min_le_right _ _) h1 h2 rfl hlen (nextBatch_valid _ ⟨a.batchSize, z⟩ { w with glob := glob } bs hb hz hlen)
    obtain ⟨bsv, sv⟩ := a
    rcases hs with h | ⟨b, h⟩ | ⟨z, h, h3, h4⟩
    · cases h
      have := chooseSeed_range (tape ((s, d) :: st)) w.glob
      exact go (.int (chooseSeed (tape ((s, d) :: st)) .none w.glob).1) _ (.inr (.inr ⟨_, rfl, by omega, by omega⟩))
    · cases h
      obtain ⟨w', e, h⟩ := go (.bool b) w.glob (.inr (.inl ⟨b, rfl⟩))
      have hn : numpySeedError (.bool b) = none := by cases b <;> rfl
      refine ⟨w', ?_, h⟩
      simp only [nextShuffled, hn]; exact e
    · cases h
      obtain ⟨w', e, h⟩ := go (.int z) w.glob (.inr (.inr ⟨z, rfl, h3, h4⟩))
      refine ⟨w', ?_, h⟩
      simp only [nextShuffled, numpySeedError_int z h3 h4]; exact e
  obtain ⟨w', e, hx', hy', hr⟩ := first
  cases st with
  | nil =>
    simp only [List.length_nil, Nat.zero_add, calls_succ, calls_zero]
    rw [e, batchSum_window g s _ _ _, hr]
    rfl
  | cons sd' st =>
    rw [List.length_cons, batchSum_succ, e,
      batchSum_running _ a g w.data.x.length (min bs w.data.x.length) (Nat.min_le_right _ _) sd' st (fun x hx => hst x (List.mem_cons_of_mem _ hx)) _ _
        w' hx' hy', hr]
    rfl

theorem avgSteps_div : ∀ (M k n : Nat) (F : List (Nat × List Nat) → ℝ) (c : ℝ), avgSteps M k n F / c = avgSteps M k n fun st => F st / c := by
  have h1 : ∀ (k : Nat) (F : List Nat → ℝ) (c : ℝ), avgDraws k F / c = avgDraws k fun d => F d / c := fun k => by
    induction k with
    | zero => intro F c; rfl
    | succ k ih =>
      intro F c
      unfold avgDraws
      simp only [← ih]
      unfold avg
      rw [← sum_div]
      ring
  intro M k n
  induction n with
  | zero => intro F c; rfl
  | succ n ih =>
    intro F c
    unfold avgSteps
    simp only [← ih, ← h1]
    unfold avg
    rw [← sum_div]
    ring

/-- **C107** The mean of any quantity over the rows of batch `n` is, on average over all draws, the mean over the whole dataset in the limit of large `n`. -/
theorem C107_fair_in_the_long_run (a : Args) (bs : Nat) (hb : PosInt a.batchSize bs) (hs : SeedOk a.seed) (data : Data α β)
    (hlen : data.y.length = data.x.length) (hne : data.x ≠ []) (g : α × β → ℝ) :
    let N := data.x.length
    let b := min bs N
    Tendsto (fun n => avgSteps (N - b + 1) (b - 1) (n + 1) fun st =>
        batchSum g n (calls (nextShuffled (tape st) a) (n + 1) (.fresh, ⟨data, (tape st).seeded 0⟩)) / b)
      atTop (𝓝 (((data.x.zip data.y).map g).sum / N)) := by
  intro N b
  have hN : 1 ≤ N := List.length_pos_iff.2 hne
  have hb1 : 1 ≤ b := by have := hb.1; omega
  have hb' : (0 : ℝ) < b := by exact_mod_cast hb1
  have hl : (rowsOf data).length = N := by simp [hlen, N]
  have h := (lastSum_tendsto g N b hb1 (Nat.min_le_right _ _) (rowsOf data) hl).div_const (b : ℝ)
  rw [mul_div_cancel_left₀ _ hb'.ne'] at h
  refine h.congr fun n => ?_
  rw [avgSteps_div]
  refine avgSteps_congr _ _ _ fun st hst hv => ?_
  cases st with
  | nil => simp at hst
  | cons sd st =>
    simp only [List.length_cons, Nat.add_right_cancel_iff] at hst
    subst hst
    rw [batchSum_fresh a bs hb hs g sd st ⟨data, _⟩ hlen hv]

/-- **C107** The first batch is not fair: it has the weights of C106. -/
theorem C107_first_batch (a : Args) (bs : Nat) (hb : PosInt a.batchSize bs) (hs : SeedOk a.seed) (data : Data α β)
    (hlen : data.y.length = data.x.length) (hne : data.x ≠ []) (g : α × β → ℝ) :
    let N := data.x.length
    let b := min bs N
    (avgSteps (N - b + 1) (b - 1) 1 fun st =>
        batchSum g 0 (calls (nextShuffled (tape st) a) 1 (.fresh, ⟨data, (tape st).seeded 0⟩)) / b)
      = ∑ i : Fin (data.x.zip data.y).length, weight N b i * g (data.x.zip data.y)[i] := by
  intro N b
  have hN : 1 ≤ N := List.length_pos_iff.2 hne
  have hb1 : 1 ≤ b := by have := hb.1; omega
  have hb' : (0 : ℝ) < b := by exact_mod_cast hb1
  have hl : (rowsOf data).length = N := by simp [hlen, N]
  have h := avg_lastSum g N b hb1 (Nat.min_le_right _ _) 0 (rowsOf data) hl
  have e : (avgSteps (N - b + 1) (b - 1) 1 fun st =>
        batchSum g 0 (calls (nextShuffled (tape st) a) 1 (.fresh, ⟨data, (tape st).seeded 0⟩)) / b)
      = avgSteps (N - b + 1) (b - 1) 1 fun st => lastSum b g st (rowsOf data) / b := by
    refine avgSteps_congr _ _ _ fun st hst hv => ?_
    cases st with
    | nil => simp at hst
    | cons sd st =>
      simp only [List.length_cons, Nat.add_eq_right, List.length_eq_zero_iff] at hst
      subst hst
      rw [← batchSum_fresh a bs hb hs g sd [] ⟨data, _⟩ hlen hv]
      rfl
  rw [e, ← avgSteps_div, h]
  unfold wsum
  rw [sum_range, sum_div]
  refine sum_congr rfl fun i _ => ?_
  rw [List.getElem?_eq_getElem i.2]
  simp only [Function.iterate_zero, id, Option.elim_some, Fin.getElem_fin]
  unfold weight
  field_simp

/-- Three rows in batches of two: the expected share of the first row in batch `n` tends to 1/3. -/
example : Tendsto (fun n => avgSteps 2 1 (n + 1) fun st =>
      batchSum (fun r : Nat × Nat => if r.1 = 10 then 1 else 0) n
        (calls (nextShuffled (tape st) { batchSize := .int 2 }) (n + 1) (.fresh, ⟨⟨[10, 20, 30], [1, 2, 3]⟩, (tape st).seeded 0⟩)) / (2 : Nat))
    atTop (𝓝 (1 / 3)) := by
  have := C107_fair_in_the_long_run { batchSize := .int 2 } 2 ⟨by norm_num, .inl rfl⟩ (.inl rfl) (⟨[10, 20, 30], [1, 2, 3]⟩ : Data Nat Nat) rfl (by simp)
    (fun r => if r.1 = 10 then 1 else 0)
  simpa using this

end PySGMCMC.ShuffledFair
