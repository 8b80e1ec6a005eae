import Verif.Lemmas.Shuffle
import Mathlib.Algebra.BigOperators.Group.Finset.Basic
import Mathlib.Algebra.Order.Chebyshev
import Mathlib.Analysis.SpecificLimits.Basic
import Mathlib.Algebra.BigOperators.Field
import Mathlib.Analysis.Real.Sqrt
import Mathlib.Tactic.Ring
import Mathlib.Tactic.Linarith
import Mathlib.Tactic.FieldSimp
import Mathlib.Tactic.Positivity

/-!
# Averaging over windows mixes

`windowMean N b s h` replaces the values of `h` on the window `s, …, s + b - 1` by their mean.  The average `mix` of these operations over all
windows, applied again and again, makes every function constant if the windows have at least two elements.
-/

namespace PySGMCMC.Mixing
open Finset Filter Topology

/-- Average of `F 0, …, F (n - 1)`. -/
noncomputable def avg (n : Nat) (F : Nat → ℝ) : ℝ := (∑ j ∈ range n, F j) / n

theorem avg_const {n : Nat} (hn : 0 < n) (c : ℝ) : avg n (fun _ => c) = c := by
  have : (0 : ℝ) < n := by exact_mod_cast hn
  unfold avg
  rw [sum_const, card_range, nsmul_eq_mul]
  field_simp

theorem avg_congr {n : Nat} {F G : Nat → ℝ} (h : ∀ j < n, F j = G j) : avg n F = avg n G := by
  unfold avg; rw [sum_congr rfl fun j hj => h j (mem_range.1 hj)]

theorem avg_sum {κ : Type} (t : Finset κ) (n : Nat) (F : Nat → κ → ℝ) : avg n (fun j => ∑ q ∈ t, F j q) = ∑ q ∈ t, avg n fun j => F j q := by
  unfold avg; rw [sum_comm, sum_div]

theorem avg_mul_right (n : Nat) (F : Nat → ℝ) (c : ℝ) : avg n (fun j => F j * c) = avg n F * c := by
  unfold avg; rw [← sum_mul, div_mul_eq_mul_div]

theorem avg_le {n : Nat} {F G : Nat → ℝ} (h : ∀ j < n, F j ≤ G j) : avg n F ≤ avg n G := by
  unfold avg
  exact div_le_div_of_nonneg_right (sum_le_sum fun j hj => h j (mem_range.1 hj)) (Nat.cast_nonneg n)

theorem avg_sub (n : Nat) (F G : Nat → ℝ) : avg n (fun j => F j - G j) = avg n F - avg n G := by
  unfold avg; rw [sum_sub_distrib, sub_div]

theorem avg_sq_le (n : Nat) (F : Nat → ℝ) : avg n F ^ 2 ≤ avg n fun j => F j ^ 2 := by
  unfold avg
  rcases Nat.eq_zero_or_pos n with rfl | hn
  · simp
  have : (0 : ℝ) < n := by exact_mod_cast hn
  have h := sq_sum_le_card_mul_sum_sq (s := range n) (f := F)
  rw [card_range] at h
  rw [div_pow, div_le_div_iff₀ (by positivity) this]
  nlinarith

/-- The mean over a window, on the window. -/
noncomputable def windowMean (b s : Nat) (h : Nat → ℝ) (q : Nat) : ℝ := if s ≤ q ∧ q < s + b then avg b (fun i => h (s + i)) else h q

/-- Average over all windows. -/
noncomputable def mix (N b : Nat) (h : Nat → ℝ) (q : Nat) : ℝ := avg (N - b + 1) fun s => windowMean b s h q

theorem range_split (N b s : Nat) (hs : s + b ≤ N) (F : Nat → ℝ) :
    ∑ q ∈ range N, F q = ∑ q ∈ range N, (if s ≤ q ∧ q < s + b then 0 else F q) + ∑ i ∈ range b, F (s + i) := by
  have h1 : ∑ i ∈ range b, F (s + i) = ∑ q ∈ range N, if s ≤ q ∧ q < s + b then F q else 0 := by
    rw [← sum_filter]
    have : (range N).filter (fun i => s ≤ i ∧ i < s + b) = Ico s (s + b) := by
      ext i; simp only [mem_filter, mem_range, mem_Ico]; omega
    rw [this, sum_Ico_eq_sum_range, Nat.add_sub_cancel_left]
  rw [h1, ← sum_add_distrib]
  refine sum_congr rfl fun q _ => ?_
  split <;> simp

theorem windowMean_in (b s : Nat) (h : Nat → ℝ) (i : Nat) (hi : i < b) : windowMean b s h (s + i) = avg b fun i => h (s + i) := by
  unfold windowMean; rw [if_pos (by omega)]

theorem windowMean_out (b s : Nat) (h : Nat → ℝ) (q : Nat) (hq : ¬ (s ≤ q ∧ q < s + b)) : windowMean b s h q = h q := by
  unfold windowMean; rw [if_neg hq]

theorem avg_mul_card {b : Nat} (hb : 1 ≤ b) (F : Nat → ℝ) : (b : ℝ) * avg b F = ∑ i ∈ range b, F i := by
  have : (0 : ℝ) < b := by exact_mod_cast hb
  unfold avg; field_simp

/-- Sums are kept. -/
theorem windowMean_sum (N b s : Nat) (hb : 1 ≤ b) (hs : s + b ≤ N) (h : Nat → ℝ) : ∑ q ∈ range N, windowMean b s h q = ∑ q ∈ range N, h q := by
  rw [range_split N b s hs (windowMean b s h), range_split N b s hs h]
  congr 1
  · refine sum_congr rfl fun q _ => ?_
    split
    · rfl
    · rename_i hq; exact windowMean_out _ _ _ _ hq
  · rw [sum_congr rfl fun i hi => windowMean_in b s h i (mem_range.1 hi), sum_const, card_range, nsmul_eq_mul, avg_mul_card hb]

/-- Squares decrease by the squared deviations in the window. -/
theorem windowMean_sq (N b s : Nat) (hb : 1 ≤ b) (hs : s + b ≤ N) (h : Nat → ℝ) :
    ∑ q ∈ range N, windowMean b s h q ^ 2 = ∑ q ∈ range N, h q ^ 2 - ∑ i ∈ range b, (h (s + i) - avg b fun i => h (s + i)) ^ 2 := by
  rw [range_split N b s hs fun q => windowMean b s h q ^ 2, range_split N b s hs fun q => h q ^ 2, add_sub_assoc]
  congr 1
  · refine sum_congr rfl fun q _ => ?_
    split
    · rfl
    · rename_i hq; rw [windowMean_out _ _ _ _ hq]
  · rw [sum_congr rfl fun i hi => by rw [windowMean_in b s h i (mem_range.1 hi)], sum_const, card_range, nsmul_eq_mul, ← sum_sub_distrib]
    have e := avg_mul_card hb fun i => h (s + i)
    set μ := avg b fun i => h (s + i)
    have : ∀ i, h (s + i) ^ 2 - (h (s + i) - μ) ^ 2 = 2 * μ * h (s + i) - μ ^ 2 := fun i => by ring
    rw [sum_congr rfl fun i _ => this i, sum_sub_distrib, ← mul_sum, ← e, sum_const, card_range, nsmul_eq_mul]
    ring

theorem windowMean_const (b s : Nat) (hb : 1 ≤ b) (c : ℝ) : windowMean b s (fun _ => c) = fun _ => c := by
  funext q
  unfold windowMean
  rw [avg_const hb]; split <;> rfl

theorem mix_const (N b : Nat) (hb : 1 ≤ b) (c : ℝ) : mix N b (fun _ => c) = fun _ => c := by
  funext q
  unfold mix
  simp only [windowMean_const b _ hb]
  exact avg_const (Nat.succ_pos _) c

theorem mix_sum (N b : Nat) (hb : 1 ≤ b) (hN : b ≤ N) (h : Nat → ℝ) : ∑ q ∈ range N, mix N b h q = ∑ q ∈ range N, h q := by
  unfold mix
  rw [← avg_sum, avg_congr (G := fun _ => ∑ q ∈ range N, h q) fun s hs => windowMean_sum N b s hb (by omega) h]
  exact avg_const (Nat.succ_pos _) _

/-- Sum of squares. -/
noncomputable def energy (N : Nat) (h : Nat → ℝ) : ℝ := ∑ q ∈ range N, h q ^ 2

/-- The loss of energy bounds the difference of neighbours. -/
theorem mix_energy (N b : Nat) (hb : 2 ≤ b) (hN : b ≤ N) (h : Nat → ℝ) (q : Nat) (hq : q + 1 < N) :
    (h (q + 1) - h q) ^ 2 ≤ 2 * (N - b + 1 : Nat) * (energy N h - energy N (mix N b h)) := by
  have hM : (0 : ℝ) < (N - b + 1 : Nat) := by positivity
  -- energy of the average
  have h1 : energy N (mix N b h) ≤ avg (N - b + 1) fun s => energy N h - ∑ i ∈ range b, (h (s + i) - avg b fun i => h (s + i)) ^ 2 := by
    calc energy N (mix N b h) ≤ ∑ q ∈ range N, avg (N - b + 1) fun s => windowMean b s h q ^ 2 := sum_le_sum fun q _ => avg_sq_le _ _
      _ = avg (N - b + 1) fun s => ∑ q ∈ range N, windowMean b s h q ^ 2 := (avg_sum _ _ _).symm
      _ = _ := avg_congr fun s hs => windowMean_sq N b s (by omega) (by omega) h
  rw [avg_sub, avg_const (Nat.succ_pos _)] at h1
  -- one window that contains `q` and `q + 1`
  set D : Nat → ℝ := fun s => ∑ i ∈ range b, (h (s + i) - avg b fun i => h (s + i)) ^ 2 with hD
  have hD0 : ∀ s, 0 ≤ D s := fun s => sum_nonneg fun i _ => sq_nonneg _
  obtain ⟨s, hs, i, hi, rfl⟩ : ∃ s, s < N - b + 1 ∧ ∃ i, i + 1 < b ∧ q = s + i := by
    by_cases hqb : q ≤ N - b
    · exact ⟨q, by omega, 0, by omega, by omega⟩
    · exact ⟨N - b, by omega, q - (N - b), by omega, by omega⟩
  have h2 : D s / (N - b + 1 : Nat) ≤ avg (N - b + 1) D := by
    unfold avg
    exact div_le_div_of_nonneg_right (single_le_sum (fun s _ => hD0 s) (mem_range.2 hs)) hM.le
  have h3 : (h (s + i + 1) - h (s + i)) ^ 2 ≤ 2 * D s := by
    have hsub : ({i, i + 1} : Finset Nat) ⊆ range b := by
      intro k hk
      simp only [mem_insert, mem_singleton] at hk
      rw [mem_range]; omega
    have h4 := sum_le_sum_of_subset_of_nonneg (f := fun i => (h (s + i) - avg b fun i => h (s + i)) ^ 2) hsub fun k _ _ => sq_nonneg _
    rw [sum_pair (by omega)] at h4
    set μ := avg b fun i => h (s + i)
    have : h (s + i + 1) = h (s + (i + 1)) := rfl
    rw [this]
    nlinarith [sq_nonneg ((h (s + i) - μ) + (h (s + (i + 1)) - μ))]
  have h5 : D s ≤ (N - b + 1 : Nat) * (energy N h - energy N (mix N b h)) := by
    rw [div_le_iff₀ hM] at h2
    nlinarith
  linarith

/-- Mixing again and again makes every function constant. -/
theorem mix_tendsto (N b : Nat) (hb : 2 ≤ b) (hN : b ≤ N) (h : Nat → ℝ) (q : Nat) (hq : q < N) :
    Tendsto (fun k => (mix N b)^[k] h q) atTop (𝓝 ((∑ q ∈ range N, h q) / N)) := by
  have hNpos : (0 : ℝ) < N := by exact_mod_cast (by omega : 0 < N)
  set H : Nat → Nat → ℝ := fun k => (mix N b)^[k] h with hH
  have hstep : ∀ k, H (k + 1) = mix N b (H k) := fun k => Function.iterate_succ_apply' _ _ _
  have hsum : ∀ k, ∑ q ∈ range N, H k q = ∑ q ∈ range N, h q := fun k => by
    induction k with
    | zero => rfl
    | succ k ih => rw [hstep, mix_sum N b (by omega) hN, ih]
  -- energies converge
  have hle : ∀ k, energy N (H (k + 1)) ≤ energy N (H k) := fun k => by
    have h1 := mix_energy N b hb hN (H k) 0 (by omega)
    rw [← hstep] at h1
    have hM : (0 : ℝ) < 2 * (N - b + 1 : Nat) := by positivity
    nlinarith [sq_nonneg (H k (0 + 1) - H k 0), (mul_nonneg_iff_of_pos_left hM).1 ((sq_nonneg _).trans h1)]
  have hanti : Antitone fun k => energy N (H k) := antitone_nat_of_succ_le hle
  have hbdd : BddBelow (Set.range fun k => energy N (H k)) := ⟨0, by
    rintro _ ⟨k, rfl⟩
    exact sum_nonneg fun q _ => sq_nonneg _⟩
  have hlim := tendsto_atTop_ciInf hanti hbdd
  have hdiff : Tendsto (fun k => energy N (H k) - energy N (H (k + 1))) atTop (𝓝 0) := by
    simpa using hlim.sub ((tendsto_add_atTop_iff_nat 1).2 hlim)
  -- neighbours come together
  have hnb : ∀ q, q + 1 < N → Tendsto (fun k => H k (q + 1) - H k q) atTop (𝓝 0) := fun q hq => by
    have h1 : Tendsto (fun k => (H k (q + 1) - H k q) ^ 2) atTop (𝓝 0) := by
      refine squeeze_zero (fun k => sq_nonneg _) (fun k => ?_)
        (by simpa using hdiff.const_mul (2 * (N - b + 1 : Nat) : ℝ))
      have := mix_energy N b hb hN (H k) q hq
      rw [← hstep] at this
      push_cast at this
      exact this
    have h2 := h1.sqrt
    simp only [Real.sqrt_sq_eq_abs, Real.sqrt_zero] at h2
    exact (tendsto_zero_iff_abs_tendsto_zero _).2 h2
  have h0 : ∀ q, q < N → Tendsto (fun k => H k q - H k 0) atTop (𝓝 0) := fun q => by
    induction q with
    | zero => intro _; simp
    | succ q ih =>
      intro hq
      have := (hnb q hq).add (ih (by omega))
      simp only [add_zero] at this
      exact this.congr fun k => by ring
  have hall : ∀ p, p < N → Tendsto (fun k => H k q - H k p) atTop (𝓝 0) := fun p hp => by
    have := (h0 q hq).sub (h0 p hp)
    simp only [sub_zero] at this
    exact this.congr fun k => by ring
  have htot : Tendsto (fun k => ∑ p ∈ range N, (H k q - H k p)) atTop (𝓝 0) := by
    have := tendsto_finsetSum (range N) fun p hp => hall p (mem_range.1 hp)
    simpa using this
  have heq : ∀ k, H k q = (∑ q ∈ range N, h q) / N + (∑ p ∈ range N, (H k q - H k p)) / N := fun k => by
    rw [sum_sub_distrib, hsum, sum_const, card_range, nsmul_eq_mul]
    field_simp
    ring
  have := (htot.div_const (N : ℝ)).const_add ((∑ q ∈ range N, h q) / N)
  rw [zero_div, add_zero] at this
  exact this.congr fun k => (heq k).symm

end PySGMCMC.Mixing
