import Verif.Lemmas.BurnInStats
import Mathlib.Analysis.SpecificLimits.Basic
import Mathlib.Topology.Algebra.Order.Field

/-!
# The running averages as weighted averages
-/

namespace PySGMCMC.BurnInStats
open Filter Topology

/-- `weighted w0 ws xs` is `w0 * 1 + Σ ws_j * xs_j`. -/
noncomputable def weighted (w0 : ℝ) (ws xs : List ℝ) : ℝ := w0 + (List.zipWith (· * ·) ws xs).sum

/-- Weights of `N` values and of the initial value 1. -/
structure Weights (N : Nat) (w0 : ℝ) (ws : List ℝ) : Prop where
  len : ws.length = N
  nonneg0 : 0 ≤ w0
  nonneg : ∀ w ∈ ws, 0 ≤ w
  total : w0 + ws.sum = 1
  bound0 : w0 ≤ 1 / (N + 1)
  bound : ∀ (j : Nat) (w : ℝ), ws[j]? = some w → w ≤ (j + 2) / (2 * (N + 1))

theorem weights_init : Weights 0 1 [] :=
  ⟨rfl, zero_le_one, by simp, by simp, by norm_num, by simp⟩

theorem sum_map_mul (c : ℝ) (l : List ℝ) : (l.map (c * ·)).sum = c * l.sum := by
  induction l with
  | nil => simp
  | cons a l ih => simp only [List.map_cons, List.sum_cons, ih]; ring

theorem weights_step {N : Nat} {w0 : ℝ} {ws : List ℝ} (h : Weights N w0 ws) {r : ℝ} (h1 : 1 / ((N : ℝ) + 2) ≤ r) (h2 : r ≤ 1 / 2) :
    Weights (N + 1) ((1 - r) * w0) (ws.map ((1 - r) * ·) ++ [r]) := by
  have hN : (0 : ℝ) ≤ N := Nat.cast_nonneg N
  have hr0 : 0 < r := lt_of_lt_of_le (by positivity) h1
  have h1r : 0 ≤ 1 - r := by linarith
  have hup : 1 - r ≤ (N + 1) / (N + 2) := by
    have : (1 : ℝ) - 1 / (N + 2) = (N + 1) / (N + 2) := by field_simp; ring
    linarith
  refine ⟨by simp [h.len], mul_nonneg h1r h.nonneg0, ?_, ?_, ?_, ?_⟩
  · intro w hw
    rcases List.mem_append.1 hw with hw | hw
    · obtain ⟨v, hv, rfl⟩ := List.mem_map.1 hw
      exact mul_nonneg h1r (h.nonneg v hv)
    · rw [List.mem_singleton.1 hw]; exact hr0.le
  · rw [List.sum_append, sum_map_mul, List.sum_singleton]
    have := h.total
    linear_combination (1 - r) * this
  · calc (1 - r) * w0 ≤ (N + 1) / (N + 2) * (1 / (N + 1)) :=
        mul_le_mul hup h.bound0 h.nonneg0 (by positivity)
      _ = 1 / (((N + 1 : ℕ) : ℝ) + 1) := by push_cast; field_simp; ring
  · intro j w hw
    push_cast
    by_cases hj : j < N
    · rw [List.getElem?_append_left (by simpa [h.len] using hj), List.getElem?_map] at hw
      obtain ⟨v, hv, rfl⟩ := Option.map_eq_some_iff.1 hw
      have hv0 := h.nonneg v (List.mem_of_getElem? hv)
      calc (1 - r) * v ≤ (N + 1) / (N + 2) * ((j + 2) / (2 * (N + 1))) := mul_le_mul hup (h.bound j v hv) hv0 (by positivity)
        _ = (j + 2) / (2 * (N + 1 + 1)) := by field_simp; ring
    · rw [List.getElem?_append_right (by simpa [h.len] using hj)] at hw
      have hj' : j - (ws.map ((1 - r) * ·)).length = 0 := by
        have := (List.getElem?_eq_some_iff.1 hw).1
        simpa using this
      have hjN : j = N := by
        have : (ws.map ((1 - r) * ·)).length = N := by simp [h.len]
        omega
      rw [hj'] at hw
      obtain rfl : r = w := by simpa using hw
      subst hjN
      have : ((j : ℝ) + 2) / (2 * (j + 1 + 1)) = 1 / 2 := by field_simp; ring
      linarith

theorem weighted_step (w0 r x : ℝ) (ws xs : List ℝ) (hl : ws.length = xs.length) :
    weighted ((1 - r) * w0) (ws.map ((1 - r) * ·) ++ [r]) (xs ++ [x]) = (1 - r) * weighted w0 ws xs + r * x := by
  unfold weighted
  rw [List.zipWith_append (by simpa using hl), List.sum_append]
  have : List.zipWith (· * ·) (ws.map ((1 - r) * ·)) xs = (List.zipWith (· * ·) ws xs).map ((1 - r) * ·) := by
    rw [List.zipWith_map_left, List.map_zipWith]
    congr 1
    funext a b
    ring
  rw [this, sum_map_mul]
  simp
  ring

/-- The statistics after real gradients `xs`: both averages use the same weights. -/
theorem stats_weights (xs : List ℝ) :
    ∃ (τ ρ w0 : ℝ) (ws : List ℝ) (μ : Fl), (xs.map Fl.fin).foldl Stats.next Stats.init
        = ⟨.fin τ, .fin ρ, .fin (weighted w0 ws xs), .fin (weighted w0 ws (xs.map (· ^ 2))), μ⟩
      ∧ Ok τ (weighted w0 ws xs) (weighted w0 ws (xs.map (· ^ 2))) ∧ τ ≤ xs.length + 1 ∧ Weights xs.length w0 ws := by
  induction xs using List.reverseRecOn with
  | nil =>
    refine ⟨1, 1 / 2, 1, [], .fin 1, ?_, ?_, by simp, weights_init⟩
    · simpa [weighted] using Stats.init_eq
    · simpa [weighted] using ok_init
  | append_singleton xs x ih =>
    obtain ⟨τ, ρ, w0, ws, μ, he, hok, hτ, hw⟩ := ih
    have hr := rate_bounds hok.tau
    have hτ1 : 0 < τ + 1 := by have := hok.tau; linarith
    have hw' := weights_step hw (r := 1 / (τ + 1)) (one_div_le_one_div_of_le hτ1 (by linarith)) hr.2
    have hg := weighted_step w0 (1 / (τ + 1)) x ws xs hw.len
    have hv := weighted_step w0 (1 / (τ + 1)) (x ^ 2) ws (xs.map (· ^ 2)) (by simpa using hw.len)
    have hok' := ok_step hok x
    rw [show weighted w0 ws xs + (-(1 / (τ + 1)) * weighted w0 ws xs + 1 / (τ + 1) * x)
        = (1 - 1 / (τ + 1)) * weighted w0 ws xs + 1 / (τ + 1) * x by ring, ← hg,
      show weighted w0 ws (xs.map (· ^ 2)) + (-(1 / (τ + 1)) * weighted w0 ws (xs.map (· ^ 2)) + 1 / (τ + 1) * x ^ 2)
        = (1 - 1 / (τ + 1)) * weighted w0 ws (xs.map (· ^ 2)) + 1 / (τ + 1) * x ^ 2 by ring, ← hv] at hok'
    refine ⟨τ + (-(weighted w0 ws xs * weighted w0 ws xs * τ) / (weighted w0 ws (xs.map (· ^ 2)) + 3 * c16) + 1), 1 / (τ + 1),
      (1 - 1 / (τ + 1)) * w0, ws.map ((1 - 1 / (τ + 1)) * ·) ++ [1 / (τ + 1)],
      .fin (1 / (Real.sqrt (weighted w0 ws (xs.map (· ^ 2))) + 3 * c16)), ?_, ?_, ?_, by rw [List.length_append]; exact hw'⟩
    · rw [List.map_append, List.foldl_append, List.map_singleton, List.foldl_cons, List.foldl_nil, he, Stats.next_fin hok]
      rw [List.map_append, List.map_singleton, hg, hv]
      congr 2 <;> ring
    · rw [List.map_append, List.map_singleton]
      exact hok'
    · have := tau_step_le hok
      simp only [List.length_append, List.length_cons, List.length_nil, Nat.cast_add, Nat.cast_one, zero_add]
      linarith

/-- Averages with rates of at least `1 / (N + 2)` follow the averaged values. -/
theorem tendsto_avg {v y r : Nat → ℝ} {L : ℝ} (hr1 : ∀ N : Nat, 1 / ((N : ℝ) + 2) ≤ r N) (hr2 : ∀ N, r N ≤ 1)
    (hv : ∀ N, v (N + 1) = (1 - r N) * v N + r N * y N) (hy : Tendsto y atTop (𝓝 L)) : Tendsto v atTop (𝓝 L) := by
  rw [Metric.tendsto_atTop] at hy ⊢
  intro ε hε
  obtain ⟨J, hJ⟩ := hy (ε / 2) (half_pos hε)
  -- the part of the deviation above ε/2
  set f : Nat → ℝ := fun N => max (|v N - L| - ε / 2) 0 with hf
  have hf0 : ∀ N, 0 ≤ f N := fun N => le_max_right _ _
  have hstep : ∀ N, J ≤ N → f (N + 1) ≤ (N + 1) / (N + 2) * f N := by
    intro N hN
    have hd := hJ N hN
    rw [Real.dist_eq] at hd
    have hN0 : (0 : ℝ) ≤ N := Nat.cast_nonneg N
    have hr0 : 0 < r N := lt_of_lt_of_le (by positivity) (hr1 N)
    have h1r : 0 ≤ 1 - r N := by linarith [hr2 N]
    have hup : 1 - r N ≤ (N + 1) / (N + 2) := by
      have : (1 : ℝ) - 1 / (N + 2) = (N + 1) / (N + 2) := by field_simp; ring
      linarith [hr1 N]
    have habs : |v (N + 1) - L| ≤ (1 - r N) * |v N - L| + r N * |y N - L| := by
      rw [hv N, show (1 - r N) * v N + r N * y N - L = (1 - r N) * (v N - L) + r N * (y N - L) by ring]
      refine (abs_add_le _ _).trans ?_
      rw [abs_mul, abs_mul, abs_of_nonneg h1r, abs_of_pos hr0]
    have h1 : f (N + 1) ≤ (1 - r N) * f N := by
      refine max_le ?_ (mul_nonneg h1r (hf0 N))
      have : (1 - r N) * (|v N - L| - ε / 2) ≤ (1 - r N) * f N := mul_le_mul_of_nonneg_left (le_max_left _ _) h1r
      nlinarith
    exact h1.trans (mul_le_mul_of_nonneg_right hup (hf0 N))
  have hdec : ∀ m, (((J + m : ℕ) : ℝ) + 1) * f (J + m) ≤ (J + 1) * f J := by
    intro m
    induction m with
    | zero => simp
    | succ m ih =>
      have h := hstep (J + m) (by omega)
      refine le_trans ?_ ih
      have hpos : (0 : ℝ) < ((J + m : ℕ) : ℝ) + 2 := by positivity
      calc (((J + (m + 1) : ℕ) : ℝ) + 1) * f (J + (m + 1)) = (((J + m : ℕ) : ℝ) + 2) * f (J + m + 1) := by
            push_cast; rw [← add_assoc J m 1]; ring
        _ ≤ (((J + m : ℕ) : ℝ) + 2) * ((((J + m : ℕ) : ℝ) + 1) / (((J + m : ℕ) : ℝ) + 2) * f (J + m)) :=
            mul_le_mul_of_nonneg_left h hpos.le
        _ = _ := by field_simp
  obtain ⟨K, hK⟩ := exists_nat_gt ((J + 1) * f J / (ε / 2))
  refine ⟨max J K, fun N hN => ?_⟩
  obtain ⟨m, rfl⟩ := Nat.exists_eq_add_of_le (le_trans (le_max_left J K) hN)
  have hKm : (K : ℝ) ≤ ((J + m : ℕ) : ℝ) := by exact_mod_cast le_trans (le_max_right J K) hN
  rw [Real.dist_eq]
  have h1 := hdec m
  have h2 : (J + 1) * f J < (ε / 2) * (((J + m : ℕ) : ℝ) + 1) := by
    rw [div_lt_iff₀ (half_pos hε)] at hK
    nlinarith
  have h3 : f (J + m) < ε / 2 := by
    by_contra hc
    rw [not_lt] at hc
    have hp : (0 : ℝ) ≤ ((J + m : ℕ) : ℝ) + 1 := by positivity
    have := mul_le_mul_of_nonneg_left hc hp
    linarith
  have h4 : |v (J + m) - L| - ε / 2 ≤ f (J + m) := le_max_left _ _
  linarith

/-- If the gradients converge, so do the averages and the inverse mass. -/
theorem stats_tendsto (x : Nat → ℝ) (γ : ℝ) (hx : Tendsto x atTop (𝓝 γ)) :
    ∃ g v m : Nat → ℝ, (∀ N, ∃ τ r, (((List.range N).map x).map Fl.fin).foldl Stats.next Stats.init = ⟨τ, r, .fin (g N), .fin (v N), .fin (m N)⟩)
      ∧ Tendsto g atTop (𝓝 γ) ∧ Tendsto v atTop (𝓝 (γ ^ 2)) ∧ Tendsto m atTop (𝓝 (1 / (|γ| + 3 * c16))) := by
  have H := fun N => stats_weights ((List.range N).map x)
  choose τ ρ w0 ws μ he hok hτ hw using H
  set g : Nat → ℝ := fun N => weighted (w0 N) (ws N) ((List.range N).map x) with hg
  set v : Nat → ℝ := fun N => weighted (w0 N) (ws N) (((List.range N).map x).map (· ^ 2)) with hv
  have hnext : ∀ N, (⟨.fin (τ (N + 1)), .fin (ρ (N + 1)), .fin (g (N + 1)), .fin (v (N + 1)), μ (N + 1)⟩ : Stats)
      = ⟨.fin (τ N + (-(g N * g N * τ N) / (v N + 3 * c16) + 1)), .fin (1 / (τ N + 1)),
        .fin (g N + (-(1 / (τ N + 1)) * g N + 1 / (τ N + 1) * x N)),
        .fin (v N + (-(1 / (τ N + 1)) * v N + 1 / (τ N + 1) * x N ^ 2)), .fin (1 / (Real.sqrt (v N) + 3 * c16))⟩ := by
    intro N
    rw [← he (N + 1), List.range_succ, List.map_append, List.map_append, List.foldl_append, he N]
    exact Stats.next_fin (hok N) _ _ _
  have hstep := fun N => Stats.mk.inj (hnext N)
  have hr1 : ∀ N : Nat, 1 / ((N : ℝ) + 2) ≤ 1 / (τ N + 1) := by
    intro N
    have h1 := (hok N).tau
    have h2 := hτ N
    rw [List.length_map, List.length_range] at h2
    exact one_div_le_one_div_of_le (by linarith) (by linarith)
  have hr2 : ∀ N, 1 / (τ N + 1) ≤ 1 := fun N => (rate_bounds (hok N).tau).2.trans (by norm_num)
  have tg : Tendsto g atTop (𝓝 γ) := by
    refine tendsto_avg hr1 hr2 (fun N => ?_) hx
    have := Fl.fin_inj.1 (hstep N).2.2.1
    rw [this]; ring
  have tv : Tendsto v atTop (𝓝 (γ ^ 2)) := by
    refine tendsto_avg hr1 hr2 (fun N => ?_) (hx.pow 2)
    have := Fl.fin_inj.1 (hstep N).2.2.2.1
    rw [this]; ring
  set m : Nat → ℝ := fun N => match N with
    | 0 => 1
    | N + 1 => 1 / (Real.sqrt (v N) + 3 * c16) with hm
  refine ⟨g, v, m, ?_, tg, tv, ?_⟩
  · intro N
    cases N with
    | zero =>
      refine ⟨.fin 1, .fin (1 / 2), ?_⟩
      have h0 := he 0
      simp only [List.range_zero, List.map_nil, List.foldl_nil] at h0 ⊢
      have h1 := h0
      rw [Stats.init_eq] at h1
      have h2 := Stats.mk.inj h1
      rw [Stats.init_eq]
      exact Stats.mk.injEq .. ▸ ⟨rfl, rfl, h2.2.2.1, h2.2.2.2.1, rfl⟩
    | succ N => exact ⟨.fin (τ (N + 1)), .fin (ρ (N + 1)), by rw [he (N + 1), (hstep N).2.2.2.2]⟩
  · rw [← tendsto_add_atTop_iff_nat 1]
    show Tendsto (fun N => 1 / (Real.sqrt (v N) + 3 * c16)) atTop _
    have hs := (Real.continuous_sqrt.tendsto (γ ^ 2)).comp tv
    rw [Real.sqrt_sq_eq_abs] at hs
    have hc := c16_pos
    exact tendsto_const_nhds.div (hs.add_const _) (by positivity)

end PySGMCMC.BurnInStats
