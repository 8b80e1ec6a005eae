import Verif.Lemmas.BurnInWeights
import Verif.Props.SGHMC
import Verif.Props.SGLD
import Verif.Props.FullChain

/-!
# C96: the mass matrix is learnt from the gradients of burn-in
-/

namespace PySGMCMC.BurnInAverage
open BurnInStats Filter Topology

variable {P : Type} [DecidableEq P] {ι : P → Type}

theorem c16_eq : (3 * c16 : ℝ) = 3e-16 := by unfold c16; norm_num

/-! ## The sampler's variables -/

/-- **C96** for SGHMC: after any steps with real gradients `xs`, the gradient average and the squared-gradient average are weighted
averages, with the same weights, of the initial value 1 and the gradients resp. squared gradients; the initial value has weight at
most `1 / (N + 1)`; the next step's inverse mass is the inverse of the root of the squared-gradient average (plus 3e-16). -/
theorem C96_sghmc_average (θ : ∀ i, ι i → Fl) (hist : List (SGHMC.Inputs ι × SGHMC.Schedule P)) (i : P) (k : ι i) (xs : List ℝ)
    (hx : SGHMC.gradients i k hist (SGHMC.State.init θ) = xs.map .fin) :
    ∃ (w0 : ℝ) (ws : List ℝ), Weights hist.length w0 ws
      ∧ ((SGHMC.runs hist (SGHMC.State.init θ)).par i).g k = .fin (weighted w0 ws xs)
      ∧ ((SGHMC.runs hist (SGHMC.State.init θ)).par i).vhat k = .fin (weighted w0 ws (xs.map (· ^ 2)))
      ∧ ∀ inp σ, ((SGHMC.runs (hist ++ [(inp, σ)]) (SGHMC.State.init θ)).par i).minv k
          = .fin (1 / (√(weighted w0 ws (xs.map (· ^ 2))) + 3e-16)) := by
  obtain ⟨τ, ρ, w0, ws, μ, he, hok, hτ, hw⟩ := stats_weights xs
  have hlen : xs.length = hist.length := by
    have := congrArg List.length hx
    rw [SGHMC.gradients_length, List.length_map] at this
    exact this.symm
  rw [hlen] at hw
  have hs := SGHMC.stats_runs hist (SGHMC.State.init θ) i k
  rw [show SGHMC.stats (SGHMC.State.init θ) i k = Stats.init from rfl, hx, he] at hs
  have hs' := Stats.mk.inj hs
  refine ⟨w0, ws, hw, hs'.2.2.1, hs'.2.2.2.1, fun inp σ => ?_⟩
  have h1 := SGHMC.stats_run inp σ (SGHMC.runs hist (SGHMC.State.init θ)) i k
  have h2 : SGHMC.runs (hist ++ [(inp, σ)]) (SGHMC.State.init θ) = SGHMC.run inp σ (SGHMC.runs hist (SGHMC.State.init θ)) := by
    simp [SGHMC.runs]
  rw [h2]
  have h3 := congrArg Stats.minv h1
  rw [hs] at h3
  refine h3.trans ?_
  rw [← c16_eq]
  exact rhsMinv_fin hok.pos

/-- **C96** for SGLD. -/
theorem C96_sgld_average (θ : ∀ i, ι i → Fl) (hist : List (SGLD.Inputs ι × SGLD.Schedule P)) (i : P) (k : ι i) (xs : List ℝ)
    (hx : SGLD.gradients i k hist (SGLD.State.init θ) = xs.map .fin) :
    ∃ (w0 : ℝ) (ws : List ℝ), Weights hist.length w0 ws
      ∧ ((SGLD.runs hist (SGLD.State.init θ)).par i).g k = .fin (weighted w0 ws xs)
      ∧ ((SGLD.runs hist (SGLD.State.init θ)).par i).vhat k = .fin (weighted w0 ws (xs.map (· ^ 2)))
      ∧ ∀ inp σ, ((SGLD.runs (hist ++ [(inp, σ)]) (SGLD.State.init θ)).par i).minv k
          = .fin (1 / (√(weighted w0 ws (xs.map (· ^ 2))) + 3e-16)) := by
  obtain ⟨τ, ρ, w0, ws, μ, he, hok, hτ, hw⟩ := stats_weights xs
  have hlen : xs.length = hist.length := by
    have := congrArg List.length hx
    rw [SGLD.gradients_length, List.length_map] at this
    exact this.symm
  rw [hlen] at hw
  have hs := SGLD.stats_runs hist (SGLD.State.init θ) i k
  rw [show SGLD.stats (SGLD.State.init θ) i k = Stats.init from rfl, hx, he] at hs
  have hs' := Stats.mk.inj hs
  refine ⟨w0, ws, hw, hs'.2.2.1, hs'.2.2.2.1, fun inp σ => ?_⟩
  have h1 := SGLD.stats_run inp σ (SGLD.runs hist (SGLD.State.init θ)) i k
  have h2 : SGLD.runs (hist ++ [(inp, σ)]) (SGLD.State.init θ) = SGLD.run inp σ (SGLD.runs hist (SGLD.State.init θ)) := by
    simp [SGLD.runs]
  rw [h2]
  have h3 := congrArg Stats.minv h1
  rw [hs] at h3
  refine h3.trans ?_
  rw [← c16_eq]
  exact rhsMinv_fin hok.pos

/-- **C96** for SGHMC: if the gradients of an element converge to `γ` during (an arbitrarily long) burn-in, its inverse mass converges
to `1 / (|γ| + 3e-16)`. -/
theorem C96_sghmc_limit (θ : ∀ i, ι i → Fl) (hist : Nat → SGHMC.Inputs ι × SGHMC.Schedule P) (i : P) (k : ι i) (x : Nat → ℝ) (γ : ℝ)
    (hx : ∀ N, SGHMC.gradients i k ((List.range N).map hist) (SGHMC.State.init θ) = ((List.range N).map x).map .fin)
    (hγ : Tendsto x atTop (𝓝 γ)) :
    ∃ m : Nat → ℝ, (∀ N, ((SGHMC.runs ((List.range N).map hist) (SGHMC.State.init θ)).par i).minv k = .fin (m N))
      ∧ Tendsto m atTop (𝓝 (1 / (|γ| + 3e-16))) := by
  obtain ⟨g, v, m, h1, -, -, h2⟩ := stats_tendsto x γ hγ
  rw [c16_eq] at h2
  refine ⟨m, fun N => ?_, h2⟩
  obtain ⟨τ, r, he⟩ := h1 N
  have hs := SGHMC.stats_runs ((List.range N).map hist) (SGHMC.State.init θ) i k
  rw [show SGHMC.stats (SGHMC.State.init θ) i k = Stats.init from rfl, hx N, he] at hs
  exact (Stats.mk.inj hs).2.2.2.2

/-- **C96** for SGLD. -/
theorem C96_sgld_limit (θ : ∀ i, ι i → Fl) (hist : Nat → SGLD.Inputs ι × SGLD.Schedule P) (i : P) (k : ι i) (x : Nat → ℝ) (γ : ℝ)
    (hx : ∀ N, SGLD.gradients i k ((List.range N).map hist) (SGLD.State.init θ) = ((List.range N).map x).map .fin)
    (hγ : Tendsto x atTop (𝓝 γ)) :
    ∃ m : Nat → ℝ, (∀ N, ((SGLD.runs ((List.range N).map hist) (SGLD.State.init θ)).par i).minv k = .fin (m N))
      ∧ Tendsto m atTop (𝓝 (1 / (|γ| + 3e-16))) := by
  obtain ⟨g, v, m, h1, -, -, h2⟩ := stats_tendsto x γ hγ
  rw [c16_eq] at h2
  refine ⟨m, fun N => ?_, h2⟩
  obtain ⟨τ, r, he⟩ := h1 N
  have hs := SGLD.stats_runs ((List.range N).map hist) (SGLD.State.init θ) i k
  rw [show SGLD.stats (SGLD.State.init θ) i k = Stats.init from rfl, hx N, he] at hs
  exact (Stats.mk.inj hs).2.2.2.2

/-! ## The chain of samples (C88, C89) -/

open Spec

theorem averaged_eq (x : ℝ) (c : Coord) (h : Ok c.tau c.g c.v) (r m : Fl) :
    Stats.next ⟨.fin c.tau, r, .fin c.g, .fin c.v, m⟩ (.fin x)
      = ⟨.fin (c.averaged x).tau, .fin (1 / (c.tau + 1)), .fin (c.averaged x).g, .fin (c.averaged x).v, .fin (1 / (√c.v + 3e-16))⟩ := by
  rw [Stats.next_fin h, c16_eq]
  simp only [Coord.averaged]
  congr 2 <;> ring

/-- The statistics of a coordinate of a chain. -/
theorem chain_stats (chain : Nat → Coord) (x : Nat → ℝ) (h0 : (chain 0).tau = 1 ∧ (chain 0).g = 1 ∧ (chain 0).v = 1)
    (hs : ∀ k, (chain (k + 1)).tau = ((chain k).averaged (x k)).tau ∧ (chain (k + 1)).g = ((chain k).averaged (x k)).g
      ∧ (chain (k + 1)).v = ((chain k).averaged (x k)).v) (k : Nat) :
    (∃ r m, (((List.range k).map x).map Fl.fin).foldl Stats.next Stats.init = ⟨.fin (chain k).tau, r, .fin (chain k).g, .fin (chain k).v, m⟩)
      ∧ Ok (chain k).tau (chain k).g (chain k).v := by
  induction k with
  | zero =>
    rw [h0.1, h0.2.1, h0.2.2]
    exact ⟨⟨_, _, Stats.init_eq⟩, ok_init⟩
  | succ k ih =>
    obtain ⟨⟨r, m, he⟩, hok⟩ := ih
    have hn := averaged_eq (x k) (chain k) hok r m
    refine ⟨⟨.fin (1 / ((chain k).tau + 1)), .fin (1 / (√(chain k).v + 3e-16)), ?_⟩, ?_⟩
    · rw [List.range_succ, List.map_append, List.map_append, List.foldl_append, he, (hs k).1, (hs k).2.1, (hs k).2.2]
      exact hn
    · have h := ok_step hok (x k)
      have h2 := Stats.mk.inj (hn.symm.trans (Stats.next_fin hok r m (x k)))
      rw [(hs k).1, (hs k).2.1, (hs k).2.2, Fl.fin_inj.1 h2.1, Fl.fin_inj.1 h2.2.2.1, Fl.fin_inj.1 h2.2.2.2.1]
      exact h

/-- The squared-gradient average of a coordinate of a chain. -/
theorem chain_average (chain : Nat → Coord) (x : Nat → ℝ) (h0 : (chain 0).tau = 1 ∧ (chain 0).g = 1 ∧ (chain 0).v = 1)
    (hs : ∀ k, (chain (k + 1)).tau = ((chain k).averaged (x k)).tau ∧ (chain (k + 1)).g = ((chain k).averaged (x k)).g
      ∧ (chain (k + 1)).v = ((chain k).averaged (x k)).v) (k : Nat) :
    ∃ w0 ws, Weights k w0 ws ∧ (chain k).v = weighted w0 ws ((List.range k).map fun j => x j ^ 2) := by
  obtain ⟨⟨r, m, he⟩, -⟩ := chain_stats chain x h0 hs k
  obtain ⟨τ, ρ, w0, ws, μ, he', -, -, hw⟩ := stats_weights ((List.range k).map x)
  rw [List.length_map, List.length_range] at hw
  refine ⟨w0, ws, hw, ?_⟩
  have := Fl.fin_inj.1 (Stats.mk.inj (he.symm.trans he')).2.2.2.1
  rw [this, List.map_map]
  rfl

/-- **C96** After a burn-in of `B ≥ 1` steps, every further step of an SGHMC chain uses the same inverse mass, the one of the
squared gradients of the first `B - 1` steps. -/
theorem C96_sghmc_frozen (alpha scale : ℝ) (B : Nat) (hB : 0 < B) (eps x z : Nat → ℝ) (th : ℝ) :
    ∃ w0 ws, Weights (B - 1) w0 ws ∧ ∀ k, B ≤ k →
      let c := sghmcChain alpha scale B eps x z th
      let m := 1 / (√(weighted w0 ws ((List.range (B - 1)).map fun j => x j ^ 2)) + 3e-16)
      (c k).mass = m ∧ (c (k + 1)).mom = (1 - alpha) * (c k).mom - eps k ^ 2 * m * x k + sghmcSd (eps k) alpha scale m * z k
        ∧ (c (k + 1)).pos = (c k).pos + (c (k + 1)).mom := by
  obtain ⟨w0, ws, hw, hv⟩ := chain_average (sghmcChain alpha scale B eps x z th) x ⟨rfl, rfl, rfl⟩ (fun k => ⟨rfl, rfl, rfl⟩) (B - 1)
  refine ⟨w0, ws, hw, ?_⟩
  have hm : ∀ k, B ≤ k → (sghmcChain alpha scale B eps x z th k).mass
      = 1 / (√(weighted w0 ws ((List.range (B - 1)).map fun j => x j ^ 2)) + 3e-16) := by
    intro k hk
    induction k, hk using Nat.le_induction with
    | base =>
      obtain ⟨b, rfl⟩ : ∃ b, B = b + 1 := ⟨B - 1, by omega⟩
      rw [Nat.add_sub_cancel] at hv ⊢
      rw [← hv]
      show Coord.massUsed (afterBurnIn _ b) _ = _
      rw [show afterBurnIn ((b + 1 : ℕ) : Int) b = false by simp [afterBurnIn]]
      rfl
    | succ k hk ih =>
      show Coord.massUsed (afterBurnIn B k) _ = _
      rw [show afterBurnIn (B : Int) k = true by simp [afterBurnIn]; omega]
      exact ih
  intro k hk c m
  refine ⟨hm k hk, ?_, rfl⟩
  show (c k).mom - eps k ^ 2 * Coord.massUsed (afterBurnIn B k) (c k) * x k - alpha * (c k).mom
    + sghmcSd (eps k) alpha scale (Coord.massUsed (afterBurnIn B k) (c k)) * z k = _
  rw [show afterBurnIn (B : Int) k = true by simp [afterBurnIn]; omega]
  rw [show Coord.massUsed true (c k) = m from hm k hk]
  ring

/-- **C96** The same for SGLD. -/
theorem C96_sgld_frozen (a scale : ℝ) (B : Nat) (hB : 0 < B) (eps x z : Nat → ℝ) (th : ℝ) :
    ∃ w0 ws, Weights (B - 1) w0 ws ∧ ∀ k, B ≤ k →
      let c := sgldChain a scale B eps x z th
      let m := 1 / (√(weighted w0 ws ((List.range (B - 1)).map fun j => x j ^ 2)) + 3e-16)
      (c k).mass = m ∧ (c (k + 1)).pos = (c k).pos - eps k * m * a * x k + sgldSd (eps k) a scale m * z k := by
  obtain ⟨w0, ws, hw, hv⟩ := chain_average (sgldChain a scale B eps x z th) x ⟨rfl, rfl, rfl⟩ (fun k => ⟨rfl, rfl, rfl⟩) (B - 1)
  refine ⟨w0, ws, hw, ?_⟩
  have hm : ∀ k, B ≤ k → (sgldChain a scale B eps x z th k).mass
      = 1 / (√(weighted w0 ws ((List.range (B - 1)).map fun j => x j ^ 2)) + 3e-16) := by
    intro k hk
    induction k, hk using Nat.le_induction with
    | base =>
      obtain ⟨b, rfl⟩ : ∃ b, B = b + 1 := ⟨B - 1, by omega⟩
      rw [Nat.add_sub_cancel] at hv ⊢
      rw [← hv]
      show Coord.massUsed (afterBurnIn _ b) _ = _
      rw [show afterBurnIn ((b + 1 : ℕ) : Int) b = false by simp [afterBurnIn]]
      rfl
    | succ k hk ih =>
      show Coord.massUsed (afterBurnIn B k) _ = _
      rw [show afterBurnIn (B : Int) k = true by simp [afterBurnIn]; omega]
      exact ih
  intro k hk c m
  refine ⟨hm k hk, ?_⟩
  show (c k).pos - eps k * Coord.massUsed (afterBurnIn B k) (c k) * a * x k
    + sgldSd (eps k) a scale (Coord.massUsed (afterBurnIn B k) (c k)) * z k = _
  rw [show afterBurnIn (B : Int) k = true by simp [afterBurnIn]; omega]
  rw [show Coord.massUsed true (c k) = m from hm k hk]

/-! ## The hypotheses can be met -/

theorem sghmc_linear (hist : List (SGHMC.Schedule Unit)) (s : SGHMC.State fun _ : Unit => Unit) :
    SGHMC.gradients () () (hist.map fun σ => (SGHMC.linear, σ)) s = (List.replicate hist.length 1).map Fl.fin := by
  induction hist generalizing s with
  | nil => rfl
  | cons σ hist ih =>
    simp only [List.map_cons, SGHMC.gradients, List.length_cons, List.replicate_succ]
    rw [ih]
    congr 1
    obtain ⟨_, _, h⟩ := SGHMC.run_grad SGHMC.linear σ s ()
    rw [h]; rfl

theorem sgld_linear (hist : List (SGLD.Schedule Unit)) (s : SGLD.State fun _ : Unit => Unit) :
    SGLD.gradients () () (hist.map fun σ => (SGLD.linear, σ)) s = (List.replicate hist.length 1).map Fl.fin := by
  induction hist generalizing s with
  | nil => rfl
  | cons σ hist ih =>
    simp only [List.map_cons, SGLD.gradients, List.length_cons, List.replicate_succ]
    rw [ih]
    congr 1
    obtain ⟨_, _, h⟩ := SGLD.run_grad SGLD.linear σ s ()
    rw [h]; rfl

/-- A burn-in of any length on a linear cost, for SGHMC and SGLD. -/
example (N : Nat) : SGHMC.gradients () () ((List.range N).map fun _ => (SGHMC.linear, SGHMC.seqUnit)) (SGHMC.State.init fun _ _ => .fin 1)
      = ((List.range N).map fun _ => (1 : ℝ)).map .fin
    ∧ SGLD.gradients () () ((List.range N).map fun _ => (SGLD.linear, SGLD.seqUnit)) (SGLD.State.init fun _ _ => .fin 1)
      = ((List.range N).map fun _ => (1 : ℝ)).map .fin ∧ Tendsto (fun _ : Nat => (1 : ℝ)) atTop (𝓝 1) := by
  have h1 := sghmc_linear ((List.range N).map fun _ => SGHMC.seqUnit) (SGHMC.State.init fun _ _ => .fin 1)
  have h2 := sgld_linear ((List.range N).map fun _ => SGLD.seqUnit) (SGLD.State.init fun _ _ => .fin 1)
  simp only [List.map_map, List.length_map, List.length_range] at h1 h2
  refine ⟨?_, ?_, tendsto_const_nhds⟩
  · simpa [List.map_const', Function.comp_def] using h1
  · simpa [List.map_const', Function.comp_def] using h2

end PySGMCMC.BurnInAverage
