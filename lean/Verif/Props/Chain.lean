import Verif.Lemmas.Chain
import Verif.Props.SGHMC
import Verif.Props.SGLD

/-!
# C12, C13, C29, C33 for whole samplers: the iteration protocol together with the SGHMC and SGLD graphs

The batch generator, the schedule, the runtime's execution order, the normal draws and the cost function are arbitrary;
calls may fail at any point.
-/

namespace PySGMCMC.Chain
open SamplerBase

variable {n : Nat} {size : Fin n → Nat}

/-! ## A chain is a sequence of graph runs -/

theorem sghmc_calls (W : SGHMCWorld size) (l : List (Call size)) (s : SGHMC.State (Pos size)) :
    applyCalls W.graph l s = SGHMC.runs (l.map fun c => (W.inputs c.k c.eps c.fed c.user, W.order c.k)) s := by
  induction l generalizing s with
  | nil => rfl
  | cons c l ih => exact ih _

theorem sgld_calls (W : SGLDWorld size) (l : List (Call size)) (s : SGLD.State (Pos size)) :
    applyCalls W.graph l s = SGLD.runs (l.map fun c => (W.inputs c.k c.eps c.fed c.user, W.order c.k)) s := by
  induction l generalizing s with
  | nil => rfl
  | cons c l ih => exact ih _

/-! ## C33 -/

/-- C33 for SGHMC samplers: whatever state the variables were in, once one call has returned a sample every target
parameter equals the sampler's vectorized copy, after every further history of calls. -/
theorem C33_sghmc_sampler (F : Feeder) (W : SGHMCWorld size) (ok : Dict Key Arr → Bool)
    (hE : BatchesFeedUserGraph (env F W.graph ok)) (burnIn : Int) (fs : List (Feed Arr))
    (s : Sampler (env F W.graph ok)) (i : Fin n) :
    let r := history (burnInNext (env F W.graph ok) burnIn n) fs s
    1 ≤ countOk r.1 → (r.2.graph.vars.par i).param = (r.2.graph.vars.par i).vec := by
  intro r h
  obtain ⟨l, h1, h2, -⟩ := history_calls F W.graph ok hE burnIn fs s
  have hl : l ≠ [] := by
    intro he
    rw [he] at h2
    exact absurd (Nat.le_trans h h2) (by simp)
  have : r.2.graph.vars = _ := h1
  rw [this, sghmc_calls]
  exact SGHMC.C33_sghmc_coherent _ _ (by simpa using hl) i

/-- C33 for SGLD samplers. -/
theorem C33_sgld_sampler (F : Feeder) (W : SGLDWorld size) (ok : Dict Key Arr → Bool)
    (hE : BatchesFeedUserGraph (env F W.graph ok)) (burnIn : Int) (fs : List (Feed Arr))
    (s : Sampler (env F W.graph ok)) (i : Fin n) :
    let r := history (burnInNext (env F W.graph ok) burnIn n) fs s
    1 ≤ countOk r.1 → (r.2.graph.vars.par i).param = (r.2.graph.vars.par i).vec := by
  intro r h
  obtain ⟨l, h1, h2, -⟩ := history_calls F W.graph ok hE burnIn fs s
  have hl : l ≠ [] := by
    intro he
    rw [he] at h2
    exact absurd (Nat.le_trans h h2) (by simp)
  have : r.2.graph.vars = _ := h1
  rw [this, sgld_calls]
  exact SGLD.C33_sgld_coherent _ _ (by simpa using hl) i

/-! ## C29 -/

/-- C29 for SGHMC samplers: if gradients are always finite (for finite or any other parameters), the statistics stay
well-defined after every history of calls. -/
theorem C29_sghmc_sampler (F : Feeder) (W : SGHMCWorld size) (ok : Dict Key Arr → Bool)
    (hE : BatchesFeedUserGraph (env F W.graph ok)) (hgrad : ∀ d θ i k, Fl.IsFin (W.grad d θ i k)) (burnIn : Int)
    (fs : List (Feed Arr)) (batch : Option F.Batch) (sched : F.Sched) (θ : ∀ i, Pos size i → Fl) (eps : Fl) (i : Fin n)
    (k : Pos size i) :
    let r := history (burnInNext (env F W.graph ok) burnIn n) fs (init batch sched ⟨SGHMC.State.init θ, eps, 0⟩)
    ∃ tau rr g v m : ℝ, (r.2.graph.vars.par i).tau k = .fin tau ∧ (r.2.graph.vars.par i).r k = .fin rr
      ∧ (r.2.graph.vars.par i).g k = .fin g ∧ (r.2.graph.vars.par i).vhat k = .fin v
      ∧ (r.2.graph.vars.par i).minv k = .fin m
      ∧ 1 ≤ tau ∧ 0 < rr ∧ rr ≤ 1 / 2 ∧ g ^ 2 ≤ v ∧ 0 < v ∧ 0 < m := by
  intro r
  obtain ⟨l, h1, -, -⟩ := history_calls F W.graph ok hE burnIn fs
    (init (E := env F W.graph ok) batch sched ⟨SGHMC.State.init θ, eps, 0⟩)
  have h : r.2.graph.vars = _ := h1
  rw [h, sghmc_calls]
  apply SGHMC.C29_sghmc_statistics
  have key : ∀ (l : List (Call size)) s, ∀ x ∈ SGHMC.gradients i k
      (l.map fun c => (W.inputs c.k c.eps c.fed c.user, W.order c.k)) s, Fl.IsFin x := by
    intro l
    induction l with
    | nil => intro s x hx; cases hx
    | cons c l ih =>
      intro s x hx
      simp only [List.map_cons, SGHMC.gradients, List.mem_cons] at hx
      rcases hx with rfl | hx
      · obtain ⟨isNew, -, hg⟩ := SGHMC.run_grad (W.inputs c.k c.eps c.fed c.user) (W.order c.k) s i
        rw [hg]; exact hgrad _ _ _ _
      · exact ih _ x hx
  exact key l _

/-- C29 for SGLD samplers. -/
theorem C29_sgld_sampler (F : Feeder) (W : SGLDWorld size) (ok : Dict Key Arr → Bool)
    (hE : BatchesFeedUserGraph (env F W.graph ok)) (hgrad : ∀ d θ i k, Fl.IsFin (W.grad d θ i k)) (burnIn : Int)
    (fs : List (Feed Arr)) (batch : Option F.Batch) (sched : F.Sched) (θ : ∀ i, Pos size i → Fl) (eps : Fl) (i : Fin n)
    (k : Pos size i) :
    let r := history (burnInNext (env F W.graph ok) burnIn n) fs (init batch sched ⟨SGLD.State.init θ, eps, 0⟩)
    ∃ tau rr g v m : ℝ, (r.2.graph.vars.par i).tau k = .fin tau ∧ (r.2.graph.vars.par i).r k = .fin rr
      ∧ (r.2.graph.vars.par i).g k = .fin g ∧ (r.2.graph.vars.par i).vhat k = .fin v
      ∧ (r.2.graph.vars.par i).minv k = .fin m
      ∧ 1 ≤ tau ∧ 0 < rr ∧ rr ≤ 1 / 2 ∧ g ^ 2 ≤ v ∧ 0 < v ∧ 0 < m := by
  intro r
  obtain ⟨l, h1, -, -⟩ := history_calls F W.graph ok hE burnIn fs
    (init (E := env F W.graph ok) batch sched ⟨SGLD.State.init θ, eps, 0⟩)
  have h : r.2.graph.vars = _ := h1
  rw [h, sgld_calls]
  apply SGLD.C29_sgld_statistics
  have key : ∀ (l : List (Call size)) s, ∀ x ∈ SGLD.gradients i k
      (l.map fun c => (W.inputs c.k c.eps c.fed c.user, W.order c.k)) s, Fl.IsFin x := by
    intro l
    induction l with
    | nil => intro s x hx; cases hx
    | cons c l ih =>
      intro s x hx
      simp only [List.map_cons, SGLD.gradients, List.mem_cons] at hx
      rcases hx with rfl | hx
      · obtain ⟨isNew, -, hg⟩ := SGLD.run_grad (W.inputs c.k c.eps c.fed c.user) (W.order c.k) s i
        rw [hg]; exact hgrad _ _ _ _
      · exact ih _ x hx
  exact key l _

/-! ## C12 -/

/-- C12 for SGHMC samplers: if a call on sampler `s` completes the burn-in, then whatever happens later, all later runs
of the graph use the mass matrix held by the sampler at that moment (`MassUsed`, C31). -/
theorem C12_sghmc_sampler (F : Feeder) (W : SGHMCWorld size) (ok : Dict Key Arr → Bool)
    (hE : BatchesFeedUserGraph (env F W.graph ok)) (burnIn : Int) (f : Feed Arr) (hf : Clean f)
    (s : Sampler (env F W.graph ok)) (hn : (s.nIterations : Int) + 1 = burnIn) (o : Out Arr × Fl)
    (hok : (burnInNext (env F W.graph ok) burnIn n f s).result = .ok o) (gs : List (Feed Arr)) :
    let s1 := (burnInNext (env F W.graph ok) burnIn n f s).sampler
    let r := history (burnInNext (env F W.graph ok) burnIn n) gs s1
    ∃ hist : List (SGHMC.Inputs (Pos size) × SGHMC.Schedule (Fin n)),
      r.2.graph.vars = SGHMC.runs hist s1.graph.vars ∧ countOk r.1 ≤ hist.length
      ∧ ∀ x ∈ hist, ∀ i, x.1.fed i = some (s1.graph.vars.par i).minv := by
  intro s1 r
  have hm := last_burn_in_step F W.graph ok hE burnIn f hf s (by omega) o hok
  have hcount : (s1.nIterations : Int) = burnIn := by
    have := burnInNext_count (env F W.graph ok) burnIn n f s
    rw [hok] at this
    simp only at this
    have h2 : s1.nIterations = s.nIterations + 1 := this
    omega
  obtain ⟨l, h1, h2, -, -, h5⟩ := history_frozen F W.graph ok hE burnIn (by omega) _ gs s1 (by omega) hm
  refine ⟨l.map fun c => (W.inputs c.k c.eps c.fed c.user, W.order c.k), ?_, ?_, ?_⟩
  · rw [← sghmc_calls]; exact h1
  · rw [List.length_map]; exact h5
  · intro x hx i
    obtain ⟨c, hc, rfl⟩ := List.mem_map.1 hx
    show c.fed i = _
    rw [h2 c hc]

/-- C12 for SGLD samplers. -/
theorem C12_sgld_sampler (F : Feeder) (W : SGLDWorld size) (ok : Dict Key Arr → Bool)
    (hE : BatchesFeedUserGraph (env F W.graph ok)) (burnIn : Int) (f : Feed Arr) (hf : Clean f)
    (s : Sampler (env F W.graph ok)) (hn : (s.nIterations : Int) + 1 = burnIn) (o : Out Arr × Fl)
    (hok : (burnInNext (env F W.graph ok) burnIn n f s).result = .ok o) (gs : List (Feed Arr)) :
    let s1 := (burnInNext (env F W.graph ok) burnIn n f s).sampler
    let r := history (burnInNext (env F W.graph ok) burnIn n) gs s1
    ∃ hist : List (SGLD.Inputs (Pos size) × SGLD.Schedule (Fin n)),
      r.2.graph.vars = SGLD.runs hist s1.graph.vars ∧ countOk r.1 ≤ hist.length
      ∧ ∀ x ∈ hist, ∀ i, x.1.fed i = some (s1.graph.vars.par i).minv := by
  intro s1 r
  have hm := last_burn_in_step F W.graph ok hE burnIn f hf s (by omega) o hok
  have hcount : (s1.nIterations : Int) = burnIn := by
    have := burnInNext_count (env F W.graph ok) burnIn n f s
    rw [hok] at this
    simp only at this
    have h2 : s1.nIterations = s.nIterations + 1 := this
    omega
  obtain ⟨l, h1, h2, -, -, h5⟩ := history_frozen F W.graph ok hE burnIn (by omega) _ gs s1 (by omega) hm
  refine ⟨l.map fun c => (W.inputs c.k c.eps c.fed c.user, W.order c.k), ?_, ?_, ?_⟩
  · rw [← sgld_calls]; exact h1
  · rw [List.length_map]; exact h5
  · intro x hx i
    obtain ⟨c, hc, rfl⟩ := List.mem_map.1 hx
    show c.fed i = _
    rw [h2 c hc]

/-! ## C13 -/

/-- C13, what holds: with `burn_in_steps ≤ 0` no run is fed a mass matrix, so each run uses the one computed from the
squared-gradient average before the run; for the first run that is the initial mass.
Missing: the average, and with it the mass, keeps changing, see `C13_sghmc_violated`. -/
theorem C13_sghmc_partial (F : Feeder) (W : SGHMCWorld size) (ok : Dict Key Arr → Bool)
    (hE : BatchesFeedUserGraph (env F W.graph ok)) (burnIn : Int) (h0 : burnIn ≤ 0) (fs : List (Feed Arr))
    (hfs : ∀ f ∈ fs, Clean f) (batch : Option F.Batch) (sched : F.Sched) (θ : ∀ i, Pos size i → Fl) (eps : Fl) :
    let r := history (burnInNext (env F W.graph ok) burnIn n) fs (init batch sched ⟨SGHMC.State.init θ, eps, 0⟩)
    ∃ hist : List (SGHMC.Inputs (Pos size) × SGHMC.Schedule (Fin n)),
      r.2.graph.vars = SGHMC.runs hist (SGHMC.State.init θ) ∧ countOk r.1 ≤ hist.length
      ∧ (∀ x ∈ hist, ∀ i, x.1.fed i = none)
      ∧ ∀ x, hist.head? = some x → ∀ i k, SGHMC.MassUsed x.1 i k 1 (1 / (1 + 3e-16))
        ∧ ((SGHMC.State.init θ).par i).vhat k = .fin 1 := by
  intro r
  obtain ⟨l, h1, h2, -, -, h5⟩ := history_no_burn_in F W.graph ok hE burnIn h0 fs hfs
    (init (E := env F W.graph ok) batch sched ⟨SGHMC.State.init θ, eps, 0⟩)
  have hfed : ∀ x ∈ l.map (fun c => (W.inputs c.k c.eps c.fed c.user, W.order c.k)), ∀ i, x.1.fed i = none := by
    intro x hx i
    obtain ⟨c, hc, rfl⟩ := List.mem_map.1 hx
    show c.fed i = _
    rw [h2 c hc]
  refine ⟨l.map fun c => (W.inputs c.k c.eps c.fed c.user, W.order c.k), ?_, ?_, hfed, ?_⟩
  · rw [← sghmc_calls]; exact h1
  · rw [List.length_map]; exact h5
  · intro x hx i k
    refine ⟨Or.inl ⟨hfed x (List.mem_of_mem_head? hx) i, by rw [Real.sqrt_one]⟩, ?_⟩
    show BurnInStats.vhat0 = _
    have := BurnInStats.Stats.init_eq
    simp only [BurnInStats.Stats.init, BurnInStats.Stats.mk.injEq] at this
    exact this.2.2.2.1

/-- C13 for SGLD, what holds. -/
theorem C13_sgld_partial (F : Feeder) (W : SGLDWorld size) (ok : Dict Key Arr → Bool)
    (hE : BatchesFeedUserGraph (env F W.graph ok)) (burnIn : Int) (h0 : burnIn ≤ 0) (fs : List (Feed Arr))
    (hfs : ∀ f ∈ fs, Clean f) (batch : Option F.Batch) (sched : F.Sched) (θ : ∀ i, Pos size i → Fl) (eps : Fl) :
    let r := history (burnInNext (env F W.graph ok) burnIn n) fs (init batch sched ⟨SGLD.State.init θ, eps, 0⟩)
    ∃ hist : List (SGLD.Inputs (Pos size) × SGLD.Schedule (Fin n)),
      r.2.graph.vars = SGLD.runs hist (SGLD.State.init θ) ∧ countOk r.1 ≤ hist.length
      ∧ (∀ x ∈ hist, ∀ i, x.1.fed i = none)
      ∧ ∀ x, hist.head? = some x → ∀ i k, SGLD.MassUsed x.1 i k 1 (1 / (1 + 3e-16))
        ∧ ((SGLD.State.init θ).par i).vhat k = .fin 1 := by
  intro r
  obtain ⟨l, h1, h2, -, -, h5⟩ := history_no_burn_in F W.graph ok hE burnIn h0 fs hfs
    (init (E := env F W.graph ok) batch sched ⟨SGLD.State.init θ, eps, 0⟩)
  have hfed : ∀ x ∈ l.map (fun c => (W.inputs c.k c.eps c.fed c.user, W.order c.k)), ∀ i, x.1.fed i = none := by
    intro x hx i
    obtain ⟨c, hc, rfl⟩ := List.mem_map.1 hx
    show c.fed i = _
    rw [h2 c hc]
  refine ⟨l.map fun c => (W.inputs c.k c.eps c.fed c.user, W.order c.k), ?_, ?_, hfed, ?_⟩
  · rw [← sgld_calls]; exact h1
  · rw [List.length_map]; exact h5
  · intro x hx i k
    refine ⟨Or.inl ⟨hfed x (List.mem_of_mem_head? hx) i, by rw [Real.sqrt_one]⟩, ?_⟩
    show BurnInStats.vhat0 = _
    have := BurnInStats.Stats.init_eq
    simp only [BurnInStats.Stats.init, BurnInStats.Stats.mk.injEq] at this
    exact this.2.2.2.1

/-- No batches, constant stepsize 1. -/
@[reducible] noncomputable def unitFeeder : Feeder where
  Batch := Unit
  Sched := Unit
  batchNext _ := (.ok Dict.empty, ())
  schedNext _ := (.ok [.fin 1], ())
  schedUpdate _ _ _ := (.ok (), ())

/-- One scalar parameter. -/
abbrev one : Fin 1 → Nat := fun _ => 1

/-- One call of a sampler without batches and burn-in. -/
theorem unit_step (G : GraphSem one) (s : Sampler (env unitFeeder G fun _ => true)) (hb : s.batch = none) :
    let vars := G.run s.graph.nRuns (.fin 1) (fun _ => none) (Dict.single .epsilon [.fin 1]) s.graph.vars
    (burnInNext (env unitFeeder G fun _ => true) 0 1 .none s).result = .ok (.one [G.param vars 0 0], G.cost vars)
    ∧ (burnInNext (env unitFeeder G fun _ => true) 0 1 .none s).sampler.graph
        = ⟨vars, s.graph.epsilon, s.graph.nRuns + 1⟩
    ∧ (burnInNext (env unitFeeder G fun _ => true) 0 1 .none s).sampler.batch = none := by
  obtain ⟨it, mv, bt, sc, ⟨vars0, eps, k⟩⟩ := s
  cases hb
  have hd : ((Dict.empty : Dict Key Arr).update Dict.empty).update (Dict.single .epsilon [.fin 1])
      = Dict.single .epsilon [.fin 1] := by
    funext key
    unfold Dict.update Dict.single Dict.empty
    by_cases h : key = .epsilon <;> simp [h]
  have hfed : fedMinv one (Dict.single .epsilon [.fin 1]) = fun _ => none := by
    apply fedMinv_none; intro i; simp [Dict.single]
  have hok : feedOk one (Dict.single .epsilon [.fin 1]) = true := by
    simp [feedOk, Dict.single]
  have heps : ∀ s : Session G, epsUsed s (Dict.single .epsilon [.fin 1]) = .fin 1 := by
    intro s; simp [epsUsed, Dict.single]
  have hburn : isBurningIn (E := env unitFeeder G fun _ => true) 0 ⟨it, mv, none, sc, ⟨vars0, eps, k⟩⟩ = false := by
    unfold isBurningIn; simp only [decide_eq_false_iff_not]; omega
  have hrun : sessionRun G (fun _ => true) ⟨vars0, eps, k⟩ false (Dict.single .epsilon [.fin 1])
      = (.ok { params := [[G.param (G.run k (.fin 1) (fun _ => none) (Dict.single .epsilon [.fin 1]) vars0) 0 0]]
               cost := G.cost (G.run k (.fin 1) (fun _ => none) (Dict.single .epsilon [.fin 1]) vars0)
               minv := [flat (G.minv (G.run k (.fin 1) (fun _ => none) (Dict.single .epsilon [.fin 1]) vars0) 0)] },
          ⟨G.run k (.fin 1) (fun _ => none) (Dict.single .epsilon [.fin 1]) vars0, eps, k + 1⟩) := by
    unfold sessionRun
    rw [hok, hfed, heps]
    simp [flat, List.ofFn_succ]
  unfold burnInNext
  simp only [Feed.open, hburn, Bool.false_eq_true, if_false, gt_iff_lt, lt_self_iff_false, baseNextDict, updateFeed,
    nextBatch, nextStepsize, hd, hrun, finish, unravel, and_self]

/-- An SGHMC sampler for a cost with constant gradient 2, without noise and with momentum decay 1. -/
noncomputable def steepSGHMC (order : Nat → SGHMC.Schedule (Fin 1)) : SGHMCWorld one where
  scaleGrad := .fin 1
  mdecay := .fin 1
  grad _ _ _ _ := .fin 2
  cost _ _ := .fin 0
  normal _ _ _ := .fin 0
  order := order

/-- C13 fails: although `burn_in_steps = 0` the first two steps of this sampler use different mass matrices, so with a
constant gradient and without noise the second displacement is smaller than the first (whatever the runtime does). -/
theorem C13_sghmc_violated (order : Nat → SGHMC.Schedule (Fin 1)) :
    let E := env unitFeeder (steepSGHMC order).graph fun _ => true
    ∃ x y c c', (history (burnInNext E 0 1) [.none, .none]
        (init none () ⟨SGHMC.State.init fun _ _ => .fin 0, .fin 1, 0⟩)).1
        = [.ok (.one [.fin x], c), .ok (.one [.fin y], c')]
      ∧ |y - x| < |x - 0| := by
  intro E
  set s0 : Sampler E := init none () ⟨SGHMC.State.init fun _ _ => .fin 0, .fin 1, 0⟩ with hs0
  obtain ⟨a1, a2, a3⟩ := unit_step (steepSGHMC order).graph s0 rfl
  set s1 := (burnInNext E 0 1 .none s0).sampler with hs1
  obtain ⟨b1, b2, b3⟩ := unit_step (steepSGHMC order).graph s1 a3
  have hst : SGHMC.stats (SGHMC.State.init (ι := Pos one) fun _ _ => .fin 0) 0 0
      = ⟨.fin 1, .fin (1 / 2), .fin 1, .fin 1, .fin 1⟩ := by rw [← BurnInStats.Stats.init_eq]; rfl
  simp only [SGHMC.stats, BurnInStats.Stats.mk.injEq] at hst
  have hgrad : ∀ k eps fed d σ s, ((SGHMC.run ((steepSGHMC order).inputs k eps fed d) σ s).par 0).tGrad 0 = .fin 2 := by
    intro k eps fed d σ s
    obtain ⟨isNew, -, h⟩ := SGHMC.run_grad ((steepSGHMC order).inputs k eps fed d) σ s 0
    rw [h]; rfl
  obtain ⟨sd, -, e1⟩ := SGHMC.C31_equation10
    ((steepSGHMC order).inputs 0 (.fin 1) (fun _ => none) (Dict.single .epsilon [.fin 1])) (order 0)
    (SGHMC.State.init fun _ _ => .fin 0) 0 0 1 1 1 0 0 1 1 1 2 0 (1 / (Real.sqrt 1 + 3e-16))
    hst.1 hst.2.2.1 hst.2.2.2.1 (by show (0 : Fl) = _; rw [Fl.ofNat_zero]) rfl rfl rfl rfl (hgrad ..) rfl
    (Or.inl ⟨rfl, rfl⟩) le_rfl one_pos one_pos
  set v1 := SGHMC.run ((steepSGHMC order).inputs 0 (.fin 1) (fun _ => none) (Dict.single .epsilon [.fin 1])) (order 0)
    (SGHMC.State.init fun _ _ => .fin 0) with hv1
  obtain ⟨-, t1, -, g1, w1, m1, p1, q1⟩ := e1
  have h3 : (0 : ℝ) < 1 - 1 ^ 2 * 1 / (1 + 3e-16) := by norm_num
  obtain ⟨sd', -, e2⟩ := SGHMC.C31_equation10
    ((steepSGHMC order).inputs 1 (.fin 1) (fun _ => none) (Dict.single .epsilon [.fin 1])) (order 1)
    v1 0 0 _ _ _ _ _ 1 1 1 2 0 _
    t1 g1 w1 m1 p1 rfl rfl rfl (hgrad ..) rfl
    (Or.inl ⟨rfl, rfl⟩) (by linarith) (by norm_num) one_pos
  obtain ⟨-, -, -, -, -, -, -, q2⟩ := e2
  have hvars : s1.graph = ⟨v1, .fin 1, 1⟩ := a2
  rw [hvars] at b1
  have hh : (history (burnInNext E 0 1) [.none, .none] s0).1
      = [(burnInNext E 0 1 .none s0).result, (burnInNext E 0 1 .none s1).result] := rfl
  have a1' : (burnInNext E 0 1 .none s0).result = .ok (.one [(v1.par 0).param 0], v1.cost) := a1
  have b1' : (burnInNext E 0 1 .none s1).result = .ok (.one [((SGHMC.run
      ((steepSGHMC order).inputs 1 (.fin 1) (fun _ => none) (Dict.single .epsilon [.fin 1])) (order 1) v1).par 0).param 0],
      (SGHMC.run ((steepSGHMC order).inputs 1 (.fin 1) (fun _ => none) (Dict.single .epsilon [.fin 1])) (order 1) v1).cost) :=
    b1
  rw [q1] at a1'
  rw [q2] at b1'
  rw [a1', b1'] at hh
  refine ⟨_, _, _, _, hh, ?_⟩
  have hs : Real.sqrt 1 < Real.sqrt ((1 - 1 / (1 + 1)) * 1 + 1 / (1 + 1) * 2 ^ 2) := by
    apply Real.sqrt_lt_sqrt <;> norm_num
  rw [Real.sqrt_one] at hs ⊢
  generalize Real.sqrt ((1 - 1 / (1 + 1)) * 1 + 1 / (1 + 1) * 2 ^ 2) = q at hs ⊢
  have hm : 1 / (q + 3e-16) < 1 / (1 + 3e-16) := one_div_lt_one_div_of_lt (by norm_num) (by linarith)
  have hm0 : 0 < 1 / (q + 3e-16) := by positivity
  generalize 1 / (q + 3e-16) = m at hm hm0 ⊢
  generalize (1 : ℝ) / (1 + 3e-16) = m' at hm ⊢
  have e1 : 0 + (0 - 1 ^ 2 * m' * 2 - 1 * 0 + sd * 0) = -(2 * m') := by ring
  have e2 : -(2 * m') + (0 - 1 ^ 2 * m' * 2 - 1 * 0 + sd * 0 - 1 ^ 2 * m * 2 - 1 * (0 - 1 ^ 2 * m' * 2 - 1 * 0 + sd * 0)
      + sd' * 0) - -(2 * m') = -(2 * m) := by ring
  rw [e1, e2, sub_zero, abs_neg, abs_neg, abs_of_pos (by linarith), abs_of_pos (by linarith)]
  linarith

/-- An SGLD sampler for a cost with constant gradient 2, without noise. -/
noncomputable def steepSGLD (order : Nat → SGLD.Schedule (Fin 1)) : SGLDWorld one where
  scaleGrad := .fin 1
  a := .fin 1
  grad _ _ _ _ := .fin 2
  cost _ _ := .fin 0
  normal _ _ _ := .fin 0
  order := order

/-- C13 fails for SGLD in the same way. -/
theorem C13_sgld_violated (order : Nat → SGLD.Schedule (Fin 1)) :
    let E := env unitFeeder (steepSGLD order).graph fun _ => true
    ∃ x y c c', (history (burnInNext E 0 1) [.none, .none]
        (init none () ⟨SGLD.State.init fun _ _ => .fin 0, .fin 1, 0⟩)).1
        = [.ok (.one [.fin x], c), .ok (.one [.fin y], c')]
      ∧ |y - x| < |x - 0| := by
  intro E
  set s0 : Sampler E := init none () ⟨SGLD.State.init fun _ _ => .fin 0, .fin 1, 0⟩ with hs0
  obtain ⟨a1, a2, a3⟩ := unit_step (steepSGLD order).graph s0 rfl
  set s1 := (burnInNext E 0 1 .none s0).sampler with hs1
  obtain ⟨b1, b2, b3⟩ := unit_step (steepSGLD order).graph s1 a3
  have hst : SGLD.stats (SGLD.State.init (ι := Pos one) fun _ _ => .fin 0) 0 0
      = ⟨.fin 1, .fin (1 / 2), .fin 1, .fin 1, .fin 1⟩ := by rw [← BurnInStats.Stats.init_eq]; rfl
  simp only [SGLD.stats, BurnInStats.Stats.mk.injEq] at hst
  have hgrad : ∀ k eps fed d σ s, ((SGLD.run ((steepSGLD order).inputs k eps fed d) σ s).par 0).tGrad 0 = .fin 2 := by
    intro k eps fed d σ s
    obtain ⟨isNew, -, h⟩ := SGLD.run_grad ((steepSGLD order).inputs k eps fed d) σ s 0
    rw [h]; rfl
  obtain ⟨sd, -, e1⟩ := SGLD.C34_langevin_step
    ((steepSGLD order).inputs 0 (.fin 1) (fun _ => none) (Dict.single .epsilon [.fin 1])) (order 0)
    (SGLD.State.init fun _ _ => .fin 0) 0 0 1 1 1 0 1 1 1 2 0 (1 / (Real.sqrt 1 + 3e-16))
    hst.1 hst.2.2.1 hst.2.2.2.1 rfl rfl rfl rfl (hgrad ..) rfl
    (Or.inl ⟨rfl, rfl⟩) le_rfl one_pos one_pos
  set v1 := SGLD.run ((steepSGLD order).inputs 0 (.fin 1) (fun _ => none) (Dict.single .epsilon [.fin 1])) (order 0)
    (SGLD.State.init fun _ _ => .fin 0) with hv1
  obtain ⟨-, t1, -, g1, w1, p1, q1⟩ := e1
  have h3 : (0 : ℝ) < 1 - 1 ^ 2 * 1 / (1 + 3e-16) := by norm_num
  obtain ⟨sd', -, e2⟩ := SGLD.C34_langevin_step
    ((steepSGLD order).inputs 1 (.fin 1) (fun _ => none) (Dict.single .epsilon [.fin 1])) (order 1)
    v1 0 0 _ _ _ _ 1 1 1 2 0 _
    t1 g1 w1 p1 rfl rfl rfl (hgrad ..) rfl
    (Or.inl ⟨rfl, rfl⟩) (by linarith) (by norm_num) one_pos
  obtain ⟨-, -, -, -, -, -, q2⟩ := e2
  have hvars : s1.graph = ⟨v1, .fin 1, 1⟩ := a2
  rw [hvars] at b1
  have hh : (history (burnInNext E 0 1) [.none, .none] s0).1
      = [(burnInNext E 0 1 .none s0).result, (burnInNext E 0 1 .none s1).result] := rfl
  have a1' : (burnInNext E 0 1 .none s0).result = .ok (.one [(v1.par 0).param 0], v1.cost) := a1
  have b1' : (burnInNext E 0 1 .none s1).result = .ok (.one [((SGLD.run
      ((steepSGLD order).inputs 1 (.fin 1) (fun _ => none) (Dict.single .epsilon [.fin 1])) (order 1) v1).par 0).param 0],
      (SGLD.run ((steepSGLD order).inputs 1 (.fin 1) (fun _ => none) (Dict.single .epsilon [.fin 1])) (order 1) v1).cost) :=
    b1
  rw [q1] at a1'
  rw [q2] at b1'
  rw [a1', b1'] at hh
  refine ⟨_, _, _, _, hh, ?_⟩
  have hs : Real.sqrt 1 < Real.sqrt ((1 - 1 / (1 + 1)) * 1 + 1 / (1 + 1) * 2 ^ 2) := by
    apply Real.sqrt_lt_sqrt <;> norm_num
  rw [Real.sqrt_one] at hs ⊢
  generalize Real.sqrt ((1 - 1 / (1 + 1)) * 1 + 1 / (1 + 1) * 2 ^ 2) = q at hs ⊢
  have hm : 1 / (q + 3e-16) < 1 / (1 + 3e-16) := one_div_lt_one_div_of_lt (by norm_num) (by linarith)
  have hm0 : 0 < 1 / (q + 3e-16) := by positivity
  generalize 1 / (q + 3e-16) = m at hm hm0 ⊢
  generalize (1 : ℝ) / (1 + 3e-16) = m' at hm ⊢
  have e1 : 0 - 1 * m' * 1 * 2 + sd * 0 = -(2 * m') := by ring
  rw [e1]
  have e2 : -(2 * m') - 1 * m * 1 * 2 + sd' * 0 - -(2 * m') = -(2 * m) := by ring
  rw [e2, sub_zero, abs_neg, abs_neg, abs_of_pos (by linarith), abs_of_pos (by linarith)]
  linarith

/-! ## Non-vacuity -/

/-- Execution orders exist. -/
def seqFin1 : SGHMC.Schedule (Fin 1) :=
  .ofList (SGHMC.sequentialOrder [0]) (by decide)
    (by rintro (⟨i, o⟩ | _)
        · have : i = 0 := Subsingleton.elim _ _
          subst this; simp [SGHMC.sequentialOrder, SGHMC.Op.mem_all]
        · simp [SGHMC.sequentialOrder]) (by decide)

/-- The batches of `unitFeeder` do not feed the mass matrix, a call with default arguments does not either. -/
example : BatchesFeedUserGraph (env unitFeeder (steepSGHMC fun _ => seqFin1).graph fun _ => true) ∧ Clean .none := by
  constructor
  · intro b d b' h i
    simp only [Prod.mk.injEq, Except.ok.injEq] at h
    rw [← h.1]; rfl
  · intro d h i
    simp only [Feed.open, Option.some.injEq] at h
    rw [← h]; rfl

end PySGMCMC.Chain
