import Verif.Model.MultiTrace
import Verif.Props.Reinit
import Verif.Props.SampleChains

/-!
# C98: chains of samplers that were stepped before `pymc3_multitrace` records them
-/

namespace PySGMCMC.MultiTrace
open SamplerBase Chain SampleChains Spec

variable {n : Nat} {size : Fin n → Nat} {C : Type} {F : Feeder C} {G : GraphSem size C} {ok : Dict Key Arr → Bool}

/-- A chain is what the sampler yields from its reset variables on. -/
theorem oneChain_eq (U : Factory F G ok) (next : Feed Arr → Sampler (env F G ok) → NextRes (env F G ok)) (shape : Fin n → List Nat)
    (N : Nat) (keep : Int) (names : Option (List String)) (i : Nat) (w : Option (Sampler (env F G ok))) :
    oneChain (U.world next shape) N keep names i (i, w)
      = fromSampler ((U.world next shape).next i) ((U.world next shape).params i) i N keep names
        (i + 1, some (initVariables (U.reset i) U.eps0 (U.returned next i))) := rfl

/-- **C98** (what holds) If `get_sampler` does not step the sampler, the chain consists of the samples the returned sampler
would have yielded.  Missing: stepped samplers, see `C98_burnin_violated`. -/
theorem C98_unstepped_partial (U : Factory F G ok) (next : Feed Arr → Sampler (env F G ok) → NextRes (env F G ok))
    (shape : Fin n → List Nat) (h : U.steps = 0) (hr : ∀ i, U.reset i (U.start i) = U.start i)
    (N : Nat) (keep : Int) (names : Option (List String)) (i : Nat) (w : Option (Sampler (env F G ok))) :
    oneChain (U.world next shape) N keep names i (i, w)
      = fromSampler ((U.world next shape).next i) ((U.world next shape).params i) i N keep names (i + 1, some (U.returned next i)) := by
  rw [oneChain_eq]
  congr 3
  unfold Factory.returned
  rw [h]
  unfold initVariables
  exact congrArg (fun v => init (E := env F G ok) (U.batch i) (U.sched i) ⟨v, U.eps0, 0⟩) (hr i)

/-- Running the initializers right after the constructor changes nothing, whatever the order. -/
theorem sgldReset_init (paramFirst : Fin n → Bool) (θ : ∀ i, Pos size i → Fl) :
    sgldReset paramFirst θ (SGLD.State.init θ) = SGLD.State.init θ := by
  unfold sgldReset
  have : (fun i => if paramFirst i then θ i else (SGLD.State.init θ).params i) = θ := by
    funext i; split <;> rfl
  rw [this]; rfl

theorem sghmcReset_init (paramFirst : Fin n → Bool) (θ : ∀ i, Pos size i → Fl) :
    sghmcReset paramFirst θ (SGHMC.State.init θ) = SGHMC.State.init θ := by
  unfold sghmcReset
  have : (fun i => if paramFirst i then θ i else (SGHMC.State.init θ).params i) = θ := by
    funext i; split <;> rfl
  rw [this]; rfl

theorem world_calls (U : Factory F G ok) (next : Feed Arr → Sampler (env F G ok) → NextRes (env F G ok)) (shape : Fin n → List Nat)
    (i c : Nat) (s : Sampler (env F G ok)) (m : Nat) :
    calls ((U.world next shape).next i) m (c, some s)
      = ((calls (asIter next) m s).1.map fun r => r.map fun p => (sampleObj shape p.1, p.2), c, some (calls (asIter next) m s).2) := by
  induction m with
  | zero => rfl
  | succ m ih =>
    rw [calls_succ', calls_succ', ih]
    simp only [List.map_append, List.map_cons, List.map_nil]
    rfl

/-- **C98** (what holds) The chain recorded for a sampler that made `k` steps before: parameters, momenta and running averages start
afresh from what the initializers make of them, while batches, stepsizes, the number of iterations and with it the burn-in phase, and the
stored inverse mass matrix continue.  -/
theorem C98_recorded_partial (U : Factory F G ok) (B : Int) (shape : Fin n → List Nat) (N : Nat) (keep : Int)
    (names : Option (List String)) (i : Nat) (w : Option (Sampler (env F G ok))) (S : Script F (U.steps + N))
    (hb : S.batch 0 = U.batch i) (hs : S.sched 0 = U.sched i)
    (hok : ∀ k < U.steps + N, ∀ d, (∀ p, d (.ph p) = S.data k (.ph p)) → ok d = true) :
    let own := seq S G B (U.start i)
    let rec' := seqFrom S G B U.steps (U.reset i (own U.steps).1, (own U.steps).2)
    let sample := fun (k : Nat) (v : G.St) => sampleObj shape (if (k : Int) < B then .many (arraysOf G v) else unravel (arraysOf G v))
    -- what the returned sampler would have yielded
    (calls (asIter (burnInNext (env F G ok) B n)) N (U.returned (burnInNext (env F G ok) B n) i)).1.map
        (fun r => r.map fun p => sampleObj shape p.1)
      = (List.range N).map (fun j : Nat => .ok (sample (U.steps + j) (own (U.steps + j + 1)).1))
    -- what is recorded
    ∧ (oneChain (U.world (burnInNext (env F G ok) B n) shape) N keep names i (i, w)).1
      = mkTrace i (.seq ((List.range N).map fun j : Nat => sample (U.steps + j) (rec' (j + 1)).1))
          (some (names.getD (List.ofFn U.names))) := by
  intro own rec' sample
  have hok' : ∀ k < U.steps + N, ∀ m : ∀ i, Pos size i → Fl, ok (feedAt S B k m) = true := fun k hk m => hok k hk _ (feedAt_ph S B k m)
  have hret : U.returned (burnInNext (env F G ok) B n) i = samplerOf S G ok B U.eps0 U.steps (own U.steps) := by
    unfold Factory.returned
    rw [← hb, ← hs, calls_script S G ok B (U.start i) U.eps0 (fun k hk => hok' k hk _) U.steps (by omega)]
    rfl
  rw [hret]
  constructor
  · rw [calls_from S G ok B U.eps0 U.steps _ N le_rfl (fun j hj => hok' _ (by omega) _)]
    simp only [List.map_map]
    apply List.map_congr_left
    intro j _
    simp only [Function.comp_apply, Except.map]
    rw [seqFrom_seq S G B (U.start i) U.steps (j + 1)]
    rfl
  · rw [oneChain_eq, hret]
    have hinit : initVariables (U.reset i) U.eps0 (samplerOf S G ok B U.eps0 U.steps (own U.steps))
        = samplerOf S G ok B U.eps0 U.steps (U.reset i (own U.steps).1, (own U.steps).2) := rfl
    rw [hinit]
    have hp : (U.world (burnInNext (env F G ok) B n) shape).params i = (List.ofFn U.names).map some := by
      show (List.ofFn fun i => some (U.names i)) = _
      rw [List.map_ofFn]; rfl
    rw [hp, fromSampler_calls _ _ i N keep names _ ((List.range N).map fun j : Nat =>
      (sample (U.steps + j) (rec' (j + 1)).1, G.cost (rec' (j + 1)).1))]
    · rw [List.map_map]; rfl
    · rw [world_calls, calls_from S G ok B U.eps0 U.steps _ N le_rfl (fun j hj => hok' _ (by omega) _)]
      simp only [List.map_map]
      apply List.map_congr_left
      intro j _
      rfl

/-! ## The witness -/

/-- Samplers for it that make `k` steps, all of them burn-in, before they are returned; parameters are initialized before their working
copies. -/
noncomputable def slopeFactory (order : Nat → SGLD.Schedule (Fin 1)) (k : Nat) : Factory slopeFeeder (slope order).graph (fun _ => true) where
  batch _ := none
  sched _ := ()
  start _ := SGLD.State.init fun _ _ => .fin 0
  reset _ := sgldReset (fun _ => true) fun _ _ => .fin 0
  eps0 := .fin 1
  steps := k
  names _ := "x"

theorem slope_grad (order : Nat → SGLD.Schedule (Fin 1)) (j : Nat) (eps : Fl) (fed) (d : Dict Key Arr) (s : SGLD.State (Pos fun _ : Fin 1 => 1)) :
    ((SGLD.run ((slope order).inputs j eps fed d) (order j) s).par 0).tGrad 0 = .fin 1 := by
  obtain ⟨isNew, -, h⟩ := SGLD.run_grad ((slope order).inputs j eps fed d) (order j) s 0
  rw [h]; rfl

/-- One step: the parameter decreases by the inverse mass. -/
theorem slope_step (order : Nat → SGLD.Schedule (Fin 1)) {N : Nat} (B : Int) (j : Nat)
    (p : SGLD.State (Pos fun _ : Fin 1 => 1) × (∀ i, Pos (fun _ : Fin 1 => 1) i → Fl)) (c : Coord)
    (hc : SGLDHas p.1 0 0 c) (hok : BurnInStats.Ok c.tau c.g c.v) (hm : frozenAt B j = true → p.2 0 0 = .fin c.mass) :
    let q := nextPair (unitScript N) (slope order).graph B j p
    SGLDHas q.1 0 0 (sgldStep 1 1 1 (afterBurnIn B j) 1 0 c)
      ∧ (q.1.par 0).param 0 = .fin (sgldStep 1 1 1 (afterBurnIn B j) 1 0 c).pos
      ∧ ((j : Int) < B → q.2 0 0 = .fin (c.massUsed (afterBurnIn B j))) ∧ (¬ (j : Int) < B → q.2 = p.2) := by
  intro q
  set inp := (slope order).inputs j (.fin 1) (fedAt B j p.2) (feedAt (unitScript N) B j p.2) with hinp
  have hrun : q.1 = SGLD.run inp (order j) p.1 := rfl
  have hmass : SGLD.MassUsed inp 0 0 c.v (c.massUsed (afterBurnIn B j)) := by
    unfold Coord.massUsed
    by_cases hf : afterBurnIn B j = true
    · rw [if_pos hf]
      refine .inr ⟨p.2 0, ?_, hm hf⟩
      show fedAt B j p.2 0 = _
      unfold fedAt; rw [if_pos (show frozenAt B j = true from hf)]
    · rw [if_neg hf]
      refine .inl ⟨?_, rfl⟩
      show fedAt B j p.2 0 = _
      unfold fedAt; rw [if_neg (show ¬ frozenAt B j = true from hf)]
  obtain ⟨sd, hsd, -, e2, e3, e4, e5, e7, e8⟩ := SGLD.C34_langevin_step inp (order j) p.1 0 0 _ _ _ _ 1 1 1 1 0 _
    hc.tau hc.g hc.v hc.vec rfl rfl rfl (slope_grad order j _ _ _ _) rfl hmass hok.tau hok.pos one_pos
  rw [sd_sgld _ _ _ _ one_pos] at hsd
  have hsd' := Fl.fin_inj.1 hsd
  subst hsd'
  refine ⟨?_, ?_, fun hj => ?_, fun hj => ?_⟩
  · rw [hrun]; exact ⟨e2, e4, e5, e7⟩
  · rw [hrun]; exact e8
  · show (if (j : Int) < B then _ else p.2) 0 0 = _
    rw [if_pos hj]
    have hf : afterBurnIn B j = false := by unfold afterBurnIn; simp; omega
    rw [hf]
    exact e3
  · show (if (j : Int) < B then _ else p.2) = _
    rw [if_neg hj]

theorem slope_sample (order : Nat → SGLD.Schedule (Fin 1)) (k : Nat) (v : SGLD.State (Pos fun _ : Fin 1 => 1)) (x : ℝ)
    (h : (v.par 0).param 0 = .fin x) :
    sampleObj (fun _ : Fin 1 => []) (if ((k : Nat) : Int) < k then .many (arraysOf (slope order).graph v)
      else unravel (arraysOf (slope order).graph v)) = Obj.float true (.fin x) := by
  rw [if_neg (by omega)]
  have : arraysOf (slope order).graph v = [[.fin x]] := by
    show List.ofFn (fun i : Fin 1 => List.ofFn fun p : Fin 1 => (v.par i).param p) = _
    simp [h]
  rw [this]
  rfl

/-- **C98** is violated: `C98_recorded_partial` describes what is recorded instead.  On the cost `θ` without noise, the burnt-in sampler
would have gone on from where burn-in ended, but the recorded chain starts at the initial parameters. -/
theorem C98_burnin_violated (order : Nat → SGLD.Schedule (Fin 1)) (k N : Nat) (hk : 1 ≤ k) (hN : 1 ≤ N) (keep : Int) (i : Nat) :
    let U := slopeFactory order k
    let next := burnInNext (env slopeFeeder (slope order).graph fun _ => true) k 1
    ∃ (x y : ℝ) (own recorded : List Obj),
      (calls (asIter next) N (U.returned next i)).1.map (fun r => r.map fun p => sampleObj (fun _ : Fin 1 => []) p.1)
        = (Obj.float true (.fin x) :: own).map .ok
      ∧ (oneChain (U.world next fun _ : Fin 1 => []) N keep none i (i, none)).1 = mkTrace i (.seq (Obj.float true (.fin y) :: recorded)) (some ["x"])
      ∧ x < y := by
  intro U next
  obtain ⟨h1, h2⟩ := C98_recorded_partial U k (fun _ => []) N keep none i none (unitScript (k + N)) rfl rfl (fun _ _ _ _ => rfl)
  set own := seq (unitScript (k + N)) (slope order).graph k (U.start i) with hown
  have inv : ∀ j ≤ k, ∃ c : Coord, SGLDHas (own j).1 0 0 c ∧ BurnInStats.Ok c.tau c.g c.v ∧ c.pos ≤ 0
      ∧ (1 ≤ j → c.pos < 0 ∧ 0 < c.mass ∧ (own j).2 0 0 = .fin c.mass) := by
    intro j
    induction j with
    | zero =>
      intro _
      exact ⟨_, sgldHas_init (fun _ _ => 0) (fun _ _ => 0) 0 0, sgldChain_ok 1 1 0 (fun _ => 0) (fun _ => 0) (fun _ => 0) 0 0, le_rfl, fun h => absurd h (by omega)⟩
    | succ j ih =>
      intro hj
      obtain ⟨c, hc, hok, hpos, -⟩ := ih (by omega)
      have hf : afterBurnIn k j = false := by unfold afterBurnIn; simp; omega
      obtain ⟨s1, -, s2, -⟩ := slope_step order (N := k + N) k j (own j) c hc hok (fun h => by
        rw [show frozenAt (k : Int) j = afterBurnIn k j from rfl, hf] at h; cases h)
      have hm : 0 < c.massUsed (afterBurnIn k j) := by
        rw [hf]; unfold Coord.massUsed
        have := Real.sqrt_nonneg c.v
        simp only [Bool.false_eq_true, if_false]
        positivity
      have hp : (sgldStep 1 1 1 (afterBurnIn k j) 1 0 c).pos = c.pos - c.massUsed (afterBurnIn k j) := by
        simp [sgldStep]
      refine ⟨_, s1, averaged_ok hok 1, by rw [hp]; linarith, fun _ => ⟨by rw [hp]; linarith, hm, s2 (by omega)⟩⟩
  obtain ⟨c, hc, hok, -, hlast⟩ := inv k le_rfl
  obtain ⟨hneg, hmass, hst⟩ := hlast hk
  have hf : afterBurnIn k k = true := by unfold afterBurnIn; simp; omega
  -- one more step of the sampler, and the recorded step
  obtain ⟨-, s1, -⟩ := slope_step order (N := k + N) k k (own k) c hc hok (fun _ => hst)
  obtain ⟨-, t1, -⟩ := slope_step order (N := k + N) k k (U.reset i (own k).1, (own k).2) { Coord.start 0 with mass := c.mass }
    (by have := sgldHas_init (size := fun _ : Fin 1 => 1) (fun _ _ => 0) (fun _ _ => 0) 0 0; exact ⟨this.tau, this.g, this.v, this.vec⟩)
    (sgldChain_ok 1 1 0 (fun _ => 0) (fun _ => 0) (fun _ => 0) 0 0) (fun _ => hst)
  rw [hf] at s1 t1
  obtain ⟨N, rfl⟩ : ∃ N', N = N' + 1 := ⟨N - 1, by omega⟩
  rw [List.range_succ_eq_map] at h1 h2
  simp only [List.map_cons, List.map_map, Nat.add_zero] at h1 h2
  have tail : ∀ q : Nat → SGLD.State (Pos fun _ : Fin 1 => 1), ∃ l : List Obj, l = (List.range N).map fun j : Nat =>
      sampleObj (fun _ : Fin 1 => []) (if ((k + (j + 1) : Nat) : Int) < k then .many (arraysOf (slope order).graph (q (j + 1)))
        else unravel (arraysOf (slope order).graph (q (j + 1)))) := fun q => ⟨_, rfl⟩
  obtain ⟨l1, hl1⟩ := tail fun j => (own (k + j + 1)).1
  obtain ⟨l2, hl2⟩ := tail fun j => (seqFrom (unitScript (k + (N + 1))) (slope order).graph k k (U.reset i (own k).1, (own k).2) (j + 1)).1
  refine ⟨c.pos - c.mass, -c.mass, l1, l2, ?_, ?_, by linarith⟩
  · refine h1.trans ?_
    rw [hl1, List.map_cons, List.map_map]
    refine congrArg₂ List.cons ?_ rfl
    congr 1
    refine slope_sample order k _ _ ?_
    refine s1.trans ?_
    simp [sgldStep, Coord.massUsed]
  · refine h2.trans ?_
    rw [hl2]
    congr 2
    refine congrArg₂ List.cons ?_ rfl
    refine slope_sample order k _ _ ?_
    refine t1.trans ?_
    simp [sgldStep, Coord.massUsed, Coord.start]

end PySGMCMC.MultiTrace
