import Verif.Lemmas.Script
import Verif.Spec.FullChain
import Verif.Props.SGHMC
import Verif.Props.SGLD

/-!
# C88, C89: whole chains of SGHMC and SGLD samplers

From construction on, with any batches, any stepsizes, any execution orders of the runtime and any number of parameters of any
sizes: the samples returned by `next` are exactly the positions of the published recurrences.
-/

namespace PySGMCMC.SGHMC
variable {P : Type} [DecidableEq P] {ι : P → Type}

/-- In execution order `σ`, the new value of parameter `j` is there when the gradient of parameter `i` is evaluated. -/
def sees (σ : Schedule P) (i j : P) : Bool := decide (σ.order.idxOf (.op j .setParam) < σ.order.idxOf (.op i .xGrad))

theorem sees_rank (σ : Schedule P) (i j : P) (h : sees σ i j = true) :
    σ.order.idxOf (.op j .xGrad) < σ.order.idxOf (.op i .xGrad) := by
  have h0 : σ.order.idxOf (.op j .setParam) < σ.order.idxOf (.op i .xGrad) := by simpa [sees] using h
  obtain ⟨pre, post, horder⟩ := List.append_of_mem (σ.complete (.op j .setParam))
  have h1 : Node.op j .setG ∈ pre := σ.respects pre _ post horder _ (List.mem_map_of_mem (by decide))
  have h2 : Node.op j .xG ∈ pre := deps_mem σ horder h1 (List.mem_map_of_mem (by decide))
  have h3 : Node.op j .xGrad ∈ pre := deps_mem σ horder h2 (List.mem_map_of_mem (by decide))
  have h4 : σ.order.idxOf (.op j .xGrad) < σ.order.idxOf (.op j .setParam) := by
    have hnd := σ.nodup
    rw [horder] at hnd
    obtain ⟨-, -, hdisj⟩ := List.nodup_append.1 hnd
    rw [horder, List.idxOf_append_of_mem h3, List.idxOf_append_of_notMem fun h => hdisj _ h _ (by simp) rfl]
    exact Nat.lt_of_lt_of_le (List.idxOf_lt_length_of_mem h3) (Nat.le_add_right _ _)
  omega

theorem sees_self (σ : Schedule P) (i : P) : sees σ i i = false := by
  by_contra h
  exact absurd (sees_rank σ i i (by simpa using h)) (lt_irrefl _)

/-- What the gradient of a parameter sees depends on the execution order only. -/
theorem run_sees (inp : Inputs ι) (σ : Schedule P) (s : State ι) (i : P) : ((run inp σ s).par i).tGrad
    = inp.grad (fun j => if sees σ i j then (run inp σ s).params j else s.params j) i := by
  obtain ⟨pre, post, horder⟩ := List.append_of_mem (σ.complete (.op i .xGrad))
  rw [run_grad_at inp σ s i pre post horder]
  have hnd := σ.nodup
  rw [horder] at hnd
  obtain ⟨-, -, hdisj⟩ := List.nodup_append.1 hnd
  have e : σ.order.idxOf (.op i .xGrad) = pre.length := by
    rw [horder, List.idxOf_append_of_notMem fun h => hdisj _ h _ (by simp) rfl, List.idxOf_cons_self, Nat.add_zero]
  have h : ∀ j, (sees σ i j = true) = (Node.op j .setParam ∈ pre) := fun j => by
    unfold sees
    rw [decide_eq_true_eq, e, horder]
    apply propext
    constructor
    · intro h
      by_contra hn
      rw [List.idxOf_append_of_notMem hn] at h
      omega
    · intro h
      rw [List.idxOf_append_of_mem h]
      exact List.idxOf_lt_length_of_mem h
  simp only [h]

/-- Gradients can be treated in the order in which they are evaluated. -/
theorem run_grad_induct (inp : Inputs ι) (σ : Schedule P) (s : State ι) (Q : P → Prop)
    (h : ∀ i, ∀ isNew : P → Bool, isNew i = false → (∀ j, isNew j = true → Q j) →
      ((run inp σ s).par i).tGrad = inp.grad (fun j => if isNew j then (run inp σ s).params j else s.params j) i → Q i) (i : P) : Q i := by
  have key : ∀ (len : Nat) (i : P) (pre post : List (Node P)), pre.length = len → σ.order = pre ++ .op i .xGrad :: post → Q i := by
    intro len
    induction len using Nat.strong_induction_on with
    | _ len ih =>
      intro i pre post hlen horder
      have hnd := σ.nodup
      rw [horder] at hnd
      obtain ⟨-, -, hdisj⟩ := List.nodup_append.1 hnd
      have hgrad : ∀ j, Node.op j .setParam ∈ pre → Node.op j .xGrad ∈ pre := by
        intro j hm
        have h1 : Node.op j .setG ∈ pre := deps_mem σ horder hm (List.mem_map_of_mem (by decide))
        have h2 : Node.op j .xG ∈ pre := deps_mem σ horder h1 (List.mem_map_of_mem (by decide))
        exact deps_mem σ horder h2 (List.mem_map_of_mem (by decide))
      refine h i (fun j => decide (Node.op j .setParam ∈ pre)) ?_ ?_ ?_
      · simp only [decide_eq_false_iff_not]
        intro hm
        exact hdisj _ (hgrad i hm) _ (by simp) rfl
      · intro j hj
        obtain ⟨pre', post', hpre⟩ := List.append_of_mem (hgrad j (by simpa using hj))
        refine ih pre'.length ?_ j pre' (post' ++ .op i .xGrad :: post) rfl ?_
        · rw [← hlen, hpre]; simp
        · rw [horder, hpre]; simp
      · rw [run_grad_at inp σ s i pre post horder]
        simp only [decide_eq_true_eq]
  obtain ⟨pre, post, horder⟩ := List.append_of_mem (σ.complete (.op i .xGrad))
  exact key _ i pre post rfl horder

end PySGMCMC.SGHMC

namespace PySGMCMC.SGLD
variable {P : Type} [DecidableEq P] {ι : P → Type}

/-- In execution order `σ`, the new value of parameter `j` is there when the gradient of parameter `i` is evaluated. -/
def sees (σ : Schedule P) (i j : P) : Bool := decide (σ.order.idxOf (.op j .setParam) < σ.order.idxOf (.op i .xGrad))

theorem sees_rank (σ : Schedule P) (i j : P) (h : sees σ i j = true) :
    σ.order.idxOf (.op j .xGrad) < σ.order.idxOf (.op i .xGrad) := by
  have h0 : σ.order.idxOf (.op j .setParam) < σ.order.idxOf (.op i .xGrad) := by simpa [sees] using h
  obtain ⟨pre, post, horder⟩ := List.append_of_mem (σ.complete (.op j .setParam))
  have h1 : Node.op j .setG ∈ pre := σ.respects pre _ post horder _ (List.mem_map_of_mem (by decide))
  have h2 : Node.op j .xG ∈ pre := deps_mem σ horder h1 (List.mem_map_of_mem (by decide))
  have h3 : Node.op j .xGrad ∈ pre := deps_mem σ horder h2 (List.mem_map_of_mem (by decide))
  have h4 : σ.order.idxOf (.op j .xGrad) < σ.order.idxOf (.op j .setParam) := by
    have hnd := σ.nodup
    rw [horder] at hnd
    obtain ⟨-, -, hdisj⟩ := List.nodup_append.1 hnd
    rw [horder, List.idxOf_append_of_mem h3, List.idxOf_append_of_notMem fun h => hdisj _ h _ (by simp) rfl]
    exact Nat.lt_of_lt_of_le (List.idxOf_lt_length_of_mem h3) (Nat.le_add_right _ _)
  omega

theorem sees_self (σ : Schedule P) (i : P) : sees σ i i = false := by
  by_contra h
  exact absurd (sees_rank σ i i (by simpa using h)) (lt_irrefl _)

/-- What the gradient of a parameter sees depends on the execution order only. -/
theorem run_sees (inp : Inputs ι) (σ : Schedule P) (s : State ι) (i : P) : ((run inp σ s).par i).tGrad
    = inp.grad (fun j => if sees σ i j then (run inp σ s).params j else s.params j) i := by
  obtain ⟨pre, post, horder⟩ := List.append_of_mem (σ.complete (.op i .xGrad))
  rw [run_grad_at inp σ s i pre post horder]
  have hnd := σ.nodup
  rw [horder] at hnd
  obtain ⟨-, -, hdisj⟩ := List.nodup_append.1 hnd
  have e : σ.order.idxOf (.op i .xGrad) = pre.length := by
    rw [horder, List.idxOf_append_of_notMem fun h => hdisj _ h _ (by simp) rfl, List.idxOf_cons_self, Nat.add_zero]
  have h : ∀ j, (sees σ i j = true) = (Node.op j .setParam ∈ pre) := fun j => by
    unfold sees
    rw [decide_eq_true_eq, e, horder]
    apply propext
    constructor
    · intro h
      by_contra hn
      rw [List.idxOf_append_of_notMem hn] at h
      omega
    · intro h
      rw [List.idxOf_append_of_mem h]
      exact List.idxOf_lt_length_of_mem h
  simp only [h]

/-- Gradients can be treated in the order in which they are evaluated. -/
theorem run_grad_induct (inp : Inputs ι) (σ : Schedule P) (s : State ι) (Q : P → Prop)
    (h : ∀ i, ∀ isNew : P → Bool, isNew i = false → (∀ j, isNew j = true → Q j) →
      ((run inp σ s).par i).tGrad = inp.grad (fun j => if isNew j then (run inp σ s).params j else s.params j) i → Q i) (i : P) : Q i := by
  have key : ∀ (len : Nat) (i : P) (pre post : List (Node P)), pre.length = len → σ.order = pre ++ .op i .xGrad :: post → Q i := by
    intro len
    induction len using Nat.strong_induction_on with
    | _ len ih =>
      intro i pre post hlen horder
      have hnd := σ.nodup
      rw [horder] at hnd
      obtain ⟨-, -, hdisj⟩ := List.nodup_append.1 hnd
      have hgrad : ∀ j, Node.op j .setParam ∈ pre → Node.op j .xGrad ∈ pre := by
        intro j hm
        have h1 : Node.op j .setG ∈ pre := deps_mem σ horder hm (List.mem_map_of_mem (by decide))
        have h2 : Node.op j .xG ∈ pre := deps_mem σ horder h1 (List.mem_map_of_mem (by decide))
        exact deps_mem σ horder h2 (List.mem_map_of_mem (by decide))
      refine h i (fun j => decide (Node.op j .setParam ∈ pre)) ?_ ?_ ?_
      · simp only [decide_eq_false_iff_not]
        intro hm
        exact hdisj _ (hgrad i hm) _ (by simp) rfl
      · intro j hj
        obtain ⟨pre', post', hpre⟩ := List.append_of_mem (hgrad j (by simpa using hj))
        refine ih pre'.length ?_ j pre' (post' ++ .op i .xGrad :: post) rfl ?_
        · rw [← hlen, hpre]; simp
        · rw [horder, hpre]; simp
      · rw [run_grad_at inp σ s i pre post horder]
        simp only [decide_eq_true_eq]
  obtain ⟨pre, post, horder⟩ := List.append_of_mem (σ.complete (.op i .xGrad))
  exact key _ i pre post rfl horder

end PySGMCMC.SGLD

namespace PySGMCMC.Chain
open SamplerBase BurnInStats Spec

variable {n : Nat} {size : Fin n → Nat}

/-- What the sampler is used with: `γ k` is the gradient of the cost on batch `k` and `cost k` the cost on batch `k`, at real
parameters; the user's graph accepts the batches. -/
structure Problem {F : Feeder} {N : Nat} (S : Script F N) (grad : Dict Key Arr → (∀ i, Pos size i → Fl) → ∀ i, Pos size i → Fl)
    (cost : Dict Key Arr → (∀ i, Pos size i → Fl) → Fl) (ok : Dict Key Arr → Bool) where
  γ : Nat → (∀ i, Pos size i → ℝ) → ∀ i, Pos size i → ℝ
  c : Nat → (∀ i, Pos size i → ℝ) → Fl
  grad_eq : ∀ k < N, ∀ d, (∀ p, d (.ph p) = S.data k (.ph p)) → ∀ θ i p, grad d (fun i p => .fin (θ i p)) i p = .fin (γ k θ i p)
  cost_eq : ∀ k < N, ∀ d, (∀ p, d (.ph p) = S.data k (.ph p)) → ∀ θ, cost d (fun i p => .fin (θ i p)) = c k θ
  accepts : ∀ k < N, ∀ d, (∀ p, d (.ph p) = S.data k (.ph p)) → ok d = true

/-- Between two samples: every parameter has its old or its new value. -/
def mix (isNew : Fin n → Bool) (new old : ∀ i, Pos size i → ℝ) : ∀ i, Pos size i → ℝ :=
  fun j => if isNew j then new j else old j

theorem mix_fin (isNew : Fin n → Bool) (new old : ∀ i, Pos size i → ℝ) (new' : ∀ i, Pos size i → Fl)
    (h : ∀ j, isNew j = true → new' j = fun p => .fin (new j p)) :
    (fun j => if isNew j then new' j else fun p => Fl.fin (old j p)) = fun i p => Fl.fin (mix isNew new old i p) := by
  funext j p
  unfold mix
  by_cases hj : isNew j = true
  · simp only [hj, if_true, h j hj]
  · simp only [hj]; rfl

theorem sd_sghmc (eps alpha scale m : ℝ) (hs : 0 < scale) :
    SGHMC.sigma (SGHMC.epsilonScaled (.fin eps) (.fin scale)) (.fin alpha) (.fin m) = .fin (sghmcSd eps alpha scale m) := by
  obtain ⟨sd, h1, h2, h3, h4⟩ := SGHMC.C32_noise eps alpha scale m hs
  rw [h1]
  congr 1
  unfold sghmcSd
  simp only
  rcases lt_or_ge (1e-16) (2 * (eps / √scale) ^ 2 * alpha * m - (eps / √scale) ^ 4) with h | h
  · rw [max_eq_left h.le, ← h3 h, Real.sqrt_sq h2.le]
  · rw [max_eq_right h, ← h4 h, Real.sqrt_sq h2.le]

theorem sd_sgld (eps a scale m : ℝ) (hs : 0 < scale) :
    SGLD.sigma (.fin eps) (.fin a) (.fin scale) (.fin m) = .fin (sgldSd eps a scale m) := by
  obtain ⟨sd, h1, h2, h3, h4⟩ := SGLD.C34_noise eps a scale m hs
  rw [h1]
  congr 1
  unfold sgldSd
  rcases lt_or_ge (2 * eps * m * a / (scale + 3e-16)) 0 with h | h
  · rw [h4 h, Real.sqrt_eq_zero_of_nonpos h.le]
  · rw [← h3 h, Real.sqrt_sq h2]

/-- The averages stay well-defined. -/
theorem averaged_ok {c : Coord} (h : Ok c.tau c.g c.v) (x : ℝ) : Ok (c.averaged x).tau (c.averaged x).g (c.averaged x).v := by
  have := ok_step h x
  have hc : (3e-16 : ℝ) = 3 * c16 := by unfold c16; norm_num
  convert this using 1
  · simp only [Coord.averaged, hc]; ring
  · simp only [Coord.averaged]; ring
  · simp only [Coord.averaged]; ring

theorem sghmcChain_ok (alpha scale : ℝ) (B : Int) (eps x z : Nat → ℝ) (th : ℝ) (k : Nat) :
    Ok (sghmcChain alpha scale B eps x z th k).tau (sghmcChain alpha scale B eps x z th k).g (sghmcChain alpha scale B eps x z th k).v := by
  induction k with
  | zero => exact ok_init
  | succ k ih => exact averaged_ok ih (x k)

theorem sgldChain_ok (a scale : ℝ) (B : Int) (eps x z : Nat → ℝ) (th : ℝ) (k : Nat) :
    Ok (sgldChain a scale B eps x z th k).tau (sgldChain a scale B eps x z th k).g (sgldChain a scale B eps x z th k).v := by
  induction k with
  | zero => exact ok_init
  | succ k ih => exact averaged_ok ih (x k)

/-- A chain only depends on the gradients so far. -/
theorem sghmcChain_congr (alpha scale : ℝ) (B : Int) (eps : Nat → ℝ) {x x' : Nat → ℝ} (z : Nat → ℝ) (th : ℝ) (k : Nat)
    (h : ∀ j < k, x j = x' j) : sghmcChain alpha scale B eps x z th k = sghmcChain alpha scale B eps x' z th k := by
  induction k with
  | zero => rfl
  | succ k ih => simp only [sghmcChain]; rw [ih fun j hj => h j (by omega), h k (by omega)]

theorem sgldChain_congr (a scale : ℝ) (B : Int) (eps : Nat → ℝ) {x x' : Nat → ℝ} (z : Nat → ℝ) (th : ℝ) (k : Nat)
    (h : ∀ j < k, x j = x' j) : sgldChain a scale B eps x z th k = sgldChain a scale B eps x' z th k := by
  induction k with
  | zero => rfl
  | succ k ih => simp only [sgldChain]; rw [ih fun j hj => h j (by omega), h k (by omega)]

/-- A coordinate of the SGHMC graph has the values of a specified coordinate. -/
structure SGHMCHas (s : SGHMC.State (Pos size)) (i : Fin n) (p : Pos size i) (c : Coord) : Prop where
  tau : (s.par i).tau p = .fin c.tau
  g : (s.par i).g p = .fin c.g
  v : (s.par i).vhat p = .fin c.v
  mom : (s.par i).mom p = .fin c.mom
  vec : (s.par i).vec p = .fin c.pos

theorem sghmcHas_init (θ θ0 : ∀ i, Pos size i → ℝ) (i : Fin n) (p : Pos size i) :
    SGHMCHas (SGHMC.State.start (fun i p => .fin (θ i p)) fun i p => .fin (θ0 i p)) i p (.start (θ i p)) := by
  have h := Stats.init_eq
  simp only [Stats.init, Stats.mk.injEq] at h
  exact ⟨h.1, h.2.2.1, h.2.2.2.1, Fl.ofNat_zero, rfl⟩

/-- The recurrence that every coordinate follows, with the gradients that the execution orders lead to. -/
theorem sghmc_restart_sees {F : Feeder} {N : Nat} (S : Script F N) (W : SGHMCWorld size) (ok : Dict Key Arr → Bool)
    (Pb : Problem S W.grad W.cost ok) (alpha scale : ℝ) (hα : W.mdecay = .fin alpha) (hsc : W.scaleGrad = .fin scale) (hs : 0 < scale)
    (z : Nat → ∀ i, Pos size i → ℝ) (hz : ∀ k i p, W.normal k i p = .fin (z k i p)) (B : Int) (θ θ0 : ∀ i, Pos size i → ℝ) (eps0 : Fl) :
    ∃ (x : Nat → ∀ i, Pos size i → ℝ) (cost : Nat → Fl),
      let θs : Nat → ∀ i, Pos size i → ℝ := fun k i p =>
        (sghmcChain alpha scale B S.eps (fun j => x j i p) (fun j => z j i p) (θ i p) k).pos
      (calls (asIter (burnInNext (env F W.graph ok) B n)) N
          (init (S.batch 0) (S.sched 0) ⟨SGHMC.State.start (fun i p => .fin (θ i p)) fun i p => .fin (θ0 i p), eps0, 0⟩)).1
        = (List.range N).map (fun k : Nat =>
            let arrays := List.ofFn fun i => flat fun p => .fin (θs (k + 1) i p)
            .ok ((if (k : Int) < B then .many arrays else unravel arrays), cost k))
      ∧ ∀ k < N,
        (∀ i, x k i = Pb.γ k (mix (SGHMC.sees (W.order k) i) (θs (k + 1)) (before θ0 θs k)) i)
        ∧ ∃ isNew : Fin n → Bool, cost k = Pb.c k (mix isNew (θs (k + 1)) (before θ0 θs k)) := by
  classical
  set s0 : SGHMC.State (Pos size) := SGHMC.State.start (fun i p => .fin (θ i p)) fun i p => .fin (θ0 i p) with hs0
  set q := seq S W.graph B s0 with hq
  -- the gradients that were evaluated
  let x : Nat → ∀ i, Pos size i → ℝ := fun k i p => match ((q (k + 1)).1.par i).tGrad p with
    | .fin r => r
    | _ => 0
  let θs : Nat → ∀ i, Pos size i → ℝ := fun k i p =>
    (sghmcChain alpha scale B S.eps (fun j => x j i p) (fun j => z j i p) (θ i p) k).pos
  have hph : ∀ k < N, ∀ p, feedAt S B k (q k).2 (.ph p) = S.data k (.ph p) := fun k _ p => feedAt_ph S B k _ p
  -- invariant
  have inv : ∀ k ≤ N, (∀ i p, SGHMCHas (q k).1 i p (sghmcChain alpha scale B S.eps (fun j => x j i p) (fun j => z j i p) (θ i p) k))
      ∧ (0 < k → 0 < B → ∀ i p, (q k).2 i p = .fin (sghmcChain alpha scale B S.eps (fun j => x j i p) (fun j => z j i p) (θ i p) k).mass)
      ∧ (∀ m, m + 1 = k → ∀ i, ((q k).1.par i).tGrad = fun p => .fin (x m i p))
      ∧ (q k).1.params = fun j p => Fl.fin (before θ0 θs k j p) := by
    intro k
    induction k with
    | zero =>
      intro _
      refine ⟨fun i p => ?_, fun h => absurd h (by omega), fun m hm => absurd hm (by omega), rfl⟩
      exact sghmcHas_init θ θ0 i p
    | succ k ih =>
      intro hk
      obtain ⟨ih1, ih2, -, hold⟩ := ih (by omega)
      have hrun : (q (k + 1)).1 = SGHMC.run (W.inputs k (.fin (S.eps k)) (fedAt B k (q k).2) (feedAt S B k (q k).2)) (W.order k) (q k).1 := rfl
      set inp := W.inputs k (.fin (S.eps k)) (fedAt B k (q k).2) (feedAt S B k (q k).2) with hinp
      have hmass : ∀ i p, SGHMC.MassUsed inp i p (sghmcChain alpha scale B S.eps (fun j => x j i p) (fun j => z j i p) (θ i p) k).v
          ((sghmcChain alpha scale B S.eps (fun j => x j i p) (fun j => z j i p) (θ i p) k).massUsed (afterBurnIn B k)) := by
        intro i p
        unfold Coord.massUsed
        by_cases hf : afterBurnIn B k = true
        · rw [if_pos hf]
          have hf' : frozenAt B k = true := hf
          have hk0 : 0 < B ∧ B ≤ k := by simpa [afterBurnIn] using hf
          refine .inr ⟨(q k).2 i, ?_, ih2 (by omega) hk0.1 i p⟩
          show fedAt B k (q k).2 i = _
          unfold fedAt; rw [if_pos hf']
        · rw [if_neg hf]
          refine .inl ⟨?_, rfl⟩
          show fedAt B k (q k).2 i = _
          unfold fedAt; rw [if_neg (show ¬ frozenAt B k = true from hf)]
      have step : ∀ i p y, ((SGHMC.run inp (W.order k) (q k).1).par i).tGrad p = .fin y →
          let c := sghmcStep (S.eps k) alpha scale (afterBurnIn B k) y (z k i p)
            (sghmcChain alpha scale B S.eps (fun j => x j i p) (fun j => z j i p) (θ i p) k)
          SGHMCHas (SGHMC.run inp (W.order k) (q k).1) i p c
          ∧ ((SGHMC.run inp (W.order k) (q k).1).par i).minv p
            = .fin (1 / (√(sghmcChain alpha scale B S.eps (fun j => x j i p) (fun j => z j i p) (θ i p) k).v + 3e-16))
          ∧ ((SGHMC.run inp (W.order k) (q k).1).par i).param p = .fin c.pos := by
        intro i p y hy c
        have hh := ih1 i p
        have hok := sghmcChain_ok alpha scale B S.eps (fun j => x j i p) (fun j => z j i p) (θ i p) k
        obtain ⟨sd, hsd, -, e2, e3, e4, e5, e6, e7, e8⟩ := SGHMC.C31_equation10 inp (W.order k) (q k).1 i p _ _ _ _ _ (S.eps k) alpha scale y (z k i p) _
          hh.tau hh.g hh.v hh.mom hh.vec rfl hα hsc hy (hz k i p) (hmass i p) hok.tau hok.pos hs
        rw [sd_sghmc _ _ _ _ hs] at hsd
        have hsd' := Fl.fin_inj.1 hsd
        subst hsd'
        exact ⟨⟨e2, e4, e5, e6, e7⟩, e3, e8⟩
      -- all gradients are finite
      have hfin : ∀ i, ((SGHMC.run inp (W.order k) (q k).1).par i).tGrad = fun p => .fin (x k i p) := by
        apply SGHMC.run_grad_induct inp (W.order k) (q k).1
        intro i isNew _ hnew hg
        rw [hold] at hg
        have hnew' : ∀ j, isNew j = true → (SGHMC.run inp (W.order k) (q k).1).params j = fun p => .fin (θs (k + 1) j p) := by
          intro j hj
          funext p
          exact (step j p _ (congrFun (hnew j hj) p)).2.2
        rw [mix_fin isNew (θs (k + 1)) (before θ0 θs k) _ hnew'] at hg
        funext p
        have hv : ((SGHMC.run inp (W.order k) (q k).1).par i).tGrad p = .fin (Pb.γ k (mix isNew (θs (k + 1)) (before θ0 θs k)) i p) := by
          rw [hg]; exact Pb.grad_eq k (by omega) _ (hph k (by omega)) _ i p
        have hx : x k i p = Pb.γ k (mix isNew (θs (k + 1)) (before θ0 θs k)) i p := by
          show (match ((q (k + 1)).1.par i).tGrad p with | .fin r => r | _ => 0) = _
          rw [hrun, hv]
        rw [hv, hx]
      refine ⟨fun i p => ?_, fun _ hB i p => ?_, fun m hm i => ?_, ?_⟩
      · rw [hrun]; exact (step i p _ (congrFun (hfin i) p)).1
      · show (if (k : Int) < B then W.graph.minv (q (k + 1)).1 else (q k).2) i p = .fin (Coord.massUsed (afterBurnIn B k) _)
        by_cases hkB : (k : Int) < B
        · rw [if_pos hkB]
          show ((q (k + 1)).1.par i).minv p = _
          rw [hrun, (step i p _ (congrFun (hfin i) p)).2.1]
          have hf : afterBurnIn B k = false := by unfold afterBurnIn; simp; omega
          rw [hf]; rfl
        · rw [if_neg hkB]
          have hf : afterBurnIn B k = true := by unfold afterBurnIn; simp; omega
          rw [hf, ih2 (by omega) hB i p]; rfl
      · have : m = k := by omega
        subst this
        rw [hrun]; exact hfin i
      · funext j p
        rw [hrun]; exact (step j p _ (congrFun (hfin j) p)).2.2
  have hpar : ∀ k ≤ N, (q k).1.params = fun j p => Fl.fin (before θ0 θs k j p) := fun k hk => (inv k hk).2.2.2
  have hpar' : ∀ k < N, (q (k + 1)).1.params = fun j p => Fl.fin (θs (k + 1) j p) := fun k hk => hpar (k + 1) hk
  refine ⟨x, fun k => W.graph.cost (q (k + 1)).1, ?_, fun k hk => ⟨fun i => ?_, ?_⟩⟩
  · rw [calls_script S W.graph ok B s0 eps0 (fun k hk => Pb.accepts k hk _ (hph k hk)) N le_rfl]
    apply List.map_congr_left
    intro k hk
    have hk' : k < N := List.mem_range.1 hk
    have : paramsAt S W.graph B s0 k = List.ofFn fun i => flat fun p => .fin (θs (k + 1) i p) := by
      unfold paramsAt
      congr 1
      funext i
      congr 1
      exact congrFun (hpar' k hk') i
    rw [this]
  · have hrun : (q (k + 1)).1 = SGHMC.run (W.inputs k (.fin (S.eps k)) (fedAt B k (q k).2) (feedAt S B k (q k).2)) (W.order k) (q k).1 := rfl
    have hg := SGHMC.run_sees (W.inputs k (.fin (S.eps k)) (fedAt B k (q k).2) (feedAt S B k (q k).2)) (W.order k) (q k).1 i
    rw [← hrun, hpar k (by omega), hpar' k hk] at hg
    rw [mix_fin (SGHMC.sees (W.order k) i) (θs (k + 1)) (before θ0 θs k) _ (fun _ _ => rfl), (inv (k + 1) (by omega)).2.2.1 k rfl i] at hg
    funext p
    have := congrFun hg p
    rw [show (W.inputs k (.fin (S.eps k)) (fedAt B k (q k).2) (feedAt S B k (q k).2)).grad = W.grad (feedAt S B k (q k).2) from rfl,
      Pb.grad_eq k hk _ (hph k hk)] at this
    exact Fl.fin_inj.1 this
  · have hrun : (q (k + 1)).1 = SGHMC.run (W.inputs k (.fin (S.eps k)) (fedAt B k (q k).2) (feedAt S B k (q k).2)) (W.order k) (q k).1 := rfl
    obtain ⟨isNew, hc⟩ := SGHMC.run_cost (W.inputs k (.fin (S.eps k)) (fedAt B k (q k).2) (feedAt S B k (q k).2)) (W.order k) (q k).1
    rw [← hrun, hpar k (by omega), hpar' k hk, mix_fin isNew (θs (k + 1)) (before θ0 θs k) _ (fun _ _ => rfl)] at hc
    refine ⟨isNew, hc.trans ?_⟩
    exact Pb.cost_eq k hk _ (hph k hk) _

/-- **C99** (what holds) Every coordinate of an SGHMC chain follows the recurrence from the value `θ` of the sampler's working copy; before the first step the
target parameters have the values `θ0`, afterwards those of the working copy. -/
theorem C99_sghmc_restart_partial {F : Feeder} {N : Nat} (S : Script F N) (W : SGHMCWorld size) (ok : Dict Key Arr → Bool)
    (Pb : Problem S W.grad W.cost ok) (alpha scale : ℝ) (hα : W.mdecay = .fin alpha) (hsc : W.scaleGrad = .fin scale) (hs : 0 < scale)
    (z : Nat → ∀ i, Pos size i → ℝ) (hz : ∀ k i p, W.normal k i p = .fin (z k i p)) (B : Int) (θ θ0 : ∀ i, Pos size i → ℝ) (eps0 : Fl) :
    ∃ (x : Nat → ∀ i, Pos size i → ℝ) (cost : Nat → Fl),
      let θs : Nat → ∀ i, Pos size i → ℝ := fun k i p =>
        (sghmcChain alpha scale B S.eps (fun j => x j i p) (fun j => z j i p) (θ i p) k).pos
      (calls (asIter (burnInNext (env F W.graph ok) B n)) N
          (init (S.batch 0) (S.sched 0) ⟨SGHMC.State.start (fun i p => .fin (θ i p)) fun i p => .fin (θ0 i p), eps0, 0⟩)).1
        = (List.range N).map (fun k : Nat =>
            let arrays := List.ofFn fun i => flat fun p => .fin (θs (k + 1) i p)
            .ok ((if (k : Int) < B then .many arrays else unravel arrays), cost k))
      ∧ ∀ k < N,
        (∀ i, ∃ isNew : Fin n → Bool, isNew i = false ∧ x k i = Pb.γ k (mix isNew (θs (k + 1)) (before θ0 θs k)) i)
        ∧ ∃ isNew : Fin n → Bool, cost k = Pb.c k (mix isNew (θs (k + 1)) (before θ0 θs k)) := by
  obtain ⟨x, cost, h, hx⟩ := sghmc_restart_sees S W ok Pb alpha scale hα hsc hs z hz B θ θ0 eps0
  exact ⟨x, cost, h, fun k hk => ⟨fun i => ⟨_, SGHMC.sees_self _ i, (hx k hk).1 i⟩, (hx k hk).2⟩⟩

/-- **C88** Every coordinate of an SGHMC chain follows the published recurrence. -/
theorem C88_sghmc_chain {F : Feeder} {N : Nat} (S : Script F N) (W : SGHMCWorld size) (ok : Dict Key Arr → Bool)
    (Pb : Problem S W.grad W.cost ok) (alpha scale : ℝ) (hα : W.mdecay = .fin alpha) (hsc : W.scaleGrad = .fin scale) (hs : 0 < scale)
    (z : Nat → ∀ i, Pos size i → ℝ) (hz : ∀ k i p, W.normal k i p = .fin (z k i p)) (B : Int) (θ : ∀ i, Pos size i → ℝ) (eps0 : Fl) :
    ∃ (x : Nat → ∀ i, Pos size i → ℝ) (cost : Nat → Fl),
      let θs : Nat → ∀ i, Pos size i → ℝ := fun k i p =>
        (sghmcChain alpha scale B S.eps (fun j => x j i p) (fun j => z j i p) (θ i p) k).pos
      (calls (asIter (burnInNext (env F W.graph ok) B n)) N
          (init (S.batch 0) (S.sched 0) ⟨SGHMC.State.init fun i p => .fin (θ i p), eps0, 0⟩)).1
        = (List.range N).map (fun k : Nat =>
            let arrays := List.ofFn fun i => flat fun p => .fin (θs (k + 1) i p)
            .ok ((if (k : Int) < B then .many arrays else unravel arrays), cost k))
      ∧ ∀ k < N,
        (∀ i, ∃ isNew : Fin n → Bool, isNew i = false ∧ x k i = Pb.γ k (mix isNew (θs (k + 1)) (θs k)) i)
        ∧ ∃ isNew : Fin n → Bool, cost k = Pb.c k (mix isNew (θs (k + 1)) (θs k)) := by
  have h0 : ∀ θs : Nat → ∀ i, Pos size i → ℝ, θs 0 = θ → before θ θs = θs := before_eq θ
  obtain ⟨x, cost, h, hx⟩ := C99_sghmc_restart_partial S W ok Pb alpha scale hα hsc hs z hz B θ θ eps0
  refine ⟨x, cost, h, ?_⟩
  rw [h0 _ rfl] at hx
  exact hx

/-- **C88** If the gradient of each parameter depends on that parameter only (always true for a single parameter, of any
size), the samples are a function of start, batches, stepsizes and normal draws. -/
theorem C88_sghmc_deterministic {F : Feeder} {N : Nat} (S : Script F N) (W : SGHMCWorld size) (ok : Dict Key Arr → Bool)
    (Pb : Problem S W.grad W.cost ok) (alpha scale : ℝ) (hα : W.mdecay = .fin alpha) (hsc : W.scaleGrad = .fin scale) (hs : 0 < scale)
    (z : Nat → ∀ i, Pos size i → ℝ) (hz : ∀ k i p, W.normal k i p = .fin (z k i p)) (B : Int) (θ : ∀ i, Pos size i → ℝ) (eps0 : Fl)
    (hsep : ∀ k < N, ∀ i θ θ', θ i = θ' i → Pb.γ k θ i = Pb.γ k θ' i) :
    ∃ cost : Nat → Fl,
      (calls (asIter (burnInNext (env F W.graph ok) B n)) N
          (init (S.batch 0) (S.sched 0) ⟨SGHMC.State.init fun i p => .fin (θ i p), eps0, 0⟩)).1
        = (List.range N).map (fun k : Nat =>
            let arrays := List.ofFn fun i => flat fun p => .fin (sghmcVec alpha scale B S.eps Pb.γ z θ (k + 1) i p).pos
            .ok ((if (k : Int) < B then .many arrays else unravel arrays), cost k)) := by
  obtain ⟨x, cost, h, hx⟩ := C88_sghmc_chain S W ok Pb alpha scale hα hsc hs z hz B θ eps0
  refine ⟨cost, ?_⟩
  have key : ∀ k ≤ N, ∀ i p, sghmcVec alpha scale B S.eps Pb.γ z θ k i p
      = sghmcChain alpha scale B S.eps (fun j => x j i p) (fun j => z j i p) (θ i p) k := by
    intro k
    induction k with
    | zero => intro _ i p; rfl
    | succ k ih =>
      intro hk i p
      obtain ⟨isNew, h0, hxk⟩ := (hx k (by omega)).1 i
      simp only [sghmcVec, sghmcChain]
      rw [ih (by omega) i p]
      congr 1
      rw [hxk]
      refine congrFun (hsep k (by omega) i _ _ ?_) p
      funext r
      simp only [mix, h0]
      exact congrArg Coord.pos (ih (by omega) i r)
  rw [h]
  apply List.map_congr_left
  intro k hk
  have hk' : k < N := List.mem_range.1 hk
  have e : ∀ i p, (sghmcVec alpha scale B S.eps Pb.γ z θ (k + 1) i p).pos
      = (sghmcChain alpha scale B S.eps (fun j => x j i p) (fun j => z j i p) (θ i p) (k + 1)).pos := by
    intro i p; rw [key (k + 1) hk']
  simp only [e]

/-- A coordinate of the SGLD graph has the values of a specified coordinate. -/
structure SGLDHas (s : SGLD.State (Pos size)) (i : Fin n) (p : Pos size i) (c : Coord) : Prop where
  tau : (s.par i).tau p = .fin c.tau
  g : (s.par i).g p = .fin c.g
  v : (s.par i).vhat p = .fin c.v
  vec : (s.par i).vec p = .fin c.pos

theorem sgldHas_init (θ θ0 : ∀ i, Pos size i → ℝ) (i : Fin n) (p : Pos size i) :
    SGLDHas (SGLD.State.start (fun i p => .fin (θ i p)) fun i p => .fin (θ0 i p)) i p (.start (θ i p)) := by
  have h := Stats.init_eq
  simp only [Stats.init, Stats.mk.injEq] at h
  exact ⟨h.1, h.2.2.1, h.2.2.2.1, rfl⟩

/-- The recurrence that every coordinate follows, with the gradients that the execution orders lead to. -/
theorem sgld_restart_sees {F : Feeder} {N : Nat} (S : Script F N) (W : SGLDWorld size) (ok : Dict Key Arr → Bool)
    (Pb : Problem S W.grad W.cost ok) (a scale : ℝ) (ha : W.a = .fin a) (hsc : W.scaleGrad = .fin scale) (hs : 0 < scale)
    (z : Nat → ∀ i, Pos size i → ℝ) (hz : ∀ k i p, W.normal k i p = .fin (z k i p)) (B : Int) (θ θ0 : ∀ i, Pos size i → ℝ) (eps0 : Fl) :
    ∃ (x : Nat → ∀ i, Pos size i → ℝ) (cost : Nat → Fl),
      let θs : Nat → ∀ i, Pos size i → ℝ := fun k i p =>
        (sgldChain a scale B S.eps (fun j => x j i p) (fun j => z j i p) (θ i p) k).pos
      (calls (asIter (burnInNext (env F W.graph ok) B n)) N
          (init (S.batch 0) (S.sched 0) ⟨SGLD.State.start (fun i p => .fin (θ i p)) fun i p => .fin (θ0 i p), eps0, 0⟩)).1
        = (List.range N).map (fun k : Nat =>
            let arrays := List.ofFn fun i => flat fun p => .fin (θs (k + 1) i p)
            .ok ((if (k : Int) < B then .many arrays else unravel arrays), cost k))
      ∧ ∀ k < N,
        (∀ i, x k i = Pb.γ k (mix (SGLD.sees (W.order k) i) (θs (k + 1)) (before θ0 θs k)) i)
        ∧ ∃ isNew : Fin n → Bool, cost k = Pb.c k (mix isNew (θs (k + 1)) (before θ0 θs k)) := by
  classical
  set s0 : SGLD.State (Pos size) := SGLD.State.start (fun i p => .fin (θ i p)) fun i p => .fin (θ0 i p) with hs0
  set q := seq S W.graph B s0 with hq
  -- the gradients that were evaluated
  let x : Nat → ∀ i, Pos size i → ℝ := fun k i p => match ((q (k + 1)).1.par i).tGrad p with
    | .fin r => r
    | _ => 0
  let θs : Nat → ∀ i, Pos size i → ℝ := fun k i p =>
    (sgldChain a scale B S.eps (fun j => x j i p) (fun j => z j i p) (θ i p) k).pos
  have hph : ∀ k < N, ∀ p, feedAt S B k (q k).2 (.ph p) = S.data k (.ph p) := fun k _ p => feedAt_ph S B k _ p
  -- invariant
  have inv : ∀ k ≤ N, (∀ i p, SGLDHas (q k).1 i p (sgldChain a scale B S.eps (fun j => x j i p) (fun j => z j i p) (θ i p) k))
      ∧ (0 < k → 0 < B → ∀ i p, (q k).2 i p = .fin (sgldChain a scale B S.eps (fun j => x j i p) (fun j => z j i p) (θ i p) k).mass)
      ∧ (∀ m, m + 1 = k → ∀ i, ((q k).1.par i).tGrad = fun p => .fin (x m i p))
      ∧ (q k).1.params = fun j p => Fl.fin (before θ0 θs k j p) := by
    intro k
    induction k with
    | zero =>
      intro _
      refine ⟨fun i p => ?_, fun h => absurd h (by omega), fun m hm => absurd hm (by omega), rfl⟩
      exact sgldHas_init θ θ0 i p
    | succ k ih =>
      intro hk
      obtain ⟨ih1, ih2, -, hold⟩ := ih (by omega)
      have hrun : (q (k + 1)).1 = SGLD.run (W.inputs k (.fin (S.eps k)) (fedAt B k (q k).2) (feedAt S B k (q k).2)) (W.order k) (q k).1 := rfl
      set inp := W.inputs k (.fin (S.eps k)) (fedAt B k (q k).2) (feedAt S B k (q k).2) with hinp
      have hmass : ∀ i p, SGLD.MassUsed inp i p (sgldChain a scale B S.eps (fun j => x j i p) (fun j => z j i p) (θ i p) k).v
          ((sgldChain a scale B S.eps (fun j => x j i p) (fun j => z j i p) (θ i p) k).massUsed (afterBurnIn B k)) := by
        intro i p
        unfold Coord.massUsed
        by_cases hf : afterBurnIn B k = true
        · rw [if_pos hf]
          have hf' : frozenAt B k = true := hf
          have hk0 : 0 < B ∧ B ≤ k := by simpa [afterBurnIn] using hf
          refine .inr ⟨(q k).2 i, ?_, ih2 (by omega) hk0.1 i p⟩
          show fedAt B k (q k).2 i = _
          unfold fedAt; rw [if_pos hf']
        · rw [if_neg hf]
          refine .inl ⟨?_, rfl⟩
          show fedAt B k (q k).2 i = _
          unfold fedAt; rw [if_neg (show ¬ frozenAt B k = true from hf)]
      have step : ∀ i p y, ((SGLD.run inp (W.order k) (q k).1).par i).tGrad p = .fin y →
          let c := sgldStep (S.eps k) a scale (afterBurnIn B k) y (z k i p)
            (sgldChain a scale B S.eps (fun j => x j i p) (fun j => z j i p) (θ i p) k)
          SGLDHas (SGLD.run inp (W.order k) (q k).1) i p c
          ∧ ((SGLD.run inp (W.order k) (q k).1).par i).minv p
            = .fin (1 / (√(sgldChain a scale B S.eps (fun j => x j i p) (fun j => z j i p) (θ i p) k).v + 3e-16))
          ∧ ((SGLD.run inp (W.order k) (q k).1).par i).param p = .fin c.pos := by
        intro i p y hy c
        have hh := ih1 i p
        have hok := sgldChain_ok a scale B S.eps (fun j => x j i p) (fun j => z j i p) (θ i p) k
        obtain ⟨sd, hsd, -, e2, e3, e4, e5, e7, e8⟩ := SGLD.C34_langevin_step inp (W.order k) (q k).1 i p _ _ _ _ (S.eps k) a scale y (z k i p) _
          hh.tau hh.g hh.v hh.vec rfl ha hsc hy (hz k i p) (hmass i p) hok.tau hok.pos hs
        rw [sd_sgld _ _ _ _ hs] at hsd
        have hsd' := Fl.fin_inj.1 hsd
        subst hsd'
        exact ⟨⟨e2, e4, e5, e7⟩, e3, e8⟩
      -- all gradients are finite
      have hfin : ∀ i, ((SGLD.run inp (W.order k) (q k).1).par i).tGrad = fun p => .fin (x k i p) := by
        apply SGLD.run_grad_induct inp (W.order k) (q k).1
        intro i isNew _ hnew hg
        rw [hold] at hg
        have hnew' : ∀ j, isNew j = true → (SGLD.run inp (W.order k) (q k).1).params j = fun p => .fin (θs (k + 1) j p) := by
          intro j hj
          funext p
          exact (step j p _ (congrFun (hnew j hj) p)).2.2
        rw [mix_fin isNew (θs (k + 1)) (before θ0 θs k) _ hnew'] at hg
        funext p
        have hv : ((SGLD.run inp (W.order k) (q k).1).par i).tGrad p = .fin (Pb.γ k (mix isNew (θs (k + 1)) (before θ0 θs k)) i p) := by
          rw [hg]; exact Pb.grad_eq k (by omega) _ (hph k (by omega)) _ i p
        have hx : x k i p = Pb.γ k (mix isNew (θs (k + 1)) (before θ0 θs k)) i p := by
          show (match ((q (k + 1)).1.par i).tGrad p with | .fin r => r | _ => 0) = _
          rw [hrun, hv]
        rw [hv, hx]
      refine ⟨fun i p => ?_, fun _ hB i p => ?_, fun m hm i => ?_, ?_⟩
      · rw [hrun]; exact (step i p _ (congrFun (hfin i) p)).1
      · show (if (k : Int) < B then W.graph.minv (q (k + 1)).1 else (q k).2) i p = .fin (Coord.massUsed (afterBurnIn B k) _)
        by_cases hkB : (k : Int) < B
        · rw [if_pos hkB]
          show ((q (k + 1)).1.par i).minv p = _
          rw [hrun, (step i p _ (congrFun (hfin i) p)).2.1]
          have hf : afterBurnIn B k = false := by unfold afterBurnIn; simp; omega
          rw [hf]; rfl
        · rw [if_neg hkB]
          have hf : afterBurnIn B k = true := by unfold afterBurnIn; simp; omega
          rw [hf, ih2 (by omega) hB i p]; rfl
      · have : m = k := by omega
        subst this
        rw [hrun]; exact hfin i
      · funext j p
        rw [hrun]; exact (step j p _ (congrFun (hfin j) p)).2.2
  have hpar : ∀ k ≤ N, (q k).1.params = fun j p => Fl.fin (before θ0 θs k j p) := fun k hk => (inv k hk).2.2.2
  have hpar' : ∀ k < N, (q (k + 1)).1.params = fun j p => Fl.fin (θs (k + 1) j p) := fun k hk => hpar (k + 1) hk
  refine ⟨x, fun k => W.graph.cost (q (k + 1)).1, ?_, fun k hk => ⟨fun i => ?_, ?_⟩⟩
  · rw [calls_script S W.graph ok B s0 eps0 (fun k hk => Pb.accepts k hk _ (hph k hk)) N le_rfl]
    apply List.map_congr_left
    intro k hk
    have hk' : k < N := List.mem_range.1 hk
    have : paramsAt S W.graph B s0 k = List.ofFn fun i => flat fun p => .fin (θs (k + 1) i p) := by
      unfold paramsAt
      congr 1
      funext i
      congr 1
      exact congrFun (hpar' k hk') i
    rw [this]
  · have hrun : (q (k + 1)).1 = SGLD.run (W.inputs k (.fin (S.eps k)) (fedAt B k (q k).2) (feedAt S B k (q k).2)) (W.order k) (q k).1 := rfl
    have hg := SGLD.run_sees (W.inputs k (.fin (S.eps k)) (fedAt B k (q k).2) (feedAt S B k (q k).2)) (W.order k) (q k).1 i
    rw [← hrun, hpar k (by omega), hpar' k hk] at hg
    rw [mix_fin (SGLD.sees (W.order k) i) (θs (k + 1)) (before θ0 θs k) _ (fun _ _ => rfl), (inv (k + 1) (by omega)).2.2.1 k rfl i] at hg
    funext p
    have := congrFun hg p
    rw [show (W.inputs k (.fin (S.eps k)) (fedAt B k (q k).2) (feedAt S B k (q k).2)).grad = W.grad (feedAt S B k (q k).2) from rfl,
      Pb.grad_eq k hk _ (hph k hk)] at this
    exact Fl.fin_inj.1 this
  · have hrun : (q (k + 1)).1 = SGLD.run (W.inputs k (.fin (S.eps k)) (fedAt B k (q k).2) (feedAt S B k (q k).2)) (W.order k) (q k).1 := rfl
    obtain ⟨isNew, hc⟩ := SGLD.run_cost (W.inputs k (.fin (S.eps k)) (fedAt B k (q k).2) (feedAt S B k (q k).2)) (W.order k) (q k).1
    rw [← hrun, hpar k (by omega), hpar' k hk, mix_fin isNew (θs (k + 1)) (before θ0 θs k) _ (fun _ _ => rfl)] at hc
    refine ⟨isNew, hc.trans ?_⟩
    exact Pb.cost_eq k hk _ (hph k hk) _

/-- **C99** (what holds) Every coordinate of an SGLD chain follows the recurrence from the value `θ` of the sampler's working copy; before the first step the
target parameters have the values `θ0`, afterwards those of the working copy. -/
theorem C99_sgld_restart_partial {F : Feeder} {N : Nat} (S : Script F N) (W : SGLDWorld size) (ok : Dict Key Arr → Bool)
    (Pb : Problem S W.grad W.cost ok) (a scale : ℝ) (ha : W.a = .fin a) (hsc : W.scaleGrad = .fin scale) (hs : 0 < scale)
    (z : Nat → ∀ i, Pos size i → ℝ) (hz : ∀ k i p, W.normal k i p = .fin (z k i p)) (B : Int) (θ θ0 : ∀ i, Pos size i → ℝ) (eps0 : Fl) :
    ∃ (x : Nat → ∀ i, Pos size i → ℝ) (cost : Nat → Fl),
      let θs : Nat → ∀ i, Pos size i → ℝ := fun k i p =>
        (sgldChain a scale B S.eps (fun j => x j i p) (fun j => z j i p) (θ i p) k).pos
      (calls (asIter (burnInNext (env F W.graph ok) B n)) N
          (init (S.batch 0) (S.sched 0) ⟨SGLD.State.start (fun i p => .fin (θ i p)) fun i p => .fin (θ0 i p), eps0, 0⟩)).1
        = (List.range N).map (fun k : Nat =>
            let arrays := List.ofFn fun i => flat fun p => .fin (θs (k + 1) i p)
            .ok ((if (k : Int) < B then .many arrays else unravel arrays), cost k))
      ∧ ∀ k < N,
        (∀ i, ∃ isNew : Fin n → Bool, isNew i = false ∧ x k i = Pb.γ k (mix isNew (θs (k + 1)) (before θ0 θs k)) i)
        ∧ ∃ isNew : Fin n → Bool, cost k = Pb.c k (mix isNew (θs (k + 1)) (before θ0 θs k)) := by
  obtain ⟨x, cost, h, hx⟩ := sgld_restart_sees S W ok Pb a scale ha hsc hs z hz B θ θ0 eps0
  exact ⟨x, cost, h, fun k hk => ⟨fun i => ⟨_, SGLD.sees_self _ i, (hx k hk).1 i⟩, (hx k hk).2⟩⟩

/-- **C89** Every coordinate of an SGLD chain follows preconditioned Langevin dynamics. -/
theorem C89_sgld_chain {F : Feeder} {N : Nat} (S : Script F N) (W : SGLDWorld size) (ok : Dict Key Arr → Bool)
    (Pb : Problem S W.grad W.cost ok) (a scale : ℝ) (ha : W.a = .fin a) (hsc : W.scaleGrad = .fin scale) (hs : 0 < scale)
    (z : Nat → ∀ i, Pos size i → ℝ) (hz : ∀ k i p, W.normal k i p = .fin (z k i p)) (B : Int) (θ : ∀ i, Pos size i → ℝ) (eps0 : Fl) :
    ∃ (x : Nat → ∀ i, Pos size i → ℝ) (cost : Nat → Fl),
      let θs : Nat → ∀ i, Pos size i → ℝ := fun k i p =>
        (sgldChain a scale B S.eps (fun j => x j i p) (fun j => z j i p) (θ i p) k).pos
      (calls (asIter (burnInNext (env F W.graph ok) B n)) N
          (init (S.batch 0) (S.sched 0) ⟨SGLD.State.init fun i p => .fin (θ i p), eps0, 0⟩)).1
        = (List.range N).map (fun k : Nat =>
            let arrays := List.ofFn fun i => flat fun p => .fin (θs (k + 1) i p)
            .ok ((if (k : Int) < B then .many arrays else unravel arrays), cost k))
      ∧ ∀ k < N,
        (∀ i, ∃ isNew : Fin n → Bool, isNew i = false ∧ x k i = Pb.γ k (mix isNew (θs (k + 1)) (θs k)) i)
        ∧ ∃ isNew : Fin n → Bool, cost k = Pb.c k (mix isNew (θs (k + 1)) (θs k)) := by
  have h0 : ∀ θs : Nat → ∀ i, Pos size i → ℝ, θs 0 = θ → before θ θs = θs := before_eq θ
  obtain ⟨x, cost, h, hx⟩ := C99_sgld_restart_partial S W ok Pb a scale ha hsc hs z hz B θ θ eps0
  refine ⟨x, cost, h, ?_⟩
  rw [h0 _ rfl] at hx
  exact hx

/-- **C89** If the gradient of each parameter depends on that parameter only (always true for a single parameter, of any
size), the samples are a function of start, batches, stepsizes and normal draws. -/
theorem C89_sgld_deterministic {F : Feeder} {N : Nat} (S : Script F N) (W : SGLDWorld size) (ok : Dict Key Arr → Bool)
    (Pb : Problem S W.grad W.cost ok) (a scale : ℝ) (ha : W.a = .fin a) (hsc : W.scaleGrad = .fin scale) (hs : 0 < scale)
    (z : Nat → ∀ i, Pos size i → ℝ) (hz : ∀ k i p, W.normal k i p = .fin (z k i p)) (B : Int) (θ : ∀ i, Pos size i → ℝ) (eps0 : Fl)
    (hsep : ∀ k < N, ∀ i θ θ', θ i = θ' i → Pb.γ k θ i = Pb.γ k θ' i) :
    ∃ cost : Nat → Fl,
      (calls (asIter (burnInNext (env F W.graph ok) B n)) N
          (init (S.batch 0) (S.sched 0) ⟨SGLD.State.init fun i p => .fin (θ i p), eps0, 0⟩)).1
        = (List.range N).map (fun k : Nat =>
            let arrays := List.ofFn fun i => flat fun p => .fin (sgldVec a scale B S.eps Pb.γ z θ (k + 1) i p).pos
            .ok ((if (k : Int) < B then .many arrays else unravel arrays), cost k)) := by
  obtain ⟨x, cost, h, hx⟩ := C89_sgld_chain S W ok Pb a scale ha hsc hs z hz B θ eps0
  refine ⟨cost, ?_⟩
  have key : ∀ k ≤ N, ∀ i p, sgldVec a scale B S.eps Pb.γ z θ k i p
      = sgldChain a scale B S.eps (fun j => x j i p) (fun j => z j i p) (θ i p) k := by
    intro k
    induction k with
    | zero => intro _ i p; rfl
    | succ k ih =>
      intro hk i p
      obtain ⟨isNew, h0, hxk⟩ := (hx k (by omega)).1 i
      simp only [sgldVec, sgldChain]
      rw [ih (by omega) i p]
      congr 1
      rw [hxk]
      refine congrFun (hsep k (by omega) i _ _ ?_) p
      funext r
      simp only [mix, h0]
      exact congrArg Coord.pos (ih (by omega) i r)
  rw [h]
  apply List.map_congr_left
  intro k hk
  have hk' : k < N := List.mem_range.1 hk
  have e : ∀ i p, (sgldVec a scale B S.eps Pb.γ z θ (k + 1) i p).pos
      = (sgldChain a scale B S.eps (fun j => x j i p) (fun j => z j i p) (θ i p) (k + 1)).pos := by
    intro i p; rw [key (k + 1) hk']
  simp only [e]

/-! ## The hypotheses are met -/

/-- Batch `k` feeds the number `k`, stepsize `k` is `1 / (k + 1)`. -/
@[reducible] noncomputable def countFeeder : Feeder where
  Batch := Nat
  Sched := Nat
  batchNext k := (.ok (Dict.single (.ph 0) [.fin k]), k + 1)
  schedNext k := (.ok [.fin (1 / (k + 1))], k)
  schedUpdate k _ _ := (.ok (), k + 1)

noncomputable def countScript (N : Nat) : Script countFeeder N where
  batch k := some k
  data k := Dict.single (.ph 0) [.fin k]
  sched k := k
  eps k := 1 / (k + 1)
  supplies k _ := ⟨rfl, rfl⟩
  stepsize k _ := ⟨k, rfl, fun _ _ => rfl⟩
  user k _ key h := by
    unfold Dict.single
    rw [if_neg (h 0)]

/-- Gradient and cost of half the squared distance to the number fed. -/
noncomputable def distGrad (size : Fin n → Nat) (d : Dict Key Arr) (θ : ∀ i, Pos size i → Fl) : ∀ i, Pos size i → Fl := fun i p =>
  match d (.ph 0) with
  | some [a] => θ i p - a
  | _ => .nan

noncomputable def distProblem (N : Nat) (size : Fin n → Nat) : Problem (countScript N) (distGrad size) (fun _ _ => 0) (fun _ => true) where
  γ k θ i p := θ i p - k
  c _ _ := 0
  grad_eq k _ d h θ i p := by
    unfold distGrad
    rw [h 0]
    rfl
  cost_eq _ _ _ _ _ := rfl
  accepts _ _ _ _ := rfl

/-- Two parameters with 2 and 3 elements, burn-in of 4 steps, any number of calls, any execution orders. -/
example (N : Nat) (order : Nat → SGHMC.Schedule (Fin 2)) :
    let W : SGHMCWorld ![2, 3] := ⟨.fin 10, .fin 0.05, distGrad _, fun _ _ => 0, fun k _ _ => .fin k, order⟩
    ∃ cost : Nat → Fl,
      (calls (asIter (burnInNext (env countFeeder W.graph fun _ => true) 4 2)) N
          (init (some 0) 0 ⟨SGHMC.State.init fun _ _ => .fin 7, .fin 0, 0⟩)).1
        = (List.range N).map (fun k : Nat =>
            let arrays := List.ofFn fun i => flat fun p =>
              .fin (sghmcVec (κ := Pos ![2, 3]) 0.05 10 4 (fun k => 1 / (k + 1)) (fun k θ i p => θ i p - k) (fun k _ _ => k) (fun _ _ => 7) (k + 1) i p).pos
            .ok ((if (k : Int) < 4 then .many arrays else unravel arrays), cost k)) := by
  intro W
  exact C88_sghmc_deterministic (countScript N) W _ (distProblem N ![2, 3]) 0.05 10 rfl rfl (by norm_num) (fun k _ _ => k)
    (fun _ _ _ => rfl) 4 (fun _ _ => 7) (.fin 0) (fun k _ i θ θ' h => by
      funext p; exact congrArg (· - (k : ℝ)) (congrFun h p))

example (N : Nat) (order : Nat → SGLD.Schedule (Fin 2)) :
    let W : SGLDWorld ![2, 3] := ⟨.fin 10, .fin 1, distGrad _, fun _ _ => 0, fun k _ _ => .fin k, order⟩
    ∃ cost : Nat → Fl,
      (calls (asIter (burnInNext (env countFeeder W.graph fun _ => true) 4 2)) N
          (init (some 0) 0 ⟨SGLD.State.init fun _ _ => .fin 7, .fin 0, 0⟩)).1
        = (List.range N).map (fun k : Nat =>
            let arrays := List.ofFn fun i => flat fun p =>
              .fin (sgldVec (κ := Pos ![2, 3]) 1 10 4 (fun k => 1 / (k + 1)) (fun k θ i p => θ i p - k) (fun k _ _ => k) (fun _ _ => 7) (k + 1) i p).pos
            .ok ((if (k : Int) < 4 then .many arrays else unravel arrays), cost k)) := by
  intro W
  exact C89_sgld_deterministic (countScript N) W _ (distProblem N ![2, 3]) 1 10 rfl rfl (by norm_num) (fun k _ _ => k)
    (fun _ _ _ => rfl) 4 (fun _ _ => 7) (.fin 0) (fun k _ i θ θ' h => by
      funext p; exact congrArg (· - (k : ℝ)) (congrFun h p))

end PySGMCMC.Chain
