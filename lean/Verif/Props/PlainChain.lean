import Verif.Lemmas.Script
import Verif.Model.PlainChain
import Verif.Spec.FullChain
import Verif.Props.Relativistic
import Verif.Props.SVGD

/-!
# C90, C91: whole chains of relativistic SGHMC and SVGD samplers

As `Props/FullChain.lean`, for the samplers without burn-in.
-/

namespace PySGMCMC.Relativistic
variable {P : Type} [DecidableEq P]

/-- Gradients can be treated in the order in which they are evaluated. -/
theorem run_grad_induct (inp : Inputs P) (σ : Schedule P) (s : State P) (Q : P → Prop)
    (h : ∀ i, ∀ isNew : P → Bool, isNew i = false → (∀ j, isNew j = true → Q j) →
      ((run inp σ s).par i).tGrad = -(inp.grad (fun j => if isNew j then (run inp σ s).params j else s.params j) i) → Q i) (i : P) : Q i := by
  have key : ∀ (len : Nat) (i : P) (pre post : List (Node P)), pre.length = len → σ.order = pre ++ .op i .xGrad :: post → Q i := by
    intro len
    induction len using Nat.strong_induction_on with
    | _ len ih =>
      intro i pre post hlen horder
      have hnd := σ.nodup
      rw [horder] at hnd
      obtain ⟨-, -, hdisj⟩ := List.nodup_append.1 hnd
      have hgrad : ∀ j, Node.op j .setParam ∈ pre → Node.op j .xGrad ∈ pre := by
        intro j hm
        have h1 : Node.op j .setVec ∈ pre := deps_mem σ horder hm (List.mem_map_of_mem (by decide))
        have h2 : Node.op j .xVel ∈ pre := deps_mem σ horder h1 (List.mem_map_of_mem (by decide))
        have h3 : Node.op j .setMom ∈ pre := deps_mem σ horder h2 (List.mem_map_of_mem (by decide))
        have h4 : Node.op j .xMom ∈ pre := deps_mem σ horder h3 (List.mem_map_of_mem (by decide))
        exact deps_mem σ horder h4 (List.mem_map_of_mem (by decide))
      refine h i (fun j => decide (Node.op j .setParam ∈ pre)) ?_ ?_ ?_
      · simp only [decide_eq_false_iff_not]
        intro hm
        exact hdisj _ (hgrad i hm) _ (by simp) rfl
      · intro j hj
        obtain ⟨pre', post', hpre⟩ := List.append_of_mem (hgrad j (by simpa using hj))
        refine ih pre'.length ?_ j pre' (post' ++ .op i .xGrad :: post) rfl ?_
        · rw [← hlen, hpre]; simp
        · rw [horder, hpre]; simp
      · rw [run_grad_at inp σ s i pre post horder]
        simp only [decide_eq_true_eq]
  obtain ⟨pre, post, horder⟩ := List.append_of_mem (σ.complete (.op i .xGrad))
  exact key _ i pre post rfl horder

end PySGMCMC.Relativistic

namespace PySGMCMC.Chain
open SamplerBase Spec

variable {n d : Nat}

/-- `MCMCSampler.__next__` is the burn-in sampler's without burn-in. -/
theorem base_eq {V C : Type} (E : Env V C) (m : Nat) : asIter (baseNext E) = asIter (burnInNext E 0 m) := by
  funext s
  unfold asIter baseNext burnInNext
  have : isBurningIn 0 s = false := by
    unfold isBurningIn
    simp
  simp [Feed.open, this]

/-! ## C90 -/

/-- What the sampler is used with: gradients and costs on the batches at real parameters. -/
structure RelProblem {F : Feeder} {N : Nat} (S : Script F N) (W : RelWorld n) (ok : Dict Key Arr → Bool) where
  γ : Nat → (Fin n → ℝ) → Fin n → ℝ
  c : Nat → (Fin n → ℝ) → Fl
  grad_eq : ∀ k < N, ∀ d, (∀ p, d (.ph p) = S.data k (.ph p)) → ∀ θ i, W.grad d (fun i => .fin (θ i)) i = .fin (γ k θ i)
  cost_eq : ∀ k < N, ∀ d, (∀ p, d (.ph p) = S.data k (.ph p)) → ∀ θ, W.cost d (fun i => .fin (θ i)) = c k θ
  accepts : ∀ k < N, ∀ d, (∀ p, d (.ph p) = S.data k (.ph p)) → ok d = true

/-- Between two samples: every parameter has its old or its new value. -/
def mixed (isNew : Fin n → Bool) (new old : Fin n → ℝ) : Fin n → ℝ := fun j => if isNew j then new j else old j

theorem mixed_fin (isNew : Fin n → Bool) (new old : Fin n → ℝ) (new' : Fin n → Fl)
    (h : ∀ j, isNew j = true → new' j = .fin (new j)) :
    (fun j => if isNew j then new' j else Fl.fin (old j)) = fun i => Fl.fin (mixed isNew new old i) := by
  funext j
  unfold mixed
  by_cases hj : isNew j = true
  · simp only [hj, if_true, h j hj]
  · simp only [hj]; rfl

/-- Variables of a parameter. -/
structure RelHas (s : Relativistic.State (Fin n)) (i : Fin n) (q : ℝ × ℝ) : Prop where
  mom : (s.par i).mom = .fin q.2
  vec : (s.par i).vec = .fin q.1

/-- **C99** (what holds) Every parameter of a relativistic SGHMC chain follows the recurrence from the value `θ` of the sampler's working copy; before the
first step the target parameters have the values `θ0`, afterwards those of the working copy. -/
theorem C99_relativistic_restart_partial {F : Feeder} {N : Nat} (S : Script F N) (W : RelWorld n) (ok : Dict Key Arr → Bool)
    (Pb : RelProblem S W ok) (m c D bhat : ℝ) (hm : W.mass = .fin m) (hc : W.c = .fin c) (hD : W.d = .fin D) (hb : W.bhat = .fin bhat)
    (m0 : 0 < m) (c0 : 0 < c) (hsd : ∀ k < N, 0 ≤ S.eps k * (2 * D - S.eps k * bhat))
    (z : Nat → Fin n → ℝ) (hz : ∀ k i, W.normal k i = .fin (z k i)) (θ θ0 p : Fin n → ℝ) (eps0 : Fl) :
    ∃ (x : Nat → Fin n → ℝ) (cost : Nat → Fl),
      let θs : Nat → Fin n → ℝ := fun k i => (relChain m c D bhat S.eps (fun j => x j i) (fun j => z j i) (θ i) (p i) k).1
      (calls (asIter (baseNext (env F W.graph ok))) N
          (init (S.batch 0) (S.sched 0) ⟨RelWorld.startFrom (fun i => .fin (θ i)) (fun i => .fin (θ0 i)) (fun i => .fin (p i)), eps0, 0⟩)).1
        = (List.range N).map (fun k : Nat => .ok (unravel (List.ofFn fun i => [.fin (θs (k + 1) i)]), cost k))
      ∧ ∀ k < N,
        (∀ i, ∃ isNew : Fin n → Bool, isNew i = false ∧ x k i = Pb.γ k (mixed isNew (θs (k + 1)) (before θ0 θs k)) i)
        ∧ ∃ isNew : Fin n → Bool, cost k = Pb.c k (mixed isNew (θs (k + 1)) (before θ0 θs k)) := by
  classical
  set s0 : Relativistic.State (Fin n) := RelWorld.startFrom (fun i => .fin (θ i)) (fun i => .fin (θ0 i)) (fun i => .fin (p i)) with hs0
  set q := seq S W.graph 0 s0 with hq
  let x : Nat → Fin n → ℝ := fun k i => match ((q (k + 1)).1.par i).tGrad with
    | .fin r => -r
    | _ => 0
  let ch : Nat → Fin n → ℝ × ℝ := fun k i => relChain m c D bhat S.eps (fun j => x j i) (fun j => z j i) (θ i) (p i) k
  let θs : Nat → Fin n → ℝ := fun k i => (ch k i).1
  have hph : ∀ k < N, ∀ p, feedAt S 0 k (q k).2 (.ph p) = S.data k (.ph p) := fun k _ p => feedAt_ph S 0 k _ p
  have inv : ∀ k ≤ N, (∀ i, RelHas (q k).1 i (ch k i)) ∧ (∀ j, j + 1 = k → ∀ i, ((q k).1.par i).tGrad = .fin (-x j i))
      ∧ (q k).1.params = fun j => Fl.fin (before θ0 θs k j) := by
    intro k
    induction k with
    | zero => exact fun _ => ⟨fun i => ⟨rfl, rfl⟩, fun j hj => absurd hj (by omega), rfl⟩
    | succ k ih =>
      intro hk
      obtain ⟨ih1, -, hold⟩ := ih (by omega)
      have hrun : (q (k + 1)).1 = Relativistic.run (W.inputs k (.fin (S.eps k)) (feedAt S 0 k (q k).2)) (W.order k) (q k).1 := rfl
      set inp := W.inputs k (.fin (S.eps k)) (feedAt S 0 k (q k).2) with hinp
      have step : ∀ i y, ((Relativistic.run inp (W.order k) (q k).1).par i).tGrad = .fin (-y) →
          RelHas (Relativistic.run inp (W.order k) (q k).1) i (relStep (S.eps k) m c D bhat y (z k i) (ch k i))
          ∧ ((Relativistic.run inp (W.order k) (q k).1).par i).param = .fin (relStep (S.eps k) m c D bhat y (z k i) (ch k i)).1 := by
        intro i y hy
        have hh := ih1 i
        obtain ⟨e1, e2, e3⟩ := Relativistic.C36_finite_step inp (W.order k) (q k).1 i (S.eps k) m c D bhat _ _ y (z k i)
          ⟨rfl, hm, hc, hD, hb, m0, c0⟩ (hsd k (by omega)) hh.mom hh.vec hy (hz k i)
        have hp : (ch k i).2 - S.eps k * y + √(S.eps k * (2 * D - S.eps k * bhat)) * z k i - D * Relativistic.vel (S.eps k) m c (ch k i).2
            = (relStep (S.eps k) m c D bhat y (z k i) (ch k i)).2 := by
          unfold relStep relMove Relativistic.vel; ring
        rw [hp] at e1 e2 e3
        exact ⟨⟨e1, e2⟩, e3⟩
      have hfin : ∀ i, ((Relativistic.run inp (W.order k) (q k).1).par i).tGrad = .fin (-x k i) := by
        apply Relativistic.run_grad_induct inp (W.order k) (q k).1
        intro i isNew _ hnew hg
        have hnew' : ∀ j, isNew j = true → (Relativistic.run inp (W.order k) (q k).1).params j = .fin (θs (k + 1) j) :=
          fun j hj => (step j _ (hnew j hj)).2
        rw [hold, mixed_fin isNew (θs (k + 1)) (before θ0 θs k) _ hnew'] at hg
        have hv : ((Relativistic.run inp (W.order k) (q k).1).par i).tGrad = .fin (-Pb.γ k (mixed isNew (θs (k + 1)) (before θ0 θs k)) i) := by
          rw [hg, show inp.grad = W.grad (feedAt S 0 k (q k).2) from rfl, Pb.grad_eq k (by omega) _ (hph k (by omega)), Fl.neg_fin]
        have hx : x k i = Pb.γ k (mixed isNew (θs (k + 1)) (before θ0 θs k)) i := by
          show (match ((q (k + 1)).1.par i).tGrad with | .fin r => -r | _ => 0) = _
          rw [hrun, hv]
          exact neg_neg _
        rw [hv, hx]
      refine ⟨fun i => ?_, fun j hj i => ?_, ?_⟩
      · rw [hrun]; exact (step i _ (hfin i)).1
      · have : j = k := by omega
        subst this
        rw [hrun]; exact hfin i
      · funext j
        rw [hrun]; exact (step j _ (hfin j)).2
  have hpar : ∀ k ≤ N, (q k).1.params = fun j => Fl.fin (before θ0 θs k j) := fun k hk => (inv k hk).2.2
  have hpar' : ∀ k < N, (q (k + 1)).1.params = fun j => Fl.fin (θs (k + 1) j) := fun k hk => hpar (k + 1) hk
  refine ⟨x, fun k => W.graph.cost (q (k + 1)).1, ?_, fun k hk => ⟨fun i => ?_, ?_⟩⟩
  · rw [base_eq _ n, calls_script S W.graph ok 0 s0 eps0 (fun k hk => Pb.accepts k hk _ (hph k hk)) N le_rfl]
    apply List.map_congr_left
    intro k hk
    have hk' : k < N := List.mem_range.1 hk
    have : paramsAt S W.graph 0 s0 k = List.ofFn fun i => [.fin (θs (k + 1) i)] := by
      unfold paramsAt
      congr 1
      funext i
      show flat (fun _ : Fin 1 => (q (k + 1)).1.params i) = _
      rw [hpar' k hk']
      simp [flat]
    rw [this, if_neg (by omega)]
  · have hrun : (q (k + 1)).1 = Relativistic.run (W.inputs k (.fin (S.eps k)) (feedAt S 0 k (q k).2)) (W.order k) (q k).1 := rfl
    obtain ⟨isNew, h0, hg⟩ := Relativistic.run_grad (W.inputs k (.fin (S.eps k)) (feedAt S 0 k (q k).2)) (W.order k) (q k).1 i
    rw [← hrun, hpar k (by omega), hpar' k hk, mixed_fin isNew (θs (k + 1)) (before θ0 θs k) _ (fun _ _ => rfl),
      (inv (k + 1) (by omega)).2.1 k rfl i, show (W.inputs k (.fin (S.eps k)) (feedAt S 0 k (q k).2)).grad = W.grad (feedAt S 0 k (q k).2) from rfl,
      Pb.grad_eq k hk _ (hph k hk), Fl.neg_fin] at hg
    exact ⟨isNew, h0, neg_injective (Fl.fin_inj.1 hg)⟩
  · have hrun : (q (k + 1)).1 = Relativistic.run (W.inputs k (.fin (S.eps k)) (feedAt S 0 k (q k).2)) (W.order k) (q k).1 := rfl
    obtain ⟨isNew, hc⟩ := Relativistic.run_cost (W.inputs k (.fin (S.eps k)) (feedAt S 0 k (q k).2)) (W.order k) (q k).1
    rw [← hrun, hpar k (by omega), hpar' k hk, mixed_fin isNew (θs (k + 1)) (before θ0 θs k) _ (fun _ _ => rfl)] at hc
    exact ⟨isNew, hc.trans (Pb.cost_eq k hk _ (hph k hk) _)⟩

/-- **C90** Every parameter of a relativistic SGHMC chain follows the published recurrence. -/
theorem C90_relativistic_chain {F : Feeder} {N : Nat} (S : Script F N) (W : RelWorld n) (ok : Dict Key Arr → Bool)
    (Pb : RelProblem S W ok) (m c D bhat : ℝ) (hm : W.mass = .fin m) (hc : W.c = .fin c) (hD : W.d = .fin D) (hb : W.bhat = .fin bhat)
    (m0 : 0 < m) (c0 : 0 < c) (hsd : ∀ k < N, 0 ≤ S.eps k * (2 * D - S.eps k * bhat))
    (z : Nat → Fin n → ℝ) (hz : ∀ k i, W.normal k i = .fin (z k i)) (θ p : Fin n → ℝ) (eps0 : Fl) :
    ∃ (x : Nat → Fin n → ℝ) (cost : Nat → Fl),
      let θs : Nat → Fin n → ℝ := fun k i => (relChain m c D bhat S.eps (fun j => x j i) (fun j => z j i) (θ i) (p i) k).1
      (calls (asIter (baseNext (env F W.graph ok))) N
          (init (S.batch 0) (S.sched 0) ⟨RelWorld.start (fun i => .fin (θ i)) (fun i => .fin (p i)), eps0, 0⟩)).1
        = (List.range N).map (fun k : Nat => .ok (unravel (List.ofFn fun i => [.fin (θs (k + 1) i)]), cost k))
      ∧ ∀ k < N,
        (∀ i, ∃ isNew : Fin n → Bool, isNew i = false ∧ x k i = Pb.γ k (mixed isNew (θs (k + 1)) (θs k)) i)
        ∧ ∃ isNew : Fin n → Bool, cost k = Pb.c k (mixed isNew (θs (k + 1)) (θs k)) := by
  have h0 : ∀ θs : Nat → Fin n → ℝ, θs 0 = θ → before θ θs = θs := before_eq θ
  obtain ⟨x, cost, h, hx⟩ := C99_relativistic_restart_partial S W ok Pb m c D bhat hm hc hD hb m0 c0 hsd z hz θ θ p eps0
  refine ⟨x, cost, h, ?_⟩
  rw [h0 _ rfl] at hx
  exact hx

/-- **C90** If the gradient of each parameter depends on that parameter only (always true for a single parameter), the samples are
a function of start, batches, stepsizes and normal draws. -/
theorem C90_relativistic_deterministic {F : Feeder} {N : Nat} (S : Script F N) (W : RelWorld n) (ok : Dict Key Arr → Bool)
    (Pb : RelProblem S W ok) (m c D bhat : ℝ) (hm : W.mass = .fin m) (hc : W.c = .fin c) (hD : W.d = .fin D) (hb : W.bhat = .fin bhat)
    (m0 : 0 < m) (c0 : 0 < c) (hsd : ∀ k < N, 0 ≤ S.eps k * (2 * D - S.eps k * bhat))
    (z : Nat → Fin n → ℝ) (hz : ∀ k i, W.normal k i = .fin (z k i)) (θ p : Fin n → ℝ) (eps0 : Fl)
    (hsep : ∀ k < N, ∀ i θ θ', θ i = θ' i → Pb.γ k θ i = Pb.γ k θ' i) :
    ∃ cost : Nat → Fl,
      (calls (asIter (baseNext (env F W.graph ok))) N
          (init (S.batch 0) (S.sched 0) ⟨RelWorld.start (fun i => .fin (θ i)) (fun i => .fin (p i)), eps0, 0⟩)).1
        = (List.range N).map (fun k : Nat =>
            .ok (unravel (List.ofFn fun i => [.fin (relVec m c D bhat S.eps Pb.γ z θ p (k + 1) i).1]), cost k)) := by
  obtain ⟨x, cost, h, hx⟩ := C90_relativistic_chain S W ok Pb m c D bhat hm hc hD hb m0 c0 hsd z hz θ p eps0
  refine ⟨cost, ?_⟩
  have key : ∀ k ≤ N, ∀ i, relVec m c D bhat S.eps Pb.γ z θ p k i
      = relChain m c D bhat S.eps (fun j => x j i) (fun j => z j i) (θ i) (p i) k := by
    intro k
    induction k with
    | zero => intro _ i; rfl
    | succ k ih =>
      intro hk i
      obtain ⟨isNew, h0, hxk⟩ := (hx k (by omega)).1 i
      simp only [relVec, relChain]
      rw [ih (by omega) i]
      congr 1
      rw [hxk]
      refine hsep k (by omega) i _ _ ?_
      simp only [mixed, h0]
      exact congrArg Prod.fst (ih (by omega) i)
  rw [h]
  apply List.map_congr_left
  intro k hk
  have hk' : k < N := List.mem_range.1 hk
  simp only [key (k + 1) hk']

/-! ## C91 -/

theorem unravel_many {V : Type} (l : List V) (h : l.length ≠ 1) : unravel l = .many l := by
  match l, h with
  | [], _ => rfl
  | [_], h => exact absurd rfl h
  | _ :: _ :: _, _ => rfl

theorem listMedian_eq (l : List ℝ) (hne : l ≠ []) (shape : List Nat) : TensorUtils.median ⟨shape, l⟩ = .ok (listMedian l) := by
  set s := l.mergeSort (fun a b => decide (a ≤ b)) with hs
  have hp : s.Perm l := List.mergeSort_perm ..
  have hsort : s.Pairwise (· ≤ ·) := by
    have := List.pairwise_mergeSort (le := fun a b : ℝ => decide (a ≤ b)) (by simpa using fun a b c => le_trans) (by simpa using le_total) l
    simpa using this
  obtain ⟨h1, h2⟩ := TensorUtils.C22_order_statistic ⟨shape, l⟩ s hp hsort hne
  unfold listMedian
  rw [← hs]
  rcases Nat.mod_two_eq_zero_or_one s.length with h | h
  · rw [h2 h]; simp only [h]; rfl
  · rw [h1 h]; simp only [h]; rfl

/-- `grad_theta` for pairwise distinct real particles. -/
theorem gradTheta_spec (hn : 2 ≤ n) (inp : SVGD.Inputs n d) (x : Fin n → Fin d → ℝ) (hx : Function.Injective x)
    (γ : (Fin d → ℝ) → Fin d → ℝ) (hγ : ∀ y a, inp.grad (fun a => .fin (y a)) a = .fin (γ y a)) (i : Fin n) (a : Fin d) :
    SVGD.gradTheta inp (fun i a => .fin (x i a)) i a = .fin (svgdDir (fun j => γ (x j)) x i a) := by
  obtain ⟨med, hmed, hpos⟩ := SVGD.median_pos hn x hx
  obtain ⟨-, hb⟩ := SVGD.bandwidth_sq (show 0 < n by omega) med hpos
  have hk := SVGD.kernel_closed (by omega) x med hmed hpos
  have hw : med / 2 / Real.log (n + 1) = width2 x := by
    have hl : (List.ofFn fun i => List.ofFn (SVGD.sqDist x i)).flatten ≠ [] := by
      intro h
      have hlen := SVGD.flatten_ofFn_length fun i => SVGD.sqDist x i
      rw [h] at hlen
      simp only [List.length_nil] at hlen
      have : 0 < n * n := by positivity
      omega
    rw [listMedian_eq _ hl] at hmed
    have : listMedian (List.ofFn fun i => List.ofFn (SVGD.sqDist x i)).flatten = med := by simpa using hmed
    unfold width2
    rw [div_div, ← this]
    rfl
  rw [hw] at hk
  have hke : SVGD.kernelOf inp (fun i a => .fin (x i a)) = ⟨fun i j => .fin (SVGD.rbf (width2 x) x i j),
      fun i a => .fin ((∑ j, SVGD.rbf (width2 x) x i j * (x i a - x j a)) / width2 x)⟩ := by
    unfold SVGD.kernelOf
    rw [if_pos (fun i a => ⟨_, rfl⟩)]
    simp only [Fl.val_fin]
    rw [hk]
  have hn0 : (n : ℝ) ≠ 0 := by exact_mod_cast (show n ≠ 0 by omega)
  simp only [SVGD.gradTheta, hke, hγ, Fl.mul_fin, SVGD.sum_fin, Fl.add_fin, Fl.div_fin hn0]
  rfl

/-- What the sampler is used with: gradient and cost of one particle on the batches. -/
structure SVGDProblem {F : Feeder (Fin n → Fl)} {N : Nat} (S : Script F N) (W : SVGDWorld n d) (ok : Dict Key Arr → Bool) where
  γ : Nat → (Fin d → ℝ) → Fin d → ℝ
  c : Nat → (Fin d → ℝ) → Fl
  grad_eq : ∀ k < N, ∀ e, (∀ p, e (.ph p) = S.data k (.ph p)) → ∀ y a, W.grad e (fun a => .fin (y a)) a = .fin (γ k y a)
  cost_eq : ∀ k < N, ∀ e, (∀ p, e (.ph p) = S.data k (.ph p)) → ∀ y, W.cost e (fun a => .fin (y a)) = c k y
  accepts : ∀ k < N, ∀ e, (∀ p, e (.ph p) = S.data k (.ph p)) → ok e = true

theorem svgdChain_hist_nonneg (al f : ℝ) (h0 : 0 ≤ al) (h1 : al < 1) (eps : Nat → ℝ) (γ : Nat → (Fin d → ℝ) → Fin d → ℝ)
    (x : Fin n → Fin d → ℝ) (k : Nat) (i : Fin n) (a : Fin d) : 0 ≤ (svgdChain al f eps γ x k).2 i a := by
  induction k generalizing i a with
  | zero => exact le_rfl
  | succ k ih =>
    have : 0 ≤ 1 - al := by linarith
    have := ih i a
    show 0 ≤ al * (svgdChain al f eps γ x k).2 i a + (1 - al) * _ ^ 2
    positivity

/-- **C91** As long as the particles stay pairwise distinct, the samples of an SVGD sampler are the positions of the stated recurrence
and the costs those of the particles before the step, whatever the runtime does. -/
theorem C91_svgd_chain (hn : 2 ≤ n) {F : Feeder (Fin n → Fl)} {N : Nat} (S : Script F N) (W : SVGDWorld n d) (ok : Dict Key Arr → Bool)
    (Pb : SVGDProblem S W ok) (al f : ℝ) (hal : W.alpha = .fin al) (hf : W.fudge = .fin f) (h0 : 0 ≤ al) (h1 : al < 1) (f0 : 0 < f)
    (x : Fin n → Fin d → ℝ) (eps0 : Fl) (hinj : ∀ k < N, Function.Injective (svgdChain al f S.eps Pb.γ x k).1) :
    (calls (asIter (baseNext (env F W.graph ok))) N
        (init (S.batch 0) (S.sched 0) ⟨SVGD.State.init fun i a => .fin (x i a), eps0, 0⟩)).1
      = (List.range N).map (fun k : Nat =>
          .ok (.many (List.ofFn fun i => flat fun a => .fin ((svgdChain al f S.eps Pb.γ x (k + 1)).1 i a)),
            fun i => Pb.c k ((svgdChain al f S.eps Pb.γ x k).1 i))) := by
  set s0 : SVGD.State n d := SVGD.State.init fun i a => .fin (x i a) with hs0
  set q := seq S W.graph 0 s0 with hq
  set ch := svgdChain al f S.eps Pb.γ x with hch
  have hph : ∀ k < N, ∀ p, feedAt S 0 k (q k).2 (.ph p) = S.data k (.ph p) := fun k _ p => feedAt_ph S 0 k _ p
  have hrun : ∀ k, (q (k + 1)).1 = SVGD.run (W.inputs (.fin (S.eps k)) (feedAt S 0 k (q k).2)) (W.order k) (q k).1 := fun _ => rfl
  have inv : ∀ k ≤ N, (q k).1.particles = (fun i a => .fin ((ch k).1 i a)) ∧ (q k).1.hist = fun i a => .fin ((ch k).2 i a) := by
    intro k
    induction k with
    | zero => exact fun _ => ⟨rfl, by funext i a; exact Fl.ofNat_zero⟩
    | succ k ih =>
      intro hk
      obtain ⟨i1, i2⟩ := ih (by omega)
      obtain ⟨r1, r2, -⟩ := SVGD.run_eq (W.inputs (.fin (S.eps k)) (feedAt S 0 k (q k).2)) (W.order k) (q k).1
      have hst := fun i a => SVGD.step_fin (W.inputs (.fin (S.eps k)) (feedAt S 0 k (q k).2)) (q k).1 i a (S.eps k) al f ((ch k).1 i a) ((ch k).2 i a)
        (svgdDir (fun j => Pb.γ k ((ch k).1 j)) (ch k).1 i a) rfl hal hf h0 h1 f0 (congrFun (congrFun i1 i) a) (congrFun (congrFun i2 i) a)
        (svgdChain_hist_nonneg al f h0 h1 S.eps Pb.γ x k i a)
        (by rw [i1]; exact gradTheta_spec hn _ _ (hinj k (by omega)) (Pb.γ k) (Pb.grad_eq k (by omega) _ (hph k (by omega))) i a)
      rw [hrun, r1, r2]
      refine ⟨funext fun i => funext fun a => (hst i a).2.2, funext fun i => funext fun a => (hst i a).1⟩
  rw [base_eq _ n, calls_script S W.graph ok 0 s0 eps0 (fun k hk => Pb.accepts k hk _ (hph k hk)) N le_rfl]
  apply List.map_congr_left
  intro k hk
  have hk' : k < N := List.mem_range.1 hk
  have hp : paramsAt S W.graph 0 s0 k = List.ofFn fun i => flat fun a => .fin ((ch (k + 1)).1 i a) := by
    unfold paramsAt
    show (List.ofFn fun i => flat ((q (k + 1)).1.particles i)) = _
    rw [(inv (k + 1) hk').1]
  have hcost : (q (k + 1)).1.cost = fun i => Pb.c k ((ch k).1 i) := by
    obtain ⟨-, -, r3⟩ := SVGD.run_eq (W.inputs (.fin (S.eps k)) (feedAt S 0 k (q k).2)) (W.order k) (q k).1
    rw [hrun, r3, (inv k hk'.le).1]
    funext i
    exact Pb.cost_eq k hk' _ (hph k hk') _
  rw [if_neg (by omega), hp]
  show (.ok (unravel _, (q (k + 1)).1.cost) : Except PyErr _) = _
  rw [hcost]
  rw [unravel_many _ (by rw [List.length_ofFn]; omega)]

/-- **C91** Particles that start further apart than twice the total of all steps stay pairwise distinct. -/
theorem C91_separated {N : Nat} (al f : ℝ) (h0 : 0 ≤ al) (h1 : al < 1) (f0 : 0 < f) (eps : Nat → ℝ)
    (γ : Nat → (Fin d → ℝ) → Fin d → ℝ) (x : Fin n → Fin d → ℝ)
    (hsep : ∀ i j, i ≠ j → ∃ a, 2 * (∑ k ∈ Finset.range N, |eps k|) / √(1 - al) < |x i a - x j a|) (k : Nat) (hk : k ≤ N) :
    Function.Injective (svgdChain al f eps γ x k).1 := by
  have move : ∀ k i a, |(svgdChain al f eps γ x k).1 i a - x i a| ≤ (∑ k ∈ Finset.range k, |eps k|) / √(1 - al) := by
    intro k i a
    induction k with
    | zero => simp [svgdChain]
    | succ k ih =>
      rw [Finset.sum_range_succ, add_div]
      have hd : (svgdChain al f eps γ x (k + 1)).1 i a - (svgdChain al f eps γ x k).1 i a
          = -(eps k * (svgdDir (fun j => γ k ((svgdChain al f eps γ x k).1 j)) (svgdChain al f eps γ x k).1 i a
            / (f + √(al * (svgdChain al f eps γ x k).2 i a
              + (1 - al) * svgdDir (fun j => γ k ((svgdChain al f eps γ x k).1 j)) (svgdChain al f eps γ x k).1 i a ^ 2)))) := by
        simp only [svgdChain, svgdStep]; ring
      have hb := SVGD.adj_le al f _ (svgdDir (fun j => γ k ((svgdChain al f eps γ x k).1 j)) (svgdChain al f eps γ x k).1 i a) h0 h1 f0
        (svgdChain_hist_nonneg al f h0 h1 eps γ x k i a)
      have hs : |(svgdChain al f eps γ x (k + 1)).1 i a - (svgdChain al f eps γ x k).1 i a| ≤ |eps k| / √(1 - al) := by
        rw [hd, abs_neg, abs_mul]
        calc _ ≤ |eps k| * (1 / √(1 - al)) := mul_le_mul_of_nonneg_left hb (abs_nonneg _)
          _ = _ := by ring
      calc _ = |((svgdChain al f eps γ x (k + 1)).1 i a - (svgdChain al f eps γ x k).1 i a) + ((svgdChain al f eps γ x k).1 i a - x i a)| := by ring_nf
        _ ≤ _ := abs_add_le _ _
        _ ≤ _ := by linarith
  intro i j hij
  by_contra hne
  obtain ⟨a, ha⟩ := hsep i j hne
  have hmono : (∑ k ∈ Finset.range k, |eps k|) / √(1 - al) ≤ (∑ k ∈ Finset.range N, |eps k|) / √(1 - al) := by
    apply div_le_div_of_nonneg_right _ (Real.sqrt_nonneg _)
    exact Finset.sum_le_sum_of_subset_of_nonneg (Finset.range_mono hk) (fun _ _ _ => abs_nonneg _)
  have hi := move k i a
  have hj := move k j a
  rw [hij] at hi
  have : |x i a - x j a| ≤ |(svgdChain al f eps γ x k).1 j a - x i a| + |(svgdChain al f eps γ x k).1 j a - x j a| := by
    rw [← abs_neg ((svgdChain al f eps γ x k).1 j a - x i a)]
    refine le_trans (le_of_eq ?_) (abs_add_le _ _)
    ring_nf
  rw [mul_div_assoc] at ha
  linarith

/-! ## The hypotheses are met -/

/-- Stepsizes `1 / 2 ^ (k + 1)`, no batches. -/
@[reducible] noncomputable def halvingFeeder (C : Type) : Feeder C where
  Batch := Unit
  Sched := Nat
  batchNext _ := (.error .stopIteration, ())
  schedNext k := (.ok [.fin (1 / 2 ^ (k + 1))], k)
  schedUpdate k _ _ := (.ok (), k + 1)

noncomputable def halvingScript (C : Type) (N : Nat) : Script (halvingFeeder C) N where
  batch _ := none
  data _ := Dict.empty
  sched k := k
  eps k := 1 / 2 ^ (k + 1)
  supplies k _ := ⟨rfl, rfl⟩
  stepsize k _ := ⟨k, rfl, fun _ _ => rfl⟩
  user _ _ _ _ := rfl

/-- Relativistic SGHMC on `θ² / 2` with two parameters; any number of calls, any execution orders. -/
example (N : Nat) (order : Nat → Relativistic.Schedule (Fin 2)) :
    let W : RelWorld 2 := ⟨.fin 1, .fin 0.6, .fin 1, .fin 0, fun _ θ => θ, fun _ _ => 0, fun k _ => .fin k, order⟩
    ∃ cost : Nat → Fl,
      (calls (asIter (baseNext (env (halvingFeeder Fl) W.graph fun _ => true))) N
          (init none 0 ⟨RelWorld.start (fun _ => .fin 7) (fun i => .fin i), .fin 0, 0⟩)).1
        = (List.range N).map (fun k : Nat =>
            .ok (unravel (List.ofFn fun i =>
              [.fin (relVec (P := Fin 2) 1 0.6 1 0 (fun k => 1 / 2 ^ (k + 1)) (fun _ θ => θ) (fun k _ => k) (fun _ => 7) (fun i => i) (k + 1) i).1]), cost k)) := by
  intro W
  exact C90_relativistic_deterministic (halvingScript Fl N) W (fun _ => true)
    ⟨fun _ θ => θ, fun _ _ => 0, fun _ _ _ _ _ _ => rfl, fun _ _ _ _ _ => rfl, fun _ _ _ _ => rfl⟩ 1 0.6 1 0 rfl rfl rfl rfl
    (by norm_num) (by norm_num) (fun k _ => by simp only [halvingScript, mul_zero, sub_zero]; positivity) _ (fun _ _ => rfl) (fun _ => 7) (fun i => i) _
    (fun _ _ _ _ _ h => h)

/-- SVGD on `|y|² / 2` with three particles in the plane; any number of calls, any execution orders. -/
example (N : Nat) (order : Nat → SVGD.Schedule 3) (junk : (Fin 3 → Fin 2 → Fl) → SVGD.Kernel 3 2) :
    let W : SVGDWorld 3 2 := ⟨.fin 0, .fin 1e-6, fun _ y => y, fun _ y => y 0, junk, order⟩
    let start : Fin 3 → Fin 2 → ℝ := fun i _ => 10 * i
    let chain := svgdChain 0 1e-6 (fun k => 1 / 2 ^ (k + 1)) (fun _ y => y) start
    (calls (asIter (baseNext (env (halvingFeeder (Fin 3 → Fl)) W.graph fun _ => true))) N
        (init none 0 ⟨SVGD.State.init fun i a => .fin (start i a), .fin 0, 0⟩)).1
      = (List.range N).map (fun k : Nat =>
          .ok (.many (List.ofFn fun i => flat fun a => .fin ((chain (k + 1)).1 i a)), fun i => .fin ((chain k).1 i 0))) := by
  intro W start chain
  refine C91_svgd_chain (by norm_num) (halvingScript _ N) W (fun _ => true)
    ⟨fun _ y => y, fun _ y => .fin (y 0), fun _ _ _ _ _ _ => rfl, fun _ _ _ _ _ => rfl, fun _ _ _ _ => rfl⟩ 0 1e-6 rfl rfl
    le_rfl (by norm_num) (by norm_num) start _ (fun k hk => C91_separated (N := N) 0 1e-6 le_rfl (by norm_num) (by norm_num) _ _ _ ?_ k hk.le)
  intro i j hij
  refine ⟨0, ?_⟩
  have hsum : ∀ N : Nat, ∑ k ∈ Finset.range N, |(1 : ℝ) / 2 ^ (k + 1)| = 1 - 1 / 2 ^ N := by
    intro N
    induction N with
    | zero => simp
    | succ N ih =>
      rw [Finset.sum_range_succ, ih, abs_of_nonneg (by positivity), pow_succ]
      ring
  have hs : ∑ k ∈ Finset.range N, |(halvingScript (Fin 3 → Fl) N).eps k| = 1 - 1 / 2 ^ N := hsum N
  rw [hs]
  have h2 : (0 : ℝ) < 1 / 2 ^ N := by positivity
  have hd : 10 ≤ |start i 0 - start j 0| := by
    show 10 ≤ |10 * ((i.1 : ℕ) : ℝ) - 10 * ((j.1 : ℕ) : ℝ)|
    have hne : (i.1 : ℤ) - j.1 ≠ 0 := by
      intro h
      exact hij (Fin.ext (by omega))
    have : (1 : ℝ) ≤ |((i.1 : ℤ) - (j.1 : ℤ) : ℤ)| := by exact_mod_cast Int.one_le_abs hne
    rw [← mul_sub, abs_mul, abs_of_pos (by norm_num : (0 : ℝ) < 10)]
    push_cast at this
    linarith
  have : 2 * (1 - 1 / 2 ^ N) / √(1 - 0) ≤ (2 : ℝ) := by simp only [sub_zero, Real.sqrt_one, div_one]; linarith
  linarith

end PySGMCMC.Chain
