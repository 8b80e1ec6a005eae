import Verif.Lemmas.SGLD
import Verif.Lemmas.BurnInStats

/-!
# C29, C30, C33, C34, C40 for SGLD
-/

namespace PySGMCMC.SGLD
open BurnInStats

variable {P : Type} [DecidableEq P] {ι : P → Type}

/-- The statistics of element `k` of parameter `i`. -/
def stats (s : State ι) (i : P) (k : ι i) : Stats :=
  ⟨(s.par i).tau k, (s.par i).r k, (s.par i).g k, (s.par i).vhat k, (s.par i).minv k⟩

theorem stats_run (inp : Inputs ι) (σ : Schedule P) (s : State ι) (i : P) (k : ι i) :
    stats (run inp σ s) i k = (stats s i k).next (((run inp σ s).par i).tGrad k) := by
  have h := run_par inp σ s i
  simp only [stats, Stats.next]
  rw [h]
  rfl

theorem stats_runs (hist : List (Inputs ι × Schedule P)) (s : State ι) (i : P) (k : ι i) :
    stats (runs hist s) i k = (gradients i k hist s).foldl Stats.next (stats s i k) := by
  induction hist generalizing s with
  | nil => rfl
  | cons x xs ih =>
    show stats (runs xs (run x.1 x.2 s)) i k = _
    rw [ih, stats_run]; rfl

theorem gradients_length (hist : List (Inputs ι × Schedule P)) (s : State ι) (i : P) (k : ι i) :
    (gradients i k hist s).length = hist.length := by
  induction hist generalizing s with
  | nil => rfl
  | cons x xs ih => simp [gradients, ih]

/-- C29 for SGLD: from the initial state, after any chain of runs in which the evaluated gradients of an element were
finite, its statistics are finite, the squared-gradient average is positive and at least the square of the gradient
average, the window is at least 1, the rate is in (0, 1/2] and the inverse mass is positive. -/
theorem C29_sgld_statistics (θ : ∀ i, ι i → Fl) (hist : List (Inputs ι × Schedule P)) (i : P) (k : ι i)
    (hfin : ∀ x ∈ gradients i k hist (State.init θ), Fl.IsFin x) :
    ∃ tau r g v m : ℝ,
      ((runs hist (State.init θ)).par i).tau k = .fin tau ∧ ((runs hist (State.init θ)).par i).r k = .fin r
      ∧ ((runs hist (State.init θ)).par i).g k = .fin g ∧ ((runs hist (State.init θ)).par i).vhat k = .fin v
      ∧ ((runs hist (State.init θ)).par i).minv k = .fin m
      ∧ 1 ≤ tau ∧ 0 < r ∧ r ≤ 1 / 2 ∧ g ^ 2 ≤ v ∧ 0 < v ∧ 0 < m := by
  obtain ⟨tau, r, g, v, m, he, hok, h1, h2, h3⟩ := stats_ok _ hfin
  have hs := stats_runs hist (State.init θ) i k
  rw [show stats (State.init θ) i k = Stats.init from rfl, he] at hs
  simp only [stats, Stats.mk.injEq] at hs
  exact ⟨tau, r, g, v, m, hs.1, hs.2.1, hs.2.2.1, hs.2.2.2.1, hs.2.2.2.2, hok.tau, h1, h2, hok.sq, hok.pos, h3⟩

/-- C30 for SGLD: gradients bounded by `G ≥ 1` bound window and inverse mass. -/
theorem C30_sgld_bounds (θ : ∀ i, ι i → Fl) (hist : List (Inputs ι × Schedule P)) (i : P) (k : ι i) (G : ℝ)
    (hG : 1 ≤ G)
    (hx : ∀ x ∈ gradients i k hist (State.init θ), ∃ r : ℝ, x = .fin r ∧ |r| ≤ G) :
    ∃ tau v m : ℝ,
      ((runs hist (State.init θ)).par i).tau k = .fin tau ∧ ((runs hist (State.init θ)).par i).vhat k = .fin v
      ∧ ((runs hist (State.init θ)).par i).minv k = .fin m
      ∧ tau ≤ hist.length + 1 ∧ 1 / 2 ^ hist.length ≤ v ∧ v ≤ G ^ 2
      ∧ 1 / (G + 3e-16) ≤ m ∧ m ≤ 2 ^ hist.length := by
  obtain ⟨tau, r, g, v, m, he, hok, h1, h2, h3, h4, h5⟩ := stats_bounds G hG _ hx
  have hs := stats_runs hist (State.init θ) i k
  rw [show stats (State.init θ) i k = Stats.init from rfl, he] at hs
  simp only [stats, Stats.mk.injEq] at hs
  rw [gradients_length] at h1 h3 h5
  refine ⟨tau, v, m, hs.1, hs.2.2.2.1, hs.2.2.2.2, h1, h3, h2, ?_, ?_⟩
  · have : (3e-16 : ℝ) = 3 * c16 := by unfold c16; norm_num
    rw [this]; exact h4
  · have h6 : (2 : ℝ) ^ (hist.length - 1) ≤ 2 ^ hist.length := pow_le_pow_right₀ (by norm_num) (by omega)
    have h7 : (1 : ℝ) ≤ 2 ^ hist.length := one_le_pow₀ (by norm_num)
    nlinarith

/-! ## C34 -/

/-- Whatever order the runtime chooses, every parameter makes the simultaneous update, with a gradient that was
evaluated at its own old value (and at the old or new values of the other parameters). -/
theorem C34_any_order (inp : Inputs ι) (σ : Schedule P) (s : State ι) (i : P) :
    ∃ isNew : P → Bool, isNew i = false ∧
      (run inp σ s).par i = next inp i
        (inp.grad (fun j => if isNew j then (run inp σ s).params j else s.params j) i) (s.par i) := by
  obtain ⟨isNew, h0, h⟩ := run_grad inp σ s i
  refine ⟨isNew, h0, ?_⟩
  rw [run_par, h]

/-- The mass used in a step: the fed one, or the one computed from the old squared-gradient average. -/
def MassUsed (inp : Inputs ι) (i : P) (k : ι i) (v m : ℝ) : Prop :=
  (inp.fed i = none ∧ m = 1 / (Real.sqrt v + 3e-16)) ∨ ∃ f, inp.fed i = some f ∧ f k = .fin m

theorem minvSeen_eq (inp : Inputs ι) (i : P) (k : ι i) (p : PState (ι i)) (v m : ℝ) (hv : 0 < v)
    (hp : p.vhat k = .fin v) (hm : MassUsed inp i k v m) :
    minvSeen (inp.fed i) (fun k => rhsMinv (p.vhat k)) k = .fin m := by
  rcases hm with ⟨h1, rfl⟩ | ⟨f, h1, h2⟩
  · rw [h1]
    show rhsMinv (p.vhat k) = _
    rw [hp, rhsMinv_fin hv]
    congr 3
    unfold c16; norm_num
  · rw [h1]; exact h2

/-- C34 (noise): for finite stepsize, `A` and mass and positive scale the factor of the normal draw is finite and
non-negative; its square is `2 ε m A / (scale + 3e-16)` if that is non-negative, and `0` otherwise. -/
theorem C34_noise (eps a scale m : ℝ) (hs : 0 < scale) :
    ∃ sd : ℝ, sigma (.fin eps) (.fin a) (.fin scale) (.fin m) = .fin sd ∧ 0 ≤ sd
      ∧ (0 ≤ 2 * eps * m * a / (scale + 3e-16) → sd ^ 2 = 2 * eps * m * a / (scale + 3e-16))
      ∧ (2 * eps * m * a / (scale + 3e-16) < 0 → sd = 0) := by
  have hc : (3e-16 : ℝ) = 3 * c16 := by unfold c16; norm_num
  obtain ⟨sd, h1, h2, h3, h4⟩ := TensorUtils.C24_safe_sqrt (2 * eps * m * a / (scale + 3e-16))
  refine ⟨sd, ?_, h2, fun h => by rw [pow_two]; exact h3 h, h4⟩
  rw [← h1]
  unfold sigma noiseConst
  rw [Fl.ofNat_zero, Fl.sub_fin, Fl.mul_fin, safeDivide'_pos _ hs, Fl.ofNat_def, Fl.mul_fin, Fl.mul_fin, hc]
  congr 2
  push_cast
  ring

/-- C34 (step): the new value of every variable in one run on finite state, element by element. -/
theorem C34_langevin_step (inp : Inputs ι) (σ : Schedule P) (s : State ι) (i : P) (k : ι i)
    (tau g v th eps a scale x z m : ℝ)
    (htau : (s.par i).tau k = .fin tau) (hg : (s.par i).g k = .fin g) (hv : (s.par i).vhat k = .fin v)
    (hth : (s.par i).vec k = .fin th)
    (heps : inp.epsilon = .fin eps) (ha : inp.a = .fin a) (hscale : inp.scaleGrad = .fin scale)
    (hx : ((run inp σ s).par i).tGrad k = .fin x) (hz : inp.normal i k = .fin z) (hm : MassUsed inp i k v m)
    (h1 : 1 ≤ tau) (h2 : 0 < v) (h3 : 0 < scale) :
    ∃ sd : ℝ, sigma (.fin eps) (.fin a) (.fin scale) (.fin m) = .fin sd ∧
    let p' := (run inp σ s).par i
    let r := 1 / (tau + 1)
    let th' := th - eps * m * a * x + sd * z
    p'.r k = .fin r
    ∧ p'.tau k = .fin (tau - g ^ 2 * tau / (v + 3e-16) + 1)
    ∧ p'.minv k = .fin (1 / (Real.sqrt v + 3e-16))
    ∧ p'.g k = .fin ((1 - r) * g + r * x)
    ∧ p'.vhat k = .fin ((1 - r) * v + r * x ^ 2)
    ∧ p'.vec k = .fin th'
    ∧ p'.param k = .fin th' := by
  obtain ⟨sd, hsd, _⟩ := C34_noise eps a scale m h3
  refine ⟨sd, hsd, ?_⟩
  have hseen := minvSeen_eq inp i k (s.par i) v m h2 hv hm
  have hc : (3e-16 : ℝ) = 3 * c16 := by unfold c16; norm_num
  have hp := run_par inp σ s i
  rw [hc]
  have hdv : (s.par i).vec k + rhsVec inp.epsilon inp.a
      (minvSeen (inp.fed i) (fun k => rhsMinv ((s.par i).vhat k)) k) (((run inp σ s).par i).tGrad k)
      (sigma inp.epsilon inp.a inp.scaleGrad
        (minvSeen (inp.fed i) (fun k => rhsMinv ((s.par i).vhat k)) k) * inp.normal i k)
      = .fin (th - eps * m * a * x + sd * z) := by
    rw [hseen, heps, hscale, ha, hsd, hx, hz, hth]
    unfold rhsVec
    simp only [Fl.neg_fin, Fl.mul_fin, Fl.add_fin]
    congr 1
    ring
  refine ⟨?_, ?_, ?_, ?_, ?_, ?_, ?_⟩
  · have e : ((run inp σ s).par i).r k = rhsR ((s.par i).tau k) := congrFun (congrArg PState.r hp) k
    rw [e, htau, rhsR_fin h1]
  · have e : ((run inp σ s).par i).tau k = (s.par i).tau k + rhsTau ((s.par i).g k) ((s.par i).tau k) ((s.par i).vhat k) :=
      congrFun (congrArg PState.tau hp) k
    rw [e, htau, hg, hv, rhsTau_fin _ _ h2, Fl.add_fin]
    congr 1
    ring
  · have e : ((run inp σ s).par i).minv k = rhsMinv ((s.par i).vhat k) := congrFun (congrArg PState.minv hp) k
    rw [e, hv, rhsMinv_fin h2]
  · have e : ((run inp σ s).par i).g k = (s.par i).g k
        + rhsG (rhsR ((s.par i).tau k)) ((s.par i).g k) (((run inp σ s).par i).tGrad k) :=
      congrFun (congrArg PState.g hp) k
    rw [e, hg, htau, rhsR_fin h1, hx, rhsG_fin, Fl.add_fin]
    congr 1
    ring
  · have e : ((run inp σ s).par i).vhat k = (s.par i).vhat k
        + rhsVhat (rhsR ((s.par i).tau k)) ((s.par i).vhat k) (((run inp σ s).par i).tGrad k) :=
      congrFun (congrArg PState.vhat hp) k
    rw [e, hv, htau, rhsR_fin h1, hx, rhsVhat_fin, Fl.add_fin]
    congr 1
    ring
  · rw [← hdv]; exact congrFun (congrArg PState.vec hp) k
  · rw [← hdv]; exact congrFun (congrArg PState.param hp) k

/-! ## C33 -/

/-- C33 for SGLD: from any state whatsoever (any initializer schedule, any re-initialization), after a chain of at
least one run every target parameter equals the sampler's vectorized copy. -/
theorem C33_sgld_coherent (s : State ι) (hist : List (Inputs ι × Schedule P)) (h : hist ≠ []) (i : P) :
    ((runs hist s).par i).param = ((runs hist s).par i).vec := by
  obtain ⟨pre, x, rfl⟩ := List.eq_nil_or_concat hist |>.resolve_left h
  simp only [runs, List.foldl_concat, List.concat_eq_append, List.foldl_append, List.foldl_cons, List.foldl_nil]
  rw [run_par]
  rfl

/-! ## C40 -/

/-- C40 (what holds): if the gradient of each parameter depends on that parameter only (in particular if there is only
one), a run is a deterministic function of state and inputs. -/
theorem C40_sgld_partial (inp : Inputs ι)
    (hsep : ∀ i θ θ', θ i = θ' i → inp.grad θ i = inp.grad θ' i) (σ σ' : Schedule P) (s : State ι) :
    (run inp σ s).par = (run inp σ' s).par := by
  funext i
  have key : ∀ σ : Schedule P, (run inp σ s).par i = next inp i (inp.grad s.params i) (s.par i) := by
    intro σ
    obtain ⟨isNew, h0, h⟩ := C34_any_order inp σ s i
    rw [h]
    congr 1
    apply hsep
    simp [h0]
  rw [key, key]

/-! ## C73 -/

/-- C73 for SGLD (what holds). -/
theorem C73_sgld_cost_partial (inp : Inputs ι) (σ : Schedule P) (s : State ι) :
    ∃ isNew : P → Bool,
      (run inp σ s).cost = inp.cost (fun j => if isNew j then (run inp σ s).params j else s.params j) :=
  run_cost inp σ s

/-! ## Non-vacuity -/

/-- One scalar parameter, cost `x`. -/
noncomputable def linear : Inputs (fun _ : Unit => Unit) where
  epsilon := .fin 1
  scaleGrad := .fin 1
  a := .fin 1
  normal _ _ := .fin 0
  grad _ _ _ := .fin 1
  cost θ := θ () ()
  fed _ := none

/-- A three-step chain with finite gradients (C29, C30, C33, C34). -/
example : ∀ x ∈ gradients () () [(linear, seqUnit), (linear, costLastUnit), (linear, seqUnit)]
    (State.init fun _ _ => .fin 1), ∃ r : ℝ, x = .fin r ∧ |r| ≤ 1 := by
  have hx : ∀ (σ : Schedule Unit) s, ((run linear σ s).par ()).tGrad () = .fin 1 := by
    intro σ s
    obtain ⟨_, _, h⟩ := run_grad linear σ s ()
    rw [h]; rfl
  intro x h
  simp only [gradients, hx, List.mem_cons, List.not_mem_nil, or_false, or_self] at h
  exact ⟨1, h, by norm_num⟩

end PySGMCMC.SGLD
