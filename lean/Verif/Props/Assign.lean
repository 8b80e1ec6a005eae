import Verif.Model.Assign
import Verif.Props.SGHMC
import Verif.Props.SGLD
import Verif.Props.Relativistic
import Verif.Props.SVGD

/-!
# C141: assigning to target parameters between steps

`SVGDSampler` continues from the values that the parameters hold.  The other samplers continue from their own copy: an assignment only
influences where the next gradient is evaluated, and is then overwritten.
-/

namespace PySGMCMC.SVGD

variable {n d : Nat}

/-- A chain in which the user may assign to the particles before each step. -/
noncomputable def runsAssigning (hist : List (Option (Fin n → Fin d → Fl) × Inputs n d × Schedule n)) (s : State n d) : State n d :=
  hist.foldl (fun s x => run x.2.1 x.2.2 (x.1.elim s s.assign)) s

/-- C141 for SVGD: after assigning `x` the particles move on from `x`, with the direction evaluated at `x`, by a step which differs from that of a
sampler newly started at `x` only by the running average of squared directions. -/
theorem C141_svgd_partial (inp : Inputs n d) (σ : Schedule n) (s : State n d) (x : Fin n → Fin d → Fl) (i : Fin n) (a : Fin d) :
    (run inp σ (s.assign x)).particles i a
        = x i a - inp.epsilon * adjGrad inp.fudge (gradTheta inp x i a) (rhsHist inp.alpha (s.hist i a) (gradTheta inp x i a))
    ∧ (run inp σ (s.assign x)).hist i a = rhsHist inp.alpha (s.hist i a) (gradTheta inp x i a)
    ∧ (run inp σ (s.assign x)).cost i = inp.cost (x i) := by
  obtain ⟨h1, h2, h3⟩ := run_eq inp σ (s.assign x)
  rw [h1, h2, h3]
  exact ⟨rfl, rfl, rfl⟩

/-- Only particles and running averages matter for the future. -/
theorem runs_congr (hist : List (Inputs n d × Schedule n)) (s s' : State n d) (h1 : s.particles = s'.particles) (h2 : s.hist = s'.hist) :
    (runs hist s).particles = (runs hist s').particles ∧ (runs hist s).hist = (runs hist s').hist := by
  induction hist generalizing s s' with
  | nil => exact ⟨h1, h2⟩
  | cons x xs ih =>
    obtain ⟨a1, a2, -⟩ := run_eq x.1 x.2 s
    obtain ⟨b1, b2, -⟩ := run_eq x.1 x.2 s'
    refine ih _ _ ?_ ?_
    · rw [a1, b1]
      funext i a
      simp only [nextParticle, nextHist, h1, h2]
    · rw [a2, b2]
      funext i a
      simp only [nextHist, h1, h2]

/-- C141 for SVGD, for whole chains: however the particles got to `x` — by an assignment, or because another sampler moved them — all later
samples are those of a sampler started at `x` with these running averages. -/
theorem C141_svgd_chain_partial (hist : List (Inputs n d × Schedule n)) (s : State n d) (x : Fin n → Fin d → Fl) :
    (runs hist (s.assign x)).particles = (runs hist { State.init x with hist := s.hist }).particles :=
  (runs_congr hist (s.assign x) { State.init x with hist := s.hist } rfl rfl).1

end PySGMCMC.SVGD

namespace PySGMCMC.SGHMC

variable {P : Type} [DecidableEq P] {ι : P → Type}

/-- What the user of an assignment expects: the chain continues from `θ`, with everything else kept. -/
def State.moved {P : Type} {ι : P → Type} (s : State ι) (θ : ∀ i, ι i → Fl) : State ι := ⟨fun i => { s.par i with param := θ i, vec := θ i }, s.cost⟩

/-- A chain in which the user may assign to the target parameters before each step. -/
noncomputable def runsAssigning (hist : List (Option (∀ i, ι i → Fl) × Inputs ι × Schedule P)) (s : State ι) : State ι :=
  hist.foldl (fun s x => run x.2.1 x.2.2 (x.1.elim s s.assign)) s

/-- C141, what holds: the step after an assignment evaluates the gradient at the assigned values (or at values of this step).  What is
missing: it adds the step to the sampler's own copy, not to the assigned value. -/
theorem C141_sghmc_partial (inp : Inputs ι) (σ : Schedule P) (s : State ι) (θ : ∀ i, ι i → Fl) (i : P) :
    (∃ isNew : P → Bool, isNew i = false ∧ ((run inp σ (s.assign θ)).par i).tGrad
        = inp.grad (fun j => if isNew j then (run inp σ (s.assign θ)).params j else θ j) i)
    ∧ (run inp σ (s.assign θ)).par i = next inp i ((run inp σ (s.assign θ)).par i).tGrad (s.par i) :=
  ⟨run_grad inp σ (s.assign θ) i, run_par inp σ (s.assign θ) i⟩

/-- With gradients that are the same everywhere, only the copies matter. -/
theorem run_flat (inp : Inputs ι) (hflat : ∀ θ θ', inp.grad θ = inp.grad θ') (σ : Schedule P) (s s' : State ι)
    (h : ∀ i, { s.par i with param := (s'.par i).param } = s'.par i) : (run inp σ s).par = (run inp σ s').par := by
  funext i
  obtain ⟨u, -, hu⟩ := run_grad inp σ s i
  obtain ⟨u', -, hu'⟩ := run_grad inp σ s' i
  rw [run_par inp σ s i, run_par inp σ s' i, hu, hu', ← h i, hflat _ fun j => if u' j then (run inp σ s').params j else s'.params j]
  rfl

/-- **C141** is violated: with gradients that are the same everywhere (a linear cost) no assignment has any effect on any sample; all samples
are those of the chain without assignments. -/
theorem C141_sghmc_lost_violated (hist : List (Option (∀ i, ι i → Fl) × Inputs ι × Schedule P))
    (hflat : ∀ x ∈ hist, ∀ θ θ', x.2.1.grad θ = x.2.1.grad θ') (s : State ι) :
    (runsAssigning hist s).params = (runs (hist.map Prod.snd) s).params := by
  have key : ∀ (hist : List (Option (∀ i, ι i → Fl) × Inputs ι × Schedule P)) (s s' : State ι), s.par = s'.par →
      (∀ x ∈ hist, ∀ θ θ', x.2.1.grad θ = x.2.1.grad θ') → (runsAssigning hist s).par = (runs (hist.map Prod.snd) s').par := by
    intro hist
    induction hist with
    | nil => intro s s' h _; exact h
    | cons x xs ih =>
      intro s s' h hf
      refine ih _ _ ?_ fun y hy => hf y (List.mem_cons_of_mem _ hy)
      refine run_flat x.2.1 (hf x List.mem_cons_self) x.2.2 _ s' fun i => ?_
      rw [← h]
      cases x.1 <;> rfl
  funext i
  exact congrArg PState.param (congrFun (key hist s s rfl hflat) i)

/-- **C141** is violated, one step: the sample lies where the chain would have gone without the assignment, while that of a sampler which
had moved to `θ` would lie just as far from `θ`. -/
theorem C141_sghmc_step_violated (inp : Inputs ι) (hflat : ∀ θ θ', inp.grad θ = inp.grad θ') (σ : Schedule P) (s : State ι)
    (θ : ∀ i, ι i → Fl) :
    ∃ δ : ∀ i, ι i → Fl, ∀ (i : P) (k : ι i),
      (run inp σ s).params i k = (s.par i).vec k + δ i k
      ∧ (run inp σ (s.assign θ)).params i k = (s.par i).vec k + δ i k
      ∧ (run inp σ (s.moved θ)).params i k = θ i k + δ i k := by
  obtain ⟨γ, hγ⟩ : ∃ γ : ∀ i, ι i → Fl, ∀ s' i, ((run inp σ s').par i).tGrad = γ i :=
    ⟨fun i => ((run inp σ s).par i).tGrad, fun s' i => by
      obtain ⟨u, -, hu⟩ := run_grad inp σ s i
      obtain ⟨u', -, hu'⟩ := run_grad inp σ s' i
      show _ = ((run inp σ s).par i).tGrad
      rw [hu, hu', hflat _ fun j => if u j then (run inp σ s).params j else s.params j]⟩
  have main : ∀ s' : State ι, ∀ i, ((run inp σ s').par i) = next inp i (γ i) (s'.par i) := fun s' i => by
    rw [run_par, hγ]
  refine ⟨fun i => (next inp i (γ i) (s.par i)).mom, fun i k => ⟨?_, ?_, ?_⟩⟩ <;>
    (unfold State.params; rw [main]; rfl)

end PySGMCMC.SGHMC

namespace PySGMCMC.SGLD

variable {P : Type} [DecidableEq P] {ι : P → Type}

/-- What the user of an assignment expects: the chain continues from `θ`, with everything else kept. -/
def State.moved {P : Type} {ι : P → Type} (s : State ι) (θ : ∀ i, ι i → Fl) : State ι := ⟨fun i => { s.par i with param := θ i, vec := θ i }, s.cost⟩

/-- A chain in which the user may assign to the target parameters before each step. -/
noncomputable def runsAssigning (hist : List (Option (∀ i, ι i → Fl) × Inputs ι × Schedule P)) (s : State ι) : State ι :=
  hist.foldl (fun s x => run x.2.1 x.2.2 (x.1.elim s s.assign)) s

/-- C141, what holds: the step after an assignment evaluates the gradient at the assigned values (or at values of this step).  What is
missing: it adds the step to the sampler's own copy, not to the assigned value. -/
theorem C141_sgld_partial (inp : Inputs ι) (σ : Schedule P) (s : State ι) (θ : ∀ i, ι i → Fl) (i : P) :
    (∃ isNew : P → Bool, isNew i = false ∧ ((run inp σ (s.assign θ)).par i).tGrad
        = inp.grad (fun j => if isNew j then (run inp σ (s.assign θ)).params j else θ j) i)
    ∧ (run inp σ (s.assign θ)).par i = next inp i ((run inp σ (s.assign θ)).par i).tGrad (s.par i) :=
  ⟨run_grad inp σ (s.assign θ) i, run_par inp σ (s.assign θ) i⟩

/-- With gradients that are the same everywhere, only the copies matter. -/
theorem run_flat (inp : Inputs ι) (hflat : ∀ θ θ', inp.grad θ = inp.grad θ') (σ : Schedule P) (s s' : State ι)
    (h : ∀ i, { s.par i with param := (s'.par i).param } = s'.par i) : (run inp σ s).par = (run inp σ s').par := by
  funext i
  obtain ⟨u, -, hu⟩ := run_grad inp σ s i
  obtain ⟨u', -, hu'⟩ := run_grad inp σ s' i
  rw [run_par inp σ s i, run_par inp σ s' i, hu, hu', ← h i, hflat _ fun j => if u' j then (run inp σ s').params j else s'.params j]
  rfl

/-- **C141** is violated: with gradients that are the same everywhere (a linear cost) no assignment has any effect on any sample; all samples
are those of the chain without assignments. -/
theorem C141_sgld_lost_violated (hist : List (Option (∀ i, ι i → Fl) × Inputs ι × Schedule P))
    (hflat : ∀ x ∈ hist, ∀ θ θ', x.2.1.grad θ = x.2.1.grad θ') (s : State ι) :
    (runsAssigning hist s).params = (runs (hist.map Prod.snd) s).params := by
  have key : ∀ (hist : List (Option (∀ i, ι i → Fl) × Inputs ι × Schedule P)) (s s' : State ι), s.par = s'.par →
      (∀ x ∈ hist, ∀ θ θ', x.2.1.grad θ = x.2.1.grad θ') → (runsAssigning hist s).par = (runs (hist.map Prod.snd) s').par := by
    intro hist
    induction hist with
    | nil => intro s s' h _; exact h
    | cons x xs ih =>
      intro s s' h hf
      refine ih _ _ ?_ fun y hy => hf y (List.mem_cons_of_mem _ hy)
      refine run_flat x.2.1 (hf x List.mem_cons_self) x.2.2 _ s' fun i => ?_
      rw [← h]
      cases x.1 <;> rfl
  funext i
  exact congrArg PState.param (congrFun (key hist s s rfl hflat) i)

/-- **C141** is violated, one step: the sample lies where the chain would have gone without the assignment, while that of a sampler which
had moved to `θ` would lie just as far from `θ`. -/
theorem C141_sgld_step_violated (inp : Inputs ι) (hflat : ∀ θ θ', inp.grad θ = inp.grad θ') (σ : Schedule P) (s : State ι)
    (θ : ∀ i, ι i → Fl) :
    ∃ δ : ∀ i, ι i → Fl, ∀ (i : P) (k : ι i),
      (run inp σ s).params i k = (s.par i).vec k + δ i k
      ∧ (run inp σ (s.assign θ)).params i k = (s.par i).vec k + δ i k
      ∧ (run inp σ (s.moved θ)).params i k = θ i k + δ i k := by
  obtain ⟨γ, hγ⟩ : ∃ γ : ∀ i, ι i → Fl, ∀ s' i, ((run inp σ s').par i).tGrad = γ i :=
    ⟨fun i => ((run inp σ s).par i).tGrad, fun s' i => by
      obtain ⟨u, -, hu⟩ := run_grad inp σ s i
      obtain ⟨u', -, hu'⟩ := run_grad inp σ s' i
      show _ = ((run inp σ s).par i).tGrad
      rw [hu, hu', hflat _ fun j => if u j then (run inp σ s).params j else s.params j]⟩
  have main : ∀ s' : State ι, ∀ i, ((run inp σ s').par i) = next inp i (γ i) (s'.par i) := fun s' i => by
    rw [run_par, hγ]
  refine ⟨fun i => (next inp i (γ i) (s.par i)).tVec, fun i k => ⟨?_, ?_, ?_⟩⟩ <;>
    (unfold State.params; rw [main]; rfl)

end PySGMCMC.SGLD

namespace PySGMCMC.Relativistic

variable {P : Type} [DecidableEq P]

/-- What the user of an assignment expects: the chain continues from `θ`, with everything else kept. -/
def State.moved {P : Type} (s : State P) (θ : P → Fl) : State P := ⟨fun i => { s.par i with param := θ i, vec := θ i }, s.cost⟩

/-- A chain in which the user may assign to the target parameters before each step. -/
noncomputable def runsAssigning (hist : List (Option (P → Fl) × Inputs P × Schedule P)) (s : State P) : State P :=
  hist.foldl (fun s x => run x.2.1 x.2.2 (x.1.elim s s.assign)) s

/-- C141, what holds: the step after an assignment evaluates the gradient at the assigned values (or at values of this step).  What is
missing: it adds the step to the sampler's own copy, not to the assigned value. -/
theorem C141_relativistic_partial (inp : Inputs P) (σ : Schedule P) (s : State P) (θ : P → Fl) (i : P) :
    (∃ isNew : P → Bool, isNew i = false ∧ ((run inp σ (s.assign θ)).par i).tGrad
        = -(inp.grad (fun j => if isNew j then (run inp σ (s.assign θ)).params j else θ j) i))
    ∧ (run inp σ (s.assign θ)).par i = next inp i ((run inp σ (s.assign θ)).par i).tGrad (s.par i) :=
  ⟨run_grad inp σ (s.assign θ) i, run_par inp σ (s.assign θ) i⟩

/-- With gradients that are the same everywhere, only the copies matter. -/
theorem run_flat (inp : Inputs P) (hflat : ∀ θ θ', inp.grad θ = inp.grad θ') (σ : Schedule P) (s s' : State P)
    (h : ∀ i, { s.par i with param := (s'.par i).param } = s'.par i) : (run inp σ s).par = (run inp σ s').par := by
  funext i
  obtain ⟨u, -, hu⟩ := run_grad inp σ s i
  obtain ⟨u', -, hu'⟩ := run_grad inp σ s' i
  rw [run_par inp σ s i, run_par inp σ s' i, hu, hu', ← h i, hflat _ fun j => if u' j then (run inp σ s').params j else s'.params j]
  rfl

/-- **C141** is violated: with gradients that are the same everywhere (a linear cost) no assignment has any effect on any sample; all samples
are those of the chain without assignments. -/
theorem C141_relativistic_lost_violated (hist : List (Option (P → Fl) × Inputs P × Schedule P))
    (hflat : ∀ x ∈ hist, ∀ θ θ', x.2.1.grad θ = x.2.1.grad θ') (s : State P) :
    (runsAssigning hist s).params = (runs (hist.map Prod.snd) s).params := by
  have key : ∀ (hist : List (Option (P → Fl) × Inputs P × Schedule P)) (s s' : State P), s.par = s'.par →
      (∀ x ∈ hist, ∀ θ θ', x.2.1.grad θ = x.2.1.grad θ') → (runsAssigning hist s).par = (runs (hist.map Prod.snd) s').par := by
    intro hist
    induction hist with
    | nil => intro s s' h _; exact h
    | cons x xs ih =>
      intro s s' h hf
      refine ih _ _ ?_ fun y hy => hf y (List.mem_cons_of_mem _ hy)
      refine run_flat x.2.1 (hf x List.mem_cons_self) x.2.2 _ s' fun i => ?_
      rw [← h]
      cases x.1 <;> rfl
  funext i
  exact congrArg PState.param (congrFun (key hist s s rfl hflat) i)

/-- **C141** is violated, one step: the sample lies where the chain would have gone without the assignment, while that of a sampler which
had moved to `θ` would lie just as far from `θ`. -/
theorem C141_relativistic_step_violated (inp : Inputs P) (hflat : ∀ θ θ', inp.grad θ = inp.grad θ') (σ : Schedule P) (s : State P)
    (θ : P → Fl) :
    ∃ δ : P → Fl, ∀ (i : P),
      (run inp σ s).params i = (s.par i).vec + δ i
      ∧ (run inp σ (s.assign θ)).params i = (s.par i).vec + δ i
      ∧ (run inp σ (s.moved θ)).params i = θ i + δ i := by
  obtain ⟨γ, hγ⟩ : ∃ γ : P → Fl, ∀ s' i, ((run inp σ s').par i).tGrad = γ i :=
    ⟨fun i => ((run inp σ s).par i).tGrad, fun s' i => by
      obtain ⟨u, -, hu⟩ := run_grad inp σ s i
      obtain ⟨u', -, hu'⟩ := run_grad inp σ s' i
      show _ = ((run inp σ s).par i).tGrad
      rw [hu, hu', hflat _ fun j => if u j then (run inp σ s).params j else s.params j]⟩
  have main : ∀ s' : State P, ∀ i, ((run inp σ s').par i) = next inp i (γ i) (s'.par i) := fun s' i => by
    rw [run_par, hγ]
  refine ⟨fun i => pGrad inp.epsilon inp.mass inp.c (next inp i (γ i) (s.par i)).mom, fun i => ⟨?_, ?_, ?_⟩⟩ <;>
    (unfold State.params; rw [main]; rfl)

end PySGMCMC.Relativistic

namespace PySGMCMC.Relativistic

variable {P : Type} [DecidableEq P]

/-- **C141** is violated by relativistic SGHMC with every cost: after assigning a value further than `2 |ε| c` away, the sample is further
from the assigned value than a step can reach. -/
theorem C141_relativistic_far_violated (inp : Inputs P) (σ : Schedule P) (s : State P) (θ : P → Fl) (i : P) (eps m c d bhat th new : ℝ)
    (hin : RealInputs inp eps m c d bhat) (he : eps ≠ 0) (hth : (s.par i).vec = .fin th) (hθ : θ i = .fin new)
    (hp : Fl.IsFin ((run inp σ (s.assign θ)).par i).mom) (hfar : 2 * (|eps| * c) ≤ |new - th|) :
    ∃ x x', θ i = .fin x ∧ (run inp σ (s.assign θ)).params i = .fin x' ∧ |eps| * c < |x' - x| := by
  obtain ⟨th', h1, -, h3⟩ := C35_speed_limit inp σ (s.assign θ) i eps m c d bhat th hin he hth hp
  refine ⟨new, th', hθ, h1, ?_⟩
  have := abs_sub_abs_le_abs_sub (new - th) (th' - th)
  rw [show new - th - (th' - th) = -(th' - new) by ring, abs_neg] at this
  linarith

end PySGMCMC.Relativistic

namespace PySGMCMC

/-! ## The hypotheses can be met -/

/-- The cost `θ` has the same gradient everywhere, for SGHMC and SGLD. -/
example : (∀ θ θ', SGHMC.linear.grad θ = SGHMC.linear.grad θ') ∧ ∀ θ θ', SGLD.linear.grad θ = SGLD.linear.grad θ' :=
  ⟨fun _ _ => rfl, fun _ _ => rfl⟩

/-- The assignment of `100` to the parameter of an SGLD sampler at `1` is lost after any number of steps. -/
example (N : Nat) : (SGLD.runsAssigning (List.replicate (N + 1) (some fun _ _ => .fin 100, SGLD.linear, SGLD.seqUnit)) (SGLD.State.init fun _ _ => .fin 1)).params
    = (SGLD.runs (List.replicate (N + 1) (SGLD.linear, SGLD.seqUnit)) (SGLD.State.init fun _ _ => .fin 1)).params := by
  rw [SGLD.C141_sgld_lost_violated _ (fun x hx => by rw [List.eq_of_mem_replicate hx]; exact fun _ _ => rfl), List.map_replicate]

/-- Relativistic SGHMC with cost `x²/2` at `0`: the hypotheses hold after assigning `1`. -/
example (σ : Relativistic.Schedule Unit) (s : Relativistic.State Unit) (h1 : (s.par ()).vec = .fin 0) (h2 : (s.par ()).mom = .fin 1) :
    Fl.IsFin ((Relativistic.run (Relativistic.quadratic 1) σ (s.assign fun _ => .fin 1)).par ()).mom := by
  have hin : Relativistic.RealInputs (Relativistic.quadratic 1) (1 / 10) 1 2 1 1 := ⟨rfl, rfl, rfl, rfl, rfl, by norm_num, by norm_num⟩
  obtain ⟨u, hu, hg⟩ := Relativistic.run_grad (Relativistic.quadratic 1) σ (s.assign fun _ => .fin 1) ()
  refine ⟨_, (Relativistic.C36_finite_step _ σ (s.assign fun _ => .fin 1) () (1 / 10) 1 2 1 1 1 0 1 (1 / 2) hin (by norm_num) h2 h1 ?_ rfl).1⟩
  rw [hg]
  show -(if u () = true then _ else _) = _
  rw [hu]
  exact Fl.neg_fin 1

example : 2 * (|(1 / 10 : ℝ)| * 2) ≤ |(1 : ℝ) - 0| := by norm_num [abs_of_pos]

end PySGMCMC
