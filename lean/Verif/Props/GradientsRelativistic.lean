import Verif.Props.Gradients
import Verif.Props.PlainChain

/-!
# C143 for relativistic SGHMC

Its parameters are scalars, and it differentiates the negative cost.
-/

namespace PySGMCMC.Gradients
open TensorUtils Recipe Chain SamplerBase Spec

variable {n : Nat} {ctx : List Nat}

/-- A relativistic SGHMC sampler whose cost function builds the graph `T`.  The model of the sampler negates what it is given as gradient; the
code differentiates `-cost` instead (`relativistic_sghmc.py:97-103`), so what it is given here is the negative of that. -/
noncomputable def relWorld (T : Graph (fun _ : Fin n => 1) (Nat → Option Arr) Fl ctx) (cost : Ref ctx 1) (m c D bhat : Fl) (normal : Nat → Fin n → Fl)
    (order : Nat → Relativistic.Schedule (Fin n)) : RelWorld n where
  mass := m
  c := c
  d := D
  bhat := bhat
  grad d θ i := -gradOf (T.snoc (.map (fun x => -x) (fun _ => -1) cost)) .here (fed d) (fun i _ => θ i) i 0
  cost d θ := T.eval (fed d) (fun i _ => θ i) 1 cost 0
  normal := normal
  order := order

/-- What C90 needs to know about the cost. -/
noncomputable def relProblem {F : Feeder} {N : Nat} (S : Script F N) (T : Graph (fun _ : Fin n => 1) (Nat → Option Arr) Fl ctx) (cost : Ref ctx 1)
    (hu : ∀ i, T.uses 1 cost i) (h : ∀ k < N, ∀ θ : ∀ _ : Fin n, Fin 1 → ℝ, T.Sound (fed (S.data k)) θ) (m c D bhat : Fl)
    (normal : Nat → Fin n → Fl) (order : Nat → Relativistic.Schedule (Fin n)) :
    RelProblem S (relWorld T cost m c D bhat normal order) (fun _ => true) where
  γ k θ i := partialD (T.costAt cost (fed (S.data k))) ⟨i, 0⟩ fun q => θ q.1
  c k θ := .fin (T.costAt cost (fed (S.data k)) fun q => θ q.1)
  grad_eq k hk d hd θ i := by
    have e : fed d = fed (S.data k) := funext hd
    have h0 : T.Sound (fed (S.data k)) fun i _ => θ i := h k hk _
    have e1 : ∀ y : ℝ, (-(Fl.fin y)) = .fin (-y) := fun _ => rfl
    have e2 : (-1 : Fl) = .fin (-1) := by
      show Fl.fin (-((1 : Nat) : ℝ)) = _
      rw [Nat.cast_one]
    have h1 : Graph.Sound (fed (S.data k)) (fun i _ => θ i) (T.snoc (.map (fun x => -x) (fun _ => -1) cost)) := by
      refine ⟨h0, fun l => ⟨⟨_, e1 _⟩, ⟨_, e2⟩, ?_⟩⟩
      rw [e2]
      exact (hasDerivAt_id _).neg
    have h2 := (C143_gradients (T.snoc (.map (fun x => -x) (fun _ => -1) cost)) .here (x := fun q => θ q.1) h1).2 i (hu i)
    have h3 : Graph.costAt (T.snoc (.map (fun x => -x) (fun _ => -1) cost)) .here (fed (S.data k)) = fun y => -T.costAt cost (fed (S.data k)) y := by
      funext y
      unfold Graph.costAt
      rw [← Finset.sum_neg_distrib]
      rfl
    show -gradOf _ _ (fed d) (fun i _ => Fl.fin (θ i)) i 0 = _
    unfold gradOf
    beta_reduce
    rw [e, show Graph.gradients (T.snoc (.map (fun x => -x) (fun _ => -1) cost)) .here (fed (S.data k)) (fun i _ => .fin (θ i)) i = _ from h2]
    refine congrArg Fl.fin ?_
    rw [h3]
    unfold partialD
    rw [fderiv_fun_neg]
    exact neg_neg _
  cost_eq k hk d hd θ := by
    have e : fed d = fed (S.data k) := funext hd
    show T.eval (fed d) (fun i _ => Fl.fin (θ i)) 1 cost 0 = _
    rw [e, eval_fin T (h k hk fun i _ => θ i) cost 0]
    unfold Graph.costAt
    rw [Fin.sum_univ_one]
    rfl
  accepts _ _ _ _ := rfl

/-- **C143** Relativistic SGHMC with a cost function that builds a graph moves every parameter against the partial derivative of the cost on the
current batch, taken where the parameters are, up to which of the other parameters have already been updated in this step. -/
theorem C143_relativistic_follows {F : Feeder} {N : Nat} (S : Script F N) (T : Graph (fun _ : Fin n => 1) (Nat → Option Arr) Fl ctx) (cost : Ref ctx 1)
    (hu : ∀ i, T.uses 1 cost i) (h : ∀ k < N, ∀ θ : ∀ _ : Fin n, Fin 1 → ℝ, T.Sound (fed (S.data k)) θ) (m c D bhat : ℝ) (m0 : 0 < m) (c0 : 0 < c)
    (hsd : ∀ k < N, 0 ≤ S.eps k * (2 * D - S.eps k * bhat)) (z : Nat → Fin n → ℝ) (order : Nat → Relativistic.Schedule (Fin n)) (θ p : Fin n → ℝ)
    (eps0 : Fl) :
    let W := relWorld T cost (.fin m) (.fin c) (.fin D) (.fin bhat) (fun k i => .fin (z k i)) order
    ∃ (x : Nat → Fin n → ℝ) (cs : Nat → ℝ),
      let θs : Nat → Fin n → ℝ := fun k i => (relChain m c D bhat S.eps (fun j => x j i) (fun j => z j i) (θ i) (p i) k).1
      (calls (asIter (baseNext (env F W.graph fun _ => true))) N
          (init (S.batch 0) (S.sched 0) ⟨RelWorld.start (fun i => .fin (θ i)) (fun i => .fin (p i)), eps0, 0⟩)).1
        = (List.range N).map (fun k : Nat => .ok (unravel (List.ofFn fun i => [.fin (θs (k + 1) i)]), .fin (cs k)))
      ∧ ∀ k < N, let U := T.costAt cost (fed (S.data k))
        (∀ i, ∃ isNew : Fin n → Bool, isNew i = false ∧ x k i = partialD U ⟨i, 0⟩ fun q => mixed isNew (θs (k + 1)) (θs k) q.1)
        ∧ ∃ isNew : Fin n → Bool, cs k = U fun q => mixed isNew (θs (k + 1)) (θs k) q.1 := by
  intro W
  obtain ⟨x, cs, h1, h2⟩ := C90_relativistic_chain S W (fun _ => true) (relProblem S T cost hu h _ _ _ _ _ _) m c D bhat rfl rfl rfl rfl m0 c0 hsd z
    (fun _ _ => rfl) θ p eps0
  refine ⟨x, fun k => (cs k).val, ?_, fun k hk => ⟨fun i => (h2 k hk).1 i, ?_⟩⟩
  · rw [h1]
    refine List.map_congr_left fun k hk => ?_
    obtain ⟨isNew, hc⟩ := (h2 k (List.mem_range.1 hk)).2
    have hf : Fl.fin (cs k).val = cs k := fin_val ⟨_, hc⟩
    simp only [hf]
  · obtain ⟨isNew, hc⟩ := (h2 k hk).2
    exact ⟨isNew, congrArg Fl.val hc⟩

/-- With the cost `(a * b - data)²` of two scalars. -/
example (N : Nat) (b : Nat → ℝ) (z : Nat → Fin 2 → ℝ) (order : Nat → Relativistic.Schedule (Fin 2)) (θ p : Fin 2 → ℝ) :=
  C143_relativistic_follows (streamScript 1 b N) (regression 1) .here (regression_uses 1) (fun k _ => regression_sound 1 (b := b k) rfl) 1 1 1 0
    one_pos one_pos (fun k _ => by show 0 ≤ (1 : ℝ) * (2 * 1 - 1 * 0); norm_num) z order θ p (.fin 0)

end PySGMCMC.Gradients
