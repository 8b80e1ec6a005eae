import Verif.Props.FullChain
import Verif.Props.SamplerInit

/-!
# C99: running `tf.global_variables_initializer()` after a sampler was constructed
-/

namespace PySGMCMC.SamplerInit
open TensorUtils

variable {P : Type} [DecidableEq P]

theorem fold_par (c : Ctor P) (s : Store P) (i : P) (l : List (Node P)) :
    (l.foldl (exec c) s).val (.par i) = if .init (.par i) ∈ l then some (c.initialValue i) else s.val (.par i) := by
  induction l using List.reverseRecOn with
  | nil => simp
  | append_singleton l m ih =>
    rw [List.foldl_append, List.foldl_cons, List.foldl_nil]
    generalize l.foldl (exec c) s = t at ih ⊢
    cases m with
    | test j => simpa [exec] using ih
    | init v =>
      cases v with
      | par j =>
        by_cases hj : j = i
        · subst hj; simp [exec, Store.set]
        · simp [exec, Store.set, Ne.symm hj, ih]
      | vec j =>
        have : (exec c t (.init (.vec j))).val (.par i) = t.val (.par i) := by
          simp only [exec]
          split <;> simp [Store.set]
        rw [this, ih]; simp
      | epsilon => simp [exec, Store.set, ih]
      | other k => simp [exec, Store.set, ih]

theorem fold_test (c : Ctor P) (s : Store P) (i : P) (l : List (Node P)) (h : (s.val (.par i)).isSome) (hm : .test i ∈ l) :
    (l.foldl (exec c) s).test i = true := by
  induction l using List.reverseRecOn with
  | nil => cases hm
  | append_singleton l m ih =>
    rw [List.foldl_append, List.foldl_cons, List.foldl_nil]
    have hp := fold_par c s i l
    have hsome : ((l.foldl (exec c) s).val (.par i)).isSome := by
      rw [hp]; split
      · rfl
      · exact h
    generalize l.foldl (exec c) s = t at ih hsome ⊢
    cases m with
    | test j =>
      by_cases hj : i = j
      · subst hj; simp [exec, hsome]
      · simp only [exec, hj, if_false]
        exact ih (by simpa [hj] using hm)
    | init v =>
      have h2 := ih (by simpa using hm)
      cases v with
      | par j => simpa [exec, Store.set] using h2
      | vec j =>
        simp only [exec]
        split <;> simpa [Store.set] using h2
      | epsilon => simpa [exec, Store.set] using h2
      | other k => simpa [exec, Store.set] using h2

theorem fold_vec (c : Ctor P) (s : Store P) (i : P) (l : List (Node P)) (hm : .init (.vec i) ∉ l) :
    (l.foldl (exec c) s).val (.vec i) = s.val (.vec i) := by
  induction l using List.reverseRecOn with
  | nil => rfl
  | append_singleton l m ih =>
    rw [List.foldl_append, List.foldl_cons, List.foldl_nil]
    have h2 := ih (by intro h; exact hm (by simp [h]))
    have hne : m ≠ .init (.vec i) := by rintro rfl; simp at hm
    generalize l.foldl (exec c) s = t at h2 ⊢
    rw [← h2]
    cases m with
    | test j => rfl
    | init v =>
      cases v with
      | par j => simp [exec, Store.set]
      | vec j =>
        have hj : i ≠ j := by rintro rfl; exact hne rfl
        simp only [exec]
        split <;> simp [Store.set, hj]
      | epsilon => simp [exec, Store.set]
      | other k => simp [exec, Store.set]

/-- **C99** (what holds) Running the initializers of (at least) the target parameters and the sampler's working copies again: every
parameter gets its new initial value; its working copy gets the new value if the parameter's initializer ran first, and otherwise the
value the parameter had before.  Both agree if the initial value is the value the parameter had. -/
theorem C99_reinit_partial (c : Ctor P) (s : Store P) {vars : List (Var P)} (σ : Schedule vars) (hall : ∀ v ∈ candidates c, v ∈ vars)
    (old : P → Tensor Fl) (hold : ∀ i ∈ c.params, s.val (.par i) = some (old i)) (hwf : ∀ i ∈ c.params, (old i).WF)
    (hwf0 : ∀ i ∈ c.params, (c.initialValue i).WF) (i : P) (hi : i ∈ c.params) :
    let s' := runInit c s σ
    s'.val (.par i) = some (c.initialValue i)
    ∧ (∃ t v, s'.val (.vec i) = some v ∧ vectorize (.tensor t) = .ok v ∧ unvectorize v t.shape = .ok t
      ∧ ∃ pre post, σ.order = pre ++ .init (.vec i) :: post ∧ t = if .init (.par i) ∈ pre then c.initialValue i else old i)
    ∧ (c.initialValue i = old i → ∃ v, s'.val (.vec i) = some v ∧ vectorize (.tensor (c.initialValue i)) = .ok v) := by
  have hpar : Node.init (.par i) ∈ σ.order := (σ.init_iff _).2 (hall _ (by simp [candidates, hi]))
  have hvec : Node.init (.vec i) ∈ σ.order := (σ.init_iff _).2 (hall _ (by simp [candidates, hi]))
  have main : ∃ t v, (runInit c s σ).val (.vec i) = some v ∧ vectorize (.tensor t) = .ok v ∧ unvectorize v t.shape = .ok t
      ∧ ∃ pre post, σ.order = pre ++ .init (.vec i) :: post ∧ t = if .init (.par i) ∈ pre then c.initialValue i else old i := by
    obtain ⟨pre, post, horder⟩ := List.append_of_mem hvec
    set t := if Node.init (.par i) ∈ pre then c.initialValue i else old i with ht
    have hwft : t.WF := by
      rw [ht]; split
      · exact hwf0 i hi
      · exact hwf i hi
    obtain ⟨v, hv, hu⟩ := C21_roundtrip t hwft _ (Or.inl rfl)
    refine ⟨t, v, ?_, hv, hu, pre, post, horder, ht⟩
    have hnd := σ.nodup
    rw [horder] at hnd
    have hpost : Node.init (.vec i) ∉ post := (List.nodup_cons.1 (List.nodup_append.1 hnd).2.1).1
    unfold runInit
    rw [horder, List.foldl_append, List.foldl_cons, fold_vec c _ i post hpost]
    have h1 := fold_test c s i pre (by rw [hold i hi]; rfl) (σ.test_first pre i post horder)
    have h2 := fold_par c s i pre
    generalize pre.foldl (exec c) s = u at h1 h2 ⊢
    have h3 : initializedValue c u i = some t := by
      unfold initializedValue
      rw [if_pos h1, h2, ht, hold i hi]
      split <;> rfl
    simp only [exec, h3, Option.map_some, hv]
    simp [Store.set]
  refine ⟨?_, main, fun heq => ?_⟩
  · unfold runInit
    rw [fold_par, if_pos hpar]
  · obtain ⟨t, v, h1, h2, -, pre, post, -, h4⟩ := main
    rw [heq, ite_self] at h4
    exact ⟨v, h1, by rw [heq, ← h4]; exact h2⟩

/-- Parameters last. -/
def staleOrder (l : List P) : List (Node P) :=
  l.map .test ++ l.map (fun i => .init (.vec i)) ++ (l.map (fun i => .init (.par i)) ++ [.init .epsilon])

/-- **C99** is violated: an allowed order after which no working copy is its parameter, if the initial values have changed (as random
initial values do). -/
theorem C99_working_copy_violated (c : Ctor P) (hnd : c.params.Nodup) (s : Store P) (old : P → Tensor Fl)
    (hold : ∀ i ∈ c.params, s.val (.par i) = some (old i)) (hwf : ∀ i ∈ c.params, (old i).WF)
    (hwf0 : ∀ i ∈ c.params, (c.initialValue i).WF) (hshape : ∀ i ∈ c.params, (old i).shape = (c.initialValue i).shape)
    (hne : ∀ i ∈ c.params, old i ≠ c.initialValue i) :
    ∃ σ : Schedule (candidates c), ∀ i ∈ c.params,
      (runInit c s σ).val (.par i) = some (c.initialValue i)
      ∧ ∃ v, (runInit c s σ).val (.vec i) = some v ∧ unvectorize v (c.initialValue i).shape = .ok (old i)
        ∧ unvectorize v (c.initialValue i).shape ≠ .ok (c.initialValue i) := by
  have hinj : ∀ f : P → Node P, Function.Injective f → (c.params.map f).Nodup := fun f hf => (List.nodup_map_iff hf).2 hnd
  let σ : Schedule (candidates c) :=
    { order := staleOrder c.params
      nodup := by
        unfold staleOrder
        rw [List.nodup_append, List.nodup_append, List.nodup_append]
        refine ⟨⟨hinj _ fun a b h => by cases h; rfl, hinj _ fun a b h => by cases h; rfl, ?_⟩,
          ⟨hinj _ fun a b h => by cases h; rfl, by simp, ?_⟩, ?_⟩
        · simp only [List.mem_map]
          rintro _ ⟨a, -, rfl⟩ _ ⟨b, -, rfl⟩ h
          cases h
        · simp only [List.mem_map, List.mem_singleton]
          rintro _ ⟨a, -, rfl⟩ _ rfl h
          cases h
        · simp only [List.mem_append, List.mem_map, List.mem_singleton]
          rintro _ (⟨a, -, rfl⟩ | ⟨a, -, rfl⟩) _ (⟨b, -, rfl⟩ | rfl) h <;> cases h
      init_iff := by
        intro v
        unfold staleOrder candidates
        cases v <;> simp
      test_first := by
        intro pre i post h
        have hmem : Node.init (.vec i) ∈ staleOrder c.params := by rw [h]; simp
        have hi : i ∈ c.params := by
          unfold staleOrder at hmem
          simpa using hmem
        -- the vec initializers come after all tests
        unfold staleOrder at h
        rw [List.append_assoc] at h
        rcases List.append_eq_append_iff.1 h with ⟨a, h1, h2⟩ | ⟨a, h1, h2⟩
        · rw [h1]; exact List.mem_append_left _ (List.mem_map_of_mem hi)
        · cases a with
          | nil =>
            simp only [List.append_nil] at h1
            rw [← h1]; exact List.mem_map_of_mem hi
          | cons b a =>
            exfalso
            have : b = .init (.vec i) := by
              have := congrArg List.head? h2
              simpa using this.symm
            have hb : b ∈ c.params.map Node.test := by rw [h1]; simp
            rw [this] at hb
            simp at hb }
  refine ⟨σ, fun i hi => ?_⟩
  obtain ⟨h1, ⟨t, v, h2, -, h4, pre, post, h5, h6⟩, -⟩ := C99_reinit_partial c s σ (fun _ h => h) old hold hwf hwf0 i hi
  have hpre : Node.init (.par i) ∉ pre := by
    intro hm
    have horder : c.params.map Node.test ++ c.params.map (fun i => .init (.vec i))
        ++ (c.params.map (fun i => .init (.par i)) ++ [.init .epsilon]) = pre ++ .init (.vec i) :: post := h5
    rcases List.append_eq_append_iff.1 horder with ⟨a, e1, e2⟩ | ⟨a, e1, e2⟩
    · have hv : Node.init (.vec i) ∈ c.params.map (fun i => Node.init (.par i)) ++ [.init .epsilon] := by rw [e2]; simp
      simp at hv
    · have hv : Node.init (.par i) ∈ c.params.map Node.test ++ c.params.map (fun i => .init (.vec i)) := by rw [e1]; simp [hm]
      simp at hv
  rw [if_neg hpre] at h6
  subst h6
  refine ⟨h1, v, h2, by rw [← hshape i hi]; exact h4, fun h => hne i hi ?_⟩
  rw [← hshape i hi, h4] at h
  exact Except.ok.inj h

end PySGMCMC.SamplerInit

namespace PySGMCMC.Chain
open SamplerBase Spec

/-- Constant stepsize 1, no batches. -/
@[reducible] def slopeFeeder : Feeder where
  Batch := Unit
  Sched := Unit
  batchNext b := (.ok Dict.empty, b)
  schedNext s := (.ok [.fin 1], s)
  schedUpdate s _ _ := (.ok (), s)

def unitScript (N : Nat) : Script slopeFeeder N where
  batch _ := none
  data _ := Dict.empty
  sched _ := ()
  eps _ := 1
  supplies _ _ := ⟨rfl, rfl⟩
  stepsize _ _ := ⟨(), rfl, fun _ _ => rfl⟩
  user _ _ _ _ := rfl

/-- SGLD with one parameter `θ`, cost `θ`, and normal draws 0. -/
def slope (order : Nat → SGLD.Schedule (Fin 1)) : SGLDWorld (fun _ : Fin 1 => 1) :=
  ⟨.fin 1, .fin 1, fun _ _ _ _ => .fin 1, fun _ θ => θ 0 0, fun _ _ _ => .fin 0, order⟩


/-- The positions of a chain with constant gradients. -/
theorem sgldChain_shift (a scale : ℝ) (B : Int) (eps x z : Nat → ℝ) (th : ℝ) (k : Nat) :
    sgldChain a scale B eps x z th k
      = { sgldChain a scale B eps x z 0 k with pos := th + (sgldChain a scale B eps x z 0 k).pos } := by
  induction k with
  | zero => simp [sgldChain, Coord.start]
  | succ k ih =>
    rw [sgldChain, ih, sgldChain]
    simp only [sgldStep, Coord.averaged, Coord.massUsed]
    congr 1
    ring

/-- A sample of one parameter with one element. -/
noncomputable def sampleOf (B : Int) (k : Nat) (x : ℝ) : Out Arr := if (k : Int) < B then .many [[.fin x]] else .one [.fin x]

/-- **C99** is violated: with cost `θ`, a sampler whose working copy kept the value `a` while the parameter is set to `b ≠ a` yields a
different chain from a sampler started at `b`, for any number of steps. -/
theorem C99_restart_violated (order : Nat → SGLD.Schedule (Fin 1)) (B : Int) (N : Nat) (a b : ℝ) :
    ∃ δ : Nat → ℝ,
      (calls (asIter (burnInNext (env slopeFeeder (slope order).graph fun _ => true) B 1)) N
          (init none () ⟨SGLD.State.start (fun _ _ => .fin a) fun _ _ => .fin b, .fin 1, 0⟩)).1.map (Except.map Prod.fst)
        = (List.range N).map (fun k : Nat => .ok (sampleOf B k (a + δ k)))
      ∧ (calls (asIter (burnInNext (env slopeFeeder (slope order).graph fun _ => true) B 1)) N
          (init none () ⟨SGLD.State.init fun _ _ => .fin b, .fin 1, 0⟩)).1.map (Except.map Prod.fst)
        = (List.range N).map (fun k : Nat => .ok (sampleOf B k (b + δ k)))
      ∧ (a ≠ b → ∀ k, sampleOf B k (a + δ k) ≠ sampleOf B k (b + δ k)) := by
  let Pb : Problem (unitScript N) (slope order).grad (slope order).cost (fun _ => true) :=
    { γ := fun _ _ _ _ => 1
      c := fun _ θ => .fin (θ 0 0)
      grad_eq := fun _ _ _ _ _ _ _ => rfl
      cost_eq := fun _ _ _ _ _ => rfl
      accepts := fun _ _ _ _ => rfl }
  have main : ∀ a : ℝ, (calls (asIter (burnInNext (env slopeFeeder (slope order).graph fun _ => true) B 1)) N
          (init none () ⟨SGLD.State.start (fun _ _ => .fin a) fun _ _ => .fin b, .fin 1, 0⟩)).1.map (Except.map Prod.fst)
        = (List.range N).map (fun k : Nat => .ok (sampleOf B k (a + (sgldChain 1 1 B (fun _ => 1) (fun _ => 1) (fun _ => 0) 0 (k + 1)).pos))) := by
    intro a
    obtain ⟨x, cost, h, hx⟩ := C99_sgld_restart_partial (unitScript N) (slope order) _ Pb 1 1 rfl rfl one_pos (fun _ _ _ => 0)
      (fun _ _ _ => rfl) B (fun _ _ => a) (fun _ _ => b) (.fin 1)
    have hx1 : ∀ k < N, ∀ i p, x k i p = 1 := by
      intro k hk i p
      obtain ⟨isNew, -, e⟩ := (hx k hk).1 i
      rw [e]
    refine (congrArg (List.map (Except.map Prod.fst)) h).trans ?_
    rw [List.map_map]
    apply List.map_congr_left
    intro k hk
    have hk' := List.mem_range.1 hk
    simp only [Function.comp, Except.map]
    congr 1
    have hpos : (sgldChain 1 1 B (unitScript N).eps (fun j => x j 0 0) (fun _ => 0) a (k + 1)).pos
        = a + (sgldChain 1 1 B (fun _ => 1) (fun _ => 1) (fun _ => 0) 0 (k + 1)).pos := by
      rw [sgldChain_congr 1 1 B (unitScript N).eps (x' := fun _ => 1) (fun _ => 0) a (k + 1) (fun j hj => hx1 j (by omega) 0 0), sgldChain_shift]
      rfl
    simp only [sampleOf, ← hpos, List.ofFn_succ, List.ofFn_zero, flat, unravel]
  refine ⟨_, main a, main b, fun hab k h => hab ?_⟩
  unfold sampleOf at h
  split at h <;> simpa using h

end PySGMCMC.Chain
