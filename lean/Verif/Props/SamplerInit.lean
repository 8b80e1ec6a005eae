import Verif.Model.SamplerInit
import Verif.Props.TensorUtils

/-!
# C28: constructing a sampler never overwrites initialized parameters
-/

namespace PySGMCMC.SamplerInit
open TensorUtils

variable {P : Type} [DecidableEq P]

/-- What is known about the store while the initializers run. -/
structure Inv (c : Ctor P) (s0 s : Store P) (done : List (Node P)) : Prop where
  parDone : ∀ i, .init (.par i) ∈ done → s.val (.par i) = some (c.initialValue i)
  parNot : ∀ i, .init (.par i) ∉ done → s.val (.par i) = s0.val (.par i)
  vecNot : ∀ i, .init (.vec i) ∉ done → s.val (.vec i) = s0.val (.vec i)
  epsNot : .init .epsilon ∉ done → s.val .epsilon = s0.val .epsilon
  epsDone : .init .epsilon ∈ done → s.val .epsilon = some c.stepsize
  other : ∀ n, .init (.other n) ∉ done → s.val (.other n) = s0.val (.other n)
  test : ∀ i, .test i ∈ done → s.test i = true → ∃ t, s.val (.par i) = some t
    ∧ t = (s0.val (.par i)).getD (c.initialValue i)
  testF : ∀ i, .test i ∈ done → s.test i = false → s0.val (.par i) = none
  vecDone : ∀ i, .init (.vec i) ∈ done →
    ∃ v, s.val (.vec i) = some v ∧ vectorize (.tensor ((s0.val (.par i)).getD (c.initialValue i))) = .ok v

theorem inv_step (c : Ctor P) (s0 s : Store P) (done : List (Node P)) (n : Node P)
    (hpar : ∀ i, n = .init (.par i) → s0.val (.par i) = none)
    (hpre : ∀ i, Node.init (.par i) ∈ done → s0.val (.par i) = none)
    (hwf : ∀ i, ((s0.val (.par i)).getD (c.initialValue i)).WF)
    (htest : ∀ i, n = .init (.vec i) → Node.test i ∈ done) (h : Inv c s0 s done) :
    Inv c s0 (exec c s n) (done ++ [n]) := by
  have hm : ∀ m : Node P, m ∈ done ++ [n] ↔ m ∈ done ∨ m = n := by intro m; simp
  have hparval : ∀ i t, s.val (.par i) = some t → t = (s0.val (.par i)).getD (c.initialValue i) := by
    intro i t ht
    by_cases hd : Node.init (.par i) ∈ done
    · rw [h.parDone i hd] at ht
      rw [hpre i hd]; simpa using ht.symm
    · rw [h.parNot i hd] at ht; rw [ht]; rfl
  cases n with
  | test i =>
    refine ⟨?_, ?_, ?_, ?_, ?_, ?_, ?_, ?_, ?_⟩
    · intro j hj; rw [hm] at hj; simp only [reduceCtorEq, or_false] at hj; exact h.parDone j hj
    · intro j hj; rw [hm] at hj; simp only [reduceCtorEq, or_false] at hj; exact h.parNot j hj
    · intro j hj; rw [hm] at hj; simp only [reduceCtorEq, or_false] at hj; exact h.vecNot j hj
    · intro hj; rw [hm] at hj; simp only [reduceCtorEq, or_false] at hj; exact h.epsNot hj
    · intro hj; rw [hm] at hj; simp only [reduceCtorEq, or_false] at hj; exact h.epsDone hj
    · intro j hj; rw [hm] at hj; simp only [reduceCtorEq, or_false] at hj; exact h.other j hj
    · intro j hj ht
      by_cases hji : j = i
      · subst hji
        simp only [exec, if_true] at ht
        obtain ⟨t, htt⟩ := Option.isSome_iff_exists.1 ht
        exact ⟨t, htt, hparval j t htt⟩
      · rw [hm] at hj
        simp only [Node.test.injEq, hji, or_false] at hj
        simp only [exec, hji, if_false] at ht
        exact h.test j hj ht
    · intro j hj ht
      by_cases hji : j = i
      · subst hji
        simp only [exec, if_true, Option.isSome_eq_false_iff, Option.isNone_iff_eq_none] at ht
        by_cases hd : Node.init (.par j) ∈ done
        · rw [h.parDone j hd] at ht; cases ht
        · rw [← h.parNot j hd]; exact ht
      · rw [hm] at hj
        simp only [Node.test.injEq, hji, or_false] at hj
        simp only [exec, hji, if_false] at ht
        exact h.testF j hj ht
    · intro j hj; rw [hm] at hj; simp only [reduceCtorEq, or_false] at hj; exact h.vecDone j hj
  | init v =>
    cases v with
    | par i =>
      have h0 : s0.val (.par i) = none := hpar i rfl
      refine ⟨?_, ?_, ?_, ?_, ?_, ?_, ?_, ?_, ?_⟩
      · intro j hj
        by_cases hji : j = i
        · subst hji; simp [exec, Store.set]
        · rw [hm] at hj
          simp only [Node.init.injEq, Var.par.injEq, hji, or_false] at hj
          simp [exec, Store.set, hji, h.parDone j hj]
      · intro j hj
        rw [hm] at hj
        simp only [Node.init.injEq, Var.par.injEq, not_or] at hj
        simp [exec, Store.set, hj.2, h.parNot j hj.1]
      · intro j hj; rw [hm] at hj
        simp only [Node.init.injEq, reduceCtorEq, or_false] at hj
        simp [exec, Store.set, h.vecNot j hj]
      · intro hj; rw [hm] at hj
        simp only [Node.init.injEq, reduceCtorEq, or_false] at hj
        simp [exec, Store.set, h.epsNot hj]
      · intro hj; rw [hm] at hj
        simp only [Node.init.injEq, reduceCtorEq, or_false] at hj
        simp [exec, Store.set, h.epsDone hj]
      · intro j hj; rw [hm] at hj
        simp only [Node.init.injEq, reduceCtorEq, or_false] at hj
        simp [exec, Store.set, h.other j hj]
      · intro j hj ht
        rw [hm] at hj
        simp only [reduceCtorEq, or_false] at hj
        obtain ⟨t, h1, h2⟩ := h.test j hj ht
        by_cases hji : j = i
        · subst hji
          refine ⟨c.initialValue j, by simp [exec, Store.set], ?_⟩
          rw [h0]; rfl
        · exact ⟨t, by simp [exec, Store.set, hji, h1], h2⟩
      · intro j hj ht
        rw [hm] at hj
        simp only [reduceCtorEq, or_false] at hj
        exact h.testF j hj ht
      · intro j hj; rw [hm] at hj
        simp only [Node.init.injEq, reduceCtorEq, or_false] at hj
        obtain ⟨v, h1, h2⟩ := h.vecDone j hj
        exact ⟨v, by simp [exec, Store.set, h1], h2⟩
    | vec i =>
      have htd : Node.test i ∈ done := htest i rfl
      have hval : initializedValue c s i = some ((s0.val (.par i)).getD (c.initialValue i)) := by
        unfold initializedValue
        cases ht : s.test i with
        | true => obtain ⟨t, h1, h2⟩ := h.test i htd ht; rw [← h2]; simpa using h1
        | false => rw [h.testF i htd ht]; simp
      obtain ⟨v, hv, -⟩ := C21_roundtrip _ (hwf i) _ (Or.inl rfl)
      have hexec : exec c s (.init (.vec i)) = s.set (.vec i) (some v) := by
        simp only [exec, hval, Option.map_some, hv]
      rw [hexec]
      refine ⟨?_, ?_, ?_, ?_, ?_, ?_, ?_, ?_, ?_⟩
      · intro j hj; rw [hm] at hj
        simp only [Node.init.injEq, reduceCtorEq, or_false] at hj
        simp [Store.set, h.parDone j hj]
      · intro j hj; rw [hm] at hj
        simp only [Node.init.injEq, reduceCtorEq, or_false] at hj
        simp [Store.set, h.parNot j hj]
      · intro j hj; rw [hm] at hj
        simp only [Node.init.injEq, Var.vec.injEq, not_or] at hj
        simp [Store.set, hj.2, h.vecNot j hj.1]
      · intro hj; rw [hm] at hj
        simp only [Node.init.injEq, reduceCtorEq, or_false] at hj
        simp [Store.set, h.epsNot hj]
      · intro hj; rw [hm] at hj
        simp only [Node.init.injEq, reduceCtorEq, or_false] at hj
        simp [Store.set, h.epsDone hj]
      · intro j hj; rw [hm] at hj
        simp only [Node.init.injEq, reduceCtorEq, or_false] at hj
        simp [Store.set, h.other j hj]
      · intro j hj ht
        rw [hm] at hj
        simp only [reduceCtorEq, or_false] at hj
        obtain ⟨t, h1, h2⟩ := h.test j hj ht
        exact ⟨t, by simp [Store.set, h1], h2⟩
      · intro j hj ht
        rw [hm] at hj
        simp only [reduceCtorEq, or_false] at hj
        exact h.testF j hj ht
      · intro j hj
        by_cases hji : j = i
        · subst hji; exact ⟨v, by simp [Store.set], hv⟩
        · rw [hm] at hj
          simp only [Node.init.injEq, Var.vec.injEq, hji, or_false] at hj
          obtain ⟨v, h1, h2⟩ := h.vecDone j hj
          exact ⟨v, by simp [Store.set, hji, h1], h2⟩
    | epsilon =>
      refine ⟨?_, ?_, ?_, ?_, ?_, ?_, ?_, ?_, ?_⟩
      · intro j hj; rw [hm] at hj
        simp only [Node.init.injEq, reduceCtorEq, or_false] at hj
        simp [exec, Store.set, h.parDone j hj]
      · intro j hj; rw [hm] at hj
        simp only [Node.init.injEq, reduceCtorEq, or_false] at hj
        simp [exec, Store.set, h.parNot j hj]
      · intro j hj; rw [hm] at hj
        simp only [Node.init.injEq, reduceCtorEq, or_false] at hj
        simp [exec, Store.set, h.vecNot j hj]
      · intro hj; simp at hj
      · intro hj; simp [exec, Store.set]
      · intro j hj; rw [hm] at hj
        simp only [Node.init.injEq, reduceCtorEq, or_false] at hj
        simp [exec, Store.set, h.other j hj]
      · intro j hj ht
        rw [hm] at hj
        simp only [reduceCtorEq, or_false] at hj
        obtain ⟨t, h1, h2⟩ := h.test j hj ht
        exact ⟨t, by simp [exec, Store.set, h1], h2⟩
      · intro j hj ht
        rw [hm] at hj
        simp only [reduceCtorEq, or_false] at hj
        exact h.testF j hj ht
      · intro j hj; rw [hm] at hj
        simp only [Node.init.injEq, reduceCtorEq, or_false] at hj
        obtain ⟨v, h1, h2⟩ := h.vecDone j hj
        exact ⟨v, by simp [exec, Store.set, h1], h2⟩
    | other k =>
      have hset : exec c s (.init (.other k)) = s.set (.other k) (some (c.others k)) := rfl
      rw [hset]
      refine ⟨?_, ?_, ?_, ?_, ?_, ?_, ?_, ?_, ?_⟩
      · intro j hj; rw [hm] at hj
        simp only [Node.init.injEq, reduceCtorEq, or_false] at hj
        simp [Store.set, h.parDone j hj]
      · intro j hj; rw [hm] at hj
        simp only [Node.init.injEq, reduceCtorEq, or_false] at hj
        simp [Store.set, h.parNot j hj]
      · intro j hj; rw [hm] at hj
        simp only [Node.init.injEq, reduceCtorEq, or_false] at hj
        simp [Store.set, h.vecNot j hj]
      · intro hj; rw [hm] at hj
        simp only [Node.init.injEq, reduceCtorEq, or_false] at hj
        simp [Store.set, h.epsNot hj]
      · intro hj; rw [hm] at hj
        simp only [Node.init.injEq, reduceCtorEq, or_false] at hj
        simp [Store.set, h.epsDone hj]
      · intro j hj; rw [hm] at hj
        simp only [Node.init.injEq, Var.other.injEq, not_or] at hj
        simp [Store.set, hj.2, h.other j hj.1]
      · intro j hj ht
        rw [hm] at hj
        simp only [reduceCtorEq, or_false] at hj
        obtain ⟨t, h1, h2⟩ := h.test j hj ht
        exact ⟨t, by simp [Store.set, h1], h2⟩
      · intro j hj ht
        rw [hm] at hj
        simp only [reduceCtorEq, or_false] at hj
        exact h.testF j hj ht
      · intro j hj; rw [hm] at hj
        simp only [Node.init.injEq, reduceCtorEq, or_false] at hj
        obtain ⟨v, h1, h2⟩ := h.vecDone j hj
        exact ⟨v, by simp [Store.set, h1], h2⟩

/-- C28: the constructor succeeds in determining what to initialize, and after running the initializers in any order
every initialized target parameter has kept its value, every uninitialized one has its initial value, no other variable
of the user's graph changed, the stepsize variable holds the schedule's initial value, and the sampler's working copy
of each parameter is that parameter (the fresh variables `vec` and `epsilon` are uninitialized before). -/
theorem C28_constructor_init (c : Ctor P) (s : Store P) (hfresh : ∀ i, s.val (.vec i) = none)
    (heps : s.val .epsilon = none) (hwf : ∀ i t, s.val (.par i) = some t → t.WF) (hwf0 : ∀ i, (c.initialValue i).WF) :
    ∃ vars, toInit c s = .ok vars ∧ ∀ σ : Schedule vars, let s' := runInit c s σ
      (∀ i t, s.val (.par i) = some t → s'.val (.par i) = some t)
      ∧ (∀ i ∈ c.params, s.val (.par i) = none → s'.val (.par i) = some (c.initialValue i))
      ∧ (∀ i, i ∉ c.params → s'.val (.par i) = s.val (.par i))
      ∧ (∀ n, s'.val (.other n) = s.val (.other n))
      ∧ s'.val .epsilon = some c.stepsize
      ∧ (∀ i ∈ c.params, ∃ t v, s'.val (.par i) = some t ∧ s'.val (.vec i) = some v
          ∧ vectorize (.tensor t) = .ok v ∧ unvectorize v t.shape = .ok t) := by
  refine ⟨_, uninitializedParams_ok _ _, fun σ => ?_⟩
  have hwf' : ∀ i, ((s.val (.par i)).getD (c.initialValue i)).WF := by
    intro i
    cases h : s.val (.par i) with
    | none => exact hwf0 i
    | some t => exact hwf i t h
  have hvars : ∀ v, v ∈ (candidates c).filter (fun p => !(s.val p).isSome)
      ↔ v ∈ candidates c ∧ s.val v = none := by
    intro v; simp [List.mem_filter]
  have key : ∀ pre post, σ.order = pre ++ post → Inv c s (pre.foldl (exec c) s) pre := by
    intro pre
    induction pre using List.reverseRecOn with
    | nil =>
      intro _ _
      exact ⟨by simp, by simp, by simp, by simp, by simp, by simp, by simp, by simp, by simp⟩
    | append_singleton pre n ih =>
      intro post h
      have hi := ih (n :: post) (by simp [h])
      rw [List.foldl_append, List.foldl_cons, List.foldl_nil]
      refine inv_step c s _ pre n ?_ ?_ hwf' ?_ hi
      · rintro i rfl
        exact ((hvars _).1 ((σ.init_iff _).1 (by simp [h]))).2
      · intro i hm
        exact ((hvars _).1 ((σ.init_iff _).1 (by simp [h, hm]))).2
      · rintro i rfl
        exact σ.test_first pre i post (by simp [h])
  have hinv := key σ.order [] (by simp)
  have hin : ∀ v, Node.init v ∈ σ.order ↔ v ∈ candidates c ∧ s.val v = none := fun v => by
    rw [σ.init_iff, hvars]
  have hkeep : ∀ i t, s.val (.par i) = some t → (runInit c s σ).val (.par i) = some t := by
    intro i t ht
    have hnot : Node.init (.par i) ∉ σ.order := by
      rw [hin]; rintro ⟨_, h⟩; rw [ht] at h; cases h
    exact (hinv.parNot i hnot).trans ht
  have hset : ∀ i ∈ c.params, s.val (.par i) = none → (runInit c s σ).val (.par i) = some (c.initialValue i) := by
    intro i hi hn
    exact hinv.parDone i ((hin _).2 ⟨by simp [candidates, hi], hn⟩)
  refine ⟨hkeep, hset, ?_, fun n => hinv.other n (by rw [hin]; simp [candidates]), ?_, ?_⟩
  · intro i hi
    have hnot : Node.init (.par i) ∉ σ.order := by
      rw [hin]; rintro ⟨h, _⟩; simp [candidates, hi] at h
    exact hinv.parNot i hnot
  · exact hinv.epsDone ((hin _).2 ⟨by simp [candidates], heps⟩)
  · intro i hi
    obtain ⟨v, h1, h2⟩ := hinv.vecDone i ((hin _).2 ⟨by simp [candidates, hi], hfresh i⟩)
    have hp : (runInit c s σ).val (.par i) = some ((s.val (.par i)).getD (c.initialValue i)) := by
      cases h : s.val (.par i) with
      | none => exact hset i hi h
      | some t => exact hkeep i t h
    obtain ⟨v', h3, h4⟩ := C21_roundtrip _ (hwf' i) _ (Or.inl rfl)
    rw [h2] at h3; cases h3
    exact ⟨_, v, hp, h1, h2, h4⟩

/-! Two parameters, one of them initialized before; the uninitialized one is cloned after its own initializer ran. -/

noncomputable def demoCtor : Ctor Bool := ⟨[false, true], fun _ => ⟨[], [.fin 7]⟩, ⟨[], [.fin 1]⟩, fun _ => ⟨[], [.fin 0]⟩⟩
noncomputable def demoStore : Store Bool :=
  ⟨fun v => if v = .par true then some ⟨[], [.fin 5]⟩ else none, fun _ => false⟩

def demoSchedule : Schedule (P := Bool) [.par false, .vec false, .vec true, .epsilon] where
  order := [.test true, .init (.par false), .init (.vec true), .init .epsilon, .test false, .init (.vec false)]
  nodup := by decide
  init_iff v := by cases v <;> simp
  test_first := by
    intro pre i post h
    rcases pre with _ | ⟨a, _ | ⟨b, _ | ⟨c, _ | ⟨d, _ | ⟨e, _ | ⟨f, pre⟩⟩⟩⟩⟩⟩ <;>
      simp at h
    · obtain ⟨rfl, rfl, rfl, _⟩ := h; simp
    · obtain ⟨rfl, rfl, rfl, rfl, rfl, rfl, _⟩ := h; simp

example : toInit demoCtor demoStore = .ok [.par false, .vec false, .vec true, .epsilon] := by
  unfold toInit
  rw [uninitializedParams_ok]
  simp [candidates, demoCtor, demoStore]

end PySGMCMC.SamplerInit
