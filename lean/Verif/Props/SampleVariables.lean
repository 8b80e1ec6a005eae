import Verif.Props.BNNSystemSGLD

/-!
# C33, C95 and C121: the sample of a step is what the parameters hold afterwards
-/

namespace PySGMCMC.Chain
open SamplerBase

variable {n : Nat} {size : Fin n → Nat} {C : Type}

theorem finish_ok {E : Env Arr C} {d : Dict Key Arr} {out : Out Arr} {cost : C} {s : Sampler E} {o : Out Arr × C}
    (h : (finish E d out cost s).result = .ok o) : o = (out, cost) ∧ (finish E d out cost s).sampler.graph = s.graph := by
  unfold finish at h ⊢
  split at h
  · cases h
  · exact ⟨(Except.ok.inj h).symm, rfl⟩

/-- **C33** Whatever a call of `__next__` with any `feed_dict` returns, it is the current value of the parameters in the session: in a list, or
after burn-in without the list if there is only one parameter. -/
theorem C33_sample_is_variables (F : Feeder C) (G : GraphSem size C) (ok : Dict Key Arr → Bool) (burnIn : Int) (feed : Feed Arr) (s : Sampler (env F G ok))
    {out : Out Arr} {cost : C} (h : (burnInNext (env F G ok) burnIn n feed s).result = .ok (out, cost)) :
    let vars := (burnInNext (env F G ok) burnIn n feed s).sampler.graph.vars
    let arrays := List.ofFn fun i => flat (G.param vars i)
    (out = if isBurningIn burnIn s then .many arrays else unravel arrays) ∧ cost = G.cost vars := by
  have hrun : ∀ {g : Session G} {b : Bool} {d : Dict Key Arr} {f : Fetched Arr C} {g' : Session G}, sessionRun G ok g b d = (.ok f, g') →
      (f.params = List.ofFn fun i => flat (G.param g'.vars i)) ∧ f.cost = G.cost g'.vars := by
    intro g b d f g' h
    unfold sessionRun at h
    split at h
    · cases h
    · cases h
      exact ⟨rfl, rfl⟩
  have hbase : ∀ {d : Dict Key Arr} {o : Out Arr × C}, (baseNextDict (env F G ok) d s).result = .ok o →
      o = (unravel (List.ofFn fun i => flat (G.param (baseNextDict (env F G ok) d s).sampler.graph.vars i)),
        G.cost (baseNextDict (env F G ok) d s).sampler.graph.vars) := by
    intro d o h
    unfold baseNextDict at h ⊢
    split at h
    · cases h
    · split at h
      · cases h
      · rename_i hr
        obtain ⟨h1, h2⟩ := finish_ok h
        obtain ⟨h3, h4⟩ := hrun (b := false) hr
        rw [h1, h2, h3, h4]
  have hburn : ∀ {d : Dict Key Arr} {o : Out Arr × C}, (burnInStep (env F G ok) d s).result = .ok o →
      o = (.many (List.ofFn fun i => flat (G.param (burnInStep (env F G ok) d s).sampler.graph.vars i)),
        G.cost (burnInStep (env F G ok) d s).sampler.graph.vars) := by
    intro d o h
    unfold burnInStep at h ⊢
    split at h
    · cases h
    · split at h
      · cases h
      · rename_i hr
        obtain ⟨h1, h2⟩ := finish_ok h
        obtain ⟨h3, h4⟩ := hrun (b := true) hr
        rw [h1, h2, h3, h4]
  unfold burnInNext at h ⊢
  split at h
  · cases h
  · rename_i hf
    simp only [hf]
    split at h
    · rename_i hb
      simp only [hb, if_true]
      have := hburn h
      exact ⟨congrArg Prod.fst this, congrArg Prod.snd this⟩
    · rename_i hb
      simp only [hb, Bool.false_eq_true, if_false]
      split at h
      · rename_i hp
        simp only [hp, if_true]
        split at h
        · cases h
        · rename_i hm
          simp only [hm]
          have := hbase h
          exact ⟨congrArg Prod.fst this, congrArg Prod.snd this⟩
      · rename_i hp
        simp only [hp, if_false]
        have := hbase h
        exact ⟨congrArg Prod.fst this, congrArg Prod.snd this⟩

/-- No batches, the stepsize is 1. -/
@[reducible] noncomputable def quietFeeder : Feeder where
  Batch := Unit
  Sched := Unit
  batchNext _ := (.ok Dict.empty, ())
  schedNext _ := (.ok [1], ())
  schedUpdate _ _ _ := (.ok (), ())

/-- Steps of SGLD succeed, during burn-in and without. -/
example (W : SGLDWorld (fun _ : Fin 2 => 3)) (st : SGLD.State (Pos fun _ : Fin 2 => 3)) (burnIn : Int) (hb : burnIn = 0 ∨ burnIn = 5) :
    ∃ out cost, (burnInNext (env quietFeeder W.graph fun _ => true) burnIn 2 .none (init none () ⟨st, 1, 0⟩)).result = .ok (out, cost) := by
  rcases hb with rfl | rfl <;> exact ⟨_, _, rfl⟩

end PySGMCMC.Chain

namespace PySGMCMC.BNNSystem
open SamplerBase Chain BNN

variable {R : RNG} {D n : Nat} {shape : Fin n → List Nat}

theorem attach_values (hn : n ≠ 1) (f : Fin n → Arr) (b : Bool) :
    attach shape (if b then .many (List.ofFn f) else unravel (List.ofFn f)) = .many (List.ofFn fun i => ⟨shape i, f i⟩) := by
  cases b
  · simp only [Bool.false_eq_true, if_false]; exact attach_unravel hn f
  · exact attach_many f

/-- **C95** After every step of training with SGHMC the variables of the network hold the sample of that step. -/
theorem C95_variables (S : Setup R D shape) (cfg : Cfg) (hn : n ≠ 1) (w w' : S.Session) {out : Sample} {cost : Fl}
    (h : (S.world cfg).next () w = (.ok (out, cost), w')) : out = .many (List.ofFn fun i : Fin n => (S.world cfg).varValue w' i) := by
  match w, h with
  | some ⟨c, s⟩, h =>
    have h' : ((asIter (burnInNext (S.env c) c.burnIn n) s).1.map fun p => (attach shape p.1, p.2),
      (some ⟨c, (asIter (burnInNext (S.env c) c.burnIn n) s).2⟩ : S.Session)) = (.ok (out, cost), w') := h
    obtain ⟨h1, h2⟩ := Prod.mk.inj h'
    match hr : (asIter (burnInNext (S.env c) c.burnIn n) s).1 with
    | .error e => rw [hr] at h1; cases h1
    | .ok (o, k) =>
      rw [hr] at h1
      have h3 := (C33_sample_is_variables _ _ _ c.burnIn .none s (out := o) (cost := k) hr).1
      have h4 : out = attach shape o := (congrArg Prod.fst (Except.ok.inj h1)).symm
      rw [h4, h3, attach_values hn, ← h2]
      congr 2
      funext i
      unfold Setup.world
      simp only
      rw [dif_pos i.2]
      rfl

end PySGMCMC.BNNSystem

namespace PySGMCMC.BNNSystemSGLD
open SamplerBase Chain BNN BNNSystem

variable {R : RNG} {D n : Nat} {shape : Fin n → List Nat}

/-- **C121** After every step of training with SGLD the variables of the network hold the sample of that step. -/
theorem C121_variables (S : Setup R D shape) (cfg : Cfg) (hn : n ≠ 1) (w w' : S.Session) {out : Sample} {cost : Fl}
    (h : (S.world cfg).next () w = (.ok (out, cost), w')) : out = .many (List.ofFn fun i : Fin n => (S.world cfg).varValue w' i) := by
  match w, h with
  | some ⟨c, s⟩, h =>
    have h' : ((asIter (burnInNext (S.env c) c.burnIn n) s).1.map fun p => (attach shape p.1, p.2),
      (some ⟨c, (asIter (burnInNext (S.env c) c.burnIn n) s).2⟩ : S.Session)) = (.ok (out, cost), w') := h
    obtain ⟨h1, h2⟩ := Prod.mk.inj h'
    match hr : (asIter (burnInNext (S.env c) c.burnIn n) s).1 with
    | .error e => rw [hr] at h1; cases h1
    | .ok (o, k) =>
      rw [hr] at h1
      have h3 := (C33_sample_is_variables _ _ _ c.burnIn .none s (out := o) (cost := k) hr).1
      have h4 : out = attach shape o := (congrArg Prod.fst (Except.ok.inj h1)).symm
      rw [h4, h3, attach_values hn, ← h2]
      congr 2
      funext i
      unfold Setup.world
      simp only
      rw [dif_pos i.2]
      rfl

end PySGMCMC.BNNSystemSGLD
