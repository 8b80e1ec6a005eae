import Verif.Model.Seeds
import Verif.Props.SGHMC
import Verif.Props.SGLD
import Verif.Props.Relativistic

/-! # C38, C74: seeding of the noise -/

namespace PySGMCMC.Seeds

/-- The pair of an op with an explicit op seed depends on the graph seed and the op seed only. -/
theorem getSeed_some (g g' : Graph) (h : g.seed = g'.seed) (s : Int) : getSeed g (some s) = getSeed g' (some s) := by
  obtain ⟨a, b⟩ := g; obtain ⟨a', b'⟩ := g'
  simp only at h; subst h
  cases a <;> rfl

/-- An op with a seed is never seeded from entropy. -/
theorem getSeed_seeded (g : Graph) (s : Int) : ∃ p, getSeed g (some s) = some p ∧ p ≠ (0, 0) := by
  have key : ∀ q : Nat × Nat, ∃ p, (if some q = some (0, 0) then some (0, maxInt32) else some q) = some p ∧ p ≠ (0, 0) := by
    intro q
    split
    · exact ⟨_, rfl, by decide⟩
    · rename_i h
      exact ⟨q, rfl, fun e => h (by rw [e])⟩
  unfold getSeed
  cases g.seed <;> exact key _

theorem buildNoise_seeded (s : Int) (bs : List Nat) (g : Graph) :
    (buildNoise (some s) bs g).1 = List.replicate bs.length (getSeed g (some s)) := by
  induction bs generalizing g with
  | nil => rfl
  | cons b rest ih =>
    simp only [buildNoise, randomNormal, List.length_cons, List.replicate_succ, ih]
    rw [getSeed_some ⟨g.seed, g.lastId + b + 3⟩ g rfl s, getSeed_some ⟨g.seed, g.lastId + b + 3 + 3⟩ g rfl s]

/-- C38 fails for every sampler with a seed: all noise ops have the same generator state, so all parameters with the
same number of elements receive identical noise in every step. -/
theorem C38_violated (K : Kernels) (s : Int) (bs : List Nat) (g : Graph) (i j : Nat) (hi : i < bs.length)
    (hj : j < bs.length) (k size e : Nat) :
    noise K (buildNoise (some s) bs g).1 i k size e = noise K (buildNoise (some s) bs g).1 j k size e := by
  obtain ⟨p, hp, hp0⟩ := getSeed_seeded g s
  rw [buildNoise_seeded, hp]
  simp [noise, Kernels.draw, List.getD_eq_getElem?_getD, hi, hj, hp0]

/-- C74: with a seed, the noise of a parameter is fixed by the seed, the graph's seed, the step number and the number of
elements: it does not depend on how many operations the graph contained before (`g.lastId`), on the number of
parameters or on the position of the parameter. -/
theorem C74_seed_reproducible (K K' : Kernels) (hK : K.seeded = K'.seeded) (s : Int) (bs bs' : List Nat) (g g' : Graph)
    (hg : g.seed = g'.seed) (i i' : Nat) (hi : i < bs.length) (hi' : i' < bs'.length) (k size e : Nat) :
    noise K (buildNoise (some s) bs g).1 i k size e = noise K' (buildNoise (some s) bs' g').1 i' k size e := by
  obtain ⟨p, hp, hp0⟩ := getSeed_seeded g s
  rw [buildNoise_seeded, buildNoise_seeded, ← getSeed_some g g' hg, hp]
  simp [noise, Kernels.draw, List.getD_eq_getElem?_getD, hi, hi', hK, hp0]

/-- C74: which seeds are the same.  Two seeds give a noise op the same generator exactly if they are congruent modulo
`2 ^ 31 - 1`; in particular all seeds from `0` to `2 ^ 31 - 2` are different. -/
theorem C74_same_seed (g : Graph) (s s' : Int) :
    getSeed g (some s) = getSeed g (some s') ↔ s % (2 ^ 31 - 1) = s' % (2 ^ 31 - 1) := by
  have hm : (maxInt32 : Int) = 2 ^ 31 - 1 := rfl
  have h0 : ∀ s : Int, 0 ≤ s % (2 ^ 31 - 1) := fun s => Int.emod_nonneg _ (by norm_num)
  have h1 : ∀ s : Int, s % (2 ^ 31 - 1) < 2 ^ 31 - 1 := fun s => Int.emod_lt_of_pos _ (by norm_num)
  have ht : ∀ s : Int, ((truncate s : Nat) : Int) = s % (2 ^ 31 - 1) := fun s => by
    unfold truncate
    rw [hm]
    exact Int.toNat_of_nonneg (h0 s)
  have key : truncate s = truncate s' ↔ s % (2 ^ 31 - 1) = s' % (2 ^ 31 - 1) := by
    rw [← ht, ← ht]
    exact Int.natCast_inj.symm
  have hlt : ∀ s : Int, truncate s < maxInt32 := fun s => by
    have := h1 s
    rw [← ht, ← hm] at this
    exact_mod_cast this
  rw [← key]
  refine ⟨fun h => ?_, fun h => ?_⟩
  · have a1 := hlt s
    have a2 := hlt s'
    unfold getSeed at h
    cases hg : g.seed with
    | none =>
      simp only [hg, defaultGraphSeed] at h
      simpa using h
    | some gs =>
      simp only [hg, Option.some.injEq, Prod.mk.injEq] at h
      clear key ht h0 h1 hm hlt
      split at h <;> split at h <;> simp only [Option.some.injEq, Prod.mk.injEq] at h <;> omega
  · unfold getSeed
    cases g.seed <;> simp only [h]

/-- Ops of one graph that are created without op seed have different pairs, if the ids stay below `2^31 - 1`. -/
theorem getSeed_none_ne (gs : Int) (a b : Nat) (hab : a < b) (hb : b < maxInt32) :
    getSeed ⟨some gs, a⟩ none ≠ getSeed ⟨some gs, b⟩ none := by
  have e : ∀ n : Nat, n < maxInt32 → truncate n = n := by
    intro n hn
    unfold truncate
    rw [Int.emod_eq_of_lt (by omega) (by exact_mod_cast hn)]
    simp
  have ea := e a (by omega)
  have eb := e b hb
  simp only [getSeed]
  rw [ea, eb]
  split <;> split <;> simp_all <;> omega

theorem buildNoise_none_ids (gs : Int) (bs : List Nat) (n : Nat) :
    ∃ ids : List Nat, (buildNoise none bs ⟨some gs, n⟩).1 = ids.map (fun a => getSeed ⟨some gs, a⟩ none)
      ∧ ids.length = bs.length
      ∧ (buildNoise none bs ⟨some gs, n⟩).2.seed = some gs
      ∧ ids.Pairwise (· < ·) ∧ (∀ a ∈ ids, n < a ∧ a < (buildNoise none bs ⟨some gs, n⟩).2.lastId) := by
  induction bs generalizing n with
  | nil => exact ⟨[], by simp [buildNoise]⟩
  | cons b rest ih =>
    obtain ⟨ids, h1, h2, h2', h3, h4⟩ := ih (n + b + 3 + 3)
    have hle : ∀ (bs : List Nat) (g : Graph), g.lastId ≤ (buildNoise none bs g).2.lastId := by
      intro bs
      induction bs with
      | nil => intro g; exact le_refl _
      | cons b rest ih => intro g; refine le_trans ?_ (ih _); simp only [randomNormal]; omega
    refine ⟨(n + b + 3) :: ids, ?_, by simp [h2], ?_, ?_, ?_⟩
    · simp only [buildNoise, randomNormal, List.map_cons, h1]
    · simpa only [buildNoise, randomNormal] using h2'
    · rw [List.pairwise_cons]
      exact ⟨fun a ha => by have := h4 a ha; omega, h3⟩
    · intro a ha
      rcases List.mem_cons.1 ha with rfl | ha
      · refine ⟨by omega, ?_⟩
        have := hle rest ⟨some gs, n + b + 3 + 3⟩
        simp only [buildNoise, randomNormal]
        simp only at this
        omega
      · have := h4 a ha
        simp only [buildNoise, randomNormal]
        omega

/-- C38 (what holds): without a sampler seed, under a graph-level seed (`tf.set_random_seed`), the noise ops of different
parameters have pairwise different generator states (as long as the graph has fewer than `2^31 - 1` operations).
Missing: samplers with a seed, see `C38_violated`. -/
theorem C38_no_seed_partial (gs : Int) (bs : List Nat) (n : Nat)
    (hbound : (buildNoise none bs ⟨some gs, n⟩).2.lastId ≤ maxInt32) :
    (buildNoise none bs ⟨some gs, n⟩).1.Nodup := by
  obtain ⟨ids, h1, -, -, h3, h4⟩ := buildNoise_none_ids gs bs n
  rw [h1]
  refine List.Pairwise.map _ (R := fun a b => a < b ∧ b < maxInt32) ?_ ?_
  · rintro a b ⟨h, hb⟩
    exact getSeed_none_ne gs a b h hb
  · refine h3.imp_of_mem ?_
    intro a b _ hb hab
    exact ⟨hab, lt_of_lt_of_le (h4 b hb).2 hbound⟩

example : (buildNoise none [17, 40, 40] ⟨some 5, 100⟩).2.lastId ≤ maxInt32 := by decide
example : (buildNoise none [17, 40, 40] ⟨some 5, 100⟩).1 = [some (5, 120), some (5, 166), some (5, 212)] := by decide
example : (buildNoise (some 42) [17, 40, 40] ⟨none, 100⟩).1 = List.replicate 3 (some (87654321, 42)) := by decide

/-! ## Consequence for whole chains -/

/-- Identical noise makes parameters clones: with the same noise (as with a seed), the same start and the same
gradient function, two parameters of an SGHMC sampler have the same value after every number of steps, whatever the
execution order of each step. -/
theorem C38_sghmc_clones {P K : Type} [DecidableEq P] [DecidableEq K]
    (hist : List (SGHMC.Inputs (fun _ : P => K) × SGHMC.Schedule P)) (s : SGHMC.State (fun _ : P => K)) (i j : P)
    (h0 : s.par i = s.par j)
    (h : ∀ x ∈ hist, x.1.normal i = x.1.normal j ∧ x.1.fed i = x.1.fed j
      ∧ ∃ f : (K → Fl) → K → Fl, ∀ θ, x.1.grad θ i = f (θ i) ∧ x.1.grad θ j = f (θ j)) :
    (SGHMC.runs hist s).par i = (SGHMC.runs hist s).par j := by
  induction hist generalizing s with
  | nil => exact h0
  | cons x xs ih =>
    refine ih (SGHMC.run x.1 x.2 s) ?_ (fun y hy => h y (by simp [hy]))
    obtain ⟨hn, hf, f, hg⟩ := h x (by simp)
    obtain ⟨ni, ni0, hi⟩ := SGHMC.C31_any_order x.1 x.2 s i
    obtain ⟨nj, nj0, hj⟩ := SGHMC.C31_any_order x.1 x.2 s j
    rw [hi, hj, (hg _).1, (hg _).2, if_neg (by simp [ni0]), if_neg (by simp [nj0])]
    simp only [SGHMC.next, SGHMC.State.params, hn, hf, h0]

/-- The same for SGLD: with the same noise (as with a seed), the same start and the same
gradient function, two parameters of an SGLD sampler have the same value after every number of steps, whatever the
execution order of each step. -/
theorem C38_sgld_clones {P K : Type} [DecidableEq P] [DecidableEq K]
    (hist : List (SGLD.Inputs (fun _ : P => K) × SGLD.Schedule P)) (s : SGLD.State (fun _ : P => K)) (i j : P)
    (h0 : s.par i = s.par j)
    (h : ∀ x ∈ hist, x.1.normal i = x.1.normal j ∧ x.1.fed i = x.1.fed j
      ∧ ∃ f : (K → Fl) → K → Fl, ∀ θ, x.1.grad θ i = f (θ i) ∧ x.1.grad θ j = f (θ j)) :
    (SGLD.runs hist s).par i = (SGLD.runs hist s).par j := by
  induction hist generalizing s with
  | nil => exact h0
  | cons x xs ih =>
    refine ih (SGLD.run x.1 x.2 s) ?_ (fun y hy => h y (by simp [hy]))
    obtain ⟨hn, hf, f, hg⟩ := h x (by simp)
    obtain ⟨ni, ni0, hi⟩ := SGLD.C34_any_order x.1 x.2 s i
    obtain ⟨nj, nj0, hj⟩ := SGLD.C34_any_order x.1 x.2 s j
    rw [hi, hj, (hg _).1, (hg _).2, if_neg (by simp [ni0]), if_neg (by simp [nj0])]
    simp only [SGLD.next, SGLD.State.params, hn, hf, h0]

/-- The same for relativistic SGHMC (where equal start includes equal initial momentum). -/
theorem C38_relativistic_clones {P : Type} [DecidableEq P]
    (hist : List (Relativistic.Inputs P × Relativistic.Schedule P)) (s : Relativistic.State P) (i j : P)
    (h0 : s.par i = s.par j)
    (h : ∀ x ∈ hist, x.1.normal i = x.1.normal j
      ∧ ∃ f : Fl → Fl, ∀ θ, x.1.grad θ i = f (θ i) ∧ x.1.grad θ j = f (θ j)) :
    (Relativistic.runs hist s).par i = (Relativistic.runs hist s).par j := by
  induction hist generalizing s with
  | nil => exact h0
  | cons x xs ih =>
    refine ih (Relativistic.run x.1 x.2 s) ?_ (fun y hy => h y (by simp [hy]))
    obtain ⟨hn, f, hg⟩ := h x (by simp)
    obtain ⟨ni, ni0, hi⟩ := Relativistic.C40_relativistic_any_order x.1 x.2 s i
    obtain ⟨nj, nj0, hj⟩ := Relativistic.C40_relativistic_any_order x.1 x.2 s j
    rw [hi, hj, (hg _).1, (hg _).2, if_neg (by simp [ni0]), if_neg (by simp [nj0])]
    simp only [Relativistic.next, Relativistic.State.params, hn, h0]

end PySGMCMC.Seeds
