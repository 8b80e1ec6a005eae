import Verif.Lemmas.Chain
import Verif.Lemmas.Iter
import Verif.Lemmas.SamplerIter

/-! A burn-in sampler whose environment never fails: the exact sequence of graph runs behind `N` calls of `next`. -/

namespace PySGMCMC.Chain
open SamplerBase

variable {n : Nat} {size : Fin n → Nat} {C : Type}

/-- What batch generator (if any) and schedule supply during `N` calls. -/
structure Script {C : Type} (F : Feeder C) (N : Nat) where
  batch : Nat → Option F.Batch
  /-- the batches -/
  data : Nat → Dict Key Arr
  sched : Nat → F.Sched
  /-- the stepsizes -/
  eps : Nat → ℝ
  supplies : ∀ k < N, match batch k with
    | some b => F.batchNext b = (.ok (data k), (F.batchNext b).2) ∧ batch (k + 1) = some (F.batchNext b).2
    | none => data k = Dict.empty ∧ batch (k + 1) = none
  stepsize : ∀ k < N, ∃ sc, F.schedNext (sched k) = (.ok [.fin (eps k)], sc)
    ∧ ∀ out c, F.schedUpdate sc out c = (.ok (), sched (k + 1))
  /-- batches feed placeholders of the user's graph only -/
  user : ∀ k < N, ∀ key, (∀ p, key ≠ .ph p) → data k key = none

/-- Call number `k` (from 0) is made after burn-in, with a stored mass matrix. -/
def frozenAt (B : Int) (k : Nat) : Bool := decide (0 < B ∧ B ≤ k)

/-- The dictionary a call starts from. -/
def startAt (B : Int) (k : Nat) (m : ∀ i, Pos size i → Fl) : Dict Key Arr :=
  if frozenAt B k then minvDict n (List.ofFn fun i => flat (m i)) else Dict.empty

/-- The dictionary fed in call `k`. -/
def feedAt {F : Feeder C} {N : Nat} (S : Script F N) (B : Int) (k : Nat) (m : ∀ i, Pos size i → Fl) : Dict Key Arr :=
  ((startAt B k m).update (S.data k)).update (Dict.single .epsilon [.fin (S.eps k)])

/-- The mass matrix fed in call `k`. -/
def fedAt (B : Int) (k : Nat) (m : ∀ i, Pos size i → Fl) : ∀ i, Option (Pos size i → Fl) :=
  fun i => if frozenAt B k then some (m i) else none

/-- Graph variables and stored mass matrix after call `k`, if they were `p` before it. -/
def nextPair {F : Feeder C} {N : Nat} (S : Script F N) (G : GraphSem size C) (B : Int) (k : Nat) (p : G.St × (∀ i, Pos size i → Fl)) :
    G.St × (∀ i, Pos size i → Fl) :=
  let v := G.run k (.fin (S.eps k)) (fedAt B k p.2) (feedAt S B k p.2) p.1
  (v, if (k : Int) < B then G.minv v else p.2)

/-- Graph variables and stored mass matrix before call `k`. -/
def seq {F : Feeder C} {N : Nat} (S : Script F N) (G : GraphSem size C) (B : Int) (s0 : G.St) : Nat → G.St × (∀ i, Pos size i → Fl)
  | 0 => (s0, G.minv s0)
  | k + 1 => nextPair S G B k (seq S G B s0 k)

/-- The sampler before call `k` with graph variables and stored mass matrix `p`. -/
def samplerOf {F : Feeder C} {N : Nat} (S : Script F N) (G : GraphSem size C) (ok : Dict Key Arr → Bool) (B : Int) (eps0 : Fl)
    (k : Nat) (p : G.St × (∀ i, Pos size i → Fl)) : Sampler (env F G ok) where
  nIterations := k
  minv := if 0 < B ∧ 0 < k then some (List.ofFn fun i => flat (p.2 i)) else none
  batch := S.batch k
  sched := S.sched k
  graph := ⟨p.1, eps0, k⟩

/-- The sampler before call `k`. -/
def samplerAt {F : Feeder C} {N : Nat} (S : Script F N) (G : GraphSem size C) (ok : Dict Key Arr → Bool) (B : Int) (s0 : G.St) (eps0 : Fl)
    (k : Nat) : Sampler (env F G ok) := samplerOf S G ok B eps0 k (seq S G B s0 k)

/-- The target parameters as a list of arrays. -/
def arraysOf (G : GraphSem size C) (v : G.St) : List Arr := List.ofFn fun i => flat (G.param v i)

/-- The parameters of sample `k` as a list of arrays. -/
def paramsAt {F : Feeder C} {N : Nat} (S : Script F N) (G : GraphSem size C) (B : Int) (s0 : G.St) (k : Nat) : List Arr :=
  List.ofFn fun i => flat (G.param (seq S G B s0 (k + 1)).1 i)

theorem feedAt_epsilon {F : Feeder C} {N : Nat} (S : Script F N) (B : Int) (k : Nat) (m : ∀ i, Pos size i → Fl) :
    feedAt S B k m .epsilon = some [.fin (S.eps k)] := by
  unfold feedAt; rw [update_single, if_pos rfl]

theorem feedAt_ph {F : Feeder C} {N : Nat} (S : Script F N) (B : Int) (k : Nat) (m : ∀ i, Pos size i → Fl) (p : Nat) :
    feedAt S B k m (.ph p) = S.data k (.ph p) := by
  unfold feedAt; rw [update_single, if_neg (by simp)]
  have h : startAt B k m (.ph p) = none := by
    unfold startAt; split
    · rw [minvDict_apply]
    · rfl
  rw [h]; cases S.data k (.ph p) <;> rfl

theorem feedAt_minvT {F : Feeder C} {N : Nat} (S : Script F N) (B : Int) (k : Nat) (hk : k < N) (m : ∀ i, Pos size i → Fl) (i : Fin n) :
    feedAt S B k m (.minvT i) = if frozenAt B k then some (flat (m i)) else none := by
  unfold feedAt; rw [update_single, if_neg (by simp), S.user k hk _ (by simp)]
  show startAt B k m (.minvT i) = _
  unfold startAt
  by_cases h : frozenAt B k = true
  · rw [if_pos h, if_pos h, minvDict_apply]; simp
  · rw [if_neg h, if_neg h]; rfl

theorem coreStep_success {V : Type} (E : Env V C) (flag : Bool) (wrap : List V → Out V) (d : Dict Key V) {s s1 : Sampler E}
    {bb : Dict Key V} {v : V} {sc sc2 : E.Sched} {g : E.Graph} {f : Fetched V C} (h1 : nextBatch E s = (.ok bb, s1))
    (h2 : E.schedNext s1.sched = (.ok v, sc))
    (h3 : E.run s1.graph flag ((d.update bb).update (Dict.single .epsilon v)) = (.ok f, g))
    (h4 : E.schedUpdate sc (wrap f.params) f.cost = (.ok (), sc2)) :
    (coreStep E flag wrap d s).result = .ok (wrap f.params, f.cost) ∧
    (coreStep E flag wrap d s).sampler = ⟨s1.nIterations + 1, if flag then some f.minv else s1.minv, s1.batch, sc2, g⟩ := by
  have : coreStep E flag wrap d s = ⟨.ok (wrap f.params, f.cost), (d.update bb).update (Dict.single .epsilon v),
      ⟨s1.nIterations + 1, if flag then some f.minv else s1.minv, s1.batch, sc2, g⟩⟩ := by
    unfold coreStep updateFeed nextStepsize finish
    simp only [h1, h2, h3, h4]
  rw [this]
  exact ⟨rfl, rfl⟩

theorem fedMinv_feedAt {F : Feeder C} {N : Nat} (S : Script F N) (B : Int) (k : Nat) (hk : k < N) (m : ∀ i, Pos size i → Fl) :
    fedMinv size (feedAt S B k m) = fedAt B k m := by
  funext i
  unfold fedMinv fedAt
  rw [feedAt_minvT S B k hk]
  split
  · simp [unflat_flat]
  · rfl

theorem feedOk_feedAt {F : Feeder C} {N : Nat} (S : Script F N) (B : Int) (k : Nat) (hk : k < N) (m : ∀ i, Pos size i → Fl) :
    feedOk size (feedAt S B k m) = true := by
  unfold feedOk
  rw [feedAt_epsilon]
  simp only [List.length_singleton, beq_self_eq_true, Bool.true_and, List.all_eq_true]
  intro i _
  rw [feedAt_minvT S B k hk]
  split
  · rename_i v hv
    split at hv
    · cases hv; simp [flat]
    · cases hv
  · rfl

/-- The sampler's step on a fed dictionary. -/
theorem core_of {F : Feeder C} {N : Nat} (S : Script F N) (G : GraphSem size C) (ok : Dict Key Arr → Bool) (B : Int)
    (eps0 : Fl) (k : Nat) (p : G.St × (∀ i, Pos size i → Fl)) (hk : k < N) (hok : ok (feedAt S B k p.2) = true) (flag : Bool) (hflag : flag = decide ((k : Int) < B))
    (wrap : List Arr → Out Arr) :
    let r := coreStep (env F G ok) flag wrap (startAt B k p.2) (samplerOf S G ok B eps0 k p)
    r.result = .ok (wrap (arraysOf G (nextPair S G B k p).1), G.cost (nextPair S G B k p).1)
      ∧ r.sampler = samplerOf S G ok B eps0 (k + 1) (nextPair S G B k p) := by
  obtain ⟨sc, hs1, hs2⟩ := S.stepsize k hk
  have hb : nextBatch (env F G ok) (samplerOf S G ok B eps0 k p)
      = (.ok (S.data k), { samplerOf S G ok B eps0 k p with batch := S.batch (k + 1) }) := by
    have := S.supplies k hk
    generalize hs : samplerOf S G ok B eps0 k p = s
    have hsb : s.batch = S.batch k := by rw [← hs]; rfl
    obtain ⟨a1, a2, b', a4, a5⟩ := s
    simp only at hsb
    subst hsb
    cases hbk : S.batch k with
    | none =>
      rw [hbk] at this
      simp only at this
      rw [this.1, this.2]
      rfl
    | some b =>
      rw [hbk] at this
      simp only at this
      rw [this.2]
      show ((F.batchNext b).1, _) = _
      rw [congrArg Prod.fst this.1]
  have hrun : sessionRun G ok ⟨p.1, eps0, k⟩ flag (feedAt S B k p.2)
      = (.ok ⟨arraysOf G (nextPair S G B k p).1, G.cost (nextPair S G B k p).1,
          List.ofFn fun i => flat ((fedAt B k p.2 i).getD (G.minv (nextPair S G B k p).1 i))⟩,
        ⟨(nextPair S G B k p).1, eps0, k + 1⟩) := by
    unfold sessionRun
    rw [feedOk_feedAt S B k hk, hok, fedMinv_feedAt S B k hk]
    have he : epsUsed (G := G) ⟨p.1, eps0, k⟩ (feedAt S B k p.2) = .fin (S.eps k) := by
      unfold epsUsed; rw [feedAt_epsilon]; rfl
    rw [he]
    rfl
  intro r
  obtain ⟨c1, c2⟩ := coreStep_success (env F G ok) flag wrap (startAt B k p.2) hb hs1 hrun (hs2 _ _)
  refine ⟨c1, c2.trans ?_⟩
  show _ = (⟨k + 1, _, _, _, _⟩ : Sampler (env F G ok))
  congr 1
  subst hflag
  by_cases hB : (k : Int) < B
  · have h0 : 0 < B ∧ 0 < k + 1 := ⟨by omega, by omega⟩
    have hfr : frozenAt B k = false := by unfold frozenAt; simp only [decide_eq_false_iff_not]; omega
    rw [if_pos (by simpa using hB), if_pos h0]
    congr 1
    show (List.ofFn fun i => flat ((fedAt B k p.2 i).getD (G.minv (nextPair S G B k p).1 i))) = _
    congr 1
    funext i
    congr 1
    unfold fedAt
    rw [hfr]
    show G.minv _ i = _
    simp only [nextPair, hB, if_true]
  · rw [if_neg (by simpa using hB)]
    show (if 0 < B ∧ 0 < k then _ else none) = _
    have hseq : (nextPair S G B k p).2 = p.2 := by simp only [nextPair, hB, if_false]
    rw [hseq]
    by_cases h0 : 0 < B
    · rw [if_pos ⟨h0, by omega⟩, if_pos ⟨h0, by omega⟩]
    · rw [if_neg (by omega), if_neg (by omega)]

/-- One call. -/
theorem burnInNext_of {F : Feeder C} {N : Nat} (S : Script F N) (G : GraphSem size C) (ok : Dict Key Arr → Bool) (B : Int)
    (eps0 : Fl) (k : Nat) (p : G.St × (∀ i, Pos size i → Fl)) (hk : k < N) (hok : ok (feedAt S B k p.2) = true) :
    asIter (burnInNext (env F G ok) B n) (samplerOf S G ok B eps0 k p)
      = (.ok ((if (k : Int) < B then .many (arraysOf G (nextPair S G B k p).1) else unravel (arraysOf G (nextPair S G B k p).1)), G.cost (nextPair S G B k p).1),
        samplerOf S G ok B eps0 (k + 1) (nextPair S G B k p)) := by
  set s := samplerOf S G ok B eps0 k p with hs
  have hb : isBurningIn B s = decide ((k : Int) < B) := rfl
  have hmin : s.minv = if 0 < B ∧ 0 < k then some (List.ofFn fun i => flat (p.2 i)) else none := rfl
  have hstart : startDict B n s Dict.empty = startAt B k p.2 := by
    unfold startDict startAt
    rw [hb]
    by_cases hB : (k : Int) < B
    · have hf : ¬ frozenAt B k = true := by unfold frozenAt; simp; omega
      rw [if_pos (by simpa using hB), if_neg hf]
    · rw [if_neg (by simpa using hB)]
      by_cases h0 : 0 < B
      · have hf : frozenAt B k = true := by unfold frozenAt; simp; omega
        rw [if_pos h0, if_pos hf, hmin, if_pos ⟨h0, by omega⟩]
        rfl
      · have hf : ¬ frozenAt B k = true := by unfold frozenAt; simp; omega
        rw [if_neg h0, if_neg hf]
  obtain ⟨e1, e2⟩ := burnInNext_eq (env F G ok) B n .none Dict.empty rfl s (by
    intro h0 h
    rw [hb] at h
    rw [hmin, if_pos ⟨h0, by simp at h; omega⟩]
    simp)
  obtain ⟨c1, c2⟩ := core_of S G ok B eps0 k p hk hok (isBurningIn B s) hb (stepWrap (isBurningIn B s))
  unfold asIter
  refine Prod.ext (e1.trans ?_) (e2.trans ?_)
  · rw [hstart]
    refine c1.trans ?_
    rw [hb]
    unfold stepWrap
    by_cases hB : (k : Int) < B
    · simp [hB]
    · simp [hB]
  · rw [hstart]; exact c2

/-- One call. -/
theorem burnInNext_script {F : Feeder C} {N : Nat} (S : Script F N) (G : GraphSem size C) (ok : Dict Key Arr → Bool) (B : Int) (s0 : G.St)
    (eps0 : Fl) (k : Nat) (hk : k < N) (hok : ok (feedAt S B k (seq S G B s0 k).2) = true) :
    asIter (burnInNext (env F G ok) B n) (samplerAt S G ok B s0 eps0 k)
      = (.ok ((if (k : Int) < B then .many (paramsAt S G B s0 k) else unravel (paramsAt S G B s0 k)), G.cost (seq S G B s0 (k + 1)).1),
        samplerAt S G ok B s0 eps0 (k + 1)) :=
  burnInNext_of S G ok B eps0 k (seq S G B s0 k) hk hok

/-- All calls. -/
theorem calls_script {F : Feeder C} {N : Nat} (S : Script F N) (G : GraphSem size C) (ok : Dict Key Arr → Bool) (B : Int) (s0 : G.St)
    (eps0 : Fl) (hok : ∀ k < N, ok (feedAt S B k (seq S G B s0 k).2) = true) (m : Nat) (hm : m ≤ N) :
    calls (asIter (burnInNext (env F G ok) B n)) m (init (S.batch 0) (S.sched 0) ⟨s0, eps0, 0⟩)
      = ((List.range m).map fun k : Nat => .ok ((if (k : Int) < B then .many (paramsAt S G B s0 k) else unravel (paramsAt S G B s0 k)),
            G.cost (seq S G B s0 (k + 1)).1),
        samplerAt S G ok B s0 eps0 m) := by
  induction m with
  | zero =>
    show ([], _) = ([], _)
    congr 1
    show (⟨_, _, _, _, _⟩ : Sampler (env F G ok)) = ⟨_, _, _, _, _⟩
    congr 1
    rw [if_neg (by omega)]
  | succ m ih =>
    rw [calls_succ', ih (by omega), burnInNext_script S G ok B s0 eps0 m (by omega) (hok m (by omega)), List.range_succ, List.map_append]
    rfl

/-- Graph variables and stored mass matrix before call `k0 + j`, if they were `p` before call `k0`. -/
def seqFrom {F : Feeder C} {N : Nat} (S : Script F N) (G : GraphSem size C) (B : Int) (k0 : Nat) (p : G.St × (∀ i, Pos size i → Fl)) :
    Nat → G.St × (∀ i, Pos size i → Fl)
  | 0 => p
  | j + 1 => nextPair S G B (k0 + j) (seqFrom S G B k0 p j)

/-- Calls from any point on, with any graph variables and stored mass matrix. -/
theorem calls_from {F : Feeder C} {N : Nat} (S : Script F N) (G : GraphSem size C) (ok : Dict Key Arr → Bool) (B : Int)
    (eps0 : Fl) (k0 : Nat) (p : G.St × (∀ i, Pos size i → Fl)) (m : Nat) (hm : k0 + m ≤ N)
    (hok : ∀ j < m, ok (feedAt S B (k0 + j) (seqFrom S G B k0 p j).2) = true) :
    calls (asIter (burnInNext (env F G ok) B n)) m (samplerOf S G ok B eps0 k0 p)
      = ((List.range m).map fun j : Nat =>
          let v := (seqFrom S G B k0 p (j + 1)).1
          .ok ((if ((k0 + j : Nat) : Int) < B then .many (arraysOf G v) else unravel (arraysOf G v)), G.cost v),
        samplerOf S G ok B eps0 (k0 + m) (seqFrom S G B k0 p m)) := by
  induction m with
  | zero => rfl
  | succ m ih =>
    rw [calls_succ', ih (by omega) (fun j hj => hok j (by omega)),
      burnInNext_of S G ok B eps0 (k0 + m) _ (by omega) (hok m (by omega)), List.range_succ, List.map_append]
    rfl

theorem seqFrom_zero {F : Feeder C} {N : Nat} (S : Script F N) (G : GraphSem size C) (B : Int) (s0 : G.St) (j : Nat) :
    seqFrom S G B 0 (s0, G.minv s0) j = seq S G B s0 j := by
  induction j with
  | zero => rfl
  | succ j ih => simp only [seqFrom, seq, ih, Nat.zero_add]

theorem seqFrom_seq {F : Feeder C} {N : Nat} (S : Script F N) (G : GraphSem size C) (B : Int) (s0 : G.St) (k j : Nat) :
    seqFrom S G B k (seq S G B s0 k) j = seq S G B s0 (k + j) := by
  induction j with
  | zero => rfl
  | succ j ih => show nextPair S G B (k + j) _ = nextPair S G B (k + j) _; rw [ih]; rfl

end PySGMCMC.Chain
