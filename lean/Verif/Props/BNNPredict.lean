import Verif.Props.BNN
import Verif.Props.BaseModel
import Mathlib.Data.Fin.Tuple.Basic

/-!
# Properties of `BayesianNeuralNetwork.predict`

C59 (violation), C61, C62, C63, C75
-/

namespace PySGMCMC.BNN
open BaseModel (Rows unstandardize standardize meanAxis0 column)
open Spec

variable {D : Nat} {ω H C : Type}

/-! ## A small concrete world -/

/-- Two variables of shape `(1,)`; the network is `x ↦ (x · v₀, v₁)`; the sampler's `k`-th output is `(k, 0)`. -/
noncomputable def demo : World 1 Nat Unit Unit where
  getNet ph w := (.ok ⟨ph, fun a _ X i => (X i 0 * (a 0).data.headD 0, (a 1).data.headD 0)⟩, w)
  costGraph _ w := (.ok (), w)
  trainable _ := [0, 1]
  buildSampler _ w := (.ok (), w)
  next _ w := (.ok (.many [⟨[1], [.fin w]⟩, ⟨[1], [.fin 0]⟩], ()), w + 1)
  logError _ _ := .ok ()
  varShape _ := [1]
  varValue _ _ := ⟨[1], [0]⟩

theorem demo_prepared (cfg : Cfg) (rows : Rows (Fin 1)) (y : List Fl) (b : Bnn 1) (w : Nat) :
    Prepared cfg demo rows y b w ⟨(normalizedX cfg b rows).1, (normalizedY cfg b y).1, b.nPlaceholders, [0, 1]⟩ () w :=
  ⟨_, w, w, rfl, rfl, rfl, rfl⟩

/-- The first `n` outputs of the demo sampler. -/
noncomputable def demoResults (w n : Nat) : List (Sample × Unit) :=
  (List.range n).map fun k => (.many [⟨[1], [.fin ((w + k : Nat) : ℝ)]⟩, ⟨[1], [.fin 0]⟩], ())

theorem demo_calls (n : Nat) : ∀ w, calls (demo.next ()) n w = ((demoResults w n).map .ok, w + n) := by
  induction n with
  | zero => intro w; simp [demoResults, calls_zero]
  | succ n ih =>
    intro w
    have h1 : demo.next () w = (.ok (.many [⟨[1], [.fin w]⟩, ⟨[1], [.fin 0]⟩], ()), w + 1) := rfl
    rw [calls_succ, h1, ih (w + 1)]
    simp only [demoResults, List.range_succ_eq_map, List.map_cons, List.map_map]
    refine Prod.ext ?_ ?_
    · simp only [Nat.add_zero, List.cons.injEq, true_and]
      apply List.map_congr_left
      intro k _
      simp only [Function.comp, Nat.succ_eq_add_one]
      rw [show w + 1 + k = w + (k + 1) by omega]
    · simp only; omega

/-- The hypotheses of `C58_collect` and of `C59_count_partial` are met by the demo world with every configuration. -/
example (cfg : Cfg) (w : Nat) : (calls (demo.next ()) (demoResults w cfg.nIters).length w).1 = (demoResults w cfg.nIters).map .ok ∧
    (demoResults w cfg.nIters).length = cfg.nIters := by
  have : (demoResults w cfg.nIters).length = cfg.nIters := by simp [demoResults]
  rw [this, demo_calls]
  simp

/-! ## `predict` and its stages -/

theorem unnormalizeMean_nan (stats : Option (Fl × Fl)) : unnormalizeMean stats .nan = .nan := by
  rcases stats with _ | ⟨m, s⟩ <;> simp [unnormalizeMean, unstandardize]

theorem unnormalizeVar_nan (stats : Option (Fl × Fl)) : unnormalizeVar stats .nan = .nan := by
  rcases stats with _ | ⟨m, s⟩ <;> simp [unnormalizeVar]

/-- The statistics `predict` needs are present. -/
def HasStats (cfg : Cfg) (b : Bnn D) : Prop :=
  (cfg.normalizeInput = true → b.xStats.isSome = true) ∧ (cfg.normalizeOutput = true → b.yStats.isSome = true)

/-- Without stored networks `predict` returns two `NaN` numbers instead of arrays, without any error. -/
theorem predict_empty (cfg : Cfg) (W : World D ω H C) (b : Bnn D) (w : ω) (ht : b.isTrained = true) (hs : b.samples = [])
    (hst : HasStats cfg b) {N : Nat} (X : Fin N → Fin D → Fl) :
    predict cfg W b w X false = .ok (.scalars .nan .nan) := by
  obtain ⟨X', hX⟩ : ∃ X', testInput cfg b X = .ok X' := by
    unfold testInput
    split
    · rename_i h
      obtain ⟨p, hp⟩ := Option.isSome_iff_exists.1 (hst.1 h)
      exact ⟨_, by rw [hp]⟩
    · exact ⟨_, rfl⟩
  obtain ⟨st, hY⟩ : ∃ st, labelStats cfg b = .ok st := by
    unfold labelStats
    split
    · rename_i h
      obtain ⟨p, hp⟩ := Option.isSome_iff_exists.1 (hst.2 h)
      exact ⟨_, by rw [hp]⟩
    · exact ⟨_, rfl⟩
  unfold predict
  simp [ht, hX, hY, hs, bind, Except.bind, summarize, pure, Except.pure, unnormalizeMean_nan, unnormalizeVar_nan]

/-- After `train` got past the normalization the statistics are present. -/
theorem train_hasStats (cfg : Cfg) (W : World D ω H C) (rows : Rows (Fin D)) (y : List Fl) (b : Bnn D) (w : ω) :
    HasStats cfg (train cfg W (.matrix rows) y b w).2.1 := by
  have hx : cfg.normalizeInput = true → (normalizedY cfg (normalizedX cfg b rows).2 y).2.xStats.isSome = true := by
    intro h
    simp [normalizedX, h]
  have hy : cfg.normalizeOutput = true → (normalizedY cfg (normalizedX cfg b rows).2 y).2.yStats.isSome = true := by
    intro h
    simp [normalizedY, h]
  unfold train
  simp only
  rcases W.getNet _ w with ⟨_ | net, w1⟩
  · exact ⟨hx, hy⟩
  rcases hc : W.costGraph net w1 with ⟨_ | u, w2⟩
  · simp only [hc]; exact ⟨hx, hy⟩
  simp only [hc]
  rcases W.buildSampler _ w2 with ⟨_ | hd, w3⟩
  · exact ⟨hx, hy⟩
  simp only [normalizedX_ph, normalizedY_ph]
  generalize trainLoop cfg (W.next hd) (W.logError ⟨(normalizedX cfg b rows).1,
      (normalizedY cfg (normalizedX cfg b rows).2 y).1, b.nPlaceholders, W.trainable w2⟩) cfg.nIters 0 [] w3 = r
  rw [(normalizedY_ph _ _ _).2.2.2.2.2] at hx
  rcases r with ⟨_ | u, samples, w4⟩
  · exact ⟨hx, hy⟩
  · exact ⟨hx, hy⟩

/-! ## C59: violation -/

/-- **C59** fails: whenever `n_iters ≤ burn_in_steps + 1` (all such values are accepted by the constructor), `train`
succeeds without storing any network, and `predict` then returns two `NaN` numbers without an error. -/
theorem C59_violated (cfg : Cfg) (hn : 0 < cfg.nNets) (hi : 0 < cfg.nIters) (hsmall : cfg.nIters ≤ cfg.burnIn + 1)
    (W : World D ω H C) (rows : Rows (Fin D)) (y : List Fl) (b : Bnn D) (w : ω) (d : TrainData D) (h : H) (w' : ω)
    (hp : Prepared cfg W rows y b w d h w') (hlog : ∀ v, W.logError d v = .ok ()) (results : List (Sample × C))
    (hlen : results.length = cfg.nIters) (hres : (calls (W.next h) results.length w').1 = results.map .ok) :
    (train cfg W (.matrix rows) y b w).1 = .ok () ∧ (train cfg W (.matrix rows) y b w).2.1.samples = [] ∧
    ∀ {N : Nat} (X : Fin N → Fin D → Fl), predict cfg W (train cfg W (.matrix rows) y b w).2.1
      (train cfg W (.matrix rows) y b w).2.2 X false = .ok (.scalars .nan .nan) := by
  obtain ⟨h1, h2, -⟩ := C59_count_partial cfg hn hi W rows y b w d h w' hp hlog results hlen hres
  have h3 : (train cfg W (.matrix rows) y b w).2.1.samples = [] := by
    rw [← List.length_eq_zero_iff, h2]
    have : (cfg.nIters - 1) / cfg.sampleSteps ≤ cfg.burnIn / cfg.sampleSteps := Nat.div_le_div_right (by omega)
    omega
  exact ⟨h1, h3, fun X => predict_empty cfg W _ _ ((train_isTrained cfg W _ y b w).2 (Or.inr h1)) h3
    (train_hasStats cfg W rows y b w) X⟩

/-- A concrete case of the violation: default settings except `n_iters=1000`. -/
example (rows : Rows (Fin 1)) (y : List Fl) :
    (train ⟨100, 1000, 1000, 100, true, true⟩ demo (.matrix rows) y {} 0).2.1.samples = [] :=
  (C59_violated _ (by norm_num) (by norm_num) (by norm_num) demo rows y {} 0 _ () 0 (demo_prepared _ rows y {} 0)
    (fun _ => rfl) (demoResults 0 1000) (by simp [demoResults]) (by
      rw [show (demoResults 0 1000).length = 1000 by simp [demoResults], demo_calls])).2.1

/-! ## C61 -/

theorem isFin_of_infOf {r : ℝ} : ¬ (Fl.infOf r).IsFin := by
  unfold Fl.infOf
  split
  · simp
  · split <;> simp

/-- A finite unnormalized value comes from a finite value. -/
theorem isFin_of_unstandardize {v : Fl} {m s : ℝ} (h : (unstandardize v (.fin m) (.fin s)).IsFin) : v.IsFin := by
  cases v with
  | fin r => simp
  | nan => simp [unstandardize] at h
  | pinf =>
    have h' : (Fl.infOf s + .fin m).IsFin := h
    unfold Fl.infOf at h'
    exfalso
    split at h'
    · exact Fl.not_isFin_pinf h'
    · split at h'
      · exact Fl.not_isFin_ninf h'
      · simp at h'
  | ninf =>
    have h' : (Fl.infOf (-s) + .fin m).IsFin := h
    unfold Fl.infOf at h'
    exfalso
    split at h'
    · exact Fl.not_isFin_pinf h'
    · split at h'
      · exact Fl.not_isFin_ninf h'
      · simp at h'

/-- The label statistics are finite numbers. -/
def FiniteStats (stats : Option (Fl × Fl)) : Prop := ∀ p, stats = some p → p.1.IsFin ∧ p.2.IsFin

theorem isFin_of_unnormalizeMean {stats : Option (Fl × Fl)} (hst : FiniteStats stats) {v : Fl}
    (h : (unnormalizeMean stats v).IsFin) : v.IsFin := by
  rcases stats with _ | ⟨m, s⟩
  · exact h
  · obtain ⟨⟨m, rfl⟩, ⟨s, rfl⟩⟩ := hst _ rfl
    exact isFin_of_unstandardize h

/-- The affine map that undoes the normalization. -/
theorem unnormalize_affine {stats : Option (Fl × Fl)} (hst : FiniteStats stats) :
    ∃ a c : ℝ, (∀ r, unnormalizeMean stats (.fin r) = .fin (a * r + c)) ∧
      (∀ r, unnormalizeVar stats (.fin r) = .fin (a ^ 2 * r)) := by
  rcases stats with _ | ⟨m, s⟩
  · exact ⟨1, 0, fun r => by simp [unnormalizeMean], fun r => by simp [unnormalizeVar]⟩
  · obtain ⟨⟨m, rfl⟩, ⟨s, rfl⟩⟩ := hst _ rfl
    refine ⟨s, m, fun r => ?_, fun r => ?_⟩
    · simp [unnormalizeMean, unstandardize, mul_comm]
    · simp [unnormalizeVar, mul_comm]

theorem summarize_point {stats : Option (Fl × Fl)} (hst : FiniteStats stats) {N : Nat} (outs : List (Fin N → Fl × Fl))
    (hne : outs ≠ []) : ∃ (F Z : List (Fin N → Fl)) (M V : Fin N → Fl),
      summarize true stats outs = .individual F Z ∧ F.length = outs.length ∧ Z.length = outs.length ∧
      summarize false stats outs = .summary M V ∧
      ∀ i, (∀ f ∈ F, (f i).IsFin) → ∃ c : List ℝ, F.map (· i) = c.map .fin ∧ M i = .fin (avg c) ∧ V i = .fin (var c) := by
  obtain ⟨a, c0, ha, hc⟩ := unnormalize_affine hst
  set f : List (Fin N → Fl) := outs.map fun o i => (o i).1 with hf
  have hfne : f ≠ [] := by simpa [hf] using hne
  refine ⟨f.map fun row i => unnormalizeMean stats (row i),
    (outs.map fun o i => Fl.exp (o i).2).map fun row i => unnormalizeVar stats (row i),
    fun i => unnormalizeMean stats (meanAxis0 f i),
    fun i => unnormalizeVar stats (meanAxis0 (f.map fun row i => Fl.npow (row i - meanAxis0 f i) 2) i),
    rfl, by simp [hf], by simp, ?_, ?_⟩
  · obtain ⟨o, os, rfl⟩ := List.exists_cons_of_ne_nil hne
    rfl
  · intro i hfin
    have hfin' : ∀ g ∈ f, (g i).IsFin := by
      intro g hg
      exact isFin_of_unnormalizeMean hst (hfin _ (List.mem_map.2 ⟨g, hg, rfl⟩))
    set r : List ℝ := f.map fun g => (g i).val with hr
    have hrne : r ≠ [] := by simpa [hr] using hfne
    have hcol : column f i = r.map .fin := by
      simp only [column, hr, List.map_map]
      apply List.map_congr_left
      intro g hg
      exact (hfin' g hg).eq
    have hmean : meanAxis0 f i = .fin (avg r) := by
      show Fl.mean (column f i) = _
      rw [hcol, Fl.mean_map_fin hrne]
      rfl
    have hvar : meanAxis0 (f.map fun row i => Fl.npow (row i - meanAxis0 f i) 2) i = .fin (var r) := by
      show Fl.mean (column _ i) = _
      have : column (f.map fun row i => Fl.npow (row i - meanAxis0 f i) 2) i = (r.map fun x => (x - avg r) ^ 2).map .fin := by
        simp only [column, List.map_map, hr]
        apply List.map_congr_left
        intro g hg
        simp only [Function.comp]
        rw [hmean, (hfin' g hg).eq]
        simp [hr]
      rw [this, Fl.mean_map_fin (by simpa using hrne)]
      rfl
    refine ⟨r.map fun x => a * x + c0, ?_, ?_, ?_⟩
    · simp only [hr, List.map_map]
      apply List.map_congr_left
      intro g hg
      simp only [Function.comp]
      rw [(hfin' g hg).eq, ha]
      simp
    · simp only [hmean, ha, avg_affine hrne]
    · simp only [hvar, hc, var_affine hrne]

/-- What `predict` computes when it succeeds. -/
theorem predict_ok (cfg : Cfg) (W : World D ω H C) (b : Bnn D) (w : ω) {N : Nat} (X : Fin N → Fin D → Fl) (ind : Bool)
    (P : Prediction N) (h : predict cfg W b w X ind = .ok P) :
    ∃ X' outs stats, b.isTrained = true ∧ testInput cfg b X = .ok X' ∧
      (b.samples.mapM fun s => computeNetworkOutput W b w s X') = .ok outs ∧ labelStats cfg b = .ok stats ∧
      P = summarize ind stats outs := by
  unfold predict at h
  cases ht : b.isTrained with
  | false => simp [ht] at h
  | true =>
    simp only [ht, Bool.not_true, Bool.false_eq_true, if_false] at h
    cases hX : testInput cfg b X with
    | error e => simp [hX, bind, Except.bind] at h
    | ok X' =>
      cases hm : (b.samples.mapM fun s => computeNetworkOutput W b w s X') with
      | error e => simp only [hX, bind, Except.bind] at h; rw [hm] at h; simp at h
      | ok outs =>
        cases hl : labelStats cfg b with
        | error e => simp only [hX, bind, Except.bind] at h; rw [hm] at h; simp [hl] at h
        | ok stats =>
          simp only [hX, bind, Except.bind] at h
          rw [hm] at h
          simp only [hl, Except.ok.injEq] at h
          exact ⟨X', outs, stats, rfl, rfl, hm, rfl, h.symm⟩

theorem predict_of (cfg : Cfg) (W : World D ω H C) (b : Bnn D) (w : ω) {N : Nat} (X X' : Fin N → Fin D → Fl) (ind : Bool)
    (outs : List (Fin N → Fl × Fl)) (stats : Option (Fl × Fl)) (ht : b.isTrained = true) (hX : testInput cfg b X = .ok X')
    (hm : (b.samples.mapM fun s => computeNetworkOutput W b w s X') = .ok outs) (hl : labelStats cfg b = .ok stats) :
    predict cfg W b w X ind = .ok (summarize ind stats outs) := by
  unfold predict
  simp only [ht, Bool.not_true, Bool.false_eq_true, if_false, hX, bind, Except.bind]
  rw [hm]
  simp [hl]

theorem mapM_length {α β : Type} (f : α → Except PyErr β) : ∀ (l : List α) (r : List β), l.mapM f = .ok r → r.length = l.length := by
  intro l
  induction l with
  | nil => intro r h; simp [pure, Except.pure] at h; simp [← h]
  | cons a as ih =>
    intro r h
    rw [List.mapM_cons] at h
    cases hfa : f a with
    | error e => simp [hfa, bind, Except.bind] at h
    | ok b =>
      cases hr : as.mapM f with
      | error e => simp [hfa, hr, bind, Except.bind] at h
      | ok bs =>
        simp only [hfa, hr, bind, Except.bind, pure, Except.pure, Except.ok.injEq] at h
        rw [← h]
        simp [ih bs hr]

theorem labelStats_finite {cfg : Cfg} {b : Bnn D} {stats : Option (Fl × Fl)} (hst : FiniteStats b.yStats)
    (h : labelStats cfg b = .ok stats) : FiniteStats stats := by
  unfold labelStats at h
  split at h
  · split at h
    · rename_i hs
      simp only [Except.ok.injEq] at h
      rw [← h, ← hs]
      exact hst
    · simp at h
  · simp only [Except.ok.injEq] at h
    rw [← h]
    intro p hp
    simp at hp

/-- **C61** With at least one stored network: if `predict` returns the individual predictions `F`, one row per network,
it also returns a summary, and at every test point where the individual predictions are finite its mean and variance
are their mean and population variance; the variance is non-negative. -/
theorem C61_summary (cfg : Cfg) (W : World D ω H C) (b : Bnn D) (w : ω) (hne : b.samples ≠ []) (hst : FiniteStats b.yStats)
    {N : Nat} (X : Fin N → Fin D → Fl) (P : Prediction N) (h : predict cfg W b w X true = .ok P) :
    ∃ (F Z : List (Fin N → Fl)) (M V : Fin N → Fl), P = .individual F Z ∧ F.length = b.samples.length ∧
      Z.length = b.samples.length ∧ predict cfg W b w X false = .ok (.summary M V) ∧
      ∀ i, (∀ f ∈ F, (f i).IsFin) →
        ∃ c : List ℝ, F.map (· i) = c.map .fin ∧ M i = .fin (avg c) ∧ V i = .fin (var c) ∧ 0 ≤ var c := by
  obtain ⟨X', outs, stats, ht, hX, hm, hl, rfl⟩ := predict_ok cfg W b w X true P h
  have hlen := mapM_length _ _ _ hm
  have houts : outs ≠ [] := by
    intro hc
    rw [hc] at hlen
    exact hne (List.length_eq_zero_iff.1 (by simpa using hlen.symm))
  obtain ⟨F, Z, M, V, h1, h2, h3, h4, h5⟩ := summarize_point (labelStats_finite hst hl) outs houts
  refine ⟨F, Z, M, V, h1, by rw [h2, hlen], by rw [h3, hlen], ?_, ?_⟩
  · rw [predict_of cfg W b w X X' false outs stats ht hX hm hl, h4]
  · intro i hi
    obtain ⟨c, hc1, hc2, hc3⟩ := h5 i hi
    exact ⟨c, hc1, hc2, hc3, var_nonneg c⟩

/-- **C61** `predict` with and without `return_individual_predictions` fails on the same inputs, with the same error. -/
theorem C61_same_errors (cfg : Cfg) (W : World D ω H C) (b : Bnn D) (w : ω) {N : Nat} (X : Fin N → Fin D → Fl) (e : PyErr) :
    predict cfg W b w X true = .error e ↔ predict cfg W b w X false = .error e := by
  unfold predict
  split
  · simp
  · cases testInput cfg b X with
    | error e => simp [bind, Except.bind]
    | ok X' =>
      simp only [bind, Except.bind]
      cases (b.samples.mapM fun s => computeNetworkOutput W b w s X') with
      | error e => simp
      | ok outs =>
        simp only
        cases labelStats cfg b <;> simp

/-! ## C62 -/

/-- The network maps every row of its input separately. -/
def Net.Rowwise (net : Net D) : Prop :=
  ∃ g : (Nat → Tensor Fl) → (Fin D → Fl) → Fl × Fl, ∀ a (N : Nat) (X : Fin N → Fin D → Fl) i, net.eval a X i = g a (X i)

/-- Predictions for the concatenated test set. -/
def Prediction.append {N M : Nat} : Prediction N → Prediction M → Prediction (N + M)
  | .summary m v, .summary m' v' => .summary (Fin.append m m') (Fin.append v v')
  | .individual f z, .individual f' z' => .individual (List.zipWith Fin.append f f') (List.zipWith Fin.append z z')
  | .scalars m v, _ => .scalars m v
  | .summary _ _, _ => .scalars .nan .nan
  | .individual _ _, _ => .scalars .nan .nan

theorem computeNetworkOutput_append (W : World D ω H C) (b : Bnn D) (w : ω) (net : Net D) (hnet : b.netOutput = some net)
    (hr : net.Rowwise) (s : Sample) {N M : Nat} (X : Fin N → Fin D → Fl) (Y : Fin M → Fin D → Fl) :
    (∃ o p, computeNetworkOutput W b w s X = .ok o ∧ computeNetworkOutput W b w s Y = .ok p ∧
      computeNetworkOutput W b w s (Fin.append X Y) = .ok (Fin.append o p)) ∨
    (∃ e, computeNetworkOutput W b w s X = .error e ∧ computeNetworkOutput W b w s Y = .error e ∧
      computeNetworkOutput W b w s (Fin.append X Y) = .error e) := by
  obtain ⟨g, hg⟩ := hr
  unfold computeNetworkOutput
  cases zipParams b.networkParams s with
  | error e => right; exact ⟨e, rfl, rfl, rfl⟩
  | ok pairs =>
    simp only [bind, Except.bind, hnet]
    cases b.xMinibatch with
    | none => right; exact ⟨_, rfl, rfl, rfl⟩
    | some ph =>
      simp only
      by_cases h1 : (pairs.all fun p => p.2.shape == W.varShape p.1) = true
      · by_cases h2 : net.input = ph
        · left
          refine ⟨_, _, by simp only [h1]; simp [h2]; rfl, by simp only [h1]; simp [h2]; rfl, ?_⟩
          simp only [h1]
          simp only [Bool.not_true, Bool.false_eq_true, if_false, h2, ne_eq, not_true_eq_false, Except.ok.injEq]
          funext i
          refine Fin.addCases (fun j => ?_) (fun j => ?_) i
          · rw [hg, Fin.append_left, Fin.append_left, hg]
          · rw [hg, Fin.append_right, Fin.append_right, hg]
        · right
          refine ⟨.session 0, ?_, ?_, ?_⟩ <;> (simp only [h1]; simp [h2])
      · right
        refine ⟨.value "feed_dict", ?_, ?_, ?_⟩ <;> (simp only [h1]; simp)

theorem mapM_append {N M : Nat} (samples : List Sample) (fX : Sample → Except PyErr (Fin N → Fl × Fl))
    (fY : Sample → Except PyErr (Fin M → Fl × Fl)) (fXY : Sample → Except PyErr (Fin (N + M) → Fl × Fl))
    (h : ∀ s, (∃ o p, fX s = .ok o ∧ fY s = .ok p ∧ fXY s = .ok (Fin.append o p)) ∨
      (∃ e, fX s = .error e ∧ fY s = .error e ∧ fXY s = .error e)) :
    (∃ os ps, samples.mapM fX = .ok os ∧ samples.mapM fY = .ok ps ∧ os.length = ps.length ∧
      samples.mapM fXY = .ok (List.zipWith Fin.append os ps)) ∨
    (∃ e, samples.mapM fX = .error e ∧ samples.mapM fY = .error e ∧ samples.mapM fXY = .error e) := by
  induction samples with
  | nil => left; exact ⟨[], [], rfl, rfl, rfl, rfl⟩
  | cons s ss ih =>
    simp only [List.mapM_cons]
    rcases h s with ⟨o, p, h1, h2, h3⟩ | ⟨e, h1, h2, h3⟩
    · rcases ih with ⟨os, ps, i1, i2, i3, i4⟩ | ⟨e, i1, i2, i3⟩
      · left
        refine ⟨o :: os, p :: ps, ?_, ?_, by simp [i3], ?_⟩
        · simp [h1, i1, bind, Except.bind, pure, Except.pure]
        · simp [h2, i2, bind, Except.bind, pure, Except.pure]
        · simp [h3, i4, bind, Except.bind, pure, Except.pure]
      · right
        exact ⟨e, by simp [h1, i1, bind, Except.bind], by simp [h2, i2, bind, Except.bind], by simp [h3, i3, bind, Except.bind]⟩
    · right
      exact ⟨e, by simp [h1, bind, Except.bind], by simp [h2, bind, Except.bind], by simp [h3, bind, Except.bind]⟩

theorem zipWith_append_map {N M : Nat} {α β : Type} (g : α → β) (as : List (Fin N → α)) (bs : List (Fin M → α)) :
    (List.zipWith Fin.append as bs).map (fun o i => g (o i)) =
      List.zipWith Fin.append (as.map fun o i => g (o i)) (bs.map fun o i => g (o i)) := by
  induction as generalizing bs with
  | nil => simp
  | cons a as ih =>
    cases bs with
    | nil => simp
    | cons b bs =>
      simp only [List.zipWith_cons_cons, List.map_cons, ih, List.cons.injEq, and_true]
      funext i
      refine Fin.addCases (fun j => ?_) (fun j => ?_) i
      · simp [Fin.append_left]
      · simp [Fin.append_right]

theorem column_zipWith_left {N M : Nat} (as : List (Fin N → Fl)) (bs : List (Fin M → Fl)) (h : as.length = bs.length)
    (i : Fin N) : column (List.zipWith Fin.append as bs) (Fin.castAdd M i) = column as i := by
  induction as generalizing bs with
  | nil => simp [column]
  | cons a as ih =>
    cases bs with
    | nil => simp at h
    | cons b bs =>
      have := ih bs (by simpa using h)
      simp only [column] at this ⊢
      simp [this, Fin.append_left]

theorem column_zipWith_right {N M : Nat} (as : List (Fin N → Fl)) (bs : List (Fin M → Fl)) (h : as.length = bs.length)
    (i : Fin M) : column (List.zipWith Fin.append as bs) (Fin.natAdd N i) = column bs i := by
  induction as generalizing bs with
  | nil => cases bs <;> simp [column] at h ⊢
  | cons a as ih =>
    cases bs with
    | nil => simp at h
    | cons b bs =>
      have := ih bs (by simpa using h)
      simp only [column] at this ⊢
      simp [this, Fin.append_right]

theorem meanAxis0_zipWith {N M : Nat} (as : List (Fin N → Fl)) (bs : List (Fin M → Fl)) (h : as.length = bs.length) :
    meanAxis0 (List.zipWith Fin.append as bs) = Fin.append (meanAxis0 as) (meanAxis0 bs) := by
  funext i
  refine Fin.addCases (fun j => ?_) (fun j => ?_) i
  · rw [Fin.append_left]
    show Fl.mean (column _ _) = Fl.mean (column _ _)
    rw [column_zipWith_left as bs h]
  · rw [Fin.append_right]
    show Fl.mean (column _ _) = Fl.mean (column _ _)
    rw [column_zipWith_right as bs h]

theorem zipWith_append_map2 {N M : Nat} (g : Fl → Fl → Fl) (m : Fin N → Fl) (m' : Fin M → Fl) (as : List (Fin N → Fl))
    (bs : List (Fin M → Fl)) :
    (List.zipWith Fin.append as bs).map (fun o i => g (o i) (Fin.append m m' i)) =
      List.zipWith Fin.append (as.map fun o i => g (o i) (m i)) (bs.map fun o i => g (o i) (m' i)) := by
  induction as generalizing bs with
  | nil => simp
  | cons a as ih =>
    cases bs with
    | nil => simp
    | cons b bs =>
      simp only [List.zipWith_cons_cons, List.map_cons, ih, List.cons.injEq, and_true]
      funext i
      refine Fin.addCases (fun j => ?_) (fun j => ?_) i
      · simp [Fin.append_left]
      · simp [Fin.append_right]

theorem append_comp {N M : Nat} {α β : Type} (g : α → β) (a : Fin N → α) (b : Fin M → α) :
    (fun i => g (Fin.append a b i)) = Fin.append (fun i => g (a i)) (fun i => g (b i)) := by
  funext i
  refine Fin.addCases (fun j => ?_) (fun j => ?_) i
  · simp [Fin.append_left]
  · simp [Fin.append_right]

theorem summarize_append {N M : Nat} (ind : Bool) (stats : Option (Fl × Fl)) (os : List (Fin N → Fl × Fl))
    (ps : List (Fin M → Fl × Fl)) (h : os.length = ps.length) :
    summarize ind stats (List.zipWith Fin.append os ps) = (summarize ind stats os).append (summarize ind stats ps) := by
  cases ind with
  | true =>
    simp only [summarize, if_true, Prediction.append]
    rw [zipWith_append_map (fun o : Fl × Fl => o.1), zipWith_append_map (fun v => unnormalizeMean stats v),
      zipWith_append_map (fun o : Fl × Fl => Fl.exp o.2), zipWith_append_map (fun v => unnormalizeVar stats v)]
  | false =>
    cases os with
    | nil =>
      cases ps with
      | nil => rfl
      | cons p ps => simp at h
    | cons o os =>
      cases ps with
      | nil => simp at h
      | cons p ps =>
        have hs : ∀ {K : Nat} (q : Fin K → Fl × Fl) (qs : List (Fin K → Fl × Fl)), summarize false stats (q :: qs) =
            .summary (fun i => unnormalizeMean stats (meanAxis0 ((q :: qs).map fun o i => (o i).1) i))
              (fun i => unnormalizeVar stats (meanAxis0 (((q :: qs).map fun o i => (o i).1).map
                fun row i => Fl.npow (row i - meanAxis0 ((q :: qs).map fun o i => (o i).1) i) 2) i)) := fun q qs => rfl
        have hf : (List.zipWith Fin.append (o :: os) (p :: ps)).map (fun o i => (o i).1) =
            List.zipWith Fin.append ((o :: os).map fun o i => (o i).1) ((p :: ps).map fun o i => (o i).1) :=
          zipWith_append_map (fun o : Fl × Fl => o.1) _ _
        have hlen : ((o :: os).map fun o i => (o i).1).length = ((p :: ps).map fun o i => (o i).1).length := by
          simpa using h
        have hz : List.zipWith Fin.append (o :: os) (p :: ps) = Fin.append o p :: List.zipWith Fin.append os ps := rfl
        rw [hz, hs, hs, hs, ← hz, hf, Prediction.append, meanAxis0_zipWith _ _ hlen,
          zipWith_append_map2 (fun a m => Fl.npow (a - m) 2), meanAxis0_zipWith _ _ (by simpa using h),
          append_comp (unnormalizeMean stats), append_comp (unnormalizeVar stats)]

/-- **C62** For a network that treats rows separately (the default network does, `C66_rowwise`), predicting a
concatenation of two test sets gives the concatenation of the predictions, with the same errors. -/
theorem C62_pointwise (cfg : Cfg) (W : World D ω H C) (b : Bnn D) (w : ω) (net : Net D) (hnet : b.netOutput = some net)
    (hr : net.Rowwise) {N M : Nat} (X : Fin N → Fin D → Fl) (Y : Fin M → Fin D → Fl) (ind : Bool) :
    predict cfg W b w (Fin.append X Y) ind =
      (predict cfg W b w X ind).bind fun p => (predict cfg W b w Y ind).bind fun q => .ok (p.append q) := by
  unfold predict
  cases b.isTrained with
  | false => simp [Except.bind]
  | true =>
    simp only [Bool.not_true, Bool.false_eq_true, if_false]
    have hT : (∃ X' Y', testInput cfg b X = .ok X' ∧ testInput cfg b Y = .ok Y' ∧
        testInput cfg b (Fin.append X Y) = .ok (Fin.append X' Y')) ∨
        (∃ e, testInput cfg b X = .error e ∧ testInput cfg b Y = .error e ∧ testInput cfg b (Fin.append X Y) = .error e) := by
      unfold testInput
      cases cfg.normalizeInput with
      | false => left; exact ⟨X, Y, rfl, rfl, rfl⟩
      | true =>
        cases b.xStats with
        | none => right; exact ⟨_, rfl, rfl, rfl⟩
        | some p =>
          left
          refine ⟨_, _, rfl, rfl, ?_⟩
          simp only [if_true, Except.ok.injEq]
          exact append_comp (fun (row : Fin D → Fl) j => standardize (row j) (p.1 j) (p.2 j)) X Y
    rcases hT with ⟨X', Y', h1, h2, h3⟩ | ⟨e, h1, h2, h3⟩
    · simp only [h1, h2, h3, bind, Except.bind]
      rcases mapM_append b.samples _ _ _ (fun s => computeNetworkOutput_append W b w net hnet hr s X' Y') with
        ⟨os, ps, i1, i2, i3, i4⟩ | ⟨e, i1, i2, i3⟩
      · rw [i1, i2, i4]
        simp only
        cases labelStats cfg b with
        | error e => rfl
        | ok stats => simp only [summarize_append ind stats os ps i3]
      · rw [i1, i2, i3]
    · simp only [h1, h3, bind, Except.bind]

example (ph w : Nat) : (match (demo.getNet ph w).1 with | .ok net => net.Rowwise | .error _ => False) :=
  ⟨fun a x => (x 0 * (a 0).data.headD 0, (a 1).data.headD 0), fun _ _ _ _ => rfl⟩

/-! ## C63 -/

/-- Variance of an equally weighted mixture of distributions with the given means and variances: the mean of
`mean² + variance` minus the square of the overall mean. -/
noncomputable def mixtureVar (l : List (ℝ × ℝ)) : ℝ :=
  avg (l.map fun p => p.1 ^ 2 + p.2) - avg (l.map fun p => p.1) ^ 2

theorem mixtureVar_eq {l : List (ℝ × ℝ)} (h : l ≠ []) :
    mixtureVar l = var (l.map fun p => p.1) + avg (l.map fun p => p.2) := by
  have h' : (l.length : ℝ) ≠ 0 := by simpa using h
  have s1 : (l.map fun p => p.1 ^ 2 + p.2).sum = (l.map fun p => p.1 ^ 2).sum + (l.map fun p => p.2).sum := by
    clear h h'
    induction l with
    | nil => simp
    | cons a as ih => simp only [List.map_cons, List.sum_cons, ih]; ring
  have s2 : ∀ m : ℝ, (l.map fun p => (p.1 - m) ^ 2).sum =
      (l.map fun p => p.1 ^ 2).sum - 2 * m * (l.map fun p => p.1).sum + l.length * m ^ 2 := by
    intro m
    clear h h' s1
    induction l with
    | nil => simp
    | cons a as ih => simp only [List.map_cons, List.sum_cons, ih, List.length_cons]; push_cast; ring
  unfold mixtureVar var
  simp only [avg, List.length_map, List.map_map, Function.comp_def]
  rw [s1, s2]
  field_simp
  ring

/-- **C63** (partial) The returned variance is short of the predictive variance of the mixture of the stored networks
(the law of total variance) by exactly the mean of the noise variances the networks predict. -/
theorem C63_total_partial (cfg : Cfg) (W : World D ω H C) (b : Bnn D) (w : ω) (hne : b.samples ≠ [])
    (hst : FiniteStats b.yStats) {N : Nat} (X : Fin N → Fin D → Fl) (F Z : List (Fin N → Fl))
    (h : predict cfg W b w X true = .ok (.individual F Z)) (i : Fin N) (l : List (ℝ × ℝ))
    (hF : F.map (· i) = l.map fun p => .fin p.1) (_hZ : Z.map (· i) = l.map fun p => .fin p.2) :
    ∃ M V, predict cfg W b w X false = .ok (.summary M V) ∧ V i = .fin (mixtureVar l - avg (l.map fun p => p.2)) := by
  obtain ⟨F', Z', M, V, hP, hFl, -, hpred, hpt⟩ := C61_summary cfg W b w hne hst X _ h
  simp only [Prediction.individual.injEq] at hP
  obtain ⟨rfl, rfl⟩ := hP
  have hfin : ∀ f ∈ F, (f i).IsFin := by
    intro f hf
    have : f i ∈ F.map (· i) := List.mem_map.2 ⟨f, hf, rfl⟩
    rw [hF] at this
    obtain ⟨p, -, hp⟩ := List.mem_map.1 this
    rw [← hp]
    simp
  obtain ⟨c, hc1, -, hc3, -⟩ := hpt i hfin
  have hlne : l ≠ [] := by
    intro hl
    have := congrArg List.length hF
    simp only [hl, List.map_nil, List.length_nil, List.length_map, hFl] at this
    exact hne (List.length_eq_zero_iff.1 this)
  have hc : c = l.map fun p => p.1 := by
    rw [hF] at hc1
    have h1 : l.map (fun p => Fl.fin p.1) = (l.map fun p => p.1).map .fin := by simp
    rw [h1] at hc1
    exact (List.map_injective_iff.2 (fun a b h => Fl.fin_inj.1 h) hc1).symm
  exact ⟨M, V, hpred, by rw [hc3, hc, mixtureVar_eq hlne]; congr 1; ring⟩

/-- A trained object of the demo world with one stored network `x ↦ (x, r)`. -/
noncomputable def demoTrained (r : ℝ) : Bnn 1 where
  isTrained := true
  samples := [.many [⟨[1], [.fin 1]⟩, ⟨[1], [.fin r]⟩]]
  xMinibatch := some 0
  netOutput := some ⟨0, fun a _ X i => (X i 0 * (a 0).data.headD 0, (a 1).data.headD 0)⟩
  networkParams := [0, 1]
  nPlaceholders := 1

/-- **C63** fails: with a single stored network the returned variance is always 0, however large the noise variance
`exp(log variance)` predicted by that network. -/
theorem C63_violated (cfg : Cfg) (hx : cfg.normalizeInput = false) (hy : cfg.normalizeOutput = false) (r : ℝ) :
    ∃ b : Bnn 1, b.samples.length = 1 ∧ ∀ {N : Nat} (X : Fin N → Fin 1 → ℝ),
      predict cfg demo b 0 (fun i j => .fin (X i j)) true =
        .ok (.individual [fun i => .fin (X i 0)] [fun _ => .fin (Real.exp r)]) ∧
      predict cfg demo b 0 (fun i j => .fin (X i j)) false = .ok (.summary (fun i => .fin (X i 0)) fun _ => .fin 0) := by
  refine ⟨demoTrained r, rfl, ?_⟩
  intro N X
  have hm : ((demoTrained r).samples.mapM fun s => computeNetworkOutput demo (demoTrained r) 0 s
      (fun (i : Fin N) j => .fin (X i j))) = .ok [fun i => (.fin (X i 0), .fin r)] := by
    simp [demoTrained, computeNetworkOutput, zipParams, demo, bind, Except.bind, pure, Except.pure, Dict.ofList, Dict.empty]
  constructor
  · rw [predict_of cfg demo _ 0 _ _ true _ none rfl (by simp [testInput, hx]) hm (by simp [labelStats, hy])]
    simp [summarize, unnormalizeMean, unnormalizeVar]
  · rw [predict_of cfg demo _ 0 _ _ false _ none rfl (by simp [testInput, hx]) hm (by simp [labelStats, hy])]
    simp [summarize, unnormalizeMean, unnormalizeVar, meanAxis0, column, Fl.mean, Fl.sum, Fl.div_fin]

/-! ## C75 -/

/-- **C75** (partial) A `train` call rejected by its shape check leaves all predictions as they were. -/
theorem C75_rejected_partial (cfg : Cfg) (W : World D ω H C) (y : List Fl) (b : Bnn D) (w : ω) {N : Nat}
    (X : Fin N → Fin D → Fl) (ind : Bool) :
    predict cfg W (train cfg W .other y b w).2.1 (train cfg W .other y b w).2.2 X ind = predict cfg W b w X ind := rfl

/-- **C75** fails: if, on a trained object, `train` fails while the batch generator or sampler is built (for instance an
empty dataset or an invalid sampler argument), the stored networks are lost but `predict` still works: it silently returns two
`NaN` numbers. -/
theorem C75_violated_nan (cfg : Cfg) (W : World D ω H C) (rows : Rows (Fin D)) (y : List Fl) (b : Bnn D) (w : ω)
    (ht : b.isTrained = true) (net : Net D) (w1 w2 w3 : ω) (e : PyErr) (h1 : W.getNet b.nPlaceholders w = (.ok net, w1))
    (h2 : W.costGraph net w1 = (.ok (), w2))
    (h3 : W.buildSampler ⟨(normalizedX cfg b rows).1, (normalizedY cfg b y).1, b.nPlaceholders, W.trainable w2⟩ w2
      = (.error e, w3)) :
    (train cfg W (.matrix rows) y b w).1 = .error e ∧
    ∀ {N : Nat} (X : Fin N → Fin D → Fl), predict cfg W (train cfg W (.matrix rows) y b w).2.1
      (train cfg W (.matrix rows) y b w).2.2 X false = .ok (.scalars .nan .nan) := by
  have hY : (normalizedY cfg (normalizedX cfg b rows).2 y).1 = (normalizedY cfg b y).1 := normalizedY_fst _ _ _ _
  have hn : (normalizedY cfg (normalizedX cfg b rows).2 y).2.nPlaceholders = b.nPlaceholders := by simp
  have hs : (train cfg W (.matrix rows) y b w).1 = .error e ∧ (train cfg W (.matrix rows) y b w).2.1.samples = [] := by
    unfold train
    simp only [hn, h1, h2, hY, h3]
    exact ⟨trivial, trivial⟩
  exact ⟨hs.1, fun X => predict_empty cfg W _ _ ((train_isTrained cfg W _ y b w).2 (Or.inl ht)) hs.2
    (train_hasStats cfg W rows y b w) X⟩

/-- **C75** fails: if, on a trained object with stored networks, `train` fails while the network is built (with the
default network: every second `train` call in the same graph, since its variables already exist), then `predict`, which
worked before, fails because the old network reads a placeholder that is no longer fed. -/
theorem C75_violated_net (cfg : Cfg) (W : World D ω H C) (rows : Rows (Fin D)) (y : List Fl) (b : Bnn D) (w : ω)
    (ht : b.isTrained = true) (hne : b.samples ≠ []) (net : Net D) (hnet : b.netOutput = some net)
    (hfresh : net.input < b.nPlaceholders) (w1 : ω) (e : PyErr) (h1 : W.getNet b.nPlaceholders w = (.error e, w1))
    {N : Nat} (X : Fin N → Fin D → Fl) (ind : Bool) (P : Prediction N) (hbefore : predict cfg W b w X ind = .ok P) :
    (train cfg W (.matrix rows) y b w).1 = .error e ∧
    predict cfg W (train cfg W (.matrix rows) y b w).2.1 (train cfg W (.matrix rows) y b w).2.2 X ind
      = .error (.session 0) := by
  have hn : (normalizedY cfg (normalizedX cfg b rows).2 y).2.nPlaceholders = b.nPlaceholders := by simp
  have hstats := train_hasStats cfg W rows y b w
  have htr := (train_isTrained cfg W (.matrix rows) y b w).2 (Or.inl ht)
  have key : (train cfg W (.matrix rows) y b w).1 = .error e ∧
      (train cfg W (.matrix rows) y b w).2.1.samples = b.samples ∧
      (train cfg W (.matrix rows) y b w).2.1.networkParams = b.networkParams ∧
      (train cfg W (.matrix rows) y b w).2.1.netOutput = b.netOutput ∧
      (train cfg W (.matrix rows) y b w).2.1.xMinibatch = some b.nPlaceholders := by
    unfold train
    simp only [hn, h1]
    simp
  obtain ⟨k1, k2, k3, k4, k5⟩ := key
  refine ⟨k1, ?_⟩
  generalize train cfg W (.matrix rows) y b w = r at *
  obtain ⟨X0, outs, stats, -, -, hm, -, -⟩ := predict_ok cfg W b w X ind P hbefore
  obtain ⟨s, ss, hss⟩ := List.exists_cons_of_ne_nil hne
  obtain ⟨o, ho⟩ : ∃ o, computeNetworkOutput W b w s X0 = .ok o := by
    rw [hss, List.mapM_cons] at hm
    cases hc : computeNetworkOutput W b w s X0 with
    | ok o => exact ⟨o, rfl⟩
    | error e => simp [hc, bind, Except.bind] at hm
  have hfail : ∀ Y : Fin N → Fin D → Fl, computeNetworkOutput W r.2.1 r.2.2 s Y = .error (.session 0) := by
    intro Y
    unfold computeNetworkOutput at ho ⊢
    rw [k3, k4, k5]
    cases hz : zipParams b.networkParams s with
    | error e => simp [hz, bind, Except.bind] at ho
    | ok pairs =>
      simp only [hz, bind, Except.bind, hnet] at ho ⊢
      cases hxm : b.xMinibatch with
      | none => simp [hxm] at ho
      | some ph =>
        by_cases hall : (pairs.all fun p => p.2.shape == W.varShape p.1) = true
        · have hneq : ¬ net.input = b.nPlaceholders := by omega
          simp only [hall]
          simp [hneq]
        · simp [hxm, hall] at ho
  obtain ⟨X', hX⟩ : ∃ X', testInput cfg r.2.1 X = .ok X' := by
    unfold testInput
    split
    · rename_i h
      obtain ⟨p, hp⟩ := Option.isSome_iff_exists.1 (hstats.1 h)
      exact ⟨_, by rw [hp]⟩
    · exact ⟨_, rfl⟩
  unfold predict
  simp only [htr, Bool.not_true, Bool.false_eq_true, if_false, hX, bind, Except.bind, k2, hss, List.mapM_cons, hfail X']

/-- A world in which the network can be built only once, as with the default network. -/
noncomputable def demoOnce : World 1 Nat Unit Unit :=
  { demo with getNet := fun ph w => if ph = 0 then demo.getNet ph w else (.error (.value "variable exists"), w) }

/-- The hypotheses of `C75_violated_net` are met after a first training: predictions worked, and no longer do. -/
example (rows : Rows (Fin 1)) (y : List Fl) (X : Fin 3 → Fin 1 → ℝ) :
    predict ⟨1, 10, 0, 1, false, false⟩ demoOnce
      (train ⟨1, 10, 0, 1, false, false⟩ demoOnce (.matrix rows) y (demoTrained 0) 0).2.1
      (train ⟨1, 10, 0, 1, false, false⟩ demoOnce (.matrix rows) y (demoTrained 0) 0).2.2 (fun i j => .fin (X i j)) false
      = .error (.session 0) := by
  refine (C75_violated_net _ demoOnce rows y (demoTrained 0) 0 rfl (by simp [demoTrained]) _ rfl (by simp [demoTrained]) 0
    (.value "variable exists") (by simp [demoOnce, demoTrained]) _ false
    (.summary (fun i => .fin (X i 0)) fun _ => .fin 0) ?_).2
  have hm : ((demoTrained 0).samples.mapM fun s => computeNetworkOutput demoOnce (demoTrained 0) 0 s
      (fun (i : Fin 3) j => .fin (X i j))) = .ok [fun i => (.fin (X i 0), .fin 0)] := by
    simp [demoTrained, computeNetworkOutput, zipParams, demo, demoOnce, bind, Except.bind, pure, Except.pure, Dict.ofList,
      Dict.empty]
  rw [predict_of _ demoOnce _ 0 _ _ false _ none rfl rfl hm rfl]
  simp [summarize, unnormalizeMean, unnormalizeVar, meanAxis0, column, Fl.mean, Fl.sum, Fl.div_fin]

end PySGMCMC.BNN
