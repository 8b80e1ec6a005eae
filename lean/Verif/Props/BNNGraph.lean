import Verif.Model.BNNGraph
import Verif.Props.BNNData
import Verif.Props.BNNCost

/-!
# C102: training again in the same graph
-/

namespace PySGMCMC.BNNGraph
open BNN
open BaseModel (Rows)

variable {D : Nat} {τ H C : Type}

/-- The names among the variables of a network. -/
def namesOf (vars : List NetVar) : List String := vars.filterMap fun
  | .named s => some s
  | .anonymous => none

/-- Building a network succeeds exactly if its names are free; its variables are the newest ones. -/
theorem createAll_spec (vars : List NetVar) : ∀ g : Graph,
    ((namesOf vars).Nodup ∧ (∀ s ∈ namesOf vars, s ∉ g.names) →
      createAll vars g = (.ok (List.range' g.nVars vars.length),
        ⟨g.names ++ namesOf vars, g.nVars + vars.length, g.trainable ++ List.range' g.nVars vars.length⟩)) ∧
    (¬ ((namesOf vars).Nodup ∧ ∀ s ∈ namesOf vars, s ∉ g.names) → (createAll vars g).1 = .error (.value "already exists")) := by
  induction vars with
  | nil => intro g; simp [namesOf, createAll]
  | cons v vs ih =>
    intro g
    cases v with
    | anonymous =>
      have hn : namesOf (.anonymous :: vs) = namesOf vs := rfl
      obtain ⟨h1, h2⟩ := ih ⟨g.names, g.nVars + 1, g.trainable ++ [g.nVars]⟩
      rw [hn]
      refine ⟨fun h => ?_, fun h => ?_⟩
      · simp only [createAll, create, h1 h, List.length_cons, List.range'_succ, List.append_assoc, List.singleton_append]
        rw [show g.nVars + 1 + vs.length = g.nVars + (vs.length + 1) by omega]
      · simp only [createAll, create]
        have := h2 h
        rcases hc : createAll vs ⟨g.names, g.nVars + 1, g.trainable ++ [g.nVars]⟩ with ⟨r, g'⟩
        rw [hc] at this
        simp only at this
        rw [this]
    | named s =>
      have hn : namesOf (.named s :: vs) = s :: namesOf vs := rfl
      rw [hn]
      by_cases hs : s ∈ g.names
      · refine ⟨fun h => absurd hs (h.2 s List.mem_cons_self), fun _ => ?_⟩
        simp only [createAll, create, hs, if_true]
      · obtain ⟨h1, h2⟩ := ih ⟨g.names ++ [s], g.nVars + 1, g.trainable ++ [g.nVars]⟩
        have hiff : ((namesOf vs).Nodup ∧ ∀ t ∈ namesOf vs, t ∉ g.names ++ [s]) ↔
            ((s :: namesOf vs).Nodup ∧ ∀ t ∈ s :: namesOf vs, t ∉ g.names) := by
          simp only [List.mem_append, not_or, List.nodup_cons, List.mem_cons, forall_eq_or_imp, List.not_mem_nil, or_false]
          constructor
          · rintro ⟨a, b⟩
            exact ⟨⟨fun hc => (b s hc).2 rfl, a⟩, hs, fun t ht => (b t ht).1⟩
          · rintro ⟨⟨a, b⟩, -, c⟩
            exact ⟨b, fun t ht => ⟨c t ht, fun e => a (e ▸ ht)⟩⟩
        refine ⟨fun h => ?_, fun h => ?_⟩
        · simp only [createAll, create, hs, if_false, h1 (hiff.2 h), List.length_cons, List.range'_succ, List.append_assoc,
            List.singleton_append]
          rw [show g.nVars + 1 + vs.length = g.nVars + (vs.length + 1) by omega]
        · simp only [createAll, create, hs, if_false]
          have := h2 fun hc => h (hiff.1 hc)
          rcases hc : createAll vs ⟨g.names ++ [s], g.nVars + 1, g.trainable ++ [g.nVars]⟩ with ⟨r, g'⟩
          rw [hc] at this
          simp only at this
          rw [this]

/-- The sampling loop creates no variables. -/
theorem trainLoop_graph (cfg : Cfg) (next : Graph × τ → Step (Graph × τ) (Sample × C)) (hn : ∀ w, (next w).2.1 = w.1)
    (logError : Graph × τ → Except PyErr Unit) : ∀ (fuel i : Nat) (samples : List Sample) (w : Graph × τ),
    (trainLoop cfg next logError fuel i samples w).2.2.1 = w.1 := by
  intro fuel
  induction fuel with
  | zero => intro i samples w; rfl
  | succ fuel ih =>
    intro i samples w
    have hw := hn w
    rcases hx : next w with ⟨r, w'⟩
    rw [hx] at hw
    simp only at hw
    rw [trainLoop, hx]
    cases r with
    | error e => cases e <;> exact hw
    | ok p =>
      obtain ⟨values, c⟩ := p
      simp only
      split
      · split
        · split
          · exact hw
          · rw [ih]; exact hw
        · rw [ih]; exact hw
      · split
        · split
          · exact hw
          · split
            · exact hw
            · rw [ih]; exact hw
        · rw [ih]; exact hw

/-- A successful `train` call was prepared successfully. -/
theorem prepared_of_ok {ω : Type} (cfg : Cfg) (W : World D ω H C) (rows : Rows (Fin D)) (y : List Fl) (b : Bnn D) (w : ω)
    (hok : (train cfg W (.matrix rows) y b w).1 = .ok ()) : ∃ d h w', Prepared cfg W rows y b w d h w' := by
  have hY : (normalizedY cfg (normalizedX cfg b rows).2 y).1 = (normalizedY cfg b y).1 := normalizedY_fst _ _ _ _
  have hn : (normalizedY cfg (normalizedX cfg b rows).2 y).2.nPlaceholders = b.nPlaceholders := by simp
  unfold train at hok
  simp only [hn, hY] at hok
  rcases h1 : W.getNet b.nPlaceholders w with ⟨_ | net, w1⟩
  · simp [h1] at hok
  rcases h2 : W.costGraph net w1 with ⟨_ | u, w2⟩
  · simp [h1, h2] at hok
  simp only [h1, h2] at hok
  rcases h3 : W.buildSampler ⟨(normalizedX cfg b rows).1, (normalizedY cfg b y).1, b.nPlaceholders, W.trainable w2⟩ w2 with ⟨_ | h, w3⟩
  · simp [h3] at hok
  exact ⟨_, h, w3, ⟨net, w1, w2, h1, h2, rfl, h3⟩⟩

/-- A `train` call that got past the decorator created a pair of placeholders. -/
theorem train_nPlaceholders {ω : Type} (cfg : Cfg) (W : World D ω H C) (rows : Rows (Fin D)) (y : List Fl) (b : Bnn D) (w : ω) :
    (train cfg W (.matrix rows) y b w).2.1.nPlaceholders = b.nPlaceholders + 1 := by
  have hn : (normalizedY cfg (normalizedX cfg b rows).2 y).2.nPlaceholders = b.nPlaceholders := by simp
  rw [train_rest]
  unfold trainRest
  simp only [hn]
  split
  · rfl
  · split
    · rfl
    · split
      · rfl
      · split <;> rfl

/-- What a successful `train` call does to the graph, and which network it leaves. -/
theorem train_graph (cfg : Cfg) (vars : List NetVar) (aux : Nat) (O : Outside D τ H C) (X : Rows (Fin D)) (y : List Fl) (b : Bnn D)
    (w : Graph × τ) (hok : (train cfg (world vars aux O) (.matrix X) y b w).1 = .ok ()) :
    let r := train cfg (world vars aux O) (.matrix X) y b w
    ((namesOf vars).Nodup ∧ ∀ s ∈ namesOf vars, s ∉ w.1.names) ∧
    r.2.1.networkParams = w.1.trainable ++ List.range' w.1.nVars vars.length ∧
    r.2.1.netOutput = some ⟨b.nPlaceholders, fun assign => O.net (List.range' w.1.nVars vars.length) assign⟩ ∧
    r.2.2.1 = addSampler aux (w.1.trainable ++ List.range' w.1.nVars vars.length)
      ⟨w.1.names ++ namesOf vars, w.1.nVars + vars.length, w.1.trainable ++ List.range' w.1.nVars vars.length⟩ := by
  intro r
  obtain ⟨d, h, w', hp⟩ := prepared_of_ok cfg _ X y b w hok
  obtain ⟨net, w1, w2, h1, h2, h3, h4⟩ := hp.prepared
  have hnames : (namesOf vars).Nodup ∧ ∀ s ∈ namesOf vars, s ∉ w.1.names := by
    by_contra hc
    have he := (createAll_spec vars w.1).2 hc
    rcases hcr : createAll vars w.1 with ⟨q, g⟩
    rw [hcr] at he
    simp only at he
    subst he
    simp [world, hcr] at h1
  have hcr := (createAll_spec vars w.1).1 hnames
  simp only [world, hcr, Prod.mk.injEq, Except.ok.injEq, true_and] at h1 h2
  obtain ⟨hnet, rfl⟩ := h1
  subst h2
  have hpar : d.params = w.1.trainable ++ List.range' w.1.nVars vars.length := by rw [h3]; rfl
  have hph : d.placeholder = b.nPlaceholders := by rw [h3]
  simp only [world] at h4
  rcases hb : O.build d w.2 with ⟨_ | h', t⟩
  · rw [hb] at h4; simp at h4
  rw [hb] at h4
  simp only [Prod.mk.injEq, Except.ok.injEq] at h4
  obtain ⟨rfl, rfl⟩ := h4
  obtain ⟨b', -, e1, -, ⟨net', w1', e3, e4⟩, -, -, e5⟩ := train_eq cfg _ X y b w d _ _ hp
  have hnet' : net' = net := by
    rw [hph] at e3
    simp only [world, hcr, Prod.mk.injEq, Except.ok.injEq] at e3
    rw [← e3.1, ← hnet]
  refine ⟨hnames, ?_, ?_, ?_⟩
  · simp only [r, e5, e1, hpar]
  · simp only [r, e5, e4, hnet', ← hnet]
  · simp only [r, e5]
    rw [trainLoop_graph cfg _ (fun w => by simp only [world]), hpar]

/-! ## C102 -/

/-- **C102** (partial: the property fails for further trainings in the same graph, see below)  A successful `train` call in a graph without
trainable variables samples exactly the variables of the network it built, and its predictions come from that network. -/
theorem C102_first_partial (cfg : Cfg) (vars : List NetVar) (aux : Nat) (O : Outside D τ H C) (X : Rows (Fin D)) (y : List Fl) (b : Bnn D)
    (w : Graph × τ) (h0 : w.1.trainable = []) (hok : (train cfg (world vars aux O) (.matrix X) y b w).1 = .ok ()) :
    let r := train cfg (world vars aux O) (.matrix X) y b w
    r.2.1.networkParams = List.range' w.1.nVars vars.length ∧
    r.2.1.netOutput = some ⟨b.nPlaceholders, fun assign => O.net r.2.1.networkParams assign⟩ := by
  intro r
  obtain ⟨-, h1, h2, -⟩ := train_graph cfg vars aux O X y b w hok
  rw [h0, List.nil_append] at h1
  exact ⟨h1, by rw [h2]; simp only [r, h1]⟩

theorem trains_graph (cfg : Cfg) (vars : List NetVar) (aux : Nat) (O : Outside D τ H C) (l : List (Rows (Fin D) × List Fl)) :
    ∀ (b : Bnn D) (w : Graph × τ), (∀ r ∈ (trains cfg (world vars aux O) l b w).1, r = .ok ()) →
    (trains cfg (world vars aux O) l b w).2.2.1.trainable.length + 2 * vars.length
      = 2 ^ l.length * (w.1.trainable.length + 2 * vars.length) := by
  induction l with
  | nil => intro b w _; simp [trains]
  | cons p l ih =>
    intro b w hok
    obtain ⟨X, y⟩ := p
    simp only [trains, List.mem_cons, forall_eq_or_imp] at hok ⊢
    rw [ih _ _ hok.2]
    obtain ⟨-, -, -, hg⟩ := train_graph cfg vars aux O X y b w hok.1
    rw [hg]
    simp only [addSampler, List.length_append, List.length_range', List.length_cons, pow_succ]
    ring

theorem trains_nPlaceholders (cfg : Cfg) (W : World D (Graph × τ) H C) (l : List (Rows (Fin D) × List Fl)) :
    ∀ (b : Bnn D) (w : Graph × τ), (trains cfg W l b w).2.1.nPlaceholders = b.nPlaceholders + l.length := by
  induction l with
  | nil => intro b w; rfl
  | cons p l ih =>
    intro b w
    obtain ⟨X, y⟩ := p
    simp only [trains, List.length_cons]
    rw [ih, train_nPlaceholders]
    omega

/-- **C102** fails: `k + 1` successful `train` calls in one graph that had no trainable variables.  The last one samples `(2^(k+1) - 1) n`
variables where `n` is the number of variables of the network: besides its own those of the earlier networks and the working copies of
the earlier samplers. -/
theorem C102_retrain_violated (cfg : Cfg) (vars : List NetVar) (aux : Nat) (O : Outside D τ H C) (l : List (Rows (Fin D) × List Fl))
    (X : Rows (Fin D)) (y : List Fl) (b : Bnn D) (w : Graph × τ) (h0 : w.1.trainable = [])
    (hok : ∀ r ∈ (trains cfg (world vars aux O) l b w).1, r = .ok ()) :
    let s := (trains cfg (world vars aux O) l b w).2
    let r := train cfg (world vars aux O) (.matrix X) y s.1 s.2
    r.1 = .ok () →
    (∃ stale own, r.2.1.networkParams = stale ++ own ∧ own.length = vars.length ∧
      r.2.1.netOutput = some ⟨b.nPlaceholders + l.length, fun assign => O.net own assign⟩ ∧ stale.length = (2 ^ (l.length + 1) - 2) * vars.length) ∧
    r.2.1.networkParams.length = (2 ^ (l.length + 1) - 1) * vars.length := by
  intro s r hr
  have hT := trains_graph cfg vars aux O l b w hok
  obtain ⟨-, h1, h2, -⟩ := train_graph cfg vars aux O X y s.1 s.2 hr
  have hN : s.1.nPlaceholders = b.nPlaceholders + l.length := trains_nPlaceholders cfg _ l b w
  rw [hN] at h2
  have hl : s.2.1.trainable.length = (2 ^ (l.length + 1) - 2) * vars.length := by
    rw [h0] at hT
    simp only [List.length_nil, Nat.zero_add] at hT
    have : s.2.1.trainable.length + 2 * vars.length = 2 ^ (l.length + 1) * vars.length := by
      rw [hT, pow_succ]; ring
    rw [Nat.sub_mul]
    omega
  refine ⟨⟨_, _, h1, by simp, h2, hl⟩, ?_⟩
  have hp : 2 ≤ 2 ^ (l.length + 1) := by
    calc 2 = 2 ^ 1 := rfl
      _ ≤ 2 ^ (l.length + 1) := Nat.pow_le_pow_right (by norm_num) (by omega)
  simp only [r, h1, List.length_append, hl, List.length_range']
  obtain ⟨q, hq⟩ : ∃ q, 2 ^ (l.length + 1) = q + 2 := ⟨_, (Nat.sub_add_cancel hp).symm⟩
  rw [hq]
  simp only [Nat.add_sub_cancel, show q + 2 - 1 = q + 1 by omega]
  ring

/-- **C102** (partial) with the default network: training in a graph without variables samples the nine variables of `get_default_net`
(kernel and bias of four layers and the log variance), and the graph then has a second, working copy of each. -/
theorem C102_default_first_partial (cfg : Cfg) (aux : Nat) (O : Outside D τ H C) (X : Rows (Fin D)) (y : List Fl) (b : Bnn D) (t : τ)
    (names : List String) (hok : (train cfg (world defaultVars aux O) (.matrix X) y b (⟨names, 0, []⟩, t)).1 = .ok ()) :
    let r := train cfg (world defaultVars aux O) (.matrix X) y b (⟨names, 0, []⟩, t)
    r.2.1.networkParams = [0, 1, 2, 3, 4, 5, 6, 7, 8] ∧ r.2.2.1.trainable.length = 18 := by
  intro r
  obtain ⟨-, h1, -, hg⟩ := train_graph cfg defaultVars aux O X y b _ hok
  refine ⟨?_, ?_⟩
  · have h1' : r.2.1.networkParams = _ := h1
    rw [h1']; rfl
  · have hg' : r.2.2.1 = _ := hg
    rw [hg']; simp [addSampler, defaultVars]

/-- **C102** fails with the default network: once a network with its variables was trained in the graph, every further `train` (or
`update`) call of any network object in that graph raises `ValueError`. -/
theorem C102_default_violated (cfg : Cfg) (aux : Nat) (O : Outside D τ H C) (X : Rows (Fin D)) (y : List Fl) (b : Bnn D)
    (w : Graph × τ) (hok : (train cfg (world defaultVars aux O) (.matrix X) y b w).1 = .ok ()) (t : τ) (b2 : Bnn D) (X2 : Rows (Fin D))
    (y2 : List Fl) :
    let g := (train cfg (world defaultVars aux O) (.matrix X) y b w).2.2.1
    (train cfg (world defaultVars aux O) (.matrix X2) y2 b2 (g, t)).1 = .error (.value "already exists") ∧
    (b2.data ≠ none → (update .withBase cfg (world defaultVars aux O) (.matrix X2) y2 b2 (g, t)).1 = .error (.value "already exists")) := by
  intro g
  have key : ∀ (X2 : Rows (Fin D)) (y2 : List Fl),
      (train cfg (world defaultVars aux O) (.matrix X2) y2 b2 (g, t)).1 = .error (.value "already exists") := by
    intro X2 y2
    obtain ⟨-, -, -, hg⟩ := train_graph cfg defaultVars aux O X y b w hok
    have hmem : "fc_layer_1/kernel" ∈ g.names := by
      simp only [g, hg, addSampler]
      exact List.mem_append_right _ (by simp [namesOf, defaultVars])
    have hc := (createAll_spec defaultVars g).2 fun h => h.2 "fc_layer_1/kernel" (by simp [namesOf, defaultVars]) hmem
    rcases hcr : createAll defaultVars g with ⟨q, g'⟩
    rw [hcr] at hc
    simp only at hc
    subst hc
    unfold train
    simp only [world, hcr]
  refine ⟨key X2 y2, fun hd => ?_⟩
  obtain ⟨⟨X0, y0⟩, hd⟩ := Option.ne_none_iff_exists'.1 hd
  simp only [update, lookup_withBase, hd]
  exact key _ _

/-- **C102** fails with the default network: after another `train` call on a trained network with stored networks, `predict`, which worked before, fails
as well. -/
theorem C102_predict_violated (cfg : Cfg) (aux : Nat) (O : Outside D τ H C) (X : Rows (Fin D)) (y : List Fl) (b : Bnn D)
    (w : Graph × τ) (hok : (train cfg (world defaultVars aux O) (.matrix X) y b w).1 = .ok ())
    (hs : (train cfg (world defaultVars aux O) (.matrix X) y b w).2.1.samples ≠ []) (X2 : Rows (Fin D)) (y2 : List Fl)
    {N : Nat} (T : Fin N → Fin D → Fl) (ind : Bool) (P : Prediction N)
    (hP : predict cfg (world defaultVars aux O) (train cfg (world defaultVars aux O) (.matrix X) y b w).2.1
      (train cfg (world defaultVars aux O) (.matrix X) y b w).2.2 T ind = .ok P) :
    let r := train cfg (world defaultVars aux O) (.matrix X) y b w
    let u := train cfg (world defaultVars aux O) (.matrix X2) y2 r.2.1 r.2.2
    u.1 = .error (.value "already exists") ∧ predict cfg (world defaultVars aux O) u.2.1 u.2.2 T ind = .error (.session 0) := by
  intro r u
  obtain ⟨-, -, hnet, -⟩ := train_graph cfg defaultVars aux O X y b w hok
  have hph : r.2.1.nPlaceholders = b.nPlaceholders + 1 := train_nPlaceholders _ _ _ _ _ _
  have htr : r.2.1.isTrained = true := (train_isTrained cfg _ _ y b w).2 (Or.inr hok)
  have hfail := (C102_default_violated cfg aux O X y b w hok r.2.2.2 r.2.1 X2 y2).1
  have hget : ∃ w1, (world defaultVars aux O).getNet r.2.1.nPlaceholders r.2.2 = (.error (.value "already exists"), w1) := by
    obtain ⟨-, -, -, hg⟩ := train_graph cfg defaultVars aux O X y b w hok
    have hmem : "fc_layer_1/kernel" ∈ r.2.2.1.names := by
      simp only [r, hg, addSampler]
      exact List.mem_append_right _ (by simp [namesOf, defaultVars])
    have hc := (createAll_spec defaultVars r.2.2.1).2 fun h => h.2 "fc_layer_1/kernel" (by simp [namesOf, defaultVars]) hmem
    rcases hcr : createAll defaultVars r.2.2.1 with ⟨q, g'⟩
    rw [hcr] at hc
    simp only at hc
    subst hc
    exact ⟨(g', r.2.2.2), by simp only [world, hcr]⟩
  obtain ⟨w1, hget⟩ := hget
  exact C75_violated_net cfg _ X2 y2 r.2.1 r.2.2 htr hs _ hnet (by rw [hph]; exact Nat.lt_succ_self _) w1 _ hget T ind P hP

/-- **C102** fails: the weight prior of a further training is taken over the stale variables too.  How strongly it tells two networks apart
is reduced by the factor `(n + 3e-16) / (m + n + 3e-16)`, where `n` is the number of weights of the network and `m` that of the stale
variables (`m = 2 n` in a second training). -/
theorem C102_prior_violated (stale own own' : List (Tensor ℝ)) (hs : ∀ p ∈ stale, p.data.length = p.shape.prod)
    (ho : ∀ p ∈ own, p.data.length = p.shape.prod) (ho' : ∀ p ∈ own', p.data.length = p.shape.prod)
    (hl : (weights own').length = (weights own).length) :
    ∃ a a' c c' : ℝ, weightPriorLogLike (liftTensors own) 1 = .fin a ∧ weightPriorLogLike (liftTensors own') 1 = .fin a' ∧
      weightPriorLogLike (liftTensors (stale ++ own)) 1 = .fin c ∧ weightPriorLogLike (liftTensors (stale ++ own')) 1 = .fin c' ∧
      c - c' = ((weights own).length + 3e-16) / ((weights stale).length + (weights own).length + 3e-16) * (a - a') := by
  have happ : ∀ p q : List (Tensor ℝ), weights (p ++ q) = weights p ++ weights q := fun p q => by simp [weights]
  have hall : ∀ q : List (Tensor ℝ), (∀ p ∈ q, p.data.length = p.shape.prod) → ∀ p ∈ stale ++ q, p.data.length = p.shape.prod :=
    fun q hq p hp => (List.mem_append.1 hp).elim (hs p) (hq p)
  obtain ⟨a, h1, e1, -⟩ := C65_weight_prior 1 own ho
  obtain ⟨a', h2, e2, -⟩ := C65_weight_prior 1 own' ho'
  obtain ⟨c, h3, e3, -⟩ := C65_weight_prior 1 (stale ++ own) (hall own ho)
  obtain ⟨c', h4, e4, -⟩ := C65_weight_prior 1 (stale ++ own') (hall own' ho')
  rw [← Fl.ofNat_one] at h1 h2 h3 h4
  refine ⟨a, a', c, c', h1, h2, h3, h4, ?_⟩
  rw [e1, e2, e3, e4, happ, happ]
  simp only [List.map_append, List.sum_append, List.length_append, hl, Nat.cast_add]
  have p1 : (0 : ℝ) < (weights own).length + 3e-16 := by positivity
  have p2 : (0 : ℝ) < (weights stale).length + (weights own).length + 3e-16 := by positivity
  field_simp
  ring

/-! ## The hypotheses are met -/

theorem trainLoop_ok {ω : Type} (cfg : Cfg) (next : ω → Step ω (Sample × C)) (hn : ∀ w, ∃ p w', next w = (.ok p, w'))
    (logError : ω → Except PyErr Unit) (hl : ∀ w, logError w = .ok ()) : ∀ (fuel i : Nat) (samples : List Sample) (w : ω),
    (trainLoop cfg next logError fuel i samples w).1 = .ok () := by
  intro fuel
  induction fuel with
  | zero => intro i samples w; rfl
  | succ fuel ih =>
    intro i samples w
    obtain ⟨⟨v, c⟩, w', h⟩ := hn w
    rw [trainLoop, h]
    simp only [hl]
    split
    · split <;> exact ih _ _ _
    · split
      · split
        · rfl
        · exact ih _ _ _
      · exact ih _ _ _

/-- The network `x ↦ (x · v₀, 0)` of its first variable; nine arrays per sample; nothing fails. -/
noncomputable def demoOutside : Outside 1 Unit Unit Unit where
  net ids a _ X i := (X i 0 * (a (ids.headD 0)).data.headD 0, 0)
  build _ t := (.ok (), t)
  next _ t := (.ok (.many (List.replicate 9 ⟨[1], [.fin 2]⟩), ()), t)
  logError _ _ := .ok ()
  varShape _ := [1]
  varValue _ _ := ⟨[1], [0]⟩

theorem demo_train (cfg : Cfg) (vars : List NetVar) (aux : Nat) (X : Rows (Fin 1)) (y : List Fl) (b : Bnn 1) (w : Graph × Unit)
    (hv : (namesOf vars).Nodup ∧ ∀ s ∈ namesOf vars, s ∉ w.1.names) :
    (train cfg (world vars aux demoOutside) (.matrix X) y b w).1 = .ok () := by
  obtain ⟨b', -, -, -, -, -, -, h⟩ := train_eq cfg (world vars aux demoOutside) X y b w _ _ _
    ⟨⟨_, _, _, by simp only [world, (createAll_spec vars w.1).1 hv]; rfl, rfl, rfl, rfl⟩⟩
  rw [h]
  exact trainLoop_ok cfg _ (fun w => ⟨_, _, rfl⟩) _ (fun _ => rfl) _ _ _ _

theorem demo_trains (cfg : Cfg) (vars : List NetVar) (aux : Nat) (hv : namesOf vars = []) (l : List (Rows (Fin 1) × List Fl)) :
    ∀ (b : Bnn 1) (w : Graph × Unit), ∀ r ∈ (trains cfg (world vars aux demoOutside) l b w).1, r = .ok () := by
  induction l with
  | nil => intro b w r hr; simp [trains] at hr
  | cons p l ih =>
    intro b w r hr
    obtain ⟨X, y⟩ := p
    simp only [trains, List.mem_cons] at hr
    rcases hr with rfl | hr
    · exact demo_train cfg vars aux X y b w (by rw [hv]; simp)
    · exact ih _ _ r hr

/-- A network of two anonymous variables, trained three times: the third training samples 14 variables. -/
example (cfg : Cfg) (X : Rows (Fin 1)) (y : List Fl) :
    let W := world [.anonymous, .anonymous] 6 demoOutside
    let s := (trains cfg W [(X, y), (X, y)] {} ({}, ())).2
    (train cfg W (.matrix X) y s.1 s.2).2.1.networkParams.length = 14 :=
  (C102_retrain_violated cfg _ 6 demoOutside [(X, y), (X, y)] X y {} ({}, ()) rfl (demo_trains cfg _ 6 rfl _ _ _)
    (demo_train _ _ _ _ _ _ _ (by simp [namesOf]))).2

/-- The default network: after another `train` call neither training nor prediction works. -/
example (X X2 : Rows (Fin 1)) (y y2 : List Fl) (T : Fin 3 → Fin 1 → Fl) :
    let cfg : Cfg := ⟨1, 10, 0, 1, false, false⟩
    let W := world defaultVars 6 demoOutside
    let r := train cfg W (.matrix X) y {} ({}, ())
    let u := train cfg W (.matrix X2) y2 r.2.1 r.2.2
    u.1 = .error (.value "already exists") ∧ predict cfg W u.2.1 u.2.2 T false = .error (.session 0) := by
  intro cfg W r u
  have hv : (namesOf defaultVars).Nodup ∧ ∀ s ∈ namesOf defaultVars, s ∉ ({} : Graph).names := by
    refine ⟨by decide, by simp⟩
  have hok : r.1 = .ok () := demo_train cfg defaultVars 6 X y {} ({}, ()) hv
  have hcr := (createAll_spec defaultVars ({} : Graph)).1 hv
  have hsamples : r.2.1.samples = [.many (List.replicate 9 ⟨[1], [.fin 2]⟩)] := by
    simp only [r, cfg, W]
    unfold train
    simp only [world, hcr]
    simp [demoOutside, trainLoop, pushBounded, normalizedX, normalizedY]
  obtain ⟨-, hp, hnet, -⟩ := train_graph cfg defaultVars 6 demoOutside X y {} ({}, ()) hok
  have hmini : r.2.1.xMinibatch = some 0 := by
    simp only [r, cfg, W]
    unfold train
    simp only [world, hcr]
    simp [demoOutside, trainLoop, pushBounded, normalizedX, normalizedY]
  have hm : ∃ outs, (r.2.1.samples.mapM fun s => computeNetworkOutput W r.2.1 r.2.2 s T) = .ok outs := by
    rw [hsamples]
    simp only [List.mapM_cons, List.mapM_nil, computeNetworkOutput, zipParams, bind, Except.bind, pure, Except.pure]
    rw [show r.2.1.networkParams = _ from hp, show r.2.1.netOutput = _ from hnet, hmini]
    simp [W, world, demoOutside, defaultVars, List.range'_succ, List.replicate_succ]
  obtain ⟨outs, hm⟩ := hm
  exact C102_predict_violated cfg 6 demoOutside X y {} ({}, ()) hok (by rw [show _ = _ from hsamples]; simp) X2 y2 T false _
    (predict_of cfg W r.2.1 r.2.2 T T false outs none ((train_isTrained cfg W _ y {} ({}, ())).2 (Or.inr hok)) rfl hm rfl)

end PySGMCMC.BNNGraph
