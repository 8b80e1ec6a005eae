import Verif.Spec.SVGD
import Verif.Props.TensorUtils

/-! Lemmas about the SVGD model: schedule independence and the kernel on finite positions. -/

namespace PySGMCMC.SVGD
open TensorUtils

variable {n d : Nat}

/-! ## Every execution order gives the same result -/

/-- What is known after executing the nodes `pre`, starting from `s0`. -/
structure Inv (inp : Inputs n d) (s0 : State n d) (pre : List (Node n)) (s : State n d) : Prop where
  stack : .stack ∈ pre → s.tStack = s0.particles
  grad : .grad ∈ pre → s.tGrad = gradTheta inp s0.particles
  xHist : .xHist ∈ pre → s.tHist = nextHist inp s0
  histOld : .setHist ∉ pre → s.hist = s0.hist
  histNew : .setHist ∈ pre → s.hist = nextHist inp s0
  adj : .adj ∈ pre → s.tAdj = fun i a => adjGrad inp.fudge (gradTheta inp s0.particles i a) (nextHist inp s0 i a)
  old : ∀ i, .sub i ∉ pre → s.particles i = s0.particles i
  new : ∀ i, .sub i ∈ pre → s.particles i = nextParticle inp s0 i
  cost : .cost ∈ pre → s.cost = fun i => inp.cost (s0.particles i)

/-- All dependencies of the executed nodes have been executed. -/
def Closed (pre : List (Node n)) : Prop := ∀ x ∈ pre, ∀ y ∈ x.deps, y ∈ pre

theorem Inv.step {inp : Inputs n d} {s0 s : State n d} {pre : List (Node n)} (h : Inv inp s0 pre s) (x : Node n)
    (hc : Closed pre) (hx : x ∉ pre) (hd : ∀ y ∈ x.deps, y ∈ pre) : Inv inp s0 (pre ++ [x]) (exec inp s x) := by
  have hadj : Node.adj ∉ pre → ∀ i, Node.sub i ∉ pre := fun h1 i h2 => h1 (hc _ h2 _ (by simp [Node.deps]))
  have hset : Node.xHist ∉ pre → Node.setHist ∉ pre := fun h1 h2 => h1 (hc _ h2 _ (by simp [Node.deps]))
  have hgr : Node.grad ∉ pre → Node.adj ∉ pre := fun h1 h2 => h1 (hc _ h2 _ (by simp [Node.deps]))
  have hst : Node.stack ∉ pre → Node.grad ∉ pre := fun h1 h2 => h1 (hc _ h2 _ (by simp [Node.deps]))
  obtain ⟨h1, h2, h3, h4, h5, h6, h7, h8, h9⟩ := h
  cases x with
  | stack =>
    have hp : s.particles = s0.particles := funext fun i => h7 i (hadj (hgr (hst hx)) i)
    constructor <;> simp_all [exec]
  | grad =>
    have := h1 (hd _ (by simp [Node.deps]))
    constructor <;> simp_all [exec]
  | xHist =>
    have := h2 (hd _ (by simp [Node.deps]))
    have := h4 (hset hx)
    constructor <;> simp_all [exec, nextHist]
    rfl
  | setHist =>
    have := h3 (hd _ (by simp [Node.deps]))
    constructor <;> simp_all [exec]
  | adj =>
    have := h2 (hd _ (by simp [Node.deps]))
    have := h5 (hd _ (by simp [Node.deps]))
    constructor <;> simp_all [exec]
  | sub i =>
    have ha := h6 (hd _ (by simp [Node.deps]))
    have hp := h7 i hx
    refine ⟨?_, ?_, ?_, ?_, ?_, ?_, ?_, ?_, ?_⟩
    · simpa [exec] using h1
    · simpa [exec] using h2
    · simpa [exec] using h3
    · simpa [exec] using h4
    · simpa [exec] using h5
    · simpa [exec] using h6
    · intro j hj
      simp only [List.mem_append, List.mem_singleton, not_or] at hj
      have hne : j ≠ i := fun e => hj.2 (by rw [e])
      simp only [exec, Function.update_of_ne hne]
      exact h7 j hj.1
    · intro j hj
      by_cases hne : j = i
      · subst hne
        simp only [exec, Function.update_self]
        funext a
        simp only [hp, ha, nextParticle]
      · have hj' : Node.sub j ∈ pre := by
          rcases List.mem_append.1 hj with h | h
          · exact h
          · simp only [List.mem_singleton, Node.sub.injEq] at h
            exact absurd h hne
        simp only [exec, Function.update_of_ne hne]
        exact h8 j hj'
    · simpa [exec] using h9
  | cost =>
    have := h1 (hd _ (by simp [Node.deps]))
    constructor <;> simp_all [exec]

theorem inv_prefix (inp : Inputs n d) (σ : Schedule n) (s0 : State n d) (pre post : List (Node n))
    (h : σ.order = pre ++ post) : Closed pre ∧ Inv inp s0 pre (pre.foldl (exec inp) s0) := by
  induction pre using List.reverseRecOn generalizing post with
  | nil =>
    refine ⟨by simp [Closed], ?_⟩
    constructor <;> simp
  | append_singleton pre x ih =>
    have h' : σ.order = pre ++ x :: post := by rw [h]; simp
    obtain ⟨hc, hi⟩ := ih (x :: post) h'
    have hd := σ.respects pre x post h'
    have hx : x ∉ pre := by
      have := σ.nodup
      rw [h', List.nodup_append] at this
      intro hmem
      exact this.2.2 x hmem x (by simp) rfl
    refine ⟨?_, ?_⟩
    · intro y hy z hz
      rcases List.mem_append.1 hy with hy | hy
      · exact List.mem_append_left _ (hc y hy z hz)
      · simp only [List.mem_singleton] at hy
        subst hy
        exact List.mem_append_left _ (hd z hz)
    · rw [List.foldl_append]
      exact hi.step x hc hx hd

/-- Whatever the order: the simultaneous update, and the costs of the old particles. -/
theorem run_eq (inp : Inputs n d) (σ : Schedule n) (s : State n d) :
    (run inp σ s).particles = nextParticle inp s ∧ (run inp σ s).hist = nextHist inp s
    ∧ (run inp σ s).cost = (fun i => inp.cost (s.particles i)) := by
  obtain ⟨-, h⟩ := inv_prefix inp σ s σ.order [] (by simp)
  exact ⟨funext fun i => h.new i (σ.complete _), h.histNew (σ.complete _), h.cost (σ.complete _)⟩

/-! ## The kernel -/

theorem flatten_ofFn_length (x : Fin n → Fin d → ℝ) :
    (List.ofFn fun i => List.ofFn (x i)).flatten.length = n * d := by
  rw [List.length_flatten]
  simp [List.map_ofFn, Function.comp_def, List.sum_ofFn]

theorem stackTensor_wf (x : Fin n → Fin d → ℝ) : (stackTensor x).WF := by
  show (List.ofFn fun i => List.ofFn (x i)).flatten.length = [n, d].prod
  rw [flatten_ofFn_length]; simp

theorem flatten_getElem? {γ : Type} (x : Fin n → Fin d → γ) (i : Fin n) (a : Fin d) :
    (List.ofFn fun i => List.ofFn (x i)).flatten[i.1 * d + a.1]? = some (x i a) := by
  induction n with
  | zero => exact i.elim0
  | succ n ih =>
    rw [List.ofFn_succ, List.flatten_cons]
    refine Fin.cases ?_ (fun j => ?_) i
    · simp only [Fin.val_zero, Nat.zero_mul, Nat.zero_add]
      rw [List.getElem?_append_left (by simp)]
      simp
    · rw [List.getElem?_append_right (by simp only [Fin.val_succ, List.length_ofFn, Nat.add_mul]; omega)]
      have := ih (fun k => x k.succ) j
      simp only [Fin.val_succ, List.length_ofFn, Nat.add_mul, Nat.one_mul]
      rw [show j.1 * d + d + a.1 - d = j.1 * d + a.1 by omega]
      exact this

theorem stackTensor_get (x : Fin n → Fin d → ℝ) (i : Fin n) (a : Fin d) :
    (stackTensor x).get [i.1, a.1] = some (x i a) := by
  simp only [Tensor.get, stackTensor, Tensor.validIdx, i.2, a.2, decide_true, Bool.and_self, if_true, Tensor.offset,
    List.prod_cons, List.prod_nil, Nat.mul_one, Nat.add_zero]
  exact flatten_getElem? x i a

theorem dist_obs (x : Fin n → Fin d → ℝ) (i j : Fin n) :
    dist (obs (stackTensor x) d i) (obs (stackTensor x) d j) ^ 2 = sqDist x i j := by
  rw [EuclideanSpace.dist_eq, Real.sq_sqrt (by positivity)]
  simp only [sqDist, obs, stackTensor_get, Option.getD_some, Real.dist_eq, sq_abs]

/-- The squared distances, row by row. -/
theorem pairwise_eq (hn : 0 < n) (x : Fin n → Fin d → ℝ) :
    pairwiseDistances x = .ok ⟨[n, n], (List.ofFn fun i => List.ofFn (sqDist x i)).flatten⟩ := by
  obtain ⟨v, r, hv, hr, hshape, hwf, hent⟩ := C27_distance_matrix (stackTensor x) n d hn rfl (stackTensor_wf x) _ (Or.inl rfl)
  have hlen : r.data.length = n * n := by have := hwf; unfold Tensor.WF at this; rw [this, hshape]; simp
  have hdata : r.data.map (· ^ 2) = (List.ofFn fun i => List.ofFn (sqDist x i)).flatten := by
    apply List.ext_getElem?
    intro p
    by_cases hp : p < n * n
    · have hi : p / n < n := Nat.div_lt_of_lt_mul hp
      have hj : p % n < n := Nat.mod_lt _ hn
      have e := hent (p / n) (p % n) hi hj
      have hpp : p / n * n + p % n = p := by rw [Nat.mul_comm]; exact Nat.div_add_mod p n
      simp only [Tensor.get, hshape, Tensor.validIdx, hi, hj, decide_true, Bool.and_self, if_true, Tensor.offset,
        List.prod_cons, List.prod_nil, Nat.mul_one, Nat.add_zero, hpp] at e
      have f := flatten_getElem? (fun i => sqDist x i) ⟨p / n, hi⟩ ⟨p % n, hj⟩
      simp only [hpp] at f
      rw [f, List.getElem?_map, e, Option.map_some]
      exact congrArg some (dist_obs x ⟨p / n, hi⟩ ⟨p % n, hj⟩)
    · rw [List.getElem?_eq_none (by simpa [hlen] using hp), List.getElem?_eq_none]
      rw [flatten_ofFn_length]
      simpa using hp
  simp only [pairwiseDistances, hv, hr, bind, Except.bind, hshape, hdata]

theorem sqDist_nonneg (x : Fin n → Fin d → ℝ) (i j : Fin n) : 0 ≤ sqDist x i j :=
  Finset.sum_nonneg fun _ _ => sq_nonneg _

theorem sqDist_self (x : Fin n → Fin d → ℝ) (i : Fin n) : sqDist x i i = 0 := by simp [sqDist]

theorem sqDist_comm (x : Fin n → Fin d → ℝ) (i j : Fin n) : sqDist x i j = sqDist x j i := by
  unfold sqDist; exact Finset.sum_congr rfl fun a _ => by ring

theorem sqDist_pos (x : Fin n → Fin d → ℝ) (i j : Fin n) (h : x i ≠ x j) : 0 < sqDist x i j := by
  obtain ⟨a, ha⟩ := Function.ne_iff.1 h
  refine Finset.sum_pos' (fun _ _ => sq_nonneg _) ⟨a, Finset.mem_univ _, ?_⟩
  have : x i a - x j a ≠ 0 := sub_ne_zero.2 ha
  positivity

/-! ### The median of the squared distances -/

theorem countP_ofFn {γ : Type} {m : Nat} (p : γ → Bool) (f : Fin m → γ) :
    (List.ofFn f).countP p = ∑ i, if p (f i) then 1 else 0 := by
  induction m with
  | zero => simp
  | succ m ih => rw [List.ofFn_succ, List.countP_cons, ih, Fin.sum_univ_succ, Nat.add_comm]

theorem countP_zero (x : Fin n → Fin d → ℝ) (hx : Function.Injective x) (m : ℝ) (hm : m ≤ 0) :
    (List.ofFn fun i => List.ofFn (sqDist x i)).flatten.countP (fun a => decide (a ≤ m)) ≤ n := by
  rw [List.countP_flatten, List.map_ofFn, List.sum_ofFn]
  refine le_trans (Finset.sum_le_card_nsmul _ _ 1 ?_) (by simp)
  intro i _
  simp only [Function.comp_def, countP_ofFn]
  rw [Finset.sum_eq_single i]
  · split <;> simp
  · intro j _ hj
    have := sqDist_pos x i j (fun e => hj (hx e.symm))
    simp; linarith
  · simp

theorem median_pos (hn : 2 ≤ n) (x : Fin n → Fin d → ℝ) (hx : Function.Injective x) :
    ∃ med, median ⟨[n, n], (List.ofFn fun i => List.ofFn (sqDist x i)).flatten⟩ = .ok med ∧ 0 < med := by
  have hlen : (List.ofFn fun i => List.ofFn (sqDist x i)).flatten.length = n * n := flatten_ofFn_length _
  have hne : (List.ofFn fun i => List.ofFn (sqDist x i)).flatten ≠ [] := by
    intro h
    rw [h] at hlen
    simp only [List.length_nil] at hlen
    have : 0 < n * n := by positivity
    omega
  obtain ⟨med, h1, h2, -⟩ := C22_half ⟨[n, n], (List.ofFn fun i => List.ofFn (sqDist x i)).flatten⟩ hne
  refine ⟨med, h1, ?_⟩
  by_contra hc
  have hcount := countP_zero x hx med (not_lt.1 hc)
  simp only [hlen] at h2
  have hn2 : n = 2 := by nlinarith
  subst hn2
  have hdata : (List.ofFn fun i => List.ofFn (sqDist x i)).flatten = [0, sqDist x 0 1, sqDist x 0 1, 0] := by
    simp [List.ofFn_succ, sqDist_self, sqDist_comm x 1 0]
  have hpos := sqDist_pos x 0 1 (fun e => by have := hx e; simp at this)
  have := (C22_order_statistic ⟨[2, 2], [0, sqDist x 0 1, sqDist x 0 1, 0]⟩ [0, 0, sqDist x 0 1, sqDist x 0 1]
    (by
      refine List.Perm.cons _ ?_
      exact (List.perm_append_comm (l₁ := [0]) (l₂ := [sqDist x 0 1, sqDist x 0 1])))
    (by simp [hpos.le]) (by simp)).2 (by simp)
  rw [hdata, this] at h1
  simp only [Except.ok.injEq, List.length_cons, List.length_nil] at h1
  norm_num at h1
  linarith

/-! ### Closed form of the kernel -/

theorem bandwidth_sq (hn : 0 < n) (med : ℝ) (hmed : 0 < med) :
    Fl.npow (bandwidth n med) 2 = .fin (med / 2 / Real.log (n + 1)) ∧ 0 < med / 2 / Real.log (n + 1) := by
  have hn' : (0 : ℝ) < n := by exact_mod_cast hn
  have hlog : 0 < Real.log ((n : ℝ) + 1) := Real.log_pos (by linarith)
  have hpos : 0 < 0.5 * med / Real.log ((n : ℝ) + 1) := by positivity
  constructor
  · unfold bandwidth
    rw [Fl.ofNat_one, Fl.add_fin, Fl.log_fin (by linarith), Fl.mul_fin, Fl.div_fin hlog.ne', Fl.sqrt_fin hpos.le,
      Fl.npow_fin, Real.sq_sqrt hpos.le]
    congr 1
    norm_num
    ring
  · positivity

theorem ofFn_fin {m : Nat} (f : Fin m → ℝ) : (List.ofFn fun i => Fl.fin (f i)) = (List.ofFn f).map Fl.fin := by
  rw [List.map_ofFn]; rfl

theorem sum_fin {m : Nat} (f : Fin m → ℝ) : Fl.sum (List.ofFn fun i => Fl.fin (f i)) = .fin (∑ i, f i) := by
  rw [ofFn_fin, Fl.sum_map_fin, List.sum_ofFn]

/-- If the median of the squared distances is positive, the kernel is the Gaussian kernel with squared bandwidth
`median / 2 / log (n + 1)`, and the kernel gradient of particle `i` is `∑ⱼ Kᵢⱼ (xᵢ - xⱼ) / h²`. -/
theorem kernel_closed (hn : 0 < n) (x : Fin n → Fin d → ℝ) (med : ℝ)
    (hm : median ⟨[n, n], (List.ofFn fun i => List.ofFn (sqDist x i)).flatten⟩ = .ok med) (hmed : 0 < med) :
    svgdKernel x = .ok ⟨fun i j => .fin (rbf (med / 2 / Real.log (n + 1)) x i j),
      fun i a => .fin ((∑ j, rbf (med / 2 / Real.log (n + 1)) x i j * (x i a - x j a)) / (med / 2 / Real.log (n + 1)))⟩ := by
  obtain ⟨hb, hpos⟩ := bandwidth_sq hn med hmed
  set h2 := med / 2 / Real.log (n + 1) with hh2
  have hget : ∀ i j : Fin n, ((Tensor.mk [n, n] (List.ofFn fun i => List.ofFn (sqDist x i)).flatten).get [i, j]).getD 0
      = sqDist x i j := by
    intro i j
    simp only [Tensor.get, Tensor.validIdx, i.2, j.2, decide_true, Bool.and_self, if_true, Tensor.offset,
      List.prod_cons, List.prod_nil, Nat.mul_one, Nat.add_zero, flatten_getElem?, Option.getD_some]
  have hent : ∀ i j : Fin n, kernelEntry (bandwidth n med) (sqDist x i j) = .fin (rbf h2 x i j) := by
    intro i j
    unfold kernelEntry rbf
    have h2' : (2 : Fl) = .fin 2 := by rw [Fl.ofNat_def]; norm_num
    rw [hb, Fl.neg_fin, Fl.div_fin hpos.ne', h2', Fl.div_fin (by norm_num), Fl.exp_fin]
    congr 2
    field_simp
  simp only [svgdKernel, pairwise_eq hn, hm, bind, Except.bind, hget, hent, hb, sum_fin, Fl.mul_fin, Fl.neg_fin,
    Fl.add_fin, Fl.div_fin hpos.ne', Except.ok.injEq, Kernel.mk.injEq, true_and]
  funext i a
  congr 2
  rw [Finset.mul_sum, ← Finset.sum_neg_distrib, ← Finset.sum_add_distrib]
  exact Finset.sum_congr rfl fun j _ => by ring

end PySGMCMC.SVGD
