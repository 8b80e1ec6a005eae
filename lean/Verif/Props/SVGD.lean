import Verif.Lemmas.SVGD

/-! # C40–C45, C73: Stein variational gradient descent -/

namespace PySGMCMC.SVGD
open TensorUtils

variable {n d : Nat}

/-! ## C40, C73 -/

/-- C40 for SVGD: a step is a function of state and inputs, whatever the execution order. -/
theorem C40_svgd_deterministic (inp : Inputs n d) (σ σ' : Schedule n) (s : State n d) :
    (run inp σ s).particles = (run inp σ' s).particles ∧ (run inp σ s).hist = (run inp σ' s).hist
    ∧ (run inp σ s).cost = (run inp σ' s).cost := by
  obtain ⟨h1, h2, h3⟩ := run_eq inp σ s
  obtain ⟨g1, g2, g3⟩ := run_eq inp σ' s
  exact ⟨h1.trans g1.symm, h2.trans g2.symm, h3.trans g3.symm⟩

/-- C73 for SVGD: the returned costs are those of the particles before the step. -/
theorem C73_svgd_cost (inp : Inputs n d) (σ : Schedule n) (s : State n d) (i : Fin n) :
    (run inp σ s).cost i = inp.cost (s.particles i) := by
  rw [(run_eq inp σ s).2.2]

/-! ## C41 -/

/-- C41: for at least two pairwise distinct particles the kernel is the Gaussian kernel with squared bandwidth
`h² = median / (2 log (n+1)) > 0` of the squared distances; it is symmetric with unit diagonal and entries in
`(0, 1]`; the kernel gradients are the finite numbers `∑ⱼ Kᵢⱼ (xᵢ - xⱼ) / h²` and sum to zero over the particles. -/
theorem C41_kernel (hn : 2 ≤ n) (x : Fin n → Fin d → ℝ) (hx : Function.Injective x) :
    ∃ (med h2 : ℝ) (k : Kernel n d) (K : Fin n → Fin n → ℝ) (G : Fin n → Fin d → ℝ),
      median ⟨[n, n], (List.ofFn fun i => List.ofFn (sqDist x i)).flatten⟩ = .ok med
      ∧ h2 = med / (2 * Real.log (n + 1)) ∧ 0 < h2
      ∧ svgdKernel x = .ok k
      ∧ (∀ i j, k.matrix i j = .fin (K i j)) ∧ (∀ i a, k.grads i a = .fin (G i a))
      ∧ (∀ i j, K i j = Real.exp (-(sqDist x i j) / (2 * h2)))
      ∧ (∀ i j, K i j = K j i) ∧ (∀ i, K i i = 1) ∧ (∀ i j, 0 < K i j ∧ K i j ≤ 1)
      ∧ (∀ i a, G i a = (∑ j, K i j * (x i a - x j a)) / h2) ∧ ∀ a, ∑ i, G i a = 0 := by
  obtain ⟨med, hm, hpos⟩ := median_pos hn x hx
  obtain ⟨-, hb⟩ := bandwidth_sq (show 0 < n by omega) med hpos
  refine ⟨med, med / 2 / Real.log (n + 1), _, rbf (med / 2 / Real.log (n + 1)) x, _, hm, by rw [div_div], hb,
    kernel_closed (by omega) x med hm hpos, fun _ _ => rfl, fun _ _ => rfl, fun _ _ => rfl, ?_, ?_, ?_, fun _ _ => rfl, ?_⟩
  · intro i j; unfold rbf; rw [sqDist_comm]
  · intro i; unfold rbf; simp [sqDist_self]
  · intro i j
    refine ⟨Real.exp_pos _, ?_⟩
    unfold rbf
    rw [Real.exp_le_one_iff]
    exact div_nonpos_of_nonpos_of_nonneg (neg_nonpos.2 (sqDist_nonneg x i j)) (by positivity)
  · intro a
    rw [← Finset.sum_div]
    have : ∑ i, ∑ j, rbf (med / 2 / Real.log (n + 1)) x i j * (x i a - x j a) = 0 := by
      have h1 : ∑ i, ∑ j, rbf (med / 2 / Real.log (n + 1)) x i j * (x i a - x j a)
          = -∑ i, ∑ j, rbf (med / 2 / Real.log (n + 1)) x i j * (x i a - x j a) := by
        conv_lhs => rw [Finset.sum_comm]
        rw [← Finset.sum_neg_distrib]
        refine Finset.sum_congr rfl fun i _ => ?_
        rw [← Finset.sum_neg_distrib]
        refine Finset.sum_congr rfl fun j _ => ?_
        unfold rbf
        rw [sqDist_comm]; ring
      linarith
    rw [this, zero_div]

theorem sum_nan (l : List Fl) (h : Fl.nan ∈ l) : Fl.sum l = .nan := by
  have key : ∀ (l : List Fl) (x : Fl), (x = .nan ∨ Fl.nan ∈ l) → l.foldl (· + ·) x = .nan := by
    intro l
    induction l with
    | nil => intro x hx; simpa using hx
    | cons y ys ih =>
      intro x hx
      refine ih _ ?_
      rcases hx with rfl | hx
      · exact .inl (by simp)
      · rcases List.mem_cons.1 hx with rfl | hx
        · exact .inl (by simp)
        · exact .inr hx
  exact key l _ (.inr h)

theorem bandwidth_zero (hn : 0 < n) : Fl.npow (bandwidth n 0) 2 = .fin 0 := by
  have hlog : 0 < Real.log ((n : ℝ) + 1) := Real.log_pos (by have : (0 : ℝ) < n := by exact_mod_cast hn
                                                             linarith)
  unfold bandwidth
  rw [Fl.ofNat_one, Fl.add_fin, Fl.log_fin (by positivity), Fl.mul_fin, Fl.div_fin hlog.ne', Fl.sqrt_fin (by simp),
    Fl.npow_fin]
  simp

/-- C41 (boundary): if the median squared distance is 0, the kernel degenerates: the diagonal of the kernel matrix and
all kernel gradients are `NaN`. -/
theorem C41_degenerate (hn : 0 < n) (x : Fin n → Fin d → ℝ)
    (hm : median ⟨[n, n], (List.ofFn fun i => List.ofFn (sqDist x i)).flatten⟩ = .ok 0) :
    ∃ k, svgdKernel x = .ok k ∧ (∀ i, k.matrix i i = .nan) ∧ ∀ i a, k.grads i a = .nan := by
  have hb := bandwidth_zero hn
  have hdiag : kernelEntry (bandwidth n 0) 0 = .nan := by
    unfold kernelEntry
    rw [hb, Fl.neg_fin, neg_zero, Fl.div_fin', if_pos rfl]
    simp [Fl.infOf, Fl.exp]
  have hget : ∀ i : Fin n, ((Tensor.mk [n, n] (List.ofFn fun i => List.ofFn (sqDist x i)).flatten).get [i, i]).getD 0
      = 0 := by
    intro i
    simp only [Tensor.get, Tensor.validIdx, i.2, decide_true, Bool.and_self, if_true, Tensor.offset,
      List.prod_cons, List.prod_nil, Nat.mul_one, Nat.add_zero, flatten_getElem?, Option.getD_some, sqDist_self]
  refine ⟨_, by simp only [svgdKernel, pairwise_eq hn, hm, bind, Except.bind]; rfl, ?_, ?_⟩
  · intro i
    simp only [hget, hdiag]
  · intro i a
    have : Fl.sum (List.ofFn fun j : Fin n => kernelEntry (bandwidth n 0)
        (((Tensor.mk [n, n] (List.ofFn fun i => List.ofFn (sqDist x i)).flatten).get [i, j]).getD 0)) = .nan := by
      apply sum_nan
      rw [List.mem_ofFn]
      exact ⟨i, by rw [hget, hdiag]⟩
    simp only [this]
    simp

/-- … as happens if all particles start at the same place: the first step turns every particle into `NaN`. -/
theorem C41_collapsed_start (hn : 0 < n) (p : Fin d → ℝ) (inp : Inputs n d) (σ : Schedule n) (i : Fin n) (a : Fin d) :
    (run inp σ (.init fun _ a => .fin (p a))).particles i a = .nan := by
  have hm : median ⟨[n, n], (List.ofFn fun i => List.ofFn (sqDist (fun _ : Fin n => p) i)).flatten⟩ = .ok 0 := by
    have hz : ∀ i j : Fin n, sqDist (fun _ : Fin n => p) i j = 0 := by intro i j; simp [sqDist]
    have hlen : (List.ofFn fun i => List.ofFn (sqDist (fun _ : Fin n => p) i)).flatten.length = n * n :=
      flatten_ofFn_length _
    have hrep : (List.ofFn fun i => List.ofFn (sqDist (fun _ : Fin n => p) i)).flatten = List.replicate (n * n) 0 := by
      rw [List.eq_replicate_iff]
      refine ⟨hlen, fun b hb => ?_⟩
      obtain ⟨l, hl, hbl⟩ := List.mem_flatten.1 hb
      obtain ⟨i, rfl⟩ := List.mem_ofFn.1 hl
      obtain ⟨j, rfl⟩ := List.mem_ofFn.1 hbl
      exact hz i j
    rw [hrep]
    have hpos : 0 < n * n := by positivity
    obtain ⟨ho, he⟩ := C22_order_statistic ⟨[n, n], List.replicate (n * n) 0⟩ (List.replicate (n * n) 0) (List.Perm.refl _)
      (List.pairwise_replicate.2 (.inr le_rfl)) (by simp; omega)
    rcases Nat.mod_two_eq_zero_or_one (n * n) with h | h
    · rw [he (by simpa using h)]
      simp only [List.length_replicate]
      rw [List.getD_eq_getElem?_getD, List.getD_eq_getElem?_getD]
      simp [show n * n / 2 - 1 < n * n by omega, show n * n / 2 < n * n by omega]
    · rw [ho (by simpa using h)]
      simp only [List.length_replicate]
      rw [List.getD_eq_getElem?_getD]
      simp [show n * n / 2 < n * n by omega]
  obtain ⟨k, hk, -, hg⟩ := C41_degenerate hn (fun _ => p) hm
  have hfin : ∀ (i : Fin n) (a : Fin d), ((State.init (n := n) fun _ a => Fl.fin (p a)).particles i a).IsFin :=
    fun i a => ⟨_, rfl⟩
  have hgt : gradTheta inp (State.init (n := n) fun _ a => Fl.fin (p a)).particles i a = .nan := by
    have hke : kernelOf inp (State.init (n := n) fun _ a => Fl.fin (p a)).particles = k := by
      unfold kernelOf
      rw [if_pos hfin]
      have : svgdKernel (fun (i : Fin n) (a : Fin d) => ((State.init (n := n) fun _ a => Fl.fin (p a)).particles i a).val)
          = .ok k := hk
      rw [this]
    simp only [gradTheta, hke, hg]
    simp
  rw [(run_eq inp σ _).1]
  simp only [nextParticle, nextHist, hgt]
  simp [adjGrad]

/-! ## Steps on finite values -/

/-- The update of one coordinate on finite values. -/
theorem step_fin (inp : Inputs n d) (s : State n d) (i : Fin n) (a : Fin d) (eps al f x H g : ℝ)
    (he : inp.epsilon = .fin eps) (ha : inp.alpha = .fin al) (hf : inp.fudge = .fin f)
    (h0 : 0 ≤ al) (h1 : al < 1) (hfp : 0 < f) (hx : s.particles i a = .fin x) (hH : s.hist i a = .fin H) (hH0 : 0 ≤ H)
    (hg : gradTheta inp s.particles i a = .fin g) :
    nextHist inp s i a = .fin (al * H + (1 - al) * g ^ 2)
    ∧ 0 ≤ al * H + (1 - al) * g ^ 2
    ∧ nextParticle inp s i a = .fin (x - eps * (g / (f + Real.sqrt (al * H + (1 - al) * g ^ 2)))) := by
  have hnn : 0 ≤ al * H + (1 - al) * g ^ 2 := by
    have : 0 ≤ 1 - al := by linarith
    positivity
  have hh : nextHist inp s i a = .fin (al * H + (1 - al) * g ^ 2) := by
    unfold nextHist rhsHist
    rw [hg, ha, hH, Fl.ofNat_one, Fl.mul_fin, Fl.sub_fin, Fl.npow_fin, Fl.mul_fin, Fl.add_fin]
  refine ⟨hh, hnn, ?_⟩
  unfold nextParticle adjGrad
  rw [hh, hg, hx, he, hf, Fl.sqrt_fin hnn, Fl.add_fin, Fl.div_fin (by have := Real.sqrt_nonneg (al * H + (1 - al) * g ^ 2)
                                                                      linarith), Fl.mul_fin, Fl.sub_fin]

/-- `grad_theta` for pairwise distinct finite particles and finite gradients. -/
theorem gradTheta_fin (hn : 2 ≤ n) (inp : Inputs n d) (x : Fin n → Fin d → ℝ) (hx : Function.Injective x)
    (γ : Fin n → Fin d → ℝ) (hγ : ∀ j a, inp.grad (fun a => .fin (x j a)) a = .fin (γ j a)) :
    ∃ h2 : ℝ, 0 < h2 ∧ ∀ i a, gradTheta inp (fun i a => .fin (x i a)) i a
      = .fin ((∑ j, Real.exp (-(sqDist x i j) / (2 * h2)) * γ j a
          + (∑ j, Real.exp (-(sqDist x i j) / (2 * h2)) * (x i a - x j a)) / h2) / n) := by
  obtain ⟨med, hm, hpos⟩ := median_pos hn x hx
  obtain ⟨-, hb⟩ := bandwidth_sq (show 0 < n by omega) med hpos
  have hk := kernel_closed (by omega) x med hm hpos
  refine ⟨_, hb, fun i a => ?_⟩
  have hke : kernelOf inp (fun i a => .fin (x i a)) = ⟨fun i j => .fin (rbf (med / 2 / Real.log (n + 1)) x i j),
      fun i a => .fin ((∑ j, rbf (med / 2 / Real.log (n + 1)) x i j * (x i a - x j a)) / (med / 2 / Real.log (n + 1)))⟩ := by
    unfold kernelOf
    rw [if_pos (fun i a => ⟨_, rfl⟩)]
    simp only [Fl.val_fin]
    rw [hk]
  have hn0 : (n : ℝ) ≠ 0 := by have : (n : ℝ) ≠ 0 := by exact_mod_cast (show n ≠ 0 by omega)
                               exact this
  simp only [gradTheta, hke, hγ, Fl.mul_fin, sum_fin, Fl.add_fin, Fl.div_fin hn0]
  rfl

/-! ## C43 -/

theorem adj_le (al f H g : ℝ) (h0 : 0 ≤ al) (h1 : al < 1) (hf : 0 < f) (hH : 0 ≤ H) :
    |g / (f + Real.sqrt (al * H + (1 - al) * g ^ 2))| ≤ 1 / Real.sqrt (1 - al) := by
  have h1' : 0 < 1 - al := by linarith
  have hs : 0 < Real.sqrt (1 - al) := Real.sqrt_pos.2 h1'
  have hsq : Real.sqrt (1 - al) * |g| ≤ Real.sqrt (al * H + (1 - al) * g ^ 2) := by
    rw [← Real.sqrt_sq_eq_abs, ← Real.sqrt_mul h1'.le]
    apply Real.sqrt_le_sqrt
    have : 0 ≤ al * H := by positivity
    linarith
  have hden : 0 < f + Real.sqrt (al * H + (1 - al) * g ^ 2) := by positivity
  rw [abs_div, abs_of_pos hden, div_le_div_iff₀ hden hs]
  linarith [mul_comm |g| (Real.sqrt (1 - al))]

/-- C43 (one step). -/
theorem C43_step (inp : Inputs n d) (σ : Schedule n) (s : State n d) (i : Fin n) (a : Fin d) (eps al f x H : ℝ)
    (he : inp.epsilon = .fin eps) (ha : inp.alpha = .fin al) (hf : inp.fudge = .fin f)
    (h0 : 0 ≤ al) (h1 : al < 1) (hfp : 0 < f) (hx : s.particles i a = .fin x) (hH : s.hist i a = .fin H) (hH0 : 0 ≤ H)
    (hg : (gradTheta inp s.particles i a).IsFin) :
    ∃ x' H', (run inp σ s).particles i a = .fin x' ∧ (run inp σ s).hist i a = .fin H' ∧ 0 ≤ H'
      ∧ |x' - x| ≤ |eps| / Real.sqrt (1 - al) := by
  obtain ⟨g, hg⟩ := hg
  obtain ⟨a1, a2, a3⟩ := step_fin inp s i a eps al f x H g he ha hf h0 h1 hfp hx hH hH0 hg
  obtain ⟨r1, r2, -⟩ := run_eq inp σ s
  refine ⟨_, _, by rw [r1, a3], by rw [r2, a1], a2, ?_⟩
  have := adj_le al f H g h0 h1 hfp hH0
  rw [show x - eps * (g / (f + Real.sqrt (al * H + (1 - al) * g ^ 2))) - x
    = -(eps * (g / (f + Real.sqrt (al * H + (1 - al) * g ^ 2)))) by ring, abs_neg, abs_mul]
  calc |eps| * |g / (f + Real.sqrt (al * H + (1 - al) * g ^ 2))| ≤ |eps| * (1 / Real.sqrt (1 - al)) :=
        mul_le_mul_of_nonneg_left this (abs_nonneg _)
    _ = |eps| / Real.sqrt (1 - al) := by ring

/-- The `grad_theta` values of a chain are all numbers at coordinate `(i, a)`. -/
def FiniteGrads (i : Fin n) (a : Fin d) : List (Inputs n d × Schedule n) → State n d → Prop
  | [], _ => True
  | x :: xs, s => (gradTheta x.1 s.particles i a).IsFin ∧ FiniteGrads i a xs (run x.1 x.2 s)

/-- C43 (chain): as long as the combined gradients are numbers, for ever: finite positions, finite non-negative
history, and after steps with stepsizes `ε₁, …, εₙ` a coordinate has moved by at most `(|ε₁| + … + |εₙ|) / √(1-α)`. -/
theorem C43_chain (hist : List (Inputs n d × Schedule n)) (eps : List ℝ) (s : State n d) (i : Fin n) (a : Fin d)
    (al f x H : ℝ) (h0 : 0 ≤ al) (h1 : al < 1) (hfp : 0 < f)
    (hin : hist.map (fun y => (y.1.epsilon, y.1.alpha, y.1.fudge)) = eps.map fun e => (.fin e, .fin al, .fin f))
    (hx : s.particles i a = .fin x) (hH : s.hist i a = .fin H) (hH0 : 0 ≤ H) (hg : FiniteGrads i a hist s) :
    ∃ x' H', (runs hist s).particles i a = .fin x' ∧ (runs hist s).hist i a = .fin H' ∧ 0 ≤ H'
      ∧ |x' - x| ≤ (eps.map abs).sum / Real.sqrt (1 - al) := by
  induction hist generalizing s eps x H with
  | nil =>
    obtain rfl : eps = [] := by simpa using hin.symm
    exact ⟨x, H, hx, hH, hH0, by simp⟩
  | cons y ys ih =>
    cases eps with
    | nil => simp at hin
    | cons e es =>
      simp only [List.map_cons, List.cons.injEq, Prod.mk.injEq] at hin
      obtain ⟨⟨e1, e2, e3⟩, hrest⟩ := hin
      obtain ⟨x1, H1, p1, p2, p3, p4⟩ := C43_step y.1 y.2 s i a e al f x H e1 e2 e3 h0 h1 hfp hx hH hH0 hg.1
      obtain ⟨x2, H2, q1, q2, q3, q4⟩ := ih es (run y.1 y.2 s) x1 H1 hrest p1 p2 p3 hg.2
      refine ⟨x2, H2, q1, q2, q3, ?_⟩
      rw [List.map_cons, List.sum_cons, add_div]
      calc |x2 - x| = |(x2 - x1) + (x1 - x)| := by ring_nf
        _ ≤ |x2 - x1| + |x1 - x| := abs_add_le _ _
        _ ≤ _ := by linarith

/-! ## C42 -/

/-- Flat cost: the cost gradient is zero at the current particles. -/
theorem flat_gradTheta (hn : 2 ≤ n) (inp : Inputs n d) (x : Fin n → Fin d → ℝ) (hx : Function.Injective x)
    (hflat : ∀ j a, inp.grad (fun a => .fin (x j a)) a = .fin 0) :
    ∃ h2 : ℝ, 0 < h2 ∧ ∀ i a, gradTheta inp (fun i a => .fin (x i a)) i a
      = .fin ((∑ j, Real.exp (-(sqDist x i j) / (2 * h2)) * (x i a - x j a)) / h2 / n) := by
  obtain ⟨h2, hp, h⟩ := gradTheta_fin hn inp x hx (fun _ _ => 0) hflat
  refine ⟨h2, hp, fun i a => ?_⟩
  rw [h]; simp

/-- C42 fails for every configuration: with flat cost, the particle that is furthest out in some coordinate moves
inwards in this coordinate, i.e. the kernel term attracts (strictly, unless all particles agree in the coordinate). -/
theorem C42_violated (hn : 2 ≤ n) (inp : Inputs n d) (σ : Schedule n) (s : State n d) (x H : Fin n → Fin d → ℝ)
    (hx : Function.Injective x) (hs : s.particles = fun i a => .fin (x i a)) (hH : s.hist = fun i a => .fin (H i a))
    (hH0 : ∀ i a, 0 ≤ H i a) (eps al f : ℝ) (he : inp.epsilon = .fin eps) (ha : inp.alpha = .fin al)
    (hf : inp.fudge = .fin f) (hep : 0 < eps) (h0 : 0 ≤ al) (h1 : al < 1) (hfp : 0 < f)
    (hflat : ∀ j a, inp.grad (fun a => .fin (x j a)) a = .fin 0) (i : Fin n) (a : Fin d) :
    ∃ x', (run inp σ s).particles i a = .fin x'
      ∧ ((∀ j, x j a ≤ x i a) → (∃ j, x j a < x i a) → x' < x i a)
      ∧ ((∀ j, x i a ≤ x j a) → (∃ j, x i a < x j a) → x i a < x') := by
  obtain ⟨h2, hh2, hg⟩ := flat_gradTheta hn inp x hx hflat
  set g := (∑ j, Real.exp (-(sqDist x i j) / (2 * h2)) * (x i a - x j a)) / h2 / n with hgdef
  have hgi : gradTheta inp s.particles i a = .fin g := by rw [hs]; exact hg i a
  obtain ⟨-, hnn, hp⟩ := step_fin inp s i a eps al f (x i a) (H i a) g he ha hf h0 h1 hfp (by rw [hs]) (by rw [hH])
    (hH0 i a) hgi
  have hden : 0 < f + Real.sqrt (al * H i a + (1 - al) * g ^ 2) := by
    have := Real.sqrt_nonneg (al * H i a + (1 - al) * g ^ 2); linarith
  have hn0 : (0 : ℝ) < n := by exact_mod_cast (show 0 < n by omega)
  refine ⟨_, by rw [(run_eq inp σ s).1, hp], ?_, ?_⟩
  · rintro hmax ⟨j, hj⟩
    have hgpos : 0 < g := by
      rw [hgdef]
      have : 0 < ∑ j, Real.exp (-(sqDist x i j) / (2 * h2)) * (x i a - x j a) := by
        refine Finset.sum_pos' (fun k _ => mul_nonneg (Real.exp_pos _).le (by linarith [hmax k])) ⟨j, Finset.mem_univ _, ?_⟩
        exact mul_pos (Real.exp_pos _) (by linarith)
      positivity
    have : 0 < eps * (g / (f + Real.sqrt (al * H i a + (1 - al) * g ^ 2))) := by positivity
    linarith
  · rintro hmin ⟨j, hj⟩
    have hgneg : g < 0 := by
      rw [hgdef]
      have : ∑ j, Real.exp (-(sqDist x i j) / (2 * h2)) * (x i a - x j a) < 0 := by
        rw [← neg_pos, ← Finset.sum_neg_distrib]
        refine Finset.sum_pos' (fun k _ => ?_) ⟨j, Finset.mem_univ _, ?_⟩
        · have := mul_nonneg (Real.exp_pos (-(sqDist x i k) / (2 * h2))).le (show 0 ≤ x k a - x i a by linarith [hmin k])
          linarith
        · have := mul_pos (Real.exp_pos (-(sqDist x i j) / (2 * h2))) (show 0 < x j a - x i a by linarith)
          linarith
      exact div_neg_of_neg_of_pos (div_neg_of_neg_of_pos this hh2) hn0
    have : eps * (g / (f + Real.sqrt (al * H i a + (1 - al) * g ^ 2))) < 0 :=
      mul_neg_of_pos_of_neg hep (div_neg_of_neg_of_pos hgneg hden)
    linarith

/-- C42 (what holds): with flat cost, particles do not move at all in coordinates in which all of them agree.
Missing: every other coordinate, see `C42_violated`. -/
theorem C42_common_coordinate_partial (hn : 2 ≤ n) (inp : Inputs n d) (σ : Schedule n) (s : State n d)
    (x H : Fin n → Fin d → ℝ)
    (hx : Function.Injective x) (hs : s.particles = fun i a => .fin (x i a)) (hH : s.hist = fun i a => .fin (H i a))
    (hH0 : ∀ i a, 0 ≤ H i a) (eps al f : ℝ) (he : inp.epsilon = .fin eps) (ha : inp.alpha = .fin al)
    (hf : inp.fudge = .fin f) (h0 : 0 ≤ al) (h1 : al < 1) (hfp : 0 < f)
    (hflat : ∀ j a, inp.grad (fun a => .fin (x j a)) a = .fin 0) (i : Fin n) (a : Fin d) (hagree : ∀ j, x j a = x i a) :
    (run inp σ s).particles i a = s.particles i a := by
  obtain ⟨h2, hh2, hg⟩ := flat_gradTheta hn inp x hx hflat
  have hgi : gradTheta inp s.particles i a = .fin 0 := by rw [hs, hg]; simp [hagree]
  obtain ⟨-, hnn, hp⟩ := step_fin inp s i a eps al f (x i a) (H i a) 0 he ha hf h0 h1 hfp (by rw [hs]) (by rw [hH])
    (hH0 i a) hgi
  rw [(run_eq inp σ s).1, hp, hs]
  simp

/-! ## C44 -/

/-- C44 (what holds): the constructor accepts exactly at least two particles of the same shape `[d]` with `d ≠ 1` (given
that all other arguments are in order and the graph has no variable `historical_grad` yet).
Missing: a single particle, one-dimensional and scalar particles, see `C44_violated`. -/
theorem C44_construct_partial (a : CtorArgs) :
    construct a = .ok () ↔ a.alphaNumber = true ∧ a.fudgeNumber = true ∧ a.costNamed = true ∧ a.histExists = false
      ∧ SamplerBase.ctorCheck a.base = .ok ()
      ∧ ∃ n d, a.shapes = List.replicate n [d] ∧ 2 ≤ n ∧ d ≠ 1 := by
  have hcall : SamplerBase.ctorCheck a.base = .ok () → a.base.costFun.isCallable = true := by
    unfold SamplerBase.ctorCheck
    intro h
    repeat' split at h
    all_goals simp_all
  have hshape : (∃ n d, a.shapes = List.replicate n [d] ∧ 2 ≤ n ∧ d ≠ 1) ↔
      ∃ p, stackShape a.shapes = .ok p ∧ (match p with
        | [n, _] => matmulOk n (squeeze (1 :: p))
        | _ => .error (.value "2-d")) = .ok () := by
    constructor
    · rintro ⟨n, d, h, hn, hd⟩
      obtain ⟨m, rfl⟩ : ∃ m, n = m + 1 := ⟨n - 1, by omega⟩
      refine ⟨[m + 1, d], ?_, ?_⟩
      · rw [h, List.replicate_succ]
        simp [stackShape]
      · have h1 : m ≠ 0 := by omega
        simp [squeeze, matmulOk, hd, h1]
    · rintro ⟨p, hp, h⟩
      cases hs : a.shapes with
      | nil => rw [hs] at hp; simp only [stackShape, Except.ok.injEq] at hp; subst hp; simp at h
      | cons s rest =>
        rw [hs] at hp
        simp only [stackShape] at hp
        split at hp
        · rename_i hall
          simp only [Except.ok.injEq] at hp
          subst hp
          have hrep : s :: rest = List.replicate (rest.length + 1) s := by
            rw [List.replicate_succ, ← List.eq_replicate_iff.2 ⟨rfl, fun b hb => by simpa using List.all_eq_true.1 hall b hb⟩]
          match s, h with
          | [d], h =>
            refine ⟨rest.length + 1, d, hrep, ?_, ?_⟩
            · by_contra hlt
              have h0 : rest.length = 0 := by omega
              simp only [h0, squeeze, matmulOk] at h
              by_cases hd : d = 1 <;> simp [hd] at h
            · rintro rfl
              simp only [squeeze, matmulOk] at h
              by_cases h0 : rest.length = 0 <;> simp [h0] at h
          | [], h => simp at h
          | _ :: _ :: _, h => simp at h
        · cases hp
  rw [hshape]
  unfold construct
  cases h1 : a.alphaNumber
  · simp [bind, Except.bind]
  cases h2 : a.fudgeNumber
  · simp [bind, Except.bind]
  cases h3 : a.base.costFun.isCallable
  · have : SamplerBase.ctorCheck a.base ≠ .ok () := fun h => by simp [hcall h] at h3
    simp [bind, Except.bind, this]
  cases h4 : stackShape a.shapes with
  | error e => simp [bind, Except.bind]
  | ok p =>
    cases h5 : a.costNamed
    · simp [bind, Except.bind]
    cases h6 : SamplerBase.ctorCheck a.base with
    | error e => simp [bind, Except.bind]
    | ok u =>
      cases h7 : a.histExists
      · simp [bind, Except.bind]
        match p with
        | [] => simp
        | [_] => simp
        | [_, _] => simp
        | _ :: _ :: _ :: _ => simp
      · simp [bind, Except.bind]

/-- C44 fails for a single particle and for one-dimensional or scalar particles, whatever the other arguments. -/
theorem C44_violated (a : CtorArgs) (n d : Nat)
    (h : a.shapes = [[d]] ∨ a.shapes = List.replicate n [1] ∨ a.shapes = List.replicate n []) :
    construct a ≠ .ok () := by
  rw [ne_eq, C44_construct_partial]
  rintro ⟨-, -, -, -, -, m, e, hs, hm, he⟩
  rcases h with h | h | h <;> rw [h] at hs
  · cases m with
    | zero => omega
    | succ m => cases m with
      | zero => omega
      | succ m => simp [List.replicate_succ] at hs
  all_goals
    cases m with
    | zero => omega
    | succ m => cases n with
      | zero => simp [List.replicate_succ] at hs
      | succ n => simp [List.replicate_succ] at hs; try omega

/-! ## C45 -/

theorem median_nonneg (hn : 0 < n) (x : Fin n → Fin d → ℝ) :
    ∃ med, median ⟨[n, n], (List.ofFn fun i => List.ofFn (sqDist x i)).flatten⟩ = .ok med ∧ 0 ≤ med := by
  have hlen : (List.ofFn fun i => List.ofFn (sqDist x i)).flatten.length = n * n := flatten_ofFn_length _
  have hpos : 0 < n * n := by positivity
  have hne : (List.ofFn fun i => List.ofFn (sqDist x i)).flatten ≠ [] := by
    intro h; rw [h] at hlen; simp at hlen; omega
  obtain ⟨med, hm, h1, -⟩ := C22_half ⟨[n, n], (List.ofFn fun i => List.ofFn (sqDist x i)).flatten⟩ hne
  refine ⟨med, hm, ?_⟩
  by_contra hlt
  have : (List.ofFn fun i => List.ofFn (sqDist x i)).flatten.countP (fun a => decide (a ≤ med)) = 0 := by
    rw [List.countP_eq_zero]
    intro b hb
    obtain ⟨l, hl, hbl⟩ := List.mem_flatten.1 hb
    obtain ⟨i, rfl⟩ := List.mem_ofFn.1 hl
    obtain ⟨j, rfl⟩ := List.mem_ofFn.1 hbl
    have := sqDist_nonneg x i j
    simp only [decide_eq_true_eq]
    linarith
  simp only [hlen, this] at h1
  omega

/-- The kernel for arbitrary positions, coinciding ones included. -/
theorem kernel_cases (hn : 0 < n) (x : Fin n → Fin d → ℝ) :
    ∃ med, median ⟨[n, n], (List.ofFn fun i => List.ofFn (sqDist x i)).flatten⟩ = .ok med
      ∧ svgdKernel x = .ok ⟨fun i j => kernelEntry (bandwidth n med) (sqDist x i j), fun i a => if med = 0 then .nan else
          .fin ((∑ j, rbf (med / 2 / Real.log (n + 1)) x i j * (x i a - x j a)) / (med / 2 / Real.log (n + 1)))⟩ := by
  obtain ⟨med, hm, h0⟩ := median_nonneg hn x
  have hmat : ∀ k, svgdKernel x = .ok k → k.matrix = fun i j => kernelEntry (bandwidth n med) (sqDist x i j) := by
    intro k hk
    simp only [svgdKernel, pairwise_eq hn, hm, bind, Except.bind, Except.ok.injEq] at hk
    subst hk
    funext i j
    simp only [Tensor.get, Tensor.validIdx, i.2, j.2, decide_true, Bool.and_self, if_true, Tensor.offset,
      List.prod_cons, List.prod_nil, Nat.mul_one, Nat.add_zero, flatten_getElem?, Option.getD_some]
  refine ⟨med, hm, ?_⟩
  rcases h0.eq_or_lt with rfl | hpos
  · obtain ⟨k, hk, -, hg⟩ := C41_degenerate hn x hm
    rw [hk]
    have := hmat k hk
    cases k with
    | mk m g =>
      simp only at this hg
      subst this
      simp only [if_true]
      congr 2
      funext i a; exact hg i a
  · have hk := kernel_closed hn x med hm hpos
    have := hmat _ hk
    rw [hk]
    simp only at this
    rw [this]
    simp only [hpos.ne', if_false]

/-- C45 (translation): kernel matrix and kernel gradients depend on the differences of the positions only. -/
theorem C45_translation (hn : 0 < n) (x : Fin n → Fin d → ℝ) (v : Fin d → ℝ) :
    svgdKernel (fun i a => x i a + v a) = svgdKernel x := by
  have hsq : sqDist (fun i a => x i a + v a) = sqDist x := by
    funext i j
    unfold sqDist
    exact Finset.sum_congr rfl fun a _ => by ring
  obtain ⟨m1, h1, k1⟩ := kernel_cases hn x
  obtain ⟨m2, h2, k2⟩ := kernel_cases hn fun i a => x i a + v a
  rw [hsq, h1] at h2
  obtain rfl : m1 = m2 := by simpa using h2
  rw [k1, k2]
  simp only [rbf, hsq]
  congr 2
  funext i a
  congr 3
  exact Finset.sum_congr rfl fun j _ => by ring

theorem median_perm (x : Fin n → Fin d → ℝ) (π : Equiv.Perm (Fin n)) :
    median ⟨[n, n], (List.ofFn fun i => List.ofFn (sqDist (fun i => x (π i)) i)).flatten⟩
      = median ⟨[n, n], (List.ofFn fun i => List.ofFn (sqDist x i)).flatten⟩ := by
  apply C22_order_independent
  have h1 : (List.ofFn fun i => List.ofFn (sqDist (fun i => x (π i)) i)).flatten.Perm
      (List.ofFn fun i => List.ofFn (sqDist x (π i))).flatten := by
    apply List.Perm.flatten_congr
    rw [List.forall₂_iff_get]
    refine ⟨by simp, fun i h1 h2 => ?_⟩
    simp only [List.get_ofFn]
    exact Equiv.Perm.ofFn_comp_perm π (sqDist x (π _))
  exact h1.trans (List.Perm.flatten (Equiv.Perm.ofFn_comp_perm π fun i => List.ofFn (sqDist x i)))

/-- C45 (relabelling): relabelling the particles relabels kernel matrix and kernel gradients. -/
theorem C45_relabel_kernel (hn : 0 < n) (x : Fin n → Fin d → ℝ) (π : Equiv.Perm (Fin n)) :
    ∃ k, svgdKernel x = .ok k
      ∧ svgdKernel (fun i => x (π i)) = .ok ⟨fun i j => k.matrix (π i) (π j), fun i a => k.grads (π i) a⟩ := by
  obtain ⟨m1, h1, k1⟩ := kernel_cases hn x
  obtain ⟨m2, h2, k2⟩ := kernel_cases hn fun i => x (π i)
  rw [median_perm, h1] at h2
  obtain rfl : m1 = m2 := by simpa using h2
  refine ⟨_, k1, ?_⟩
  rw [k2]
  congr 2
  funext i a
  congr 3
  exact Equiv.sum_comp π fun j => rbf (m1 / 2 / Real.log (n + 1)) x (π i) j * (x (π i) a - x j a)

theorem fl_add_comm (a b : Fl) : a + b = b + a := by
  cases a <;> cases b <;> first | rfl | (show Fl.fin _ = Fl.fin _; rw [add_comm])

theorem fl_add_right_comm (a b c : Fl) : a + b + c = a + c + b := by
  cases a <;> cases b <;> cases c <;> first | rfl | (show Fl.fin _ = Fl.fin _; rw [add_right_comm])

theorem sum_perm {l l' : List Fl} (h : l.Perm l') : Fl.sum l = Fl.sum l' := by
  unfold Fl.sum
  exact h.foldl_eq' (fun _ _ _ _ z => fl_add_right_comm z _ _) _

/-- A state with relabelled particles. -/
def State.relabel (π : Equiv.Perm (Fin n)) (s : State n d) : State n d :=
  { s with particles := fun i => s.particles (π i), hist := fun i => s.hist (π i) }

theorem gradTheta_relabel (inp : Inputs n d) (x : Fin n → Fin d → Fl) (hx : ∀ i a, (x i a).IsFin)
    (π : Equiv.Perm (Fin n)) (i : Fin n) (a : Fin d) :
    gradTheta inp (fun i => x (π i)) i a = gradTheta inp x (π i) a := by
  have hn : 0 < n := by have := i.2; omega
  obtain ⟨k, k1, k2⟩ := C45_relabel_kernel hn (fun i a => (x i a).val) π
  have e1 : kernelOf inp x = k := by unfold kernelOf; rw [if_pos hx, k1]
  have e2 : kernelOf inp (fun i => x (π i)) = ⟨fun i j => k.matrix (π i) (π j), fun i a => k.grads (π i) a⟩ := by
    unfold kernelOf; rw [if_pos fun i a => hx (π i) a, k2]
  simp only [gradTheta, e1, e2]
  have := sum_perm (Equiv.Perm.ofFn_comp_perm π fun j => k.matrix (π i) j * inp.grad (x j) a)
  simp only [Function.comp_def] at this
  rw [this]

/-- C45 (update): for finite positions and any gradients, relabelling the particles relabels the result of the step and
the costs. -/
theorem C45_relabel_step (inp : Inputs n d) (σ σ' : Schedule n) (s : State n d) (hx : ∀ i a, (s.particles i a).IsFin)
    (π : Equiv.Perm (Fin n)) :
    (run inp σ' (s.relabel π)).particles = (fun i => (run inp σ s).particles (π i))
    ∧ (run inp σ' (s.relabel π)).hist = (fun i => (run inp σ s).hist (π i))
    ∧ (run inp σ' (s.relabel π)).cost = (fun i => (run inp σ s).cost (π i)) := by
  obtain ⟨h1, h2, h3⟩ := run_eq inp σ s
  obtain ⟨g1, g2, g3⟩ := run_eq inp σ' (s.relabel π)
  have key : ∀ i a, gradTheta inp (s.relabel π).particles i a = gradTheta inp s.particles (π i) a :=
    gradTheta_relabel inp s.particles hx π
  have hh : ∀ i a, nextHist inp (s.relabel π) i a = nextHist inp s (π i) a := by
    intro i a; unfold nextHist; rw [key]; rfl
  rw [h1, h2, h3, g1, g2, g3]
  refine ⟨?_, ?_, rfl⟩
  · funext i a; unfold nextParticle; rw [key, hh]; rfl
  · funext i a; exact hh i a

/-! ## Non-vacuity -/

/-- Every node's dependencies come before it. -/
def Sorted (acc : List (Node n)) : List (Node n) → Prop
  | [] => True
  | x :: xs => (∀ y ∈ x.deps, y ∈ acc) ∧ Sorted (acc ++ [x]) xs

theorem Sorted.respects (acc l : List (Node n)) (h : Sorted acc l) (pre : List (Node n)) (x : Node n)
    (post : List (Node n)) (hl : l = pre ++ x :: post) : ∀ y ∈ x.deps, y ∈ acc ++ pre := by
  induction pre generalizing acc l with
  | nil => subst hl; simpa using h.1
  | cons z zs ih =>
    subst hl
    intro y hy
    have := ih (acc ++ [z]) _ h.2 rfl y hy
    simpa using this

theorem sorted_subs (l : List (Fin n)) (acc : List (Node n)) (h : Node.adj ∈ acc) : Sorted acc (l.map .sub) := by
  induction l generalizing acc with
  | nil => trivial
  | cons i l ih => exact ⟨by simpa [Node.deps] using h, ih _ (by simp [h])⟩

/-- An execution order for any number of particles. -/
def canonical (n : Nat) : Schedule n where
  order := [.stack, .grad, .xHist, .setHist, .adj, .cost] ++ (List.finRange n).map .sub
  nodup := by
    rw [List.nodup_append]
    refine ⟨by simp, (List.nodup_finRange n).map (fun a b h => by simpa using h), ?_⟩
    intro a ha b hb
    obtain ⟨i, -, rfl⟩ := List.mem_map.1 hb
    rintro rfl
    simp at ha
  complete := by
    intro x
    cases x <;> simp
  respects := by
    intro pre x post h
    have hs : Sorted [] ([.stack, .grad, .xHist, .setHist, .adj, .cost] ++ (List.finRange n).map .sub) := by
      refine ⟨by simp [Node.deps], by simp [Node.deps], by simp [Node.deps], by simp [Node.deps], by simp [Node.deps],
        by simp [Node.deps], sorted_subs _ _ (by simp)⟩
    simpa using hs.respects [] _ pre x post h

/-- Three particles in the plane, a quadratic cost. -/
noncomputable def quad : Inputs 3 2 :=
  { epsilon := .fin 0.1, alpha := .fin 0.9, fudge := .fin 1e-6, grad := fun x a => x a, cost := fun x => x 0,
    unspecified := fun _ => ⟨fun _ _ => .nan, fun _ _ => .nan⟩ }

/-- The corners `(0,0)`, `(1,0)`, `(2,0)`. -/
def three : Fin 3 → Fin 2 → ℝ := fun i a => if a = 0 then i else 0

theorem three_injective : Function.Injective three := by
  intro i j h
  have h0 := congrFun h 0
  simp only [three, if_true] at h0
  exact Fin.ext (by exact_mod_cast h0)

/-- C41's hypotheses. -/
example : 2 ≤ 3 ∧ Function.Injective three := ⟨by norm_num, three_injective⟩

/-- C43's hypotheses for the first step, which all schedules share. -/
example (i : Fin 3) (a : Fin 2) :
    ∃ x' H', (run quad (canonical 3) (.init fun i a => .fin (three i a))).particles i a = .fin x'
      ∧ (run quad (canonical 3) (.init fun i a => .fin (three i a))).hist i a = .fin H' ∧ 0 ≤ H'
      ∧ |x' - three i a| ≤ |0.1| / Real.sqrt (1 - 0.9) := by
  obtain ⟨h2, -, hg⟩ := gradTheta_fin (by norm_num) quad three three_injective three (fun _ _ => rfl)
  exact C43_step quad (canonical 3) _ i a 0.1 0.9 1e-6 (three i a) 0 rfl rfl rfl (by norm_num) (by norm_num) (by norm_num)
    rfl Fl.ofNat_zero le_rfl ⟨_, hg i a⟩

/-- C42: with flat cost the rightmost of the three particles moves left. -/
example : ∃ x', (run { quad with grad := fun _ _ => .fin 0 } (canonical 3) (.init fun i a => .fin (three i a))).particles 2 0
    = .fin x' ∧ x' < 2 := by
  obtain ⟨x', h, h1, -⟩ := C42_violated (by norm_num) { quad with grad := fun _ _ => .fin 0 } (canonical 3)
    (.init fun i a => .fin (three i a)) three (fun _ _ => 0) three_injective rfl (by funext i a; exact Fl.ofNat_zero)
    (fun _ _ => le_rfl) 0.1 0.9 1e-6 rfl rfl rfl (by norm_num) (by norm_num) (by norm_num) (by norm_num) (fun _ _ => rfl) 2 0
  refine ⟨x', h, ?_⟩
  have := h1 (fun j => by
    simp only [three, if_true]
    have : (j : ℝ) ≤ 2 := by exact_mod_cast Nat.lt_succ_iff.1 j.2
    simpa using this) ⟨0, by simp [three]⟩
  simpa [three] using this

/-- … and nothing moves in the second coordinate. -/
example : (run { quad with grad := fun _ _ => .fin 0 } (canonical 3) (.init fun i a => .fin (three i a))).particles 2 1
    = .fin 0 :=
  (C42_common_coordinate_partial (by norm_num) { quad with grad := fun _ _ => .fin 0 } (canonical 3)
    (.init fun i a => .fin (three i a)) three (fun _ _ => 0) three_injective rfl (by funext i a; exact Fl.ofNat_zero)
    (fun _ _ => le_rfl) 0.1 0.9 1e-6 rfl rfl rfl (by norm_num) (by norm_num) (by norm_num) (fun _ _ => rfl) 2 1
    (fun j => by simp [three])).trans (by simp [State.init, three])

/-- C44's positive case exists. -/
example : ∃ n d, [[2], [2], [2]] = List.replicate n [d] ∧ 2 ≤ n ∧ d ≠ 1 := ⟨3, 2, rfl, by norm_num, by norm_num⟩

end PySGMCMC.SVGD
