import Verif.Props.RoundedStats

/-!
# Whole runs of SGHMC and SGLD in floating point arithmetic (C115)
-/

namespace PySGMCMC.Rounded

open Format

variable {f : Format} (R : Rounding f)

/-! ## Auxiliary bounds -/

/-- A rounded number is at most twice as large, up to the smallest number. -/
theorem rnd_twice (hA : f.Adequate) {x X : ℝ} (hx : |x| ≤ X) (hX : X ≤ f.largest) :
    ∃ y, f.IsRep y ∧ R.rnd x = .fin y ∧ |x - y| ≤ f.u * |x| + f.tiny / 2 ∧ |y| ≤ 2 * X + f.tiny := by
  obtain ⟨y, h1, h2⟩ := near_of_le R (hx.trans hX)
  have h3 := R.error' h2
  refine ⟨y, h1, h2, h3, ?_⟩
  have h4 := abs_le_of_error h3
  have hu := hA.u_small
  have h5 : f.u * |x| ≤ 1 * |x| := mul_le_mul_of_nonneg_right (by linarith) (abs_nonneg _)
  have := tiny_pos (f := f)
  linarith

theorem tiny_le_one (hA : f.Adequate) : f.tiny ≤ 1 := by
  have h1 := tiny_le_u hA
  have h2 := hA.u_small
  have h0 : 0 < f.u := u_pos
  have h3 : f.u * (f.u * f.u) ≤ 1 := by
    have : f.u * f.u ≤ 1 := by nlinarith
    nlinarith
  have := tiny_pos (f := f)
  linarith

/-- The momentum after one step with all its roundings. -/
theorem mom_bound {u t md mom a s b c d mom' : ℝ} (hu0 : 0 < u) (hu : u ≤ 1 / 10000000) (ht : 0 < t)
    (hm0 : 0 ≤ md) (hm1 : md ≤ 1) (h1 : |md * mom - b| ≤ u * |md * mom| + t / 2)
    (h2 : |a - b - c| ≤ u * |a - b| + t / 2) (h3 : |c + s - d| ≤ u * |c + s| + t / 2)
    (h4 : |mom + d - mom'| ≤ u * |mom + d| + t / 2) :
    |mom'| ≤ (1 + 32 * u) * |mom| + 2 * (|a| + |s|) + 4 * t := by
  have hmm : |md * mom| ≤ |mom| := by
    rw [abs_mul, abs_of_nonneg hm0]
    exact mul_le_of_le_one_left (abs_nonneg _) hm1
  have hum : u * |md * mom| ≤ u * |mom| := mul_le_mul_of_nonneg_left hmm hu0.le
  have hM := abs_nonneg mom
  have hAa := abs_nonneg a
  have hS := abs_nonneg s
  have hsm : ∀ x : ℝ, 0 ≤ x → u * x ≤ 1 / 10000000 * x := fun x hx => mul_le_mul_of_nonneg_right hu hx
  have hb : |b| ≤ 2 * |mom| + t := by
    have := abs_le_of_error h1
    have := hsm |mom| hM
    linarith
  have hab : |a - b| ≤ |a| + |b| := abs_sub a b
  have hc : |c| ≤ 2 * |a| + 5 * |mom| + 4 * t := by
    have := abs_le_of_error h2
    have := hsm |a - b| (abs_nonneg _)
    linarith
  have hcs : |c + s| ≤ |c| + |s| := abs_add_le c s
  -- the total perturbation of the momentum
  have e : mom + d = (1 - md) * mom + (a + s) + ((md * mom - b) - (a - b - c) - (c + s - d)) := by ring
  have hp : |(1 - md) * mom| ≤ |mom| := by
    rw [abs_mul, abs_of_nonneg (by linarith)]
    exact mul_le_of_le_one_left hM (by linarith)
  have g1 : u * |a - b| ≤ u * (|a| + 2 * |mom| + t) := mul_le_mul_of_nonneg_left (by linarith) hu0.le
  have g2 : u * |c + s| ≤ u * (2 * |a| + 5 * |mom| + 4 * t + |s|) := mul_le_mul_of_nonneg_left (by linarith) hu0.le
  have hmd : |mom + d| ≤ (1 + 8 * u) * |mom| + (1 + 3 * u) * (|a| + |s|) + 2 * t := by
    rw [e]
    have t1 := abs_add_le ((1 - md) * mom + (a + s)) ((md * mom - b) - (a - b - c) - (c + s - d))
    have t2 := abs_add_le ((1 - md) * mom) (a + s)
    have t3 := abs_add_le a s
    have t4 := abs_sub ((md * mom - b) - (a - b - c)) (c + s - d)
    have t5 := abs_sub (md * mom - b) (a - b - c)
    have t6 : u * t ≤ 1 / 10000000 * t := hsm t ht.le
    have t7 : 0 ≤ u * |s| := by positivity
    linarith
  have h5 := abs_le_of_error h4
  have h6 : u * |mom + d| ≤ u * ((1 + 8 * u) * |mom| + (1 + 3 * u) * (|a| + |s|) + 2 * t) :=
    mul_le_mul_of_nonneg_left hmd hu0.le
  have h7 : u * (u * |mom|) ≤ 1 / 10000000 * (u * |mom|) := hsm _ (by positivity)
  have h8 : u * (u * (|a| + |s|)) ≤ 1 / 10000000 * (u * (|a| + |s|)) := hsm _ (by positivity)
  have h9 : u * (|a| + |s|) ≤ 1 / 10000000 * (|a| + |s|) := hsm _ (by positivity)
  have h10 : u * t ≤ 1 / 10000000 * t := hsm t ht.le
  have h11 : 0 ≤ u * |mom| := by positivity
  nlinarith

/-- `R.between` for powers of two. -/
theorem between_pow (hA : f.Adequate) {x : ℝ} {e : ℕ} (he : e ≤ 127) (h0 : 0 ≤ x) (h1 : x ≤ 2 ^ e) :
    ∃ y, R.rnd x = .fin y ∧ f.IsRep y ∧ 0 ≤ y ∧ y ≤ 2 ^ e :=
  R.between rep_zero (hA.rep_pow he) h0 h1

/-! ## SGHMC -/

/-- The scaled stepsize. -/
theorem epsilonScaled_rounded (hA : f.Adequate) {e s : ℝ} (he : f.IsRep e) (he0 : 0 ≤ e) (hs : f.IsRep s)
    (hs1 : 1 ≤ s) : ∃ es, epsilonScaled R.arith (.fin e) (.fin s) = .fin es ∧ 0 ≤ es ∧ es ≤ e := by
  have h1 : 1 ≤ Real.sqrt s := Real.one_le_sqrt.mpr hs1
  have h2 : Real.sqrt s ≤ s := by
    rw [Real.sqrt_le_left (by linarith)]
    nlinarith
  obtain ⟨q, hq, -, hq1, -⟩ := R.between hA.unit.one hs h1 h2
  have hq0 : 0 < q := by linarith
  obtain ⟨es, hes, -, h3, h4⟩ := R.between rep_zero he (x := e / q) (by positivity) (div_le_self he0 hq1)
  refine ⟨es, ?_, h3, h4⟩
  unfold epsilonScaled
  rw [Arith.sqrt_fin _ (by linarith), R.arith_rnd, hq, Arith.div_fin _ hq0.ne', R.arith_rnd, hes]

/-- **C115 (noise of SGHMC).**  The standard deviation of the injected noise is a positive number: at least
`2 ^ -27` and at most `2 ^ 28`. -/
theorem C115_sghmc_sigma (hA : f.Adequate) {es md m : ℝ} (he0 : 0 ≤ es) (he1 : es ≤ 1) (hd0 : 0 ≤ md) (hd1 : md ≤ 1)
    (hm0 : 0 ≤ m) (hm1 : m ≤ 2 ^ 54) :
    ∃ s, sghmcSigma R.arith (.fin es) (.fin md) (.fin m) = .fin s ∧ f.IsRep s ∧ 1 / 2 ^ 27 ≤ s ∧ s ≤ 2 ^ 28 := by
  obtain ⟨c, hc, hcr, hcl, hch⟩ := lit_default R hA
  have hpow : ∀ n : ℕ, ∃ p, R.rnd (es ^ n) = .fin p ∧ f.IsRep p ∧ 0 ≤ p ∧ p ≤ 1 := fun n =>
    R.between rep_zero hA.unit.one (by positivity) (pow_le_one₀ he0 he1)
  obtain ⟨p2, hp2, -, p20, p21⟩ := hpow 2
  obtain ⟨p3, hp3, -, p30, p31⟩ := hpow 3
  obtain ⟨p4, hp4, p4r, p40, p41⟩ := hpow 4
  have h2 := hA.unit.two
  -- the first term
  obtain ⟨a1, ha1, -, a10, a11⟩ := R.between rep_zero h2 (x := 2 * p2) (by linarith) (by linarith)
  obtain ⟨a2, ha2, -, a20, a21⟩ := R.between rep_zero h2 (x := a1 * md) (by positivity) (by nlinarith)
  obtain ⟨a3, ha3, a3r, a30, a31⟩ := between_pow R hA (e := 55) (by norm_num) (x := a2 * m) (by positivity) (by
    calc a2 * m ≤ 2 * 2 ^ 54 := mul_le_mul a21 hm1 hm0 (by norm_num)
      _ = 2 ^ 55 := by norm_num)
  -- the second term is zero
  obtain ⟨b1, hb1, -, b10, b11⟩ := R.between rep_zero h2 (x := 2 * p3) (by linarith) (by linarith)
  obtain ⟨b2, hb2, -, b20, b21⟩ := between_pow R hA (e := 108) (by norm_num) (x := m ^ 2) (by positivity) (by
    calc m ^ 2 ≤ (2 ^ 54) ^ 2 := pow_le_pow_left₀ hm0 hm1 2
      _ = 2 ^ 108 := by norm_num)
  obtain ⟨b3, hb3, -⟩ := between_pow R hA (e := 109) (by norm_num) (x := b1 * b2) (by positivity) (by
    calc b1 * b2 ≤ 2 * 2 ^ 108 := mul_le_mul b11 b21 b20 (by norm_num)
      _ = 2 ^ 109 := by norm_num)
  -- the difference
  obtain ⟨n, hn, hnr, -, hn1⟩ := R.between hA.unit.one.neg (hA.rep_pow (e := 55) (by norm_num)) (x := a3 - p4)
    (by linarith) (by linarith)
  have hns : noiseScale R.arith (.fin es) (.fin md) (.fin m) = .fin n := by
    unfold noiseScale
    simp only [R.arith_lit, R.exact h2, R.rnd_zero, Arith.pow_fin, R.arith_rnd, hp2, hp3, hp4, Arith.mul_fin, ha1, ha2,
      ha3, hb1, hb2, hb3, mul_zero, Arith.sub_fin, sub_zero, R.exact a3r, hn]
  have hmax1 : 1 / 2 ^ 54 ≤ max n c := hcl.trans (le_max_right _ _)
  have hmax2 : max n c ≤ 2 ^ 55 := max_le hn1 (hch.trans (by norm_num))
  have hr27 : f.IsRep (1 / 2 ^ 27) := by
    have := rep_two_pow (f := f) (e := -27) (by have := hA.emin_le; omega) (by have := hA.range; omega)
    norm_num at this ⊢
    exact this
  obtain ⟨s, hs, hsr, hs1, hs2⟩ := R.between hr27 (hA.rep_pow (e := 28) (by norm_num)) (x := Real.sqrt (max n c))
    (by
      apply Real.le_sqrt_of_sq_le
      refine le_trans (by norm_num) hmax1)
    (by
      rw [Real.sqrt_le_left (by positivity)]
      exact hmax2.trans (by norm_num))
  refine ⟨s, ?_, hsr, hs1, hs2⟩
  unfold sghmcSigma
  rw [hns, hc, Fl.max_fin, Arith.sqrt_fin _ (le_trans (by positivity) hmax1), R.arith_rnd, hs]

/-- The momentum and the position after one run. -/
theorem mom_step (hA : f.Adequate) {e md m h mom s : ℝ} (he0 : 0 ≤ e) (he1 : e ≤ 1) (hd0 : 0 ≤ md) (hd1 : md ≤ 1)
    (hm0 : 0 ≤ m) (hm1 : m ≤ 2 ^ 54) {G S L : ℝ} (hG : |h| ≤ G) (hG1 : 1 ≤ G) (hS : |s| ≤ S) (hmom : |mom| ≤ L)
    (hroom : 16 * (L + 2 ^ 56 * G + S) ≤ f.largest) :
    ∃ mom', R.arith.add (.fin mom) (sghmcMom R.arith (.fin e) (.fin md) (.fin m) (.fin h) (.fin mom) (.fin s)) =
        .fin mom' ∧ f.IsRep mom' ∧ |mom'| ≤ (1 + 32 * f.u) * L + 2 * (2 ^ 56 * G + S) := by
  have ht := tiny_pos (f := f)
  have ht1 := tiny_le_one hA
  have hu0 : 0 < f.u := u_pos
  have hu := hA.u_small
  have hL0 : 0 ≤ L := (abs_nonneg _).trans hmom
  have hS0 : 0 ≤ S := (abs_nonneg _).trans hS
  obtain ⟨p2, hp2, -, p20, p21⟩ := R.between rep_zero hA.unit.one (x := e ^ 2) (by positivity) (pow_le_one₀ he0 he1)
  obtain ⟨q, hq, -, q0, q1⟩ := between_pow R hA (e := 54) (by norm_num) (x := p2 * m) (by positivity) (by
    calc p2 * m ≤ 1 * 2 ^ 54 := mul_le_mul p21 hm1 hm0 (by norm_num)
      _ = 2 ^ 54 := by norm_num)
  have hqn : R.rnd (-p2 * m) = .fin (-q) := by rw [neg_mul, R.odd, hq]; rfl
  obtain ⟨a, har, ha, -, hab⟩ := rnd_twice R hA (x := -q * h) (X := 2 ^ 54 * G) (by
    rw [abs_mul, abs_neg, abs_of_nonneg q0]
    exact mul_le_mul q1 hG (abs_nonneg _) (by norm_num)) (by linarith)
  have hmm : |md * mom| ≤ L := by
    rw [abs_mul, abs_of_nonneg hd0]
    exact (mul_le_of_le_one_left (abs_nonneg _) hd1).trans hmom
  obtain ⟨b, hbr, hb, hb1, hbb⟩ := rnd_twice R hA hmm (by linarith)
  have hab2 : |a - b| ≤ 2 ^ 55 * G + 2 * L + 2 * f.tiny := (abs_sub a b).trans (by linarith)
  obtain ⟨c, hcr, hc, hc1, hcb⟩ := rnd_twice R hA hab2 (by linarith)
  have hcs : |c + s| ≤ 2 ^ 56 * G + 4 * L + 5 * f.tiny + S := (abs_add_le c s).trans (by linarith)
  obtain ⟨d, hdr, hd, hd1', hdb⟩ := rnd_twice R hA hcs (by linarith)
  have hmd : |mom + d| ≤ L + (2 * (2 ^ 56 * G + 4 * L + 5 * f.tiny + S) + f.tiny) :=
    (abs_add_le mom d).trans (by linarith)
  obtain ⟨mom', hr', h', h1', -⟩ := rnd_twice R hA hmd (by linarith)
  refine ⟨mom', ?_, hr', ?_⟩
  · unfold sghmcMom
    simp only [Arith.pow_fin, R.arith_rnd, hp2, Fl.neg_fin, Arith.mul_fin, hqn, ha, hb, Arith.sub_fin, hc, Arith.add_fin,
      hd, h']
  · have key := mom_bound hu0 hu ht hd0 hd1 hb1 hc1 hd1' h1'
    have h3 : (1 + 32 * f.u) * |mom| ≤ (1 + 32 * f.u) * L := mul_le_mul_of_nonneg_left hmom (by linarith)
    linarith

/-- Inputs of a session run that are numbers of moderate size: a stepsize in `[0, 1]`, a gradient of size at most `G`,
a normal draw of size at most `Z`, and after burn-in a frozen inverse mass of the size burn-in produces. -/
structure StepIn.Moderate (f : Format) (G Z : ℝ) (x : StepIn) : Prop where
  epsilon : ∃ e, x.epsilon = .fin e ∧ f.IsRep e ∧ 0 ≤ e ∧ e ≤ 1
  grad : ∃ h, x.grad = .fin h ∧ |h| ≤ G
  normal : ∃ z, x.normal = .fin z ∧ |z| ≤ Z
  fed : x.fed = none ∨ ∃ m, x.fed = some (.fin m) ∧ 0 < m ∧ m ≤ 2 ^ 54

/-- The gradients of moderate inputs are a list of numbers. -/
theorem moderate_grads {G Z : ℝ} (xs : List StepIn) (h : ∀ x ∈ xs, x.Moderate f G Z) :
    ∃ hs : List ℝ, xs.map StepIn.grad = hs.map .fin ∧ hs.length = xs.length ∧ ∀ g ∈ hs, |g| ≤ G := by
  induction xs with
  | nil => exact ⟨[], rfl, rfl, by simp⟩
  | cons x xs ih =>
    obtain ⟨hs, h1, h2, h3⟩ := ih fun y hy => h y (by simp [hy])
    obtain ⟨g, hg, hgG⟩ := (h x (by simp)).grad
    refine ⟨g :: hs, by simp [hg, h1], by simp [h2], ?_⟩
    intro y hy
    rcases List.mem_cons.mp hy with rfl | hy
    · exact hgG
    · exact h3 y hy

theorem sghmc_stats (A : Arith) (sc md th : Fl) (xs : List StepIn) :
    (Sghmc.run A sc md th xs).stats = Stats.after A (xs.map StepIn.grad) := by
  induction xs using List.reverseRecOn with
  | nil => rfl
  | append_singleton xs x ih =>
    unfold Sghmc.run Stats.after at ih ⊢
    rw [List.map_append, List.foldl_append, List.foldl_append, ← ih]
    rfl

/-- The statistics during a run with moderate inputs. -/
theorem moderate_stats (hA : f.Adequate) {G Z : ℝ} (hG1 : 1 ≤ G) (hG : G ^ 2 ≤ f.u * f.largest) (xs : List StepIn)
    (hx : ∀ x ∈ xs, x.Moderate f G Z) (hk : 64 * (((xs.length : ℝ) + 2) * f.u) ≤ 1) :
    ∃ tau g v m, Stats.after R.arith (xs.map StepIn.grad) = ⟨.fin tau, .fin g, .fin v, .fin m⟩ ∧
      3 / 4 ≤ tau ∧ 0 ≤ v ∧ 0 < m ∧ m ≤ 2 ^ 54 := by
  obtain ⟨hs, h1, h2, h3⟩ := moderate_grads xs hx
  obtain ⟨tau, g, v, m, h, h4, -, h5, -, -, h6, h7⟩ := C114_statistics R hA (M := G ^ 2) (one_le_pow₀ hG1) hG hs
    (fun x hx' => by
      rw [← sq_abs]
      exact pow_le_pow_left₀ (abs_nonneg _) (h3 x hx') 2) (by rw [h2]; exact hk)
  exact ⟨tau, g, v, m, by rw [h1, h], h4, h5, h6, h7⟩

/-- The inverse mass that a run uses. -/
theorem moderate_mass {G Z : ℝ} {x : StepIn} (hx : x.Moderate f G Z) {m : ℝ} (hm0 : 0 < m) (hm1 : m ≤ 2 ^ 54) :
    ∃ m', x.fed.getD (.fin m) = .fin m' ∧ 0 < m' ∧ m' ≤ 2 ^ 54 := by
  rcases hx.fed with h | ⟨m', h, h0, h1⟩
  · exact ⟨m, by rw [h]; rfl, hm0, hm1⟩
  · exact ⟨m', by rw [h]; rfl, h0, h1⟩

/-- Growth of the bound of the momentum. -/
theorem mom_growth {P q L G S C k : ℝ} (hP1 : 1 ≤ P) (hP : 1 ≤ q) (hL : L = P * (k * C)) (hC : 2 * (2 ^ 56 * G + S) ≤ C)
    (hC0 : 0 ≤ C) :
    q * L + 2 * (2 ^ 56 * G + S) ≤ P * q * ((k + 1) * C) := by
  have h1 : 1 ≤ P * q := by nlinarith
  have h2 : C ≤ P * q * C := le_mul_of_one_le_left hC0 h1
  rw [hL]
  linarith [show q * (P * (k * C)) + P * q * C = P * q * ((k + 1) * C) by ring]

set_option maxHeartbeats 1000000 in
/-- **C115 (SGHMC in floating point).**  In `float32`, `float64` and every other adequate format: a run whose inputs
are moderate never produces an infinity or NaN.  After every step the statistics, the momentum and the parameter are
numbers, and the parameter has moved at most quadratically in the number of steps. -/
theorem C115_sghmc (hA : f.Adequate) {sc md th G Z : ℝ} (hsr : f.IsRep sc) (hs1 : 1 ≤ sc) (hd0 : 0 ≤ md) (hd1 : md ≤ 1)
    (htr : f.IsRep th) (hG1 : 1 ≤ G) (hG : G ^ 2 ≤ f.u * f.largest) (hZ : 0 ≤ Z) (xs : List StepIn)
    (hx : ∀ x ∈ xs, x.Moderate f G Z) (hk : 64 * (((xs.length : ℝ) + 2) * f.u) ≤ 1)
    (hroom : 64 * (|th| + 2 ^ 58 * (((xs.length : ℝ) + 1) ^ 2 * (G + Z))) ≤ f.largest) :
    ∃ tau g v m mom theta, Sghmc.run R.arith (.fin sc) (.fin md) (.fin th) xs =
        ⟨⟨.fin tau, .fin g, .fin v, .fin m⟩, .fin mom, .fin theta⟩ ∧
      |mom| ≤ 2 ^ 59 * (xs.length * (G + Z)) ∧ |theta| ≤ 2 * |th| + 2 ^ 60 * ((xs.length : ℝ) ^ 2 * (G + Z)) := by
  have hu0 : 0 < f.u := u_pos
  have hu := hA.u_small
  have ht1 := tiny_le_one hA
  have ht := tiny_pos (f := f)
  set C : ℝ := 2 ^ 58 * (G + Z) with hC
  have hC0 : 0 ≤ C := by positivity
  -- the invariant
  suffices h : ∃ tau g v m mom theta, Sghmc.run R.arith (.fin sc) (.fin md) (.fin th) xs =
        ⟨⟨.fin tau, .fin g, .fin v, .fin m⟩, .fin mom, .fin theta⟩ ∧ f.IsRep mom ∧ f.IsRep theta ∧
      |mom| ≤ (1 + 32 * f.u) ^ xs.length * (xs.length * C) ∧
      |theta| ≤ (1 + 32 * f.u) ^ xs.length * (|th| + 2 * ((xs.length : ℝ) ^ 2 * C)) by
    obtain ⟨tau, g, v, m, mom, theta, h1, -, -, h2, h3⟩ := h
    have hP2 : (1 + 32 * f.u) ^ xs.length ≤ 2 := growth_le_two hu0 hu (by nlinarith)
    refine ⟨tau, g, v, m, mom, theta, h1, h2.trans ?_, h3.trans ?_⟩
    · refine (mul_le_mul_of_nonneg_right hP2 (by positivity)).trans (le_of_eq ?_)
      rw [hC]
      ring
    · refine (mul_le_mul_of_nonneg_right hP2 (by positivity)).trans (le_of_eq ?_)
      rw [hC]
      ring
  induction xs using List.reverseRecOn with
  | nil =>
    obtain ⟨h1, -⟩ := stats_init R hA (M := 1) (c := 1) le_rfl one_pos
    refine ⟨1, 1, 1, 1, 0, th, ?_, rep_zero, htr, by simp, by simp⟩
    unfold Sghmc.run Sghmc.init
    rw [List.foldl_nil, h1, R.arith_lit, R.rnd_zero]
  | append_singleton xs x ih =>
    have hk0 : (0 : ℝ) ≤ xs.length := Nat.cast_nonneg _
    have hkx := hk
    rw [List.length_append] at hk hroom
    push_cast at hk hroom
    simp only [List.length_cons, List.length_nil, Nat.cast_one, zero_add] at hk hroom
    set k : ℝ := (xs.length : ℝ) with hkdef
    have hGZ : 0 ≤ G + Z := by linarith
    have hmono : (k + 1) ^ 2 * (G + Z) ≤ (k + 1 + 1) ^ 2 * (G + Z) :=
      mul_le_mul_of_nonneg_right (by nlinarith) hGZ
    obtain ⟨tau, g, v, m, mom, theta, he, hmr, htr', hmb, htb⟩ :=
      ih (fun y hy => hx y (by simp [hy])) (by nlinarith) (by linarith)
    have hxm := hx x (by simp)
    obtain ⟨e, hee, her, he0, he1⟩ := hxm.epsilon
    obtain ⟨h, hhe, hhG⟩ := hxm.grad
    obtain ⟨z, hze, hzZ⟩ := hxm.normal
    -- statistics
    obtain ⟨tau', g', v', m', hst, -, -, hm0, hm1⟩ := moderate_stats R hA hG1 hG (xs ++ [x]) hx hkx
    have hstats : Stats.step R.arith ⟨.fin tau, .fin g, .fin v, .fin m⟩ x.grad =
        ⟨.fin tau', .fin g', .fin v', .fin m'⟩ := by
      have h1 := sghmc_stats R.arith (.fin sc) (.fin md) (.fin th) xs
      rw [he] at h1
      rw [← hst, List.map_append, Stats.after, List.foldl_append]
      show _ = Stats.step R.arith (Stats.after R.arith (xs.map StepIn.grad)) x.grad
      rw [← h1]
    obtain ⟨mu, hmu, hmu0, hmu1⟩ := moderate_mass hxm hm0 hm1
    -- noise
    obtain ⟨es, hes, hes0, hes1⟩ := epsilonScaled_rounded R hA her he0 hsr hs1
    obtain ⟨sg, hsg, -, hsg0, hsg1⟩ := C115_sghmc_sigma R hA hes0 (hes1.trans he1) hd0 hd1 hmu0.le hmu1
    have hP2 : (1 + 32 * f.u) ^ xs.length ≤ 2 := growth_le_two hu0 hu (by nlinarith)
    have hP1 : 1 ≤ (1 + 32 * f.u) ^ xs.length := one_le_pow₀ (by linarith)
    have hP2' : (1 + 32 * f.u) ^ (xs.length + 1) ≤ 2 := growth_le_two hu0 hu (by push_cast; nlinarith)
    set P := (1 + 32 * f.u) ^ xs.length with hPdef
    have hq : |sg * z| ≤ 2 ^ 28 * Z := by
      rw [abs_mul, abs_of_nonneg (le_trans (by positivity) hsg0)]
      exact mul_le_mul hsg1 hzZ (abs_nonneg _) (by norm_num)
    have hkk : 1 ≤ (k + 1 + 1) ^ 2 := by nlinarith
    have hbig : G + Z ≤ (k + 1 + 1) ^ 2 * (G + Z) := le_mul_of_one_le_left hGZ hkk
    have hth := abs_nonneg th
    obtain ⟨s, -, hs, -, hsb⟩ := rnd_twice R hA hq (by linarith)
    -- momentum
    have hL : P * (k * C) ≤ 2 * (k * C) := mul_le_mul_of_nonneg_right hP2 (by positivity)
    have hkC : k * C ≤ 2 ^ 58 * ((k + 1 + 1) ^ 2 * (G + Z)) / 4 := by
      have h1 : k * (G + Z) * 4 ≤ (k + 1 + 1) ^ 2 * (G + Z) := by
        have : k * 4 ≤ (k + 1 + 1) ^ 2 := by nlinarith
        have := mul_le_mul_of_nonneg_right this hGZ
        linarith
      rw [hC]
      linarith
    obtain ⟨mom', hmom', hmr', hmb'⟩ := mom_step R hA he0 he1 hd0 hd1 hmu0.le hmu1 hhG hG1 hsb hmb (by
      have h4 : (4 : ℝ) * (G + Z) ≤ (k + 1 + 1) ^ 2 * (G + Z) := mul_le_mul_of_nonneg_right (by nlinarith) hGZ
      linarith)
    have hgrow := mom_growth (P := P) (q := 1 + 32 * f.u) (G := G) (S := 2 * (2 ^ 28 * Z) + f.tiny) (C := C) (k := k)
      hP1 (by linarith) rfl (by rw [hC]; linarith) hC0
    have hmb2 : |mom'| ≤ P * (1 + 32 * f.u) * ((k + 1) * C) := hmb'.trans hgrow
    -- position
    have hPq : P * (1 + 32 * f.u) ≤ 2 := by
      rw [hPdef, ← pow_succ]
      exact hP2'
    have hPq0 : 0 ≤ P * (1 + 32 * f.u) := by nlinarith
    have hsumb : |theta + mom'| ≤ 2 * (|th| + 2 * (k ^ 2 * C)) + 2 * ((k + 1) * C) := by
      refine (abs_add_le _ _).trans (add_le_add ?_ ?_)
      · exact htb.trans (mul_le_mul_of_nonneg_right hP2 (by positivity))
      · exact hmb2.trans (mul_le_mul_of_nonneg_right hPq (by positivity))
    obtain ⟨theta', htr2, hte⟩ := near_of_le R (x := theta + mom') (hsumb.trans (by
      have h4 : 4 * (k ^ 2 * C) + 2 * ((k + 1) * C) ≤ 4 * (2 ^ 58 * ((k + 1 + 1) ^ 2 * (G + Z))) := by
        have : 4 * k ^ 2 + 2 * (k + 1) ≤ 4 * (k + 1 + 1) ^ 2 := by nlinarith
        have := mul_le_mul_of_nonneg_right this hC0
        rw [hC] at this ⊢
        linarith
      have h5 : 0 ≤ 2 ^ 58 * ((k + 1 + 1) ^ 2 * (G + Z)) := by positivity
      linarith))
    have hterr := R.error_add htr' hmr' hte
    have hthb : |theta'| ≤ (1 + f.u) * |theta + mom'| := by
      have := abs_le_of_error hterr
      linarith
    refine ⟨tau', g', v', m', mom', theta', ?_, hmr', htr2, ?_, ?_⟩
    · unfold Sghmc.run at he ⊢
      rw [List.foldl_append, he, List.foldl_cons, List.foldl_nil]
      unfold Sghmc.step
      rw [hhe] at hstats
      simp only [hhe, hstats, hmu, hee, hes, hsg, hze, Arith.mul_fin, R.arith_rnd, hs, hmom', Arith.add_fin, hte]
    · rw [List.length_append, List.length_singleton, pow_succ]
      push_cast
      exact hmb2
    · rw [List.length_append, List.length_singleton, pow_succ]
      push_cast
      refine hthb.trans ?_
      have h1 : |theta + mom'| ≤ P * (|th| + 2 * (k ^ 2 * C)) + P * (1 + 32 * f.u) * ((k + 1) * C) :=
        (abs_add_le _ _).trans (add_le_add htb hmb2)
      have h2 : (1 + f.u) * |theta + mom'| ≤
          (1 + f.u) * (P * (|th| + 2 * (k ^ 2 * C)) + P * (1 + 32 * f.u) * ((k + 1) * C)) :=
        mul_le_mul_of_nonneg_left h1 (by linarith)
      refine h2.trans ?_
      have h3 : (1 + f.u) * (P * (|th| + 2 * (k ^ 2 * C))) ≤ P * (1 + 32 * f.u) * (|th| + 2 * (k ^ 2 * C)) := by
        have h4 : 0 ≤ P * (|th| + 2 * (k ^ 2 * C)) := by positivity
        have h5 : (1 + f.u) * (P * (|th| + 2 * (k ^ 2 * C))) ≤ (1 + 32 * f.u) * (P * (|th| + 2 * (k ^ 2 * C))) :=
          mul_le_mul_of_nonneg_right (by linarith) h4
        linarith
      have h6 : (1 + f.u) * (P * (1 + 32 * f.u) * ((k + 1) * C)) ≤ 2 * (P * (1 + 32 * f.u) * ((k + 1) * C)) :=
        mul_le_mul_of_nonneg_right (by linarith) (by positivity)
      have h7 : 0 ≤ P * (1 + 32 * f.u) * (k * C) := by positivity
      have h8 : P * (1 + 32 * f.u) * (|th| + 2 * ((k + 1) ^ 2 * C)) =
          P * (1 + 32 * f.u) * (|th| + 2 * (k ^ 2 * C)) + 2 * (P * (1 + 32 * f.u) * ((k + 1) * C)) +
            2 * (P * (1 + 32 * f.u) * (k * C)) := by ring
      linarith

/-! ## SGLD -/

/-- **C115 (noise of SGLD).**  The standard deviation of the injected noise is a number between 0 and `2 ^ 28`. -/
theorem C115_sgld_sigma (hA : f.Adequate) {e a sc m : ℝ} (he0 : 0 ≤ e) (he1 : e ≤ 1) (har : f.IsRep a) (ha0 : 0 ≤ a)
    (ha1 : a ≤ 1) (hsr : f.IsRep sc) (hs1 : 1 ≤ sc) (hm0 : 0 ≤ m) (hm1 : m ≤ 2 ^ 54) :
    ∃ s, sgldSigma R.arith (.fin e) (.fin a) (.fin sc) (.fin m) = .fin s ∧ f.IsRep s ∧ 0 ≤ s ∧ s ≤ 2 ^ 28 := by
  obtain ⟨c, hc, hcr, hcl, hch⟩ := lit_default R hA
  have hc0 : 0 < c := lt_of_lt_of_le (by positivity) hcl
  have hcd : c ≤ 1 / 1000 := hch.trans (by norm_num)
  have hL := one_le_largest hA
  have h2 := hA.unit.two
  obtain ⟨n, hn, hnr, hn0, hn1⟩ := between_pow R hA (e := 54) (by norm_num) (x := m * a) (by positivity)
    ((mul_le_of_le_one_right hm0 ha1).trans hm1)
  have hq : ∃ q, safeDivide' R.arith (.fin n) (.fin sc) = .fin q ∧ f.IsRep q ∧ 0 ≤ q ∧ q ≤ 2 ^ 54 := by
    unfold safeDivide' safeDivide
    rw [hc]
    rcases safeDivide_den R hA.unit hsr hcr hc0 (by linarith) with ⟨_, h | ⟨d, h, -, -, h1⟩⟩ | ⟨h, -⟩
    · refine ⟨0, ?_, rep_zero, le_rfl, by positivity⟩
      rw [h]
      show R.rnd 0 = .fin 0
      exact R.rnd_zero
    · have hd1 : 1 ≤ d := hs1.trans h1
      have hd0 : 0 < d := by linarith
      obtain ⟨q, hq, hqr, hq0, hq1⟩ := between_pow R hA (e := 54) (by norm_num) (x := n / d) (by positivity)
        ((div_le_self hn0 hd1).trans hn1)
      refine ⟨q, ?_, hqr, hq0, hq1⟩
      rw [h, Arith.div_fin _ hd0.ne', R.arith_rnd, hq]
    · linarith
  obtain ⟨q, hq, -, hq0, hq1⟩ := hq
  obtain ⟨w, hw, -, hw0, hw1⟩ := R.between rep_zero h2 (x := 2 * e) (by linarith) (by linarith)
  obtain ⟨p, hp, hpr, hp0, hp1⟩ := between_pow R hA (e := 55) (by norm_num) (x := w * q) (by positivity) (by
    calc w * q ≤ 2 * 2 ^ 54 := mul_le_mul hw1 hq1 hq0 (by norm_num)
      _ = 2 ^ 55 := by norm_num)
  obtain ⟨s, hs, hsr', hs0, hs1'⟩ := between_pow R hA (e := 28) (by norm_num) (x := Real.sqrt p) (Real.sqrt_nonneg _) (by
    rw [Real.sqrt_le_left (by positivity)]
    exact hp1.trans (by norm_num))
  refine ⟨s, ?_, hsr', hs0, hs1'⟩
  unfold sgldSigma safeSqrt
  have hmm : Fl.max (Fl.min (.fin p) .pinf) (.fin 0) = .fin p := by
    show Fl.fin (max p 0) = .fin p
    rw [max_eq_left hp0]
  simp only [R.arith_lit, R.exact h2, R.rnd_zero, Arith.sub_fin, sub_zero, R.arith_rnd, R.exact har, Arith.mul_fin, hn,
    hq, hw, hp, hmm]
  rw [Arith.sqrt_fin _ hp0, R.arith_rnd, hs]

theorem sgld_stats (A : Arith) (a sc th : Fl) (xs : List StepIn) :
    (Sgld.run A a sc th xs).stats = Stats.after A (xs.map StepIn.grad) := by
  induction xs using List.reverseRecOn with
  | nil => rfl
  | append_singleton xs x ih =>
    unfold Sgld.run Stats.after at ih ⊢
    rw [List.map_append, List.foldl_append, List.foldl_append, ← ih]
    rfl

/-- The increment of the parameter. -/
theorem vec_step (hA : f.Adequate) {e a m h s : ℝ} (he0 : 0 ≤ e) (he1 : e ≤ 1) (ha0 : 0 ≤ a) (ha1 : a ≤ 1)
    (hm0 : 0 ≤ m) (hm1 : m ≤ 2 ^ 54) {G S : ℝ} (hG : |h| ≤ G) (hG1 : 1 ≤ G) (hS : |s| ≤ S)
    (hroom : 2 ^ 56 * G + S ≤ f.largest) :
    ∃ d, sgldVec R.arith (.fin e) (.fin a) (.fin m) (.fin h) (.fin s) = .fin d ∧ f.IsRep d ∧
      |d| ≤ 2 * (2 ^ 56 * G + S) := by
  have ht := tiny_pos (f := f)
  have ht1 := tiny_le_one hA
  have hS0 : 0 ≤ S := (abs_nonneg _).trans hS
  obtain ⟨p, hp, -, p0, p1⟩ := between_pow R hA (e := 54) (by norm_num) (x := e * m) (by positivity)
    ((mul_le_of_le_one_left hm0 he1).trans hm1)
  have hpn : R.rnd (-e * m) = .fin (-p) := by rw [neg_mul, R.odd, hp]; rfl
  obtain ⟨q, hq, -, q0, q1⟩ := between_pow R hA (e := 54) (by norm_num) (x := p * a) (by positivity)
    ((mul_le_of_le_one_right p0 ha1).trans p1)
  have hqn : R.rnd (-p * a) = .fin (-q) := by rw [neg_mul, R.odd, hq]; rfl
  obtain ⟨b, -, hb, -, hbb⟩ := rnd_twice R hA (x := -q * h) (X := 2 ^ 54 * G) (by
    rw [abs_mul, abs_neg, abs_of_nonneg q0]
    exact mul_le_mul q1 hG (abs_nonneg _) (by norm_num)) (by linarith)
  have hbs : |b + s| ≤ 2 ^ 55 * G + f.tiny + S := (abs_add_le b s).trans (by linarith)
  obtain ⟨d, hdr, hd, -, hdb⟩ := rnd_twice R hA hbs (by linarith)
  refine ⟨d, ?_, hdr, by linarith⟩
  unfold sgldVec
  simp only [Fl.neg_fin, Arith.mul_fin, R.arith_rnd, hpn, hqn, hb, Arith.add_fin, hd]

set_option maxHeartbeats 1000000 in
/-- **C115 (SGLD in floating point).**  In `float32`, `float64` and every other adequate format: a run whose inputs
are moderate never produces an infinity or NaN, and the parameter moves at most linearly in the number of steps. -/
theorem C115_sgld (hA : f.Adequate) {a sc th G Z : ℝ} (har : f.IsRep a) (ha0 : 0 ≤ a) (ha1 : a ≤ 1)
    (hsr : f.IsRep sc) (hs1 : 1 ≤ sc) (htr : f.IsRep th) (hG1 : 1 ≤ G) (hG : G ^ 2 ≤ f.u * f.largest) (hZ : 0 ≤ Z)
    (xs : List StepIn) (hx : ∀ x ∈ xs, x.Moderate f G Z) (hk : 64 * (((xs.length : ℝ) + 2) * f.u) ≤ 1)
    (hroom : 8 * (|th| + 2 ^ 58 * (((xs.length : ℝ) + 1) * (G + Z))) ≤ f.largest) :
    ∃ tau g v m theta, Sgld.run R.arith (.fin a) (.fin sc) (.fin th) xs =
        ⟨⟨.fin tau, .fin g, .fin v, .fin m⟩, .fin theta⟩ ∧
      |theta| ≤ 2 * |th| + 2 ^ 60 * (xs.length * (G + Z)) := by
  have hu0 : 0 < f.u := u_pos
  have hu := hA.u_small
  have ht1 := tiny_le_one hA
  have ht := tiny_pos (f := f)
  set C : ℝ := 2 ^ 58 * (G + Z) with hC
  have hC0 : 0 ≤ C := by positivity
  suffices h : ∃ tau g v m theta, Sgld.run R.arith (.fin a) (.fin sc) (.fin th) xs =
        ⟨⟨.fin tau, .fin g, .fin v, .fin m⟩, .fin theta⟩ ∧ f.IsRep theta ∧
      |theta| ≤ (1 + 32 * f.u) ^ xs.length * (|th| + 2 * (xs.length * C)) by
    obtain ⟨tau, g, v, m, theta, h1, -, h3⟩ := h
    have hP2 : (1 + 32 * f.u) ^ xs.length ≤ 2 := growth_le_two hu0 hu (by nlinarith)
    refine ⟨tau, g, v, m, theta, h1, h3.trans ?_⟩
    refine (mul_le_mul_of_nonneg_right hP2 (by positivity)).trans (le_of_eq ?_)
    rw [hC]
    ring
  induction xs using List.reverseRecOn with
  | nil =>
    obtain ⟨h1, -⟩ := stats_init R hA (M := 1) (c := 1) le_rfl one_pos
    refine ⟨1, 1, 1, 1, th, ?_, htr, by simp⟩
    unfold Sgld.run Sgld.init
    rw [List.foldl_nil, h1]
  | append_singleton xs x ih =>
    have hk0 : (0 : ℝ) ≤ xs.length := Nat.cast_nonneg _
    have hkx := hk
    rw [List.length_append] at hk hroom
    push_cast at hk hroom
    simp only [List.length_cons, List.length_nil, Nat.cast_one, zero_add] at hk hroom
    set k : ℝ := (xs.length : ℝ) with hkdef
    have hGZ : 0 ≤ G + Z := by linarith
    have hmono : (k + 1) * (G + Z) ≤ (k + 1 + 1) * (G + Z) := mul_le_mul_of_nonneg_right (by linarith) hGZ
    obtain ⟨tau, g, v, m, theta, he, htr', htb⟩ := ih (fun y hy => hx y (by simp [hy])) (by nlinarith) (by linarith)
    have hxm := hx x (by simp)
    obtain ⟨e, hee, her, he0, he1⟩ := hxm.epsilon
    obtain ⟨h, hhe, hhG⟩ := hxm.grad
    obtain ⟨z, hze, hzZ⟩ := hxm.normal
    obtain ⟨tau', g', v', m', hst, -, -, hm0, hm1⟩ := moderate_stats R hA hG1 hG (xs ++ [x]) hx hkx
    have hstats : Stats.step R.arith ⟨.fin tau, .fin g, .fin v, .fin m⟩ x.grad =
        ⟨.fin tau', .fin g', .fin v', .fin m'⟩ := by
      have h1 := sgld_stats R.arith (.fin a) (.fin sc) (.fin th) xs
      rw [he] at h1
      rw [← hst, List.map_append, Stats.after, List.foldl_append]
      show _ = Stats.step R.arith (Stats.after R.arith (xs.map StepIn.grad)) x.grad
      rw [← h1]
    obtain ⟨mu, hmu, hmu0, hmu1⟩ := moderate_mass hxm hm0 hm1
    obtain ⟨sg, hsg, -, hsg0, hsg1⟩ := C115_sgld_sigma R hA he0 he1 har ha0 ha1 hsr hs1 hmu0.le hmu1
    have hP2 : (1 + 32 * f.u) ^ xs.length ≤ 2 := growth_le_two hu0 hu (by nlinarith)
    have hP1 : 1 ≤ (1 + 32 * f.u) ^ xs.length := one_le_pow₀ (by linarith)
    set P := (1 + 32 * f.u) ^ xs.length with hPdef
    have hq : |sg * z| ≤ 2 ^ 28 * Z := by
      rw [abs_mul, abs_of_nonneg hsg0]
      exact mul_le_mul hsg1 hzZ (abs_nonneg _) (by norm_num)
    have hbig : G + Z ≤ (k + 1 + 1) * (G + Z) := le_mul_of_one_le_left hGZ (by linarith)
    have hth := abs_nonneg th
    obtain ⟨s, -, hs, -, hsb⟩ := rnd_twice R hA hq (by linarith)
    obtain ⟨d, hd, hdr, hdb⟩ := vec_step R hA he0 he1 ha0 ha1 hmu0.le hmu1 hhG hG1 hsb (by linarith)
    have hdC : |d| ≤ C := hdb.trans (by rw [hC]; linarith)
    have hsum : |theta + d| ≤ P * (|th| + 2 * (k * C)) + C := (abs_add_le _ _).trans (add_le_add htb hdC)
    have hsum2 : |theta + d| ≤ 2 * (|th| + 2 * (k * C)) + C :=
      hsum.trans (add_le_add_left (mul_le_mul_of_nonneg_right hP2 (by positivity)) C)
    obtain ⟨theta', htr2, hte⟩ := near_of_le R (x := theta + d) (hsum2.trans (by
      have h5 : k * C + C ≤ 2 ^ 58 * ((k + 1 + 1) * (G + Z)) := by
        rw [hC]
        linarith
      have h6 : 0 ≤ k * C := by positivity
      linarith))
    have hterr := R.error_add htr' hdr hte
    have hthb : |theta'| ≤ (1 + f.u) * |theta + d| := by
      have := abs_le_of_error hterr
      linarith
    refine ⟨tau', g', v', m', theta', ?_, htr2, ?_⟩
    · unfold Sgld.run at he ⊢
      rw [List.foldl_append, he, List.foldl_cons, List.foldl_nil]
      unfold Sgld.step
      rw [hhe] at hstats
      simp only [hhe, hstats, hmu, hee, hsg, hze, Arith.mul_fin, R.arith_rnd, hs, hd, Arith.add_fin, hte]
    · rw [List.length_append, List.length_singleton, pow_succ]
      push_cast
      refine hthb.trans ?_
      have h2 : (1 + f.u) * |theta + d| ≤ (1 + f.u) * (P * (|th| + 2 * (k * C)) + C) :=
        mul_le_mul_of_nonneg_left hsum (by linarith)
      refine h2.trans ?_
      have h4 : 0 ≤ P * (|th| + 2 * (k * C)) := by positivity
      have h5 : (1 + f.u) * (P * (|th| + 2 * (k * C))) ≤ (1 + 32 * f.u) * (P * (|th| + 2 * (k * C))) :=
        mul_le_mul_of_nonneg_right (by linarith) h4
      have h6 : (1 + f.u) * C ≤ 2 * C := mul_le_mul_of_nonneg_right (by linarith) hC0
      have h7 : C ≤ P * (1 + 32 * f.u) * C := le_mul_of_one_le_left hC0 (by nlinarith)
      have h8 : P * (1 + 32 * f.u) * (|th| + 2 * ((k + 1) * C)) =
          (1 + 32 * f.u) * (P * (|th| + 2 * (k * C))) + 2 * (P * (1 + 32 * f.u) * C) := by ring
      linarith

/-! ## Concrete cases -/

theorem float32_room : (2 : ℝ) ^ 127 ≤ float32.largest := by
  have h104 : (2 : ℝ) ^ (104 : ℤ) = 2 ^ 104 := by norm_cast
  simp only [largest, float32, h104]
  norm_num

theorem float32_u : float32.u = 1 / 2 ^ 24 := by
  simp only [u, float32]
  norm_num

/-- `SGHMCSampler` with `float32`: 100,000 steps with gradients up to a million and draws up to 100 (nobody has seen
larger ones) do not overflow. -/
example (R : Rounding float32) (md : ℝ) (hd0 : 0 ≤ md) (hd1 : md ≤ 1) (xs : List StepIn)
    (hx : ∀ x ∈ xs, x.Moderate float32 (10 ^ 6) 100) (hk : xs.length ≤ 100000) :
    ∃ s theta, Sghmc.run R.arith (.fin 1) (.fin md) (.fin 0) xs = s ∧ s.theta = .fin theta := by
  have hu := float32_u
  have hr := float32_room
  have hl : (xs.length : ℝ) ≤ 100000 := by exact_mod_cast hk
  obtain ⟨tau, g, v, m, mom, theta, h, -⟩ := C115_sghmc R float32_adequate (sc := 1) (th := 0) (G := 10 ^ 6) (Z := 100)
    float32_unit.one le_rfl hd0 hd1 rep_zero (by norm_num)
    (by
      rw [hu]
      refine le_trans ?_ (mul_le_mul_of_nonneg_left hr (by norm_num))
      norm_num) (by norm_num) xs hx
    (by
      rw [hu]
      linarith)
    (by
      rw [abs_zero, zero_add]
      refine le_trans ?_ hr
      have : ((xs.length : ℝ) + 1) ^ 2 ≤ 100001 ^ 2 := pow_le_pow_left₀ (by positivity) (by linarith) 2
      have h2 : ((xs.length : ℝ) + 1) ^ 2 * ((10 : ℝ) ^ 6 + 100) ≤ 100001 ^ 2 * (10 ^ 6 + 100) :=
        mul_le_mul_of_nonneg_right this (by norm_num)
      calc 64 * (2 ^ 58 * (((xs.length : ℝ) + 1) ^ 2 * (10 ^ 6 + 100)))
          ≤ 64 * (2 ^ 58 * (100001 ^ 2 * (10 ^ 6 + 100))) := by linarith
        _ ≤ 2 ^ 127 := by norm_num)
  exact ⟨_, theta, rfl, by rw [h]⟩

/-- There are moderate inputs. -/
example : StepIn.Moderate float32 (10 ^ 6) 100 ⟨.fin 1, .fin 3, .fin (-2), none⟩ :=
  ⟨⟨1, rfl, float32_unit.one, by norm_num, le_rfl⟩, ⟨3, rfl, by norm_num⟩, ⟨-2, rfl, by norm_num⟩, Or.inl rfl⟩

end PySGMCMC.Rounded
