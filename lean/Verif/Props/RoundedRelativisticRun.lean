import Verif.Props.RoundedRelativistic
import Verif.Props.RoundedRun

/-!
# Whole runs of relativistic SGHMC in floating point arithmetic (C148)
-/

namespace PySGMCMC.Rounded

open Format

variable {f : Format} (R : Rounding f)

/-- The numbers one session run receives. -/
structure RelNums where
  epsilon : ℝ
  grad : ℝ
  normal : ℝ

/-- As floats. -/
def RelNums.fl (x : RelNums) : RelIn := ⟨.fin x.epsilon, .fin x.grad, .fin x.normal⟩

/-- Inputs of moderate size. -/
structure RelNums.Moderate (G Z : ℝ) (x : RelNums) : Prop where
  epsilon_nonneg : 0 ≤ x.epsilon
  epsilon_le : x.epsilon ≤ 1
  grad : |x.grad| ≤ G
  normal : |x.normal| ≤ Z

/-- **C148 (noise).**  The standard deviation of the noise is a number between 0 and 2. -/
theorem C148_noise (hu : f.HasUnit) {e d b : ℝ} (he0 : 0 ≤ e) (he1 : e ≤ 1) (hd : f.IsRep d) (hd1 : d ≤ 1)
    (hb0 : 0 ≤ b) (hb : b ≤ 2 * d) :
    ∃ s, noiseFactor R.arith (.fin e) (.fin d) (.fin b) = .fin s ∧ 0 ≤ s ∧ s ≤ 2 := by
  have h2L := hu.two.abs_le
  rw [abs_of_pos two_pos] at h2L
  have hd0 : 0 ≤ d := by linarith
  have h2d := hd.double (by rw [abs_of_nonneg (by linarith)]; linarith)
  have heb : e * b ≤ 2 * d := (mul_le_of_le_one_left hb0 he1).trans hb
  obtain ⟨q, hq, -, hq0, hq1⟩ := R.between rep_zero h2d (mul_nonneg he0 hb0) heb
  obtain ⟨x, hx, -, hx0, hx1⟩ := R.between rep_zero hu.two (x := 2 * d - q) (by linarith) (by linarith)
  obtain ⟨y, hy, -, hy0, hy1⟩ := R.between rep_zero hu.two (x := e * x) (mul_nonneg he0 hx0)
    ((mul_le_of_le_one_left hx0 he1).trans hx1)
  obtain ⟨s, hs, -, hs0, hs1⟩ := R.between rep_zero hu.two (x := Real.sqrt y) (Real.sqrt_nonneg _) (by
    rw [Real.sqrt_le_left (by norm_num)]
    linarith)
  refine ⟨s, ?_, hs0, hs1⟩
  unfold noiseFactor
  rw [R.arith_lit, R.exact hu.two, Arith.mul_fin, R.arith_rnd, R.exact h2d, Arith.mul_fin, R.arith_rnd, hq,
    Arith.sub_fin, R.arith_rnd, hx, Arith.mul_fin, R.arith_rnd, hy, Arith.sqrt_fin _ hy0, R.arith_rnd, hs]

theorem tiny_le_unit (hA : f.Adequate) : f.tiny ≤ f.u := by
  have h1 := tiny_le_u hA
  have h2 := hA.u_small
  have h0 : 0 < f.u := u_pos
  have h3 : f.u * f.u ≤ 1 := by nlinarith
  have h4 : f.u * (f.u * f.u) ≤ f.u := mul_le_of_le_one_right h0.le h3
  have := tiny_pos (f := f)
  linarith

/-- The increment of the momentum. -/
theorem rel_increment (hA : f.Adequate) {m c d b e h z p G Z : ℝ} (hs : SafeConstants f m c) (hd : f.IsRep d)
    (hd1 : d ≤ 1) (hb0 : 0 ≤ b) (hb : b ≤ 2 * d) (he0 : 0 ≤ e) (he1 : e ≤ 1) (hG : |h| ≤ G) (hZ : |z| ≤ Z)
    (hp : f.IsRep p) (hroom : 16 * (G + Z + (2 * c + 1)) ≤ f.largest) :
    ∃ i, relMom R.arith (.fin e) (.fin m) (.fin c) (.fin d) (.fin b) (.fin h) (.fin z) (.fin p) = .fin i ∧
      f.IsRep i ∧ |i| ≤ 16 * (G + Z + (2 * c + 1)) := by
  have hu := hA.u_small
  have hu0 : 0 < f.u := u_pos
  have ht := tiny_pos (f := f)
  have htu := tiny_le_unit hA
  have hm := hs.mass_pos
  have hc := hs.speed_pos
  have hG0 : 0 ≤ G := (abs_nonneg _).trans hG
  have hZ0 : 0 ≤ Z := (abs_nonneg _).trans hZ
  have hd0 : 0 ≤ d := by linarith
  have hmn := hs.mass_normal
  unfold IsNormal at hmn
  rw [abs_of_pos hm] at hmn
  have htm : f.tiny / m ≤ f.u := by rw [div_le_iff₀ hm]; exact hmn
  have hec : e * c ≤ c := mul_le_of_le_one_left hc.le he1
  have hec0 : 0 ≤ e * c := mul_nonneg he0 hc.le
  -- gradient
  obtain ⟨a, -, ha, -, hab⟩ := rnd_twice R hA (x := e * h) (X := G) (by
    rw [abs_mul, abs_of_nonneg he0]
    exact (mul_le_of_le_one_left (abs_nonneg _) he1).trans hG) (by linarith)
  -- noise
  obtain ⟨s, hsn, hs0, hs1⟩ := C148_noise R hA.unit he0 he1 hd hd1 hb0 hb
  obtain ⟨n, -, hn, -, hnb⟩ := rnd_twice R hA (x := s * z) (X := 2 * Z) (by
    rw [abs_mul, abs_of_nonneg hs0]
    exact mul_le_mul hs1 hZ (abs_nonneg _) (by norm_num)) (by linarith)
  obtain ⟨w, -, hw, -, hwb⟩ := rnd_twice R hA (x := a + n) (X := 2 * G + 4 * Z + 2 * f.tiny)
    ((abs_add_le _ _).trans (by linarith)) (by linarith)
  -- friction
  obtain ⟨v, hv, hvb⟩ := C113_speed_limit R hA.unit (by linarith) htu hs (epsilon := e) (p := p) he0
    (by
      rw [abs_mul, abs_of_nonneg he0]
      exact (mul_le_of_le_one_left (abs_nonneg _) he1).trans hp.abs_le) (by linarith)
  have hvV : |v| ≤ 2 * c + 1 := by
    refine hvb.trans ?_
    have e1 : f.tiny * (1 + 1 / m) = f.tiny + f.tiny / m := by ring
    have e2 : e * c * (1 + 16 * f.u) ≤ c * 2 := mul_le_mul hec (by linarith) (by linarith) hc.le
    rw [e1]
    linarith
  obtain ⟨q, -, hq, -, hqb⟩ := rnd_twice R hA (x := d * v) (X := 2 * c + 1) (by
    rw [abs_mul, abs_of_nonneg hd0]
    exact (mul_le_of_le_one_left (abs_nonneg _) hd1).trans hvV) (by linarith)
  obtain ⟨i, hir, hi, -, hib⟩ := rnd_twice R hA (x := w - q)
    (X := 2 * (2 * G + 4 * Z + 2 * f.tiny) + f.tiny + (2 * (2 * c + 1) + f.tiny))
    ((abs_sub _ _).trans (by linarith)) (by linarith)
  refine ⟨i, ?_, hir, by linarith⟩
  unfold relMom
  rw [hsn, hv]
  simp only [Arith.mul_fin, R.arith_rnd, ha, hn, Arith.add_fin, hw, hq, Arith.sub_fin, hi]

set_option maxHeartbeats 1000000 in
/-- **C148 (relativistic SGHMC in floating point).**  In `float32`, `float64` and every other adequate format: a run
whose inputs are moderate never produces an infinity or NaN; the momentum grows at most linearly in the number of steps;
and the parameter moves at most twice as far as light does in the elapsed time (the sum of the stepsizes), whatever the
gradients and the noise. -/
theorem C148_run (hA : f.Adequate) {m c d b p th G Z : ℝ} (hs : SafeConstants f m c) (hd : f.IsRep d) (hd1 : d ≤ 1)
    (hb0 : 0 ≤ b) (hb : b ≤ 2 * d) (hp : f.IsRep p) (hth : f.IsRep th) (hG : 0 ≤ G) (hZ : 0 ≤ Z) (xs : List RelNums)
    (hx : ∀ x ∈ xs, x.Moderate G Z) (hk : 64 * (xs.length * f.u) ≤ 1)
    (hroom : 128 * (|p| + |th| + ((xs.length : ℝ) + 1) * (G + Z + c + 1)) ≤ f.largest) :
    ∃ mom theta, Rel.run R.arith (.fin m) (.fin c) (.fin d) (.fin b) (.fin p) (.fin th) (xs.map RelNums.fl) =
        ⟨.fin mom, .fin theta⟩ ∧
      |mom| ≤ 2 * |p| + 64 * (xs.length * (G + Z + c + 1)) ∧
      |theta - th| ≤ 2 * (xs.map fun x => x.epsilon * c * (1 + 16 * f.u) + f.tiny * (1 + 1 / m)).sum := by
  have hu0 : 0 < f.u := u_pos
  have hu := hA.u_small
  have ht := tiny_pos (f := f)
  have htu := tiny_le_unit hA
  have hm := hs.mass_pos
  have hc := hs.speed_pos
  have hmn := hs.mass_normal
  unfold IsNormal at hmn
  rw [abs_of_pos hm] at hmn
  have htm : f.tiny / m ≤ f.u := by rw [div_le_iff₀ hm]; exact hmn
  set C : ℝ := 16 * (G + Z + (2 * c + 1)) with hC
  have hC0 : 0 ≤ C := by positivity
  have hCW : C ≤ 32 * (G + Z + c + 1) := by rw [hC]; linarith
  suffices h : ∃ mom theta, Rel.run R.arith (.fin m) (.fin c) (.fin d) (.fin b) (.fin p) (.fin th) (xs.map RelNums.fl) =
        ⟨.fin mom, .fin theta⟩ ∧ f.IsRep mom ∧ f.IsRep theta ∧
      |mom| ≤ (1 + 32 * f.u) ^ xs.length * (|p| + xs.length * C) ∧
      |theta - th| ≤ 2 * (xs.map fun x => x.epsilon * c * (1 + 16 * f.u) + f.tiny * (1 + 1 / m)).sum ∧
      |theta - th| ≤ xs.length * (2 * (2 * c + 1)) by
    obtain ⟨mom, theta, h1, -, -, h2, h3, -⟩ := h
    have hP2 : (1 + 32 * f.u) ^ xs.length ≤ 2 := growth_le_two hu0 hu hk
    refine ⟨mom, theta, h1, h2.trans ?_, h3⟩
    refine (mul_le_mul_of_nonneg_right hP2 (by positivity)).trans ?_
    have : (xs.length : ℝ) * C ≤ xs.length * (32 * (G + Z + c + 1)) :=
      mul_le_mul_of_nonneg_left hCW (Nat.cast_nonneg _)
    linarith
  induction xs using List.reverseRecOn with
  | nil => exact ⟨p, th, rfl, hp, hth, by simp, by simp, by simp⟩
  | append_singleton xs x ih =>
    have hk0 : (0 : ℝ) ≤ xs.length := Nat.cast_nonneg _
    have hkx := hk
    rw [List.length_append] at hk hroom
    push_cast at hk hroom
    simp only [List.length_cons, List.length_nil, Nat.cast_one, zero_add] at hk hroom
    have hW0 : 0 ≤ G + Z + c + 1 := by linarith
    obtain ⟨mom, theta, he, hmr, htr, hmb, htb, htb'⟩ := ih (fun y hy => hx y (by simp [hy])) (by nlinarith) (by nlinarith)
    set k : ℝ := (xs.length : ℝ) with hkdef
    have hxm := hx x (by simp)
    have he0 := hxm.epsilon_nonneg
    have he1 := hxm.epsilon_le
    have hec : x.epsilon * c ≤ c := mul_le_of_le_one_left hc.le he1
    have hec0 : 0 ≤ x.epsilon * c := mul_nonneg he0 hc.le
    have hpa := abs_nonneg p
    have hta := abs_nonneg th
    have hkW : 0 ≤ k * (G + Z + c + 1) := mul_nonneg hk0 hW0
    have hkC : k * C ≤ 32 * (k * (G + Z + c + 1)) := by
      have := mul_le_mul_of_nonneg_left hCW hk0
      linarith
    have hkC0 : 0 ≤ k * C := mul_nonneg hk0 hC0
    -- momentum
    obtain ⟨i, hi, hir, hib⟩ := rel_increment R hA hs hd hd1 hb0 hb he0 he1 hxm.grad hxm.normal hmr (by linarith)
    have hP2 : (1 + 32 * f.u) ^ xs.length ≤ 2 := growth_le_two hu0 hu (by nlinarith)
    have hP1 : 1 ≤ (1 + 32 * f.u) ^ xs.length := one_le_pow₀ (by linarith)
    set P := (1 + 32 * f.u) ^ xs.length with hPdef
    have hsum : |mom + i| ≤ P * (|p| + k * C) + C := (abs_add_le _ _).trans (add_le_add hmb hib)
    have hsum2 : |mom + i| ≤ 2 * (|p| + k * C) + C := by
      have := mul_le_mul_of_nonneg_right hP2 (by linarith : 0 ≤ |p| + k * C)
      linarith
    obtain ⟨mom', hmr', hm'⟩ := near_of_le R (x := mom + i) (by linarith)
    have herr := abs_le_of_error (R.error_add hmr hir hm')
    have hmb' : |mom'| ≤ P * (1 + 32 * f.u) * (|p| + (k + 1) * C) := by
      have h1 : (1 + f.u) * |mom + i| ≤ (1 + 32 * f.u) * (P * (|p| + k * C) + C) :=
        mul_le_mul (by linarith) hsum (abs_nonneg _) (by linarith)
      have h2 : C ≤ P * C := le_mul_of_one_le_left hC0 hP1
      have h3 : (1 + 32 * f.u) * C ≤ (1 + 32 * f.u) * (P * C) := mul_le_mul_of_nonneg_left h2 (by linarith)
      have h4 : P * (1 + 32 * f.u) * (|p| + (k + 1) * C) =
          (1 + 32 * f.u) * (P * (|p| + k * C)) + (1 + 32 * f.u) * (P * C) := by ring
      rw [h4]
      linarith
    -- position
    obtain ⟨v, hv, hvb⟩ := C113_speed_limit R hA.unit (by linarith) htu hs (epsilon := x.epsilon) (p := mom') he0
      (by
        rw [abs_mul, abs_of_nonneg he0]
        exact (mul_le_of_le_one_left (abs_nonneg _) he1).trans hmr'.abs_le) (by linarith)
    have hvV : |v| ≤ 2 * c + 1 := by
      refine hvb.trans ?_
      have e1 : f.tiny * (1 + 1 / m) = f.tiny + f.tiny / m := by ring
      have e2 : x.epsilon * c * (1 + 16 * f.u) ≤ c * 2 := mul_le_mul hec (by linarith) (by linarith) hc.le
      rw [e1]
      linarith
    have hthb : |theta| ≤ |th| + k * (2 * (2 * c + 1)) := by
      have := abs_add_le (theta - th) th
      rw [sub_add_cancel] at this
      linarith
    have hkc : k * (2 * (2 * c + 1)) ≤ 4 * (k * (G + Z + c + 1)) := by
      have : k * (2 * (2 * c + 1)) ≤ k * (4 * (G + Z + c + 1)) := mul_le_mul_of_nonneg_left (by linarith) hk0
      linarith
    obtain ⟨theta', htr', ht'⟩ := near_of_le R (x := theta + v) ((abs_add_le _ _).trans (by linarith))
    have hmove := C113_position R htr (v := v) (theta' := theta') (by rw [Arith.add_fin, R.arith_rnd, ht'])
    have htri : |theta' - th| ≤ |theta' - theta| + |theta - th| := abs_sub_le _ _ _
    refine ⟨mom', theta', ?_, hmr', htr', ?_, ?_, ?_⟩
    · unfold Rel.run at he ⊢
      rw [List.map_append, List.foldl_append, he]
      simp only [List.map_cons, List.map_nil, List.foldl_cons, List.foldl_nil, Rel.step, RelNums.fl, hi, Arith.add_fin,
        R.arith_rnd, hm', hv, ht']
    · rw [List.length_append, List.length_singleton, pow_succ]
      push_cast
      exact hmb'
    · rw [List.map_append, List.sum_append, List.map_singleton, List.sum_singleton]
      linarith
    · rw [List.length_append, List.length_singleton]
      push_cast
      linarith

/-- `RelativisticSGHMCSampler` with its default constants in `float32`: in 100,000 steps of stepsize 0.001, with
gradients up to a million and draws up to 100, the parameter stays within 201 of its start. -/
example (R : Rounding float32) {e p : ℝ} (he : e = 1e-3) (hp : float32.IsRep p) (hp' : |p| ≤ 10 ^ 6)
    (xs : List RelNums) (hx : ∀ x ∈ xs, x.Moderate (10 ^ 6) 100) (hxe : ∀ x ∈ xs, x.epsilon = e)
    (hk : xs.length ≤ 100000) :
    ∃ mom theta, Rel.run R.arith (.fin 1) (.fin 1) (.fin 1) (.fin 0) (.fin p) (.fin 0) (xs.map RelNums.fl) =
      ⟨.fin mom, .fin theta⟩ ∧ |theta| ≤ 201 := by
  have hu := float32_u
  have hr := float32_room
  have hl : (xs.length : ℝ) ≤ 100000 := by exact_mod_cast hk
  have htu := tiny_le_unit float32_adequate
  obtain ⟨mom, theta, h, -, h2⟩ := C148_run R float32_adequate (G := 10 ^ 6) (Z := 100)
    (default_constants float32_unit htu) (d := 1) (b := 0) float32_unit.one le_rfl le_rfl (by norm_num) hp rep_zero
    (by norm_num) (by norm_num) xs hx (by rw [hu]; linarith) (by
      refine le_trans ?_ hr
      rw [abs_zero]
      have : (128 : ℝ) * (10 ^ 6 + 0 + (100000 + 1) * (10 ^ 6 + 100 + 1 + 1)) ≤ 2 ^ 127 := by norm_num
      linarith)
  refine ⟨mom, theta, h, ?_⟩
  rw [sub_zero] at h2
  refine h2.trans ?_
  have h3 : (xs.map fun x => x.epsilon * 1 * (1 + 16 * float32.u) + float32.tiny * (1 + 1 / 1)).sum ≤
      xs.length * 0.001005 := by
    rw [← nsmul_eq_mul, ← List.length_map (f := fun x : RelNums => x.epsilon * 1 * (1 + 16 * float32.u) +
      float32.tiny * (1 + 1 / 1))]
    refine List.sum_le_card_nsmul _ _ fun y hy => ?_
    obtain ⟨x, hxm, rfl⟩ := List.mem_map.1 hy
    rw [hxe x hxm, he]
    rw [hu] at htu ⊢
    norm_num at htu ⊢
    linarith
  linarith

end PySGMCMC.Rounded
