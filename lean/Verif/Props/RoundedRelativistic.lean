import Verif.Props.RoundedBaseModel

/-!
# The speed limit of relativistic SGHMC in floating point arithmetic (C113)
-/

namespace PySGMCMC.Rounded

open Format

variable {f : Format} (R : Rounding f)

/-- `x` is far enough from zero for rounding errors to be relative. -/
def _root_.PySGMCMC.Format.IsNormal (f : Format) (x : ℝ) : Prop := f.tiny ≤ f.u * |x|

/-- The rounding error of a number that is at least half a normal one. -/
theorem error_rel {x y : ℝ} (hn : f.tiny / 2 ≤ f.u * |x|) (h : R.rnd x = .fin y) : |x - y| ≤ f.u * |x| := by
  rcases R.error h with h' | h' <;> linarith

/-- What the constants of the sampler must satisfy: mass and speed of light are positive, and neither they nor their
squares leave the range of the format. -/
structure SafeConstants (f : Format) (m c : ℝ) : Prop where
  mass_rep : f.IsRep m
  speed_rep : f.IsRep c
  mass_pos : 0 < m
  speed_pos : 0 < c
  mass_normal : f.IsNormal m
  mass_sq_normal : f.IsNormal (m ^ 2)
  speed_sq_normal : f.IsNormal (c ^ 2)
  product_normal : f.IsNormal (m ^ 2 * c ^ 2)
  mass_sq_fits : m ^ 2 ≤ f.largest
  speed_sq_fits : c ^ 2 ≤ f.largest
  product_fits : 2 * (m ^ 2 * c ^ 2) ≤ f.largest

/-- The rounded `m² c²`. -/
theorem product_rounded (hu9 : f.u ≤ 1 / 9) {m c : ℝ} (hs : SafeConstants f m c) :
    ∃ b, R.arith.mul (R.arith.pow (.fin m) 2) (R.arith.pow (.fin c) 2) = .fin b ∧ f.tiny ≤ b ∧
      b * (1 - f.u) ^ 3 ≤ m ^ 2 * c ^ 2 := by
  have hu0 : 0 < f.u := u_pos
  have ht := tiny_pos (f := f)
  have hm2 : 0 < m ^ 2 := by have := hs.mass_pos; positivity
  have hc2 : 0 < c ^ 2 := by have := hs.speed_pos; positivity
  have hP : 0 < m ^ 2 * c ^ 2 := mul_pos hm2 hc2
  have hlh := largest_lt_huge (f := f)
  have n1 := hs.mass_sq_normal
  have n2 := hs.speed_sq_normal
  have n3 := hs.product_normal
  unfold IsNormal at n1 n2 n3
  rw [abs_of_pos hm2] at n1
  rw [abs_of_pos hc2] at n2
  rw [abs_of_pos hP] at n3
  obtain ⟨M, -, hM, -⟩ := R.near (m ^ 2) (by rw [abs_of_pos hm2]; linarith [hs.mass_sq_fits])
  obtain ⟨C, -, hC, -⟩ := R.near (c ^ 2) (by rw [abs_of_pos hc2]; linarith [hs.speed_sq_fits])
  have eM := error_rel R (by rw [abs_of_pos hm2]; linarith) hM
  have eC := error_rel R (by rw [abs_of_pos hc2]; linarith) hC
  rw [abs_of_pos hm2] at eM
  rw [abs_of_pos hc2] at eC
  have eM' := abs_le.mp eM
  have eC' := abs_le.mp eC
  have M1 : M ≤ m ^ 2 * (1 + f.u) := by linarith
  have M2 : m ^ 2 * (1 - f.u) ≤ M := by linarith
  have C1 : C ≤ c ^ 2 * (1 + f.u) := by linarith
  have C2 : c ^ 2 * (1 - f.u) ≤ C := by linarith
  have h1u : 0 < 1 - f.u := by linarith
  have hM0 : 0 < M := lt_of_lt_of_le (by positivity) M2
  have hC0 : 0 < C := lt_of_lt_of_le (by positivity) C2
  have hMC1 : M * C ≤ m ^ 2 * c ^ 2 * (1 + f.u) ^ 2 := by
    calc M * C ≤ (m ^ 2 * (1 + f.u)) * (c ^ 2 * (1 + f.u)) := mul_le_mul M1 C1 hC0.le (by positivity)
      _ = _ := by ring
  have hMC2 : m ^ 2 * c ^ 2 * (1 - f.u) ^ 2 ≤ M * C := by
    calc m ^ 2 * c ^ 2 * (1 - f.u) ^ 2 = (m ^ 2 * (1 - f.u)) * (c ^ 2 * (1 - f.u)) := by ring
      _ ≤ M * C := mul_le_mul M2 C2 (by positivity) hM0.le
  have hMC : 0 < M * C := mul_pos hM0 hC0
  have hsq : (1 + f.u) ^ 2 ≤ 2 := by nlinarith
  have hsq' : 1 / 2 ≤ (1 - f.u) ^ 2 := by nlinarith
  obtain ⟨b, hb', hb, -⟩ := R.near (M * C) (by
    rw [abs_of_pos hMC]
    have : m ^ 2 * c ^ 2 * (1 + f.u) ^ 2 ≤ m ^ 2 * c ^ 2 * 2 := mul_le_mul_of_nonneg_left hsq hP.le
    linarith [hs.product_fits])
  have hlow : m ^ 2 * c ^ 2 / 2 ≤ M * C := by
    have : m ^ 2 * c ^ 2 * (1 / 2) ≤ m ^ 2 * c ^ 2 * (1 - f.u) ^ 2 := mul_le_mul_of_nonneg_left hsq' hP.le
    linarith
  have eb := error_rel R (by
    rw [abs_of_pos hMC]
    have := mul_le_mul_of_nonneg_left hlow hu0.le
    linarith) hb
  rw [abs_of_pos hMC] at eb
  have eb' := abs_le.mp eb
  have hbpos : 0 < b := by nlinarith
  refine ⟨b, ?_, hb'.tiny_le hbpos, ?_⟩
  · rw [Arith.pow_fin, Arith.pow_fin, R.arith_rnd, hM, hC, Arith.mul_fin, R.arith_rnd, hb]
  · have hb1 : b ≤ m ^ 2 * c ^ 2 * (1 + f.u) ^ 3 := by
      have : b ≤ M * C * (1 + f.u) := by linarith
      calc b ≤ M * C * (1 + f.u) := this
        _ ≤ m ^ 2 * c ^ 2 * (1 + f.u) ^ 2 * (1 + f.u) := mul_le_mul_of_nonneg_right hMC1 (by linarith)
        _ = _ := by ring
    have h3 : (1 + f.u) ^ 3 * (1 - f.u) ^ 3 ≤ 1 := by
      rw [← mul_pow]
      apply pow_le_one₀
      · nlinarith
      · nlinarith
    calc b * (1 - f.u) ^ 3 ≤ m ^ 2 * c ^ 2 * (1 + f.u) ^ 3 * (1 - f.u) ^ 3 :=
          mul_le_mul_of_nonneg_right hb1 (by positivity)
      _ = m ^ 2 * c ^ 2 * ((1 + f.u) ^ 3 * (1 - f.u) ^ 3) := by ring
      _ ≤ m ^ 2 * c ^ 2 * 1 := mul_le_mul_of_nonneg_left h3 hP.le
      _ = _ := mul_one _

/-- The rounded square root in `p_grad`: infinite, or at least `1` and almost `|p| / (m c)`. -/
theorem root_rounded (hu : f.HasUnit) (hu9 : f.u ≤ 1 / 9) (htu : f.tiny ≤ f.u) {m c : ℝ} (hs : SafeConstants f m c)
    {p : ℝ} :
    let W := R.arith.sqrt (R.arith.add (R.arith.div (R.arith.mul (.fin p) (.fin p))
      (R.arith.mul (R.arith.pow (.fin m) 2) (R.arith.pow (.fin c) 2))) (R.arith.lit 1))
    W = .pinf ∨ ∃ w, W = .fin w ∧ 1 ≤ w ∧ |p| * (1 - f.u) ^ 4 ≤ m * c * w := by
  intro W
  have hu0 : 0 < f.u := u_pos
  have ht := tiny_pos (f := f)
  have h1u : 0 < 1 - f.u := by linarith
  obtain ⟨b, hb, hbt, hbm⟩ := product_rounded R hu9 hs
  have hb0 : 0 < b := ht.trans_le hbt
  have h1 : R.arith.lit 1 = .fin 1 := R.exact hu.one
  have hW : W = R.arith.sqrt (R.arith.add (R.arith.div (R.arith.mul (.fin p) (.fin p)) (.fin b)) (.fin 1)) := by
    show R.arith.sqrt _ = _
    rw [hb, h1]
  rw [hW, Arith.mul_fin, R.arith_rnd]
  -- infinite values stay infinite
  have inf1 : R.arith.div .pinf (.fin b) = .pinf := by
    show R.arith.fix (if b = 0 then Fl.pinf else Fl.infOf b) = _
    rw [if_neg hb0.ne', Fl.infOf, if_pos hb0]
    rfl
  have inf2 : R.arith.sqrt (R.arith.add .pinf (.fin 1)) = .pinf := rfl
  rcases R.ge_cases rep_zero (mul_self_nonneg p) with h | ⟨a, ha, -, ha0⟩
  · left
    rw [h, inf1, inf2]
  · rw [ha, Arith.div_fin _ hb0.ne', R.arith_rnd]
    rcases R.ge_cases rep_zero (div_nonneg ha0 hb0.le) with h | ⟨q, hq, hqr, hq0⟩
    · left
      rw [h, inf2]
    · rw [hq, Arith.add_fin, R.arith_rnd]
      rcases R.ge_cases hu.one (x := q + 1) (by linarith) with h | ⟨s, hs', hsr, hs1⟩
      · left
        rw [h]
        rfl
      · rw [hs', Arith.sqrt_fin _ (by linarith), R.arith_rnd]
        have hsq1 : 1 ≤ Real.sqrt s := by
          rw [Real.one_le_sqrt]
          exact hs1
        rcases R.ge_cases hu.one hsq1 with h | ⟨w, hw, -, hw1⟩
        · exact Or.inl h
        · right
          refine ⟨w, hw, hw1, ?_⟩
          -- the chain of errors
          have e1 := (abs_le.mp (R.error' ha)).2
          have e2 := (abs_le.mp (R.error' hq)).2
          have e3 := (abs_le.mp (R.error_add hqr hu.one hs')).2
          have e4 := (abs_le.mp (error_rel R (by
            rw [abs_of_nonneg (Real.sqrt_nonneg s)]
            nlinarith) hw)).2
          rw [abs_of_nonneg (mul_self_nonneg p)] at e1
          rw [abs_of_nonneg (div_nonneg ha0 hb0.le)] at e2
          rw [abs_of_nonneg (by linarith : 0 ≤ q + 1)] at e3
          rw [abs_of_nonneg (Real.sqrt_nonneg s)] at e4
          have f1 : p * p * (1 - f.u) - f.tiny / 2 ≤ a := by linarith
          have f2 : a / b * (1 - f.u) - f.tiny / 2 ≤ q := by linarith
          have f3 : (q + 1) * (1 - f.u) ≤ s := by linarith
          have f4 : Real.sqrt s * (1 - f.u) ≤ w := by linarith
          have hw2 : s * (1 - f.u) ^ 2 ≤ w ^ 2 := by
            calc s * (1 - f.u) ^ 2 = (Real.sqrt s * (1 - f.u)) ^ 2 := by
                  rw [mul_pow, Real.sq_sqrt (by linarith)]
              _ ≤ w ^ 2 := by
                  have : 0 ≤ Real.sqrt s * (1 - f.u) := mul_nonneg (Real.sqrt_nonneg _) h1u.le
                  gcongr
          have hab : p * p * (1 - f.u) / b - 1 / 2 ≤ a / b := by
            have g1 : (p * p * (1 - f.u) - f.tiny / 2) / b ≤ a / b := div_le_div_of_nonneg_right f1 hb0.le
            rw [sub_div] at g1
            have g2 : f.tiny / 2 / b ≤ 1 / 2 := by
              rw [div_le_iff₀ hb0]
              linarith
            linarith
          have hq1 : p * p * (1 - f.u) ^ 2 / b ≤ q + 1 := by
            have g1 := mul_le_mul_of_nonneg_right hab h1u.le
            have g2 : p * p * (1 - f.u) / b * (1 - f.u) = p * p * (1 - f.u) ^ 2 / b := by ring
            nlinarith
          have hpb : p * p * (1 - f.u) ^ 5 ≤ b * w ^ 2 := by
            have g1 : p * p * (1 - f.u) ^ 2 ≤ b * (q + 1) := by
              rw [div_le_iff₀ hb0] at hq1
              linarith
            have g2 : (q + 1) * (1 - f.u) ^ 3 ≤ w ^ 2 := by
              calc (q + 1) * (1 - f.u) ^ 3 = (q + 1) * (1 - f.u) * (1 - f.u) ^ 2 := by ring
                _ ≤ s * (1 - f.u) ^ 2 := mul_le_mul_of_nonneg_right f3 (by positivity)
                _ ≤ _ := hw2
            calc p * p * (1 - f.u) ^ 5 = p * p * (1 - f.u) ^ 2 * (1 - f.u) ^ 3 := by ring
              _ ≤ b * (q + 1) * (1 - f.u) ^ 3 := mul_le_mul_of_nonneg_right g1 (by positivity)
              _ = b * ((q + 1) * (1 - f.u) ^ 3) := by ring
              _ ≤ b * w ^ 2 := mul_le_mul_of_nonneg_left g2 hb0.le
          have hsq : (|p| * (1 - f.u) ^ 4) ^ 2 ≤ (m * c * w) ^ 2 := by
            calc (|p| * (1 - f.u) ^ 4) ^ 2 = p * p * (1 - f.u) ^ 5 * (1 - f.u) ^ 3 := by
                  rw [mul_pow, sq_abs]; ring
              _ ≤ b * w ^ 2 * (1 - f.u) ^ 3 := mul_le_mul_of_nonneg_right hpb (by positivity)
              _ = b * (1 - f.u) ^ 3 * w ^ 2 := by ring
              _ ≤ m ^ 2 * c ^ 2 * w ^ 2 := mul_le_mul_of_nonneg_right hbm (by positivity)
              _ = _ := by ring
          have := hs.mass_pos
          have := hs.speed_pos
          exact (le_abs_self _).trans (abs_le_of_sq_le_sq hsq (by positivity))

/-- **C113 (speed limit in floating point).**  Whatever the momentum — up to the largest representable number — and
whatever overflows on the way, the displacement of one step is an ordinary number, never NaN or infinite, and at most
stepsize times speed of light, up to a few units in the last place and the underflow threshold. -/
theorem C113_speed_limit (hu : f.HasUnit) (hu9 : f.u ≤ 1 / 9) (htu : f.tiny ≤ f.u) {m c : ℝ}
    (hs : SafeConstants f m c) {epsilon p : ℝ} (he : 0 ≤ epsilon) (hfit : |epsilon * p| ≤ f.largest)
    (hcfit : epsilon * c * 3 + f.tiny / m ≤ f.largest) :
    ∃ v, pGrad R.arith (.fin epsilon) (.fin m) (.fin c) (.fin p) = .fin v ∧
      |v| ≤ epsilon * c * (1 + 16 * f.u) + f.tiny * (1 + 1 / m) := by
  have hu0 : 0 < f.u := u_pos
  have ht := tiny_pos (f := f)
  have h1u : 0 < 1 - f.u := by linarith
  have hm := hs.mass_pos
  have hc := hs.speed_pos
  have hlh := largest_lt_huge (f := f)
  have hec : 0 ≤ epsilon * c := mul_nonneg he hc.le
  have hfinal : 0 ≤ epsilon * c * (1 + 16 * f.u) + f.tiny * (1 + 1 / m) := by positivity
  obtain ⟨num, -, hnum, -⟩ := R.near (epsilon * p) (by linarith)
  have inf1 : R.arith.mul (.fin m) .pinf = .pinf := by
    show R.arith.fix (Fl.mul (.fin m) .pinf) = _
    simp [Fl.mul, Fl.infOf, hm, Arith.fix]
  have inf2 : R.arith.div (.fin num) .pinf = .fin 0 := by
    show R.rnd 0 = _
    exact R.rnd_zero
  unfold pGrad
  rw [Arith.mul_fin, R.arith_rnd, hnum]
  rcases root_rounded R hu hu9 htu hs (p := p) with hW | ⟨w, hW, hw1, hwp⟩
  · rw [hW, inf1, inf2]
    exact ⟨0, rfl, by simpa using hfinal⟩
  · rw [hW, Arith.mul_fin, R.arith_rnd]
    have hmw : 0 < m * w := mul_pos hm (by linarith)
    have hmw1 : m ≤ m * w := by nlinarith
    rcases R.ge_cases rep_zero hmw.le with h | ⟨d, hd, -, -⟩
    · rw [h, inf2]
      exact ⟨0, rfl, by simpa using hfinal⟩
    · rw [hd]
      have hmn := hs.mass_normal
      unfold IsNormal at hmn
      rw [abs_of_pos hm] at hmn
      have e5 := (abs_le.mp (error_rel R (by
        rw [abs_of_pos hmw]
        nlinarith) hd)).2
      rw [abs_of_pos hmw] at e5
      have f5 : m * w * (1 - f.u) ≤ d := by linarith
      have hdm : m * (1 - f.u) ≤ d := le_trans (mul_le_mul_of_nonneg_right hmw1 h1u.le) f5
      have hd0 : 0 < d := lt_of_lt_of_le (by positivity) hdm
      have hdp : |p| * (1 - f.u) ^ 5 ≤ c * d := by
        calc |p| * (1 - f.u) ^ 5 = |p| * (1 - f.u) ^ 4 * (1 - f.u) := by ring
          _ ≤ m * c * w * (1 - f.u) := mul_le_mul_of_nonneg_right hwp h1u.le
          _ = c * (m * w * (1 - f.u)) := by ring
          _ ≤ c * d := mul_le_mul_of_nonneg_left f5 hc.le
      have e6 := R.error' hnum
      rw [abs_mul, abs_of_nonneg he] at e6
      have hnum1 : |num| ≤ epsilon * |p| * (1 + f.u) + f.tiny / 2 := by
        have h1 : |num| ≤ |epsilon * p| + |epsilon * p - num| := by
          have := abs_sub_abs_le_abs_sub num (epsilon * p)
          rw [abs_sub_comm num (epsilon * p)] at this
          linarith
        rw [abs_mul, abs_of_nonneg he] at h1
        linarith
      -- powers of `1 ± u`
      have hB : 1 - 5 * f.u ≤ (1 - f.u) ^ 5 := by
        have := one_add_mul_le_pow (a := -f.u) (by linarith) 5
        have e : (1 + -f.u) = 1 - f.u := by ring
        rw [e] at this
        push_cast at this
        linarith
      have h5 : 0 < (1 - f.u) ^ 5 := by positivity
      have hpow : (1 + f.u) ^ 2 ≤ (1 + 16 * f.u) * (1 - f.u) ^ 5 := by
        have : (1 + 16 * f.u) * (1 - 5 * f.u) ≤ (1 + 16 * f.u) * (1 - f.u) ^ 5 :=
          mul_le_mul_of_nonneg_left hB (by linarith)
        nlinarith
      -- the quotient
      have hq1 : epsilon * |p| * (1 + f.u) ^ 2 ≤ epsilon * c * (1 + 16 * f.u) * d := by
        have g : epsilon * (|p| * (1 - f.u) ^ 5) ≤ epsilon * (c * d) := mul_le_mul_of_nonneg_left hdp he
        have g1 : epsilon * |p| * (1 + f.u) ^ 2 ≤ epsilon * |p| * ((1 + 16 * f.u) * (1 - f.u) ^ 5) :=
          mul_le_mul_of_nonneg_left hpow (by positivity)
        have g2 : (1 + 16 * f.u) * (epsilon * (|p| * (1 - f.u) ^ 5)) ≤ (1 + 16 * f.u) * (epsilon * (c * d)) :=
          mul_le_mul_of_nonneg_left g (by linarith)
        nlinarith
      have hq2 : f.tiny / 2 * (1 + f.u) ≤ f.tiny / m * d := by
        have g : f.tiny / m * (m * (1 - f.u)) ≤ f.tiny / m * d := mul_le_mul_of_nonneg_left hdm (by positivity)
        have g' : f.tiny / m * (m * (1 - f.u)) = f.tiny * (1 - f.u) := by field_simp
        rw [g'] at g
        nlinarith
      have hq : |num / d| * (1 + f.u) ≤ epsilon * c * (1 + 16 * f.u) + f.tiny / m := by
        rw [abs_div, abs_of_pos hd0, div_mul_eq_mul_div, div_le_iff₀ hd0]
        have : |num| * (1 + f.u) ≤ (epsilon * |p| * (1 + f.u) + f.tiny / 2) * (1 + f.u) :=
          mul_le_mul_of_nonneg_right hnum1 (by linarith)
        nlinarith
      have hfits : |num / d| < f.huge := by
        have g1 : |num / d| * 1 ≤ |num / d| * (1 + f.u) := mul_le_mul_of_nonneg_left (by linarith) (abs_nonneg _)
        have g0 : |num / d| * (1 + f.u) ≤ (epsilon * c * (1 + 16 * f.u)) + f.tiny / m := hq
        have g2 : epsilon * c * (1 + 16 * f.u) ≤ epsilon * c * 3 := mul_le_mul_of_nonneg_left (by linarith) hec
        linarith
      obtain ⟨v, -, hv, -⟩ := R.near (num / d) hfits
      refine ⟨v, ?_, ?_⟩
      · rw [Arith.div_fin _ hd0.ne', R.arith_rnd, hv]
      · have e7 := R.error' hv
        have h1 : |v| ≤ |num / d| + |num / d - v| := by
          have := abs_sub_abs_le_abs_sub v (num / d)
          rw [abs_sub_comm v (num / d)] at this
          linarith
        have e : f.tiny * (1 + 1 / m) = f.tiny + f.tiny / m := by ring
        rw [e]
        linarith

theorem fl_div (a b : Fl) : a / b = Fl.div a b := rfl

/-- **C113** The parameter moves in the direction of its momentum. -/
theorem C113_direction (hu : f.HasUnit) (hu9 : f.u ≤ 1 / 9) (htu : f.tiny ≤ f.u) {m c : ℝ}
    (hs : SafeConstants f m c) {epsilon p v : ℝ} (he : 0 ≤ epsilon)
    (h : pGrad R.arith (.fin epsilon) (.fin m) (.fin c) (.fin p) = .fin v) :
    (0 ≤ p → 0 ≤ v) ∧ (p ≤ 0 → v ≤ 0) := by
  have hm := hs.mass_pos
  unfold pGrad at h
  rw [Arith.mul_fin, R.arith_rnd] at h
  have inf1 : R.arith.mul (.fin m) .pinf = .pinf := by
    show R.arith.fix (Fl.mul (.fin m) .pinf) = _
    simp [Fl.mul, Fl.infOf, hm, Arith.fix]
  -- the denominator is infinite or a non-negative number
  have hden : ∃ D : Fl, R.arith.mul (.fin m) (R.arith.sqrt (R.arith.add (R.arith.div (R.arith.mul (.fin p) (.fin p))
      (R.arith.mul (R.arith.pow (.fin m) 2) (R.arith.pow (.fin c) 2))) (R.arith.lit 1))) = D ∧
      (D = .pinf ∨ ∃ d, D = .fin d ∧ 0 ≤ d) := by
    refine ⟨_, rfl, ?_⟩
    rcases root_rounded R hu hu9 htu hs (p := p) with hW | ⟨w, hW, hw1, -⟩
    · rw [hW, inf1]
      exact Or.inl rfl
    · rw [hW, Arith.mul_fin, R.arith_rnd]
      rcases R.ge_cases rep_zero (mul_nonneg hm.le (by linarith : (0 : ℝ) ≤ w)) with h | ⟨d, hd, -, hd0⟩
      · exact Or.inl h
      · exact Or.inr ⟨d, hd, hd0⟩
  obtain ⟨D, hD, hD'⟩ := hden
  rw [hD] at h
  rcases R.cases (epsilon * p) with ⟨hn, -⟩ | ⟨hn, -⟩ | ⟨num, hnum, -⟩
  · rw [hn] at h
    rcases hD' with rfl | ⟨d, rfl, hd0⟩
    · exact absurd h (by simp [Arith.div, fl_div, Fl.div, Arith.fix])
    · refine absurd h ?_
      rcases hd0.eq_or_lt with rfl | hd0
      · simp [Arith.div, fl_div, Fl.div, Arith.fix]
      · simp [Arith.div, fl_div, Fl.div, Fl.infOf, hd0.ne', hd0, Arith.fix]
  · rw [hn] at h
    rcases hD' with rfl | ⟨d, rfl, hd0⟩
    · exact absurd h (by simp [Arith.div, fl_div, Fl.div, Arith.fix])
    · refine absurd h ?_
      rcases hd0.eq_or_lt with rfl | hd0
      · simp [Arith.div, fl_div, Fl.div, Arith.fix]
      · simp [Arith.div, fl_div, Fl.div, Fl.infOf, hd0.ne', hd0, not_lt_of_gt hd0, Arith.fix]
  · rw [hnum] at h
    rcases hD' with rfl | ⟨d, rfl, hd0⟩
    · have : v = 0 := by
        have h' : R.rnd 0 = .fin v := h
        rw [R.rnd_zero] at h'
        exact (Fl.fin.inj h').symm
      simp [this]
    · rcases hd0.eq_or_lt with rfl | hd0
      · exfalso
        simp only [Arith.div, fl_div, Fl.div, if_true, Fl.infOf] at h
        split_ifs at h <;> simp [Arith.fix] at h
      · rw [Arith.div_fin _ hd0.ne', R.arith_rnd] at h
        constructor
        · intro hp
          exact R.rep_le rep_zero (div_nonneg (R.rep_le rep_zero (mul_nonneg he hp) hnum) hd0.le) h
        · intro hp
          exact R.le_rep rep_zero
            (div_nonpos_of_nonpos_of_nonneg (R.le_rep rep_zero (mul_nonpos_of_nonneg_of_nonpos he hp) hnum) hd0.le) h

/-- **C113** Where the limit breaks from below: once the square of the momentum overflows, the parameter no longer
moves at (nearly) the speed of light but not at all. -/
theorem C113_stall (hu : f.HasUnit) (hu9 : f.u ≤ 1 / 9) {m c : ℝ} (hs : SafeConstants f m c) {epsilon p : ℝ}
    (hp : f.huge ≤ p * p) (hfit : |epsilon * p| ≤ f.largest) :
    pGrad R.arith (.fin epsilon) (.fin m) (.fin c) (.fin p) = .fin 0 := by
  have hm := hs.mass_pos
  obtain ⟨b, hb, hbt, -⟩ := product_rounded R hu9 hs
  have hb0 : 0 < b := tiny_pos.trans_le hbt
  obtain ⟨num, -, hnum, -⟩ := R.near (epsilon * p) (by linarith [largest_lt_huge (f := f)])
  have inf1 : R.arith.div .pinf (.fin b) = .pinf := by
    show R.arith.fix (if b = 0 then Fl.pinf else Fl.infOf b) = _
    rw [if_neg hb0.ne', Fl.infOf, if_pos hb0]
    rfl
  have inf2 : R.arith.sqrt (R.arith.add .pinf (.fin 1)) = .pinf := rfl
  have inf3 : R.arith.mul (.fin m) .pinf = .pinf := by
    show R.arith.fix (Fl.mul (.fin m) .pinf) = _
    simp [Fl.mul, Fl.infOf, hm, Arith.fix]
  unfold pGrad
  rw [hb, Arith.mul_fin, Arith.mul_fin, R.arith_rnd, hnum, R.over _ hp, inf1, R.arith_lit, R.exact hu.one, inf2, inf3]
  show R.rnd 0 = _
  exact R.rnd_zero

/-- **C113** Adding the displacement to the parameter at most doubles it, however large the parameter is. -/
theorem C113_position {theta v theta' : ℝ} (ht : f.IsRep theta)
    (h : R.arith.add (.fin theta) (.fin v) = .fin theta') : |theta' - theta| ≤ 2 * |v| := by
  rw [Arith.add_fin, R.arith_rnd] at h
  have h1 := R.nearest h theta ht
  rw [add_sub_cancel_left] at h1
  have h2 : theta' - theta = v - (theta + v - theta') := by ring
  rw [h2]
  calc |v - (theta + v - theta')| ≤ |v| + |theta + v - theta'| := abs_sub _ _
    _ ≤ 2 * |v| := by linarith

/-- **C113** The noise of a momentum update is a number as long as the stepsize times the noise estimate is at most
twice the friction: rounding does not turn a non-negative variance into NaN. -/
theorem C113_noise (hu : f.HasUnit) {epsilon d bhat : ℝ} (he : 0 < epsilon) (hd : f.IsRep d)
    (hd2 : |2 * d| ≤ f.largest) (hb : epsilon * bhat ≤ 2 * d) (hfit : |epsilon * bhat| ≤ f.largest) :
    ∃ s : Fl, noiseFactor R.arith (.fin epsilon) (.fin d) (.fin bhat) = s ∧ (s = .pinf ∨ ∃ x, s = .fin x ∧ 0 ≤ x) := by
  refine ⟨_, rfl, ?_⟩
  have hlh := largest_lt_huge (f := f)
  have h2d := hd.double hd2
  obtain ⟨e, -, hE, -⟩ := R.near (epsilon * bhat) (by linarith)
  have hed : e ≤ 2 * d := R.le_rep h2d hb hE
  unfold noiseFactor
  rw [R.arith_lit, R.exact hu.two, Arith.mul_fin, R.arith_rnd, R.exact h2d, Arith.mul_fin, R.arith_rnd, hE,
    Arith.sub_fin, R.arith_rnd]
  rcases R.ge_cases rep_zero (sub_nonneg.2 hed) with h | ⟨x, hx, -, hx0⟩
  · left
    rw [h]
    show R.arith.sqrt (R.arith.fix (Fl.mul (.fin epsilon) .pinf)) = _
    simp [Fl.mul, Fl.infOf, he, Arith.fix, Arith.sqrt, Fl.sqrt]
  · rw [hx, Arith.mul_fin, R.arith_rnd]
    rcases R.ge_cases rep_zero (mul_nonneg he.le hx0) with h | ⟨y, hy, -, hy0⟩
    · rw [h]; exact Or.inl rfl
    · rw [hy, Arith.sqrt_fin _ hy0, R.arith_rnd]
      rcases R.ge_cases rep_zero (Real.sqrt_nonneg y) with h | ⟨z, hz, -, hz0⟩
      · exact Or.inl h
      · exact Or.inr ⟨z, hz, hz0⟩

/-- The default constants, mass and speed of light `1.0`, are safe in `float16`, `float32` and `float64`. -/
theorem default_constants (hu : f.HasUnit) (htu : f.tiny ≤ f.u) : SafeConstants f 1 1 := by
  have h1 := hu.one.abs_le
  have h2 := hu.two.abs_le
  rw [abs_one] at h1
  rw [abs_of_pos two_pos] at h2
  constructor <;> first | exact hu.one | norm_num [IsNormal]
  all_goals linarith

example : float64.HasUnit ∧ float64.u ≤ 1 / 9 ∧ float64.tiny ≤ float64.u ∧ SafeConstants float64 1 1 := by
  have h : float64.tiny ≤ float64.u := by
    unfold tiny u float64
    exact zpow_le_zpow_right₀ (by norm_num) (by norm_num)
  refine ⟨float64_unit, ?_, h, default_constants float64_unit h⟩
  unfold u float64
  norm_num

example : float16.HasUnit ∧ float16.u ≤ 1 / 9 ∧ float16.tiny ≤ float16.u ∧ SafeConstants float16 1 1 ∧
    float16.huge ≤ (2 : ℝ) ^ 10 * 2 ^ 10 ∧ |(0.5 : ℝ) * 2 ^ 10| ≤ float16.largest ∧ float16.IsRep (2 ^ 10) := by
  have h : float16.tiny ≤ float16.u := by
    unfold tiny u float16
    exact zpow_le_zpow_right₀ (by norm_num) (by norm_num)
  refine ⟨float16_unit, ?_, h, default_constants float16_unit h, ?_, ?_, ?_⟩
  · unfold u float16
    norm_num
  · unfold huge float16
    norm_num
  · unfold largest float16
    norm_num
  · have := rep_int (f := float16) (m := 2 ^ 10) (by norm_num [float16]) (by norm_num [float16]) (by norm_num [float16])
    norm_num at this ⊢
    exact this

end PySGMCMC.Rounded
