import Verif.Lemmas.RoundedRatio

/-!
# The adaptive statistics of SGHMC and SGLD in floating point arithmetic (C114)
-/

namespace PySGMCMC.Rounded

open Format

variable {f : Format} (R : Rounding f)

/-- The invariant of the statistics after `k` steps; `M` bounds the squared gradients, `c` is the rounded `1e-16`. -/
structure StatsInv (f : Format) (M c : ℝ) (k : ℕ) (tau g v : ℝ) : Prop where
  tau_rep : f.IsRep tau
  g_rep : f.IsRep g
  v_rep : f.IsRep v
  tau_lo : 3 / 4 ≤ tau
  tau_hi : tau ≤ k + 1
  v_nonneg : 0 ≤ v
  v_hi : v ≤ 2 * M
  small : g ^ 2 ≤ (1 + 32 * f.u) ^ k * (v + guard)
  ratio : g ^ 2 / (v + 3 * c) ≤ 1 + 1000 * f.u
  drift : (g ^ 2 / (v + 3 * c) * tau) ^ 2 ≤ 4 * (tau + 1)

/-- Growth of the unguarded ratio. -/
theorem growth_le_two {u : ℝ} (hu0 : 0 < u) (hu : u ≤ 1 / 10000000) {k : ℕ} (hk : 64 * (k * u) ≤ 1) :
    (1 + 32 * u) ^ k ≤ 2 := by
  have h1 : 1 - k * (32 * u) ≤ (1 - 32 * u) ^ k := by
    have := one_add_mul_le_pow (a := -(32 * u)) (by linarith) k
    have e : 1 + -(32 * u) = 1 - 32 * u := by ring
    rw [e] at this
    linarith
  have h2 : (1 + 32 * u) ^ k * (1 - 32 * u) ^ k ≤ 1 := by
    rw [← mul_pow]
    exact pow_le_one₀ (by nlinarith) (by nlinarith)
  have h3 : 0 < (1 + 32 * u) ^ k := by positivity
  have h4 : (1 + 32 * u) ^ k * (1 / 2) ≤ (1 + 32 * u) ^ k * (1 - 32 * u) ^ k :=
    mul_le_mul_of_nonneg_left (by linarith) h3.le
  linarith

/-- The next window length, from the decrement `D` (`S` or a little more). -/
theorem tau_lower {u T S D tau' : ℝ} (hu0 : 0 < u) (hu : u ≤ 1 / 10000000) (hT : 7 / 4 ≤ T)
    (hS : S ^ 2 ≤ 4 * T) (hS0 : 0 ≤ S) (hS1 : S ≤ (T - 1) * (1 + 1000 * u)) (hD : D = S ∨ D ≤ (T - 1) / 1000)
    (h : T - D - 20 * u * T ≤ tau') : 3 / 4 ≤ tau' := by
  have huT : u * T ≤ 1 / 10000000 * T := mul_le_mul_of_nonneg_right hu (by linarith)
  rcases hD with rfl | hD
  · rcases le_total T 20 with h20 | h20
    · nlinarith
    · have h1 : D ≤ 9 / 20 * T := by
        refine (abs_le_of_sq_le_sq' (a := D) ?_ (by linarith)).2
        nlinarith
      linarith
  · linarith

/-- The next ratio. -/
theorem ratio_upper {u T S rho rho' : ℝ} (hu0 : 0 < u) (hu : u ≤ 1 / 10000000) (hT : 7 / 4 ≤ T)
    (hS : S ^ 2 ≤ 4 * T) (hS0 : 0 ≤ S) (hSr : S = rho * (T - 1)) (hr : rho ≤ 1 + 1000 * u)
    (h : rho' * T ≤ (S + 1) * (1 + 25 * u)) : rho' ≤ 1 + 1000 * u := by
  have hT0 : 0 < T := by linarith
  have hgoal : (S + 1) * (1 + 25 * u) ≤ (1 + 1000 * u) * T := by
    rcases le_total T 20 with h20 | h20
    · have h1 : S ≤ (1 + 1000 * u) * (T - 1) := by
        rw [hSr]
        exact mul_le_mul_of_nonneg_right hr (by linarith)
      have h2 : (S + 1) * (1 + 25 * u) ≤ ((1 + 1000 * u) * (T - 1) + 1) * (1 + 25 * u) :=
        mul_le_mul_of_nonneg_right (by linarith) (by linarith)
      have h3 : u * T ≤ 20 * u := by nlinarith
      have h4 : u * (u * T) ≤ 1 / 10000000 * (u * T) := mul_le_mul_of_nonneg_right hu (by positivity)
      have h5 : 0 < u * u := by positivity
      nlinarith
    · have h1 : S ≤ 9 / 20 * T := by
        refine (abs_le_of_sq_le_sq' (a := S) ?_ (by linarith)).2
        nlinarith
      nlinarith
  exact le_of_mul_le_mul_right (h.trans hgoal) hT0

/-- **C114 (one step).** -/
theorem stats_step (hA : f.Adequate) {M c : ℝ} (hM1 : 1 ≤ M) (hM : M ≤ f.u * f.largest)
    (hc : R.arith.lit 1e-16 = .fin c) (hcr : f.IsRep c) (hcl : 1 / 2 ^ 54 ≤ c) (hch : c ≤ 1 / 2 ^ 53)
    {k : ℕ} (hk : 64 * (((k : ℝ) + 3) * f.u) ≤ 1) {tau g v h : ℝ} (m : Fl) (hI : StatsInv f M c k tau g v)
    (hh : h ^ 2 ≤ M) :
    ∃ tau' g' v', Stats.step R.arith ⟨.fin tau, .fin g, .fin v, m⟩ (.fin h) =
        ⟨.fin tau', .fin g', .fin v', rhsMinv R.arith (.fin v)⟩ ∧
      StatsInv f M c (k + 1) tau' g' v' := by
  have hu0 : 0 < f.u := u_pos
  have hu := hA.u_small
  have hc0 : 0 < c := lt_of_lt_of_le (by positivity) hcl
  have hc1 : 3 * c ≤ 1 / 1000 := by
    have : 3 * c ≤ 3 * (1 / 2 ^ 53) := by linarith
    exact this.trans (by norm_num)
  have hv0 := hI.v_nonneg
  have hvc : 0 < v + 3 * c := by linarith
  have ht34 := hI.tau_lo
  have htk := hI.tau_hi
  have hk0 : (0 : ℝ) ≤ k := Nat.cast_nonneg k
  have htu : (tau + 1) * f.u ≤ ((k : ℝ) + 3) * f.u := mul_le_mul_of_nonneg_right (by linarith) hu0.le
  have hT64 : 64 * ((tau + 1) * f.u) ≤ 1 := by linarith
  have hML : 8 * M ≤ f.largest := by
    have h1 : f.u * f.largest ≤ 1 / 8 * f.largest := mul_le_mul_of_nonneg_right (by linarith) largest_pos.le
    linarith
  have hTL : tau + 1 ≤ f.largest := by
    have h1 : (tau + 1) * f.u ≤ f.largest * f.u := by linarith
    exact le_of_mul_le_mul_right h1 hu0
  obtain ⟨r, hr, -, hr0, hr1, hrT, hr32⟩ := rate_step R hA hI.tau_rep ht34 hT64 hTL
  obtain ⟨v', hv', hv'r, hv'0, hv'M, hv'l⟩ := vhat_step R hA hr0 hr1 hI.v_rep hv0 hI.v_hi hh hM1 hML
  -- sizes
  set rho := g ^ 2 / (v + 3 * c) with hrho
  have hrho0 : 0 ≤ rho := by positivity
  have hgr : g ^ 2 = rho * (v + 3 * c) := by rw [hrho]; field_simp
  have hr2 : rho ≤ 11 / 10 := hI.ratio.trans (by linarith)
  have hg4 : g ^ 2 ≤ 4 * M := by
    rw [hgr]
    have : rho * (v + 3 * c) ≤ 11 / 10 * (v + 3 * c) := mul_le_mul_of_nonneg_right hr2 hvc.le
    have := hI.v_hi
    linarith
  have hg2M : |g| ≤ 2 * M := by
    refine abs_le_of_sq_le_sq ?_ (by linarith)
    nlinarith
  have hhM : |h| ≤ M := by
    refine abs_le_of_sq_le_sq ?_ (by linarith)
    nlinarith
  obtain ⟨g', hg', hg'r, hg'u⟩ := g_step R hA hr0 hr1 hI.g_rep hg2M hhM hM1 hML
  -- the unguarded ratio
  have hP2 : (1 + 32 * f.u) ^ k ≤ 2 := by
    refine growth_le_two hu0 hu ?_
    have : (k : ℝ) * f.u ≤ ((k : ℝ) + 3) * f.u := mul_le_mul_of_nonneg_right (by linarith) hu0.le
    linarith
  have hP1 : 1 ≤ (1 + 32 * f.u) ^ k := one_le_pow₀ (by linarith)
  have hgp := guard_pos
  have hgc : guard ≤ c / 1000000 := by
    have : guard ≤ 1 / 2 ^ 54 / 1000000 := by unfold guard; norm_num
    linarith
  have hsmall : g' ^ 2 ≤ (1 + 32 * f.u) ^ (k + 1) * (v' + guard) := by
    have h1 := ratio_step hA hr32 hr1 hv0 le_rfl (by linarith : 0 ≤ (1 + 32 * f.u) ^ k) hI.small hv'l hg'u
    refine h1.trans (mul_le_mul_of_nonneg_right ?_ (by linarith))
    rw [pow_succ]
    refine mul_le_mul ?_ (by linarith) (by linarith) (by linarith)
    nlinarith
  -- the guarded ratio
  have hratio := ratio_step hA hr32 hr1 hv0 (by linarith : guard ≤ 3 * c) hrho0 hgr.le hv'l hg'u
  have hvc' : 0 < v' + 3 * c := by linarith
  set rho' := g' ^ 2 / (v' + 3 * c) with hrho'
  have hrho'0 : 0 ≤ rho' := by positivity
  have hrr : rho' ≤ ((1 - r) * rho + r) * (1 + 20 * f.u) := by
    rw [hrho', div_le_iff₀ hvc']
    exact hratio
  have hrT' : rho' * (tau + 1) ≤ (rho * tau + 1) * (1 + 25 * f.u) :=
    (mul_le_mul_of_nonneg_right hrr (by linarith)).trans (rate_ratio hu0 hu ht34 hrho0 hrT)
  set S := rho * tau with hSdef
  have hS0 : 0 ≤ S := by positivity
  have hdrift : S ^ 2 ≤ 4 * (tau + 1) := hI.drift
  -- the window length
  set D := g ^ 2 * tau / guarded v c with hDdef
  have hD : (D = S ∨ D ≤ (tau + 1 - 1) / 1000) ∧ S ≤ D := by
    rcases eq_or_ne v 0 with h0 | h0
    · have hG : guarded v c = c := if_pos h0
      have hg2 : g ^ 2 ≤ 2 * guard := by
        have := hI.small
        rw [h0, zero_add] at this
        exact this.trans (mul_le_mul_of_nonneg_right hP2 hgp.le)
      constructor
      · right
        rw [hDdef, hG, div_le_iff₀ hc0]
        have : g ^ 2 * tau ≤ 2 * guard * tau := mul_le_mul_of_nonneg_right hg2 (by linarith)
        have h3 : guard * tau ≤ c / 1000000 * tau := mul_le_mul_of_nonneg_right hgc (by linarith)
        have h4 : 0 < c * tau := by positivity
        linarith
      · have : S = g ^ 2 * tau / (3 * c) := by
          rw [hSdef, hrho, h0, zero_add]
          ring
        rw [this, hDdef, hG]
        have h5 : 0 ≤ g ^ 2 * tau := by positivity
        exact div_le_div_of_nonneg_left h5 hc0 (by linarith)
    · have hG : guarded v c = v + 3 * c := if_neg h0
      have : D = S := by
        rw [hDdef, hG, hSdef, hrho]
        ring
      exact ⟨Or.inl this, this.ge⟩
  have hS1 : S ≤ (tau + 1 - 1) * (1 + 1000 * f.u) := by
    rw [hSdef, add_sub_cancel_right, mul_comm tau]
    exact mul_le_mul_of_nonneg_right hI.ratio (by linarith)
  have hD2 : D ≤ 2 * tau := by
    rcases hD.1 with h1 | h1
    · rw [h1, hSdef]
      exact mul_le_mul_of_nonneg_right (by linarith) (by linarith)
    · linarith
  obtain ⟨tau', ht', ht'r, ht'e, ht'b⟩ := tau_step R hA hI.tau_rep hI.v_rep hv0 ht34 hT64 hI.v_hi hg4 hM1 hM hc hcr
    hcl hch hD2
  have ht'e' := abs_le.mp ht'e
  have hlo : 3 / 4 ≤ tau' := by
    refine tau_lower (T := tau + 1) (S := S) (D := D) hu0 hu (by linarith) hdrift hS0 hS1 hD.1 ?_
    linarith
  refine ⟨tau', g', v', ?_, ⟨ht'r, hg'r, hv'r, hlo, ?_, hv'0, hv'M, hsmall, ?_, ?_⟩⟩
  · unfold Stats.step
    simp only [hr, ht', hg', hv']
  · have hint : f.IsRep (((k : ℤ) + 2 : ℤ) : ℝ) := by
      refine rep_int hA.unit.1 hA.unit.2 ?_
      rw [abs_of_nonneg (by omega)]
      have h1 : ((k : ℝ) + 2) * f.u < 1 := by
        have : ((k : ℝ) + 2) * f.u ≤ ((k : ℝ) + 3) * f.u := mul_le_mul_of_nonneg_right (by linarith) hu0.le
        linarith
      have h2 : f.u * 2 ^ f.prec = 1 := by
        unfold u
        rw [← zpow_natCast, ← zpow_add₀ two_ne_zero]
        simp
      have h3 : ((k : ℝ) + 2) < 2 ^ f.prec := by
        have h4 : ((k : ℝ) + 2) * f.u < 2 ^ f.prec * f.u := by linarith
        exact lt_of_mul_lt_mul_right h4 hu0.le
      exact_mod_cast h3
    have := ht'b _ hint (by push_cast; linarith)
    push_cast at this ⊢
    linarith
  · exact ratio_upper hu0 hu (by linarith) hdrift hS0 (by rw [hSdef]; ring) hI.ratio hrT'
  · refine ratio_invariant hu0.le hu (T := tau + 1) (S := S) (by linarith) hT64 hS0 hdrift hrho'0 hrT' (by linarith) ?_
    linarith [hD.2]

/-- The inverse mass is a positive number, however small or large the second moment is. -/
theorem minv_step (hA : f.Adequate) {M v c : ℝ} (hv : f.IsRep v) (hv0 : 0 ≤ v) (hvM : v ≤ 2 * M) (hM1 : 1 ≤ M)
    (hM : M ≤ f.u * f.largest) (hc : R.arith.lit 1e-16 = .fin c) (hcr : f.IsRep c) (hcl : 1 / 2 ^ 54 ≤ c)
    (hch : c ≤ 1 / 2 ^ 53) :
    ∃ m, rhsMinv R.arith (.fin v) = .fin m ∧ f.IsRep m ∧ 0 < m ∧ m ≤ 2 ^ 54 := by
  have hu0 : 0 < f.u := u_pos
  have hu := hA.u_small
  have hc0 : 0 < c := lt_of_lt_of_le (by positivity) hcl
  have hc1 : c ≤ 1 / 1000 := hch.trans (by norm_num)
  have hML : 8 * M ≤ f.largest := by
    have h1 : f.u * f.largest ≤ 1 / 8 * f.largest := mul_le_mul_of_nonneg_right (by linarith) largest_pos.le
    linarith
  obtain ⟨s, hs, hsr, hs0, -, -, hsv⟩ := C110_safe_sqrt R hA.unit hv
  have hs2 : s ≤ 2 * M := hsv.trans (max_le hvM (by linarith))
  obtain ⟨d, hd, hdr, hde⟩ := guarded_den R hA hsr hs0 hcr hc0 (by linarith)
  obtain ⟨hNc, hNs⟩ := guarded_ge hs0 hc0
  have hN0 : 0 < guarded s c := hc0.trans_le hNc
  have hde' := abs_le.mp hde
  have huN : f.u * guarded s c ≤ 1 / 10000000 * guarded s c := mul_le_mul_of_nonneg_right hu hN0.le
  have hd0 : 0 < d := by linarith
  have hN1 : guarded s c ≤ 2 * M + 1 := by
    unfold guarded
    split_ifs <;> linarith
  have hdL : d ≤ f.largest := by linarith
  have hdc : c ≤ d := by
    rcases safeDivide_den R hA.unit hsr hcr hc0 (by linarith) with ⟨_, h | ⟨d', h, -, h1, -⟩⟩ | ⟨h, -⟩
    · rw [hd] at h; cases h
    · rw [hd] at h; cases h; exact h1
    · linarith
  have hq54 : 1 / d ≤ 2 ^ 54 := by
    rw [div_le_iff₀ hd0]
    have : (1 : ℝ) = 2 ^ 54 * (1 / 2 ^ 54) := by norm_num
    calc (1 : ℝ) = 2 ^ 54 * (1 / 2 ^ 54) := this
      _ ≤ 2 ^ 54 * d := mul_le_mul_of_nonneg_left (hcl.trans hdc) (by positivity)
  have hq0 : f.tiny ≤ 1 / d := by
    rw [le_div_iff₀ hd0]
    calc f.tiny * d ≤ f.tiny * f.largest := mul_le_mul_of_nonneg_left hdL tiny_pos.le
      _ ≤ 1 := hA.recip
  -- `2 ^ 54` is a number of the format
  have h54 : f.IsRep ((2 : ℝ) ^ 54) := hA.rep_pow (by norm_num)
  have h54L : (2 : ℝ) ^ 54 ≤ f.largest := by
    have := h54.abs_le
    rwa [abs_of_pos (by positivity)] at this
  obtain ⟨m, hmr, hm⟩ := near_of_le R (x := 1 / d) (by
    rw [abs_of_pos (by positivity)]
    linarith)
  refine ⟨m, ?_, hmr, tiny_pos.trans_le (R.rep_le rep_tiny hq0 hm), R.le_rep h54 hq54 hm⟩
  unfold rhsMinv safeDivide' safeDivide
  rw [hs, hc, hd, R.arith_lit, R.exact hA.unit.one, Arith.div_fin _ hd0.ne', R.arith_rnd, hm]

/-- The default constant `1e-16`. -/
theorem lit_default (hA : f.Adequate) :
    ∃ c, R.arith.lit 1e-16 = .fin c ∧ f.IsRep c ∧ 1 / 2 ^ 54 ≤ c ∧ c ≤ 1 / 2 ^ 53 := by
  obtain ⟨c, hc, hr, hl, hh⟩ := lit_small R hA.emin_le hA.unit.2
  refine ⟨c, hc, hr, le_trans (by norm_num) hl, hh.trans (by norm_num)⟩

/-- The initial statistics satisfy the invariant. -/
theorem stats_init (hA : f.Adequate) {M c : ℝ} (hM1 : 1 ≤ M) (hc0 : 0 < c) :
    Stats.init R.arith = ⟨.fin 1, .fin 1, .fin 1, .fin 1⟩ ∧ StatsInv f M c 0 1 1 1 := by
  have h1 := hA.unit.one
  have hu0 : 0 < f.u := u_pos
  have hr : (1 : ℝ) ^ 2 / (1 + 3 * c) ≤ 1 := by
    rw [one_pow, div_le_one (by linarith)]
    linarith
  have hr0 : 0 ≤ (1 : ℝ) ^ 2 / (1 + 3 * c) := by positivity
  constructor
  · unfold Stats.init
    simp only [R.arith_lit, R.exact h1]
    rw [Arith.sqrt_fin _ one_pos.le, R.arith_rnd, Real.sqrt_one, R.exact h1, Arith.div_fin _ one_ne_zero, R.arith_rnd,
      div_one, R.exact h1]
  · refine ⟨h1, h1, h1, by norm_num, by norm_num, by norm_num, by linarith, ?_, by linarith, ?_⟩
    · have := guard_pos
      simp only [pow_zero, one_pow, one_mul]
      linarith
    · rw [mul_one]
      nlinarith

/-- The invariant holds after every history of gradients. -/
theorem stats_inv (hA : f.Adequate) {M c : ℝ} (hM1 : 1 ≤ M) (hM : M ≤ f.u * f.largest)
    (hc : R.arith.lit 1e-16 = .fin c) (hcr : f.IsRep c) (hcl : 1 / 2 ^ 54 ≤ c) (hch : c ≤ 1 / 2 ^ 53) (grads : List ℝ)
    (hG : ∀ h ∈ grads, h ^ 2 ≤ M) (hk : 64 * (((grads.length : ℝ) + 2) * f.u) ≤ 1) :
    ∃ tau g v m, Stats.after R.arith (grads.map .fin) = ⟨.fin tau, .fin g, .fin v, .fin m⟩ ∧
      StatsInv f M c grads.length tau g v ∧ 0 < m ∧ m ≤ 2 ^ 54 := by
  have hc0 : 0 < c := lt_of_lt_of_le (by positivity) hcl
  have hu0 : 0 < f.u := u_pos
  induction grads using List.reverseRecOn with
  | nil =>
    obtain ⟨h1, h2⟩ := stats_init R hA hM1 hc0
    exact ⟨1, 1, 1, 1, h1, h2, one_pos, by norm_num⟩
  | append_singleton grads h ih =>
    have hk0 : (0 : ℝ) ≤ grads.length := Nat.cast_nonneg _
    rw [List.length_append] at hk
    push_cast at hk
    obtain ⟨tau, g, v, m, he, hI, -, -⟩ := ih (fun x hx => hG x (by simp [hx])) (by nlinarith)
    obtain ⟨tau', g', v', he', hI'⟩ := stats_step R hA hM1 hM hc hcr hcl hch (k := grads.length)
      (by
        have e : (grads.length : ℝ) + 3 = grads.length + 1 + 2 := by ring
        rw [e]
        simpa using hk) (.fin m) hI (hG h (by simp))
    obtain ⟨m', hm', -, hm0, hm1⟩ := minv_step R hA hI.v_rep hI.v_nonneg hI.v_hi hM1 hM hc hcr hcl hch
    refine ⟨tau', g', v', m', ?_, by simpa using hI', hm0, hm1⟩
    unfold Stats.after at he ⊢
    rw [List.map_append, List.foldl_append, he]
    simp only [List.map_cons, List.map_nil, List.foldl_cons, List.foldl_nil]
    rw [he', hm']

/-- **C114 (statistics in floating point).**  In `float32`, `float64` and every other adequate format, for every
history of gradients whose squares leave some room to the largest number, and for every rule to break ties: all
statistics are numbers at every step.  The window length `tau` stays in `[3/4, k + 1]`, the second moment is
non-negative and bounded, the squared first moment is at most the second moment up to rounding and the guard, and the
inverse mass is positive and at most `2 ^ 54`.  The number of steps may be up to `1 / (64 u)`: more than 260,000 in
`float32` and `10 ^ 14` in `float64`. -/
theorem C114_statistics (hA : f.Adequate) {M : ℝ} (hM1 : 1 ≤ M) (hM : M ≤ f.u * f.largest) (grads : List ℝ)
    (hG : ∀ h ∈ grads, h ^ 2 ≤ M) (hk : 64 * (((grads.length : ℝ) + 2) * f.u) ≤ 1) :
    ∃ tau g v m, Stats.after R.arith (grads.map .fin) = ⟨.fin tau, .fin g, .fin v, .fin m⟩ ∧
      3 / 4 ≤ tau ∧ tau ≤ grads.length + 1 ∧ 0 ≤ v ∧ v ≤ 2 * M ∧
      g ^ 2 ≤ (1 + 1000 * f.u) * (v + 3 / 2 ^ 53) ∧ 0 < m ∧ m ≤ 2 ^ 54 := by
  obtain ⟨c, hc, hcr, hcl, hch⟩ := lit_default R hA
  have hc0 : 0 < c := lt_of_lt_of_le (by positivity) hcl
  have hu0 : 0 < f.u := u_pos
  obtain ⟨tau, g, v, m, he, hI, hm0, hm1⟩ := stats_inv R hA hM1 hM hc hcr hcl hch grads hG hk
  refine ⟨tau, g, v, m, he, hI.tau_lo, hI.tau_hi, hI.v_nonneg, hI.v_hi, ?_, hm0, hm1⟩
  have h1 := hI.ratio
  have hv := hI.v_nonneg
  rw [div_le_iff₀ (by linarith)] at h1
  refine h1.trans (mul_le_mul_of_nonneg_left ?_ (by linarith))
  have : 3 * c ≤ 3 * (1 / 2 ^ 53) := by linarith
  linarith

/-- The rate after `k` steps. -/
theorem inv_rate (hA : f.Adequate) {M c : ℝ} {k : ℕ} {tau g v : ℝ} (hM1 : 1 ≤ M) (hM : M ≤ f.u * f.largest)
    (hI : StatsInv f M c k tau g v) (hk : 64 * (((k : ℝ) + 2) * f.u) ≤ 1) :
    ∃ r, rhsR R.arith (.fin tau) = .fin r ∧ f.IsRep r ∧ 0 < r ∧ r ≤ 5 / 8 ∧
      |r - 1 / (tau + 1)| ≤ 3 * f.u / (tau + 1) := by
  have hu0 : 0 < f.u := u_pos
  have htk := hI.tau_hi
  have htu : (tau + 1) * f.u ≤ ((k : ℝ) + 2) * f.u := mul_le_mul_of_nonneg_right (by linarith) hu0.le
  have hT64 : 64 * ((tau + 1) * f.u) ≤ 1 := by linarith
  have hTL : tau + 1 ≤ f.largest := by
    have h1 : 1 ≤ f.u * f.largest := hM1.trans hM
    have h2 : (tau + 1) * f.u ≤ f.largest * f.u := by linarith
    exact le_of_mul_le_mul_right h2 hu0
  obtain ⟨r, h1, h2, h3, h4, h5, -⟩ := rate_step R hA hI.tau_rep hI.tau_lo hT64 hTL
  exact ⟨r, h1, h2, h3, h4, h5⟩

/-- **C114 (learning rate).**  Under the same conditions the rate at which the next gradient enters the averages is a
positive number, at most `5/8`, and correct up to three roundings. -/
theorem C114_rate (hA : f.Adequate) {M : ℝ} (hM1 : 1 ≤ M) (hM : M ≤ f.u * f.largest) (grads : List ℝ)
    (hG : ∀ h ∈ grads, h ^ 2 ≤ M) (hk : 64 * (((grads.length : ℝ) + 2) * f.u) ≤ 1) :
    ∃ tau r : ℝ, (Stats.after R.arith (grads.map .fin)).tau = .fin tau ∧
      rhsR R.arith (Stats.after R.arith (grads.map .fin)).tau = .fin r ∧ 0 < r ∧ r ≤ 5 / 8 ∧
      |r - 1 / (tau + 1)| ≤ 3 * f.u / (tau + 1) := by
  obtain ⟨c, hc, hcr, hcl, hch⟩ := lit_default R hA
  obtain ⟨tau, g, v, m, he, hI, -⟩ := stats_inv R hA hM1 hM hc hcr hcl hch grads hG hk
  obtain ⟨r, h1, -, h2, h3, h4⟩ := inv_rate R hA hM1 hM hI hk
  exact ⟨tau, r, by rw [he], by rw [he]; exact h1, h2, h3, h4⟩

/-! ### Beyond the hypothesis -/

theorem add_pinf_ninf (x : Fl) : R.arith.add .pinf (R.arith.add .ninf x) = .nan := by
  cases x <;> rfl

theorem vhat_nan (s : Stats) (h : s.vhat = .nan) (x : Fl) : (Stats.step R.arith s x).vhat = .nan := by
  unfold Stats.step
  rw [h]
  rfl

theorem vhat_nan_foldl (l : List Fl) (s : Stats) (h : s.vhat = .nan) : (l.foldl (Stats.step R.arith) s).vhat = .nan := by
  induction l generalizing s with
  | nil => exact h
  | cons x l ih => exact ih _ (vhat_nan R s h x)

theorem minv_nan (s : Stats) (h : s.vhat = .nan) (x : Fl) : (Stats.step R.arith s x).minv = .nan := by
  unfold Stats.step rhsMinv safeDivide' safeDivide safeSqrt
  rw [h]
  show R.arith.div _ (R.arith.add .nan _) = .nan
  simp [Arith.add, Arith.div, Arith.fix]

theorem infOf_pos {r : ℝ} (h : 0 < r) : Fl.fin r * .pinf = .pinf := if_pos h

theorem infOf_neg {r : ℝ} (h : 0 < r) : Fl.fin (-r) * .pinf = .ninf := by
  show Fl.infOf (-r) = _
  unfold Fl.infOf
  rw [if_neg (by linarith), if_pos (by linarith)]

/-- **C114 (overflow).**  The condition on the gradients is needed: a single gradient whose square overflows makes the
second moment infinite, then the inverse mass 0, and one step later both are NaN for good, whatever gradients
follow. -/
theorem C114_overflow (hA : f.Adequate) {M : ℝ} (hM1 : 1 ≤ M) (hM : M ≤ f.u * f.largest) (grads : List ℝ)
    (hG : ∀ h ∈ grads, h ^ 2 ≤ M) (hk : 64 * (((grads.length : ℝ) + 3) * f.u) ≤ 1) {h : ℝ} (hh : f.huge ≤ h ^ 2)
    (x y : Fl) (rest : List Fl) :
    (Stats.after R.arith (grads.map .fin ++ [.fin h])).vhat = .pinf ∧
      (Stats.after R.arith (grads.map .fin ++ [.fin h, x])).minv = .fin 0 ∧
      (Stats.after R.arith (grads.map .fin ++ .fin h :: x :: rest)).vhat = .nan ∧
      (Stats.after R.arith (grads.map .fin ++ .fin h :: x :: (rest ++ [y]))).minv = .nan := by
  obtain ⟨c, hc, hcr, hcl, hch⟩ := lit_default R hA
  have hu0 : 0 < f.u := u_pos
  obtain ⟨tau, g, v, m, he, hI, -⟩ := stats_inv R hA hM1 hM hc hcr hcl hch grads hG (by nlinarith)
  obtain ⟨r, hr, -, hr0, hr58, -⟩ := inv_rate R hA hM1 hM hI (by nlinarith)
  obtain ⟨tau', g', v', hs', hI'⟩ := stats_step R hA hM1 hM hc hcr hcl hch hk (.fin m) hI (h := 0) (by linarith)
  obtain ⟨r', hr', -, hr'0, -⟩ := inv_rate R hA hM1 hM hI' (by
    have e : ((grads.length + 1 : ℕ) : ℝ) + 2 = grads.length + 3 := by push_cast; ring
    rw [e]
    exact hk)
  set s1 := Stats.step R.arith ⟨.fin tau, .fin g, .fin v, .fin m⟩ (.fin h) with hs1
  have htau1 : s1.tau = .fin tau' := congrArg Stats.tau hs'
  have hv1 : s1.vhat = .pinf := by
    show R.arith.add (.fin v) (rhsVhat R.arith (rhsR R.arith (.fin tau)) (.fin v) (.fin h)) = .pinf
    unfold rhsVhat
    rw [hr, Arith.pow_fin, R.arith_rnd, R.over _ hh, Fl.neg_fin, Arith.mul_fin, R.arith_rnd]
    have e1 : R.arith.mul (.fin r) .pinf = .pinf := by
      unfold Arith.mul
      rw [infOf_pos hr0]
      rfl
    rw [e1]
    have e2 : R.arith.add (R.rnd (-r * v)) .pinf = .pinf := by
      rcases R.le_cases (b := 0) rep_zero (x := -r * v) (by nlinarith [hI.v_nonneg]) with h1 | ⟨y, h1, -⟩
      · exfalso
        have h2 := R.between (a := -v) (b := 0) hI.v_rep.neg rep_zero (x := -r * v) (by
          have : r * v ≤ 1 * v := mul_le_mul_of_nonneg_right (by linarith) hI.v_nonneg
          linarith) (by nlinarith [hI.v_nonneg])
        obtain ⟨y, h3, -⟩ := h2
        rw [h1] at h3
        cases h3
      · rw [h1]
        rfl
    rw [e2]
    rfl
  have hafter : ∀ l, Stats.after R.arith (grads.map .fin ++ .fin h :: l) = l.foldl (Stats.step R.arith) s1 := by
    intro l
    unfold Stats.after at he ⊢
    rw [List.foldl_append, he, List.foldl_cons]
  have hv2 : (Stats.step R.arith s1 x).vhat = .nan := by
    show R.arith.add s1.vhat (rhsVhat R.arith (rhsR R.arith s1.tau) s1.vhat x) = .nan
    unfold rhsVhat
    rw [hv1, htau1, hr', Fl.neg_fin]
    have e1 : R.arith.mul (.fin (-r')) .pinf = .ninf := by
      unfold Arith.mul
      rw [infOf_neg hr'0]
      rfl
    rw [e1]
    exact add_pinf_ninf R _
  refine ⟨?_, ?_, ?_, ?_⟩
  · rw [hafter]
    exact hv1
  · rw [hafter]
    show rhsMinv R.arith s1.vhat = .fin 0
    unfold rhsMinv safeDivide' safeDivide safeSqrt
    rw [hv1, hc]
    have e1 : R.arith.sqrt (Fl.max (Fl.min .pinf .pinf) (R.arith.lit 0)) = .pinf := by
      rw [R.arith_lit, R.rnd_zero]
      rfl
    have h1 := hA.unit.one
    have h2 := hA.unit.two
    rw [e1, R.arith_lit, R.arith_lit, R.exact h1, R.exact h2]
    have e2 : R.arith.mul (.fin 2) (Fl.sign .pinf) = .fin 2 := by
      show R.arith.mul (.fin 2) (.fin 1) = _
      rw [Arith.mul_fin, R.arith_rnd, mul_one, R.exact h2]
    have hc0 : 0 < c := lt_of_lt_of_le (by positivity) hcl
    have hcd : c ≤ 1 / 1000 := hch.trans (by norm_num)
    have hL := one_le_largest hA
    have hcc := hcr.double (by rw [abs_of_pos (by linarith)]; linarith)
    rw [e2, Arith.mul_fin, R.arith_rnd, R.exact hcc, Arith.add_fin, R.arith_rnd]
    obtain ⟨y, -, hy⟩ := near_of_le R (x := 2 * c + c) (by rw [abs_of_pos (by linarith)]; linarith)
    rw [hy]
    show R.rnd 0 = .fin 0
    exact R.rnd_zero
  · rw [hafter, List.foldl_cons]
    exact vhat_nan_foldl R _ _ hv2
  · rw [hafter, List.foldl_cons, List.foldl_append]
    exact minv_nan R _ (vhat_nan_foldl R _ _ hv2) _

/-! ### Concrete cases -/

/-- In `float32`: gradients up to `10 ^ 10` and 250,000 steps. -/
example (R : Rounding float32) (grads : List ℝ) (hG : ∀ h ∈ grads, |h| ≤ 10 ^ 10) (hk : grads.length ≤ 250000) :
    ∃ tau g v m, Stats.after R.arith (grads.map .fin) = ⟨.fin tau, .fin g, .fin v, .fin m⟩ ∧ 3 / 4 ≤ tau ∧ 0 < m := by
  have hu : float32.u = 1 / 2 ^ 24 := by
    simp only [u, float32]
    norm_num
  obtain ⟨tau, g, v, m, h, h1, -, -, -, -, h2, -⟩ := C114_statistics R float32_adequate (M := 10 ^ 20) (by norm_num)
    (by
      rw [hu]
      simp only [largest, float32]
      have : (2 : ℝ) ^ (104 : ℤ) = 2 ^ 104 := by norm_cast
      rw [this]
      norm_num) grads
    (fun h hh => by
      have := hG h hh
      rw [← sq_abs]
      calc |h| ^ 2 ≤ (10 ^ 10) ^ 2 := pow_le_pow_left₀ (abs_nonneg _) this 2
        _ = 10 ^ 20 := by norm_num)
    (by
      have : (grads.length : ℝ) ≤ 250000 := by exact_mod_cast hk
      rw [hu]
      linarith)
  exact ⟨tau, g, v, m, h, h1, h2⟩

/-- In `float32` a gradient of `10 ^ 20` in the first step ruins the statistics for good. -/
example (R : Rounding float32) (x y : Fl) (rest : List Fl) :
    (Stats.after R.arith (.fin (10 ^ 20) :: x :: (rest ++ [y]))).minv = .nan := by
  have hu : float32.u = 1 / 2 ^ 24 := by
    simp only [u, float32]
    norm_num
  have h104 : (2 : ℝ) ^ (104 : ℤ) = 2 ^ 104 := by norm_cast
  exact (C114_overflow R float32_adequate (M := 1) le_rfl
    (by
      rw [hu]
      simp only [largest, float32, h104]
      norm_num) [] (by simp) (by rw [hu]; norm_num) (h := 10 ^ 20)
    (by
      simp only [huge, float32, h104]
      norm_num) x y rest).2.2.2

end PySGMCMC.Rounded
