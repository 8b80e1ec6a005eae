import Verif.Model.BurnInStats
import Verif.Props.TensorUtils

namespace PySGMCMC.BurnInStats
open TensorUtils

/-- The default `small_constant`. -/
noncomputable def c16 : ℝ := 1e-16

theorem c16_pos : 0 < c16 := by unfold c16; norm_num

theorem safeDivide'_pos (x : ℝ) {y : ℝ} (hy : 0 < y) :
    safeDivide' (.fin x) (.fin y) = .fin (x / (y + 3 * c16)) := by
  obtain ⟨d, hd, he, h⟩ := safeDivide_fin x y c16 c16_pos
  rcases h with ⟨_, rfl⟩ | ⟨h, _⟩ | ⟨h, _⟩
  · exact he
  · linarith
  · linarith

theorem safeSqrt_pos {x : ℝ} (hx : 0 ≤ x) : safeSqrt (.fin x) = .fin (Real.sqrt x) := by
  obtain ⟨r, h1, h2, h3, _⟩ := C24_safe_sqrt x
  rw [h1]
  congr 1
  rw [← h3 hx, Real.sqrt_mul_self h2]

theorem rhsR_fin {t : ℝ} (h : 1 ≤ t) : rhsR (.fin t) = .fin (1 / (t + 1)) := by
  unfold rhsR
  rw [Fl.ofNat_one, Fl.add_fin, Fl.div_fin (by linarith)]

theorem rhsTau_fin (g t : ℝ) {v : ℝ} (hv : 0 < v) :
    rhsTau (.fin g) (.fin t) (.fin v) = .fin (-(g * g * t) / (v + 3 * c16) + 1) := by
  unfold rhsTau
  rw [Fl.neg_fin, Fl.mul_fin, Fl.mul_fin, safeDivide'_pos _ hv, Fl.ofNat_one, Fl.add_fin]
  congr 2
  ring

theorem rhsMinv_fin {v : ℝ} (hv : 0 < v) : rhsMinv (.fin v) = .fin (1 / (Real.sqrt v + 3 * c16)) := by
  unfold rhsMinv
  rw [safeSqrt_pos hv.le, Fl.ofNat_one, safeDivide'_pos _ (Real.sqrt_pos.2 hv)]

theorem rhsG_fin (r g x : ℝ) : rhsG (.fin r) (.fin g) (.fin x) = .fin (-r * g + r * x) := by
  unfold rhsG; simp

theorem rhsVhat_fin (r v x : ℝ) : rhsVhat (.fin r) (.fin v) (.fin x) = .fin (-r * v + r * x ^ 2) := by
  unfold rhsVhat; simp

/-- The invariant of the statistics of one coordinate (window, gradient average, squared-gradient average). -/
structure Ok (τ γ ν : ℝ) : Prop where
  tau : 1 ≤ τ
  sq : γ ^ 2 ≤ ν
  pos : 0 < ν

theorem ok_init : Ok 1 1 1 := ⟨le_rfl, by norm_num, one_pos⟩

theorem rate_bounds {τ : ℝ} (h : 1 ≤ τ) : 0 < 1 / (τ + 1) ∧ 1 / (τ + 1) ≤ 1 / 2 := by
  constructor
  · positivity
  · apply one_div_le_one_div_of_le <;> linarith

theorem ratio_bounds {γ ν : ℝ} (hsq : γ ^ 2 ≤ ν) (hpos : 0 < ν) :
    0 ≤ γ ^ 2 / (ν + 3 * c16) ∧ γ ^ 2 / (ν + 3 * c16) ≤ 1 := by
  have := c16_pos
  constructor
  · positivity
  · rw [div_le_one (by linarith)]; linarith

theorem ok_step {τ γ ν : ℝ} (h : Ok τ γ ν) (x : ℝ) :
    Ok (τ + (-(γ * γ * τ) / (ν + 3 * c16) + 1)) (γ + (-(1 / (τ + 1)) * γ + 1 / (τ + 1) * x))
      (ν + (-(1 / (τ + 1)) * ν + 1 / (τ + 1) * x ^ 2)) := by
  obtain ⟨r1, r2⟩ := rate_bounds h.tau
  obtain ⟨q1, q2⟩ := ratio_bounds h.sq h.pos
  set r := 1 / (τ + 1) with hr
  refine ⟨?_, ?_, ?_⟩
  · have : -(γ * γ * τ) / (ν + 3 * c16) = -(γ ^ 2 / (ν + 3 * c16)) * τ := by ring
    rw [this]
    have h1 := h.tau
    nlinarith
  · have h1 := h.sq
    nlinarith [mul_nonneg r1.le (sub_nonneg.2 r2), sq_nonneg (γ - x),
      mul_nonneg (mul_nonneg r1.le (by linarith : 0 ≤ 1 - r)) (sq_nonneg (γ - x)),
      mul_nonneg (by linarith : 0 ≤ 1 - r) (sub_nonneg.2 h1)]
  · have h1 := h.pos
    nlinarith [mul_nonneg r1.le (sq_nonneg x), mul_pos (by linarith : 0 < 1 - r) h1]

/-- Growth of the window. -/
theorem tau_step_le {τ γ ν : ℝ} (h : Ok τ γ ν) : τ + (-(γ * γ * τ) / (ν + 3 * c16) + 1) ≤ τ + 1 := by
  obtain ⟨q1, q2⟩ := ratio_bounds h.sq h.pos
  have : -(γ * γ * τ) / (ν + 3 * c16) = -(γ ^ 2 / (ν + 3 * c16)) * τ := by ring
  rw [this]
  have h1 := h.tau
  nlinarith

/-- Upper bound of the squared-gradient average. -/
theorem vhat_step_le {τ γ ν G x : ℝ} (h : Ok τ γ ν) (hν : ν ≤ G ^ 2) (hx : |x| ≤ G) :
    ν + (-(1 / (τ + 1)) * ν + 1 / (τ + 1) * x ^ 2) ≤ G ^ 2 := by
  obtain ⟨r1, r2⟩ := rate_bounds h.tau
  set r := 1 / (τ + 1)
  have hx2 : x ^ 2 ≤ G ^ 2 := by
    rw [← sq_abs x]
    exact pow_le_pow_left₀ (abs_nonneg x) hx 2
  nlinarith

/-- Lower bound of the squared-gradient average. -/
theorem vhat_step_ge {τ γ ν : ℝ} (h : Ok τ γ ν) (x : ℝ) :
    ν / 2 ≤ ν + (-(1 / (τ + 1)) * ν + 1 / (τ + 1) * x ^ 2) := by
  obtain ⟨r1, r2⟩ := rate_bounds h.tau
  set r := 1 / (τ + 1)
  have h1 := h.pos
  nlinarith [mul_nonneg r1.le (sq_nonneg x)]

end PySGMCMC.BurnInStats

namespace PySGMCMC.BurnInStats

/-- The statistics of one element. -/
structure Stats where
  tau : Fl
  r : Fl
  g : Fl
  vhat : Fl
  minv : Fl

/-- Simultaneous update. -/
noncomputable def Stats.next (s : Stats) (x : Fl) : Stats where
  tau := s.tau + rhsTau s.g s.tau s.vhat
  r := rhsR s.tau
  g := s.g + rhsG (rhsR s.tau) s.g x
  vhat := s.vhat + rhsVhat (rhsR s.tau) s.vhat x
  minv := rhsMinv s.vhat

noncomputable def Stats.init : Stats := ⟨tau0, r0, g0, vhat0, minv0⟩

theorem Stats.init_eq : Stats.init = ⟨.fin 1, .fin (1 / 2), .fin 1, .fin 1, .fin 1⟩ := by
  unfold Stats.init r0 minv0 tau0 g0 vhat0
  rw [Fl.ofNat_one, Fl.add_fin, Fl.div_fin (by norm_num), Fl.sqrt_fin (by norm_num), Real.sqrt_one,
    Fl.div_fin (by norm_num)]
  norm_num

theorem Stats.next_fin {τ γ ν : ℝ} (h : Ok τ γ ν) (r minv : Fl) (x : ℝ) :
    Stats.next ⟨.fin τ, r, .fin γ, .fin ν, minv⟩ (.fin x)
      = ⟨.fin (τ + (-(γ * γ * τ) / (ν + 3 * c16) + 1)), .fin (1 / (τ + 1)),
        .fin (γ + (-(1 / (τ + 1)) * γ + 1 / (τ + 1) * x)),
        .fin (ν + (-(1 / (τ + 1)) * ν + 1 / (τ + 1) * x ^ 2)), .fin (1 / (Real.sqrt ν + 3 * c16))⟩ := by
  unfold Stats.next
  simp only [rhsTau_fin _ _ h.pos, rhsR_fin h.tau, rhsG_fin, rhsVhat_fin, rhsMinv_fin h.pos, Fl.add_fin]

/-- Well-definedness for every gradient history. -/
theorem stats_ok (xs : List Fl) (hx : ∀ x ∈ xs, Fl.IsFin x) :
    ∃ τ ρ γ ν μ : ℝ, xs.foldl Stats.next Stats.init = ⟨.fin τ, .fin ρ, .fin γ, .fin ν, .fin μ⟩
      ∧ Ok τ γ ν ∧ 0 < ρ ∧ ρ ≤ 1 / 2 ∧ 0 < μ := by
  induction xs using List.reverseRecOn with
  | nil => exact ⟨1, 1 / 2, 1, 1, 1, Stats.init_eq, ok_init, by norm_num, le_rfl, one_pos⟩
  | append_singleton xs x ih =>
    obtain ⟨τ, ρ, γ, ν, μ, he, hok, _⟩ := ih (fun y hy => hx y (by simp [hy]))
    obtain ⟨x, rfl⟩ := hx x (by simp)
    rw [List.foldl_append, List.foldl_cons, List.foldl_nil, he, Stats.next_fin hok]
    have := c16_pos
    exact ⟨_, _, _, _, _, rfl, ok_step hok x, (rate_bounds hok.tau).1, (rate_bounds hok.tau).2, by
      have := Real.sqrt_nonneg ν; positivity⟩

/-- Quantitative bounds for bounded gradients. -/
theorem stats_bounds (G : ℝ) (hG : 1 ≤ G) (xs : List Fl) (hx : ∀ x ∈ xs, ∃ r : ℝ, x = .fin r ∧ |r| ≤ G) :
    ∃ τ ρ γ ν μ : ℝ, xs.foldl Stats.next Stats.init = ⟨.fin τ, .fin ρ, .fin γ, .fin ν, .fin μ⟩
      ∧ Ok τ γ ν ∧ τ ≤ xs.length + 1 ∧ ν ≤ G ^ 2 ∧ 1 / 2 ^ xs.length ≤ ν
      ∧ 1 / (G + 3 * c16) ≤ μ ∧ μ ^ 2 ≤ 2 ^ (xs.length - 1) := by
  induction xs using List.reverseRecOn with
  | nil =>
    refine ⟨1, 1 / 2, 1, 1, 1, Stats.init_eq, ok_init, by simp, by nlinarith, by simp, ?_, by simp⟩
    have := c16_pos
    rw [div_le_one (by linarith)]; linarith
  | append_singleton xs x ih =>
    obtain ⟨τ, ρ, γ, ν, μ, he, hok, h1, h2, h3, _⟩ := ih (fun y hy => hx y (by simp [hy]))
    obtain ⟨x, rfl, hxG⟩ := hx x (by simp)
    have hc := c16_pos
    have hs0 : 0 < Real.sqrt ν := Real.sqrt_pos.2 hok.pos
    rw [List.foldl_append, List.foldl_cons, List.foldl_nil, he, Stats.next_fin hok]
    refine ⟨_, _, _, _, _, rfl, ok_step hok x, ?_, vhat_step_le hok h2 hxG, ?_, ?_, ?_⟩
    · have := tau_step_le hok
      simp only [List.length_append, List.length_cons, List.length_nil, Nat.cast_add, Nat.cast_one, zero_add]
      linarith
    · refine le_trans ?_ (vhat_step_ge hok x)
      simp only [List.length_append, List.length_cons, List.length_nil, zero_add, pow_succ]
      rw [one_div, mul_inv]
      rw [one_div] at h3
      linarith
    · apply one_div_le_one_div_of_le (by linarith)
      have : Real.sqrt ν ≤ G := by
        rw [Real.sqrt_le_left (by linarith)]; exact h2
      linarith
    · simp only [List.length_append, List.length_cons, List.length_nil, zero_add, Nat.add_sub_cancel]
      rw [one_div, inv_pow]
      have h4 : ν ≤ (Real.sqrt ν + 3 * c16) ^ 2 := by
        have := Real.sq_sqrt hok.pos.le
        nlinarith
      have h5 : (1 / 2 ^ xs.length : ℝ) ≤ (Real.sqrt ν + 3 * c16) ^ 2 := le_trans h3 h4
      have h6 : (0 : ℝ) < 1 / 2 ^ xs.length := by positivity
      have := inv_anti₀ h6 h5
      simpa using this

end PySGMCMC.BurnInStats
