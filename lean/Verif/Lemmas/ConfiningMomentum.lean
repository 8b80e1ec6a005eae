import Verif.Lemmas.Confining

/-!
# Steps with momentum and gradients that confine

Two steps with momentum have a common part, since two normal vectors move position and momentum anywhere.  The position plus a multiple of
the momentum moves like a step of SGLD, and the momentum contracts by itself.
-/

open MeasureTheory ProbabilityTheory
namespace PySGMCMC.Harris
set_option linter.unusedSectionVars false

variable {J : Type*} [Fintype J] {Bt : Type*} [MeasurableSpace Bt] {ν : Measure Bt} [IsProbabilityMeasure ν]
  {G : Bt → (J → ℝ) → J → ℝ} {a b Λ : ℝ} {g : Bt → ℝ} {m s : J → ℝ} {t α : ℝ}

/-- The momentum after a step of SGHMC. -/
def kick (G : Bt → (J → ℝ) → J → ℝ) (m s : J → ℝ) (t α : ℝ) (p : (J → ℝ) × (J → ℝ)) (q : Bt × (J → ℝ)) : J → ℝ :=
  fun j => (1 - α) * p.2 j - t * m j * G q.1 p.1 j + s j * q.2 j

/-- A step of SGHMC. -/
def hop (G : Bt → (J → ℝ) → J → ℝ) (m s : J → ℝ) (t α : ℝ) (p : (J → ℝ) × (J → ℝ)) (q : Bt × (J → ℝ)) : (J → ℝ) × (J → ℝ) :=
  (fun j => p.1 j + kick G m s t α p q j, kick G m s t α p q)

/-- Where the position would come to rest without gradients and noise. -/
noncomputable def slow (α : ℝ) (p : (J → ℝ) × (J → ℝ)) : J → ℝ := fun j => p.1 j + (1 - α) / α * p.2 j

namespace Confining

theorem measurable_kick (h : Confining ν G a b Λ g) :
    Measurable fun q : ((J → ℝ) × (J → ℝ)) × (Bt × (J → ℝ)) => kick G m s t α q.1 q.2 := by
  have hp : Measurable fun q : ((J → ℝ) × (J → ℝ)) × (Bt × (J → ℝ)) => (q.2.1, q.1.1) :=
    (measurable_fst.comp measurable_snd).prodMk (measurable_fst.comp measurable_fst)
  have hG : Measurable fun q : ((J → ℝ) × (J → ℝ)) × (Bt × (J → ℝ)) => G q.2.1 q.1.1 := h.meas.comp hp
  refine measurable_pi_iff.2 fun j => ?_
  have h1 : Measurable fun q : ((J → ℝ) × (J → ℝ)) × (Bt × (J → ℝ)) => G q.2.1 q.1.1 j := (measurable_pi_apply j).comp hG
  have h2 : Measurable fun q : ((J → ℝ) × (J → ℝ)) × (Bt × (J → ℝ)) => q.1.2 j := (measurable_pi_apply j).comp (measurable_snd.comp measurable_fst)
  have h3 : Measurable fun q : ((J → ℝ) × (J → ℝ)) × (Bt × (J → ℝ)) => q.2.2 j := (measurable_pi_apply j).comp (measurable_snd.comp measurable_snd)
  exact ((h2.const_mul _).sub (h1.const_mul _)).add (h3.const_mul _)

theorem measurable_hop (h : Confining ν G a b Λ g) :
    Measurable fun q : ((J → ℝ) × (J → ℝ)) × (Bt × (J → ℝ)) => hop G m s t α q.1 q.2 := by
  have hk := h.measurable_kick (m := m) (s := s) (t := t) (α := α)
  refine Measurable.prodMk (measurable_pi_iff.2 fun j => ?_) hk
  exact ((measurable_pi_apply j).comp (measurable_fst.comp measurable_fst)).add ((measurable_pi_apply j).comp hk)

/-! ## The energy -/

/-- The energy of the slow part and of the momentum. -/
noncomputable def total (m : J → ℝ) (α : ℝ) (p : (J → ℝ) × (J → ℝ)) : ℝ := energy m (slow α p) + energy m p.2

theorem total_nonneg (hm : ∀ j, 0 < m j) (p : (J → ℝ) × (J → ℝ)) : 0 ≤ total m α p := add_nonneg (energy_nonneg hm _) (energy_nonneg hm _)

theorem measurable_slow : Measurable (slow (J := J) α) := measurable_pi_iff.2 fun j =>
  ((measurable_pi_apply j).comp measurable_fst).add (((measurable_pi_apply j).comp measurable_snd).const_mul _)

theorem measurable_total : Measurable (total m α) := (measurable_energy.comp measurable_slow).add (measurable_energy.comp measurable_snd)

theorem slow_hop (hα : α ≠ 0) (p : (J → ℝ) × (J → ℝ)) (q : Bt × (J → ℝ)) :
    slow α (hop G m s t α p q) = fun j => slow α p j - t / α * m j * G q.1 p.1 j + s j / α * q.2 j := by
  funext j
  simp only [slow, hop, kick]
  field_simp
  ring

theorem sq_integral_le (h : Confining ν G a b Λ g) (x : J → ℝ) (j : J) : (∫ β, G β x j ∂ν) ^ 2 ≤ ∫ β, G β x j ^ 2 ∂ν := by
  set I := ∫ β, G β x j ∂ν with hI
  have h2 : 0 ≤ ∫ β, (G β x j - I) ^ 2 ∂ν := integral_nonneg fun q => sq_nonneg _
  have e : (fun β => (G β x j - I) ^ 2) = fun β => G β x j ^ 2 + ((-(2 * I)) * G β x j + I ^ 2) := by
    funext q
    ring
  have hi2 : Integrable (fun β => (-(2 * I)) * G β x j + I ^ 2) ν := ((h.integrable_G x j).const_mul _).add (integrable_const _)
  rw [e, integral_add (h.integrable_sq x j) hi2, integral_add ((h.integrable_G x j).const_mul _) (integrable_const _), integral_const_mul, ← hI] at h2
  simp only [integral_const, probReal_univ, one_smul] at h2
  nlinarith

/-- What the momentum and the gradient exchange. -/
theorem exchange (h : Confining ν G a b Λ g) (hm : ∀ j, 0 < m j) (hα : 0 < α) (d : ℝ) (x v : J → ℝ) :
    -(2 * d * ∫ β, ∑ j, v j * G β x j ∂ν) ≤ α / 2 * energy m v + 2 * d ^ 2 / α * ∑ j, m j * ∫ β, G β x j ^ 2 ∂ν := by
  rw [integral_finsetSum _ fun j _ => (h.integrable_G x j).const_mul (v j)]
  simp only [integral_const_mul]
  unfold energy
  rw [Finset.mul_sum, Finset.mul_sum, Finset.mul_sum, ← Finset.sum_neg_distrib, ← Finset.sum_add_distrib]
  refine Finset.sum_le_sum fun j _ => ?_
  have hmj := hm j
  have h1 : 2 * d ^ 2 / α * (m j * (∫ β, G β x j ∂ν) ^ 2) ≤ 2 * d ^ 2 / α * (m j * ∫ β, G β x j ^ 2 ∂ν) :=
    mul_le_mul_of_nonneg_left (mul_le_mul_of_nonneg_left (h.sq_integral_le x j) hmj.le) (by positivity)
  generalize (∫ β, G β x j ∂ν) = e at *
  have h2 : 0 ≤ m j / (2 * α) * (α * (v j / m j) + 2 * d * e) ^ 2 := by positivity
  have h3 : m j / (2 * α) * (α * (v j / m j) + 2 * d * e) ^ 2 = α / 2 * (v j ^ 2 / m j) + 2 * d ^ 2 / α * (m j * e ^ 2) + 2 * d * (v j * e) := by
    field_simp
    ring
  linarith

/-- The strength of the coupling of momentum and gradient. -/
noncomputable def coupling (α : ℝ) : ℝ := 1 / α ^ 2 + 1 + 2 * ((1 - α) / α ^ 2 + (1 - α)) ^ 2 / α

theorem coupling_pos (hα : 0 < α) : 0 < coupling α := by unfold coupling; positivity

/-- What noise adds to the energy. -/
noncomputable def warmth (ν : Measure Bt) (g : Bt → ℝ) (a b t α : ℝ) (m s : J → ℝ) : ℝ :=
  t / α * (2 * b + a * ∫ β, g β ∂ν) + (∑ j, (s j / α) ^ 2 / m j + ∑ j, s j ^ 2 / m j)

theorem energy_smul (c : ℝ) (v : J → ℝ) : energy m (fun j => c * v j) = c ^ 2 * energy m v := by
  unfold energy
  rw [Finset.mul_sum]
  exact Finset.sum_congr rfl fun j _ => by ring

theorem damping (hα0 : 0 < α) (hα1 : α ≤ 1) : (1 - α) ^ 2 + α / 2 ≤ 1 - α / 2 := by nlinarith

theorem total_step (h : Confining ν G a b Λ g) (hm : ∀ j, 0 < m j) (hα0 : 0 < α) (hα1 : α ≤ 1) (ht : 0 < t)
    (hst : ∀ j, t * coupling α * α * m j * Λ ≤ a) (p : (J → ℝ) × (J → ℝ)) :
    Integrable (fun q => total m α (hop G m s t α p q)) (ν.prod (gauss J)) ∧
      ∫ q, total m α (hop G m s t α p q) ∂ν.prod (gauss J)
        ≤ total m α p - α / 2 * energy m p.2 - t * a / α * ∑ j, p.1 j ^ 2 + warmth ν g a b t α m s := by
  have h1 := h.energy_step (t := t / α) (s := fun j => s j / α) hm (slow α p) p.1
  have h2 := h.energy_step (t := t) (s := s) hm (fun j => (1 - α) * p.2 j) p.1
  have e : (fun q => total m α (hop G m s t α p q)) = fun q => energy m (fun j => slow α p j - t / α * m j * G q.1 p.1 j + s j / α * q.2 j)
      + energy m fun j => (1 - α) * p.2 j - t * m j * G q.1 p.1 j + s j * q.2 j := by
    funext q
    rw [total, slow_hop hα0.ne']
    rfl
  rw [e]
  refine ⟨h1.1.add h2.1, ?_⟩
  rw [integral_add h1.1 h2.1, h1.2, h2.2, energy_smul]
  have hx := mul_le_mul_of_nonneg_left (h.inward p.1) (by positivity : 0 ≤ 2 * (t / α))
  have hcr := h.exchange hm hα0 (t * ((1 - α) / α ^ 2 + (1 - α))) p.1 p.2
  have hgr := mul_le_mul_of_nonneg_left (h.grad_le (m := m) h.pos.le hst p.1) (by positivity : 0 ≤ t / α)
  have hi := fun v : J → ℝ => integrable_finsetSum Finset.univ fun j _ => (h.integrable_G p.1 j).const_mul (v j)
  have hs1 : ∫ β, ∑ j, slow α p j * G β p.1 j ∂ν = ∫ β, ∑ j, p.1 j * G β p.1 j ∂ν + (1 - α) / α * ∫ β, ∑ j, p.2 j * G β p.1 j ∂ν := by
    rw [← integral_const_mul, ← integral_add (hi p.1) ((hi p.2).const_mul _)]
    refine integral_congr_ae (ae_of_all _ fun β => ?_)
    simp only [slow]
    rw [Finset.mul_sum, ← Finset.sum_add_distrib]
    exact Finset.sum_congr rfl fun j _ => by ring
  have hs2 : ∫ β, ∑ j, (1 - α) * p.2 j * G β p.1 j ∂ν = (1 - α) * ∫ β, ∑ j, p.2 j * G β p.1 j ∂ν := by
    rw [← integral_const_mul]
    refine integral_congr_ae (ae_of_all _ fun β => ?_)
    simp only
    rw [Finset.mul_sum]
    exact Finset.sum_congr rfl fun j _ => by ring
  rw [hs1, hs2]
  have hdm := mul_le_mul_of_nonneg_right (damping hα0 hα1) (energy_nonneg hm p.2)
  unfold warmth total
  generalize (∫ β, ∑ j, p.1 j * G β p.1 j ∂ν) = I₁ at *
  generalize (∫ β, ∑ j, p.2 j * G β p.1 j ∂ν) = I₂ at *
  generalize (∑ j, m j * ∫ β, G β p.1 j ^ 2 ∂ν) = Q at *
  generalize energy m (slow α p) = e₁ at *
  generalize energy m p.2 = e₂ at *
  generalize (∑ j, p.1 j ^ 2) = S at *
  generalize (∑ j, (s j / α) ^ 2 / m j) = n₁ at *
  generalize (∑ j, s j ^ 2 / m j) = n₂ at *
  generalize (∫ β, g β ∂ν) = g₁ at *
  have k1 : t / α * (t * coupling α * α * Q) = (t / α) ^ 2 * Q + t ^ 2 * Q + 2 * (t * ((1 - α) / α ^ 2 + (1 - α))) ^ 2 / α * Q := by
    unfold coupling
    field_simp
  rw [k1] at hgr
  have k2 : -(2 * (t * ((1 - α) / α ^ 2 + (1 - α))) * I₂) = -(2 * (t / α) * ((1 - α) / α * I₂)) - 2 * t * ((1 - α) * I₂) := by
    field_simp
    ring
  rw [k2] at hcr
  have k3 : t * a / α * S = t / α * (a * S) := by ring
  rw [k3]
  linarith

/-- How fast the energy decreases. -/
noncomputable def slowing (a t lo α : ℝ) : ℝ := max 0 (1 - min (α / (2 * (2 * ((1 - α) / α) ^ 2 + 1))) (t * a * lo / (2 * α)))

theorem slowing_lt {lo : ℝ} (ha : 0 < a) (ht : 0 < t) (hlo : 0 < lo) (hα : 0 < α) : slowing a t lo α < 1 :=
  max_lt zero_lt_one (by
    have : 0 < min (α / (2 * (2 * ((1 - α) / α) ^ 2 + 1))) (t * a * lo / (2 * α)) := lt_min (by positivity) (by positivity)
    linarith)

theorem total_le (hm : ∀ j, 0 < m j) (p : (J → ℝ) × (J → ℝ)) : total m α p ≤ 2 * energy m p.1 + (2 * ((1 - α) / α) ^ 2 + 1) * energy m p.2 := by
  unfold total energy slow
  rw [Finset.mul_sum, Finset.mul_sum, ← Finset.sum_add_distrib, ← Finset.sum_add_distrib]
  refine Finset.sum_le_sum fun j _ => ?_
  rw [← add_div, mul_div_assoc', mul_div_assoc', ← add_div]
  refine div_le_div_of_nonneg_right ?_ (hm j).le
  nlinarith [sq_nonneg (p.1 j - (1 - α) / α * p.2 j)]

theorem total_drift (h : Confining ν G a b Λ g) {lo : ℝ} (hlo : ∀ j, lo ≤ m j) (hm : ∀ j, 0 < m j) (hα0 : 0 < α) (hα1 : α ≤ 1) (ht : 0 < t)
    (hlo0 : 0 < lo) (hst : ∀ j, t * coupling α * α * m j * Λ ≤ a) (p : (J → ℝ) × (J → ℝ)) :
    ∫ q, total m α (hop G m s t α p q) ∂ν.prod (gauss J) ≤ slowing a t lo α * total m α p + warmth ν g a b t α m s := by
  refine (h.total_step hm hα0 hα1 ht hst p).2.trans ?_
  have ha := h.pos
  set k := min (α / (2 * (2 * ((1 - α) / α) ^ 2 + 1))) (t * a * lo / (2 * α)) with hk
  have hk0 : 0 < k := lt_min (by positivity) (by positivity)
  have h1 : (1 - k) * total m α p ≤ slowing a t lo α * total m α p := mul_le_mul_of_nonneg_right (le_max_right _ _) (total_nonneg hm p)
  have h2 := mul_le_mul_of_nonneg_left (total_le (α := α) hm p) hk0.le
  have h3 : k * (2 * ((1 - α) / α) ^ 2 + 1) ≤ α / 2 := by
    have := mul_le_mul_of_nonneg_right (min_le_left (α / (2 * (2 * ((1 - α) / α) ^ 2 + 1))) (t * a * lo / (2 * α)))
      (by positivity : 0 ≤ 2 * ((1 - α) / α) ^ 2 + 1)
    refine this.trans (le_of_eq ?_)
    have : 2 * ((1 - α) / α) ^ 2 + 1 ≠ 0 := by positivity
    field_simp
  have h4 : k * 2 ≤ t * a / α * lo := by
    have := mul_le_mul_of_nonneg_right (min_le_right (α / (2 * (2 * ((1 - α) / α) ^ 2 + 1))) (t * a * lo / (2 * α))) (by norm_num : (0 : ℝ) ≤ 2)
    refine this.trans (le_of_eq ?_)
    field_simp
  have h5 := mul_le_mul_of_nonneg_right h3 (energy_nonneg hm p.2)
  have h6 := mul_le_mul_of_nonneg_right h4 (energy_nonneg hm p.1)
  have h7 := mul_le_mul_of_nonneg_left (energy_le_sq hm hlo p.1) (by positivity : 0 ≤ t * a / α)
  linarith

theorem warmth_nonneg (h : Confining ν G a b Λ g) (hm : ∀ j, 0 < m j) (ht : 0 < t) (hα : 0 < α) : 0 ≤ warmth ν g a b t α m s := by
  have h1 : 0 ≤ ∫ β, g β ∂ν := integral_nonneg h.nonneg
  have h2 : 0 ≤ ∑ j, s j ^ 2 / m j := Finset.sum_nonneg fun j _ => div_nonneg (sq_nonneg _) (hm j).le
  have h3 : 0 ≤ ∑ j, (s j / α) ^ 2 / m j := Finset.sum_nonneg fun j _ => div_nonneg (sq_nonneg _) (hm j).le
  have := h.pos.le
  have := h.slack
  unfold warmth
  positivity

/-- Steps of SGHMC drift to where the energy is small. -/
theorem moves_momentum (h : Confining ν G a b Λ g) {lo : ℝ} (hlo0 : 0 < lo) (hlo : ∀ j, lo ≤ m j) (hα0 : 0 < α) (hα1 : α ≤ 1) (ht : 0 < t)
    (hst : ∀ j, t * coupling α * α * m j * Λ ≤ a) :
    Moves (ν.prod (gauss J)) (hop G m s t α) (total m α) (slowing a t lo α) (warmth ν g a b t α m s) where
  meas := h.measurable_hop
  measV := measurable_total
  nonneg := total_nonneg fun j => hlo0.trans_le (hlo j)
  int p := (h.total_step (fun j => hlo0.trans_le (hlo j)) hα0 hα1 ht hst p).1
  drift := h.total_drift hlo (fun j => hlo0.trans_le (hlo j)) hα0 hα1 ht hlo0 hst
  gamma := le_max_left _ _
  lt_one := slowing_lt h.pos ht hlo0 hα0
  pos := h.warmth_nonneg (fun j => hlo0.trans_le (hlo j)) ht hα0

/-! ## The common part of two steps -/

theorem cube_mem : ∀ᵐ y ∂cube J, ∀ j, y j ∈ Set.Icc (0 : ℝ) 1 := by
  refine ae_all_iff.2 fun j => ?_
  have h1 : ∀ᵐ u ∂volume.restrict (Set.Icc (0 : ℝ) 1), u ∈ Set.Icc (0 : ℝ) 1 := ae_restrict_mem measurableSet_Icc
  exact (measurePreserving_eval (fun _ : J => volume.restrict (Set.Icc (0 : ℝ) 1)) j).quasiMeasurePreserving.ae h1

theorem abs_le_of_sq {r : ℝ} {x : J → ℝ} (hx : ∑ j, x j ^ 2 ≤ r) (j : J) : |x j| ≤ √r :=
  Real.abs_le_sqrt ((Finset.single_le_sum (f := fun j => x j ^ 2) (fun j _ => sq_nonneg _) (Finset.mem_univ j)).trans hx)

theorem measurable_shear : Measurable fun y : (J → ℝ) × (J → ℝ) => ((fun j => y.1 j + y.2 j, y.2) : (J → ℝ) × (J → ℝ)) := by
  refine Measurable.prodMk (measurable_pi_iff.2 fun j => ?_) measurable_snd
  have h1 : Measurable fun y : (J → ℝ) × (J → ℝ) => y.1 j := (measurable_pi_apply j).comp measurable_fst
  have h2 : Measurable fun y : (J → ℝ) × (J → ℝ) => y.2 j := (measurable_pi_apply j).comp measurable_snd
  exact h1.add h2

theorem minor_twice (h : Confining ν G a b Λ g) (hs : ∀ j, s j ≠ 0) (r : ℝ) : ∃ δ > 0, ∀ p : (J → ℝ) × (J → ℝ),
    ∑ j, p.1 j ^ 2 ≤ r → ∑ j, p.2 j ^ 2 ≤ r →
    ENNReal.ofReal δ • ((cube J).prod (cube J)).map (fun y => (fun j => y.1 j + y.2 j, y.2))
      ≤ ((ν.prod (gauss J)).prod (ν.prod (gauss J))).map (twice (hop G m s t α) p) := by
  obtain ⟨δ₁, hδ₁, h₁⟩ := h.minor (m := m) (t := t) hs r (√r + |1 - α| * √r)
  obtain ⟨δ₂, hδ₂, h₂⟩ := h.minor (m := m) (t := t) hs (Fintype.card J) (|1 - α| * (1 + √r))
  refine ⟨δ₁ * δ₂, by positivity, fun p hx hv => ?_⟩
  set κ := ν.prod (gauss J)
  -- the position after the first step
  set Y : Bt × (J → ℝ) → J → ℝ := fun q j => p.1 j + (1 - α) * p.2 j - t * m j * G q.1 p.1 j + s j * q.2 j with hY
  have hop1 : ∀ q, hop G m s t α p q = (Y q, fun j => Y q j - p.1 j) := fun q => by
    refine Prod.ext (funext fun j => ?_) (funext fun j => ?_) <;> simp only [hop, kick, hY] <;> ring
  have m1 := h₁ (fun j => p.1 j + (1 - α) * p.2 j) p.1 (fun j => (abs_add_le _ _).trans (add_le_add (abs_le_of_sq hx j) (by
    rw [abs_mul]; exact mul_le_mul_of_nonneg_left (abs_le_of_sq hv j) (abs_nonneg _)))) hx
  have m2 : ∀ y : J → ℝ, (∀ j, y j ∈ Set.Icc (0 : ℝ) 1) → ENNReal.ofReal δ₂ • cube J ≤
      κ.map (kick G m s t α (y, fun j => y j - p.1 j)) := fun y hy => by
    refine h₂ (fun j => (1 - α) * (y j - p.1 j)) y (fun j => ?_) ?_
    · rw [abs_mul]
      refine mul_le_mul_of_nonneg_left ((abs_sub _ _).trans (add_le_add ?_ (abs_le_of_sq hx j))) (abs_nonneg _)
      exact abs_le.2 ⟨by linarith [(hy j).1], (hy j).2⟩
    · refine (Finset.sum_le_card_nsmul Finset.univ _ 1 fun j _ => ?_).trans (by simp)
      exact pow_le_one₀ (hy j).1 (hy j).2
  have hmh := h.measurable_hop (m := m) (s := s) (t := t) (α := α)
  have hmk := h.measurable_kick (m := m) (s := s) (t := t) (α := α)
  have hm2 : Measurable (twice (hop G m s t α) p) := by
    have h3 : Measurable fun q : Bt × (J → ℝ) => hop G m s t α p q := hmh.comp (measurable_const.prodMk measurable_id)
    exact hmh.comp ((h3.comp measurable_fst).prodMk measurable_snd)
  have hYm : Measurable Y := by
    have h3 : Measurable fun q : Bt × (J → ℝ) => (hop G m s t α p q).1 := measurable_fst.comp (hmh.comp (measurable_const.prodMk measurable_id))
    have e : (fun q : Bt × (J → ℝ) => (hop G m s t α p q).1) = Y := by
      funext q
      rw [hop1]
    rwa [e] at h3
  have hshear : Measurable fun y : (J → ℝ) × (J → ℝ) => ((fun j => y.1 j + y.2 j, y.2) : (J → ℝ) × (J → ℝ)) := measurable_shear
  have hpair : Measurable fun y : J → ℝ => ((y, fun j => y j - p.1 j) : (J → ℝ) × (J → ℝ)) :=
    measurable_id.prodMk (measurable_pi_iff.2 fun j => (measurable_pi_apply j).sub_const _)
  refine Measure.le_iff.2 fun A hA => ?_
  have hA' : MeasurableSet ((fun y : (J → ℝ) × (J → ℝ) => ((fun j => y.1 j + y.2 j, y.2) : (J → ℝ) × (J → ℝ))) ⁻¹' A) := hshear hA
  rw [Measure.smul_apply, smul_eq_mul, Measure.map_apply hshear hA, Measure.map_apply hm2 hA, Measure.prod_apply (hm2 hA), Measure.prod_apply hA']
  -- the chance to come to `A` from `y`
  set F : (J → ℝ) → ENNReal := fun y => κ {q | hop G m s t α (y, fun j => y j - p.1 j) q ∈ A} with hF
  have hFm : Measurable F := by
    have h3 : MeasurableSet {w : (J → ℝ) × (Bt × (J → ℝ)) | hop G m s t α (w.1, fun j => w.1 j - p.1 j) w.2 ∈ A} :=
      (hmh.comp ((hpair.comp measurable_fst).prodMk measurable_snd)) hA
    exact measurable_measure_prodMk_left h3
  have hFge : ∀ y : J → ℝ, (∀ j, y j ∈ Set.Icc (0 : ℝ) 1) → ENNReal.ofReal δ₂ * cube J (Prod.mk y ⁻¹'
      ((fun y : (J → ℝ) × (J → ℝ) => ((fun j => y.1 j + y.2 j, y.2) : (J → ℝ) × (J → ℝ))) ⁻¹' A)) ≤ F y := fun y hy => by
    have hk : Measurable (kick G m s t α (y, fun j => y j - p.1 j)) := hmk.comp (measurable_const.prodMk measurable_id)
    have h3 := m2 y hy (Prod.mk y ⁻¹' ((fun y : (J → ℝ) × (J → ℝ) => ((fun j => y.1 j + y.2 j, y.2) : (J → ℝ) × (J → ℝ))) ⁻¹' A))
    rw [Measure.map_apply hk (measurable_prodMk_left hA')] at h3
    exact h3
  have e1 : ∀ q, κ (Prod.mk q ⁻¹' (twice (hop G m s t α) p ⁻¹' A)) = F (Y q) := fun q => by
    simp only [hF, Set.preimage_preimage, twice, hop1]
    rfl
  simp only [e1]
  calc _ = ENNReal.ofReal δ₁ * ∫⁻ y, ENNReal.ofReal δ₂ * cube J (Prod.mk y ⁻¹'
        ((fun y : (J → ℝ) × (J → ℝ) => ((fun j => y.1 j + y.2 j, y.2) : (J → ℝ) × (J → ℝ))) ⁻¹' A)) ∂cube J := by
        rw [ENNReal.ofReal_mul hδ₁.le, mul_assoc, lintegral_const_mul _ (measurable_measure_prodMk_left hA')]
    _ ≤ ENNReal.ofReal δ₁ * ∫⁻ y, F y ∂cube J := by
        refine mul_le_mul_right (lintegral_mono_ae ?_) _
        filter_upwards [cube_mem] with y hy using hFge y hy
    _ = ∫⁻ y, F y ∂(ENNReal.ofReal δ₁ • cube J) := by rw [lintegral_smul_measure, smul_eq_mul]
    _ ≤ ∫⁻ y, F y ∂κ.map Y := lintegral_mono' m1 le_rfl
    _ = _ := lintegral_map hFm hYm

theorem small_momentum (h : Confining ν G a b Λ g) {hi : ℝ} (hm : ∀ j, 0 < m j) (hhi : ∀ j, m j ≤ hi) (hhi0 : 0 ≤ hi) (hs : ∀ j, s j ≠ 0) :
    Small ((ν.prod (gauss J)).prod (ν.prod (gauss J))) (twice (hop G m s t α)) (total m α) := fun R => by
  set r := (2 + 2 * ((1 - α) / α) ^ 2) * (hi * R) with hr
  obtain ⟨δ, hδ, hmin⟩ := h.minor_twice (m := m) (t := t) (α := α) hs r
  refine ⟨δ, hδ, ((cube J).prod (cube J)).map (fun y => (fun j => y.1 j + y.2 j, y.2)),
    Measure.isProbabilityMeasure_map measurable_shear.aemeasurable, fun p hp => ?_⟩
  have hE1 := energy_nonneg hm (slow α p)
  have hE2 := energy_nonneg hm p.2
  unfold total at hp
  have h1 : ∑ j, slow α p j ^ 2 ≤ hi * energy m (slow α p) := sq_le_energy hm hhi _
  have h2 : ∑ j, p.2 j ^ 2 ≤ hi * energy m p.2 := sq_le_energy hm hhi _
  have h3 : ∑ j, p.1 j ^ 2 ≤ 2 * ∑ j, slow α p j ^ 2 + 2 * ((1 - α) / α) ^ 2 * ∑ j, p.2 j ^ 2 := by
    rw [Finset.mul_sum, Finset.mul_sum, ← Finset.sum_add_distrib]
    refine Finset.sum_le_sum fun j _ => ?_
    unfold slow
    nlinarith [sq_nonneg (p.1 j + 2 * ((1 - α) / α * p.2 j))]
  have hρ : 0 ≤ ((1 - α) / α) ^ 2 := sq_nonneg _
  have h4 : hi * (energy m (slow α p) + energy m p.2) ≤ hi * R := mul_le_mul_of_nonneg_left hp hhi0
  have h5 := mul_nonneg hhi0 hE1
  have h6 := mul_nonneg hhi0 hE2
  have h7 : hi * energy m (slow α p) ≤ hi * R := by linarith
  have h8 : hi * energy m p.2 ≤ hi * R := by linarith
  have h9 := mul_le_mul_of_nonneg_left (h2.trans h8) hρ
  have h10 : 0 ≤ hi * R := by linarith
  have h11 := mul_nonneg hρ h10
  exact hmin p (by rw [hr]; linarith) (by rw [hr]; linarith)

/-- The size of position and momentum. -/
noncomputable def size2 (p : (J → ℝ) × (J → ℝ)) : ℝ := ∑ j, p.1 j ^ 2 + ∑ j, p.2 j ^ 2

theorem size2_le {hi : ℝ} (hm : ∀ j, 0 < m j) (hhi : ∀ j, m j ≤ hi) (hhi0 : 0 ≤ hi) (p : (J → ℝ) × (J → ℝ)) :
    size2 p ≤ (3 + 2 * ((1 - α) / α) ^ 2) * hi * total m α p := by
  have hE1 := energy_nonneg hm (slow α p)
  have hE2 := energy_nonneg hm p.2
  have h1 : ∑ j, slow α p j ^ 2 ≤ hi * energy m (slow α p) := sq_le_energy hm hhi _
  have h2 : ∑ j, p.2 j ^ 2 ≤ hi * energy m p.2 := sq_le_energy hm hhi _
  have h3 : ∑ j, p.1 j ^ 2 ≤ 2 * ∑ j, slow α p j ^ 2 + 2 * ((1 - α) / α) ^ 2 * ∑ j, p.2 j ^ 2 := by
    rw [Finset.mul_sum, Finset.mul_sum, ← Finset.sum_add_distrib]
    refine Finset.sum_le_sum fun j _ => ?_
    unfold slow
    nlinarith [sq_nonneg (p.1 j + 2 * ((1 - α) / α * p.2 j))]
  have hρ : 0 ≤ ((1 - α) / α) ^ 2 := sq_nonneg _
  have h5 := mul_nonneg hhi0 hE1
  have h6 := mul_nonneg hhi0 hE2
  have h9 := mul_le_mul_of_nonneg_left h2 hρ
  have h11 := mul_nonneg hρ h5
  unfold size2 total
  linarith

theorem le_size2 {lo : ℝ} (hm : ∀ j, 0 < m j) (hlo0 : 0 < lo) (hlo : ∀ j, lo ≤ m j) (p : (J → ℝ) × (J → ℝ)) :
    lo / (2 + 2 * ((1 - α) / α) ^ 2) * total m α p ≤ size2 p := by
  have hρ : 0 ≤ ((1 - α) / α) ^ 2 := sq_nonneg _
  rw [div_mul_eq_mul_div, div_le_iff₀ (by positivity)]
  have h1 := mul_le_mul_of_nonneg_left (total_le (α := α) hm p) hlo0.le
  have h2 := energy_le_sq hm hlo p.1
  have h3 := energy_le_sq hm hlo p.2
  have h4 : 0 ≤ ∑ j, p.1 j ^ 2 := Finset.sum_nonneg fun j _ => sq_nonneg _
  have h5 : 0 ≤ ∑ j, p.2 j ^ 2 := Finset.sum_nonneg fun j _ => sq_nonneg _
  have h6 := mul_le_mul_of_nonneg_left h3 hρ
  have h7 := mul_nonneg hρ h4
  unfold size2
  linarith

/-- SGHMC forgets where it started, and averages over its samples converge. -/
theorem forgets_momentum (h : Confining ν G a b Λ g) (hm : ∀ j, 0 < m j) (hα0 : 0 < α) (hα1 : α ≤ 1) (ht : 0 < t)
    (hst : ∀ j, t * coupling α * α * m j * Λ ≤ a) (hs : ∀ j, s j ≠ 0) :
    ∃ (π : Measure ((J → ℝ) × (J → ℝ))) (C ρ : ℝ), IsProbabilityMeasure π ∧ law (ν.prod (gauss J)) (hop G m s t α) π = π
      ∧ Integrable size2 π ∧ 0 ≤ C ∧ 0 ≤ ρ ∧ ρ < 1
      ∧ ∀ {Ω : Type} [MeasurableSpace Ω] (P : Measure Ω) [IsProbabilityMeasure P] (ζ : Nat → Ω → Bt × (J → ℝ))
        (X : Nat → Ω → (J → ℝ) × (J → ℝ)) (x₀ : (J → ℝ) × (J → ℝ)),
        (∀ k, Measurable (ζ k)) → iIndepFun ζ P → (∀ k, P.map (ζ k) = ν.prod (gauss J)) → (∀ ω, X 0 ω = x₀) →
        (∀ k ω, X (k + 1) ω = hop G m s t α (X k ω) (ζ k ω)) → ∀ {f : (J → ℝ) × (J → ℝ) → ℝ} {A : ℝ}, Measurable f → 0 ≤ A →
        ((∀ x, |f x| ≤ A * (1 + size2 x)) → ∀ k, Integrable (fun ω => f (X k ω)) P ∧
          |∫ ω, f (X k ω) ∂P - ∫ x, f x ∂π| ≤ A * (C * (1 + size2 x₀)) * ρ ^ k)
        ∧ ((∀ x, |f x| ≤ A * (1 + √(size2 x))) → ∀ {I : Finset Nat}, I.Nonempty →
          Integrable (fun ω => ((∑ k ∈ I, f (X k ω)) / I.card - ∫ x, f x ∂π) ^ 2) P ∧
          ∫ ω, ((∑ k ∈ I, f (X k ω)) / I.card - ∫ x, f x ∂π) ^ 2 ∂P ≤ A ^ 2 * (C * (1 + size2 x₀)) / I.card) := by
  obtain ⟨lo, hi, hlo0, hlo, hhi, hhi1⟩ := bounds m hm
  have hhi0 : 0 ≤ hi := zero_le_one.trans hhi1
  have M := h.moves_momentum (s := s) hlo0 hlo hα0 hα1 ht hst
  have S := h.small_momentum (t := t) (α := α) hm hhi hhi0 hs
  obtain ⟨_, _, _, D⟩ := M.mixes_twice S
  obtain ⟨_, _, _, D'⟩ := M.sqrt.mixes_twice (S.sqrt (total_nonneg hm))
  have hρ : 0 ≤ ((1 - α) / α) ^ 2 := sq_nonneg _
  refine D.forgets D' ?_ (fun x => add_nonneg (Finset.sum_nonneg fun j _ => sq_nonneg _) (Finset.sum_nonneg fun j _ => sq_nonneg _))
    (by positivity : 0 < lo / (2 + 2 * ((1 - α) / α) ^ 2)) (by nlinarith) (size2_le hm hhi hhi0) (le_size2 hm hlo0 hlo)
  exact (Finset.measurable_fun_sum _ fun j _ => ((measurable_pi_apply j).comp measurable_fst).pow_const 2).add
    (Finset.measurable_fun_sum _ fun j _ => ((measurable_pi_apply j).comp measurable_snd).pow_const 2)

end Confining
end PySGMCMC.Harris
