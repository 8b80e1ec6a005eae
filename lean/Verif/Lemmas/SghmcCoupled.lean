import Verif.Lemmas.NearlyStationary
import Verif.Lemmas.ConfiningMomentum

/-!
# The stationary law of SGHMC

Position plus a multiple of the momentum makes a step of SGLD with the gradient at a nearby point, so that steps of SGLD nearly preserve its
stationary law.
-/

open MeasureTheory ProbabilityTheory Filter Topology
namespace PySGMCMC.Harris
open Confining Moves Mixes Recipe Langevin
set_option linter.unusedSectionVars false

variable {J : Type} [Fintype J] [DecidableEq J] {Bt : Type} [MeasurableSpace Bt] {ν : Measure Bt} [IsProbabilityMeasure ν]
  {G : Bt → (J → ℝ) → J → ℝ} {a b Λ L lo hi S t c α κ : ℝ} {g : Bt → ℝ} {m s : J → ℝ} {φ : (J → ℝ) → ℝ} {U : (J → ℝ) → ℝ} {n : Nat} {A : ℝ}
  {π : Measure ((J → ℝ) × (J → ℝ))}

/-- A stationary law of SGHMC with a small stepsize and noise that nearly matches that of SGLD. -/
structure Coasts (ν : Measure Bt) (G : Bt → (J → ℝ) → J → ℝ) (a Λ lo hi S α κ t : ℝ) (m s : J → ℝ) (π : Measure ((J → ℝ) × (J → ℝ))) : Prop where
  tuned : Tuned a Λ lo hi m (t / α)
  α0 : 0 < α
  α1 : α ≤ 1
  stable : t * coupling α * α * hi * Λ ≤ a
  noise : ∀ j, s j ^ 2 ≤ 2 * α * t * m j / S
  near : ∀ j, |s j / α - sig m S (t / α) j| ≤ κ * (t / α * √(t / α))
  inv : law (ν.prod (gauss J)) (hop G m s t α) π = π
  int : Integrable size2 π

/-! ## Bounds that do not depend on the stepsize -/

/-- How fast the energy falls. -/
noncomputable def pace (a lo α : ℝ) : ℝ := min 1 (min (α / (2 * (2 * ((1 - α) / α) ^ 2 + 1))) (a * lo / (2 * α)))

/-- What noise adds to the energy. -/
noncomputable def glow (J : Type*) [Fintype J] (ν : Measure Bt) (g : Bt → ℝ) (a b S α : ℝ) : ℝ :=
  (2 * b + a * ∫ β, g β ∂ν) / α + Fintype.card J * (2 / (α * S) + 2 * α / S)

/-- A bound for squares of positions. -/
noncomputable def spread (J : Type*) [Fintype J] (ν : Measure Bt) (g : Bt → ℝ) (a b lo hi S α : ℝ) : ℝ :=
  (3 + 2 * ((1 - α) / α) ^ 2) * hi * (glow J ν g a b S α / pace a lo α)

/-- A bound for energies of momenta. -/
noncomputable def speed (J : Type*) [Fintype J] (ν : Measure Bt) (g : Bt → ℝ) (a b lo hi S α : ℝ) : ℝ :=
  2 / α * (3 * a * (∫ β, g β ∂ν + spread J ν g a b lo hi S α) + 2 * α * Fintype.card J / S)

/-- How well steps of SGLD preserve the stationary law of SGHMC. -/
noncomputable def lag (J : Type*) [Fintype J] (ν : Measure Bt) (g : Bt → ℝ) (a b L lo hi S α κ : ℝ) : ℝ :=
  2 + 2 * hi * (glow J ν g a b S α / pace a lo α) + 4 * (hi * L * ((1 - α) / α)) ^ 2 * (hi * speed J ν g a b lo hi S α * α)
    + 4 * κ ^ 2 * Fintype.card J

theorem pace_pos (ha : 0 < a) (hlo : 0 < lo) (hα : 0 < α) : 0 < pace a lo α := by
  unfold pace
  refine lt_min one_pos (lt_min (by positivity) (by positivity))

theorem glow_nonneg (h : Confining ν G a b Λ g) (hS : 0 < S) (hα : 0 < α) : 0 ≤ glow J ν g a b S α := by
  have h1 : 0 ≤ ∫ β, g β ∂ν := integral_nonneg h.nonneg
  have := h.pos; have := h.slack
  unfold glow
  positivity

namespace Coasts
variable [IsProbabilityMeasure π] (C : Coasts ν G a Λ lo hi S α κ t m s π) (h : Smooth ν G a b Λ g L lo hi S)
include C h

theorem t_pos : 0 < t := by
  have h1 := C.tuned.t_pos
  have h2 := C.α0
  have := mul_pos h1 h2
  rwa [div_mul_cancel₀ _ h2.ne'] at this

theorem t_le : t ≤ 1 := by
  have h1 := C.tuned.t_le
  rw [div_le_one C.α0] at h1
  exact h1.trans C.α1

theorem stable_each (j : J) : t * coupling α * α * m j * Λ ≤ a := by
  have h1 := C.t_pos h
  have h2 := coupling_pos C.α0
  have h3 := C.α0
  have h4 := h.conf.bound
  refine le_trans (mul_le_mul_of_nonneg_right (mul_le_mul_of_nonneg_left (C.tuned.le_hi j) (by positivity)) h4.le) C.stable

theorem moves : Moves (ν.prod (gauss J)) (hop G m s t α) (total m α) (slowing a t lo α) (warmth ν g a b t α m s) :=
  h.conf.moves_momentum h.lo_pos C.tuned.lo_le C.α0 C.α1 (C.t_pos h) (C.stable_each h)

theorem total_integrable : Integrable (total m α) π := by
  have hm := C.tuned.mass_pos h
  have hlo := h.lo_pos
  refine (C.int.const_mul ((2 + 2 * ((1 - α) / α) ^ 2) / lo)).mono' measurable_total.aestronglyMeasurable (.of_forall fun p => ?_)
  rw [Real.norm_eq_abs, abs_of_nonneg (total_nonneg hm p), div_mul_eq_mul_div, le_div_iff₀ hlo]
  have h1 := le_size2 (α := α) hm hlo C.tuned.lo_le p
  rw [div_mul_eq_mul_div, div_le_iff₀ (by positivity)] at h1
  linarith

theorem noise_le : ∑ j, s j ^ 2 / m j ≤ 2 * α * t / S * Fintype.card J := by
  have hm := C.tuned.mass_pos h
  have hS := h.S_pos
  have : ∀ j, s j ^ 2 / m j ≤ 2 * α * t / S := fun j => by
    rw [div_le_iff₀ (hm j)]
    refine (C.noise j).trans (le_of_eq ?_)
    ring
  refine (Finset.sum_le_sum fun j _ => this j).trans (le_of_eq ?_)
  rw [Finset.sum_const, nsmul_eq_mul, Finset.card_univ, mul_comm]

theorem warmth_le : warmth ν g a b t α m s ≤ t * glow J ν g a b S α := by
  have hα := C.α0
  have hS := h.S_pos
  have h1 := C.noise_le h
  have h2 : ∑ j, (s j / α) ^ 2 / m j = 1 / α ^ 2 * ∑ j, s j ^ 2 / m j := by
    rw [Finset.mul_sum]
    exact Finset.sum_congr rfl fun j _ => by ring
  have h3 := mul_le_mul_of_nonneg_left h1 (by positivity : 0 ≤ 1 / α ^ 2)
  have e : t * glow J ν g a b S α = t / α * (2 * b + a * ∫ β, g β ∂ν) + (1 / α ^ 2 * (2 * α * t / S * Fintype.card J) + 2 * α * t / S * Fintype.card J) := by
    unfold glow
    field_simp
  unfold warmth
  rw [e, h2]
  linarith

theorem total_le : ∫ p, total m α p ∂π ≤ glow J ν g a b S α / pace a lo α := by
  have hα := C.α0
  have ht := C.t_pos h
  have ha := h.conf.pos
  have hlo := h.lo_pos
  have hp := pace_pos ha hlo hα
  have hg := glow_nonneg (J := J) h.conf h.S_pos hα
  have hs := slowing_lt ha ht hlo hα
  have h1 := (C.moves h).stationary_le C.inv (C.total_integrable h)
  have h2 : t * pace a lo α ≤ 1 - slowing a t lo α := by
    have h3 : slowing a t lo α ≤ 1 - t * pace a lo α := by
      have ht1 := C.t_le h
      unfold slowing
      refine max_le ?_ ?_
      · have : pace a lo α ≤ 1 := min_le_left _ _
        nlinarith
      · have h4 : t * pace a lo α ≤ min (α / (2 * (2 * ((1 - α) / α) ^ 2 + 1))) (t * a * lo / (2 * α)) := by
          refine le_min ?_ ?_
          · have h5 : pace a lo α ≤ α / (2 * (2 * ((1 - α) / α) ^ 2 + 1)) := (min_le_right _ _).trans (min_le_left _ _)
            nlinarith
          · have h5 : pace a lo α ≤ a * lo / (2 * α) := (min_le_right _ _).trans (min_le_right _ _)
            refine (mul_le_mul_of_nonneg_left h5 ht.le).trans (le_of_eq ?_)
            ring
        linarith
    linarith
  refine h1.trans ?_
  rw [div_le_div_iff₀ (by linarith) hp]
  have h3 := mul_le_mul_of_nonneg_right (C.warmth_le h) hp.le
  have h4 := mul_le_mul_of_nonneg_left h2 hg
  linarith

theorem positions : Integrable (fun p : (J → ℝ) × (J → ℝ) => ∑ j, p.1 j ^ 2) π ∧ ∫ p, ∑ j, p.1 j ^ 2 ∂π ≤ spread J ν g a b lo hi S α := by
  have hm := C.tuned.mass_pos h
  have hh := C.tuned.hi_nonneg h
  have m1 : Measurable fun p : (J → ℝ) × (J → ℝ) => ∑ j, p.1 j ^ 2 :=
    Finset.measurable_fun_sum _ fun j _ => ((measurable_pi_apply j).comp measurable_fst).pow_const 2
  have i1 : Integrable (fun p : (J → ℝ) × (J → ℝ) => ∑ j, p.1 j ^ 2) π := by
    refine C.int.mono' m1.aestronglyMeasurable (.of_forall fun p => ?_)
    rw [Real.norm_eq_abs, abs_of_nonneg (Finset.sum_nonneg fun _ _ => sq_nonneg _)]
    exact le_add_of_nonneg_right (Finset.sum_nonneg fun _ _ => sq_nonneg _)
  refine ⟨i1, ?_⟩
  have h1 : ∫ p, ∑ j, p.1 j ^ 2 ∂π ≤ ∫ p, (3 + 2 * ((1 - α) / α) ^ 2) * hi * total m α p ∂π := by
    refine integral_mono i1 ((C.total_integrable h).const_mul _) fun p => ?_
    refine le_trans ?_ (size2_le hm C.tuned.le_hi hh p)
    exact le_add_of_nonneg_right (Finset.sum_nonneg fun _ _ => sq_nonneg _)
  rw [integral_const_mul] at h1
  exact h1.trans (mul_le_mul_of_nonneg_left (C.total_le h) (by positivity))

theorem momentum_dom : Dom (total m α) fun p : (J → ℝ) × (J → ℝ) => energy m p.2 :=
  ⟨measurable_energy.comp measurable_snd, 1, 0, zero_le_one, fun p => by
    have hm := C.tuned.mass_pos h
    rw [abs_of_nonneg (energy_nonneg hm _), one_mul, add_zero]
    exact le_add_of_nonneg_left (energy_nonneg hm _)⟩

/-- A step changes the energy of the momentum. -/
theorem momentum_step (p : (J → ℝ) × (J → ℝ)) : push (ν.prod (gauss J)) (hop G m s t α) (fun p => energy m p.2) p
    ≤ (1 - α / 2) * energy m p.2 + (3 * t * a * (∫ β, g β ∂ν + ∑ j, p.1 j ^ 2) + 2 * α * t / S * Fintype.card J) := by
  have hm := C.tuned.mass_pos h
  have hα0 := C.α0
  have hα1 := C.α1
  have ht := C.t_pos h
  have ha := h.conf.pos
  have e1 := (h.conf.energy_step (t := t) (s := s) hm (fun j => (1 - α) * p.2 j) p.1).2
  have e2 : push (ν.prod (gauss J)) (hop G m s t α) (fun p => energy m p.2) p
      = ∫ q, energy m (fun j => (1 - α) * p.2 j - t * m j * G q.1 p.1 j + s j * q.2 j) ∂ν.prod (gauss J) := rfl
  rw [e2, e1, energy_smul]
  have hcr := h.conf.exchange hm hα0 (t * (1 - α)) p.1 p.2
  have hgr := h.conf.grad_le (m := m) ha.le (C.stable_each h) p.1
  have hno := C.noise_le h
  have hs2 : ∫ β, ∑ j, (1 - α) * p.2 j * G β p.1 j ∂ν = (1 - α) * ∫ β, ∑ j, p.2 j * G β p.1 j ∂ν := by
    rw [← integral_const_mul]
    refine integral_congr_ae (ae_of_all _ fun β => ?_)
    simp only
    rw [Finset.mul_sum]
    exact Finset.sum_congr rfl fun j _ => by ring
  rw [hs2]
  have hdm := mul_le_mul_of_nonneg_right (damping hα0 hα1) (energy_nonneg hm p.2)
  have hQ : 0 ≤ ∑ j, m j * ∫ β, G β p.1 j ^ 2 ∂ν := Finset.sum_nonneg fun j _ => mul_nonneg (hm j).le (integral_nonneg fun _ => sq_nonneg _)
  generalize (∫ β, ∑ j, p.2 j * G β p.1 j ∂ν) = I₂ at *
  generalize (∑ j, m j * ∫ β, G β p.1 j ^ 2 ∂ν) = Q at *
  have k1 : t ^ 2 * Q + 2 * (t * (1 - α)) ^ 2 / α * Q ≤ 3 * t * (t * coupling α * α * Q) := by
    have k2 : 1 + 2 * (1 - α) ^ 2 / α ≤ 3 * (coupling α * α) := by
      have k3 : 1 / α ≤ coupling α * α := by
        unfold coupling
        have e : (1 / α ^ 2 + 1 + 2 * ((1 - α) / α ^ 2 + (1 - α)) ^ 2 / α) * α = 1 / α + (α + 2 * ((1 - α) / α ^ 2 + (1 - α)) ^ 2) := by
          field_simp
          ring
        rw [e]
        have : 0 ≤ α + 2 * ((1 - α) / α ^ 2 + (1 - α)) ^ 2 := by positivity
        linarith
      have k4 : 1 ≤ 1 / α := by rw [le_div_iff₀ hα0]; linarith
      have k5 : 2 * (1 - α) ^ 2 / α ≤ 2 * (1 / α) := by
        rw [mul_div_assoc]
        refine mul_le_mul_of_nonneg_left (div_le_div_of_nonneg_right ?_ hα0.le) two_pos.le
        nlinarith
      linarith
    have k6 := mul_le_mul_of_nonneg_left k2 (by positivity : 0 ≤ t ^ 2 * Q)
    have e : t ^ 2 * Q * (1 + 2 * (1 - α) ^ 2 / α) = t ^ 2 * Q + 2 * (t * (1 - α)) ^ 2 / α * Q := by ring
    rw [← e]
    linarith
  have k7 := mul_le_mul_of_nonneg_left hgr (by positivity : 0 ≤ 3 * t)
  linarith

/-- Momenta are small. -/
theorem momenta : ∫ p, energy m p.2 ∂π ≤ speed J ν g a b lo hi S α * t := by
  have hm := C.tuned.mass_pos h
  have hα0 := C.α0
  have hα1 := C.α1
  have ht := C.t_pos h
  have ha := h.conf.pos
  have hd := C.momentum_dom h
  have iT := C.total_integrable h
  have i1 := hd.integrable iT
  obtain ⟨i2, h2⟩ := C.positions h
  have h1 := ((C.moves h).law_integral iT hd).2
  rw [C.inv] at h1
  have hpt := C.momentum_step h
  have i3 : Integrable (fun p : (J → ℝ) × (J → ℝ) =>
      (1 - α / 2) * energy m p.2 + (3 * t * a * (∫ β, g β ∂ν + ∑ j, p.1 j ^ 2) + 2 * α * t / S * Fintype.card J)) π :=
    (i1.const_mul _).add ((((integrable_const _).add i2).const_mul _).add (integrable_const _))
  have h3 := integral_mono ((hd.push (C.moves h)).integrable iT) i3 hpt
  have i4 : Integrable (fun p : (J → ℝ) × (J → ℝ) => ∫ β, g β ∂ν + ∑ j, p.1 j ^ 2) π := (integrable_const _).add i2
  have i5 : Integrable (fun p : (J → ℝ) × (J → ℝ) => 3 * t * a * (∫ β, g β ∂ν + ∑ j, p.1 j ^ 2)) π := i4.const_mul _
  have i6 : Integrable (fun p : (J → ℝ) × (J → ℝ) =>
      3 * t * a * (∫ β, g β ∂ν + ∑ j, p.1 j ^ 2) + 2 * α * t / S * Fintype.card J) π := i5.add (integrable_const _)
  rw [← h1, integral_add (i1.const_mul _) i6, integral_const_mul, integral_add i5 (integrable_const _), integral_const_mul,
    integral_add (integrable_const _) i2] at h3
  simp only [integral_const, probReal_univ, one_smul] at h3
  have h4 : α / 2 * ∫ p, energy m p.2 ∂π ≤ t * (3 * a * (∫ β, g β ∂ν + spread J ν g a b lo hi S α) + 2 * α * Fintype.card J / S) := by
    have h5 := mul_le_mul_of_nonneg_left h2 (by positivity : 0 ≤ 3 * t * a)
    have e : 2 * α * t / S * (Fintype.card J : ℝ) = t * (2 * α * Fintype.card J / S) := by ring
    rw [e] at h3
    linarith
  unfold speed
  have e : ∫ p, energy m p.2 ∂π = 2 / α * (α / 2 * ∫ p, energy m p.2 ∂π) := by field_simp
  rw [e]
  refine (mul_le_mul_of_nonneg_left h4 (by positivity)).trans (le_of_eq ?_)
  ring

theorem slow_dom (hφ : Dom (energy m) φ) : Dom (total m α) fun p => φ (slow α p) := by
  have hm := C.tuned.mass_pos h
  obtain ⟨h1, A, B, hA, hb⟩ := hφ
  refine ⟨h1.comp measurable_slow, A, B, hA, fun p => (hb _).trans ?_⟩
  have : energy m (slow α p) ≤ total m α p := le_add_of_nonneg_right (energy_nonneg hm _)
  have := mul_le_mul_of_nonneg_left this hA
  linarith

theorem energy_dom : Dom (energy m) (energy m) := (C.tuned.moves_energy h).self_dom

/-- The point reached by SGHMC and the one reached by SGLD with the same mini-batch and noise. -/
theorem apart (p : (J → ℝ) × (J → ℝ)) (q : Bt × (J → ℝ)) :
    ‖slow α (hop G m s t α p q) - langevin G m (sig m S (t / α)) (t / α) (slow α p) q‖
      ≤ t / α * (hi * L * ((1 - α) / α)) * ‖p.2‖ + κ * (t / α * √(t / α)) * ‖q.2‖ := by
  have hτ := C.tuned.t_pos
  have hm := C.tuned.mass_pos h
  have hα0 := C.α0
  have hα1 := C.α1
  have hL := h.lip0
  have hh := C.tuned.hi_nonneg h
  have hr : 0 ≤ (1 - α) / α := div_nonneg (by linarith) hα0.le
  have e1 : p.1 - slow α p = (-((1 - α) / α)) • p.2 := by
    funext j
    simp only [Pi.sub_apply, Pi.smul_apply, smul_eq_mul, slow]
    ring
  have h1 : ‖G q.1 p.1 - G q.1 (slow α p)‖ ≤ L * ((1 - α) / α * ‖p.2‖) := by
    have := h.lip q.1 p.1 (slow α p)
    rwa [e1, norm_smul, Real.norm_eq_abs, abs_neg, abs_of_nonneg hr] at this
  by_cases hJ : Nonempty J
  · obtain ⟨j₀⟩ := hJ
    have hκ : 0 ≤ κ * (t / α * √(t / α)) := (abs_nonneg _).trans (C.near j₀)
    refine (pi_norm_le_iff_of_nonneg (by positivity)).2 fun j => ?_
    have e2 : (slow α (hop G m s t α p q) - langevin G m (sig m S (t / α)) (t / α) (slow α p) q) j
        = -(t / α * m j * (G q.1 p.1 j - G q.1 (slow α p) j)) + (s j / α - sig m S (t / α) j) * q.2 j := by
      rw [Pi.sub_apply, slow_hop hα0.ne']
      simp only [langevin]
      ring
    rw [e2, Real.norm_eq_abs]
    refine (abs_add_le _ _).trans (add_le_add ?_ ?_)
    · rw [abs_neg, abs_mul, abs_of_pos (mul_pos hτ (hm j))]
      have h2 := (norm_le_pi_norm (G q.1 p.1 - G q.1 (slow α p)) j).trans h1
      rw [Pi.sub_apply, Real.norm_eq_abs] at h2
      have h3 := mul_le_mul_of_nonneg_left (C.tuned.le_hi j) hτ.le
      refine (mul_le_mul h3 h2 (abs_nonneg _) (by positivity)).trans (le_of_eq ?_)
      ring
    · rw [abs_mul]
      exact mul_le_mul (C.near j) (norm_le_pi_norm q.2 j) (abs_nonneg _) hκ
  · have : IsEmpty J := not_nonempty_iff.1 hJ
    have z : ∀ x : J → ℝ, ‖x‖ = 0 := fun x => by rw [Subsingleton.elim x 0, norm_zero]
    simp only [z, mul_zero, add_zero, le_refl]

end Coasts

theorem norm_sq_le (x : J → ℝ) : ‖x‖ ^ 2 ≤ ∑ j, x j ^ 2 := by
  have h1 : ‖x‖ ≤ √(∑ j, x j ^ 2) := by
    refine (pi_norm_le_iff_of_nonneg (Real.sqrt_nonneg _)).2 fun j => ?_
    rw [Real.norm_eq_abs, ← Real.sqrt_sq_eq_abs]
    exact Real.sqrt_le_sqrt (Finset.single_le_sum (f := fun j => x j ^ 2) (fun _ _ => sq_nonneg _) (Finset.mem_univ j))
  have h2 := pow_le_pow_left₀ (norm_nonneg x) h1 2
  rwa [Real.sq_sqrt (Finset.sum_nonneg fun _ _ => sq_nonneg _)] at h2

theorem far_sq_le (x : J → ℝ) : far x ^ 2 ≤ 2 + 2 * ∑ j, x j ^ 2 := by
  have := norm_sq_le x
  unfold far
  nlinarith [sq_nonneg (1 - ‖x‖)]

/-- A product by squares. -/
theorem mixed_le {M f f' d ε u w : ℝ} (hM : 0 ≤ M) (hε : 0 < ε) (hε1 : ε ≤ 1) (hd : 0 ≤ d) (hf : f' ≤ f + d) (hu : 0 ≤ u) (hw : 0 ≤ w) (hdu : d ≤ u + w) :
    (f + f') * (0 + M * d) ≤ M * (ε * f ^ 2 + 4 / ε * (u ^ 2 + w ^ 2)) := by
  have h1 : d ^ 2 ≤ 2 * (u ^ 2 + w ^ 2) := by
    have := pow_le_pow_left₀ hd hdu 2
    nlinarith [sq_nonneg (u - w)]
  have h2 : 2 * f * d ≤ ε * f ^ 2 + d ^ 2 / ε := by
    have h3 : 0 ≤ (ε * f - d) ^ 2 / ε := by positivity
    have e : (ε * f - d) ^ 2 / ε = ε * f ^ 2 + d ^ 2 / ε - 2 * f * d := by
      field_simp
      ring
    linarith
  have h4 : d ^ 2 ≤ d ^ 2 / ε := by
    rw [le_div_iff₀ hε]
    nlinarith [sq_nonneg d]
  have h5 : (f + f') * d ≤ (2 * f + d) * d := mul_le_mul_of_nonneg_right (by linarith) hd
  have h6 : d ^ 2 / ε ≤ 2 * (u ^ 2 + w ^ 2) / ε := div_le_div_of_nonneg_right h1 hε.le
  have e : 4 / ε * (u ^ 2 + w ^ 2) = 2 * (2 * (u ^ 2 + w ^ 2) / ε) := by ring
  rw [e, zero_add, mul_left_comm]
  refine mul_le_mul_of_nonneg_left ?_ hM
  linarith

namespace Coasts
variable [IsProbabilityMeasure π] (C : Coasts ν G a Λ lo hi S α κ t m s π) (h : Smooth ν G a b Λ g L lo hi S)
include C h

theorem root_three : (t / α) ^ 2 * t = α * ((t / α * √(t / α)) * (t / α * √(t / α))) := by
  have hτ := C.tuned.t_pos
  have hα := C.α0
  have e := Real.mul_self_sqrt hτ.le
  have e2 : (t / α * √(t / α)) * (t / α * √(t / α)) = (t / α) * (t / α) * (√(t / α) * √(t / α)) := by ring
  rw [e2, e]
  field_simp

/-- A step of SGLD from one point. -/
theorem step_near {M : ℝ} (hM : 0 ≤ M) (hφ : Dom (energy m) φ) (hv : Varies 0 M φ) (p : (J → ℝ) × (J → ℝ)) :
    |push (ν.prod (gauss J)) (hop G m s t α) (fun p => φ (slow α p)) p - avg ν G m S (t / α) φ (slow α p)|
      ≤ M * (t / α * √(t / α) * push (ν.prod (gauss J)) (hop G m s t α) (fun p => 2 + 2 * hi * energy m (slow α p)) p
        + 4 / (t / α * √(t / α)) * ((t / α * (hi * L * ((1 - α) / α))) ^ 2 * (hi * energy m p.2) + (κ * (t / α * √(t / α))) ^ 2 * Fintype.card J)) := by
  have hτ := C.tuned.t_pos
  have hm := C.tuned.mass_pos h
  have hα0 := C.α0
  have hα1 := C.α1
  have hL := h.lip0
  have hh := C.tuned.hi_nonneg h
  have hr : 0 ≤ (1 - α) / α := div_nonneg (by linarith) hα0.le
  have hV := C.moves h
  set τ := t / α with hτe
  set ε := τ * √τ with hε
  have hε0 : 0 < ε := mul_pos hτ (Real.sqrt_pos.2 hτ)
  have hε1 : ε ≤ 1 := mul_le_one₀ C.tuned.t_le (Real.sqrt_nonneg _) (Real.sqrt_le_one.2 C.tuned.t_le)
  have i1 : Integrable (fun q => φ (slow α (hop G m s t α p q))) (ν.prod (gauss J)) := by
    obtain ⟨hm', A, B, _, hb⟩ := C.slow_dom h hφ
    exact hV.integrable hm' hb p
  have i2 : Integrable (fun q => φ (langevin G m (sig m S τ) τ (slow α p) q)) (ν.prod (gauss J)) := by
    obtain ⟨hm', A, B, _, hb⟩ := hφ
    exact (C.tuned.moves_energy h).integrable hm' hb _
  have hE : Dom (total m α) fun p => 2 + 2 * hi * energy m (slow α p) := by
    refine C.slow_dom h (φ := fun x => 2 + 2 * hi * energy m x) ⟨(measurable_energy.const_mul _).const_add _, 2 * hi, 2, by positivity, fun x => ?_⟩
    have := energy_nonneg hm x
    rw [abs_of_nonneg (by positivity)]
    linarith
  have i3 : Integrable (fun q => 2 + 2 * hi * energy m (slow α (hop G m s t α p q))) (ν.prod (gauss J)) := by
    obtain ⟨hm', A, B, _, hb⟩ := hE
    exact hV.integrable hm' hb p
  have i4 : Integrable (fun q : Bt × (J → ℝ) => ∑ j, q.2 j ^ 2) (ν.prod (gauss J)) :=
    integrable_finsetSum _ fun j _ => (gauss_sq j).1.comp_snd ν
  have e4 : ∫ q : Bt × (J → ℝ), ∑ j, q.2 j ^ 2 ∂ν.prod (gauss J) = Fintype.card J := by
    rw [integral_finsetSum _ fun j _ => (gauss_sq j).1.comp_snd ν]
    have : ∀ j : J, ∫ q : Bt × (J → ℝ), q.2 j ^ 2 ∂ν.prod (gauss J) = 1 := fun j => by
      have := integral_fun_snd (μ := ν) (ν := gauss J) (fun z : J → ℝ => z j ^ 2)
      rw [this, (gauss_sq j).2]
      simp
    rw [Finset.sum_congr rfl fun j _ => this j]
    simp
  unfold push avg push
  rw [← integral_sub i1 i2]
  set u := τ * (hi * L * ((1 - α) / α)) with hu
  have hu0 : 0 ≤ u := by positivity
  have hκ : 0 ≤ κ * ε ∨ IsEmpty J := by
    by_cases hJ : Nonempty J
    · exact .inl ((abs_nonneg _).trans (C.near hJ.some))
    · exact .inr (not_nonempty_iff.1 hJ)
  have hpt : ∀ q : Bt × (J → ℝ), ‖φ (slow α (hop G m s t α p q)) - φ (langevin G m (sig m S τ) τ (slow α p) q)‖
      ≤ M * (ε * (2 + 2 * hi * energy m (slow α (hop G m s t α p q))) + 4 / ε * (u ^ 2 * (hi * energy m p.2) + (κ * ε) ^ 2 * ∑ j, q.2 j ^ 2)) := fun q => by
    rw [Real.norm_eq_abs]
    have h1 := hv (slow α (hop G m s t α p q)) (langevin G m (sig m S τ) τ (slow α p) q)
    have h2 := C.apart h p q
    rw [← hτe, ← hε, ← hu] at h2
    have h3 : far (langevin G m (sig m S τ) τ (slow α p) q) ≤ far (slow α (hop G m s t α p q))
        + ‖slow α (hop G m s t α p q) - langevin G m (sig m S τ) τ (slow α p) q‖ := by
      unfold far
      have := norm_sub_norm_le (langevin G m (sig m S τ) τ (slow α p) q) (slow α (hop G m s t α p q))
      rw [norm_sub_rev] at this
      linarith
    have hz : 0 ≤ κ * ε * ‖q.2‖ := by
      rcases hκ with hκ | hJ
      · positivity
      · rw [Subsingleton.elim q.2 0, norm_zero, mul_zero]
    refine h1.trans ((mixed_le hM hε0 hε1 (norm_nonneg _) h3 (mul_nonneg hu0 (norm_nonneg p.2)) hz h2).trans ?_)
    have k1 := (far_sq_le (slow α (hop G m s t α p q))).trans
      (add_le_add_right (mul_le_mul_of_nonneg_left (sq_le_energy hm C.tuned.le_hi (slow α (hop G m s t α p q))) two_pos.le) 2)
    have k2 := (norm_sq_le p.2).trans (sq_le_energy hm C.tuned.le_hi p.2)
    have k3 := norm_sq_le q.2
    rw [mul_pow, mul_pow (κ * ε)]
    refine mul_le_mul_of_nonneg_left (add_le_add (mul_le_mul_of_nonneg_left (by linarith) hε0.le) ?_) hM
    exact mul_le_mul_of_nonneg_left (add_le_add (mul_le_mul_of_nonneg_left k2 (sq_nonneg _)) (mul_le_mul_of_nonneg_left k3 (sq_nonneg _))) (by positivity)
  have i5 : Integrable (fun q : Bt × (J → ℝ) => u ^ 2 * (hi * energy m p.2) + (κ * ε) ^ 2 * ∑ j, q.2 j ^ 2) (ν.prod (gauss J)) :=
    (integrable_const _).add (i4.const_mul _)
  have h6 := norm_integral_le_of_norm_le (((i3.const_mul ε).add (i5.const_mul (4 / ε))).const_mul M) (.of_forall hpt)
  rw [Real.norm_eq_abs] at h6
  refine h6.trans (le_of_eq ?_)
  have : ∫ q : Bt × (J → ℝ), M * (ε * (2 + 2 * hi * energy m (slow α (hop G m s t α p q)))
        + 4 / ε * (u ^ 2 * (hi * energy m p.2) + (κ * ε) ^ 2 * ∑ j, q.2 j ^ 2)) ∂ν.prod (gauss J)
      = M * (ε * ∫ q, 2 + 2 * hi * energy m (slow α (hop G m s t α p q)) ∂ν.prod (gauss J)
        + 4 / ε * (u ^ 2 * (hi * energy m p.2) + (κ * ε) ^ 2 * ∫ q : Bt × (J → ℝ), ∑ j, q.2 j ^ 2 ∂ν.prod (gauss J))) := by
    rw [integral_const_mul, integral_add (i3.const_mul ε) (i5.const_mul (4 / ε)), integral_const_mul, integral_const_mul,
      integral_add (integrable_const _) (i4.const_mul _), integral_const_mul]
    simp only [integral_const, probReal_univ, one_smul]
    rw [integral_const_mul]
  rw [e4] at this
  exact this

/-- Steps of SGLD nearly preserve the stationary law of SGHMC. -/
theorem preserved {M : ℝ} (hM : 0 ≤ M) (hφ : Dom (energy m) φ) (hv : Varies 0 M φ) :
    |∫ p, avg ν G m S (t / α) φ (slow α p) ∂π - ∫ p, φ (slow α p) ∂π| ≤ t / α * √(t / α) * (M * lag J ν g a b L lo hi S α κ) := by
  have hτ := C.tuned.t_pos
  have hm := C.tuned.mass_pos h
  have hα0 := C.α0
  have hh := C.tuned.hi_nonneg h
  have hV := C.moves h
  have iT := C.total_integrable h
  have h1 := (hV.law_integral iT (C.slow_dom h hφ)).2
  have hE : Dom (total m α) fun p => 2 + 2 * hi * energy m (slow α p) := by
    refine C.slow_dom h (φ := fun x => 2 + 2 * hi * energy m x) ⟨(measurable_energy.const_mul _).const_add _, 2 * hi, 2, by positivity, fun x => ?_⟩
    have := energy_nonneg hm x
    rw [abs_of_nonneg (by positivity)]
    linarith
  have h2 := (hV.law_integral iT hE).2
  rw [C.inv] at h1 h2
  have i0 := (C.slow_dom h (C.energy_dom h)).integrable iT
  have h3 : ∫ p, 2 + 2 * hi * energy m (slow α p) ∂π ≤ 2 + 2 * hi * (glow J ν g a b S α / pace a lo α) := by
    rw [integral_add (integrable_const _) (i0.const_mul _), integral_const_mul]
    simp only [integral_const, probReal_univ, one_smul]
    have h4 : ∫ p, energy m (slow α p) ∂π ≤ ∫ p, total m α p ∂π := integral_mono i0 iT fun p => le_add_of_nonneg_right (energy_nonneg hm _)
    have := mul_le_mul_of_nonneg_left (h4.trans (C.total_le h)) (by positivity : 0 ≤ 2 * hi)
    linarith
  have i1 := ((C.slow_dom h hφ).push hV).integrable iT
  have i2 := (C.slow_dom h (hφ.push (C.tuned.moves_energy h))).integrable iT
  have i3 := (hE.push hV).integrable iT
  have i4 := (C.momentum_dom h).integrable iT
  set τ := t / α with hτe
  set ε := τ * √τ with hε
  have hε0 : 0 < ε := mul_pos hτ (Real.sqrt_pos.2 hτ)
  rw [h1, abs_sub_comm]
  have i2' : Integrable (fun p => avg ν G m S τ φ (slow α p)) π := i2
  rw [← integral_sub i1 i2']
  set u := hi * L * ((1 - α) / α) with hu
  have i5 : Integrable (fun p : (J → ℝ) × (J → ℝ) => (τ * u) ^ 2 * (hi * energy m p.2) + (κ * ε) ^ 2 * Fintype.card J) π :=
    ((i4.const_mul _).const_mul _).add (integrable_const _)
  have h6 := norm_integral_le_of_norm_le (((i3.const_mul ε).add (i5.const_mul (4 / ε))).const_mul M)
    (.of_forall fun p => (Real.norm_eq_abs _).le.trans (C.step_near h hM hφ hv p))
  rw [Real.norm_eq_abs] at h6
  refine h6.trans ?_
  have e6 : ∫ p : (J → ℝ) × (J → ℝ), M * (ε * push (ν.prod (gauss J)) (hop G m s t α) (fun p => 2 + 2 * hi * energy m (slow α p)) p
        + 4 / ε * ((τ * u) ^ 2 * (hi * energy m p.2) + (κ * ε) ^ 2 * Fintype.card J)) ∂π
      = M * (ε * ∫ p, push (ν.prod (gauss J)) (hop G m s t α) (fun p => 2 + 2 * hi * energy m (slow α p)) p ∂π
        + 4 / ε * ((τ * u) ^ 2 * (hi * ∫ p, energy m p.2 ∂π) + (κ * ε) ^ 2 * Fintype.card J)) := by
    rw [integral_const_mul, integral_add (i3.const_mul ε) (i5.const_mul (4 / ε)), integral_const_mul, integral_const_mul,
      integral_add ((i4.const_mul _).const_mul _) (integrable_const _), integral_const_mul, integral_const_mul]
    simp only [integral_const, probReal_univ, one_smul]
  refine (le_of_eq e6).trans ?_
  rw [← h2, mul_left_comm ε M]
  refine mul_le_mul_of_nonneg_left ?_ hM
  have h7 := mul_le_mul_of_nonneg_left h3 hε0.le
  have h8 : 4 / ε * ((τ * u) ^ 2 * (hi * ∫ p, energy m p.2 ∂π) + (κ * ε) ^ 2 * Fintype.card J)
      ≤ ε * (4 * u ^ 2 * (hi * speed J ν g a b lo hi S α * α) + 4 * κ ^ 2 * Fintype.card J) := by
    have h9 := mul_le_mul_of_nonneg_left (C.momenta h) (by positivity : 0 ≤ (τ * u) ^ 2 * hi)
    have e9 := C.root_three h
    rw [← hτe, ← hε] at e9
    have h10 : (τ * u) ^ 2 * (hi * ∫ p, energy m p.2 ∂π) ≤ u ^ 2 * hi * speed J ν g a b lo hi S α * (α * (ε * ε)) := by
      rw [← e9]
      linarith
    rw [div_mul_eq_mul_div, div_le_iff₀ hε0]
    nlinarith [h10]
  unfold lag
  rw [← hu]
  linarith

theorem speed_nonneg : 0 ≤ speed J ν g a b lo hi S α := by
  have h1 : 0 ≤ ∫ β, g β ∂ν := integral_nonneg h.conf.nonneg
  have h2 := glow_nonneg (J := J) h.conf h.S_pos C.α0
  have h3 := pace_pos h.conf.pos h.lo_pos C.α0
  have h4 := C.tuned.hi_nonneg h
  have h5 := C.α0
  have h6 := h.conf.pos
  have h7 := h.S_pos
  unfold speed spread
  positivity

theorem kept : Kept ν G S m (t / α) (lag J ν g a b L lo hi S α κ) (π.map (slow α)) where
  int := (integrable_map_measure measurable_energy.aestronglyMeasurable measurable_slow.aemeasurable).2
    ((C.slow_dom h (C.energy_dom h)).integrable (C.total_integrable h))
  nonneg := by
    have h2 := glow_nonneg (J := J) h.conf h.S_pos C.α0
    have h3 := pace_pos h.conf.pos h.lo_pos C.α0
    have h4 := C.tuned.hi_nonneg h
    have h5 := C.α0
    have h6 := C.speed_nonneg h
    unfold lag
    positivity
  step φ M hM hφ hv := by
    have h1 := C.preserved h hM hφ hv
    rw [integral_map measurable_slow.aemeasurable hφ.1.aestronglyMeasurable,
      integral_map measurable_slow.aemeasurable (hφ.push (C.tuned.moves_energy h)).1.aestronglyMeasurable]
    exact h1

theorem momentum_integrable : Integrable (fun p : (J → ℝ) × (J → ℝ) => ‖p.2‖) π := by
  have hm := C.tuned.mass_pos h
  have i4 := (C.momentum_dom h).integrable (C.total_integrable h)
  refine ((integrable_const 1).add (i4.const_mul hi)).mono' (measurable_snd.norm).aestronglyMeasurable (.of_forall fun p => ?_)
  rw [Real.norm_eq_abs, abs_of_nonneg (norm_nonneg _), Pi.add_apply]
  have k2 := (norm_sq_le p.2).trans (sq_le_energy hm C.tuned.le_hi p.2)
  nlinarith [sq_nonneg (‖p.2‖ - 1)]

/-- Momenta are small. -/
theorem momentum_le : ∫ p, ‖p.2‖ ∂π ≤ √(t / α) * (1 + hi * speed J ν g a b lo hi S α * α) := by
  have hm := C.tuned.mass_pos h
  have hτ := C.tuned.t_pos
  have hα := C.α0
  have hh := C.tuned.hi_nonneg h
  have i4 := (C.momentum_dom h).integrable (C.total_integrable h)
  have hs : 0 < √(t / α) := Real.sqrt_pos.2 hτ
  have e1 := Real.mul_self_sqrt hτ.le
  set w := √(t / α) with hw
  have hpt : ∀ p : (J → ℝ) × (J → ℝ), ‖p.2‖ ≤ w + hi / w * energy m p.2 := fun p => by
    have k2 := (norm_sq_le p.2).trans (sq_le_energy hm C.tuned.le_hi p.2)
    have k3 : ‖p.2‖ ≤ w + ‖p.2‖ ^ 2 / w := by
      have h1 : 0 ≤ (w - ‖p.2‖) ^ 2 / w := by positivity
      have e : (w - ‖p.2‖) ^ 2 / w = w + ‖p.2‖ ^ 2 / w - 2 * ‖p.2‖ := by
        field_simp
        ring
      linarith [norm_nonneg p.2]
    have k4 := div_le_div_of_nonneg_right k2 hs.le
    have e : hi / w * energy m p.2 = hi * energy m p.2 / w := by ring
    rw [e]
    linarith
  have h1 := integral_mono (C.momentum_integrable h) ((integrable_const w).add (i4.const_mul (hi / w))) hpt
  have e2 : ∫ p : (J → ℝ) × (J → ℝ), (w + hi / w * energy m p.2) ∂π = w + hi / w * ∫ p, energy m p.2 ∂π := by
    rw [integral_add (integrable_const w) (i4.const_mul (hi / w)), integral_const_mul]
    simp only [integral_const, probReal_univ, one_smul]
  refine (h1.trans (le_of_eq e2)).trans ?_
  have h2 := mul_le_mul_of_nonneg_left (C.momenta h) (by positivity : 0 ≤ hi / w)
  have e3 : t = w * w * α := by
    rw [e1]
    field_simp
  have e4 : hi / w * (speed J ν g a b lo hi S α * t) = w * (hi * speed J ν g a b lo hi S α * α) := by
    rw [e3]
    field_simp
  rw [e4] at h2
  linarith

end Coasts

/-- Averages over the stationary law of SGHMC are near averages over the posterior. -/
theorem Potential.coasts [Nonempty J] (h : Potential ν G U a b Λ g L lo hi S) (hα0 : 0 < α) (hα1 : α ≤ 1) (κ : ℝ) :
    ∃ c K : ℝ, IsProbabilityMeasure (boltz fun x => S * U x + c) ∧ 0 ≤ K ∧
    ∀ {m s : J → ℝ} {t : ℝ} {π : Measure ((J → ℝ) × (J → ℝ))} [IsProbabilityMeasure π], Coasts ν G a Λ lo hi S α κ t m s π →
      ∀ {f : (J → ℝ) → ℝ} {A : ℝ}, 0 ≤ A → (∀ x y, |f x - f y| ≤ A * ‖x - y‖) →
      Integrable (fun p : (J → ℝ) × (J → ℝ) => f p.1) π ∧
      |∫ p, f p.1 ∂π - ∫ x, f x ∂boltz fun x => S * U x + c| ≤ A * (K * √(t / α)) := by
  have hs := h.toSmooth
  obtain ⟨c, hp⟩ := h.normalized
  obtain ⟨w, C', r, Γ, hΓ0, hr2, hr1, hmix⟩ := hs.mixes_uniform
  have hr0 : 0 < r := by linarith
  have h1r : 0 < 1 - r := by linarith
  have hB := h.drift_nonneg (c := c)
  have hρ : 0 ≤ (1 - α) / α := div_nonneg (by linarith) hα0.le
  set D := lag J ν g a b L lo hi S α κ with hD
  set V := speed J ν g a b lo hi S α with hV
  set W := smoothing J ν g a b L lo hi S with hW
  set Q := blockBias (J := J) ν U g a b Λ L lo hi S c with hQ
  refine ⟨c, max 0 ((1 - α) / α * (1 + hi * V * α) + (1 + √hi) * (D * (1 + 10 * Γ * W) / (1 - r) + 2 * Γ * Q / (1 - r))), hp, le_max_left _ _, ?_⟩
  intro m s t π _ C f A hA hf
  have T := C.tuned
  have hτ := T.t_pos
  have hm := T.mass_pos hs
  have hh := T.hi_nonneg hs
  have hn := T.unit
  obtain ⟨X, hΓ, hK⟩ := hmix T hn
  obtain ⟨πh, hπp, hinv, hVπ, hπ⟩ := X.stationary
  have cf : Continuous f := (LipschitzWith.of_dist_le_mul (K := ⟨A, hA⟩) fun x y => by
    rw [dist_eq_norm, dist_eq_norm]; exact hf x y).continuous
  set φ : (J → ℝ) → ℝ := fun x => f x - f 0 with hφe
  have mφ : Measurable φ := cf.measurable.sub_const _
  have hA' : 0 ≤ A * (1 + √hi) := by positivity
  have lφ : ∀ x y, |φ x - φ y| ≤ A * ‖x - y‖ := fun x y => by
    simp only [hφe, sub_sub_sub_cancel_right]
    exact hf x y
  have bφ : ∀ x, |φ x| ≤ A * (1 + √hi) * size m x := fun x => by
    have h1 := hf x 0
    rw [sub_zero] at h1
    refine h1.trans ?_
    rw [mul_assoc]
    exact mul_le_mul_of_nonneg_left ((norm_le_far x).trans (T.far_le_size hs x)) hA
  have vφ : Varies 0 (A * (1 + √hi)) φ := fun x y => by
    refine (lφ x y).trans ?_
    rw [zero_add]
    have h1 := one_le_far x
    have h2 := one_le_far y
    have h3 : A * ‖x - y‖ ≤ A * (1 + √hi) * ‖x - y‖ := by
      refine mul_le_mul_of_nonneg_right ?_ (norm_nonneg _)
      exact le_mul_of_one_le_right hA (by linarith [Real.sqrt_nonneg hi])
    exact h3.trans (le_mul_of_one_le_left (by positivity) (by linarith))
  have hE : Dom (energy m) φ := T.size_le_energy hs (size_dom mφ hA' bφ)
  have : IsProbabilityMeasure (π.map (slow α)) := Measure.isProbabilityMeasure_map measurable_slow.aemeasurable
  have h1 := (C.kept hs).near T hs hn X hΓ hr2 hr1 hinv hVπ hπ mφ hA' bφ vφ
  have h2 := h.stationary_near (c := c) T hn X hΓ hr0 hr1 hinv hVπ hπ mφ hA' bφ
  rw [integral_map measurable_slow.aemeasurable mφ.aestronglyMeasurable, ← hD, ← hW] at h1
  rw [← hQ] at h2
  have iS : Integrable (fun p => φ (slow α p)) π := (C.slow_dom hs hE).integrable (C.total_integrable hs)
  have hdif : ∀ p : (J → ℝ) × (J → ℝ), ‖φ p.1 - φ (slow α p)‖ ≤ A * ((1 - α) / α) * ‖p.2‖ := fun p => by
    rw [Real.norm_eq_abs]
    refine (lφ _ _).trans (le_of_eq ?_)
    have e1 : p.1 - slow α p = (-((1 - α) / α)) • p.2 := by
      funext j
      simp only [Pi.sub_apply, Pi.smul_apply, smul_eq_mul, slow]
      ring
    rw [e1, norm_smul, Real.norm_eq_abs, abs_neg, abs_of_nonneg hρ, mul_assoc]
  have iN := C.momentum_integrable hs
  have iD : Integrable (fun p : (J → ℝ) × (J → ℝ) => φ p.1 - φ (slow α p)) π :=
    (iN.const_mul _).mono' ((mφ.comp measurable_fst).sub (mφ.comp measurable_slow)).aestronglyMeasurable (.of_forall hdif)
  have iφ : Integrable (fun p : (J → ℝ) × (J → ℝ) => φ p.1) π := (iD.add iS).congr (.of_forall fun p => by simp)
  have h3 := norm_integral_le_of_norm_le (iN.const_mul _) (.of_forall hdif)
  rw [integral_sub iφ iS, integral_const_mul, Real.norm_eq_abs] at h3
  have h4 := mul_le_mul_of_nonneg_left (C.momentum_le hs) (mul_nonneg hA hρ)
  rw [← hV] at h4
  have i1 : Integrable (fun p : (J → ℝ) × (J → ℝ) => f p.1) π := (iφ.add (integrable_const (f 0))).congr (.of_forall fun p => by simp [hφe])
  refine ⟨i1, ?_⟩
  have i2 : Integrable φ (boltz fun x => S * U x + c) := hE.integrable (h.energy_integrable T c)
  have i3 : Integrable f (boltz fun x => S * U x + c) := (i2.add (integrable_const (f 0))).congr (.of_forall fun p => by simp [hφe])
  have e1 : ∫ p : (J → ℝ) × (J → ℝ), φ p.1 ∂π = ∫ p, f p.1 ∂π - f 0 := by
    simp only [hφe]
    rw [integral_sub i1 (integrable_const _)]
    simp
  have e2 : ∫ x, φ x ∂(boltz fun x => S * U x + c) = ∫ x, f x ∂(boltz fun x => S * U x + c) - f 0 := by
    simp only [hφe]
    rw [integral_sub i3 (integrable_const _)]
    simp
  rw [e2] at h2
  rw [e1] at h3
  have hmax := le_max_right 0 ((1 - α) / α * (1 + hi * V * α) + (1 + √hi) * (D * (1 + 10 * Γ * W) / (1 - r) + 2 * Γ * Q / (1 - r)))
  have h5 := mul_le_mul_of_nonneg_left (mul_le_mul_of_nonneg_right hmax (Real.sqrt_nonneg (t / α))) hA
  refine le_trans ?_ h5
  have h6 : |∫ p, f p.1 ∂π - ∫ x, f x ∂boltz fun x => S * U x + c|
      ≤ A * ((1 - α) / α) * (√(t / α) * (1 + hi * V * α)) + √(t / α) * (A * (1 + √hi) * (D * (1 + 10 * Γ * W) / (1 - r)))
        + √(t / α) * (2 * (A * (1 + √hi)) * Γ * Q / (1 - r)) := by
    have h3' := h3.trans h4
    rw [abs_le] at h1 h2 h3' ⊢
    constructor <;> linarith [h1.1, h1.2, h2.1, h2.2, h3'.1, h3'.2]
  refine h6.trans (le_of_eq ?_)
  ring

end PySGMCMC.Harris
