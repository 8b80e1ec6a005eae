import Verif.Lemmas.SgldOrders

/-!
# Chains that follow SGHMC up to small errors

A process that makes steps of SGHMC, up to errors that are small compared with the new momenta, samples the same posterior.  The errors may
depend on everything that has happened so far, including the step itself, but not on the future.
-/

open MeasureTheory ProbabilityTheory Filter Topology
namespace PySGMCMC.Harris
open Confining Moves Mixes Recipe Langevin
set_option linter.unusedSectionVars false

/-! ## Two sequences -/

section two
variable {E M : Nat → ℝ} {τ θ α c c₀ Q B : ℝ}

theorem two_step (hα1 : α ≤ 1) (hα0 : 0 < α) (hτ0 : 0 < τ) (hτ1 : τ ≤ 1) (hθα : θ ≤ α / 8) (hc₀ : 0 ≤ c₀) (hQ : 0 ≤ Q)
    {E M E' M' : ℝ} (hE0 : 0 ≤ E) (hM0 : 0 ≤ M) (hE : E' ≤ (1 - 2 * θ * τ) * E + τ * (Q * M) + τ * B) (hM : M' ≤ (1 - α / 4) * M + 2 * τ * (c * E + c₀))
    (hsmall : τ * (2 * (8 * Q / α) * c) ≤ θ) :
    E' + 8 * Q / α * τ * M' ≤ (1 - θ * τ) * (E + 8 * Q / α * τ * M) + τ * (B + 16 * Q / α * c₀) := by
  set u := 8 * Q / α with hu
  have hu0 : 0 ≤ u := by positivity
  have e1 : u * (α / 8) = Q := by rw [hu]; field_simp
  have e2 : 16 * Q / α = 2 * u := by rw [hu]; ring
  rw [e2]
  have k1 := mul_le_mul_of_nonneg_left hM (mul_nonneg hu0 hτ0.le)
  have k2 := mul_le_mul_of_nonneg_right (mul_le_mul_of_nonneg_left hsmall hτ0.le) hE0
  have k3 : τ * (u * (τ * c₀)) ≤ τ * (u * (1 * c₀)) :=
    mul_le_mul_of_nonneg_left (mul_le_mul_of_nonneg_left (mul_le_mul_of_nonneg_right hτ1 hc₀) hu0) hτ0.le
  have hθτ : θ * τ ≤ α / 8 := by
    have := mul_le_mul_of_nonneg_right hθα hτ0.le
    have := mul_le_of_le_one_right (by positivity : 0 ≤ α / 8) hτ1
    linarith
  have k4 := mul_le_mul_of_nonneg_left hθτ (by positivity : 0 ≤ u * (τ * M))
  have k5 : τ * (Q * M) = u * (τ * M) * (α / 8) := by rw [← e1]; ring
  rw [k5] at hE
  linarith

theorem two_all (hα1 : α ≤ 1) (hα0 : 0 < α) (hτ0 : 0 < τ) (hτ1 : τ ≤ 1) (hθ0 : 0 < θ) (hθα : θ ≤ α / 8) (hc₀ : 0 ≤ c₀) (hQ : 0 ≤ Q) (hB : 0 ≤ B)
    (hE0 : ∀ k, 0 ≤ E k) (hM0 : ∀ k, 0 ≤ M k) (hME : M 0 ≤ E 0) (hE : ∀ k, E (k + 1) ≤ (1 - 2 * θ * τ) * E k + τ * (Q * M k) + τ * B)
    (hM : ∀ k, M (k + 1) ≤ (1 - α / 4) * M k + 2 * τ * (c * E k + c₀)) (hsmall : τ * (2 * (8 * Q / α) * c) ≤ θ) (k : Nat) :
    E k ≤ (1 - θ * τ) ^ k * ((1 + 8 * Q / α) * E 0) + (B + 16 * Q / α * c₀) / θ := by
  have hu0 : 0 ≤ 8 * Q / α := by positivity
  have hθτ : θ * τ ≤ 1 := by
    have := mul_le_mul_of_nonneg_right hθα hτ0.le
    have := mul_le_of_le_one_right (by positivity : 0 ≤ α / 8) hτ1
    linarith
  set D := B + 16 * Q / α * c₀ with hD
  have hD0 : 0 ≤ D := by positivity
  have h1 : ∀ k, E k + 8 * Q / α * τ * M k ≤ (1 - θ * τ) ^ k * ((1 + 8 * Q / α) * E 0) + D / θ := fun k => by
    induction k with
    | zero =>
      rw [pow_zero, one_mul]
      have k1 : 8 * Q / α * τ * M 0 ≤ 8 * Q / α * 1 * E 0 := mul_le_mul (mul_le_mul_of_nonneg_left hτ1 hu0) hME (hM0 0) (by linarith)
      have k2 : 0 ≤ D / θ := by positivity
      linarith
    | succ k ih =>
      refine (two_step hα1 hα0 hτ0 hτ1 hθα hc₀ hQ (hE0 k) (hM0 k) (hE k) (hM k) hsmall).trans ?_
      have k1 := mul_le_mul_of_nonneg_left ih (by linarith : 0 ≤ 1 - θ * τ)
      have e : τ * D = θ * τ * (D / θ) := by field_simp
      rw [← hD, e, pow_succ]
      linarith
  have := h1 k
  have := mul_nonneg (mul_nonneg hu0 hτ0.le) (hM0 k)
  linarith

theorem two_momenta {H F σ : ℝ} (hα0 : 0 < α) (hα1 : α ≤ 1) (hτ0 : 0 < τ) (hc : 0 ≤ c) (hc₀ : 0 ≤ c₀) (hσ : 1 - α / 8 ≤ σ) (hH : 0 ≤ H) (hF : 0 ≤ F)
    (hM : ∀ k, M (k + 1) ≤ (1 - α / 4) * M k + 2 * τ * (c * E k + c₀)) (hE : ∀ k, E k ≤ σ ^ k * F + H) (k : Nat) :
    M k ≤ (1 - α / 4) ^ k * M 0 + τ * (8 / α * (c * H + c₀) + 16 / α * c * (σ ^ k * F)) := by
  have hσ0 : 0 ≤ σ := by linarith
  induction k with
  | zero =>
    have : 0 ≤ τ * (8 / α * (c * H + c₀) + 16 / α * c * (σ ^ 0 * F)) := by positivity
    rw [pow_zero, one_mul]
    linarith
  | succ k ih =>
    have k1 := mul_le_mul_of_nonneg_left ih (by linarith : 0 ≤ 1 - α / 4)
    have k2 := mul_le_mul_of_nonneg_left (hE k) (by positivity : 0 ≤ 2 * τ * c)
    refine (hM k).trans ?_
    have e1 : α / 4 * (8 / α * (c * H + c₀)) = 2 * (c * H + c₀) := by field_simp; ring
    have e2 : α / 8 * (16 / α * c * (σ ^ k * F)) = 2 * (c * (σ ^ k * F)) := by field_simp; ring
    have k3 := mul_le_mul_of_nonneg_right hσ (by positivity : 0 ≤ τ * (16 / α * c * (σ ^ k * F)))
    set X := 8 / α * (c * H + c₀)
    set Y := 16 / α * c * (σ ^ k * F) with hY
    have e3 : 16 / α * c * (σ ^ (k + 1) * F) = σ * Y := by rw [hY, pow_succ]; ring
    rw [e3, pow_succ]
    have e4 : 2 * τ * c * (σ ^ k * F + H) = τ * (α / 8 * Y) + τ * (α / 4 * X) - 2 * τ * c₀ := by rw [e1, e2]; ring
    rw [e4] at k2
    linarith

end two

variable {J : Type} [Fintype J] [DecidableEq J] {Bt : Type} [MeasurableSpace Bt] {ν : Measure Bt} [IsProbabilityMeasure ν]
  {G : Bt → (J → ℝ) → J → ℝ} {a b Λ L lo hi S α κ t c : ℝ} {g : Bt → ℝ} {m s : J → ℝ} {φ : (J → ℝ) → ℝ} {U : (J → ℝ) → ℝ}
  {π : Measure ((J → ℝ) × (J → ℝ))}

/-! ## Processes that follow SGHMC -/

/-- A process that makes steps of SGHMC, up to errors that are small compared with the new momenta. -/
structure Rolls {Ω : Type*} [mΩ : MeasurableSpace Ω] (P : Measure Ω) (ν : Measure Bt) (G : Bt → (J → ℝ) → J → ℝ) (m s : J → ℝ) (t α η : ℝ)
    (ℱ : Nat → MeasurableSpace Ω) (ζ : Nat → Ω → Bt × (J → ℝ)) (Y : Nat → Ω → (J → ℝ) × (J → ℝ)) : Prop where
  mono : Monotone ℱ
  le : ∀ k, ℱ k ≤ mΩ
  meas : ∀ k, Measurable[ℱ k] (Y k)
  noise : ∀ k, Measurable (ζ k)
  indep : ∀ k, Indep (ℱ k) (MeasurableSpace.comap (ζ k) inferInstance) P
  law : ∀ k, P.map (ζ k) = ν.prod (gauss J)
  moved : ∀ k ω, (Y (k + 1) ω).1 = (Y k ω).1 + (Y (k + 1) ω).2
  near : ∀ k ω, ‖(Y (k + 1) ω).2 - (hop G m s t α (Y k ω) (ζ k ω)).2‖ ≤ η * ‖(Y (k + 1) ω).2‖
  start : Integrable (fun ω => total m α (Y 0 ω)) P

/-- How the energy of the momentum grows with the total energy. -/
noncomputable def tug (a hi α : ℝ) : ℝ := 3 * a * ((3 + 2 * ((1 - α) / α) ^ 2) * hi)

/-- How the energy of the momentum grows at the origin. -/
noncomputable def shove (J : Type) [Fintype J] (ν : Measure Bt) (g : Bt → ℝ) (a S α : ℝ) : ℝ := 3 * a * ∫ β, g β ∂ν + 2 * α * Fintype.card J / S

/-- How fast the total energy falls. -/
noncomputable def sink (a lo α : ℝ) : ℝ := α * pace a lo α / 4

/-- What errors add to the total energy. -/
noncomputable def scatter (J : Type) [Fintype J] (a L lo hi α : ℝ) : ℝ := (1 + 1 / sink a lo α) * ((1 / α ^ 2 + 1) * stray J L lo hi)

/-- What is added on average in each step. -/
noncomputable def brew (J : Type) [Fintype J] (ν : Measure Bt) (g : Bt → ℝ) (a b L lo hi S α : ℝ) : ℝ :=
  (1 + sink a lo α) * glow J ν g a b S α + scatter J a L lo hi α * shove J ν g a S α

/-- A bound for total energies. -/
noncomputable def ambit (J : Type) [Fintype J] (ν : Measure Bt) (g : Bt → ℝ) (a b L lo hi S α : ℝ) : ℝ :=
  (brew J ν g a b L lo hi S α + 16 * scatter J a L lo hi α / α * shove J ν g a S α) / sink a lo α

/-- Stepsizes at which the errors do not matter. -/
structure Mild (J : Type) [Fintype J] (a L lo hi α τ : ℝ) : Prop where
  lip : τ * hi * L ≤ 1 / 2
  err : τ * ((1 + 8 / α) * stray J L lo hi) ≤ α / 8
  pull : τ * (scatter J a L lo hi α * tug a hi α) ≤ sink a lo α
  both : τ * (2 * (8 * scatter J a L lo hi α / α) * tug a hi α) ≤ sink a lo α

theorem sink_pos (ha : 0 < a) (hlo : 0 < lo) (hα : 0 < α) : 0 < sink a lo α := by
  have := pace_pos ha hlo hα
  unfold sink
  positivity

theorem sink_le (hα : 0 < α) (hα1 : α ≤ 1) : sink a lo α ≤ α / 8 := by
  have h1 : pace a lo α ≤ α / (2 * (2 * ((1 - α) / α) ^ 2 + 1)) := (min_le_right _ _).trans (min_le_left _ _)
  have h2 : α / (2 * (2 * ((1 - α) / α) ^ 2 + 1)) ≤ α / 2 := by
    refine div_le_div_of_nonneg_left hα.le two_pos ?_
    linarith [sq_nonneg ((1 - α) / α)]
  have h3 : pace a lo α ≤ 1 / 2 := by linarith
  have := mul_le_mul_of_nonneg_left h3 hα.le
  unfold sink
  linarith

namespace Coasts
variable [IsProbabilityMeasure π] (C : Coasts ν G a Λ lo hi S α κ t m s π) (h : Smooth ν G a b Λ g L lo hi S)
include C h

theorem tug_nonneg : 0 ≤ tug a hi α := by
  have := h.conf.pos
  have := C.tuned.hi_nonneg h
  unfold tug
  positivity

theorem shove_nonneg : 0 ≤ shove J ν g a S α := by
  have h1 : 0 ≤ ∫ β, g β ∂ν := integral_nonneg h.conf.nonneg
  have := h.conf.pos
  have := h.S_pos
  have := C.α0
  unfold shove
  positivity

theorem stray_nonneg : 0 ≤ stray J L lo hi := by
  have := h.lo_pos
  have := C.tuned.hi_nonneg h
  unfold stray
  positivity

theorem scatter_nonneg : 0 ≤ scatter J a L lo hi α := by
  have := sink_pos h.conf.pos h.lo_pos C.α0
  have := C.stray_nonneg h
  have := C.α0
  unfold scatter
  positivity

theorem brew_nonneg : 0 ≤ brew J ν g a b L lo hi S α := by
  have := sink_pos h.conf.pos h.lo_pos C.α0
  have := glow_nonneg (J := J) h.conf h.S_pos C.α0
  have := C.scatter_nonneg h
  have := C.shove_nonneg h
  unfold brew
  positivity

theorem ambit_nonneg : 0 ≤ ambit J ν g a b L lo hi S α := by
  have := sink_pos h.conf.pos h.lo_pos C.α0
  have := C.brew_nonneg h
  have := C.scatter_nonneg h
  have := C.shove_nonneg h
  have := C.α0
  unfold ambit
  positivity

/-- One step changes the energy of the momentum. -/
theorem momentum_next (p : (J → ℝ) × (J → ℝ)) : push (ν.prod (gauss J)) (hop G m s t α) (fun p => energy m p.2) p
    ≤ (1 - α / 2) * energy m p.2 + t / α * (tug a hi α * total m α p + shove J ν g a S α) := by
  have hm := C.tuned.mass_pos h
  have hα := C.α0
  have ht := C.t_pos h
  have hh := C.tuned.hi_nonneg h
  have ha := h.conf.pos
  refine (C.momentum_step h p).trans ?_
  have h1 := size2_le (α := α) hm C.tuned.le_hi hh p
  have h2 : ∑ j, p.1 j ^ 2 ≤ size2 p := le_add_of_nonneg_right (Finset.sum_nonneg fun _ _ => sq_nonneg _)
  have h3 := mul_le_mul_of_nonneg_left (h2.trans h1) (by positivity : 0 ≤ 3 * t * a)
  have e1 : t * (tug a hi α * total m α p + shove J ν g a S α) = 3 * t * a * ((3 + 2 * ((1 - α) / α) ^ 2) * hi * total m α p) + (3 * t * a * ∫ β, g β ∂ν)
      + 2 * α * t / S * Fintype.card J := by
    unfold tug shove
    ring
  have h4 : t ≤ t / α := by
    rw [le_div_iff₀ hα]
    exact mul_le_of_le_one_right ht.le C.α1
  have h5 := mul_le_mul_of_nonneg_right h4 (add_nonneg (mul_nonneg (C.tug_nonneg h) (total_nonneg (α := α) hm p)) (C.shove_nonneg h))
  linarith

theorem total_next (p : (J → ℝ) × (J → ℝ)) : push (ν.prod (gauss J)) (hop G m s t α) (total m α) p
    ≤ (1 - 4 * sink a lo α * (t / α)) * total m α p + t / α * glow J ν g a b S α := by
  have hm := C.tuned.mass_pos h
  have hα := C.α0
  have ht := C.t_pos h
  have h1 := (C.moves h).drift p
  have h2 := mul_le_mul_of_nonneg_right (C.slow_le h) (total_nonneg (α := α) hm p)
  have h3 := C.warmth_le h
  have h4 : t ≤ t / α := by
    rw [le_div_iff₀ hα]
    exact mul_le_of_le_one_right ht.le C.α1
  have h5 := mul_le_mul_of_nonneg_right h4 (glow_nonneg (J := J) h.conf h.S_pos hα)
  have e : 4 * sink a lo α * (t / α) = t * pace a lo α := by
    unfold sink
    field_simp
  rw [e]
  unfold push
  linarith

end Coasts

namespace Rolls
variable {Ω : Type*} [mΩ : MeasurableSpace Ω] {P : Measure Ω} [IsProbabilityMeasure P] {ℱ : Nat → MeasurableSpace Ω} {ζ : Nat → Ω → Bt × (J → ℝ)}
  {Y : Nat → Ω → (J → ℝ) × (J → ℝ)}
variable [IsProbabilityMeasure π] (R : Rolls P ν G m s t α (t * hi * L) ℱ ζ Y) (C : Coasts ν G a Λ lo hi S α κ t m s π)
  (h : Smooth ν G a b Λ g L lo hi S) (d : Mild J a L lo hi α (t / α))
include R C h d

/-- One step takes the momentum where SGHMC would take it. -/
theorem apart (k : Nat) (ω : Ω) : ‖(Y (k + 1) ω).2 - (hop G m s t α (Y k ω) (ζ k ω)).2‖
    ≤ 2 * (t * hi * L) * ‖(hop G m s t α (Y k ω) (ζ k ω)).2‖ := by
  have hα := C.α0
  have ht := C.t_pos h
  have hh := C.tuned.hi_nonneg h
  have hL := h.lip0
  have h4 : t ≤ t / α := by
    rw [le_div_iff₀ hα]
    exact mul_le_of_le_one_right ht.le C.α1
  have h5 : t * hi * L ≤ t / α * hi * L := mul_le_mul_of_nonneg_right (mul_le_mul_of_nonneg_right h4 hh) hL
  have := near_le (x := (0 : J → ℝ)) (y := (hop G m s t α (Y k ω) (ζ k ω)).2) (z := (Y (k + 1) ω).2) (by positivity) (h5.trans d.lip) (by
    rw [sub_zero]
    exact R.near k ω)
  rwa [sub_zero] at this

theorem err_le (k : Nat) (ω : Ω) : energy m ((Y (k + 1) ω).2 - (hop G m s t α (Y k ω) (ζ k ω)).2)
    ≤ (t / α) ^ 2 * stray J L lo hi * energy m (hop G m s t α (Y k ω) (ζ k ω)).2 := by
  have hα := C.α0
  have ht := C.t_pos h
  have hh := C.tuned.hi_nonneg h
  have hL := h.lip0
  have h4 : t ≤ t / α := by
    rw [le_div_iff₀ hα]
    exact mul_le_of_le_one_right ht.le C.α1
  have h5 : t * hi * L ≤ t / α * hi * L := mul_le_mul_of_nonneg_right (mul_le_mul_of_nonneg_right h4 hh) hL
  have h6 := mul_le_mul_of_nonneg_right (mul_le_mul_of_nonneg_left h5 two_pos.le) (norm_nonneg (hop G m s t α (Y k ω) (ζ k ω)).2)
  have := C.tuned.stray_le h (x := 0) (y := (hop G m s t α (Y k ω) (ζ k ω)).2) (z := (Y (k + 1) ω).2) (by
    rw [sub_zero]
    exact (R.apart C h d k ω).trans h6)
  rwa [sub_zero] at this

/-- What errors do to the slow variable. -/
theorem slow_err (k : Nat) (ω : Ω) : slow α (Y (k + 1) ω) = slow α (hop G m s t α (Y k ω) (ζ k ω))
    + fun j => 1 / α * ((Y (k + 1) ω).2 - (hop G m s t α (Y k ω) (ζ k ω)).2) j := by
  have hα := C.α0.ne'
  funext j
  have e1 := congrFun (R.moved k ω) j
  have e2 : (hop G m s t α (Y k ω) (ζ k ω)).1 j = (Y k ω).1 j + (hop G m s t α (Y k ω) (ζ k ω)).2 j := rfl
  simp only [slow, Pi.add_apply, Pi.sub_apply] at e1 ⊢
  rw [e1, e2]
  field_simp
  ring

theorem momentum_err (k : Nat) (ω : Ω) : energy m (Y (k + 1) ω).2 ≤ (1 + α / 4) * energy m (hop G m s t α (Y k ω) (ζ k ω)).2 := by
  have hm := C.tuned.mass_pos h
  have hα := C.α0
  have hτ := C.tuned.t_pos
  have hs0 := C.stray_nonneg h
  have j1 := energy_near hm (by positivity : 0 < α / 8) (hop G m s t α (Y k ω) (ζ k ω)).2 ((Y (k + 1) ω).2 - (hop G m s t α (Y k ω) (ζ k ω)).2)
  rw [add_sub_cancel] at j1
  have j2 := mul_le_mul_of_nonneg_left (R.err_le C h d k ω) (by positivity : 0 ≤ 1 + 1 / (α / 8))
  set e := energy m (hop G m s t α (Y k ω) (ζ k ω)).2 with he
  have he0 : 0 ≤ e := energy_nonneg hm _
  have j3 : (1 + 1 / (α / 8)) * ((t / α) ^ 2 * stray J L lo hi * e) ≤ α / 8 * e := by
    have k1 := mul_le_mul_of_nonneg_right d.err he0
    have k2 : (t / α) ^ 2 ≤ t / α := by
      rw [pow_two]
      exact mul_le_of_le_one_left hτ.le C.tuned.t_le
    have k3 := mul_le_mul_of_nonneg_right k2 (by positivity : 0 ≤ (1 + 8 / α) * stray J L lo hi * e)
    have e1 : 1 / (α / 8) = 8 / α := by field_simp
    rw [e1]
    linarith
  linarith

theorem total_err (k : Nat) (ω : Ω) : total m α (Y (k + 1) ω) ≤ (1 + sink a lo α * (t / α)) * total m α (hop G m s t α (Y k ω) (ζ k ω))
    + t / α * (scatter J a L lo hi α * energy m (hop G m s t α (Y k ω) (ζ k ω)).2) := by
  have hm := C.tuned.mass_pos h
  have hα := C.α0
  have hτ := C.tuned.t_pos
  have hs0 := C.stray_nonneg h
  have hθ := sink_pos h.conf.pos h.lo_pos hα
  set τ := t / α with hτe
  set θ := sink a lo α with hθe
  have hd : 0 < θ * τ := mul_pos hθ hτ
  have j1 := energy_near hm hd (hop G m s t α (Y k ω) (ζ k ω)).2 ((Y (k + 1) ω).2 - (hop G m s t α (Y k ω) (ζ k ω)).2)
  rw [add_sub_cancel] at j1
  have j2 := energy_near hm hd (slow α (hop G m s t α (Y k ω) (ζ k ω))) (fun j => 1 / α * ((Y (k + 1) ω).2 - (hop G m s t α (Y k ω) (ζ k ω)).2) j)
  rw [← R.slow_err C h d k ω, energy_smul] at j2
  have j3 := R.err_le C h d k ω
  rw [← hτe] at j3
  set e := energy m (hop G m s t α (Y k ω) (ζ k ω)).2 with he
  set f := energy m ((Y (k + 1) ω).2 - (hop G m s t α (Y k ω) (ζ k ω)).2) with hf
  have he0 : 0 ≤ e := energy_nonneg hm _
  have j4 := mul_le_mul_of_nonneg_left j3 (by positivity : 0 ≤ (1 + 1 / (θ * τ)) * (1 / α ^ 2 + 1))
  have j5 : (1 + 1 / (θ * τ)) * (1 / α ^ 2 + 1) * (τ ^ 2 * stray J L lo hi * e) ≤ τ * (scatter J a L lo hi α * e) := by
    have k1 : (1 + 1 / (θ * τ)) * τ ≤ 1 + 1 / θ := by
      have : (1 + 1 / (θ * τ)) * τ = τ + 1 / θ := by field_simp
      rw [this]
      exact add_le_add_left C.tuned.t_le _
    have k2 := mul_le_mul_of_nonneg_right k1 (by positivity : 0 ≤ (1 / α ^ 2 + 1) * stray J L lo hi * (τ * e))
    unfold scatter
    rw [← hθe]
    linarith
  have e1 : (1 / α) ^ 2 = 1 / α ^ 2 := by rw [div_pow, one_pow]
  rw [e1] at j2
  unfold total
  linarith

/-- Averages over where SGHMC would go. -/
theorem step {k : Nat} (hk : Integrable (fun ω => total m α (Y k ω)) P) {w : Ω → ℝ} {W : ℝ} (hw : Measurable[ℱ k] w) (hwb : ∀ ω, |w ω| ≤ W)
    {ψ : (J → ℝ) × (J → ℝ) → ℝ} (hψ : Dom (total m α) ψ) :
    Integrable (fun ω => w ω * ψ (hop G m s t α (Y k ω) (ζ k ω))) P ∧
      ∫ ω, w ω * ψ (hop G m s t α (Y k ω) (ζ k ω)) ∂P = ∫ ω, w ω * push (ν.prod (gauss J)) (hop G m s t α) ψ (Y k ω) ∂P := by
  have hV := C.moves h
  obtain ⟨mψ, p, q, hp, hb⟩ := hψ
  exact fresh (h := fun x z => ψ (hop G m s t α x z)) (R.le k) hw hwb (R.meas k) (R.noise k) (R.indep k) (R.law k)
    (mψ.comp hV.meas) (fun x => hV.push_int ⟨mψ, p, q, hp, hb⟩ x) (fun x => hV.push_le mψ hp hb x)
    ((hk.const_mul _).add (integrable_const _))

theorem dom_int' {k : Nat} (hk : Integrable (fun ω => total m α (Y k ω)) P) {ψ : (J → ℝ) × (J → ℝ) → ℝ} (hψ : Dom (total m α) ψ) {w : Ω → ℝ} {W : ℝ}
    (hw : Measurable w) (hwb : ∀ ω, |w ω| ≤ W) : Integrable (fun ω => w ω * ψ (Y k ω)) P := by
  obtain ⟨mψ, p, q, hp, hb⟩ := hψ
  have i2 : Integrable (fun ω => ψ (Y k ω)) P :=
    ((hk.const_mul p).add (integrable_const q)).mono' (mψ.comp ((R.meas k).mono (R.le k) le_rfl)).aestronglyMeasurable (.of_forall fun ω => hb _)
  exact i2.bdd_mul (c := W) hw.aestronglyMeasurable (.of_forall hwb)

/-- Energies of where SGHMC would go. -/
theorem hop_energies {k : Nat} (hk : Integrable (fun ω => total m α (Y k ω)) P) :
    Integrable (fun ω => energy m (hop G m s t α (Y k ω) (ζ k ω)).2) P ∧ Integrable (fun ω => total m α (hop G m s t α (Y k ω) (ζ k ω))) P ∧
    Integrable (fun ω => energy m (Y k ω).2) P ∧
    ∫ ω, energy m (hop G m s t α (Y k ω) (ζ k ω)).2 ∂P ≤ (1 - α / 2) * ∫ ω, energy m (Y k ω).2 ∂P
      + t / α * (tug a hi α * ∫ ω, total m α (Y k ω) ∂P + shove J ν g a S α) ∧
    ∫ ω, total m α (hop G m s t α (Y k ω) (ζ k ω)) ∂P ≤ (1 - 4 * sink a lo α * (t / α)) * ∫ ω, total m α (Y k ω) ∂P + t / α * glow J ν g a b S α := by
  have hm := C.tuned.mass_pos h
  have hV := C.moves h
  have hd := C.momentum_dom h
  have i0 := R.dom_int' C h d hk hd (w := fun _ => (1 : ℝ)) (W := 1) measurable_const (fun _ => by simp)
  obtain ⟨i1, e1⟩ := R.step C h d hk (w := fun _ => (1 : ℝ)) (W := 1) measurable_const (fun _ => by simp) hd
  obtain ⟨i2, e2⟩ := R.step C h d hk (w := fun _ => (1 : ℝ)) (W := 1) measurable_const (fun _ => by simp) hV.self_dom
  simp only [one_mul] at i0 i1 e1 i2 e2
  refine ⟨i1, i2, i0, ?_, ?_⟩
  · rw [e1]
    have iI : Integrable (fun ω => (1 - α / 2) * energy m (Y k ω).2 + t / α * (tug a hi α * total m α (Y k ω) + shove J ν g a S α)) P :=
      (i0.const_mul _).add (((hk.const_mul _).add (integrable_const _)).const_mul _)
    refine (integral_mono_of_nonneg (.of_forall fun ω => integral_nonneg fun q => energy_nonneg hm _) iI (.of_forall fun ω => C.momentum_next h (Y k ω))).trans (le_of_eq ?_)
    have iB : Integrable (fun ω => t / α * (tug a hi α * total m α (Y k ω) + shove J ν g a S α)) P := ((hk.const_mul _).add (integrable_const _)).const_mul _
    rw [integral_add (i0.const_mul _) iB, integral_const_mul, integral_const_mul,
      integral_add (hk.const_mul _) (integrable_const _), integral_const_mul]
    simp
  · rw [e2]
    have iI : Integrable (fun ω => (1 - 4 * sink a lo α * (t / α)) * total m α (Y k ω) + t / α * glow J ν g a b S α) P :=
      (hk.const_mul _).add (integrable_const _)
    refine (integral_mono_of_nonneg (.of_forall fun ω => integral_nonneg fun q => total_nonneg hm _) iI (.of_forall fun ω => C.total_next h (Y k ω))).trans (le_of_eq ?_)
    rw [integral_add (hk.const_mul _) (integrable_const _), integral_const_mul]
    simp

/-- The process stays bounded on average. -/
theorem energy_next {k : Nat} (hk : Integrable (fun ω => total m α (Y k ω)) P) :
    Integrable (fun ω => total m α (Y (k + 1) ω)) P ∧
    ∫ ω, energy m (Y (k + 1) ω).2 ∂P ≤ (1 - α / 4) * ∫ ω, energy m (Y k ω).2 ∂P
      + 2 * (t / α) * (tug a hi α * ∫ ω, total m α (Y k ω) ∂P + shove J ν g a S α) ∧
    ∫ ω, total m α (Y (k + 1) ω) ∂P ≤ (1 - 2 * sink a lo α * (t / α)) * ∫ ω, total m α (Y k ω) ∂P
      + t / α * (scatter J a L lo hi α * ∫ ω, energy m (Y k ω).2 ∂P) + t / α * brew J ν g a b L lo hi S α := by
  have hm := C.tuned.mass_pos h
  have hα := C.α0
  have hα1 := C.α1
  have hτ := C.tuned.t_pos
  have hτ1 := C.tuned.t_le
  have hθ := sink_pos h.conf.pos h.lo_pos hα
  obtain ⟨i1, i2, i0, k1, k2⟩ := R.hop_energies C h d hk
  have i3 := (i2.const_mul (1 + sink a lo α * (t / α))).add ((i1.const_mul (scatter J a L lo hi α)).const_mul (t / α))
  have i4 : Integrable (fun ω => total m α (Y (k + 1) ω)) P :=
    i3.mono' (measurable_total.comp ((R.meas (k + 1)).mono (R.le _) le_rfl)).aestronglyMeasurable
      (.of_forall fun ω => by rw [Real.norm_eq_abs, abs_of_nonneg (total_nonneg hm _)]; exact R.total_err C h d k ω)
  have hE0 : 0 ≤ ∫ ω, total m α (Y k ω) ∂P := integral_nonneg fun ω => total_nonneg hm _
  have hM0 : 0 ≤ ∫ ω, energy m (Y k ω).2 ∂P := integral_nonneg fun ω => energy_nonneg hm _
  have hc := C.tug_nonneg h
  have hc₀ := C.shove_nonneg h
  have hQ := C.scatter_nonneg h
  have hg := glow_nonneg (J := J) h.conf h.S_pos hα
  refine ⟨i4, ?_, ?_⟩
  · have k3 : ∫ ω, energy m (Y (k + 1) ω).2 ∂P ≤ ∫ ω, (1 + α / 4) * energy m (hop G m s t α (Y k ω) (ζ k ω)).2 ∂P :=
      integral_mono_of_nonneg (.of_forall fun ω => energy_nonneg hm _) (i1.const_mul _) (.of_forall fun ω => R.momentum_err C h d k ω)
    rw [integral_const_mul] at k3
    have k4 := mul_le_mul_of_nonneg_left k1 (by positivity : 0 ≤ 1 + α / 4)
    set M := ∫ ω, energy m (Y k ω).2 ∂P
    set X := tug a hi α * ∫ ω, total m α (Y k ω) ∂P + shove J ν g a S α with hX
    have hX0 : 0 ≤ X := by positivity
    have k5 : (1 + α / 4) * ((1 - α / 2) * M) ≤ (1 - α / 4) * M := by
      have : 0 ≤ α ^ 2 * M := by positivity
      linarith
    have k6 : (1 + α / 4) * (t / α * X) ≤ 2 * (t / α * X) := mul_le_mul_of_nonneg_right (by linarith) (by positivity)
    linarith
  · have k3 := integral_mono i4 i3 (fun ω => R.total_err C h d k ω)
    simp only [Pi.add_apply] at k3
    rw [integral_add (i2.const_mul _) ((i1.const_mul _).const_mul _), integral_const_mul, integral_const_mul, integral_const_mul] at k3
    set τ := t / α with hτe
    set θ := sink a lo α with hθe
    have k4 := mul_le_mul_of_nonneg_left k2 (by positivity : 0 ≤ 1 + θ * τ)
    have k5 := mul_le_mul_of_nonneg_left k1 (by positivity : 0 ≤ τ * scatter J a L lo hi α)
    have dp := d.pull
    rw [← hθe] at dp
    unfold brew
    rw [← hθe]
    set M := ∫ ω, energy m (Y k ω).2 ∂P
    set E := ∫ ω, total m α (Y k ω) ∂P
    set Q := scatter J a L lo hi α
    have j1 : τ * Q * (τ * (tug a hi α * E)) ≤ τ * (θ * E) := by
      have := mul_le_mul_of_nonneg_right dp (by positivity : 0 ≤ τ * E)
      linarith
    have j2 : τ * Q * (τ * shove J ν g a S α) ≤ τ * (Q * shove J ν g a S α) := by
      have := mul_le_of_le_one_left (by positivity : 0 ≤ τ * (Q * shove J ν g a S α)) hτ1
      linarith
    have j3 : (1 + θ * τ) * ((1 - 4 * θ * τ) * E) ≤ (1 - 3 * θ * τ) * E := by
      have : 0 ≤ (θ * τ) ^ 2 * E := by positivity
      linarith
    have j4 : (1 + θ * τ) * (τ * glow J ν g a b S α) ≤ τ * ((1 + θ) * glow J ν g a b S α) := by
      have : θ * τ ≤ θ := mul_le_of_le_one_right hθ.le hτ1
      have := mul_le_mul_of_nonneg_right this (by positivity : 0 ≤ τ * glow J ν g a b S α)
      linarith
    have j5 : τ * Q * ((1 - α / 2) * M) ≤ τ * (Q * M) := by
      have := mul_nonneg hα.le (by positivity : 0 ≤ τ * (Q * M))
      linarith
    linarith

theorem energy_all (k : Nat) : Integrable (fun ω => total m α (Y k ω)) P := by
  induction k with
  | zero => exact R.start
  | succ k ih => exact (R.energy_next C h d ih).1

theorem total_all (k : Nat) : ∫ ω, total m α (Y k ω) ∂P
    ≤ (1 - sink a lo α * (t / α)) ^ k * ((1 + 8 * scatter J a L lo hi α / α) * ∫ ω, total m α (Y 0 ω) ∂P) + ambit J ν g a b L lo hi S α := by
  have hm := C.tuned.mass_pos h
  exact two_all (E := fun k => ∫ ω, total m α (Y k ω) ∂P) (M := fun k => ∫ ω, energy m (Y k ω).2 ∂P) C.α1 C.α0 C.tuned.t_pos C.tuned.t_le
    (sink_pos h.conf.pos h.lo_pos C.α0) (sink_le C.α0 C.α1) (C.shove_nonneg h) (C.scatter_nonneg h) (C.brew_nonneg h)
    (fun k => integral_nonneg fun ω => total_nonneg hm _) (fun k => integral_nonneg fun ω => energy_nonneg hm _)
    (integral_mono_of_nonneg (.of_forall fun ω => energy_nonneg hm _) R.start (.of_forall fun ω => le_add_of_nonneg_left (energy_nonneg hm _)))
    (fun k => (R.energy_next C h d (R.energy_all C h d k)).2.2) (fun k => (R.energy_next C h d (R.energy_all C h d k)).2.1) d.both k

theorem momentum_all {σ : ℝ} (hσ : 1 - sink a lo α * (t / α) ≤ σ) (hσα : 1 - α / 8 ≤ σ) (k : Nat) : ∫ ω, energy m (Y k ω).2 ∂P
    ≤ (1 - α / 4) ^ k * ∫ ω, energy m (Y 0 ω).2 ∂P + t / α * (8 / α * (tug a hi α * ambit J ν g a b L lo hi S α + shove J ν g a S α)
      + 16 / α * tug a hi α * (σ ^ k * ((1 + 8 * scatter J a L lo hi α / α) * ∫ ω, total m α (Y 0 ω) ∂P))) := by
  have hm := C.tuned.mass_pos h
  have hα := C.α0
  have hQ := C.scatter_nonneg h
  have hE0 : 0 ≤ ∫ ω, total m α (Y 0 ω) ∂P := integral_nonneg fun ω => total_nonneg hm _
  have hF : 0 ≤ (1 + 8 * scatter J a L lo hi α / α) * ∫ ω, total m α (Y 0 ω) ∂P := by positivity
  have h0 : 0 ≤ 1 - sink a lo α * (t / α) := by
    have h1 := sink_le (a := a) (lo := lo) hα C.α1
    have h2 := mul_le_mul h1 C.tuned.t_le C.tuned.t_pos.le (by positivity)
    have := C.α1
    linarith
  exact two_momenta (E := fun k => ∫ ω, total m α (Y k ω) ∂P) (M := fun k => ∫ ω, energy m (Y k ω).2 ∂P) hα C.α1 C.tuned.t_pos (C.tug_nonneg h) (C.shove_nonneg h)
    hσα (C.ambit_nonneg h) hF (fun k => (R.energy_next C h d (R.energy_all C h d k)).2.1)
    (fun k => (R.total_all C h d k).trans (add_le_add_left (mul_le_mul_of_nonneg_right (pow_le_pow_left₀ h0 hσ k) hF) _)) k

end Rolls

/-- One step of SGHMC compared with one of SGLD. -/
theorem Coasts.step_close [IsProbabilityMeasure π] (C : Coasts ν G a Λ lo hi S α κ t m s π) (h : Smooth ν G a b Λ g L lo hi S) {M : ℝ} (hM : 0 ≤ M)
    (hφ : Dom (energy m) φ) (hv : Varies 0 M φ) (p : (J → ℝ) × (J → ℝ)) :
    |push (ν.prod (gauss J)) (hop G m s t α) (fun p => φ (slow α p)) p - avg ν G m S (t / α) φ (slow α p)|
      ≤ M * (t / α * √(t / α) * (2 + 4 * κ ^ 2 * Fintype.card J + 2 * hi * (total m α p + glow J ν g a b S α))
        + √(t / α) * (4 * (hi * L * ((1 - α) / α)) ^ 2 * hi * energy m p.2)) := by
  have hτ := C.tuned.t_pos
  have hm := C.tuned.mass_pos h
  have hV := C.moves h
  have hα := C.α0
  have hα1 := C.α1
  have hh := C.tuned.hi_nonneg h
  set u := hi * L * ((1 - α) / α) with hu
  have hs : 0 < √(t / α) := Real.sqrt_pos.2 hτ
  set τ := t / α with hτe
  set ε := τ * √τ with hε
  have hε0 : 0 < ε := mul_pos hτ hs
  have h1 := C.step_near h hM hφ hv p
  rw [← hε, ← hu] at h1
  refine h1.trans (mul_le_mul_of_nonneg_left ?_ hM)
  have h2 : push (ν.prod (gauss J)) (hop G m s t α) (fun p => 2 + 2 * hi * energy m (slow α p)) p
      ≤ 2 + 2 * hi * push (ν.prod (gauss J)) (hop G m s t α) (total m α) p := by
    have d3 : Dom (total m α) fun p => 2 * hi * energy m (slow α p) + (0 * total m α p + 2) :=
      Dom.affine (C.slow_dom h (C.energy_dom h)) hV.self_dom (2 * hi) 0 2
    have d4 : Dom (total m α) fun p => 2 * hi * total m α p + (0 * total m α p + 2) := Dom.affine hV.self_dom hV.self_dom (2 * hi) 0 2
    have h3 := hV.push_mono d3 d4 (fun p => by
      have : energy m (slow α p) ≤ total m α p := le_add_of_nonneg_right (energy_nonneg hm _)
      have := mul_le_mul_of_nonneg_left this (by positivity : 0 ≤ 2 * hi)
      linarith) p
    rw [hV.push_affine hV.self_dom hV.self_dom] at h3
    have e3 : (fun p : (J → ℝ) × (J → ℝ) => 2 + 2 * hi * energy m (slow α p)) = fun p => 2 * hi * energy m (slow α p) + (0 * total m α p + 2) := by
      funext p; ring
    rw [e3]
    linarith
  have h3 : push (ν.prod (gauss J)) (hop G m s t α) (total m α) p ≤ total m α p + glow J ν g a b S α := by
    have k1 := C.total_next h p
    have k2 := mul_nonneg (mul_nonneg (sink_pos h.conf.pos h.lo_pos hα).le hτ.le) (total_nonneg (α := α) hm p)
    have k3 := mul_le_of_le_one_left (glow_nonneg (J := J) h.conf h.S_pos hα) C.tuned.t_le
    rw [← hτe] at k1 k3
    linarith
  have h4 := mul_le_mul_of_nonneg_left (h2.trans (add_le_add_right (mul_le_mul_of_nonneg_left h3 (by positivity : 0 ≤ 2 * hi)) 2)) hε0.le
  have e4 : 4 / ε * ((τ * u) ^ 2 * (hi * energy m p.2) + (κ * ε) ^ 2 * Fintype.card J)
      = √τ * (4 * u ^ 2 * hi * energy m p.2) + ε * (4 * κ ^ 2 * Fintype.card J) := by
    rw [hε]
    field_simp
    rw [Real.sq_sqrt hτ.le]
  rw [e4]
  linarith

noncomputable def jolt₀ (J : Type) [Fintype J] (ν : Measure Bt) (g : Bt → ℝ) (a b L hi S α κ : ℝ) : ℝ :=
  2 + 4 * κ ^ 2 * Fintype.card J + 2 * hi * glow J ν g a b S α
    + 2 * hi * L * (2 + 4 * hi * glow J ν g a b S α + 4 * hi * shove J ν g a S α)
noncomputable def jolt₁ (a L hi α : ℝ) : ℝ := 2 * hi + 2 * hi * L * (4 * hi + 4 * hi * tug a hi α)
noncomputable def jolt₂ (L hi α : ℝ) : ℝ := 4 * (hi * L * ((1 - α) / α)) ^ 2 * hi + 2 * hi * L * (4 * hi)

namespace Rolls
variable {Ω : Type*} [mΩ : MeasurableSpace Ω] {P : Measure Ω} [IsProbabilityMeasure P] {ℱ : Nat → MeasurableSpace Ω} {ζ : Nat → Ω → Bt × (J → ℝ)}
  {Y : Nat → Ω → (J → ℝ) × (J → ℝ)}
variable [IsProbabilityMeasure π] (R : Rolls P ν G m s t α (t * hi * L) ℱ ζ Y) (C : Coasts ν G a Λ lo hi S α κ t m s π)
  (h : Smooth ν G a b Λ g L lo hi S) (d : Mild J a L lo hi α (t / α))
include R C h d

/-- What errors do to a function of the slow variable. -/
theorem slip_err {M r : ℝ} (hM : 0 ≤ M) (hv : Varies 0 M φ) (hr : 0 < r) (k : Nat) (ω : Ω) :
    |φ (slow α (Y (k + 1) ω)) - φ (slow α (hop G m s t α (Y k ω) (ζ k ω)))|
      ≤ M * (2 * (t / α * hi * L) * (r * (2 + 4 * hi * total m α (hop G m s t α (Y k ω) (ζ k ω)))
        + (1 / r + 3) * (hi * energy m (hop G m s t α (Y k ω) (ζ k ω)).2))) := by
  have hm := C.tuned.mass_pos h
  have hα := C.α0
  have hτ := C.tuned.t_pos
  have hh := C.tuned.hi_nonneg h
  have hL := h.lip0
  set q := hop G m s t α (Y k ω) (ζ k ω) with hq
  have e1 : slow α (Y (k + 1) ω) - slow α q = (1 / α) • ((Y (k + 1) ω).2 - q.2) := by
    rw [R.slow_err C h d k ω, ← hq]
    funext j
    simp
  have e2 : slow α q - (slow α q - q.2) = q.2 := by abel
  have hz : ‖slow α (Y (k + 1) ω) - slow α q‖ ≤ 2 * (t / α * hi * L) * ‖slow α q - (slow α q - q.2)‖ := by
    rw [e1, e2, norm_smul, Real.norm_eq_abs, abs_of_pos (by positivity : 0 < 1 / α)]
    have k1 := mul_le_mul_of_nonneg_left (R.apart C h d k ω) (by positivity : 0 ≤ 1 / α)
    rw [← hq] at k1
    refine k1.trans (le_of_eq ?_)
    ring
  have j1 := varies_near hv hM hr (by positivity : 0 ≤ t / α * hi * L) d.lip hz
  rw [e2] at j1
  refine j1.trans (mul_le_mul_of_nonneg_left (mul_le_mul_of_nonneg_left ?_ (by positivity)) hM)
  have j2 := (norm_sq_le (slow α q)).trans (sq_le_energy hm C.tuned.le_hi _)
  have j3 := (norm_sq_le q.2).trans (sq_le_energy hm C.tuned.le_hi _)
  have j4 : ‖slow α q - q.2‖ ^ 2 ≤ 2 * ‖slow α q‖ ^ 2 + 2 * ‖q.2‖ ^ 2 := by
    have k1 := pow_le_pow_left₀ (norm_nonneg _) (norm_sub_le (slow α q) q.2) 2
    linarith [sq_nonneg (‖slow α q‖ - ‖q.2‖)]
  have j5 : ‖slow α q - q.2‖ ^ 2 ≤ 2 * (hi * total m α q) := by
    unfold total
    linarith
  have j6 := mul_le_mul_of_nonneg_left j5 hr.le
  have j7 := mul_le_mul_of_nonneg_left j3 (by positivity : 0 ≤ 1 / r + 3)
  linarith

/-- What one step adds to the error. -/
theorem slips {w : Ω → ℝ} {W M : ℝ} (k : Nat) (hw : Measurable[ℱ k] w) (hwb : ∀ ω, |w ω| ≤ W) (hM : 0 ≤ M) (hφ : Dom (energy m) φ)
    (hv : Varies 0 M φ) :
    |∫ ω, w ω * φ (slow α (Y (k + 1) ω)) ∂P - ∫ ω, w ω * avg ν G m S (t / α) φ (slow α (Y k ω)) ∂P|
      ≤ W * (M * (t / α * √(t / α) * (jolt₀ J ν g a b L hi S α κ + jolt₁ a L hi α * ∫ ω, total m α (Y k ω) ∂P)
        + √(t / α) * (jolt₂ L hi α * ∫ ω, energy m (Y k ω).2 ∂P))) := by
  have hm := C.tuned.mass_pos h
  have hα := C.α0
  have hα1 := C.α1
  have hτ := C.tuned.t_pos
  have hτ1 := C.tuned.t_le
  have hh := C.tuned.hi_nonneg h
  have hL := h.lip0
  have hV := C.moves h
  have hk := R.energy_all C h d k
  have hk' := R.energy_all C h d (k + 1)
  have mw := hw.mono (R.le k) le_rfl
  have dS := C.slow_dom h hφ
  obtain ⟨i1, e1⟩ := R.step C h d hk hw hwb dS
  obtain ⟨i2, iT, iM, k2, k3⟩ := R.hop_energies C h d hk
  have i3 := R.dom_int' C h d hk' dS mw hwb
  have i4 := R.dom_int' C h d hk (C.slow_dom h (hφ.push (C.tuned.moves_energy h))) mw hwb
  have i5 := R.dom_int' C h d hk (dS.push hV) mw hwb
  obtain ⟨ω₀⟩ : Nonempty Ω := nonempty_of_isProbabilityMeasure P
  have hW : 0 ≤ W := (abs_nonneg _).trans (hwb ω₀)
  set τ := t / α with hτe
  set q := √τ with hq
  have hq0 : 0 < q := Real.sqrt_pos.2 hτ
  have hqq : q * q = τ := Real.mul_self_sqrt hτ.le
  have hq1 : q ≤ 1 := Real.sqrt_le_one.2 hτ1
  set u := 4 * (hi * L * ((1 - α) / α)) ^ 2 * hi with hu
  set E := ∫ ω, total m α (Y k ω) ∂P with hE
  set M' := ∫ ω, energy m (Y k ω).2 ∂P with hM'
  have hE0 : 0 ≤ E := integral_nonneg fun ω => total_nonneg hm _
  have hM0 : 0 ≤ M' := integral_nonneg fun ω => energy_nonneg hm _
  have hg := glow_nonneg (J := J) h.conf h.S_pos hα
  have hc := C.tug_nonneg h
  have hc₀ := C.shove_nonneg h
  have part1 : |∫ ω, w ω * φ (slow α (hop G m s t α (Y k ω) (ζ k ω))) ∂P - ∫ ω, w ω * avg ν G m S τ φ (slow α (Y k ω)) ∂P|
      ≤ W * (M * (τ * q * (2 + 4 * κ ^ 2 * Fintype.card J + 2 * hi * (E + glow J ν g a b S α)) + q * (u * M'))) := by
    rw [e1, ← integral_sub i5 i4]
    have iA : Integrable (fun ω => τ * q * (2 + 4 * κ ^ 2 * Fintype.card J + 2 * hi * (total m α (Y k ω) + glow J ν g a b S α))) P :=
      ((integrable_const _).add ((hk.add (integrable_const _)).const_mul _)).const_mul _
    have iB : Integrable (fun ω => q * (u * energy m (Y k ω).2)) P := (iM.const_mul _).const_mul _
    have iF := (((iA.add iB).const_mul M).const_mul W)
    have hp : ∀ ω, |w ω * push (ν.prod (gauss J)) (hop G m s t α) (fun p => φ (slow α p)) (Y k ω) - w ω * avg ν G m S τ φ (slow α (Y k ω))|
        ≤ W * (M * (τ * q * (2 + 4 * κ ^ 2 * Fintype.card J + 2 * hi * (total m α (Y k ω) + glow J ν g a b S α)) + q * (u * energy m (Y k ω).2))) := fun ω => by
      rw [← mul_sub, abs_mul]
      exact mul_le_mul (hwb ω) (C.step_close h hM hφ hv (Y k ω)) (abs_nonneg _) hW
    refine (abs_integral_le_integral_abs.trans (integral_mono (i5.sub i4).abs iF hp)).trans (le_of_eq ?_)
    simp only [Pi.add_apply]
    have iC : Integrable (fun ω => 2 * hi * (total m α (Y k ω) + glow J ν g a b S α)) P := (hk.add (integrable_const _)).const_mul _
    rw [integral_const_mul, integral_const_mul, integral_add iA iB, integral_const_mul, integral_const_mul, integral_const_mul,
      integral_add (integrable_const _) iC, integral_const_mul]
    have e : ∫ ω, (total m α (Y k ω) + glow J ν g a b S α) ∂P = E + glow J ν g a b S α := by
      rw [integral_add hk (integrable_const _)]
      simp [hE]
    rw [e]
    simp only [integral_const, probReal_univ, one_smul]
    rw [← hM']
  have part2 : |∫ ω, w ω * φ (slow α (Y (k + 1) ω)) ∂P - ∫ ω, w ω * φ (slow α (hop G m s t α (Y k ω) (ζ k ω))) ∂P|
      ≤ W * (M * (2 * (τ * hi * L) * (q * (2 + 4 * hi * (E + glow J ν g a b S α)) + 4 / q * (hi * (M' + τ * (tug a hi α * E + shove J ν g a S α)))))) := by
    rw [← integral_sub i3 i1]
    have iA : Integrable (fun ω => q * (2 + 4 * hi * total m α (hop G m s t α (Y k ω) (ζ k ω)))) P :=
      ((integrable_const _).add (iT.const_mul _)).const_mul _
    have iB : Integrable (fun ω => (1 / q + 3) * (hi * energy m (hop G m s t α (Y k ω) (ζ k ω)).2)) P := (i2.const_mul _).const_mul _
    have iF := (((iA.add iB).const_mul (2 * (τ * hi * L))).const_mul M).const_mul W
    have hp : ∀ ω, |w ω * φ (slow α (Y (k + 1) ω)) - w ω * φ (slow α (hop G m s t α (Y k ω) (ζ k ω)))|
        ≤ W * (M * (2 * (τ * hi * L) * (q * (2 + 4 * hi * total m α (hop G m s t α (Y k ω) (ζ k ω)))
          + (1 / q + 3) * (hi * energy m (hop G m s t α (Y k ω) (ζ k ω)).2)))) := fun ω => by
      rw [← mul_sub, abs_mul]
      exact mul_le_mul (hwb ω) (R.slip_err C h d hM hv hq0 k ω) (abs_nonneg _) hW
    refine (abs_integral_le_integral_abs.trans (integral_mono (i3.sub i1).abs iF hp)).trans ?_
    simp only [Pi.add_apply]
    rw [integral_const_mul, integral_const_mul, integral_const_mul, integral_add iA iB, integral_const_mul, integral_const_mul, integral_const_mul,
      integral_add (integrable_const _) (iT.const_mul _), integral_const_mul]
    simp only [integral_const, probReal_univ, one_smul]
    refine mul_le_mul_of_nonneg_left (mul_le_mul_of_nonneg_left (mul_le_mul_of_nonneg_left ?_ (by positivity)) hM) hW
    have l1 : ∫ ω, total m α (hop G m s t α (Y k ω) (ζ k ω)) ∂P ≤ E + glow J ν g a b S α := by
      have j2 := mul_nonneg (mul_nonneg (sink_pos h.conf.pos h.lo_pos hα).le hτ.le) hE0
      have j3 := mul_le_of_le_one_left hg hτ1
      linarith
    have l2 : ∫ ω, energy m (hop G m s t α (Y k ω) (ζ k ω)).2 ∂P ≤ M' + τ * (tug a hi α * E + shove J ν g a S α) := by
      have j2 := mul_nonneg hα.le hM0
      linarith
    have l3 : 1 / q + 3 ≤ 4 / q := by
      have : 1 ≤ 1 / q := by rw [le_div_iff₀ hq0]; linarith
      have e : 4 / q = 1 / q + 3 * (1 / q) := by ring
      linarith
    have hX : 0 ≤ hi * (M' + τ * (tug a hi α * E + shove J ν g a S α)) := by positivity
    have l4 := mul_le_mul l3 (mul_le_mul_of_nonneg_left l2 hh) (mul_nonneg hh (integral_nonneg fun ω => energy_nonneg hm _)) (by positivity)
    have l5 := mul_le_mul_of_nonneg_left (add_le_add_right (mul_le_mul_of_nonneg_left l1 (by positivity : 0 ≤ 4 * hi)) 2) hq0.le
    linarith
  have h3 : ∀ x y z p r : ℝ, |x - y| ≤ p → |y - z| ≤ r → |x - z| ≤ r + p := fun x y z p r hp hr => by
    have := abs_add_le (x - y) (y - z)
    rw [sub_add_sub_cancel] at this
    linarith
  refine (h3 _ _ _ _ _ part2 part1).trans (le_of_eq ?_)
  unfold jolt₀ jolt₁ jolt₂
  rw [← hu]
  have e5 : τ * (4 / q) = 4 * q := by
    rw [← hqq]
    field_simp
  have e6 : ∀ X : ℝ, 2 * (τ * hi * L) * (q * (2 + 4 * hi * (E + glow J ν g a b S α)) + 4 / q * X)
      = 2 * hi * L * (τ * q * (2 + 4 * hi * (E + glow J ν g a b S α))) + 2 * hi * L * (4 * q) * X := fun X => by
    rw [← e5]
    ring
  rw [e6]
  ring

end Rolls

/-- How energies at the start count. -/
noncomputable def blow (J : Type) [Fintype J] (a L lo hi α : ℝ) : ℝ := 1 + 8 * scatter J a L lo hi α / α

/-- A bound for energies of momenta, in proportion to the stepsize. -/
noncomputable def glide (J : Type) [Fintype J] (ν : Measure Bt) (g : Bt → ℝ) (a b L lo hi S α : ℝ) : ℝ :=
  8 / α * (tug a hi α * ambit J ν g a b L lo hi S α + shove J ν g a S α)

/-- How momenta depend on the energy at the start. -/
noncomputable def swing (J : Type) [Fintype J] (a L lo hi α : ℝ) : ℝ := 16 / α * tug a hi α * blow J a L lo hi α

noncomputable def veer₀ (J : Type) [Fintype J] (ν : Measure Bt) (g : Bt → ℝ) (a b L lo hi S α κ : ℝ) : ℝ :=
  jolt₀ J ν g a b L hi S α κ + jolt₁ a L hi α * ambit J ν g a b L lo hi S α + jolt₂ L hi α * glide J ν g a b L lo hi S α
noncomputable def veer₁ (J : Type) [Fintype J] (a L lo hi α : ℝ) : ℝ := jolt₁ a L hi α * blow J a L lo hi α + jolt₂ L hi α * swing J a L lo hi α

namespace Coasts
variable [IsProbabilityMeasure π] (C : Coasts ν G a Λ lo hi S α κ t m s π) (h : Smooth ν G a b Λ g L lo hi S)
include C h

theorem blow_nonneg : 0 ≤ blow J a L lo hi α := by
  have := C.scatter_nonneg h
  have := C.α0
  unfold blow
  positivity

theorem glide_nonneg : 0 ≤ glide J ν g a b L lo hi S α := by
  have := C.tug_nonneg h
  have := C.ambit_nonneg h
  have := C.shove_nonneg h
  have := C.α0
  unfold glide
  positivity

theorem swing_nonneg : 0 ≤ swing J a L lo hi α := by
  have := C.tug_nonneg h
  have := C.blow_nonneg h
  have := C.α0
  unfold swing
  positivity

theorem jolt₂_nonneg : 0 ≤ jolt₂ L hi α := by
  have := C.tuned.hi_nonneg h
  have := h.lip0
  unfold jolt₂
  positivity

theorem jolt₁_nonneg : 0 ≤ jolt₁ a L hi α := by
  have := C.tuned.hi_nonneg h
  have := h.lip0
  have := C.tug_nonneg h
  unfold jolt₁
  positivity

theorem veer₀_nonneg : 0 ≤ veer₀ J ν g a b L lo hi S α κ := by
  have := C.tuned.hi_nonneg h
  have := h.lip0
  have := C.jolt₂_nonneg h
  have := C.jolt₁_nonneg h
  have := C.glide_nonneg h
  have := C.ambit_nonneg h
  have := C.shove_nonneg h
  have := glow_nonneg (J := J) h.conf h.S_pos C.α0
  unfold veer₀ jolt₀
  positivity

theorem veer₁_nonneg : 0 ≤ veer₁ J a L lo hi α := by
  have := C.jolt₂_nonneg h
  have := C.jolt₁_nonneg h
  have := C.blow_nonneg h
  have := C.swing_nonneg h
  unfold veer₁
  positivity

end Coasts

namespace Rolls
variable {Ω : Type*} [mΩ : MeasurableSpace Ω] {P : Measure Ω} [IsProbabilityMeasure P] {ℱ : Nat → MeasurableSpace Ω} {ζ : Nat → Ω → Bt × (J → ℝ)}
  {Y : Nat → Ω → (J → ℝ) × (J → ℝ)}
variable [IsProbabilityMeasure π] (R : Rolls P ν G m s t α (t * hi * L) ℱ ζ Y) (C : Coasts ν G a Λ lo hi S α κ t m s π)
  (h : Smooth ν G a b Λ g L lo hi S) (d : Mild J a L lo hi α (t / α))
include R C h d

/-- A rate that fits. -/
theorem rates {l : ℝ} (hl : 0 < l) (hl1 : l ≤ sink a lo α) (hl2 : l ≤ α / 8) :
    1 - sink a lo α * (t / α) ≤ Real.exp (-(l * (t / α))) ∧ 1 - α / 8 ≤ Real.exp (-(l * (t / α))) ∧ Real.exp (-(l * (t / α))) < 1 := by
  have hτ := C.tuned.t_pos
  have h0 := Real.add_one_le_exp (-(l * (t / α)))
  have h1 := mul_le_mul_of_nonneg_right hl1 hτ.le
  have h2 : l * (t / α) ≤ l := mul_le_of_le_one_right hl.le C.tuned.t_le
  exact ⟨by linarith, by linarith, Real.exp_lt_one_iff.2 (by linarith [mul_pos hl hτ])⟩

theorem sink_base : 0 ≤ 1 - sink a lo α * (t / α) := by
  have h1 := sink_le (a := a) (lo := lo) C.α0 C.α1
  have h2 := mul_le_mul h1 C.tuned.t_le C.tuned.t_pos.le (by linarith [C.α0])
  have := C.α1
  linarith

theorem total_rate {σ : ℝ} (hσ : 1 - sink a lo α * (t / α) ≤ σ) (k : Nat) : ∫ ω, total m α (Y k ω) ∂P
    ≤ σ ^ k * (blow J a L lo hi α * ∫ ω, total m α (Y 0 ω) ∂P) + ambit J ν g a b L lo hi S α := by
  have hm := C.tuned.mass_pos h
  have hE0 : 0 ≤ ∫ ω, total m α (Y 0 ω) ∂P := integral_nonneg fun ω => total_nonneg hm _
  refine (R.total_all C h d k).trans (add_le_add_left (mul_le_mul_of_nonneg_right (pow_le_pow_left₀ (R.sink_base C h d) hσ k) ?_) _)
  exact mul_nonneg (C.blow_nonneg h) hE0

theorem momentum_rate {σ : ℝ} (hσ : 1 - sink a lo α * (t / α) ≤ σ) (hσα : 1 - α / 8 ≤ σ) (k : Nat) : ∫ ω, energy m (Y k ω).2 ∂P
    ≤ (1 - α / 4) ^ k * ∫ ω, total m α (Y 0 ω) ∂P + t / α * (glide J ν g a b L lo hi S α + swing J a L lo hi α * (σ ^ k * ∫ ω, total m α (Y 0 ω) ∂P)) := by
  have hm := C.tuned.mass_pos h
  have h1 := R.momentum_all C h d hσ hσα k
  have h2 : ∫ ω, energy m (Y 0 ω).2 ∂P ≤ ∫ ω, total m α (Y 0 ω) ∂P :=
    integral_mono_of_nonneg (.of_forall fun ω => energy_nonneg hm _) R.start (.of_forall fun ω => le_add_of_nonneg_left (energy_nonneg hm _))
  have h3 := mul_le_mul_of_nonneg_left h2 (pow_nonneg (by linarith [C.α1] : 0 ≤ 1 - α / 4) k)
  refine h1.trans (add_le_add h3 (le_of_eq ?_))
  unfold glide swing blow
  ring

/-- The slow variable stays close to SGLD. -/
theorem tracks {l B W : ℝ} (hl : 0 < l) (hl1 : l ≤ sink a lo α) (hl2 : l ≤ α / 8) (hB : 0 ≤ B) (hφ : Dom (energy m) φ)
    (hv : ∀ j : Nat, Varies 0 (B * Real.exp (-(l * (t / α))) ^ (2 * j)) ((avg ν G m S (t / α))^[j] φ)) {w : Ω → ℝ} (hw : Measurable[ℱ 0] w)
    (hwb : ∀ ω, |w ω| ≤ W) (N : Nat) :
    |∫ ω, w ω * φ (slow α (Y N ω)) ∂P - ∫ ω, w ω * (avg ν G m S (t / α))^[N] φ (slow α (Y 0 ω)) ∂P|
      ≤ W * (B * ((1 + l) / l * veer₀ J ν g a b L lo hi S α κ * √(t / α)
        + 2 * ((1 + l) / l * veer₁ J a L lo hi α + 8 / α * jolt₂ L hi α) * (∫ ω, total m α (Y 0 ω) ∂P) * Real.exp (-(l * (t / α))) ^ N)) := by
  have hm := C.tuned.mass_pos h
  have hα := C.α0
  have hα1 := C.α1
  have hτ := C.tuned.t_pos
  have hτ1 := C.tuned.t_le
  have hEn := C.tuned.moves_energy h
  have hj1 := C.jolt₁_nonneg h
  have hj2 := C.jolt₂_nonneg h
  have hv0 := C.veer₀_nonneg h
  have hv1 := C.veer₁_nonneg h
  obtain ⟨hσ, hσα, hσ1⟩ := R.rates C h d hl hl1 hl2
  obtain ⟨ω₀⟩ : Nonempty Ω := nonempty_of_isProbabilityMeasure P
  have hW : 0 ≤ W := (abs_nonneg _).trans (hwb ω₀)
  have hrate := rate_le hl hτ hτ1
  set τ := t / α with hτe
  set σ := Real.exp (-(l * τ)) with hσe
  have hs : 0 < √τ := Real.sqrt_pos.2 hτ
  have hs1 : √τ ≤ 1 := Real.sqrt_le_one.2 hτ1
  have hσ0 : 0 < σ := Real.exp_pos _
  set E := ∫ ω, total m α (Y 0 ω) ∂P with hE
  have hE0 : 0 ≤ E := integral_nonneg fun ω => total_nonneg hm _
  set Q : Nat → ℝ := fun k => ∫ ω, w ω * (avg ν G m S τ)^[N - k] φ (slow α (Y k ω)) ∂P with hQ
  have hstep : ∀ k ∈ Finset.range N, |Q (k + 1) - Q k|
      ≤ W * B * (σ ^ (2 * (N - 1 - k)) * (τ * √τ * veer₀ J ν g a b L lo hi S α κ + τ * √τ * (veer₁ J a L lo hi α * E) * σ ^ k
        + √τ * (jolt₂ L hi α * E) * (1 - α / 4) ^ k)) := fun k hk => by
    have hk' := Finset.mem_range.1 hk
    have e1 : N - k = (N - 1 - k) + 1 := by omega
    have e2 : N - (k + 1) = N - 1 - k := by omega
    simp only [hQ]
    rw [e1, e2]
    simp only [Function.iterate_succ_apply']
    have j1 := R.slips C h d k (hw.mono (R.mono (Nat.zero_le k)) le_rfl) hwb (mul_nonneg hB (pow_nonneg hσ0.le _)) (hφ.iterate hEn (N - 1 - k)) (hv (N - 1 - k))
    refine j1.trans ?_
    rw [← hτe]
    have j2 := mul_le_mul_of_nonneg_left (R.total_rate C h d hσ k) hj1
    have j3 := mul_le_mul_of_nonneg_left (R.momentum_rate C h d hσ hσα k) hj2
    have j4 := mul_le_mul_of_nonneg_left j2 (by positivity : 0 ≤ τ * √τ)
    have j5 := mul_le_mul_of_nonneg_left j3 hs.le
    have j6 : τ * √τ * (jolt₀ J ν g a b L hi S α κ + jolt₁ a L hi α * ∫ ω, total m α (Y k ω) ∂P) + √τ * (jolt₂ L hi α * ∫ ω, energy m (Y k ω).2 ∂P)
        ≤ τ * √τ * veer₀ J ν g a b L lo hi S α κ + τ * √τ * (veer₁ J a L lo hi α * E) * σ ^ k + √τ * (jolt₂ L hi α * E) * (1 - α / 4) ^ k := by
      rw [← hE] at j4 j5
      unfold veer₀ veer₁
      linarith
    have j7 := mul_le_mul_of_nonneg_left j6 (mul_nonneg hW (mul_nonneg hB (pow_nonneg hσ0.le (2 * (N - 1 - k)))))
    linarith
  have e0 : Q N - Q 0 = ∑ k ∈ Finset.range N, (Q (k + 1) - Q k) := (Finset.sum_range_sub Q N).symm
  have eN : Q N = ∫ ω, w ω * φ (slow α (Y N ω)) ∂P := by simp only [hQ, Nat.sub_self, Function.iterate_zero, id]
  have e00 : Q 0 = ∫ ω, w ω * (avg ν G m S τ)^[N] φ (slow α (Y 0 ω)) ∂P := by simp only [hQ, Nat.sub_zero]
  rw [← eN, ← e00, e0]
  refine (Finset.abs_sum_le_sum_abs _ _).trans ((Finset.sum_le_sum hstep).trans ?_)
  rw [← Finset.mul_sum, mul_assoc]
  refine mul_le_mul_of_nonneg_left (mul_le_mul_of_nonneg_left ?_ hB) hW
  have k1 := run_sum (σ := σ) (β := 1 - α / 4) (q := 1 - α / 8) (by linarith) hσ1 (by linarith) (by linarith) (by linarith)
    (by nlinarith) (by positivity : 0 ≤ τ * √τ * veer₀ J ν g a b L lo hi S α κ) (by positivity : 0 ≤ τ * √τ * (veer₁ J a L lo hi α * E))
    (by positivity : 0 ≤ √τ * (jolt₂ L hi α * E)) N
  refine k1.trans ?_
  have hσN : 0 ≤ σ ^ N := pow_nonneg hσ0.le N
  have k2 : τ * √τ * veer₀ J ν g a b L lo hi S α κ / (1 - σ) ≤ (1 + l) / l * veer₀ J ν g a b L lo hi S α κ * √τ := by
    have := mul_le_mul_of_nonneg_right hrate (mul_nonneg hs.le hv0)
    refine le_trans (le_of_eq ?_) (this.trans (le_of_eq ?_)) <;> ring
  have k3 : τ * √τ * (veer₁ J a L lo hi α * E) / (1 - σ) ≤ (1 + l) / l * veer₁ J a L lo hi α * E := by
    have := mul_le_mul_of_nonneg_right hrate (by positivity : 0 ≤ √τ * (veer₁ J a L lo hi α * E))
    have k : (1 + l) / l * (√τ * (veer₁ J a L lo hi α * E)) ≤ (1 + l) / l * (1 * (veer₁ J a L lo hi α * E)) :=
      mul_le_mul_of_nonneg_left (mul_le_mul_of_nonneg_right hs1 (by positivity)) (by positivity)
    refine le_trans (le_of_eq ?_) (this.trans (k.trans (le_of_eq ?_))) <;> ring
  have k4 : √τ * (jolt₂ L hi α * E) / (1 - (1 - α / 8)) ≤ 8 / α * jolt₂ L hi α * E := by
    have e : 1 - (1 - α / 8) = α / 8 := by ring
    rw [e]
    have k : √τ * (8 / α * jolt₂ L hi α * E) ≤ 1 * (8 / α * jolt₂ L hi α * E) := mul_le_mul_of_nonneg_right hs1 (by positivity)
    refine le_trans (le_of_eq ?_) (k.trans (le_of_eq ?_))
    · field_simp
    · ring
  have k5 := mul_le_mul_of_nonneg_left (add_le_add k3 k4) (by positivity : 0 ≤ 2 * σ ^ N)
  refine (add_le_add k2 k5).trans (le_of_eq ?_)
  ring

/-- Momenta become small. -/
theorem norm_all {l : ℝ} (hl : 0 < l) (hl1 : l ≤ sink a lo α) (hl2 : l ≤ α / 8) (N : Nat) :
    Integrable (fun ω => ‖(Y N ω).2‖) P ∧
    ∫ ω, ‖(Y N ω).2‖ ∂P ≤ (1 + hi * glide J ν g a b L lo hi S α) * √(t / α)
      + (1 + hi * (1 + swing J a L lo hi α)) * (1 + ∫ ω, total m α (Y 0 ω) ∂P) * Real.exp (-(l * (t / α))) ^ N := by
  have hm := C.tuned.mass_pos h
  have hα := C.α0
  have hα1 := C.α1
  have hτ := C.tuned.t_pos
  have hτ1 := C.tuned.t_le
  have hh := C.tuned.hi_nonneg h
  have hgl := C.glide_nonneg h
  have hsw := C.swing_nonneg h
  obtain ⟨hσ, hσα, hσ1⟩ := R.rates C h d hl hl1 hl2
  have hN := R.energy_all C h d N
  have i0 := R.dom_int' C h d hN (C.norm_dom h) (w := fun _ => (1 : ℝ)) (W := 1) measurable_const (fun _ => by simp)
  have i1 := (R.hop_energies C h d hN).2.2.1
  have kM := R.momentum_rate C h d hσ hσα N
  simp only [one_mul] at i0
  refine ⟨i0, ?_⟩
  set E := ∫ ω, total m α (Y 0 ω) ∂P with hE
  have hE0 : 0 ≤ E := integral_nonneg fun ω => total_nonneg hm _
  set τ := t / α with hτe
  set σ := Real.exp (-(l * τ)) with hσe
  have hσ0 : 0 < σ := Real.exp_pos _
  have hs : 0 < √τ := Real.sqrt_pos.2 hτ
  have hs1 : √τ ≤ 1 := Real.sqrt_le_one.2 hτ1
  have e1 := Real.mul_self_sqrt hτ.le
  set x := √τ with hx
  have hy0 : 0 < σ ^ N := pow_pos hσ0 N
  have hβ : (1 - α / 4) ^ N ≤ σ ^ N * σ ^ N := by
    rw [← mul_pow]
    exact pow_le_pow_left₀ (by linarith) (by nlinarith) N
  set y := σ ^ N with hy
  set v := x + y with hv
  have hv0 : 0 < v := by positivity
  have hpt : ∀ ω, ‖(Y N ω).2‖ ≤ hi / v * energy m (Y N ω).2 + v := fun ω => by
    have k2 := (norm_sq_le (Y N ω).2).trans (sq_le_energy hm C.tuned.le_hi (Y N ω).2)
    have k3 : ‖(Y N ω).2‖ ≤ v + ‖(Y N ω).2‖ ^ 2 / v := by
      have h1 : 0 ≤ (v - ‖(Y N ω).2‖) ^ 2 / v := by positivity
      have e : (v - ‖(Y N ω).2‖) ^ 2 / v = v + ‖(Y N ω).2‖ ^ 2 / v - 2 * ‖(Y N ω).2‖ := by
        field_simp
        ring
      linarith [norm_nonneg (Y N ω).2]
    have k4 := div_le_div_of_nonneg_right k2 hv0.le
    have e : hi / v * energy m (Y N ω).2 = hi * energy m (Y N ω).2 / v := by ring
    rw [e]
    linarith
  have k1 := integral_mono i0 ((i1.const_mul _).add (integrable_const _)) hpt
  simp only [Pi.add_apply] at k1
  rw [integral_add (i1.const_mul _) (integrable_const _), integral_const_mul] at k1
  simp only [integral_const, probReal_univ, one_smul] at k1
  refine k1.trans ?_
  have k2 : ∫ ω, energy m (Y N ω).2 ∂P ≤ v * (y * E + x * (glide J ν g a b L lo hi S α + swing J a L lo hi α * (y * E))) := by
    have j1 := mul_le_mul_of_nonneg_right hβ hE0
    have a1 : 0 ≤ x * (y * E) := by positivity
    have a2 : 0 ≤ y * (x * (glide J ν g a b L lo hi S α + swing J a L lo hi α * (y * E))) := by positivity
    rw [← e1] at kM
    rw [hv]
    linarith
  have k3 := mul_le_mul_of_nonneg_left k2 (by positivity : 0 ≤ hi / v)
  have e5 : hi / v * (v * (y * E + x * (glide J ν g a b L lo hi S α + swing J a L lo hi α * (y * E))))
      = hi * (y * E + x * (glide J ν g a b L lo hi S α + swing J a L lo hi α * (y * E))) := by
    field_simp
  rw [e5] at k3
  have k4 : hi * (x * (swing J a L lo hi α * (y * E))) ≤ hi * (1 * (swing J a L lo hi α * (y * E))) :=
    mul_le_mul_of_nonneg_left (mul_le_mul_of_nonneg_right hs1 (by positivity)) hh
  have k5 : 0 ≤ (hi * (1 + swing J a L lo hi α) + E) * y := by positivity
  rw [hv] at k3 ⊢
  linarith

theorem shift_start (i : Nat) : Rolls P ν G m s t α (t * hi * L) (fun k => ℱ (i + k)) (fun k => ζ (i + k)) fun k => Y (i + k) where
  mono := fun _ _ hab => R.mono (Nat.add_le_add_left hab i)
  le k := R.le _
  meas k := R.meas _
  noise k := R.noise _
  indep k := R.indep _
  law k := R.law _
  moved k := R.moved (i + k)
  near k := R.near (i + k)
  start := R.energy_all C h d i

end Rolls

theorem Smooth.mild (h : Smooth ν G a b Λ g L lo hi S) (hα : 0 < α) : ∃ t₁ : ℝ, 0 < t₁ ∧ ∀ τ : ℝ, 0 ≤ τ → τ ≤ t₁ → Mild J a L lo hi α τ := by
  have ha := h.conf.pos
  have hlo := h.lo_pos
  have hh : 0 < hi := hlo.trans_le h.lo_hi
  have hL := h.lip0
  have hc : 0 ≤ stray J L lo hi := by unfold stray; positivity
  have hθ := sink_pos ha hlo hα
  have hQ : 0 ≤ scatter J a L lo hi α := by unfold scatter; positivity
  have ht : 0 ≤ tug a hi α := by unfold tug; positivity
  set A₁ := (1 + 8 / α) * stray J L lo hi with hA₁
  set A₂ := scatter J a L lo hi α * tug a hi α with hA₂
  set A₃ := 2 * (8 * scatter J a L lo hi α / α) * tug a hi α with hA₃
  have p1 : 0 ≤ A₁ := by positivity
  have p2 : 0 ≤ A₂ := by positivity
  have p3 : 0 ≤ A₃ := by positivity
  set D := 1 + 2 * (hi * L) + 8 * A₁ / α + A₂ / sink a lo α + A₃ / sink a lo α with hD
  have hD0 : 0 < D := by positivity
  refine ⟨1 / D, by positivity, fun τ h0 h1 => ?_⟩
  have h2 : τ * D ≤ 1 := by rwa [le_div_iff₀ hD0] at h1
  have q1 : 0 ≤ τ * (hi * L) := by positivity
  have q2 : 0 ≤ τ * (8 * A₁ / α) := by positivity
  have q3 : 0 ≤ τ * (A₂ / sink a lo α) := by positivity
  have q4 : 0 ≤ τ * (A₃ / sink a lo α) := by positivity
  have e : τ * D = τ + 2 * (τ * (hi * L)) + τ * (8 * A₁ / α) + τ * (A₂ / sink a lo α) + τ * (A₃ / sink a lo α) := by rw [hD]; ring
  rw [e] at h2
  refine ⟨by linarith, ?_, ?_, ?_⟩
  · have k : τ * (8 * A₁ / α) ≤ 1 := by linarith
    have e2 : τ * (8 * A₁ / α) = τ * (8 * A₁) / α := by ring
    rw [e2, div_le_one hα] at k
    linarith
  · have k : τ * (A₂ / sink a lo α) ≤ 1 := by linarith
    rwa [← mul_div_assoc, div_le_one hθ] at k
  · have k : τ * (A₃ / sink a lo α) ≤ 1 := by linarith
    rwa [← mul_div_assoc, div_le_one hθ] at k

theorem five_steps {x y z u v w d₀ d₁ d₂ d₃ : ℝ} (h0 : |x - y| ≤ d₀) (h1 : |y - z| ≤ d₁) (h2 : |z - u| ≤ d₂) (h3 : |v - u| ≤ d₃) (h4 : w = v) :
    |x - w| ≤ d₀ + d₁ + d₂ + d₃ := by
  subst h4
  rw [abs_le] at *
  constructor <;> linarith [h0.1, h0.2, h1.1, h1.2, h2.1, h2.2, h3.1, h3.2]

set_option maxHeartbeats 1000000 in
/-- Averages of processes that follow SGHMC approach those over the posterior. -/
theorem Potential.rolls_uniform [Nonempty J] (h : Potential ν G U a b Λ g L lo hi S) (hα0 : 0 < α) (hα1 : α ≤ 1) (κ : ℝ) :
    ∃ c K C l : ℝ, IsProbabilityMeasure (boltz fun x => S * U x + c) ∧ 0 ≤ K ∧ 0 ≤ C ∧ 0 < l ∧
    ∀ {m s : J → ℝ} {t : ℝ} {π : Measure ((J → ℝ) × (J → ℝ))} [IsProbabilityMeasure π], Coasts ν G a Λ lo hi S α κ t m s π → Mild J a L lo hi α (t / α) →
      ∀ {Ω : Type} [mΩ : MeasurableSpace Ω] {P : Measure Ω} [IsProbabilityMeasure P]
      {ℱ : Nat → MeasurableSpace Ω} {ζ : Nat → Ω → Bt × (J → ℝ)} {Y : Nat → Ω → (J → ℝ) × (J → ℝ)}, Rolls P ν G m s t α (t * hi * L) ℱ ζ Y →
      (∀ k, Rolls P ν G m s t α (t * hi * L) (fun i => ℱ (k + i)) (fun i => ζ (k + i)) (fun i => Y (k + i)) ∧
        ∫ ω, total m α (Y k ω) ∂P ≤ C * ∫ ω, total m α (Y 0 ω) ∂P + K) ∧
      ∀ {f : (J → ℝ) → ℝ} {A : ℝ}, 0 ≤ A → (∀ x y, |f x - f y| ≤ A * ‖x - y‖) → ∀ {w : Ω → ℝ} {W : ℝ}, Measurable[ℱ 0] w → (∀ ω, |w ω| ≤ W) → ∀ N,
      Integrable (fun ω => w ω * f (Y N ω).1) P ∧
      |∫ ω, w ω * f (Y N ω).1 ∂P - (∫ ω, w ω ∂P) * ∫ x, f x ∂boltz fun x => S * U x + c|
        ≤ W * (A * (C * (1 + ∫ ω, total m α (Y 0 ω) ∂P) * Real.exp (-(l * (t / α))) ^ N + K * √(t / α))) := by
  have hs := h.toSmooth
  obtain ⟨c, hp⟩ := h.normalized
  obtain ⟨w', C', r, Γ, hΓ0, hr2, hr1, hmix⟩ := hs.mixes_uniform
  have hr0 : 0 < r := by linarith
  have h1r : 0 < 1 - r := by linarith
  have hlog : Real.log r < 0 := Real.log_neg hr0 hr1
  have hlo := hs.lo_pos
  have ha := hs.conf.pos
  have hh0 : 0 ≤ hi := hs.lo_pos.le.trans hs.lo_hi
  have hρ : 0 ≤ (1 - α) / α := div_nonneg (by linarith) hα0.le
  set W' := 2 * Real.exp (2 * hi * L) + 4 * Γ * Harris.smoothing J ν g a b L lo hi S with hW'
  have hsm : 0 ≤ Harris.smoothing J ν g a b L lo hi S := by
    have := hs.lip0
    unfold Harris.smoothing
    positivity
  have hW0 : 0 ≤ W' := by positivity
  set Q := blockBias (J := J) ν U g a b Λ L lo hi S c with hQ
  set l := min (sink a lo α) (min (α / 8) (-Real.log r / 4)) with hl
  have hl0 : 0 < l := lt_min (sink_pos ha hlo hα0) (lt_min (by positivity) (by linarith))
  have hl1 : l ≤ sink a lo α := min_le_left _ _
  have hl2 : l ≤ α / 8 := (min_le_right _ _).trans (min_le_left _ _)
  have hl3 : l ≤ -Real.log r / 4 := (min_le_right _ _).trans (min_le_right _ _)
  set V₁ := 2 * ((1 + l) / l * veer₁ J a L lo hi α + 8 / α * jolt₂ L hi α) with hV₁
  set K₁ := (1 - α) / α * (1 + hi * glide J ν g a b L lo hi S α) + (1 + √hi) * (W' * ((1 + l) / l * veer₀ J ν g a b L lo hi S α κ) + 2 * Γ * Q / (1 - r)) with hK₁
  set C₁ := (1 - α) / α * (1 + hi * (1 + swing J a L lo hi α)) + (1 + √hi) * (W' * V₁ + 2 * Γ) with hC₁
  refine ⟨c, max 0 (max (ambit J ν g a b L lo hi S α) K₁), max 0 (max (blow J a L lo hi α) C₁), l, hp, le_max_left _ _, le_max_left _ _, hl0, ?_⟩
  intro m s t π _ C htt Ω mΩ P _ ℱ ζ Y R
  have T := C.tuned
  have hτ := T.t_pos
  have d := htt
  have hm := T.mass_pos hs
  have hEn := T.moves_energy hs
  have hE0 : 0 ≤ ∫ ω, total m α (Y 0 ω) ∂P := integral_nonneg fun ω => total_nonneg hm _
  obtain ⟨hσ, hσα, hσ1⟩ := R.rates C hs d hl0 hl1 hl2
  set σ := Real.exp (-(l * (t / α))) with hσe
  have hσ0 : 0 < σ := Real.exp_pos _
  constructor
  · intro k
    refine ⟨R.shift_start C hs d k, ?_⟩
    refine (R.total_rate C hs d hσ k).trans (add_le_add ?_ ((le_max_left _ _).trans (le_max_right _ _)))
    have k1 := mul_nonneg (C.blow_nonneg hs) hE0
    refine (mul_le_of_le_one_left k1 (pow_le_one₀ hσ0.le hσ1.le)).trans ?_
    exact mul_le_mul_of_nonneg_right ((le_max_left _ _).trans (le_max_right _ _)) hE0
  intro f A hA hf w W hw hwb N
  have hn := T.unit
  obtain ⟨M, hΓ, hK⟩ := hmix T hn
  obtain ⟨πh, hπp, hinv, hVπ, hπ⟩ := M.stationary
  have cf : Continuous f := (LipschitzWith.of_dist_le_mul (K := ⟨A, hA⟩) fun x y => by
    rw [dist_eq_norm, dist_eq_norm]; exact hf x y).continuous
  set φ : (J → ℝ) → ℝ := fun x => f x - f 0 with hφe
  have mφ : Measurable φ := cf.measurable.sub_const _
  have hA' : 0 ≤ A * (1 + √hi) := by positivity
  have lφ : ∀ x y, |φ x - φ y| ≤ A * ‖x - y‖ := fun x y => by
    simp only [hφe, sub_sub_sub_cancel_right]
    exact hf x y
  have lφ' : ∀ x y, |φ x - φ y| ≤ A * (1 + √hi) * ‖x - y‖ := fun x y => (lφ x y).trans <| by
    refine mul_le_mul_of_nonneg_right ?_ (norm_nonneg _)
    exact le_mul_of_one_le_right hA (by linarith [Real.sqrt_nonneg hi])
  have bφ : ∀ x, |φ x| ≤ A * (1 + √hi) * size m x := fun x => by
    have h1 := hf x 0
    rw [sub_zero] at h1
    refine h1.trans ?_
    rw [mul_assoc]
    exact mul_le_mul_of_nonneg_left ((norm_le_far x).trans (T.far_le_size hs x)) hA
  have dφ : Dom (energy m) φ := T.size_le_energy hs (size_dom mφ hA' bφ)
  have dS := C.slow_dom hs dφ
  obtain ⟨ω₀⟩ : Nonempty Ω := nonempty_of_isProbabilityMeasure P
  have hWn : 0 ≤ W := (abs_nonneg _).trans (hwb ω₀)
  have mw : Measurable w := hw.mono (R.le 0) le_rfl
  have iw : Integrable w P := (integrable_const W).mono' mw.aestronglyMeasurable (.of_forall hwb)
  have hN := R.energy_all C hs d N
  obtain ⟨iN, kN⟩ := R.norm_all C hs d hl0 hl1 hl2 N
  have hdif : ∀ p : (J → ℝ) × (J → ℝ), |φ p.1 - φ (slow α p)| ≤ A * ((1 - α) / α) * ‖p.2‖ := fun p => by
    refine (lφ _ _).trans (le_of_eq ?_)
    have e1 : p.1 - slow α p = (-((1 - α) / α)) • p.2 := by
      funext j
      simp only [Pi.sub_apply, Pi.smul_apply, smul_eq_mul, slow]
      ring
    rw [e1, norm_smul, Real.norm_eq_abs, abs_neg, abs_of_nonneg hρ, mul_assoc]
  have iS := R.dom_int' C hs d hN dS mw hwb
  have mYN : Measurable (Y N) := (R.meas N).mono (R.le N) le_rfl
  have iD : Integrable (fun ω => w ω * φ (Y N ω).1 - w ω * φ (slow α (Y N ω))) P := by
    refine ((iN.const_mul (A * ((1 - α) / α))).const_mul W).mono'
      ((mw.mul (mφ.comp (measurable_fst.comp mYN))).sub (mw.mul (mφ.comp (measurable_slow.comp mYN)))).aestronglyMeasurable (.of_forall fun ω => ?_)
    rw [Real.norm_eq_abs, ← mul_sub, abs_mul]
    exact mul_le_mul (hwb ω) (hdif _) (abs_nonneg _) hWn
  have iφ : Integrable (fun ω => w ω * φ (Y N ω).1) P := (iD.add iS).congr (.of_forall fun ω => by simp)
  have i_f : Integrable (fun ω => w ω * f (Y N ω).1) P := (iφ.add (iw.mul_const (f 0))).congr (.of_forall fun ω => by simp only [hφe, Pi.add_apply]; ring)
  refine ⟨i_f, ?_⟩
  have hρσ := fun j => rate_of_root hn hr0 hr1 hτ hl3 j
  rw [← hσe] at hρσ
  have hv : ∀ j : Nat, Varies 0 (A * (1 + √hi) * W' * σ ^ (2 * j)) ((avg ν G m S (t / α))^[j] φ) := fun j => by
    refine (T.varies_all hs hn M hΓ hr2 hr1 hinv hVπ hπ mφ hA' bφ lφ' j).mono ?_
    rw [← hW']
    exact mul_le_mul_of_nonneg_left (hρσ j) (mul_nonneg hA' hW0)
  set E := ∫ ω, total m α (Y 0 ω) ∂P with hE
  have t1 := R.tracks C hs d hl0 hl1 hl2 (mul_nonneg hA' hW0) dφ hv hw hwb N
  rw [← hV₁, ← hE, ← hσe] at t1
  have t0 : |∫ ω, w ω * φ (Y N ω).1 ∂P - ∫ ω, w ω * φ (slow α (Y N ω)) ∂P|
      ≤ W * (A * ((1 - α) / α) * ((1 + hi * glide J ν g a b L lo hi S α) * √(t / α) + (1 + hi * (1 + swing J a L lo hi α)) * (1 + E) * σ ^ N)) := by
    rw [← integral_sub iφ iS]
    refine (abs_integral_le_integral_abs.trans (integral_mono iD.abs ((iN.const_mul (A * ((1 - α) / α))).const_mul W) fun ω => ?_)).trans ?_
    · show |w ω * φ (Y N ω).1 - w ω * φ (slow α (Y N ω))| ≤ _
      rw [← mul_sub, abs_mul]
      exact mul_le_mul (hwb ω) (hdif _) (abs_nonneg _) hWn
    · rw [integral_const_mul, integral_const_mul]
      exact mul_le_mul_of_nonneg_left (mul_le_mul_of_nonneg_left kN (by positivity)) hWn
  have t2 : |∫ ω, w ω * (avg ν G m S (t / α))^[N] φ (slow α (Y 0 ω)) ∂P - (∫ ω, w ω ∂P) * ∫ y, φ y ∂πh| ≤ W * (A * (1 + √hi) * (2 * Γ) * (1 + E) * σ ^ N) := by
    have i1 : Integrable (fun ω => w ω * (avg ν G m S (t / α))^[N] φ (slow α (Y 0 ω))) P := R.dom_int' C hs d R.start (C.slow_dom hs (dφ.iterate hEn N)) mw hwb
    rw [← integral_mul_const, ← integral_sub i1 (iw.mul_const _)]
    have i2 : Integrable (fun ω => W * (A * (1 + √hi) * (2 * Γ) * (1 + total m α (Y 0 ω)) * σ ^ N)) P :=
      ((((integrable_const 1).add R.start).const_mul _).mul_const _).const_mul _
    have hpt : ∀ ω, |w ω * (avg ν G m S (t / α))^[N] φ (slow α (Y 0 ω)) - w ω * ∫ y, φ y ∂πh| ≤ W * (A * (1 + √hi) * (2 * Γ) * (1 + total m α (Y 0 ω)) * σ ^ N) := fun ω => by
      rw [← mul_sub, abs_mul]
      refine mul_le_mul (hwb ω) ?_ (abs_nonneg _) hWn
      have h1 := M.geometric hinv hVπ hπ mφ hA' (fun x => (bφ x).trans (mul_le_mul_of_nonneg_left (by linarith) hA')) N (slow α (Y 0 ω))
      rw [hΓ] at h1
      refine h1.trans ?_
      have k0 := energy_nonneg hm (slow α (Y 0 ω))
      have k00 : energy m (slow α (Y 0 ω)) ≤ total m α (Y 0 ω) := le_add_of_nonneg_right (energy_nonneg hm _)
      have k1 : size m (slow α (Y 0 ω)) ≤ 1 + total m α (Y 0 ω) := by
        unfold size
        refine (Real.sqrt_le_iff.2 ⟨by linarith, ?_⟩ : √(1 + energy m (slow α (Y 0 ω))) ≤ 1 + energy m (slow α (Y 0 ω))).trans (by linarith)
        nlinarith
      have k2 : 1 + size m (slow α (Y 0 ω)) ≤ 2 * (1 + total m α (Y 0 ω)) := by linarith
      have k3 : (r ^ (1 / (⌈1 / (t / α)⌉₊ : ℝ))) ^ N ≤ σ ^ N := by
        refine (hρσ N).trans ?_
        exact pow_le_pow_of_le_one hσ0.le hσ1.le (by omega)
      have k4 := mul_le_mul k2 k3 (pow_nonneg M.rate_nonneg N) (by linarith)
      have k5 := mul_le_mul_of_nonneg_left k4 (mul_nonneg hA' hΓ0)
      refine le_trans (le_of_eq ?_) (k5.trans (le_of_eq ?_)) <;> ring
    refine (abs_integral_le_integral_abs.trans (integral_mono (i1.sub (iw.mul_const _)).abs i2 hpt)).trans (le_of_eq ?_)
    rw [integral_const_mul, integral_mul_const, integral_const_mul, integral_add (integrable_const 1) R.start]
    simp [hE]
  have t3 := h.stationary_near (c := c) T hn M hΓ hr0 hr1 hinv hVπ hπ mφ hA' bφ
  rw [← hQ] at t3
  have t4 : |(∫ ω, w ω ∂P) * ∫ x, φ x ∂(boltz fun x => S * U x + c) - (∫ ω, w ω ∂P) * ∫ y, φ y ∂πh|
      ≤ W * (√(t / α) * (2 * (A * (1 + √hi)) * Γ * Q / (1 - r))) := by
    rw [← mul_sub, abs_mul]
    have j : |∫ ω, w ω ∂P| ≤ W := by
      refine abs_integral_le_integral_abs.trans ((integral_mono iw.abs (integrable_const W) hwb).trans (le_of_eq ?_))
      simp
    exact mul_le_mul j t3 (abs_nonneg _) hWn
  have i2 : Integrable φ (boltz fun x => S * U x + c) := dφ.integrable (h.energy_integrable T c)
  have i3 : Integrable f (boltz fun x => S * U x + c) := (i2.add (integrable_const (f 0))).congr (.of_forall fun p => by simp [hφe])
  have e2 : ∫ x, φ x ∂(boltz fun x => S * U x + c) = ∫ x, f x ∂(boltz fun x => S * U x + c) - f 0 := by
    simp only [hφe]
    rw [integral_sub i3 (integrable_const _)]
    simp
  have e3 : ∫ ω, w ω * φ (Y N ω).1 ∂P = ∫ ω, w ω * f (Y N ω).1 ∂P - (∫ ω, w ω ∂P) * f 0 := by
    rw [← integral_mul_const, ← integral_sub i_f (iw.mul_const _)]
    refine integral_congr_ae (.of_forall fun ω => ?_)
    simp only [hφe]
    ring
  rw [e2] at t4
  rw [e3] at t0
  have t5 := five_steps t0 t1 t2 t4 rfl
  have e4 : ∫ ω, w ω * f (Y N ω).1 ∂P - (∫ ω, w ω ∂P) * ∫ x, f x ∂(boltz fun x => S * U x + c)
      = ∫ ω, w ω * f (Y N ω).1 ∂P - (∫ ω, w ω ∂P) * f 0 - (∫ ω, w ω ∂P) * (∫ x, f x ∂(boltz fun x => S * U x + c) - f 0) := by ring
  rw [e4]
  refine t5.trans ?_
  have hσN : 0 ≤ σ ^ N := pow_nonneg hσ0.le N
  have hst := Real.sqrt_nonneg (t / α)
  have hB0 : 0 ≤ V₁ := by
    have := C.veer₁_nonneg hs
    have := C.jolt₂_nonneg hs
    rw [hV₁]
    positivity
  have h6 : A * (1 + √hi) * W' * (V₁ * E * σ ^ N) ≤ A * (1 + √hi) * W' * (V₁ * (1 + E) * σ ^ N) :=
    mul_le_mul_of_nonneg_left (mul_le_mul_of_nonneg_right (mul_le_mul_of_nonneg_left (by linarith) hB0) hσN) (mul_nonneg hA' hW0)
  have h7 := mul_le_mul_of_nonneg_left h6 hWn
  have h8 : W * (A * (C₁ * (1 + E) * σ ^ N + K₁ * √(t / α)))
      ≤ W * (A * (max 0 (max (blow J a L lo hi α) C₁) * (1 + E) * σ ^ N + max 0 (max (ambit J ν g a b L lo hi S α) K₁) * √(t / α))) := by
    refine mul_le_mul_of_nonneg_left (mul_le_mul_of_nonneg_left (add_le_add ?_ ?_) hA) hWn
    · exact mul_le_mul_of_nonneg_right (mul_le_mul_of_nonneg_right ((le_max_right _ _).trans (le_max_right _ _)) (by linarith)) hσN
    · exact mul_le_mul_of_nonneg_right ((le_max_right _ _).trans (le_max_right _ _)) hst
  refine le_trans ?_ h8
  rw [hK₁, hC₁]
  refine le_trans (le_of_eq ?_) (le_trans (add_le_add_right h7
    (W * (A * ((1 - α) / α) * ((1 + hi * glide J ν g a b L lo hi S α) * √(t / α) + (1 + hi * (1 + swing J a L lo hi α)) * (1 + E) * σ ^ N))
      + W * (A * (1 + √hi) * W' * ((1 + l) / l * veer₀ J ν g a b L lo hi S α κ * √(t / α)))
      + W * (A * (1 + √hi) * (2 * Γ) * (1 + E) * σ ^ N) + W * (√(t / α) * (2 * (A * (1 + √hi)) * Γ * Q / (1 - r))))) (le_of_eq ?_)) <;> ring

set_option maxHeartbeats 1000000 in
/-- The same for averages over a run. -/
theorem Potential.rolls_average [Nonempty J] (h : Potential ν G U a b Λ g L lo hi S) (hα0 : 0 < α) (hα1 : α ≤ 1) (κ : ℝ) :
    ∃ c K C l : ℝ, IsProbabilityMeasure (boltz fun x => S * U x + c) ∧ 0 ≤ K ∧ 0 ≤ C ∧ 0 < l ∧
    ∀ {m s : J → ℝ} {t : ℝ} {π : Measure ((J → ℝ) × (J → ℝ))} [IsProbabilityMeasure π], Coasts ν G a Λ lo hi S α κ t m s π → Mild J a L lo hi α (t / α) →
      ∀ {Ω : Type} [mΩ : MeasurableSpace Ω] {P : Measure Ω} [IsProbabilityMeasure P]
      {ℱ : Nat → MeasurableSpace Ω} {ζ : Nat → Ω → Bt × (J → ℝ)} {Y : Nat → Ω → (J → ℝ) × (J → ℝ)}, Rolls P ν G m s t α (t * hi * L) ℱ ζ Y →
      ∀ {f : (J → ℝ) → ℝ} {A : ℝ}, 0 ≤ A → (∀ x y, |f x - f y| ≤ A * ‖x - y‖) →
      (∀ N : Nat, Integrable (fun ω => f (Y N ω).1) P ∧
        |∫ ω, f (Y N ω).1 ∂P - ∫ x, f x ∂boltz fun x => S * U x + c|
          ≤ A * (C * (1 + ∫ ω, total m α (Y 0 ω) ∂P) * Real.exp (-(l * (t / α) * N)) + K * √(t / α))) ∧
      ∀ {D : ℝ}, (∀ x, |f x| ≤ D) → ∀ {I : Finset Nat}, I.Nonempty →
        Integrable (fun ω => ((∑ k ∈ I, f (Y k ω).1) / I.card - ∫ x, f x ∂boltz fun x => S * U x + c) ^ 2) P ∧
        ∫ ω, ((∑ k ∈ I, f (Y k ω).1) / I.card - ∫ x, f x ∂boltz fun x => S * U x + c) ^ 2 ∂P
          ≤ D * A * (C * (1 + ∫ ω, total m α (Y 0 ω) ∂P) / (I.card * (t / α)) + K * √(t / α)) := by
  obtain ⟨c, K, C, l, hp, hK, hC, hl, main⟩ := h.rolls_uniform hα0 hα1 κ
  set C₁ := 4 * ((1 + l) / l) * (C * (1 + K + C)) with hC₁
  have hC₁0 : 0 ≤ C₁ := by positivity
  refine ⟨c, 2 * K, max C C₁, l, hp, by positivity, hC.trans (le_max_left _ _), hl, ?_⟩
  intro m s t π _ Co htt Ω mΩ P _ ℱ ζ Y R f A hA hf
  obtain ⟨hen, hmain⟩ := main Co htt R
  have T := Co.tuned
  have ht := T.t_pos
  have hm := T.mass_pos h.toSmooth
  have hE0 : 0 ≤ ∫ ω, total m α (Y 0 ω) ∂P := integral_nonneg fun ω => total_nonneg hm _
  set E := ∫ ω, total m α (Y 0 ω) ∂P with hE
  set σ := Real.exp (-(l * (t / α))) with hσe
  have hσ0 : 0 < σ := Real.exp_pos _
  have hσ1 : σ < 1 := Real.exp_lt_one_iff.2 (by linarith [mul_pos hl ht])
  set p := ∫ x, f x ∂(boltz fun x => S * U x + c) with hpe
  have hst := Real.sqrt_nonneg (t / α)
  refine ⟨fun N => ?_, fun {D} hD {I} hI => ?_⟩
  · obtain ⟨i, k⟩ := hmain hA hf (w := fun _ => 1) (W := 1) measurable_const (fun _ => by simp) N
    simp only [one_mul, integral_const, probReal_univ, one_smul] at i k
    refine ⟨i, k.trans ?_⟩
    have e : Real.exp (-(l * (t / α) * N)) = σ ^ N := by
      rw [hσe, ← Real.exp_nat_mul]
      congr 1
      ring
    rw [e]
    refine mul_le_mul_of_nonneg_left (add_le_add ?_ ?_) hA
    · refine mul_le_mul_of_nonneg_right (mul_le_mul_of_nonneg_right (le_max_left _ _) (by linarith)) (pow_nonneg hσ0.le N)
    · exact mul_le_mul_of_nonneg_right (by linarith) hst
  · have cf : Continuous f := (LipschitzWith.of_dist_le_mul (K := ⟨A, hA⟩) fun x y => by
      rw [dist_eq_norm, dist_eq_norm]; exact hf x y).continuous
    have hD0 : 0 ≤ D := (abs_nonneg _).trans (hD 0)
    have hpD : |p| ≤ D := by
      have i1 : Integrable f (boltz fun x => S * U x + c) := (integrable_const D).mono' cf.measurable.aestronglyMeasurable (.of_forall hD)
      refine abs_integral_le_integral_abs.trans ((integral_mono i1.abs (integrable_const D) hD).trans (le_of_eq ?_))
      simp
    have hcov : ∀ j n : Nat, Integrable (fun ω => (f (Y j ω).1 - p) * (f (Y (j + n) ω).1 - p)) P ∧
        ∫ ω, (f (Y j ω).1 - p) * (f (Y (j + n) ω).1 - p) ∂P ≤ 2 * D * A * (C * ((1 + K + C) * (1 + E))) * σ ^ n + 2 * D * A * K * √(t / α) := fun j n => by
      have mw : Measurable[ℱ j] fun ω => f (Y j ω).1 - p := (cf.measurable.comp (measurable_fst.comp (R.meas j))).sub_const p
      have bw : ∀ ω, |f (Y j ω).1 - p| ≤ 2 * D := fun ω => by
        have := hD (Y j ω).1
        rw [abs_le] at this hpD ⊢
        constructor <;> linarith [this.1, this.2, hpD.1, hpD.2]
      obtain ⟨-, hs⟩ := main Co htt (hen j).1
      obtain ⟨i, k⟩ := hs hA hf (w := fun ω => f (Y j ω).1 - p) mw bw n
      have iw : Integrable (fun ω => f (Y j ω).1 - p) P := (integrable_const (2 * D)).mono' (mw.mono (R.le j) le_rfl).aestronglyMeasurable (.of_forall bw)
      have e : (fun ω => (f (Y j ω).1 - p) * (f (Y (j + n) ω).1 - p)) = fun ω => (f (Y j ω).1 - p) * f (Y (j + n) ω).1 - (f (Y j ω).1 - p) * p := by
        funext ω
        ring
      rw [e]
      refine ⟨i.sub (iw.mul_const p), ?_⟩
      rw [integral_sub i (iw.mul_const p), integral_mul_const]
      refine (le_abs_self _).trans (k.trans ?_)
      have k1 : 1 + ∫ ω, total m α (Y (j + 0) ω) ∂P ≤ (1 + K + C) * (1 + E) := by
        have k2 := (hen j).2
        have k3 := mul_nonneg hK hE0
        rw [Nat.add_zero]
        linarith
      have k2 := mul_le_mul_of_nonneg_right (mul_le_mul_of_nonneg_left k1 hC) (pow_nonneg hσ0.le n)
      have k3 := mul_le_mul_of_nonneg_left (add_le_add_left k2 (K * √(t / α))) (by positivity : 0 ≤ 2 * D * A)
      rw [← hσe]
      linarith
    obtain ⟨i, k⟩ := average_near hσ0.le hσ1 (by positivity) hcov hI
    have hc : (0 : ℝ) < I.card := by exact_mod_cast hI.card_pos
    have e : ∀ ω, (∑ k ∈ I, (f (Y k ω).1 - p)) / I.card = (∑ k ∈ I, f (Y k ω).1) / I.card - p := fun ω => by
      rw [Finset.sum_sub_distrib, Finset.sum_const, nsmul_eq_mul]
      field_simp
    simp only [e] at i k
    refine ⟨i, k.trans ?_⟩
    have r1 := rate_le hl ht T.t_le
    rw [← hσe] at r1
    set τ := t / α with hτe
    have r2 : 2 / (1 - σ) ≤ 2 * ((1 + l) / l) / τ := by
      rw [le_div_iff₀ ht]
      have : 2 / (1 - σ) * τ = 2 * (τ / (1 - σ)) := by ring
      rw [this]
      linarith
    have r3 := mul_le_mul_of_nonneg_left r2 (by positivity : 0 ≤ 2 * D * A * (C * ((1 + K + C) * (1 + E))) / I.card)
    have r4 : 2 * D * A * (C * ((1 + K + C) * (1 + E))) / I.card * (2 * ((1 + l) / l) / τ) = D * A * (C₁ * (1 + E) / (I.card * τ)) := by
      rw [hC₁]
      have := hl.ne'
      field_simp
      ring
    have r5 : D * A * (C₁ * (1 + E) / (I.card * τ)) ≤ D * A * (max C C₁ * (1 + E) / (I.card * τ)) := by
      refine mul_le_mul_of_nonneg_left (div_le_div_of_nonneg_right (mul_le_mul_of_nonneg_right (le_max_right _ _) (by linarith)) (by positivity)) (by positivity)
    have r6 : 2 * D * A * (C * ((1 + K + C) * (1 + E))) * (2 / (1 - σ)) / I.card = 2 * D * A * (C * ((1 + K + C) * (1 + E))) / I.card * (2 / (1 - σ)) := by ring
    rw [r6]
    linarith

end PySGMCMC.Harris
