import Verif.Lemmas.SghmcCoupled

/-!
# How fast SGHMC approaches the posterior

Position plus a multiple of the momentum follows SGLD up to small errors, which SGLD forgets.  So the rate of SGLD, which does not depend on
the stepsize, is a rate of SGHMC.
-/

open MeasureTheory ProbabilityTheory Filter Topology
namespace PySGMCMC.Harris
open Confining Moves Mixes Recipe Langevin
set_option linter.unusedSectionVars false

variable {J : Type} [Fintype J] [DecidableEq J] {Bt : Type} [MeasurableSpace Bt] {ν : Measure Bt} [IsProbabilityMeasure ν]
  {G : Bt → (J → ℝ) → J → ℝ} {a b Λ L lo hi S t c α κ : ℝ} {g : Bt → ℝ} {m s : J → ℝ} {φ : (J → ℝ) → ℝ} {U : (J → ℝ) → ℝ} {n : Nat} {A B M : ℝ}
  {π : Measure ((J → ℝ) × (J → ℝ))}

/-! ## Steps of SGLD vary slowly -/

namespace Tuned
variable (T : Tuned a Λ lo hi m t) (h : Smooth ν G a b Λ g L lo hi S)
include T h

theorem step_lip (x y : J → ℝ) (q : Bt × (J → ℝ)) :
    ‖langevin G m (sig m S t) t x q - langevin G m (sig m S t) t y q‖ ≤ (1 + t * hi * L) * ‖x - y‖ := by
  have ht := T.t_pos
  have hm := T.mass_pos h
  have hL := h.lip0
  have hh := T.hi_nonneg h
  refine (pi_norm_le_iff_of_nonneg (by positivity)).2 fun j => ?_
  have e : (langevin G m (sig m S t) t x q - langevin G m (sig m S t) t y q) j = (x - y) j - t * m j * (G q.1 x - G q.1 y) j := by
    simp only [langevin, Pi.sub_apply]
    ring
  rw [e, Real.norm_eq_abs]
  refine (abs_sub _ _).trans ?_
  rw [abs_mul, abs_of_pos (mul_pos ht (hm j)), add_mul, one_mul]
  refine add_le_add (norm_le_pi_norm (x - y) j) ?_
  have h2 := (norm_le_pi_norm (G q.1 x - G q.1 y) j).trans (h.lip q.1 x y)
  have h3 := mul_le_mul_of_nonneg_left (T.le_hi j) ht.le
  refine (mul_le_mul h3 h2 (abs_nonneg _) (by positivity)).trans (le_of_eq ?_)
  ring

theorem iterate_lip (hφ : Dom (energy m) φ) (hA : 0 ≤ A) (hf : ∀ x y, |φ x - φ y| ≤ A * ‖x - y‖) (n : Nat) (x y : J → ℝ) :
    |(avg ν G m S t)^[n] φ x - (avg ν G m S t)^[n] φ y| ≤ A * (1 + t * hi * L) ^ n * ‖x - y‖ := by
  have ht := T.t_pos
  have hL := h.lip0
  have hh := T.hi_nonneg h
  induction n generalizing x y with
  | zero => simpa using hf x y
  | succ n ih =>
    rw [Function.iterate_succ_apply']
    have hd := hφ.iterate (T.moves_energy h) n
    obtain ⟨hm', A', B', _, hb⟩ := hd
    have i1 := fun x => (T.moves_energy h).integrable hm' hb x
    show |∫ q, (avg ν G m S t)^[n] φ (langevin G m (sig m S t) t x q) ∂_ - ∫ q, (avg ν G m S t)^[n] φ (langevin G m (sig m S t) t y q) ∂_| ≤ _
    rw [← integral_sub (i1 x) (i1 y), ← Real.norm_eq_abs]
    refine (norm_integral_le_of_norm_le_const (C := A * (1 + t * hi * L) ^ (n + 1) * ‖x - y‖) (.of_forall fun q => ?_)).trans
      (le_of_eq (by rw [probReal_univ, mul_one]))
    refine (ih _ _).trans ((mul_le_mul_of_nonneg_left (T.step_lip h x y q) (by positivity)).trans (le_of_eq ?_))
    ring

/-- Averages of a Lipschitz function vary ever more slowly. -/
theorem varies_all [Nonempty J] (hn : UnitTime t n) {γ K w C r Γ : ℝ}
    (X : Mixes (ν.prod (gauss J)) (langevin G m (sig m S t) t) (size m) γ K w C (r ^ (1 / n : ℝ))) (hΓ : gap γ K w C = Γ)
    (hr0 : 1 / 2 ≤ r) (hr1 : r < 1) {π : Measure (J → ℝ)} [IsProbabilityMeasure π]
    (hinv : law (ν.prod (gauss J)) (langevin G m (sig m S t) t) π = π) (hVπ : Integrable (size m) π) (hπ : ∫ x, size m x ∂π ≤ K / (1 - γ))
    (hφ : Measurable φ) (hA : 0 ≤ A) (hb : ∀ x, |φ x| ≤ A * size m x) (hf : ∀ x y, |φ x - φ y| ≤ A * ‖x - y‖) (j : Nat) :
    Varies 0 (A * (2 * Real.exp (2 * hi * L) + 4 * Γ * Harris.smoothing J ν g a b L lo hi S) * (r ^ (1 / n : ℝ)) ^ j) ((avg ν G m S t)^[j] φ) := by
  have ht := T.t_pos
  have hL := h.lip0
  have hh := T.hi_nonneg h
  have hm := T.mass_pos h
  have hV := T.moves_size h
  have hE := T.moves_energy h
  have hr : 0 < r := by linarith
  have hΓ0 : 0 ≤ Γ := by rw [← hΓ]; exact X.gap_nonneg
  have hlo := h.lo_pos
  have hw0 : 0 ≤ Harris.smoothing J ν g a b L lo hi S := by unfold Harris.smoothing; positivity
  have hdom := size_dom hφ hA hb
  have hdE := T.size_le_energy h hdom
  have hρn : (r ^ (1 / n : ℝ)) ^ n = r := by simpa using root_pow hr.le hn.pos 1
  have hρ0 := X.rate_nonneg
  have hρ1 := X.rate_lt
  set ρ := r ^ (1 / n : ℝ) with hρ
  set W := Harris.smoothing J ν g a b L lo hi S with hW
  rcases le_total j n with hj | hj
  · have h1 : Varies 0 (A * Real.exp (2 * hi * L)) ((avg ν G m S t)^[j] φ) := fun x y => by
      have h2 := T.iterate_lip h hdE hA hf j x y
      refine h2.trans ?_
      have h3 : (1 + t * hi * L) ^ j ≤ Real.exp (2 * hi * L) := by
        have h4 : 1 + t * hi * L ≤ Real.exp (t * hi * L) := by linarith [Real.add_one_le_exp (t * hi * L)]
        refine (pow_le_pow_left₀ (by positivity) h4 j).trans ?_
        rw [← Real.exp_nat_mul]
        refine Real.exp_le_exp.2 ?_
        have h5 : (j : ℝ) * t ≤ 2 := le_trans (mul_le_mul_of_nonneg_right (by exact_mod_cast hj) ht.le) hn.le
        have := mul_le_mul_of_nonneg_right h5 (mul_nonneg hh hL)
        linarith
      have h6 : A * (1 + t * hi * L) ^ j * ‖x - y‖ ≤ A * Real.exp (2 * hi * L) * ‖x - y‖ :=
        mul_le_mul_of_nonneg_right (mul_le_mul_of_nonneg_left h3 hA) (norm_nonneg _)
      refine h6.trans ?_
      rw [zero_add]
      exact le_mul_of_one_le_left (by positivity) (by linarith [one_le_far x, one_le_far y])
    refine h1.mono ?_
    have h2 : 1 / 2 ≤ ρ ^ j := by
      refine hr0.trans ?_
      rw [← hρn]
      exact pow_le_pow_of_le_one hρ0 hρ1.le hj
    have h3 := mul_le_mul_of_nonneg_left h2 (by positivity : 0 ≤ A * (2 * Real.exp (2 * hi * L)))
    have h4 : 0 ≤ A * (4 * Γ * W) * ρ ^ j := by positivity
    linarith
  · obtain ⟨i, rfl⟩ := Nat.exists_eq_add_of_le hj
    set e := ∫ x, φ x ∂π
    set χ : (J → ℝ) → ℝ := fun x => (avg ν G m S t)^[i] φ x + -e * 1 with hχ
    have mχ : Measurable χ := ((hdom.iterate hV i).1).add_const _
    have bχ : ∀ x, |χ x| ≤ 2 * A * Γ * ρ ^ i * size m x := fun x => by
      have h1 := X.geometric hinv hVπ hπ hφ hA (fun x => (hb x).trans (mul_le_mul_of_nonneg_left (by linarith) hA)) i x
      rw [hΓ] at h1
      have h2 := one_le_size hm x
      have e1 : χ x = (push (ν.prod (gauss J)) (langevin G m (sig m S t) t))^[i] φ x - ∫ y, φ y ∂π := by
        simp only [hχ]; ring
      rw [e1]
      refine h1.trans ?_
      have h3 : A * Γ * (1 + size m x) ≤ A * Γ * (2 * size m x) := mul_le_mul_of_nonneg_left (by linarith) (by positivity)
      have h4 := mul_le_mul_of_nonneg_right h3 (pow_nonneg hρ0 i)
      linarith
    have h1 := T.iterate_varies h mχ (by positivity) bχ hn.pos hn.le
    rw [mul_assoc, ← Harris.smoothing, ← hW] at h1
    have h2 : 1 ≤ √((n : ℝ) * t) := Real.one_le_sqrt.2 hn.ge
    have h3 := h1.mono (div_le_self (by positivity) h2)
    have e2 : (avg ν G m S t)^[n] χ = fun x => (avg ν G m S t)^[n + i] φ x + -e * 1 := by
      simp only [hχ]
      rw [T.iterate_add_const h (hdE.iterate hE i) (T.const_dom h 1), T.iterate_const h]
      funext x
      rw [← Function.iterate_add_apply]
    rw [e2] at h3
    have h4 := (h3.add_const (e * 1))
    have e3 : (fun x => (avg ν G m S t)^[n + i] φ x + -e * 1 + e * 1) = (avg ν G m S t)^[n + i] φ := by
      funext x
      ring
    rw [e3] at h4
    refine h4.mono ?_
    rw [pow_add, hρn]
    have h5 := mul_le_mul_of_nonneg_left hr0 (by positivity : 0 ≤ 4 * A * Γ * ρ ^ i * W)
    have h6 : 0 ≤ A * (2 * Real.exp (2 * hi * L)) * (r * ρ ^ i) := by positivity
    linarith

end Tuned

/-! ## Many steps -/

section many
variable {E Z : Type*} [MeasurableSpace E] [MeasurableSpace Z] {k : Measure Z} [IsProbabilityMeasure k] {Ψ : E → Z → E} {V : E → ℝ} {γ K : ℝ}
  {u v : E → ℝ}

theorem Moves.push_int (h : Moves k Ψ V γ K) (hu : Dom V u) (x : E) : Integrable (fun z => u (Ψ x z)) k := by
  obtain ⟨hm, a, b, _, hb⟩ := hu
  exact h.integrable hm hb x

theorem Dom.affine (hu : Dom V u) (hv : Dom V v) (p q r : ℝ) : Dom V fun x => p * u x + (q * v x + r) := by
  obtain ⟨mu, a, b, ha, hb⟩ := hu
  obtain ⟨mv, a', b', ha', hb'⟩ := hv
  refine ⟨(mu.const_mul p).add ((mv.const_mul q).add_const r), |p| * a + |q| * a', |p| * b + |q| * b' + |r|, by positivity, fun x => ?_⟩
  have h1 := abs_add_le (p * u x) (q * v x + r)
  have h2 := abs_add_le (q * v x) r
  rw [abs_mul] at h1 h2
  have h3 := mul_le_mul_of_nonneg_left (hb x) (abs_nonneg p)
  have h4 := mul_le_mul_of_nonneg_left (hb' x) (abs_nonneg q)
  linarith

theorem Moves.push_affine (h : Moves k Ψ V γ K) (hu : Dom V u) (hv : Dom V v) (p q r : ℝ) :
    push k Ψ (fun x => p * u x + (q * v x + r)) = fun x => p * push k Ψ u x + (q * push k Ψ v x + r) := by
  funext x
  unfold push
  have i1 := (h.push_int hu x).const_mul p
  have i2 := (h.push_int hv x).const_mul q
  have i3 : Integrable (fun z => q * v (Ψ x z) + r) k := i2.add (integrable_const r)
  rw [integral_add i1 i3, integral_add i2 (integrable_const r), integral_const_mul, integral_const_mul]
  simp only [integral_const, probReal_univ, one_smul]

theorem Moves.many_affine (h : Moves k Ψ V γ K) (hu : Dom V u) (hv : Dom V v) (p q r : ℝ) (n : Nat) :
    (push k Ψ)^[n] (fun x => p * u x + (q * v x + r)) = fun x => p * (push k Ψ)^[n] u x + (q * (push k Ψ)^[n] v x + r) := by
  induction n with
  | zero => rfl
  | succ n ih =>
    rw [Function.iterate_succ_apply', ih, h.push_affine (hu.iterate h n) (hv.iterate h n)]
    funext x
    rw [← Function.iterate_succ_apply' (push k Ψ), ← Function.iterate_succ_apply' (push k Ψ)]

theorem Moves.push_mono (h : Moves k Ψ V γ K) (hu : Dom V u) (hv : Dom V v) (hle : ∀ x, u x ≤ v x) (x : E) : push k Ψ u x ≤ push k Ψ v x :=
  integral_mono (h.push_int hu x) (h.push_int hv x) fun _ => hle _

theorem Moves.many_mono (h : Moves k Ψ V γ K) (hu : Dom V u) (hv : Dom V v) (hle : ∀ x, u x ≤ v x) (n : Nat) (x : E) :
    (push k Ψ)^[n] u x ≤ (push k Ψ)^[n] v x := by
  induction n generalizing x with
  | zero => exact hle x
  | succ n ih =>
    rw [Function.iterate_succ_apply', Function.iterate_succ_apply']
    exact h.push_mono (hu.iterate h n) (hv.iterate h n) ih x

theorem Moves.many_abs (h : Moves k Ψ V γ K) (hu : Dom V u) (hv : Dom V v) (hle : ∀ x, |u x| ≤ v x) (n : Nat) (x : E) :
    |(push k Ψ)^[n] u x| ≤ (push k Ψ)^[n] v x := by
  refine abs_le.2 ⟨?_, h.many_mono hu hv (fun x => (le_abs_self _).trans (hle x)) n x⟩
  have h0 : Dom V fun x => -1 * v x + (0 * v x + 0) := Dom.affine hv hv (-1) 0 0
  have h1 := h.many_mono h0 hu (fun x => by have := (abs_le.1 (hle x)).1; linarith) n x
  rw [h.many_affine hv hv] at h1
  linarith

/-- Two operators that differ little give averages that differ little. -/
theorem telescope {N : Nat} (R : Nat → ℝ) {d : Nat → ℝ} (h : ∀ i < N, |R (i + 1) - R i| ≤ d i) : |R N - R 0| ≤ ∑ i ∈ Finset.range N, d i := by
  rw [← Finset.sum_range_sub]
  exact (Finset.abs_sum_le_sum_abs _ _).trans (Finset.sum_le_sum fun i hi => h i (Finset.mem_range.1 hi))

end many

/-! ## The energies of a run -/

namespace Coasts
variable [IsProbabilityMeasure π] (C : Coasts ν G a Λ lo hi S α κ t m s π) (h : Smooth ν G a b Λ g L lo hi S)
include C h

theorem slow_le : slowing a t lo α ≤ 1 - t * pace a lo α := by
  have hα := C.α0
  have ht := C.t_pos h
  have ht1 := C.t_le h
  unfold slowing
  refine max_le ?_ ?_
  · have : pace a lo α ≤ 1 := min_le_left _ _
    nlinarith
  · have h4 : t * pace a lo α ≤ min (α / (2 * (2 * ((1 - α) / α) ^ 2 + 1))) (t * a * lo / (2 * α)) := by
      have hp := pace_pos h.conf.pos h.lo_pos hα
      refine le_min ?_ ?_
      · have h5 : pace a lo α ≤ α / (2 * (2 * ((1 - α) / α) ^ 2 + 1)) := (min_le_right _ _).trans (min_le_left _ _)
        nlinarith
      · have h5 : pace a lo α ≤ a * lo / (2 * α) := (min_le_right _ _).trans (min_le_right _ _)
        refine (mul_le_mul_of_nonneg_left h5 ht.le).trans (le_of_eq ?_)
        ring
    linarith

/-- What a rate `l` has to satisfy. -/
theorem slow_rate {l : ℝ} (hl : l ≤ α * pace a lo α) : slowing a t lo α ≤ Real.exp (-(l * (t / α))) := by
  have hα := C.α0
  have ht := C.t_pos h
  have h1 := C.slow_le h
  have h2 : l * (t / α) ≤ t * pace a lo α := by
    refine (mul_le_mul_of_nonneg_right hl C.tuned.t_pos.le).trans (le_of_eq ?_)
    field_simp
  linarith [Real.add_one_le_exp (-(l * (t / α)))]

theorem total_many {σ : ℝ} (hσ : slowing a t lo α ≤ σ) (k : Nat) (p : (J → ℝ) × (J → ℝ)) :
    (push (ν.prod (gauss J)) (hop G m s t α))^[k] (total m α) p ≤ σ ^ k * total m α p + glow J ν g a b S α / pace a lo α := by
  have hm := C.tuned.mass_pos h
  have hV := C.moves h
  have hT := total_nonneg (α := α) hm p
  have h1 := hV.bounded hV.self_dom (fun _ => le_rfl) k p
  have h2 : warmth ν g a b t α m s / (1 - slowing a t lo α) ≤ glow J ν g a b S α / pace a lo α := by
    have hα := C.α0
    have ht := C.t_pos h
    have hp := pace_pos h.conf.pos h.lo_pos hα
    have hg := glow_nonneg (J := J) h.conf h.S_pos hα
    have h3 := C.slow_le h
    have h4 : 0 < t * pace a lo α := by positivity
    rw [div_le_div_iff₀ (by linarith) hp]
    have h5 := mul_le_mul_of_nonneg_right (C.warmth_le h) hp.le
    have h6 : t * pace a lo α ≤ 1 - slowing a t lo α := by linarith
    have h7 := mul_le_mul_of_nonneg_left h6 hg
    linarith
  have h3 : 0 ≤ warmth ν g a b t α m s / (1 - slowing a t lo α) := div_nonneg hV.pos (by linarith [hV.lt_one])
  have h4 : 0 ≤ slowing a t lo α ^ k := pow_nonneg hV.gamma k
  have h5 := mul_le_mul_of_nonneg_right (pow_le_pow_left₀ hV.gamma hσ k) hT
  have h6 := mul_nonneg h4 h3
  linarith

/-- How much of the energy at the start the momenta feel. -/
noncomputable def pull (a hi α : ℝ) : ℝ := 4 / α * (3 * a * ((3 + 2 * ((1 - α) / α) ^ 2) * hi))

omit C h [IsProbabilityMeasure π] [Fintype J] [DecidableEq J] [MeasurableSpace Bt] [IsProbabilityMeasure ν] in
theorem pull_nonneg (ha : 0 < a) (hh : 0 ≤ hi) (hα : 0 < α) : 0 ≤ pull a hi α := by
  unfold pull
  positivity

theorem momentum_many {σ : ℝ} (hσ : slowing a t lo α ≤ σ) (hσα : 1 - α / 4 ≤ σ) (k : Nat) (p : (J → ℝ) × (J → ℝ)) :
    (push (ν.prod (gauss J)) (hop G m s t α))^[k] (fun p => energy m p.2) p
      ≤ (1 - α / 2) ^ k * energy m p.2 + t * (speed J ν g a b lo hi S α + pull a hi α * (σ ^ k * total m α p)) := by
  have hm := C.tuned.mass_pos h
  have hV := C.moves h
  have hα := C.α0
  have hα1 := C.α1
  have ht := C.t_pos h
  have hh := C.tuned.hi_nonneg h
  have ha := h.conf.pos
  have hS := h.S_pos
  have hT := total_nonneg (α := α) hm p
  have hpull := pull_nonneg ha hh hα
  have hsp := C.speed_nonneg h
  have hσ0 : 0 ≤ σ := by linarith
  induction k with
  | zero =>
    simp only [Function.iterate_zero, id_eq, pow_zero, one_mul]
    have : 0 ≤ t * (speed J ν g a b lo hi S α + pull a hi α * total m α p) := by positivity
    linarith
  | succ k ih =>
    set c := 3 * a * ((3 + 2 * ((1 - α) / α) ^ 2) * hi) with hc
    have hc0 : 0 ≤ c := by positivity
    set c₀ := 3 * a * ∫ β, g β ∂ν + 2 * α * Fintype.card J / S with hc₀
    have hd := C.momentum_dom h
    have hstep : ∀ p, push (ν.prod (gauss J)) (hop G m s t α) (fun p => energy m p.2) p ≤ (1 - α / 2) * energy m p.2 + (t * c * total m α p + t * c₀) := fun p => by
      refine (C.momentum_step h p).trans ?_
      have h1 := size2_le (α := α) hm C.tuned.le_hi hh p
      have h2 : ∑ j, p.1 j ^ 2 ≤ size2 p := le_add_of_nonneg_right (Finset.sum_nonneg fun _ _ => sq_nonneg _)
      have h3 := mul_le_mul_of_nonneg_left (h2.trans h1) (by positivity : 0 ≤ 3 * t * a)
      have e1 : t * c * total m α p + t * c₀ = 3 * t * a * ((3 + 2 * ((1 - α) / α) ^ 2) * hi * total m α p) + (3 * t * a * ∫ β, g β ∂ν)
          + 2 * α * t / S * Fintype.card J := by
        rw [hc, hc₀]; ring
      rw [e1]
      linarith
    have h1 := hV.many_mono (hd.push hV) (Dom.affine hd hV.self_dom (1 - α / 2) (t * c) (t * c₀)) hstep k p
    rw [hV.many_affine hd hV.self_dom] at h1
    rw [Function.iterate_succ_apply]
    refine h1.trans ?_
    have h2 := mul_le_mul_of_nonneg_left ih (by linarith : 0 ≤ 1 - α / 2)
    have h3 := mul_le_mul_of_nonneg_left (C.total_many h hσ k p) (by positivity : 0 ≤ t * c)
    set W := glow J ν g a b S α / pace a lo α with hW
    have e2 : α / 2 * speed J ν g a b lo hi S α = c₀ + c * W := by
      unfold speed spread
      rw [← hW, hc, hc₀]
      field_simp
      ring
    have e3 : α / 4 * pull a hi α = c := by
      unfold pull
      rw [hc]
      field_simp
    have h4 : (1 - α / 2) * (pull a hi α * (σ ^ k * total m α p)) + c * (σ ^ k * total m α p) ≤ pull a hi α * (σ ^ (k + 1) * total m α p) := by
      rw [← e3, pow_succ]
      have := mul_le_mul_of_nonneg_left hσα (by positivity : 0 ≤ pull a hi α * (σ ^ k * total m α p))
      linarith
    have h5 := mul_le_mul_of_nonneg_left h4 ht.le
    have e5 : t * ((1 - α / 2) * speed J ν g a b lo hi S α) + t * (c * W) + t * c₀ = t * speed J ν g a b lo hi S α := by
      linear_combination (-t) * e2
    rw [pow_succ (1 - α / 2)]
    linarith

/-- How much a step of SGHMC differs from one of SGLD, in terms of the energy at the start. -/
noncomputable def drag (a L hi α : ℝ) : ℝ := 2 * hi + 4 * (hi * L * ((1 - α) / α)) ^ 2 * hi * α * pull a hi α

theorem step_many {σ : ℝ} (hσ : slowing a t lo α ≤ σ) (hσα : 1 - α / 4 ≤ σ) (hσ1 : σ ≤ 1) {M : ℝ} (hM : 0 ≤ M) (hφ : Dom (energy m) φ)
    (hv : Varies 0 M φ) (k : Nat) (p : (J → ℝ) × (J → ℝ)) :
    |(push (ν.prod (gauss J)) (hop G m s t α))^[k + 1] (fun p => φ (slow α p)) p
        - (push (ν.prod (gauss J)) (hop G m s t α))^[k] (fun p => avg ν G m S (t / α) φ (slow α p)) p|
      ≤ M * (t / α * √(t / α) * (lag J ν g a b L lo hi S α κ + drag a L hi α * (σ ^ k * total m α p))
        + √(t / α) * (4 * (hi * L * ((1 - α) / α)) ^ 2 * hi * ((1 - α / 2) ^ k * total m α p))) := by
  have hτ := C.tuned.t_pos
  have hm := C.tuned.mass_pos h
  have hV := C.moves h
  have hα := C.α0
  have hα1 := C.α1
  have ht := C.t_pos h
  have hh := C.tuned.hi_nonneg h
  have hT := total_nonneg (α := α) hm p
  have hσ0 : 0 ≤ σ := by linarith
  have hd := C.momentum_dom h
  have d1 := (C.slow_dom h hφ).push hV
  have d2 := C.slow_dom h (hφ.push (C.tuned.moves_energy h))
  have dT : Dom (total m α) (push (ν.prod (gauss J)) (hop G m s t α) (total m α)) := hV.self_dom.push hV
  set u := hi * L * ((1 - α) / α) with hu
  have hs : 0 < √(t / α) := Real.sqrt_pos.2 hτ
  have e1 := Real.mul_self_sqrt hτ.le
  set τ := t / α with hτe
  set ε := τ * √τ with hε
  have hε0 : 0 < ε := mul_pos hτ hs
  set q := 2 + 4 * κ ^ 2 * Fintype.card J with hq
  have hpt : ∀ p, |1 * push (ν.prod (gauss J)) (hop G m s t α) (fun p => φ (slow α p)) p + (-1 * avg ν G m S τ φ (slow α p) + 0)|
      ≤ M * (ε * (2 * hi)) * push (ν.prod (gauss J)) (hop G m s t α) (total m α) p
        + (M * (√τ * (4 * u ^ 2 * hi)) * energy m p.2 + M * (ε * q)) := fun p => by
    have h1 := C.step_near h hM hφ hv p
    rw [← hτe, ← hε, ← hu] at h1
    have e0 : 1 * push (ν.prod (gauss J)) (hop G m s t α) (fun p => φ (slow α p)) p + (-1 * avg ν G m S τ φ (slow α p) + 0)
      = push (ν.prod (gauss J)) (hop G m s t α) (fun p => φ (slow α p)) p - avg ν G m S τ φ (slow α p) := by ring
    rw [e0]
    refine h1.trans ?_
    have h2 : push (ν.prod (gauss J)) (hop G m s t α) (fun p => 2 + 2 * hi * energy m (slow α p)) p
        ≤ 2 + 2 * hi * push (ν.prod (gauss J)) (hop G m s t α) (total m α) p := by
      have d3 : Dom (total m α) fun p => 2 * hi * energy m (slow α p) + (0 * total m α p + 2) :=
        Dom.affine (C.slow_dom h (C.energy_dom h)) hV.self_dom (2 * hi) 0 2
      have d4 : Dom (total m α) fun p => 2 * hi * total m α p + (0 * total m α p + 2) := Dom.affine hV.self_dom hV.self_dom (2 * hi) 0 2
      have h3 := hV.push_mono d3 d4 (fun p => by
        have : energy m (slow α p) ≤ total m α p := le_add_of_nonneg_right (energy_nonneg hm _)
        have := mul_le_mul_of_nonneg_left this (by positivity : 0 ≤ 2 * hi)
        linarith) p
      rw [hV.push_affine hV.self_dom hV.self_dom] at h3
      have e3 : (fun p : (J → ℝ) × (J → ℝ) => 2 + 2 * hi * energy m (slow α p)) = fun p => 2 * hi * energy m (slow α p) + (0 * total m α p + 2) := by
        funext p; ring
      rw [e3]
      linarith
    have h4 := mul_le_mul_of_nonneg_left h2 (mul_nonneg hM hε0.le)
    have e4 : 4 / ε * ((τ * u) ^ 2 * (hi * energy m p.2) + (κ * ε) ^ 2 * Fintype.card J)
        = √τ * (4 * u ^ 2 * hi) * energy m p.2 + ε * (4 * κ ^ 2 * Fintype.card J) := by
      rw [hε]
      field_simp
      rw [Real.sq_sqrt hτ.le]
    rw [e4, hq]
    linarith
  have h1 := hV.many_abs (Dom.affine d1 d2 1 (-1) 0) (Dom.affine dT hd (M * (ε * (2 * hi))) (M * (√τ * (4 * u ^ 2 * hi))) (M * (ε * q))) hpt k p
  have e5 : (push (ν.prod (gauss J)) (hop G m s t α))^[k]
      (fun p => 1 * push (ν.prod (gauss J)) (hop G m s t α) (fun p => φ (slow α p)) p + (-1 * avg ν G m S τ φ (slow α p) + 0))
      = fun p => 1 * (push (ν.prod (gauss J)) (hop G m s t α))^[k] (push (ν.prod (gauss J)) (hop G m s t α) fun p => φ (slow α p)) p
        + (-1 * (push (ν.prod (gauss J)) (hop G m s t α))^[k] (fun p => avg ν G m S τ φ (slow α p)) p + 0) := hV.many_affine d1 d2 1 (-1) 0 k
  rw [e5, hV.many_affine dT hd] at h1
  rw [Function.iterate_succ_apply]
  have e6 : ∀ x y : ℝ, 1 * x + (-1 * y + 0) = x - y := fun x y => by ring
  beta_reduce at h1
  rw [e6] at h1
  refine h1.trans ?_
  have h2 : (push (ν.prod (gauss J)) (hop G m s t α))^[k] (push (ν.prod (gauss J)) (hop G m s t α) (total m α)) p
      ≤ σ ^ k * total m α p + glow J ν g a b S α / pace a lo α := by
    rw [← Function.iterate_succ_apply]
    refine (C.total_many h hσ (k + 1) p).trans ?_
    have := mul_le_mul_of_nonneg_right (pow_le_pow_of_le_one hσ0 hσ1 (Nat.le_add_right k 1)) hT
    linarith
  have h3 := C.momentum_many h hσ hσα k p
  have h4 : energy m p.2 ≤ total m α p := le_add_of_nonneg_left (energy_nonneg hm _)
  have h5 := mul_le_mul_of_nonneg_left h4 (pow_nonneg (by linarith : 0 ≤ 1 - α / 2) k)
  have h6 := mul_le_mul_of_nonneg_left h2 (by positivity : 0 ≤ M * (ε * (2 * hi)))
  have h7 := mul_le_mul_of_nonneg_left (h3.trans (add_le_add_left h5 _)) (by positivity : 0 ≤ M * (√τ * (4 * u ^ 2 * hi)))
  have e7 : √τ * t = ε * α := by
    rw [hε, hτe]
    field_simp
  set Q1 := σ ^ k * total m α p
  set Q2 := (1 - α / 2) ^ k * total m α p
  set V3 := speed J ν g a b lo hi S α
  have e8 : M * (√τ * (4 * u ^ 2 * hi)) * (Q2 + t * (V3 + pull a hi α * Q1))
      = M * (√τ * (4 * u ^ 2 * hi) * Q2) + M * (ε * (4 * u ^ 2 * hi * α * (V3 + pull a hi α * Q1))) := by
    linear_combination (M * (4 * u ^ 2 * hi) * (V3 + pull a hi α * Q1)) * e7
  rw [e8] at h7
  refine (add_le_add h6 (add_le_add_left h7 _)).trans (le_of_eq ?_)
  unfold lag drag
  rw [← hu, hq]
  ring

end Coasts

/-! ## Sums over a run -/

theorem geom_le {x : ℝ} (h0 : 0 ≤ x) (h1 : x < 1) (N : Nat) : ∑ k ∈ Finset.range N, x ^ k ≤ 1 / (1 - x) := by
  rw [le_div_iff₀ (by linarith), mul_comm, mul_neg_geom_sum]
  linarith [pow_nonneg h0 N]

theorem run_sum {σ β q c₀ c₁ c₂ : ℝ} (hσ : 1 / 2 ≤ σ) (hσ1 : σ < 1) (hβ0 : 0 ≤ β) (hq0 : 0 ≤ q) (hq : q < 1) (hβ : β ≤ σ * q)
    (h0 : 0 ≤ c₀) (h1 : 0 ≤ c₁) (h2 : 0 ≤ c₂) (N : Nat) :
    ∑ k ∈ Finset.range N, σ ^ (2 * (N - 1 - k)) * (c₀ + c₁ * σ ^ k + c₂ * β ^ k)
      ≤ c₀ / (1 - σ) + 2 * σ ^ N * (c₁ / (1 - σ) + c₂ / (1 - q)) := by
  have hσ0 : 0 ≤ σ := by linarith
  have hterm : ∀ k ∈ Finset.range N, σ ^ (2 * (N - 1 - k)) * (c₀ + c₁ * σ ^ k + c₂ * β ^ k)
      ≤ (c₀ + 2 * σ ^ N * c₁) * σ ^ (N - 1 - k) + 2 * σ ^ N * c₂ * q ^ k := fun k hk => by
    rw [Finset.mem_range] at hk
    set i := N - 1 - k with hi
    have hN : N = i + k + 1 := by omega
    have e1 : σ ^ (2 * i) = σ ^ i * σ ^ i := by rw [two_mul, pow_add]
    have p1 : 0 ≤ σ ^ i := pow_nonneg hσ0 i
    have p2 : σ ^ i ≤ 1 := pow_le_one₀ hσ0 hσ1.le
    have p3 : 0 ≤ σ ^ k := pow_nonneg hσ0 k
    have k1 : σ ^ i * σ ^ k ≤ 2 * σ ^ N := by
      rw [hN, pow_succ, pow_add]
      have := mul_le_mul_of_nonneg_left hσ (mul_nonneg p1 p3)
      linarith
    have k2 : β ^ k ≤ σ ^ k * q ^ k := by
      rw [← mul_pow]
      exact pow_le_pow_left₀ hβ0 hβ k
    have p4 : 0 ≤ q ^ k := pow_nonneg hq0 k
    have t0 : σ ^ i * σ ^ i * c₀ ≤ c₀ * σ ^ i := by
      have := mul_le_mul_of_nonneg_right (mul_le_mul_of_nonneg_left p2 p1) h0
      linarith
    have t1 : σ ^ i * σ ^ i * (c₁ * σ ^ k) ≤ 2 * σ ^ N * c₁ * σ ^ i := by
      have := mul_le_mul_of_nonneg_left k1 (mul_nonneg p1 h1)
      linarith
    have t2 : σ ^ i * σ ^ i * (c₂ * β ^ k) ≤ 2 * σ ^ N * c₂ * q ^ k := by
      have a1 : σ ^ i * σ ^ i ≤ σ ^ i := mul_le_of_le_one_right p1 p2
      have a2 : c₂ * β ^ k ≤ c₂ * (σ ^ k * q ^ k) := mul_le_mul_of_nonneg_left k2 h2
      refine (mul_le_mul a1 a2 (mul_nonneg h2 (pow_nonneg hβ0 k)) p1).trans ?_
      have := mul_le_mul_of_nonneg_left k1 (mul_nonneg h2 p4)
      linarith
    rw [e1]
    linarith
  refine (Finset.sum_le_sum hterm).trans ?_
  rw [Finset.sum_add_distrib, ← Finset.mul_sum, ← Finset.mul_sum, Finset.sum_range_reflect (fun j => σ ^ j)]
  have s1 := mul_le_mul_of_nonneg_left (geom_le hσ0 hσ1 N) (by positivity : 0 ≤ c₀ + 2 * σ ^ N * c₁)
  have s2 := mul_le_mul_of_nonneg_left (geom_le hq0 hq N) (by positivity : 0 ≤ 2 * σ ^ N * c₂)
  refine (add_le_add s1 s2).trans (le_of_eq ?_)
  ring

theorem rate_le {l τ : ℝ} (hl : 0 < l) (hτ : 0 < τ) (hτ1 : τ ≤ 1) : τ / (1 - Real.exp (-(l * τ))) ≤ (1 + l) / l := by
  have h0 : Real.exp (-(l * τ)) < 1 := Real.exp_lt_one_iff.2 (by linarith [mul_pos hl hτ])
  rw [div_le_div_iff₀ (by linarith) hl]
  have h1 : Real.exp (-(l * τ)) * (1 + l * τ) ≤ 1 := by
    have := Real.add_one_le_exp (l * τ)
    rw [Real.exp_neg]
    exact (inv_mul_le_iff₀ (Real.exp_pos _)).2 (by linarith)
  have h2 : Real.exp (-(l * τ)) ≤ 1 / (1 + l * τ) := by rwa [le_div_iff₀ (by positivity)]
  have h3 : l * τ / (1 + l * τ) ≤ 1 - Real.exp (-(l * τ)) := by
    have e : l * τ / (1 + l * τ) = 1 - 1 / (1 + l * τ) := by
      have : 1 + l * τ ≠ 0 := by positivity
      field_simp
      ring
    rw [e]
    linarith
  have h4 := mul_le_mul_of_nonneg_left h3 (by linarith : 0 ≤ 1 + l)
  refine le_trans ?_ h4
  rw [← mul_div_assoc, le_div_iff₀ (by positivity)]
  have h5 : l * τ ≤ l := mul_le_of_le_one_right hl.le hτ1
  have := mul_le_mul_of_nonneg_left h5 (mul_pos hτ hl).le
  linarith

namespace Coasts
variable [IsProbabilityMeasure π] (C : Coasts ν G a Λ lo hi S α κ t m s π) (h : Smooth ν G a b Λ g L lo hi S)
include C h

/-- SGHMC follows SGLD for any number of steps. -/
theorem follows {l B : ℝ} (hl : 0 < l) (hl1 : l ≤ α * pace a lo α) (hl2 : l ≤ α / 4) (hB : 0 ≤ B) (hφ : Dom (energy m) φ)
    (hv : ∀ j : Nat, Varies 0 (B * Real.exp (-(l * (t / α))) ^ (2 * j)) ((avg ν G m S (t / α))^[j] φ)) (N : Nat) (p : (J → ℝ) × (J → ℝ)) :
    |(push (ν.prod (gauss J)) (hop G m s t α))^[N] (fun p => φ (slow α p)) p - (avg ν G m S (t / α))^[N] φ (slow α p)|
      ≤ B * ((1 + l) / l * lag J ν g a b L lo hi S α κ) * √(t / α)
        + B * (2 * ((1 + l) / l * drag a L hi α + 4 / α * (4 * (hi * L * ((1 - α) / α)) ^ 2 * hi))) * total m α p * Real.exp (-(l * (t / α))) ^ N := by
  have hτ := C.tuned.t_pos
  have hτ1 := C.tuned.t_le
  have hm := C.tuned.mass_pos h
  have hV := C.moves h
  have hE := C.tuned.moves_energy h
  have hα := C.α0
  have hα1 := C.α1
  have ht := C.t_pos h
  have hh := C.tuned.hi_nonneg h
  have hT := total_nonneg (α := α) hm p
  have hσ := C.slow_rate h hl1
  have hlag := (C.kept h).nonneg
  have hdr : 0 ≤ drag a L hi α := by
    have := pull_nonneg h.conf.pos hh hα
    unfold drag
    positivity
  have hs : 0 < √(t / α) := Real.sqrt_pos.2 hτ
  have hs1 : √(t / α) ≤ 1 := Real.sqrt_le_one.2 hτ1
  have hrate := rate_le hl hτ hτ1
  set τ := t / α with hτe
  have hlt : l * τ ≤ α / 4 := (mul_le_of_le_one_right hl.le hτ1).trans hl2
  set σ := Real.exp (-(l * τ)) with hσe
  have hσα : 1 - α / 4 ≤ σ := by linarith [Real.add_one_le_exp (-(l * τ))]
  have hσ1 : σ < 1 := Real.exp_lt_one_iff.2 (by linarith [mul_pos hl hτ])
  set D2 := 4 * (hi * L * ((1 - α) / α)) ^ 2 * hi with hD2
  have hD20 : 0 ≤ D2 := by positivity
  set R : Nat → ℝ := fun k => (push (ν.prod (gauss J)) (hop G m s t α))^[k] (fun p => (avg ν G m S τ)^[N - k] φ (slow α p)) p with hR
  have h1 := telescope (N := N) R (d := fun k => B * (σ ^ (2 * (N - 1 - k)) * (τ * √τ * lag J ν g a b L lo hi S α κ
      + τ * √τ * drag a L hi α * total m α p * σ ^ k + √τ * D2 * total m α p * (1 - α / 2) ^ k))) fun k hk => by
    have h2 := C.step_many h hσ hσα hσ1.le (by positivity : 0 ≤ B * σ ^ (2 * (N - 1 - k))) (hφ.iterate hE (N - 1 - k)) (hv (N - 1 - k)) k p
    have e1 : N - k = N - 1 - k + 1 := by omega
    have e2 : N - (k + 1) = N - 1 - k := by omega
    simp only [hR]
    rw [e1, e2]
    have e3 : (fun p => (avg ν G m S τ)^[N - 1 - k + 1] φ (slow α p)) = fun p => avg ν G m S τ ((avg ν G m S τ)^[N - 1 - k] φ) (slow α p) := by
      funext p
      rw [Function.iterate_succ_apply']
    rw [e3]
    refine h2.trans (le_of_eq ?_)
    rw [← hτe, ← hD2]
    ring
  have e4 : R N = (push (ν.prod (gauss J)) (hop G m s t α))^[N] (fun p => φ (slow α p)) p := by
    simp only [hR, Nat.sub_self, Function.iterate_zero, id_eq]
  have e5 : R 0 = (avg ν G m S τ)^[N] φ (slow α p) := by
    simp only [hR, Nat.sub_zero, Function.iterate_zero, id_eq]
  rw [e4, e5, ← Finset.mul_sum] at h1
  refine h1.trans ?_
  have h2 := run_sum (σ := σ) (β := 1 - α / 2) (q := 1 - α / 4) (by linarith) hσ1 (by linarith) (by linarith) (by linarith)
    (by nlinarith) (by positivity : 0 ≤ τ * √τ * lag J ν g a b L lo hi S α κ) (by positivity : 0 ≤ τ * √τ * drag a L hi α * total m α p)
    (by positivity : 0 ≤ √τ * D2 * total m α p) N
  have h3 := mul_le_mul_of_nonneg_left h2 hB
  refine h3.trans ?_
  have hσN : 0 ≤ σ ^ N := pow_nonneg (by linarith) N
  have k0 : τ * √τ * lag J ν g a b L lo hi S α κ / (1 - σ) ≤ (1 + l) / l * lag J ν g a b L lo hi S α κ * √τ := by
    have := mul_le_mul_of_nonneg_right hrate (mul_nonneg hs.le hlag)
    refine le_trans (le_of_eq ?_) (this.trans (le_of_eq ?_)) <;> ring
  have k1 : τ * √τ * drag a L hi α * total m α p / (1 - σ) ≤ (1 + l) / l * drag a L hi α * total m α p := by
    have := mul_le_mul_of_nonneg_right hrate (by positivity : 0 ≤ √τ * drag a L hi α * total m α p)
    have k : (1 + l) / l * (√τ * drag a L hi α * total m α p) ≤ (1 + l) / l * (1 * drag a L hi α * total m α p) := by
      refine mul_le_mul_of_nonneg_left ?_ (by positivity)
      exact mul_le_mul_of_nonneg_right (mul_le_mul_of_nonneg_right hs1 hdr) hT
    refine le_trans (le_of_eq ?_) (this.trans (k.trans (le_of_eq ?_))) <;> ring
  have k2 : √τ * D2 * total m α p / (1 - (1 - α / 4)) ≤ 4 / α * D2 * total m α p := by
    have e : 1 - (1 - α / 4) = α / 4 := by ring
    rw [e]
    have k : √τ * (4 / α * D2 * total m α p) ≤ 1 * (4 / α * D2 * total m α p) := mul_le_mul_of_nonneg_right hs1 (by positivity)
    refine le_trans (le_of_eq ?_) (k.trans (le_of_eq ?_))
    · field_simp
    · ring
  have k3 := mul_le_mul_of_nonneg_left (add_le_add k1 k2) (by positivity : 0 ≤ 2 * σ ^ N)
  have k4 := mul_le_mul_of_nonneg_left (add_le_add k0 k3) hB
  refine k4.trans (le_of_eq ?_)
  ring

theorem norm_dom : Dom (total m α) fun p : (J → ℝ) × (J → ℝ) => ‖p.2‖ := by
  have hm := C.tuned.mass_pos h
  have hh := C.tuned.hi_nonneg h
  refine ⟨measurable_snd.norm, hi, 1, hh, fun p => ?_⟩
  rw [abs_of_nonneg (norm_nonneg _)]
  have k2 := (norm_sq_le p.2).trans (sq_le_energy hm C.tuned.le_hi p.2)
  have k3 : energy m p.2 ≤ total m α p := le_add_of_nonneg_left (energy_nonneg hm _)
  have k4 := mul_le_mul_of_nonneg_left k3 hh
  nlinarith [sq_nonneg (‖p.2‖ - 1)]

/-- Momenta become small. -/
theorem norm_many {σ : ℝ} (hσ : slowing a t lo α ≤ σ) (hσα : 1 - α / 4 ≤ σ) (N : Nat) (p : (J → ℝ) × (J → ℝ)) :
    (push (ν.prod (gauss J)) (hop G m s t α))^[N] (fun p => ‖p.2‖) p
      ≤ √(t / α) * (1 + hi * speed J ν g a b lo hi S α * α) + (1 + hi * (1 + α * pull a hi α)) * (1 + total m α p) * σ ^ N := by
  have hτ := C.tuned.t_pos
  have hτ1 := C.tuned.t_le
  have hm := C.tuned.mass_pos h
  have hV := C.moves h
  have hα := C.α0
  have hα1 := C.α1
  have ht := C.t_pos h
  have hh := C.tuned.hi_nonneg h
  have hT := total_nonneg (α := α) hm p
  have hσ0 : 0 < σ := by linarith
  have hpull := pull_nonneg h.conf.pos hh hα
  have hsp := C.speed_nonneg h
  have hs : 0 < √(t / α) := Real.sqrt_pos.2 hτ
  have hs1 : √(t / α) ≤ 1 := Real.sqrt_le_one.2 hτ1
  have e1 := Real.mul_self_sqrt hτ.le
  set x := √(t / α) with hx
  have hσN : 0 < σ ^ N := pow_pos hσ0 N
  set y := σ ^ N with hy
  set w := x + y with hw
  have hw0 : 0 < w := by positivity
  have hpt : ∀ p : (J → ℝ) × (J → ℝ), ‖p.2‖ ≤ hi / w * energy m p.2 + (0 * energy m p.2 + w) := fun p => by
    have k2 := (norm_sq_le p.2).trans (sq_le_energy hm C.tuned.le_hi p.2)
    have k3 : ‖p.2‖ ≤ w + ‖p.2‖ ^ 2 / w := by
      have h1 : 0 ≤ (w - ‖p.2‖) ^ 2 / w := by positivity
      have e : (w - ‖p.2‖) ^ 2 / w = w + ‖p.2‖ ^ 2 / w - 2 * ‖p.2‖ := by
        field_simp
        ring
      linarith [norm_nonneg p.2]
    have k4 := div_le_div_of_nonneg_right k2 hw0.le
    have e : hi / w * energy m p.2 = hi * energy m p.2 / w := by ring
    rw [e]
    linarith
  have hd := C.momentum_dom h
  have h1 := hV.many_mono (C.norm_dom h) (Dom.affine hd hd (hi / w) 0 w) hpt N p
  rw [hV.many_affine hd hd] at h1
  beta_reduce at h1
  refine h1.trans ?_
  have h2 := C.momentum_many h hσ hσα N p
  have h4 : energy m p.2 ≤ total m α p := le_add_of_nonneg_left (energy_nonneg hm _)
  have h5 : (1 - α / 2) ^ N ≤ y * y := by
    rw [hy, ← mul_pow]
    exact pow_le_pow_left₀ (by linarith) (by nlinarith) N
  have h6 : (1 - α / 2) ^ N * energy m p.2 ≤ y * y * total m α p := mul_le_mul h5 h4 (energy_nonneg hm _) (by positivity)
  have e3 : t = x * x * α := by
    rw [e1]
    field_simp
  have h7 : (push (ν.prod (gauss J)) (hop G m s t α))^[N] (fun p => energy m p.2) p
      ≤ w * (y * total m α p + x * α * (speed J ν g a b lo hi S α + pull a hi α * (y * total m α p))) := by
    refine (h2.trans (add_le_add_left h6 _)).trans ?_
    rw [hw]
    have a1 : 0 ≤ x * (y * total m α p) := by positivity
    have a2 : 0 ≤ y * (x * α * (speed J ν g a b lo hi S α + pull a hi α * (y * total m α p))) := by positivity
    have e4 : t * (speed J ν g a b lo hi S α + pull a hi α * (y * total m α p))
        = x * (x * α * (speed J ν g a b lo hi S α + pull a hi α * (y * total m α p))) := by
      conv_lhs => rw [e3]
      ring
    rw [e4]
    linarith
  have h8 := mul_le_mul_of_nonneg_left h7 (by positivity : 0 ≤ hi / w)
  have e5 : hi / w * (w * (y * total m α p + x * α * (speed J ν g a b lo hi S α + pull a hi α * (y * total m α p))))
      = hi * (y * total m α p + x * α * (speed J ν g a b lo hi S α + pull a hi α * (y * total m α p))) := by
    field_simp
  rw [e5] at h8
  have h9 : hi * (x * α * (pull a hi α * (y * total m α p))) ≤ hi * (1 * α * (pull a hi α * (y * total m α p))) :=
    mul_le_mul_of_nonneg_left (mul_le_mul_of_nonneg_right (mul_le_mul_of_nonneg_right hs1 hα.le) (by positivity)) hh
  have h10 : 0 ≤ (hi * (1 + α * pull a hi α) + total m α p) * y := by positivity
  rw [hw] at h8 ⊢
  linarith

end Coasts

theorem rate_of_root {r l τ : ℝ} {n : Nat} (hn : UnitTime τ n) (hr0 : 0 < r) (hr1 : r < 1) (hτ : 0 < τ) (hl : l ≤ -Real.log r / 4) (j : Nat) :
    (r ^ (1 / n : ℝ)) ^ j ≤ Real.exp (-(l * τ)) ^ (2 * j) := by
  rw [pow_mul]
  refine pow_le_pow_left₀ (Real.rpow_nonneg hr0.le _) ?_ j
  rw [Real.rpow_def_of_pos hr0, ← Real.exp_nat_mul]
  refine Real.exp_le_exp.2 ?_
  have hlog : Real.log r < 0 := Real.log_neg hr0 hr1
  have hn0 : (0 : ℝ) < n := by exact_mod_cast hn.pos
  have h1 : τ / 2 ≤ 1 / (n : ℝ) := by
    rw [div_le_div_iff₀ two_pos hn0]
    have := hn.le
    linarith
  have h2 := mul_le_mul_of_nonpos_left h1 hlog.le
  have h3 := mul_le_mul_of_nonneg_right hl hτ.le
  push_cast
  linarith

theorem four_steps {x y z u v w d₀ d₁ d₂ d₃ : ℝ} (h0 : |x - w - y| ≤ d₀) (h1 : |y - z| ≤ d₁) (h2 : |z - u| ≤ d₂) (h3 : |v - w - u| ≤ d₃) :
    |x - v| ≤ d₀ + d₁ + d₂ + d₃ := by
  rw [abs_le] at *
  constructor <;> linarith [h0.1, h0.2, h1.1, h1.2, h2.1, h2.2, h3.1, h3.2]

set_option maxHeartbeats 1000000 in
/-- Along a run of SGHMC averages approach those over the posterior, at a rate that is proportional to the stepsize. -/
theorem Potential.coasts_uniform [Nonempty J] (h : Potential ν G U a b Λ g L lo hi S) (hα0 : 0 < α) (hα1 : α ≤ 1) (κ : ℝ) :
    ∃ c K C l : ℝ, IsProbabilityMeasure (boltz fun x => S * U x + c) ∧ 0 ≤ K ∧ 0 ≤ C ∧ 0 < l ∧
    ∀ {m s : J → ℝ} {t : ℝ} {π : Measure ((J → ℝ) × (J → ℝ))} [IsProbabilityMeasure π], Coasts ν G a Λ lo hi S α κ t m s π →
      ∀ {f : (J → ℝ) → ℝ} {A : ℝ}, 0 ≤ A → (∀ x y, |f x - f y| ≤ A * ‖x - y‖) →
      Dom (total m α) (fun p => f p.1) ∧ ∀ N p,
      |(push (ν.prod (gauss J)) (hop G m s t α))^[N] (fun p => f p.1) p - ∫ x, f x ∂boltz fun x => S * U x + c|
        ≤ A * (C * (1 + total m α p)) * Real.exp (-(l * (t / α) * N)) + A * (K * √(t / α)) := by
  have hs := h.toSmooth
  obtain ⟨c, hp⟩ := h.normalized
  obtain ⟨w, C', r, Γ, hΓ0, hr2, hr1, hmix⟩ := hs.mixes_uniform
  have hr0 : 0 < r := by linarith
  have h1r : 0 < 1 - r := by linarith
  have hlog : Real.log r < 0 := Real.log_neg hr0 hr1
  have hρ : 0 ≤ (1 - α) / α := div_nonneg (by linarith) hα0.le
  have hh0 : 0 ≤ hi := hs.lo_pos.le.trans hs.lo_hi
  set D := lag J ν g a b L lo hi S α κ with hD
  set V := speed J ν g a b lo hi S α with hV
  set W := 2 * Real.exp (2 * hi * L) + 4 * Γ * Harris.smoothing J ν g a b L lo hi S with hW
  have hsm : 0 ≤ Harris.smoothing J ν g a b L lo hi S := by
    have := hs.lo_pos
    have := hs.lip0
    unfold Harris.smoothing
    positivity
  have hW0 : 0 ≤ W := by positivity
  set Q := blockBias (J := J) ν U g a b Λ L lo hi S c with hQ
  have hpull := Coasts.pull_nonneg hs.conf.pos hh0 hα0
  set l := min (α * pace a lo α) (min (α / 4) (-Real.log r / 4)) with hl
  have hl0 : 0 < l := lt_min (mul_pos hα0 (pace_pos hs.conf.pos hs.lo_pos hα0)) (lt_min (by positivity) (by linarith))
  have hl1 : l ≤ α * pace a lo α := min_le_left _ _
  have hl2 : l ≤ α / 4 := (min_le_right _ _).trans (min_le_left _ _)
  have hl3 : l ≤ -Real.log r / 4 := (min_le_right _ _).trans (min_le_right _ _)
  have hdr : 0 ≤ Coasts.drag a L hi α := by
    unfold Coasts.drag
    positivity
  set D3 := 2 * ((1 + l) / l * Coasts.drag a L hi α + 4 / α * (4 * (hi * L * ((1 - α) / α)) ^ 2 * hi)) with hD3
  have hD30 : 0 ≤ D3 := by positivity
  set K₀ := (1 - α) / α * (1 + hi * V * α) + (1 + √hi) * (W * ((1 + l) / l * D) + 2 * Γ * Q / (1 - r)) with hK₀
  refine ⟨c, max 0 K₀, (1 - α) / α * (1 + hi * (1 + α * Coasts.pull a hi α)) + (1 + √hi) * (W * D3 + 2 * Γ), l, hp, le_max_left _ _, by positivity, hl0, ?_⟩
  intro m s t π _ C f A hA hf
  have T := C.tuned
  have hτ := T.t_pos
  have hm := T.mass_pos hs
  have hn := T.unit
  have hM := C.moves hs
  have hE' := T.moves_energy hs
  obtain ⟨X, hΓ, hK⟩ := hmix T hn
  obtain ⟨πh, hπp, hinv, hVπ, hπ⟩ := X.stationary
  have cf : Continuous f := (LipschitzWith.of_dist_le_mul (K := ⟨A, hA⟩) fun x y => by
    rw [dist_eq_norm, dist_eq_norm]; exact hf x y).continuous
  set φ : (J → ℝ) → ℝ := fun x => f x - f 0 with hφe
  have mφ : Measurable φ := cf.measurable.sub_const _
  have hA' : 0 ≤ A * (1 + √hi) := by positivity
  have lφ : ∀ x y, |φ x - φ y| ≤ A * ‖x - y‖ := fun x y => by
    simp only [hφe, sub_sub_sub_cancel_right]
    exact hf x y
  have lφ' : ∀ x y, |φ x - φ y| ≤ A * (1 + √hi) * ‖x - y‖ := fun x y => (lφ x y).trans <| by
    refine mul_le_mul_of_nonneg_right ?_ (norm_nonneg _)
    exact le_mul_of_one_le_right hA (by linarith [Real.sqrt_nonneg hi])
  have bφ : ∀ x, |φ x| ≤ A * (1 + √hi) * size m x := fun x => by
    have h1 := hf x 0
    rw [sub_zero] at h1
    refine h1.trans ?_
    rw [mul_assoc]
    exact mul_le_mul_of_nonneg_left ((norm_le_far x).trans (T.far_le_size hs x)) hA
  have hE : Dom (energy m) φ := T.size_le_energy hs (size_dom mφ hA' bφ)
  have hdif : ∀ p : (J → ℝ) × (J → ℝ), |φ p.1 - φ (slow α p)| ≤ A * ((1 - α) / α) * ‖p.2‖ := fun p => by
    refine (lφ _ _).trans (le_of_eq ?_)
    have e1 : p.1 - slow α p = (-((1 - α) / α)) • p.2 := by
      funext j
      simp only [Pi.sub_apply, Pi.smul_apply, smul_eq_mul, slow]
      ring
    rw [e1, norm_smul, Real.norm_eq_abs, abs_neg, abs_of_nonneg hρ, mul_assoc]
  have dS := C.slow_dom hs hE
  have dN := C.norm_dom hs
  have dφ : Dom (total m α) (fun p => φ p.1) := by
    obtain ⟨m1, a1, b1, ha1, hb1⟩ := dS
    obtain ⟨m2, a2, b2, ha2, hb2⟩ := dN
    refine ⟨mφ.comp measurable_fst, a1 + A * ((1 - α) / α) * a2, b1 + A * ((1 - α) / α) * b2, by positivity, fun p => ?_⟩
    have k1 := hdif p
    have k2 := hb1 p
    have k3 := hb2 p
    rw [abs_of_nonneg (norm_nonneg _)] at k3
    have k4 := mul_le_mul_of_nonneg_left k3 (by positivity : 0 ≤ A * ((1 - α) / α))
    have k5 : |φ p.1| ≤ |φ p.1 - φ (slow α p)| + |φ (slow α p)| := by
      have := abs_add_le (φ p.1 - φ (slow α p)) (φ (slow α p))
      rwa [sub_add_cancel] at this
    linarith
  have df : Dom (total m α) (fun p => f p.1) := by
    have k := Dom.affine dφ dφ 1 0 (f 0)
    have e : (fun p : (J → ℝ) × (J → ℝ) => f p.1) = fun p => 1 * φ p.1 + (0 * φ p.1 + f 0) := by
      funext p
      simp only [hφe]
      ring
    rw [e]
    exact k
  refine ⟨df, fun N p => ?_⟩
  have hT := total_nonneg (α := α) hm p
  set σ := Real.exp (-(l * (t / α))) with hσe
  have hσN : Real.exp (-(l * (t / α) * N)) = σ ^ N := by
    rw [hσe, ← Real.exp_nat_mul]
    congr 1
    ring
  have hσ0 : 0 < σ := Real.exp_pos _
  have hlt : l * (t / α) ≤ α / 4 := (mul_le_of_le_one_right hl0.le T.t_le).trans hl2
  have hσα : 1 - α / 4 ≤ σ := by linarith [Real.add_one_le_exp (-(l * (t / α)))]
  have hσ1 : σ < 1 := Real.exp_lt_one_iff.2 (by linarith [mul_pos hl0 hτ])
  have hρσ := fun j => rate_of_root hn hr0 hr1 hτ hl3 j
  rw [← hσe] at hρσ
  have hv : ∀ j : Nat, Varies 0 (A * (1 + √hi) * W * σ ^ (2 * j)) ((avg ν G m S (t / α))^[j] φ) := fun j => by
    refine (T.varies_all hs hn X hΓ hr2 hr1 hinv hVπ hπ mφ hA' bφ lφ' j).mono ?_
    rw [← hW]
    exact mul_le_mul_of_nonneg_left (hρσ j) (mul_nonneg hA' hW0)
  have t1 := C.follows hs hl0 hl1 hl2 (mul_nonneg hA' hW0) hE hv N p
  rw [← hD, ← hD3, ← hσe] at t1
  have t2 : |(avg ν G m S (t / α))^[N] φ (slow α p) - ∫ y, φ y ∂πh| ≤ A * (1 + √hi) * (2 * Γ) * (1 + total m α p) * σ ^ N := by
    have h1 := X.geometric hinv hVπ hπ mφ hA' (fun x => (bφ x).trans (mul_le_mul_of_nonneg_left (by linarith) hA')) N (slow α p)
    rw [hΓ] at h1
    refine h1.trans ?_
    have k1 : size m (slow α p) ≤ 1 + total m α p := by
      have k2 : energy m (slow α p) ≤ total m α p := le_add_of_nonneg_right (energy_nonneg hm _)
      have k3 := energy_nonneg hm (slow α p)
      unfold size
      refine (Real.sqrt_le_iff.2 ⟨by linarith, ?_⟩ : √(1 + energy m (slow α p)) ≤ 1 + energy m (slow α p)).trans (by linarith)
      nlinarith
    have k2 : 1 + size m (slow α p) ≤ 2 * (1 + total m α p) := by linarith
    have k3 : (r ^ (1 / (⌈1 / (t / α)⌉₊ : ℝ))) ^ N ≤ σ ^ N := by
      refine (hρσ N).trans ?_
      exact pow_le_pow_of_le_one hσ0.le hσ1.le (by omega)
    have k4 := mul_le_mul k2 k3 (pow_nonneg X.rate_nonneg N) (by linarith)
    have k5 := mul_le_mul_of_nonneg_left k4 (mul_nonneg hA' hΓ0)
    refine le_trans (le_of_eq ?_) (k5.trans (le_of_eq ?_)) <;> ring
  have t3 := h.stationary_near (c := c) T hn X hΓ hr0 hr1 hinv hVπ hπ mφ hA' bφ
  rw [← hQ] at t3
  have t0 : |(push (ν.prod (gauss J)) (hop G m s t α))^[N] (fun p => φ p.1) p - (push (ν.prod (gauss J)) (hop G m s t α))^[N] (fun p => φ (slow α p)) p|
      ≤ A * ((1 - α) / α) * (√(t / α) * (1 + hi * V * α) + (1 + hi * (1 + α * Coasts.pull a hi α)) * (1 + total m α p) * σ ^ N) := by
    have d1 := Dom.affine dφ dS 1 (-1) 0
    have d2 := Dom.affine dN dN (A * ((1 - α) / α)) 0 0
    have k1 := hM.many_abs d1 d2 (fun p => by
      have k2 := hdif p
      have e1 : 1 * φ p.1 + (-1 * φ (slow α p) + 0) = φ p.1 - φ (slow α p) := by ring
      rw [e1]
      linarith) N p
    rw [hM.many_affine dφ dS, hM.many_affine dN dN] at k1
    beta_reduce at k1
    have k3 := mul_le_mul_of_nonneg_left (C.norm_many hs (C.slow_rate hs hl1) hσα N p) (by positivity : 0 ≤ A * ((1 - α) / α))
    rw [← hV, ← hσe] at k3
    have e1 : ∀ x y : ℝ, 1 * x + (-1 * y + 0) = x - y := fun x y => by ring
    rw [e1] at k1
    linarith
  have e1 : (push (ν.prod (gauss J)) (hop G m s t α))^[N] (fun p => φ p.1) p = (push (ν.prod (gauss J)) (hop G m s t α))^[N] (fun p => f p.1) p - f 0 := by
    have k := hM.many_affine df df 1 0 (-f 0) N
    have e : (fun p : (J → ℝ) × (J → ℝ) => φ p.1) = fun p => 1 * f p.1 + (0 * f p.1 + -f 0) := by
      funext p
      simp only [hφe]
      ring
    rw [e, k]
    ring
  have i2 : Integrable φ (boltz fun x => S * U x + c) := hE.integrable (h.energy_integrable T c)
  have i3 : Integrable f (boltz fun x => S * U x + c) := (i2.add (integrable_const (f 0))).congr (.of_forall fun p => by simp [hφe])
  have e2 : ∫ x, φ x ∂(boltz fun x => S * U x + c) = ∫ x, f x ∂(boltz fun x => S * U x + c) - f 0 := by
    simp only [hφe]
    rw [integral_sub i3 (integrable_const _)]
    simp
  rw [e2] at t3
  rw [e1] at t0
  have hmax := le_max_right 0 K₀
  have h5 := mul_le_mul_of_nonneg_left (mul_le_mul_of_nonneg_right hmax (Real.sqrt_nonneg (t / α))) hA
  refine le_trans ?_ (add_le_add_right h5 _)
  rw [hσN]
  have t1' : A * (1 + √hi) * W * D3 * total m α p * σ ^ N ≤ A * (1 + √hi) * W * D3 * (1 + total m α p) * σ ^ N := by
    refine mul_le_mul_of_nonneg_right (mul_le_mul_of_nonneg_left (by linarith) ?_) (pow_nonneg hσ0.le N)
    positivity
  have h6 : |(push (ν.prod (gauss J)) (hop G m s t α))^[N] (fun p => f p.1) p - ∫ x, f x ∂boltz fun x => S * U x + c|
      ≤ A * ((1 - α) / α) * (√(t / α) * (1 + hi * V * α) + (1 + hi * (1 + α * Coasts.pull a hi α)) * (1 + total m α p) * σ ^ N)
        + (A * (1 + √hi) * W * ((1 + l) / l * D) * √(t / α) + A * (1 + √hi) * W * D3 * (1 + total m α p) * σ ^ N)
        + A * (1 + √hi) * (2 * Γ) * (1 + total m α p) * σ ^ N + √(t / α) * (2 * (A * (1 + √hi)) * Γ * Q / (1 - r)) := by
    exact four_steps t0 (t1.trans (add_le_add_right t1' _)) t2 t3
  refine h6.trans (le_of_eq ?_)
  rw [hK₀]
  ring

/-! ## Averages over a run -/

section run
variable {E Z : Type*} [MeasurableSpace E] [MeasurableSpace Z] {k : Measure Z} [IsProbabilityMeasure k] {Ψ : E → Z → E} {V : E → ℝ} {γ K : ℝ}
  {u v : E → ℝ} {Ω : Type*} [MeasurableSpace Ω] {P : Measure Ω} [IsProbabilityMeasure P] {ζ : Nat → Ω → Z} {X : Nat → Ω → E} {x₀ : E}

/-- Averages over several samples with covariances that fall to a small number. -/
theorem average_near {Y : Nat → Ω → ℝ} {C ρ d : ℝ} (hρ0 : 0 ≤ ρ) (hρ1 : ρ < 1) (hC : 0 ≤ C)
    (h : ∀ j n, Integrable (fun ω => Y j ω * Y (j + n) ω) P ∧ ∫ ω, Y j ω * Y (j + n) ω ∂P ≤ C * ρ ^ n + d) {I : Finset Nat} (hI : I.Nonempty) :
    Integrable (fun ω => ((∑ k ∈ I, Y k ω) / I.card) ^ 2) P ∧ ∫ ω, ((∑ k ∈ I, Y k ω) / I.card) ^ 2 ∂P ≤ C * (2 / (1 - ρ)) / I.card + d := by
  have hsym : ∀ j k, Integrable (fun ω => Y j ω * Y k ω) P ∧ ∫ ω, Y j ω * Y k ω ∂P ≤ C * ρ ^ (max j k - min j k) + d := fun j k => by
    rcases le_total j k with hjk | hjk
    · have := h j (k - j)
      rw [Nat.add_sub_cancel' hjk] at this
      rwa [max_eq_right hjk, min_eq_left hjk]
    · have := h k (j - k)
      rw [Nat.add_sub_cancel' hjk] at this
      rw [max_eq_left hjk, min_eq_right hjk]
      simpa only [mul_comm] using this
  have hc : (0 : ℝ) < I.card := by exact_mod_cast hI.card_pos
  have e : (fun ω => ((∑ k ∈ I, Y k ω) / (I.card : ℝ)) ^ 2) = fun ω => (∑ j ∈ I, ∑ k ∈ I, Y j ω * Y k ω) / (I.card : ℝ) ^ 2 := by
    funext ω
    rw [div_pow, pow_two, Finset.sum_mul_sum]
  have hi : Integrable (fun ω => ∑ j ∈ I, ∑ k ∈ I, Y j ω * Y k ω) P :=
    integrable_finsetSum _ fun j _ => integrable_finsetSum _ fun k _ => (hsym j k).1
  rw [e]
  refine ⟨hi.div_const _, ?_⟩
  rw [integral_div, integral_finsetSum _ fun j _ => integrable_finsetSum _ fun k _ => (hsym j k).1]
  have hb : ∑ j ∈ I, ∫ ω, ∑ k ∈ I, Y j ω * Y k ω ∂P ≤ I.card * (C * (2 / (1 - ρ)) + I.card * d) := by
    rw [← nsmul_eq_mul]
    refine Finset.sum_le_card_nsmul _ _ _ fun j _ => ?_
    rw [integral_finsetSum _ fun k _ => (hsym j k).1]
    refine (Finset.sum_le_sum fun k _ => (hsym j k).2).trans ?_
    rw [Finset.sum_add_distrib, ← Finset.mul_sum, Finset.sum_const, nsmul_eq_mul]
    exact add_le_add (mul_le_mul_of_nonneg_left (sum_pow_dist hρ0 hρ1 I j) hC) le_rfl
  rw [div_le_iff₀ (by positivity)]
  refine hb.trans (le_of_eq ?_)
  field_simp

theorem push_bounded (hΨ : Measurable fun q : E × Z => Ψ q.1 q.2) {A : ℝ} (hv : Measurable v) (hb : ∀ x, |v x| ≤ A) :
    Measurable (push k Ψ v) ∧ ∀ x, |push k Ψ v x| ≤ A := by
  constructor
  · have h1 : StronglyMeasurable (Function.uncurry fun x ζ => v (Ψ x ζ)) := (hv.comp hΨ).stronglyMeasurable
    exact h1.integral_prod_right.measurable
  · intro x
    have h1 := norm_integral_le_of_norm_le (μ := k) (f := fun z => v (Ψ x z)) (integrable_const A) (.of_forall fun z => hb _)
    rw [integral_const, probReal_univ, one_smul] at h1
    exact h1

/-- The Markov property for bounded functions. -/
theorem markov_bounded (hΨ : Measurable fun q : E × Z => Ψ q.1 q.2) (hζ : ∀ k, Measurable (ζ k)) (hi : iIndepFun ζ P)
    (hlaw : ∀ i, P.map (ζ i) = k) (h0 : ∀ ω, X 0 ω = x₀) (hX : ∀ k ω, X (k + 1) ω = Ψ (X k ω) (ζ k ω)) {A B : ℝ} (hu : Measurable u)
    (hub : ∀ x, |u x| ≤ A) (hv : Measurable v) (hvb : ∀ x, |v x| ≤ B) (j n : Nat) :
    ∫ ω, u (X j ω) * v (X (j + n) ω) ∂P = ∫ ω, u (X j ω) * (push k Ψ)^[n] v (X j ω) ∂P := by
  have hm : ∀ k, Measurable (X k) := fun k => (chain_law hΨ hζ hi hlaw h0 hX k).1
  induction n generalizing v with
  | zero => rfl
  | succ n ih =>
    obtain ⟨p1, p2⟩ := push_bounded (k := k) hΨ hv hvb
    rw [Function.iterate_succ_apply, ← ih p1 p2, ← Nat.add_assoc]
    refine markov_step hΨ hζ hi hlaw h0 hX (Nat.le_add_right j n) hu hv ?_
    refine (integrable_const (A * B)).mono' ((hu.comp (hm j)).mul (hv.comp (hm _))).aestronglyMeasurable (.of_forall fun ω => ?_)
    rw [Real.norm_eq_abs, abs_mul]
    exact mul_le_mul (hub _) (hvb _) (abs_nonneg _) ((abs_nonneg _).trans (hub (X j ω)))

/-- Averages along a run, from averages for any start. -/
theorem Moves.run (h : Moves k Ψ V γ K) (hζ : ∀ k, Measurable (ζ k)) (hi : iIndepFun ζ P) (hlaw : ∀ i, P.map (ζ i) = k)
    (h0 : ∀ ω, X 0 ω = x₀) (hX : ∀ k ω, X (k + 1) ω = Ψ (X k ω) (ζ k ω)) (hu : Dom V u) (n : Nat) :
    Integrable (fun ω => u (X n ω)) P ∧ ∫ ω, u (X n ω) ∂P = (push k Ψ)^[n] u x₀ := by
  have hV0 : Integrable V (Measure.dirac x₀) := integrable_dirac' h.measV.stronglyMeasurable (by simp)
  obtain ⟨hm, hl⟩ := chain_law h.meas hζ hi hlaw h0 hX n
  obtain ⟨_, h2, h3⟩ := h.laws hV0 n hu
  rw [← hl] at h2 h3
  rw [integral_map hm.aemeasurable hu.1.aestronglyMeasurable, integral_dirac' _ _ (hu.iterate h n).1.stronglyMeasurable] at h3
  exact ⟨(integrable_map_measure hu.1.aestronglyMeasurable hm.aemeasurable).1 h2, h3⟩

/-- Averages over several samples of one run. -/
theorem Moves.run_average (h : Moves k Ψ V γ K) (hζ : ∀ k, Measurable (ζ k)) (hi : iIndepFun ζ P) (hlaw : ∀ i, P.map (ζ i) = k)
    (h0 : ∀ ω, X 0 ω = x₀) (hX : ∀ k ω, X (k + 1) ω = Ψ (X k ω) (ζ k ω)) {A q d σ W : ℝ} (hA : 0 ≤ A) (hq : 0 ≤ q) (hσ0 : 0 ≤ σ) (hσ1 : σ < 1)
    (hu : Measurable u) (hub : ∀ x, |u x| ≤ 2 * A) (hnear : ∀ n x, |(push k Ψ)^[n] u x| ≤ A * (q * (1 + V x)) * σ ^ n + A * d)
    (hW : ∀ n, (push k Ψ)^[n] V x₀ ≤ W) {I : Finset Nat} (hI : I.Nonempty) :
    Integrable (fun ω => ((∑ k ∈ I, u (X k ω)) / I.card) ^ 2) P ∧
    ∫ ω, ((∑ k ∈ I, u (X k ω)) / I.card) ^ 2 ∂P ≤ A ^ 2 * (2 * q * (1 + W)) * (2 / (1 - σ)) / I.card + A ^ 2 * (2 * d) := by
  have hm : ∀ k, Measurable (X k) := fun k => (chain_law h.meas hζ hi hlaw h0 hX k).1
  have hW0 : 0 ≤ W := le_trans (by simpa using h.nonneg x₀) (hW 0)
  refine average_near hσ0 hσ1 (by positivity) (fun j n => ⟨?_, ?_⟩) hI
  · refine (integrable_const (2 * A * (2 * A))).mono' ((hu.comp (hm j)).mul (hu.comp (hm _))).aestronglyMeasurable (.of_forall fun ω => ?_)
    rw [Real.norm_eq_abs, abs_mul]
    exact mul_le_mul (hub _) (hub _) (abs_nonneg _) (by positivity)
  · rw [markov_bounded h.meas hζ hi hlaw h0 hX hu hub hu hub j n]
    have h1 := h.run hζ hi hlaw h0 hX h.self_dom j
    have hpt : ∀ ω, u (X j ω) * (push k Ψ)^[n] u (X j ω) ≤ 2 * A * (A * (q * (1 + V (X j ω))) * σ ^ n + A * d) := fun ω => by
      refine (le_abs_self _).trans ?_
      rw [abs_mul]
      exact mul_le_mul (hub _) (hnear n _) (abs_nonneg _) (by positivity)
    have i1 : Integrable (fun ω => 2 * A * (A * (q * (1 + V (X j ω))) * σ ^ n + A * d)) P := by
      refine ((((((integrable_const (1 : ℝ)).add h1.1).const_mul q).const_mul A).mul_const (σ ^ n)).add (integrable_const (A * d))).const_mul (2 * A) |>.congr
        (.of_forall fun ω => ?_)
      simp
    have i2 : Integrable (fun ω => u (X j ω) * (push k Ψ)^[n] u (X j ω)) P := by
      have hp : Measurable ((push k Ψ)^[n] u) ∧ ∀ x, |(push k Ψ)^[n] u x| ≤ 2 * A := by
        clear hnear hpt i1
        induction n with
        | zero => exact ⟨hu, hub⟩
        | succ n ih =>
          rw [Function.iterate_succ_apply']
          exact push_bounded h.meas ih.1 ih.2
      refine (integrable_const (2 * A * (2 * A))).mono' ((hu.comp (hm j)).mul (hp.1.comp (hm _))).aestronglyMeasurable (.of_forall fun ω => ?_)
      rw [Real.norm_eq_abs, abs_mul]
      exact mul_le_mul (hub _) (hp.2 _) (abs_nonneg _) (by positivity)
    refine (integral_mono i2 i1 hpt).trans ?_
    have e1 : ∫ ω, 2 * A * (A * (q * (1 + V (X j ω))) * σ ^ n + A * d) ∂P = 2 * A * (A * (q * (1 + ∫ ω, V (X j ω) ∂P)) * σ ^ n + A * d) := by
      have a1 : Integrable (fun ω => 1 + V (X j ω)) P := (integrable_const 1).add h1.1
      rw [integral_const_mul, integral_add (((a1.const_mul q).const_mul A).mul_const _) (integrable_const _), integral_mul_const, integral_const_mul,
        integral_const_mul, integral_add (integrable_const 1) h1.1]
      simp
    rw [e1, h1.2]
    have h2 := mul_le_mul_of_nonneg_left (hW j) (by positivity : 0 ≤ 2 * A * A * q * σ ^ n)
    refine le_trans (le_of_eq ?_) ((add_le_add_left h2 (2 * A * A * q * σ ^ n + 2 * A * A * d)).trans (le_of_eq ?_)) <;> ring

end run

set_option maxHeartbeats 400000 in
/-- Runs of SGHMC approach the posterior at a rate that is proportional to the stepsize. -/
theorem Potential.coasts_runs [Nonempty J] (h : Potential ν G U a b Λ g L lo hi S) (hα0 : 0 < α) (hα1 : α ≤ 1) (κ : ℝ) :
    ∃ c K C l : ℝ, IsProbabilityMeasure (boltz fun x => S * U x + c) ∧ 0 ≤ K ∧ 0 ≤ C ∧ 0 < l ∧
    ∀ {m s : J → ℝ} {t : ℝ} {π : Measure ((J → ℝ) × (J → ℝ))} [IsProbabilityMeasure π], Coasts ν G a Λ lo hi S α κ t m s π →
      ∀ {Ω : Type} [MeasurableSpace Ω] (P : Measure Ω) [IsProbabilityMeasure P] (ζ : Nat → Ω → Bt × (J → ℝ))
        (X : Nat → Ω → (J → ℝ) × (J → ℝ)) (x₀ : (J → ℝ) × (J → ℝ)),
        (∀ k, Measurable (ζ k)) → iIndepFun ζ P → (∀ k, P.map (ζ k) = ν.prod (gauss J)) → (∀ ω, X 0 ω = x₀) →
        (∀ k ω, X (k + 1) ω = hop G m s t α (X k ω) (ζ k ω)) →
      ∀ {f : (J → ℝ) → ℝ} {A : ℝ}, 0 ≤ A → (∀ x y, |f x - f y| ≤ A * ‖x - y‖) →
      (∀ k : Nat, Integrable (fun ω => f (X k ω).1) P ∧ |∫ ω, f (X k ω).1 ∂P - ∫ x, f x ∂boltz fun x => S * U x + c|
        ≤ A * (C * (1 + size2 x₀)) * Real.exp (-(l * (t / α) * k)) + A * (K * √(t / α)))
      ∧ ((∀ x, |f x| ≤ A) → ∀ {I : Finset Nat}, I.Nonempty →
        Integrable (fun ω => ((∑ k ∈ I, f (X k ω).1) / I.card - ∫ x, f x ∂boltz fun x => S * U x + c) ^ 2) P ∧
        ∫ ω, ((∑ k ∈ I, f (X k ω).1) / I.card - ∫ x, f x ∂boltz fun x => S * U x + c) ^ 2 ∂P
          ≤ A ^ 2 * (C * (1 + size2 x₀)) / (I.card * (t / α)) + A ^ 2 * (K * √(t / α))) := by
  obtain ⟨c, K, C, l, hp, hK, hC, hl, hU⟩ := h.coasts_uniform hα0 hα1 κ
  have hs := h.toSmooth
  have hlo := hs.lo_pos
  set W := glow J ν g a b S α / pace a lo α with hW
  have hW0 : 0 ≤ W := div_nonneg (glow_nonneg hs.conf hs.S_pos hα0) (pace_pos hs.conf.pos hlo hα0).le
  set R := (2 + 2 * ((1 - α) / α) ^ 2) / lo with hR
  have hR0 : 0 ≤ R := by positivity
  have hE : 0 ≤ (1 + l) / l := by positivity
  refine ⟨c, 2 * K, C * (1 + R) + 4 * C * (1 + W) * (1 + R) * ((1 + l) / l), l, hp, by positivity, by positivity, hl, ?_⟩
  intro m s t π _ Co Ω _ P _ ζ X x₀ hζ hi hlaw h0 hX f A hA hf
  obtain ⟨hd, hn⟩ := hU Co hA hf
  have hM := Co.moves hs
  have T := Co.tuned
  have hτ := T.t_pos
  have hm := T.mass_pos hs
  have hT := total_nonneg (α := α) hm x₀
  have hz : 0 ≤ size2 x₀ := add_nonneg (Finset.sum_nonneg fun j _ => sq_nonneg _) (Finset.sum_nonneg fun j _ => sq_nonneg _)
  have hT2 : total m α x₀ ≤ R * size2 x₀ := by
    have := le_size2 (α := α) hm hlo T.lo_le x₀
    rw [hR, div_mul_eq_mul_div, le_div_iff₀ hlo]
    rw [div_mul_eq_mul_div, div_le_iff₀ (by positivity)] at this
    linarith
  have hT3 : 1 + total m α x₀ ≤ (1 + R) * (1 + size2 x₀) := by nlinarith
  have hs0 : 0 ≤ √(t / α) := Real.sqrt_nonneg _
  set z := ∫ x, f x ∂boltz fun x => S * U x + c with hz'
  refine ⟨fun k => ?_, fun hfb I hI => ?_⟩
  · obtain ⟨i1, e1⟩ := hM.run hζ hi hlaw h0 hX hd k
    refine ⟨i1, ?_⟩
    rw [e1]
    refine (hn k x₀).trans ?_
    have h1 : C * (1 + total m α x₀) ≤ (C * (1 + R) + 4 * C * (1 + W) * (1 + R) * ((1 + l) / l)) * (1 + size2 x₀) := by
      have a1 := mul_le_mul_of_nonneg_left hT3 hC
      have a2 : 0 ≤ 4 * C * (1 + W) * (1 + R) * ((1 + l) / l) * (1 + size2 x₀) := by positivity
      linarith
    refine add_le_add (mul_le_mul_of_nonneg_right (mul_le_mul_of_nonneg_left h1 hA) (Real.exp_pos _).le) (mul_le_mul_of_nonneg_left ?_ hA)
    have := mul_nonneg hK hs0
    linarith
  · have cf : Continuous f := (LipschitzWith.of_dist_le_mul (K := ⟨A, hA⟩) fun x y => by
      rw [dist_eq_norm, dist_eq_norm]; exact hf x y).continuous
    have hzA : |z| ≤ A := by
      have h1 := norm_integral_le_of_norm_le (μ := boltz fun x => S * U x + c) (f := f) (integrable_const A) (.of_forall hfb)
      rw [integral_const, probReal_univ, one_smul] at h1
      exact h1
    set σ := Real.exp (-(l * (t / α))) with hσ
    have hσN : ∀ n : Nat, Real.exp (-(l * (t / α) * n)) = σ ^ n := fun n => by
      rw [hσ, ← Real.exp_nat_mul]
      congr 1
      ring
    have hσ1 : σ < 1 := Real.exp_lt_one_iff.2 (by linarith [mul_pos hl hτ])
    have hmany : ∀ n p, (push (ν.prod (gauss J)) (hop G m s t α))^[n] (fun p => f p.1 - z) p
        = (push (ν.prod (gauss J)) (hop G m s t α))^[n] (fun p => f p.1) p - z := fun n p => by
      have k := hM.many_affine hd hd 1 0 (-z) n
      have e : (fun p : (J → ℝ) × (J → ℝ) => f p.1 - z) = fun p => 1 * f p.1 + (0 * f p.1 + -z) := by
        funext p
        ring
      rw [e, k]
      ring
    have h1 := hM.run_average hζ hi hlaw h0 hX (u := fun p => f p.1 - z) (d := K * √(t / α)) hA hC (Real.exp_pos (-(l * (t / α)))).le hσ1
      ((cf.measurable.comp measurable_fst).sub_const z) (fun p => by
        have a1 := abs_sub (f p.1) z
        have a2 := hfb p.1
        linarith) (fun n p => by
        rw [hmany, ← hσ, ← hσN]
        exact hn n p) (W := total m α x₀ + W) (fun n => by
        have a1 := Co.total_many hs (le_refl (slowing a t lo α)) n x₀
        have a2 := mul_le_mul_of_nonneg_right (pow_le_one₀ hM.gamma hM.lt_one.le : slowing a t lo α ^ n ≤ 1) hT
        rw [← hW] at a1
        linarith) hI
    have hc : (0 : ℝ) < I.card := by exact_mod_cast hI.card_pos
    have e1 : ∀ ω, (∑ k ∈ I, (f (X k ω).1 - z)) / (I.card : ℝ) = (∑ k ∈ I, f (X k ω).1) / I.card - z := fun ω => by
      rw [Finset.sum_sub_distrib, Finset.sum_const, nsmul_eq_mul]
      field_simp
    simp only [e1] at h1
    refine ⟨h1.1, h1.2.trans ?_⟩
    refine add_le_add ?_ (le_of_eq (by ring))
    rw [← hσ]
    have hrate := rate_le hl hτ T.t_le
    rw [← hσ] at hrate
    have h2 : 2 / (1 - σ) ≤ 2 * ((1 + l) / l) / (t / α) := by
      rw [le_div_iff₀ hτ]
      have : 2 / (1 - σ) * (t / α) = 2 * (t / α / (1 - σ)) := by ring
      rw [this]
      linarith
    have h3 : 1 + (total m α x₀ + W) ≤ (1 + W) * ((1 + R) * (1 + size2 x₀)) := by
      have a1 := mul_le_mul_of_nonneg_left hT3 (by linarith : 0 ≤ 1 + W)
      have a2 := mul_nonneg hW0 hT
      linarith
    have h4 : 2 * C * (1 + (total m α x₀ + W)) * (2 / (1 - σ)) ≤ 2 * C * ((1 + W) * ((1 + R) * (1 + size2 x₀))) * (2 * ((1 + l) / l) / (t / α)) := by
      refine mul_le_mul (mul_le_mul_of_nonneg_left h3 (by positivity)) h2 (div_nonneg two_pos.le (by linarith)) (by positivity)
    have h5 := mul_le_mul_of_nonneg_left h4 (sq_nonneg A)
    have h6 := div_le_div_of_nonneg_right h5 hc.le
    rw [← mul_assoc (A ^ 2)] at h6
    refine h6.trans ?_
    have e2 : A ^ 2 * (2 * C * ((1 + W) * ((1 + R) * (1 + size2 x₀))) * (2 * ((1 + l) / l) / (t / α))) / I.card
        = A ^ 2 * (4 * C * (1 + W) * (1 + R) * ((1 + l) / l) * (1 + size2 x₀)) / (I.card * (t / α)) := by
      field_simp
      ring
    rw [e2]
    refine div_le_div_of_nonneg_right (mul_le_mul_of_nonneg_left (mul_le_mul_of_nonneg_right ?_ (by linarith)) (sq_nonneg A)) (by positivity)
    have : 0 ≤ C * (1 + R) := by positivity
    linarith

end PySGMCMC.Harris
