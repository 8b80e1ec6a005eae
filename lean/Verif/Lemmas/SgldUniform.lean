import Verif.Lemmas.BatchShift

/-!
# SGLD and the posterior, whatever the stepsize

The chain forgets where it started at a rate that is uniform in the stepsize, and its stationary law is near the posterior.
-/

open MeasureTheory ProbabilityTheory Filter Topology
namespace PySGMCMC.Harris
open Confining Moves Mixes Recipe Langevin
set_option linter.unusedSectionVars false

variable {J : Type} [Fintype J] [DecidableEq J] {Bt : Type} [MeasurableSpace Bt] {ν : Measure Bt} [IsProbabilityMeasure ν]
  {G : Bt → (J → ℝ) → J → ℝ} {a b Λ L lo hi S t c : ℝ} {g : Bt → ℝ} {m : J → ℝ} {φ : (J → ℝ) → ℝ} {U : (J → ℝ) → ℝ} {n : Nat}

/-- Numbers of steps that make up one unit of time. -/
structure UnitTime (t : ℝ) (n : Nat) : Prop where
  pos : 0 < n
  ge : 1 ≤ n * t
  le : n * t ≤ 2

theorem Tuned.unit (T : Tuned a Λ lo hi m t) : UnitTime t ⌈1 / t⌉₊ := by
  have ht := T.t_pos
  refine ⟨Nat.ceil_pos.2 (by positivity), ?_, ?_⟩
  · have := Nat.le_ceil (1 / t)
    rwa [div_le_iff₀ ht] at this
  · have := Nat.ceil_lt_add_one (by positivity : 0 ≤ 1 / t)
    have h2 := mul_lt_mul_of_pos_right this ht
    rw [add_mul, div_mul_cancel₀ _ ht.ne'] at h2
    linarith [T.t_le]

/-! ## Distances -/

namespace Tuned
variable (T : Tuned a Λ lo hi m t) (h : Smooth ν G a b Λ g L lo hi S)
include T h

theorem norm_le_size (x : J → ℝ) : ‖x‖ ≤ √hi * size m x := by
  have hm := T.mass_pos h
  have hh := T.hi_nonneg h
  unfold size
  rw [← Real.sqrt_mul hh]
  refine (pi_norm_le_iff_of_nonneg (Real.sqrt_nonneg _)).2 fun j => Real.abs_le_sqrt ?_
  have h1 := sq_le_energy hm T.le_hi x
  have h2 := Finset.single_le_sum (f := fun j => x j ^ 2) (fun j _ => sq_nonneg _) (Finset.mem_univ j)
  linarith

theorem far_le_size (x : J → ℝ) : far x ≤ (1 + √hi) * size m x := by
  have := T.norm_le_size h x
  have := one_le_size (T.mass_pos h) x
  unfold far
  linarith

theorem size_le_far (x : J → ℝ) : size m x ≤ (1 + Fintype.card J / lo) * far x := by
  have hm := T.mass_pos h
  have hlo := h.lo_pos
  have h1 := energy_le_sq hm T.lo_le x
  have h2 : ∑ j, x j ^ 2 ≤ Fintype.card J * ‖x‖ ^ 2 := by
    have : ∀ j, x j ^ 2 ≤ ‖x‖ ^ 2 := fun j => by
      rw [← sq_abs]
      exact pow_le_pow_left₀ (abs_nonneg _) (norm_le_pi_norm x j) 2
    refine (Finset.sum_le_sum fun j _ => this j).trans (le_of_eq ?_)
    rw [Finset.sum_const, nsmul_eq_mul, Finset.card_univ]
  have h3 : energy m x ≤ Fintype.card J / lo * ‖x‖ ^ 2 := by
    rw [div_mul_eq_mul_div, le_div_iff₀ hlo]
    linarith
  set q := Fintype.card J / lo with hq
  have hq0 : 0 ≤ q := by positivity
  unfold size
  refine Real.sqrt_le_iff.2 ⟨by have := far_pos x; positivity, ?_⟩
  have hn := norm_nonneg x
  have h4 : 1 + q * ‖x‖ ^ 2 ≤ ((1 + q) * far x) ^ 2 := by
    unfold far
    have e : ((1 + q) * (1 + ‖x‖)) ^ 2 = 1 + q * ‖x‖ ^ 2 + (2 * ‖x‖ + ‖x‖ ^ 2 + q * (2 + 4 * ‖x‖ + ‖x‖ ^ 2) + q ^ 2 * (1 + ‖x‖) ^ 2) := by ring
    rw [e]
    have : 0 ≤ 2 * ‖x‖ + ‖x‖ ^ 2 + q * (2 + 4 * ‖x‖ + ‖x‖ ^ 2) + q ^ 2 * (1 + ‖x‖) ^ 2 := by positivity
    linarith
  linarith

/-! ## Runs from two starts -/

theorem decay_le : t * min 1 (a * lo) ≤ 1 - decay a t lo := by
  have ht := T.t_pos
  have ha := h.conf.pos
  have hlo := h.lo_pos
  unfold decay
  rcases le_total 0 (1 - t * a * lo) with h3 | h3
  · rw [max_eq_right h3]
    have := mul_le_mul_of_nonneg_left (min_le_right 1 (a * lo)) ht.le
    linarith
  · rw [max_eq_left h3]
    have := mul_le_mul_of_nonneg_left (min_le_left 1 (a * lo)) ht.le
    linarith [T.t_le]

theorem settles (hn : UnitTime t n) {R δ : ℝ} (hR : 2 * (1 + level J ν g a b lo S) < (1 - Real.exp (-(min 1 (a * lo) / 2))) * R) (hδ : 0 < δ) (h1 : δ ≤ 1) :
    Settles ((1 + decay a t lo) / 2) ((1 - decay a t lo) * (1 + level J ν g a b lo S) / 2) n (Real.exp (-(min 1 (a * lo) / 2)))
      (1 + level J ν g a b lo S) R δ := by
  have ha := h.conf.pos
  have hlo := h.lo_pos
  have hd := decay_lt ha T.t_pos hlo
  have hmin : 0 < min 1 (a * lo) := lt_min one_pos (by positivity)
  refine ⟨?_, Real.exp_lt_one_iff.2 (by linarith), le_of_eq ?_, hR, hδ, h1⟩
  · have h2 : (1 + decay a t lo) / 2 ≤ Real.exp (-((1 - decay a t lo) / 2)) := by
      have := Real.add_one_le_exp (-((1 - decay a t lo) / 2))
      linarith
    have h0 : 0 ≤ (1 + decay a t lo) / 2 := by
      have : 0 ≤ decay a t lo := le_max_left _ _
      linarith
    refine (pow_le_pow_left₀ h0 h2 n).trans ?_
    rw [← Real.exp_nat_mul]
    refine Real.exp_le_exp.2 ?_
    have h3 := mul_le_mul_of_nonneg_left (T.decay_le h) (Nat.cast_nonneg (α := ℝ) n)
    have h4 := mul_le_mul_of_nonneg_right hn.ge hmin.le
    linarith
  · have : 1 - decay a t lo ≠ 0 := by linarith
    have e : 1 - (1 + decay a t lo) / 2 = (1 - decay a t lo) / 2 := by ring
    rw [e]
    field_simp

theorem pairs (hn : UnitTime t n) {R : ℝ} (hR : 0 ≤ R) :
    Pairs (ν.prod (gauss J)) (langevin G m (sig m S t) t) (size m) n R (1 / (4 * Real.exp (toll J L lo hi S * (2 * (√hi * R)) ^ 2))) := by
  intro x y hx hy φ hφ hφ1
  have hV := T.moves_size h
  have hto := T.toll_nonneg h
  have hd : ∀ {f : (J → ℝ) → ℝ}, Measurable f → (∀ z, |f z| ≤ 1) → Dom (size m) f := fun hf h1 => bounded_dom hf h1
  have px := (hV.dirac_laws n x (hd hφ hφ1)).1
  have py := (hV.dirac_laws n y (hd hφ hφ1)).1
  rw [← (hV.dirac_laws n x (hd hφ hφ1)).2.2, ← (hV.dirac_laws n y (hd hφ hφ1)).2.2]
  refine overlap (Real.one_le_exp (by positivity)) (fun f hf h0 h1 => ?_) hφ hφ1
  have hf1 : ∀ z, |f z| ≤ 1 := fun z => by rw [abs_of_nonneg (h0 z)]; exact h1 z
  have hf2 : ∀ z, |f z ^ 2| ≤ 1 := fun z => by
    rw [abs_pow]
    exact pow_le_one₀ (abs_nonneg _) (hf1 z)
  rw [(hV.dirac_laws n y (hd hf hf1)).2.2, (hV.dirac_laws n x (hd (hf.pow_const 2) hf2)).2.2]
  refine (T.harnack h (hd hf hf1) hn.pos hn.le x y).trans ?_
  have hp : 0 ≤ (avg ν G m S t)^[n] (fun z => f z ^ 2) x := by
    have h3 := (hV.dirac_laws n x (hd (hf.pow_const 2) hf2)).2.2
    rw [← h3]
    exact integral_nonneg fun z => sq_nonneg _
  refine mul_le_mul_of_nonneg_right (Real.exp_le_exp.2 ?_) hp
  have h4 : ‖y - x‖ ≤ 2 * (√hi * R) := by
    have h5 := norm_sub_le y x
    have h6 := (T.norm_le_size h x).trans (mul_le_mul_of_nonneg_left hx (Real.sqrt_nonneg _))
    have h7 := (T.norm_le_size h y).trans (mul_le_mul_of_nonneg_left hy (Real.sqrt_nonneg _))
    linarith
  have h5 := mul_le_mul_of_nonneg_left (pow_le_pow_left₀ (norm_nonneg _) h4 2) hto
  refine (div_le_self (by positivity) hn.ge).trans h5

end Tuned

/-- The chain forgets where it started at a rate that is uniform in the stepsize. -/
theorem Smooth.mixes_uniform [Nonempty J] (h : Smooth ν G a b Λ g L lo hi S) : ∃ w C r Γ : ℝ, 0 ≤ Γ ∧ 1 / 2 ≤ r ∧ r < 1 ∧
    ∀ {m : J → ℝ} {t : ℝ}, Tuned a Λ lo hi m t → ∀ {n : Nat}, UnitTime t n →
      Mixes (ν.prod (gauss J)) (langevin G m (sig m S t) t) (size m) ((1 + decay a t lo) / 2)
        ((1 - decay a t lo) * (1 + level J ν g a b lo S) / 2) w C (r ^ (1 / n : ℝ)) ∧
      gap ((1 + decay a t lo) / 2) ((1 - decay a t lo) * (1 + level J ν g a b lo S) / 2) w C = Γ ∧
      (1 - decay a t lo) * (1 + level J ν g a b lo S) / 2 / (1 - (1 + decay a t lo) / 2) = 1 + level J ν g a b lo S := by
  have ha := h.conf.pos
  have hlo := h.lo_pos
  have hl := h.level_nonneg
  set K' := 1 + level J ν g a b lo S with hK'
  set γ' := Real.exp (-(min 1 (a * lo) / 2)) with hγ'
  have hmin : 0 < min 1 (a * lo) := lt_min one_pos (by positivity)
  have hγ1 : γ' < 1 := Real.exp_lt_one_iff.2 (by linarith)
  have hγ0 : 0 ≤ γ' := (Real.exp_pos _).le
  set R := (2 * K' + 1) / (1 - γ') with hR
  have hR0 : 0 ≤ R := div_nonneg (by linarith) (by linarith)
  have hRf : 2 * K' < (1 - γ') * R := by
    rw [hR, mul_div_cancel₀ _ (by linarith : (1 - γ') ≠ 0)]
    linarith
  have hto : 0 ≤ toll J L lo hi S := by
    have := h.lip0; have := h.S_pos; have := h.lo_hi
    have : 0 ≤ hi := by linarith
    unfold toll; positivity
  set B := Real.exp (toll J L lo hi S * (2 * (√hi * R)) ^ 2) with hB
  have hB1 : 1 ≤ B := Real.one_le_exp (by positivity)
  have hδ0 : 0 < 1 / (4 * B) := by positivity
  have hδ1 : 1 / (4 * B) ≤ 1 := by
    rw [div_le_one (by positivity)]
    linarith
  have hset : Settles 0 0 1 γ' K' R (1 / (4 * B)) := ⟨by simpa using hγ0, hγ1, by simp; linarith, hRf, hδ0, hδ1⟩
  obtain ⟨r1, r2⟩ := rate_bounds hγ0 (by linarith) hset
  refine ⟨weight K' (1 / (4 * B)), 2 * (1 + weight K' (1 / (4 * B)) * K'), rate γ' K' R (1 / (4 * B)),
    2 * (1 + weight K' (1 / (4 * B)) * K') * max 1 (weight K' (1 / (4 * B)))⁻¹ * (2 + weight K' (1 / (4 * B)) * K' + weight K' (1 / (4 * B))), ?_, r1, r2,
    fun {m t} T {n} hn => ?_⟩
  · have : 0 ≤ weight K' (1 / (4 * B)) := by unfold weight; positivity
    have h1 : (0 : ℝ) ≤ max 1 (weight K' (1 / (4 * B)))⁻¹ := zero_le_one.trans (le_max_left _ _)
    positivity
  · have hS := T.settles h hn (R := R) (δ := 1 / (4 * B)) hRf hδ0 hδ1
    have e : (1 - decay a t lo) * K' / 2 / (1 - (1 + decay a t lo) / 2) = K' := by
      have hd := decay_lt ha T.t_pos hlo
      have : 1 - decay a t lo ≠ 0 := by linarith
      have e : 1 - (1 + decay a t lo) / 2 = (1 - decay a t lo) / 2 := by ring
      rw [e]
      field_simp
    refine ⟨(T.moves_size h).mixes_pairs hn.pos (T.pairs h hn hR0) hS, ?_, e⟩
    unfold gap
    rw [e]

end PySGMCMC.Harris
