import Verif.Lemmas.SgldUniform

/-!
# The error of SGLD

The steps smoothen averages and nearly preserve the posterior, so that the stationary law is near the posterior.
-/

open MeasureTheory ProbabilityTheory Filter Topology
namespace PySGMCMC.Harris
open Confining Moves Mixes Recipe Langevin
set_option linter.unusedSectionVars false

variable {J : Type} [Fintype J] [DecidableEq J] {Bt : Type} [MeasurableSpace Bt] {ν : Measure Bt} [IsProbabilityMeasure ν]
  {G : Bt → (J → ℝ) → J → ℝ} {a b Λ L lo hi S t c : ℝ} {g : Bt → ℝ} {m : J → ℝ} {φ : (J → ℝ) → ℝ} {U : (J → ℝ) → ℝ} {n : Nat} {B : ℝ}

theorem size_dom (hφ : Measurable φ) (hB : 0 ≤ B) (hb : ∀ x, |φ x| ≤ B * size m x) : Dom (size m) φ :=
  ⟨hφ, B, 0, hB, fun x => by simpa using hb x⟩

theorem sum_inv_sqrt (n : Nat) : ∑ i ∈ Finset.range n, 1 / √((i : ℝ) + 1) ≤ 2 * √n := by
  induction n with
  | zero => simp
  | succ n ih =>
    rw [Finset.sum_range_succ]
    push_cast
    have h0 := Real.sqrt_nonneg (n : ℝ)
    have h1 : 0 < √((n : ℝ) + 1) := Real.sqrt_pos.2 (by positivity)
    have e0 := Real.sq_sqrt (Nat.cast_nonneg (α := ℝ) n)
    have e1 := Real.sq_sqrt (by positivity : (0 : ℝ) ≤ n + 1)
    have h2 : 1 / √((n : ℝ) + 1) ≤ 2 * (√((n : ℝ) + 1) - √n) := by
      rw [div_le_iff₀ h1]
      nlinarith [sq_nonneg (√((n : ℝ) + 1) - √n)]
    linarith

namespace Tuned
variable (T : Tuned a Λ lo hi m t) (h : Smooth ν G a b Λ g L lo hi S)
include T h

theorem energy_many (n : Nat) (x : J → ℝ) : (avg ν G m S t)^[n] (energy m) x ≤ energy m x + level J ν g a b lo S := by
  have hE := T.moves_energy h
  have hd := decay_lt h.conf.pos T.t_pos h.lo_pos
  have h1 := hE.many_le (K' := level J ν g a b lo S) (by
    rw [div_le_iff₀ (by linarith)]
    linarith [T.heat_le h]) n x
  have h2 : decay a t lo ^ n ≤ 1 := pow_le_one₀ (le_max_left _ _) hd.le
  have h3 := mul_le_mul_of_nonneg_right h2 (energy_nonneg (T.mass_pos h) x)
  linarith

theorem second_le (hφ : Measurable φ) (hB : 0 ≤ B) (hb : ∀ x, |φ x| ≤ B * size m x) (n : Nat) (x : J → ℝ) :
    (avg ν G m S t)^[n] (fun x => φ x ^ 2) x ≤ B ^ 2 * (1 + level J ν g a b lo S) * size m x ^ 2 := by
  have hm := T.mass_pos h
  have hE := T.moves_energy h
  have hd := (size_dom hφ hB hb).energy_of hm
  obtain ⟨p, i1, e1⟩ := hE.dirac_laws n x hd
  obtain ⟨_, i2, e2⟩ := hE.dirac_laws n x hE.self_dom
  rw [← e1]
  have h1 : ∫ y, φ y ^ 2 ∂(law (ν.prod (gauss J)) (langevin G m (sig m S t) t))^[n] (Measure.dirac x)
      ≤ ∫ y, B ^ 2 * (1 + energy m y) ∂(law (ν.prod (gauss J)) (langevin G m (sig m S t) t))^[n] (Measure.dirac x) := by
    refine integral_mono i1 (((integrable_const 1).add i2).const_mul _) fun y => ?_
    rw [← size_sq hm, ← mul_pow, ← sq_abs]
    exact pow_le_pow_left₀ (abs_nonneg _) (hb y) 2
  rw [integral_const_mul, integral_add (integrable_const 1) i2, e2] at h1
  simp only [integral_const, probReal_univ, one_smul] at h1
  refine h1.trans ?_
  rw [mul_assoc, size_sq hm]
  refine mul_le_mul_of_nonneg_left ?_ (sq_nonneg B)
  have h2 := T.energy_many h n x
  have h3 := mul_nonneg h.level_nonneg (energy_nonneg hm x)
  have e : (1 + level J ν g a b lo S) * (1 + energy m x) = 1 + (energy m x + level J ν g a b lo S) + level J ν g a b lo S * energy m x := by ring
  rw [e]
  have h4 : (push (ν.prod (gauss J)) (langevin G m (sig m S t) t))^[n] (energy m) x ≤ energy m x + level J ν g a b lo S := h2
  linarith

/-- Averages after some steps vary little. -/
theorem iterate_sq (hφ : Measurable φ) (hB : 0 ≤ B) (hb : ∀ x, |φ x| ≤ B * size m x) (hn : 0 < n) (hnt : n * t ≤ 2) (x y : J → ℝ) :
    ((avg ν G m S t)^[n] φ y - (avg ν G m S t)^[n] φ x) ^ 2
      ≤ B ^ 2 * (1 + level J ν g a b lo S) * (2 * (toll J L lo hi S * ‖y - x‖ ^ 2 / (n * t))) * (size m x + size m y) ^ 2 := by
  have hm := T.mass_pos h
  have hl := h.level_nonneg
  have hd := size_dom hφ hB hb
  have hx := one_le_size hm x
  have hy := one_le_size hm y
  have ht := T.t_pos
  have hto := T.toll_nonneg h
  have hsx := T.second_le h hφ hB hb n x
  have hsy := T.second_le h hφ hB hb n y
  set u := toll J L lo hi S * ‖y - x‖ ^ 2 / (n * t) with hu
  have hu0 : 0 ≤ u := by positivity
  set M := B ^ 2 * (1 + level J ν g a b lo S) with hM
  have hM0 : 0 ≤ M := by positivity
  rcases le_total u 1 with h1 | h1
  · have h2 := T.smoothing h hd hn hnt x y
    rw [← hu] at h2
    have h3 : Real.exp u - 1 ≤ 2 * u := by
      have := Real.abs_exp_sub_one_le (x := u) (by rwa [abs_of_nonneg hu0])
      rw [abs_of_nonneg hu0] at this
      exact (le_abs_self _).trans this
    have h4 : 0 ≤ Real.exp u - 1 := by linarith [Real.one_le_exp hu0]
    have h5 : size m x ^ 2 ≤ (size m x + size m y) ^ 2 := pow_le_pow_left₀ (by linarith) (by linarith) 2
    calc _ ≤ _ := h2
      _ ≤ (Real.exp u - 1) * (M * size m x ^ 2) := mul_le_mul_of_nonneg_left hsx h4
      _ ≤ (2 * u) * (M * (size m x + size m y) ^ 2) := by gcongr
      _ = _ := by ring
  · have hself : ∀ z, (avg ν G m S t)^[n] φ z ^ 2 ≤ (avg ν G m S t)^[n] (fun x => φ x ^ 2) z := fun z => by
      have h2 := T.harnack h hd hn hnt z z
      rwa [sub_self, norm_zero, zero_pow two_ne_zero, mul_zero, zero_div, Real.exp_zero, one_mul] at h2
    have hxx := hself x
    have hyy := hself y
    have h2 : (avg ν G m S t)^[n] φ x ^ 2 ≤ (√M * size m x) ^ 2 := by
      rw [mul_pow, Real.sq_sqrt hM0]
      exact hxx.trans hsx
    have h3 : (avg ν G m S t)^[n] φ y ^ 2 ≤ (√M * size m y) ^ 2 := by
      rw [mul_pow, Real.sq_sqrt hM0]
      exact hyy.trans hsy
    have hs := Real.sqrt_nonneg M
    have h4 := abs_le_of_sq_le_sq h2 (by positivity)
    have h5 := abs_le_of_sq_le_sq h3 (by positivity)
    have h6 : |(avg ν G m S t)^[n] φ y - (avg ν G m S t)^[n] φ x| ≤ √M * (size m x + size m y) := by
      have := abs_sub ((avg ν G m S t)^[n] φ y) ((avg ν G m S t)^[n] φ x)
      linarith
    have h7 := pow_le_pow_left₀ (abs_nonneg _) h6 2
    rw [sq_abs, mul_pow, Real.sq_sqrt hM0] at h7
    refine h7.trans ?_
    have : M * 1 ≤ M * (2 * u) := mul_le_mul_of_nonneg_left (by linarith) hM0
    refine mul_le_mul_of_nonneg_right (by linarith) (by positivity)

/-- The constant of smoothing. -/
theorem iterate_varies (hφ : Measurable φ) (hB : 0 ≤ B) (hb : ∀ x, |φ x| ≤ B * size m x) (hn : 0 < n) (hnt : n * t ≤ 2) :
    Varies 0 (B * (1 + Fintype.card J / lo) * √(2 * toll J L lo hi S * (1 + level J ν g a b lo S)) / √(n * t)) ((avg ν G m S t)^[n] φ) := by
  intro x y
  have hl := h.level_nonneg
  have ht := T.t_pos
  have hlo := h.lo_pos
  have hto := T.toll_nonneg h
  have hnt0 : 0 < (n : ℝ) * t := by positivity
  have hsx := T.size_le_far h x
  have hsy := T.size_le_far h y
  have hx := one_le_size (T.mass_pos h) x
  have hy := one_le_size (T.mass_pos h) y
  have h1 := T.iterate_sq h hφ hB hb hn hnt y x
  set Q := 2 * toll J L lo hi S * (1 + level J ν g a b lo S) with hQ
  have hQ0 : 0 ≤ Q := by positivity
  have h2 : |(avg ν G m S t)^[n] φ x - (avg ν G m S t)^[n] φ y| ≤ B * √Q / √(n * t) * ‖x - y‖ * (size m x + size m y) := by
    refine abs_le_of_sq_le_sq (h1.trans (le_of_eq ?_)) (by positivity)
    rw [mul_pow, mul_pow, div_pow, mul_pow, Real.sq_sqrt hQ0, Real.sq_sqrt hnt0.le, hQ]
    ring
  refine h2.trans ?_
  have h3 : size m x + size m y ≤ (1 + Fintype.card J / lo) * (far x + far y) := by linarith
  calc _ ≤ B * √Q / √(n * t) * ‖x - y‖ * ((1 + Fintype.card J / lo) * (far x + far y)) := by gcongr
    _ = _ := by ring

theorem start_varies (hB : 0 ≤ B) (hb : ∀ x, |φ x| ≤ B * size m x) : Varies (B * (1 + Fintype.card J / lo)) 0 φ := by
  intro x y
  have h1 := abs_sub (φ x) (φ y)
  have h2 := (hb x).trans (mul_le_mul_of_nonneg_left (T.size_le_far h x) hB)
  have h3 := (hb y).trans (mul_le_mul_of_nonneg_left (T.size_le_far h y) hB)
  linarith

end Tuned

/-! ## Some steps -/

/-- How well the steps of a unit of time preserve the posterior. -/
noncomputable def blockBias (ν : Measure Bt) (U : (J → ℝ) → ℝ) (g : Bt → ℝ) (a b Λ L lo hi S c : ℝ) : ℝ :=
  (1 + Fintype.card J / lo) * bias ν U g Λ L hi S c * (1 + 3 * √(2 * toll J L lo hi S * (1 + level J ν g a b lo S)))

namespace Potential
variable (h : Potential ν G U a b Λ g L lo hi S)
include h

theorem block [IsProbabilityMeasure (boltz fun x => S * U x + c)] (T : Tuned a Λ lo hi m t) (hn : UnitTime t n) (hφ : Measurable φ) (hB : 0 ≤ B)
    (hb : ∀ x, |φ x| ≤ B * size m x) :
    |∫ x, (avg ν G m S t)^[n] φ x ∂(boltz fun x => S * U x + c) - ∫ x, φ x ∂boltz fun x => S * U x + c|
      ≤ √t * (B * blockBias (J := J) ν U g a b Λ L lo hi S c) := by
  have hs := h.toSmooth
  have hE := T.moves_energy hs
  have hd : Dom (energy m) φ := T.size_le_energy hs (size_dom hφ hB hb)
  have ht := T.t_pos
  have hlo := hs.lo_pos
  have hβ := h.bias_nonneg c
  set β := bias ν U g Λ L hi S c with hβe
  set q := 1 + (Fintype.card J : ℝ) / lo with hq
  have hq0 : 0 ≤ q := by positivity
  set r := √(2 * toll J L lo hi S * (1 + level J ν g a b lo S)) with hr
  have hr0 : 0 ≤ r := Real.sqrt_nonneg _
  have hst : t ≤ √t := by
    have := Real.sq_sqrt ht.le
    have h1 : √t ≤ 1 := Real.sqrt_le_one.2 T.t_le
    nlinarith [Real.sqrt_nonneg t]
  set I : Nat → ℝ := fun i => ∫ x, (avg ν G m S t)^[i] φ x ∂boltz fun x => S * U x + c with hI
  have hstep : ∀ i, i + 1 < n → |I (i + 1 + 1) - I (i + 1)| ≤ √t * (B * q * r * β * (√t * (1 / √((i : ℝ) + 1)))) := fun i hin => by
    have h1 : ((i + 1 : Nat) : ℝ) * t ≤ 2 := by
      refine le_trans (mul_le_mul_of_nonneg_right ?_ ht.le) hn.le
      exact_mod_cast hin.le
    have hv := T.iterate_varies hs hφ hB hb (Nat.succ_pos i) h1
    have h2 := h.balance (c := c) T le_rfl (by positivity) (hd.iterate hE (i + 1)) hv
    simp only [hI]
    rw [Function.iterate_succ_apply']
    refine h2.trans (le_of_eq ?_)
    have hi0 : 0 < √((i : ℝ) + 1) := Real.sqrt_pos.2 (by positivity)
    have hst0 : 0 < √t := Real.sqrt_pos.2 ht
    push_cast
    rw [Real.sqrt_mul (by positivity : (0 : ℝ) ≤ (i : ℝ) + 1) t, zero_add, ← hβe, ← hq, ← hr]
    have e : t = √t * √t := (Real.mul_self_sqrt ht.le).symm
    field_simp
    rw [Real.sq_sqrt ht.le]
  have hfirst : |I 1 - I 0| ≤ √t * (B * q * β) := by
    have h2 := h.balance (c := c) T (by positivity) le_rfl hd (T.start_varies hs hB hb)
    refine (le_of_eq ?_).trans (h2.trans ?_)
    · simp only [hI, Function.iterate_one, Function.iterate_zero, id]
    · rw [← hβe, ← hq, mul_zero, add_zero, mul_assoc]
      exact mul_le_mul_of_nonneg_right hst (by positivity)
  obtain ⟨N, rfl⟩ : ∃ N, n = N + 1 := ⟨n - 1, by have := hn.pos; omega⟩
  have e0 : I (N + 1) - I 0 = (∑ i ∈ Finset.range N, (I (i + 1 + 1) - I (i + 1))) + (I 1 - I 0) := by
    rw [← Finset.sum_range_sub, Finset.sum_range_succ']
  have hsum : |∑ i ∈ Finset.range N, (I (i + 1 + 1) - I (i + 1))| ≤ √t * (B * q * r * β * 3) := by
    refine (Finset.abs_sum_le_sum_abs _ _).trans ((Finset.sum_le_sum fun i hin => hstep i (by have := Finset.mem_range.1 hin; omega)).trans ?_)
    rw [← Finset.mul_sum, ← Finset.mul_sum, ← Finset.mul_sum]
    refine mul_le_mul_of_nonneg_left (mul_le_mul_of_nonneg_left ?_ (by positivity)) (Real.sqrt_nonneg _)
    have h1 := mul_le_mul_of_nonneg_left (sum_inv_sqrt N) (Real.sqrt_nonneg t)
    refine h1.trans ?_
    have h2 : √t * √N ≤ 3 / 2 := by
      rw [← Real.sqrt_mul ht.le]
      refine Real.sqrt_le_iff.2 ⟨by norm_num, ?_⟩
      have h3 := hn.le
      push_cast at h3
      nlinarith
    linarith
  have hgoal : |I (N + 1) - I 0| ≤ √t * (B * (q * β * (1 + 3 * r))) := by
    rw [e0]
    refine (abs_add_le _ _).trans ((add_le_add hsum hfirst).trans (le_of_eq ?_))
    ring
  exact hgoal

end Potential

end PySGMCMC.Harris
