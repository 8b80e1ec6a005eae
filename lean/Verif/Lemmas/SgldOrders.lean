import Verif.Lemmas.SghmcUniform

/-!
# Chains that follow SGLD up to small errors

A process that makes steps of SGLD, up to errors that are small compared with the steps, samples the same posterior.  The errors may depend on
everything that has happened so far, including the step itself, but not on the future.
-/

open MeasureTheory ProbabilityTheory Filter Topology
namespace PySGMCMC.Harris
open Confining Moves Mixes Recipe Langevin
set_option linter.unusedSectionVars false

/-! ## Fresh randomness -/

section fresh
variable {E Z Ω : Type*} [MeasurableSpace E] [MeasurableSpace Z] {κ : Measure Z} [IsProbabilityMeasure κ] {ℱ : MeasurableSpace Ω}
  [mΩ : MeasurableSpace Ω] {P : Measure Ω} [IsProbabilityMeasure P] {w : Ω → ℝ} {Y : Ω → E} {ζ : Ω → Z} {h : E → Z → ℝ} {c : E → ℝ} {W : ℝ}

/-- Averaging over what is independent of the past. -/
theorem fresh (hF : ℱ ≤ mΩ) (hw : Measurable[ℱ] w) (hwb : ∀ ω, |w ω| ≤ W) (hY : Measurable[ℱ] Y) (hζ : Measurable ζ)
    (hind : Indep ℱ (MeasurableSpace.comap ζ inferInstance) P) (hlaw : P.map ζ = κ) (hm : Measurable fun q : E × Z => h q.1 q.2)
    (hi : ∀ x, Integrable (h x) κ) (hc : ∀ x, ∫ z, |h x z| ∂κ ≤ c x) (hcY : Integrable (fun ω => c (Y ω)) P) :
    Integrable (fun ω => w ω * h (Y ω) (ζ ω)) P ∧ ∫ ω, w ω * h (Y ω) (ζ ω) ∂P = ∫ ω, w ω * ∫ z, h (Y ω) z ∂κ ∂P := by
  set p : Ω → ℝ × E := fun ω => (w ω, Y ω) with hp
  have mp' : Measurable[ℱ] p := Measurable.prodMk hw hY
  have mp : Measurable p := mp'.mono hF le_rfl
  have hI : IndepFun p ζ P := indep_of_indep_of_le_left hind mp'.comap_le
  have hmap : P.map (fun ω => (p ω, ζ ω)) = (P.map p).prod κ := by
    rw [(indepFun_iff_map_prod_eq_prod_map_map mp.aemeasurable hζ.aemeasurable).1 hI, hlaw]
  have : IsProbabilityMeasure (P.map p) := Measure.isProbabilityMeasure_map mp.aemeasurable
  set H : (ℝ × E) × Z → ℝ := fun q => q.1.1 * h q.1.2 q.2 with hH
  have mH : Measurable H := (measurable_fst.comp measurable_fst).mul (hm.comp ((measurable_snd.comp measurable_fst).prodMk measurable_snd))
  have iH : Integrable H ((P.map p).prod κ) := by
    refine (integrable_prod_iff mH.aestronglyMeasurable).2 ⟨.of_forall fun q => (hi q.2).const_mul q.1, ?_⟩
    have m1 : StronglyMeasurable fun q : ℝ × E => ∫ z, ‖H (q, z)‖ ∂κ := by
      have : StronglyMeasurable (Function.uncurry fun (q : ℝ × E) z => ‖H (q, z)‖) := mH.norm.stronglyMeasurable
      exact this.integral_prod_right
    refine (integrable_map_measure m1.aestronglyMeasurable mp.aemeasurable).2 ?_
    refine (hcY.const_mul W).mono' (m1.measurable.comp mp).aestronglyMeasurable (.of_forall fun ω => ?_)
    have e : ∫ z, ‖H (p ω, z)‖ ∂κ = |w ω| * ∫ z, |h (Y ω) z| ∂κ := by
      rw [← integral_const_mul]
      simp only [hH, hp, Real.norm_eq_abs, abs_mul]
    show ‖∫ z, ‖H (p ω, z)‖ ∂κ‖ ≤ W * c (Y ω)
    rw [e, Real.norm_eq_abs, abs_of_nonneg (mul_nonneg (abs_nonneg _) (integral_nonneg fun _ => abs_nonneg _))]
    exact mul_le_mul (hwb ω) (hc _) (integral_nonneg fun _ => abs_nonneg _) ((abs_nonneg _).trans (hwb ω))
  have hj : Measurable fun ω => (p ω, ζ ω) := mp.prodMk hζ
  constructor
  · rw [← hmap] at iH
    exact (integrable_map_measure mH.aestronglyMeasurable hj.aemeasurable).1 iH
  · have e1 : ∫ ω, w ω * h (Y ω) (ζ ω) ∂P = ∫ q, H q ∂P.map fun ω => (p ω, ζ ω) :=
      (integral_map hj.aemeasurable mH.aestronglyMeasurable).symm
    rw [e1, hmap, integral_prod _ iH, integral_map mp.aemeasurable]
    · refine integral_congr_ae (.of_forall fun ω => ?_)
      simp only [hH, hp, integral_const_mul]
    · have : StronglyMeasurable (Function.uncurry fun (q : ℝ × E) z => H (q, z)) := mH.stronglyMeasurable
      exact this.integral_prod_right.aestronglyMeasurable

end fresh

variable {J : Type} [Fintype J] [DecidableEq J] {Bt : Type} [MeasurableSpace Bt] {ν : Measure Bt} [IsProbabilityMeasure ν]
  {G : Bt → (J → ℝ) → J → ℝ} {a b Λ L lo hi S t c : ℝ} {g : Bt → ℝ} {m : J → ℝ} {φ : (J → ℝ) → ℝ} {U : (J → ℝ) → ℝ} {n : Nat} {A B : ℝ}

/-! ## How far one step goes -/

/-- How far a step goes, on average and in proportion to the stepsize. -/
noncomputable def hopBase (J : Type) [Fintype J] (ν : Measure Bt) (g : Bt → ℝ) (a S : ℝ) : ℝ := a * ∫ β, g β ∂ν + 2 * Fintype.card J / S

namespace Tuned
variable (T : Tuned a Λ lo hi m t) (h : Smooth ν G a b Λ g L lo hi S)
include T h

theorem hop_energy (x : J → ℝ) :
    Integrable (fun q => energy m (langevin G m (sig m S t) t x q - x)) (ν.prod (gauss J)) ∧
      ∫ q, energy m (langevin G m (sig m S t) t x q - x) ∂ν.prod (gauss J) ≤ t * (hopBase J ν g a S + a * hi * energy m x) := by
  have hm := T.mass_pos h
  have ht := T.t_pos
  have hh := T.hi_nonneg h
  have e : (fun q => energy m (langevin G m (sig m S t) t x q - x))
      = fun q : Bt × (J → ℝ) => energy m fun j => (0 : J → ℝ) j - t * m j * G q.1 x j + sig m S t j * q.2 j := by
    funext q
    congr 1
    funext j
    simp only [langevin, Pi.sub_apply, Pi.zero_apply]
    ring
  obtain ⟨h1, h2⟩ := h.conf.energy_step (m := m) (s := sig m S t) (t := t) hm 0 x
  rw [e]
  refine ⟨h1, ?_⟩
  rw [h2]
  have z1 : energy m 0 = 0 := by simp [energy]
  have z2 : ∫ β, ∑ j, (0 : J → ℝ) j * G β x j ∂ν = 0 := by simp
  have z3 : ∑ j, sig m S t j ^ 2 / m j = t * (2 * Fintype.card J / S) := by
    simp only [T.sig_sq h]
    have : ∀ j, 2 * t * m j / S / m j = 2 * t / S := fun j => by
      have := (hm j).ne'
      field_simp
    simp only [this, Finset.sum_const, nsmul_eq_mul, Finset.card_univ]
    ring
  rw [z1, z2, z3]
  have z4 : ∑ j, m j * ∫ β, G β x j ^ 2 ∂ν ≤ hi * (Λ * (∫ β, g β ∂ν + hi * energy m x)) := by
    have k1 : ∑ j, m j * ∫ β, G β x j ^ 2 ∂ν ≤ hi * ∑ j, ∫ β, G β x j ^ 2 ∂ν := by
      rw [Finset.mul_sum]
      exact Finset.sum_le_sum fun j _ => mul_le_mul_of_nonneg_right (T.le_hi j) (integral_nonneg fun _ => sq_nonneg _)
    refine k1.trans (mul_le_mul_of_nonneg_left ?_ hh)
    rw [← integral_finsetSum _ fun j _ => h.conf.integrable_sq x j]
    have k2 : ∫ β, ∑ j, G β x j ^ 2 ∂ν ≤ ∫ β, Λ * (g β + ∑ j, x j ^ 2) ∂ν :=
      integral_mono (integrable_finsetSum _ fun j _ => h.conf.integrable_sq x j) ((h.conf.int.add (integrable_const _)).const_mul _) fun β => h.conf.growth β x
    refine k2.trans ?_
    rw [integral_const_mul, integral_add h.conf.int (integrable_const _)]
    simp only [integral_const, probReal_univ, one_smul]
    exact mul_le_mul_of_nonneg_left (add_le_add_right (sq_le_energy hm T.le_hi x) _) h.conf.bound.le
  have k3 := mul_le_mul_of_nonneg_left z4 (sq_nonneg t)
  have hg0 : 0 ≤ ∫ β, g β ∂ν + hi * energy m x := add_nonneg (integral_nonneg h.conf.nonneg) (mul_nonneg hh (energy_nonneg hm x))
  have k4 := mul_le_mul_of_nonneg_left (mul_le_mul_of_nonneg_right T.stable hg0) ht.le
  unfold hopBase
  have e2 : t ^ 2 * (hi * (Λ * (∫ β, g β ∂ν + hi * energy m x))) = t * (t * hi * Λ * (∫ β, g β ∂ν + hi * energy m x)) := by ring
  rw [e2] at k3
  linarith

end Tuned

theorem near_le {V : Type*} [NormedAddCommGroup V] {x y z : V} {η : ℝ} (hη0 : 0 ≤ η) (hη : η ≤ 1 / 2) (h : ‖z - y‖ ≤ η * ‖z - x‖) :
    ‖z - y‖ ≤ 2 * η * ‖y - x‖ := by
  have h1 : ‖z - x‖ ≤ ‖z - y‖ + ‖y - x‖ := by
    have := norm_add_le (z - y) (y - x)
    rwa [sub_add_sub_cancel] at this
  have h2 := mul_le_mul_of_nonneg_left h1 hη0
  have h3 := mul_le_mul_of_nonneg_right hη (norm_nonneg (z - y))
  linarith

theorem energy_near (hm : ∀ j, 0 < m j) {τ : ℝ} (hτ : 0 < τ) (x y : J → ℝ) : energy m (x + y) ≤ (1 + τ) * energy m x + (1 + 1 / τ) * energy m y := by
  unfold energy
  rw [Finset.mul_sum, Finset.mul_sum, ← Finset.sum_add_distrib]
  refine Finset.sum_le_sum fun j _ => ?_
  rw [Pi.add_apply, ← mul_div_assoc, ← mul_div_assoc, ← add_div]
  refine div_le_div_of_nonneg_right ?_ (hm j).le
  have h1 : 0 ≤ (τ * x j - y j) ^ 2 / τ := by positivity
  have h2 : (τ * x j - y j) ^ 2 / τ = τ * x j ^ 2 - 2 * (x j * y j) + 1 / τ * y j ^ 2 := by
    field_simp
    ring
  rw [h2] at h1
  nlinarith

/-- How far errors go. -/
noncomputable def stray (J : Type) [Fintype J] (L lo hi : ℝ) : ℝ := 4 * Fintype.card J * hi ^ 3 * L ^ 2 / lo

theorem Tuned.stray_le (T : Tuned a Λ lo hi m t) (h : Smooth ν G a b Λ g L lo hi S) {x y z : J → ℝ}
    (hz : ‖z - y‖ ≤ 2 * (t * hi * L) * ‖y - x‖) : energy m (z - y) ≤ t ^ 2 * stray J L lo hi * energy m (y - x) := by
  have hm := T.mass_pos h
  have hlo := h.lo_pos
  have hh := T.hi_nonneg h
  have hL := h.lip0
  have ht := T.t_pos
  have h1 : lo * energy m (z - y) ≤ Fintype.card J * ‖z - y‖ ^ 2 := by
    refine (energy_le_sq hm T.lo_le _).trans ?_
    rw [← nsmul_eq_mul, ← Finset.card_univ]
    refine Finset.sum_le_card_nsmul _ _ _ fun j _ => ?_
    rw [← sq_abs]
    exact pow_le_pow_left₀ (abs_nonneg _) (norm_le_pi_norm (z - y) j) 2
  have h2 : ‖z - y‖ ^ 2 ≤ (2 * (t * hi * L)) ^ 2 * (hi * energy m (y - x)) := by
    refine (pow_le_pow_left₀ (norm_nonneg _) hz 2).trans ?_
    rw [mul_pow]
    exact mul_le_mul_of_nonneg_left ((norm_sq_le _).trans (sq_le_energy hm T.le_hi _)) (sq_nonneg _)
  have h3 := h1.trans (mul_le_mul_of_nonneg_left h2 (Nat.cast_nonneg _))
  rw [mul_comm, ← le_div_iff₀ hlo] at h3
  refine h3.trans (le_of_eq ?_)
  unfold stray
  field_simp
  ring

/-! ## Processes that follow SGLD -/

/-- A process that makes steps of SGLD, up to errors that are small compared with the steps. -/
structure Trails {Ω : Type*} [mΩ : MeasurableSpace Ω] (P : Measure Ω) (ν : Measure Bt) (G : Bt → (J → ℝ) → J → ℝ) (m : J → ℝ) (S t η : ℝ)
    (ℱ : Nat → MeasurableSpace Ω) (ζ : Nat → Ω → Bt × (J → ℝ)) (X : Nat → Ω → J → ℝ) : Prop where
  mono : Monotone ℱ
  le : ∀ k, ℱ k ≤ mΩ
  meas : ∀ k, Measurable[ℱ k] (X k)
  noise : ∀ k, Measurable (ζ k)
  indep : ∀ k, Indep (ℱ k) (MeasurableSpace.comap (ζ k) inferInstance) P
  law : ∀ k, P.map (ζ k) = ν.prod (gauss J)
  near : ∀ k ω, ‖X (k + 1) ω - langevin G m (sig m S t) t (X k ω) (ζ k ω)‖ ≤ η * ‖X (k + 1) ω - X k ω‖
  start : Integrable (fun ω => energy m (X 0 ω)) P

/-- Stepsizes at which the errors do not matter. -/
structure Gentle (J : Type) [Fintype J] (a L lo hi t : ℝ) : Prop where
  lip : t * hi * L ≤ 1 / 2
  pull : t * (a * lo) ≤ 1
  err : t * ((stray J L lo hi + 2 * stray J L lo hi / (a * lo)) * (a * hi)) ≤ a * lo / 4

/-- What is added on average in each step. -/
noncomputable def gain (J : Type) [Fintype J] (ν : Measure Bt) (g : Bt → ℝ) (a b L lo hi S : ℝ) : ℝ :=
  (1 + a * lo / 2) * (a * lo * level J ν g a b lo S) + (stray J L lo hi + 2 * stray J L lo hi / (a * lo)) * hopBase J ν g a S

namespace Trails
variable {Ω : Type*} [mΩ : MeasurableSpace Ω] {P : Measure Ω} [IsProbabilityMeasure P] {ℱ : Nat → MeasurableSpace Ω} {ζ : Nat → Ω → Bt × (J → ℝ)}
  {X : Nat → Ω → J → ℝ}
variable (R : Trails P ν G m S t (t * hi * L) ℱ ζ X) (T : Tuned a Λ lo hi m t) (h : Smooth ν G a b Λ g L lo hi S) (s : Gentle J a L lo hi t)
include R T h s

/-- One step takes the process where SGLD would go. -/
theorem apart (k : Nat) (ω : Ω) : ‖X (k + 1) ω - langevin G m (sig m S t) t (X k ω) (ζ k ω)‖
    ≤ 2 * (t * hi * L) * ‖langevin G m (sig m S t) t (X k ω) (ζ k ω) - X k ω‖ :=
  near_le (mul_nonneg (mul_nonneg T.t_pos.le (T.hi_nonneg h)) h.lip0) s.lip (R.near k ω)

theorem hop {k : Nat} (hk : Integrable (fun ω => energy m (X k ω)) P) :
    Integrable (fun ω => energy m (langevin G m (sig m S t) t (X k ω) (ζ k ω) - X k ω)) P ∧
      ∫ ω, energy m (langevin G m (sig m S t) t (X k ω) (ζ k ω) - X k ω) ∂P ≤ t * (hopBase J ν g a S + a * hi * ∫ ω, energy m (X k ω) ∂P) := by
  have hm := T.mass_pos h
  have mh : Measurable fun q : (J → ℝ) × (Bt × (J → ℝ)) => energy m (langevin G m (sig m S t) t q.1 q.2 - q.1) :=
    measurable_energy.comp (h.conf.measurable_langevin.sub measurable_fst)
  have hc : ∀ x, ∫ q, |energy m (langevin G m (sig m S t) t x q - x)| ∂ν.prod (gauss J) ≤ t * (hopBase J ν g a S + a * hi * energy m x) := fun x => by
    simp only [abs_of_nonneg (energy_nonneg hm _)]
    exact (T.hop_energy h x).2
  have hI : Integrable (fun ω => t * (hopBase J ν g a S + a * hi * energy m (X k ω))) P := ((integrable_const _).add (hk.const_mul _)).const_mul _
  obtain ⟨i1, e1⟩ := fresh (w := fun _ => (1 : ℝ)) (W := 1) (h := fun x q => energy m (langevin G m (sig m S t) t x q - x))
    (c := fun x => t * (hopBase J ν g a S + a * hi * energy m x)) (R.le k) measurable_const (fun _ => by simp) (R.meas k) (R.noise k) (R.indep k)
    (R.law k) mh (fun x => (T.hop_energy h x).1) hc hI
  simp only [one_mul] at i1 e1
  refine ⟨i1, ?_⟩
  rw [e1]
  have k1 : ∫ ω, ∫ q, energy m (langevin G m (sig m S t) t (X k ω) q - X k ω) ∂ν.prod (gauss J) ∂P
      ≤ ∫ ω, t * (hopBase J ν g a S + a * hi * energy m (X k ω)) ∂P := by
    refine integral_mono_of_nonneg (.of_forall fun ω => integral_nonneg fun q => energy_nonneg hm _) hI (.of_forall fun ω => ?_)
    exact (T.hop_energy h (X k ω)).2
  refine k1.trans (le_of_eq ?_)
  rw [integral_const_mul, integral_add (integrable_const _) (hk.const_mul _), integral_const_mul]
  simp

/-- Averages over where SGLD would go. -/
theorem step {k : Nat} (hk : Integrable (fun ω => energy m (X k ω)) P) {w : Ω → ℝ} {W : ℝ} (hw : Measurable[ℱ k] w) (hwb : ∀ ω, |w ω| ≤ W)
    (hφ : Dom (energy m) φ) :
    Integrable (fun ω => w ω * φ (langevin G m (sig m S t) t (X k ω) (ζ k ω))) P ∧
      ∫ ω, w ω * φ (langevin G m (sig m S t) t (X k ω) (ζ k ω)) ∂P = ∫ ω, w ω * avg ν G m S t φ (X k ω) ∂P := by
  have hE := T.moves_energy h
  obtain ⟨mφ, p, q, hp, hb⟩ := hφ
  exact fresh (h := fun x z => φ (langevin G m (sig m S t) t x z)) (R.le k) hw hwb (R.meas k) (R.noise k) (R.indep k) (R.law k)
    (mφ.comp h.conf.measurable_langevin) (fun x => hE.push_int ⟨mφ, p, q, hp, hb⟩ x) (fun x => hE.push_le mφ hp hb x)
    ((hk.const_mul _).add (integrable_const _))

/-- The process stays bounded on average. -/
theorem energy_next {k : Nat} (hk : Integrable (fun ω => energy m (X k ω)) P) :
    Integrable (fun ω => energy m (X (k + 1) ω)) P ∧
      ∫ ω, energy m (X (k + 1) ω) ∂P ≤ (1 - t * (a * lo) / 4) * ∫ ω, energy m (X k ω) ∂P + t * gain J ν g a b L lo hi S := by
  have hm := T.mass_pos h
  have hE := T.moves_energy h
  have ht := T.t_pos
  have hlo := h.lo_pos
  have hh := T.hi_nonneg h
  have ha := h.conf.pos
  set θ := a * lo with hθ
  have hθ0 : 0 < θ := mul_pos ha hlo
  obtain ⟨i1, k1⟩ := R.hop T h s hk
  obtain ⟨i2, k2⟩ := R.step T h s hk (w := fun _ => (1 : ℝ)) (W := 1) measurable_const (fun _ => by simp) hE.self_dom
  simp only [one_mul] at i2 k2
  set c := stray J L lo hi with hc
  have hc0 : 0 ≤ c := by rw [hc]; unfold stray; positivity
  have hp : ∀ ω, energy m (X (k + 1) ω) ≤ (1 + t * θ / 2) * energy m (langevin G m (sig m S t) t (X k ω) (ζ k ω))
      + t * (c + 2 * c / θ) * energy m (langevin G m (sig m S t) t (X k ω) (ζ k ω) - X k ω) := fun ω => by
    have j1 := energy_near hm (by positivity : 0 < t * θ / 2) (langevin G m (sig m S t) t (X k ω) (ζ k ω))
      (X (k + 1) ω - langevin G m (sig m S t) t (X k ω) (ζ k ω))
    rw [add_sub_cancel] at j1
    have j2 := T.stray_le h (R.apart T h s k ω)
    have j3 := mul_le_mul_of_nonneg_left j2 (by positivity : 0 ≤ 1 + 1 / (t * θ / 2))
    set e := energy m (langevin G m (sig m S t) t (X k ω) (ζ k ω) - X k ω) with he
    have he0 : 0 ≤ e := energy_nonneg hm _
    have j4 : (1 + 1 / (t * θ / 2)) * (t ^ 2 * c * e) ≤ t * (c + 2 * c / θ) * e := by
      have : (1 + 1 / (t * θ / 2)) * (t ^ 2 * c * e) = t * (t * c + 2 * c / θ) * e := by
        field_simp
      rw [this]
      refine mul_le_mul_of_nonneg_right (mul_le_mul_of_nonneg_left ?_ ht.le) he0
      exact add_le_add_left (mul_le_of_le_one_left hc0 T.t_le) _
    rw [← hc] at j3
    linarith
  have i3 := (i2.const_mul (1 + t * θ / 2)).add (i1.const_mul (t * (c + 2 * c / θ)))
  have i4 : Integrable (fun ω => energy m (X (k + 1) ω)) P :=
    i3.mono' (measurable_energy.comp ((R.meas (k + 1)).mono (R.le _) le_rfl)).aestronglyMeasurable
      (.of_forall fun ω => by rw [Real.norm_eq_abs, abs_of_nonneg (energy_nonneg hm _)]; exact hp ω)
  refine ⟨i4, ?_⟩
  have k3 := integral_mono i4 i3 hp
  simp only [Pi.add_apply] at k3
  rw [integral_add (i2.const_mul _) (i1.const_mul _), integral_const_mul, integral_const_mul, k2] at k3
  set E := ∫ ω, energy m (X k ω) ∂P with hEe
  have hE0 : 0 ≤ E := integral_nonneg fun ω => energy_nonneg hm _
  have hdec : decay a t lo = 1 - t * θ := by
    unfold decay
    rw [max_eq_right]
    · rw [hθ]; ring
    · have := s.pull
      rw [← hθ] at this
      have e : t * a * lo = t * θ := by rw [hθ]; ring
      linarith
  have k4 : ∫ ω, avg ν G m S t (energy m) (X k ω) ∂P ≤ (1 - t * θ) * E + t * θ * level J ν g a b lo S := by
    have j1 : ∫ ω, avg ν G m S t (energy m) (X k ω) ∂P ≤ ∫ ω, ((1 - t * θ) * energy m (X k ω) + t * θ * level J ν g a b lo S) ∂P := by
      refine integral_mono_of_nonneg (.of_forall fun ω => integral_nonneg fun q => energy_nonneg hm _) ((hk.const_mul _).add (integrable_const _))
        (.of_forall fun ω => ?_)
      have j2 := hE.drift (X k ω)
      have j3 := T.heat_le h
      rw [hdec] at j2 j3
      have e : 1 - (1 - t * θ) = t * θ := by ring
      rw [e] at j3
      show avg ν G m S t (energy m) (X k ω) ≤ _
      unfold avg push
      linarith
    refine j1.trans (le_of_eq ?_)
    rw [integral_add (hk.const_mul _) (integrable_const _), integral_const_mul]
    simp only [integral_const, probReal_univ, one_smul]
    rw [← hEe]
  have hp1 : 0 ≤ 1 + t * θ / 2 := by positivity
  have k5 := mul_le_mul_of_nonneg_left k4 hp1
  have hp2 : 0 ≤ t * (c + 2 * c / θ) := by positivity
  have k6 := mul_le_mul_of_nonneg_left k1 hp2
  have hlev := h.level_nonneg
  have hbase : 0 ≤ hopBase J ν g a S := by
    have : 0 ≤ ∫ β, g β ∂ν := integral_nonneg h.conf.nonneg
    have := h.S_pos
    unfold hopBase
    positivity
  have serr := s.err
  rw [← hc, ← hθ] at serr
  unfold gain
  rw [← hc, ← hθ]
  set Q := c + 2 * c / θ with hQ
  have hQ0 : 0 ≤ Q := by positivity
  set H := level J ν g a b lo S
  set F := hopBase J ν g a S
  have j1 : (1 + t * θ / 2) * (t * θ * H) ≤ t * ((1 + θ / 2) * (θ * H)) := by
    have : t * θ / 2 ≤ θ / 2 := by
      have := mul_le_of_le_one_left hθ0.le T.t_le
      linarith
    have := mul_le_mul_of_nonneg_right (add_le_add_right this 1) (by positivity : 0 ≤ t * θ * H)
    linarith
  have j2 : t * Q * (t * F) ≤ t * (Q * F) := by
    have := mul_le_of_le_one_left (by positivity : 0 ≤ t * (Q * F)) T.t_le
    linarith
  have j3 : t * Q * (t * (a * hi * E)) ≤ t * (θ / 4) * E := by
    have := mul_le_mul_of_nonneg_right serr (by positivity : 0 ≤ t * E)
    linarith
  have j4 : (1 + t * θ / 2) * ((1 - t * θ) * E) ≤ (1 - t * θ / 2) * E := by
    have : 0 ≤ (t * θ) ^ 2 * E := by positivity
    linarith
  linarith

theorem energy_all (k : Nat) :
    Integrable (fun ω => energy m (X k ω)) P ∧
      ∫ ω, energy m (X k ω) ∂P ≤ (1 - t * (a * lo) / 4) ^ k * ∫ ω, energy m (X 0 ω) ∂P + 4 * gain J ν g a b L lo hi S / (a * lo) := by
  have hθ0 : 0 < a * lo := mul_pos h.conf.pos h.lo_pos
  have hg : 0 ≤ gain J ν g a b L lo hi S := by
    have : 0 ≤ ∫ β, g β ∂ν := integral_nonneg h.conf.nonneg
    have := h.S_pos
    have := h.level_nonneg
    have := T.hi_nonneg h
    have := h.lo_pos
    have := h.conf.pos
    unfold gain hopBase stray
    positivity
  induction k with
  | zero =>
    refine ⟨R.start, ?_⟩
    rw [pow_zero, one_mul]
    exact le_add_of_nonneg_right (by positivity)
  | succ k ih =>
    obtain ⟨i, k1⟩ := R.energy_next T h s ih.1
    refine ⟨i, k1.trans ?_⟩
    have hp : 0 ≤ 1 - t * (a * lo) / 4 := by linarith [s.pull]
    have k2 := mul_le_mul_of_nonneg_left ih.2 hp
    have e : t * gain J ν g a b L lo hi S = t * (a * lo) / 4 * (4 * gain J ν g a b L lo hi S / (a * lo)) := by
      have := h.conf.pos.ne'
      have := h.lo_pos.ne'
      field_simp
    rw [e]
    rw [pow_succ]
    linarith

end Trails

noncomputable def slip₀ (J : Type) [Fintype J] (ν : Measure Bt) (g : Bt → ℝ) (a L hi S : ℝ) : ℝ := 2 * hi * L * (2 + 4 * hi * hopBase J ν g a S)
noncomputable def slip₁ (a L hi : ℝ) : ℝ := 2 * hi * L * (2 * hi + 4 * hi * (a * hi))

theorem varies_near {φ : (J → ℝ) → ℝ} {M r : ℝ} (hv : Varies 0 M φ) (hM : 0 ≤ M) (hr : 0 < r) {x y z : J → ℝ} {η : ℝ} (hη0 : 0 ≤ η) (hη : η ≤ 1 / 2)
    (hz : ‖z - y‖ ≤ 2 * η * ‖y - x‖) : |φ z - φ y| ≤ M * (2 * η * (r * (2 + 2 * ‖x‖ ^ 2) + (1 / r + 3) * ‖y - x‖ ^ 2)) := by
  have h1 := hv z y
  rw [zero_add] at h1
  set u := ‖y - x‖ with hu
  set d := ‖z - y‖ with hd
  have hu0 : 0 ≤ u := norm_nonneg _
  have hd0 : 0 ≤ d := norm_nonneg _
  have hf := one_le_far x
  have hdu : d ≤ u := hz.trans (mul_le_of_le_one_left hu0 (by linarith))
  have fy : far y ≤ far x + u := by
    have := norm_add_le x (y - x)
    rw [add_sub_cancel] at this
    unfold far
    linarith
  have fz : far z ≤ far y + d := by
    have := norm_add_le y (z - y)
    rw [add_sub_cancel] at this
    unfold far
    linarith
  have h2 : far z + far y ≤ 2 * far x + 3 * u := by linarith
  have h3 : (far z + far y) * d ≤ (2 * far x + 3 * u) * (2 * η * u) := mul_le_mul h2 hz hd0 (by positivity)
  have h4 : 2 * far x * u ≤ r * far x ^ 2 + 1 / r * u ^ 2 := by
    have k : 0 ≤ (r * far x - u) ^ 2 / r := by positivity
    have e : (r * far x - u) ^ 2 / r = r * far x ^ 2 - 2 * far x * u + 1 / r * u ^ 2 := by
      field_simp
      ring
    linarith
  have h5 : far x ^ 2 ≤ 2 + 2 * ‖x‖ ^ 2 := by
    unfold far
    nlinarith [sq_nonneg (1 - ‖x‖)]
  have h6 := mul_le_mul_of_nonneg_left h5 hr.le
  have h7 : (2 * far x + 3 * u) * (2 * η * u) ≤ 2 * η * (r * (2 + 2 * ‖x‖ ^ 2) + (1 / r + 3) * u ^ 2) := by
    have e : (2 * far x + 3 * u) * (2 * η * u) = 2 * η * (2 * far x * u + 3 * u ^ 2) := by ring
    rw [e]
    exact mul_le_mul_of_nonneg_left (by linarith) (by linarith)
  have h8 := mul_le_mul_of_nonneg_left (h3.trans h7) hM
  linarith

namespace Trails
variable {Ω : Type*} [mΩ : MeasurableSpace Ω] {P : Measure Ω} [IsProbabilityMeasure P] {ℱ : Nat → MeasurableSpace Ω} {ζ : Nat → Ω → Bt × (J → ℝ)}
  {X : Nat → Ω → J → ℝ}
variable (R : Trails P ν G m S t (t * hi * L) ℱ ζ X) (T : Tuned a Λ lo hi m t) (h : Smooth ν G a b Λ g L lo hi S) (s : Gentle J a L lo hi t)
include R T h s

theorem dom_int (hφ : Dom (energy m) φ) {w : Ω → ℝ} {W : ℝ} (hw : Measurable w) (hwb : ∀ ω, |w ω| ≤ W) (k : Nat) :
    Integrable (fun ω => w ω * φ (X k ω)) P := by
  have i1 := (R.energy_all T h s k).1
  obtain ⟨mφ, p, q, hp, hb⟩ := hφ
  have i2 : Integrable (fun ω => φ (X k ω)) P :=
    ((i1.const_mul p).add (integrable_const q)).mono' (mφ.comp ((R.meas k).mono (R.le k) le_rfl)).aestronglyMeasurable (.of_forall fun ω => hb _)
  exact i2.bdd_mul (c := W) hw.aestronglyMeasurable (.of_forall hwb)

/-- What one step adds to the error. -/
theorem slips {w : Ω → ℝ} {W M : ℝ} (k : Nat) (hw : Measurable[ℱ k] w) (hwb : ∀ ω, |w ω| ≤ W) (hM : 0 ≤ M) (hφ : Dom (energy m) φ)
    (hv : Varies 0 M φ) :
    |∫ ω, w ω * φ (X (k + 1) ω) ∂P - ∫ ω, w ω * avg ν G m S t φ (X k ω) ∂P|
      ≤ W * (M * (t * √t * (slip₀ J ν g a L hi S + slip₁ a L hi * ∫ ω, energy m (X k ω) ∂P))) := by
  have hm := T.mass_pos h
  have ht := T.t_pos
  have hh := T.hi_nonneg h
  have hL := h.lip0
  have ha := h.conf.pos
  have hk := (R.energy_all T h s k).1
  obtain ⟨i1, e1⟩ := R.step T h s hk hw hwb hφ
  obtain ⟨i2, k2⟩ := R.hop T h s hk
  have i3 := R.dom_int T h s hφ (hw.mono (R.le k) le_rfl) hwb (k + 1)
  rw [← e1, ← integral_sub i3 i1]
  set q := √t with hq
  have hq0 : 0 < q := Real.sqrt_pos.2 ht
  have hqq : q * q = t := Real.mul_self_sqrt ht.le
  have hq1 : q ≤ 1 := Real.sqrt_le_one.2 T.t_le
  set η := t * hi * L with hη
  have hη0 : 0 ≤ η := by positivity
  set E := ∫ ω, energy m (X k ω) ∂P with hE
  set F := fun ω => W * (M * (2 * η * (q * (2 + 2 * (hi * energy m (X k ω)))
    + (1 / q + 3) * (hi * energy m (langevin G m (sig m S t) t (X k ω) (ζ k ω) - X k ω))))) with hF
  have iF : Integrable F P :=
    (((((integrable_const 2).add ((hk.const_mul hi).const_mul 2)).const_mul q).add ((i2.const_mul hi).const_mul (1 / q + 3))).const_mul (2 * η)).const_mul M |>.const_mul W
  have hW : ∀ ω : Ω, 0 ≤ W := fun ω => (abs_nonneg _).trans (hwb ω)
  have hp : ∀ ω, |w ω * φ (X (k + 1) ω) - w ω * φ (langevin G m (sig m S t) t (X k ω) (ζ k ω))| ≤ F ω := fun ω => by
    rw [← mul_sub, abs_mul]
    have j1 := varies_near hv hM hq0 hη0 s.lip (R.apart T h s k ω)
    have j2 : ‖X k ω‖ ^ 2 ≤ hi * energy m (X k ω) := (norm_sq_le _).trans (sq_le_energy hm T.le_hi _)
    have j3 := (norm_sq_le (langevin G m (sig m S t) t (X k ω) (ζ k ω) - X k ω)).trans (sq_le_energy hm T.le_hi _)
    refine mul_le_mul (hwb ω) (j1.trans ?_) (abs_nonneg _) (hW ω)
    refine mul_le_mul_of_nonneg_left (mul_le_mul_of_nonneg_left ?_ (by positivity)) hM
    have j4 : 0 ≤ 1 / q + 3 := by positivity
    have j5 := mul_le_mul_of_nonneg_left j3 j4
    have j6 := mul_le_mul_of_nonneg_left j2 hq0.le
    linarith
  refine (abs_integral_le_integral_abs.trans (integral_mono (i3.sub i1).abs iF hp)).trans ?_
  simp only [hF]
  have iA : Integrable (fun ω => q * (2 + 2 * (hi * energy m (X k ω)))) P := ((integrable_const 2).add ((hk.const_mul hi).const_mul 2)).const_mul q
  have iB : Integrable (fun ω => (1 / q + 3) * (hi * energy m (langevin G m (sig m S t) t (X k ω) (ζ k ω) - X k ω))) P :=
    (i2.const_mul hi).const_mul (1 / q + 3)
  rw [integral_const_mul, integral_const_mul, integral_const_mul, integral_add iA iB, integral_const_mul, integral_const_mul, integral_const_mul,
    integral_add (integrable_const 2) ((hk.const_mul hi).const_mul 2), integral_const_mul, integral_const_mul]
  simp only [integral_const, probReal_univ, one_smul]
  rw [← hE]
  obtain ⟨ω₀⟩ : Nonempty Ω := nonempty_of_isProbabilityMeasure P
  refine mul_le_mul_of_nonneg_left (mul_le_mul_of_nonneg_left ?_ hM) (hW ω₀)
  set D := ∫ ω, energy m (langevin G m (sig m S t) t (X k ω) (ζ k ω) - X k ω) ∂P
  have hE0 : 0 ≤ E := integral_nonneg fun ω => energy_nonneg hm _
  have hb0 : 0 ≤ hopBase J ν g a S := by
    have : 0 ≤ ∫ β, g β ∂ν := integral_nonneg h.conf.nonneg
    have := h.S_pos
    unfold hopBase
    positivity
  have j1 : (1 / q + 3) * (hi * D) ≤ 4 * q * (hi * (hopBase J ν g a S + a * hi * E)) := by
    have l1 : (1 / q + 3) * t ≤ 4 * q := by
      have : (1 / q + 3) * t = q + 3 * (q * q) := by
        rw [← hqq]
        field_simp
      rw [this]
      have := mul_le_of_le_one_left hq0.le hq1
      linarith
    have l2 := mul_le_mul_of_nonneg_left (mul_le_mul_of_nonneg_left k2 hh) (by positivity : 0 ≤ 1 / q + 3)
    have l3 := mul_le_mul_of_nonneg_right l1 (by positivity : 0 ≤ hi * (hopBase J ν g a S + a * hi * E))
    linarith
  have j2 := mul_le_mul_of_nonneg_left (add_le_add_right j1 (q * (2 + 2 * (hi * E)))) (by positivity : 0 ≤ 2 * η)
  refine j2.trans (le_of_eq ?_)
  unfold slip₀ slip₁
  rw [hη]
  ring

/-- The process stays close to SGLD. -/
theorem tracks {l B W : ℝ} (hl : 0 < l) (hl1 : l ≤ a * lo / 4) (hl2 : l ≤ 1 / 2) (hB : 0 ≤ B) (hφ : Dom (energy m) φ)
    (hv : ∀ j : Nat, Varies 0 (B * Real.exp (-(l * t)) ^ (2 * j)) ((avg ν G m S t)^[j] φ)) {w : Ω → ℝ} (hw : Measurable[ℱ 0] w) (hwb : ∀ ω, |w ω| ≤ W)
    (N : Nat) :
    |∫ ω, w ω * φ (X N ω) ∂P - ∫ ω, w ω * (avg ν G m S t)^[N] φ (X 0 ω) ∂P|
      ≤ W * (B * ((1 + l) / l * √t * ((slip₀ J ν g a L hi S + slip₁ a L hi * (4 * gain J ν g a b L lo hi S / (a * lo)))
        + 2 * Real.exp (-(l * t)) ^ N * (slip₁ a L hi * ∫ ω, energy m (X 0 ω) ∂P)))) := by
  have hm := T.mass_pos h
  have ht := T.t_pos
  have hh := T.hi_nonneg h
  have hL := h.lip0
  have ha := h.conf.pos
  have hlo := h.lo_pos
  have hEn := T.moves_energy h
  have hb0 : 0 ≤ hopBase J ν g a S := by
    have : 0 ≤ ∫ β, g β ∂ν := integral_nonneg h.conf.nonneg
    have := h.S_pos
    unfold hopBase
    positivity
  have hg : 0 ≤ gain J ν g a b L lo hi S := by
    have := h.level_nonneg
    unfold gain stray
    positivity
  have hs0 : 0 ≤ slip₀ J ν g a L hi S := by unfold slip₀; positivity
  have hs1 : 0 ≤ slip₁ a L hi := by unfold slip₁; positivity
  obtain ⟨ω₀⟩ : Nonempty Ω := nonempty_of_isProbabilityMeasure P
  have hW : 0 ≤ W := (abs_nonneg _).trans (hwb ω₀)
  set σ := Real.exp (-(l * t)) with hσ
  have hlt : l * t ≤ 1 / 2 := (mul_le_of_le_one_right hl.le T.t_le).trans hl2
  have hσ2 : 1 / 2 ≤ σ := by linarith [Real.add_one_le_exp (-(l * t))]
  have hσ1 : σ < 1 := Real.exp_lt_one_iff.2 (by linarith [mul_pos hl ht])
  have hσ0 : 0 < σ := by linarith
  have hβσ : 1 - t * (a * lo) / 4 ≤ σ := by
    have := Real.add_one_le_exp (-(l * t))
    have := mul_le_mul_of_nonneg_right hl1 ht.le
    linarith
  have hβ0 : 0 ≤ 1 - t * (a * lo) / 4 := by linarith [s.pull]
  set H := 4 * gain J ν g a b L lo hi S / (a * lo) with hH
  have hH0 : 0 ≤ H := by positivity
  set E := ∫ ω, energy m (X 0 ω) ∂P with hE
  have hE0 : 0 ≤ E := integral_nonneg fun ω => energy_nonneg hm _
  set Q : Nat → ℝ := fun k => ∫ ω, w ω * (avg ν G m S t)^[N - k] φ (X k ω) ∂P with hQ
  have hstep : ∀ k ∈ Finset.range N, |Q (k + 1) - Q k|
      ≤ W * B * (σ ^ (2 * (N - 1 - k)) * (t * √t * (slip₀ J ν g a L hi S + slip₁ a L hi * H) + t * √t * (slip₁ a L hi * E) * σ ^ k + 0 * 0 ^ k)) := fun k hk => by
    have hk' := Finset.mem_range.1 hk
    have e1 : N - k = (N - 1 - k) + 1 := by omega
    have e2 : N - (k + 1) = N - 1 - k := by omega
    simp only [hQ]
    rw [e1, e2, Function.iterate_succ_apply']
    have j1 := R.slips T h s k (hw.mono (R.mono (Nat.zero_le k)) le_rfl) hwb (mul_nonneg hB (pow_nonneg hσ0.le _)) (hφ.iterate hEn (N - 1 - k)) (hv (N - 1 - k))
    refine j1.trans ?_
    have j2 := (R.energy_all T h s k).2
    have j3 : (1 - t * (a * lo) / 4) ^ k * E ≤ σ ^ k * E := mul_le_mul_of_nonneg_right (pow_le_pow_left₀ hβ0 hβσ k) hE0
    have j4 : slip₀ J ν g a L hi S + slip₁ a L hi * ∫ ω, energy m (X k ω) ∂P
        ≤ (slip₀ J ν g a L hi S + slip₁ a L hi * H) + slip₁ a L hi * E * σ ^ k := by
      have := mul_le_mul_of_nonneg_left (j2.trans (add_le_add_left j3 _)) hs1
      linarith
    have j5 := mul_le_mul_of_nonneg_left j4 (by positivity : 0 ≤ W * (B * σ ^ (2 * (N - 1 - k)) * (t * √t)))
    linarith
  have e0 : Q N - Q 0 = ∑ k ∈ Finset.range N, (Q (k + 1) - Q k) := (Finset.sum_range_sub Q N).symm
  have eN : Q N = ∫ ω, w ω * φ (X N ω) ∂P := by simp only [hQ, Nat.sub_self, Function.iterate_zero, id]
  have e00 : Q 0 = ∫ ω, w ω * (avg ν G m S t)^[N] φ (X 0 ω) ∂P := by simp only [hQ, Nat.sub_zero]
  rw [← eN, ← e00, e0]
  refine (Finset.abs_sum_le_sum_abs _ _).trans ((Finset.sum_le_sum hstep).trans ?_)
  rw [← Finset.mul_sum]
  have k1 := run_sum hσ2 hσ1 (le_refl (0 : ℝ)) (le_refl (0 : ℝ)) zero_lt_one (by simp) (by positivity : 0 ≤ t * √t * (slip₀ J ν g a L hi S + slip₁ a L hi * H))
    (by positivity : 0 ≤ t * √t * (slip₁ a L hi * E)) (le_refl (0 : ℝ)) N
  have k2 := rate_le hl ht T.t_le
  rw [← hσ] at k2
  refine (mul_le_mul_of_nonneg_left k1 (mul_nonneg hW hB)).trans ?_
  rw [mul_assoc]
  refine mul_le_mul_of_nonneg_left (mul_le_mul_of_nonneg_left ?_ hB) hW
  have e : t * √t * (slip₀ J ν g a L hi S + slip₁ a L hi * H) / (1 - σ) + 2 * σ ^ N * (t * √t * (slip₁ a L hi * E) / (1 - σ) + 0 / (1 - 0))
      = t / (1 - σ) * (√t * ((slip₀ J ν g a L hi S + slip₁ a L hi * H) + 2 * σ ^ N * (slip₁ a L hi * E))) := by ring
  rw [e]
  refine (mul_le_mul_of_nonneg_right k2 (by positivity)).trans (le_of_eq ?_)
  ring

end Trails

theorem Smooth.gentle (h : Smooth ν G a b Λ g L lo hi S) : ∃ t₁ : ℝ, 0 < t₁ ∧ ∀ t : ℝ, 0 ≤ t → t ≤ t₁ → Gentle J a L lo hi t := by
  have ha := h.conf.pos
  have hlo := h.lo_pos
  have hh : 0 < hi := hlo.trans_le h.lo_hi
  have hL := h.lip0
  have hc : 0 ≤ stray J L lo hi := by unfold stray; positivity
  set Q := (stray J L lo hi + 2 * stray J L lo hi / (a * lo)) * (a * hi) with hQ
  have hQ0 : 0 ≤ Q := by positivity
  set D := 1 + 2 * (hi * L) + a * lo + 4 * Q / (a * lo) with hD
  have hD0 : 0 < D := by positivity
  refine ⟨1 / D, by positivity, fun t ht0 ht => ?_⟩
  have h1 : t * D ≤ 1 := by rwa [le_div_iff₀ hD0] at ht
  have p1 : 0 ≤ t * (hi * L) := by positivity
  have p2 : 0 ≤ t * (a * lo) := by positivity
  have p3 : 0 ≤ t * (4 * Q / (a * lo)) := by positivity
  have e : t * D = t + 2 * (t * (hi * L)) + t * (a * lo) + t * (4 * Q / (a * lo)) := by rw [hD]; ring
  rw [e] at h1
  refine ⟨by linarith, by linarith, ?_⟩
  have h2 : t * (4 * Q / (a * lo)) ≤ 1 := by linarith
  have hal : 0 < a * lo := by positivity
  have e2 : t * (4 * Q / (a * lo)) = t * (4 * Q) / (a * lo) := by ring
  rw [e2, div_le_one hal] at h2
  linarith

theorem Trails.shift {Ω : Type*} [mΩ : MeasurableSpace Ω] {P : Measure Ω} [IsProbabilityMeasure P] {ℱ : Nat → MeasurableSpace Ω}
    {ζ : Nat → Ω → Bt × (J → ℝ)} {X : Nat → Ω → J → ℝ} {η : ℝ} (R : Trails P ν G m S t η ℱ ζ X) (i : Nat)
    (hi : Integrable (fun ω => energy m (X i ω)) P) : Trails P ν G m S t η (fun k => ℱ (i + k)) (fun k => ζ (i + k)) fun k => X (i + k) where
  mono := fun _ _ hab => R.mono (Nat.add_le_add_left hab i)
  le k := R.le _
  meas k := R.meas _
  noise k := R.noise _
  indep k := R.indep _
  law k := R.law _
  near k := R.near (i + k)
  start := hi

set_option maxHeartbeats 1000000 in
/-- Averages of processes that follow SGLD approach those over the posterior. -/
theorem Potential.trails_uniform [Nonempty J] (h : Potential ν G U a b Λ g L lo hi S) :
    ∃ c K C l t₁ : ℝ, IsProbabilityMeasure (boltz fun x => S * U x + c) ∧ 0 ≤ K ∧ 0 ≤ C ∧ 0 < l ∧ 0 < t₁ ∧
    ∀ {m : J → ℝ} {t : ℝ}, Tuned a Λ lo hi m t → t ≤ t₁ → ∀ {Ω : Type} [mΩ : MeasurableSpace Ω] {P : Measure Ω} [IsProbabilityMeasure P]
      {ℱ : Nat → MeasurableSpace Ω} {ζ : Nat → Ω → Bt × (J → ℝ)} {X : Nat → Ω → J → ℝ}, Trails P ν G m S t (t * hi * L) ℱ ζ X →
      (∀ k, Integrable (fun ω => energy m (X k ω)) P ∧ ∫ ω, energy m (X k ω) ∂P ≤ ∫ ω, energy m (X 0 ω) ∂P + K) ∧
      ∀ {f : (J → ℝ) → ℝ} {A : ℝ}, 0 ≤ A → (∀ x y, |f x - f y| ≤ A * ‖x - y‖) → ∀ {w : Ω → ℝ} {W : ℝ}, Measurable[ℱ 0] w → (∀ ω, |w ω| ≤ W) → ∀ N,
      Integrable (fun ω => w ω * f (X N ω)) P ∧
      |∫ ω, w ω * f (X N ω) ∂P - (∫ ω, w ω ∂P) * ∫ x, f x ∂boltz fun x => S * U x + c|
        ≤ W * (A * (C * (1 + ∫ ω, energy m (X 0 ω) ∂P) * Real.exp (-(l * t)) ^ N + K * √t)) := by
  have hs := h.toSmooth
  obtain ⟨c, hp⟩ := h.normalized
  obtain ⟨w', C', r, Γ, hΓ0, hr2, hr1, hmix⟩ := hs.mixes_uniform
  obtain ⟨t₁, ht₁, hgen⟩ := hs.gentle
  have hr0 : 0 < r := by linarith
  have h1r : 0 < 1 - r := by linarith
  have hlog : Real.log r < 0 := Real.log_neg hr0 hr1
  have hlo := hs.lo_pos
  have ha := hs.conf.pos
  have hh0 : 0 ≤ hi := hs.lo_pos.le.trans hs.lo_hi
  set W' := 2 * Real.exp (2 * hi * L) + 4 * Γ * Harris.smoothing J ν g a b L lo hi S with hW'
  have hsm : 0 ≤ Harris.smoothing J ν g a b L lo hi S := by
    have := hs.lip0
    unfold Harris.smoothing
    positivity
  have hW0 : 0 ≤ W' := by positivity
  set Q := blockBias (J := J) ν U g a b Λ L lo hi S c with hQ
  have hQ0 : 0 ≤ Q := h.drift_nonneg (c := c)
  set l := min (a * lo / 4) (min (1 / 2) (-Real.log r / 4)) with hl
  have hl0 : 0 < l := lt_min (by positivity) (lt_min (by norm_num) (by linarith))
  have hl1 : l ≤ a * lo / 4 := min_le_left _ _
  have hl2 : l ≤ 1 / 2 := (min_le_right _ _).trans (min_le_left _ _)
  have hl3 : l ≤ -Real.log r / 4 := (min_le_right _ _).trans (min_le_right _ _)
  have hb0 : 0 ≤ hopBase J ν g a S := by
    have : 0 ≤ ∫ β, g β ∂ν := integral_nonneg hs.conf.nonneg
    have := hs.S_pos
    unfold hopBase
    positivity
  have hg : 0 ≤ gain J ν g a b L lo hi S := by
    have := hs.level_nonneg
    unfold gain stray
    positivity
  have hL := hs.lip0
  have hs0 : 0 ≤ slip₀ J ν g a L hi S := by unfold slip₀; positivity
  have hs1 : 0 ≤ slip₁ a L hi := by unfold slip₁; positivity
  set H := 4 * gain J ν g a b L lo hi S / (a * lo) with hH
  have hH0 : 0 ≤ H := by positivity
  set K₁ := (1 + √hi) * (W' * ((1 + l) / l * (slip₀ J ν g a L hi S + slip₁ a L hi * H)) + 2 * Γ * Q / (1 - r)) with hK₁
  have hK₁0 : 0 ≤ K₁ := by positivity
  set C₁ := (1 + √hi) * (W' * ((1 + l) / l * (2 * slip₁ a L hi)) + 2 * Γ) with hC₁
  have hC₁0 : 0 ≤ C₁ := by positivity
  refine ⟨c, max H K₁, C₁, l, t₁, hp, hH0.trans (le_max_left _ _), hC₁0, hl0, ht₁, ?_⟩
  intro m t T htt Ω mΩ P _ ℱ ζ X R
  have ht := T.t_pos
  have s := hgen t ht.le htt
  have hm := T.mass_pos hs
  have hEn := T.moves_energy hs
  have hE0 : 0 ≤ ∫ ω, energy m (X 0 ω) ∂P := integral_nonneg fun ω => energy_nonneg hm _
  constructor
  · intro k
    obtain ⟨i, j⟩ := R.energy_all T hs s k
    refine ⟨i, j.trans (add_le_add ?_ (le_max_left _ _))⟩
    have hp1 : 0 ≤ t * (a * lo) := by positivity
    exact mul_le_of_le_one_left hE0 (pow_le_one₀ (by linarith [s.pull]) (by linarith))
  intro f A hA hf w W hw hwb N
  have hn := T.unit
  obtain ⟨M, hΓ, hK⟩ := hmix T hn
  obtain ⟨πh, hπp, hinv, hVπ, hπ⟩ := M.stationary
  have cf : Continuous f := (LipschitzWith.of_dist_le_mul (K := ⟨A, hA⟩) fun x y => by
    rw [dist_eq_norm, dist_eq_norm]; exact hf x y).continuous
  set φ : (J → ℝ) → ℝ := fun x => f x - f 0 with hφe
  have mφ : Measurable φ := cf.measurable.sub_const _
  have hA' : 0 ≤ A * (1 + √hi) := by positivity
  have lφ : ∀ x y, |φ x - φ y| ≤ A * ‖x - y‖ := fun x y => by
    simp only [hφe, sub_sub_sub_cancel_right]
    exact hf x y
  have lφ' : ∀ x y, |φ x - φ y| ≤ A * (1 + √hi) * ‖x - y‖ := fun x y => (lφ x y).trans <| by
    refine mul_le_mul_of_nonneg_right ?_ (norm_nonneg _)
    exact le_mul_of_one_le_right hA (by linarith [Real.sqrt_nonneg hi])
  have bφ : ∀ x, |φ x| ≤ A * (1 + √hi) * size m x := fun x => by
    have h1 := hf x 0
    rw [sub_zero] at h1
    refine h1.trans ?_
    rw [mul_assoc]
    exact mul_le_mul_of_nonneg_left ((norm_le_far x).trans (T.far_le_size hs x)) hA
  have dφ : Dom (energy m) φ := T.size_le_energy hs (size_dom mφ hA' bφ)
  obtain ⟨ω₀⟩ : Nonempty Ω := nonempty_of_isProbabilityMeasure P
  have hWn : 0 ≤ W := (abs_nonneg _).trans (hwb ω₀)
  have mw : Measurable w := hw.mono (R.le 0) le_rfl
  have iw : Integrable w P := (integrable_const W).mono' mw.aestronglyMeasurable (.of_forall hwb)
  have iφ := R.dom_int T hs s dφ mw hwb N
  have i_f : Integrable (fun ω => w ω * f (X N ω)) P := (iφ.add (iw.mul_const (f 0))).congr (.of_forall fun ω => by simp only [hφe, Pi.add_apply]; ring)
  refine ⟨i_f, ?_⟩
  set σ := Real.exp (-(l * t)) with hσe
  have hσ0 : 0 < σ := Real.exp_pos _
  have hσ1 : σ < 1 := Real.exp_lt_one_iff.2 (by linarith [mul_pos hl0 ht])
  have hρσ := fun j => rate_of_root hn hr0 hr1 ht hl3 j
  rw [← hσe] at hρσ
  have hv : ∀ j : Nat, Varies 0 (A * (1 + √hi) * W' * σ ^ (2 * j)) ((avg ν G m S t)^[j] φ) := fun j => by
    refine (T.varies_all hs hn M hΓ hr2 hr1 hinv hVπ hπ mφ hA' bφ lφ' j).mono ?_
    rw [← hW']
    exact mul_le_mul_of_nonneg_left (hρσ j) (mul_nonneg hA' hW0)
  set E := ∫ ω, energy m (X 0 ω) ∂P with hE
  have t1 := R.tracks T hs s hl0 hl1 hl2 (mul_nonneg hA' hW0) dφ hv hw hwb N
  rw [← hH, ← hE] at t1
  have t2 : |∫ ω, w ω * (avg ν G m S t)^[N] φ (X 0 ω) ∂P - (∫ ω, w ω ∂P) * ∫ y, φ y ∂πh| ≤ W * (A * (1 + √hi) * (2 * Γ) * (1 + E) * σ ^ N) := by
    have i1 : Integrable (fun ω => w ω * (avg ν G m S t)^[N] φ (X 0 ω)) P := R.dom_int T hs s (dφ.iterate hEn N) mw hwb 0
    rw [← integral_mul_const, ← integral_sub i1 (iw.mul_const _)]
    have i2 : Integrable (fun ω => W * (A * (1 + √hi) * (2 * Γ) * (1 + energy m (X 0 ω)) * σ ^ N)) P :=
      ((((integrable_const 1).add R.start).const_mul _).mul_const _).const_mul _
    have hpt : ∀ ω, |w ω * (avg ν G m S t)^[N] φ (X 0 ω) - w ω * ∫ y, φ y ∂πh| ≤ W * (A * (1 + √hi) * (2 * Γ) * (1 + energy m (X 0 ω)) * σ ^ N) := fun ω => by
      rw [← mul_sub, abs_mul]
      refine mul_le_mul (hwb ω) ?_ (abs_nonneg _) hWn
      have h1 := M.geometric hinv hVπ hπ mφ hA' (fun x => (bφ x).trans (mul_le_mul_of_nonneg_left (by linarith) hA')) N (X 0 ω)
      rw [hΓ] at h1
      refine h1.trans ?_
      have k0 := energy_nonneg hm (X 0 ω)
      have k1 : size m (X 0 ω) ≤ 1 + energy m (X 0 ω) := by
        unfold size
        refine Real.sqrt_le_iff.2 ⟨by linarith, ?_⟩
        nlinarith
      have k2 : 1 + size m (X 0 ω) ≤ 2 * (1 + energy m (X 0 ω)) := by linarith
      have k3 : (r ^ (1 / (⌈1 / t⌉₊ : ℝ))) ^ N ≤ σ ^ N := by
        refine (hρσ N).trans ?_
        exact pow_le_pow_of_le_one hσ0.le hσ1.le (by omega)
      have k4 := mul_le_mul k2 k3 (pow_nonneg M.rate_nonneg N) (by linarith)
      have k5 := mul_le_mul_of_nonneg_left k4 (mul_nonneg hA' hΓ0)
      refine le_trans (le_of_eq ?_) (k5.trans (le_of_eq ?_)) <;> ring
    refine (abs_integral_le_integral_abs.trans (integral_mono (i1.sub (iw.mul_const _)).abs i2 hpt)).trans (le_of_eq ?_)
    rw [integral_const_mul, integral_mul_const, integral_const_mul, integral_add (integrable_const 1) R.start]
    simp [hE]
  have t3 := h.stationary_near (c := c) T hn M hΓ hr0 hr1 hinv hVπ hπ mφ hA' bφ
  rw [← hQ] at t3
  have t4 : |(∫ ω, w ω ∂P) * ∫ x, φ x ∂(boltz fun x => S * U x + c) - (∫ ω, w ω ∂P) * ∫ y, φ y ∂πh|
      ≤ W * (√t * (2 * (A * (1 + √hi)) * Γ * Q / (1 - r))) := by
    rw [← mul_sub, abs_mul]
    have j : |∫ ω, w ω ∂P| ≤ W := by
      refine abs_integral_le_integral_abs.trans ((integral_mono iw.abs (integrable_const W) hwb).trans (le_of_eq ?_))
      simp
    exact mul_le_mul j t3 (abs_nonneg _) hWn
  have i2 : Integrable φ (boltz fun x => S * U x + c) := dφ.integrable (h.energy_integrable T c)
  have i3 : Integrable f (boltz fun x => S * U x + c) := (i2.add (integrable_const (f 0))).congr (.of_forall fun p => by simp [hφe])
  have e2 : ∫ x, φ x ∂(boltz fun x => S * U x + c) = ∫ x, f x ∂(boltz fun x => S * U x + c) - f 0 := by
    simp only [hφe]
    rw [integral_sub i3 (integrable_const _)]
    simp
  have e3 : ∫ ω, w ω * φ (X N ω) ∂P = ∫ ω, w ω * f (X N ω) ∂P - (∫ ω, w ω ∂P) * f 0 := by
    rw [← integral_mul_const, ← integral_sub i_f (iw.mul_const _)]
    refine integral_congr_ae (.of_forall fun ω => ?_)
    simp only [hφe]
    ring
  rw [e2] at t4
  rw [e3] at t1
  have e4 : ∫ ω, w ω * f (X N ω) ∂P - (∫ ω, w ω ∂P) * ∫ x, f x ∂(boltz fun x => S * U x + c)
      = (∫ ω, w ω * f (X N ω) ∂P - (∫ ω, w ω ∂P) * f 0 - ∫ ω, w ω * (avg ν G m S t)^[N] φ (X 0 ω) ∂P)
        + (∫ ω, w ω * (avg ν G m S t)^[N] φ (X 0 ω) ∂P - (∫ ω, w ω ∂P) * ∫ y, φ y ∂πh)
        - ((∫ ω, w ω ∂P) * (∫ x, f x ∂(boltz fun x => S * U x + c) - f 0) - (∫ ω, w ω ∂P) * ∫ y, φ y ∂πh) := by ring
  rw [e4]
  refine ((abs_sub _ _).trans (add_le_add ((abs_add_le _ _).trans (add_le_add t1 t2)) t4)).trans ?_
  have hmax := le_max_right H K₁
  have h5 := mul_le_mul_of_nonneg_left (mul_le_mul_of_nonneg_left (mul_le_mul_of_nonneg_right hmax (Real.sqrt_nonneg t)) hA) hWn
  have hsq1 : √t ≤ 1 := Real.sqrt_le_one.2 T.t_le
  have h6 : A * (1 + √hi) * W' * ((1 + l) / l * √t * (2 * σ ^ N * (slip₁ a L hi * E))) ≤ A * (1 + √hi) * W' * ((1 + l) / l * 1 * (2 * σ ^ N * (slip₁ a L hi * (1 + E)))) := by
    refine mul_le_mul_of_nonneg_left ?_ (mul_nonneg hA' hW0)
    refine mul_le_mul (mul_le_mul_of_nonneg_left hsq1 (by positivity)) ?_ (by positivity) (by positivity)
    refine mul_le_mul_of_nonneg_left (mul_le_mul_of_nonneg_left (by linarith) hs1) (by positivity)
  have h7 := mul_le_mul_of_nonneg_left h6 hWn
  have e5 : W * (A * (C₁ * (1 + E) * σ ^ N + max H K₁ * √t)) = W * (A * (C₁ * (1 + E) * σ ^ N)) + W * (A * (max H K₁ * √t)) := by ring
  rw [e5]
  refine le_trans ?_ (add_le_add_right h5 _)
  rw [hK₁, hC₁]
  refine le_trans (le_of_eq ?_) (le_trans (add_le_add_left h7 (W * (A * (1 + √hi) * W' * ((1 + l) / l * √t * (slip₀ J ν g a L hi S + slip₁ a L hi * H)))
    + W * (A * (1 + √hi) * (2 * Γ) * (1 + E) * σ ^ N) + W * (√t * (2 * (A * (1 + √hi)) * Γ * Q / (1 - r))))) (le_of_eq ?_)) <;> ring

set_option maxHeartbeats 1000000 in
/-- The same for averages over a run. -/
theorem Potential.trails_average [Nonempty J] (h : Potential ν G U a b Λ g L lo hi S) :
    ∃ c K C l t₁ : ℝ, IsProbabilityMeasure (boltz fun x => S * U x + c) ∧ 0 ≤ K ∧ 0 ≤ C ∧ 0 < l ∧ 0 < t₁ ∧
    ∀ {m : J → ℝ} {t : ℝ}, Tuned a Λ lo hi m t → t ≤ t₁ → ∀ {Ω : Type} [mΩ : MeasurableSpace Ω] {P : Measure Ω} [IsProbabilityMeasure P]
      {ℱ : Nat → MeasurableSpace Ω} {ζ : Nat → Ω → Bt × (J → ℝ)} {X : Nat → Ω → J → ℝ}, Trails P ν G m S t (t * hi * L) ℱ ζ X →
      ∀ {f : (J → ℝ) → ℝ} {A : ℝ}, 0 ≤ A → (∀ x y, |f x - f y| ≤ A * ‖x - y‖) →
      (∀ N : Nat, Integrable (fun ω => f (X N ω)) P ∧
        |∫ ω, f (X N ω) ∂P - ∫ x, f x ∂boltz fun x => S * U x + c|
          ≤ A * (C * (1 + ∫ ω, energy m (X 0 ω) ∂P) * Real.exp (-(l * t * N)) + K * √t)) ∧
      ∀ {D : ℝ}, (∀ x, |f x| ≤ D) → ∀ {I : Finset Nat}, I.Nonempty →
        Integrable (fun ω => ((∑ k ∈ I, f (X k ω)) / I.card - ∫ x, f x ∂boltz fun x => S * U x + c) ^ 2) P ∧
        ∫ ω, ((∑ k ∈ I, f (X k ω)) / I.card - ∫ x, f x ∂boltz fun x => S * U x + c) ^ 2 ∂P
          ≤ D * A * (C * (1 + ∫ ω, energy m (X 0 ω) ∂P) / (I.card * t) + K * √t) := by
  obtain ⟨c, K, C, l, t₁, hp, hK, hC, hl, ht₁, main⟩ := h.trails_uniform
  set C₁ := 4 * ((1 + l) / l) * (C * (1 + K)) with hC₁
  have hC₁0 : 0 ≤ C₁ := by positivity
  refine ⟨c, 2 * K, max C C₁, l, t₁, hp, by positivity, hC.trans (le_max_left _ _), hl, ht₁, ?_⟩
  intro m t T htt Ω mΩ P _ ℱ ζ X R f A hA hf
  obtain ⟨hen, hmain⟩ := main T htt R
  have ht := T.t_pos
  have hm := T.mass_pos h.toSmooth
  have hE0 : 0 ≤ ∫ ω, energy m (X 0 ω) ∂P := integral_nonneg fun ω => energy_nonneg hm _
  set E := ∫ ω, energy m (X 0 ω) ∂P with hE
  set σ := Real.exp (-(l * t)) with hσe
  have hσ0 : 0 < σ := Real.exp_pos _
  have hσ1 : σ < 1 := Real.exp_lt_one_iff.2 (by linarith [mul_pos hl ht])
  set p := ∫ x, f x ∂(boltz fun x => S * U x + c) with hpe
  have hst := Real.sqrt_nonneg t
  refine ⟨fun N => ?_, fun {D} hD {I} hI => ?_⟩
  · obtain ⟨i, k⟩ := hmain hA hf (w := fun _ => 1) (W := 1) measurable_const (fun _ => by simp) N
    simp only [one_mul, integral_const, probReal_univ, one_smul] at i k
    refine ⟨i, k.trans ?_⟩
    have e : Real.exp (-(l * t * N)) = σ ^ N := by
      rw [hσe, ← Real.exp_nat_mul]
      congr 1
      ring
    rw [e]
    refine mul_le_mul_of_nonneg_left (add_le_add ?_ ?_) hA
    · refine mul_le_mul_of_nonneg_right (mul_le_mul_of_nonneg_right (le_max_left _ _) (by linarith)) (pow_nonneg hσ0.le N)
    · exact mul_le_mul_of_nonneg_right (by linarith) hst
  · have cf : Continuous f := (LipschitzWith.of_dist_le_mul (K := ⟨A, hA⟩) fun x y => by
      rw [dist_eq_norm, dist_eq_norm]; exact hf x y).continuous
    have hD0 : 0 ≤ D := (abs_nonneg _).trans (hD 0)
    have hpD : |p| ≤ D := by
      have i1 : Integrable f (boltz fun x => S * U x + c) := (integrable_const D).mono' cf.measurable.aestronglyMeasurable (.of_forall hD)
      refine abs_integral_le_integral_abs.trans ((integral_mono i1.abs (integrable_const D) hD).trans (le_of_eq ?_))
      simp
    have hcov : ∀ j n : Nat, Integrable (fun ω => (f (X j ω) - p) * (f (X (j + n) ω) - p)) P ∧
        ∫ ω, (f (X j ω) - p) * (f (X (j + n) ω) - p) ∂P ≤ 2 * D * A * (C * ((1 + K) * (1 + E))) * σ ^ n + 2 * D * A * K * √t := fun j n => by
      have mw : Measurable[ℱ j] fun ω => f (X j ω) - p := (cf.measurable.comp (R.meas j)).sub_const p
      have bw : ∀ ω, |f (X j ω) - p| ≤ 2 * D := fun ω => by
        have := hD (X j ω)
        rw [abs_le] at this hpD ⊢
        constructor <;> linarith [this.1, this.2, hpD.1, hpD.2]
      obtain ⟨-, hs⟩ := main T htt (R.shift j (hen j).1)
      obtain ⟨i, k⟩ := hs hA hf (w := fun ω => f (X j ω) - p) mw bw n
      have iw : Integrable (fun ω => f (X j ω) - p) P := (integrable_const (2 * D)).mono' (mw.mono (R.le j) le_rfl).aestronglyMeasurable (.of_forall bw)
      have e : (fun ω => (f (X j ω) - p) * (f (X (j + n) ω) - p)) = fun ω => (f (X j ω) - p) * f (X (j + n) ω) - (f (X j ω) - p) * p := by
        funext ω
        ring
      rw [e]
      refine ⟨i.sub (iw.mul_const p), ?_⟩
      rw [integral_sub i (iw.mul_const p), integral_mul_const]
      refine (le_abs_self _).trans (k.trans ?_)
      have k1 : 1 + ∫ ω, energy m (X (j + 0) ω) ∂P ≤ (1 + K) * (1 + E) := by
        have k2 := (hen j).2
        have k3 := mul_nonneg hK hE0
        rw [Nat.add_zero]
        linarith
      have k2 := mul_le_mul_of_nonneg_right (mul_le_mul_of_nonneg_left k1 hC) (pow_nonneg hσ0.le n)
      have k3 := mul_le_mul_of_nonneg_left (add_le_add_left k2 (K * √t)) (by positivity : 0 ≤ 2 * D * A)
      rw [← hσe]
      linarith
    obtain ⟨i, k⟩ := average_near hσ0.le hσ1 (by positivity) hcov hI
    have hc : (0 : ℝ) < I.card := by exact_mod_cast hI.card_pos
    have e : ∀ ω, (∑ k ∈ I, (f (X k ω) - p)) / I.card = (∑ k ∈ I, f (X k ω)) / I.card - p := fun ω => by
      rw [Finset.sum_sub_distrib, Finset.sum_const, nsmul_eq_mul]
      field_simp
    simp only [e] at i k
    refine ⟨i, k.trans ?_⟩
    have r1 := rate_le hl ht T.t_le
    rw [← hσe] at r1
    have r2 : 2 / (1 - σ) ≤ 2 * ((1 + l) / l) / t := by
      rw [le_div_iff₀ ht]
      have : 2 / (1 - σ) * t = 2 * (t / (1 - σ)) := by ring
      rw [this]
      linarith
    have r3 := mul_le_mul_of_nonneg_left r2 (by positivity : 0 ≤ 2 * D * A * (C * ((1 + K) * (1 + E))) / I.card)
    have r4 : 2 * D * A * (C * ((1 + K) * (1 + E))) / I.card * (2 * ((1 + l) / l) / t) = D * A * (C₁ * (1 + E) / (I.card * t)) := by
      rw [hC₁]
      have := hl.ne'
      field_simp
      ring
    have r5 : D * A * (C₁ * (1 + E) / (I.card * t)) ≤ D * A * (max C C₁ * (1 + E) / (I.card * t)) := by
      refine mul_le_mul_of_nonneg_left (div_le_div_of_nonneg_right (mul_le_mul_of_nonneg_right (le_max_right _ _) (by linarith)) (by positivity)) (by positivity)
    have r6 : 2 * D * A * (C * ((1 + K) * (1 + E))) * (2 / (1 - σ)) / I.card = 2 * D * A * (C * ((1 + K) * (1 + E))) / I.card * (2 / (1 - σ)) := by ring
    rw [r6]
    linarith

end PySGMCMC.Harris
