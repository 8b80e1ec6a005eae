import Verif.Lemmas.Harris

/-!
# Averages along a chain that forgets where it started
-/

open MeasureTheory ProbabilityTheory Filter Topology
namespace PySGMCMC.Harris
set_option linter.unusedSectionVars false

variable {E : Type*} [MeasurableSpace E] {Z : Type*} [MeasurableSpace Z] {κ : Measure Z} [IsProbabilityMeasure κ] {Ψ : E → Z → E} {V : E → ℝ}
  {γ K w C ρ : ℝ} {φ u : E → ℝ}
  {Ω : Type*} [MeasurableSpace Ω] {P : Measure Ω} [IsProbabilityMeasure P] {ζ : Nat → Ω → Z} {X : Nat → Ω → E} {x₀ : E}

theorem before_mono (ζ : Nat → Ω → Z) {j k : Nat} (hjk : j ≤ k) : before ζ j ≤ before ζ k := biSup_mono fun i hi => by
  simp only [Set.mem_Iio] at *
  omega

/-- The Markov property for one step. -/
theorem markov_step (hΨ : Measurable fun q : E × Z => Ψ q.1 q.2) (hζ : ∀ k, Measurable (ζ k)) (hi : iIndepFun ζ P) (hlaw : ∀ k, P.map (ζ k) = κ)
    (h0 : ∀ ω, X 0 ω = x₀) (hX : ∀ k ω, X (k + 1) ω = Ψ (X k ω) (ζ k ω)) {j k : Nat} (hjk : j ≤ k) (hu : Measurable u) (hφ : Measurable φ)
    (hint : Integrable (fun ω => u (X j ω) * φ (X (k + 1) ω)) P) :
    ∫ ω, u (X j ω) * φ (X (k + 1) ω) ∂P = ∫ ω, u (X j ω) * push κ Ψ φ (X k ω) ∂P := by
  have hb : ∀ k, Measurable[before ζ k] (X k) := before_measurable hΨ h0 hX
  have hm : ∀ k, Measurable (X k) := fun k => (chain_law hΨ hζ hi hlaw h0 hX k).1
  have hY : Measurable[before ζ k] fun ω => (X j ω, X k ω) := Measurable.prodMk ((hb j).mono (before_mono ζ hjk) le_rfl) (hb k)
  have hYm : Measurable fun ω => (X j ω, X k ω) := (hm j).prodMk (hm k)
  have hind := before_indepFun hζ hi k hY
  have hprod := hind.map_prod_eq_prod_map_map hYm.aemeasurable (hζ k).aemeasurable
  rw [hlaw k] at hprod
  have hF : Measurable fun q : (E × E) × Z => u q.1.1 * φ (Ψ q.1.2 q.2) := by
    have h1 : Measurable fun q : (E × E) × Z => Ψ q.1.2 q.2 := hΨ.comp ((measurable_snd.comp measurable_fst).prodMk measurable_snd)
    exact (hu.comp (measurable_fst.comp measurable_fst)).mul (hφ.comp h1)
  have hpm : Measurable fun ω => ((X j ω, X k ω), ζ k ω) := hYm.prodMk (hζ k)
  have hpush : Measurable (push κ Ψ φ) := by
    have h1 : StronglyMeasurable (Function.uncurry fun x ζ => φ (Ψ x ζ)) := (hφ.comp hΨ).stronglyMeasurable
    exact h1.integral_prod_right.measurable
  have hintF : Integrable (fun q : (E × E) × Z => u q.1.1 * φ (Ψ q.1.2 q.2)) ((P.map fun ω => (X j ω, X k ω)).prod κ) := by
    rw [← hprod]
    refine (integrable_map_measure hF.aestronglyMeasurable hpm.aemeasurable).2 ?_
    simpa only [hX, Function.comp_def] using hint
  have hprob : IsProbabilityMeasure (P.map fun ω => (X j ω, X k ω)) := Measure.isProbabilityMeasure_map hYm.aemeasurable
  calc ∫ ω, u (X j ω) * φ (X (k + 1) ω) ∂P = ∫ q, u q.1.1 * φ (Ψ q.1.2 q.2) ∂P.map fun ω => ((X j ω, X k ω), ζ k ω) := by
        rw [integral_map hpm.aemeasurable hF.aestronglyMeasurable]
        simp only [hX]
    _ = ∫ p, ∫ z, u p.1 * φ (Ψ p.2 z) ∂κ ∂P.map fun ω => (X j ω, X k ω) := by rw [hprod, integral_prod _ hintF]
    _ = ∫ p, u p.1 * push κ Ψ φ p.2 ∂P.map fun ω => (X j ω, X k ω) := by
        simp only [integral_const_mul]
        rfl
    _ = _ := integral_map hYm.aemeasurable ((hu.comp measurable_fst).mul (hpush.comp measurable_snd)).aestronglyMeasurable

theorem integrable_mul_of_sq {f g : Ω → ℝ} (hf : Measurable f) (hg : Measurable g) (hf2 : Integrable (fun ω => f ω ^ 2) P)
    (hg2 : Integrable (fun ω => g ω ^ 2) P) : Integrable (fun ω => f ω * g ω) P := by
  refine (hf2.add hg2).mono' (hf.mul hg).aestronglyMeasurable (ae_of_all _ fun ω => ?_)
  simp only [Pi.add_apply, Real.norm_eq_abs]
  exact abs_le.2 ⟨by nlinarith [sq_nonneg (f ω + g ω), sq_nonneg (f ω), sq_nonneg (g ω)],
    by nlinarith [sq_nonneg (f ω - g ω), sq_nonneg (f ω), sq_nonneg (g ω)]⟩

namespace Mixes
open Moves

theorem _root_.PySGMCMC.Harris.Moves.Dom.sq (hφ : Dom V φ) {Y : Ω → E} (hY : Measurable Y) (hi : Integrable (fun ω => V (Y ω) ^ 2) P) :
    Integrable (fun ω => φ (Y ω) ^ 2) P := by
  obtain ⟨hm, a, b, ha, hb⟩ := hφ
  refine ((hi.const_mul (2 * a ^ 2)).add (integrable_const (2 * b ^ 2))).mono' ((hm.comp hY).pow_const 2).aestronglyMeasurable
    (ae_of_all _ fun ω => ?_)
  rw [Pi.add_apply, Real.norm_eq_abs, abs_of_nonneg (sq_nonneg (φ (Y ω)))]
  have h1 : φ (Y ω) ^ 2 ≤ (a * V (Y ω) + b) ^ 2 := by
    rw [← sq_abs]
    exact pow_le_pow_left₀ (abs_nonneg _) (hb _) 2
  nlinarith [sq_nonneg (a * V (Y ω) - b)]

/-- The Markov property. -/
theorem markov (h : Mixes κ Ψ V γ K w C ρ) (hζ : ∀ k, Measurable (ζ k)) (hi : iIndepFun ζ P) (hlaw : ∀ k, P.map (ζ k) = κ)
    (h0 : ∀ ω, X 0 ω = x₀) (hX : ∀ k ω, X (k + 1) ω = Ψ (X k ω) (ζ k ω)) (hV2 : ∀ k, Integrable (fun ω => V (X k ω) ^ 2) P)
    (hu : Dom V u) (hφ : Dom V φ) (j n : Nat) :
    ∫ ω, u (X j ω) * φ (X (j + n) ω) ∂P = ∫ ω, u (X j ω) * (push κ Ψ)^[n] φ (X j ω) ∂P := by
  have hm : ∀ k, Measurable (X k) := fun k => (chain_law h.meas hζ hi hlaw h0 hX k).1
  induction n generalizing φ with
  | zero => rfl
  | succ n ih =>
    rw [Function.iterate_succ_apply, ← ih (hφ.push h.toMoves), ← Nat.add_assoc]
    exact markov_step h.meas hζ hi hlaw h0 hX (Nat.le_add_right j n) hu.1 hφ.1
      (integrable_mul_of_sq (hu.1.comp (hm j)) (hφ.1.comp (hm _)) (hu.sq (hm j) (hV2 j)) (hφ.sq (hm _) (hV2 _)))

/-- Samples far apart are nearly uncorrelated. -/
theorem covariance (h : Mixes κ Ψ V γ K w C ρ) [Nonempty E] (hζ : ∀ k, Measurable (ζ k)) (hi : iIndepFun ζ P) (hlaw : ∀ k, P.map (ζ k) = κ)
    (h0 : ∀ ω, X 0 ω = x₀) (hX : ∀ k ω, X (k + 1) ω = Ψ (X k ω) (ζ k ω)) (hV2 : ∀ k, Integrable (fun ω => V (X k ω) ^ 2) P)
    {π : Measure E} [IsProbabilityMeasure π] (hinv : law κ Ψ π = π) (hVπ : Integrable V π) (hπ : ∫ x, V x ∂π ≤ K / (1 - γ))
    (hφ : Measurable φ) {A : ℝ} (hA : 0 ≤ A) (hb : ∀ x, |φ x| ≤ A * (1 + V x)) {S : ℝ} (hS : ∀ k, ∫ ω, V (X k ω) ^ 2 ∂P ≤ S) (j n : Nat) :
    Integrable (fun ω => (φ (X j ω) - ∫ y, φ y ∂π) * (φ (X (j + n) ω) - ∫ y, φ y ∂π)) P ∧
    ∫ ω, (φ (X j ω) - ∫ y, φ y ∂π) * (φ (X (j + n) ω) - ∫ y, φ y ∂π) ∂P ≤ 2 * (A * gap γ K w C) ^ 2 * (1 + S) * ρ ^ n := by
  have hm : ∀ k, Measurable (X k) := fun k => (chain_law h.meas hζ hi hlaw h0 hX k).1
  set c := ∫ y, φ y ∂π
  have hd : Dom V φ := ⟨hφ, A, A, hA, fun x => (hb x).trans (by linarith)⟩
  have hu : Dom V fun x => φ x - c := ⟨hφ.sub_const c, A, A + |c|, hA, fun x => (abs_sub _ _).trans (by linarith [hb x])⟩
  have hmul : ∀ {f g : E → ℝ} (_ : Dom V f) (_ : Dom V g) (j k : Nat), Integrable (fun ω => f (X j ω) * g (X k ω)) P := fun hf hg j k =>
    integrable_mul_of_sq (hf.1.comp (hm j)) (hg.1.comp (hm k)) (hf.sq (hm j) (hV2 j)) (hg.sq (hm k) (hV2 k))
  refine ⟨hmul hu hu j (j + n), ?_⟩
  have hone : Dom V fun _ : E => c := ⟨measurable_const, 0, |c|, le_rfl, fun x => by simp⟩
  have hw : Dom V ((push κ Ψ)^[n] φ) := hd.iterate h.toMoves n
  have e1 : ∫ ω, (φ (X j ω) - c) * (φ (X (j + n) ω) - c) ∂P = ∫ ω, (φ (X j ω) - c) * ((push κ Ψ)^[n] φ (X j ω) - c) ∂P := by
    simp only [mul_sub (φ (X j _) - c)]
    rw [integral_sub (hmul hu hd j (j + n)) (hmul hu hone j j), integral_sub (hmul hu hw j j) (hmul hu hone j j),
      h.markov hζ hi hlaw h0 hX hV2 hu hd j n]
  rw [e1]
  have hg := h.gap_nonneg
  have hr := h.rate_nonneg
  have hpt : ∀ x, (φ x - c) * ((push κ Ψ)^[n] φ x - c) ≤ (2 * (A * gap γ K w C) ^ 2 * ρ ^ n) * (1 + V x ^ 2) := fun x => by
    have h1 := h.geometric hinv hVπ hπ hφ hA hb 0 x
    have h2 := h.geometric hinv hVπ hπ hφ hA hb n x
    rw [pow_zero, mul_one] at h1
    change |φ x - c| ≤ _ at h1
    have h3 : |φ x - c| * |(push κ Ψ)^[n] φ x - c| ≤ (A * gap γ K w C * (1 + V x)) * (A * gap γ K w C * (1 + V x) * ρ ^ n) :=
      mul_le_mul h1 h2 (abs_nonneg _) ((abs_nonneg _).trans h1)
    rw [← abs_mul] at h3
    refine (le_abs_self _).trans (h3.trans ?_)
    have h4 : (1 + V x) ^ 2 ≤ 2 * (1 + V x ^ 2) := by nlinarith [sq_nonneg (1 - V x)]
    have h5 : 0 ≤ (A * gap γ K w C) ^ 2 * ρ ^ n := by positivity
    have h6 := mul_le_mul_of_nonneg_left h4 h5
    calc _ = (A * gap γ K w C) ^ 2 * ρ ^ n * (1 + V x) ^ 2 := by ring
      _ ≤ _ := h6
      _ = _ := by ring
  have hwc : Dom V fun x => (push κ Ψ)^[n] φ x - c := by
    obtain ⟨hm', a, b, ha, hb'⟩ := hw
    exact ⟨hm'.sub_const c, a, b + |c|, ha, fun x => (abs_sub _ _).trans (by linarith [hb' x])⟩
  have hi2 : Integrable (fun ω => (2 * (A * gap γ K w C) ^ 2 * ρ ^ n) * (1 + V (X j ω) ^ 2)) P :=
    ((integrable_const 1).add (hV2 j)).const_mul _
  refine (integral_mono (hmul hu hwc j j) hi2 fun ω => hpt _).trans ?_
  rw [integral_const_mul, integral_add (integrable_const 1) (hV2 j)]
  simp only [integral_const, probReal_univ, one_smul]
  have h5 : 0 ≤ 2 * (A * gap γ K w C) ^ 2 * ρ ^ n := by positivity
  refine (mul_le_mul_of_nonneg_left (add_le_add_right (hS j) 1) h5).trans (le_of_eq ?_)
  ring

end Mixes

theorem sum_pow_dist {ρ : ℝ} (h0 : 0 ≤ ρ) (h1 : ρ < 1) (I : Finset Nat) (j : Nat) : ∑ k ∈ I, ρ ^ (max j k - min j k) ≤ 2 / (1 - ρ) := by
  have hs := hasSum_geometric_of_lt_one h0 h1
  have hinj : ∀ (S : Finset Nat) (e : Nat → Nat), Set.InjOn e S → ∑ k ∈ S, ρ ^ e k ≤ (1 - ρ)⁻¹ := fun S e he => by
    rw [← Finset.sum_image (f := fun n => ρ ^ n) (g := e) fun x hx y hy h => he hx hy h]
    exact sum_le_hasSum _ (fun n _ => pow_nonneg h0 n) hs
  rw [← Finset.sum_filter_add_sum_filter_not I (fun k => k ≤ j)]
  have a1 := hinj (I.filter fun k => k ≤ j) (fun k => max j k - min j k) fun x hx y hy h => by
    simp only [Finset.coe_filter, Set.mem_ofPred_eq] at hx hy
    simp only at h
    omega
  have a2 := hinj (I.filter fun k => ¬k ≤ j) (fun k => max j k - min j k) fun x hx y hy h => by
    simp only [Finset.coe_filter, Set.mem_ofPred_eq] at hx hy
    simp only at h
    omega
  rw [div_eq_mul_inv, two_mul]
  exact add_le_add a1 a2

/-- Averages over samples of one chain. -/
theorem average_of_covariance {Y : Nat → Ω → ℝ} {C ρ : ℝ} (hρ0 : 0 ≤ ρ) (hρ1 : ρ < 1) (hC : 0 ≤ C)
    (h : ∀ j n, Integrable (fun ω => Y j ω * Y (j + n) ω) P ∧ ∫ ω, Y j ω * Y (j + n) ω ∂P ≤ C * ρ ^ n) {I : Finset Nat} (hI : I.Nonempty) :
    Integrable (fun ω => ((∑ k ∈ I, Y k ω) / I.card) ^ 2) P ∧ ∫ ω, ((∑ k ∈ I, Y k ω) / I.card) ^ 2 ∂P ≤ C * (2 / (1 - ρ)) / I.card := by
  have hsym : ∀ j k, Integrable (fun ω => Y j ω * Y k ω) P ∧ ∫ ω, Y j ω * Y k ω ∂P ≤ C * ρ ^ (max j k - min j k) := fun j k => by
    rcases le_total j k with hjk | hjk
    · have := h j (k - j)
      rw [Nat.add_sub_cancel' hjk] at this
      rwa [max_eq_right hjk, min_eq_left hjk]
    · have := h k (j - k)
      rw [Nat.add_sub_cancel' hjk] at this
      rw [max_eq_left hjk, min_eq_right hjk]
      simpa only [mul_comm] using this
  have hc : (0 : ℝ) < I.card := by exact_mod_cast hI.card_pos
  have e : (fun ω => ((∑ k ∈ I, Y k ω) / (I.card : ℝ)) ^ 2) = fun ω => (∑ j ∈ I, ∑ k ∈ I, Y j ω * Y k ω) / (I.card : ℝ) ^ 2 := by
    funext ω
    rw [div_pow, pow_two, Finset.sum_mul_sum]
  have hi : Integrable (fun ω => ∑ j ∈ I, ∑ k ∈ I, Y j ω * Y k ω) P :=
    integrable_finsetSum _ fun j _ => integrable_finsetSum _ fun k _ => (hsym j k).1
  rw [e]
  refine ⟨hi.div_const _, ?_⟩
  rw [integral_div, integral_finsetSum _ fun j _ => integrable_finsetSum _ fun k _ => (hsym j k).1]
  have hb : ∑ j ∈ I, ∫ ω, ∑ k ∈ I, Y j ω * Y k ω ∂P ≤ I.card * (C * (2 / (1 - ρ))) := by
    rw [← nsmul_eq_mul]
    refine Finset.sum_le_card_nsmul _ _ _ fun j _ => ?_
    rw [integral_finsetSum _ fun k _ => (hsym j k).1]
    refine (Finset.sum_le_sum fun k _ => (hsym j k).2).trans ?_
    rw [← Finset.mul_sum]
    exact mul_le_mul_of_nonneg_left (sum_pow_dist hρ0 hρ1 I j) hC
  rw [div_le_div_iff₀ (by positivity) hc]
  calc _ ≤ I.card * (C * (2 / (1 - ρ))) * I.card := mul_le_mul_of_nonneg_right hb hc.le
    _ = _ := by ring

end PySGMCMC.Harris
