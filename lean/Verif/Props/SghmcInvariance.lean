import Verif.Props.RelInvariance

/-!
# C105: SGHMC samples the posterior of any smooth cost, up to the discretisation error

After burn-in (the masses are fed) and with `mdecay = α` fixed, consider the point `θ + (1-α)/α V` at which the parameters would come
to rest without further gradients and noise.  If it is distributed with density proportional to `exp (-scale U)`, then so it is after one
more `session.run`, up to `O(ε³)`, although it moves by `O(ε)`.  The momentum may depend on the position in any way.
-/

namespace PySGMCMC.SGHMC
variable {P : Type} [DecidableEq P] {ι : P → Type}

/-- What the gradient of a parameter sees depends on the execution order only. -/
theorem order_grad (σ : Schedule P) : ∃ (isNew : P → P → Bool) (rank : P → Nat),
    (∀ i j, isNew i j = true → rank j < rank i) ∧
    ∀ (inp : Inputs ι) (s : State ι) i, ((run inp σ s).par i).tGrad
      = inp.grad (fun j => if isNew i j then (run inp σ s).params j else s.params j) i := by
  choose pre post horder using fun i => List.append_of_mem (σ.complete (.op i .xGrad))
  refine ⟨fun i j => decide (Node.op j .setParam ∈ pre i), fun i => σ.order.idxOf (.op i .xGrad), ?_, ?_⟩
  · intro i j hj
    have hm : Node.op j .setParam ∈ pre i := by simpa using hj
    have h1 : Node.op j .setG ∈ pre i := deps_mem σ (horder i) hm (List.mem_map_of_mem (by decide))
    have h2 : Node.op j .xG ∈ pre i := deps_mem σ (horder i) h1 (List.mem_map_of_mem (by decide))
    have h3 : Node.op j .xGrad ∈ pre i := deps_mem σ (horder i) h2 (List.mem_map_of_mem (by decide))
    have hnd := σ.nodup
    rw [horder i] at hnd
    obtain ⟨-, -, hdisj⟩ := List.nodup_append.1 hnd
    have hni : Node.op i .xGrad ∉ pre i := fun h => hdisj _ h _ (by simp) rfl
    show σ.order.idxOf _ < σ.order.idxOf _
    rw [horder i, List.idxOf_append_of_mem h3, List.idxOf_append_of_notMem hni]
    exact Nat.lt_of_lt_of_le (List.idxOf_lt_length_of_mem h3) (Nat.le_add_right _ _)
  · intro inp s i
    rw [run_grad_at inp σ s i (pre i) (post i) (horder i)]
    simp only [decide_eq_true_eq]

/-- The new momentum and position of an element whose mass is fed. -/
theorem run_position (inp : Inputs ι) (σ : Schedule P) (s : State ι) (i : P) (k : ι i) (th v eps alpha scale x z m : ℝ) (mass : ι i → Fl)
    (hth : (s.par i).vec k = .fin th) (hv : (s.par i).mom k = .fin v) (heps : inp.epsilon = .fin eps) (ha : inp.mdecay = .fin alpha)
    (hscale : inp.scaleGrad = .fin scale) (hx : ((run inp σ s).par i).tGrad k = .fin x) (hz : inp.normal i k = .fin z)
    (hf : inp.fed i = some mass) (hm : mass k = .fin m) (hs : 0 < scale) :
    ((run inp σ s).par i).mom k = .fin (v - eps ^ 2 * m * x - alpha * v + Spec.sghmcSd eps alpha scale m * z)
    ∧ (run inp σ s).params i k = .fin (th + (v - eps ^ 2 * m * x - alpha * v + Spec.sghmcSd eps alpha scale m * z)) := by
  have hp := run_par inp σ s i
  have e : ((run inp σ s).par i).mom k = (s.par i).mom k + rhsMom inp.epsilon inp.mdecay
      (minvSeen (inp.fed i) (fun k => BurnInStats.rhsMinv ((s.par i).vhat k)) k) (((run inp σ s).par i).tGrad k) ((s.par i).mom k)
      (sigma (epsilonScaled inp.epsilon inp.scaleGrad) inp.mdecay
        (minvSeen (inp.fed i) (fun k => BurnInStats.rhsMinv ((s.par i).vhat k)) k) * inp.normal i k) :=
    congrFun (congrArg PState.mom hp) k
  have e2 : (run inp σ s).params i k = (s.par i).vec k + ((run inp σ s).par i).mom k := by
    rw [e]; exact congrFun (congrArg PState.param hp) k
  have h1 : ((run inp σ s).par i).mom k = .fin (v - eps ^ 2 * m * x - alpha * v + Spec.sghmcSd eps alpha scale m * z) := by
    rw [e, hf]
    simp only [minvSeen, Option.getD_some]
    rw [hm, heps, hscale, ha, Chain.sd_sghmc _ _ _ _ hs, hx, hz, hv]
    unfold rhsMom
    rw [Fl.npow_fin]
    simp only [Fl.neg_fin, Fl.mul_fin, Fl.sub_fin, Fl.add_fin]
    congr 1
    ring
  refine ⟨h1, ?_⟩
  rw [e2, h1, hth, Fl.add_fin]

end PySGMCMC.SGHMC

namespace PySGMCMC.Invariance
open MeasureTheory Recipe

section analysis
variable {J : Type} [Fintype J] [DecidableEq J]

omit [DecidableEq J] in
/-- How far the resting point is from a Langevin step. -/
theorem rest_bound (γ : (J → ℝ) → J → ℝ) (Λ : ℝ) (hΛ : 0 ≤ Λ) (hlip : ∀ x x', ‖γ x - γ x'‖ ≤ Λ * ‖x - x'‖) (m θ V V' y z ρ τ r : J → ℝ)
    (α ε : ℝ) (hα : 0 < α) (h0 : 0 ≤ ε) (h1 : ε ≤ 1) (hsm : ε * (‖m‖ * Λ) ≤ 1 / 2) (hr0 : ∀ j, 0 ≤ r j) (hr : ∀ j, r j ≤ ρ j)
    (hτ : ∀ j, |r j - ρ j| ≤ ε ^ 2 * τ j) (isNew : J → J → Bool)
    (hV : ∀ j, V' j = V j - ε ^ 2 * m j * γ (fun k => if isNew j k then θ k + V' k else θ k) j - α * V j + ε * r j * z j)
    (hy : ∀ j, y j = θ j + (1 - α) / α * V j) :
    ‖(fun j => θ j + V' j + (1 - α) / α * V' j) - (y + (ε ^ 2 • (fun j => -(m j / α) * γ y j) + ε • ((fun j => ρ j / α) * z)))‖
      ≤ ε ^ 2 * (‖m‖ * Λ * (2 * |1 - α| + 2 * (|1 - α| / α)) / α * ‖V‖)
        + ε ^ 3 * (2 * ‖m‖ * ‖m‖ * Λ / α * ‖γ y‖ + (2 * ‖m‖ * Λ * ‖ρ‖ / α + ‖τ‖ / α) * ‖z‖) := by
  set a := |1 - α| with ha
  set κ := |1 - α| / α with hκ
  set Δ := ‖V'‖ with hΔ
  have ha0 : 0 ≤ a := abs_nonneg _
  have hκ0 : 0 ≤ κ := by positivity
  have hΔ0 : 0 ≤ Δ := norm_nonneg _
  have hm0 := norm_nonneg m
  have hV0 := norm_nonneg V
  have hg0 := norm_nonneg (γ y)
  have hz0 := norm_nonneg z
  have hρ0 := norm_nonneg ρ
  have hτ0 := norm_nonneg τ
  have hκ' : |(1 - α) / α| = κ := by rw [abs_div, abs_of_pos hα]
  have hseen : ∀ j, ‖(fun k => if isNew j k then θ k + V' k else θ k) - y‖ ≤ Δ + κ * ‖V‖ := fun j => by
    refine (pi_norm_le_iff_of_nonneg (by positivity)).2 fun k => ?_
    have hk1 : |V' k| ≤ Δ := norm_le_pi_norm V' k
    have hk2 : |(1 - α) / α * V k| ≤ κ * ‖V‖ := by
      rw [abs_mul, hκ']; exact mul_le_mul_of_nonneg_left (norm_le_pi_norm V k) hκ0
    simp only [Pi.sub_apply, hy, Real.norm_eq_abs]
    by_cases hk : isNew j k = true
    · rw [if_pos hk, show θ k + V' k - (θ k + (1 - α) / α * V k) = V' k - (1 - α) / α * V k by ring]
      exact (abs_sub _ _).trans (add_le_add hk1 hk2)
    · rw [if_neg hk, show θ k - (θ k + (1 - α) / α * V k) = -((1 - α) / α * V k) by ring, abs_neg]
      linarith
  have hγd : ∀ j, |γ (fun k => if isNew j k then θ k + V' k else θ k) j - γ y j| ≤ Λ * (Δ + κ * ‖V‖) := fun j =>
    (norm_le_pi_norm (γ (fun k => if isNew j k then θ k + V' k else θ k) - γ y) j).trans
      ((hlip _ _).trans (mul_le_mul_of_nonneg_left (hseen j) hΛ))
  have hgj : ∀ j, |γ y j| ≤ ‖γ y‖ := fun j => norm_le_pi_norm (γ y) j
  have hmj : ∀ j, |m j| ≤ ‖m‖ := fun j => norm_le_pi_norm m j
  have hzj : ∀ j, |z j| ≤ ‖z‖ := fun j => norm_le_pi_norm z j
  have hVj : ∀ j, |V j| ≤ ‖V‖ := fun j => norm_le_pi_norm V j
  have hrj : ∀ j, |r j| ≤ ‖ρ‖ := fun j => by
    rw [abs_of_nonneg (hr0 j)]
    exact (hr j).trans ((le_abs_self _).trans (norm_le_pi_norm ρ j))
  have hτj : ∀ j, |r j - ρ j| ≤ ε ^ 2 * ‖τ‖ := fun j =>
    (hτ j).trans (mul_le_mul_of_nonneg_left ((le_abs_self _).trans (norm_le_pi_norm τ j)) (sq_nonneg ε))
  -- the size of the new momentum
  have hsize : Δ ≤ a * ‖V‖ + ε ^ 2 * (‖m‖ * (‖γ y‖ + Λ * (Δ + κ * ‖V‖))) + ε * (‖ρ‖ * ‖z‖) := by
    refine (pi_norm_le_iff_of_nonneg (by positivity)).2 fun j => ?_
    have e : V' j = (1 - α) * V j - ε ^ 2 * (m j * (γ y j + (γ (fun k => if isNew j k then θ k + V' k else θ k) j - γ y j)))
        + ε * (r j * z j) := by
      conv_lhs => rw [hV j]
      ring
    rw [Real.norm_eq_abs, e]
    refine (abs_add_le _ _).trans (add_le_add ((abs_sub _ _).trans (add_le_add ?_ ?_)) ?_)
    · rw [abs_mul]; exact mul_le_mul_of_nonneg_left (hVj j) ha0
    · rw [abs_mul, abs_of_nonneg (sq_nonneg ε), abs_mul]
      refine mul_le_mul_of_nonneg_left (mul_le_mul (hmj j) ?_ (abs_nonneg _) hm0) (sq_nonneg ε)
      exact (abs_add_le _ _).trans (add_le_add (hgj j) (hγd j))
    · rw [abs_mul, abs_of_nonneg h0, abs_mul]
      exact mul_le_mul_of_nonneg_left (mul_le_mul (hrj j) (hzj j) (abs_nonneg _) hρ0) h0
  have hsq : ε ^ 2 * (‖m‖ * Λ) ≤ 1 / 2 := by
    refine le_trans ?_ hsm
    exact mul_le_mul_of_nonneg_right (by nlinarith) (by positivity)
  have hsize2 : Δ + κ * ‖V‖ ≤ (2 * a + 2 * κ) * ‖V‖ + ε * (2 * (‖m‖ * ‖γ y‖) + 2 * (‖ρ‖ * ‖z‖)) := by
    have t1 : ε ^ 2 * (‖m‖ * Λ) * (Δ + κ * ‖V‖) ≤ 1 / 2 * (Δ + κ * ‖V‖) := mul_le_mul_of_nonneg_right hsq (by positivity)
    have t2 : ε ^ 2 * (‖m‖ * ‖γ y‖) ≤ ε * (‖m‖ * ‖γ y‖) := mul_le_mul_of_nonneg_right (by nlinarith) (by positivity)
    nlinarith
  refine (pi_norm_le_iff_of_nonneg (by positivity)).2 fun j => ?_
  have e : ((fun j => θ j + V' j + (1 - α) / α * V' j)
      - (y + (ε ^ 2 • (fun j => -(m j / α) * γ y j) + ε • ((fun j => ρ j / α) * z)))) j
      = -(ε ^ 2 / α * (m j * (γ (fun k => if isNew j k then θ k + V' k else θ k) j - γ y j))) + ε / α * ((r j - ρ j) * z j) := by
    simp only [Pi.sub_apply, Pi.add_apply, Pi.smul_apply, Pi.mul_apply, smul_eq_mul, hy]
    have hV1 : V' j + (1 - α) / α * V' j = V' j / α := by field_simp; ring
    rw [add_assoc, hV1]
    conv_lhs => rw [hV j]
    field_simp
    ring
  rw [e, Real.norm_eq_abs]
  have b1 : |ε ^ 2 / α * (m j * (γ (fun k => if isNew j k then θ k + V' k else θ k) j - γ y j))|
      ≤ ε ^ 2 / α * (‖m‖ * (Λ * ((2 * a + 2 * κ) * ‖V‖ + ε * (2 * (‖m‖ * ‖γ y‖) + 2 * (‖ρ‖ * ‖z‖))))) := by
    rw [abs_mul, abs_of_nonneg (by positivity), abs_mul]
    refine mul_le_mul_of_nonneg_left (mul_le_mul (hmj j) ((hγd j).trans ?_) (abs_nonneg _) hm0) (by positivity)
    exact mul_le_mul_of_nonneg_left hsize2 hΛ
  have b2 : |ε / α * ((r j - ρ j) * z j)| ≤ ε / α * (ε ^ 2 * ‖τ‖ * ‖z‖) := by
    rw [abs_mul, abs_of_nonneg (by positivity), abs_mul]
    exact mul_le_mul_of_nonneg_left (mul_le_mul (hτj j) (hzj j) (abs_nonneg _) (by positivity)) (by positivity)
  refine (abs_add_le _ _).trans ?_
  rw [abs_neg]
  refine (add_le_add b1 b2).trans (le_of_eq ?_)
  field_simp
  ring

variable {Bt : Type} [MeasurableSpace Bt]

/-- One step of the resting point. -/
theorem rest_step (U : (J → ℝ) → ℝ) (hU : ContDiff ℝ 1 U) (α scale c₀ : ℝ) (hα : 0 < α) (hs : 0 < scale)
    (m : J → ℝ) (hm : ∀ j, 0 < m j) (ν : Measure Bt) [IsProbabilityMeasure ν] (γ : Bt → (J → ℝ) → J → ℝ) (Λ : ℝ)
    (hγ : BatchGrad ν U γ Λ) (N : Measure (J → ℝ)) (hN : UnitNoise N)
    (π : Measure (J → ℝ)) (hπ : π = boltz fun x => scale * U x + c₀) [IsFiniteMeasure π]
    (h3 : Integrable (fun y : (J → ℝ) × Bt => ‖γ y.2 y.1‖ ^ 3) (π.prod ν))
    (f : (J → ℝ) → ℝ) (hf : ContDiff ℝ 3 f) (hc : HasCompactSupport f) :
    ∃ K, ∀ ε W, 0 ≤ ε → 0 ≤ W → ∀ (Ω : Type) [MeasurableSpace Ω] (μ : Measure Ω) [IsFiniteMeasure μ] (θ V V' z : Ω → J → ℝ) (β : Ω → Bt),
      Measurable θ → Measurable V → Measurable V' → Measurable z → Measurable β →
      μ.map (fun ω => ((fun j => θ ω j + (1 - α) / α * V ω j, β ω), z ω)) = (π.prod ν).prod N →
      Integrable (fun ω => ‖V ω‖) μ → ∫ ω, ‖V ω‖ ∂μ ≤ W * ε →
      ∀ isNew : J → J → Bool, (∀ ω j, V' ω j = V ω j - ε ^ 2 * m j * γ (β ω) (fun k => if isNew j k then θ ω k + V' ω k else θ ω k) j
        - α * V ω j + ε * √(2 * α * m j / scale - ε ^ 2 / scale ^ 2) * z ω j) →
      |∫ ω, f (fun j => θ ω j + V' ω j + (1 - α) / α * V' ω j) ∂μ - ∫ x, f x ∂π| ≤ K * (1 + W) * ε ^ 3 := by
  subst hπ
  have := hN.prob
  have hΛ := hγ.nonneg
  set π := boltz fun x => scale * U x + c₀ with hπ
  set ρ : J → ℝ := fun j => √(2 * α * m j / scale) with hρ
  set τ : J → ℝ := fun j => 1 / scale ^ 2 / ρ j with hτ
  have hρpos : ∀ j, 0 < ρ j := fun j => Real.sqrt_pos.2 (by have := hm j; positivity)
  set S : J → ℝ := fun j => ρ j / α with hS
  have hS2 : ∀ j, S j ^ 2 = 2 * m j / (α * scale) := fun j => by
    have := hm j
    simp only [hS, hρ]
    rw [div_pow, Real.sq_sqrt (by positivity)]
    field_simp
  have hH : ContDiff ℝ 1 fun x => scale * U x + c₀ := (contDiff_const.mul hU).add contDiff_const
  have hpd : ∀ j x, partialD (fun x => scale * U x + c₀) j x = scale * partialD U j x := fun j x => by
    have h := ((hU.differentiable (by norm_num) x).hasFDerivAt.const_mul scale).add_const c₀
    unfold partialD
    rw [h.fderiv]
    simp
  let B : (J → ℝ) × Bt → J → ℝ := fun y j => -(m j / α) * γ y.2 y.1 j
  have hBm : Measurable B := measurable_pi_iff.2 fun j => (show Measurable fun y : (J → ℝ) × Bt => γ y.2 y.1 j from
    (measurable_pi_apply j).comp hγ.meas).const_mul _
  have hBn : ∀ y, ‖B y‖ ≤ ‖fun j => -(m j / α)‖ * ‖γ y.2 y.1‖ := fun y => norm_mul_le (fun j => -(m j / α)) (γ y.2 y.1)
  have hB3 : Integrable (fun y => ‖B y‖ ^ 3) (π.prod ν) := by
    refine (h3.const_mul (‖fun j => -(m j / α)‖ ^ 3)).mono' (hBm.norm.pow_const 3).aestronglyMeasurable (.of_forall fun y => ?_)
    rw [norm_pow, norm_norm, ← mul_pow]
    exact pow_le_pow_left₀ (norm_nonneg _) (hBn y) 3
  have hmean : ∀ x j, ∫ β, B (x, β) j ∂ν = -(S j ^ 2 / 2 * partialD (fun x => scale * U x + c₀) j x
      + ∑ k, (0 : J → J → ℝ) j k * partialD (fun x => scale * U x + c₀) k x) := fun x j => by
    simp only [B]
    rw [integral_const_mul, hγ.mean, hpd, hS2]
    simp only [Pi.zero_apply, zero_mul, Finset.sum_const_zero]
    field_simp
    ring
  have i1 : Integrable (fun y : (J → ℝ) × Bt => ‖γ y.2 y.1‖) (π.prod ν) := by
    refine ((integrable_const (1 : ℝ)).add h3).mono' hγ.meas.norm.aestronglyMeasurable (.of_forall fun y => ?_)
    have h0 := norm_nonneg (γ y.2 y.1)
    rw [norm_norm]
    simp only [Pi.add_apply]
    rcases le_total ‖γ y.2 y.1‖ 1 with h1 | h1
    · nlinarith [pow_nonneg h0 3]
    · nlinarith [mul_nonneg h0 (sub_nonneg.2 h1), mul_nonneg (mul_nonneg h0 h0) (sub_nonneg.2 h1)]
  have i2 : Integrable (fun q : ((J → ℝ) × Bt) × (J → ℝ) => ‖γ q.1.2 q.1.1‖) ((π.prod ν).prod N) := i1.comp_fst N
  have i3 : Integrable (fun q : ((J → ℝ) × Bt) × (J → ℝ) => ‖q.2‖) ((π.prod ν).prod N) := hN.norm.comp_snd _
  obtain ⟨K₀, hK₀⟩ := one_step' hH ν (hN.kick S) 0 (by simp) B hBm hB3 hmean (fun _ => 0) (integrable_zero _ _ _) 1 one_pos hf hc
  obtain ⟨M, hM0, hM⟩ := bounded hf.continuous hc
  obtain ⟨L, hL0, hL⟩ := bounded (hf.continuous_fderiv (by norm_num)) (hc.fderiv ℝ)
  have hlip : ∀ x x' : J → ℝ, |f x - f x'| ≤ L * ‖x - x'‖ := fun x x' =>
    Convex.norm_image_sub_le_of_norm_fderiv_le (𝕜 := ℝ) (s := Set.univ) (fun x _ => (hf.differentiable (by norm_num)) x) (fun x _ => hL x)
      convex_univ trivial trivial
  set Cv : ℝ := ‖m‖ * Λ * (2 * |1 - α| + 2 * (|1 - α| / α)) / α with hCv
  set Cg : ℝ := 2 * ‖m‖ * ‖m‖ * Λ / α with hCg
  set Cz : ℝ := 2 * ‖m‖ * Λ * ‖ρ‖ / α + ‖τ‖ / α with hCz
  have hCv0 : 0 ≤ Cv := by positivity
  have hCg0 : 0 ≤ Cg := by positivity
  have hCz0 : 0 ≤ Cz := by positivity
  set G : ℝ := ∫ q : ((J → ℝ) × Bt) × (J → ℝ), ‖γ q.1.2 q.1.1‖ ∂((π.prod ν).prod N) with hG
  set Z : ℝ := ∫ q : ((J → ℝ) × Bt) × (J → ℝ), ‖q.2‖ ∂((π.prod ν).prod N) with hZ
  have hG0 : 0 ≤ G := integral_nonneg fun _ => norm_nonneg _
  have hZ0 : 0 ≤ Z := integral_nonneg fun _ => norm_nonneg _
  set ε₁ : ℝ := 1 / (2 * (‖m‖ * Λ + 1)) with hε₁
  have hε₁0 : 0 < ε₁ := by positivity
  set mass : ℝ := π.real Set.univ with hmass
  have hmass0 : 0 ≤ mass := measureReal_nonneg
  refine ⟨(|K₀| + L * (Cv + Cg * G + Cz * Z)) + 2 * M * mass / ε₁ ^ 3, fun ε W h0 hW Ω _ μ _ θ V V' z β mθ mV mV' mz mβ hlaw iV hVW isNew hstep => ?_⟩
  let y : Ω → J → ℝ := fun ω j => θ ω j + (1 - α) / α * V ω j
  let X : Ω → J → ℝ := fun ω j => θ ω j + V' ω j + (1 - α) / α * V' ω j
  let X₀ : ((J → ℝ) × Bt) × (J → ℝ) → J → ℝ := fun q => q.1.1 + (ε ^ 2 • B q.1 + ε • (S * q.2))
  have my : Measurable y := by
    have : y = θ + ((1 - α) / α) • V := rfl
    rw [this]; exact mθ.add (mV.const_smul _)
  have mX : Measurable X := by
    have : X = θ + V' + ((1 - α) / α) • V' := rfl
    rw [this]; exact (mθ.add mV').add (mV'.const_smul _)
  have mX₀ : Measurable X₀ :=
    (measurable_fst.comp measurable_fst).add (((hBm.comp measurable_fst).const_smul (ε ^ 2)).add (((hN.kick S).meas.comp measurable_snd).const_smul ε))
  have mq : Measurable fun ω => ((y ω, β ω), z ω) := (my.prodMk mβ).prodMk mz
  have hlaw' : μ.map (fun ω => ((y ω, β ω), z ω)) = (π.prod ν).prod N := hlaw
  have hmassμ : μ.real Set.univ = mass := by
    have : μ.map (fun ω => ((y ω, β ω), z ω)) Set.univ = ((π.prod ν).prod N) Set.univ := by rw [hlaw']
    rw [Measure.map_apply mq MeasurableSet.univ, Set.preimage_univ, ← Set.univ_prod_univ, Measure.prod_prod, ← Set.univ_prod_univ,
      Measure.prod_prod, measure_univ (μ := ν), measure_univ (μ := N), mul_one, mul_one] at this
    simp only [hmass, Measure.real, this]
  have hε3 : 0 ≤ ε ^ 3 := by positivity
  have iX : Integrable (fun ω => f (X ω)) μ :=
    (integrable_const M).mono' (hf.continuous.measurable.comp mX).aestronglyMeasurable (.of_forall fun ω => hM _)
  rcases lt_or_ge ε₁ ε with hbig | hle
  · -- large steps
    have b1 : |∫ ω, f (X ω) ∂μ| ≤ M * mass := by
      have := norm_integral_le_of_norm_le_const (μ := μ) (.of_forall fun ω => hM (X ω))
      rwa [hmassμ] at this
    have b2 : |∫ x, f x ∂π| ≤ M * mass := norm_integral_le_of_norm_le_const (μ := π) (.of_forall fun x => hM x)
    have b3 : 2 * M * mass ≤ 2 * M * mass / ε₁ ^ 3 * ε ^ 3 := by
      rw [div_mul_eq_mul_div, le_div_iff₀ (by positivity)]
      exact mul_le_mul_of_nonneg_left (pow_le_pow_left₀ hε₁0.le hbig.le 3) (by positivity)
    have b4 : 2 * M * mass / ε₁ ^ 3 ≤ ((|K₀| + L * (Cv + Cg * G + Cz * Z)) + 2 * M * mass / ε₁ ^ 3) * (1 + W) := by
      have : 0 ≤ |K₀| + L * (Cv + Cg * G + Cz * Z) := by positivity
      have : 0 ≤ 2 * M * mass / ε₁ ^ 3 := by positivity
      nlinarith
    calc |∫ ω, f (X ω) ∂μ - ∫ x, f x ∂π| ≤ 2 * M * mass := (abs_sub _ _).trans (by linarith)
      _ ≤ _ := b3.trans (mul_le_mul_of_nonneg_right b4 hε3)
  · -- small steps
    have hm0 := norm_nonneg m
    have hsm : ε * (‖m‖ * Λ) ≤ 1 / 2 := by
      calc ε * (‖m‖ * Λ) ≤ ε₁ * (‖m‖ * Λ) := by gcongr
        _ ≤ 1 / 2 := by
          rw [hε₁, div_mul_eq_mul_div, div_le_div_iff₀ (by positivity) (by norm_num)]
          nlinarith [mul_nonneg hm0 hΛ]
    have h1 : ε ≤ 1 := hle.trans (by
      rw [hε₁, div_le_one (by positivity)]
      nlinarith [mul_nonneg hm0 hΛ])
    have hpt : ∀ ω, ‖X ω - X₀ ((y ω, β ω), z ω)‖ ≤ ε ^ 2 * (Cv * ‖V ω‖) + ε ^ 3 * (Cg * ‖γ (β ω) (y ω)‖ + Cz * ‖z ω‖) := fun ω =>
      rest_bound (γ (β ω)) Λ hΛ (hγ.lip (β ω)) m (θ ω) (V ω) (V' ω) (y ω) (z ω) ρ τ (fun j => √(2 * α * m j / scale - ε ^ 2 / scale ^ 2))
        α ε hα h0 h1 hsm (fun j => Real.sqrt_nonneg _) (fun j => Real.sqrt_le_sqrt (by
          have : 0 ≤ ε ^ 2 / scale ^ 2 := by positivity
          linarith))
        (fun j => by
          have := sqrt_sub_le (b := 2 * α * m j / scale) (by have := hm j; positivity) (2 * α * m j / scale - ε ^ 2 / scale ^ 2)
          refine this.trans (le_of_eq ?_)
          rw [show 2 * α * m j / scale - ε ^ 2 / scale ^ 2 - 2 * α * m j / scale = -(ε ^ 2 / scale ^ 2) by ring, abs_neg,
            abs_of_nonneg (by positivity)]
          simp only [hτ, hρ]
          ring)
        isNew (hstep ω) fun j => rfl
    have hmp : MeasurePreserving (fun ω => ((y ω, β ω), z ω)) μ ((π.prod ν).prod N) := ⟨mq, hlaw'⟩
    have j2 : Integrable (fun ω => ‖γ (β ω) (y ω)‖) μ := hmp.integrable_comp_of_integrable i2
    have j3 : Integrable (fun ω => ‖z ω‖) μ := hmp.integrable_comp_of_integrable i3
    have e2 : ∫ ω, ‖γ (β ω) (y ω)‖ ∂μ = G := by
      rw [hG, ← hlaw', integral_map mq.aemeasurable (hlaw' ▸ i2.1)]
    have e3 : ∫ ω, ‖z ω‖ ∂μ = Z := by
      rw [hZ, ← hlaw', integral_map mq.aemeasurable (hlaw' ▸ i3.1)]
    have iX₀ : Integrable (fun ω => f (X₀ ((y ω, β ω), z ω))) μ :=
      (integrable_const M).mono' (hf.continuous.measurable.comp (mX₀.comp mq)).aestronglyMeasurable (.of_forall fun ω => hM _)
    have e0 : ∫ ω, f (X₀ ((y ω, β ω), z ω)) ∂μ = ∫ q, f (X₀ q) ∂((π.prod ν).prod N) := by
      rw [← hlaw', integral_map (f := fun q => f (X₀ q)) mq.aemeasurable (hf.continuous.measurable.comp mX₀).aestronglyMeasurable]
    have d1 : |∫ ω, f (X ω) ∂μ - ∫ ω, f (X₀ ((y ω, β ω), z ω)) ∂μ| ≤ L * (Cv * W + Cg * G + Cz * Z) * ε ^ 3 := by
      rw [← integral_sub iX iX₀]
      have ib : Integrable (fun ω => L * (ε ^ 2 * (Cv * ‖V ω‖) + ε ^ 3 * (Cg * ‖γ (β ω) (y ω)‖ + Cz * ‖z ω‖))) μ :=
        (((iV.const_mul _).const_mul _).add (((j2.const_mul _).add (j3.const_mul _)).const_mul _)).const_mul _
      have := norm_integral_le_of_norm_le ib (.of_forall fun ω => (Real.norm_eq_abs _).trans_le
        ((hlip (X ω) (X₀ ((y ω, β ω), z ω))).trans (mul_le_mul_of_nonneg_left (hpt ω) hL0)))
      rw [Real.norm_eq_abs] at this
      refine this.trans ?_
      rw [integral_const_mul, integral_add ((iV.const_mul _).const_mul _) (((j2.const_mul _).fun_add (j3.const_mul _)).const_mul _),
        integral_const_mul, integral_const_mul, integral_const_mul, integral_add (j2.const_mul _) (j3.const_mul _),
        integral_const_mul, integral_const_mul, e2, e3]
      have : ε ^ 2 * (Cv * ∫ ω, ‖V ω‖ ∂μ) ≤ ε ^ 3 * (Cv * W) := by
        calc ε ^ 2 * (Cv * ∫ ω, ‖V ω‖ ∂μ) ≤ ε ^ 2 * (Cv * (W * ε)) := by gcongr
          _ = _ := by ring
      calc L * (ε ^ 2 * (Cv * ∫ ω, ‖V ω‖ ∂μ) + ε ^ 3 * (Cg * G + Cz * Z))
          ≤ L * (ε ^ 3 * (Cv * W) + ε ^ 3 * (Cg * G + Cz * Z)) := by gcongr
        _ = _ := by ring
    have d2 : |∫ q, f (X₀ q) ∂((π.prod ν).prod N) - ∫ x, f x ∂π| ≤ |K₀| * ε ^ 3 := by
      have hsq : √(ε ^ 2) = ε := Real.sqrt_sq h0
      have := hK₀ (ε ^ 2) (sq_nonneg ε) X₀ mX₀.aemeasurable fun _ _ q => by
        rw [hsq]
        simp [X₀]
      rw [hsq] at this
      refine this.trans ?_
      rw [← pow_succ]
      exact mul_le_mul_of_nonneg_right (le_abs_self _) hε3
    have d3 : |∫ ω, f (X ω) ∂μ - ∫ x, f x ∂π| ≤ (|K₀| + L * (Cv * W + Cg * G + Cz * Z)) * ε ^ 3 := by
      rw [e0] at d1
      calc _ = |(∫ ω, f (X ω) ∂μ - ∫ q, f (X₀ q) ∂((π.prod ν).prod N)) + (∫ q, f (X₀ q) ∂((π.prod ν).prod N) - ∫ x, f x ∂π)| := by
            congr 1; ring
        _ ≤ _ := (abs_add_le _ _).trans (by linarith)
    refine d3.trans (mul_le_mul_of_nonneg_right ?_ hε3)
    have p1 : 0 ≤ 2 * M * mass / ε₁ ^ 3 := by positivity
    have p2 : 0 ≤ |K₀| := abs_nonneg _
    have p3 : L * (Cv * W + Cg * G + Cz * Z) ≤ L * (Cv + Cg * G + Cz * Z) * (1 + W) := by
      rw [mul_assoc]
      refine mul_le_mul_of_nonneg_left ?_ hL0
      have q1 := mul_nonneg (mul_nonneg hCg0 hG0) hW
      have q2 := mul_nonneg (mul_nonneg hCz0 hZ0) hW
      rw [show (Cv + Cg * G + Cz * Z) * (1 + W) = Cv + Cv * W + Cg * G + Cg * G * W + Cz * Z + Cz * Z * W by ring]
      linarith
    rw [show (|K₀| + L * (Cv + Cg * G + Cz * Z) + 2 * M * mass / ε₁ ^ 3) * (1 + W)
      = |K₀| + |K₀| * W + L * (Cv + Cg * G + Cz * Z) * (1 + W) + 2 * M * mass / ε₁ ^ 3 * (1 + W) by ring]
    have q3 := mul_nonneg p1 (by linarith : 0 ≤ 1 + W)
    have q4 := mul_nonneg p2 hW
    linarith

end analysis

variable {P : Type} [Fintype P] [DecidableEq P] {ι : P → Type} [∀ i, Fintype (ι i)] [∀ i, DecidableEq (ι i)]
variable {Bt : Type} [MeasurableSpace Bt]

/-- What a session run of the sampler is given: stepsize `ε`, the constants, mini-batch `β`, normal draws `z`, fed masses `m`. -/
structure SghmcInputs (ε α scale : ℝ) (m : Elem ι → ℝ) (γ : Bt → (Elem ι → ℝ) → Elem ι → ℝ) (β : Bt) (z : Elem ι → ℝ)
    (inp : SGHMC.Inputs ι) : Prop where
  epsilon : inp.epsilon = .fin ε
  mdecay : inp.mdecay = .fin α
  scale : inp.scaleGrad = .fin scale
  fed : ∀ i, inp.fed i = some (fins m i)
  grad : ∀ x, inp.grad (fins x) = fins (γ β x)
  normal : inp.normal = fins z

/-- The new values, for one execution order: the momentum of element `j` moves along the gradient at the values its gradient sees. -/
theorem sghmc_step (ε α scale : ℝ) (h0 : 0 ≤ ε) (hs : 0 < scale) (m : Elem ι → ℝ)
    (hfloor : ∀ j, 1e-16 ≤ 2 * (ε ^ 2 / scale) * α * m j - (ε ^ 2 / scale) ^ 2) (γ : Bt → (Elem ι → ℝ) → Elem ι → ℝ)
    (mγ : Measurable fun y : (Elem ι → ℝ) × Bt => γ y.2 y.1) {Ω : Type} [MeasurableSpace Ω] (θ V z : Ω → Elem ι → ℝ) (β : Ω → Bt)
    (mθ : Measurable θ) (mV : Measurable V) (mz : Measurable z) (mβ : Measurable β) (σ : SGHMC.Schedule P) (inp : Ω → SGHMC.Inputs ι)
    (s : Ω → SGHMC.State ι) (hinp : ∀ ω, SghmcInputs ε α scale m γ (β ω) (z ω) (inp ω))
    (hst : ∀ ω i, ((s ω).par i).vec = fins (θ ω) i ∧ ((s ω).par i).param = fins (θ ω) i ∧ ((s ω).par i).mom = fins (V ω) i) :
    ∃ (isNew : P → P → Bool) (rank : P → Nat) (θ' V' : Ω → Elem ι → ℝ), (∀ i j, isNew i j = true → rank j < rank i) ∧
      Measurable θ' ∧ Measurable V' ∧ (∀ ω j, θ' ω j = θ ω j + V' ω j) ∧
      (∀ ω i, (SGHMC.run (inp ω) σ (s ω)).params i = fins (θ' ω) i ∧ ((SGHMC.run (inp ω) σ (s ω)).par i).mom = fins (V' ω) i) ∧
      ∀ ω j, V' ω j = V ω j - ε ^ 2 * m j * γ (β ω) (Mixed.seen (isNew j.1) Sigma.fst (θ' ω) (θ ω)) j - α * V ω j
        + ε * √(2 * α * m j / scale - ε ^ 2 / scale ^ 2) * z ω j := by
  obtain ⟨isNew, rank, hrank, hgrad⟩ := SGHMC.order_grad (ι := ι) σ
  have hpar : ∀ ω, (s ω).params = fins (θ ω) := fun ω => funext fun i => (hst ω i).2.1
  have hsd : ∀ j, Spec.sghmcSd ε α scale (m j) = ε * √(2 * α * m j / scale - ε ^ 2 / scale ^ 2) := fun j => by
    have hss : √scale ^ 2 = scale := Real.sq_sqrt hs.le
    have e1 : (ε / √scale) ^ 2 = ε ^ 2 / scale := by rw [div_pow, hss]
    have e2 : (ε / √scale) ^ 4 = (ε ^ 2 / scale) ^ 2 := by rw [← e1]; ring
    unfold Spec.sghmcSd
    simp only
    rw [e1, e2, max_eq_left (hfloor j), show ε * √(2 * α * m j / scale - ε ^ 2 / scale ^ 2)
      = √(ε ^ 2) * √(2 * α * m j / scale - ε ^ 2 / scale ^ 2) by rw [Real.sqrt_sq h0], ← Real.sqrt_mul (sq_nonneg ε)]
    congr 1
    field_simp
  have hval : ∀ ω i k (x : ℝ), ((SGHMC.run (inp ω) σ (s ω)).par i).tGrad k = .fin x → _ := fun ω i k x hx =>
    SGHMC.run_position _ σ (s ω) i k _ _ ε α scale x _ _ (fins m i) (congrFun (hst ω i).1 k) (congrFun (hst ω i).2.2 k) (hinp ω).epsilon
      (hinp ω).mdecay (hinp ω).scale hx (congrFun (congrFun (hinp ω).normal i) k) ((hinp ω).fed i) rfl hs
  let val : Fl → ℝ := fun x => match x with
    | .fin r => r
    | _ => 0
  let V' : Ω → Elem ι → ℝ := fun ω j => val (((SGHMC.run (inp ω) σ (s ω)).par j.1).mom j.2)
  let X : Ω → Elem ι → ℝ := fun ω j => θ ω j + V' ω j
  have hX : ∀ ω i, ((SGHMC.run (inp ω) σ (s ω)).par i).tGrad = fins (γ (β ω) (Mixed.seen (isNew i) Sigma.fst (X ω) (θ ω))) i
        ∧ (SGHMC.run (inp ω) σ (s ω)).params i = fins (X ω) i ∧ ((SGHMC.run (inp ω) σ (s ω)).par i).mom = fins (V' ω) i := by
    intro ω
    have key : ∀ r i, rank i = r → ((SGHMC.run (inp ω) σ (s ω)).par i).tGrad = fins (γ (β ω) (Mixed.seen (isNew i) Sigma.fst (X ω) (θ ω))) i
        ∧ (SGHMC.run (inp ω) σ (s ω)).params i = fins (X ω) i ∧ ((SGHMC.run (inp ω) σ (s ω)).par i).mom = fins (V' ω) i := by
      intro r
      induction r using Nat.strong_induction_on with
      | _ r ih =>
        intro i hi
        have e1 : ((SGHMC.run (inp ω) σ (s ω)).par i).tGrad = fins (γ (β ω) (Mixed.seen (isNew i) Sigma.fst (X ω) (θ ω))) i := by
          rw [hgrad, hpar]
          have : (fun j => if isNew i j = true then (SGHMC.run (inp ω) σ (s ω)).params j else fins (θ ω) j)
              = fins (Mixed.seen (isNew i) Sigma.fst (X ω) (θ ω)) := by
            funext j k
            unfold fins Mixed.seen
            by_cases hj : isNew i j = true
            · rw [if_pos hj, if_pos hj, (ih _ (hi ▸ hrank i j hj) j rfl).2.1]; rfl
            · rw [if_neg hj, if_neg hj]
          rw [this, (hinp ω).grad]
        have hk := fun k => hval ω i k _ (congrFun e1 k)
        have hv : ((SGHMC.run (inp ω) σ (s ω)).par i).mom = fins (V' ω) i := funext fun k => by
          unfold fins
          simp only [V']
          rw [(hk k).1]
        refine ⟨e1, funext fun k => ?_, hv⟩
        have h2 := (hk k).1
        rw [hv] at h2
        rw [(hk k).2, ← Fl.fin_inj.1 h2]
        rfl
    exact fun i => key _ i rfl
  have hVeq : ∀ ω j, V' ω j = V ω j - ε ^ 2 * m j * γ (β ω) (Mixed.seen (isNew j.1) Sigma.fst (X ω) (θ ω)) j - α * V ω j
      + ε * √(2 * α * m j / scale - ε ^ 2 / scale ^ 2) * z ω j := by
    intro ω j
    have e1 := (hval ω j.1 j.2 _ (congrFun (hX ω j.1).1 j.2)).1
    rw [(hX ω j.1).2.2] at e1
    have e2 := Fl.fin_inj.1 e1
    rw [hsd] at e2
    exact e2
  have hXm : Measurable X := by
    refine Mixed.measurable_new isNew rank hrank Sigma.fst X θ (fun j => measurable_pi_iff.1 mθ j)
      (fun j y => θ y.1 j + (V y.1 j - ε ^ 2 * m j * γ (β y.1) y.2 j - α * V y.1 j + ε * √(2 * α * m j / scale - ε ^ 2 / scale ^ 2) * z y.1 j))
      (fun j => ?_) fun ω j => by simp only [X]; rw [hVeq]
    have m1 : Measurable fun y : Ω × (Elem ι → ℝ) => θ y.1 j := (measurable_pi_iff.1 mθ j).comp measurable_fst
    have m2 : Measurable fun y : Ω × (Elem ι → ℝ) => V y.1 j := (measurable_pi_iff.1 mV j).comp measurable_fst
    have m3 : Measurable fun y : Ω × (Elem ι → ℝ) => z y.1 j := (measurable_pi_iff.1 mz j).comp measurable_fst
    have m4 : Measurable fun y : Ω × (Elem ι → ℝ) => γ (β y.1) y.2 j :=
      (measurable_pi_apply j).comp (mγ.comp (measurable_snd.prodMk (mβ.comp measurable_fst)))
    exact m1.add (((m2.sub (m4.const_mul _)).sub (m2.const_mul _)).add (m3.const_mul _))
  have hVm : Measurable V' := by
    have : V' = fun ω => X ω - θ ω := by funext ω j; simp [X]
    rw [this]; exact hXm.sub mθ
  exact ⟨isNew, rank, X, V', hrank, hXm, hVm, fun ω j => rfl, fun ω i => (hX ω i).2, hVeq⟩

/-- **C105** One session run of SGHMC after burn-in leaves `exp (-scale U)`, as the density of the resting point, invariant up to
`K (1 + W) ε³`, where `W ε` bounds the mean size of the momentum (unless the lower bound `1e-16` on the noise variance is in force). -/
theorem C105_sghmc_invariant (U : (Elem ι → ℝ) → ℝ) (hU : ContDiff ℝ 1 U) (α scale c₀ : ℝ) (hα : 0 < α) (hs : 0 < scale)
    (m : Elem ι → ℝ) (hm : ∀ j, 0 < m j) (ν : Measure Bt) [IsProbabilityMeasure ν] (γ : Bt → (Elem ι → ℝ) → Elem ι → ℝ) (Λ : ℝ)
    (hγ : BatchGrad ν U γ Λ) (N : Measure (Elem ι → ℝ)) (hN : UnitNoise N)
    (π : Measure (Elem ι → ℝ)) (hπ : π = boltz fun x => scale * U x + c₀) [IsFiniteMeasure π]
    (h3 : Integrable (fun y : (Elem ι → ℝ) × Bt => ‖γ y.2 y.1‖ ^ 3) (π.prod ν))
    (f : (Elem ι → ℝ) → ℝ) (hf : ContDiff ℝ 3 f) (hc : HasCompactSupport f) :
    ∃ K, ∀ ε W, 0 ≤ ε → 0 ≤ W → (∀ j, 1e-16 ≤ 2 * (ε ^ 2 / scale) * α * m j - (ε ^ 2 / scale) ^ 2) →
      ∀ (Ω : Type) [MeasurableSpace Ω] (μ : Measure Ω) [IsFiniteMeasure μ] (θ V z : Ω → Elem ι → ℝ) (β : Ω → Bt),
      Measurable θ → Measurable V → Measurable z → Measurable β →
      μ.map (fun ω => ((fun j => θ ω j + (1 - α) / α * V ω j, β ω), z ω)) = (π.prod ν).prod N →
      Integrable (fun ω => ‖V ω‖) μ → ∫ ω, ‖V ω‖ ∂μ ≤ W * ε →
      ∀ (σ : SGHMC.Schedule P) (inp : Ω → SGHMC.Inputs ι) (s : Ω → SGHMC.State ι),
      (∀ ω, SghmcInputs ε α scale m γ (β ω) (z ω) (inp ω)) →
      (∀ ω i, ((s ω).par i).vec = fins (θ ω) i ∧ ((s ω).par i).param = fins (θ ω) i ∧ ((s ω).par i).mom = fins (V ω) i) →
      ∃ θ' V' : Ω → Elem ι → ℝ, Measurable θ' ∧ Measurable V' ∧
        (∀ ω i, (SGHMC.run (inp ω) σ (s ω)).params i = fins (θ' ω) i ∧ ((SGHMC.run (inp ω) σ (s ω)).par i).mom = fins (V' ω) i) ∧
        |∫ ω, f (fun j => θ' ω j + (1 - α) / α * V' ω j) ∂μ - ∫ x, f x ∂π| ≤ K * (1 + W) * ε ^ 3 := by
  obtain ⟨K, hK⟩ := rest_step U hU α scale c₀ hα hs m hm ν γ Λ hγ N hN π hπ h3 f hf hc
  refine ⟨K, fun ε W h0 hW hfloor Ω _ μ _ θ V z β mθ mV mz mβ hlaw iV hVW σ inp s hinp hst => ?_⟩
  obtain ⟨isNew, rank, X, V', -, hXm, hVm, hXV, hX, hVeq⟩ := sghmc_step ε α scale h0 hs m hfloor γ hγ.meas θ V z β mθ mV mz mβ σ inp s hinp hst
  obtain rfl : X = fun ω j => θ ω j + V' ω j := funext fun ω => funext fun j => hXV ω j
  exact ⟨_, V', hXm, hVm, hX, hK ε W h0 hW Ω μ θ V V' z β mθ mV hVm mz mβ hlaw iV hVW (fun j k => isNew j.1 k.1) hVeq⟩

/-! ## The hypotheses are met

`U x = |x|²/2`, mini-batch gradients `x + β` with standard normal `β`, standard normal draws, momenta `ε` times a standard normal draw. -/

example (α scale : ℝ) (hα : 0 < α) (hs : 0 < scale) (m : Elem ι → ℝ) (hm : ∀ j, 0 < m j) (f : (Elem ι → ℝ) → ℝ) (hf : ContDiff ℝ 3 f)
    (hc : HasCompactSupport f) :
    let N := Measure.pi fun _ : Elem ι => ProbabilityTheory.gaussianReal 0 1
    let π := boltz fun x : Elem ι → ℝ => scale * halfSq x + 0
    let κ := (1 - α) / α
    ∃ K, ∀ ε, 0 ≤ ε → (∀ j, 1e-16 ≤ 2 * (ε ^ 2 / scale) * α * m j - (ε ^ 2 / scale) ^ 2) → ∀ σ : SGHMC.Schedule P,
      ∃ θ' V' : (((Elem ι → ℝ) × (Elem ι → ℝ)) × (Elem ι → ℝ)) × (Elem ι → ℝ) → Elem ι → ℝ, Measurable θ' ∧ Measurable V' ∧
        (∀ (ω : (((Elem ι → ℝ) × (Elem ι → ℝ)) × (Elem ι → ℝ)) × (Elem ι → ℝ)) (r : SGHMC.State ι),
          r = SGHMC.run ⟨.fin ε, .fin scale, .fin α, fins ω.1.2, fun θ i k => θ i k + .fin (ω.1.1.2 ⟨i, k⟩), fun _ => 0,
            fun i => some (fins m i)⟩ σ
            ⟨fun i => { SGHMC.PState.init (fins (ω.1.1.1 - κ • ε • ω.2) i) with mom := fins (ε • ω.2) i }, 0⟩ →
          ∀ i, r.params i = fins (θ' ω) i ∧ (r.par i).mom = fins (V' ω) i) ∧
        |∫ ω, f (fun j => θ' ω j + κ * V' ω j) ∂(((π.prod N).prod N).prod N) - ∫ x, f x ∂π| ≤ K * ε ^ 3 := by
  intro N π κ
  have hN : UnitNoise N := unitNoise_gauss
  obtain ⟨h1, h2⟩ := halfSq_boltz (J := Elem ι) scale hs
  have := hN.prob
  have hfin : IsFiniteMeasure π := h1
  obtain ⟨K, hK⟩ := C105_sghmc_invariant (halfSq : (Elem ι → ℝ) → ℝ) halfSq_smooth α scale 0 hα hs m hm N (fun β x => x + β) 1
    (noisy_batchGrad hN) N hN π rfl (noisy_third hN h2) f hf hc
  let W : ℝ := ∫ ω : (((Elem ι → ℝ) × (Elem ι → ℝ)) × (Elem ι → ℝ)) × (Elem ι → ℝ), ‖ω.2‖ ∂(((π.prod N).prod N).prod N)
  have hW : 0 ≤ W := integral_nonneg fun _ => norm_nonneg _
  have iW : Integrable (fun ω : (((Elem ι → ℝ) × (Elem ι → ℝ)) × (Elem ι → ℝ)) × (Elem ι → ℝ) => ‖ω.2‖) (((π.prod N).prod N).prod N) :=
    hN.norm.comp_snd _
  refine ⟨K * (1 + W), fun ε h0 hfl σ => ?_⟩
  have hn : ∀ ω : (((Elem ι → ℝ) × (Elem ι → ℝ)) × (Elem ι → ℝ)) × (Elem ι → ℝ), ‖ε • ω.2‖ = ε * ‖ω.2‖ := fun ω => by
    rw [norm_smul, Real.norm_of_nonneg h0]
  obtain ⟨θ', V', a, b, c, d⟩ := hK ε W h0 hW hfl ((((Elem ι → ℝ) × (Elem ι → ℝ)) × (Elem ι → ℝ)) × (Elem ι → ℝ)) (((π.prod N).prod N).prod N)
    (fun ω => ω.1.1.1 - κ • ε • ω.2) (fun ω => ε • ω.2) (fun ω => ω.1.2) (fun ω => ω.1.1.2)
    ((measurable_fst.comp (measurable_fst.comp measurable_fst)).sub ((measurable_snd.const_smul ε).const_smul κ)) (measurable_snd.const_smul ε)
    (measurable_snd.comp measurable_fst) (measurable_snd.comp (measurable_fst.comp measurable_fst))
    (by
      have e : (fun ω : (((Elem ι → ℝ) × (Elem ι → ℝ)) × (Elem ι → ℝ)) × (Elem ι → ℝ) =>
          ((fun j => (ω.1.1.1 - κ • ε • ω.2) j + (1 - α) / α * (ε • ω.2) j, ω.1.1.2), ω.1.2)) = Prod.fst := by
        funext ω
        have : (fun j => (ω.1.1.1 - κ • ε • ω.2) j + (1 - α) / α * (ε • ω.2) j) = ω.1.1.1 := by
          funext j; simp [κ]
        rw [this]
      rw [e]
      exact measurePreserving_fst.map_eq)
    (by simp_rw [hn]; exact iW.const_mul ε) (by simp_rw [hn]; rw [integral_const_mul, mul_comm]) σ
    (fun ω => ⟨.fin ε, .fin scale, .fin α, fins ω.1.2, fun θ i k => θ i k + .fin (ω.1.1.2 ⟨i, k⟩), fun _ => 0, fun i => some (fins m i)⟩)
    (fun ω => ⟨fun i => { SGHMC.PState.init (fins (ω.1.1.1 - κ • ε • ω.2) i) with mom := fins (ε • ω.2) i }, 0⟩)
    (fun ω => ⟨rfl, rfl, rfl, fun _ => rfl, fun _ => rfl, rfl⟩) fun ω i => ⟨rfl, rfl, rfl⟩
  exact ⟨θ', V', a, b, fun ω r e i => e ▸ c ω i, d⟩

end PySGMCMC.Invariance
