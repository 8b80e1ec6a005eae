import Verif.Props.SghmcCoupled
import Verif.Lemmas.SghmcUniform

/-!
# C140: how fast SGHMC approaches the posterior

C139 bounds the error of SGHMC by one term that falls geometrically with the number of steps, and one that is proportional to the stepsize.
It does not say how the rate of the first depends on the stepsize.  Here it does: after the order of `1 / e ^ 2` steps the first term is as
small as one likes, whatever the stepsize `e`.
-/

namespace PySGMCMC.Chain
open SamplerBase BurnInStats Spec MeasureTheory ProbabilityTheory Contraction Invariance Recipe Harris Langevin

variable {n : Nat} {size : Fin n → Nat} {Bt : Type} [MeasurableSpace Bt]

/-- **C140** SGHMC approaches the posterior at a rate that is proportional to the square of the stepsize.
All constants depend on the cost, on `scale`, on `alpha` and on bounds for the masses only. -/
theorem C140_sghmc_uniform [Nonempty (Elem (Pos size))] {ν : Measure Bt} [IsProbabilityMeasure ν] {U : (Elem (Pos size) → ℝ) → ℝ}
    {γ : Bt → (∀ i, Pos size i → ℝ) → ∀ i, Pos size i → ℝ} {a₀ b₀ Λ L lo hi : ℝ} {g : Bt → ℝ} (hγ : Confining ν (flatGrad γ) a₀ b₀ Λ g)
    (hL : 0 ≤ L) (hlip : ∀ β x x', ‖flatGrad γ β x - flatGrad γ β x'‖ ≤ L * ‖x - x'‖) (hU : ContDiff ℝ 1 U)
    (hmean : ∀ x q, ∫ β, flatGrad γ β x q ∂ν = partialD U q x)
    (hsep : ∀ β i θ θ', θ i = θ' i → γ β θ i = γ β θ' i) (scale alpha : ℝ) (hs : 0 < scale) (hα0 : 0 < alpha) (hα1 : alpha ≤ 1)
    (hlo : 0 < lo) (hlh : lo ≤ hi) :
    ∃ c K C l : ℝ, IsProbabilityMeasure (boltz fun x => scale * U x + c) ∧ 0 ≤ K ∧ 0 ≤ C ∧ 0 < l ∧
    ∀ (mass : Elem (Pos size) → ℝ), (∀ q, lo ≤ mass q) → (∀ q, mass q ≤ hi) → ∀ (e : ℝ), 0 < e → e ^ 2 ≤ alpha →
    e ^ 2 * (1 / alpha ^ 2 + 1 + 2 * ((1 - alpha) / alpha ^ 2 + (1 - alpha)) ^ 2 / alpha) * alpha * hi * Λ ≤ a₀ →
    (∀ q, 1e-16 ≤ 2 * (e ^ 2 / scale) * alpha * mass q - (e ^ 2 / scale) ^ 2) →
    ∀ {F : Feeder} (W : SGHMCWorld size) (ok : Dict Key Arr → Bool) {Ω : Type} [MeasurableSpace Ω] (P : Measure Ω)
      (S : Ω → ∀ N, Script F N) (Pb : ∀ ω N, Problem (S ω N) W.grad W.cost ok) (gen : Ω → Option F.Batch) (sched : F.Sched) (eps : Nat → ℝ)
      (b0 : Nat → Bt) (β : Nat → Ω → Bt) (B : Nat) (z0 : Nat → ∀ i, Pos size i → ℝ) (z : Nat → ∀ i, Pos size i → Ω → ℝ)
      (order : Ω → Nat → SGHMC.Schedule (Fin n)) (θ : ∀ i, Pos size i → ℝ) (eps0 : Fl),
      (∀ ω N, (S ω N).batch 0 = gen ω) → (∀ ω N, (S ω N).sched 0 = sched) → (∀ ω N, (S ω N).eps = eps) →
      (∀ ω N k θ, (Pb ω N).γ k θ = γ (batchesAfter B b0 β ω k) θ) → RandomSteps ν P β z →
      W.mdecay = .fin alpha → W.scaleGrad = .fin scale → 0 < B → (∀ k, B ≤ k → eps k = e) →
      let world : Ω → SGHMCWorld size := fun ω =>
        { W with normal := fun k i p => .fin (drawsAfter B z0 z ω k i p), order := order ω }
      let atEnd := sghmcVec alpha scale B eps (fun k => γ (b0 k)) z0 θ B
      (∀ i p, (atEnd i p).mass = mass ⟨i, p⟩) →
      ∃ X : Nat → Ω → Elem (Pos size) → ℝ,
        (∀ N ω, ∃ cost : Nat → Fl,
          (calls (asIter (burnInNext (env F (world ω).graph ok) B n)) N
              (init (gen ω) sched ⟨SGHMC.State.init fun i p => .fin (θ i p), eps0, 0⟩)).1
            = (List.range N).map (fun k : Nat =>
                let arrays := List.ofFn fun i => flat fun p => .fin (X (k + 1) ω ⟨i, p⟩)
                .ok ((if (k : Int) < B then .many arrays else unravel arrays), cost k)))
        ∧ ∀ {f : (Elem (Pos size) → ℝ) → ℝ} {A : ℝ}, 0 ≤ A → (∀ x y, |f x - f y| ≤ A * ‖x - y‖) →
          let posterior := ∫ x, f x ∂boltz fun x => scale * U x + c
          let start := C * (1 + (∑ q : Elem (Pos size), (atEnd q.1 q.2).pos ^ 2 + ∑ q : Elem (Pos size), (atEnd q.1 q.2).mom ^ 2))
          (∀ k, Integrable (fun ω => f (X (B + k) ω)) P ∧ |∫ ω, f (X (B + k) ω) ∂P - posterior| ≤ A * start * Real.exp (-(l * e ^ 2 * k)) + A * (K * e))
          ∧ ((∀ x, |f x| ≤ A) → ∀ {I : Finset Nat}, I.Nonempty →
            Integrable (fun ω => ((∑ k ∈ I, f (X (B + k) ω)) / I.card - posterior) ^ 2) P ∧
            ∫ ω, ((∑ k ∈ I, f (X (B + k) ω)) / I.card - posterior) ^ 2 ∂P ≤ A ^ 2 * start / (I.card * e ^ 2) + A ^ 2 * (K * e)) := by
  have hpot : Potential ν (flatGrad γ) U a₀ b₀ Λ g L lo hi scale := ⟨⟨hγ, hL, hlip, hlo, hlh, hs⟩, hU, hmean⟩
  obtain ⟨c, K, C, l, hp, hK, hC, hl, hruns⟩ := hpot.coasts_runs hα0 hα1 (1 / (scale ^ 2 * √(2 * lo / scale)))
  refine ⟨c, K / √alpha, C, l, hp, by positivity, hC, hl, ?_⟩
  intro mass hmlo hmhi e he0 he1 hst hfloor
  have hmass : ∀ q, 0 < mass q := fun q => hlo.trans_le (hmlo q)
  have hΛ := hγ.bound
  have hcp := Confining.coupling_pos hα0
  have hst' : e ^ 2 * Confining.coupling alpha * alpha * hi * Λ ≤ a₀ := hst
  obtain ⟨π, _, _, hπ, hinv, hπ2, _⟩ := hγ.forgets_momentum (m := mass) (t := e ^ 2) (α := alpha)
    (s := fun q => sghmcSd e alpha scale (mass q)) hmass hα0 hα1 (by positivity) (fun q => by
      refine le_trans (mul_le_mul_of_nonneg_right (mul_le_mul_of_nonneg_left (hmhi q) ?_) hΛ.le) hst'
      positivity) (fun q => sghmcSd_ne hs)
  have hτ1 : e ^ 2 / alpha ≤ 1 := (div_le_one hα0).2 he1
  have hh : 0 ≤ hi := (hlo.le).trans hlh
  have T : Tuned a₀ Λ lo hi mass (e ^ 2 / alpha) := ⟨hmlo, hmhi, by positivity, hτ1, by
    refine le_trans ?_ hst'
    refine mul_le_mul_of_nonneg_right (mul_le_mul_of_nonneg_right ?_ hh) hΛ.le
    have k3 : 1 / alpha ≤ Confining.coupling alpha * alpha := by
      unfold Confining.coupling
      have e : (1 / alpha ^ 2 + 1 + 2 * ((1 - alpha) / alpha ^ 2 + (1 - alpha)) ^ 2 / alpha) * alpha
          = 1 / alpha + (alpha + 2 * ((1 - alpha) / alpha ^ 2 + (1 - alpha)) ^ 2) := by
        field_simp
        ring
      rw [e]
      have : 0 ≤ alpha + 2 * ((1 - alpha) / alpha ^ 2 + (1 - alpha)) ^ 2 := by positivity
      linarith
    have := mul_le_mul_of_nonneg_left k3 (sq_nonneg e)
    rw [mul_one_div] at this
    linarith⟩
  have co : Coasts ν (flatGrad γ) a₀ Λ lo hi scale alpha (1 / (scale ^ 2 * √(2 * lo / scale))) (e ^ 2) mass
      (fun q => sghmcSd e alpha scale (mass q)) π := ⟨T, hα0, hα1, hst',
    fun q => ((sghmcSd_noise hs hα0 he0 (hmass q) (hfloor q)).1).trans (le_of_eq (by ring)),
    fun q => sghmcSd_near hs hα0 he0 hlo (hmlo q) (hfloor q), hinv, hπ2⟩
  intro F W ok Ω _ P S Pb gen sched eps b0 β B z0 z order θ eps0 hgen hsched heps hPb hR ha hsc hB he world atEnd hm
  have := hR.prob
  obtain ⟨hζ, hi', hlaw, X, hX, h0, hstep⟩ := sghmc_hops hsep hs W ok P S Pb gen sched eps b0 β B z0 z order θ eps0 hgen hsched heps hPb hR ha hsc hB he hm
  refine ⟨fun k ω => (X k ω).1, hX, ?_⟩
  intro f A hA hf posterior start
  obtain ⟨h1, h2⟩ := hruns co P _ (fun k ω => X (B + k) ω) _ hζ hi' hlaw h0 hstep hA hf
  have e1 : K * √(e ^ 2 / alpha) = K / √alpha * e := by
    rw [Real.sqrt_div (sq_nonneg e), Real.sqrt_sq he0.le]
    ring
  have e2 : C * (1 + Confining.size2 (fun q : Elem (Pos size) => (atEnd q.1 q.2).pos, fun q : Elem (Pos size) => (atEnd q.1 q.2).mom)) = start := rfl
  have hst0 : 0 ≤ start := by
    refine mul_nonneg hC (add_nonneg zero_le_one (add_nonneg ?_ ?_)) <;> exact Finset.sum_nonneg fun q _ => sq_nonneg _
  have hq : e ^ 2 ≤ e ^ 2 / alpha := le_div_self (sq_nonneg e) hα0 hα1
  rw [e1, e2] at h1 h2
  refine ⟨fun k => ⟨(h1 k).1, (h1 k).2.trans ?_⟩, fun hfb I hI => ⟨(h2 hfb hI).1, (h2 hfb hI).2.trans ?_⟩⟩
  · refine add_le_add (mul_le_mul_of_nonneg_left (Real.exp_le_exp.2 (neg_le_neg ?_)) (mul_nonneg hA hst0)) le_rfl
    exact mul_le_mul_of_nonneg_right (mul_le_mul_of_nonneg_left hq hl.le) (Nat.cast_nonneg k)
  · have hc : (0 : ℝ) < I.card := by exact_mod_cast hI.card_pos
    refine add_le_add (div_le_div_of_nonneg_left (by positivity) (by positivity) (mul_le_mul_of_nonneg_left hq hc.le)) le_rfl

/-- Whatever the parameters, the stepsize and the start, the average size of the largest entry is estimated after a number of steps that
is inversely proportional to the square of the stepsize. -/
example [Nonempty (Elem (Pos size))] (order : Nat → SGHMC.Schedule (Fin n)) : ∃ c K C l : ℝ,
    IsProbabilityMeasure (boltz fun x : Elem (Pos size) → ℝ => 10 * ripples x + c) ∧ 0 < l ∧
    ∀ t : ℝ, 1e-6 ≤ t → t ≤ 1 / 20 → ∀ θ : ∀ i, Pos size i → ℝ,
    ∃ (Ω : Type) (_ : MeasurableSpace Ω) (P : Measure Ω) (β : Nat → Ω → ℝ) (z : Nat → ∀ i, Pos size i → Ω → ℝ)
      (X : Nat → Ω → Elem (Pos size) → ℝ),
      RandomSteps (gaussianReal 0 1) P β z
      ∧ (∀ N ω, ∃ cost : Nat → Fl,
        (calls (asIter (burnInNext (env (streamFeeder t) (SGHMCWorld.graph
            ⟨.fin 10, .fin 0.5, rippleFl, fun _ _ => 0, fun k i p => .fin (drawsAfter 1 (fun _ _ _ => 0) z ω k i p), order⟩) fun _ => true) (1 : Nat) n)) N
            (init (some (batchesAfter 1 (fun _ => 0) β ω, 0)) () ⟨SGHMC.State.init fun i p => .fin (θ i p), .fin 0, 0⟩)).1
          = (List.range N).map (fun k : Nat =>
              let arrays := List.ofFn fun i => flat fun p => .fin (X (k + 1) ω ⟨i, p⟩)
              .ok ((if (k : Int) < (1 : Nat) then .many arrays else unravel arrays), cost k)))
      ∧ ∃ R, ∀ k, |∫ ω, ‖X (1 + k) ω‖ ∂P - ∫ x, ‖x‖ ∂boltz fun x : Elem (Pos size) → ℝ => 10 * ripples x + c| ≤ C * R * Real.exp (-(l * t ^ 2 * k)) + K * t := by
  obtain ⟨c, K, C, l, hp, hK, hC, hl, h⟩ := C140_sghmc_uniform (ripple_confining size) (by positivity) ripple_lip ripples_smooth ripple_mean
    (fun β i θ θ' h => by funext p; simp only [ripple, h]) 10 0.5 (by norm_num) (by norm_num) (by norm_num) (lo := 1 / (1 + 3e-16)) (hi := 1)
    (by norm_num) (by norm_num)
  refine ⟨c, K, C, l, hp, hl, fun t ht0 ht1 θ => ?_⟩
  have ht : 0 < t := lt_of_lt_of_le (by norm_num) ht0
  have hsq : t ^ 2 ≤ 1 / 400 := by nlinarith
  replace h := @h (fun _ => 1 / (1 + 3e-16)) (fun _ => le_rfl) (fun _ => by norm_num) t ht (by linarith)
    (by norm_num; linarith) (fun _ => by
      have h1 : (1e-12 : ℝ) ≤ t ^ 2 := le_trans (by norm_num) (pow_le_pow_left₀ (by norm_num) ht0 2)
      have h2 : (0.9 : ℝ) ≤ 1 / (1 + 3e-16) := by norm_num
      have h3 : 2 * (t ^ 2 / 10) * 0.5 * 0.9 ≤ 2 * (t ^ 2 / 10) * 0.5 * (1 / (1 + 3e-16)) := mul_le_mul_of_nonneg_left h2 (by positivity)
      nlinarith)
  obtain ⟨Ω, mΩ, P, ζ, h1, h2, h3, h4⟩ := exists_iid Nat ((gaussianReal 0 1).prod (Measure.pi fun _ : Elem (Pos size) => gaussianReal 0 1))
  have hR : RandomSteps (gaussianReal 0 1) P (fun k ω => (ζ k ω).1) (fun k i p ω => (ζ k ω).2 ⟨i, p⟩) :=
    ⟨h4, fun k => (h1 k).fst, fun k i p => (measurable_pi_apply _).comp (h1 k).snd, h3, fun k => (h2 k).map_eq⟩
  have hmass : ∀ i p, (sghmcVec (κ := Pos size) 0.5 10 (1 : Nat) (fun _ => t) (fun _ => ripple 0) (fun _ _ _ => 0) θ 1 i p).mass = 1 / (1 + 3e-16) := by
    intro i p
    simp only [sghmcVec, sghmcStep, Coord.start, Coord.massUsed, after_false Nat.zero_lt_one, Bool.false_eq_true, if_false, Real.sqrt_one]
  obtain ⟨X, hX, hb⟩ := h (F := streamFeeder t) ⟨.fin 10, .fin 0.5, rippleFl, fun _ _ => 0, fun _ _ _ => 0, order⟩ (fun _ => true) P
    (fun ω => streamScript t (batchesAfter 1 (fun _ => 0) (fun k ω => (ζ k ω).1) ω))
    (fun ω => rippleProblem t (batchesAfter 1 (fun _ => 0) (fun k ω => (ζ k ω).1) ω))
    (fun ω => some (batchesAfter 1 (fun _ => 0) (fun k ω => (ζ k ω).1) ω, 0)) () (fun _ => t) (fun _ => 0) (fun k ω => (ζ k ω).1) 1
    (fun _ _ _ => 0) (fun k i p ω => (ζ k ω).2 ⟨i, p⟩) (fun _ => order) θ (.fin 0) (fun _ _ => rfl) (fun _ _ => rfl) (fun _ _ => rfl)
    (fun _ _ _ _ => rfl) hR rfl rfl one_pos (fun _ _ => rfl) hmass
  refine ⟨Ω, mΩ, P, _, _, X, hR, hX, 1 + (∑ q : Elem (Pos size),
    (sghmcVec 0.5 10 (1 : Nat) (fun _ => t) (fun _ => ripple 0) (fun _ _ _ => 0) θ 1 q.1 q.2).pos ^ 2 + ∑ q : Elem (Pos size),
    (sghmcVec 0.5 10 (1 : Nat) (fun _ => t) (fun _ => ripple 0) (fun _ _ _ => 0) θ 1 q.1 q.2).mom ^ 2), fun k => ?_⟩
  have h5 := ((hb (f := fun x => ‖x‖) zero_le_one fun x y => by rw [one_mul]; exact abs_norm_sub_norm_le x y).1 k).2
  rwa [one_mul, one_mul] at h5

end PySGMCMC.Chain
