import Verif.Props.SgldCoupled
import Verif.Props.SghmcNonconvex
import Verif.Lemmas.SghmcCoupled

/-!
# C139: SGHMC samples posteriors whose parameters depend on each other

The same as C138 for SGHMC, and to costs that are not sums over entries what C134 is to those that are.  Test functions are Lipschitz
functions of all entries together.
-/

namespace PySGMCMC.Chain
open SamplerBase BurnInStats Spec MeasureTheory ProbabilityTheory Contraction Invariance Recipe Harris Langevin

variable {n : Nat} {size : Fin n → Nat} {Bt : Type} [MeasurableSpace Bt]

/-- The noise of SGHMC is near that of SGLD with the stepsize `e ^ 2 / alpha`. -/
theorem sghmcSd_near {e alpha scale lo m : ℝ} (hs : 0 < scale) (hα : 0 < alpha) (he : 0 < e) (hlo : 0 < lo) (hm : lo ≤ m)
    (hfloor : 1e-16 ≤ 2 * (e ^ 2 / scale) * alpha * m - (e ^ 2 / scale) ^ 2) :
    |sghmcSd e alpha scale m / alpha - √(2 * (e ^ 2 / alpha) * m / scale)|
      ≤ 1 / (scale ^ 2 * √(2 * lo / scale)) * (e ^ 2 / alpha * √(e ^ 2 / alpha)) := by
  have h0 : (0 : ℝ) ≤ 2 * (e ^ 2 / scale) * alpha * m - (e ^ 2 / scale) ^ 2 := le_trans (by norm_num) hfloor
  have h1 : sghmcSd e alpha scale m ^ 2 = 2 * (e ^ 2 / scale) * alpha * m - (e ^ 2 / scale) ^ 2 := by
    rw [sghmcSd_eq hs, max_eq_left hfloor, Real.sq_sqrt h0]
  have h2 : 0 ≤ sghmcSd e alpha scale m := by rw [sghmcSd_eq hs]; exact Real.sqrt_nonneg _
  have hm0 : 0 < m := hlo.trans_le hm
  set τ := e ^ 2 / alpha with hτ
  have hτ0 : 0 < τ := by positivity
  have e1 : (sghmcSd e alpha scale m / alpha) ^ 2 = 2 * τ * m / scale - (τ / scale) ^ 2 := by
    rw [div_pow, h1, hτ]
    field_simp
  set x := sghmcSd e alpha scale m / alpha with hx
  have hx0 : 0 ≤ x := by positivity
  have e2 : √(2 * τ * m / scale) ^ 2 = 2 * τ * m / scale := Real.sq_sqrt (by positivity)
  have h3 : √τ * √(2 * lo / scale) ≤ √(2 * τ * m / scale) := by
    rw [← Real.sqrt_mul hτ0.le]
    refine Real.sqrt_le_sqrt ?_
    have e : 2 * τ * m / scale = τ * (2 * m / scale) := by ring
    rw [e]
    exact mul_le_mul_of_nonneg_left (div_le_div_of_nonneg_right (by linarith) hs.le) hτ0.le
  set y := √(2 * τ * m / scale) with hy
  have hr : 0 < √τ := Real.sqrt_pos.2 hτ0
  have hl : 0 < √(2 * lo / scale) := Real.sqrt_pos.2 (by positivity)
  have hy0 : 0 < y := (mul_pos hr hl).trans_le h3
  have h4 : |x - y| * y ≤ (τ / scale) ^ 2 := by
    have h5 : |x - y| * (x + y) = (τ / scale) ^ 2 := by
      rw [← abs_of_nonneg (by linarith : 0 ≤ x + y), ← abs_mul]
      have : (x - y) * (x + y) = -(τ / scale) ^ 2 := by
        have : (x - y) * (x + y) = x ^ 2 - y ^ 2 := by ring
        rw [this, e1, e2]
        ring
      rw [this, abs_neg, abs_of_nonneg (sq_nonneg _)]
    nlinarith [abs_nonneg (x - y)]
  have h6 : |x - y| * (√τ * √(2 * lo / scale)) ≤ (τ / scale) ^ 2 := (mul_le_mul_of_nonneg_left h3 (abs_nonneg _)).trans h4
  rw [← le_div_iff₀ (mul_pos hr hl)] at h6
  refine h6.trans (le_of_eq ?_)
  have e3 : √τ * √τ = τ := Real.mul_self_sqrt hτ0.le
  field_simp
  rw [Real.sq_sqrt hτ0.le]

/-- **C139** SGHMC samples the posterior of costs that are neither convex nor sums over entries, up to an error of the order of the stepsize.
The constants `c` and `K` depend on the cost, on `scale`, on `alpha` and on bounds for the masses only. -/
theorem C139_sghmc_coupled [Nonempty (Elem (Pos size))] {ν : Measure Bt} [IsProbabilityMeasure ν] {U : (Elem (Pos size) → ℝ) → ℝ}
    {γ : Bt → (∀ i, Pos size i → ℝ) → ∀ i, Pos size i → ℝ} {a₀ b₀ Λ L lo hi : ℝ} {g : Bt → ℝ} (hγ : Confining ν (flatGrad γ) a₀ b₀ Λ g)
    (hL : 0 ≤ L) (hlip : ∀ β x x', ‖flatGrad γ β x - flatGrad γ β x'‖ ≤ L * ‖x - x'‖) (hU : ContDiff ℝ 1 U)
    (hmean : ∀ x q, ∫ β, flatGrad γ β x q ∂ν = partialD U q x)
    (hsep : ∀ β i θ θ', θ i = θ' i → γ β θ i = γ β θ' i) (scale alpha : ℝ) (hs : 0 < scale) (hα0 : 0 < alpha) (hα1 : alpha ≤ 1)
    (hlo : 0 < lo) (hlh : lo ≤ hi) :
    ∃ c K : ℝ, IsProbabilityMeasure (boltz fun x => scale * U x + c) ∧ 0 ≤ K ∧
    ∀ (mass : Elem (Pos size) → ℝ), (∀ q, lo ≤ mass q) → (∀ q, mass q ≤ hi) → ∀ (e : ℝ), 0 < e → e ^ 2 ≤ alpha →
    e ^ 2 * (1 / alpha ^ 2 + 1 + 2 * ((1 - alpha) / alpha ^ 2 + (1 - alpha)) ^ 2 / alpha) * alpha * hi * Λ ≤ a₀ →
    (∀ q, 1e-16 ≤ 2 * (e ^ 2 / scale) * alpha * mass q - (e ^ 2 / scale) ^ 2) →
    ∃ C ρ : ℝ, 0 ≤ C ∧ 0 ≤ ρ ∧ ρ < 1 ∧
    ∀ {F : Feeder} (W : SGHMCWorld size) (ok : Dict Key Arr → Bool) {Ω : Type} [MeasurableSpace Ω] (P : Measure Ω)
      (S : Ω → ∀ N, Script F N) (Pb : ∀ ω N, Problem (S ω N) W.grad W.cost ok) (gen : Ω → Option F.Batch) (sched : F.Sched) (eps : Nat → ℝ)
      (b0 : Nat → Bt) (β : Nat → Ω → Bt) (B : Nat) (z0 : Nat → ∀ i, Pos size i → ℝ) (z : Nat → ∀ i, Pos size i → Ω → ℝ)
      (order : Ω → Nat → SGHMC.Schedule (Fin n)) (θ : ∀ i, Pos size i → ℝ) (eps0 : Fl),
      (∀ ω N, (S ω N).batch 0 = gen ω) → (∀ ω N, (S ω N).sched 0 = sched) → (∀ ω N, (S ω N).eps = eps) →
      (∀ ω N k θ, (Pb ω N).γ k θ = γ (batchesAfter B b0 β ω k) θ) → RandomSteps ν P β z →
      W.mdecay = .fin alpha → W.scaleGrad = .fin scale → 0 < B → (∀ k, B ≤ k → eps k = e) →
      let world : Ω → SGHMCWorld size := fun ω =>
        { W with normal := fun k i p => .fin (drawsAfter B z0 z ω k i p), order := order ω }
      let atEnd := sghmcVec alpha scale B eps (fun k => γ (b0 k)) z0 θ B
      (∀ i p, (atEnd i p).mass = mass ⟨i, p⟩) →
      ∃ X : Nat → Ω → Elem (Pos size) → ℝ,
        (∀ N ω, ∃ cost : Nat → Fl,
          (calls (asIter (burnInNext (env F (world ω).graph ok) B n)) N
              (init (gen ω) sched ⟨SGHMC.State.init fun i p => .fin (θ i p), eps0, 0⟩)).1
            = (List.range N).map (fun k : Nat =>
                let arrays := List.ofFn fun i => flat fun p => .fin (X (k + 1) ω ⟨i, p⟩)
                .ok ((if (k : Int) < B then .many arrays else unravel arrays), cost k)))
        ∧ ∀ {f : (Elem (Pos size) → ℝ) → ℝ} {A : ℝ}, 0 ≤ A → (∀ x y, |f x - f y| ≤ A * ‖x - y‖) →
          let posterior := ∫ x, f x ∂boltz fun x => scale * U x + c
          let start := C * (1 + (∑ q : Elem (Pos size), (atEnd q.1 q.2).pos ^ 2 + ∑ q : Elem (Pos size), (atEnd q.1 q.2).mom ^ 2))
          (∀ k, Integrable (fun ω => f (X (B + k) ω)) P ∧ |∫ ω, f (X (B + k) ω) ∂P - posterior| ≤ A * start * ρ ^ k + A * (K * e))
          ∧ ∀ {I : Finset Nat}, I.Nonempty →
            Integrable (fun ω => ((∑ k ∈ I, f (X (B + k) ω)) / I.card - posterior) ^ 2) P ∧
            ∫ ω, ((∑ k ∈ I, f (X (B + k) ω)) / I.card - posterior) ^ 2 ∂P ≤ 2 * (A ^ 2 * start / I.card) + 2 * (A * (K * e)) ^ 2 := by
  have hpot : Potential ν (flatGrad γ) U a₀ b₀ Λ g L lo hi scale := ⟨⟨hγ, hL, hlip, hlo, hlh, hs⟩, hU, hmean⟩
  obtain ⟨c, K, hp, hK, hnear⟩ := hpot.coasts hα0 hα1 (1 / (scale ^ 2 * √(2 * lo / scale)))
  refine ⟨c, K / √alpha, hp, by positivity, ?_⟩
  intro mass hmlo hmhi e he0 he1 hst hfloor
  have hmass : ∀ q, 0 < mass q := fun q => hlo.trans_le (hmlo q)
  have hΛ := hγ.bound
  have hcp := Confining.coupling_pos hα0
  have hst' : e ^ 2 * Confining.coupling alpha * alpha * hi * Λ ≤ a₀ := hst
  obtain ⟨π, C, ρ, hπ, hπ2, hC, hρ0, hρ1, hinv, h⟩ := C130_sghmc_forgets hγ hsep scale alpha hs hα0 hα1 mass hmass e he0 (fun q => by
    refine le_trans (mul_le_mul_of_nonneg_right (mul_le_mul_of_nonneg_left (hmhi q) ?_) hΛ.le) hst'
    rw [← Confining.coupling]
    positivity)
  have hτ1 : e ^ 2 / alpha ≤ 1 := (div_le_one hα0).2 he1
  have hh : 0 ≤ hi := (hlo.le).trans hlh
  have T : Tuned a₀ Λ lo hi mass (e ^ 2 / alpha) := ⟨hmlo, hmhi, by positivity, hτ1, by
    refine le_trans ?_ hst'
    refine mul_le_mul_of_nonneg_right (mul_le_mul_of_nonneg_right ?_ hh) hΛ.le
    have k3 : 1 / alpha ≤ Confining.coupling alpha * alpha := by
      unfold Confining.coupling
      have e : (1 / alpha ^ 2 + 1 + 2 * ((1 - alpha) / alpha ^ 2 + (1 - alpha)) ^ 2 / alpha) * alpha
          = 1 / alpha + (alpha + 2 * ((1 - alpha) / alpha ^ 2 + (1 - alpha)) ^ 2) := by
        field_simp
        ring
      rw [e]
      have : 0 ≤ alpha + 2 * ((1 - alpha) / alpha ^ 2 + (1 - alpha)) ^ 2 := by positivity
      linarith
    have := mul_le_mul_of_nonneg_left k3 (sq_nonneg e)
    rw [mul_one_div] at this
    linarith⟩
  have co : Coasts ν (flatGrad γ) a₀ Λ lo hi scale alpha (1 / (scale ^ 2 * √(2 * lo / scale))) (e ^ 2) mass
      (fun q => sghmcSd e alpha scale (mass q)) π := ⟨T, hα0, hα1, hst',
    fun q => ((sghmcSd_noise hs hα0 he0 (hmass q) (hfloor q)).1).trans (le_of_eq (by ring)),
    fun q => sghmcSd_near hs hα0 he0 hlo (hmlo q) (hfloor q), hinv, hπ2⟩
  refine ⟨C, ρ, hC, hρ0, hρ1, ?_⟩
  intro F W ok Ω _ P S Pb gen sched eps b0 β B z0 z order θ eps0 hgen hsched heps hPb hR ha hsc hB he world atEnd hm
  have := hR.prob
  obtain ⟨X, hX, hb⟩ := h W ok P S Pb gen sched eps b0 β B z0 z order θ eps0 hgen hsched heps hPb hR ha hsc hB he hm
  refine ⟨X, hX, ?_⟩
  intro f A hA hf posterior start
  have cf : Continuous f := (LipschitzWith.of_dist_le_mul (K := ⟨A, hA⟩) fun x y => by
    rw [dist_eq_norm, dist_eq_norm]; exact hf x y).continuous
  have hg : ∀ x : Elem (Pos size) → ℝ, |f x - f 0| ≤ A * ‖x‖ := fun x => by simpa using hf x 0
  have hq : ∀ x : Elem (Pos size) → ℝ, ‖x‖ ≤ √(∑ q, x q ^ 2) := fun x => Real.le_sqrt_of_sq_le (norm_sq_le x)
  obtain ⟨h1, h2⟩ := hb (f := fun x => f x - f 0) (cf.measurable.sub_const _) hA
  obtain ⟨i1, hbias⟩ := hnear co hA hf
  refine Stein.combine (y₀ := f 0) (h1 fun x => (hg x).trans (mul_le_mul_of_nonneg_left ?_ hA))
    (fun {I} hI => h2 (fun x => (hg x).trans (mul_le_mul_of_nonneg_left ((hq x).trans (by linarith)) hA)) hI) ?_
  · have := norm_sq_le x
    nlinarith [sq_nonneg (‖x‖ - 1)]
  · have e1 : ∫ x : (Elem (Pos size) → ℝ) × (Elem (Pos size) → ℝ), (f x.1 - f 0) ∂π = ∫ x, f x.1 ∂π - f 0 := by
      rw [integral_sub i1 (integrable_const _)]
      simp
    rw [e1, sub_add_cancel]
    refine hbias.trans (le_of_eq ?_)
    rw [Real.sqrt_div (sq_nonneg e), Real.sqrt_sq he0.le]
    ring

/-- Whatever the parameters and wherever the run starts, the average size of the largest entry is estimated, though the cost
has many minima and the entries of a parameter depend on each other. -/
example [Nonempty (Elem (Pos size))] (order : Nat → SGHMC.Schedule (Fin n)) : ∃ c K : ℝ,
    IsProbabilityMeasure (boltz fun x : Elem (Pos size) → ℝ => 10 * ripples x + c) ∧
    ∀ t : ℝ, 1e-6 ≤ t → t ≤ 1 / 20 → ∃ C ρ : ℝ, ρ < 1 ∧ ∀ θ : ∀ i, Pos size i → ℝ,
    ∃ (Ω : Type) (_ : MeasurableSpace Ω) (P : Measure Ω) (β : Nat → Ω → ℝ) (z : Nat → ∀ i, Pos size i → Ω → ℝ)
      (X : Nat → Ω → Elem (Pos size) → ℝ),
      RandomSteps (gaussianReal 0 1) P β z
      ∧ (∀ N ω, ∃ cost : Nat → Fl,
        (calls (asIter (burnInNext (env (streamFeeder t) (SGHMCWorld.graph
            ⟨.fin 10, .fin 0.5, rippleFl, fun _ _ => 0, fun k i p => .fin (drawsAfter 1 (fun _ _ _ => 0) z ω k i p), order⟩) fun _ => true) (1 : Nat) n)) N
            (init (some (batchesAfter 1 (fun _ => 0) β ω, 0)) () ⟨SGHMC.State.init fun i p => .fin (θ i p), .fin 0, 0⟩)).1
          = (List.range N).map (fun k : Nat =>
              let arrays := List.ofFn fun i => flat fun p => .fin (X (k + 1) ω ⟨i, p⟩)
              .ok ((if (k : Int) < (1 : Nat) then .many arrays else unravel arrays), cost k)))
      ∧ ∃ R, ∀ k, |∫ ω, ‖X (1 + k) ω‖ ∂P - ∫ x, ‖x‖ ∂boltz fun x : Elem (Pos size) → ℝ => 10 * ripples x + c| ≤ C * R * ρ ^ k + K * t := by
  obtain ⟨c, K, hp, hK, h⟩ := C139_sghmc_coupled (ripple_confining size) (by positivity) ripple_lip ripples_smooth ripple_mean
    (fun β i θ θ' h => by funext p; simp only [ripple, h]) 10 0.5 (by norm_num) (by norm_num) (by norm_num) (lo := 1 / (1 + 3e-16)) (hi := 1)
    (by norm_num) (by norm_num)
  refine ⟨c, K, hp, fun t ht0 ht1 => ?_⟩
  have ht : 0 < t := lt_of_lt_of_le (by norm_num) ht0
  have hsq : t ^ 2 ≤ 1 / 400 := by nlinarith
  obtain ⟨C, ρ, hC, hρ0, hρ1, h⟩ := h (fun _ => 1 / (1 + 3e-16)) (fun _ => le_rfl) (fun _ => by norm_num) t ht (by linarith)
    (by norm_num; linarith) (fun _ => by
      have h1 : (1e-12 : ℝ) ≤ t ^ 2 := le_trans (by norm_num) (pow_le_pow_left₀ (by norm_num) ht0 2)
      have h2 : (0.9 : ℝ) ≤ 1 / (1 + 3e-16) := by norm_num
      have h3 : 2 * (t ^ 2 / 10) * 0.5 * 0.9 ≤ 2 * (t ^ 2 / 10) * 0.5 * (1 / (1 + 3e-16)) := mul_le_mul_of_nonneg_left h2 (by positivity)
      nlinarith)
  refine ⟨C, ρ, hρ1, fun θ => ?_⟩
  obtain ⟨Ω, mΩ, P, ζ, h1, h2, h3, h4⟩ := exists_iid Nat ((gaussianReal 0 1).prod (Measure.pi fun _ : Elem (Pos size) => gaussianReal 0 1))
  have hR : RandomSteps (gaussianReal 0 1) P (fun k ω => (ζ k ω).1) (fun k i p ω => (ζ k ω).2 ⟨i, p⟩) :=
    ⟨h4, fun k => (h1 k).fst, fun k i p => (measurable_pi_apply _).comp (h1 k).snd, h3, fun k => (h2 k).map_eq⟩
  have hmass : ∀ i p, (sghmcVec (κ := Pos size) 0.5 10 (1 : Nat) (fun _ => t) (fun _ => ripple 0) (fun _ _ _ => 0) θ 1 i p).mass = 1 / (1 + 3e-16) := by
    intro i p
    simp only [sghmcVec, sghmcStep, Coord.start, Coord.massUsed, after_false Nat.zero_lt_one, Bool.false_eq_true, if_false, Real.sqrt_one]
  obtain ⟨X, hX, hb⟩ := h (F := streamFeeder t) ⟨.fin 10, .fin 0.5, rippleFl, fun _ _ => 0, fun _ _ _ => 0, order⟩ (fun _ => true) P
    (fun ω => streamScript t (batchesAfter 1 (fun _ => 0) (fun k ω => (ζ k ω).1) ω))
    (fun ω => rippleProblem t (batchesAfter 1 (fun _ => 0) (fun k ω => (ζ k ω).1) ω))
    (fun ω => some (batchesAfter 1 (fun _ => 0) (fun k ω => (ζ k ω).1) ω, 0)) () (fun _ => t) (fun _ => 0) (fun k ω => (ζ k ω).1) 1
    (fun _ _ _ => 0) (fun k i p ω => (ζ k ω).2 ⟨i, p⟩) (fun _ => order) θ (.fin 0) (fun _ _ => rfl) (fun _ _ => rfl) (fun _ _ => rfl)
    (fun _ _ _ _ => rfl) hR rfl rfl one_pos (fun _ _ => rfl) hmass
  refine ⟨Ω, mΩ, P, _, _, X, hR, hX, 1 + (∑ q : Elem (Pos size),
    (sghmcVec 0.5 10 (1 : Nat) (fun _ => t) (fun _ => ripple 0) (fun _ _ _ => 0) θ 1 q.1 q.2).pos ^ 2 + ∑ q : Elem (Pos size),
    (sghmcVec 0.5 10 (1 : Nat) (fun _ => t) (fun _ => ripple 0) (fun _ _ _ => 0) θ 1 q.1 q.2).mom ^ 2), fun k => ?_⟩
  have h5 := ((hb (f := fun x => ‖x‖) zero_le_one fun x y => by rw [one_mul]; exact abs_norm_sub_norm_le x y).1 k).2
  rwa [one_mul, one_mul] at h5

end PySGMCMC.Chain
