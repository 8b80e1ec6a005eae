import Verif.Props.Stability
import Verif.Lemmas.Convergence

/-!
# C123: SGLD converges to the posterior

The costs of the mini-batches are strongly convex and smooth, and their gradients are right on average.  After burn-in the mini-batches
and the normal draws are independent from step to step.  Then averages over samples after `k` further steps differ from averages over
the density proportional to `exp (-(scale + 3e-16) U)` by a term that decays geometrically in `k` and a term of the order of the
square root of the stepsize.
-/

namespace PySGMCMC.Chain
open SamplerBase BurnInStats Spec MeasureTheory ProbabilityTheory Contraction Invariance Langevin Recipe

variable {n : Nat} {size : Fin n → Nat} {Bt : Type}

/-- The mini-batches of a run: `b0` during burn-in, then random ones. -/
def batchesAfter {Ω : Type} (B : Nat) (b0 : Nat → Bt) (β : Nat → Ω → Bt) (ω : Ω) (k : Nat) : Bt := if k < B then b0 k else β (k - B) ω

theorem batchesAfter_add {Ω : Type} (B : Nat) (b0 : Nat → Bt) (β : Nat → Ω → Bt) (ω : Ω) (k : Nat) : batchesAfter B b0 β ω (B + k) = β k ω := by
  unfold batchesAfter; rw [if_neg (by omega), Nat.add_sub_cancel_left]

theorem sgldVec_congr' {κ : Fin n → Type} (a scale : ℝ) (B : Int) (eps : Nat → ℝ) {γ γ' : Nat → (∀ i, κ i → ℝ) → ∀ i, κ i → ℝ}
    {z z' : Nat → ∀ i, κ i → ℝ} (θ : ∀ i, κ i → ℝ) (k : Nat) (hγ : ∀ j < k, γ j = γ' j) (h : ∀ j < k, z j = z' j) :
    sgldVec a scale B eps γ z θ k = sgldVec a scale B eps γ' z' θ k := by
  induction k with
  | zero => rfl
  | succ k ih => simp only [sgldVec]; rw [ih (fun j hj => hγ j (by omega)) fun j hj => h j (by omega), h k (by omega), hγ k (by omega)]

/-- A gradient as a function of all numbers at once. -/
def flatGrad (γ : Bt → (∀ i, Pos size i → ℝ) → ∀ i, Pos size i → ℝ) : Bt → (Elem (Pos size) → ℝ) → Elem (Pos size) → ℝ :=
  fun β x q => γ β (fun i p => x ⟨i, p⟩) q.1 q.2

variable [MeasurableSpace Bt]

/-- What is random after burn-in: independent mini-batches with law `ν` and independent standard normal draws. -/
structure RandomSteps {Ω : Type} [MeasurableSpace Ω] (ν : Measure Bt) (P : Measure Ω) (β : Nat → Ω → Bt)
    (z : Nat → ∀ i, Pos size i → Ω → ℝ) : Prop where
  prob : IsProbabilityMeasure P
  batch : ∀ k, Measurable (β k)
  draw : ∀ k i p, Measurable (z k i p)
  indep : iIndepFun (fun k ω => (β k ω, fun q : Elem (Pos size) => z k q.1 q.2 ω)) P
  law : ∀ k, P.map (fun ω => (β k ω, fun q : Elem (Pos size) => z k q.1 q.2 ω)) = ν.prod (Measure.pi fun _ => gaussianReal 0 1)

/-- **C123** The samples of SGLD converge to the posterior.  `K` and the normalization `c` depend on the cost, on `scale` and on the
bounds `lo` and `hi` for the inverse masses only. -/
theorem C123_sgld_converges {ν : Measure Bt} [IsProbabilityMeasure ν] {U : (Elem (Pos size) → ℝ) → ℝ}
    {γ : Bt → (∀ i, Pos size i → ℝ) → ∀ i, Pos size i → ℝ} {μ L L₂ Λ : ℝ} (hγ : ConvexBatches ν U (flatGrad γ) μ L L₂ Λ)
    (hsep : ∀ β i θ θ', θ i = θ' i → γ β θ i = γ β θ' i) (scale : ℝ) (hs : 0 < scale) (lo hi : ℝ) (hlo : 0 < lo) (hlohi : lo ≤ hi) :
    ∃ c K, IsProbabilityMeasure (boltz fun x => (scale + 3e-16) * U x + c) ∧ 0 ≤ K ∧
    ∀ {F : Feeder} (W : SGLDWorld size) (ok : Dict Key Arr → Bool) {Ω : Type} [MeasurableSpace Ω] (P : Measure Ω)
      (S : Ω → ∀ N, Script F N) (Pb : ∀ ω N, Problem (S ω N) W.grad W.cost ok) (gen : Ω → Option F.Batch) (sched : F.Sched) (eps : Nat → ℝ)
      (b0 : Nat → Bt) (β : Nat → Ω → Bt) (a : ℝ) (B : Nat) (e : ℝ) (z0 : Nat → ∀ i, Pos size i → ℝ) (z : Nat → ∀ i, Pos size i → Ω → ℝ)
      (order : Ω → Nat → SGLD.Schedule (Fin n)) (θ : ∀ i, Pos size i → ℝ) (eps0 : Fl),
      (∀ ω N, (S ω N).batch 0 = gen ω) → (∀ ω N, (S ω N).sched 0 = sched) → (∀ ω N, (S ω N).eps = eps) →
      (∀ ω N k θ, (Pb ω N).γ k θ = γ (batchesAfter B b0 β ω k) θ) → RandomSteps ν P β z →
      W.a = .fin a → 0 < a → W.scaleGrad = .fin scale → 0 < B → 0 < e → (∀ k, B ≤ k → eps k = e) → e * a * hi * L ≤ 1 →
      let world : Ω → SGLDWorld size := fun ω =>
        { W with normal := fun k i p => .fin (drawsAfter B z0 z ω k i p), order := order ω }
      let atEnd := sgldVec a scale B eps (fun k => γ (b0 k)) z0 θ B
      (∀ i p, lo ≤ (atEnd i p).mass ∧ (atEnd i p).mass ≤ hi) →
      ∃ X : Nat → Ω → Elem (Pos size) → ℝ,
        (∀ N ω, ∃ cost : Nat → Fl,
          (calls (asIter (burnInNext (env F (world ω).graph ok) B n)) N
              (init (gen ω) sched ⟨SGLD.State.init fun i p => .fin (θ i p), eps0, 0⟩)).1
            = (List.range N).map (fun k : Nat =>
                let arrays := List.ofFn fun i => flat fun p => .fin (X (k + 1) ω ⟨i, p⟩)
                .ok ((if (k : Int) < B then .many arrays else unravel arrays), cost k)))
        ∧ ∀ {A₁ A₂ : ℝ} {f : (Elem (Pos size) → ℝ) → ℝ} {D : (Elem (Pos size) → ℝ) → (Elem (Pos size) → ℝ) →L[ℝ] ℝ}, Smooth A₁ A₂ f D → 0 ≤ A₂ →
          ∀ k, Integrable (fun ω => f (X (B + k) ω)) P
            ∧ |∫ ω, f (X (B + k) ω) ∂P - ∫ x, f x ∂boltz fun x => (scale + 3e-16) * U x + c|
              ≤ √(hi * (∑ i, size i : Nat) / lo) * A₁ * (√(1 - e * a * μ * lo)) ^ k
                  * (∫ y, ‖(fun q : Elem (Pos size) => (atEnd q.1 q.2).pos) - y‖ ∂boltz fun x => (scale + 3e-16) * U x + c)
                + K * √(e * a) * (A₁ + A₂) := by
  have hs' : 0 < scale + 3e-16 := by positivity
  obtain ⟨c, hc⟩ := hγ.normalized hs'
  obtain ⟨K, hK0, hK⟩ := hγ.converges (unitNoise_gauss (J := Elem (Pos size))) hs' hc hlo hlohi
  refine ⟨c, K, hc, hK0, ?_⟩
  intro F W ok Ω _ P S Pb gen sched eps b0 β a B e z0 z order θ eps0 hgen hsched heps hPb hR ha ha0 hsc hB he0 he hL world atEnd hlh
  have := hR.prob
  have hq : ∀ ω N, (Pb ω N).γ = fun k => γ (batchesAfter B b0 β ω k) := fun ω N => by funext k θ; exact hPb ω N k θ
  have h00 : ∀ ω, sgldVec a scale B eps (fun k => γ (batchesAfter B b0 β ω k)) (drawsAfter B z0 z ω) θ B = atEnd := fun ω =>
    sgldVec_congr' a scale B eps θ B (fun j hj => by unfold batchesAfter; rw [if_pos hj]) fun j hj => drawsAfter_lt hj
  refine ⟨fun k ω q => (sgldVec a scale B eps (fun k => γ (batchesAfter B b0 β ω k)) (drawsAfter B z0 z ω) θ k q.1 q.2).pos, ?_, ?_⟩
  · intro N ω
    obtain ⟨cost, hcost⟩ := C89_sgld_deterministic (S ω N) (world ω) ok
      ⟨(Pb ω N).γ, (Pb ω N).c, (Pb ω N).grad_eq, (Pb ω N).cost_eq, (Pb ω N).accepts⟩ a scale ha hsc hs (drawsAfter B z0 z ω) (fun _ _ _ => rfl)
      B θ eps0 (fun k _ i θ θ' hθ => by simp only [hPb]; exact hsep _ i θ θ' hθ)
    refine ⟨cost, ?_⟩
    rw [hgen, hsched] at hcost
    rw [hcost]
    simp only [heps, hq]
  · intro A₁ A₂ f D hf hA k
    have hcard : Fintype.card (Elem (Pos size)) = ∑ i, size i := by rw [Fintype.card_sigma]; simp
    rw [← hcard]
    refine hK P (fun q : Elem (Pos size) => (atEnd q.1 q.2).mass) (e * a) β (fun k ω q => z k q.1 q.2 ω)
      (fun k ω q => (sgldVec a scale B eps (fun k => γ (batchesAfter B b0 β ω k)) (drawsAfter B z0 z ω) θ (B + k) q.1 q.2).pos)
      (fun q => (atEnd q.1 q.2).pos) (fun q => hlh q.1 q.2) (mul_pos he0 ha0) hL hR.batch
      (fun k => measurable_pi_iff.2 fun q => hR.draw k q.1 q.2) hR.indep hR.law (fun ω => ?_) (fun k ω q => ?_) hf hA k
    · funext q
      beta_reduce
      rw [Nat.add_zero, h00 ω]
    · have h1 := (sgldVec_after a scale hB eps (fun k => γ (batchesAfter B b0 β ω k)) (drawsAfter B z0 z ω) θ).2 (B + k) q.1 q.2 (Nat.le_add_right B k)
      rw [he _ (Nat.le_add_right B k), drawsAfter_add, h00 ω, batchesAfter_add] at h1
      rw [← Nat.add_assoc, h1]
      unfold flatGrad sgldSd
      rw [show 2 * (e * a) * (atEnd q.1 q.2).mass / (scale + 3e-16) = 2 * e * (atEnd q.1 q.2).mass * a / (scale + 3e-16) by ring,
        show e * a * (atEnd q.1 q.2).mass = e * (atEnd q.1 q.2).mass * a by ring]

/-- **C123** The error can be made as small as wanted: for every accuracy there is a stepsize below which, for each stepsize, enough
steps reach it. -/
theorem C123_error_vanishes {a μ lo : ℝ} (ha : 0 < a) (hμ : 0 < μ) (hlo : 0 < lo) (K R : ℝ) {δ : ℝ} (hδ : 0 < δ) :
    ∃ e₀ > 0, ∀ e, 0 < e → e ≤ e₀ → ∃ k₀ : Nat, ∀ k ≥ k₀, R * (√(1 - e * a * μ * lo)) ^ k + K * √(e * a) ≤ δ := by
  refine ⟨(δ / 2 / (|K| + 1)) ^ 2 / a, by positivity, fun e he he0 => ?_⟩
  have h1 : √(e * a) ≤ δ / 2 / (|K| + 1) := by
    refine Real.sqrt_le_iff.2 ⟨by positivity, ?_⟩
    rwa [le_div_iff₀ ha] at he0
  have h2 : K * √(e * a) ≤ δ / 2 := by
    calc K * √(e * a) ≤ (|K| + 1) * √(e * a) := mul_le_mul_of_nonneg_right (by linarith [le_abs_self K]) (Real.sqrt_nonneg _)
      _ ≤ (|K| + 1) * (δ / 2 / (|K| + 1)) := mul_le_mul_of_nonneg_left h1 (by positivity)
      _ = δ / 2 := by field_simp
  have hlt : √(1 - e * a * μ * lo) < 1 := by
    have : 0 < e * a * μ * lo := by positivity
    rw [Real.sqrt_lt' one_pos]
    linarith
  obtain ⟨k₀, hk⟩ := exists_pow_lt_of_lt_one (show 0 < δ / 2 / (|R| + 1) by positivity) hlt
  refine ⟨k₀, fun k hk0 => ?_⟩
  have h3 : (√(1 - e * a * μ * lo)) ^ k ≤ δ / 2 / (|R| + 1) := (pow_le_pow_of_le_one (Real.sqrt_nonneg _) hlt.le hk0).trans hk.le
  have h4 : R * (√(1 - e * a * μ * lo)) ^ k ≤ δ / 2 := by
    calc R * (√(1 - e * a * μ * lo)) ^ k ≤ (|R| + 1) * (√(1 - e * a * μ * lo)) ^ k :=
          mul_le_mul_of_nonneg_right (by linarith [le_abs_self R]) (by positivity)
      _ ≤ (|R| + 1) * (δ / 2 / (|R| + 1)) := mul_le_mul_of_nonneg_left h3 (by positivity)
      _ = δ / 2 := by field_simp
  linarith

/-! ## The hypotheses are met

Every mini-batch feeds a number `β`; the cost `∑ ((x - β)² / 2 - cos x / 2)` is not quadratic. -/

/-- Batches feed the numbers of a stream, the stepsize is `e`. -/
@[reducible] noncomputable def streamFeeder (e : ℝ) : Feeder where
  Batch := (Nat → ℝ) × Nat
  Sched := Unit
  batchNext b := (.ok (Dict.single (.ph 0) [.fin (b.1 b.2)]), (b.1, b.2 + 1))
  schedNext _ := (.ok [.fin e], ())
  schedUpdate _ _ _ := (.ok (), ())

noncomputable def streamScript (e : ℝ) (b : Nat → ℝ) (N : Nat) : Script (streamFeeder e) N where
  batch k := some (b, k)
  data k := Dict.single (.ph 0) [.fin (b k)]
  sched _ := ()
  eps _ := e
  supplies k _ := ⟨rfl, rfl⟩
  stepsize k _ := ⟨(), rfl, fun _ _ => rfl⟩
  user k _ key h := by
    unfold Dict.single
    rw [if_neg (h 0)]

/-- The gradient of the cost. -/
noncomputable def wavy (β : ℝ) (θ : ∀ i, Pos size i → ℝ) : ∀ i, Pos size i → ℝ := fun i p => θ i p - β + Real.sin (θ i p) / 2

/-- Half the sine of a number of the model. -/
noncomputable def halfSinFl : Fl → Fl
  | .fin r => .fin (Real.sin r / 2)
  | _ => .nan

/-- The same in the model's numbers. -/
noncomputable def wavyFl (d : Dict Key Arr) (θ : ∀ i, Pos size i → Fl) : ∀ i, Pos size i → Fl := fun i p =>
  match d (.ph 0) with
  | some [b] => θ i p - b + halfSinFl (θ i p)
  | _ => .nan

noncomputable def wavyProblem (e : ℝ) (b : Nat → ℝ) (N : Nat) :
    Problem (size := size) (streamScript e b N) wavyFl (fun _ _ => 0) (fun _ => true) where
  γ k := wavy (b k)
  c _ _ := 0
  grad_eq k _ d h θ i p := by
    unfold wavyFl
    rw [h 0]
    rfl
  cost_eq _ _ _ _ _ := rfl
  accepts _ _ _ _ := rfl

/-- The cost. -/
noncomputable def wavyCost {J : Type} [Fintype J] (x : J → ℝ) : ℝ := ∑ j, (x j ^ 2 / 2 - Real.cos (x j) / 2)

theorem sin_near (a b : ℝ) : |Real.sin a - Real.sin b| ≤ |a - b| := by
  have := Real.lipschitzWith_sin.dist_le_mul a b
  simpa [Real.dist_eq] using this

theorem cos_near (a b : ℝ) : |Real.cos a - Real.cos b| ≤ |a - b| := by
  have := Real.lipschitzWith_cos.dist_le_mul a b
  simpa [Real.dist_eq] using this

theorem wavyCost_deriv {J : Type} [Fintype J] [DecidableEq J] (x : J → ℝ) :
    HasFDerivAt (wavyCost (J := J)) (∑ j, (x j + Real.sin (x j) / 2) • (ContinuousLinearMap.proj j : (J → ℝ) →L[ℝ] ℝ)) x := by
  have h1 : ∀ j, HasFDerivAt (fun x : J → ℝ => x j ^ 2 / 2 - Real.cos (x j) / 2)
      ((x j + Real.sin (x j) / 2) • (ContinuousLinearMap.proj j : (J → ℝ) →L[ℝ] ℝ)) x := fun j => by
    have h2 : HasDerivAt (fun t : ℝ => t ^ 2 / 2 - Real.cos t / 2) (x j + Real.sin (x j) / 2) (x j) := by
      refine ((((hasDerivAt_id' (x j)).pow 2).div_const 2).sub ((Real.hasDerivAt_cos (x j)).div_const 2)).congr_deriv ?_
      simp
      ring
    have h3 : HasFDerivAt (fun x : J → ℝ => x j) (ContinuousLinearMap.proj j : (J → ℝ) →L[ℝ] ℝ) x := hasFDerivAt_apply j x
    exact h2.comp_hasFDerivAt x h3
  exact HasFDerivAt.fun_sum fun j _ => h1 j

theorem wavy_deriv (size : Fin n → Nat) (β : ℝ) (x : Elem (Pos size) → ℝ) : HasFDerivAt (flatGrad (wavy (size := size)) β)
    (ContinuousLinearMap.pi fun q => (1 + Real.cos (x q) / 2) • (ContinuousLinearMap.proj q : (Elem (Pos size) → ℝ) →L[ℝ] ℝ)) x :=
  hasFDerivAt_pi.2 fun q => by
    have h2 : HasDerivAt (fun t : ℝ => t - β + Real.sin t / 2) (1 + Real.cos (x q) / 2) (x q) :=
      ((hasDerivAt_id' (x q)).sub_const β).add ((Real.hasDerivAt_sin (x q)).div_const 2)
    have h3 : HasFDerivAt (fun x : Elem (Pos size) → ℝ => x q) (ContinuousLinearMap.proj q : (Elem (Pos size) → ℝ) →L[ℝ] ℝ) x :=
      hasFDerivAt_apply q x
    exact h2.comp_hasFDerivAt x h3

theorem wavy_convex (size : Fin n → Nat) :
    ConvexBatches (gaussianReal 0 1) wavyCost (flatGrad (wavy (size := size))) (1 / 2) (3 / 2) (1 / 2) (3 / 2) where
  batch :=
    { meas := by
        refine measurable_pi_iff.2 fun q => ?_
        have h1 : Measurable fun y : (Elem (Pos size) → ℝ) × ℝ => y.1 q := (measurable_pi_apply q).comp measurable_fst
        exact (h1.sub measurable_snd).add ((Real.measurable_sin.comp h1).div_const 2)
      nonneg := by norm_num
      lip := fun β x y => by
        refine (pi_norm_le_iff_of_nonneg (by positivity)).2 fun q => ?_
        have h1 := sin_near (x q) (y q)
        have h2 : |x q - y q| ≤ ‖x - y‖ := norm_le_pi_norm (x - y) q
        simp only [flatGrad, wavy, Pi.sub_apply, Real.norm_eq_abs]
        rw [show x q - β + Real.sin (x q) / 2 - (y q - β + Real.sin (y q) / 2) = (x q - y q) + (Real.sin (x q) - Real.sin (y q)) / 2 by ring]
        refine (abs_add_le _ _).trans ?_
        rw [abs_div, abs_two]
        linarith
      int := fun x q => by
        have hi : Integrable (fun t : ℝ => t) (gaussianReal 0 1) := (memLp_id_gaussianReal 1).integrable le_rfl
        exact ((integrable_const (x q)).sub hi).add (integrable_const (Real.sin (x q) / 2))
      mean := fun x q => by
        have hi : Integrable (fun t : ℝ => t) (gaussianReal 0 1) := (memLp_id_gaussianReal 1).integrable le_rfl
        have h1 : ∫ t : ℝ, x q - t + Real.sin (x q) / 2 ∂gaussianReal 0 1 = x q + Real.sin (x q) / 2 := by
          have h2 : Integrable (fun t : ℝ => x q - t) (gaussianReal 0 1) := (integrable_const (x q)).sub hi
          rw [integral_add h2 (integrable_const _), integral_sub (integrable_const _) hi,
            integral_id_gaussianReal]
          simp
        unfold partialD
        rw [(wavyCost_deriv x).fderiv]
        refine h1.trans ?_
        simp [Pi.single_apply] }
  smooth := by
    unfold wavyCost
    refine ContDiff.sum fun j _ => ?_
    exact (((contDiff_apply ℝ ℝ j).pow 2).div_const 2).sub ((Real.contDiff_cos.comp (contDiff_apply ℝ ℝ j)).div_const 2)
  pos := by norm_num
  le := by norm_num
  pulls β x y := by
    rw [Finset.mul_sum]
    refine Finset.sum_le_sum fun q _ => ?_
    have h1 := sin_near (x q) (y q)
    simp only [flatGrad, wavy]
    have h2 : |(x q - y q) * (Real.sin (x q) - Real.sin (y q))| ≤ (x q - y q) ^ 2 := by
      rw [abs_mul, ← sq_abs (x q - y q), sq]
      exact mul_le_mul_of_nonneg_left h1 (abs_nonneg _)
    have h3 := neg_abs_le ((x q - y q) * (Real.sin (x q) - Real.sin (y q)))
    nlinarith
  cocoercive β x y := by
    rw [Finset.mul_sum]
    refine Finset.sum_le_sum fun q _ => ?_
    have h1 := sin_near (x q) (y q)
    have h2 := sq_le_sq' (neg_le_of_abs_le (show |Real.sin (x q) - Real.sin (y q)| ≤ |x q - y q| from h1)) (le_of_abs_le h1)
    rw [sq_abs] at h2
    have h4 : |(x q - y q) * (Real.sin (x q) - Real.sin (y q))| ≤ (x q - y q) ^ 2 := by
      rw [abs_mul, ← sq_abs (x q - y q), sq]
      exact mul_le_mul_of_nonneg_left h1 (abs_nonneg _)
    have h3 := le_abs_self ((x q - y q) * (Real.sin (x q) - Real.sin (y q)))
    simp only [flatGrad, wavy]
    rw [show x q - β + Real.sin (x q) / 2 - (y q - β + Real.sin (y q) / 2) = (x q - y q) + (Real.sin (x q) - Real.sin (y q)) / 2 by ring]
    nlinarith
  diff β x := (wavy_deriv size β x).differentiableAt
  lip2 β x y := by
    rw [(wavy_deriv size β x).fderiv, (wavy_deriv size β y).fderiv]
    refine ContinuousLinearMap.opNorm_le_bound _ (by positivity) fun v => (pi_norm_le_iff_of_nonneg (by positivity)).2 fun q => ?_
    have h1 := cos_near (x q) (y q)
    have h2 : |x q - y q| ≤ ‖x - y‖ := norm_le_pi_norm (x - y) q
    have h3 := norm_le_pi_norm v q
    have e : ((ContinuousLinearMap.pi fun q => (1 + Real.cos (x q) / 2) • (ContinuousLinearMap.proj q : (Elem (Pos size) → ℝ) →L[ℝ] ℝ))
        - ContinuousLinearMap.pi fun q => (1 + Real.cos (y q) / 2) • (ContinuousLinearMap.proj q : (Elem (Pos size) → ℝ) →L[ℝ] ℝ)) v q
        = (Real.cos (x q) - Real.cos (y q)) / 2 * v q := by
      simp
      ring
    rw [e, norm_mul, Real.norm_eq_abs, abs_div, abs_two]
    exact mul_le_mul (by linarith) h3 (norm_nonneg _) (by positivity)
  nonneg := by norm_num
  sq := by
    have hi : Integrable (fun t : ℝ => t ^ 2) (gaussianReal 0 1) := (memLp_id_gaussianReal 2).integrable_sq
    refine hi.mono' ?_ (.of_forall fun β => ?_)
    · have : Measurable fun β : ℝ => flatGrad (wavy (size := size)) β 0 := measurable_pi_iff.2 fun q => by
        simp only [flatGrad, wavy, Pi.zero_apply]
        exact (measurable_const.sub measurable_id).add measurable_const
      exact (this.norm.pow_const 2).aestronglyMeasurable
    · rw [norm_pow, norm_norm, ← sq_abs β]
      refine pow_le_pow_left₀ (norm_nonneg _) ((pi_norm_le_iff_of_nonneg (abs_nonneg _)).2 fun q => ?_) 2
      simp [flatGrad, wavy]

/-- For any parameters, any start and any execution orders: SGLD with random mini-batches, burn-in of one step and stepsize `e` gives
samples of the density proportional to `exp (-(10 + 3e-16) wavyCost)` up to a multiple of `√e`. -/
example (size : Fin n → Nat) (order : Nat → SGLD.Schedule (Fin n)) (θ : ∀ i, Pos size i → ℝ) : ∃ c K,
    IsProbabilityMeasure (boltz fun x : Elem (Pos size) → ℝ => (10 + 3e-16) * wavyCost x + c) ∧ ∀ e, 0 < e → e ≤ 1 / 2 →
    ∃ (Ω : Type) (_ : MeasurableSpace Ω) (P : Measure Ω) (β : Nat → Ω → ℝ) (z : Nat → ∀ i, Pos size i → Ω → ℝ)
      (X : Nat → Ω → Elem (Pos size) → ℝ),
      RandomSteps (gaussianReal 0 1) P β z
      ∧ (∀ N ω, ∃ cost : Nat → Fl,
        (calls (asIter (burnInNext (env (streamFeeder e) (SGLDWorld.graph
            ⟨.fin 10, .fin 1, wavyFl, fun _ _ => 0, fun k i p => .fin (drawsAfter 1 (fun _ _ _ => 0) z ω k i p), order⟩) fun _ => true) (1 : Nat) n)) N
            (init (some (batchesAfter 1 (fun _ => 0) β ω, 0)) () ⟨SGLD.State.init fun i p => .fin (θ i p), .fin 0, 0⟩)).1
          = (List.range N).map (fun k : Nat =>
              let arrays := List.ofFn fun i => flat fun p => .fin (X (k + 1) ω ⟨i, p⟩)
              .ok ((if (k : Int) < (1 : Nat) then .many arrays else unravel arrays), cost k)))
      ∧ ∃ R, ∀ {A₁ A₂ : ℝ} {f : (Elem (Pos size) → ℝ) → ℝ} {D : (Elem (Pos size) → ℝ) → (Elem (Pos size) → ℝ) →L[ℝ] ℝ}, Smooth A₁ A₂ f D → 0 ≤ A₂ →
        ∀ k, |∫ ω, f (X (1 + k) ω) ∂P - ∫ x, f x ∂boltz fun x : Elem (Pos size) → ℝ => (10 + 3e-16) * wavyCost x + c|
          ≤ R * A₁ * (√(1 - e * 1 * (1 / 2) * 0.9)) ^ k + K * √(e * 1) * (A₁ + A₂) := by
  obtain ⟨c, K, hc, -, h⟩ := C123_sgld_converges (wavy_convex size) (fun β i θ θ' h => by funext p; simp only [wavy, h])
    10 (by norm_num) 0.9 1 (by norm_num) (by norm_num)
  refine ⟨c, K, hc, fun e he0 he => ?_⟩
  obtain ⟨Ω, mΩ, P, ζ, h1, h2, h3, h4⟩ := exists_iid Nat ((gaussianReal 0 1).prod (Measure.pi fun _ : Elem (Pos size) => gaussianReal 0 1))
  have hR : RandomSteps (gaussianReal 0 1) P (fun k ω => (ζ k ω).1) (fun k i p ω => (ζ k ω).2 ⟨i, p⟩) :=
    ⟨h4, fun k => (h1 k).fst, fun k i p => (measurable_pi_apply _).comp (h1 k).snd, h3, fun k => (h2 k).map_eq⟩
  have hmass : ∀ i p, (sgldVec (κ := Pos size) 1 10 (1 : Nat) (fun _ => e) (fun k => wavy 0) (fun _ _ _ => 0) θ 1 i p).mass = 1 / (1 + 3e-16) := by
    intro i p
    simp only [sgldVec, sgldStep, Coord.start, Coord.massUsed, after_false Nat.zero_lt_one, Bool.false_eq_true, if_false, Real.sqrt_one]
  obtain ⟨X, hX, hb⟩ := h (F := streamFeeder e) ⟨.fin 10, .fin 1, wavyFl, fun _ _ => 0, fun _ _ _ => 0, order⟩ (fun _ => true) P
    (fun ω => streamScript e (batchesAfter 1 (fun _ => 0) (fun k ω => (ζ k ω).1) ω))
    (fun ω => wavyProblem e (batchesAfter 1 (fun _ => 0) (fun k ω => (ζ k ω).1) ω))
    (fun ω => some (batchesAfter 1 (fun _ => 0) (fun k ω => (ζ k ω).1) ω, 0)) () (fun _ => e) (fun _ => 0) (fun k ω => (ζ k ω).1) 1 1 e (fun _ _ _ => 0)
    (fun k i p ω => (ζ k ω).2 ⟨i, p⟩) (fun _ => order) θ (.fin 0) (fun _ _ => rfl) (fun _ _ => rfl) (fun _ _ => rfl) (fun _ _ _ _ => rfl) hR
    rfl one_pos rfl one_pos he0 (fun _ _ => rfl) (by linarith) (fun i p => by rw [hmass]; norm_num)
  refine ⟨Ω, mΩ, P, _, _, X, hR, hX, √(1 * (∑ i, size i : Nat) / 0.9) * ∫ y, ‖(fun q : Elem (Pos size) =>
    (sgldVec 1 10 (1 : Nat) (fun _ => e) (fun _ => wavy 0) (fun _ _ _ => 0) θ 1 q.1 q.2).pos) - y‖ ∂boltz fun x => (10 + 3e-16) * wavyCost x + c,
    fun {A₁ A₂ f D} hf hA k => ((hb hf hA k).2.trans (le_of_eq ?_))⟩
  ring

end PySGMCMC.Chain
