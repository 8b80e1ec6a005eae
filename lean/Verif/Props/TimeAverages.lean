import Verif.Props.SghmcConverges
import Verif.Lemmas.TimeAverageConvex

/-!
# C126 and C127: averages over the samples of one run

C123 and C125 are about the law of a single sample.  A user takes the average of a function over the samples of one run.  The samples
of a run depend on each other.  Its mean square error is at most a multiple of `1 / (n e)` for SGLD and of `1 / (n e²)` for SGHMC plus the square of the
error in C123 and C125.  It does not matter if samples are left out, for example by keeping every tenth sample only.
-/

namespace PySGMCMC.Chain
open SamplerBase BurnInStats Spec MeasureTheory ProbabilityTheory Contraction Invariance Langevin Recipe

variable {n : Nat} {size : Fin n → Nat} {Bt : Type} [MeasurableSpace Bt]

/-- **C126** Averages over the samples of one run of SGLD after burn-in.  `K` and the normalization `c` depend on the cost, on `scale` and
on the bounds `lo` and `hi` for the inverse masses only; `I` are the samples used, among the first `N` after burn-in. -/
theorem C126_sgld_averages {ν : Measure Bt} [IsProbabilityMeasure ν] {U : (Elem (Pos size) → ℝ) → ℝ}
    {γ : Bt → (∀ i, Pos size i → ℝ) → ∀ i, Pos size i → ℝ} {μ L L₂ Λ : ℝ} (hγ : ConvexBatches ν U (flatGrad γ) μ L L₂ Λ)
    (hsep : ∀ β i θ θ', θ i = θ' i → γ β θ i = γ β θ' i) (scale : ℝ) (hs : 0 < scale) (lo hi : ℝ) (hlo : 0 < lo) (hlohi : lo ≤ hi) :
    ∃ c K, IsProbabilityMeasure (boltz fun x => (scale + 3e-16) * U x + c) ∧ 0 ≤ K ∧
    ∀ {F : Feeder} (W : SGLDWorld size) (ok : Dict Key Arr → Bool) {Ω : Type} [MeasurableSpace Ω] (P : Measure Ω)
      (S : Ω → ∀ N, Script F N) (Pb : ∀ ω N, Problem (S ω N) W.grad W.cost ok) (gen : Ω → Option F.Batch) (sched : F.Sched) (eps : Nat → ℝ)
      (b0 : Nat → Bt) (β : Nat → Ω → Bt) (a : ℝ) (B : Nat) (e : ℝ) (z0 : Nat → ∀ i, Pos size i → ℝ) (z : Nat → ∀ i, Pos size i → Ω → ℝ)
      (order : Ω → Nat → SGLD.Schedule (Fin n)) (θ : ∀ i, Pos size i → ℝ) (eps0 : Fl),
      (∀ ω N, (S ω N).batch 0 = gen ω) → (∀ ω N, (S ω N).sched 0 = sched) → (∀ ω N, (S ω N).eps = eps) →
      (∀ ω N k θ, (Pb ω N).γ k θ = γ (batchesAfter B b0 β ω k) θ) → RandomSteps ν P β z →
      W.a = .fin a → 0 < a → W.scaleGrad = .fin scale → 0 < B → 0 < e → (∀ k, B ≤ k → eps k = e) → e * a * hi * L ≤ 1 →
      let world : Ω → SGLDWorld size := fun ω =>
        { W with normal := fun k i p => .fin (drawsAfter B z0 z ω k i p), order := order ω }
      let atEnd := sgldVec a scale B eps (fun k => γ (b0 k)) z0 θ B
      (∀ i p, lo ≤ (atEnd i p).mass ∧ (atEnd i p).mass ≤ hi) →
      ∃ X : Nat → Ω → Elem (Pos size) → ℝ,
        (∀ N ω, ∃ cost : Nat → Fl,
          (calls (asIter (burnInNext (env F (world ω).graph ok) B n)) N
              (init (gen ω) sched ⟨SGLD.State.init fun i p => .fin (θ i p), eps0, 0⟩)).1
            = (List.range N).map (fun k : Nat =>
                let arrays := List.ofFn fun i => flat fun p => .fin (X (k + 1) ω ⟨i, p⟩)
                .ok ((if (k : Int) < B then .many arrays else unravel arrays), cost k)))
        ∧ ∀ {A₁ A₂ : ℝ} {f : (Elem (Pos size) → ℝ) → ℝ} {D : (Elem (Pos size) → ℝ) → (Elem (Pos size) → ℝ) →L[ℝ] ℝ}, Smooth A₁ A₂ f D → 0 ≤ A₂ →
          ∀ {I : Finset Nat}, I.Nonempty → ∀ {N : Nat}, (∀ k ∈ I, k < N) →
            Integrable (fun ω => ((∑ k ∈ I, f (X (B + k) ω)) / I.card - ∫ x, f x ∂boltz fun x => (scale + 3e-16) * U x + c) ^ 2) P
            ∧ ∫ ω, ((∑ k ∈ I, f (X (B + k) ω)) / I.card - ∫ x, f x ∂boltz fun x => (scale + 3e-16) * U x + c) ^ 2 ∂P
              ≤ N / (I.card : ℝ) ^ 2 * (K * A₁ ^ 2 * (1 + e * a * ‖fun q : Elem (Pos size) => (atEnd q.1 q.2).pos‖ ^ 2) / (e * a))
                + (K * A₁ * (∫ y, ‖(fun q : Elem (Pos size) => (atEnd q.1 q.2).pos) - y‖ ∂boltz fun x => (scale + 3e-16) * U x + c) / (I.card * (e * a))
                  + K * √(e * a) * (A₁ + A₂)) ^ 2 := by
  have hs' : 0 < scale + 3e-16 := by positivity
  obtain ⟨c, hc⟩ := hγ.normalized hs'
  obtain ⟨K, hK0, hK⟩ := hγ.mean_square (unitNoise_gauss (J := Elem (Pos size))) hs' hc hlo hlohi
  refine ⟨c, K, hc, hK0, ?_⟩
  intro F W ok Ω _ P S Pb gen sched eps b0 β a B e z0 z order θ eps0 hgen hsched heps hPb hR ha ha0 hsc hB he0 he hL world atEnd hlh
  have := hR.prob
  have hq : ∀ ω N, (Pb ω N).γ = fun k => γ (batchesAfter B b0 β ω k) := fun ω N => by funext k θ; exact hPb ω N k θ
  have h00 : ∀ ω, sgldVec a scale B eps (fun k => γ (batchesAfter B b0 β ω k)) (drawsAfter B z0 z ω) θ B = atEnd := fun ω =>
    sgldVec_congr' a scale B eps θ B (fun j hj => by unfold batchesAfter; rw [if_pos hj]) fun j hj => drawsAfter_lt hj
  refine ⟨fun k ω q => (sgldVec a scale B eps (fun k => γ (batchesAfter B b0 β ω k)) (drawsAfter B z0 z ω) θ k q.1 q.2).pos, ?_, ?_⟩
  · intro N ω
    obtain ⟨cost, hcost⟩ := C89_sgld_deterministic (S ω N) (world ω) ok
      ⟨(Pb ω N).γ, (Pb ω N).c, (Pb ω N).grad_eq, (Pb ω N).cost_eq, (Pb ω N).accepts⟩ a scale ha hsc hs (drawsAfter B z0 z ω) (fun _ _ _ => rfl)
      B θ eps0 (fun k _ i θ θ' hθ => by simp only [hPb]; exact hsep _ i θ θ' hθ)
    refine ⟨cost, ?_⟩
    rw [hgen, hsched] at hcost
    rw [hcost]
    simp only [heps, hq]
  · intro A₁ A₂ f D hf hA I hI N hN
    refine hK P (fun q : Elem (Pos size) => (atEnd q.1 q.2).mass) (e * a) β (fun k ω q => z k q.1 q.2 ω)
      (fun k ω q => (sgldVec a scale B eps (fun k => γ (batchesAfter B b0 β ω k)) (drawsAfter B z0 z ω) θ (B + k) q.1 q.2).pos)
      (fun q => (atEnd q.1 q.2).pos) (fun q => hlh q.1 q.2) (mul_pos he0 ha0) hL hR.batch
      (fun k => measurable_pi_iff.2 fun q => hR.draw k q.1 q.2) hR.indep hR.law (fun ω => ?_) (fun k ω q => ?_) hf hA hI hN
    · funext q
      beta_reduce
      rw [Nat.add_zero, h00 ω]
    · have h1 := (sgldVec_after a scale hB eps (fun k => γ (batchesAfter B b0 β ω k)) (drawsAfter B z0 z ω) θ).2 (B + k) q.1 q.2 (Nat.le_add_right B k)
      rw [he _ (Nat.le_add_right B k), drawsAfter_add, h00 ω, batchesAfter_add] at h1
      rw [← Nat.add_assoc, h1]
      unfold flatGrad sgldSd
      rw [show 2 * (e * a) * (atEnd q.1 q.2).mass / (scale + 3e-16) = 2 * e * (atEnd q.1 q.2).mass * a / (scale + 3e-16) by ring,
        show e * a * (atEnd q.1 q.2).mass = e * (atEnd q.1 q.2).mass * a by ring]

/-- **C126, C127** Once the samples used are many, the mean square error is at most the square of the error in C123 and C125 plus any `δ > 0`. At
least one sample out of `T` is used. -/
theorem C126_long_runs {t : ℝ} (ht : 0 < t) (T : Nat) {V Q b : ℝ} (hV : 0 ≤ V) {δ : ℝ} (hδ : 0 < δ) :
    ∃ c₀ : Nat, ∀ c ≥ c₀, ∀ N : Nat, N ≤ T * c → N / (c : ℝ) ^ 2 * (V / t) + (Q / (c * t) + b) ^ 2 ≤ b ^ 2 + δ := by
  have h1 : Filter.Tendsto (fun c : Nat => (T * (V / t)) / (c : ℝ) + (Q / t / (c : ℝ) + b) ^ 2) Filter.atTop (nhds (0 + (0 + b) ^ 2)) :=
    (tendsto_const_div_atTop_nhds_zero_nat _).add (((tendsto_const_div_atTop_nhds_zero_nat _).add_const b).pow 2)
  have h2 := h1.eventually (gt_mem_nhds (show 0 + (0 + b) ^ 2 < b ^ 2 + δ by rw [zero_add, zero_add]; linarith))
  obtain ⟨c₀, hc₀⟩ := Filter.eventually_atTop.1 h2
  refine ⟨c₀ + 1, fun c hc N hN => le_trans ?_ (hc₀ c (by omega)).le⟩
  have hc0 : (0 : ℝ) < c := by exact_mod_cast (by omega : 0 < c)
  have hN' : (N : ℝ) ≤ T * c := by exact_mod_cast hN
  refine add_le_add ?_ (le_of_eq (by rw [div_div, mul_comm t]))
  calc N / (c : ℝ) ^ 2 * (V / t) ≤ T * c / (c : ℝ) ^ 2 * (V / t) := by gcongr
    _ = _ := by field_simp

theorem floor_arith {N K e S σ fl Y D c t A₁ A₂ : ℝ} (hK : 0 ≤ K) (he : 0 ≤ e) (heS : e ≤ S) (hσ : 0 ≤ σ) (hN : 0 ≤ N) (ht : 0 ≤ t) (hfl : 0 ≤ fl) (hY : 0 ≤ Y)
    (hD : 0 ≤ D) (hc : 0 ≤ c) (h1 : 0 ≤ A₁) (h2 : 0 ≤ A₂) (hSs : 0 ≤ S / σ) :
    N * (K * A₁ ^ 2 * (1 + (e * (e / σ) + fl) + Y) / t) + (K * A₁ * D / c + K * (e + (e * (e / σ) + fl)) * (A₁ + A₂)) ^ 2
      ≤ N * (K * (1 + S / σ) * (1 + S) * A₁ ^ 2 * (1 + fl + Y) / t)
        + (K * (1 + S / σ) * (1 + S) * A₁ * D / c + K * (1 + S / σ) * (1 + S) * (e + fl) * (A₁ + A₂)) ^ 2 := by
  have hS : 0 ≤ S := he.trans heS
  have k0 : e / σ ≤ S / σ := div_le_div_of_nonneg_right heS hσ
  have k1 : 1 ≤ (1 + S / σ) * (1 + S) := by nlinarith [mul_nonneg hSs hS]
  have k2 : 1 + (e * (e / σ) + fl) + Y ≤ (1 + S / σ) * (1 + S) * (1 + fl + Y) := by
    have h3 : e * (e / σ) ≤ S * (S / σ) := mul_le_mul heS k0 (by positivity) hS
    have h4 := mul_le_mul_of_nonneg_right k1 (add_nonneg hfl hY)
    nlinarith [mul_nonneg hSs hS]
  have k3 : e + (e * (e / σ) + fl) ≤ (1 + S / σ) * (1 + S) * (e + fl) := by
    have h3 : e * (e / σ) ≤ e * (S / σ) := mul_le_mul_of_nonneg_left k0 he
    have h4 : (1 + S / σ) * (e + fl) ≤ (1 + S / σ) * (e + fl) * (1 + S) := le_mul_of_one_le_right (by positivity) (by linarith)
    have h5 : 0 ≤ S / σ * fl := by positivity
    linarith
  have k4 : K ≤ K * (1 + S / σ) * (1 + S) := by
    rw [mul_assoc]
    exact le_mul_of_one_le_right hK k1
  have e1 : K * (1 + S / σ) * (1 + S) * A₁ ^ 2 * (1 + fl + Y) = K * A₁ ^ 2 * ((1 + S / σ) * (1 + S) * (1 + fl + Y)) := by ring
  have e2 : K * (1 + S / σ) * (1 + S) * (e + fl) * (A₁ + A₂) = K * ((1 + S / σ) * (1 + S) * (e + fl)) * (A₁ + A₂) := by ring
  rw [e1, e2]
  have : 0 ≤ e / σ := by positivity
  gcongr

/-- **C127** Averages over the samples of one run of SGHMC after burn-in.  `K` and the normalization `c` depend on the cost, on `scale`, on
`alpha` and on the bounds `lo` and `hi` for the inverse masses only; `I` are the samples used, among the first `N` after burn-in. -/
theorem C127_sghmc_averages {ν : Measure Bt} [IsProbabilityMeasure ν] {U : (Elem (Pos size) → ℝ) → ℝ}
    {γ : Bt → (∀ i, Pos size i → ℝ) → ∀ i, Pos size i → ℝ} {μ L L₂ Λ : ℝ} (hγ : ConvexBatches ν U (flatGrad γ) μ L L₂ Λ)
    (hsep : ∀ β i θ θ', θ i = θ' i → γ β θ i = γ β θ' i) (scale alpha : ℝ) (hs : 0 < scale) (hα0 : 0 < alpha) (hα1 : alpha ≤ 1)
    (lo hi : ℝ) (hlo : 0 < lo) (hlohi : lo ≤ hi) :
    ∃ c K, IsProbabilityMeasure (boltz fun x => scale * U x + c) ∧ 0 ≤ K ∧
    ∀ {F : Feeder} (W : SGHMCWorld size) (ok : Dict Key Arr → Bool) {Ω : Type} [MeasurableSpace Ω] (P : Measure Ω)
      (S : Ω → ∀ N, Script F N) (Pb : ∀ ω N, Problem (S ω N) W.grad W.cost ok) (gen : Ω → Option F.Batch) (sched : F.Sched) (eps : Nat → ℝ)
      (b0 : Nat → Bt) (β : Nat → Ω → Bt) (B : Nat) (e : ℝ) (z0 : Nat → ∀ i, Pos size i → ℝ) (z : Nat → ∀ i, Pos size i → Ω → ℝ)
      (order : Ω → Nat → SGHMC.Schedule (Fin n)) (θ : ∀ i, Pos size i → ℝ) (eps0 : Fl),
      (∀ ω N, (S ω N).batch 0 = gen ω) → (∀ ω N, (S ω N).sched 0 = sched) → (∀ ω N, (S ω N).eps = eps) →
      (∀ ω N k θ, (Pb ω N).γ k θ = γ (batchesAfter B b0 β ω k) θ) → RandomSteps ν P β z →
      W.mdecay = .fin alpha → W.scaleGrad = .fin scale → 0 < B → 0 < e → (∀ k, B ≤ k → eps k = e) →
      e ^ 2 / alpha * hi * L * (2 + 8 / (1 - (1 - alpha) ^ 2)) ≤ 1 →
      let world : Ω → SGHMCWorld size := fun ω =>
        { W with normal := fun k i p => .fin (drawsAfter B z0 z ω k i p), order := order ω }
      let atEnd := sghmcVec alpha scale B eps (fun k => γ (b0 k)) z0 θ B
      (∀ i p, lo ≤ (atEnd i p).mass ∧ (atEnd i p).mass ≤ hi) →
      ∃ X : Nat → Ω → Elem (Pos size) → ℝ,
        (∀ N ω, ∃ cost : Nat → Fl,
          (calls (asIter (burnInNext (env F (world ω).graph ok) B n)) N
              (init (gen ω) sched ⟨SGHMC.State.init fun i p => .fin (θ i p), eps0, 0⟩)).1
            = (List.range N).map (fun k : Nat =>
                let arrays := List.ofFn fun i => flat fun p => .fin (X (k + 1) ω ⟨i, p⟩)
                .ok ((if (k : Int) < B then .many arrays else unravel arrays), cost k)))
        ∧ ∀ {A₁ A₂ : ℝ} {f : (Elem (Pos size) → ℝ) → ℝ} {D : (Elem (Pos size) → ℝ) → (Elem (Pos size) → ℝ) →L[ℝ] ℝ}, Smooth A₁ A₂ f D → 0 ≤ A₂ →
          ∀ {I : Finset Nat}, I.Nonempty → ∀ {N : Nat}, (∀ k ∈ I, k < N) →
            let x₀ : Elem (Pos size) → ℝ := fun q => (atEnd q.1 q.2).pos
            let v₀ : Elem (Pos size) → ℝ := fun q => (atEnd q.1 q.2).mom
            Integrable (fun ω => ((∑ k ∈ I, f (X (B + k) ω)) / I.card - ∫ x, f x ∂boltz fun x => scale * U x + c) ^ 2) P
            ∧ ∫ ω, ((∑ k ∈ I, f (X (B + k) ω)) / I.card - ∫ x, f x ∂boltz fun x => scale * U x + c) ^ 2 ∂P
              ≤ N / (I.card : ℝ) ^ 2 * (K * A₁ ^ 2 * (1 + floorError e alpha scale lo + e ^ 2 * (‖x₀‖ + 2 * ((1 - alpha) / alpha) * ‖v₀‖) ^ 2) / e ^ 2)
                + (K * A₁ * ((∫ y, ‖x₀ - y‖ ∂boltz fun x => scale * U x + c) + 2 * ((1 - alpha) / alpha) * ‖v₀‖) / (I.card * e ^ 2)
                  + K * (e + floorError e alpha scale lo) * (A₁ + A₂)) ^ 2 := by
  obtain ⟨c, hc⟩ := hγ.normalized hs
  obtain ⟨K, hK0, hK⟩ := hγ.mean_square_momentum hs hc hlo hlohi hα0 hα1
  refine ⟨c, K * (1 + √(alpha / (hi * L)) / scale ^ 2) * (1 + √(alpha / (hi * L))), hc, by positivity, ?_⟩
  intro F W ok Ω _ P S Pb gen sched eps b0 β B e z0 z order θ eps0 hgen hsched heps hPb hR ha hsc hB he0 he hL world atEnd hlh
  have := hR.prob
  have hq : ∀ ω N, (Pb ω N).γ = fun k => γ (batchesAfter B b0 β ω k) := fun ω N => by funext k θ; exact hPb ω N k θ
  have h00 : ∀ ω, sghmcVec alpha scale B eps (fun k => γ (batchesAfter B b0 β ω k)) (drawsAfter B z0 z ω) θ B = atEnd := fun ω =>
    sghmcVec_congr' alpha scale B eps θ B (fun j hj => by unfold batchesAfter; rw [if_pos hj]) fun j hj => drawsAfter_lt hj
  refine ⟨fun k ω q => (sghmcVec alpha scale B eps (fun k => γ (batchesAfter B b0 β ω k)) (drawsAfter B z0 z ω) θ k q.1 q.2).pos, ?_, ?_⟩
  · intro N ω
    obtain ⟨cost, hcost⟩ := C88_sghmc_deterministic (S ω N) (world ω) ok
      ⟨(Pb ω N).γ, (Pb ω N).c, (Pb ω N).grad_eq, (Pb ω N).cost_eq, (Pb ω N).accepts⟩ alpha scale ha hsc hs (drawsAfter B z0 z ω) (fun _ _ _ => rfl)
      B θ eps0 (fun k _ i θ θ' hθ => by simp only [hPb]; exact hsep _ i θ θ' hθ)
    refine ⟨cost, ?_⟩
    rw [hgen, hsched] at hcost
    rw [hcost]
    simp only [heps, hq]
  · intro A₁ A₂ f D hf hA I hI N hN x₀ v₀
    have hfl := floorError_nonneg e alpha scale lo
    obtain ⟨h1, h2⟩ := hK P (fun q : Elem (Pos size) => (atEnd q.1 q.2).mass)
      (fun q => max (2 * (e ^ 2 / scale) * alpha * (atEnd q.1 q.2).mass - (e ^ 2 / scale) ^ 2) 1e-16) (e ^ 2)
      ((e ^ 2 / scale) ^ 2 + e ^ 2 * floorError e alpha scale lo) β (fun k ω q => z k q.1 q.2 ω)
      (fun k ω q => (sghmcVec alpha scale B eps (fun k => γ (batchesAfter B b0 β ω k)) (drawsAfter B z0 z ω) θ (B + k) q.1 q.2).pos)
      (fun k ω q => (sghmcVec alpha scale B eps (fun k => γ (batchesAfter B b0 β ω k)) (drawsAfter B z0 z ω) θ (B + k) q.1 q.2).mom)
      x₀ v₀ (fun q => hlh q.1 q.2) (by positivity) hL (by positivity)
      (fun q => floor_near he0 hs hα0 hlo (hlh q.1 q.2).1) hR.batch
      (fun k => measurable_pi_iff.2 fun q => hR.draw k q.1 q.2) hR.indep hR.law
      (fun ω => by funext q; beta_reduce; rw [Nat.add_zero, h00 ω]) (fun ω => by funext q; beta_reduce; rw [Nat.add_zero, h00 ω])
      (fun k ω q => by
        have h1 := ((sghmcVec_after alpha scale hB eps (fun k => γ (batchesAfter B b0 β ω k)) (drawsAfter B z0 z ω) θ).2 (B + k) q.1 q.2
          (Nat.le_add_right B k)).2
        rw [he _ (Nat.le_add_right B k), drawsAfter_add, h00 ω, batchesAfter_add] at h1
        rw [← Nat.add_assoc, h1, sghmcSd_eq hs]
        rfl)
      (fun k ω q => by
        have h1 := ((sghmcVec_after alpha scale hB eps (fun k => γ (batchesAfter B b0 β ω k)) (drawsAfter B z0 z ω) θ).2 (B + k) q.1 q.2
          (Nat.le_add_right B k)).1
        rw [← Nat.add_assoc, h1]) hf hA hI hN
    have hA1 := hf.nonneg
    obtain ⟨hS, -, -⟩ := ConvexBatches.small_step hα0 hα1 (by positivity : 0 < e ^ 2) hlo hlohi hγ.pos hγ.le hL
    rw [Real.sqrt_sq he0.le] at hS h2
    have e1 : ((e ^ 2 / scale) ^ 2 + e ^ 2 * floorError e alpha scale lo) / e ^ 2 = e * (e / scale ^ 2) + floorError e alpha scale lo := by
      field_simp
    rw [e1] at h2
    have hc : (0 : ℝ) < I.card := by exact_mod_cast hI.card_pos
    have hw : 0 ≤ (1 - alpha) / alpha := div_nonneg (by linarith) hα0.le
    exact ⟨h1, h2.trans (floor_arith hK0 he0.le hS (by positivity) (by positivity) (by positivity) hfl (by positivity)
      (add_nonneg (integral_nonneg fun _ => norm_nonneg _) (by positivity)) (by positivity) hA1 hA (by positivity))⟩

/-! ## The hypotheses are met

With random mini-batches, a burn-in of one step and a cost that is not quadratic, averages over long runs of consecutive samples are as
good as C123 and C125 make single samples on average. -/

example (size : Fin n → Nat) (order : Nat → SGLD.Schedule (Fin n)) (θ : ∀ i, Pos size i → ℝ) : ∃ c K,
    IsProbabilityMeasure (boltz fun x : Elem (Pos size) → ℝ => (10 + 3e-16) * wavyCost x + c) ∧ ∀ e, 0 < e → e ≤ 1 / 2 →
    ∃ (Ω : Type) (_ : MeasurableSpace Ω) (P : Measure Ω) (β : Nat → Ω → ℝ) (z : Nat → ∀ i, Pos size i → Ω → ℝ)
      (X : Nat → Ω → Elem (Pos size) → ℝ),
      RandomSteps (gaussianReal 0 1) P β z
      ∧ (∀ N ω, ∃ cost : Nat → Fl,
        (calls (asIter (burnInNext (env (streamFeeder e) (SGLDWorld.graph
            ⟨.fin 10, .fin 1, wavyFl, fun _ _ => 0, fun k i p => .fin (drawsAfter 1 (fun _ _ _ => 0) z ω k i p), order⟩) fun _ => true) (1 : Nat) n)) N
            (init (some (batchesAfter 1 (fun _ => 0) β ω, 0)) () ⟨SGLD.State.init fun i p => .fin (θ i p), .fin 0, 0⟩)).1
          = (List.range N).map (fun k : Nat =>
              let arrays := List.ofFn fun i => flat fun p => .fin (X (k + 1) ω ⟨i, p⟩)
              .ok ((if (k : Int) < (1 : Nat) then .many arrays else unravel arrays), cost k)))
      ∧ ∀ {A₁ A₂ : ℝ} {f : (Elem (Pos size) → ℝ) → ℝ} {D : (Elem (Pos size) → ℝ) → (Elem (Pos size) → ℝ) →L[ℝ] ℝ}, Smooth A₁ A₂ f D → 0 ≤ A₂ →
        ∀ δ > 0, ∃ N₀ : Nat, ∀ N ≥ N₀,
          ∫ ω, ((∑ k ∈ Finset.range N, f (X (1 + k) ω)) / N - ∫ x, f x ∂boltz fun x : Elem (Pos size) → ℝ => (10 + 3e-16) * wavyCost x + c) ^ 2 ∂P
            ≤ (K * √(e * 1) * (A₁ + A₂)) ^ 2 + δ := by
  obtain ⟨c, K, hc, hK, h⟩ := C126_sgld_averages (wavy_convex size) (fun β i θ θ' h => by funext p; simp only [wavy, h])
    10 (by norm_num) 0.9 1 (by norm_num) (by norm_num)
  refine ⟨c, K, hc, fun e he0 he => ?_⟩
  obtain ⟨Ω, mΩ, P, ζ, h1, h2, h3, h4⟩ := exists_iid Nat ((gaussianReal 0 1).prod (Measure.pi fun _ : Elem (Pos size) => gaussianReal 0 1))
  have hR : RandomSteps (gaussianReal 0 1) P (fun k ω => (ζ k ω).1) (fun k i p ω => (ζ k ω).2 ⟨i, p⟩) :=
    ⟨h4, fun k => (h1 k).fst, fun k i p => (measurable_pi_apply _).comp (h1 k).snd, h3, fun k => (h2 k).map_eq⟩
  have hmass : ∀ i p, (sgldVec (κ := Pos size) 1 10 (1 : Nat) (fun _ => e) (fun k => wavy 0) (fun _ _ _ => 0) θ 1 i p).mass = 1 / (1 + 3e-16) := by
    intro i p
    simp only [sgldVec, sgldStep, Coord.start, Coord.massUsed, after_false Nat.zero_lt_one, Bool.false_eq_true, if_false, Real.sqrt_one]
  obtain ⟨X, hX, hb⟩ := h (F := streamFeeder e) ⟨.fin 10, .fin 1, wavyFl, fun _ _ => 0, fun _ _ _ => 0, order⟩ (fun _ => true) P
    (fun ω => streamScript e (batchesAfter 1 (fun _ => 0) (fun k ω => (ζ k ω).1) ω))
    (fun ω => wavyProblem e (batchesAfter 1 (fun _ => 0) (fun k ω => (ζ k ω).1) ω))
    (fun ω => some (batchesAfter 1 (fun _ => 0) (fun k ω => (ζ k ω).1) ω, 0)) () (fun _ => e) (fun _ => 0) (fun k ω => (ζ k ω).1) 1 1 e (fun _ _ _ => 0)
    (fun k i p ω => (ζ k ω).2 ⟨i, p⟩) (fun _ => order) θ (.fin 0) (fun _ _ => rfl) (fun _ _ => rfl) (fun _ _ => rfl) (fun _ _ _ _ => rfl) hR
    rfl one_pos rfl one_pos he0 (fun _ _ => rfl) (by linarith) (fun i p => by rw [hmass]; norm_num)
  refine ⟨Ω, mΩ, P, _, _, X, hR, hX, fun {A₁ A₂ f D} hf hA δ hδ => ?_⟩
  obtain ⟨c₀, hc₀⟩ := C126_long_runs (t := e * 1) (by linarith) 1 (V := K * A₁ ^ 2 * (1 + e * 1 * ‖fun q : Elem (Pos size) =>
    (sgldVec 1 10 (1 : Nat) (fun _ => e) (fun _ => wavy 0) (fun _ _ _ => 0) θ 1 q.1 q.2).pos‖ ^ 2))
    (Q := K * A₁ * ∫ y, ‖(fun q : Elem (Pos size) => (sgldVec 1 10 (1 : Nat) (fun _ => e) (fun _ => wavy 0) (fun _ _ _ => 0) θ 1 q.1 q.2).pos) - y‖
      ∂boltz fun x => (10 + 3e-16) * wavyCost x + c) (b := K * √(e * 1) * (A₁ + A₂)) (by positivity) hδ
  refine ⟨c₀ + 1, fun N hN => ?_⟩
  have h5 := (hb hf hA (I := Finset.range N) (Finset.nonempty_range_iff.2 (by omega)) (N := N) fun k hk => Finset.mem_range.1 hk).2
  rw [Finset.card_range] at h5
  exact h5.trans (hc₀ N (by omega) N (by omega))

example (size : Fin n → Nat) (order : Nat → SGHMC.Schedule (Fin n)) (θ : ∀ i, Pos size i → ℝ) : ∃ c K,
    IsProbabilityMeasure (boltz fun x : Elem (Pos size) → ℝ => 10 * wavyCost x + c) ∧ ∀ e, 1e-6 ≤ e → e ≤ 1 / 10 →
    ∃ (Ω : Type) (_ : MeasurableSpace Ω) (P : Measure Ω) (β : Nat → Ω → ℝ) (z : Nat → ∀ i, Pos size i → Ω → ℝ)
      (X : Nat → Ω → Elem (Pos size) → ℝ),
      RandomSteps (gaussianReal 0 1) P β z
      ∧ (∀ N ω, ∃ cost : Nat → Fl,
        (calls (asIter (burnInNext (env (streamFeeder e) (SGHMCWorld.graph
            ⟨.fin 10, .fin 0.5, wavyFl, fun _ _ => 0, fun k i p => .fin (drawsAfter 1 (fun _ _ _ => 0) z ω k i p), order⟩) fun _ => true) (1 : Nat) n)) N
            (init (some (batchesAfter 1 (fun _ => 0) β ω, 0)) () ⟨SGHMC.State.init fun i p => .fin (θ i p), .fin 0, 0⟩)).1
          = (List.range N).map (fun k : Nat =>
              let arrays := List.ofFn fun i => flat fun p => .fin (X (k + 1) ω ⟨i, p⟩)
              .ok ((if (k : Int) < (1 : Nat) then .many arrays else unravel arrays), cost k)))
      ∧ ∀ {A₁ A₂ : ℝ} {f : (Elem (Pos size) → ℝ) → ℝ} {D : (Elem (Pos size) → ℝ) → (Elem (Pos size) → ℝ) →L[ℝ] ℝ}, Smooth A₁ A₂ f D → 0 ≤ A₂ →
        ∀ δ > 0, ∃ N₀ : Nat, ∀ N ≥ N₀,
          ∫ ω, ((∑ k ∈ Finset.range N, f (X (1 + k) ω)) / N - ∫ x, f x ∂boltz fun x : Elem (Pos size) → ℝ => 10 * wavyCost x + c) ^ 2 ∂P
            ≤ (K * e * (A₁ + A₂)) ^ 2 + δ := by
  obtain ⟨c, K, hc, hK, h⟩ := C127_sghmc_averages (wavy_convex size) (fun β i θ θ' h => by funext p; simp only [wavy, h])
    10 0.5 (by norm_num) (by norm_num) (by norm_num) 0.9 1 (by norm_num) (by norm_num)
  refine ⟨c, K, hc, fun e he0 he => ?_⟩
  have hep : 0 < e := lt_of_lt_of_le (by norm_num) he0
  have he2 : e ^ 2 ≤ 1 / 100 := by nlinarith
  have he2' : 1e-12 ≤ e ^ 2 := by nlinarith
  have hfl : floorError e 0.5 10 0.9 = 0 := by
    unfold floorError
    refine if_pos ?_
    nlinarith
  obtain ⟨Ω, mΩ, P, ζ, h1, h2, h3, h4⟩ := exists_iid Nat ((gaussianReal 0 1).prod (Measure.pi fun _ : Elem (Pos size) => gaussianReal 0 1))
  have hR : RandomSteps (gaussianReal 0 1) P (fun k ω => (ζ k ω).1) (fun k i p ω => (ζ k ω).2 ⟨i, p⟩) :=
    ⟨h4, fun k => (h1 k).fst, fun k i p => (measurable_pi_apply _).comp (h1 k).snd, h3, fun k => (h2 k).map_eq⟩
  have hmass : ∀ i p, (sghmcVec (κ := Pos size) 0.5 10 (1 : Nat) (fun _ => e) (fun k => wavy 0) (fun _ _ _ => 0) θ 1 i p).mass = 1 / (1 + 3e-16) := by
    intro i p
    simp only [sghmcVec, sghmcStep, Coord.start, Coord.massUsed, after_false Nat.zero_lt_one, Bool.false_eq_true, if_false, Real.sqrt_one]
  obtain ⟨X, hX, hb⟩ := h (F := streamFeeder e) ⟨.fin 10, .fin 0.5, wavyFl, fun _ _ => 0, fun _ _ _ => 0, order⟩ (fun _ => true) P
    (fun ω => streamScript e (batchesAfter 1 (fun _ => 0) (fun k ω => (ζ k ω).1) ω))
    (fun ω => wavyProblem e (batchesAfter 1 (fun _ => 0) (fun k ω => (ζ k ω).1) ω))
    (fun ω => some (batchesAfter 1 (fun _ => 0) (fun k ω => (ζ k ω).1) ω, 0)) () (fun _ => e) (fun _ => 0) (fun k ω => (ζ k ω).1) 1 e (fun _ _ _ => 0)
    (fun k i p ω => (ζ k ω).2 ⟨i, p⟩) (fun _ => order) θ (.fin 0) (fun _ _ => rfl) (fun _ _ => rfl) (fun _ _ => rfl) (fun _ _ _ _ => rfl) hR
    rfl rfl one_pos hep (fun _ _ => rfl) (by norm_num; linarith) (fun i p => by rw [hmass]; norm_num)
  simp only [hfl, add_zero] at hb
  refine ⟨Ω, mΩ, P, _, _, X, hR, hX, fun {A₁ A₂ f D} hf hA δ hδ => ?_⟩
  set x₀ : Elem (Pos size) → ℝ := fun q => (sghmcVec 0.5 10 (1 : Nat) (fun _ => e) (fun _ => wavy 0) (fun _ _ _ => 0) θ 1 q.1 q.2).pos
  set v₀ : Elem (Pos size) → ℝ := fun q => (sghmcVec 0.5 10 (1 : Nat) (fun _ => e) (fun _ => wavy 0) (fun _ _ _ => 0) θ 1 q.1 q.2).mom
  obtain ⟨c₀, hc₀⟩ := C126_long_runs (t := e ^ 2) (by positivity) 1 (V := K * A₁ ^ 2 * (1 + e ^ 2 * (‖x₀‖ + 2 * ((1 - 0.5) / 0.5) * ‖v₀‖) ^ 2))
    (Q := K * A₁ * ((∫ y, ‖x₀ - y‖ ∂boltz fun x => 10 * wavyCost x + c) + 2 * ((1 - 0.5) / 0.5) * ‖v₀‖)) (b := K * e * (A₁ + A₂)) (by positivity) hδ
  refine ⟨c₀ + 1, fun N hN => ?_⟩
  have h5 := (hb hf hA (I := Finset.range N) (Finset.nonempty_range_iff.2 (by omega)) (N := N) fun k hk => Finset.mem_range.1 hk).2
  rw [Finset.card_range] at h5
  exact h5.trans (hc₀ N (by omega) N (by omega))

end PySGMCMC.Chain
