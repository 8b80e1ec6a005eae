import Verif.Props.SgldConverges
import Verif.Lemmas.MomentumConvergence

/-!
# C125: SGHMC converges to the posterior

The same as C123 for SGHMC.  The cost is weighted by `scale` exactly.  The averages over samples after `k` further steps differ from
averages over the density proportional to `exp (-scale U)` by a term that decays geometrically in `k` and a term of the order of the
stepsize.  If the floor `1e-16` under the variance of the noise is reached, the second term grows by a multiple of `1e-16 / e²`.
-/

namespace PySGMCMC.Chain
open SamplerBase BurnInStats Spec MeasureTheory ProbabilityTheory Contraction Invariance Langevin Recipe

variable {n : Nat} {size : Fin n → Nat} {Bt : Type}

theorem sghmcVec_congr' {κ : Fin n → Type} (a scale : ℝ) (B : Int) (eps : Nat → ℝ) {γ γ' : Nat → (∀ i, κ i → ℝ) → ∀ i, κ i → ℝ}
    {z z' : Nat → ∀ i, κ i → ℝ} (θ : ∀ i, κ i → ℝ) (k : Nat) (hγ : ∀ j < k, γ j = γ' j) (h : ∀ j < k, z j = z' j) :
    sghmcVec a scale B eps γ z θ k = sghmcVec a scale B eps γ' z' θ k := by
  induction k with
  | zero => rfl
  | succ k ih => simp only [sghmcVec]; rw [ih (fun j hj => hγ j (by omega)) fun j hj => h j (by omega), h k (by omega), hγ k (by omega)]

/-- What the floor under the variance of the noise adds to the error, if inverse masses are at least `lo`. -/
noncomputable def floorError (e alpha scale lo : ℝ) : ℝ :=
  if 1e-16 ≤ 2 * (e ^ 2 / scale) * alpha * lo - (e ^ 2 / scale) ^ 2 then 0 else 1e-16 / e ^ 2

theorem floorError_nonneg (e alpha scale lo : ℝ) : 0 ≤ floorError e alpha scale lo := by
  unfold floorError; split_ifs <;> positivity

/-- The variance of the noise. -/
theorem sghmcSd_eq {e alpha scale m : ℝ} (hs : 0 < scale) :
    sghmcSd e alpha scale m = √(max (2 * (e ^ 2 / scale) * alpha * m - (e ^ 2 / scale) ^ 2) 1e-16) := by
  have h2 : (e / √scale) ^ 2 = e ^ 2 / scale := by rw [div_pow, Real.sq_sqrt hs.le]
  have h4 : (e / √scale) ^ 4 = (e ^ 2 / scale) ^ 2 := by rw [← h2]; ring
  unfold sghmcSd
  simp only [h2, h4]

theorem floor_near {e alpha scale lo m : ℝ} (he : 0 < e) (hs : 0 < scale) (ha : 0 < alpha) (hlo : 0 < lo) (hm : lo ≤ m) :
    |max (2 * (e ^ 2 / scale) * alpha * m - (e ^ 2 / scale) ^ 2) 1e-16 - 2 * e ^ 2 * alpha * m / scale|
      ≤ (e ^ 2 / scale) ^ 2 + e ^ 2 * floorError e alpha scale lo := by
  have e1 : 2 * e ^ 2 * alpha * m / scale = 2 * (e ^ 2 / scale) * alpha * m := by ring
  rw [e1]
  have hr : 0 < e ^ 2 / scale := by positivity
  generalize hr' : e ^ 2 / scale = r at *
  have hmono : 2 * r * alpha * lo ≤ 2 * r * alpha * m := mul_le_mul_of_nonneg_left hm (by positivity)
  have hp : 0 < 2 * r * alpha * m := by have := hlo.trans_le hm; positivity
  have hsq : 0 ≤ r ^ 2 := sq_nonneg r
  unfold floorError
  rw [hr']
  split_ifs with h
  · rw [max_eq_left (by linarith), show 2 * r * alpha * m - r ^ 2 - 2 * r * alpha * m = -r ^ 2 by ring, abs_neg, abs_of_nonneg hsq]
    linarith
  · rw [mul_div_cancel₀ _ (by positivity)]
    rcases le_total (2 * r * alpha * m - r ^ 2) 1e-16 with h1 | h1
    · rw [max_eq_right h1, abs_le]
      constructor <;> linarith
    · rw [max_eq_left h1, abs_le]
      constructor <;> linarith

variable [MeasurableSpace Bt]

/-- **C125** The samples of SGHMC converge to the posterior.  `K` and the normalization `c` depend on the cost, on `scale`, on `alpha`
and on the bounds `lo` and `hi` for the inverse masses only. -/
theorem C125_sghmc_converges {ν : Measure Bt} [IsProbabilityMeasure ν] {U : (Elem (Pos size) → ℝ) → ℝ}
    {γ : Bt → (∀ i, Pos size i → ℝ) → ∀ i, Pos size i → ℝ} {μ L L₂ Λ : ℝ} (hγ : ConvexBatches ν U (flatGrad γ) μ L L₂ Λ)
    (hsep : ∀ β i θ θ', θ i = θ' i → γ β θ i = γ β θ' i) (scale alpha : ℝ) (hs : 0 < scale) (hα0 : 0 < alpha) (hα1 : alpha ≤ 1)
    (lo hi : ℝ) (hlo : 0 < lo) (hlohi : lo ≤ hi) :
    ∃ c K, IsProbabilityMeasure (boltz fun x => scale * U x + c) ∧ 0 ≤ K ∧
    ∀ {F : Feeder} (W : SGHMCWorld size) (ok : Dict Key Arr → Bool) {Ω : Type} [MeasurableSpace Ω] (P : Measure Ω)
      (S : Ω → ∀ N, Script F N) (Pb : ∀ ω N, Problem (S ω N) W.grad W.cost ok) (gen : Ω → Option F.Batch) (sched : F.Sched) (eps : Nat → ℝ)
      (b0 : Nat → Bt) (β : Nat → Ω → Bt) (B : Nat) (e : ℝ) (z0 : Nat → ∀ i, Pos size i → ℝ) (z : Nat → ∀ i, Pos size i → Ω → ℝ)
      (order : Ω → Nat → SGHMC.Schedule (Fin n)) (θ : ∀ i, Pos size i → ℝ) (eps0 : Fl),
      (∀ ω N, (S ω N).batch 0 = gen ω) → (∀ ω N, (S ω N).sched 0 = sched) → (∀ ω N, (S ω N).eps = eps) →
      (∀ ω N k θ, (Pb ω N).γ k θ = γ (batchesAfter B b0 β ω k) θ) → RandomSteps ν P β z →
      W.mdecay = .fin alpha → W.scaleGrad = .fin scale → 0 < B → 0 < e → (∀ k, B ≤ k → eps k = e) →
      e ^ 2 / alpha * hi * L * (2 + 8 / (1 - (1 - alpha) ^ 2)) ≤ 1 →
      let world : Ω → SGHMCWorld size := fun ω =>
        { W with normal := fun k i p => .fin (drawsAfter B z0 z ω k i p), order := order ω }
      let atEnd := sghmcVec alpha scale B eps (fun k => γ (b0 k)) z0 θ B
      (∀ i p, lo ≤ (atEnd i p).mass ∧ (atEnd i p).mass ≤ hi) →
      ∃ X : Nat → Ω → Elem (Pos size) → ℝ,
        (∀ N ω, ∃ cost : Nat → Fl,
          (calls (asIter (burnInNext (env F (world ω).graph ok) B n)) N
              (init (gen ω) sched ⟨SGHMC.State.init fun i p => .fin (θ i p), eps0, 0⟩)).1
            = (List.range N).map (fun k : Nat =>
                let arrays := List.ofFn fun i => flat fun p => .fin (X (k + 1) ω ⟨i, p⟩)
                .ok ((if (k : Int) < B then .many arrays else unravel arrays), cost k)))
        ∧ ∀ {A₁ A₂ : ℝ} {f : (Elem (Pos size) → ℝ) → ℝ} {D : (Elem (Pos size) → ℝ) → (Elem (Pos size) → ℝ) →L[ℝ] ℝ}, Smooth A₁ A₂ f D → 0 ≤ A₂ →
          ∀ k, Integrable (fun ω => f (X (B + k) ω)) P
            ∧ |∫ ω, f (X (B + k) ω) ∂P - ∫ x, f x ∂boltz fun x => scale * U x + c|
              ≤ 2 * √(hi * (∑ i, size i : Nat) / lo) * A₁ * (√(1 - e ^ 2 / alpha * μ * lo / 2)) ^ k
                  * ((∫ y, ‖(fun q : Elem (Pos size) => (atEnd q.1 q.2).pos) - y‖ ∂boltz fun x => scale * U x + c)
                    + 2 * ((1 - alpha) / alpha) * ‖fun q : Elem (Pos size) => (atEnd q.1 q.2).mom‖)
                + K * (e + floorError e alpha scale lo) * (A₁ + A₂) := by
  obtain ⟨c, hc⟩ := hγ.normalized hs
  obtain ⟨K, hK0, hK⟩ := hγ.converges_momentum hs hc hlo hlohi hα0 hα1
  refine ⟨c, K * (1 + √(alpha / (hi * L)) / scale ^ 2), hc, by positivity, ?_⟩
  intro F W ok Ω _ P S Pb gen sched eps b0 β B e z0 z order θ eps0 hgen hsched heps hPb hR ha hsc hB he0 he hL world atEnd hlh
  have := hR.prob
  have hq : ∀ ω N, (Pb ω N).γ = fun k => γ (batchesAfter B b0 β ω k) := fun ω N => by funext k θ; exact hPb ω N k θ
  have h00 : ∀ ω, sghmcVec alpha scale B eps (fun k => γ (batchesAfter B b0 β ω k)) (drawsAfter B z0 z ω) θ B = atEnd := fun ω =>
    sghmcVec_congr' alpha scale B eps θ B (fun j hj => by unfold batchesAfter; rw [if_pos hj]) fun j hj => drawsAfter_lt hj
  refine ⟨fun k ω q => (sghmcVec alpha scale B eps (fun k => γ (batchesAfter B b0 β ω k)) (drawsAfter B z0 z ω) θ k q.1 q.2).pos, ?_, ?_⟩
  · intro N ω
    obtain ⟨cost, hcost⟩ := C88_sghmc_deterministic (S ω N) (world ω) ok
      ⟨(Pb ω N).γ, (Pb ω N).c, (Pb ω N).grad_eq, (Pb ω N).cost_eq, (Pb ω N).accepts⟩ alpha scale ha hsc hs (drawsAfter B z0 z ω) (fun _ _ _ => rfl)
      B θ eps0 (fun k _ i θ θ' hθ => by simp only [hPb]; exact hsep _ i θ θ' hθ)
    refine ⟨cost, ?_⟩
    rw [hgen, hsched] at hcost
    rw [hcost]
    simp only [heps, hq]
  · intro A₁ A₂ f D hf hA k
    have hcard : Fintype.card (Elem (Pos size)) = ∑ i, size i := by rw [Fintype.card_sigma]; simp
    rw [← hcard]
    have hfl := floorError_nonneg e alpha scale lo
    obtain ⟨h1, h2⟩ := hK P (fun q : Elem (Pos size) => (atEnd q.1 q.2).mass)
      (fun q => max (2 * (e ^ 2 / scale) * alpha * (atEnd q.1 q.2).mass - (e ^ 2 / scale) ^ 2) 1e-16) (e ^ 2)
      ((e ^ 2 / scale) ^ 2 + e ^ 2 * floorError e alpha scale lo) β (fun k ω q => z k q.1 q.2 ω)
      (fun k ω q => (sghmcVec alpha scale B eps (fun k => γ (batchesAfter B b0 β ω k)) (drawsAfter B z0 z ω) θ (B + k) q.1 q.2).pos)
      (fun k ω q => (sghmcVec alpha scale B eps (fun k => γ (batchesAfter B b0 β ω k)) (drawsAfter B z0 z ω) θ (B + k) q.1 q.2).mom)
      (fun q => (atEnd q.1 q.2).pos) (fun q => (atEnd q.1 q.2).mom) (fun q => hlh q.1 q.2) (by positivity) hL (by positivity)
      (fun q => floor_near he0 hs hα0 hlo (hlh q.1 q.2).1) hR.batch
      (fun k => measurable_pi_iff.2 fun q => hR.draw k q.1 q.2) hR.indep hR.law
      (fun ω => by funext q; beta_reduce; rw [Nat.add_zero, h00 ω]) (fun ω => by funext q; beta_reduce; rw [Nat.add_zero, h00 ω])
      (fun k ω q => by
        have h1 := ((sghmcVec_after alpha scale hB eps (fun k => γ (batchesAfter B b0 β ω k)) (drawsAfter B z0 z ω) θ).2 (B + k) q.1 q.2
          (Nat.le_add_right B k)).2
        rw [he _ (Nat.le_add_right B k), drawsAfter_add, h00 ω, batchesAfter_add] at h1
        rw [← Nat.add_assoc, h1, sghmcSd_eq hs]
        rfl)
      (fun k ω q => by
        have h1 := ((sghmcVec_after alpha scale hB eps (fun k => γ (batchesAfter B b0 β ω k)) (drawsAfter B z0 z ω) θ).2 (B + k) q.1 q.2
          (Nat.le_add_right B k)).1
        rw [← Nat.add_assoc, h1]) hf hA k
    refine ⟨h1, h2.trans (add_le_add le_rfl ?_)⟩
    have hA1 := hf.nonneg
    obtain ⟨hS, -, -⟩ := ConvexBatches.small_step hα0 hα1 (by positivity : 0 < e ^ 2) hlo hlohi hγ.pos hγ.le hL
    rw [Real.sqrt_sq he0.le] at hS ⊢
    refine mul_le_mul_of_nonneg_right ?_ (by positivity)
    rw [mul_assoc]
    refine mul_le_mul_of_nonneg_left ?_ hK0
    have e1 : ((e ^ 2 / scale) ^ 2 + e ^ 2 * floorError e alpha scale lo) / e ^ 2 = e * (e / scale ^ 2) + floorError e alpha scale lo := by
      field_simp
    rw [e1]
    have h3 : e / scale ^ 2 ≤ √(alpha / (hi * L)) / scale ^ 2 := by gcongr
    have h4 : 0 ≤ √(alpha / (hi * L)) / scale ^ 2 := by positivity
    have h5 := mul_le_mul_of_nonneg_left h3 he0.le
    have h6 := mul_nonneg h4 hfl
    linarith

/-! ## The hypotheses are met -/

/-- For any parameters, any start and any execution orders: SGHMC with random mini-batches, burn-in of one step and stepsize `e` gives
samples of the density proportional to `exp (-10 wavyCost)` up to a multiple of `e`, unless `e` is tiny. -/
example (size : Fin n → Nat) (order : Nat → SGHMC.Schedule (Fin n)) (θ : ∀ i, Pos size i → ℝ) : ∃ c K,
    IsProbabilityMeasure (boltz fun x : Elem (Pos size) → ℝ => 10 * wavyCost x + c) ∧ ∀ e, 1e-6 ≤ e → e ≤ 1 / 10 →
    ∃ (Ω : Type) (_ : MeasurableSpace Ω) (P : Measure Ω) (β : Nat → Ω → ℝ) (z : Nat → ∀ i, Pos size i → Ω → ℝ)
      (X : Nat → Ω → Elem (Pos size) → ℝ),
      RandomSteps (gaussianReal 0 1) P β z
      ∧ (∀ N ω, ∃ cost : Nat → Fl,
        (calls (asIter (burnInNext (env (streamFeeder e) (SGHMCWorld.graph
            ⟨.fin 10, .fin 0.5, wavyFl, fun _ _ => 0, fun k i p => .fin (drawsAfter 1 (fun _ _ _ => 0) z ω k i p), order⟩) fun _ => true) (1 : Nat) n)) N
            (init (some (batchesAfter 1 (fun _ => 0) β ω, 0)) () ⟨SGHMC.State.init fun i p => .fin (θ i p), .fin 0, 0⟩)).1
          = (List.range N).map (fun k : Nat =>
              let arrays := List.ofFn fun i => flat fun p => .fin (X (k + 1) ω ⟨i, p⟩)
              .ok ((if (k : Int) < (1 : Nat) then .many arrays else unravel arrays), cost k)))
      ∧ ∃ R, ∀ {A₁ A₂ : ℝ} {f : (Elem (Pos size) → ℝ) → ℝ} {D : (Elem (Pos size) → ℝ) → (Elem (Pos size) → ℝ) →L[ℝ] ℝ}, Smooth A₁ A₂ f D → 0 ≤ A₂ →
        ∀ k, |∫ ω, f (X (1 + k) ω) ∂P - ∫ x, f x ∂boltz fun x : Elem (Pos size) → ℝ => 10 * wavyCost x + c|
          ≤ R * A₁ * (√(1 - e ^ 2 / 0.5 * (1 / 2) * 0.9 / 2)) ^ k + K * e * (A₁ + A₂) := by
  obtain ⟨c, K, hc, -, h⟩ := C125_sghmc_converges (wavy_convex size) (fun β i θ θ' h => by funext p; simp only [wavy, h])
    10 0.5 (by norm_num) (by norm_num) (by norm_num) 0.9 1 (by norm_num) (by norm_num)
  refine ⟨c, K, hc, fun e he0 he => ?_⟩
  have hep : 0 < e := lt_of_lt_of_le (by norm_num) he0
  have he2 : e ^ 2 ≤ 1 / 100 := by nlinarith
  have he2' : 1e-12 ≤ e ^ 2 := by nlinarith
  have hfl : floorError e 0.5 10 0.9 = 0 := by
    unfold floorError
    refine if_pos ?_
    nlinarith
  obtain ⟨Ω, mΩ, P, ζ, h1, h2, h3, h4⟩ := exists_iid Nat ((gaussianReal 0 1).prod (Measure.pi fun _ : Elem (Pos size) => gaussianReal 0 1))
  have hR : RandomSteps (gaussianReal 0 1) P (fun k ω => (ζ k ω).1) (fun k i p ω => (ζ k ω).2 ⟨i, p⟩) :=
    ⟨h4, fun k => (h1 k).fst, fun k i p => (measurable_pi_apply _).comp (h1 k).snd, h3, fun k => (h2 k).map_eq⟩
  have hmass : ∀ i p, (sghmcVec (κ := Pos size) 0.5 10 (1 : Nat) (fun _ => e) (fun k => wavy 0) (fun _ _ _ => 0) θ 1 i p).mass = 1 / (1 + 3e-16) := by
    intro i p
    simp only [sghmcVec, sghmcStep, Coord.start, Coord.massUsed, after_false Nat.zero_lt_one, Bool.false_eq_true, if_false, Real.sqrt_one]
  obtain ⟨X, hX, hb⟩ := h (F := streamFeeder e) ⟨.fin 10, .fin 0.5, wavyFl, fun _ _ => 0, fun _ _ _ => 0, order⟩ (fun _ => true) P
    (fun ω => streamScript e (batchesAfter 1 (fun _ => 0) (fun k ω => (ζ k ω).1) ω))
    (fun ω => wavyProblem e (batchesAfter 1 (fun _ => 0) (fun k ω => (ζ k ω).1) ω))
    (fun ω => some (batchesAfter 1 (fun _ => 0) (fun k ω => (ζ k ω).1) ω, 0)) () (fun _ => e) (fun _ => 0) (fun k ω => (ζ k ω).1) 1 e (fun _ _ _ => 0)
    (fun k i p ω => (ζ k ω).2 ⟨i, p⟩) (fun _ => order) θ (.fin 0) (fun _ _ => rfl) (fun _ _ => rfl) (fun _ _ => rfl) (fun _ _ _ _ => rfl) hR
    rfl rfl one_pos hep (fun _ _ => rfl) (by norm_num; linarith) (fun i p => by rw [hmass]; norm_num)
  rw [hfl, add_zero] at hb
  refine ⟨Ω, mΩ, P, _, _, X, hR, hX, 2 * √(1 * (∑ i, size i : Nat) / 0.9) * ((∫ y, ‖(fun q : Elem (Pos size) =>
    (sghmcVec 0.5 10 (1 : Nat) (fun _ => e) (fun _ => wavy 0) (fun _ _ _ => 0) θ 1 q.1 q.2).pos) - y‖ ∂boltz fun x => 10 * wavyCost x + c)
    + 2 * ((1 - 0.5) / 0.5) * ‖fun q : Elem (Pos size) => (sghmcVec 0.5 10 (1 : Nat) (fun _ => e) (fun _ => wavy 0) (fun _ _ _ => 0) θ 1 q.1 q.2).mom‖),
    fun {A₁ A₂ f D} hf hA k => ((hb hf hA k).2.trans (le_of_eq ?_))⟩
  ring

end PySGMCMC.Chain
