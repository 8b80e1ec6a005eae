import Verif.Props.SghmcForgets
import Verif.Props.SgldNonconvex
import Verif.Lemmas.SteinMomentum

/-!
# C134 and C135: SGHMC samples posteriors with several modes

As C132 and C133, for SGHMC: averages over the stationary law of C130 differ from averages over the posterior by at most a constant times
`e √m + e² / m` with `e` the stepsize and `m` the mass.
-/

namespace PySGMCMC.Chain
open SamplerBase BurnInStats Spec MeasureTheory ProbabilityTheory Contraction Invariance Recipe Harris

variable {n : Nat} {size : Fin n → Nat} {Bt : Type} [MeasurableSpace Bt]

/-- The noise of SGHMC, and how far it is from the noise of a Langevin step. -/
theorem sghmcSd_noise {e alpha scale m : ℝ} (hs : 0 < scale) (hα : 0 < alpha) (he : 0 < e) (hm : 0 < m)
    (hfloor : 1e-16 ≤ 2 * (e ^ 2 / scale) * alpha * m - (e ^ 2 / scale) ^ 2) :
    sghmcSd e alpha scale m ^ 2 ≤ 2 * alpha * (e ^ 2 * m) / scale ∧
    |e ^ 2 * m / alpha / scale - (sghmcSd e alpha scale m / alpha) ^ 2 / 2| / (e ^ 2 * m) = 1 / (2 * scale ^ 2 * alpha ^ 2) * (e ^ 2 / m) := by
  have h0 : (0 : ℝ) ≤ 2 * (e ^ 2 / scale) * alpha * m - (e ^ 2 / scale) ^ 2 := le_trans (by norm_num) hfloor
  have h1 : sghmcSd e alpha scale m ^ 2 = 2 * (e ^ 2 / scale) * alpha * m - (e ^ 2 / scale) ^ 2 := by
    rw [sghmcSd_eq hs, max_eq_left hfloor, Real.sq_sqrt h0]
  refine ⟨?_, ?_⟩
  · rw [h1]
    have : 2 * alpha * (e ^ 2 * m) / scale = 2 * (e ^ 2 / scale) * alpha * m := by ring
    rw [this]
    linarith [sq_nonneg (e ^ 2 / scale)]
  · rw [div_pow, h1]
    have e1 : e ^ 2 * m / alpha / scale - (2 * (e ^ 2 / scale) * alpha * m - (e ^ 2 / scale) ^ 2) / alpha ^ 2 / 2 = e ^ 4 / (2 * scale ^ 2 * alpha ^ 2) := by
      field_simp
      ring
    rw [e1, abs_of_nonneg (by positivity)]
    field_simp

/-- **C134** SGHMC samples the posterior of costs that are not convex, up to an error of the order of the stepsize. -/
theorem C134_sghmc_posterior [Nonempty (Elem (Pos size))] {ν : Measure Bt} [IsProbabilityMeasure ν] {U u u' : Elem (Pos size) → ℝ → ℝ}
    {G : Elem (Pos size) → Bt → ℝ → ℝ} {a₀ b₀ L Λ : ℝ} {g : Bt → ℝ} (hU : ∀ q, Stein.Well (U q) (u q) (u' q) a₀ b₀ L)
    (hG : ∀ q, Stein.Batches ν (u q) (G q) Λ g) (scale alpha : ℝ) (hs : 0 < scale) (hα0 : 0 < alpha) (hα1 : alpha ≤ 1) :
    ∃ (c : Elem (Pos size) → ℝ) (K : ℝ), (∀ q, ∫ y, Real.exp (-(scale * U q y + c q)) = 1) ∧ 0 ≤ K ∧
    ∀ (mass : Elem (Pos size) → ℝ), (∀ q, 0 < mass q) → ∀ (e : ℝ), 0 < e →
    (∀ q, e ^ 2 * (1 / alpha ^ 2 + 1 + 2 * ((1 - alpha) / alpha ^ 2 + (1 - alpha)) ^ 2 / alpha) * alpha * mass q * Λ ≤ a₀) →
    (∀ q, 1e-16 ≤ 2 * (e ^ 2 / scale) * alpha * mass q - (e ^ 2 / scale) ^ 2) →
    ∃ C ρ : ℝ, 0 ≤ C ∧ 0 ≤ ρ ∧ ρ < 1 ∧
    ∀ {F : Feeder} (W : SGHMCWorld size) (ok : Dict Key Arr → Bool) {Ω : Type} [MeasurableSpace Ω] (P : Measure Ω)
      (S : Ω → ∀ N, Script F N) (Pb : ∀ ω N, Problem (S ω N) W.grad W.cost ok) (gen : Ω → Option F.Batch) (sched : F.Sched) (eps : Nat → ℝ)
      (b0 : Nat → Bt) (β : Nat → Ω → Bt) (B : Nat) (z0 : Nat → ∀ i, Pos size i → ℝ) (z : Nat → ∀ i, Pos size i → Ω → ℝ)
      (order : Ω → Nat → SGHMC.Schedule (Fin n)) (θ : ∀ i, Pos size i → ℝ) (eps0 : Fl),
      (∀ ω N, (S ω N).batch 0 = gen ω) → (∀ ω N, (S ω N).sched 0 = sched) → (∀ ω N, (S ω N).eps = eps) →
      (∀ ω N k θ i p, (Pb ω N).γ k θ i p = G ⟨i, p⟩ (batchesAfter B b0 β ω k) (θ i p)) → RandomSteps ν P β z →
      W.mdecay = .fin alpha → W.scaleGrad = .fin scale → 0 < B → (∀ k, B ≤ k → eps k = e) →
      let world : Ω → SGHMCWorld size := fun ω =>
        { W with normal := fun k i p => .fin (drawsAfter B z0 z ω k i p), order := order ω }
      let atEnd := sghmcVec alpha scale B eps (fun k θ i p => G ⟨i, p⟩ (b0 k) (θ i p)) z0 θ B
      (∀ i p, (atEnd i p).mass = mass ⟨i, p⟩) →
      ∃ X : Nat → Ω → Elem (Pos size) → ℝ,
        (∀ N ω, ∃ cost : Nat → Fl,
          (calls (asIter (burnInNext (env F (world ω).graph ok) B n)) N
              (init (gen ω) sched ⟨SGHMC.State.init fun i p => .fin (θ i p), eps0, 0⟩)).1
            = (List.range N).map (fun k : Nat =>
                let arrays := List.ofFn fun i => flat fun p => .fin (X (k + 1) ω ⟨i, p⟩)
                .ok ((if (k : Int) < B then .many arrays else unravel arrays), cost k)))
        ∧ ∀ (q : Elem (Pos size)) {φ φ' : ℝ → ℝ} {A : ℝ}, (∀ x, HasDerivAt φ (φ' x) x) → (∀ x, |φ' x| ≤ A) →
          let posterior := ∫ y, φ y * Real.exp (-(scale * U q y + c q))
          let start := C * (1 + (∑ q : Elem (Pos size), (atEnd q.1 q.2).pos ^ 2 + ∑ q : Elem (Pos size), (atEnd q.1 q.2).mom ^ 2))
          (∀ k, Integrable (fun ω => φ (X (B + k) ω q)) P ∧
            |∫ ω, φ (X (B + k) ω q) ∂P - posterior| ≤ A * start * ρ ^ k + K * (e * √(mass q) + e ^ 2 / mass q) * A)
          ∧ ∀ {I : Finset Nat}, I.Nonempty →
            Integrable (fun ω => ((∑ k ∈ I, φ (X (B + k) ω q)) / I.card - posterior) ^ 2) P ∧
            ∫ ω, ((∑ k ∈ I, φ (X (B + k) ω q)) / I.card - posterior) ^ 2 ∂P
              ≤ 2 * (A ^ 2 * start / I.card) + 2 * (K * (e * √(mass q) + e ^ 2 / mass q) * A) ^ 2 := by
  choose c K hK0 hc hK using fun q => Stein.sghmc_bias (hU q) (hG q) hs hα0 hα1
  have hd0 : 0 ≤ 1 / (2 * scale ^ 2 * alpha ^ 2) := by positivity
  refine ⟨c, (∑ q, K q) * (1 + 1 / (2 * scale ^ 2 * alpha ^ 2)), hc, mul_nonneg (Finset.sum_nonneg fun q _ => hK0 q) (by linarith),
    fun mass hmass e he0 hst hfloor => ?_⟩
  have hconf : Confining ν (flatGrad fun β (θ : ∀ i, Pos size i → ℝ) i p => G ⟨i, p⟩ β (θ i p)) a₀ (∑ _q : Elem (Pos size), b₀) Λ
      (fun β => ∑ _q : Elem (Pos size), g β) := Stein.confining hU hG
  obtain ⟨π, C, ρ, hπ, hπ2, hC, hρ0, hρ1, hinv, h⟩ := C130_sghmc_forgets hconf (fun β i θ θ' h => by funext p; simp only [h])
    scale alpha hs hα0 hα1 mass hmass e he0 hst
  refine ⟨C, ρ, hC, hρ0, hρ1, ?_⟩
  intro F W ok Ω _ P S Pb gen sched eps b0 β B z0 z order θ eps0 hgen hsched heps hPb hR ha hsc hB he world atEnd hm
  have := hR.prob
  obtain ⟨X, hX, hb⟩ := h W ok P S Pb gen sched eps b0 β B z0 z order θ eps0 hgen hsched heps
    (fun ω N k θ => by funext i p; exact hPb ω N k θ i p) hR ha hsc hB he hm
  refine ⟨X, hX, ?_⟩
  intro q φ φ' A hφ hA posterior start
  have hA0 : 0 ≤ A := (abs_nonneg _).trans (hA 0)
  have cφ : Continuous φ := continuous_iff_continuousAt.2 fun x => (hφ x).continuousAt
  have mx : Measurable fun x : (Elem (Pos size) → ℝ) × (Elem (Pos size) → ℝ) => x.1 q := (measurable_pi_apply q).comp measurable_fst
  have mv : Measurable fun x : (Elem (Pos size) → ℝ) × (Elem (Pos size) → ℝ) => x.2 q := (measurable_pi_apply q).comp measurable_snd
  have mq : Measurable fun x : (Elem (Pos size) → ℝ) × (Elem (Pos size) → ℝ) => ((x.1 q, x.2 q) : ℝ × ℝ) := mx.prodMk mv
  have hstat := Stein.eval_law q mq (hconf.measurable_hop (m := mass) (s := fun q => sghmcSd e alpha scale (mass q)) (t := e ^ 2) (α := alpha))
    (Stein.measurable_hopLine (hG q) alpha (e ^ 2 * mass q) (sghmcSd e alpha scale (mass q))) (fun w => rfl) hinv
  have hpr : IsProbabilityMeasure (π.map fun x : (Elem (Pos size) → ℝ) × (Elem (Pos size) → ℝ) => ((x.1 q, x.2 q) : ℝ × ℝ)) :=
    Measure.isProbabilityMeasure_map mq.aemeasurable
  have hix : Integrable (fun p : ℝ × ℝ => p.1 ^ 2) (π.map fun x : (Elem (Pos size) → ℝ) × (Elem (Pos size) → ℝ) => ((x.1 q, x.2 q) : ℝ × ℝ)) := by
    refine (integrable_map_measure (measurable_fst.pow_const 2).aestronglyMeasurable mq.aemeasurable).2 ?_
    refine hπ2.mono' (mx.pow_const 2).aestronglyMeasurable (.of_forall fun x => ?_)
    rw [Real.norm_eq_abs, Function.comp, abs_of_nonneg (sq_nonneg _)]
    have h1 := Finset.single_le_sum (f := fun q => x.1 q ^ 2) (fun _ _ => sq_nonneg _) (Finset.mem_univ q)
    exact h1.trans (le_add_of_nonneg_right (Finset.sum_nonneg fun _ _ => sq_nonneg _))
  have hiv : Integrable (fun p : ℝ × ℝ => p.2 ^ 2) (π.map fun x : (Elem (Pos size) → ℝ) × (Elem (Pos size) → ℝ) => ((x.1 q, x.2 q) : ℝ × ℝ)) := by
    refine (integrable_map_measure (measurable_snd.pow_const 2).aestronglyMeasurable mq.aemeasurable).2 ?_
    refine hπ2.mono' (mv.pow_const 2).aestronglyMeasurable (.of_forall fun x => ?_)
    rw [Real.norm_eq_abs, Function.comp, abs_of_nonneg (sq_nonneg _)]
    have h1 := Finset.single_le_sum (f := fun q => x.2 q ^ 2) (fun _ _ => sq_nonneg _) (Finset.mem_univ q)
    exact h1.trans (le_add_of_nonneg_left (Finset.sum_nonneg fun _ _ => sq_nonneg _))
  obtain ⟨hn1, hn2⟩ := sghmcSd_noise hs hα0 he0 (hmass q) (hfloor q)
  have hst' : e ^ 2 * mass q * Confining.coupling alpha * alpha * Λ ≤ a₀ := le_trans (le_of_eq (by rw [Confining.coupling]; ring)) (hst q)
  have hbias := hK q (mul_pos (pow_pos he0 2) (hmass q)) hst' hn1 hix hiv hstat hφ hA
  rw [hn2, Real.sqrt_mul (by positivity), Real.sqrt_sq he0.le] at hbias
  have hint : Integrable (fun x : (Elem (Pos size) → ℝ) × (Elem (Pos size) → ℝ) => φ (x.1 q) - φ 0) π := by
    refine (((integrable_const 1).add hπ2).const_mul A).mono' ((cφ.measurable.comp mx).sub_const _).aestronglyMeasurable (.of_forall fun x => ?_)
    rw [Real.norm_eq_abs]
    refine (Stein.growth_of_deriv hφ hA x.1 q).1.trans (mul_le_mul_of_nonneg_left ?_ hA0)
    simp only [Pi.add_apply]
    exact add_le_add le_rfl (le_add_of_nonneg_right (Finset.sum_nonneg fun _ _ => sq_nonneg _))
  have hm' : ∫ x : (Elem (Pos size) → ℝ) × (Elem (Pos size) → ℝ), (φ (x.1 q) - φ 0) ∂π + φ 0
      = ∫ p : ℝ × ℝ, φ p.1 ∂(π.map fun x : (Elem (Pos size) → ℝ) × (Elem (Pos size) → ℝ) => ((x.1 q, x.2 q) : ℝ × ℝ)) := by
    have i1 : Integrable (fun x : (Elem (Pos size) → ℝ) × (Elem (Pos size) → ℝ) => φ (x.1 q)) π :=
      (hint.add (integrable_const (φ 0))).congr (.of_forall fun x => by simp)
    have e1 : ∫ p : ℝ × ℝ, φ p.1 ∂(π.map fun x : (Elem (Pos size) → ℝ) × (Elem (Pos size) → ℝ) => ((x.1 q, x.2 q) : ℝ × ℝ)) = ∫ x, φ (x.1 q) ∂π :=
      integral_map mq.aemeasurable (cφ.measurable.comp measurable_fst).aestronglyMeasurable
    rw [integral_sub i1 (integrable_const _), e1]
    simp
  obtain ⟨h1, h2⟩ := hb (f := fun x => φ (x q) - φ 0) ((cφ.measurable.comp (measurable_pi_apply q)).sub_const _) hA0
  refine Stein.combine (y₀ := φ 0) (h1 fun x => (Stein.growth_of_deriv hφ hA x q).1)
    (fun {I} hI => h2 (fun x => (Stein.growth_of_deriv hφ hA x q).2) hI) ?_
  rw [hm']
  refine hbias.trans ?_
  have h5 : K q ≤ ∑ q, K q := Finset.single_le_sum (f := K) (fun q _ => hK0 q) (Finset.mem_univ q)
  have hmq := hmass q
  have h6 : 0 ≤ e * √(mass q) := by positivity
  have h7 : 0 ≤ e ^ 2 / mass q := by positivity
  have h8 : e * √(mass q) + 1 / (2 * scale ^ 2 * alpha ^ 2) * (e ^ 2 / mass q)
      ≤ (1 + 1 / (2 * scale ^ 2 * alpha ^ 2)) * (e * √(mass q) + e ^ 2 / mass q) := by
    nlinarith [mul_nonneg hd0 h6]
  refine mul_le_mul_of_nonneg_right ?_ hA0
  rw [mul_assoc (∑ q, K q)]
  exact mul_le_mul h5 h8 (by positivity) (Finset.sum_nonneg fun q _ => hK0 q)

/-! ## A cost with many minima -/

theorem bumpy_floor {e : ℝ} (h1 : 1e-6 ≤ e) (h2 : e ≤ 1 / 10) :
    (1e-16 : ℝ) ≤ 2 * (e ^ 2 / 10) * 0.5 * (1 / (1 + 3e-16)) - (e ^ 2 / 10) ^ 2 := by
  have h3 : (1e-12 : ℝ) ≤ e ^ 2 := by nlinarith
  have h4 : e ^ 2 ≤ 1 / 100 := by nlinarith
  have h5 : (1 / 2 : ℝ) ≤ 1 / (1 + 3e-16) := by norm_num
  generalize e ^ 2 = y at h3 h4
  generalize (1 : ℝ) / (1 + 3e-16) = m at h5
  nlinarith

/-- Whatever the parameters and wherever the run starts, the mean of a parameter is estimated up to a multiple of the stepsize, though the
cost has many minima. -/
example [Nonempty (Elem (Pos size))] (order : Nat → SGHMC.Schedule (Fin n)) : ∃ (c : Elem (Pos size) → ℝ) (K : ℝ),
    (∀ q, ∫ y, Real.exp (-(10 * (y ^ 2 / 2 - 3 * Real.cos y) + c q)) = 1) ∧ ∀ t : ℝ, 1e-6 ≤ t → t ≤ 1 / 10 →
    ∃ C ρ : ℝ, ρ < 1 ∧ ∀ θ : ∀ i, Pos size i → ℝ,
    ∃ (Ω : Type) (_ : MeasurableSpace Ω) (P : Measure Ω) (β : Nat → Ω → ℝ) (z : Nat → ∀ i, Pos size i → Ω → ℝ)
      (X : Nat → Ω → Elem (Pos size) → ℝ),
      RandomSteps (gaussianReal 0 1) P β z
      ∧ (∀ N ω, ∃ cost : Nat → Fl,
        (calls (asIter (burnInNext (env (streamFeeder t) (SGHMCWorld.graph
            ⟨.fin 10, .fin 0.5, bumpyFl, fun _ _ => 0, fun k i p => .fin (drawsAfter 1 (fun _ _ _ => 0) z ω k i p), order⟩) fun _ => true) (1 : Nat) n)) N
            (init (some (batchesAfter 1 (fun _ => 0) β ω, 0)) () ⟨SGHMC.State.init fun i p => .fin (θ i p), .fin 0, 0⟩)).1
          = (List.range N).map (fun k : Nat =>
              let arrays := List.ofFn fun i => flat fun p => .fin (X (k + 1) ω ⟨i, p⟩)
              .ok ((if (k : Int) < (1 : Nat) then .many arrays else unravel arrays), cost k)))
      ∧ ∃ R, ∀ q k, |∫ ω, X (1 + k) ω q ∂P - ∫ y, y * Real.exp (-(10 * (y ^ 2 / 2 - 3 * Real.cos y) + c q))| ≤ C * R * ρ ^ k + K * t := by
  obtain ⟨c, K, hc, hK, h⟩ := C134_sghmc_posterior (size := size) (U := fun _ x => x ^ 2 / 2 - 3 * Real.cos x) (G := fun _ β x => x - β + 3 * Real.sin x)
    (fun _ => bumpy_well) (fun _ => bumpy_batches) 10 0.5 (by norm_num) (by norm_num) (by norm_num)
  refine ⟨c, K * 2, hc, fun t ht0 ht1 => ?_⟩
  have ht : 0 < t := lt_of_lt_of_le (by norm_num) ht0
  have ht2 : t ^ 2 ≤ 1 / 100 := by nlinarith
  obtain ⟨C, ρ, -, -, h2, h⟩ := h (fun _ => 1 / (1 + 3e-16)) (fun _ => by norm_num) t ht (fun _ => by
    refine le_trans ?_ (show t ^ 2 * 45 ≤ 1 / 2 by linarith)
    have : (1 : ℝ) / (1 + 3e-16) ≤ 1 := by norm_num
    have e1 : t ^ 2 * (1 / 0.5 ^ 2 + 1 + 2 * ((1 - 0.5) / 0.5 ^ 2 + (1 - 0.5)) ^ 2 / 0.5) * 0.5 * (1 / (1 + 3e-16)) * 3
        = t ^ 2 * 45 * (1 / (1 + 3e-16)) := by norm_num; ring
    rw [e1]
    exact mul_le_of_le_one_right (by positivity) this) (fun _ => bumpy_floor ht0 ht1)
  refine ⟨C, ρ, h2, fun θ => ?_⟩
  obtain ⟨Ω, mΩ, P, ζ, h1, h2, h3, h4⟩ := exists_iid Nat ((gaussianReal 0 1).prod (Measure.pi fun _ : Elem (Pos size) => gaussianReal 0 1))
  have hR : RandomSteps (gaussianReal 0 1) P (fun k ω => (ζ k ω).1) (fun k i p ω => (ζ k ω).2 ⟨i, p⟩) :=
    ⟨h4, fun k => (h1 k).fst, fun k i p => (measurable_pi_apply _).comp (h1 k).snd, h3, fun k => (h2 k).map_eq⟩
  have hmass : ∀ i p, (sghmcVec (κ := Pos size) 0.5 10 (1 : Nat) (fun _ => t) (fun k θ i p => θ i p - 0 + 3 * Real.sin (θ i p)) (fun _ _ _ => 0) θ 1 i p).mass
      = 1 / (1 + 3e-16) := by
    intro i p
    simp only [sghmcVec, sghmcStep, Coord.start, Coord.massUsed, after_false Nat.zero_lt_one, Bool.false_eq_true, if_false, Real.sqrt_one]
  obtain ⟨X, hX, hb⟩ := h (F := streamFeeder t) ⟨.fin 10, .fin 0.5, bumpyFl, fun _ _ => 0, fun _ _ _ => 0, order⟩ (fun _ => true) P
    (fun ω => streamScript t (batchesAfter 1 (fun _ => 0) (fun k ω => (ζ k ω).1) ω))
    (fun ω => bumpyProblem t (batchesAfter 1 (fun _ => 0) (fun k ω => (ζ k ω).1) ω))
    (fun ω => some (batchesAfter 1 (fun _ => 0) (fun k ω => (ζ k ω).1) ω, 0)) () (fun _ => t) (fun _ => 0) (fun k ω => (ζ k ω).1) 1
    (fun _ _ _ => 0) (fun k i p ω => (ζ k ω).2 ⟨i, p⟩) (fun _ => order) θ (.fin 0) (fun _ _ => rfl) (fun _ _ => rfl) (fun _ _ => rfl)
    (fun _ _ _ _ _ _ => rfl) hR rfl rfl one_pos (fun _ _ => rfl) hmass
  refine ⟨Ω, mΩ, P, _, _, X, hR, hX, 1 + (∑ q : Elem (Pos size),
    (sghmcVec 0.5 10 (1 : Nat) (fun _ => t) (fun _ θ i p => θ i p - 0 + 3 * Real.sin (θ i p)) (fun _ _ _ => 0) θ 1 q.1 q.2).pos ^ 2
      + ∑ q : Elem (Pos size), (sghmcVec 0.5 10 (1 : Nat) (fun _ => t) (fun _ θ i p => θ i p - 0 + 3 * Real.sin (θ i p)) (fun _ _ _ => 0) θ 1 q.1 q.2).mom ^ 2),
    fun q k => ?_⟩
  have h5 := ((hb q (φ := fun x => x) (φ' := fun _ => 1) (A := 1) (fun x => hasDerivAt_id' x) (fun x => by simp)).1 k).2
  refine h5.trans (add_le_add (le_of_eq (by ring)) ?_)
  rw [mul_one, mul_assoc]
  refine mul_le_mul_of_nonneg_left ?_ hK
  have h6 : t * √(1 / (1 + 3e-16)) ≤ t := mul_le_of_le_one_right ht.le (Real.sqrt_le_one.2 (by norm_num))
  have h7 : t ^ 2 / (1 / (1 + 3e-16)) ≤ t := by
    rw [one_div, div_inv_eq_mul]
    nlinarith
  linarith

/-! ## Mixtures of Gaussians -/

section mixtures
open Objectives
variable {cs : List Component}

/-- **C135** SGHMC samples the benchmark mixtures, as C133 for SGLD. -/
theorem C135_sghmc_mixtures (hcs : ∀ c ∈ cs, c.Valid) (hw : ∃ c ∈ cs, 0 < c.weight) :
    ∃ ll : ℝ → ℝ, (∀ x, ∀ arg ∈ [MixArg.seq [.number x], .seq [.variable x]],
      gmmLogLikelihood arg (cs.map (·.mean)) (cs.map (·.variance)) (cs.map (·.weight)) = .ok (.fin (ll x))) ∧ Differentiable ℝ ll ∧
    ∀ (alpha : ℝ), 0 < alpha → alpha ≤ 1 →
    ∃ t₀ > 0, ∀ (scale : ℝ), 0 < scale → ∃ c K : ℝ, ∫ y, Real.exp (scale * ll y - c) = 1 ∧ 0 ≤ K ∧
    ∀ (mass : ℝ), 0 < mass → ∀ (e : ℝ), 0 < e → e ^ 2 * mass ≤ t₀ → 1e-16 ≤ 2 * (e ^ 2 / scale) * alpha * mass - (e ^ 2 / scale) ^ 2 →
    ∃ C ρ : ℝ, 0 ≤ C ∧ 0 ≤ ρ ∧ ρ < 1 ∧
    ∀ {F : Feeder} (W : SGHMCWorld fun _ : Fin 1 => 1) (ok : Dict Key Arr → Bool) {Ω : Type} [MeasurableSpace Ω] (P : Measure Ω)
      (S : ∀ N, Script F N) (Pb : ∀ N, Problem (S N) W.grad W.cost ok) (gen : Option F.Batch) (sched : F.Sched) (eps : Nat → ℝ)
      (B : Nat) (z0 : Nat → ∀ i, Pos (fun _ : Fin 1 => 1) i → ℝ) (z : Nat → ∀ i, Pos (fun _ : Fin 1 => 1) i → Ω → ℝ)
      (order : Ω → Nat → SGHMC.Schedule (Fin 1)) (θ : ∀ i, Pos (fun _ : Fin 1 => 1) i → ℝ) (eps0 : Fl),
      (∀ N, (S N).batch 0 = gen) → (∀ N, (S N).sched 0 = sched) → (∀ N, (S N).eps = eps) →
      (∀ N k θ i p, (Pb N).γ k θ i p = deriv (fun x => -ll x) (θ i p)) → RandomSteps (Measure.dirac ()) P (fun _ _ => ()) z →
      W.mdecay = .fin alpha → W.scaleGrad = .fin scale → 0 < B → (∀ k, B ≤ k → eps k = e) →
      let world : Ω → SGHMCWorld fun _ : Fin 1 => 1 := fun ω =>
        { W with normal := fun k i p => .fin (drawsAfter B z0 z ω k i p), order := order ω }
      let atEnd := sghmcVec alpha scale B eps (fun _ θ i p => deriv (fun x => -ll x) (θ i p)) z0 θ B
      (∀ i p, (atEnd i p).mass = mass) →
      ∃ X : Nat → Ω → Elem (Pos fun _ : Fin 1 => 1) → ℝ,
        (∀ N ω, ∃ cost : Nat → Fl,
          (calls (asIter (burnInNext (env F (world ω).graph ok) B 1)) N
              (init gen sched ⟨SGHMC.State.init fun i p => .fin (θ i p), eps0, 0⟩)).1
            = (List.range N).map (fun k : Nat =>
                let arrays := List.ofFn fun i => flat fun p => .fin (X (k + 1) ω ⟨i, p⟩)
                .ok ((if (k : Int) < B then .many arrays else unravel arrays), cost k)))
        ∧ ∀ (q : Elem (Pos fun _ : Fin 1 => 1)) {φ φ' : ℝ → ℝ} {A : ℝ}, (∀ x, HasDerivAt φ (φ' x) x) → (∀ x, |φ' x| ≤ A) →
          let posterior := ∫ y, φ y * Real.exp (scale * ll y - c)
          let start := C * (1 + (∑ q : Elem (Pos fun _ : Fin 1 => 1), (atEnd q.1 q.2).pos ^ 2
            + ∑ q : Elem (Pos fun _ : Fin 1 => 1), (atEnd q.1 q.2).mom ^ 2))
          (∀ k, Integrable (fun ω => φ (X (B + k) ω q)) P ∧
            |∫ ω, φ (X (B + k) ω q) ∂P - posterior| ≤ A * start * ρ ^ k + K * (e * √mass + e ^ 2 / mass) * A)
          ∧ ∀ {I : Finset Nat}, I.Nonempty →
            Integrable (fun ω => ((∑ k ∈ I, φ (X (B + k) ω q)) / I.card - posterior) ^ 2) P ∧
            ∫ ω, ((∑ k ∈ I, φ (X (B + k) ω q)) / I.card - posterior) ^ 2 ∂P
              ≤ 2 * (A ^ 2 * start / I.card) + 2 * (K * (e * √mass + e ^ 2 / mass) * A) ^ 2 := by
  have hd : ∀ x, deriv (fun x => -Real.log (mixtureDensity cs x)) x = score cs x := fun x => (score_deriv hcs hw x).deriv
  obtain ⟨a₀, b₀, L, Λ, g, ha₀, hΛ, hU, hG⟩ := mixture_well hcs hw
  obtain ⟨ll, hll, hdiff, -⟩ := C129_mixtures_forget hcs hw
  have e1 : ll = fun x => Real.log (mixtureDensity cs x) := by
    funext y
    have h1 := hll y (.seq [.variable y]) (by simp)
    rw [C70_density _ hcs y _ (.inr rfl), Fl.log_fin (mixture_pos hcs hw y)] at h1
    simpa using h1.symm
  refine ⟨ll, hll, hdiff, fun alpha hα0 hα1 => ?_⟩
  subst e1
  set u := (1 / alpha ^ 2 + 1 + 2 * ((1 - alpha) / alpha ^ 2 + (1 - alpha)) ^ 2 / alpha) * alpha * Λ with hu
  have hu0 : 0 < u := by positivity
  refine ⟨a₀ / u, div_pos ha₀ hu0, fun scale hs => ?_⟩
  have : Nonempty (Elem (Pos fun _ : Fin 1 => 1)) := ⟨⟨0, ⟨0, by simp⟩⟩⟩
  obtain ⟨c, K, hc, hK, h⟩ := C134_sghmc_posterior (size := fun _ : Fin 1 => 1) (fun _ => hU) (fun _ => hG) scale alpha hs hα0 hα1
  have hq : ∀ q : Elem (Pos fun _ : Fin 1 => 1), q = ⟨0, ⟨0, by simp⟩⟩ := fun q => by
    obtain ⟨i, p⟩ := q
    obtain rfl : i = 0 := Subsingleton.elim _ _
    congr 1
    exact Fin.ext (Nat.lt_one_iff.1 p.2)
  have e2 : ∀ y, Real.exp (scale * Real.log (mixtureDensity cs y) - c ⟨0, ⟨0, by simp⟩⟩)
      = Real.exp (-(scale * -Real.log (mixtureDensity cs y) + c ⟨0, ⟨0, by simp⟩⟩)) := fun y => by
    congr 1
    ring
  refine ⟨c ⟨0, ⟨0, by simp⟩⟩, K, by simp only [e2]; exact hc _, hK, fun mass hmass e he0 htm hfloor => ?_⟩
  obtain ⟨C, ρ, h1, h2, h3, h4⟩ := h (fun _ => mass) (fun _ => hmass) e he0
    (fun _ => by
      rw [le_div_iff₀ hu0, hu] at htm
      exact (le_of_eq (by ring)).trans htm) (fun _ => hfloor)
  refine ⟨C, ρ, h1, h2, h3, ?_⟩
  intro F W ok Ω _ P S Pb gen sched eps B z0 z order θ eps0 hgen hsched heps hPb hR ha hsc hB he
  simp only [hd] at hPb ⊢
  intro hm
  obtain ⟨X, hX, hb⟩ := h4 W ok P (fun _ => S) (fun _ => Pb) (fun _ => gen) sched eps (fun _ => ()) (fun _ _ => ()) B z0 z order θ eps0
    (fun _ => hgen) (fun _ => hsched) (fun _ => heps) (fun _ N k θ i p => hPb N k θ i p) hR ha hsc hB he hm
  refine ⟨X, hX, fun q φ φ' A hφ hA => ?_⟩
  simp only [e2]
  have h5 := hb q hφ hA
  rw [hq q] at h5 ⊢
  exact h5

/-- Averages over one run of SGHMC on the package's third mixture, which has three modes, from any start: with `scale_grad = 1` the limit is
the mixture up to a multiple of the stepsize.  The noise is above its floor for all but tiny stepsizes. -/
example (order : Nat → SGHMC.Schedule (Fin 1)) : ∃ (ll : ℝ → ℝ) (t₀ c K : ℝ), 0 < t₀ ∧ ∫ y, Real.exp (1 * ll y - c) = 1 ∧
    (∀ x, gmmLogLikelihood (.seq [.variable x]) [-5, 0, 5] [10 / 3, 3 / 10, 10 / 3] [1 / 3, 1 / 3, 1 / 3] = .ok (.fin (ll x))) ∧
    ∀ t : ℝ, 0 < t → t ≤ t₀ → 1e-16 ≤ 2 * (t ^ 2 / 1) * 0.05 * (1 / (1 + 3e-16)) - (t ^ 2 / 1) ^ 2 →
    ∃ C : ℝ, ∀ θ : ∀ i, Pos (fun _ : Fin 1 => 1) i → ℝ,
    ∃ (Ω : Type) (_ : MeasurableSpace Ω) (P : Measure Ω) (z : Nat → ∀ i, Pos (fun _ : Fin 1 => 1) i → Ω → ℝ)
      (X : Nat → Ω → Elem (Pos fun _ : Fin 1 => 1) → ℝ),
      (∀ N ω, ∃ cost : Nat → Fl,
        (calls (asIter (burnInNext (env (streamFeeder t) (SGHMCWorld.graph
            ⟨.fin 1, .fin 0.05, fun _ θ i p => scoreFl (threeModes (10 / 3) (3 / 10)) (θ i p), fun _ _ => 0,
              fun k i p => .fin (drawsAfter 1 (fun _ _ _ => 0) z ω k i p), order⟩) fun _ => true) (1 : Nat) 1)) N
            (init none () ⟨SGHMC.State.init fun i p => .fin (θ i p), .fin 0, 0⟩)).1
          = (List.range N).map (fun k : Nat =>
              let arrays := List.ofFn fun i => flat fun p => .fin (X (k + 1) ω ⟨i, p⟩)
              .ok ((if (k : Int) < (1 : Nat) then .many arrays else unravel arrays), cost k)))
      ∧ ∃ R, ∀ q N, 0 < N → ∫ ω, ((∑ k ∈ Finset.range N, X (1 + k) ω q) / N - ∫ y, y * Real.exp (1 * ll y - c)) ^ 2 ∂P
          ≤ 2 * (C * R / N) + K * (t + 2 * t ^ 2) ^ 2 := by
  have hcs := threeModes_valid (v := 10 / 3) (w := 3 / 10) (by norm_num) (by norm_num)
  have hw : ∃ c ∈ threeModes (10 / 3) (3 / 10), 0 < c.weight := ⟨⟨1 / 3, 0, 3 / 10⟩, by simp [threeModes], by norm_num⟩
  obtain ⟨ll, hll, -, h0⟩ := C135_sghmc_mixtures hcs hw
  obtain ⟨s₀, hs₀, h⟩ := h0 0.05 (by norm_num) (by norm_num)
  have hd : ∀ x, deriv (fun x => -ll x) x = score (threeModes (10 / 3) (3 / 10)) x := fun x => by
    have e : ll = fun x => Real.log (mixtureDensity (threeModes (10 / 3) (3 / 10)) x) := by
      funext y
      have h1 := hll y (.seq [.variable y]) (by simp)
      rw [C70_density _ hcs y _ (.inr rfl), Fl.log_fin (mixture_pos hcs hw y)] at h1
      simpa using h1.symm
    rw [e]
    exact (score_deriv hcs hw x).deriv
  obtain ⟨c, K, hc, hK, h⟩ := h 1 one_pos
  refine ⟨ll, √s₀, c, 2 * K ^ 2, Real.sqrt_pos.2 hs₀, hc, fun x => hll x _ (by simp), fun t ht htt hfloor => ?_⟩
  have htt' : t ^ 2 ≤ s₀ := by
    have := pow_le_pow_left₀ ht.le htt 2
    rwa [Real.sq_sqrt hs₀.le] at this
  obtain ⟨C, ρ, -, -, -, h⟩ := h (1 / (1 + 3e-16)) (by norm_num) t ht ((mul_le_of_le_one_right (sq_nonneg t) (by norm_num)).trans htt') hfloor
  refine ⟨C, fun θ => ?_⟩
  obtain ⟨Ω, mΩ, P, ζ, h1, h2, h3, h4⟩ := exists_iid Nat
    ((Measure.dirac ()).prod (Measure.pi fun _ : Elem (Pos fun _ : Fin 1 => 1) => gaussianReal 0 1))
  have hR : RandomSteps (Measure.dirac ()) P (fun _ _ => ()) (fun k i p ω => (ζ k ω).2 ⟨i, p⟩) :=
    ⟨h4, fun k => (h1 k).fst, fun k i p => (measurable_pi_apply _).comp (h1 k).snd, h3, fun k => (h2 k).map_eq⟩
  have hmass : ∀ i p, (sghmcVec (κ := Pos fun _ : Fin 1 => 1) 0.05 1 (1 : Nat) (fun _ => t) (fun _ θ i p => deriv (fun x => -ll x) (θ i p))
      (fun _ _ _ => 0) θ 1 i p).mass = 1 / (1 + 3e-16) := by
    intro i p
    simp only [sghmcVec, sghmcStep, Coord.start, Coord.massUsed, after_false Nat.zero_lt_one, Bool.false_eq_true, if_false, Real.sqrt_one]
  obtain ⟨X, hX, hb⟩ := h (F := streamFeeder t) ⟨.fin 1, .fin 0.05, fun _ θ i p => scoreFl (threeModes (10 / 3) (3 / 10)) (θ i p), fun _ _ => 0,
      fun _ _ _ => 0, order⟩ (fun _ => true) P (fun N => plainScript t N) (fun N => scoreProblem _ t N) none () (fun _ => t) 1 (fun _ _ _ => 0)
    (fun k i p ω => (ζ k ω).2 ⟨i, p⟩) (fun _ => order) θ (.fin 0) (fun _ => rfl) (fun _ => rfl) (fun _ => rfl)
    (fun _ _ _ _ _ => (hd _).symm) hR rfl rfl one_pos (fun _ _ => rfl) hmass
  refine ⟨Ω, mΩ, P, _, X, hX, 1 + (∑ q : Elem (Pos fun _ : Fin 1 => 1),
    (sghmcVec 0.05 1 (1 : Nat) (fun _ => t) (fun _ θ i p => deriv (fun x => -ll x) (θ i p)) (fun _ _ _ => 0) θ 1 q.1 q.2).pos ^ 2 +
    ∑ q : Elem (Pos fun _ : Fin 1 => 1), (sghmcVec 0.05 1 (1 : Nat) (fun _ => t) (fun _ θ i p => deriv (fun x => -ll x) (θ i p)) (fun _ _ _ => 0) θ 1 q.1 q.2).mom ^ 2),
    fun q N hN => ?_⟩
  have h5 := ((hb q (φ := fun x => x) (φ' := fun _ => 1) (A := 1) (fun x => hasDerivAt_id' x) (fun x => by simp)).2
    (I := Finset.range N) ⟨0, Finset.mem_range.2 hN⟩).2
  rw [Finset.card_range] at h5
  refine h5.trans (add_le_add (le_of_eq (by ring)) ?_)
  rw [mul_one, mul_pow, ← mul_assoc]
  refine mul_le_mul_of_nonneg_left (pow_le_pow_left₀ (by positivity) ?_ 2) (by positivity)
  have h6 : t * √(1 / (1 + 3e-16)) ≤ t := mul_le_of_le_one_right ht.le (Real.sqrt_le_one.2 (by norm_num))
  have h7 : t ^ 2 / (1 / (1 + 3e-16)) ≤ 2 * t ^ 2 := by
    rw [one_div, div_inv_eq_mul]
    nlinarith [sq_nonneg t]
  linarith

end mixtures

end PySGMCMC.Chain
