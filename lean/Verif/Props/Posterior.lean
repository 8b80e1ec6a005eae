import Verif.Props.FullChain
import Verif.Lemmas.LinearChain

/-!
# C93, C94: what the samples are distributed like

A cost whose gradient is `h (θ - μ)` in every element (a sum of quadratics, e.g. the negative log density of independent
normal variables), a stepsize that is constant after burn-in, and independent standard normal draws after burn-in.  The burn-in
draws `z0` are arbitrary.
-/

namespace PySGMCMC.Chain
open SamplerBase BurnInStats Spec MeasureTheory ProbabilityTheory Filter Topology

variable {n : Nat} {size : Fin n → Nat} {Ω : Type} [MeasurableSpace Ω]

/-- `z k i p` are independent standard normal variables: along the chain, and between elements. -/
structure Noise (P : Measure Ω) (z : Nat → ∀ i, Pos size i → Ω → ℝ) : Prop where
  meas : ∀ k i p, Measurable (z k i p)
  normal : ∀ k i p, P.map (z k i p) = gaussianReal 0 1
  steps : ∀ i p, iIndepFun (fun k => z k i p) P
  elements : iIndepFun (fun (q : Σ i, Pos size i) ω k => z k q.1 q.2 ω) P

/-- Draws `z0` during burn-in, then `z`. -/
def drawsAfter (B : Nat) (z0 : Nat → ∀ i, Pos size i → ℝ) (z : Nat → ∀ i, Pos size i → Ω → ℝ) (ω : Ω) (k : Nat) :
    ∀ i, Pos size i → ℝ := fun i p => if k < B then z0 k i p else z (k - B) i p ω

omit [MeasurableSpace Ω] in
theorem drawsAfter_lt {B : Nat} {z0 : Nat → ∀ i, Pos size i → ℝ} {z : Nat → ∀ i, Pos size i → Ω → ℝ} {ω : Ω} {k : Nat} (h : k < B) :
    drawsAfter B z0 z ω k = z0 k := by
  funext i p; unfold drawsAfter; rw [if_pos h]

omit [MeasurableSpace Ω] in
theorem drawsAfter_add {B : Nat} {z0 : Nat → ∀ i, Pos size i → ℝ} {z : Nat → ∀ i, Pos size i → Ω → ℝ} {ω : Ω} {k : Nat} (i : Fin n)
    (p : Pos size i) : drawsAfter B z0 z ω (B + k) i p = z k i p ω := by
  unfold drawsAfter; rw [if_neg (by omega), Nat.add_sub_cancel_left]

theorem sgldVec_congr {κ : Fin n → Type} (a scale : ℝ) (B : Int) (eps : Nat → ℝ) (γ : Nat → (∀ i, κ i → ℝ) → ∀ i, κ i → ℝ)
    {z z' : Nat → ∀ i, κ i → ℝ} (θ : ∀ i, κ i → ℝ) (k : Nat) (h : ∀ j < k, z j = z' j) :
    sgldVec a scale B eps γ z θ k = sgldVec a scale B eps γ z' θ k := by
  induction k with
  | zero => rfl
  | succ k ih => simp only [sgldVec]; rw [ih fun j hj => h j (by omega), h k (by omega)]

theorem sghmcVec_congr {κ : Fin n → Type} (a scale : ℝ) (B : Int) (eps : Nat → ℝ) (γ : Nat → (∀ i, κ i → ℝ) → ∀ i, κ i → ℝ)
    {z z' : Nat → ∀ i, κ i → ℝ} (θ : ∀ i, κ i → ℝ) (k : Nat) (h : ∀ j < k, z j = z' j) :
    sghmcVec a scale B eps γ z θ k = sghmcVec a scale B eps γ z' θ k := by
  induction k with
  | zero => rfl
  | succ k ih => simp only [sghmcVec]; rw [ih fun j hj => h j (by omega), h k (by omega)]

/-- The gradient of a sum of quadratics. -/
def quadGrad (h μ : ∀ i, Pos size i → ℝ) (θ : ∀ i, Pos size i → ℝ) : ∀ i, Pos size i → ℝ := fun i p => h i p * (θ i p - μ i p)

theorem isProb {P : Measure Ω} {z : Nat → ∀ i, Pos size i → Ω → ℝ} (hz : Noise P z) (i : Fin n) (p : Pos size i) :
    IsProbabilityMeasure P := by
  constructor
  have h0 : P.map (z 0 i p) Set.univ = 1 := by rw [hz.normal]; exact measure_univ
  rwa [Measure.map_apply (hz.meas 0 i p) MeasurableSet.univ, Set.preimage_univ] at h0

theorem after_true {B : Nat} (hB : 0 < B) (k : Nat) : afterBurnIn (B : Int) (B + k) = true := by
  unfold afterBurnIn; rw [decide_eq_true_eq]; omega

theorem after_false {B : Nat} {k : Nat} (h : k < B) : afterBurnIn (B : Int) k = false := by
  unfold afterBurnIn; rw [decide_eq_false_iff_not]; omega

/-- The position of every element after `k` steps. -/
noncomputable def sgldPos (a scale : ℝ) (B : Nat) (eps : Nat → ℝ) (h μ : ∀ i, Pos size i → ℝ) (z0 : Nat → ∀ i, Pos size i → ℝ)
    (z : Nat → ∀ i, Pos size i → Ω → ℝ) (θ : ∀ i, Pos size i → ℝ) (k : Nat) (i : Fin n) (p : Pos size i) (ω : Ω) : ℝ :=
  (sgldVec a scale B eps (fun _ => quadGrad h μ) (drawsAfter B z0 z ω) θ k i p).pos

omit [MeasurableSpace Ω] in
theorem sgldPos_linear (a scale : ℝ) (B : Nat) (hB : 0 < B) (eps : Nat → ℝ) (e : ℝ) (he : ∀ k, B ≤ k → eps k = e)
    (h μ : ∀ i, Pos size i → ℝ) (z0 : Nat → ∀ i, Pos size i → ℝ)
    (z : Nat → ∀ i, Pos size i → Ω → ℝ) (θ : ∀ i, Pos size i → ℝ) (i : Fin n) (p : Pos size i) :
    let c := sgldVec a scale B eps (fun _ => quadGrad h μ) z0 θ B i p
    0 < c.mass ∧ ∀ k ω, sgldPos a scale B eps h μ z0 z θ (B + k) i p ω
      = μ i p + (1 - e * c.mass * a * h i p) ^ k * (c.pos - μ i p)
        + ∑ j ∈ Finset.range k, sgldSd e a scale c.mass * (1 - e * c.mass * a * h i p) ^ (k - 1 - j) * z j i p ω := by
  intro c
  refine ⟨?_, fun k ω => ?_⟩
  · obtain ⟨b, rfl⟩ : ∃ b, B = b + 1 := ⟨B - 1, by omega⟩
    simp only [c, sgldVec, sgldStep, Coord.massUsed, after_false (Nat.lt_succ_self b)]
    have := Real.sqrt_nonneg (sgldVec a scale ((b + 1 : Nat) : Int) eps (fun _ => quadGrad h μ) z0 θ b i p).v
    simp only [Bool.false_eq_true, if_false]
    positivity
  · have h0 : sgldVec a scale B eps (fun _ => quadGrad h μ) (drawsAfter B z0 z ω) θ B i p = c := by
      simp only [c]
      rw [sgldVec_congr a scale B eps _ θ B fun j hj => drawsAfter_lt hj]
    have hm : ∀ k, (sgldVec a scale B eps (fun _ => quadGrad h μ) (drawsAfter B z0 z ω) θ (B + k) i p).mass = c.mass := by
      intro k
      induction k with
      | zero => rw [Nat.add_zero, h0]
      | succ k ih =>
        rw [← Nat.add_assoc]
        simp only [sgldVec, sgldStep, Coord.massUsed, after_true hB, if_true]
        exact ih
    have hr : ∀ k, sgldPos a scale B eps h μ z0 z θ (B + (k + 1)) i p ω - μ i p
        = (1 - e * c.mass * a * h i p) * (sgldPos a scale B eps h μ z0 z θ (B + k) i p ω - μ i p)
          + sgldSd e a scale c.mass * z k i p ω := by
      intro k
      rw [← Nat.add_assoc]
      have hmk := hm k
      simp only [sgldPos, sgldVec, sgldStep, Coord.massUsed, after_true hB, if_true, drawsAfter_add, he _ (Nat.le_add_right B k), hmk]
      simp only [quadGrad]
      ring
    have := LinearChain.first_order (x := fun k => sgldPos a scale B eps h μ z0 z θ (B + k) i p ω - μ i p) (z := fun k => z k i p ω) hr k
    simp only [Nat.add_zero] at this
    have h00 : sgldPos a scale B eps h μ z0 z θ B i p ω = c.pos := by unfold sgldPos; rw [h0]
    rw [h00] at this
    linarith

/-- **C93** SGLD on a sum of quadratics: with stepsize `e` after burn-in, element `(i, p)` of the sample `k` steps after burn-in is
normally distributed; different elements are independent; and for `e m a h < 2` the distribution converges to the normal
distribution with the minimum as mean and variance `1 / ((scale + 3e-16) h)`, times `1 / (1 - e m a h / 2)`. -/
theorem C93_sgld_law {F : Feeder} (W : SGLDWorld size) (ok : Dict Key Arr → Bool) (S : ∀ N, Script F N)
    (Pb : ∀ N, Problem (S N) W.grad W.cost ok) (b0 : Option F.Batch) (s0 : F.Sched) (eps : Nat → ℝ)
    (hb : ∀ N, (S N).batch 0 = b0) (hs0 : ∀ N, (S N).sched 0 = s0) (heps : ∀ N, (S N).eps = eps)
    (h μ : ∀ i, Pos size i → ℝ) (hγ : ∀ N k θ, (Pb N).γ k θ = quadGrad h μ θ)
    (a scale : ℝ) (ha : W.a = .fin a) (ha0 : 0 < a) (hsc : W.scaleGrad = .fin scale) (hs : 0 < scale)
    (B : Nat) (hB : 0 < B) (e : ℝ) (he0 : 0 < e) (he : ∀ k, B ≤ k → eps k = e)
    (P : Measure Ω) (z0 : Nat → ∀ i, Pos size i → ℝ) (z : Nat → ∀ i, Pos size i → Ω → ℝ) (hz : Noise P z)
    (order : Ω → Nat → SGLD.Schedule (Fin n)) (θ : ∀ i, Pos size i → ℝ) (eps0 : Fl) :
    let world : Ω → SGLDWorld size := fun ω =>
      { W with normal := fun k i p => .fin (drawsAfter B z0 z ω k i p), order := order ω }
    let atEnd := sgldVec a scale B eps (fun _ => quadGrad h μ) z0 θ B
    let m := fun i p => (atEnd i p).mass
    let θB := fun i p => (atEnd i p).pos
    ∃ X : Nat → ∀ i, Pos size i → Ω → ℝ,
      (∀ i p, 0 < m i p)
      ∧ (∀ N ω, ∃ cost : Nat → Fl,
        (calls (asIter (burnInNext (env F (world ω).graph ok) B n)) N (init b0 s0 ⟨SGLD.State.init fun i p => .fin (θ i p), eps0, 0⟩)).1
          = (List.range N).map (fun k : Nat =>
              let arrays := List.ofFn fun i => flat fun p => .fin (X (k + 1) i p ω)
              .ok ((if (k : Int) < B then .many arrays else unravel arrays), cost k)))
      ∧ (∀ k i p,
        let ρ := 1 - e * m i p * a * h i p
        P.map (X (B + k) i p) = gaussianReal (μ i p + ρ ^ k * (θB i p - μ i p))
          (2 * e * m i p * a / (scale + 3e-16) * ∑ j ∈ Finset.range k, (ρ ^ j) ^ 2).toNNReal)
      ∧ (∀ k, iIndepFun (fun (q : Σ i, Pos size i) => X (B + k) q.1 q.2) P)
      ∧ ∀ (i : Fin n) (p : Pos size i) [IsProbabilityMeasure P], 0 < h i p → e * m i p * a * h i p < 2 →
        TendstoInDistribution (fun k => X (B + k) i p) atTop (id : ℝ → ℝ) (fun _ => P)
          (gaussianReal (μ i p) (1 / ((scale + 3e-16) * h i p * (1 - e * m i p * a * h i p / 2))).toNNReal) := by
  intro world c m θB
  refine ⟨sgldPos a scale B eps h μ z0 z θ, ?_, ?_, ?_, ?_, ?_⟩
  · intro i p; exact (sgldPos_linear a scale B hB eps e he h μ z0 z θ i p).1
  · intro N ω
    have hq : (Pb N).γ = fun _ => quadGrad h μ := by funext k θ; exact hγ N k θ
    obtain ⟨cost, hcost⟩ := C89_sgld_deterministic (S N) (world ω) ok
      ⟨(Pb N).γ, (Pb N).c, (Pb N).grad_eq, (Pb N).cost_eq, (Pb N).accepts⟩ a scale ha hsc hs (drawsAfter B z0 z ω) (fun _ _ _ => rfl) B θ eps0
      (fun k _ i θ θ' hθ => by
        simp only [hγ]
        funext p
        unfold quadGrad
        rw [congrFun hθ p])
    refine ⟨cost, ?_⟩
    rw [hb, hs0] at hcost
    rw [hcost]
    simp only [heps, hq]
    rfl
  · intro k i p ρ
    obtain ⟨hm, hl⟩ := sgldPos_linear a scale B hB eps e he h μ z0 z θ i p
    have hf : sgldPos a scale B eps h μ z0 z θ (B + k) i p = _ := funext (hl k)
    rw [hf, GaussLaw.law_sum (fun k => hz.meas k i p) (hz.steps i p) (fun k => hz.normal k i p), LinearChain.geom_sq]
    unfold sgldSd
    rw [Real.sq_sqrt (by have := hm; positivity)]
  · intro k
    have hf : (fun (q : Σ i, Pos size i) => sgldPos a scale B eps h μ z0 z θ (B + k) q.1 q.2)
        = fun q => (fun (y : Nat → ℝ) => μ q.1 q.2
          + (1 - e * (c q.1 q.2).mass * a * h q.1 q.2) ^ k * ((c q.1 q.2).pos - μ q.1 q.2)
          + ∑ j ∈ Finset.range k, sgldSd e a scale (c q.1 q.2).mass * (1 - e * (c q.1 q.2).mass * a * h q.1 q.2) ^ (k - 1 - j) * y j)
          ∘ fun ω k => z k q.1 q.2 ω := by
      funext q ω
      exact (sgldPos_linear a scale B hB eps e he h μ z0 z θ q.1 q.2).2 k ω
    rw [hf]
    exact hz.elements.comp _ fun q => by fun_prop
  · intro i p _ hh hlt
    obtain ⟨hm, hl⟩ := sgldPos_linear a scale B hB eps e he h μ z0 z θ i p
    set ρ := 1 - e * (c i p).mass * a * h i p with hρ
    have hpos : 0 < e * (c i p).mass * a * h i p := by have := hm; positivity
    have habs : |ρ| < 1 := by rw [abs_lt]; constructor <;> linarith
    refine GaussLaw.tendsto_normal (μ := fun k => μ i p + ρ ^ k * ((c i p).pos - μ i p))
      (v := fun k => sgldSd e a scale (c i p).mass ^ 2 * ∑ j ∈ Finset.range k, (ρ ^ j) ^ 2) ?_ ?_ ?_ ?_
    · intro k
      have hf : sgldPos a scale B eps h μ z0 z θ (B + k) i p = _ := funext (hl k)
      rw [hf]
      have := fun k => hz.meas k i p
      fun_prop
    · intro k
      have hf : sgldPos a scale B eps h μ z0 z θ (B + k) i p = _ := funext (hl k)
      rw [hf, GaussLaw.law_sum (fun k => hz.meas k i p) (hz.steps i p) (fun k => hz.normal k i p), LinearChain.geom_sq]
    · have := ((tendsto_pow_atTop_nhds_zero_of_abs_lt_one habs).mul_const ((c i p).pos - μ i p)).const_add (μ i p)
      simpa using this
    · have := (LinearChain.geom_sq_tendsto habs).const_mul (sgldSd e a scale (c i p).mass ^ 2)
      convert this using 2
      simp only [m]
      unfold sgldSd
      rw [Real.sq_sqrt (by have := hm; positivity), hρ]
      have h1 : (1 - e * (c i p).mass * a * h i p / 2) ≠ 0 := by linarith
      have h2 : 1 - (1 - e * (c i p).mass * a * h i p) ^ 2 = 2 * (e * (c i p).mass * a * h i p) * (1 - e * (c i p).mass * a * h i p / 2) := by ring
      rw [h2]
      have hm' : (c i p).mass ≠ 0 := hm.ne'
      field_simp

/-- The coordinates after `k` steps. -/
noncomputable def sghmcCoord (alpha scale : ℝ) (B : Nat) (eps : Nat → ℝ) (h μ : ∀ i, Pos size i → ℝ) (z0 : Nat → ∀ i, Pos size i → ℝ)
    (z : Nat → ∀ i, Pos size i → Ω → ℝ) (θ : ∀ i, Pos size i → ℝ) (k : Nat) (i : Fin n) (p : Pos size i) (ω : Ω) : Coord :=
  sghmcVec alpha scale B eps (fun _ => quadGrad h μ) (drawsAfter B z0 z ω) θ k i p

omit [MeasurableSpace Ω] in
theorem sghmcPos_linear (alpha scale : ℝ) (B : Nat) (hB : 0 < B) (eps : Nat → ℝ) (e : ℝ) (he : ∀ k, B ≤ k → eps k = e)
    (h μ : ∀ i, Pos size i → ℝ) (z0 : Nat → ∀ i, Pos size i → ℝ)
    (z : Nat → ∀ i, Pos size i → Ω → ℝ) (θ : ∀ i, Pos size i → ℝ) (i : Fin n) (p : Pos size i) :
    let c := sghmcVec alpha scale B eps (fun _ => quadGrad h μ) z0 θ B i p
    let w := LinearChain.infl (e ^ 2 * c.mass * h i p) (1 - alpha)
    0 < c.mass ∧ ∀ k ω, (sghmcCoord alpha scale B eps h μ z0 z θ (B + k) i p ω).pos
      = (μ i p + (w k).1 * (c.pos - μ i p) + (w k).2 * c.mom)
        + ∑ j ∈ Finset.range k, sghmcSd e alpha scale c.mass * ((w (k - 1 - j)).1 + (w (k - 1 - j)).2) * z j i p ω := by
  intro c w
  refine ⟨?_, fun k ω => ?_⟩
  · obtain ⟨b, rfl⟩ : ∃ b, B = b + 1 := ⟨B - 1, by omega⟩
    simp only [c, sghmcVec, sghmcStep, Coord.massUsed, after_false (Nat.lt_succ_self b)]
    have := Real.sqrt_nonneg (sghmcVec alpha scale ((b + 1 : Nat) : Int) eps (fun _ => quadGrad h μ) z0 θ b i p).v
    simp only [Bool.false_eq_true, if_false]
    positivity
  · have h0 : sghmcCoord alpha scale B eps h μ z0 z θ B i p ω = c := by
      simp only [c, sghmcCoord]
      rw [sghmcVec_congr alpha scale B eps _ θ B fun j hj => drawsAfter_lt hj]
    have hm : ∀ k, (sghmcCoord alpha scale B eps h μ z0 z θ (B + k) i p ω).mass = c.mass := by
      intro k
      induction k with
      | zero => rw [Nat.add_zero, h0]
      | succ k ih =>
        rw [← Nat.add_assoc]
        simp only [sghmcCoord, sghmcVec, sghmcStep, Coord.massUsed, after_true hB, if_true]
        exact ih
    have hp : ∀ k, (sghmcCoord alpha scale B eps h μ z0 z θ (B + (k + 1)) i p ω).mom
        = (1 - alpha) * (sghmcCoord alpha scale B eps h μ z0 z θ (B + k) i p ω).mom
          - e ^ 2 * c.mass * h i p * ((sghmcCoord alpha scale B eps h μ z0 z θ (B + k) i p ω).pos - μ i p)
          + sghmcSd e alpha scale c.mass * z k i p ω := by
      intro k
      rw [← Nat.add_assoc]
      have hmk := hm k
      simp only [sghmcCoord] at hmk
      simp only [sghmcCoord, sghmcVec, sghmcStep, Coord.massUsed, after_true hB, if_true, drawsAfter_add, he _ (Nat.le_add_right B k), hmk]
      simp only [quadGrad]
      ring
    have hx : ∀ k, (sghmcCoord alpha scale B eps h μ z0 z θ (B + (k + 1)) i p ω).pos - μ i p
        = ((sghmcCoord alpha scale B eps h μ z0 z θ (B + k) i p ω).pos - μ i p)
          + (sghmcCoord alpha scale B eps h μ z0 z θ (B + (k + 1)) i p ω).mom := by
      intro k
      rw [← Nat.add_assoc]
      simp only [sghmcCoord, sghmcVec, sghmcStep]
      ring
    have := LinearChain.second_order (x := fun k => (sghmcCoord alpha scale B eps h μ z0 z θ (B + k) i p ω).pos - μ i p)
      (p := fun k => (sghmcCoord alpha scale B eps h μ z0 z θ (B + k) i p ω).mom) (z := fun k => z k i p ω) hp hx k 0
    simp only [Nat.add_zero, Nat.zero_add, h0] at this
    simp only [w]
    linarith

/-- **C94** SGHMC on a sum of quadratics: with stepsize `e` after burn-in, every element of the sample `k` steps after burn-in is
normally distributed; different elements are independent; and under the stability condition `e² m h < 2 (2 - α)` the distribution
converges to a normal distribution around the minimum. -/
theorem C94_sghmc_law {F : Feeder} (W : SGHMCWorld size) (ok : Dict Key Arr → Bool) (S : ∀ N, Script F N)
    (Pb : ∀ N, Problem (S N) W.grad W.cost ok) (b0 : Option F.Batch) (s0 : F.Sched) (eps : Nat → ℝ)
    (hb : ∀ N, (S N).batch 0 = b0) (hs0 : ∀ N, (S N).sched 0 = s0) (heps : ∀ N, (S N).eps = eps)
    (h μ : ∀ i, Pos size i → ℝ) (hγ : ∀ N k θ, (Pb N).γ k θ = quadGrad h μ θ)
    (alpha scale : ℝ) (hα : W.mdecay = .fin alpha) (hα0 : 0 < alpha) (hsc : W.scaleGrad = .fin scale) (hs : 0 < scale)
    (B : Nat) (hB : 0 < B) (e : ℝ) (he0 : 0 < e) (he : ∀ k, B ≤ k → eps k = e)
    (P : Measure Ω) (z0 : Nat → ∀ i, Pos size i → ℝ) (z : Nat → ∀ i, Pos size i → Ω → ℝ) (hz : Noise P z)
    (order : Ω → Nat → SGHMC.Schedule (Fin n)) (θ : ∀ i, Pos size i → ℝ) (eps0 : Fl) :
    let world : Ω → SGHMCWorld size := fun ω =>
      { W with normal := fun k i p => .fin (drawsAfter B z0 z ω k i p), order := order ω }
    let atEnd := sghmcVec alpha scale B eps (fun _ => quadGrad h μ) z0 θ B
    let m := fun i p => (atEnd i p).mass
    let θB := fun i p => (atEnd i p).pos
    let pB := fun i p => (atEnd i p).mom
    ∃ X : Nat → ∀ i, Pos size i → Ω → ℝ,
      (∀ i p, 0 < m i p)
      ∧ (∀ N ω, ∃ cost : Nat → Fl,
        (calls (asIter (burnInNext (env F (world ω).graph ok) B n)) N (init b0 s0 ⟨SGHMC.State.init fun i p => .fin (θ i p), eps0, 0⟩)).1
          = (List.range N).map (fun k : Nat =>
              let arrays := List.ofFn fun i => flat fun p => .fin (X (k + 1) i p ω)
              .ok ((if (k : Int) < B then .many arrays else unravel arrays), cost k)))
      ∧ (∀ k i p,
        let w := LinearChain.infl (e ^ 2 * m i p * h i p) (1 - alpha)
        P.map (X (B + k) i p) = gaussianReal (μ i p + (w k).1 * (θB i p - μ i p) + (w k).2 * pB i p)
          (sghmcSd e alpha scale (m i p) ^ 2 * ∑ j ∈ Finset.range k, ((w j).1 + (w j).2) ^ 2).toNNReal)
      ∧ (∀ k, iIndepFun (fun (q : Σ i, Pos size i) => X (B + k) q.1 q.2) P)
      ∧ ∀ (i : Fin n) (p : Pos size i) [IsProbabilityMeasure P], 0 < h i p → e ^ 2 * m i p * h i p < 2 * (2 - alpha) →
        TendstoInDistribution (fun k => X (B + k) i p) atTop (id : ℝ → ℝ) (fun _ => P)
          (gaussianReal (μ i p) (sghmcSd e alpha scale (m i p) ^ 2 * (2 - alpha)
            / (2 * alpha * (e ^ 2 * m i p * h i p) * (2 - alpha - e ^ 2 * m i p * h i p / 2))).toNNReal) := by
  intro world c m θB pB
  refine ⟨fun k i p ω => (sghmcCoord alpha scale B eps h μ z0 z θ k i p ω).pos, ?_, ?_, ?_, ?_, ?_⟩
  · intro i p; exact (sghmcPos_linear alpha scale B hB eps e he h μ z0 z θ i p).1
  · intro N ω
    have hq : (Pb N).γ = fun _ => quadGrad h μ := by funext k θ; exact hγ N k θ
    obtain ⟨cost, hcost⟩ := C88_sghmc_deterministic (S N) (world ω) ok
      ⟨(Pb N).γ, (Pb N).c, (Pb N).grad_eq, (Pb N).cost_eq, (Pb N).accepts⟩ alpha scale hα hsc hs (drawsAfter B z0 z ω) (fun _ _ _ => rfl) B θ eps0
      (fun k _ i θ θ' hθ => by
        simp only [hγ]
        funext p
        unfold quadGrad
        rw [congrFun hθ p])
    refine ⟨cost, ?_⟩
    rw [hb, hs0] at hcost
    rw [hcost]
    simp only [heps, hq]
    rfl
  · intro k i p w
    obtain ⟨hm, hl⟩ := sghmcPos_linear alpha scale B hB eps e he h μ z0 z θ i p
    have hf : (fun ω => (sghmcCoord alpha scale B eps h μ z0 z θ (B + k) i p ω).pos) = _ := funext (hl k)
    beta_reduce
    rw [hf, GaussLaw.law_sum (fun k => hz.meas k i p) (hz.steps i p) (fun k => hz.normal k i p), LinearChain.second_sq]
  · intro k
    have hf : (fun (q : Σ i, Pos size i) ω => (sghmcCoord alpha scale B eps h μ z0 z θ (B + k) q.1 q.2 ω).pos)
        = fun q => (fun (y : Nat → ℝ) =>
          let w := LinearChain.infl (e ^ 2 * (c q.1 q.2).mass * h q.1 q.2) (1 - alpha)
          (μ q.1 q.2 + (w k).1 * ((c q.1 q.2).pos - μ q.1 q.2) + (w k).2 * (c q.1 q.2).mom)
          + ∑ j ∈ Finset.range k, sghmcSd e alpha scale (c q.1 q.2).mass * ((w (k - 1 - j)).1 + (w (k - 1 - j)).2) * y j)
          ∘ fun ω k => z k q.1 q.2 ω := by
      funext q ω
      exact (sghmcPos_linear alpha scale B hB eps e he h μ z0 z θ q.1 q.2).2 k ω
    rw [hf]
    exact hz.elements.comp _ fun q => by fun_prop
  · intro i p _ hh hlt
    obtain ⟨hm, hl⟩ := sghmcPos_linear alpha scale B hB eps e he h μ z0 z θ i p
    have hpos : 0 < e ^ 2 * (c i p).mass * h i p := by have := hm; positivity
    have hst : e ^ 2 * (c i p).mass * h i p < 2 * (1 + (1 - alpha)) := by linarith
    set w := LinearChain.infl (e ^ 2 * (c i p).mass * h i p) (1 - alpha) with hw
    obtain ⟨t1, t2⟩ := LinearChain.infl_tendsto (by linarith) hpos hst
    refine GaussLaw.tendsto_normal (μ := fun k => μ i p + (w k).1 * ((c i p).pos - μ i p) + (w k).2 * (c i p).mom)
      (v := fun k => sghmcSd e alpha scale (c i p).mass ^ 2 * ∑ j ∈ Finset.range k, ((w j).1 + (w j).2) ^ 2) ?_ ?_ ?_ ?_
    · intro k
      have hf : (fun ω => (sghmcCoord alpha scale B eps h μ z0 z θ (B + k) i p ω).pos) = _ := funext (hl k)
      beta_reduce
      rw [hf]
      have := fun k => hz.meas k i p
      fun_prop
    · intro k
      have hf : (fun ω => (sghmcCoord alpha scale B eps h μ z0 z θ (B + k) i p ω).pos) = _ := funext (hl k)
      beta_reduce
      rw [hf, GaussLaw.law_sum (fun k => hz.meas k i p) (hz.steps i p) (fun k => hz.normal k i p), LinearChain.second_sq]
    · have := ((t1.mul_const ((c i p).pos - μ i p)).const_add (μ i p)).add (t2.mul_const (c i p).mom)
      simpa using this
    · have := (LinearChain.second_tendsto (by linarith : 1 - alpha < 1) hpos hst).const_mul (sghmcSd e alpha scale (c i p).mass ^ 2)
      convert this using 2
      unfold LinearChain.statVar
      rw [mul_div_assoc, show 1 + (1 - alpha) = 2 - alpha by ring, show 1 - (1 - alpha) = alpha by ring]
      congr 2
      ring

/-- **C94** The limit variance is `1 / (scale h)` up to two factors that tend to 1 with the stepsize, unless the noise is at its floor. -/
theorem C94_limit_variance (e alpha scale m h : ℝ) (he : 0 < e) (hα : 0 < alpha) (hs : 0 < scale) (hm : 0 < m) (hh : 0 < h)
    (hstable : e ^ 2 * m * h < 2 * (2 - alpha)) (hfloor : 1e-16 ≤ 2 * (e ^ 2 / scale) * alpha * m - (e ^ 2 / scale) ^ 2) :
    sghmcSd e alpha scale m ^ 2 * (2 - alpha) / (2 * alpha * (e ^ 2 * m * h) * (2 - alpha - e ^ 2 * m * h / 2))
      = 1 / (scale * h) * (1 - e ^ 2 / (2 * alpha * m * scale)) * ((2 - alpha) / (2 - alpha - e ^ 2 * m * h / 2)) := by
  have hr : (e / √scale) ^ 2 = e ^ 2 / scale := by rw [div_pow, Real.sq_sqrt hs.le]
  have hsd : sghmcSd e alpha scale m ^ 2 = 2 * (e ^ 2 / scale) * alpha * m - (e ^ 2 / scale) ^ 2 := by
    unfold sghmcSd
    simp only
    rw [show (e / √scale) ^ 4 = ((e / √scale) ^ 2) ^ 2 by ring, hr, max_eq_left hfloor, Real.sq_sqrt (by linarith)]
  rw [hsd]
  have h1 : 2 - alpha - e ^ 2 * m * h / 2 ≠ 0 := by linarith
  generalize 2 - alpha - e ^ 2 * m * h / 2 = d at h1
  field_simp

/-! ## The hypotheses are met -/

/-- No batches, stepsize always 1/10. -/
@[reducible] noncomputable def tenthFeeder : Feeder where
  Batch := Unit
  Sched := Unit
  batchNext _ := (.ok Dict.empty, ())
  schedNext _ := (.ok [.fin (1 / 10)], ())
  schedUpdate _ _ _ := (.ok (), ())

noncomputable def tenthScript (N : Nat) : Script tenthFeeder N where
  batch _ := none
  data _ := Dict.empty
  sched _ := ()
  eps _ := 1 / 10
  supplies _ _ := ⟨rfl, rfl⟩
  stepsize _ _ := ⟨(), rfl, fun _ _ => rfl⟩
  user _ _ _ _ := rfl

/-- The cost `2 Σ (θ - 5)²`. -/
noncomputable def bowlProblem (N : Nat) (size : Fin n → Nat) :
    Problem (size := size) (tenthScript N) (fun _ θ i p => .fin 4 * (θ i p - .fin 5)) (fun _ _ => 0) (fun _ => true) where
  γ _ := quadGrad (fun _ _ => 4) (fun _ _ => 5)
  c _ _ := 0
  grad_eq _ _ _ _ _ _ _ := by simp [quadGrad]
  cost_eq _ _ _ _ _ := rfl
  accepts _ _ _ _ := rfl

/-- There is such noise. -/
theorem exists_noise (size : Fin n → Nat) : ∃ (Ω : Type) (_ : MeasurableSpace Ω) (P : Measure Ω) (z : Nat → ∀ i, Pos size i → Ω → ℝ),
    Noise P z := by
  obtain ⟨Ω, mΩ, P, Z, h1, h2, h3, h4⟩ := exists_iid (Σ i, Pos size i) (Measure.infinitePi fun _ : Nat => gaussianReal 0 1)
  have hm : ∀ k (q : Σ i, Pos size i), Measurable fun ω => Z q ω k := fun k q => (measurable_pi_apply k).comp (h1 q)
  have hl : ∀ k (q : Σ i, Pos size i), P.map (fun ω => Z q ω k) = gaussianReal 0 1 := by
    intro k q
    have := Measure.map_map (μ := P) (g := fun y : Nat → ℝ => y k) (f := Z q) (measurable_pi_apply k) (h1 q)
    rw [(h2 q).map_eq] at this
    rw [show (fun ω => Z q ω k) = (fun y : Nat → ℝ => y k) ∘ Z q from rfl, ← this]
    exact (measurePreserving_eval_infinitePi (fun _ : Nat => gaussianReal 0 1) k).map_eq
  refine ⟨Ω, mΩ, P, fun k i p ω => Z ⟨i, p⟩ ω k, fun k i p => hm k ⟨i, p⟩, fun k i p => hl k ⟨i, p⟩, fun i p => ?_, h3⟩
  rw [iIndepFun_iff_map_fun_eq_infinitePi_map (fun k => hm k ⟨i, p⟩)]
  simp only [hl]
  exact (h2 ⟨i, p⟩).map_eq

/-- Three parameters, one burn-in step (so the mass matrix is `1 / (1 + 3e-16)`). -/
example (order : Nat → SGLD.Schedule (Fin 3)) (z0 : Nat → ∀ i, Pos ![1, 2, 3] i → ℝ) :
    ∃ (Ω : Type) (_ : MeasurableSpace Ω) (P : Measure Ω) (_ : IsProbabilityMeasure P) (z : Nat → ∀ i, Pos ![1, 2, 3] i → Ω → ℝ),
    let world : Ω → SGLDWorld ![1, 2, 3] := fun ω =>
      ⟨.fin 20, .fin 1, fun _ θ i p => .fin 4 * (θ i p - .fin 5), fun _ _ => 0, fun k i p => .fin (drawsAfter 1 z0 z ω k i p), order⟩
    ∃ X : Nat → ∀ i, Pos ![1, 2, 3] i → Ω → ℝ,
      (∀ N ω, ∃ cost : Nat → Fl,
        (calls (asIter (burnInNext (env tenthFeeder (world ω).graph fun _ => true) (1 : Nat) 3)) N
            (init none () ⟨SGLD.State.init fun _ _ => .fin 0, .fin 0, 0⟩)).1
          = (List.range N).map (fun k : Nat =>
              let arrays := List.ofFn fun i => flat fun p => .fin (X (k + 1) i p ω)
              .ok ((if (k : Int) < (1 : Nat) then .many arrays else unravel arrays), cost k)))
      ∧ ∀ i p, ∃ v : ℝ, |v - 1 / 80 / (1 - 0.2)| < 1e-3 ∧
        TendstoInDistribution (fun k => X (1 + k) i p) atTop (id : ℝ → ℝ) (fun _ => P) (gaussianReal 5 v.toNNReal) := by
  obtain ⟨Ω, mΩ, P, z, hz⟩ := exists_noise ![1, 2, 3]
  have hP := isProb hz 0 ⟨0, by decide⟩
  refine ⟨Ω, mΩ, P, hP, z, ?_⟩
  obtain ⟨X, h1, h2, h3, -, h4⟩ := C93_sgld_law
    (⟨.fin 20, .fin 1, fun _ θ i p => .fin 4 * (θ i p - .fin 5), fun _ _ => 0, fun _ _ _ => 0, order⟩ : SGLDWorld ![1, 2, 3]) (fun _ => true)
    tenthScript (fun N => bowlProblem N _) none () (fun _ => 1 / 10) (fun _ => rfl) (fun _ => rfl) (fun _ => rfl) (fun _ _ => 4) (fun _ _ => 5)
    (fun _ _ _ => rfl) 1 20 rfl one_pos rfl (by norm_num) 1 one_pos (1 / 10) (by norm_num) (fun _ _ => rfl) P z0 z hz
    (fun _ => order) (fun _ _ => 0) (.fin 0)
  refine ⟨X, h2, fun i p => ⟨_, ?_, h4 i p (by norm_num) ?_⟩⟩
  all_goals
    simp only [sgldVec, sgldStep, Coord.start, Coord.massUsed, after_false Nat.zero_lt_one, Bool.false_eq_true, if_false, Real.sqrt_one]
    norm_num [abs_lt]

example (order : Nat → SGHMC.Schedule (Fin 3)) (z0 : Nat → ∀ i, Pos ![1, 2, 3] i → ℝ) :
    ∃ (Ω : Type) (_ : MeasurableSpace Ω) (P : Measure Ω) (_ : IsProbabilityMeasure P) (z : Nat → ∀ i, Pos ![1, 2, 3] i → Ω → ℝ),
    let world : Ω → SGHMCWorld ![1, 2, 3] := fun ω =>
      ⟨.fin 20, .fin 0.05, fun _ θ i p => .fin 4 * (θ i p - .fin 5), fun _ _ => 0, fun k i p => .fin (drawsAfter 1 z0 z ω k i p), order⟩
    ∃ X : Nat → ∀ i, Pos ![1, 2, 3] i → Ω → ℝ,
      (∀ N ω, ∃ cost : Nat → Fl,
        (calls (asIter (burnInNext (env tenthFeeder (world ω).graph fun _ => true) (1 : Nat) 3)) N
            (init none () ⟨SGHMC.State.init fun _ _ => .fin 0, .fin 0, 0⟩)).1
          = (List.range N).map (fun k : Nat =>
              let arrays := List.ofFn fun i => flat fun p => .fin (X (k + 1) i p ω)
              .ok ((if (k : Int) < (1 : Nat) then .many arrays else unravel arrays), cost k)))
      ∧ ∀ i p, ∃ v : ℝ, |v - 1 / 80| < 1e-3 ∧
        TendstoInDistribution (fun k => X (1 + k) i p) atTop (id : ℝ → ℝ) (fun _ => P) (gaussianReal 5 v.toNNReal) := by
  obtain ⟨Ω, mΩ, P, z, hz⟩ := exists_noise ![1, 2, 3]
  have hP := isProb hz 0 ⟨0, by decide⟩
  refine ⟨Ω, mΩ, P, hP, z, ?_⟩
  obtain ⟨X, h1, h2, h3, -, h4⟩ := C94_sghmc_law
    (⟨.fin 20, .fin 0.05, fun _ θ i p => .fin 4 * (θ i p - .fin 5), fun _ _ => 0, fun _ _ _ => 0, order⟩ : SGHMCWorld ![1, 2, 3]) (fun _ => true)
    tenthScript (fun N => bowlProblem N _) none () (fun _ => 1 / 10) (fun _ => rfl) (fun _ => rfl) (fun _ => rfl) (fun _ _ => 4) (fun _ _ => 5)
    (fun _ _ _ => rfl) 0.05 20 rfl (by norm_num) rfl (by norm_num) 1 one_pos (1 / 10) (by norm_num) (fun _ _ => rfl) P z0 z hz
    (fun _ => order) (fun _ _ => 0) (.fin 0)
  have hm : ∀ i p, (sghmcVec (κ := Pos ![1, 2, 3]) 0.05 20 (1 : Nat) (fun _ => 1 / 10) (fun _ => quadGrad (fun _ _ => 4) (fun _ _ => 5)) z0
      (fun _ _ => 0) 1 i p).mass = 1 / (1 + 3e-16) := by
    intro i p
    simp only [sghmcVec, sghmcStep, Coord.start, Coord.massUsed, after_false Nat.zero_lt_one, Bool.false_eq_true, if_false, Real.sqrt_one]
  have hst : (1 / 10 : ℝ) ^ 2 * (1 / (1 + 3e-16)) * 4 < 2 * (2 - 0.05) := by norm_num
  refine ⟨X, h2, fun i p => ⟨_, ?_, h4 i p (by norm_num) ?_⟩⟩
  · simp only [hm]
    rw [C94_limit_variance _ _ _ _ _ (by norm_num) (by norm_num) (by norm_num) (by norm_num) (by norm_num) hst (by norm_num)]
    norm_num [abs_lt]
  · simp only [hm]
    exact hst

end PySGMCMC.Chain
