import Verif.Props.Posterior
import Verif.Lemmas.Contraction

/-!
# C119, C120: samples of a strongly convex cost stay near the minimum

The cost need not be quadratic.  What is asked of a gradient is `Bowl`: seen from the point `star` it is strongly monotone with constant
`μ` and cocoercive with constant `1 / L`, as gradients of `μ`-strongly convex and `L`-smooth functions are.
-/

namespace PySGMCMC.Chain
open SamplerBase BurnInStats Spec MeasureTheory ProbabilityTheory Contraction

variable {n : Nat} {size : Fin n → Nat} {Ω : Type} [MeasurableSpace Ω]

/-- A gradient that pulls towards `star`. -/
structure Bowl (γ : (∀ i, Pos size i → ℝ) → ∀ i, Pos size i → ℝ) (star : ∀ i, Pos size i → ℝ) (μ L : ℝ) : Prop where
  nonneg : 0 ≤ μ
  le : μ ≤ L
  pulls : ∀ θ, μ * ∑ q : Σ i, Pos size i, (θ q.1 q.2 - star q.1 q.2) ^ 2
    ≤ ∑ q : Σ i, Pos size i, (θ q.1 q.2 - star q.1 q.2) * (γ θ q.1 q.2 - γ star q.1 q.2)
  smooth : ∀ θ, ∑ q : Σ i, Pos size i, (γ θ q.1 q.2 - γ star q.1 q.2) ^ 2
    ≤ L * ∑ q : Σ i, Pos size i, (θ q.1 q.2 - star q.1 q.2) * (γ θ q.1 q.2 - γ star q.1 q.2)

/-- The squared length of a vector, every element divided by its inverse mass. -/
noncomputable def massSq (m v : ∀ i, Pos size i → ℝ) : ℝ := ∑ q : Σ i, Pos size i, v q.1 q.2 ^ 2 / m q.1 q.2

theorem massSq_energy (m v : ∀ i, Pos size i → ℝ) : massSq m v = energy (fun q : Σ i, Pos size i => 1 / m q.1 q.2) fun q => v q.1 q.2 := by
  unfold massSq energy
  exact Finset.sum_congr rfl fun q _ => by ring

/-- All draws are independent standard normal variables. -/
structure JointNoise (P : Measure Ω) (z : Nat → ∀ i, Pos size i → Ω → ℝ) : Prop where
  prob : IsProbabilityMeasure P
  meas : ∀ k i p, Measurable (z k i p)
  normal : ∀ k i p, P.map (z k i p) = gaussianReal 0 1
  indep : iIndepFun (fun q : Nat × (Σ i, Pos size i) => z q.1 q.2.1 q.2.2) P

/-! ## SGLD -/

theorem sgldVec_after (a scale : ℝ) {B : Nat} (hB : 0 < B) (eps : Nat → ℝ) (γ : Nat → (∀ i, Pos size i → ℝ) → ∀ i, Pos size i → ℝ)
    (z : Nat → ∀ i, Pos size i → ℝ) (θ : ∀ i, Pos size i → ℝ) :
    let c := sgldVec a scale B eps γ z θ
    (∀ i p, 0 < (c B i p).mass) ∧ ∀ k i p, B ≤ k → (c (k + 1) i p).pos
      = (c k i p).pos - eps k * (c B i p).mass * a * γ k (fun i p => (c k i p).pos) i p + sgldSd (eps k) a scale (c B i p).mass * z k i p := by
  intro c
  have hm : ∀ k i p, (c (B + k) i p).mass = (c B i p).mass := by
    intro k i p
    induction k with
    | zero => rfl
    | succ k ih =>
      rw [← Nat.add_assoc]
      simp only [c, sgldVec, sgldStep, Coord.massUsed, after_true hB, if_true]
      exact ih
  refine ⟨fun i p => ?_, fun k i p hk => ?_⟩
  · obtain ⟨b, rfl⟩ : ∃ b, B = b + 1 := ⟨B - 1, by omega⟩
    simp only [c, sgldVec, sgldStep, Coord.massUsed, after_false (Nat.lt_succ_self b)]
    have := Real.sqrt_nonneg (sgldVec a scale ((b + 1 : Nat) : Int) eps γ z θ b i p).v
    simp only [Bool.false_eq_true, if_false]
    positivity
  · obtain ⟨j, rfl⟩ : ∃ j, k = B + j := ⟨k - B, by omega⟩
    have := hm j i p
    simp only [c] at this
    simp only [c, sgldVec, sgldStep, Coord.massUsed, after_true hB, if_true, this]

/-- One step. -/
theorem sgld_near {a scale e : ℝ} {m x x' z star : ∀ i, Pos size i → ℝ} {γ : (∀ i, Pos size i → ℝ) → ∀ i, Pos size i → ℝ} {μ L lo hi : ℝ}
    (hx : ∀ i p, x' i p = x i p - e * m i p * a * γ x i p + sgldSd e a scale (m i p) * z i p) (ha0 : 0 ≤ a) (he : 0 ≤ e)
    (hbowl : Bowl γ star μ L) (hlo : 0 < lo) (hlh : ∀ i p, lo ≤ m i p ∧ m i p ≤ hi) (hL : e * a * hi * L ≤ 1) :
    √(massSq m fun i p => x' i p - star i p)
      ≤ √(1 - e * a * μ * lo) * √(massSq m fun i p => x i p - star i p)
        + √(massSq m fun i p => sgldSd e a scale (m i p) * z i p - e * m i p * a * γ star i p) := by
  have hm : ∀ i p, 0 < m i p := fun i p => lt_of_lt_of_le hlo (hlh i p).1
  have hw : ∀ q : Σ i, Pos size i, 0 ≤ 1 / m q.1 q.2 := fun q => (one_div_pos.mpr (hm q.1 q.2)).le
  have hc := gradient_step (J := Σ i, Pos size i) (Δ := fun q => x q.1 q.2 - star q.1 q.2) (δ := fun q => γ x q.1 q.2 - γ star q.1 q.2)
    (m := fun q => m q.1 q.2) (lo := lo) (hi := hi) (μ := μ) (L := L) (t := e * a)
    hlo (fun q => hlh q.1 q.2) hbowl.nonneg (mul_nonneg he ha0) (hbowl.pulls _) (hbowl.smooth _) hL
  have h2 := energy_add (J := Σ i, Pos size i) (w := fun q => 1 / m q.1 q.2) hw
    (fun q => x q.1 q.2 - star q.1 q.2 - e * a * m q.1 q.2 * (γ x q.1 q.2 - γ star q.1 q.2))
    (fun q => sgldSd e a scale (m q.1 q.2) * z q.1 q.2 - e * m q.1 q.2 * a * γ star q.1 q.2)
  rw [massSq_energy, massSq_energy, massSq_energy, ← Real.sqrt_mul' _ (energy_nonneg hw _)]
  refine le_trans (le_of_eq ?_) (h2.trans (add_le_add (Real.sqrt_le_sqrt hc) le_rfl))
  congr 2
  funext q
  rw [hx q.1 q.2]
  ring

/-- All steps, on average. -/
theorem sgld_average {a scale e : ℝ} {m xB star : ∀ i, Pos size i → ℝ} {γ : (∀ i, Pos size i → ℝ) → ∀ i, Pos size i → ℝ} {μ L lo hi : ℝ}
    {P : Measure Ω} {z : Nat → ∀ i, Pos size i → Ω → ℝ} (hz : JointNoise P z) {X : Nat → ∀ i, Pos size i → Ω → ℝ}
    (hX0 : ∀ ω i p, X 0 i p ω = xB i p)
    (hX : ∀ k ω i p, X (k + 1) i p ω = X k i p ω - e * m i p * a * γ (fun i p => X k i p ω) i p + sgldSd e a scale (m i p) * z k i p ω)
    (hmeas : Measurable γ) (ha0 : 0 < a) (he0 : 0 < e) (hs : 0 < scale) (hm : ∀ i p, 0 < m i p)
    (hbowl : Bowl γ star μ L) (hstar : γ star = 0) (hμ : 0 < μ) (hlo : 0 < lo) (hlohi : lo ≤ hi) (hlh : ∀ i p, lo ≤ m i p ∧ m i p ≤ hi)
    (hL : e * a * hi * L ≤ 1) (k : Nat) :
    Integrable (fun ω => massSq m fun i p => X k i p ω - star i p) P
      ∧ ∫ ω, massSq m (fun i p => X k i p ω - star i p) ∂P
        ≤ (1 - e * a * μ * lo) ^ k * massSq m (fun i p => xB i p - star i p) + 2 * (∑ i, size i : Nat) / ((scale + 3e-16) * μ * lo) := by
  have := hz.prob
  obtain ⟨t, ht⟩ : ∃ t, t = e * a := ⟨_, rfl⟩
  rw [← ht] at hL
  have ht0 : 0 < t := ht ▸ mul_pos he0 ha0
  have hLpos : 0 < L := lt_of_lt_of_le hμ hbowl.le
  have hr1 : t * μ * lo ≤ 1 := by
    refine le_trans ?_ hL
    calc t * μ * lo = t * (lo * μ) := by ring
      _ ≤ t * (hi * L) := mul_le_mul_of_nonneg_left (mul_le_mul hlohi hbowl.le hμ.le (hlo.le.trans hlohi)) ht0.le
      _ = t * hi * L := by ring
  have hr0 : 0 < t * μ * lo := by positivity
  have hΦ : Measurable fun (s : (Σ i, Pos size i) → ℝ) (q : Σ i, Pos size i) =>
      s q - t * m q.1 q.2 * γ (fun i p => s ⟨i, p⟩ + star i p) q.1 q.2 := by
    rw [measurable_pi_iff]
    intro q
    have h1 : Measurable fun (s : (Σ i, Pos size i) → ℝ) i p => s ⟨i, p⟩ + star i p :=
      measurable_pi_iff.mpr fun i => measurable_pi_iff.mpr fun p => (measurable_pi_apply _).add_const _
    exact (measurable_pi_apply q).sub ((measurable_pi_iff.mp (measurable_pi_iff.mp (hmeas.comp h1) q.1) q.2).const_mul _)
  have hE := expected_energy (P := P) (J := Σ i, Pos size i) (I := Σ i, Pos size i) hΦ
    (w := fun q => 1 / m q.1 q.2) (fun q => one_div_pos.mpr (hm q.1 q.2)) (ρ := 1 - t * μ * lo) (by linarith)
    (fun s => by
      have h1 := hbowl.pulls (fun i p => s ⟨i, p⟩ + star i p)
      have h2 := hbowl.smooth (fun i p => s ⟨i, p⟩ + star i p)
      simp only [hstar, Pi.zero_apply, sub_zero, add_sub_cancel_right] at h1 h2
      exact gradient_step hlo (fun q => hlh q.1 q.2) hμ.le ht0.le h1 h2 hL)
    (c := fun q => sgldSd e a scale (m q.1 q.2)) (π := id) (z := fun k q => z k q.1 q.2) (fun k q => hz.meas k q.1 q.2)
    (fun k q => hz.normal k q.1 q.2) hz.indep (s0 := fun q => xB q.1 q.2 - star q.1 q.2)
    (X := fun k ω q => X k q.1 q.2 ω - star q.1 q.2)
    (fun ω => by
      funext q
      rw [hX0])
    (fun k ω q => by
      rw [hX]
      simp only [sub_add_cancel, id_eq, ht]
      ring) k
  simp only [massSq_energy]
  rw [← ht]
  refine ⟨hE.2.1, hE.2.2.trans (add_le_add le_rfl ?_)⟩
  have hg := geom_le (ρ := 1 - t * μ * lo) (by linarith) (by linarith) k
  have hc : energy (fun q : Σ i, Pos size i => 1 / m q.1 q.2) (fun q => sgldSd e a scale (m q.1 q.2))
      = (∑ i, size i : Nat) * (2 * e * a / (scale + 3e-16)) := by
    unfold energy
    have h1 : ∀ q : Σ i, Pos size i, 1 / m q.1 q.2 * sgldSd e a scale (m q.1 q.2) ^ 2 = 2 * e * a / (scale + 3e-16) := by
      intro q
      have := hm q.1 q.2
      unfold sgldSd
      rw [Real.sq_sqrt (by positivity)]
      field_simp
    rw [Finset.sum_congr rfl fun q _ => h1 q, Finset.sum_const, nsmul_eq_mul, Finset.card_univ, Fintype.card_sigma]
    simp
  rw [hc]
  refine le_trans (mul_le_mul_of_nonneg_left hg (by positivity)) (le_of_eq ?_)
  rw [show 1 - (1 - t * μ * lo) = t * μ * lo by ring, ht]
  field_simp

/-- **C119** After burn-in every SGLD step brings the parameters closer to `star` by a constant factor, up to the noise of the step and
the gradient of the batch at `star`, for every run: any batches, stepsizes, draws and order of operations.  Distances are measured
with the mass matrix. -/
theorem C119_sgld_step {F : Feeder} {N : Nat} (S : Script F N) (W : SGLDWorld size) (ok : Dict Key Arr → Bool)
    (Pb : Problem S W.grad W.cost ok) (a scale : ℝ) (ha : W.a = .fin a) (ha0 : 0 ≤ a) (hsc : W.scaleGrad = .fin scale) (hs : 0 < scale)
    (z : Nat → ∀ i, Pos size i → ℝ) (hz : ∀ k i p, W.normal k i p = .fin (z k i p)) (B : Nat) (hB : 0 < B) (θ : ∀ i, Pos size i → ℝ)
    (eps0 : Fl) (hsep : ∀ k < N, ∀ i θ θ', θ i = θ' i → Pb.γ k θ i = Pb.γ k θ' i) :
    ∃ (X : Nat → ∀ i, Pos size i → ℝ) (m : ∀ i, Pos size i → ℝ) (cost : Nat → Fl),
      (calls (asIter (burnInNext (env F W.graph ok) B n)) N
          (init (S.batch 0) (S.sched 0) ⟨SGLD.State.init fun i p => .fin (θ i p), eps0, 0⟩)).1
        = (List.range N).map (fun k : Nat =>
            let arrays := List.ofFn fun i => flat fun p => .fin (X (k + 1) i p)
            .ok ((if (k : Int) < B then .many arrays else unravel arrays), cost k))
      ∧ (∀ i p, m i p = (sgldVec a scale B S.eps Pb.γ z θ B i p).mass ∧ 0 < m i p)
      ∧ ∀ k star μ L lo hi, B ≤ k → Bowl (Pb.γ k) star μ L → 0 < lo → (∀ i p, lo ≤ m i p ∧ m i p ≤ hi) → 0 ≤ S.eps k →
          S.eps k * a * hi * L ≤ 1 →
          √(massSq m fun i p => X (k + 1) i p - star i p)
            ≤ √(1 - S.eps k * a * μ * lo) * √(massSq m fun i p => X k i p - star i p)
              + √(massSq m fun i p => sgldSd (S.eps k) a scale (m i p) * z k i p - S.eps k * m i p * a * Pb.γ k star i p) := by
  obtain ⟨cost, h⟩ := C89_sgld_deterministic S W ok Pb a scale ha hsc hs z hz B θ eps0 hsep
  obtain ⟨hm, hstep⟩ := sgldVec_after a scale hB S.eps Pb.γ z θ
  refine ⟨fun k i p => (sgldVec a scale B S.eps Pb.γ z θ k i p).pos, fun i p => (sgldVec a scale B S.eps Pb.γ z θ B i p).mass, cost, h,
    fun i p => ⟨rfl, hm i p⟩, ?_⟩
  intro k star μ L lo hi hk hbowl hlo hlh he hL
  exact sgld_near (fun i p => hstep k i p hk) ha0 he hbowl hlo hlh hL

/-- **C119** If the gradient vanishes at `star` and the stepsize `e` is constant after burn-in and small enough, then on average over
the independent standard normal draws the squared distance from `star` decays geometrically to at most
`2 d / ((scale + 3e-16) μ lo)` for `d` numbers in all parameters, whatever the position after burn-in. -/
theorem C119_sgld_moment {F : Feeder} (W : SGLDWorld size) (ok : Dict Key Arr → Bool) (S : ∀ N, Script F N)
    (Pb : ∀ N, Problem (S N) W.grad W.cost ok) (b0 : Option F.Batch) (s0 : F.Sched) (eps : Nat → ℝ)
    (hb : ∀ N, (S N).batch 0 = b0) (hs0 : ∀ N, (S N).sched 0 = s0) (heps : ∀ N, (S N).eps = eps)
    (γ : (∀ i, Pos size i → ℝ) → ∀ i, Pos size i → ℝ) (hγ : ∀ N k θ, (Pb N).γ k θ = γ θ) (hmeas : Measurable γ)
    (hsep : ∀ i θ θ', θ i = θ' i → γ θ i = γ θ' i)
    (a scale : ℝ) (ha : W.a = .fin a) (ha0 : 0 < a) (hsc : W.scaleGrad = .fin scale) (hs : 0 < scale)
    (B : Nat) (hB : 0 < B) (e : ℝ) (he0 : 0 < e) (he : ∀ k, B ≤ k → eps k = e)
    (P : Measure Ω) (z0 : Nat → ∀ i, Pos size i → ℝ) (z : Nat → ∀ i, Pos size i → Ω → ℝ) (hz : JointNoise P z)
    (order : Ω → Nat → SGLD.Schedule (Fin n)) (θ : ∀ i, Pos size i → ℝ) (eps0 : Fl) :
    let world : Ω → SGLDWorld size := fun ω =>
      { W with normal := fun k i p => .fin (drawsAfter B z0 z ω k i p), order := order ω }
    let atEnd := sgldVec a scale B eps (fun _ => γ) z0 θ B
    let m := fun i p => (atEnd i p).mass
    ∃ X : Nat → ∀ i, Pos size i → Ω → ℝ,
      (∀ i p, 0 < m i p)
      ∧ (∀ N ω, ∃ cost : Nat → Fl,
        (calls (asIter (burnInNext (env F (world ω).graph ok) B n)) N (init b0 s0 ⟨SGLD.State.init fun i p => .fin (θ i p), eps0, 0⟩)).1
          = (List.range N).map (fun k : Nat =>
              let arrays := List.ofFn fun i => flat fun p => .fin (X (k + 1) i p ω)
              .ok ((if (k : Int) < B then .many arrays else unravel arrays), cost k)))
      ∧ ∀ star μ L lo hi, Bowl γ star μ L → γ star = 0 → 0 < μ → 0 < lo → lo ≤ hi → (∀ i p, lo ≤ m i p ∧ m i p ≤ hi) → e * a * hi * L ≤ 1 →
        ∀ k, Integrable (fun ω => massSq m fun i p => X (B + k) i p ω - star i p) P
          ∧ ∫ ω, massSq m (fun i p => X (B + k) i p ω - star i p) ∂P
            ≤ (1 - e * a * μ * lo) ^ k * massSq m (fun i p => (atEnd i p).pos - star i p)
              + 2 * (∑ i, size i : Nat) / ((scale + 3e-16) * μ * lo) := by
  intro world atEnd m
  have hq : ∀ N, (Pb N).γ = fun _ => γ := by intro N; funext k θ; exact hγ N k θ
  have hm := fun i p => (sgldVec_after a scale hB eps (fun _ => γ) z0 θ).1 i p
  have h00 : ∀ ω, sgldVec a scale B eps (fun _ => γ) (drawsAfter B z0 z ω) θ B = atEnd :=
    fun ω => sgldVec_congr a scale B eps _ θ B fun j hj => drawsAfter_lt hj
  refine ⟨fun k i p ω => (sgldVec a scale B eps (fun _ => γ) (drawsAfter B z0 z ω) θ k i p).pos, hm, ?_, ?_⟩
  · intro N ω
    obtain ⟨cost, hcost⟩ := C89_sgld_deterministic (S N) (world ω) ok
      ⟨(Pb N).γ, (Pb N).c, (Pb N).grad_eq, (Pb N).cost_eq, (Pb N).accepts⟩ a scale ha hsc hs (drawsAfter B z0 z ω) (fun _ _ _ => rfl) B θ eps0
      (fun k _ i θ θ' hθ => by simp only [hγ]; exact hsep i θ θ' hθ)
    refine ⟨cost, ?_⟩
    rw [hb, hs0] at hcost
    rw [hcost]
    simp only [heps, hq]
  · intro star μ L lo hi hbowl hstar hμ hlo hlohi hlh hL k
    refine sgld_average (xB := fun i p => (atEnd i p).pos) (m := m) hz
      (X := fun k i p ω => (sgldVec a scale B eps (fun _ => γ) (drawsAfter B z0 z ω) θ (B + k) i p).pos)
      (fun ω i p => ?_) (fun k ω i p => ?_) hmeas ha0 he0 hs hm hbowl hstar hμ hlo hlohi hlh hL k
    · rw [Nat.add_zero, h00 ω]
    · have := (sgldVec_after a scale hB eps (fun _ => γ) (drawsAfter B z0 z ω) θ).2 (B + k) i p (Nat.le_add_right B k)
      rw [← Nat.add_assoc, this, he _ (Nat.le_add_right B k), drawsAfter_add, h00 ω]

/-! ## SGHMC -/

theorem sghmcVec_after (alpha scale : ℝ) {B : Nat} (hB : 0 < B) (eps : Nat → ℝ) (γ : Nat → (∀ i, Pos size i → ℝ) → ∀ i, Pos size i → ℝ)
    (z : Nat → ∀ i, Pos size i → ℝ) (θ : ∀ i, Pos size i → ℝ) :
    let c := sghmcVec alpha scale B eps γ z θ
    (∀ i p, 0 < (c B i p).mass) ∧ ∀ k i p, B ≤ k → (c (k + 1) i p).pos = (c k i p).pos + (c (k + 1) i p).mom ∧ (c (k + 1) i p).mom
      = (1 - alpha) * (c k i p).mom - eps k ^ 2 * (c B i p).mass * γ k (fun i p => (c k i p).pos) i p
        + sghmcSd (eps k) alpha scale (c B i p).mass * z k i p := by
  intro c
  have hm : ∀ k i p, (c (B + k) i p).mass = (c B i p).mass := by
    intro k i p
    induction k with
    | zero => rfl
    | succ k ih =>
      rw [← Nat.add_assoc]
      simp only [c, sghmcVec, sghmcStep, Coord.massUsed, after_true hB, if_true]
      exact ih
  refine ⟨fun i p => ?_, fun k i p hk => ⟨?_, ?_⟩⟩
  · obtain ⟨b, rfl⟩ : ∃ b, B = b + 1 := ⟨B - 1, by omega⟩
    simp only [c, sghmcVec, sghmcStep, Coord.massUsed, after_false (Nat.lt_succ_self b)]
    have := Real.sqrt_nonneg (sghmcVec alpha scale ((b + 1 : Nat) : Int) eps γ z θ b i p).v
    simp only [Bool.false_eq_true, if_false]
    positivity
  · simp only [c, sghmcVec, sghmcStep]
  · obtain ⟨j, rfl⟩ : ∃ j, k = B + j := ⟨k - B, by omega⟩
    have := hm j i p
    simp only [c] at this
    simp only [c, sghmcVec, sghmcStep, Coord.massUsed, after_true hB, if_true, this]
    ring

/-- Distance of positions `x` with momenta `v` from `star`: where the chain would come to rest without forces, and how far that is. -/
noncomputable def restSq (alpha : ℝ) (m star x v : ∀ i, Pos size i → ℝ) : ℝ :=
  massSq m (fun i p => x i p + (1 - alpha) / alpha * v i p - star i p) + massSq m fun i p => (1 - alpha) / alpha * v i p

/-- The two parts of `restSq`, in one vector. -/
noncomputable def restVec (alpha : ℝ) (star x v : ∀ i, Pos size i → ℝ) : (Σ i, Pos size i) ⊕ (Σ i, Pos size i) → ℝ
  | .inl q => x q.1 q.2 + (1 - alpha) / alpha * v q.1 q.2 - star q.1 q.2
  | .inr q => (1 - alpha) / alpha * v q.1 q.2

/-- The weights. -/
noncomputable def restW (m : ∀ i, Pos size i → ℝ) : (Σ i, Pos size i) ⊕ (Σ i, Pos size i) → ℝ
  | .inl q => 1 / m q.1 q.2
  | .inr q => 1 / m q.1 q.2

theorem energy_sum (m : ∀ i, Pos size i → ℝ) (s : (Σ i, Pos size i) ⊕ (Σ i, Pos size i) → ℝ) :
    energy (restW m) s = energy (fun q : Σ i, Pos size i => 1 / m q.1 q.2) (fun q => s (.inl q))
      + energy (fun q : Σ i, Pos size i => 1 / m q.1 q.2) fun q => s (.inr q) := by
  unfold energy
  rw [Fintype.sum_sum_type]
  rfl

theorem restSq_energy (alpha : ℝ) (m star x v : ∀ i, Pos size i → ℝ) : restSq alpha m star x v = energy (restW m) (restVec alpha star x v) := by
  rw [energy_sum]
  unfold restSq
  rw [massSq_energy, massSq_energy]
  rfl

/-- The positions are not farther away than that. -/
theorem pos_le_restSq (alpha : ℝ) {m : ∀ i, Pos size i → ℝ} (hm : ∀ i p, 0 < m i p) (star x v : ∀ i, Pos size i → ℝ) :
    massSq m (fun i p => x i p - star i p) ≤ 2 * restSq alpha m star x v := by
  unfold restSq massSq
  rw [mul_add, Finset.mul_sum, Finset.mul_sum, ← Finset.sum_add_distrib]
  refine Finset.sum_le_sum fun q _ => ?_
  have := hm q.1 q.2
  beta_reduce
  generalize (1 - alpha) / alpha * v q.1 q.2 = u
  generalize x q.1 q.2 = y
  generalize star q.1 q.2 = s
  rw [← mul_div_assoc, ← mul_div_assoc, ← add_div]
  refine div_le_div_of_nonneg_right ?_ this.le
  nlinarith [sq_nonneg (y + 2 * u - s)]

/-- The noiseless step. -/
theorem rest_step {alpha e : ℝ} {m : ∀ i, Pos size i → ℝ} {g : (Σ i, Pos size i) → ℝ}
    {s : (Σ i, Pos size i) ⊕ (Σ i, Pos size i) → ℝ} {μ L lo hi : ℝ} (hα : 0 < alpha) (hα1 : alpha ≤ 1) (hμ : 0 ≤ μ) (hμL : μ ≤ L)
    (hlo : 0 < lo) (hlh : ∀ i p, lo ≤ m i p ∧ m i p ≤ hi)
    (hL : e ^ 2 / alpha * hi * L * (2 + 8 / (1 - (1 - alpha) ^ 2)) ≤ 1)
    (h1 : μ * ∑ q, (s (.inl q) - s (.inr q)) ^ 2 ≤ ∑ q, (s (.inl q) - s (.inr q)) * g q)
    (h2 : ∑ q, g q ^ 2 ≤ L * ∑ q, (s (.inl q) - s (.inr q)) * g q) :
    energy (restW m) (Sum.elim (fun q => s (.inl q) - e ^ 2 / alpha * m q.1 q.2 * g q)
        fun q => (1 - alpha) * s (.inr q) - (1 - alpha) * (e ^ 2 / alpha) * m q.1 q.2 * g q)
      ≤ (1 - e ^ 2 / alpha * μ * lo / 2) * energy (restW m) s := by
  rw [energy_sum, energy_sum]
  exact momentum_step (J := Σ i, Pos size i) hlo (fun q => hlh q.1 q.2) hμ (by positivity) (by linarith) (by linarith) h1 h2 hμL hL

/-- One step. -/
theorem sghmc_near {alpha scale e : ℝ} {m x x' v v' z star : ∀ i, Pos size i → ℝ} {γ : (∀ i, Pos size i → ℝ) → ∀ i, Pos size i → ℝ}
    {μ L lo hi : ℝ} (hx : ∀ i p, x' i p = x i p + v' i p)
    (hv : ∀ i p, v' i p = (1 - alpha) * v i p - e ^ 2 * m i p * γ x i p + sghmcSd e alpha scale (m i p) * z i p)
    (hα : 0 < alpha) (hα1 : alpha ≤ 1) (hbowl : Bowl γ star μ L) (hlo : 0 < lo) (hlh : ∀ i p, lo ≤ m i p ∧ m i p ≤ hi)
    (hL : e ^ 2 / alpha * hi * L * (2 + 8 / (1 - (1 - alpha) ^ 2)) ≤ 1) :
    √(restSq alpha m star x' v')
      ≤ √(1 - e ^ 2 / alpha * μ * lo / 2) * √(restSq alpha m star x v)
        + √((1 + (1 - alpha) ^ 2) / alpha ^ 2)
          * √(massSq m fun i p => sghmcSd e alpha scale (m i p) * z i p - e ^ 2 * m i p * γ star i p) := by
  have hm : ∀ i p, 0 < m i p := fun i p => lt_of_lt_of_le hlo (hlh i p).1
  have hw : ∀ q, 0 ≤ restW m q := by
    rintro (q | q) <;> exact (one_div_pos.mpr (hm q.1 q.2)).le
  have hd : ∀ q : Σ i, Pos size i, restVec alpha star x v (.inl q) - restVec alpha star x v (.inr q) = x q.1 q.2 - star q.1 q.2 := by
    intro q
    simp only [restVec]
    ring
  have hc := rest_step (g := fun q => γ x q.1 q.2 - γ star q.1 q.2) (s := restVec alpha star x v) hα hα1 hbowl.nonneg
    hbowl.le hlo hlh hL (by simp only [hd]; exact hbowl.pulls x) (by simp only [hd]; exact hbowl.smooth x)
  obtain ⟨noise, hn⟩ : ∃ noise : ∀ i, Pos size i → ℝ,
    noise = fun i p => sghmcSd e alpha scale (m i p) * z i p - e ^ 2 * m i p * γ star i p := ⟨_, rfl⟩
  have h2 := energy_add (w := restW m) hw (Sum.elim (fun q => restVec alpha star x v (.inl q) - e ^ 2 / alpha * m q.1 q.2
      * (γ x q.1 q.2 - γ star q.1 q.2)) fun q => (1 - alpha) * restVec alpha star x v (.inr q) - (1 - alpha) * (e ^ 2 / alpha)
      * m q.1 q.2 * (γ x q.1 q.2 - γ star q.1 q.2))
    (Sum.elim (fun q => 1 / alpha * noise q.1 q.2) fun q => (1 - alpha) / alpha * noise q.1 q.2)
  have h3 : energy (restW m) (Sum.elim (fun q => 1 / alpha * noise q.1 q.2) fun q => (1 - alpha) / alpha * noise q.1 q.2)
      = (1 + (1 - alpha) ^ 2) / alpha ^ 2 * massSq m noise := by
    rw [energy_sum, massSq_energy]
    unfold energy
    rw [Finset.mul_sum, ← Finset.sum_add_distrib]
    refine Finset.sum_congr rfl fun q _ => ?_
    simp only [Sum.elim_inl, Sum.elim_inr]
    ring
  rw [h3] at h2
  rw [← hn, restSq_energy, restSq_energy, ← Real.sqrt_mul' _ (energy_nonneg hw _), ← Real.sqrt_mul (by positivity)]
  refine le_trans (le_of_eq ?_) (h2.trans (add_le_add (Real.sqrt_le_sqrt hc) le_rfl))
  congr 2
  funext q
  rcases q with q | q
  · simp only [restVec, Sum.elim_inl, hx, hv, hn]
    field_simp
    ring
  · simp only [restVec, Sum.elim_inr, hv, hn]
    field_simp
    ring

/-- All steps, on average. -/
theorem sghmc_average {alpha scale e : ℝ} {m xB vB star : ∀ i, Pos size i → ℝ} {γ : (∀ i, Pos size i → ℝ) → ∀ i, Pos size i → ℝ}
    {μ L lo hi : ℝ} {P : Measure Ω} {z : Nat → ∀ i, Pos size i → Ω → ℝ} (hz : JointNoise P z) {X V : Nat → ∀ i, Pos size i → Ω → ℝ}
    (hX0 : ∀ ω i p, X 0 i p ω = xB i p) (hV0 : ∀ ω i p, V 0 i p ω = vB i p)
    (hX : ∀ k ω i p, X (k + 1) i p ω = X k i p ω + V (k + 1) i p ω)
    (hV : ∀ k ω i p, V (k + 1) i p ω = (1 - alpha) * V k i p ω - e ^ 2 * m i p * γ (fun i p => X k i p ω) i p
      + sghmcSd e alpha scale (m i p) * z k i p ω)
    (hmeas : Measurable γ) (hα : 0 < alpha) (hα1 : alpha ≤ 1) (he0 : 0 < e) (hm : ∀ i p, 0 < m i p)
    (hbowl : Bowl γ star μ L) (hstar : γ star = 0) (hμ : 0 < μ) (hlo : 0 < lo) (hlohi : lo ≤ hi) (hlh : ∀ i p, lo ≤ m i p ∧ m i p ≤ hi)
    (hL : e ^ 2 / alpha * hi * L * (2 + 8 / (1 - (1 - alpha) ^ 2)) ≤ 1) (k : Nat) :
    Integrable (fun ω => massSq m fun i p => X k i p ω - star i p) P
      ∧ ∫ ω, massSq m (fun i p => X k i p ω - star i p) ∂P
        ≤ 2 * (1 - e ^ 2 / alpha * μ * lo / 2) ^ k * restSq alpha m star xB vB
          + 4 * (1 + (1 - alpha) ^ 2) / (alpha * e ^ 2 * μ * lo) * massSq m fun i p => sghmcSd e alpha scale (m i p) := by
  have := hz.prob
  obtain ⟨b, hb⟩ : ∃ b, b = e ^ 2 / alpha := ⟨_, rfl⟩
  have hb0 : 0 < b := by rw [hb]; positivity
  have hLpos : 0 < L := lt_of_lt_of_le hμ hbowl.le
  have hhi : 0 < hi := lt_of_lt_of_le hlo hlohi
  have hr1 : b * μ * lo ≤ 1 := by
    have h1 : b * μ * lo ≤ b * hi * L := by
      calc b * μ * lo = b * (lo * μ) := by ring
        _ ≤ b * (hi * L) := mul_le_mul_of_nonneg_left (mul_le_mul hlohi hbowl.le hμ.le hhi.le) hb0.le
        _ = b * hi * L := by ring
    have h2 : 0 < 8 / (1 - (1 - alpha) ^ 2) := by
      refine div_pos (by norm_num) ?_
      nlinarith
    have h3 : 0 < b * hi * L := by positivity
    rw [← hb] at hL
    nlinarith
  have hr0 : 0 < b * μ * lo := by positivity
  have hwq : ∀ q : Σ i, Pos size i, 0 ≤ 1 / m q.1 q.2 := fun q => (one_div_pos.mpr (hm q.1 q.2)).le
  have hw : ∀ q, 0 < restW m q := by
    rintro (q | q) <;> exact one_div_pos.mpr (hm q.1 q.2)
  have h1 : Measurable fun (s : (Σ i, Pos size i) ⊕ (Σ i, Pos size i) → ℝ) i p => s (.inl ⟨i, p⟩) - s (.inr ⟨i, p⟩) + star i p :=
    measurable_pi_iff.mpr fun i => measurable_pi_iff.mpr fun p =>
      (Measurable.sub (f := fun s : (Σ i, Pos size i) ⊕ (Σ i, Pos size i) → ℝ => s (.inl ⟨i, p⟩)) (measurable_pi_apply _)
        (measurable_pi_apply _)).add_const _
  have h2 : ∀ i p, Measurable fun s : (Σ i, Pos size i) ⊕ (Σ i, Pos size i) → ℝ =>
      γ (fun i p => s (.inl ⟨i, p⟩) - s (.inr ⟨i, p⟩) + star i p) i p :=
    fun i p => measurable_pi_iff.mp (measurable_pi_iff.mp (hmeas.comp h1) i) p
  have hΦ : Measurable fun (s : (Σ i, Pos size i) ⊕ (Σ i, Pos size i) → ℝ) =>
      (Sum.elim (fun q => s (.inl q) - e ^ 2 / alpha * m q.1 q.2 * γ (fun i p => s (.inl ⟨i, p⟩) - s (.inr ⟨i, p⟩) + star i p) q.1 q.2)
        fun q => (1 - alpha) * s (.inr q) - (1 - alpha) * (e ^ 2 / alpha) * m q.1 q.2
          * γ (fun i p => s (.inl ⟨i, p⟩) - s (.inr ⟨i, p⟩) + star i p) q.1 q.2 : (Σ i, Pos size i) ⊕ (Σ i, Pos size i) → ℝ) := by
    rw [measurable_pi_iff]
    rintro (q | q)
    · exact (measurable_pi_apply _).sub ((h2 q.1 q.2).const_mul _)
    · exact ((measurable_pi_apply _).const_mul _).sub ((h2 q.1 q.2).const_mul _)
  have hE := expected_energy (P := P) (J := (Σ i, Pos size i) ⊕ (Σ i, Pos size i)) (I := Σ i, Pos size i) hΦ
    (w := restW m) hw (ρ := 1 - e ^ 2 / alpha * μ * lo / 2) (by rw [← hb]; linarith)
    (fun s => by
      have h1 := hbowl.pulls (fun i p => s (.inl ⟨i, p⟩) - s (.inr ⟨i, p⟩) + star i p)
      have h2 := hbowl.smooth (fun i p => s (.inl ⟨i, p⟩) - s (.inr ⟨i, p⟩) + star i p)
      simp only [hstar, Pi.zero_apply, sub_zero, add_sub_cancel_right] at h1 h2
      exact rest_step hα hα1 hμ.le hbowl.le hlo hlh hL h1 h2)
    (c := Sum.elim (fun q => 1 / alpha * sghmcSd e alpha scale (m q.1 q.2)) fun q => (1 - alpha) / alpha * sghmcSd e alpha scale (m q.1 q.2))
    (π := Sum.elim id id) (z := fun k q => z k q.1 q.2) (fun k q => hz.meas k q.1 q.2)
    (fun k q => hz.normal k q.1 q.2) hz.indep (s0 := restVec alpha star xB vB)
    (X := fun k ω => restVec alpha star (fun i p => X k i p ω) fun i p => V k i p ω)
    (fun ω => by
      funext q
      rcases q with q | q <;> simp only [restVec, hX0, hV0])
    (fun k ω q => by
      have hd : ∀ i p, restVec alpha star (fun i p => X k i p ω) (fun i p => V k i p ω) (.inl ⟨i, p⟩)
          - restVec alpha star (fun i p => X k i p ω) (fun i p => V k i p ω) (.inr ⟨i, p⟩) + star i p = X k i p ω := by
        intro i p
        simp only [restVec]
        ring
      rcases q with q | q
      · simp only [Sum.elim_inl, hd]
        simp only [restVec, hX, hV, id_eq]
        field_simp
        ring
      · simp only [Sum.elim_inr, hd]
        simp only [restVec, hV, id_eq]
        field_simp) k
  have hle : ∀ ω, massSq m (fun i p => X k i p ω - star i p)
      ≤ 2 * energy (restW m) (restVec alpha star (fun i p => X k i p ω) fun i p => V k i p ω) := by
    intro ω
    rw [← restSq_energy]
    exact pos_le_restSq alpha hm star _ _
  have hnn : ∀ ω, 0 ≤ massSq m (fun i p => X k i p ω - star i p) := by
    intro ω
    rw [massSq_energy]
    exact energy_nonneg hwq _
  have hi2 := hE.2.1.const_mul 2
  have hint : Integrable (fun ω => massSq m fun i p => X k i p ω - star i p) P := by
    refine Integrable.mono' hi2 ?_ (ae_of_all _ fun ω => ?_)
    · have hxm : ∀ i p, Measurable (X k i p) := by
        intro i p
        have h4 := (measurable_pi_iff.mp hE.1 (.inl ⟨i, p⟩)).sub (measurable_pi_iff.mp hE.1 (.inr ⟨i, p⟩))
        have h5 := h4.add_const (star i p)
        have h6 : X k i p = fun ω => ((fun ω => restVec alpha star (fun i p => X k i p ω) (fun i p => V k i p ω) (.inl ⟨i, p⟩))
            - fun ω => restVec alpha star (fun i p => X k i p ω) (fun i p => V k i p ω) (.inr ⟨i, p⟩)) ω + star i p := by
          funext ω
          simp only [restVec, Pi.sub_apply]
          ring
        rw [h6]
        exact h5
      unfold massSq
      exact (Finset.measurable_fun_sum _ fun q _ => (((hxm q.1 q.2).sub_const _).pow_const 2).div_const _).aestronglyMeasurable
    · rw [Real.norm_eq_abs, abs_of_nonneg (hnn ω)]
      exact hle ω
  refine ⟨hint, (integral_mono hint hi2 hle).trans ?_⟩
  rw [integral_const_mul, restSq_energy, mul_assoc 2, show ∀ a b c d : ℝ, 2 * a + 4 * b / c * d = 2 * (a + 2 * b / c * d) by intros; ring]
  refine mul_le_mul_of_nonneg_left (hE.2.2.trans (add_le_add le_rfl ?_)) (by norm_num)
  have hg := geom_le (ρ := 1 - e ^ 2 / alpha * μ * lo / 2) (by rw [← hb]; linarith) (by rw [← hb]; linarith) k
  have h3 : energy (restW m) (Sum.elim (fun q => 1 / alpha * sghmcSd e alpha scale (m q.1 q.2))
        fun q => (1 - alpha) / alpha * sghmcSd e alpha scale (m q.1 q.2))
      = (1 + (1 - alpha) ^ 2) / alpha ^ 2 * massSq m fun i p => sghmcSd e alpha scale (m i p) := by
    rw [energy_sum, massSq_energy]
    unfold energy
    rw [Finset.mul_sum, ← Finset.sum_add_distrib]
    refine Finset.sum_congr rfl fun q _ => ?_
    simp only [Sum.elim_inl, Sum.elim_inr]
    ring
  have hM : 0 ≤ massSq m fun i p => sghmcSd e alpha scale (m i p) := by
    rw [massSq_energy]
    exact energy_nonneg hwq _
  rw [h3]
  refine le_trans (mul_le_mul_of_nonneg_left hg (by positivity)) (le_of_eq ?_)
  rw [show 1 - (1 - e ^ 2 / alpha * μ * lo / 2) = e ^ 2 / alpha * μ * lo / 2 by ring]
  field_simp

/-- **C120** After burn-in every SGHMC step with momentum decay `α ≤ 1` brings parameters and momenta closer to rest at `star` by a
constant factor, up to the noise of the step and the gradient of the batch at `star`, for every run. -/
theorem C120_sghmc_step {F : Feeder} {N : Nat} (S : Script F N) (W : SGHMCWorld size) (ok : Dict Key Arr → Bool)
    (Pb : Problem S W.grad W.cost ok) (alpha scale : ℝ) (hα : W.mdecay = .fin alpha) (hα0 : 0 < alpha) (hα1 : alpha ≤ 1)
    (hsc : W.scaleGrad = .fin scale) (hs : 0 < scale)
    (z : Nat → ∀ i, Pos size i → ℝ) (hz : ∀ k i p, W.normal k i p = .fin (z k i p)) (B : Nat) (hB : 0 < B) (θ : ∀ i, Pos size i → ℝ)
    (eps0 : Fl) (hsep : ∀ k < N, ∀ i θ θ', θ i = θ' i → Pb.γ k θ i = Pb.γ k θ' i) :
    ∃ (X V : Nat → ∀ i, Pos size i → ℝ) (m : ∀ i, Pos size i → ℝ) (cost : Nat → Fl),
      (calls (asIter (burnInNext (env F W.graph ok) B n)) N
          (init (S.batch 0) (S.sched 0) ⟨SGHMC.State.init fun i p => .fin (θ i p), eps0, 0⟩)).1
        = (List.range N).map (fun k : Nat =>
            let arrays := List.ofFn fun i => flat fun p => .fin (X (k + 1) i p)
            .ok ((if (k : Int) < B then .many arrays else unravel arrays), cost k))
      ∧ (∀ i p, m i p = (sghmcVec alpha scale B S.eps Pb.γ z θ B i p).mass ∧ 0 < m i p)
      ∧ (∀ k i p, X (k + 1) i p = X k i p + V (k + 1) i p)
      ∧ ∀ k star μ L lo hi, B ≤ k → Bowl (Pb.γ k) star μ L → 0 < lo → (∀ i p, lo ≤ m i p ∧ m i p ≤ hi) →
          S.eps k ^ 2 / alpha * hi * L * (2 + 8 / (1 - (1 - alpha) ^ 2)) ≤ 1 →
          √(restSq alpha m star (X (k + 1)) (V (k + 1)))
            ≤ √(1 - S.eps k ^ 2 / alpha * μ * lo / 2) * √(restSq alpha m star (X k) (V k))
              + √((1 + (1 - alpha) ^ 2) / alpha ^ 2)
                * √(massSq m fun i p => sghmcSd (S.eps k) alpha scale (m i p) * z k i p - S.eps k ^ 2 * m i p * Pb.γ k star i p) := by
  obtain ⟨cost, h⟩ := C88_sghmc_deterministic S W ok Pb alpha scale hα hsc hs z hz B θ eps0 hsep
  obtain ⟨hm, hstep⟩ := sghmcVec_after alpha scale hB S.eps Pb.γ z θ
  refine ⟨fun k i p => (sghmcVec alpha scale B S.eps Pb.γ z θ k i p).pos, fun k i p => (sghmcVec alpha scale B S.eps Pb.γ z θ k i p).mom,
    fun i p => (sghmcVec alpha scale B S.eps Pb.γ z θ B i p).mass, cost, h, fun i p => ⟨rfl, hm i p⟩,
    fun k i p => by simp only [sghmcVec, sghmcStep], ?_⟩
  intro k star μ L lo hi hk hbowl hlo hlh hL
  exact sghmc_near (fun i p => (hstep k i p hk).1) (fun i p => (hstep k i p hk).2) hα0 hα1 hbowl hlo hlh hL

/-- **C120** If the gradient vanishes at `star` and the stepsize `e` is constant after burn-in and small enough, then on average over
the independent standard normal draws the squared distance of the samples from `star` decays geometrically to at most a multiple of
the noise. -/
theorem C120_sghmc_moment {F : Feeder} (W : SGHMCWorld size) (ok : Dict Key Arr → Bool) (S : ∀ N, Script F N)
    (Pb : ∀ N, Problem (S N) W.grad W.cost ok) (b0 : Option F.Batch) (s0 : F.Sched) (eps : Nat → ℝ)
    (hb : ∀ N, (S N).batch 0 = b0) (hs0 : ∀ N, (S N).sched 0 = s0) (heps : ∀ N, (S N).eps = eps)
    (γ : (∀ i, Pos size i → ℝ) → ∀ i, Pos size i → ℝ) (hγ : ∀ N k θ, (Pb N).γ k θ = γ θ) (hmeas : Measurable γ)
    (hsep : ∀ i θ θ', θ i = θ' i → γ θ i = γ θ' i)
    (alpha scale : ℝ) (hα : W.mdecay = .fin alpha) (hα0 : 0 < alpha) (hα1 : alpha ≤ 1) (hsc : W.scaleGrad = .fin scale) (hs : 0 < scale)
    (B : Nat) (hB : 0 < B) (e : ℝ) (he0 : 0 < e) (he : ∀ k, B ≤ k → eps k = e)
    (P : Measure Ω) (z0 : Nat → ∀ i, Pos size i → ℝ) (z : Nat → ∀ i, Pos size i → Ω → ℝ) (hz : JointNoise P z)
    (order : Ω → Nat → SGHMC.Schedule (Fin n)) (θ : ∀ i, Pos size i → ℝ) (eps0 : Fl) :
    let world : Ω → SGHMCWorld size := fun ω =>
      { W with normal := fun k i p => .fin (drawsAfter B z0 z ω k i p), order := order ω }
    let atEnd := sghmcVec alpha scale B eps (fun _ => γ) z0 θ B
    let m := fun i p => (atEnd i p).mass
    ∃ X : Nat → ∀ i, Pos size i → Ω → ℝ,
      (∀ i p, 0 < m i p)
      ∧ (∀ N ω, ∃ cost : Nat → Fl,
        (calls (asIter (burnInNext (env F (world ω).graph ok) B n)) N (init b0 s0 ⟨SGHMC.State.init fun i p => .fin (θ i p), eps0, 0⟩)).1
          = (List.range N).map (fun k : Nat =>
              let arrays := List.ofFn fun i => flat fun p => .fin (X (k + 1) i p ω)
              .ok ((if (k : Int) < B then .many arrays else unravel arrays), cost k)))
      ∧ ∀ star μ L lo hi, Bowl γ star μ L → γ star = 0 → 0 < μ → 0 < lo → lo ≤ hi → (∀ i p, lo ≤ m i p ∧ m i p ≤ hi) →
        e ^ 2 / alpha * hi * L * (2 + 8 / (1 - (1 - alpha) ^ 2)) ≤ 1 →
        ∀ k, Integrable (fun ω => massSq m fun i p => X (B + k) i p ω - star i p) P
          ∧ ∫ ω, massSq m (fun i p => X (B + k) i p ω - star i p) ∂P
            ≤ 2 * (1 - e ^ 2 / alpha * μ * lo / 2) ^ k * restSq alpha m star (fun i p => (atEnd i p).pos) (fun i p => (atEnd i p).mom)
              + 4 * (1 + (1 - alpha) ^ 2) / (alpha * e ^ 2 * μ * lo) * massSq m fun i p => sghmcSd e alpha scale (m i p) := by
  intro world atEnd m
  have hq : ∀ N, (Pb N).γ = fun _ => γ := by intro N; funext k θ; exact hγ N k θ
  have hm := fun i p => (sghmcVec_after alpha scale hB eps (fun _ => γ) z0 θ).1 i p
  have h00 : ∀ ω, sghmcVec alpha scale B eps (fun _ => γ) (drawsAfter B z0 z ω) θ B = atEnd :=
    fun ω => sghmcVec_congr alpha scale B eps _ θ B fun j hj => drawsAfter_lt hj
  refine ⟨fun k i p ω => (sghmcVec alpha scale B eps (fun _ => γ) (drawsAfter B z0 z ω) θ k i p).pos, hm, ?_, ?_⟩
  · intro N ω
    obtain ⟨cost, hcost⟩ := C88_sghmc_deterministic (S N) (world ω) ok
      ⟨(Pb N).γ, (Pb N).c, (Pb N).grad_eq, (Pb N).cost_eq, (Pb N).accepts⟩ alpha scale hα hsc hs (drawsAfter B z0 z ω) (fun _ _ _ => rfl) B θ
      eps0 (fun k _ i θ θ' hθ => by simp only [hγ]; exact hsep i θ θ' hθ)
    refine ⟨cost, ?_⟩
    rw [hb, hs0] at hcost
    rw [hcost]
    simp only [heps, hq]
  · intro star μ L lo hi hbowl hstar hμ hlo hlohi hlh hL k
    exact sghmc_average (xB := fun i p => (atEnd i p).pos) (vB := fun i p => (atEnd i p).mom) (m := m) (scale := scale) hz
      (X := fun k i p ω => (sghmcVec alpha scale B eps (fun _ => γ) (drawsAfter B z0 z ω) θ (B + k) i p).pos)
      (V := fun k i p ω => (sghmcVec alpha scale B eps (fun _ => γ) (drawsAfter B z0 z ω) θ (B + k) i p).mom)
      (fun ω i p => by rw [Nat.add_zero, h00 ω]) (fun ω i p => by rw [Nat.add_zero, h00 ω])
      (fun k ω i p => by
        have := ((sghmcVec_after alpha scale hB eps (fun _ => γ) (drawsAfter B z0 z ω) θ).2 (B + k) i p (Nat.le_add_right B k)).1
        rw [← Nat.add_assoc, this])
      (fun k ω i p => by
        have := ((sghmcVec_after alpha scale hB eps (fun _ => γ) (drawsAfter B z0 z ω) θ).2 (B + k) i p (Nat.le_add_right B k)).2
        rw [← Nat.add_assoc, this, he _ (Nat.le_add_right B k), drawsAfter_add, h00 ω])
      hmeas hα0 hα1 he0 hm hbowl hstar hμ hlo hlohi hlh hL k

/-! ## The hypotheses are met -/

theorem exists_jointNoise (size : Fin n → Nat) : ∃ (Ω : Type) (_ : MeasurableSpace Ω) (P : Measure Ω)
    (z : Nat → ∀ i, Pos size i → Ω → ℝ), JointNoise P z := by
  obtain ⟨Ω, mΩ, P, Z, h1, h2, h3⟩ := GaussLaw.exists_normals (Option (Nat × Σ i, Pos size i))
  refine ⟨Ω, mΩ, P, fun k i p => Z (some (k, ⟨i, p⟩)), ⟨⟨?_⟩, fun k i p => h1 _, fun k i p => h2 _, ?_⟩⟩
  · have h0 : P.map (Z none) Set.univ = 1 := by rw [h2]; exact measure_univ
    rwa [Measure.map_apply (h1 none) MeasurableSet.univ, Set.preimage_univ] at h0
  · exact h3.precomp (g := some) (Option.some_injective _)

/-- One parameter with two numbers. -/
abbrev two : Fin 1 → Nat := fun _ => 2

/-- The gradient of `x² + x y + y²` for `x`, `y` the distances of the two numbers of a parameter from 5: not a sum of functions of
one number. -/
noncomputable def coupled (θ : ∀ i, Pos two i → ℝ) : ∀ i, Pos two i → ℝ := fun i p =>
  θ i p - 5 + ((θ 0 0 - 5) + (θ 0 1 - 5))

/-- The same in the model's numbers. -/
noncomputable def coupledFl (_ : Dict Key Arr) (θ : ∀ i, Pos two i → Fl) : ∀ i, Pos two i → Fl := fun i p =>
  θ i p - .fin 5 + ((θ 0 0 - .fin 5) + (θ 0 1 - .fin 5))

theorem sum_pos2 (f : (Σ i, Pos two i) → ℝ) : ∑ q, f q = f ⟨0, 0⟩ + f ⟨0, 1⟩ := by
  rw [Fintype.sum_sigma, Fin.sum_univ_one]
  exact Fin.sum_univ_two fun p => f ⟨0, p⟩

theorem coupled_bowl : Bowl coupled (fun _ _ => 5) 1 3 where
  nonneg := by norm_num
  le := by norm_num
  pulls θ := by
    rw [sum_pos2, sum_pos2]
    simp only [coupled]
    nlinarith [sq_nonneg (θ 0 0 - 5 + (θ 0 1 - 5))]
  smooth θ := by
    rw [sum_pos2, sum_pos2]
    simp only [coupled]
    nlinarith [sq_nonneg (θ 0 0 - 5 - (θ 0 1 - 5))]

/-- The problem of finding samples for it. -/
noncomputable def coupledProblem (N : Nat) :
    Problem (size := two) (tenthScript N) coupledFl (fun _ _ => 0)
      (fun _ => true) where
  γ _ := coupled
  c _ _ := 0
  grad_eq _ _ _ _ _ _ _ := by simp [coupled, coupledFl]
  cost_eq _ _ _ _ _ := rfl
  accepts _ _ _ _ := rfl

theorem coupled_meas : Measurable coupled := by
  refine measurable_pi_iff.mpr fun i => measurable_pi_iff.mpr fun p => ?_
  have h : ∀ i p, Measurable fun θ : ∀ i, Pos two i → ℝ => θ i p := fun i p => (measurable_pi_apply p).comp (measurable_pi_apply i)
  exact ((h i p).sub_const 5).add (((h 0 0).sub_const 5).add ((h 0 1).sub_const 5))

theorem coupled_sep (i : Fin 1) (θ θ' : ∀ i, Pos two i → ℝ) (h : θ i = θ' i) : coupled θ i = coupled θ' i := by
  have : i = 0 := Subsingleton.elim _ _
  subst this
  funext p
  simp only [coupled, h]

/-- SGLD for a cost that couples the numbers of a parameter: started anywhere, the expected squared distance from the minimum is at
most 2/9 in the end. -/
example (order : Nat → SGLD.Schedule (Fin 1)) (z0 : Nat → ∀ i, Pos two i → ℝ) (θ : ∀ i, Pos two i → ℝ) :
    ∃ (Ω : Type) (_ : MeasurableSpace Ω) (P : Measure Ω) (z : Nat → ∀ i, Pos two i → Ω → ℝ) (X : Nat → ∀ i, Pos two i → Ω → ℝ)
      (start : ℝ) (m : ∀ i, Pos two i → ℝ),
      (∀ N ω, ∃ cost : Nat → Fl,
        (calls (asIter (burnInNext (env tenthFeeder (SGLDWorld.graph
            ⟨.fin 20, .fin 1, coupledFl, fun _ _ => 0,
              fun k i p => .fin (drawsAfter 1 z0 z ω k i p), order⟩) fun _ => true) (1 : Nat) 1)) N
            (init none () ⟨SGLD.State.init fun i p => .fin (θ i p), .fin 0, 0⟩)).1
          = (List.range N).map (fun k : Nat =>
              let arrays := List.ofFn fun i => flat fun p => .fin (X (k + 1) i p ω)
              .ok ((if (k : Int) < (1 : Nat) then .many arrays else unravel arrays), cost k)))
      ∧ (∀ i p, m i p = 1 / (1 + 3e-16))
      ∧ ∀ k, ∫ ω, massSq m (fun i p => X (1 + k) i p ω - 5) ∂P ≤ (1 - 0.09) ^ k * start + 2 / 9 := by
  obtain ⟨Ω, mΩ, P, z, hz⟩ := exists_jointNoise two
  have hmass : ∀ i p, (sgldVec (κ := Pos two) 1 20 (1 : Nat) (fun _ => 1 / 10) (fun _ => coupled) z0 θ 1 i p).mass = 1 / (1 + 3e-16) := by
    intro i p
    simp only [sgldVec, sgldStep, Coord.start, Coord.massUsed, after_false Nat.zero_lt_one, Bool.false_eq_true, if_false, Real.sqrt_one]
  obtain ⟨X, -, h2, h3⟩ := C119_sgld_moment
    (⟨.fin 20, .fin 1, coupledFl, fun _ _ => 0, fun _ _ _ => 0, order⟩ :
      SGLDWorld two) (fun _ => true) tenthScript coupledProblem none () (fun _ => 1 / 10) (fun _ => rfl) (fun _ => rfl) (fun _ => rfl)
    coupled (fun _ _ _ => rfl) coupled_meas coupled_sep 1 20 rfl one_pos rfl (by norm_num) 1 one_pos (1 / 10) (by norm_num) (fun _ _ => rfl)
    P z0 z hz (fun _ => order) θ (.fin 0)
  refine ⟨Ω, mΩ, P, z, X, massSq (fun i p => (sgldVec 1 20 (1 : Nat) (fun _ => 1 / 10) (fun _ => coupled) z0 θ 1 i p).mass)
    (fun i p => (sgldVec 1 20 (1 : Nat) (fun _ => 1 / 10) (fun _ => coupled) z0 θ 1 i p).pos - 5), _, h2, hmass, fun k => ?_⟩
  have h4 := (h3 (fun _ _ => 5) 1 3 0.9 1 coupled_bowl (by funext i p; simp [coupled]) one_pos (by norm_num) (by norm_num)
    (fun i p => by beta_reduce; rw [hmass]; norm_num) (by norm_num) k).2
  refine h4.trans (add_le_add (le_of_eq ?_) ?_)
  · norm_num
  · norm_num

/-- The same for SGHMC. -/
example (order : Nat → SGHMC.Schedule (Fin 1)) (z0 : Nat → ∀ i, Pos two i → ℝ) (θ : ∀ i, Pos two i → ℝ) :
    ∃ (Ω : Type) (_ : MeasurableSpace Ω) (P : Measure Ω) (z : Nat → ∀ i, Pos two i → Ω → ℝ) (X : Nat → ∀ i, Pos two i → Ω → ℝ)
      (start noise : ℝ) (m : ∀ i, Pos two i → ℝ),
      (∀ N ω, ∃ cost : Nat → Fl,
        (calls (asIter (burnInNext (env tenthFeeder (SGHMCWorld.graph
            ⟨.fin 20, .fin 0.5, coupledFl, fun _ _ => 0,
              fun k i p => .fin (drawsAfter 1 z0 z ω k i p), order⟩) fun _ => true) (1 : Nat) 1)) N
            (init none () ⟨SGHMC.State.init fun i p => .fin (θ i p), .fin 0, 0⟩)).1
          = (List.range N).map (fun k : Nat =>
              let arrays := List.ofFn fun i => flat fun p => .fin (X (k + 1) i p ω)
              .ok ((if (k : Int) < (1 : Nat) then .many arrays else unravel arrays), cost k)))
      ∧ (∀ i p, m i p = 1 / (1 + 3e-16))
      ∧ ∀ k, ∫ ω, massSq m (fun i p => X (1 + k) i p ω - 5) ∂P ≤ 2 * (1 - 0.009) ^ k * start + noise := by
  obtain ⟨Ω, mΩ, P, z, hz⟩ := exists_jointNoise two
  have hmass : ∀ i p, (sghmcVec (κ := Pos two) 0.5 20 (1 : Nat) (fun _ => 1 / 10) (fun _ => coupled) z0 θ 1 i p).mass
      = 1 / (1 + 3e-16) := by
    intro i p
    simp only [sghmcVec, sghmcStep, Coord.start, Coord.massUsed, after_false Nat.zero_lt_one, Bool.false_eq_true, if_false, Real.sqrt_one]
  obtain ⟨X, -, h2, h3⟩ := C120_sghmc_moment
    (⟨.fin 20, .fin 0.5, coupledFl, fun _ _ => 0, fun _ _ _ => 0, order⟩ :
      SGHMCWorld two) (fun _ => true) tenthScript coupledProblem none () (fun _ => 1 / 10) (fun _ => rfl) (fun _ => rfl) (fun _ => rfl)
    coupled (fun _ _ _ => rfl) coupled_meas coupled_sep 0.5 20 rfl (by norm_num) (by norm_num) rfl (by norm_num) 1 one_pos (1 / 10)
    (by norm_num) (fun _ _ => rfl) P z0 z hz (fun _ => order) θ (.fin 0)
  refine ⟨Ω, mΩ, P, z, X, restSq 0.5 (fun i p => (sghmcVec 0.5 20 (1 : Nat) (fun _ => 1 / 10) (fun _ => coupled) z0 θ 1 i p).mass)
    (fun _ _ => 5) (fun i p => (sghmcVec 0.5 20 (1 : Nat) (fun _ => 1 / 10) (fun _ => coupled) z0 θ 1 i p).pos)
    (fun i p => (sghmcVec 0.5 20 (1 : Nat) (fun _ => 1 / 10) (fun _ => coupled) z0 θ 1 i p).mom),
    4 * (1 + (1 - 0.5) ^ 2) / (0.5 * (1 / 10) ^ 2 * 1 * 0.9) * massSq
      (fun i p => (sghmcVec 0.5 20 (1 : Nat) (fun _ => 1 / 10) (fun _ => coupled) z0 θ 1 i p).mass)
      (fun i p => sghmcSd (1 / 10) 0.5 20 (sghmcVec 0.5 20 (1 : Nat) (fun _ => 1 / 10) (fun _ => coupled) z0 θ 1 i p).mass),
    _, h2, hmass, fun k => ?_⟩
  have h4 := (h3 (fun _ _ => 5) 1 3 0.9 1 coupled_bowl (by funext i p; simp [coupled]) one_pos (by norm_num) (by norm_num)
    (fun i p => by beta_reduce; rw [hmass]; norm_num) (by norm_num) k).2
  refine h4.trans (add_le_add (le_of_eq ?_) le_rfl)
  norm_num

end PySGMCMC.Chain
