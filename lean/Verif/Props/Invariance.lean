import Verif.Props.FullChain
import Verif.Lemmas.WeakError
import Verif.Lemmas.Mixed
import Verif.Lemmas.Separable

/-!
# C103: SGLD samples the posterior of any smooth cost, up to the discretisation error

One `session.run` after burn-in (the masses are fed), started from parameters distributed with density proportional to
`exp (-(scale + 3e-16) U)`: no matter in which order the runtime executes the nodes, and for mini-batch gradients that are right on
average, the mean of every smooth function of the new parameters differs from the mean over the old ones by `O(ε√ε)` only, although
the step itself is of size `√ε`.
-/

namespace PySGMCMC.SGLD
variable {P : Type} [DecidableEq P] {ι : P → Type}

/-- What the gradient of a parameter sees depends on the execution order only. -/
theorem order_grad (σ : Schedule P) : ∃ (isNew : P → P → Bool) (rank : P → Nat),
    (∀ i j, isNew i j = true → rank j < rank i) ∧
    ∀ (inp : Inputs ι) (s : State ι) i, ((run inp σ s).par i).tGrad
      = inp.grad (fun j => if isNew i j then (run inp σ s).params j else s.params j) i := by
  choose pre post horder using fun i => List.append_of_mem (σ.complete (.op i .xGrad))
  refine ⟨fun i j => decide (Node.op j .setParam ∈ pre i), fun i => σ.order.idxOf (.op i .xGrad), ?_, ?_⟩
  · intro i j hj
    have hm : Node.op j .setParam ∈ pre i := by simpa using hj
    have h1 : Node.op j .setG ∈ pre i := deps_mem σ (horder i) hm (List.mem_map_of_mem (by decide))
    have h2 : Node.op j .xG ∈ pre i := deps_mem σ (horder i) h1 (List.mem_map_of_mem (by decide))
    have h3 : Node.op j .xGrad ∈ pre i := deps_mem σ (horder i) h2 (List.mem_map_of_mem (by decide))
    have hnd := σ.nodup
    rw [horder i] at hnd
    obtain ⟨-, -, hdisj⟩ := List.nodup_append.1 hnd
    have hni : Node.op i .xGrad ∉ pre i := fun h => hdisj _ h _ (by simp) rfl
    show σ.order.idxOf _ < σ.order.idxOf _
    rw [horder i, List.idxOf_append_of_mem h3, List.idxOf_append_of_notMem hni]
    exact Nat.lt_of_lt_of_le (List.idxOf_lt_length_of_mem h3) (Nat.le_add_right _ _)
  · intro inp s i
    rw [run_grad_at inp σ s i (pre i) (post i) (horder i)]
    simp only [decide_eq_true_eq]

/-- The new position of an element whose mass is fed. -/
theorem run_position (inp : Inputs ι) (σ : Schedule P) (s : State ι) (i : P) (k : ι i) (th eps a scale x z m : ℝ) (mass : ι i → Fl)
    (hth : (s.par i).vec k = .fin th) (heps : inp.epsilon = .fin eps) (ha : inp.a = .fin a) (hscale : inp.scaleGrad = .fin scale)
    (hx : ((run inp σ s).par i).tGrad k = .fin x) (hz : inp.normal i k = .fin z) (hf : inp.fed i = some mass) (hm : mass k = .fin m)
    (hs : 0 < scale) : (run inp σ s).params i k = .fin (th - eps * m * a * x + Spec.sgldSd eps a scale m * z) := by
  have hp := run_par inp σ s i
  have e : (run inp σ s).params i k = (s.par i).vec k + rhsVec inp.epsilon inp.a
      (minvSeen (inp.fed i) (fun k => BurnInStats.rhsMinv ((s.par i).vhat k)) k) (((run inp σ s).par i).tGrad k)
      (sigma inp.epsilon inp.a inp.scaleGrad
        (minvSeen (inp.fed i) (fun k => BurnInStats.rhsMinv ((s.par i).vhat k)) k) * inp.normal i k) :=
    congrFun (congrArg PState.param hp) k
  rw [e, hf]
  simp only [minvSeen, Option.getD_some]
  rw [hm, heps, hscale, ha, Chain.sd_sgld _ _ _ _ hs, hx, hz, hth]
  unfold rhsVec
  simp only [Fl.neg_fin, Fl.mul_fin, Fl.add_fin]
  congr 1
  ring

end PySGMCMC.SGLD

namespace PySGMCMC.Invariance
open MeasureTheory Recipe

variable {P : Type} [Fintype P] [DecidableEq P] {ι : P → Type} [∀ i, Fintype (ι i)] [∀ i, DecidableEq (ι i)]

/-- All elements of all parameters. -/
abbrev Elem (ι : P → Type) := Σ i, ι i

/-- Parameter values given by real numbers. -/
def fins (x : Elem ι → ℝ) : ∀ i, ι i → Fl := fun i k => .fin (x ⟨i, k⟩)

/-- `γ β` is the gradient on mini-batch `β`; on average it is the gradient of `U`. -/
structure BatchGrad {J : Type} [Fintype J] [DecidableEq J] {Bt : Type} [MeasurableSpace Bt] (ν : Measure Bt) (U : (J → ℝ) → ℝ)
    (γ : Bt → (J → ℝ) → J → ℝ) (Λ : ℝ) : Prop where
  meas : Measurable fun y : (J → ℝ) × Bt => γ y.2 y.1
  nonneg : 0 ≤ Λ
  lip : ∀ β x x', ‖γ β x - γ β x'‖ ≤ Λ * ‖x - x'‖
  int : ∀ x j, Integrable (fun β => γ β x j) ν
  mean : ∀ x j, ∫ β, γ β x j ∂ν = partialD U j x

variable {Bt : Type} [MeasurableSpace Bt]

/-- What a session run of the sampler is given: stepsize `ε`, the constants, mini-batch `β`, normal draws `z`, fed masses `m`. -/
structure SgldInputs (ε a scale : ℝ) (m : Elem ι → ℝ) (γ : Bt → (Elem ι → ℝ) → Elem ι → ℝ) (β : Bt) (z : Elem ι → ℝ)
    (inp : SGLD.Inputs ι) : Prop where
  epsilon : inp.epsilon = .fin ε
  a : inp.a = .fin a
  scale : inp.scaleGrad = .fin scale
  fed : ∀ i, inp.fed i = some (fins m i)
  grad : ∀ x, inp.grad (fins x) = fins (γ β x)
  normal : inp.normal = fins z

/-- The new values, for one execution order: element `j` moves along the gradient at the values its gradient sees. -/
theorem sgld_step (ε a scale : ℝ) (h0 : 0 ≤ ε) (hs : 0 < scale) (m : Elem ι → ℝ) (hm : ∀ j, 0 ≤ m j) (γ : Bt → (Elem ι → ℝ) → Elem ι → ℝ)
    (mγ : Measurable fun y : (Elem ι → ℝ) × Bt => γ y.2 y.1) (σ : SGLD.Schedule P) (inp : Bt → (Elem ι → ℝ) → SGLD.Inputs ι)
    (s : ((Elem ι → ℝ) × Bt) × (Elem ι → ℝ) → SGLD.State ι) (hinp : ∀ β z, SgldInputs ε a scale m γ β z (inp β z))
    (hst : ∀ q i, ((s q).par i).vec = fins q.1.1 i ∧ ((s q).par i).param = fins q.1.1 i) :
    ∃ (isNew : P → P → Bool) (rank : P → Nat) (X : ((Elem ι → ℝ) × Bt) × (Elem ι → ℝ) → Elem ι → ℝ),
      (∀ i j, isNew i j = true → rank j < rank i) ∧ Measurable X ∧ (∀ q, (SGLD.run (inp q.1.2 q.2) σ (s q)).params = fins (X q)) ∧
      ∀ q j, X q j = q.1.1 j + ε * (-(m j * a) * γ q.1.2 (Mixed.seen (isNew j.1) Sigma.fst (X q) q.1.1) j)
        + √ε * ((fun j => √(2 * m j * a / (scale + 3e-16))) * q.2) j := by
  set S : Elem ι → ℝ := fun j => √(2 * m j * a / (scale + 3e-16)) with hS
  set c : Elem ι → ℝ := fun j => -(m j * a) with hcdef
  have mS : Measurable fun z : Elem ι → ℝ => S * z := measurable_const.mul measurable_id
  obtain ⟨isNew, rank, hrank, hgrad⟩ := SGLD.order_grad (ι := ι) σ
  have hpar : ∀ q, (s q).params = fins q.1.1 := fun q => funext fun i => (hst q i).2
  -- the values are finite
  have hval : ∀ q i k (x : ℝ), ((SGLD.run (inp q.1.2 q.2) σ (s q)).par i).tGrad k = .fin x →
      (SGLD.run (inp q.1.2 q.2) σ (s q)).params i k
        = .fin (q.1.1 ⟨i, k⟩ - ε * m ⟨i, k⟩ * a * x + Spec.sgldSd ε a scale (m ⟨i, k⟩) * q.2 ⟨i, k⟩) := fun q i k x hx =>
    SGLD.run_position _ σ (s q) i k _ ε a scale x _ _ (fins m i) (congrFun (hst q i).1 k) (hinp _ _).epsilon (hinp _ _).a (hinp _ _).scale
      hx (congrFun (congrFun (hinp _ _).normal i) k) ((hinp _ _).fed i) rfl hs
  let X : ((Elem ι → ℝ) × Bt) × (Elem ι → ℝ) → Elem ι → ℝ := fun q j => match (SGLD.run (inp q.1.2 q.2) σ (s q)).params j.1 j.2 with
    | .fin r => r
    | _ => 0
  have hX : ∀ q, (SGLD.run (inp q.1.2 q.2) σ (s q)).params = fins (X q) ∧ ∀ i,
      ((SGLD.run (inp q.1.2 q.2) σ (s q)).par i).tGrad = fins (γ q.1.2 (Mixed.seen (isNew i) Sigma.fst (X q) q.1.1)) i := by
    intro q
    have key : ∀ r i, rank i = r →
        ((SGLD.run (inp q.1.2 q.2) σ (s q)).par i).tGrad = fins (γ q.1.2 (Mixed.seen (isNew i) Sigma.fst (X q) q.1.1)) i
        ∧ (SGLD.run (inp q.1.2 q.2) σ (s q)).params i = fins (X q) i := by
      intro r
      induction r using Nat.strong_induction_on with
      | _ r ih =>
        intro i hi
        have e1 : ((SGLD.run (inp q.1.2 q.2) σ (s q)).par i).tGrad = fins (γ q.1.2 (Mixed.seen (isNew i) Sigma.fst (X q) q.1.1)) i := by
          rw [hgrad, hpar]
          have : (fun j => if isNew i j = true then (SGLD.run (inp q.1.2 q.2) σ (s q)).params j else fins q.1.1 j)
              = fins (Mixed.seen (isNew i) Sigma.fst (X q) q.1.1) := by
            funext j k
            unfold fins Mixed.seen
            by_cases hj : isNew i j = true
            · rw [if_pos hj, if_pos hj, (ih _ (hi ▸ hrank i j hj) j rfl).2]; rfl
            · rw [if_neg hj, if_neg hj]
          rw [this, (hinp _ _).grad]
        refine ⟨e1, ?_⟩
        funext k
        have := hval q i k _ (congrFun e1 k)
        rw [this]
        unfold fins
        simp only [X, this]
    exact ⟨funext fun i => (key _ i rfl).2, fun i => (key _ i rfl).1⟩
  have hsd : ∀ j, Spec.sgldSd ε a scale (m j) = √ε * S j := fun j => by
    have := hm j
    unfold Spec.sgldSd
    rw [hS, ← Real.sqrt_mul h0]
    congr 1
    ring
  have hXeq : ∀ q j, X q j = q.1.1 j + ε * (c j * γ q.1.2 (Mixed.seen (isNew j.1) Sigma.fst (X q) q.1.1) j) + √ε * (S * q.2) j := by
    intro q j
    have e1 := hval q j.1 j.2 _ (congrFun ((hX q).2 j.1) j.2)
    rw [(hX q).1] at e1
    have e2 := Fl.fin_inj.1 e1
    rw [hsd] at e2
    rw [show X q j = X q ⟨j.1, j.2⟩ from rfl, e2]
    simp only [hcdef, Pi.mul_apply]
    ring
  have hXm : Measurable X := by
    refine Mixed.measurable_new isNew rank hrank Sigma.fst X (fun q => q.1.1) (fun j => ?_)
      (fun j y => y.1.1.1 j + ε * (c j * γ y.1.1.2 y.2 j) + √ε * (S * y.1.2) j) (fun j => ?_) hXeq
    · exact (measurable_pi_apply j).comp (measurable_fst.comp measurable_fst)
    · have m1 : Measurable fun y : (((Elem ι → ℝ) × Bt) × (Elem ι → ℝ)) × (Elem ι → ℝ) => y.1.1.1 j :=
        (measurable_pi_apply j).comp (measurable_fst.comp (measurable_fst.comp measurable_fst))
      have m2 : Measurable fun y : (((Elem ι → ℝ) × Bt) × (Elem ι → ℝ)) × (Elem ι → ℝ) => γ y.1.1.2 y.2 j :=
        (measurable_pi_apply j).comp (mγ.comp (measurable_snd.prodMk (measurable_snd.comp (measurable_fst.comp measurable_fst))))
      have m3 : Measurable fun y : (((Elem ι → ℝ) × Bt) × (Elem ι → ℝ)) × (Elem ι → ℝ) => (S * y.1.2) j :=
        (measurable_pi_apply j).comp (mS.comp (measurable_snd.comp measurable_fst))
      exact (m1.add ((m2.const_mul _).const_mul _)).add (m3.const_mul _)
  exact ⟨isNew, rank, X, hrank, hXm, fun q => (hX q).1, hXeq⟩

/-- **C103** One session run of SGLD after burn-in leaves `exp (-(scale + 3e-16) U)` invariant up to `K ε√ε`. -/
theorem C103_sgld_invariant (U : (Elem ι → ℝ) → ℝ) (hU : ContDiff ℝ 1 U) (a scale c₀ : ℝ) (ha : 0 ≤ a) (hs : 0 < scale)
    (m : Elem ι → ℝ) (hm : ∀ j, 0 ≤ m j) (ν : Measure Bt) [IsProbabilityMeasure ν] (γ : Bt → (Elem ι → ℝ) → Elem ι → ℝ) (Λ : ℝ)
    (hγ : BatchGrad ν U γ Λ) (N : Measure (Elem ι → ℝ)) (hN : UnitNoise N)
    (π : Measure (Elem ι → ℝ)) (hπ : π = boltz fun x => (scale + 3e-16) * U x + c₀) [IsFiniteMeasure π]
    (h3 : Integrable (fun y : (Elem ι → ℝ) × Bt => ‖γ y.2 y.1‖ ^ 3) (π.prod ν))
    (f : (Elem ι → ℝ) → ℝ) (hf : ContDiff ℝ 3 f) (hc : HasCompactSupport f) :
    ∃ K, ∀ ε, 0 ≤ ε → ∀ (σ : SGLD.Schedule P) (inp : Bt → (Elem ι → ℝ) → SGLD.Inputs ι)
      (s : ((Elem ι → ℝ) × Bt) × (Elem ι → ℝ) → SGLD.State ι),
      (∀ β z, SgldInputs ε a scale m γ β z (inp β z)) →
      (∀ q i, ((s q).par i).vec = fins q.1.1 i ∧ ((s q).par i).param = fins q.1.1 i) →
      ∃ X : ((Elem ι → ℝ) × Bt) × (Elem ι → ℝ) → Elem ι → ℝ, Measurable X ∧
        (∀ q, (SGLD.run (inp q.1.2 q.2) σ (s q)).params = fins (X q)) ∧
        |∫ q, f (X q) ∂((π.prod ν).prod N) - ∫ x, f x ∂π| ≤ K * (ε * √ε) := by
  subst hπ
  have := hN.prob
  set S : Elem ι → ℝ := fun j => √(2 * m j * a / (scale + 3e-16)) with hS
  set c : Elem ι → ℝ := fun j => -(m j * a) with hcdef
  have hs' : 0 < scale + 3e-16 := by positivity
  have hS2 : ∀ j, S j ^ 2 = 2 * m j * a / (scale + 3e-16) := fun j => by
    have := hm j
    rw [hS]; exact Real.sq_sqrt (by positivity)
  have hH : ContDiff ℝ 1 fun x => (scale + 3e-16) * U x + c₀ := (contDiff_const.mul hU).add contDiff_const
  have hpd : ∀ j x, partialD (fun x => (scale + 3e-16) * U x + c₀) j x = (scale + 3e-16) * partialD U j x := fun j x => by
    have h := ((hU.differentiable (by norm_num) x).hasFDerivAt.const_mul (scale + 3e-16)).add_const c₀
    unfold partialD
    rw [h.fderiv]
    simp
  -- the drift
  let B : (Elem ι → ℝ) × Bt → Elem ι → ℝ := fun y j => c j * γ y.2 y.1 j
  have hBm : Measurable B := measurable_pi_iff.2 fun j => (show Measurable fun y : (Elem ι → ℝ) × Bt => γ y.2 y.1 j from
    (measurable_pi_apply j).comp hγ.meas).const_mul (c j)
  have hBn : ∀ y, ‖B y‖ ≤ ‖c‖ * ‖γ y.2 y.1‖ := fun y => norm_mul_le c (γ y.2 y.1)
  have hB3 : Integrable (fun y => ‖B y‖ ^ 3) ((boltz fun x => (scale + 3e-16) * U x + c₀).prod ν) := by
    refine (h3.const_mul (‖c‖ ^ 3)).mono' (hBm.norm.pow_const 3).aestronglyMeasurable (.of_forall fun y => ?_)
    rw [norm_pow, norm_norm, ← mul_pow]
    exact pow_le_pow_left₀ (norm_nonneg _) (hBn y) 3
  have hmean : ∀ x j, ∫ β, B (x, β) j ∂ν = -(S j ^ 2 / 2 * partialD (fun x => (scale + 3e-16) * U x + c₀) j x
      + ∑ k, (0 : Elem ι → Elem ι → ℝ) j k * partialD (fun x => (scale + 3e-16) * U x + c₀) k x) := fun x j => by
    simp only [B]
    rw [integral_const_mul, hγ.mean, hpd, hS2]
    simp only [Pi.zero_apply, zero_mul, Finset.sum_const_zero, hcdef]
    field_simp
    ring
  have i1 : Integrable (fun y : (Elem ι → ℝ) × Bt => ‖γ y.2 y.1‖) ((boltz fun x => (scale + 3e-16) * U x + c₀).prod ν) := by
    refine ((integrable_const (1 : ℝ)).add h3).mono' hγ.meas.norm.aestronglyMeasurable (.of_forall fun y => ?_)
    have h0 := norm_nonneg (γ y.2 y.1)
    rw [norm_norm]
    simp only [Pi.add_apply]
    rcases le_total ‖γ y.2 y.1‖ 1 with h1 | h1
    · nlinarith [pow_nonneg h0 3]
    · nlinarith [mul_nonneg h0 (sub_nonneg.2 h1), mul_nonneg (mul_nonneg h0 h0) (sub_nonneg.2 h1)]
  let R : ((Elem ι → ℝ) × Bt) × (Elem ι → ℝ) → ℝ := fun q => ‖c‖ * Λ * (2 * (‖c‖ * ‖γ q.1.2 q.1.1‖ + ‖S * q.2‖))
  have iS : Integrable (fun z : Elem ι → ℝ => ‖S * z‖) N := by
    refine (hN.norm.const_mul ‖S‖).mono' (hN.kick S).meas.norm.aestronglyMeasurable (.of_forall fun z => ?_)
    rw [norm_norm]; exact norm_mul_le S z
  have hR : Integrable R (((boltz fun x => (scale + 3e-16) * U x + c₀).prod ν).prod N) :=
    ((((i1.comp_fst N).const_mul ‖c‖).add (iS.comp_snd _)).const_mul 2).const_mul _
  have hc0 := norm_nonneg c
  have hΛ := hγ.nonneg
  set ε₀ : ℝ := 1 / (2 * (‖c‖ * Λ + 1)) with hε₀
  have hε₀0 : 0 < ε₀ := by positivity
  obtain ⟨K, hK⟩ := one_step' hH ν (hN.kick S) 0 (by simp) B hBm hB3 hmean R hR ε₀ hε₀0 hf hc
  refine ⟨K, fun ε h0 σ inp s hinp hst => ?_⟩
  obtain ⟨isNew, rank, X, hrank, hXm, hX, hXeq⟩ := sgld_step ε a scale h0 hs m hm γ hγ.meas σ inp s hinp hst
  refine ⟨X, hXm, hX, hK ε h0 X hXm.aemeasurable fun hle h1 q => ?_⟩
  refine Mixed.mixed_bound (γ q.1.2) Λ hΛ (hγ.lip q.1.2) c q.1.1 (X q) (S * q.2) ε h0 h1 ?_ (fun j k => isNew j.1 k.1) (hXeq q)
  calc ε * (‖c‖ * Λ) ≤ ε₀ * (‖c‖ * Λ) := by gcongr
    _ ≤ 1 / 2 := by
      rw [hε₀, div_mul_eq_mul_div, div_le_div_iff₀ (by positivity) (by norm_num)]
      nlinarith [mul_nonneg hc0 hΛ]

/-! ## The hypotheses are met

`U x = |x|²/2`, mini-batch gradients `x + β` with standard normal `β`, and standard normal draws. -/

theorem noisy_batchGrad {J : Type} [Fintype J] [DecidableEq J] {ν : Measure (J → ℝ)} (hν : UnitNoise ν) :
    BatchGrad ν (halfSq : (J → ℝ) → ℝ) (fun β x => x + β) 1 where
  meas := measurable_fst.add measurable_snd
  nonneg := zero_le_one
  lip β x x' := by rw [add_sub_add_right_eq_sub, one_mul]
  int x j := by
    have := hν.prob
    have hi : Integrable (fun z : J → ℝ => z j) ν := by simpa using (hν.kick 1).int1 j
    exact (integrable_const (x j)).add hi
  mean x j := by
    have := hν.prob
    rw [halfSq_partial]
    have e : ∀ β : J → ℝ, (x + β) j = x j + β j := fun β => rfl
    simp_rw [e]
    have hi : Integrable (fun z : J → ℝ => z j) ν := by simpa using (hν.kick 1).int1 j
    rw [integral_add (integrable_const _) hi, hν.mean]
    simp

theorem noisy_third {J : Type} [Fintype J] [DecidableEq J] {π ν : Measure (J → ℝ)} [IsFiniteMeasure π] (hν : UnitNoise ν)
    (hπ : Integrable (fun x => ‖x‖ ^ 3) π) : Integrable (fun y : (J → ℝ) × (J → ℝ) => ‖y.1 + y.2‖ ^ 3) (π.prod ν) := by
  have := hν.prob
  refine (((hπ.comp_fst ν).add (hν.third.comp_snd π)).const_mul 4).mono' ?_ (.of_forall fun y => ?_)
  · have hm : Measurable fun y : (J → ℝ) × (J → ℝ) => y.1 + y.2 := measurable_fst.add measurable_snd
    exact (hm.norm.pow_const 3).aestronglyMeasurable
  · rw [norm_pow, norm_norm]
    have h1 := norm_nonneg y.1
    have h2 := norm_nonneg y.2
    refine (pow_le_pow_left₀ (norm_nonneg _) (norm_add_le y.1 y.2) 3).trans ?_
    simp only [Pi.add_apply]
    nlinarith [mul_nonneg (add_nonneg h1 h2) (sq_nonneg (‖y.1‖ - ‖y.2‖))]

theorem halfSq_boltz {J : Type} [Fintype J] [DecidableEq J] (s : ℝ) (hs : 0 < s) :
    IsFiniteMeasure (boltz fun x : J → ℝ => s * halfSq x + 0) ∧ Integrable (fun x => ‖x‖ ^ 3) (boltz fun x : J → ℝ => s * halfSq x + 0) := by
  have e : (fun x : J → ℝ => s * halfSq x + 0) = fun x => ∑ j, s * (x j ^ 2 / 2) := by
    funext x; unfold halfSq; rw [add_zero, Finset.mul_sum]
  have hl := linear_growth (h := fun t : ℝ => s * (t ^ 2 / 2)) (by fun_prop) s (s / 2) hs fun t => by
    nlinarith [mul_nonneg hs.le (sq_nonneg (|t| - 1)), sq_abs t]
  rw [e]
  exact separable (fun _ t => s * (t ^ 2 / 2)) (fun _ => by fun_prop) (fun _ => hl.1) (fun _ => hl.2)

example (a scale : ℝ) (ha : 0 ≤ a) (hs : 0 < scale) (m : Elem ι → ℝ) (hm : ∀ j, 0 ≤ m j) (f : (Elem ι → ℝ) → ℝ) (hf : ContDiff ℝ 3 f)
    (hc : HasCompactSupport f) :
    let N := Measure.pi fun _ : Elem ι => ProbabilityTheory.gaussianReal 0 1
    let π := boltz fun x : Elem ι → ℝ => (scale + 3e-16) * halfSq x + 0
    ∃ K, ∀ ε, 0 ≤ ε → ∀ σ : SGLD.Schedule P,
      ∃ X : ((Elem ι → ℝ) × (Elem ι → ℝ)) × (Elem ι → ℝ) → Elem ι → ℝ, Measurable X ∧
        (∀ q, (SGLD.run ⟨.fin ε, .fin scale, .fin a, fins q.2, fun θ i k => θ i k + .fin (q.1.2 ⟨i, k⟩), fun _ => 0,
          fun i => some (fins m i)⟩ σ (SGLD.State.init (fins q.1.1))).params = fins (X q)) ∧
        |∫ q, f (X q) ∂((π.prod N).prod N) - ∫ x, f x ∂π| ≤ K * (ε * √ε) := by
  intro N π
  have hN : UnitNoise N := unitNoise_gauss
  obtain ⟨h1, h2⟩ := halfSq_boltz (J := Elem ι) (scale + 3e-16) (by positivity)
  have := hN.prob
  obtain ⟨K, hK⟩ := C103_sgld_invariant (halfSq : (Elem ι → ℝ) → ℝ) halfSq_smooth a scale 0 ha hs m hm N (fun β x => x + β) 1
    (noisy_batchGrad hN) N hN π rfl (noisy_third hN h2) f hf hc
  exact ⟨K, fun ε h0 σ => hK ε h0 σ
    (fun β z => ⟨.fin ε, .fin scale, .fin a, fins z, fun θ i k => θ i k + .fin (β ⟨i, k⟩), fun _ => 0, fun i => some (fins m i)⟩)
    (fun q => SGLD.State.init (fins q.1.1)) (fun β z => ⟨rfl, rfl, rfl, fun _ => rfl, fun _ => rfl, rfl⟩) fun q i => ⟨rfl, rfl⟩⟩

end PySGMCMC.Invariance
