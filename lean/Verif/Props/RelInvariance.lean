import Verif.Props.Relativistic
import Verif.Props.Invariance
import Verif.Lemmas.Kinetic
import Mathlib.Analysis.Calculus.MeanValue

/-!
# C104: relativistic SGHMC samples the posterior of any smooth cost, up to the discretisation error

One `session.run`, started from parameters and momenta with joint density proportional to `exp (-U(θ) + ∑ logPdf(p_i))`, where
`logPdf` is the density the constructor draws the initial momenta from.
-/

namespace PySGMCMC.Relativistic
variable {P : Type} [DecidableEq P]

/-- What the gradient of a parameter sees depends on the execution order only. -/
theorem order_grad (σ : Schedule P) : ∃ (isNew : P → P → Bool) (rank : P → Nat),
    (∀ i j, isNew i j = true → rank j < rank i) ∧
    ∀ (inp : Inputs P) (s : State P) i, ((run inp σ s).par i).tGrad
      = -(inp.grad (fun j => if isNew i j then (run inp σ s).params j else s.params j) i) := by
  choose pre post horder using fun i => List.append_of_mem (σ.complete (.op i .xGrad))
  refine ⟨fun i j => decide (Node.op j .setParam ∈ pre i), fun i => σ.order.idxOf (.op i .xGrad), ?_, ?_⟩
  · intro i j hj
    have hm : Node.op j .setParam ∈ pre i := by simpa using hj
    have h1 : Node.op j .setVec ∈ pre i := deps_mem σ (horder i) hm (List.mem_map_of_mem (by decide))
    have h2 : Node.op j .xVel ∈ pre i := deps_mem σ (horder i) h1 (List.mem_map_of_mem (by decide))
    have h4 : Node.op j .setMom ∈ pre i := deps_mem σ (horder i) h2 (List.mem_map_of_mem (by decide))
    have h5 : Node.op j .xMom ∈ pre i := deps_mem σ (horder i) h4 (List.mem_map_of_mem (by decide))
    have h3 : Node.op j .xGrad ∈ pre i := deps_mem σ (horder i) h5 (List.mem_map_of_mem (by decide))
    have hnd := σ.nodup
    rw [horder i] at hnd
    obtain ⟨-, -, hdisj⟩ := List.nodup_append.1 hnd
    have hni : Node.op i .xGrad ∉ pre i := fun h => hdisj _ h _ (by simp) rfl
    show σ.order.idxOf _ < σ.order.idxOf _
    rw [horder i, List.idxOf_append_of_mem h3, List.idxOf_append_of_notMem hni]
    exact Nat.lt_of_lt_of_le (List.idxOf_lt_length_of_mem h3) (Nat.le_add_right _ _)
  · intro inp s i
    rw [run_grad_at inp σ s i (pre i) (post i) (horder i)]
    simp only [decide_eq_true_eq]

/-! ## The velocity -/

theorem vel_smul (eps m c p : ℝ) : vel eps m c p = eps * vel 1 m c p := by unfold vel; ring

theorem vel_le {m c : ℝ} (hm : 0 < m) (hc : 0 < c) (p : ℝ) : |vel 1 m c p| ≤ c := by
  simpa using (vel_lt hm hc 1 p one_ne_zero).le

/-- The velocity is the derivative of the kinetic energy. -/
theorem logPdf_deriv {m c : ℝ} (hm : 0 < m) (hc : 0 < c) (p : ℝ) : HasDerivAt (fun p => -logPdf m c p) (vel 1 m c p) p := by
  have h := arg_pos hm hc p
  have hs := Real.sqrt_pos.2 h
  have h1 : HasDerivAt (fun p : ℝ => p ^ 2 / (m ^ 2 * c ^ 2) + 1) (2 * p / (m ^ 2 * c ^ 2)) p := by
    have := (((hasDerivAt_id' p).pow 2).div_const (m ^ 2 * c ^ 2)).add_const 1
    exact this.congr_deriv (by simp)
  have h2 := ((h1.sqrt (by rw [sq]; exact h.ne')).const_mul (m * c ^ 2))
  have e : (fun p => -logPdf m c p) = fun p => m * c ^ 2 * √(p ^ 2 / (m ^ 2 * c ^ 2) + 1) := by funext p; unfold logPdf; ring
  rw [e]
  refine h2.congr_deriv ?_
  unfold vel
  rw [show p ^ 2 = p * p from sq p]
  field_simp

theorem vel_deriv {m c : ℝ} (hm : 0 < m) (hc : 0 < c) (p : ℝ) :
    HasDerivAt (vel 1 m c) (1 / (m * √(p * p / (m ^ 2 * c ^ 2) + 1) ^ 3)) p := by
  have h := arg_pos hm hc p
  have hs := Real.sqrt_pos.2 h
  have h1 : HasDerivAt (fun p : ℝ => p * p / (m ^ 2 * c ^ 2) + 1) (2 * p / (m ^ 2 * c ^ 2)) p := by
    have := (((hasDerivAt_id' p).mul (hasDerivAt_id' p)).div_const (m ^ 2 * c ^ 2)).add_const 1
    exact this.congr_deriv (by ring)
  have h2 := (h1.sqrt h.ne').const_mul m
  have h3 := ((hasDerivAt_id' p).const_mul 1).div h2 (by positivity)
  refine h3.congr_deriv ?_
  have e : √(p * p / (m ^ 2 * c ^ 2) + 1) ^ 2 = p * p / (m ^ 2 * c ^ 2) + 1 := Real.sq_sqrt h.le
  generalize √(p * p / (m ^ 2 * c ^ 2) + 1) = r at *
  have e' : r ^ 2 * (m ^ 2 * c ^ 2) = p * p + m ^ 2 * c ^ 2 := by rw [e]; field_simp
  field_simp
  linear_combination e'

theorem vel_cont {m c : ℝ} (hm : 0 < m) (hc : 0 < c) : Continuous (vel 1 m c) :=
  continuous_iff_continuousAt.2 fun p => (vel_deriv hm hc p).continuousAt

theorem vel_lip {m c : ℝ} (hm : 0 < m) (hc : 0 < c) (p p' : ℝ) : |vel 1 m c p' - vel 1 m c p| ≤ 1 / m * |p' - p| := by
  refine Convex.norm_image_sub_le_of_norm_hasDerivWithin_le (s := Set.univ) (fun x _ => (vel_deriv hm hc x).hasDerivWithinAt)
    (fun x _ => ?_) convex_univ trivial trivial
  have h := arg_pos hm hc x
  have h1 : 1 ≤ √(x * x / (m ^ 2 * c ^ 2) + 1) := Real.one_le_sqrt.2 (by
    have : 0 ≤ x * x / (m ^ 2 * c ^ 2) := div_nonneg (mul_self_nonneg x) (by positivity)
    linarith)
  rw [Real.norm_eq_abs, abs_of_nonneg (by positivity)]
  refine one_div_le_one_div_of_le hm ?_
  have : 1 ≤ √(x * x / (m ^ 2 * c ^ 2) + 1) ^ 3 := one_le_pow₀ h1
  nlinarith

end PySGMCMC.Relativistic

namespace PySGMCMC.Invariance
open MeasureTheory Recipe

theorem sqrt_sub_le {b : ℝ} (hb : 0 < b) (a : ℝ) : |√a - √b| ≤ |a - b| / √b := by
  have hs := Real.sqrt_pos.2 hb
  rw [le_div_iff₀ hs, ← abs_of_pos hs, ← abs_mul, abs_of_pos hs]
  have hb2 := Real.mul_self_sqrt hb.le
  rcases le_total a 0 with ha | ha
  · rw [Real.sqrt_eq_zero_of_nonpos ha, zero_sub, neg_mul, hb2, abs_neg, abs_of_pos hb, abs_of_nonpos (by linarith)]
    linarith
  · have ha2 := Real.mul_self_sqrt ha
    have h0 := Real.sqrt_nonneg a
    have e : a - b = (√a - √b) * (√a + √b) := by linear_combination hb2 - ha2
    rw [e, abs_mul, abs_mul, abs_of_pos hs, abs_of_nonneg (by linarith : 0 ≤ √a + √b)]
    exact mul_le_mul_of_nonneg_left (by linarith) (abs_nonneg _)

variable {P : Type} [Fintype P] [DecidableEq P] {Bt : Type} [MeasurableSpace Bt]

/-- What a session run of the sampler is given: the constants, mini-batch `β` and normal draws `z`. -/
structure RelInputs (ε m c d bhat : ℝ) (γ : Bt → (P → ℝ) → P → ℝ) (β : Bt) (z : P → ℝ) (inp : Relativistic.Inputs P) : Prop where
  reals : Relativistic.RealInputs inp ε m c d bhat
  grad : ∀ x : P → ℝ, inp.grad (fun i => .fin (x i)) = fun i => .fin (γ β x i)
  normal : inp.normal = fun i => .fin (z i)

/-- **C104** One session run of relativistic SGHMC leaves `exp (-(U(θ) - ∑ logPdf(p_i)))` invariant up to `K ε√ε`. -/
theorem C104_relativistic_invariant (U : (P → ℝ) → ℝ) (hU : ContDiff ℝ 1 U) (m c d bhat c₀ : ℝ) (hm : 0 < m) (hc : 0 < c) (hd : 0 < d)
    (ν : Measure Bt) [IsProbabilityMeasure ν] (γ : Bt → (P → ℝ) → P → ℝ) (Λ : ℝ) (hγ : BatchGrad ν U γ Λ)
    (N : Measure (P → ℝ)) (hN : UnitNoise N) (π : Measure (P ⊕ P → ℝ))
    (hπ : π = boltz fun x => U (fun i => x (.inl i)) + ∑ i, -Relativistic.logPdf m c (x (.inr i)) + c₀) [IsFiniteMeasure π]
    (h3 : Integrable (fun y : (P ⊕ P → ℝ) × Bt => ‖γ y.2 fun i => y.1 (.inl i)‖ ^ 3) (π.prod ν))
    (f : (P ⊕ P → ℝ) → ℝ) (hf : ContDiff ℝ 3 f) (hfc : HasCompactSupport f) :
    ∃ K, ∀ ε, 0 ≤ ε → 0 ≤ ε * (2 * d - ε * bhat) → ∀ (σ : Relativistic.Schedule P) (inp : Bt → (P → ℝ) → Relativistic.Inputs P)
      (s : ((P ⊕ P → ℝ) × Bt) × (P → ℝ) → Relativistic.State P),
      (∀ β z, RelInputs ε m c d bhat γ β z (inp β z)) →
      (∀ q i, ((s q).par i).vec = .fin (q.1.1 (.inl i)) ∧ ((s q).par i).param = .fin (q.1.1 (.inl i))
        ∧ ((s q).par i).mom = .fin (q.1.1 (.inr i))) →
      ∃ X : ((P ⊕ P → ℝ) × Bt) × (P → ℝ) → P ⊕ P → ℝ, Measurable X ∧
        (∀ q i, ((Relativistic.run (inp q.1.2 q.2) σ (s q)).par i).param = .fin (X q (.inl i))
          ∧ ((Relativistic.run (inp q.1.2 q.2) σ (s q)).par i).mom = .fin (X q (.inr i))) ∧
        |∫ q, f (X q) ∂((π.prod ν).prod N) - ∫ x, f x ∂π| ≤ K * (ε * √ε) := by
  have hπ' : π = boltz (energy U (fun _ p => -Relativistic.logPdf m c p) c₀) := hπ
  subst hπ'
  have := hN.prob
  have hΛ := hγ.nonneg
  let v : ℝ → ℝ := Relativistic.vel 1 m c
  have hv : ∀ p, |v p| ≤ c := Relativistic.vel_le hm hc
  have hvc : Continuous v := Relativistic.vel_cont hm hc
  have mθ : Measurable fun y : (P ⊕ P → ℝ) × Bt => ((fun i => y.1 (.inl i) : P → ℝ), y.2) :=
    (measurable_pi_iff.2 fun i => (measurable_pi_apply (Sum.inl i)).comp measurable_fst).prodMk measurable_snd
  have mγ : Measurable fun y : (P ⊕ P → ℝ) × Bt => γ y.2 fun i => y.1 (.inl i) := hγ.meas.comp mθ
  set S : P → ℝ := fun _ => √(2 * d) with hS
  have hS2 : ∀ i, S i ^ 2 / 2 = d := fun i => by simp only [hS]; rw [Real.sq_sqrt (by positivity)]; ring
  set π := boltz (energy U (fun _ p => -Relativistic.logPdf m c p) c₀) with hπ
  -- moments of the drift
  have hBm : Measurable (kineticDrift (fun _ => v) (fun _ => 1) S γ : (P ⊕ P → ℝ) × Bt → P ⊕ P → ℝ) := by
    refine measurable_pi_iff.2 fun j => ?_
    have mp : ∀ i, Measurable fun y : (P ⊕ P → ℝ) × Bt => v (y.1 (.inr i)) := fun i =>
      hvc.measurable.comp ((measurable_pi_apply (Sum.inr i)).comp measurable_fst)
    cases j with
    | inl i => exact (mp i).const_mul 1
    | inr i => exact ((measurable_pi_apply i).comp mγ).neg.sub ((mp i).const_mul _)
  have hBn : ∀ y : (P ⊕ P → ℝ) × Bt, ‖kineticDrift (fun _ => v) (fun _ => 1) S γ y‖ ≤ (c + d * c) + ‖γ y.2 fun i => y.1 (.inl i)‖ := fun y => by
    have hn := norm_nonneg (γ y.2 fun i => y.1 (.inl i))
    refine (pi_norm_le_iff_of_nonneg (by positivity)).2 fun j => ?_
    cases j with
    | inl i =>
      rw [Real.norm_eq_abs]
      simp only [kineticDrift, Sum.elim_inl, one_mul]
      have := hv (y.1 (.inr i))
      nlinarith
    | inr i =>
      simp only [kineticDrift, Sum.elim_inr, hS2]
      refine (norm_sub_le _ _).trans ?_
      rw [norm_neg, norm_mul, Real.norm_of_nonneg hd.le, Real.norm_eq_abs (v _)]
      have h1 := norm_le_pi_norm (γ y.2 fun i => y.1 (.inl i)) i
      have h2 := mul_le_mul_of_nonneg_left (hv (y.1 (.inr i))) hd.le
      linarith
  have cube : ∀ a b : ℝ, 0 ≤ a → 0 ≤ b → (a + b) ^ 3 ≤ 4 * (a ^ 3 + b ^ 3) := fun a b ha hb => by
    nlinarith [mul_nonneg (add_nonneg ha hb) (sq_nonneg (a - b))]
  have hB3 : Integrable (fun y => ‖kineticDrift (fun _ => v) (fun _ => 1) S γ y‖ ^ 3) (π.prod ν) := by
    refine (((integrable_const ((c + d * c) ^ 3)).add h3).const_mul 4).mono' (hBm.norm.pow_const 3).aestronglyMeasurable (.of_forall fun y => ?_)
    rw [norm_pow, norm_norm]
    exact (pow_le_pow_left₀ (norm_nonneg _) (hBn y) 3).trans (cube _ _ (by positivity) (norm_nonneg _))
  have i1 : Integrable (fun y : (P ⊕ P → ℝ) × Bt => ‖γ y.2 fun i => y.1 (.inl i)‖) (π.prod ν) := by
    refine ((integrable_const (1 : ℝ)).add h3).mono' mγ.norm.aestronglyMeasurable (.of_forall fun y => ?_)
    have h0 := norm_nonneg (γ y.2 fun i => y.1 (.inl i))
    rw [norm_norm]
    simp only [Pi.add_apply]
    generalize ‖γ y.2 fun i => y.1 (.inl i)‖ = n at *
    rcases le_total n 1 with h1 | h1
    · nlinarith [pow_nonneg h0 3]
    · nlinarith [mul_nonneg h0 (sub_nonneg.2 h1), mul_nonneg (mul_nonneg h0 h0) (sub_nonneg.2 h1)]
  -- the remainder
  set κ : ℝ := √(2 * d + |bhat|) with hκ
  have hκ0 : 0 ≤ κ := Real.sqrt_nonneg _
  have hb0 := abs_nonneg bhat
  have h2d : 0 < √(2 * d) := Real.sqrt_pos.2 (by positivity)
  let R : ((P ⊕ P → ℝ) × Bt) × (P → ℝ) → ℝ := fun q => (Λ * c + |bhat| / √(2 * d) * ‖q.2‖)
    + 1 / m * ((‖γ q.1.2 fun i => q.1.1 (.inl i)‖ + (Λ * c + d * c)) + κ * ‖q.2‖)
  have hR : Integrable R ((π.prod ν).prod N) :=
    ((integrable_const _).add ((hN.norm.const_mul _).comp_snd _)).add
      ((((i1.comp_fst N).add (integrable_const _)).add ((hN.norm.const_mul _).comp_snd _)).const_mul _)
  have hR0 : ∀ q, 0 ≤ R q := fun q => by
    have := norm_nonneg (γ q.1.2 fun i => q.1.1 (.inl i))
    have := norm_nonneg q.2
    positivity
  obtain ⟨K, hK⟩ := kinetic_step hU (T' := fun _ => v) (fun _ => Relativistic.logPdf_deriv hm hc) (fun _ => hvc) c₀ ν hN (fun _ => 1) S γ
    hγ.meas hγ.int (fun θ i => by rw [hγ.mean, one_mul]) hB3 R hR hR0 1 one_pos hf hfc
  refine ⟨K, fun ε h0 hb σ inp s hinp hst => ?_⟩
  obtain ⟨isNew, rank, hrank, hgrad⟩ := Relativistic.order_grad σ
  have hpar : ∀ q, (s q).params = fun i => .fin (q.1.1 (.inl i)) := fun q => funext fun i => (hst q i).2.1
  let val : Fl → ℝ := fun x => match x with
    | .fin r => r
    | _ => 0
  let X : ((P ⊕ P → ℝ) × Bt) × (P → ℝ) → P ⊕ P → ℝ := fun q => Sum.elim
    (fun i => val ((Relativistic.run (inp q.1.2 q.2) σ (s q)).par i).param) fun i => val ((Relativistic.run (inp q.1.2 q.2) σ (s q)).par i).mom
  let sn : ((P ⊕ P → ℝ) × Bt) × (P → ℝ) → P → P → ℝ := fun q i =>
    Mixed.seen (isNew i) id (fun i => X q (.inl i)) fun i => q.1.1 (.inl i)
  let newP : P → (((P ⊕ P → ℝ) × Bt) × (P → ℝ)) × (P → ℝ) → ℝ := fun i y =>
    y.1.1.1 (.inr i) - ε * γ y.1.1.2 y.2 i + √(ε * (2 * d - ε * bhat)) * y.1.2 i - d * (ε * v (y.1.1.1 (.inr i)))
  have hX : ∀ q i, ((Relativistic.run (inp q.1.2 q.2) σ (s q)).par i).param = .fin (q.1.1 (.inl i) + ε * v (newP i (q, sn q i)))
      ∧ ((Relativistic.run (inp q.1.2 q.2) σ (s q)).par i).mom = .fin (newP i (q, sn q i)) := by
    intro q
    have key : ∀ r i, rank i = r → ((Relativistic.run (inp q.1.2 q.2) σ (s q)).par i).param = .fin (q.1.1 (.inl i) + ε * v (newP i (q, sn q i)))
      ∧ ((Relativistic.run (inp q.1.2 q.2) σ (s q)).par i).mom = .fin (newP i (q, sn q i)) := by
      intro r
      induction r using Nat.strong_induction_on with
      | _ r ih =>
        intro i hi
        have e1 : ((Relativistic.run (inp q.1.2 q.2) σ (s q)).par i).tGrad = .fin (-γ q.1.2 (sn q i) i) := by
          rw [hgrad, hpar]
          have : (fun j => if isNew i j = true then (Relativistic.run (inp q.1.2 q.2) σ (s q)).params j else .fin (q.1.1 (.inl j)))
              = fun j => .fin (sn q i j) := by
            funext j
            simp only [sn, Mixed.seen, id]
            by_cases hj : isNew i j = true
            · rw [if_pos hj, if_pos hj]
              have h := (ih _ (hi ▸ hrank i j hj) j rfl).1
              show ((Relativistic.run (inp q.1.2 q.2) σ (s q)).par j).param = .fin (val _)
              rw [h]
            · rw [if_neg hj, if_neg hj]
          rw [this, (hinp _ _).grad, Fl.neg_fin]
        have h := Relativistic.C36_finite_step _ σ (s q) i ε m c d bhat _ _ (γ q.1.2 (sn q i) i) (q.2 i) (hinp q.1.2 q.2).reals hb
          (hst q i).2.2 (hst q i).1 e1 (congrFun (hinp _ _).normal i)
        simp only at h
        rw [Relativistic.vel_smul ε m c (q.1.1 (.inr i)), Relativistic.vel_smul ε] at h
        exact ⟨h.2.2, h.1⟩
    exact fun i => key _ i rfl
  have hXl : ∀ q i, X q (.inl i) = q.1.1 (.inl i) + ε * v (newP i (q, sn q i)) := fun q i => by
    show val _ = _
    rw [(hX q i).1]
  have hXr : ∀ q i, X q (.inr i) = newP i (q, sn q i) := fun q i => by
    show val _ = _
    rw [(hX q i).2]
  have mP : ∀ i, Measurable (newP i) := fun i => by
    have m1 : Measurable fun y : (((P ⊕ P → ℝ) × Bt) × (P → ℝ)) × (P → ℝ) => y.1.1.1 (.inr i) :=
      (measurable_pi_apply (Sum.inr i)).comp (measurable_fst.comp (measurable_fst.comp measurable_fst))
    have m2 : Measurable fun y : (((P ⊕ P → ℝ) × Bt) × (P → ℝ)) × (P → ℝ) => γ y.1.1.2 y.2 i :=
      (measurable_pi_apply i).comp (hγ.meas.comp (measurable_snd.prodMk (measurable_snd.comp (measurable_fst.comp measurable_fst))))
    have m3 : Measurable fun y : (((P ⊕ P → ℝ) × Bt) × (P → ℝ)) × (P → ℝ) => y.1.2 i :=
      (measurable_pi_apply i).comp (measurable_snd.comp measurable_fst)
    exact (((m1.sub (m2.const_mul ε)).add (m3.const_mul _)).sub (((hvc.measurable.comp m1).const_mul ε).const_mul d))
  have mX0 : ∀ i, Measurable fun q : ((P ⊕ P → ℝ) × Bt) × (P → ℝ) => q.1.1 (.inl i) := fun i =>
    (measurable_pi_apply (Sum.inl i)).comp (measurable_fst.comp measurable_fst)
  have mXl : Measurable fun q (i : P) => X q (.inl i) := by
    refine Mixed.measurable_new isNew rank hrank id _ (fun q i => q.1.1 (.inl i)) mX0 (fun i y => y.1.1.1 (.inl i) + ε * v (newP i y)) (fun i => ?_) hXl
    exact ((mX0 i).comp measurable_fst).add ((hvc.measurable.comp (mP i)).const_mul ε)
  have mXl' : ∀ i, Measurable fun q => X q (.inl i) := fun i => measurable_pi_iff.1 mXl i
  have msn : ∀ i, Measurable fun q => sn q i := fun i => measurable_pi_iff.2 fun k => by
    simp only [sn, Mixed.seen, id]
    by_cases hk : isNew i k = true
    · simp only [hk, if_true]; exact mXl' k
    · simp only [hk]; exact mX0 k
  have hXm : Measurable X := measurable_pi_iff.2 fun j => by
    cases j with
    | inl i => exact mXl' i
    | inr i =>
      rw [show (fun q => X q (.inr i)) = fun q => newP i (q, sn q i) from funext fun q => hXr q i]
      exact (mP i).comp (measurable_id.prodMk (msn i))
  refine ⟨X, hXm, fun q i => ⟨(hX q i).1.trans (congrArg Fl.fin (hXl q i).symm), (hX q i).2.trans (congrArg Fl.fin (hXr q i).symm)⟩,
    hK ε h0 X hXm.aemeasurable fun _ h1 q => ?_⟩
  -- the bounds
  have hs0 := Real.sqrt_nonneg ε
  have hss := Real.mul_self_sqrt h0
  have hs1 : √ε ≤ 1 := Real.sqrt_le_one.2 h1
  have hes : ε ≤ √ε := by nlinarith
  have hg0 := norm_nonneg (γ q.1.2 fun i => q.1.1 (.inl i))
  have hz0 := norm_nonneg q.2
  have hsn : ∀ i, ‖sn q i - fun i => q.1.1 (.inl i)‖ ≤ ε * c := fun i => by
    refine (pi_norm_le_iff_of_nonneg (by positivity)).2 fun k => ?_
    simp only [sn, Mixed.seen, id, Pi.sub_apply]
    by_cases hk : isNew i k = true
    · rw [if_pos hk, hXl, add_sub_cancel_left, norm_mul, Real.norm_of_nonneg h0]
      exact mul_le_mul_of_nonneg_left (hv _) h0
    · rw [if_neg hk, sub_self, norm_zero]; positivity
  have hγd : ∀ i, |γ q.1.2 (sn q i) i - γ q.1.2 (fun i => q.1.1 (.inl i)) i| ≤ Λ * (ε * c) := fun i =>
    (norm_le_pi_norm (γ q.1.2 (sn q i) - γ q.1.2 fun i => q.1.1 (.inl i)) i).trans
      ((hγ.lip _ _ _).trans (mul_le_mul_of_nonneg_left (hsn i) hΛ))
  have hzi : ∀ i, |q.2 i| ≤ ‖q.2‖ := fun i => norm_le_pi_norm q.2 i
  have hsq : √(ε * (2 * d - ε * bhat)) = √ε * √(2 * d - ε * bhat) := Real.sqrt_mul h0 _
  have hroot : |√(2 * d - ε * bhat) - √(2 * d)| ≤ ε * (|bhat| / √(2 * d)) := by
    refine (sqrt_sub_le (by positivity) _).trans ?_
    rw [show 2 * d - ε * bhat - 2 * d = -(ε * bhat) by ring, abs_neg, abs_mul, abs_of_nonneg h0, mul_div_assoc]
  have hrk : √(2 * d - ε * bhat) ≤ κ := by
    refine Real.sqrt_le_sqrt ?_
    have : -(ε * bhat) ≤ |bhat| := by
      have := neg_abs_le bhat
      nlinarith [abs_nonneg bhat]
    linarith
  have hA : ∀ i, |newP i (q, sn q i) - (q.1.1 (.inr i) + ε * (-γ q.1.2 (fun i => q.1.1 (.inl i)) i - d * v (q.1.1 (.inr i)))
      + √ε * (√(2 * d) * q.2 i))| ≤ ε * √ε * (Λ * c + |bhat| / √(2 * d) * ‖q.2‖) := fun i => by
    have e : newP i (q, sn q i) - (q.1.1 (.inr i) + ε * (-γ q.1.2 (fun i => q.1.1 (.inl i)) i - d * v (q.1.1 (.inr i)))
        + √ε * (√(2 * d) * q.2 i)) = -(ε * (γ q.1.2 (sn q i) i - γ q.1.2 (fun i => q.1.1 (.inl i)) i))
          + √ε * ((√(2 * d - ε * bhat) - √(2 * d)) * q.2 i) := by
      simp only [newP, hsq]; ring
    rw [e]
    refine (abs_add_le _ _).trans ?_
    rw [abs_neg, abs_mul, abs_of_nonneg h0, abs_mul, abs_of_nonneg hs0, abs_mul]
    have t1 : ε * |γ q.1.2 (sn q i) i - γ q.1.2 (fun i => q.1.1 (.inl i)) i| ≤ ε * (Λ * (√ε * c)) :=
      mul_le_mul_of_nonneg_left ((hγd i).trans (by gcongr)) h0
    have t2 : √ε * (|√(2 * d - ε * bhat) - √(2 * d)| * |q.2 i|) ≤ √ε * (ε * (|bhat| / √(2 * d)) * ‖q.2‖) :=
      mul_le_mul_of_nonneg_left (mul_le_mul hroot (hzi i) (abs_nonneg _) (by positivity)) hs0
    calc _ ≤ ε * (Λ * (√ε * c)) + √ε * (ε * (|bhat| / √(2 * d)) * ‖q.2‖) := add_le_add t1 t2
      _ = _ := by ring
  have hM : ∀ i, |newP i (q, sn q i) - q.1.1 (.inr i)| ≤ √ε * ((‖γ q.1.2 fun i => q.1.1 (.inl i)‖ + (Λ * c + d * c)) + κ * ‖q.2‖) := fun i => by
    have e : newP i (q, sn q i) - q.1.1 (.inr i) = -(ε * (γ q.1.2 (fun i => q.1.1 (.inl i)) i))
        - ε * (γ q.1.2 (sn q i) i - γ q.1.2 (fun i => q.1.1 (.inl i)) i) - ε * (d * v (q.1.1 (.inr i)))
          + √ε * (√(2 * d - ε * bhat) * q.2 i) := by
      simp only [newP, hsq]; ring
    rw [e]
    have t0 : |ε * (γ q.1.2 (fun i => q.1.1 (.inl i)) i)| ≤ √ε * ‖γ q.1.2 fun i => q.1.1 (.inl i)‖ := by
      rw [abs_mul, abs_of_nonneg h0]
      exact mul_le_mul hes (norm_le_pi_norm (γ q.1.2 fun i => q.1.1 (.inl i)) i) (abs_nonneg _) hs0
    have t1 : |ε * (γ q.1.2 (sn q i) i - γ q.1.2 (fun i => q.1.1 (.inl i)) i)| ≤ √ε * (Λ * c) := by
      rw [abs_mul, abs_of_nonneg h0]
      refine mul_le_mul hes ((hγd i).trans ?_) (abs_nonneg _) hs0
      exact mul_le_mul_of_nonneg_left (by nlinarith) hΛ
    have t2 : |ε * (d * v (q.1.1 (.inr i)))| ≤ √ε * (d * c) := by
      rw [abs_mul, abs_of_nonneg h0, abs_mul, abs_of_pos hd]
      exact mul_le_mul hes (mul_le_mul_of_nonneg_left (hv _) hd.le) (by positivity) hs0
    have t3 : |√ε * (√(2 * d - ε * bhat) * q.2 i)| ≤ √ε * (κ * ‖q.2‖) := by
      rw [abs_mul, abs_of_nonneg hs0, abs_mul, abs_of_nonneg (Real.sqrt_nonneg _)]
      exact mul_le_mul_of_nonneg_left (mul_le_mul hrk (hzi i) (abs_nonneg _) hκ0) hs0
    refine (abs_add_le _ _).trans ?_
    refine (add_le_add ((abs_sub _ _).trans (add_le_add ((abs_sub _ _).trans (add_le_add (abs_neg _).le le_rfl)) le_rfl)) le_rfl).trans ?_
    linarith
  have hR1 : 0 ≤ Λ * c + |bhat| / √(2 * d) * ‖q.2‖ := by positivity
  have hR2 : 0 ≤ 1 / m * ((‖γ q.1.2 fun i => q.1.1 (.inl i)‖ + (Λ * c + d * c)) + κ * ‖q.2‖) := by positivity
  refine ⟨fun i => ?_, fun i => ?_⟩
  · rw [hXl, one_mul, add_sub_add_left_eq_sub, ← mul_sub, abs_mul, abs_of_nonneg h0]
    calc ε * |v (newP i (q, sn q i)) - v (q.1.1 (.inr i))|
        ≤ ε * (1 / m * (√ε * ((‖γ q.1.2 fun i => q.1.1 (.inl i)‖ + (Λ * c + d * c)) + κ * ‖q.2‖))) := by
          refine mul_le_mul_of_nonneg_left ((Relativistic.vel_lip hm hc _ _).trans ?_) h0
          exact mul_le_mul_of_nonneg_left (hM i) (by positivity)
      _ = ε * √ε * (1 / m * ((‖γ q.1.2 fun i => q.1.1 (.inl i)‖ + (Λ * c + d * c)) + κ * ‖q.2‖)) := by ring
      _ ≤ ε * √ε * R q := mul_le_mul_of_nonneg_left (by simp only [R]; linarith) (by positivity)
  · rw [hXr, hS2 i]
    exact (hA i).trans (mul_le_mul_of_nonneg_left (by simp only [R]; linarith) (by positivity))

/-! ## The hypotheses are met

`U x = |x|²/2`, mini-batch gradients `x + β` with standard normal `β`, and standard normal draws. -/

theorem logPdf_growth {m c : ℝ} (hm : 0 < m) (hc : 0 < c) (t : ℝ) : c * |t| - 0 ≤ -Relativistic.logPdf m c t := by
  have h : |t| ≤ m * c * √(t ^ 2 / (m ^ 2 * c ^ 2) + 1) := by
    have e : m * c = √((m * c) ^ 2) := (Real.sqrt_sq (by positivity)).symm
    rw [e, ← Real.sqrt_mul (sq_nonneg _), ← Real.sqrt_sq_eq_abs]
    refine Real.sqrt_le_sqrt ?_
    have : (m * c) ^ 2 * (t ^ 2 / (m ^ 2 * c ^ 2) + 1) = t ^ 2 + (m * c) ^ 2 := by field_simp
    rw [this]
    nlinarith [sq_nonneg (m * c)]
  unfold Relativistic.logPdf
  nlinarith [mul_le_mul_of_nonneg_left h hc.le]

theorem relativistic_boltz (m c : ℝ) (hm : 0 < m) (hc : 0 < c) :
    IsFiniteMeasure (boltz fun x : P ⊕ P → ℝ => halfSq (fun i => x (.inl i)) + ∑ i, -Relativistic.logPdf m c (x (.inr i)) + 0) ∧
    Integrable (fun x => ‖x‖ ^ 3)
      (boltz fun x : P ⊕ P → ℝ => halfSq (fun i => x (.inl i)) + ∑ i, -Relativistic.logPdf m c (x (.inr i)) + 0) := by
  have e : (fun x : P ⊕ P → ℝ => halfSq (fun i => x (.inl i)) + ∑ i, -Relativistic.logPdf m c (x (.inr i)) + 0)
      = fun x => ∑ j, (Sum.elim (fun _ t => t ^ 2 / 2) (fun _ t => -Relativistic.logPdf m c t) : P ⊕ P → ℝ → ℝ) j (x j) := by
    funext x
    rw [Fintype.sum_sum_type, add_zero]
    rfl
  have h1 := linear_growth (h := fun t : ℝ => t ^ 2 / 2) (by fun_prop) 1 (1 / 2) one_pos fun t => by nlinarith [sq_nonneg (|t| - 1), sq_abs t]
  have m2 : Measurable fun t => -Relativistic.logPdf m c t :=
    (continuous_iff_continuousAt.2 fun p => (Relativistic.logPdf_deriv hm hc p).continuousAt).measurable
  have h2 := linear_growth m2 c 0 hc (logPdf_growth hm hc)
  rw [e]
  exact separable (Sum.elim (fun _ t => t ^ 2 / 2) (fun _ t => -Relativistic.logPdf m c t))
    (fun j => by cases j; exacts [(show Measurable fun t : ℝ => t ^ 2 / 2 by fun_prop), m2]) (fun j => by cases j; exacts [h1.1, h2.1]) (fun j => by cases j; exacts [h1.2, h2.2])

theorem noisy_third' {π : Measure (P ⊕ P → ℝ)} {ν : Measure (P → ℝ)} [IsFiniteMeasure π] (hν : UnitNoise ν)
    (hπ : Integrable (fun x => ‖x‖ ^ 3) π) :
    Integrable (fun y : (P ⊕ P → ℝ) × (P → ℝ) => ‖(fun i => y.1 (.inl i)) + y.2‖ ^ 3) (π.prod ν) := by
  have := hν.prob
  refine (((hπ.comp_fst ν).add (hν.third.comp_snd π)).const_mul 4).mono' ?_ (.of_forall fun y => ?_)
  · have hm1 : Measurable fun y : (P ⊕ P → ℝ) × (P → ℝ) => (fun i => y.1 (.inl i) : P → ℝ) :=
      measurable_pi_iff.2 fun i => (measurable_pi_apply (Sum.inl i)).comp measurable_fst
    exact ((hm1.add measurable_snd).norm.pow_const 3).aestronglyMeasurable
  · rw [norm_pow, norm_norm]
    have h1 := norm_nonneg y.1
    have h2 := norm_nonneg y.2
    have h3 : ‖(fun i => y.1 (.inl i) : P → ℝ)‖ ≤ ‖y.1‖ := (pi_norm_le_iff_of_nonneg h1).2 fun i => norm_le_pi_norm y.1 (.inl i)
    refine (pow_le_pow_left₀ (norm_nonneg _) ((norm_add_le _ _).trans (add_le_add h3 le_rfl)) 3).trans ?_
    simp only [Pi.add_apply]
    nlinarith [mul_nonneg (add_nonneg h1 h2) (sq_nonneg (‖y.1‖ - ‖y.2‖))]

example (m c d bhat : ℝ) (hm : 0 < m) (hc : 0 < c) (hd : 0 < d) (f : (P ⊕ P → ℝ) → ℝ) (hf : ContDiff ℝ 3 f) (hfc : HasCompactSupport f) :
    let N := Measure.pi fun _ : P => ProbabilityTheory.gaussianReal 0 1
    let π := boltz fun x : P ⊕ P → ℝ => halfSq (fun i => x (.inl i)) + ∑ i, -Relativistic.logPdf m c (x (.inr i)) + 0
    ∃ K, ∀ ε, 0 ≤ ε → 0 ≤ ε * (2 * d - ε * bhat) → ∀ σ : Relativistic.Schedule P,
      ∃ X : ((P ⊕ P → ℝ) × (P → ℝ)) × (P → ℝ) → P ⊕ P → ℝ, Measurable X ∧
        (∀ (q : ((P ⊕ P → ℝ) × (P → ℝ)) × (P → ℝ)) (i : P) (r : Relativistic.State P),
          r = Relativistic.run ⟨.fin ε, .fin m, .fin c, .fin d, .fin bhat, fun i => .fin (q.2 i),
            fun θ i => θ i + .fin (q.1.2 i), fun _ => 0⟩ σ
            ⟨fun i => ⟨.fin (q.1.1 (.inr i)), .fin (q.1.1 (.inl i)), .fin (q.1.1 (.inl i)), 0, 0, 0⟩, 0⟩ →
          (r.par i).param = .fin (X q (.inl i)) ∧ (r.par i).mom = .fin (X q (.inr i))) ∧
        |∫ q, f (X q) ∂((π.prod N).prod N) - ∫ x, f x ∂π| ≤ K * (ε * √ε) := by
  intro N π
  have hN : UnitNoise N := unitNoise_gauss
  obtain ⟨h1, h2⟩ := relativistic_boltz (P := P) m c hm hc
  have := hN.prob
  obtain ⟨K, hK⟩ := C104_relativistic_invariant (halfSq : (P → ℝ) → ℝ) halfSq_smooth m c d bhat 0 hm hc hd N (fun β x => x + β) 1
    (noisy_batchGrad hN) N hN π rfl (noisy_third' hN h2) f hf hfc
  refine ⟨K, fun ε h0 hb σ => ?_⟩
  obtain ⟨X, hX, hr, hb⟩ := hK ε h0 hb σ
    (fun β z => ⟨.fin ε, .fin m, .fin c, .fin d, .fin bhat, fun i => .fin (z i), fun θ i => θ i + .fin (β i), fun _ => 0⟩)
    (fun q => ⟨fun i => ⟨.fin (q.1.1 (.inr i)), .fin (q.1.1 (.inl i)), .fin (q.1.1 (.inl i)), 0, 0, 0⟩, 0⟩)
    (fun β z => ⟨⟨rfl, rfl, rfl, rfl, rfl, hm, hc⟩, fun _ => rfl, rfl⟩) fun q i => ⟨rfl, rfl, rfl⟩
  exact ⟨X, hX, fun q i r e => e ▸ hr q i, hb⟩

end PySGMCMC.Invariance
