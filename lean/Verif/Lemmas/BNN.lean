import Verif.Model.BNN
import Verif.Lemmas.Iter
import Mathlib.Tactic.Ring
import Mathlib.Data.Nat.ModEq

/-! Lemmas about the sampling loop of `BayesianNeuralNetwork.train`. -/

namespace PySGMCMC.BNN

variable {ω C : Type}

/-- The iterations whose network is kept. -/
def Eligible (cfg : Cfg) (i : Nat) : Bool := decide (cfg.burnIn < i) && decide (i % cfg.sampleSteps = 0)

/-- How many iterations below `K + 1` are eligible. -/
theorem eligible_count (cfg : Cfg) (K : Nat) :
    ((List.range (K + 1)).filter (Eligible cfg)).length = K / cfg.sampleSteps - cfg.burnIn / cfg.sampleSteps := by
  induction K with
  | zero => simp [Eligible]
  | succ K ih =>
    rw [List.range_succ, List.filter_append, List.length_append, ih, Nat.succ_div]
    by_cases hd : cfg.sampleSteps ∣ K + 1
    · rw [if_pos hd]
      by_cases hb : cfg.burnIn < K + 1
      · have h1 : cfg.burnIn / cfg.sampleSteps ≤ K / cfg.sampleSteps := Nat.div_le_div_right (by omega)
        have : Eligible cfg (K + 1) = true := by
          simp [Eligible, hb, Nat.mod_eq_zero_of_dvd hd]
        simp [this]
        omega
      · have h1 : (K + 1) / cfg.sampleSteps ≤ cfg.burnIn / cfg.sampleSteps := Nat.div_le_div_right (by omega)
        rw [Nat.succ_div, if_pos hd] at h1
        have : Eligible cfg (K + 1) = false := by simp [Eligible, hb]
        simp [this]
        omega
    · rw [if_neg hd]
      have : Eligible cfg (K + 1) = false := by
        simp only [Eligible, Bool.and_eq_false_iff, decide_eq_false_iff_not]
        exact Or.inr fun h => hd (Nat.dvd_of_mod_eq_zero h)
      simp [this]

/-- The networks kept among `results`, which are the sampler's outputs number `i`, `i + 1`, … -/
def kept (cfg : Cfg) (results : List (Sample × C)) (i : Nat) : List Sample :=
  ((results.zipIdx i).filter fun p => Eligible cfg p.2).map (·.1.1)

theorem kept_cons (cfg : Cfg) (r : Sample × C) (rs : List (Sample × C)) (i : Nat) :
    kept cfg (r :: rs) i = if Eligible cfg i then r.1 :: kept cfg rs (i + 1) else kept cfg rs (i + 1) := by
  unfold kept
  rw [List.zipIdx_cons]
  by_cases h : Eligible cfg i = true
  · simp [h]
  · simp [h]

theorem kept_nil (cfg : Cfg) (i : Nat) : kept cfg ([] : List (Sample × C)) i = [] := rfl

theorem kept_length (cfg : Cfg) (results : List (Sample × C)) :
    (kept cfg results 0).length = ((List.range results.length).filter (Eligible cfg)).length := by
  have h : (List.range results.length) = results.zipIdx.map (·.2) := by
    rw [List.range_eq_range']
    exact (List.zipIdx_map_snd _ _).symm
  unfold kept
  rw [List.length_map, h, List.filter_map, List.length_map]
  rfl

theorem kept_append (cfg : Cfg) (a b : List (Sample × C)) (i : Nat) :
    kept cfg (a ++ b) i = kept cfg a i ++ kept cfg b (i + a.length) := by
  unfold kept
  rw [List.zipIdx_append, List.filter_append, List.map_append]

theorem kept_take (cfg : Cfg) (results : List (Sample × C)) (i k : Nat) :
    kept cfg (results.take k) i = (kept cfg results i).take (kept cfg (results.take k) i).length := by
  conv_rhs => rw [← List.take_append_drop k results, kept_append]
  simp

/-- The loop on sampler outputs `results`: either the quota is reached after `k` of them, or all of them are
consumed and the loop goes on. -/
theorem trainLoop_spec (cfg : Cfg) (next : ω → Step ω (Sample × C)) (log : ω → Except PyErr Unit)
    (hlog : ∀ w, log w = .ok ()) (results : List (Sample × C)) : ∀ (fuel i : Nat) (acc : List Sample) (w : ω),
    (calls next results.length w).1 = results.map .ok → acc.length < cfg.nNets → results.length ≤ fuel →
    (cfg.nNets ≤ acc.length + (kept cfg results i).length → ∃ k, 0 < k ∧ k ≤ results.length ∧
      Eligible cfg (i + k - 1) = true ∧ acc.length + (kept cfg (results.take k) i).length = cfg.nNets ∧
      trainLoop cfg next log fuel i acc w = (.ok (), acc ++ kept cfg (results.take k) i, (calls next k w).2)) ∧
    (acc.length + (kept cfg results i).length < cfg.nNets →
      trainLoop cfg next log fuel i acc w = trainLoop cfg next log (fuel - results.length) (i + results.length)
        (acc ++ kept cfg results i) (calls next results.length w).2) := by
  induction results with
  | nil =>
    intro fuel i acc w _ hacc _
    constructor
    · intro h; simp [kept_nil] at h; omega
    · intro _; simp [kept_nil]
  | cons r rs ih =>
    intro fuel i acc w hcalls hacc hfuel
    obtain ⟨fuel, rfl⟩ : ∃ f, fuel = f + 1 := ⟨fuel - 1, by simp at hfuel; omega⟩
    have hc : (next w).1 = .ok r ∧ (calls next rs.length (next w).2).1 = rs.map .ok := by
      simpa [calls_succ] using hcalls
    have hnext : next w = (.ok (r.1, r.2), (next w).2) := by
      rw [← hc.1]
    have hfuel' : rs.length ≤ fuel := by simpa using hfuel
    by_cases hel : Eligible cfg i = true
    · have hb : ¬ i ≤ cfg.burnIn := by simp [Eligible] at hel; omega
      have hm : i % cfg.sampleSteps = 0 := by simp [Eligible] at hel; exact hel.2
      have hpush : pushBounded cfg.nNets acc r.1 = acc ++ [r.1] := by rw [pushBounded, if_pos hacc]
      have hstep : trainLoop cfg next log (fuel + 1) i acc w =
          if (acc ++ [r.1]).length = cfg.nNets then (.ok (), acc ++ [r.1], (next w).2)
          else trainLoop cfg next log fuel (i + 1) (acc ++ [r.1]) (next w).2 := by
        rw [trainLoop, hnext]
        simp only [if_neg hb, if_pos hm, hlog, hpush]
      rw [hstep, kept_cons, if_pos hel]
      by_cases hfull : (acc ++ [r.1]).length = cfg.nNets
      · rw [if_pos hfull]
        simp only [List.length_append, List.length_cons, List.length_nil] at hfull
        constructor
        · intro _
          refine ⟨1, by omega, by simp, by simpa using hel, ?_, ?_⟩
          · simp [kept_cons, hel, kept_nil]; omega
          · simp [kept_cons, hel, kept_nil, calls_succ]
        · intro h; simp at h; omega
      · rw [if_neg hfull]
        simp only [List.length_append, List.length_cons, List.length_nil] at hfull
        obtain ⟨ih1, ih2⟩ := ih fuel (i + 1) (acc ++ [r.1]) (next w).2 hc.2 (by simp; omega) hfuel'
        constructor
        · intro h
          obtain ⟨k, hk0, hk, hke, hkl, hkt⟩ := ih1 (by simp at h ⊢; omega)
          refine ⟨k + 1, by omega, by simpa using hk, ?_, ?_, ?_⟩
          · rw [show i + (k + 1) - 1 = i + 1 + k - 1 by omega]; exact hke
          · simp only [List.take_succ_cons, kept_cons, if_pos hel, List.length_cons]
            simp at hkl; omega
          · rw [hkt]
            simp [kept_cons, hel, calls_succ]
        · intro h
          rw [ih2 (by simp at h ⊢; omega)]
          simp only [List.length_cons, calls_succ, List.append_assoc, List.singleton_append]
          rw [show fuel + 1 - (rs.length + 1) = fuel - rs.length by omega,
            show i + (rs.length + 1) = i + 1 + rs.length by omega]
    · have hstep : trainLoop cfg next log (fuel + 1) i acc w = trainLoop cfg next log fuel (i + 1) acc (next w).2 := by
        rw [trainLoop, hnext]
        by_cases hb : i ≤ cfg.burnIn
        · simp only [if_pos hb, hlog]
          split <;> rfl
        · have hm : ¬ i % cfg.sampleSteps = 0 := by
            intro hm; exact hel (by simp [Eligible, hm]; omega)
          simp only [if_neg hb, if_neg hm]
      rw [hstep, kept_cons, if_neg hel]
      obtain ⟨ih1, ih2⟩ := ih fuel (i + 1) acc (next w).2 hc.2 hacc hfuel'
      constructor
      · intro h
        obtain ⟨k, hk0, hk, hke, hkl, hkt⟩ := ih1 h
        refine ⟨k + 1, by omega, by simpa using hk, ?_, ?_, ?_⟩
        · rw [show i + (k + 1) - 1 = i + 1 + k - 1 by omega]; exact hke
        · simp only [List.take_succ_cons, kept_cons, if_neg hel]
          exact hkl
        · rw [hkt]
          simp [kept_cons, hel, calls_succ]
      · intro h
        rw [ih2 h]
        simp only [List.length_cons, calls_succ]
        rw [show fuel + 1 - (rs.length + 1) = fuel - rs.length by omega,
          show i + (rs.length + 1) = i + 1 + rs.length by omega]

end PySGMCMC.BNN
