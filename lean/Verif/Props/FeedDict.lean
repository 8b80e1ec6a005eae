import Verif.Props.SamplerBase

/-!
# C11: which `feed_dict` arguments are rejected

An object that is neither `None` nor has an `update` method is rejected before anything happens; `None` means an empty dictionary.
-/

namespace PySGMCMC.SamplerBase
variable {V C : Type}

/-- **C11** A `feed_dict` that is neither `None` nor a dictionary is rejected, in every state; the sampler stays as it was, so the next call
does what it would have done without. -/
theorem C11_feed_dict_checked (E : Env V C) (burnIn : Int) (nP : Nat) (s : Sampler E) :
    ((burnInNext E burnIn nP .bad s).result = .error .assertion ∧ (burnInNext E burnIn nP .bad s).sampler = s)
    ∧ ((baseNext E .bad s).result = .error .assertion ∧ (baseNext E .bad s).sampler = s)
    ∧ burnInNext E burnIn nP .none s = burnInNext E burnIn nP (.dict Dict.empty) s ∧ baseNext E .none s = baseNext E (.dict Dict.empty) s :=
  ⟨⟨rfl, rfl⟩, ⟨rfl, rfl⟩, rfl, rfl⟩

/-- **C11** A rejected call in the middle of a run changes nothing but the list of results. -/
theorem C11_rejected_in_between (E : Env V C) (burnIn : Int) (nP : Nat) (fs gs : List (Feed V)) (s : Sampler E) :
    let with_ := history (burnInNext E burnIn nP) (fs ++ .bad :: gs) s
    let without := history (burnInNext E burnIn nP) (fs ++ gs) s
    with_.2 = without.2 ∧ with_.1[fs.length]? = some (.error .assertion) ∧ with_.1.eraseIdx fs.length = without.1 := by
  induction fs generalizing s with
  | nil => exact ⟨rfl, rfl, rfl⟩
  | cons f fs ih =>
    obtain ⟨h1, h2, h3⟩ := ih (burnInNext E burnIn nP f s).sampler
    exact ⟨h1, by simpa [history] using h2, by simpa [history] using h3⟩

end PySGMCMC.SamplerBase
