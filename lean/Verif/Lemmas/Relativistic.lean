import Verif.Spec.Relativistic
import Mathlib.Logic.Function.Basic

namespace PySGMCMC.Relativistic

variable {P : Type} [DecidableEq P]

/-- The state of a parameter when exactly the nodes in `D` have been executed. -/
noncomputable def canon (inp : Inputs P) (i : P) (γ : Fl) (p : PState) (D : Op → Bool) : PState :=
  let n := next inp i γ p
  { mom := if D .setMom then n.mom else p.mom
    vec := if D .setVec then n.vec else p.vec
    param := if D .setParam then n.param else p.param
    tGrad := if D .xGrad then n.tGrad else p.tGrad
    tMom := if D .xMom then n.tMom else p.tMom
    tVel := if D .xVel then n.tVel else p.tVel }

theorem canon_step (inp : Inputs P) (params : P → Fl) (i : P) (γ : Fl) (p : PState)
    (D D' : Op → Bool) (o : Op) (hclosed : ∀ o, D o = true → ∀ d ∈ o.deps, D d = true) (hnew : D o = false)
    (hdeps : ∀ d ∈ o.deps, D d = true) (hD' : ∀ o', D' o' = (D o' || decide (o' = o))) :
    evalOp inp params i o (canon inp i γ p D)
      = canon inp i (if o = .xGrad then -(inp.grad params i) else γ) p D' := by
  have hf : ∀ o', (∃ d ∈ o'.deps, D d = false) → D o' = false := by
    rintro o' ⟨d, hd, hd'⟩
    cases h : D o' with
    | false => rfl
    | true => rw [hclosed o' h d hd] at hd'; cases hd'
  cases o with
  | xGrad =>
    have h1 : D .xMom = false := hf _ ⟨_, by decide, hnew⟩
    have h2 : D .setMom = false := hf _ ⟨_, by decide, h1⟩
    have h3 : D .xVel = false := hf _ ⟨_, by decide, h2⟩
    have h4 : D .setVec = false := hf _ ⟨_, by decide, h3⟩
    have h5 : D .setParam = false := hf _ ⟨_, by decide, h4⟩
    simp [evalOp, canon, hD', h1, h2, h3, h4, h5, next]
  | xMom =>
    have h1 : D .xGrad = true := hdeps _ (by decide)
    have h2 : D .setMom = false := hf _ ⟨_, by decide, hnew⟩
    simp [evalOp, canon, hD', h1, h2, next]
  | setMom =>
    have h1 : D .xMom = true := hdeps _ (by decide)
    simp [evalOp, canon, hD', h1, hnew, next]
  | xVel =>
    have h1 : D .setMom = true := hdeps _ (by decide)
    simp [evalOp, canon, hD', h1, next]
  | setVec =>
    have h1 : D .xVel = true := hdeps _ (by decide)
    simp [evalOp, canon, hD', h1, hnew, next]
  | setParam =>
    have h1 : D .setVec = true := hdeps _ (by decide)
    simp [evalOp, canon, hD', h1, next]

theorem exec_same (inp : Inputs P) (s : State P) (i : P) (o : Op) :
    (exec inp s (.op i o)).par i = evalOp inp s.params i o (s.par i) := Function.update_self ..

theorem exec_ne (inp : Inputs P) (s : State P) {i j : P} (o : Op) (h : i ≠ j) :
    (exec inp s (.op j o)).par i = s.par i := Function.update_of_ne h ..

instance : DecidableEq (Node P) := fun a b =>
  match a, b with
  | .cost, .cost => isTrue rfl
  | .cost, .op _ _ => isFalse (by simp)
  | .op _ _, .cost => isFalse (by simp)
  | .op i o, .op j o' =>
    if h : i = j ∧ o = o' then isTrue (by rw [h.1, h.2]) else isFalse (by simpa using h)

/-- The nodes of parameter `i` among `l`. -/
def doneOf (l : List (Node P)) (i : P) (o : Op) : Bool := decide (Node.op i o ∈ l)

theorem deps_mem (σ : Schedule P) {pre post : List (Node P)} (h : σ.order = pre ++ post) {n d : Node P}
    (hn : n ∈ pre) (hd : d ∈ n.deps) : d ∈ pre := by
  obtain ⟨a, b, rfl⟩ := List.append_of_mem hn
  have := σ.respects a n (b ++ post) (by simp [h]) d hd
  simp [this]

theorem run_canon (inp : Inputs P) (σ : Schedule P) (s : State P) (i : P) (pre : List (Node P)) :
    ∀ post, σ.order = pre ++ post →
      ∃ γ, (pre.foldl (exec inp) s).par i = canon inp i γ (s.par i) (doneOf pre i) := by
  induction pre using List.reverseRecOn with
  | nil =>
    intro post _
    exact ⟨(s.par i).tGrad, by simp [canon, doneOf]⟩
  | append_singleton pre n ih =>
    intro post h
    obtain ⟨γ, hγ⟩ := ih (n :: post) (by simp [h])
    rw [List.foldl_append, List.foldl_cons, List.foldl_nil]
    have hnd := σ.nodup
    rw [h] at hnd
    have hn : n ∉ pre := by
      intro hm
      have := (List.nodup_append.1 (List.nodup_append.1 hnd).1).2.2 n hm n (by simp)
      exact this rfl
    have hsame : (∀ o, n ≠ .op i o) → doneOf (pre ++ [n]) i = doneOf pre i := by
      intro hne
      funext o
      have := hne o
      simp only [doneOf, List.mem_append, List.mem_singleton, this.symm, or_false]
    cases n with
    | cost => exact ⟨γ, by rw [hsame (by simp)]; exact hγ⟩
    | op j o =>
      by_cases hj : j = i
      · subst hj
        refine ⟨if o = .xGrad then -(inp.grad (pre.foldl (exec inp) s).params j) else γ, ?_⟩
        rw [exec_same, hγ]
        apply canon_step
        · intro o' ho d hd
          simp only [doneOf, decide_eq_true_eq] at ho ⊢
          exact deps_mem σ (post := Node.op j o :: post) (by simp [h]) ho (List.mem_map_of_mem hd)
        · simp [doneOf, hn]
        · intro d hd
          simp only [doneOf, decide_eq_true_eq]
          exact σ.respects pre (.op j o) post (by simp [h]) _ (List.mem_map_of_mem hd)
        · intro o'
          simp only [doneOf, List.mem_append, List.mem_singleton, Node.op.injEq, true_and, Bool.decide_or]
      · refine ⟨γ, ?_⟩
        rw [hsame (by simp [hj])]
        rw [exec_ne _ _ _ (Ne.symm hj), hγ]

theorem param_stable (inp : Inputs P) (i : P) (l : List (Node P)) (s : State P) (h : Node.op i .setParam ∉ l) :
    ((l.foldl (exec inp) s).par i).param = (s.par i).param := by
  induction l generalizing s with
  | nil => rfl
  | cons n l ih =>
    simp only [List.mem_cons, not_or] at h
    rw [List.foldl_cons, ih _ h.2]
    cases n with
    | cost => rfl
    | op j o =>
      by_cases hj : i = j
      · subst hj
        rw [exec_same]
        have : o ≠ .setParam := fun ho => h.1 (by rw [ho])
        cases o <;> simp_all [evalOp]
      · rw [exec_ne _ _ _ hj]

theorem grad_stable (inp : Inputs P) (i : P) (l : List (Node P)) (s : State P) (h : Node.op i .xGrad ∉ l) :
    ((l.foldl (exec inp) s).par i).tGrad = (s.par i).tGrad := by
  induction l generalizing s with
  | nil => rfl
  | cons n l ih =>
    simp only [List.mem_cons, not_or] at h
    rw [List.foldl_cons, ih _ h.2]
    cases n with
    | cost => rfl
    | op j o =>
      by_cases hj : i = j
      · subst hj
        rw [exec_same]
        have : o ≠ .xGrad := fun ho => h.1 (by rw [ho])
        cases o <;> simp_all [evalOp]
      · rw [exec_ne _ _ _ hj]

/-- The whole run: every parameter makes the simultaneous update for the gradient that was evaluated. -/
theorem run_par (inp : Inputs P) (σ : Schedule P) (s : State P) (i : P) :
    (run inp σ s).par i = next inp i ((run inp σ s).par i).tGrad (s.par i) := by
  obtain ⟨γ, h⟩ := run_canon inp σ s i σ.order [] (by simp)
  have hall : doneOf σ.order i = fun _ => true := by
    funext o; simp [doneOf, σ.complete]
  have h2 : (run inp σ s).par i = next inp i γ (s.par i) := by
    unfold run; rw [h, hall]; simp [canon]
  have h3 : ((run inp σ s).par i).tGrad = γ := by rw [h2]; rfl
  rw [h3, h2]

/-- The gradient is evaluated at the values the target parameters have at that moment: new if their assignment was
executed before, old otherwise. -/
theorem run_grad_at (inp : Inputs P) (σ : Schedule P) (s : State P) (i : P) (pre post : List (Node P))
    (horder : σ.order = pre ++ .op i .xGrad :: post) :
    ((run inp σ s).par i).tGrad
      = -(inp.grad (fun j => if Node.op j .setParam ∈ pre then (run inp σ s).params j else s.params j) i) := by
  have hnd := σ.nodup
  rw [horder] at hnd
  obtain ⟨hpre, hcons, hdisj⟩ := List.nodup_append.1 hnd
  have hrun : run inp σ s = post.foldl (exec inp) (exec inp (pre.foldl (exec inp) s) (.op i .xGrad)) := by
    unfold run; rw [horder, List.foldl_append, List.foldl_cons]
  have hg : Node.op i .xGrad ∉ post := (List.nodup_cons.1 hcons).1
  have e1 : ((run inp σ s).par i).tGrad = -(inp.grad (pre.foldl (exec inp) s).params i) := by
    rw [hrun, grad_stable inp i post _ hg]
    rw [exec_same]; rfl
  rw [e1]
  congr 2
  funext j
  by_cases hj : Node.op j .setParam ∈ pre
  · simp only [hj, if_true]
    show ((pre.foldl (exec inp) s).par j).param = ((run inp σ s).par j).param
    have hpost : Node.op j .setParam ∉ Node.op i .xGrad :: post := fun hm => hdisj _ hj _ hm rfl
    have := param_stable inp j (Node.op i .xGrad :: post) (pre.foldl (exec inp) s) hpost
    rw [← this]; unfold run; rw [horder, List.foldl_append]
  · simp only [hj, if_false]
    exact param_stable inp j pre s hj

/-- The gradient of parameter `i` is evaluated at its own old value; every other parameter has, at that moment,
either its old or its new value. -/
theorem run_grad (inp : Inputs P) (σ : Schedule P) (s : State P) (i : P) :
    ∃ isNew : P → Bool, isNew i = false ∧
      ((run inp σ s).par i).tGrad
        = -(inp.grad (fun j => if isNew j then (run inp σ s).params j else s.params j) i) := by
  obtain ⟨pre, post, horder⟩ := List.append_of_mem (σ.complete (.op i .xGrad))
  have hnd := σ.nodup
  rw [horder] at hnd
  obtain ⟨hpre, hcons, hdisj⟩ := List.nodup_append.1 hnd
  refine ⟨fun j => decide (Node.op j .setParam ∈ pre), ?_, ?_⟩
  · simp only [decide_eq_false_iff_not]
    intro hm
    have h1 : Node.op i .setVec ∈ pre := deps_mem σ horder hm (List.mem_map_of_mem (by decide))
    have h2 : Node.op i .xVel ∈ pre := deps_mem σ horder h1 (List.mem_map_of_mem (by decide))
    have h4 : Node.op i .setMom ∈ pre := deps_mem σ horder h2 (List.mem_map_of_mem (by decide))
    have h5 : Node.op i .xMom ∈ pre := deps_mem σ horder h4 (List.mem_map_of_mem (by decide))
    have h3 : Node.op i .xGrad ∈ pre := deps_mem σ horder h5 (List.mem_map_of_mem (by decide))
    exact hdisj _ h3 _ (by simp) rfl
  · rw [run_grad_at inp σ s i pre post horder]
    simp only [decide_eq_true_eq]

/-- The cost is evaluated with every parameter at its old or its new value. -/
theorem cost_stable (inp : Inputs P) (l : List (Node P)) (s : State P) (h : Node.cost ∉ l) :
    (l.foldl (exec inp) s).cost = s.cost := by
  induction l generalizing s with
  | nil => rfl
  | cons n l ih =>
    simp only [List.mem_cons, not_or] at h
    rw [List.foldl_cons, ih _ h.2]
    cases n with
    | cost => exact absurd rfl h.1
    | op j o => rfl

theorem run_cost_at (inp : Inputs P) (σ : Schedule P) (s : State P) (pre post : List (Node P))
    (horder : σ.order = pre ++ .cost :: post) :
    (run inp σ s).cost
      = inp.cost (fun j => if Node.op j .setParam ∈ pre then (run inp σ s).params j else s.params j) := by
  have hnd := σ.nodup
  rw [horder] at hnd
  obtain ⟨hpre, hcons, hdisj⟩ := List.nodup_append.1 hnd
  have hrun : run inp σ s = post.foldl (exec inp) (exec inp (pre.foldl (exec inp) s) .cost) := by
    unfold run; rw [horder, List.foldl_append, List.foldl_cons]
  have e1 : (run inp σ s).cost = inp.cost (pre.foldl (exec inp) s).params := by
    rw [hrun, cost_stable inp post _ (List.nodup_cons.1 hcons).1]; rfl
  rw [e1]
  congr 1
  funext j
  by_cases hj : Node.op j .setParam ∈ pre
  · simp only [hj, if_true]
    have hpost : Node.op j .setParam ∉ Node.cost :: post := fun hm => hdisj _ hj _ hm rfl
    have := param_stable inp j (Node.cost :: post) (pre.foldl (exec inp) s) hpost
    show ((pre.foldl (exec inp) s).par j).param = ((run inp σ s).par j).param
    rw [← this]; unfold run; rw [horder, List.foldl_append]
  · simp only [hj, if_false]
    exact param_stable inp j pre s hj

theorem run_cost (inp : Inputs P) (σ : Schedule P) (s : State P) :
    ∃ isNew : P → Bool,
      (run inp σ s).cost = inp.cost (fun j => if isNew j then (run inp σ s).params j else s.params j) := by
  obtain ⟨pre, post, horder⟩ := List.append_of_mem (σ.complete .cost)
  refine ⟨fun j => decide (Node.op j .setParam ∈ pre), ?_⟩
  rw [run_cost_at inp σ s pre post horder]
  simp only [decide_eq_true_eq]

/-! ## Building schedules -/

/-- Checks that every node comes after its dependencies. -/
def checkOrder : List (Node P) → List (Node P) → Bool
  | _, [] => true
  | done, n :: rest => n.deps.all (fun d => decide (d ∈ done)) && checkOrder (done ++ [n]) rest

theorem checkOrder_respects (l : List (Node P)) : ∀ (done : List (Node P)), checkOrder done l = true →
    ∀ pre n post, l = pre ++ n :: post → ∀ d ∈ n.deps, d ∈ done ++ pre := by
  induction l with
  | nil => intro _ _ pre n post h; simp at h
  | cons m l ih =>
    intro done hc pre n post h d hd
    simp only [checkOrder, Bool.and_eq_true, List.all_eq_true, decide_eq_true_eq] at hc
    cases pre with
    | nil =>
      simp only [List.nil_append, List.cons.injEq] at h
      obtain ⟨rfl, _⟩ := h
      simpa using hc.1 d hd
    | cons a pre =>
      simp only [List.cons_append, List.cons.injEq] at h
      obtain ⟨rfl, rfl⟩ := h
      have := ih _ hc.2 pre n post rfl d hd
      simpa using this

/-- A checked schedule. -/
def Schedule.ofList (l : List (Node P)) (h1 : l.Nodup) (h2 : ∀ n, n ∈ l) (h3 : checkOrder [] l = true) :
    Schedule P :=
  ⟨l, h1, h2, fun pre n post h d hd => by simpa using checkOrder_respects l [] h3 pre n post h d hd⟩

theorem Op.mem_all (o : Op) : o ∈ Op.all := by cases o <;> decide

/-- One parameter after the other, cost first. -/
def sequentialOrder (ps : List P) : List (Node P) := .cost :: ps.flatMap fun i => Op.all.map (Node.op i)

/-- The schedule that handles `false` completely before `true`. -/
def seqBool : Schedule Bool :=
  .ofList (sequentialOrder [false, true]) (by decide)
    (by rintro (⟨i, o⟩ | _) <;> simp [sequentialOrder, Op.mem_all]) (by decide)

/-- The only parameter, node by node. -/
def seqUnit : Schedule Unit :=
  .ofList (sequentialOrder [()]) (by decide)
    (by rintro (⟨i, o⟩ | _) <;> simp [sequentialOrder, Op.mem_all]) (by decide)

/-- All gradients first, then parameter by parameter. -/
def gradsFirstBool : Schedule Bool :=
  .ofList (.cost :: .op false .xGrad :: .op true .xGrad ::
      [false, true].flatMap fun i => Op.all.tail.map (Node.op i)) (by decide)
    (by
      rintro (⟨i, o⟩ | _)
      · have := Op.mem_all o
        simp only [Op.all, List.mem_cons, List.not_mem_nil, or_false] at this
        cases i <;> rcases this with (rfl | this)
        all_goals simp [Op.all]
        all_goals tauto
      · simp) (by decide)

/-- The cost last. -/
def costLastUnit : Schedule Unit :=
  .ofList ((sequentialOrder [()]).tail ++ [.cost]) (by decide)
    (by rintro (⟨i, o⟩ | _) <;> simp [sequentialOrder, Op.mem_all]) (by decide)

end PySGMCMC.Relativistic
