import Verif.Model.Names
import Verif.Props.Graph
import Verif.Props.Crf
/- C67: the overloads which take names. -/

set_option linter.unusedSectionVars false

namespace EFG

variable {F : Type} [Arith F]

namespace State

theorem findVariable_unknown {s : State F} {name : String} (h : ∀ u ∈ s.vars, u.name ≠ name) :
    s.findVariable name = .throw := by
  unfold findVariable
  rw [List.find?_eq_none.mpr (by intro u hu; simpa using h u hu)]

theorem findVariable_first {s : State F} {l r : List Var} {v : Var} (h : s.vars = l ++ v :: r)
    (hl : ∀ u ∈ l, u.name ≠ v.name) : s.findVariable v.name = .ok v := by
  unfold findVariable
  have h1 : l.find? (fun u => u.name == v.name) = none :=
    List.find?_eq_none.mpr (by intro u hu; simpa using hl u hu)
  have h2 : s.vars.find? (fun u => u.name == v.name) = some v := by
    rw [h, List.find?_append, h1]
    simp
  rw [h2]

theorem findVariable_only {s : State F} {v : Var} (hv : v ∈ s.vars)
    (hu : ∀ u ∈ s.vars, u.name = v.name → u = v) : s.findVariable v.name = .ok v := by
  unfold findVariable
  cases h : s.vars.find? (fun u => u.name == v.name) with
  | none => exact absurd (List.find?_eq_none.mp h v hv) (by simp)
  | some w =>
    have h1 := List.mem_of_find?_eq_some h
    have h2 : w.name = v.name := by simpa using List.find?_some h
    rw [hu w h1 h2]

theorem findVariables_unknown {s : State F} {names : List String} {name : String} (hn : name ∈ names)
    (h : ∀ u ∈ s.vars, u.name ≠ name) : Res.mapList s.findVariable names = .throw := by
  cases hm : Res.mapList s.findVariable names with
  | throw => rfl
  | ub => exact absurd hm (Res.mapList_ne_ub (fun a _ => by
      unfold findVariable; split <;> exact (nomatch ·)))
  | ok vs =>
    obtain ⟨i, hi, rfl⟩ := List.getElem_of_mem hn
    have h1 := Res.mapList_eq_ok.mp hm
    have h2 := h1.get hi (h1.length_eq ▸ hi)
    rw [List.get_eq_getElem, findVariable_unknown h] at h2
    cases h2

theorem findVariables_only {s : State F} {vs : List Var} (hv : ∀ v ∈ vs, v ∈ s.vars)
    (hu : ∀ v ∈ vs, ∀ u ∈ s.vars, u.name = v.name → u = v) :
    Res.mapList s.findVariable (vs.map (·.name)) = .ok vs := by
  induction vs with
  | nil => rfl
  | cons v vs ih =>
    rw [List.map_cons, Res.mapList_cons, findVariable_only (hv v (by simp)) (hu v (by simp)),
      ih (fun w hw => hv w (by simp [hw])) (fun w hw => hu w (by simp [hw]))]

end State

/-- C67: a name which no variable of the model has is refused by every overload, and nothing changes. -/
theorem C67_unknown (s : State F) (name : String) (h : ∀ u ∈ s.vars, u.name ≠ name)
    (ord : List Var → List Var) (sh : List State.Contribution → List State.Contribution) (sched : Sched) (k n : Nat)
    (names : List String) (hn : name ∈ names) :
    State.setEvidenceByName ord name k s = .throw s ∧ State.removeEvidenceByName ord name s = .throw s ∧
    State.getMarginalByName ord sched name n s = .throw s ∧ State.getMAPByName ord sched name n s = .throw s ∧
    State.removeEvidencesByName ord names s = .throw s ∧ State.getJointByName ord sh sched names n s = .throw s := by
  have h1 := State.findVariable_unknown h
  have h2 := State.findVariables_unknown hn h
  unfold State.setEvidenceByName State.removeEvidenceByName State.getMarginalByName State.getMAPByName
    State.removeEvidencesByName State.getJointByName
  rw [h1, h2]
  exact ⟨rfl, rfl, rfl, rfl, rfl, rfl⟩

/-- The chain has no variable named Z. -/
example : ∀ u ∈ (Ex.chain []).vars, u.name ≠ "Z" := by decide +kernel

/-- C67: the overloads which take the name of a variable of the model act as those which take the variable, if no
other variable of the model has that name. The names of several variables act as the set, or as the group, of the
variables.

Missing: models with two variables of the same name (`C67_violated`); what is reached then is told by
`C67_first_set` and
`C67_first_remove`. -/
theorem C67_named_partial (s : State F) (v : Var) (hv : v ∈ s.vars) (hu : ∀ u ∈ s.vars, u.name = v.name → u = v)
    (ord : List Var → List Var) (sched : Sched) (k n : Nat) :
    State.setEvidenceByName ord v.name k s = State.setEvidence ord v k s ∧
    State.removeEvidenceByName ord v.name s = State.removeEvidence ord v s ∧
    State.getMarginalByName ord sched v.name n s = State.getMarginal ord sched v n s ∧
    State.getMAPByName ord sched v.name n s = State.getMAP ord sched v n s := by
  have h1 := State.findVariable_only hv hu
  unfold State.setEvidenceByName State.removeEvidenceByName State.getMarginalByName State.getMAPByName
  rw [h1]
  exact ⟨rfl, rfl, rfl, rfl⟩

/-- The variables of the chain have different names. -/
example : Ex.B ∈ (Ex.chain []).vars ∧ ∀ u ∈ (Ex.chain []).vars, u.name = Ex.B.name → u = Ex.B := by decide +kernel

/-- C67: the names of several variables, none of which is the name of another variable of the model, act as the set
of the variables where evidences are removed, and as the group of the variables where a joint distribution is asked
for; a repeated name is refused there.

Missing: models with two variables of the same name (`C67_violated`). -/
theorem C67_several_partial (s : State F) (vs : List Var) (hv : ∀ v ∈ vs, v ∈ s.vars) (hu : ∀ v ∈ vs, ∀ u ∈ s.vars, u.name = v.name → u = v)
    (ord : List Var → List Var) (sh : List State.Contribution → List State.Contribution) (sched : Sched) (n : Nat) :
    (vs.Nodup → State.removeEvidencesByName ord (vs.map (·.name)) s = State.removeEvidences ord vs s) ∧
    (vs.Nodup → vs ≠ [] →
      State.getJointByName ord sh sched (vs.map (·.name)) n s = State.getJoint ord sh sched ⟨vs, vs⟩ n s) ∧
    (¬ vs.Nodup → State.getJointByName ord sh sched (vs.map (·.name)) n s = .throw s) := by
  have h1 := State.findVariables_only hv hu
  have hd : vs.Nodup ↔ Distinct vs := by
    constructor
    · intro hn
      refine hn.imp_of_mem ?_
      intro a b ha hb hab he
      exact hab (hu b hb a (hv a ha) he.1)
    · exact Distinct.nodup
  unfold State.removeEvidencesByName State.getJointByName
  rw [h1]
  refine ⟨fun hn => ?_, fun hn hne => ?_, fun hn => ?_⟩
  · show State.removeEvidences ord (VarSet.ofSoup vs) s = _
    rw [VarSet.ofSoup_eq (hd.mp hn)]
  · have : Group.ofSoup vs = .ok ⟨vs, vs⟩ := by
      unfold Group.ofSoup
      rw [VarSet.ofSoup_eq (hd.mp hn), if_neg (by simpa using hne), if_neg (by simp)]
    simp only [this]
  · have : Group.ofSoup vs = .throw := by
      unfold Group.ofSoup
      rw [if_pos (fun hl => hn (hd.mpr ((VarSet.ofSoup_length_eq_iff vs).mp hl)))]
      split <;> rfl
    simp only [this]

/-- B and A of the chain. -/
example : (∀ v ∈ [Ex.B, Ex.A], v ∈ (Ex.chain []).vars) ∧ [Ex.B, Ex.A].Nodup ∧ ¬ [Ex.B, Ex.A, Ex.B].Nodup ∧
    ∀ v ∈ [Ex.B, Ex.A], ∀ u ∈ (Ex.chain []).vars, u.name = v.name → u = v := by decide +kernel

/-- C67: setting an evidence by name reaches the variable which has that name and was the first to be inserted. Its
value must be in the domain of that variable; then it is the evidence of that variable, the other evidences are as
before and the registers are the same. Otherwise it throws and nothing changes. -/
theorem C67_first_set {allowed : State F → GOp F → Prop} {s : State F} (h : Reach allowed s)
    {ord : List Var → List Var} (hord : ∀ l, (ord l).Perm l) {l r : List Var} {v : Var} (hv : s.vars = l ++ v :: r)
    (hl : ∀ u ∈ l, u.name ≠ v.name) (k : Nat) :
    (v.size ≤ k ∧ State.setEvidenceByName ord v.name k s = .throw s) ∨
    ∃ s', k < v.size ∧ State.setEvidenceByName ord v.name k s = .ok s' () ∧
      (∀ k', (v, k') ∈ s'.evidences ↔ k' = k) ∧
      (∀ u k', u ≠ v → ((u, k') ∈ s'.evidences ↔ (u, k') ∈ s.evidences)) ∧
      s'.heap = s.heap ∧ s'.vars = s.vars ∧ s'.factors = s.factors ∧ s'.tuners = s.tuners := by
  have he : State.setEvidenceByName ord v.name k s = State.setEvidence ord v k s := by
    unfold State.setEvidenceByName
    rw [State.findVariable_first hv hl]
  have hm : v ∈ s.vars := by rw [hv]; simp
  rw [he]
  rcases C20_setEvidence h hord v k with ⟨h1 | h1, h2⟩ | ⟨w, s', h1, h2, h3, h4, h5, h6, h7, h8, h9⟩
  · exact Or.inl ⟨h1, h2⟩
  · exact absurd ⟨rfl, rfl⟩ (h1 v hm)
  · have : w = v := (reach_inv h).net.distinct.eq_of_eqv h1 hm (Var.eqv_iff.mpr ⟨h2, h3⟩)
    subst this
    exact Or.inr ⟨s', h4, h5, fun k' => ⟨h7 k', fun e => e ▸ h6⟩, h8, h9⟩

/-- C67: removing an evidence by name reaches the variable which has that name and was the first to be inserted. It
throws, and nothing changes, exactly when that variable has no evidence; otherwise exactly its evidence is
forgotten. -/
theorem C67_first_remove {allowed : State F → GOp F → Prop} {s : State F} (h : Reach allowed s)
    {ord : List Var → List Var} (hord : ∀ l, (ord l).Perm l) {l r : List Var} {v : Var} (hv : s.vars = l ++ v :: r)
    (hl : ∀ u ∈ l, u.name ≠ v.name) :
    (¬ s.Observes v ∧ State.removeEvidenceByName ord v.name s = .throw s) ∨
    ∃ s', s.Observes v ∧ State.removeEvidenceByName ord v.name s = .ok s' () ∧ s'.Hidden v ∧
      (∀ u k, (u, k) ∈ s'.evidences ↔ (u, k) ∈ s.evidences ∧ u ≠ v) ∧
      s'.heap = s.heap ∧ s'.vars = s.vars ∧ s'.factors = s.factors ∧ s'.tuners = s.tuners := by
  have he : State.removeEvidenceByName ord v.name s = State.removeEvidence ord v s := by
    unfold State.removeEvidenceByName
    rw [State.findVariable_first hv hl]
  have hm : v ∈ s.vars := by rw [hv]; simp
  rw [he]
  rcases C21_removeEvidence_partial h hord v with ⟨h1, h2⟩ | ⟨w, s', h1, h2, h3, h4, h5, h6, h7, h8, h9, h10, _⟩
  · exact Or.inl ⟨fun ho => h1 v ho ⟨rfl, rfl⟩, h2⟩
  · have hs := reach_inv h
    have : w = v := hs.net.distinct.eq_of_eqv (hs.obsMem w (State.observes_iff.mp h1)) hm (Var.eqv_iff.mpr ⟨h2, h3⟩)
    subst this
    exact Or.inr ⟨s', h1, h4, h5, h6, h7, h8, h9, h10⟩

/-- The model with two variables named X: the first has two values, the last has three. -/
example : Reach anyOp (Ex.names 2) ∧ (Ex.names 2).vars = [] ++ Ex.X :: [Ex.Y, Ex.X3] ∧ Ex.X.name = Ex.X3.name ∧
    (∀ u ∈ ([] : List Var), u.name ≠ Ex.X.name) ∧
    (match State.setEvidenceByName Ex.rev "X" 1 (Ex.names 2) with | .ok s' _ => some s'.evidences | _ => none) =
      some [(Ex.X3, 2), (Ex.X, 1)] :=
  ⟨Ex.names_reach 2, by decide +kernel⟩

/-- C67 is violated by a model with two variables of the same name and different sizes: the evidence of the last one
can neither be set nor removed by name, and its marginal distribution can not be asked for by name, though each of
them works with the variable. -/
theorem C67_violated : ∃ s : State (Ext ℚ), Reach anyOp s ∧ Ex.X3 ∈ s.vars ∧ (Ex.X3, 2) ∈ s.evidences ∧
    (match State.setEvidence Ex.rev Ex.X3 2 s, State.setEvidenceByName Ex.rev Ex.X3.name 2 s with
      | .ok _ _, .throw _ => true | _, _ => false) = true ∧
    (match State.removeEvidence Ex.rev Ex.X3 s, State.removeEvidenceByName Ex.rev Ex.X3.name s with
      | .ok _ _, .throw _ => true | _, _ => false) = true ∧
    (match State.getMarginal Ex.rev id Ex.X3 1 s, State.getMarginalByName Ex.rev id Ex.X3.name 1 s with
      | .ok _ a, .ok _ b => (a.length, b.length) | _, _ => (0, 0)) = (3, 2) :=
  ⟨Ex.names 2, Ex.names_reach 2, by decide +kernel⟩

end EFG
