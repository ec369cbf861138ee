import Verif.Lemmas.GraphSpec
import Verif.Props.Special
/-
C18-C23: the graph of a model, its evidences and the insertion of factors, in every state reached by
any sequence of operations.
-/

namespace EFG
variable {F : Type} [Arith F]

/-! ### Concrete states used in the examples -/

namespace Ex

/-- An arbitrary iteration order for the examples. -/
def rev : List Var → List Var := List.reverse

theorem rev_perm : ∀ l, (rev l).Perm l := fun l => List.reverse_perm l

/-- The functions of the examples: one on A, one joining A and B, one joining B and C. -/
def heap3 : Heap (Ext ℚ) := [fA, fAB, fBC]

theorem heap3_reach : ∀ f ∈ heap3, FactorReach f := by
  intro f hf
  simp only [heap3, List.mem_cons, List.not_mem_nil, or_false] at hf
  rcases hf with rfl | rfl | rfl
  · exact fA_reach
  · exact fAB_reach
  · exact fBC_reach

/-- The chain A - B - C. -/
def chainOps : List (GOp (Ext ℚ)) := [.addConst (some 0), .addConst (some 1), .addConst (some 2)]

/-- The chain, with evidences. -/
def observedOps (l : List (Var × Nat)) : List (GOp (Ext ℚ)) :=
  chainOps ++ l.map (fun e => .setEvidence rev e.1 e.2)

/-- The state after observing. -/
def chain (l : List (Var × Nat)) : State (Ext ℚ) :=
  (GOp.run (observedOps l) (State.initial heap3)).getD (State.initial [])

theorem chain_reach (l : List (Var × Nat)) : Reach anyOp (chain l) := by
  unfold chain
  cases h : GOp.run (observedOps l) (State.initial heap3) with
  | none => exact .init (by simp)
  | some s =>
    refine GOp.run_reach (.init heap3_reach) ?_ (fun _ _ _ => trivial) ?_ h
    · intro op hop s
      simp only [observedOps, chainOps, List.mem_append, List.mem_cons, List.not_mem_nil, or_false, List.mem_map] at hop
      rcases hop with (rfl | rfl | rfl) | ⟨e, _, rfl⟩
      · exact ⟨trivial, trivial⟩
      · exact ⟨trivial, trivial⟩
      · exact ⟨trivial, trivial⟩
      · exact ⟨rev_perm, trivial⟩
    · intro op hop
      simp only [observedOps, chainOps, List.mem_append, List.mem_cons, List.not_mem_nil, or_false, List.mem_map] at hop
      rcases hop with (rfl | rfl | rfl) | ⟨e, _, rfl⟩ <;> rfl

end Ex

/-! ### C18 -/

/-- C18: in every reachable state the clusters partition the variables without evidence, and two of
them are in the same cluster exactly when a chain of accepted factors through variables without
evidence links them.

Missing: the state left behind by `removeEvidences` when it throws (`C18_violated`). -/
theorem C18_clusters_partial {allowed : State F → GOp F → Prop} {s : State F} (h : Reach allowed s) :
    (s.clusters.flatMap (·.nodes)).Nodup ∧
    (∀ v, v ∈ s.clusters.flatMap (·.nodes) ↔ s.Hidden v) ∧
    (∀ c ∈ s.clusters, c.nodes ≠ []) ∧
    (∀ u v, s.Hidden u → ((∃ c ∈ s.clusters, u ∈ c.nodes ∧ v ∈ c.nodes) ↔ s.Linked u v)) := by
  have hs := reach_inv h
  have hp := hs.parts
  refine ⟨?_, ?_, ?_, ?_⟩
  · rw [List.flatMap_def]; exact hp.nodup
  · intro v; rw [List.flatMap_def, hp.mem, State.hidden_iff]
  · intro c hc; exact hp.ne _ (List.mem_map.mpr ⟨c, hc, rfl⟩)
  · intro u v hu
    rw [hs.toCore.linked_iff, ← hp.same_iff (State.hidden_iff.mp hu) v]
    constructor
    · rintro ⟨c, hc, h1, h2⟩; exact ⟨_, List.mem_map.mpr ⟨c, hc, rfl⟩, h1, h2⟩
    · rintro ⟨l, hl, h1, h2⟩
      obtain ⟨c, hc, rfl⟩ := List.mem_map.mp hl
      exact ⟨c, hc, h1, h2⟩

/-- The chain A - B - C is one cluster; with B observed there are two. -/
example : Reach anyOp (Ex.chain []) ∧ (Ex.chain []).clusters.map (·.nodes) = [[Ex.A, Ex.B, Ex.C]] :=
  ⟨Ex.chain_reach _, by decide +kernel⟩

example : Reach anyOp (Ex.chain [(Ex.B, 1)]) ∧
    (Ex.chain [(Ex.B, 1)]).clusters.map (·.nodes) = [[Ex.C], [Ex.A]] :=
  ⟨Ex.chain_reach _, by decide +kernel⟩

/-- The operation used as counterexample: the removal of the evidences of A (observed) and C (not). -/
def Ex.badRemoval : GOp (Ext ℚ) := .removeEvidences Ex.rev [Ex.C, Ex.A]

/-- C18 is violated by the state `removeEvidences` leaves when it throws: with only A observed, the
removal of the evidences of C and A throws after A lost its evidence and its cluster was not
rebuilt: A has no evidence and is in no cluster. -/
theorem C18_violated : ∃ s s' : State (Ext ℚ), Reach anyOp s ∧ Ex.badRemoval.Valid s ∧
    Ex.badRemoval.exec s = .throw s' ∧ Ex.A ∈ s'.vars ∧ s'.evidences = [] ∧
    Ex.A ∉ s'.clusters.flatMap (·.nodes) := by
  refine ⟨_, _, Ex.chain_reach [(Ex.A, 0)], ⟨Ex.rev_perm, trivial⟩, rfl, ?_⟩
  decide +kernel

/-! ### C19 -/

/-- C19: in every reachable state each variable of the model is in exactly one of
`getHiddenVariables()` and `getObservedVariables()`, and these contain nothing else; the operations
may have thrown.

Missing: the state left behind by `removeEvidences` when it throws (`C19_violated`). -/
theorem C19_hidden_xor_observed_partial {allowed : State F → GOp F → Prop} {s : State F}
    (h : Reach allowed s) :
    (∀ v ∈ s.vars, (v ∈ s.hiddenVariables ∧ v ∉ s.observedVariables) ∨
      (v ∉ s.hiddenVariables ∧ v ∈ s.observedVariables)) ∧
    (∀ v, v ∈ s.hiddenVariables ∨ v ∈ s.observedVariables → v ∈ s.vars) ∧
    s.hiddenVariables.Nodup ∧ s.observedVariables.Nodup := by
  have hs := reach_inv h
  refine ⟨?_, ?_, ?_, ?_⟩
  · intro v hv
    rw [hs.mem_hiddenVariables, hs.toCore.mem_observedVariables]
    unfold State.Hidden
    tauto
  · rintro v (h | h)
    · exact (hs.mem_hiddenVariables.mp h).1
    · rw [hs.toCore.mem_observedVariables, State.observes_iff] at h
      exact hs.obsMem v h
  · rw [hs.hiddenVariables, List.flatMap_def]; exact hs.parts.nodup
  · rw [hs.toCore.observedVariables]; exact hs.obsNodup

example : let s := Ex.chain [(Ex.B, 1), (Ex.C, 7), (Ex.C, 2)]
    Reach anyOp s ∧ s.hiddenVariables = [Ex.A] ∧ s.observedVariables = [Ex.B, Ex.C] :=
  ⟨Ex.chain_reach _, by decide +kernel⟩

/-- C19 is violated after `removeEvidences` throws: A is neither hidden nor observed, and observing
it again is undefined behaviour (`clusters.end()` is dereferenced). -/
theorem C19_violated : ∃ s s' : State (Ext ℚ), Reach anyOp s ∧ Ex.badRemoval.Valid s ∧
    Ex.badRemoval.exec s = .throw s' ∧ Ex.A ∈ s'.vars ∧ Ex.A ∉ s'.hiddenVariables ∧
    Ex.A ∉ s'.observedVariables ∧ (match State.setEvidence Ex.rev Ex.A 0 s' with | .ub => true | _ => false) = true := by
  refine ⟨_, _, Ex.chain_reach [(Ex.A, 0)], ⟨Ex.rev_perm, trivial⟩, rfl, ?_⟩
  decide +kernel

/-! ### C20 -/

/-- C20: `setEvidence` throws exactly when the value is out of the domain or the model has no such
variable (by name and size), and then the state is the same; otherwise the variable has the given
value, the other evidences are as before and the registers are the same. It is never undefined in a
reachable state. -/
theorem C20_setEvidence {allowed : State F → GOp F → Prop} {s : State F} (h : Reach allowed s)
    {ord : List Var → List Var} (hord : ∀ l, (ord l).Perm l) (v : Var) (k : Nat) :
    ((v.size ≤ k ∨ ∀ w ∈ s.vars, ¬ (w.name = v.name ∧ w.size = v.size)) ∧
      State.setEvidence ord v k s = .throw s) ∨
    ∃ w s', w ∈ s.vars ∧ w.name = v.name ∧ w.size = v.size ∧ k < v.size ∧
      State.setEvidence ord v k s = .ok s' () ∧
      (w, k) ∈ s'.evidences ∧ (∀ k', (w, k') ∈ s'.evidences → k' = k) ∧
      (∀ u k', u ≠ w → ((u, k') ∈ s'.evidences ↔ (u, k') ∈ s.evidences)) ∧
      s'.heap = s.heap ∧ s'.vars = s.vars ∧ s'.factors = s.factors ∧ s'.tuners = s.tuners := by
  have hs := reach_inv h
  by_cases hk : v.size ≤ k
  · left
    exact ⟨Or.inl hk, by unfold State.setEvidence; rw [if_pos hk]⟩
  · cases hl : s.locate v with
    | none =>
      left
      refine ⟨Or.inr ?_, by unfold State.setEvidence; rw [if_neg hk, hl]⟩
      intro w hw he
      have := hs.net.locate_none hl w hw
      rw [Var.eqv_iff.mpr he] at this
      cases this
    | some e =>
      right
      obtain ⟨h1, h2⟩ := hs.net.locate_some hl
      have h2' := Var.eqv_iff.mp h2
      have hk' : k < e.1.size := by rw [h2'.2]; omega
      rw [State.setEvidence_eqv (w := e.1) (by rw [Var.eqv_comm]; exact h2)]
      by_cases ho : e.1 ∈ s.obs
      · obtain ⟨s', h3, h4⟩ := State.setEvidence_observed hord hs.toCore ho hk'
        have hs' := h4.inv hs hk'
        have hval : AMap.find? s'.evidences e.1 = some k := by
          obtain ⟨x, hx⟩ := AMap.mem_keys.mp ho
          rw [h4.evidences, AMap.find?_modify, if_pos rfl, hx]; rfl
        refine ⟨e.1, s', h1, h2'.1, h2'.2, by omega, h3, ?_, ?_, ?_, h4.frame.heap, h4.frame.vars,
          h4.frame.factors, h4.frame.tuners⟩
        · rw [State.evidence_value hs'.toCore]; exact hval
        · intro k' hk'
          rw [State.evidence_value hs'.toCore, hval] at hk'
          exact (Option.some.inj hk').symm
        · intro u k' hu
          rw [State.evidence_value hs'.toCore, State.evidence_value hs.toCore, h4.evidences,
            AMap.find?_modify, if_neg hu.symm]
      · obtain ⟨s', h3, h4⟩ := State.setEvidence_hidden hord hs h1 ho hk'
        have hs' := h4.inv hs h1 ho hk'
        refine ⟨e.1, s', h1, h2'.1, h2'.2, by omega, h3, ?_, ?_, ?_, h4.frame.heap, h4.frame.vars,
          h4.frame.factors, h4.frame.tuners⟩
        · rw [h4.evidences]; simp
        · intro k' hk'
          rw [h4.evidences, List.mem_append] at hk'
          rcases hk' with h | h
          · exact absurd (State.observes_iff.mp ⟨k', h⟩) ho
          · simp at h; exact h
        · intro u k' hu
          rw [h4.evidences]
          simp [hu]

/-- C20: the observation conditions the neighbours: after observing a hidden variable, the node of
each variable joined with it holds the images of their factor at the observed value. -/
theorem C20_conditions {allowed : State F → GOp F → Prop} {s s' : State F} (h : Reach allowed s)
    {ord : List Var → List Var} (hord : ∀ l, (ord l).Perm l) {v : Var} (hv : s.Hidden v) {k : Nat}
    (hk : k < v.size) (he : State.setEvidence ord v k s = .ok s' ()) (u : Var) (hj : s.Joins u v) :
    s'.Conditioned u v k := by
  have hs := reach_inv h
  rw [State.hidden_iff, State.mem_hid] at hv
  obtain ⟨s1, h3, h4⟩ := State.setEvidence_hidden hord hs hv.1 hv.2 hk
  rw [he] at h3
  cases h3
  have hs' := h4.inv hs hv.1 hv.2 hk
  obtain ⟨p, hp⟩ := Option.isSome_iff_exists.mp (hs.toCore.joins_iff.mp hj)
  obtain ⟨c, m, h5, rfl, h7, _, h9⟩ := h4.cond u p hp
  refine State.conditioned_of hs'.toCore hk h5 h7 ?_
  unfold State.IsEvid at h9 ⊢
  rw [h4.frame.heap]
  exact h9

/-- Changing the value of an observed variable conditions the neighbours on the new one. -/
theorem C20_conditions_again {allowed : State F → GOp F → Prop} {s s' : State F} (h : Reach allowed s)
    {ord : List Var → List Var} (hord : ∀ l, (ord l).Perm l) {v : Var} (hv : s.Observes v) {k : Nat}
    (hk : k < v.size) (he : State.setEvidence ord v k s = .ok s' ()) (u : Var)
    (hj : ∃ k', s.Conditioned u v k') : s'.Conditioned u v k := by
  have hs := reach_inv h
  rw [State.observes_iff] at hv
  obtain ⟨s1, h3, h4⟩ := State.setEvidence_observed hord hs.toCore hv hk
  rw [he] at h3
  cases h3
  have hs' := h4.inv hs hk
  obtain ⟨k', n, c, f, m, h5, h6, _⟩ := hj
  have hd : s.dis u v = some c := by
    unfold State.dis State.disabledOf
    rw [h5]
    refine AMap.find?_of_mem ?_ h6
    have := (hs.net.nodup u).2
    unfold State.disabledOf at this
    rw [h5] at this
    exact this
  obtain ⟨c', m', h7, h8, h9, _, h11⟩ := h4.cond u c hd
  refine State.conditioned_of hs'.toCore hk h7 h9 ?_
  unfold State.IsEvid at h11 ⊢
  rw [h4.frame.heap, h8]
  exact h11

/-- Observing B in the chain; a value out of the domain and an unknown variable are refused. -/
example : let s := Ex.chain []
    Reach anyOp s ∧ s.Hidden Ex.B ∧ s.Joins Ex.A Ex.B ∧
    (match State.setEvidence Ex.rev Ex.B 1 s with | .ok s' _ => some s'.evidences | _ => none) = some [(Ex.B, 1)] ∧
    (match State.setEvidence Ex.rev Ex.B 2 s with | .throw s' => some s'.evidences | _ => none) = some [] ∧
    (match State.setEvidence Ex.rev ⟨9, "Z", 2⟩ 0 s with | .throw s' => some s'.evidences | _ => none) = some [] := by
  refine ⟨Ex.chain_reach _, ⟨by decide +kernel, ?_⟩, ⟨1, Or.inl ⟨by decide +kernel, Ex.fAB, rfl, rfl⟩⟩, ?_⟩
  · rintro ⟨k, hk⟩
    have : (Ex.chain []).evidences = [] := by decide +kernel
    rw [this] at hk
    exact List.not_mem_nil hk
  · decide +kernel

/-! ### C21 -/

/-- C21: `removeEvidence` throws exactly when the variable has no evidence, and then the state is the
same; otherwise exactly its evidence is forgotten, the registers are the same, and every other hidden
variable keeps the stored messages of its observed neighbours. `removeAllEvidences` never fails and
leaves no evidence, every variable hidden and every binary factor active.

Missing: the messages of the observed neighbours of the released variable itself
(`C21_violated`). -/
theorem C21_removeEvidence_partial {allowed : State F → GOp F → Prop} {s : State F} (h : Reach allowed s)
    {ord : List Var → List Var} (hord : ∀ l, (ord l).Perm l) (v : Var) :
    ((∀ w, s.Observes w → ¬ (w.name = v.name ∧ w.size = v.size)) ∧
      State.removeEvidence ord v s = .throw s) ∨
    ∃ w s', s.Observes w ∧ w.name = v.name ∧ w.size = v.size ∧
      State.removeEvidence ord v s = .ok s' () ∧ s'.Hidden w ∧
      (∀ u k, (u, k) ∈ s'.evidences ↔ (u, k) ∈ s.evidences ∧ u ≠ w) ∧
      s'.heap = s.heap ∧ s'.vars = s.vars ∧ s'.factors = s.factors ∧ s'.tuners = s.tuners ∧
      (∀ u o k, u ≠ w → o ≠ w → s.Conditioned u o k → s'.Conditioned u o k) ∧
      (∀ u, s.Joins u w → s'.Hidden u → u ∈ AMap.keys (s'.activeOf w) ∧ w ∈ AMap.keys (s'.activeOf u)) := by
  have hs := reach_inv h
  unfold State.removeEvidence
  rcases State.removeOne_cases hord hs.toCore v with ⟨w, s1, h1, h2, h3, h4⟩ | ⟨h1, h2⟩
  · right
    have hw := Var.eqv_iff.mp h2
    have hc1 := h4.core hs.toCore
    have hinv := State.resetState_inv hord hc1
    refine ⟨w, State.resetState ord s1, State.observes_iff.mpr h1, hw.1, hw.2, by rw [h3], ?_, ?_, h4.frame.heap,
      h4.frame.vars, h4.frame.factors, h4.frame.tuners, ?_, ?_⟩
    · rw [State.hidden_iff, State.mem_hid]
      refine ⟨h4.frame.vars ▸ hs.obsMem w h1, ?_⟩
      intro hm
      have := (h4.obs w).mp hm
      exact this.2 rfl
    · intro u k
      show (u, k) ∈ s1.evidences ↔ _
      rw [h4.evidences]
      simp [AMap.erase]
    · rintro u o k hu ho ⟨n, c, f, m, g1, g2, g3, g4, g5, g6, g7, g8⟩
      have hd : s.dis u o = some c := by
        unfold State.dis State.disabledOf
        rw [g1]
        refine AMap.find?_of_mem ?_ g2
        have := (hs.net.nodup u).2
        unfold State.disabledOf at this
        rw [g1] at this
        exact this
      have hd1 : s1.dis u o = some c := by
        rw [h4.dis, if_neg (by simp [hu, ho])]; exact hd
      have hd2 := hd1
      unfold State.dis State.disabledOf at hd2
      cases hn : s1.node? u with
      | none => rw [hn] at hd2; simp at hd2
      | some n' =>
        rw [hn] at hd2
        refine ⟨n', c, f, m, hn, AMap.find?_mem hd2, g3, ?_, ?_, g6, g7, g8⟩
        · show c.factor ∈ s1.factors
          rw [h4.frame.factors]; exact g4
        · show s1.heap[c.factor]? = some f
          rw [h4.frame.heap]; exact g5
    · intro u hj hu
      obtain ⟨p, hp⟩ := Option.isSome_iff_exists.mp (hs.toCore.joins_iff.mp hj)
      have hl : s1.lnk u w = some p := by rw [h4.lnk]; exact hp
      have ha : (s1.act u w).isSome := by
        rcases State.lnk_cases hl with ⟨c, e, _⟩ | ⟨_, c, e, _⟩
        · simp [e]
        · rw [h4.dis, if_pos (Or.inr rfl)] at e; cases e
      exact ⟨State.activeKeys_iff.mpr (h4.net.symA u w ha), State.activeKeys_iff.mpr ha⟩
  · left
    refine ⟨?_, by rw [h1]⟩
    intro w hw he
    have := h2 w (State.observes_iff.mp hw)
    rw [Var.eqv_iff.mpr he] at this
    cases this

/-- C21: `removeAllEvidences`. -/
theorem C21_removeAllEvidences {allowed : State F → GOp F → Prop} {s : State F} (h : Reach allowed s)
    {ord : List Var → List Var} (hord : ∀ l, (ord l).Perm l) :
    ∃ s', State.removeAllEvidences ord s = .ok s' () ∧ s'.evidences = [] ∧
      (∀ v ∈ s.vars, s'.Hidden v ∧ v ∈ s'.hiddenVariables) ∧ s'.heap = s.heap ∧ s'.vars = s.vars ∧
      s'.factors = s.factors ∧ s'.tuners = s.tuners ∧
      (∀ u v, s.Joins u v ↔ v ∈ AMap.keys (s'.activeOf u)) ∧ ∀ u, s'.disabledOf u = [] := by
  have hs := reach_inv h
  obtain ⟨s', h1, h2, h3, _, h5, h6⟩ := State.removeAllEvidences_ok hord hs.toCore
  have hobs : ∀ v, v ∉ s'.obs := by intro v; unfold State.obs; rw [h6]; simp
  have hdis : ∀ u v, s'.dis u v = none := by
    intro u v
    by_contra hne
    rcases h2.disObs u v (Option.isSome_iff_ne_none.mpr hne) with h | h <;> exact hobs _ h
  have hh : ∀ v ∈ s.vars, s'.Hidden v := fun v hv =>
    State.hidden_iff.mpr (State.mem_hid.mpr ⟨h3.vars ▸ hv, hobs v⟩)
  refine ⟨s', h1, h6, fun v hv => ⟨hh v hv, h2.mem_hiddenVariables.mpr (hh v hv)⟩, h3.heap, h3.vars, h3.factors,
    h3.tuners, ?_, ?_⟩
  · intro u v
    rw [hs.toCore.joins_iff, ← h5]
    have : (s'.lnk u v).isSome = (s'.act u v).isSome := by
      unfold State.lnk
      rw [hdis]
      cases s'.act u v <;> rfl
    rw [this]
    exact State.activeKeys_iff.symm
  · intro u
    cases he : s'.disabledOf u with
    | nil => rfl
    | cons e l =>
      exfalso
      have := hdis u e.1
      unfold State.dis at this
      rw [he] at this
      obtain ⟨w, c⟩ := e
      rw [AMap.find?_cons, if_pos rfl] at this
      cases this

/-- Releasing several variables, one after the other. -/
theorem State.forEach_release {ord : List Var → List Var} (hord : ∀ l, (ord l).Perm l) (vs : List Var)
    (hd : Distinct vs) {s : State F} (hs : State.Core s) :
    ((∀ v ∈ vs, ∃ w ∈ s.obs, w.eqv v = true) ∧ ∃ s', State.forEach (State.removeEvidence_ ord) vs s = .ok s' () ∧
      State.Core s' ∧ State.Frame s s' ∧
      ∀ u k, (u, k) ∈ s'.evidences ↔ (u, k) ∈ s.evidences ∧ ∀ v ∈ vs, u.eqv v = false) ∨
    ((∃ v ∈ vs, ∀ w ∈ s.obs, w.eqv v = false) ∧ ∃ s', State.forEach (State.removeEvidence_ ord) vs s = .throw s') := by
  induction vs generalizing s with
  | nil => exact Or.inl ⟨by simp, s, rfl, hs, State.Frame.rfl' s, by simp⟩
  | cons v vs ih =>
    rw [State.forEach_cons]
    rcases State.removeOne_cases hord hs v with ⟨w, s1, h1, h2, h3, h4⟩ | ⟨h1, h2⟩
    · have hother : ∀ v' ∈ vs, w.eqv v' = false := by
        intro v' hv'
        rw [Bool.eq_false_iff]
        intro he
        have e1 := Var.eqv_iff.mp h2
        have e2 := Var.eqv_iff.mp he
        exact (List.pairwise_cons.mp hd).1 v' hv' ⟨e1.1.symm.trans e2.1, e1.2.symm.trans e2.2⟩
      have hev : ∀ u k, (u, k) ∈ s1.evidences ↔ (u, k) ∈ s.evidences ∧ u ≠ w := by
        intro u k
        rw [h4.evidences]
        simp [AMap.erase]
      have hw : ∀ u ∈ s.obs, u.eqv v = true → u = w := fun u hu he =>
        hs.net.distinct.eqv_eq (hs.obsMem u hu) (hs.obsMem w h1)
          (Var.eqv_iff.mpr ⟨(Var.eqv_iff.mp he).1.trans (Var.eqv_iff.mp h2).1.symm,
            (Var.eqv_iff.mp he).2.trans (Var.eqv_iff.mp h2).2.symm⟩)
      rw [h3]
      rcases ih (List.pairwise_cons.mp hd).2 (h4.core hs) with ⟨g1, s2, g2, g3, g4, g5⟩ | ⟨⟨v', g1, g2⟩, s2, g3⟩
      · refine Or.inl ⟨?_, s2, g2, g3, h4.frame.trans g4, ?_⟩
        · intro v' hv'
          rcases List.mem_cons.mp hv' with rfl | hv'
          · exact ⟨w, h1, h2⟩
          · obtain ⟨x, hx, he⟩ := g1 v' hv'
            exact ⟨x, ((h4.obs x).mp hx).1, he⟩
        · intro u k
          rw [g5, hev]
          constructor
          · rintro ⟨⟨a1, a2⟩, a3⟩
            refine ⟨a1, fun v' hv' => ?_⟩
            rcases List.mem_cons.mp hv' with rfl | hv'
            · rw [Bool.eq_false_iff]
              exact fun he => a2 (hw u (State.observes_iff.mp ⟨k, a1⟩) he)
            · exact a3 v' hv'
          · rintro ⟨a1, a2⟩
            refine ⟨⟨a1, ?_⟩, fun v' hv' => a2 v' (by simp [hv'])⟩
            rintro rfl
            rw [a2 v (by simp)] at h2
            cases h2
      · refine Or.inr ⟨⟨v', by simp [g1], fun x hx => ?_⟩, s2, g3⟩
        by_cases hxw : x = w
        · rw [hxw]; exact hother v' g1
        · exact g2 x ((h4.obs x).mpr ⟨hx, hxw⟩)
    · rw [h1]
      exact Or.inr ⟨⟨v, by simp, h2⟩, s, rfl⟩

/-- C21: `removeEvidences` throws exactly when one of the variables has no evidence; otherwise exactly the evidences
of these variables are forgotten, they are hidden and the registers are the same. It is never undefined.

Missing: what is left when it throws (`C18_violated`), and the messages of the observed neighbours of the released
variables (`C21_violated`). -/
theorem C21_removeEvidences_partial {allowed : State F → GOp F → Prop} {s : State F} (h : Reach allowed s)
    {ord : List Var → List Var} (hord : ∀ l, (ord l).Perm l) (vs : VarSet) (hd : Distinct vs) :
    ((∃ v ∈ vs, ∀ w, s.Observes w → ¬ (w.name = v.name ∧ w.size = v.size)) ∧
      ∃ s', State.removeEvidences ord vs s = .throw s') ∨
    ((∀ v ∈ vs, ∃ w, s.Observes w ∧ w.name = v.name ∧ w.size = v.size) ∧
      ∃ s', State.removeEvidences ord vs s = .ok s' () ∧
      (∀ u k, (u, k) ∈ s'.evidences ↔ (u, k) ∈ s.evidences ∧ ∀ v ∈ vs, ¬ (u.name = v.name ∧ u.size = v.size)) ∧
      (∀ v ∈ vs, ∀ w ∈ s.vars, w.name = v.name → w.size = v.size → s'.Hidden w) ∧
      s'.heap = s.heap ∧ s'.vars = s.vars ∧ s'.factors = s.factors ∧ s'.tuners = s.tuners) := by
  have hs := reach_inv h
  have hne : ∀ u v : Var, u.eqv v = false ↔ ¬ (u.name = v.name ∧ u.size = v.size) := fun u v => by
    rw [← Var.eqv_iff, Bool.eq_false_iff]
  unfold State.removeEvidences
  by_cases he : vs.isEmpty = true
  · have : vs = [] := List.isEmpty_iff.mp he
    subst this
    exact Or.inr ⟨by simp, s, by rw [if_pos he], by simp, by simp, rfl, rfl, rfl, rfl⟩
  · rw [if_neg he]
    have hp := hord vs
    rcases State.forEach_release hord (ord vs) (hd.perm hp.symm) hs.toCore with
      ⟨h1, s1, h2, h3, h4, h5⟩ | ⟨⟨v, h1, h2⟩, s1, h3⟩
    · right
      have hev : ∀ u k, (u, k) ∈ (State.resetState ord s1).evidences ↔
          (u, k) ∈ s.evidences ∧ ∀ v ∈ vs, ¬ (u.name = v.name ∧ u.size = v.size) := by
        intro u k
        show (u, k) ∈ s1.evidences ↔ _
        rw [h5]
        simp only [hne, hp.mem_iff]
      refine ⟨fun v hv => ?_, State.resetState ord s1, by rw [h2], hev, ?_, h4.heap, h4.vars, h4.factors, h4.tuners⟩
      · obtain ⟨w, hw, he⟩ := h1 v (hp.mem_iff.mpr hv)
        exact ⟨w, State.observes_iff.mpr hw, Var.eqv_iff.mp he⟩
      · intro v hv w hw e1 e2
        refine ⟨h4.vars ▸ hw, ?_⟩
        rintro ⟨k, hk⟩
        exact ((hev w k).mp hk).2 v hv ⟨e1, e2⟩
    · left
      exact ⟨⟨v, hp.mem_iff.mp h1, fun w hw => (hne w v).mp (h2 w (State.observes_iff.mp hw))⟩, s1, by rw [h3]⟩

/-- With A and C observed, both are released, and B can not be. -/
example : let s := Ex.chain [(Ex.A, 1), (Ex.C, 2)]
    Reach anyOp s ∧ Distinct [Ex.C, Ex.A] ∧
    (match State.removeEvidences Ex.rev [Ex.C, Ex.A] s with
      | .ok s' _ => some (s'.evidences, s'.clusters.map (·.nodes)) | _ => none) =
        some ([], [[Ex.C, Ex.B, Ex.A]]) ∧
    (match State.removeEvidences Ex.rev [Ex.C, Ex.B] s with | .throw _ => true | _ => false) = true :=
  ⟨Ex.chain_reach _, by decide +kernel⟩

/-- With A and C observed, releasing C leaves A observed and conditioning B. -/
example : let s := Ex.chain [(Ex.A, 1), (Ex.C, 2)]
    Reach anyOp s ∧
    (match State.removeEvidence Ex.rev Ex.C s with
      | .ok s' _ => some (s'.evidences, s'.clusters.map (·.nodes), AMap.keys (s'.disabledOf Ex.B))
      | _ => none) = some ([(Ex.A, 1)], [[Ex.C, Ex.B]], [Ex.A]) ∧
    (match State.removeEvidence Ex.rev Ex.B s with | .throw _ => true | _ => false) = true ∧
    (match State.removeAllEvidences Ex.rev s with
      | .ok s' _ => some (s'.evidences, s'.clusters.map (·.nodes), AMap.keys (s'.disabledOf Ex.B))
      | _ => none) = some ([], [[Ex.C, Ex.B, Ex.A]], []) :=
  ⟨Ex.chain_reach _, by decide +kernel⟩

/-- C21 is violated when two joined variables are both observed and one of them is released: the
remaining observation of B does not condition A any more (the connection is active again, with a null
message), and asking for the marginal of A dereferences a null pointer. -/
theorem C21_violated : ∃ s s' : State (Ext ℚ),
    Reach anyOp s ∧ s.Joins Ex.A Ex.B ∧ State.removeEvidence Ex.rev Ex.A s = .ok s' () ∧
    (Ex.B, 1) ∈ s'.evidences ∧ (∀ k, ¬ s'.Conditioned Ex.A Ex.B k) ∧
    (match State.getMarginal Ex.rev id Ex.A 1 s' with | .ub => true | _ => false) = true := by
  refine ⟨_, _, Ex.chain_reach [(Ex.A, 0), (Ex.B, 1)],
    ⟨1, Or.inl ⟨by decide +kernel, Ex.fAB, rfl, rfl⟩⟩, rfl, by decide +kernel, ?_, by decide +kernel⟩
  rintro k ⟨n, c, f, m, h1, h2, _⟩
  have : n.disabled = [] := by
    have h3 : (State.node? _ Ex.A).map (fun n => n.disabled.length) = some n.disabled.length :=
      congrArg (Option.map (fun n => n.disabled.length)) h1
    have h4 : (0 : Nat) = n.disabled.length := by
      have : some 0 = some n.disabled.length := by rw [← h3]; decide +kernel
      exact Option.some.inj this
    exact List.length_eq_zero_iff.mp h4.symm
  rw [this] at h2
  exact List.not_mem_nil h2

end EFG
