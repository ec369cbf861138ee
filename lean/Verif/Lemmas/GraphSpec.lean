import Verif.Spec.Graph
import Verif.Lemmas.Reach
/- The specification of the graph in terms of the connections of the nodes. -/

set_option linter.unusedSectionVars false

namespace EFG
namespace State
variable {F : Type} [Arith F]

theorem observes_iff {s : State F} {v : Var} : s.Observes v ↔ v ∈ s.obs := by
  unfold Observes State.obs AMap.keys
  simp

theorem hidden_iff {s : State F} {v : Var} : s.Hidden v ↔ v ∈ s.hid := by
  unfold Hidden
  rw [observes_iff, mem_hid]

theorem Core.factorOn {s : State F} (hs : Core s) {p : Nat} {u v : Var} (h : s.FactorOn p [u, v]) :
    s.lnk u v = some p := by
  obtain ⟨h1, f, h2, h3⟩ := h
  obtain ⟨g, h4, h5⟩ := hs.reg p h1
  rw [h2] at h4
  cases h4
  rcases h5 with ⟨w, h6, _⟩ | ⟨a, b, h6, h7⟩
  · rw [h3] at h6; simp at h6
  · rw [h3] at h6
    simp only [List.cons.injEq, and_true] at h6
    obtain ⟨rfl, rfl⟩ := h6
    exact h7

theorem Core.joinedBy {s : State F} (hs : Core s) {p : Nat} {u v : Var} :
    (s.FactorOn p [u, v] ∨ s.FactorOn p [v, u]) ↔ s.lnk u v = some p := by
  constructor
  · rintro (h | h)
    · exact hs.factorOn h
    · rw [hs.net.symL]; exact hs.factorOn h
  · intro h
    obtain ⟨h1, f, h2, h3⟩ := hs.link u v p h
    rcases h3.vars with h4 | h4
    · exact Or.inl ⟨h1, f, h2, h4⟩
    · exact Or.inr ⟨h1, f, h2, h4⟩

theorem Core.joins_iff {s : State F} (hs : Core s) {u v : Var} : s.Joins u v ↔ (s.lnk u v).isSome := by
  unfold Joins
  rw [Option.isSome_iff_exists]
  exact exists_congr (fun p => hs.joinedBy)

/-- Between hidden variables the factors are the active connections. -/
theorem Core.joins_hidden {s : State F} (hs : Core s) {u v : Var} (hu : s.Hidden u) (hv : s.Hidden v) :
    s.Joins u v ↔ (s.act u v).isSome := by
  rw [hs.joins_iff]
  constructor
  · intro h
    obtain ⟨p, hp⟩ := Option.isSome_iff_exists.mp h
    rcases lnk_cases hp with ⟨c, h1, _⟩ | ⟨_, c, h1, _⟩
    · simp [h1]
    · have := hs.disObs u v (by simp [h1])
      rw [hidden_iff, mem_hid] at hu hv
      rcases this with h | h
      · exact absurd h hu.2
      · exact absurd h hv.2
  · intro h
    obtain ⟨c, hc⟩ := Option.isSome_iff_exists.mp h
    simp [lnk_of_act hc]

theorem Core.linked_iff {s : State F} (hs : Core s) {u v : Var} :
    s.Linked u v ↔
      Relation.ReflTransGen (fun a b => a ∈ s.hid ∧ b ∈ s.hid ∧ b ∈ s.activeKeys a) u v := by
  unfold Linked
  constructor
  · refine Relation.ReflTransGen.mono ?_ _ _
    rintro a b ⟨ha, hb, h⟩
    exact ⟨hidden_iff.mp ha, hidden_iff.mp hb, activeKeys_iff.mpr ((hs.joins_hidden ha hb).mp h)⟩
  · refine Relation.ReflTransGen.mono ?_ _ _
    rintro a b ⟨ha, hb, h⟩
    have ha' := hidden_iff.mpr ha
    have hb' := hidden_iff.mpr hb
    exact ⟨ha', hb', (hs.joins_hidden ha' hb').mpr (activeKeys_iff.mp h)⟩

theorem distinct_of_subset {l l' : List Var} (hd : Distinct l) (hn : l'.Nodup) (hsub : ∀ v ∈ l', v ∈ l) :
    Distinct l' := by
  unfold Distinct
  rw [List.nodup_iff_pairwise_ne] at hn
  refine hn.imp_of_mem ?_
  intro a b ha hb hne he
  exact hne (hd.eq_of_eqv (hsub a ha) (hsub b hb) (Var.eqv_iff.mpr he))

/-- The set of the hidden variables is the concatenation of the clusters. -/
theorem Inv.hiddenVariables {s : State F} (hs : Inv s) : s.hiddenVariables = s.clusters.flatMap (·.nodes) := by
  unfold State.hiddenVariables
  have h := VarSet.foldl_emplace_of_distinct (s.clusters.flatMap (·.nodes)) []
    (by
      rw [List.nil_append, List.flatMap_def]
      exact distinct_of_subset hs.net.distinct hs.parts.nodup
        (fun v hv => (mem_hid.mp ((hs.parts.mem v).mp hv)).1))
  simpa using h

theorem Inv.mem_hiddenVariables {s : State F} (hs : Inv s) {v : Var} : v ∈ s.hiddenVariables ↔ s.Hidden v := by
  rw [hs.hiddenVariables, List.flatMap_def, hs.parts.mem, hidden_iff]

theorem Core.observedVariables {s : State F} (hs : Core s) : s.observedVariables = s.obs := by
  unfold State.observedVariables
  have h := VarSet.foldl_emplace_of_distinct (AMap.keys s.evidences) []
    (by rw [List.nil_append]; exact distinct_of_subset hs.net.distinct hs.obsNodup hs.obsMem)
  exact h

theorem Core.mem_observedVariables {s : State F} (hs : Core s) {v : Var} :
    v ∈ s.observedVariables ↔ s.Observes v := by
  rw [hs.observedVariables, observes_iff]

theorem conditioned_of {s : State F} {u w : Var} {k : Nat} {c : Conn F} {m : Fn F} (hs : Core s)
    (hk : k < w.size) (hd : s.dis u w = some c) (hm : c.message = some m) (he : IsEvid s c.factor w k m) :
    s.Conditioned u w k := by
  have hl := hs.net.lnk_of_dis hd
  obtain ⟨h1, f, h2, h3⟩ := hs.link u w _ hl
  obtain ⟨f', h4, h5⟩ := he
  rw [h2] at h4
  cases h4
  obtain ⟨m', g1, g2, g3, g4⟩ := h3.evidence hk
  rw [h5] at g1
  cases g1
  unfold State.dis disabledOf at hd
  cases hn : s.node? u with
  | none => rw [hn] at hd; simp at hd
  | some n =>
    rw [hn] at hd
    have hp : f.vars.group.Perm [u, w] := by
      rcases h3.vars with h | h <;> rw [h]
      exact List.Perm.swap _ _ _
    refine ⟨n, c, f, m, hn, AMap.find?_mem hd, hm, h1, h2, g2.vars, hp, fun a ha hau => ?_⟩
    rw [g2.find hau, g4 _ hau, h3.wf.findTransformed, h3.bimg_map a, ha]
    rw [h3.wf.valid_map]
    intro v hv
    have := hp.subset hv
    simp only [List.mem_cons, List.not_mem_nil, or_false] at this
    rcases this with rfl | rfl
    · exact hau
    · rw [ha]; exact hk

theorem Core.neighbour_iff {s : State F} (_hs : Core s) {u w : Var} : s.Neighbour u w ↔ (s.lnk u w).isSome := by
  unfold Neighbour State.lnk State.act State.dis activeOf disabledOf
  cases hn : s.node? u with
  | none => simp
  | some n =>
    simp only [Option.some.injEq, exists_eq_left', List.map_append, List.mem_append, Option.isSome_map,
      Option.isSome_or, Bool.or_eq_true]
    have e : ∀ m : List (Var × Conn F), w ∈ m.map Prod.fst ↔ (AMap.find? m w).isSome := by
      intro m
      rw [Option.isSome_iff_exists]
      exact AMap.mem_keys
    rw [e, e]

theorem evidence_value {s : State F} (hs : Core s) {v : Var} {k : Nat} :
    (v, k) ∈ s.evidences ↔ AMap.find? s.evidences v = some k :=
  ⟨fun h => AMap.find?_of_mem hs.obsNodup h, AMap.find?_mem⟩

/-- The registers of the variables, of the factors and of the tunable clusters are the same. -/
structure SameRegs (s s' : State F) : Prop where
  vars : s'.vars = s.vars
  factors : s'.factors = s.factors
  consts : s'.consts = s.consts
  tunables : s'.tunables = s.tunables
  tuners : s'.tuners = s.tuners

theorem SameRegs.rfl' (s : State F) : SameRegs s s := ⟨rfl, rfl, rfl, rfl, rfl⟩

theorem SameRegs.trans {s s' s'' : State F} (a : SameRegs s s') (b : SameRegs s' s'') : SameRegs s s'' :=
  ⟨b.vars.trans a.vars, b.factors.trans a.factors, b.consts.trans a.consts, b.tunables.trans a.tunables,
    b.tuners.trans a.tuners⟩

theorem Frame.regs {s s' : State F} (h : Frame s s') : SameRegs s s' :=
  ⟨h.vars, h.factors, h.consts, h.tunables, h.tuners⟩

/-- The functions are the same as well. -/
structure SameAll (s s' : State F) : Prop extends SameRegs s s' where
  heap : s'.heap = s.heap

theorem SameAll.rfl' (s : State F) : SameAll s s := ⟨.rfl' s, rfl⟩

theorem SameAll.trans {s s' s'' : State F} (a : SameAll s s') (b : SameAll s' s'') : SameAll s s'' :=
  ⟨a.toSameRegs.trans b.toSameRegs, b.heap.trans a.heap⟩

theorem Frame.all {s s' : State F} (h : Frame s s') : SameAll s s' := ⟨h.regs, h.heap⟩

/-- An operation which keeps the registers and the functions. -/
def KeepsRegs {α : Type} (x : M (State F) α) : Prop :=
  ∀ s, Inv s → match x s with
    | .ok s' _ => SameAll s s'
    | .throw s' => SameAll s s'
    | .ub => True

theorem keepsRegs_drop {α : Type} {x : M (State F) α} (h : KeepsRegs x) : KeepsRegs (GOp.drop x) := by
  intro s hs
  have := h s hs
  unfold GOp.drop
  cases hx : x s with
  | ok s' a => rw [hx] at this; exact this
  | throw s' => rw [hx] at this; exact this
  | ub => trivial

theorem KeepsI.keepsRegs {α : Type} {x : M (State F) α} (h : KeepsI x) : KeepsRegs x := by
  intro s hs
  have := h s hs
  cases hx : x s with
  | ok s' a => rw [hx] at this; exact this.toFrame.all
  | throw s' => rw [hx] at this; exact this.toFrame.all
  | ub => trivial

theorem keepsRegs_congr {α : Type} {x y : M (State F) α} (h : ∀ s, x s = y s) (hy : KeepsRegs y) :
    KeepsRegs x := by
  intro s hs
  rw [h]
  exact hy s hs

theorem setEvidence_regs {ord : List Var → List Var} (hord : ∀ l, (ord l).Perm l) (v : Var) (k : Nat) :
    KeepsRegs (setEvidence (F := F) ord v k) := by
  intro s hs
  by_cases hk : v.size ≤ k
  · unfold setEvidence; rw [if_pos hk]; exact .rfl' s
  · cases hl : s.locate v with
    | none => unfold setEvidence; rw [if_neg hk, hl]; exact .rfl' s
    | some e =>
      obtain ⟨h1, h2⟩ := hs.net.locate_some hl
      rw [setEvidence_eqv (w := e.1) (by rw [Var.eqv_comm]; exact h2)]
      have hk' : k < e.1.size := by rw [(Var.eqv_iff.mp h2).2]; omega
      by_cases ho : e.1 ∈ s.obs
      · obtain ⟨s', h3, h4⟩ := setEvidence_observed hord hs.toCore ho hk'
        rw [h3]; exact h4.frame.all
      · obtain ⟨s', h3, h4⟩ := setEvidence_hidden hord hs h1 ho hk'
        rw [h3]; exact h4.frame.all

theorem setEvidenceByName_regs {ord : List Var → List Var} (hord : ∀ l, (ord l).Perm l) (n : String)
    (k : Nat) : KeepsRegs (setEvidenceByName (F := F) ord n k) := by
  intro s hs
  unfold setEvidenceByName
  rcases findVariable_cases s n with ⟨v, h⟩ | h
  · rw [h]; exact setEvidence_regs hord v k s hs
  · rw [h]; exact .rfl' s

theorem removeEvidence_regs {ord : List Var → List Var} (hord : ∀ l, (ord l).Perm l) (v : Var) :
    KeepsRegs (removeEvidence (F := F) ord v) := by
  intro s hs
  unfold removeEvidence
  rcases removeOne_cases hord hs.toCore v with ⟨w, s', _, _, h1, h2⟩ | ⟨h1, _⟩
  · rw [h1]; exact h2.frame.all.trans (show SameAll s' (resetState ord s') from ⟨⟨rfl, rfl, rfl, rfl, rfl⟩, rfl⟩)
  · rw [h1]; exact .rfl' s

theorem removeEvidenceByName_regs {ord : List Var → List Var} (hord : ∀ l, (ord l).Perm l) (n : String) :
    KeepsRegs (removeEvidenceByName (F := F) ord n) := by
  intro s hs
  unfold removeEvidenceByName
  rcases findVariable_cases s n with ⟨v, h⟩ | h
  · rw [h]; exact removeEvidence_regs hord v s hs
  · rw [h]; exact .rfl' s

theorem forEach_removeOne_regs {ord : List Var → List Var} (hord : ∀ l, (ord l).Perm l) (vs : List Var)
    {s : State F} (hs : Core s) :
    match forEach (removeEvidence_ ord) vs s with
    | .ok s' _ => SameAll s s'
    | .throw s' => SameAll s s'
    | .ub => True := by
  induction vs generalizing s with
  | nil => exact .rfl' s
  | cons v vs ih =>
    rw [forEach_cons]
    rcases removeOne_cases hord hs v with ⟨w, s', _, _, h1, h2⟩ | ⟨h1, _⟩
    · rw [h1]
      have := ih (h2.core hs)
      simp only
      cases hx : forEach (removeEvidence_ ord) vs s' with
      | ok s2 _ => rw [hx] at this; exact h2.frame.all.trans this
      | throw s2 => rw [hx] at this; exact h2.frame.all.trans this
      | ub => trivial
    · rw [h1]; exact .rfl' s

theorem removeEvidences_regs {ord : List Var → List Var} (hord : ∀ l, (ord l).Perm l) (vs : VarSet) :
    KeepsRegs (removeEvidences (F := F) ord vs) := by
  intro s hs
  unfold removeEvidences
  by_cases he : vs.isEmpty = true
  · rw [if_pos he]; exact .rfl' s
  · rw [if_neg he]
    have := forEach_removeOne_regs hord (ord vs) hs.toCore
    cases hx : forEach (removeEvidence_ ord) (ord vs) s with
    | ok s1 _ =>
      rw [hx] at this
      exact this.trans (show SameAll s1 (resetState ord s1) from ⟨⟨rfl, rfl, rfl, rfl, rfl⟩, rfl⟩)
    | throw s1 => rw [hx] at this; exact this
    | ub => trivial

theorem removeEvidencesByName_regs {ord : List Var → List Var} (hord : ∀ l, (ord l).Perm l)
    (ns : List String) : KeepsRegs (removeEvidencesByName (F := F) ord ns) := by
  intro s hs
  unfold removeEvidencesByName
  cases Res.mapList s.findVariable ns with
  | ok vs => exact removeEvidences_regs hord _ s hs
  | throw => exact .rfl' s
  | ub => trivial

theorem removeAllEvidences_regs {ord : List Var → List Var} (hord : ∀ l, (ord l).Perm l) :
    KeepsRegs (removeAllEvidences (F := F) ord) := by
  intro s hs
  obtain ⟨s', h1, _, h2, _⟩ := removeAllEvidences_ok hord hs.toCore
  rw [h1]; exact h2.all

theorem withPool_regs {α : Type} (n : Nat) {body : M (State F) α} (hb : KeepsRegs body) :
    KeepsRegs (withPool n body) := by
  intro s hs
  unfold withPool
  have h0 : match setPoolSize n s with
    | .ok s' _ => Inv s' ∧ SameAll s s'
    | .throw s' => SameAll s s'
    | .ub => True := by
    unfold setPoolSize
    cases s.pool with
    | none => trivial
    | some k =>
      simp only
      by_cases h1 : n = k
      · rw [if_pos h1]; exact ⟨hs, .rfl' s⟩
      · rw [if_neg h1]
        by_cases h2 : n = 0
        · rw [if_pos h2]; exact ⟨⟨rfl, rfl, rfl, rfl, rfl⟩, rfl⟩
        · rw [if_neg h2]; exact ⟨hs.settings _ _ _, ⟨⟨rfl, rfl, rfl, rfl, rfl⟩, rfl⟩⟩
  cases hp : setPoolSize n s with
  | ok s1 _ =>
    rw [hp] at h0
    have h1 := hb s1 h0.1
    simp only
    cases hx : body s1 with
    | ok s2 a => rw [hx] at h1; exact h0.2.trans (h1.trans ⟨⟨rfl, rfl, rfl, rfl, rfl⟩, rfl⟩)
    | throw s2 => rw [hx] at h1; exact h0.2.trans (h1.trans ⟨⟨rfl, rfl, rfl, rfl, rfl⟩, rfl⟩)
    | ub => trivial
  | throw s1 => rw [hp] at h0; exact h0
  | ub => trivial

theorem gradient_regs {ord : List Var → List Var} (hord : ∀ l, (ord l).Perm l) (sched : Sched)
    (samples : List (List Nat)) : KeepsRegs (gradient (F := F) ord sched samples) := by
  intro s hs
  unfold gradient
  have h0 : ∃ s1, (if s.evidences.isEmpty then .ok s () else removeAllEvidences ord s : Out (State F) Unit) = .ok s1 () ∧
      Inv s1 ∧ SameAll s s1 := by
    by_cases he : s.evidences.isEmpty = true
    · exact ⟨s, by rw [if_pos he], hs, .rfl' s⟩
    · obtain ⟨s', h1, h2, h3, _⟩ := removeAllEvidences_ok hord hs.toCore
      exact ⟨s', by rw [if_neg he]; exact h1, h2, h3.all⟩
  obtain ⟨s1, e1, h1, h1'⟩ := h0
  simp only [e1]
  have h2 := (propagateBelief_asked (F := F) hord sched .sum).keepsRegs s1.resetBelief h1.resetBelief
  have h3 : SameAll s s1.resetBelief := h1'.trans ⟨⟨rfl, rfl, rfl, rfl, rfl⟩, rfl⟩
  cases hp : propagateBelief ord sched .sum s1.resetBelief with
  | ok s2 _ =>
    rw [hp] at h2
    simp only
    unfold lift
    beta_reduce
    cases Res.mapList (gradientTask ord samples s2) s2.tuners with
    | ok a => exact h3.trans h2
    | throw => exact h3.trans h2
    | ub => trivial
  | throw s2 => rw [hp] at h2; exact h3.trans h2
  | ub => trivial

/-- The operations which insert factors. -/
def _root_.EFG.GOp.Inserts : GOp F → Bool
  | .addConst _ | .copyConst _ | .addTunable _ _ | .copyTunable _ _ => true
  | _ => false

/-- The operations which change functions without inserting them. -/
def _root_.EFG.GOp.Alters : GOp F → Bool
  | .create _ | .mutate _ _ | .setWeights _ => true
  | _ => false

/-- The other operations change neither the registers nor the functions. -/
theorem exec_all {s : State F} (hs : Inv s) {op : GOp F} (hv : op.Valid s) (hi : op.Inserts = false)
    (ha : op.Alters = false) :
    (∀ s', op.exec s = .ok s' () → SameAll s s') ∧ (∀ s', op.exec s = .throw s' → SameAll s s') := by
  have gen : ∀ x : M (State F) Unit, KeepsRegs x → (∀ s', x s = .ok s' () → SameAll s s') ∧
      (∀ s', x s = .throw s' → SameAll s s') := by
    intro x hx
    have := hx s hs
    exact ⟨fun s' h => by rw [h] at this; exact this, fun s' h => by rw [h] at this; exact this⟩
  cases op with
  | create f => cases ha
  | mutate p o => cases ha
  | addConst p => cases hi
  | copyConst p => cases hi
  | addTunable p share => cases hi
  | copyTunable p share => cases hi
  | setWeights ws => cases ha
  | setEvidence ord v k => exact gen _ (setEvidence_regs hv.1 v k)
  | setEvidenceByName ord n k => exact gen _ (setEvidenceByName_regs hv.1 n k)
  | removeEvidence ord v => exact gen _ (removeEvidence_regs hv.1 v)
  | removeEvidenceByName ord n => exact gen _ (removeEvidenceByName_regs hv.1 n)
  | removeEvidences ord vs => exact gen _ (removeEvidences_regs hv.1 vs)
  | removeEvidencesByName ord ns => exact gen _ (removeEvidencesByName_regs hv.1 ns)
  | removeAllEvidences ord => exact gen _ (removeAllEvidences_regs hv.1)
  | setMaxIterations n =>
    refine ⟨fun s' h => ?_, fun s' h => by cases h⟩
    simp only [GOp.exec, Out.ok.injEq, and_true] at h
    rw [← h]
    exact ⟨⟨rfl, rfl, rfl, rfl, rfl⟩, rfl⟩
  | marginal ord sched v n =>
    exact gen _ (keepsRegs_drop (keepsRegs_congr (marginalQuery_eq ord sched .sum v n)
      (asks_asked hv.1.1 sched _ n _).keepsRegs))
  | marginalByName ord sched name n =>
    refine gen _ (keepsRegs_drop (x := getMarginalByName ord sched name n) ?_)
    intro s hs
    unfold getMarginalByName
    rcases findVariable_cases s name with ⟨v, h⟩ | h
    · rw [h]
      exact keepsRegs_congr (marginalQuery_eq ord sched .sum v n) (asks_asked hv.1.1 sched _ n _).keepsRegs s hs
    · rw [h]; exact .rfl' s
  | map ord sched v n =>
    exact gen _ (keepsRegs_drop (keepsRegs_congr (getMAP_eq ord sched v n)
      (asks_asked hv.1.1 sched _ n _).keepsRegs))
  | hiddenSetMap ord sched n =>
    exact gen _ (keepsRegs_drop (keepsRegs_congr (getHiddenSetMAP_eq ord sched n)
      (asks_asked hv.1.1 sched _ n _).keepsRegs))
  | joint ord sh sched g n =>
    exact gen _ (keepsRegs_drop (keepsRegs_congr (getJoint_eq ord sh sched g n)
      (asks_asked hv.1.1 sched _ n _).keepsRegs))
  | gradient ord sched samples n =>
    exact gen _ (keepsRegs_drop (withPool_regs n (gradient_regs hv.1.1 sched samples)))
  | drawSamples ord rnd ctx n => exact gen _ (keepsRegs_drop (makeSamples_asked hv.1 rnd ctx n).keepsRegs)

/-- The registers are only changed by insertions. -/
theorem exec_regs {s : State F} (hs : Inv s) {op : GOp F} (hv : op.Valid s) (hi : op.Inserts = false) :
    (∀ s', op.exec s = .ok s' () → SameRegs s s') ∧ (∀ s', op.exec s = .throw s' → SameRegs s s') := by
  by_cases ha : op.Alters = false
  · have := exec_all hs hv hi ha
    exact ⟨fun s' h => (this.1 s' h).toSameRegs, fun s' h => (this.2 s' h).toSameRegs⟩
  · cases op with
    | create f =>
      refine ⟨fun s' h => ?_, fun s' h => by cases h⟩
      simp only [GOp.exec, Out.ok.injEq, and_true] at h
      rw [← h]
      exact ⟨rfl, rfl, rfl, rfl, rfl⟩
    | mutate p o =>
      have : match GOp.onHeap (Heap.mutate p o) s with
          | .ok s' _ => SameRegs s s'
          | .throw s' => SameRegs s s'
          | .ub => True := by
        unfold GOp.onHeap
        cases Heap.mutate p o s.heap with
        | ok h _ => exact ⟨rfl, rfl, rfl, rfl, rfl⟩
        | throw h => exact ⟨rfl, rfl, rfl, rfl, rfl⟩
        | ub => trivial
      exact ⟨fun s' h => by rw [GOp.exec] at h; rw [h] at this; exact this,
        fun s' h => by rw [GOp.exec] at h; rw [h] at this; exact this⟩
    | setWeights ws =>
      have : match State.setWeights ws s with
          | .ok s' _ => SameRegs s s'
          | .throw s' => SameRegs s s'
          | .ub => True := by
        unfold State.setWeights
        by_cases h : ws.length ≠ s.tuners.length
        · rw [if_pos h]; exact .rfl' s
        · rw [if_neg h]
          obtain ⟨h, h1, _⟩ := setTunersWeights_eq (s.tuners.zip ws) s
          rw [h1]
          exact ⟨rfl, rfl, rfl, rfl, rfl⟩
      exact ⟨fun s' h => by rw [GOp.exec] at h; rw [h] at this; exact this,
        fun s' h => by rw [GOp.exec] at h; rw [h] at this; exact this⟩
    | _ => exact absurd rfl ha

end State
end EFG
