import Verif.Lemmas.Repeat
/-
A propagation after another one gives what it would have given alone.
-/

set_option linter.unusedSectionVars false

namespace EFG
namespace State
variable {F : Type} [Arith F]

/-! ### Preparing a cluster -/

/-- The preparation of a cluster with topology infos. -/
theorem prepareCluster_keep {ord : List Var → List Var} (hord : ∀ l, (ord l).Perm l) {s : State F} (hs : Inv s) {i : Nat}
    {c : Cluster} (hc : s.clusters[i]? = some c) (hts : c.connectivity.isSome) {s' : State F}
    (e : prepareCluster ord i s = .ok s' ()) : s'.clusters[i]? = some c ∧
      ∀ v ∈ c.nodes, ∃ m, s'.mrg v = some m ∧ (s.mrg v = some m ∨ (s.mrg v = none ∧ s.mergedVal ord v = .ok m)) := by
  obtain ⟨ts, hts⟩ := Option.isSome_iff_exists.mp hts
  unfold prepareCluster at e
  rw [hc] at e
  simp only at e
  rw [hts] at e
  simp only at e
  have hpo := hord c.nodes
  obtain ⟨s1, f1, f2, f3, f4, f5, f6⟩ := refresh_loop hord (ord c.nodes) s hs.toCore
    (fun v hv => hs.cluster_mem hc (hpo.mem_iff.mp hv))
  rw [e] at f1
  cases f1
  exact ⟨by rw [f4]; exact hc, fun v hv => f5 v (hpo.mem_iff.mpr hv)⟩

/-- The preparation of a cluster without topology infos. -/
theorem prepareCluster_make {ord : List Var → List Var} (hord : ∀ l, (ord l).Perm l) {s : State F} (hs : Inv s) {i : Nat}
    {c : Cluster} (hc : s.clusters[i]? = some c) (hts : c.connectivity = none) {s' : State F}
    (e : prepareCluster ord i s = .ok s' ()) :
    s'.clusters[i]? = some { nodes := c.nodes, connectivity := some ((ord c.nodes).flatMap (State.toposOf ord s)) } ∧
      ∀ v ∈ c.nodes, ∃ m, s'.mrg v = some m ∧ s.mergedVal ord v = .ok m := by
  unfold prepareCluster at e
  rw [hc] at e
  simp only at e
  rw [hts] at e
  simp only at e
  unfold updateConnectivity at e
  rw [hc] at e
  simp only at e
  have hpo := hord c.nodes
  have hmem := fun v (hv : v ∈ ord c.nodes) => hs.cluster_mem hc (hpo.mem_iff.mp hv)
  set x0 : State F := { s with clusters := s.clusters.modify i (fun c => { c with connectivity := some [] }) } with hx0
  have hp0 : Prep s x0 :=
    ⟨⟨⟨rfl, rfl, rfl, rfl, rfl, rfl, rfl, rfl, fun _ => rfl⟩, rfl, map_nodes_modify _ _ _, fun _ => rfl, fun _ => rfl⟩,
      fun _ => rfl, rfl, rfl⟩
  have hc0 : Core x0 := hs.toCore.quiet hp0.toQuiet hs.mrgT
  obtain ⟨x1, f1, f2, f3, f4, f5, f6⟩ := connectivity_loop hord (i := i) (ord c.nodes) [] s.clusters x0 hc0 hmem rfl
  rw [e] at f1
  cases f1
  constructor
  · rw [f4, List.nil_append, List.getElem?_modify, hc]
    have : State.toposOf ord x0 = State.toposOf ord s := by funext u; exact toposOf_congr hp0.activeOf u
    rw [this]
    simp
  · intro v hv
    obtain ⟨m, g1, g2⟩ := f5 v (hpo.mem_iff.mpr hv)
    exact ⟨m, g1, by rw [← hp0.toQuiet.mergedVal]; exact g2⟩

/-- The cluster and the merged unary factors of its nodes in `t` are those that the preparation gives in `s`. -/
def Ready1 (ord : List Var → List Var) (i : Nat) (s t : State F) : Prop :=
  ∀ c, s.clusters[i]? = some c → ∃ s', prepareCluster ord i s = .ok s' () ∧ t.clusters[i]? = s'.clusters[i]? ∧
    ∀ v ∈ c.nodes, t.mrg v = s'.mrg v

/-- The cluster and the merged unary factors of its nodes are the same. -/
def Same1 (i : Nat) (s t : State F) : Prop :=
  t.clusters[i]? = s.clusters[i]? ∧ ∀ c, s.clusters[i]? = some c → ∀ v ∈ c.nodes, t.mrg v = s.mrg v

theorem Same1.trans {i : Nat} {s t u : State F} (h : Same1 i s t) (h' : Same1 i t u) : Same1 i s u :=
  ⟨h'.1.trans h.1, fun c hc v hv => (h'.2 c (h.1.trans hc) v hv).trans (h.2 c hc v hv)⟩

theorem Same1.symm {i : Nat} {s t : State F} (h : Same1 i s t) : Same1 i t s :=
  ⟨h.1.symm, fun c hc v hv => (h.2 c (h.1.symm.trans hc) v hv).symm⟩

theorem prepareCluster_same {ord : List Var → List Var} (hord : ∀ l, (ord l).Perm l) {s t : State F} (hs : Inv s)
    (ht : Inv t) (hq : Quiet s t) {i : Nat} (h : Same1 i s t) {s' t' : State F} (es : prepareCluster ord i s = .ok s' ())
    (et : prepareCluster ord i t = .ok t' ()) : Same1 i s' t' := by
  cases hc : s.clusters[i]? with
  | none => unfold prepareCluster at es; rw [hc] at es; cases es
  | some c =>
    have hct : t.clusters[i]? = some c := by rw [h.1]; exact hc
    cases hts : c.connectivity with
    | none =>
      obtain ⟨a1, a2⟩ := prepareCluster_make hord hs hc hts es
      obtain ⟨b1, b2⟩ := prepareCluster_make hord ht hct hts et
      have : State.toposOf ord t = State.toposOf ord s := by funext u; exact hq.toposOf ord u
      rw [this] at b1
      refine ⟨b1.trans a1.symm, ?_⟩
      intro c' hc' v hv
      rw [a1] at hc'
      cases hc'
      obtain ⟨m, g1, g2⟩ := a2 v hv
      obtain ⟨m', g1', g2'⟩ := b2 v hv
      rw [hq.mergedVal, g2] at g2'
      cases g2'
      rw [g1, g1']
    | some ts =>
      obtain ⟨a1, a2⟩ := prepareCluster_keep hord hs hc (by rw [hts]; rfl) es
      obtain ⟨b1, b2⟩ := prepareCluster_keep hord ht hct (by rw [hts]; rfl) et
      refine ⟨b1.trans a1.symm, ?_⟩
      intro c' hc' v hv
      rw [a1] at hc'
      cases hc'
      obtain ⟨m, g1, g2⟩ := a2 v hv
      obtain ⟨m', g1', g2'⟩ := b2 v hv
      rw [h.2 c hc v hv, hq.mergedVal] at g2'
      rw [g1, g1']
      rcases g2 with g2 | g2 <;> rcases g2' with g2' | g2'
      · rw [g2] at g2'; exact g2'.symm
      · rw [g2] at g2'; cases g2'.1
      · rw [g2'] at g2; cases g2.1
      · have := g2.2.symm.trans g2'.2; cases this; rfl

/-- Preparing a prepared cluster changes nothing. -/
theorem Ready1.again {ord : List Var → List Var} (hord : ∀ l, (ord l).Perm l) {s t : State F} (hs : Inv s) (ht : Inv t)
    {i : Nat} (h : Ready1 ord i s t) {s' t' : State F} (es : prepareCluster ord i s = .ok s' ())
    (et : prepareCluster ord i t = .ok t' ()) : Same1 i s' t' := by
  cases hc : s.clusters[i]? with
  | none => unfold prepareCluster at es; rw [hc] at es; cases es
  | some c =>
    obtain ⟨s1, e1, e2, e3⟩ := h c hc
    rw [es] at e1
    cases e1
    obtain ⟨s2, e4, hp⟩ := prepareCluster_ok hord hs hc
    rw [es] at e4
    cases e4
    obtain ⟨ts, h1, _⟩ := hp.conn
    rw [h1] at e2
    obtain ⟨b1, b2⟩ := prepareCluster_keep hord ht e2 rfl et
    refine ⟨b1.trans h1.symm, ?_⟩
    intro c' hc' v hv
    rw [h1] at hc'
    cases hc'
    obtain ⟨m', g1', g2'⟩ := b2 v hv
    obtain ⟨m, g1, _⟩ := hp.merged v hv
    rw [e3 v hv, g1] at g2'
    rcases g2' with g2' | g2'
    · rw [g1', g1]; exact g2'.symm
    · cases g2'.1

/-- The prepared cluster depends on the cluster only. -/
theorem Ready1.from_ {ord : List Var → List Var} (hord : ∀ l, (ord l).Perm l) {s s1 t : State F} (hs : Inv s)
    (hs1 : Inv s1) (hq : Quiet s s1) {i : Nat} (h : Same1 i s s1) (hr : Ready1 ord i s1 t) : Ready1 ord i s t := by
  intro c hc
  obtain ⟨s', e1, e2, e3⟩ := hr c (h.1.trans hc)
  obtain ⟨s2, f1, hp⟩ := prepareCluster_ok hord hs hc
  have hsame := prepareCluster_same hord hs hs1 hq h f1 e1
  refine ⟨s2, f1, e2.trans hsame.1, ?_⟩
  intro v hv
  obtain ⟨ts, h1, _⟩ := hp.conn
  rw [e3 v hv]
  exact hsame.2 _ h1 v hv

/-- The nodes of the clusters. -/
def Housed (s : State F) (u : Var) : Prop := ∃ (i : Nat) (c : Cluster), s.clusters[i]? = some c ∧ u ∈ c.nodes

theorem Quiet.housed {s t : State F} (h : Quiet s t) (u : Var) : Housed t u ↔ Housed s u := by
  have key : ∀ x : State F, Housed x u ↔ ∃ l ∈ x.clusters.map (·.nodes), u ∈ l := by
    intro x
    constructor
    · rintro ⟨i, c, hc, hu⟩
      exact ⟨c.nodes, List.mem_map.mpr ⟨c, List.mem_of_getElem? hc, rfl⟩, hu⟩
    · rintro ⟨l, hl, hu⟩
      obtain ⟨c, hc, rfl⟩ := List.mem_map.mp hl
      obtain ⟨i, hi⟩ := List.mem_iff_getElem?.mp hc
      exact ⟨i, c, hi, hu⟩
  rw [key, key, h.clusters]

/-- `t` is `s` with the clusters at these positions prepared. -/
structure Ahead (ord : List Var → List Var) (l : List Nat) (s t : State F) : Prop extends Quiet s t where
  ready : ∀ i ∈ l, Ready1 ord i s t
  rest : ∀ i, i ∉ l → Same1 i s t
  out : ∀ u, ¬ Housed s u → t.mrg u = s.mrg u

/-! ### One cluster -/

/-- What the propagation of one cluster does. -/
structure RunOf (ord : List Var → List Var) (sched : Sched) (kind : Kind) (n i : Nat) (c : Cluster) (s s1 s' : State F)
    (r : (Bool × Nat) × Bool) : Prop where
  prepare : prepareCluster ord i s = .ok s1 ()
  prepared : Prepared s s1 i c
  soft : Soft s1 s'
  run : propagateCluster ord sched kind n i s = .ok s' r
  step : ∃ tree, ClusterStep kind s s' i c tree

theorem runOf {ord : List Var → List Var} (hord : ∀ l, (ord l).Perm l) (kind : Kind) {sched : Sched}
    (hsched : ∀ l, (sched l).Perm l) {n : Nat} (hn : 1 ≤ n) {s : State F} (hs : Inv s) (hf : Flow s) (hty : TypedMsgs s)
    {i : Nat} {c : Cluster} (hc : s.clusters[i]? = some c) (hno : ∀ u ∈ c.nodes, ∀ v, s.msg u v = none) :
    ∃ s1 s' r, RunOf ord sched kind n i c s s1 s' r := by
  obtain ⟨s', r, h1, h2⟩ : ∃ s' r, propagateCluster ord sched kind n i s = .ok s' r ∧
      ∃ tree, ClusterStep kind s s' i c tree := by
    rcases propagateCluster_ok hord kind hs hf hty hc hno with ⟨s1, h1, h2⟩ | h
    · exact ⟨s1, _, h2 sched hsched n, true, h1⟩
    · obtain ⟨s0, s1, ts, sw, done, h1, h3, h4, h2⟩ := h sched hsched n hn
      exact ⟨s1, _, h2, false, h1⟩
  obtain ⟨s1, e1, e2⟩ := propagateCluster_prep h1
  obtain ⟨s2, e3, e4⟩ := prepareCluster_ok hord hs hc
  rw [e1] at e3
  cases e3
  exact ⟨s1, s', r, e1, e4, e2, h1, h2⟩

/-- The positions of the other clusters. -/
theorem RunOf.other {ord : List Var → List Var} {sched : Sched} {kind : Kind} {n i : Nat} {c : Cluster} {s s1 s' : State F}
    {r : (Bool × Nat) × Bool} (h : RunOf ord sched kind n i c s s1 s' r) (hs : Inv s) (hc : s.clusters[i]? = some c)
    {j : Nat} (hj : j ≠ i) : Same1 j s s' := by
  obtain ⟨tree, hst⟩ := h.step
  refine ⟨hst.other j hj, ?_⟩
  intro c' hc' v hv
  exact hst.mrg v (clusters_disjoint hs hj hc' hc hv)

theorem RunOf.here {ord : List Var → List Var} {sched : Sched} {kind : Kind} {n i : Nat} {c : Cluster} {s s1 s' : State F}
    {r : (Bool × Nat) × Bool} (h : RunOf ord sched kind n i c s s1 s' r) (hc : s.clusters[i]? = some c) :
    Ready1 ord i s s' := by
  intro c' hc'
  rw [hc] at hc'
  cases hc'
  exact ⟨s1, h.prepare, by rw [h.soft.cl], fun v _ => h.soft.mrg v⟩

/-- The states reached by the first propagation. -/
theorem propagateClusters_ahead {ord : List Var → List Var} (hord : ∀ l, (ord l).Perm l) (kind : Kind) {sched : Sched}
    (hsched : ∀ l, (sched l).Perm l) {n : Nat} (hn : 1 ≤ n) : ∀ (d k : Nat) (s : State F), Inv s → Flow s →
    TypedMsgs s → k + d = s.clusters.length →
    (∀ j c, k ≤ j → s.clusters[j]? = some c → ∀ u ∈ c.nodes, ∀ v, s.msg u v = none) →
    ∃ s' rs, propagateClusters ord sched kind n (List.range' k d) s = .ok s' rs ∧ Step s s' ∧
      Ahead ord (List.range' k d) s s' ∧ ∀ u v, ¬ Housed s u → s'.msg u v = s.msg u v := by
  intro d
  induction d with
  | zero =>
    intro k s hs hf hty _ _
    exact ⟨s, [], rfl, Step.rfl' s, ⟨Quiet.rfl' s, by simp, fun i _ => ⟨rfl, fun _ _ _ _ => rfl⟩, fun _ _ => rfl⟩,
      fun _ _ _ => rfl⟩
  | succ d ih =>
    intro k s hs hf hty hk hno
    have hkl : k < s.clusters.length := by omega
    have hc : s.clusters[k]? = some s.clusters[k] := List.getElem?_eq_getElem hkl
    set c := s.clusters[k] with hcdef
    obtain ⟨s1, s2, r, hr⟩ := runOf hord kind hsched hn hs hf hty hc (hno k c le_rfl hc)
    obtain ⟨tree, hstep⟩ := hr.step
    have hs2 := hstep.step.inv hs
    obtain ⟨s3, rs, e1, e2, e3, e4⟩ := ih (k + 1) s2 hs2 hstep.flow hstep.typed
      (by rw [hstep.len]; omega) (by
        intro j c' hj hc' u hu v
        have hne : j ≠ k := by omega
        rw [hstep.other j hne] at hc'
        rw [hstep.msg u v (clusters_disjoint hs hne hc' hc hu)]
        exact hno j c' (by omega) hc' u hu v)
    have hkn : k ∉ List.range' (k + 1) d := by simp [List.mem_range']; omega
    refine ⟨s3, r :: rs, ?_, hstep.step.trans e2, ⟨hstep.step.toQuiet.trans e2.toQuiet, ?_, ?_, ?_⟩, ?_⟩
    · rw [List.range'_succ, propagateClusters, hr.run]
      simp only
      rw [e1]
    · intro i hi
      rw [List.range'_succ, List.mem_cons] at hi
      rcases hi with rfl | hi
      · intro c' hc'
        obtain ⟨s0, g1, g2, g3⟩ := hr.here hc c' hc'
        have hk' := e3.rest i hkn
        refine ⟨s0, g1, hk'.1.trans g2, ?_⟩
        intro v hv
        rw [← g3 v hv]
        obtain ⟨ts, h1, _⟩ := hr.prepared.conn
        rw [hc, Option.some.injEq] at hc'
        subst hc'
        exact hk'.2 { nodes := c.nodes, connectivity := some ts } (by rw [hr.soft.cl]; exact h1) v hv
      · have hne : i ≠ k := fun h => hkn (h ▸ hi)
        exact (e3.ready i hi).from_ hord hs hs2 hstep.step.toQuiet (hr.other hs hc hne)
    · intro i hi
      rw [List.range'_succ, List.mem_cons, not_or] at hi
      exact (hr.other hs hc hi.1).trans (e3.rest i hi.2)
    · intro u hu
      rw [e3.out u (fun h => hu ((hstep.step.toQuiet.housed u).mp h))]
      exact hstep.mrg u (fun h => hu ⟨k, c, hc, h⟩)
    · intro u v hu
      rw [e4 u v (fun h => hu ((hstep.step.toQuiet.housed u).mp h))]
      exact hstep.msg u v (fun h => hu ⟨k, c, hc, h⟩)

/-! ### Two runs, one ahead of the other -/

theorem Quiet.act_eq {s t : State F} (h : Quiet s t) {u v : Var} (hm : t.msg u v = s.msg u v) : t.act u v = s.act u v := by
  cases hs : s.act u v with
  | none => exact h.act_none hs
  | some c =>
    obtain ⟨c', h1, h2⟩ := h.act_some' hs
    unfold msg at hm
    rw [hs, h1] at hm
    rw [h1]
    cases c; cases c'
    simp only [Option.bind_some] at hm h2
    rw [hm, h2]

theorem RunOf.twin {ord : List Var → List Var} (hord : ∀ l, (ord l).Perm l) {sched : Sched} (hsched : ∀ l, (sched l).Perm l)
    {kind : Kind} {n i : Nat} {c c' : Cluster}
    {s s1 s' t t1 t' : State F} {r r' : (Bool × Nat) × Bool} (h : RunOf ord sched kind n i c s s1 s' r)
    (h' : RunOf ord sched kind n i c' t t1 t' r') (hs : Inv s) (ht : Inv t) (hc : s.clusters[i]? = some c)
    (hr : Ready1 ord i s t) (hq : Quiet s t) (hact : ∀ u v, t.act u v = s.act u v) :
    r' = r ∧ (∀ u v, t'.act u v = s'.act u v) ∧ Same1 i s' t' := by
  have hsame := hr.again hord hs ht h.prepare h'.prepare
  obtain ⟨ts, c1, c2⟩ := h.prepared.conn
  have c1' : t1.clusters[i]? = some { nodes := c.nodes, connectivity := some ts } := hsame.1.trans c1
  have hf : SameFor c.nodes s1 t1 := by
    refine ⟨by rw [h'.prepared.prep.heap, h.prepared.prep.heap, hq.heap],
      by rw [h'.prepared.prep.maxIter, h.prepared.prep.maxIter, hq.maxIter], ?_, ?_, ?_⟩
    · intro u v
      unfold State.act at hact ⊢
      rw [h'.prepared.prep.activeOf, h.prepared.prep.activeOf]; exact hact u v
    · intro u hu; exact hsame.2 _ c1 u hu
    · intro u hu
      obtain ⟨m, hm, _⟩ := h.prepared.merged u hu
      rw [hm]; rfl
  have hsend : ∀ x ∈ ts, x.sender ∈ c.nodes := fun x hx => c2.sender x hx
  have hS : Same1 i s' t' :=
    ⟨by rw [h'.soft.cl, h.soft.cl]; exact hsame.1, fun c0 hc0 v hv => by
      rw [h'.soft.mrg, h.soft.mrg]; rw [h.soft.cl] at hc0; exact hsame.2 c0 hc0 v hv⟩
  have e1 := h.run
  have e2 := h'.run
  unfold propagateCluster at e1 e2
  rw [h.prepare] at e1
  rw [h'.prepare] at e2
  simp only at e1 e2
  rw [c1] at e1
  rw [c1'] at e2
  simp only at e1 e2
  unfold messageRounds at e1 e2
  rcases (SameFor.rounds (F := F) kind hsched ts.length ts hf hsend).cases with
    ⟨x, y, a, f1, f2, hxy⟩ | ⟨x, y, f1, f2, hxy⟩ | ⟨f1, f2⟩
  · rw [f1] at e1
    rw [f2] at e2
    cases a with
    | true =>
      simp only at e1 e2
      cases e1
      cases e2
      exact ⟨rfl, hxy.act, hS⟩
    | false =>
      simp only at e1 e2
      rcases (hxy.loopy kind hsched n { nodes := c.nodes, connectivity := some ts } hsend).cases with
        ⟨x, y, a, g1, g2, hxy⟩ | ⟨x, y, g1, g2, hxy⟩ | ⟨g1, g2⟩
      · rw [g1] at e1
        rw [g2] at e2
        simp only at e1 e2
        cases e1
        cases e2
        exact ⟨rfl, hxy.act, hS⟩
      · rw [g1] at e1; cases e1
      · rw [g1] at e1; cases e1
  · rw [f1] at e1; cases e1
  · rw [f1] at e1; cases e1

theorem propagateClusters_twin {ord : List Var → List Var} (hord : ∀ l, (ord l).Perm l) (kind : Kind) {sched : Sched}
    (hsched : ∀ l, (sched l).Perm l) {n : Nat} (hn : 1 ≤ n) : ∀ (d k : Nat) (s t : State F), Inv s → Flow s →
    TypedMsgs s → Inv t → Flow t → TypedMsgs t → k + d = s.clusters.length →
    (∀ j c, k ≤ j → s.clusters[j]? = some c → ∀ u ∈ c.nodes, ∀ v, s.msg u v = none) →
    Ahead ord (List.range' k d) s t → (∀ u v, t.act u v = s.act u v) →
    ∃ s' t' rs, propagateClusters ord sched kind n (List.range' k d) s = .ok s' rs ∧
      propagateClusters ord sched kind n (List.range' k d) t = .ok t' rs ∧ Step s s' ∧ Step t t' ∧
      Ahead ord [] s' t' ∧ ∀ u v, t'.act u v = s'.act u v := by
  intro d
  induction d with
  | zero =>
    intro k s t _ _ _ _ _ _ _ _ ha hact
    exact ⟨s, t, [], rfl, rfl, Step.rfl' s, Step.rfl' t, ha, hact⟩
  | succ d ih =>
    intro k s t hs hf hty ht hf' hty' hk hno ha hact
    have hkl : k < s.clusters.length := by omega
    have hc : s.clusters[k]? = some s.clusters[k] := List.getElem?_eq_getElem hkl
    set c := s.clusters[k] with hcdef
    have hmem : k ∈ List.range' k (d + 1) := by simp [List.mem_range']
    obtain ⟨s1, s2, r, hr⟩ := runOf hord kind hsched hn hs hf hty hc (hno k c le_rfl hc)
    have hkt : k < t.clusters.length := by
      have := congrArg List.length ha.clusters
      simp at this; omega
    have hct : t.clusters[k]? = some t.clusters[k] := List.getElem?_eq_getElem hkt
    set ct := t.clusters[k] with hctdef
    have hnodes : ct.nodes = c.nodes := by
      obtain ⟨s0, g1, g2, _⟩ := ha.ready k hmem c hc
      obtain ⟨s0', g1', hp⟩ := prepareCluster_ok hord hs hc
      rw [g1] at g1'
      cases g1'
      obtain ⟨ts, h1, _⟩ := hp.conn
      rw [hct, h1, Option.some.injEq] at g2
      rw [g2]
    have hmsg : ∀ u v, t.msg u v = s.msg u v := fun u v => by unfold msg; rw [hact]
    obtain ⟨t1, t2, r', hr'⟩ := runOf hord kind hsched hn ht hf' hty' hct (by
      intro u hu v
      rw [hmsg]
      exact hno k c le_rfl hc u (hnodes ▸ hu) v)
    obtain ⟨rfl, hact2, hsame⟩ := hr.twin hord hsched hr' hs ht hc (ha.ready k hmem) ha.toQuiet hact
    obtain ⟨tree, hstep⟩ := hr.step
    obtain ⟨tree', hstep'⟩ := hr'.step
    have hs2 := hstep.step.inv hs
    have ht2 := hstep'.step.inv ht
    have hkn : k ∉ List.range' (k + 1) d := by simp [List.mem_range']; omega
    have hq2 : Quiet s2 t2 := (hstep.step.toQuiet.symm'.trans ha.toQuiet).trans hstep'.step.toQuiet
    have ha2 : Ahead ord (List.range' (k + 1) d) s2 t2 := by
      refine ⟨hq2, ?_, ?_, ?_⟩
      · intro i hi
        have hne : i ≠ k := fun h => hkn (h ▸ hi)
        have h1 : Ready1 ord i s t2 := by
          intro c' hc'
          obtain ⟨s0, g1, g2, g3⟩ := ha.ready i (by rw [List.range'_succ]; simp [hi]) c' hc'
          have ho := hr'.other ht hct hne
          refine ⟨s0, g1, ho.1.trans g2, ?_⟩
          intro v hv
          obtain ⟨s0', g1', hp⟩ := prepareCluster_ok hord hs hc'
          rw [g1] at g1'
          cases g1'
          obtain ⟨ts, h1, _⟩ := hp.conn
          rw [ho.2 _ (g2.trans h1) v hv, g3 v hv]
        exact h1.from_ hord hs2 hs hstep.step.toQuiet.symm' (hr.other hs hc hne).symm
      · intro i hi
        by_cases hne : i = k
        · subst hne; exact hsame
        · exact ((hr.other hs hc hne).symm.trans (ha.rest i (by rw [List.range'_succ]; simp [hne, hi]))).trans
            (hr'.other ht hct hne)
      · intro u hu
        have hu' : ¬ Housed s u := fun h => hu ((hstep.step.toQuiet.housed u).mpr h)
        rw [hstep.mrg u (fun h => hu' ⟨k, c, hc, h⟩), hstep'.mrg u (fun h => hu' ⟨k, c, hc, hnodes ▸ h⟩)]
        exact ha.out u hu'
    obtain ⟨s3, t3, rs, e1, e2, e3, e4, e5, e6⟩ := ih (k + 1) s2 t2 hs2 hstep.flow hstep.typed ht2 hstep'.flow
      hstep'.typed (by rw [hstep.len]; omega) (by
        intro j c' hj hc' u hu v
        have hne : j ≠ k := by omega
        rw [hstep.other j hne] at hc'
        rw [hstep.msg u v (clusters_disjoint hs hne hc' hc hu)]
        exact hno j c' (by omega) hc' u hu v) ha2 hact2
    refine ⟨s3, t3, r' :: rs, ?_, ?_, hstep.step.trans e3, hstep'.step.trans e4, e5, e6⟩
    · rw [List.range'_succ, propagateClusters, hr.run]
      simp only
      rw [e1]
    · rw [List.range'_succ, propagateClusters, hr'.run]
      simp only
      rw [e2]

/-! ### Equal states -/

theorem amap_ext {α β : Type} [DecidableEq α] {m m' : List (α × β)} (hk : AMap.keys m' = AMap.keys m)
    (hn : (AMap.keys m).Nodup) (h : ∀ k, AMap.find? m' k = AMap.find? m k) : m' = m := by
  induction m generalizing m' with
  | nil =>
    cases m' with
    | nil => rfl
    | cons e m' => cases hk
  | cons e m ih =>
    cases m' with
    | nil => cases hk
    | cons e' m' =>
      obtain ⟨k, c⟩ := e
      obtain ⟨k', c'⟩ := e'
      simp only [AMap.keys, List.map_cons, List.cons.injEq] at hk
      obtain ⟨rfl, h2⟩ := hk
      simp only [AMap.keys, List.map_cons, List.nodup_cons] at hn
      have h0 := h k'
      simp only [AMap.find?, if_pos, Option.some.injEq] at h0
      subst h0
      congr 1
      refine ih h2 hn.2 ?_
      intro w
      have hw := h w
      simp only [AMap.find?] at hw
      by_cases hkw : k' = w
      · subst hkw
        have hnone : ∀ l : List (α × β), k' ∉ AMap.keys l → AMap.find? l k' = none := by
          intro l hl
          cases hf : AMap.find? l k' with
          | none => rfl
          | some c => exact absurd (AMap.mem_keys.mpr ⟨c, hf⟩) hl
        rw [hnone m hn.1, hnone m' (by show k' ∉ List.map Prod.fst m'; rw [h2]; exact hn.1)]
      · rw [if_neg hkw, if_neg hkw] at hw
        exact hw

theorem Ahead.nodes {ord : List Var → List Var} {s t : State F} (h : Ahead ord [] s t) (hs : Inv s)
    (hact : ∀ u v, t.act u v = s.act u v) : t.nodes = s.nodes := by
  refine amap_ext h.keys (by rw [hs.net.keys]; exact hs.net.distinct.nodup) ?_
  intro v
  have hmrg : t.mrg v = s.mrg v := by
    by_cases hv : Housed s v
    · obtain ⟨i, c, hc, hv⟩ := hv
      exact (h.rest i (by simp)).2 c hc v hv
    · exact h.out v hv
  have hactive : t.activeOf v = s.activeOf v := by
    refine find?_some_of_links (h.active v) ?_ (hs.net.nodup v).1
    intro w
    have := hact v w
    unfold State.act at this
    rw [this]
  have hdis := h.disabled v
  have huna := h.una v
  have hkv : v ∈ AMap.keys t.nodes ↔ v ∈ AMap.keys s.nodes := by rw [h.keys]
  unfold State.mrg State.activeOf State.disabledOf State.una State.node? at *
  cases hS : AMap.find? s.nodes v with
  | none =>
    cases hT : AMap.find? t.nodes v with
    | none => rfl
    | some n =>
      obtain ⟨n', hn'⟩ := AMap.mem_keys.mp (hkv.mp (AMap.mem_keys.mpr ⟨n, hT⟩))
      rw [hS] at hn'; cases hn'
  | some n =>
    cases hT : AMap.find? t.nodes v with
    | none =>
      obtain ⟨n', hn'⟩ := AMap.mem_keys.mp (hkv.mpr (AMap.mem_keys.mpr ⟨n, hS⟩))
      rw [hT] at hn'; cases hn'
    | some n' =>
      rw [hS, hT] at hmrg hactive hdis huna
      simp only at hmrg hactive hdis huna
      cases n; cases n'
      simp only at hmrg hactive hdis huna
      subst hmrg; subst hactive; subst hdis; subst huna
      rfl

theorem Ahead.eq {ord : List Var → List Var} {s t : State F} (h : Ahead ord [] s t) (hs : Inv s)
    (hact : ∀ u v, t.act u v = s.act u v) (r : Option PropResult) (p : Option Nat) :
    ({ t with last := r, pool := p } : State F) = { s with last := r, pool := p } := by
  have hn := h.nodes hs hact
  have hcl : t.clusters = s.clusters := List.ext_getElem? (fun i => (h.rest i (by simp)).1)
  have h1 := h.heap
  have h2 := h.vars
  have h3 := h.factors
  have h4 := h.consts
  have h5 := h.maxIter
  have h6 := h.tunables
  have h7 := h.tuners
  have h8 := h.evidences
  cases s; cases t
  simp only at *
  subst hn; subst hcl; subst h1; subst h2; subst h3; subst h4; subst h5; subst h6; subst h7; subst h8
  rfl

/-! ### Two propagations -/

theorem Ahead.soft {ord : List Var → List Var} {l : List Nat} {s t t' : State F} (h : Ahead ord l s t) (hq : Quiet t t')
    (hm : ∀ v, t'.mrg v = t.mrg v) (hc : t'.clusters = t.clusters) : Ahead ord l s t' where
  toQuiet := h.toQuiet.trans hq
  ready i hi c hc' := by
    obtain ⟨s', h1, h2, h3⟩ := h.ready i hi c hc'
    exact ⟨s', h1, by rw [hc]; exact h2, fun v hv => by rw [hm]; exact h3 v hv⟩
  rest i hi := ⟨by rw [hc]; exact (h.rest i hi).1, fun c hc' v hv => by rw [hm]; exact (h.rest i hi).2 c hc' v hv⟩
  out u hu := by rw [hm]; exact h.out u hu

theorem resetMessages_pool (s : State F) (r : Option PropResult) (p : Option Nat) :
    ({ s with last := r, pool := p } : State F).resetMessages = { s.resetMessages with last := r, pool := p } := by
  unfold resetMessages
  simp only
  generalize s.clusters.flatMap (·.nodes) = l
  induction l generalizing s with
  | nil => rfl
  | cons a l ih =>
    rw [List.foldl_cons, List.foldl_cons]
    exact ih (dropMessages s a)

theorem housed_hid {s : State F} (hs : Inv s) {u : Var} (h : ¬ Housed s u) : u ∉ s.clusters.flatMap (·.nodes) := by
  intro hu
  obtain ⟨c, hc, hu⟩ := List.mem_flatMap.mp hu
  obtain ⟨i, hi⟩ := List.mem_iff_getElem?.mp hc
  exact h ⟨i, c, hi, hu⟩

/-- What a check of the propagation does when nothing was asked. -/
theorem checkPropagation_fresh {ord : List Var → List Var} {sched : Sched} {s : State F} (hs : Healthy s) (kind : Kind)
    {n : Nat} (hn : 1 ≤ n) (hw : s.wouldNeedPropagation kind = true) {s1 : State F} {rs : List ((Bool × Nat) × Bool)}
    (h : propagateClusters ord sched kind n (List.range s.clusters.length) { s.resetMessages with pool := some n } =
      .ok s1 rs) :
    checkPropagation ord sched kind n s = .ok { s1 with
      last := some { kind := kind, completed := rs.all (fun e => e.2), structures := rs.map (fun e => e.1) },
      pool := some 1 } () := by
  unfold checkPropagation
  rw [if_pos hw]
  unfold withPool
  rw [hs.setPoolSize hn]
  simp only
  unfold propagateBelief
  have hw' : ({ s with pool := some n } : State F).wouldNeedPropagation kind = true := hw
  rw [hw']
  simp only [Bool.not_true, Bool.false_eq_true, if_false]
  have := resetMessages_pool s s.last (some n)
  have e : ({ s with pool := some n } : State F).resetMessages = { s.resetMessages with pool := some n } := by
    have h1 : ({ s with pool := some n } : State F) = { s with last := s.last, pool := some n } := rfl
    rw [h1, this]
    have h2 := (resetMessages_soft s).last
    rw [← h2]
  rw [e, h]
  rfl

/-- A propagation after another one leaves what it would have left alone. -/
theorem checkPropagation_again {ord : List Var → List Var} (hord : ∀ l, (ord l).Perm l) {sched : Sched}
    (hsched : ∀ l, (sched l).Perm l) {n : Nat} (hn : 1 ≤ n) {s : State F} (hs : Healthy s) (hlast : s.last = none)
    (k1 k2 : Kind) {s1 : State F} (e : checkPropagation ord sched k1 n s = .ok s1 ()) :
    checkPropagation ord sched k2 n s1 = checkPropagation ord sched k2 n s := by
  have hw : ∀ k, s.wouldNeedPropagation k = true := by
    intro k; unfold wouldNeedPropagation; rw [hlast]
  obtain ⟨s1', r, e', hasked, hs1, hr1, hr2, _⟩ := checkPropagation_ok hord k1 hsched hs hn
  rw [e] at e'
  cases e'
  by_cases hk : k1 = k2
  · subst hk
    rw [e]
    unfold checkPropagation
    have : ¬ s1.wouldNeedPropagation k1 = true := by
      unfold wouldNeedPropagation; rw [hr1]; simp [hr2]
    rw [if_neg this]
  · have hw1 : s1.wouldNeedPropagation k2 = true := by
      unfold wouldNeedPropagation; rw [hr1]; simp [hr2, hk]
    -- the state from which both start
    have hsoft := resetMessages_soft s
    have hmsg : ∀ u, u ∉ s.obs → ∀ v, s.resetMessages.msg u v = none := fun u hu v => msg_resetMessages hs.inv hu v
    set s0 : State F := { s.resetMessages with pool := some n } with hs0
    have hp0 : Asked s s0 := hsoft.step.asked.trans (asked_pool _ _)
    have hi0 : Inv s0 := hp0.inv hs.inv
    have hf0 : Flow s0 := hs.flow.quiet hp0.toQuiet hi0.toCore
    have hty0 : TypedMsgs s0 := by
      intro u v m hu hm
      rw [hp0.toQuiet.obs] at hu
      have := hmsg u hu v
      change s.resetMessages.msg u v = some m at hm
      rw [this] at hm
      cases hm
    have hlen : s0.clusters.length = s.clusters.length := by
      have := congrArg List.length hp0.clusters
      simpa using this
    have hno : ∀ j c, 0 ≤ j → s0.clusters[j]? = some c → ∀ u ∈ c.nodes, ∀ v, s0.msg u v = none := by
      intro j c _ hc u hu v
      have := (hi0.cluster_mem hc hu).2
      rw [hp0.toQuiet.obs] at this
      exact hmsg u this v
    obtain ⟨a, rs, a1, a2, a3, a4⟩ := propagateClusters_ahead hord k1 hsched hn s0.clusters.length 0 s0 hi0 hf0 hty0
      (by omega) hno
    rw [← List.range_eq_range', hlen] at a1
    have e1 := checkPropagation_fresh hs k1 hn (hw k1) a1
    rw [e] at e1
    simp only [Out.ok.injEq, and_true] at e1
    -- the state from which the second propagation starts
    have hq1 : Asked a s1 := by rw [e1]; exact Asked.light rfl rfl rfl rfl rfl rfl rfl rfl rfl rfl
    have hsoft1 := resetMessages_soft s1
    set t0 : State F := { s1.resetMessages with pool := some n } with ht0
    have hp1 : Asked s1 t0 := hsoft1.step.asked.trans (asked_pool _ _)
    have hi1 : Inv t0 := hp1.inv hs1.inv
    have hf1 : Flow t0 := hs1.flow.quiet hp1.toQuiet hi1.toCore
    have hmrg1 : ∀ v, t0.mrg v = a.mrg v := by
      intro v
      have h1 : t0.mrg v = s1.resetMessages.mrg v := rfl
      rw [h1, hsoft1.mrg, e1]; rfl
    have hcl1 : t0.clusters = a.clusters := by
      have h1 : t0.clusters = s1.resetMessages.clusters := rfl
      rw [h1, hsoft1.cl, e1]
    have hahead : Ahead ord (List.range' 0 s0.clusters.length) s0 t0 :=
      a3.soft (hq1.trans hp1).toQuiet hmrg1 hcl1
    have hobs : t0.obs = s.obs := by rw [hahead.toQuiet.obs, hp0.toQuiet.obs]
    have hmsg1 : ∀ u, u ∉ s.obs → ∀ v, t0.msg u v = none := by
      intro u hu v
      refine msg_resetMessages hs1.inv ?_ v
      rw [hasked.toQuiet.obs]; exact hu
    have hact : ∀ u v, t0.act u v = s0.act u v := by
      intro u v
      refine hahead.toQuiet.act_eq ?_
      by_cases hu : u ∈ s.obs
      · have hnc : ¬ Housed s0 u := by
          rintro ⟨i, c, hc, hu'⟩
          exact (hi0.cluster_mem hc hu').2 (by rw [hp0.toQuiet.obs]; exact hu)
        have hnc1 : ¬ Housed s1 u := fun h => hnc ((a3.toQuiet.housed u).mp ((hq1.toQuiet.housed u).mp h))
        have h1 : t0.msg u v = s1.msg u v := by
          have : t0.msg u v = s1.resetMessages.msg u v := rfl
          rw [this]
          unfold resetMessages
          rw [msg_drop, if_neg (housed_hid hs1.inv hnc1)]
        have h2 : s1.msg u v = a.msg u v := by rw [e1]; rfl
        rw [h1, h2, a4 u v hnc]
      · rw [hmsg1 u hu v]; exact (hmsg u hu v).symm
    have hty1 : TypedMsgs t0 := by
      intro u v m hu hm
      rw [hobs] at hu
      rw [hmsg1 u hu v] at hm
      cases hm
    obtain ⟨s2, t2, rs2, b1, b2, b3, b4, b5, b6⟩ := propagateClusters_twin hord k2 hsched hn s0.clusters.length 0 s0 t0
      hi0 hf0 hty0 hi1 hf1 hty1 (by omega) hno hahead hact
    rw [← List.range_eq_range', hlen] at b1 b2
    have hlen1 : s1.clusters.length = s.clusters.length := by
      have := congrArg List.length hasked.clusters
      simpa using this
    rw [checkPropagation_fresh hs k2 hn (hw k2) b1,
      checkPropagation_fresh hs1 k2 hn hw1 (by rw [hlen1]; exact b2)]
    rw [b5.eq (b3.inv hi0) b6]

end State
end EFG
