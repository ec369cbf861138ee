import Verif.Lemmas.Calm
import Verif.Lemmas.RepeatRun
/-
With at least two threads, the propagation does not depend on the number of threads nor on the schedule.
-/

set_option linter.unusedSectionVars false

namespace EFG
namespace State
section
variable {F : Type} [Arith F]

theorem Ready.round {s : State F} {nodes : List Var} {ts : List Topo} (h : Ready s nodes ts) {g : List Topo}
    (hg : ∀ t ∈ g, t ∈ ts) (hn : (g.map (·.conn)).Nodup) (ha : ∀ t ∈ g, ∀ t' ∈ g, t.conn ∉ t'.deps) : RoundOk s g :=
  ⟨fun t ht => h.setting.at_ (hg t ht), fun t ht => h.setting.merged _ (h.setting.topo.sender t (hg t ht)),
    fun t ht => h.hasDeps (hg t ht), hn, ha⟩

/-- The tasks of a group: the messages and the variations depend on what is stored before the group
only. -/
theorem loopyTasks_round {kind : Kind} (n : Nat) {val : Topo → Fn F} {var : Topo → F} : ∀ {l : List (Topo × Nat)}
    {s : State F} (vs : List F), Flow s → TypedMsgs s → RoundOk s (l.map Prod.fst) →
    (∀ e ∈ l, Sends kind s e.1 (val e.1) ∧ (val e.1).Unary e.1.conn.owner ∧
      variation (s.msg e.1.conn.owner e.1.conn.from_) (val e.1) = .ok (var e.1)) →
    loopyTasks kind n l vs s = .ok (writeAll (l.map (fun e => (e.1.conn, val e.1))) s)
      (slots n (l.map (fun e => (e.2, var e.1))) vs) := by
  intro l
  induction l with
  | nil => intro s vs _ _ _ _; rfl
  | cons e l ih =>
    intro s vs hs hty hr hv
    obtain ⟨h1, h2, h0⟩ := hv e (by simp)
    have ht := hr.at_ e.1 (by simp)
    obtain ⟨x, h3, h3'⟩ := updateMessage_ok hs hty ht h1 h2
    have hx : x = var e.1 := by rw [h0] at h3'; cases h3'; rfl
    subst hx
    have hsoft := setActiveMessage_soft s e.1.conn.owner e.1.conn.from_ (some (val e.1))
    have hmsg := msg_setActiveMessage (ht.ownerActive hs) (some (val e.1))
    set s1 := setActiveMessage e.1.conn.owner e.1.conn.from_ (some (val e.1)) s with hs1
    have hsame : ∀ t ∈ l.map Prod.fst, ∀ r ∈ t.deps, s1.msg r.owner r.from_ = s.msg r.owner r.from_ := by
      intro t ht r hr'
      rw [hmsg, if_neg]
      rintro ⟨g1, g2⟩
      have hrc : r = e.1.conn := by
        cases r; simp only at g1 g2; rw [g1, g2]
      exact hr.apart e.1 (by simp) t (by simp only [List.map_cons, List.mem_cons]; exact Or.inr ht) (hrc ▸ hr')
    have hty1 : TypedMsgs s1 := by
      intro u v m hu hm
      rw [hmsg] at hm
      by_cases hp : u = e.1.conn.owner ∧ v = e.1.conn.from_
      · rw [if_pos hp] at hm; cases hm; rw [hp.1]; exact h2
      · rw [if_neg hp] at hm
        rw [hsoft.toQuiet.obs] at hu
        exact hty u v m hu hm
    have hmem : ∀ t, t ∈ l.map Prod.fst → t ∈ (e :: l).map Prod.fst := fun t h => by
      simp only [List.map_cons, List.mem_cons]; exact Or.inr h
    have hnd := hr.nodup
    simp only [List.map_cons, List.nodup_cons] at hnd
    rw [loopyTasks]
    unfold loopyTask
    rw [h3]
    simp only
    rw [ih _ (hs.soft hsoft) hty1 ?_ ?_]
    · rfl
    · refine ⟨fun t h => (hr.at_ t (hmem t h)).quiet hsoft.toQuiet, ?_, ?_, hnd.2, ?_⟩
      · intro t h; rw [hsoft.mrg]; exact hr.merged t (hmem t h)
      · intro t h r hr'; rw [hsame t h r hr']; exact hr.deps t (hmem t h) r hr'
      · intro t h t' h'; exact hr.apart t (hmem t h) t' (hmem t' h')
    · intro e' he'
      obtain ⟨g1, g2, g3⟩ := hv e' (by simp [he'])
      have hin : e'.1 ∈ l.map Prod.fst := List.mem_map.mpr ⟨e', he', rfl⟩
      refine ⟨g1.congr hsoft (hsame e'.1 hin), g2, ?_⟩
      rw [hmsg, if_neg]
      · exact g3
      · rintro ⟨k1, k2⟩
        refine hnd.1 (List.mem_map.mpr ⟨e'.1, hin, ?_⟩)
        cases h5 : e'.1.conn; cases h6 : e.1.conn
        rw [h5, h6] at k1 k2
        simp only at k1 k2
        rw [k1, k2]

/-- The groups of tasks of an iteration which may run at the same time. -/
structure Groups (ts : List Topo) (gs : List (List Topo)) : Prop where
  mem : ∀ g ∈ gs, ∀ t ∈ g, t ∈ ts
  nodup : ∀ g ∈ gs, (g.map (·.conn)).Nodup
  apart : ∀ g ∈ gs, ∀ t ∈ g, ∀ t' ∈ g, t.conn ∉ t'.deps

/-- One iteration: the state and, up to their order, the variations are the same for all schedules and
numbers of threads. -/
theorem loopyGroups_same (kind : Kind) {nodes : List Var} {ts : List Topo} : ∀ (gs : List (List Topo)) (s : State F),
    Groups ts gs → Ready s nodes ts → ∃ s' xs, Ready s' nodes ts ∧ ∀ (sched : Sched), (∀ l, (sched l).Perm l) →
      ∀ n (vs : List F), ∃ ps, loopyGroups kind sched n gs vs s = .ok s' (slots n ps vs) ∧ (ps.map Prod.snd).Perm xs := by
  classical
  intro gs
  induction gs with
  | nil => intro s _ h; exact ⟨s, [], h, fun _ _ _ _ => ⟨[], rfl, by simp⟩⟩
  | cons g gs ih =>
    intro s hg h
    have hgm := hg.mem g (by simp)
    have hr := h.round hgm (hg.nodup g (by simp)) (hg.apart g (by simp))
    have hex : ∀ t : Topo, ∃ (m : Fn F) (x : F), t ∈ g → Sends kind s t m ∧ m.Unary t.conn.owner ∧
        variation (s.msg t.conn.owner t.conn.from_) m = .ok x := by
      intro t
      by_cases ht : t ∈ g
      · obtain ⟨m, h1, h2⟩ := sends_ok kind h.flow h.typed (hr.at_ t ht) (hr.merged t ht) (hr.deps t ht)
        obtain ⟨x, _, h4⟩ := updateMessage_ok h.flow h.typed (hr.at_ t ht) h1 h2
        exact ⟨m, x, fun _ => ⟨h1, h2, h4⟩⟩
      · exact ⟨Fn.ones t.sender, Arith.zero, fun h' => absurd h' ht⟩
    choose val var hval using hex
    have key : ∀ (sched : Sched), (∀ l, (sched l).Perm l) → ∀ n (vs : List F),
        loopyTasks kind n (sched g.zipIdx) vs s = .ok (writeAll (g.map (fun t => (t.conn, val t))) s)
          (slots n ((sched g.zipIdx).map (fun e => (e.2, var e.1))) vs) := by
      intro sched hsched n vs
      have hp' : ((sched g.zipIdx).map Prod.fst).Perm g := by
        have := (hsched g.zipIdx).map Prod.fst
        rwa [List.zipIdx_map_fst] at this
      rw [loopyTasks_round n (val := val) (var := var) vs h.flow h.typed ?_ ?_]
      · congr 1
        refine writeAll_perm ?_ ?_ s
        · have := hp'.map (fun t => (t.conn, val t))
          rw [List.map_map] at this
          exact this
        · have := (hp'.map (·.conn)).nodup_iff.mpr hr.nodup
          rw [List.map_map] at this ⊢
          exact this
      · exact ⟨fun t h => hr.at_ t (hp'.mem_iff.mp h), fun t h => hr.merged t (hp'.mem_iff.mp h),
          fun t h => hr.deps t (hp'.mem_iff.mp h), (hp'.map _).nodup_iff.mpr hr.nodup,
          fun t h t' h' => hr.apart t (hp'.mem_iff.mp h) t' (hp'.mem_iff.mp h')⟩
      · intro e he
        exact hval e.1 (hp'.mem_iff.mp (List.mem_map.mpr ⟨e, he, rfl⟩))
    have hready : Ready (writeAll (g.map (fun t => (t.conn, val t))) s) nodes ts := by
      obtain ⟨s1, ps, e1, _, e3, _⟩ := loopyTasks_ok kind 1 g.zipIdx [] s (by
        intro e he
        have : e.1 ∈ g.zipIdx.map Prod.fst := List.mem_map.mpr ⟨e, he, rfl⟩
        rw [List.zipIdx_map_fst] at this
        exact hgm _ this) h
      have := key id (fun l => List.Perm.refl l) 1 []
      rw [id, e1, Out.ok.injEq] at this
      rw [← this.1]
      exact e3
    obtain ⟨s', xs, h1, h2⟩ := ih _ ⟨fun g hg' => hg.mem g (by simp [hg']), fun g hg' => hg.nodup g (by simp [hg']),
      fun g hg' => hg.apart g (by simp [hg'])⟩ hready
    refine ⟨s', g.map var ++ xs, h1, ?_⟩
    intro sched hsched n vs
    obtain ⟨ps, k1, k2⟩ := h2 sched hsched n (slots n ((sched g.zipIdx).map (fun e => (e.2, var e.1))) vs)
    refine ⟨(sched g.zipIdx).map (fun e => (e.2, var e.1)) ++ ps, ?_, ?_⟩
    · rw [loopyGroups, key sched hsched]
      simp only
      rw [k1]
      unfold slots
      rw [List.foldl_append]
    · rw [List.map_append]
      refine List.Perm.append ?_ k2
      have := ((hsched g.zipIdx).map Prod.fst).map var
      rw [List.zipIdx_map_fst] at this
      rw [List.map_map] at this ⊢
      exact this

theorem Setting.conn_nodup {s : State F} {nodes : List Var} {ts : List Topo} (h : Setting s nodes ts) :
    (ts.map (·.conn)).Nodup := by
  have hw := h.topo.nodup
  have hd := List.Nodup.of_map _ hw
  rw [List.nodup_map_iff_inj_on hd] at hw ⊢
  intro a ha b hb he
  refine hw a ha b hb ?_
  have h1 := h.topo.from_ a ha
  have h2 := h.topo.from_ b hb
  rw [← h1, ← h2, he]

theorem Ready.groups {s : State F} {nodes : List Var} {ts : List Topo} (h : Ready s nodes ts) :
    Groups ts (greedyOrder ts) := by
  have hp := greedyOrder_perm ts
  refine ⟨?_, ?_, ?_⟩
  · intro g hg t ht
    exact hp.mem_iff.mp (List.mem_flatten.mpr ⟨g, hg, ht⟩)
  · intro g hg
    have h1 : ((greedyOrder ts).flatten.map (·.conn)).Nodup := (hp.map _).nodup_iff.mpr h.setting.conn_nodup
    exact List.Nodup.sublist ((List.sublist_flatten_of_mem hg).map _) h1
  · refine greedyOrder_apart ts ?_
    intro t ht hmem
    have h1 := (h.setting.topo.deps t ht t.conn).mp hmem
    have h2 := h.setting.topo.active t ht
    rw [h1.1, h.flow.core.net.act_irrefl] at h2
    cases h2

/-! ### States which differ in the pool and the last result -/

/-- Two states which may only differ in the last result and the pool. -/
structure PoolAlike (s t : State F) : Prop extends Agree s t where
  act : ∀ u v, t.act u v = s.act u v

theorem PoolAlike.eq {s t : State F} (h : PoolAlike s t) (hs : Inv s) (r : Option PropResult) (p : Option Nat) :
    ({ t with last := r, pool := p } : State F) = { s with last := r, pool := p } := by
  have ha : Ahead id [] s t :=
    ⟨h.toQuiet, by simp, fun i _ => ⟨by rw [h.cl], fun _ _ v _ => h.mrg v⟩, fun u _ => h.mrg u⟩
  exact ha.eq hs h.act r p

theorem RunOf.poolAlike {ord : List Var → List Var} (hord : ∀ l, (ord l).Perm l) {sched : Sched}
    (hsched : ∀ l, (sched l).Perm l) {kind : Kind} {n i : Nat} {c c' : Cluster} {s s1 s' t t1 t' : State F}
    {r r' : (Bool × Nat) × Bool} (h : RunOf ord sched kind n i c s s1 s' r)
    (h' : RunOf ord sched kind n i c' t t1 t' r') (hs : Inv s) (ht : Inv t) (ha : PoolAlike s t) : r' = r ∧ PoolAlike s' t' := by
  have hag := prepareCluster_agree hord hs ht ha.toAgree h.prepare h'.prepare
  obtain ⟨ts, c1, c2⟩ := h.prepared.conn
  have c1' : t1.clusters[i]? = some { nodes := c.nodes, connectivity := some ts } := by rw [hag.cl]; exact c1
  have hf : SameFor c.nodes s1 t1 := by
    refine ⟨hag.heap, hag.maxIter, ?_, fun u _ => hag.mrg u, ?_⟩
    · intro u v
      have := ha.act u v
      unfold State.act at this ⊢
      rw [h'.prepared.prep.activeOf, h.prepared.prep.activeOf]; exact this
    · intro u hu
      obtain ⟨m, hm, _⟩ := h.prepared.merged u hu
      rw [hm]; rfl
  have hsend : ∀ x ∈ ts, x.sender ∈ c.nodes := fun x hx => c2.sender x hx
  have hS : Agree s' t' := (h.soft.agree.symm.trans hag).trans h'.soft.agree
  have e1 := h.run
  have e2 := h'.run
  unfold propagateCluster at e1 e2
  rw [h.prepare] at e1
  rw [h'.prepare] at e2
  simp only at e1 e2
  rw [c1] at e1
  rw [c1'] at e2
  simp only at e1 e2
  unfold messageRounds at e1 e2
  rcases (SameFor.rounds (F := F) kind hsched ts.length ts hf hsend).cases with
    ⟨x, y, a, f1, f2, hxy⟩ | ⟨x, y, f1, f2, hxy⟩ | ⟨f1, f2⟩
  · rw [f1] at e1
    rw [f2] at e2
    cases a with
    | true =>
      simp only at e1 e2
      cases e1
      cases e2
      exact ⟨rfl, hS, hxy.act⟩
    | false =>
      simp only at e1 e2
      rcases (hxy.loopy kind hsched n { nodes := c.nodes, connectivity := some ts } hsend).cases with
        ⟨x, y, a, g1, g2, hxy⟩ | ⟨x, y, g1, g2, hxy⟩ | ⟨g1, g2⟩
      · rw [g1] at e1
        rw [g2] at e2
        simp only at e1 e2
        cases e1
        cases e2
        exact ⟨rfl, hS, hxy.act⟩
      · rw [g1] at e1; cases e1
      · rw [g1] at e1; cases e1
  · rw [f1] at e1; cases e1
  · rw [f1] at e1; cases e1

theorem propagateClusters_alike {ord : List Var → List Var} (hord : ∀ l, (ord l).Perm l) (kind : Kind) {sched : Sched}
    (hsched : ∀ l, (sched l).Perm l) {n : Nat} (hn : 1 ≤ n) : ∀ (d k : Nat) (s t : State F), Inv s → Flow s →
    TypedMsgs s → Inv t → Flow t → TypedMsgs t → k + d = s.clusters.length →
    (∀ j c, k ≤ j → s.clusters[j]? = some c → ∀ u ∈ c.nodes, ∀ v, s.msg u v = none) → PoolAlike s t →
    ∃ s' t' rs, propagateClusters ord sched kind n (List.range' k d) s = .ok s' rs ∧
      propagateClusters ord sched kind n (List.range' k d) t = .ok t' rs ∧ Step s s' ∧ PoolAlike s' t' := by
  intro d
  induction d with
  | zero =>
    intro k s t _ _ _ _ _ _ _ _ ha
    exact ⟨s, t, [], rfl, rfl, Step.rfl' s, ha⟩
  | succ d ih =>
    intro k s t hs hf hty ht hf' hty' hk hno ha
    have hkl : k < s.clusters.length := by omega
    have hc : s.clusters[k]? = some s.clusters[k] := List.getElem?_eq_getElem hkl
    set c := s.clusters[k] with hcdef
    have hct : t.clusters[k]? = some c := by rw [ha.cl]; exact hc
    have hmsg : ∀ u v, t.msg u v = s.msg u v := fun u v => by unfold msg; rw [ha.act]
    obtain ⟨s1, s2, r, hr⟩ := runOf hord kind hsched hn hs hf hty hc (hno k c le_rfl hc)
    obtain ⟨t1, t2, r', hr'⟩ := runOf hord kind hsched hn ht hf' hty' hct (by
      intro u hu v
      rw [hmsg]
      exact hno k c le_rfl hc u hu v)
    obtain ⟨rfl, ha2⟩ := hr.poolAlike hord hsched hr' hs ht ha
    obtain ⟨tree, hstep⟩ := hr.step
    obtain ⟨tree', hstep'⟩ := hr'.step
    obtain ⟨s3, t3, rs, e1, e2, e3, e4⟩ := ih (k + 1) s2 t2 (hstep.step.inv hs) hstep.flow hstep.typed
      (hstep'.step.inv ht) hstep'.flow hstep'.typed (by rw [hstep.len]; omega) (by
        intro j c' hj hc' u hu v
        have hne : j ≠ k := by omega
        rw [hstep.other j hne] at hc'
        rw [hstep.msg u v (clusters_disjoint hs hne hc' hc hu)]
        exact hno j c' (by omega) hc' u hu v) ha2
    refine ⟨s3, t3, r' :: rs, ?_, ?_, hstep.step.trans e3, e4⟩
    · rw [List.range'_succ, propagateClusters, hr.run]
      simp only
      rw [e1]
    · rw [List.range'_succ, propagateClusters, hr'.run]
      simp only
      rw [e2]

end

variable {K : Type} [Field K] [LinearOrder K] [IsStrictOrderedRing K] [FloatParams K]

theorem loopyIterations_same (kind : Kind) {nodes : List Var} {ts : List Topo} {gs : List (List Topo)}
    (hg : Groups ts gs) : ∀ (k : Nat) (s : State (Ext K)), Ready s nodes ts → ∃ s' b, ∀ (sched : Sched),
      (∀ l, (sched l).Perm l) → ∀ n, 1 ≤ n → loopyIterations kind sched n gs k s = .ok s' b := by
  intro k
  induction k with
  | zero => intro s _; exact ⟨s, false, fun _ _ _ _ => rfl⟩
  | succ k ih =>
    intro s h
    obtain ⟨s1, xs, h1, h2⟩ := loopyGroups_same kind gs s hg h
    have hne : ∀ n, 1 ≤ n → ∀ ps : List (Nat × Ext K), ∃ m,
        Arith.maxElement (slots n ps (List.replicate n (Arith.zero : Ext K))) = .ok m := by
      intro n hn ps
      refine maxElement_ne ?_
      intro h0
      have := slots_length n ps (List.replicate n (Arith.zero : Ext K))
      rw [h0] at this
      simp at this
      omega
    by_cases hx : ∀ x ∈ xs, Passes x
    · refine ⟨s1, true, ?_⟩
      intro sched hsched n hn
      obtain ⟨ps, k1, k2⟩ := h2 sched hsched n (List.replicate n Arith.zero)
      obtain ⟨m, hm⟩ := hne n hn ps
      rw [loopyIterations, k1]
      simp only
      rw [hm]
      simp only
      rw [if_pos ((test_iff hn hm).mpr (fun x h => hx x (k2.mem_iff.mp h)))]
    · obtain ⟨s2, b, h3⟩ := ih s1 h1
      refine ⟨s2, b, ?_⟩
      intro sched hsched n hn
      obtain ⟨ps, k1, k2⟩ := h2 sched hsched n (List.replicate n Arith.zero)
      obtain ⟨m, hm⟩ := hne n hn ps
      rw [loopyIterations, k1]
      simp only
      rw [hm]
      simp only
      rw [if_neg, h3 sched hsched n hn]
      intro hlt
      exact hx (fun x h => (test_iff hn hm).mp hlt x (k2.mem_iff.mpr h))

/-- The loopy propagation of a cluster with at least two threads. -/
theorem loopyPropagate_same (kind : Kind) {c : Cluster} {ts : List Topo} {s : State (Ext K)} (hf : Flow s)
    (hty : TypedMsgs s) (hs : Setting s c.nodes ts) : ∃ s' b, ∀ (sched : Sched), (∀ l, (sched l).Perm l) → ∀ n, 2 ≤ n →
      loopyPropagate kind sched n c ts s = .ok s' b := by
  have hready : Ready (c.nodes.foldl oneMessages s) c.nodes ts := by
    have hsoft := foldl_soft (oneMessages_soft (F := Ext K)) c.nodes s
    have hmsg := msg_ones (F := Ext K) c.nodes s
    refine ⟨hf.soft hsoft, ?_, hs.soft hsoft, ?_⟩
    · intro u v m hu hm
      rw [hsoft.toQuiet.obs] at hu
      rw [hmsg] at hm
      by_cases huc : u ∈ c.nodes
      · rw [if_pos huc] at hm
        cases ha : s.act u v with
        | none => rw [ha] at hm; cases hm
        | some c' =>
          rw [ha] at hm
          cases hm
          have huv : u ∈ s.vars := by
            have := hf.core.net.keys
            rw [← this]
            unfold State.act activeOf node? at ha
            cases hk : AMap.find? s.nodes u with
            | none => rw [hk] at ha; cases ha
            | some _ => exact AMap.mem_keys.mpr ⟨_, hk⟩
          exact (Fn.ones_unary (F := Ext K) (hf.core.posV u huv)).1
      · rw [if_neg huc] at hm
        exact hty u v m hu hm
    · intro t ht
      rw [hmsg, if_pos (hs.ownerMem ht)]
      obtain ⟨c', hc'⟩ := Option.isSome_iff_exists.mp ((hs.at_ ht).ownerActive hf)
      rw [hc']; rfl
  obtain ⟨s', b, h⟩ := loopyIterations_same kind hready.groups (c.nodes.foldl oneMessages s).maxIter _ hready
  refine ⟨s', b, ?_⟩
  intro sched hsched n hn
  unfold loopyPropagate
  simp only
  unfold loopyOrder
  rw [if_pos (by omega)]
  exact h sched hsched n (by omega)

theorem propagateCluster_same {ord : List Var → List Var} (hord : ∀ l, (ord l).Perm l) (kind : Kind) {s : State (Ext K)}
    (hs : Inv s) (hf : Flow s) (hty : TypedMsgs s) {i : Nat} {c : Cluster} (hc : s.clusters[i]? = some c)
    (hno : ∀ u ∈ c.nodes, ∀ v, s.msg u v = none) : ∃ s' r, (∃ tree, ClusterStep kind s s' i c tree) ∧
      ∀ sched : Sched, (∀ l, (sched l).Perm l) → ∀ n, 2 ≤ n → propagateCluster ord sched kind n i s = .ok s' r := by
  rcases propagateCluster_ok hord kind hs hf hty hc hno with ⟨s', h1, h2⟩ | hloop
  · exact ⟨s', _, ⟨true, h1⟩, fun sched hsched n _ => h2 sched hsched n⟩
  · suffices h : ∃ s' r, ∀ sched : Sched, (∀ l, (sched l).Perm l) → ∀ n, 2 ≤ n →
        propagateCluster ord sched kind n i s = .ok s' r by
      obtain ⟨s', r, h⟩ := h
      refine ⟨s', r, ⟨false, ?_⟩, h⟩
      obtain ⟨s0, s1, ts, sw, done, k1, _, _, k4⟩ := hloop id (fun l => List.Perm.refl l) 2 (by omega)
      rw [h id (fun l => List.Perm.refl l) 2 le_rfl] at k4
      cases k4
      exact k1
    obtain ⟨s1, e1, hp⟩ := prepareCluster_ok hord hs hc
    have hf1 : Flow s1 := hf.quiet hp.prep.toQuiet hp.inv.toCore
    have hty1 : TypedMsgs s1 := by
      intro u v m hu hm
      rw [hp.prep.toQuiet.obs] at hu
      rw [hp.prep.msg] at hm
      exact hty u v m hu hm
    obtain ⟨ts, ht1, ht2⟩ := hp.conn
    have hset : Setting s1 c.nodes ts := by
      refine ⟨ht2, ?_, ?_, ?_⟩
      · intro u hu; rw [hp.prep.toQuiet.obs]; exact (hs.cluster_mem hc hu).2
      · intro u hu v hv
        exact hp.inv.closed hf1.sep ht1 hu hv
      · intro u hu
        obtain ⟨m, hm, _⟩ := hp.merged u hu
        rw [hm]; rfl
    have hprog : Progress kind s1 c.nodes ts ts 0 (fun _ => 0) := by
      refine ⟨hf1, hty1, hset, List.Sublist.refl ts, ?_, ?_⟩
      · intro t ht
        rw [hp.prep.msg]
        exact hno _ (hset.ownerMem ht) _
      · intro t ht h; exact absurd ht h
    obtain ⟨s2, b, h1, h2, h3, _⟩ := messageRounds_ok kind ts.length ts le_rfl s1 0 (fun _ => 0) hprog
    obtain ⟨s3, done, h4⟩ := loopyPropagate_same kind (c := { nodes := c.nodes, connectivity := some ts })
      (hf1.soft h2) h3 (hset.soft h2)
    cases b with
    | true =>
      refine ⟨s2, ((true, c.nodes.length), true), ?_⟩
      intro sched hsched n _
      unfold propagateCluster
      rw [e1]
      simp only
      rw [ht1]
      simp only
      rw [h1 sched hsched]
    | false =>
      refine ⟨s3, ((false, c.nodes.length), done), ?_⟩
      intro sched hsched n hn
      unfold propagateCluster
      rw [e1]
      simp only
      rw [ht1]
      simp only
      rw [h1 sched hsched]
      simp only
      rw [h4 sched hsched n hn]

theorem propagateClusters_same {ord : List Var → List Var} (hord : ∀ l, (ord l).Perm l) (kind : Kind) :
    ∀ (d k : Nat) (s : State (Ext K)), Inv s → Flow s → TypedMsgs s → k + d = s.clusters.length →
    (∀ j c, k ≤ j → s.clusters[j]? = some c → ∀ u ∈ c.nodes, ∀ v, s.msg u v = none) →
    ∃ s' rs, ∀ sched : Sched, (∀ l, (sched l).Perm l) → ∀ n, 2 ≤ n →
      propagateClusters ord sched kind n (List.range' k d) s = .ok s' rs := by
  intro d
  induction d with
  | zero => intro k s _ _ _ _ _; exact ⟨s, [], fun _ _ _ _ => rfl⟩
  | succ d ih =>
    intro k s hs hf hty hk hno
    have hkl : k < s.clusters.length := by omega
    have hc : s.clusters[k]? = some s.clusters[k] := List.getElem?_eq_getElem hkl
    obtain ⟨s1, r, ⟨tree, hstep⟩, hrun⟩ := propagateCluster_same hord kind hs hf hty hc (hno k _ le_rfl hc)
    obtain ⟨s2, rs, h2⟩ := ih (k + 1) s1 (hstep.step.inv hs) hstep.flow hstep.typed (by rw [hstep.len]; omega) (by
        intro j c' hj hc' u hu v
        have hne : j ≠ k := by omega
        rw [hstep.other j hne] at hc'
        rw [hstep.msg u v (clusters_disjoint hs hne hc' hc hu)]
        exact hno j c' (by omega) hc' u hu v)
    refine ⟨s2, r :: rs, ?_⟩
    intro sched hsched n hn
    rw [List.range'_succ, propagateClusters, hrun sched hsched n hn]
    simp only
    rw [h2 sched hsched n hn]

/-- The propagation started by a query with at least two threads. -/
theorem checkPropagation_threads {ord : List Var → List Var} (hord : ∀ l, (ord l).Perm l) {sched sched' : Sched}
    (hsched : ∀ l, (sched l).Perm l) (hsched' : ∀ l, (sched' l).Perm l) {n n' : Nat} (hn : 2 ≤ n) (hn' : 2 ≤ n')
    {s : State (Ext K)} (hs : Healthy s) (kind : Kind) :
    checkPropagation ord sched' kind n' s = checkPropagation ord sched kind n s := by
  by_cases hw : s.wouldNeedPropagation kind = true
  · have hsoft := resetMessages_soft s
    have hmsg : ∀ u, u ∉ s.obs → ∀ v, s.resetMessages.msg u v = none := fun u hu v => msg_resetMessages hs.inv hu v
    have start : ∀ m : Nat, let s0 : State (Ext K) := { s.resetMessages with pool := some m }
        Inv s0 ∧ Flow s0 ∧ TypedMsgs s0 ∧ s0.clusters.length = s.clusters.length ∧
          ∀ j c, 0 ≤ j → s0.clusters[j]? = some c → ∀ u ∈ c.nodes, ∀ v, s0.msg u v = none := by
      intro m s0
      have hp0 : Asked s s0 := hsoft.step.asked.trans (asked_pool _ _)
      have hi0 : Inv s0 := hp0.inv hs.inv
      refine ⟨hi0, hs.flow.quiet hp0.toQuiet hi0.toCore, ?_, ?_, ?_⟩
      · intro u v m hu hm
        rw [hp0.toQuiet.obs] at hu
        have := hmsg u hu v
        change s.resetMessages.msg u v = some m at hm
        rw [this] at hm
        cases hm
      · have := congrArg List.length hp0.clusters
        simpa using this
      · intro j c _ hc u hu v
        have := (hi0.cluster_mem hc hu).2
        rw [hp0.toQuiet.obs] at this
        exact hmsg u this v
    obtain ⟨a1, a2, a3, a4, a5⟩ := start n
    obtain ⟨b1, b2, b3, b4, b5⟩ := start n'
    set s0 : State (Ext K) := { s.resetMessages with pool := some n } with hs0
    set t0 : State (Ext K) := { s.resetMessages with pool := some n' } with ht0
    have hal : PoolAlike s0 t0 :=
      ⟨⟨⟨⟨rfl, rfl, rfl, rfl, rfl, rfl, rfl, rfl, fun _ => rfl⟩, rfl, rfl, fun _ => rfl, fun _ => rfl⟩,
        fun _ => rfl, rfl⟩, fun _ _ => rfl⟩
    obtain ⟨s', t', rs, e1, e2, e3, e4⟩ := propagateClusters_alike hord kind hsched (n := n) (by omega)
      s0.clusters.length 0 s0 t0 a1 a2 a3 b1 b2 b3 (by omega) a5 hal
    obtain ⟨t2, rs2, e5⟩ := propagateClusters_same hord kind s0.clusters.length 0 t0 b1 b2 b3 (by omega) b5
    have e6 := e5 sched' hsched' n' hn'
    rw [e5 sched hsched n hn, Out.ok.injEq] at e2
    obtain ⟨rfl, rfl⟩ := e2
    rw [← List.range_eq_range', a4] at e1 e6
    rw [checkPropagation_fresh hs kind (by omega) hw e1, checkPropagation_fresh hs kind (by omega) hw e6]
    rw [e4.eq (e3.inv a1)]
  · unfold checkPropagation
    rw [if_neg hw, if_neg hw]

end State
end EFG
