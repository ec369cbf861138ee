import Verif.Lemmas.Race
import Verif.Spec.Strategy
/-
Propagations with a strategy given by the user.
-/

set_option linter.unusedSectionVars false

namespace EFG

theorem AMap.find?_mapKey {α β β' : Type} [DecidableEq α] (m : List (α × β)) (f : α → β → β') (q : α) :
    AMap.find? (m.map (fun e => (e.1, f e.1 e.2))) q = (AMap.find? m q).map (f q) := by
  induction m with
  | nil => rfl
  | cons e m ih =>
    obtain ⟨k, x⟩ := e
    simp only [List.map_cons, AMap.find?, ih]
    by_cases h : k = q
    · subst h; simp
    · rw [if_neg h, if_neg h]

namespace State
variable {F : Type} [Arith F]

theorem node?_withMessages (s : State F) (μ : Var → Var → Option (Fn F)) (u : Var) :
    (s.withMessages μ).node? u = (s.node? u).map (fun n => n.withMessages (μ u)) :=
  AMap.find?_mapKey s.nodes (fun k (n : Node F) => n.withMessages (μ k)) u

theorem activeOf_withMessages (s : State F) (μ : Var → Var → Option (Fn F)) (u : Var) :
    (s.withMessages μ).activeOf u = (s.activeOf u).map (fun x => (x.1, { x.2 with message := μ u x.1 })) := by
  unfold activeOf
  rw [node?_withMessages]
  cases s.node? u <;> rfl

theorem msg_withMessages (s : State F) (μ : Var → Var → Option (Fn F)) (u v : Var) :
    (s.withMessages μ).msg u v = if (s.act u v).isSome then μ u v else none := by
  unfold msg State.act
  rw [activeOf_withMessages]
  have := AMap.find?_mapKey (s.activeOf u) (fun k (c : Conn F) => ({ c with message := μ u k } : Conn F)) v
  rw [this]
  cases AMap.find? (s.activeOf u) v <;> rfl

theorem withMessages_soft (s : State F) (μ : Var → Var → Option (Fn F)) : Soft s (s.withMessages μ) := by
  refine ⟨⟨⟨rfl, rfl, ?_, rfl, rfl, rfl, rfl, rfl, ?_⟩, rfl, rfl, ?_, ?_⟩, ?_, rfl, rfl, rfl⟩
  · simp [withMessages, AMap.keys, List.map_map, Function.comp_def]
  · intro v; unfold una; rw [node?_withMessages]; cases s.node? v <;> rfl
  · intro v; unfold disabledOf; rw [node?_withMessages]; cases s.node? v <;> rfl
  · intro v
    rw [activeOf_withMessages]
    simp [links, List.map_map, Function.comp_def]
  · intro v; unfold mrg; rw [node?_withMessages]; cases s.node? v <;> rfl

/-- What a careful strategy leaves. -/
structure Left (s s' : State F) (nodes : List Var) : Prop where
  soft : Soft s s'
  out : SameOutside nodes s s'
  there : ∀ u ∈ nodes, u ∈ s.vars → ∀ v, (s.act u v).isSome → ∃ m, s'.msg u v = some m ∧ (0 < u.size → m.Unary u)

theorem received_eq (s : State F) (u v : Var) : s.received u v = s.msg u v := rfl

end State

theorem Strategy.Careful.left {F : Type} [Arith F] {σ : Strategy F} (h : σ.Careful) {kind : Kind} {n : Nat} {c : Cluster}
    {ts : List Topo} {s s' : State F} {done : Bool} (e : σ kind n c ts s = .ok s' done) : State.Left s s' c.nodes := by
  obtain ⟨μ, rfl, h1, h2⟩ := h kind n c ts s s' done e
  refine ⟨State.withMessages_soft s μ, ?_, ?_⟩
  · intro u v hu
    rw [State.msg_withMessages, h1 u hu v, State.received_eq]
    by_cases ha : (s.act u v).isSome
    · rw [if_pos ha]
    · rw [if_neg ha]
      unfold State.msg
      have : s.act u v = none := by simpa using ha
      rw [this]; rfl
  · intro u hu _ v ha
    have hk : v ∈ AMap.keys (s.activeOf u) := by
      obtain ⟨x, hx⟩ := Option.isSome_iff_exists.mp ha
      exact AMap.mem_keys.mpr ⟨x, hx⟩
    obtain ⟨xs, g1, g2⟩ := h2 u hu v hk
    exact ⟨_, by rw [State.msg_withMessages, if_pos ha]; exact g2, fun hp => (Fn.dense_unary hp g1).1⟩

namespace State
variable {F : Type} [Arith F]

/-! ### The strategy of the library -/

theorem propagateClusterBy_baseline (ord : List Var → List Var) (sched : Sched) (kind : Kind) (n i : Nat) :
    propagateClusterBy (F := F) (Strategy.baseline sched) ord sched kind n i = propagateCluster ord sched kind n i := rfl

theorem propagateClustersBy_baseline (ord : List Var → List Var) (sched : Sched) (kind : Kind) (n : Nat) :
    ∀ (l : List Nat) (s : State F), propagateClustersBy (Strategy.baseline sched) ord sched kind n l s =
      propagateClusters ord sched kind n l s := by
  intro l
  induction l with
  | nil => intro s; rfl
  | cons i l ih =>
    intro s
    rw [propagateClustersBy, propagateClusters, propagateClusterBy_baseline]
    cases propagateCluster ord sched kind n i s with
    | ok s1 r =>
      simp only; rw [ih]
      cases propagateClusters ord sched kind n l s1 <;> rfl
    | throw _ => rfl
    | ub => rfl

theorem checkPropagationBy_baseline (ord : List Var → List Var) (sched : Sched) (kind : Kind) (n : Nat) (s : State F) :
    checkPropagationBy (Strategy.baseline sched) ord sched kind n s = checkPropagation ord sched kind n s := by
  have h : propagateBeliefBy (F := F) (Strategy.baseline sched) ord sched kind = propagateBelief ord sched kind := by
    funext x
    unfold propagateBeliefBy propagateBelief
    simp only [propagateClustersBy_baseline]
    split
    · rfl
    · cases x.pool with
      | none => rfl
      | some m =>
        simp only
        cases propagateClusters ord sched kind m (List.range x.clusters.length) x.resetMessages <;> rfl
  unfold checkPropagationBy checkPropagation
  rw [h]

/-! ### Clusters without cycles do not need the strategy -/

theorem propagateClusterBy_tree {σ : Strategy F} {ord : List Var → List Var} {sched : Sched} {kind : Kind} {n i : Nat}
    {s s' : State F} {r : (Bool × Nat) × Bool} (h : propagateCluster ord sched kind n i s = .ok s' r) (hr : r.1.1 = true) :
    propagateClusterBy σ ord sched kind n i s = .ok s' r := by
  unfold propagateCluster at h
  unfold propagateClusterBy
  cases hp : prepareCluster ord i s with
  | throw s1 => rw [hp] at h; cases h
  | ub => rw [hp] at h; cases h
  | ok s1 u =>
    rw [hp] at h
    simp only at h ⊢
    cases hc : s1.clusters[i]? with
    | none => rw [hc] at h; cases h
    | some c =>
      rw [hc] at h
      simp only at h ⊢
      cases hts : c.connectivity with
      | none => rw [hts] at h; cases h
      | some ts =>
        rw [hts] at h
        simp only at h ⊢
        cases hm : messageRounds kind sched ts s1 with
        | throw s2 => rw [hm] at h; cases h
        | ub => rw [hm] at h; cases h
        | ok s2 b =>
          rw [hm] at h
          cases b with
          | true => simpa using h
          | false =>
            simp only at h
            cases hlp : loopyPropagate kind sched n c ts s2 with
            | throw s3 => rw [hlp] at h; cases h
            | ub => rw [hlp] at h; cases h
            | ok s3 d => rw [hlp] at h; simp only at h; cases h; cases hr

theorem propagateClustersBy_tree {σ : Strategy F} {ord : List Var → List Var} {sched : Sched} {kind : Kind} {n : Nat} :
    ∀ (l : List Nat) {s s' : State F} {rs}, propagateClusters ord sched kind n l s = .ok s' rs →
      (∀ r ∈ rs, r.1.1 = true) → propagateClustersBy σ ord sched kind n l s = .ok s' rs := by
  intro l
  induction l with
  | nil => intro s s' rs h _; exact h
  | cons i l ih =>
    intro s s' rs h hr
    rw [propagateClusters] at h
    rw [propagateClustersBy]
    cases h1 : propagateCluster ord sched kind n i s with
    | throw _ => rw [h1] at h; cases h
    | ub => rw [h1] at h; cases h
    | ok s1 r =>
      rw [h1] at h
      simp only at h
      cases h2 : propagateClusters ord sched kind n l s1 with
      | throw _ => rw [h2] at h; cases h
      | ub => rw [h2] at h; cases h
      | ok s2 rs2 =>
        rw [h2] at h
        simp only at h
        cases h
        rw [propagateClusterBy_tree h1 (hr _ (by simp))]
        simp only
        rw [ih h2 (fun r hr' => hr r (by simp [hr']))]

theorem checkPropagationBy_tree {σ : Strategy F} {ord : List Var → List Var} {sched : Sched} {kind : Kind} {n : Nat}
    {s s' : State F} {r : PropResult} (hw : s.wouldNeedPropagation kind = true)
    (h : checkPropagation ord sched kind n s = .ok s' ()) (hl : s'.last = some r) (hr : ∀ e ∈ r.structures, e.1 = true) :
    checkPropagationBy σ ord sched kind n s = .ok s' () := by
  unfold checkPropagation at h
  unfold checkPropagationBy
  rw [if_pos hw] at h ⊢
  unfold withPool at h ⊢
  cases h0 : setPoolSize n s with
  | throw _ => rw [h0] at h; cases h
  | ub => rw [h0] at h; cases h
  | ok s1 u =>
    rw [h0] at h
    simp only at h ⊢
    cases h1 : propagateBelief ord sched kind s1 with
    | throw _ => rw [h1] at h; cases h
    | ub => rw [h1] at h; cases h
    | ok s2 v =>
      rw [h1] at h
      simp only at h
      cases h
      have hl2 : s2.last = some r := hl
      suffices propagateBeliefBy σ ord sched kind s1 = .ok s2 () by rw [this]
      unfold propagateBelief at h1
      unfold propagateBeliefBy
      by_cases hw1 : s1.wouldNeedPropagation kind = true
      · rw [hw1] at h1 ⊢
        simp only [Bool.not_true, Bool.false_eq_true, if_false] at h1 ⊢
        cases hp : s1.pool with
        | none => rw [hp] at h1; cases h1
        | some m =>
          rw [hp] at h1
          simp only at h1 ⊢
          cases h3 : propagateClusters ord sched kind m (List.range s1.clusters.length) s1.resetMessages with
          | throw _ => rw [h3] at h1; cases h1
          | ub => rw [h3] at h1; cases h1
          | ok s3 rs =>
            rw [h3] at h1
            simp only at h1
            cases h1
            cases hl2
            rw [propagateClustersBy_tree _ h3 (by
              intro e he
              exact hr e.1 (List.mem_map.mpr ⟨e, he, rfl⟩))]
      · have : s1.wouldNeedPropagation kind = false := by simpa using hw1
        rw [this] at h1 ⊢
        simpa using h1

/-! ### One cluster with a careful strategy -/

theorem propagateClusterBy_step {σ : Strategy F} (hσ : σ.Careful) {ord : List Var → List Var}
    (hord : ∀ l, (ord l).Perm l) {kind : Kind} {sched : Sched} (hsched : ∀ l, (sched l).Perm l) {n : Nat} {s : State F}
    (hs : Inv s) (hf : Flow s) (hty : TypedMsgs s) {i : Nat} {c : Cluster} (hc : s.clusters[i]? = some c)
    (hno : ∀ u ∈ c.nodes, ∀ v, s.msg u v = none) {s' : State F} {r : (Bool × Nat) × Bool}
    (hrun : propagateClusterBy σ ord sched kind n i s = .ok s' r) : ∃ tree, ClusterStep kind s s' i c tree := by
  obtain ⟨s1, e1, hp⟩ := prepareCluster_ok hord hs hc
  have hf1 : Flow s1 := hf.quiet hp.prep.toQuiet hp.inv.toCore
  have hty1 : TypedMsgs s1 := by
    intro u v m hu hm
    rw [hp.prep.toQuiet.obs] at hu
    rw [hp.prep.msg] at hm
    exact hty u v m hu hm
  obtain ⟨ts, ht1, ht2⟩ := hp.conn
  have hset : Setting s1 c.nodes ts := by
    refine ⟨ht2, ?_, ?_, ?_⟩
    · intro u hu; rw [hp.prep.toQuiet.obs]; exact (hs.cluster_mem hc hu).2
    · intro u hu v hv
      exact hp.inv.closed hf1.sep ht1 hu hv
    · intro u hu
      obtain ⟨m, hm, _⟩ := hp.merged u hu
      rw [hm]; rfl
  have hprog : Progress kind s1 c.nodes ts ts 0 (fun _ => 0) := by
    refine ⟨hf1, hty1, hset, List.Sublist.refl ts, ?_, ?_⟩
    · intro t ht
      rw [hp.prep.msg]
      exact hno _ (hset.ownerMem ht) _
    · intro t ht h; exact absurd ht h
  obtain ⟨s2, b, h1, h2, h3, h4, h5, h6⟩ := messageRounds_ok kind ts.length ts le_rfl s1 0 (fun _ => 0) hprog
  have hmk : ∀ (s3 : State F) (tree : Bool), Soft s2 s3 → TypedMsgs s3 → SameOutside c.nodes s2 s3 → Live s3 ts →
      (tree = true → Exact kind s3 ts) → (tree = false → Stuck ts) → ClusterStep kind s s3 i c tree := by
    intro s3 tree hsoft hty3 hout hlive hex hst
    have hS := h2.trans hsoft
    refine ⟨hp.step.trans hS.step, hf1.soft hS, hty3, by rw [hS.cl]; exact hp.len, ?_, ?_, ?_, ?_⟩
    · intro j hj; rw [hS.cl]; exact hp.other j hj
    · exact ⟨{ nodes := c.nodes, connectivity := some ts }, by rw [hS.cl]; exact ht1, rfl,
        ⟨ts, rfl, hset.soft hS, hlive, hex, hst⟩⟩
    · intro u hu; rw [hS.mrg]; exact hp.mrgOther u hu
    · intro u v hu
      rw [hout u v hu, h4 u v, hp.prep.msg]
      intro t ht hcn
      have := hset.ownerMem ht
      rw [hcn] at this
      exact hu this
  unfold propagateClusterBy at hrun
  rw [e1] at hrun
  simp only at hrun
  rw [ht1] at hrun
  simp only at hrun
  rw [h1 sched hsched] at hrun
  cases b with
  | true =>
    simp only at hrun
    cases hrun
    obtain ⟨rank, hrank⟩ := h5 rfl
    refine ⟨true, hmk s' true (Soft.rfl' s') h3 (fun _ _ _ => rfl) ?_ (fun _ => ⟨rank, hrank⟩) (by simp)⟩
    intro t ht
    obtain ⟨m, g1, _⟩ := hrank t ht
    rw [g1]; rfl
  | false =>
    simp only at hrun
    cases hlp : σ kind n { nodes := c.nodes, connectivity := some ts } ts s2 with
    | throw s3 => rw [hlp] at hrun; cases hrun
    | ub => rw [hlp] at hrun; cases hrun
    | ok s3 d =>
      rw [hlp] at hrun
      simp only at hrun
      cases hrun
      have hleft := hσ.left hlp
      have hset2 := hset.soft h2
      have hvars : s2.vars = s.vars := by rw [h2.vars, hp.prep.toQuiet.vars]
      have hposv : ∀ u ∈ c.nodes, u ∈ s2.vars ∧ 0 < u.size := by
        intro u hu
        have := (hs.cluster_mem hc hu).1
        exact ⟨by rw [hvars]; exact this, hs.posV u this⟩
      refine ⟨false, hmk s' false hleft.soft ?_ hleft.out ?_ (by simp) (fun _ => h6 rfl)⟩
      · intro u v m hu hm
        by_cases hun : u ∈ c.nodes
        · obtain ⟨g1, g2⟩ := hposv u hun
          by_cases ha : (s2.act u v).isSome
          · obtain ⟨m', k1, k2⟩ := hleft.there u hun g1 v ha
            rw [hm] at k1
            cases k1
            exact k2 g2
          · exfalso
            have h0 : (s'.act u v).isSome = (s2.act u v).isSome := hleft.soft.toQuiet.isSome u v
            unfold msg at hm
            cases hx : s'.act u v with
            | none => rw [hx] at hm; cases hm
            | some x => rw [hx] at h0; exact ha h0.symm
        · rw [hleft.out u v hun] at hm
          rw [hleft.soft.toQuiet.obs] at hu
          exact h3 u v m hu hm
      · intro t ht
        have ho := hset2.ownerMem ht
        obtain ⟨m', k1, _⟩ := hleft.there t.conn.owner ho (hposv _ ho).1 t.conn.from_ 
          ((hf1.soft h2).core.net.symA _ _ (by rw [hset2.topo.from_ t ht]; exact hset2.topo.active t ht))
        rw [k1]; rfl

theorem propagateClusterBy_prep {σ : Strategy F} (hσ : σ.Careful) {ord : List Var → List Var} {sched : Sched} {kind : Kind}
    {n i : Nat} {s s' : State F} {r : (Bool × Nat) × Bool} (h : propagateClusterBy σ ord sched kind n i s = .ok s' r) :
    ∃ s1, prepareCluster ord i s = .ok s1 () ∧ Soft s1 s' := by
  unfold propagateClusterBy at h
  cases hp : prepareCluster ord i s with
  | throw s1 => rw [hp] at h; cases h
  | ub => rw [hp] at h; cases h
  | ok s1 u =>
    rw [hp] at h
    simp only at h
    refine ⟨s1, rfl, ?_⟩
    cases hc : s1.clusters[i]? with
    | none => rw [hc] at h; cases h
    | some c =>
      rw [hc] at h
      simp only at h
      cases hts : c.connectivity with
      | none => rw [hts] at h; cases h
      | some ts =>
        rw [hts] at h
        simp only at h
        have hr := messageRounds_soft (F := F) kind sched ts.length ts le_rfl s1
        cases hm : messageRounds kind sched ts s1 with
        | throw s2 => rw [hm] at h; cases h
        | ub => rw [hm] at h; cases h
        | ok s2 b =>
          rw [hm] at h hr
          cases b with
          | true => simp only at h; cases h; exact hr
          | false =>
            simp only at h
            cases hlp : σ kind n c ts s2 with
            | throw s3 => rw [hlp] at h; cases h
            | ub => rw [hlp] at h; cases h
            | ok s3 d =>
              rw [hlp] at h
              simp only at h
              cases h
              exact hr.trans (hσ.left hlp).soft

/-! ### All the clusters -/

theorem propagateClustersBy_done {σ : Strategy F} (hσ : σ.Careful) {ord : List Var → List Var}
    (hord : ∀ l, (ord l).Perm l) {kind : Kind} {sched : Sched} (hsched : ∀ l, (sched l).Perm l) {n : Nat} :
    ∀ (d k : Nat) (s : State F), Inv s → Flow s → TypedMsgs s → k + d = s.clusters.length →
    (∀ j < k, ∃ c tree, s.clusters[j]? = some c ∧ ClusterDone kind s c tree) →
    (∀ j c, k ≤ j → s.clusters[j]? = some c → ∀ u ∈ c.nodes, ∀ v, s.msg u v = none) →
    ∀ {s' : State F} {rs'}, propagateClustersBy σ ord sched kind n (List.range' k d) s = .ok s' rs' →
    Step s s' ∧ TypedMsgs s' ∧ s'.clusters.length = s.clusters.length ∧
      ∀ j < s.clusters.length, ∃ c tree, s'.clusters[j]? = some c ∧ ClusterDone kind s' c tree := by
  intro d
  induction d with
  | zero =>
    intro k s _ _ hty hk hdone _ s' rs' h
    cases h
    exact ⟨Step.rfl' _, hty, rfl, fun j hj => hdone j (by omega)⟩
  | succ d ih =>
    intro k s hs hf hty hk hdone hno s' rs' h
    have hkl : k < s.clusters.length := by omega
    have hc : s.clusters[k]? = some s.clusters[k] := List.getElem?_eq_getElem hkl
    set c := s.clusters[k] with hcdef
    rw [List.range'_succ, propagateClustersBy] at h
    cases h1 : propagateClusterBy σ ord sched kind n k s with
    | throw _ => rw [h1] at h; cases h
    | ub => rw [h1] at h; cases h
    | ok s1 r =>
      rw [h1] at h
      simp only at h
      cases h2 : propagateClustersBy σ ord sched kind n (List.range' (k + 1) d) s1 with
      | throw _ => rw [h2] at h; cases h
      | ub => rw [h2] at h; cases h
      | ok s2 rs2 =>
        rw [h2] at h
        simp only at h
        cases h
        obtain ⟨tree, hstep⟩ := propagateClusterBy_step hσ hord hsched hs hf hty hc (hno k c le_rfl hc) h1
        obtain ⟨e1, e2, e3, e4⟩ := ih (k + 1) s1 (hstep.step.inv hs) hstep.flow hstep.typed (by rw [hstep.len]; omega)
          (by
            intro j hj
            by_cases hjk : j = k
            · subst hjk
              obtain ⟨c', g1, g2, g3⟩ := hstep.here
              exact ⟨c', tree, g1, g3⟩
            · obtain ⟨c', tree', g1, g3⟩ := hdone j (by omega)
              refine ⟨c', tree', by rw [hstep.other j hjk]; exact g1, g3.keep hstep.step.toQuiet ?_ ?_⟩
              · intro u hu
                exact hstep.mrg u (clusters_disjoint hs hjk g1 hc hu)
              · intro u hu v
                exact hstep.msg u v (clusters_disjoint hs hjk g1 hc hu))
          (by
            intro j c' hj hc' u hu v
            have hne : j ≠ k := by omega
            rw [hstep.other j hne] at hc'
            rw [hstep.msg u v (clusters_disjoint hs hne hc' hc hu)]
            exact hno j c' (by omega) hc' u hu v) h2
        exact ⟨hstep.step.trans e1, e2, by rw [e3, hstep.len], by rw [← hstep.len]; exact e4⟩

theorem propagateClustersBy_agree {σ : Strategy F} (hσ : σ.Careful) {ord : List Var → List Var}
    (hord : ∀ l, (ord l).Perm l) (kind : Kind) {sched sched' : Sched} {n n' : Nat} :
    ∀ (l : List Nat) (s t : State F), Inv s → Inv t → Agree s t → ∀ {s' t' : State F} {rs rs'},
    propagateClusters ord sched kind n l s = .ok s' rs → propagateClustersBy σ ord sched' kind n' l t = .ok t' rs' →
    Agree s' t' := by
  intro l
  induction l with
  | nil =>
    intro s t _ _ h s' t' rs rs' e1 e2
    cases e1; cases e2; exact h
  | cons i l ih =>
    intro s t hs ht h s' t' rs rs' e1 e2
    rw [propagateClusters] at e1
    rw [propagateClustersBy] at e2
    cases h1 : propagateCluster ord sched kind n i s with
    | throw _ => rw [h1] at e1; cases e1
    | ub => rw [h1] at e1; cases e1
    | ok s1 r =>
      cases h2 : propagateClusterBy σ ord sched' kind n' i t with
      | throw _ => rw [h2] at e2; cases e2
      | ub => rw [h2] at e2; cases e2
      | ok t1 r' =>
        rw [h1] at e1
        rw [h2] at e2
        simp only at e1 e2
        obtain ⟨s0, p1, p2⟩ := propagateCluster_prep h1
        obtain ⟨t0, q1, q2⟩ := propagateClusterBy_prep hσ h2
        have hag : Agree s1 t1 := (p2.agree.symm.trans (prepareCluster_agree hord hs ht h p1 q1)).trans q2.agree
        have hs1 : Inv s1 := p2.inv (prepareCluster_inv hord hs p1)
        have ht1 : Inv t1 := q2.inv (prepareCluster_inv hord ht q1)
        cases h3 : propagateClusters ord sched kind n l s1 with
        | throw _ => rw [h3] at e1; cases e1
        | ub => rw [h3] at e1; cases e1
        | ok s2 r2 =>
          cases h4 : propagateClustersBy σ ord sched' kind n' l t1 with
          | throw _ => rw [h4] at e2; cases e2
          | ub => rw [h4] at e2; cases e2
          | ok t2 r2' =>
            rw [h3] at e1
            rw [h4] at e2
            simp only at e1 e2
            cases e1; cases e2
            exact ih s1 t1 hs1 ht1 hag h3 h4

/-- What a propagation with a careful strategy leaves, when it returns. -/
structure DoneBy (kind : Kind) (s s' : State F) : Prop where
  asked : Asked s s'
  healthy : Healthy s'
  last : s'.last.isSome
  done : ∀ j < s'.clusters.length, ∃ c tree, s'.clusters[j]? = some c ∧ ClusterDone kind s' c tree

theorem alive_of_done {kind : Kind} {s : State F} (hs : Inv s) (hty : TypedMsgs s)
    (h : ∀ j < s.clusters.length, ∃ c tree, s.clusters[j]? = some c ∧ ClusterDone kind s c tree) : Alive s := by
  have key : ∀ u ∈ s.hid, ∃ c : Cluster, u ∈ c.nodes ∧ ∃ tree, ClusterDone kind s c tree := by
    intro u hu
    obtain ⟨j, c, h1, h2⟩ := hs.cluster_of hu
    obtain ⟨c', tree, h3, h4⟩ := h j (List.getElem?_eq_some_iff.mp h1).1
    rw [h1] at h3
    cases h3
    exact ⟨c, h2, tree, h4⟩
  refine ⟨hty, ?_, ?_⟩
  · intro u v hu ha
    obtain ⟨c, h2, tree, ts, _, h3, h4, _⟩ := key u (mem_hid.mpr ⟨(hs.toCore.act_vars ha).1, hu⟩)
    have hv := h3.closed u h2 v ha
    obtain ⟨t, ht, h5, h6⟩ := h3.topo.all v hv u (hs.net.symA _ _ ha)
    have := h4 t ht
    rw [h6, h3.topo.from_ t ht, h5] at this
    exact this
  · intro u hu
    obtain ⟨c, h2, tree, ts, _, h3, _⟩ := key u hu
    exact h3.merged u h2

/-- The propagation of the clusters inside a query which returned. -/
theorem checkPropagationBy_inside {σ : Strategy F} {ord : List Var → List Var} {sched : Sched} {kind : Kind} {n : Nat}
    {s s' : State F} (hs : Healthy s) (hn : 1 ≤ n) (hw : s.wouldNeedPropagation kind = true)
    (h : checkPropagationBy σ ord sched kind n s = .ok s' ()) :
    ∃ s1 rs r, propagateClustersBy σ ord sched kind n (List.range s.clusters.length)
      ({ s with pool := some n } : State F).resetMessages = .ok s1 rs ∧
      s' = { s1 with last := some r, pool := some 1 } := by
  unfold checkPropagationBy at h
  rw [if_pos hw] at h
  unfold withPool at h
  rw [hs.setPoolSize hn] at h
  simp only at h
  unfold propagateBeliefBy at h
  have hw' : ({ s with pool := some n } : State F).wouldNeedPropagation kind = true := hw
  rw [hw'] at h
  simp only [Bool.not_true, Bool.false_eq_true, if_false] at h
  cases h3 : propagateClustersBy σ ord sched kind n (List.range s.clusters.length)
      ({ s with pool := some n } : State F).resetMessages with
  | throw _ => rw [h3] at h; cases h
  | ub => rw [h3] at h; cases h
  | ok s1 rs =>
    rw [h3] at h
    simp only at h
    cases h
    exact ⟨s1, rs, _, rfl, rfl⟩

theorem checkPropagationBy_done {σ : Strategy F} (hσ : σ.Careful) {ord : List Var → List Var}
    (hord : ∀ l, (ord l).Perm l) {kind : Kind} {sched : Sched} (hsched : ∀ l, (sched l).Perm l) {n : Nat} (hn : 1 ≤ n)
    {s s' : State F} (hs : Healthy s) (hw : s.wouldNeedPropagation kind = true)
    (h : checkPropagationBy σ ord sched kind n s = .ok s' ()) : DoneBy kind s s' := by
  obtain ⟨s1, rs, r, h1, rfl⟩ := checkPropagationBy_inside hs hn hw h
  have ha0 := asked_pool s (some n)
  have hi0 := ha0.inv hs.inv
  have hf0 := hs.flow.quiet ha0.toQuiet hi0.toCore
  set s0 : State F := { s with pool := some n } with hs0
  have hsoft := resetMessages_soft s0
  have hi1 := hsoft.inv hi0
  have hmsg : ∀ u, u ∉ s0.obs → ∀ v, s0.resetMessages.msg u v = none := fun u hu v => msg_resetMessages hi0 hu v
  have hrange : List.range s.clusters.length = List.range' 0 s0.resetMessages.clusters.length := by
    rw [hsoft.cl, List.range_eq_range']
  rw [hrange] at h1
  obtain ⟨e1, e2, e3, e4⟩ := propagateClustersBy_done hσ hord hsched _ 0 s0.resetMessages hi1 (hf0.soft hsoft) (by
      intro u v m hu hm
      rw [hsoft.toQuiet.obs] at hu
      rw [hmsg u hu v] at hm
      cases hm) (by omega) (fun j hj => absurd hj (by omega)) (by
      intro j c _ hc u hu v
      refine hmsg u ?_ v
      have := (hi1.cluster_mem hc hu).2
      rw [hsoft.toQuiet.obs] at this
      exact this) h1
  have hl : Asked s1 { s1 with last := some r, pool := some 1 } := Asked.light rfl rfl rfl rfl rfl rfl rfl rfl rfl rfl
  have hall : Asked s { s1 with last := some r, pool := some 1 } :=
    (ha0.trans (hsoft.step.trans e1).asked).trans hl
  have hinv := hall.inv hs.inv
  have hdone : ∀ j < s1.clusters.length, ∃ c tree, s1.clusters[j]? = some c ∧
      ClusterDone kind { s1 with last := some r, pool := some 1 } c tree := by
    intro j hj
    obtain ⟨c, tree, g1, g2⟩ := e4 j (by rw [← e3]; exact hj)
    exact ⟨c, tree, g1, g2.keep hl.toQuiet (fun _ _ => rfl) (fun _ _ _ => rfl)⟩
  refine ⟨hall, ⟨hinv, ?_, ?_, rfl, fun _ => alive_of_done (kind := kind) hinv e2 hdone⟩, rfl, hdone⟩
  · exact (hs.flow.quiet hall.toQuiet hinv.toCore).sep
  · intro u v
    have : ({ s1 with last := some r, pool := some 1 } : State F).lnk u v = s.lnk u v := hall.toQuiet.lnk u v
    rw [this]; exact hs.sizes u v

theorem checkPropagationBy_agree {σ : Strategy F} (hσ : σ.Careful) {ord : List Var → List Var}
    (hord : ∀ l, (ord l).Perm l) (kind : Kind) {sched sched' : Sched} {s : State F} (hs : Healthy s) {n n' : Nat}
    (hn : 1 ≤ n) (hn' : 1 ≤ n') (hw : s.wouldNeedPropagation kind = true) {s1 s2 : State F}
    (e1 : checkPropagation ord sched kind n s = .ok s1 ()) (e2 : checkPropagationBy σ ord sched' kind n' s = .ok s2 ()) :
    Agree s1 s2 := by
  rw [← checkPropagationBy_baseline] at e1
  obtain ⟨t1, rs, r, h1, rfl⟩ := checkPropagationBy_inside hs hn hw e1
  obtain ⟨t2, rs', r', h2, rfl⟩ := checkPropagationBy_inside hs hn' hw e2
  rw [propagateClustersBy_baseline] at h1
  have ha : ∀ m, Agree s ({ s with pool := some m } : State F).resetMessages := fun m =>
    (light_agree s s.last (some m)).trans (resetMessages_soft _).agree
  have hi : ∀ m, Inv ({ s with pool := some m } : State F).resetMessages := fun m =>
    (resetMessages_soft _).inv ((asked_pool s (some m)).inv hs.inv)
  have := propagateClustersBy_agree hσ hord kind _ _ _ (hi n) (hi n') ((ha n).symm.trans (ha n')) h1 h2
  exact ((light_agree t1 _ _).symm.trans this).trans (light_agree t2 _ _)

theorem propagateClusterBy_total {σ : Strategy F} (hok : ∀ kind n c ts x, ∃ y d, σ kind n c ts x = .ok y d)
    {ord : List Var → List Var} {sched : Sched} {kind : Kind} {n i : Nat}
    {s s' : State F} {r : (Bool × Nat) × Bool} (h : propagateCluster ord sched kind n i s = .ok s' r) :
    ∃ s'' r', propagateClusterBy σ ord sched kind n i s = .ok s'' r' := by
  unfold propagateCluster at h
  unfold propagateClusterBy
  cases hp : prepareCluster ord i s with
  | throw s1 => rw [hp] at h; cases h
  | ub => rw [hp] at h; cases h
  | ok s1 u =>
    rw [hp] at h
    simp only at h ⊢
    cases hc : s1.clusters[i]? with
    | none => rw [hc] at h; cases h
    | some c =>
      rw [hc] at h
      simp only at h ⊢
      cases hts : c.connectivity with
      | none => rw [hts] at h; cases h
      | some ts =>
        rw [hts] at h
        simp only at h ⊢
        cases hm : messageRounds kind sched ts s1 with
        | throw s2 => rw [hm] at h; cases h
        | ub => rw [hm] at h; cases h
        | ok s2 b =>
          cases b with
          | true => exact ⟨_, _, rfl⟩
          | false =>
            simp only
            obtain ⟨y, d, e⟩ := hok kind n c ts s2
            rw [e]
            exact ⟨_, _, rfl⟩

theorem propagateClustersBy_total {σ : Strategy F} (hσ : σ.Careful)
    (hok : ∀ kind n c ts x, ∃ y d, σ kind n c ts x = .ok y d) {ord : List Var → List Var}
    (hord : ∀ l, (ord l).Perm l) {kind : Kind} {sched : Sched} (hsched : ∀ l, (sched l).Perm l) {n : Nat} (hn : 1 ≤ n) :
    ∀ (d k : Nat) (s : State F), Inv s → Flow s → TypedMsgs s → k + d = s.clusters.length →
    (∀ j c, k ≤ j → s.clusters[j]? = some c → ∀ u ∈ c.nodes, ∀ v, s.msg u v = none) →
    ∃ s' rs', propagateClustersBy σ ord sched kind n (List.range' k d) s = .ok s' rs' := by
  intro d
  induction d with
  | zero => intro k s _ _ _ _ _; exact ⟨s, [], rfl⟩
  | succ d ih =>
    intro k s hs hf hty hk hno
    have hkl : k < s.clusters.length := by omega
    have hc : s.clusters[k]? = some s.clusters[k] := List.getElem?_eq_getElem hkl
    set c := s.clusters[k] with hcdef
    obtain ⟨s0, r0, h0⟩ : ∃ s0 r0, propagateCluster ord sched kind n k s = .ok s0 r0 := by
      rcases propagateCluster_ok hord kind hs hf hty hc (hno k c le_rfl hc) with ⟨s1, h1, h2⟩ | h
      · exact ⟨s1, _, h2 sched hsched n⟩
      · obtain ⟨_, s1, _, _, _, _, _, _, h2⟩ := h sched hsched n hn
        exact ⟨s1, _, h2⟩
    obtain ⟨s1, r, h1⟩ := propagateClusterBy_total hok h0
    obtain ⟨tree, hstep⟩ := propagateClusterBy_step hσ hord hsched hs hf hty hc (hno k c le_rfl hc) h1
    obtain ⟨s2, rs2, h2⟩ := ih (k + 1) s1 (hstep.step.inv hs) hstep.flow hstep.typed (by rw [hstep.len]; omega)
      (by
        intro j c' hj hc' u hu v
        have hne : j ≠ k := by omega
        rw [hstep.other j hne] at hc'
        rw [hstep.msg u v (clusters_disjoint hs hne hc' hc hu)]
        exact hno j c' (by omega) hc' u hu v)
    refine ⟨s2, r :: rs2, ?_⟩
    rw [List.range'_succ, propagateClustersBy, h1]
    simp only
    rw [h2]

theorem checkPropagationBy_total {σ : Strategy F} (hσ : σ.Careful)
    (hok : ∀ kind n c ts x, ∃ y d, σ kind n c ts x = .ok y d) {ord : List Var → List Var}
    (hord : ∀ l, (ord l).Perm l) (kind : Kind) {sched : Sched} (hsched : ∀ l, (sched l).Perm l) {n : Nat} (hn : 1 ≤ n)
    {s : State F} (hs : Healthy s) : ∃ s', checkPropagationBy σ ord sched kind n s = .ok s' () ∧ Asked s s' ∧
      Healthy s' ∧ s'.last.isSome := by
  by_cases hw : s.wouldNeedPropagation kind = true
  · suffices ∃ s', checkPropagationBy σ ord sched kind n s = .ok s' () by
      obtain ⟨s', h⟩ := this
      have hb := checkPropagationBy_done hσ hord hsched hn hs hw h
      exact ⟨s', h, hb.asked, hb.healthy, hb.last⟩
    have ha0 := asked_pool s (some n)
    have hi0 := ha0.inv hs.inv
    have hf0 := hs.flow.quiet ha0.toQuiet hi0.toCore
    set s0 : State F := { s with pool := some n } with hs0
    have hsoft := resetMessages_soft s0
    have hi1 := hsoft.inv hi0
    have hmsg : ∀ u, u ∉ s0.obs → ∀ v, s0.resetMessages.msg u v = none := fun u hu v => msg_resetMessages hi0 hu v
    have hrange : List.range s.clusters.length = List.range' 0 s0.resetMessages.clusters.length := by
      rw [hsoft.cl, List.range_eq_range']
    obtain ⟨s1, rs, h1⟩ := propagateClustersBy_total hσ hok hord (kind := kind) hsched hn s0.resetMessages.clusters.length 0 s0.resetMessages hi1
      (hf0.soft hsoft) (by
        intro u v m hu hm
        rw [hsoft.toQuiet.obs] at hu
        rw [hmsg u hu v] at hm
        cases hm) (by omega) (by
        intro j c _ hc u hu v
        refine hmsg u ?_ v
        have := (hi1.cluster_mem hc hu).2
        rw [hsoft.toQuiet.obs] at this
        exact this)
    rw [← hrange] at h1
    unfold checkPropagationBy
    rw [if_pos hw]
    unfold withPool
    rw [hs.setPoolSize hn]
    simp only
    unfold propagateBeliefBy
    have hw' : ({ s with pool := some n } : State F).wouldNeedPropagation kind = true := hw
    rw [hw']
    simp only [Bool.not_true, Bool.false_eq_true, if_false]
    rw [h1]
    exact ⟨_, rfl⟩
  · refine ⟨s, ?_, Asked.rfl' s, hs, ?_⟩
    · unfold checkPropagationBy; rw [if_neg hw]
    · unfold wouldNeedPropagation at hw
      cases hl : s.last with
      | none => rw [hl] at hw; simp at hw
      | some r => rfl

/-- A propagation with a careful strategy leaves, in the clusters without cycles, the messages which the
propagation of the library leaves. -/
theorem checkPropagationBy_same {σ : Strategy F} (hσ : σ.Careful) {ord : List Var → List Var}
    (hord : ∀ l, (ord l).Perm l) (kind : Kind) {sched sched' : Sched} (hsched : ∀ l, (sched l).Perm l)
    (hsched' : ∀ l, (sched' l).Perm l) {n n' : Nat} (hn : 1 ≤ n) (hn' : 1 ≤ n') {s s2 : State F} (hs : Healthy s)
    (e2 : checkPropagationBy σ ord sched' kind n' s = .ok s2 ()) :
    ∃ s1, checkPropagation ord sched kind n s = .ok s1 () ∧
      Agree s1 s2 ∧ Asked s s1 ∧ Asked s s2 ∧ Healthy s1 ∧ Healthy s2 ∧ s1.last.isSome ∧ s2.last.isSome ∧
      ∀ c ∈ s.clusters, s.NoCycle c.nodes → ∀ u ∈ c.nodes, s2.activeOf u = s1.activeOf u := by
  by_cases hw : s.wouldNeedPropagation kind = true
  · obtain ⟨s1, r1, a1, a2, a3, a4, a5, a6⟩ := checkPropagation_run hord kind hsched hs hn hw
    have hb := checkPropagationBy_done hσ hord hsched' hn' hs hw e2
    have hag := checkPropagationBy_agree hσ hord kind hs hn hn' hw a1 e2
    refine ⟨s1, a1, hag, a2, hb.asked, a3, hb.healthy, by rw [a4]; rfl, hb.last, ?_⟩
    intro c hc hno u hu
    obtain ⟨j, hj⟩ := List.mem_iff_getElem?.mp hc
    have hlen : s1.clusters.length = s.clusters.length := by
      have := congrArg List.length a2.toQuiet.clusters
      simpa using this
    have hj1 : j < r1.structures.length := by
      rw [a6.settled.len, hlen]; exact (List.getElem?_eq_some_iff.mp hj).1
    obtain ⟨c1, k1, k2, k3⟩ := a6.settled.done j hj1
    obtain ⟨c2, tree2, l1, l3⟩ := hb.done j (by rw [hag.cl, ← a6.settled.len]; exact hj1)
    rw [hag.cl, k1] at l1
    cases l1
    have hnodes : c1.nodes = c.nodes := by
      have e1 : (s1.clusters.map (·.nodes))[j]? = some c1.nodes := by rw [List.getElem?_map, k1]; rfl
      have e2 : (s.clusters.map (·.nodes))[j]? = some c.nodes := by rw [List.getElem?_map, hj]; rfl
      rw [a2.toQuiet.clusters, e2] at e1
      exact (Option.some.inj e1).symm
    have hgr : ∀ x : State F, Quiet s x → x.hiddenGraph = s.hiddenGraph := by
      intro x hq
      have hh := hq.heap
      have hv := hq.vars
      have hf := hq.factors
      have he := hq.evidences
      ext u v
      simp only [State.hiddenGraph, State.Hidden, State.Observes, State.Joins, State.FactorOn, hh, hv, hf, he]
    have hno' : ∀ x : State F, Quiet s x → ¬ ∃ u ∈ c1.nodes, ∃ w : x.hiddenGraph.Walk u u, w.IsCycle := by
      intro x hq ⟨u, hu, w, hwc⟩
      have : s.NoCycle c1.nodes := by rw [hnodes]; exact hno
      unfold NoCycle at this
      rw [← hgr x hq] at this
      exact this u hu w hwc
    obtain ⟨ts, p1, p2, p3, p4, p5⟩ := k3.ready
    obtain ⟨ts', q1, q2, q3, q4, q5⟩ := l3.ready
    rw [p1] at q1
    cases q1
    have ht1 : Exact kind s1 ts := by
      rw [← a5]
      refine p4 ?_
      by_contra hf
      exact hno' s1 a2.toQuiet (p2.cycle a3.inv.toCore (p5 (by simpa using hf)))
    have ht2 : Exact kind s2 ts := by
      refine q4 ?_
      by_contra hf
      exact hno' s2 hb.asked.toQuiet (q2.cycle hb.healthy.inv.toCore (q5 (by simpa using hf)))
    have huniq := Exact.unique p2 a3.inv.net hag ht1 ht2
    refine find?_some_of_links (hag.active u) ?_ ?_
    · intro w
      show s2.msg u w = s1.msg u w
      by_cases hact : (s1.act u w).isSome
      · have hw' := p2.closed u (by rw [hnodes]; exact hu) w hact
        obtain ⟨t, ht, e1, e2⟩ := p2.topo.all w hw' u (a3.inv.net.symA _ _ hact)
        have := huniq t ht
        rw [p2.topo.from_ t ht, e1, e2] at this
        exact this
      · have h1 : s1.act u w = none := by simpa using hact
        have h2 : s2.act u w = none := by
          have := hag.toQuiet.isSome u w
          rw [h1] at this
          simpa using this
        unfold State.msg
        rw [h1, h2]
    · exact (a3.inv.net.nodup u).1
  · obtain ⟨s1, r, h1, h2, h3, h4, _⟩ := checkPropagation_ok hord kind hsched hs hn
    have : s1 = s := by
      unfold checkPropagation at h1; rw [if_neg hw] at h1; cases h1; rfl
    subst this
    unfold checkPropagationBy at e2
    rw [if_neg hw] at e2
    cases e2
    exact ⟨_, h1, Agree.rfl' _, h2, h2, h3, h3, by rw [h4]; rfl, by rw [h4]; rfl, fun _ _ _ _ _ => rfl⟩

end State
end EFG
