import Verif.Lemmas.Ask
import Verif.Spec.Race
/-
The result of a propagation does not depend on the schedule of the tasks nor on the number of threads.
-/

set_option linter.unusedSectionVars false

namespace EFG
namespace State
variable {F : Type} [Arith F]

/-! ### Two runs -/

/-- Two states which may only differ in the messages of the active connections, the last result and
the pool. -/
structure Agree (s t : State F) : Prop extends Quiet s t where
  mrg : ∀ v, t.mrg v = s.mrg v
  cl : t.clusters = s.clusters

theorem Agree.rfl' (s : State F) : Agree s s := ⟨Quiet.rfl' s, fun _ => rfl, rfl⟩

theorem Quiet.symm' {s t : State F} (h : Quiet s t) : Quiet t s :=
  ⟨⟨h.heap.symm, h.vars.symm, h.keys.symm, h.factors.symm, h.consts.symm, h.maxIter.symm, h.tunables.symm,
    h.tuners.symm, fun v => (h.una v).symm⟩, h.evidences.symm, h.clusters.symm, fun v => (h.disabled v).symm,
    fun v => (h.active v).symm⟩

theorem Agree.symm {s t : State F} (h : Agree s t) : Agree t s :=
  ⟨h.toQuiet.symm', fun v => (h.mrg v).symm, h.cl.symm⟩

theorem Agree.trans {s t u : State F} (h : Agree s t) (h' : Agree t u) : Agree s u :=
  ⟨h.toQuiet.trans h'.toQuiet, fun v => (h'.mrg v).trans (h.mrg v), h'.cl.trans h.cl⟩

theorem Soft.agree {s t : State F} (h : Soft s t) : Agree s t := ⟨h.toQuiet, h.mrg, h.cl⟩

theorem Quiet.toposOf {s t : State F} (h : Quiet s t) (ord : List Var → List Var) (u : Var) :
    toposOf ord t u = toposOf ord s u := by
  have hk : AMap.keys (t.activeOf u) = AMap.keys (s.activeOf u) := by rw [← keys_links, h.active, keys_links]
  unfold State.toposOf; rw [hk]

theorem prepareCluster_agree {ord : List Var → List Var} (hord : ∀ l, (ord l).Perm l) {s t : State F} (hs : Inv s)
    (ht : Inv t) (h : Agree s t) {i : Nat} {s' t' : State F} (es : prepareCluster ord i s = .ok s' ())
    (et : prepareCluster ord i t = .ok t' ()) : Agree s' t' := by
  unfold prepareCluster at es et
  rw [h.cl] at et
  cases hc : s.clusters[i]? with
  | none => rw [hc] at es; cases es
  | some c =>
    rw [hc] at es et
    simp only at es et
    have hct : t.clusters[i]? = some c := by rw [h.cl]; exact hc
    have hpo := hord c.nodes
    have hmemS := fun v (hv : v ∈ ord c.nodes) => hs.cluster_mem hc (hpo.mem_iff.mp hv)
    have hmemT := fun v (hv : v ∈ ord c.nodes) => ht.cluster_mem hct (hpo.mem_iff.mp hv)
    cases hconn : c.connectivity with
    | none =>
      rw [hconn] at es et
      simp only at es et
      unfold updateConnectivity at es et
      rw [hc] at es
      rw [hct] at et
      simp only at es et
      have key : ∀ (x : State F), Inv x → x.clusters[i]? = some c → (∀ v ∈ ord c.nodes, v ∈ x.vars ∧ v ∉ x.obs) →
          ∀ x', forEach (connectivityStep ord i) (ord c.nodes)
            { x with clusters := x.clusters.modify i (fun c => { c with connectivity := some [] }) } = .ok x' () →
          Quiet x x' ∧ x'.clusters = x.clusters.modify i
              (fun c' => { c' with connectivity := some ((ord c.nodes).flatMap (State.toposOf ord x)) }) ∧
            (∀ v ∈ ord c.nodes, ∃ m, x'.mrg v = some m ∧ x.mergedVal ord v = .ok m) ∧
            (∀ v, v ∉ ord c.nodes → x'.mrg v = x.mrg v) := by
        intro x hx hxc hmem x' ex
        set x0 : State F := { x with clusters := x.clusters.modify i (fun c => { c with connectivity := some [] }) } with hx0
        have hp0 : Prep x x0 :=
          ⟨⟨⟨rfl, rfl, rfl, rfl, rfl, rfl, rfl, rfl, fun _ => rfl⟩, rfl, map_nodes_modify _ _ _, fun _ => rfl, fun _ => rfl⟩,
            fun _ => rfl, rfl, rfl⟩
        have hc0 : Core x0 := hx.toCore.quiet hp0.toQuiet hx.mrgT
        obtain ⟨x1, f1, f2, f3, f4, f5, f6⟩ := connectivity_loop hord (i := i) (ord c.nodes) [] x.clusters x0 hc0 hmem rfl
        rw [ex] at f1
        cases f1
        refine ⟨hp0.toQuiet.trans f2.toQuiet, ?_, ?_, ?_⟩
        · rw [f4, List.nil_append]
          have : State.toposOf ord x0 = State.toposOf ord x := by funext u; exact toposOf_congr hp0.activeOf u
          rw [this]
        · intro v hv
          obtain ⟨m, g1, g2⟩ := f5 v hv
          exact ⟨m, g1, by rw [← hp0.toQuiet.mergedVal]; exact g2⟩
        · intro v hv; rw [f6 v hv]; rfl
      obtain ⟨a1, a2, a3, a4⟩ := key s hs hc hmemS s' es
      obtain ⟨b1, b2, b3, b4⟩ := key t ht hct hmemT t' et
      refine ⟨(a1.symm'.trans h.toQuiet).trans b1, ?_, ?_⟩
      · intro v
        by_cases hv : v ∈ ord c.nodes
        · obtain ⟨m, g1, g2⟩ := a3 v hv
          obtain ⟨m', g1', g2'⟩ := b3 v hv
          rw [h.toQuiet.mergedVal, g2] at g2'
          cases g2'
          rw [g1, g1']
        · rw [a4 v hv, b4 v hv, h.mrg]
      · rw [a2, b2, h.cl]
        have : State.toposOf ord t = State.toposOf ord s := by funext u; exact h.toQuiet.toposOf ord u
        rw [this]
    | some ts =>
      rw [hconn] at es et
      simp only at es et
      obtain ⟨s1, f1, f2, f3, f4, f5, f6⟩ := refresh_loop hord (ord c.nodes) s hs.toCore hmemS
      obtain ⟨t1, g1, g2, g3, g4, g5, g6⟩ := refresh_loop hord (ord c.nodes) t ht.toCore hmemT
      rw [es] at f1
      rw [et] at g1
      cases f1
      cases g1
      refine ⟨(f2.toQuiet.symm'.trans h.toQuiet).trans g2.toQuiet, ?_, ?_⟩
      · intro v
        by_cases hv : v ∈ ord c.nodes
        · obtain ⟨m, a1, a2⟩ := f5 v hv
          obtain ⟨m', b1, b2⟩ := g5 v hv
          rw [h.mrg, h.toQuiet.mergedVal] at b2
          rw [a1, b1]
          rcases a2 with a2 | a2 <;> rcases b2 with b2 | b2
          · rw [a2] at b2; exact b2.symm
          · rw [a2] at b2; cases b2.1
          · rw [b2] at a2; cases a2.1
          · have := a2.2.symm.trans b2.2; cases this; rfl
        · rw [f6 v hv, g6 v hv, h.mrg]
      · rw [f4, g4, h.cl]

theorem propagateCluster_prep {ord : List Var → List Var} {sched : Sched} {kind : Kind} {n i : Nat} {s s' : State F}
    {r : (Bool × Nat) × Bool} (h : propagateCluster ord sched kind n i s = .ok s' r) :
    ∃ s1, prepareCluster ord i s = .ok s1 () ∧ Soft s1 s' := by
  unfold propagateCluster at h
  cases hp : prepareCluster ord i s with
  | throw s1 => rw [hp] at h; cases h
  | ub => rw [hp] at h; cases h
  | ok s1 u =>
    rw [hp] at h
    simp only at h
    refine ⟨s1, rfl, ?_⟩
    cases hc : s1.clusters[i]? with
    | none => rw [hc] at h; cases h
    | some c =>
      rw [hc] at h
      simp only at h
      cases hts : c.connectivity with
      | none => rw [hts] at h; cases h
      | some ts =>
        rw [hts] at h
        simp only at h
        have hr := messageRounds_soft (F := F) kind sched ts.length ts le_rfl s1
        cases hm : messageRounds kind sched ts s1 with
        | throw s2 => rw [hm] at h; cases h
        | ub => rw [hm] at h; cases h
        | ok s2 b =>
          rw [hm] at h hr
          cases b with
          | true => simp only at h; cases h; exact hr
          | false =>
            simp only at h
            have hl := loopyPropagate_soft (F := F) kind sched n c ts s2
            cases hlp : loopyPropagate kind sched n c ts s2 with
            | throw s3 => rw [hlp] at h; cases h
            | ub => rw [hlp] at h; cases h
            | ok s3 d =>
              rw [hlp] at h hl
              simp only at h
              cases h
              exact hr.trans hl

theorem prepareCluster_inv {ord : List Var → List Var} (hord : ∀ l, (ord l).Perm l) {s s' : State F} (hs : Inv s) {i : Nat}
    (h : prepareCluster ord i s = .ok s' ()) : Inv s' := by
  cases hc : s.clusters[i]? with
  | none => unfold prepareCluster at h; rw [hc] at h; cases h
  | some c =>
    obtain ⟨s1, e1, e2⟩ := prepareCluster_ok hord hs hc
    rw [h] at e1
    cases e1
    exact e2.inv

theorem propagateClusters_agree {ord : List Var → List Var} (hord : ∀ l, (ord l).Perm l) (kind : Kind) {sched sched' : Sched}
    {n n' : Nat} : ∀ (l : List Nat) (s t : State F), Inv s → Inv t → Agree s t → ∀ {s' t' : State F} {rs rs'},
    propagateClusters ord sched kind n l s = .ok s' rs → propagateClusters ord sched' kind n' l t = .ok t' rs' →
    Agree s' t' := by
  intro l
  induction l with
  | nil =>
    intro s t _ _ h s' t' rs rs' e1 e2
    cases e1; cases e2; exact h
  | cons i l ih =>
    intro s t hs ht h s' t' rs rs' e1 e2
    rw [propagateClusters] at e1 e2
    cases h1 : propagateCluster ord sched kind n i s with
    | throw _ => rw [h1] at e1; cases e1
    | ub => rw [h1] at e1; cases e1
    | ok s1 r =>
      cases h2 : propagateCluster ord sched' kind n' i t with
      | throw _ => rw [h2] at e2; cases e2
      | ub => rw [h2] at e2; cases e2
      | ok t1 r' =>
        rw [h1] at e1
        rw [h2] at e2
        simp only at e1 e2
        obtain ⟨s0, p1, p2⟩ := propagateCluster_prep h1
        obtain ⟨t0, q1, q2⟩ := propagateCluster_prep h2
        have hag : Agree s1 t1 := (p2.agree.symm.trans (prepareCluster_agree hord hs ht h p1 q1)).trans q2.agree
        have hs1 : Inv s1 := p2.inv (prepareCluster_inv hord hs p1)
        have ht1 : Inv t1 := q2.inv (prepareCluster_inv hord ht q1)
        cases h3 : propagateClusters ord sched kind n l s1 with
        | throw _ => rw [h3] at e1; cases e1
        | ub => rw [h3] at e1; cases e1
        | ok s2 r2 =>
          cases h4 : propagateClusters ord sched' kind n' l t1 with
          | throw _ => rw [h4] at e2; cases e2
          | ub => rw [h4] at e2; cases e2
          | ok t2 r2' =>
            rw [h3] at e1
            rw [h4] at e2
            simp only at e1 e2
            cases e1; cases e2
            exact ih s1 t1 hs1 ht1 hag h3 h4

theorem light_agree (s : State F) (l : Option PropResult) (p : Option Nat) : Agree s { s with last := l, pool := p } :=
  ⟨⟨⟨rfl, rfl, rfl, rfl, rfl, rfl, rfl, rfl, fun _ => rfl⟩, rfl, rfl, fun _ => rfl, fun _ => rfl⟩, fun _ => rfl, rfl⟩

theorem propagateBelief_agree {ord : List Var → List Var} (hord : ∀ l, (ord l).Perm l) (kind : Kind) {sched sched' : Sched}
    {s t : State F} (hs : Inv s) (ht : Inv t) (h : Agree s t) {s' t' : State F}
    (hw : s.wouldNeedPropagation kind = true) (hw' : t.wouldNeedPropagation kind = true)
    (e1 : propagateBelief ord sched kind s = .ok s' ()) (e2 : propagateBelief ord sched' kind t = .ok t' ()) :
    Agree s' t' := by
  unfold propagateBelief at e1 e2
  rw [hw] at e1
  rw [hw'] at e2
  simp only [Bool.not_true, Bool.false_eq_true, if_false] at e1 e2
  cases hp : s.pool with
  | none => rw [hp] at e1; cases e1
  | some n =>
    cases hp' : t.pool with
    | none => rw [hp'] at e2; cases e2
    | some n' =>
      rw [hp] at e1
      rw [hp'] at e2
      simp only at e1 e2
      rw [h.cl] at e2
      have a1 := resetMessages_soft s
      have a2 := resetMessages_soft t
      cases h3 : propagateClusters ord sched kind n (List.range s.clusters.length) s.resetMessages with
      | throw _ => rw [h3] at e1; cases e1
      | ub => rw [h3] at e1; cases e1
      | ok s2 r2 =>
        cases h4 : propagateClusters ord sched' kind n' (List.range s.clusters.length) t.resetMessages with
        | throw _ => rw [h4] at e2; cases e2
        | ub => rw [h4] at e2; cases e2
        | ok t2 r2' =>
          rw [h3] at e1
          rw [h4] at e2
          simp only at e1 e2
          have := propagateClusters_agree hord kind _ _ _ (a1.inv hs) (a2.inv ht)
            ((a1.agree.symm.trans h).trans a2.agree) h3 h4
          cases e1; cases e2
          exact ((light_agree s2 _ s2.pool).symm.trans this).trans (light_agree t2 _ t2.pool)

theorem checkPropagation_agree {ord : List Var → List Var} (hord : ∀ l, (ord l).Perm l) (kind : Kind)
    {sched sched' : Sched} {s : State F} (hs : Inv s) {n n' : Nat} {s1 s2 : State F}
    (e1 : checkPropagation ord sched kind n s = .ok s1 ()) (e2 : checkPropagation ord sched' kind n' s = .ok s2 ()) :
    Agree s1 s2 := by
  unfold checkPropagation at e1 e2
  by_cases hw : s.wouldNeedPropagation kind = true
  · rw [if_pos hw] at e1 e2
    have key : ∀ (m : Nat) (sch : Sched) (x : State F),
        withPool m (propagateBelief ord sch kind) s = Out.ok x () →
        ∃ p y, propagateBelief ord sch kind { s with pool := p } = .ok y () ∧ x = y.resetPool := by
      intro m sch x ex
      unfold withPool at ex
      cases h0 : setPoolSize m s with
      | throw _ => rw [h0] at ex; cases ex
      | ub => rw [h0] at ex; cases ex
      | ok y u =>
        rw [h0] at ex
        simp only at ex
        obtain ⟨p, rfl⟩ : ∃ p, y = { s with pool := p } := by
          unfold setPoolSize at h0
          cases hp : s.pool with
          | none => rw [hp] at h0; cases h0
          | some k =>
            rw [hp] at h0
            simp only at h0
            by_cases hmk : m = k
            · rw [if_pos hmk] at h0; cases h0; exact ⟨s.pool, rfl⟩
            · rw [if_neg hmk] at h0
              by_cases hm0 : m = 0
              · rw [if_pos hm0] at h0; cases h0
              · rw [if_neg hm0] at h0; cases h0; exact ⟨_, rfl⟩
        cases h1 : propagateBelief ord sch kind { s with pool := p } with
        | throw _ => rw [h1] at ex; cases ex
        | ub => rw [h1] at ex; cases ex
        | ok z v => rw [h1] at ex; simp only at ex; cases ex; exact ⟨p, z, h1, rfl⟩
    obtain ⟨p1, y1, g1, rfl⟩ := key n sched s1 e1
    obtain ⟨p2, y2, g2, rfl⟩ := key n' sched' s2 e2
    have hi : ∀ p, Inv { s with pool := p } := fun p => (asked_pool s p).inv hs
    have hag : ∀ p, Agree s { s with pool := p } := fun p => light_agree s s.last p
    have := propagateBelief_agree hord kind (hi p1) (hi p2) ((hag p1).symm.trans (hag p2)) hw hw g1 g2
    exact ((light_agree y1 y1.last _).symm.trans this).trans (light_agree y2 y2.last _)
  · rw [if_neg hw] at e1 e2
    cases e1; cases e2
    exact Agree.rfl' s

/-- The messages of a cluster without cycles are determined by the rest of the state. -/
theorem Exact.unique {kind : Kind} {s t : State F} {nodes : List Var} {ts : List Topo} (hset : Setting s nodes ts)
    (hn : Net s) (h : Agree s t) (hs : Exact kind s ts) (ht : Exact kind t ts) :
    ∀ x ∈ ts, t.msg x.conn.owner x.conn.from_ = s.msg x.conn.owner x.conn.from_ := by
  obtain ⟨rank, hr⟩ := hs
  obtain ⟨rank', hr'⟩ := ht
  have : ∀ k, ∀ x ∈ ts, rank x.conn = k → t.msg x.conn.owner x.conn.from_ = s.msg x.conn.owner x.conn.from_ := by
    intro k
    induction k using Nat.strong_induction_on with
    | _ k ih =>
      intro x hx hk
      obtain ⟨m, a1, a2, a3⟩ := hr x hx
      obtain ⟨m', b1, b2, _⟩ := hr' x hx
      have : Sends kind t x m := a2.congr' h.toQuiet (h.mrg _) (by
        intro r hrd
        obtain ⟨y, hy, rfl⟩ := hset.dep hn hx hrd
        exact ih _ (by have := a3 _ hrd; omega) y hy rfl)
      rw [a1, b1, this.functional b2]
  intro x hx
  exact this _ x hx rfl

theorem find?_some_of_links {m m' : List (Var × Conn F)} (hl : links m' = links m)
    (hm : ∀ w, (AMap.find? m' w).bind (·.message) = (AMap.find? m w).bind (·.message)) (hn : (AMap.keys m).Nodup) :
    m' = m := by
  induction m generalizing m' with
  | nil =>
    cases m' with
    | nil => rfl
    | cons e m' => cases hl
  | cons e m ih =>
    cases m' with
    | nil => cases hl
    | cons e' m' =>
      obtain ⟨k, c⟩ := e
      obtain ⟨k', c'⟩ := e'
      simp only [links, List.map_cons, List.cons.injEq, Prod.mk.injEq] at hl
      obtain ⟨⟨rfl, h1⟩, h2⟩ := hl
      simp only [AMap.keys, List.map_cons, List.nodup_cons] at hn
      have h0 := hm k'
      simp only [AMap.find?, if_pos, Option.bind_some] at h0
      have hc : c' = c := by
        cases c; cases c'
        simp only at h1 h0
        rw [h1, h0]
      subst hc
      congr 1
      refine ih h2 ?_ hn.2
      intro w
      have hw := hm w
      simp only [AMap.find?] at hw
      by_cases hkw : k' = w
      · subst hkw
        have hnone : ∀ l : List (Var × Conn F), k' ∉ AMap.keys l → AMap.find? l k' = none := by
          intro l hl
          cases hf : AMap.find? l k' with
          | none => rfl
          | some c => exact absurd (AMap.mem_keys.mpr ⟨c, hf⟩) hl
        have hk' : AMap.keys m' = AMap.keys m := by
          rw [← keys_links m', ← keys_links m]
          exact congrArg AMap.keys h2
        rw [hnone m hn.1, hnone m' (by rw [hk']; exact hn.1)]
      · rw [if_neg hkw, if_neg hkw] at hw
        exact hw

end State
end EFG

namespace EFG
namespace State
variable {F : Type} [Arith F]

/-! ### The tasks of one round -/

theorem Sends.computes {kind : Kind} {s : State F} (hs : Flow s) (hty : TypedMsgs s) {t : Topo} (ht : TopoAt s t)
    {m : Fn F} (hm : Sends kind s t m) (hu : m.Unary t.conn.owner) : Computes kind s t m := by
  obtain ⟨x, h1, _⟩ := updateMessage_ok hs hty ht hm hu
  have h2 := msg_setActiveMessage (ht.ownerActive hs) (some m) t.conn.owner t.conn.from_
  rw [if_pos ⟨rfl, rfl⟩] at h2
  unfold msg at h2
  cases hc : (setActiveMessage t.conn.owner t.conn.from_ (some m) s).act t.conn.owner t.conn.from_ with
  | none => rw [hc] at h2; cases h2
  | some c => rw [hc] at h2; exact ⟨_, x, c, h1, hc, h2⟩

theorem Computes.functional {kind : Kind} {s : State F} {t : Topo} {m m' : Fn F} (h : Computes kind s t m)
    (h' : Computes kind s t m') : m = m' := by
  obtain ⟨_, _, _, h1, h2, h3⟩ := h
  obtain ⟨_, _, _, g1, g2, g3⟩ := h'
  rw [h1] at g1; cases g1
  rw [h2] at g2; cases g2
  rw [h3] at g3; cases g3
  rfl

/-- Every interleaving of the tasks of a round. -/
theorem RoundOk.race {kind : Kind} {s : State F} (hs : Flow s) (hty : TypedMsgs s) {now : List Topo} (hr : RoundOk s now) :
    ∃ s', (∀ sched : Sched, (∀ l, (sched l).Perm l) → messageRound kind sched now s = .ok s' ()) ∧
      ∀ cfg, Relation.ReflTransGen (RaceStep kind) ⟨now, [], s⟩ cfg →
        (∀ t ∈ cfg.todo, ∃ m, Computes kind cfg.state t m) ∧ (cfg.todo = [] → cfg.pending = [] → cfg.state = s') := by
  classical
  have hex : ∀ t : Topo, ∃ m, t ∈ now → Sends kind s t m ∧ m.Unary t.conn.owner := by
    intro t
    by_cases h : t ∈ now
    · obtain ⟨m, h1, h2⟩ := sends_ok kind hs hty (hr.at_ t h) (hr.merged t h) (hr.deps t h)
      exact ⟨m, fun _ => ⟨h1, h2⟩⟩
    · exact ⟨Fn.ones t.sender, fun h' => absurd h' h⟩
  choose val hval using hex
  have hseq : ∀ (l : List Topo), l.Perm now → forEach (messageTask kind) l.zipIdx s =
      .ok (writeAll (l.map (fun t => (t.conn, val t))) s) () := by
    intro l hl
    have := forEach_round hs hty (kind := kind) (val := val) (l := l.zipIdx) (s := s) (by
      rw [List.zipIdx_map_fst]
      exact ⟨fun t h => hr.at_ t (hl.mem_iff.mp h), fun t h => hr.merged t (hl.mem_iff.mp h),
        fun t h => hr.deps t (hl.mem_iff.mp h), (hl.map _).nodup_iff.mpr hr.nodup,
        fun t h t' h' => hr.apart t (hl.mem_iff.mp h) t' (hl.mem_iff.mp h')⟩) (by
      intro e he
      refine hval e.1 (hl.mem_iff.mp ?_)
      have : e.1 ∈ l.zipIdx.map Prod.fst := List.mem_map.mpr ⟨e, he, rfl⟩
      rwa [List.zipIdx_map_fst] at this)
    rw [this]
    have h2 : l.zipIdx.map (fun e => (e.1.conn, val e.1)) = l.map (fun t => (t.conn, val t)) := by
      have : l.zipIdx.map (fun e => (e.1.conn, val e.1)) = (l.zipIdx.map Prod.fst).map (fun t => (t.conn, val t)) := by
        rw [List.map_map]; rfl
      rw [this, List.zipIdx_map_fst]
    rw [h2]
  obtain ⟨s', h1, _⟩ := messageRound_ok kind hs hty hr
  have hs' : s' = writeAll (now.map (fun t => (t.conn, val t))) s := by
    have e1 := h1 id (fun l => List.Perm.refl l)
    unfold messageRound at e1
    rw [id, hseq now (List.Perm.refl _)] at e1
    cases e1
    rfl
  refine ⟨s', h1, ?_⟩
  have alone : ∀ (done rest : List Topo), (done ++ rest).Perm now → ∀ t ∈ now,
      Computes kind (writeAll (done.map (fun t => (t.conn, val t))) s) t (val t) := by
    intro done rest i1 t htn
    have hdn : ∀ x ∈ done, x ∈ now := fun x hx => i1.mem_iff.mp (by simp [hx])
    have hnd : (done.map (·.conn)).Nodup := by
      have := (i1.map (·.conn)).nodup_iff.mpr hr.nodup
      rw [List.map_append] at this
      exact (List.nodup_append.mp this).1
    have hsoft := writeAll_soft (done.map (fun t => (t.conn, val t))) s
    obtain ⟨w1, w2⟩ := msg_writeAll (s := s) (ws := done.map (fun t => (t.conn, val t)))
      (by rw [List.map_map]; exact hnd) (by
        intro w hw
        obtain ⟨x, hx, rfl⟩ := List.mem_map.mp hw
        exact (hr.at_ x (hdn x hx)).ownerActive hs)
    refine Sends.computes (hs.soft hsoft) ?_ ((hr.at_ t htn).quiet hsoft.toQuiet) ?_ (hval t htn).2
    · intro u v m hu hm
      by_cases h : ∃ x ∈ done, x.conn = ⟨u, v⟩
      · obtain ⟨x, hx, hc⟩ := h
        have h1 := w1 _ (List.mem_map.mpr ⟨x, hx, rfl⟩)
        simp only [hc] at h1
        rw [h1] at hm
        cases hm
        have := (hval x (hdn x hx)).2
        rw [hc] at this
        exact this
      · rw [w2 u v (by
          intro w hw
          obtain ⟨x, hx, rfl⟩ := List.mem_map.mp hw
          exact fun hc => h ⟨x, hx, hc⟩)] at hm
        rw [hsoft.toQuiet.obs] at hu
        exact hty u v m hu hm
    · refine (hval t htn).1.congr hsoft ?_
      intro r hr'
      refine w2 _ _ ?_
      intro w hw hc
      obtain ⟨x, hx, rfl⟩ := List.mem_map.mp hw
      simp only at hc
      exact hr.apart x (hdn x hx) t htn (by rw [hc]; exact hr')
  -- the invariant of the execution
  have inv : ∀ cfg, Relation.ReflTransGen (RaceStep kind) ⟨now, [], s⟩ cfg → ∃ done : List Topo,
      (done ++ cfg.pending.map Prod.fst ++ cfg.todo).Perm now ∧ (∀ e ∈ cfg.pending, e.2 = val e.1) ∧
      cfg.state = writeAll (done.map (fun t => (t.conn, val t))) s := by
    intro cfg hcfg
    induction hcfg with
    | refl => exact ⟨[], by simp, by simp, rfl⟩
    | @tail b c hb hstep ih =>
      obtain ⟨done, i1, i2, i3⟩ := ih
      have facts : ∀ t ∈ b.todo, Computes kind b.state t (val t) := by
        intro t ht
        rw [i3]
        have htn : t ∈ now := i1.mem_iff.mp (by simp [ht])
        rw [List.append_assoc] at i1
        exact alone done _ i1 t htn
      cases hstep with
      | read a b t m p s0 hm =>
        refine ⟨done, ?_, ?_, i3⟩
        · refine List.Perm.trans ?_ i1
          simp only [List.map_cons]
          refine List.perm_iff_count.mpr ?_
          intro x
          simp only [List.count_append, List.count_cons]
          omega
        · intro e he
          rcases List.mem_cons.mp he with rfl | he
          · exact hm.functional (facts t (by simp))
          · exact i2 e he
      | write l a b t m s0 =>
        refine ⟨done ++ [t], ?_, ?_, ?_⟩
        · refine List.Perm.trans ?_ i1
          simp only [List.map_append, List.map_cons]
          refine List.perm_iff_count.mpr ?_
          intro x
          simp only [List.count_append, List.count_cons, List.count_nil]
          omega
        · intro e he
          refine i2 e ?_
          simp only [List.mem_append, List.mem_cons] at he ⊢
          tauto
        · have hm : m = val t := i2 (t, m) (by simp)
          simp only at i3 ⊢
          rw [i3, hm]
          unfold writeAll
          rw [List.map_append, List.foldl_append]
          rfl
  intro cfg hcfg
  obtain ⟨done, i1, i2, i3⟩ := inv cfg hcfg
  constructor
  · intro t ht
    have htn : t ∈ now := i1.mem_iff.mp (by simp [ht])
    rw [i3]
    rw [List.append_assoc] at i1
    exact ⟨_, alone done _ i1 t htn⟩
  · intro h1 h2
    rw [i3, hs']
    rw [h1, h2] at i1
    simp only [List.map_nil, List.append_nil] at i1
    exact writeAll_perm (i1.map _) (by
      rw [List.map_map]
      exact (i1.map _).nodup_iff.mpr hr.nodup) s

end State
end EFG

namespace EFG
namespace State
variable {F : Type} [Arith F]

/-! ### The rounds of a propagation -/

theorem Rounds.roundOk {kind : Kind} {sched : Sched} (hsched : ∀ l, (sched l).Perm l) {nodes : List Var} {ts : List Topo}
    {s s1 : State F} {left now : List Topo} (h : Rounds kind sched s left s1 now) : ∀ {k rank},
    Progress kind s nodes ts left k rank → Flow s1 ∧ TypedMsgs s1 ∧ RoundOk s1 now := by
  classical
  induction h with
  | @here s left now later h1 h2 =>
    intro k rank hp
    rw [splitReady_eq (fun t ht => hp.setting.at_ (hp.sub.subset ht))] at h1
    cases h1
    exact ⟨hp.flow, hp.typed, hp.round.1⟩
  | @later s s' s1 left first later now h1 h2 h3 h4 ih =>
    intro k rank hp
    rw [splitReady_eq (fun t ht => hp.setting.at_ (hp.sub.subset ht))] at h1
    cases h1
    obtain ⟨_, s2, rank', e1, _, _, e2⟩ := hp.round
    rw [e1 sched hsched] at h3
    cases h3
    exact ih e2

theorem propagateClusters_prefix {ord : List Var → List Var} (hord : ∀ l, (ord l).Perm l) (kind : Kind) {sched : Sched}
    (hsched : ∀ l, (sched l).Perm l) {n : Nat} (hn : 1 ≤ n) : ∀ (d k : Nat) (s : State F),
    Inv s → Flow s → TypedMsgs s → k + d ≤ s.clusters.length →
    (∀ j c, k ≤ j → s.clusters[j]? = some c → ∀ u ∈ c.nodes, ∀ v, s.msg u v = none) →
    ∃ s' rs', propagateClusters ord sched kind n (List.range' k d) s = .ok s' rs' ∧ Inv s' ∧ Flow s' ∧ TypedMsgs s' ∧
      s'.clusters.length = s.clusters.length ∧
      (∀ j c, k + d ≤ j → s'.clusters[j]? = some c → ∀ u ∈ c.nodes, ∀ v, s'.msg u v = none) := by
  intro d
  induction d with
  | zero => intro k s hs hf hty _ hno; exact ⟨s, [], rfl, hs, hf, hty, rfl, hno⟩
  | succ d ih =>
    intro k s hs hf hty hk hno
    have hkl : k < s.clusters.length := by omega
    have hc : s.clusters[k]? = some s.clusters[k] := List.getElem?_eq_getElem hkl
    set c := s.clusters[k] with hcdef
    obtain ⟨s1, tree, r, hstep, hrun⟩ : ∃ s1 tree r, ClusterStep kind s s1 k c tree ∧
        propagateCluster ord sched kind n k s = .ok s1 r := by
      rcases propagateCluster_ok hord kind hs hf hty hc (hno k c le_rfl hc) with ⟨s1, h1, h2⟩ | h
      · exact ⟨s1, true, _, h1, h2 sched hsched n⟩
      · obtain ⟨s0, s1, ts, sw, done, h1, h3, h4, h2⟩ := h sched hsched n hn
        exact ⟨s1, false, _, h1, h2⟩
    obtain ⟨s2, rs', e1, e2, e3, e4, e5, e6⟩ := ih (k + 1) s1 (hstep.step.inv hs) hstep.flow hstep.typed
      (by rw [hstep.len]; omega) (by
        intro j c' hj hc' u hu v
        have hne : j ≠ k := by omega
        rw [hstep.other j hne] at hc'
        rw [hstep.msg u v (clusters_disjoint hs hne hc' hc hu)]
        exact hno j c' (by omega) hc' u hu v)
    refine ⟨s2, r :: rs', ?_, e2, e3, e4, by rw [e5, hstep.len], ?_⟩
    · rw [List.range'_succ, propagateClusters, hrun]
      simp only
      rw [e1]
    · intro j c' hj; exact e6 j c' (by omega)

theorem RunsRound.roundOk {ord : List Var → List Var} (hord : ∀ l, (ord l).Perm l) {kind : Kind} {sched : Sched}
    (hsched : ∀ l, (sched l).Perm l) {n : Nat} (hn : 1 ≤ n) {s s1 : State F} (hs : Healthy s) {now : List Topo}
    (h : RunsRound ord sched kind n s s1 now) : Flow s1 ∧ TypedMsgs s1 ∧ RoundOk s1 now := by
  obtain ⟨i, sA, rs, sB, c, ts, hi, e1, e2, e3, e4, e5⟩ := h
  have ha0 := asked_pool s (some n)
  have hi0 := ha0.inv hs.inv
  have hf0 := hs.flow.quiet ha0.toQuiet hi0.toCore
  set s0 : State F := { s with pool := some n } with hs0
  have hsoft := resetMessages_soft s0
  have hi1 := hsoft.inv hi0
  have hmsg : ∀ u, u ∉ s0.obs → ∀ v, s0.resetMessages.msg u v = none := fun u hu v => msg_resetMessages hi0 hu v
  obtain ⟨x, rs', f1, f2, f3, f4, f5, f6⟩ := propagateClusters_prefix hord kind hsched hn i 0 s0.resetMessages hi1
    (hf0.soft hsoft) (by
      intro u v m hu hm
      rw [hsoft.toQuiet.obs] at hu
      rw [hmsg u hu v] at hm
      cases hm) (by rw [hsoft.cl]; show 0 + i ≤ s.clusters.length; omega) (by
      intro j c _ hc u hu v
      refine hmsg u ?_ v
      have := (hi1.cluster_mem hc hu).2
      rw [hsoft.toQuiet.obs] at this
      exact this)
  rw [← List.range_eq_range', e1] at f1
  cases f1
  have hil : i < sA.clusters.length := by rw [f5, hsoft.cl]; exact hi
  have hc : sA.clusters[i]? = some sA.clusters[i] := List.getElem?_eq_getElem hil
  obtain ⟨y, g1, hp⟩ := prepareCluster_ok hord f2 hc
  rw [e2] at g1
  cases g1
  obtain ⟨ts', ht1, ht2⟩ := hp.conn
  rw [e3] at ht1
  cases ht1
  cases e4
  have hfB : Flow sB := f3.quiet hp.prep.toQuiet hp.inv.toCore
  have hset : Setting sB sA.clusters[i].nodes ts := by
    refine ⟨ht2, ?_, ?_, ?_⟩
    · intro u hu; rw [hp.prep.toQuiet.obs]; exact (f2.cluster_mem hc hu).2
    · intro u hu v hv
      exact hp.inv.closed hfB.sep e3 hu hv
    · intro u hu
      obtain ⟨m, hm, _⟩ := hp.merged u hu
      rw [hm]; rfl
  refine e5.roundOk hsched (k := 0) (rank := fun _ => 0) (nodes := sA.clusters[i].nodes) (ts := ts) ⟨hfB, ?_, hset, List.Sublist.refl ts, ?_, ?_⟩
  · intro u v m hu hm
    rw [hp.prep.toQuiet.obs] at hu
    rw [hp.prep.msg] at hm
    exact f4 u v m hu hm
  · intro t ht
    rw [hp.prep.msg]
    exact f6 i _ (by omega) hc _ (hset.ownerMem ht) _
  · intro t ht h; exact absurd ht h

/-- Two propagations of the same state leave the same messages in the clusters without cycles. -/
theorem checkPropagation_same {ord : List Var → List Var} (hord : ∀ l, (ord l).Perm l) (kind : Kind) {sched sched' : Sched}
    (hsched : ∀ l, (sched l).Perm l) (hsched' : ∀ l, (sched' l).Perm l) {n n' : Nat} (hn : 1 ≤ n) (hn' : 1 ≤ n')
    {s : State F} (hs : Healthy s) :
    ∃ s1 s2, checkPropagation ord sched kind n s = .ok s1 () ∧ checkPropagation ord sched' kind n' s = .ok s2 () ∧
      Agree s1 s2 ∧ Asked s s1 ∧ Asked s s2 ∧ Healthy s1 ∧ Healthy s2 ∧ s1.last.isSome ∧ s2.last.isSome ∧
      ∀ c ∈ s.clusters, s.NoCycle c.nodes → ∀ u ∈ c.nodes, s2.activeOf u = s1.activeOf u := by
  by_cases hw : s.wouldNeedPropagation kind = true
  · obtain ⟨s1, r1, a1, a2, a3, a4, a5, a6⟩ := checkPropagation_run hord kind hsched hs hn hw
    obtain ⟨s2, r2, b1, b2, b3, b4, b5, b6⟩ := checkPropagation_run hord kind hsched' hs hn' hw
    have hag := checkPropagation_agree hord kind hs.inv a1 b1
    refine ⟨s1, s2, a1, b1, hag, a2, b2, a3, b3, by rw [a4]; rfl, by rw [b4]; rfl, ?_⟩
    intro c hc hno u hu
    obtain ⟨j, hj⟩ := List.mem_iff_getElem?.mp hc
    have hlen : s1.clusters.length = s.clusters.length := by
      have := congrArg List.length a2.toQuiet.clusters
      simpa using this
    have hj1 : j < r1.structures.length := by
      rw [a6.settled.len, hlen]; exact (List.getElem?_eq_some_iff.mp hj).1
    have hj2 : j < r2.structures.length := by rw [b6.settled.len, hag.cl, ← a6.settled.len]; exact hj1
    obtain ⟨c1, k1, k2, k3⟩ := a6.settled.done j hj1
    obtain ⟨c2, l1, l2, l3⟩ := b6.settled.done j hj2
    rw [hag.cl, k1] at l1
    cases l1
    have hnodes : c1.nodes = c.nodes := by
      have e1 : (s1.clusters.map (·.nodes))[j]? = some c1.nodes := by rw [List.getElem?_map, k1]; rfl
      have e2 : (s.clusters.map (·.nodes))[j]? = some c.nodes := by rw [List.getElem?_map, hj]; rfl
      rw [a2.toQuiet.clusters, e2] at e1
      exact (Option.some.inj e1).symm
    have hgr : ∀ x : State F, Quiet s x → x.hiddenGraph = s.hiddenGraph := by
      intro x hq
      have hh := hq.heap
      have hv := hq.vars
      have hf := hq.factors
      have he := hq.evidences
      ext u v
      simp only [State.hiddenGraph, State.Hidden, State.Observes, State.Joins, State.FactorOn, hh, hv, hf, he]
    have hno' : ∀ x : State F, Quiet s x → ¬ ∃ u ∈ c1.nodes, ∃ w : x.hiddenGraph.Walk u u, w.IsCycle := by
      intro x hq ⟨u, hu, w, hwc⟩
      have : s.NoCycle c1.nodes := by rw [hnodes]; exact hno
      unfold NoCycle at this
      rw [← hgr x hq] at this
      exact this u hu w hwc
    obtain ⟨ts, p1, p2, p3, p4, p5⟩ := k3.ready
    obtain ⟨ts', q1, q2, q3, q4, q5⟩ := l3.ready
    rw [p1] at q1
    cases q1
    have ht1 : Exact kind s1 ts := by
      rw [← a5]
      refine p4 ?_
      by_contra hf
      exact hno' s1 a2.toQuiet (p2.cycle a3.inv.toCore (p5 (by simpa using hf)))
    have ht2 : Exact kind s2 ts := by
      rw [← b5]
      refine q4 ?_
      by_contra hf
      exact hno' s2 b2.toQuiet (q2.cycle b3.inv.toCore (q5 (by simpa using hf)))
    have huniq := Exact.unique p2 a3.inv.net hag ht1 ht2
    refine find?_some_of_links (hag.active u) ?_ ?_
    · intro w
      show s2.msg u w = s1.msg u w
      by_cases hact : (s1.act u w).isSome
      · have hw' := p2.closed u (by rw [hnodes]; exact hu) w hact
        obtain ⟨t, ht, e1, e2⟩ := p2.topo.all w hw' u (a3.inv.net.symA _ _ hact)
        have := huniq t ht
        rw [p2.topo.from_ t ht, e1, e2] at this
        exact this
      · have h1 : s1.act u w = none := by simpa using hact
        have h2 : s2.act u w = none := by
          have := hag.toQuiet.isSome u w
          rw [h1] at this
          simpa using this
        unfold State.msg
        rw [h1, h2]
    · exact (a3.inv.net.nodup u).1
  · obtain ⟨s1, r, h1, h2, h3, h4, _⟩ := checkPropagation_ok hord kind hsched hs hn
    have : s1 = s := by
      unfold checkPropagation at h1; rw [if_neg hw] at h1; cases h1; rfl
    subst this
    refine ⟨s1, s1, h1, ?_, Agree.rfl' _, h2, h2, h3, h3, by rw [h4]; rfl, by rw [h4]; rfl, fun _ _ _ _ _ => rfl⟩
    unfold checkPropagation; rw [if_neg hw]

end State
end EFG
