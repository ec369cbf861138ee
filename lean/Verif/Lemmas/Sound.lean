import Verif.Spec.Prudent
import Verif.Lemmas.GraphSpec
import Verif.Lemmas.Loopy
/- The executions after which the queries are defined, and those after which nothing is stale. -/

set_option linter.unusedSectionVars false

namespace EFG
namespace State
variable {F : Type} [Arith F]

/-- All the messages and the caches read by the queries are available. -/
structure Alive (s : State F) : Prop where
  typed : TypedMsgs s
  msg : ∀ u v, u ∉ s.obs → (s.act u v).isSome → (s.msg u v).isSome
  mrg : ∀ u ∈ s.hid, (s.mrg u).isSome

theorem Inv.cluster_of {s : State F} (hs : Inv s) {u : Var} (hu : u ∈ s.hid) :
    ∃ (j : Nat) (c : Cluster), s.clusters[j]? = some c ∧ u ∈ c.nodes := by
  have h1 := (hs.parts.mem u).mpr hu
  obtain ⟨l, h2, h3⟩ := List.mem_flatten.mp h1
  obtain ⟨c, h4, rfl⟩ := List.mem_map.mp h2
  obtain ⟨j, hj⟩ := List.mem_iff_getElem?.mp h4
  exact ⟨j, c, hj, h3⟩

/-- The node of a variable with a connection exists. -/
theorem Core.act_vars {s : State F} (hs : Core s) {u v : Var} (h : (s.act u v).isSome) : u ∈ s.vars ∧ v ∈ s.vars := by
  obtain ⟨c, hc⟩ := Option.isSome_iff_exists.mp h
  have := hs.net.memL u v _ (lnk_of_act hc)
  exact ⟨this.1, this.2.1⟩

/-- What the last propagation left, whatever the present list of the clusters is: every hidden
variable is part of a closed set of nodes with its messages available, which solve the equations of
the exact propagation when the structure found was a tree. -/
structure Fresh (s : State F) (r : PropResult) : Prop where
  typed : TypedMsgs s
  done : ∀ u ∈ s.hid, ∃ nodes ts tree, u ∈ nodes ∧ (tree, nodes.length) ∈ r.structures ∧ Setting s nodes ts ∧
    Live s ts ∧ (tree = true → Exact r.kind s ts) ∧ (tree = false → Stuck ts) ∧
    ∀ w ∈ nodes, Relation.ReflTransGen (fun a b => (s.act a b).isSome) u w

theorem Settled.fresh {s : State F} {r : PropResult} (h : Settled s r) (hs : Inv s) : Fresh s r := by
  refine ⟨h.typed, fun u hu => ?_⟩
  obtain ⟨j, c, h1, h2⟩ := hs.cluster_of hu
  have hj : j < r.structures.length := by rw [h.len]; exact (List.getElem?_eq_some_iff.mp h1).1
  obtain ⟨c', h3, h5, ⟨ts, _, h4⟩⟩ := h.done j hj
  rw [h1] at h3
  cases h3
  obtain ⟨g1, g2, g3, g4⟩ := h4
  refine ⟨c.nodes, ts, _, h2, by rw [← h5]; exact List.getElem_mem hj, g1, g2, g3, g4, fun w hw => ?_⟩
  refine Relation.ReflTransGen.mono ?_ _ _ (hs.parts.conn c.nodes
    (List.mem_map.mpr ⟨c, List.mem_iff_getElem?.mpr ⟨j, h1⟩, rfl⟩) u h2 w hw)
  rintro a b ⟨_, _, hab⟩
  obtain ⟨x, hx⟩ := AMap.mem_keys.mp hab
  exact Option.isSome_iff_exists.mpr ⟨x, hx⟩

theorem Fresh.alive {s : State F} {r : PropResult} (h : Fresh s r) (hs : Inv s) : Alive s := by
  refine ⟨h.typed, ?_, ?_⟩
  · intro u v hu ha
    obtain ⟨nodes, ts, tree, h2, _, h3, h4, _⟩ := h.done u (mem_hid.mpr ⟨(hs.toCore.act_vars ha).1, hu⟩)
    have hv := h3.closed u h2 v ha
    obtain ⟨t, ht, h5, h6⟩ := h3.topo.all v hv u (hs.net.symA _ _ ha)
    have := h4 t ht
    rw [h6, h3.topo.from_ t ht, h5] at this
    exact this
  · intro u hu
    obtain ⟨nodes, ts, tree, h2, _, h3, _⟩ := h.done u hu
    exact h3.merged u h2

/-- The states in which every query is defined. -/
structure Healthy (s : State F) : Prop where
  inv : Inv s
  sep : Separated s
  sizes : ∀ u v, (s.lnk u v).isSome → u.size = v.size
  pool : s.pool = some 1
  alive : s.last.isSome → Alive s

theorem Healthy.flow {s : State F} (h : Healthy s) : Flow s := by
  refine ⟨h.inv.toCore, h.sep, ?_⟩
  intro u v _ _ ha
  obtain ⟨c, hc⟩ := Option.isSome_iff_exists.mp ha
  exact h.sizes u v (by rw [lnk_of_act hc]; rfl)

/-- Nothing cached is stale. -/
structure Faithful (s : State F) : Prop where
  coh : Coherent s
  evid : ∀ u v c k, u ∉ s.obs → s.dis u v = some c → AMap.find? s.evidences v = some k →
    ∃ m, c.message = some m ∧ IsEvid s c.factor v k m
  fresh : ∀ r, s.last = some r → Fresh s r

/-- The invariant of the prudent executions, with the second part when `b` holds. -/
structure Sound (b : Prop) (s : State F) : Prop where
  healthy : Healthy s
  faithful : b → Faithful s

/-! ### Queries -/

theorem checkPropagation_ok {ord : List Var → List Var} (hord : ∀ l, (ord l).Perm l) (kind : Kind) {sched : Sched}
    (hsched : ∀ l, (sched l).Perm l) {s : State F} (hs : Healthy s) {n : Nat} (hn : 1 ≤ n) :
    ∃ s' r, checkPropagation ord sched kind n s = .ok s' () ∧ Asked s s' ∧ Healthy s' ∧ s'.last = some r ∧
      r.kind = kind ∧ ((∀ r, s.last = some r → Fresh s r) → Fresh s' r) := by
  unfold checkPropagation
  by_cases hw : s.wouldNeedPropagation kind = true
  · rw [if_pos hw]
    have hlight : ∀ (x : State F) (m : Option Nat), Asked x { x with pool := m } :=
      fun x m => Asked.light rfl rfl rfl rfl rfl rfl rfl rfl rfl rfl
    have h0 : setPoolSize n s = .ok { s with pool := some n } () := by
      unfold setPoolSize
      rw [hs.pool]
      simp only
      by_cases h1 : n = 1
      · subst h1
        rw [if_pos rfl]
        have hp := hs.pool
        cases s
        simp only at hp
        rw [hp]
      · rw [if_neg h1, if_neg (by omega)]
    have ha0 := hlight s (some n)
    have hi0 := ha0.inv hs.inv
    obtain ⟨s1, r, h1, h2, h3, h4, h5, h6, h7, _, _⟩ := propagateBelief_ok hord kind hsched hi0
      (hs.flow.quiet ha0.toQuiet hi0.toCore) hn rfl hw
    have ha1 := hlight s1 (some 1)
    have hall := (ha0.trans h2).trans ha1
    have hset : Settled s1.resetPool r := by
      refine ⟨h6.typed, h6.len, ?_⟩
      intro j hj
      obtain ⟨c, g1, g2, g3⟩ := h6.done j hj
      exact ⟨c, g1, g2, g3.keep ha1.toQuiet (fun _ _ => rfl) (fun _ _ _ => rfl)⟩
    have hinv := hall.inv hs.inv
    refine ⟨s1.resetPool, r, ?_, hall, ⟨hinv, ?_, ?_, rfl, fun _ => (hset.fresh hinv).alive hinv⟩, h4, h5, fun _ => hset.fresh hinv⟩
    · unfold withPool
      rw [h0]
      simp only
      rw [h1]
    · exact (hs.flow.quiet hall.toQuiet hinv.toCore).sep
    · intro u v
      have : s1.resetPool.lnk u v = s.lnk u v := hall.toQuiet.lnk u v
      rw [this]; exact hs.sizes u v
  · rw [if_neg hw]
    unfold wouldNeedPropagation at hw
    cases hl : s.last with
    | none => rw [hl] at hw; simp at hw
    | some r =>
      rw [hl] at hw
      refine ⟨s, r, rfl, Asked.rfl' s, hs, hl, by simpa using hw, fun h => h r rfl⟩

theorem Asked.evid {s s' : State F} (h : Asked s s')
    (he : ∀ u v c k, u ∉ s.obs → s.dis u v = some c → AMap.find? s.evidences v = some k →
      ∃ m, c.message = some m ∧ IsEvid s c.factor v k m) :
    ∀ u v c k, u ∉ s'.obs → s'.dis u v = some c → AMap.find? s'.evidences v = some k →
      ∃ m, c.message = some m ∧ IsEvid s' c.factor v k m := by
  intro u v c k hu hd hk
  rw [h.toQuiet.obs] at hu
  rw [h.toQuiet.dis] at hd
  rw [h.evidences] at hk
  obtain ⟨m, h1, f, h2, h3⟩ := he u v c k hu hd hk
  exact ⟨m, h1, f, by rw [h.heap]; exact h2, h3⟩

theorem checkPropagation_sound {b : Prop} {ord : List Var → List Var} (hord : ∀ l, (ord l).Perm l) (kind : Kind)
    {sched : Sched} (hsched : ∀ l, (sched l).Perm l) {s : State F} (hs : Sound b s) {n : Nat} (hn : 1 ≤ n) :
    ∃ s' r, checkPropagation ord sched kind n s = .ok s' () ∧ Asked s s' ∧ Sound b s' ∧ s'.last = some r ∧
      r.kind = kind := by
  obtain ⟨s', r, h1, h2, h3, h4, h5, h6⟩ := checkPropagation_ok hord kind hsched hs.healthy hn
  refine ⟨s', r, h1, h2, ⟨h3, fun hb => ?_⟩, h4, h5⟩
  have hf := hs.faithful hb
  refine ⟨h2.coh hs.healthy.inv hf.coh, h2.evid hf.evid, ?_⟩
  intro r' hr'
  rw [h4] at hr'
  cases hr'
  exact h6 hf.fresh

/-- Operations which keep the invariant of the prudent executions. -/
def KeepsS {α : Type} (b : Prop) (x : M (State F) α) : Prop :=
  ∀ s, Sound b s → match x s with
    | .ok s' _ => Sound b s'
    | .throw s' => Sound b s'
    | .ub => True

theorem asks_sound {α : Type} {b : Prop} {ord : List Var → List Var} (hord : ∀ l, (ord l).Perm l) (kind : Kind)
    {sched : Sched} (hsched : ∀ l, (sched l).Perm l) {n : Nat} (hn : 1 ≤ n) (r : State F → Res α) :
    KeepsS b (asks ord sched kind n r) := by
  intro s hs
  obtain ⟨s', _, h1, _, h2, _⟩ := checkPropagation_sound hord kind hsched hs hn
  unfold asks
  rw [h1]
  simp only
  unfold lift
  cases r s' with
  | ok a => exact h2
  | throw => exact h2
  | ub => trivial

/-! ### Changes of the heap and of the registers -/

theorem mapList_congr {α β : Type} {f g : α → Res β} {l : List α} (h : ∀ a ∈ l, f a = g a) :
    Res.mapList f l = Res.mapList g l := by
  induction l with
  | nil => rfl
  | cons a l ih => rw [Res.mapList_cons, Res.mapList_cons, h a (by simp), ih (fun a ha => h a (by simp [ha]))]

theorem deref_congr {s s' : State F} {p : Nat} (h : s'.heap[p]? = s.heap[p]?) : s'.deref p = s.deref p := by
  unfold deref Heap.get
  rw [h]

/-- The merged unaries only depend on the unary factors and on the messages of the observed
neighbours. -/
theorem mergedVal_perm {s s' : State F} {v : Var} (hn : Net s) (hn' : Net s') (hv : v ∈ s.vars) (hv' : v ∈ s'.vars)
    (hu : s'.una v = s.una v) (hd : ∀ w, s'.dis v w = s.dis v w) (hh : ∀ p ∈ s.una v, s'.heap[p]? = s.heap[p]?)
    {ord : List Var → List Var} (hord : ∀ l, (ord l).Perm l) :
    ∃ ord' : List Var → List Var, (∀ l, (ord' l).Perm l) ∧ s'.mergedVal ord' v = s.mergedVal ord v := by
  classical
  obtain ⟨n, h1⟩ := node?_of_mem (s := s) (v := v) (by rw [hn.keys]; exact hv)
  obtain ⟨n', h2⟩ := node?_of_mem (s := s') (v := v) (by rw [hn'.keys]; exact hv')
  have hd1 : s.disabledOf v = n.disabled := by unfold disabledOf; rw [h1]
  have hd2 : s'.disabledOf v = n'.disabled := by unfold disabledOf; rw [h2]
  have hfind : ∀ w, AMap.find? n'.disabled w = AMap.find? n.disabled w := by
    intro w
    have := hd w
    unfold State.dis at this
    rw [hd1, hd2] at this
    exact this
  have hperm : (AMap.keys n.disabled).Perm (AMap.keys n'.disabled) := by
    have a1 := (hn.nodup v).2
    have a2 := (hn'.nodup v).2
    rw [hd1] at a1
    rw [hd2] at a2
    rw [List.perm_ext_iff_of_nodup a1 a2]
    intro w
    rw [AMap.mem_keys, AMap.mem_keys, hfind]
  have hu1 : s.una v = n.unary := by unfold State.una; rw [h1]
  have hu2 : s'.una v = n'.unary := by unfold State.una; rw [h2]
  refine ⟨fun l => if l = AMap.keys n'.disabled then ord (AMap.keys n.disabled) else l, ?_, ?_⟩
  · intro l
    by_cases h : l = AMap.keys n'.disabled
    · simp only [h, if_true]; exact (hord _).trans hperm
    · simp only [h, if_false]; exact List.Perm.refl _
  · unfold State.mergedVal
    rw [h1, h2]
    simp only
    unfold mergedOf gatherUnaries
    simp only [if_true]
    rw [← hu2, ← hu1, hu]
    have e1 : Res.mapList s'.deref (s.una v) = Res.mapList s.deref (s.una v) :=
      mapList_congr (fun p hp => deref_congr (hh p hp))
    have e2 : disabledMessage n' = disabledMessage n := by
      funext w; unfold disabledMessage; rw [hfind]
    rw [e1, e2]

/-- Coherence follows the caches which are kept. -/
theorem Coherent.keep {s s' : State F} (h : Coherent s) (hs : Core s) (hs' : Core s')
    (hk : ∀ v m, v ∉ s'.obs → s'.mrg v = some m → s.mrg v = some m ∧ v ∈ s.vars ∧ v ∉ s.obs ∧ s'.una v = s.una v ∧
      (∀ w, s'.dis v w = s.dis v w) ∧ ∀ p ∈ s.una v, s'.heap[p]? = s.heap[p]?) : Coherent s' := by
  intro v hv ho m hm
  obtain ⟨h1, h2, h3, h4, h5, h6⟩ := hk v m ho hm
  obtain ⟨o, h7, h8⟩ := h v h2 h3 m h1
  obtain ⟨o', h9, h10⟩ := mergedVal_perm hs.net hs'.net h2 hv h4 h5 h6 h7
  exact ⟨o', h9, h10.trans h8⟩

theorem Sends.heap {kind : Kind} {s s' : State F} {t : Topo} {m : Fn F} (h : Sends kind s t m) (hs : Core s)
    (hn : s'.nodes = s.nodes) (hh : ∀ p ∈ s.factors, s'.heap[p]? = s.heap[p]?) : Sends kind s' t m := by
  have hnode : ∀ v, s'.node? v = s.node? v := fun v => by unfold node?; rw [hn]
  obtain ⟨mg, deps, p, h1, h2, h3, h4⟩ := h
  have hact : ∀ u v, s'.act u v = s.act u v := fun u v => by unfold State.act activeOf; rw [hnode]
  have hdis : ∀ u v, s'.dis u v = s.dis u v := fun u v => by unfold State.dis disabledOf; rw [hnode]
  have hc : s'.conn? = s.conn? := by funext r; unfold conn? activeOf; rw [hnode]
  have hdm : s'.depMessages t.deps = s.depMessages t.deps := by
    have : ∀ l : List ConnRef, s'.depMessages l = s.depMessages l := by
      intro l
      induction l with
      | nil => rfl
      | cons r l ih => rw [depMessages, depMessages, ih]; unfold depMessage; rw [hc]
    exact this _
  refine ⟨mg, deps, p, ?_, by rw [hdm]; exact h2, ?_, ?_⟩
  · unfold State.mrg at h1 ⊢; rw [hnode]; exact h1
  · unfold State.lnk at h3 ⊢; rw [hact, hdis]; exact h3
  · have := hh p (hs.link _ _ _ h3).1
    unfold newMessage at h4 ⊢
    rw [deref_congr this]
    exact h4

/-- Only the heap, the clusters, the registers of constant and tunable factors and the limit of the
iterations change. -/
structure Outer (s s' : State F) : Prop where
  nodes : s'.nodes = s.nodes
  vars : s'.vars = s.vars
  evidences : s'.evidences = s.evidences
  factors : s'.factors = s.factors
  pool : s'.pool = s.pool

theorem Outer.node? {s s' : State F} (h : Outer s s') (v : Var) : s'.node? v = s.node? v := by
  unfold State.node?; rw [h.nodes]

theorem Outer.act {s s' : State F} (h : Outer s s') (u v : Var) : s'.act u v = s.act u v := by
  unfold State.act activeOf; rw [h.node?]

theorem Outer.dis {s s' : State F} (h : Outer s s') (u v : Var) : s'.dis u v = s.dis u v := by
  unfold State.dis disabledOf; rw [h.node?]

theorem Outer.lnk {s s' : State F} (h : Outer s s') (u v : Var) : s'.lnk u v = s.lnk u v := by
  unfold State.lnk; rw [h.act, h.dis]

theorem Outer.mrg {s s' : State F} (h : Outer s s') (v : Var) : s'.mrg v = s.mrg v := by
  unfold State.mrg; rw [h.node?]

theorem Outer.una {s s' : State F} (h : Outer s s') (v : Var) : s'.una v = s.una v := by
  unfold State.una; rw [h.node?]

theorem Outer.msg {s s' : State F} (h : Outer s s') (u v : Var) : s'.msg u v = s.msg u v := by
  unfold State.msg; rw [h.act]

theorem Outer.obs {s s' : State F} (h : Outer s s') : s'.obs = s.obs := by unfold State.obs; rw [h.evidences]

theorem Outer.hid {s s' : State F} (h : Outer s s') : s'.hid = s.hid := by unfold State.hid; rw [h.vars, h.obs]

theorem Outer.typed {s s' : State F} (h : Outer s s') (ht : TypedMsgs s) : TypedMsgs s' := by
  intro u v m hu hm
  rw [h.obs] at hu
  rw [h.msg] at hm
  exact ht u v m hu hm

theorem Outer.healthy {s s' : State F} (h : Outer s s') (hs : Healthy s) (hi : Inv s')
    (hl : s'.last = s.last ∨ s'.last = none) : Healthy s' := by
  refine ⟨hi, ?_, ?_, h.pool.trans hs.pool, ?_⟩
  · intro u v hu ha
    rw [h.obs] at hu ⊢
    rw [h.act] at ha
    exact hs.sep u v hu ha
  · intro u v; rw [h.lnk]; exact hs.sizes u v
  · intro hl'
    rcases hl with hl | hl
    · rw [hl] at hl'
      obtain ⟨h1, h2, h3⟩ := hs.alive hl'
      refine ⟨h.typed h1, ?_, ?_⟩
      · intro u v hu ha
        rw [h.obs] at hu
        rw [h.act] at ha
        rw [h.msg]; exact h2 u v hu ha
      · intro u hu
        rw [h.hid] at hu
        rw [h.mrg]; exact h3 u hu
    · rw [hl] at hl'; cases hl'

theorem Outer.fresh {s s' : State F} (h : Outer s s') (hs : Core s) (hh : ∀ p ∈ s.factors, s'.heap[p]? = s.heap[p]?)
    {r : PropResult} (hr : Fresh s r) : Fresh s' r := by
  refine ⟨h.typed hr.typed, ?_⟩
  intro u hu
  rw [h.hid] at hu
  obtain ⟨nodes, ts, tree, h1, h2, h4, h5, h6, h7⟩ := hr.done u hu
  refine ⟨nodes, ts, tree, h1, h2, ?_, ?_, ?_, h7.1, fun w hw => ?_⟩
  · refine ⟨h4.topo.congr (fun u _ v => by rw [h.act]), ?_, ?_, ?_⟩
    · intro u hu; rw [h.obs]; exact h4.hid u hu
    · intro u hu v hv; rw [h.act] at hv; exact h4.closed u hu v hv
    · intro u hu; rw [h.mrg]; exact h4.merged u hu
  · intro t ht; rw [h.msg]; exact h5 t ht
  · intro htree
    obtain ⟨rank, h8⟩ := h6 htree
    refine ⟨rank, fun t ht => ?_⟩
    obtain ⟨m, g1, g2, g3⟩ := h8 t ht
    exact ⟨m, by rw [h.msg]; exact g1, g2.heap hs h.nodes hh, g3⟩
  · refine Relation.ReflTransGen.mono ?_ _ _ (h7.2 w hw)
    intro a b hab
    rw [h.act]; exact hab

theorem Outer.faithful {s s' : State F} (h : Outer s s') (hs : Core s) (hs' : Core s') (hf : Faithful s)
    (hh : ∀ p ∈ s.factors, s'.heap[p]? = s.heap[p]?) (hl : s'.last = s.last ∨ s'.last = none) : Faithful s' := by
  refine ⟨hf.coh.keep hs hs' ?_, ?_, ?_⟩
  · intro v m ho hm
    rw [h.obs] at ho
    rw [h.mrg] at hm
    refine ⟨hm, ?_, ho, h.una v, fun w => h.dis v w, fun p hp => hh p (hs.unary v p hp).1⟩
    have hv : v ∈ AMap.keys s.nodes := by
      unfold State.mrg State.node? at hm
      cases hk : AMap.find? s.nodes v with
      | none => rw [hk] at hm; cases hm
      | some _ => exact AMap.mem_keys.mpr ⟨_, hk⟩
    rw [← hs.net.keys]; exact hv
  · intro u v c k hu hd hk
    rw [h.obs] at hu
    rw [h.dis] at hd
    rw [h.evidences] at hk
    obtain ⟨m, h1, f, h2, h3⟩ := hf.evid u v c k hu hd hk
    exact ⟨m, h1, f, by rw [hh _ (hs.link u v _ (hs.net.lnk_of_dis hd)).1]; exact h2, h3⟩
  · intro r hr
    rcases hl with hl | hl
    · rw [hl] at hr; exact h.fresh hs hh (hf.fresh r hr)
    · rw [hl] at hr; cases hr

/-- The caches which a change of a factor would make stale are empty. -/
def Loose (s : State F) (p : Nat) : Prop :=
  (∀ v, p ∈ s.una v → s.mrg v = none) ∧ ∀ u v, s.lnk u v = some p → (u ∈ s.obs ↔ v ∈ s.obs)

theorem Core.mem_of_mrg {s : State F} (hs : Core s) {v : Var} {m : Fn F} (hm : s.mrg v = some m) : v ∈ s.vars := by
  have hv : v ∈ AMap.keys s.nodes := by
    unfold State.mrg State.node? at hm
    cases hk : AMap.find? s.nodes v with
    | none => rw [hk] at hm; cases hm
    | some _ => exact AMap.mem_keys.mpr ⟨_, hk⟩
  rw [← hs.net.keys]; exact hv

/-- Factors change while nothing computed from them is cached. -/
theorem Outer.loose {s s' : State F} (h : Outer s s') (hs : Core s) (hs' : Core s') (hf : Faithful s)
    (hh : ∀ p ∈ s.factors, s'.heap[p]? = s.heap[p]? ∨ Loose s p) (hl : s'.last = none) : Faithful s' := by
  refine ⟨hf.coh.keep hs hs' ?_, ?_, ?_⟩
  · intro v m ho hm
    rw [h.obs] at ho
    rw [h.mrg] at hm
    refine ⟨hm, hs.mem_of_mrg hm, ho, h.una v, fun w => h.dis v w, fun p hp => ?_⟩
    rcases hh p (hs.unary v p hp).1 with h1 | h1
    · exact h1
    · rw [h1.1 v hp] at hm; cases hm
  · intro u v c k hu hd hk
    rw [h.obs] at hu
    rw [h.dis] at hd
    rw [h.evidences] at hk
    obtain ⟨m, h1, f, h2, h3⟩ := hf.evid u v c k hu hd hk
    have hlk := hs.net.lnk_of_dis hd
    rcases hh _ (hs.link u v _ hlk).1 with h4 | h4
    · exact ⟨m, h1, f, by rw [h4]; exact h2, h3⟩
    · exact absurd ((h4.2 u v hlk).mpr (AMap.mem_keys.mpr ⟨k, hk⟩)) hu
  · intro r hr; rw [hl] at hr; cases hr

theorem Sound.outer {b : Prop} {s s' : State F} (hs : Sound b s) (h : Outer s s') (hi : Inv s')
    (hl : s'.last = s.last ∨ s'.last = none) (hh : b → ∀ p ∈ s.factors, s'.heap[p]? = s.heap[p]?) : Sound b s' :=
  ⟨h.healthy hs.healthy hi hl, fun hb => h.faithful hs.healthy.inv.toCore hi.toCore (hs.faithful hb) (hh hb) hl⟩

theorem Sound.loose {b : Prop} {s s' : State F} (hs : Sound b s) (h : Outer s s') (hi : Inv s') (hl : s'.last = none)
    (hh : b → ∀ p ∈ s.factors, s'.heap[p]? = s.heap[p]? ∨ Loose s p) : Sound b s' :=
  ⟨h.healthy hs.healthy hi (Or.inr hl), fun hb => h.loose hs.healthy.inv.toCore hi.toCore (hs.faithful hb) (hh hb) hl⟩

theorem Sound.resetBelief {b : Prop} {s : State F} (hs : Sound b s) : Sound b s.resetBelief :=
  hs.outer ⟨rfl, rfl, rfl, rfl, rfl⟩ hs.healthy.inv.resetBelief (Or.inr rfl) (fun _ _ _ => rfl)

/-! ### Insertions -/

theorem InsertedUnary.sound {b : Prop} {s s' : State F} {v : Var} {p : Nat} (h : InsertedUnary s s' v p)
    (hs : Sound b s) : Sound b s' := by
  have ho : s'.obs = s.obs := by unfold State.obs; rw [h.kept.evidences]
  have hc := hs.healthy.inv.toCore
  refine ⟨⟨h.inv, ?_, ?_, h.kept.pool.trans hs.healthy.pool, ?_⟩, fun hb => ?_⟩
  · intro u w; rw [ho, h.act]; exact hs.healthy.sep u w
  · intro u w
    have : s'.lnk u w = s.lnk u w := by unfold State.lnk; rw [h.act, h.dis]
    rw [this]; exact hs.healthy.sizes u w
  · intro hl; rw [h.last] at hl; cases hl
  · have hf := hs.faithful hb
    refine ⟨hf.coh.keep hc h.inv.toCore ?_, ?_, ?_⟩
    · intro u m hu hm
      rw [h.mrg] at hm
      split at hm
      · cases hm
      · rename_i hne
        rw [ho] at hu
        exact ⟨hm, hc.mem_of_mrg hm, hu, by rw [h.una, if_neg hne], h.dis u, fun q _ => by rw [h.kept.heap]⟩
    · intro u w c k hu hd hk
      rw [ho] at hu
      rw [h.dis] at hd
      rw [h.kept.evidences] at hk
      obtain ⟨m, h1, f, h2, h3⟩ := hf.evid u w c k hu hd hk
      exact ⟨m, h1, f, by rw [h.kept.heap]; exact h2, h3⟩
    · intro r hr; rw [h.last] at hr; cases hr

theorem InsertedBinary.sound {b : Prop} {s s' : State F} {x y : Var} {p : Nat} (h : InsertedBinary s s' x y p)
    (hs : Sound b s) (hxy : x.size = y.size) : Sound b s' := by
  have ho : s'.obs = s.obs := by unfold State.obs; rw [h.kept.evidences]
  have hc := hs.healthy.inv.toCore
  refine ⟨⟨h.inv, ?_, ?_, h.kept.pool.trans hs.healthy.pool, ?_⟩, fun hb => ?_⟩
  · intro u w hu ha
    rw [ho] at hu ⊢
    rw [h.act] at ha
    by_cases hp : Pair x y u w
    · rw [if_pos hp] at ha
      by_cases hh : x ∉ s.obs ∧ y ∉ s.obs
      · rcases hp with ⟨rfl, rfl⟩ | ⟨rfl, rfl⟩
        · exact hh.2
        · exact hh.1
      · rw [if_neg hh] at ha; cases ha
    · rw [if_neg hp] at ha
      exact hs.healthy.sep u w hu ha
  · intro u w hl
    rw [h.lnk] at hl
    by_cases hp : Pair x y u w
    · rcases hp with ⟨rfl, rfl⟩ | ⟨rfl, rfl⟩
      · exact hxy
      · exact hxy.symm
    · rw [if_neg hp] at hl; exact hs.healthy.sizes u w hl
  · intro hl; rw [h.last] at hl; cases hl
  · have hf := hs.faithful hb
    refine ⟨hf.coh.keep hc h.inv.toCore ?_, ?_, ?_⟩
    · intro u m hu hm
      rw [ho] at hu
      rw [h.mrg] at hm
      split at hm
      · cases hm
      · rename_i hne
        refine ⟨hm, hc.mem_of_mrg hm, hu, h.una u, fun w => ?_, fun q _ => by rw [h.kept.heap]⟩
        by_cases hp : Pair x y u w
        · have hh : x ∉ s.obs ∧ y ∉ s.obs := by
            rcases hp with ⟨rfl, rfl⟩ | ⟨rfl, rfl⟩
            · exact ⟨hu, fun hy => hne (Or.inl ⟨rfl, hu, hy⟩)⟩
            · exact ⟨fun hx => hne (Or.inr ⟨rfl, hu, hx⟩), hu⟩
          have ha := h.act u w
          rw [if_pos hp, if_pos hh] at ha
          have h1 : s'.dis u w = none := h.inv.net.excl u w (by rw [ha]; rfl)
          have h2 : s.dis u w = none := by
            cases hd : s.dis u w with
            | none => rfl
            | some c =>
              have hlk := hc.net.lnk_of_dis hd
              have hfree := h.free
              rcases hp with ⟨rfl, rfl⟩ | ⟨rfl, rfl⟩
              · rw [hfree] at hlk; cases hlk
              · rw [hc.net.symL, hfree] at hlk; cases hlk
          rw [h1, h2]
        · exact h.dis u w hp
    · intro u w c k hu hd hk
      rw [ho] at hu
      rw [h.kept.evidences] at hk
      by_cases hp : Pair x y u w
      · obtain ⟨c', m, k', h1, h2, h3, _, h5, f, h6, h7⟩ := h.cond u w hp hu (AMap.mem_keys.mpr ⟨k, hk⟩)
        rw [hd] at h1
        cases h1
        rw [hk] at h5
        cases h5
        exact ⟨m, h3, f, by rw [h.kept.heap, h2]; exact h6, h7⟩
      · rw [h.dis u w hp] at hd
        obtain ⟨m, h1, f, h2, h3⟩ := hf.evid u w c k hu hd hk
        exact ⟨m, h1, f, by rw [h.kept.heap]; exact h2, h3⟩
    · intro r hr; rw [h.last] at hr; cases hr

theorem Inserted.sound {b : Prop} {s s' : State F} {p : Nat} {f : Fn F} (h : Inserted s s' p f) (hs : Sound b s)
    (hsq : ∀ u ∈ f.vars.group, ∀ v ∈ f.vars.group, u.size = v.size) : Sound b s' := by
  cases h with
  | unary _ h => exact h.sound hs
  | binary hg h => exact h.sound hs (hsq _ (by rw [hg]; simp) _ (by rw [hg]; simp))

theorem Sound.addVar {b : Prop} {s : State F} (hs : Sound b s) (hl : s.last = none) {a : Var}
    (hi : Inv (addVar a s)) : Sound b (addVar a s) := by
  have hc := hs.healthy.inv.toCore
  refine ⟨⟨hi, ?_, ?_, hs.healthy.pool, ?_⟩, fun hb => ?_⟩
  · intro u w hu ha; rw [act_addVar] at ha; exact hs.healthy.sep u w hu ha
  · intro u w; rw [lnk_addVar]; exact hs.healthy.sizes u w
  · intro h
    have h' : s.last.isSome = true := h
    rw [hl] at h'; cases h'
  · have hf := hs.faithful hb
    refine ⟨hf.coh.keep hc hi.toCore ?_, ?_, ?_⟩
    · intro u m hu hm
      rw [mrg_addVar] at hm
      exact ⟨hm, hc.mem_of_mrg hm, hu, una_addVar s a u, dis_addVar s a u, fun _ _ => rfl⟩
    · intro u w c k hu hd hk
      rw [dis_addVar] at hd
      exact hf.evid u w c k hu hd hk
    · intro r hr
      have hr' : s.last = some r := hr
      rw [hl] at hr'; cases hr'

/-- The invariant after an operation. -/
def KeepsAt {α : Type} (b : Prop) (x : M (State F) α) (s : State F) : Prop :=
  match x s with
    | .ok s' _ => Sound b s'
    | .throw s' => Sound b s'
    | .ub => True

theorem addDistribution_sound {b : Prop} {s : State F} (hs : Sound b s) (ptr : Option Nat)
    (hsq : ∀ p f, ptr = some p → s.heap[p]? = some f → ∀ u ∈ f.vars.group, ∀ v ∈ f.vars.group, u.size = v.size) :
    KeepsAt b (addDistribution (F := F) ptr) s := by
  unfold KeepsAt
  cases ptr with
  | none => exact hs
  | some p =>
    cases hp : s.heap[p]? with
    | none =>
      unfold addDistribution
      simp only
      by_cases h : s.factors.contains p = true
      · rw [if_pos h]; exact hs
      · rw [if_neg h]
        have : s.deref p = .ub := by
          unfold deref Heap.get
          rw [hp]; rfl
        rw [this]; trivial
    | some f =>
      rcases addDistribution_cases hs.healthy.inv hp with ⟨s', h1, h2, _⟩ | ⟨s', h1, _, h2, h3⟩
      · rw [h1]; exact h2.sound hs (hsq p f rfl hp)
      · rw [h1]
        rcases h3 with rfl | rfl | ⟨a, _, _, _, rfl⟩
        · exact hs
        · exact hs.resetBelief
        · exact hs.resetBelief.addVar rfl h2

theorem addConst_sound {b : Prop} {s : State F} (hs : Sound b s) (ptr : Option Nat)
    (hsq : ∀ p f, ptr = some p → s.heap[p]? = some f → ∀ u ∈ f.vars.group, ∀ v ∈ f.vars.group, u.size = v.size) :
    KeepsAt b (addConstFactor (F := F) ptr) s := by
  have h := addDistribution_sound hs ptr hsq
  unfold KeepsAt at h ⊢
  unfold addConstFactor
  cases hx : addDistribution ptr s with
  | ok s' a =>
    rw [hx] at h
    exact h.outer ⟨rfl, rfl, rfl, rfl, rfl⟩ (h.healthy.inv.registry _ _ _) (Or.inl rfl) (fun _ _ _ => rfl)
  | throw s' => rw [hx] at h; exact h
  | ub => trivial

theorem getElem?_alloc {s : State F} {f g : Fn F} {p : Nat} (h : s.heap[p]? = some f) :
    (s.alloc g).1.heap[p]? = some f := by
  show (s.heap ++ [g])[p]? = _
  rw [List.getElem?_append_left (List.getElem?_eq_some_iff.mp h).1, h]

theorem getElem?_alloc_new {s : State F} {g : Fn F} : (s.alloc g).1.heap[s.heap.length]? = some g := by
  show (s.heap ++ [g])[s.heap.length]? = _
  simp

theorem Sound.create {b : Prop} {s : State F} (hs : Sound b s) {f : Fn F} (hf : f.WF) : Sound b (s.alloc f).1 := by
  refine hs.outer ⟨rfl, rfl, rfl, rfl, rfl⟩ (hs.healthy.inv.create hf) (Or.inl rfl) (fun _ p hp => ?_)
  obtain ⟨g, h1, _⟩ := hs.healthy.inv.reg p hp
  rw [getElem?_alloc h1, h1]

theorem copyConst_sound {b : Prop} {s : State F} (hs : Sound b s) (p : Nat)
    (hsq : ∀ f, s.heap[p]? = some f → ∀ u ∈ f.vars.group, ∀ v ∈ f.vars.group, u.size = v.size) :
    KeepsAt b (copyConstFactor (F := F) p) s := by
  unfold KeepsAt copyConstFactor
  cases hd : s.deref p with
  | ok f =>
    simp only
    have hp := deref_ok hd
    have hf : f.WF := hs.healthy.inv.heapWF f (List.mem_of_getElem? hp)
    obtain ⟨g, hg, hgw, hv, _⟩ := hf.cloneTransformed
    rw [hg]
    refine addConst_sound (hs.create hgw) _ ?_
    intro q f' hq hf'
    cases hq
    have : (s.alloc g).1.heap[(s.alloc g).2]? = some g := getElem?_alloc_new
    rw [this] at hf'
    cases hf'
    rw [hv]; exact hsq f hp
  | throw => exact hs
  | ub => trivial

theorem foldl_heapSetWeight_other (w : F) {q : Nat} : ∀ (ps : List Nat) (h : Heap F), q ∉ ps →
    (ps.foldl (heapSetWeight w) h)[q]? = h[q]? := by
  intro ps
  induction ps with
  | nil => intro h _; rfl
  | cons p ps ih =>
    intro h hq
    simp only [List.mem_cons, not_or] at hq
    rw [List.foldl_cons, ih _ hq.2, getElem?_heapSetWeight, if_neg (Ne.symm hq.1)]

theorem setTunersWeights_other {q : Nat} : ∀ (l : List (List BaseTuner × F)) (s : State F),
    (∀ e ∈ l, q ∉ e.1.map BaseTuner.factor) → (setTunersWeights l s).heap[q]? = s.heap[q]? := by
  intro l
  induction l with
  | nil => intro s _; rfl
  | cons e l ih =>
    intro s hq
    obtain ⟨t, w⟩ := e
    rw [setTunersWeights, ih _ (fun e he => hq e (by simp [he]))]
    exact foldl_heapSetWeight_other w _ _ (hq (t, w) (by simp))

theorem Uncached.loose {s : State F} (hs : Core s) {p : Nat} (h : s.Uncached p) : Loose s p := by
  constructor
  · intro v hv
    obtain ⟨_, _, f, h1, h2⟩ := hs.unary v p hv
    unfold State.mrg
    cases hn : s.node? v with
    | none => rfl
    | some n => exact (h f h1).1 v n h2.vars hn
  · intro u v hl
    obtain ⟨hp, f, h1, h2⟩ := hs.link u v p hl
    rcases h2.vars with h3 | h3
    · have := (h f h1).2 u v h3
      rw [observes_iff, observes_iff] at this; exact this
    · have := (h f h1).2 v u h3
      rw [observes_iff, observes_iff] at this; exact this.symm

theorem Inserted.last {s s' : State F} {p : Nat} {f : Fn F} (h : Inserted s s' p f) : s'.last = none := by
  cases h with
  | unary _ h => exact h.last
  | binary _ h => exact h.last

theorem Inserted.kept {s s' : State F} {p : Nat} {f : Fn F} (h : Inserted s s' p f) : Kept s s' := by
  cases h with
  | unary _ h => exact h.kept
  | binary _ h => exact h.kept

/-- Nothing computed from a factor is cached after the insertion of another one. -/
theorem Inserted.loose {s s' : State F} {p q : Nat} {f : Fn F} (h : Inserted s s' p f) (hl : Loose s q) (hne : q ≠ p) :
    Loose s' q := by
  cases h with
  | @unary x hg h =>
    have ho : s'.obs = s.obs := by unfold State.obs; rw [h.kept.evidences]
    constructor
    · intro v hv
      rw [h.mrg]
      by_cases hvv : v = x
      · rw [if_pos hvv]
      · rw [if_neg hvv]
        rw [h.una, if_neg hvv] at hv
        exact hl.1 v hv
    · intro u v hlk
      have : s'.lnk u v = s.lnk u v := by unfold State.lnk; rw [h.act, h.dis]
      rw [ho]; rw [this] at hlk; exact hl.2 u v hlk
  | binary hg h =>
    have ho : s'.obs = s.obs := by unfold State.obs; rw [h.kept.evidences]
    constructor
    · intro v hv
      rw [h.una] at hv
      have := hl.1 v hv
      rw [h.mrg]
      split
      · rfl
      · exact this
    · intro u v hlk
      rw [h.lnk] at hlk
      split at hlk
      · cases hlk; exact absurd rfl hne
      · rw [ho]; exact hl.2 u v hlk

/-- Nothing computed from a factor just inserted is cached, unless one of its variables is observed. -/
theorem Inserted.looseNew {s s' : State F} {p : Nat} {f : Fn F} (h : Inserted s s' p f) (hs : Core s) (hp : p ∉ s.factors)
    (hobs : ∀ u v, f.vars.group = [u, v] → (u ∈ s.obs ↔ v ∈ s.obs)) : Loose s' p := by
  cases h with
  | @unary x hg h =>
    have ho : s'.obs = s.obs := by unfold State.obs; rw [h.kept.evidences]
    constructor
    · intro v hv
      rw [h.mrg]
      by_cases hvv : v = x
      · rw [if_pos hvv]
      · rw [h.una, if_neg hvv] at hv
        exact absurd (hs.unary v p hv).1 hp
    · intro u v hlk
      have : s'.lnk u v = s.lnk u v := by unfold State.lnk; rw [h.act, h.dis]
      rw [this] at hlk; exact absurd (hs.link u v p hlk).1 hp
  | binary hg h =>
    have ho : s'.obs = s.obs := by unfold State.obs; rw [h.kept.evidences]
    constructor
    · intro v hv
      rw [h.una] at hv
      exact absurd (hs.unary v p hv).1 hp
    · intro u v hlk
      rw [h.lnk] at hlk
      split at hlk
      · rename_i hpair
        rw [ho]
        rcases hpair with ⟨rfl, rfl⟩ | ⟨rfl, rfl⟩
        · exact hobs _ _ hg
        · exact (hobs _ _ hg).symm
      · exact absurd (hs.link u v p hlk).1 hp

theorem addTunable_sound {b : Prop} {s : State F} (hs : Sound b s) (ptr : Option Nat) (share : Option VarSet)
    (hsq : ∀ p f, ptr = some p → s.heap[p]? = some f → ∀ u ∈ f.vars.group, ∀ v ∈ f.vars.group, u.size = v.size)
    (hw : b → share.isSome → ∀ t ∈ s.tuners, ∀ e ∈ t, Loose s e.factor)
    (ho : b → share.isSome → ∀ p f u v, ptr = some p → s.heap[p]? = some f → f.vars.group = [u, v] →
      (u ∈ s.obs ↔ v ∈ s.obs)) :
    KeepsAt b (addTunable (F := F) ptr share) s := by
  have h := addDistribution_sound hs ptr hsq
  unfold KeepsAt at h ⊢
  unfold addTunable
  cases hx : addDistribution ptr s with
  | ok s1 a =>
    rw [hx] at h
    simp only
    cases ptr with
    | none => trivial
    | some p =>
      simp only
      cases hd : s1.deref p with
      | ok f =>
        simp only
        have hmk : ∀ r, s1.makeTuner p f = .ok r → r.factor = p := by
          intro r hr
          unfold makeTuner at hr
          split at hr
          · split at hr
            · cases hr
            · split at hr
              · cases hr; rfl
              · cases hr
              · cases hr
          · split at hr
            · split at hr
              · split at hr
                · cases hr
                · split at hr
                  · cases hr
                  · cases hr; rfl
              · cases hr
              · cases hr
            · cases hr
          · cases hr
        cases hmt : s1.makeTuner p f with
        | ok r =>
          simp only
          have h2 : Sound b { s1 with tunables := s1.tunables ++ [p] } :=
            h.outer ⟨rfl, rfl, rfl, rfl, rfl⟩ (h.healthy.inv.registry s1.consts _ s1.tuners) (Or.inl rfl)
              (fun _ _ _ => rfl)
          cases share with
          | none =>
            exact h.outer ⟨rfl, rfl, rfl, rfl, rfl⟩
              (h.healthy.inv.registry s1.consts (s1.tunables ++ [p]) (s1.tuners ++ [[r]])) (Or.inl rfl)
              (fun _ _ _ => rfl)
          | some g =>
            simp only
            cases State.findTuner { s1 with tunables := s1.tunables ++ [p] } g with
            | none => exact h2
            | some i =>
              have h3 := shareTuner_preserves i r _ h2.healthy.inv
              unfold shareTuner at h3 ⊢
              cases ht : s1.tuners[i]? with
              | none => simp only [ht]
              | some t =>
                simp only [ht] at h3 ⊢
                cases hwt : tunerWeight { s1 with tunables := s1.tunables ++ [p] } t with
                | ok w =>
                  simp only [hwt] at h3 ⊢
                  have hpf : ∃ f0, s.heap[p]? = some f0 := by
                    cases hp0 : s.heap[p]? with
                    | some f0 => exact ⟨f0, rfl⟩
                    | none =>
                      exfalso
                      unfold addDistribution at hx
                      simp only at hx
                      by_cases hq : s.factors.contains p = true
                      · rw [if_pos hq] at hx; cases hx
                      · rw [if_neg hq] at hx
                        have : s.deref p = .ub := by
                          unfold deref Heap.get
                          rw [hp0]; rfl
                        rw [this] at hx; cases hx
                  obtain ⟨f0, hf0⟩ := hpf
                  rcases addDistribution_cases hs.healthy.inv hf0 with ⟨s', g1, g2, g3⟩ | ⟨s', g1, _⟩
                  · rw [hx] at g1
                    cases g1
                    have hpn : p ∉ s.factors := fun hp => g3 (.known hp)
                    refine h.loose (s' := setTunerWeight (t ++ [r]) w _) ⟨rfl, rfl, rfl, rfl, rfl⟩ h3 g2.last
                      (fun hb q hq => ?_)
                    by_cases hqt : q ∈ (t ++ [r]).map BaseTuner.factor
                    · right
                      by_cases hqp : q = p
                      · subst hqp
                        exact g2.looseNew hs.healthy.inv.toCore hpn (fun u v hg => ho hb rfl q f0 u v rfl hf0 hg)
                      · refine g2.loose ?_ hqp
                        rw [List.map_append, List.mem_append] at hqt
                        rcases hqt with h5 | h5
                        · obtain ⟨e, h6, rfl⟩ := List.mem_map.mp h5
                          refine hw hb rfl t ?_ e h6
                          rw [← g2.kept.tuners]
                          exact List.mem_of_getElem? ht
                        · simp only [List.map_cons, List.map_nil, List.mem_singleton] at h5
                          rw [hmk r hmt] at h5
                          exact absurd h5 hqp
                    · left
                      exact foldl_heapSetWeight_other w _ _ hqt
                  · rw [hx] at g1; cases g1
                | throw => exact h2
                | ub => trivial
        | throw => exact h
        | ub => trivial
      | throw => exact h
      | ub => trivial
  | throw s1 => rw [hx] at h; exact h
  | ub => trivial

theorem Loose.alloc {s : State F} {p : Nat} (h : Loose s p) (g : Fn F) : Loose (s.alloc g).1 p := h

theorem copyTunable_sound {b : Prop} {s : State F} (hs : Sound b s) (p : Nat) (share : Option VarSet)
    (hsq : ∀ f, s.heap[p]? = some f → ∀ u ∈ f.vars.group, ∀ v ∈ f.vars.group, u.size = v.size)
    (hw : b → share.isSome → ∀ t ∈ s.tuners, ∀ e ∈ t, Loose s e.factor)
    (ho : b → share.isSome → ∀ f u v, s.heap[p]? = some f → f.vars.group = [u, v] → (u ∈ s.obs ↔ v ∈ s.obs)) :
    KeepsAt b (copyTunable (F := F) p share) s := by
  unfold KeepsAt copyTunable
  cases hd : s.deref p with
  | ok f =>
    simp only
    have hp := deref_ok hd
    have hf : f.WF := hs.healthy.inv.heapWF f (List.mem_of_getElem? hp)
    unfold Fn.copyExponential
    cases f.weight with
    | none => trivial
    | some w =>
      simp only
      obtain ⟨g, hg, hgw, hv, _⟩ := hf.exponential w
      rw [hg]
      have hnew : (s.alloc g).1.heap[s.heap.length]? = some g := getElem?_alloc_new
      refine addTunable_sound (hs.create hgw) _ _ ?_ (fun hb h t ht e he => hw hb h t ht e he) ?_
      · intro q f' hq hf'
        cases hq
        rw [hnew] at hf'
        cases hf'
        rw [hv]; exact hsq f hp
      · intro hb h q f' u v hq hf' hgr
        cases hq
        rw [hnew] at hf'
        cases hf'
        rw [hv] at hgr
        exact ho hb h f u v hp hgr
  | throw => exact hs
  | ub => trivial

theorem setWeights_sound {b : Prop} {s : State F} (hs : Sound b s) (ws : List F)
    (hw : b → ∀ t ∈ s.tuners, ∀ e ∈ t, Loose s e.factor) : KeepsAt b (setWeights ws) s := by
  have h0 := setWeights_preserves ws s hs.healthy.inv
  unfold KeepsAt
  unfold setWeights at h0 ⊢
  by_cases h : ws.length ≠ s.tuners.length
  · rw [if_pos h]; exact hs
  · rw [if_neg h] at h0 ⊢
    simp only at h0 ⊢
    obtain ⟨hp, h1, h2⟩ := setTunersWeights_eq (s.tuners.zip ws) s
    have hother := fun q => setTunersWeights_other (q := q) (s.tuners.zip ws) s
    rw [h1] at hother h0 ⊢
    refine hs.loose (s' := State.resetBelief { s with heap := hp }) ⟨rfl, rfl, rfl, rfl, rfl⟩ h0 rfl (fun hb q hq => ?_)
    by_cases hqt : ∀ e ∈ s.tuners.zip ws, q ∉ e.1.map BaseTuner.factor
    · exact Or.inl (hother q hqt)
    · right
      push Not at hqt
      obtain ⟨e, he, h3⟩ := hqt
      obtain ⟨t, h4, rfl⟩ := List.mem_map.mp h3
      exact hw hb e.1 (List.of_mem_zip he).1 t h4

/-! ### Evidences -/

theorem Observed.sound {b : Prop} {s s' : State F} {v : Var} {k : Nat} (h : Observed s s' v k) (hs : Sound b s)
    (hi : Inv s') (hv : v ∉ s.obs) : Sound b s' := by
  have hobs : ∀ w, w ∈ s'.obs ↔ w ∈ s.obs ∨ w = v := by
    intro w
    show w ∈ AMap.keys s'.evidences ↔ _
    rw [h.evidences, obs_append]; simp
  have hc := hs.healthy.inv.toCore
  refine ⟨⟨hi, ?_, ?_, h.pool.trans hs.healthy.pool, ?_⟩, fun hb => ?_⟩
  · intro u w hu ha
    rw [h.act] at ha
    by_cases hvv : u = v ∨ w = v
    · rw [if_pos hvv] at ha; cases ha
    · rw [if_neg hvv] at ha
      rw [hobs] at hu ⊢
      push Not at hvv hu ⊢
      exact ⟨hs.healthy.sep u w hu.1 ha, hvv.2⟩
  · intro u w; rw [h.lnk]; exact hs.healthy.sizes u w
  · intro hl; rw [h.last] at hl; cases hl
  · have hf := hs.faithful hb
    refine ⟨hf.coh.keep hc hi.toCore ?_, ?_, ?_⟩
    · intro u m hu hm
      rw [hobs] at hu
      push Not at hu
      rw [h.mrg] at hm
      split at hm
      · cases hm
      · rename_i hno
        have hn : s.lnk u v = none := by simpa using hno
        refine ⟨hm, hc.mem_of_mrg hm, hu.1, h.frame.una u, fun w => ?_, fun _ _ => by rw [h.frame.heap]⟩
        by_cases hw : w = v
        · subst hw
          have h1 : s.dis u w = none := by
            cases hd : s.dis u w with
            | none => rfl
            | some c => rw [hc.net.lnk_of_dis hd] at hn; cases hn
          have h2 : s'.dis u w = none := by
            cases hd : s'.dis u w with
            | none => rfl
            | some c => rw [← h.lnk, h.net.lnk_of_dis hd] at hn; cases hn
          rw [h1, h2]
        · exact h.dis u w hu.2 hw
    · intro u w c k' hu hd hk
      rw [hobs] at hu
      push Not at hu
      rw [h.evidences, AMap.find?_append] at hk
      by_cases hw : w = v
      · subst hw
        have hnone : AMap.find? s.evidences w = none := AMap.find?_eq_none.mpr hv
        rw [hnone] at hk
        simp [AMap.find?_cons] at hk
        subst hk
        have hlk := h.net.lnk_of_dis hd
        rw [h.lnk] at hlk
        obtain ⟨c', m, h1, h2, h3, _, f, h5, h6⟩ := h.cond u _ hlk
        rw [hd] at h1
        cases h1
        exact ⟨m, h3, f, by rw [h.frame.heap]; exact h5, h6⟩
      · rw [h.dis u w hu.2 hw] at hd
        have hk' : AMap.find? s.evidences w = some k' := by
          cases hx : AMap.find? s.evidences w with
          | some x => rw [hx] at hk; simpa using hk
          | none => rw [hx] at hk; simp [AMap.find?_cons, Ne.symm hw] at hk
        obtain ⟨m, h1, f, h2, h3⟩ := hf.evid u w c k' hu.1 hd hk'
        exact ⟨m, h1, f, by rw [h.frame.heap]; exact h2, h3⟩
    · intro r hr; rw [h.last] at hr; cases hr

theorem Reobserved.sound {b : Prop} {s s' : State F} {v : Var} {k : Nat} (h : Reobserved s s' v k) (hs : Sound b s)
    (hi : Inv s') : Sound b s' := by
  have ho : s'.obs = s.obs := by
    show AMap.keys s'.evidences = _
    rw [h.evidences, AMap.keys_modify]; rfl
  have hc := hs.healthy.inv.toCore
  refine ⟨⟨hi, ?_, ?_, h.pool.trans hs.healthy.pool, ?_⟩, fun hb => ?_⟩
  · intro u w; rw [ho, h.act]; exact hs.healthy.sep u w
  · intro u w; rw [h.lnk]; exact hs.healthy.sizes u w
  · intro hl; rw [h.last] at hl; cases hl
  · have hf := hs.faithful hb
    refine ⟨hf.coh.keep hc hi.toCore ?_, ?_, ?_⟩
    · intro u m hu hm
      rw [ho] at hu
      rw [h.mrg] at hm
      split at hm
      · cases hm
      · rename_i hno
        refine ⟨hm, hc.mem_of_mrg hm, hu, h.frame.una u, fun w => ?_, fun _ _ => by rw [h.frame.heap]⟩
        by_cases hw : w = v
        · subst hw
          have h1 := h.disS u w
          have h2 : s.dis u w = none := by simpa using hno
          rw [h2] at h1 ⊢
          simpa using h1
        · exact h.dis u w hw
    · intro u w c k' hu hd hk
      rw [ho] at hu
      rw [h.evidences, AMap.find?_modify] at hk
      by_cases hw : w = v
      · subst hw
        rw [if_pos rfl] at hk
        have h0 := h.disS u w
        rw [hd] at h0
        obtain ⟨c0, hc0⟩ := Option.isSome_iff_exists.mp h0.symm
        obtain ⟨c', m, h1, h2, h3, _, f, h5, h6⟩ := h.cond u c0 hc0
        rw [hd] at h1
        cases h1
        have hkk : k' = k := by
          cases hx : AMap.find? s.evidences w with
          | none => rw [hx] at hk; cases hk
          | some x => rw [hx] at hk; simpa using hk.symm
        subst hkk
        exact ⟨m, h3, f, by rw [h.frame.heap, h2]; exact h5, h6⟩
      · rw [h.dis u w hw] at hd
        rw [if_neg (Ne.symm hw)] at hk
        obtain ⟨m, h1, f, h2, h3⟩ := hf.evid u w c k' hu hd hk
        exact ⟨m, h1, f, by rw [h.frame.heap]; exact h2, h3⟩
    · intro r hr; rw [h.last] at hr; cases hr

theorem setEvidence_sound {b : Prop} {ord : List Var → List Var} (hord : ∀ l, (ord l).Perm l) (v : Var) (k : Nat)
    {s : State F} (hs : Sound b s) : KeepsAt b (setEvidence (F := F) ord v k) s := by
  unfold KeepsAt
  by_cases hk : v.size ≤ k
  · unfold setEvidence; rw [if_pos hk]; exact hs
  · cases hl : s.locate v with
    | none => unfold setEvidence; rw [if_neg hk, hl]; exact hs
    | some e =>
      have hi := hs.healthy.inv
      obtain ⟨h1, h2⟩ := hi.net.locate_some hl
      rw [setEvidence_eqv (w := e.1) (by rw [Var.eqv_comm]; exact h2)]
      have hk' : k < e.1.size := by rw [(Var.eqv_iff.mp h2).2]; omega
      by_cases ho : e.1 ∈ s.obs
      · obtain ⟨s', h3, h4⟩ := setEvidence_observed hord hi.toCore ho hk'
        rw [h3]; exact h4.sound hs (h4.inv hi hk')
      · obtain ⟨s', h3, h4⟩ := setEvidence_hidden hord hi h1 ho hk'
        rw [h3]; exact h4.sound hs (h4.inv hi h1 ho hk') ho

/-- Several evidences are removed. -/
structure Shed (s s' : State F) (R : Var → Prop) : Prop where
  core : Core s'
  frame : Frame s s'
  pool : s'.pool = s.pool
  last : s' = s ∨ s'.last = none
  lnk : ∀ u w, s'.lnk u w = s.lnk u w
  obs : ∀ w, w ∈ s'.obs ↔ w ∈ s.obs ∧ ¬ R w
  act : ∀ u w, (s'.act u w).isSome → (s.act u w).isSome ∨ R u ∨ R w
  coh : Coherent s → Coherent s'
  evid : (∀ u v c k, u ∉ s.obs → s.dis u v = some c → AMap.find? s.evidences v = some k →
      ∃ m, c.message = some m ∧ IsEvid s c.factor v k m) →
    ∀ u v c k, u ∉ s'.obs → s'.dis u v = some c → AMap.find? s'.evidences v = some k →
      ∃ m, c.message = some m ∧ IsEvid s' c.factor v k m

theorem Shed.rfl' {s : State F} (hs : Core s) {R : Var → Prop} (hR : ∀ w ∈ s.obs, ¬ R w) : Shed s s R :=
  ⟨hs, Frame.rfl' s, rfl, Or.inl rfl, fun _ _ => rfl, fun w => ⟨fun h => ⟨h, hR w h⟩, fun h => h.1⟩,
    fun _ _ h => Or.inl h, id, id⟩

theorem Released.shed {s s' : State F} {v : Var} (h : Released s s' v) (hs : Core s) : Shed s s' (fun w => w = v) := by
  refine ⟨h.core hs, h.frame, h.pool, Or.inr h.last, h.lnk, h.obs, ?_, ?_, ?_⟩
  · intro u w ha
    rw [h.act] at ha
    split at ha
    · rename_i hc
      exact Or.inr hc.1
    · exact Or.inl ha
  · intro hc
    refine hc.keep hs (h.core hs) ?_
    intro u m hu hm
    rw [h.mrg] at hm
    split at hm
    · cases hm
    · rename_i hno
      push Not at hno
      rw [h.obs] at hu
      refine ⟨hm, hs.mem_of_mrg hm, fun h1 => hu ⟨h1, hno.1⟩, h.frame.una u, fun w => ?_, fun _ _ => by rw [h.frame.heap]⟩
      rw [h.dis]
      split
      · rename_i hc
        rcases hc with hc | hc
        · exact absurd hc hno.1
        · subst hc
          have : s.dis u w = none := by simpa using hno.2
          exact this.symm
      · rfl
  · intro he u w c k hu hd hk
    rw [h.dis] at hd
    split at hd
    · cases hd
    · rename_i hne
      push Not at hne
      rw [h.obs] at hu
      rw [h.evidences, AMap.find?_erase, if_neg (Ne.symm hne.2)] at hk
      obtain ⟨m, h1, f, h2, h3⟩ := he u w c k (fun h1 => hu ⟨h1, hne.1⟩) hd hk
      exact ⟨m, h1, f, by rw [h.frame.heap]; exact h2, h3⟩

theorem Shed.trans {s s' s'' : State F} {R R' : Var → Prop} (h : Shed s s' R) (h' : Shed s' s'' R') :
    Shed s s'' (fun w => R w ∨ R' w) where
  core := h'.core
  frame := h.frame.trans h'.frame
  pool := h'.pool.trans h.pool
  last := by
    rcases h'.last with rfl | hl
    · exact h.last
    · exact Or.inr hl
  lnk u w := (h'.lnk u w).trans (h.lnk u w)
  obs w := by rw [h'.obs, h.obs]; tauto
  act u w ha := by
    rcases h'.act u w ha with h1 | h1 | h1
    · rcases h.act u w h1 with h2 | h2 | h2
      · exact Or.inl h2
      · exact Or.inr (Or.inl (Or.inl h2))
      · exact Or.inr (Or.inr (Or.inl h2))
    · exact Or.inr (Or.inl (Or.inr h1))
    · exact Or.inr (Or.inr (Or.inr h1))
  coh hc := h'.coh (h.coh hc)
  evid he := h'.evid (h.evid he)

theorem Shed.congr {s s' : State F} {R R' : Var → Prop} (h : Shed s s' R) (hR : ∀ w, R w ↔ R' w) : Shed s s' R' := by
  have : R = R' := funext fun w => propext (hR w)
  exact this ▸ h

theorem Shed.sound {b : Prop} {ord : List Var → List Var} (hord : ∀ l, (ord l).Perm l) {s s' : State F}
    {R : Var → Prop} (h : Shed s s' R) (hs : Sound b s)
    (hR : ∀ u w, R u → w ∈ s.obs → (s.lnk u w).isSome → R w) : Sound b (resetState ord s') := by
  have hi : Inv (resetState ord s') := resetState_inv hord h.core
  rcases h.last with rfl | hl
  · exact hs.outer ⟨rfl, rfl, rfl, rfl, rfl⟩ hi (Or.inl rfl) (fun _ _ _ => rfl)
  · have hmid : Sound b s' → Sound b (resetState ord s') := fun hs' =>
      hs'.outer ⟨rfl, rfl, rfl, rfl, rfl⟩ hi (Or.inl rfl) (fun _ _ _ => rfl)
    refine ⟨⟨hi, ?_, ?_, h.pool.trans hs.healthy.pool, ?_⟩, fun hb => ?_⟩
    · intro u w hu ha hw
      have hu' : u ∉ s'.obs := hu
      have ha' : (s'.act u w).isSome := ha
      have hw' : w ∈ s'.obs := hw
      rw [h.obs] at hw' hu'
      have hlk : (s.lnk u w).isSome := by
        obtain ⟨c, hc⟩ := Option.isSome_iff_exists.mp ha'
        rw [← h.lnk, lnk_of_act hc]; rfl
      by_cases hRu : R u
      · exact hw'.2 (hR u w hRu hw'.1 hlk)
      · rcases h.act u w ha' with h1 | h1 | h1
        · exact hs.healthy.sep u w (fun h2 => hu' ⟨h2, hRu⟩) h1 hw'.1
        · exact hRu h1
        · exact hw'.2 h1
    · intro u w hlk
      have : (s'.lnk u w).isSome := hlk
      rw [h.lnk] at this; exact hs.healthy.sizes u w this
    · intro hl'
      have : s'.last.isSome := hl'
      rw [hl] at this; cases this
    · have hf := hs.faithful hb
      refine Outer.faithful (s := s') ⟨rfl, rfl, rfl, rfl, rfl⟩ h.core hi.toCore ⟨h.coh hf.coh, h.evid hf.evid, ?_⟩
        (fun _ _ => rfl) (Or.inr hl)
      intro r hr; rw [hl] at hr; cases hr

/-- The removals which succeed. -/
theorem forEach_shed {ord : List Var → List Var} (hord : ∀ l, (ord l).Perm l) (vs : List Var) {s s' : State F}
    (hs : Core s) (h : forEach (removeEvidence_ ord) vs s = .ok s' ()) :
    Shed s s' (fun w => w ∈ s.obs ∧ ∃ v ∈ vs, w.eqv v = true) := by
  induction vs generalizing s with
  | nil => cases h; exact Shed.rfl' hs (by simp)
  | cons v vs ih =>
    rw [forEach_cons] at h
    rcases removeOne_cases hord hs v with ⟨x, s1, hx, hxv, h1, h2⟩ | ⟨h1, _⟩
    · rw [h1] at h
      simp only at h
      have h3 := h2.shed hs
      refine (h3.trans (ih h3.core h)).congr (fun w => ?_)
      rw [h3.obs]
      constructor
      · rintro (rfl | ⟨⟨h4, _⟩, u, h5, h6⟩)
        · exact ⟨hx, v, by simp, hxv⟩
        · exact ⟨h4, u, by simp [h5], h6⟩
      · rintro ⟨h4, u, h5, h6⟩
        by_cases hwx : w = x
        · exact Or.inl hwx
        · right
          refine ⟨⟨h4, hwx⟩, ?_⟩
          simp only [List.mem_cons] at h5
          rcases h5 with rfl | h5
          · exfalso
            apply hwx
            obtain ⟨a1, a2⟩ := Var.eqv_iff.mp h6
            obtain ⟨b1, b2⟩ := Var.eqv_iff.mp hxv
            exact Distinct.eqv_eq hs.net.distinct (hs.obsMem w h4) (hs.obsMem x hx)
              (Var.eqv_iff.mpr ⟨a1.trans b1.symm, a2.trans b2.symm⟩)
          · exact ⟨u, h5, h6⟩
    · rw [h1] at h; cases h

theorem removeEvidences_sound {b : Prop} {ord : List Var → List Var} (hord : ∀ l, (ord l).Perm l) (vs : VarSet)
    {s s' : State F} (hs : Sound b s)
    (hR : ∀ u w, (∃ v ∈ vs, u.eqv v = true) → u ∈ s.obs → w ∈ s.obs → (s.lnk u w).isSome → ∃ v ∈ vs, w.eqv v = true)
    (h : removeEvidences ord vs s = .ok s' ()) : Sound b s' := by
  unfold removeEvidences at h
  by_cases he : vs.isEmpty = true
  · rw [if_pos he] at h; cases h; exact hs
  · rw [if_neg he] at h
    cases hx : forEach (removeEvidence_ ord) (ord vs) s with
    | ok s1 _ =>
      rw [hx] at h
      cases h
      have h1 := (forEach_shed hord (ord vs) hs.healthy.inv.toCore hx).congr (fun w => by
        rw [show (∃ v ∈ ord vs, w.eqv v = true) ↔ ∃ v ∈ vs, w.eqv v = true from
          exists_congr (fun v => by rw [(hord vs).mem_iff])])
      exact h1.sound hord hs (fun u w hu hw hl => ⟨hw, hR u w hu.2 hu.1 hw hl⟩)
    | throw s1 => rw [hx] at h; cases h
    | ub => rw [hx] at h; cases h

theorem removeAllEvidences_sound {b : Prop} {ord : List Var → List Var} (hord : ∀ l, (ord l).Perm l)
    {s : State F} (hs : Sound b s) : ∃ s', removeAllEvidences ord s = .ok s' () ∧ Sound b s' := by
  have hp := hord (AMap.keys s.evidences)
  obtain ⟨s1, h1, _⟩ := forEach_removeAll hord (ord (AMap.keys s.evidences)) hs.healthy.inv.toCore
    (fun v hv => hp.mem_iff.mp hv) (hp.nodup_iff.mpr hs.healthy.inv.obsNodup)
  refine ⟨resetState ord s1, ?_, ?_⟩
  · unfold removeAllEvidences; rw [h1]
  · exact (forEach_shed hord _ hs.healthy.inv.toCore h1).sound hord hs
      (fun u w _ hw _ => ⟨hw, w, hp.mem_iff.mpr hw, Var.eqv_refl w⟩)

theorem removeEvidence_sound {b : Prop} {ord : List Var → List Var} (hord : ∀ l, (ord l).Perm l) (v : Var)
    {s : State F} (hs : Sound b s)
    (hR : ∀ u w, u.eqv v = true → u ∈ s.obs → w ∈ s.obs → (s.lnk u w).isSome → w.eqv v = true) :
    KeepsAt b (removeEvidence (F := F) ord v) s := by
  unfold KeepsAt removeEvidence
  have hc := hs.healthy.inv.toCore
  rcases removeOne_cases hord hc v with ⟨w, s', h0, h5, h1, h2⟩ | ⟨h1, _⟩
  · rw [h1]
    refine (h2.shed hc).sound hord hs ?_
    rintro u x rfl hx hl
    have := hR u x h5 h0 hx hl
    obtain ⟨a1, a2⟩ := Var.eqv_iff.mp this
    obtain ⟨b1, b2⟩ := Var.eqv_iff.mp h5
    exact Distinct.eqv_eq hc.net.distinct (hc.obsMem x hx) (hc.obsMem u h0)
      (Var.eqv_iff.mpr ⟨a1.trans b1.symm, a2.trans b2.symm⟩)
  · rw [h1]; exact hs

theorem keepsAt_drop {α : Type} {b : Prop} {x : M (State F) α} {s : State F} (h : KeepsAt b x s) :
    KeepsAt b (GOp.drop x) s := by
  unfold KeepsAt at h ⊢
  unfold GOp.drop
  cases hx : x s with
  | ok s' a => rw [hx] at h; exact h
  | throw s' => rw [hx] at h; exact h
  | ub => trivial

theorem keepsAt_congr {α : Type} {b : Prop} {x y : M (State F) α} {s : State F} (h : ∀ s, x s = y s)
    (hy : KeepsAt b y s) : KeepsAt b x s := by
  unfold KeepsAt at hy ⊢
  rw [h]; exact hy

theorem gradient_sound {b : Prop} {ord : List Var → List Var} (hord : ∀ l, (ord l).Perm l) {sched : Sched}
    (hsched : ∀ l, (sched l).Perm l) (samples : List (List Nat)) {n : Nat} (hn : 1 ≤ n) {s : State F}
    (hs : Sound b s) : KeepsAt b (getWeightsGradient (F := F) ord sched samples n) s := by
  unfold KeepsAt getWeightsGradient withPool
  have h0 : setPoolSize n s = .ok { s with pool := some n } () := by
    unfold setPoolSize
    rw [hs.healthy.pool]
    simp only
    by_cases h1 : n = 1
    · subst h1
      rw [if_pos rfl]
      have hp := hs.healthy.pool
      cases s
      simp only at hp
      rw [hp]
    · rw [if_neg h1, if_neg (by omega)]
  rw [h0]
  simp only
  -- the evidences are removed
  have hstart : ∃ s1, (if ({ s with pool := some n } : State F).evidences.isEmpty then .ok { s with pool := some n } ()
      else removeAllEvidences ord { s with pool := some n } : Out (State F) Unit) = .ok s1 () ∧
      Sound b s1.resetPool ∧ s1.pool = some n ∧ Inv s1 := by
    have hi : Inv ({ s with pool := some n } : State F) := hs.healthy.inv.settings _ _ _
    by_cases he : ({ s with pool := some n } : State F).evidences.isEmpty = true
    · refine ⟨_, by rw [if_pos he], ?_, rfl, hi⟩
      have : State.resetPool ({ s with pool := some n } : State F) = s := by
        have hp := hs.healthy.pool
        cases s
        simp only at hp
        unfold State.resetPool
        rw [hp]
      rw [this]; exact hs
    · have hp := hord (AMap.keys s.evidences)
      obtain ⟨s1, h1, h1c, _, h1p, _⟩ := forEach_removeAll hord (ord (AMap.keys s.evidences)) hi.toCore
        (fun v hv => hp.mem_iff.mp hv) (hp.nodup_iff.mpr hi.obsNodup)
      refine ⟨resetState ord s1, ?_, ?_, h1p, resetState_inv hord h1c⟩
      · rw [if_neg he]; unfold removeAllEvidences; rw [h1]
      · have h2 := forEach_shed hord _ hi.toCore h1
        have h3 : Shed s s1.resetPool (fun w => w ∈ s.obs ∧ ∃ v ∈ ord (AMap.keys s.evidences), w.eqv v = true) := by
          refine ⟨(Inv.settings (resetState_inv hord h1c) s1.maxIter s1.last (some 1)).toCore |> fun hc => ?_, ?_, ?_, ?_, h2.lnk, h2.obs, h2.act, h2.coh, h2.evid⟩
          · exact ⟨⟨hc.net.keys, hc.net.distinct, hc.net.nodup, hc.net.excl, hc.net.symA, hc.net.symL, hc.net.memL⟩,
              hc.heapWF, hc.posV, hc.link, hc.unary, hc.unaNodup, hc.facNodup, hc.reg, hc.obsNodup, hc.obsMem, hc.obsVal,
              hc.disObs, hc.msgH, hc.mrgT⟩
          · exact ⟨h2.frame.heap, h2.frame.vars, h2.frame.keys, h2.frame.factors, h2.frame.consts, h2.frame.maxIter,
              h2.frame.tunables, h2.frame.tuners, h2.frame.una⟩
          · exact hs.healthy.pool.symm
          · rcases h2.last with h4 | h4
            · left
              rw [h4]
              have hp := hs.healthy.pool
              cases s
              simp only at hp
              unfold State.resetPool
              rw [hp]
            · exact Or.inr h4
        exact h3.sound hord hs (fun u w _ hw _ => ⟨hw, w, hp.mem_iff.mpr hw, Var.eqv_refl w⟩)
  obtain ⟨s1, e1, hs1, hp1, hi1⟩ := hstart
  unfold gradient
  simp only [e1]
  have hs1' := hs1.resetBelief
  have hb0 : Asked s1.resetPool.resetBelief s1.resetBelief := by
    refine Asked.light rfl rfl rfl rfl rfl rfl rfl rfl rfl rfl
  have hflow : Flow s1.resetBelief := hs1'.healthy.flow.quiet hb0.toQuiet hi1.resetBelief.toCore
  obtain ⟨s2, r, h1, h2, h3, h4, h5, h6, h7, _, _⟩ := propagateBelief_ok hord .sum hsched hi1.resetBelief hflow hn hp1 rfl
  rw [h1]
  have ha1 : Asked s2 s2.resetPool := Asked.light rfl rfl rfl rfl rfl rfl rfl rfl rfl rfl
  have hall := (hb0.trans h2).trans ha1
  have hinv := hall.inv hs1'.healthy.inv
  have hfin : Sound b s2.resetPool := by
    have hset : Settled s2.resetPool r := by
      refine ⟨h6.typed, h6.len, ?_⟩
      intro j hj
      obtain ⟨c, g1, g2, g3⟩ := h6.done j hj
      exact ⟨c, g1, g2, g3.keep ha1.toQuiet (fun _ _ => rfl) (fun _ _ _ => rfl)⟩
    refine ⟨⟨hinv, (hs1'.healthy.flow.quiet hall.toQuiet hinv.toCore).sep, ?_, rfl,
      fun _ => (hset.fresh hinv).alive hinv⟩, fun hb => ?_⟩
    · intro u v
      have : s2.resetPool.lnk u v = s1.resetPool.resetBelief.lnk u v := hall.toQuiet.lnk u v
      rw [this]; exact hs1'.healthy.sizes u v
    · have hf := hs1'.faithful hb
      refine ⟨hall.coh hs1'.healthy.inv hf.coh, hall.evid hf.evid, ?_⟩
      intro r' hr'
      have : s2.last = some r' := hr'
      rw [h4] at this
      cases this
      exact hset.fresh hinv
  simp only
  unfold lift
  beta_reduce
  cases Res.mapList (gradientTask ord samples s2) s2.tuners with
  | ok a => exact hfin
  | throw => exact hfin
  | ub => trivial

theorem marginalByName_sound {b : Prop} {ord : List Var → List Var} (hord : ∀ l, (ord l).Perm l) {sched : Sched}
    (hsched : ∀ l, (sched l).Perm l) (name : String) {n : Nat} (hn : 1 ≤ n) {s : State F}
    (hs : Sound b s) : KeepsAt b (getMarginalByName (F := F) ord sched name n) s := by
  unfold KeepsAt getMarginalByName
  rcases findVariable_cases s name with ⟨v, h⟩ | h
  · rw [h]
    have := asks_sound (b := b) hord .sum hsched hn (fun s => readMarginal ord v s) s hs
    rw [← marginalQuery_eq ord sched .sum v n] at this
    exact this
  · rw [h]; exact hs

theorem mutate_sound {b : Prop} {p : Nat} {op : Heap.Op F} {s : State F} (hs : Sound b s)
    (hv : (∃ vs, op = .replaceVariables vs) → p ∉ s.factors)
    (hb : b → p ∈ s.factors → s.last = none ∧ Loose s p) :
    KeepsAt b (GOp.onHeap (Heap.mutate p op)) s := by
  have h := mutate_inv (op := op) hs.healthy.inv hv
  have key : ∀ g : Fn F, Inv ({ s with heap := s.heap.set p g } : State F) → Sound b { s with heap := s.heap.set p g } := by
    intro g hi
    have hne : ∀ q, p ≠ q → (s.heap.set p g)[q]? = s.heap[q]? := fun q hq => by rw [List.getElem?_set, if_neg hq]
    by_cases hm : b ∧ p ∈ s.factors
    · obtain ⟨hl, hloose⟩ := hb hm.1 hm.2
      refine hs.loose (s' := { s with heap := s.heap.set p g }) ⟨rfl, rfl, rfl, rfl, rfl⟩ hi hl (fun _ q _ => ?_)
      by_cases e : p = q
      · subst e; exact Or.inr hloose
      · exact Or.inl (hne q e)
    · exact hs.outer (s' := { s with heap := s.heap.set p g }) ⟨rfl, rfl, rfl, rfl, rfl⟩ hi (Or.inl rfl)
        (fun hb' q hq => hne q (fun e => hm ⟨hb', e ▸ hq⟩))
  unfold KeepsAt
  unfold GOp.onHeap Heap.mutate at h ⊢
  cases hp : s.heap[p]? with
  | none => trivial
  | some f =>
    rw [hp] at h
    simp only at h ⊢
    cases ho : Heap.applyOp op f with
    | ok g _ => rw [ho] at h; exact key g h
    | throw g => rw [ho] at h; exact key g h
    | ub => trivial

theorem findVariable_find {s : State F} {n : String} {v : Var} (h : s.findVariable n = .ok v) :
    s.vars.find? (fun v => v.name == n) = some v := by
  unfold findVariable at h
  cases hf : s.vars.find? (fun v => v.name == n) with
  | none => rw [hf] at h; cases h
  | some w => rw [hf] at h; cases h; rfl

theorem mem_foldl_emplace_sub {l : List Var} : ∀ {c : VarSet} {w : Var}, w ∈ l.foldl VarSet.emplace c → w ∈ c ∨ w ∈ l := by
  induction l with
  | nil => intro c w h; exact Or.inl h
  | cons v l ih =>
    intro c w h
    rcases ih h with h1 | h1
    · unfold VarSet.emplace at h1
      split at h1
      · exact Or.inl h1
      · rcases List.mem_append.mp h1 with h2 | h2
        · exact Or.inl h2
        · simp only [List.mem_singleton] at h2; simp [h2]
    · simp [h1]

theorem mem_foldl_emplace_eqv {l : List Var} : ∀ {c : VarSet} {w : Var}, w ∈ c ∨ w ∈ l →
    ∃ x ∈ l.foldl VarSet.emplace c, w.eqv x = true := by
  induction l with
  | nil =>
    intro c w h
    rcases h with h | h
    · exact ⟨w, h, Var.eqv_refl w⟩
    · cases h
  | cons v l ih =>
    intro c w h
    by_cases hc : w ∈ c
    · refine ih (Or.inl ?_)
      unfold VarSet.emplace
      split
      · exact hc
      · exact List.mem_append.mpr (Or.inl hc)
    · rcases h with h | h
      · exact absurd h hc
      · simp only [List.mem_cons] at h
        rcases h with rfl | h
        · by_cases hm : VarSet.mem c w = true
          · unfold VarSet.mem at hm
            obtain ⟨y, hy, hyw⟩ := List.any_eq_true.mp hm
            have hy' : y ∈ VarSet.emplace c w := by
              unfold VarSet.emplace
              split
              · exact hy
              · exact List.mem_append.mpr (Or.inl hy)
            obtain ⟨x, hx, hyx⟩ := ih (c := VarSet.emplace c w) (w := y) (Or.inl hy')
            refine ⟨x, hx, ?_⟩
            obtain ⟨a1, a2⟩ := Var.eqv_iff.mp hyw
            obtain ⟨b1, b2⟩ := Var.eqv_iff.mp hyx
            exact Var.eqv_iff.mpr ⟨by rw [← b1]; exact a1.symm, by rw [← b2]; exact a2.symm⟩
          · refine ih (c := VarSet.emplace c w) (Or.inl ?_)
            unfold VarSet.emplace
            rw [if_neg hm]
            simp
        · exact ih (Or.inr h)

theorem Fresh.keep {s s' : State F} {r : PropResult} (h : Fresh s r) (hq : Quiet s s') (hg : ∀ u ∈ s.hid, s'.mrg u = s.mrg u)
    (hm : ∀ u v, s'.msg u v = s.msg u v) (hs : Inv s) : Fresh s' r := by
  refine ⟨fun u v m hu he => ?_, fun u hu => ?_⟩
  · rw [hq.obs] at hu
    rw [hm] at he
    exact h.typed u v m hu he
  · rw [hq.hid] at hu
    obtain ⟨nodes, ts, tree, h1, h2, h3, h4, h5, h6, h7⟩ := h.done u hu
    have hcl : ∀ w ∈ nodes, w ∈ s.hid := by
      intro w hw
      refine mem_hid.mpr ⟨?_, h3.hid w hw⟩
      by_cases e : u = w
      · exact e ▸ (mem_hid.mp hu).1
      · rcases (h7 w hw).cases_tail with h | ⟨x, _, hx⟩
        · exact absurd h.symm e
        · exact (hs.toCore.act_vars hx).2
    have h0 : ClusterDone r.kind s ⟨nodes, some ts⟩ tree := ⟨ts, rfl, h3, h4, h5, h6⟩
    obtain ⟨⟨ts', e, k1, k2, k3, k4⟩⟩ := h0.keep hq (fun w hw => hg w (hcl w hw)) (fun w _ v => hm w v)
    cases e
    refine ⟨nodes, ts, tree, h1, h2, k1, k2, k3, k4, fun w hw => ?_⟩
    exact Relation.ReflTransGen.mono (fun a b hab => by rw [hq.isSome]; exact hab) _ _ (h7 w hw)

theorem makeSamples_sound {b : Prop} {ord : List Var → List Var} (hord : ∀ l, (ord l).Perm l) (rnd : Random F)
    (ctx : SampleContext) {n : Nat} (hn : 1 ≤ n) (hmix : b → Mixes F) {s : State F} (hs : Sound b s) :
    KeepsAt b (makeSamples ord rnd ctx n) s := by
  have hi := hs.healthy.inv
  obtain ⟨s', l, h1, h2, h3, h4, h5, h6, _⟩ := makeSamples_ok hord rnd ctx hn hi (by rw [hs.healthy.pool]; rfl)
  unfold KeepsAt
  rw [h1]
  have hq : Quiet s s' := h2.toQuiet
  have hinv := h2.inv hi
  have hmsg : ∀ u v, s'.msg u v = s.msg u v := fun u v => by unfold State.msg State.act; rw [h3]
  have hsome : ∀ u ∈ s.hid, ∃ m, s'.mrg u = some m ∧ s.mergedVal ord u = .ok m ∧ m.Unary u :=
    fun u hu => (h6 u).2 ((sampled_perm hord hi).mem_iff.mpr hu)
  refine ⟨⟨hinv, (hs.healthy.flow.quiet hq hinv.toCore).sep, ?_, h5, ?_⟩, fun hb => ?_⟩
  · intro u v
    rw [hq.lnk]; exact hs.healthy.sizes u v
  · intro hl
    rw [h4] at hl
    have hA := hs.healthy.alive hl
    refine ⟨fun u v m hu hm => ?_, fun u v hu ha => ?_, fun u hu => ?_⟩
    · rw [hq.obs] at hu; rw [hmsg] at hm
      exact hA.typed u v m hu hm
    · rw [hq.obs] at hu; rw [hq.isSome] at ha; rw [hmsg]
      exact hA.msg u v hu ha
    · rw [hq.hid] at hu
      obtain ⟨m, hm, _⟩ := hsome u hu
      rw [hm]; rfl
  · have hf := hs.faithful hb
    refine ⟨h2.coh hi hf.coh, h2.evid hf.evid, ?_⟩
    intro r hr
    rw [h4] at hr
    have hA := hs.healthy.alive (by rw [hr]; rfl)
    refine (hf.fresh r hr).keep hq (fun u hu => ?_) hmsg hi
    obtain ⟨m, hm, hv, _⟩ := hsome u hu
    obtain ⟨m', hm'⟩ := Option.isSome_iff_exists.mp (hA.mrg u hu)
    obtain ⟨ord', hord', hv'⟩ := hf.coh u (mem_hid.mp hu).1 (mem_hid.mp hu).2 m' hm'
    rw [(hmix hb).mergedVal hord hord' hi.toCore (mem_hid.mp hu).1 (mem_hid.mp hu).2, hv'] at hv
    cases hv
    rw [hm, hm']

theorem exec_sound {b : Prop} {s : State F} (hs : Sound b s) {op : GOp F} (hv : op.Valid s) (hp : Prudent s op)
    (hst : b → Steady s op) (hmix : b → op.Draws → Mixes F) :
    (∀ s', op.exec s = .ok s' () → Sound b s') ∧
    (∀ s', op.RemovesMany = false → op.exec s = .throw s' → Sound b s') := by
  have gen : ∀ x : M (State F) Unit, KeepsAt b x s → (∀ s', x s = .ok s' () → Sound b s') ∧
      (∀ s', op.RemovesMany = false → x s = .throw s' → Sound b s') := by
    intro x hx
    unfold KeepsAt at hx
    exact ⟨fun s' h => by rw [h] at hx; exact hx, fun s' _ h => by rw [h] at hx; exact hx⟩
  have hc := hs.healthy.inv.toCore
  have hloose : b → op.Reweighs → ∀ t ∈ s.tuners, ∀ e ∈ t, Loose s e.factor :=
    fun hb hr t ht e he => Uncached.loose hc ((hst hb).weights hr t ht e he)
  have hshared : b → op.Reweighs → ∀ p f u v, op.inserted = some p → s.heap[p]? = some f → f.vars.group = [u, v] →
      (u ∈ s.obs ↔ v ∈ s.obs) := by
    intro hb hr p f u v h1 h2 h3
    have := (hst hb).shared p f u v hr h1 h2 h3
    rw [observes_iff, observes_iff] at this
    exact this
  have hth : ∀ n, op.threads = some n → 1 ≤ n := by
    intro n hn
    have := hp.threads
    rw [hn] at this
    rcases Nat.eq_zero_or_pos n with h | h
    · subst h; exact absurd rfl this
    · exact h
  have hrel : ∀ u w, op.Releases s u → (s.lnk u w).isSome → w ∈ s.obs → op.Releases s w :=
    fun u w h1 h2 h3 => hp.released u w h1 (hc.joins_iff.mpr h2) (observes_iff.mpr h3)
  cases op with
  | create f =>
    refine ⟨fun s' h => ?_, fun s' _ h => by cases h⟩
    simp only [GOp.exec, Out.ok.injEq, and_true] at h
    rw [← h]
    exact hs.create (factorReach_wf hv.2)
  | mutate p o =>
    refine gen _ (mutate_sound hs ?_ (fun hb hp =>
      ⟨((hst hb).values p o rfl hp).1, Uncached.loose hc ((hst hb).values p o rfl hp).2⟩))
    rintro ⟨vs, rfl⟩
    exact hv.2
  | addConst p => exact gen _ (addConst_sound hs p (fun q f hq hf => hp.square q f hq hf))
  | copyConst p => exact gen _ (copyConst_sound hs p (fun f hf => hp.square p f rfl hf))
  | addTunable p share =>
    refine gen _ (addTunable_sound hs p share (fun q f hq hf => hp.square q f hq hf) ?_ ?_)
    · intro hb h
      obtain ⟨g, rfl⟩ := Option.isSome_iff_exists.mp h
      exact hloose hb trivial
    · intro hb h
      obtain ⟨g, rfl⟩ := Option.isSome_iff_exists.mp h
      exact hshared hb trivial
  | copyTunable p share =>
    refine gen _ (copyTunable_sound hs p share (fun f hf => hp.square p f rfl hf) ?_ ?_)
    · intro hb h
      obtain ⟨g, rfl⟩ := Option.isSome_iff_exists.mp h
      exact hloose hb trivial
    · intro hb h f u v hf hg
      obtain ⟨g, rfl⟩ := Option.isSome_iff_exists.mp h
      exact hshared hb trivial p f u v rfl hf hg
  | setWeights ws => exact gen _ (setWeights_sound hs ws (fun hb => hloose hb trivial))
  | setEvidence ord v k => exact gen _ (setEvidence_sound hv.1 v k hs)
  | setEvidenceByName ord n k =>
    refine gen (State.setEvidenceByName ord n k) ?_
    unfold KeepsAt setEvidenceByName
    rcases findVariable_cases s n with ⟨v, h⟩ | h
    · rw [h]; exact setEvidence_sound hv.1 v k hs
    · rw [h]; exact hs
  | removeEvidence ord v =>
    exact gen _ (removeEvidence_sound hv.1 v hs (fun u w hu _ hw hl => hrel u w hu hl hw))
  | removeEvidenceByName ord n =>
    refine gen (State.removeEvidenceByName ord n) ?_
    unfold KeepsAt removeEvidenceByName
    rcases findVariable_cases s n with ⟨v, h⟩ | h
    · rw [h]
      refine removeEvidence_sound hv.1 v hs (fun u w hu ho hw hl => ?_)
      have hvm := (findVariable_mem h).1
      have huv : u = v := Distinct.eqv_eq hc.net.distinct (hc.obsMem u ho) hvm hu
      subst huv
      have h2 : s.vars.find? (fun v => v.name == n) = some w := hrel u w (findVariable_find h) hl hw
      rw [findVariable_find h] at h2
      cases h2
      exact hu
    · rw [h]; exact hs
  | removeEvidences ord vs =>
    refine ⟨fun s' h => removeEvidences_sound hv.1 vs hs ?_ h, fun s' h => by cases h⟩
    intro u w hu _ hw hl
    exact hrel u w hu hl hw
  | removeEvidencesByName ord ns =>
    refine ⟨fun s' h => ?_, fun s' h => by cases h⟩
    rw [GOp.exec] at h
    unfold removeEvidencesByName at h
    cases hm : Res.mapList s.findVariable ns with
    | ok vs =>
      rw [hm] at h
      simp only at h
      have hf2 := Res.mapList_eq_ok.mp hm
      refine removeEvidences_sound hv.1 _ hs ?_ h
      rintro u w ⟨v, hvm, huv⟩ huo hw hl
      have hv1 : v ∈ vs := by
        rcases mem_foldl_emplace_sub hvm with h1 | h1
        · cases h1
        · exact h1
      obtain ⟨i, hi⟩ := List.mem_iff_getElem?.mp hv1
      have hlen := hf2.length_eq
      obtain ⟨hil, hie⟩ := List.getElem?_eq_some_iff.mp hi
      have hget := List.Forall₂.get hf2 (i := i) (by omega) hil
      have hfind : s.findVariable ns[i] = .ok v := by
        rw [← hie]; exact hget
      have hvv := (findVariable_mem hfind).1
      have : u = v := Distinct.eqv_eq hc.net.distinct (hc.obsMem u huo) hvv huv
      subst this
      obtain ⟨n', hn', hw'⟩ := hrel u w ⟨_, List.getElem_mem (by omega), findVariable_find hfind⟩ hl hw
      obtain ⟨k, hk⟩ := List.mem_iff_getElem?.mp hn'
      obtain ⟨hkl, hke⟩ := List.getElem?_eq_some_iff.mp hk
      have hget' := List.Forall₂.get hf2 (i := k) hkl (by omega)
      have hwv : s.findVariable n' = .ok w := by unfold findVariable; rw [hw']
      have hwm : w ∈ vs := by
        have : s.findVariable ns[k] = .ok vs[k] := hget'
        rw [hke, hwv] at this
        cases this
        exact List.getElem_mem _
      exact mem_foldl_emplace_eqv (Or.inr hwm)
    | throw => rw [hm] at h; cases h
    | ub => rw [hm] at h; cases h
  | removeAllEvidences ord =>
    refine gen (State.removeAllEvidences ord) ?_
    unfold KeepsAt
    obtain ⟨s', h1, h2⟩ := removeAllEvidences_sound hv.1 hs
    rw [h1]; exact h2
  | setMaxIterations n =>
    refine ⟨fun s' h => ?_, fun s' _ h => by cases h⟩
    simp only [GOp.exec, Out.ok.injEq, and_true] at h
    rw [← h]
    exact hs.outer ⟨rfl, rfl, rfl, rfl, rfl⟩ (hs.healthy.inv.settings _ _ _) (Or.inl rfl) (fun _ _ _ => rfl)
  | marginal ord sched v n =>
    exact gen _ (keepsAt_drop (keepsAt_congr (marginalQuery_eq ord sched .sum v n)
      (asks_sound hv.1.1 _ hv.1.2 (hth n rfl) _ s hs)))
  | marginalByName ord sched name n =>
    exact gen _ (keepsAt_drop (marginalByName_sound hv.1.1 hv.1.2 name (hth n rfl) hs))
  | map ord sched v n =>
    exact gen _ (keepsAt_drop (keepsAt_congr (getMAP_eq ord sched v n)
      (asks_sound hv.1.1 _ hv.1.2 (hth n rfl) _ s hs)))
  | hiddenSetMap ord sched n =>
    exact gen _ (keepsAt_drop (keepsAt_congr (getHiddenSetMAP_eq ord sched n)
      (asks_sound hv.1.1 _ hv.1.2 (hth n rfl) _ s hs)))
  | joint ord sh sched g n =>
    exact gen _ (keepsAt_drop (keepsAt_congr (getJoint_eq ord sh sched g n)
      (asks_sound hv.1.1 _ hv.1.2.2 (hth n rfl) _ s hs)))
  | gradient ord sched samples n =>
    exact gen _ (keepsAt_drop (gradient_sound hv.1.1 hv.1.2 samples (hth n rfl) hs))
  | drawSamples ord rnd ctx n => exact gen _ (keepsAt_drop (makeSamples_sound hv.1 rnd ctx (hth n rfl) (fun h => hmix h trivial) hs))

theorem sound_initial (b : Prop) {h : Heap F} (hh : ∀ f ∈ h, f.WF) : Sound b (initial h : State F) := by
  have hi := inv_initial hh
  refine ⟨⟨hi, ?_, ?_, rfl, ?_⟩, fun _ => ⟨?_, ?_, ?_⟩⟩
  · intro u v _ ha; cases ha
  · intro u v hl; cases hl
  · intro hl; cases hl
  · intro v hv; cases hv
  · intro u v c k _ hd; cases hd
  · intro r hr; cases hr

end State

/-- The prudent executions keep every query defined. -/
theorem reach_healthy {F : Type} [Arith F] {s : State F} (h : Reach Prudent s) : s.Healthy := by
  have : State.Sound False s := by
    induction h with
    | init hh => exact State.sound_initial _ (fun f hf => factorReach_wf (hh f hf))
    | ok _ hv hp he ih => exact (State.exec_sound ih hv hp (fun h => h.elim) (fun h => h.elim)).1 _ he
    | throw _ hv hp hm he ih => exact (State.exec_sound ih hv hp (fun h => h.elim) (fun h => h.elim)).2 _ hm he
  exact this.healthy

/-- The prudent and steady executions leave nothing stale, when products do not depend on the order of the
factors. -/
theorem reach_sound_of {F : Type} [Arith F] (hmix : State.Mixes F) {s : State F}
    (h : Reach (fun s op => Prudent s op ∧ Steady s op) s) : State.Sound True s := by
  induction h with
  | init hh => exact State.sound_initial _ (fun f hf => factorReach_wf (hh f hf))
  | ok _ hv hp he ih => exact (State.exec_sound ih hv hp.1 (fun _ => hp.2) (fun _ _ => hmix)).1 _ he
  | throw _ hv hp hm he ih => exact (State.exec_sound ih hv hp.1 (fun _ => hp.2) (fun _ _ => hmix)).2 _ hm he

/-- Without sampling, they leave nothing stale in any arithmetic. -/
theorem reach_sound_drawless {F : Type} [Arith F] {s : State F}
    (h : Reach (fun s op => Prudent s op ∧ Steady s op ∧ ¬op.Draws) s) : State.Sound True s := by
  induction h with
  | init hh => exact State.sound_initial _ (fun f hf => factorReach_wf (hh f hf))
  | ok _ hv hp he ih =>
    exact (State.exec_sound ih hv hp.1 (fun _ => hp.2.1) (fun _ h => absurd h hp.2.2)).1 _ he
  | throw _ hv hp hm he ih =>
    exact (State.exec_sound ih hv hp.1 (fun _ => hp.2.1) (fun _ h => absurd h hp.2.2)).2 _ hm he

theorem reach_sound {K : Type} [Field K] [LinearOrder K] [FloatParams K] {s : State (Ext K)}
    (h : Reach (fun s op => Prudent s op ∧ Steady s op) s) : State.Sound True s := reach_sound_of State.ext_mixes h

end EFG
