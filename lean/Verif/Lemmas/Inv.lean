import Verif.Lemmas.Net
/- The invariant of the state of a model. -/

set_option linter.unusedSectionVars false

namespace EFG
namespace State
variable {F : Type} [Arith F]

/-- The topology infos of a cluster describe each directed active connection leaving it once. -/
structure TopoOk (s : State F) (nodes : List Var) (ts : List Topo) : Prop where
  nodup : (ts.map (fun t => (t.sender, t.conn.owner))).Nodup
  sender : ∀ t ∈ ts, t.sender ∈ nodes
  from_ : ∀ t ∈ ts, t.conn.from_ = t.sender
  active : ∀ t ∈ ts, (s.act t.sender t.conn.owner).isSome
  depsNodup : ∀ t ∈ ts, t.deps.Nodup
  deps : ∀ t ∈ ts, ∀ r, r ∈ t.deps ↔
    r.owner = t.sender ∧ r.from_ ≠ t.conn.owner ∧ (s.act t.sender r.from_).isSome
  all : ∀ u ∈ nodes, ∀ v, (s.act u v).isSome → ∃ t ∈ ts, t.sender = u ∧ t.conn.owner = v

theorem TopoOk.congr {s s' : State F} {nodes : List Var} {ts : List Topo} (h : TopoOk s nodes ts)
    (hn : ∀ u ∈ nodes, ∀ v, (s'.act u v).isSome = (s.act u v).isSome) : TopoOk s' nodes ts where
  nodup := h.nodup
  sender := h.sender
  from_ := h.from_
  active t ht := by rw [hn _ (h.sender t ht)]; exact h.active t ht
  depsNodup := h.depsNodup
  deps t ht r := by rw [hn _ (h.sender t ht)]; exact h.deps t ht r
  all u hu v hv := h.all u hu v (by rw [← hn u hu]; exact hv)

/-- The part of the invariant which does not mention the clusters. -/
structure Core (s : State F) : Prop where
  net : Net s
  heapWF : ∀ f ∈ s.heap, f.WF
  posV : ∀ v ∈ s.vars, 0 < v.size
  link : ∀ u v p, s.lnk u v = some p → p ∈ s.factors ∧ ∃ f, s.heap[p]? = some f ∧ f.Binary u v
  unary : ∀ v p, p ∈ s.una v → p ∈ s.factors ∧ v ∈ s.vars ∧ ∃ f, s.heap[p]? = some f ∧ f.Unary v
  unaNodup : ∀ v, (s.una v).Nodup
  facNodup : s.factors.Nodup
  reg : ∀ p ∈ s.factors, ∃ f, s.heap[p]? = some f ∧
    ((∃ v, f.vars.group = [v] ∧ p ∈ s.una v) ∨ ∃ u v, f.vars.group = [u, v] ∧ s.lnk u v = some p)
  obsNodup : s.obs.Nodup
  obsMem : ∀ v ∈ s.obs, v ∈ s.vars
  obsVal : ∀ v k, AMap.find? s.evidences v = some k → k < v.size
  disObs : ∀ u v, (s.dis u v).isSome → u ∈ s.obs ∨ v ∈ s.obs
  msgH : ∀ u v c, u ∉ s.obs → s.dis u v = some c → ∃ m, c.message = some m ∧ m.Unary u
  mrgT : ∀ v m, s.mrg v = some m → m.Unary v

/-- The invariant of the state of a model. -/
structure Inv (s : State F) : Prop extends Core s where
  parts : Clusters.Parts s.activeKeys s.hid (s.clusters.map (·.nodes))
  topos : ∀ c ∈ s.clusters, ∀ ts, c.connectivity = some ts → TopoOk s c.nodes ts

theorem Core.typed {s : State F} (hs : Core s) : ConnTyped s := fun u v p h => (hs.link u v p h).2

theorem hid_nodup {s : State F} (hs : Net s) : s.hid.Nodup := hs.distinct.nodup.filter _

/-! ### Searches -/

theorem find?_eqv_mem {l : List Var} (hd : Distinct l) {v : Var} (hv : v ∈ l) :
    l.find? (fun w => w.eqv v) = some v := by
  cases h : l.find? (fun w => w.eqv v) with
  | none =>
    have := List.find?_eq_none.mp h v hv
    simp [Var.eqv_refl] at this
  | some w =>
    have h1 := List.mem_of_find?_eq_some h
    have h2 := List.find?_some h
    rw [hd.eq_of_eqv h1 hv h2]

theorem find?_eqv_sub {l l' : List Var} (hd : Distinct l) (hsub : ∀ w ∈ l', w ∈ l) {v : Var} (hv : v ∈ l) :
    l'.find? (fun w => w.eqv v) = if v ∈ l' then some v else none := by
  cases h : l'.find? (fun w => w.eqv v) with
  | none =>
    have : v ∉ l' := by
      intro hm
      have := List.find?_eq_none.mp h v hm
      simp [Var.eqv_refl] at this
    simp [this]
  | some w =>
    have h1 := List.mem_of_find?_eq_some h
    have h2 := List.find?_some h
    have := hd.eq_of_eqv (hsub w h1) hv h2
    subst this
    simp [h1]

theorem eqv_pred {v w : Var} (h : v.eqv w = true) : (fun x : Var => x.eqv v) = (fun x => x.eqv w) := by
  funext x
  rw [Bool.eq_iff_iff]
  exact ⟨fun h' => Var.eqv_trans h' h, fun h' => Var.eqv_trans h' (by rw [Var.eqv_comm]; exact h)⟩

theorem locate_eqv (s : State F) {v w : Var} (h : v.eqv w = true) : s.locate v = s.locate w := by
  unfold locate nodeKey? evidenceKey?
  rw [eqv_pred h]

theorem Net.nodeKey?_mem {s : State F} (hs : Net s) {v : Var} (hv : v ∈ s.vars) : s.nodeKey? v = some v := by
  unfold nodeKey?
  rw [hs.keys]
  exact find?_eqv_mem hs.distinct hv

theorem Net.nodeKey?_some {s : State F} (hs : Net s) {v n : Var} (h : s.nodeKey? v = some n) :
    n ∈ s.vars ∧ n.eqv v = true := by
  unfold nodeKey? at h
  rw [hs.keys] at h
  exact ⟨List.mem_of_find?_eq_some h, by simpa using List.find?_some h⟩

theorem Net.nodeKey?_none {s : State F} (hs : Net s) {v : Var} (h : s.nodeKey? v = none) :
    ∀ w ∈ s.vars, w.eqv v = false := by
  unfold nodeKey? at h
  rw [hs.keys] at h
  intro w hw
  simpa using List.find?_eq_none.mp h w hw

theorem Core.evidenceKey? {s : State F} (hs : Core s) {v : Var} (hv : v ∈ s.vars) :
    s.evidenceKey? v = if v ∈ s.obs then some v else none :=
  find?_eqv_sub hs.net.distinct hs.obsMem hv

/-- The cluster of a hidden variable is found. -/
theorem Inv.locate_hidden {s : State F} (hs : Inv s) {v : Var} (hv : v ∈ s.vars) (ho : v ∉ s.obs) :
    ∃ i c, s.clusters[i]? = some c ∧ v ∈ c.nodes ∧ s.locate v = some (v, .hidden (some i)) := by
  have hm : v ∈ (s.clusters.map (·.nodes)).flatten := (hs.parts.mem v).mpr (mem_hid.mpr ⟨hv, ho⟩)
  obtain ⟨l, hl, hvl⟩ := List.mem_flatten.mp hm
  obtain ⟨c, hc, rfl⟩ := List.mem_map.mp hl
  have hsome : (s.clusters.findIdx? (fun c => c.nodes.contains v)).isSome := by
    rw [List.findIdx?_isSome, List.any_eq_true]
    exact ⟨c, hc, by simpa using hvl⟩
  obtain ⟨i, hi⟩ := Option.isSome_iff_exists.mp hsome
  have hi' := List.findIdx?_eq_some_iff_getElem.mp hi
  obtain ⟨hlt, h1, _⟩ := hi'
  refine ⟨i, s.clusters[i], List.getElem?_eq_getElem hlt, by simpa using h1, ?_⟩
  unfold locate
  rw [hs.net.nodeKey?_mem hv, hs.toCore.evidenceKey? hv, if_neg ho]
  simp only [hi]

theorem Core.locate_observed {s : State F} (hs : Core s) {v : Var} (ho : v ∈ s.obs) :
    s.locate v = some (v, .observed v) := by
  have hv := hs.obsMem v ho
  unfold locate
  rw [hs.net.nodeKey?_mem hv, hs.evidenceKey? hv, if_pos ho]

theorem Net.locate_none {s : State F} (hs : Net s) {v : Var} (h : s.locate v = none) :
    ∀ w ∈ s.vars, w.eqv v = false := by
  unfold locate at h
  cases hk : s.nodeKey? v with
  | none => exact hs.nodeKey?_none hk
  | some n =>
    rw [hk] at h
    simp only at h
    split at h <;> cases h

theorem Net.locate_some {s : State F} (hs : Net s) {v : Var} {e : Var × Loc} (h : s.locate v = some e) :
    e.1 ∈ s.vars ∧ e.1.eqv v = true := by
  unfold locate at h
  cases hk : s.nodeKey? v with
  | none => rw [hk] at h; cases h
  | some n =>
    rw [hk] at h
    simp only at h
    have := hs.nodeKey?_some hk
    split at h <;> (cases h; exact this)

theorem locate_isSome_of_eqv {s : State F} (hs : Net s) {v w : Var} (hw : w ∈ s.vars)
    (he : w.eqv v = true) : (s.locate v).isSome := by
  cases h : s.locate v with
  | none => have := hs.locate_none h w hw; rw [he] at this; cases this
  | some _ => rfl

/-! ### The empty model -/

theorem inv_initial {h : Heap F} (hh : ∀ f ∈ h, f.WF) : Inv (initial h : State F) := by
  have hnode : ∀ v, (initial h : State F).node? v = none := fun _ => rfl
  have ha : ∀ u v, (initial h : State F).act u v = none := fun _ _ => rfl
  have hd : ∀ u v, (initial h : State F).dis u v = none := fun _ _ => rfl
  have hl : ∀ u v, (initial h : State F).lnk u v = none := fun _ _ => rfl
  have hu : ∀ v, (initial h : State F).una v = [] := fun _ => rfl
  have hm : ∀ v, (initial h : State F).mrg v = none := fun _ => rfl
  refine ⟨⟨⟨rfl, by simp [initial, Distinct], ?_, ?_, ?_, ?_, ?_⟩, hh, ?_, ?_, ?_, ?_, ?_, ?_, ?_, ?_,
    ?_, ?_, ?_, ?_⟩, ?_, ?_⟩
  · intro v; exact ⟨List.nodup_nil, List.nodup_nil⟩
  · intro u v h; rw [ha] at h; cases h
  · intro u v h; rw [ha] at h; cases h
  · intro u v; rfl
  · intro u v p h; rw [hl] at h; cases h
  · intro v hv; simp [initial] at hv
  · intro u v p h; rw [hl] at h; cases h
  · intro v p h; rw [hu] at h; simp at h
  · intro v; rw [hu]; exact List.nodup_nil
  · exact List.nodup_nil
  · intro p hp; simp [initial] at hp
  · exact List.nodup_nil
  · intro v hv; simp [obs, initial] at hv
  · intro v k h; simp [initial] at h
  · intro u v h; rw [hd] at h; cases h
  · intro u v c _ h; rw [hd] at h; cases h
  · intro v m h; rw [hm] at h; cases h
  · exact ⟨by simp [initial], by simp [initial, hid], by simp [initial], by simp [initial], by simp [initial]⟩
  · intro c hc; simp [initial] at hc

/-! ### Quiet changes -/

theorem Core.quiet {s s' : State F} (hs : Core s) (hq : Quiet s s')
    (hm : ∀ v m, s'.mrg v = some m → m.Unary v) : Core s' where
  net := hs.net.quiet hq
  heapWF := by rw [hq.heap]; exact hs.heapWF
  posV := by rw [hq.vars]; exact hs.posV
  link u v p := by rw [hq.lnk, hq.factors, hq.heap]; exact hs.link u v p
  unary v p := by rw [hq.una, hq.factors, hq.heap, hq.vars]; exact hs.unary v p
  unaNodup v := by rw [hq.una]; exact hs.unaNodup v
  facNodup := by rw [hq.factors]; exact hs.facNodup
  reg p hp := by
    rw [hq.factors] at hp
    simp only [hq.heap, hq.una, hq.lnk]
    exact hs.reg p hp
  obsNodup := by rw [hq.obs]; exact hs.obsNodup
  obsMem := by rw [hq.obs, hq.vars]; exact hs.obsMem
  obsVal := by rw [hq.evidences]; exact hs.obsVal
  disObs u v := by rw [hq.dis, hq.obs]; exact hs.disObs u v
  msgH u v c := by rw [hq.dis, hq.obs]; exact hs.msgH u v c
  mrgT := hm

theorem Quiet.activeKeys {s s' : State F} (hq : Quiet s s') : s'.activeKeys = s.activeKeys := by
  funext v; exact hq.keysA v

theorem Quiet.isSome {s s' : State F} (hq : Quiet s s') (u v : Var) :
    (s'.act u v).isSome = (s.act u v).isSome := by
  simpa using congrArg Option.isSome (hq.act u v)

theorem Inv.quiet {s s' : State F} (hs : Inv s) (hq : Quiet s s')
    (hm : ∀ v m, s'.mrg v = some m → m.Unary v)
    (ht : ∀ c ∈ s'.clusters, ∀ ts, c.connectivity = some ts → TopoOk s' c.nodes ts) : Inv s' where
  toCore := hs.toCore.quiet hq hm
  parts := by rw [hq.activeKeys, hq.hid, hq.clusters]; exact hs.parts
  topos := ht

/-- A quiet change which leaves the cached unaries and the clusters as they are. -/
theorem Inv.quiet' {s s' : State F} (hs : Inv s) (hq : Quiet s s') (hm : ∀ v, s'.mrg v = s.mrg v)
    (hc : s'.clusters = s.clusters) : Inv s' :=
  hs.quiet hq (fun v m h => hs.mrgT v m (by rw [← hm]; exact h))
    (fun c hc' ts h => (hs.topos c (hc ▸ hc') ts h).congr (fun u _ v => hq.isSome u v))

/-! ### Setting an evidence -/

theorem activeKeys_iff {s : State F} {u v : Var} : v ∈ s.activeKeys u ↔ (s.act u v).isSome := by
  rw [mem_activeKeys, Option.isSome_iff_exists]

theorem make_nodes (nb : Var → List Var) (l : List Var) :
    (Clusters.make nb l).map (·.nodes) = Clusters.compute nb l := by
  simp [Clusters.make, Function.comp_def]

theorem splitCluster_spec {ord : List Var → List Var} (hord : ∀ l, (ord l).Perm l) {s : State F}
    (hn : Net s) {nb0 : Var → List Var} {hid0 hid' : List Var}
    (hp : Clusters.Parts nb0 hid0 (s.clusters.map (·.nodes))) {v : Var} {i : Nat} {c : Cluster}
    (hc : s.clusters[i]? = some c) (hv : v ∈ c.nodes)
    (hnb : ∀ u w, u ≠ v → w ≠ v → (w ∈ s.activeKeys u ↔ w ∈ nb0 u))
    (hdone : ∀ w, w ∈ hid' ↔ w ∈ hid0 ∧ w ≠ v) :
    ∃ cs, splitCluster ord v (some i) s = .ok { s with clusters := cs } () ∧
      Clusters.Parts s.activeKeys hid' (cs.map (·.nodes)) ∧
      ∀ c' ∈ cs, (c' ∈ s.clusters ∧ v ∉ c'.nodes) ∨ c'.connectivity = none := by
  obtain ⟨hi, rfl⟩ := List.getElem?_eq_some_iff.mp hc
  have hperm : s.clusters.Perm (s.clusters[i] :: s.clusters.eraseIdx i) :=
    (List.getElem_cons_eraseIdx_perm hi).symm
  have hp1 := hp.perm (hperm.map (·.nodes)).symm
  rw [List.map_cons] at hp1
  have hnd := hp1.nodup
  rw [List.flatten_cons] at hnd
  have hnd1 := List.nodup_append'.mp hnd
  have hold : ∀ c' ∈ s.clusters.eraseIdx i, c' ∈ s.clusters ∧ v ∉ c'.nodes := by
    intro c' hc'
    refine ⟨List.mem_of_mem_eraseIdx hc', fun hv' => ?_⟩
    exact hnd1.2.2 hv (List.mem_flatten.mpr ⟨c'.nodes, List.mem_map.mpr ⟨c', hc', rfl⟩, hv'⟩)
  unfold splitCluster
  simp only [hc]
  by_cases hlen : s.clusters[i].nodes.length = 1
  · rw [if_pos hlen]
    refine ⟨_, rfl, ?_, fun c' hc' => Or.inl (hold c' hc')⟩
    obtain ⟨x, hx⟩ := List.length_eq_one_iff.mp hlen
    rw [hx] at hv
    simp only [List.mem_singleton] at hv
    subst hv
    have := hp1.split (nb' := s.activeKeys) (done' := hid') (D := []) (parts := []) (x := v)
      (by rw [hx]; simp) hnb ⟨by simp, by simp, by simp, by simp, by simp⟩
      (by intro w; rw [hx]; simp) hdone
    simpa using this
  · rw [if_neg hlen]
    refine ⟨_, rfl, ?_, ?_⟩
    · rw [List.map_append, make_nodes]
      have hfilt := hord (s.clusters[i].nodes.filter (fun w => !decide (w = v)))
      refine hp1.split hv hnb (Clusters.compute_parts ?_ ?_) ?_ hdone
      · exact hfilt.nodup_iff.mpr (hnd1.1.filter _)
      · intro u _ w _ hw
        rw [activeKeys_iff] at hw ⊢
        exact hn.symA u w hw
      · intro w
        rw [hfilt.mem_iff]
        simp
    · intro c' hc'
      rcases List.mem_append.mp hc' with h | h
      · exact Or.inl (hold c' h)
      · right
        unfold Clusters.make at h
        obtain ⟨l, _, rfl⟩ := List.mem_map.mp h
        rfl

/-- The complete description of what `setEvidence` does to a hidden variable. -/
structure Observed (s s' : State F) (v : Var) (k : Nat) : Prop where
  net : Net s'
  frame : Frame s s'
  last : s'.last = none
  pool : s'.pool = s.pool
  evidences : s'.evidences = s.evidences ++ [(v, k)]
  lnk : ∀ u w, s'.lnk u w = s.lnk u w
  act : ∀ u w, s'.act u w = if u = v ∨ w = v then none else s.act u w
  dis : ∀ u w, u ≠ v → w ≠ v → s'.dis u w = s.dis u w
  cond : ∀ u p, s.lnk u v = some p → ∃ c m, s'.dis u v = some c ∧ c.factor = p ∧ c.message = some m ∧
    m.Unary u ∧ IsEvid s p v k m
  mrg : ∀ u, s'.mrg u = if (s.lnk u v).isSome then none else s.mrg u
  parts : Clusters.Parts s'.activeKeys s'.hid (s'.clusters.map (·.nodes))
  old : ∀ c ∈ s'.clusters, (c ∈ s.clusters ∧ v ∉ c.nodes) ∨ c.connectivity = none

theorem obs_append (s : State F) (v : Var) (k : Nat) :
    AMap.keys (s.evidences ++ [(v, k)]) = s.obs ++ [v] := by simp [AMap.keys_append, obs]

theorem setEvidence_hidden {ord : List Var → List Var} (hord : ∀ l, (ord l).Perm l) {s : State F}
    (hs : Inv s) {v : Var} (hv : v ∈ s.vars) (ho : v ∉ s.obs) {k : Nat} (hk : k < v.size) :
    ∃ s', setEvidence ord v k s = .ok s' () ∧ Observed s s' v k := by
  obtain ⟨i, c, hc, hvc, hloc⟩ := hs.locate_hidden hv ho
  have hnet := hs.net
  have hkeys := hord (AMap.keys (s.activeOf v))
  obtain ⟨s1, e1, hn1, hf1, hsm1, hm1, hl1, ha1, hd1⟩ := forEach_disable (v := v)
    (l := ord (AMap.keys (s.activeOf v))) hnet (hkeys.nodup_iff.mpr (hnet.nodup v).1)
    (fun w hw => by rw [hkeys.mem_iff] at hw; exact activeKeys_iff.mp hw)
  have hstar : ∀ u w, Star v (ord (AMap.keys (s.activeOf v))) u w ↔
      (u = v ∧ (s.act u w).isSome) ∨ (w = v ∧ (s.act u w).isSome) := by
    intro u w
    unfold Star
    rw [hkeys.mem_iff, hkeys.mem_iff]
    have h1 : ∀ x, x ∈ AMap.keys (s.activeOf v) ↔ (s.act v x).isSome := fun x => activeKeys_iff
    rw [h1, h1]
    constructor
    · rintro (⟨rfl, h⟩ | ⟨rfl, h⟩)
      · exact Or.inl ⟨rfl, h⟩
      · exact Or.inr ⟨rfl, hnet.symA _ _ h⟩
    · rintro (⟨rfl, h⟩ | ⟨rfl, h⟩)
      · exact Or.inl ⟨rfl, h⟩
      · exact Or.inr ⟨rfl, hnet.symA _ _ h⟩
  have ha1' : ∀ u w, s1.act u w = if u = v ∨ w = v then none else s.act u w := by
    intro u w
    rw [ha1]
    by_cases hsome : (s.act u w).isSome
    · by_cases huv : u = v ∨ w = v
      · rw [if_pos huv, if_pos ((hstar u w).mpr (huv.imp (⟨·, hsome⟩) (⟨·, hsome⟩)))]
      · rw [if_neg huv, if_neg]
        rw [hstar]
        rintro (⟨h, _⟩ | ⟨h, _⟩)
        · exact huv (Or.inl h)
        · exact huv (Or.inr h)
    · have hnone : s.act u w = none := by simpa using hsome
      rw [hnone]; simp
  have hd1' : ∀ u w, u ≠ v → w ≠ v → s1.dis u w = s.dis u w := by
    intro u w hu hw
    rw [hd1, if_neg]
    rw [hstar]
    rintro (⟨h, _⟩ | ⟨h, _⟩)
    · exact hu h
    · exact hw h
  have hhid' : ∀ w, w ∈ s.hid.filter (fun w => !decide (w = v)) ↔ w ∈ s.hid ∧ w ≠ v := by
    intro w; simp
  have hc1 : s1.clusters[i]? = some c := by rw [hsm1.clusters]; exact hc
  have hparts1 : Clusters.Parts s.activeKeys s.hid (s1.clusters.map (·.nodes)) := by
    rw [hsm1.clusters]; exact hs.parts
  obtain ⟨cs, e2, hp2, hold⟩ := splitCluster_spec hord hn1 hparts1 hc1 hvc
    (by
      intro u w hu hw
      rw [activeKeys_iff, activeKeys_iff, ha1', if_neg]
      rintro (h | h)
      · exact hu h
      · exact hw h) hhid'
  set s2 : State F := { s1 with clusters := cs, evidences := s1.evidences ++ [(v, k)] } with hs2
  have hobs : observe ord v (some i) k s = .ok s2 () := by
    unfold observe
    rw [e1]
    simp only [e2]
    rfl
  have hn2 : Net s2 := ⟨hn1.keys, hn1.distinct, hn1.nodup, hn1.excl, hn1.symA, hn1.symL, hn1.memL⟩
  have hl2 : ∀ u w, s2.lnk u w = s.lnk u w := hl1
  have ht2 : ConnTyped s2 := by
    intro u w p h
    rw [hl2] at h
    have : s2.heap = s.heap := hf1.heap
    rw [this]
    exact (hs.link u w p h).2
  have hkeys2 := hord (AMap.keys (s2.disabledOf v))
  have hmemk : ∀ w, w ∈ ord (AMap.keys (s2.disabledOf v)) ↔ (s.lnk w v).isSome := by
    intro w
    rw [hkeys2.mem_iff, hnet.symL]
    have h1 : w ∈ AMap.keys (s2.disabledOf v) ↔ (s1.dis v w).isSome := by
      rw [AMap.mem_keys, Option.isSome_iff_exists]; rfl
    have h2 : s1.act v w = none := by rw [ha1', if_pos (Or.inl rfl)]
    rw [h1, ← hl1 v w]
    unfold State.lnk
    rw [h2]
    simp
  obtain ⟨s3, e3, hn3, hf3, hsm3, hm3, hl3, ha3, hd3, hcond⟩ := forEach_condition (v := v) hk
    (l := ord (AMap.keys (s2.disabledOf v))) hn2 ht2 (hkeys2.nodup_iff.mpr (hn2.nodup v).2)
    (fun w hw => by
      apply hn2.symD
      rw [hkeys2.mem_iff] at hw
      obtain ⟨x, hx⟩ := AMap.mem_keys.mp hw
      exact Option.isSome_iff_exists.mpr ⟨x, hx⟩)
  have hset : setEvidence ord v k s = .ok s3.resetBelief () := by
    unfold setEvidence
    rw [if_neg (by omega), hloc]
    simp only [hobs]
    unfold condition
    rw [e3]
  have hfr : Frame s s3 := (hf1.trans ⟨rfl, rfl, rfl, rfl, rfl, rfl, rfl, rfl, fun _ => rfl⟩ : Frame s s2).trans hf3
  have hev3 : s3.evidences = s.evidences ++ [(v, k)] := by
    rw [hsm3.evidences, hs2]
    simp [hsm1.evidences]
  have hcl3 : s3.clusters = cs := by rw [hsm3.clusters]
  have hact3 : ∀ u w, s3.act u w = if u = v ∨ w = v then none else s.act u w := by
    intro u w; rw [ha3]; exact ha1' u w
  refine ⟨s3.resetBelief, hset, ?_⟩
  refine ⟨⟨hn3.keys, hn3.distinct, hn3.nodup, hn3.excl, hn3.symA, hn3.symL, hn3.memL⟩,
    ⟨hfr.heap, hfr.vars, hfr.keys, hfr.factors, hfr.consts, hfr.maxIter, hfr.tunables, hfr.tuners, hfr.una⟩,
    rfl, ?_, hev3, ?_, hact3, ?_, ?_, ?_, ?_, ?_⟩
  · show s3.pool = s.pool
    rw [hsm3.pool]; exact hsm1.pool
  · intro u w; rw [← hl2 u w, ← hl3 u w]; rfl
  · intro u w hu hw
    have : s3.dis u w = s2.dis u w := hd3 u w (fun h => hw h.2)
    rw [← hd1' u w hu hw]
    exact this
  · intro u p hp
    obtain ⟨c', m, h1, h2, h3, h4, h5⟩ := hcond u ((hmemk u).mpr (by simp [hp]))
    rw [hl2, hp] at h2
    injection h2 with h2
    obtain ⟨f, hf, hfe⟩ := h5
    have hh : s2.heap = s.heap := hf1.heap
    exact ⟨c', m, h1, h2.symm, h3, h4, f, by rw [← hh, h2]; exact hf, hfe⟩
  · intro u
    have : s3.mrg u = if u ∈ ord (AMap.keys (s2.disabledOf v)) then none else s1.mrg u := hm3 u
    show s3.mrg u = _
    rw [this, hm1]
    by_cases h : (s.lnk u v).isSome
    · rw [if_pos h, if_pos ((hmemk u).mpr h)]
    · rw [if_neg h, if_neg (fun h' => h ((hmemk u).mp h'))]
  · have hak : s3.resetBelief.activeKeys = s3.activeKeys := rfl
    have hhid : ∀ w, w ∈ s.hid.filter (fun w => !decide (w = v)) ↔ w ∈ s3.resetBelief.hid := by
      intro w
      rw [hhid', mem_hid, mem_hid]
      have : s3.resetBelief.obs = s.obs ++ [v] := by
        show AMap.keys s3.evidences = _
        rw [hev3, obs_append]
      rw [this]
      have hvars : s3.resetBelief.vars = s.vars := hfr.vars
      rw [hvars]
      simp only [List.mem_append, List.mem_singleton]
      tauto
    show Clusters.Parts s3.activeKeys _ (s3.clusters.map (·.nodes))
    rw [hcl3]
    refine (hp2.congr hhid).congr_nb ?_
    intro u _ w _
    rw [activeKeys_iff, activeKeys_iff, ha3]
    rfl
  · intro c' hc'
    have hc'' : c' ∈ cs := by rw [← hcl3]; exact hc'
    rcases hold c' hc'' with ⟨h1, h2⟩ | h
    · exact Or.inl ⟨by rw [← hsm1.clusters]; exact h1, h2⟩
    · exact Or.inr h

theorem Observed.inv {s s' : State F} {v : Var} {k : Nat} (h : Observed s s' v k) (hs : Inv s)
    (hv : v ∈ s.vars) (ho : v ∉ s.obs) (hk : k < v.size) : Inv s' := by
  have hobs : s'.obs = s.obs ++ [v] := by
    show AMap.keys s'.evidences = _
    rw [h.evidences, obs_append]
  refine ⟨⟨h.net, ?_, ?_, ?_, ?_, ?_, ?_, ?_, ?_, ?_, ?_, ?_, ?_, ?_⟩, h.parts, ?_⟩
  · rw [h.frame.heap]; exact hs.heapWF
  · rw [h.frame.vars]; exact hs.posV
  · intro u w p; rw [h.lnk, h.frame.factors, h.frame.heap]; exact hs.link u w p
  · intro w p; rw [h.frame.una, h.frame.factors, h.frame.heap, h.frame.vars]; exact hs.unary w p
  · intro w; rw [h.frame.una]; exact hs.unaNodup w
  · rw [h.frame.factors]; exact hs.facNodup
  · intro p hp
    rw [h.frame.factors] at hp
    simp only [h.frame.heap, h.frame.una, h.lnk]
    exact hs.reg p hp
  · rw [hobs]
    exact List.Nodup.append hs.obsNodup (by simp) (by simpa using ho)
  · intro w hw
    rw [hobs] at hw
    rw [h.frame.vars]
    rcases List.mem_append.mp hw with h' | h'
    · exact hs.obsMem w h'
    · simp only [List.mem_singleton] at h'; subst h'; exact hv
  · intro w k' hw
    rw [h.evidences, AMap.find?_append] at hw
    cases hf : AMap.find? s.evidences w with
    | some x => rw [hf] at hw; simp at hw; subst hw; exact hs.obsVal w x hf
    | none =>
      rw [hf] at hw
      simp only [Option.none_or, AMap.find?_cons] at hw
      split at hw
      · rename_i hvw; subst hvw; cases hw; exact hk
      · cases hw
  · intro u w hd
    rw [hobs]
    by_cases hu : u = v
    · left; simp [hu]
    · by_cases hw : w = v
      · right; simp [hw]
      · rw [h.dis u w hu hw] at hd
        rcases hs.disObs u w hd with h' | h'
        · left; simp [h']
        · right; simp [h']
  · intro u w c hu hd
    rw [hobs] at hu
    have hu1 : u ∉ s.obs := fun h' => hu (by simp [h'])
    have hu2 : u ≠ v := fun h' => hu (by simp [h'])
    by_cases hw : w = v
    · subst hw
      have hl := h.net.lnk_of_dis hd
      rw [h.lnk] at hl
      obtain ⟨c', m, h1, h2, h3, h4, _⟩ := h.cond u _ hl
      rw [hd] at h1
      injection h1 with h1
      subst h1
      exact ⟨m, h3, h4⟩
    · rw [h.dis u w hu2 hw] at hd
      exact hs.msgH u w c hu1 hd
  · intro u m hm
    rw [h.mrg] at hm
    split at hm
    · cases hm
    · exact hs.mrgT u m hm
  · intro c hc ts hts
    rcases h.old c hc with ⟨h1, h2⟩ | h1
    · refine (hs.topos c h1 ts hts).congr ?_
      intro u hu w
      rw [h.act]
      split
      · rename_i huw
        rcases huw with rfl | rfl
        · exact absurd hu h2
        · have : s.act u w = none := by
            by_contra hne
            have hsome := Option.isSome_iff_ne_none.mpr hne
            have hclosed := hs.parts.closed c.nodes (List.mem_map.mpr ⟨c, h1, rfl⟩) u hu w
              (mem_hid.mpr ⟨hv, ho⟩) (activeKeys_iff.mpr hsome)
            exact h2 hclosed
          rw [this]
      · rfl
    · rw [h1] at hts; cases hts

/-- What `setEvidence` does to an observed variable. -/
structure Reobserved (s s' : State F) (v : Var) (k : Nat) : Prop where
  net : Net s'
  frame : Frame s s'
  last : s'.last = none
  pool : s'.pool = s.pool
  clusters : s'.clusters = s.clusters
  evidences : s'.evidences = AMap.modify s.evidences v (fun _ => k)
  lnk : ∀ u w, s'.lnk u w = s.lnk u w
  act : ∀ u w, s'.act u w = s.act u w
  dis : ∀ u w, w ≠ v → s'.dis u w = s.dis u w
  disS : ∀ u w, (s'.dis u w).isSome = (s.dis u w).isSome
  cond : ∀ u c, s.dis u v = some c → ∃ c' m, s'.dis u v = some c' ∧ c'.factor = c.factor ∧
    c'.message = some m ∧ m.Unary u ∧ IsEvid s c.factor v k m
  mrg : ∀ u, s'.mrg u = if (s.dis u v).isSome then none else s.mrg u

theorem setEvidence_observed {ord : List Var → List Var} (hord : ∀ l, (ord l).Perm l) {s : State F}
    (hs : Core s) {v : Var} (ho : v ∈ s.obs) {k : Nat} (hk : k < v.size) :
    ∃ s', setEvidence ord v k s = .ok s' () ∧ Reobserved s s' v k := by
  have hnet := hs.net
  set s2 : State F := { s with evidences := AMap.modify s.evidences v (fun _ => k) } with hs2
  have hn2 : Net s2 := ⟨hnet.keys, hnet.distinct, hnet.nodup, hnet.excl, hnet.symA, hnet.symL, hnet.memL⟩
  have ht2 : ConnTyped s2 := hs.typed
  have hkeys2 := hord (AMap.keys (s2.disabledOf v))
  have hmemk : ∀ w, w ∈ ord (AMap.keys (s2.disabledOf v)) ↔ (s.dis w v).isSome := by
    intro w
    rw [hkeys2.mem_iff]
    have h1 : w ∈ AMap.keys (s2.disabledOf v) ↔ (s.dis v w).isSome := by
      rw [AMap.mem_keys, Option.isSome_iff_exists]; rfl
    rw [h1]
    exact ⟨hnet.symD, hnet.symD⟩
  obtain ⟨s3, e3, hn3, hf3, hsm3, hm3, hl3, ha3, hd3, hcond⟩ := forEach_condition (v := v) hk
    (l := ord (AMap.keys (s2.disabledOf v))) hn2 ht2 (hkeys2.nodup_iff.mpr (hn2.nodup v).2)
    (fun w hw => (hmemk w).mp hw)
  have hset : setEvidence ord v k s = .ok s3.resetBelief () := by
    unfold setEvidence
    rw [if_neg (by omega), hs.locate_observed ho]
    simp only
    unfold condition
    rw [e3]
  refine ⟨s3.resetBelief, hset, ?_⟩
  refine ⟨⟨hn3.keys, hn3.distinct, hn3.nodup, hn3.excl, hn3.symA, hn3.symL, hn3.memL⟩,
    ⟨hf3.heap, hf3.vars, hf3.keys, hf3.factors, hf3.consts, hf3.maxIter, hf3.tunables, hf3.tuners, hf3.una⟩,
    rfl, hsm3.pool, hsm3.clusters, hsm3.evidences, hl3, ha3, ?_, ?_, ?_, ?_⟩
  · intro u w hw
    exact hd3 u w (fun h => hw h.2)
  · intro u w
    by_cases h : u ∈ ord (AMap.keys (s2.disabledOf v)) ∧ w = v
    · obtain ⟨c, m, h1, _⟩ := hcond u h.1
      have h2 := (hmemk u).mp h.1
      rw [← h.2] at h1 h2
      rw [h2]
      show (s3.dis u w).isSome = true
      rw [h1]; rfl
    · have : s3.dis u w = s2.dis u w := hd3 u w h
      show (s3.dis u w).isSome = _
      rw [this]; rfl
  · intro u c hc
    obtain ⟨c', m, h1, h2, h3, h4, h5⟩ := hcond u ((hmemk u).mpr (by simp [hc]))
    have hl : s.lnk u v = some c.factor := hnet.lnk_of_dis hc
    have h2' : s.lnk u v = some c'.factor := h2
    rw [hl] at h2'
    injection h2' with h2'
    refine ⟨c', m, h1, h2'.symm, h3, h4, ?_⟩
    rw [h2']
    exact h5
  · intro u
    have : s3.mrg u = if u ∈ ord (AMap.keys (s2.disabledOf v)) then none else s.mrg u := hm3 u
    show s3.mrg u = _
    rw [this]
    by_cases h : (s.dis u v).isSome
    · rw [if_pos h, if_pos ((hmemk u).mpr h)]
    · rw [if_neg h, if_neg (fun h' => h ((hmemk u).mp h'))]

theorem Reobserved.core {s s' : State F} {v : Var} {k : Nat} (h : Reobserved s s' v k) (hs : Core s)
    (hk : k < v.size) : Core s' ∧ s'.obs = s.obs := by
  have hobs : s'.obs = s.obs := by
    show AMap.keys s'.evidences = _
    rw [h.evidences, AMap.keys_modify]; rfl
  refine ⟨⟨h.net, ?_, ?_, ?_, ?_, ?_, ?_, ?_, ?_, ?_, ?_, ?_, ?_, ?_⟩, hobs⟩
  · rw [h.frame.heap]; exact hs.heapWF
  · rw [h.frame.vars]; exact hs.posV
  · intro u w p; rw [h.lnk, h.frame.factors, h.frame.heap]; exact hs.link u w p
  · intro w p; rw [h.frame.una, h.frame.factors, h.frame.heap, h.frame.vars]; exact hs.unary w p
  · intro w; rw [h.frame.una]; exact hs.unaNodup w
  · rw [h.frame.factors]; exact hs.facNodup
  · intro p hp
    rw [h.frame.factors] at hp
    simp only [h.frame.heap, h.frame.una, h.lnk]
    exact hs.reg p hp
  · rw [hobs]; exact hs.obsNodup
  · rw [hobs, h.frame.vars]; exact hs.obsMem
  · intro w k' hw
    rw [h.evidences, AMap.find?_modify] at hw
    split at hw
    · rename_i hvw
      subst hvw
      cases hf : AMap.find? s.evidences v with
      | none => rw [hf] at hw; cases hw
      | some x => rw [hf] at hw; simp at hw; omega
    · exact hs.obsVal w k' hw
  · intro u w hd
    rw [h.disS] at hd
    rw [hobs]
    exact hs.disObs u w hd
  · intro u w c hu hd
    rw [hobs] at hu
    by_cases hw : w = v
    · subst hw
      have hsome : (s.dis u w).isSome := by rw [← h.disS]; simp [hd]
      obtain ⟨c0, hc0⟩ := Option.isSome_iff_exists.mp hsome
      obtain ⟨c', m, h1, h2, h3, h4, _⟩ := h.cond u c0 hc0
      rw [hd] at h1
      injection h1 with h1
      subst h1
      exact ⟨m, h3, h4⟩
    · rw [h.dis u w hw] at hd
      exact hs.msgH u w c hu hd
  · intro u m hm
    rw [h.mrg] at hm
    split at hm
    · cases hm
    · exact hs.mrgT u m hm

theorem Reobserved.inv {s s' : State F} {v : Var} {k : Nat} (h : Reobserved s s' v k) (hs : Inv s)
    (hk : k < v.size) : Inv s' := by
  obtain ⟨hc, hobs⟩ := h.core hs.toCore hk
  refine ⟨hc, ?_, ?_⟩
  · have hh : s'.hid = s.hid := by unfold hid; rw [hobs, h.frame.vars]
    rw [hh, h.clusters]
    refine hs.parts.congr_nb ?_
    intro u _ w _
    rw [activeKeys_iff, activeKeys_iff, h.act]
  · intro c hc' ts hts
    rw [h.clusters] at hc'
    exact (hs.topos c hc' ts hts).congr (fun u _ w => by rw [h.act])

/-! ### Removing an evidence -/

/-- What `removeEvidence_` does to an observed variable. -/
structure Released (s s' : State F) (v : Var) : Prop where
  net : Net s'
  frame : Frame s s'
  last : s'.last = none
  pool : s'.pool = s.pool
  clusters : s'.clusters = s.clusters
  evidences : s'.evidences = AMap.erase s.evidences v
  lnk : ∀ u w, s'.lnk u w = s.lnk u w
  act : ∀ u w, s'.act u w = if (u = v ∨ w = v) ∧ (s.dis u w).isSome then
    (s.dis u w).map (fun c => { factor := c.factor, message := none }) else s.act u w
  dis : ∀ u w, s'.dis u w = if u = v ∨ w = v then none else s.dis u w
  mrg : ∀ u, s'.mrg u = if u = v ∨ (s.dis u v).isSome then none else s.mrg u

theorem removeOne_ok {ord : List Var → List Var} (hord : ∀ l, (ord l).Perm l) {s : State F}
    (hs : Core s) {v : Var} (ho : v ∈ s.obs) :
    ∃ s', removeEvidence_ ord v s = .ok s' () ∧ Released s s' v := by
  have hnet := hs.net
  have hv := hs.obsMem v ho
  set s0 : State F := { s.resetBelief with evidences := AMap.erase s.evidences v } with hs0
  have hn0 : Net s0 := ⟨hnet.keys, hnet.distinct, hnet.nodup, hnet.excl, hnet.symA, hnet.symL, hnet.memL⟩
  have hkeys := hord (AMap.keys (s0.disabledOf v))
  have h0 : ∀ w, w ∈ AMap.keys (s0.disabledOf v) ↔ (s.dis v w).isSome := by
    intro w
    rw [AMap.mem_keys, Option.isSome_iff_exists]; rfl
  have hmemk : ∀ w, w ∈ ord (AMap.keys (s0.disabledOf v)) ↔ (s.dis w v).isSome := by
    intro w
    rw [hkeys.mem_iff, h0]
    exact ⟨hnet.symD, hnet.symD⟩
  obtain ⟨s1, e1, hn1, hf1, hsm1, hm1, hl1, ha1, hd1⟩ := forEach_reactivate (v := v)
    (l := ord (AMap.keys (s0.disabledOf v))) hn0 (hkeys.nodup_iff.mpr (hn0.nodup v).2)
    (fun w hw => by rw [hkeys.mem_iff, h0] at hw; exact hw)
  have hstar : ∀ u w, Star v (ord (AMap.keys (s0.disabledOf v))) u w ↔
      (u = v ∨ w = v) ∧ (s.dis u w).isSome := by
    intro u w
    unfold Star
    rw [hmemk, hmemk]
    constructor
    · rintro (⟨rfl, h⟩ | ⟨rfl, h⟩)
      · exact ⟨Or.inl rfl, hnet.symD h⟩
      · exact ⟨Or.inr rfl, h⟩
    · rintro ⟨rfl | rfl, h⟩
      · exact Or.inl ⟨rfl, hnet.symD h⟩
      · exact Or.inr ⟨rfl, h⟩
  have hq := clearMerged_quiet s1 v
  have hrem : removeEvidence_ ord v s = .ok (State.clearMerged v s1) () := by
    unfold removeEvidence_
    rw [hs.evidenceKey? hv, if_pos ho, hnet.nodeKey?_mem hv]
    simp only
    rw [e1]
  refine ⟨_, hrem, hn1.clearMerged v, ?_, ?_, ?_, ?_, ?_, ?_, ?_, ?_, ?_⟩
  · have : Frame s s0 := ⟨rfl, rfl, rfl, rfl, rfl, rfl, rfl, rfl, fun _ => rfl⟩
    exact (this.trans hf1).trans hq.toFrame
  · exact hsm1.last
  · exact hsm1.pool
  · exact hsm1.clusters
  · exact hsm1.evidences
  · intro u w; rw [hq.lnk, hl1]; rfl
  · intro u w
    rw [act_clearMerged, ha1]
    by_cases h : (u = v ∨ w = v) ∧ (s.dis u w).isSome
    · rw [if_pos h, if_pos ((hstar u w).mpr h)]; rfl
    · rw [if_neg h, if_neg (fun h' => h ((hstar u w).mp h'))]; rfl
  · intro u w
    rw [dis_clearMerged, hd1]
    by_cases h : u = v ∨ w = v
    · rw [if_pos h]
      by_cases hsome : (s.dis u w).isSome
      · rw [if_pos ((hstar u w).mpr ⟨h, hsome⟩)]
      · rw [if_neg (fun h' => hsome ((hstar u w).mp h').2)]
        show s.dis u w = none
        simpa using hsome
    · rw [if_neg h, if_neg (fun h' => h ((hstar u w).mp h').1)]; rfl
  · intro u
    rw [mrg_clearMerged, hm1]
    by_cases huv : v = u
    · simp [huv]
    · rw [if_neg huv]
      by_cases h : (s.dis u v).isSome
      · rw [if_pos ((hmemk u).mpr h), if_pos (Or.inr h)]
      · rw [if_neg (fun h' => h ((hmemk u).mp h')), if_neg]
        · rfl
        · rintro (h' | h')
          · exact huv h'.symm
          · exact h h'

theorem Released.obs {s s' : State F} {v : Var} (h : Released s s' v) (w : Var) :
    w ∈ s'.obs ↔ w ∈ s.obs ∧ w ≠ v := by
  show w ∈ AMap.keys s'.evidences ↔ _
  rw [h.evidences, AMap.keys_erase]
  simp [State.obs]

theorem Released.core {s s' : State F} {v : Var} (h : Released s s' v) (hs : Core s) : Core s' := by
  refine ⟨h.net, ?_, ?_, ?_, ?_, ?_, ?_, ?_, ?_, ?_, ?_, ?_, ?_, ?_⟩
  · rw [h.frame.heap]; exact hs.heapWF
  · rw [h.frame.vars]; exact hs.posV
  · intro u w p; rw [h.lnk, h.frame.factors, h.frame.heap]; exact hs.link u w p
  · intro w p; rw [h.frame.una, h.frame.factors, h.frame.heap, h.frame.vars]; exact hs.unary w p
  · intro w; rw [h.frame.una]; exact hs.unaNodup w
  · rw [h.frame.factors]; exact hs.facNodup
  · intro p hp
    rw [h.frame.factors] at hp
    simp only [h.frame.heap, h.frame.una, h.lnk]
    exact hs.reg p hp
  · show (AMap.keys s'.evidences).Nodup
    rw [h.evidences]
    exact AMap.nodup_erase hs.obsNodup v
  · intro w hw
    rw [h.frame.vars]
    exact hs.obsMem w ((h.obs w).mp hw).1
  · intro w k' hw
    rw [h.evidences, AMap.find?_erase] at hw
    split at hw
    · cases hw
    · exact hs.obsVal w k' hw
  · intro u w hd
    rw [h.dis] at hd
    split at hd
    · cases hd
    · rename_i hne
      rcases hs.disObs u w hd with h' | h'
      · exact Or.inl ((h.obs u).mpr ⟨h', fun e => hne (Or.inl e)⟩)
      · exact Or.inr ((h.obs w).mpr ⟨h', fun e => hne (Or.inr e)⟩)
  · intro u w c hu hd
    rw [h.dis] at hd
    split at hd
    · cases hd
    · rename_i hne
      refine hs.msgH u w c (fun h' => hu ((h.obs u).mpr ⟨h', fun e => hne (Or.inl e)⟩)) hd
  · intro u m hm
    rw [h.mrg] at hm
    split at hm
    · cases hm
    · exact hs.mrgT u m hm

theorem resetState_inv {ord : List Var → List Var} (hord : ∀ l, (ord l).Perm l) {s : State F}
    (hs : Core s) : Inv (resetState ord s) := by
  have hq : Frame s (resetState ord s) := ⟨rfl, rfl, rfl, rfl, rfl, rfl, rfl, rfl, fun _ => rfl⟩
  have hc : Core (resetState ord s) := ⟨⟨hs.net.keys, hs.net.distinct, hs.net.nodup, hs.net.excl,
    hs.net.symA, hs.net.symL, hs.net.memL⟩, hs.heapWF, hs.posV, hs.link, hs.unary, hs.unaNodup,
    hs.facNodup, hs.reg, hs.obsNodup, hs.obsMem, hs.obsVal, hs.disObs, hs.msgH, hs.mrgT⟩
  refine ⟨hc, ?_, ?_⟩
  · show Clusters.Parts s.activeKeys s.hid ((Clusters.make s.activeKeys (ord _)).map (·.nodes))
    rw [make_nodes]
    have hfilt := hord ((AMap.keys s.nodes).filter (fun v => (s.evidenceKey? v).isNone))
    have hmem : ∀ v, v ∈ ord ((AMap.keys s.nodes).filter (fun v => (s.evidenceKey? v).isNone)) ↔ v ∈ s.hid := by
      intro v
      rw [hfilt.mem_iff, List.mem_filter, hs.net.keys, mem_hid]
      constructor
      · rintro ⟨h1, h2⟩
        rw [hs.evidenceKey? h1] at h2
        refine ⟨h1, fun h3 => ?_⟩
        rw [if_pos h3] at h2; cases h2
      · rintro ⟨h1, h2⟩
        rw [hs.evidenceKey? h1, if_neg h2]
        exact ⟨h1, rfl⟩
    refine (Clusters.compute_parts ?_ ?_).congr hmem
    · refine hfilt.nodup_iff.mpr (List.Nodup.filter _ ?_)
      rw [hs.net.keys]; exact hs.net.distinct.nodup
    · intro u _ w _ hw
      rw [activeKeys_iff] at hw ⊢
      exact hs.net.symA u w hw
  · intro c hc' ts hts
    have : c ∈ Clusters.make s.activeKeys (ord _) := hc'
    unfold Clusters.make at this
    obtain ⟨l, _, rfl⟩ := List.mem_map.mp this
    cases hts

theorem removeOne_throw {ord : List Var → List Var} {s : State F} {v : Var}
    (h : ∀ w ∈ s.obs, w.eqv v = false) : removeEvidence_ ord v s = .throw s := by
  unfold removeEvidence_
  have : s.evidenceKey? v = none := by
    unfold evidenceKey?
    rw [List.find?_eq_none]
    intro w hw
    simpa using h w hw
  rw [this]

theorem removeOne_eqv {ord : List Var → List Var} {s : State F} {v w : Var}
    (h : v.eqv w = true) : removeEvidence_ ord v s = removeEvidence_ ord w s := by
  unfold removeEvidence_ evidenceKey? nodeKey?
  rw [eqv_pred h]

theorem setEvidence_eqv {ord : List Var → List Var} {s : State F} {v w : Var} {k : Nat}
    (h : v.eqv w = true) : setEvidence ord v k s = setEvidence ord w k s := by
  unfold setEvidence
  rw [locate_eqv s h, (Var.eqv_iff.mp h).2]

end State
end EFG
