import Verif.Lemmas.Inv
/- The insertion of factors preserves the invariant. -/

set_option linter.unusedSectionVars false

namespace EFG
namespace State
variable {F : Type} [Arith F]

/-! ### New variables -/

/-- The state with a new isolated variable. -/
def addVar (v : Var) (s : State F) : State F :=
  { s with
    vars := s.vars ++ [v]
    nodes := s.nodes ++ [(v, Node.fresh)]
    clusters := s.clusters ++ [{ nodes := [v], connectivity := none }] }

theorem node?_addVar (s : State F) (v w : Var) :
    (addVar v s).node? w = (s.node? w).or (if v = w then some Node.fresh else none) := by
  unfold node? addVar
  rw [AMap.find?_append]
  rfl

theorem activeOf_addVar (s : State F) (v w : Var) : (addVar v s).activeOf w = s.activeOf w := by
  unfold activeOf
  rw [node?_addVar]
  cases s.node? w with
  | some n => rfl
  | none => by_cases h : v = w <;> simp [h, Node.fresh]

theorem disabledOf_addVar (s : State F) (v w : Var) : (addVar v s).disabledOf w = s.disabledOf w := by
  unfold disabledOf
  rw [node?_addVar]
  cases s.node? w with
  | some n => rfl
  | none => by_cases h : v = w <;> simp [h, Node.fresh]

theorem una_addVar (s : State F) (v w : Var) : (addVar v s).una w = s.una w := by
  unfold una
  rw [node?_addVar]
  cases s.node? w with
  | some n => rfl
  | none => by_cases h : v = w <;> simp [h, Node.fresh]

theorem mrg_addVar (s : State F) (v w : Var) : (addVar v s).mrg w = s.mrg w := by
  unfold mrg
  rw [node?_addVar]
  cases s.node? w with
  | some n => rfl
  | none => by_cases h : v = w <;> simp [h, Node.fresh]

theorem act_addVar (s : State F) (v u w : Var) : (addVar v s).act u w = s.act u w := by
  unfold act; rw [activeOf_addVar]

theorem dis_addVar (s : State F) (v u w : Var) : (addVar v s).dis u w = s.dis u w := by
  unfold dis; rw [disabledOf_addVar]

theorem lnk_addVar (s : State F) (v u w : Var) : (addVar v s).lnk u w = s.lnk u w := by
  unfold lnk; rw [act_addVar, dis_addVar]

theorem not_mem_of_eqv {l : List Var} {v : Var} (h : ∀ w ∈ l, w.eqv v = false) : v ∉ l := by
  intro hv
  have := h v hv
  rw [Var.eqv_refl] at this; cases this

theorem distinct_snoc {l : List Var} {v : Var} (hd : Distinct l) (h : ∀ w ∈ l, w.eqv v = false) :
    Distinct (l ++ [v]) := by
  unfold Distinct
  rw [List.pairwise_append]
  refine ⟨hd, by simp, ?_⟩
  intro a ha b hb
  simp only [List.mem_singleton] at hb
  subst hb
  have := h a ha
  rintro ⟨h1, h2⟩
  rw [Var.eqv_iff.mpr ⟨h1, h2⟩] at this
  cases this

theorem hid_addVar (s : State F) {v : Var} (h : v ∉ s.obs) : (addVar v s).hid = s.hid ++ [v] := by
  have : (addVar v s).obs = s.obs := rfl
  unfold hid
  rw [this]
  show (s.vars ++ [v]).filter _ = _
  rw [List.filter_append]
  simp [h]

theorem Inv.addVar {s : State F} (hs : Inv s) {v : Var} (hpos : 0 < v.size)
    (hv : ∀ w ∈ s.vars, w.eqv v = false) : Inv (addVar v s) := by
  have hnv := not_mem_of_eqv hv
  have hno : v ∉ s.obs := fun h => hnv (hs.obsMem v h)
  have hvars : (State.addVar v s).vars = s.vars ++ [v] := rfl
  refine ⟨⟨⟨?_, ?_, ?_, ?_, ?_, ?_, ?_⟩, hs.heapWF, ?_, ?_, ?_, ?_, hs.facNodup, ?_, hs.obsNodup, ?_,
    hs.obsVal, ?_, ?_, ?_⟩, ?_, ?_⟩
  · show AMap.keys (s.nodes ++ _) = _
    rw [AMap.keys_append, hs.net.keys]; rfl
  · exact distinct_snoc hs.net.distinct hv
  · intro w; rw [activeOf_addVar, disabledOf_addVar]; exact hs.net.nodup w
  · intro u w; rw [act_addVar, dis_addVar]; exact hs.net.excl u w
  · intro u w; rw [act_addVar, act_addVar]; exact hs.net.symA u w
  · intro u w; rw [lnk_addVar, lnk_addVar]; exact hs.net.symL u w
  · intro u w p h
    rw [lnk_addVar] at h
    obtain ⟨h1, h2, h3⟩ := hs.net.memL u w p h
    rw [hvars]
    exact ⟨by simp [h1], by simp [h2], h3⟩
  · intro w hw
    rw [hvars] at hw
    rcases List.mem_append.mp hw with h | h
    · exact hs.posV w h
    · simp only [List.mem_singleton] at h; subst h; exact hpos
  · intro u w p h; rw [lnk_addVar] at h; exact hs.link u w p h
  · intro w p h
    rw [una_addVar] at h
    obtain ⟨h1, h2, h3⟩ := hs.unary w p h
    exact ⟨h1, by rw [hvars]; simp [h2], h3⟩
  · intro w; rw [una_addVar]; exact hs.unaNodup w
  · intro p hp
    simp only [una_addVar, lnk_addVar]
    exact hs.reg p hp
  · intro w hw
    rw [hvars]
    have := hs.obsMem w hw
    simp [this]
  · intro u w h; rw [dis_addVar] at h; exact hs.disObs u w h
  · intro u w c hu h; rw [dis_addVar] at h; exact hs.msgH u w c hu h
  · intro w m h; rw [mrg_addVar] at h; exact hs.mrgT w m h
  · rw [hid_addVar s hno]
    show Clusters.Parts _ _ ((s.clusters ++ [({ nodes := [v], connectivity := none } : Cluster)]).map (fun c : Cluster => c.nodes))
    rw [List.map_append]
    have hk : (State.addVar v s).activeKeys = s.activeKeys := by
      funext w; unfold activeKeys; rw [activeOf_addVar]
    rw [hk]
    have hnl : ∀ u, s.act u v = none ∧ s.act v u = none := by
      intro u
      constructor
      · cases h : s.act u v with
        | none => rfl
        | some c => exact absurd (hs.net.memL u v _ (lnk_of_act h)).2.1 hnv
      · cases h : s.act v u with
        | none => rfl
        | some c => exact absurd (hs.net.memL v u _ (lnk_of_act h)).1 hnv
    refine hs.parts.fresh (fun h => hnv (mem_hid.mp h).1) ?_ ?_
    · intro u _ h
      rw [activeKeys_iff, (hnl u).1] at h; cases h
    · intro u _ h
      rw [activeKeys_iff, (hnl u).2] at h; cases h
  · intro c hc ts hts
    have hc' : c ∈ s.clusters ++ [{ nodes := [v], connectivity := none }] := hc
    rcases List.mem_append.mp hc' with h | h
    · exact (hs.topos c h ts hts).congr (fun u _ w => by rw [act_addVar])
    · simp only [List.mem_singleton] at h; subst h; cases hts

/-- What `findOrMakeNode` does when it succeeds. -/
def Made (s s' : State F) (v : Var) : Prop :=
  (s' = s ∧ v ∈ s.vars) ∨ ((∀ w ∈ s.vars, w.eqv v = false) ∧ s' = addVar v s)

theorem Made.vars {s s' : State F} {v : Var} (h : Made s s' v) :
    s'.vars = s.vars ++ [v].filter (fun w => !decide (w ∈ s.vars)) := by
  rcases h with ⟨rfl, hv⟩ | ⟨hv, rfl⟩
  · simp [hv]
  · have := not_mem_of_eqv hv
    simp only [List.filter_cons, this, decide_false, Bool.not_false, if_true, List.filter_nil]
    rfl

theorem Made.mem {s s' : State F} {v : Var} (h : Made s s' v) : v ∈ s'.vars := by
  rcases h with ⟨rfl, hv⟩ | ⟨_, rfl⟩
  · exact hv
  · show v ∈ s.vars ++ [v]; simp

theorem Made.inv {s s' : State F} {v : Var} (h : Made s s' v) (hs : Inv s) (hpos : 0 < v.size) :
    Inv s' := by
  rcases h with ⟨rfl, _⟩ | ⟨hv, rfl⟩
  · exact hs
  · exact hs.addVar hpos hv

theorem Made.same {s s' : State F} {v : Var} (h : Made s s' v) :
    (∀ u w, s'.act u w = s.act u w) ∧ (∀ u w, s'.dis u w = s.dis u w) ∧ (∀ u, s'.una u = s.una u) ∧
    (∀ u, s'.mrg u = s.mrg u) ∧ s'.evidences = s.evidences ∧ s'.heap = s.heap ∧ s'.factors = s.factors ∧
    s'.last = s.last ∧ s'.pool = s.pool ∧ s'.consts = s.consts ∧ s'.maxIter = s.maxIter ∧
    s'.tunables = s.tunables ∧ s'.tuners = s.tuners := by
  rcases h with ⟨rfl, _⟩ | ⟨_, rfl⟩
  · exact ⟨fun _ _ => rfl, fun _ _ => rfl, fun _ => rfl, fun _ => rfl, rfl, rfl, rfl, rfl, rfl, rfl, rfl, rfl, rfl⟩
  · exact ⟨act_addVar s v, dis_addVar s v, una_addVar s v, mrg_addVar s v, rfl, rfl, rfl, rfl, rfl, rfl, rfl, rfl, rfl⟩

theorem Made.lnk {s s' : State F} {v : Var} (h : Made s s' v) (u w : Var) : s'.lnk u w = s.lnk u w := by
  unfold State.lnk; rw [h.same.1, h.same.2.1]

theorem Inv.locate_mem {s : State F} (hs : Inv s) {v : Var} (hv : v ∈ s.vars) :
    ∃ loc, s.locate v = some (v, loc) := by
  by_cases ho : v ∈ s.obs
  · exact ⟨_, hs.toCore.locate_observed ho⟩
  · obtain ⟨i, _, _, _, h⟩ := hs.locate_hidden hv ho
    exact ⟨_, h⟩

theorem locate_addVar_new {s : State F} (hs : Inv s) {v : Var} (hv : ∀ w ∈ s.vars, w.eqv v = false)
    (hpos : 0 < v.size) :
    (addVar v s).locate v = some (v, .hidden (some s.clusters.length)) := by
  have hs' := hs.addVar hpos hv
  have hnv := not_mem_of_eqv hv
  have hno : v ∉ (addVar v s).obs := fun h => hnv (hs.obsMem v h)
  have hm : v ∈ (addVar v s).vars := by show v ∈ s.vars ++ [v]; simp
  unfold locate
  rw [hs'.net.nodeKey?_mem hm, hs'.toCore.evidenceKey? hm, if_neg hno]
  have : (addVar v s).clusters.findIdx? (fun c => c.nodes.contains v) = some s.clusters.length := by
    show (s.clusters ++ [_]).findIdx? _ = _
    rw [List.findIdx?_append]
    have h1 : s.clusters.findIdx? (fun c => c.nodes.contains v) = none := by
      rw [List.findIdx?_eq_none_iff]
      intro c hc
      have : v ∉ c.nodes := by
        intro hvc
        have := (hs.parts.mem v).mp (List.mem_flatten.mpr ⟨c.nodes, List.mem_map.mpr ⟨c, hc, rfl⟩, hvc⟩)
        exact hnv (mem_hid.mp this).1
      simpa using this
    rw [h1]
    simp
  simp only [this]

theorem locate_addVar_old {s : State F} (hs : Inv s) {v a : Var} (hv : ∀ w ∈ s.vars, w.eqv v = false)
    (hpos : 0 < v.size) (ha : a ∈ s.vars) : (addVar v s).locate a = s.locate a := by
  have hs' := hs.addVar hpos hv
  have hm : a ∈ (addVar v s).vars := by show a ∈ s.vars ++ [v]; simp [ha]
  have hobs : (addVar v s).obs = s.obs := rfl
  by_cases ho : a ∈ s.obs
  · rw [hs.toCore.locate_observed ho, hs'.toCore.locate_observed (hobs ▸ ho)]
  · obtain ⟨i, c, hc, hac, hl⟩ := hs.locate_hidden ha ho
    rw [hl]
    unfold locate at hl ⊢
    rw [hs.net.nodeKey?_mem ha, hs.toCore.evidenceKey? ha, if_neg ho] at hl
    rw [hs'.net.nodeKey?_mem hm, hs'.toCore.evidenceKey? hm, if_neg (hobs ▸ ho)]
    simp only [Option.some.injEq, Prod.mk.injEq, Loc.hidden.injEq, true_and] at hl ⊢
    show (s.clusters ++ [_]).findIdx? _ = _
    rw [List.findIdx?_append, hl]
    rfl

theorem findOrMake_cases {s : State F} (hs : Inv s) {v : Var} (hpos : 0 < v.size) :
    (∃ s' loc, findOrMakeNode v s = .ok s' (v, loc) ∧ Made s s' v ∧ s'.locate v = some (v, loc)) ∨
    (findOrMakeNode v s = .throw s ∧ ∃ w ∈ s.vars, w.eqv v = true ∧ w ≠ v) := by
  unfold findOrMakeNode
  cases h : s.locate v with
  | none =>
    have hv := hs.net.locate_none h
    exact Or.inl ⟨_, _, rfl, Or.inr ⟨hv, rfl⟩, locate_addVar_new hs hv hpos⟩
  | some e =>
    obtain ⟨n, loc⟩ := e
    obtain ⟨h1, h2⟩ := hs.net.locate_some h
    simp only
    by_cases hne : v = n
    · subst hne
      rw [if_neg (by simp)]
      exact Or.inl ⟨s, loc, rfl, Or.inl ⟨rfl, h1⟩, h⟩
    · rw [if_pos hne]
      exact Or.inr ⟨rfl, n, h1, h2, Ne.symm hne⟩

/-! ### Clusters -/

theorem map_modify_same {α β : Type} (f : α → α) (g : α → β) (h : ∀ a, g (f a) = g a) (l : List α) (i : Nat) :
    (l.modify i f).map g = l.map g := by
  induction l generalizing i with
  | nil => cases i <;> rfl
  | cons a l ih =>
    cases i with
    | zero => simp [List.modify, h]
    | succ i => simp [ih]

theorem mem_modify {α : Type} {f : α → α} {l : List α} {i : Nat} {x : α} (h : x ∈ l.modify i f) :
    (∃ y, l[i]? = some y ∧ x = f y) ∨ ∃ k, k ≠ i ∧ l[k]? = some x := by
  obtain ⟨k, hk⟩ := List.mem_iff_getElem?.mp h
  rw [List.getElem?_modify] at hk
  by_cases hik : i = k
  · subst hik
    simp at hk
    obtain ⟨y, hy, rfl⟩ := hk
    exact Or.inl ⟨y, hy, rfl⟩
  · simp [hik] at hk
    exact Or.inr ⟨k, Ne.symm hik, hk⟩

theorem mergeClusters_spec {s : State F} {nb0 nb' : Var → List Var} {hid0 : List Var}
    (hp : Clusters.Parts nb0 hid0 (s.clusters.map (·.nodes))) {i j : Nat} {ca cb : Cluster}
    (hi : s.clusters[i]? = some ca) (hj : s.clusters[j]? = some cb) {a b : Var} (ha : a ∈ ca.nodes)
    (hb : b ∈ cb.nodes)
    (hnb : ∀ u ∈ hid0, ∀ v ∈ hid0, v ∈ nb' u ↔ v ∈ nb0 u ∨ (u = a ∧ v = b) ∨ (u = b ∧ v = a)) :
    ∃ cs, mergeClusters (some i) (some j) s = .ok { s with clusters := cs } () ∧
      Clusters.Parts nb' hid0 (cs.map (·.nodes)) ∧
      ∀ c ∈ cs, (c ∈ s.clusters ∧ a ∉ c.nodes ∧ b ∉ c.nodes) ∨ c.connectivity = none := by
  obtain ⟨hil, rfl⟩ := List.getElem?_eq_some_iff.mp hi
  obtain ⟨hjl, rfl⟩ := List.getElem?_eq_some_iff.mp hj
  have huniq : ∀ (k l : Nat) (hk : k < s.clusters.length) (hl : l < s.clusters.length) (w : Var),
      w ∈ s.clusters[k].nodes → w ∈ s.clusters[l].nodes → k = l := by
    intro k l hk hl w h1 h2
    exact Clusters.disjoint_of_flatten hp.nodup (i := k) (j := l) (hi := by simpa using hk)
      (hj := by simpa using hl) (w := w) (by simpa using h1) (by simpa using h2)
  unfold mergeClusters
  simp only [hi, hj]
  by_cases hij : i = j
  · subst hij
    rw [if_pos rfl]
    refine ⟨_, rfl, ?_, ?_⟩
    · rw [map_modify_same _ _ (by intro c; rfl)]
      refine hp.link_same ?_ hnb
      intro c hc
      obtain ⟨k, hk⟩ := List.mem_iff_getElem.mp hc
      obtain ⟨hkl, rfl⟩ := hk
      simp only [List.length_map] at hkl
      simp only [List.getElem_map]
      constructor
      · intro h; have := huniq k i hkl hil a h ha; subst this; exact hb
      · intro h; have := huniq k i hkl hil b h hb; subst this; exact ha
    · intro c hc
      rcases mem_modify hc with ⟨y, _, rfl⟩ | ⟨k, hki, hk⟩
      · exact Or.inr rfl
      · left
        obtain ⟨hkl, rfl⟩ := List.getElem?_eq_some_iff.mp hk
        exact ⟨List.getElem_mem hkl, fun h => hki (huniq k i hkl hil a h ha),
          fun h => hki (huniq k i hkl hil b h hb)⟩
  · rw [if_neg hij]
    refine ⟨_, rfl, ?_⟩
    rw [List.modify_modify_eq]
    obtain ⟨rest, hp1, hp2⟩ := Clusters.eraseIdx_modify_perm
      ((fun c => { c with nodes := s.clusters[j].nodes.foldl Clusters.emplace c.nodes }) ∘
        (fun c : Cluster => { c with connectivity := none })) s.clusters i j hil hjl hij
    have hq := hp.perm (hp1.map (·.nodes)).symm
    rw [List.map_cons, List.map_cons] at hq
    have hnd := hq.nodup
    simp only [List.flatten_cons] at hnd
    have hnd1 := List.nodup_append'.mp hnd
    have hnd2 := List.nodup_append'.mp hnd1.2.1
    refine ⟨?_, ?_⟩
    · refine Clusters.Parts.perm ?_ (hp2.map (·.nodes))
      rw [List.map_cons]
      refine hq.link ha hb ?_ ?_ hnb
      · exact Clusters.nodup_foldl_emplace hnd1.1
      · intro v; exact Clusters.mem_foldl_emplace
    · intro c hc
      rcases List.mem_cons.mp (hp2.mem_iff.mp hc) with rfl | h
      · exact Or.inr rfl
      · left
        have hflat : ∀ w ∈ c.nodes, w ∈ (rest.map (·.nodes)).flatten := fun w hw =>
          List.mem_flatten.mpr ⟨c.nodes, List.mem_map.mpr ⟨c, h, rfl⟩, hw⟩
        refine ⟨hp1.mem_iff.mpr (by simp [h]), ?_, ?_⟩
        · intro hac
          exact hnd1.2.2 ha (List.mem_append.mpr (Or.inr (hflat a hac)))
        · intro hbc
          exact hnd2.2.2 hb (hflat b hbc)

/-! ### Unary factors -/

/-- What only the insertion of factors changes, apart from the variables and the factors. -/
structure Kept (s s' : State F) : Prop where
  heap : s'.heap = s.heap
  evidences : s'.evidences = s.evidences
  pool : s'.pool = s.pool
  consts : s'.consts = s.consts
  maxIter : s'.maxIter = s.maxIter
  tunables : s'.tunables = s.tunables
  tuners : s'.tuners = s.tuners

/-- What the insertion of an accepted unary factor does. -/
structure InsertedUnary (s s' : State F) (v : Var) (p : Nat) : Prop where
  inv : Inv s'
  kept : Kept s s'
  last : s'.last = none
  vars : s'.vars = s.vars ++ [v].filter (fun w => !decide (w ∈ s.vars))
  factors : s'.factors = s.factors ++ [p]
  act : ∀ u w, s'.act u w = s.act u w
  dis : ∀ u w, s'.dis u w = s.dis u w
  una : ∀ u, s'.una u = if u = v then s.una u ++ [p] else s.una u
  mrg : ∀ u, s'.mrg u = if u = v then none else s.mrg u

/-- Adding an unary factor to the node of a variable. -/
def pushUnary (v : Var) (p : Nat) (s : State F) : State F :=
  s.updNode v (fun n => { n with unary := n.unary ++ [p], merged := none })

theorem act_pushUnary (s : State F) (v : Var) (p : Nat) (u w : Var) : (pushUnary v p s).act u w = s.act u w := by
  unfold act pushUnary
  rw [activeOf_updNode]
  by_cases h : v = u
  · rw [if_pos h]; unfold activeOf; cases s.node? u <;> rfl
  · rw [if_neg h]

theorem dis_pushUnary (s : State F) (v : Var) (p : Nat) (u w : Var) : (pushUnary v p s).dis u w = s.dis u w := by
  unfold dis pushUnary
  rw [disabledOf_updNode]
  by_cases h : v = u
  · rw [if_pos h]; unfold disabledOf; cases s.node? u <;> rfl
  · rw [if_neg h]

theorem una_pushUnary {s : State F} {v : Var} (hv : v ∈ AMap.keys s.nodes) (p : Nat) (u : Var) :
    (pushUnary v p s).una u = if u = v then s.una u ++ [p] else s.una u := by
  obtain ⟨n, hn⟩ := node?_of_mem hv
  unfold pushUnary
  rw [una_updNode]
  by_cases h : v = u
  · subst h
    rw [if_pos rfl, if_pos rfl]
    unfold una
    simp [hn]
  · rw [if_neg h, if_neg (Ne.symm h)]

theorem mrg_pushUnary (s : State F) (v : Var) (p : Nat) (u : Var) :
    (pushUnary v p s).mrg u = if u = v then none else s.mrg u := by
  unfold pushUnary
  rw [mrg_updNode]
  by_cases h : v = u
  · subst h
    rw [if_pos rfl, if_pos rfl]
    cases s.node? v <;> rfl
  · rw [if_neg h, if_neg (Ne.symm h)]

theorem insertUnary_inv {s : State F} (hs : Inv s) {v : Var} (hv : v ∈ s.vars) {p : Nat} {f : Fn F}
    (hf : s.heap[p]? = some f) (hg : f.vars.group = [v]) (hp : p ∉ s.factors) :
    Inv { pushUnary v p s with factors := s.factors ++ [p] } := by
  have hk : v ∈ AMap.keys s.nodes := hs.net.keys ▸ hv
  set s' : State F := { pushUnary v p s with factors := s.factors ++ [p] } with hs'
  have ha : ∀ u w, s'.act u w = s.act u w := act_pushUnary s v p
  have hd : ∀ u w, s'.dis u w = s.dis u w := dis_pushUnary s v p
  have hl : ∀ u w, s'.lnk u w = s.lnk u w := fun u w => by unfold lnk; rw [ha, hd]
  have hu : ∀ u, s'.una u = if u = v then s.una u ++ [p] else s.una u := una_pushUnary hk p
  have hm : ∀ u, s'.mrg u = if u = v then none else s.mrg u := mrg_pushUnary s v p
  have hfU : f.Unary v := ⟨hs.heapWF f (List.mem_of_getElem? hf), hg⟩
  have hpu : p ∉ s.una v := fun h => hp (hs.unary v p h).1
  refine ⟨⟨⟨?_, hs.net.distinct, ?_, ?_, ?_, ?_, ?_⟩, hs.heapWF, hs.posV, ?_, ?_, ?_, ?_, ?_, hs.obsNodup,
    hs.obsMem, hs.obsVal, ?_, ?_, ?_⟩, ?_, ?_⟩
  · show AMap.keys (AMap.modify s.nodes v _) = _
    rw [AMap.keys_modify]; exact hs.net.keys
  · exact hs.net.nodup.updNode v (fun n h1 h2 => ⟨h1, h2⟩)
  · intro u w; rw [ha, hd]; exact hs.net.excl u w
  · intro u w; rw [ha, ha]; exact hs.net.symA u w
  · intro u w; rw [hl, hl]; exact hs.net.symL u w
  · intro u w q; rw [hl]; exact hs.net.memL u w q
  · intro u w q h
    rw [hl] at h
    obtain ⟨h1, h2⟩ := hs.link u w q h
    exact ⟨List.mem_append.mpr (Or.inl h1), h2⟩
  · intro u q hq
    rw [hu] at hq
    by_cases huv : u = v
    · subst huv
      rw [if_pos rfl] at hq
      rcases List.mem_append.mp hq with h | h
      · obtain ⟨h1, h2⟩ := hs.unary u q h
        exact ⟨List.mem_append.mpr (Or.inl h1), h2⟩
      · simp only [List.mem_singleton] at h
        subst h
        exact ⟨List.mem_append.mpr (Or.inr (by simp)), hv, f, hf, hfU⟩
    · rw [if_neg huv] at hq
      obtain ⟨h1, h2⟩ := hs.unary u q hq
      exact ⟨List.mem_append.mpr (Or.inl h1), h2⟩
  · intro u
    rw [hu]
    split
    · rename_i huv
      subst huv
      exact List.Nodup.append (hs.unaNodup u) (by simp) (by simpa using hpu)
    · exact hs.unaNodup u
  · exact List.Nodup.append hs.facNodup (by simp) (by simpa using hp)
  · intro q hq
    simp only [hl]
    rcases List.mem_append.mp hq with h | h
    · obtain ⟨g, h1, h2⟩ := hs.reg q h
      refine ⟨g, h1, h2.imp ?_ id⟩
      rintro ⟨w, h3, h4⟩
      refine ⟨w, h3, ?_⟩
      rw [hu]
      split
      · simp [h4]
      · exact h4
    · simp only [List.mem_singleton] at h
      subst h
      exact ⟨f, hf, Or.inl ⟨v, hg, by rw [hu, if_pos rfl]; simp⟩⟩
  · intro u w h; rw [hd] at h; exact hs.disObs u w h
  · intro u w c hu' h; rw [hd] at h; exact hs.msgH u w c hu' h
  · intro u m h
    rw [hm] at h
    split at h
    · cases h
    · exact hs.mrgT u m h
  · refine hs.parts.congr_nb ?_
    intro u _ w _
    rw [activeKeys_iff, activeKeys_iff, ha]
  · intro c hc ts hts
    exact (hs.topos c hc ts hts).congr (fun u _ w => by rw [ha])

/-! ### Binary factors -/

/-- What the insertion of an accepted binary factor does. -/
structure InsertedBinary (s s' : State F) (a b : Var) (p : Nat) : Prop where
  inv : Inv s'
  kept : Kept s s'
  last : s'.last = none
  vars : s'.vars = s.vars ++ [a, b].filter (fun w => !decide (w ∈ s.vars))
  factors : s'.factors = s.factors ++ [p]
  una : ∀ u, s'.una u = s.una u
  free : s.lnk a b = none
  lnk : ∀ u w, s'.lnk u w = if Pair a b u w then some p else s.lnk u w
  act : ∀ u w, s'.act u w = if Pair a b u w then
    (if a ∉ s.obs ∧ b ∉ s.obs then some { factor := p, message := none } else none) else s.act u w
  dis : ∀ u w, ¬ Pair a b u w → s'.dis u w = s.dis u w
  cond : ∀ u w, Pair a b u w → u ∉ s.obs → w ∈ s.obs → ∃ c m k, s'.dis u w = some c ∧ c.factor = p ∧
    c.message = some m ∧ m.Unary u ∧ AMap.find? s.evidences w = some k ∧ IsEvid s p w k m
  mrg : ∀ u, s'.mrg u = if (u = a ∧ a ∉ s.obs ∧ b ∈ s.obs) ∨ (u = b ∧ b ∉ s.obs ∧ a ∈ s.obs) then none else s.mrg u

/-- The parts of the invariant which only depend on the links. -/
theorem insertBinary_core {s s' : State F} (hs : Core s) {a b : Var} {p : Nat} {f : Fn F}
    (hn : Net s') (hheap : s'.heap = s.heap) (hvars : s'.vars = s.vars) (hev : s'.evidences = s.evidences)
    (hfac : s'.factors = s.factors ++ [p]) (huna : ∀ u, s'.una u = s.una u)
    (hf : s.heap[p]? = some f) (hg : f.vars.group = [a, b]) (hp : p ∉ s.factors)
    (hfree : s.lnk a b = none)
    (hlnk : ∀ u w, s'.lnk u w = if Pair a b u w then some p else s.lnk u w)
    (hdis : ∀ u w, ¬ Pair a b u w → s'.dis u w = s.dis u w)
    (hobs : (s'.dis a b).isSome → a ∈ s.obs ∨ b ∈ s.obs)
    (hcond : ∀ u w c, Pair a b u w → u ∉ s.obs → s'.dis u w = some c →
      ∃ m, c.message = some m ∧ m.Unary u)
    (hmrg : ∀ u m, s'.mrg u = some m → m.Unary u) : Core s' := by
  have hwf := hs.heapWF f (List.mem_of_getElem? hf)
  have hb : f.Binary a b := Fn.binary_of_perm hwf (by rw [hg])
  have ho : s'.obs = s.obs := by unfold obs; rw [hev]
  refine ⟨hn, ?_, ?_, ?_, ?_, ?_, ?_, ?_, ?_, ?_, ?_, ?_, ?_, hmrg⟩
  · rw [hheap]; exact hs.heapWF
  · rw [hvars]; exact hs.posV
  · intro u w q h
    rw [hlnk] at h
    rw [hfac, hheap]
    by_cases hpr : Pair a b u w
    · rw [if_pos hpr] at h
      cases h
      refine ⟨by simp, f, hf, ?_⟩
      rcases hpr with ⟨rfl, rfl⟩ | ⟨rfl, rfl⟩
      · exact hb
      · exact hb.symm
    · rw [if_neg hpr] at h
      obtain ⟨h1, h2⟩ := hs.link u w q h
      exact ⟨by simp [h1], h2⟩
  · intro w q h
    rw [huna] at h
    obtain ⟨h1, h2⟩ := hs.unary w q h
    rw [hfac, hvars, hheap]
    exact ⟨by simp [h1], h2⟩
  · intro w; rw [huna]; exact hs.unaNodup w
  · rw [hfac]; exact List.Nodup.append hs.facNodup (by simp) (by simpa using hp)
  · intro q hq
    rw [hfac] at hq
    rw [hheap]
    simp only [huna, hlnk]
    rcases List.mem_append.mp hq with h | h
    · obtain ⟨g, h1, h2⟩ := hs.reg q h
      refine ⟨g, h1, h2.imp id ?_⟩
      rintro ⟨u, v, h3, h4⟩
      refine ⟨u, v, h3, ?_⟩
      rw [if_neg]
      · exact h4
      · rintro (⟨rfl, rfl⟩ | ⟨rfl, rfl⟩)
        · rw [hfree] at h4; cases h4
        · rw [hs.net.symL, hfree] at h4; cases h4
    · simp only [List.mem_singleton] at h
      subst h
      exact ⟨f, hf, Or.inr ⟨a, b, hg, by rw [if_pos (show Pair a b a b from Or.inl ⟨rfl, rfl⟩)]⟩⟩
  · rw [ho]; exact hs.obsNodup
  · rw [ho, hvars]; exact hs.obsMem
  · rw [hev]; exact hs.obsVal
  · intro u w h
    rw [ho]
    by_cases hpr : Pair a b u w
    · rcases hpr with ⟨rfl, rfl⟩ | ⟨rfl, rfl⟩
      · exact hobs h
      · exact (hobs (hn.symD h)).symm
    · rw [hdis u w hpr] at h
      exact hs.disObs u w h
  · intro u w c hu h
    rw [ho] at hu
    by_cases hpr : Pair a b u w
    · exact hcond u w c hpr hu h
    · rw [hdis u w hpr] at h
      exact hs.msgH u w c hu h

theorem una_disableWith (s : State F) (a b : Var) (p : Nat) (u : Var) :
    (disableWith a b p s).una u = s.una u := (Frame.disableWith s a b p).una u

/-- The insertion of a binary factor between two variables of the model. -/
theorem connect_spec {s : State F} (hs : Inv s) {a b : Var} (ha : a ∈ s.vars) (hb : b ∈ s.vars)
    (hab : a ≠ b) {p : Nat} {f : Fn F} (hf : s.heap[p]? = some f) (hg : f.vars.group = [a, b])
    (hp : p ∉ s.factors) (hfree : s.lnk a b = none) {la lb : Loc} (hla : s.locate a = some (a, la))
    (hlb : s.locate b = some (b, lb)) (hlast : s.last = none) :
    ∃ s1, connect p f a b la lb s = .ok s1 () ∧
      InsertedBinary s { s1 with factors := s1.factors ++ [p] } a b p := by
  have hwf := hs.heapWF f (List.mem_of_getElem? hf)
  have hbin : f.Binary a b := Fn.binary_of_perm hwf (by rw [hg])
  have hv2 : s.vars = s.vars ++ [a, b].filter (fun w => !decide (w ∈ s.vars)) := by
    simp [ha, hb]
  -- the two mixed cases
  have hybrid : ∀ (h o : Var), Pair a b h o → h ∈ s.vars → o ∈ s.vars → h ≠ o → f.Binary h o → h ∉ s.obs →
      o ∈ s.obs → ∀ k, AMap.find? s.evidences o = some k →
      ∃ s1, hybridInsertion h o k p f s = .ok s1 () ∧
        InsertedBinary s { s1 with factors := s1.factors ++ [p] } a b p := by
    intro h o hpr hh ho hne hbh hho hoo k hk
    obtain ⟨m, hm1, hm2, _, _⟩ := hbh.evidence (hs.obsVal o k hk)
    have hpair : ∀ u w, Pair h o u w ↔ Pair a b u w := by
      intro u w
      rcases hpr with ⟨rfl, rfl⟩ | ⟨rfl, rfl⟩
      · exact Iff.rfl
      · unfold Pair; tauto
    have hfree' : s.lnk h o = none := by
      rcases hpr with ⟨rfl, rfl⟩ | ⟨rfl, rfl⟩
      · exact hfree
      · rw [hs.net.symL]; exact hfree
    obtain ⟨hn1, hl1⟩ := hs.net.disableWith hh ho hne p
    have ha1 := hs.net.act_disableWith hh ho hne p
    have hd1 := hs.net.dis_disableWith hh ho hne p
    set s1 := State.disableWith h o p s with hs1
    obtain ⟨hn2, hl2⟩ := hn1.setDisabledMessage h o (some m)
    set s2 := State.setDisabledMessage h o (some m) s1 with hs2
    have hn3 := hn2.clearMerged h
    have hq := clearMerged_quiet s2 h
    set s3 := State.clearMerged h s2 with hs3
    have hact : ∀ u w, s3.act u w = if Pair a b u w then none else s.act u w := by
      intro u w
      rw [hs3, act_clearMerged, hs2, act_setDisabledMessage, ha1]
      simp only [hpair]
    have hdis : ∀ u w, s3.dis u w = if u = h ∧ w = o then some { factor := p, message := some m }
        else if Pair a b u w then some { factor := p, message := none } else s.dis u w := by
      intro u w
      rw [hs3, dis_clearMerged, hs2, dis_setDisabledMessage, hd1]
      simp only [hpair]
      by_cases huw : u = h ∧ w = o
      · rw [if_pos huw, if_pos huw, if_pos]
        · rfl
        · rw [← hpair]; exact Or.inl huw
      · rw [if_neg huw, if_neg huw]
    have hlnk : ∀ u w, s3.lnk u w = if Pair a b u w then some p else s.lnk u w := by
      intro u w
      rw [hs3, hq.lnk, hl2, hl1]
      simp only [hpair]
    have hmrg : ∀ u, s3.mrg u = if u = h then none else s.mrg u := by
      intro u
      rw [hs3, mrg_clearMerged, hs2, mrg_setDisabledMessage, hs1, mrg_disableWith]
      by_cases hu : h = u
      · simp [hu]
      · rw [if_neg hu, if_neg (Ne.symm hu)]
    have hfr : Frame s s3 := ((Frame.disableWith s h o p).trans
      (Frame.setDisabledMessage s1 h o (some m))).trans hq.toFrame
    have hmem : ¬ (o = h) := fun e => hne e.symm
    have hexec : hybridInsertion h o k p f s = .ok s3 () := by
      unfold hybridInsertion
      rw [hm1]
    set s4 : State F := { s3 with factors := s3.factors ++ [p] } with hs4
    have hfac : s4.factors = s.factors ++ [p] := by
      show s3.factors ++ [p] = _
      rw [hfr.factors]
    have hn4 : Net s4 := ⟨hn3.keys, hn3.distinct, hn3.nodup, hn3.excl, hn3.symA, hn3.symL, hn3.memL⟩
    have hoor : a ∈ s.obs ∨ b ∈ s.obs := by
      rcases hpr with ⟨rfl, rfl⟩ | ⟨rfl, rfl⟩
      · exact Or.inr hoo
      · exact Or.inl hoo
    have hcore : Core s4 := by
      refine insertBinary_core hs.toCore hn4 hfr.heap hfr.vars rfl hfac hfr.una hf hg hp hfree hlnk ?_
        (fun _ => hoor) ?_ ?_
      · intro u w hnp
        show s3.dis u w = _
        rw [hdis, if_neg, if_neg hnp]
        intro h'; exact hnp ((hpair u w).mp (Or.inl h'))
      · intro u w c hpr' hu hd
        have hd' : s3.dis u w = some c := hd
        have huh : u = h ∧ w = o := by
          rcases (hpair u w).mpr hpr' with h' | h'
          · exact h'
          · exact absurd (h'.1 ▸ hoo) hu
        rw [hdis, if_pos huh] at hd'
        cases hd'
        exact ⟨m, rfl, huh.1 ▸ hm2⟩
      · intro u m' hm'
        have hm'' : s3.mrg u = some m' := hm'
        rw [hmrg] at hm''
        split at hm''
        · cases hm''
        · exact hs.mrgT u m' hm''
    have hactS : ∀ u w, (s3.act u w).isSome = (s.act u w).isSome := by
      intro u w
      rw [hact]
      split
      · rename_i hpr'
        have : s.lnk u w = none := by
          rcases hpr' with ⟨rfl, rfl⟩ | ⟨rfl, rfl⟩
          · exact hfree
          · rw [hs.net.symL]; exact hfree
        cases hc : s.act u w with
        | none => rfl
        | some c => rw [lnk_of_act hc] at this; cases this
      · rfl
    refine ⟨s3, hexec, ⟨hcore, ?_, ?_⟩, ⟨hfr.heap, rfl, rfl, hfr.consts, hfr.maxIter, hfr.tunables, hfr.tuners⟩,
      hlast, ?_, hfac, hfr.una, hfree, hlnk, ?_, ?_, ?_, ?_⟩
    · have hh' : s4.hid = s.hid := by
        unfold hid
        have h1 : s4.vars = s.vars := hfr.vars
        have h2 : s4.obs = s.obs := rfl
        rw [h1, h2]
      rw [hh']
      refine hs.parts.congr_nb ?_
      intro u _ w _
      rw [activeKeys_iff, activeKeys_iff]
      have := hactS u w
      exact Bool.eq_iff_iff.mp this
    · intro c hc ts hts
      exact (hs.topos c hc ts hts).congr (fun u _ w => hactS u w)
    · have : s4.vars = s.vars := hfr.vars
      rw [this]; exact hv2
    · intro u w
      have hno : ¬ (a ∉ s.obs ∧ b ∉ s.obs) := by
        rintro ⟨h1, h2⟩; rcases hoor with h' | h'
        · exact h1 h'
        · exact h2 h'
      rw [if_neg hno]
      exact hact u w
    · intro u w hnp
      show s3.dis u w = _
      rw [hdis, if_neg, if_neg hnp]
      intro h'; exact hnp ((hpair u w).mp (Or.inl h'))
    · intro u w hpr' hu hw
      have huh : u = h ∧ w = o := by
        rcases (hpair u w).mpr hpr' with h' | h'
        · exact h'
        · exact absurd (h'.1 ▸ hoo) hu
      refine ⟨{ factor := p, message := some m }, m, k, ?_, rfl, rfl, huh.1 ▸ hm2, huh.2 ▸ hk, f, hf, huh.2 ▸ hm1⟩
      show s3.dis u w = _
      rw [hdis, if_pos huh]
    · intro u
      show s3.mrg u = _
      rw [hmrg]
      by_cases hu : u = h
      · subst hu
        rw [if_pos rfl, if_pos]
        rcases hpr with ⟨rfl, rfl⟩ | ⟨rfl, rfl⟩
        · exact Or.inl ⟨rfl, hho, hoo⟩
        · exact Or.inr ⟨rfl, hho, hoo⟩
      · rw [if_neg hu, if_neg]
        rintro (⟨h1, h2, h3⟩ | ⟨h1, h2, h3⟩)
        · rcases hpr with ⟨rfl, rfl⟩ | ⟨rfl, rfl⟩
          · exact hu h1
          · exact h2 hoo
        · rcases hpr with ⟨rfl, rfl⟩ | ⟨rfl, rfl⟩
          · exact h2 hoo
          · exact hu h1
  by_cases hao : a ∈ s.obs
  · have := hs.toCore.locate_observed hao
    rw [hla] at this
    cases this
    obtain ⟨ka, hka⟩ := AMap.mem_keys.mp hao
    by_cases hbo : b ∈ s.obs
    · have := hs.toCore.locate_observed hbo
      rw [hlb] at this
      cases this
      -- both observed
      unfold connect
      simp only
      obtain ⟨hn1, hl1⟩ := hs.net.disableWith ha hb hab p
      have ha1 := hs.net.act_disableWith ha hb hab p
      have hd1 := hs.net.dis_disableWith ha hb hab p
      have hfr := Frame.disableWith s a b p
      refine ⟨_, rfl, ?_⟩
      set s1 := State.disableWith a b p s with hs1
      set s4 : State F := { s1 with factors := s1.factors ++ [p] } with hs4
      have hfac : s4.factors = s.factors ++ [p] := by
        show s1.factors ++ [p] = _
        rw [hfr.factors]
      have hn4 : Net s4 := ⟨hn1.keys, hn1.distinct, hn1.nodup, hn1.excl, hn1.symA, hn1.symL, hn1.memL⟩
      have hactS : ∀ u w, (s1.act u w).isSome = (s.act u w).isSome := by
        intro u w
        rw [ha1]
        split
        · rename_i hpr'
          have : s.lnk u w = none := by
            rcases hpr' with ⟨rfl, rfl⟩ | ⟨rfl, rfl⟩
            · exact hfree
            · rw [hs.net.symL]; exact hfree
          cases hc : s.act u w with
          | none => rfl
          | some c => rw [lnk_of_act hc] at this; cases this
        · rfl
      have hcore : Core s4 := by
        refine insertBinary_core hs.toCore hn4 hfr.heap hfr.vars rfl hfac hfr.una hf hg hp hfree hl1 ?_
          (fun _ => Or.inl hao) ?_ ?_
        · intro u w hnp
          show s1.dis u w = _
          rw [hd1, if_neg hnp]
        · intro u w c hpr' hu _
          rcases hpr' with ⟨rfl, rfl⟩ | ⟨rfl, rfl⟩
          · exact absurd hao hu
          · exact absurd hbo hu
        · intro u m' hm'
          have hm'' : s1.mrg u = some m' := hm'
          rw [hs1, mrg_disableWith] at hm''
          exact hs.mrgT u m' hm''
      refine ⟨⟨hcore, ?_, ?_⟩, ⟨hfr.heap, rfl, rfl, hfr.consts, hfr.maxIter, hfr.tunables, hfr.tuners⟩,
        hlast, ?_, hfac, hfr.una, hfree, hl1, ?_, ?_, ?_, ?_⟩
      · have hh' : s4.hid = s.hid := by
          unfold hid
          have h1 : s4.vars = s.vars := hfr.vars
          have h2 : s4.obs = s.obs := rfl
          rw [h1, h2]
        rw [hh']
        refine hs.parts.congr_nb ?_
        intro u _ w _
        rw [activeKeys_iff, activeKeys_iff]
        exact Bool.eq_iff_iff.mp (hactS u w)
      · intro c hc ts hts
        exact (hs.topos c hc ts hts).congr (fun u _ w => hactS u w)
      · have : s4.vars = s.vars := hfr.vars
        rw [this]; exact hv2
      · intro u w
        have hno : ¬ (a ∉ s.obs ∧ b ∉ s.obs) := fun h => h.1 hao
        rw [if_neg hno]
        exact ha1 u w
      · intro u w hnp
        show s1.dis u w = _
        rw [hd1, if_neg hnp]
      · intro u w hpr' hu hw
        rcases hpr' with ⟨rfl, rfl⟩ | ⟨rfl, rfl⟩
        · exact absurd hao hu
        · exact absurd hbo hu
      · intro u
        show s1.mrg u = _
        rw [hs1, mrg_disableWith, if_neg]
        rintro (⟨h1, h2, h3⟩ | ⟨h1, h2, h3⟩)
        · exact h2 hao
        · exact h2 hbo
    · obtain ⟨j, cb, _, _, hlb'⟩ := hs.locate_hidden hb hbo
      rw [hlb] at hlb'
      cases hlb'
      unfold connect
      simp only [evidenceValue, hka, Res.ofOption_some]
      exact hybrid b a (Or.inr ⟨rfl, rfl⟩) hb ha hab.symm hbin.symm hbo hao ka hka
  · obtain ⟨i, ca, hci, hac, hla'⟩ := hs.locate_hidden ha hao
    rw [hla] at hla'
    cases hla'
    by_cases hbo : b ∈ s.obs
    · have := hs.toCore.locate_observed hbo
      rw [hlb] at this
      cases this
      obtain ⟨kb, hkb⟩ := AMap.mem_keys.mp hbo
      unfold connect
      simp only [evidenceValue, hkb, Res.ofOption_some]
      exact hybrid a b (Or.inl ⟨rfl, rfl⟩) ha hb hab hbin hao hbo kb hkb
    · obtain ⟨j, cb, hcj, hbc, hlb'⟩ := hs.locate_hidden hb hbo
      rw [hlb] at hlb'
      cases hlb'
      -- both hidden
      unfold connect
      simp only
      obtain ⟨hn1, hl1⟩ := hs.net.activate ha hb hab p
      have ha1 := hs.net.act_activate ha hb hab p
      have hd1 := hs.net.dis_activate ha hb hab p
      have hfr := Frame.activate s a b p
      set s1 := State.activate a b p s with hs1
      have hdfree : ∀ u w, Pair a b u w → s.dis u w = none := by
        intro u w hpr
        have : s.lnk u w = none := by
          rcases hpr with ⟨rfl, rfl⟩ | ⟨rfl, rfl⟩
          · exact hfree
          · rw [hs.net.symL]; exact hfree
        cases hc : s.dis u w with
        | none => rfl
        | some c => rw [hs.net.lnk_of_dis hc] at this; cases this
      obtain ⟨cs, e, hparts, hold⟩ := mergeClusters_spec (s := s1) (nb0 := s.activeKeys)
        (nb' := s1.activeKeys) (hid0 := s.hid) hs.parts hci hcj hac hbc (by
          intro u _ w _
          rw [activeKeys_iff, activeKeys_iff, ha1]
          by_cases hpr : Pair a b u w
          · rw [if_pos hpr]; simp only [Option.isSome_some, true_iff]; right; exact hpr
          · rw [if_neg hpr]
            constructor
            · exact Or.inl
            · rintro (h | h)
              · exact h
              · exact absurd h hpr)
      refine ⟨_, e, ?_⟩
      set s4 : State F := { s1 with clusters := cs, factors := s1.factors ++ [p] } with hs4
      have hfac : s4.factors = s.factors ++ [p] := by
        show s1.factors ++ [p] = _
        rw [hfr.factors]
      have hn4 : Net s4 := ⟨hn1.keys, hn1.distinct, hn1.nodup, hn1.excl, hn1.symA, hn1.symL, hn1.memL⟩
      have hcore : Core s4 := by
        refine insertBinary_core hs.toCore hn4 hfr.heap hfr.vars rfl hfac hfr.una hf hg hp hfree hl1 ?_ ?_ ?_ ?_
        · intro u w hnp
          show s1.dis u w = _
          rw [hd1, if_neg hnp]
        · intro h
          have h' : (s1.dis a b).isSome := h
          rw [hd1, if_pos (show Pair a b a b from Or.inl ⟨rfl, rfl⟩)] at h'
          cases h'
        · intro u w c hpr' _ h
          have h' : s1.dis u w = some c := h
          rw [hd1, if_pos hpr'] at h'
          cases h'
        · intro u m' hm'
          have hm'' : s1.mrg u = some m' := hm'
          rw [hs1, mrg_activate] at hm''
          exact hs.mrgT u m' hm''
      refine ⟨⟨hcore, ?_, ?_⟩, ⟨hfr.heap, rfl, rfl, hfr.consts, hfr.maxIter, hfr.tunables, hfr.tuners⟩,
        hlast, ?_, hfac, hfr.una, hfree, hl1, ?_, ?_, ?_, ?_⟩
      · have hh' : s4.hid = s.hid := by
          unfold hid
          have h1 : s4.vars = s.vars := hfr.vars
          have h2 : s4.obs = s.obs := rfl
          rw [h1, h2]
        rw [hh']
        exact hparts
      · intro c hc ts hts
        rcases hold c hc with ⟨h1, h2, h3⟩ | h
        · refine (hs.topos c h1 ts hts).congr ?_
          intro u hu w
          show (s1.act u w).isSome = _
          rw [ha1, if_neg]
          rintro (⟨rfl, _⟩ | ⟨rfl, _⟩)
          · exact h2 hu
          · exact h3 hu
        · rw [h] at hts; cases hts
      · have : s4.vars = s.vars := hfr.vars
        rw [this]; exact hv2
      · intro u w
        have hyes : a ∉ s.obs ∧ b ∉ s.obs := ⟨hao, hbo⟩
        rw [if_pos hyes]
        exact ha1 u w
      · intro u w hnp
        show s1.dis u w = _
        rw [hd1, if_neg hnp]
      · intro u w hpr' hu hw
        rcases hpr' with ⟨rfl, rfl⟩ | ⟨rfl, rfl⟩
        · exact absurd hw hbo
        · exact absurd hw hao
      · intro u
        show s1.mrg u = _
        rw [hs1, mrg_activate, if_neg]
        rintro (⟨h1, h2, h3⟩ | ⟨h1, h2, h3⟩)
        · exact hbo h3
        · exact hao h3

/-! ### `addDistribution` -/

theorem Inv.resetBelief {s : State F} (hs : Inv s) : Inv s.resetBelief := by
  refine hs.quiet' (s' := s.resetBelief) ?_ (fun _ => rfl) rfl
  exact ⟨⟨rfl, rfl, rfl, rfl, rfl, rfl, rfl, rfl, fun _ => rfl⟩, rfl, rfl, fun _ => rfl, fun _ => rfl⟩

theorem connected_eq {s : State F} (a b : Var) : s.connected a b = (s.lnk a b).isSome := by
  unfold connected lnk act dis
  cases AMap.find? (s.activeOf a) b <;> cases AMap.find? (s.disabledOf a) b <;> rfl

/-- The reasons for which a factor is refused. -/
inductive Refused (s : State F) (p : Nat) (f : Fn F) : Prop
  | known : p ∈ s.factors → Refused s p f
  | arity : f.vars.group.length ≠ 1 → f.vars.group.length ≠ 2 → Refused s p f
  | instance_ : f.vars.group.length = 1 ∨ f.vars.group.length = 2 →
      (∃ v ∈ f.vars.group, ∃ w ∈ s.vars, w.eqv v = true ∧ w ≠ v) → Refused s p f
  | connected {a b} : f.vars.group = [a, b] → (s.lnk a b).isSome → Refused s p f

/-- What `addDistribution` does when it succeeds. -/
inductive Inserted (s s' : State F) (p : Nat) (f : Fn F) : Prop
  | unary {v} : f.vars.group = [v] → InsertedUnary s s' v p → Inserted s s' p f
  | binary {a b} : f.vars.group = [a, b] → InsertedBinary s s' a b p → Inserted s s' p f

theorem addDistribution_cases {s : State F} (hs : Inv s) {p : Nat} {f : Fn F} (hf : s.heap[p]? = some f) :
    (∃ s', addDistribution (some p) s = .ok s' () ∧ Inserted s s' p f ∧ ¬ Refused s p f) ∨
    (∃ s', addDistribution (some p) s = .throw s' ∧ Refused s p f ∧ Inv s' ∧
      (s' = s ∨ s' = s.resetBelief ∨ ∃ a b, f.vars.group = [a, b] ∧ (∀ w ∈ s.vars, w.eqv a = false) ∧
        s' = addVar a s.resetBelief)) := by
  have hwf := hs.heapWF f (List.mem_of_getElem? hf)
  unfold addDistribution
  simp only
  by_cases hp : p ∈ s.factors
  · rw [if_pos (by simpa using hp)]
    exact Or.inr ⟨s, rfl, .known hp, hs, Or.inl rfl⟩
  · rw [if_neg (by simpa using hp), deref_eq hf]
    simp only
    have hs0 := hs.resetBelief
    have hne := hwf.group.ne
    match hg : f.vars.group, hne with
    | [v], _ =>
      have hpos : 0 < v.size := hwf.sizes_pos v (by simp [hg])
      unfold addByArity
      simp only [hg, List.length_singleton]
      unfold addUnary
      simp only [hg, List.head?_cons]
      rcases findOrMake_cases hs0 hpos with ⟨s1, loc, e, hmade, _⟩ | ⟨e, hw⟩
      · left
        rw [e]
        simp only
        obtain ⟨h1, h2, h3, h4, h5, h6, h7, h8, h9, h10, h11, h12, h13⟩ := hmade.same
        refine ⟨_, rfl, .unary hg ?_, ?_⟩
        · have hs1 := hmade.inv hs0 hpos
          have hinv := insertUnary_inv hs1 hmade.mem (p := p) (f := f) (by rw [h6]; exact hf) hg
            (by rw [h7]; exact hp)
          have hk : v ∈ AMap.keys s1.nodes := hs1.net.keys ▸ hmade.mem
          refine ⟨hinv, ⟨h6, h5, h9, h10, h11, h12, h13⟩, h8, ?_, ?_, ?_, ?_, ?_, ?_⟩
          · exact hmade.vars
          · show s1.factors ++ [p] = _
            rw [h7]; rfl
          · intro u w
            have := act_pushUnary s1 v p u w
            rw [h1] at this; exact this
          · intro u w
            have := dis_pushUnary s1 v p u w
            rw [h2] at this; exact this
          · intro u
            have := una_pushUnary hk p u
            rw [h3] at this; exact this
          · intro u
            have := mrg_pushUnary s1 v p u
            rw [h4] at this; exact this
        · rintro (h | ⟨h1', _⟩ | ⟨_, v', hv', w, hw, he, hne'⟩ | ⟨h, _⟩)
          · exact hp h
          · simp [hg] at h1'
          · rw [hg] at hv'
            simp only [List.mem_singleton] at hv'
            subst hv'
            rcases hmade with ⟨_, hvm⟩ | ⟨hno, _⟩
            · exact hne' (hs.net.distinct.eq_of_eqv hw hvm he)
            · have := hno w hw; rw [he] at this; cases this
          · rw [hg] at h; simp at h
      · right
        rw [e]
        obtain ⟨w, hw1, hw2, hw3⟩ := hw
        exact ⟨_, rfl, .instance_ (Or.inl (by simp [hg])) ⟨v, by simp [hg], w, hw1, hw2, hw3⟩, hs0, Or.inr (Or.inl rfl)⟩
    | [a, b], _ =>
      have hbin : f.Binary a b := Fn.binary_of_perm hwf (by rw [hg])
      have hposa := hbin.posl
      have hposb := hbin.posr
      unfold addByArity
      simp only [hg, List.length_cons, List.length_nil]
      unfold addBinary
      simp only [hg, List.head?_cons, List.getLast?_cons_cons, List.getLast?_singleton]
      rcases findOrMake_cases hs0 hposa with ⟨s1, la, e, hmade, hla⟩ | ⟨e, hw⟩
      · rw [e]
        simp only
        have hs1 := hmade.inv hs0 hposa
        rcases findOrMake_cases hs1 hposb with ⟨s2, lb, e', hmade', hlb⟩ | ⟨e', hw⟩
        · rw [e']
          simp only
          have hs2 := hmade'.inv hs1 hposb
          have hl2 : ∀ u w, s2.lnk u w = s.lnk u w := fun u w => by rw [hmade'.lnk, hmade.lnk]; rfl
          have hinst : ∀ v ∈ [a, b], ∀ w ∈ s.vars, w.eqv v = true → w = v := by
            intro v hv w hw he
            have hw1 : w ∈ s1.vars := by rw [hmade.vars]; exact List.mem_append.mpr (Or.inl hw)
            have hw2 : w ∈ s2.vars := by rw [hmade'.vars]; exact List.mem_append.mpr (Or.inl hw1)
            have hv2 : v ∈ s2.vars := by
              simp only [List.mem_cons, List.not_mem_nil, or_false] at hv
              rcases hv with rfl | rfl
              · rw [hmade'.vars]; exact List.mem_append.mpr (Or.inl hmade.mem)
              · exact hmade'.mem
            exact hs2.net.distinct.eq_of_eqv hw2 hv2 he
          rw [connected_eq, hl2]
          by_cases hc : (s.lnk a b).isSome
          · rw [if_pos hc]
            right
            obtain ⟨q, hq⟩ := Option.isSome_iff_exists.mp hc
            obtain ⟨ha, hb, _⟩ := hs.net.memL a b q hq
            have e1 : s1 = s.resetBelief := by
              rcases hmade with ⟨h, _⟩ | ⟨hno, _⟩
              · exact h
              · have := hno a ha; rw [Var.eqv_refl] at this; cases this
            have e2 : s2 = s1 := by
              rcases hmade' with ⟨h, _⟩ | ⟨hno, _⟩
              · exact h
              · have := hno b (by rw [e1]; exact hb); rw [Var.eqv_refl] at this; cases this
            exact ⟨_, rfl, .connected hg hc, hs2, Or.inr (Or.inl (e2.trans e1))⟩
          · rw [if_neg hc]
            left
            obtain ⟨h1, h2, h3, h4, h5, h6, h7, h8, h9, h10, h11, h12, h13⟩ := hmade.same
            obtain ⟨h1', h2', h3', h4', h5', h6', h7', h8', h9', h10', h11', h12', h13'⟩ := hmade'.same
            have ha2 : a ∈ s2.vars := by rw [hmade'.vars]; exact List.mem_append.mpr (Or.inl hmade.mem)
            have hla2 : s2.locate a = some (a, la) := by
              rcases hmade' with ⟨rfl, _⟩ | ⟨hno, rfl⟩
              · exact hla
              · rw [locate_addVar_old hs1 hno hposb hmade.mem]; exact hla
            obtain ⟨s3, e3, hins⟩ := connect_spec hs2 ha2 hmade'.mem hbin.ne (p := p) (f := f)
              (by rw [h6', h6]; exact hf) hg (by rw [h7', h7]; exact hp)
              (by rw [hl2]; simpa using hc) hla2 hlb (by rw [h8', h8]; rfl)
            rw [e3]
            have hobs : s2.obs = s.obs := by
              unfold obs; rw [h5', h5]; rfl
            have hev : s2.evidences = s.evidences := by rw [h5', h5]; rfl
            have hhp : s2.heap = s.heap := by rw [h6', h6]; rfl
            refine ⟨_, rfl, .binary hg ⟨hins.inv, ?_, hins.last, ?_, ?_, ?_, ?_, ?_, ?_, ?_, ?_, ?_⟩, ?_⟩
            · have k := hins.kept
              exact ⟨k.heap.trans hhp, k.evidences.trans hev, k.pool.trans (h9'.trans h9),
                k.consts.trans (h10'.trans h10), k.maxIter.trans (h11'.trans h11),
                k.tunables.trans (h12'.trans h12), k.tuners.trans (h13'.trans h13)⟩
            · rw [hins.vars]
              have hb2 := hmade'.mem
              have : [a, b].filter (fun w => !decide (w ∈ s2.vars)) = [] := by simp [ha2, hb2]
              rw [this, List.append_nil, hmade'.vars, hmade.vars, List.append_assoc]
              have hab := hbin.ne
              have hrb : s.resetBelief.vars = s.vars := rfl
              simp only [hrb]
              congr 1
              by_cases hia : a ∈ s.vars <;> by_cases hib : b ∈ s.vars <;>
                simp [hia, hib, hab.symm]
            · rw [hins.factors, h7', h7]; rfl
            · intro u; rw [hins.una, h3', h3]; rfl
            · simpa using hc
            · intro u w; rw [hins.lnk, hl2]
            · intro u w; rw [hins.act, h1', h1, hobs]; rfl
            · intro u w hnp; rw [hins.dis u w hnp, h2', h2]; rfl
            · intro u w hpr hu hw
              obtain ⟨c, m, k, q1, q2, q3, q4, q5, g, q6, q7⟩ := hins.cond u w hpr (by rw [hobs]; exact hu)
                (by rw [hobs]; exact hw)
              exact ⟨c, m, k, q1, q2, q3, q4, by rw [← hev]; exact q5, g, by rw [← hhp]; exact q6, q7⟩
            · intro u
              rw [hins.mrg, h4', h4, hobs]
              rfl
            · rintro (h | ⟨_, h2''⟩ | ⟨_, v', hv', w, hw, he, hne'⟩ | ⟨h, hc'⟩)
              · exact hp h
              · simp [hg] at h2''
              · rw [hg] at hv'
                exact hne' (hinst v' hv' w hw he)
              · rw [hg] at h
                cases h
                exact hc hc'
        · right
          rw [e']
          obtain ⟨w, hw1, hw2, hw3⟩ := hw
          have hwv : w ∈ s.vars := by
            rw [hmade.vars] at hw1
            rcases List.mem_append.mp hw1 with h | h
            · exact h
            · -- the new variable cannot be equal by value to the second one
              exfalso
              have : w = a := by
                have := (List.mem_filter.mp h).1
                simpa using this
              subst this
              have hd := hwf.group.distinct
              rw [hg] at hd
              unfold Distinct at hd
              simp only [List.pairwise_cons, List.mem_singleton, forall_eq] at hd
              exact hd.1 (Var.eqv_iff.mp hw2)
          refine ⟨_, rfl, .instance_ (Or.inr (by simp [hg])) ⟨b, by simp [hg], w, hwv, hw2, hw3⟩, hs1, ?_⟩
          rcases hmade with ⟨rfl, _⟩ | ⟨hno, rfl⟩
          · exact Or.inr (Or.inl rfl)
          · exact Or.inr (Or.inr ⟨a, b, rfl, hno, rfl⟩)
      · right
        rw [e]
        obtain ⟨w, hw1, hw2, hw3⟩ := hw
        exact ⟨_, rfl, .instance_ (Or.inr (by simp [hg])) ⟨a, by simp [hg], w, hw1, hw2, hw3⟩, hs0, Or.inr (Or.inl rfl)⟩
    | a :: b :: c :: l, _ =>
      right
      unfold addByArity
      simp only [hg, List.length_cons]
      exact ⟨_, rfl, .arity (by simp [hg]) (by simp [hg]), hs0, Or.inr (Or.inl rfl)⟩

end State
end EFG
