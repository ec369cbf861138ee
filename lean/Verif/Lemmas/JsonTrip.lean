import Verif.Lemmas.JsonInsert
/- From a model to json and back. -/

set_option linter.unusedSectionVars false

namespace EFG
namespace JsonIn
variable {F : Type} [Arith F]
open State

/-- The exported variables. -/
def exported (ord : VisitOrder) (s : State F) : List (Var × Option Nat) :=
  (ord.vars s.hiddenVariables).map (fun v => (v, none)) ++ (ord.evidences s.evidences).map (fun e => (e.1, some e.2))

theorem exported_fst (ord : VisitOrder) (s : State F) :
    (exported ord s).map Prod.fst = ord.vars s.hiddenVariables ++ (ord.evidences s.evidences).map Prod.fst := by
  unfold exported
  simp [Function.comp_def]

variable {s : State F} {ord : VisitOrder} {tx : FloatText F} {o : ImportOrder}

theorem mem_exported (hord : ord.Perms) (hs : Inv s) (v : Var) : v ∈ (exported ord s).map Prod.fst ↔ v ∈ s.vars := by
  rw [exported_fst, List.mem_append, (hord.vars _).mem_iff, hs.mem_hiddenVariables, ((hord.evidences _).map _).mem_iff]
  have : v ∈ s.evidences.map Prod.fst ↔ s.Observes v := by rw [observes_iff]; rfl
  rw [this]
  unfold Hidden
  constructor
  · rintro (h | h)
    · exact h.1
    · exact hs.obsMem v (observes_iff.mp h)
  · intro h
    by_cases ho : s.Observes v
    · exact Or.inr ho
    · exact Or.inl ⟨h, ho⟩

theorem distinct_exported (hord : ord.Perms) (hs : Inv s) : Distinct ((exported ord s).map Prod.fst) := by
  refine distinct_of_subset hs.net.distinct ?_ (fun v hv => (mem_exported hord hs v).mp hv)
  rw [exported_fst, List.nodup_append]
  refine ⟨?_, ?_, ?_⟩
  · rw [(hord.vars _).nodup_iff, hs.hiddenVariables, List.flatMap_def]
    exact hs.parts.nodup
  · rw [((hord.evidences _).map _).nodup_iff]
    exact hs.obsNodup
  · intro a ha b hb he
    subst he
    have h1 := hs.mem_hiddenVariables.mp ((hord.vars _).mem_iff.mp ha)
    exact h1.2 (observes_iff.mpr (((hord.evidences _).map _).mem_iff.mp hb))

theorem setup_exported (hord : ord.Perms) (hs : Inv s) (hn : s.Named) (hp : s.Portable tx) (hf : o.Fair) :
    Setup tx o ((exported ord s).map Prod.fst) where
  fair := hf
  named u hu w hw h := hn u ((mem_exported hord hs u).mp hu) w ((mem_exported hord hs w).mp hw) h
  names v hv := hp.names v ((mem_exported hord hs v).mp hv)
  sizes v hv := ⟨hp.sizes v ((mem_exported hord hs v).mp hv), hs.posV v ((mem_exported hord hs v).mp hv)⟩

theorem kept_exported (hord : ord.Perms) (hs : Inv s) (hp : s.Portable tx) {p : Nat} (hpf : p ∈ s.factors) {f : Fn F}
    (hf : s.heap[p]? = some f) : Kept tx ((exported ord s).map Prod.fst) f := by
  have hw := hs.heapWF f (List.mem_of_getElem? hf)
  refine ⟨hw, fun v hv => (mem_exported hord hs v).mpr (mem_vars hs hpf hf v hv), ?_, ?_, hp.weights p hpf f hf⟩
  · obtain ⟨f', hf', hreg⟩ := hs.reg p hpf
    rw [hf] at hf'
    cases hf'
    rcases hreg with ⟨v, h3, h4⟩ | ⟨u, v, h3, h4⟩ <;> rw [h3]
    · exact Or.inl rfl
    · exact Or.inr rfl
  · intro q hq
    refine hp.images p hpf f hf q (f.img q) (by rw [← hw.sizes']; exact hq) (hw.findImage hq)

/-- A factor of the model in json, and what is read. -/
structure Item (tx : FloatText F) (o : ImportOrder) (L : List Var) (s : State F) (p : Nat) (g : Fn F) : Prop where
  moved : ∃ f, s.heap[p]? = some f ∧ f.WF ∧ Moved o L f g
  const : ∃ j, JsonOut.const tx s p = .ok j ∧ potential tx o (L.map (ren o L)) j = .ok (g, .const)
  first : g.weight.isSome → ∃ j, JsonOut.tunable tx s none p = .ok j ∧
    potential tx o (L.map (ren o L)) j = .ok (g, .tunable none)
  next : g.weight.isSome → ∀ l, (∀ v ∈ l, v ∈ L) → Distinct l → (l.length = 1 ∨ l.length = 2) →
    ∃ j, JsonOut.tunable tx s (some l) p = .ok j ∧
      potential tx o (L.map (ren o L)) j = .ok (g, .tunable (some (l.map (ren o L))))

theorem item_exported {L : List Var} (hset : Setup tx o L) {p : Nat} {f : Fn F} (hf : s.heap[p]? = some f)
    (hk : Kept tx L f) : ∃ g, Item tx o L s p g := by
  cases hw : f.weight with
  | none =>
    obtain ⟨fields, g, h1, h2, h3⟩ := plain_potential hset hk hw
    have hg : g.weight = none := by rw [h2.weight, hw]
    refine ⟨g, ⟨f, hf, hk.wf, h2⟩, ⟨.obj fields, ?_, h3⟩, (by rw [hg]; intro h; cases h), (by rw [hg]; intro h; cases h)⟩
    unfold JsonOut.const
    rw [deref_eq hf]
    simp only
    rw [hw, h1]
    rfl
  | some w =>
    obtain ⟨fields, g, h1, h2, h3, h4, h5⟩ := exp_potential hset hk hw
    refine ⟨g, ⟨f, hf, hk.wf, h2⟩, ⟨.obj (fields ++ [("tunability", .str ['N'])]), ?_, (h3 .const).mpr rfl⟩, fun _ =>
      ⟨.obj (fields ++ [("tunability", .str ['Y'])] ++ []), ?_, h4⟩, fun _ l hl hd hlen =>
      ⟨.obj (fields ++ [("tunability", .str ['Y'])] ++ [("Share", JsonOut.group l)]), ?_, h5 l hl hd hlen⟩⟩
    · unfold JsonOut.const
      rw [deref_eq hf]
      simp only
      rw [hw, h1]
      rfl
    · unfold JsonOut.tunable
      rw [deref_eq hf]
      simp only
      rw [h1]
    · unfold JsonOut.tunable
      rw [deref_eq hf]
      simp only
      rw [h1]

theorem mapList_forall₂ {α β : Type} {f : α → Res β} {P : α → β → Prop} {l : List α}
    (h : ∀ x ∈ l, ∃ y, f x = .ok y ∧ P x y) : ∃ ys, Res.mapList f l = .ok ys ∧ List.Forall₂ P l ys := by
  rcases Res.mapList_cases (P := P) (Q := fun _ => False) l (fun x hx => Or.inl (h x hx)) with h | ⟨_, _, _, h⟩
  · exact h
  · exact h.elim

/-- A model with its json items. -/
structure Trip (tx : FloatText F) (ord : VisitOrder) (o : ImportOrder) (s : State F) (mv : Nat → Fn F) (cs : List Json)
    (ts : List (List Json)) : Prop where
  items : ∀ p ∈ s.factors, Item tx o ((exported ord s).map Prod.fst) s p (mv p)
  consts : List.Forall₂ (fun p j => potential tx o (((exported ord s).map Prod.fst).map (ren o ((exported ord s).map Prod.fst))) j =
    .ok (mv p, .const)) (ord.factors s.consts) cs
  clusters : List.Forall₂ (ClusterRead tx o (((exported ord s).map Prod.fst).map (ren o ((exported ord s).map Prod.fst))) mv)
    s.tunableClusters ts
  json : JsonOut.convert tx ord s = .ok (.obj [
    ("Variables", .array ((exported ord s).map (fun e => JsonOut.oneVariable e.1 e.2))),
    ("Potentials", .array (cs ++ ts.flatten))])

theorem cluster_mem {s : State F} (ht : Tuned s) {c : List Nat} (hc : c ∈ s.tunableClusters) :
    c ≠ [] ∧ ∀ p ∈ c, p ∈ s.tunables ∧ ∃ f, s.heap[p]? = some f ∧ f.weight.isSome := by
  obtain ⟨t, h6, rfl⟩ := List.mem_map.mp hc
  refine ⟨by simpa using ht.ne t h6, ?_⟩
  intro p hp'
  obtain ⟨b, hb, rfl⟩ := List.mem_map.mp hp'
  exact ⟨(ht.of t h6 b hb).reg, ht.exp _ (ht.of t h6 b hb).reg⟩

theorem trip_exported (hord : ord.Perms) (hs : Inv s) (ht : Tuned s) (hr : Registered s) (hn : s.Named)
    (hp : s.Portable tx) (hf : o.Fair) : ∃ mv cs ts, Trip tx ord o s mv cs ts := by
  have hset := setup_exported (o := o) hord hs hn hp hf
  have : ∀ p, ∃ g, p ∈ s.factors → Item tx o ((exported ord s).map Prod.fst) s p g := by
    intro p
    by_cases hpf : p ∈ s.factors
    · obtain ⟨f, hf', _⟩ := hs.reg p hpf
      obtain ⟨g, hg⟩ := item_exported hset hf' (kept_exported hord hs hp hpf hf')
      exact ⟨g, fun _ => hg⟩
    · exact ⟨Fn.ofGroup ⟨[], []⟩, fun h => absurd h hpf⟩
  choose mv hmv using this
  have hcons : ∀ p ∈ ord.factors s.consts, p ∈ s.factors := by
    intro p hp'
    exact hr.mem_iff.mpr (List.mem_append_left _ ((hord.factors _).mem_iff.mp hp'))
  obtain ⟨cs, h1, h2⟩ := mapList_forall₂ (f := JsonOut.const tx s) (P := fun p j => potential tx o
    (((exported ord s).map Prod.fst).map (ren o ((exported ord s).map Prod.fst))) j = .ok (mv p, .const))
    (l := ord.factors s.consts) (fun p hp' => (hmv p (hcons p hp')).const)
  have hcl : ∀ c ∈ s.tunableClusters, ∃ js, JsonOut.cluster tx s c = .ok js ∧
      ClusterRead tx o (((exported ord s).map Prod.fst).map (ren o ((exported ord s).map Prod.fst))) mv c js := by
    intro c hc
    obtain ⟨hne, hall⟩ := cluster_mem ht hc
    have hfac : ∀ p ∈ c, p ∈ s.factors ∧ (mv p).weight.isSome := by
      intro p hp'
      have h3 := hr.mem_iff.mpr (List.mem_append_right s.consts (hall p hp').1)
      refine ⟨h3, ?_⟩
      obtain ⟨f, hf1, _, hf2⟩ := (hmv p h3).moved
      obtain ⟨_, f', hf3, hf4⟩ := hall p hp'
      rw [hf1] at hf3
      cases hf3
      rw [hf2.weight]; exact hf4
    cases c with
    | nil => exact absurd rfl hne
    | cons p ps =>
      obtain ⟨hp1, hp2⟩ := hfac p (by simp)
      obtain ⟨f, hf1, hfw, hf2⟩ := (hmv p hp1).moved
      have hk := kept_exported hord hs hp hp1 hf1
      obtain ⟨j, hj1, hj2⟩ := (hmv p hp1).first hp2
      obtain ⟨js, hj3, hj4⟩ := mapList_forall₂ (f := JsonOut.tunable tx s (some f.vars.group)) (P := fun q j => potential tx o
        (((exported ord s).map Prod.fst).map (ren o ((exported ord s).map Prod.fst))) j =
          .ok (mv q, .tunable (some (mv p).vars.sorted))) (l := ps) (by
          intro q hq
          obtain ⟨hq1, hq2⟩ := hfac q (by simp [hq])
          obtain ⟨j, hj3, hj4⟩ := (hmv q hq1).next hq2 f.vars.group hk.mem hk.wf.group.distinct hk.arity
          exact ⟨j, hj3, by rw [hj4, hf2.vars]⟩)
      refine ⟨j :: js, ?_, p, ps, j, js, rfl, rfl, hj2, hj4⟩
      unfold JsonOut.cluster
      simp only
      rw [hj1, deref_eq hf1]
      simp only
      rw [hj3]
  obtain ⟨ts, h3, h4⟩ := mapList_forall₂ hcl
  refine ⟨mv, cs, ts, hmv, h2, h4, ?_⟩
  unfold JsonOut.convert
  rw [h1]
  simp only
  rw [h3]
  simp [exported, Function.comp_def]

theorem Trip.plan {mv : Nat → Fn F} {cs : List Json} {ts : List (List Json)} (hord : ord.Perms) (hs : Inv s)
    (hf : o.Fair) (h : Trip tx ord o s mv cs ts) : Plan s (ren o ((exported ord s).map Prod.fst)) mv where
  eqv u v := ren_eqv _ _ u v
  inj u hu v _ he := ren_inj hf ((mem_exported hord hs u).mpr hu) he
  fn p hp := by
    obtain ⟨f, h1, _, h2⟩ := (h.items p hp).moved
    exact ⟨f, h1, h2.vars, h2.reach, h2.weight⟩

/-! ### Evidences -/

theorem evs_exported (ord : VisitOrder) (s : State F) :
    evs (exported ord s) = (ord.evidences s.evidences).map (fun e => (e.1.name, e.2)) := by
  unfold evs exported
  simp [List.filterMap_append, List.filterMap_map, Function.comp_def]

theorem perm_map_preimage {α β : Type} {f : α → β} {l : List β} {l' : List α} (h : l.Perm (l'.map f)) :
    ∃ l'' : List α, l''.Perm l' ∧ l = l''.map f := by
  have h1 : List.Forall₂ (fun b a => b = f a) (l'.map f) l' := by
    rw [List.forall₂_map_left_iff, List.forall₂_same]
    intros; rfl
  obtain ⟨l'', h2, h3⟩ := List.perm_comp_forall₂ h h1
  refine ⟨l'', h3, ?_⟩
  clear h h1 h3
  induction h2 with
  | nil => rfl
  | cons h _ ih => rw [List.map_cons, h, ih]

/-- The end of an import: nothing is lost. -/
theorem PartJ.finishAt {mv : Nat → Fn F} {L : List Var} {E0 : List (String × Nat)} {h0 : Heap F} {order done : List Nat}
    {t : State F} (hs : Inv s) (hf : o.Fair) (hc : s.Covered) (hn : s.Named)
    (hmov : ∀ p ∈ s.factors, ∃ f, s.heap[p]? = some f ∧ f.WF ∧ Moved o L f (mv p)) (hpl : Plan s (ren o L) mv)
    (hE0 : E0.Perm (s.evidences.map (fun e => (e.1.name, e.2)))) (hp : order.Perm s.factors) (hd : done.Perm order)
    (h : PartJ mv h0 order order done t) :
    ∃ t', setEvidences o E0 t = .ok t' () ∧ Reach anyOp t' ∧ Rest t t' ∧ SameModel s t' (ren o L) (pl h0 order) := by
  have hvars : ∀ w, w ∈ t.vars ↔ ∃ v ∈ s.vars, ren o L v = w := by
    intro w
    rw [h.vars]
    constructor
    · rintro ⟨p, hp', hw⟩
      have hpf := hp.mem_iff.mp (hd.mem_iff.mp hp')
      obtain ⟨f, hf1, hf2, _⟩ := hpl.fn p hpf
      rw [hf2] at hw
      obtain ⟨v, hv, he⟩ := List.mem_map.mp hw
      exact ⟨v, mem_vars hs hpf hf1 v hv, he⟩
    · rintro ⟨v, hv, rfl⟩
      obtain ⟨p, hp', f, hf1, hv'⟩ := (hs.vars_iff hc hp v).mpr hv
      obtain ⟨f', hf1', hf2, _⟩ := hpl.fn p (hp.mem_iff.mp hp')
      rw [hf1] at hf1'
      cases hf1'
      exact ⟨p, hd.mem_iff.mpr hp', by rw [hf2]; exact List.mem_map_of_mem hv'⟩
  have hE : (o.evidences E0).Perm
      ((s.evidences.map (fun e => (ren o L e.1, e.2))).map (fun e => (e.1.name, e.2))) := by
    refine (hf.evidences _).trans ?_
    rw [List.map_map]
    exact hE0
  obtain ⟨E, hE1, hE2⟩ := perm_map_preimage hE
  have hkeys : (AMap.keys E).Perm (s.obs.map (ren o L)) := by
    refine (hE1.map _).trans ?_
    unfold State.obs AMap.keys
    rw [List.map_map, List.map_map]
    exact List.Perm.refl _
  have hknd : (AMap.keys E).Nodup := by
    rw [hkeys.nodup_iff]
    refine List.Nodup.map_on ?_ hs.obsNodup
    intro u hu v hv he
    exact hpl.inj u (hs.obsMem u hu) v (hs.obsMem v hv) he
  have hval : ∀ e ∈ E, e.1 ∈ t.vars ∧ e.1 ∉ t.obs ∧ e.2 < e.1.size := by
    intro e he
    obtain ⟨e0, he0, rfl⟩ := List.mem_map.mp (hE1.mem_iff.mp he)
    have hobs : e0.1 ∈ s.obs := List.mem_map_of_mem he0
    refine ⟨(hvars _).mpr ⟨e0.1, hs.obsMem _ hobs, rfl⟩, ?_, ?_⟩
    · show _ ∉ AMap.keys t.evidences
      rw [h.evidences]
      simp [AMap.keys]
    · exact hs.obsVal e0.1 e0.2 (AMap.find?_of_mem hs.obsNodup he0)
  have hnt : t.Named := by
    intro u hu v hv he
    obtain ⟨u0, hu0, rfl⟩ := (hvars u).mp hu
    obtain ⟨v0, hv0, rfl⟩ := (hvars v).mp hv
    rw [hn u0 hu0 v0 hv0 he]
  obtain ⟨t', h1, h2, h3, h4⟩ := absorbEvidences_ok hf.vars E h.reach hknd hval
  refine ⟨t', ?_, h2, h3, ?_⟩
  · rw [← absorbEvidencesByName_eq hf.vars E h.reach hnt hknd hval] at h1
    unfold setEvidences
    rw [hE2]
    unfold absorbEvidencesByName at h1
    rw [← h1]
    clear hE1 hE2 hE hkeys hknd hval h1 h4
    generalize t = t0
    induction E generalizing t0 with
    | nil => rfl
    | cons e E ih =>
      rw [List.map_cons, forEach_cons, forEach_cons]
      simp only
      cases setEvidenceByName o.vars e.1.name e.2 t0 with
      | ok t1 _ => exact ih t1
      | throw _ => rfl
      | ub => rfl
  · refine ⟨fun v _ => ⟨rfl, rfl⟩, hpl.inj, fun w => by rw [h3.vars]; exact hvars w, ?_, ?_, ?_, ?_⟩
    · rw [h4, h.evidences]; exact hE1
    · rw [h3.factors, h.factors]; exact (hd.trans hp).map _
    · intro p hp' q _ he
      exact pl_inj (hp.mem_iff.mpr hp') he
    · intro p hp'
      obtain ⟨f, hf1, hfw, hf2⟩ := hmov p hp'
      refine ⟨f, mv p, hf1, ?_, hf2.sameFactor hfw⟩
      rw [h3.heap]
      exact h.get (hp.mem_iff.mpr hp')

/-- The end of the import: nothing is lost. -/
theorem PartJ.finish {mv : Nat → Fn F} {cs : List Json} {ts : List (List Json)} {h0 : Heap F} {order done : List Nat}
    {t : State F} (hord : ord.Perms) (hs : Inv s) (hf : o.Fair) (hc : s.Covered) (hn : s.Named)
    (htr : Trip tx ord o s mv cs ts) (hp : order.Perm s.factors) (hd : done.Perm order)
    (h : PartJ mv h0 order order done t) :
    ∃ t', setEvidences o (evs (exported ord s)) t = .ok t' () ∧ Reach anyOp t' ∧ Rest t t' ∧
      SameModel s t' (ren o ((exported ord s).map Prod.fst)) (pl h0 order) := by
  refine h.finishAt hs hf hc hn (fun p hp' => (htr.items p hp').moved) (htr.plan hord hs hf) ?_ hp hd
  rw [evs_exported]
  exact (hord.evidences _).map _

/-! ### The whole trip -/

theorem importJson_eq {cs : List Json} {ts : List (List Json)} (hord : ord.Perms) (hs : Inv s)
    (hset : Setup tx o ((exported ord s).map Prod.fst)) (inserts : Bool) (t : State F) :
    importJson tx o inserts (.obj [
      ("Variables", .array ((exported ord s).map (fun e => JsonOut.oneVariable e.1 e.2))),
      ("Potentials", .array (cs ++ ts.flatten))]) t =
    build tx o inserts ⟨((exported ord s).map Prod.fst).map (ren o ((exported ord s).map Prod.fst)), evs (exported ord s)⟩
      (cs ++ ts.flatten) t := by
  unfold importJson
  have h1 : ∀ v ps, (Json.obj [("Variables", v), ("Potentials", ps)]).index "Variables" = .ok v := fun _ _ => rfl
  have h2 : ∀ v ps, (Json.obj [("Variables", v), ("Potentials", ps)]).index "Potentials" = .ok ps := fun _ _ => rfl
  rw [h1, h2]
  simp only
  rw [Json.array_items, Json.array_items]
  have := variables_ok (o := o) (L := (exported ord s).map Prod.fst) (distinct_exported hord hs) hset.named hset.names
    hset.sizes (exported ord s) (done := []) rfl (by
      intro e he x hx
      unfold exported at he
      rcases List.mem_append.mp he with he | he
      · obtain ⟨v, _, rfl⟩ := List.mem_map.mp he
        cases hx
      · obtain ⟨e', he', rfl⟩ := List.mem_map.mp he
        cases hx
        exact hs.obsVal e'.1 e'.2 (AMap.find?_of_mem hs.obsNodup ((hord.evidences _).mem_iff.mp he')))
  have hnil : evs [] = [] := rfl
  simp only [List.map_nil, hnil, List.nil_append] at this
  rw [this]

theorem trip_graph {h0 : Heap F} (hb : Built h0) (hord : ord.Perms) (hf : o.Fair) (hs : Inv s) (ht : Tuned s)
    (hr : Registered s) (hc : s.Covered) (hn : s.Named) (hcl : s.Clustered) (hp : s.Portable tx) :
    ∃ j t, JsonOut.convert tx ord s = .ok j ∧ importJson tx o false j (State.initial h0) = .ok t () ∧ Reach anyOp t ∧
      SameModel s t (ren o ((exported ord s).map Prod.fst)) (pl h0 (fieldOrder ord s)) ∧ t.consts.Perm t.factors ∧
      t.tuners = [] := by
  obtain ⟨mv, cs, ts, htr⟩ := trip_exported (o := o) hord hs ht hr hn hp hf
  have hset := setup_exported (o := o) hord hs hn hp hf
  have hpl := htr.plan hord hs hf
  have hpo := fieldOrder_perm hord hs ht hr hcl
  have hnd := hpo.nodup_iff.mpr hs.facNodup
  have hsub : ∀ p ∈ fieldOrder ord s, p ∈ s.factors := fun p hp' => hpo.mem_iff.mp hp'
  have hjs : List.Forall₂ (fun p j => ∃ k, potential tx o (((exported ord s).map Prod.fst).map (ren o ((exported ord s).map Prod.fst))) j =
      .ok (mv p, k) ∧ (k = .const ∨ false = false)) (fieldOrder ord s) (cs ++ ts.flatten) := by
    unfold fieldOrder
    refine List.rel_append (htr.consts.imp (fun p j h => ⟨.const, h, Or.inr rfl⟩)) ?_
    have hcs := htr.clusters
    clear htr hpl
    generalize s.tunableClusters = C at hcs
    induction hcs with
    | nil => exact .nil
    | cons h _ ih =>
      rw [List.flatten_cons, List.flatten_cons]
      refine List.rel_append ?_ ih
      obtain ⟨p, ps, j, js, rfl, rfl, h1, h2⟩ := h
      exact .cons ⟨_, h1, Or.inr rfl⟩ (h2.imp (fun q j h => ⟨_, h, Or.inr rfl⟩))
  obtain ⟨t1, h1, h2, h3, h4, h5⟩ := PartJ.constLoop (done := []) hs hpl hnd hsub (pend := []) hjs (rest := [])
    (partJ_initial hb mv (fieldOrder ord s)) (by simp)
  rw [List.nil_append] at h2
  obtain ⟨t2, g1, g2, g3, g4⟩ := h2.finish hord hs hf hc hn htr hpo (List.Perm.refl _)
  refine ⟨_, t2, htr.json, ?_, g2, g4, ?_, by rw [g3.tuners, h4]; rfl⟩
  · rw [importJson_eq hord hs hset]
    unfold build
    rw [h1]
    simp only
    unfold andThen cumulated
    exact g1
  · rw [g3.consts, g3.factors, h3, h2.factors]
    exact List.Perm.refl _

theorem trip_field {h0 : Heap F} (hb : Built h0) (hord : ord.Perms) (hf : o.Fair) (hs : Inv s) (ht : Tuned s)
    (hr : Registered s) (hc : s.Covered) (hn : s.Named) (hcl : s.Clustered) (hw : s.EqualWeights) (hu : s.Unambiguous)
    (hp : s.Portable tx) :
    ∃ j t, JsonOut.convert tx ord s = .ok j ∧ importJson tx o true j (State.initial h0) = .ok t () ∧ Reach anyOp t ∧
      SameField s t (ren o ((exported ord s).map Prod.fst)) (pl h0 (fieldOrder ord s)) := by
  obtain ⟨mv, cs, ts, htr⟩ := trip_exported (o := o) hord hs ht hr hn hp hf
  have hset := setup_exported (o := o) hord hs hn hp hf
  have hpl := htr.plan hord hs hf
  have hpo := fieldOrder_perm hord hs ht hr hcl
  have hnd := hpo.nodup_iff.mpr hs.facNodup
  have hsub : ∀ p ∈ fieldOrder ord s, p ∈ s.factors := fun p hp' => hpo.mem_iff.mp hp'
  have hmw : ∀ c ∈ s.tunableClusters, ∀ p ∈ c, ∃ f, s.heap[p]? = some f ∧ f.weight.isSome ∧ (mv p).weight = f.weight := by
    intro c hc' p hp'
    obtain ⟨h1, f, h2, h3⟩ := (cluster_mem ht hc').2 p hp'
    obtain ⟨f', h4, _, h5⟩ := (htr.items p (ht.reg p h1)).moved
    rw [h2] at h4
    cases h4
    exact ⟨f, h2, h3, h5.weight⟩
  obtain ⟨t1, h1, h2, h3, h4, _⟩ := PartJ.constLoop (done := []) (b := true) hs hpl hnd hsub (pend := [])
    (htr.consts.imp (fun p j h => ⟨.const, h, Or.inl rfl⟩)) (rest := s.tunableClusters.flatten)
    (partJ_initial hb mv (fieldOrder ord s)) rfl
  rw [List.nil_append] at h2
  obtain ⟨t2, k1, k2, k3, k4⟩ := h2.clusterLoop hs hpl hnd hsub htr.clusters (by
    intro c hc' p hp'
    obtain ⟨f, _, h6, h7⟩ := hmw c hc' p hp'
    rw [h7]; exact h6) (pend := []) (rest := []) (by simp [fieldOrder])
  have hcl1 : t1.tunableClusters = [] := by unfold tunableClusters; rw [h4]; rfl
  rw [hcl1, List.nil_append] at k4
  rw [List.nil_append] at k1
  have k2' : PartJ mv h0 (fieldOrder ord s) (fieldOrder ord s)
      (ord.factors s.consts ++ s.tunableClusters.flatMap (List.take 1)) t2 := k2
  have hsplit : ∀ C : List (List Nat), (∀ c ∈ C, c ≠ []) →
      (C.flatMap (List.take 1) ++ C.flatMap List.tail).Perm C.flatten := by
    intro C
    induction C with
    | nil => intro _; exact List.Perm.refl _
    | cons c C ih =>
      intro hC
      cases c with
      | nil => exact absurd rfl (hC [] (by simp))
      | cons p ps =>
        have := ih (fun c hc => hC c (by simp [hc]))
        simp only [List.flatMap_cons, List.take_succ_cons, List.take_zero, List.tail_cons, List.flatten_cons,
          List.cons_append, List.nil_append]
        refine List.Perm.cons p ?_
        rw [← List.append_assoc]
        refine (List.perm_append_comm.append_right _).trans ?_
        rw [List.append_assoc]
        exact this.append_left ps
  have hperm : (ord.factors s.consts ++ s.tunableClusters.flatMap (List.take 1) ++ s.tunableClusters.flatMap List.tail).Perm
      (fieldOrder ord s) := by
    unfold fieldOrder
    rw [List.append_assoc]
    exact (hsplit _ (fun c hc => (cluster_mem ht hc).1)).append_left _
  obtain ⟨t3, m1, m2, m3, m4⟩ := PartJ.allRest hs hpl hnd hsub s.tunableClusters (D := []) k2' (by simpa using k4) (by
      intro c hc' p hp'
      unfold fieldOrder
      exact List.mem_append_right _ (List.mem_flatten.mpr ⟨c, by simpa using hc', hp'⟩))
    (hperm.nodup_iff.mpr hnd) (fun c hc => (cluster_mem ht hc).1) (by
      intro c hc'
      obtain ⟨p, hp'⟩ := List.exists_mem_of_ne_nil c (cluster_mem ht hc').1
      obtain ⟨f, h6, h7, _⟩ := hmw c hc' p hp'
      obtain ⟨w, h8⟩ := Option.isSome_iff_exists.mp h7
      refine ⟨w, fun q hq => ?_⟩
      obtain ⟨f', h9, _, h10⟩ := hmw c hc' q hq
      rw [h10, ← h8]
      exact hw c hc' q hq p hp' f' f h9 h6) (by unfold Unambiguous at hu; simpa using hu)
  obtain ⟨t4, g1, g2, g3, g4⟩ := m2.finish hord hs hf hc hn htr hpo hperm
  have hconsts : t4.consts.Perm (s.consts.map (pl h0 (fieldOrder ord s))) := by
    rw [g3.consts, m4, k3, h3]
    exact (hord.factors _).map _
  refine ⟨_, t4, htr.json, ?_, g2, g4, hconsts, ?_, ?_⟩
  · rw [importJson_eq hord hs hset]
    unfold build
    rw [potentials_append, h1]
    simp only
    rw [k1]
    simp only
    unfold andThen
    rw [m1]
    exact g1
  · have a1 : t4.factors.Perm (t4.consts ++ t4.tunables) := reach_registered g2
    have a2 := g4.factors
    have a3 : (s.factors.map (pl h0 (fieldOrder ord s))).Perm
        (s.consts.map (pl h0 (fieldOrder ord s)) ++ s.tunables.map (pl h0 (fieldOrder ord s))) := by
      rw [← List.map_append]
      exact List.Perm.map _ hr
    have a4 := (a1.symm.trans a2).trans a3
    exact (List.perm_append_left_iff _).mp (((hconsts.symm.append_right _)).trans a4)
  · have : t4.tunableClusters = t3.tunableClusters := by unfold tunableClusters; rw [g3.tuners]
    rw [this, m3, List.nil_append]

end JsonIn
end EFG
