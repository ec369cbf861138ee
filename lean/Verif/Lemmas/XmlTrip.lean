import Verif.Lemmas.XmlInsert
/- From a model to xml and back. -/

set_option linter.unusedSectionVars false

namespace EFG
namespace XmlIn
variable {F : Type} [Arith F]
open State
open JsonIn (Plan pl pl_inj PartJ mem_vars cumulated exported exported_fst mem_exported distinct_exported ren ren_eqv
  ren_inj Moved evs evs_exported cluster_mem perm_map_preimage mapList_forall₂ partJ_initial)

/-! ### The roles of the factors -/

/-- The role of a factor in a list of clusters. -/
def roleOf (C : List (List Nat)) : Role := fun p =>
  match C.find? (fun c => c.contains p) with
  | some (p0 :: _) => if p = p0 then some none else some (some p0)
  | _ => none

theorem unique_of_flatten {C : List (List Nat)} (hC : C.flatten.Nodup) {c d : List Nat} (hc : c ∈ C) (hd : d ∈ C) {p : Nat}
    (h1 : p ∈ c) (h2 : p ∈ d) : c = d := by
  induction C with
  | nil => cases hc
  | cons e C ih =>
    rw [List.flatten_cons, List.nodup_append] at hC
    rcases List.mem_cons.mp hc with hc' | hc'
    · rcases List.mem_cons.mp hd with hd' | hd'
      · rw [hc', hd']
      · exact absurd rfl (hC.2.2 p (hc' ▸ h1) p (List.mem_flatten.mpr ⟨d, hd', h2⟩))
    · rcases List.mem_cons.mp hd with hd' | hd'
      · exact absurd rfl (hC.2.2 p (hd' ▸ h2) p (List.mem_flatten.mpr ⟨c, hc', h1⟩))
      · exact ih hC.2.1 hc' hd'

theorem roleOf_mem {C : List (List Nat)} (hC : C.flatten.Nodup) {p0 p : Nat} {ps : List Nat} (hc : p0 :: ps ∈ C)
    (hp : p ∈ p0 :: ps) : roleOf C p = if p = p0 then some none else some (some p0) := by
  have : C.find? (fun c => c.contains p) = some (p0 :: ps) := by
    cases hx : C.find? (fun c => c.contains p) with
    | none =>
      have := List.find?_eq_none.mp hx _ hc
      exact absurd (List.contains_iff_mem.mpr hp) this
    | some d =>
      have h1 := List.contains_iff_mem.mp (List.find?_some (p := fun c : List Nat => c.contains p) hx)
      rw [unique_of_flatten hC (List.mem_of_find?_eq_some hx) hc h1 hp]
  unfold roleOf
  rw [this]

theorem roleOf_none {C : List (List Nat)} {p : Nat} (h : ∀ c ∈ C, p ∉ c) : roleOf C p = none := by
  unfold roleOf
  rw [List.find?_eq_none.mpr]
  intro c hc
  rw [List.contains_iff_mem]
  exact h c hc

theorem roleOf_some {C : List (List Nat)} {p : Nat} {r : Option Nat} (h : roleOf C p = some r) :
    ∃ p0 ps, p0 :: ps ∈ C ∧ p ∈ p0 :: ps ∧ r = if p = p0 then none else some p0 := by
  unfold roleOf at h
  split at h
  · rename_i p0 ps hx
    refine ⟨p0, ps, List.mem_of_find?_eq_some hx, List.contains_iff_mem.mp (List.find?_some (p := fun c : List Nat => c.contains p) hx), ?_⟩
    split at h
    · rename_i he; rw [if_pos he]; exact (Option.some.inj h).symm
    · rename_i he; rw [if_neg he]; exact (Option.some.inj h).symm
  · cases h

theorem roleOf_first {C : List (List Nat)} {p : Nat} (h : roleOf C p = some none) : ∃ ps, p :: ps ∈ C := by
  obtain ⟨p0, ps, h1, h2, h3⟩ := roleOf_some h
  split at h3
  · rename_i he; subst he; exact ⟨ps, h1⟩
  · cases h3

theorem roleOf_next {C : List (List Nat)} {p p0 : Nat} (h : roleOf C p = some (some p0)) :
    ∃ ps, p0 :: ps ∈ C ∧ p ∈ ps := by
  obtain ⟨p1, ps, h1, h2, h3⟩ := roleOf_some h
  split at h3
  · cases h3
  · rename_i he
    cases h3
    exact ⟨ps, h1, by simpa [he] using h2⟩

theorem nodup_cluster {C : List (List Nat)} (hC : C.flatten.Nodup) {c : List Nat} (hc : c ∈ C) : c.Nodup :=
  (List.nodup_flatten.mp hC).1 c hc

theorem roleOf_tail {C : List (List Nat)} (hC : C.flatten.Nodup) {p0 p : Nat} {ps : List Nat} (hc : p0 :: ps ∈ C)
    (hp : p ∈ ps) : roleOf C p = some (some p0) := by
  rw [roleOf_mem hC hc (by simp [hp]), if_neg]
  rintro rfl
  have := nodup_cluster hC hc
  rw [List.nodup_cons] at this
  exact this.1 hp

/-- The clusters are found again, up to their order. -/
theorem grown_perm {C : List (List Nat)} (hC : C.flatten.Nodup) (hne : ∀ c ∈ C, c ≠ []) {order : List Nat}
    (hnd : order.Nodup) (ho : ∀ c ∈ C, ∀ p ∈ c, p ∈ order) (r : Nat → Nat) :
    ∃ l, l.Perm (C.map (fun c => c.map r)) ∧ List.Forall₂ List.Perm
      ((grown (roleOf C) (order.filter (isFirst (roleOf C))) (order.filter (isNext (roleOf C)))).map (fun c => c.map r)) l := by
  have hfirst : (order.filter (isFirst (roleOf C))).Perm (C.filterMap List.head?) := by
    refine (List.perm_ext_iff_of_nodup (hnd.filter _) ?_).mpr ?_
    · clear ho hnd
      induction C with
      | nil => exact List.nodup_nil
      | cons c C ih =>
        cases c with
        | nil => exact absurd rfl (hne [] (by simp))
        | cons p ps =>
          rw [List.flatten_cons, List.nodup_append] at hC
          rw [List.filterMap_cons]
          show (p :: C.filterMap List.head?).Nodup
          rw [List.nodup_cons]
          refine ⟨?_, ih hC.2.1 (fun c hc => hne c (by simp [hc]))⟩
          intro hm
          obtain ⟨c, hc, he⟩ := List.mem_filterMap.mp hm
          exact hC.2.2 p (by simp) p (List.mem_flatten.mpr ⟨c, hc, List.mem_of_head? he⟩) rfl
    · intro p
      rw [List.mem_filter, List.mem_filterMap]
      constructor
      · rintro ⟨_, h2⟩
        obtain ⟨ps, h3⟩ := roleOf_first (by simpa [isFirst] using h2)
        exact ⟨_, h3, rfl⟩
      · rintro ⟨c, hc, he⟩
        cases c with
        | nil => cases he
        | cons p' ps =>
          cases he
          exact ⟨ho _ hc p (by simp), by simp [isFirst, roleOf_mem hC hc (p := p) (by simp)]⟩
  have hpick : ∀ p ∈ order.filter (isFirst (roleOf C)), ∃ c ∈ C, c.head? = some p := by
    intro p hp
    obtain ⟨c, hc, he⟩ := List.mem_filterMap.mp (hfirst.mem_iff.mp hp)
    exact ⟨c, hc, he⟩
  have hall : List.Forall₂ (fun c p => c ∈ C ∧ c.head? = some p) C (C.filterMap List.head?) := by
    have : ∀ D : List (List Nat), (∀ c ∈ D, c ∈ C) →
        List.Forall₂ (fun c p => c ∈ C ∧ c.head? = some p) D (D.filterMap List.head?) := by
      intro D
      induction D with
      | nil => intro _; exact .nil
      | cons c D ih =>
        intro hD
        cases c with
        | nil => exact absurd rfl (hne [] (hD [] (by simp)))
        | cons p ps =>
          rw [List.filterMap_cons]
          exact .cons ⟨hD _ (by simp), rfl⟩ (ih (fun c hc => hD c (by simp [hc])))
    exact this C (fun c hc => hc)
  have hflip : List.Forall₂ (fun p c => c ∈ C ∧ c.head? = some p) (C.filterMap List.head?) C := hall.flip
  obtain ⟨D, h1, h2⟩ := List.perm_comp_forall₂ hfirst hflip
  refine ⟨D.map (fun c => c.map r), h2.map _, ?_⟩
  unfold grown
  rw [List.map_map, List.forall₂_map_left_iff, List.forall₂_map_right_iff]
  refine h1.imp ?_
  rintro p c ⟨hc, he⟩
  show (List.map r _).Perm _
  refine List.Perm.map r ?_
  cases c with
  | nil => cases he
  | cons p' ps =>
    cases he
    refine List.Perm.cons p ?_
    have hcn := nodup_cluster hC hc
    rw [List.nodup_cons] at hcn
    refine (List.perm_ext_iff_of_nodup ((hnd.filter _).filter _) hcn.2).mpr ?_
    intro q
    rw [List.mem_filter, List.mem_filter]
    constructor
    · rintro ⟨_, h4⟩
      obtain ⟨ps', h5, h6⟩ := roleOf_next (by simpa using h4)
      have := unique_of_flatten hC h5 hc (p := p) (by simp) (by simp)
      cases this
      exact h6
    · intro hq
      have := roleOf_tail hC hc hq
      exact ⟨⟨ho _ hc q (by simp [hq]), by simp [isNext, this]⟩, by simp [this]⟩

/-! ### The exported tags -/

/-- The tag of a factor. -/
def Shown (tx : FloatText F) (s : State F) (role : Role) (p : Nat) (t : Tag) : Prop :=
  match role p with
  | none => XmlOut.const tx s p = .ok t
  | some none => XmlOut.tunable tx s none p = .ok t
  | some (some p0) => ∃ f0, s.heap[p0]? = some f0 ∧ XmlOut.tunable tx s (some f0.vars.group) p = .ok t

variable {s : State F} {ord : VisitOrder} {tx : FloatText F} {o : ImportOrder} {files : List Char → Option (List Char)}

theorem setup_of (hord : ord.Perms) (hs : Inv s) (hn : s.Named) (hp : s.Printable tx) (hf : o.Fair)
    {X : List (Var × Option Nat)} (hX : X.Perm (exported ord s)) : Setup o (X.map Prod.fst) := by
  have hm : ∀ v, v ∈ X.map Prod.fst ↔ v ∈ s.vars := fun v => ((hX.map Prod.fst).mem_iff).trans (mem_exported hord hs v)
  refine ⟨hf, ?_, fun u hu w hw h => hn u ((hm u).mp hu) w ((hm w).mp hw) h, fun v hv => hp.names v ((hm v).mp hv),
    fun v hv => ⟨hp.sizes v ((hm v).mp hv), hs.posV v ((hm v).mp hv)⟩⟩
  exact distinct_of_subset hs.net.distinct ((hX.map Prod.fst).nodup_iff.mpr (distinct_exported hord hs).nodup)
    (fun v hv => (hm v).mp hv)

theorem kept_of (hord : ord.Perms) (hs : Inv s) (hp : s.Printable tx) {X : List (Var × Option Nat)}
    (hX : X.Perm (exported ord s)) {p : Nat} (hpf : p ∈ s.factors) {f : Fn F}
    (hf : s.heap[p]? = some f) : Kept tx (X.map Prod.fst) f := by
  have hw := hs.heapWF f (List.mem_of_getElem? hf)
  refine ⟨hw, fun v hv => (hX.map Prod.fst).mem_iff.mpr ((mem_exported hord hs v).mpr (mem_vars hs hpf hf v hv)), ?_, ?_,
    hp.weights p hpf f hf⟩
  · obtain ⟨f', hf', hreg⟩ := hs.reg p hpf
    rw [hf] at hf'
    cases hf'
    rcases hreg with ⟨v, h3, h4⟩ | ⟨u, v, h3, h4⟩ <;> rw [h3]
    · exact Or.inl rfl
    · exact Or.inr rfl
  · intro q hq
    refine hp.images p hpf f hf q (f.img q) (by rw [← hw.sizes']; exact hq) (hw.findImage hq)

theorem clusters_nodup (ht : Tuned s) : s.tunableClusters.flatten.Nodup := by
  rw [flatten_clusters]; exact ht.nodup

/-- The export of a model. -/
theorem convert_ok (hord : ord.Perms) (hs : Inv s) (ht : Tuned s) (hr : Registered s) (hn : s.Named)
    (hp : s.Printable tx) (hf : o.Fair) : ∃ ts, XmlOut.convert tx ord s = .ok (.mk []
      ((exported ord s).map (fun e => ("Variable", XmlOut.oneVariable e.1 e.2)) ++ ts.map (fun t => ("Potential", t)))) ∧
    List.Forall₂ (Shown tx s (roleOf s.tunableClusters)) (fieldOrder ord s) ts := by
  have hset := setup_of (o := o) hord hs hn hp hf (List.Perm.refl _)
  have hitem : ∀ p ∈ s.factors, ∀ f, s.heap[p]? = some f → Item tx (fun _ => none) o ((exported ord s).map Prod.fst) s p f :=
    fun p hpf f hf' => item_exported hset hf' (kept_of hord hs hp (List.Perm.refl _) hpf hf')
  have hC := clusters_nodup ht
  have hdis : ∀ p ∈ s.consts, ∀ c ∈ s.tunableClusters, p ∉ c := by
    intro p hpc c hc hpc'
    have hnd : (s.consts ++ s.tunables).Nodup := hr.nodup_iff.mp hs.facNodup
    exact (List.nodup_append.mp hnd).2.2 p hpc p ((cluster_mem ht hc).2 p hpc').1 rfl
  obtain ⟨cs, h1, h2⟩ := mapList_forall₂ (f := XmlOut.const tx s) (P := Shown tx s (roleOf s.tunableClusters))
    (l := ord.factors s.consts) (by
      intro p hp'
      have hpc := (hord.factors _).mem_iff.mp hp'
      have hpf : p ∈ s.factors := hr.mem_iff.mpr (List.mem_append_left _ hpc)
      obtain ⟨f, hf', _⟩ := hs.reg p hpf
      obtain ⟨t, ht1, _⟩ := (hitem p hpf f hf').const
      refine ⟨t, ht1, ?_⟩
      unfold Shown
      rw [roleOf_none (hdis p hpc)]
      exact ht1)
  have hcl : ∀ c ∈ s.tunableClusters, ∃ js, XmlOut.cluster tx s c = .ok js ∧
      List.Forall₂ (Shown tx s (roleOf s.tunableClusters)) c js := by
    intro c hc
    obtain ⟨hne, hall⟩ := cluster_mem ht hc
    cases c with
    | nil => exact absurd rfl hne
    | cons p ps =>
      obtain ⟨hp1, f, hp2, hp3⟩ := hall p (by simp)
      have hpf := ht.reg p hp1
      have hk := kept_of hord hs hp (List.Perm.refl _) hpf hp2
      obtain ⟨j, hj1, _⟩ := (hitem p hpf f hp2).first hp3
      obtain ⟨js, hj3, hj4⟩ := mapList_forall₂ (f := XmlOut.tunable tx s (some f.vars.group))
        (P := Shown tx s (roleOf s.tunableClusters)) (l := ps) (by
          intro q hq
          obtain ⟨hq1, f', hq2, hq3⟩ := hall q (by simp [hq])
          obtain ⟨j, hj3, _⟩ := (hitem q (ht.reg q hq1) f' hq2).next hq3 f.vars.group hk.mem hk.wf.group.distinct hk.arity
          refine ⟨j, hj3, ?_⟩
          unfold Shown
          rw [roleOf_tail hC hc hq]
          exact ⟨f, hp2, hj3⟩)
      refine ⟨j :: js, ?_, .cons ?_ hj4⟩
      · unfold XmlOut.cluster
        simp only
        rw [hj1, deref_eq hp2]
        simp only
        rw [hj3]
      · unfold Shown
        rw [roleOf_mem hC hc (by simp), if_pos rfl]
        exact hj1
  obtain ⟨ts, h3, h4⟩ := mapList_forall₂ hcl
  refine ⟨cs ++ ts.flatten, ?_, ?_⟩
  · unfold XmlOut.convert
    rw [h1]
    simp only
    rw [h3]
    simp [exported, Function.comp_def]
  · unfold fieldOrder
    refine List.rel_append h2 ?_
    clear h3
    generalize s.tunableClusters = C at h4 ⊢
    have : ∀ R : Nat → Tag → Prop, ∀ {C : List (List Nat)} {ts : List (List Tag)}, List.Forall₂ (List.Forall₂ R) C ts →
        List.Forall₂ R C.flatten ts.flatten := by
      intro R C ts h
      induction h with
      | nil => exact .nil
      | cons h _ ih => rw [List.flatten_cons, List.flatten_cons]; exact List.rel_append h ih
    exact this _ h4

theorem nestedOf_root (X : List (Var × Option Nat)) (ts : List Tag) :
    (Tag.mk [] (X.map (fun e => ("Variable", XmlOut.oneVariable e.1 e.2)) ++ ts.map (fun t => ("Potential", t)))).nestedOf
      "Variable" = X.map (fun e => XmlOut.oneVariable e.1 e.2) ∧
    (Tag.mk [] (X.map (fun e => ("Variable", XmlOut.oneVariable e.1 e.2)) ++ ts.map (fun t => ("Potential", t)))).nestedOf
      "Potential" = ts := by
  unfold Tag.nestedOf Tag.nested
  simp only [List.filter_append, List.map_append, List.filter_map, List.map_map]
  constructor <;> simp [Function.comp_def]

theorem forall₂_choose {α β γ : Type} [DecidableEq α] [Nonempty γ] {Q : α → β → γ → Prop} {l : List α} {l' : List β}
    (h : List.Forall₂ (fun a b => ∃ c, Q a b c) l l') (hnd : l.Nodup) :
    ∃ m : α → γ, List.Forall₂ (fun a b => Q a b (m a)) l l' := by
  induction h with
  | nil => exact ⟨fun _ => Classical.arbitrary γ, .nil⟩
  | @cons a b l l' h1 _ ih =>
    rw [List.nodup_cons] at hnd
    obtain ⟨m, hm⟩ := ih hnd.2
    obtain ⟨c, hc⟩ := h1
    refine ⟨Function.update m a c, .cons (by rw [Function.update_self]; exact hc) ?_⟩
    have : ∀ (k : List α) (k' : List β), (∀ x ∈ k, x ≠ a) → List.Forall₂ (fun a b => Q a b (m a)) k k' →
        List.Forall₂ (fun x y => Q x y (Function.update m a c x)) k k' := by
      intro k k' hk hf
      induction hf with
      | nil => exact .nil
      | cons h _ ih =>
        refine .cons ?_ (ih (fun x hx => hk x (by simp [hx])))
        rw [Function.update_of_ne (hk _ (by simp))]
        exact h
    exact this l l' (fun x hx he => hnd.1 (he ▸ hx)) hm

/-! ### The trip -/

/-- What is read from a reordered file. -/
structure Trip (tx : FloatText F) (files : List Char → Option (List Char)) (o : ImportOrder) (s : State F)
    (root : Tag) (X : List (Var × Option Nat)) (order : List Nat) (mv : Nat → Fn F) (G : Nat → VarSet) : Prop where
  vars : Res.foldList (oneVariable o) ⟨[], []⟩ (root.nestedOf "Variable") =
    .ok ⟨(X.map Prod.fst).map (ren o (X.map Prod.fst)), evs X⟩
  evidences : (evs X).Perm (s.evidences.map (fun e => (e.1.name, e.2)))
  perm : order.Perm s.factors
  items : List.Forall₂ (fun p t => potential tx files o ((X.map Prod.fst).map (ren o (X.map Prod.fst))) t =
    .ok (mv p, kindOf G (roleOf s.tunableClusters p))) order (root.nestedOf "Potential")
  moved : ∀ p ∈ s.factors, ∃ f, s.heap[p]? = some f ∧ f.WF ∧ Moved o (X.map Prod.fst) f (mv p)
  plan : Plan s (ren o (X.map Prod.fst)) mv
  groups : ∀ p ∈ s.factors, G p = (mv p).vars.sorted

theorem trip_ok (hord : ord.Perms) (hs : Inv s) (ht : Tuned s) (hr : Registered s) (hcl : s.Clustered) (hn : s.Named)
    (hp : s.Printable tx) (hf : o.Fair) {root' : Tag} {ts : List Tag}
    (hsh : List.Forall₂ (Shown tx s (roleOf s.tunableClusters)) (fieldOrder ord s) ts)
    (hre : (Tag.mk [] ((exported ord s).map (fun e => ("Variable", XmlOut.oneVariable e.1 e.2)) ++
      ts.map (fun t => ("Potential", t)))).Reordered root') :
    ∃ X order mv G, Trip tx files o s root' X order mv G := by
  obtain ⟨lv, hv1, hv2⟩ := hre.nestedOf "Variable"
  obtain ⟨lp, hp1, hp2⟩ := hre.nestedOf "Potential"
  rw [(nestedOf_root _ _).1] at hv1
  rw [(nestedOf_root _ _).2] at hp1
  obtain ⟨X, hX, rfl⟩ := perm_map_preimage hv1
  have hset := setup_of (o := o) hord hs hn hp hf hX
  have hC := clusters_nodup ht
  obtain ⟨order, ho1, ho2⟩ := List.perm_comp_forall₂ hp1 hsh.flip
  have hpo := ho2.trans (fieldOrder_perm hord hs ht hr hcl)
  have hnd := hpo.nodup_iff.mpr hs.facNodup
  let G : Nat → VarSet := fun p => match s.heap[p]? with
    | some f => f.vars.group.map (ren o (X.map Prod.fst))
    | none => []
  have hitem : ∀ p ∈ s.factors, ∀ f, s.heap[p]? = some f → Item tx files o (X.map Prod.fst) s p f :=
    fun p hpf f hf' => item_exported hset hf' (kept_of hord hs hp hX hpf hf')
  have hread : List.Forall₂ (fun p t' => ∃ g, (∃ f, s.heap[p]? = some f ∧ f.WF ∧ Moved o (X.map Prod.fst) f g) ∧
      potential tx files o ((X.map Prod.fst).map (ren o (X.map Prod.fst))) t' = .ok (g, kindOf G (roleOf s.tunableClusters p)))
      order (root'.nestedOf "Potential") := by
    have hcomb : ∀ {k : List Nat} {l l' : List Tag}, (∀ p ∈ k, p ∈ s.factors) →
        List.Forall₂ (fun t p => Shown tx s (roleOf s.tunableClusters) p t) l k → List.Forall₂ Tag.Reordered l l' →
        List.Forall₂ (fun p t' => ∃ g, (∃ f, s.heap[p]? = some f ∧ f.WF ∧ Moved o (X.map Prod.fst) f g) ∧
          potential tx files o ((X.map Prod.fst).map (ren o (X.map Prod.fst))) t' =
            .ok (g, kindOf G (roleOf s.tunableClusters p))) k l' := by
      intro k l l' hk h1
      induction h1 generalizing l' with
      | nil => intro h2; cases h2; exact .nil
      | @cons t p l k ha _ ih =>
        intro h2
        obtain ⟨t', l'', h3, h4, rfl⟩ := List.forall₂_cons_left_iff.mp h2
        refine .cons ?_ (ih (fun q hq => hk q (by simp [hq])) h4)
        have hpf := hk p (by simp)
        obtain ⟨f, hf', _⟩ := hs.reg p hpf
        have hwf := hs.heapWF f (List.mem_of_getElem? hf')
        have hit := hitem p hpf f hf'
        unfold Shown at ha
        cases hrole : roleOf s.tunableClusters p with
        | none =>
          rw [hrole] at ha
          obtain ⟨t0, h5, h6⟩ := hit.const
          rw [ha] at h5
          cases h5
          obtain ⟨g, h7, h8⟩ := h6 t' h3
          exact ⟨g, ⟨f, hf', hwf, h7⟩, h8⟩
        | some r =>
          obtain ⟨p0, ps, hc1, hc2, hc3⟩ := roleOf_some hrole
          obtain ⟨_, f', hf1, hf2⟩ := (cluster_mem ht hc1).2 p hc2
          rw [hf'] at hf1
          cases hf1
          rw [hrole] at ha
          cases r with
          | none =>
            obtain ⟨t0, h5, h6⟩ := hit.first hf2
            simp only at ha
            rw [ha] at h5
            cases h5
            obtain ⟨g, h7, h8⟩ := h6 t' h3
            exact ⟨g, ⟨f, hf', hwf, h7⟩, h8⟩
          | some p1 =>
            obtain ⟨f0, hg1, hg2⟩ := ha
            have hp0 : p1 = p0 := by
              split at hc3
              · cases hc3
              · exact Option.some.inj hc3
            subst hp0
            have hp0f := ht.reg p1 ((cluster_mem ht hc1).2 p1 (by simp)).1
            have hk0 := kept_of hord hs hp hX hp0f hg1
            obtain ⟨t0, h5, h6⟩ := hit.next hf2 f0.vars.group hk0.mem hk0.wf.group.distinct hk0.arity
            rw [hg2] at h5
            cases h5
            obtain ⟨g, h7, h8⟩ := h6 t' h3
            refine ⟨g, ⟨f, hf', hwf, h7⟩, ?_⟩
            rw [h8]
            show _ = Res.ok (g, ItemKind.tunable (some (G p1)))
            have : G p1 = f0.vars.group.map (ren o (X.map Prod.fst)) := by
              show (match s.heap[p1]? with | some f => _ | none => _) = _
              rw [hg1]
            rw [this]
    exact hcomb (fun p hp' => hpo.mem_iff.mp hp') ho1 hp2
  haveI : Nonempty (Fn F) := ⟨Fn.ofGroup ⟨[], []⟩⟩
  obtain ⟨mv, hmv⟩ := forall₂_choose hread hnd
  have hmoved : ∀ p ∈ s.factors, ∃ f, s.heap[p]? = some f ∧ f.WF ∧ Moved o (X.map Prod.fst) f (mv p) := by
    intro p hp'
    have hpm := hpo.mem_iff.mpr hp'
    clear hread ho1
    generalize root'.nestedOf "Potential" = l at hmv
    have : ∀ {k : List Nat} {l : List Tag}, List.Forall₂ (fun p t' => (∃ f, s.heap[p]? = some f ∧ f.WF ∧
        Moved o (X.map Prod.fst) f (mv p)) ∧ potential tx files o ((X.map Prod.fst).map (ren o (X.map Prod.fst))) t' =
          .ok (mv p, kindOf G (roleOf s.tunableClusters p))) k l → p ∈ k →
        ∃ f, s.heap[p]? = some f ∧ f.WF ∧ Moved o (X.map Prod.fst) f (mv p) := by
      intro k l h
      induction h with
      | nil => intro h; cases h
      | cons h _ ih =>
        intro hp
        rcases List.mem_cons.mp hp with rfl | hp
        · exact h.1
        · exact ih hp
    exact this hmv hpm
  refine ⟨X, order, mv, G, ?_, ?_, hpo, hmv.imp (fun p t h => h.2), hmoved, ?_, ?_⟩
  · rw [foldList_reordered (fun a t t' h => oneVariable_reordered h a) hv2]
    have := variables_ok hset X (done := []) rfl (by
      intro e he x hx
      have he := hX.mem_iff.mp he
      unfold exported at he
      rcases List.mem_append.mp he with he | he
      · obtain ⟨v, _, rfl⟩ := List.mem_map.mp he
        cases hx
      · obtain ⟨e', he', rfl⟩ := List.mem_map.mp he
        cases hx
        exact hs.obsVal e'.1 e'.2 (AMap.find?_of_mem hs.obsNodup ((hord.evidences _).mem_iff.mp he')))
    have hnil : evs [] = [] := rfl
    simp only [List.map_nil, hnil, List.nil_append] at this
    exact this
  · have h1 : (evs X).Perm (evs (exported ord s)) := hX.filterMap _
    rw [evs_exported] at h1
    exact h1.trans ((hord.evidences _).map _)
  · refine ⟨fun u v => ren_eqv _ _ u v, ?_, ?_⟩
    · intro u hu v _ he
      exact ren_inj hf ((hX.map Prod.fst).mem_iff.mpr ((mem_exported hord hs u).mpr hu)) he
    · intro p hp'
      obtain ⟨f, h1, _, h2⟩ := hmoved p hp'
      exact ⟨f, h1, h2.vars, h2.reach, h2.weight⟩
  · intro p hp'
    obtain ⟨f, h1, _, h2⟩ := hmoved p hp'
    show (match s.heap[p]? with | some f => _ | none => _) = _
    rw [h1, h2.vars]

/-- A model without tunable factors. -/
theorem Trip.graph {root : Tag} {X : List (Var × Option Nat)} {order : List Nat} {mv : Nat → Fn F} {G : Nat → VarSet}
    (h : Trip tx files o s root X order mv G) {h0 : Heap F} (hb : Built h0) (hf : o.Fair) (hs : Inv s) (hc : s.Covered)
    (hn : s.Named) : ∃ t, importXml tx files o false root (State.initial h0) = .ok t () ∧ Reach anyOp t ∧
      SameModel s t (ren o (X.map Prod.fst)) (pl h0 order) ∧ t.consts.Perm t.factors ∧ t.tuners = [] := by
  have hnd := h.perm.nodup_iff.mpr hs.facNodup
  have hsub : ∀ p ∈ order, p ∈ s.factors := fun p hp' => h.perm.mem_iff.mp hp'
  obtain ⟨t1, h1, h2, h3, h4⟩ := constLoop hs h.plan hnd hsub (pend := []) (h.items.imp (fun p t h => ⟨_, h⟩)) (rest := [])
    (partJ_initial hb mv order) (by simp)
  rw [List.nil_append] at h2
  obtain ⟨t2, g1, g2, g3, g4⟩ := h2.finishAt hs hf hc hn h.moved h.plan h.evidences h.perm (List.Perm.refl _)
  refine ⟨t2, ?_, g2, g4, ?_, by rw [g3.tuners, h4]; rfl⟩
  · unfold importXml
    rw [h.vars]
    simp only
    unfold build
    rw [h1]
    simp only
    unfold andThen cumulated
    exact g1
  · rw [g3.consts, g3.factors, h3, h2.factors]
    exact List.Perm.refl _

/-- A model with tunable factors. -/
theorem Trip.field {root : Tag} {X : List (Var × Option Nat)} {order : List Nat} {mv : Nat → Fn F} {G : Nat → VarSet}
    (h : Trip tx files o s root X order mv G) {h0 : Heap F} (hb : Built h0) (hf : o.Fair) (hs : Inv s) (ht : Tuned s)
    (hr : Registered s) (hc : s.Covered) (hn : s.Named) (hcl : s.Clustered) (hw : s.EqualWeights) (hu : s.Unmistakable) :
    ∃ t, importXml tx files o true root (State.initial h0) = .ok t () ∧ Reach anyOp t ∧
      SameSharing s t (ren o (X.map Prod.fst)) (pl h0 order) := by
  have hnd := h.perm.nodup_iff.mpr hs.facNodup
  have hsub : ∀ p ∈ order, p ∈ s.factors := fun p hp' => h.perm.mem_iff.mp hp'
  have hC := clusters_nodup ht
  have hmw : ∀ c ∈ s.tunableClusters, ∀ p ∈ c, p ∈ s.factors ∧ ∃ f, s.heap[p]? = some f ∧ f.weight.isSome ∧
      (mv p).weight = f.weight := by
    intro c hc' p hp'
    obtain ⟨h1, f, h2, h3⟩ := (cluster_mem ht hc').2 p hp'
    obtain ⟨f', h4, _, h5⟩ := h.moved p (ht.reg p h1)
    rw [h2] at h4
    cases h4
    exact ⟨ht.reg p h1, f, h2, h3, h5.weight⟩
  obtain ⟨t1, h1, h2, h3, h4⟩ := mixLoop hs h.plan hnd hsub h.items (by
      intro p _ hr'
      obtain ⟨r, hr'⟩ := Option.ne_none_iff_exists'.mp hr'
      obtain ⟨p0, ps, hc1, hc2, _⟩ := roleOf_some hr'
      obtain ⟨_, f, _, h6, h7⟩ := hmw _ hc1 p hc2
      rw [h7]; exact h6) (pend := []) (rest := []) (partJ_initial hb mv order) (by simp)
  rw [List.nil_append, List.nil_append] at h2
  rw [List.nil_append] at h1
  have h4' : t1.tunableClusters = (grown (roleOf s.tunableClusters) (order.filter (isFirst (roleOf s.tunableClusters))) []).map
      (fun c => c.map (pl h0 order)) := by
    rw [h4]
    simp [grown, State.initial, tunableClusters, Function.comp_def]
  have hfmem : ∀ p ∈ order.filter (isFirst (roleOf s.tunableClusters)), ∃ ps, p :: ps ∈ s.tunableClusters := by
    intro p hp'
    exact roleOf_first (by simpa [isFirst] using (List.mem_filter.mp hp').2)
  have hsplit : (order.filter (fun p => !isNext (roleOf s.tunableClusters) p) ++
      order.filter (isNext (roleOf s.tunableClusters))).Perm order :=
    List.perm_append_comm.trans (List.filter_append_perm _ _)
  obtain ⟨t2, k1, k2, k3, k4⟩ := restsLoop hs h.plan hsub (role := roleOf s.tunableClusters) (G := G)
    (firsts := order.filter (isFirst (roleOf s.tunableClusters))) (hnd.filter _)
    (fun p hp' => (List.mem_filter.mp hp').1) (fun p hp' => h.groups p (hsub p (List.mem_filter.mp hp').1)) order
    (rests := []) h2 h4' (by simp) (hsplit.nodup_iff.mpr hnd) (by
      intro q hq p0 hq0
      obtain ⟨ps, hc1, _⟩ := roleOf_next hq0
      refine List.mem_filter.mpr ⟨h.perm.mem_iff.mpr (hmw _ hc1 p0 (by simp)).1, ?_⟩
      simp [isFirst, roleOf_mem hC hc1]) (by
      intro p0 hp0
      obtain ⟨ps, hc1⟩ := hfmem p0 hp0
      obtain ⟨_, f, h6, h7, h8⟩ := hmw _ hc1 p0 (by simp)
      obtain ⟨w, h9⟩ := Option.isSome_iff_exists.mp h7
      refine ⟨w, by rw [h8, h9], ?_⟩
      intro q hq hq0
      obtain ⟨ps', hc2, hc3⟩ := roleOf_next hq0
      have := unique_of_flatten hC hc2 hc1 (p := p0) (by simp) (by simp)
      cases this
      obtain ⟨_, f', h10, _, h12⟩ := hmw _ hc1 q (by simp [hc3])
      rw [h12, ← h9]
      exact hw _ hc1 q (by simp [hc3]) p0 (by simp) f' f h10 h6) (by
      intro q hq p0 hq0 p' hp' d hd hne hor f f' hf1 hf2
      obtain ⟨ps, hc1, hc2⟩ := roleOf_next hq0
      obtain ⟨ds, hd1⟩ := hfmem d hd
      have hpd : p' ∈ d :: ds := by
        rcases hor with rfl | hor
        · simp
        · obtain ⟨ds', hd2, hd3⟩ := roleOf_next hor
          have := unique_of_flatten hC hd2 hd1 (p := d) (by simp) (by simp)
          cases this
          simp [hd3]
      cases ps with
      | nil => cases hc2
      | cons p1 ps =>
        refine hu _ hc1 _ hd1 ?_ p0 p1 ps rfl p' hpd f f' hf1 hf2
        intro he
        cases he
        exact hne rfl)
  obtain ⟨t3, g1, g2, g3, g4⟩ := k2.finishAt hs hf hc hn h.moved h.plan h.evidences h.perm hsplit
  have hconsts : t3.consts.Perm (s.consts.map (pl h0 order)) := by
    rw [g3.consts, k4, h3]
    show ([] ++ _ : List Nat).Perm _
    rw [List.nil_append]
    refine List.Perm.map _ ?_
    have hnd2 : (s.consts ++ s.tunables).Nodup := hr.nodup_iff.mp hs.facNodup
    refine (List.perm_ext_iff_of_nodup (hnd.filter _) (List.nodup_append.mp hnd2).1).mpr ?_
    intro p
    rw [List.mem_filter]
    constructor
    · rintro ⟨h5, h6⟩
      rcases List.mem_append.mp (hr.mem_iff.mp (hsub p h5)) with h7 | h7
      · exact h7
      · obtain ⟨c, hc1, hc2⟩ := hcl p h7
        cases c with
        | nil => cases hc2
        | cons p0 ps =>
          have := roleOf_mem hC hc1 hc2
          unfold isConst at h6
          rw [this] at h6
          split at h6 <;> cases h6
    · intro hpc
      refine ⟨h.perm.mem_iff.mpr (hr.mem_iff.mpr (List.mem_append_left _ hpc)), ?_⟩
      unfold isConst
      rw [roleOf_none]
      · rfl
      · intro c hc1 hc2
        exact (List.nodup_append.mp hnd2).2.2 p hpc p ((cluster_mem ht hc1).2 p hc2).1 rfl
  refine ⟨t3, ?_, g2, g4, hconsts, ?_, ?_⟩
  · unfold importXml
    rw [h.vars]
    simp only
    unfold build
    rw [h1]
    simp only
    unfold andThen
    rw [k1]
    exact g1
  · have a1 : t3.factors.Perm (t3.consts ++ t3.tunables) := reach_registered g2
    have a2 := g4.factors
    have a3 : (s.factors.map (pl h0 order)).Perm (s.consts.map (pl h0 order) ++ s.tunables.map (pl h0 order)) := by
      rw [← List.map_append]
      exact List.Perm.map _ hr
    have a4 := (a1.symm.trans a2).trans a3
    exact (List.perm_append_left_iff _).mp (((hconsts.symm.append_right _)).trans a4)
  · have : t3.tunableClusters = t2.tunableClusters := by unfold tunableClusters; rw [g3.tuners]
    rw [this, k3, List.nil_append]
    exact grown_perm hC (fun c hc => (cluster_mem ht hc).1) hnd
      (fun c hc p hp => h.perm.mem_iff.mpr (hmw c hc p hp).1) (pl h0 order)

end XmlIn
end EFG
