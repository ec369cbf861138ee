import Verif.Lemmas.JsonTrip
import Verif.Spec.Xml
/- Reading the tags of an exported model. -/

set_option linter.unusedSectionVars false

namespace EFG

/-! ### Tags in another order -/

namespace Tag

theorem Reordered.attributesOf {t t' : Tag} (h : Reordered t t') (k : String) : t'.attributesOf k = t.attributesOf k := by
  cases h with
  | mk h1 h2 h3 =>
    unfold Tag.attributesOf Tag.attributes
    rw [h1 k]

theorem Reordered.tryAttribute {t t' : Tag} (h : Reordered t t') (k : String) : t'.tryAttribute k = t.tryAttribute k := by
  cases h with
  | mk h1 h2 h3 =>
    unfold Tag.tryAttribute Tag.attributes
    rw [← List.head?_filter, ← List.head?_filter, h1 k]

theorem Reordered.access {t t' : Tag} (h : Reordered t t') (k : String) : t'.access k = t.access k := by
  unfold Tag.access
  rw [h.tryAttribute]

theorem ReorderedAll.filter {n m : List (String × Tag)} (h : ReorderedAll n m) (k : String) :
    List.Forall₂ Reordered ((n.filter (fun e => e.1 == k)).map Prod.snd) ((m.filter (fun e => e.1 == k)).map Prod.snd) := by
  induction n generalizing m with
  | nil => cases h; exact .nil
  | cons x n ih =>
    cases h with
    | @cons k' t t' _ l' h1 h2 =>
      by_cases hk : k' = k
      · rw [List.filter_cons_of_pos (by simpa using hk), List.filter_cons_of_pos (by simpa using hk)]
        exact .cons h1 (ih h2)
      · rw [List.filter_cons_of_neg (by simpa using hk), List.filter_cons_of_neg (by simpa using hk)]
        exact ih h2

theorem Reordered.nestedOf {t t' : Tag} (h : Reordered t t') (k : String) :
    ∃ l, l.Perm (t.nestedOf k) ∧ List.Forall₂ Reordered l (t'.nestedOf k) := by
  cases h with
  | @mk a a' n m n' h1 h2 h3 =>
    have h4 := ((h3.symm.filter (fun e => e.1 == k)).map Prod.snd)
    have h5 : List.Forall₂ (fun a b => Reordered b a) ((m.filter (fun e => e.1 == k)).map Prod.snd)
        ((n.filter (fun e => e.1 == k)).map Prod.snd) := (h2.filter k).flip
    obtain ⟨l, h6, h7⟩ := List.perm_comp_forall₂ h4 h5
    exact ⟨l, h7, h6.flip⟩

end Tag

namespace XmlIn
variable {F : Type} [Arith F]
open JsonIn (Read emplaceEvidence ren ren_eqv evs distinct_ren map_ren_size Moved perm_map_preimage)

variable {tx : FloatText F} {files : List Char → Option (List Char)} {o : ImportOrder} {L : List Var}

theorem group_reordered {t t' : Tag} (h : t.Reordered t') (vs : VarSet) : group o vs t' = group o vs t := by
  unfold group
  rw [h.attributesOf]

theorem entry_reordered {t t' : Tag} (h : t.Reordered t') (f : Fn F) : entry tx f t' = entry tx f t := by
  unfold entry
  rw [h.attributesOf, h.access]

theorem oneVariable_reordered {t t' : Tag} (h : t.Reordered t') (r : Read) : oneVariable o r t' = oneVariable o r t := by
  unfold oneVariable
  rw [h.access, h.access, h.tryAttribute]

theorem foldList_reordered {α : Type} {f : α → Tag → Res α} (hf : ∀ a t t', Tag.Reordered t t' → f a t' = f a t)
    {l l' : List Tag} (h : List.Forall₂ Tag.Reordered l l') : ∀ a, Res.foldList f a l' = Res.foldList f a l := by
  induction h with
  | nil => intro a; rfl
  | @cons t t' l l' h1 _ ih =>
    intro a
    cases hx : f a t with
    | ok b =>
      rw [Res.foldList_cons_ok hx, Res.foldList_cons_ok ((hf a t t' h1).trans hx)]
      exact ih b
    | throw =>
      have hx' := (hf a t t' h1).trans hx
      unfold Res.foldList
      rw [hx, hx']
    | ub =>
      have hx' := (hf a t t' h1).trans hx
      unfold Res.foldList
      rw [hx, hx']

/-! ### Variables -/

theorem oneVariable_ok {done : List (Var × Option Nat)} {v : Var} {ev : Option Nat}
    {rest : List Var} (hL : L = done.map Prod.fst ++ v :: rest) (hd : Distinct L)
    (hn : ∀ u ∈ L, ∀ w ∈ L, u.name = w.name → u = w) (hname : v.name ≠ "") (hsize : v.size < 2 ^ 31) (hpos : 0 < v.size)
    (hev : ∀ x ∈ ev, x < v.size) :
    oneVariable o ⟨(done.map Prod.fst).map (ren o L), evs done⟩ (XmlOut.oneVariable v ev) =
      .ok ⟨((done ++ [(v, ev)]).map Prod.fst).map (ren o L), evs (done ++ [(v, ev)])⟩ := by
  have hnd : L.Nodup := hd.nodup
  have hvL : v ∈ L := by rw [hL]; simp
  have hnot : v ∉ done.map Prod.fst := by
    rw [hL] at hnd
    intro hm
    exact (List.nodup_append.mp hnd).2.2 v hm v (by simp) rfl
  have hidx : L.idxOf v = done.length := by
    rw [hL, List.idxOf_append_of_notMem hnot]; simp
  have hf1 : (XmlOut.oneVariable v ev).access "name" = .ok v.name.toList := by cases ev <;> rfl
  have hf2 : (XmlOut.oneVariable v ev).access "Size" = .ok (Text.ofNat v.size) := by cases ev <;> rfl
  have hmk : makeVariable (o.fresh ((done.map Prod.fst).map (ren o L)).length) v.size (String.ofList v.name.toList) =
      .ok (ren o L v) := by
    have h1 : v.name.length ≠ 0 := by
      intro h
      exact hname (by
        rw [← String.toList_inj]
        rw [← String.length_toList] at h
        simpa using h)
    unfold makeVariable
    rw [String.ofList_toList, if_neg h1, if_neg (by omega)]
    unfold ren
    rw [hidx]
    simp
  have hmem : VarSet.mem ((done.map Prod.fst).map (ren o L)) (ren o L v) = false := by
    rw [VarSet.mem_eq_false]
    intro w hw
    obtain ⟨u, hu, rfl⟩ := List.mem_map.mp hw
    rw [ren_eqv]
    have huL : u ∈ L := by rw [hL]; exact List.mem_append_left _ hu
    cases he : u.eqv v with
    | false => rfl
    | true => exact absurd ((hd.eq_of_eqv huL hvL he) ▸ hu) hnot
  unfold oneVariable
  rw [hf1]
  simp only
  rw [hf2]
  simp only
  rw [Text.atoSize_ofNat hsize]
  simp only
  rw [hmk]
  simp only
  unfold addVariable
  rw [hmem, if_neg (by simp)]
  have hemp : VarSet.emplace ((done.map Prod.fst).map (ren o L)) (ren o L v) =
      ((done ++ [(v, ev)]).map Prod.fst).map (ren o L) := by
    unfold VarSet.emplace
    rw [hmem, if_neg (by simp)]
    simp
  cases ev with
  | none =>
    show Res.ok _ = _
    rw [hemp]
    simp [evs]
  | some x =>
    have : (XmlOut.oneVariable v (some x)).tryAttribute "evidence" = some (Text.ofNat x) := rfl
    rw [this]
    simp only
    rw [Text.atoSize_ofNat (by have := hev x rfl; omega)]
    simp only
    rw [hemp]
    have : emplaceEvidence (evs done) (ren o L v).name x = evs (done ++ [(v, some x)]) := by
      unfold emplaceEvidence
      rw [if_neg]
      · simp [evs, ren]
      · simp only [List.any_eq_true, not_exists, not_and]
        intro e he heq
        obtain ⟨d, hd', hde⟩ := List.mem_filterMap.mp he
        obtain ⟨y, hy, rfl⟩ := Option.map_eq_some_iff.mp hde
        simp only [beq_iff_eq] at heq
        have hdL : d.1 ∈ done.map Prod.fst := List.mem_map_of_mem hd'
        have := hn d.1 (by rw [hL]; exact List.mem_append_left _ hdL) v hvL heq
        exact hnot (this ▸ hdL)
    rw [this]

/-- The settings of an import. -/
structure Setup (o : ImportOrder) (L : List Var) : Prop where
  fair : o.Fair
  distinct : Distinct L
  named : ∀ u ∈ L, ∀ w ∈ L, u.name = w.name → u = w
  names : ∀ v ∈ L, v.name ≠ ""
  sizes : ∀ v ∈ L, v.size < 2 ^ 31 ∧ 0 < v.size

theorem variables_ok (hs : Setup o L) (X : List (Var × Option Nat)) :
    ∀ {done : List (Var × Option Nat)}, L = (done ++ X).map Prod.fst → (∀ e ∈ X, ∀ x ∈ e.2, x < e.1.size) →
    Res.foldList (oneVariable o) ⟨(done.map Prod.fst).map (ren o L), evs done⟩
      (X.map (fun e => XmlOut.oneVariable e.1 e.2)) = .ok ⟨L.map (ren o L), evs (done ++ X)⟩ := by
  induction X with
  | nil =>
    intro done hL _
    rw [List.append_nil] at hL ⊢
    rw [List.map_nil, Res.foldList_nil, ← hL]
  | cons e X ih =>
    intro done hL hev
    obtain ⟨v, ev⟩ := e
    have hL' : L = done.map Prod.fst ++ v :: X.map Prod.fst := by rw [hL]; simp
    have hvL : v ∈ L := by rw [hL']; simp
    rw [List.map_cons]
    rw [Res.foldList_cons_ok (oneVariable_ok hL' hs.distinct hs.named (hs.names v hvL) (hs.sizes v hvL).1 (hs.sizes v hvL).2
      (hev _ (by simp)))]
    rw [ih (done := done ++ [(v, ev)]) (by rw [hL]; simp) (fun e he => hev e (by simp [he]))]
    simp

/-! ### Groups -/

theorem findVariable_ok (hs : Setup o L) {v : Var} (hv : v ∈ L) :
    findVariable o (L.map (ren o L)) v.name.toList = .ok (ren o L v) := by
  unfold findVariable
  simp only [String.ofList_toList]
  have hmem : ren o L v ∈ o.found (L.map (ren o L)) := (hs.fair.found _).mem_iff.mpr (List.mem_map_of_mem hv)
  cases hf : (o.found (L.map (ren o L))).find? (fun w => w.name == v.name) with
  | none =>
    have := List.find?_eq_none.mp hf _ hmem
    simp [ren] at this
  | some w =>
    have h1 := List.find?_some hf
    have h2 := (hs.fair.found _).mem_iff.mp (List.mem_of_find?_eq_some hf)
    obtain ⟨u, hu, rfl⟩ := List.mem_map.mp h2
    simp only [beq_iff_eq] at h1
    rw [hs.named u hu v hv h1]

theorem attributesOf_group (l : List Var) (extra : List (String × List Char)) (n : List (String × Tag))
    (he : ∀ e ∈ extra, e.1 ≠ "var") :
    (Tag.mk (XmlOut.group l ++ extra) n).attributesOf "var" = l.map (fun v => v.name.toList) := by
  unfold Tag.attributesOf Tag.attributes XmlOut.group
  rw [List.filter_append]
  have h1 : extra.filter (fun e => e.1 == "var") = [] := by
    rw [List.filter_eq_nil_iff]
    intro e h
    simpa using he e h
  have h2 : (l.map (fun v => ("var", v.name.toList))).filter (fun e => e.1 == "var") = l.map (fun v => ("var", v.name.toList)) := by
    rw [List.filter_eq_self]
    intro e h
    obtain ⟨v, _, rfl⟩ := List.mem_map.mp h
    rfl
  rw [h1, h2, List.append_nil, List.map_map]
  rfl

theorem group_ok (hs : Setup o L) {l : List Var} (hl : ∀ v ∈ l, v ∈ L) (hd : Distinct l)
    (hlen : l.length = 1 ∨ l.length = 2) {extra : List (String × List Char)} (he : ∀ e ∈ extra, e.1 ≠ "var")
    (n : List (String × Tag)) :
    group o (L.map (ren o L)) (.mk (XmlOut.group l ++ extra) n) = .ok ⟨l.map (ren o L), l.map (ren o L)⟩ := by
  unfold group
  rw [attributesOf_group l extra n he]
  have : Res.mapList (findVariable o (L.map (ren o L))) (l.map (fun v => v.name.toList)) = .ok (l.map (ren o L)) := by
    rw [Res.mapList_eq_ok, List.forall₂_map_left_iff, List.forall₂_map_right_iff, List.forall₂_same]
    intro v hv
    exact findVariable_ok hs (hl v hv)
  rw [this]
  simp only [List.length_map]
  rw [if_neg (by omega), Group.ofSoup_eq_ok]
  exact ⟨by intro h; rw [List.map_eq_nil_iff] at h; subst h; simp at hlen, distinct_ren o L hd, rfl⟩

/-! ### Images -/

/-- Images which survive. -/
def Good (tx : FloatText F) (x : F) : Prop :=
  tx.parse (tx.print x) = x ∧ Arith.lt x Arith.zero = false ∧ (Arith.eq x Arith.zero = true → x = Arith.zero)

theorem entry_ok {g : Fn F} (hg : g.WF) {e : List Nat × F} (hv : Valid g.sizes e.1)
    (hsz : ∀ n ∈ g.sizes, n < 2 ^ 31) (hx : tx.parse (tx.print e.2) = e.2) (hlt : Arith.lt e.2 Arith.zero = false) :
    ∃ g', entry tx g (XmlOut.entry tx e) = .ok g' ∧ g'.WF ∧ g'.vars = g.vars ∧ g'.sizes = g.sizes ∧ g'.weight = g.weight ∧
      (∀ q, Valid g.sizes q → g'.img q = if q = e.1 then e.2 else g.img q) ∧ (FactorReach g → FactorReach g') := by
  have hcomb : Res.mapList Text.atoSize (e.1.map Text.ofNat) = .ok e.1 := by
    rw [Res.mapList_eq_ok, List.forall₂_map_left_iff, List.forall₂_same]
    intro n hn
    refine Text.atoSize_ofNat ?_
    obtain ⟨i, hi⟩ := List.mem_iff_getElem?.mp hn
    unfold Valid at hv
    have hl := hv.length_eq
    have hil := (List.getElem?_eq_some_iff.mp hi).1
    have h1 := List.Forall₂.get hv (by omega : i < g.sizes.length) hil
    have h2 := hsz _ (List.getElem_mem (by omega : i < g.sizes.length))
    have h3 := (List.getElem?_eq_some_iff.mp hi).2
    simp only [List.get_eq_getElem] at h1
    omega
  rcases hg.mutableSet e.1 e.2 with ⟨g', h1, _, _, h2, h3, h4, h5, h6⟩ | ⟨_, h1⟩
  · refine ⟨g', ?_, h2, h3, h4, h5, h6, fun hr => .mutate (op := .set e.1 e.2) hr h1⟩
    unfold entry
    have hi : (XmlOut.entry tx e).attributesOf "v" = e.1.map Text.ofNat := by
      unfold Tag.attributesOf XmlOut.entry Tag.attributes
      simp only
      rw [List.filter_cons_of_neg (by simp), List.filter_eq_self.mpr, List.map_map]
      · rfl
      · intro x hx
        obtain ⟨n, _, rfl⟩ := List.mem_map.mp hx
        rfl
    rw [hi, hcomb]
    simp only
    have hd : (XmlOut.entry tx e).access "D" = .ok (tx.print e.2) := rfl
    rw [hd]
    simp only
    rw [hx, h1]
  · exact absurd ⟨hlt, hv⟩ h1

theorem entries_ok (es : List (List Nat × F)) : ∀ {g : Fn F}, g.WF → FactorReach g →
    (∀ n ∈ g.sizes, n < 2 ^ 31) → (es.map Prod.fst).Nodup →
    (∀ e ∈ es, Valid g.sizes e.1 ∧ tx.parse (tx.print e.2) = e.2 ∧ Arith.lt e.2 Arith.zero = false) →
    ∃ g', Res.foldList (entry tx) g (es.map (XmlOut.entry tx)) = .ok g' ∧ g'.WF ∧ FactorReach g' ∧ g'.vars = g.vars ∧
      g'.sizes = g.sizes ∧ g'.weight = g.weight ∧ (∀ e ∈ es, g'.img e.1 = e.2) ∧
      ∀ q, Valid g.sizes q → q ∉ es.map Prod.fst → g'.img q = g.img q := by
  induction es with
  | nil => intro g hg hr _ _ _; exact ⟨g, rfl, hg, hr, rfl, rfl, rfl, by simp, fun _ _ _ => rfl⟩
  | cons e es ih =>
    intro g hg hr hsz hnd hv
    obtain ⟨h1, h2, h3⟩ := hv e (by simp)
    obtain ⟨g1, k1, k2, k3, k4, k5, k6, k7⟩ := entry_ok hg h1 hsz h2 h3
    rw [List.map_cons, List.nodup_cons] at hnd
    obtain ⟨g2, m1, m2, m3, m4, m5, m6, m7, m8⟩ := ih k2 (k7 hr) (by rw [k4]; exact hsz) hnd.2 (by
      intro e' he'; rw [k4]; exact hv e' (by simp [he']))
    refine ⟨g2, ?_, m2, m3, m4.trans k3, m5.trans k4, m6.trans k5, ?_, ?_⟩
    · rw [List.map_cons, Res.foldList_cons_ok k1]; exact m1
    · intro e' he'
      rcases List.mem_cons.mp he' with rfl | he'
      · rw [m8 _ (by rw [k4]; exact h1) hnd.1, k6 _ h1, if_pos rfl]
      · exact m7 e' he'
    · intro q hq hnot
      rw [List.map_cons, List.mem_cons, not_or] at hnot
      rw [m8 q (by rw [k4]; exact hq) hnot.2, k6 q hq, if_neg hnot.1]

/-- Factors which survive. -/
structure Kept (tx : FloatText F) (L : List Var) (f : Fn F) : Prop where
  wf : f.WF
  mem : ∀ v ∈ f.vars.group, v ∈ L
  arity : f.vars.group.length = 1 ∨ f.vars.group.length = 2
  images : ∀ q, Valid f.sizes q → Good tx (f.img q)
  weight : ∀ w, f.weight = some w → tx.parse (tx.print w) = w

theorem images_ok (hs : Setup o L) {f : Fn F} (hf : Kept tx L f) :
    ∃ es, f.nonNullEntries false = .ok es ∧ ∀ es' : List (List Nat × F), es'.Perm es → ∃ g,
      Res.foldList (entry tx) (Fn.ofGroup ⟨f.vars.group.map (ren o L), f.vars.group.map (ren o L)⟩)
        (es'.map (XmlOut.entry tx)) = .ok g ∧
      g.WF ∧ FactorReach g ∧ g.vars = ⟨f.vars.group.map (ren o L), f.vars.group.map (ren o L)⟩ ∧ g.sizes = f.sizes ∧
      g.weight = none ∧ ∀ q, Valid f.sizes q → g.img q = f.img q := by
  obtain ⟨es, h1, h2, h3, h4⟩ := hf.wf.nonNull
  let G : Group := ⟨f.vars.group.map (ren o L), f.vars.group.map (ren o L)⟩
  have hGr : GroupReach G := .soup (vars := f.vars.group.map (ren o L)) (by
    rw [Group.ofSoup_eq_ok]
    refine ⟨?_, distinct_ren o L hf.wf.group.distinct, rfl⟩
    intro h
    exact hf.wf.group.ne (List.map_eq_nil_iff.mp h))
  have hGv : ∀ v ∈ G.group, v.WF := by
    intro v hv
    obtain ⟨u, hu, rfl⟩ := List.mem_map.mp hv
    exact ⟨hs.names u (hf.mem u hu), (hs.sizes u (hf.mem u hu)).2⟩
  have hr : FactorReach (Fn.ofGroup G : Fn F) := .group hGr hGv
  have hw := factorReach_wf hr
  have hsz : (Fn.ofGroup G : Fn F).sizes = f.sizes := by
    rw [hf.wf.sizes']
    exact map_ren_size o L f.vars.group
  refine ⟨es, h1, ?_⟩
  intro es' hp
  obtain ⟨g, k1, k2, k3, k4, k5, k6, k7, k8⟩ := entries_ok (tx := tx) es' hw hr (by
    rw [hsz, hf.wf.sizes']
    intro n hn
    obtain ⟨v, hv, rfl⟩ := List.mem_map.mp hn
    exact (hs.sizes v (hf.mem v hv)).1) ((hp.map Prod.fst).nodup_iff.mpr h2) (by
    intro e he
    obtain ⟨a1, a2⟩ := h3 e (hp.mem_iff.mp he)
    obtain ⟨b1, b2, _⟩ := hf.images e.1 a1
    rw [hsz, a2]
    exact ⟨a1, b1, b2⟩)
  refine ⟨g, k1, k2, k3, k4, k5.trans hsz, k6, ?_⟩
  intro q hq
  by_cases hm : q ∈ es'.map Prod.fst
  · obtain ⟨e, he, rfl⟩ := List.mem_map.mp hm
    rw [k7 e he, (h3 e (hp.mem_iff.mp he)).2]
  · rw [k8 q (by rw [hsz]; exact hq) hm, Fn.ofGroup_img]
    rcases h4 q hq (fun hm' => hm ((hp.map Prod.fst).mem_iff.mpr hm')) with h | h
    · exact h.symm
    · exact ((hf.images q hq).2.2 h).symm

theorem tryAttribute_extra (l : List Var) (extra : List (String × List Char)) (n : List (String × Tag)) {k : String}
    (hk : k ≠ "var") : (Tag.mk (XmlOut.group l ++ extra) n).tryAttribute k =
      (extra.find? (fun e => e.1 == k)).map Prod.snd := by
  unfold Tag.tryAttribute Tag.attributes XmlOut.group
  simp only
  rw [List.find?_append]
  have : (l.map (fun v => ("var", v.name.toList))).find? (fun e => e.1 == k) = none := by
    rw [List.find?_eq_none]
    intro x hx
    obtain ⟨v, _, rfl⟩ := List.mem_map.mp hx
    simpa using fun h : "var" = k => hk h.symm
  rw [this]; rfl

theorem nestedOf_entries (a : List (String × List Char)) (ts : List Tag) (more : List (String × Tag)) (k : String) :
    (Tag.mk a (ts.map (fun t => ("Distr_val", t)) ++ more)).nestedOf k =
      (if k = "Distr_val" then ts else []) ++ (more.filter (fun e => e.1 == k)).map Prod.snd := by
  unfold Tag.nestedOf Tag.nested
  simp only
  rw [List.filter_append, List.map_append]
  congr 1
  split
  · rename_i h
    subst h
    rw [List.filter_eq_self.mpr, List.map_map]
    · simp [Function.comp_def]
    · intro x hx
      obtain ⟨n, _, rfl⟩ := List.mem_map.mp hx
      rfl
  · rename_i h
    rw [List.map_eq_nil_iff, List.filter_eq_nil_iff]
    intro x hx
    obtain ⟨n, _, rfl⟩ := List.mem_map.mp hx
    simpa using fun he : "Distr_val" = k => h he.symm

/-- Attributes which do not change the images. -/
def Harmless (extra : List (String × List Char)) : Prop :=
  ∀ e ∈ extra, e.1 ≠ "var" ∧ e.1 ≠ "Correlation" ∧ e.1 ≠ "Source"

theorem Harmless.find {extra : List (String × List Char)} (h : Harmless extra) {k : String}
    (hk : k = "Correlation" ∨ k = "Source") : extra.find? (fun e => e.1 == k) = none := by
  rw [List.find?_eq_none]
  intro e he
  have := h e he
  rcases hk with rfl | rfl <;> simp [this]

theorem factor_ok (hs : Setup o L) {f : Fn F} (hf : Kept tx L f) {extra : List (String × List Char)} (hex : Harmless extra)
    {more : List (String × Tag)} (hmore : ∀ e ∈ more, e.1 ≠ "Distr_val") :
    ∃ t n, XmlOut.potential tx f extra more = .ok t ∧ t = .mk (XmlOut.group f.vars.group ++ extra) n ∧
      (∀ k, k ≠ "Distr_val" → t.nestedOf k = (more.filter (fun e => e.1 == k)).map Prod.snd) ∧
      ∀ t', t.Reordered t' → ∃ g, factor tx files o (L.map (ren o L)) t' = .ok g ∧ g.WF ∧ FactorReach g ∧
        g.vars = ⟨f.vars.group.map (ren o L), f.vars.group.map (ren o L)⟩ ∧
        g.sizes = f.sizes ∧ g.weight = none ∧ ∀ q, Valid f.sizes q → g.img q = f.img q := by
  obtain ⟨es, h1, h2⟩ := images_ok hs hf
  refine ⟨.mk (XmlOut.group f.vars.group ++ extra) (es.map (fun e => ("Distr_val", XmlOut.entry tx e)) ++ more), _, ?_, rfl,
    ?_, ?_⟩
  · unfold XmlOut.potential
    rw [h1]
  · intro k hk
    have := nestedOf_entries (XmlOut.group f.vars.group ++ extra) (es.map (XmlOut.entry tx)) more k
    rw [if_neg hk, List.map_map] at this
    exact this
  · intro t' ht
    obtain ⟨l, hl1, hl2⟩ := ht.nestedOf "Distr_val"
    have hn := nestedOf_entries (XmlOut.group f.vars.group ++ extra) (es.map (XmlOut.entry tx)) more "Distr_val"
    rw [if_pos rfl, List.map_map] at hn
    have hm : more.filter (fun e => e.1 == "Distr_val") = [] := by
      rw [List.filter_eq_nil_iff]
      intro e he
      simpa using hmore e he
    rw [hm, List.map_nil, List.append_nil] at hn
    have hn' : (Tag.mk (XmlOut.group f.vars.group ++ extra) (es.map (fun e => ("Distr_val", XmlOut.entry tx e)) ++ more)).nestedOf
        "Distr_val" = es.map (XmlOut.entry tx) := hn
    rw [hn'] at hl1
    obtain ⟨es', he1, rfl⟩ := perm_map_preimage hl1
    obtain ⟨g, k1, k2, k3, k4, k5, k6, k7⟩ := h2 es' he1
    refine ⟨g, ?_, k2, k3, k4, k5, k6, k7⟩
    unfold factor
    rw [group_reordered ht, group_ok hs hf.mem hf.wf.group.distinct hf.arity (fun e he => (hex e he).1)]
    simp only
    rw [ht.tryAttribute, tryAttribute_extra _ _ _ (by decide), hex.find (Or.inl rfl)]
    simp only [Option.map_none]
    unfold images
    rw [ht.tryAttribute, tryAttribute_extra _ _ _ (by decide), hex.find (Or.inr rfl)]
    simp only [Option.map_none]
    rw [foldList_reordered (fun a t t' h => entry_reordered h a) hl2]
    exact k1

/-! ### Potentials -/

theorem plain_potential (hs : Setup o L) {f : Fn F} (hf : Kept tx L f) (hw : f.weight = none) :
    ∃ t, XmlOut.potential tx f [] [] = .ok t ∧ ∀ t', t.Reordered t' → ∃ g, Moved o L f g ∧
      potential tx files o (L.map (ren o L)) t' = .ok (g, .const) := by
  obtain ⟨t, n, h1, h2, _, h3⟩ := factor_ok (files := files) hs hf (extra := []) (more := []) (by intro e he; cases he) (by intro e he; cases he)
  refine ⟨t, h1, ?_⟩
  intro t' ht
  obtain ⟨g, k1, k2, k3, k4, k5, k6, k7⟩ := h3 t' ht
  refine ⟨g, ⟨k2, k3, k4, by rw [k6, hw], k5, k7⟩, ?_⟩
  unfold potential
  rw [k1]
  simp only
  rw [ht.tryAttribute, h2, tryAttribute_extra _ _ _ (by decide)]
  rfl

theorem exp_potential (hs : Setup o L) {f : Fn F} (hf : Kept tx L f) {w : F} (hw : f.weight = some w) {y : List Char}
    {more : List (String × Tag)} (hmore : ∀ e ∈ more, e.1 ≠ "Distr_val") :
    ∃ t, XmlOut.expPotential tx f [("tunability", y)] more = .ok t ∧
      t.nestedOf "Share" = (more.filter (fun e => e.1 == "Share")).map Prod.snd ∧
      ∀ t', t.Reordered t' → ∃ g, Moved o L f g ∧ t'.tryAttribute "tunability" = some y ∧
        potential tx files o (L.map (ren o L)) t' =
          (match kind o (L.map (ren o L)) t' with
            | .ok k => .ok (g, k)
            | .throw => .throw
            | .ub => .ub) := by
  obtain ⟨t, n, h1, h2, h2', h3⟩ := factor_ok (files := files) hs hf (extra := [("weight", tx.print w), ("tunability", y)])
    (by intro e he; simp at he; rcases he with rfl | rfl <;> exact ⟨(by simp), (by simp), (by simp)⟩) hmore
  refine ⟨t, ?_, h2' _ (by decide), ?_⟩
  · unfold XmlOut.expPotential
    rw [hw]
    exact h1
  · intro t' ht
    obtain ⟨g0, k1, k2, k3, k4, k5, k6, k7⟩ := h3 t' ht
    obtain ⟨g, m1, m2, m3, m4, m5, m6⟩ := k2.exponential w
    refine ⟨g, ⟨m2, .exponential k3 m1, by rw [m3, k4], by rw [m5, hw], by rw [m4, k5],
      fun q hq => by rw [m6 q (by rw [k5]; exact hq), k7 q hq]⟩, ?_, ?_⟩
    · rw [ht.tryAttribute, h2, tryAttribute_extra _ _ _ (by decide)]
      rfl
    · unfold potential
      rw [k1]
      simp only
      rw [ht.tryAttribute, h2, tryAttribute_extra _ _ _ (by decide)]
      have : (List.find? (fun e => e.1 == "weight") [("weight", tx.print w), ("tunability", y)]).map Prod.snd =
        some (tx.print w) := rfl
      rw [this]
      simp only
      rw [hf.weight w hw, m1]
      rfl

/-- What is read in the place of a factor. -/
structure Item (tx : FloatText F) (files : List Char → Option (List Char)) (o : ImportOrder) (L : List Var) (s : State F)
    (p : Nat) (f : Fn F) : Prop where
  const : ∃ t, XmlOut.const tx s p = .ok t ∧ ∀ t', t.Reordered t' → ∃ g, Moved o L f g ∧
    potential tx files o (L.map (ren o L)) t' = .ok (g, .const)
  first : f.weight.isSome → ∃ t, XmlOut.tunable tx s none p = .ok t ∧ ∀ t', t.Reordered t' → ∃ g, Moved o L f g ∧
    potential tx files o (L.map (ren o L)) t' = .ok (g, .tunable none)
  next : f.weight.isSome → ∀ l, (∀ v ∈ l, v ∈ L) → Distinct l → (l.length = 1 ∨ l.length = 2) →
    ∃ t, XmlOut.tunable tx s (some l) p = .ok t ∧ ∀ t', t.Reordered t' → ∃ g, Moved o L f g ∧
      potential tx files o (L.map (ren o L)) t' = .ok (g, .tunable (some (l.map (ren o L))))

theorem item_exported {s : State F} (hset : Setup o L) {p : Nat} {f : Fn F} (hf : s.heap[p]? = some f)
    (hk : Kept tx L f) : Item tx files o L s p f := by
  cases hw : f.weight with
  | none =>
    obtain ⟨t, h1, h2⟩ := plain_potential (files := files) hset hk hw
    refine ⟨⟨t, ?_, h2⟩, (by rw [hw]; intro h; cases h), (by rw [hw]; intro h; cases h)⟩
    unfold XmlOut.const
    rw [State.deref_eq hf]
    simp only
    rw [hw, ← h1]
    rfl
  | some w =>
    refine ⟨?_, fun _ => ?_, fun _ l hl hd hlen => ?_⟩
    · obtain ⟨t, h1, _, h2⟩ := exp_potential (files := files) hset hk hw (y := ['N']) (more := []) (by intro e he; cases he)
      refine ⟨t, ?_, ?_⟩
      · unfold XmlOut.const
        rw [State.deref_eq hf]
        simp only
        rw [hw, ← h1]
        rfl
      · intro t' ht
        obtain ⟨g, k1, k2, k3⟩ := h2 t' ht
        refine ⟨g, k1, ?_⟩
        rw [k3]
        unfold kind
        rw [k2, if_neg (by decide)]
    · obtain ⟨t, h1, h1', h2⟩ := exp_potential (files := files) hset hk hw (y := ['Y']) (more := []) (by intro e he; cases he)
      refine ⟨t, ?_, ?_⟩
      · unfold XmlOut.tunable
        rw [State.deref_eq hf]
        exact h1
      · intro t' ht
        obtain ⟨g, k1, k2, k3⟩ := h2 t' ht
        refine ⟨g, k1, ?_⟩
        rw [k3]
        unfold kind
        rw [k2, if_pos rfl]
        obtain ⟨l, hl1, hl2⟩ := ht.nestedOf "Share"
        rw [h1'] at hl1
        have : l = [] := List.perm_nil.mp hl1
        subst this
        rw [List.forall₂_nil_left_iff.mp hl2]
    · obtain ⟨t, h1, h1', h2⟩ := exp_potential (files := files) hset hk hw (y := ['Y'])
        (more := [("Share", .mk (XmlOut.group l) [])]) (by intro e he; simp at he; subst he; simp)
      refine ⟨t, ?_, ?_⟩
      · unfold XmlOut.tunable
        rw [State.deref_eq hf]
        exact h1
      · intro t' ht
        obtain ⟨g, k1, k2, k3⟩ := h2 t' ht
        refine ⟨g, k1, ?_⟩
        rw [k3]
        unfold kind
        rw [k2, if_pos rfl]
        obtain ⟨l', hl1, hl2⟩ := ht.nestedOf "Share"
        have h3 : t.nestedOf "Share" = [.mk (XmlOut.group l) []] := h1'
        rw [h3] at hl1
        rw [List.perm_singleton.mp hl1] at hl2
        obtain ⟨sh, rest, hsh, hrest, he⟩ := List.forall₂_cons_left_iff.mp hl2
        rw [he]
        simp only
        have hg := group_ok hset hl hd hlen (extra := []) (by intro e he; cases he) []
        rw [List.append_nil] at hg
        rw [group_reordered hsh, hg]

end XmlIn
end EFG
