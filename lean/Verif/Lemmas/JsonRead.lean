import Verif.Lemmas.Json
/- Reading an exported factor. -/

set_option linter.unusedSectionVars false

namespace EFG
variable {F : Type} [Arith F]

theorem Fn.WF.nonNull {f : Fn F} (hw : f.WF) : ∃ es, f.nonNullEntries false = .ok es ∧ (es.map Prod.fst).Nodup ∧
    (∀ e ∈ es, Valid f.sizes e.1 ∧ e.2 = f.img e.1) ∧
    ∀ q, Valid f.sizes q → q ∉ es.map Prod.fst → f.img q = Arith.zero ∨ Arith.eq (f.img q) Arith.zero = true := by
  have hs := hw.store
  unfold Fn.nonNullEntries
  cases hd : f.data with
  | sparse c =>
    rw [hd] at hs
    obtain ⟨hn, hv⟩ := hs
    refine ⟨_, rfl, by simpa [Function.comp_def] using hn, ?_, ?_⟩
    · intro e he
      simp only [List.mem_map] at he
      obtain ⟨e', he', rfl⟩ := he
      exact ⟨hv e' he', (sparse_img hw hd he').symm⟩
    · intro q _ hnot
      left
      have : Fn.sparseFind c q = none := by
        rw [Fn.sparseFind_eq_none]
        intro y hy
        exact hnot (by simp only [List.map_map, Function.comp_def]; exact List.mem_map.2 ⟨_, hy, rfl⟩)
      simp [Fn.img, hd, this]
  | dense v =>
    rw [hd] at hs
    simp only [Fn.StoreOk] at hs
    simp only [hw.visit]
    rw [Fn.zipDense_eq _ _ (by rw [lex_length, hs]), Fn.zip_lex _ _ hs]
    have himg : ∀ c, v.getD (rank f.sizes c) Arith.zero = f.img c := by
      intro c; simp [Fn.img, hd]
    simp only [himg]
    refine ⟨_, rfl, ?_, ?_, ?_⟩
    · rw [List.map_map]
      refine ((lex_nodup f.sizes).sublist ?_)
      have : ((List.filter (fun e => !Arith.eq e.2 Arith.zero)
          ((lex f.sizes).map (fun c => (c, f.img c)))).map
          (Prod.fst ∘ fun (e : List Nat × F) => (e.1, if false = true then f.transform e.2 else e.2))).Sublist
          (((lex f.sizes).map (fun c => (c, f.img c))).map
          (Prod.fst ∘ fun e => (e.1, if false = true then f.transform e.2 else e.2))) :=
        List.Sublist.map _ List.filter_sublist
      simpa [Function.comp_def] using this
    · intro e he
      simp only [List.mem_map, List.mem_filter] at he
      obtain ⟨e', ⟨⟨c, hc, rfl⟩, _⟩, rfl⟩ := he
      exact ⟨mem_lex.1 hc, rfl⟩
    · intro q hq hnot
      right
      by_contra hne
      simp only [Bool.not_eq_true] at hne
      apply hnot
      refine List.mem_map.2 ⟨(q, if false = true then f.transform (f.img q) else f.img q), ?_, rfl⟩
      refine List.mem_map.2 ⟨(q, f.img q), ?_, rfl⟩
      exact List.mem_filter.2 ⟨List.mem_map.2 ⟨q, mem_lex.2 hq, rfl⟩, by simp [hne]⟩

namespace JsonIn

/-- Images which survive. -/
def Good (tx : FloatText F) (x : F) : Prop :=
  Legible tx x ∧ Arith.lt x Arith.zero = false ∧ (Arith.eq x Arith.zero = true → x = Arith.zero)

theorem entry_ok {tx : FloatText F} {g : Fn F} (hg : g.WF) {e : List Nat × F} (hv : Valid g.sizes e.1)
    (hsz : ∀ n ∈ g.sizes, n < 2 ^ 31) (hx : Legible tx e.2) (hlt : Arith.lt e.2 Arith.zero = false) :
    ∃ g', entry tx g (JsonOut.entry tx e) = .ok g' ∧ g'.WF ∧ g'.vars = g.vars ∧ g'.sizes = g.sizes ∧ g'.weight = g.weight ∧
      (∀ q, Valid g.sizes q → g'.img q = if q = e.1 then e.2 else g.img q) ∧ (FactorReach g → FactorReach g') := by
  have hcomb : Res.mapList value (e.1.map (fun x => Json.str (Text.ofNat x))) = .ok e.1 := by
    rw [Res.mapList_eq_ok, List.forall₂_map_left_iff, List.forall₂_same]
    intro n hn
    unfold value
    rw [toStr_ofNat]
    refine Text.atoSize_ofNat ?_
    obtain ⟨i, hi⟩ := List.mem_iff_getElem?.mp hn
    unfold Valid at hv
    have hl := hv.length_eq
    have hil := (List.getElem?_eq_some_iff.mp hi).1
    have h1 := List.Forall₂.get hv (by omega : i < g.sizes.length) hil
    have h2 := hsz _ (List.getElem_mem (by omega : i < g.sizes.length))
    have h3 := (List.getElem?_eq_some_iff.mp hi).2
    simp only [List.get_eq_getElem] at h1
    omega
  rcases hg.mutableSet e.1 e.2 with ⟨g', h1, _, _, h2, h3, h4, h5, h6⟩ | ⟨_, h1⟩
  · refine ⟨g', ?_, h2, h3, h4, h5, h6, fun hr => .mutate (op := .set e.1 e.2) hr h1⟩
    unfold entry
    have hi : (JsonOut.entry tx e).index "v" = .ok (.array (e.1.map (fun x => .str (Text.ofNat x)))) := rfl
    rw [hi]
    simp only
    rw [Json.array_items, hcomb]
    simp only
    have hd : field (JsonOut.entry tx e) "D" = .ok (tx.print e.2) := by
      unfold field
      have : (JsonOut.entry tx e).access "D" = .ok (.str (tx.print e.2)) := rfl
      rw [this]
      exact Json.toStr_plain hx.1
    rw [hd]
    simp only
    rw [hx.2, h1]
  · exact absurd ⟨hlt, hv⟩ h1

theorem entries_ok {tx : FloatText F} (es : List (List Nat × F)) : ∀ {g : Fn F}, g.WF → FactorReach g →
    (∀ n ∈ g.sizes, n < 2 ^ 31) → (es.map Prod.fst).Nodup →
    (∀ e ∈ es, Valid g.sizes e.1 ∧ Legible tx e.2 ∧ Arith.lt e.2 Arith.zero = false) →
    ∃ g', Res.foldList (entry tx) g (es.map (JsonOut.entry tx)) = .ok g' ∧ g'.WF ∧ FactorReach g' ∧ g'.vars = g.vars ∧
      g'.sizes = g.sizes ∧ g'.weight = g.weight ∧ (∀ e ∈ es, g'.img e.1 = e.2) ∧
      ∀ q, Valid g.sizes q → q ∉ es.map Prod.fst → g'.img q = g.img q := by
  induction es with
  | nil => intro g hg hr _ _ _; exact ⟨g, rfl, hg, hr, rfl, rfl, rfl, by simp, fun _ _ _ => rfl⟩
  | cons e es ih =>
    intro g hg hr hsz hnd hv
    obtain ⟨h1, h2, h3⟩ := hv e (by simp)
    obtain ⟨g1, k1, k2, k3, k4, k5, k6, k7⟩ := entry_ok hg h1 hsz h2 h3
    rw [List.map_cons, List.nodup_cons] at hnd
    obtain ⟨g2, m1, m2, m3, m4, m5, m6, m7, m8⟩ := ih k2 (k7 hr) (by rw [k4]; exact hsz) hnd.2 (by
      intro e' he'; rw [k4]; exact hv e' (by simp [he']))
    refine ⟨g2, ?_, m2, m3, m4.trans k3, m5.trans k4, m6.trans k5, ?_, ?_⟩
    · rw [List.map_cons, Res.foldList_cons_ok k1]; exact m1
    · intro e' he'
      rcases List.mem_cons.mp he' with rfl | he'
      · rw [m8 _ (by rw [k4]; exact h1) hnd.1, k6 _ h1, if_pos rfl]
      · exact m7 e' he'
    · intro q hq hnot
      rw [List.map_cons, List.mem_cons, not_or] at hnot
      rw [m8 q (by rw [k4]; exact hq) hnot.2, k6 q hq, if_neg hnot.1]

/-- The settings of an import. -/
structure Setup (tx : FloatText F) (o : ImportOrder) (L : List Var) : Prop where
  fair : o.Fair
  named : ∀ u ∈ L, ∀ w ∈ L, u.name = w.name → u = w
  names : ∀ v ∈ L, v.name ≠ "" ∧ ∀ c ∈ v.name.toList, Plain c
  sizes : ∀ v ∈ L, v.size < 2 ^ 31 ∧ 0 < v.size

/-- Factors which survive. -/
structure Kept (tx : FloatText F) (L : List Var) (f : Fn F) : Prop where
  wf : f.WF
  mem : ∀ v ∈ f.vars.group, v ∈ L
  arity : f.vars.group.length = 1 ∨ f.vars.group.length = 2
  images : ∀ q, Valid f.sizes q → Good tx (f.img q)
  weight : ∀ w, f.weight = some w → Legible tx w

theorem map_ren_size (o : ImportOrder) (L l : List Var) : (l.map (ren o L)).map Var.size = l.map Var.size := by
  rw [List.map_map]; rfl

theorem images_ok {tx : FloatText F} {o : ImportOrder} {L : List Var} (hs : Setup tx o L) {f : Fn F} (hf : Kept tx L f) :
    ∃ es g, f.nonNullEntries false = .ok es ∧
      Res.foldList (entry tx) (Fn.ofGroup ⟨f.vars.group.map (ren o L), f.vars.group.map (ren o L)⟩)
        (es.map (JsonOut.entry tx)) = .ok g ∧
      g.WF ∧ FactorReach g ∧ g.vars = ⟨f.vars.group.map (ren o L), f.vars.group.map (ren o L)⟩ ∧ g.sizes = f.sizes ∧
      g.weight = none ∧ ∀ q, Valid f.sizes q → g.img q = f.img q := by
  obtain ⟨es, h1, h2, h3, h4⟩ := hf.wf.nonNull
  let G : Group := ⟨f.vars.group.map (ren o L), f.vars.group.map (ren o L)⟩
  have hGr : GroupReach G := .soup (vars := f.vars.group.map (ren o L)) (by
    rw [Group.ofSoup_eq_ok]
    refine ⟨?_, distinct_ren o L hf.wf.group.distinct, rfl⟩
    intro h
    exact hf.wf.group.ne (List.map_eq_nil_iff.mp h))
  have hGv : ∀ v ∈ G.group, v.WF := by
    intro v hv
    obtain ⟨u, hu, rfl⟩ := List.mem_map.mp hv
    exact ⟨(hs.names u (hf.mem u hu)).1, (hs.sizes u (hf.mem u hu)).2⟩
  have hr : FactorReach (Fn.ofGroup G : Fn F) := .group hGr hGv
  have hw := factorReach_wf hr
  have hsz : (Fn.ofGroup G : Fn F).sizes = f.sizes := by
    rw [hf.wf.sizes']
    exact map_ren_size o L f.vars.group
  obtain ⟨g, k1, k2, k3, k4, k5, k6, k7, k8⟩ := entries_ok (tx := tx) es hw hr (by
    rw [hsz, hf.wf.sizes']
    intro n hn
    obtain ⟨v, hv, rfl⟩ := List.mem_map.mp hn
    exact (hs.sizes v (hf.mem v hv)).1) h2 (by
    intro e he
    obtain ⟨a1, a2⟩ := h3 e he
    obtain ⟨b1, b2, _⟩ := hf.images e.1 a1
    rw [hsz, a2]
    exact ⟨a1, b1, b2⟩)
  refine ⟨es, g, h1, k1, k2, k3, k4, k5.trans hsz, k6, ?_⟩
  intro q hq
  by_cases hm : q ∈ es.map Prod.fst
  · obtain ⟨e, he, rfl⟩ := List.mem_map.mp hm
    rw [k7 e he, (h3 e he).2]
  · rw [k8 q (by rw [hsz]; exact hq) hm, Fn.ofGroup_img]
    rcases h4 q hq hm with h | h
    · exact h.symm
    · exact ((hf.images q hq).2.2 h).symm

/-- The factor on the new variables. -/
structure Moved (o : ImportOrder) (L : List Var) (f g : Fn F) : Prop where
  wf : g.WF
  reach : FactorReach g
  vars : g.vars = ⟨f.vars.group.map (ren o L), f.vars.group.map (ren o L)⟩
  weight : g.weight = f.weight
  sizes : g.sizes = f.sizes
  img : ∀ q, Valid f.sizes q → g.img q = f.img q

theorem Moved.sameFactor {o : ImportOrder} {L : List Var} {f g : Fn F} (hf : f.WF) (h : Moved o L f g) :
    SameFactor (ren o L) f g := by
  refine ⟨by rw [h.vars], h.weight, ?_⟩
  intro q hq
  rw [← hf.sizes'] at hq
  have hq' : Valid g.sizes q := by rw [h.sizes]; exact hq
  rw [h.wf.findImage hq', hf.findImage hq, h.wf.findTransformed hq', hf.findTransformed hq, h.img q hq]
  refine ⟨rfl, ?_⟩
  unfold Fn.timg Fn.transform
  rw [h.weight, h.img q hq]

theorem factor_ok {tx : FloatText F} {o : ImportOrder} {L : List Var} (hs : Setup tx o L) {f : Fn F} (hf : Kept tx L f) :
    ∃ fields, JsonOut.potential tx f = .ok fields ∧ (∀ x ∈ fields, x.1 = "Variables" ∨ x.1 = "Distr_val") ∧
      ∃ g, g.WF ∧ FactorReach g ∧ g.vars = ⟨f.vars.group.map (ren o L), f.vars.group.map (ren o L)⟩ ∧
        g.sizes = f.sizes ∧ g.weight = none ∧ (∀ q, Valid f.sizes q → g.img q = f.img q) ∧
        ∀ extra, extra.find? (fun (e : String × Json) => e.1 == "Correlation") = none →
          factor tx o (L.map (ren o L)) (.obj (fields ++ extra)) = .ok g := by
  obtain ⟨es, g, h1, h2, h3, h4, h5, h6, h7, h8⟩ := images_ok hs hf
  refine ⟨[("Variables", JsonOut.group f.vars.group), ("Distr_val", .array (es.map (JsonOut.entry tx)))], ?_, ?_, g, h3, h4, h5,
    h6, h7, h8, ?_⟩
  · unfold JsonOut.potential
    rw [h1]
  · simp
  · intro extra hex
    unfold factor
    have a1 : (Json.obj ([("Variables", JsonOut.group f.vars.group), ("Distr_val", .array (es.map (JsonOut.entry tx)))] ++
        extra)).access "Variables" = .ok (JsonOut.group f.vars.group) := rfl
    rw [a1]
    simp only
    rw [group_ok hs.fair hs.named hf.mem (fun v hv => (hs.names v hv).2) hf.wf.group.distinct hf.arity]
    simp only
    have a2 : (Json.obj ([("Variables", JsonOut.group f.vars.group), ("Distr_val", .array (es.map (JsonOut.entry tx)))] ++
        extra)).tryAccess "Correlation" = none := by
      show Option.map _ (List.find? _ _) = none
      rw [List.find?_append, hex]
      rfl
    rw [a2]
    simp only
    unfold images
    have a3 : (Json.obj ([("Variables", JsonOut.group f.vars.group), ("Distr_val", .array (es.map (JsonOut.entry tx)))] ++
        extra)).access "Distr_val" = .ok (.array (es.map (JsonOut.entry tx))) := rfl
    rw [a3]
    simp only
    rw [Json.array_items]
    exact h2

/-- The lookup of a field which is not one of the first two. -/
theorem tryAccess_extra {fields extra : List (String × Json)} (hf : ∀ x ∈ fields, x.1 = "Variables" ∨ x.1 = "Distr_val")
    {k : String} (h1 : k ≠ "Variables") (h2 : k ≠ "Distr_val") :
    (Json.obj (fields ++ extra)).tryAccess k = (Json.obj extra).tryAccess k := by
  show Option.map _ (List.find? _ _) = Option.map _ (List.find? _ _)
  rw [List.find?_append]
  have : fields.find? (fun e => e.1 == k) = none := by
    rw [List.find?_eq_none]
    intro x hx
    rcases hf x hx with h | h <;> rw [h] <;> simp only [beq_iff_eq] <;> intro he
    · exact h1 he.symm
    · exact h2 he.symm
  rw [this]; rfl

theorem plain_potential {tx : FloatText F} {o : ImportOrder} {L : List Var} (hs : Setup tx o L) {f : Fn F} (hf : Kept tx L f)
    (hw : f.weight = none) :
    ∃ fields g, JsonOut.potential tx f = .ok fields ∧ Moved o L f g ∧
      potential tx o (L.map (ren o L)) (.obj fields) = .ok (g, .const) := by
  obtain ⟨fields, h1, h2, g, h3, h4, h5, h6, h7, h8, h9⟩ := factor_ok hs hf
  refine ⟨fields, g, h1, ⟨h3, h4, h5, by rw [h7, hw], h6, h8⟩, ?_⟩
  have h10 := h9 [] rfl
  rw [List.append_nil] at h10
  unfold potential
  rw [h10]
  simp only
  have : (Json.obj fields).tryAccess "weight" = none := by
    have := tryAccess_extra (extra := []) h2 (k := "weight") (by decide) (by decide)
    rw [List.append_nil] at this
    rw [this]; rfl
  rw [this]

theorem exp_potential {tx : FloatText F} {o : ImportOrder} {L : List Var} (hs : Setup tx o L) {f : Fn F} (hf : Kept tx L f)
    {w : F} (hw : f.weight = some w) :
    ∃ fields g, JsonOut.expPotential tx f = .ok fields ∧ Moved o L f g ∧
      (∀ k, potential tx o (L.map (ren o L)) (.obj (fields ++ [("tunability", .str ['N'])])) = .ok (g, k) ↔ k = .const) ∧
      potential tx o (L.map (ren o L)) (.obj (fields ++ [("tunability", .str ['Y'])] ++ [])) = .ok (g, .tunable none) ∧
      ∀ l, (∀ v ∈ l, v ∈ L) → Distinct l → (l.length = 1 ∨ l.length = 2) →
        potential tx o (L.map (ren o L)) (.obj (fields ++ [("tunability", .str ['Y'])] ++ [("Share", JsonOut.group l)])) =
          .ok (g, .tunable (some (l.map (ren o L)))) := by
  obtain ⟨fields, h1, h2, g0, h3, h4, h5, h6, h7, h8, h9⟩ := factor_ok hs hf
  obtain ⟨g, k1, k2, k3, k4, k5, k6⟩ := h3.exponential w
  have hmv : Moved o L f g := ⟨k2, .exponential h4 k1, by rw [k3, h5], by rw [k5, hw], by rw [k4, h6],
    fun q hq => by rw [k6 q (by rw [h6]; exact hq), h8 q hq]⟩
  have hwt : ∀ extra, extra.find? (fun (e : String × Json) => e.1 == "Correlation") = none →
      potential tx o (L.map (ren o L)) (.obj (fields ++ (("weight", .str (tx.print w)) :: extra))) =
        (match kind o (L.map (ren o L)) (.obj (fields ++ (("weight", .str (tx.print w)) :: extra))) with
          | .ok k => .ok (g, k)
          | .throw => .throw
          | .ub => .ub) := by
    intro extra hex
    unfold potential
    rw [h9 (("weight", .str (tx.print w)) :: extra) (by rw [List.find?_cons_of_neg (by simp)]; exact hex)]
    simp only
    rw [tryAccess_extra h2 (by decide) (by decide)]
    have : (Json.obj (("weight", .str (tx.print w)) :: extra)).tryAccess "weight" = some (.str (tx.print w)) := rfl
    rw [this]
    simp only
    rw [Json.toStr_plain (hf.weight w hw).1]
    simp only
    rw [(hf.weight w hw).2, k1]
    rfl
  have hyes : (Json.str ['Y']).toStr = .ok ['Y'] := Json.toStr_plain (by decide)
  have hno : (Json.str ['N']).toStr = .ok ['N'] := Json.toStr_plain (by decide)
  refine ⟨fields ++ [("weight", .str (tx.print w))], g, ?_, hmv, ?_, ?_, ?_⟩
  · unfold JsonOut.expPotential
    rw [h1]
    simp only
    rw [hw]
  · intro k
    rw [List.append_assoc]
    show potential _ _ _ (.obj (fields ++ (("weight", .str (tx.print w)) :: [("tunability", .str ['N'])]))) = _ ↔ _
    rw [hwt _ rfl]
    have : kind o (L.map (ren o L)) (.obj (fields ++ (("weight", .str (tx.print w)) :: [("tunability", .str ['N'])]))) =
        .ok .const := by
      unfold kind
      rw [tryAccess_extra h2 (by decide) (by decide)]
      have : (Json.obj [("weight", .str (tx.print w)), ("tunability", .str ['N'])]).tryAccess "tunability" =
        some (.str ['N']) := rfl
      rw [this]
      simp only
      rw [hno]
      simp only
      rw [if_neg (by decide)]
    rw [this]
    simp only [Res.ok.injEq, Prod.mk.injEq, true_and]
    exact eq_comm
  · rw [List.append_nil, List.append_assoc]
    show potential _ _ _ (.obj (fields ++ (("weight", .str (tx.print w)) :: [("tunability", .str ['Y'])]))) = _
    rw [hwt _ rfl]
    have : kind o (L.map (ren o L)) (.obj (fields ++ (("weight", .str (tx.print w)) :: [("tunability", .str ['Y'])]))) =
        .ok (.tunable none) := by
      unfold kind
      rw [tryAccess_extra h2 (by decide) (by decide)]
      have : (Json.obj [("weight", .str (tx.print w)), ("tunability", .str ['Y'])]).tryAccess "tunability" =
        some (.str ['Y']) := rfl
      rw [this]
      simp only
      rw [hyes]
      simp only
      rw [if_pos trivial, tryAccess_extra h2 (by decide) (by decide)]
      rfl
    rw [this]
  · intro l hl hd hlen
    rw [List.append_assoc, List.append_assoc]
    show potential _ _ _ (.obj (fields ++ (("weight", .str (tx.print w)) :: [("tunability", .str ['Y']),
      ("Share", JsonOut.group l)]))) = _
    rw [hwt _ rfl]
    have : kind o (L.map (ren o L)) (.obj (fields ++ (("weight", .str (tx.print w)) :: [("tunability", .str ['Y']),
        ("Share", JsonOut.group l)]))) = .ok (.tunable (some (l.map (ren o L)))) := by
      unfold kind
      rw [tryAccess_extra h2 (by decide) (by decide)]
      have : (Json.obj [("weight", .str (tx.print w)), ("tunability", .str ['Y']),
        ("Share", JsonOut.group l)]).tryAccess "tunability" = some (.str ['Y']) := rfl
      rw [this]
      simp only
      rw [hyes]
      simp only
      rw [if_pos trivial, tryAccess_extra h2 (by decide) (by decide)]
      have : (Json.obj [("weight", .str (tx.print w)), ("tunability", .str ['Y']),
        ("Share", JsonOut.group l)]).tryAccess "Share" = some (JsonOut.group l) := rfl
      rw [this]
      simp only
      rw [group_ok hs.fair hs.named hl (fun v hv => (hs.names v hv).2) hd hlen]
    rw [this]

end JsonIn
end EFG
