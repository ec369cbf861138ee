import Verif.Spec.Safety
import Verif.Spec.Models
import Verif.Lemmas.Gradient
import Verif.Lemmas.Ask
import Verif.Lemmas.Gibbs
/-
The operations which are defined, whatever the arithmetic is.
-/

set_option linter.unusedSectionVars false

namespace EFG

/-! ### Factors -/

namespace Fn
variable {F : Type u} [Arith F]

theorem mulWhileNonZero_ok {α : Type v} (look : α → Res F) (l : List α) (h : ∀ a ∈ l, ∃ x, look a = .ok x) (x : F) :
    ∃ y, mulWhileNonZero look x l = .ok y := by
  induction l generalizing x with
  | nil => exact ⟨x, rfl⟩
  | cons a l ih =>
    rw [mulWhileNonZero]
    split
    · exact ⟨_, rfl⟩
    · obtain ⟨y, hy⟩ := h a (by simp)
      rw [hy]
      exact ih (fun b hb => h b (by simp [hb])) _

/-- The product of factors on variables which differ by name or size is defined. -/
theorem merge_wf {ord : List Var → List Var} (hord : ∀ l, (ord l).Perm l)
    {factors : List (Fn F)} (hne : factors ≠ []) (hwf : ∀ f ∈ factors, f.WF)
    (hc : ∀ v ∈ factors.flatMap (fun f => f.vars.group),
      ∀ w ∈ factors.flatMap (fun f => f.vars.group), v.eqv w = true → v = w) :
    ∃ m, merge ord factors = .ok m ∧ m.WF := by
  obtain ⟨g, hg, hgw, hmem⟩ := gatherVariables_ok hord hne hwf hc
  have hgn := hgw.distinct.nodup
  have hpos : ∀ v ∈ g.group, 0 < v.size := by
    intro v hv
    obtain ⟨f, hf, hv⟩ := (hmem v).1 hv
    exact (hwf f hf).sizes_pos v hv
  have h0 := ofGroup_wf (F := F) hgw hpos
  have hsub : ∀ f ∈ factors, f.vars.group ⊆ g.group := fun f hf v hv => (hmem v).2 ⟨f, hf, hv⟩
  have hfind := Res.mapList_ok (l := factors.filter (fun f => ¬ f.vars.group = g.group))
    (f := fun f => Finder.make f g.group)
    (g := fun f => (⟨f, f.vars.group.map (fun v => g.group.idxOf v)⟩ : Finder F))
    (by
      intro f hf
      have hf' := List.mem_of_mem_filter hf
      unfold Finder.make
      rw [getIndices_ok (hwf f hf').nodup (hsub f hf')])
  have hvisit : GroupRange.visit g.sizes = .ok (lex g.sizes) := visit_eq _ h0.ne h0.pos
  rw [merge_unfold ord factors hg hne hfind hvisit]
  have himg : ∀ a : Assign, InDom g.group a → ∃ x,
      mergedImage (factors.filter (fun f => f.vars.group = g.group))
        ((factors.filter (fun f => ¬ f.vars.group = g.group)).map
          (fun f => (⟨f, f.vars.group.map (fun v => g.group.idxOf v)⟩ : Finder F)))
        (g.group.map a) = .ok x := by
    intro a ha
    have hdom : ∀ f ∈ factors, InDom f.vars.group a := fun f hf v hv => ha v (hsub f hf hv)
    unfold mergedImage
    obtain ⟨x, hx⟩ := mulWhileNonZero_ok (fun f : Fn F => f.findTransformed (g.group.map a))
      (factors.filter (fun f => f.vars.group = g.group)) (by
        intro f hf
        have hf' := List.mem_of_mem_filter hf
        have he : f.vars.group = g.group := by simpa using (List.mem_filter.1 hf).2
        rw [← he]
        exact ⟨_, (hwf f hf').findTransformed ((hwf f hf').valid_map.2 (hdom f hf'))⟩) Arith.one
    rw [hx]
    simp only
    obtain ⟨y, hy⟩ := mulWhileNonZero_ok (fun fd : Finder F => fd.findTransformed (g.group.map a))
      ((factors.filter (fun f => ¬ f.vars.group = g.group)).map
        (fun f => (⟨f, f.vars.group.map (fun v => g.group.idxOf v)⟩ : Finder F))) (by
        intro fd hfd
        obtain ⟨f, hf, rfl⟩ := List.mem_map.1 hfd
        have hf' := List.mem_of_mem_filter hf
        unfold Finder.findTransformed
        rw [finder_extract (hsub f hf') a]
        exact ⟨_, (hwf f hf').findTransformed ((hwf f hf').valid_map.2 (hdom f hf'))⟩) x
    rw [hy]
    exact ⟨_, rfl⟩
  have hgs : ∀ c, c ∈ lex g.sizes → g.group.map (assignOf g.group c) = c := by
    intro c hc
    apply map_assignOf hgn
    have := (mem_lex.1 hc).length
    simpa [Group.sizes] using this
  have hval : ∀ c, ∃ x, c ∈ lex g.sizes →
      mergedImage (factors.filter (fun f => f.vars.group = g.group))
        ((factors.filter (fun f => ¬ f.vars.group = g.group)).map
          (fun f => (⟨f, f.vars.group.map (fun v => g.group.idxOf v)⟩ : Finder F))) c = .ok x := by
    intro c
    by_cases hc : c ∈ lex g.sizes
    · obtain ⟨x, hx⟩ := himg (assignOf g.group c) (inDom_assignOf hgn (mem_lex.1 hc))
      rw [hgs c hc] at hx
      exact ⟨x, fun _ => hx⟩
    · exact ⟨none, fun h => absurd h hc⟩
  choose valOf hvalOf using hval
  obtain ⟨m, h1, h2, _⟩ := h0.setFold (lex g.sizes) id valOf
    (fun c hc => mem_lex.1 hc) (by simpa using lex_nodup g.sizes)
  refine ⟨m, ?_, h2⟩
  rw [← h1]
  refine Res.foldList_congr (fun r c hc => ?_) _
  simp only [mergeStep, hvalOf c hc]
  cases valOf c <;> rfl

theorem merge_ne_ub {ord : List Var → List Var} (hord : ∀ l, (ord l).Perm l)
    {factors : List (Fn F)} (hwf : ∀ f ∈ factors, f.WF) :
    merge ord factors ≠ .ub ∧ ∀ m, merge ord factors = .ok m → m.WF := by
  by_cases hne : factors = []
  · subst hne
    have : merge ord ([] : List (Fn F)) = .throw := by
      unfold merge gatherVariables gatherSet
      have : ord [] = [] := List.perm_nil.mp (hord [])
      simp only [List.flatMap_nil]
      rw [this]
      rfl
    rw [this]
    exact ⟨(nomatch ·), fun _ h => nomatch h⟩
  · by_cases hc : ∀ v ∈ factors.flatMap (fun f => f.vars.group),
      ∀ w ∈ factors.flatMap (fun f => f.vars.group), v.eqv w = true → v = w
    · obtain ⟨m, h1, h2⟩ := merge_wf hord hne hwf hc
      rw [h1]
      refine ⟨(nomatch ·), fun m' h => ?_⟩
      cases h
      exact h2
    · have : merge ord factors = .throw := by
        unfold merge
        rw [gatherVariables_throw ord factors hc]
      rw [this]
      exact ⟨(nomatch ·), fun _ h => nomatch h⟩

theorem WF.clone_ne_ub {f : Fn F} (h : f.WF) {g : Group} (hg : g.WF) : f.cloneWithPermutedGroup g ≠ .ub := by
  by_cases hp : g.group.Perm f.vars.group
  · obtain ⟨f', h1, _⟩ := h.cloneWithPermutedGroup hg hp
    rw [h1]; exact (nomatch ·)
  · rw [cloneWithPermutedGroup_throw h hg hp]; exact (nomatch ·)

end Fn

namespace State
variable {F : Type} [Arith F]

/-! ### The joint distribution -/

theorem Inv.locate_own {s : State F} (hs : Inv s) {v : Var} {e : Var × Loc} (h : s.locate v = some e) :
    e.1 ∈ s.vars ∧ e.1.eqv v = true ∧ s.locate e.1 = some e := by
  obtain ⟨h1, h2⟩ := hs.net.locate_some h
  exact ⟨h1, h2, by rw [locate_eqv s h2]; exact h⟩

theorem locateAll_cases (s : State F) (vs : List Var) :
    s.locateAll vs = .throw ∨ ∃ locs, s.locateAll vs = .ok locs ∧
      List.Forall₂ (fun v e => s.locate v = some e) vs locs := by
  induction vs with
  | nil => exact Or.inr ⟨[], rfl, .nil⟩
  | cons v vs ih =>
    rw [State.locateAll]
    cases hv : s.locate v with
    | none => exact Or.inl rfl
    | some e =>
      rcases ih with h | ⟨locs, h1, h2⟩
      · rw [h]; exact Or.inl rfl
      · rw [h1]; exact Or.inr ⟨_, rfl, .cons hv h2⟩

/-- A contribution to a joint distribution is a function which exists. -/
theorem contribution_ok {s : State F} (hs : Inv s) (ha : Alive s) {G : List Var} {v : Var} (hv : v ∈ s.vars)
    {c : Contribution} (hc : c ∈ s.contribs G v) : ∃ f, s.contribution c = .ok f ∧ f.WF := by
  unfold contribs at hc
  by_cases ho : v ∈ s.obs
  · rw [if_pos ho, List.mem_singleton] at hc
    subst hc
    obtain ⟨k, hk⟩ := AMap.mem_keys.mp ho
    have hlt : s.ev v < v.size := by
      unfold State.ev; rw [hk]; exact hs.obsVal v k hk
    obtain ⟨m, h1, h2, _⟩ := Fn.indicator_eq (F := F) hlt
    exact ⟨m, h1, h2.wf⟩
  · rw [if_neg ho] at hc
    rcases List.mem_cons.mp hc with rfl | hc
    · obtain ⟨m, hm⟩ := Option.isSome_iff_exists.mp (ha.mrg v (mem_hid.mpr ⟨hv, ho⟩))
      refine ⟨m, ?_, (hs.mrgT v m hm).wf⟩
      unfold State.mrg at hm
      unfold contribution
      simp only
      cases hn : s.node? v with
      | none => rw [hn] at hm; cases hm
      | some n =>
        rw [hn] at hm
        simp only at hm ⊢
        rw [hm]; rfl
    · obtain ⟨x, hx, rfl⟩ := List.mem_map.mp hc
      obtain ⟨w, cn⟩ := x
      have hact : s.act v w = some cn := AMap.find?_of_mem (hs.net.nodup v).1 hx
      by_cases hw : G.contains w = true
      · simp only [hw, if_true]
        obtain ⟨_, f, hf, hb⟩ := hs.link v w cn.factor (lnk_of_act hact)
        exact ⟨f, deref_eq hf, hb.wf⟩
      · simp only [hw, Bool.false_eq_true, if_false]
        obtain ⟨m, hm⟩ := Option.isSome_iff_exists.mp (ha.msg v w ho (by rw [hact]; rfl))
        refine ⟨m, ?_, (ha.typed v w m ho hm).wf⟩
        unfold State.msg at hm
        rw [hact] at hm
        unfold contribution conn?
        simp only
        unfold State.act at hact
        rw [hact]
        simp only [Option.bind_some] at hm ⊢
        rw [hm]; rfl

/-- With at most one observed variable the joint distribution is defined. -/
theorem jointOf_ne_ub {ord : List Var → List Var} (hord : ∀ l, (ord l).Perm l)
    {sh : List Contribution → List Contribution} (hsh : ∀ l, (sh l).Perm l) {s : State F} (hs : Inv s) (ha : Alive s)
    {g : Group} (hg : g.WF)
    (hobs : ∀ u ∈ g.group, ∀ v ∈ g.group, ∀ u' v', u' ∈ s.obs → v' ∈ s.obs → u'.eqv u = true → v'.eqv v = true → u = v) :
    s.jointOf ord sh g ≠ .ub := by
  unfold State.jointOf
  rcases locateAll_cases s g.group with h | ⟨locs, h1, h2⟩
  · rw [h]; exact (nomatch ·)
  · rw [h1]
    simp only
    have hown : ∀ e ∈ locs, e.1 ∈ s.vars ∧ s.locate e.1 = some e := by
      intro e he
      obtain ⟨i, hi⟩ := List.mem_iff_getElem?.mp he
      obtain ⟨hil, hie⟩ := List.getElem?_eq_some_iff.mp hi
      have := List.Forall₂.get h2 (i := i) (by rw [h2.length_eq]; exact hil) hil
      simp only [List.get_eq_getElem, hie] at this
      exact ⟨(hs.locate_own this).1, (hs.locate_own this).2.2⟩
    have hc := Res.mapList_ok (l := locs) (f := s.contributionsOf (locs.map Prod.fst))
      (g := fun e => s.contribs (locs.map Prod.fst) e.1) (fun e he =>
        (hs.contributionsOf ha.mrg (hown e he).1 (hown e he).2).1)
    rw [hc]
    simp only
    have hlen : ¬ 2 ≤ (locs.filter (fun e => e.2.isObserved)).length := by
      intro hle
      obtain ⟨e1, e2, rest, hr⟩ : ∃ e1 e2 rest, locs.filter (fun e => e.2.isObserved) = e1 :: e2 :: rest := by
        generalize locs.filter (fun e => e.2.isObserved) = l at hle
        match l, hle with
        | [], h => simp at h
        | [_], h => simp at h
        | e1 :: e2 :: rest, _ => exact ⟨e1, e2, rest, rfl⟩
      have hsub : [e1, e2].Sublist locs := by
        refine List.Sublist.trans ?_ (List.filter_sublist (p := fun e : Var × Loc => e.2.isObserved))
        rw [hr]
        simp
      have hF : ∀ {vs : List Var} {ls : List (Var × Loc)}, List.Forall₂ (fun v e => s.locate v = some e) vs ls →
          ∀ {l : List (Var × Loc)}, l.Sublist ls → ∃ l' : List Var, l'.Sublist vs ∧ List.Forall₂ (fun v e => s.locate v = some e) l' l := by
        intro vs ls h
        induction h with
        | nil => intro l hl; cases hl; exact ⟨[], .slnil, .nil⟩
        | cons hd _ ih =>
          intro l hl
          cases hl with
          | cons _ hl => obtain ⟨l', h3, h4⟩ := ih hl; exact ⟨l', h3.cons _, h4⟩
          | cons_cons _ hl => obtain ⟨l', h3, h4⟩ := ih hl; exact ⟨_ :: l', h3.cons_cons _, .cons hd h4⟩
      obtain ⟨l', h3, h4⟩ := hF h2 hsub
      match l', h4 with
      | [v1, v2], .cons hv1 (.cons hv2 .nil) =>
        have hm1 := (hs.contributionsOf ha.mrg (G := []) (hown e1 (hsub.subset (by simp))).1 (hown e1 (hsub.subset (by simp))).2).2
        have hm2 := (hs.contributionsOf ha.mrg (G := []) (hown e2 (hsub.subset (by simp))).1 (hown e2 (hsub.subset (by simp))).2).2
        have hfm : ∀ e ∈ [e1, e2], e.2.isObserved = true := by
          intro e he
          have : e ∈ locs.filter (fun e => e.2.isObserved) := by
            rw [hr]
            rcases List.mem_cons.mp he with rfl | he
            · simp
            · rw [List.mem_singleton.mp he]; simp
          exact (List.mem_filter.mp this).2
        have heq := hobs v1 (h3.subset (by simp)) v2 (h3.subset (by simp)) e1.1 e2.1 (hm1.mp (hfm _ (by simp)))
          (hm2.mp (hfm _ (by simp))) (hs.locate_own hv1).2.1 (hs.locate_own hv2).2.1
        have hnd := h3.nodup hg.distinct.nodup
        simp [heq] at hnd
    rw [if_neg hlen]
    have hcontr : ∀ c, ∃ f, c ∈ sh (locs.map (fun e => s.contribs (locs.map Prod.fst) e.1)).flatten.dedup →
        s.contribution c = .ok f ∧ f.WF := by
      intro c
      by_cases hm : c ∈ sh (locs.map (fun e => s.contribs (locs.map Prod.fst) e.1)).flatten.dedup
      · have hm' := (hsh _).mem_iff.mp hm
        rw [List.mem_dedup, List.mem_flatten] at hm'
        obtain ⟨l, hl, hcl⟩ := hm'
        obtain ⟨e, he, rfl⟩ := List.mem_map.mp hl
        obtain ⟨f, hf⟩ := contribution_ok hs ha (hown e he).1 hcl
        exact ⟨f, fun _ => hf⟩
      · exact ⟨Fn.ofGroup g, fun h => absurd h hm⟩
    choose fn hfn using hcontr
    rw [Res.mapList_ok (fun c hc => (hfn c hc).1)]
    simp only
    obtain ⟨hm1, hm2⟩ := Fn.merge_ne_ub hord (factors := (sh (locs.map (fun e => s.contribs (locs.map Prod.fst) e.1)).flatten.dedup).map fn) (by
      intro f hf
      obtain ⟨c, hc, rfl⟩ := List.mem_map.mp hf
      exact (hfn c hc).2)
    split
    · rename_i m hm
      exact (hm2 m hm).clone_ne_ub hg
    · exact (nomatch ·)
    · rename_i hm
      exact absurd hm hm1

/-! ### The gradient -/

theorem dotLoop_ok (xs : List F) : ∀ (acc : F) (ps : List F), xs.length ≤ ps.length → ∃ y, dotLoop acc ps xs = .ok y := by
  induction xs with
  | nil => intro acc ps _; exact ⟨acc, by cases ps <;> rfl⟩
  | cons x xs ih =>
    intro acc ps h
    cases ps with
    | nil => simp at h
    | cons p ps => exact ih _ ps (by simpa using h)

theorem dotProduct_ok {f : Fn F} (hw : f.WF) {ps : List F} (h : (lex f.sizes).length ≤ ps.length) :
    ∃ y, dotProduct f ps = .ok y := by
  unfold dotProduct
  rw [hw.rawEntries]
  simp only
  exact dotLoop_ok _ _ _ (by simpa using h)

theorem unaryBeta_ok {ord : List Var → List Var} (hord : ∀ l, (ord l).Perm l) {s : State F} (hs : Inv s) (ha : Alive s)
    {v : Var} (hv : v ∈ s.hid) {f : Fn F} (hw : f.WF) (hg : f.vars.group = [v]) : ∃ y, unaryBeta ord s f v = .ok y := by
  obtain ⟨_, _, _, ps, _, _, _, _, _, _, _, h1, h2⟩ := belief_ok hord hs ha hv
  unfold unaryBeta
  rw [h2]
  simp only
  refine dotProduct_ok hw ?_
  have hsz : f.sizes = [v.size] := by rw [hw.sizes', hg]; rfl
  rw [hsz, lex_single, h1]
  simp

theorem cavity_ok {ord : List Var → List Var} (hord : ∀ l, (ord l).Perm l) {s : State F} (hs : Inv s) (ha : Alive s)
    {u : Var} (hu : u ∈ s.hid) (w : Var) : ∃ ps, cavity ord s u w = .ok ps ∧ ps.length = u.size := by
  obtain ⟨mg, hmg⟩ := Option.isSome_iff_exists.mp (ha.mrg u hu)
  obtain ⟨huv, huo⟩ := mem_hid.mp hu
  obtain ⟨n, hn⟩ := node?_of_mem (s := s) (v := u) (by rw [hs.net.keys]; exact huv)
  have hao : s.activeOf u = n.active := by unfold activeOf; rw [hn]
  have hnm : n.merged = some mg := by unfold mrg at hmg; rw [hn] at hmg; exact hmg
  set L := (AMap.keys n.active).filter (fun x => !decide (x = w)) with hL
  have hex : ∀ x, ∃ m, x ∈ ord L → activeMessage n x = .ok m ∧ m.Unary u := by
    intro x
    by_cases hx : x ∈ ord L
    · have hx' := (hord _).mem_iff.mp hx
      rw [hL, List.mem_filter] at hx'
      obtain ⟨c, hc⟩ := AMap.mem_keys.mp hx'.1
      have hact : s.act u x = some c := by unfold State.act; rw [hao]; exact hc
      obtain ⟨m, hm⟩ := Option.isSome_iff_exists.mp (ha.msg u x huo (by rw [hact]; rfl))
      have hcm : c.message = some m := by unfold msg at hm; rw [hact] at hm; exact hm
      refine ⟨m, fun _ => ⟨?_, ha.typed u x m huo hm⟩⟩
      unfold activeMessage
      rw [hc]
      simp only
      rw [hcm]
      rfl
    · exact ⟨Fn.ones u, fun h => absurd h hx⟩
  choose val hval using hex
  have hmap : Res.mapList (activeMessage n) (ord L) = .ok ((ord L).map val) :=
    Res.mapList_ok (fun x hx => (hval x hx).1)
  obtain ⟨f, _, e1, e2, _⟩ := Fn.mergedUnaries_eq (v := u) (fs := mg :: (ord L).map val) (by simp) (by
    intro g hg
    rcases List.mem_cons.mp hg with rfl | hg
    · exact hs.mrgT _ _ hmg
    · obtain ⟨x, hx, rfl⟩ := List.mem_map.mp hg
      exact (hval x hx).2)
  obtain ⟨ps, e3, e4⟩ := e2.probabilities
  refine ⟨ps, ?_, e4⟩
  unfold cavity
  rw [hn]
  simp only
  unfold gatherFrom
  rw [hnm]
  simp only
  rw [hmap]
  simp only
  rw [e1]
  exact e3

theorem binaryBeta_ok {ord : List Var → List Var} (hord : ∀ l, (ord l).Perm l) {s : State F} (hs : Inv s) (ha : Alive s)
    {u v : Var} (hu : u ∈ s.hid) (hv : v ∈ s.hid) {f : Fn F} (hw : f.WF) (hg : f.vars.group = [u, v]) :
    ∃ y, binaryBeta ord s f u v = .ok y := by
  obtain ⟨pa, h1, h2⟩ := cavity_ok hord hs ha hu v
  obtain ⟨pb, h3, h4⟩ := cavity_ok hord hs ha hv u
  have hsz : f.sizes = [u.size, v.size] := by rw [hw.sizes', hg]; rfl
  unfold binaryBeta
  rw [h1]
  simp only
  rw [h3]
  simp only
  have he : f.entries = .ok ((lex f.sizes).map (fun c => (c, f.timg c))) := by
    unfold Fn.entries
    rw [hw.rawEntries]
    simp only [List.map_map]
    rfl
  rw [he]
  simp only
  have hp : ∀ e : List Nat × F, ∃ y, e ∈ (lex f.sizes).map (fun c => (c, f.timg c)) → pairWeight pa pb e = .ok y := by
    intro e
    by_cases hm : e ∈ (lex f.sizes).map (fun c => (c, f.timg c))
    · obtain ⟨c, hc, rfl⟩ := List.mem_map.mp hm
      rw [mem_lex, hsz, valid_pair] at hc
      obtain ⟨i, hi, j, hj, rfl⟩ := hc
      obtain ⟨x, hx⟩ : ∃ x, pa[i]? = some x := ⟨_, List.getElem?_eq_getElem (by omega)⟩
      obtain ⟨y, hy⟩ : ∃ y, pb[j]? = some y := ⟨_, List.getElem?_eq_getElem (by omega)⟩
      unfold pairWeight
      simp only [hx, hy]
      exact ⟨_, fun _ => rfl⟩
    · exact ⟨Arith.zero, fun h => absurd h hm⟩
  choose val hval using hp
  rw [Res.mapList_ok (fun e he => hval e he)]
  simp only
  exact dotProduct_ok hw (by simp)

theorem baseAlpha_fits {s : State F} (hs : Inv s) {samples : List (List Nat)}
    (hv : ∀ c ∈ samples, EFG.Valid (s.vars.map Var.size) c) {b : BaseTuner} {f : Fn F} (h1 : s.heap[b.factor]? = some f)
    (h2 : ∀ v ∈ f.vars.group, v ∈ s.vars) (h3 : b.indices = f.vars.group.map (fun v => s.vars.idxOf v)) :
    ∃ y, s.baseAlpha samples b = .ok y := by
  have hw := hs.heapWF f (List.mem_of_getElem? h1)
  have hn := hs.net.distinct.nodup
  unfold baseAlpha
  rw [deref_eq h1]
  simp only
  generalize Arith.div (Arith.one : F) (Arith.ofNat samples.length) = co
  have step : ∀ c ∈ samples, ∀ acc : F, ∃ y, alphaStep f b.indices co acc c = .ok y := by
    intro c hc acc
    unfold alphaStep Finder.findImage
    rw [h3]
    have hval := hv c hc
    have hlc : c.length = s.vars.length := by
      have := hval.length_eq
      rw [List.length_map] at this
      exact this.symm
    have := Fn.finder_extract (f := f) (bigger := s.vars) (fun v hv => h2 v hv) (assignOf s.vars c)
    rw [map_assignOf hn hlc] at this
    rw [this]
    simp only
    rw [hw.findImage (hw.valid_map.2 (fun v hv => inDom_assignOf hn hval v (h2 v hv)))]
    exact ⟨_, rfl⟩
  have fold : ∀ (l : List (List Nat)), (∀ c ∈ l, c ∈ samples) → ∀ acc : F,
      ∃ y, Res.foldList (alphaStep f b.indices co) acc l = .ok y := by
    intro l
    induction l with
    | nil => intro _ acc; exact ⟨acc, rfl⟩
    | cons c l ih =>
      intro hl acc
      obtain ⟨y, hy⟩ := step c (hl c (by simp)) acc
      rw [Res.foldList, hy]
      exact ih (fun d hd => hl d (by simp [hd])) y
  exact fold samples (fun _ h => h) _

theorem baseAlpha_ok {s : State F} (hs : Inv s) {samples : List (List Nat)}
    (hv : ∀ c ∈ samples, EFG.Valid (s.vars.map Var.size) c) {b : BaseTuner} (hb : TunerOf s b) :
    ∃ y, s.baseAlpha samples b = .ok y := by
  obtain ⟨f, h1, h2, h3, _⟩ := hb.fn
  exact baseAlpha_fits hs hv h1 h2 h3

theorem baseBeta_ok {ord : List Var → List Var} (hord : ∀ l, (ord l).Perm l) {s : State F} (hs : Inv s) (ha : Alive s)
    (he : s.evidences = []) {b : BaseTuner} (hb : TunerOf s b) : ∃ y, s.baseBeta ord b = .ok y := by
  obtain ⟨f, h1, h2, _, h4⟩ := hb.fn
  have hw := hs.heapWF f (List.mem_of_getElem? h1)
  have hh : ∀ v ∈ s.vars, v ∈ s.hid := fun v hv => mem_hid.mpr ⟨hv, by unfold State.obs; rw [he]; simp⟩
  unfold baseBeta
  rw [deref_eq h1]
  simp only
  rcases h4 with ⟨v, h5, h6⟩ | ⟨u, v, h5, h6⟩
  · rw [h6]
    exact unaryBeta_ok hord hs ha (hh v (h2 v (by rw [h5]; simp))) hw h5
  · rw [h6]
    exact binaryBeta_ok hord hs ha (hh u (h2 u (by rw [h5]; simp))) (hh v (h2 v (by rw [h5]; simp))) hw h5

theorem tunerSum_ok {g : BaseTuner → Res F} {t : List BaseTuner} (h : ∀ b ∈ t, ∃ y, g b = .ok y) :
    ∃ y, tunerSum g t = .ok y := by
  have hx : ∀ b, ∃ y, b ∈ t → g b = .ok y := by
    intro b
    by_cases hb : b ∈ t
    · obtain ⟨y, hy⟩ := h b hb
      exact ⟨y, fun _ => hy⟩
    · exact ⟨Arith.zero, fun h => absurd h hb⟩
  choose val hval using hx
  unfold tunerSum
  split
  · exact h _ (by simp)
  · rw [Res.mapList_ok (fun b hb => hval b hb)]
    exact ⟨_, rfl⟩

/-- The gradient of the weights is defined. -/
theorem gradient_ok {ord : List Var → List Var} (hord : ∀ l, (ord l).Perm l) {sched : Sched}
    (hsched : ∀ l, (sched l).Perm l) {samples : List (List Nat)} {n : Nat} (hn : 1 ≤ n) {s : State F}
    (hs : Healthy s) (ht : Tuned s) (hv : ∀ c ∈ samples, EFG.Valid (s.vars.map Var.size) c) :
    ∃ s' gs, getWeightsGradient ord sched samples n s = .ok s' gs ∧ gs.length = s.tuners.length := by
  obtain ⟨s2, r, h1, h2, h3, _, h5, h6⟩ := gradient_start (b := False) hord hsched samples hn ⟨hs, fun h => h.elim⟩
  have hH := h2.healthy
  have ha := hH.alive (by rw [h3]; rfl)
  have ht2 : Tuned s2 := ht.kept (.of_eq h6.heap) ⟨[], by rw [h6.vars]; simp⟩ ⟨[], by rw [h6.factors]; simp⟩ h6.tunables h6.tuners
  have hx : ∀ t, ∃ y, t ∈ s2.tuners → gradientTask ord samples s2 t = .ok y := by
    intro t
    by_cases hm : t ∈ s2.tuners
    · obtain ⟨a, e1⟩ := tunerSum_ok (g := s2.baseAlpha samples) (t := t)
        (fun b hb => baseAlpha_ok hH.inv (by rw [h6.vars]; exact hv) (ht2.of t hm b hb))
      obtain ⟨c, e2⟩ := tunerSum_ok (g := s2.baseBeta ord) (t := t)
        (fun b hb => baseBeta_ok hord hH.inv ha h5 (ht2.of t hm b hb))
      refine ⟨Arith.sub a c, fun _ => ?_⟩
      unfold gradientTask
      rw [e1]
      simp only
      rw [e2]
    · exact ⟨Arith.zero, fun h => absurd h hm⟩
  choose val hval using hx
  rw [Res.mapList_ok (fun t ht => hval t ht)] at h1
  exact ⟨s2, _, h1, by rw [List.length_map, h6.tuners]⟩

/-! ### All the operations -/

theorem drop_ne_ub {σ α : Type} {x : M σ α} {s : σ} (h : x s ≠ .ub) : GOp.drop x s ≠ .ub := by
  unfold GOp.drop
  cases hx : x s with
  | ok s' a => exact (nomatch ·)
  | throw s' => exact (nomatch ·)
  | ub => exact absurd hx h

theorem addConst_ne_ub {s : State F} (hs : Inv s) {p : Nat} (hp : p < s.heap.length) :
    addConstFactor (some p) s ≠ .ub := by
  unfold addConstFactor
  rcases addDistribution_cases hs (List.getElem?_eq_getElem hp) with ⟨s1, h1, _⟩ | ⟨s1, h1, _⟩ <;> rw [h1] <;> exact (nomatch ·)

theorem addTunable_ne_ub {s : State F} (hs : Inv s) (ht : Tuned s) {p : Nat} {f : Fn F} (hf : s.heap[p]? = some f)
    (hw : f.weight.isSome) (share : Option VarSet) : addTunable (some p) share s ≠ .ub := by
  rcases addTunable_cases hs ht hf share with ⟨s', h1, _⟩ | ⟨_, s1, b, h1, hb, _, h2⟩
  · rw [h1]; exact (nomatch ·)
  · cases share with
    | none => simp only at h2; rw [h2]; exact (nomatch ·)
    | some g =>
      simp only at h2
      rcases h2 with ⟨_, h2⟩ | ⟨i, h3, h2⟩
      · rw [h2]; exact (nomatch ·)
      · rw [h2]
        have h4 := registered_tuned ht h1 hf hw
        have ht1 : (registered s1 p).tuners = s.tuners := h1.kept.tuners
        unfold findTuner at h3
        have hi : i < s.tuners.length := (List.findIdx?_eq_some_iff_findIdx_eq.mp h3).1
        unfold shareTuner
        rw [ht1, List.getElem?_eq_getElem hi]
        simp only
        have hm : s.tuners[i] ∈ (registered s1 p).tuners := by rw [ht1]; exact List.getElem_mem hi
        have hok : ∃ w, (registered s1 p).tunerWeight s.tuners[i] = .ok w := by
          cases hc : s.tuners[i] with
          | nil => exact absurd hc (h4.ne _ hm)
          | cons c t =>
            obtain ⟨g', e1, e2⟩ := h4.exp _ (h4.of _ hm c (by rw [hc]; simp)).reg
            obtain ⟨w, hw'⟩ := Option.isSome_iff_exists.mp e2
            refine ⟨w, ?_⟩
            unfold tunerWeight
            simp only
            unfold weightOf
            rw [e1]
            simp only
            rw [hw']
            rfl
        obtain ⟨w, hw'⟩ := hok
        rw [hw']
        exact (nomatch ·)

theorem mutate_ne_ub {s : State F} (hs : Inv s) {p : Nat} {op : Heap.Op F} (hp : p < s.heap.length)
    (hd : ∀ vs, op = .replaceVariables vs → Distinct vs) : GOp.onHeap (Heap.mutate p op) s ≠ .ub := by
  have hf := List.getElem?_eq_getElem hp
  have hw := hs.heapWF _ (List.getElem_mem hp)
  have key : Heap.applyOp op s.heap[p] ≠ .ub := by
    cases op with
    | set comb x =>
      rcases hw.mutableSet comb x with ⟨g, h1, _⟩ | ⟨h1, _⟩
      · show Fn.mutableSet comb x _ ≠ _
        rw [h1]; exact (nomatch ·)
      · show Fn.mutableSet comb x _ ≠ _
        rw [h1]; exact (nomatch ·)
    | clear => exact (nomatch ·)
    | setWeight w => exact (nomatch ·)
    | replaceVariables vs =>
      have hdv := hd vs rfl
      show Fn.replaceVariables vs _ ≠ _
      unfold Fn.replaceVariables Group.replaceVariables
      simp only
      rw [VarSet.ofSoup_eq hdv]
      by_cases hl : vs.length ≠ (s.heap[p]).vars.group.length
      · rw [if_pos hl]; exact (nomatch ·)
      · rw [if_neg hl]
        push Not at hl
        have : ∀ (ns os : List Var), ns.length = os.length → Group.replaceCheck ns os ≠ .ub := by
          intro ns
          induction ns with
          | nil => intro os _; exact (nomatch ·)
          | cons n ns ih =>
            intro os h
            cases os with
            | nil => simp at h
            | cons o os =>
              rw [Group.replaceCheck]
              split
              · exact (nomatch ·)
              · exact ih os (by simpa using h)
        cases hc : Group.replaceCheck vs (s.heap[p]).vars.group with
        | ok _ => exact (nomatch ·)
        | throw => exact (nomatch ·)
        | ub => exact absurd hc (this _ _ hl)
  unfold GOp.onHeap Heap.mutate
  rw [hf]
  simp only
  cases ho : Heap.applyOp op s.heap[p] with
  | ok g _ => exact (nomatch ·)
  | throw g => exact (nomatch ·)
  | ub => exact absurd ho key

theorem setEvidence_ne_ub {ord : List Var → List Var} (hord : ∀ l, (ord l).Perm l) (v : Var) (k : Nat)
    {s : State F} (hi : Inv s) : setEvidence ord v k s ≠ .ub := by
  by_cases hk : v.size ≤ k
  · unfold setEvidence; rw [if_pos hk]; exact (nomatch ·)
  · cases hl : s.locate v with
    | none => unfold setEvidence; rw [if_neg hk, hl]; exact (nomatch ·)
    | some e =>
      obtain ⟨h1, h2⟩ := hi.net.locate_some hl
      rw [setEvidence_eqv (w := e.1) (by rw [Var.eqv_comm]; exact h2)]
      have hk' : k < e.1.size := by rw [(Var.eqv_iff.mp h2).2]; omega
      by_cases ho : e.1 ∈ s.obs
      · obtain ⟨s', h3, h4⟩ := setEvidence_observed hord hi.toCore ho hk'
        rw [h3]; exact (nomatch ·)
      · obtain ⟨s', h3, h4⟩ := setEvidence_hidden hord hi h1 ho hk'
        rw [h3]; exact (nomatch ·)

theorem removeEvidence_ne_ub {ord : List Var → List Var} (hord : ∀ l, (ord l).Perm l) (v : Var)
    {s : State F} (hi : Core s) : removeEvidence ord v s ≠ .ub := by
  unfold removeEvidence
  rcases removeOne_cases hord hi v with ⟨w, s', _, _, h, _⟩ | ⟨h, _⟩ <;> rw [h] <;> exact (nomatch ·)

theorem removeEvidences_ne_ub {ord : List Var → List Var} (hord : ∀ l, (ord l).Perm l) (vs : List Var)
    {s : State F} (hi : Core s) : removeEvidences ord vs s ≠ .ub := by
  unfold removeEvidences
  split
  · exact (nomatch ·)
  · have := forEach_removeOne_core hord (ord vs) hi
    cases hc : forEach (removeEvidence_ ord) (ord vs) s with
    | ok _ _ => exact (nomatch ·)
    | throw _ => exact (nomatch ·)
    | ub => rw [hc] at this; exact this.elim

theorem mapList_findVariable_ne_ub (s : State F) (ns : List String) : Res.mapList s.findVariable ns ≠ .ub := by
  induction ns with
  | nil => exact (nomatch ·)
  | cons n ns ih =>
    rw [Res.mapList]
    rcases findVariable_cases s n with ⟨v, h⟩ | h
    · rw [h]
      simp only
      cases hm : Res.mapList s.findVariable ns with
      | ok _ => exact (nomatch ·)
      | throw => exact (nomatch ·)
      | ub => exact absurd hm ih
    · rw [h]; exact (nomatch ·)

theorem asks_ne_ub {α : Type} {ord : List Var → List Var} (hord : ∀ l, (ord l).Perm l) (kind : Kind)
    {sched : Sched} (hsched : ∀ l, (sched l).Perm l) {s : State F} (hs : Healthy s) {n : Nat} (hn : 1 ≤ n)
    (r : State F → Res α) (hr : ∀ s', Asked s s' → Healthy s' → Alive s' → r s' ≠ .ub) :
    asks ord sched kind n r s ≠ .ub := by
  obtain ⟨s', rr, h1, h2, h3, h4, _⟩ := checkPropagation_ok hord kind hsched hs hn
  have e := hr s' h2 h3 (h3.alive (by rw [h4]; rfl))
  unfold asks
  rw [h1]
  simp only
  unfold lift
  cases hc : r s' with
  | ok _ => exact (nomatch ·)
  | throw => exact (nomatch ·)
  | ub => exact absurd hc e

theorem readMarginal_ne_ub {ord : List Var → List Var} (hord : ∀ l, (ord l).Perm l) {s : State F} (hs : Inv s)
    (ha : Alive s) (v : Var) : readMarginal ord v s ≠ .ub := by
  cases hl : s.locate v with
  | none => unfold readMarginal; rw [hl]; exact (nomatch ·)
  | some e =>
    obtain ⟨h1, h2, _⟩ := hs.locate_own hl
    obtain ⟨ps, h3, _⟩ := readMarginal_ok hord hs ha h1 h2
    rw [h3]; exact (nomatch ·)

theorem marginalQuery_ne_ub {ord : List Var → List Var} (hord : ∀ l, (ord l).Perm l) (kind : Kind)
    {sched : Sched} (hsched : ∀ l, (sched l).Perm l) {s : State F} (hs : Healthy s) {n : Nat} (hn : 1 ≤ n) (v : Var) :
    marginalQuery ord sched kind v n s ≠ .ub := by
  rw [marginalQuery_eq]
  exact asks_ne_ub hord kind hsched hs hn _ (fun s' _ h ha => readMarginal_ne_ub hord h.inv ha v)

theorem getMAP_ne_ub {ord : List Var → List Var} (hord : ∀ l, (ord l).Perm l)
    {sched : Sched} (hsched : ∀ l, (sched l).Perm l) {s : State F} (hs : Healthy s) {n : Nat} (hn : 1 ≤ n) (v : Var) :
    getMAP ord sched v n s ≠ .ub := by
  cases hl : s.locate v with
  | some e =>
    obtain ⟨h1, h2, _⟩ := hs.inv.locate_own hl
    obtain ⟨s', k, ps, h3, _⟩ := getMAP_ok hord hsched hs hn h1 h2
    rw [h3]; exact (nomatch ·)
  | none =>
    rw [getMAP_eq]
    refine asks_ne_ub hord _ hsched hs hn _ (fun s' hasked h ha => ?_)
    unfold readMAP
    cases hl' : s'.locate v with
    | none =>
      unfold readMarginal
      rw [hl']; exact (nomatch ·)
    | some e =>
      obtain ⟨h1, h2, _⟩ := h.inv.locate_own hl'
      obtain ⟨ps, h3, h4⟩ := readMarginal_ok hord h.inv ha h1 h2
      rw [h3]
      simp only
      have hpos := h.inv.posV e.1 h1
      cases ps with
      | nil => simp only [List.length_nil] at h4; omega
      | cons x xs => exact (nomatch ·)

/-- No operation which is not a query is undefined. -/
theorem exec_ne_ub_still {s : State F} {op : GOp F} (hi : Inv s) (ht : op.OfCrf = false → Tuned s) (hv : op.Valid s)
    (hth : op.threads = none) (hs : op.Sensible s) : op.exec s ≠ .ub := by
  cases op with
  | create f => exact (nomatch ·)
  | mutate p o =>
    refine mutate_ne_ub hi ?_ ?_
    · cases o <;> first | exact hs | exact hs.1
    · rintro vs rfl; exact hs.2
  | addConst p =>
    cases p with
    | none => exact (nomatch ·)
    | some p => exact addConst_ne_ub hi hs
  | copyConst p =>
    show copyConstFactor p s ≠ .ub
    have hp : p < s.heap.length := hs
    unfold copyConstFactor
    rw [deref_eq (List.getElem?_eq_getElem hp)]
    simp only
    obtain ⟨g, h1, h2, _⟩ := (hi.heapWF _ (List.getElem_mem hp)).cloneTransformed
    rw [h1]
    simp only
    exact addConst_ne_ub (hi.create h2) (by simp [alloc])
  | addTunable p share =>
    cases p with
    | none => exact (nomatch ·)
    | some p =>
      have hp : p < s.heap.length := hs
      exact addTunable_ne_ub hi (ht rfl) (List.getElem?_eq_getElem hp) (hv.2 _ (List.getElem?_eq_getElem hp)) share
  | copyTunable p share =>
    show copyTunable p share s ≠ .ub
    have hp : p < s.heap.length := hs
    unfold copyTunable
    rw [deref_eq (List.getElem?_eq_getElem hp)]
    simp only
    obtain ⟨w, hw⟩ := Option.isSome_iff_exists.mp (hv.2 _ (List.getElem?_eq_getElem hp))
    obtain ⟨g, h1, h2, _, _, h3, _⟩ := (hi.heapWF _ (List.getElem_mem hp)).exponential w
    unfold Fn.copyExponential
    rw [hw]
    simp only
    rw [h1]
    simp only
    refine addTunable_ne_ub (f := g) (hi.create h2) (alloc_tuned hi (ht rfl) g) (by simp [alloc]) (by rw [h3]; rfl) share
  | setWeights ws =>
    show setWeights ws s ≠ .ub
    unfold setWeights
    split <;> exact (nomatch ·)
  | setEvidence ord v k => exact setEvidence_ne_ub hv.1 v k hi
  | setEvidenceByName ord n k =>
    show setEvidenceByName ord n k s ≠ .ub
    unfold setEvidenceByName
    rcases findVariable_cases s n with ⟨v, h⟩ | h
    · rw [h]; exact setEvidence_ne_ub hv.1 v k hi
    · rw [h]; exact (nomatch ·)
  | removeEvidence ord v => exact removeEvidence_ne_ub hv.1 v hi.toCore
  | removeEvidenceByName ord n =>
    show removeEvidenceByName ord n s ≠ .ub
    unfold removeEvidenceByName
    rcases findVariable_cases s n with ⟨v, h⟩ | h
    · rw [h]; exact removeEvidence_ne_ub hv.1 v hi.toCore
    · rw [h]; exact (nomatch ·)
  | removeEvidences ord vs => exact removeEvidences_ne_ub hv.1 vs hi.toCore
  | removeEvidencesByName ord ns =>
    show removeEvidencesByName ord ns s ≠ .ub
    unfold removeEvidencesByName
    cases hm : Res.mapList s.findVariable ns with
    | ok vs => exact removeEvidences_ne_ub hv.1 _ hi.toCore
    | throw => exact (nomatch ·)
    | ub => exact absurd hm (mapList_findVariable_ne_ub s ns)
  | removeAllEvidences ord =>
    obtain ⟨s', h1, _⟩ := removeAllEvidences_ok hv.1 hi.toCore
    show removeAllEvidences ord s ≠ .ub
    rw [h1]; exact (nomatch ·)
  | setMaxIterations n => exact (nomatch ·)
  | marginal => cases hth
  | marginalByName => cases hth
  | map => cases hth
  | hiddenSetMap => cases hth
  | joint => cases hth
  | gradient => cases hth
  | drawSamples => cases hth

/-- No operation is undefined in a state in which the queries are. -/
theorem exec_ne_ub {s : State F} {op : GOp F} (hh : Healthy s) (ht : op.OfCrf = false → Tuned s) (hv : op.Valid s)
    (hth : op.threads ≠ some 0) (hs : op.Sensible s) : op.exec s ≠ .ub := by
  have hn : ∀ n, op.threads = some n → 1 ≤ n := by
    intro n hn
    rw [hn] at hth
    rcases Nat.eq_zero_or_pos n with h | h
    · subst h; exact absurd rfl hth
    · exact h
  cases hq : op.threads with
  | none => exact exec_ne_ub_still hh.inv ht hv hq hs
  | some n =>
    have hn1 := hn n hq
    cases op with
    | marginal ord sched v k =>
      cases hq
      exact drop_ne_ub (marginalQuery_ne_ub hv.1.1 .sum hv.1.2 hh hn1 v)
    | marginalByName ord sched name k =>
      cases hq
      refine drop_ne_ub ?_
      unfold getMarginalByName
      rcases findVariable_cases s name with ⟨v, h⟩ | h
      · rw [h]; exact marginalQuery_ne_ub hv.1.1 .sum hv.1.2 hh hn1 v
      · rw [h]; exact (nomatch ·)
    | map ord sched v k =>
      cases hq
      exact drop_ne_ub (getMAP_ne_ub hv.1.1 hv.1.2 hh hn1 v)
    | hiddenSetMap ord sched k =>
      cases hq
      obtain ⟨s', ks, h1, _⟩ := getHiddenSetMAP_ok hv.1.1 hv.1.2 hh hn1
      exact drop_ne_ub (by rw [h1]; exact (nomatch ·))
    | joint ord sh sched g k =>
      cases hq
      refine drop_ne_ub ?_
      rw [getJoint_eq]
      refine asks_ne_ub hv.1.1 .sum hv.1.2.2 hh hn1 _ (fun s' hasked h ha => ?_)
      refine jointOf_ne_ub hv.1.1 hv.1.2.1 h.inv ha (groupReach_wf hv.2) ?_
      intro u hu v hv' u' v' hu' hv'' e1 e2
      have hob : ∀ x, x ∈ s'.obs → s.Observes x := by
        intro x hx
        rw [observes_iff]
        unfold State.obs at hx ⊢
        rw [← hasked.evidences]
        exact hx
      exact hs u hu v hv' u' v' (hob _ hu') (hob _ hv'') (Var.eqv_iff.mp e1) (Var.eqv_iff.mp e2)
    | gradient ord sched samples k =>
      cases hq
      obtain ⟨s', gs, h1, _⟩ := gradient_ok hv.1.1 hv.1.2 (samples := samples) hn1 hh (ht rfl) hs
      exact drop_ne_ub (by rw [h1]; exact (nomatch ·))
    | drawSamples ord rnd ctx k =>
      cases hq
      obtain ⟨s', l, h1, _⟩ := makeSamples_ok hv.1 rnd ctx hn1 hh.inv (by rw [hh.pool]; rfl)
      exact drop_ne_ub (by rw [h1]; exact (nomatch ·))
    | _ => cases hq

end State
end EFG
