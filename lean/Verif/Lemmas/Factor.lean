import Verif.Model.Factor
import Verif.Lemmas.Function
import Verif.Lemmas.Assign
/- What the constructors of factors compute. -/

set_option linter.unusedSectionVars false

namespace EFG
namespace Fn
variable {F : Type u} [Arith F]

theorem WF.sizes_pos {f : Fn F} (h : f.WF) : ∀ v ∈ f.vars.group, 0 < v.size := by
  intro v hv
  apply h.pos
  rw [h.sizes_eq, Group.sizes]
  exact List.mem_map.2 ⟨v, hv, rfl⟩

theorem WF.sizes' {f : Fn F} (h : f.WF) : f.sizes = f.vars.group.map Var.size := h.sizes_eq

theorem WF.nodup {f : Fn F} (h : f.WF) : f.vars.group.Nodup := h.group.distinct.nodup

theorem WF.valid_map {f : Fn F} (h : f.WF) {a : Assign} :
    Valid f.sizes (f.vars.group.map a) ↔ InDom f.vars.group a := by
  rw [h.sizes']; exact valid_map_iff

/-! copy -/

theorem WF.copy {f : Fn F} (h : f.WF) : f.copy.WF where
  group := h.group
  sizes_eq := rfl
  tot_eq := sizesProd_eq _
  pos := by
    show ∀ s ∈ f.vars.sizes, 0 < s
    rw [← h.sizes_eq]; exact h.pos
  store := by
    show StoreOk f.vars.sizes f.data
    rw [← h.sizes_eq]; exact h.store

theorem WF.copy_img {f : Fn F} (h : f.WF) (q : List Nat) : f.copy.img q = f.img q := by
  show (match f.data with
  | .sparse c => (sparseFind c q).getD Arith.zero
  | .dense v => v.getD (rank f.vars.sizes q) Arith.zero) = _
  rw [← h.sizes_eq]; rfl

theorem WF.copy_sizes {f : Fn F} (h : f.WF) : f.copy.sizes = f.sizes := h.sizes_eq.symm

/-! transformed clone -/

theorem WF.setAll {f : Fn F} (h : f.WF) (es : List (List Nat × F))
    (hv : ∀ e ∈ es, Valid f.sizes e.1) (hn : (es.map Prod.fst).Nodup) :
    ∃ f', f.setAll es = .ok f' ∧ f'.WF ∧ f'.vars = f.vars ∧ f'.sizes = f.sizes ∧
      f'.weight = f.weight ∧ (∀ e ∈ es, f'.img e.1 = e.2) ∧
      ∀ q, Valid f.sizes q → q ∉ es.map Prod.fst → f'.img q = f.img q := by
  obtain ⟨f', h1, h2, h3, h4, h5, h6, h7⟩ := h.setFold es Prod.fst (fun e => some e.2) hv hn
  exact ⟨f', h1, h2, h3, h4, h5, fun e he => by simpa using h6 e he, h7⟩

theorem WF.ofGroup {f : Fn F} (h : f.WF) : (ofGroup f.vars : Fn F).WF :=
  ofGroup_wf h.group h.sizes_pos

theorem WF.cloneTransformed {f : Fn F} (h : f.WF) :
    ∃ f', f.cloneTransformed = .ok f' ∧ f'.WF ∧ f'.vars = f.vars ∧ f'.sizes = f.sizes ∧
      f'.weight = none ∧ ∀ q, Valid f.sizes q → f'.img q = f.timg q := by
  unfold Fn.cloneTransformed
  rw [h.entries]
  have hs : (Fn.ofGroup f.vars : Fn F).sizes = f.sizes := h.sizes_eq.symm
  obtain ⟨f', h1, h2, h3, h4, h5, h6, _⟩ := h.ofGroup.setAll
    ((lex f.sizes).map (fun c => (c, f.timg c)))
    (by
      intro e he
      simp only [List.mem_map] at he
      obtain ⟨c, hc, rfl⟩ := he
      rw [hs]; exact mem_lex.1 hc)
    (by simpa [Function.comp_def] using lex_nodup f.sizes)
  refine ⟨f', h1, h2, h3, h4.trans hs, h5, ?_⟩
  intro q hq
  exact h6 (q, f.timg q) (List.mem_map.2 ⟨q, mem_lex.2 hq, rfl⟩)

theorem timg_plain {f : Fn F} (h : f.weight = none) (q : List Nat) : f.timg q = f.img q := by
  simp [timg, transform, h]

theorem timg_exp {f : Fn F} {w : F} (h : f.weight = some w) (q : List Nat) :
    f.timg q = Arith.exp (Arith.mul w (f.img q)) := by
  simp [timg, transform, h]

/-! exponential -/

theorem WF.exponential {f : Fn F} (h : f.WF) (w : F) :
    ∃ f', f.exponential w = .ok f' ∧ f'.WF ∧ f'.vars = f.vars ∧ f'.sizes = f.sizes ∧
      f'.weight = some w ∧ ∀ q, Valid f.sizes q → f'.img q = f.img q := by
  unfold Fn.exponential
  rw [h.rawEntries]
  refine ⟨_, rfl, ⟨h.group, rfl, sizesProd_eq _, ?_, ?_⟩, rfl, h.sizes_eq.symm, rfl, ?_⟩
  · show ∀ s ∈ f.vars.sizes, 0 < s
    rw [← h.sizes_eq]; exact h.pos
  · show List.length _ = f.vars.sizes.prod
    rw [← h.sizes_eq]; simp [lex_length]
  · intro q hq
    simp only [img, List.map_map, Function.comp_def]
    rw [show (Fn.ofGroup f.vars : Fn F).sizes = f.sizes from h.sizes_eq.symm]
    simp [List.getD, lex_rank hq]

theorem WF.setWeight {f : Fn F} (h : f.WF) (w : F) : (f.setWeight w).WF :=
  ⟨h.group, h.sizes_eq, h.tot_eq, h.pos, h.store⟩

/-! correlation -/

theorem sparseEmplace_fold (n : Nat) (hn : 0 < n) (one : F) (m : Nat) :
    (List.range m).foldl (fun c k => sparseEmplace c (sameValues n k) one) [] =
      (List.range m).map (fun k => (sameValues n k, one)) := by
  induction m with
  | zero => rfl
  | succ m ih =>
    rw [List.range_succ, List.foldl_append, ih, List.map_append]
    simp only [List.foldl_cons, List.foldl_nil, List.map_cons, List.map_nil]
    unfold sparseEmplace
    rw [if_neg]
    simp only [List.any_map, List.any_eq_true, List.mem_range, Function.comp, beq_iff_eq,
      not_exists, not_and]
    intro k hk he
    have : k = m := by
      have h1 : (sameValues n k).head? = (sameValues n m).head? := by rw [he]
      have hn' : n ≠ 0 := by omega
      simpa [sameValues, List.head?_replicate, hn'] using h1
    omega

theorem sameValues_inj {n : Nat} (hn : 0 < n) {j k : Nat} (h : sameValues n j = sameValues n k) :
    j = k := by
  have h1 : (sameValues n j).head? = (sameValues n k).head? := by rw [h]
  have hn' : n ≠ 0 := by omega
  simpa [sameValues, List.head?_replicate, hn'] using h1

theorem valid_sameValues {vars : List Var} {s k : Nat} (hs : ∀ v ∈ vars, v.size = s) (hk : k < s) :
    Valid (vars.map Var.size) (sameValues vars.length k) := by
  induction vars with
  | nil => exact .nil
  | cons v vs ih =>
    refine .cons ?_ (ih (fun w hw => hs w (by simp [hw])))
    rw [hs v (by simp)]; exact hk

theorem valid_allEq {vars : List Var} {s : Nat} (hs : ∀ v ∈ vars, v.size = s)
    (hne : vars ≠ []) {c : List Nat} (hv : Valid (vars.map Var.size) c) :
    (∀ i ∈ c, ∀ j ∈ c, i = j) ↔ ∃ k < s, c = sameValues vars.length k := by
  have hl : c.length = vars.length := by simpa using hv.length
  constructor
  · intro h
    obtain ⟨v, vs, rfl⟩ : ∃ v vs, vars = v :: vs := by
      cases vars with
      | nil => exact absurd rfl hne
      | cons v vs => exact ⟨v, vs, rfl⟩
    cases c with
    | nil => simp at hl
    | cons x xs =>
      refine ⟨x, ?_, ?_⟩
      · cases hv with
        | cons h1 _ => rw [← hs v (by simp)]; exact h1
      · rw [sameValues, ← hl, List.eq_replicate_iff]
        exact ⟨rfl, fun i hi => h i hi x (by simp)⟩
  · rintro ⟨k, _, rfl⟩ i hi j hj
    simp only [sameValues, List.mem_replicate] at hi hj
    rw [hi.2, hj.2]

theorem checkAllSameSize_eq {vars : List Var} (hne : vars ≠ []) :
    checkAllSameSize vars =
      if (∀ v ∈ vars, ∀ w ∈ vars, v.size = w.size) then .ok () else .throw := by
  cases vars with
  | nil => exact absurd rfl hne
  | cons v vs =>
    simp only [checkAllSameSize]
    congr 1
    simp only [List.all_eq_true, decide_eq_true_eq, eq_iff_iff]
    constructor
    · intro h a ha b hb; rw [h a ha, h b hb]
    · intro h a ha; exact h a ha v (by simp)

theorem correlated_ok {g : Group} (hg : g.WF) (hpos : ∀ v ∈ g.group, 0 < v.size)
    (hs : ∀ v ∈ g.group, ∀ w ∈ g.group, v.size = w.size) (hlen : g.group.length ≠ 1) :
    ∃ f : Fn F, correlated g = .ok f ∧ f.WF ∧ f.vars = g ∧ f.weight = none ∧
      ∀ q, Valid f.sizes q → f.img q = if (∀ i ∈ q, ∀ j ∈ q, i = j) then Arith.one else Arith.zero := by
  unfold correlated
  rw [checkAllSameSize_eq hg.ne, if_pos hs]
  simp only [hlen, if_false]
  cases hgr : g.group with
  | nil => exact absurd hgr hg.ne
  | cons v vs =>
    have hsz : ∀ w ∈ g.group, w.size = v.size := fun w hw => hs w hw v (by rw [hgr]; simp)
    have hn : 0 < g.group.length := by rw [hgr]; simp
    simp only
    rw [← hgr, sparseEmplace_fold _ hn]
    refine ⟨_, rfl, ⟨hg, rfl, sizesProd_eq _, (ofGroup_wf (F := F) hg hpos).pos, ?_, ?_⟩, rfl, rfl, ?_⟩
    · rw [List.map_map]
      exact List.nodup_range.map (fun a b hab => sameValues_inj hn (by simpa using hab))
    · intro e he
      simp only [List.mem_map, List.mem_range] at he
      obtain ⟨k, hk, rfl⟩ := he
      exact valid_sameValues hsz hk
    · intro q hq
      have hq' : Valid (g.group.map Var.size) q := hq
      have hiff := valid_allEq hsz hg.ne hq'
      have hnd : (((List.range v.size).map (fun k => (sameValues g.group.length k,
          (Arith.one : F)))).map Prod.fst).Nodup := by
        rw [List.map_map]
        exact List.nodup_range.map (fun a b hab => sameValues_inj hn (by simpa using hab))
      simp only [img]
      split
      · rename_i h
        obtain ⟨k, hk, rfl⟩ := hiff.1 h
        rw [(sparseFind_eq_some hnd).2 (List.mem_map.2 ⟨k, List.mem_range.2 hk, rfl⟩)]
        rfl
      · rename_i h
        rw [sparseFind_eq_none.2]
        · rfl
        · intro x hx
          simp only [List.mem_map, List.mem_range] at hx
          obtain ⟨k, hk, hx⟩ := hx
          exact h (hiff.2 ⟨k, hk, (Prod.mk.inj hx).1.symm⟩)

theorem antiCorrelated_ok {g : Group} (hg : g.WF) (hpos : ∀ v ∈ g.group, 0 < v.size)
    (hs : ∀ v ∈ g.group, ∀ w ∈ g.group, v.size = w.size) (hlen : g.group.length ≠ 1) :
    ∃ f : Fn F, antiCorrelated g = .ok f ∧ f.WF ∧ f.vars = g ∧ f.weight = none ∧
      ∀ q, Valid f.sizes q → f.img q = if (∀ i ∈ q, ∀ j ∈ q, i = j) then Arith.zero else Arith.one := by
  unfold antiCorrelated
  rw [checkAllSameSize_eq hg.ne, if_pos hs]
  simp only [hlen, if_false]
  cases hgr : g.group with
  | nil => exact absurd hgr hg.ne
  | cons v vs =>
    have hsz : ∀ w ∈ g.group, w.size = v.size := fun w hw => hs w hw v (by rw [hgr]; simp)
    have hn : 0 < g.group.length := by rw [hgr]; simp
    simp only
    rw [← hgr]
    have h0 := ofGroup_wf (F := F) hg hpos
    have gen : ∀ m ≤ v.size, ∃ imgs : List F, Res.foldList (antiStep (ofGroup g)
        g.group.length) (List.replicate (ofGroup g : Fn F).tot Arith.one) (List.range m) =
          .ok imgs ∧ imgs.length = (ofGroup g : Fn F).sizes.prod ∧
        ∀ q, Valid g.sizes q → imgs.getD (rank g.sizes q) Arith.zero =
          if (∃ k < m, q = sameValues g.group.length k) then Arith.zero else Arith.one := by
      intro m
      induction m with
      | zero =>
        intro _
        refine ⟨_, rfl, by simp [h0.tot_eq], ?_⟩
        intro q hq
        have hlt := rank_lt hq
        have : rank g.sizes q < (ofGroup g : Fn F).tot := by rw [h0.tot_eq]; exact hlt
        simp [this]
      | succ m ih =>
        intro hm
        obtain ⟨imgs, h1, h2, h3⟩ := ih (by omega)
        have hvm : Valid g.sizes (sameValues g.group.length m) := valid_sameValues hsz (by omega)
        have hh := h0.hash hvm
        have hlt : rank g.sizes (sameValues g.group.length m) < imgs.length := by
          rw [h2]; exact rank_lt hvm
        refine ⟨imgs.set (rank g.sizes (sameValues g.group.length m)) Arith.zero, ?_, ?_, ?_⟩
        · rw [List.range_succ, Res.foldList_append, h1]
          simp only [Res.foldList, antiStep, hh, vecSet]
          rw [if_pos]
          · rfl
          · exact hlt
        · simpa using h2
        · intro q hq
          by_cases he : q = sameValues g.group.length m
          · rw [if_pos ⟨m, by omega, he⟩, he]
            simp [hlt]
          · have hne : rank g.sizes (sameValues g.group.length m) ≠ rank g.sizes q :=
              fun hr => he (rank_inj hvm hq hr).symm
            rw [List.getD, List.getElem?_set_ne hne, ← List.getD, h3 q hq]
            congr 1
            apply propext
            constructor
            · rintro ⟨k, hk, hq⟩; exact ⟨k, by omega, hq⟩
            · rintro ⟨k, hk, hq⟩
              refine ⟨k, ?_, hq⟩
              by_contra hkm
              have : k = m := by omega
              subst this
              exact he hq
    obtain ⟨imgs, h1, h2, h3⟩ := gen v.size le_rfl
    rw [h1]
    refine ⟨_, rfl, ⟨hg, rfl, h0.tot_eq, h0.pos, h2⟩, rfl, rfl, ?_⟩
    intro q hq
    have hq' : Valid (g.group.map Var.size) q := hq
    have hiff := valid_allEq hsz hg.ne hq'
    show imgs.getD (rank g.sizes q) Arith.zero = _
    rw [h3 q hq]
    congr 1
    exact propext hiff.symm

/-! permuted clone -/

theorem permuted_eq {old new : List Var} (hn : new.Nodup) (hperm : new.Perm old) (a : Assign) :
    permuted (old.map a) (newPositions old new) = .ok (new.map a) := by
  have hno : old.Nodup := hperm.nodup_iff.1 hn
  have gen : ∀ (l : List Var) (r : List Nat), l.Nodup → l ⊆ new → r.length = new.length →
      ∃ r', Res.foldList (fun r (e : Nat × Nat) =>
        if e.1 < r.length then Res.ok (r.set e.1 e.2) else .ub) r
          ((newPositions l new).zip (l.map a)) = .ok r' ∧ r'.length = new.length ∧
        ∀ i (hi : i < new.length), r'[i]? = if new[i] ∈ l then some (a new[i]) else r[i]? := by
    intro l
    induction l with
    | nil => intro r _ _ hr; exact ⟨r, rfl, hr, by simp⟩
    | cons v l ih =>
      intro r hnd hsub hr
      have hv : v ∈ new := hsub (by simp)
      obtain ⟨j, hj, rfl⟩ := List.getElem_of_mem hv
      have hidx : new.findIdx (fun w => decide (w = new[j])) = j := by
        have h1 : new.findIdx (fun w => decide (w = new[j])) = new.idxOf new[j] := by
          unfold List.idxOf
          congr 1
        rw [h1, hn.idxOf_getElem j hj]
      simp only [List.nodup_cons] at hnd
      obtain ⟨r', h1, h2, h3⟩ := ih (r.set j (a new[j])) hnd.2
        (fun w hw => hsub (by simp [hw])) (by simpa using hr)
      refine ⟨r', ?_, h2, ?_⟩
      · simp only [newPositions, List.map_cons, List.zip_cons_cons]
        rw [Res.foldList_cons_ok (b' := r.set j (a new[j]))]
        · exact h1
        · simp only [hidx]
          rw [if_pos (by rw [hr]; exact hj)]
      · intro i hi
        rw [h3 i hi]
        by_cases hij : i = j
        · subst hij
          rw [if_neg hnd.1, if_pos (by simp)]
          simp [hr, hi]
        · have hne : new[i] ≠ new[j] := fun he => hij ((List.Nodup.getElem_inj_iff hn).1 he)
          simp only [List.mem_cons, hne, false_or]
          split
          · rfl
          · rw [List.getElem?_set_ne (by omega)]
  obtain ⟨r', h1, h2, h3⟩ := gen old (List.replicate (old.map a).length 0) hno
    (fun v hv => hperm.mem_iff.2 hv) (by simp [hperm.length_eq])
  unfold permuted
  rw [h1]
  congr 1
  apply List.ext_getElem?
  intro i
  by_cases hi : i < new.length
  · rw [h3 i hi, if_pos (hperm.mem_iff.1 (List.getElem_mem hi))]
    simp [hi]
  · rw [List.getElem?_eq_none (by omega), List.getElem?_eq_none (by simp; omega)]

theorem WF.cloneWithPermutedGroup {f : Fn F} (h : f.WF) {g : Group} (hg : g.WF)
    (hperm : g.group.Perm f.vars.group) :
    ∃ f', f.cloneWithPermutedGroup g = .ok f' ∧ f'.WF ∧ f'.vars = g ∧ f'.weight = none ∧
      ∀ a : Assign, InDom f.vars.group a → f'.img (g.group.map a) = f.img (f.vars.group.map a) := by
  have hgpos : ∀ v ∈ g.group, 0 < v.size := fun v hv => h.sizes_pos v (hperm.mem_iff.1 hv)
  have h0 := ofGroup_wf (F := F) hg hgpos
  have hgn := hg.distinct.nodup
  have hsame : VarSet.same g.sorted f.vars.sorted = true := by
    rw [VarSet.same_iff (hg.perm.nodup_iff.2 hgn)]
    exact hg.perm.trans (hperm.trans h.group.perm.symm)
  unfold Fn.cloneWithPermutedGroup
  simp only [hsame, Bool.not_true, Bool.false_eq_true, if_false]
  rw [h.rawEntries]
  -- the combination written for a combination of the original
  let toNew : List Nat × F → List Nat := fun e => g.group.map (assignOf f.vars.group e.1)
  have hstep : ∀ (r : Fn F), ∀ e ∈ (lex f.sizes).map (fun c => (c, f.img c)),
      permuteStep (newPositions f.vars.group g.group) r e = setOpt (toNew e) r (some e.2) := by
    intro r e he
    simp only [List.mem_map] at he
    obtain ⟨c, hc, rfl⟩ := he
    have hv := mem_lex.1 hc
    have hl : c.length = f.vars.group.length := by
      have := hv.length; rw [h.sizes'] at this; simpa using this
    have := permuted_eq hgn hperm (assignOf f.vars.group c)
    rw [map_assignOf h.nodup hl] at this
    simp only [permuteStep, this, toNew, setOpt]
  have hvalid : ∀ a : Assign, InDom f.vars.group a → Valid g.sizes (g.group.map a) := by
    intro a ha
    exact valid_map_iff.2 (fun v hv => ha v (hperm.mem_iff.1 hv))
  have hinj : ∀ a b : Assign, g.group.map a = g.group.map b →
      f.vars.group.map a = f.vars.group.map b := by
    intro a b hab
    rw [List.map_inj_left] at hab ⊢
    exact fun v hv => hab v (hperm.mem_iff.2 hv)
  obtain ⟨f', h1, h2, h3, h4, h5, h6, _⟩ := h0.setFold
    ((lex f.sizes).map (fun c => (c, f.img c))) toNew (fun e => some e.2)
    (by
      intro e he
      simp only [List.mem_map] at he
      obtain ⟨c, hc, rfl⟩ := he
      exact hvalid _ (inDom_assignOf h.nodup (by rw [← h.sizes']; exact mem_lex.1 hc)))
    (by
      rw [List.map_map]
      refine List.Nodup.map_on ?_ (lex_nodup f.sizes)
      intro c hc d hd hcd
      have hlc := (mem_lex.1 hc).length
      have hld := (mem_lex.1 hd).length
      rw [h.sizes'] at hlc hld
      have := hinj _ _ hcd
      rwa [map_assignOf h.nodup (by simpa using hlc), map_assignOf h.nodup (by simpa using hld)]
        at this)
  refine ⟨f', ?_, h2, h3, h5, ?_⟩
  · rw [← h1]
    exact Res.foldList_congr hstep _
  · intro a ha
    have hv : Valid f.sizes (f.vars.group.map a) := h.valid_map.2 ha
    have := h6 (f.vars.group.map a, f.img (f.vars.group.map a))
      (List.mem_map.2 ⟨_, mem_lex.2 hv, rfl⟩)
    simp only [toNew, Option.getD_some] at this
    rw [← this]
    congr 1
    rw [List.map_inj_left]
    intro v hv'
    have hvf := hperm.mem_iff.1 hv'
    have := map_assignOf (comb := f.vars.group.map a) h.nodup (by simp)
    rw [List.map_inj_left] at this
    exact (this v hvf).symm

theorem cloneWithPermutedGroup_throw {f : Fn F} (h : f.WF) {g : Group} (hg : g.WF)
    (hperm : ¬ g.group.Perm f.vars.group) : f.cloneWithPermutedGroup g = .throw := by
  have hsame : VarSet.same g.sorted f.vars.sorted = false := by
    cases hb : VarSet.same g.sorted f.vars.sorted with
    | false => rfl
    | true =>
      rw [VarSet.same_iff (hg.perm.nodup_iff.2 hg.distinct.nodup)] at hb
      exact absurd (hg.perm.symm.trans (hb.trans h.group.perm)) hperm
  unfold Fn.cloneWithPermutedGroup
  simp [hsame]

/-! merging -/

theorem gatherSet_ok {s : VarSet} {vs : List Var} (hs : Distinct s)
    (hc : ∀ v ∈ s ++ vs, ∀ w ∈ s ++ vs, v.eqv w = true → v = w) :
    ∃ t, gatherSet s vs = .ok t ∧ Distinct t ∧ ∀ v, v ∈ t ↔ v ∈ s ∨ v ∈ vs := by
  induction vs generalizing s with
  | nil => exact ⟨s, rfl, hs, by simp⟩
  | cons v vs ih =>
    simp only [gatherSet]
    cases hf : List.find? (fun w => w.eqv v) s with
    | none =>
      have hnone : ∀ w ∈ s, w.eqv v = false := by
        intro w hw
        have := List.find?_eq_none.1 hf w hw
        simpa using this
      obtain ⟨t, h1, h2, h3⟩ := ih (s := s ++ [v]) (by
        rw [distinct_iff, List.pairwise_append]
        exact ⟨distinct_iff.1 hs, by simp, by simpa using hnone⟩) (by
        intro a ha b hb; exact hc a (by simpa using ha) b (by simpa using hb))
      refine ⟨t, h1, h2, ?_⟩
      intro x
      rw [h3]
      simp [or_assoc]
    | some w =>
      have hw := List.mem_of_find?_eq_some hf
      have he : w.eqv v = true := by simpa using List.find?_some hf
      have hwv : w = v := hc w (by simp [hw]) v (by simp) he
      subst hwv
      simp only [ne_eq, not_true_eq_false, if_false]
      obtain ⟨t, h1, h2, h3⟩ := ih hs (by
        intro a ha b hb
        refine hc a ?_ b ?_ <;> (simp only [List.mem_append, List.mem_cons] at *; tauto))
      refine ⟨t, h1, h2, ?_⟩
      intro x
      rw [h3]
      simp only [List.mem_cons]
      constructor
      · tauto
      · rintro (h | rfl | h)
        · exact Or.inl h
        · exact Or.inl hw
        · exact Or.inr h

theorem gatherSet_throw {s : VarSet} {vs : List Var} (hs : Distinct s)
    (hc : ¬ ∀ v ∈ s ++ vs, ∀ w ∈ s ++ vs, v.eqv w = true → v = w) :
    gatherSet s vs = .throw := by
  induction vs generalizing s with
  | nil =>
    exfalso
    apply hc
    intro v hv w hw he
    exact hs.eq_of_eqv (by simpa using hv) (by simpa using hw) he
  | cons v vs ih =>
    simp only [gatherSet]
    cases hf : List.find? (fun w => w.eqv v) s with
    | none =>
      have hnone : ∀ w ∈ s, w.eqv v = false := by
        intro w hw
        have := List.find?_eq_none.1 hf w hw
        simpa using this
      simp only
      exact ih (s := s ++ [v]) (by
        rw [distinct_iff, List.pairwise_append]
        exact ⟨distinct_iff.1 hs, by simp, by simpa using hnone⟩) (by
        intro h; apply hc
        intro a ha b hb; exact h a (by simpa using ha) b (by simpa using hb))
    | some w =>
      have hw := List.mem_of_find?_eq_some hf
      simp only
      by_cases hwv : w = v
      · subst hwv
        simp only [ne_eq, not_true_eq_false, if_false]
        refine ih hs (fun h => hc ?_)
        have sub : ∀ a ∈ s ++ w :: vs, a ∈ s ++ vs := by
          intro a ha
          simp only [List.mem_append, List.mem_cons] at ha ⊢
          rcases ha with ha | rfl | ha
          · exact Or.inl ha
          · exact Or.inl hw
          · exact Or.inr ha
        exact fun a ha b hb => h a (sub a ha) b (sub b hb)
      · simp [hwv]

theorem getIndices_ok {group bigger : List Var} (hn : group.Nodup) (hsub : group ⊆ bigger) :
    Finder.getIndices group bigger = .ok (group.map (fun v => bigger.idxOf v)) := by
  unfold Finder.getIndices
  rw [if_neg (by
    have := (List.subperm_of_subset hn hsub).length_le
    omega)]
  apply Res.mapList_ok
  intro v hv
  have h1 : Finder.findVar bigger v = some (bigger.idxOf v) := by
    unfold Finder.findVar
    have hm := hsub hv
    rw [List.findIdx?_eq_some_iff_findIdx_eq]
    refine ⟨List.idxOf_lt_length_of_mem hm, ?_⟩
    unfold List.idxOf
    congr 1
  rw [h1]

theorem finder_extract {f : Fn F} {bigger : List Var}
    (hsub : f.vars.group ⊆ bigger) (a : Assign) :
    (⟨f, f.vars.group.map (fun v => bigger.idxOf v)⟩ : Finder F).extract (bigger.map a) =
      .ok (f.vars.group.map a) := by
  unfold Finder.extract
  simp only
  rw [show f.vars.group.map a =
    (f.vars.group.map (fun v => bigger.idxOf v)).map (fun i => (bigger.map a).getD i 0) from ?_]
  · apply Res.mapList_ok
    intro i hi
    simp only [List.mem_map] at hi
    obtain ⟨v, hv, rfl⟩ := hi
    have := List.idxOf_lt_length_of_mem (hsub hv)
    simp [this]
  · rw [List.map_map, List.map_inj_left]
    intro v hv
    have := List.idxOf_lt_length_of_mem (hsub hv)
    simp [Function.comp, this]

end Fn
end EFG
