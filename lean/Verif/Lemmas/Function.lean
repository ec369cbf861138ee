import Verif.Model.Function
import Verif.Lemmas.Group
import Verif.Lemmas.Range
/- Invariant of functions and the images they hold. -/

set_option linter.unusedSectionVars false

namespace EFG
namespace Fn
variable {F : Type u}

theorem hashLoop_eq {sizes comb : List Nat} (hv : Valid sizes comb) (hpos : ∀ s ∈ sizes, 0 < s)
    (res : Nat) : hashLoop sizes comb sizes.prod res = .ok (res + rank sizes comb) := by
  induction hv generalizing res with
  | nil => simp [hashLoop, rank]
  | cons hc _ ih =>
    rename_i s c ss cs _
    have hs : 0 < s := hpos s (by simp)
    simp only [hashLoop, List.prod_cons, rank]
    rw [if_neg (by omega), Nat.mul_div_cancel_left _ hs, ih (fun t ht => hpos t (by simp [ht]))]
    rw [Nat.add_assoc]

theorem sizesProd_eq (sizes : List Nat) : sizesProd sizes = sizes.prod := by
  rw [sizesProd, List.prod_eq_foldl]

/-- Invariant of the store for the given sizes. -/
def StoreOk (sizes : List Nat) : Store F → Prop
  | .sparse c => (c.map Prod.fst).Nodup ∧ ∀ e ∈ c, Valid sizes e.1
  | .dense v => v.length = sizes.prod

/-- Invariant of functions. -/
structure WF (f : Fn F) : Prop where
  group : f.vars.WF
  sizes_eq : f.sizes = f.vars.sizes
  tot_eq : f.tot = f.sizes.prod
  pos : ∀ s ∈ f.sizes, 0 < s
  store : StoreOk f.sizes f.data

theorem WF.ne {f : Fn F} (h : f.WF) : f.sizes ≠ [] := by
  rw [h.sizes_eq, Group.sizes]
  simpa using h.group.ne

theorem WF.hash {f : Fn F} (h : f.WF) {comb : List Nat} (hv : Valid f.sizes comb) :
    f.hash comb = .ok (rank f.sizes comb) := by
  rw [Fn.hash, h.tot_eq, hashLoop_eq hv h.pos, Nat.zero_add]

theorem WF.visit {f : Fn F} (h : f.WF) : GroupRange.visit f.sizes = .ok (lex f.sizes) :=
  visit_eq _ h.ne h.pos

theorem ofGroup_wf {g : Group} (hg : g.WF) (hpos : ∀ v ∈ g.group, 0 < v.size) :
    (ofGroup g : Fn F).WF where
  group := hg
  sizes_eq := rfl
  tot_eq := sizesProd_eq _
  pos := by
    intro s hs
    simp only [ofGroup, Group.sizes, List.mem_map] at hs
    obtain ⟨v, hv, rfl⟩ := hs
    exact hpos v hv
  store := by simp [ofGroup, StoreOk]

theorem sparseFind_eq_some {c : List (List Nat × F)} (hn : (c.map Prod.fst).Nodup)
    {comb : List Nat} {x : F} : sparseFind c comb = some x ↔ (comb, x) ∈ c := by
  induction c with
  | nil => simp [sparseFind]
  | cons e c ih =>
    simp only [List.map_cons, List.nodup_cons] at hn
    have ih := ih hn.2
    unfold sparseFind at ih ⊢
    by_cases h : e.1 = comb
    · have h1 : (e.1 == comb) = true := by simpa using h
      rw [List.find?_cons_of_pos (p := fun (e : List Nat × F) => e.1 == comb) h1]
      simp only [Option.some.injEq, List.mem_cons]
      constructor
      · rintro rfl; left; rw [← h]
      · rintro (h2 | h2)
        · rw [← h2]
        · exfalso
          exact hn.1 (List.mem_map.2 ⟨_, h2, h.symm⟩)
    · have h1 : ¬ (e.1 == comb) = true := by simpa using h
      rw [List.find?_cons_of_neg (p := fun (e : List Nat × F) => e.1 == comb) h1, ih, List.mem_cons]
      constructor
      · exact Or.inr
      · rintro (h2 | h2)
        · exact absurd (by rw [← h2]) h
        · exact h2

theorem sparseFind_eq_none {c : List (List Nat × F)} {comb : List Nat} :
    sparseFind c comb = none ↔ ∀ x, (comb, x) ∉ c := by
  unfold sparseFind
  cases h : c.find? (fun e => e.1 == comb) with
  | none =>
    simp only [true_iff]
    intro x hx
    have := List.find?_eq_none.1 h _ hx
    simp at this
  | some e =>
    simp only [reduceCtorEq, false_iff, not_forall, not_not]
    have h1 := List.mem_of_find?_eq_some h
    have h2 := List.find?_some h
    simp only [beq_iff_eq] at h2
    exact ⟨e.2, by rw [← h2]; exact h1⟩

theorem sparseSet_keys {c : List (List Nat × F)} {comb : List Nat} {x : F} :
    (sparseSet c comb x).map Prod.fst =
      if comb ∈ c.map Prod.fst then c.map Prod.fst else c.map Prod.fst ++ [comb] := by
  unfold sparseSet
  have hiff : (c.any (fun e => e.1 == comb)) = true ↔ comb ∈ c.map Prod.fst := by
    simp
  by_cases h : comb ∈ c.map Prod.fst
  · rw [if_pos (hiff.2 h), if_pos h, List.map_map]
    apply List.map_congr_left
    intro e _
    simp only [Function.comp]
    split
    · rename_i h; simp only [beq_iff_eq] at h; exact h.symm
    · rfl
  · rw [if_neg (fun h' => h (hiff.1 h')), if_neg h]
    simp

theorem sparseSet_nodup {c : List (List Nat × F)} (hn : (c.map Prod.fst).Nodup) (comb : List Nat)
    (x : F) : ((sparseSet c comb x).map Prod.fst).Nodup := by
  rw [sparseSet_keys]
  split
  · exact hn
  · rename_i h
    exact List.nodup_append.2 ⟨hn, by simp, by simp; rintro a b hab rfl; exact h (by simp; exact ⟨b, hab⟩)⟩

theorem mem_sparseSet {c : List (List Nat × F)} {comb : List Nat} {x : F} {e : List Nat × F} :
    e ∈ sparseSet c comb x ↔ e = (comb, x) ∨ (e ∈ c ∧ e.1 ≠ comb) := by
  unfold sparseSet
  split
  · rename_i h
    simp only [List.any_eq_true, beq_iff_eq] at h
    simp only [List.mem_map, beq_iff_eq]
    constructor
    · rintro ⟨e', he', rfl⟩
      split
      · exact Or.inl rfl
      · rename_i h'; exact Or.inr ⟨he', h'⟩
    · rintro (rfl | ⟨h1, h2⟩)
      · obtain ⟨e', he', h'⟩ := h
        exact ⟨e', he', by simp [h']⟩
      · exact ⟨e, h1, by simp [h2]⟩
  · rename_i h
    simp only [List.any_eq_true, beq_iff_eq, not_exists, not_and] at h
    simp only [List.mem_append, List.mem_singleton]
    constructor
    · rintro (h1 | rfl)
      · exact Or.inr ⟨h1, h e h1⟩
      · exact Or.inl rfl
    · rintro (rfl | ⟨h1, _⟩)
      · exact Or.inr rfl
      · exact Or.inl h1

theorem sparseFind_set {c : List (List Nat × F)} (hn : (c.map Prod.fst).Nodup) (comb : List Nat)
    (x : F) (q : List Nat) :
    sparseFind (sparseSet c comb x) q = if q = comb then some x else sparseFind c q := by
  split
  · rename_i h
    rw [sparseFind_eq_some (sparseSet_nodup hn comb x), mem_sparseSet]
    exact Or.inl (by rw [h])
  · rename_i h
    cases hf : sparseFind c q with
    | none =>
      rw [sparseFind_eq_none] at hf ⊢
      intro y hy
      rcases mem_sparseSet.1 hy with h1 | ⟨h1, _⟩
      · exact h (by simpa using (Prod.mk.inj h1).1)
      · exact hf y h1
    | some y =>
      rw [sparseFind_eq_some hn] at hf
      rw [sparseFind_eq_some (sparseSet_nodup hn comb x), mem_sparseSet]
      exact Or.inr ⟨hf, h⟩

variable [Arith F]

/-- The raw image of a combination (meaningful for valid combinations). -/
def img (f : Fn F) (comb : List Nat) : F :=
  match f.data with
  | .sparse c => (sparseFind c comb).getD Arith.zero
  | .dense v => v.getD (rank f.sizes comb) Arith.zero

/-- The transformed image of a combination. -/
def timg (f : Fn F) (comb : List Nat) : F := f.transform (f.img comb)

theorem WF.findImage {f : Fn F} (h : f.WF) {comb : List Nat} (hv : Valid f.sizes comb) :
    f.findImage comb = .ok (f.img comb) := by
  unfold Fn.findImage img
  rw [h.hash hv]
  have hs := h.store
  cases hd : f.data with
  | sparse c =>
    simp only
    cases sparseFind c comb <;> simp
  | dense v =>
    rw [hd] at hs
    simp only [StoreOk] at hs
    have hlt : rank f.sizes comb < v.length := by rw [hs]; exact rank_lt hv
    simp [vecGet, hlt]

theorem WF.findTransformed {f : Fn F} (h : f.WF) {comb : List Nat} (hv : Valid f.sizes comb) :
    f.findTransformed comb = .ok (f.timg comb) := by
  rw [Fn.findTransformed, h.findImage hv]; rfl

/-- The sparse to dense conversion keeps the images. -/
theorem densify_eq {f : Fn F} (hpos : ∀ s ∈ f.sizes, 0 < s) (htot : f.tot = f.sizes.prod)
    (c : List (List Nat × F)) (hn : (c.map Prod.fst).Nodup) (hval : ∀ e ∈ c, Valid f.sizes e.1) :
    ∃ v, f.densify c = .ok v ∧ v.length = f.sizes.prod ∧
      ∀ q, Valid f.sizes q → v.getD (rank f.sizes q) Arith.zero =
        (sparseFind c q).getD Arith.zero := by
  have gen : ∀ (c : List (List Nat × F)) (v0 : List F), (c.map Prod.fst).Nodup →
      (∀ e ∈ c, Valid f.sizes e.1) → v0.length = f.sizes.prod →
      ∃ v, Res.foldList f.densifyStep v0 c = .ok v ∧ v.length = f.sizes.prod ∧
      ∀ q, Valid f.sizes q → v.getD (rank f.sizes q) Arith.zero =
        match sparseFind c q with
        | some x => x
        | none => v0.getD (rank f.sizes q) Arith.zero := by
    intro c
    induction c with
    | nil =>
      intro v0 _ _ hl
      exact ⟨v0, rfl, hl, fun q _ => by simp [sparseFind]⟩
    | cons e c ih =>
      intro v0 hn hval hl
      simp only [List.map_cons, List.nodup_cons] at hn
      have hve := hval e (by simp)
      have hh : f.hash e.1 = .ok (rank f.sizes e.1) := by
        rw [Fn.hash, htot, hashLoop_eq hve hpos, Nat.zero_add]
      have hlt : rank f.sizes e.1 < v0.length := by rw [hl]; exact rank_lt hve
      obtain ⟨v, h1, h2, h3⟩ := ih (v0.set (rank f.sizes e.1) e.2) hn.2
        (fun e' he' => hval e' (by simp [he'])) (by simpa using hl)
      refine ⟨v, ?_, h2, ?_⟩
      · rw [Res.foldList_cons_ok (b' := v0.set (rank f.sizes e.1) e.2)]
        · exact h1
        · simp only [densifyStep, hh, vecSet, hlt, if_true]
      · intro q hq
        rw [h3 q hq]
        by_cases he : e.1 = q
        · have e1 : sparseFind c q = none := by
            rw [sparseFind_eq_none]
            intro x hx
            exact hn.1 (List.mem_map.2 ⟨_, hx, he.symm⟩)
          have e2 : sparseFind (e :: c) q = some e.2 := by
            simp [sparseFind, he]
          rw [e1, e2, ← he]
          simp [hlt]
        · have e2 : sparseFind (e :: c) q = sparseFind c q := by
            simp [sparseFind, he]
          rw [e2]
          cases sparseFind c q with
          | some x => rfl
          | none =>
            have hne : rank f.sizes e.1 ≠ rank f.sizes q := fun hr => he (rank_inj hve hq hr)
            simp [List.getD, List.getElem?_set_ne hne]
  obtain ⟨v, h1, h2, h3⟩ := gen c (List.replicate f.tot Arith.zero) hn hval (by simp [htot])
  refine ⟨v, h1, h2, ?_⟩
  intro q hq
  rw [h3 q hq]
  have hlt := rank_lt hq
  cases sparseFind c q with
  | some x => rfl
  | none =>
    rw [← htot] at hlt
    simp [hlt]

/-- What a raw write does. -/
theorem WF.set {f : Fn F} (h : f.WF) {comb : List Nat} (hv : Valid f.sizes comb) (x : F) :
    ∃ f', f.set comb x = .ok f' ∧ f'.WF ∧ f'.vars = f.vars ∧ f'.sizes = f.sizes ∧
      f'.weight = f.weight ∧
      ∀ q, Valid f.sizes q → f'.img q = if q = comb then x else f.img q := by
  unfold Fn.set
  rw [h.hash hv]
  have hs := h.store
  cases hd : f.data with
  | sparse c =>
    rw [hd] at hs
    obtain ⟨hn, hval⟩ := hs
    have hn' := sparseSet_nodup hn comb x
    have hval' : ∀ e ∈ sparseSet c comb x, Valid f.sizes e.1 := by
      intro e he
      rcases mem_sparseSet.1 he with rfl | ⟨h1, _⟩
      · exact hv
      · exact hval e h1
    simp only
    split
    · obtain ⟨v, h1, h2, h3⟩ := densify_eq h.pos h.tot_eq _ hn' hval'
      rw [h1]
      refine ⟨_, rfl, ⟨h.group, h.sizes_eq, h.tot_eq, h.pos, h2⟩, rfl, rfl, rfl, ?_⟩
      intro q hq
      simp only [img, hd]
      rw [h3 q hq, sparseFind_set hn]
      split <;> rfl
    · refine ⟨_, rfl, ⟨h.group, h.sizes_eq, h.tot_eq, h.pos, hn', hval'⟩, rfl, rfl, rfl, ?_⟩
      intro q hq
      simp only [img, hd]
      rw [sparseFind_set hn]
      split <;> rfl
  | dense v =>
    rw [hd] at hs
    simp only [StoreOk] at hs
    have hlt : rank f.sizes comb < v.length := by rw [hs]; exact rank_lt hv
    simp only [vecSet, hlt, if_true]
    refine ⟨_, rfl, ⟨h.group, h.sizes_eq, h.tot_eq, h.pos, by simp [StoreOk, hs]⟩, rfl, rfl, rfl, ?_⟩
    intro q hq
    simp only [img, hd]
    split
    · rename_i hq'
      subst hq'
      simp [hlt]
    · rename_i hq'
      have hne : rank f.sizes comb ≠ rank f.sizes q := fun hr => hq' (rank_inj hv hq hr).symm
      simp [List.getD, List.getElem?_set_ne hne]

theorem zipDense_eq (cs : List (List Nat)) (v : List F) (h : cs.length = v.length) :
    zipDense cs v = .ok (cs.zip v) := by
  induction cs generalizing v with
  | nil => simp [zipDense]
  | cons c cs ih =>
    cases v with
    | nil => simp at h
    | cons x v => simp [zipDense, ih v (by simpa using h)]

theorem zip_lex (sizes : List Nat) (v : List F) (h : v.length = sizes.prod) :
    (lex sizes).zip v =
      (lex sizes).map (fun c => (c, v.getD (rank sizes c) Arith.zero)) := by
  apply List.ext_getElem?
  intro i
  by_cases hi : i < sizes.prod
  · have hi' : i < (lex sizes).length := by rw [lex_length]; exact hi
    have hc : (lex sizes)[i]? = some (lex sizes)[i] := List.getElem?_eq_getElem hi'
    have hval : Valid sizes (lex sizes)[i] := mem_lex.1 (List.getElem_mem hi')
    have hr : rank sizes (lex sizes)[i] = i := by
      have h1 := lex_rank hval
      have hlt : rank sizes (lex sizes)[i] < (lex sizes).length := by
        rw [lex_length]; exact rank_lt hval
      rw [List.getElem?_eq_getElem hlt, Option.some.injEq] at h1
      exact (List.Nodup.getElem_inj_iff (lex_nodup sizes)).1 h1
    have hv : v[i]? = some v[i] := List.getElem?_eq_getElem (by omega)
    have hz : ((lex sizes).zip v)[i]? = some ((lex sizes)[i], v[i]) :=
      List.getElem?_zip_eq_some.2 ⟨hc, hv⟩
    rw [List.getElem?_map, hc, hz]
    simp [hr, hv]
  · rw [List.getElem?_eq_none, List.getElem?_eq_none]
    · simp [lex_length]; omega
    · simp [lex_length]; omega

theorem WF.rawEntries {f : Fn F} (h : f.WF) :
    f.rawEntries = .ok ((lex f.sizes).map (fun c => (c, f.img c))) := by
  unfold Fn.rawEntries
  rw [h.visit]
  have hs := h.store
  cases hd : f.data with
  | sparse c =>
    simp only
    apply Res.mapList_ok
    intro comb hc
    rw [h.hash (mem_lex.1 hc)]
    simp only [img, hd]
    cases sparseFind c comb <;> rfl
  | dense v =>
    rw [hd] at hs
    simp only [StoreOk] at hs
    simp only
    rw [zipDense_eq _ _ (by rw [lex_length, hs]), zip_lex _ _ hs]
    simp only [img, hd]

theorem WF.entries {f : Fn F} (h : f.WF) :
    f.entries = .ok ((lex f.sizes).map (fun c => (c, f.timg c))) := by
  unfold Fn.entries
  rw [h.rawEntries]
  simp [timg, Function.comp_def]

theorem WF.images {f : Fn F} (h : f.WF) :
    f.images = .ok ((lex f.sizes).map f.timg) := by
  unfold Fn.images
  rw [h.entries]
  simp [Function.comp_def]

/-- Writes an image when there is one. -/
def setOpt (comb : List Nat) (r : Fn F) : Option F → Res (Fn F)
  | some x => r.set comb x
  | none => .ok r

/-- Writing a list of entries with pairwise different valid combinations. -/
theorem WF.setFold {α : Type v} {f : Fn F} (h : f.WF) (l : List α) (comb : α → List Nat)
    (val : α → Option F) (hv : ∀ a ∈ l, Valid f.sizes (comb a)) (hn : (l.map comb).Nodup) :
    ∃ f', Res.foldList (fun r a => setOpt (comb a) r (val a)) f l = .ok f' ∧ f'.WF ∧ f'.vars = f.vars ∧ f'.sizes = f.sizes ∧
      f'.weight = f.weight ∧
      (∀ a ∈ l, f'.img (comb a) = (val a).getD (f.img (comb a))) ∧
      ∀ q, Valid f.sizes q → q ∉ l.map comb → f'.img q = f.img q := by
  induction l generalizing f with
  | nil => exact ⟨f, rfl, h, rfl, rfl, rfl, by simp, fun _ _ _ => rfl⟩
  | cons a l ih =>
    simp only [List.map_cons, List.nodup_cons] at hn
    cases hval : val a with
    | none =>
      obtain ⟨f', h1, h2, h3, h4, h5, h6, h7⟩ := ih h (fun b hb => hv b (by simp [hb])) hn.2
      refine ⟨f', ?_, h2, h3, h4, h5, ?_, ?_⟩
      · rw [Res.foldList_cons_ok (b' := f) (by simp [hval, setOpt])]; exact h1
      · intro b hb
        rcases List.mem_cons.1 hb with rfl | hb
        · rw [h7 _ (hv _ (by simp)) hn.1, hval]; rfl
        · exact h6 b hb
      · intro q hq hnot
        exact h7 q hq (fun hm => hnot (by simp [List.mem_map.1 hm]))
    | some x =>
      obtain ⟨f1, g1, g2, g3, g4, g5, g6⟩ := h.set (hv a (by simp)) x
      obtain ⟨f', h1, h2, h3, h4, h5, h6, h7⟩ := ih g2
        (fun b hb => by rw [g4]; exact hv b (by simp [hb])) hn.2
      refine ⟨f', ?_, h2, h3.trans g3, h4.trans g4, h5.trans g5, ?_, ?_⟩
      · rw [Res.foldList_cons_ok (b' := f1) (by simp [hval, g1, setOpt])]; exact h1
      · intro b hb
        rcases List.mem_cons.1 hb with rfl | hb
        · rw [h7 _ (by rw [g4]; exact hv _ (by simp)) hn.1, g6 _ (hv _ (by simp)), hval]
          simp
        · rw [h6 b hb, g6 _ (hv b (by simp [hb]))]
          have hne : comb b ≠ comb a := fun he => hn.1 (List.mem_map.2 ⟨b, hb, he⟩)
          rw [if_neg hne]
      · intro q hq hnot
        rw [List.map_cons, List.mem_cons, not_or] at hnot
        rw [h7 q (by rw [g4]; exact hq) hnot.2, g6 q hq, if_neg hnot.1]

theorem ofGroup_img (g : Group) (q : List Nat) : (ofGroup g : Fn F).img q = Arith.zero := by
  simp [ofGroup, img, sparseFind]

theorem validComb_iff (vars : List Var) (comb : List Nat) :
    validComb vars comb = true ↔ Valid (vars.map Var.size) comb := by
  induction vars generalizing comb with
  | nil =>
    cases comb with
    | nil => simp [validComb, valid_nil_iff]
    | cons c cs => simp [validComb, valid_nil_iff]
  | cons v vs ih =>
    cases comb with
    | nil =>
      simp only [validComb, Bool.false_eq_true, List.map_cons, false_iff]
      intro h; cases h
    | cons c cs =>
      simp only [validComb, Bool.and_eq_true, Bool.not_eq_true', decide_eq_false_iff_not, not_le,
        ih cs, List.map_cons, Valid, List.forall₂_cons]

theorem WF.clear {f : Fn F} (h : f.WF) : f.clear.WF :=
  ⟨h.group, h.sizes_eq, h.tot_eq, h.pos, by simp [Fn.clear, StoreOk]⟩

theorem clear_img (f : Fn F) (q : List Nat) : f.clear.img q = Arith.zero := by
  simp [Fn.clear, img, sparseFind]

theorem WF.replace {f f' : Fn F} {vars : List Var} (h : f.WF)
    (hr : replaceVariables vars f = .ok f' ()) :
    f'.WF ∧ f'.vars.group = vars ∧ f'.sizes = f.sizes ∧ f'.data = f.data ∧ f'.weight = f.weight := by
  unfold replaceVariables at hr
  cases hg : Group.replaceVariables vars f.vars with
  | ok g u =>
    rw [hg] at hr
    simp only [Out.ok.injEq, and_true] at hr
    subst hr
    obtain ⟨h1, h2⟩ := h.group.replace hg
    obtain ⟨_, _, h3⟩ := Group.replaceVariables_eq_ok.1 hg
    exact ⟨⟨h1, by simp only [h2, h.sizes_eq], h.tot_eq, h.pos, h.store⟩, by rw [h3], rfl, rfl, rfl⟩
  | throw g => rw [hg] at hr; cases hr
  | ub => rw [hg] at hr; cases hr

theorem replaceVariables_throw {f f' : Fn F} {vars : List Var}
    (hr : replaceVariables vars f = .throw f') : f' = f := by
  unfold replaceVariables at hr
  cases hg : Group.replaceVariables vars f.vars with
  | ok g u => rw [hg] at hr; cases hr
  | throw g =>
    rw [hg] at hr
    simp only [Out.throw.injEq] at hr
    rw [← hr, Group.replaceVariables_throw hg]
  | ub => rw [hg] at hr; cases hr

theorem WF.mutableSet {f : Fn F} (h : f.WF) (comb : List Nat) (x : F) :
    (∃ f', Fn.mutableSet comb x f = .ok f' () ∧ Arith.lt x Arith.zero = false ∧
      Valid f.sizes comb ∧ f'.WF ∧
      f'.vars = f.vars ∧ f'.sizes = f.sizes ∧ f'.weight = f.weight ∧
      ∀ q, Valid f.sizes q → f'.img q = if q = comb then x else f.img q) ∨
    (Fn.mutableSet comb x f = .throw f ∧
      ¬ (Arith.lt x Arith.zero = false ∧ Valid f.sizes comb)) := by
  have hvc := validComb_iff f.vars.group comb
  rw [show f.vars.group.map Var.size = f.sizes from h.sizes_eq.symm] at hvc
  unfold Fn.mutableSet
  by_cases h1 : Arith.lt x Arith.zero = true
  · right; simp [h1]
  · simp only [Bool.not_eq_true] at h1
    by_cases h2 : Valid f.sizes comb
    · left
      obtain ⟨f', g1, g2, g3, g4, g5, g6⟩ := h.set h2 x
      refine ⟨f', ?_, h1, h2, g2, g3, g4, g5, g6⟩
      simp [h1, hvc.2 h2, g1]
    · right
      have : validComb f.vars.group comb = false := by
        cases hb : validComb f.vars.group comb with
        | true => exact absurd (hvc.1 hb) h2
        | false => rfl
      simp [h1, this, h2]

end Fn
end EFG
