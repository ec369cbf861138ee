import Verif.Lemmas.Factor
import Verif.Lemmas.Ext
/- The merging constructor computes the pointwise product. -/

set_option linter.unusedSectionVars false

namespace EFG
namespace Fn

section
variable {F : Type u} [Arith F]

/-- The step of the merging constructor. -/
theorem merge_unfold (ord : List Var → List Var) (factors : List (Fn F)) {g : Group}
    (hg : gatherVariables ord factors = .ok g) (hne : factors ≠ []) {finders : List (Finder F)}
    (hf : Res.mapList (fun f => Finder.make f g.group)
      (factors.filter (fun f => ¬ f.vars.group = g.group)) = .ok finders)
    {combs : List (List Nat)} (hv : GroupRange.visit g.sizes = .ok combs) :
    merge ord factors = Res.foldList (mergeStep (factors.filter (fun f => f.vars.group = g.group))
      finders) (ofGroup g) combs := by
  unfold merge
  rw [hg]
  have : factors.isEmpty = false := by simpa using hne
  simp only [this, hf, hv, Bool.false_eq_true, if_false]

theorem gatherVariables_throw (ord : List Var → List Var) (factors : List (Fn F))
    (hc : ¬ ∀ v ∈ factors.flatMap (fun f => f.vars.group),
      ∀ w ∈ factors.flatMap (fun f => f.vars.group), v.eqv w = true → v = w) :
    gatherVariables ord factors = .throw := by
  unfold gatherVariables
  rw [gatherSet_throw (s := []) List.Pairwise.nil (by simpa using hc)]

theorem gatherVariables_ok {ord : List Var → List Var} (hord : ∀ l, (ord l).Perm l)
    {factors : List (Fn F)} (hne : factors ≠ []) (hwf : ∀ f ∈ factors, f.WF)
    (hc : ∀ v ∈ factors.flatMap (fun f => f.vars.group),
      ∀ w ∈ factors.flatMap (fun f => f.vars.group), v.eqv w = true → v = w) :
    ∃ g, gatherVariables ord factors = .ok g ∧ g.WF ∧
      ∀ v, v ∈ g.group ↔ ∃ f ∈ factors, v ∈ f.vars.group := by
  unfold gatherVariables
  obtain ⟨s, h1, h2, h3⟩ := gatherSet_ok (s := []) (vs := factors.flatMap (fun f => f.vars.group))
    List.Pairwise.nil (by simpa using hc)
  rw [h1]
  have hd : Distinct (ord s) := h2.perm (hord s).symm
  have hmem : ∀ v, v ∈ ord s ↔ ∃ f ∈ factors, v ∈ f.vars.group := by
    intro v
    rw [(hord s).mem_iff, h3]
    simp
  have hne' : ord s ≠ [] := by
    obtain ⟨f, fs, rfl⟩ := List.exists_cons_of_ne_nil hne
    obtain ⟨v, vs, hv⟩ := List.exists_cons_of_ne_nil (hwf f (by simp)).group.ne
    exact List.ne_nil_of_mem ((hmem v).2 ⟨f, by simp, by rw [hv]; simp⟩)
  have ho := Group.ofSoup_eq_ok.2 ⟨hne', hd, rfl⟩
  exact ⟨_, ho, Group.WF.of_soup ho, hmem⟩

end

variable {K : Type u} [Field K] [LinearOrder K] [FloatParams K]

theorem mulWhileNonZero_val {α : Type v} (look : α → Res (Ext K)) (g : α → K) (x : K)
    (l : List α) (h : ∀ a ∈ l, look a = .ok (.val (g a))) :
    mulWhileNonZero look (.val x) l = .ok (.val (x * (l.map g).prod)) := by
  induction l generalizing x with
  | nil => simp [mulWhileNonZero]
  | cons a l ih =>
    simp only [mulWhileNonZero, Ext.zero_eq, Ext.eq_val, decide_eq_true_eq]
    split
    · rename_i h0; simp [h0]
    · rw [h a (by simp)]
      simp only [Ext.mul_val]
      rw [ih _ (fun b hb => h b (by simp [hb]))]
      simp [mul_assoc]

omit [LinearOrder K] [FloatParams K] in
theorem prod_filter_split {α : Type v} (p : α → Prop) [DecidablePred p] (g : α → K) (l : List α) :
    ((l.filter (fun a => p a)).map g).prod * ((l.filter (fun a => ¬ p a)).map g).prod =
      (l.map g).prod := by
  induction l with
  | nil => simp
  | cons a l ih =>
    by_cases h : p a
    · simp only [h, decide_true, List.filter_cons_of_pos, List.map_cons, List.prod_cons,
        not_true_eq_false, decide_false, Bool.false_eq_true, not_false_eq_true,
        List.filter_cons_of_neg, mul_assoc, ih]
    · simp only [h, decide_true, List.filter_cons_of_pos, List.map_cons, List.prod_cons,
        decide_false, Bool.false_eq_true, not_false_eq_true,
        List.filter_cons_of_neg]
      rw [← ih]; ring

/-- The pointwise product. -/
theorem merge_ok {ord : List Var → List Var} (hord : ∀ l, (ord l).Perm l)
    {factors : List (Fn (Ext K))} (hne : factors ≠ []) (hwf : ∀ f ∈ factors, f.WF)
    (hc : ∀ v ∈ factors.flatMap (fun f => f.vars.group),
      ∀ w ∈ factors.flatMap (fun f => f.vars.group), v.eqv w = true → v = w)
    (hval : ∀ f ∈ factors, ∀ q, Valid f.sizes q → (f.timg q).IsVal) :
    ∃ m, merge ord factors = .ok m ∧ m.WF ∧ m.weight = none ∧
      (∀ v, v ∈ m.vars.group ↔ ∃ f ∈ factors, v ∈ f.vars.group) ∧
      ∀ a : Assign, InDom m.vars.group a → m.timg (m.vars.group.map a) =
        .val ((factors.map (fun f => (f.timg (f.vars.group.map a)).toK)).prod) := by
  obtain ⟨g, hg, hgw, hmem⟩ := gatherVariables_ok hord hne hwf hc
  have hgn := hgw.distinct.nodup
  have hpos : ∀ v ∈ g.group, 0 < v.size := by
    intro v hv
    obtain ⟨f, hf, hv⟩ := (hmem v).1 hv
    exact (hwf f hf).sizes_pos v hv
  have h0 := ofGroup_wf (F := Ext K) hgw hpos
  have hsub : ∀ f ∈ factors, f.vars.group ⊆ g.group := fun f hf v hv => (hmem v).2 ⟨f, hf, hv⟩
  have hfind := Res.mapList_ok (l := factors.filter (fun f => ¬ f.vars.group = g.group))
    (f := fun f => Finder.make f g.group)
    (g := fun f => (⟨f, f.vars.group.map (fun v => g.group.idxOf v)⟩ : Finder (Ext K)))
    (by
      intro f hf
      have hf' := List.mem_of_mem_filter hf
      unfold Finder.make
      rw [getIndices_ok (hwf f hf').nodup (hsub f hf')])
  have hvisit : GroupRange.visit g.sizes = .ok (lex g.sizes) := visit_eq _ h0.ne h0.pos
  rw [merge_unfold ord factors hg hne hfind hvisit]
  -- the product at an assignment
  let P : Assign → K := fun a => (factors.map (fun f => (f.timg (f.vars.group.map a)).toK)).prod
  have himg : ∀ a : Assign, InDom g.group a →
      mergedImage (factors.filter (fun f => f.vars.group = g.group))
        ((factors.filter (fun f => ¬ f.vars.group = g.group)).map
          (fun f => (⟨f, f.vars.group.map (fun v => g.group.idxOf v)⟩ : Finder (Ext K))))
        (g.group.map a) = .ok (if P a = 0 then none else some (.val (P a))) := by
    intro a ha
    have hdom : ∀ f ∈ factors, InDom f.vars.group a := fun f hf v hv => ha v (hsub f hf hv)
    unfold mergedImage
    rw [Ext.one_eq, mulWhileNonZero_val _ (fun f => (f.timg (f.vars.group.map a)).toK) 1 _ ?_]
    · simp only
      rw [mulWhileNonZero_val _ (fun fd => (fd.fn.timg (fd.fn.vars.group.map a)).toK) _ _ ?_]
      · simp only [one_mul, List.map_map, Function.comp_def, Ext.zero_eq, Ext.eq_val,
          decide_eq_true_eq]
        rw [prod_filter_split (fun f : Fn (Ext K) => f.vars.group = g.group)]
      · intro fd hfd
        simp only [List.mem_map] at hfd
        obtain ⟨f, hf, rfl⟩ := hfd
        have hf' := List.mem_of_mem_filter hf
        have hv := (hwf f hf').valid_map.2 (hdom f hf')
        unfold Finder.findTransformed
        rw [finder_extract (hsub f hf') a]
        simp only
        rw [(hwf f hf').findTransformed hv, ← (hval f hf' _ hv).eq]
    · intro f hf
      have hf' := List.mem_of_mem_filter hf
      have he : f.vars.group = g.group := by simpa using (List.mem_filter.1 hf).2
      have hv := (hwf f hf').valid_map.2 (hdom f hf')
      rw [← he, (hwf f hf').findTransformed hv, ← (hval f hf' _ hv).eq]
  let valOf : List Nat → Option (Ext K) := fun c =>
    if P (assignOf g.group c) = 0 then none else some (.val (P (assignOf g.group c)))
  have hgs : ∀ c, c ∈ lex g.sizes → g.group.map (assignOf g.group c) = c := by
    intro c hc
    apply map_assignOf hgn
    have := (mem_lex.1 hc).length
    simpa [Group.sizes] using this
  have hstep : ∀ (r : Fn (Ext K)), ∀ c ∈ lex g.sizes,
      mergeStep (factors.filter (fun f => f.vars.group = g.group))
        ((factors.filter (fun f => ¬ f.vars.group = g.group)).map
          (fun f => (⟨f, f.vars.group.map (fun v => g.group.idxOf v)⟩ : Finder (Ext K)))) r c =
        setOpt (id c) r (valOf c) := by
    intro r c hc
    have h1 := himg (assignOf g.group c) (inDom_assignOf hgn (mem_lex.1 hc))
    rw [hgs c hc] at h1
    simp only [mergeStep, h1, valOf]
    by_cases hp : P (assignOf g.group c) = 0
    · simp only [hp, if_true, setOpt]
    · simp only [hp, if_false, id, setOpt]
  obtain ⟨m, h1, h2, h3, h4, h5, h6, _⟩ := h0.setFold (lex g.sizes) id valOf
    (fun c hc => mem_lex.1 hc) (by simpa using lex_nodup g.sizes)
  refine ⟨m, ?_, h2, h5, ?_, ?_⟩
  · rw [← h1]; exact Res.foldList_congr hstep _
  · rw [h3]; exact hmem
  · intro a ha
    have hv : Valid g.sizes (g.group.map a) := valid_map_iff.2 (by rw [h3] at ha; exact ha)
    have hm := h6 _ (mem_lex.2 hv)
    rw [timg_plain h5, h3]
    show m.img (g.group.map a) = _
    have hPa : P (assignOf g.group (g.group.map a)) = P a := by
      have hag := hgs _ (mem_lex.2 hv)
      rw [List.map_inj_left] at hag
      simp only [P]
      congr 1
      apply List.map_congr_left
      intro f hf
      congr 2
      rw [List.map_inj_left]
      exact fun v hv => hag v (hsub f hf hv)
    simp only [id, ofGroup_img, valOf, hPa] at hm
    rw [hm]
    by_cases hp : P a = 0
    · simp only [hp, if_true, Option.getD_none, Ext.zero_eq]
      rw [← hp]
    · simp only [hp, if_false, Option.getD_some]
      rfl

end Fn
end EFG
