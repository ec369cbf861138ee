import Verif.Model.Heap
import Verif.Lemmas.Merge
import Verif.Props.Concrete
import Mathlib.Algebra.BigOperators.Field
/-
Properties of factors: C04 to C13.
-/

namespace EFG

/-- The factors that can be obtained with the public constructors and methods. -/
inductive FactorReach {F : Type u} [Arith F] : Fn F → Prop where
  | group {g} : GroupReach g → (∀ v ∈ g.group, v.WF) → FactorReach (Fn.ofGroup g)
  | correlated {g f} : GroupReach g → (∀ v ∈ g.group, v.WF) → Fn.correlated g = .ok f →
      FactorReach f
  | antiCorrelated {g f} : GroupReach g → (∀ v ∈ g.group, v.WF) → Fn.antiCorrelated g = .ok f →
      FactorReach f
  | copy {f} : FactorReach f → FactorReach f.copy
  | transformed {f f'} : FactorReach f → f.cloneTransformed = .ok f' → FactorReach f'
  | merge {ord fs f} : (∀ l, (ord l).Perm l) → (∀ f ∈ fs, FactorReach f) →
      Fn.merge ord fs = .ok f → FactorReach f
  | permuted {f g f'} : FactorReach f → GroupReach g → f.cloneWithPermutedGroup g = .ok f' →
      FactorReach f'
  | exponential {f w f'} : FactorReach f → f.exponential w = .ok f' → FactorReach f'
  | copyExponential {f f'} : FactorReach f → f.copyExponential = .ok f' → FactorReach f'
  | mutate {op f f'} : FactorReach f → Heap.applyOp op f = .ok f' () → FactorReach f'
  | mutateThrow {op f f'} : FactorReach f → Heap.applyOp op f = .throw f' → FactorReach f'

theorem foldList_ok_inv {α : Type u} {β : Type v} {f : β → α → Res β} (P : β → Prop)
    {l : List α} (hstep : ∀ b, P b → ∀ a ∈ l, ∀ b', f b a = .ok b' → P b') {b b' : β} (hb : P b)
    (h : Res.foldList f b l = .ok b') : P b' := by
  induction l generalizing b with
  | nil => cases h; exact hb
  | cons a l ih =>
    simp only [Res.foldList] at h
    cases hf : f b a with
    | ok b1 =>
      rw [hf] at h
      exact ih (fun b hb a ha => hstep b hb a (by simp [ha])) (hstep b hb a (by simp) b1 hf) h
    | throw => rw [hf] at h; cases h
    | ub => rw [hf] at h; cases h

section
variable {F : Type u} [Arith F]

theorem merge_wf {ord : List Var → List Var} (hord : ∀ l, (ord l).Perm l) {fs : List (Fn F)}
    (hwf : ∀ f ∈ fs, f.WF) {m : Fn F} (h : Fn.merge ord fs = .ok m) : m.WF := by
  by_cases hne : fs = []
  · subst hne
    unfold Fn.merge at h
    cases hg : Fn.gatherVariables ord ([] : List (Fn F)) with
    | ok g => rw [hg] at h; simp at h
    | throw => rw [hg] at h; cases h
    | ub => rw [hg] at h; cases h
  by_cases hc : ∀ v ∈ fs.flatMap (fun f => f.vars.group),
      ∀ w ∈ fs.flatMap (fun f => f.vars.group), v.eqv w = true → v = w
  · obtain ⟨g, hg, hgw, hmem⟩ := Fn.gatherVariables_ok hord hne hwf hc
    have hpos : ∀ v ∈ g.group, 0 < v.size := by
      intro v hv
      obtain ⟨f, hf, hv⟩ := (hmem v).1 hv
      exact (hwf f hf).sizes_pos v hv
    have h0 := Fn.ofGroup_wf (F := F) hgw hpos
    have hvisit : GroupRange.visit g.sizes = .ok (lex g.sizes) := visit_eq _ h0.ne h0.pos
    cases hfind : Res.mapList (fun f => Finder.make f g.group)
        (fs.filter (fun f => ¬ f.vars.group = g.group)) with
    | ok finders =>
      rw [Fn.merge_unfold ord fs hg hne hfind hvisit] at h
      refine (foldList_ok_inv (fun r : Fn F => r.WF ∧ r.sizes = g.sizes) ?_ ⟨h0, rfl⟩ h).1
      rintro r ⟨hr, hrs⟩ c hc r' hstep
      unfold Fn.mergeStep at hstep
      split at hstep
      · obtain ⟨f', e1, e2, _, e4, _⟩ := hr.set (comb := c) (by rw [hrs]; exact mem_lex.1 hc) (by assumption)
        rw [e1] at hstep
        cases hstep
        exact ⟨e2, e4.trans hrs⟩
      · cases hstep; exact ⟨hr, hrs⟩
      · cases hstep
      · cases hstep
    | throw =>
      unfold Fn.merge at h
      have : fs.isEmpty = false := by simpa using hne
      simp only [hg, this, hfind] at h
      cases h
    | ub =>
      unfold Fn.merge at h
      have : fs.isEmpty = false := by simpa using hne
      simp only [hg, this, hfind] at h
      cases h
  · unfold Fn.merge at h
    rw [Fn.gatherVariables_throw ord fs hc] at h
    cases h

theorem correlated_cases {g : Group} (hg : g.WF) {f : Fn F}
    (h : Fn.correlated g = .ok f) : (∀ v ∈ g.group, ∀ w ∈ g.group, v.size = w.size) ∧
      g.group.length ≠ 1 := by
  unfold Fn.correlated at h
  rw [Fn.checkAllSameSize_eq hg.ne] at h
  by_cases hs : ∀ v ∈ g.group, ∀ w ∈ g.group, v.size = w.size
  · refine ⟨hs, ?_⟩
    intro hl
    rw [if_pos hs] at h
    simp [hl] at h
  · rw [if_neg hs] at h; simp at h

theorem antiCorrelated_cases {g : Group} (hg : g.WF) {f : Fn F}
    (h : Fn.antiCorrelated g = .ok f) : (∀ v ∈ g.group, ∀ w ∈ g.group, v.size = w.size) ∧
      g.group.length ≠ 1 := by
  unfold Fn.antiCorrelated at h
  rw [Fn.checkAllSameSize_eq hg.ne] at h
  by_cases hl : g.group.length = 1
  · simp [hl] at h
  · refine ⟨?_, hl⟩
    by_contra hs
    simp [hl, hs] at h

theorem factorReach_wf {f : Fn F} (h : FactorReach f) : f.WF := by
  induction h with
  | group hg hv => exact Fn.ofGroup_wf (groupReach_wf hg) (fun v h => (hv v h).2)
  | correlated hg hv h =>
    have hgw := groupReach_wf hg
    have hpos := fun v h => (hv v h).2
    obtain ⟨h1, h2⟩ := correlated_cases hgw h
    obtain ⟨f, e1, e2, _⟩ := Fn.correlated_ok (F := F) hgw hpos h1 h2
    rw [e1] at h; cases h; exact e2
  | antiCorrelated hg hv h =>
    have hgw := groupReach_wf hg
    have hpos := fun v h => (hv v h).2
    obtain ⟨h1, h2⟩ := antiCorrelated_cases hgw h
    obtain ⟨f, e1, e2, _⟩ := Fn.antiCorrelated_ok (F := F) hgw hpos h1 h2
    rw [e1] at h; cases h; exact e2
  | copy _ ih => exact ih.copy
  | transformed _ h ih =>
    obtain ⟨f, e1, e2, _⟩ := ih.cloneTransformed
    rw [e1] at h; cases h; exact e2
  | merge hord _ h ih => exact merge_wf hord ih h
  | permuted _ hg h ih =>
    rename_i f g f' _
    have hgw := groupReach_wf hg
    by_cases hp : g.group.Perm f.vars.group
    · obtain ⟨f, e1, e2, _⟩ := ih.cloneWithPermutedGroup hgw hp
      rw [e1] at h; cases h; exact e2
    · rw [Fn.cloneWithPermutedGroup_throw ih hgw hp] at h; cases h
  | exponential _ h ih =>
    rename_i w _ _
    obtain ⟨f, e1, e2, _⟩ := ih.exponential w
    rw [e1] at h; cases h; exact e2
  | copyExponential _ h ih =>
    rename_i f f' _
    unfold Fn.copyExponential at h
    split at h
    · rename_i w _
      obtain ⟨f, e1, e2, _⟩ := ih.exponential w
      rw [e1] at h; cases h; exact e2
    · cases h
  | mutate _ h ih =>
    rename_i op f f' _
    cases op with
    | set comb x =>
      rcases ih.mutableSet comb x with ⟨f1, e1, _, _, e2, _⟩ | ⟨e1, _⟩
      · simp only [Heap.applyOp, e1] at h; cases h; exact e2
      · simp only [Heap.applyOp, e1] at h; cases h
    | clear => simp only [Heap.applyOp] at h; cases h; exact ih.clear
    | replaceVariables vars => exact (ih.replace h).1
    | setWeight w => simp only [Heap.applyOp] at h; cases h; exact ih.setWeight w
  | mutateThrow _ h ih =>
    rename_i op f f' _
    cases op with
    | set comb x =>
      rcases ih.mutableSet comb x with ⟨f1, e1, _, _, e2, _⟩ | ⟨e1, _⟩
      · simp only [Heap.applyOp, e1] at h; cases h
      · simp only [Heap.applyOp, e1] at h; cases h; exact ih
    | clear => simp only [Heap.applyOp] at h; cases h
    | replaceVariables vars =>
      rw [Fn.replaceVariables_throw h]; exact ih
    | setWeight w => simp only [Heap.applyOp] at h; cases h

/-! ### C04 -/

/-- A `set` call whose exception, if any, is caught. -/
def trySet (f : Fn F) (w : List Nat × F) : Res (Fn F) :=
  match Fn.mutableSet w.1 w.2 f with
  | .ok f' _ => .ok f'
  | .throw f' => .ok f'
  | .ub => .ub

/-- The accepted writes: value not negative, combination in the domain. -/
def Accepted (vars : List Var) (w : List Nat × F) : Prop :=
  Arith.lt w.2 Arith.zero = false ∧ Valid (vars.map Var.size) w.1

instance (vars : List Var) (w : List Nat × F) : Decidable (Accepted vars w) := by
  unfold Accepted; infer_instance

/-- Specification: the value of the last accepted write of a combination. -/
def lastWrite (vars : List Var) : List (List Nat × F) → List Nat → Option F
  | [], _ => none
  | w :: ws, q =>
    match lastWrite vars ws q with
    | some x => some x
    | none => if w.1 = q ∧ Accepted vars w then some w.2 else none

theorem trySets_img {f : Fn F} (h : f.WF) (ws : List (List Nat × F)) :
    ∃ f', Res.foldList trySet f ws = .ok f' ∧ f'.WF ∧ f'.vars = f.vars ∧ f'.sizes = f.sizes ∧
      ∀ q, Valid f.sizes q → f'.img q = (lastWrite f.vars.group ws q).getD (f.img q) := by
  induction ws generalizing f with
  | nil => exact ⟨f, rfl, h, rfl, rfl, fun q _ => rfl⟩
  | cons w ws ih =>
    rcases h.mutableSet w.1 w.2 with ⟨f1, e1, e2, e3, e4, e5, e6, e7, e8⟩ | ⟨e1, e2⟩
    · obtain ⟨f', h1, h2, h3, h4, h5⟩ := ih e4
      refine ⟨f', ?_, h2, h3.trans e5, h4.trans e6, ?_⟩
      · rw [Res.foldList_cons_ok (b' := f1) (by simp [trySet, e1])]; exact h1
      · intro q hq
        rw [h5 q (by rw [e6]; exact hq), e8 q hq, e5]
        simp only [lastWrite]
        cases lastWrite f.vars.group ws q with
        | some x => rfl
        | none =>
          have hacc : Accepted f.vars.group w := ⟨e2, by rw [← h.sizes']; exact e3⟩
          by_cases hqw : q = w.1
          · simp [hqw, hacc]
          · have : ¬ w.1 = q := fun h => hqw h.symm
            simp [hqw, this]
    · obtain ⟨f', h1, h2, h3, h4, h5⟩ := ih h
      refine ⟨f', ?_, h2, h3, h4, ?_⟩
      · rw [Res.foldList_cons_ok (b' := f) (by simp [trySet, e1])]; exact h1
      · intro q hq
        rw [h5 q hq]
        simp only [lastWrite]
        have hacc : ¬ Accepted f.vars.group w := by
          rintro ⟨a1, a2⟩
          exact e2 ⟨a1, by rw [h.sizes']; exact a2⟩
        cases lastWrite f.vars.group ws q with
        | some x => rfl
        | none => simp [hacc]

/-- C04: after any sequence of `set` calls on any factor, the image of every combination of the
domain is the value of the last accepted write, or the image before the sequence if there was none. -/
theorem C04_set {f : Fn F} (h : FactorReach f) (ws : List (List Nat × F)) :
    ∃ f', Res.foldList trySet f ws = .ok f' ∧ f'.vars = f.vars ∧
      ∀ q, Valid (f.vars.group.map Var.size) q → ∃ old, f.findImage q = .ok old ∧
        f'.findImage q = .ok ((lastWrite f.vars.group ws q).getD old) := by
  have hw := factorReach_wf h
  obtain ⟨f', h1, h2, h3, h4, h5⟩ := trySets_img hw ws
  refine ⟨f', h1, h3, ?_⟩
  intro q hq
  rw [← hw.sizes'] at hq
  exact ⟨_, hw.findImage hq, by rw [h2.findImage (by rw [h4]; exact hq), h5 q hq]⟩

/-- C04 on a new factor: combinations never written have image 0. -/
theorem C04_new {g : Group} (hg : GroupReach g) (hv : ∀ v ∈ g.group, v.WF)
    (ws : List (List Nat × F)) :
    ∃ f', Res.foldList trySet (Fn.ofGroup g) ws = .ok f' ∧
      ∀ q, Valid (g.group.map Var.size) q →
        f'.findImage q = .ok ((lastWrite g.group ws q).getD Arith.zero) := by
  have hr := FactorReach.group (F := F) hg hv
  obtain ⟨f', h1, _, h3⟩ := C04_set hr ws
  refine ⟨f', h1, ?_⟩
  intro q hq
  obtain ⟨old, h4, h5⟩ := h3 q hq
  have hw := factorReach_wf hr
  rw [hw.findImage (by rw [hw.sizes']; exact hq), Fn.ofGroup_img] at h4
  cases h4
  exact h5

/-- C04: `clear` forgets every write: all the images are null, whatever was stored and in whichever
representation; the variables stay. Later writes act as on a new factor. -/
theorem C04_clear {f : Fn F} (h : FactorReach f) (ws : List (List Nat × F)) :
    f.clear.vars = f.vars ∧ ∃ f', Res.foldList trySet f.clear ws = .ok f' ∧
      ∀ q, Valid (f.vars.group.map Var.size) q →
        f'.findImage q = .ok ((lastWrite f.vars.group ws q).getD Arith.zero) := by
  have hr : FactorReach f.clear := .mutate (op := .clear) h rfl
  obtain ⟨f', h1, _, h3⟩ := C04_set hr ws
  refine ⟨rfl, f', h1, ?_⟩
  intro q hq
  obtain ⟨old, h4, h5⟩ := h3 q hq
  have hw := factorReach_wf hr
  rw [hw.findImage (by rw [hw.sizes']; exact hq), Fn.clear_img] at h4
  cases h4
  exact h5

/-- A concrete case: a write, then `clear`, then another write. -/
example : ∃ f f', Res.foldList trySet (Fn.ofGroup Ex.gAB : Fn (Ext ℚ)) [([0, 1], .val 3)] = .ok f ∧
    Res.foldList trySet f.clear [([1, 1], .val 4)] = .ok f' ∧
    f'.findImage [0, 1] = .ok (.val 0) ∧ f'.findImage [1, 1] = .ok (.val 4) :=
  ⟨_, _, rfl, rfl, by decide, by decide⟩

/-- A concrete case: two accepted writes of one combination, two refused writes. -/
example : ∃ f', Res.foldList trySet (Fn.ofGroup Ex.gAB : Fn (Ext ℚ))
    [([0, 1], .val 3), ([1, 1], .val (-1)), ([0, 1], .val 5), ([7], .val 2)] = .ok f' ∧
    f'.findImage [0, 1] = .ok (.val 5) ∧ f'.findImage [1, 1] = .ok (.val 0) :=
  ⟨_, rfl, by decide, by decide⟩
example : (lastWrite [Ex.A, Ex.B] [([0, 1], .val 3), ([1, 1], .val (-1)), ([0, 1], .val 5)] [0, 1] :
    Option (Ext ℚ)) = some (.val 5) := by decide
example : FactorReach (Fn.ofGroup Ex.gAB : Fn (Ext ℚ)) := .group Ex.gAB_reach Ex.gAB_wf

/-! ### C05 -/

/-- C05: on every factor `set` throws exactly when the value is negative or the combination is not in
the domain (wrong length, or an entry out of range), a refused call changes nothing, and no call has
undefined behaviour. -/
theorem C05_set_refuses {f : Fn F} (h : FactorReach f) (comb : List Nat) (x : F) :
    Fn.mutableSet comb x f ≠ .ub ∧
    ((∃ f', Fn.mutableSet comb x f = .throw f') ↔
      Arith.lt x Arith.zero = true ∨ ¬ Valid (f.vars.group.map Var.size) comb) ∧
    ∀ f', Fn.mutableSet comb x f = .throw f' → f' = f := by
  have hw := factorReach_wf h
  rw [← hw.sizes']
  rcases hw.mutableSet comb x with ⟨f1, e1, e2, e3, _⟩ | ⟨e1, e2⟩
  · rw [e1]
    refine ⟨by simp, ?_, by simp⟩
    simp [e2, e3]
  · rw [e1]
    refine ⟨by simp, ?_, by simp⟩
    simp only [Out.throw.injEq, exists_eq', true_iff]
    cases hx : Arith.lt x Arith.zero with
    | true => exact Or.inl rfl
    | false => right; intro hv; exact e2 ⟨hx, hv⟩

example : FactorReach (Fn.ofGroup Ex.gBC : Fn (Ext ℚ)) ∧
    (∃ f', Fn.mutableSet [1, 3] (.val 1) (Fn.ofGroup Ex.gBC : Fn (Ext ℚ)) = .throw f') ∧
    (∃ f', Fn.mutableSet [1, 2] (.val (-1)) (Fn.ofGroup Ex.gBC : Fn (Ext ℚ)) = .throw f') ∧
    (∃ f', Fn.mutableSet [1, 2] (.val 1) (Fn.ofGroup Ex.gBC : Fn (Ext ℚ)) = .ok f' ()) :=
  ⟨.group Ex.gBC_reach Ex.gBC_wf, ⟨_, rfl⟩, ⟨_, rfl⟩, ⟨_, rfl⟩⟩

/-! ### C06 -/

/-- C06: the visit of a factor reports each combination of the domain once, in range order, with the
image a lookup gives: raw and transformed. -/
theorem C06_forEach {f : Fn F} (h : FactorReach f) :
    ∃ combs raw tr, GroupRange.visit (f.vars.group.map Var.size) = .ok combs ∧
      f.rawEntries = .ok raw ∧ f.entries = .ok tr ∧
      raw.map Prod.fst = combs ∧ tr.map Prod.fst = combs ∧
      (∀ e ∈ raw, f.findImage e.1 = .ok e.2) ∧ (∀ e ∈ tr, f.findTransformed e.1 = .ok e.2) := by
  have hw := factorReach_wf h
  refine ⟨lex f.sizes, _, _, by rw [← hw.sizes']; exact hw.visit, hw.rawEntries, hw.entries,
    by simp [Function.comp_def], by simp [Function.comp_def], ?_, ?_⟩
  · intro e he
    simp only [List.mem_map] at he
    obtain ⟨c, hc, rfl⟩ := he
    exact hw.findImage (mem_lex.1 hc)
  · intro e he
    simp only [List.mem_map] at he
    obtain ⟨c, hc, rfl⟩ := he
    exact hw.findTransformed (mem_lex.1 hc)

/-- The factor over A with images 3 and 4. -/
def Ex.fA : Fn (Ext ℚ) :=
  { Fn.ofGroup Ex.gA with data := .sparse [([0], .val 3), ([1], .val 4)] }

theorem Ex.fA_reach : FactorReach Ex.fA := by
  have h0 : FactorReach (Fn.ofGroup Ex.gA : Fn (Ext ℚ)) := .group Ex.gA_reach Ex.gA_wf
  have h1 := FactorReach.mutate (op := .set [0] (.val 3)) h0 (by rfl)
  exact FactorReach.mutate (op := .set [1] (.val 4)) h1 (by rfl)

example : Ex.fA.entries = .ok [([0], .val 3), ([1], .val 4)] := by decide

/-! ### C07 -/

theorem sparse_img {f : Fn F} (hw : f.WF) {c : List (List Nat × F)} (hd : f.data = .sparse c)
    {e : List Nat × F} (he : e ∈ c) : f.img e.1 = e.2 := by
  have hs := hw.store
  rw [hd] at hs
  simp only [Fn.img, hd]
  rw [(Fn.sparseFind_eq_some hs.1).2 he]; rfl

/-- C07 without the claim that zero images are skipped: `forEachNonNullCombination` visits pairwise
different combinations of the domain, with the image a lookup gives, and every combination whose raw
image differs from 0 is visited. Missing: combinations explicitly set to 0 can be visited too, see
`C07_violated`. -/
theorem C07_nonNull_partial (h00 : Arith.eq (Arith.zero : F) Arith.zero = true) {f : Fn F}
    (h : FactorReach f) (tr : Bool) :
    ∃ l, f.nonNullEntries tr = .ok l ∧ (l.map Prod.fst).Nodup ∧
      (∀ e ∈ l, Valid (f.vars.group.map Var.size) e.1 ∧
        (if tr then f.findTransformed e.1 else f.findImage e.1) = .ok e.2) ∧
      ∀ q x, Valid (f.vars.group.map Var.size) q → f.findImage q = .ok x →
        Arith.eq x Arith.zero = false → q ∈ l.map Prod.fst := by
  have hw := factorReach_wf h
  rw [← hw.sizes']
  have hs := hw.store
  unfold Fn.nonNullEntries
  cases hd : f.data with
  | sparse c =>
    rw [hd] at hs
    obtain ⟨hn, hv⟩ := hs
    refine ⟨_, rfl, by simpa [Function.comp_def] using hn, ?_, ?_⟩
    · intro e he
      simp only [List.mem_map] at he
      obtain ⟨e', he', rfl⟩ := he
      refine ⟨hv e' he', ?_⟩
      have := sparse_img hw hd he'
      cases tr with
      | true => simp [hw.findTransformed (hv e' he'), Fn.timg, this]
      | false => simp [hw.findImage (hv e' he'), this]
    · intro q x hq hx hne
      rw [hw.findImage hq] at hx
      cases hx
      simp only [List.map_map, Function.comp_def]
      by_contra hnot
      have : Fn.sparseFind c q = none := by
        rw [Fn.sparseFind_eq_none]
        intro y hy
        exact hnot (List.mem_map.2 ⟨_, hy, rfl⟩)
      simp [Fn.img, hd, this, h00] at hne
  | dense v =>
    rw [hd] at hs
    simp only [Fn.StoreOk] at hs
    simp only [hw.visit]
    rw [Fn.zipDense_eq _ _ (by rw [lex_length, hs]), Fn.zip_lex _ _ hs]
    have himg : ∀ c, v.getD (rank f.sizes c) Arith.zero = f.img c := by
      intro c; simp [Fn.img, hd]
    simp only [himg]
    refine ⟨_, rfl, ?_, ?_, ?_⟩
    · rw [List.map_map]
      refine ((lex_nodup f.sizes).sublist ?_)
      have : ((List.filter (fun e => !Arith.eq e.2 Arith.zero)
          ((lex f.sizes).map (fun c => (c, f.img c)))).map
          (Prod.fst ∘ fun e => (e.1, if tr = true then f.transform e.2 else e.2))).Sublist
          (((lex f.sizes).map (fun c => (c, f.img c))).map
          (Prod.fst ∘ fun e => (e.1, if tr = true then f.transform e.2 else e.2))) :=
        List.Sublist.map _ List.filter_sublist
      simpa [Function.comp_def] using this
    · intro e he
      simp only [List.mem_map, List.mem_filter] at he
      obtain ⟨e', ⟨⟨c, hc, rfl⟩, _⟩, rfl⟩ := he
      have hv := mem_lex.1 hc
      refine ⟨hv, ?_⟩
      cases tr with
      | true => simp [hw.findTransformed hv, Fn.timg]
      | false => simp [hw.findImage hv]
    · intro q x hq hx hne
      rw [hw.findImage hq] at hx
      cases hx
      refine List.mem_map.2 ⟨(q, if tr = true then f.transform (f.img q) else f.img q), ?_, rfl⟩
      refine List.mem_map.2 ⟨(q, f.img q), ?_, rfl⟩
      exact List.mem_filter.2 ⟨List.mem_map.2 ⟨q, mem_lex.2 hq, rfl⟩, by simp [hne]⟩

/-- C07 in full for the states in which no combination of the sparse representation was explicitly
set to 0: exactly the combinations with a non null image are visited. Missing: the other states. -/
theorem C07_exact_partial (h00 : Arith.eq (Arith.zero : F) Arith.zero = true) {f : Fn F}
    (h : FactorReach f) (tr : Bool)
    (hnz : ∀ c, f.data = .sparse c → ∀ e ∈ c, Arith.eq e.2 Arith.zero = false) :
    ∃ l, f.nonNullEntries tr = .ok l ∧ (l.map Prod.fst).Nodup ∧
      ∀ q x, Valid (f.vars.group.map Var.size) q → f.findImage q = .ok x →
        (q ∈ l.map Prod.fst ↔ Arith.eq x Arith.zero = false) := by
  obtain ⟨l, h1, h2, h3, h4⟩ := C07_nonNull_partial h00 h tr
  refine ⟨l, h1, h2, ?_⟩
  intro q x hq hx
  refine ⟨?_, h4 q x hq hx⟩
  intro hm
  have hw := factorReach_wf h
  rw [← hw.sizes'] at hq
  rw [hw.findImage hq] at hx
  cases hx
  unfold Fn.nonNullEntries at h1
  cases hd : f.data with
  | sparse c =>
    rw [hd] at h1
    cases h1
    rw [List.map_map] at hm
    simp only [List.mem_map, Function.comp] at hm
    obtain ⟨e, he, rfl⟩ := hm
    rw [sparse_img hw hd he]
    exact hnz c hd e he
  | dense v =>
    have hs := hw.store
    rw [hd] at hs h1
    simp only [Fn.StoreOk] at hs
    simp only [hw.visit] at h1
    rw [Fn.zipDense_eq _ _ (by rw [lex_length, hs]), Fn.zip_lex _ _ hs] at h1
    cases h1
    simp only [List.map_map, List.mem_map, List.mem_filter, Function.comp] at hm
    obtain ⟨e, ⟨⟨c, hc, rfl⟩, hne⟩, rfl⟩ := hm
    simp only [Fn.img, hd]
    simpa using hne

end

/-- C07 fails: an image explicitly set to 0 is visited (the sparse representation is visited without
looking at the images, factor/Function.h:70-76). -/
theorem C07_violated : ∃ (f : Fn (Ext ℚ)) (l : List (List Nat × Ext ℚ)), FactorReach f ∧
    f.nonNullEntries false = .ok l ∧ [0] ∈ l.map Prod.fst ∧ f.findImage [0] = .ok (.val 0) := by
  have h0 : FactorReach (Fn.ofGroup Ex.gA : Fn (Ext ℚ)) := .group Ex.gA_reach Ex.gA_wf
  have h1 := FactorReach.mutate (op := .set [0] (.val 0)) h0 (by rfl)
  exact ⟨_, _, h1, rfl, by decide, by decide⟩

example : Arith.eq (Arith.zero : Ext ℚ) Arith.zero = true ∧ FactorReach Ex.fA ∧
    (∀ c, Ex.fA.data = .sparse c → ∀ e ∈ c, Arith.eq e.2 Arith.zero = false) ∧
    Ex.fA.nonNullEntries true = .ok [([0], .val 3), ([1], .val 4)] := by
  refine ⟨by decide, Ex.fA_reach, ?_, by decide⟩
  intro c hc
  cases hc
  decide

/-! ### C08 -/

section
variable {K : Type u} [Field K] [LinearOrder K] [FloatParams K]

/-- C08: `getProbabilities` is the distribution proportional to the images, in range order, or the
uniform one when all the images are 0. -/
theorem C08_probabilities [IsStrictOrderedRing K] {f : Fn (Ext K)} (h : FactorReach f)
    (img : List Nat → K)
    (himg : ∀ q, Valid (f.vars.group.map Var.size) q →
      f.findTransformed q = .ok (.val (img q)) ∧ 0 ≤ img q) :
    ∃ (combs : List (List Nat)) (ps : List K),
      GroupRange.visit (f.vars.group.map Var.size) = .ok combs ∧
      f.probabilities = .ok (ps.map .val) ∧ ps.length = combs.length ∧
      (∀ p ∈ ps, 0 ≤ p) ∧ ps.sum = 1 ∧
      ((combs.map img).sum ≠ 0 → ps = combs.map (fun c => img c / (combs.map img).sum)) ∧
      ((∀ c ∈ combs, img c = 0) → ps = combs.map (fun _ => 1 / (combs.length : K))) := by
  have hw := factorReach_wf h
  rw [← hw.sizes'] at himg ⊢
  have hpos : 0 < (lex f.sizes).length := by
    rw [lex_length]
    exact prod_pos_nat hw.pos
  have hImg : f.images = .ok (((lex f.sizes).map img).map .val) := by
    rw [hw.images, List.map_map]
    congr 1
    apply List.map_congr_left
    intro c hc
    have h1 := (himg c (mem_lex.1 hc)).1
    rw [hw.findTransformed (mem_lex.1 hc)] at h1
    simpa using h1
  have hnn : ∀ x ∈ (lex f.sizes).map img, 0 ≤ x := by
    intro x hx
    obtain ⟨c, hc, rfl⟩ := List.mem_map.1 hx
    exact (himg c (mem_lex.1 hc)).2
  have hsum0 : ((lex f.sizes).map img).sum = 0 → ∀ c ∈ lex f.sizes, img c = 0 := by
    intro hz c hc
    exact Ext.eq_zero_of_sum_eq_zero hnn hz _
      (List.mem_map.2 ⟨c, hc, rfl⟩)
  unfold Fn.probabilities
  rw [hImg]
  simp only [Ext.sum_val, Ext.zero_eq, Ext.eq_val, decide_eq_true_eq]
  by_cases hs : ((lex f.sizes).map img).sum = 0
  · refine ⟨lex f.sizes, (lex f.sizes).map (fun _ => 1 / ((lex f.sizes).length : K)), hw.visit, ?_,
      by simp, ?_, ?_, fun hc => absurd hs hc, fun _ => rfl⟩
    · have hne : ((lex f.sizes).length : K) ≠ 0 := by exact_mod_cast hpos.ne'
      rw [if_pos hs]
      simp only [List.map_map, Function.comp_def, List.length_map, Ext.one_eq, Ext.ofNat_eq,
        Ext.div_val_ne hne]
    · intro p hp
      obtain ⟨_, _, rfl⟩ := List.mem_map.1 hp
      positivity
    · have hne : ((lex f.sizes).length : K) ≠ 0 := by exact_mod_cast hpos.ne'
      simp [hne]
  · refine ⟨lex f.sizes, (lex f.sizes).map (fun c => img c / ((lex f.sizes).map img).sum), hw.visit,
      ?_, by simp, ?_, ?_, fun _ => rfl, ?_⟩
    · rw [if_neg hs]
      simp only [List.map_map, Function.comp_def, Ext.div_val_ne hs]
    · intro p hp
      obtain ⟨c, hc, rfl⟩ := List.mem_map.1 hp
      exact div_nonneg (himg c (mem_lex.1 hc)).2 (List.sum_nonneg hnn)
    · have : (fun c => img c / ((lex f.sizes).map img).sum) =
          fun c => img c * (((lex f.sizes).map img).sum)⁻¹ := by
        funext c; rw [div_eq_mul_inv]
      rw [this, List.sum_map_mul_right, mul_inv_cancel₀ hs]
    · intro hz
      exfalso
      apply hs
      apply List.sum_eq_zero
      intro x hx
      obtain ⟨c, hc, rfl⟩ := List.mem_map.1 hx
      exact hz c hc

end

example : Ex.fA.probabilities = .ok [.val (3 / 7), .val (4 / 7)] := by decide +kernel
example : ∀ q, Valid (Ex.fA.vars.group.map Var.size) q →
    Ex.fA.findTransformed q = .ok (.val ((fun q => if q = [0] then 3 else 4) q)) ∧
      (0 : ℚ) ≤ (fun q => if q = [0] then 3 else 4) q := by
  intro q hq
  have : q ∈ lex [2] := mem_lex.2 hq
  simp only [show lex [2] = [[0], [1]] from rfl, List.mem_cons, List.not_mem_nil, or_false] at this
  rcases this with rfl | rfl <;> decide

end EFG
