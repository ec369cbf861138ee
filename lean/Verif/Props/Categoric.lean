import Verif.Lemmas.Group
import Verif.Lemmas.Range
import Mathlib.Tactic.NormNum
/-
Properties of variables, groups and ranges: C01, C02, C03.
-/

namespace EFG

/-! ### C01 -/

/-- C01: `make_variable` returns the requested variable exactly when the name is not empty and the
size is positive, and throws otherwise. -/
theorem C01_makeVariable (addr size : Nat) (name : String) :
    (name ≠ "" ∧ 0 < size → makeVariable addr size name = .ok ⟨addr, name, size⟩) ∧
    (¬ (name ≠ "" ∧ 0 < size) → makeVariable addr size name = .throw) := by
  have hn : name.length = 0 ↔ name = "" := by
    rw [← String.length_toList, List.length_eq_zero_iff, String.toList_eq_nil_iff]
  unfold makeVariable
  constructor
  · rintro ⟨h1, h2⟩
    rw [if_neg (by rw [hn]; exact h1), if_neg (by omega)]
  · intro h
    by_cases h1 : name = ""
    · rw [if_pos (hn.2 h1)]
    · have h2 : size = 0 := by
        by_contra h2
        exact h ⟨h1, by omega⟩
      rw [if_neg (by rw [hn]; exact h1), if_pos h2]

/-- C01: no variable with an empty name or an empty domain can be obtained. -/
theorem C01_observable {addr size : Nat} {name : String} {v : Var}
    (h : makeVariable addr size name = .ok v) : v.name = name ∧ v.size = size ∧ Var.WF v := by
  have hc := C01_makeVariable addr size name
  by_cases hg : name ≠ "" ∧ 0 < size
  · rw [hc.1 hg] at h
    cases h
    exact ⟨rfl, rfl, hg⟩
  · rw [hc.2 hg] at h; cases h

example : makeVariable 7 3 "X" = .ok ⟨7, "X", 3⟩ := (C01_makeVariable 7 3 "X").1 (by decide)
example : makeVariable 7 0 "X" = .throw := (C01_makeVariable 7 0 "X").2 (by decide)
example : makeVariable 7 3 "" = .throw := (C01_makeVariable 7 3 "").2 (by decide)

/-! ### C02 -/

/-- The groups that can be obtained with the constructors and the methods of `Group`. -/
inductive GroupReach : Group → Prop where
  | soup {vars g} : Group.ofSoup vars = .ok g → GroupReach g
  | single (v) : GroupReach (Group.single v)
  | vars {a b others g} : Group.ofVars a b others = .ok g → GroupReach g
  | add {g g' v} : GroupReach g → Group.add v g = .ok g' () → GroupReach g'
  | addThrow {g g' v} : GroupReach g → Group.add v g = .throw g' → GroupReach g'
  | replace {g g' vars} : GroupReach g → Group.replaceVariables vars g = .ok g' () → GroupReach g'
  | replaceThrow {g g' vars} :
      GroupReach g → Group.replaceVariables vars g = .throw g' → GroupReach g'

/-- C02: a refused `add` leaves the group unchanged, and is refused exactly when the group already
has an equal variable. -/
theorem C02_add_refused (g : Group) (v : Var) :
    Group.add v g ≠ .ub ∧ (∀ g', Group.add v g = .throw g' → g' = g) ∧
      ((∃ g', Group.add v g = .throw g') ↔ ∃ w ∈ g.sorted, w.name = v.name ∧ w.size = v.size) := by
  unfold Group.add
  by_cases h : VarSet.mem g.sorted v = true
  · simp only [h, if_true]
    refine ⟨by simp, by intro g' h; cases h; rfl, ?_⟩
    obtain ⟨w, hw, he⟩ := VarSet.mem_iff.1 h
    exact ⟨fun _ => ⟨w, hw, Var.eqv_iff.1 he⟩, fun _ => ⟨g, rfl⟩⟩
  · simp only [if_neg h]
    refine ⟨by simp, (by intro g' h; cases h), ?_⟩
    constructor
    · rintro ⟨g', h'⟩; cases h'
    · rintro ⟨w, hw, he⟩
      exact absurd (VarSet.mem_iff.2 ⟨w, hw, Var.eqv_iff.2 he⟩) h

/-- C02: a refused `replaceVariables` leaves the group unchanged. -/
theorem C02_replace_refused {g g' : Group} {vars : List Var}
    (h : Group.replaceVariables vars g = .throw g') : g' = g := Group.replaceVariables_throw h

theorem ofVars_wf {a b : Var} {others : List Var} {g : Group}
    (h : Group.ofVars a b others = .ok g) : g.group = a :: b :: others ∧ g.WF := by
  have gen : ∀ (l : List Var) (g0 g : Group), Distinct g0.group → g0.sorted.Perm g0.group →
      Res.foldList (fun g v => match Group.add v g with
        | .ok g' _ => .ok g'
        | .throw _ => .throw
        | .ub => .ub) g0 l = .ok g →
      g.group = g0.group ++ l ∧ Distinct g.group ∧ g.sorted.Perm g.group := by
    intro l
    induction l with
    | nil =>
      intro g0 g h1 h2 h
      simp only [Res.foldList, Res.ok.injEq] at h
      subst h
      exact ⟨by simp, h1, h2⟩
    | cons v l ih =>
      intro g0 g h1 h2 h
      simp only [Res.foldList, Group.add] at h
      by_cases hm : VarSet.mem g0.sorted v = true
      · simp [hm] at h
      · simp only [hm, Bool.false_eq_true, if_false] at h
        have hm' := VarSet.mem_eq_false.1 (by simpa using hm)
        obtain ⟨e1, e2, e3⟩ := ih _ g (by
          rw [distinct_iff]
          simp only [List.pairwise_append, List.pairwise_cons, List.not_mem_nil,
            false_imp_iff, implies_true, List.Pairwise.nil, and_self, true_and, List.mem_singleton,
            forall_eq]
          exact ⟨distinct_iff.1 h1, fun a ha => hm' a (h2.mem_iff.2 ha)⟩) (by
          simp only [VarSet.emplace, hm, Bool.false_eq_true, if_false]
          exact h2.append_right _) h
        exact ⟨by simp [e1], e2, e3⟩
  obtain ⟨h1, h2, h3⟩ := gen (a :: b :: others) Group.empty g List.Pairwise.nil (List.Perm.refl _) h
  refine ⟨by simpa [Group.empty] using h1, ⟨?_, h2, h3⟩⟩
  rw [h1]; simp [Group.empty]

theorem groupReach_wf {g : Group} (h : GroupReach g) : g.WF := by
  induction h with
  | soup h => exact Group.WF.of_soup h
  | single v => exact Group.WF.single v
  | vars h => exact (ofVars_wf h).2
  | add _ h ih => exact ih.add h
  | addThrow _ h ih => rw [(C02_add_refused _ _).2.1 _ h]; exact ih
  | replace _ h ih => exact (ih.replace h).1
  | replaceThrow _ h ih => rw [C02_replace_refused h]; exact ih

/-- C02, apart from the documented "pairwise different names" and from the absence of undefined
behaviour: every reachable group is not empty, lists pairwise different variables (by name and size),
its list and its set hold the same variables, and `size()` is the product of the sizes.
Missing: the documentation asks for pairwise different *names*, which is false
(`C02_same_name_violated`), and `replaceVariables` can read out of range
(`C02_replace_ub_violated`). -/
theorem C02_group_partial {g : Group} (h : GroupReach g) :
    g.group ≠ [] ∧ Distinct g.group ∧ (∀ v, v ∈ g.sorted ↔ v ∈ g.group) ∧
      g.sorted.length = g.group.length ∧ g.size = (g.group.map Var.size).prod := by
  have hw := groupReach_wf h
  exact ⟨hw.ne, hw.distinct, fun v => hw.perm.mem_iff, hw.perm.length_eq, Group.size_eq g⟩

/-- C02: the constructor from a list succeeds exactly on the non empty lists of pairwise different
variables, and throws on the others. -/
theorem C02_ofSoup (vars : List Var) :
    (vars ≠ [] ∧ Distinct vars → ∃ g, Group.ofSoup vars = .ok g ∧ g.group = vars) ∧
    (¬ (vars ≠ [] ∧ Distinct vars) → Group.ofSoup vars = .throw) := by
  constructor
  · rintro ⟨h1, h2⟩
    exact ⟨_, Group.ofSoup_eq_ok.2 ⟨h1, h2, rfl⟩, rfl⟩
  · intro h
    cases ho : Group.ofSoup vars with
    | ok g =>
      obtain ⟨h1, h2, _⟩ := Group.ofSoup_eq_ok.1 ho
      exact absurd ⟨h1, h2⟩ h
    | throw => rfl
    | ub => exact absurd ho (Group.ofSoup_ne_ub vars)

/-- C02: `replaceVariables` succeeds exactly for a list of pairwise different variables which has the
same length and the same sizes position by position, and then the group lists the new variables. -/
theorem C02_replace_accepts (g : Group) (vars : List Var) :
    (∃ g', Group.replaceVariables vars g = .ok g' ()) ↔
      Distinct vars ∧ List.Forall₂ (fun n o => n.size = o.size) vars g.group := by
  constructor
  · rintro ⟨g', h⟩
    obtain ⟨h1, h2, _⟩ := Group.replaceVariables_eq_ok.1 h
    exact ⟨h1, h2⟩
  · rintro ⟨h1, h2⟩
    exact ⟨_, Group.replaceVariables_eq_ok.2 ⟨h1, h2, rfl⟩⟩

theorem C02_replace_result {g g' : Group} {vars : List Var}
    (h : Group.replaceVariables vars g = .ok g' ()) : g'.group = vars := by
  obtain ⟨_, _, rfl⟩ := Group.replaceVariables_eq_ok.1 h; rfl

/-- The documentation of `Group` (categoric/Group.h:28-31) asks for pairwise different names; two
variables with the same name and different sizes are accepted. -/
theorem C02_same_name_violated :
    ∃ (a b : Var) (g : Group), a.WF ∧ b.WF ∧ a.name = b.name ∧ Group.ofSoup [a, b] = .ok g :=
  ⟨⟨0, "A", 2⟩, ⟨1, "A", 3⟩, _, by decide, by decide, rfl,
    Group.ofSoup_eq_ok.2 ⟨by decide, by decide, rfl⟩⟩

/-- `replaceVariables` reads past the end of the group when the new list has a repetition. -/
theorem C02_replace_ub_violated :
    ∃ (g : Group) (vars : List Var), GroupReach g ∧ (∀ v ∈ vars, v.WF) ∧
      Group.replaceVariables vars g = .ub :=
  ⟨Group.single ⟨0, "A", 2⟩, [⟨1, "B", 2⟩, ⟨1, "B", 2⟩], .single _, by decide, by decide⟩

/-- A concrete reachable group: built from two variables, then extended, then renamed. -/
example : ∃ g, GroupReach g ∧ g.group = [⟨5, "X", 2⟩, ⟨6, "Y", 3⟩, ⟨7, "Z", 4⟩] ∧ g.size = 24 := by
  refine ⟨⟨[⟨5, "X", 2⟩, ⟨6, "Y", 3⟩, ⟨7, "Z", 4⟩], [⟨5, "X", 2⟩, ⟨6, "Y", 3⟩, ⟨7, "Z", 4⟩]⟩, ?_,
    rfl, rfl⟩
  have h0 : GroupReach ⟨[⟨0, "A", 2⟩, ⟨1, "B", 3⟩], [⟨0, "A", 2⟩, ⟨1, "B", 3⟩]⟩ :=
    .soup (vars := [⟨0, "A", 2⟩, ⟨1, "B", 3⟩]) (by decide)
  have h1 := GroupReach.add (v := ⟨2, "C", 4⟩) h0 (by rfl)
  exact GroupReach.replace (vars := [⟨5, "X", 2⟩, ⟨6, "Y", 3⟩, ⟨7, "Z", 4⟩]) h1 (by decide)

/-! ### C03 -/

/-- `n` increments of a range. -/
def increments : Nat → GroupRange → Out GroupRange Unit
  | 0, r => .ok r ()
  | n + 1, r =>
    match increments n r with
    | .ok r' _ => GroupRange.next r'
    | .throw r' => .throw r'
    | .ub => .ub

/-- C03: `for_each_combination` on a new range visits the whole joint domain exactly once, in
lexicographic order, and stops. -/
theorem C03_visit (sizes : List Nat) (hne : sizes ≠ []) (hpos : ∀ s ∈ sizes, 0 < s) :
    ∃ l, GroupRange.visit sizes = .ok l ∧ l.length = sizes.prod ∧
      (∀ c, c ∈ l ↔ Valid sizes c) ∧ l.Nodup ∧ l.Pairwise LexLt :=
  ⟨lex sizes, visit_eq sizes hne hpos, lex_length sizes, fun _ => mem_lex, lex_nodup sizes,
    lex_sorted sizes⟩

theorem increments_enum (sizes : List Nat) (hne : sizes ≠ []) {comb : List Nat}
    {l : List (List Nat)} (h : Enum (nextComb sizes) comb l) (hl : comb.length = sizes.length)
    (r0 : GroupRange) (n : Nat) (hn : increments n r0 = .ok ⟨some ⟨sizes, comb, false⟩⟩ ()) :
    (∀ k c, l[k]? = some c → increments (n + k) r0 = .ok ⟨some ⟨sizes, c, false⟩⟩ ()) ∧
      increments (n + l.length) r0 = .ok ⟨none⟩ () := by
  induction h generalizing n with
  | last hc =>
    have e : increments (n + 1) r0 = .ok ⟨none⟩ () := by
      simp only [increments, hn]
      rw [next_eq sizes _ false hne hl, hc]; rfl
    refine ⟨?_, e⟩
    intro k c hk
    cases k with
    | zero => simp only [List.getElem?_cons_zero, Option.some.injEq] at hk; subst hk; exact hn
    | succ k => simp at hk
  | step hc _ ih =>
    rename_i c0 d l0 _
    have e : increments (n + 1) r0 = .ok ⟨some ⟨sizes, d, false⟩⟩ () := by
      simp only [increments, hn]
      rw [next_eq sizes _ false hne hl, hc]; rfl
    obtain ⟨h1, h2⟩ := ih (nextComb_length hl hc) (n + 1) e
    constructor
    · intro k c hk
      cases k with
      | zero => simp only [List.getElem?_cons_zero, Option.some.injEq] at hk; subst hk; exact hn
      | succ k =>
        have := h1 k c (by simpa using hk)
        rwa [show n + 1 + k = n + (k + 1) by omega] at this
    · rw [show n + (c0 :: l0).length = n + 1 + l0.length by simp; omega]
      exact h2

/-- C03, in terms of single increments: with `l` the visited list, after `k < prod(sizes)` increments
the range points to `l[k]` and differs from the end, after `prod(sizes)` it equals the end, and one
more increment throws, changing nothing. -/
theorem C03_increments (sizes : List Nat) (hne : sizes ≠ []) (hpos : ∀ s ∈ sizes, 0 < s) :
    ∃ l, GroupRange.visit sizes = .ok l ∧
      (∀ k c, l[k]? = some c → ∃ r, increments k (GroupRange.start sizes) = .ok r () ∧
        r.deref = .ok c ∧ r.isEqual GroupRange.endOf = false) ∧
      ∃ r, increments sizes.prod (GroupRange.start sizes) = .ok r () ∧
        r.isEqual GroupRange.endOf = true ∧
        increments (sizes.prod + 1) (GroupRange.start sizes) = .throw r := by
  obtain ⟨h1, h2⟩ := increments_enum sizes hne (enum_lex sizes hpos) (by simp)
    (GroupRange.start sizes) 0 rfl
  refine ⟨lex sizes, visit_eq sizes hne hpos, ?_, ⟨none⟩, ?_, rfl, ?_⟩
  · intro k c hk
    refine ⟨⟨some ⟨sizes, c, false⟩⟩, ?_, rfl, rfl⟩
    have := h1 k c hk
    rwa [Nat.zero_add] at this
  · rw [lex_length] at h2
    rwa [Nat.zero_add] at h2
  · rw [lex_length, Nat.zero_add] at h2
    simp only [increments, h2]
    rfl

/-- C03: copying a range during the iteration gives a range at the same combination. -/
theorem C03_copy (r : GroupRange) : r.copy = r := by
  rcases r with ⟨_ | d⟩
  · rfl
  · rfl

/-- C03: two ranges over the same sizes compare equal exactly when they were incremented the same
number of times; in particular a range in the middle of its visit equals its copy, and differs from
every other position and from the end. -/
theorem C03_equal (sizes : List Nat) (hne : sizes ≠ []) (hpos : ∀ s ∈ sizes, 0 < s) (j k : Nat)
    (hj : j ≤ sizes.prod) (hk : k ≤ sizes.prod) :
    ∃ a b, increments j (GroupRange.start sizes) = .ok a () ∧
      increments k (GroupRange.start sizes) = .ok b () ∧ (a.isEqual b = true ↔ j = k) := by
  obtain ⟨h1, h2⟩ := increments_enum sizes hne (enum_lex sizes hpos) (by simp)
    (GroupRange.start sizes) 0 rfl
  simp only [Nat.zero_add, lex_length] at h1 h2
  have at' : ∀ n, n < sizes.prod → ∃ c, (lex sizes)[n]? = some c ∧
      increments n (GroupRange.start sizes) = .ok ⟨some ⟨sizes, c, false⟩⟩ () := by
    intro n hn
    have hl : n < (lex sizes).length := by rw [lex_length]; exact hn
    exact ⟨(lex sizes)[n], List.getElem?_eq_getElem hl, h1 n _ (List.getElem?_eq_getElem hl)⟩
  rcases Nat.lt_or_eq_of_le hj with hj | rfl <;> rcases Nat.lt_or_eq_of_le hk with hk | rfl
  · obtain ⟨c, hc, ec⟩ := at' j hj
    obtain ⟨d, hd, ed⟩ := at' k hk
    refine ⟨_, _, ec, ed, ?_⟩
    simp only [GroupRange.isEqual, RangeData.beq, BEq.rfl, Bool.true_and, beq_iff_eq]
    constructor
    · rintro rfl
      have hl : j < (lex sizes).length := by rw [lex_length]; exact hj
      exact (List.getElem?_inj hl (lex_nodup sizes)).1 (hc.trans hd.symm)
    · rintro rfl
      exact Option.some.inj (hc.symm.trans hd)
  · obtain ⟨c, hc, ec⟩ := at' j hj
    exact ⟨_, _, ec, h2, by simp only [GroupRange.isEqual, Bool.false_eq_true, false_iff]; omega⟩
  · obtain ⟨d, hd, ed⟩ := at' k hk
    exact ⟨_, _, h2, ed, by simp only [GroupRange.isEqual, Bool.false_eq_true, false_iff]; omega⟩
  · exact ⟨_, _, h2, h2, by simp [GroupRange.isEqual]⟩

/-- After two and after four increments over `[2, 3]`: the combinations `[0, 2]` and `[1, 1]`. -/
example : ∃ a b, increments 2 (GroupRange.start [2, 3]) = .ok a () ∧
    increments 4 (GroupRange.start [2, 3]) = .ok b () ∧ a.isEqual b = false := by
  obtain ⟨a, b, h1, h2, h3⟩ := C03_equal [2, 3] (by decide) (by decide) 2 4 (by decide) (by decide)
  exact ⟨a, b, h1, h2, by simpa using h3⟩

example : GroupRange.visit [2, 3] =
    .ok [[0, 0], [0, 1], [0, 2], [1, 0], [1, 1], [1, 2]] := by decide
example : ([2, 3, 4] : List Nat) ≠ [] ∧ ∀ s ∈ ([2, 3, 4] : List Nat), 0 < s := by decide

end EFG
