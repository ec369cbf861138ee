import Verif.Lemmas.Exact
/-
The product of all the accepted factors, arranged along the variables.
-/

set_option linter.unusedSectionVars false

namespace EFG
namespace State

section lawfree
variable {F : Type} [Arith F]

/-- The factors which join the variables of a list. -/
def edges (s : State F) : List Var → List Nat
  | [] => []
  | u :: V => V.filterMap (s.lnk u) ++ edges s V

theorem mem_edges {s : State F} {V : List Var} {p : Nat} (h : p ∈ s.edges V) :
    ∃ u ∈ V, ∃ w ∈ V, s.lnk u w = some p := by
  induction V with
  | nil => simp [edges] at h
  | cons u V ih =>
    rw [edges, List.mem_append, List.mem_filterMap] at h
    rcases h with ⟨w, hw, h⟩ | h
    · exact ⟨u, by simp, w, by simp [hw], h⟩
    · obtain ⟨x, hx, y, hy, h⟩ := ih h
      exact ⟨x, by simp [hx], y, by simp [hy], h⟩

theorem Net.edges_mem {s : State F} (hs : Net s) {V : List Var} {u w : Var} {p : Nat} (hu : u ∈ V) (hw : w ∈ V)
    (h : s.lnk u w = some p) : p ∈ s.edges V := by
  have hne := (hs.memL _ _ _ h).2.2
  induction V with
  | nil => simp at hu
  | cons x V ih =>
    rw [edges, List.mem_append, List.mem_filterMap]
    rcases List.mem_cons.1 hu with rfl | hu'
    · rcases List.mem_cons.1 hw with rfl | hw'
      · exact absurd rfl hne
      · exact Or.inl ⟨w, hw', h⟩
    · rcases List.mem_cons.1 hw with rfl | hw'
      · exact Or.inl ⟨u, hu', by rw [hs.symL]; exact h⟩
      · exact Or.inr (ih hu' hw')

theorem Core.lnk_inj {s : State F} (hs : Core s) {u w x y : Var} {p : Nat} (h : s.lnk u w = some p)
    (h' : s.lnk x y = some p) : (u = x ∧ w = y) ∨ (u = y ∧ w = x) := by
  obtain ⟨_, f, hf, hb⟩ := hs.link _ _ _ h
  obtain ⟨_, g, hg, hb'⟩ := hs.link _ _ _ h'
  rw [hf] at hg
  cases hg
  rcases hb.vars with h1 | h1 <;> rcases hb'.vars with h2 | h2 <;> rw [h1] at h2 <;>
    simp only [List.cons.injEq, and_true] at h2 <;> simp_all

theorem Core.edges_nodup {s : State F} (hs : Core s) {V : List Var} (hV : V.Nodup) : (s.edges V).Nodup := by
  induction V with
  | nil => simp [edges]
  | cons u V ih =>
    obtain ⟨hu, hV⟩ := List.nodup_cons.1 hV
    rw [edges, List.nodup_append]
    refine ⟨?_, ih hV, ?_⟩
    · refine hV.filterMap ?_
      intro w w' p hw hw'
      rcases hs.lnk_inj hw hw' with ⟨_, h⟩ | ⟨h1, h2⟩
      · exact h
      · rw [h2, h1]
    · intro p hp p' hp' heq
      subst heq
      obtain ⟨w, hw, h1⟩ := List.mem_filterMap.1 hp
      obtain ⟨x, hx, y, hy, h2⟩ := mem_edges hp'
      rcases hs.lnk_inj h1 h2 with ⟨h, _⟩ | ⟨h, _⟩
      · exact hu (h ▸ hx)
      · exact hu (h ▸ hy)

/-- Every accepted factor belongs to one variable or joins two. -/
theorem Core.factors_perm {s : State F} (hs : Core s) : s.factors.Perm (s.vars.flatMap s.una ++ s.edges s.vars) := by
  have hvn := hs.net.distinct.nodup
  rw [List.perm_ext_iff_of_nodup hs.facNodup]
  · intro p
    rw [List.mem_append, List.mem_flatMap]
    constructor
    · intro hp
      obtain ⟨f, _, h⟩ := hs.reg p hp
      rcases h with ⟨v, _, h⟩ | ⟨u, v, _, h⟩
      · exact Or.inl ⟨v, (hs.unary v p h).2.1, h⟩
      · have := hs.net.memL _ _ _ h
        exact Or.inr (hs.net.edges_mem this.1 this.2.1 h)
    · rintro (⟨v, _, h⟩ | h)
      · exact (hs.unary v p h).1
      · obtain ⟨u, _, w, _, h⟩ := mem_edges h
        exact (hs.link _ _ _ h).1
  · rw [List.nodup_append]
    refine ⟨?_, hs.edges_nodup hvn, ?_⟩
    · rw [List.nodup_flatMap]
      refine ⟨fun v _ => hs.unaNodup v, hvn.imp ?_⟩
      intro u w huw p hp hp'
      obtain ⟨_, _, f, hf, h1⟩ := hs.unary u p hp
      obtain ⟨_, _, g, hg, h2⟩ := hs.unary w p hp'
      rw [hf] at hg
      cases hg
      have := h1.vars.symm.trans h2.vars
      simp at this
      exact huw this
    · intro p hp p' hp' heq
      subst heq
      obtain ⟨v, _, h⟩ := List.mem_flatMap.1 hp
      obtain ⟨u, _, w, _, h'⟩ := mem_edges hp'
      obtain ⟨_, _, f, hf, h1⟩ := hs.unary v p h
      obtain ⟨_, g, hg, h2⟩ := hs.link _ _ _ h'
      rw [hf] at hg
      cases hg
      have := h1.vars
      rcases h2.vars with h3 | h3 <;> rw [h3] at this <;> simp at this

/-- The product of a value for every factor. -/
theorem Core.prod_factors {s : State F} (hs : Core s) {M : Type u} [CommSemiring M] (g : Nat → M) (a : Var → Nat) :
    (s.factors.map g).prod = Tree.wgt (fun u _ => ((s.una u).map g).prod)
      (fun u w _ _ => match s.lnk u w with | some p => g p | none => 1) s.vars a := by
  rw [(hs.factors_perm.map g).prod_eq]
  generalize s.vars = V
  induction V with
  | nil => simp [edges, Tree.wgt]
  | cons u V ih =>
    have hfm : ∀ l : List Var, ((l.filterMap (s.lnk u)).map g).prod =
        (l.map (fun w => match s.lnk u w with | some p => g p | none => 1)).prod := by
      intro l
      induction l with
      | nil => rfl
      | cons w l ihl =>
        cases h : s.lnk u w with
        | none => simp [h, ihl]
        | some p => simp [h, ihl]
    simp only [Tree.wgt, edges, List.flatMap_cons, List.map_append, List.prod_append, hfm]
    rw [← ih]
    simp only [List.map_append, List.prod_append]
    ring

end lawfree

theorem _root_.EFG.Tree.wgt_congr {α : Type v} [DecidableEq α] {R : Type u} [CommSemiring R] {ψ ψ' : α → Nat → R}
    {E E' : α → α → Nat → Nat → R} {V : List α} {a : α → Nat} (hV : V.Nodup) (h1 : ∀ u ∈ V, ψ u (a u) = ψ' u (a u))
    (h2 : ∀ u ∈ V, ∀ w ∈ V, u ≠ w → E u w (a u) (a w) = E' u w (a u) (a w)) :
    Tree.wgt ψ E V a = Tree.wgt ψ' E' V a := by
  induction V with
  | nil => rfl
  | cons u V ih =>
    obtain ⟨hu, hV⟩ := List.nodup_cons.1 hV
    simp only [Tree.wgt]
    rw [h1 u (by simp), ih hV (fun w hw => h1 w (by simp [hw])) (fun x hx y hy => h2 x (by simp [hx]) y (by simp [hy])),
      List.map_congr_left (f := fun w => E u w (a u) (a w)) (g := fun w => E' u w (a u) (a w))
        (fun w hw => h2 u (by simp) w (by simp [hw]) (fun h => hu (h ▸ hw)))]

/-- The weight of some nodes, split in two parts: the first part absorbs what joins it to the second. -/
theorem _root_.EFG.Tree.wgt_append {α : Type v} [DecidableEq α] {R : Type u} [CommSemiring R] (ψ : α → Nat → R)
    (E : α → α → Nat → Nat → R) (H O : List α) (a : α → Nat) :
    Tree.wgt ψ E (H ++ O) a =
      Tree.wgt (fun u i => ψ u i * (O.map (fun w => E u w i (a w))).prod) E H a * Tree.wgt ψ E O a := by
  induction H with
  | nil => simp [Tree.wgt]
  | cons u H ih =>
    simp only [List.cons_append, Tree.wgt, ih, List.map_append, List.prod_append]
    ring

end State
end EFG
