import Mathlib.Data.List.Nodup
import Verif.Spec.Basic
import Verif.Lemmas.Range
/- Combinations as assignments. -/

namespace EFG

/-- The assignment described by a combination of the listed variables. -/
def assignOf (vars : List Var) (comb : List Nat) : Assign := fun v => comb.getD (vars.idxOf v) 0

theorem map_assignOf {vars : List Var} {comb : List Nat} (hn : vars.Nodup)
    (hl : comb.length = vars.length) : vars.map (assignOf vars comb) = comb := by
  apply List.ext_getElem
  · simp [hl]
  · intro i h1 h2
    simp only [List.getElem_map, assignOf]
    have hi : i < vars.length := by simpa using h1
    rw [hn.idxOf_getElem i hi]
    simp [h2]

theorem valid_map_iff {vars : List Var} {a : Assign} :
    Valid (vars.map Var.size) (vars.map a) ↔ InDom vars a := by
  unfold Valid InDom
  rw [List.forall₂_map_left_iff, List.forall₂_map_right_iff, List.forall₂_same]

theorem inDom_assignOf {vars : List Var} {comb : List Nat} (hn : vars.Nodup)
    (hv : Valid (vars.map Var.size) comb) : InDom vars (assignOf vars comb) := by
  rw [← valid_map_iff, map_assignOf hn (by simpa using hv.length)]
  exact hv

/-- The assignments of the listed variables, as combinations, are the lexicographic list. -/
theorem exists_assign {vars : List Var} {comb : List Nat} (hn : vars.Nodup)
    (hv : Valid (vars.map Var.size) comb) : ∃ a : Assign, InDom vars a ∧ vars.map a = comb :=
  ⟨assignOf vars comb, inDom_assignOf hn hv, map_assignOf hn (by simpa using hv.length)⟩

end EFG
