import Verif.Spec.Weight
/-
The joint distribution of several variables given the evidences.
-/

namespace EFG
namespace State
variable {K : Type} [Field K] [LinearOrder K] [FloatParams K]

/-- The hidden variables which are not in `G`. -/
def OthersOf (s : State (Ext K)) (G l : List Var) : Prop := l.Nodup ∧ ∀ w, w ∈ l ↔ s.Hidden w ∧ w ∉ G

/-- The sum of the weights `ω` of the assignments which agree with `a` on `G` and with `e` on the other variables
which are not summed; zero if `a` contradicts the evidence of a variable of `G`. -/
def jointMass (s : State (Ext K)) (ω : Assign → K) (l : List Var) (e : Assign) (G : List Var) (a : Assign) : K :=
  if ∀ x ∈ s.evidences, x.1 ∈ G → a x.1 = x.2 then
    Tree.sumOver Var.size l ω (fun v => if v ∈ G then a v else e v)
  else 0

/-- The hidden variables of `G` which are linked are linked by factors which join variables of `G`. -/
def Joined (s : State (Ext K)) (G : List Var) : Prop :=
  ∀ u ∈ G, ∀ w ∈ G, s.Linked u w →
    Relation.ReflTransGen (fun x y => x ∈ G ∧ y ∈ G ∧ s.Hidden x ∧ s.Hidden y ∧ s.Joins x y) u w

/-- A division of the variables `G` in pieces: no factor joins hidden variables of two pieces, and those of a piece
which are linked are linked by factors which join variables of the piece. -/
structure Pieces (s : State (Ext K)) (G : List Var) (Ps : List (List Var)) : Prop where
  all : Ps.flatten.Perm G
  joined : ∀ P ∈ Ps, s.Joined P
  apart : Ps.Pairwise (fun P Q => ∀ u ∈ P, ∀ w ∈ Q, s.Hidden u → s.Hidden w → ¬s.Joins u w)

end State
end EFG
