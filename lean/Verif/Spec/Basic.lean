import Mathlib.Data.List.Forall2
import Verif.Model.Categoric
/- Small specifications shared by the properties. They do not use the functions of the model. -/

namespace EFG

/-- A combination is valid when it has one entry per size, each smaller than the size. -/
def Valid (sizes comb : List Nat) : Prop := List.Forall₂ (fun s c => c < s) sizes comb

/-- Lexicographic order on combinations. -/
def LexLt (a b : List Nat) : Prop := List.Lex (· < ·) a b

/-- Pairwise different by value (name and size). -/
def Distinct (l : List Var) : Prop := l.Pairwise (fun a b => ¬ (a.name = b.name ∧ a.size = b.size))

/-- A variable that `make_variable` can return. -/
def Var.WF (v : Var) : Prop := v.name ≠ "" ∧ 0 < v.size

instance (v : Var) : Decidable v.WF := by unfold Var.WF; infer_instance

/-- An assignment of values to variables. -/
abbrev Assign := Var → Nat

/-- The values given to the listed variables are in their domains. -/
def InDom (vars : List Var) (a : Assign) : Prop := ∀ v ∈ vars, a v < v.size

instance (vars : List Var) (a : Assign) : Decidable (InDom vars a) := by
  unfold InDom; infer_instance

end EFG
