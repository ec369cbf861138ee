import Verif.Spec.Graph
import Verif.Spec.Exec
/-
What the report on a propagation must say about a model.
-/

namespace EFG.State
variable {F : Type}

/-- The lists are the groups of hidden variables which are linked by factors, each variable listed once. -/
structure Components (s : State F) (parts : List (List Var)) : Prop where
  nodup : parts.flatten.Nodup
  hidden : ∀ v, v ∈ parts.flatten ↔ s.Hidden v
  ne : ∀ l ∈ parts, l ≠ []
  linked : ∀ u v, s.Hidden u → ((∃ l ∈ parts, u ∈ l ∧ v ∈ l) ↔ s.Linked u v)

/-- A report with the size of every group of linked hidden variables and whether it is free of cycles. With no cycles
the propagation is reported as completed. -/
def DescribedBy (s : State F) (r : PropResult) : Prop :=
  ∃ parts, s.Components parts ∧
    List.Forall₂ (fun (e : Bool × Nat) (l : List Var) => e.2 = l.length ∧ (e.1 = true ↔ s.NoCycle l)) r.structures parts ∧
    ((∀ l ∈ parts, s.NoCycle l) → r.completed = true)

end EFG.State

namespace EFG.GOp
variable {F : Type}

/-- The propagation which an operation needs. -/
def needs : GOp F → Option Kind
  | .marginal _ _ _ _ | .marginalByName _ _ _ _ | .joint _ _ _ _ _ | .gradient _ _ _ _ => some .sum
  | .map _ _ _ _ | .hiddenSetMap _ _ _ => some .map
  | _ => none

/-- The operation changes the factors, the weights or the evidences of the model. -/
def Changes : GOp F → Prop
  | .addConst _ | .copyConst _ | .addTunable _ _ | .copyTunable _ _ | .setWeights _ | .setEvidence _ _ _
  | .setEvidenceByName _ _ _ | .removeEvidence _ _ | .removeEvidenceByName _ _ => True
  | _ => False

end EFG.GOp
