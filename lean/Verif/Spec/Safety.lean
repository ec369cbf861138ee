import Verif.Spec.Prudent
import Verif.Spec.Basic
/-
The operands with which an operation is defined.
-/

namespace EFG
namespace GOp
variable {F : Type} [Arith F]

/-- The operands are those the documentation asks for, where the library does not check them: the
pointers are those of factors which exist, the new variables of a factor differ from each other, at
most one variable of a joint distribution is observed, and the samples of a training set give to
each variable of the model one of its values. -/
def Sensible (s : State F) : GOp F → Prop
  | .mutate p (.replaceVariables vs) => p < s.heap.length ∧ Distinct vs
  | .mutate p _ => p < s.heap.length
  | .addConst (some p) | .addTunable (some p) _ | .copyConst p | .copyTunable p _ => p < s.heap.length
  | .joint _ _ _ g _ => ∀ u ∈ g.group, ∀ v ∈ g.group, ∀ u' v', s.Observes u' → s.Observes v' →
      (u'.name = u.name ∧ u'.size = u.size) → (v'.name = v.name ∧ v'.size = v.size) → u = v
  | .gradient _ _ samples _ => ∀ c ∈ samples, EFG.Valid (s.vars.map Var.size) c
  | _ => True

/-- Executing operations one after the other, catching what they throw. -/
def attempt (s : State F) : List (GOp F) → Res (State F)
  | [] => .ok s
  | op :: ops =>
    match op.exec s with
    | .ok s' _ => attempt s' ops
    | .throw s' => attempt s' ops
    | .ub => .ub

/-- Every operation is given sensible operands in the state in which it is executed, is prudent, and no removal of
several evidences throws. -/
def Careful (s : State F) : List (GOp F) → Prop
  | [] => True
  | op :: ops => op.Valid s ∧ Prudent s op ∧ op.Sensible s ∧ (∀ s', op.exec s = .ok s' () → Careful s' ops) ∧
    (∀ s', op.exec s = .throw s' → op.RemovesMany = false ∧ Careful s' ops)

end GOp
end EFG
