import Verif.Spec.Prudent
import Verif.Spec.Models
/-
Executions of a conditional random field which stay clear of the defects recorded in DESIGN.md.
-/

namespace EFG
variable {F : Type} [Arith F]

/-- The number of threads an operation is made with. -/
def CrfOp.threads : CrfOp F → Option Nat
  | .setEvidences _ _ _ => none
  | .gradient _ _ _ _ n => some n
  | .trainSet _ _ _ _ _ _ _ n => some n
  | .shared op => op.threads

/-- If the factor has one variable, then the product of the unary factors of that variable is not cached or the
variable is joined to an observed one: the evidences, when they are set again, renew it. -/
def State.Renewable (s : State F) (p : Nat) : Prop :=
  ∀ f v n, s.heap[p]? = some f → f.vars.group = [v] → s.node? v = some n →
    n.merged = none ∨ ∃ w, s.Joins v w ∧ s.Observes w

/-- An operation on a conditional random field after which the gradient is not computed from stale values: at
least one thread is used, and the factors of the model and their weights are changed only if the products which
depend on them are not cached or are renewed with the evidences. The weights are only changed by the model. -/
structure CrfPrudent (s : State F) (op : CrfOp F) : Prop where
  threads : op.threads ≠ some 0
  values : ∀ p o, op = .shared (.mutate p o) → p ∈ s.factors → s.Renewable p
  own : ∀ p w, op = .shared (.mutate p (.setWeight w)) → p ∉ s.factors
  weights : ∀ ws, op = .shared (.setWeights ws) → ∀ t ∈ s.tuners, ∀ b ∈ t, s.Renewable b.factor

end EFG
