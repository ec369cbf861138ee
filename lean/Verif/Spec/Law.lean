import Verif.Spec.Weight
/-
Two models which describe the same distribution.
-/

namespace EFG
namespace State
variable {K : Type} [Field K] [LinearOrder K]

/-- The two models have the same variables and evidences, and the product of the factors `ψ` of the second is the one
of the factors `φ` of the first, times a constant. -/
structure SameLaw (s t : State (Ext K)) (φ ψ : Nat → Assign → K) : Prop where
  vars : ∀ v, v ∈ t.vars ↔ v ∈ s.vars
  evidences : ∀ x, x ∈ t.evidences ↔ x ∈ s.evidences
  weight : ∃ c, 0 < c ∧ ∀ a, s.Agrees a → t.weight ψ a = c * s.weight φ a

end State
end EFG
