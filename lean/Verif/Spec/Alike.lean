import Verif.Spec.Weight
/-
Two models with the same factors, variables and evidences, whatever happened to them before.
-/

namespace EFG
namespace State
variable {F : Type}

/-- `π` maps the factors of `s` one to one to factors of `t` which have the same variables, images and
weights, and the two models have the same variables and the same evidences. The order of the insertions,
the cached values and the factors which were not inserted may differ. -/
structure Alike (π : Nat → Nat) (s t : State F) : Prop where
  factors : t.factors.Perm (s.factors.map π)
  functions : ∀ p ∈ s.factors, t.heap[π p]? = s.heap[p]?
  vars : ∀ v, v ∈ t.vars ↔ v ∈ s.vars
  evidence : ∀ v k, (v, k) ∈ t.evidences ↔ (v, k) ∈ s.evidences

end State
end EFG
