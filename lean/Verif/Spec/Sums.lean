import Mathlib.Algebra.BigOperators.Group.Finset.Basic
/- Sums over all the values of some variables, used for stating what the marginals are. -/

namespace EFG.Tree

/-- The sum of `f` over all the assignments which give to every variable `u` of the list a value below
`n u` and agree with `a` elsewhere. -/
def sumOver {α : Type v} [DecidableEq α] {R : Type u} [AddCommMonoid R] (n : α → Nat) :
    List α → ((α → Nat) → R) → (α → Nat) → R
  | [], f, a => f a
  | u :: W, f, a => ∑ i ∈ Finset.range (n u), sumOver n W f (Function.update a u i)

end EFG.Tree
