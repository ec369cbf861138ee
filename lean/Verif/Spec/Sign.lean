import Verif.Spec.Exec
/-
Numbers which are not negative.
-/

namespace EFG

/-- Not smaller than 0, or NaN. -/
def NotNeg {F : Type} [Arith F] (x : F) : Prop := Arith.lt x Arith.zero = false

/-- An arithmetic in which what is not negative stays so under the operations the library applies to images. -/
class Arith.Signed (F : Type) [Arith F] : Prop where
  zero : NotNeg (Arith.zero : F)
  one : NotNeg (Arith.one : F)
  fltMin : NotNeg (Arith.fltMin : F)
  ofNat : ∀ n : Nat, NotNeg (Arith.ofNat n : F)
  add : ∀ x y : F, NotNeg x → NotNeg y → NotNeg (Arith.add x y)
  mul : ∀ x y : F, NotNeg x → NotNeg y → NotNeg (Arith.mul x y)
  div : ∀ x y : F, NotNeg x → NotNeg y → NotNeg (Arith.div x y)
  exp : ∀ x : F, NotNeg (Arith.exp x)

/-- The images stored in a function are not negative. -/
def Fn.NotNeg {F : Type} [Arith F] (f : Fn F) : Prop :=
  match f.data with
  | .sparse c => ∀ e ∈ c, EFG.NotNeg e.2
  | .dense v => ∀ x ∈ v, EFG.NotNeg x

/-- A list of numbers which is a probability distribution. -/
def IsDistribution {K : Type} [Field K] [LinearOrder K] (ps : List (Ext K)) : Prop :=
  ∃ qs : List K, ps = qs.map Ext.val ∧ (∀ q ∈ qs, 0 ≤ q ∧ q ≤ 1) ∧ qs.sum = 1

end EFG
