import Verif.Spec.Weight
/-
The images of the factors after one of them was changed.
-/

namespace EFG
namespace State
variable {K : Type} [Field K] [LinearOrder K] [FloatParams K]

/-- The image of a factor with this weight where the value `x` is stored: `x` itself, or its weighted exponential. -/
inductive ImageOf : Option (Ext K) → K → K → Prop
  | plain (x : K) : ImageOf none x x
  | weighted (w x : K) : ImageOf (some (.val w)) x (FloatParams.expK (w * x))

/-- The images `φ`, except that the factor `p`, whose variables are `l`, has the image `y` at the values `c`. -/
def overwrite (φ : Nat → Assign → K) (p : Nat) (l : List Var) (c : List Nat) (y : K) (q : Nat) (a : Assign) : K :=
  if q = p ∧ l.map a = c then y else φ q a

/-- The images `φ`, except that the factor `p` has the image `y` everywhere. -/
def erase (φ : Nat → Assign → K) (p : Nat) (y : K) (q : Nat) (a : Assign) : K := if q = p then y else φ q a

end State
end EFG
