import Verif.Model.Arith
/-
Arithmetic with rounding: every operation of the library computes the exact result and rounds it, as the operations on
`float` do.
-/

namespace EFG

/-- What the arithmetic makes of an exact result. -/
class Rounding (K : Type u) where
  round : K → K

/-- The operations on `float`, with the results rounded. The comparisons and the sign are exact, and so are 0 and 1.
As in `Ext.div`, dividing by zero gives NaN. -/
@[reducible] def Ext.rounded (K : Type u) [Field K] [LinearOrder K] [FloatParams K] [Rounding K] : Arith (Ext K) where
  zero := .val 0
  one := .val 1
  add := lift2 (fun a b => Rounding.round (a + b))
  sub := lift2 (fun a b => Rounding.round (a - b))
  mul := lift2 (fun a b => Rounding.round (a * b))
  div
    | .val a, .val b => if b = 0 then .nan else .val (Rounding.round (a / b))
    | _, _ => .nan
  abs := lift1 (fun x => |x|)
  exp := lift1 (fun x => Rounding.round (FloatParams.expK x))
  lt := cmp (fun a b => decide (a < b))
  eq := cmp (fun a b => decide (a = b))
  ofNat n := .val (Rounding.round (n : K))
  fltMin := .val FloatParams.minK
  fltMax := .val FloatParams.maxK
  tol := .val FloatParams.tolK

end EFG
