import Mathlib.Algebra.Order.Field.Basic
import Mathlib.Algebra.Order.Field.Rat
import Mathlib.Tactic.Linarith
import Mathlib.Tactic.NormNum
import Verif.Model.Outcome
/-
Arithmetic.

The library computes with `float`. The model is written over `Arith F`, which lists the operations
on `float` the code uses, and states no law about them. `Ext K` is the instance in which the laws
are available: the elements of a linearly ordered field plus a NaN.
-/

namespace EFG

/-- The operations on `float` used by the library. No law is assumed. -/
class Arith (F : Type u) where
  zero : F
  one : F
  add : F → F → F
  sub : F → F → F
  mul : F → F → F
  div : F → F → F
  /-- `std::abs` -/
  abs : F → F
  /-- `expf` -/
  exp : F → F
  /-- `operator<` -/
  lt : F → F → Bool
  /-- `operator==` -/
  eq : F → F → Bool
  /-- conversion from `std::size_t` -/
  ofNat : Nat → F
  /-- `std::numeric_limits<float>::min()`, the smallest positive normal number -/
  fltMin : F
  /-- `std::numeric_limits<float>::max()` -/
  fltMax : F
  /-- `DEFAULT_VARIATION_TOLLERANCE`, structure/BaselineLoopyPropagator.cpp:66 -/
  tol : F

namespace Arith
variable {F : Type u} [Arith F]

/-- `std::max<float>(a, b)`: `(a < b) ? b : a`. -/
def max2 (a b : F) : F := if lt a b then b else a

/-- `operator<=`: false if one of the two is NaN. -/
def le (a b : F) : Bool := lt a b || eq a b

/-- Running maximum of `std::max_element`: the result changes only on a strictly larger element. -/
def maxFrom (m : F) : List F → F
  | [] => m
  | x :: l => maxFrom (if lt m x then x else m) l

/-- `*std::max_element(begin, end)`; dereferencing the end of an empty range is undefined. -/
def maxElement : List F → Res F
  | [] => .ub
  | x :: l => .ok (maxFrom x l)

/-- Left to right sum starting from `0.f`. -/
def sum (l : List F) : F := l.foldl add zero

end Arith

/-- Elements of `K`, or NaN. -/
inductive Ext (K : Type u) where
  | val (x : K)
  | nan
deriving DecidableEq, Repr

/-- The parameters of the exact arithmetic: a strictly positive function standing for the
exponential, and the two limits and the tolerance used by the code. -/
class FloatParams (K : Type u) [Field K] [LinearOrder K] where
  expK : K → K
  expK_pos : ∀ x, 0 < expK x
  minK : K
  minK_pos : 0 < minK
  maxK : K
  tolK : K
  tolK_pos : 0 < tolK
  tolK_lt_maxK : tolK < maxK

namespace Ext
variable {K : Type u}

def lift2 (f : K → K → K) : Ext K → Ext K → Ext K
  | val a, val b => val (f a b)
  | _, _ => nan

def lift1 (f : K → K) : Ext K → Ext K
  | val a => val (f a)
  | nan => nan

def cmp (f : K → K → Bool) : Ext K → Ext K → Bool
  | val a, val b => f a b
  | _, _ => false

/-- Division. Dividing by zero gives NaN here; in C++ it gives an infinity or NaN. The code divides
by a possibly zero number in two places only, and both then multiply zeros by the quotient, which is
NaN (structure/SpecialFactors.cpp:55-58, trainable/tuners/BinaryTuner.cpp:52-58). -/
def div [Field K] [DecidableEq K] : Ext K → Ext K → Ext K
  | val a, val b => if b = 0 then nan else val (a / b)
  | _, _ => nan

instance [Field K] [LinearOrder K] [FloatParams K] : Arith (Ext K) where
  zero := val 0
  one := val 1
  add := lift2 (· + ·)
  sub := lift2 (· - ·)
  mul := lift2 (· * ·)
  div := div
  abs := lift1 (fun x => |x|)
  exp := lift1 FloatParams.expK
  lt := cmp (fun a b => decide (a < b))
  eq := cmp (fun a b => decide (a = b))
  ofNat n := val (n : K)
  fltMin := val FloatParams.minK
  fltMax := val FloatParams.maxK
  tol := val FloatParams.tolK

end Ext

/-- Rational arithmetic, used in the concrete examples. `1 + x²` stands for the exponential. -/
instance ratParams : FloatParams ℚ where
  expK x := 1 + x * x
  expK_pos x := by nlinarith [mul_self_nonneg x]
  minK := 1 / 1000000
  minK_pos := by norm_num
  maxK := 1000000
  tolK := 1 / 1000
  tolK_pos := by norm_num
  tolK_lt_maxK := by norm_num

/-- IEEE single precision is an instance too: theorems over an arbitrary `Arith` apply to it. -/
instance float32Arith : Arith Float32 where
  zero := 0
  one := 1
  add := (· + ·)
  sub := (· - ·)
  mul := (· * ·)
  div := (· / ·)
  abs := Float32.abs
  exp := Float32.exp
  lt a b := decide (a < b)
  eq := Float32.beq
  ofNat := Float32.ofNat
  fltMin := Float32.ofBits 0x00800000
  fltMax := Float32.ofBits 0x7f7fffff
  tol := 0.001

end EFG
