import Verif.Model.Factor
/-
The heap of function objects. A factor object holds a `FunctionPtr` (a `shared_ptr`,
factor/Function.h:136, factor/Immutable.h:65, factor/Mutable.h:50) to its function; the pointer is
modelled by the position of the function in the heap. Functions are never freed in the model, as a
`shared_ptr` keeps its object alive.
-/

namespace EFG

/-- Addresses are positions. -/
abbrev Heap (F : Type u) := List (Fn F)

namespace Heap
variable {F : Type u} [Arith F]

/-- `std::make_shared<...>`. -/
def alloc (h : Heap F) (f : Fn F) : Heap F × Nat := (h ++ [f], h.length)

/-- Following a pointer. -/
def get (h : Heap F) (p : Nat) : Res (Fn F) := Res.ofOption h[p]?

/-- The public mutations of factors: `Mutable::set` (factor/Mutable.cpp:18-32),
`Mutable::clear` and `Mutable::replaceVariables` (factor/Mutable.h:33-40),
`FactorExponential::setWeight` (factor/FactorExponential.cpp:46-48). -/
inductive Op (F : Type u) where
  | set (comb : List Nat) (value : F)
  | clear
  | replaceVariables (vars : List Var)
  | setWeight (w : F)

/-- Effect of a mutation on the function it acts on. -/
def applyOp (op : Op F) (f : Fn F) : Out (Fn F) Unit :=
  match op with
  | .set comb value => Fn.mutableSet comb value f
  | .clear => .ok f.clear ()
  | .replaceVariables vars => Fn.replaceVariables vars f
  | .setWeight w => .ok (f.setWeight w) ()

/-- A mutation called on the factor holding the pointer `p`. -/
def mutate (p : Nat) (op : Op F) : M (Heap F) Unit := fun h =>
  match h[p]? with
  | some f =>
    match applyOp op f with
    | .ok f' _ => .ok (h.set p f') ()
    | .throw f' => .throw (h.set p f')
    | .ub => .ub
  | none => .ub

/-- `Factor::Factor(const Factor &)` (factor/Factor.cpp:19-21) on the factor holding `p`; returns the
pointer held by the new factor. -/
def copyFactor (p : Nat) : M (Heap F) Nat := fun h =>
  match h[p]? with
  | some f => .ok (h ++ [f.copy]) h.length
  | none => .ub

end Heap
end EFG
