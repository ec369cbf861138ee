import Verif.Model.Categoric
/-
Iteration of the joint domain of a group: categoric/GroupRange.{h,cpp}.
-/

namespace EFG

/-- `GroupRange::Data` (categoric/GroupRange.h:73-84). -/
structure RangeData where
  sizes : List Nat
  comb : List Nat
  eor : Bool
deriving DecidableEq, Repr

namespace RangeData

/-- `Data::Data` (categoric/GroupRange.cpp:12-18). -/
def make (sizes : List Nat) (eor : Bool) : RangeData :=
  { sizes, comb := List.replicate sizes.length 0, eor }

/-- `Data::operator==` (categoric/GroupRange.h:80-82); the sizes are not compared. -/
def beq (a b : RangeData) : Bool := a.eor == b.eor && a.comb == b.comb

end RangeData

/-- `GroupRange` (categoric/GroupRange.h:40-85): the optional data; `none` is the end. -/
structure GroupRange where
  data : Option RangeData
deriving DecidableEq, Repr

namespace GroupRange

/-- `GroupRange(const std::vector<std::size_t> &)` (categoric/GroupRange.cpp:31-33). -/
def start (sizes : List Nat) : GroupRange := ⟨some (RangeData.make sizes false)⟩

/-- `GroupRange(const Group &)` (categoric/GroupRange.cpp:35-36). -/
def ofGroup (g : Group) : GroupRange := start g.sizes

/-- `GroupRange::end()` (categoric/GroupRange.h:66). -/
def endOf : GroupRange := ⟨none⟩

/-- The copy constructor (categoric/GroupRange.cpp:38-43). -/
def copy (o : GroupRange) : GroupRange :=
  match o.data with
  | none => ⟨none⟩
  | some d => ⟨some { RangeData.make d.sizes d.eor with comb := d.comb }⟩

/-- `operator==` (categoric/GroupRange.h:68): comparison of two `std::optional`. -/
def isEqual (a b : GroupRange) : Bool :=
  match a.data, b.data with
  | none, none => true
  | some x, some y => x.beq y
  | _, _ => false

/-- The loop of `operator++` (categoric/GroupRange.cpp:50-63) at position `k`. The result is the new
combination, or `none` when the carry goes out of the first position. Accesses out of range are
undefined behaviour. -/
def carry (sizes : List Nat) : Nat → List Nat → Res (Option (List Nat))
  | 0, comb =>
    match comb[0]?, sizes[0]? with
    | some c, some s => if c + 1 = s then .ok none else .ok (some (comb.set 0 (c + 1)))
    | _, _ => .ub
  | k + 1, comb =>
    match comb[k + 1]?, sizes[k + 1]? with
    | some c, some s =>
      if c + 1 = s then carry sizes k (comb.set (k + 1) 0)
      else .ok (some (comb.set (k + 1) (c + 1)))
    | _, _ => .ub

/-- `GroupRange::operator++` (categoric/GroupRange.cpp:45-65). With an empty combination the start
position `size() - 1` wraps around and is out of range. -/
def next : M GroupRange Unit := fun r =>
  match r.data with
  | none => .throw r
  | some d =>
    match d.comb.length with
    | 0 => .ub
    | k + 1 =>
      match carry d.sizes k d.comb with
      | .ok none => .ok ⟨none⟩ ()
      | .ok (some c) => .ok ⟨some { d with comb := c }⟩ ()
      | .throw => .throw r
      | .ub => .ub

/-- `operator*` (categoric/GroupRange.h:58); undefined on the end. -/
def deref (r : GroupRange) : Res (List Nat) :=
  match r.data with
  | some d => .ok d.comb
  | none => .ub

/-- `for_each_combination` (categoric/GroupRange.h:96-101): the list of combinations handed to the
predicate, in order. The loop is cut after `fuel` rounds with `ub`; `visit` below gives it one round
more than the size of the joint domain, and `Props/Range.lean` proves that this is never reached. -/
def visitFrom : Nat → GroupRange → Res (List (List Nat))
  | 0, r => if r.isEqual endOf then .ok [] else .ub
  | fuel + 1, r =>
    if r.isEqual endOf then .ok []
    else match r.deref with
      | .ok c =>
        match next r with
        | .ok r' _ =>
          match visitFrom fuel r' with
          | .ok cs => .ok (c :: cs)
          | .throw => .throw
          | .ub => .ub
        | .throw _ => .throw
        | .ub => .ub
      | .throw => .throw
      | .ub => .ub

/-- All the combinations visited by `for_each_combination` on a new range over `sizes`. -/
def visit (sizes : List Nat) : Res (List (List Nat)) :=
  visitFrom (sizes.prod + 1) (start sizes)

end GroupRange
end EFG
