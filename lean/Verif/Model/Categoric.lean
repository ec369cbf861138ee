import Verif.Model.Outcome
/-
Variables and groups: categoric/Variable.{h,cpp}, categoric/Group.{h,cpp}, misc/SmartSet.h.
-/

namespace EFG

/-- A `VariablePtr` (categoric/Variable.h:39): the address of the pointed object together with the
immutable content of the object. Equality of `Var` is equality of pointers: two pointers to one
object have equal content, and distinct objects have distinct addresses. Null pointers are not
modelled. -/
structure Var where
  addr : Nat
  name : String
  size : Nat
deriving DecidableEq, Repr

namespace Var

/-- `*a == *b`: `Variable::operator==` (categoric/Variable.h:30-32), used by `Comparator<Variable>`
(misc/SmartPointerUtils.h:23-28) in every `SmartSet` and `SmartMap`. -/
def eqv (a b : Var) : Bool := a.name == b.name && a.size == b.size

end Var

/-- `make_variable` (categoric/Variable.cpp:20-22) with the checks of `Variable::Variable`
(categoric/Variable.cpp:12-18). The address chosen by the allocation is a parameter. -/
def makeVariable (addr size : Nat) (name : String) : Res Var :=
  if name.length = 0 then .throw
  else if size = 0 then .throw
  else .ok { addr, name, size }

/-- A `VariablesSet` (categoric/Group.h:18, misc/SmartSet.h): variables which are pairwise different
by value. The list order stands for the iteration order. -/
abbrev VarSet := List Var

namespace VarSet

/-- `find(v) != end()`. -/
def mem (s : VarSet) (v : Var) : Bool := s.any (fun w => w.eqv v)

/-- `emplace(v)`: keeps the element already present when there is an equal one. -/
def emplace (s : VarSet) (v : Var) : VarSet := if mem s v then s else s ++ [v]

/-- `erase(find(v))` when found. -/
def erase (s : VarSet) (v : Var) : VarSet := s.filter (fun w => !w.eqv v)

/-- `to_vars_set` (categoric/Group.cpp:12-18). -/
def ofSoup (soup : List Var) : VarSet := soup.foldl emplace []

/-- `operator==` of `std::unordered_set`: same number of elements and every element of one is found
in the other; the elements themselves are compared with `operator==` of `shared_ptr`, i.e. by
address. -/
def same (a b : VarSet) : Bool := a.length == b.length && a.all (fun v => b.contains v)

/-- `operator-=` (categoric/Group.cpp:68-76). -/
def remove (s t : VarSet) : VarSet := t.foldl erase s

/-- `get_complementary` (categoric/Group.cpp:78-83). -/
def complementary (entire subset : VarSet) : VarSet := remove entire subset

end VarSet

/-- `Group` (categoric/Group.h:26-90). -/
structure Group where
  group : List Var
  sorted : VarSet
deriving DecidableEq, Repr

namespace Group

/-- The protected default constructor (categoric/Group.h:86). -/
def empty : Group := { group := [], sorted := [] }

/-- `Group::Group(const VariablesSoup &)` (categoric/Group.cpp:20-28). -/
def ofSoup (soup : List Var) : Res Group :=
  if soup.isEmpty then .throw
  else if soup.length ≠ (VarSet.ofSoup soup).length then .throw
  else .ok { group := soup, sorted := VarSet.ofSoup soup }

/-- `Group::Group(const VariablePtr &)` (categoric/Group.cpp:30-33). -/
def single (v : Var) : Group := { group := [v], sorted := VarSet.emplace [] v }

/-- `Group::add` (categoric/Group.cpp:35-44). -/
def add (v : Var) : M Group Unit := fun g =>
  if VarSet.mem g.sorted v then .throw g
  else .ok { group := g.group ++ [v], sorted := VarSet.emplace g.sorted v } ()

/-- The variadic constructor (categoric/Group.h:47-52): adds the variables one after the other to an
empty group. -/
def ofVars (a b : Var) (others : List Var) : Res Group :=
  Res.foldList
    (fun g v => match add v g with
      | .ok g' _ => .ok g'
      | .throw _ => .throw
      | .ub => .ub) empty (a :: b :: others)

/-- The loop of `Group::replaceVariables` (categoric/Group.cpp:51-55): for every position of the new
list compares the sizes, reading `group[k]` without a bound check. -/
def replaceCheck : List Var → List Var → Res Unit
  | [], _ => .ok ()
  | _ :: _, [] => .ub
  | n :: ns, o :: os => if n.size ≠ o.size then .throw else replaceCheck ns os

/-- `Group::replaceVariables` (categoric/Group.cpp:46-58). -/
def replaceVariables (newVars : List Var) : M Group Unit := fun g =>
  let newSorted := VarSet.ofSoup newVars
  if newSorted.length ≠ g.group.length then .throw g
  else match replaceCheck newVars g.group with
    | .ok _ => .ok { group := newVars, sorted := newSorted } ()
    | .throw => .throw g
    | .ub => .ub

/-- `Group::size` (categoric/Group.cpp:60-66). -/
def size (g : Group) : Nat := g.group.foldl (fun s v => s * v.size) 1

/-- Sizes of the variables, `get_sizes` (categoric/GroupRange.cpp:21-28) and the loop of `make_info`
(factor/Function.cpp:32-34). -/
def sizes (g : Group) : List Nat := g.group.map Var.size

end Group
end EFG
