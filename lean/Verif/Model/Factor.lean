import Verif.Model.Function
/-
Factors: factor/Factor.cpp and factor/FactorExponential.cpp. A factor is identified with the function
it wraps; sharing of the function between C++ objects is modelled by the heap in `Model/Heap.lean`.
-/

namespace EFG
namespace Fn
variable {F : Type u} [Arith F]

/-- `Factor::Factor(const Factor &)` (factor/Factor.cpp:19-21): a new function over the same variables,
holding a copy of the images. The new function is a plain one. -/
def copy (o : Fn F) : Fn F := cloneImages (ofGroup o.vars) o

/-- Sets a list of entries one after the other. -/
def setAll (f : Fn F) (es : List (List Nat × F)) : Res (Fn F) :=
  Res.foldList (fun g e => g.set e.1 e.2) f es

/-- `Factor::Factor(const Immutable &, CloneTrasformedImagesTag)` (factor/Factor.cpp:23-29). -/
def cloneTransformed (o : Fn F) : Res (Fn F) :=
  match o.entries with
  | .ok es => setAll (ofGroup o.vars) es
  | .throw => .throw
  | .ub => .ub

/-- `check_all_same_size` (factor/Factor.cpp:32-39); `front()` of an empty vector is undefined. -/
def checkAllSameSize (vars : List Var) : Res Unit :=
  match vars with
  | [] => .ub
  | v :: _ => if vars.all (fun w => w.size = v.size) then .ok () else .throw

/-- The values taken by `SameValuesCombination` (factor/Factor.cpp:41-61) in the loops below: the
combination of `n` entries all equal to `k`. -/
def sameValues (n k : Nat) : List Nat := List.replicate n k

/-- `emplace` on the sparse container: an existing entry is kept. -/
def sparseEmplace (c : List (List Nat × F)) (comb : List Nat) (img : F) : List (List Nat × F) :=
  if c.any (fun e => e.1 == comb) then c else c ++ [(comb, img)]

/-- `SimplyCorrelatedFunction` (factor/Factor.cpp:63-80). -/
def correlated (g : Group) : Res (Fn F) :=
  match checkAllSameSize g.group with
  | .ok _ =>
    if g.group.length = 1 then .throw
    else match g.group with
      | [] => .ub
      | v :: _ =>
        .ok { (ofGroup g : Fn F) with
          data := .sparse ((List.range v.size).foldl
            (fun c k => sparseEmplace c (sameValues g.group.length k) Arith.one) []) }
  | .throw => .throw
  | .ub => .ub

/-- One round of the loop of factor/Factor.cpp:104-106. -/
def antiStep (f : Fn F) (n : Nat) (imgs : List F) (k : Nat) : Res (List F) :=
  match f.hash (sameValues n k) with
  | .ok i => vecSet imgs i Arith.zero
  | .throw => .throw
  | .ub => .ub

/-- `SimplyAntiCorrelatedFunction` (factor/Factor.cpp:87-109). -/
def antiCorrelated (g : Group) : Res (Fn F) :=
  if g.group.length = 1 then .throw
  else match checkAllSameSize g.group with
    | .ok _ =>
      match g.group with
      | [] => .ub
      | v :: _ =>
        let f : Fn F := ofGroup g
        match Res.foldList (antiStep f g.group.length) (List.replicate f.tot Arith.one)
            (List.range v.size) with
        | .ok imgs => .ok { f with data := .dense imgs }
        | .throw => .throw
        | .ub => .ub
    | .throw => .throw
    | .ub => .ub

/-- The loop of `gather_variables` (factor/Factor.cpp:118-130) over the variables of the factors. -/
def gatherSet : VarSet → List Var → Res VarSet
  | s, [] => .ok s
  | s, v :: vs =>
    match s.find? (fun w => w.eqv v) with
    | none => gatherSet (s ++ [v]) vs
    | some w => if w ≠ v then .throw else gatherSet s vs

/-- `gather_variables` (factor/Factor.cpp:116-132). `ord` is the iteration order of the set. -/
def gatherVariables (ord : List Var → List Var) (factors : List (Fn F)) : Res Group :=
  match gatherSet [] (factors.flatMap (fun f => f.vars.group)) with
  | .ok s => Group.ofSoup (ord s)
  | .throw => .throw
  | .ub => .ub

/-- One of the two loops of factor/Factor.cpp:159-165: multiplies `val` by the value of each lookup,
stopping as soon as `val` is 0. -/
def mulWhileNonZero {α : Type v} (look : α → Res F) : F → List α → Res F
  | val, [] => .ok val
  | val, a :: l =>
    if Arith.eq val Arith.zero then .ok val
    else match look a with
      | .ok x => mulWhileNonZero look (Arith.mul val x) l
      | .throw => .throw
      | .ub => .ub

/-- The image written for one combination (factor/Factor.cpp:156-168), `none` when it is 0. -/
def mergedImage (same : List (Fn F)) (finders : List (Finder F)) (comb : List Nat) :
    Res (Option F) :=
  match mulWhileNonZero (fun f => f.findTransformed comb) Arith.one same with
  | .ok v =>
    match mulWhileNonZero (fun fd => fd.findTransformed comb) v finders with
    | .ok v' => .ok (if Arith.eq v' Arith.zero then none else some v')
    | .throw => .throw
    | .ub => .ub
  | .throw => .throw
  | .ub => .ub

/-- One round of the loop of factor/Factor.cpp:156-169. -/
def mergeStep (same : List (Fn F)) (finders : List (Finder F)) (r : Fn F) (comb : List Nat) :
    Res (Fn F) :=
  match mergedImage same finders comb with
  | .ok (some v) => r.set comb v
  | .ok none => .ok r
  | .throw => .throw
  | .ub => .ub

/-- `Factor::Factor(const std::vector<const Immutable *> &)` (factor/Factor.cpp:135-170). `ord` is the
iteration order of the set of gathered variables. -/
def merge (ord : List Var → List Var) (factors : List (Fn F)) : Res (Fn F) :=
  match gatherVariables ord factors with
  | .ok g =>
    if factors.isEmpty then .throw
    else
      let same := factors.filter (fun f => f.vars.group = g.group)
      match Res.mapList (fun f => Finder.make f g.group)
          (factors.filter (fun f => ¬ f.vars.group = g.group)) with
      | .ok finders =>
        match GroupRange.visit g.sizes with
        | .ok combs => Res.foldList (mergeStep same finders) (ofGroup g) combs
        | .throw => .throw
        | .ub => .ub
      | .throw => .throw
      | .ub => .ub
  | .throw => .throw
  | .ub => .ub

/-- `compute_new_positions` (factor/Factor.cpp:173-183): `std::find` compares pointers; a variable that
is not found gets the position past the end. -/
def newPositions (oldOrder newOrder : List Var) : List Nat :=
  oldOrder.map (fun v => newOrder.findIdx (fun w => w = v))

/-- `get_permuted` (factor/Factor.cpp:185-194). -/
def permuted (subject : List Nat) (positions : List Nat) : Res (List Nat) :=
  Res.foldList (fun r (e : Nat × Nat) =>
    if e.1 < r.length then .ok (r.set e.1 e.2) else .ub)
    (List.replicate subject.length 0) (positions.zip subject)

/-- One round of the visit of factor/Factor.cpp:205-208. -/
def permuteStep (positions : List Nat) (r : Fn F) (e : List Nat × F) : Res (Fn F) :=
  match permuted e.1 positions with
  | .ok c => r.set c e.2
  | .throw => .throw
  | .ub => .ub

/-- `Factor::cloneWithPermutedGroup` (factor/Factor.cpp:197-210). -/
def cloneWithPermutedGroup (f : Fn F) (newOrder : Group) : Res (Fn F) :=
  if !VarSet.same newOrder.sorted f.vars.sorted then .throw
  else
    let positions := newPositions f.vars.group newOrder.group
    match f.rawEntries with
    | .ok es => Res.foldList (permuteStep positions) (ofGroup newOrder) es
    | .throw => .throw
    | .ub => .ub

/-- `ExponentialFunction::ExponentialFunction` (factor/FactorExponential.cpp:22-29): the raw images of
the given function in a dense container. -/
def exponential (giver : Fn F) (w : F) : Res (Fn F) :=
  match giver.rawEntries with
  | .ok es => .ok { (ofGroup giver.vars : Fn F) with data := .dense (es.map Prod.snd), weight := some w }
  | .throw => .throw
  | .ub => .ub

/-- `FactorExponential::setWeight` (factor/FactorExponential.cpp:46-48). -/
def setWeight (f : Fn F) (w : F) : Fn F := { f with weight := some w }

/-- `FactorExponential::FactorExponential(const FactorExponential &)`
(factor/FactorExponential.cpp:54-56). The weight of a function which is not exponential is not
accessible in C++ (the cast would be undefined). -/
def copyExponential (o : Fn F) : Res (Fn F) :=
  match o.weight with
  | some w => exponential o w
  | none => .ub

end Fn
end EFG
