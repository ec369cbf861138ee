import Verif.Model.Graph
/-
Insertion of factors: structure/bases/FactorsAware.cpp, structure/FactorsConstManager.{h,cpp}.
-/

namespace EFG
namespace State
variable {F : Type} [Arith F]

/-- `FactorsAware::findOrMakeNode` (structure/bases/FactorsAware.cpp:50-67) with
`check_is_same_variable` (41-47). Returns the node and its location. -/
def findOrMakeNode (v : Var) : M (State F) (Var × Loc) := fun s =>
  match s.locate v with
  | some (node, loc) => if v ≠ node then .throw s else .ok s (node, loc)
  | none =>
    .ok { s with
          vars := s.vars ++ [v]
          nodes := s.nodes ++ [(v, Node.fresh)]
          clusters := s.clusters ++ [{ nodes := [v], connectivity := none }] }
      (v, .hidden (some s.clusters.length))

/-- `FactorsAware::addUnaryDistribution` (structure/bases/FactorsAware.cpp:69-75). -/
def addUnary (p : Nat) (f : Fn F) : M (State F) Unit := fun s =>
  match f.vars.group.head? with
  | none => .ub
  | some v =>
    match findOrMakeNode v s with
    | .ok s1 (node, _) =>
      .ok (s1.updNode node (fun n => { n with unary := n.unary ++ [p], merged := none })) ()
    | .throw s1 => .throw s1
    | .ub => .ub

/-- `hybrid_insertion` (structure/bases/FactorsAware.cpp:78-85). The connection is changed before the
message is computed. -/
def hybridInsertion (hidden observed : Var) (value p : Nat) (f : Fn F) : M (State F) Unit := fun s =>
  match f.evidence observed value with
  | .ok m =>
    .ok (clearMerged hidden (setDisabledMessage hidden observed (some m)
      (disableWith hidden observed p s))) ()
  | .throw => .throw (disableWith hidden observed p s)
  | .ub => .ub

/-- The cluster of `A` takes the nodes of the cluster of `B`, which is erased
(structure/bases/FactorsAware.cpp:110-115). Iterators at `clusters.end()` are dereferenced without a
check. -/
def mergeClusters (ia ib : Option Nat) : M (State F) Unit := fun s =>
  match ia, ib with
  | some i, some j =>
    match s.clusters[i]?, s.clusters[j]? with
    | some _, some cb =>
      let cs := s.clusters.modify i (fun c => { c with connectivity := none })
      if i = j then .ok { s with clusters := cs } ()
      else .ok { s with clusters :=
        (cs.modify i (fun c => { c with nodes := cb.nodes.foldl Clusters.emplace c.nodes })).eraseIdx j } ()
    | _, _ => .ub
  | _, _ => .ub

/-- The value of an observed variable, `iterator->second`. -/
def evidenceValue (s : State F) (key : Var) : Res Nat := Res.ofOption (AMap.find? s.evidences key)

/-- The visits of structure/bases/FactorsAware.cpp:104-135. -/
def connect (p : Nat) (f : Fn F) (a b : Var) (la lb : Loc) : M (State F) Unit := fun s =>
  match la, lb with
  | .hidden ia, .hidden ib => mergeClusters ia ib (activate a b p s)
  | .hidden _, .observed kb =>
    match s.evidenceValue kb with
    | .ok value => hybridInsertion a b value p f s
    | .throw => .throw s
    | .ub => .ub
  | .observed ka, .hidden _ =>
    match s.evidenceValue ka with
    | .ok value => hybridInsertion b a value p f s
    | .throw => .throw s
    | .ub => .ub
  | .observed _, .observed _ => .ok (disableWith a b p s) ()

/-- The two searches of structure/bases/FactorsAware.cpp:96-99. -/
def connected (s : State F) (a b : Var) : Bool :=
  (AMap.find? (s.activeOf a) b).isSome || (AMap.find? (s.disabledOf a) b).isSome

/-- `FactorsAware::addBinaryDistribution` (structure/bases/FactorsAware.cpp:88-136). -/
def addBinary (p : Nat) (f : Fn F) : M (State F) Unit := fun s =>
  match f.vars.group.head?, f.vars.group.getLast? with
  | some va, some vb =>
    match findOrMakeNode va s with
    | .ok s1 (a, la) =>
      match findOrMakeNode vb s1 with
      | .ok s2 (b, lb) =>
        if s2.connected a b then .throw s2 else connect p f a b la lb s2
      | .throw s2 => .throw s2
      | .ub => .ub
    | .throw s1 => .throw s1
    | .ub => .ub
  | _, _ => .ub

/-- The `switch` of structure/bases/FactorsAware.cpp:25-35. -/
def addByArity (p : Nat) (f : Fn F) : M (State F) Unit := fun s =>
  match f.vars.group.length with
  | 1 => addUnary p f s
  | 2 => addBinary p f s
  | _ => .throw s

/-- `FactorsAware::addDistribution` (structure/bases/FactorsAware.cpp:15-38); `none` is the null
pointer. The registered factors are compared by address: `factorsAll` is an `unordered_set` of
`shared_ptr`. Two factor objects holding one function are not distinguished: the address of the
function stands for the address of the factor. -/
def addDistribution (ptr : Option Nat) : M (State F) Unit := fun s =>
  match ptr with
  | none => .throw s
  | some p =>
    if s.factors.contains p then .throw s
    else
      match s.deref p with
      | .ok f =>
        match addByArity p f s.resetBelief with
        | .ok s1 _ => .ok { s1 with factors := s1.factors ++ [p] } ()
        | .throw s1 => .throw s1
        | .ub => .ub
      | .throw => .throw s
      | .ub => .ub

/-- `FactorsConstInserter::addConstFactor` (structure/FactorsConstManager.cpp:11-14). -/
def addConstFactor (ptr : Option Nat) : M (State F) Unit := fun s =>
  match addDistribution ptr s with
  | .ok s1 _ => .ok { s1 with consts := s1.consts ++ ptr.toList } ()
  | .throw s1 => .throw s1
  | .ub => .ub

/-- `std::make_shared`. -/
def alloc (f : Fn F) (s : State F) : State F × Nat :=
  ({ s with heap := s.heap ++ [f] }, s.heap.length)

/-- `FactorsConstInserter::copyConstFactor` (structure/FactorsConstManager.cpp:16-22): a new `Factor`
with the images of the given factor (`Factor(const Function &, CloneTrasformedImagesTag)`). -/
def copyConstFactor (ptr : Nat) : M (State F) Unit := fun s =>
  match s.deref ptr with
  | .ok f =>
    match f.cloneTransformed with
    | .ok g =>
      let (s1, p) := alloc g s
      addConstFactor (some p) s1
    | .throw => .throw s
    | .ub => .ub
  | .throw => .throw s
  | .ub => .ub

end State
end EFG
