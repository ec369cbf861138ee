import Mathlib.Data.List.Dedup
import Verif.Model.Belief
/-
Queries: structure/QueryManager.{h,cpp}, structure/bases/PoolAware.{h,cpp} (life cycle of the pool).
-/

namespace EFG
namespace State
variable {F : Type} [Arith F]

/-- `PoolAware::resetPool` (structure/bases/PoolAware.cpp:74). -/
def resetPool (s : State F) : State F := { s with pool := some 1 }

/-- `PoolAware::setPoolSize` (structure/bases/PoolAware.cpp:76-81). `pool->size()` on an empty
optional is undefined; `pool.emplace(0)` destroys the old pool and then throws
(structure/bases/PoolAware.cpp:32-35). -/
def setPoolSize (n : Nat) : M (State F) Unit := fun s =>
  match s.pool with
  | none => .ub
  | some k =>
    if n = k then .ok s ()
    else if n = 0 then .throw { s with pool := none }
    else .ok { s with pool := some n } ()

/-- The scope of a `ScopedPoolActivator` (structure/bases/PoolAware.h): its destructor resets the
pool, also when the body throws, but not when its constructor throws. -/
def withPool {α : Type} (n : Nat) (body : M (State F) α) : M (State F) α := fun s =>
  match setPoolSize n s with
  | .ok s1 _ =>
    match body s1 with
    | .ok s2 a => .ok s2.resetPool a
    | .throw s2 => .throw s2.resetPool
    | .ub => .ub
  | .throw s1 => .throw s1
  | .ub => .ub

/-- `checkPropagation_` (structure/QueryManager.h:97-102). -/
def checkPropagation (ord : List Var → List Var) (sched : Sched) (kind : Kind) (threads : Nat) :
    M (State F) Unit := fun s =>
  if s.wouldNeedPropagation kind then withPool threads (propagateBelief ord sched kind) s
  else .ok s ()

/-- The message of an active connection, dereferenced by `MergedUnaries`. -/
def activeMessage (n : Node F) (w : Var) : Res (Fn F) :=
  match AMap.find? n.active w with
  | some c => Res.ofOption c.message
  | none => .ub

/-- `gather_incoming_messages` (structure/QueryManager.cpp:16-26); `get()` of an empty cache throws
(misc/Cache.h). -/
def gatherIncoming (ord : List Var → List Var) (n : Node F) : Res (Fn F) :=
  match n.merged with
  | none => .throw
  | some m =>
    match Res.mapList (activeMessage n) (ord (AMap.keys n.active)) with
    | .ok ms => Fn.mergedUnaries (m :: ms)
    | .throw => .throw
    | .ub => .ub

/-- `gather_incoming_messages(*node).getProbabilities()`. -/
def belief (ord : List Var → List Var) (s : State F) (v : Var) : Res (List F) :=
  match s.node? v with
  | none => .ub
  | some n =>
    match gatherIncoming ord n with
    | .ok f => f.probabilities
    | .throw => .throw
    | .ub => .ub

/-- `QueryManager::getMarginalDistribution(const NodeLocation &)` (structure/QueryManager.cpp:39-53).
Writing past the end of the vector of zeros is undefined. -/
def marginalAt (ord : List Var → List Var) (s : State F) (node : Var) (loc : Loc) : Res (List F) :=
  match loc with
  | .hidden _ => belief ord s node
  | .observed k =>
    match AMap.find? s.evidences k with
    | none => .ub
    | some value => Fn.vecSet (List.replicate node.size Arith.zero) value Arith.one

/-- `marginalQuery_` (structure/QueryManager.h:104-113). -/
def marginalQuery (ord : List Var → List Var) (sched : Sched) (kind : Kind) (v : Var) (threads : Nat) :
    M (State F) (List F) := fun s =>
  match checkPropagation ord sched kind threads s with
  | .ok s1 _ =>
    match s1.locate v with
    | none => .throw s1
    | some (node, loc) => lift (fun s => marginalAt ord s node loc) s1
  | .throw s1 => .throw s1
  | .ub => .ub

/-- `QueryManager::getMarginalDistribution` (structure/QueryManager.h:28-31). -/
def getMarginal (ord : List Var → List Var) (sched : Sched) (v : Var) (threads : Nat) :
    M (State F) (List F) := marginalQuery ord sched .sum v threads

/-- `QueryManager::getMarginalDistribution` by name (structure/QueryManager.cpp:59-62). -/
def getMarginalByName (ord : List Var → List Var) (sched : Sched) (name : String) (threads : Nat) :
    M (State F) (List F) := fun s =>
  match s.findVariable name with
  | .ok v => getMarginal ord sched v threads s
  | .throw => .throw s
  | .ub => .ub

/-- The loop of `find_max` (structure/QueryManager.cpp:68-73). -/
def findMaxLoop (res : Nat) (m : F) : Nat → List F → Nat
  | _, [] => res
  | k, x :: xs => if Arith.lt m x then findMaxLoop k x (k + 1) xs else findMaxLoop res m (k + 1) xs

/-- `find_max` (structure/QueryManager.cpp:65-75); `front()` of an empty vector is undefined. -/
def findMax : List F → Res Nat
  | [] => .ub
  | x :: xs => .ok (findMaxLoop 0 x 1 xs)

/-- `QueryManager::getMAP` (structure/QueryManager.cpp:78-82). -/
def getMAP (ord : List Var → List Var) (sched : Sched) (v : Var) (threads : Nat) :
    M (State F) Nat := fun s =>
  match marginalQuery ord sched .map v threads s with
  | .ok s1 values => lift (fun _ => findMax values) s1
  | .throw s1 => .throw s1
  | .ub => .ub

/-- One round of the loop of `getHiddenSetMAP` (structure/QueryManager.cpp:94-97). -/
def mapOf (ord : List Var → List Var) (s : State F) (v : Var) : Res Nat :=
  match s.nodeKey? v with
  | none => .ub
  | some node =>
    match belief ord s node with
    | .ok values => findMax values
    | .throw => .throw
    | .ub => .ub

/-- `QueryManager::getHiddenSetMAP` (structure/QueryManager.cpp:88-99). -/
def getHiddenSetMAP (ord : List Var → List Var) (sched : Sched) (threads : Nat) :
    M (State F) (List Nat) := fun s =>
  match checkPropagation ord sched .map threads s with
  | .ok s1 _ => lift (fun s => Res.mapList (mapOf ord s) (ord s.hiddenVariables)) s1
  | .throw s1 => .throw s1
  | .ub => .ub

/-- What is inserted in the set `contributions` (structure/QueryManager.cpp:116-139): addresses. The
merged unary of a node, the message of a connection, a factor of the model, the only indicator. -/
inductive Contribution where
  | merged (node : Var)
  | message (ref : ConnRef)
  | factor (ptr : Nat)
  | indicator (node : Var) (value : Nat)
deriving DecidableEq, Repr

/-- The contributions of one located variable (structure/QueryManager.cpp:118-138). -/
def contributionsOf (s : State F) (subgroup : List Var) (e : Var × Loc) : Res (List Contribution) :=
  match e.2 with
  | .hidden _ =>
    match s.node? e.1 with
    | none => .ub
    | some n =>
      match n.merged with
      | none => .throw
      | some _ =>
        .ok (.merged e.1 :: n.active.map (fun x =>
          if subgroup.contains x.1 then .factor x.2.factor else .message { owner := e.1, from_ := x.1 }))
  | .observed k =>
    match AMap.find? s.evidences k with
    | none => .ub
    | some value => if e.1.size ≤ value then .throw else .ok [.indicator e.1 value]

/-- Following the address of a contribution. -/
def contribution (s : State F) : Contribution → Res (Fn F)
  | .merged v =>
    match s.node? v with
    | some n => Res.ofOption n.merged
    | none => .ub
  | .message r =>
    match s.conn? r with
    | some c => Res.ofOption c.message
    | none => .ub
  | .factor p => s.deref p
  | .indicator v value => Fn.indicator v value

/-- The locations of the requested variables (structure/QueryManager.cpp:107-114). -/
def locateAll (s : State F) : List Var → Res (List (Var × Loc))
  | [] => .ok []
  | v :: vs =>
    match s.locate v with
    | none => .throw
    | some e =>
      match locateAll s vs with
      | .ok es => .ok (e :: es)
      | .throw => .throw
      | .ub => .ub

/-- Whether a location is in the evidences. -/
def Loc.isObserved : Loc → Bool
  | .observed _ => true
  | .hidden _ => false

/-- The body of `getJointMarginalDistribution` (structure/QueryManager.cpp:105-143). The vector
`indicators` grows while pointers to its elements are kept: with two observed variables in the group
the first pointer dangles. `shuffle` is the iteration order of the set `contributions`. -/
def jointOf (ord : List Var → List Var) (shuffle : List Contribution → List Contribution)
    (g : Group) (s : State F) : Res (Fn F) :=
  match s.locateAll g.group with
  | .ok locs =>
    match Res.mapList (contributionsOf s (locs.map Prod.fst)) locs with
    | .ok cs =>
      if 2 ≤ (locs.filter (fun e => e.2.isObserved)).length then .ub
      else
        match Res.mapList s.contribution (shuffle cs.flatten.dedup) with
        | .ok fs =>
          match Fn.merge ord fs with
          | .ok m => m.cloneWithPermutedGroup g
          | .throw => .throw
          | .ub => .ub
        | .throw => .throw
        | .ub => .ub
    | .throw => .throw
    | .ub => .ub
  | .throw => .throw
  | .ub => .ub

/-- `QueryManager::getJointMarginalDistribution` (structure/QueryManager.cpp:101-144). -/
def getJoint (ord : List Var → List Var) (shuffle : List Contribution → List Contribution)
    (sched : Sched) (g : Group) (threads : Nat) : M (State F) (Fn F) := fun s =>
  match checkPropagation ord sched .sum threads s with
  | .ok s1 _ => lift (jointOf ord shuffle g) s1
  | .throw s1 => .throw s1
  | .ub => .ub

end State
end EFG
