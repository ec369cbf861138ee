import Verif.Model.Heap
import Verif.Model.Special
/-
The state of a model and the functions of structure/Types.{h,cpp}, structure/bases/StateAware.{h,cpp}.

Conventions.
* A `Node *` is the `Var` of the node: a model holds at most one node for a variable.
* A `Connection *` is a pair `ConnRef`: the node owning the connection and the neighbour it is keyed
  by. The connection holds the message travelling from the neighbour to the owner. Following a
  pointer to an erased connection is undefined behaviour.
* A factor pointer is a position in the heap of functions (`Heap`).
* Hash containers are association lists in insertion order. Wherever the code iterates on one of
  them the keys are first reordered by `ord`, an arbitrary function from lists to permutations of
  them which is a parameter of every operation.
-/

namespace EFG

/-! ### Association lists -/

namespace AMap
variable {α : Type u} {β : Type v} [DecidableEq α]

/-- `find(k)`. -/
def find? : List (α × β) → α → Option β
  | [], _ => none
  | (k, x) :: m, q => if k = q then some x else find? m q

/-- `erase(k)`. -/
def erase (m : List (α × β)) (k : α) : List (α × β) := m.filter (fun e => !decide (e.1 = k))

/-- `m[k] = x`. -/
def set : List (α × β) → α → β → List (α × β)
  | [], k, x => [(k, x)]
  | (k', x') :: m, k, x => if k' = k then (k', x) :: m else (k', x') :: set m k x

/-- Changes in place the value stored for a key. -/
def modify : List (α × β) → α → (β → β) → List (α × β)
  | [], _, _ => []
  | (k', x) :: m, k, f => if k' = k then (k', f x) :: m else (k', x) :: modify m k f

/-- The keys. -/
def keys (m : List (α × β)) : List α := m.map Prod.fst

end AMap

/-! ### Data (structure/Types.h) -/

/-- `Node::Connection` (structure/Types.h:25-30). -/
structure Conn (F : Type) where
  factor : Nat
  message : Option (Fn F)

/-- `Node` (structure/Types.h:22-49). `merged` is the content of the cache `merged_unaries`. -/
structure Node (F : Type) where
  active : List (Var × Conn F)
  disabled : List (Var × Conn F)
  unary : List Nat
  merged : Option (Fn F)

/-- A node just created (structure/bases/FactorsAware.cpp:59-61). -/
def Node.fresh {F : Type} : Node F := { active := [], disabled := [], unary := [], merged := none }

/-- A `Connection *`: `owner->active_connections[from]`. -/
structure ConnRef where
  owner : Var
  from_ : Var
deriving DecidableEq, Repr

/-- `HiddenCluster::TopologyInfo` (structure/Types.h:64-75). -/
structure Topo where
  sender : Var
  conn : ConnRef
  deps : List ConnRef
deriving DecidableEq, Repr

/-- `HiddenCluster` (structure/Types.h:61-79). -/
structure Cluster where
  nodes : List Var
  connectivity : Option (List Topo)
deriving DecidableEq, Repr

/-- `PropagationResult` (structure/Types.h:99-111). -/
structure PropResult where
  kind : Kind
  completed : Bool
  structures : List (Bool × Nat)
deriving DecidableEq, Repr

/-- The subclass of a `BaseTuner` and its members: `UnaryTuner::node`
(trainable/tuners/UnaryTuner.h), `BinaryTuner::{nodeA, nodeB}` (trainable/tuners/BinaryTuner.h),
`HiddenObservedTuner::{nodeHidden, evidence}` (src/model/HiddenObservedTuner.h). -/
inductive TunerKind where
  | unary (node : Var)
  | binary (a b : Var)
  | hiddenObserved (hidden evidence : Var)
deriving DecidableEq, Repr

/-- `BaseTuner` (trainable/tuners/BaseTuner.h): the tuned factor and the positions of its variables
in the combinations of a training set (`finder`). The cache `alpha_part` is not modelled: the
address it is compared with is never stored (trainable/tuners/BaseTuner.cpp:17-19), so that it never
hits. -/
structure BaseTuner where
  factor : Nat
  indices : List Nat
  kind : TunerKind
deriving DecidableEq, Repr

/-- The data members of a model: `StateAware::GraphState` (structure/bases/StateAware.h:56-61),
`FactorsAware::factorsAll` (structure/bases/FactorsAware.h), `FactorsConstInserter::const_factors`,
`BeliefAware::{context, lastPropagation}`, `PoolAware::pool` (the size of the pool, `none` when the
optional is empty), `FactorsTunableGetter::{tunable_factors, tuners}` (a tuner is the list of the
base tuners of its sharing cluster). The heap holds all the functions the program has created, also
those used by other models. -/
structure State (F : Type) where
  heap : Heap F
  vars : List Var
  nodes : List (Var × Node F)
  clusters : List Cluster
  evidences : List (Var × Nat)
  factors : List Nat
  consts : List Nat
  last : Option PropResult
  pool : Option Nat
  maxIter : Nat
  tunables : List Nat
  tuners : List (List BaseTuner)

namespace State
variable {F : Type} [Arith F]

/-- A model just constructed, in a program whose heap is `h`: the pool has size 1
(structure/bases/PoolAware.cpp:72-74), the iteration limit is 1000
(structure/bases/BeliefAware.h). -/
def initial (h : Heap F) : State F :=
  { heap := h, vars := [], nodes := [], clusters := [], evidences := [], factors := [],
    consts := [], last := none, pool := some 1, maxIter := 1000, tunables := [], tuners := [] }

/-- Following a `Node *`. -/
def node? (s : State F) (v : Var) : Option (Node F) := AMap.find? s.nodes v

/-- `active_connections` of a node. -/
def activeOf (s : State F) (v : Var) : List (Var × Conn F) :=
  match s.node? v with
  | some n => n.active
  | none => []

/-- `disabled_connections` of a node. -/
def disabledOf (s : State F) (v : Var) : List (Var × Conn F) :=
  match s.node? v with
  | some n => n.disabled
  | none => []

/-- Changing the content of a node. -/
def updNode (s : State F) (v : Var) (f : Node F → Node F) : State F :=
  { s with nodes := AMap.modify s.nodes v f }

/-- `state.nodes.find(variable)`, a `SmartMap`: the key equal by value. -/
def nodeKey? (s : State F) (v : Var) : Option Var := (AMap.keys s.nodes).find? (fun w => w.eqv v)

/-- `state.evidences.find(variable)`: the key equal by value. -/
def evidenceKey? (s : State F) (v : Var) : Option Var :=
  (AMap.keys s.evidences).find? (fun w => w.eqv v)

/-- `resetBelief` (structure/bases/BeliefAware.h). -/
def resetBelief (s : State F) : State F := { s with last := none }

/-- `NodeLocation::location` (structure/bases/StateAware.h:51-54): an iterator in the clusters (`none` is
`clusters.end()`) or in the evidences. -/
inductive Loc where
  | hidden (cluster : Option Nat)
  | observed (key : Var)
deriving DecidableEq, Repr

/-- `StateAware::locate` (structure/bases/StateAware.cpp:44-61). -/
def locate (s : State F) (v : Var) : Option (Var × Loc) :=
  match s.nodeKey? v with
  | none => none
  | some node =>
    match s.evidenceKey? v with
    | some k => some (node, .observed k)
    | none => some (node, .hidden (s.clusters.findIdx? (fun c => c.nodes.contains node)))

/-- `StateAware::findVariable` (structure/bases/StateAware.cpp:14-24). -/
def findVariable (s : State F) (name : String) : Res Var :=
  match s.vars.find? (fun v => v.name == name) with
  | some v => .ok v
  | none => .throw

/-- `StateAware::getHiddenVariables` (structure/bases/StateAware.cpp:26-34). -/
def hiddenVariables (s : State F) : VarSet := (s.clusters.flatMap (·.nodes)).foldl VarSet.emplace []

/-- `StateAware::getObservedVariables` (structure/bases/StateAware.cpp:36-42). -/
def observedVariables (s : State F) : VarSet := (AMap.keys s.evidences).foldl VarSet.emplace []

/-- A result computed without touching the state. -/
def lift {α : Type} (r : State F → Res α) : M (State F) α := fun s =>
  match r s with
  | .ok a => .ok s a
  | .throw => .throw s
  | .ub => .ub

/-- Running a step for each element of a list, stopping at the first failure. -/
def forEach {α : Type} (f : α → M (State F) Unit) : List α → M (State F) Unit
  | [], s => .ok s ()
  | a :: l, s =>
    match f a s with
    | .ok s' _ => forEach f l s'
    | .throw s' => .throw s'
    | .ub => .ub

/-! ### structure/Types.cpp -/

/-- Following a `FunctionPtr`. -/
def deref (s : State F) (p : Nat) : Res (Fn F) := s.heap.get p

/-- The message of a disabled connection, dereferenced by `MergedUnaries`. -/
def disabledMessage (n : Node F) (w : Var) : Res (Fn F) :=
  match AMap.find? n.disabled w with
  | some c => Res.ofOption c.message
  | none => .ub

/-- `gather_unaries` (structure/Types.cpp:16-25), with the pointers followed as `MergedUnaries`
does. -/
def gatherUnaries (ord : List Var → List Var) (s : State F) (n : Node F) : Res (List (Fn F)) :=
  match Res.mapList s.deref n.unary with
  | .ok us =>
    match Res.mapList (disabledMessage n) (ord (AMap.keys n.disabled)) with
    | .ok ms => .ok (us ++ ms)
    | .throw => .throw
    | .ub => .ub
  | .throw => .throw
  | .ub => .ub

/-- The value computed by `Node::updateMergedUnaries` (structure/Types.cpp:28-35). -/
def mergedOf (ord : List Var → List Var) (s : State F) (v : Var) (n : Node F) : Res (Fn F) :=
  match gatherUnaries ord s n with
  | .ok [] => .ok (Fn.ones v)
  | .ok (f :: fs) => Fn.mergedUnaries (f :: fs)
  | .throw => .throw
  | .ub => .ub

/-- `Node::updateMergedUnaries` (structure/Types.cpp:28-35). -/
def updateMerged (ord : List Var → List Var) (v : Var) : M (State F) Unit := fun s =>
  match s.node? v with
  | some n =>
    match mergedOf ord s v n with
    | .ok m => .ok (s.updNode v (fun n => { n with merged := some m })) ()
    | .throw => .throw s
    | .ub => .ub
  | none => .ub

/-- `merged_unaries.reset()`. -/
def clearMerged (v : Var) (s : State F) : State F := s.updNode v (fun n => { n with merged := none })

/-- Half of `Node::activate`: the changes of the node of `a`. -/
def activateNode (b : Var) (p : Nat) (n : Node F) : Node F :=
  { n with
    disabled := AMap.erase n.disabled b
    active := AMap.set n.active b { factor := p, message := none } }

/-- `Node::activate` (structure/Types.cpp:46-52). -/
def activate (a b : Var) (p : Nat) (s : State F) : State F :=
  (s.updNode a (activateNode b p)).updNode b (activateNode a p)

/-- Half of `Node::disable`. -/
def disableNode (b : Var) (p : Nat) (n : Node F) : Node F :=
  { n with
    active := AMap.erase n.active b
    disabled := AMap.set n.disabled b { factor := p, message := none } }

/-- `Node::disable` (structure/Types.cpp:54-68) with the factor given. -/
def disableWith (a b : Var) (p : Nat) (s : State F) : State F :=
  (s.updNode a (disableNode b p)).updNode b (disableNode a p)

/-- `Node::disable` (structure/Types.cpp:54-68) without a factor: it is taken from the active
connection, and its absence throws. -/
def disable (a b : Var) : M (State F) Unit := fun s =>
  match AMap.find? (s.activeOf a) b with
  | some c => .ok (disableWith a b c.factor s) ()
  | none => .throw s

/-- Writing the message of an active connection. -/
def setActiveMessage (owner from_ : Var) (m : Option (Fn F)) (s : State F) : State F :=
  s.updNode owner (fun n => { n with active := AMap.modify n.active from_ (fun c => { c with message := m }) })

/-- Writing the message of a disabled connection. -/
def setDisabledMessage (owner from_ : Var) (m : Option (Fn F)) (s : State F) : State F :=
  s.updNode owner
    (fun n => { n with disabled := AMap.modify n.disabled from_ (fun c => { c with message := m }) })

/-- Following a `Connection *`. -/
def conn? (s : State F) (r : ConnRef) : Option (Conn F) := AMap.find? (s.activeOf r.owner) r.from_

/-- The message of a dependency. -/
def depMessage (s : State F) (r : ConnRef) : Res (Option (Fn F)) :=
  match s.conn? r with
  | some c => .ok c.message
  | none => .ub

/-- The messages of all the dependencies: `none` when one of them is null. -/
def depMessages (s : State F) : List ConnRef → Res (Option (List (Fn F)))
  | [] => .ok (some [])
  | r :: rs =>
    match s.depMessage r with
    | .ok none => .ok none
    | .ok (some m) =>
      match depMessages s rs with
      | .ok (some ms) => .ok (some (m :: ms))
      | .ok none => .ok none
      | .throw => .throw
      | .ub => .ub
    | .throw => .throw
    | .ub => .ub

/-- `TopologyInfo::canUpdateMessage` (structure/Types.cpp:70-75). -/
def canUpdate (s : State F) (t : Topo) : Res Bool :=
  match s.depMessages t.deps with
  | .ok ms => .ok ms.isSome
  | .throw => .throw
  | .ub => .ub

/-- The message computed in `TopologyInfo::updateMessage` (structure/Types.cpp:82-101). -/
def newMessage (kind : Kind) (s : State F) (merged : Fn F) (deps : List (Fn F)) (p : Nat) :
    Res (Fn F) :=
  match Fn.mergedUnaries (merged :: deps) with
  | .ok m =>
    match s.deref p with
    | .ok b => Fn.message kind m b
    | .throw => .throw
    | .ub => .ub
  | .throw => .throw
  | .ub => .ub

/-- The variation returned by `TopologyInfo::updateMessage` (structure/Types.cpp:105-109). -/
def variation (previous : Option (Fn F)) (m : Fn F) : Res F :=
  match previous with
  | none => .ok Arith.fltMax
  | some o => o.diff m

/-- The state left behind when the computation of the message throws: the old message has been moved
away (structure/Types.cpp:91-92) unless the merging (line 90) is what throws. -/
def messageThrown (t : Topo) (merged : Fn F) (deps : List (Fn F)) (s : State F) : State F :=
  match Fn.mergedUnaries (merged :: deps) with
  | .ok _ => setActiveMessage t.conn.owner t.conn.from_ none s
  | _ => s

/-- `TopologyInfo::updateMessage` (structure/Types.cpp:77-110). -/
def updateMessage (kind : Kind) (t : Topo) : M (State F) (Option F) := fun s =>
  match s.node? t.sender with
  | none => .ub
  | some n =>
    match n.merged with
    | none => .throw s
    | some merged =>
      match s.depMessages t.deps with
      | .ok none => .ok s none
      | .ok (some deps) =>
        match s.conn? t.conn with
        | none => .ub
        | some c =>
          match s.newMessage kind merged deps c.factor with
          | .ok m =>
            match variation c.message m with
            | .ok x => .ok (setActiveMessage t.conn.owner t.conn.from_ (some m) s) (some x)
            | .throw => .throw (setActiveMessage t.conn.owner t.conn.from_ (some m) s)
            | .ub => .ub
          | .throw => .throw (messageThrown t merged deps s)
          | .ub => .ub
      | .throw => .throw s
      | .ub => .ub

/-- One round of the inner loop of `updateConnectivity` (structure/Types.cpp:124-132): the topology
info of the message from `sender` to `receiver`. `keys` are the neighbours of the sender; the
connection is looked up in the receiver without checking that it is found. -/
def topoOf (ord : List Var → List Var) (s : State F) (sender : Var) (keys : List Var)
    (receiver : Var) : Res Topo :=
  match AMap.find? (s.activeOf receiver) sender with
  | none => .ub
  | some _ =>
    .ok { sender := sender
          conn := { owner := receiver, from_ := sender }
          deps := (ord (keys.filter (fun w => !decide (w = receiver)))).map (fun w => { owner := sender, from_ := w }) }

/-- The cluster at a position: appending to its `connectivity`. -/
def appendTopos (i : Nat) (ts : List Topo) (s : State F) : State F :=
  { s with clusters := s.clusters.modify i (fun c => { c with connectivity := c.connectivity.map (· ++ ts) }) }

/-- The outer loop of `updateConnectivity` (structure/Types.cpp:115-133) for one sender. -/
def connectivityStep (ord : List Var → List Var) (i : Nat) (sender : Var) : M (State F) Unit := fun s =>
  match updateMerged ord sender s with
  | .ok s1 _ =>
    match Res.mapList (topoOf ord s1 sender (AMap.keys (s1.activeOf sender)))
        (ord (AMap.keys (s1.activeOf sender))) with
    | .ok ts => .ok (appendTopos i ts s1) ()
    | .throw => .throw s1
    | .ub => .ub
  | .throw s1 => .throw s1
  | .ub => .ub

/-- `HiddenCluster::updateConnectivity` (structure/Types.cpp:112-134) for the cluster at position
`i`. -/
def updateConnectivity (ord : List Var → List Var) (i : Nat) : M (State F) Unit := fun s =>
  match s.clusters[i]? with
  | some c =>
    forEach (connectivityStep ord i) (ord c.nodes)
      { s with clusters := s.clusters.modify i (fun c => { c with connectivity := some [] }) }
  | none => .ub

end State

/-! ### `compute_clusters` (structure/Types.cpp:136-180) -/

namespace Clusters

/-- `emplace` in a set of nodes. -/
def emplace (c : List Var) (v : Var) : List Var := if c.contains v then c else c ++ [v]

/-- The cluster found by `std::find_if` (structure/Types.cpp:145-148). -/
def hit (res : List (List Var)) (w : Var) : Option Nat := res.findIdx? (fun c => c.contains w)

/-- The keys of `neighbour` (structure/Types.cpp:143-152). -/
def touched (res : List (List Var)) (nbs : List Var) (i : Nat) : Bool :=
  nbs.any (fun w => hit res w == some i)

/-- One round of the loop of `compute_clusters_` (structure/Types.cpp:141-169). `nb` gives the
neighbours along the active connections. The order in which the merged clusters are inserted is the
one of `res`; it only changes the order inside a hash set. -/
def step (nb : Var → List Var) (res : List (List Var)) (node : Var) : List (List Var) :=
  let marked := res.zipIdx.map (fun e => (e.1, touched res (nb node) e.2))
  match marked.filter (fun e => e.2) with
  | [] => res ++ [[node]]
  | [_] => marked.map (fun e => if e.2 then emplace e.1 node else e.1)
  | es =>
    (marked.filter (fun e => !e.2)).map Prod.fst ++
      [es.foldl (fun acc e => e.1.foldl emplace acc) [node]]

/-- `compute_clusters_` (structure/Types.cpp:136-171) on the nodes taken in the given order. -/
def compute (nb : Var → List Var) (nodes : List Var) : List (List Var) := nodes.foldl (step nb) []

/-- `compute_clusters` (structure/Types.cpp:174-180). -/
def make (nb : Var → List Var) (nodes : List Var) : List Cluster :=
  (compute nb nodes).map (fun c => { nodes := c, connectivity := none })

end Clusters
end EFG
