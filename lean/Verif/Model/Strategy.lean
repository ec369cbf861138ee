import Verif.Model.Query
/-
Propagation strategies given by the user: `LoopyBeliefPropagationStrategy`
(structure/bases/BeliefAware.h:17-24) and `BeliefAware::setLoopyPropagationStrategy`
(structure/bases/BeliefAware.cpp:17-23). The functions below are those of Model/Belief and Model/Query
with `loopy_propagator` instead of the `BaselineLoopyPropagator` which the constructor of `BeliefAware`
installs (structure/bases/BeliefAware.cpp:13-15).
-/

namespace EFG
variable {F : Type} [Arith F]

/-- A strategy: what its `propagateBelief` does to the model, for a kind of propagation, a size of the
pool and the cluster it is given, with its connectivity. It may do anything to the model, throw, or have
undefined behaviour. A strategy with members of its own is, in each propagation, one of these functions:
no cluster is given to it twice. -/
abbrev Strategy (F : Type) := Kind → Nat → Cluster → List Topo → M (State F) Bool

/-- `BaselineLoopyPropagator` (structure/BaselineLoopyPropagator.cpp). -/
def Strategy.baseline (sched : Sched) : Strategy F := fun kind n c topos => State.loopyPropagate kind sched n c topos

namespace State

/-- `propagateCluster` with a strategy (structure/bases/BeliefAware.cpp:88-112). -/
def propagateClusterBy (σ : Strategy F) (ord : List Var → List Var) (sched : Sched) (kind : Kind) (poolSize i : Nat) :
    M (State F) ((Bool × Nat) × Bool) := fun s =>
  match prepareCluster ord i s with
  | .ok s1 _ =>
    match s1.clusters[i]? with
    | none => .ub
    | some c =>
      match c.connectivity with
      | none => .throw s1
      | some topos =>
        match messageRounds kind sched topos s1 with
        | .ok s2 true => .ok s2 ((true, c.nodes.length), true)
        | .ok s2 false =>
          match σ kind poolSize c topos s2 with
          | .ok s3 done => .ok s3 ((false, c.nodes.length), done)
          | .throw s3 => .throw s3
          | .ub => .ub
        | .throw s2 => .throw s2
        | .ub => .ub
  | .throw s1 => .throw s1
  | .ub => .ub

/-- The loop over the clusters. -/
def propagateClustersBy (σ : Strategy F) (ord : List Var → List Var) (sched : Sched) (kind : Kind) (poolSize : Nat) :
    List Nat → M (State F) (List ((Bool × Nat) × Bool))
  | [], s => .ok s []
  | i :: is, s =>
    match propagateClusterBy σ ord sched kind poolSize i s with
    | .ok s1 r =>
      match propagateClustersBy σ ord sched kind poolSize is s1 with
      | .ok s2 rs => .ok s2 (r :: rs)
      | .throw s2 => .throw s2
      | .ub => .ub
    | .throw s1 => .throw s1
    | .ub => .ub

/-- `BeliefAware::propagateBelief` (structure/bases/BeliefAware.cpp:76-114). When the strategy throws,
`lastPropagation` keeps the result of the propagation before, whose messages were reset. -/
def propagateBeliefBy (σ : Strategy F) (ord : List Var → List Var) (sched : Sched) (kind : Kind) : M (State F) Unit :=
  fun s =>
  if !s.wouldNeedPropagation kind then .ok s ()
  else
    match s.pool with
    | none => .throw s
    | some n =>
      match propagateClustersBy σ ord sched kind n (List.range s.clusters.length) s.resetMessages with
      | .ok s1 rs =>
        let r : PropResult :=
          { kind := kind, completed := rs.all (fun e => e.2), structures := rs.map (fun e => e.1) }
        .ok { s1 with last := some r } ()
      | .throw s1 => .throw s1
      | .ub => .ub

/-- `checkPropagation_` (structure/QueryManager.h:97-102). -/
def checkPropagationBy (σ : Strategy F) (ord : List Var → List Var) (sched : Sched) (kind : Kind) (threads : Nat) :
    M (State F) Unit := fun s =>
  if s.wouldNeedPropagation kind then withPool threads (propagateBeliefBy σ ord sched kind) s
  else .ok s ()

/-- `marginalQuery_` (structure/QueryManager.h:104-113). -/
def marginalQueryBy (σ : Strategy F) (ord : List Var → List Var) (sched : Sched) (kind : Kind) (v : Var)
    (threads : Nat) : M (State F) (List F) := fun s =>
  match checkPropagationBy σ ord sched kind threads s with
  | .ok s1 _ =>
    match s1.locate v with
    | none => .throw s1
    | some (node, loc) => lift (fun s => marginalAt ord s node loc) s1
  | .throw s1 => .throw s1
  | .ub => .ub

/-- `QueryManager::getMarginalDistribution` (structure/QueryManager.h:28-31). -/
def getMarginalBy (σ : Strategy F) (ord : List Var → List Var) (sched : Sched) (v : Var) (threads : Nat) :
    M (State F) (List F) := marginalQueryBy σ ord sched .sum v threads

/-- `QueryManager::getMAP` (structure/QueryManager.cpp:78-82). -/
def getMAPBy (σ : Strategy F) (ord : List Var → List Var) (sched : Sched) (v : Var) (threads : Nat) :
    M (State F) Nat := fun s =>
  match marginalQueryBy σ ord sched .map v threads s with
  | .ok s1 values => lift (fun _ => findMax values) s1
  | .throw s1 => .throw s1
  | .ub => .ub

/-- `QueryManager::getHiddenSetMAP` (structure/QueryManager.cpp:88-99). -/
def getHiddenSetMAPBy (σ : Strategy F) (ord : List Var → List Var) (sched : Sched) (threads : Nat) :
    M (State F) (List Nat) := fun s =>
  match checkPropagationBy σ ord sched .map threads s with
  | .ok s1 _ => lift (fun s => Res.mapList (mapOf ord s) (ord s.hiddenVariables)) s1
  | .throw s1 => .throw s1
  | .ub => .ub

/-- `QueryManager::getJointMarginalDistribution` (structure/QueryManager.cpp:101-144). -/
def getJointBy (σ : Strategy F) (ord : List Var → List Var) (shuffle : List Contribution → List Contribution)
    (sched : Sched) (g : Group) (threads : Nat) : M (State F) (Fn F) := fun s =>
  match checkPropagationBy σ ord sched .sum threads s with
  | .ok s1 _ => lift (jointOf ord shuffle g) s1
  | .throw s1 => .throw s1
  | .ub => .ub

end State

/-- A model together with its member `loopy_propagator` (structure/bases/BeliefAware.h). -/
structure Steered (F : Type) where
  state : State F
  strategy : Strategy F

namespace Steered

/-- A member function of the model which may use the strategy. -/
def ask {α : Type} (q : Strategy F → M (State F) α) : M (Steered F) α := fun x =>
  match q x.strategy x.state with
  | .ok s a => .ok { x with state := s } a
  | .throw s => .throw { x with state := s }
  | .ub => .ub

/-- `BeliefAware::setLoopyPropagationStrategy` (structure/bases/BeliefAware.cpp:17-23); `none` is
`nullptr`. The last propagation is not forgotten. -/
def setStrategy : Option (Strategy F) → M (Steered F) Unit
  | none => fun x => .throw x
  | some σ => fun x => .ok { x with strategy := σ } ()

end Steered
end EFG
