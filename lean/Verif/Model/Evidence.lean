import Verif.Model.Insert
/-
Evidences: structure/EvidenceManager.cpp.
-/

namespace EFG
namespace State
variable {F : Type} [Arith F]

/-- Neighbours along the active connections, as `compute_clusters_` reads them. -/
def activeKeys (s : State F) (v : Var) : List Var := AMap.keys (s.activeOf v)

/-- The clusters part of `setEvidence` (structure/EvidenceManager.cpp:36-45): the cluster loses the
node and is split. Dereferencing `clusters.end()` is undefined. -/
def splitCluster (ord : List Var → List Var) (v : Var) (i : Option Nat) : M (State F) Unit := fun s =>
  match i with
  | none => .ub
  | some i =>
    match s.clusters[i]? with
    | none => .ub
    | some c =>
      if c.nodes.length = 1 then .ok { s with clusters := s.clusters.eraseIdx i } ()
      else
        let parts := Clusters.make s.activeKeys (ord (c.nodes.filter (fun w => !decide (w = v))))
        .ok { s with clusters := s.clusters.eraseIdx i ++ parts } ()

/-- The hidden branch of `setEvidence` (structure/EvidenceManager.cpp:30-49). `begin()` of the map of
the active connections is always the first of the keys still present in the order chosen at the
beginning. -/
def observe (ord : List Var → List Var) (v : Var) (i : Option Nat) (value : Nat) :
    M (State F) Unit := fun s =>
  match forEach (disable v) (ord (AMap.keys (s.activeOf v))) s with
  | .ok s1 _ =>
    match splitCluster ord v i s1 with
    | .ok s2 _ => .ok { s2 with evidences := s2.evidences ++ [(v, value)] } ()
    | .throw s2 => .throw s2
    | .ub => .ub
  | .throw s1 => .throw s1
  | .ub => .ub

/-- The last loop of `setEvidence` (structure/EvidenceManager.cpp:55-61) for one neighbour `w`. The
search in the connections of the neighbour is not checked. -/
def conditionStep (v : Var) (value : Nat) (w : Var) : M (State F) Unit := fun s =>
  match AMap.find? (s.disabledOf w) v with
  | none => .ub
  | some c =>
    match s.deref c.factor with
    | .ok f =>
      match f.evidence v value with
      | .ok m => .ok (clearMerged w (setDisabledMessage w v (some m) s)) ()
      | .throw => .throw s
      | .ub => .ub
    | .throw => .throw s
    | .ub => .ub

/-- The end of `setEvidence` (structure/EvidenceManager.cpp:55-62). -/
def condition (ord : List Var → List Var) (v : Var) (value : Nat) : M (State F) Unit := fun s =>
  match forEach (conditionStep v value) (ord (AMap.keys (s.disabledOf v))) s with
  | .ok s1 _ => .ok s1.resetBelief ()
  | .throw s1 => .throw s1
  | .ub => .ub

/-- `EvidenceSetter::setEvidence` (structure/EvidenceManager.cpp:16-63). -/
def setEvidence (ord : List Var → List Var) (v : Var) (value : Nat) : M (State F) Unit := fun s =>
  if v.size ≤ value then .throw s
  else
    match s.locate v with
    | none => .throw s
    | some (node, .hidden i) =>
      match observe ord node i value s with
      | .ok s1 _ => condition ord node value s1
      | .throw s1 => .throw s1
      | .ub => .ub
    | some (node, .observed k) =>
      condition ord node value { s with evidences := AMap.modify s.evidences k (fun _ => value) }

/-- `EvidenceSetter::setEvidence` by name (structure/EvidenceManager.cpp:65-68). -/
def setEvidenceByName (ord : List Var → List Var) (name : String) (value : Nat) :
    M (State F) Unit := fun s =>
  match s.findVariable name with
  | .ok v => setEvidence ord v value s
  | .throw => .throw s
  | .ub => .ub

/-- One round of the loop of `removeEvidence_` (structure/EvidenceManager.cpp:79-83). -/
def reactivateStep (v w : Var) : M (State F) Unit := fun s =>
  match AMap.find? (s.disabledOf v) w with
  | some c => .ok (activate v w c.factor (clearMerged w s)) ()
  | none => .ub

/-- `EvidenceRemover::removeEvidence_` (structure/EvidenceManager.cpp:70-85). The variable is passed
by reference in the source; the model copies it, so a reference into the erased element is not
modelled. -/
def removeEvidence_ (ord : List Var → List Var) (v : Var) : M (State F) Unit := fun s =>
  match s.evidenceKey? v with
  | none => .throw s
  | some k =>
    match s.nodeKey? v with
    | none => .ub
    | some node =>
      let s0 := { s.resetBelief with evidences := AMap.erase s.evidences k }
      match forEach (reactivateStep node) (ord (AMap.keys (s0.disabledOf node))) s0 with
      | .ok s1 _ => .ok (clearMerged node s1) ()
      | .throw s1 => .throw s1
      | .ub => .ub

/-- `EvidenceRemover::resetState` (structure/EvidenceManager.cpp:125-134). -/
def resetState (ord : List Var → List Var) (s : State F) : State F :=
  let nodes := (AMap.keys s.nodes).filter (fun v => (s.evidenceKey? v).isNone)
  { s with clusters := Clusters.make s.activeKeys (ord nodes) }

/-- `EvidenceRemover::removeEvidence` (structure/EvidenceManager.cpp:87-90). -/
def removeEvidence (ord : List Var → List Var) (v : Var) : M (State F) Unit := fun s =>
  match removeEvidence_ ord v s with
  | .ok s1 _ => .ok (resetState ord s1) ()
  | .throw s1 => .throw s1
  | .ub => .ub

/-- `EvidenceRemover::removeEvidence` by name (structure/EvidenceManager.cpp:92-94). -/
def removeEvidenceByName (ord : List Var → List Var) (name : String) : M (State F) Unit := fun s =>
  match s.findVariable name with
  | .ok v => removeEvidence ord v s
  | .throw => .throw s
  | .ub => .ub

/-- `EvidenceRemover::removeEvidences` (structure/EvidenceManager.cpp:96-105). -/
def removeEvidences (ord : List Var → List Var) (vs : VarSet) : M (State F) Unit := fun s =>
  if vs.isEmpty then .ok s ()
  else
    match forEach (removeEvidence_ ord) (ord vs) s with
    | .ok s1 _ => .ok (resetState ord s1) ()
    | .throw s1 => .throw s1
    | .ub => .ub

/-- `EvidenceRemover::removeEvidences` by names (structure/EvidenceManager.cpp:107-114). The names are
given in the order in which the set of strings is iterated. -/
def removeEvidencesByName (ord : List Var → List Var) (names : List String) : M (State F) Unit := fun s =>
  match Res.mapList s.findVariable names with
  | .ok vs => removeEvidences ord (vs.foldl VarSet.emplace []) s
  | .throw => .throw s
  | .ub => .ub

/-- `EvidenceRemover::removeAllEvidences` (structure/EvidenceManager.cpp:116-123). -/
def removeAllEvidences (ord : List Var → List Var) : M (State F) Unit := fun s =>
  match forEach (removeEvidence_ ord) (ord (AMap.keys s.evidences)) s with
  | .ok s1 _ => .ok (resetState ord s1) ()
  | .throw s1 => .throw s1
  | .ub => .ub

end State
end EFG
