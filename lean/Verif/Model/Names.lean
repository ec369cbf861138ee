import Verif.Model.Query
/- The queries which take names (structure/QueryManager.cpp). The query of a marginal by name is in Model/Query, the
overloads of the evidences are in Model/Evidence. -/

namespace EFG
namespace State

variable {F : Type} [Arith F]

/-- `QueryManager::getMAP` by name (structure/QueryManager.cpp:84-86). -/
def getMAPByName (ord : List Var → List Var) (sched : Sched) (name : String) (threads : Nat) :
    M (State F) Nat := fun s =>
  match s.findVariable name with
  | .ok v => getMAP ord sched v threads s
  | .throw => .throw s
  | .ub => .ub

/-- `QueryManager::getJointMarginalDistribution` by names (structure/QueryManager.cpp:146-153). -/
def getJointByName (ord : List Var → List Var) (shuffle : List Contribution → List Contribution)
    (sched : Sched) (names : List String) (threads : Nat) : M (State F) (Fn F) := fun s =>
  match Res.mapList s.findVariable names with
  | .ok vs =>
    match Group.ofSoup vs with
    | .ok g => getJoint ord shuffle sched g threads s
    | .throw => .throw s
    | .ub => .ub
  | .throw => .throw s
  | .ub => .ub

end State
end EFG
