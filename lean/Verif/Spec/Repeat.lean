import Verif.Spec.Prudent
/-
Queries made with the same number of threads and the same iteration orders.
-/

namespace EFG
namespace GOp
variable {F : Type}

/-- A query about beliefs made with these orders and this number of threads. -/
inductive Asks (ord : List Var → List Var) (sched : Sched) (n : Nat) : GOp F → Prop where
  | marginal (v : Var) : Asks ord sched n (.marginal ord sched v n)
  | marginalByName (name : String) : Asks ord sched n (.marginalByName ord sched name n)
  | map (v : Var) : Asks ord sched n (.map ord sched v n)
  | hiddenSetMap : Asks ord sched n (.hiddenSetMap ord sched n)
  | joint (sh : List State.Contribution → List State.Contribution) (g : Group) : Asks ord sched n (.joint ord sh sched g n)

/-- A query about beliefs made with several threads, whatever their number and the order in which they
run the tasks. -/
def AsksThreads (ord : List Var → List Var) (op : GOp F) : Prop :=
  ∃ (sched : Sched) (n : Nat), (∀ l, (sched l).Perm l) ∧ 2 ≤ n ∧ op.Asks ord sched n

end GOp

namespace State
variable {F : Type} [Arith F]

/-- The queries about beliefs made with these orders and this number of threads have the same outcome,
values and exceptions, in both states, and leave the same state. -/
structure SameAnswers (ord : List Var → List Var) (sched : Sched) (n : Nat) (s t : State F) : Prop where
  marginal : ∀ v, getMarginal ord sched v n t = getMarginal ord sched v n s
  map : ∀ v, getMAP ord sched v n t = getMAP ord sched v n s
  hiddenSetMap : getHiddenSetMAP ord sched n t = getHiddenSetMAP ord sched n s
  joint : ∀ (sh : List Contribution → List Contribution) g, getJoint ord sh sched g n t = getJoint ord sh sched g n s

/-- The queries about beliefs made in `t` with `n'` threads, which run the tasks in the order `sched'`, have
the same outcome as those made in `s` with `n` threads and the order `sched`. -/
structure SameOutcome (ord : List Var → List Var) (sched : Sched) (n : Nat) (s : State F) (sched' : Sched) (n' : Nat)
    (t : State F) : Prop where
  marginal : ∀ v, getMarginal ord sched' v n' t = getMarginal ord sched v n s
  map : ∀ v, getMAP ord sched' v n' t = getMAP ord sched v n s
  hiddenSetMap : getHiddenSetMAP ord sched' n' t = getHiddenSetMAP ord sched n s
  joint : ∀ (sh : List Contribution → List Contribution) g,
    getJoint ord sh sched' g n' t = getJoint ord sh sched g n s

end State
end EFG
