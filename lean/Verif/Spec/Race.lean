import Verif.Model.Query
/-
The parallel execution of the tasks of one round of `message_passing`: every task first reads what it
needs and computes its message, and later writes it; these two steps of the tasks of a round are
interleaved in any way.
-/

namespace EFG
namespace State
variable {F : Type} [Arith F]

/-- What is left to do while the tasks of a round are executed: the tasks not started, the tasks which
have computed a message and not written it yet, and the state of the model. -/
structure Racing (F : Type) where
  todo : List Topo
  pending : List (Topo × Fn F)
  state : State F

/-- Executed alone in this state, the task would leave this message in its connection. -/
def Computes (kind : Kind) (s : State F) (t : Topo) (m : Fn F) : Prop :=
  ∃ s' x c, updateMessage kind t s = .ok s' (some x) ∧ s'.conn? t.conn = some c ∧ c.message = some m

/-- One step of one of the threads. -/
inductive RaceStep (kind : Kind) : Racing F → Racing F → Prop where
  | read (a b : List Topo) (t : Topo) (m : Fn F) (p : List (Topo × Fn F)) (s : State F) :
      Computes kind s t m → RaceStep kind ⟨a ++ t :: b, p, s⟩ ⟨a ++ b, (t, m) :: p, s⟩
  | write (l : List Topo) (a b : List (Topo × Fn F)) (t : Topo) (m : Fn F) (s : State F) :
      RaceStep kind ⟨l, a ++ (t, m) :: b, s⟩
        ⟨l, a ++ b, setActiveMessage t.conn.owner t.conn.from_ (some m) s⟩

/-- The loop of `message_passing`, started in the first state with these messages to compute, at some
point executes in parallel the tasks of the second list, from the second state. -/
inductive Rounds (kind : Kind) (sched : Sched) : State F → List Topo → State F → List Topo → Prop where
  | here {s : State F} {left now later : List Topo} : s.splitReady left = .ok (now, later) → now ≠ [] →
      Rounds kind sched s left s now
  | later {s s' s1 : State F} {left first later now : List Topo} : s.splitReady left = .ok (first, later) →
      first ≠ [] → messageRound kind sched first s = .ok s' () → Rounds kind sched s' later s1 now →
      Rounds kind sched s left s1 now

/-- The propagation of the belief, made in the first state by a query with `n` threads, executes in
parallel these tasks from the second state, while processing one of the clusters. -/
def RunsRound (ord : List Var → List Var) (sched : Sched) (kind : Kind) (n : Nat) (s s1 : State F)
    (now : List Topo) : Prop :=
  ∃ i sA rs sB c ts, i < s.clusters.length ∧
    propagateClusters ord sched kind n (List.range i) ({ s with pool := some n } : State F).resetMessages = .ok sA rs ∧
    prepareCluster ord i sA = .ok sB () ∧ sB.clusters[i]? = some c ∧ c.connectivity = some ts ∧
    Rounds kind sched sB ts s1 now

end State
end EFG
