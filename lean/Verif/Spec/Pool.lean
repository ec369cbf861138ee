import Verif.Model.Pool
/- What a pool has to do with the tasks of a call, and the fair executions. -/

namespace EFG
namespace Pool

/-- The thread on which an event takes place. -/
def Event.thread : Event → Option Nat
  | .enter _ _ t | .leave _ _ t => some t
  | _ => none

/-- What thread `t` has to do for a call: the tasks whose number gives `t` modulo the number of threads, one
after the other, in order. -/
def turn (size : Nat) (j : Job) (t : Nat) : List Event :=
  ((List.range j.tasks).filter (fun k => k % size = t)).flatMap (fun k => [.enter j k t, .leave j k t])

/-- The events are exactly those of the tasks of a call, each thread having done its turn. -/
def Served (size : Nat) (j : Job) (es : List Event) : Prop :=
  (∀ e ∈ es, ∃ t, t < size ∧ e.thread = some t) ∧
  ∀ t, t < size → es.filter (fun e => e.thread = some t) = turn size j t

/-- A history of calls, one after the other: the tasks of each are begun and ended between its begin and its
return. The calls are numbered from `i`. -/
inductive History (size : Nat) : Nat → List Event → Prop where
  | nil : History size 0 []
  | call {i es l n} : History size i l → Served size ⟨i, n⟩ es →
      History size (i + 1) (l ++ .call ⟨i, n⟩ :: es ++ [.ret ⟨i, n⟩])

/-- The thread which owns the pool is in a call. -/
def MainPc.Calling : MainPc → Prop
  | .publish _ _ | .exec _ _ | .inside _ _ | .scan _ _ => True
  | _ => False

/-- Infinite executions in which every thread gets its turn again and again. A turn is lost when the thread
cannot go on. -/
structure Fair (size : Nat) (σ : Nat → Sys) (τ : Nat → Nat) : Prop where
  start : σ 0 = initial size
  next : ∀ i, Step (τ i) (σ i) (σ (i + 1)) ∨ (σ (i + 1) = σ i ∧ ∀ s', ¬ Step (τ i) (σ i) s')
  fair : ∀ t, t < size → ∀ i, ∃ i', i ≤ i' ∧ τ i' = t

end Pool
end EFG
