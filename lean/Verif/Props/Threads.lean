import Verif.Lemmas.LoopySame
import Verif.Props.Repeat
/-
C64: with several threads, neither their number nor the order in which they run changes an answer.
-/

set_option linter.unusedSectionVars false

namespace EFG
variable {K : Type} [Field K] [LinearOrder K] [IsStrictOrderedRing K] [FloatParams K]

namespace State

theorem asks_threads {α : Type} {ord : List Var → List Var} (hord : ∀ l, (ord l).Perm l) {sched sched' : Sched}
    (hsched : ∀ l, (sched l).Perm l) (hsched' : ∀ l, (sched' l).Perm l) {n n' : Nat} (hn : 2 ≤ n) (hn' : 2 ≤ n')
    {s : State (Ext K)} (hs : Healthy s) (k : Kind) (r : State (Ext K) → Res α) :
    State.asks ord sched' k n' r s = State.asks ord sched k n r s := by
  unfold State.asks
  rw [checkPropagation_threads hord hsched hsched' hn hn' hs]

theorem AskedFrom.threads {ord : List Var → List Var} (hord : ∀ l, (ord l).Perm l) {sched sched' : Sched}
    (hsched : ∀ l, (sched l).Perm l) (hsched' : ∀ l, (sched' l).Perm l) {n n' : Nat} (hn : 2 ≤ n) (hn' : 2 ≤ n')
    {s t : State (Ext K)} (hs : Healthy s) (h : AskedFrom ord sched n s t) : AskedFrom ord sched' n' s t := by
  rcases h with h | ⟨k, h⟩
  · exact Or.inl h
  · exact Or.inr ⟨k, by rw [checkPropagation_threads hord hsched hsched' hn hn' hs]; exact h⟩

theorem AskedFrom.runThreads {ord : List Var → List Var} (hord : ∀ l, (ord l).Perm l) {sched : Sched}
    (hsched : ∀ l, (sched l).Perm l) {n : Nat} (hn : 2 ≤ n) {s : State (Ext K)} (hs : Healthy s) (hnew : s.last = none) :
    ∀ (ops : List (GOp (Ext K))) {t t' : State (Ext K)}, AskedFrom ord sched n s t → (∀ op ∈ ops, op.AsksThreads ord) →
    GOp.run ops t = some t' → AskedFrom ord sched n s t' := by
  intro ops
  induction ops with
  | nil => intro t t' h _ hr; cases hr; exact h
  | cons op ops ih =>
    intro t t' h ho hr
    obtain ⟨sched', n', hs', hn', ho'⟩ := ho op (by simp)
    have h1 := (h.threads hord hsched hs' hn hn' hs).exec hord hs' (by omega) hs hnew ho'
    rw [GOp.run] at hr
    cases he : op.exec t with
    | ok t1 _ =>
      rw [he] at hr h1
      exact ih (h1.threads hord hs' hsched hn' hn hs) (fun o h => ho o (by simp [h])) hr
    | throw t1 =>
      rw [he] at hr h1
      exact ih (h1.threads hord hs' hsched hn' hn hs) (fun o h => ho o (by simp [h])) hr
    | ub => rw [he] at hr; cases hr

end State

/-- C64: after any execution of prudent operations, a query about beliefs made with two or more threads
has one outcome (values, exceptions, and the model it leaves), whatever the number of threads and the
order in which their tasks run, also when some clusters have cycles and whether or not their messages
converge. The numbers are those of any ordered field, and NaN.

Missing: the executions which are not prudent. One thread computes other messages
(`C63_threads_violated`). -/
theorem C64_threads_partial {s : State (Ext K)} (h : Reach Prudent s) {ord : List Var → List Var}
    (hord : ∀ l, (ord l).Perm l) {sched sched' : Sched} (hsched : ∀ l, (sched l).Perm l)
    (hsched' : ∀ l, (sched' l).Perm l) {n n' : Nat} (hn : 2 ≤ n) (hn' : 2 ≤ n') :
    State.SameOutcome ord sched n s sched' n' s := by
  have hs := reach_healthy h
  have key := fun {α : Type} (k : Kind) (r : State (Ext K) → Res α) =>
    State.asks_threads hord hsched hsched' hn hn' hs k r
  refine ⟨?_, ?_, ?_, ?_⟩
  · intro v
    show State.marginalQuery ord sched' .sum v n' s = State.marginalQuery ord sched .sum v n s
    rw [State.marginalQuery_eq, State.marginalQuery_eq, key]
  · intro v; rw [State.getMAP_eq, State.getMAP_eq, key]
  · rw [State.getHiddenSetMAP_eq, State.getHiddenSetMAP_eq, key]
  · intro sh g; rw [State.getJoint_eq, State.getJoint_eq, key]

/-- C64: the number of threads and the order of the tasks may even change from one query to the next:
when nothing was asked since the last change of the model, after any list of queries made with two or
more threads each, a query with two or more threads has the outcome of a first query with any other
number of threads and any other order.

Missing: the same as for `C64_threads_partial`. -/
theorem C64_mixed_partial {s : State (Ext K)} (h : Reach Prudent s) (hnew : s.last = none) {ord : List Var → List Var}
    (hord : ∀ l, (ord l).Perm l) {asked : List (GOp (Ext K))} (hasks : ∀ op ∈ asked, op.AsksThreads ord)
    {t : State (Ext K)} (hrun : GOp.run asked s = some t) {sched sched' : Sched} (hsched : ∀ l, (sched l).Perm l)
    (hsched' : ∀ l, (sched' l).Perm l) {n n' : Nat} (hn : 2 ≤ n) (hn' : 2 ≤ n') :
    State.SameOutcome ord sched n s sched' n' t := by
  have hs := reach_healthy h
  have ht := State.AskedFrom.runThreads hord hsched' hn' hs hnew asked (Or.inl rfl) hasks hrun
  have key := fun {α : Type} (k : Kind) (r : State (Ext K) → Res α) =>
    (ht.asks hord hsched' (by omega) hs hnew k r).trans (State.asks_threads hord hsched hsched' hn hn' hs k r)
  refine ⟨?_, ?_, ?_, ?_⟩
  · intro v
    show State.marginalQuery ord sched' .sum v n' t = State.marginalQuery ord sched .sum v n s
    rw [State.marginalQuery_eq, State.marginalQuery_eq, key]
  · intro v; rw [State.getMAP_eq, State.getMAP_eq, key]
  · rw [State.getHiddenSetMAP_eq, State.getHiddenSetMAP_eq, key]
  · intro sh g; rw [State.getJoint_eq, State.getJoint_eq, key]

namespace Ex

/-- Questions about the cycle, with different numbers of threads and orders. -/
def threadQuestions : List (GOp (Ext ℚ)) :=
  [.map id List.reverse X 3, .marginal id id W 2, .hiddenSetMap id List.reverse 5]

theorem threadQuestions_asks : ∀ op ∈ threadQuestions, op.AsksThreads id := by
  intro op ho
  simp only [threadQuestions, List.mem_cons, List.not_mem_nil, or_false] at ho
  rcases ho with rfl | rfl | rfl
  · exact ⟨List.reverse, 3, fun l => l.reverse_perm, by decide, .map X⟩
  · exact ⟨id, 2, fun l => List.Perm.refl l, by decide, .marginal W⟩
  · exact ⟨List.reverse, 5, fun l => l.reverse_perm, by decide, .hiddenSetMap⟩

theorem threadQuestions_answer : (GOp.run threadQuestions square).map
    (fun t => answer (State.getMarginal id List.reverse X 3 t)) = some (some [.val (9 / 29), .val (20 / 29)]) := by
  decide +kernel

/-- The cycle of four variables: after these questions, three threads which run the tasks backwards give
the marginal of two threads. -/
example : Reach Prudent square ∧ square.last = none ∧ (∀ op ∈ threadQuestions, op.AsksThreads id) ∧
    (∀ l : List (Topo × Nat), (List.reverse l).Perm l) ∧
    (GOp.run threadQuestions square).map (fun t => answer (State.getMarginal id List.reverse X 3 t)) =
      some (some [.val (9 / 29), .val (20 / 29)]) ∧
    answer (State.getMarginal id id X 2 square) = some [.val (9 / 29), .val (20 / 29)] :=
  ⟨square_reach, by decide +kernel, threadQuestions_asks, fun l => l.reverse_perm, threadQuestions_answer,
    by decide +kernel⟩

end Ex
end EFG
