import Verif.Lemmas.RepeatRun
import Verif.Spec.Repeat
import Verif.Props.TrainExamples
/-
C63: the answer of a query does not depend on the queries made before it.
-/

set_option linter.unusedSectionVars false

namespace EFG
variable {F : Type} [Arith F]

namespace State

/-- The states left by queries. -/
def AskedFrom (ord : List Var → List Var) (sched : Sched) (n : Nat) (s t : State F) : Prop :=
  t = s ∨ ∃ k, checkPropagation ord sched k n s = .ok t ()

theorem AskedFrom.check {ord : List Var → List Var} (hord : ∀ l, (ord l).Perm l) {sched : Sched}
    (hsched : ∀ l, (sched l).Perm l) {n : Nat} (hn : 1 ≤ n) {s t : State F} (hs : Healthy s) (hnew : s.last = none)
    (h : AskedFrom ord sched n s t) (k : Kind) :
    checkPropagation ord sched k n t = checkPropagation ord sched k n s := by
  rcases h with rfl | ⟨k', h⟩
  · rfl
  · exact checkPropagation_again hord hsched hn hs hnew k' k h

theorem AskedFrom.asks {α : Type} {ord : List Var → List Var} (hord : ∀ l, (ord l).Perm l) {sched : Sched}
    (hsched : ∀ l, (sched l).Perm l) {n : Nat} (hn : 1 ≤ n) {s t : State F} (hs : Healthy s) (hnew : s.last = none)
    (h : AskedFrom ord sched n s t) (k : Kind) (r : State F → Res α) :
    State.asks ord sched k n r t = State.asks ord sched k n r s := by
  unfold State.asks
  rw [h.check hord hsched hn hs hnew]

theorem AskedFrom.after {α : Type} {ord : List Var → List Var} (hord : ∀ l, (ord l).Perm l) {sched : Sched}
    (hsched : ∀ l, (sched l).Perm l) {n : Nat} (hn : 1 ≤ n) {s t : State F} (hs : Healthy s) (hnew : s.last = none)
    (h : AskedFrom ord sched n s t) (k : Kind) (r : State F → Res α) :
    match State.asks ord sched k n r t with
    | .ok t' _ => AskedFrom ord sched n s t'
    | .throw t' => AskedFrom ord sched n s t'
    | .ub => True := by
  rw [h.asks hord hsched hn hs hnew]
  obtain ⟨s', _, h1, _⟩ := checkPropagation_ok hord k hsched hs hn
  unfold State.asks
  rw [h1]
  simp only
  unfold lift
  cases r s' with
  | ok a => exact Or.inr ⟨k, h1⟩
  | throw => exact Or.inr ⟨k, h1⟩
  | ub => trivial

theorem AskedFrom.exec {ord : List Var → List Var} (hord : ∀ l, (ord l).Perm l) {sched : Sched}
    (hsched : ∀ l, (sched l).Perm l) {n : Nat} (hn : 1 ≤ n) {s t : State F} (hs : Healthy s) (hnew : s.last = none)
    (h : AskedFrom ord sched n s t) {op : GOp F} (ho : op.Asks ord sched n) :
    match op.exec t with
    | .ok t' _ => AskedFrom ord sched n s t'
    | .throw t' => AskedFrom ord sched n s t'
    | .ub => True := by
  have key : ∀ {α : Type} (x : M (State F) α) (k : Kind) (r : State F → Res α), x t = State.asks ord sched k n r t →
      match GOp.drop x t with
      | .ok t' _ => AskedFrom ord sched n s t'
      | .throw t' => AskedFrom ord sched n s t'
      | .ub => True := by
    intro α x k r hx
    have := h.after hord hsched hn hs hnew k r
    unfold GOp.drop
    rw [hx]
    cases hy : State.asks ord sched k n r t with
    | ok t' a => rw [hy] at this; exact this
    | throw t' => rw [hy] at this; exact this
    | ub => trivial
  cases ho with
  | marginal v => exact key _ _ _ (marginalQuery_eq ord sched .sum v n t)
  | marginalByName name =>
    show match GOp.drop (getMarginalByName ord sched name n) t with
      | .ok t' _ => AskedFrom ord sched n s t'
      | .throw t' => AskedFrom ord sched n s t'
      | .ub => True
    unfold GOp.drop getMarginalByName
    cases t.findVariable name with
    | ok v =>
      have := key (getMarginal ord sched v n) _ _ (marginalQuery_eq ord sched .sum v n t)
      unfold GOp.drop at this
      exact this
    | throw => exact h
    | ub => trivial
  | map v => exact key _ _ _ (getMAP_eq ord sched v n t)
  | hiddenSetMap => exact key _ _ _ (getHiddenSetMAP_eq ord sched n t)
  | joint sh g => exact key _ _ _ (getJoint_eq ord sh sched g n t)

theorem AskedFrom.run {ord : List Var → List Var} (hord : ∀ l, (ord l).Perm l) {sched : Sched}
    (hsched : ∀ l, (sched l).Perm l) {n : Nat} (hn : 1 ≤ n) {s : State F} (hs : Healthy s) (hnew : s.last = none) :
    ∀ (ops : List (GOp F)) {t t' : State F}, AskedFrom ord sched n s t → (∀ op ∈ ops, op.Asks ord sched n) →
    GOp.run ops t = some t' → AskedFrom ord sched n s t' := by
  intro ops
  induction ops with
  | nil => intro t t' h _ hr; cases hr; exact h
  | cons op ops ih =>
    intro t t' h ho hr
    have h1 := h.exec hord hsched hn hs hnew (ho op (by simp))
    rw [GOp.run] at hr
    cases he : op.exec t with
    | ok t1 _ => rw [he] at hr h1; exact ih h1 (fun o h => ho o (by simp [h])) hr
    | throw t1 => rw [he] at hr h1; exact ih h1 (fun o h => ho o (by simp [h])) hr
    | ub => rw [he] at hr; cases hr

end State

/-- C63: when nothing was asked since the last change of the model, after any execution of prudent
operations, whatever is then asked with one number of threads and the same orders of the containers,
in any order and any number of times, every query answers, or throws, exactly as if it had been the
first; it even leaves the same model. Clusters with cycles, whose messages are not exact and may not
have converged, are included, and any arithmetic.

Missing: the number of threads must be the same for the clusters with cycles (`C63_threads_violated`),
nothing may be asked before a change of the allowed number of iterations (`C63_iterations_violated`),
and the executions which are not prudent. -/
theorem C63_repeat_partial {s : State F} (h : Reach Prudent s) (hnew : s.last = none) {ord : List Var → List Var}
    (hord : ∀ l, (ord l).Perm l) {sched : Sched} (hsched : ∀ l, (sched l).Perm l) {n : Nat} (hn : 1 ≤ n)
    {asked : List (GOp F)} (hasks : ∀ op ∈ asked, op.Asks ord sched n) {t : State F} (hrun : GOp.run asked s = some t) :
    s.SameAnswers ord sched n t := by
  have hs := reach_healthy h
  have ht := State.AskedFrom.run hord hsched hn hs hnew asked (Or.inl rfl) hasks hrun
  have key := fun {α : Type} (k : Kind) (r : State F → Res α) => ht.asks hord hsched hn hs hnew k r
  refine ⟨?_, ?_, ?_, ?_⟩
  · intro v
    show State.marginalQuery ord sched .sum v n t = State.marginalQuery ord sched .sum v n s
    rw [State.marginalQuery_eq, State.marginalQuery_eq, key]
  · intro v; rw [State.getMAP_eq, State.getMAP_eq, key]
  · rw [State.getHiddenSetMAP_eq, State.getHiddenSetMAP_eq, key]
  · intro sh g; rw [State.getJoint_eq, State.getJoint_eq, key]

namespace Ex

/-- Questions about the triangle, two of which are refused. -/
def questions : List (GOp (Ext ℚ)) :=
  [.map rev id X 2, .marginal rev id W 2, .hiddenSetMap rev id 2, .marginalByName rev id "V" 2, .marginal rev id Y 2]

/-- The triangle, one iteration, two threads: after five questions the marginal of Z is that of before. -/
example : Reach Prudent (after triangle) ∧ (after triangle).last = none ∧
    (∀ op ∈ questions, op.Asks rev id 2) ∧ (GOp.run questions (after triangle)).isSome ∧
    ((after triangle).clusters.map (fun c => c.nodes)) = [[X, Y, Z]] ∧
    (GOp.run questions (after triangle)).map (fun t => answer (State.getMarginal rev id Z 2 t)) =
      some (answer (State.getMarginal rev id Z 2 (after triangle))) ∧
    (answer (State.getMarginal rev id Z 2 (after triangle))).isSome := by
  refine ⟨after_prudent _ (by decide +kernel), by decide +kernel, ?_, by decide +kernel, by decide +kernel, by decide +kernel, by decide +kernel⟩
  intro op ho
  simp only [questions, List.mem_cons, List.not_mem_nil, or_false] at ho
  rcases ho with rfl | rfl | rfl | rfl | rfl
  · exact .map X
  · exact .marginal W
  · exact .hiddenSetMap
  · exact .marginalByName "V"
  · exact .marginal Y

/-- A fourth variable. -/
def V : Var := ⟨14, "V", 2⟩

/-- The functions of a cycle of four variables. -/
def heapSquare : Heap (Ext ℚ) :=
  [una X 3 4, bin X Y 2 1 1 3, bin Y Z 1 2 2 1, bin Z V 2 1 1 2, bin X V 1 3 3 2]

theorem heapSquare_reach : ∀ f ∈ heapSquare, FactorReach f := by
  intro f hf
  simp only [heapSquare, List.mem_cons, List.not_mem_nil, or_false] at hf
  rcases hf with rfl | rfl | rfl | rfl | rfl
  · exact build_reach (.single _) (by decide) _
  · exact build_reach (.soup (vars := [X, Y]) (by decide)) (by decide) _
  · exact build_reach (.soup (vars := [Y, Z]) (by decide)) (by decide) _
  · exact build_reach (.soup (vars := [Z, V]) (by decide)) (by decide) _
  · exact build_reach (.soup (vars := [X, V]) (by decide)) (by decide) _

/-- The cycle X, Y, Z, V, with one iteration allowed. -/
def square : State (Ext ℚ) :=
  (runActs [.iterations 1, .add 0, .add 1, .add 2, .add 3, .add 4] (State.initial heapSquare)).1

theorem square_reach : Reach Prudent square :=
  Reach.mono (fun _ _ h => h.1) (runActs_drawless _ (.init heapSquare_reach) (by decide +kernel))

/-- The triangle, where two iterations are allowed after a query. -/
def changed : State (Ext ℚ) := after (triangle ++ [.askMarginal X, .iterations 2])

theorem changed_reach : Reach Prudent changed := after_prudent _ (by decide +kernel)

theorem changed_map : (GOp.run [.map rev id Y 1] changed).isSome := by decide +kernel

theorem changed_before : answer (State.getMarginal rev id X 1 changed) = some [.val (9 / 25), .val (16 / 25)] := by
  decide +kernel

theorem changed_after : (GOp.run [.map rev id Y 1] changed).map (fun t => answer (State.getMarginal rev id X 1 t)) =
    some (some [.val (1023 / 2795), .val (1772 / 2795)]) := by decide +kernel

end Ex

/-- C63 is violated when the number of threads changes: on a cycle of four variables, with one iteration
allowed, the messages are computed in different orders, and the marginal of a variable is not the same
with one thread and with two. -/
theorem C63_threads_violated : ∃ s : State (Ext ℚ), Reach Prudent s ∧ s.last = none ∧
    Ex.answer (State.getMarginal id id Ex.X 1 s) = some [.val (801 / 2609), .val (1808 / 2609)] ∧
    Ex.answer (State.getMarginal id id Ex.X 2 s) = some [.val (9 / 29), .val (20 / 29)] :=
  ⟨Ex.square, Ex.square_reach, by decide +kernel, by decide +kernel, by decide +kernel⟩

/-- C63 is violated when the allowed number of iterations was changed after a query: the messages which
were computed are kept, so the marginal of a variable of the triangle is the one of before, unless a
query of the other kind is made first. -/
theorem C63_iterations_violated : ∃ s t : State (Ext ℚ), Reach Prudent s ∧
    GOp.run [.map Ex.rev id Ex.Y 1] s = some t ∧
    Ex.answer (State.getMarginal Ex.rev id Ex.X 1 s) = some [.val (9 / 25), .val (16 / 25)] ∧
    Ex.answer (State.getMarginal Ex.rev id Ex.X 1 t) = some [.val (1023 / 2795), .val (1772 / 2795)] := by
  obtain ⟨t, ht⟩ := Option.isSome_iff_exists.mp Ex.changed_map
  refine ⟨Ex.changed, t, Ex.changed_reach, ht, Ex.changed_before, ?_⟩
  have := Ex.changed_after
  rw [ht, Option.map_some, Option.some.injEq] at this
  exact this

end EFG
