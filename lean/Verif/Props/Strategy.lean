import Verif.Lemmas.Strategy
import Verif.Props.Propagation
import Verif.Props.Repeat
/-
C65: the propagation strategy set by the user only matters for the clusters with cycles.
-/

set_option linter.unusedSectionVars false

namespace EFG
variable {F : Type} [Arith F]

namespace State

theorem checkPropagationBy_forest {s : State F} (h : Reach Prudent s) (hno : ∀ c ∈ s.clusters, s.NoCycle c.nodes)
    (σ : Strategy F) {ord : List Var → List Var} (hord : ∀ l, (ord l).Perm l) {sched : Sched}
    (hsched : ∀ l, (sched l).Perm l) (kind : Kind) {n : Nat} (hn : 1 ≤ n) :
    checkPropagationBy σ ord sched kind n s = checkPropagation ord sched kind n s := by
  by_cases hw : s.wouldNeedPropagation kind = true
  · obtain ⟨s', r, h1, h2, h3, h4, h5, _⟩ := C24_trees_recognised_partial h hord hsched kind hn hw
    rw [h1]
    refine checkPropagationBy_tree hw h1 h2 ?_
    intro e he
    obtain ⟨j, hj, rfl⟩ := List.mem_iff_getElem.mp he
    have hj' : j < s.clusters.length := by rw [← h4]; exact hj
    obtain ⟨tree, g1, g2⟩ := h5 j s.clusters[j] (List.getElem?_eq_getElem hj')
    rw [List.getElem?_eq_getElem hj, Option.some.injEq] at g1
    rw [g1]
    exact g2.mpr (hno _ (List.getElem_mem hj'))
  · unfold checkPropagationBy checkPropagation
    rw [if_neg hw, if_neg hw]

theorem marginalQueryBy_congr {σ : Strategy F} {ord : List Var → List Var} {sched : Sched} {kind : Kind} {n : Nat}
    {s : State F} (h : checkPropagationBy σ ord sched kind n s = checkPropagation ord sched kind n s) (v : Var) :
    marginalQueryBy σ ord sched kind v n s = marginalQuery ord sched kind v n s := by
  unfold marginalQueryBy marginalQuery
  rw [h]
  cases checkPropagation ord sched kind n s with
  | ok s1 _ => simp only; cases s1.locate v <;> rfl
  | throw _ => rfl
  | ub => rfl

end State

/-- The queries about beliefs made with this strategy have the outcome, values and exceptions, of those made
with the strategy of the library, and leave the same state. -/
structure State.SameAsBaseline (σ : Strategy F) (ord : List Var → List Var) (sched : Sched) (n : Nat) (s : State F) :
    Prop where
  marginal : ∀ v, State.getMarginalBy σ ord sched v n s = State.getMarginal ord sched v n s
  map : ∀ v, State.getMAPBy σ ord sched v n s = State.getMAP ord sched v n s
  hiddenSetMap : State.getHiddenSetMAPBy σ ord sched n s = State.getHiddenSetMAP ord sched n s
  joint : ∀ (sh : List State.Contribution → List State.Contribution) g,
    State.getJointBy σ ord sh sched g n s = State.getJoint ord sh sched g n s

/-- C65: after any execution of prudent operations, when no cluster has a cycle of factors, the strategy
set by the user does not matter, even if it would corrupt the model, throw or have undefined behaviour:
all the queries have the outcome they have with the strategy of the library.

Missing: the executions which are not prudent (`C24_violated`). -/
theorem C65_forest_partial {s : State F} (h : Reach Prudent s) (hno : ∀ c ∈ s.clusters, s.NoCycle c.nodes)
    (σ : Strategy F) {ord : List Var → List Var} (hord : ∀ l, (ord l).Perm l) {sched : Sched}
    (hsched : ∀ l, (sched l).Perm l) {n : Nat} (hn : 1 ≤ n) : s.SameAsBaseline σ ord sched n := by
  have key := fun kind => State.checkPropagationBy_forest h hno σ hord hsched kind hn
  refine ⟨?_, ?_, ?_, ?_⟩
  · intro v
    exact State.marginalQueryBy_congr (key .sum) v
  · intro v
    unfold State.getMAPBy State.getMAP
    rw [State.marginalQueryBy_congr (key .map) v]
    cases State.marginalQuery ord sched .map v n s <;> rfl
  · unfold State.getHiddenSetMAPBy State.getHiddenSetMAP
    rw [key .map]
    cases State.checkPropagation ord sched .map n s <;> rfl
  · intro sh g
    unfold State.getJointBy State.getJoint
    rw [key .sum]
    cases State.checkPropagation ord sched .sum n s <;> rfl

/-- C65: after any execution of prudent operations, also when some clusters have cycles, suppose that a
query of the marginal of a variable returns with a strategy of the user which only writes the messages of
the cluster it is given. If the cluster of the variable has no cycle, the strategy of the library, with
any other number of threads and order of the tasks, returns the same values.

Missing: the executions which are not prudent (`C24_violated`). -/
theorem C65_mixed_partial {s : State F} (h : Reach Prudent s) {σ : Strategy F} (hσ : σ.Careful)
    {ord : List Var → List Var} (hord : ∀ l, (ord l).Perm l) (kind : Kind) {sched sched' : Sched}
    (hsched : ∀ l, (sched l).Perm l) (hsched' : ∀ l, (sched' l).Perm l) {n n' : Nat} (hn : 1 ≤ n) (hn' : 1 ≤ n')
    {c : Cluster} (hc : c ∈ s.clusters) (hno : s.NoCycle c.nodes) {v : Var} (hv : v ∈ c.nodes) {s2 : State F}
    {ps : List F} (hq : State.marginalQueryBy σ ord sched' kind v n' s = .ok s2 ps) :
    ∃ s1, State.marginalQuery ord sched kind v n s = .ok s1 ps := by
  unfold State.marginalQueryBy at hq
  cases hcp : State.checkPropagationBy σ ord sched' kind n' s with
  | throw _ => rw [hcp] at hq; cases hq
  | ub => rw [hcp] at hq; cases hq
  | ok x u =>
    rw [hcp] at hq
    simp only at hq
    obtain ⟨s1, h1, h3, h4, h5, h6, h7, h8, h9, h10⟩ :=
      State.checkPropagationBy_same hσ hord kind hsched hsched' hn hn' (reach_healthy h) hcp
    obtain ⟨j, hj⟩ := List.mem_iff_getElem?.mp hc
    have hvs := (reach_healthy h).inv.cluster_mem hj hv
    have hvh : v ∈ s1.hid := State.mem_hid.mpr ⟨by rw [h4.vars]; exact hvs.1, by rw [h4.toQuiet.obs]; exact hvs.2⟩
    have hvh2 : v ∈ x.hid := State.mem_hid.mpr ⟨by rw [h5.vars]; exact hvs.1, by rw [h5.toQuiet.obs]; exact hvs.2⟩
    have hb : x.belief ord v = .ok ps := by
      obtain ⟨i, hl⟩ := h7.inv.locate_eqv_hidden hvh2 (Var.eqv_refl v)
      rw [hl] at hq
      simp only [State.lift, State.marginalAt] at hq
      cases hbx : x.belief ord v with
      | ok a => rw [hbx] at hq; simp only at hq; cases hq; rfl
      | throw => rw [hbx] at hq; cases hq
      | ub => rw [hbx] at hq; cases hq
    have hb1 : s1.belief ord v = .ok ps := by
      obtain ⟨n1, hn1⟩ := State.node?_of_mem (s := s1) (v := v) (by
        rw [h6.inv.net.keys]; exact (State.mem_hid.mp hvh).1)
      obtain ⟨n2, hn2⟩ := State.node?_of_mem (s := x) (v := v) (by
        rw [h7.inv.net.keys]; exact (State.mem_hid.mp hvh2).1)
      have ha := h10 c hc hno v hv
      have hm := h3.mrg v
      unfold State.activeOf at ha
      unfold State.mrg at hm
      rw [hn1, hn2] at ha hm
      simp only at ha
      have hm' : n2.merged = n1.merged := hm
      rw [← hb]
      unfold State.belief
      rw [hn1, hn2]
      simp only
      unfold State.gatherIncoming State.activeMessage
      rw [ha, hm']
    refine ⟨s1, ?_⟩
    rw [State.marginalQuery_eq]
    unfold State.asks
    rw [h1]
    simp only [State.lift]
    rw [h6.inv.readMarginal_hidden hvh (Var.eqv_refl v), hb1]

/-- Queries of marginals, of one or the other kind, made one after the other with a strategy. -/
def State.askAllBy (σ : Strategy F) (ord : List Var → List Var) (sched : Sched) (n : Nat) :
    List (Kind × Var) → M (State F) (List (List F))
  | [], s => .ok s []
  | q :: qs, s =>
    match State.marginalQueryBy σ ord sched q.1 q.2 n s with
    | .ok s1 ps =>
      match State.askAllBy σ ord sched n qs s1 with
      | .ok s2 pss => .ok s2 (ps :: pss)
      | .throw s2 => .throw s2
      | .ub => .ub
    | .throw s1 => .throw s1
    | .ub => .ub

theorem State.askAllBy_ok {σ : Strategy F} (hσ : σ.Careful) (hok : ∀ kind n c ts x, ∃ y d, σ kind n c ts x = .ok y d)
    {ord : List Var → List Var} (hord : ∀ l, (ord l).Perm l) {sched : Sched} (hsched : ∀ l, (sched l).Perm l)
    {n : Nat} (hn : 1 ≤ n) : ∀ (qs : List (Kind × Var)) {s : State F}, Healthy s → (∀ q ∈ qs, q.2 ∈ s.vars) →
    ∃ s' pss, State.askAllBy σ ord sched n qs s = .ok s' pss ∧
      pss.map List.length = qs.map (fun q => q.2.size) := by
  intro qs
  induction qs with
  | nil => intro s _ _; exact ⟨s, [], rfl, rfl⟩
  | cons q qs ih =>
    intro s hs hq
    obtain ⟨s1, h1, h2, h3, h4⟩ := State.checkPropagationBy_total hσ hok hord q.1 hsched hn hs
    obtain ⟨ps, h5, h6⟩ := State.readMarginal_ok hord h3.inv (h3.alive h4)
      (by rw [h2.vars]; exact hq q (by simp)) (Var.eqv_refl q.2)
    have h7 : State.marginalQueryBy σ ord sched q.1 q.2 n s = .ok s1 ps := by
      unfold State.marginalQueryBy
      rw [h1]
      simp only
      unfold State.readMarginal at h5
      cases hl : s1.locate q.2 with
      | none => rw [hl] at h5; cases h5
      | some e =>
        rw [hl] at h5
        simp only at h5
        obtain ⟨node, loc⟩ := e
        simp only [State.lift]
        rw [h5]
    obtain ⟨s2, pss, h8, h9⟩ := ih h3 (fun q' hq' => by rw [h2.vars]; exact hq q' (by simp [hq']))
    refine ⟨s2, ps :: pss, ?_, by simp [h6, h9]⟩
    rw [State.askAllBy, h7]
    simp only
    rw [h8]

/-- C65: after any execution of prudent operations, with a strategy which always returns and only writes
the messages of the cluster it is given, any list of queries of marginals of both kinds returns
distributions of the right lengths: no query throws or has undefined behaviour.

Missing: the executions which are not prudent (`C24_violated`), and strategies which throw
(`C65_throw_violated`). -/
theorem C65_defined_partial {s : State F} (h : Reach Prudent s) {σ : Strategy F} (hσ : σ.Careful)
    (hok : ∀ kind n c ts x, ∃ y d, σ kind n c ts x = .ok y d)
    {ord : List Var → List Var} (hord : ∀ l, (ord l).Perm l) {sched : Sched} (hsched : ∀ l, (sched l).Perm l)
    {n : Nat} (hn : 1 ≤ n) {qs : List (Kind × Var)} (hqs : ∀ q ∈ qs, q.2 ∈ s.vars) :
    ∃ s' pss, State.askAllBy σ ord sched n qs s = .ok s' pss ∧ pss.map List.length = qs.map (fun q => q.2.size) :=
  State.askAllBy_ok hσ hok hord hsched hn qs (reach_healthy h) hqs

/-- C65: a null strategy is refused, and the model keeps the strategy, the factors, the beliefs and the
answers it had. -/
theorem C65_null (x : Steered F) : ∃ y, Steered.setStrategy none x = .throw y ∧ y.strategy = x.strategy ∧
    ∀ {α : Type} (q : Strategy F → M (State F) α), Steered.ask q y = Steered.ask q x :=
  ⟨x, rfl, rfl, fun _ => rfl⟩

/-! ### Examples -/

/-- The strategy which writes messages of ones in the cluster it is given, and says it did not converge. -/
def Strategy.flat : Strategy F := fun _ _ c _ s =>
  .ok (s.withMessages (fun u v => if u ∈ c.nodes then some (Fn.ones u) else s.received u v)) false

theorem Strategy.flat_careful : (Strategy.flat : Strategy F).Careful := by
  intro kind n c ts s s' done h
  cases h
  refine ⟨_, rfl, ?_, ?_⟩
  · intro u hu v; rw [if_neg hu]
  · intro u hu v _
    refine ⟨List.replicate u.size Arith.one, by simp, ?_⟩
    rw [if_pos hu]
    rfl

namespace Ex

/-- A fifth variable. -/
def U : Var := ⟨15, "U", 2⟩

/-- The functions of a cycle of three variables and of a pair of other variables. -/
def heapTwo : Heap (Ext ℚ) :=
  [una X 3 4, bin X Y 2 1 1 3, bin Y Z 1 2 2 1, bin X Z 2 1 1 2, bin V U 1 3 3 2, una V 1 2]

theorem heapTwo_reach : ∀ f ∈ heapTwo, FactorReach f := by
  intro f hf
  simp only [heapTwo, List.mem_cons, List.not_mem_nil, or_false] at hf
  rcases hf with rfl | rfl | rfl | rfl | rfl | rfl
  · exact build_reach (.single _) (by decide) _
  · exact build_reach (.soup (vars := [X, Y]) (by decide)) (by decide) _
  · exact build_reach (.soup (vars := [Y, Z]) (by decide)) (by decide) _
  · exact build_reach (.soup (vars := [X, Z]) (by decide)) (by decide) _
  · exact build_reach (.soup (vars := [V, U]) (by decide)) (by decide) _
  · exact build_reach (.single _) (by decide) _

/-- The cycle X, Y, Z, with one iteration allowed, and the pair V, U. -/
def two : State (Ext ℚ) :=
  (runActs [.iterations 1, .add 0, .add 1, .add 2, .add 3, .add 4, .add 5] (State.initial heapTwo)).1

theorem two_reach : Reach Prudent two :=
  Reach.mono (fun _ _ h => h.1) (runActs_drawless _ (.init heapTwo_reach) (by decide +kernel))

theorem two_structures : (match State.checkPropagation rev id .sum 1 two with
    | .ok s _ => s.last.map (fun r : PropResult => r.structures)
    | _ => none) = some [(false, 3), (true, 2)] := by decide +kernel

theorem two_clusters : two.clusters.map (fun c => c.nodes) = [[X, Y, Z], [V, U]] := by decide +kernel

theorem two_pair : ∃ c ∈ two.clusters, c.nodes = [V, U] ∧ two.NoCycle c.nodes := by
  obtain ⟨s', r, h1, h2, _, _, h3, _⟩ := C24_trees_recognised_partial two_reach (ord := rev) rev_perm (sched := id)
    (fun l => List.Perm.refl l) .sum (n := 1) (by omega) (by decide +kernel)
  have h4 := two_structures
  rw [h1] at h4
  simp only [h2, Option.map_some, Option.some.injEq] at h4
  obtain ⟨c, h5, h6⟩ : ∃ c, two.clusters[1]? = some c ∧ c.nodes = [V, U] := by
    have h5 : (two.clusters.map (fun c => c.nodes))[1]? = some [V, U] := by rw [two_clusters]; rfl
    rw [List.getElem?_map] at h5
    cases h : two.clusters[1]? with
    | none => rw [h] at h5; cases h5
    | some c => rw [h] at h5; exact ⟨c, rfl, Option.some.inj h5⟩
  obtain ⟨tree, h7, h8⟩ := h3 1 c h5
  rw [h4, h6] at h7
  refine ⟨c, List.mem_of_getElem? h5, h6, h8.mp ?_⟩
  simpa using h7.symm

/-- On the path, a strategy which has undefined behaviour is not called. -/
example : Reach Prudent (after path) ∧ (∀ c ∈ (after path).clusters, (after path).NoCycle c.nodes) ∧
    (answer (State.getMarginalBy (fun _ _ _ _ _ => .ub) rev id X 2 (after path))).isSome := by
  refine ⟨after_prudent _ (by decide +kernel), ?_, by decide +kernel⟩
  have h : (after path).clusters.map (fun c => c.nodes) = [[X, Y, Z]] := by decide +kernel
  intro c hc
  have : c.nodes ∈ (after path).clusters.map (fun c => c.nodes) := List.mem_map.mpr ⟨c, hc, rfl⟩
  rw [h, List.mem_singleton] at this
  rw [this]
  exact path_noCycle

/-- With the strategy of ones the variable X of the cycle gets another marginal than with the strategy of
the library, but U, which is in a pair without cycles, gets the same. -/
example : Reach Prudent two ∧ (Strategy.flat : Strategy (Ext ℚ)).Careful ∧
    (∃ c ∈ two.clusters, U ∈ c.nodes ∧ two.NoCycle c.nodes) ∧
    answer (State.getMarginalBy .flat rev id U 2 two) = some [.val (7 / 14), .val (7 / 14)] ∧
    answer (State.getMarginal rev id U 1 two) = some [.val (7 / 14), .val (7 / 14)] ∧
    answer (State.getMarginalBy .flat rev id X 2 two) = some [.val (3 / 7), .val (4 / 7)] ∧
    answer (State.getMarginal rev id X 1 two) ≠ some [.val (3 / 7), .val (4 / 7)] := by
  refine ⟨two_reach, Strategy.flat_careful, ?_, by decide +kernel, by decide +kernel, by decide +kernel, by decide +kernel⟩
  obtain ⟨c, h1, h2, h3⟩ := two_pair
  exact ⟨c, h1, by rw [h2]; decide, h3⟩

/-- Several questions with the strategy of ones. -/
example : Reach Prudent two ∧ (Strategy.flat : Strategy (Ext ℚ)).Careful ∧
    (∀ kind n c ts x, ∃ y d, (Strategy.flat : Strategy (Ext ℚ)) kind n c ts x = .ok y d) ∧
    (∀ q ∈ [(Kind.sum, X), (.map, U), (.sum, V)], q.2 ∈ two.vars) :=
  ⟨two_reach, Strategy.flat_careful, fun _ _ _ _ _ => ⟨_, _, rfl⟩, by decide +kernel⟩

/-- The triangle, after a query of a marginal. -/
def askedOnce : State (Ext ℚ) := after (triangle ++ [.askMarginal X])

theorem askedOnce_reach : Reach Prudent askedOnce := after_prudent _ (by decide +kernel)

/-- A strategy which throws and does nothing else. -/
def refuse : Strategy (Ext ℚ) := fun _ _ _ _ s => .throw s

/-- What a member function returns. -/
def told {α : Type} : Out (Steered (Ext ℚ)) α → Option α
  | .ok _ a => some a
  | _ => none

/-- The model after a call, which returned or threw. -/
def left {α : Type} : Out (Steered (Ext ℚ)) α → Option (Steered (Ext ℚ))
  | .ok x _ => some x
  | .throw x => some x
  | .ub => none

theorem askedOnce_flat : told (Steered.ask (fun σ => State.getMarginalBy σ rev id X 1) ⟨askedOnce, .flat⟩) =
    some [.val (9 / 25), .val (16 / 25)] := by decide +kernel

theorem askedOnce_fresh : (left (Steered.ask (fun σ => State.getMAPBy σ rev id Y 1) ⟨askedOnce, .flat⟩)).map
    (fun y => told (Steered.ask (fun σ => State.getMarginalBy σ rev id X 1) y)) =
    some (some [.val (3 / 7), .val (4 / 7)]) := by decide +kernel

theorem askedOnce_refuse : told (Steered.ask (fun σ => State.getMarginalBy σ rev id X 1) ⟨askedOnce, refuse⟩) =
    some [.val (9 / 25), .val (16 / 25)] := by decide +kernel

theorem askedOnce_throws : (match Steered.ask (fun σ => State.getMAPBy σ rev id Y 1) ⟨askedOnce, refuse⟩ with
    | .throw y => (match Steered.ask (fun σ => State.getMarginalBy σ rev id X 1) y with | .ub => true | _ => false)
    | _ => false) = true := by decide +kernel

end Ex

/-- C65 is violated when the strategy is set after a query: `setLoopyPropagationStrategy` does not reset the
last propagation, so on the triangle the next query of the same kind still returns what the strategy of
the library computed, unless a query of the other kind is made first. -/
theorem C65_stale_violated : ∃ (x y z : Steered (Ext ℚ)), Reach Prudent x.state ∧
    Steered.setStrategy (some .flat) x = .ok y () ∧
    Ex.told (Steered.ask (fun σ => State.getMarginalBy σ Ex.rev id Ex.X 1) x) = some [.val (9 / 25), .val (16 / 25)] ∧
    Ex.told (Steered.ask (fun σ => State.getMarginalBy σ Ex.rev id Ex.X 1) y) = some [.val (9 / 25), .val (16 / 25)] ∧
    Ex.left (Steered.ask (fun σ => State.getMAPBy σ Ex.rev id Ex.Y 1) y) = some z ∧
    Ex.told (Steered.ask (fun σ => State.getMarginalBy σ Ex.rev id Ex.X 1) z) = some [.val (3 / 7), .val (4 / 7)] := by
  have h := Ex.askedOnce_fresh
  cases hz : Ex.left (Steered.ask (fun σ => State.getMAPBy σ Ex.rev id Ex.Y 1) ⟨Ex.askedOnce, .flat⟩) with
  | none => rw [hz] at h; cases h
  | some z =>
    rw [hz, Option.map_some, Option.some.injEq] at h
    exact ⟨⟨Ex.askedOnce, .baseline id⟩, ⟨Ex.askedOnce, .flat⟩, z, Ex.askedOnce_reach, rfl, by decide +kernel,
      Ex.askedOnce_flat, hz, h⟩

/-- C65 is violated when the strategy throws: the messages were already reset, but the result of the
propagation before is kept. On the triangle, when the exception of a query of the other kind is caught,
the marginal which could be read before the exception has undefined behaviour: an absent message is
dereferenced. -/
theorem C65_throw_violated : ∃ (x y : Steered (Ext ℚ)), Reach Prudent x.state ∧ x.strategy = Ex.refuse ∧
    Ex.told (Steered.ask (fun σ => State.getMarginalBy σ Ex.rev id Ex.X 1) x) = some [.val (9 / 25), .val (16 / 25)] ∧
    Steered.ask (fun σ => State.getMAPBy σ Ex.rev id Ex.Y 1) x = .throw y ∧
    Steered.ask (fun σ => State.getMarginalBy σ Ex.rev id Ex.X 1) y = .ub := by
  have h := Ex.askedOnce_throws
  cases hy : Steered.ask (fun σ => State.getMAPBy σ Ex.rev id Ex.Y 1) ⟨Ex.askedOnce, Ex.refuse⟩ with
  | ok _ _ => rw [hy] at h; cases h
  | ub => rw [hy] at h; cases h
  | throw y =>
    rw [hy] at h
    simp only at h
    refine ⟨⟨Ex.askedOnce, Ex.refuse⟩, y, Ex.askedOnce_reach, rfl, Ex.askedOnce_refuse, hy, ?_⟩
    cases hq : Steered.ask (fun σ => State.getMarginalBy σ Ex.rev id Ex.X 1) y with
    | ub => rfl
    | ok _ _ => rw [hq] at h; cases h
    | throw _ => rw [hq] at h; cases h

end EFG
