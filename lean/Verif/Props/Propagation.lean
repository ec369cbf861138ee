import Verif.Lemmas.Ask
import Verif.Lemmas.Max
import Verif.Props.Examples
/-
C24, C27: what the propagation reports about the clusters, and the queries of observed variables.
-/

namespace EFG
variable {F : Type} [Arith F]

/-! ### C24 -/

omit [Arith F] in
theorem State.hiddenGraph_congr {s s' : State F} (hq : State.Quiet s s') : s'.hiddenGraph = s.hiddenGraph := by
  have hh := hq.heap
  have hv := hq.vars
  have hf := hq.factors
  have he := hq.evidences
  ext u v
  simp only [State.hiddenGraph, State.Hidden, State.Observes, State.Joins, State.FactorOn, hh, hv, hf, he]

/-- C24: after any execution of prudent operations, a propagation of any kind, with any positive
number of threads, any schedule and any iteration order, returns, and reports for each cluster of
hidden variables its size and the structure "tree" exactly when no cycle of factors goes through
its variables; the query which started the propagation returns too.

Missing: the executions which insert a factor between variables of different size (`C24_violated`),
or remove the evidence of only one of two adjacent observed variables. -/
theorem C24_trees_recognised_partial {s : State F} (h : Reach Prudent s) {ord : List Var → List Var}
    (hord : ∀ l, (ord l).Perm l) {sched : Sched} (hsched : ∀ l, (sched l).Perm l) (kind : Kind) {n : Nat} (hn : 1 ≤ n)
    (hneed : s.wouldNeedPropagation kind = true) :
    ∃ s' r, State.checkPropagation ord sched kind n s = .ok s' () ∧ s'.last = some r ∧ r.kind = kind ∧
      r.structures.length = s.clusters.length ∧
      (∀ (j : Nat) (c : Cluster), s.clusters[j]? = some c → ∃ tree, r.structures[j]? = some (tree, c.nodes.length) ∧
        (tree = true ↔ s.NoCycle c.nodes)) ∧
      ∀ v ∈ s.vars, ∃ ps, State.marginalQuery ord sched kind v n s = .ok s' ps := by
  have hs := reach_healthy h
  obtain ⟨s', r, h1, h2, h3, h4, h5, h6⟩ := State.checkPropagation_run hord kind hsched hs hn hneed
  have hcl := h2.toQuiet.clusters
  have hlen : s'.clusters.length = s.clusters.length := by
    have := congrArg List.length hcl
    simpa using this
  refine ⟨s', r, h1, h4, h5, by rw [h6.settled.len, hlen], ?_, ?_⟩
  · intro j c hc
    have hj : j < r.structures.length := by
      rw [h6.settled.len, hlen]; exact (List.getElem?_eq_some_iff.mp hc).1
    obtain ⟨c', g1, g2, g3⟩ := h6.settled.done j hj
    have hnodes : c'.nodes = c.nodes := by
      have e1 : (s'.clusters.map (·.nodes))[j]? = some c'.nodes := by rw [List.getElem?_map, g1]; rfl
      have e2 : (s.clusters.map (·.nodes))[j]? = some c.nodes := by rw [List.getElem?_map, hc]; rfl
      rw [hcl, e2] at e1
      exact (Option.some.inj e1).symm
    have hno : s'.NoCycle c.nodes ↔ s.NoCycle c.nodes := by
      unfold State.NoCycle
      rw [State.hiddenGraph_congr h2.toQuiet]
    refine ⟨r.structures[j].1, ?_, ?_⟩
    · rw [List.getElem?_eq_getElem hj, ← hnodes, ← g2]
    · rw [← hno, ← hnodes]
      obtain ⟨ts, k1, k2, k3, k4, k5⟩ := g3.ready
      constructor
      · intro ht; exact k2.noCycle h3.inv.toCore (k4 ht)
      · intro hn'
        by_contra hf
        obtain ⟨u, hu, c0, hc0⟩ := k2.cycle h3.inv.toCore (k5 (by simpa using hf))
        exact hn' u hu c0 hc0
  · intro v hv
    obtain ⟨s2, ps, e1, _⟩ := State.getMarginal_ok hord kind hsched hs hn hv (Var.eqv_refl v)
    refine ⟨ps, ?_⟩
    rw [e1]
    rw [State.marginalQuery_eq] at e1
    unfold State.asks at e1
    rw [h1] at e1
    simp only [State.lift] at e1
    cases hr : State.readMarginal ord v s' with
    | ok a => rw [hr] at e1; simp only at e1; cases e1; rfl
    | throw => rw [hr] at e1; simp only at e1; cases e1
    | ub => rw [hr] at e1; simp only at e1; cases e1

/-- The path is a tree, the triangle is not. -/
example : Reach Prudent (Ex.after Ex.path) ∧ (Ex.after Ex.path).wouldNeedPropagation .sum = true ∧
    (match State.checkPropagation Ex.rev List.reverse .sum 2 (Ex.after Ex.path) with
      | .ok s _ => s.last.map (fun r : PropResult => r.structures)
      | _ => none) = some [(true, 3)] :=
  ⟨Ex.Reach.mono (fun _ _ h => h.1) Ex.path_reach, by decide +kernel, by decide +kernel⟩

example : Reach Prudent (Ex.after Ex.triangle) ∧ (Ex.after Ex.triangle).wouldNeedPropagation .map = true ∧
    (match State.checkPropagation Ex.rev List.reverse .map 2 (Ex.after Ex.triangle) with
      | .ok s _ => s.last.map (fun r : PropResult => r.structures)
      | _ => none) = some [(false, 3)] :=
  ⟨Ex.Reach.mono (fun _ _ h => h.1) Ex.triangle_reach, by decide +kernel, by decide +kernel⟩

/-- The path has no cycle. -/
theorem Ex.path_noCycle : (Ex.after Ex.path).NoCycle [Ex.X, Ex.Y, Ex.Z] := by
  obtain ⟨s', r, h1, h2, _, _, h3, _⟩ := C24_trees_recognised_partial
    (Ex.Reach.mono (fun _ _ h => h.1) Ex.path_reach) (ord := Ex.rev) Ex.rev_perm (sched := List.reverse)
    (fun l => List.reverse_perm l) .sum (n := 2) (by omega) (by decide +kernel)
  have h4 : (match State.checkPropagation Ex.rev List.reverse .sum 2 (Ex.after Ex.path) with
      | .ok s _ => s.last.map (fun r : PropResult => r.structures)
      | _ => none) = some [(true, 3)] := by decide +kernel
  rw [h1] at h4
  simp only [h2, Option.map_some, Option.some.injEq] at h4
  obtain ⟨c, h5, h6⟩ : ∃ c, (Ex.after Ex.path).clusters[0]? = some c ∧ c.nodes = [Ex.X, Ex.Y, Ex.Z] := by
    have h5 : ((Ex.after Ex.path).clusters[0]?).map (·.nodes) = some [Ex.X, Ex.Y, Ex.Z] := by decide +kernel
    cases h : (Ex.after Ex.path).clusters[0]? with
    | none => rw [h] at h5; cases h5
    | some c => rw [h] at h5; exact ⟨c, rfl, Option.some.inj h5⟩
  obtain ⟨tree, h7, h8⟩ := h3 0 c h5
  rw [h4, h6] at h7
  rw [← h6]
  refine h8.mp ?_
  simpa using h7.symm

/-- C24 is violated when a factor joins variables of different sizes: the factor is accepted, and the
propagation of the belief on this tree reads its images out of bounds. -/
theorem C24_violated : ∃ s : State (Ext ℚ), Reach anyOp s ∧ s.wouldNeedPropagation .sum = true ∧
    s.clusters.map (·.nodes) = [[Ex.Z, Ex.W]] ∧
    ∀ v ∈ [Ex.Z, Ex.W], State.getMarginal Ex.rev id v 1 s = .ub := by
  refine ⟨Ex.after [.add 6], Ex.after_any _, by decide +kernel, by decide +kernel, ?_⟩
  intro v hv
  have : (match State.getMarginal Ex.rev id v 1 (Ex.after [.add 6]) with | .ub => true | _ => false) = true := by
    revert v; decide +kernel
  cases h : State.getMarginal Ex.rev id v 1 (Ex.after [.add 6]) with
  | ub => rfl
  | ok a b => rw [h] at this; cases this
  | throw a => rw [h] at this; cases this

/-! ### C27 -/

/-- The certain distribution on a value. -/
def certain (size k : Nat) : List F := (List.range size).map (fun i => if i = k then Arith.one else Arith.zero)

theorem certain_eq (size k : Nat) : (List.replicate size (Arith.zero : F)).set k Arith.one = certain size k := by
  refine List.ext_getElem (by simp [certain]) ?_
  intro i h1 h2
  rw [List.getElem_set]
  by_cases h : k = i
  · simp [certain, h]
  · simp [certain, h, Ne.symm h]

/-- C27: in every reachable state, when the query of the marginal of an observed variable returns, it
gives 1 to the observed value and 0 to the others. The variable may be given by a copy with the same
name and size.

Missing: that the query returns, see `C27_total_partial` and `C27_violated`. -/
theorem C27_observed_marginal_partial {allowed : State F → GOp F → Prop} {s : State F} (h : Reach allowed s)
    {ord : List Var → List Var} (hord : ∀ l, (ord l).Perm l) {sched : Sched} {n : Nat} {v w : Var} {k : Nat}
    (hv : (v, k) ∈ s.evidences) (hw : v.eqv w = true) {s' : State F} {ps : List F}
    (hq : State.getMarginal ord sched w n s = .ok s' ps) : ps = certain v.size k := by
  have hs := reach_inv h
  unfold State.getMarginal at hq
  rw [State.marginalQuery_eq] at hq
  have ha := State.checkPropagation_asked (F := F) hord sched .sum n s hs
  unfold State.asks at hq
  cases hp : State.checkPropagation ord sched .sum n s with
  | ok s1 u =>
    rw [hp] at hq ha
    simp only [State.lift] at hq
    have hk : AMap.find? s1.evidences v = some k := by
      rw [ha.evidences]
      exact AMap.find?_of_mem hs.obsNodup hv
    rw [(ha.inv hs).toCore.readMarginal_observed hk hw] at hq
    cases hq
    exact certain_eq _ _
  | throw s1 => rw [hp] at hq; cases hq
  | ub => rw [hp] at hq; cases hq

/-- C27: likewise the MAP query returns the observed value.

Missing: that the query returns, see `C27_total_partial` and `C27_violated`. -/
theorem C27_observed_map_partial {K : Type} [Field K] [LinearOrder K] [IsStrictOrderedRing K] [FloatParams K]
    {allowed : State (Ext K) → GOp (Ext K) → Prop} {s : State (Ext K)} (h : Reach allowed s)
    {ord : List Var → List Var} (hord : ∀ l, (ord l).Perm l) {sched : Sched} {n : Nat} {v w : Var} {k : Nat}
    (hv : (v, k) ∈ s.evidences) (hw : v.eqv w = true) {s' : State (Ext K)} {x : Nat}
    (hq : State.getMAP ord sched w n s = .ok s' x) : x = k := by
  have hs := reach_inv h
  rw [State.getMAP_eq] at hq
  have ha := State.checkPropagation_asked (F := Ext K) hord sched .map n s hs
  unfold State.asks at hq
  cases hp : State.checkPropagation ord sched .map n s with
  | ok s1 u =>
    rw [hp] at hq ha
    simp only [State.lift, State.readMAP] at hq
    have hk : AMap.find? s1.evidences v = some k := by
      rw [ha.evidences]
      exact AMap.find?_of_mem hs.obsNodup hv
    have hlt := (ha.inv hs).obsVal v k hk
    rw [(ha.inv hs).toCore.readMarginal_observed hk hw, certain_eq] at hq
    have hmap : (certain v.size k : List (Ext K)) =
        ((List.range v.size).map (fun i => if i = k then (1 : K) else 0)).map Ext.val := by
      rw [List.map_map]
      refine List.map_congr_left ?_
      intro i _
      by_cases hi : i = k <;> simp [hi]
    have hne : (List.range v.size).map (fun i => if i = k then (1 : K) else 0) ≠ [] := by
      intro h0
      have := congrArg List.length h0
      simp at this
      omega
    obtain ⟨k', e1, y, e2, e3, _⟩ := State.findMax_val hne
    rw [hmap] at hq
    simp only [e1] at hq
    cases hq
    have h1 := e3 k 1 (by simp [hlt])
    rw [List.getElem?_map] at e2
    cases hr : (List.range v.size)[x]? with
    | none => rw [hr] at e2; cases e2
    | some i =>
      rw [hr] at e2
      simp only [Option.map_some, Option.some.injEq] at e2
      obtain ⟨hx, hi⟩ := List.getElem?_eq_some_iff.mp hr
      rw [List.getElem_range] at hi
      by_cases hik : i = k
      · omega
      · rw [if_neg hik] at e2
        rw [← e2] at h1
        exact absurd h1 (by norm_num)
  | throw s1 => rw [hp] at hq; cases hq
  | ub => rw [hp] at hq; cases hq

/-- C27: after any execution of prudent operations the queries of an observed variable return, so that
both facts above hold without condition.

Missing: the executions which are not prudent (`C27_violated`). -/
theorem C27_total_partial {K : Type} [Field K] [LinearOrder K] [IsStrictOrderedRing K] [FloatParams K]
    {s : State (Ext K)} (h : Reach Prudent s) {ord : List Var → List Var} (hord : ∀ l, (ord l).Perm l) {sched : Sched}
    (hsched : ∀ l, (sched l).Perm l) {n : Nat} (hn : 1 ≤ n) {v w : Var} {k : Nat} (hv : (v, k) ∈ s.evidences)
    (hw : v.eqv w = true) :
    (∃ s', State.getMarginal ord sched w n s = .ok s' (certain v.size k)) ∧
    ∃ s', State.getMAP ord sched w n s = .ok s' k := by
  have hs := reach_healthy h
  have hvv : v ∈ s.vars := hs.inv.obsMem v (List.mem_map.mpr ⟨(v, k), hv, rfl⟩)
  obtain ⟨s1, ps, h1, _⟩ := State.getMarginal_ok hord .sum hsched hs hn hvv hw
  obtain ⟨s2, x, _, h2, _⟩ := State.getMAP_ok hord hsched hs hn hvv hw
  have e1 := C27_observed_marginal_partial h hord hv hw h1
  have e2 := C27_observed_map_partial h hord hv hw h2
  subst e1; subst e2
  exact ⟨⟨s1, h1⟩, s2, h2⟩

/-- Y observed on the path. -/
example : Reach Prudent (Ex.after (Ex.path ++ [.observe Ex.Y 1])) ∧
    (Ex.Y, 1) ∈ (Ex.after (Ex.path ++ [.observe Ex.Y 1])).evidences :=
  ⟨Ex.after_prudent _ (by decide +kernel), by decide +kernel⟩

/-- C27 is violated when two other variables, of different sizes, are joined by a factor: the query of
the observed variable first propagates the belief, and this is undefined. -/
theorem C27_violated : ∃ s : State (Ext ℚ), Reach anyOp s ∧ (Ex.X, 0) ∈ s.evidences ∧
    State.getMarginal Ex.rev id Ex.X 1 s = .ub ∧ State.getMAP Ex.rev id Ex.X 1 s = .ub := by
  refine ⟨Ex.after [.add 0, .add 6, .observe Ex.X 0], Ex.after_any _, by decide +kernel, ?_, ?_⟩
  · have : (match State.getMarginal Ex.rev id Ex.X 1 (Ex.after [.add 0, .add 6, .observe Ex.X 0]) with
        | .ub => true | _ => false) = true := by decide +kernel
    cases h : State.getMarginal Ex.rev id Ex.X 1 (Ex.after [.add 0, .add 6, .observe Ex.X 0]) with
    | ub => rfl
    | ok a b => rw [h] at this; cases this
    | throw a => rw [h] at this; cases this
  · have : (match State.getMAP Ex.rev id Ex.X 1 (Ex.after [.add 0, .add 6, .observe Ex.X 0]) with
        | .ub => true | _ => false) = true := by decide +kernel
    cases h : State.getMAP Ex.rev id Ex.X 1 (Ex.after [.add 0, .add 6, .observe Ex.X 0]) with
    | ub => rfl
    | ok a b => rw [h] at this; cases this
    | throw a => rw [h] at this; cases this

end EFG
