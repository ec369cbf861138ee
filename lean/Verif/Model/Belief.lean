import Verif.Model.Evidence
/-
Propagation of the belief: structure/bases/BeliefAware.{h,cpp},
structure/BaselineLoopyPropagator.cpp.

`sched` is the order in which the tasks of one `parallelFor` are executed: an arbitrary permutation
of the tasks, each given with its position. The tasks are executed one after the other; that the
tasks of one round do not interfere is a separate theorem (C29, C30).
-/

namespace EFG

/-- The orders in which the tasks of a parallel round can be executed. -/
abbrev Sched := List (Topo × Nat) → List (Topo × Nat)

namespace State
variable {F : Type} [Arith F]

/-- `BeliefAware::wouldNeedPropagation` (structure/bases/BeliefAware.cpp:25-28). -/
def wouldNeedPropagation (s : State F) (kind : Kind) : Bool :=
  match s.last with
  | none => true
  | some r => !decide (r.kind = kind)

/-- Forgetting the messages of the active connections of one node. -/
def dropMessages (s : State F) (v : Var) : State F :=
  s.updNode v (fun n => { n with active := n.active.map (fun e => (e.1, { e.2 with message := none })) })

/-- `reset_messages` (structure/bases/BeliefAware.cpp:31-39). -/
def resetMessages (s : State F) : State F := (s.clusters.flatMap (·.nodes)).foldl dropMessages s

/-- The inner loop of `message_passing` (structure/bases/BeliefAware.cpp:55-66): the messages which
can be computed now, and those left. -/
def splitReady (s : State F) : List Topo → Res (List Topo × List Topo)
  | [] => .ok ([], [])
  | t :: ts =>
    match s.canUpdate t with
    | .ok b =>
      match splitReady s ts with
      | .ok (now, later) => if b then .ok (t :: now, later) else .ok (now, t :: later)
      | .throw => .throw
      | .ub => .ub
    | .throw => .throw
    | .ub => .ub

omit [Arith F] in
theorem splitReady_length (s : State F) : ∀ (ts now later : List Topo),
    s.splitReady ts = .ok (now, later) → now.length + later.length = ts.length := by
  intro ts
  induction ts with
  | nil => intro now later h; simp [splitReady] at h; simp [h.1, h.2]
  | cons t ts ih =>
    intro now later h
    rw [splitReady] at h
    cases hc : s.canUpdate t with
    | ok b =>
      rw [hc] at h
      cases hs : s.splitReady ts with
      | ok p =>
        obtain ⟨n, l⟩ := p
        rw [hs] at h
        have := ih n l hs
        cases b <;> simp at h <;> (obtain ⟨h1, h2⟩ := h; subst h1; subst h2; simp; omega)
      | throw => rw [hs] at h; simp at h
      | ub => rw [hs] at h; simp at h
    | throw => rw [hc] at h; simp at h
    | ub => rw [hc] at h; simp at h

/-- A task of `message_passing` (structure/bases/BeliefAware.cpp:59-61): the result of
`updateMessage` is dropped. -/
def messageTask (kind : Kind) (t : Topo × Nat) : M (State F) Unit := fun s =>
  match updateMessage kind t.1 s with
  | .ok s' _ => .ok s' ()
  | .throw s' => .throw s'
  | .ub => .ub

/-- `pool.parallelFor(to_process)` (structure/bases/BeliefAware.cpp:70). -/
def messageRound (kind : Kind) (sched : Sched) (now : List Topo) : M (State F) Unit :=
  forEach (messageTask kind) (sched now.zipIdx)

/-- The outer loop of `message_passing` (structure/bases/BeliefAware.cpp:54-72), at most `k` rounds of
it. -/
def messageRoundsUpTo (kind : Kind) (sched : Sched) : Nat → List Topo → State F → Out (State F) Bool
  | k, left, s =>
    if left = [] then .ok s true
    else
      match s.splitReady left with
      | .ok p =>
        if p.1 = [] then .ok s false
        else
          match k with
          | 0 => .ub
          | k + 1 =>
            match messageRound kind sched p.1 s with
            | .ok s' _ => messageRoundsUpTo kind sched k p.2 s'
            | .throw s' => .throw s'
            | .ub => .ub
      | .throw => .throw s
      | .ub => .ub

/-- The outer loop of `message_passing` (structure/bases/BeliefAware.cpp:54-72). The bound on the number
of rounds is never reached: `messageRounds_eq`. -/
def messageRounds (kind : Kind) (sched : Sched) (left : List Topo) (s : State F) :
    Out (State F) Bool := messageRoundsUpTo kind sched left.length left s

theorem messageRoundsUpTo_enough (kind : Kind) (sched : Sched) : ∀ (k l : Nat) (left : List Topo) (s : State F),
    left.length ≤ k → left.length ≤ l →
    messageRoundsUpTo kind sched k left s = messageRoundsUpTo kind sched l left s := by
  intro k
  induction k with
  | zero =>
    intro l left s hk _
    have : left = [] := List.length_eq_zero_iff.mp (by omega)
    subst this
    cases l <;> rfl
  | succ k ih =>
    intro l left s hk hl
    by_cases h0 : left = []
    · subst h0; cases l <;> rfl
    · obtain ⟨l, rfl⟩ : ∃ m, l = m + 1 := by
        cases l with
        | zero => exact absurd (List.length_eq_zero_iff.mp (by omega)) h0
        | succ m => exact ⟨m, rfl⟩
      rw [messageRoundsUpTo, messageRoundsUpTo, if_neg h0, if_neg h0]
      cases hr : s.splitReady left with
      | ok p =>
        simp only
        by_cases hp : p.1 = []
        · rw [if_pos hp, if_pos hp]
        · rw [if_neg hp, if_neg hp]
          have h1 := splitReady_length s left p.1 p.2 hr
          have h2 : 0 < p.1.length := List.length_pos_iff.mpr hp
          cases messageRound kind sched p.1 s with
          | ok s' _ => exact ih l p.2 s' (by omega) (by omega)
          | throw s' => rfl
          | ub => rfl
      | throw => rfl
      | ub => rfl

/-- The loop, without bound. -/
theorem messageRounds_eq (kind : Kind) (sched : Sched) (left : List Topo) (s : State F) :
    messageRounds kind sched left s =
      if left = [] then .ok s true
      else
        match s.splitReady left with
        | .ok p =>
          if p.1 = [] then .ok s false
          else
            match messageRound kind sched p.1 s with
            | .ok s' _ => messageRounds kind sched p.2 s'
            | .throw s' => .throw s'
            | .ub => .ub
        | .throw => .throw s
        | .ub => .ub := by
  unfold messageRounds
  by_cases h0 : left = []
  · subst h0; rfl
  · obtain ⟨m, hm⟩ : ∃ m, left.length = m + 1 := by
      cases h : left.length with
      | zero => exact absurd (List.length_eq_zero_iff.mp h) h0
      | succ m => exact ⟨m, rfl⟩
    rw [hm, messageRoundsUpTo, if_neg h0, if_neg h0]
    cases hr : s.splitReady left with
    | ok p =>
      simp only
      by_cases hp : p.1 = []
      · rw [if_pos hp, if_pos hp]
      · rw [if_neg hp, if_neg hp]
        have h1 := splitReady_length s left p.1 p.2 hr
        have h2 : 0 < p.1.length := List.length_pos_iff.mpr hp
        cases messageRound kind sched p.1 s with
        | ok s' _ => exact messageRoundsUpTo_enough kind sched m p.2.length p.2 s' (by omega) le_rfl
        | throw s' => rfl
        | ub => rfl
    | throw => rfl
    | ub => rfl

/-! ### Loopy propagation -/

/-- One pass of the inner loop of `compute_loopy_order`
(structure/BaselineLoopyPropagator.cpp:41-53): the tasks taken and those left open. -/
def greedyPass : List ConnRef → List ConnRef → List Topo → List Topo × List Topo
  | _, _, [] => ([], [])
  | stay, change, t :: ts =>
    if !stay.contains t.conn && !t.deps.any change.contains then
      let (now, later) := greedyPass (t.deps ++ stay) (t.conn :: change) ts
      (t :: now, later)
    else
      let (now, later) := greedyPass stay change ts
      (now, t :: later)

theorem greedyPass_length : ∀ (ts : List Topo) (stay change : List ConnRef),
    (greedyPass stay change ts).1.length + (greedyPass stay change ts).2.length = ts.length := by
  intro ts
  induction ts with
  | nil => intro _ _; rfl
  | cons t ts ih =>
    intro stay change
    rw [greedyPass]
    split
    · have := ih (t.deps ++ stay) (t.conn :: change); simp; omega
    · have := ih stay change; simp; omega

/-- The loop of structure/BaselineLoopyPropagator.cpp:36-55, at most `k` rounds of it. -/
def greedyUpTo : Nat → List Topo → List (List Topo)
  | _, [] => []
  | 0, _ :: _ => []
  | k + 1, t :: ts =>
    (greedyPass [] [] (t :: ts)).1 :: greedyUpTo k (greedyPass [] [] (t :: ts)).2

/-- The loop of structure/BaselineLoopyPropagator.cpp:36-55. The bound on the number of rounds is never
reached: `greedyOrder_cons`. -/
def greedyOrder (open_ : List Topo) : List (List Topo) := greedyUpTo open_.length open_

theorem greedyUpTo_enough : ∀ (k l : Nat) (ts : List Topo), ts.length ≤ k → ts.length ≤ l →
    greedyUpTo k ts = greedyUpTo l ts := by
  intro k
  induction k with
  | zero =>
    intro l ts hk _
    have : ts = [] := List.length_eq_zero_iff.mp (by omega)
    subst this
    cases l <;> rfl
  | succ k ih =>
    intro l ts hk hl
    cases ts with
    | nil => cases l <;> rfl
    | cons t ts =>
      cases l with
      | zero => simp at hl
      | succ l =>
        have h1 := greedyPass_length (t :: ts) [] []
        have h2 : 0 < (greedyPass [] [] (t :: ts)).1.length := by simp [greedyPass]
        rw [greedyUpTo, greedyUpTo, ih l _ (by omega) (by omega)]

theorem greedyOrder_nil : greedyOrder [] = [] := rfl

/-- The loop, without bound. -/
theorem greedyOrder_cons (t : Topo) (ts : List Topo) : greedyOrder (t :: ts) =
    (greedyPass [] [] (t :: ts)).1 :: greedyOrder (greedyPass [] [] (t :: ts)).2 := by
  have h1 := greedyPass_length (t :: ts) [] []
  have h2 : 0 < (greedyPass [] [] (t :: ts)).1.length := by simp [greedyPass]
  have h3 : (t :: ts).length = ts.length + 1 := rfl
  conv => lhs; unfold greedyOrder; rw [h3, greedyUpTo]
  rw [greedyUpTo_enough ts.length _ _ (by omega) le_rfl]
  rfl

/-- `compute_loopy_order` (structure/BaselineLoopyPropagator.cpp:27-64). -/
def loopyOrder (poolSize : Nat) (connectivity : List Topo) : List (List Topo) :=
  if 1 < poolSize then greedyOrder connectivity else [connectivity]

/-- A task of the loopy propagation (structure/BaselineLoopyPropagator.cpp:93-97); `value()` of an
empty optional throws. The variations are part of the state of the loop. -/
def loopyTask (kind : Kind) (poolSize : Nat) (t : Topo × Nat) (vs : List F) :
    M (State F) (List F) := fun s =>
  match updateMessage kind t.1 s with
  | .ok s' (some x) => .ok s' (vs.modify (t.2 % poolSize) (fun v => Arith.max2 v x))
  | .ok s' none => .throw s'
  | .throw s' => .throw s'
  | .ub => .ub

/-- The tasks of one group. -/
def loopyTasks (kind : Kind) (poolSize : Nat) : List (Topo × Nat) → List F → M (State F) (List F)
  | [], vs, s => .ok s vs
  | t :: ts, vs, s =>
    match loopyTask kind poolSize t vs s with
    | .ok s' vs' => loopyTasks kind poolSize ts vs' s'
    | .throw s' => .throw s'
    | .ub => .ub

/-- All the groups, one after the other (structure/BaselineLoopyPropagator.cpp:88-100). -/
def loopyGroups (kind : Kind) (sched : Sched) (poolSize : Nat) :
    List (List Topo) → List F → M (State F) (List F)
  | [], vs, s => .ok s vs
  | g :: gs, vs, s =>
    match loopyTasks kind poolSize (sched g.zipIdx) vs s with
    | .ok s' vs' => loopyGroups kind sched poolSize gs vs' s'
    | .throw s' => .throw s'
    | .ub => .ub

/-- The iterations (structure/BaselineLoopyPropagator.cpp:83-106). -/
def loopyIterations (kind : Kind) (sched : Sched) (poolSize : Nat) (order : List (List Topo)) :
    Nat → M (State F) Bool
  | 0, s => .ok s false
  | n + 1, s =>
    match loopyGroups kind sched poolSize order (List.replicate poolSize Arith.zero) s with
    | .ok s' vs =>
      match Arith.maxElement vs with
      | .ok m => if Arith.lt m Arith.tol then .ok s' true else loopyIterations kind sched poolSize order n s'
      | .throw => .throw s'
      | .ub => .ub
    | .throw s' => .throw s'
    | .ub => .ub

/-- Setting to ones the messages of the active connections of one node
(structure/BaselineLoopyPropagator.cpp:74-79). -/
def oneMessages (s : State F) (v : Var) : State F :=
  s.updNode v
    (fun n => { n with active := n.active.map (fun e => (e.1, { e.2 with message := some (Fn.ones v) })) })

/-- `BaselineLoopyPropagator::propagateBelief` (structure/BaselineLoopyPropagator.cpp:69-107). -/
def loopyPropagate (kind : Kind) (sched : Sched) (poolSize : Nat) (c : Cluster) (topos : List Topo) :
    M (State F) Bool := fun s =>
  let s1 := c.nodes.foldl oneMessages s
  loopyIterations kind sched poolSize (loopyOrder poolSize topos) s1.maxIter s1

/-! ### `BeliefAware::propagateBelief` -/

/-- `if (node->merged_unaries.empty()) node->updateMergedUnaries()`
(structure/bases/BeliefAware.cpp:92-96). -/
def refreshMerged (ord : List Var → List Var) (v : Var) : M (State F) Unit := fun s =>
  match s.node? v with
  | none => .ub
  | some n =>
    match n.merged with
    | some _ => .ok s ()
    | none => updateMerged ord v s

/-- The preparation of one cluster (structure/bases/BeliefAware.cpp:89-97). -/
def prepareCluster (ord : List Var → List Var) (i : Nat) : M (State F) Unit := fun s =>
  match s.clusters[i]? with
  | none => .ub
  | some c =>
    match c.connectivity with
    | none => updateConnectivity ord i s
    | some _ => forEach (refreshMerged ord) (ord c.nodes) s

/-- The loop of `propagateBelief` (structure/bases/BeliefAware.cpp:88-112) for the cluster at position
`i`. Returns the structure found and whether the propagation of the cluster was completed. -/
def propagateCluster (ord : List Var → List Var) (sched : Sched) (kind : Kind) (poolSize i : Nat) :
    M (State F) ((Bool × Nat) × Bool) := fun s =>
  match prepareCluster ord i s with
  | .ok s1 _ =>
    match s1.clusters[i]? with
    | none => .ub
    | some c =>
      match c.connectivity with
      | none => .throw s1
      | some topos =>
        match messageRounds kind sched topos s1 with
        | .ok s2 true => .ok s2 ((true, c.nodes.length), true)
        | .ok s2 false =>
          match loopyPropagate kind sched poolSize c topos s2 with
          | .ok s3 done => .ok s3 ((false, c.nodes.length), done)
          | .throw s3 => .throw s3
          | .ub => .ub
        | .throw s2 => .throw s2
        | .ub => .ub
  | .throw s1 => .throw s1
  | .ub => .ub

/-- The loop over the clusters. -/
def propagateClusters (ord : List Var → List Var) (sched : Sched) (kind : Kind) (poolSize : Nat) :
    List Nat → M (State F) (List ((Bool × Nat) × Bool))
  | [], s => .ok s []
  | i :: is, s =>
    match propagateCluster ord sched kind poolSize i s with
    | .ok s1 r =>
      match propagateClusters ord sched kind poolSize is s1 with
      | .ok s2 rs => .ok s2 (r :: rs)
      | .throw s2 => .throw s2
      | .ub => .ub
    | .throw s1 => .throw s1
    | .ub => .ub

/-- `BeliefAware::propagateBelief` (structure/bases/BeliefAware.cpp:76-114). `getPool()` throws when
the optional is empty (structure/bases/PoolAware.h). -/
def propagateBelief (ord : List Var → List Var) (sched : Sched) (kind : Kind) : M (State F) Unit := fun s =>
  if !s.wouldNeedPropagation kind then .ok s ()
  else
    match s.pool with
    | none => .throw s
    | some n =>
      match propagateClusters ord sched kind n (List.range s.clusters.length) s.resetMessages with
      | .ok s1 rs =>
        let r : PropResult :=
          { kind := kind, completed := rs.all (fun e => e.2), structures := rs.map (fun e => e.1) }
        .ok { s1 with last := some r } ()
      | .throw s1 => .throw s1
      | .ub => .ub

end State
end EFG
