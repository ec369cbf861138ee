import Verif.Lemmas.InsertInv
import Verif.Model.Query
/- The queries preserve the invariant. -/

set_option linter.unusedSectionVars false

namespace EFG
namespace State
variable {F : Type} [Arith F]

/-! ### Changes of messages -/

/-- Only messages of active connections differ. -/
structure Soft (s s' : State F) : Prop extends Quiet s s' where
  mrg : ∀ v, s'.mrg v = s.mrg v
  cl : s'.clusters = s.clusters
  last : s'.last = s.last
  pool : s'.pool = s.pool

theorem Soft.rfl' (s : State F) : Soft s s := ⟨Quiet.rfl' s, fun _ => rfl, rfl, rfl, rfl⟩

theorem Soft.trans {s s' s'' : State F} (h : Soft s s') (h' : Soft s' s'') : Soft s s'' :=
  ⟨h.toQuiet.trans h'.toQuiet, fun v => (h'.mrg v).trans (h.mrg v), h'.cl.trans h.cl, h'.last.trans h.last,
    h'.pool.trans h.pool⟩

theorem Soft.updNode (s : State F) (v : Var) {f : Node F → Node F} (hu : ∀ n, (f n).unary = n.unary)
    (hd : ∀ n, (f n).disabled = n.disabled) (ha : ∀ n, links (f n).active = links n.active)
    (hm : ∀ n, (f n).merged = n.merged) : Soft s (s.updNode v f) := by
  refine ⟨Quiet.updNode s v hu hd ha, ?_, rfl, rfl, rfl⟩
  intro w
  rw [mrg_updNode]
  split
  · unfold State.mrg
    cases h : s.node? w <;> simp [hm]
  · rfl

theorem setActiveMessage_soft (s : State F) (a b : Var) (m : Option (Fn F)) :
    Soft s (setActiveMessage a b m s) :=
  Soft.updNode s a (by intro n; rfl) (by intro n; rfl) (by intro n; exact links_modify _ _ (by intro c; rfl))
    (by intro n; rfl)

theorem links_map (l : List (Var × Conn F)) (g : Var × Conn F → Option (Fn F)) :
    links (l.map (fun e => (e.1, { e.2 with message := g e }))) = links l := by
  simp [links]

theorem dropMessages_soft (s : State F) (v : Var) : Soft s (dropMessages s v) :=
  Soft.updNode s v (by intro n; rfl) (by intro n; rfl) (by intro n; exact links_map _ (fun _ => none))
    (by intro n; rfl)

theorem oneMessages_soft (s : State F) (v : Var) : Soft s (oneMessages s v) :=
  Soft.updNode s v (by intro n; rfl) (by intro n; rfl) (by intro n; exact links_map _ (fun _ => some (Fn.ones v)))
    (by intro n; rfl)

theorem foldl_soft {α : Type} {f : State F → α → State F} (h : ∀ s a, Soft s (f s a)) (l : List α)
    (s : State F) : Soft s (l.foldl f s) := by
  induction l generalizing s with
  | nil => exact Soft.rfl' s
  | cons a l ih => exact (h s a).trans (ih _)

theorem resetMessages_soft (s : State F) : Soft s s.resetMessages := foldl_soft dropMessages_soft _ s

theorem messageThrown_soft (t : Topo) (m : Fn F) (deps : List (Fn F)) (s : State F) :
    Soft s (messageThrown t m deps s) := by
  unfold messageThrown
  split
  · exact setActiveMessage_soft s _ _ _
  · exact Soft.rfl' s

theorem updateMessage_soft (kind : Kind) (t : Topo) : M.Keeps Soft (updateMessage (F := F) kind t) := by
  intro s
  unfold updateMessage
  cases hn : s.node? t.sender with
  | none => trivial
  | some n =>
    simp only
    cases n.merged with
    | none => exact Soft.rfl' s
    | some m =>
      simp only
      cases s.depMessages t.deps with
      | ok o =>
        cases o with
        | none => exact Soft.rfl' s
        | some deps =>
          simp only
          cases s.conn? t.conn with
          | none => trivial
          | some c =>
            simp only
            cases s.newMessage kind m deps c.factor with
            | ok m' =>
              simp only
              cases variation c.message m' with
              | ok x => exact setActiveMessage_soft s _ _ _
              | throw => exact setActiveMessage_soft s _ _ _
              | ub => trivial
            | throw => exact messageThrown_soft t m deps s
            | ub => trivial
      | throw => exact Soft.rfl' s
      | ub => trivial

theorem messageTask_soft (kind : Kind) (t : Topo × Nat) : M.Keeps Soft (messageTask (F := F) kind t) := by
  intro s
  unfold messageTask
  have := updateMessage_soft (F := F) kind t.1 s
  cases h : updateMessage kind t.1 s with
  | ok s' _ => rw [h] at this; exact this
  | throw s' => rw [h] at this; exact this
  | ub => trivial

theorem messageRound_soft (kind : Kind) (sched : Sched) (now : List Topo) :
    M.Keeps Soft (messageRound (F := F) kind sched now) :=
  forEach_keeps Soft.rfl' (fun _ _ _ h h' => h.trans h') (fun t _ => messageTask_soft kind t)

theorem messageRounds_soft (kind : Kind) (sched : Sched) :
    ∀ (n : Nat) (left : List Topo), left.length ≤ n → ∀ s : State F,
      match messageRounds kind sched left s with
      | .ok s' _ => Soft s s'
      | .throw s' => Soft s s'
      | .ub => True := by
  intro n
  induction n with
  | zero =>
    intro left hl s
    have : left = [] := List.length_eq_zero_iff.mp (by omega)
    rw [messageRounds_eq, if_pos this]
    exact Soft.rfl' s
  | succ n ih =>
    intro left hl s
    rw [messageRounds_eq]
    by_cases hleft : left = []
    · rw [if_pos hleft]; exact Soft.rfl' s
    · rw [if_neg hleft]
      cases hsplit : s.splitReady left with
      | ok p =>
        simp only
        by_cases hnow : p.1 = []
        · rw [if_pos hnow]; exact Soft.rfl' s
        · rw [if_neg hnow]
          have hlen := splitReady_length s left p.1 p.2 hsplit
          have hpos : 0 < p.1.length := List.length_pos_iff.mpr hnow
          have h1 := messageRound_soft kind sched p.1 s
          cases hr : messageRound kind sched p.1 s with
          | ok s' _ =>
            rw [hr] at h1
            have h2 := ih p.2 (by omega) s'
            simp only
            cases hm : messageRounds kind sched p.2 s' with
            | ok s'' _ => rw [hm] at h2; exact h1.trans h2
            | throw s'' => rw [hm] at h2; exact h1.trans h2
            | ub => trivial
          | throw s' => rw [hr] at h1; exact h1
          | ub => trivial
      | throw => exact Soft.rfl' s
      | ub => trivial

theorem loopyTasks_soft (kind : Kind) (n : Nat) (ts : List (Topo × Nat)) (vs : List F) :
    M.Keeps Soft (loopyTasks (F := F) kind n ts vs) := by
  induction ts generalizing vs with
  | nil => intro s; exact Soft.rfl' s
  | cons t ts ih =>
    intro s
    rw [loopyTasks]
    have h1 : match loopyTask kind n t vs s with
      | .ok s' _ => Soft s s'
      | .throw s' => Soft s s'
      | .ub => True := by
      unfold loopyTask
      have := updateMessage_soft (F := F) kind t.1 s
      cases h : updateMessage kind t.1 s with
      | ok s' x => rw [h] at this; cases x <;> exact this
      | throw s' => rw [h] at this; exact this
      | ub => trivial
    cases h : loopyTask kind n t vs s with
    | ok s' vs' =>
      rw [h] at h1
      have h2 := ih vs' s'
      simp only
      cases hm : loopyTasks kind n ts vs' s' with
      | ok s'' _ => rw [hm] at h2; exact h1.trans h2
      | throw s'' => rw [hm] at h2; exact h1.trans h2
      | ub => trivial
    | throw s' => rw [h] at h1; exact h1
    | ub => trivial

theorem loopyGroups_soft (kind : Kind) (sched : Sched) (n : Nat) (gs : List (List Topo)) (vs : List F) :
    M.Keeps Soft (loopyGroups (F := F) kind sched n gs vs) := by
  induction gs generalizing vs with
  | nil => intro s; exact Soft.rfl' s
  | cons g gs ih =>
    intro s
    rw [loopyGroups]
    have h1 := loopyTasks_soft (F := F) kind n (sched g.zipIdx) vs s
    cases h : loopyTasks kind n (sched g.zipIdx) vs s with
    | ok s' vs' =>
      rw [h] at h1
      have h2 := ih vs' s'
      simp only
      cases hm : loopyGroups kind sched n gs vs' s' with
      | ok s'' _ => rw [hm] at h2; exact h1.trans h2
      | throw s'' => rw [hm] at h2; exact h1.trans h2
      | ub => trivial
    | throw s' => rw [h] at h1; exact h1
    | ub => trivial

theorem loopyIterations_soft (kind : Kind) (sched : Sched) (n : Nat) (order : List (List Topo)) (k : Nat) :
    M.Keeps Soft (loopyIterations (F := F) kind sched n order k) := by
  induction k with
  | zero => intro s; exact Soft.rfl' s
  | succ k ih =>
    intro s
    rw [loopyIterations]
    have h1 := loopyGroups_soft (F := F) kind sched n order (List.replicate n Arith.zero) s
    cases h : loopyGroups kind sched n order (List.replicate n Arith.zero) s with
    | ok s' vs =>
      rw [h] at h1
      simp only
      cases Arith.maxElement vs with
      | ok m =>
        simp only
        by_cases hlt : Arith.lt m Arith.tol = true
        · rw [if_pos hlt]; exact h1
        · rw [if_neg hlt]
          have h2 := ih s'
          cases hm : loopyIterations kind sched n order k s' with
          | ok s'' _ => rw [hm] at h2; exact h1.trans h2
          | throw s'' => rw [hm] at h2; exact h1.trans h2
          | ub => trivial
      | throw => exact h1
      | ub => trivial
    | throw s' => rw [h] at h1; exact h1
    | ub => trivial

theorem loopyPropagate_soft (kind : Kind) (sched : Sched) (n : Nat) (c : Cluster) (ts : List Topo) :
    M.Keeps Soft (loopyPropagate (F := F) kind sched n c ts) := by
  intro s
  unfold loopyPropagate
  have h0 := foldl_soft (oneMessages_soft (F := F)) c.nodes s
  have h1 := loopyIterations_soft (F := F) kind sched n (loopyOrder n ts)
    (c.nodes.foldl oneMessages s).maxIter (c.nodes.foldl oneMessages s)
  simp only
  cases hm : loopyIterations kind sched n (loopyOrder n ts)
    (c.nodes.foldl oneMessages s).maxIter (c.nodes.foldl oneMessages s) with
  | ok s'' _ => rw [hm] at h1; exact h0.trans h1
  | throw s'' => rw [hm] at h1; exact h0.trans h1
  | ub => trivial

/-! ### Merged unaries -/

/-- What `updateMergedUnaries` would compute now. -/
def mergedVal (ord : List Var → List Var) (s : State F) (v : Var) : Res (Fn F) :=
  match s.node? v with
  | some n => mergedOf ord s v n
  | none => .ub

/-- The unary factors and the messages of the observed neighbours of a hidden variable. -/
theorem gather_ok {ord : List Var → List Var} (hord : ∀ l, (ord l).Perm l) {s : State F} (hs : Core s)
    {v : Var} (hv : v ∈ s.vars) (ho : v ∉ s.obs) :
    ∃ n us ms, s.node? v = some n ∧ gatherUnaries ord s n = .ok (us ++ ms) ∧
      List.Forall₂ (fun p f => s.heap[p]? = some f) (s.una v) us ∧
      List.Forall₂ (fun w m => ∃ c, s.dis v w = some c ∧ c.message = some m) (ord (AMap.keys (s.disabledOf v))) ms ∧
      (∀ f ∈ us, f.Unary v) ∧ ∀ m ∈ ms, m.Unary v := by
  obtain ⟨n, hn⟩ := node?_of_mem (s := s) (v := v) (by rw [hs.net.keys]; exact hv)
  have huna : s.una v = n.unary := by unfold una; rw [hn]
  have hdo : s.disabledOf v = n.disabled := by unfold disabledOf; rw [hn]
  have h1 : ∀ p ∈ n.unary, ∃ f, s.deref p = .ok f ∧ f.Unary v ∧ s.heap[p]? = some f := by
    intro p hp
    obtain ⟨_, _, f, hf, hu⟩ := hs.unary v p (by rw [huna]; exact hp)
    exact ⟨f, deref_eq hf, hu, hf⟩
  have h2 : ∀ w ∈ ord (AMap.keys n.disabled), ∃ m, disabledMessage n w = .ok m ∧ m.Unary v ∧
      ∃ c, s.dis v w = some c ∧ c.message = some m := by
    intro w hw
    rw [(hord _).mem_iff] at hw
    obtain ⟨c, hc⟩ := AMap.mem_keys.mp hw
    have hd : s.dis v w = some c := by unfold dis; rw [hdo]; exact hc
    obtain ⟨m, hm, hmu⟩ := hs.msgH v w c ho hd
    refine ⟨m, ?_, hmu, c, hd, hm⟩
    unfold disabledMessage
    rw [hc]
    simp [hm]
  have gen1 : ∀ l : List Nat, (∀ p ∈ l, p ∈ n.unary) → ∃ us, Res.mapList s.deref l = .ok us ∧
      List.Forall₂ (fun p f => s.heap[p]? = some f) l us ∧ ∀ f ∈ us, f.Unary v := by
    intro l
    induction l with
    | nil => intro _; exact ⟨[], rfl, .nil, by simp⟩
    | cons p l ih =>
      intro h
      obtain ⟨us, e, h3, h4⟩ := ih (fun q hq => h q (by simp [hq]))
      obtain ⟨f, h5, h6, h7⟩ := h1 p (h p (by simp))
      refine ⟨f :: us, ?_, .cons h7 h3, ?_⟩
      · simp [Res.mapList, h5, e]
      · intro g hg
        rcases List.mem_cons.mp hg with rfl | hg
        · exact h6
        · exact h4 g hg
  have gen2 : ∀ l : List Var, (∀ w ∈ l, w ∈ ord (AMap.keys n.disabled)) →
      ∃ ms, Res.mapList (disabledMessage n) l = .ok ms ∧
      List.Forall₂ (fun w m => ∃ c, s.dis v w = some c ∧ c.message = some m) l ms ∧ ∀ f ∈ ms, f.Unary v := by
    intro l
    induction l with
    | nil => intro _; exact ⟨[], rfl, .nil, by simp⟩
    | cons p l ih =>
      intro h
      obtain ⟨us, e, h3, h4⟩ := ih (fun q hq => h q (by simp [hq]))
      obtain ⟨f, h5, h6, h7⟩ := h2 p (h p (by simp))
      refine ⟨f :: us, ?_, .cons h7 h3, ?_⟩
      · simp [Res.mapList, h5, e]
      · intro g hg
        rcases List.mem_cons.mp hg with rfl | hg
        · exact h6
        · exact h4 g hg
  obtain ⟨us, e1, e2, e3⟩ := gen1 n.unary (fun _ h => h)
  obtain ⟨ms, e4, e5, e6⟩ := gen2 (ord (AMap.keys n.disabled)) (fun _ h => h)
  refine ⟨n, us, ms, hn, ?_, by rw [huna]; exact e2, by rw [hdo]; exact e5, e3, e6⟩
  unfold gatherUnaries
  rw [e1, e4]

theorem mergedVal_ok {ord : List Var → List Var} (hord : ∀ l, (ord l).Perm l) {s : State F} (hs : Core s)
    {v : Var} (hv : v ∈ s.vars) (ho : v ∉ s.obs) : ∃ m, mergedVal ord s v = .ok m ∧ m.Unary v := by
  obtain ⟨n, us, ms, hn, hg, _, _, h3, h4⟩ := gather_ok hord hs hv ho
  unfold mergedVal
  rw [hn]
  simp only
  unfold mergedOf
  rw [hg]
  cases hl : us ++ ms with
  | nil => exact ⟨_, rfl, (Fn.ones_unary (hs.posV v hv)).1⟩
  | cons f fs =>
    simp only
    obtain ⟨m, _, h5, h6, _⟩ := Fn.mergedUnaries_eq (v := v) (fs := f :: fs) (by simp) (by
      rw [← hl]
      intro g hg'
      rcases List.mem_append.mp hg' with h | h
      · exact h3 g h
      · exact h4 g h)
    exact ⟨m, h5, h6⟩

theorem Quiet.mergedVal {s s' : State F} (hq : Quiet s s') (ord : List Var → List Var) (v : Var) :
    s'.mergedVal ord v = s.mergedVal ord v := by
  have hk : v ∈ AMap.keys s'.nodes ↔ v ∈ AMap.keys s.nodes := by rw [hq.keys]
  have hu := hq.una v
  have hd := hq.disabled v
  unfold State.una at hu
  unfold disabledOf at hd
  unfold State.mergedVal
  cases h' : s'.node? v with
  | none =>
    cases h : s.node? v with
    | none => rfl
    | some n =>
      exfalso
      have : v ∈ AMap.keys s.nodes := AMap.mem_keys.mpr ⟨n, h⟩
      rw [← hk] at this
      obtain ⟨n', hn'⟩ := AMap.mem_keys.mp this
      unfold node? at h'
      rw [hn'] at h'; cases h'
  | some n' =>
    cases h : s.node? v with
    | none =>
      exfalso
      have : v ∈ AMap.keys s'.nodes := AMap.mem_keys.mpr ⟨n', h'⟩
      rw [hk] at this
      obtain ⟨n, hn⟩ := AMap.mem_keys.mp this
      unfold node? at h
      rw [hn] at h; cases h
    | some n =>
      rw [h', h] at hu hd
      simp only at hu hd ⊢
      have hder : s'.deref = s.deref := by funext p; unfold deref; rw [hq.heap]
      have hdm : disabledMessage n' = disabledMessage n := by funext w; unfold disabledMessage; rw [hd]
      unfold mergedOf gatherUnaries
      rw [hu, hd, hder, hdm]

/-- The cached merged unaries of a variable are those which would be computed now. -/
def CohAt (s : State F) (v : Var) : Prop :=
  ∀ m, s.mrg v = some m → ∃ ord : List Var → List Var, (∀ l, (ord l).Perm l) ∧ s.mergedVal ord v = .ok m

/-- The cached merged unaries are those which would be computed now. -/
def Coherent (s : State F) : Prop := ∀ v ∈ s.vars, v ∉ s.obs → CohAt s v

/-- What is cached for each variable stays right. -/
def KeepsCoh (s s' : State F) : Prop := ∀ v ∈ s.vars, v ∉ s.obs → CohAt s v → CohAt s' v

theorem KeepsCoh.trans {s s' s'' : State F} (h : KeepsCoh s s') (hv : s'.vars = s.vars) (ho : s'.obs = s.obs)
    (h' : KeepsCoh s' s'') : KeepsCoh s s'' :=
  fun v h1 h2 hc => h' v (by rw [hv]; exact h1) (by rw [ho]; exact h2) (h v h1 h2 hc)

theorem KeepsCoh.coherent {s s' : State F} (h : KeepsCoh s s') (hv : s'.vars = s.vars) (ho : s'.obs = s.obs)
    (hc : Coherent s) : Coherent s' :=
  fun v h1 h2 => h v (by rw [← hv]; exact h1) (by rw [← ho]; exact h2)
    (hc v (by rw [← hv]; exact h1) (by rw [← ho]; exact h2))

/-- What the preparation of a cluster does. -/
structure Prep (s s' : State F) : Prop extends Quiet s s' where
  activeOf : ∀ v, s'.activeOf v = s.activeOf v
  last : s'.last = s.last
  pool : s'.pool = s.pool

theorem Prep.rfl' (s : State F) : Prep s s := ⟨Quiet.rfl' s, fun _ => rfl, rfl, rfl⟩

theorem Prep.trans {s s' s'' : State F} (h : Prep s s') (h' : Prep s' s'') : Prep s s'' :=
  ⟨h.toQuiet.trans h'.toQuiet, fun v => (h'.activeOf v).trans (h.activeOf v), h'.last.trans h.last,
    h'.pool.trans h.pool⟩

/-- Writing the cache of a node. -/
def setMerged (v : Var) (m : Fn F) (s : State F) : State F := s.updNode v (fun n => { n with merged := some m })

theorem setMerged_prep (s : State F) (v : Var) (m : Fn F) : Prep s (setMerged v m s) := by
  refine ⟨Quiet.updNode s v (by intro n; rfl) (by intro n; rfl) (by intro n; rfl), ?_, rfl, rfl⟩
  intro w
  unfold setMerged
  rw [activeOf_updNode]
  split
  · unfold State.activeOf; cases s.node? w <;> rfl
  · rfl

theorem mrg_setMerged {s : State F} {v : Var} (hv : v ∈ AMap.keys s.nodes) (m : Fn F) (u : Var) :
    (setMerged v m s).mrg u = if u = v then some m else s.mrg u := by
  obtain ⟨n, hn⟩ := node?_of_mem hv
  unfold setMerged
  rw [mrg_updNode]
  by_cases h : v = u
  · subst h; rw [if_pos rfl, if_pos rfl, hn]
  · rw [if_neg h, if_neg (Ne.symm h)]

theorem updateMerged_eq {ord : List Var → List Var} (hord : ∀ l, (ord l).Perm l) {s : State F} (hs : Core s)
    {v : Var} (hv : v ∈ s.vars) (ho : v ∉ s.obs) :
    ∃ m, updateMerged ord v s = .ok (setMerged v m s) () ∧ s.mergedVal ord v = .ok m ∧ m.Unary v := by
  obtain ⟨m, h1, h2⟩ := mergedVal_ok hord hs hv ho
  refine ⟨m, ?_, h1, h2⟩
  unfold mergedVal at h1
  unfold updateMerged
  cases hn : s.node? v with
  | none => rw [hn] at h1; cases h1
  | some n =>
    rw [hn] at h1
    simp only at h1 ⊢
    rw [h1]
    rfl

/-! ### Connectivity -/

/-- The topology infos of the messages sent by a node. -/
def toposOf (ord : List Var → List Var) (s : State F) (u : Var) : List Topo :=
  (ord (AMap.keys (s.activeOf u))).map (fun v =>
    { sender := u
      conn := { owner := v, from_ := u }
      deps := (ord ((AMap.keys (s.activeOf u)).filter (fun w => !decide (w = v)))).map
        (fun w => { owner := u, from_ := w }) })

theorem mapList_topoOf {ord : List Var → List Var} (hord : ∀ l, (ord l).Perm l) {s : State F} (hs : Net s)
    (u : Var) :
    Res.mapList (topoOf ord s u (AMap.keys (s.activeOf u))) (ord (AMap.keys (s.activeOf u))) =
      .ok (toposOf ord s u) := by
  unfold toposOf
  refine Res.mapList_ok ?_
  intro v hv
  rw [(hord _).mem_iff] at hv
  have h1 : (s.act u v).isSome := by
    obtain ⟨c, hc⟩ := AMap.mem_keys.mp hv
    rw [act, hc]; rfl
  have h2 := hs.symA u v h1
  obtain ⟨c, hc⟩ := Option.isSome_iff_exists.mp h2
  unfold topoOf
  unfold act at hc
  rw [hc]

theorem toposOf_congr {ord : List Var → List Var} {s s' : State F} (h : ∀ v, s'.activeOf v = s.activeOf v)
    (u : Var) : toposOf ord s' u = toposOf ord s u := by
  unfold toposOf; rw [h]

theorem topoOk_flatMap {ord : List Var → List Var} (hord : ∀ l, (ord l).Perm l) {s : State F} (hs : Net s)
    {nodes l : List Var} (hp : l.Perm nodes) (hn : nodes.Nodup) :
    TopoOk s nodes (l.flatMap (toposOf ord s)) := by
  have hmem : ∀ t, t ∈ l.flatMap (toposOf ord s) ↔ ∃ u ∈ nodes, ∃ v, (s.act u v).isSome ∧
      t = { sender := u, conn := { owner := v, from_ := u },
            deps := (ord ((AMap.keys (s.activeOf u)).filter (fun w => !decide (w = v)))).map
              (fun w => { owner := u, from_ := w }) } := by
    intro t
    rw [List.mem_flatMap]
    constructor
    · rintro ⟨u, hu, ht⟩
      unfold toposOf at ht
      obtain ⟨v, hv, rfl⟩ := List.mem_map.mp ht
      rw [(hord _).mem_iff] at hv
      refine ⟨u, hp.mem_iff.mp hu, v, ?_, rfl⟩
      obtain ⟨c, hc⟩ := AMap.mem_keys.mp hv
      rw [act, hc]; rfl
    · rintro ⟨u, hu, v, hv, rfl⟩
      refine ⟨u, hp.mem_iff.mpr hu, ?_⟩
      unfold toposOf
      refine List.mem_map.mpr ⟨v, ?_, rfl⟩
      rw [(hord _).mem_iff]
      obtain ⟨c, hc⟩ := Option.isSome_iff_exists.mp hv
      exact AMap.mem_keys.mpr ⟨c, hc⟩
  refine ⟨?_, ?_, ?_, ?_, ?_, ?_, ?_⟩
  · rw [List.map_flatMap]
    have hl : l.Nodup := hp.nodup_iff.mpr hn
    rw [List.nodup_flatMap]
    refine ⟨?_, ?_⟩
    · intro u _
      unfold toposOf
      rw [List.map_map]
      refine ((hord _).nodup_iff.mpr (hs.nodup u).1).map ?_
      intro a b hab
      simpa using hab
    · refine hl.imp ?_
      intro a b hab
      rw [Function.onFun, List.disjoint_left]
      intro x hx hx'
      unfold toposOf at hx hx'
      rw [List.map_map] at hx hx'
      obtain ⟨_, _, rfl⟩ := List.mem_map.mp hx
      obtain ⟨_, _, h⟩ := List.mem_map.mp hx'
      simp at h
      exact hab h.1.symm
  · intro t ht
    obtain ⟨u, hu, v, hv, rfl⟩ := (hmem t).mp ht
    exact hu
  · intro t ht
    obtain ⟨u, hu, v, hv, rfl⟩ := (hmem t).mp ht
    rfl
  · intro t ht
    obtain ⟨u, hu, v, hv, rfl⟩ := (hmem t).mp ht
    exact hv
  · intro t ht
    obtain ⟨u, hu, v, hv, rfl⟩ := (hmem t).mp ht
    refine ((hord _).nodup_iff.mpr ((hs.nodup u).1.filter _)).map ?_
    intro a b hab
    simpa using hab
  · intro t ht r
    obtain ⟨u, hu, v, hv, rfl⟩ := (hmem t).mp ht
    simp only [List.mem_map, (hord _).mem_iff, List.mem_filter, Bool.not_eq_true', decide_eq_false_iff_not]
    constructor
    · rintro ⟨w, ⟨h1, h2⟩, rfl⟩
      refine ⟨rfl, h2, ?_⟩
      obtain ⟨c, hc⟩ := AMap.mem_keys.mp h1
      show (s.act u w).isSome
      rw [act, hc]; rfl
    · rintro ⟨h1, h2, h3⟩
      obtain ⟨c, hc⟩ := Option.isSome_iff_exists.mp h3
      exact ⟨r.from_, ⟨AMap.mem_keys.mpr ⟨c, hc⟩, h2⟩, by rw [← h1]⟩
  · intro u hu v hv
    exact ⟨_, (hmem _).mpr ⟨u, hu, v, hv, rfl⟩, rfl, rfl⟩

/-- The cluster at a position gets its connectivity. -/
def setConn (i : Nat) (ts : List Topo) (s : State F) : State F :=
  { s with clusters := s.clusters.modify i (fun c => { c with connectivity := some ts }) }

theorem map_nodes_modify (l : List Cluster) (i : Nat) (ts : Option (List Topo)) :
    (l.modify i (fun c => { c with connectivity := ts })).map (·.nodes) = l.map (·.nodes) :=
  map_modify_same _ _ (by intro c; rfl) l i

theorem connectivity_loop {ord : List Var → List Var} (hord : ∀ l, (ord l).Perm l) {i : Nat} :
    ∀ (l : List Var) (ts : List Topo) (cl : List Cluster) (s : State F), Core s →
      (∀ v ∈ l, v ∈ s.vars ∧ v ∉ s.obs) → s.clusters = cl.modify i (fun c => { c with connectivity := some ts }) →
      ∃ s', forEach (connectivityStep ord i) l s = .ok s' () ∧ Prep s s' ∧ Core s' ∧
        s'.clusters = cl.modify i (fun c => { c with connectivity := some (ts ++ l.flatMap (toposOf ord s)) }) ∧
        (∀ v ∈ l, ∃ m, s'.mrg v = some m ∧ s.mergedVal ord v = .ok m) ∧
        (∀ v, v ∉ l → s'.mrg v = s.mrg v) := by
  intro l
  induction l with
  | nil =>
    intro ts cl s hs _ hc
    refine ⟨s, rfl, Prep.rfl' s, hs, by simpa using hc, by simp, fun _ _ => rfl⟩
  | cons u l ih =>
    intro ts cl s hs hl hc
    obtain ⟨hu1, hu2⟩ := hl u (by simp)
    obtain ⟨m, e1, e2, e3⟩ := updateMerged_eq hord hs hu1 hu2
    have hp1 := setMerged_prep s u m
    have hk : u ∈ AMap.keys s.nodes := by rw [hs.net.keys]; exact hu1
    have hm1 := mrg_setMerged hk m
    have hc1 : Core (setMerged u m s) := hs.quiet hp1.toQuiet (by
      intro v m' h
      rw [hm1] at h
      split at h
      · rename_i hv; cases h; subst hv; exact e3
      · exact hs.mrgT v m' h)
    set s1 := setMerged u m s with hs1
    have hstep : connectivityStep ord i u s = .ok (appendTopos i (toposOf ord s u) s1) () := by
      unfold connectivityStep
      rw [e1]
      simp only
      rw [mapList_topoOf hord hc1.net]
      simp only
      rw [toposOf_congr hp1.activeOf]
    set s2 := appendTopos i (toposOf ord s u) s1 with hs2
    have hcl2 : s2.clusters = cl.modify i (fun c => { c with connectivity := some (ts ++ toposOf ord s u) }) := by
      show s1.clusters.modify i _ = _
      have : s1.clusters = s.clusters := rfl
      rw [this, hc, List.modify_modify_eq]
      rfl
    have hp2 : Prep s1 s2 := by
      refine ⟨⟨⟨rfl, rfl, rfl, rfl, rfl, rfl, rfl, rfl, fun _ => rfl⟩, rfl, ?_, fun _ => rfl, fun _ => rfl⟩,
        fun _ => rfl, rfl, rfl⟩
      exact map_modify_same _ _ (by intro c; rfl) _ _
    have hc2 : Core s2 := hc1.quiet hp2.toQuiet hc1.mrgT
    obtain ⟨s3, f1, f2, f3, f4, f5, f6⟩ := ih _ cl s2 hc2
      (fun v hv => hl v (by simp [hv])) hcl2
    have hP : Prep s s2 := hp1.trans hp2
    refine ⟨s3, ?_, hP.trans f2, f3, ?_, ?_, ?_⟩
    · rw [forEach_cons, hstep]; exact f1
    · rw [f4]
      have : l.flatMap (toposOf ord s2) = l.flatMap (toposOf ord s) := by
        congr 1; funext w; exact toposOf_congr hP.activeOf w
      rw [this, List.flatMap_cons, List.append_assoc]
    · intro v hv
      by_cases hvl : v ∈ l
      · obtain ⟨m', g1, g2⟩ := f5 v hvl
        exact ⟨m', g1, by rw [← hP.toQuiet.mergedVal]; exact g2⟩
      · have : v = u := by
          rcases List.mem_cons.mp hv with h | h
          · exact h
          · exact absurd h hvl
        subst this
        refine ⟨m, ?_, e2⟩
        rw [f6 v hvl]
        show s1.mrg v = _
        rw [hm1, if_pos rfl]
    · intro v hv
      simp only [List.mem_cons, not_or] at hv
      rw [f6 v hv.2]
      show s1.mrg v = _
      rw [hm1, if_neg hv.1]

theorem refresh_loop {ord : List Var → List Var} (hord : ∀ l, (ord l).Perm l) :
    ∀ (l : List Var) (s : State F), Core s → (∀ v ∈ l, v ∈ s.vars ∧ v ∉ s.obs) →
      ∃ s', forEach (refreshMerged ord) l s = .ok s' () ∧ Prep s s' ∧ Core s' ∧ s'.clusters = s.clusters ∧
        (∀ v ∈ l, ∃ m, s'.mrg v = some m ∧ (s.mrg v = some m ∨ (s.mrg v = none ∧ s.mergedVal ord v = .ok m))) ∧
        (∀ v, v ∉ l → s'.mrg v = s.mrg v) := by
  intro l
  induction l with
  | nil =>
    intro s hs _
    exact ⟨s, rfl, Prep.rfl' s, hs, rfl, by simp, fun _ _ => rfl⟩
  | cons u l ih =>
    intro s hs hl
    obtain ⟨hu1, hu2⟩ := hl u (by simp)
    have hk : u ∈ AMap.keys s.nodes := by rw [hs.net.keys]; exact hu1
    obtain ⟨n, hn⟩ := node?_of_mem hk
    obtain ⟨s1, m, e1, e2, e3, e4, e5, e6⟩ : ∃ s1 m, refreshMerged ord u s = .ok s1 () ∧ Prep s s1 ∧ Core s1 ∧
        s1.clusters = s.clusters ∧ (s1.mrg u = some m ∧ (s.mrg u = some m ∨ (s.mrg u = none ∧ s.mergedVal ord u = .ok m))) ∧
        ∀ v, v ≠ u → s1.mrg v = s.mrg v := by
      unfold refreshMerged
      rw [hn]
      simp only
      cases hm : n.merged with
      | some m =>
        have : s.mrg u = some m := by unfold mrg; rw [hn]; exact hm
        exact ⟨s, m, rfl, Prep.rfl' s, hs, rfl, ⟨this, Or.inl this⟩, fun _ _ => rfl⟩
      | none =>
        obtain ⟨m, h1, h2, h3⟩ := updateMerged_eq hord hs hu1 hu2
        have hm1 := mrg_setMerged hk m
        have hp1 := setMerged_prep s u m
        refine ⟨_, m, h1, hp1, ?_, rfl, ⟨by rw [hm1, if_pos rfl], Or.inr ⟨by unfold mrg; rw [hn]; exact hm, h2⟩⟩, fun v hv => by rw [hm1, if_neg hv]⟩
        exact hs.quiet hp1.toQuiet (by
          intro v m' h
          rw [hm1] at h
          split at h
          · rename_i hv; cases h; subst hv; exact h3
          · exact hs.mrgT v m' h)
    obtain ⟨s2, f1, f2, f3, f4, f5, f6⟩ := ih s1 e3 (fun v hv => by
      rw [e2.vars, e2.toQuiet.obs]; exact hl v (by simp [hv]))
    refine ⟨s2, ?_, e2.trans f2, f3, f4.trans e4, ?_, ?_⟩
    · rw [forEach_cons, e1]; exact f1
    · intro v hv
      by_cases hvl : v ∈ l
      · obtain ⟨m', g1, g2⟩ := f5 v hvl
        refine ⟨m', g1, ?_⟩
        rw [e2.toQuiet.mergedVal] at g2
        rcases g2 with g2 | g2
        · by_cases hvu : v = u
          · subst hvu
            rw [e5.1] at g2
            cases g2
            exact e5.2
          · rw [e6 v hvu] at g2; exact Or.inl g2
        · by_cases hvu : v = u
          · subst hvu
            rw [e5.1] at g2
            cases g2.1
          · rw [e6 v hvu] at g2; exact Or.inr g2
      · have : v = u := by
          rcases List.mem_cons.mp hv with h | h
          · exact h
          · exact absurd h hvl
        subst this
        exact ⟨m, by rw [f6 v hvl]; exact e5.1, e5.2⟩
    · intro v hv
      simp only [List.mem_cons, not_or] at hv
      rw [f6 v hv.2, e6 v hv.1]

/-- What the preparation of the cluster at position `i` leaves. -/
structure Prepared (s s' : State F) (i : Nat) (c : Cluster) : Prop where
  prep : Prep s s'
  inv : Inv s'
  keepsCoh : KeepsCoh s s'
  len : s'.clusters.length = s.clusters.length
  other : ∀ j, j ≠ i → s'.clusters[j]? = s.clusters[j]?
  conn : ∃ ts, s'.clusters[i]? = some { nodes := c.nodes, connectivity := some ts } ∧ TopoOk s' c.nodes ts
  merged : ∀ v ∈ c.nodes, ∃ m, s'.mrg v = some m ∧ m.Unary v
  mrgOther : ∀ v, v ∉ c.nodes → s'.mrg v = s.mrg v

theorem Inv.cluster_mem {s : State F} (hs : Inv s) {i : Nat} {c : Cluster} (hc : s.clusters[i]? = some c) {v : Var}
    (hv : v ∈ c.nodes) : v ∈ s.vars ∧ v ∉ s.obs := by
  refine mem_hid.mp ((hs.parts.mem v).mp ?_)
  exact List.mem_flatten.mpr ⟨c.nodes, List.mem_map.mpr ⟨c, List.mem_of_getElem? hc, rfl⟩, hv⟩

theorem Inv.cluster_nodup {s : State F} (hs : Inv s) {i : Nat} {c : Cluster} (hc : s.clusters[i]? = some c) :
    c.nodes.Nodup := by
  have := (List.nodup_flatten.mp hs.parts.nodup).1
  exact this c.nodes (List.mem_map.mpr ⟨c, List.mem_of_getElem? hc, rfl⟩)

theorem prepareCluster_ok {ord : List Var → List Var} (hord : ∀ l, (ord l).Perm l) {s : State F} (hs : Inv s)
    {i : Nat} {c : Cluster} (hc : s.clusters[i]? = some c) :
    ∃ s', prepareCluster ord i s = .ok s' () ∧ Prepared s s' i c := by
  have hmem := fun v (hv : v ∈ c.nodes) => hs.cluster_mem hc hv
  have hpo := hord c.nodes
  unfold prepareCluster
  rw [hc]
  simp only
  cases hconn : c.connectivity with
  | none =>
    simp only
    unfold updateConnectivity
    rw [hc]
    simp only
    set s0 : State F := { s with clusters := s.clusters.modify i (fun c => { c with connectivity := some [] }) } with hs0
    have hp0 : Prep s s0 :=
      ⟨⟨⟨rfl, rfl, rfl, rfl, rfl, rfl, rfl, rfl, fun _ => rfl⟩, rfl, map_nodes_modify _ _ _, fun _ => rfl, fun _ => rfl⟩,
        fun _ => rfl, rfl, rfl⟩
    have hc0 : Core s0 := hs.toCore.quiet hp0.toQuiet hs.mrgT
    obtain ⟨s', f1, f2, f3, f4, f5, f6⟩ := connectivity_loop hord (i := i) (ord c.nodes) [] s.clusters s0 hc0
      (fun v hv => hmem v (hpo.mem_iff.mp hv)) rfl
    have hP := hp0.trans f2
    have htoposEq : toposOf ord s0 = toposOf ord s := by funext u; exact toposOf_congr hp0.activeOf u
    rw [htoposEq, List.nil_append] at f4
    have htop : TopoOk s c.nodes ((ord c.nodes).flatMap (toposOf ord s)) :=
      topoOk_flatMap hord hs.net hpo (hs.cluster_nodup hc)
    have hget : ∀ j, s'.clusters[j]? = if i = j then
        some { nodes := c.nodes, connectivity := some ((ord c.nodes).flatMap (toposOf ord s)) } else s.clusters[j]? := by
      intro j
      rw [f4, List.getElem?_modify]
      by_cases hij : i = j
      · subst hij; simp [hc]
      · simp [hij]
    have htopos : ∀ c' ∈ s'.clusters, ∀ ts, c'.connectivity = some ts → TopoOk s' c'.nodes ts := by
      intro c' hc' ts hts
      obtain ⟨j, hj⟩ := List.mem_iff_getElem?.mp hc'
      rw [hget] at hj
      by_cases hij : i = j
      · rw [if_pos hij] at hj
        cases hj
        cases hts
        exact htop.congr (fun u _ w => hP.toQuiet.isSome u w)
      · rw [if_neg hij] at hj
        exact (hs.topos c' (List.mem_of_getElem? hj) ts hts).congr (fun u _ w => hP.toQuiet.isSome u w)
    refine ⟨s', f1, hP, hs.quiet hP.toQuiet f3.mrgT htopos, ?_, by rw [f4]; simp, ?_, ?_, ?_, ?_⟩
    · intro v hv ho hcoh m hm
      by_cases hvc : v ∈ ord c.nodes
      · obtain ⟨m', g1, g2⟩ := f5 v hvc
        rw [hm] at g1
        cases g1
        exact ⟨ord, hord, by rw [f2.toQuiet.mergedVal]; exact g2⟩
      · rw [f6 v hvc] at hm
        obtain ⟨o, ho1, ho2⟩ := hcoh m hm
        exact ⟨o, ho1, by rw [hP.toQuiet.mergedVal]; exact ho2⟩
    · intro j hj; rw [hget, if_neg (Ne.symm hj)]
    · exact ⟨_, by rw [hget, if_pos rfl], htop.congr (fun u _ w => hP.toQuiet.isSome u w)⟩
    · intro v hv
      obtain ⟨m', g1, _⟩ := f5 v (hpo.mem_iff.mpr hv)
      exact ⟨m', g1, f3.mrgT v m' g1⟩
    · intro v hv
      rw [f6 v (fun h => hv (hpo.mem_iff.mp h))]
      rfl
  | some ts =>
    simp only
    obtain ⟨s', f1, f2, f3, f4, f5, f6⟩ := refresh_loop hord (ord c.nodes) s hs.toCore
      (fun v hv => hmem v (hpo.mem_iff.mp hv))
    have htopos : ∀ c' ∈ s'.clusters, ∀ ts, c'.connectivity = some ts → TopoOk s' c'.nodes ts := by
      intro c' hc' ts hts
      rw [f4] at hc'
      exact (hs.topos c' hc' ts hts).congr (fun u _ w => f2.toQuiet.isSome u w)
    refine ⟨s', f1, f2, hs.quiet f2.toQuiet f3.mrgT htopos, ?_, by rw [f4], ?_, ?_, ?_, ?_⟩
    · intro v hv ho hcoh m hm
      by_cases hvc : v ∈ ord c.nodes
      · obtain ⟨m', g1, g2⟩ := f5 v hvc
        rw [hm] at g1
        cases g1
        rcases g2 with g2 | ⟨_, g2⟩
        · obtain ⟨o, ho1, ho2⟩ := hcoh m g2
          exact ⟨o, ho1, by rw [f2.toQuiet.mergedVal]; exact ho2⟩
        · exact ⟨ord, hord, by rw [f2.toQuiet.mergedVal]; exact g2⟩
      · rw [f6 v hvc] at hm
        obtain ⟨o, ho1, ho2⟩ := hcoh m hm
        exact ⟨o, ho1, by rw [f2.toQuiet.mergedVal]; exact ho2⟩
    · intro j _; rw [f4]
    · refine ⟨ts, ?_, ?_⟩
      · rw [f4, hc]; cases c; simp at hconn; simp [hconn]
      · exact htopos c (by rw [f4]; exact List.mem_of_getElem? hc) ts hconn
    · intro v hv
      obtain ⟨m', g1, _⟩ := f5 v (hpo.mem_iff.mpr hv)
      exact ⟨m', g1, f3.mrgT v m' g1⟩
    · intro v hv
      rw [f6 v (fun h => hv (hpo.mem_iff.mp h))]

/-! ### Propagation -/

theorem Soft.inv {s s' : State F} (h : Soft s s') (hs : Inv s) : Inv s' := hs.quiet' h.toQuiet h.mrg h.cl

theorem Soft.keepsCoh {s s' : State F} (h : Soft s s') : KeepsCoh s s' := by
  intro v _ _ hc m hm
  rw [h.mrg] at hm
  obtain ⟨o, ho1, ho2⟩ := hc m hm
  exact ⟨o, ho1, by rw [h.toQuiet.mergedVal]; exact ho2⟩

/-- A change made while answering a query. -/
structure Step (s s' : State F) : Prop extends Quiet s s' where
  inv : Inv s → Inv s'
  keepsCoh : Inv s → KeepsCoh s s'
  last : s'.last = s.last
  pool : s'.pool = s.pool

theorem Step.rfl' (s : State F) : Step s s := ⟨Quiet.rfl' s, id, fun _ _ _ _ => id, rfl, rfl⟩

theorem Step.trans {s s' s'' : State F} (h : Step s s') (h' : Step s' s'') : Step s s'' :=
  ⟨h.toQuiet.trans h'.toQuiet, fun hs => h'.inv (h.inv hs),
    fun hs => (h.keepsCoh hs).trans h.vars h.toQuiet.obs (h'.keepsCoh (h.inv hs)),
    h'.last.trans h.last, h'.pool.trans h.pool⟩

theorem Soft.step {s s' : State F} (h : Soft s s') : Step s s' :=
  ⟨h.toQuiet, h.inv, fun _ => h.keepsCoh, h.last, h.pool⟩

theorem Prepared.step {s s' : State F} {i : Nat} {c : Cluster} (h : Prepared s s' i c) : Step s s' :=
  ⟨h.prep.toQuiet, fun _ => h.inv, fun _ => h.keepsCoh, h.prep.last, h.prep.pool⟩

theorem propagateCluster_step {ord : List Var → List Var} (hord : ∀ l, (ord l).Perm l) (sched : Sched)
    (kind : Kind) (n i : Nat) {s : State F} (hs : Inv s) :
    match propagateCluster ord sched kind n i s with
    | .ok s' _ => Step s s'
    | .throw s' => Step s s'
    | .ub => True := by
  unfold propagateCluster
  cases hc : s.clusters[i]? with
  | none =>
    have : prepareCluster ord i s = .ub := by unfold prepareCluster; rw [hc]
    rw [this]; trivial
  | some c =>
    obtain ⟨s1, e1, h1⟩ := prepareCluster_ok hord hs hc
    rw [e1]
    simp only
    obtain ⟨ts, ht1, ht2⟩ := h1.conn
    rw [ht1]
    simp only
    have hr := messageRounds_soft (F := F) kind sched ts.length ts le_rfl s1
    cases hm : messageRounds kind sched ts s1 with
    | ok s2 b =>
      rw [hm] at hr
      cases b with
      | true => exact h1.step.trans hr.step
      | false =>
        simp only
        have hl := loopyPropagate_soft (F := F) kind sched n { nodes := c.nodes, connectivity := some ts } ts s2
        cases hp : loopyPropagate kind sched n { nodes := c.nodes, connectivity := some ts } ts s2 with
        | ok s3 _ => rw [hp] at hl; exact (h1.step.trans hr.step).trans hl.step
        | throw s3 => rw [hp] at hl; exact (h1.step.trans hr.step).trans hl.step
        | ub => trivial
    | throw s2 => rw [hm] at hr; exact h1.step.trans hr.step
    | ub => trivial

theorem propagateClusters_step {ord : List Var → List Var} (hord : ∀ l, (ord l).Perm l) (sched : Sched)
    (kind : Kind) (n : Nat) (is : List Nat) {s : State F} (hs : Inv s) :
    match propagateClusters ord sched kind n is s with
    | .ok s' _ => Step s s'
    | .throw s' => Step s s'
    | .ub => True := by
  induction is generalizing s with
  | nil => exact Step.rfl' s
  | cons i is ih =>
    rw [propagateClusters]
    have h1 := propagateCluster_step hord sched kind n i hs
    cases hp : propagateCluster ord sched kind n i s with
    | ok s1 r =>
      rw [hp] at h1
      have h2 := ih (h1.inv hs)
      simp only
      cases hq : propagateClusters ord sched kind n is s1 with
      | ok s2 _ => rw [hq] at h2; exact h1.trans h2
      | throw s2 => rw [hq] at h2; exact h1.trans h2
      | ub => trivial
    | throw s1 => rw [hp] at h1; exact h1
    | ub => trivial

/-- A change made by a complete query: the record of the last propagation and the pool may also
change. -/
structure Asked (s s' : State F) : Prop extends Quiet s s' where
  inv : Inv s → Inv s'
  keepsCoh : Inv s → KeepsCoh s s'

theorem Asked.rfl' (s : State F) : Asked s s := ⟨Quiet.rfl' s, id, fun _ _ _ _ => id⟩

theorem Asked.coh {s s' : State F} (h : Asked s s') (hs : Inv s) (hc : Coherent s) : Coherent s' :=
  (h.keepsCoh hs).coherent h.vars h.toQuiet.obs hc

theorem Asked.trans {s s' s'' : State F} (h : Asked s s') (h' : Asked s' s'') : Asked s s'' :=
  ⟨h.toQuiet.trans h'.toQuiet, fun hs => h'.inv (h.inv hs),
    fun hs => (h.keepsCoh hs).trans h.vars h.toQuiet.obs (h'.keepsCoh (h.inv hs))⟩

theorem Step.asked {s s' : State F} (h : Step s s') : Asked s s' := ⟨h.toQuiet, h.inv, h.keepsCoh⟩

/-- Changes of the fields which no invariant mentions. -/
theorem Asked.light {s s' : State F} (hn : s'.nodes = s.nodes) (hh : s'.heap = s.heap) (hv : s'.vars = s.vars)
    (hc : s'.clusters = s.clusters) (he : s'.evidences = s.evidences) (hf : s'.factors = s.factors)
    (hk : s'.consts = s.consts) (hi : s'.maxIter = s.maxIter) (ht : s'.tunables = s.tunables)
    (hu : s'.tuners = s.tuners) : Asked s s' := by
  have hnode : ∀ v, s'.node? v = s.node? v := fun v => by unfold node?; rw [hn]
  have hq : Quiet s s' := by
    refine ⟨⟨hh, hv, by rw [hn], hf, hk, hi, ht, hu, ?_⟩, he, by rw [hc], ?_, ?_⟩
    · intro v; unfold una; rw [hnode]
    · intro v; unfold disabledOf; rw [hnode]
    · intro v; unfold activeOf; rw [hnode]
  have hm : ∀ v, s'.mrg v = s.mrg v := fun v => by unfold mrg; rw [hnode]
  refine ⟨hq, fun hs => hs.quiet' hq hm hc, ?_⟩
  intro _ v _ _ hcoh m hm'
  rw [hm] at hm'
  obtain ⟨o, ho1, ho2⟩ := hcoh m hm'
  exact ⟨o, ho1, by rw [hq.mergedVal]; exact ho2⟩

/-- Every way of ending a query. -/
def KeepsI {α : Type} (x : M (State F) α) : Prop :=
  ∀ s, Inv s → match x s with
    | .ok s' _ => Asked s s'
    | .throw s' => Asked s s'
    | .ub => True

theorem propagateBelief_asked {ord : List Var → List Var} (hord : ∀ l, (ord l).Perm l) (sched : Sched)
    (kind : Kind) : KeepsI (propagateBelief (F := F) ord sched kind) := by
  intro s hs
  unfold propagateBelief
  by_cases hw : (!s.wouldNeedPropagation kind) = true
  · rw [if_pos hw]; exact Asked.rfl' s
  · rw [if_neg hw]
    cases s.pool with
    | none => exact Asked.rfl' s
    | some n =>
      simp only
      have h0 := (resetMessages_soft s).step
      have h1 := propagateClusters_step hord sched kind n (List.range s.clusters.length) (h0.inv hs)
      cases hp : propagateClusters ord sched kind n (List.range s.clusters.length) s.resetMessages with
      | ok s1 rs =>
        rw [hp] at h1
        exact (h0.trans h1).asked.trans (Asked.light rfl rfl rfl rfl rfl rfl rfl rfl rfl rfl)
      | throw s1 => rw [hp] at h1; exact (h0.trans h1).asked
      | ub => trivial

theorem withPool_asked {α : Type} (n : Nat) {body : M (State F) α} (hb : KeepsI body) :
    KeepsI (withPool n body) := by
  intro s hs
  unfold withPool
  have h0 : match setPoolSize n s with
    | .ok s' _ => Asked s s'
    | .throw s' => Asked s s'
    | .ub => True := by
    unfold setPoolSize
    cases s.pool with
    | none => trivial
    | some k =>
      simp only
      by_cases h1 : n = k
      · rw [if_pos h1]; exact Asked.rfl' s
      · rw [if_neg h1]
        by_cases h2 : n = 0
        · rw [if_pos h2]; exact Asked.light rfl rfl rfl rfl rfl rfl rfl rfl rfl rfl
        · rw [if_neg h2]; exact Asked.light rfl rfl rfl rfl rfl rfl rfl rfl rfl rfl
  cases hp : setPoolSize n s with
  | ok s1 _ =>
    rw [hp] at h0
    have h1 := hb s1 (h0.inv hs)
    simp only
    cases hx : body s1 with
    | ok s2 a => rw [hx] at h1; exact (h0.trans h1).trans (Asked.light rfl rfl rfl rfl rfl rfl rfl rfl rfl rfl)
    | throw s2 => rw [hx] at h1; exact (h0.trans h1).trans (Asked.light rfl rfl rfl rfl rfl rfl rfl rfl rfl rfl)
    | ub => trivial
  | throw s1 => rw [hp] at h0; exact h0
  | ub => trivial

theorem checkPropagation_asked {ord : List Var → List Var} (hord : ∀ l, (ord l).Perm l) (sched : Sched)
    (kind : Kind) (n : Nat) : KeepsI (checkPropagation (F := F) ord sched kind n) := by
  intro s hs
  unfold checkPropagation
  by_cases hw : s.wouldNeedPropagation kind = true
  · rw [if_pos hw]; exact withPool_asked n (propagateBelief_asked hord sched kind) s hs
  · rw [if_neg hw]; exact Asked.rfl' s

/-- A query: a propagation when needed, then a computation which only reads the state. -/
def asks {α : Type} (ord : List Var → List Var) (sched : Sched) (kind : Kind) (n : Nat)
    (r : State F → Res α) : M (State F) α := fun s =>
  match checkPropagation ord sched kind n s with
  | .ok s1 _ => lift r s1
  | .throw s1 => .throw s1
  | .ub => .ub

theorem asks_asked {α : Type} {ord : List Var → List Var} (hord : ∀ l, (ord l).Perm l) (sched : Sched)
    (kind : Kind) (n : Nat) (r : State F → Res α) : KeepsI (asks ord sched kind n r) := by
  intro s hs
  unfold asks
  have h0 := checkPropagation_asked (F := F) hord sched kind n s hs
  cases hp : checkPropagation ord sched kind n s with
  | ok s1 _ =>
    rw [hp] at h0
    simp only
    unfold lift
    cases r s1 with
    | ok a => exact h0
    | throw => exact h0
    | ub => trivial
  | throw s1 => rw [hp] at h0; exact h0
  | ub => trivial

/-- The value read by a marginal query after the propagation. -/
def readMarginal (ord : List Var → List Var) (v : Var) (s : State F) : Res (List F) :=
  match s.locate v with
  | none => .throw
  | some (node, loc) => marginalAt ord s node loc

theorem marginalQuery_eq (ord : List Var → List Var) (sched : Sched) (kind : Kind) (v : Var) (n : Nat)
    (s : State F) : marginalQuery ord sched kind v n s = asks ord sched kind n (readMarginal ord v) s := by
  unfold marginalQuery asks
  cases checkPropagation ord sched kind n s with
  | ok s1 _ =>
    simp only
    unfold lift readMarginal
    cases s1.locate v with
    | none => rfl
    | some e => rfl
  | throw s1 => rfl
  | ub => rfl

/-- The value read by a MAP query after the propagation. -/
def readMAP (ord : List Var → List Var) (v : Var) (s : State F) : Res Nat :=
  match readMarginal ord v s with
  | .ok values => findMax values
  | .throw => .throw
  | .ub => .ub

theorem getMAP_eq (ord : List Var → List Var) (sched : Sched) (v : Var) (n : Nat) (s : State F) :
    getMAP ord sched v n s = asks ord sched .map n (readMAP ord v) s := by
  unfold getMAP
  rw [marginalQuery_eq]
  unfold asks
  cases checkPropagation ord sched .map n s with
  | ok s1 _ =>
    simp only
    unfold lift readMAP
    cases readMarginal ord v s1 with
    | ok a => rfl
    | throw => rfl
    | ub => rfl
  | throw s1 => rfl
  | ub => rfl

theorem getHiddenSetMAP_eq (ord : List Var → List Var) (sched : Sched) (n : Nat) (s : State F) :
    getHiddenSetMAP ord sched n s =
      asks ord sched .map n (fun s => Res.mapList (mapOf ord s) (ord s.hiddenVariables)) s := by
  unfold getHiddenSetMAP asks
  rfl

theorem getJoint_eq (ord : List Var → List Var) (shuffle : List Contribution → List Contribution)
    (sched : Sched) (g : Group) (n : Nat) (s : State F) :
    getJoint ord shuffle sched g n s = asks ord sched .sum n (jointOf ord shuffle g) s := by
  unfold getJoint asks
  rfl

end State
end EFG
