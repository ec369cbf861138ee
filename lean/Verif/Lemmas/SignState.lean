import Verif.Lemmas.Sign
import Verif.Lemmas.Graph
/- Nothing stored in a model is negative. -/

set_option linter.unusedSectionVars false

namespace EFG
variable {F : Type} [Arith F] [Arith.Signed F]

/-- The messages of some connections. -/
def connsNotNeg (l : List (Var × Conn F)) : Prop := ∀ e ∈ l, ∀ m, e.2.message = some m → m.NotNeg

/-- What a node stores. -/
structure Node.NotNeg (n : Node F) : Prop where
  merged : ∀ m, n.merged = some m → m.NotNeg
  active : connsNotNeg n.active
  disabled : connsNotNeg n.disabled

/-- What a model stores, and all the factors. -/
structure State.NotNeg (s : State F) : Prop where
  heap : ∀ f ∈ s.heap, f.NotNeg
  nodes : ∀ e ∈ s.nodes, e.2.NotNeg

/-! ### Association lists -/

namespace AMap
variable {α β : Type} [DecidableEq α]

theorem mem_of_find? {m : List (α × β)} {k : α} {x : β} (h : find? m k = some x) : (k, x) ∈ m := by
  induction m with
  | nil => cases h
  | cons e m ih =>
    obtain ⟨k', x'⟩ := e
    unfold find? at h
    split at h
    · rename_i hk
      cases h
      rw [hk]; simp
    · exact List.mem_cons_of_mem _ (ih h)

theorem mem_set_or {m : List (α × β)} {k : α} {x : β} {e : α × β} (h : e ∈ set m k x) : e ∈ m ∨ e.2 = x := by
  induction m with
  | nil => simp [set] at h; right; rw [h]
  | cons e' m ih =>
    obtain ⟨k', x'⟩ := e'
    unfold set at h
    split at h
    · rcases List.mem_cons.mp h with h1 | h1
      · right; rw [h1]
      · left; exact List.mem_cons_of_mem _ h1
    · rcases List.mem_cons.mp h with h1 | h1
      · left; rw [h1]; simp
      · rcases ih h1 with h2 | h2
        · left; exact List.mem_cons_of_mem _ h2
        · right; exact h2

theorem mem_modify_or {m : List (α × β)} {k : α} {f : β → β} {e : α × β} (h : e ∈ modify m k f) :
    e ∈ m ∨ ∃ e' ∈ m, e.2 = f e'.2 := by
  induction m with
  | nil => cases h
  | cons e' m ih =>
    obtain ⟨k', x'⟩ := e'
    unfold modify at h
    split at h
    · rcases List.mem_cons.mp h with h1 | h1
      · right; exact ⟨(k', x'), by simp, by rw [h1]⟩
      · left; exact List.mem_cons_of_mem _ h1
    · rcases List.mem_cons.mp h with h1 | h1
      · left; rw [h1]; simp
      · rcases ih h1 with h2 | ⟨e'', h2, h3⟩
        · left; exact List.mem_cons_of_mem _ h2
        · right; exact ⟨e'', List.mem_cons_of_mem _ h2, h3⟩

end AMap

theorem connsNotNeg.set {l : List (Var × Conn F)} (h : connsNotNeg l) {v : Var} {p : Nat} :
    connsNotNeg (AMap.set l v { factor := p, message := none }) := by
  intro e he m hm
  rcases AMap.mem_set_or he with h1 | h1
  · exact h e h1 m hm
  · rw [h1] at hm; cases hm

theorem connsNotNeg.erase {l : List (Var × Conn F)} (h : connsNotNeg l) {v : Var} : connsNotNeg (AMap.erase l v) :=
  fun e he => h e (List.mem_of_mem_filter he)

theorem connsNotNeg.write {l : List (Var × Conn F)} (h : connsNotNeg l) {v : Var} {x : Option (Fn F)}
    (hx : ∀ m, x = some m → m.NotNeg) : connsNotNeg (AMap.modify l v (fun c => { c with message := x })) := by
  intro e he m hm
  rcases AMap.mem_modify_or he with h1 | ⟨e', _, h1⟩
  · exact h e h1 m hm
  · rw [h1] at hm; exact hx m hm

theorem connsNotNeg.all {l : List (Var × Conn F)} {x : Option (Fn F)} (hx : ∀ m, x = some m → m.NotNeg) :
    connsNotNeg (l.map (fun e => (e.1, { e.2 with message := x }))) := by
  intro e he m hm
  obtain ⟨e', _, rfl⟩ := List.mem_map.mp he
  exact hx m hm

namespace State

/-- An end of a call which leaves nothing negative behind. -/
def SafeAt {α : Type} (s : State F) (o : Out (State F) α) : Prop :=
  match o with
  | .ok s' _ => s.NotNeg → s'.NotNeg
  | .throw s' => s.NotNeg → s'.NotNeg
  | .ub => True

/-- A call which leaves nothing negative behind. -/
def SafeSign {α : Type} (x : M (State F) α) : Prop := ∀ s, SafeAt s (x s)

theorem safeSign_iff {α : Type} {x : M (State F) α} :
    SafeSign x ↔ M.Keeps (fun s s' : State F => s.NotNeg → s'.NotNeg) x := by
  constructor
  · intro h s
    have := h s
    cases hx : x s <;> rw [hx] at this <;> exact this
  · intro h s
    have := h s
    cases hx : x s <;> rw [hx] at this <;> exact this

theorem SafeSign.ok {α : Type} {x : M (State F) α} (h : SafeSign x) {s s' : State F} {a : α} (e : x s = .ok s' a) :
    s.NotNeg → s'.NotNeg := (safeSign_iff.mp h).ok e

theorem SafeSign.throw {α : Type} {x : M (State F) α} (h : SafeSign x) {s s' : State F} (e : x s = .throw s') :
    s.NotNeg → s'.NotNeg := (safeSign_iff.mp h).throw e

theorem NotNeg.upd {s : State F} (h : s.NotNeg) {v : Var} {f : Node F → Node F} (hf : ∀ n, n.NotNeg → (f n).NotNeg) :
    (s.updNode v f).NotNeg := by
  refine ⟨h.heap, fun e he => ?_⟩
  rcases AMap.mem_modify_or he with h1 | ⟨e', h1, h2⟩
  · exact h.nodes e h1
  · rw [h2]; exact hf _ (h.nodes e' h1)

theorem NotNeg.node {s : State F} (h : s.NotNeg) {v : Var} {n : Node F} (e : s.node? v = some n) : n.NotNeg :=
  h.nodes _ (AMap.mem_of_find? e)

theorem NotNeg.deref {s : State F} (h : s.NotNeg) {p : Nat} {f : Fn F} (e : s.deref p = .ok f) : f.NotNeg := by
  unfold State.deref Heap.get at e
  cases hp : s.heap[p]? with
  | some g => rw [hp] at e; cases e; exact h.heap _ (List.mem_of_getElem? hp)
  | none => rw [hp] at e; cases e

theorem NotNeg.activeOf {s : State F} (h : s.NotNeg) (v : Var) : connsNotNeg (s.activeOf v) := by
  unfold State.activeOf
  split
  · rename_i n hn; exact (h.node hn).active
  · intro e he; cases he

theorem NotNeg.disabledOf {s : State F} (h : s.NotNeg) (v : Var) : connsNotNeg (s.disabledOf v) := by
  unfold State.disabledOf
  split
  · rename_i n hn; exact (h.node hn).disabled
  · intro e he; cases he

theorem safe_forEach {α : Type} {f : α → M (State F) Unit} {l : List α} (h : ∀ a, SafeSign (f a)) :
    SafeSign (forEach f l) := safeSign_iff.mpr
  (forEach_keeps (fun _ h => h) (fun _ _ _ a b h => b (a h)) (fun a _ => safeSign_iff.mp (h a)))

theorem safe_lift {α : Type} (r : State F → Res α) : SafeSign (lift r) := by
  intro s
  unfold lift
  cases r s with
  | ok a => exact fun h => h
  | throw => exact fun h => h
  | ub => exact True.intro

/-! ### Nodes -/

theorem NotNeg.clearMerged {s : State F} (h : s.NotNeg) (v : Var) : (clearMerged v s).NotNeg :=
  h.upd (fun _ hn => ⟨fun _ e => (nomatch e), hn.active, hn.disabled⟩)

theorem NotNeg.activate {s : State F} (h : s.NotNeg) (a b : Var) (p : Nat) : (activate a b p s).NotNeg := by
  have h1 : ∀ (c : Var) (n : Node F), n.NotNeg → (activateNode c p n).NotNeg :=
    fun _ _ hn => ⟨hn.merged, hn.active.set, hn.disabled.erase⟩
  exact (h.upd (h1 b)).upd (h1 a)

theorem NotNeg.disableWith {s : State F} (h : s.NotNeg) (a b : Var) (p : Nat) : (disableWith a b p s).NotNeg := by
  have h1 : ∀ (c : Var) (n : Node F), n.NotNeg → (disableNode c p n).NotNeg :=
    fun _ _ hn => ⟨hn.merged, hn.active.erase, hn.disabled.set⟩
  exact (h.upd (h1 b)).upd (h1 a)

theorem NotNeg.setActive {s : State F} (h : s.NotNeg) (a b : Var) {x : Option (Fn F)} (hx : ∀ m, x = some m → m.NotNeg) :
    (setActiveMessage a b x s).NotNeg := h.upd (fun _ hn => ⟨hn.merged, hn.active.write hx, hn.disabled⟩)

theorem NotNeg.setDisabled {s : State F} (h : s.NotNeg) (a b : Var) {x : Option (Fn F)}
    (hx : ∀ m, x = some m → m.NotNeg) : (setDisabledMessage a b x s).NotNeg :=
  h.upd (fun _ hn => ⟨hn.merged, hn.active, hn.disabled.write hx⟩)

theorem safe_disable (a b : Var) : SafeSign (disable (F := F) a b) := by
  intro s
  unfold disable
  cases AMap.find? (s.activeOf a) b with
  | some c => exact fun h => h.disableWith _ _ _
  | none => exact fun h => h

theorem NotNeg.gather {ord : List Var → List Var} {s : State F} (h : s.NotNeg) {n : Node F} (hn : n.NotNeg)
    {l : List (Fn F)} (e : gatherUnaries ord s n = .ok l) : ∀ f ∈ l, f.NotNeg := by
  unfold gatherUnaries at e
  split at e
  · rename_i us hus
    split at e
    · rename_i ms hms
      cases e
      intro f hf
      rcases List.mem_append.mp hf with h1 | h1
      · exact Fn.mapList_all Fn.NotNeg (fun p _ b hb => h.deref hb) hus f h1
      · refine Fn.mapList_all Fn.NotNeg (fun w _ b hb => ?_) hms f h1
        unfold disabledMessage at hb
        split at hb
        · rename_i c hc
          cases hm : c.message with
          | some m => rw [hm] at hb; cases hb; exact hn.disabled _ (AMap.mem_of_find? hc) _ hm
          | none => rw [hm] at hb; cases hb
        · cases hb
    · cases e
    · cases e
  · cases e
  · cases e

theorem NotNeg.mergedOf {ord : List Var → List Var} {s : State F} (h : s.NotNeg) {v : Var} {n : Node F} (hn : n.NotNeg)
    {m : Fn F} (e : mergedOf ord s v n = .ok m) : m.NotNeg := by
  unfold State.mergedOf at e
  split at e
  · cases e; exact Fn.notNeg_ones v
  · rename_i f fs hf
    exact Fn.notNeg_mergedUnaries (h.gather hn hf) e
  · cases e
  · cases e

theorem safe_updateMerged (ord : List Var → List Var) (v : Var) : SafeSign (updateMerged (F := F) ord v) := by
  intro s
  unfold updateMerged
  cases hn : s.node? v with
  | none => exact True.intro
  | some n =>
    simp only
    cases hm : State.mergedOf ord s v n with
    | ok m =>
      intro h
      refine h.upd (fun _ hx => ⟨fun m' e => ?_, hx.active, hx.disabled⟩)
      cases e
      exact h.mergedOf (h.node hn) hm
    | throw => exact fun h => h
    | ub => exact True.intro

/-! ### Messages -/

theorem NotNeg.conn {s : State F} (h : s.NotNeg) {r : ConnRef} {c : Conn F} (e : s.conn? r = some c) {m : Fn F}
    (hm : c.message = some m) : m.NotNeg := h.activeOf r.owner _ (AMap.mem_of_find? e) _ hm

theorem NotNeg.deps {s : State F} (h : s.NotNeg) {rs : List ConnRef} {ms : List (Fn F)}
    (e : s.depMessages rs = .ok (some ms)) : ∀ m ∈ ms, m.NotNeg := by
  induction rs generalizing ms with
  | nil => cases e; simp
  | cons r rs ih =>
    unfold depMessages at e
    split at e
    · cases e
    · rename_i m hm
      split at e
      · rename_i l hl
        cases e
        intro x hx
        rcases List.mem_cons.mp hx with h1 | h1
        · rw [h1]
          unfold depMessage at hm
          split at hm
          · rename_i c hc
            exact h.conn hc (by simpa using hm)
          · cases hm
        · exact ih hl x h1
      · cases e
      · cases e
      · cases e
    · cases e
    · cases e

theorem safe_updateMessage (kind : Kind) (t : Topo) : SafeSign (updateMessage (F := F) kind t) := by
  intro s
  unfold updateMessage
  cases hn : s.node? t.sender with
  | none => exact True.intro
  | some n =>
    simp only
    cases hg : n.merged with
    | none => exact fun h => h
    | some merged =>
      simp only
      cases hd : s.depMessages t.deps with
      | throw => exact fun h => h
      | ub => exact True.intro
      | ok o =>
        cases o with
        | none => exact fun h => h
        | some deps =>
          simp only
          cases hc : s.conn? t.conn with
          | none => exact True.intro
          | some c =>
            simp only
            cases hm : s.newMessage kind merged deps c.factor with
            | ok m =>
              have hmn : s.NotNeg → ∀ m', some m = some m' → m'.NotNeg := by
                intro h m' e
                cases e
                unfold newMessage at hm
                split at hm
                · rename_i g hgm
                  have h1 : g.NotNeg := by
                    refine Fn.notNeg_mergedUnaries (fun f hf => ?_) hgm
                    rcases List.mem_cons.mp hf with h2 | h2
                    · rw [h2]; exact (h.node hn).merged _ hg
                    · exact h.deps hd f h2
                  split at hm
                  · rename_i b hb
                    exact Fn.notNeg_message h1 (h.deref hb) hm
                  · cases hm
                  · cases hm
                · cases hm
                · cases hm
              simp only
              cases variation c.message m with
              | ok x => exact fun h => h.setActive _ _ (hmn h)
              | throw => exact fun h => h.setActive _ _ (hmn h)
              | ub => exact True.intro
            | throw =>
              intro h
              unfold messageThrown
              split
              · exact h.setActive _ _ (fun _ e => (nomatch e))
              · exact h
            | ub => exact True.intro

theorem safe_connectivityStep (ord : List Var → List Var) (i : Nat) (v : Var) :
    SafeSign (connectivityStep (F := F) ord i v) := by
  intro s
  have h1 := safe_updateMerged ord v s
  unfold connectivityStep
  cases hx : updateMerged ord v s with
  | ok s1 u =>
    rw [hx] at h1
    simp only
    cases Res.mapList (topoOf ord s1 v (AMap.keys (s1.activeOf v))) (ord (AMap.keys (s1.activeOf v))) with
    | ok ts => exact fun h => ⟨(h1 h).heap, (h1 h).nodes⟩
    | throw => exact h1
    | ub => exact True.intro
  | throw s1 => rw [hx] at h1; exact h1
  | ub => exact True.intro

theorem safe_updateConnectivity (ord : List Var → List Var) (i : Nat) :
    SafeSign (updateConnectivity (F := F) ord i) := by
  intro s
  unfold updateConnectivity
  cases s.clusters[i]? with
  | none => exact True.intro
  | some c =>
    simp only
    have h1 := safe_forEach (fun v => safe_connectivityStep (F := F) ord i v) (l := ord c.nodes)
      { s with clusters := s.clusters.modify i (fun c => { c with connectivity := some [] }) }
    unfold SafeAt
    split
    · rename_i hx; rw [hx] at h1; exact fun h => h1 ⟨h.heap, h.nodes⟩
    · rename_i hx; rw [hx] at h1; exact fun h => h1 ⟨h.heap, h.nodes⟩
    · exact True.intro

/-! ### Propagation -/

theorem safe_messageTask (kind : Kind) (t : Topo × Nat) : SafeSign (messageTask (F := F) kind t) := by
  intro s
  have h1 := safe_updateMessage kind t.1 s
  unfold messageTask
  cases hx : updateMessage kind t.1 s <;> rw [hx] at h1 <;> exact h1

theorem safe_messageRoundsUpTo (kind : Kind) (sched : Sched) (k : Nat) (left : List Topo) :
    SafeSign (messageRoundsUpTo (F := F) kind sched k left) := by
  induction k generalizing left with
  | zero =>
    intro s
    unfold messageRoundsUpTo
    by_cases h0 : left = []
    · rw [if_pos h0]; exact fun h => h
    · rw [if_neg h0]
      cases s.splitReady left with
      | ok p =>
        simp only
        by_cases hp : p.1 = []
        · rw [if_pos hp]; exact fun h => h
        · rw [if_neg hp]; exact True.intro
      | throw => exact fun h => h
      | ub => exact True.intro
  | succ k ih =>
    intro s
    unfold messageRoundsUpTo
    by_cases h0 : left = []
    · rw [if_pos h0]; exact fun h => h
    · rw [if_neg h0]
      cases s.splitReady left with
      | ok p =>
        simp only
        by_cases hp : p.1 = []
        · rw [if_pos hp]; exact fun h => h
        · rw [if_neg hp]
          have h1 : SafeSign (messageRound (F := F) kind sched p.1) := safe_forEach (safe_messageTask kind)
          have h2 := h1 s
          cases hx : messageRound kind sched p.1 s with
          | ok s' u =>
            rw [hx] at h2
            simp only
            have h3 := ih p.2 s'
            cases hy : messageRoundsUpTo kind sched k p.2 s' with
            | ok s'' b => rw [hy] at h3; exact fun h => h3 (h2 h)
            | throw s'' => rw [hy] at h3; exact fun h => h3 (h2 h)
            | ub => exact True.intro
          | throw s' => rw [hx] at h2; exact h2
          | ub => exact True.intro
      | throw => exact fun h => h
      | ub => exact True.intro

theorem safe_loopyTasks (kind : Kind) (n : Nat) (ts : List (Topo × Nat)) (vs : List F) :
    SafeSign (loopyTasks (F := F) kind n ts vs) := by
  induction ts generalizing vs with
  | nil => exact fun s h => h
  | cons t ts ih =>
    intro s
    unfold loopyTasks loopyTask
    have h1 := safe_updateMessage kind t.1 s
    cases hx : updateMessage kind t.1 s with
    | ok s' o =>
      rw [hx] at h1
      cases o with
      | none => exact h1
      | some x =>
        simp only
        have h3 := ih (vs.modify (t.2 % n) (fun v => Arith.max2 v x)) s'
        cases hy : loopyTasks kind n ts (vs.modify (t.2 % n) (fun v => Arith.max2 v x)) s' with
        | ok s'' b => rw [hy] at h3; exact fun h => h3 (h1 h)
        | throw s'' => rw [hy] at h3; exact fun h => h3 (h1 h)
        | ub => exact True.intro
    | throw s' => rw [hx] at h1; exact h1
    | ub => exact True.intro

theorem safe_loopyGroups (kind : Kind) (sched : Sched) (n : Nat) (gs : List (List Topo)) (vs : List F) :
    SafeSign (loopyGroups (F := F) kind sched n gs vs) := by
  induction gs generalizing vs with
  | nil => exact fun s h => h
  | cons g gs ih =>
    intro s
    unfold loopyGroups
    have h1 := safe_loopyTasks kind n (sched g.zipIdx) vs s
    cases hx : loopyTasks kind n (sched g.zipIdx) vs s with
    | ok s' vs' =>
      rw [hx] at h1
      simp only
      have h3 := ih vs' s'
      cases hy : loopyGroups kind sched n gs vs' s' with
      | ok s'' b => rw [hy] at h3; exact fun h => h3 (h1 h)
      | throw s'' => rw [hy] at h3; exact fun h => h3 (h1 h)
      | ub => exact True.intro
    | throw s' => rw [hx] at h1; exact h1
    | ub => exact True.intro

theorem safe_loopyIterations (kind : Kind) (sched : Sched) (n : Nat) (order : List (List Topo)) (k : Nat) :
    SafeSign (loopyIterations (F := F) kind sched n order k) := by
  induction k with
  | zero => exact fun s h => h
  | succ k ih =>
    intro s
    unfold loopyIterations
    have h1 := safe_loopyGroups kind sched n order (List.replicate n Arith.zero) s
    cases hx : loopyGroups kind sched n order (List.replicate n Arith.zero) s with
    | ok s' vs =>
      rw [hx] at h1
      simp only
      cases Arith.maxElement vs with
      | ok m =>
        simp only
        by_cases hm : Arith.lt m Arith.tol = true
        · rw [if_pos hm]; exact h1
        · rw [if_neg hm]
          have h3 := ih s'
          cases hy : loopyIterations kind sched n order k s' with
          | ok s'' b => rw [hy] at h3; exact fun h => h3 (h1 h)
          | throw s'' => rw [hy] at h3; exact fun h => h3 (h1 h)
          | ub => exact True.intro
      | throw => exact h1
      | ub => exact True.intro
    | throw s' => rw [hx] at h1; exact h1
    | ub => exact True.intro

theorem NotNeg.foldNodes {f : State F → Var → State F} (hf : ∀ s : State F, s.NotNeg → ∀ v, (f s v).NotNeg)
    (l : List Var) {s : State F} (h : s.NotNeg) : (l.foldl f s).NotNeg := by
  induction l generalizing s with
  | nil => exact h
  | cons v l ih => exact ih (hf s h v)

theorem safe_loopyPropagate (kind : Kind) (sched : Sched) (n : Nat) (c : Cluster) (topos : List Topo) :
    SafeSign (loopyPropagate (F := F) kind sched n c topos) := by
  intro s
  unfold loopyPropagate
  simp only
  have h1 := safe_loopyIterations kind sched n (loopyOrder n topos) (c.nodes.foldl oneMessages s).maxIter
    (c.nodes.foldl oneMessages s)
  have h2 : s.NotNeg → (c.nodes.foldl oneMessages s).NotNeg := by
    refine NotNeg.foldNodes (fun s h v => ?_) c.nodes
    unfold oneMessages
    refine h.upd (fun _ hn => ⟨hn.merged, connsNotNeg.all (fun m e => ?_), hn.disabled⟩)
    cases e
    exact Fn.notNeg_ones v
  unfold SafeAt
  split
  · rename_i hx; rw [hx] at h1; exact fun h => h1 (h2 h)
  · rename_i hx; rw [hx] at h1; exact fun h => h1 (h2 h)
  · exact True.intro

theorem safe_refreshMerged (ord : List Var → List Var) (v : Var) : SafeSign (refreshMerged (F := F) ord v) := by
  intro s
  unfold refreshMerged
  cases s.node? v with
  | none => exact True.intro
  | some n =>
    simp only
    cases n.merged with
    | some _ => exact fun h => h
    | none => exact safe_updateMerged ord v s

theorem safe_prepareCluster (ord : List Var → List Var) (i : Nat) : SafeSign (prepareCluster (F := F) ord i) := by
  intro s
  unfold prepareCluster
  cases s.clusters[i]? with
  | none => exact True.intro
  | some c =>
    simp only
    cases c.connectivity with
    | none => exact safe_updateConnectivity ord i s
    | some _ => exact safe_forEach (safe_refreshMerged ord) s

theorem safe_propagateCluster (ord : List Var → List Var) (sched : Sched) (kind : Kind) (n i : Nat) :
    SafeSign (propagateCluster (F := F) ord sched kind n i) := by
  intro s
  unfold propagateCluster
  have h1 := safe_prepareCluster ord i s
  cases hx : prepareCluster ord i s with
  | throw s1 => rw [hx] at h1; exact h1
  | ub => exact True.intro
  | ok s1 u =>
    rw [hx] at h1
    simp only
    cases s1.clusters[i]? with
    | none => exact True.intro
    | some c =>
      simp only
      cases c.connectivity with
      | none => exact h1
      | some topos =>
        simp only
        have h2 := safe_messageRoundsUpTo kind sched topos.length topos s1
        unfold messageRounds
        cases hy : messageRoundsUpTo kind sched topos.length topos s1 with
        | throw s2 => rw [hy] at h2; exact fun h => h2 (h1 h)
        | ub => exact True.intro
        | ok s2 b =>
          rw [hy] at h2
          cases b with
          | true => exact fun h => h2 (h1 h)
          | false =>
            simp only
            have h3 := safe_loopyPropagate kind sched n c topos s2
            cases hz : loopyPropagate kind sched n c topos s2 with
            | ok s3 d => rw [hz] at h3; exact fun h => h3 (h2 (h1 h))
            | throw s3 => rw [hz] at h3; exact fun h => h3 (h2 (h1 h))
            | ub => exact True.intro

theorem safe_propagateClusters (ord : List Var → List Var) (sched : Sched) (kind : Kind) (n : Nat) (is : List Nat) :
    SafeSign (propagateClusters (F := F) ord sched kind n is) := by
  induction is with
  | nil => exact fun s h => h
  | cons i is ih =>
    intro s
    unfold propagateClusters
    have h1 := safe_propagateCluster ord sched kind n i s
    cases hx : propagateCluster ord sched kind n i s with
    | throw s1 => rw [hx] at h1; exact h1
    | ub => exact True.intro
    | ok s1 r =>
      rw [hx] at h1
      simp only
      have h2 := ih s1
      cases hy : propagateClusters ord sched kind n is s1 with
      | ok s2 rs => rw [hy] at h2; exact fun h => h2 (h1 h)
      | throw s2 => rw [hy] at h2; exact fun h => h2 (h1 h)
      | ub => exact True.intro

theorem NotNeg.resetMessages {s : State F} (h : s.NotNeg) : s.resetMessages.NotNeg := by
  refine NotNeg.foldNodes (fun s h v => ?_) _ h
  exact h.upd (fun _ hn => ⟨hn.merged, connsNotNeg.all (fun _ e => (nomatch e)), hn.disabled⟩)

theorem safe_propagateBelief (ord : List Var → List Var) (sched : Sched) (kind : Kind) :
    SafeSign (propagateBelief (F := F) ord sched kind) := by
  intro s
  unfold propagateBelief
  by_cases hw : (!s.wouldNeedPropagation kind) = true
  · rw [if_pos hw]; exact fun h => h
  · rw [if_neg hw]
    cases s.pool with
    | none => exact fun h => h
    | some n =>
      simp only
      have h1 := safe_propagateClusters ord sched kind n (List.range s.clusters.length) s.resetMessages
      cases hx : propagateClusters ord sched kind n (List.range s.clusters.length) s.resetMessages with
      | ok s1 rs => rw [hx] at h1; exact fun h => ⟨(h1 h.resetMessages).heap, (h1 h.resetMessages).nodes⟩
      | throw s1 => rw [hx] at h1; exact fun h => h1 h.resetMessages
      | ub => exact True.intro

theorem safe_withPool {α : Type} (n : Nat) {x : M (State F) α} (hx : SafeSign x) : SafeSign (withPool n x) := by
  intro s
  unfold withPool
  have h0 : SafeSign (setPoolSize (F := F) n) := by
    intro s
    unfold setPoolSize
    cases s.pool with
    | none => exact True.intro
    | some k =>
      simp only
      by_cases h1 : n = k
      · rw [if_pos h1]; exact fun h => h
      · rw [if_neg h1]
        by_cases h2 : n = 0
        · rw [if_pos h2]; exact fun h => ⟨h.heap, h.nodes⟩
        · rw [if_neg h2]; exact fun h => ⟨h.heap, h.nodes⟩
  have h1 := h0 s
  cases hp : setPoolSize n s with
  | throw s1 => rw [hp] at h1; exact h1
  | ub => exact True.intro
  | ok s1 u =>
    rw [hp] at h1
    simp only
    have h2 := hx s1
    cases hy : x s1 with
    | ok s2 a => rw [hy] at h2; exact fun h => ⟨(h2 (h1 h)).heap, (h2 (h1 h)).nodes⟩
    | throw s2 => rw [hy] at h2; exact fun h => ⟨(h2 (h1 h)).heap, (h2 (h1 h)).nodes⟩
    | ub => exact True.intro

theorem safe_checkPropagation (ord : List Var → List Var) (sched : Sched) (kind : Kind) (n : Nat) :
    SafeSign (checkPropagation (F := F) ord sched kind n) := by
  intro s
  unfold checkPropagation
  by_cases hw : s.wouldNeedPropagation kind = true
  · rw [if_pos hw]; exact safe_withPool n (safe_propagateBelief ord sched kind) s
  · rw [if_neg hw]; exact fun h => h

/-- Running a call and then another. -/
theorem safe_then {α β : Type} {s : State F} {o : Out (State F) α} (h : SafeAt s o) {z : Out (State F) β}
    (hok : ∀ s1 a, o = .ok s1 a → SafeAt s1 z) (ht : ∀ s1, o = .throw s1 → z = .throw s1) (hu : o = .ub → z = .ub) :
    SafeAt s z := by
  cases ho : o with
  | ok s1 a =>
    have h1 := hok s1 a ho
    rw [ho] at h
    unfold SafeAt at h1 ⊢
    cases z with
    | ok s2 b => exact fun k => h1 (h k)
    | throw s2 => exact fun k => h1 (h k)
    | ub => exact True.intro
  | throw s1 => rw [ho] at h; rw [ht s1 ho]; exact h
  | ub => rw [hu ho]; exact True.intro

theorem safe_marginalQuery (ord : List Var → List Var) (sched : Sched) (kind : Kind) (v : Var) (n : Nat) :
    SafeSign (marginalQuery (F := F) ord sched kind v n) := by
  intro s
  unfold marginalQuery
  refine safe_then (safe_checkPropagation ord sched kind n s) (fun s1 a e => ?_) (fun s1 e => ?_) (fun e => ?_) <;> rw [e]
  simp only
  cases s1.locate v with
  | none => exact fun h => h
  | some e => exact safe_lift (fun s => marginalAt ord s e.1 e.2) s1

theorem safe_marginalByName (ord : List Var → List Var) (sched : Sched) (name : String) (n : Nat) :
    SafeSign (getMarginalByName (F := F) ord sched name n) := by
  intro s
  unfold getMarginalByName
  cases s.findVariable name with
  | ok v => exact safe_marginalQuery ord sched .sum v n s
  | throw => exact fun h => h
  | ub => exact True.intro

theorem safe_getMAP (ord : List Var → List Var) (sched : Sched) (v : Var) (n : Nat) :
    SafeSign (getMAP (F := F) ord sched v n) := by
  intro s
  unfold getMAP
  refine safe_then (safe_marginalQuery ord sched .map v n s) (fun s1 a e => ?_) (fun s1 e => ?_) (fun e => ?_) <;> rw [e]
  exact safe_lift _ s1

theorem safe_hiddenSet (ord : List Var → List Var) (sched : Sched) (n : Nat) :
    SafeSign (getHiddenSetMAP (F := F) ord sched n) := by
  intro s
  unfold getHiddenSetMAP
  refine safe_then (safe_checkPropagation ord sched .map n s) (fun s1 a e => ?_) (fun s1 e => ?_) (fun e => ?_) <;> rw [e]
  exact safe_lift _ s1

theorem safe_getJoint (ord : List Var → List Var) (shuffle : List Contribution → List Contribution) (sched : Sched)
    (g : Group) (n : Nat) : SafeSign (getJoint (F := F) ord shuffle sched g n) := by
  intro s
  unfold getJoint
  refine safe_then (safe_checkPropagation ord sched .sum n s) (fun s1 a e => ?_) (fun s1 e => ?_) (fun e => ?_) <;> rw [e]
  exact safe_lift _ s1

/-! ### Evidences -/

theorem safe_conditionStep (v : Var) (k : Nat) (w : Var) : SafeSign (conditionStep (F := F) v k w) := by
  intro s
  unfold conditionStep
  cases AMap.find? (s.disabledOf w) v with
  | none => exact True.intro
  | some c =>
    simp only
    cases hd : s.deref c.factor with
    | throw => exact fun h => h
    | ub => exact True.intro
    | ok f =>
      simp only
      cases he : f.evidence v k with
      | throw => exact fun h => h
      | ub => exact True.intro
      | ok m =>
        intro h
        refine (h.setDisabled w v (fun m' e => ?_)).clearMerged w
        cases e
        exact (h.deref hd).evidence he

theorem safe_condition (ord : List Var → List Var) (v : Var) (k : Nat) : SafeSign (condition (F := F) ord v k) := by
  intro s
  have h1 := safe_forEach (F := F) (safe_conditionStep v k) (l := ord (AMap.keys (s.disabledOf v))) s
  unfold condition
  cases hx : forEach (conditionStep v k) (ord (AMap.keys (s.disabledOf v))) s with
  | ok s1 u => rw [hx] at h1; exact fun h => ⟨(h1 h).heap, (h1 h).nodes⟩
  | throw s1 => rw [hx] at h1; exact h1
  | ub => exact True.intro

theorem safe_splitCluster (ord : List Var → List Var) (v : Var) (i : Option Nat) :
    SafeSign (splitCluster (F := F) ord v i) := by
  intro s
  unfold splitCluster
  cases i with
  | none => exact True.intro
  | some i =>
    simp only
    cases s.clusters[i]? with
    | none => exact True.intro
    | some c =>
      simp only
      by_cases h1 : c.nodes.length = 1
      · rw [if_pos h1]; exact fun h => ⟨h.heap, h.nodes⟩
      · rw [if_neg h1]; exact fun h => ⟨h.heap, h.nodes⟩

theorem safe_observe (ord : List Var → List Var) (v : Var) (i : Option Nat) (k : Nat) :
    SafeSign (observe (F := F) ord v i k) := by
  intro s
  unfold observe
  have h1 := safe_forEach (F := F) (safe_disable v) (l := ord (AMap.keys (s.activeOf v))) s
  cases hx : forEach (disable v) (ord (AMap.keys (s.activeOf v))) s with
  | throw s1 => rw [hx] at h1; exact h1
  | ub => exact True.intro
  | ok s1 u =>
    rw [hx] at h1
    simp only
    have h2 := safe_splitCluster ord v i s1
    cases hy : splitCluster ord v i s1 with
    | ok s2 u => rw [hy] at h2; exact fun h => ⟨(h2 (h1 h)).heap, (h2 (h1 h)).nodes⟩
    | throw s2 => rw [hy] at h2; exact fun h => h2 (h1 h)
    | ub => exact True.intro

theorem safe_setEvidence (ord : List Var → List Var) (v : Var) (k : Nat) : SafeSign (setEvidence (F := F) ord v k) := by
  intro s
  unfold setEvidence
  by_cases hv : v.size ≤ k
  · rw [if_pos hv]; exact fun h => h
  · rw [if_neg hv]
    rcases s.locate v with _ | ⟨node, i | key⟩
    · exact fun h => h
    · simp only
      refine safe_then (safe_observe ord node i k s) (fun s1 a e => ?_) (fun s1 e => ?_) (fun e => ?_) <;> rw [e]
      exact safe_condition ord node k s1
    · simp only
      have h1 := safe_condition ord node k { s with evidences := AMap.modify s.evidences key (fun _ => k) }
      unfold SafeAt
      split
      · rename_i hx; rw [hx] at h1; exact fun h => h1 ⟨h.heap, h.nodes⟩
      · rename_i hx; rw [hx] at h1; exact fun h => h1 ⟨h.heap, h.nodes⟩
      · exact True.intro

theorem safe_setEvidenceByName (ord : List Var → List Var) (name : String) (k : Nat) :
    SafeSign (setEvidenceByName (F := F) ord name k) := by
  intro s
  unfold setEvidenceByName
  cases s.findVariable name with
  | ok v => exact safe_setEvidence ord v k s
  | throw => exact fun h => h
  | ub => exact True.intro

theorem safe_reactivate (v w : Var) : SafeSign (reactivateStep (F := F) v w) := by
  intro s
  unfold reactivateStep
  cases AMap.find? (s.disabledOf v) w with
  | none => exact True.intro
  | some c => exact fun h => (h.clearMerged w).activate v w c.factor

theorem safe_removeEvidence_ (ord : List Var → List Var) (v : Var) : SafeSign (removeEvidence_ (F := F) ord v) := by
  intro s
  unfold removeEvidence_
  cases s.evidenceKey? v with
  | none => exact fun h => h
  | some k =>
    simp only
    cases s.nodeKey? v with
    | none => exact True.intro
    | some node =>
      simp only
      generalize ht : ({ s.resetBelief with evidences := AMap.erase s.evidences k } : State F) = t
      have h0 : s.NotNeg → t.NotNeg := by subst ht; exact fun h => ⟨h.heap, h.nodes⟩
      have h1 := safe_forEach (F := F) (safe_reactivate node) (l := ord (AMap.keys (t.disabledOf node))) t
      cases hx : forEach (reactivateStep node) (ord (AMap.keys (t.disabledOf node))) t with
      | ok s1 u => rw [hx] at h1; exact fun h => (h1 (h0 h)).clearMerged node
      | throw s1 => rw [hx] at h1; exact fun h => h1 (h0 h)
      | ub => exact True.intro

theorem NotNeg.resetState {s : State F} (h : s.NotNeg) (ord : List Var → List Var) : (resetState ord s).NotNeg :=
  ⟨h.heap, h.nodes⟩

theorem safe_removeEvidence (ord : List Var → List Var) (v : Var) : SafeSign (removeEvidence (F := F) ord v) := by
  intro s
  unfold removeEvidence
  refine safe_then (safe_removeEvidence_ ord v s) (fun s1 a e => ?_) (fun s1 e => ?_) (fun e => ?_) <;> rw [e]
  exact fun h => h.resetState ord

theorem safe_removeEvidenceByName (ord : List Var → List Var) (name : String) :
    SafeSign (removeEvidenceByName (F := F) ord name) := by
  intro s
  unfold removeEvidenceByName
  cases s.findVariable name with
  | ok v => exact safe_removeEvidence ord v s
  | throw => exact fun h => h
  | ub => exact True.intro

theorem safe_removeEvidences (ord : List Var → List Var) (vs : VarSet) :
    SafeSign (removeEvidences (F := F) ord vs) := by
  intro s
  unfold removeEvidences
  by_cases hv : vs.isEmpty = true
  · rw [if_pos hv]; exact fun h => h
  · rw [if_neg hv]
    refine safe_then (safe_forEach (safe_removeEvidence_ ord) (l := ord vs) s) (fun s1 a e => ?_) (fun s1 e => ?_) (fun e => ?_) <;> rw [e]
    exact fun h => h.resetState ord

theorem safe_removeEvidencesByName (ord : List Var → List Var) (names : List String) :
    SafeSign (removeEvidencesByName (F := F) ord names) := by
  intro s
  unfold removeEvidencesByName
  cases Res.mapList s.findVariable names with
  | ok vs => exact safe_removeEvidences ord _ s
  | throw => exact fun h => h
  | ub => exact True.intro

theorem safe_removeAll (ord : List Var → List Var) : SafeSign (removeAllEvidences (F := F) ord) := by
  intro s
  unfold removeAllEvidences
  refine safe_then (safe_forEach (safe_removeEvidence_ ord) (l := ord (AMap.keys s.evidences)) s) (fun s1 a e => ?_) (fun s1 e => ?_) (fun e => ?_) <;> rw [e]
  exact fun h => h.resetState ord

/-! ### Insertions -/

theorem safe_findOrMake (v : Var) : SafeSign (findOrMakeNode (F := F) v) := by
  intro s
  unfold findOrMakeNode
  rcases s.locate v with _ | ⟨node, loc⟩
  · refine fun h => ⟨h.heap, fun e he => ?_⟩
    rcases List.mem_append.mp he with h1 | h1
    · exact h.nodes e h1
    · rw [List.mem_singleton] at h1
      rw [h1]
      exact ⟨fun _ e => (nomatch e), fun e he => (nomatch he), fun e he => (nomatch he)⟩
  · simp only
    by_cases hv : v ≠ node
    · rw [if_pos hv]; exact fun h => h
    · rw [if_neg hv]; exact fun h => h

theorem safe_addUnary (p : Nat) (f : Fn F) : SafeSign (addUnary p f) := by
  intro s
  unfold addUnary
  cases f.vars.group.head? with
  | none => exact True.intro
  | some v =>
    simp only
    refine safe_then (safe_findOrMake v s) (fun s1 a e => ?_) (fun s1 e => ?_) (fun e => ?_) <;> rw [e]
    exact fun h => h.upd (fun _ hn => ⟨fun _ e => (nomatch e), hn.active, hn.disabled⟩)

/-- `hybrid_insertion` with a function which is not negative. -/
theorem safe_hybrid (a b : Var) (k p : Nat) {f : Fn F} (hf : f.NotNeg) : SafeSign (hybridInsertion a b k p f) := by
  intro s
  unfold hybridInsertion
  cases he : f.evidence b k with
  | throw => exact fun h => h.disableWith _ _ _
  | ub => exact True.intro
  | ok m =>
    intro h
    refine ((h.disableWith a b p).setDisabled a b (fun m' e => ?_)).clearMerged a
    cases e
    exact hf.evidence he

theorem safe_mergeClusters (ia ib : Option Nat) : SafeSign (mergeClusters (F := F) ia ib) := by
  intro s
  unfold mergeClusters
  cases ia with
  | none => exact True.intro
  | some i =>
    cases ib with
    | none => exact True.intro
    | some j =>
      simp only
      cases s.clusters[i]? with
      | none => exact True.intro
      | some ca =>
        cases s.clusters[j]? with
        | none => exact True.intro
        | some cb =>
          simp only
          by_cases hij : i = j
          · rw [if_pos hij]; exact fun h => ⟨h.heap, h.nodes⟩
          · rw [if_neg hij]; exact fun h => ⟨h.heap, h.nodes⟩

theorem safe_connect (p : Nat) {f : Fn F} (hf : f.NotNeg) (a b : Var) (la lb : Loc) :
    SafeSign (connect p f a b la lb) := by
  intro s
  unfold connect
  cases la with
  | hidden ia =>
    cases lb with
    | hidden ib =>
      simp only
      have h1 := safe_mergeClusters (F := F) ia ib (State.activate a b p s)
      unfold SafeAt
      split
      · rename_i hx; rw [hx] at h1; exact fun h => h1 (h.activate a b p)
      · rename_i hx; rw [hx] at h1; exact fun h => h1 (h.activate a b p)
      · exact True.intro
    | observed kb =>
      simp only
      cases s.evidenceValue kb with
      | ok k => exact safe_hybrid a b k p hf s
      | throw => exact fun h => h
      | ub => exact True.intro
  | observed ka =>
    cases lb with
    | hidden ib =>
      simp only
      cases s.evidenceValue ka with
      | ok k => exact safe_hybrid b a k p hf s
      | throw => exact fun h => h
      | ub => exact True.intro
    | observed kb => exact fun h => h.disableWith a b p

theorem safe_addBinary (p : Nat) {f : Fn F} (hf : f.NotNeg) : SafeSign (addBinary p f) := by
  intro s
  unfold addBinary
  cases f.vars.group.head? with
  | none => exact True.intro
  | some va =>
    cases f.vars.group.getLast? with
    | none => exact True.intro
    | some vb =>
      simp only
      have h1 := safe_findOrMake va s
      cases hx : findOrMakeNode va s with
      | throw s1 => rw [hx] at h1; exact h1
      | ub => exact True.intro
      | ok s1 e1 =>
        rw [hx] at h1
        simp only
        have h2 := safe_findOrMake vb s1
        cases hy : findOrMakeNode vb s1 with
        | throw s2 => rw [hy] at h2; exact fun h => h2 (h1 h)
        | ub => exact True.intro
        | ok s2 e2 =>
          rw [hy] at h2
          simp only
          by_cases hc : s2.connected e1.1 e2.1 = true
          · rw [if_pos hc]; exact fun h => h2 (h1 h)
          · rw [if_neg hc]
            have h3 := safe_connect p hf e1.1 e2.1 e1.2 e2.2 s2
            unfold SafeAt
            split
            · rename_i hz; rw [hz] at h3; exact fun h => h3 (h2 (h1 h))
            · rename_i hz; rw [hz] at h3; exact fun h => h3 (h2 (h1 h))
            · exact True.intro

theorem safe_addDistribution (ptr : Option Nat) : SafeSign (addDistribution (F := F) ptr) := by
  intro s
  unfold addDistribution
  cases ptr with
  | none => exact fun h => h
  | some p =>
    simp only
    by_cases hc : s.factors.contains p = true
    · rw [if_pos hc]; exact fun h => h
    · rw [if_neg hc]
      cases hd : s.deref p with
      | throw => exact fun h => h
      | ub => exact True.intro
      | ok f =>
        simp only
        have h1 : s.NotNeg → SafeSign (addByArity p f) := by
          intro h t
          unfold addByArity
          split
          · exact safe_addUnary p f t
          · exact safe_addBinary p (h.deref hd) t
          · exact fun h => h
        cases hx : addByArity p f s.resetBelief with
        | ok s1 u => exact fun h => let k := (h1 h).ok hx ⟨h.heap, h.nodes⟩; ⟨k.heap, k.nodes⟩
        | throw s1 => exact fun h => (h1 h).throw hx ⟨h.heap, h.nodes⟩
        | ub => exact True.intro

theorem safe_addConst (ptr : Option Nat) : SafeSign (addConstFactor (F := F) ptr) := by
  intro s
  unfold addConstFactor
  refine safe_then (safe_addDistribution ptr s) (fun s1 a e => ?_) (fun s1 e => ?_) (fun e => ?_) <;> rw [e]
  exact fun h => ⟨h.heap, h.nodes⟩

theorem NotNeg.alloc {s : State F} (h : s.NotNeg) {f : Fn F} (hf : f.NotNeg) : (s.alloc f).1.NotNeg := by
  refine ⟨fun g hg => ?_, h.nodes⟩
  rcases List.mem_append.mp hg with h1 | h1
  · exact h.heap g h1
  · rw [List.mem_singleton] at h1
    rw [h1]; exact hf

theorem safe_copyConst (ptr : Nat) : SafeSign (copyConstFactor (F := F) ptr) := by
  intro s
  unfold copyConstFactor
  cases hd : s.deref ptr with
  | throw => exact fun h => h
  | ub => exact True.intro
  | ok f =>
    simp only
    cases hc : f.cloneTransformed with
    | throw => exact fun h => h
    | ub => exact True.intro
    | ok g =>
      simp only
      have h1 := safe_addConst (some (s.alloc g).2) (s.alloc g).1
      unfold SafeAt
      split
      · rename_i hx; rw [hx] at h1; exact fun h => h1 (h.alloc ((h.deref hd).cloneTransformed hc))
      · rename_i hx; rw [hx] at h1; exact fun h => h1 (h.alloc ((h.deref hd).cloneTransformed hc))
      · exact True.intro

/-! ### Tuners -/

theorem NotNeg.setTuner {s : State F} (h : s.NotNeg) (t : List BaseTuner) (w : F) : (setTunerWeight t w s).NotNeg := by
  refine ⟨?_, h.nodes⟩
  unfold setTunerWeight
  have : ∀ (l : List Nat) (x : Heap F), (∀ f ∈ x, f.NotNeg) → ∀ f ∈ l.foldl (heapSetWeight w) x, f.NotNeg := by
    intro l
    induction l with
    | nil => exact fun x hx => hx
    | cons p l ih =>
      intro x hx
      refine ih _ (fun f hf => ?_)
      unfold heapSetWeight at hf
      obtain ⟨i, hi⟩ := List.mem_iff_getElem?.mp hf
      rw [List.getElem?_modify] at hi
      split at hi
      · cases hg : x[i]? with
        | none => rw [hg] at hi; cases hi
        | some g =>
          rw [hg] at hi
          cases hi
          exact (hx g (List.mem_of_getElem? hg)).congr rfl
      · cases hg : x[i]? with
        | none => rw [hg] at hi; cases hi
        | some g =>
          rw [hg] at hi
          cases hi
          exact hx _ (List.mem_of_getElem? hg)
  exact this _ _ h.heap

theorem safe_setWeights (ws : List F) : SafeSign (setWeights ws) := by
  intro s
  unfold setWeights
  by_cases hl : ws.length ≠ s.tuners.length
  · rw [if_pos hl]; exact fun h => h
  · rw [if_neg hl]
    have : ∀ (l : List (List BaseTuner × F)) (s : State F), s.NotNeg → (setTunersWeights l s).NotNeg := by
      intro l
      induction l with
      | nil => exact fun s h => h
      | cons e l ih => exact fun s h => ih _ (h.setTuner e.1 e.2)
    exact fun h => let k := this (s.tuners.zip ws) s h; ⟨k.heap, k.nodes⟩

theorem safe_shareTuner (i : Nat) (b : BaseTuner) : SafeSign (shareTuner (F := F) i b) := by
  intro s
  unfold shareTuner
  cases s.tuners[i]? with
  | none => exact True.intro
  | some t =>
    simp only
    cases s.tunerWeight t with
    | ok w => exact fun h => NotNeg.setTuner (s := { s with tuners := s.tuners.modify i (fun t => t ++ [b]) }) ⟨h.heap, h.nodes⟩ _ _
    | throw => exact fun h => h
    | ub => exact True.intro

theorem safe_addTunable (ptr : Option Nat) (share : Option VarSet) : SafeSign (addTunable (F := F) ptr share) := by
  intro s0
  unfold addTunable
  refine safe_then (safe_addDistribution ptr s0) (fun s a e => ?_) (fun s1 e => ?_) (fun e => ?_) <;> rw [e]
  simp only
  cases ptr with
  | none => exact True.intro
  | some p =>
    simp only
    cases s.deref p with
    | throw => exact fun h => h
    | ub => exact True.intro
    | ok f =>
      simp only
      cases s.makeTuner p f with
      | throw => exact fun h => h
      | ub => exact True.intro
      | ok b =>
        simp only
        cases share with
        | none => exact fun h => ⟨h.heap, h.nodes⟩
        | some g =>
          simp only
          generalize ht : ({ s with tunables := s.tunables ++ [p] } : State F) = t
          have h0 : s.NotNeg → t.NotNeg := by subst ht; exact fun h => ⟨h.heap, h.nodes⟩
          cases t.findTuner g with
          | none => exact h0
          | some i =>
            simp only
            have h1 := safe_shareTuner i b t
            unfold SafeAt
            cases hx : shareTuner i b t with
            | ok s2 u => rw [hx] at h1; exact fun h => h1 (h0 h)
            | throw s2 => rw [hx] at h1; exact fun h => h1 (h0 h)
            | ub => exact True.intro

theorem safe_copyTunable (ptr : Nat) (share : Option VarSet) : SafeSign (copyTunable (F := F) ptr share) := by
  intro s
  unfold copyTunable
  cases hd : s.deref ptr with
  | throw => exact fun h => h
  | ub => exact True.intro
  | ok f =>
    simp only
    cases hc : f.copyExponential with
    | throw => exact fun h => h
    | ub => exact True.intro
    | ok g =>
      simp only
      have h1 := safe_addTunable (some s.heap.length) share (s.alloc g).1
      unfold SafeAt
      split
      · rename_i hx; rw [hx] at h1; exact fun h => h1 (h.alloc ((h.deref hd).copyExponential hc))
      · rename_i hx; rw [hx] at h1; exact fun h => h1 (h.alloc ((h.deref hd).copyExponential hc))
      · exact True.intro

theorem safe_gradient (ord : List Var → List Var) (sched : Sched) (samples : List (List Nat)) :
    SafeSign (gradient (F := F) ord sched samples) := by
  intro s
  unfold gradient
  simp only
  have h1 : SafeAt s (if s.evidences.isEmpty then .ok s () else removeAllEvidences ord s : Out (State F) Unit) := by
    by_cases he : s.evidences.isEmpty = true
    · rw [if_pos he]; exact fun h => h
    · rw [if_neg he]; exact safe_removeAll ord s
  generalize (if s.evidences.isEmpty then .ok s () else removeAllEvidences ord s : Out (State F) Unit) = o at *
  cases o with
  | throw s1 => exact h1
  | ub => exact True.intro
  | ok s1 u =>
    simp only
    have h0 : s.NotNeg → s1.resetBelief.NotNeg := fun h => ⟨(h1 h).heap, (h1 h).nodes⟩
    have h2 := safe_propagateBelief ord sched .sum s1.resetBelief
    cases hx : propagateBelief ord sched .sum s1.resetBelief with
    | throw s2 => rw [hx] at h2; exact fun h => h2 (h0 h)
    | ub => exact True.intro
    | ok s2 u =>
      rw [hx] at h2
      simp only
      have h3 := safe_lift (fun s : State F => Res.mapList (gradientTask ord samples s) s.tuners) s2
      unfold SafeAt
      cases hy : lift (fun s : State F => Res.mapList (gradientTask ord samples s) s.tuners) s2 with
      | ok s3 a => rw [hy] at h3; exact fun h => h3 (h2 (h0 h))
      | throw s3 => rw [hy] at h3; exact fun h => h3 (h2 (h0 h))
      | ub => exact True.intro

/-! ### Samples -/

theorem safe_collect (ord : List Var → List Var) (vs : List Var) : SafeSign (collectNodes (F := F) ord vs) := by
  induction vs with
  | nil => exact fun s h => h
  | cons v vs ih =>
    intro s
    unfold collectNodes
    have h1 : SafeSign (makeSamplerNode (F := F) ord v) := by
      intro s
      unfold makeSamplerNode
      refine safe_then (safe_updateMerged ord v s) (fun s1 a e => ?_) (fun s1 e => ?_) (fun e => ?_) <;> rw [e]
      exact safe_lift _ s1
    have h2 := h1 s
    cases hx : makeSamplerNode ord v s with
    | throw s1 => rw [hx] at h2; exact h2
    | ub => exact True.intro
    | ok s1 nd =>
      rw [hx] at h2
      simp only
      have h3 := ih s1
      cases hy : collectNodes ord vs s1 with
      | ok s2 nds => rw [hy] at h3; exact fun h => h3 (h2 h)
      | throw s2 => rw [hy] at h3; exact fun h => h3 (h2 h)
      | ub => exact True.intro

theorem safe_makeSamples (ord : List Var → List Var) (rnd : Random F) (ctx : SampleContext) (n : Nat) :
    SafeSign (makeSamples ord rnd ctx n) := by
  refine safe_withPool n ?_
  intro s
  unfold samplesBody
  refine safe_then (o := makeSamplerNodes ord s) ?_ (fun s1 a e => ?_) (fun s1 e => ?_) (fun e => ?_) <;> try rw [e]
  rotate_left
  · exact safe_lift _ s1
  unfold makeSamplerNodes
  cases startCombination ord s with
  | throw => exact fun h => h
  | ub => exact True.intro
  | ok values =>
    simp only
    have h3 := safe_collect ord (s.clusters.flatMap (fun c => ord c.nodes)) s
    cases hy : collectNodes ord (s.clusters.flatMap (fun c => ord c.nodes)) s with
    | ok s2 nds => rw [hy] at h3; exact h3
    | throw s2 => rw [hy] at h3; exact h3
    | ub => exact True.intro

end State

/-! ### Executions -/

theorem safe_drop {α : Type} {x : M (State F) α} (h : State.SafeSign x) : State.SafeSign (GOp.drop x) := by
  intro s
  have h1 := h s
  unfold GOp.drop
  cases hx : x s <;> rw [hx] at h1 <;> exact h1

theorem safe_exec {op : GOp F} {s : State F} (hv : op.Valid s) :
    State.SafeAt s (op.exec s) := by
  cases op with
  | create f => exact fun h => h.alloc (notNeg_factor hv.2)
  | mutate p o =>
    change State.SafeAt s (GOp.onHeap (Heap.mutate p o) s)
    unfold GOp.onHeap Heap.mutate
    cases hp : s.heap[p]? with
    | none => exact True.intro
    | some f =>
      simp only
      have hset : ∀ g : Fn F, (s.NotNeg → g.NotNeg) → s.NotNeg → ({ s with heap := s.heap.set p g } : State F).NotNeg := by
        intro g hg h
        refine ⟨fun x hx => ?_, h.nodes⟩
        rcases List.mem_or_eq_of_mem_set hx with h1 | h1
        · exact h.heap x h1
        · rw [h1]; exact hg h
      cases ha : Heap.applyOp o f with
      | ok g u => exact hset g (fun h => notNeg_apply (h.heap f (List.mem_of_getElem? hp)) (.inl ha))
      | throw g => exact hset g (fun h => notNeg_apply (h.heap f (List.mem_of_getElem? hp)) (.inr ha))
      | ub => exact True.intro
  | addConst p => exact State.safe_addConst p s
  | copyConst p => exact State.safe_copyConst p s
  | addTunable p share => exact State.safe_addTunable p share s
  | copyTunable p share => exact State.safe_copyTunable p share s
  | setWeights ws => exact State.safe_setWeights ws s
  | setEvidence ord v k => exact State.safe_setEvidence ord v k s
  | setEvidenceByName ord n k => exact State.safe_setEvidenceByName ord n k s
  | removeEvidence ord v => exact State.safe_removeEvidence ord v s
  | removeEvidenceByName ord n => exact State.safe_removeEvidenceByName ord n s
  | removeEvidences ord vs => exact State.safe_removeEvidences ord vs s
  | removeEvidencesByName ord ns => exact State.safe_removeEvidencesByName ord ns s
  | removeAllEvidences ord => exact State.safe_removeAll ord s
  | setMaxIterations n => exact fun h => ⟨h.heap, h.nodes⟩
  | marginal ord sched v n => exact safe_drop (State.safe_marginalQuery ord sched .sum v n) s
  | marginalByName ord sched name n =>
    exact safe_drop (State.safe_marginalByName ord sched name n) s
  | map ord sched v n => exact safe_drop (State.safe_getMAP ord sched v n) s
  | hiddenSetMap ord sched n => exact safe_drop (State.safe_hiddenSet ord sched n) s
  | joint ord sh sched g n => exact safe_drop (State.safe_getJoint ord sh sched g n) s
  | gradient ord sched samples n => exact safe_drop (State.safe_withPool n (State.safe_gradient ord sched samples)) s
  | drawSamples ord rnd ctx n => exact safe_drop (State.safe_makeSamples ord rnd ctx n) s

/-- Nothing in a model is ever negative, whatever was done with it. -/
theorem reach_notNeg {allowed : State F → GOp F → Prop} {s : State F} (h : Reach allowed s) : s.NotNeg := by
  induction h with
  | init hh => exact ⟨fun f hf => notNeg_factor (hh f hf), fun e he => (nomatch he)⟩
  | ok _ hv _ he ih =>
    have := safe_exec hv
    rw [he] at this
    exact this ih
  | throw _ hv _ _ he ih =>
    have := safe_exec hv
    rw [he] at this
    exact this ih

end EFG
