import Verif.Lemmas.Race
/-
The propagation reads the factors, the merged unary factors of the cluster and the messages, nothing else;
repeating it gives the same messages.
-/

set_option linter.unusedSectionVars false

namespace EFG
namespace State
variable {F : Type} [Arith F]

/-! ### What the messages of a cluster are computed from -/

/-- Two states which are the same as far as the messages sent by these nodes are concerned. -/
structure SameFor (nodes : List Var) (s t : State F) : Prop where
  heap : t.heap = s.heap
  maxIter : t.maxIter = s.maxIter
  act : ∀ u v, t.act u v = s.act u v
  mrg : ∀ u ∈ nodes, t.mrg u = s.mrg u
  has : ∀ u ∈ nodes, (s.mrg u).isSome

/-- Two outcomes with the same value, from states of this kind. -/
def Twin {α : Type} (nodes : List Var) : Out (State F) α → Out (State F) α → Prop
  | .ok s a, .ok t b => b = a ∧ SameFor nodes s t
  | .throw s, .throw t => SameFor nodes s t
  | .ub, .ub => True
  | _, _ => False

theorem node_of_mrg {s : State F} {u : Var} {m : Fn F} (h : s.mrg u = some m) :
    ∃ n, s.node? u = some n ∧ n.merged = some m := by
  unfold State.mrg at h
  cases hn : s.node? u with
  | none => rw [hn] at h; cases h
  | some n => rw [hn] at h; exact ⟨n, rfl, h⟩

theorem SameFor.set {nodes : List Var} {s t : State F} (h : SameFor nodes s t) (a b : Var) (m : Option (Fn F)) :
    SameFor nodes (setActiveMessage a b m s) (setActiveMessage a b m t) where
  heap := h.heap
  maxIter := h.maxIter
  act u v := by rw [act_setActiveMessage, act_setActiveMessage, h.act]
  mrg u hu := by rw [(setActiveMessage_soft t a b m).mrg, (setActiveMessage_soft s a b m).mrg, h.mrg u hu]
  has u hu := by rw [(setActiveMessage_soft s a b m).mrg]; exact h.has u hu

theorem SameFor.thrown {nodes : List Var} {s t : State F} (h : SameFor nodes s t) (x : Topo) (m : Fn F)
    (deps : List (Fn F)) : SameFor nodes (messageThrown x m deps s) (messageThrown x m deps t) := by
  unfold messageThrown
  split
  · exact h.set _ _ _
  · exact h

theorem SameFor.depMessages {nodes : List Var} {s t : State F} (h : SameFor nodes s t) (l : List ConnRef) :
    t.depMessages l = s.depMessages l := by
  induction l with
  | nil => rfl
  | cons r l ih =>
    have : t.depMessage r = s.depMessage r := by
      unfold State.depMessage
      have : t.conn? r = s.conn? r := h.act r.owner r.from_
      rw [this]
    rw [State.depMessages, State.depMessages, this, ih]

theorem SameFor.newMessage {nodes : List Var} {s t : State F} (h : SameFor nodes s t) (kind : Kind) (m : Fn F)
    (deps : List (Fn F)) (p : Nat) : t.newMessage kind m deps p = s.newMessage kind m deps p := by
  have : t.deref p = s.deref p := by unfold State.deref; rw [h.heap]
  unfold State.newMessage; rw [this]

theorem SameFor.update {nodes : List Var} {s t : State F} (h : SameFor nodes s t) (kind : Kind) {x : Topo}
    (hx : x.sender ∈ nodes) : Twin nodes (updateMessage kind x s) (updateMessage kind x t) := by
  obtain ⟨m, hm⟩ := Option.isSome_iff_exists.mp (h.has _ hx)
  have hm' : t.mrg x.sender = some m := by rw [h.mrg _ hx]; exact hm
  obtain ⟨n, h1, h2⟩ := node_of_mrg hm
  obtain ⟨n', h1', h2'⟩ := node_of_mrg hm'
  have hc : t.conn? x.conn = s.conn? x.conn := h.act _ _
  unfold updateMessage
  rw [h1, h1']
  simp only
  rw [h2, h2']
  simp only
  rw [h.depMessages]
  cases s.depMessages x.deps with
  | ok o =>
    cases o with
    | none => exact ⟨rfl, h⟩
    | some deps =>
      simp only
      rw [hc]
      cases s.conn? x.conn with
      | none => trivial
      | some c =>
        simp only
        rw [h.newMessage]
        cases s.newMessage kind m deps c.factor with
        | ok m' =>
          simp only
          cases variation c.message m' with
          | ok y => exact ⟨rfl, h.set _ _ _⟩
          | throw => exact h.set _ _ _
          | ub => trivial
        | throw => exact h.thrown x m deps
        | ub => trivial
  | throw => exact h
  | ub => trivial

/-- What follows two such outcomes. -/
theorem Twin.cases {α : Type} {nodes : List Var} {x y : Out (State F) α} (h : Twin nodes x y) :
    (∃ s t a, x = .ok s a ∧ y = .ok t a ∧ SameFor nodes s t) ∨
    (∃ s t, x = .throw s ∧ y = .throw t ∧ SameFor nodes s t) ∨ (x = .ub ∧ y = .ub) := by
  cases x with
  | ok s a =>
    cases y with
    | ok t b => obtain ⟨rfl, h⟩ := h; exact Or.inl ⟨s, t, _, rfl, rfl, h⟩
    | throw t => exact h.elim
    | ub => exact h.elim
  | throw s =>
    cases y with
    | ok t b => exact h.elim
    | throw t => exact Or.inr (Or.inl ⟨s, t, rfl, rfl, h⟩)
    | ub => exact h.elim
  | ub =>
    cases y with
    | ok t b => exact h.elim
    | throw t => exact h.elim
    | ub => exact Or.inr (Or.inr ⟨rfl, rfl⟩)

theorem SameFor.task {nodes : List Var} {s t : State F} (h : SameFor nodes s t) (kind : Kind) {x : Topo × Nat}
    (hx : x.1.sender ∈ nodes) : Twin nodes (messageTask kind x s) (messageTask kind x t) := by
  unfold messageTask
  rcases (h.update kind hx).cases with ⟨s', t', a, e1, e2, h'⟩ | ⟨s', t', e1, e2, h'⟩ | ⟨e1, e2⟩
  · rw [e1, e2]; exact ⟨rfl, h'⟩
  · rw [e1, e2]; exact h'
  · rw [e1, e2]; trivial

theorem SameFor.tasks {nodes : List Var} (kind : Kind) : ∀ (l : List (Topo × Nat)) {s t : State F}, SameFor nodes s t →
    (∀ x ∈ l, x.1.sender ∈ nodes) → Twin nodes (forEach (messageTask kind) l s) (forEach (messageTask kind) l t) := by
  intro l
  induction l with
  | nil => intro s t h _; exact ⟨rfl, h⟩
  | cons x l ih =>
    intro s t h hx
    rw [forEach, forEach]
    rcases (h.task kind (hx x (by simp))).cases with ⟨s', t', a, e1, e2, h'⟩ | ⟨s', t', e1, e2, h'⟩ | ⟨e1, e2⟩
    · rw [e1, e2]; exact ih h' (fun y hy => hx y (by simp [hy]))
    · rw [e1, e2]; exact h'
    · rw [e1, e2]; trivial

theorem sched_sender {sched : Sched} (hsched : ∀ l, (sched l).Perm l) {nodes : List Var} {ts : List Topo}
    (h : ∀ x ∈ ts, x.sender ∈ nodes) : ∀ x ∈ sched ts.zipIdx, x.1.sender ∈ nodes := by
  intro x hx
  have := (hsched _).mem_iff.mp hx
  exact h x.1 (List.fst_mem_of_mem_zipIdx this)

theorem SameFor.split {nodes : List Var} {s t : State F} (h : SameFor nodes s t) (ts : List Topo) :
    t.splitReady ts = s.splitReady ts := by
  induction ts with
  | nil => rfl
  | cons x ts ih =>
    have : t.canUpdate x = s.canUpdate x := by unfold State.canUpdate; rw [h.depMessages]
    rw [splitReady, splitReady, this, ih]

theorem splitReady_mem {s : State F} : ∀ {ts now later : List Topo}, s.splitReady ts = .ok (now, later) →
    ∀ x, x ∈ now ∨ x ∈ later → x ∈ ts := by
  intro ts
  induction ts with
  | nil => intro now later h x hx; simp [splitReady] at h; obtain ⟨rfl, rfl⟩ := h; simpa using hx
  | cons y ts ih =>
    intro now later h x hx
    rw [splitReady] at h
    cases hc : s.canUpdate y with
    | ok b =>
      rw [hc] at h
      cases hs : s.splitReady ts with
      | ok p =>
        obtain ⟨n, l⟩ := p
        rw [hs] at h
        have := ih hs x
        cases b <;> simp at h <;> (obtain ⟨h1, h2⟩ := h; subst h1; subst h2; simp at hx ⊢; tauto)
      | throw => rw [hs] at h; simp at h
      | ub => rw [hs] at h; simp at h
    | throw => rw [hc] at h; simp at h
    | ub => rw [hc] at h; simp at h

theorem SameFor.rounds {nodes : List Var} (kind : Kind) {sched : Sched} (hsched : ∀ l, (sched l).Perm l) :
    ∀ (k : Nat) (left : List Topo) {s t : State F}, SameFor nodes s t → (∀ x ∈ left, x.sender ∈ nodes) →
    Twin nodes (messageRoundsUpTo kind sched k left s) (messageRoundsUpTo kind sched k left t) := by
  intro k
  induction k with
  | zero =>
    intro left s t h hx
    unfold messageRoundsUpTo
    by_cases h0 : left = []
    · rw [if_pos h0, if_pos h0]; exact ⟨rfl, h⟩
    · rw [if_neg h0, if_neg h0, h.split]
      cases s.splitReady left with
      | ok p =>
        simp only
        by_cases hp : p.1 = []
        · rw [if_pos hp, if_pos hp]; exact ⟨rfl, h⟩
        · rw [if_neg hp, if_neg hp]; trivial
      | throw => exact h
      | ub => trivial
  | succ k ih =>
    intro left s t h hx
    unfold messageRoundsUpTo
    by_cases h0 : left = []
    · rw [if_pos h0, if_pos h0]; exact ⟨rfl, h⟩
    · rw [if_neg h0, if_neg h0, h.split]
      cases hs : s.splitReady left with
      | ok p =>
        obtain ⟨now, later⟩ := p
        simp only
        by_cases hp : now = []
        · rw [if_pos hp, if_pos hp]; exact ⟨rfl, h⟩
        · rw [if_neg hp, if_neg hp]
          have hm := splitReady_mem hs
          have hr := SameFor.tasks (F := F) kind (sched now.zipIdx) h
            (sched_sender hsched (fun x hx' => hx x (hm x (Or.inl hx'))))
          unfold messageRound
          rcases hr.cases with ⟨s', t', a, e1, e2, h'⟩ | ⟨s', t', e1, e2, h'⟩ | ⟨e1, e2⟩
          · rw [e1, e2]; exact ih later h' (fun x hx' => hx x (hm x (Or.inr hx')))
          · rw [e1, e2]; exact h'
          · rw [e1, e2]; trivial
      | throw => exact h
      | ub => trivial

/-! ### The loopy propagation -/

theorem SameFor.loopyTasks {nodes : List Var} (kind : Kind) (n : Nat) : ∀ (l : List (Topo × Nat)) (vs : List F) {s t : State F},
    SameFor nodes s t → (∀ x ∈ l, x.1.sender ∈ nodes) →
    Twin nodes (loopyTasks kind n l vs s) (loopyTasks kind n l vs t) := by
  intro l
  induction l with
  | nil => intro vs s t h _; exact ⟨rfl, h⟩
  | cons x l ih =>
    intro vs s t h hx
    rw [State.loopyTasks, State.loopyTasks]
    unfold loopyTask
    rcases (h.update kind (hx x (by simp))).cases with ⟨s', t', a, e1, e2, h'⟩ | ⟨s', t', e1, e2, h'⟩ | ⟨e1, e2⟩
    · rw [e1, e2]
      cases a with
      | none => exact h'
      | some y => exact ih _ h' (fun y hy => hx y (by simp [hy]))
    · rw [e1, e2]; exact h'
    · rw [e1, e2]; trivial

theorem SameFor.loopyGroups {nodes : List Var} (kind : Kind) {sched : Sched} (hsched : ∀ l, (sched l).Perm l) (n : Nat) :
    ∀ (gs : List (List Topo)) (vs : List F) {s t : State F}, SameFor nodes s t → (∀ g ∈ gs, ∀ x ∈ g, x.sender ∈ nodes) →
    Twin nodes (loopyGroups kind sched n gs vs s) (loopyGroups kind sched n gs vs t) := by
  intro gs
  induction gs with
  | nil => intro vs s t h _; exact ⟨rfl, h⟩
  | cons g gs ih =>
    intro vs s t h hx
    rw [State.loopyGroups, State.loopyGroups]
    rcases (SameFor.loopyTasks (F := F) kind n (sched g.zipIdx) vs h (sched_sender hsched (hx g (by simp)))).cases with
      ⟨s', t', a, e1, e2, h'⟩ | ⟨s', t', e1, e2, h'⟩ | ⟨e1, e2⟩
    · rw [e1, e2]; exact ih _ h' (fun y hy => hx y (by simp [hy]))
    · rw [e1, e2]; exact h'
    · rw [e1, e2]; trivial

theorem SameFor.iterations {nodes : List Var} (kind : Kind) {sched : Sched} (hsched : ∀ l, (sched l).Perm l) (n : Nat)
    {order : List (List Topo)} (hx : ∀ g ∈ order, ∀ x ∈ g, x.sender ∈ nodes) :
    ∀ (k : Nat) {s t : State F}, SameFor nodes s t →
    Twin nodes (loopyIterations kind sched n order k s) (loopyIterations kind sched n order k t) := by
  intro k
  induction k with
  | zero => intro s t h; exact ⟨rfl, h⟩
  | succ k ih =>
    intro s t h
    rw [loopyIterations, loopyIterations]
    rcases (SameFor.loopyGroups (F := F) kind hsched n order (List.replicate n Arith.zero) h hx).cases with
      ⟨s', t', a, e1, e2, h'⟩ | ⟨s', t', e1, e2, h'⟩ | ⟨e1, e2⟩
    · rw [e1, e2]
      simp only
      cases Arith.maxElement a with
      | ok m =>
        simp only
        by_cases hm : Arith.lt m Arith.tol = true
        · rw [if_pos hm, if_pos hm]; exact ⟨rfl, h'⟩
        · rw [if_neg hm, if_neg hm]; exact ih h'
      | throw => exact h'
      | ub => trivial
    · rw [e1, e2]; exact h'
    · rw [e1, e2]; trivial

theorem act_oneMessages (s : State F) (a u v : Var) : (oneMessages s a).act u v =
    if u = a then (s.act u v).map (fun c => { c with message := some (Fn.ones a) }) else s.act u v := by
  unfold oneMessages State.act
  rw [activeOf_updNode]
  by_cases h : a = u
  · subst h
    rw [if_pos rfl, if_pos rfl]
    unfold activeOf
    cases hn : s.node? a with
    | none => rfl
    | some n =>
      simp only
      exact AMap.find?_map n.active (fun c : Conn F => ({ c with message := some (Fn.ones a) } : Conn F)) v
  · rw [if_neg h, if_neg (Ne.symm h)]

theorem SameFor.ones {nodes : List Var} : ∀ (l : List Var) {s t : State F}, SameFor nodes s t →
    SameFor nodes (l.foldl oneMessages s) (l.foldl oneMessages t) := by
  intro l
  induction l with
  | nil => intro s t h; exact h
  | cons a l ih =>
    intro s t h
    refine ih ⟨h.heap, h.maxIter, fun u v => ?_, fun u hu => ?_, fun u hu => ?_⟩
    · rw [act_oneMessages, act_oneMessages, h.act]
    · rw [(oneMessages_soft t a).mrg, (oneMessages_soft s a).mrg, h.mrg u hu]
    · rw [(oneMessages_soft s a).mrg]; exact h.has u hu

theorem SameFor.loopy {nodes : List Var} {s t : State F} (h : SameFor nodes s t) (kind : Kind) {sched : Sched}
    (hsched : ∀ l, (sched l).Perm l) (n : Nat) (c : Cluster) {ts : List Topo} (hx : ∀ x ∈ ts, x.sender ∈ nodes) :
    Twin nodes (loopyPropagate kind sched n c ts s) (loopyPropagate kind sched n c ts t) := by
  have h1 := SameFor.ones (F := F) c.nodes h
  unfold loopyPropagate
  simp only
  rw [h1.maxIter]
  refine SameFor.iterations kind hsched n ?_ _ h1
  intro g hg x hxg
  refine hx x ((loopyOrder_perm n ts).mem_iff.mp ?_)
  exact List.mem_flatten.mpr ⟨g, hg, hxg⟩

end State
end EFG
