import Verif.Lemmas.AMap
import Verif.Lemmas.Clusters
import Verif.Lemmas.Group
import Verif.Model.Query
/- The primitive changes of the graph, seen through the connections of each pair of variables. -/

set_option linter.unusedSectionVars false

namespace EFG
namespace State
variable {F : Type} [Arith F]

/-- The active connection of `u` keyed by `v`. -/
def act (s : State F) (u v : Var) : Option (Conn F) := AMap.find? (s.activeOf u) v

/-- The disabled connection of `u` keyed by `v`. -/
def dis (s : State F) (u v : Var) : Option (Conn F) := AMap.find? (s.disabledOf u) v

/-- The unary factors of a variable. -/
def una (s : State F) (v : Var) : List Nat :=
  match s.node? v with
  | some n => n.unary
  | none => []

/-- The cached merged unary of a variable. -/
def mrg (s : State F) (v : Var) : Option (Fn F) :=
  match s.node? v with
  | some n => n.merged
  | none => none

/-- The observed variables. -/
def obs (s : State F) : List Var := AMap.keys s.evidences

/-- The variables which are not observed. -/
def hid (s : State F) : List Var := s.vars.filter (fun v => !decide (v ∈ s.obs))

theorem mem_hid {s : State F} {v : Var} : v ∈ s.hid ↔ v ∈ s.vars ∧ v ∉ s.obs := by
  simp [hid]

theorem node?_updNode (s : State F) (v w : Var) (f : Node F → Node F) :
    (s.updNode v f).node? w = if v = w then (s.node? w).map f else s.node? w :=
  AMap.find?_modify _ _ _ _

theorem node?_of_mem {s : State F} {v : Var} (h : v ∈ AMap.keys s.nodes) : ∃ n, s.node? v = some n :=
  AMap.mem_keys.mp h

theorem activeOf_updNode (s : State F) (v w : Var) (f : Node F → Node F) :
    (s.updNode v f).activeOf w =
      if v = w then (match s.node? w with | some n => (f n).active | none => []) else s.activeOf w := by
  unfold activeOf
  rw [node?_updNode]
  by_cases h : v = w
  · rw [if_pos h, if_pos h]
    cases s.node? w <;> rfl
  · rw [if_neg h, if_neg h]

theorem disabledOf_updNode (s : State F) (v w : Var) (f : Node F → Node F) :
    (s.updNode v f).disabledOf w =
      if v = w then (match s.node? w with | some n => (f n).disabled | none => []) else s.disabledOf w := by
  unfold disabledOf
  rw [node?_updNode]
  by_cases h : v = w
  · rw [if_pos h, if_pos h]
    cases s.node? w <;> rfl
  · rw [if_neg h, if_neg h]

theorem una_updNode (s : State F) (v w : Var) (f : Node F → Node F) :
    (s.updNode v f).una w =
      if v = w then (match s.node? w with | some n => (f n).unary | none => []) else s.una w := by
  unfold una
  rw [node?_updNode]
  by_cases h : v = w
  · rw [if_pos h, if_pos h]
    cases s.node? w <;> rfl
  · rw [if_neg h, if_neg h]

theorem mrg_updNode (s : State F) (v w : Var) (f : Node F → Node F) :
    (s.updNode v f).mrg w =
      if v = w then (match s.node? w with | some n => (f n).merged | none => none) else s.mrg w := by
  unfold mrg
  rw [node?_updNode]
  by_cases h : v = w
  · rw [if_pos h, if_pos h]
    cases s.node? w <;> rfl
  · rw [if_neg h, if_neg h]

/-- What only insertions change. -/
structure Frame (s s' : State F) : Prop where
  heap : s'.heap = s.heap
  vars : s'.vars = s.vars
  keys : AMap.keys s'.nodes = AMap.keys s.nodes
  factors : s'.factors = s.factors
  consts : s'.consts = s.consts
  maxIter : s'.maxIter = s.maxIter
  tunables : s'.tunables = s.tunables
  tuners : s'.tuners = s.tuners
  una : ∀ v, s'.una v = s.una v

theorem Frame.rfl' (s : State F) : Frame s s := ⟨rfl, rfl, rfl, rfl, rfl, rfl, rfl, rfl, fun _ => rfl⟩

theorem Frame.trans {s s' s'' : State F} (h : Frame s s') (h' : Frame s' s'') : Frame s s'' :=
  ⟨h'.heap.trans h.heap, h'.vars.trans h.vars, h'.keys.trans h.keys, h'.factors.trans h.factors,
    h'.consts.trans h.consts, h'.maxIter.trans h.maxIter, h'.tunables.trans h.tunables,
    h'.tuners.trans h.tuners, fun v => (h'.una v).trans (h.una v)⟩

theorem Frame.updNode (s : State F) (v : Var) {f : Node F → Node F} (hf : ∀ n, (f n).unary = n.unary) :
    Frame s (s.updNode v f) := by
  refine ⟨rfl, rfl, AMap.keys_modify _ _ _, rfl, rfl, rfl, rfl, rfl, ?_⟩
  intro w
  rw [una_updNode]
  split
  · unfold State.una
    cases h : s.node? w <;> simp [hf]
  · rfl

/-- The keys and the factors of a map of connections. -/
def links (m : List (Var × Conn F)) : List (Var × Nat) := m.map (fun e => (e.1, e.2.factor))

theorem links_modify (m : List (Var × Conn F)) (k : Var) {f : Conn F → Conn F}
    (hf : ∀ c, (f c).factor = c.factor) : links (AMap.modify m k f) = links m := by
  induction m with
  | nil => rfl
  | cons e m ih =>
    obtain ⟨k', x⟩ := e
    simp only [AMap.modify]
    split
    · simp [links, hf]
    · simp only [links, List.map_cons] at *
      rw [ih]

theorem keys_links (m : List (Var × Conn F)) : AMap.keys (links m) = AMap.keys m := by
  simp [AMap.keys, links]

theorem find?_links (m : List (Var × Conn F)) (k : Var) :
    AMap.find? (links m) k = (AMap.find? m k).map Conn.factor := AMap.find?_map m Conn.factor k

/-- What queries leave unchanged. -/
structure Quiet (s s' : State F) : Prop extends Frame s s' where
  evidences : s'.evidences = s.evidences
  clusters : s'.clusters.map (·.nodes) = s.clusters.map (·.nodes)
  disabled : ∀ v, s'.disabledOf v = s.disabledOf v
  active : ∀ v, links (s'.activeOf v) = links (s.activeOf v)

theorem Quiet.rfl' (s : State F) : Quiet s s :=
  ⟨Frame.rfl' s, rfl, rfl, fun _ => rfl, fun _ => rfl⟩

theorem Quiet.trans {s s' s'' : State F} (h : Quiet s s') (h' : Quiet s' s'') : Quiet s s'' :=
  ⟨h.toFrame.trans h'.toFrame, h'.evidences.trans h.evidences, h'.clusters.trans h.clusters,
    fun v => (h'.disabled v).trans (h.disabled v), fun v => (h'.active v).trans (h.active v)⟩

theorem Quiet.updNode (s : State F) (v : Var) {f : Node F → Node F} (hu : ∀ n, (f n).unary = n.unary)
    (hd : ∀ n, (f n).disabled = n.disabled) (ha : ∀ n, links (f n).active = links n.active) :
    Quiet s (s.updNode v f) := by
  refine ⟨Frame.updNode s v hu, rfl, rfl, ?_, ?_⟩
  · intro w
    rw [disabledOf_updNode]
    split
    · unfold disabledOf
      cases h : s.node? w <;> simp [hd]
    · rfl
  · intro w
    rw [activeOf_updNode]
    split
    · unfold activeOf
      cases h : s.node? w <;> simp [ha]
    · rfl

theorem Quiet.act {s s' : State F} (h : Quiet s s') (u v : Var) :
    (s'.act u v).map Conn.factor = (s.act u v).map Conn.factor := by
  unfold State.act
  rw [← find?_links, ← find?_links, h.active]

theorem Quiet.act_some {s s' : State F} (h : Quiet s s') {u v : Var} {c : Conn F} (hc : s'.act u v = some c) :
    ∃ c', s.act u v = some c' ∧ c'.factor = c.factor := by
  have := h.act u v
  rw [hc] at this
  cases hs : s.act u v with
  | none => simp [hs] at this
  | some c' => simp [hs] at this; exact ⟨c', rfl, this.symm⟩

theorem Quiet.act_some' {s s' : State F} (h : Quiet s s') {u v : Var} {c : Conn F} (hc : s.act u v = some c) :
    ∃ c', s'.act u v = some c' ∧ c'.factor = c.factor := by
  have := h.act u v
  rw [hc] at this
  cases hs : s'.act u v with
  | none => simp [hs] at this
  | some c' => simp [hs] at this; exact ⟨c', rfl, this⟩

theorem Quiet.act_none {s s' : State F} (h : Quiet s s') {u v : Var} (hc : s.act u v = none) :
    s'.act u v = none := by
  have := h.act u v
  rw [hc] at this
  simpa using this

theorem Quiet.dis {s s' : State F} (h : Quiet s s') (u v : Var) : s'.dis u v = s.dis u v := by
  unfold State.dis
  rw [h.disabled]

theorem Quiet.keysA {s s' : State F} (h : Quiet s s') (v : Var) :
    AMap.keys (s'.activeOf v) = AMap.keys (s.activeOf v) := by
  rw [← keys_links, h.active, keys_links]

theorem Quiet.obs {s s' : State F} (h : Quiet s s') : s'.obs = s.obs := by
  unfold State.obs; rw [h.evidences]

theorem Quiet.hid {s s' : State F} (h : Quiet s s') : s'.hid = s.hid := by
  unfold State.hid; rw [h.obs, h.vars]

theorem mem_activeKeys {s : State F} {u v : Var} : v ∈ s.activeKeys u ↔ ∃ c, s.act u v = some c :=
  AMap.mem_keys

/-! ### Primitive changes -/

theorem clearMerged_quiet (s : State F) (v : Var) : Quiet s (clearMerged v s) :=
  Quiet.updNode s v (fun _ => rfl) (fun _ => rfl) (fun _ => rfl)

theorem act_clearMerged (s : State F) (v u w : Var) : (clearMerged v s).act u w = s.act u w := by
  unfold act clearMerged
  rw [activeOf_updNode]
  split
  · unfold activeOf; cases s.node? u <;> rfl
  · rfl

theorem dis_clearMerged (s : State F) (v u w : Var) : (clearMerged v s).dis u w = s.dis u w :=
  (clearMerged_quiet s v).dis u w

theorem mrg_clearMerged (s : State F) (v u : Var) :
    (clearMerged v s).mrg u = if v = u then none else s.mrg u := by
  unfold clearMerged
  rw [mrg_updNode]
  split
  · cases s.node? u <;> rfl
  · rfl

theorem act_activate {s : State F} {a b : Var} (ha : a ∈ AMap.keys s.nodes) (hb : b ∈ AMap.keys s.nodes)
    (hab : a ≠ b) (p : Nat) (u v : Var) :
    (activate a b p s).act u v =
      if (u = a ∧ v = b) ∨ (u = b ∧ v = a) then some { factor := p, message := none } else s.act u v := by
  obtain ⟨na, hna⟩ := node?_of_mem ha
  obtain ⟨nb, hnb⟩ := node?_of_mem hb
  unfold act activate
  rw [activeOf_updNode]
  by_cases hu : b = u
  · subst hu
    rw [if_pos rfl, node?_updNode, if_neg hab, hnb]
    simp only [activateNode, AMap.find?_set, Ne.symm hab, false_and, false_or, true_and]
    unfold activeOf
    rw [hnb]
    by_cases hv : a = v
    · subst hv; simp
    · simp [hv, Ne.symm hv]
  · rw [if_neg hu, activeOf_updNode]
    by_cases hu' : a = u
    · subst hu'
      rw [if_pos rfl, hna]
      simp only [activateNode, AMap.find?_set, hab, false_and, or_false, true_and]
      unfold activeOf
      rw [hna]
      by_cases hv : b = v
      · subst hv; simp
      · simp [hv, Ne.symm hv]
    · rw [if_neg hu']
      simp [Ne.symm hu, Ne.symm hu']

theorem dis_activate {s : State F} {a b : Var} (ha : a ∈ AMap.keys s.nodes) (hb : b ∈ AMap.keys s.nodes)
    (hab : a ≠ b) (p : Nat) (u v : Var) :
    (activate a b p s).dis u v =
      if (u = a ∧ v = b) ∨ (u = b ∧ v = a) then none else s.dis u v := by
  obtain ⟨na, hna⟩ := node?_of_mem ha
  obtain ⟨nb, hnb⟩ := node?_of_mem hb
  unfold dis activate
  rw [disabledOf_updNode]
  by_cases hu : b = u
  · subst hu
    rw [if_pos rfl, node?_updNode, if_neg hab, hnb]
    simp only [activateNode, AMap.find?_erase, Ne.symm hab, false_and, false_or, true_and]
    unfold disabledOf
    rw [hnb]
    by_cases hv : a = v
    · subst hv; simp
    · simp [hv, Ne.symm hv]
  · rw [if_neg hu, disabledOf_updNode]
    by_cases hu' : a = u
    · subst hu'
      rw [if_pos rfl, hna]
      simp only [activateNode, AMap.find?_erase, hab, false_and, or_false, true_and]
      unfold disabledOf
      rw [hna]
      by_cases hv : b = v
      · subst hv; simp
      · simp [hv, Ne.symm hv]
    · rw [if_neg hu']
      simp [Ne.symm hu, Ne.symm hu']

theorem act_disableWith {s : State F} {a b : Var} (ha : a ∈ AMap.keys s.nodes) (hb : b ∈ AMap.keys s.nodes)
    (hab : a ≠ b) (p : Nat) (u v : Var) :
    (disableWith a b p s).act u v =
      if (u = a ∧ v = b) ∨ (u = b ∧ v = a) then none else s.act u v := by
  obtain ⟨na, hna⟩ := node?_of_mem ha
  obtain ⟨nb, hnb⟩ := node?_of_mem hb
  unfold act disableWith
  rw [activeOf_updNode]
  by_cases hu : b = u
  · subst hu
    rw [if_pos rfl, node?_updNode, if_neg hab, hnb]
    simp only [disableNode, AMap.find?_erase, Ne.symm hab, false_and, false_or, true_and]
    unfold activeOf
    rw [hnb]
    by_cases hv : a = v
    · subst hv; simp
    · simp [hv, Ne.symm hv]
  · rw [if_neg hu, activeOf_updNode]
    by_cases hu' : a = u
    · subst hu'
      rw [if_pos rfl, hna]
      simp only [disableNode, AMap.find?_erase, hab, false_and, or_false, true_and]
      unfold activeOf
      rw [hna]
      by_cases hv : b = v
      · subst hv; simp
      · simp [hv, Ne.symm hv]
    · rw [if_neg hu']
      simp [Ne.symm hu, Ne.symm hu']

theorem dis_disableWith {s : State F} {a b : Var} (ha : a ∈ AMap.keys s.nodes) (hb : b ∈ AMap.keys s.nodes)
    (hab : a ≠ b) (p : Nat) (u v : Var) :
    (disableWith a b p s).dis u v =
      if (u = a ∧ v = b) ∨ (u = b ∧ v = a) then some { factor := p, message := none } else s.dis u v := by
  obtain ⟨na, hna⟩ := node?_of_mem ha
  obtain ⟨nb, hnb⟩ := node?_of_mem hb
  unfold dis disableWith
  rw [disabledOf_updNode]
  by_cases hu : b = u
  · subst hu
    rw [if_pos rfl, node?_updNode, if_neg hab, hnb]
    simp only [disableNode, AMap.find?_set, Ne.symm hab, false_and, false_or, true_and]
    unfold disabledOf
    rw [hnb]
    by_cases hv : a = v
    · subst hv; simp
    · simp [hv, Ne.symm hv]
  · rw [if_neg hu, disabledOf_updNode]
    by_cases hu' : a = u
    · subst hu'
      rw [if_pos rfl, hna]
      simp only [disableNode, AMap.find?_set, hab, false_and, or_false, true_and]
      unfold disabledOf
      rw [hna]
      by_cases hv : b = v
      · subst hv; simp
      · simp [hv, Ne.symm hv]
    · rw [if_neg hu']
      simp [Ne.symm hu, Ne.symm hu']

/-- The keys of the connections of each node are pairwise different. -/
def NodupKeys (s : State F) : Prop :=
  ∀ v, (AMap.keys (s.activeOf v)).Nodup ∧ (AMap.keys (s.disabledOf v)).Nodup

theorem NodupKeys.updNode {s : State F} (h : NodupKeys s) (v : Var) {f : Node F → Node F}
    (hf : ∀ n, (AMap.keys n.active).Nodup → (AMap.keys n.disabled).Nodup →
      (AMap.keys (f n).active).Nodup ∧ (AMap.keys (f n).disabled).Nodup) : NodupKeys (s.updNode v f) := by
  intro w
  rw [activeOf_updNode, disabledOf_updNode]
  have hw := h w
  unfold activeOf disabledOf at hw
  by_cases hv : v = w
  · subst hv
    rw [if_pos rfl, if_pos rfl]
    cases hn : s.node? v with
    | none => simp
    | some n => rw [hn] at hw; exact hf n hw.1 hw.2
  · rw [if_neg hv, if_neg hv]; exact h w

theorem NodupKeys.activate {s : State F} (h : NodupKeys s) (a b : Var) (p : Nat) :
    NodupKeys (activate a b p s) := by
  unfold State.activate
  refine (h.updNode a ?_).updNode b ?_
  all_goals
    intro n h1 h2
    exact ⟨AMap.nodup_set h1 _ _, AMap.nodup_erase h2 _⟩

theorem NodupKeys.disableWith {s : State F} (h : NodupKeys s) (a b : Var) (p : Nat) :
    NodupKeys (disableWith a b p s) := by
  unfold State.disableWith
  refine (h.updNode a ?_).updNode b ?_
  all_goals
    intro n h1 h2
    exact ⟨AMap.nodup_erase h1 _, AMap.nodup_set h2 _ _⟩

theorem NodupKeys.quiet {s s' : State F} (h : NodupKeys s) (hq : Quiet s s') : NodupKeys s' := by
  intro v
  rw [hq.keysA, hq.disabled]
  exact h v

theorem Frame.activate (s : State F) (a b : Var) (p : Nat) : Frame s (activate a b p s) := by
  unfold State.activate
  exact (Frame.updNode s a (by intro n; rfl)).trans (Frame.updNode _ b (by intro n; rfl))

theorem Frame.disableWith (s : State F) (a b : Var) (p : Nat) : Frame s (disableWith a b p s) := by
  unfold State.disableWith
  exact (Frame.updNode s a (by intro n; rfl)).trans (Frame.updNode _ b (by intro n; rfl))

/-! ### Messages of disabled connections -/

theorem Frame.setDisabledMessage (s : State F) (u v : Var) (m : Option (Fn F)) :
    Frame s (setDisabledMessage u v m s) := Frame.updNode s u (fun _ => rfl)

theorem act_setDisabledMessage (s : State F) (a b : Var) (m : Option (Fn F)) (u v : Var) :
    (setDisabledMessage a b m s).act u v = s.act u v := by
  unfold act setDisabledMessage
  rw [activeOf_updNode]
  split
  · unfold activeOf; cases s.node? u <;> rfl
  · rfl

theorem dis_setDisabledMessage (s : State F) (a b : Var) (m : Option (Fn F)) (u v : Var) :
    (setDisabledMessage a b m s).dis u v =
      if u = a ∧ v = b then (s.dis u v).map (fun c => { c with message := m }) else s.dis u v := by
  unfold dis setDisabledMessage
  rw [disabledOf_updNode]
  by_cases h : a = u
  · subst h
    rw [if_pos rfl]
    unfold disabledOf
    cases hn : s.node? a with
    | none => simp
    | some n =>
      simp only [AMap.find?_modify, true_and]
      by_cases h' : b = v
      · subst h'; simp
      · simp [h', Ne.symm h']
  · rw [if_neg h]; simp [Ne.symm h]

theorem mrg_setDisabledMessage (s : State F) (a b : Var) (m : Option (Fn F)) (u : Var) :
    (setDisabledMessage a b m s).mrg u = s.mrg u := by
  unfold setDisabledMessage
  rw [mrg_updNode]
  split
  · unfold mrg; cases s.node? u <;> rfl
  · rfl

theorem NodupKeys.setDisabledMessage {s : State F} (h : NodupKeys s) (a b : Var) (m : Option (Fn F)) :
    NodupKeys (setDisabledMessage a b m s) := by
  refine h.updNode a ?_
  intro n h1 h2
  exact ⟨h1, by rwa [AMap.keys_modify]⟩

theorem mrg_disableWith {s : State F} (a b : Var) (p : Nat) (u : Var) :
    (disableWith a b p s).mrg u = s.mrg u := by
  unfold disableWith
  rw [mrg_updNode, node?_updNode]
  unfold mrg
  rw [node?_updNode]
  by_cases h : b = u <;> by_cases h' : a = u <;> simp only [h, h', if_true, if_false] <;>
    cases s.node? u <;> rfl

theorem mrg_activate {s : State F} (a b : Var) (p : Nat) (u : Var) :
    (activate a b p s).mrg u = s.mrg u := by
  unfold activate
  rw [mrg_updNode, node?_updNode]
  unfold mrg
  rw [node?_updNode]
  by_cases h : b = u <;> by_cases h' : a = u <;> simp only [h, h', if_true, if_false] <;>
    cases s.node? u <;> rfl

/-! ### Runs -/

theorem forEach_cons {α : Type} (f : α → M (State F) Unit) (a : α) (l : List α) (s : State F) :
    forEach f (a :: l) s = match f a s with
      | .ok s' _ => forEach f l s'
      | .throw s' => .throw s'
      | .ub => .ub := rfl

end State

/-- Every way of ending a call satisfies a relation between the initial and the final state. -/
def M.Keeps {σ α : Type} (R : σ → σ → Prop) (x : M σ α) : Prop :=
  ∀ s, match x s with
    | .ok s' _ => R s s'
    | .throw s' => R s s'
    | .ub => True

theorem M.Keeps.ok {σ α : Type} {R : σ → σ → Prop} {x : M σ α} (h : M.Keeps R x) {s s' : σ} {a : α}
    (hx : x s = .ok s' a) : R s s' := by
  have := h s; rw [hx] at this; exact this

theorem M.Keeps.throw {σ α : Type} {R : σ → σ → Prop} {x : M σ α} (h : M.Keeps R x) {s s' : σ}
    (hx : x s = .throw s') : R s s' := by
  have := h s; rw [hx] at this; exact this

namespace State
variable {F : Type} [Arith F]

theorem forEach_keeps {α : Type} {R : State F → State F → Prop} (hr : ∀ s, R s s)
    (ht : ∀ s s' s'', R s s' → R s' s'' → R s s'') {f : α → M (State F) Unit} {l : List α}
    (h : ∀ a ∈ l, M.Keeps R (f a)) : M.Keeps R (forEach f l) := by
  induction l with
  | nil => intro s; exact hr s
  | cons a l ih =>
    intro s
    rw [forEach_cons]
    have h1 := h a (by simp) s
    have h2 := ih (fun b hb => h b (by simp [hb]))
    cases hx : f a s with
    | ok s' u =>
      rw [hx] at h1
      have h3 := h2 s'
      simp only
      cases hy : forEach f l s' with
      | ok s'' _ => rw [hy] at h3; exact ht _ _ _ h1 h3
      | throw s'' => rw [hy] at h3; exact ht _ _ _ h1 h3
      | ub => trivial
    | throw s' => rw [hx] at h1; exact h1
    | ub => trivial

end State
end EFG
