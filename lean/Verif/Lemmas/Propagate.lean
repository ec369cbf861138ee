import Verif.Lemmas.QueryInv
/-
The propagation of the belief succeeds, and what it leaves: the messages of the exact propagation
are a fixed point, computed once each in an order compatible with their dependencies.
-/

set_option linter.unusedSectionVars false

namespace EFG

/-! ### Computations which do not fail -/

namespace Fn
variable {F : Type} [Arith F]

theorem Unary.probabilities {v : Var} {f : Fn F} (h : f.Unary v) :
    ∃ ps, f.probabilities = .ok ps ∧ ps.length = v.size := by
  unfold Fn.probabilities
  rw [h.images]
  simp only
  split
  · exact ⟨_, rfl, by simp⟩
  · exact ⟨_, rfl, by simp⟩

theorem diffLoop_ok : ∀ (xs ys : List F) (r : F), xs.length ≤ ys.length → ∃ x, diffLoop r xs ys = .ok x := by
  intro xs
  induction xs with
  | nil => intro ys r _; exact ⟨r, rfl⟩
  | cons x xs ih =>
    intro ys r h
    cases ys with
    | nil => simp at h
    | cons y ys => rw [diffLoop]; exact ih ys _ (by simpa using h)

theorem Unary.diff {v : Var} {f g : Fn F} (hf : f.Unary v) (hg : g.Unary v) : ∃ x, f.diff g = .ok x := by
  obtain ⟨ps, h1, h2⟩ := hf.probabilities
  obtain ⟨qs, h3, h4⟩ := hg.probabilities
  unfold Fn.diff
  rw [h1, h3]
  exact diffLoop_ok ps qs _ (by omega)

end Fn

namespace State
variable {F : Type} [Arith F]

/-! ### Messages -/

/-- The message stored in the active connection of `u` keyed by `v`: the one from `v` to `u`. -/
def msg (s : State F) (u v : Var) : Option (Fn F) := (s.act u v).bind Conn.message

theorem act_setActiveMessage (s : State F) (a b : Var) (m : Option (Fn F)) (u v : Var) :
    (setActiveMessage a b m s).act u v =
      if u = a ∧ v = b then (s.act u v).map (fun c => { c with message := m }) else s.act u v := by
  unfold setActiveMessage State.act
  rw [activeOf_updNode]
  by_cases h : a = u
  · subst h
    rw [if_pos rfl]
    unfold activeOf
    cases hn : s.node? a with
    | none => simp [AMap.find?]
    | some n =>
      simp only [true_and]
      rw [AMap.find?_modify]
      by_cases hb : b = v
      · subst hb; simp
      · rw [if_neg hb, if_neg (Ne.symm hb)]
  · rw [if_neg h, if_neg (fun h' => h h'.1.symm)]

theorem msg_setActiveMessage {s : State F} {a b : Var} (h : (s.act a b).isSome) (m : Option (Fn F)) (u v : Var) :
    (setActiveMessage a b m s).msg u v = if u = a ∧ v = b then m else s.msg u v := by
  unfold msg
  rw [act_setActiveMessage]
  by_cases hp : u = a ∧ v = b
  · rw [if_pos hp, if_pos hp]
    obtain ⟨rfl, rfl⟩ := hp
    obtain ⟨c, hc⟩ := Option.isSome_iff_exists.mp h
    rw [hc]; rfl
  · rw [if_neg hp, if_neg hp]

/-- No active connection joins a hidden and an observed variable. -/
def Separated (s : State F) : Prop := ∀ u v, u ∉ s.obs → (s.act u v).isSome → v ∉ s.obs

/-- The variables joined by an active connection have the same size. -/
def Square (s : State F) : Prop := ∀ u v, u ∉ s.obs → v ∉ s.obs → (s.act u v).isSome → u.size = v.size

/-- The messages of the hidden variables are unary functions. -/
def TypedMsgs (s : State F) : Prop := ∀ u v m, u ∉ s.obs → s.msg u v = some m → m.Unary u

/-- The states in which the propagation succeeds. -/
structure Flow (s : State F) : Prop where
  core : Core s
  sep : Separated s
  sq : Square s

theorem Flow.quiet {s s' : State F} (h : Flow s) (hq : Quiet s s') (hc : Core s') : Flow s' where
  core := hc
  sep u v hu ha := by
    rw [hq.obs] at hu ⊢
    exact h.sep u v hu (by rw [← hq.isSome]; exact ha)
  sq u v hu hv ha := by
    rw [hq.obs] at hu hv
    exact h.sq u v hu hv (by rw [← hq.isSome]; exact ha)

theorem Soft.core {s s' : State F} (h : Soft s s') (hs : Core s) : Core s' :=
  hs.quiet h.toQuiet (fun v m hm => hs.mrgT v m (by rw [← h.mrg]; exact hm))

theorem Flow.soft {s s' : State F} (h : Flow s) (hq : Soft s s') : Flow s' :=
  h.quiet hq.toQuiet (hq.core h.core)

/-- The info of one message. -/
structure TopoAt (s : State F) (t : Topo) : Prop where
  from_ : t.conn.from_ = t.sender
  hid : t.sender ∉ s.obs
  active : (s.act t.sender t.conn.owner).isSome
  nodup : t.deps.Nodup
  deps : ∀ r, r ∈ t.deps ↔ r.owner = t.sender ∧ r.from_ ≠ t.conn.owner ∧ (s.act t.sender r.from_).isSome

theorem TopoAt.quiet {s s' : State F} {t : Topo} (h : TopoAt s t) (hq : Quiet s s') : TopoAt s' t where
  from_ := h.from_
  hid := by rw [hq.obs]; exact h.hid
  active := by rw [hq.isSome]; exact h.active
  nodup := h.nodup
  deps r := by rw [hq.isSome]; exact h.deps r

theorem TopoAt.ownerHid {s : State F} {t : Topo} (h : TopoAt s t) (hs : Flow s) : t.conn.owner ∉ s.obs :=
  hs.sep _ _ h.hid h.active

theorem TopoAt.ownerActive {s : State F} {t : Topo} (h : TopoAt s t) (hs : Flow s) :
    (s.act t.conn.owner t.conn.from_).isSome := by
  rw [h.from_]; exact hs.core.net.symA _ _ h.active

theorem TopoAt.depActive {s : State F} {t : Topo} (h : TopoAt s t) {r : ConnRef} (hr : r ∈ t.deps) :
    (s.act r.owner r.from_).isSome := by
  obtain ⟨h1, _, h3⟩ := (h.deps r).mp hr
  rw [h1]; exact h3

/-- The dependencies are available. -/
def HasDeps (s : State F) (t : Topo) : Prop := ∀ r ∈ t.deps, (s.msg r.owner r.from_).isSome

theorem depMessage_eq {s : State F} {r : ConnRef} (h : (s.act r.owner r.from_).isSome) :
    s.depMessage r = .ok (s.msg r.owner r.from_) := by
  unfold depMessage conn? msg
  obtain ⟨c, hc⟩ := Option.isSome_iff_exists.mp h
  unfold State.act at hc ⊢
  rw [hc]; rfl

theorem depMessages_some {s : State F} : ∀ {l : List ConnRef}, (∀ r ∈ l, (s.act r.owner r.from_).isSome) →
    (∀ r ∈ l, (s.msg r.owner r.from_).isSome) →
    ∃ ms, s.depMessages l = .ok (some ms) ∧ List.Forall₂ (fun r m => s.msg r.owner r.from_ = some m) l ms := by
  intro l
  induction l with
  | nil => intro _ _; exact ⟨[], rfl, .nil⟩
  | cons r l ih =>
    intro ha hm
    obtain ⟨ms, h1, h2⟩ := ih (fun r hr => ha r (by simp [hr])) (fun r hr => hm r (by simp [hr]))
    obtain ⟨m, h3⟩ := Option.isSome_iff_exists.mp (hm r (by simp))
    refine ⟨m :: ms, ?_, .cons h3 h2⟩
    rw [depMessages, depMessage_eq (ha r (by simp)), h3]
    simp only
    rw [h1]

theorem depMessages_none {s : State F} : ∀ {l : List ConnRef}, (∀ r ∈ l, (s.act r.owner r.from_).isSome) →
    (¬ ∀ r ∈ l, (s.msg r.owner r.from_).isSome) → s.depMessages l = .ok none := by
  intro l
  induction l with
  | nil => intro _ h; exact absurd (by simp) h
  | cons r l ih =>
    intro ha hm
    rw [depMessages, depMessage_eq (ha r (by simp))]
    cases h3 : s.msg r.owner r.from_ with
    | none => rfl
    | some m =>
      simp only
      rw [ih (fun r hr => ha r (by simp [hr])) (by
        intro h
        apply hm
        intro r' hr'
        rcases List.mem_cons.mp hr' with rfl | hr'
        · rw [h3]; rfl
        · exact h r' hr')]

open Classical in
theorem canUpdate_eq {s : State F} {t : Topo} (h : TopoAt s t) :
    s.canUpdate t = .ok (decide (HasDeps s t)) := by
  unfold canUpdate
  by_cases hd : HasDeps s t
  · obtain ⟨ms, h1, _⟩ := depMessages_some (fun r hr => h.depActive hr) hd
    rw [h1]; simp [hd]
  · rw [depMessages_none (fun r hr => h.depActive hr) hd]; simp [hd]

/-- The message which `updateMessage` computes now. -/
def Sends (kind : Kind) (s : State F) (t : Topo) (m : Fn F) : Prop :=
  ∃ mg deps p, s.mrg t.sender = some mg ∧ s.depMessages t.deps = .ok (some deps) ∧
    s.lnk t.conn.owner t.sender = some p ∧ s.newMessage kind mg deps p = .ok m

theorem Sends.functional {kind : Kind} {s : State F} {t : Topo} {m m' : Fn F} (h : Sends kind s t m)
    (h' : Sends kind s t m') : m = m' := by
  obtain ⟨mg, deps, p, h1, h2, h3, h4⟩ := h
  obtain ⟨mg', deps', p', g1, g2, g3, g4⟩ := h'
  rw [h1] at g1; cases g1
  rw [h2] at g2; cases g2
  rw [h3] at g3; cases g3
  rw [h4] at g4; cases g4
  rfl

theorem depMessages_congr {s s' : State F} (hq : Quiet s s') : ∀ {l : List ConnRef},
    (∀ r ∈ l, s'.msg r.owner r.from_ = s.msg r.owner r.from_) → s'.depMessages l = s.depMessages l := by
  intro l
  induction l with
  | nil => intro _; rfl
  | cons r l ih =>
    intro h
    have h1 : s'.depMessage r = s.depMessage r := by
      have h2 := h r (by simp)
      have h3 := hq.isSome r.owner r.from_
      unfold depMessage conn?
      unfold msg at h2
      unfold State.act at h2 h3
      cases ha : AMap.find? (s'.activeOf r.owner) r.from_ <;>
        cases hb : AMap.find? (s.activeOf r.owner) r.from_ <;> simp_all
    rw [depMessages, depMessages, h1, ih (fun r hr => h r (by simp [hr]))]

theorem Sends.congr' {kind : Kind} {s s' : State F} {t : Topo} {m : Fn F} (h : Sends kind s t m) (hq : Quiet s s')
    (hg : s'.mrg t.sender = s.mrg t.sender)
    (hm : ∀ r ∈ t.deps, s'.msg r.owner r.from_ = s.msg r.owner r.from_) : Sends kind s' t m := by
  obtain ⟨mg, deps, p, h1, h2, h3, h4⟩ := h
  refine ⟨mg, deps, p, by rw [hg]; exact h1, by rw [depMessages_congr hq hm]; exact h2,
    by rw [hq.lnk]; exact h3, ?_⟩
  unfold newMessage deref at h4 ⊢
  rw [hq.heap]
  exact h4

theorem Sends.congr {kind : Kind} {s s' : State F} {t : Topo} {m : Fn F} (h : Sends kind s t m) (hq : Soft s s')
    (hm : ∀ r ∈ t.deps, s'.msg r.owner r.from_ = s.msg r.owner r.from_) : Sends kind s' t m :=
  h.congr' hq.toQuiet (hq.mrg _) hm

theorem forall₂_mem_right {α β : Type} {R : α → β → Prop} {l : List α} {l' : List β} (h : List.Forall₂ R l l')
    {b : β} (hb : b ∈ l') : ∃ a ∈ l, R a b := by
  induction h with
  | nil => simp at hb
  | cons h1 _ ih =>
    rcases List.mem_cons.mp hb with rfl | hb
    · exact ⟨_, by simp, h1⟩
    · obtain ⟨a, ha, h⟩ := ih hb; exact ⟨a, by simp [ha], h⟩

theorem forall₂_mem_left {α β : Type} {R : α → β → Prop} {l : List α} {l' : List β} (h : List.Forall₂ R l l')
    {a : α} (ha : a ∈ l) : ∃ b ∈ l', R a b := by
  induction h with
  | nil => simp at ha
  | cons h1 _ ih =>
    rcases List.mem_cons.mp ha with rfl | ha
    · exact ⟨_, by simp, h1⟩
    · obtain ⟨b, hb, h⟩ := ih ha; exact ⟨b, by simp [hb], h⟩

/-- The computation of a message whose dependencies are available succeeds. -/
theorem sends_ok (kind : Kind) {s : State F} (hs : Flow s) (hty : TypedMsgs s) {t : Topo} (ht : TopoAt s t)
    (hm : (s.mrg t.sender).isSome) (hd : HasDeps s t) :
    ∃ m, Sends kind s t m ∧ m.Unary t.conn.owner := by
  obtain ⟨mg, hmg⟩ := Option.isSome_iff_exists.mp hm
  obtain ⟨deps, h1, h2⟩ := depMessages_some (fun r hr => ht.depActive hr) hd
  have hmu := hs.core.mrgT _ _ hmg
  have hdu : ∀ m ∈ deps, m.Unary t.sender := by
    intro m hm
    obtain ⟨r, hr, h3⟩ := forall₂_mem_right h2 hm
    obtain ⟨h4, _, _⟩ := (ht.deps r).mp hr
    rw [← h4]
    exact hty r.owner r.from_ m (by rw [h4]; exact ht.hid) h3
  obtain ⟨c, hc⟩ := Option.isSome_iff_exists.mp (ht.ownerActive hs)
  rw [ht.from_] at hc
  have hl := lnk_of_act hc
  obtain ⟨_, f, hf, hb⟩ := hs.core.link _ _ _ hl
  obtain ⟨mm, _, e1, e2, _⟩ := Fn.mergedUnaries_eq (v := t.sender) (fs := mg :: deps) (by simp) (by
    intro g hg
    rcases List.mem_cons.mp hg with rfl | hg
    · exact hmu
    · exact hdu g hg)
  have hsz := hs.sq _ _ ht.hid (ht.ownerHid hs) ht.active
  obtain ⟨m, g1, g2, _⟩ := hb.symm.message e2 kind (by omega)
  refine ⟨m, ⟨mg, deps, _, hmg, h1, hl, ?_⟩, g2⟩
  unfold newMessage
  rw [e1]
  simp only
  rw [deref_eq hf]
  exact g1

/-- What `updateMessage` does then. -/
theorem updateMessage_ok {kind : Kind} {s : State F} (hs : Flow s) (hty : TypedMsgs s) {t : Topo} (ht : TopoAt s t)
    {m : Fn F} (hm : Sends kind s t m) (hu : m.Unary t.conn.owner) :
    ∃ x, updateMessage kind t s = .ok (setActiveMessage t.conn.owner t.conn.from_ (some m) s) (some x) ∧
      variation (s.msg t.conn.owner t.conn.from_) m = .ok x := by
  obtain ⟨mg, deps, p, h1, h2, h3, h4⟩ := hm
  obtain ⟨c, hc⟩ := Option.isSome_iff_exists.mp (ht.ownerActive hs)
  have hl := lnk_of_act hc
  rw [ht.from_, h3] at hl
  cases hl
  have hmsg : s.msg t.conn.owner t.conn.from_ = c.message := by unfold msg; rw [hc]; rfl
  obtain ⟨x, hx⟩ : ∃ x, variation c.message m = .ok x := by
    unfold variation
    cases ho : c.message with
    | none => exact ⟨_, rfl⟩
    | some o => exact (hty _ _ o (ht.ownerHid hs) (by rw [hmsg, ho])).diff hu
  refine ⟨x, ?_, by rw [hmsg]; exact hx⟩
  unfold mrg at h1
  unfold updateMessage
  cases hn : s.node? t.sender with
  | none => rw [hn] at h1; cases h1
  | some n =>
    rw [hn] at h1
    simp only at h1 ⊢
    rw [h1]
    simp only
    rw [h2]
    simp only
    have hc' : s.conn? t.conn = some c := hc
    rw [hc']
    simp only
    rw [h4]
    simp only
    rw [hx]

/-! ### Writing several messages -/

/-- Writes messages, one after the other. -/
def writeAll (ws : List (ConnRef × Fn F)) (s : State F) : State F :=
  ws.foldl (fun s w => setActiveMessage w.1.owner w.1.from_ (some w.2) s) s

theorem modify_comm (m : List (Var × Conn F)) {a b : Var} (h : a ≠ b) (f g : Conn F → Conn F) :
    AMap.modify (AMap.modify m a f) b g = AMap.modify (AMap.modify m b g) a f := by
  induction m with
  | nil => rfl
  | cons e m ih =>
    obtain ⟨k, x⟩ := e
    by_cases h1 : k = a
    · subst h1
      simp [AMap.modify, h]
    · by_cases h2 : k = b
      · subst h2; simp [AMap.modify, h1]
      · simp [AMap.modify, h1, h2, ih]

theorem updNode_comm (m : List (Var × Node F)) (a b : Var) {f g : Node F → Node F}
    (h : a ≠ b ∨ ∀ n, f (g n) = g (f n)) :
    AMap.modify (AMap.modify m a f) b g = AMap.modify (AMap.modify m b g) a f := by
  induction m with
  | nil => rfl
  | cons e m ih =>
    obtain ⟨k, x⟩ := e
    by_cases h1 : k = a
    · subst h1
      by_cases h2 : k = b
      · subst h2
        rcases h with h | h
        · exact absurd rfl h
        · simp [AMap.modify, h]
      · simp [AMap.modify, h2]
    · by_cases h2 : k = b
      · subst h2; simp [AMap.modify, h1]
      · simp [AMap.modify, h1, h2, ih]

theorem setActiveMessage_comm (s : State F) {r r' : ConnRef} (h : r ≠ r') (m m' : Option (Fn F)) :
    setActiveMessage r'.owner r'.from_ m' (setActiveMessage r.owner r.from_ m s) =
      setActiveMessage r.owner r.from_ m (setActiveMessage r'.owner r'.from_ m' s) := by
  unfold setActiveMessage State.updNode
  simp only
  congr 1
  refine updNode_comm _ _ _ ?_
  by_cases ho : r.owner = r'.owner
  · right
    intro n
    have : r.from_ ≠ r'.from_ := by
      intro hf
      apply h
      cases r; cases r'; simp_all
    simp only
    congr 1
    exact (modify_comm _ this _ _).symm
  · exact Or.inl ho

theorem writeAll_perm {ws ws' : List (ConnRef × Fn F)} (hp : ws.Perm ws') (hn : (ws.map Prod.fst).Nodup)
    (s : State F) : writeAll ws s = writeAll ws' s := by
  induction hp generalizing s with
  | nil => rfl
  | cons x _ ih =>
    simp only [List.map_cons, List.nodup_cons] at hn
    exact ih hn.2 _
  | swap x y l =>
    simp only [List.map_cons, List.nodup_cons, List.mem_cons, not_or] at hn
    unfold writeAll
    simp only [List.foldl_cons]
    congr 1
    exact setActiveMessage_comm s hn.1.1 _ _
  | trans h1 _ ih1 ih2 =>
    rw [ih1 hn s, ih2 (by rw [← (h1.map Prod.fst).nodup_iff]; exact hn) s]

theorem writeAll_soft (ws : List (ConnRef × Fn F)) (s : State F) : Soft s (writeAll ws s) := by
  unfold writeAll
  exact foldl_soft (f := fun (s : State F) (w : ConnRef × Fn F) => setActiveMessage w.1.owner w.1.from_ (some w.2) s)
    (fun s w => setActiveMessage_soft s w.1.owner w.1.from_ (some w.2)) ws s

theorem msg_writeAll {ws : List (ConnRef × Fn F)} {s : State F} (hn : (ws.map Prod.fst).Nodup)
    (ha : ∀ w ∈ ws, (s.act w.1.owner w.1.from_).isSome) :
    (∀ w ∈ ws, (writeAll ws s).msg w.1.owner w.1.from_ = some w.2) ∧
    ∀ u v, (∀ w ∈ ws, w.1 ≠ ⟨u, v⟩) → (writeAll ws s).msg u v = s.msg u v := by
  induction ws generalizing s with
  | nil => exact ⟨by simp, fun _ _ _ => rfl⟩
  | cons w ws ih =>
    simp only [List.map_cons, List.nodup_cons] at hn
    have hsoft := setActiveMessage_soft s w.1.owner w.1.from_ (some w.2)
    obtain ⟨h1, h2⟩ := ih (s := setActiveMessage w.1.owner w.1.from_ (some w.2) s) hn.2 (fun x hx => by
      rw [hsoft.toQuiet.isSome]; exact ha x (by simp [hx]))
    have hw := msg_setActiveMessage (ha w (by simp)) (some w.2)
    refine ⟨?_, ?_⟩
    · intro x hx
      rcases List.mem_cons.mp hx with rfl | hx
      · show (writeAll ws _).msg _ _ = _
        rw [h2 _ _ (fun y hy he => hn.1 (List.mem_map.mpr ⟨y, hy, he⟩)), hw, if_pos ⟨rfl, rfl⟩]
      · exact h1 x hx
    · intro u v hne
      show (writeAll ws _).msg _ _ = _
      rw [h2 u v (fun y hy => hne y (by simp [hy])), hw, if_neg]
      rintro ⟨rfl, rfl⟩
      exact hne w (by simp) rfl

/-! ### One parallel round of the exact propagation -/

/-- The conditions on the tasks of a round. -/
structure RoundOk (s : State F) (ts : List Topo) : Prop where
  at_ : ∀ t ∈ ts, TopoAt s t
  merged : ∀ t ∈ ts, (s.mrg t.sender).isSome
  deps : ∀ t ∈ ts, HasDeps s t
  nodup : (ts.map (·.conn)).Nodup
  apart : ∀ t ∈ ts, ∀ t' ∈ ts, t.conn ∉ t'.deps

theorem forEach_round {kind : Kind} {val : Topo → Fn F} : ∀ {l : List (Topo × Nat)} {s : State F}, Flow s →
    TypedMsgs s → RoundOk s (l.map Prod.fst) →
    (∀ e ∈ l, Sends kind s e.1 (val e.1) ∧ (val e.1).Unary e.1.conn.owner) →
    forEach (messageTask kind) l s = .ok (writeAll (l.map (fun e => (e.1.conn, val e.1))) s) () := by
  intro l
  induction l with
  | nil => intro s _ _ _ _; rfl
  | cons e l ih =>
    intro s hs hty hr hv
    obtain ⟨h1, h2⟩ := hv e (by simp)
    have ht := hr.at_ e.1 (by simp)
    obtain ⟨x, h3, _⟩ := updateMessage_ok hs hty ht h1 h2
    have hsoft := setActiveMessage_soft s e.1.conn.owner e.1.conn.from_ (some (val e.1))
    have hmsg := msg_setActiveMessage (ht.ownerActive hs) (some (val e.1))
    set s1 := setActiveMessage e.1.conn.owner e.1.conn.from_ (some (val e.1)) s with hs1
    have htask : messageTask kind e s = .ok s1 () := by unfold messageTask; rw [h3]
    have hsame : ∀ t ∈ l.map Prod.fst, ∀ r ∈ t.deps, s1.msg r.owner r.from_ = s.msg r.owner r.from_ := by
      intro t ht r hr'
      rw [hmsg, if_neg]
      rintro ⟨g1, g2⟩
      have hrc : r = e.1.conn := by
        cases r; simp only at g1 g2; rw [g1, g2]
      exact hr.apart e.1 (by simp) t (by simp only [List.map_cons, List.mem_cons]; exact Or.inr ht) (hrc ▸ hr')
    have hty1 : TypedMsgs s1 := by
      intro u v m hu hm
      rw [hmsg] at hm
      by_cases hp : u = e.1.conn.owner ∧ v = e.1.conn.from_
      · rw [if_pos hp] at hm; cases hm; rw [hp.1]; exact h2
      · rw [if_neg hp] at hm
        rw [hsoft.toQuiet.obs] at hu
        exact hty u v m hu hm
    have hmem : ∀ t, t ∈ l.map Prod.fst → t ∈ (e :: l).map Prod.fst := fun t h => by
      simp only [List.map_cons, List.mem_cons]; exact Or.inr h
    rw [forEach_cons, htask]
    simp only
    rw [ih (hs.soft hsoft) hty1 ?_ ?_]
    · rfl
    · refine ⟨fun t h => (hr.at_ t (hmem t h)).quiet hsoft.toQuiet, ?_, ?_, ?_, ?_⟩
      · intro t h; rw [hsoft.mrg]; exact hr.merged t (hmem t h)
      · intro t h r hr'; rw [hsame t h r hr']; exact hr.deps t (hmem t h) r hr'
      · have := hr.nodup; simp only [List.map_cons, List.nodup_cons] at this; exact this.2
      · intro t h t' h'; exact hr.apart t (hmem t h) t' (hmem t' h')
    · intro e' he'
      obtain ⟨g1, g2⟩ := hv e' (by simp [he'])
      exact ⟨g1.congr hsoft (hsame e'.1 (List.mem_map.mpr ⟨e', he', rfl⟩)), g2⟩

/-- The result of a round does not depend on the schedule. -/
theorem messageRound_ok (kind : Kind) {s : State F} (hs : Flow s) (hty : TypedMsgs s) {now : List Topo}
    (hr : RoundOk s now) : ∃ s', (∀ sched : Sched, (∀ l, (sched l).Perm l) →
        messageRound kind sched now s = .ok s' ()) ∧ Soft s s' ∧ TypedMsgs s' ∧
      (∀ t ∈ now, ∃ m, s'.msg t.conn.owner t.conn.from_ = some m ∧ Sends kind s t m ∧ Sends kind s' t m) ∧
      ∀ u v, (∀ t ∈ now, t.conn ≠ ⟨u, v⟩) → s'.msg u v = s.msg u v := by
  classical
  have hex : ∀ t : Topo, ∃ m, t ∈ now → Sends kind s t m ∧ m.Unary t.conn.owner := by
    intro t
    by_cases h : t ∈ now
    · obtain ⟨m, h1, h2⟩ := sends_ok kind hs hty (hr.at_ t h) (hr.merged t h) (hr.deps t h)
      exact ⟨m, fun _ => ⟨h1, h2⟩⟩
    · exact ⟨Fn.ones t.sender, fun h' => absurd h' h⟩
  choose val hval using hex
  have hnd : ((now.map (fun t => (t.conn, val t))).map Prod.fst).Nodup := by
    rw [List.map_map]; exact hr.nodup
  obtain ⟨hw1, hw2⟩ := msg_writeAll (s := s) hnd (by
    intro w hw
    obtain ⟨t, ht, rfl⟩ := List.mem_map.mp hw
    exact (hr.at_ t ht).ownerActive hs)
  have hsoft := writeAll_soft (now.map (fun t => (t.conn, val t))) s
  have hother : ∀ u v, (∀ t ∈ now, t.conn ≠ ⟨u, v⟩) →
      (writeAll (now.map (fun t => (t.conn, val t))) s).msg u v = s.msg u v := by
    intro u v h
    refine hw2 u v ?_
    intro w hw
    obtain ⟨t, ht, rfl⟩ := List.mem_map.mp hw
    exact h t ht
  refine ⟨writeAll (now.map (fun t => (t.conn, val t))) s, ?_, hsoft, ?_, ?_, hother⟩
  · intro sched hsched
    have hp := hsched now.zipIdx
    have hp' : ((sched now.zipIdx).map Prod.fst).Perm now := by
      have := hp.map Prod.fst
      rwa [List.zipIdx_map_fst] at this
    unfold messageRound
    rw [forEach_round hs hty (val := val) ?_ ?_]
    · congr 1
      refine writeAll_perm ?_ ?_ s
      · have := hp'.map (fun t => (t.conn, val t))
        rw [List.map_map] at this
        exact this
      · have := (hp'.map (·.conn)).nodup_iff.mpr hr.nodup
        rw [List.map_map] at this ⊢
        exact this
    · exact ⟨fun t h => hr.at_ t (hp'.mem_iff.mp h), fun t h => hr.merged t (hp'.mem_iff.mp h),
        fun t h => hr.deps t (hp'.mem_iff.mp h), (hp'.map _).nodup_iff.mpr hr.nodup,
        fun t h t' h' => hr.apart t (hp'.mem_iff.mp h) t' (hp'.mem_iff.mp h')⟩
    · intro e he
      exact hval e.1 (hp'.mem_iff.mp (List.mem_map.mpr ⟨e, he, rfl⟩))
  · intro u v m hu hm
    by_cases h : ∃ t ∈ now, t.conn = ⟨u, v⟩
    · obtain ⟨t, ht, hc⟩ := h
      have h1 := hw1 _ (List.mem_map.mpr ⟨t, ht, rfl⟩)
      simp only [hc] at h1
      rw [h1] at hm
      cases hm
      have := (hval t ht).2
      rw [hc] at this
      exact this
    · rw [hother u v (fun t ht hc => h ⟨t, ht, hc⟩)] at hm
      rw [hsoft.toQuiet.obs] at hu
      exact hty u v m hu hm
  · intro t ht
    refine ⟨val t, hw1 _ (List.mem_map.mpr ⟨t, ht, rfl⟩), (hval t ht).1, ?_⟩
    refine (hval t ht).1.congr hsoft ?_
    intro r hr'
    refine hother _ _ ?_
    intro t' ht' hc
    exact hr.apart t' ht' t ht (by rw [hc]; exact hr')

/-! ### The rounds of the exact propagation -/

open Classical in
theorem splitReady_eq {s : State F} : ∀ {l : List Topo}, (∀ t ∈ l, TopoAt s t) →
    s.splitReady l = .ok (l.filter (fun t => decide (HasDeps s t)), l.filter (fun t => !decide (HasDeps s t))) := by
  intro l
  induction l with
  | nil => intro _; rfl
  | cons t l ih =>
    intro h
    rw [splitReady, canUpdate_eq (h t (by simp))]
    simp only
    rw [ih (fun t ht => h t (by simp [ht]))]
    simp only
    by_cases hd : HasDeps s t
    · simp [hd]
    · simp [hd]

/-- A cluster ready for the propagation. -/
structure Setting (s : State F) (nodes : List Var) (ts : List Topo) : Prop where
  topo : TopoOk s nodes ts
  hid : ∀ u ∈ nodes, u ∉ s.obs
  closed : ∀ u ∈ nodes, ∀ v, (s.act u v).isSome → v ∈ nodes
  merged : ∀ u ∈ nodes, (s.mrg u).isSome

theorem Setting.soft {s s' : State F} {nodes : List Var} {ts : List Topo} (h : Setting s nodes ts) (hq : Soft s s') :
    Setting s' nodes ts where
  topo := h.topo.congr (fun u _ v => hq.toQuiet.isSome u v)
  hid u hu := by rw [hq.toQuiet.obs]; exact h.hid u hu
  closed u hu v hv := h.closed u hu v (by rw [← hq.toQuiet.isSome]; exact hv)
  merged u hu := by rw [hq.mrg]; exact h.merged u hu

theorem Setting.at_ {s : State F} {nodes : List Var} {ts : List Topo} (h : Setting s nodes ts) {t : Topo} (ht : t ∈ ts) :
    TopoAt s t :=
  ⟨h.topo.from_ t ht, h.hid _ (h.topo.sender t ht), h.topo.active t ht, h.topo.depsNodup t ht, h.topo.deps t ht⟩

theorem Setting.dep {s : State F} {nodes : List Var} {ts : List Topo} (h : Setting s nodes ts) (hn : Net s) {t : Topo}
    (ht : t ∈ ts) {r : ConnRef} (hr : r ∈ t.deps) : ∃ t' ∈ ts, t'.conn = r := by
  obtain ⟨h1, _, h3⟩ := (h.topo.deps t ht r).mp hr
  have hw := h.closed _ (h.topo.sender t ht) _ h3
  obtain ⟨t', ht', h4, h5⟩ := h.topo.all _ hw _ (hn.symA _ _ h3)
  refine ⟨t', ht', ?_⟩
  have h6 := h.topo.from_ t' ht'
  cases r
  simp only at h1 h4 h5 h6 ⊢
  cases hc : t'.conn with
  | mk o f =>
    rw [hc] at h5 h6
    simp only at h5 h6
    rw [h5, h6, h4, h1]

theorem Setting.connNodup {s : State F} {nodes : List Var} {ts : List Topo} (h : Setting s nodes ts) :
    (ts.map (·.conn)).Nodup := by
  have h1 := h.topo.nodup
  have h2 : ts.map (fun t => (t.sender, t.conn.owner)) = (ts.map (·.conn)).map (fun r => (r.from_, r.owner)) := by
    rw [List.map_map]
    refine List.map_congr_left ?_
    intro t ht
    simp [h.topo.from_ t ht]
  rw [h2] at h1
  exact List.Nodup.of_map _ h1

theorem Setting.conn_inj {s : State F} {nodes : List Var} {ts : List Topo} (h : Setting s nodes ts) {t t' : Topo}
    (ht : t ∈ ts) (ht' : t' ∈ ts) (hc : t.conn = t'.conn) : t = t' :=
  List.inj_on_of_nodup_map h.connNodup ht ht' hc

/-- The messages computed so far are those of the propagation, and were computed after those they
depend on. -/
structure Progress (kind : Kind) (s : State F) (nodes : List Var) (ts left : List Topo) (k : Nat)
    (rank : ConnRef → Nat) : Prop where
  flow : Flow s
  typed : TypedMsgs s
  setting : Setting s nodes ts
  sub : left.Sublist ts
  todo : ∀ t ∈ left, s.msg t.conn.owner t.conn.from_ = none
  done : ∀ t ∈ ts, t ∉ left → rank t.conn < k ∧ ∃ m, s.msg t.conn.owner t.conn.from_ = some m ∧
    Sends kind s t m ∧ ∀ r ∈ t.deps, rank r < rank t.conn

/-- The messages of the cluster satisfy the equations of the propagation, and have an order. -/
def Exact (kind : Kind) (s : State F) (ts : List Topo) : Prop :=
  ∃ rank : ConnRef → Nat, ∀ t ∈ ts, ∃ m, s.msg t.conn.owner t.conn.from_ = some m ∧ Sends kind s t m ∧
    ∀ r ∈ t.deps, rank r < rank t.conn

/-- A set of messages which wait for each other. -/
def Stuck (ts : List Topo) : Prop :=
  ∃ left : List Topo, left ⊆ ts ∧ left ≠ [] ∧ ∀ t ∈ left, ∃ t' ∈ left, t'.conn ∈ t.deps

theorem Sends.hasDeps {kind : Kind} {s : State F} {t : Topo} {m : Fn F} (ht : TopoAt s t) (h : Sends kind s t m) :
    HasDeps s t := by
  by_contra hd
  obtain ⟨_, _, _, _, h2, _⟩ := h
  rw [depMessages_none (fun r hr => ht.depActive hr) hd] at h2
  cases h2

open Classical in
/-- One round of the propagation. -/
theorem Progress.round {kind : Kind} {s : State F} {nodes : List Var} {ts left : List Topo} {k : Nat}
    {rank : ConnRef → Nat} (hp : Progress kind s nodes ts left k rank) :
    RoundOk s (left.filter (fun t => decide (HasDeps s t))) ∧ ∃ s1 rank',
      (∀ sched : Sched, (∀ l, (sched l).Perm l) →
        messageRound kind sched (left.filter (fun t => decide (HasDeps s t))) s = .ok s1 ()) ∧ Soft s s1 ∧
      (∀ u v, (∀ t ∈ ts, t.conn ≠ ⟨u, v⟩) → s1.msg u v = s.msg u v) ∧
      Progress kind s1 nodes ts (left.filter (fun t => !decide (HasDeps s t))) (k + 1) rank' := by
  have hat : ∀ t ∈ left, TopoAt s t := fun t ht => hp.setting.at_ (hp.sub.subset ht)
  set now := left.filter (fun t => decide (HasDeps s t)) with hnow
  set later := left.filter (fun t => !decide (HasDeps s t)) with hlater
  have hnowmem : ∀ t, t ∈ now ↔ t ∈ left ∧ HasDeps s t := by intro t; rw [hnow]; simp
  have hlatermem : ∀ t, t ∈ later ↔ t ∈ left ∧ ¬ HasDeps s t := by intro t; rw [hlater]; simp
  have hround : RoundOk s now := by
    refine ⟨fun t h => hat t ((hnowmem t).mp h).1, ?_, fun t h => ((hnowmem t).mp h).2, ?_, ?_⟩
    · intro t h
      exact hp.setting.merged _ (hp.setting.topo.sender t (hp.sub.subset ((hnowmem t).mp h).1))
    · have h1 : now.Sublist ts := (List.filter_sublist).trans hp.sub
      exact (h1.map _).nodup hp.setting.connNodup
    · intro t h t' h' hc
      have := ((hnowmem t').mp h').2 _ hc
      rw [hp.todo t ((hnowmem t).mp h).1] at this
      simp at this
  obtain ⟨s1, h1, hsoft, hty1, hsent, hother⟩ := messageRound_ok kind hp.flow hp.typed hround
  have hkeep : ∀ r : ConnRef, (s.msg r.owner r.from_).isSome → s1.msg r.owner r.from_ = s.msg r.owner r.from_ := by
    intro r hr
    refine hother _ _ ?_
    intro t ht hc
    have := hp.todo t ((hnowmem t).mp ht).1
    rw [hc] at this
    simp only at this
    rw [this] at hr
    simp at hr
  set rank' : ConnRef → Nat := fun r => if r ∈ now.map (·.conn) then k else rank r with hrank'
  have hranknow : ∀ t ∈ now, rank' t.conn = k := by
    intro t ht
    rw [hrank']
    simp only
    rw [if_pos (List.mem_map.mpr ⟨t, ht, rfl⟩)]
  have hrankold : ∀ r : ConnRef, (s.msg r.owner r.from_).isSome → rank' r = rank r := by
    intro r hr
    rw [hrank']
    simp only
    rw [if_neg]
    intro hc
    obtain ⟨t, ht, rfl⟩ := List.mem_map.mp hc
    rw [hp.todo t ((hnowmem t).mp ht).1] at hr
    simp at hr
  have hp1 : Progress kind s1 nodes ts later (k + 1) rank' := by
    refine ⟨hp.flow.soft hsoft, hty1, hp.setting.soft hsoft, (List.filter_sublist).trans hp.sub, ?_, ?_⟩
    · intro t ht
      obtain ⟨ht1, ht2⟩ := (hlatermem t).mp ht
      rw [hother]
      · exact hp.todo t ht1
      · intro t' ht' hc
        have : t' = t := hp.setting.conn_inj (hp.sub.subset ((hnowmem t').mp ht').1) (hp.sub.subset ht1) hc
        subst this
        exact ht2 ((hnowmem t').mp ht').2
    · intro t ht hnl
      by_cases htl : t ∈ left
      · have hd : HasDeps s t := by
          by_contra hd
          exact hnl ((hlatermem t).mpr ⟨htl, hd⟩)
        have htn : t ∈ now := (hnowmem t).mpr ⟨htl, hd⟩
        obtain ⟨m, g1, _, g3⟩ := hsent t htn
        refine ⟨by rw [hranknow t htn]; omega, m, g1, g3, ?_⟩
        intro r hr
        rw [hranknow t htn, hrankold r (hd r hr)]
        obtain ⟨t', ht', rfl⟩ := hp.setting.dep hp.flow.core.net ht hr
        refine (hp.done t' ht' ?_).1
        intro hc
        have := hd _ hr
        rw [hp.todo t' hc] at this
        simp at this
      · obtain ⟨g1, m, g2, g3, g4⟩ := hp.done t ht htl
        have hd := g3.hasDeps (hp.setting.at_ ht)
        have hm : (s.msg t.conn.owner t.conn.from_).isSome := by rw [g2]; rfl
        refine ⟨by rw [hrankold _ hm]; omega, m, by rw [hkeep _ hm]; exact g2,
          g3.congr hsoft (fun r hr => hkeep r (hd r hr)), ?_⟩
        intro r hr
        rw [hrankold _ hm, hrankold r (hd r hr)]
        exact g4 r hr
  exact ⟨hround, s1, rank', h1, hsoft,
    fun u v h => hother u v (fun t ht => h t (hp.sub.subset ((hnowmem t).mp ht).1)), hp1⟩

theorem messageRounds_ok (kind : Kind) {nodes : List Var} {ts : List Topo} : ∀ (n : Nat) (left : List Topo),
    left.length ≤ n → ∀ (s : State F) (k : Nat) (rank : ConnRef → Nat), Progress kind s nodes ts left k rank →
    ∃ s' b, (∀ sched : Sched, (∀ l, (sched l).Perm l) → messageRounds kind sched left s = .ok s' b) ∧ Soft s s' ∧
      TypedMsgs s' ∧ (∀ u v, (∀ t ∈ ts, t.conn ≠ ⟨u, v⟩) → s'.msg u v = s.msg u v) ∧
      (b = true → Exact kind s' ts) ∧ (b = false → Stuck ts) := by
  classical
  intro n
  induction n with
  | zero =>
    intro left hl s k rank hp
    have : left = [] := List.length_eq_zero_iff.mp (by omega)
    subst this
    refine ⟨s, true, ?_, Soft.rfl' s, hp.typed, fun _ _ _ => rfl, ?_, by simp⟩
    · intro sched _; rw [messageRounds_eq, if_pos rfl]
    · intro _
      refine ⟨rank, ?_⟩
      intro t ht
      exact (hp.done t ht (by simp)).2
  | succ n ih =>
    intro left hl s k rank hp
    by_cases hnil : left = []
    · subst hnil
      refine ⟨s, true, ?_, Soft.rfl' s, hp.typed, fun _ _ _ => rfl, ?_, by simp⟩
      · intro sched _; rw [messageRounds_eq, if_pos rfl]
      · intro _
        refine ⟨rank, ?_⟩
        intro t ht
        exact (hp.done t ht (by simp)).2
    · have hat : ∀ t ∈ left, TopoAt s t := fun t ht => hp.setting.at_ (hp.sub.subset ht)
      have hsplit := splitReady_eq hat
      set now := left.filter (fun t => decide (HasDeps s t)) with hnow
      set later := left.filter (fun t => !decide (HasDeps s t)) with hlater
      have hnowmem : ∀ t, t ∈ now ↔ t ∈ left ∧ HasDeps s t := by intro t; rw [hnow]; simp
      have hlatermem : ∀ t, t ∈ later ↔ t ∈ left ∧ ¬ HasDeps s t := by intro t; rw [hlater]; simp
      by_cases hne : now = []
      · refine ⟨s, false, ?_, Soft.rfl' s, hp.typed, fun _ _ _ => rfl, by simp, ?_⟩
        · intro sched _
          rw [messageRounds_eq, if_neg hnil, hsplit]
          simp only
          rw [if_pos hne]
        · intro _
          refine ⟨left, hp.sub.subset, hnil, ?_⟩
          intro t ht
          have hnd : ¬ HasDeps s t := by
            intro hd
            have : t ∈ now := (hnowmem t).mpr ⟨ht, hd⟩
            rw [hne] at this
            simp at this
          unfold HasDeps at hnd
          push Not at hnd
          obtain ⟨r, hr, hr'⟩ := hnd
          obtain ⟨t', ht', rfl⟩ := hp.setting.dep hp.flow.core.net (hp.sub.subset ht) hr
          refine ⟨t', ?_, hr⟩
          by_contra hc
          obtain ⟨_, m, hm, _⟩ := hp.done t' ht' hc
          rw [hm] at hr'
          simp at hr'
      · obtain ⟨_, s1, rank', h1, hsoft, hother, hp1⟩ := hp.round
        have hlen : later.length ≤ n := by
          have hll := splitReady_length s left now later hsplit
          have : 0 < now.length := List.length_pos_iff.mpr hne
          omega
        obtain ⟨s2, b, e1, e2, e3, e4, e5, e6⟩ := ih later hlen s1 (k + 1) rank' hp1
        refine ⟨s2, b, ?_, hsoft.trans e2, e3, ?_, e5, e6⟩
        · intro sched hsched
          rw [messageRounds_eq, if_neg hnil, hsplit]
          simp only
          rw [if_neg hne, h1 sched hsched]
          simp only
          exact e1 sched hsched
        · intro u v h
          rw [e4 u v h]
          exact hother u v h

end State
end EFG
