import Verif.Lemmas.Graph
import Verif.Lemmas.Special
/- The net of connections between the variables, and what the evidence operations do to it. -/

set_option linter.unusedSectionVars false

namespace EFG

theorem Distinct.eqv_eq {l : List Var} (h : Distinct l) {a b : Var} (ha : a ∈ l) (hb : b ∈ l)
    (he : a.eqv b = true) : a = b := h.eq_of_eqv ha hb he

namespace State
variable {F : Type} [Arith F]

/-- The factor joining two variables, active or not. -/
def lnk (s : State F) (u v : Var) : Option Nat := ((s.act u v).or (s.dis u v)).map Conn.factor

/-- The connections are well formed. -/
structure Net (s : State F) : Prop where
  keys : AMap.keys s.nodes = s.vars
  distinct : Distinct s.vars
  nodup : NodupKeys s
  excl : ∀ u v, (s.act u v).isSome → s.dis u v = none
  symA : ∀ u v, (s.act u v).isSome → (s.act v u).isSome
  symL : ∀ u v, s.lnk u v = s.lnk v u
  memL : ∀ u v p, s.lnk u v = some p → u ∈ s.vars ∧ v ∈ s.vars ∧ u ≠ v

theorem lnk_of_act {s : State F} {u v : Var} {c : Conn F} (h : s.act u v = some c) :
    s.lnk u v = some c.factor := by simp [lnk, h]

theorem Net.lnk_of_dis {s : State F} (hs : Net s) {u v : Var} {c : Conn F} (h : s.dis u v = some c) :
    s.lnk u v = some c.factor := by
  have : s.act u v = none := by
    by_contra hne
    have := hs.excl u v (Option.isSome_iff_ne_none.mpr hne)
    rw [h] at this; cases this
  simp [lnk, h, this]

theorem Net.act_none_of_dis {s : State F} (hs : Net s) {u v : Var} (h : (s.dis u v).isSome) :
    s.act u v = none := by
  by_contra hne
  have := hs.excl u v (Option.isSome_iff_ne_none.mpr hne)
  rw [this] at h; cases h

theorem lnk_cases {s : State F} {u v : Var} {p : Nat} (h : s.lnk u v = some p) :
    (∃ c, s.act u v = some c ∧ c.factor = p) ∨ (s.act u v = none ∧ ∃ c, s.dis u v = some c ∧ c.factor = p) := by
  unfold lnk at h
  cases ha : s.act u v with
  | some c => left; simp [ha] at h; exact ⟨c, rfl, h⟩
  | none =>
    right
    simp [ha] at h
    exact ⟨rfl, h⟩

theorem Net.symD {s : State F} (hs : Net s) {u v : Var} (h : (s.dis u v).isSome) : (s.dis v u).isSome := by
  obtain ⟨c, hc⟩ := Option.isSome_iff_exists.mp h
  have h1 := hs.lnk_of_dis hc
  rw [hs.symL] at h1
  rcases lnk_cases h1 with ⟨c', h2, _⟩ | ⟨_, c', h2, _⟩
  · have := hs.symA v u (by simp [h2])
    rw [hs.act_none_of_dis h] at this; cases this
  · simp [h2]

theorem Net.act_irrefl {s : State F} (hs : Net s) (u : Var) : s.act u u = none := by
  cases h : s.act u u with
  | none => rfl
  | some c => exact absurd rfl (hs.memL u u _ (lnk_of_act h)).2.2

theorem Net.quiet {s s' : State F} (hs : Net s) (hq : Quiet s s') : Net s' := by
  have hl : ∀ u v, s'.lnk u v = s.lnk u v := by
    intro u v
    have h1 := hq.act u v
    unfold lnk
    rw [hq.dis u v]
    cases ha : s.act u v <;> cases hb : s'.act u v <;> simp_all
  have ha : ∀ u v, (s'.act u v).isSome = (s.act u v).isSome := by
    intro u v
    have h1 := congrArg Option.isSome (hq.act u v)
    simpa using h1
  refine ⟨?_, ?_, hs.nodup.quiet hq, ?_, ?_, ?_, ?_⟩
  · rw [hq.keys, hq.vars]; exact hs.keys
  · rw [hq.vars]; exact hs.distinct
  · intro u v; rw [ha, hq.dis]; exact hs.excl u v
  · intro u v; rw [ha, ha]; exact hs.symA u v
  · intro u v; rw [hl, hl]; exact hs.symL u v
  · intro u v p; rw [hl, hq.vars]; exact hs.memL u v p

theorem Quiet.lnk {s s' : State F} (hq : Quiet s s') (u v : Var) : s'.lnk u v = s.lnk u v := by
  have h1 := hq.act u v
  unfold State.lnk
  rw [hq.dis u v]
  cases ha : s.act u v <;> cases hb : s'.act u v <;> simp_all

/-- The two orders of a pair. -/
def Pair (a b u v : Var) : Prop := (u = a ∧ v = b) ∨ (u = b ∧ v = a)

instance (a b u v : Var) : Decidable (Pair a b u v) := by unfold Pair; infer_instance

theorem Pair.swap {a b u v : Var} : Pair a b u v ↔ Pair a b v u := by unfold Pair; tauto

theorem Net.of_eqs {s s' : State F} (hs : Net s) {a b : Var} {p : Nat} (ha : a ∈ s.vars) (hb : b ∈ s.vars)
    (hab : a ≠ b) (hv : s'.vars = s.vars) (hk : AMap.keys s'.nodes = AMap.keys s.nodes)
    (hn : NodupKeys s') {x y : Option (Conn F)} (hx : x = none ∨ y = none)
    (hxy : (x.or y).map Conn.factor = some p)
    (hact : ∀ u v, s'.act u v = if Pair a b u v then x else s.act u v)
    (hdis : ∀ u v, s'.dis u v = if Pair a b u v then y else s.dis u v) :
    Net s' ∧ ∀ u v, s'.lnk u v = if Pair a b u v then some p else s.lnk u v := by
  have hl : ∀ u v, s'.lnk u v = if Pair a b u v then some p else s.lnk u v := by
    intro u v
    unfold lnk
    rw [hact, hdis]
    split
    · exact hxy
    · rfl
  refine ⟨⟨?_, ?_, hn, ?_, ?_, ?_, ?_⟩, hl⟩
  · rw [hk, hv]; exact hs.keys
  · rw [hv]; exact hs.distinct
  · intro u v h
    rw [hact] at h
    rw [hdis]
    split
    · rename_i hp
      rw [if_pos hp] at h
      rcases hx with rfl | rfl
      · cases h
      · rfl
    · rename_i hp
      rw [if_neg hp] at h
      exact hs.excl u v h
  · intro u v h
    rw [hact] at h ⊢
    by_cases hp : Pair a b u v
    · rw [if_pos hp] at h
      rw [if_pos (Pair.swap.mp hp)]; exact h
    · rw [if_neg hp] at h
      rw [if_neg (fun h' => hp (Pair.swap.mp h'))]; exact hs.symA u v h
  · intro u v
    rw [hl, hl]
    by_cases hp : Pair a b u v
    · rw [if_pos hp, if_pos (Pair.swap.mp hp)]
    · rw [if_neg hp, if_neg (fun h' => hp (Pair.swap.mp h'))]; exact hs.symL u v
  · intro u v q h
    rw [hl] at h
    rw [hv]
    by_cases hp : Pair a b u v
    · rcases hp with ⟨rfl, rfl⟩ | ⟨rfl, rfl⟩
      · exact ⟨ha, hb, hab⟩
      · exact ⟨hb, ha, hab.symm⟩
    · rw [if_neg hp] at h; exact hs.memL u v q h

theorem Net.act_activate {s : State F} (hs : Net s) {a b : Var} (ha : a ∈ s.vars) (hb : b ∈ s.vars)
    (hab : a ≠ b) (p : Nat) (u v : Var) :
    (activate a b p s).act u v = if Pair a b u v then some { factor := p, message := none } else s.act u v :=
  State.act_activate (hs.keys ▸ ha) (hs.keys ▸ hb) hab p u v

theorem Net.dis_activate {s : State F} (hs : Net s) {a b : Var} (ha : a ∈ s.vars) (hb : b ∈ s.vars)
    (hab : a ≠ b) (p : Nat) (u v : Var) :
    (activate a b p s).dis u v = if Pair a b u v then none else s.dis u v :=
  State.dis_activate (hs.keys ▸ ha) (hs.keys ▸ hb) hab p u v

theorem Net.act_disableWith {s : State F} (hs : Net s) {a b : Var} (ha : a ∈ s.vars) (hb : b ∈ s.vars)
    (hab : a ≠ b) (p : Nat) (u v : Var) :
    (disableWith a b p s).act u v = if Pair a b u v then none else s.act u v :=
  State.act_disableWith (hs.keys ▸ ha) (hs.keys ▸ hb) hab p u v

theorem Net.dis_disableWith {s : State F} (hs : Net s) {a b : Var} (ha : a ∈ s.vars) (hb : b ∈ s.vars)
    (hab : a ≠ b) (p : Nat) (u v : Var) :
    (disableWith a b p s).dis u v =
      if Pair a b u v then some { factor := p, message := none } else s.dis u v :=
  State.dis_disableWith (hs.keys ▸ ha) (hs.keys ▸ hb) hab p u v

theorem Net.activate {s : State F} (hs : Net s) {a b : Var} (ha : a ∈ s.vars) (hb : b ∈ s.vars)
    (hab : a ≠ b) (p : Nat) : Net (activate a b p s) ∧
      ∀ u v, (State.activate a b p s).lnk u v = if Pair a b u v then some p else s.lnk u v :=
  hs.of_eqs ha hb hab (Frame.activate s a b p).vars (Frame.activate s a b p).keys
    (hs.nodup.activate a b p) (Or.inr rfl) rfl (hs.act_activate ha hb hab p) (hs.dis_activate ha hb hab p)

theorem Net.disableWith {s : State F} (hs : Net s) {a b : Var} (ha : a ∈ s.vars) (hb : b ∈ s.vars)
    (hab : a ≠ b) (p : Nat) : Net (disableWith a b p s) ∧
      ∀ u v, (State.disableWith a b p s).lnk u v = if Pair a b u v then some p else s.lnk u v :=
  hs.of_eqs ha hb hab (Frame.disableWith s a b p).vars (Frame.disableWith s a b p).keys
    (hs.nodup.disableWith a b p) (Or.inl rfl) rfl (hs.act_disableWith ha hb hab p)
    (hs.dis_disableWith ha hb hab p)

/-- What changes neither the clusters, the evidences, the cached unaries nor the propagation. -/
structure Same (s s' : State F) : Prop where
  clusters : s'.clusters = s.clusters
  evidences : s'.evidences = s.evidences
  last : s'.last = s.last
  pool : s'.pool = s.pool

theorem Same.rfl' (s : State F) : Same s s := ⟨rfl, rfl, rfl, rfl⟩

theorem Same.trans {s s' s'' : State F} (h : Same s s') (h' : Same s' s'') : Same s s'' :=
  ⟨h'.clusters.trans h.clusters, h'.evidences.trans h.evidences, h'.last.trans h.last,
    h'.pool.trans h.pool⟩

/-! ### Observing -/

/-- The pairs made of `v` and of one of the variables of `l`. -/
def Star (v : Var) (l : List Var) (u w : Var) : Prop := (u = v ∧ w ∈ l) ∨ (w = v ∧ u ∈ l)

instance (v : Var) (l : List Var) (u w : Var) : Decidable (Star v l u w) := by
  unfold Star; infer_instance

theorem star_cons {v x : Var} {l : List Var} {u w : Var} :
    Star v (x :: l) u w ↔ Pair v x u w ∨ Star v l u w := by
  unfold Star Pair; simp only [List.mem_cons]; tauto

theorem forEach_disable {v : Var} : ∀ {l : List Var} {s : State F}, Net s → l.Nodup →
    (∀ w ∈ l, (s.act v w).isSome) →
    ∃ s', forEach (disable v) l s = .ok s' () ∧ Net s' ∧ Frame s s' ∧ Same s s' ∧
      (∀ u, s'.mrg u = s.mrg u) ∧ (∀ u w, s'.lnk u w = s.lnk u w) ∧
      (∀ u w, s'.act u w = if Star v l u w then none else s.act u w) ∧
      (∀ u w, s'.dis u w = if Star v l u w then
        (s.act u w).map (fun c => { factor := c.factor, message := none }) else s.dis u w) := by
  intro l
  induction l with
  | nil =>
    intro s hs _ _
    exact ⟨s, rfl, hs, Frame.rfl' s, Same.rfl' s, fun _ => rfl, fun _ _ => rfl,
      fun u w => by simp [Star], fun u w => by simp [Star]⟩
  | cons x l ih =>
    intro s hs hnd hl
    obtain ⟨c, hc⟩ := Option.isSome_iff_exists.mp (hl x (by simp))
    have hm := hs.memL v x _ (lnk_of_act hc)
    obtain ⟨hn1, hl1⟩ := hs.disableWith hm.1 hm.2.1 hm.2.2 c.factor
    have hlx : s.lnk v x = some c.factor := lnk_of_act hc
    have hlx' : s.lnk x v = some c.factor := by rw [hs.symL]; exact hlx
    have ha1 := hs.act_disableWith hm.1 hm.2.1 hm.2.2 c.factor
    have hd1 := hs.dis_disableWith hm.1 hm.2.1 hm.2.2 c.factor
    rw [List.nodup_cons] at hnd
    have hne : ∀ w ∈ l, ¬ Pair v x v w := by
      intro w hw hp
      rcases hp with ⟨_, rfl⟩ | ⟨h', _⟩
      · exact hnd.1 hw
      · exact hm.2.2 h'
    have hl' : ∀ w ∈ l, ((State.disableWith v x c.factor s).act v w).isSome := by
      intro w hw
      rw [ha1, if_neg (hne w hw)]
      exact hl w (by simp [hw])
    obtain ⟨s', h1, h2, h3, h4, h5, h6, h7, h8⟩ := ih hn1 hnd.2 hl'
    have hstep : disable v x s = .ok (State.disableWith v x c.factor s) () := by
      unfold disable
      have : AMap.find? (s.activeOf v) x = some c := hc
      rw [this]
    have hdisj : ∀ u w, Pair v x u w → ¬ Star v l u w := by
      rintro u w (⟨rfl, rfl⟩ | ⟨rfl, rfl⟩) (⟨h1, h2⟩ | ⟨h1, h2⟩)
      · exact hnd.1 h2
      · exact hm.2.2 h1.symm
      · exact hm.2.2 h1.symm
      · exact hnd.1 h2
    refine ⟨s', ?_, h2, (Frame.disableWith s v x c.factor).trans h3,
      (show Same s (State.disableWith v x c.factor s) from ⟨rfl, rfl, rfl, rfl⟩).trans h4,
      ?_, ?_, ?_, ?_⟩
    · rw [forEach_cons, hstep]; exact h1
    · intro u; rw [h5, mrg_disableWith]
    · intro u w
      rw [h6, hl1]
      split
      · rename_i hp
        rcases hp with ⟨rfl, rfl⟩ | ⟨rfl, rfl⟩
        · exact hlx.symm
        · exact hlx'.symm
      · rfl
    · intro u w
      rw [h7, ha1]
      by_cases hp : Pair v x u w
      · rw [if_neg (hdisj u w hp), if_pos hp, if_pos (star_cons.mpr (Or.inl hp))]
      · rw [if_neg hp]
        by_cases hst : Star v l u w
        · rw [if_pos hst, if_pos (star_cons.mpr (Or.inr hst))]
        · rw [if_neg hst, if_neg (fun h' => (star_cons.mp h').elim hp hst)]
    · intro u w
      rw [h8, ha1, hd1]
      by_cases hp : Pair v x u w
      · rw [if_neg (hdisj u w hp), if_pos hp, if_pos (star_cons.mpr (Or.inl hp))]
        have hl2 : s.lnk u w = some c.factor := by
          rcases hp with ⟨rfl, rfl⟩ | ⟨rfl, rfl⟩
          · exact hlx
          · exact hlx'
        have hsome : (s.act u w).isSome := by
          rcases hp with ⟨rfl, rfl⟩ | ⟨rfl, rfl⟩
          · simp [hc]
          · exact hs.symA _ _ (by simp [hc])
        obtain ⟨c', hc'⟩ := Option.isSome_iff_exists.mp hsome
        have := lnk_of_act hc'
        rw [hl2] at this
        injection this with this
        simp [hc', this]
      · rw [if_neg hp, if_neg hp]
        by_cases hst : Star v l u w
        · rw [if_pos hst, if_pos (star_cons.mpr (Or.inr hst))]
        · rw [if_neg hst, if_neg (fun h' => (star_cons.mp h').elim hp hst)]

/-! ### The messages of the observed variables -/

/-- The unary factors and the messages have the type they should have. -/
def ConnTyped (s : State F) : Prop :=
  ∀ u v p, s.lnk u v = some p → ∃ f, s.heap[p]? = some f ∧ f.Binary u v

theorem deref_eq {s : State F} {p : Nat} {f : Fn F} (h : s.heap[p]? = some f) : s.deref p = .ok f := by
  unfold deref Heap.get
  rw [h]; rfl

theorem deref_ok {s : State F} {p : Nat} {f : Fn F} (h : s.deref p = .ok f) : s.heap[p]? = some f := by
  unfold deref Heap.get at h
  cases hp : s.heap[p]? with
  | none => rw [hp] at h; cases h
  | some g => rw [hp] at h; cases h; rfl

theorem Net.setDisabledMessage {s : State F} (hs : Net s) (a b : Var) (m : Option (Fn F)) :
    Net (setDisabledMessage a b m s) ∧ ∀ u v, (State.setDisabledMessage a b m s).lnk u v = s.lnk u v := by
  have hl : ∀ u v, (State.setDisabledMessage a b m s).lnk u v = s.lnk u v := by
    intro u v
    unfold lnk
    rw [act_setDisabledMessage, dis_setDisabledMessage]
    split
    · cases s.act u v <;> cases s.dis u v <;> simp
    · rfl
  have hf := Frame.setDisabledMessage s a b m
  refine ⟨⟨?_, ?_, hs.nodup.setDisabledMessage a b m, ?_, ?_, ?_, ?_⟩, hl⟩
  · rw [hf.keys, hf.vars]; exact hs.keys
  · rw [hf.vars]; exact hs.distinct
  · intro u v h
    rw [act_setDisabledMessage] at h
    rw [dis_setDisabledMessage, hs.excl u v h]
    simp
  · intro u v; rw [act_setDisabledMessage, act_setDisabledMessage]; exact hs.symA u v
  · intro u v; rw [hl, hl]; exact hs.symL u v
  · intro u v p; rw [hl, hf.vars]; exact hs.memL u v p

theorem Net.clearMerged {s : State F} (hs : Net s) (v : Var) :
    Net (clearMerged v s) := hs.quiet (clearMerged_quiet s v)

/-- The message sent by an observed variable. -/
def IsEvid (s : State F) (p : Nat) (v : Var) (k : Nat) (m : Fn F) : Prop :=
  ∃ f, s.heap[p]? = some f ∧ f.evidence v k = .ok m

theorem forEach_condition {v : Var} {k : Nat} (hk : k < v.size) : ∀ {l : List Var} {s : State F}, Net s →
    ConnTyped s → l.Nodup → (∀ w ∈ l, (s.dis w v).isSome) →
    ∃ s', forEach (conditionStep v k) l s = .ok s' () ∧ Net s' ∧ Frame s s' ∧ Same s s' ∧
      (∀ u, s'.mrg u = if u ∈ l then none else s.mrg u) ∧ (∀ u w, s'.lnk u w = s.lnk u w) ∧
      (∀ u w, s'.act u w = s.act u w) ∧
      (∀ u w, ¬ (u ∈ l ∧ w = v) → s'.dis u w = s.dis u w) ∧
      (∀ u ∈ l, ∃ c m, s'.dis u v = some c ∧ s.lnk u v = some c.factor ∧ c.message = some m ∧ m.Unary u ∧
        IsEvid s c.factor v k m) := by
  intro l
  induction l with
  | nil =>
    intro s hs _ _ _
    exact ⟨s, rfl, hs, Frame.rfl' s, Same.rfl' s, fun _ => by simp, fun _ _ => rfl, fun _ _ => rfl,
      fun _ _ _ => rfl, fun u hu => by simp at hu⟩
  | cons x l ih =>
    intro s hs ht hnd hl
    obtain ⟨c, hc⟩ := Option.isSome_iff_exists.mp (hl x (by simp))
    have hlx := hs.lnk_of_dis hc
    obtain ⟨f, hf, hb⟩ := ht x v _ hlx
    obtain ⟨m, hm1, hm2, _, _⟩ := hb.evidence hk
    rw [List.nodup_cons] at hnd
    obtain ⟨hn1, hl1⟩ := hs.setDisabledMessage x v (some m)
    set s1 := State.clearMerged x (State.setDisabledMessage x v (some m) s) with hs1
    have hn2 : Net s1 := hn1.clearMerged x
    have hq := clearMerged_quiet (State.setDisabledMessage x v (some m) s) x
    have hl2 : ∀ u w, s1.lnk u w = s.lnk u w := fun u w => by rw [hs1, hq.lnk, hl1]
    have hact : ∀ u w, s1.act u w = s.act u w := fun u w => by
      rw [hs1, act_clearMerged, act_setDisabledMessage]
    have hdis : ∀ u w, s1.dis u w =
        if u = x ∧ w = v then (s.dis u w).map (fun c => { c with message := some m }) else s.dis u w :=
      fun u w => by rw [hs1, dis_clearMerged, dis_setDisabledMessage]
    have hfr : Frame s s1 := (Frame.setDisabledMessage s x v (some m)).trans hq.toFrame
    have ht1 : ConnTyped s1 := by
      intro u w p h; rw [hl2] at h; rw [hfr.heap]; exact ht u w p h
    have hl' : ∀ w ∈ l, (s1.dis w v).isSome := by
      intro w hw
      rw [hdis]
      split
      · simpa using hl w (by simp [hw])
      · exact hl w (by simp [hw])
    obtain ⟨s', h1, h2, h3, h4, h5, h6, h7, h8, h9⟩ := ih hn2 ht1 hnd.2 hl'
    have hstep : conditionStep v k x s = .ok s1 () := by
      unfold conditionStep
      have : AMap.find? (s.disabledOf x) v = some c := hc
      rw [this]
      simp only [deref_eq hf, hm1]
      rfl
    have hsm : Same s s1 := ⟨rfl, rfl, rfl, rfl⟩
    refine ⟨s', ?_, h2, hfr.trans h3, hsm.trans h4, ?_, ?_, ?_, ?_, ?_⟩
    · rw [forEach_cons, hstep]; exact h1
    · intro u
      rw [h5, hs1, mrg_clearMerged, mrg_setDisabledMessage]
      by_cases hu : u ∈ l
      · simp [hu]
      · by_cases hux : x = u
        · simp [hux]
        · simp [hu, hux, Ne.symm hux]
    · intro u w; rw [h6, hl2]
    · intro u w; rw [h7, hact]
    · intro u w hne
      rw [h8 u w (fun h => hne ⟨by simp [h.1], h.2⟩), hdis, if_neg]
      rintro ⟨rfl, rfl⟩
      exact hne ⟨by simp, rfl⟩
    · intro u hu
      rcases List.mem_cons.mp hu with rfl | hu
      · refine ⟨{ c with message := some m }, m, ?_, ?_, rfl, hm2, f, hf, hm1⟩
        · rw [h8 u v (fun h => hnd.1 h.1), hdis, if_pos ⟨rfl, rfl⟩, hc]; rfl
        · exact hlx
      · obtain ⟨c', m', e1, e2, e3, e4, e5⟩ := h9 u hu
        refine ⟨c', m', e1, ?_, e3, e4, ?_⟩
        · rw [hl2] at e2; exact e2
        · obtain ⟨g, hg1, hg2⟩ := e5
          exact ⟨g, by rw [← hfr.heap]; exact hg1, hg2⟩

/-! ### Forgetting an observation -/

theorem forEach_reactivate {v : Var} : ∀ {l : List Var} {s : State F}, Net s → l.Nodup →
    (∀ w ∈ l, (s.dis v w).isSome) →
    ∃ s', forEach (reactivateStep v) l s = .ok s' () ∧ Net s' ∧ Frame s s' ∧ Same s s' ∧
      (∀ u, s'.mrg u = if u ∈ l then none else s.mrg u) ∧ (∀ u w, s'.lnk u w = s.lnk u w) ∧
      (∀ u w, s'.act u w = if Star v l u w then
        (s.dis u w).map (fun c => { factor := c.factor, message := none }) else s.act u w) ∧
      (∀ u w, s'.dis u w = if Star v l u w then none else s.dis u w) := by
  intro l
  induction l with
  | nil =>
    intro s hs _ _
    exact ⟨s, rfl, hs, Frame.rfl' s, Same.rfl' s, fun _ => by simp, fun _ _ => rfl,
      fun u w => by simp [Star], fun u w => by simp [Star]⟩
  | cons x l ih =>
    intro s0 hs0 hnd hl
    obtain ⟨c, hc⟩ := Option.isSome_iff_exists.mp (hl x (by simp))
    have hlx : s0.lnk v x = some c.factor := hs0.lnk_of_dis hc
    have hlx' : s0.lnk x v = some c.factor := by rw [hs0.symL]; exact hlx
    set s := State.clearMerged x s0 with hs_def
    have hs : Net s := hs0.clearMerged x
    have hq := clearMerged_quiet s0 x
    have hm := hs0.memL v x _ hlx
    have hm' : v ∈ s.vars ∧ x ∈ s.vars ∧ v ≠ x := by rw [hs_def, hq.vars]; exact hm
    obtain ⟨hn1, hl1⟩ := hs.activate hm'.1 hm'.2.1 hm'.2.2 c.factor
    have ha1 := hs.act_activate hm'.1 hm'.2.1 hm'.2.2 c.factor
    have hd1 := hs.dis_activate hm'.1 hm'.2.1 hm'.2.2 c.factor
    have hsa : ∀ u w, s.act u w = s0.act u w := act_clearMerged s0 x
    have hsd : ∀ u w, s.dis u w = s0.dis u w := dis_clearMerged s0 x
    rw [List.nodup_cons] at hnd
    have hne : ∀ w ∈ l, ¬ Pair v x v w := by
      intro w hw hp
      rcases hp with ⟨_, rfl⟩ | ⟨h', _⟩
      · exact hnd.1 hw
      · exact hm.2.2 h'
    have hl' : ∀ w ∈ l, ((State.activate v x c.factor s).dis v w).isSome := by
      intro w hw
      rw [hd1, if_neg (hne w hw), hsd]
      exact hl w (by simp [hw])
    obtain ⟨s', h1, h2, h3, h4, h5, h6, h7, h8⟩ := ih hn1 hnd.2 hl'
    have hstep : reactivateStep v x s0 = .ok (State.activate v x c.factor s) () := by
      unfold reactivateStep
      have : AMap.find? (s0.disabledOf v) x = some c := hc
      rw [this]
    have hdisj : ∀ u w, Pair v x u w → ¬ Star v l u w := by
      rintro u w (⟨rfl, rfl⟩ | ⟨rfl, rfl⟩) (⟨h1, h2⟩ | ⟨h1, h2⟩)
      · exact hnd.1 h2
      · exact hm.2.2 h1.symm
      · exact hm.2.2 h1.symm
      · exact hnd.1 h2
    refine ⟨s', ?_, h2, (hq.toFrame.trans (Frame.activate s v x c.factor)).trans h3,
      (show Same s0 (State.activate v x c.factor s) from ⟨rfl, rfl, rfl, rfl⟩).trans h4, ?_, ?_, ?_, ?_⟩
    · rw [forEach_cons, hstep]; exact h1
    · intro u
      rw [h5, mrg_activate, hs_def, mrg_clearMerged]
      by_cases hu : u ∈ l
      · simp [hu]
      · by_cases hux : x = u
        · simp [hux]
        · simp [hu, hux, Ne.symm hux]
    · intro u w
      rw [h6, hl1, hq.lnk]
      split
      · rename_i hp
        rcases hp with ⟨rfl, rfl⟩ | ⟨rfl, rfl⟩
        · exact hlx.symm
        · exact hlx'.symm
      · rfl
    · intro u w
      rw [h7, ha1, hd1, hsa, hsd]
      by_cases hp : Pair v x u w
      · rw [if_neg (hdisj u w hp), if_pos hp, if_pos (star_cons.mpr (Or.inl hp))]
        have hl2 : s0.lnk u w = some c.factor := by
          rcases hp with ⟨rfl, rfl⟩ | ⟨rfl, rfl⟩
          · exact hlx
          · exact hlx'
        have hsome : (s0.dis u w).isSome := by
          rcases hp with ⟨rfl, rfl⟩ | ⟨rfl, rfl⟩
          · simp [hc]
          · exact hs0.symD (by simp [hc])
        obtain ⟨c', hc'⟩ := Option.isSome_iff_exists.mp hsome
        have := hs0.lnk_of_dis hc'
        rw [hl2] at this
        injection this with this
        simp [hc', this]
      · rw [if_neg hp, if_neg hp]
        by_cases hst : Star v l u w
        · rw [if_pos hst, if_pos (star_cons.mpr (Or.inr hst))]
        · rw [if_neg hst, if_neg (fun h' => (star_cons.mp h').elim hp hst)]
    · intro u w
      rw [h8, hd1, hsd]
      by_cases hp : Pair v x u w
      · rw [if_neg (hdisj u w hp), if_pos hp, if_pos (star_cons.mpr (Or.inl hp))]
      · rw [if_neg hp]
        by_cases hst : Star v l u w
        · rw [if_pos hst, if_pos (star_cons.mpr (Or.inr hst))]
        · rw [if_neg hst, if_neg (fun h' => (star_cons.mp h').elim hp hst)]

end State
end EFG
