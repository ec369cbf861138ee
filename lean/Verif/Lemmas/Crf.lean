import Verif.Lemmas.AbsorbAll
/- Conditional random fields. -/

set_option linter.unusedSectionVars false

namespace EFG

theorem Res.mapList_cases {α β : Type} {f : α → Res β} {P : α → β → Prop} {Q : α → Prop} : ∀ (l : List α),
    (∀ x ∈ l, (∃ y, f x = .ok y ∧ P x y) ∨ (f x = .throw ∧ Q x)) →
    (∃ ys, Res.mapList f l = .ok ys ∧ List.Forall₂ P l ys) ∨ (Res.mapList f l = .throw ∧ ∃ x ∈ l, Q x) := by
  intro l
  induction l with
  | nil => intro _; exact Or.inl ⟨[], rfl, .nil⟩
  | cons x l ih =>
    intro h
    rw [Res.mapList_cons]
    rcases h x (by simp) with ⟨y, h1, h2⟩ | ⟨h1, h2⟩
    · rw [h1]
      simp only
      rcases ih (fun x hx => h x (by simp [hx])) with ⟨ys, h3, h4⟩ | ⟨h3, x', hx', h4⟩
      · rw [h3]; exact Or.inl ⟨y :: ys, rfl, .cons h2 h4⟩
      · rw [h3]; exact Or.inr ⟨rfl, x', by simp [hx'], h4⟩
    · rw [h1]
      exact Or.inr ⟨rfl, x, by simp, h2⟩

namespace State
variable {F : Type} [Arith F]

/-! ### Evidences by name -/

theorem findVariable_named {s : State F} (hn : s.Named) {v : Var} (hv : v ∈ s.vars) : s.findVariable v.name = .ok v := by
  rcases findVariable_cases s v.name with ⟨w, h⟩ | h
  · obtain ⟨h1, h2⟩ := findVariable_mem h
    rw [h, hn w h1 v hv h2]
  · unfold findVariable at h
    cases hf : s.vars.find? (fun w => w.name == v.name) with
    | none =>
      have := List.find?_eq_none.mp hf v hv
      simp at this
    | some w => rw [hf] at h; cases h

theorem absorbEvidencesByName_eq {ord : List Var → List Var} (hord : ∀ l, (ord l).Perm l) (evs : List (Var × Nat)) :
    ∀ {t : State F}, Reach anyOp t → t.Named → (AMap.keys evs).Nodup →
      (∀ e ∈ evs, e.1 ∈ t.vars ∧ e.1 ∉ t.obs ∧ e.2 < e.1.size) →
      absorbEvidencesByName ord evs t = absorbEvidences ord evs t := by
  induction evs with
  | nil => intro t _ _ _ _; rfl
  | cons e evs ih =>
    intro t h hn hnd hev
    obtain ⟨h1, h2, h3⟩ := hev e (by simp)
    obtain ⟨t1, g1, g2⟩ := setEvidence_hidden hord (reach_inv h) h1 h2 h3
    have hi : Reach anyOp t1 := .ok (op := .setEvidence ord e.1 e.2) h ⟨hord, trivial⟩ trivial g1
    have hf := g2.frame
    have hnd' : e.1 ∉ AMap.keys evs ∧ (AMap.keys evs).Nodup := by
      have : AMap.keys (e :: evs) = e.1 :: AMap.keys evs := rfl
      rw [this] at hnd
      exact List.nodup_cons.mp hnd
    have := ih hi (by unfold Named; rw [hf.vars]; exact hn) hnd'.2 (by
      intro e' he'
      obtain ⟨a1, a2, a3⟩ := hev e' (List.mem_cons_of_mem _ he')
      refine ⟨by rw [hf.vars]; exact a1, ?_, a3⟩
      show e'.1 ∉ AMap.keys t1.evidences
      rw [g2.evidences, obs_append]
      intro hm
      rcases List.mem_append.mp hm with hm | hm
      · exact a2 hm
      · simp at hm
        exact hnd'.1 (hm ▸ List.mem_map_of_mem he'))
    unfold absorbEvidencesByName absorbEvidences at this ⊢
    rw [forEach_cons, forEach_cons, g1]
    have hx : setEvidenceByName ord e.1.name e.2 t = .ok t1 () := by
      unfold setEvidenceByName
      rw [findVariable_named hn h1]
      exact g1
    rw [hx]
    exact this

/-! ### Replacing the tuners -/

theorem conditionedTuner_ok {s : State F} (hs : Inv s) {b : BaseTuner} {f : Fn F} (hf : s.heap[b.factor]? = some f)
    (hm : ∀ v ∈ f.vars.group, v ∈ s.vars) {u v : Var} (hu : u ∈ s.vars) :
    s.conditionedTuner b f u v =
      .ok ⟨b.factor, f.vars.group.map (fun v => s.vars.idxOf v), .hiddenObserved u v⟩ := by
  have hwf := hs.heapWF f (List.mem_of_getElem? hf)
  have hi := Fn.getIndices_ok hwf.group.distinct.nodup (fun v hv => hm v hv : f.vars.group ⊆ s.vars)
  unfold conditionedTuner
  rw [hs.net.nodeKey?_mem hu]
  simp only
  rw [hi]

theorem replaceIfNeeded_cases {s : State F} (hs : Inv s) (ht : Tuned s) {t : List BaseTuner} (htm : t ∈ s.tuners)
    {b : BaseTuner} (hb : b ∈ t) :
    (∃ b', s.replaceIfNeeded b = .ok b' ∧ (b'.factor = b.factor ∧ s.TunerFits b' ∧ ¬ s.Pinned b.factor)) ∨
    (s.replaceIfNeeded b = .throw ∧ s.Pinned b.factor) := by
  obtain ⟨hreg, f, hf, hm, hi, hk⟩ := ht.of t htm b hb
  have hfac := ht.reg _ hreg
  have hd : s.deref b.factor = .ok f := deref_eq hf
  have hpin : s.Pinned b.factor ↔ ∀ v ∈ f.vars.group, v ∈ s.obs := by
    constructor
    · rintro ⟨l, ⟨_, f', h1, h2⟩, h3⟩ v hv
      rw [hf] at h1; cases h1
      exact observes_iff.mp (h3 v (h2 ▸ hv))
    · intro h
      exact ⟨_, ⟨hfac, f, hf, rfl⟩, fun v hv => observes_iff.mpr (h v hv)⟩
  have hhid : ∀ v ∈ f.vars.group, v ∉ s.obs → s.Hidden v := fun v hv ho =>
    ⟨hm v hv, fun h => ho (observes_iff.mp h)⟩
  unfold replaceIfNeeded
  rw [hd]
  simp only
  rcases hk with ⟨v, hg, hk⟩ | ⟨u, v, hg, hk⟩
  · rw [hg] at hpin hhid hm hi
    simp only [hg]
    rw [hs.toCore.evidenceKey? (hm v (by simp))]
    by_cases ho : v ∈ s.obs
    · right
      rw [if_pos ho]
      exact ⟨rfl, hpin.mpr (by simpa using ho)⟩
    · left
      rw [if_neg ho]
      refine ⟨b, rfl, rfl, ⟨f, hf, by rw [hg]; exact hi, Or.inl ⟨v, hg, hhid v (by simp) ho, hk⟩⟩, ?_⟩
      rw [hpin]
      intro h
      exact ho (h v (by simp))
  · have hct := fun (u v : Var) (hu : u ∈ s.vars) => conditionedTuner_ok hs hf hm (u := u) (v := v) hu
    rw [hg] at hpin hhid hm hi
    have hmu := hm u (by simp)
    have hmv := hm v (by simp)
    simp only [hg]
    rw [hs.toCore.evidenceKey? hmu, hs.toCore.evidenceKey? hmv]
    by_cases hu : u ∈ s.obs
    · by_cases hv : v ∈ s.obs
      · right
        rw [if_pos hu, if_pos hv]
        exact ⟨rfl, hpin.mpr (by simp [hu, hv])⟩
      · left
        rw [if_pos hu, if_neg hv]
        simp only
        rw [hct v u hmv]
        refine ⟨_, rfl, rfl, ⟨f, hf, rfl, Or.inr (Or.inr ⟨v, u, Or.inr hg, hhid v (by simp) hv,
          observes_iff.mpr hu, rfl⟩)⟩, ?_⟩
        rw [hpin]
        intro h
        exact hv (h v (by simp))
    · have hnp : ¬ s.Pinned b.factor := by
        rw [hpin]
        intro h
        exact hu (h u (by simp))
      left
      by_cases hv : v ∈ s.obs
      · rw [if_neg hu, if_pos hv]
        simp only
        rw [hct u v hmu]
        exact ⟨_, rfl, rfl, ⟨f, hf, rfl, Or.inr (Or.inr ⟨u, v, Or.inl hg, hhid u (by simp) hu,
          observes_iff.mpr hv, rfl⟩)⟩, hnp⟩
      · rw [if_neg hu, if_neg hv]
        exact ⟨b, rfl, rfl, ⟨f, hf, by rw [hg]; exact hi, Or.inr (Or.inl ⟨u, v, hg, hhid u (by simp) hu, hhid v (by simp) hv, hk⟩)⟩, hnp⟩

/-- What the loop on the tuners does. -/
theorem replaceTuners_cases {s : State F} (hs : Inv s) (ht : Tuned s) :
    (∃ ts, replaceTuners s = .ok { s with tuners := ts } () ∧
      ts.map (fun t => t.map BaseTuner.factor) = s.tunableClusters ∧ (∀ t ∈ ts, ∀ b ∈ t, s.TunerFits b) ∧
      ∀ c ∈ s.tunableClusters, ∀ p ∈ c, ¬ s.Pinned p) ∨
    (replaceTuners s = .throw s ∧ ∃ c ∈ s.tunableClusters, ∃ p ∈ c, s.Pinned p) := by
  have h := Res.mapList_cases (f := Res.mapList s.replaceIfNeeded)
    (P := fun t t' => List.Forall₂ (fun b b' : BaseTuner => b'.factor = b.factor ∧ s.TunerFits b' ∧ ¬ s.Pinned b.factor) t t')
    (Q := fun t => ∃ b ∈ t, s.Pinned b.factor) s.tuners
    (fun t htm => Res.mapList_cases t (fun b hb => replaceIfNeeded_cases hs ht htm hb))
  unfold replaceTuners
  rcases h with ⟨ts, h1, h2⟩ | ⟨h1, t, h2, b, h3, h4⟩
  · left
    rw [h1]
    refine ⟨ts, rfl, ?_, ?_, ?_⟩
    · unfold tunableClusters
      generalize s.tuners = T at h2 ⊢
      clear h1
      induction h2 with
      | nil => rfl
      | cons h _ ih =>
        rw [List.map_cons, List.map_cons, ih]
        congr 1
        clear ih
        induction h with
        | nil => rfl
        | cons h _ ih => rw [List.map_cons, List.map_cons, ih, h.1]
    · intro t htm b hb
      obtain ⟨i, hi⟩ := List.mem_iff_getElem.mp htm
      obtain ⟨hi, rfl⟩ := hi
      have := h2.get (by rw [h2.length_eq]; exact hi) hi
      obtain ⟨j, hj, rfl⟩ := List.mem_iff_getElem.mp hb
      exact (this.get (by rw [this.length_eq]; exact hj) hj).2.1
    · intro c hc p hp
      obtain ⟨t, htm, rfl⟩ := List.mem_map.mp hc
      obtain ⟨b, hb, rfl⟩ := List.mem_map.mp hp
      obtain ⟨i, hi, rfl⟩ := List.mem_iff_getElem.mp htm
      have := h2.get hi (by rw [← h2.length_eq]; exact hi)
      obtain ⟨j, hj, rfl⟩ := List.mem_iff_getElem.mp hb
      exact (this.get hj (by rw [← this.length_eq]; exact hj)).2.2
  · right
    rw [h1]
    exact ⟨rfl, _, List.mem_map_of_mem h2, _, List.mem_map_of_mem h3, h4⟩

/-! ### The constructor -/

theorem Part.byName {s t : State F} {copy : Bool} {order : List Nat} {o : VisitOrder} (ho : o.Perms) (hs : Inv s)
    (hc : s.Covered) (hn : s.Named) (hp : order.Perm s.factors) (h : Part s copy order order t) :
    absorbEvidencesByName o.vars (o.evidences s.evidences) t = absorbEvidences o.vars (o.evidences s.evidences) t := by
  have hvars : ∀ v, v ∈ t.vars ↔ v ∈ s.vars := fun v => (h.vars v).trans (hs.vars_iff hc hp v)
  have hpe := ho.evidences s.evidences
  have hk : (AMap.keys (o.evidences s.evidences)).Perm s.obs := hpe.map _
  refine absorbEvidencesByName_eq ho.vars _ h.reach ?_ (hk.nodup_iff.mpr hs.obsNodup) ?_
  · intro u hu v hv he
    exact hn u ((hvars u).mp hu) v ((hvars v).mp hv) he
  · intro e he
    have he' := hpe.mem_iff.mp he
    have hobs : e.1 ∈ s.obs := List.mem_map_of_mem he'
    refine ⟨(hvars _).mpr (hs.obsMem _ hobs), ?_, ?_⟩
    · show e.1 ∉ AMap.keys t.evidences
      rw [h.evidences]
      simp [AMap.keys]
    · exact hs.obsVal e.1 e.2 (AMap.find?_of_mem hs.obsNodup he')

/-- Observed variables and factors are the same in a copy. -/
theorem CopyOf.pinned {s t : State F} {r : Nat → Nat} (h : CopyOf s t r) {p : Nat} (hp : p ∈ s.factors) :
    t.Pinned (r p) ↔ s.Pinned p := by
  have hobs : ∀ v, t.Observes v ↔ s.Observes v := by
    intro v
    constructor
    · rintro ⟨k, hk⟩; exact ⟨k, h.evidences.mem_iff.mp hk⟩
    · rintro ⟨k, hk⟩; exact ⟨k, h.evidences.mem_iff.mpr hk⟩
  obtain ⟨f, g, h1, h2, h3, _⟩ := h.images p hp
  constructor
  · rintro ⟨l, ⟨_, g', h4, h5⟩, h6⟩
    rw [h2] at h4; cases h4
    exact ⟨l, ⟨hp, f, h1, by rw [← h3]; exact h5⟩, fun v hv => (hobs v).mp (h6 v hv)⟩
  · rintro ⟨l, ⟨_, f', h4, h5⟩, h6⟩
    rw [h1] at h4; cases h4
    exact ⟨l, ⟨h.factors.mem_iff.mpr (List.mem_map_of_mem hp), g, h2, by rw [h3]; exact h5⟩,
      fun v hv => (hobs v).mpr (h6 v hv)⟩

theorem CopyOf.tuners {s t : State F} {r : Nat → Nat} (h : TunableCopyOf s t r) {ts : List (List BaseTuner)}
    (hts : ts.map (fun t => t.map BaseTuner.factor) = t.tunableClusters) : TunableCopyOf s { t with tuners := ts } r :=
  ⟨⟨h.heap, h.vars, h.evidences, h.factors, h.once, h.images⟩, h.consts, by rw [← h.clusters, ← hts]; rfl, h.tunable⟩

/-- What the constructor of a conditional random field does. -/
theorem make_cases {s : State F} {o : VisitOrder} (ho : o.Perms) (hs : Inv s) (hb : Built s.heap) (ht : Tuned s)
    (hr : Registered s) (hc : s.Covered) (hcl : s.Clustered) (hw : s.EqualWeights) (hu : s.Unambiguous) (hn : s.Named)
    (copy : Bool) :
    (s.Admissible ∧ ∃ c t, Crf.make o s copy = .ok c ∧ Reach anyOp t ∧ c.state = { t with tuners := c.state.tuners } ∧
      TunableCopyOf s c.state (place s copy (fieldOrder o s)) ∧ (∀ tn ∈ c.state.tuners, ∀ b ∈ tn, c.state.TunerFits b) ∧
      c.positions = (o.vars s.obs).map (fun v => s.vars.idxOf v)) ∨
    (¬ s.Admissible ∧ Crf.make o s copy = .throw) := by
  by_cases hev : s.evidences = []
  · right
    refine ⟨fun h => h.1 hev, ?_⟩
    unfold Crf.make crfAbsorb
    rw [hev]
    rfl
  obtain ⟨t1, h1, h2, h3⟩ := absorbFactors_ok ho hs hb ht hr hcl hw hu copy
  have hp := fieldOrder_perm ho hs ht hr hcl
  obtain ⟨t2, g1, g2, g3, g4⟩ := Part.finish ho hs hc hp h2.toPart
  have hcopy : TunableCopyOf s t2 (place s copy (fieldOrder o s)) := by
    refine ⟨g4, ?_, ?_, ?_⟩
    · rw [g3.consts, h3]; exact (ho.factors _).map _
    · unfold tunableClusters
      rw [g3.tuners]
      exact h2.clusters
    · intro c hc p hp'
      rw [g3.heap]
      exact h2.tunable c hc p hp'
  have hmake : Crf.make o s copy = match replaceTuners t2 with
      | .ok s' _ => .ok { state := s', positions := s.findPositions (o.vars s.observedVariables) }
      | .throw _ => .throw
      | .ub => .ub := by
    unfold Crf.make crfAbsorb
    rw [if_neg (by simpa using hev)]
    unfold andThen
    rw [h1]
    simp only
    rw [h2.toPart.byName ho hs hc hn hp, g1]
    rfl
  have hpin : ∀ p ∈ s.factors, (t2.Pinned (place s copy (fieldOrder o s) p) ↔ s.Pinned p) := fun p hp' => g4.pinned hp'
  have hiff : (∃ c ∈ t2.tunableClusters, ∃ p ∈ c, t2.Pinned p) ↔ ∃ p ∈ s.tunables, s.Pinned p := by
    rw [hcopy.clusters]
    constructor
    · rintro ⟨c', hc', p', hp', hpn⟩
      obtain ⟨c, hcm, rfl⟩ := List.mem_map.mp hc'
      obtain ⟨p, hpm, rfl⟩ := List.mem_map.mp hp'
      obtain ⟨tn, htn, rfl⟩ := List.mem_map.mp hcm
      obtain ⟨b, hbm, rfl⟩ := List.mem_map.mp hpm
      have hreg := (ht.of tn htn b hbm).reg
      exact ⟨_, hreg, (hpin _ (ht.reg _ hreg)).mp hpn⟩
    · rintro ⟨p, hpt, hpn⟩
      obtain ⟨c, hcm, hpc⟩ := hcl p hpt
      exact ⟨_, List.mem_map_of_mem hcm, _, List.mem_map_of_mem hpc, (hpin p (ht.reg p hpt)).mpr hpn⟩
  rcases replaceTuners_cases (reach_inv g2) (reach_tuned g2) with ⟨ts, k1, k2, k3, k4⟩ | ⟨k1, k2⟩
  · left
    refine ⟨⟨hev, fun p hpt hpn => ?_⟩, ⟨{ t2 with tuners := ts }, s.findPositions (o.vars s.observedVariables)⟩, t2, ?_, g2, rfl, CopyOf.tuners hcopy k2, ?_, ?_⟩
    · obtain ⟨c, hcm, q, hq, hqn⟩ := hiff.mpr ⟨p, hpt, hpn⟩
      exact k4 c hcm q hq hqn
    · rw [hmake, k1]
    · exact k3
    · show s.findPositions (o.vars s.observedVariables) = _
      rw [hs.toCore.observedVariables]
      rfl
  · right
    refine ⟨?_, by rw [hmake, k1]⟩
    rintro ⟨_, h⟩
    obtain ⟨p, hpt, hpn⟩ := hiff.mp k2
    exact h p hpt hpn

/-! ### Operations -/

/-- The structure is the same, and the observed variables are the same. -/
structure Locked (s s' : State F) : Prop extends SameRegs s s' where
  obs : s'.obs = s.obs
  heap : HeapKept s s'.heap

theorem Locked.rfl' (s : State F) : Locked s s := ⟨.rfl' s, rfl, .of_eq rfl⟩

theorem Locked.trans {s s' s'' : State F} (a : Locked s s') (b : Locked s' s'') : Locked s s'' :=
  ⟨a.toSameRegs.trans b.toSameRegs, b.obs.trans a.obs, fun p hp f hf => by
    obtain ⟨g, h1, h2, h3⟩ := a.heap p hp f hf
    obtain ⟨g', h4, h5, h6⟩ := b.heap p (by rw [a.factors]; exact hp) g h1
    exact ⟨g', h4, h5.trans h2, fun h => h6 (h3 h)⟩⟩

/-- An operation which keeps the structure and the observed variables of a model. -/
def LocksAt {α : Type} (x : M (State F) α) (s : State F) : Prop :=
  match x s with
  | .ok s' _ => Inv s' ∧ Locked s s'
  | .throw s' => Inv s' ∧ Locked s s'
  | .ub => True

/-- An operation which keeps the structure and the observed variables. -/
def Locks {α : Type} (x : M (State F) α) : Prop := ∀ s, Inv s → LocksAt x s

theorem locksAt_cases {α : Type} {x : M (State F) α} {s : State F} (h : LocksAt x s) :
    (∀ s' a, x s = .ok s' a → Inv s' ∧ Locked s s') ∧ (∀ s', x s = .throw s' → Inv s' ∧ Locked s s') := by
  unfold LocksAt at h
  constructor
  · intro s' a hx; rw [hx] at h; exact h
  · intro s' hx; rw [hx] at h; exact h

theorem KeepsI.locks {α : Type} {x : M (State F) α} (h : KeepsI x) : Locks x := by
  intro s hs
  unfold LocksAt
  have := h s hs
  cases hx : x s with
  | ok s' a => rw [hx] at this; exact ⟨this.inv hs, this.toQuiet.toFrame.regs, this.toQuiet.obs, .of_eq this.toQuiet.toFrame.heap⟩
  | throw s' => rw [hx] at this; exact ⟨this.inv hs, this.toQuiet.toFrame.regs, this.toQuiet.obs, .of_eq this.toQuiet.toFrame.heap⟩
  | ub => trivial

theorem locks_drop {α : Type} {x : M (State F) α} (h : Locks x) : Locks (GOp.drop x) := by
  intro s hs
  unfold LocksAt
  have := h s hs
  unfold GOp.drop
  cases hx : x s with
  | ok s' a => rw [LocksAt, hx] at this; exact this
  | throw s' => rw [LocksAt, hx] at this; exact this
  | ub => trivial

theorem locks_congr {α : Type} {x y : M (State F) α} (h : ∀ s, x s = y s) (hy : Locks y) : Locks x := by
  intro s hs
  unfold LocksAt
  rw [h]
  exact hy s hs

theorem Inv.pool {s : State F} (hs : Inv s) (m : Option Nat) : Inv { s with pool := m } := hs.settings _ _ _

theorem withPool_locks {α : Type} (n : Nat) {body : M (State F) α} (hb : Locks body) : Locks (withPool n body) := by
  intro s hs
  unfold LocksAt
  unfold withPool
  have h0 : LocksAt (setPoolSize n) s := by
    unfold LocksAt setPoolSize
    cases s.pool with
    | none => trivial
    | some k =>
      simp only
      by_cases h1 : n = k
      · rw [if_pos h1]; exact ⟨hs, .rfl' s⟩
      · rw [if_neg h1]
        by_cases h2 : n = 0
        · rw [if_pos h2]; exact ⟨hs.settings _ _ _, ⟨rfl, rfl, rfl, rfl, rfl⟩, rfl, .of_eq rfl⟩
        · rw [if_neg h2]; exact ⟨hs.settings _ _ _, ⟨rfl, rfl, rfl, rfl, rfl⟩, rfl, .of_eq rfl⟩
  cases hp : setPoolSize n s with
  | ok s1 _ =>
    rw [LocksAt, hp] at h0
    have h1 := hb s1 h0.1
    simp only
    have hl : ∀ s2 : State F, Locked s2 s2.resetPool := fun _ => ⟨⟨rfl, rfl, rfl, rfl, rfl⟩, rfl, .of_eq rfl⟩
    cases hx : body s1 with
    | ok s2 a => rw [LocksAt, hx] at h1; exact ⟨h1.1.settings _ _ _, (h0.2.trans h1.2).trans (hl s2)⟩
    | throw s2 => rw [LocksAt, hx] at h1; exact ⟨h1.1.settings _ _ _, (h0.2.trans h1.2).trans (hl s2)⟩
    | ub => trivial
  | throw s1 => rw [LocksAt, hp] at h0; exact h0
  | ub => trivial

/-- Setting an evidence again. -/
theorem setEvidence_again {ord : List Var → List Var} (hord : ∀ l, (ord l).Perm l) {s : State F} (hs : Inv s) {v : Var}
    (hv : v ∈ s.obs) (k : Nat) :
    (k < v.size ∧ ∃ s', setEvidence ord v k s = .ok s' () ∧ Inv s' ∧ Locked s s' ∧ s'.heap = s.heap ∧ s'.pool = s.pool ∧
      s'.evidences = AMap.modify s.evidences v (fun _ => k)) ∨
    (v.size ≤ k ∧ setEvidence ord v k s = .throw s) := by
  by_cases hk : v.size ≤ k
  · right
    refine ⟨hk, ?_⟩
    unfold setEvidence
    rw [if_pos hk]
  · left
    have hk' : k < v.size := by omega
    obtain ⟨s', h1, h2⟩ := setEvidence_observed hord hs.toCore hv hk'
    refine ⟨hk', s', h1, h2.inv hs hk', ⟨h2.frame.regs, ?_, .of_eq h2.frame.heap⟩, h2.frame.heap, h2.pool, h2.evidences⟩
    unfold State.obs
    rw [h2.evidences, AMap.keys_modify]

theorem forEach_again {ord : List Var → List Var} (hord : ∀ l, (ord l).Perm l) (es : List (Var × Nat)) : ∀ {s : State F},
    Inv s → (∀ e ∈ es, e.1 ∈ s.obs) → LocksAt (forEach (fun e : Var × Nat => setEvidence ord e.1 e.2) es) s := by
  induction es with
  | nil => intro s hs _; exact ⟨hs, .rfl' s⟩
  | cons e es ih =>
    intro s hs he
    unfold LocksAt
    rw [forEach_cons]
    rcases setEvidence_again hord hs (he e (by simp)) e.2 with ⟨_, s1, h1, h2, h3, _⟩ | ⟨_, h1⟩
    · rw [h1]
      simp only
      have := ih h2 (fun e' he' => by rw [h3.obs]; exact he e' (by simp [he']))
      cases hx : forEach (fun e : Var × Nat => setEvidence ord e.1 e.2) es s1 with
      | ok s' u => rw [LocksAt, hx] at this; exact ⟨this.1, h3.trans this.2⟩
      | throw s' => rw [LocksAt, hx] at this; exact ⟨this.1, h3.trans this.2⟩
      | ub => trivial
    · rw [h1]; exact ⟨hs, .rfl' s⟩

theorem setEvidences_locks {ord visit : List Var → List Var} (hord : ∀ l, (ord l).Perm l) (hvis : ∀ l, (visit l).Perm l)
    (values : List Nat) : Locks (setEvidences (F := F) ord visit values) := by
  intro s hs
  unfold LocksAt
  unfold setEvidences
  by_cases hl : values.length ≠ s.evidences.length
  · rw [if_pos hl]; exact ⟨hs, .rfl' s⟩
  · rw [if_neg hl]
    exact forEach_again hord ((visit (AMap.keys s.evidences)).zip values) hs
      (fun e he => (hvis _).mem_iff.mp (List.of_mem_zip he).1)

theorem sampleEvidences_keys {positions comb : List Nat} : ∀ (vs : List Var) (k : Nat) (es : List (Var × Nat)),
    sampleEvidences positions comb vs k = .ok es → es.map Prod.fst = vs := by
  intro vs
  induction vs with
  | nil => intro k es h; cases h; rfl
  | cons v vs ih =>
    intro k es h
    rw [sampleEvidences] at h
    cases hp : positions[k]? with
    | none => rw [hp] at h; cases h
    | some p =>
      rw [hp] at h
      simp only at h
      cases hc : comb[p]? with
      | none => rw [hc] at h; cases h
      | some x =>
        rw [hc] at h
        simp only at h
        cases hr : sampleEvidences positions comb vs (k + 1) with
        | ok es' => rw [hr] at h; cases h; rw [List.map_cons, ih _ _ hr]
        | throw => rw [hr] at h; cases h
        | ub => rw [hr] at h; cases h

theorem betaStep_locks {ord visit : List Var → List Var} (hord : ∀ l, (ord l).Perm l) (hvis : ∀ l, (visit l).Perm l)
    (sched : Sched) (positions : List Nat) (coeff : F) (betas : List F) (comb : List Nat) :
    Locks (betaStep ord visit sched positions coeff betas comb) := by
  intro s hs
  unfold LocksAt
  unfold betaStep
  cases he : sampleEvidences positions comb (visit (AMap.keys s.evidences)) 0 with
  | throw => exact ⟨hs, .rfl' s⟩
  | ub => trivial
  | ok es =>
    simp only
    have hk := sampleEvidences_keys _ _ _ he
    have h1 := forEach_again hord es hs (fun e hm => (hvis _).mem_iff.mp (hk ▸ List.mem_map_of_mem hm))
    cases hx : forEach (fun e : Var × Nat => setEvidence ord e.1 e.2) es s with
    | throw s1 => rw [LocksAt, hx] at h1; exact h1
    | ub => trivial
    | ok s1 u =>
      rw [LocksAt, hx] at h1
      simp only
      have h2 := (propagateBelief_asked (F := F) hord sched .sum).locks s1 h1.1
      cases hp : propagateBelief ord sched .sum s1 with
      | throw s2 => rw [LocksAt, hp] at h2; exact ⟨h2.1, h1.2.trans h2.2⟩
      | ub => trivial
      | ok s2 u =>
        rw [LocksAt, hp] at h2
        simp only
        cases Res.mapList (fun t => tunerSum (s2.baseBeta ord) t) s2.tuners with
        | ok bs => exact ⟨h2.1, h1.2.trans h2.2⟩
        | throw => exact ⟨h2.1, h1.2.trans h2.2⟩
        | ub => trivial

theorem betaLoop_locks {ord visit : List Var → List Var} (hord : ∀ l, (ord l).Perm l) (hvis : ∀ l, (visit l).Perm l)
    (sched : Sched) (positions : List Nat) (coeff : F) : ∀ (cs : List (List Nat)) (betas : List F),
    Locks (betaLoop ord visit sched positions coeff betas cs) := by
  intro cs
  induction cs with
  | nil => intro betas s hs; exact ⟨hs, .rfl' s⟩
  | cons c cs ih =>
    intro betas s hs
    unfold LocksAt
    rw [betaLoop]
    have h1 := betaStep_locks hord hvis sched positions coeff betas c s hs
    cases hx : betaStep ord visit sched positions coeff betas c s with
    | throw s1 => rw [LocksAt, hx] at h1; exact h1
    | ub => trivial
    | ok s1 b =>
      rw [LocksAt, hx] at h1
      simp only
      have h2 := ih b s1 h1.1
      cases hy : betaLoop ord visit sched positions coeff b cs s1 with
      | throw s2 => rw [LocksAt, hy] at h2; exact ⟨h2.1, h1.2.trans h2.2⟩
      | ok s2 _ => rw [LocksAt, hy] at h2; exact ⟨h2.1, h1.2.trans h2.2⟩
      | ub => trivial

theorem crfGradient_locks {ord visit : List Var → List Var} (hord : ∀ l, (ord l).Perm l) (hvis : ∀ l, (visit l).Perm l)
    (sched : Sched) (positions : List Nat) (samples : List (List Nat)) :
    Locks (crfGradient (F := F) ord visit sched positions samples) := by
  intro s hs
  unfold LocksAt
  unfold crfGradient
  cases Res.mapList (fun t => tunerSum (s.baseAlpha samples) t) s.tuners with
  | throw => exact ⟨hs, .rfl' s⟩
  | ub => trivial
  | ok alphas =>
    simp only
    have h1 := betaLoop_locks hord hvis sched positions (Arith.div Arith.one (Arith.ofNat samples.length)) samples
      (s.tuners.map (fun _ => Arith.zero)) s hs
    cases hx : betaLoop ord visit sched positions (Arith.div Arith.one (Arith.ofNat samples.length))
        (s.tuners.map (fun _ => Arith.zero)) samples s with
    | throw s2 => rw [LocksAt, hx] at h1; exact h1
    | ok s2 _ => rw [LocksAt, hx] at h1; exact h1
    | ub => trivial

theorem emplaceAll_locks {ord visit : List Var → List Var} (hord : ∀ l, (ord l).Perm l) (hvis : ∀ l, (visit l).Perm l)
    (rnd : Nat → Random F) (ctx : SampleContext) (threads : Nat) : ∀ (evs : List (List Nat)),
    Locks (emplaceAll ord visit rnd ctx threads evs) := by
  intro evs
  induction evs with
  | nil => intro s hs; exact ⟨hs, .rfl' s⟩
  | cons ev evs ih =>
    intro s hs
    unfold LocksAt
    rw [emplaceAll]
    have h1 : LocksAt (emplaceSamples ord visit (rnd evs.length) ctx threads ev) s := by
      unfold LocksAt emplaceSamples
      have h1 := setEvidences_locks (F := F) hord hvis ev s hs
      cases hx : setEvidences ord visit ev s with
      | throw s1 => rw [LocksAt, hx] at h1; exact h1
      | ub => trivial
      | ok s1 u =>
        rw [LocksAt, hx] at h1
        simp only
        have h2 := (makeSamples_asked hord (rnd evs.length) ctx threads).locks s1 h1.1
        cases hy : makeSamples ord (rnd evs.length) ctx threads s1 with
        | throw s2 => rw [LocksAt, hy] at h2; exact ⟨h2.1, h1.2.trans h2.2⟩
        | ok s2 _ => rw [LocksAt, hy] at h2; exact ⟨h2.1, h1.2.trans h2.2⟩
        | ub => trivial
    cases hx : emplaceSamples ord visit (rnd evs.length) ctx threads ev s with
    | throw s1 => rw [LocksAt, hx] at h1; exact h1
    | ub => trivial
    | ok s1 l =>
      rw [LocksAt, hx] at h1
      simp only
      have h2 := ih s1 h1.1
      cases hy : emplaceAll ord visit rnd ctx threads evs s1 with
      | throw s2 => rw [LocksAt, hy] at h2; exact ⟨h2.1, h1.2.trans h2.2⟩
      | ok s2 _ => rw [LocksAt, hy] at h2; exact ⟨h2.1, h1.2.trans h2.2⟩
      | ub => trivial

theorem makeTrainSet_locks {ord visit : List Var → List Var} (hord : ∀ l, (ord l).Perm l) (hvis : ∀ l, (visit l).Perm l)
    (obsOrder : List Var → List Var) (floorNat : F → Option Nat) (rnd : Nat → Random F) (ctx : SampleContext) (pct : F)
    (threads : Nat) : Locks (makeTrainSet ord visit obsOrder floorNat rnd ctx pct threads) := by
  intro s hs
  unfold LocksAt
  unfold makeTrainSet
  by_cases hp : (Arith.lt Arith.one pct || Arith.lt pct Arith.zero) = true
  · rw [if_pos hp]; exact ⟨hs, .rfl' s⟩
  · rw [if_neg hp]
    cases Group.ofSoup (obsOrder s.observedVariables) with
    | throw => exact ⟨hs, .rfl' s⟩
    | ub => trivial
    | ok g =>
      simp only
      cases trainCombinations floorNat g pct with
      | throw => exact ⟨hs, .rfl' s⟩
      | ub => trivial
      | ok evs => exact emplaceAll_locks hord hvis rnd ctx threads evs s hs

/-- The observed variables and the variables of the factors are the same afterwards. -/
def KeepsObs {α : Type} (x : M (State F) α) (s : State F) : Prop :=
  match x s with
  | .ok s' _ => s'.obs = s.obs ∧ HeapKept s s'.heap
  | .throw s' => s'.obs = s.obs ∧ HeapKept s s'.heap
  | .ub => True

theorem shared_locks {s : State F} (hs : Inv s) {op : GOp F} (hv : op.Valid s) (ho : op.OfCrf = true) :
    LocksAt op.exec s := by
  have hi : op.Inserts = false := by cases op <;> first | rfl | cases ho
  have hm : op.RemovesMany = false := by cases op <;> first | rfl | cases ho
  have h1 := exec_preserves hs hv
  have h2 := exec_regs hs hv hi
  have h3 : KeepsObs op.exec s := by
    have gen : ∀ x : M (State F) Unit, Locks x → KeepsObs x s := by
      intro x hx
      have := hx s hs
      unfold LocksAt at this
      unfold KeepsObs
      cases hxs : x s with
      | ok s' _ => rw [hxs] at this; exact ⟨this.2.obs, this.2.heap⟩
      | throw s' => rw [hxs] at this; exact ⟨this.2.obs, this.2.heap⟩
      | ub => trivial
    cases op with
    | create f =>
      refine ⟨rfl, fun p hp g hg => ⟨g, ?_, rfl, id⟩⟩
      show (s.heap ++ [f])[p]? = some g
      rw [List.getElem?_append_left (List.getElem?_eq_some_iff.mp hg).1]
      exact hg
    | mutate p o =>
      have h := mutate_kept (p := p) (op := o) hs (by
        rintro ⟨vs, rfl⟩
        exact hv.2)
      show KeepsObs (GOp.onHeap (Heap.mutate p o)) s
      unfold KeepsObs
      cases he : GOp.onHeap (Heap.mutate p o) s with
      | ok s' _ =>
        rw [he] at h
        refine ⟨?_, h.1⟩
        rw [h.2.1]; rfl
      | throw s' => rw [he] at h; rw [h]; exact ⟨rfl, .of_eq rfl⟩
      | ub => trivial
    | setWeights ws =>
      show KeepsObs (State.setWeights ws) s
      unfold KeepsObs State.setWeights
      by_cases h : ws.length ≠ s.tuners.length
      · rw [if_pos h]; exact ⟨rfl, .of_eq rfl⟩
      · rw [if_neg h]
        obtain ⟨h, h1, h2⟩ := setTunersWeights_eq (s.tuners.zip ws) s
        rw [h1]
        exact ⟨rfl, .of_same h2⟩
    | setMaxIterations n => exact ⟨rfl, .of_eq rfl⟩
    | marginal ord sched v n =>
      exact gen _ (locks_drop (locks_congr (marginalQuery_eq ord sched .sum v n) (asks_asked hv.1.1 sched _ n _).locks))
    | marginalByName ord sched name n =>
      refine gen _ (locks_drop (x := getMarginalByName ord sched name n) ?_)
      intro s hs
      unfold LocksAt getMarginalByName
      rcases findVariable_cases s name with ⟨v, h⟩ | h
      · rw [h]
        exact locks_congr (marginalQuery_eq ord sched .sum v n) (asks_asked hv.1.1 sched _ n _).locks s hs
      · rw [h]; exact ⟨hs, .rfl' s⟩
    | map ord sched v n =>
      exact gen _ (locks_drop (locks_congr (getMAP_eq ord sched v n) (asks_asked hv.1.1 sched _ n _).locks))
    | hiddenSetMap ord sched n =>
      exact gen _ (locks_drop (locks_congr (getHiddenSetMAP_eq ord sched n) (asks_asked hv.1.1 sched _ n _).locks))
    | joint ord sh sched g n =>
      exact gen _ (locks_drop (locks_congr (getJoint_eq ord sh sched g n) (asks_asked hv.1.1 sched _ n _).locks))
    | drawSamples ord rnd ctx n => exact gen _ (locks_drop (makeSamples_asked hv.1 rnd ctx n).locks)
    | _ => cases ho
  unfold LocksAt
  cases hx : op.exec s with
  | ok s' u => rw [KeepsObs, hx] at h3; exact ⟨h1.1 s' hx, h2.1 s' hx, h3.1, h3.2⟩
  | throw s' => rw [KeepsObs, hx] at h3; exact ⟨h1.2 s' hm hx, h2.2 s' hx, h3.1, h3.2⟩
  | ub => trivial

theorem crf_locks {s : State F} (hs : Inv s) (positions : List Nat) {op : CrfOp F} (hv : op.Valid s) :
    LocksAt (op.exec positions) s := by
  cases op with
  | setEvidences ord visit values => exact setEvidences_locks hv.1 hv.2 values s hs
  | gradient ord visit sched samples n =>
    exact locks_drop (withPool_locks n (crfGradient_locks hv.1 hv.2.1 sched positions samples)) s hs
  | trainSet ord visit obsOrder fl rnd ctx pct n =>
    exact locks_drop (makeTrainSet_locks hv.1 hv.2.1 obsOrder fl rnd ctx pct n) s hs
  | shared op => exact shared_locks hs hv.2 hv.1

end State
end EFG
