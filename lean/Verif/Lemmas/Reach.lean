import Verif.Lemmas.Gibbs
import Verif.Spec.Exec
/- The invariant holds in every reachable state. -/

set_option linter.unusedSectionVars false

namespace EFG
namespace State
variable {F : Type} [Arith F]

/-! ### Changes of the heap -/

theorem Fn.Unary.of_vars {v : Var} {f g : Fn F} (h : f.Unary v) (hg : g.WF) (hv : g.vars.group = f.vars.group) :
    g.Unary v := ⟨hg, hv.trans h.vars⟩

theorem Fn.Binary.of_vars {x y : Var} {f g : Fn F} (h : f.Binary x y) (hg : g.WF)
    (hv : g.vars.group = f.vars.group) : g.Binary x y := ⟨hg, by rw [hv]; exact h.vars, h.ne⟩

/-- The heap changes, but the inserted factors keep their variables. -/
theorem Inv.heap {s : State F} (hs : Inv s) {h : Heap F} (hwf : ∀ f ∈ h, f.WF)
    (hv : ∀ p ∈ s.factors, ∀ f, s.heap[p]? = some f → ∃ g, h[p]? = some g ∧ g.vars.group = f.vars.group) :
    Inv { s with heap := h } := by
  refine ⟨⟨⟨hs.net.keys, hs.net.distinct, hs.net.nodup, hs.net.excl, hs.net.symA, hs.net.symL, hs.net.memL⟩,
    hwf, hs.posV, ?_, ?_, hs.unaNodup, hs.facNodup, ?_, hs.obsNodup, hs.obsMem, hs.obsVal, hs.disObs,
    hs.msgH, hs.mrgT⟩, hs.parts, fun c hc ts h => (hs.topos c hc ts h).congr (fun _ _ _ => rfl)⟩
  · intro u v p hl
    obtain ⟨h1, f, h2, h3⟩ := hs.link u v p hl
    obtain ⟨g, h4, h5⟩ := hv p h1 f h2
    exact ⟨h1, g, h4, Fn.Binary.of_vars h3 (hwf g (List.mem_of_getElem? h4)) h5⟩
  · intro v p hp
    obtain ⟨h1, h0, f, h2, h3⟩ := hs.unary v p hp
    obtain ⟨g, h4, h5⟩ := hv p h1 f h2
    exact ⟨h1, h0, g, h4, Fn.Unary.of_vars h3 (hwf g (List.mem_of_getElem? h4)) h5⟩
  · intro p hp
    obtain ⟨f, h2, h3⟩ := hs.reg p hp
    obtain ⟨g, h4, h5⟩ := hv p hp f h2
    refine ⟨g, h4, ?_⟩
    rw [h5]
    exact h3

theorem Inv.create {s : State F} (hs : Inv s) {f : Fn F} (hf : f.WF) : Inv (s.alloc f).1 := by
  refine hs.heap (h := s.heap ++ [f]) ?_ ?_
  · intro g hg
    rcases List.mem_append.mp hg with h | h
    · exact hs.heapWF g h
    · simp at h; subst h; exact hf
  · intro p _ g hg
    refine ⟨g, ?_, rfl⟩
    rw [List.getElem?_append_left]
    · exact hg
    · exact (List.getElem?_eq_some_iff.mp hg).1

/-- The mutations keep functions well formed; only one of them changes the variables. -/
theorem applyOp_wf {op : Heap.Op F} {f : Fn F} (hf : f.WF) :
    match Heap.applyOp op f with
    | .ok g _ => g.WF ∧ ((∀ vs, op ≠ .replaceVariables vs) → g.vars = f.vars) ∧
        ((∀ w, op ≠ .setWeight w) → g.weight = f.weight)
    | .throw g => g = f
    | .ub => True := by
  cases op with
  | set comb x =>
    show match Fn.mutableSet comb x f with
      | .ok g _ => g.WF ∧ (_ → g.vars = f.vars) ∧ (_ → g.weight = f.weight)
      | .throw g => g = f
      | .ub => True
    rcases hf.mutableSet comb x with ⟨g, h1, _, _, h2, h3, _, h4, _⟩ | ⟨h1, _⟩
    · rw [h1]; exact ⟨h2, fun _ => h3, fun _ => h4⟩
    · rw [h1]
  | clear => exact ⟨hf.clear, fun _ => rfl, fun _ => rfl⟩
  | replaceVariables vs =>
    show match Fn.replaceVariables vs f with
      | .ok g _ => g.WF ∧ ((∀ vs', Heap.Op.replaceVariables vs ≠ .replaceVariables vs') → g.vars = f.vars) ∧
          (_ → g.weight = f.weight)
      | .throw g => g = f
      | .ub => True
    cases h : Fn.replaceVariables vs f with
    | ok g _ => exact ⟨(hf.replace h).1, fun h' => absurd rfl (h' vs), fun _ => (hf.replace h).2.2.2.2⟩
    | throw g => exact Fn.replaceVariables_throw h
    | ub => trivial
  | setWeight w => exact ⟨hf.setWeight w, fun _ => rfl, fun h' => absurd rfl (h' w)⟩

theorem mutate_inv {p : Nat} {op : Heap.Op F} {s : State F} (hs : Inv s)
    (hv : (∃ vs, op = .replaceVariables vs) → p ∉ s.factors) :
    match GOp.onHeap (Heap.mutate p op) s with
    | .ok s' _ => Inv s'
    | .throw s' => Inv s'
    | .ub => True := by
  unfold GOp.onHeap Heap.mutate
  cases hp : s.heap[p]? with
  | none => trivial
  | some f =>
    have hf := hs.heapWF f (List.mem_of_getElem? hp)
    have h := applyOp_wf (op := op) hf
    have gen : ∀ g : Fn F, g.WF → ((∀ vs, op ≠ .replaceVariables vs) → g.vars = f.vars) →
        Inv { s with heap := s.heap.set p g } := by
      intro g hg hgv
      refine hs.heap (h := s.heap.set p g) ?_ ?_
      · intro g' hg'
        rcases List.mem_or_eq_of_mem_set hg' with h | h
        · exact hs.heapWF g' h
        · subst h; exact hg
      · intro q hq f' hf'
        rw [List.getElem?_set]
        by_cases hpq : p = q
        · subst hpq
          rw [hp] at hf'
          cases hf'
          rw [if_pos rfl, if_pos (List.getElem?_eq_some_iff.mp hp).1]
          refine ⟨g, rfl, ?_⟩
          rw [hgv (fun vs hvs => hv ⟨vs, hvs⟩ hq)]
        · rw [if_neg hpq]; exact ⟨f', hf', rfl⟩
    simp only
    cases ho : Heap.applyOp op f with
    | ok g _ => rw [ho] at h; exact gen g h.1 h.2.1
    | throw g => rw [ho] at h; exact gen g (h ▸ hf) (fun _ => by rw [h])
    | ub => trivial

theorem getElem?_heapSetWeight (w : F) (h : Heap F) (p q : Nat) :
    (heapSetWeight w h p)[q]? = if p = q then (h[q]?).map (fun f => f.setWeight w) else h[q]? := by
  unfold heapSetWeight
  rw [List.getElem?_modify]
  by_cases hpq : p = q
  · simp [hpq]
  · simp [hpq]

/-- The heap after changing weights: every function is the same up to its weight. -/
def SameButWeight (h h' : Heap F) : Prop :=
  ∀ p : Nat, (h[p]? = none ∧ h'[p]? = none) ∨
    ∃ f w, h[p]? = some f ∧ h'[p]? = some { f with weight := w } ∧ (f.weight.isSome → w.isSome)

theorem SameButWeight.rfl' (h : Heap F) : SameButWeight h h := by
  intro p
  cases hp : h[p]? with
  | none => exact Or.inl ⟨rfl, rfl⟩
  | some f => exact Or.inr ⟨f, f.weight, rfl, rfl, id⟩

theorem SameButWeight.trans {h h' h'' : Heap F} (a : SameButWeight h h') (b : SameButWeight h' h'') :
    SameButWeight h h'' := by
  intro p
  rcases a p with ⟨h1, h2⟩ | ⟨f, w, h1, h2, h3⟩
  · rcases b p with ⟨h4, h5⟩ | ⟨f', w', h4, h5, h6⟩
    · exact Or.inl ⟨h1, h5⟩
    · rw [h2] at h4; cases h4
  · rcases b p with ⟨h4, h5⟩ | ⟨f', w', h4, h5, h6⟩
    · rw [h2] at h4; cases h4
    · rw [h2] at h4
      cases h4
      exact Or.inr ⟨f, w', h1, h5, fun h => h6 (h3 h)⟩

theorem heapSetWeight_same (w : F) (h : Heap F) (p : Nat) : SameButWeight h (heapSetWeight w h p) := by
  intro q
  rw [getElem?_heapSetWeight]
  cases hq : h[q]? with
  | none => exact Or.inl ⟨rfl, by by_cases h : p = q <;> simp [h]⟩
  | some f =>
    by_cases hpq : p = q
    · exact Or.inr ⟨f, some w, rfl, by simp [hpq, Fn.setWeight], fun _ => rfl⟩
    · exact Or.inr ⟨f, f.weight, rfl, by simp [hpq], id⟩

theorem foldl_heapSetWeight_same (w : F) (ps : List Nat) (h : Heap F) :
    SameButWeight h (ps.foldl (heapSetWeight w) h) := by
  induction ps generalizing h with
  | nil => exact .rfl' h
  | cons p ps ih => exact (heapSetWeight_same w h p).trans (ih _)

theorem setTunersWeights_eq (l : List (List BaseTuner × F)) (s : State F) :
    ∃ h, setTunersWeights l s = { s with heap := h } ∧ SameButWeight s.heap h := by
  induction l generalizing s with
  | nil => exact ⟨s.heap, rfl, .rfl' _⟩
  | cons e l ih =>
    obtain ⟨t, w⟩ := e
    obtain ⟨h, h1, h2⟩ := ih (setTunerWeight t w s)
    exact ⟨h, h1, (foldl_heapSetWeight_same w _ s.heap).trans h2⟩

theorem SameButWeight.wf {h h' : Heap F} (hs : SameButWeight h h') (hwf : ∀ f ∈ h, f.WF) : ∀ f ∈ h', f.WF := by
  intro f hf
  obtain ⟨p, hp⟩ := List.mem_iff_getElem?.mp hf
  rcases hs p with ⟨_, h2⟩ | ⟨g, w, h1, h2, _⟩
  · rw [hp] at h2; cases h2
  · rw [hp] at h2
    cases h2
    have := hwf g (List.mem_of_getElem? h1)
    exact ⟨this.group, this.sizes_eq, this.tot_eq, this.pos, this.store⟩

theorem Inv.sameButWeight {s : State F} (hs : Inv s) {h : Heap F} (hh : SameButWeight s.heap h) :
    Inv { s with heap := h } := by
  refine hs.heap (hh.wf hs.heapWF) ?_
  intro p _ f hf
  rcases hh p with ⟨h1, _⟩ | ⟨g, w, h1, h2, _⟩
  · rw [hf] at h1; cases h1
  · rw [hf] at h1
    cases h1
    exact ⟨_, h2, rfl⟩

/-- Fields of the registry of the tunable factors play no part in the invariant. -/
theorem Inv.registry {s : State F} (hs : Inv s) (c t : List Nat) (us : List (List BaseTuner)) :
    Inv { s with consts := c, tunables := t, tuners := us } :=
  ⟨⟨⟨hs.net.keys, hs.net.distinct, hs.net.nodup, hs.net.excl, hs.net.symA, hs.net.symL, hs.net.memL⟩,
    hs.heapWF, hs.posV, hs.link, hs.unary, hs.unaNodup, hs.facNodup, hs.reg, hs.obsNodup, hs.obsMem, hs.obsVal,
    hs.disObs, hs.msgH, hs.mrgT⟩, hs.parts, fun c hc ts h => (hs.topos c hc ts h).congr (fun _ _ _ => rfl)⟩

/-- Likewise the limit of the iterations, the pool and the last propagation. -/
theorem Inv.settings {s : State F} (hs : Inv s) (n : Nat) (l : Option PropResult) (p : Option Nat) :
    Inv { s with maxIter := n, last := l, pool := p } :=
  ⟨⟨⟨hs.net.keys, hs.net.distinct, hs.net.nodup, hs.net.excl, hs.net.symA, hs.net.symL, hs.net.memL⟩,
    hs.heapWF, hs.posV, hs.link, hs.unary, hs.unaNodup, hs.facNodup, hs.reg, hs.obsNodup, hs.obsMem, hs.obsVal,
    hs.disObs, hs.msgH, hs.mrgT⟩, hs.parts, fun c hc ts h => (hs.topos c hc ts h).congr (fun _ _ _ => rfl)⟩

/-! ### Every operation preserves the invariant -/

/-- An operation which, started in a state with the invariant, leaves one. -/
def Preserves {α : Type} (x : M (State F) α) : Prop :=
  ∀ s, Inv s → match x s with
    | .ok s' _ => Inv s'
    | .throw s' => Inv s'
    | .ub => True

theorem preserves_drop {α : Type} {x : M (State F) α} (h : Preserves x) : Preserves (GOp.drop x) := by
  intro s hs
  have := h s hs
  unfold GOp.drop
  cases hx : x s with
  | ok s' a => rw [hx] at this; exact this
  | throw s' => rw [hx] at this; exact this
  | ub => trivial

theorem KeepsI.preserves {α : Type} {x : M (State F) α} (h : KeepsI x) : Preserves x := by
  intro s hs
  have := h s hs
  cases hx : x s with
  | ok s' a => rw [hx] at this; exact this.inv hs
  | throw s' => rw [hx] at this; exact this.inv hs
  | ub => trivial

theorem Inserted.inv {s s' : State F} {p : Nat} {f : Fn F} (h : Inserted s s' p f) : Inv s' := by
  cases h with
  | unary _ h => exact h.inv
  | binary _ h => exact h.inv

theorem addDistribution_preserves (ptr : Option Nat) : Preserves (addDistribution (F := F) ptr) := by
  intro s hs
  cases ptr with
  | none => exact hs
  | some p =>
    cases hp : s.heap[p]? with
    | none =>
      unfold addDistribution
      simp only
      by_cases h : s.factors.contains p = true
      · rw [if_pos h]; exact hs
      · rw [if_neg h]
        have : s.deref p = .ub := by
          unfold deref Heap.get
          rw [hp]; rfl
        rw [this]; trivial
    | some f =>
      rcases addDistribution_cases hs hp with ⟨s', h1, h2, _⟩ | ⟨s', h1, _, h2, _⟩
      · rw [h1]; exact h2.inv
      · rw [h1]; exact h2

theorem addConstFactor_preserves (ptr : Option Nat) : Preserves (addConstFactor (F := F) ptr) := by
  intro s hs
  have h := addDistribution_preserves ptr s hs
  unfold addConstFactor
  cases hx : addDistribution ptr s with
  | ok s' a => rw [hx] at h; exact h.registry _ _ _
  | throw s' => rw [hx] at h; exact h
  | ub => trivial

theorem copyConstFactor_preserves (p : Nat) : Preserves (copyConstFactor (F := F) p) := by
  intro s hs
  unfold copyConstFactor
  cases hd : s.deref p with
  | ok f =>
    simp only
    have hf : f.WF := by
      unfold deref Heap.get at hd
      cases hp : s.heap[p]? with
      | none => rw [hp] at hd; cases hd
      | some g => rw [hp] at hd; cases hd; exact hs.heapWF f (List.mem_of_getElem? hp)
    obtain ⟨g, hg, hgw, _⟩ := hf.cloneTransformed
    rw [hg]
    exact addConstFactor_preserves _ _ (hs.create hgw)
  | throw => exact hs
  | ub => trivial

theorem shareTuner_preserves (i : Nat) (b : BaseTuner) : Preserves (shareTuner (F := F) i b) := by
  intro s hs
  unfold shareTuner
  cases s.tuners[i]? with
  | none => trivial
  | some t =>
    simp only
    cases s.tunerWeight t with
    | ok w =>
      exact (hs.registry s.consts s.tunables (s.tuners.modify i (fun t => t ++ [b]))).sameButWeight
        (foldl_heapSetWeight_same w _ s.heap)
    | throw => exact hs
    | ub => trivial

theorem addTunable_preserves (ptr : Option Nat) (share : Option VarSet) :
    Preserves (addTunable (F := F) ptr share) := by
  intro s hs
  have h := addDistribution_preserves ptr s hs
  unfold addTunable
  cases hx : addDistribution ptr s with
  | ok s1 a =>
    rw [hx] at h
    simp only
    cases ptr with
    | none => trivial
    | some p =>
      simp only
      cases s1.deref p with
      | ok f =>
        simp only
        cases s1.makeTuner p f with
        | ok b =>
          simp only
          have h2 : Inv { s1 with tunables := s1.tunables ++ [p] } := h.registry s1.consts _ s1.tuners
          cases share with
          | none => exact h.registry s1.consts (s1.tunables ++ [p]) (s1.tuners ++ [[b]])
          | some g =>
            simp only
            cases State.findTuner { s1 with tunables := s1.tunables ++ [p] } g with
            | none => exact h2
            | some i => exact shareTuner_preserves i b _ h2
        | throw => exact h
        | ub => trivial
      | throw => exact h
      | ub => trivial
  | throw s1 => rw [hx] at h; exact h
  | ub => trivial

theorem copyTunable_preserves (p : Nat) (share : Option VarSet) : Preserves (copyTunable (F := F) p share) := by
  intro s hs
  unfold copyTunable
  cases hd : s.deref p with
  | ok f =>
    simp only
    have hf : f.WF := by
      unfold deref Heap.get at hd
      cases hp : s.heap[p]? with
      | none => rw [hp] at hd; cases hd
      | some g => rw [hp] at hd; cases hd; exact hs.heapWF f (List.mem_of_getElem? hp)
    unfold Fn.copyExponential
    cases f.weight with
    | none => trivial
    | some w =>
      simp only
      obtain ⟨g, hg, hgw, _⟩ := hf.exponential w
      rw [hg]
      exact addTunable_preserves _ _ _ (hs.create hgw)
  | throw => exact hs
  | ub => trivial

theorem setWeights_preserves (ws : List F) : Preserves (setWeights ws) := by
  intro s hs
  unfold setWeights
  by_cases h : ws.length ≠ s.tuners.length
  · rw [if_pos h]; exact hs
  · rw [if_neg h]
    obtain ⟨h, h1, h2⟩ := setTunersWeights_eq (s.tuners.zip ws) s
    rw [h1]
    exact (hs.sameButWeight h2).resetBelief

theorem setEvidence_preserves {ord : List Var → List Var} (hord : ∀ l, (ord l).Perm l) (v : Var) (k : Nat) :
    Preserves (setEvidence (F := F) ord v k) := by
  intro s hs
  by_cases hk : v.size ≤ k
  · unfold setEvidence; rw [if_pos hk]; exact hs
  · cases hl : s.locate v with
    | none => unfold setEvidence; rw [if_neg hk, hl]; exact hs
    | some e =>
      obtain ⟨h1, h2⟩ := hs.net.locate_some hl
      rw [setEvidence_eqv (w := e.1) (by rw [Var.eqv_comm]; exact h2)]
      have hk' : k < e.1.size := by rw [(Var.eqv_iff.mp h2).2]; omega
      by_cases ho : e.1 ∈ s.obs
      · obtain ⟨s', h3, h4⟩ := setEvidence_observed hord hs.toCore ho hk'
        rw [h3]; exact h4.inv hs hk'
      · obtain ⟨s', h3, h4⟩ := setEvidence_hidden hord hs h1 ho hk'
        rw [h3]; exact h4.inv hs h1 ho hk'

theorem findVariable_mem {s : State F} {name : String} {v : Var} (h : s.findVariable name = .ok v) :
    v ∈ s.vars ∧ v.name = name := by
  unfold findVariable at h
  cases hf : s.vars.find? (fun v => v.name == name) with
  | none => rw [hf] at h; cases h
  | some w =>
    rw [hf] at h
    cases h
    exact ⟨List.mem_of_find?_eq_some hf, by simpa using List.find?_some hf⟩

theorem findVariable_cases (s : State F) (name : String) :
    (∃ v, s.findVariable name = .ok v) ∨ s.findVariable name = .throw := by
  unfold findVariable
  cases s.vars.find? (fun v => v.name == name) with
  | none => exact Or.inr rfl
  | some w => exact Or.inl ⟨w, rfl⟩

/-- A removal which throws finds the variable not observed and changes nothing. -/
theorem removeOne_cases {ord : List Var → List Var} (hord : ∀ l, (ord l).Perm l) {s : State F} (hs : Core s)
    (v : Var) :
    (∃ w s', w ∈ s.obs ∧ w.eqv v = true ∧ removeEvidence_ ord v s = .ok s' () ∧ Released s s' w) ∨
    (removeEvidence_ ord v s = .throw s ∧ ∀ w ∈ s.obs, w.eqv v = false) := by
  by_cases h : ∀ w ∈ s.obs, w.eqv v = false
  · exact Or.inr ⟨removeOne_throw h, h⟩
  · push Not at h
    obtain ⟨w, hw, he⟩ := h
    have he' : w.eqv v = true := by simpa using he
    obtain ⟨s', h1, h2⟩ := removeOne_ok hord hs hw
    refine Or.inl ⟨w, s', hw, he', ?_, h2⟩
    rw [removeOne_eqv (w := w) (by rw [Var.eqv_comm]; exact he')]
    exact h1

theorem removeEvidence_preserves {ord : List Var → List Var} (hord : ∀ l, (ord l).Perm l) (v : Var) :
    Preserves (removeEvidence (F := F) ord v) := by
  intro s hs
  unfold removeEvidence
  rcases removeOne_cases hord hs.toCore v with ⟨w, s', _, _, h1, h2⟩ | ⟨h1, _⟩
  · rw [h1]; exact resetState_inv hord (h2.core hs.toCore)
  · rw [h1]; exact hs

/-- The core of the invariant along the removals. -/
theorem forEach_removeOne_core {ord : List Var → List Var} (hord : ∀ l, (ord l).Perm l) (vs : List Var)
    {s : State F} (hs : Core s) :
    match forEach (removeEvidence_ ord) vs s with
    | .ok s' _ => Core s'
    | .throw s' => Core s'
    | .ub => False := by
  induction vs generalizing s with
  | nil => exact hs
  | cons v vs ih =>
    rw [forEach_cons]
    rcases removeOne_cases hord hs v with ⟨w, s', _, _, h1, h2⟩ | ⟨h1, _⟩
    · rw [h1]; exact ih (h2.core hs)
    · rw [h1]; exact hs

theorem removeEvidences_ok {ord : List Var → List Var} (hord : ∀ l, (ord l).Perm l) (vs : VarSet)
    {s s' : State F} (hs : Inv s) (h : removeEvidences ord vs s = .ok s' ()) : Inv s' := by
  unfold removeEvidences at h
  by_cases he : vs.isEmpty = true
  · rw [if_pos he] at h; cases h; exact hs
  · rw [if_neg he] at h
    have := forEach_removeOne_core hord (ord vs) hs.toCore
    cases hx : forEach (removeEvidence_ ord) (ord vs) s with
    | ok s1 _ =>
      rw [hx] at h this
      cases h
      exact resetState_inv hord this
    | throw s1 => rw [hx] at h; cases h
    | ub => rw [hx] at h; cases h

/-- All the observed variables can be released, in any order. -/
theorem forEach_removeAll {ord : List Var → List Var} (hord : ∀ l, (ord l).Perm l) (vs : List Var) {s : State F}
    (hs : Core s) (hm : ∀ v ∈ vs, v ∈ s.obs) (hn : vs.Nodup) :
    ∃ s', forEach (removeEvidence_ ord) vs s = .ok s' () ∧ Core s' ∧ Frame s s' ∧ s'.pool = s.pool ∧
      (∀ u w, s'.lnk u w = s.lnk u w) ∧ (∀ w, w ∈ s'.obs ↔ w ∈ s.obs ∧ w ∉ vs) ∧
      (vs ≠ [] → s'.last = none) := by
  induction vs generalizing s with
  | nil => exact ⟨s, rfl, hs, Frame.rfl' s, rfl, fun _ _ => rfl, by simp, by simp⟩
  | cons v vs ih =>
    obtain ⟨s1, h1, h2⟩ := removeOne_ok hord hs (hm v (by simp))
    have hnv : v ∉ vs := (List.nodup_cons.mp hn).1
    obtain ⟨s2, g1, g2, g3, g4, g5, g6, g7⟩ := ih (h2.core hs)
      (fun w hw => (h2.obs w).mpr ⟨hm w (by simp [hw]), fun h => hnv (h ▸ hw)⟩) (List.nodup_cons.mp hn).2
    refine ⟨s2, ?_, g2, h2.frame.trans g3, g4.trans h2.pool, fun u w => (g5 u w).trans (h2.lnk u w), ?_, ?_⟩
    · rw [forEach_cons, h1]; exact g1
    · intro w
      rw [g6, h2.obs]
      simp only [List.mem_cons, not_or]
      tauto
    · intro _
      cases vs with
      | nil => cases g1; exact h2.last
      | cons a l => exact g7 (by simp)

theorem removeAllEvidences_ok {ord : List Var → List Var} (hord : ∀ l, (ord l).Perm l) {s : State F}
    (hs : Core s) : ∃ s', removeAllEvidences ord s = .ok s' () ∧ Inv s' ∧ Frame s s' ∧ s'.pool = s.pool ∧
      (∀ u w, s'.lnk u w = s.lnk u w) ∧ s'.evidences = [] := by
  have hp := hord (AMap.keys s.evidences)
  obtain ⟨s1, h1, h2, h3, h4, h5, h6, _⟩ := forEach_removeAll hord (ord (AMap.keys s.evidences)) hs
    (fun v hv => hp.mem_iff.mp hv) (hp.nodup_iff.mpr hs.obsNodup)
  refine ⟨resetState ord s1, ?_, resetState_inv hord h2, ?_, h4, h5, ?_⟩
  · unfold removeAllEvidences; rw [h1]
  · exact ⟨h3.heap, h3.vars, h3.keys, h3.factors, h3.consts, h3.maxIter, h3.tunables, h3.tuners, h3.una⟩
  · show s1.evidences = []
    cases he : s1.evidences with
    | nil => rfl
    | cons e l =>
      exfalso
      have : e.1 ∈ s1.obs := by unfold State.obs; rw [he]; simp [AMap.keys]
      rw [h6] at this
      exact this.2 (hp.mem_iff.mpr this.1)

theorem removeAllEvidences_preserves {ord : List Var → List Var} (hord : ∀ l, (ord l).Perm l) :
    Preserves (removeAllEvidences (F := F) ord) := by
  intro s hs
  obtain ⟨s', h1, h2, _⟩ := removeAllEvidences_ok hord hs.toCore
  rw [h1]; exact h2

theorem preserves_congr {α : Type} {x y : M (State F) α} (h : ∀ s, x s = y s) (hy : Preserves y) :
    Preserves x := by
  intro s hs
  rw [h]
  exact hy s hs

theorem withPool_preserves {α : Type} (n : Nat) {body : M (State F) α} (hb : Preserves body) :
    Preserves (withPool n body) := by
  intro s hs
  unfold withPool
  have h0 : match setPoolSize n s with
    | .ok s' _ => Inv s'
    | .throw s' => Inv s'
    | .ub => True := by
    unfold setPoolSize
    cases s.pool with
    | none => trivial
    | some k =>
      simp only
      by_cases h1 : n = k
      · rw [if_pos h1]; exact hs
      · rw [if_neg h1]
        by_cases h2 : n = 0
        · rw [if_pos h2]; exact hs.settings _ _ _
        · rw [if_neg h2]; exact hs.settings _ _ _
  cases hp : setPoolSize n s with
  | ok s1 _ =>
    rw [hp] at h0
    have h1 := hb s1 h0
    simp only
    cases hx : body s1 with
    | ok s2 a => rw [hx] at h1; exact h1.settings _ _ _
    | throw s2 => rw [hx] at h1; exact h1.settings _ _ _
    | ub => trivial
  | throw s1 => rw [hp] at h0; exact h0
  | ub => trivial

theorem gradient_preserves {ord : List Var → List Var} (hord : ∀ l, (ord l).Perm l) (sched : Sched)
    (samples : List (List Nat)) : Preserves (gradient (F := F) ord sched samples) := by
  intro s hs
  unfold gradient
  have h0 : ∃ s1, (if s.evidences.isEmpty then .ok s () else removeAllEvidences ord s : Out (State F) Unit) = .ok s1 () ∧
      Inv s1 := by
    by_cases he : s.evidences.isEmpty = true
    · exact ⟨s, by rw [if_pos he], hs⟩
    · obtain ⟨s', h1, h2, _⟩ := removeAllEvidences_ok hord hs.toCore
      exact ⟨s', by rw [if_neg he]; exact h1, h2⟩
  obtain ⟨s1, e1, h1⟩ := h0
  simp only [e1]
  have h2 := (propagateBelief_asked (F := F) hord sched .sum).preserves s1.resetBelief h1.resetBelief
  cases hp : propagateBelief ord sched .sum s1.resetBelief with
  | ok s2 _ =>
    rw [hp] at h2
    simp only
    unfold lift
    beta_reduce
    cases Res.mapList (gradientTask ord samples s2) s2.tuners with
    | ok a => exact h2
    | throw => exact h2
    | ub => trivial
  | throw s2 => rw [hp] at h2; exact h2
  | ub => trivial

theorem setEvidenceByName_preserves {ord : List Var → List Var} (hord : ∀ l, (ord l).Perm l) (n : String)
    (k : Nat) : Preserves (setEvidenceByName (F := F) ord n k) := by
  intro s hs
  unfold setEvidenceByName
  rcases findVariable_cases s n with ⟨v, h⟩ | h
  · rw [h]; exact setEvidence_preserves hord v k s hs
  · rw [h]; exact hs

theorem removeEvidenceByName_preserves {ord : List Var → List Var} (hord : ∀ l, (ord l).Perm l) (n : String) :
    Preserves (removeEvidenceByName (F := F) ord n) := by
  intro s hs
  unfold removeEvidenceByName
  rcases findVariable_cases s n with ⟨v, h⟩ | h
  · rw [h]; exact removeEvidence_preserves hord v s hs
  · rw [h]; exact hs

theorem getMarginalByName_preserves {ord : List Var → List Var} (hord : ∀ l, (ord l).Perm l) (sched : Sched)
    (name : String) (n : Nat) : Preserves (getMarginalByName (F := F) ord sched name n) := by
  intro s hs
  unfold getMarginalByName
  rcases findVariable_cases s name with ⟨v, h⟩ | h
  · rw [h]
    exact preserves_congr (marginalQuery_eq ord sched .sum v n) (asks_asked hord sched _ n _).preserves s hs
  · rw [h]; exact hs

theorem exec_preserves {s : State F} (hs : Inv s) {op : GOp F} (hv : op.Valid s) :
    (∀ s', op.exec s = .ok s' () → Inv s') ∧
    (∀ s', op.RemovesMany = false → op.exec s = .throw s' → Inv s') := by
  have gen : ∀ x : M (State F) Unit, Preserves x → (∀ s', x s = .ok s' () → Inv s') ∧
      (∀ s', op.RemovesMany = false → x s = .throw s' → Inv s') := by
    intro x hx
    have := hx s hs
    exact ⟨fun s' h => by rw [h] at this; exact this, fun s' _ h => by rw [h] at this; exact this⟩
  cases op with
  | create f =>
    refine ⟨fun s' h => ?_, fun s' _ h => by cases h⟩
    simp only [GOp.exec, Out.ok.injEq, and_true] at h
    rw [← h]
    exact hs.create (factorReach_wf hv.2)
  | mutate p o =>
    have h1 := mutate_inv (p := p) (op := o) hs (by
      rintro ⟨vs, rfl⟩
      exact hv.2)
    exact ⟨fun s' h => by rw [GOp.exec] at h; rw [h] at h1; exact h1,
      fun s' _ h => by rw [GOp.exec] at h; rw [h] at h1; exact h1⟩
  | addConst p => exact gen _ (addConstFactor_preserves p)
  | copyConst p => exact gen _ (copyConstFactor_preserves p)
  | addTunable p share => exact gen _ (addTunable_preserves p share)
  | copyTunable p share => exact gen _ (copyTunable_preserves p share)
  | setWeights ws => exact gen _ (setWeights_preserves ws)
  | setEvidence ord v k => exact gen _ (setEvidence_preserves hv.1 v k)
  | setEvidenceByName ord n k =>
    exact gen _ (setEvidenceByName_preserves hv.1 n k)
  | removeEvidence ord v => exact gen _ (removeEvidence_preserves hv.1 v)
  | removeEvidenceByName ord n =>
    exact gen _ (removeEvidenceByName_preserves hv.1 n)
  | removeEvidences ord vs =>
    exact ⟨fun s' h => removeEvidences_ok hv.1 vs hs h, fun s' h => by cases h⟩
  | removeEvidencesByName ord ns =>
    refine ⟨fun s' h => ?_, fun s' h => by cases h⟩
    rw [GOp.exec] at h
    unfold removeEvidencesByName at h
    cases hm : Res.mapList s.findVariable ns with
    | ok vs => rw [hm] at h; exact removeEvidences_ok hv.1 _ hs h
    | throw => rw [hm] at h; cases h
    | ub => rw [hm] at h; cases h
  | removeAllEvidences ord => exact gen _ (removeAllEvidences_preserves hv.1)
  | setMaxIterations n =>
    refine ⟨fun s' h => ?_, fun s' _ h => by cases h⟩
    simp only [GOp.exec, Out.ok.injEq, and_true] at h
    rw [← h]
    exact hs.settings _ _ _
  | marginal ord sched v n =>
    exact gen _ (preserves_drop (preserves_congr (marginalQuery_eq ord sched .sum v n)
      (asks_asked hv.1.1 sched _ n _).preserves))
  | marginalByName ord sched name n =>
    exact gen _ (preserves_drop (getMarginalByName_preserves hv.1.1 sched name n))
  | map ord sched v n =>
    exact gen _ (preserves_drop (preserves_congr (getMAP_eq ord sched v n)
      (asks_asked hv.1.1 sched _ n _).preserves))
  | hiddenSetMap ord sched n =>
    exact gen _ (preserves_drop (preserves_congr (getHiddenSetMAP_eq ord sched n)
      (asks_asked hv.1.1 sched _ n _).preserves))
  | joint ord sh sched g n =>
    exact gen _ (preserves_drop (preserves_congr (getJoint_eq ord sh sched g n)
      (asks_asked hv.1.1 sched _ n _).preserves))
  | gradient ord sched samples n =>
    exact gen _ (preserves_drop (withPool_preserves n (gradient_preserves hv.1.1 sched samples)))
  | drawSamples ord rnd ctx n => exact gen _ (preserves_drop (makeSamples_asked hv.1 rnd ctx n).preserves)

end State

/-- The invariant holds in every reachable state. -/
theorem reach_inv {F : Type} [Arith F] {allowed : State F → GOp F → Prop} {s : State F}
    (h : Reach allowed s) : s.Inv := by
  induction h with
  | init hh => exact State.inv_initial (fun f hf => factorReach_wf (hh f hf))
  | ok _ hv _ he ih => exact (State.exec_preserves ih hv).1 _ he
  | throw _ hv _ hm he ih => exact (State.exec_preserves ih hv).2 _ hm he

end EFG
