import Verif.Spec.Report
import Verif.Lemmas.Ask
/- The report on the last propagation stays true. -/

set_option linter.unusedSectionVars false

namespace EFG
namespace State
variable {F : Type} [Arith F]

/-- The same hidden variables, joined in the same way. -/
structure SameShape (s s' : State F) : Prop where
  hidden : ∀ v, s'.Hidden v ↔ s.Hidden v
  joins : ∀ u v, s'.Joins u v ↔ s.Joins u v

theorem SameShape.rfl' (s : State F) : SameShape s s := ⟨fun _ => Iff.rfl, fun _ _ => Iff.rfl⟩

theorem SameShape.trans {s s' s'' : State F} (h : SameShape s s') (h' : SameShape s' s'') : SameShape s s'' :=
  ⟨fun v => (h'.hidden v).trans (h.hidden v), fun u v => (h'.joins u v).trans (h.joins u v)⟩

theorem SameShape.graph {s s' : State F} (h : SameShape s s') : s'.hiddenGraph = s.hiddenGraph := by
  ext u v
  simp only [State.hiddenGraph, h.hidden, h.joins]

theorem SameShape.described {s s' : State F} (h : SameShape s s') {r : PropResult} (hr : s.DescribedBy r) :
    s'.DescribedBy r := by
  have hl : ∀ u v, s'.Linked u v ↔ s.Linked u v := by
    intro u v
    unfold State.Linked
    simp only [h.hidden, h.joins]
  have hn : ∀ l, s'.NoCycle l ↔ s.NoCycle l := by
    intro l
    unfold State.NoCycle
    rw [h.graph]
  obtain ⟨parts, h1, h2, h3⟩ := hr
  refine ⟨parts, ⟨h1.nodup, fun v => by rw [h.hidden, h1.hidden], h1.ne, fun u v hu => ?_⟩, ?_, ?_⟩
  · rw [hl]; exact h1.linked u v ((h.hidden u).mp hu)
  · simp only [hn]; exact h2
  · simp only [hn]; exact h3

theorem sameShape_of {s s' : State F} (hc : Core s) (hc' : Core s') (hv : s'.vars = s.vars)
    (ho : ∀ w, w ∈ s'.obs ↔ w ∈ s.obs) (hl : ∀ u v, s'.lnk u v = s.lnk u v) : SameShape s s' := by
  refine ⟨fun v => ?_, fun u v => ?_⟩
  · rw [hidden_iff, hidden_iff, mem_hid, mem_hid, hv, ho]
  · rw [hc.joins_iff, hc'.joins_iff, hl]

theorem Outer.shape {s s' : State F} (h : Outer s s') (hc : Core s) (hc' : Core s') : SameShape s s' :=
  sameShape_of hc hc' h.vars (fun w => by rw [h.obs]) h.lnk

theorem Asked.shape {s s' : State F} (h : Asked s s') (hs : Inv s) : SameShape s s' :=
  sameShape_of hs.toCore (h.inv hs).toCore h.vars (fun w => by rw [h.toQuiet.obs]) h.toQuiet.lnk

/-- What a propagation leaves describes the model. -/
theorem Settled.described {s : State F} {r : PropResult} (h : Settled s r) (hs : Inv s)
    (hc : (∀ e ∈ r.structures, e.1 = true) → r.completed = true) : s.DescribedBy r := by
  have hp := hs.parts
  have hf : List.Forall₂ (fun (e : Bool × Nat) (l : List Var) => e.2 = l.length ∧ (e.1 = true ↔ s.NoCycle l))
      r.structures (s.clusters.map (·.nodes)) := by
    rw [List.forall₂_iff_get]
    refine ⟨by rw [h.len, List.length_map], fun j hj hj' => ?_⟩
    obtain ⟨c, g1, g2, g3⟩ := h.done j hj
    have e : (s.clusters.map (·.nodes)).get ⟨j, hj'⟩ = c.nodes := by
      have : (s.clusters.map (·.nodes))[j]? = some c.nodes := by rw [List.getElem?_map, g1]; rfl
      rw [List.getElem?_eq_getElem hj'] at this
      exact Option.some.inj this
    rw [e]
    refine ⟨g2, ?_⟩
    obtain ⟨ts, k1, k2, k3, k4, k5⟩ := g3.ready
    constructor
    · intro ht; exact k2.noCycle hs.toCore (k4 ht)
    · intro hn'
      by_contra hf
      obtain ⟨u, hu, c0, hc0⟩ := k2.cycle hs.toCore (k5 (by simpa using hf))
      exact hn' u hu c0 hc0
  refine ⟨s.clusters.map (·.nodes), ⟨hp.nodup, fun v => ?_, hp.ne, fun u v hu => ?_⟩, hf, ?_⟩
  · rw [hp.mem, hidden_iff]
  · rw [hs.toCore.linked_iff, ← hp.same_iff (State.hidden_iff.mp hu) v]
  · intro hall
    refine hc (fun e he => ?_)
    obtain ⟨j, hj⟩ := List.mem_iff_getElem?.mp he
    obtain ⟨hjl, hje⟩ := List.getElem?_eq_some_iff.mp hj
    have hjl' : j < (s.clusters.map (·.nodes)).length := by rw [← hf.length_eq]; exact hjl
    have := (List.forall₂_iff_get.mp hf).2 j hjl hjl'
    have h2 := this.2.mpr (hall _ (List.get_mem _ _))
    rw [← hje]; exact h2

/-- An operation forgets the report, keeps it together with the shape of the model, or makes one which describes the
model. -/
def Reported (s s' : State F) : Prop :=
  s'.last = none ∨ (s'.last = s.last ∧ SameShape s s') ∨ ∃ r, s'.last = some r ∧ s'.DescribedBy r

theorem Reported.rfl' (s : State F) : Reported s s := Or.inr (Or.inl ⟨rfl, SameShape.rfl' s⟩)

theorem Reported.before {s s' s'' : State F} (hl : s'.last = s.last) (h : SameShape s s') (h' : Reported s' s'') :
    Reported s s'' := by
  rcases h' with h1 | ⟨h1, h2⟩ | h1
  · exact Or.inl h1
  · exact Or.inr (Or.inl ⟨h1.trans hl, h.trans h2⟩)
  · exact Or.inr (Or.inr h1)

def ReportedAt {α : Type} (x : M (State F) α) (s : State F) : Prop :=
  match x s with
  | .ok s' _ => Reported s s'
  | .throw s' => Reported s s'
  | .ub => True

theorem reportedAt_drop {α : Type} {x : M (State F) α} {s : State F} (h : ReportedAt x s) : ReportedAt (GOp.drop x) s := by
  unfold ReportedAt at h ⊢
  unfold GOp.drop
  cases hx : x s with
  | ok s' a => rw [hx] at h; exact h
  | throw s' => rw [hx] at h; exact h
  | ub => trivial

theorem reportedAt_congr {α : Type} {x y : M (State F) α} {s : State F} (h : ∀ s, x s = y s) (hy : ReportedAt y s) :
    ReportedAt x s := by
  unfold ReportedAt at hy ⊢
  rw [h]; exact hy

theorem checkPropagation_told {ord : List Var → List Var} (hord : ∀ l, (ord l).Perm l) (kind : Kind) {sched : Sched}
    (hsched : ∀ l, (sched l).Perm l) {s : State F} (hs : Healthy s) {n : Nat} (hn : 1 ≤ n) :
    ∃ s' r, checkPropagation ord sched kind n s = .ok s' () ∧ Reported s s' ∧ s'.last = some r ∧ r.kind = kind := by
  by_cases hw : s.wouldNeedPropagation kind = true
  · obtain ⟨s', r, h1, h2, h3, h4, h5, h6, flags, f1, f2, f3⟩ := checkPropagation_run hord kind hsched hs hn hw
    refine ⟨s', r, h1, Or.inr (Or.inr ⟨r, h4, h6.described h3.inv (fun hall => ?_)⟩), h4, h5⟩
    rw [f2, List.all_eq_true]
    intro b hb
    obtain ⟨j, hj⟩ := List.mem_iff_getElem?.mp hb
    obtain ⟨hjl, hje⟩ := List.getElem?_eq_some_iff.mp hj
    have hjr : j < r.structures.length := by rw [← f1]; exact hjl
    have := (f3 j hjr hjl).1 (hall _ (List.getElem_mem hjr))
    rw [← hje]; exact this
  · unfold checkPropagation
    rw [if_neg hw]
    unfold wouldNeedPropagation at hw
    cases hl : s.last with
    | none => rw [hl] at hw; simp at hw
    | some r =>
      rw [hl] at hw
      exact ⟨s, r, rfl, Reported.rfl' s, hl, by simpa using hw⟩

theorem asks_told {α : Type} {ord : List Var → List Var} (hord : ∀ l, (ord l).Perm l) (kind : Kind)
    {sched : Sched} (hsched : ∀ l, (sched l).Perm l) {n : Nat} (hn : 1 ≤ n) (r : State F → Res α) {s : State F}
    (hs : Healthy s) : ReportedAt (asks ord sched kind n r) s := by
  obtain ⟨s', _, h1, h2, _⟩ := checkPropagation_told hord kind hsched hs hn
  unfold ReportedAt asks
  rw [h1]
  simp only
  unfold lift
  cases r s' with
  | ok a => exact h2
  | throw => exact h2
  | ub => trivial

theorem addDistribution_told {s : State F} (hs : Inv s) (ptr : Option Nat) :
    match addDistribution (F := F) ptr s with
    | .ok s' _ => s'.last = none
    | .throw s' => Reported s s'
    | .ub => True := by
  cases ptr with
  | none => exact Reported.rfl' s
  | some p =>
    cases hp : s.heap[p]? with
    | none =>
      unfold addDistribution
      simp only
      by_cases h : s.factors.contains p = true
      · rw [if_pos h]; exact Reported.rfl' s
      · rw [if_neg h]
        have : s.deref p = .ub := by
          unfold deref Heap.get
          rw [hp]; rfl
        rw [this]; trivial
    | some f =>
      rcases addDistribution_cases hs hp with ⟨s', h1, h2, _⟩ | ⟨s', h1, _, h2, h3⟩
      · rw [h1]; exact h2.last
      · rw [h1]
        rcases h3 with rfl | rfl | ⟨a, _, _, _, rfl⟩
        · exact Reported.rfl' _
        · exact Or.inl rfl
        · exact Or.inl rfl

theorem addConst_told {s : State F} (hs : Inv s) (ptr : Option Nat) :
    match addConstFactor (F := F) ptr s with
    | .ok s' _ => s'.last = none
    | .throw s' => Reported s s'
    | .ub => True := by
  have h := addDistribution_told hs ptr
  unfold addConstFactor
  cases hx : addDistribution ptr s with
  | ok s' a => rw [hx] at h; exact h
  | throw s' => rw [hx] at h; exact h
  | ub => trivial

theorem alloc_shape {s : State F} (hs : Inv s) {f : Fn F} (hf : f.WF) : SameShape s (s.alloc f).1 :=
  Outer.shape ⟨rfl, rfl, rfl, rfl, rfl⟩ hs.toCore (hs.create hf).toCore

theorem copyConst_told {s : State F} (hs : Inv s) (p : Nat) :
    match copyConstFactor (F := F) p s with
    | .ok s' _ => s'.last = none
    | .throw s' => Reported s s'
    | .ub => True := by
  unfold copyConstFactor
  cases hd : s.deref p with
  | ok f =>
    simp only
    have hf : f.WF := hs.heapWF f (List.mem_of_getElem? (deref_ok hd))
    obtain ⟨g, hg, hgw, hv, _⟩ := hf.cloneTransformed
    rw [hg]
    have h := addConst_told (hs.create hgw) (some (s.alloc g).2)
    simp only
    cases hx : addConstFactor (some (s.alloc g).2) (s.alloc g).1 with
    | ok s' a => rw [hx] at h; exact h
    | throw s' => rw [hx] at h; exact Reported.before (s' := (s.alloc g).1) rfl (alloc_shape hs hgw) h
    | ub => trivial
  | throw => exact Reported.rfl' s
  | ub => trivial

theorem shareTuner_last (i : Nat) (b : BaseTuner) (s : State F) :
    match shareTuner i b s with
    | .ok s' _ => s'.last = s.last
    | .throw s' => s'.last = s.last
    | .ub => True := by
  unfold shareTuner
  cases ht : s.tuners[i]? with
  | none => trivial
  | some t =>
    simp only
    cases hw : tunerWeight s t with
    | ok w => rfl
    | throw => rfl
    | ub => trivial

theorem addTunable_told {s : State F} (hs : Inv s) (ptr : Option Nat) (share : Option VarSet) :
    match addTunable (F := F) ptr share s with
    | .ok s' _ => s'.last = none
    | .throw s' => Reported s s'
    | .ub => True := by
  have h := addDistribution_told hs ptr
  unfold addTunable
  cases hx : addDistribution ptr s with
  | ok s1 a =>
    rw [hx] at h
    simp only at h ⊢
    cases ptr with
    | none => trivial
    | some p =>
      simp only
      cases hd : s1.deref p with
      | ok f =>
        simp only
        cases hmt : s1.makeTuner p f with
        | ok r =>
          simp only
          cases share with
          | none => exact h
          | some g =>
            simp only
            cases State.findTuner { s1 with tunables := s1.tunables ++ [p] } g with
            | none => exact Or.inl h
            | some i =>
              simp only
              have h3 := shareTuner_last i r { s1 with tunables := s1.tunables ++ [p] }
              cases hy : shareTuner i r { s1 with tunables := s1.tunables ++ [p] } with
              | ok s' a => rw [hy] at h3; exact h3.trans h
              | throw s' => rw [hy] at h3; exact Or.inl (h3.trans h)
              | ub => trivial
        | throw => exact Or.inl h
        | ub => trivial
      | throw => exact Or.inl h
      | ub => trivial
  | throw s1 => rw [hx] at h; exact h
  | ub => trivial

theorem copyTunable_told {s : State F} (hs : Inv s) (p : Nat) (share : Option VarSet) :
    match copyTunable (F := F) p share s with
    | .ok s' _ => s'.last = none
    | .throw s' => Reported s s'
    | .ub => True := by
  unfold copyTunable
  cases hd : s.deref p with
  | ok f =>
    simp only
    have hf : f.WF := hs.heapWF f (List.mem_of_getElem? (deref_ok hd))
    unfold Fn.copyExponential
    cases f.weight with
    | none => trivial
    | some w =>
      simp only
      obtain ⟨g, hg, hgw, hv, _⟩ := hf.exponential w
      rw [hg]
      simp only
      have h := addTunable_told (hs.create hgw) (some s.heap.length) share
      cases hx : addTunable (some s.heap.length) share (s.alloc g).1 with
      | ok s' a => rw [hx] at h; exact h
      | throw s' => rw [hx] at h; exact Reported.before (s' := (s.alloc g).1) rfl (alloc_shape hs hgw) h
      | ub => trivial
  | throw => exact Reported.rfl' s
  | ub => trivial

theorem setWeights_told (ws : List F) (s : State F) :
    match setWeights ws s with
    | .ok s' _ => s'.last = none
    | .throw s' => Reported s s'
    | .ub => True := by
  unfold setWeights
  by_cases h : ws.length ≠ s.tuners.length
  · rw [if_pos h]; exact Reported.rfl' s
  · rw [if_neg h]; rfl

theorem setEvidence_told {ord : List Var → List Var} (hord : ∀ l, (ord l).Perm l) (v : Var) (k : Nat)
    {s : State F} (hi : Inv s) :
    match setEvidence (F := F) ord v k s with
    | .ok s' _ => s'.last = none
    | .throw s' => Reported s s'
    | .ub => True := by
  by_cases hk : v.size ≤ k
  · unfold setEvidence; rw [if_pos hk]; exact Reported.rfl' s
  · cases hl : s.locate v with
    | none => unfold setEvidence; rw [if_neg hk, hl]; exact Reported.rfl' s
    | some e =>
      obtain ⟨h1, h2⟩ := hi.net.locate_some hl
      rw [setEvidence_eqv (w := e.1) (by rw [Var.eqv_comm]; exact h2)]
      have hk' : k < e.1.size := by rw [(Var.eqv_iff.mp h2).2]; omega
      by_cases ho : e.1 ∈ s.obs
      · obtain ⟨s', h3, h4⟩ := setEvidence_observed hord hi.toCore ho hk'
        rw [h3]; exact h4.last
      · obtain ⟨s', h3, h4⟩ := setEvidence_hidden hord hi h1 ho hk'
        rw [h3]; exact h4.last

theorem removeEvidence_told {ord : List Var → List Var} (hord : ∀ l, (ord l).Perm l) (v : Var) {s : State F}
    (hi : Inv s) :
    match removeEvidence (F := F) ord v s with
    | .ok s' _ => s'.last = none
    | .throw s' => Reported s s'
    | .ub => True := by
  unfold removeEvidence
  rcases removeOne_cases hord hi.toCore v with ⟨w, s', h0, h5, h1, h2⟩ | ⟨h1, _⟩
  · rw [h1]; exact h2.last
  · rw [h1]; exact Reported.rfl' s

/-- Removing evidences forgets the report, unless there was nothing to remove. -/
theorem Shed.told {ord : List Var → List Var} (hord : ∀ l, (ord l).Perm l) {s s1 : State F} (hs : Inv s)
    {R : Var → Prop} (h : Shed s s1 R) : Reported s (resetState ord s1) := by
  rcases h.last with rfl | h1
  · exact Or.inr (Or.inl ⟨rfl, Outer.shape ⟨rfl, rfl, rfl, rfl, rfl⟩ hs.toCore (resetState_inv hord hs.toCore).toCore⟩)
  · exact Or.inl h1

theorem removeEvidences_told {ord : List Var → List Var} (hord : ∀ l, (ord l).Perm l) (vs : VarSet)
    {s s' : State F} (hs : Inv s) (h : removeEvidences ord vs s = .ok s' ()) : Reported s s' := by
  unfold removeEvidences at h
  by_cases he : vs.isEmpty = true
  · rw [if_pos he] at h; cases h; exact Reported.rfl' s
  · rw [if_neg he] at h
    cases hx : forEach (removeEvidence_ ord) (ord vs) s with
    | ok s1 _ =>
      rw [hx] at h
      cases h
      exact (forEach_shed hord (ord vs) hs.toCore hx).told hord hs
    | throw s1 => rw [hx] at h; cases h
    | ub => rw [hx] at h; cases h

theorem removeAllEvidences_told {ord : List Var → List Var} (hord : ∀ l, (ord l).Perm l) {s : State F} (hs : Inv s) :
    ReportedAt (removeAllEvidences ord) s := by
  have hp := hord (AMap.keys s.evidences)
  obtain ⟨s1, h1, _⟩ := forEach_removeAll hord (ord (AMap.keys s.evidences)) hs.toCore
    (fun v hv => hp.mem_iff.mp hv) (hp.nodup_iff.mpr hs.obsNodup)
  unfold ReportedAt removeAllEvidences
  rw [h1]
  exact (forEach_shed hord _ hs.toCore h1).told hord hs

theorem gradient_told {ord : List Var → List Var} (hord : ∀ l, (ord l).Perm l) {sched : Sched}
    (hsched : ∀ l, (sched l).Perm l) (samples : List (List Nat)) {n : Nat} (hn : 1 ≤ n) {s : State F}
    (hs : Sound False s) :
    match getWeightsGradient (F := F) ord sched samples n s with
    | .ok s' _ => ∃ r, s'.last = some r ∧ r.kind = .sum ∧ s'.DescribedBy r
    | .throw s' => ∃ r, s'.last = some r ∧ r.kind = .sum ∧ s'.DescribedBy r
    | .ub => True := by
  unfold getWeightsGradient withPool
  rw [hs.healthy.setPoolSize hn]
  simp only
  have hstart : ∃ s1, (if ({ s with pool := some n } : State F).evidences.isEmpty then .ok { s with pool := some n } ()
      else removeAllEvidences ord { s with pool := some n } : Out (State F) Unit) = .ok s1 () ∧
      Sound False s1.resetPool ∧ s1.pool = some n ∧ Inv s1 := by
    have hi : Inv ({ s with pool := some n } : State F) := hs.healthy.inv.settings _ _ _
    by_cases he : ({ s with pool := some n } : State F).evidences.isEmpty = true
    · refine ⟨_, by rw [if_pos he], ?_, rfl, hi⟩
      have : State.resetPool ({ s with pool := some n } : State F) = s := by
        have hp := hs.healthy.pool
        cases s
        simp only at hp
        unfold State.resetPool
        rw [hp]
      rw [this]; exact hs
    · have hp := hord (AMap.keys s.evidences)
      obtain ⟨s1, h1, h1c, _, h1p, _⟩ := forEach_removeAll hord (ord (AMap.keys s.evidences)) hi.toCore
        (fun v hv => hp.mem_iff.mp hv) (hp.nodup_iff.mpr hi.obsNodup)
      refine ⟨resetState ord s1, ?_, ?_, h1p, resetState_inv hord h1c⟩
      · rw [if_neg he]; unfold removeAllEvidences; rw [h1]
      · have h2 := forEach_shed hord _ hi.toCore h1
        have h3 : Shed s s1.resetPool (fun w => w ∈ s.obs ∧ ∃ v ∈ ord (AMap.keys s.evidences), w.eqv v = true) := by
          refine ⟨(Inv.settings (resetState_inv hord h1c) s1.maxIter s1.last (some 1)).toCore |> fun hc => ?_, ?_, ?_, ?_, h2.lnk, h2.obs, h2.act, h2.coh, h2.evid⟩
          · exact ⟨⟨hc.net.keys, hc.net.distinct, hc.net.nodup, hc.net.excl, hc.net.symA, hc.net.symL, hc.net.memL⟩,
              hc.heapWF, hc.posV, hc.link, hc.unary, hc.unaNodup, hc.facNodup, hc.reg, hc.obsNodup, hc.obsMem, hc.obsVal,
              hc.disObs, hc.msgH, hc.mrgT⟩
          · exact ⟨h2.frame.heap, h2.frame.vars, h2.frame.keys, h2.frame.factors, h2.frame.consts, h2.frame.maxIter,
              h2.frame.tunables, h2.frame.tuners, h2.frame.una⟩
          · exact hs.healthy.pool.symm
          · rcases h2.last with h4 | h4
            · left
              rw [h4]
              have hp := hs.healthy.pool
              cases s
              simp only at hp
              unfold State.resetPool
              rw [hp]
            · exact Or.inr h4
        exact h3.sound hord hs (fun u w _ hw _ => ⟨hw, w, hp.mem_iff.mpr hw, Var.eqv_refl w⟩)
  obtain ⟨s1, e1, hs1, hp1, hi1⟩ := hstart
  unfold gradient
  simp only [e1]
  have hs1' := hs1.resetBelief
  have hb0 : Asked s1.resetPool.resetBelief s1.resetBelief := by
    refine Asked.light rfl rfl rfl rfl rfl rfl rfl rfl rfl rfl
  have hflow : Flow s1.resetBelief := hs1'.healthy.flow.quiet hb0.toQuiet hi1.resetBelief.toCore
  obtain ⟨s2, r, h1, h2, h3, h4, h5, h6, h7, h8, _⟩ := propagateBelief_ok hord .sum hsched hi1.resetBelief hflow hn hp1 rfl
  rw [h1]
  have ha1 : Asked s2 s2.resetPool := asked_pool s2 (some 1)
  have hi2 := h2.inv hi1.resetBelief
  have hfin : s2.resetPool.last = some r ∧ r.kind = .sum ∧ s2.resetPool.DescribedBy r :=
    ⟨h4, h5, (ha1.shape hi2).described (h6.described hi2 h8)⟩
  simp only
  unfold lift
  beta_reduce
  cases Res.mapList (gradientTask ord samples s2) s2.tuners with
  | ok a => exact ⟨r, hfin⟩
  | throw => exact ⟨r, hfin⟩
  | ub => trivial

/-- No operation makes the report wrong. -/
theorem exec_told {s : State F} (hs : Sound False s) {op : GOp F} (hv : op.Valid s) (hp : Prudent s op) :
    (∀ s', op.exec s = .ok s' () → Reported s s') ∧
    (∀ s', op.RemovesMany = false → op.exec s = .throw s' → Reported s s') := by
  have hi := hs.healthy.inv
  have gen : ∀ x : M (State F) Unit, ReportedAt x s → (∀ s', x s = .ok s' () → Reported s s') ∧
      (∀ s', op.RemovesMany = false → x s = .throw s' → Reported s s') := by
    intro x hx
    unfold ReportedAt at hx
    exact ⟨fun s' h => by rw [h] at hx; exact hx, fun s' _ h => by rw [h] at hx; exact hx⟩
  have change : ∀ x : M (State F) Unit, (match x s with
      | .ok s' _ => s'.last = none
      | .throw s' => Reported s s'
      | .ub => True) → ReportedAt x s := by
    intro x hx
    unfold ReportedAt
    cases h : x s with
    | ok s' a => rw [h] at hx; exact Or.inl hx
    | throw s' => rw [h] at hx; exact hx
    | ub => trivial
  have hth : ∀ n, op.threads = some n → 1 ≤ n := by
    intro n hn
    have := hp.threads
    rw [hn] at this
    rcases Nat.eq_zero_or_pos n with h | h
    · subst h; exact absurd rfl this
    · exact h
  cases op with
  | create f =>
    refine ⟨fun s' h => ?_, fun s' _ h => by cases h⟩
    simp only [GOp.exec, Out.ok.injEq, and_true] at h
    rw [← h]
    exact Or.inr (Or.inl ⟨rfl, alloc_shape hi (factorReach_wf hv.2)⟩)
  | mutate p o =>
    have h := mutate_inv (op := o) hi (p := p) (by rintro ⟨vs, rfl⟩; exact hv.2)
    refine gen (GOp.onHeap (Heap.mutate p o)) ?_
    have key : ∀ g : Fn F, Inv ({ s with heap := s.heap.set p g } : State F) → Reported s { s with heap := s.heap.set p g } :=
      fun g hg => Or.inr (Or.inl ⟨rfl, Outer.shape ⟨rfl, rfl, rfl, rfl, rfl⟩ hi.toCore hg.toCore⟩)
    unfold ReportedAt
    unfold GOp.onHeap Heap.mutate at h ⊢
    cases hp : s.heap[p]? with
    | none => trivial
    | some f =>
      rw [hp] at h
      simp only at h ⊢
      cases ho : Heap.applyOp o f with
      | ok g _ => rw [ho] at h; exact key g h
      | throw g => rw [ho] at h; exact key g h
      | ub => trivial
  | addConst p => exact gen _ (change _ (addConst_told hi p))
  | copyConst p => exact gen _ (change _ (copyConst_told hi p))
  | addTunable p share => exact gen _ (change _ (addTunable_told hi p share))
  | copyTunable p share => exact gen _ (change _ (copyTunable_told hi p share))
  | setWeights ws => exact gen _ (change _ (setWeights_told ws s))
  | setEvidence ord v k => exact gen _ (change _ (setEvidence_told hv.1 v k hi))
  | setEvidenceByName ord n k =>
    refine gen (State.setEvidenceByName ord n k) (change _ ?_)
    unfold setEvidenceByName
    rcases findVariable_cases s n with ⟨v, h⟩ | h
    · rw [h]; exact setEvidence_told hv.1 v k hi
    · rw [h]; exact Reported.rfl' s
  | removeEvidence ord v => exact gen _ (change _ (removeEvidence_told hv.1 v hi))
  | removeEvidenceByName ord n =>
    refine gen (State.removeEvidenceByName ord n) (change _ ?_)
    unfold removeEvidenceByName
    rcases findVariable_cases s n with ⟨v, h⟩ | h
    · rw [h]; exact removeEvidence_told hv.1 v hi
    · rw [h]; exact Reported.rfl' s
  | removeEvidences ord vs =>
    exact ⟨fun s' h => removeEvidences_told hv.1 vs hi h, fun s' h => by cases h⟩
  | removeEvidencesByName ord ns =>
    refine ⟨fun s' h => ?_, fun s' h => by cases h⟩
    rw [GOp.exec] at h
    unfold removeEvidencesByName at h
    cases hm : Res.mapList s.findVariable ns with
    | ok vs =>
      rw [hm] at h
      exact removeEvidences_told hv.1 _ hi h
    | throw => rw [hm] at h; cases h
    | ub => rw [hm] at h; cases h
  | removeAllEvidences ord => exact gen _ (removeAllEvidences_told hv.1 hi)
  | setMaxIterations n =>
    refine ⟨fun s' h => ?_, fun s' _ h => by cases h⟩
    simp only [GOp.exec, Out.ok.injEq, and_true] at h
    rw [← h]
    exact Or.inr (Or.inl ⟨rfl, Outer.shape ⟨rfl, rfl, rfl, rfl, rfl⟩ hi.toCore (hi.settings _ _ _).toCore⟩)
  | marginal ord sched v n =>
    exact gen _ (reportedAt_drop (reportedAt_congr (marginalQuery_eq ord sched .sum v n)
      (asks_told hv.1.1 _ hv.1.2 (hth n rfl) _ hs.healthy)))
  | marginalByName ord sched name n =>
    refine gen _ (reportedAt_drop ?_)
    unfold ReportedAt getMarginalByName
    rcases findVariable_cases s name with ⟨v, h⟩ | h
    · rw [h]
      exact reportedAt_congr (marginalQuery_eq ord sched .sum v n) (asks_told hv.1.1 _ hv.1.2 (hth n rfl) _ hs.healthy)
    · rw [h]; exact Reported.rfl' s
  | map ord sched v n =>
    exact gen _ (reportedAt_drop (reportedAt_congr (getMAP_eq ord sched v n)
      (asks_told hv.1.1 _ hv.1.2 (hth n rfl) _ hs.healthy)))
  | hiddenSetMap ord sched n =>
    exact gen _ (reportedAt_drop (reportedAt_congr (getHiddenSetMAP_eq ord sched n)
      (asks_told hv.1.1 _ hv.1.2 (hth n rfl) _ hs.healthy)))
  | joint ord sh sched g n =>
    exact gen _ (reportedAt_drop (reportedAt_congr (getJoint_eq ord sh sched g n)
      (asks_told hv.1.1 _ hv.1.2.2 (hth n rfl) _ hs.healthy)))
  | gradient ord sched samples n =>
    refine gen _ (reportedAt_drop ?_)
    have h := gradient_told hv.1.1 hv.1.2 samples (hth n rfl) hs
    unfold ReportedAt
    cases hx : getWeightsGradient ord sched samples n s with
    | ok s' a => rw [hx] at h; obtain ⟨r, h1, _, h2⟩ := h; exact Or.inr (Or.inr ⟨r, h1, h2⟩)
    | throw s' => rw [hx] at h; obtain ⟨r, h1, _, h2⟩ := h; exact Or.inr (Or.inr ⟨r, h1, h2⟩)
    | ub => trivial
  | drawSamples ord rnd ctx n =>
    refine gen _ (reportedAt_drop ?_)
    obtain ⟨s', l, h1, h2, _, h4, _⟩ := makeSamples_ok hv.1 rnd ctx (hth n rfl) hi (by rw [hs.healthy.pool]; rfl)
    unfold ReportedAt
    rw [h1]
    exact Or.inr (Or.inl ⟨h4, h2.shape hi⟩)

end State

theorem reach_described {F : Type} [Arith F] {s : State F} (h : Reach Prudent s) :
    State.Sound False s ∧ ∀ r, s.last = some r → s.DescribedBy r := by
  have step : ∀ {s s' : State F}, State.Reported s s' → (∀ r, s.last = some r → s.DescribedBy r) →
      ∀ r, s'.last = some r → s'.DescribedBy r := by
    intro s s' ht hd r hr
    rcases ht with h1 | ⟨h1, h2⟩ | ⟨r', h1, h2⟩
    · rw [h1] at hr; cases hr
    · rw [h1] at hr; exact h2.described (hd r hr)
    · rw [h1] at hr; cases hr; exact h2
  induction h with
  | init hh =>
    exact ⟨State.sound_initial _ (fun f hf => factorReach_wf (hh f hf)), fun r hr => by cases hr⟩
  | ok _ hv hp he ih =>
    exact ⟨(State.exec_sound ih.1 hv hp (fun h => h.elim) (fun h => h.elim)).1 _ he,
      step ((State.exec_told ih.1 hv hp).1 _ he) ih.2⟩
  | throw _ hv hp hm he ih =>
    exact ⟨(State.exec_sound ih.1 hv hp (fun h => h.elim) (fun h => h.elim)).2 _ hm he,
      step ((State.exec_told ih.1 hv hp).2 _ hm he) ih.2⟩

end EFG
