import Verif.Lemmas.CrfSound
import Verif.Spec.CrfPrudent
/-
The operations of a conditional random field keep the values which setting the evidences does not renew.
-/

set_option linter.unusedSectionVars false

namespace EFG
namespace State
variable {F : Type} [Arith F]

theorem keepsH_drop {α : Type} {n : Nat} {x : M (State F) α} {s : State F} (h : KeepsH n x s) :
    KeepsH n (GOp.drop x) s := by
  unfold KeepsH at h ⊢
  unfold GOp.drop
  cases hx : x s with
  | ok s' a => rw [hx] at h; exact h
  | throw s' => rw [hx] at h; exact h
  | ub => trivial

theorem keepsH_congr {α : Type} {n : Nat} {x y : M (State F) α} {s : State F} (e : x s = y s) (h : KeepsH n y s) :
    KeepsH n x s := by
  unfold KeepsH at h ⊢
  rw [e]; exact h

/-- A factor which is read by a product that the evidences do not renew has to be unchanged. -/
theorem Renewable.unread {n : Nat} {s : State F} (hs : Half n s) {p : Nat} (hr : s.Renewable p) {v : Var} (hv : v ∉ s.obs)
    (hd : ∀ w, s.dis v w = none) (hm : (s.mrg v).isSome) : p ∉ s.una v := by
  intro hq
  have hc := hs.renewed.inv.toCore
  obtain ⟨_, _, f, h5, h6⟩ := hc.unary v _ hq
  unfold State.mrg at hm
  cases hn : s.node? v with
  | none => rw [hn] at hm; cases hm
  | some nd =>
    rw [hn] at hm
    rcases hr f v nd h5 h6.vars hn with h7 | ⟨w, h7, h8⟩
    · simp only at hm
      rw [h7] at hm
      cases hm
    · obtain ⟨p, h9⟩ := Option.isSome_iff_exists.mp (hc.joins_iff.mp h7)
      rcases lnk_cases h9 with ⟨c, h10, _⟩ | ⟨_, c, h10, _⟩
      · exact hs.renewed.sep v w hv (by rw [h10]; rfl) (observes_iff.mp h8)
      · rw [hd] at h10; cases h10

theorem Half.mutate {n : Nat} {p : Nat} {op : Heap.Op F} {s : State F} (hs : Half n s)
    (hv : (∃ vs, op = .replaceVariables vs) → p ∉ s.factors) (hp : p ∈ s.factors → s.Renewable p) :
    KeepsH n (GOp.onHeap (Heap.mutate p op)) s := by
  have h := mutate_inv (op := op) hs.renewed.inv hv
  have key : ∀ g : Fn F, Inv ({ s with heap := s.heap.set p g } : State F) → Half n { s with heap := s.heap.set p g } := by
    intro g hi
    refine hs.outer (s' := { s with heap := s.heap.set p g }) ⟨rfl, rfl, rfl, rfl, rfl⟩ hi (fun v hv hd hm q hq => ?_)
    obtain ⟨hqf, _⟩ := hs.renewed.inv.toCore.unary v q hq
    show (s.heap.set p g)[q]? = _
    rw [List.getElem?_set, if_neg]
    rintro rfl
    exact Renewable.unread hs (hp hqf) hv hd hm hq
  unfold KeepsH
  unfold GOp.onHeap Heap.mutate at h ⊢
  cases hp : s.heap[p]? with
  | none => trivial
  | some f =>
    rw [hp] at h
    simp only at h ⊢
    cases ho : Heap.applyOp op f with
    | ok g _ => rw [ho] at h; exact key g h
    | throw g => rw [ho] at h; exact key g h
    | ub => trivial

theorem Half.setWeights {n : Nat} {s : State F} (hs : Half n s) (ws : List F)
    (hw : ∀ t ∈ s.tuners, ∀ b ∈ t, s.Renewable b.factor) : KeepsH n (setWeights ws) s := by
  have hc := hs.renewed.inv.toCore
  have h0 := setWeights_preserves ws s hs.renewed.inv
  unfold KeepsH
  unfold State.setWeights at h0 ⊢
  by_cases h : ws.length ≠ s.tuners.length
  · rw [if_pos h]; exact hs
  · rw [if_neg h] at h0 ⊢
    simp only at h0 ⊢
    obtain ⟨hp, h1, h2⟩ := setTunersWeights_eq (s.tuners.zip ws) s
    have hother := fun q => setTunersWeights_other (q := q) (s.tuners.zip ws) s
    rw [h1] at hother h0 ⊢
    refine hs.outer (s' := State.resetBelief { s with heap := hp }) ⟨rfl, rfl, rfl, rfl, rfl⟩ h0
      (fun v hv hd hm q hq => ?_)
    by_cases hqt : ∀ e ∈ s.tuners.zip ws, q ∉ e.1.map BaseTuner.factor
    · exact hother q hqt
    · exfalso
      push Not at hqt
      obtain ⟨e, he, h3⟩ := hqt
      obtain ⟨t, h4, rfl⟩ := List.mem_map.mp h3
      exact Renewable.unread hs (hw e.1 (List.of_mem_zip he).1 t h4) hv hd hm hq

/-- The operations keep what setting the evidences does not renew. -/
theorem Half.exec {s : State F} (hs : Half 1 s) {op : CrfOp F} {positions : List Nat} (hv : op.Valid s)
    (hp : CrfPrudent s op) : KeepsH 1 (op.exec positions) s := by
  have hth : ∀ n, op.threads = some n → 1 ≤ n := by
    intro n hn
    have := hp.threads
    rw [hn] at this
    rcases Nat.eq_zero_or_pos n with h | h
    · subst h; exact absurd rfl this
    · exact h
  cases op with
  | setEvidences ord visit values => exact hs.setEvidences hv.1 hv.2 values
  | gradient ord visit sched samples n =>
    exact keepsH_drop (hs.withPool (hth n rfl) (fun s' hs' => hs'.crfGradient (hth n rfl) hv.1 hv.2.1 hv.2.2 positions samples))
  | trainSet ord visit obsOrder fl rnd ctx pct n =>
    exact keepsH_drop (hs.makeTrainSet hv.1 hv.2.1 obsOrder fl rnd ctx pct (hth n rfl))
  | shared op =>
    obtain ⟨hk, hv⟩ := hv
    cases op with
    | create f =>
      refine hs.outer (s' := (s.alloc f).1) ⟨rfl, rfl, rfl, rfl, rfl⟩ (hs.renewed.inv.create (factorReach_wf hv.2)) (fun v _ _ _ p hq => ?_)
      obtain ⟨_, hqf, g, h1, _⟩ := hs.renewed.inv.toCore.unary v p hq
      rw [getElem?_alloc h1, h1]
    | mutate p o => exact hs.mutate (by rintro ⟨vs, rfl⟩; exact hv.2) (hp.values p o rfl)
    | setWeights ws => exact hs.setWeights ws (hp.weights ws rfl)
    | setMaxIterations n =>
      exact hs.outer (s' := { s with maxIter := n }) ⟨rfl, rfl, rfl, rfl, rfl⟩ (hs.renewed.inv.settings _ _ _) (fun _ _ _ _ _ _ => rfl)
    | marginal ord sched v n =>
      exact keepsH_drop (keepsH_congr (marginalQuery_eq ord sched .sum v n s) (hs.asks (hth n rfl) hv.1.1 hv.1.2 _ _))
    | marginalByName ord sched name n =>
      refine keepsH_drop ?_
      unfold KeepsH getMarginalByName
      rcases findVariable_cases s name with ⟨v, h⟩ | h
      · rw [h]
        have := hs.asks (hth n rfl) hv.1.1 hv.1.2 .sum (fun s => readMarginal ord v s)
        exact keepsH_congr (marginalQuery_eq ord sched .sum v n s) this
      · rw [h]; exact hs
    | map ord sched v n =>
      exact keepsH_drop (keepsH_congr (getMAP_eq ord sched v n s) (hs.asks (hth n rfl) hv.1.1 hv.1.2 _ _))
    | hiddenSetMap ord sched n =>
      exact keepsH_drop (keepsH_congr (getHiddenSetMAP_eq ord sched n s) (hs.asks (hth n rfl) hv.1.1 hv.1.2 _ _))
    | joint ord sh sched g n =>
      exact keepsH_drop (keepsH_congr (getJoint_eq ord sh sched g n s) (hs.asks (hth n rfl) hv.1.1 hv.1.2.2 _ _))
    | drawSamples ord rnd ctx n => exact keepsH_drop (hs.makeSamples hv.1 rnd ctx (hth n rfl))
    | _ => cases hk

/-- A conditional random field which was just made has no cached products. -/
theorem make_half {s : State F} (hr : Reach Prudent s) {o : VisitOrder} (ho : o.Perms) {copy : Bool} {c : Crf F}
    (h : Crf.make o s copy = .ok c) : Half 1 c.state := by
  have hH := reach_healthy hr
  obtain ⟨t, h1, h2, h3, _⟩ := make_when (b := True) ho (reach_inv hr) (reach_built hr) (reach_tuned hr)
    (fun p hp => (reach_registered hr).mem_iff.mpr (List.mem_append_left _ hp)) (fun _ => hH.sizes) h
  have hT := reach_healthy (reach_when (fun _ _ hw => hw.1 trivial) h1)
  rw [h3]
  have hi := hT.inv.registry t.consts t.tunables c.state.tuners
  refine ⟨⟨hi, hT.sep, hT.sizes, ?_, fun _ _ _ _ h => h.elim⟩, hT.pool⟩
  intro u _ _ _ m hm
  have : t.mrg u = some m := hm
  rw [h2] at this
  cases this

/-- Nothing which setting the evidences does not renew is stale after a prudent execution. -/
theorem crf_half {src : State F} (h : Reach Prudent src) {o : VisitOrder} (ho : o.Perms) {copy : Bool} {c : Crf F}
    (hc : CrfReach CrfPrudent src o copy c) : Half 1 c.state := by
  induction hc with
  | made hm => exact make_half h ho hm
  | @ok c _ _ _ hv hp he ih =>
    have := ih.exec (positions := c.positions) hv hp
    unfold KeepsH at this
    rw [he] at this
    exact this
  | @throw c _ _ _ hv hp he ih =>
    have := ih.exec (positions := c.positions) hv hp
    unfold KeepsH at this
    rw [he] at this
    exact this

end State
end EFG
