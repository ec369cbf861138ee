import Verif.Lemmas.Trainer
import Verif.Lemmas.CrfSound
/-
The factors of a cluster of a conditional random field have one weight.
-/

set_option linter.unusedSectionVars false

namespace EFG
namespace State
variable {F : Type} [Arith F]

/-- However it ends, the factors and the heap are as before. -/
def StillAt {α : Type} (x : M (State F) α) (s : State F) : Prop :=
  match x s with
  | .ok s' _ => Inv s' ∧ SameAll s s'
  | .throw s' => Inv s' ∧ SameAll s s'
  | .ub => True

theorem MildAt.still {α : Type} {x : M (State F) α} {s : State F} (h : MildAt x s) : StillAt x s := by
  unfold MildAt at h
  unfold StillAt
  cases hx : x s with
  | ok s' a => rw [hx] at h; exact ⟨h.inv, h.toSameRegs, h.heap⟩
  | throw s' => rw [hx] at h; exact ⟨h.inv, h.toSameRegs, h.heap⟩
  | ub => trivial

theorem KeepsI.still {α : Type} {x : M (State F) α} (h : KeepsI x) {s : State F} (hs : Inv s) : StillAt x s := by
  unfold StillAt
  have := h s hs
  cases hx : x s with
  | ok s' a => rw [hx] at this; exact ⟨this.inv hs, this.toQuiet.toFrame.all⟩
  | throw s' => rw [hx] at this; exact ⟨this.inv hs, this.toQuiet.toFrame.all⟩
  | ub => trivial

theorem still_drop {α : Type} {x : M (State F) α} {s : State F} (h : StillAt x s) : StillAt (GOp.drop x) s := by
  unfold StillAt at h ⊢
  unfold GOp.drop
  cases hx : x s with
  | ok s' a => rw [hx] at h; exact h
  | throw s' => rw [hx] at h; exact h
  | ub => trivial

theorem withPool_still {α : Type} (n : Nat) {body : M (State F) α} (hb : Mildly body) {s : State F} (hs : Inv s) :
    StillAt (withPool n body) s := by
  unfold StillAt withPool
  have h0 : StillAt (setPoolSize n) s := by
    unfold StillAt setPoolSize
    cases s.pool with
    | none => trivial
    | some k =>
      simp only
      by_cases h1 : n = k
      · rw [if_pos h1]; exact ⟨hs, .rfl' s⟩
      · rw [if_neg h1]
        by_cases h2 : n = 0
        · rw [if_pos h2]; exact ⟨hs.settings _ _ _, ⟨rfl, rfl, rfl, rfl, rfl⟩, rfl⟩
        · rw [if_neg h2]; exact ⟨hs.settings _ _ _, ⟨rfl, rfl, rfl, rfl, rfl⟩, rfl⟩
  cases hp : setPoolSize n s with
  | ok s1 _ =>
    rw [StillAt, hp] at h0
    have h1 := (hb s1 h0.1).still
    simp only
    have hl : ∀ s2 : State F, SameAll s2 s2.resetPool := fun _ => ⟨⟨rfl, rfl, rfl, rfl, rfl⟩, rfl⟩
    cases hx : body s1 with
    | ok s2 a => rw [StillAt, hx] at h1; exact ⟨h1.1.settings _ _ _, (h0.2.trans h1.2).trans (hl s2)⟩
    | throw s2 => rw [StillAt, hx] at h1; exact ⟨h1.1.settings _ _ _, (h0.2.trans h1.2).trans (hl s2)⟩
    | ub => trivial
  | throw s1 => rw [StillAt, hp] at h0; exact h0
  | ub => trivial

theorem setEvidences_still {ord visit : List Var → List Var} (hord : ∀ l, (ord l).Perm l) (hvis : ∀ l, (visit l).Perm l)
    (values : List Nat) {s : State F} (hs : Inv s) : StillAt (setEvidences ord visit values) s := by
  unfold StillAt setEvidences
  by_cases hl : values.length ≠ s.evidences.length
  · rw [if_pos hl]; exact ⟨hs, .rfl' s⟩
  · rw [if_neg hl]
    exact (forEach_mild hord ((visit (AMap.keys s.evidences)).zip values) hs
      (fun e he => (hvis _).mem_iff.mp (List.of_mem_zip he).1)).still

theorem emplaceAll_still {ord visit : List Var → List Var} (hord : ∀ l, (ord l).Perm l) (hvis : ∀ l, (visit l).Perm l)
    (rnd : Nat → Random F) (ctx : SampleContext) (threads : Nat) : ∀ (evs : List (List Nat)) {s : State F}, Inv s →
    StillAt (emplaceAll ord visit rnd ctx threads evs) s := by
  intro evs
  induction evs with
  | nil => intro s hs; exact ⟨hs, .rfl' s⟩
  | cons ev evs ih =>
    intro s hs
    unfold StillAt
    rw [emplaceAll]
    have h1 : StillAt (emplaceSamples ord visit (rnd evs.length) ctx threads ev) s := by
      unfold StillAt emplaceSamples
      have h1 := setEvidences_still (F := F) hord hvis ev hs
      cases hx : setEvidences ord visit ev s with
      | throw s1 => rw [StillAt, hx] at h1; exact h1
      | ub => trivial
      | ok s1 u =>
        rw [StillAt, hx] at h1
        simp only
        have h2 := (makeSamples_asked hord (rnd evs.length) ctx threads).still h1.1
        cases hy : makeSamples ord (rnd evs.length) ctx threads s1 with
        | throw s2 => rw [StillAt, hy] at h2; exact ⟨h2.1, h1.2.trans h2.2⟩
        | ok s2 _ => rw [StillAt, hy] at h2; exact ⟨h2.1, h1.2.trans h2.2⟩
        | ub => trivial
    cases hx : emplaceSamples ord visit (rnd evs.length) ctx threads ev s with
    | throw s1 => rw [StillAt, hx] at h1; exact h1
    | ub => trivial
    | ok s1 l =>
      rw [StillAt, hx] at h1
      simp only
      have h2 := ih h1.1
      cases hy : emplaceAll ord visit rnd ctx threads evs s1 with
      | throw s2 => rw [StillAt, hy] at h2; exact ⟨h2.1, h1.2.trans h2.2⟩
      | ok s2 _ => rw [StillAt, hy] at h2; exact ⟨h2.1, h1.2.trans h2.2⟩
      | ub => trivial

theorem makeTrainSet_still {ord visit : List Var → List Var} (hord : ∀ l, (ord l).Perm l) (hvis : ∀ l, (visit l).Perm l)
    (obsOrder : List Var → List Var) (floorNat : F → Option Nat) (rnd : Nat → Random F) (ctx : SampleContext) (pct : F)
    (threads : Nat) {s : State F} (hs : Inv s) :
    StillAt (makeTrainSet ord visit obsOrder floorNat rnd ctx pct threads) s := by
  unfold StillAt makeTrainSet
  by_cases hp : (Arith.lt Arith.one pct || Arith.lt pct Arith.zero) = true
  · rw [if_pos hp]; exact ⟨hs, .rfl' s⟩
  · rw [if_neg hp]
    cases Group.ofSoup (obsOrder s.observedVariables) with
    | throw => exact ⟨hs, .rfl' s⟩
    | ub => trivial
    | ok g =>
      simp only
      cases trainCombinations floorNat g pct with
      | throw => exact ⟨hs, .rfl' s⟩
      | ub => trivial
      | ok evs => exact emplaceAll_still hord hvis rnd ctx threads evs hs

theorem Shared.all {s s' : State F} (h : Shared s) (ha : SameAll s s') : Shared s' :=
  h.kept ha.tuners (fun _ _ _ _ => weightOf_congr (by rw [ha.heap]))

theorem StillAt.shared {α : Type} {x : M (State F) α} {s : State F} (hx : StillAt x s) (h : Shared s) :
    (∀ s' a, x s = .ok s' a → Shared s') ∧ ∀ s', x s = .throw s' → Shared s' := by
  unfold StillAt at hx
  constructor
  · intro s' a he; rw [he] at hx; exact h.all hx.2
  · intro s' he; rw [he] at hx; exact h.all hx.2

/-- The operations on a conditional random field keep the weights inside the clusters equal if the weights of its
factors are not set from outside. -/
theorem crf_exec_shared {s : State F} (hs : Inv s) (hw : Weighted s) (h : Shared s) {positions : List Nat} {op : CrfOp F}
    (hv : op.Valid s) (ha : ∀ p w, op = .shared (.mutate p (.setWeight w)) → p ∉ s.factors) :
    (∀ s', op.exec positions s = .ok s' () → Shared s') ∧ ∀ s', op.exec positions s = .throw s' → Shared s' := by
  have unit : ∀ {x : M (State F) Unit}, ((∀ s' a, x s = .ok s' a → Shared s') ∧ ∀ s', x s = .throw s' → Shared s') →
      (∀ s', x s = .ok s' () → Shared s') ∧ ∀ s', x s = .throw s' → Shared s' := fun hx => ⟨fun s' he => hx.1 s' () he, hx.2⟩
  cases op with
  | setEvidences ord visit values => exact unit ((setEvidences_still hv.1 hv.2 values hs).shared h)
  | gradient ord visit sched samples n =>
    exact unit ((still_drop (withPool_still n (crfGradient_mildly hv.1 hv.2.1 sched positions samples) hs)).shared h)
  | trainSet ord visit obsOrder fl rnd ctx pct n =>
    exact unit ((still_drop (makeTrainSet_still hv.1 hv.2.1 obsOrder fl rnd ctx pct n hs)).shared h)
  | shared op =>
    obtain ⟨ho, hv⟩ := hv
    show (∀ s', op.exec s = .ok s' () → Shared s') ∧ ∀ s', op.exec s = .throw s' → Shared s'
    by_cases hc : op.Alters = false
    · have hi : op.Inserts = false := by cases op <;> first | rfl | cases ho
      have he := exec_all hs hv hi hc
      exact ⟨fun s' hx => h.all (he.1 s' hx), fun s' hx => h.all (he.2 s' hx)⟩
    · cases op with
      | create f =>
        refine ⟨fun s' hx => ?_, nofun⟩
        have : s' = (s.alloc f).1 := by cases hx; rfl
        subst this
        refine h.kept rfl (fun t hm b hb => ?_)
        obtain ⟨g, h1, _⟩ := hw.exp _ (hw.mem hm hb)
        exact weightOf_congr (by rw [getElem?_alloc h1, h1])
      | mutate p o =>
        have hk := mutate_kept (p := p) (op := o) hs (by
          rintro ⟨vs, rfl⟩
          exact hv.2)
        show (∀ s', GOp.onHeap (Heap.mutate p o) s = .ok s' () → Shared s') ∧
          ∀ s', GOp.onHeap (Heap.mutate p o) s = .throw s' → Shared s'
        cases he : GOp.onHeap (Heap.mutate p o) s with
        | ok s' _ =>
          rw [he] at hk
          obtain ⟨_, h2, h3, h4⟩ := hk
          refine ⟨fun s'' hx => ?_, nofun⟩
          cases hx
          refine h.kept (by rw [h2]) ?_
          intro t hm b hb
          obtain ⟨f, hf, _⟩ := hw.exp _ (hw.mem hm hb)
          by_cases hsw : ∀ w, o ≠ .setWeight w
          · obtain ⟨g, hg1, hg2⟩ := h3 hsw b.factor f hf
            unfold weightOf
            rw [hg1, hf]
            show Res.ofOption g.weight = Res.ofOption f.weight
            rw [hg2]
          · push Not at hsw
            obtain ⟨w, rfl⟩ := hsw
            refine weightOf_congr (h4 _ ?_)
            rintro hp
            exact ha p w rfl (hp ▸ hw.reg _ (hw.mem hm hb))
        | throw s' =>
          rw [he] at hk
          refine ⟨nofun, fun s'' hx => ?_⟩
          cases hx
          rw [hk]; exact h
        | ub => exact ⟨nofun, nofun⟩
      | setWeights ws =>
        show (∀ s', setWeights ws s = .ok s' () → Shared s') ∧ ∀ s', setWeights ws s = .throw s' → Shared s'
        by_cases hl : ws.length = s.tuners.length
        · obtain ⟨s', h1, h2, _, h3, _⟩ := setWeights_ok hw hl
          rw [h1]
          refine ⟨fun s'' hx => ?_, nofun⟩
          cases hx
          intro t hm b hb c hc
          rw [h2] at hm
          obtain ⟨k, hk⟩ := List.mem_iff_getElem?.mp hm
          have hlt := (List.getElem?_eq_some_iff.mp hk).1
          change k < s.tuners.length at hlt
          have hkw : ws[k]? = some ws[k] := List.getElem?_eq_getElem (by omega)
          rw [h3 k t _ hk hkw b hb, h3 k t _ hk hkw c hc]
        · unfold setWeights
          rw [if_pos hl]
          refine ⟨nofun, fun s'' hx => ?_⟩
          cases hx
          exact h
      | _ => first | exact absurd rfl hc | cases ho

theorem Shared.equal {s : State F} (h : Shared s) (hw : Weighted s) : s.EqualWeights := by
  intro c hc p hp q hq f g hf hg
  unfold tunableClusters at hc
  obtain ⟨t, ht, rfl⟩ := List.mem_map.mp hc
  obtain ⟨b, hb, rfl⟩ := List.mem_map.mp hp
  obtain ⟨d, hd, rfl⟩ := List.mem_map.mp hq
  obtain ⟨f', f1, f2⟩ := hw.exp _ (hw.mem ht hb)
  obtain ⟨g', g1, g2⟩ := hw.exp _ (hw.mem ht hd)
  rw [hf] at f1; cases f1
  rw [hg] at g1; cases g1
  have := h t ht b hb d hd
  unfold weightOf at this
  rw [hf, hg] at this
  obtain ⟨x, hx⟩ := Option.isSome_iff_exists.mp f2
  obtain ⟨y, hy⟩ := Option.isSome_iff_exists.mp g2
  simp only [hx, hy, Res.ofOption] at this
  cases this
  rw [hx, hy]

end State
end EFG
