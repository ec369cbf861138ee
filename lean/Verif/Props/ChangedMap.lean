import Verif.Props.Changed
import Verif.Props.ExactMap
import Verif.Props.Joint
/-
C70: the MAP estimates and the joint distributions after a factor which was already inserted is changed.
-/

set_option linter.unusedSectionVars false

namespace EFG

section
variable {F : Type} [Arith F]

theorem mutate_others {p : Nat} {o : Heap.Op F} {s s' : State F}
    (h : (GOp.mutate p o).exec s = .ok s' () ∨ (GOp.mutate p o).exec s = .throw s') :
    ∃ g, s' = { s with heap := s.heap.set p g } := by
  change GOp.onHeap (Heap.mutate p o) s = .ok s' () ∨ GOp.onHeap (Heap.mutate p o) s = .throw s' at h
  unfold GOp.onHeap Heap.mutate at h
  cases hp : s.heap[p]? with
  | none => rw [hp] at h; rcases h with h | h <;> cases h
  | some f =>
    rw [hp] at h
    simp only at h
    cases ho : Heap.applyOp o f with
    | ok g _ => rw [ho] at h; rcases h with h | h <;> cases h; exact ⟨g, rfl⟩
    | throw g => rw [ho] at h; rcases h with h | h <;> cases h; exact ⟨g, rfl⟩
    | ub => rw [ho] at h; rcases h with h | h <;> cases h

theorem Res.mapList_same {α β : Type} {f g : α → Res β} {l : List α} (h : ∀ a ∈ l, f a = g a) :
    Res.mapList f l = Res.mapList g l := by
  induction l with
  | nil => rfl
  | cons a l ih =>
    rw [Res.mapList_cons, Res.mapList_cons, h a (by simp), ih (fun b hb => h b (by simp [hb]))]

theorem State.locateAll_heap (s : State F) (y : Heap F) (l : List Var) :
    State.locateAll { s with heap := y } l = State.locateAll s l := by
  induction l with
  | nil => rfl
  | cons v l ih =>
    rw [State.locateAll, State.locateAll, ih]
    rfl

/-- What is read for a joint distribution, if the functions which join two of its variables are the same. -/
theorem State.jointOf_heap {s : State F} (hs : Inv s) (ord : List Var → List Var)
    {sh : List State.Contribution → List State.Contribution} (hsh : ∀ l, (sh l).Perm l) {G : Group}
    (hsub : ∀ v ∈ G.group, v ∈ s.vars) {p : Nat} {g : Fn F}
    (hout : ∀ u w, s.FactorOn p [u, w] → ¬(u ∈ G.group ∧ w ∈ G.group)) :
    State.jointOf ord sh G { s with heap := s.heap.set p g } = State.jointOf ord sh G s := by
  unfold State.jointOf
  rw [State.locateAll_heap]
  obtain ⟨locs, h1, h2, _⟩ := hs.locateAll hsub
  rw [h1]
  simp only
  rw [h2]
  have hc : State.contributionsOf { s with heap := s.heap.set p g } G.group = State.contributionsOf s G.group := rfl
  rw [hc]
  cases hm : Res.mapList (State.contributionsOf s G.group) locs with
  | throw => rfl
  | ub => rfl
  | ok cs =>
    simp only
    rw [Res.mapList_same (g := s.contribution) (fun c hcm => ?_)]
    rw [(hsh _).mem_iff, List.mem_dedup, List.mem_flatten] at hcm
    obtain ⟨l, hl, hcl⟩ := hcm
    have h3 := Res.mapList_eq_ok.mp hm
    obtain ⟨i, hi⟩ := List.mem_iff_getElem?.mp hl
    obtain ⟨hil, hie⟩ := List.getElem?_eq_some_iff.mp hi
    have h4 := List.Forall₂.get h3 (i := i) (by rw [h3.length_eq]; exact hil) hil
    simp only [List.get_eq_getElem, hie] at h4
    have hin : ∀ e ∈ locs, e.1 ∈ G.group := fun e he => by rw [← h2]; exact List.mem_map.mpr ⟨e, he, rfl⟩
    have hmem := hin _ (List.getElem_mem (l := locs) (n := i) (by rw [h3.length_eq]; exact hil))
    generalize locs[i]'(by rw [h3.length_eq]; exact hil) = e at h4 hmem
    cases c with
    | merged v => rfl
    | message r => rfl
    | indicator v k => rfl
    | factor q =>
      show Heap.get (s.heap.set p g) q = Heap.get s.heap q
      have hne : p ≠ q := by
        rintro rfl
        unfold State.contributionsOf at h4
        cases he : e.2 with
        | observed k =>
          rw [he] at h4
          simp only at h4
          cases ho : AMap.find? s.evidences k with
          | none => rw [ho] at h4; cases h4
          | some x =>
            rw [ho] at h4
            simp only at h4
            split at h4
            · cases h4
            · cases h4; simp at hcl
        | hidden _ =>
          rw [he] at h4
          simp only at h4
          cases hn : s.node? e.1 with
          | none => rw [hn] at h4; cases h4
          | some n =>
            rw [hn] at h4
            simp only at h4
            cases hg : n.merged with
            | none => rw [hg] at h4; cases h4
            | some _ =>
              rw [hg] at h4
              cases h4
              rcases List.mem_cons.mp hcl with h | h
              · cases h
              · obtain ⟨⟨w, cn⟩, hx, h5⟩ := List.mem_map.mp h
                simp only at h5
                by_cases hw : G.group.contains w = true
                · simp only [hw, if_true] at h5
                  cases h5
                  have hact : s.act e.1 w = some cn := by
                    have : (w, cn) ∈ s.activeOf e.1 := by unfold State.activeOf; rw [hn]; exact hx
                    exact AMap.find?_of_mem (hs.net.nodup e.1).1 this
                  obtain ⟨k1, f, k2, k3⟩ := hs.link e.1 w cn.factor (State.lnk_of_act hact)
                  rcases k3.vars with k | k
                  · exact hout e.1 w ⟨k1, f, k2, k⟩ ⟨hmem, by simpa using hw⟩
                  · exact hout w e.1 ⟨k1, f, k2, k⟩ ⟨by simpa using hw, hmem⟩
                · simp only [hw, Bool.false_eq_true, if_false] at h5
                  cases h5
      unfold Heap.get
      rw [List.getElem?_set_ne hne]

/-- C70, as the library behaves: whatever is done to a factor after a joint distribution was asked, the same joint
distribution asked again is the same as before the change, unless the factor joins two variables of the group. -/
theorem C70_unnoticed_joint {s : State F} (h : Reach Prudent s) {ord : List Var → List Var}
    (hord : ∀ l, (ord l).Perm l) {sh : List State.Contribution → List State.Contribution} (hsh : ∀ l, (sh l).Perm l)
    {sched sched' : Sched} (hsched : ∀ l, (sched l).Perm l) {n m : Nat} (hn : 1 ≤ n)
    {G : Group} (hsub : ∀ v ∈ G.group, v ∈ s.vars) {s1 s2 : State F} {x : Fn F}
    (h1 : State.getJoint ord sh sched G n s = .ok s1 x) {p : Nat} {o : Heap.Op F}
    (hout : ∀ u w, s.FactorOn p [u, w] → ¬(u ∈ G.group ∧ w ∈ G.group))
    (h2 : (GOp.mutate p o).exec s1 = .ok s2 () ∨ (GOp.mutate p o).exec s1 = .throw s2) :
    State.getJoint ord sh sched' G m s2 = .ok s2 x := by
  obtain ⟨y, rfl⟩ := mutate_others h2
  rw [State.getJoint_eq] at h1 ⊢
  obtain ⟨t, r, k1, ha, hh, k2, k3, _⟩ := State.checkPropagation_ok hord .sum hsched (reach_healthy h) hn
  unfold State.asks at h1 ⊢
  rw [k1] at h1
  simp only at h1
  have h3 : s1 = t ∧ State.jointOf ord sh G t = .ok x := by
    unfold State.lift at h1
    cases hr : State.jointOf ord sh G t with
    | ok z => rw [hr] at h1; cases h1; exact ⟨rfl, rfl⟩
    | throw => rw [hr] at h1; cases h1
    | ub => rw [hr] at h1; cases h1
  obtain ⟨rfl, h3⟩ := h3
  have h4 : State.checkPropagation ord sched' .sum m { s1 with heap := s1.heap.set p y } =
      .ok { s1 with heap := s1.heap.set p y } () := by
    unfold State.checkPropagation State.wouldNeedPropagation
    simp [k2, k3]
  have hq := ha.toQuiet
  have h5 := State.jointOf_heap (s := s1) (ord := ord) (sh := sh) hh.inv hsh (G := G)
    (fun v hv => by rw [hq.vars]; exact hsub v hv) (p := p) (g := y)
    (fun u w hf => hout u w (by unfold State.FactorOn at hf ⊢; rw [hq.factors, hq.heap] at hf; exact hf))
  rw [h4]
  simp only
  unfold State.lift
  rw [h5, h3]

end

variable {K : Type} [Field K] [LinearOrder K] [IsStrictOrderedRing K] [FloatParams K]

theorem State.joined_congr {s t : State (Ext K)} (hv : t.vars = s.vars) (hf : ∀ p l, t.FactorOn p l ↔ s.FactorOn p l)
    (ho : ∀ v, t.Observes v ↔ s.Observes v) {G : List Var} (h : s.Joined G) : t.Joined G := by
  have hH : ∀ v, t.Hidden v ↔ s.Hidden v := fun v => by unfold State.Hidden; rw [ho, hv]
  have hJ : ∀ u v, t.Joins u v ↔ s.Joins u v := by
    intro u v
    simp only [State.Joins, hf]
  unfold State.Joined State.Linked at *
  simp only [hH, hJ]
  exact h

/-- The MAP estimates after the replacement of a factor. -/
theorem State.replaced_map {s : State (Ext K)} (h : Reach (fun s op => Prudent s op ∧ Steady s op) s) {p : Nat}
    (hlast : s.last = none) (hu : s.Uncached p) {o : Heap.Op (Ext K)}
    (hw : ∀ w, o ≠ .setWeight w) (hr : ∀ l, o ≠ .replaceVariables l) {f g : Fn (Ext K)} (hf : s.heap[p]? = some f)
    (hg : Heap.applyOp o f = .ok g ()) (hgv : g.vars = f.vars)
    {ord : List Var → List Var} (hord : ∀ l, (ord l).Perm l) {sched : Sched} (hsched : ∀ l, (sched l).Perm l)
    {n : Nat} (hn : 1 ≤ n) {ψ : Nat → Assign → K}
    (hψ : ({ s with heap := s.heap.set p g } : State (Ext K)).Images ψ) (hsym : s.Symmetric ψ) (hfl : s.Floored ψ) {v w : Var}
    (hv : s.Hidden v) (hvw : v.eqv w = true) (ht : s.TreeAt v) (hpos : ∃ e, s.Agrees e ∧ s.weight ψ e ≠ 0) :
    ∃ s' s'' k, (GOp.mutate p o).exec s = .ok s' () ∧ State.getMAP ord sched w n s' = .ok s'' k ∧
      ∃ a, s.MostProbable (s.weight ψ) a ∧ a v = k := by
  obtain ⟨h1, h2, hF⟩ := State.replaced_step h hlast hu hw hr hf hg hgv
  obtain ⟨s'', k, h3, h4⟩ := C26_map_exact_partial h2 hord hsched hn hψ
    (fun q a b hq ha hb => hsym q a b ((hF q _).mp hq) ha hb)
    (fun q a b hq ha hb => hfl q a b ((hF q _).mp hq) ha hb) (v := v) (w := w) hv hvw
    (State.treeAt_congr (s := s) (t := { s with heap := s.heap.set p g }) rfl hF (fun _ => Iff.rfl) ht) hpos
  exact ⟨_, s'', k, h1, h3, h4⟩

/-- The joint distributions after the replacement of a factor. -/
theorem State.replaced_joint {s : State (Ext K)} (h : Reach (fun s op => Prudent s op ∧ Steady s op) s) {p : Nat}
    (hlast : s.last = none) (hu : s.Uncached p) {o : Heap.Op (Ext K)}
    (hw : ∀ w, o ≠ .setWeight w) (hr : ∀ l, o ≠ .replaceVariables l) {f g : Fn (Ext K)} (hf : s.heap[p]? = some f)
    (hg : Heap.applyOp o f = .ok g ()) (hgv : g.vars = f.vars)
    {ord : List Var → List Var} (hord : ∀ l, (ord l).Perm l) {sh : List State.Contribution → List State.Contribution}
    (hsh : ∀ l, (sh l).Perm l) {sched : Sched} (hsched : ∀ l, (sched l).Perm l)
    {n : Nat} (hn : 1 ≤ n) {ψ : Nat → Assign → K}
    (hψ : ({ s with heap := s.heap.set p g } : State (Ext K)).Images ψ) (hsym : s.Symmetric ψ)
    {G : Group} (hG : GroupReach G) (hne : G.group ≠ []) (hsub : ∀ v ∈ G.group, v ∈ s.vars)
    (hobs : ∀ u ∈ G.group, ∀ v ∈ G.group, s.Observes u → s.Observes v → u = v)
    (ht : ∀ v ∈ G.group, s.Hidden v → s.TreeAt v) (hj : s.Joined G.group)
    {l : List Var} (hl : s.OthersOf G.group l) {e : Assign} (he : s.Agrees e)
    (hpos : ∃ a, s.Agrees a ∧ s.weight ψ a ≠ 0) :
    ∃ s' s'' q, (GOp.mutate p o).exec s = .ok s' () ∧ State.getJoint ord sh sched G n s' = .ok s'' q ∧
      q.vars.group = G.group ∧ ∃ C : K, 0 < C ∧ ∀ a, InDom G.group a →
        q.findTransformed (G.group.map a) = .ok (.val (C * s.jointMass (s.weight ψ) l e G.group a)) := by
  obtain ⟨h1, h2, hF⟩ := State.replaced_step h hlast hu hw hr hf hg hgv
  obtain ⟨s'', q, h3, h4⟩ := C34_joint_partial h2 hord hsh hsched hn hψ
    (fun q a b hq ha hb => hsym q a b ((hF q _).mp hq) ha hb) hG hne hsub hobs
    (fun v hv hh => State.treeAt_congr (s := s) (t := { s with heap := s.heap.set p g }) rfl hF (fun _ => Iff.rfl) (ht v hv hh))
    (State.joined_congr (s := s) (t := { s with heap := s.heap.set p g }) rfl hF (fun _ => Iff.rfl) hj) (l := l) hl (e := e) he hpos
  exact ⟨_, s'', q, h1, h3, h4⟩

/-- C70: the MAP estimate after an image of a factor of the model was changed, while nothing computed from it is
cached, is the value in a most probable assignment of the product in which the factor has the new image.

Missing: the changes made after a query, which are not noticed (`C70_unnoticed_map`), and what is
missing in `C26_map_exact_partial`. -/
theorem C70_set_map_partial {s : State (Ext K)} (h : Reach (fun s op => Prudent s op ∧ Steady s op) s) {p : Nat}
    (hp : p ∈ s.factors) (hlast : s.last = none) (hu : s.Uncached p) {f : Fn (Ext K)} (hf : s.heap[p]? = some f)
    {c : List Nat} (hc : Valid (f.vars.group.map Var.size) c) {x y : K} (hx : 0 ≤ x) (hy : State.ImageOf f.weight x y) (hy0 : 0 ≤ y)
    {ord : List Var → List Var} (hord : ∀ l, (ord l).Perm l) {sched : Sched} (hsched : ∀ l, (sched l).Perm l)
    {n : Nat} (hn : 1 ≤ n) {φ : Nat → Assign → K} (hφ : s.Images φ)
    (hsym : s.Symmetric (State.overwrite φ p f.vars.group c y)) (hfl : s.Floored (State.overwrite φ p f.vars.group c y))
    {v w : Var} (hv : s.Hidden v) (hw : v.eqv w = true) (ht : s.TreeAt v)
    (hpos : ∃ e, s.Agrees e ∧ s.weight (State.overwrite φ p f.vars.group c y) e ≠ 0) :
    ∃ s' s'' k, (GOp.mutate p (.set c (.val x))).exec s = .ok s' () ∧ State.getMAP ord sched w n s' = .ok s'' k ∧
      ∃ a, s.MostProbable (s.weight (State.overwrite φ p f.vars.group c y)) a ∧ a v = k := by
  obtain ⟨g, h1, h2, h3⟩ := State.set_images (reach_inv h) hp hf hc hx hy hy0 hφ
  exact State.replaced_map h hlast hu (o := .set c (.val x)) (by rintro _ ⟨⟩) (by rintro _ ⟨⟩) hf h1 h2 hord hsched hn h3
    hsym hfl hv hw ht hpos

/-- C70: the same for `clear`. Partial for the same reasons. -/
theorem C70_clear_map_partial {s : State (Ext K)} (h : Reach (fun s op => Prudent s op ∧ Steady s op) s) {p : Nat}
    (hp : p ∈ s.factors) (hlast : s.last = none) (hu : s.Uncached p) {f : Fn (Ext K)} (hf : s.heap[p]? = some f)
    {y : K} (hy : State.ImageOf f.weight 0 y) (hy0 : 0 ≤ y)
    {ord : List Var → List Var} (hord : ∀ l, (ord l).Perm l) {sched : Sched} (hsched : ∀ l, (sched l).Perm l)
    {n : Nat} (hn : 1 ≤ n) {φ : Nat → Assign → K} (hφ : s.Images φ)
    (hsym : s.Symmetric (State.erase φ p y)) (hfl : s.Floored (State.erase φ p y))
    {v w : Var} (hv : s.Hidden v) (hw : v.eqv w = true) (ht : s.TreeAt v)
    (hpos : ∃ e, s.Agrees e ∧ s.weight (State.erase φ p y) e ≠ 0) :
    ∃ s' s'' k, (GOp.mutate p .clear).exec s = .ok s' () ∧ State.getMAP ord sched w n s' = .ok s'' k ∧
      ∃ a, s.MostProbable (s.weight (State.erase φ p y)) a ∧ a v = k :=
  State.replaced_map h hlast hu (o := .clear) (by rintro _ ⟨⟩) (by rintro _ ⟨⟩) hf (g := f.clear) rfl rfl
    hord hsched hn (State.clear_images (reach_inv h) hp hf hy hy0 hφ) hsym hfl hv hw ht hpos

/-- C70: the joint distribution of a group after an image of a factor of the model was changed, while nothing
computed from it is cached, is that of the product in which the factor has the new image.

Missing: the changes made after a query (`C70_unnoticed_joint`, `C70_joint_violated`), and what is missing in
`C34_joint_partial`. -/
theorem C70_set_joint_partial {s : State (Ext K)} (h : Reach (fun s op => Prudent s op ∧ Steady s op) s) {p : Nat}
    (hp : p ∈ s.factors) (hlast : s.last = none) (hu : s.Uncached p) {f : Fn (Ext K)} (hf : s.heap[p]? = some f)
    {c : List Nat} (hc : Valid (f.vars.group.map Var.size) c) {x y : K} (hx : 0 ≤ x) (hy : State.ImageOf f.weight x y) (hy0 : 0 ≤ y)
    {ord : List Var → List Var} (hord : ∀ l, (ord l).Perm l) {sh : List State.Contribution → List State.Contribution}
    (hsh : ∀ l, (sh l).Perm l) {sched : Sched} (hsched : ∀ l, (sched l).Perm l)
    {n : Nat} (hn : 1 ≤ n) {φ : Nat → Assign → K} (hφ : s.Images φ)
    (hsym : s.Symmetric (State.overwrite φ p f.vars.group c y))
    {G : Group} (hG : GroupReach G) (hne : G.group ≠ []) (hsub : ∀ v ∈ G.group, v ∈ s.vars)
    (hobs : ∀ u ∈ G.group, ∀ v ∈ G.group, s.Observes u → s.Observes v → u = v)
    (ht : ∀ v ∈ G.group, s.Hidden v → s.TreeAt v) (hj : s.Joined G.group)
    {l : List Var} (hl : s.OthersOf G.group l) {e : Assign} (he : s.Agrees e)
    (hpos : ∃ a, s.Agrees a ∧ s.weight (State.overwrite φ p f.vars.group c y) a ≠ 0) :
    ∃ s' s'' q, (GOp.mutate p (.set c (.val x))).exec s = .ok s' () ∧ State.getJoint ord sh sched G n s' = .ok s'' q ∧
      q.vars.group = G.group ∧ ∃ C : K, 0 < C ∧ ∀ a, InDom G.group a → q.findTransformed (G.group.map a) =
        .ok (.val (C * s.jointMass (s.weight (State.overwrite φ p f.vars.group c y)) l e G.group a)) := by
  obtain ⟨g, h1, h2, h3⟩ := State.set_images (reach_inv h) hp hf hc hx hy hy0 hφ
  exact State.replaced_joint h hlast hu (o := .set c (.val x)) (by rintro _ ⟨⟩) (by rintro _ ⟨⟩) hf h1 h2 hord hsh hsched hn h3
    hsym hG hne hsub hobs ht hj hl he hpos

/-- C70: the same for `clear`. Partial for the same reasons. -/
theorem C70_clear_joint_partial {s : State (Ext K)} (h : Reach (fun s op => Prudent s op ∧ Steady s op) s) {p : Nat}
    (hp : p ∈ s.factors) (hlast : s.last = none) (hu : s.Uncached p) {f : Fn (Ext K)} (hf : s.heap[p]? = some f)
    {y : K} (hy : State.ImageOf f.weight 0 y) (hy0 : 0 ≤ y)
    {ord : List Var → List Var} (hord : ∀ l, (ord l).Perm l) {sh : List State.Contribution → List State.Contribution}
    (hsh : ∀ l, (sh l).Perm l) {sched : Sched} (hsched : ∀ l, (sched l).Perm l)
    {n : Nat} (hn : 1 ≤ n) {φ : Nat → Assign → K} (hφ : s.Images φ) (hsym : s.Symmetric (State.erase φ p y))
    {G : Group} (hG : GroupReach G) (hne : G.group ≠ []) (hsub : ∀ v ∈ G.group, v ∈ s.vars)
    (hobs : ∀ u ∈ G.group, ∀ v ∈ G.group, s.Observes u → s.Observes v → u = v)
    (ht : ∀ v ∈ G.group, s.Hidden v → s.TreeAt v) (hj : s.Joined G.group)
    {l : List Var} (hl : s.OthersOf G.group l) {e : Assign} (he : s.Agrees e)
    (hpos : ∃ a, s.Agrees a ∧ s.weight (State.erase φ p y) a ≠ 0) :
    ∃ s' s'' q, (GOp.mutate p .clear).exec s = .ok s' () ∧ State.getJoint ord sh sched G n s' = .ok s'' q ∧
      q.vars.group = G.group ∧ ∃ C : K, 0 < C ∧ ∀ a, InDom G.group a → q.findTransformed (G.group.map a) =
        .ok (.val (C * s.jointMass (s.weight (State.erase φ p y)) l e G.group a)) :=
  State.replaced_joint h hlast hu (o := .clear) (by rintro _ ⟨⟩) (by rintro _ ⟨⟩) hf (g := f.clear) rfl rfl
    hord hsh hsched hn (State.clear_images (reach_inv h) hp hf hy hy0 hφ) hsym hG hne hsub hobs ht hj hl he hpos

/-! ### Examples -/

/-- C70 is violated by a change made after a query, and two queries asked one after the other contradict each other: X with
the factor 3, 4, joined to Y by 2, 1, 1, 3. After the marginal of X was asked and the image of X = 0, Y = 0 was
changed to 5, the marginal of X is still 9/25, 16/25, while the joint distribution of X and Y has the new masses
15 : 3 : 4 : 12, which give 9/17, 8/17 to X. -/
theorem C70_joint_violated : ∃ s s' : State (Ext ℚ), Reach (fun s op => Prudent s op ∧ Steady s op) s ∧ 1 ∈ s.factors ∧
    (GOp.mutate 1 (.set [0, 0] (.val 5))).exec s = .ok s' () ∧
    (∃ s'', State.getMarginal Ex.rev id Ex.X 1 s' = .ok s'' [.val (9 / 25), .val (16 / 25)]) ∧
    ∃ s'' f, State.getJoint Ex.rev id id (Ex.pair Ex.X Ex.Y) 1 s' = .ok s'' f ∧
      f.findTransformed [0, 0] = .ok (.val (1 / 4 * 15)) ∧ f.findTransformed [0, 1] = .ok (.val (1 / 4 * 3)) ∧
      f.findTransformed [1, 0] = .ok (.val (1 / 4 * 4)) ∧ f.findTransformed [1, 1] = .ok (.val (1 / 4 * 12)) := by
  have hf : (Ex.after [.add 0, .add 1, .askMarginal Ex.X]).factors = [0, 1] := by decide +kernel
  have hr := Ex.after_steady [.add 0, .add 1, .askMarginal Ex.X] (by decide +kernel)
  have hm : (match (GOp.mutate 1 (.set [0, 0] (.val 5))).exec (Ex.after [.add 0, .add 1, .askMarginal Ex.X]) with
      | .ok s' _ => (match State.getMarginal Ex.rev id Ex.X 1 s' with
        | .ok _ l => some l
        | _ => none)
      | _ => none) = some [.val (9 / 25), .val (16 / 25)] := by decide +kernel
  have hj : (match (GOp.mutate 1 (.set [0, 0] (.val 5))).exec (Ex.after [.add 0, .add 1, .askMarginal Ex.X]) with
      | .ok s' _ => (match State.getJoint Ex.rev id id (Ex.pair Ex.X Ex.Y) 1 s' with
        | .ok _ f => some [f.findTransformed [0, 0], f.findTransformed [0, 1], f.findTransformed [1, 0], f.findTransformed [1, 1]]
        | _ => none)
      | _ => none) = some [.ok (.val (1 / 4 * 15)), .ok (.val (1 / 4 * 3)), .ok (.val (1 / 4 * 4)), .ok (.val (1 / 4 * 12))] := by
    decide +kernel
  generalize Ex.after [.add 0, .add 1, .askMarginal Ex.X] = s at *
  cases hx : (GOp.mutate 1 (.set [0, 0] (.val 5))).exec s with
  | throw _ => rw [hx] at hm; cases hm
  | ub => rw [hx] at hm; cases hm
  | ok s' _ =>
    rw [hx] at hm hj
    simp only at hm hj
    refine ⟨s, s', hr, by rw [hf]; decide, hx, ?_, ?_⟩
    · cases hy : State.getMarginal Ex.rev id Ex.X 1 s' with
      | ok s'' l => rw [hy] at hm; exact ⟨s'', by rw [Option.some.inj hm]⟩
      | throw _ => rw [hy] at hm; cases hm
      | ub => rw [hy] at hm; cases hm
    · cases hy : State.getJoint Ex.rev id id (Ex.pair Ex.X Ex.Y) 1 s' with
      | ok s'' f =>
        rw [hy] at hj
        simp only [Option.some.injEq, List.cons.injEq, and_true] at hj
        exact ⟨s'', f, rfl, hj⟩
      | throw _ => rw [hy] at hj; cases hj
      | ub => rw [hy] at hj; cases hj

/-- The path X - Y - Z: after the joint distribution of Y and Z was asked, the factor of X and Y is changed, and the
same joint distribution is returned again. -/
example : ∃ s1 f s2, State.getJoint Ex.rev List.reverse List.reverse (Ex.pair Ex.Y Ex.Z) 2 (Ex.after Ex.path) = .ok s1 f ∧
    (GOp.mutate 1 (.set [0, 0] (.val 5))).exec s1 = .ok s2 () ∧
    State.getJoint Ex.rev List.reverse id (Ex.pair Ex.Y Ex.Z) 1 s2 = .ok s2 f := by
  have h : (match State.getJoint Ex.rev List.reverse List.reverse (Ex.pair Ex.Y Ex.Z) 2 (Ex.after Ex.path) with
      | .ok s1 _ => (match (GOp.mutate 1 (.set [0, 0] (.val 5))).exec s1 with
        | .ok _ _ => true
        | _ => false)
      | _ => false) = true := by decide +kernel
  have hr : Reach Prudent (Ex.after Ex.path) := Ex.Reach.mono (fun _ _ h => h.1) Ex.path_reach
  have hv := Ex.path_vars
  have hh := Ex.path_heap
  generalize Ex.after Ex.path = s at *
  cases h1 : State.getJoint Ex.rev List.reverse List.reverse (Ex.pair Ex.Y Ex.Z) 2 s with
  | throw _ => rw [h1] at h; cases h
  | ub => rw [h1] at h; cases h
  | ok s1 f =>
    rw [h1] at h
    simp only at h
    cases h2 : (GOp.mutate 1 (.set [0, 0] (.val 5))).exec s1 with
    | throw _ => rw [h2] at h; cases h
    | ub => rw [h2] at h; cases h
    | ok s2 _ =>
      refine ⟨s1, f, s2, rfl, h2, C70_unnoticed_joint hr Ex.rev_perm (fun l => List.reverse_perm l) (fun l => List.reverse_perm l)
        (by omega) ?_ h1 ?_ (Or.inl h2)⟩
      · intro v h
        rw [hv]
        simp only [Ex.pair, List.mem_cons, List.not_mem_nil, or_false] at h
        rcases h with rfl | rfl <;> simp
      · rintro u w ⟨_, g, k1, k2⟩ ⟨hu, _⟩
        rw [hh] at k1
        cases k1
        have k3 : [Ex.X, Ex.Y] = [u, w] := Ex.bin_group.symm.trans k2
        cases k3
        revert hu
        decide

namespace Ex

theorem path_uncached : (after path).Uncached 1 := by
  intro f h
  rw [path_heap] at h
  cases h
  refine ⟨fun v n h => ?_, fun u v _ => ?_⟩
  · rw [bin_group] at h; cases h
  · unfold State.Observes; rw [path_evidences]; simp

theorem path_second : (after path).heap[1]? = some (bin X Y 2 1 1 3) := by rw [path_heap]; rfl

theorem path_unasked : (after path).last = none := by decide +kernel

/-- The changed images are not below the floor. -/
theorem phiChanged_floored : (after path).Floored phiChanged := by
  intro p u w hp hu hw a ha
  have h := phi_floored (s := after path) path_heap (by rw [path_factors]; decide +kernel) p u w hp hu hw a ha
  unfold phiChanged State.overwrite
  split
  · show ratParams.minK ≤ 5
    decide +kernel
  · exact h

end Ex

/-- The path X - Y - Z: before the change the most probable value of X is 1, after it is 0. -/
example : ∃ s' s'', (GOp.mutate 1 (.set [0, 0] (.val 5))).exec (Ex.after Ex.path) = .ok s' () ∧
    State.getMAP Ex.rev List.reverse Ex.X 2 s' = .ok s'' 0 ∧
    ∃ a, (Ex.after Ex.path).MostProbable ((Ex.after Ex.path).weight Ex.phiChanged) a ∧ a Ex.X = 0 := by
  have hev : (match (GOp.mutate 1 (.set [0, 0] (.val 5))).exec (Ex.after Ex.path) with
      | .ok s' _ => (match State.getMAP Ex.rev List.reverse Ex.X 2 s' with
        | .ok _ k => some k
        | _ => none)
      | _ => none) = some 0 := by decide +kernel
  obtain ⟨s', s'', k, h1, h2, h3⟩ := C70_set_map_partial Ex.path_reach (p := 1) (by rw [Ex.path_factors]; decide) Ex.path_unasked
    Ex.path_uncached Ex.path_second (c := [0, 0]) (by rw [Ex.bin_group]; decide) (x := 5) (y := 5) (by norm_num)
    (by rw [Ex.bin_weight]; exact .plain 5) (by norm_num) (ord := Ex.rev) Ex.rev_perm (sched := List.reverse)
    (fun l => List.reverse_perm l) (n := 2) (by omega) (φ := Ex.phi) Ex.path_images
    (by rw [Ex.bin_group]; exact Ex.phiChanged_symmetric Ex.path_heap (by rw [Ex.path_factors]; decide +kernel))
    (by rw [Ex.bin_group]; exact Ex.phiChanged_floored)
    (v := Ex.X) (w := Ex.X) (Ex.path_hides (by simp)) (Var.eqv_refl _) (Ex.path_tree (by rw [Ex.path_vars]; simp))
    ⟨Ex.zeros, Ex.path_zeros, by rw [Ex.bin_group]; unfold State.weight; rw [Ex.path_factors]; decide +kernel⟩
  rw [h1] at hev
  simp only at hev
  rw [h2] at hev
  obtain rfl := Option.some.inj hev
  rw [Ex.bin_group] at h3
  exact ⟨s', s'', h1, h2, h3⟩

/-- X with a factor, joined to Y by a tunable factor of weight 2, which is cleared: the most probable value of X is
given by the other factor. -/
example : ∃ s' s'', (GOp.mutate 1 .clear).exec (Ex.afterT [.tune 1 none, .add 4]) = .ok s' () ∧
    State.getMAP Ex.rev List.reverse Ex.X 2 s' = .ok s'' 1 := by
  have hev : (match (GOp.mutate 1 .clear).exec (Ex.afterT [.tune 1 none, .add 4]) with
      | .ok s' _ => (match State.getMAP Ex.rev List.reverse Ex.X 2 s' with
        | .ok _ k => some k
        | _ => none)
      | _ => none) = some 1 := by decide +kernel
  have hv : (Ex.afterT [.tune 1 none, .add 4]).vars = [Ex.X, Ex.Y] := by decide +kernel
  have hh : (Ex.afterT [.tune 1 none, .add 4]).heap = Ex.heapT := by decide +kernel
  have hf : (Ex.afterT [.tune 1 none, .add 4]).factors = [1, 4] := by decide +kernel
  have he : (Ex.afterT [.tune 1 none, .add 4]).evidences = [] := by decide +kernel
  have hl : (Ex.afterT [.tune 1 none, .add 4]).last = none := by decide +kernel
  have hr := Ex.afterT_steady [.tune 1 none, .add 4] (by decide +kernel)
  have hi := Ex.img_images (s := Ex.afterT [.tune 1 none, .add 4]) (by decide +kernel)
  have hb : (Ex.expo (Ex.bin Ex.X Ex.Y 0 1 1 0) 2).vars.group = [Ex.X, Ex.Y] := by decide +kernel
  have hw : (Ex.expo (Ex.bin Ex.X Ex.Y 0 1 1 0) 2).weight = some (.val 2) := by decide +kernel
  have h4 : (Ex.una Ex.X 1 2).vars.group = [Ex.X] := by decide +kernel
  have hone : ∀ p u w, (Ex.afterT [.tune 1 none, .add 4]).FactorOn p [u, w] → p = 1 := by
    rintro p u w ⟨hp, f, h5, h6⟩
    rw [hf] at hp
    simp only [List.mem_cons, List.not_mem_nil, or_false] at hp
    rcases hp with rfl | rfl
    · rfl
    · rw [hh] at h5
      cases h5
      have h7 : [Ex.X] = [u, w] := h4.symm.trans h6
      cases h7
  generalize Ex.afterT [.tune 1 none, .add 4] = s at *
  have hg : s.heap[1]? = some (Ex.expo (Ex.bin Ex.X Ex.Y 0 1 1 0) 2) := by rw [hh]; rfl
  rw [hh] at hi
  obtain ⟨s', s'', k, h1, h2, _⟩ := C70_clear_map_partial hr (p := 1) (by rw [hf]; decide) hl
    (by
      intro f h
      rw [hg] at h
      cases h
      refine ⟨fun v n h => ?_, fun u v _ => ?_⟩
      · rw [hb] at h; cases h
      · unfold State.Observes; rw [he]; simp)
    hg (y := 1)
    (by
      rw [hw]
      have := State.ImageOf.weighted (2 : ℚ) 0
      have h : FloatParams.expK ((2 : ℚ) * 0) = 1 := by decide +kernel
      rw [h] at this
      exact this)
    (by norm_num) (ord := Ex.rev) Ex.rev_perm (sched := List.reverse)
    (fun l => List.reverse_perm l) (n := 2) (by omega) (φ := Ex.img Ex.heapT) hi
    (by intro p u w hp _ _ a _; rw [hone p u w hp]; simp [State.erase])
    (by
      intro p u w hp _ _ a _
      rw [hone p u w hp]
      show ratParams.minK ≤ State.erase (Ex.img Ex.heapT) 1 1 1 a
      simp only [State.erase, if_true]
      decide +kernel)
    (v := Ex.X) (w := Ex.X) ⟨by rw [hv]; simp, by rw [State.Observes, he]; simp⟩ (Var.eqv_refl _)
    (Ex.two_tree (by rw [hv]; simp) Ex.X)
    ⟨Ex.zeros, Ex.zeros_agrees (by rw [hv]; decide) (by rw [he]; decide), by unfold State.weight; rw [hf]; decide +kernel⟩
  rw [h1] at hev
  simp only at hev
  rw [h2] at hev
  obtain rfl := Option.some.inj hev
  exact ⟨s', s'', h1, h2⟩

/-- The path X - Y - Z: the joint distribution of Y and X after the change. Before, the first mass was 18. -/
example : ∃ s' s'' q, (GOp.mutate 1 (.set [0, 0] (.val 5))).exec (Ex.after Ex.path) = .ok s' () ∧
    State.getJoint Ex.rev List.reverse List.reverse (Ex.pair Ex.Y Ex.X) 2 s' = .ok s'' q ∧ ∃ C : ℚ, 0 < C ∧
      q.findTransformed [0, 0] = .ok (.val (C * 45)) ∧ q.findTransformed [1, 1] = .ok (.val (C * 36)) := by
  have hx := Ex.path_hides (v := Ex.X) (by simp)
  have hy := Ex.path_hides (v := Ex.Y) (by simp)
  have hxy : (Ex.after Ex.path).Joins Ex.X Ex.Y :=
    Ex.joins_of 1 (by rw [Ex.path_factors]; simp) (by rw [Ex.path_heap]; decide)
  have hyx : (Ex.after Ex.path).Joins Ex.Y Ex.X := by obtain ⟨p, h⟩ := hxy; exact ⟨p, h.symm⟩
  have hne : Ex.Y ≠ Ex.X := by decide
  obtain ⟨s', s'', q, h1, h2, _, C, h3, h4⟩ := C70_set_joint_partial Ex.path_reach (p := 1)
    (by rw [Ex.path_factors]; decide) Ex.path_unasked
    Ex.path_uncached Ex.path_second (c := [0, 0]) (by rw [Ex.bin_group]; decide) (x := 5) (y := 5) (by norm_num)
    (by rw [Ex.bin_weight]; exact .plain 5) (by norm_num) (ord := Ex.rev) Ex.rev_perm (sh := List.reverse)
    (fun l => List.reverse_perm l) (sched := List.reverse)
    (fun l => List.reverse_perm l) (n := 2) (by omega) (φ := Ex.phi) Ex.path_images
    (by rw [Ex.bin_group]; exact Ex.phiChanged_symmetric Ex.path_heap (by rw [Ex.path_factors]; decide +kernel))
    (G := Ex.pair Ex.Y Ex.X) (.soup (vars := [Ex.Y, Ex.X]) (by decide)) (by simp [Ex.pair])
    (by
      intro v h
      rw [Ex.path_vars]
      simp only [Ex.pair, List.mem_cons, List.not_mem_nil, or_false] at h
      rcases h with rfl | rfl <;> simp)
    (by intro u _ v _ ho; rw [State.Observes, Ex.path_evidences] at ho; simp at ho)
    (by intro v _ hh; exact Ex.path_tree hh.1)
    (by
      intro u hu w hw _
      simp only [Ex.pair, List.mem_cons, List.not_mem_nil, or_false] at hu hw
      rcases hu with rfl | rfl <;> rcases hw with rfl | rfl
      · exact .refl
      · exact .single ⟨by simp [Ex.pair], by simp [Ex.pair], hy, hx, hyx⟩
      · exact .single ⟨by simp [Ex.pair], by simp [Ex.pair], hx, hy, hxy⟩
      · exact .refl)
    (l := [Ex.Z]) (Ex.othersOf_of (by rw [Ex.path_vars, Ex.path_evidences]; decide) (by decide)) (e := Ex.zeros)
    Ex.path_zeros ⟨Ex.zeros, Ex.path_zeros, by rw [Ex.bin_group]; unfold State.weight; rw [Ex.path_factors]; decide +kernel⟩
  rw [Ex.bin_group] at h4
  have key : ∀ i j x, i < 2 → j < 2 → Tree.sumOver Var.size [Ex.Z]
      (fun a => (([0, 1, 2] : List Nat).map (fun p => Ex.phiChanged p a)).prod)
      (fun w => if w ∈ [Ex.Y, Ex.X] then Ex.pairAt Ex.Y i j w else Ex.zeros w) = x →
      q.findTransformed [i, j] = .ok (.val (C * x)) := by
    intro i j x hi hj hx
    have := h4 (Ex.pairAt Ex.Y i j) (Ex.pairAt_inDom hne hi hj)
    simp only [Ex.pair] at this
    rw [Ex.pairAt_map hne] at this
    unfold State.jointMass State.weight at this
    rw [Ex.path_evidences, Ex.path_factors, if_pos (by simp)] at this
    rw [← hx]
    exact this
  exact ⟨s', s'', q, h1, h2, C, h3, key 0 0 _ (by omega) (by omega) (by decide +kernel),
    key 1 1 _ (by omega) (by omega) (by decide +kernel)⟩

/-- The tunable factor between X and Y is cleared: the joint distribution of Y and X is given by the factor 1, 2 of X. -/
example : ∃ s' s'' q, (GOp.mutate 1 .clear).exec (Ex.afterT [.tune 1 none, .add 4]) = .ok s' () ∧
    State.getJoint Ex.rev List.reverse List.reverse (Ex.pair Ex.Y Ex.X) 2 s' = .ok s'' q ∧ ∃ C : ℚ, 0 < C ∧
      q.findTransformed [0, 0] = .ok (.val (C * 1)) ∧ q.findTransformed [0, 1] = .ok (.val (C * 2)) ∧
      q.findTransformed [1, 0] = .ok (.val (C * 1)) ∧ q.findTransformed [1, 1] = .ok (.val (C * 2)) := by
  have hv : (Ex.afterT [.tune 1 none, .add 4]).vars = [Ex.X, Ex.Y] := by decide +kernel
  have hh : (Ex.afterT [.tune 1 none, .add 4]).heap = Ex.heapT := by decide +kernel
  have hf : (Ex.afterT [.tune 1 none, .add 4]).factors = [1, 4] := by decide +kernel
  have he : (Ex.afterT [.tune 1 none, .add 4]).evidences = [] := by decide +kernel
  have hl : (Ex.afterT [.tune 1 none, .add 4]).last = none := by decide +kernel
  have hr := Ex.afterT_steady [.tune 1 none, .add 4] (by decide +kernel)
  have hi := Ex.img_images (s := Ex.afterT [.tune 1 none, .add 4]) (by decide +kernel)
  have hb : (Ex.expo (Ex.bin Ex.X Ex.Y 0 1 1 0) 2).vars.group = [Ex.X, Ex.Y] := by decide +kernel
  have hw : (Ex.expo (Ex.bin Ex.X Ex.Y 0 1 1 0) 2).weight = some (.val 2) := by decide +kernel
  have h4 : (Ex.una Ex.X 1 2).vars.group = [Ex.X] := by decide +kernel
  have hone : ∀ p u w, (Ex.afterT [.tune 1 none, .add 4]).FactorOn p [u, w] → p = 1 := by
    rintro p u w ⟨hp, f, h5, h6⟩
    rw [hf] at hp
    simp only [List.mem_cons, List.not_mem_nil, or_false] at hp
    rcases hp with rfl | rfl
    · rfl
    · rw [hh] at h5
      cases h5
      have h7 : [Ex.X] = [u, w] := h4.symm.trans h6
      cases h7
  generalize Ex.afterT [.tune 1 none, .add 4] = s at *
  have hg : s.heap[1]? = some (Ex.expo (Ex.bin Ex.X Ex.Y 0 1 1 0) 2) := by rw [hh]; rfl
  rw [hh] at hi
  have hx : s.Hidden Ex.X := ⟨by rw [hv]; simp, by rw [State.Observes, he]; simp⟩
  have hy : s.Hidden Ex.Y := ⟨by rw [hv]; simp, by rw [State.Observes, he]; simp⟩
  have hxy : s.Joins Ex.X Ex.Y := ⟨1, .inl ⟨by rw [hf]; simp, _, hg, hb⟩⟩
  have hyx : s.Joins Ex.Y Ex.X := by obtain ⟨p, h⟩ := hxy; exact ⟨p, h.symm⟩
  have hne : Ex.Y ≠ Ex.X := by decide
  have hz : s.Agrees Ex.zeros := Ex.zeros_agrees (by rw [hv]; decide) (by rw [he]; decide)
  obtain ⟨s', s'', q, h1, h2, _, C, h3, h5⟩ := C70_clear_joint_partial hr (p := 1) (by rw [hf]; decide) hl
    (by
      intro f h
      rw [hg] at h
      cases h
      refine ⟨fun v n h => ?_, fun u v _ => ?_⟩
      · rw [hb] at h; cases h
      · unfold State.Observes; rw [he]; simp)
    hg (y := 1)
    (by
      rw [hw]
      have := State.ImageOf.weighted (2 : ℚ) 0
      have h : FloatParams.expK ((2 : ℚ) * 0) = 1 := by decide +kernel
      rw [h] at this
      exact this)
    (by norm_num) (ord := Ex.rev) Ex.rev_perm (sh := List.reverse) (fun l => List.reverse_perm l) (sched := List.reverse)
    (fun l => List.reverse_perm l) (n := 2) (by omega) (φ := Ex.img Ex.heapT) hi
    (by intro p u w hp _ _ a _; rw [hone p u w hp]; simp [State.erase])
    (G := Ex.pair Ex.Y Ex.X) (.soup (vars := [Ex.Y, Ex.X]) (by decide)) (by simp [Ex.pair])
    (by
      intro v h
      simp only [Ex.pair, List.mem_cons, List.not_mem_nil, or_false] at h
      rcases h with rfl | rfl
      · exact hy.1
      · exact hx.1)
    (by intro u _ v _ ho; rw [State.Observes, he] at ho; simp at ho)
    (by intro v _ _; exact Ex.two_tree (by rw [hv]; simp) v)
    (by
      intro u hu w hw _
      simp only [Ex.pair, List.mem_cons, List.not_mem_nil, or_false] at hu hw
      rcases hu with rfl | rfl <;> rcases hw with rfl | rfl
      · exact .refl
      · exact .single ⟨by simp [Ex.pair], by simp [Ex.pair], hy, hx, hyx⟩
      · exact .single ⟨by simp [Ex.pair], by simp [Ex.pair], hx, hy, hxy⟩
      · exact .refl)
    (l := []) (Ex.othersOf_of (by rw [hv, he]; decide) (by decide)) (e := Ex.zeros)
    hz ⟨Ex.zeros, hz, by unfold State.weight; rw [hf]; decide +kernel⟩
  have key : ∀ i j x, i < 2 → j < 2 → Tree.sumOver Var.size []
      (fun a => (([1, 4] : List Nat).map (fun p => State.erase (Ex.img Ex.heapT) 1 1 p a)).prod)
      (fun w => if w ∈ [Ex.Y, Ex.X] then Ex.pairAt Ex.Y i j w else Ex.zeros w) = x →
      q.findTransformed [i, j] = .ok (.val (C * x)) := by
    intro i j x hi hj hx
    have := h5 (Ex.pairAt Ex.Y i j) (Ex.pairAt_inDom hne hi hj)
    simp only [Ex.pair] at this
    rw [Ex.pairAt_map hne] at this
    unfold State.jointMass State.weight at this
    rw [he, hf, if_pos (by simp)] at this
    rw [← hx]
    exact this
  exact ⟨s', s'', q, h1, h2, C, h3, key 0 0 _ (by omega) (by omega) (by decide +kernel),
    key 0 1 _ (by omega) (by omega) (by decide +kernel), key 1 0 _ (by omega) (by omega) (by decide +kernel),
    key 1 1 _ (by omega) (by omega) (by decide +kernel)⟩

end EFG
