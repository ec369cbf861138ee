import Verif.Spec.Scale
import Verif.Lemmas.ScaleGraph
import Verif.Props.Changed
/-
C72: the marginal of a hidden variable depends only on the factors of its cluster, and on each of them only up to a
positive scale, on every graph.
-/

set_option linter.unusedSectionVars false

namespace EFG
variable {K : Type} [Field K] [LinearOrder K] [IsStrictOrderedRing K] [FloatParams K]

/-- C72: take two models built in the same way, each of which is about to propagate. If the factors of the cluster of `v`
have proportional images in the two models, the marginal of `v` is the same in both, also if the cluster has cycles and
the propagation stops before the messages settle. Nothing is asked of the factors of the other clusters. -/
theorem C72_proportional {s t : State (Ext K)} (hs : Reach (fun s op => Prudent s op ∧ Steady s op) s)
    (ht : Reach (fun s op => Prudent s op ∧ Steady s op) t) (hg : s.SameGraph t) {φ ψ : Nat → Assign → K}
    (hφ : s.Images φ) (hψ : t.Images ψ) (hws : s.wouldNeedPropagation .sum = true)
    (hwt : t.wouldNeedPropagation .sum = true) {v w : Var} (hv : s.Hidden v) (hvw : v.eqv w = true)
    (hsc : s.ScaledAt v φ ψ) {ord : List Var → List Var} (hord : ∀ l, (ord l).Perm l) {sched : Sched}
    (hsched : ∀ l, (sched l).Perm l) {n : Nat} (hn : 1 ≤ n) :
    ∃ s' t' ps, State.getMarginal ord sched w n s = .ok s' ps ∧ State.getMarginal ord sched w n t = .ok t' ps :=
  hg.getMarginal hord hsched hn (reach_sound hs) (reach_sound ht) hφ hψ hws hwt hv hvw hsc

/-- C72, for the MAP estimates: the factors of the cluster which join two hidden variables have to be equal or to have no
image below the floor of the maximum, in both models. Nothing is asked of the factors of the other clusters.

Missing: joining factors with different images, some of which are below the floor (`C72_map_violated`). -/
theorem C72_map_partial {s t : State (Ext K)} (hs : Reach (fun s op => Prudent s op ∧ Steady s op) s)
    (ht : Reach (fun s op => Prudent s op ∧ Steady s op) t) (hg : s.SameGraph t) {φ ψ : Nat → Assign → K}
    (hφ : s.Images φ) (hψ : t.Images ψ) (hws : s.wouldNeedPropagation .map = true)
    (hwt : t.wouldNeedPropagation .map = true) {v w : Var} (hv : s.Hidden v) (hvw : v.eqv w = true)
    (hsc : s.ScaledAt v φ ψ) (hj : s.JoinsAbove FloatParams.minK v φ ψ) {ord : List Var → List Var} (hord : ∀ l, (ord l).Perm l)
    {sched : Sched} (hsched : ∀ l, (sched l).Perm l) {n : Nat} (hn : 1 ≤ n) :
    ∃ s' t' k, State.getMAP ord sched w n s = .ok s' k ∧ State.getMAP ord sched w n t = .ok t' k :=
  hg.getMAP hord hsched hn (reach_sound hs) (reach_sound ht) hφ hψ hws hwt hv hvw hsc hj

/-- C72, for the MAP estimates of all the hidden variables: the two models give the same list.

Missing: as in `C72_map_partial`. -/
theorem C72_hidden_set_partial {s t : State (Ext K)} (hs : Reach (fun s op => Prudent s op ∧ Steady s op) s)
    (ht : Reach (fun s op => Prudent s op ∧ Steady s op) t) (hg : s.SameGraph t) {φ ψ : Nat → Assign → K}
    (hφ : s.Images φ) (hψ : t.Images ψ) (hws : s.wouldNeedPropagation .map = true)
    (hwt : t.wouldNeedPropagation .map = true)
    (hsc : ∀ v, s.Hidden v → s.ScaledAt v φ ψ ∧ s.JoinsAbove FloatParams.minK v φ ψ)
    {ord : List Var → List Var} (hord : ∀ l, (ord l).Perm l)
    {sched : Sched} (hsched : ∀ l, (sched l).Perm l) {n : Nat} (hn : 1 ≤ n) :
    ∃ s' t' ks, State.getHiddenSetMAP ord sched n s = .ok s' ks ∧ State.getHiddenSetMAP ord sched n t = .ok t' ks :=
  hg.getHiddenSetMAP hord hsched hn (reach_sound hs) (reach_sound ht) hφ hψ hws hwt hsc

/-- Changing the image of a factor at one combination, while nothing computed from it is cached: the changed model is
reachable, is built in the same way and has the overwritten images. -/
theorem State.set_step {s : State (Ext K)} (h : Reach (fun s op => Prudent s op ∧ Steady s op) s) {p : Nat}
    (hp : p ∈ s.factors) (hlast : s.last = none) (hu : s.Uncached p) {f : Fn (Ext K)} (hf : s.heap[p]? = some f)
    {c : List Nat} (hc : Valid (f.vars.group.map Var.size) c) {x y : K} (hx : 0 ≤ x) (hy : State.ImageOf f.weight x y)
    (hy0 : 0 ≤ y) {φ : Nat → Assign → K} (hφ : s.Images φ) :
    ∃ g, (GOp.mutate p (.set c (.val x))).exec s = .ok { s with heap := s.heap.set p g } () ∧ g.vars = f.vars ∧
      g.weight = f.weight ∧ Reach (fun s op => Prudent s op ∧ Steady s op) { s with heap := s.heap.set p g } ∧
      ({ s with heap := s.heap.set p g } : State (Ext K)).Images (State.overwrite φ p f.vars.group c y) := by
  obtain ⟨g, h1, h2, h3⟩ := State.set_images (reach_inv h) hp hf hc hx hy hy0 hφ
  have h4 : (GOp.mutate p (.set c (.val x))).exec s = .ok { s with heap := s.heap.set p g } () := by
    show GOp.onHeap (Heap.mutate p _) s = _
    unfold GOp.onHeap Heap.mutate
    simp only [hf, h1]
  have hw : g.weight = f.weight := by
    rcases ((reach_inv h).heapWF f (List.mem_of_getElem? hf)).mutableSet c (.val x) with ⟨g', k1, _, _, _, _, _, k7, _⟩ | ⟨k1, _⟩
    · rw [show Heap.applyOp (.set c (.val x)) f = Fn.mutableSet c (.val x) f from rfl, k1] at h1
      cases h1
      exact k7
    · rw [show Heap.applyOp (.set c (.val x)) f = Fn.mutableSet c (.val x) f from rfl, k1] at h1
      cases h1
  have hval : (GOp.mutate p (.set c (.val x))).Valid s := ⟨trivial, trivial⟩
  have hpr : Prudent s (.mutate p (.set c (.val x))) ∧ Steady s (.mutate p (.set c (.val x))) := by
    refine ⟨⟨fun _ _ h => h.elim, by simp [GOp.threads], fun _ _ h => by cases h⟩,
      ⟨?_, ?_, fun h => h.elim, fun _ _ _ _ h => h.elim⟩⟩
    · rintro _ _ ⟨⟩ _; exact ⟨hlast, hu⟩
    · rintro _ w' e'; cases e'
  exact ⟨g, h4, h2, hw, Reach.ok h hval hpr h4, h3⟩

/-- C72: changing a factor which belongs to another cluster, before any query, does not change the marginal of `v`. -/
theorem C72_elsewhere {s : State (Ext K)} (h : Reach (fun s op => Prudent s op ∧ Steady s op) s) {p : Nat}
    (hp : p ∈ s.factors) (hlast : s.last = none) (hu : s.Uncached p) {f : Fn (Ext K)} (hf : s.heap[p]? = some f)
    {c : List Nat} (hc : Valid (f.vars.group.map Var.size) c) {x y : K} (hx : 0 ≤ x) (hy : State.ImageOf f.weight x y)
    (hy0 : 0 ≤ y) {φ : Nat → Assign → K} (hφ : s.Images φ) {v w : Var} (hv : s.Hidden v) (hvw : v.eqv w = true)
    (hout : ¬s.InCluster v p) {ord : List Var → List Var} (hord : ∀ l, (ord l).Perm l) {sched : Sched}
    (hsched : ∀ l, (sched l).Perm l) {n : Nat} (hn : 1 ≤ n) :
    ∃ t s' t' ps, (GOp.mutate p (.set c (.val x))).exec s = .ok t () ∧ State.getMarginal ord sched w n s = .ok s' ps ∧
      State.getMarginal ord sched w n t = .ok t' ps := by
  obtain ⟨g, h1, _, _, h2, h3⟩ := State.set_step h hp hlast hu hf hc hx hy hy0 hφ
  obtain ⟨s', t', ps, h4, h5⟩ := C72_proportional h h2 ⟨rfl, rfl, rfl, rfl, rfl, fun _ => rfl⟩ hφ h3
    (by unfold State.wouldNeedPropagation; rw [hlast]) (by unfold State.wouldNeedPropagation; rw [hlast]) hv hvw
    (fun q hq => ⟨1, one_pos, fun a _ => by
      have : q ≠ p := fun e => hout (e ▸ hq)
      simp [State.overwrite, this]⟩) hord hsched hn
  exact ⟨_, s', t', ps, h1, h4, h5⟩

/-- C72: changing a factor which belongs to another cluster, before any query, does not change the MAP estimate of `v`. -/
theorem C72_elsewhere_map {s : State (Ext K)} (h : Reach (fun s op => Prudent s op ∧ Steady s op) s) {p : Nat}
    (hp : p ∈ s.factors) (hlast : s.last = none) (hu : s.Uncached p) {f : Fn (Ext K)} (hf : s.heap[p]? = some f)
    {c : List Nat} (hc : Valid (f.vars.group.map Var.size) c) {x y : K} (hx : 0 ≤ x) (hy : State.ImageOf f.weight x y)
    (hy0 : 0 ≤ y) {φ : Nat → Assign → K} (hφ : s.Images φ) {v w : Var} (hv : s.Hidden v) (hvw : v.eqv w = true)
    (hout : ¬s.InCluster v p) {ord : List Var → List Var} (hord : ∀ l, (ord l).Perm l) {sched : Sched}
    (hsched : ∀ l, (sched l).Perm l) {n : Nat} (hn : 1 ≤ n) :
    ∃ t s' t' k, (GOp.mutate p (.set c (.val x))).exec s = .ok t () ∧ State.getMAP ord sched w n s = .ok s' k ∧
      State.getMAP ord sched w n t = .ok t' k := by
  obtain ⟨g, h1, _, _, h2, h3⟩ := State.set_step h hp hlast hu hf hc hx hy hy0 hφ
  have hsame : ∀ q, s.InCluster v q → ∀ a, State.overwrite φ p f.vars.group c y q a = φ q a := by
    intro q hq a
    have : q ≠ p := fun e => hout (e ▸ hq)
    simp [State.overwrite, this]
  obtain ⟨s', t', k, h4, h5⟩ := C72_map_partial h h2 ⟨rfl, rfl, rfl, rfl, rfl, fun _ => rfl⟩ hφ h3
    (by unfold State.wouldNeedPropagation; rw [hlast]) (by unfold State.wouldNeedPropagation; rw [hlast]) hv hvw
    (fun q hq => ⟨1, one_pos, fun a _ => by rw [hsame q hq, one_mul]⟩)
    (fun q u z hq hu _ hl => Or.inl fun a _ => hsame q ⟨_, u, hq, by simp, hu, hl⟩ a) hord hsched hn
  exact ⟨_, s', t', k, h1, h4, h5⟩

/-! ### Examples -/

namespace Ex

theorem unaX_group : (una X 3 4).vars.group = [X] := by decide +kernel

theorem unaX_weight : (una X 3 4).weight = none := by decide +kernel

/-- The images of the triangle after those of its first factor were multiplied by 3. -/
def phiTripled : Nat → Assign → ℚ := State.overwrite (State.overwrite phi 0 [X] [0] 9) 0 [X] [1] 12

/-- The tripled images are proportional to the others. -/
theorem phiTripled_scaled {s : State (Ext ℚ)} (hX : X ∈ s.vars) (v : Var) : s.ScaledAt v phi phiTripled := by
  intro p _
  by_cases hp : p = 0
  · subst hp
    refine ⟨3, by norm_num, fun a ha => ?_⟩
    have h0 : phi 0 a = (valAt (una X 3 4) [a X]).getD 0 := by
      show (valAt (una X 3 4) ((una X 3 4).vars.group.map a)).getD 0 = _
      rw [unaX_group]
      rfl
    have h1 : a X < 2 := ha X hX
    unfold phiTripled State.overwrite
    rw [h0]
    have : a X = 0 ∨ a X = 1 := by omega
    rcases this with e | e <;> simp only [List.map_cons, List.map_nil, e] <;> decide +kernel
  · exact ⟨1, one_pos, fun a _ => by simp [phiTripled, State.overwrite, hp]⟩

/-- The triangle with the factor of X multiplied by 3, by changing its two images. -/
theorem tripled : ∃ t : State (Ext ℚ), t.heap ≠ (after triangle).heap ∧ Reach (fun s op => Prudent s op ∧ Steady s op) t ∧
    (after triangle).SameGraph t ∧ t.Images phiTripled ∧ t.last = none ∧ (after triangle).last = none ∧
    (after triangle).vars = [X, Y, Z] ∧ (after triangle).evidences = [] ∧ (after triangle).heap = heapXYZ ∧
    (after triangle).Images phi := by
  have hv : (after triangle).vars = [X, Y, Z] := by decide +kernel
  have hh : (after triangle).heap = heapXYZ := rfl
  have hf : (after triangle).factors = [0, 1, 2, 3] := by decide +kernel
  have he : (after triangle).evidences = [] := by decide +kernel
  have hl : (after triangle).last = none := by decide +kernel
  have hm : ∀ e ∈ (after triangle).nodes, e.2.merged = none := by decide +kernel
  have hreach := triangle_reach
  generalize after triangle = s at *
  have hmn : ∀ v n, s.node? v = some n → n.merged = none := fun v n h => hm _ (AMap.find?_mem h)
  have hg : s.heap[0]? = some (una X 3 4) := by rw [hh]; rfl
  have hφ : s.Images phi := phi_images hh (by rw [hv, hf]; decide +kernel)
  have hunc : ∀ y : Heap (Ext ℚ), ({ s with heap := y } : State (Ext ℚ)).Uncached 0 := by
    intro y f _
    exact ⟨fun v n _ h => hmn v n h, fun u v _ => by unfold State.Observes; rw [he]; simp⟩
  obtain ⟨g, _, a2, a3, a4, a5⟩ := State.set_step hreach (p := 0) (by rw [hf]; simp) hl (hunc s.heap) hg (c := [0])
    (by rw [unaX_group]; decide) (x := 9) (y := 9) (by norm_num) (by rw [unaX_weight]; exact .plain 9) (by norm_num) hφ
  have hlen : 0 < s.heap.length := by rw [hh]; decide
  have hg' : (s.heap.set 0 g)[0]? = some g := by rw [List.getElem?_set_self hlen]
  obtain ⟨g', _, b2, b3, b4, b5⟩ := State.set_step a4 (p := 0) (by show 0 ∈ s.factors; rw [hf]; simp) hl (hunc _) hg' (c := [1])
    (by rw [a2, unaX_group]; decide) (x := 12) (y := 12) (by norm_num) (by rw [a3, unaX_weight]; exact .plain 12)
    (by norm_num) a5
  have hX : X ∈ s.vars := by rw [hv]; simp
  rw [a2, unaX_group] at b5
  have hne : (s.heap.set 0 g).set 0 g' ≠ s.heap := by
    intro e
    have hz : ({ s with heap := (s.heap.set 0 g).set 0 g' } : State (Ext ℚ)).InRange zeros := by
      intro z hz
      change z ∈ s.vars at hz
      rw [hv] at hz
      simp only [List.mem_cons, List.not_mem_nil, or_false] at hz
      rcases hz with rfl | rfl | rfl <;> decide
    obtain ⟨f1, k1, k2, _⟩ := hφ 0 (by rw [hf]; simp) zeros hz
    obtain ⟨f2, l1, l2, _⟩ := b5 0 (by show 0 ∈ s.factors; rw [hf]; simp) zeros hz
    change ((s.heap.set 0 g).set 0 g')[0]? = some f2 at l1
    rw [e, k1] at l1
    cases l1
    rw [k2] at l2
    simp only [Res.ok.injEq, Ext.val.injEq] at l2
    revert l2
    decide +kernel
  exact ⟨_, hne, b4, ⟨rfl, rfl, rfl, rfl, rfl, fun _ => rfl⟩, b5, hl, hl, hv, he, hh, hφ⟩

end Ex

/-- The triangle, which has a cycle and stops after one iteration: multiplying by 3 the factor of X changes neither the
marginal nor the MAP estimate. -/
example : ∃ t : State (Ext ℚ), t.heap ≠ (Ex.after Ex.triangle).heap ∧ Reach (fun s op => Prudent s op ∧ Steady s op) t ∧
    (∃ s' t' ps, State.getMarginal Ex.rev List.reverse Ex.Y 2 (Ex.after Ex.triangle) = .ok s' ps ∧
      State.getMarginal Ex.rev List.reverse Ex.Y 2 t = .ok t' ps) ∧
    ∃ s' t' k, State.getMAP Ex.rev List.reverse Ex.Y 2 (Ex.after Ex.triangle) = .ok s' k ∧
      State.getMAP Ex.rev List.reverse Ex.Y 2 t = .ok t' k := by
  obtain ⟨t, h1, h2, h3, h4, h5, hl, hv, he, hh, hφ⟩ := Ex.tripled
  have hreach := Ex.triangle_reach
  generalize Ex.after Ex.triangle = s at *
  have hX : Ex.X ∈ s.vars := by rw [hv]; simp
  have hY : s.Hidden Ex.Y := ⟨by rw [hv]; simp, by rw [State.Observes, he]; simp⟩
  refine ⟨t, h1, h2, ?_, ?_⟩
  · exact C72_proportional hreach h2 h3 hφ h4
      (by unfold State.wouldNeedPropagation; rw [hl]) (by unfold State.wouldNeedPropagation; rw [h5])
      hY (Var.eqv_refl _) (Ex.phiTripled_scaled hX Ex.Y) Ex.rev_perm (fun l => List.reverse_perm l) (by omega)
  · refine C72_map_partial hreach h2 h3 hφ h4
      (by unfold State.wouldNeedPropagation; rw [hl]) (by unfold State.wouldNeedPropagation; rw [h5])
      hY (Var.eqv_refl _) (Ex.phiTripled_scaled hX Ex.Y) ?_ Ex.rev_perm (fun l => List.reverse_perm l) (by omega)
    rintro p u w ⟨_, f, k1, k2⟩ _ _ _
    refine Or.inl fun a _ => ?_
    have hp : p ≠ 0 := by
      rintro rfl
      rw [hh] at k1
      cases k1
      have := Ex.unaX_group.symm.trans k2
      cases this
    simp [Ex.phiTripled, State.overwrite, hp]

/-- The same for the values of all the variables of the triangle. -/
example : ∃ t : State (Ext ℚ), t.heap ≠ (Ex.after Ex.triangle).heap ∧
    ∃ s' t' ks, State.getHiddenSetMAP Ex.rev List.reverse 2 (Ex.after Ex.triangle) = .ok s' ks ∧
      State.getHiddenSetMAP Ex.rev List.reverse 2 t = .ok t' ks := by
  obtain ⟨t, h1, h2, h3, h4, h5, hl, hv, he, hh, hφ⟩ := Ex.tripled
  have hreach := Ex.triangle_reach
  generalize Ex.after Ex.triangle = s at *
  have hX : Ex.X ∈ s.vars := by rw [hv]; simp
  refine ⟨t, h1, C72_hidden_set_partial hreach h2 h3 hφ h4
      (by unfold State.wouldNeedPropagation; rw [hl]) (by unfold State.wouldNeedPropagation; rw [h5])
      (fun v _ => ⟨Ex.phiTripled_scaled hX v, ?_⟩) Ex.rev_perm (fun l => List.reverse_perm l) (by omega)⟩
  rintro p u w ⟨_, f, k1, k2⟩ _ _ _
  refine Or.inl fun a _ => ?_
  have hp : p ≠ 0 := by
    rintro rfl
    rw [hh] at k1
    cases k1
    have := Ex.unaX_group.symm.trans k2
    cases this
  simp [Ex.phiTripled, State.overwrite, hp]

/-- A factor of X and one which joins Y and Z: the second belongs to another cluster than X. -/
theorem Ex.twoClusters : ∃ g : Fn (Ext ℚ), (Ex.after [.add 0, .add 2]).vars = [Ex.X, Ex.Y, Ex.Z] ∧
    (Ex.after [.add 0, .add 2]).heap = Ex.heapXYZ ∧ (Ex.after [.add 0, .add 2]).factors = [0, 2] ∧
    (Ex.after [.add 0, .add 2]).evidences = [] ∧ (Ex.after [.add 0, .add 2]).last = none ∧
    Reach (fun s op => Prudent s op ∧ Steady s op) (Ex.after [.add 0, .add 2]) ∧ g.vars.group = [Ex.Y, Ex.Z] ∧
    g.weight = none ∧ (Ex.after [.add 0, .add 2]).heap[2]? = some g ∧ (Ex.after [.add 0, .add 2]).Uncached 2 ∧
    ¬(Ex.after [.add 0, .add 2]).InCluster Ex.X 2 := by
  have hv : (Ex.after [.add 0, .add 2]).vars = [Ex.X, Ex.Y, Ex.Z] := by decide +kernel
  have hh : (Ex.after [.add 0, .add 2]).heap = Ex.heapXYZ := rfl
  have hf : (Ex.after [.add 0, .add 2]).factors = [0, 2] := by decide +kernel
  have he : (Ex.after [.add 0, .add 2]).evidences = [] := by decide +kernel
  have hl : (Ex.after [.add 0, .add 2]).last = none := by decide +kernel
  have hreach : Reach (fun s op => Prudent s op ∧ Steady s op) (Ex.after [.add 0, .add 2]) :=
    Ex.after_steady _ (by decide +kernel)
  have hgr : (Ex.bin Ex.Y Ex.Z 1 2 2 1).vars.group = [Ex.Y, Ex.Z] := by decide +kernel
  have hgw : (Ex.bin Ex.Y Ex.Z 1 2 2 1).weight = none := by decide +kernel
  generalize Ex.after [.add 0, .add 2] = s at *
  have hg : s.heap[2]? = some (Ex.bin Ex.Y Ex.Z 1 2 2 1) := by rw [hh]; rfl
  have hg0 : s.heap[0]? = some (Ex.una Ex.X 3 4) := by rw [hh]; rfl
  have hpairs : ∀ p u w, s.FactorOn p [u, w] → u = Ex.Y ∧ w = Ex.Z := by
    rintro p u w ⟨hp, f, h1, h2⟩
    rw [hf] at hp
    simp only [List.mem_cons, List.not_mem_nil, or_false] at hp
    rcases hp with rfl | rfl
    · rw [hg0] at h1; cases h1; rw [Ex.unaX_group] at h2; cases h2
    · rw [hg] at h1; cases h1; rw [hgr] at h2; cases h2; exact ⟨rfl, rfl⟩
  have hXY : Ex.X ≠ Ex.Y := by decide
  have hXZ : Ex.X ≠ Ex.Z := by decide
  have halone : ∀ w, s.Linked Ex.X w → w = Ex.X := by
    intro w h
    induction h with
    | refl => rfl
    | tail _ hbc ih =>
      subst ih
      obtain ⟨_, _, p, h | h⟩ := hbc
      · exact absurd (hpairs _ _ _ h).1 hXY
      · exact absurd (hpairs _ _ _ h).2 hXZ
  have hunc : s.Uncached 2 := by
    intro f h
    rw [hg] at h
    cases h
    refine ⟨fun v n h => ?_, fun u v _ => ?_⟩
    · rw [hgr] at h; cases h
    · unfold State.Observes; rw [he]; simp
  have hout : ¬s.InCluster Ex.X 2 := by
    rintro ⟨l, u, ⟨_, f, h1, rfl⟩, h2, _, h3⟩
    rw [hg] at h1
    cases h1
    rw [hgr, halone u h3] at h2
    revert h2
    decide
  exact ⟨_, hv, hh, hf, he, hl, hreach, hgr, hgw, hg, hunc, hout⟩

/-- A factor of X and one which joins Y and Z: changing the second changes neither the marginal nor the MAP estimate of X. -/
example : (∃ t s' t' ps, (GOp.mutate 2 (.set [0, 0] (.val 7))).exec (Ex.after [.add 0, .add 2]) = .ok t () ∧
    State.getMarginal Ex.rev List.reverse Ex.X 2 (Ex.after [.add 0, .add 2]) = .ok s' ps ∧
    State.getMarginal Ex.rev List.reverse Ex.X 2 t = .ok t' ps) ∧
    ∃ t s' t' k, (GOp.mutate 2 (.set [0, 0] (.val 7))).exec (Ex.after [.add 0, .add 2]) = .ok t () ∧
    State.getMAP Ex.rev List.reverse Ex.X 2 (Ex.after [.add 0, .add 2]) = .ok s' k ∧
    State.getMAP Ex.rev List.reverse Ex.X 2 t = .ok t' k := by
  obtain ⟨g, hv, hh, hf, he, hl, hreach, hgr, hgw, hg, hunc, hout⟩ := Ex.twoClusters
  generalize Ex.after [.add 0, .add 2] = s at *
  have hX : s.Hidden Ex.X := ⟨by rw [hv]; simp, by rw [State.Observes, he]; simp⟩
  have hφ : s.Images Ex.phi := Ex.phi_images hh (by rw [hv, hf]; decide +kernel)
  exact ⟨C72_elsewhere hreach (p := 2) (by rw [hf]; simp) hl hunc hg (c := [0, 0]) (by rw [hgr]; decide) (x := 7) (y := 7)
      (by norm_num) (by rw [hgw]; exact .plain 7) (by norm_num) hφ hX (Var.eqv_refl _) hout Ex.rev_perm
      (fun l => List.reverse_perm l) (by omega),
    C72_elsewhere_map hreach (p := 2) (by rw [hf]; simp) hl hunc hg (c := [0, 0]) (by rw [hgr]; decide) (x := 7) (y := 7)
      (by norm_num) (by rw [hgw]; exact .plain 7) (by norm_num) hφ hX (Var.eqv_refl _) hout Ex.rev_perm
      (fun l => List.reverse_perm l) (by omega)⟩

namespace Ex

/-- The functions of X and of X, Y of the other examples, the second one divided by 10^7. -/
def heapTiny : Heap (Ext ℚ) := [una X 3 4, bin X Y (2 / 10000000) (1 / 10000000) (1 / 10000000) (3 / 10000000)]

/-- X and Y joined by the factor with the small images. -/
def tiny : State (Ext ℚ) := (runActs [.add 0, .add 1] (State.initial heapTiny)).1

/-- X and Y joined by the factor of the other examples. -/
def joined : State (Ext ℚ) := after [.add 0, .add 1]

theorem tiny_reach : Reach (fun s op => Prudent s op ∧ Steady s op) tiny := by
  refine Reach.mono (fun _ _ h => ⟨h.1, h.2.1⟩) (runActs_drawless [.add 0, .add 1] (.init ?_) (by decide +kernel))
  intro f hf
  simp only [heapTiny, List.mem_cons, List.not_mem_nil, or_false] at hf
  rcases hf with rfl | rfl
  · exact build_reach (.single _) (by decide) _
  · exact build_reach (.soup (vars := [X, Y]) (by decide)) (by decide) _

/-- The images of the small factors. -/
def phiTiny (p : Nat) (a : Assign) : ℚ := if p = 1 then 1 / 10000000 * phi p a else phi p a

theorem joined_tiny : joined.SameGraph tiny := by
  have h : tiny.nodes.map (fun e => (e.1, e.2.skeleton)) = joined.nodes.map (fun e => (e.1, e.2.skeleton)) := by decide +kernel
  refine ⟨by decide +kernel, by decide +kernel, by decide +kernel, by decide +kernel, by decide +kernel, fun v => ?_⟩
  unfold State.node?
  rw [← AMap.find?_map, ← AMap.find?_map, h]

theorem tiny_images : tiny.Images phiTiny := by
  have hf : tiny.factors = [0, 1] := by decide +kernel
  have hv : tiny.vars = [X, Y] := by decide +kernel
  have hh : tiny.heap = heapTiny := by with_unfolding_all rfl
  have hg : (bin X Y (2 / 10000000) (1 / 10000000) (1 / 10000000) (3 / 10000000)).vars.group = [X, Y] := by decide +kernel
  intro p hp a ha
  have hX : a X < 2 := ha X (by rw [hv]; simp)
  have hY : a Y < 2 := ha Y (by rw [hv]; simp)
  rw [hf] at hp
  rw [hh]
  simp only [List.mem_cons, List.not_mem_nil, or_false] at hp
  rcases hp with rfl | rfl
  · refine ⟨una X 3 4, rfl, ?_⟩
    have h0 : phiTiny 0 a = (valAt (una X 3 4) [a X]).getD 0 := by
      show (valAt (una X 3 4) ((una X 3 4).vars.group.map a)).getD 0 = _
      rw [unaX_group]
      rfl
    rw [h0, unaX_group]
    have : a X = 0 ∨ a X = 1 := by omega
    rcases this with e | e <;> simp only [List.map_cons, List.map_nil, e] <;> decide +kernel
  · refine ⟨_, rfl, ?_⟩
    have h0 : phiTiny 1 a = 1 / 10000000 * (valAt (bin X Y 2 1 1 3) [a X, a Y]).getD 0 := by
      show 1 / 10000000 * (valAt (bin X Y 2 1 1 3) ((bin X Y 2 1 1 3).vars.group.map a)).getD 0 = _
      rw [bin_group]
      rfl
    rw [h0, hg]
    have h1 : a X = 0 ∨ a X = 1 := by omega
    have h2 : a Y = 0 ∨ a Y = 1 := by omega
    rcases h1 with e | e <;> rcases h2 with e' | e' <;> simp only [List.map_cons, List.map_nil, e, e'] <;> decide +kernel

end Ex

/-- C72 is violated by the MAP estimates when the factors which join two hidden variables are multiplied by a small
number: the maximum starts from the smallest normal number, which hides the images. Here the joining factor is divided
by 10^7, in an arithmetic whose smallest normal number is 10^-6: the estimate of Y is no longer 1 but 0. -/
theorem C72_map_violated : ∃ (s t : State (Ext ℚ)) (φ ψ : Nat → Assign → ℚ),
    Reach (fun s op => Prudent s op ∧ Steady s op) s ∧ Reach (fun s op => Prudent s op ∧ Steady s op) t ∧ s.SameGraph t ∧
    s.Images φ ∧ t.Images ψ ∧ s.wouldNeedPropagation .map = true ∧ t.wouldNeedPropagation .map = true ∧ s.Hidden Ex.Y ∧
    s.ScaledAt Ex.Y φ ψ ∧ (∃ s', State.getMAP Ex.rev id Ex.Y 1 s = .ok s' 1) ∧ ∃ t', State.getMAP Ex.rev id Ex.Y 1 t = .ok t' 0 := by
  have ans : ∀ (o : Out (State (Ext ℚ)) Nat) (k : Nat),
      (match o with | .ok _ k' => decide (k' = k) | _ => false) = true → ∃ s', o = .ok s' k := by
    intro o k h
    cases o with
    | ok s' k' => exact ⟨s', by rw [of_decide_eq_true h]⟩
    | throw s' => cases h
    | ub => cases h
  refine ⟨Ex.joined, Ex.tiny, Ex.phi, Ex.phiTiny, Ex.after_steady _ (by decide +kernel), Ex.tiny_reach, Ex.joined_tiny,
    Ex.phi_images rfl (by decide +kernel), Ex.tiny_images, by decide +kernel, by decide +kernel, ⟨by decide +kernel, ?_⟩, ?_,
    ans _ _ (by decide +kernel), ans _ _ (by decide +kernel)⟩
  · have he : Ex.joined.evidences = [] := by decide +kernel
    rw [State.Observes, he]
    simp
  · intro p _
    by_cases hp : p = 1
    · exact ⟨1 / 10000000, by norm_num, fun a _ => by simp [Ex.phiTiny, hp]⟩
    · exact ⟨1, one_pos, fun a _ => by simp [Ex.phiTiny, hp]⟩

end EFG
