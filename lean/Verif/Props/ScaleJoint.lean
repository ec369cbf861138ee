import Verif.Lemmas.ScaleJoint
import Verif.Props.Scale
import Verif.Props.Joint
import Verif.Props.Loopy
/-
C72, for the joint distributions.
-/

set_option linter.unusedSectionVars false

namespace EFG
variable {K : Type} [Field K] [LinearOrder K] [IsStrictOrderedRing K] [FloatParams K]

/-- C72, for the joint distribution of a group of variables: take two models built in the same way, each of which is
about to propagate. If the factors of the clusters of the hidden variables of the group are proportional, the two models
give proportional joint distributions, on every graph. The other factors need not be related.

Missing: the factors of the first model with null images, since then the images may not be numbers
(`C71_violated`); the groups with two observed variables, which are refused by both models. -/
theorem C72_joint_partial {s t : State (Ext K)} (hs : Reach (fun s op => Prudent s op ∧ Steady s op) s)
    (ht : Reach (fun s op => Prudent s op ∧ Steady s op) t) (hg : s.SameGraph t) {φ ψ : Nat → Assign → K}
    (hφ : s.Images φ) (hψ : t.Images ψ) (hws : s.wouldNeedPropagation .sum = true)
    (hwt : t.wouldNeedPropagation .sum = true) (hpos : ∀ p ∈ s.factors, ∀ a, s.InRange a → 0 < φ p a)
    {G : Group} (hG : GroupReach G) (hne : G.group ≠ []) (hsub : ∀ v ∈ G.group, v ∈ s.vars)
    (hobs : ∀ u ∈ G.group, ∀ v ∈ G.group, s.Observes u → s.Observes v → u = v)
    (hsc : ∀ v ∈ G.group, s.Hidden v → s.ScaledAt v φ ψ)
    {ord : List Var → List Var} (hord : ∀ l, (ord l).Perm l)
    {sh : List State.Contribution → List State.Contribution} (hsh : ∀ l, (sh l).Perm l)
    {sched : Sched} (hsched : ∀ l, (sched l).Perm l) {n : Nat} (hn : 1 ≤ n) :
    ∃ s' t' f g, State.getJoint ord sh sched G n s = .ok s' f ∧ State.getJoint ord sh sched G n t = .ok t' g ∧
      f.vars.group = G.group ∧ g.vars.group = G.group ∧ ∃ C : K, 0 < C ∧ ∀ a, InDom G.group a → ∃ x : K,
        f.findTransformed (G.group.map a) = .ok (.val x) ∧ g.findTransformed (G.group.map a) = .ok (.val (C * x)) := by
  have hgw := groupReach_wf hG
  have hob := State.oneObserved hgw hobs
  obtain ⟨s', t', f, g, C, h1, h2, h3, h4, h5, h6⟩ := hg.getJoint hord hsh hsched hn (reach_sound hs) (reach_sound ht) hφ hψ
    hws hwt hpos hgw hne hsub hob hsc
  exact ⟨s', t', f, g, h1, h2, by rw [h3], by rw [h4], C, h5, h6⟩

/-- C72: changing a factor which belongs to none of the clusters of the variables of a group, before any query, does not
change the joint distribution of the group, up to a positive scale.

Missing: as in `C72_joint_partial`. -/
theorem C72_elsewhere_joint_partial {s : State (Ext K)} (h : Reach (fun s op => Prudent s op ∧ Steady s op) s) {p : Nat}
    (hp : p ∈ s.factors) (hlast : s.last = none) (hu : s.Uncached p) {f : Fn (Ext K)} (hf : s.heap[p]? = some f)
    {c : List Nat} (hc : Valid (f.vars.group.map Var.size) c) {x y : K} (hx : 0 ≤ x) (hy : State.ImageOf f.weight x y)
    (hy0 : 0 ≤ y) {φ : Nat → Assign → K} (hφ : s.Images φ) (hpos : ∀ p ∈ s.factors, ∀ a, s.InRange a → 0 < φ p a)
    {G : Group} (hG : GroupReach G) (hne : G.group ≠ []) (hsub : ∀ v ∈ G.group, v ∈ s.vars)
    (hobs : ∀ u ∈ G.group, ∀ v ∈ G.group, s.Observes u → s.Observes v → u = v)
    (hout : ∀ v ∈ G.group, s.Hidden v → ¬s.InCluster v p) {ord : List Var → List Var} (hord : ∀ l, (ord l).Perm l)
    {sh : List State.Contribution → List State.Contribution} (hsh : ∀ l, (sh l).Perm l)
    {sched : Sched} (hsched : ∀ l, (sched l).Perm l) {n : Nat} (hn : 1 ≤ n) :
    ∃ t s' t' m m', (GOp.mutate p (.set c (.val x))).exec s = .ok t () ∧ State.getJoint ord sh sched G n s = .ok s' m ∧
      State.getJoint ord sh sched G n t = .ok t' m' ∧ m.vars.group = G.group ∧ m'.vars.group = G.group ∧
      ∃ C : K, 0 < C ∧ ∀ a, InDom G.group a → ∃ z : K,
        m.findTransformed (G.group.map a) = .ok (.val z) ∧ m'.findTransformed (G.group.map a) = .ok (.val (C * z)) := by
  obtain ⟨g, h1, _, _, h2, h3⟩ := State.set_step h hp hlast hu hf hc hx hy hy0 hφ
  obtain ⟨s', t', m, m', h4, h5, h6, h7, h8⟩ := C72_joint_partial h h2 ⟨rfl, rfl, rfl, rfl, rfl, fun _ => rfl⟩ hφ h3
    (by unfold State.wouldNeedPropagation; rw [hlast]) (by unfold State.wouldNeedPropagation; rw [hlast]) hpos hG hne hsub
    hobs (fun v hv hh q hq => ⟨1, one_pos, fun a _ => by
      have : q ≠ p := fun e => hout v hv hh (e ▸ hq)
      simp [State.overwrite, this]⟩) hord hsh hsched hn
  exact ⟨_, s', t', m, m', h1, h4, h5, h6, h7, h8⟩

/-- The triangle, which has a cycle: multiplying by 3 the factor of X multiplies the joint distribution of Y and Z, and that
of all the variables. -/
example : ∃ t : State (Ext ℚ), t.heap ≠ (Ex.after Ex.triangle).heap ∧
    (∃ s' t' f g, State.getJoint Ex.rev List.reverse List.reverse (Ex.pair Ex.Y Ex.Z) 2 (Ex.after Ex.triangle) = .ok s' f ∧
      State.getJoint Ex.rev List.reverse List.reverse (Ex.pair Ex.Y Ex.Z) 2 t = .ok t' g ∧
      f.vars.group = [Ex.Y, Ex.Z] ∧ g.vars.group = [Ex.Y, Ex.Z] ∧ ∃ C : ℚ, 0 < C ∧ ∀ a, InDom [Ex.Y, Ex.Z] a → ∃ x : ℚ,
        f.findTransformed ([Ex.Y, Ex.Z].map a) = .ok (.val x) ∧
        g.findTransformed ([Ex.Y, Ex.Z].map a) = .ok (.val (C * x))) ∧
    ∃ s' t' f g, State.getJoint Ex.rev id id ⟨[Ex.Z, Ex.X, Ex.Y], [Ex.Z, Ex.X, Ex.Y]⟩ 1 (Ex.after Ex.triangle) = .ok s' f ∧
      State.getJoint Ex.rev id id ⟨[Ex.Z, Ex.X, Ex.Y], [Ex.Z, Ex.X, Ex.Y]⟩ 1 t = .ok t' g ∧
      f.vars.group = [Ex.Z, Ex.X, Ex.Y] ∧ g.vars.group = [Ex.Z, Ex.X, Ex.Y] ∧ ∃ C : ℚ, 0 < C ∧
      ∀ a, InDom [Ex.Z, Ex.X, Ex.Y] a → ∃ x : ℚ, f.findTransformed ([Ex.Z, Ex.X, Ex.Y].map a) = .ok (.val x) ∧
        g.findTransformed ([Ex.Z, Ex.X, Ex.Y].map a) = .ok (.val (C * x)) := by
  obtain ⟨t, h1, h2, h3, h4, h5, hl, hv, he, hh, hφ⟩ := Ex.tripled
  have hreach := Ex.triangle_reach
  have hpos : ∀ p ∈ (Ex.after Ex.triangle).factors, ∀ a, (Ex.after Ex.triangle).InRange a → 0 < Ex.phi p a :=
    Ex.phi_positive (by decide +kernel)
  generalize Ex.after Ex.triangle = s at *
  have hX : Ex.X ∈ s.vars := by rw [hv]; simp
  have hobs : ∀ v, ¬s.Observes v := fun v => by unfold State.Observes; rw [he]; simp
  refine ⟨t, h1, ?_, ?_⟩
  · exact C72_joint_partial hreach h2 h3 hφ h4 (by unfold State.wouldNeedPropagation; rw [hl])
      (by unfold State.wouldNeedPropagation; rw [h5]) hpos (G := Ex.pair Ex.Y Ex.Z)
      (.soup (vars := [Ex.Y, Ex.Z]) (by decide)) (by decide) (by rw [hv]; decide) (fun u _ _ _ h => absurd h (hobs u))
      (fun v _ _ => Ex.phiTripled_scaled hX v) Ex.rev_perm (fun l => List.reverse_perm l) (fun l => List.reverse_perm l)
      (by omega)
  · exact C72_joint_partial hreach h2 h3 hφ h4 (by unfold State.wouldNeedPropagation; rw [hl])
      (by unfold State.wouldNeedPropagation; rw [h5]) hpos (G := ⟨[Ex.Z, Ex.X, Ex.Y], [Ex.Z, Ex.X, Ex.Y]⟩)
      (.soup (vars := [Ex.Z, Ex.X, Ex.Y]) (by decide)) (by decide) (by rw [hv]; decide) (fun u _ _ _ h => absurd h (hobs u))
      (fun v _ _ => Ex.phiTripled_scaled hX v) Ex.rev_perm (fun l => .refl l) (fun l => .refl l) (by omega)

/-- A factor of X and one which joins Y and Z: changing the second does not change the distribution of X. -/
example : ∃ t s' t' m m', (GOp.mutate 2 (.set [0, 0] (.val 7))).exec (Ex.after [.add 0, .add 2]) = .ok t () ∧
    State.getJoint Ex.rev id List.reverse (Group.single Ex.X) 2 (Ex.after [.add 0, .add 2]) = .ok s' m ∧
    State.getJoint Ex.rev id List.reverse (Group.single Ex.X) 2 t = .ok t' m' ∧ m.vars.group = [Ex.X] ∧
    m'.vars.group = [Ex.X] ∧ ∃ C : ℚ, 0 < C ∧ ∀ a, InDom [Ex.X] a → ∃ z : ℚ,
      m.findTransformed ([Ex.X].map a) = .ok (.val z) ∧ m'.findTransformed ([Ex.X].map a) = .ok (.val (C * z)) := by
  obtain ⟨g, hv, hh, hf, he, hl, hreach, hgr, hgw, hg, hunc, hout⟩ := Ex.twoClusters
  have hpos : ∀ p ∈ (Ex.after [.add 0, .add 2]).factors, ∀ a, (Ex.after [.add 0, .add 2]).InRange a → 0 < Ex.phi p a :=
    Ex.phi_positive (by decide +kernel)
  generalize Ex.after [.add 0, .add 2] = s at *
  have hφ : s.Images Ex.phi := Ex.phi_images hh (by rw [hv, hf]; decide +kernel)
  have hobs : ∀ v, ¬s.Observes v := fun v => by unfold State.Observes; rw [he]; simp
  have hgs : (Group.single Ex.X).group = [Ex.X] := by decide
  have := C72_elsewhere_joint_partial hreach (p := 2) (by rw [hf]; simp) hl hunc hg (c := [0, 0]) (by rw [hgr]; decide)
    (x := 7) (y := 7) (by norm_num) (by rw [hgw]; exact .plain 7) (by norm_num) hφ hpos (.single Ex.X) (by decide)
    (by rw [hv]; decide) (fun u _ _ _ h => absurd h (hobs u))
    (fun v hv' _ => by rw [hgs, List.mem_singleton] at hv'; rw [hv']; exact hout) Ex.rev_perm (sh := id) (fun l => .refl l)
    (fun l => List.reverse_perm l) (n := 2) (by omega)
  rw [hgs] at this
  exact this

end EFG
