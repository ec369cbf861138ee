import Verif.Lemmas.JointPositive
import Verif.Props.Joint
import Verif.Props.Loopy
/-
C71, for the joint distributions of a model whose images are positive.
-/

set_option linter.unusedSectionVars false

namespace EFG
variable {K : Type} [Field K] [LinearOrder K] [IsStrictOrderedRing K] [FloatParams K]

/-- C71: when all the images of the factors are positive, the images of the joint distribution which a propagation
computes are nonnegative numbers on every graph, also on those with cycles, and they are null exactly where an evidence
is contradicted.

Missing: the groups with two observed variables (`C34_observed_violated`). -/
theorem C71_joint_positive_partial {s : State (Ext K)} (h : Reach (fun s op => Prudent s op ∧ Steady s op) s)
    {ord : List Var → List Var} (hord : ∀ l, (ord l).Perm l)
    {sh : List State.Contribution → List State.Contribution} (hsh : ∀ l, (sh l).Perm l)
    {sched : Sched} (hsched : ∀ l, (sched l).Perm l) {n : Nat} (hn : 1 ≤ n)
    (hneed : s.wouldNeedPropagation .sum = true) {φ : Nat → Assign → K} (hφ : s.Images φ)
    (hpos : ∀ p ∈ s.factors, ∀ a, s.InRange a → 0 < φ p a)
    {G : Group} (hG : GroupReach G) (hne : G.group ≠ []) (hsub : ∀ v ∈ G.group, v ∈ s.vars)
    (hobs : ∀ u ∈ G.group, ∀ v ∈ G.group, s.Observes u → s.Observes v → u = v) :
    ∃ s' f, State.getJoint ord sh sched G n s = .ok s' f ∧ f.vars.group = G.group ∧
      ∀ a, InDom G.group a → ∃ x : K, f.findTransformed (G.group.map a) = .ok (.val x) ∧ 0 ≤ x ∧
        (0 < x ↔ ∀ v k, (v, k) ∈ s.evidences → v ∈ G.group → a v = k) := by
  have hs := reach_sound h
  have hc := hs.healthy.inv.toCore
  have hgw := groupReach_wf hG
  obtain ⟨s', f, h1, h2, h3⟩ := State.getJoint_positive hord hsh hsched hn hs hneed (hφ.valued hc hpos) hgw hne hsub
    (State.oneObserved hgw hobs)
  refine ⟨s', f, h1, by rw [h2], fun a ha => ?_⟩
  obtain ⟨x, h4, h5, h6⟩ := h3 a ha
  refine ⟨x, h4, h5, h6.trans ⟨fun hv v k hk hG => ?_, fun hv v hG ho => ?_⟩⟩
  · rw [hv v hG (State.observes_iff.mp ⟨k, hk⟩)]
    unfold State.ev
    rw [AMap.find?_of_mem hc.obsNodup hk]
    rfl
  · obtain ⟨k, hk⟩ := AMap.mem_keys.mp ho
    rw [hv v k (AMap.find?_mem hk) hG]
    unfold State.ev
    rw [hk]
    rfl

/-- The joint distribution of all the variables of the triangle, which has a cycle, is positive everywhere. -/
example : ∃ s' f, State.getJoint Ex.rev List.reverse id ⟨[Ex.Z, Ex.X, Ex.Y], [Ex.Z, Ex.X, Ex.Y]⟩ 2 (Ex.after Ex.triangle) =
      .ok s' f ∧ f.vars.group = [Ex.Z, Ex.X, Ex.Y] ∧
    ∀ a, InDom [Ex.Z, Ex.X, Ex.Y] a → ∃ x : ℚ, f.findTransformed ([Ex.Z, Ex.X, Ex.Y].map a) = .ok (.val x) ∧ 0 < x := by
  have hv : (Ex.after Ex.triangle).vars = [Ex.X, Ex.Y, Ex.Z] := by decide +kernel
  have he : (Ex.after Ex.triangle).evidences = [] := by decide +kernel
  obtain ⟨s', f, h1, h2, h3⟩ := C71_joint_positive_partial Ex.triangle_reach Ex.rev_perm (sh := List.reverse)
    (fun l => List.reverse_perm l) (fun l => .refl l) (n := 2) (by omega) (by decide +kernel) (φ := Ex.phi)
    (Ex.phi_images rfl (by decide +kernel)) (Ex.phi_positive (by decide +kernel))
    (G := ⟨[Ex.Z, Ex.X, Ex.Y], [Ex.Z, Ex.X, Ex.Y]⟩) (.soup (vars := [Ex.Z, Ex.X, Ex.Y]) (by decide)) (by decide)
    (by rw [hv]; decide) (fun u _ _ _ h => by unfold State.Observes at h; rw [he] at h; simp at h)
  refine ⟨s', f, h1, h2, fun a ha => ?_⟩
  obtain ⟨x, h4, _, h5⟩ := h3 a ha
  exact ⟨x, h4, h5.mpr (fun v k h => by rw [he] at h; simp at h)⟩

/-- The triangle with X = 1 observed: the joint distribution of X and Z is null exactly where X = 0. -/
example : ∃ s' f, State.getJoint Ex.rev id id ⟨[Ex.X, Ex.Z], [Ex.X, Ex.Z]⟩ 1 (Ex.after (Ex.triangle ++ [.observe Ex.X 1])) =
      .ok s' f ∧ f.vars.group = [Ex.X, Ex.Z] ∧
    ∀ a, InDom [Ex.X, Ex.Z] a → ∃ x : ℚ, f.findTransformed ([Ex.X, Ex.Z].map a) = .ok (.val x) ∧ 0 ≤ x ∧
      (0 < x ↔ a Ex.X = 1) := by
  have hv : (Ex.after (Ex.triangle ++ [.observe Ex.X 1])).vars = [Ex.X, Ex.Y, Ex.Z] := by decide +kernel
  have he : (Ex.after (Ex.triangle ++ [.observe Ex.X 1])).evidences = [(Ex.X, 1)] := by decide +kernel
  have hreach : Reach (fun s op => Prudent s op ∧ Steady s op) (Ex.after (Ex.triangle ++ [.observe Ex.X 1])) :=
    Ex.after_steady _ (by decide +kernel)
  have hφ : (Ex.after (Ex.triangle ++ [.observe Ex.X 1])).Images Ex.phi := Ex.phi_images (by decide +kernel) (by decide +kernel)
  have hpos := Ex.phi_positive (s := Ex.after (Ex.triangle ++ [.observe Ex.X 1])) (by decide +kernel)
  have hl : (Ex.after (Ex.triangle ++ [.observe Ex.X 1])).last = none := by decide +kernel
  generalize Ex.after (Ex.triangle ++ [.observe Ex.X 1]) = s at *
  have hob : ∀ v, s.Observes v → v = Ex.X := by
    rintro v ⟨k, hk⟩
    rw [he] at hk
    simp at hk
    exact hk.1
  obtain ⟨s', f, h1, h2, h3⟩ := C71_joint_positive_partial hreach Ex.rev_perm (sh := id)
    (fun l => .refl l) (fun l => .refl l) (n := 1) le_rfl (by unfold State.wouldNeedPropagation; rw [hl]) hφ hpos
    (G := ⟨[Ex.X, Ex.Z], [Ex.X, Ex.Z]⟩) (.soup (vars := [Ex.X, Ex.Z]) (by decide)) (by decide)
    (by rw [hv]; decide) (fun u _ v _ hu hv => (hob u hu).trans (hob v hv).symm)
  refine ⟨s', f, h1, h2, fun a ha => ?_⟩
  obtain ⟨x, h4, h5, h6⟩ := h3 a ha
  refine ⟨x, h4, h5, h6.trans ⟨fun h => h Ex.X 1 (by rw [he]; simp) (by simp), fun h v k hk _ => ?_⟩⟩
  rw [he] at hk
  simp only [List.mem_singleton, Prod.mk.injEq] at hk
  rw [hk.1, hk.2, h]

end EFG
