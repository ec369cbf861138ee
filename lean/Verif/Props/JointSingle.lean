import Verif.Lemmas.JointSingle
import Verif.Props.JointPositive
import Verif.Props.Propagation
import Verif.Props.Scale
/-
C73: the joint distribution of one variable is its marginal, on every graph.
-/

set_option linter.unusedSectionVars false

namespace EFG
variable {K : Type} [Field K] [LinearOrder K] [IsStrictOrderedRing K] [FloatParams K]

/-- C73: when all the images of the factors are positive, the joint distribution of one variable is proportional to its
marginal, also on a graph with cycles, where both are approximate, so its probabilities are the marginal. The two queries leave the same model, and each of them
gives the same answer when it is asked after the other, with any number of threads.

Missing: factors with null images, for which the marginal may be made of NaN while the joint distribution is zero
(`C73_null_violated`). -/
theorem C73_single_partial {s : State (Ext K)} (h : Reach (fun s op => Prudent s op ∧ Steady s op) s)
    {ord : List Var → List Var} (hord : ∀ l, (ord l).Perm l)
    {sh : List State.Contribution → List State.Contribution} (hsh : ∀ l, (sh l).Perm l)
    {sched : Sched} (hsched : ∀ l, (sched l).Perm l) {n : Nat} (hn : 1 ≤ n)
    (hneed : s.wouldNeedPropagation .sum = true) {φ : Nat → Assign → K} (hφ : s.Images φ)
    (hpos : ∀ p ∈ s.factors, ∀ a, s.InRange a → 0 < φ p a) {v : Var} (hv : v ∈ s.vars) :
    ∃ (s' : State (Ext K)) (f : Fn (Ext K)) (x : Nat → K) (C : K),
      State.getJoint ord sh sched (Group.single v) n s = .ok s' f ∧
      State.getMarginal ord sched v n s = .ok s' ((List.range v.size).map (fun i => .val (x i))) ∧
      (∀ sched' m, State.getJoint ord sh sched' (Group.single v) m s' = .ok s' f ∧
        State.getMarginal ord sched' v m s' = .ok s' ((List.range v.size).map (fun i => .val (x i)))) ∧
      f.vars.group = [v] ∧ f.probabilities = .ok ((List.range v.size).map (fun i => .val (x i))) ∧
      0 < C ∧ ∀ i < v.size, f.findTransformed [i] = .ok (.val (C * x i)) := by
  have hs := reach_sound h
  have hP : s.AllPositive := hφ.valued hs.healthy.inv.toCore hpos
  obtain ⟨s', r, f1, f2, f3, f4, f5, _, fa, _, fm⟩ := State.checkPropagation_positive hord .sum hsched hs hn hneed hP
  obtain ⟨_, _, x1, _, x3, _, _⟩ := State.checkPropagation_sound hord .sum hsched hs hn
  rw [f1] at x1
  cases x1
  have hagain : ∀ sched' m, State.checkPropagation ord sched' .sum m s' = .ok s' () := by
    intro sched' m
    unfold State.checkPropagation State.wouldNeedPropagation
    simp [f4, f5]
  -- it is enough to compare what is read in the propagated model
  suffices hread : ∃ (f : Fn (Ext K)) (x : Nat → K) (C : K), State.jointOf ord sh (Group.single v) s' = .ok f ∧
      State.readMarginal ord v s' = .ok ((List.range v.size).map (fun i => .val (x i))) ∧ 0 < C ∧
      ((List.range v.size).map x).sum = 1 ∧ ∀ i < v.size, f.findTransformed [i] = .ok (.val (C * x i)) by
    obtain ⟨f, x, C, h1, h2, h4, hx, h5⟩ := hread
    obtain ⟨w1, w2⟩ := State.jointOf_wf hord hsh f3.inv fa (Group.single_wf v) h1
    have hu : f.Unary v := ⟨w1, by rw [w2]; rfl⟩
    refine ⟨s', f, x, C, ?_, ?_, fun sched' m => ⟨?_, ?_⟩, by rw [w2]; rfl, hu.probabilities_multiple h4 h5 hx, h4, h5⟩
    · rw [State.getJoint_eq]; unfold State.asks State.lift; rw [f1]; simp only [h1]
    · unfold State.getMarginal; rw [State.marginalQuery_eq]; unfold State.asks State.lift; rw [f1]; simp only [h2]
    · rw [State.getJoint_eq]; unfold State.asks State.lift; rw [hagain]; simp only [h1]
    · unfold State.getMarginal; rw [State.marginalQuery_eq]; unfold State.asks State.lift; rw [hagain]; simp only [h2]
  by_cases ho : s.Observes v
  · obtain ⟨k, hk⟩ := ho
    obtain ⟨s1, f, h1, h2, h3⟩ := C71_joint_positive_partial h hord hsh hsched hn hneed hφ hpos (.single v) (by simp [Group.single])
      (by simpa [Group.single] using hv) (by
        intro a ha b hb _ _
        rw [show (Group.single v).group = [v] from rfl, List.mem_singleton] at ha hb
        rw [ha, hb])
    have h4 : State.jointOf ord sh (Group.single v) s' = .ok f := by
      rw [State.getJoint_eq] at h1
      unfold State.asks State.lift at h1
      rw [f1] at h1
      simp only at h1
      cases hj : State.jointOf ord sh (Group.single v) s' with
      | ok g => rw [hj] at h1; cases h1; rfl
      | throw => rw [hj] at h1; cases h1
      | ub => rw [hj] at h1; cases h1
    obtain ⟨s2, h5⟩ := (C27_total_partial (Ex.Reach.mono (fun _ _ h => h.1) h) hord hsched hn hk (Var.eqv_refl v)).1
    have h6 : State.readMarginal ord v s' = .ok (certain v.size k) := by
      unfold State.getMarginal at h5
      rw [State.marginalQuery_eq] at h5
      unfold State.asks State.lift at h5
      rw [f1] at h5
      simp only at h5
      cases hj : State.readMarginal ord v s' with
      | ok g => rw [hj] at h5; cases h5; rfl
      | throw => rw [hj] at h5; cases h5
      | ub => rw [hj] at h5; cases h5
    have hkl : k < v.size := by
      have := hs.healthy.inv.toCore.ev_lt (State.observes_iff.mp ⟨k, hk⟩)
      unfold State.ev at this
      rw [AMap.find?_of_mem hs.healthy.inv.toCore.obsNodup hk] at this
      exact this
    have h7 : ∀ i < v.size, ∃ x : K, f.findTransformed [i] = .ok (.val x) ∧ 0 ≤ x ∧ (0 < x ↔ i = k) := by
      intro i hi
      obtain ⟨x, e1, e2, e3⟩ := h3 (fun _ => i) (by
        intro u hu
        rw [show (Group.single v).group = [v] from rfl, List.mem_singleton] at hu
        rw [hu]
        exact hi)
      refine ⟨x, e1, e2, e3.trans ⟨fun h => h v k hk (by simp [Group.single]), ?_⟩⟩
      rintro rfl u j hj hu
      rw [show (Group.single v).group = [v] from rfl, List.mem_singleton] at hu
      subst hu
      have g1 := AMap.find?_of_mem hs.healthy.inv.toCore.obsNodup hk
      rw [AMap.find?_of_mem hs.healthy.inv.toCore.obsNodup hj] at g1
      exact (Option.some.inj g1).symm
    obtain ⟨C, c1, _, c3⟩ := h7 k hkl
    refine ⟨f, fun i => if i = k then 1 else 0, C, h4, ?_, c3.mpr rfl, ?_, fun i hi => ?_⟩
    rotate_left 2
    · show _ = Res.ok (Ext.val (C * if i = k then 1 else 0))
      by_cases e : i = k
      · rw [e, if_pos rfl, mul_one]
        exact c1
      · obtain ⟨x, e1, e2, e3⟩ := h7 i hi
        rw [if_neg e, mul_zero, e1, le_antisymm (not_lt.mp (fun h => e (e3.mp h))) e2]
    · rw [h6]
      unfold certain
      congr 1
      refine List.map_congr_left (fun i _ => ?_)
      by_cases e : i = k
      · simp only [if_pos e]; rfl
      · simp only [if_neg e]; rfl
    · exact sum_range_single hkl
  · have hvh : v ∈ s'.hid := State.hidden_iff.mp ((f2.toQuiet.hiddenS v).mpr ⟨hv, ho⟩)
    obtain ⟨f, x, C, h1, _, h3, h4, hx, h5⟩ := State.single_positive hord hsh f3 (x3.faithful trivial) (hP.quiet f2.toQuiet) f4 fa fm hvh
    exact ⟨f, x, C, h1, by rw [f3.inv.readMarginal_hidden hvh (Var.eqv_refl v)]; exact h3, h4, hx, h5⟩

/-- The triangle, whose propagation stops after one iteration: Z is hidden. -/
example : ∃ (s' : State (Ext ℚ)) (f : Fn (Ext ℚ)) (x : Nat → ℚ) (C : ℚ),
    State.getJoint Ex.rev id List.reverse (Group.single Ex.Z) 2 (Ex.after Ex.triangle) = .ok s' f ∧
    State.getMarginal Ex.rev List.reverse Ex.Z 2 (Ex.after Ex.triangle) = .ok s' [.val (x 0), .val (x 1)] ∧ f.probabilities = .ok [.val (x 0), .val (x 1)] ∧
    0 < C ∧ f.findTransformed [0] = .ok (.val (C * x 0)) ∧ f.findTransformed [1] = .ok (.val (C * x 1)) := by
  obtain ⟨s', f, x, C, h1, h2, _, _, h7, h5, h6⟩ := C73_single_partial Ex.triangle_reach Ex.rev_perm (sh := id)
    (fun l => .refl l) (fun l => List.reverse_perm l) (n := 2) (by omega) (by decide +kernel) (φ := Ex.phi)
    (Ex.phi_images rfl (by decide +kernel)) (Ex.phi_positive (by decide +kernel)) (v := Ex.Z) (by decide +kernel)
  exact ⟨s', f, x, C, h1, h2, h7, h5, h6 0 (by decide), h6 1 (by decide)⟩

/-- The triangle with X = 1 observed, for X itself. -/
example : ∃ (s' : State (Ext ℚ)) (f : Fn (Ext ℚ)) (x : Nat → ℚ) (C : ℚ),
    State.getJoint Ex.rev id id (Group.single Ex.X) 1 (Ex.after (Ex.triangle ++ [.observe Ex.X 1])) = .ok s' f ∧
    State.getMarginal Ex.rev id Ex.X 1 s' = .ok s' [.val (x 0), .val (x 1)] ∧
    0 < C ∧ f.findTransformed [0] = .ok (.val (C * x 0)) ∧ f.findTransformed [1] = .ok (.val (C * x 1)) := by
  obtain ⟨s', f, x, C, h1, _, h3, _, _, h5, h6⟩ := C73_single_partial (Ex.after_steady (Ex.triangle ++ [.observe Ex.X 1]) (by decide +kernel))
    Ex.rev_perm (sh := id) (fun l => .refl l) (fun l => .refl l) (n := 1) le_rfl (by decide +kernel) (φ := Ex.phi)
    (Ex.phi_images (by decide +kernel) (by decide +kernel)) (Ex.phi_positive (by decide +kernel)) (v := Ex.X) (by decide +kernel)
  exact ⟨s', f, x, C, h1, (h3 id 1).2, h5, h6 0 (by decide), h6 1 (by decide)⟩

/-- C73 is violated by null images: X with the factor 3, 0, joined to Y by a factor which allows only X = 1, Y = 1. The
marginal of X is made of NaN, while its joint distribution is zero. -/
theorem C73_null_violated : ∃ (s : State (Ext ℚ)), Reach (fun s op => Prudent s op ∧ Steady s op) s ∧ Ex.X ∈ s.vars ∧
    (∃ s', State.getMarginal Ex.rev id Ex.X 1 s = .ok s' [.nan, .nan]) ∧
    ∃ s' f, State.getJoint Ex.rev id id (Group.single Ex.X) 1 s = .ok s' f ∧
      f.findTransformed [0] = .ok (.val 0) ∧ f.findTransformed [1] = .ok (.val 0) := by
  have hev : (match (GOp.mutate 0 (.set [1] (.val 0))).exec (Ex.after [.add 0, .add 8]) with
      | .ok s' _ => (match State.getMarginal Ex.rev id Ex.X 1 s' with
        | .ok _ ps => some ps
        | _ => none)
      | _ => none) = some [.nan, .nan] := by decide +kernel
  have hjo : (match (GOp.mutate 0 (.set [1] (.val 0))).exec (Ex.after [.add 0, .add 8]) with
      | .ok s' _ => (match State.getJoint Ex.rev id id (Group.single Ex.X) 1 s' with
        | .ok _ f => decide (f.findTransformed [0] = .ok (.val 0) ∧ f.findTransformed [1] = .ok (.val 0))
        | _ => false)
      | _ => false) = true := by decide +kernel
  have hv : (Ex.after [.add 0, .add 8]).vars = [Ex.X, Ex.Y] := by decide +kernel
  have hh : (Ex.after [.add 0, .add 8]).heap = Ex.heapXYZ := rfl
  have hf : (Ex.after [.add 0, .add 8]).factors = [0, 8] := by decide +kernel
  have he : (Ex.after [.add 0, .add 8]).evidences = [] := by decide +kernel
  have hl : (Ex.after [.add 0, .add 8]).last = none := by decide +kernel
  have hm : ∀ e ∈ (Ex.after [.add 0, .add 8]).nodes, e.2.merged = none := by decide +kernel
  have hreach : Reach (fun s op => Prudent s op ∧ Steady s op) (Ex.after [.add 0, .add 8]) :=
    Ex.after_steady _ (by decide +kernel)
  generalize Ex.after [.add 0, .add 8] = s at *
  have hg : s.heap[0]? = some (Ex.una Ex.X 3 4) := by rw [hh]; rfl
  have hφ : s.Images Ex.phi := Ex.phi_images hh (by rw [hv, hf]; decide +kernel)
  obtain ⟨g, a1, _, _, a4, _⟩ := State.set_step hreach (p := 0) (by rw [hf]; simp) hl
    (fun f _ => ⟨fun v n _ h => hm _ (AMap.find?_mem h), fun u v _ => by unfold State.Observes; rw [he]; simp⟩) hg (c := [1])
    (by rw [Ex.unaX_group]; decide) (x := 0) (y := 0) le_rfl (by rw [Ex.unaX_weight]; exact .plain 0) le_rfl hφ
  rw [a1] at hev hjo
  simp only at hev hjo
  refine ⟨_, a4, by show Ex.X ∈ s.vars; rw [hv]; simp, ?_, ?_⟩
  · cases hq : State.getMarginal Ex.rev id Ex.X 1 { s with heap := s.heap.set 0 g } with
    | ok s' ps => rw [hq] at hev; cases hev; exact ⟨s', rfl⟩
    | throw => rw [hq] at hev; cases hev
    | ub => rw [hq] at hev; cases hev
  · cases hq : State.getJoint Ex.rev id id (Group.single Ex.X) 1 { s with heap := s.heap.set 0 g } with
    | ok s' f =>
      rw [hq] at hjo
      simp only [decide_eq_true_eq] at hjo
      exact ⟨s', f, rfl, hjo⟩
    | throw => rw [hq] at hjo; cases hjo
    | ub => rw [hq] at hjo; cases hjo

/-- The factor which represents a joint distribution is not one itself: X with the factor 3, 4 and the edge to Y. The images
for X sum to more than 1, though all the factors are positive and there are no cycles, so the caller has to normalise. -/
theorem C73_scale_violated : ∃ (s : State (Ext ℚ)), Reach (fun s op => Prudent s op ∧ Steady s op) s ∧ s.Images Ex.phi ∧
    (∀ p ∈ s.factors, ∀ a, s.InRange a → 0 < Ex.phi p a) ∧
    ∃ s' f, ∃ a b : ℚ, State.getJoint Ex.rev id id (Group.single Ex.X) 1 s = .ok s' f ∧
      f.findTransformed [0] = .ok (.val a) ∧ f.findTransformed [1] = .ok (.val b) ∧ 1 < a + b ∧
      f.probabilities = .ok [.val (a / (a + b)), .val (b / (a + b))] := by
  refine ⟨Ex.after [.add 0, .add 1], Ex.after_steady _ (by decide +kernel), Ex.phi_images rfl (by decide +kernel),
    Ex.phi_positive (by decide +kernel), ?_⟩
  have hj : (match State.getJoint Ex.rev id id (Group.single Ex.X) 1 (Ex.after [.add 0, .add 1]) with
      | .ok _ f => decide (f.findTransformed [0] = .ok (.val (9 / 4)) ∧ f.findTransformed [1] = .ok (.val 4) ∧
          f.probabilities = .ok [.val (9 / 25), .val (16 / 25)])
      | _ => false) = true := by decide +kernel
  generalize Ex.after [.add 0, .add 1] = s at *
  cases hq : State.getJoint Ex.rev id id (Group.single Ex.X) 1 s with
  | throw => rw [hq] at hj; cases hj
  | ub => rw [hq] at hj; cases hj
  | ok s' f =>
    rw [hq] at hj
    simp only [decide_eq_true_eq] at hj
    obtain ⟨h1, h2, h3⟩ := hj
    exact ⟨s', f, 9 / 4, 4, rfl, h1, h2, by norm_num, by rw [h3]; norm_num⟩

/-- C73 does not extend to more variables on a graph with cycles, even if all the images are positive: on the triangle,
whose propagation stops after one iteration, the joint distribution of Y and Z, summed over Z, is not the marginal of Y which
is returned next, without any change in between. -/
theorem C73_pair_violated : ∃ (s : State (Ext ℚ)), Reach (fun s op => Prudent s op ∧ Steady s op) s ∧ s.Images Ex.phi ∧
    (∀ p ∈ s.factors, ∀ a, s.InRange a → 0 < Ex.phi p a) ∧
    ∃ s' f, ∃ a b c d y z : ℚ, State.getJoint Ex.rev id id ⟨[Ex.Y, Ex.Z], [Ex.Y, Ex.Z]⟩ 1 s = .ok s' f ∧
      f.findTransformed [0, 0] = .ok (.val a) ∧ f.findTransformed [0, 1] = .ok (.val b) ∧
      f.findTransformed [1, 0] = .ok (.val c) ∧ f.findTransformed [1, 1] = .ok (.val d) ∧
      State.getMarginal Ex.rev id Ex.Y 1 s' = .ok s' [.val y, .val z] ∧ (a + b) / (a + b + c + d) ≠ y := by
  refine ⟨Ex.after Ex.triangle, Ex.triangle_reach, Ex.phi_images rfl (by decide +kernel), Ex.phi_positive (by decide +kernel), ?_⟩
  have hj : (match State.getJoint Ex.rev id id ⟨[Ex.Y, Ex.Z], [Ex.Y, Ex.Z]⟩ 1 (Ex.after Ex.triangle) with
      | .ok s' f => decide (f.findTransformed [0, 0] = .ok (.val (85 / 16)) ∧ f.findTransformed [0, 1] = .ok (.val (205 / 16)) ∧
          f.findTransformed [1, 0] = .ok (.val (255 / 16)) ∧ f.findTransformed [1, 1] = .ok (.val (615 / 64)) ∧
          s'.wouldNeedPropagation .sum = false ∧ State.readMarginal Ex.rev Ex.Y s' = .ok [.val (2 / 5), .val (3 / 5)])
      | _ => false) = true := by decide +kernel
  generalize Ex.after Ex.triangle = s at *
  cases hq : State.getJoint Ex.rev id id ⟨[Ex.Y, Ex.Z], [Ex.Y, Ex.Z]⟩ 1 s with
  | throw => rw [hq] at hj; cases hj
  | ub => rw [hq] at hj; cases hj
  | ok s' f =>
    rw [hq] at hj
    simp only [decide_eq_true_eq] at hj
    obtain ⟨h1, h2, h3, h4, h5, h6⟩ := hj
    refine ⟨s', f, _, _, _, _, 2 / 5, 3 / 5, rfl, h1, h2, h3, h4, ?_, by norm_num⟩
    unfold State.getMarginal
    rw [State.marginalQuery_eq]
    unfold State.asks State.lift State.checkPropagation
    simp only [h5, Bool.false_eq_true, if_false]
    rw [h6]

end EFG
