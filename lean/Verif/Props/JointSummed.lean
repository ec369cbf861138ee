import Verif.Lemmas.JointSummed
import Verif.Props.Bayes
import Verif.Props.Propagation
/-
C73: where there are no cycles, a joint distribution summed over the other members of its group is a marginal.
-/

set_option linter.unusedSectionVars false

namespace EFG
variable {K : Type} [Field K] [LinearOrder K] [IsStrictOrderedRing K] [FloatParams K]

/-- Both queries leave the model which the propagation leaves. -/
theorem State.joint_marginal_state {s s' s'' : State (Ext K)} {ord : List Var → List Var}
    {sh : List State.Contribution → List State.Contribution} {sched : Sched} {g : Group} {n : Nat} {f : Fn (Ext K)} {v : Var}
    {ps : List (Ext K)} (h1 : State.getJoint ord sh sched g n s = .ok s' f)
    (h5 : State.getMarginal ord sched v n s = .ok s'' ps) : s' = s'' := by
  rw [State.getJoint_eq] at h1
  unfold State.getMarginal at h5
  rw [State.marginalQuery_eq] at h5
  unfold State.asks State.lift at h1 h5
  cases hc : State.checkPropagation ord sched .sum n s with
  | throw => rw [hc] at h1; cases h1
  | ub => rw [hc] at h1; cases h1
  | ok s1 u =>
    rw [hc] at h1 h5
    simp only at h1 h5
    cases h6 : State.jointOf ord sh g s1 with
    | throw => rw [h6] at h1; cases h1
    | ub => rw [h6] at h1; cases h1
    | ok y =>
      cases h7 : State.readMarginal ord v s1 with
      | throw => rw [h7] at h5; cases h5
      | ub => rw [h7] at h5; cases h5
      | ok z =>
        rw [h6] at h1; rw [h7] at h5
        cases h1; cases h5
        rfl

/-- C73: the joint distribution of a group, summed over the other members, is proportional to the marginal of a hidden
member, which is returned for the same model, if no cycle goes through the clusters of the members. This also holds for the
members which are linked only through variables out of the group, whose joint distribution is wrong
(`C34_apart_violated`): each of them is still distributed as its marginal says.

Missing: graphs with cycles, where it fails (`C73_pair_violated`), and what is missing in `C34_pieces_partial`. -/
theorem C73_summed_partial {s : State (Ext K)} (h : Reach (fun s op => Prudent s op ∧ Steady s op) s)
    {ord : List Var → List Var} (hord : ∀ l, (ord l).Perm l) {sh : List State.Contribution → List State.Contribution}
    (hsh : ∀ l, (sh l).Perm l) {sched : Sched} (hsched : ∀ l, (sched l).Perm l)
    {n : Nat} (hn : 1 ≤ n) {φ : Nat → Assign → K} (hφ : s.Images φ) (hsym : s.Symmetric φ)
    {g : Group} (hg : GroupReach g) (hsub : ∀ v ∈ g.group, v ∈ s.vars)
    (hobs : ∀ u ∈ g.group, ∀ v ∈ g.group, s.Observes u → s.Observes v → u = v)
    (ht : ∀ v ∈ g.group, s.Hidden v → s.TreeAt v) (hpos : ∃ a, s.Agrees a ∧ s.weight φ a ≠ 0)
    {v : Var} (hv : v ∈ g.group) (hh : s.Hidden v) :
    ∃ (s' : State (Ext K)) (f : Fn (Ext K)) (q : Assign → K) (x : Nat → K) (C : K),
      State.getJoint ord sh sched g n s = .ok s' f ∧ f.vars.group = g.group ∧
      (∀ a, InDom g.group a → f.findTransformed (g.group.map a) = .ok (.val (q a))) ∧
      State.getMarginal ord sched v n s = .ok s' ((List.range v.size).map (fun i => .val (x i))) ∧
      0 < C ∧ ∀ a, ∀ i < v.size, Tree.sumOver Var.size (g.group.erase v) q (Function.update a v i) = C * x i := by
  have hH := (reach_sound h).healthy
  have hs := hH.inv.toCore
  obtain ⟨e, he, hne⟩ := hpos
  have hnd := (groupReach_wf hg).distinct.nodup
  obtain ⟨Ps, hPs⟩ := C34_divided s g.group
  let l : List Var → List Var := fun P => (s.hid.filter (fun w => w ∉ P)).dedup
  have hl : ∀ P, s.OthersOf P (l P) := fun P => ⟨List.nodup_dedup _, fun w => by simp [l, State.hidden_iff]⟩
  -- the piece of `v` and the others
  obtain ⟨P, hP, hvP⟩ := List.mem_flatten.mp (hPs.all.mem_iff.mpr hv)
  obtain ⟨Qs, hQs⟩ : ∃ Qs, Ps.Perm (P :: Qs) := ⟨_, List.perm_cons_erase hP⟩
  have hflat : g.group.Perm (P ++ Qs.flatten) := by
    have := hPs.all.symm.trans hQs.flatten
    rwa [List.flatten_cons] at this
  have hnd' := hflat.nodup_iff.mp hnd
  obtain ⟨hndP, hndQ, hdis⟩ := List.nodup_append.mp hnd'
  have hPG : ∀ w ∈ P, w ∈ g.group := fun w hw => hflat.mem_iff.mpr (by simp [hw])
  have hQG : ∀ Q ∈ Qs, ∀ w ∈ Q, w ∈ g.group := fun Q hQ w hw =>
    hflat.mem_iff.mpr (List.mem_append_right _ (List.mem_flatten.mpr ⟨Q, hQ, hw⟩))
  have herase : (g.group.erase v).Perm (P.erase v ++ Qs.flatten) := by
    have := hflat.erase v
    rwa [List.erase_append_left _ hvP] at this
  have hobsP : ∀ u ∈ P, ∀ w ∈ P, s.Observes u → s.Observes w → u = w := fun u hu w hw => hobs u (hPG u hu) w (hPG w hw)
  obtain ⟨R, hRn, hR, hc⟩ := State.exists_members hndP (fun w hw => hsub w (hPG w hw)) hobsP hvP hh
  have hlv : s.Others v (R ++ l P) := by
    refine ⟨List.Nodup.append hRn (hl P).1 (fun u h1 h2 => (((hl P).2 u).mp h2).2 ((hR u).mp h1).1), fun w => ?_⟩
    rw [List.mem_append, hR, (hl P).2]
    constructor
    · rintro (⟨_, h2, h3⟩ | ⟨h1, h2⟩)
      · exact ⟨h2, h3⟩
      · exact ⟨h1, fun e => h2 (e ▸ hvP)⟩
    · rintro ⟨h1, h2⟩
      by_cases hw : w ∈ P
      · exact .inl ⟨hw, h1, h2⟩
      · exact .inr ⟨h1, hw⟩
  obtain ⟨s', f, h1, h2, C, h3, h4⟩ := C34_pieces_partial h hord hsh hsched hn hφ hsym hg (List.ne_nil_of_mem hv)
    hsub hobs ht hPs (l := l) (fun P _ => hl P) he ⟨e, he, hne⟩
  have hev : e v < v.size := he.1 v hh.1
  have hmz : State.mass (s.weight φ) (R ++ l P) e v (e v) ≠ 0 := by
    rw [← State.mass_symmetric hs hsym (State.hidden_iff.mp hh) hlv he hev]
    exact State.mass_ne_zero hH hφ (State.hidden_iff.mp hh) hlv he
      (by rw [State.readWeight_symmetric hs hsym he.1]; exact hne)
  obtain ⟨s'', h5⟩ := C25_marginals_exact_partial h hord hsched hn hφ hsym hh (Var.eqv_refl v) (ht v hv hh) hlv he
    ⟨e v, hev, hmz⟩
  obtain rfl := State.joint_marginal_state h1 h5
  have hnn : ∀ i < v.size, 0 ≤ State.mass (s.weight φ) (R ++ l P) e v i := fun i hi =>
    Tree.sumOver_nonneg _ _ (fun b h6 h7 =>
      State.weight_nonneg hφ (hlv.agrees (State.hidden_iff.mp hh) he hi h6 h7).1)
  set T := ((List.range v.size).map (State.mass (s.weight φ) (R ++ l P) e v)).sum with hT
  have hTp : 0 < T := by
    have hle : State.mass (s.weight φ) (R ++ l P) e v (e v) ≤ T :=
      List.single_le_sum (by
        intro y hy
        obtain ⟨i, hi, rfl⟩ := List.mem_map.mp hy
        exact hnn i (List.mem_range.mp hi)) _ (List.mem_map.mpr ⟨e v, List.mem_range.mpr hev, rfl⟩)
    exact lt_of_lt_of_le (lt_of_le_of_ne (hnn _ hev) (Ne.symm hmz)) hle
  set D := (Qs.map (fun Q => Tree.sumOver Var.size Q (s.jointMass (s.weight φ) (l Q) e Q) e)).prod with hD
  have hDp : 0 < D := by
    refine State.prod_map_pos (fun Q hQ => ?_)
    exact State.jointMass_total hs (fun a ha => State.weight_nonneg hφ ha) (hl Q) (fun u hu => hsub u (hQG Q hQ u hu)) he hne e
  refine ⟨s', f, fun a => C * (Ps.map (fun P => s.jointMass (s.weight φ) (l P) e P a)).prod,
    fun i => State.mass (s.weight φ) (R ++ l P) e v i / T, C * D * T, h1, h2, h4, ?_, mul_pos (mul_pos h3 hDp) hTp, ?_⟩
  · rw [h5]
    unfold State.distribution
    rw [List.map_map]
    rfl
  · intro a i hi
    rw [Tree.sumOver_const_mul, mul_assoc (C * D), mul_div_cancel₀ _ (ne_of_gt hTp), mul_assoc]
    congr 1
    have hsplit : (fun b => (Ps.map (fun P => s.jointMass (s.weight φ) (l P) e P b)).prod) = fun b =>
        s.jointMass (s.weight φ) (l P) e P b * (Qs.map (fun Q => s.jointMass (s.weight φ) (l Q) e Q b)).prod := by
      funext b
      rw [(hQs.map _).prod_eq, List.map_cons, List.prod_cons]
    have hinner : Tree.sumOver Var.size Qs.flatten (fun b =>
        s.jointMass (s.weight φ) (l P) e P b * (Qs.map (fun Q => s.jointMass (s.weight φ) (l Q) e Q b)).prod) =
        fun b => D * s.jointMass (s.weight φ) (l P) e P b := by
      funext b
      rw [Tree.sumOver_mul (fun x y hxy => State.jointMass_local s _ _ _ (fun u hu =>
          hxy u (fun hu' => hdis u hu u hu' rfl))),
        Tree.sumOver_pieces (fun Q b => s.jointMass (s.weight φ) (l Q) e Q b)
          (fun Q _ x y hxy => State.jointMass_local s _ _ _ hxy) hndQ b e, mul_comm]
    rw [hsplit, Tree.sumOver_perm herase, Tree.sumOver_append, hinner, Tree.sumOver_const_mul]
    congr 1
    exact State.jointMass_summed he hndP hobsP hvP hR hc (fun u hu _ => he.1 u (hsub u (hPG u hu))) a i

/-- C73: the same for an observed member. Partial for the same reasons. -/
theorem C73_summed_observed_partial {s : State (Ext K)} (h : Reach (fun s op => Prudent s op ∧ Steady s op) s)
    {ord : List Var → List Var} (hord : ∀ l, (ord l).Perm l) {sh : List State.Contribution → List State.Contribution}
    (hsh : ∀ l, (sh l).Perm l) {sched : Sched} (hsched : ∀ l, (sched l).Perm l)
    {n : Nat} (hn : 1 ≤ n) {φ : Nat → Assign → K} (hφ : s.Images φ) (hsym : s.Symmetric φ)
    {g : Group} (hg : GroupReach g) (hsub : ∀ v ∈ g.group, v ∈ s.vars)
    (hobs : ∀ u ∈ g.group, ∀ v ∈ g.group, s.Observes u → s.Observes v → u = v)
    (ht : ∀ v ∈ g.group, s.Hidden v → s.TreeAt v) (hpos : ∃ a, s.Agrees a ∧ s.weight φ a ≠ 0)
    {v : Var} (hv : v ∈ g.group) (ho : s.Observes v) :
    ∃ (s' : State (Ext K)) (f : Fn (Ext K)) (q : Assign → K) (x : Nat → K) (C : K),
      State.getJoint ord sh sched g n s = .ok s' f ∧ f.vars.group = g.group ∧
      (∀ a, InDom g.group a → f.findTransformed (g.group.map a) = .ok (.val (q a))) ∧
      State.getMarginal ord sched v n s = .ok s' ((List.range v.size).map (fun i => .val (x i))) ∧
      0 < C ∧ ∀ a, ∀ i < v.size, Tree.sumOver Var.size (g.group.erase v) q (Function.update a v i) = C * x i := by
  have hs := (reach_sound h).healthy.inv.toCore
  obtain ⟨k, hk⟩ := ho
  obtain ⟨e, he, hne⟩ := hpos
  have hek : e v = k := he.2 v k hk
  have hnd := (groupReach_wf hg).distinct.nodup
  obtain ⟨Ps, hPs⟩ := C34_divided s g.group
  let l : List Var → List Var := fun P => (s.hid.filter (fun w => w ∉ P)).dedup
  have hl : ∀ P, s.OthersOf P (l P) := fun P => ⟨List.nodup_dedup _, fun w => by simp [l, State.hidden_iff]⟩
  have hmem : ∀ P ∈ Ps, ∀ w ∈ P, w ∈ g.group := fun P hP w hw => hPs.all.mem_iff.mp (List.mem_flatten.mpr ⟨P, hP, hw⟩)
  obtain ⟨P, hP, hvP⟩ := List.mem_flatten.mp (hPs.all.mem_iff.mpr hv)
  obtain ⟨s', f, h1, h2, C, h3, h4⟩ := C34_pieces_partial h hord hsh hsched hn hφ hsym hg (List.ne_nil_of_mem hv)
    hsub hobs ht hPs (l := l) (fun P _ => hl P) he ⟨e, he, hne⟩
  obtain ⟨s'', h5⟩ := (C27_total_partial (Ex.Reach.mono (fun _ _ h => h.1) h) hord hsched hn hk (Var.eqv_refl v)).1
  obtain rfl := State.joint_marginal_state h1 h5
  have hω : ∀ a, s.InRange a → 0 ≤ s.weight φ a := fun a ha => State.weight_nonneg hφ ha
  set q : Assign → K := fun a => C * (Ps.map (fun P => s.jointMass (s.weight φ) (l P) e P a)).prod with hq
  have hloc : ∀ a b : Assign, (∀ u ∈ g.group, a u = b u) → q a = q b := by
    intro a b hab
    simp only [hq]
    congr 2
    exact List.map_congr_left (fun P hP => State.jointMass_local s _ _ _ (fun u hu => hab u (hmem P hP u hu)))
  refine ⟨s', f, q, fun i => if i = k then 1 else 0, Tree.sumOver Var.size (g.group.erase v) q e, h1, h2, h4, ?_, ?_, ?_⟩
  · rw [h5]
    unfold certain
    congr 1
    refine List.map_congr_left (fun i _ => ?_)
    by_cases e : i = k
    · simp only [if_pos e]; rfl
    · simp only [if_neg e]; rfl
  · have hqe : 0 < q e := mul_pos h3 (State.prod_map_pos (fun P hP =>
      State.jointMass_pos hs hω (hl P) (fun u hu => hsub u (hmem P hP u hu)) he hne))
    refine lt_of_lt_of_le hqe (Tree.le_sumOver _ _ (fun b hb hr => ?_) (fun _ _ => rfl)
      (fun u hu => he.1 u (hsub u (List.mem_of_mem_erase hu))))
    have hdom : InDom g.group b := by
      intro u hu
      by_cases huv : u = v
      · subst huv
        rw [hb u (fun h => (hnd.mem_erase_iff.mp h).1 rfl)]
        exact he.1 u (hsub u hu)
      · exact hr u (hnd.mem_erase_iff.mpr ⟨huv, hu⟩)
    exact mul_nonneg (le_of_lt h3) (State.prod_map_nonneg (fun P hP =>
      State.jointMass_nonneg hs hω (hl P) he (fun u hu => hdom u (hmem P hP u hu))))
  · intro a i _
    by_cases hik : i = k
    · simp only [if_pos hik, mul_one]
      refine Tree.sumOver_local (V := g.group) hloc (fun u hu hu' => ?_)
      have huv : u = v := by
        by_contra hne'
        exact hu' (hnd.mem_erase_iff.mpr ⟨hne', hu⟩)
      rw [huv, Function.update_self, hik, hek]
    · simp only [if_neg hik, mul_zero]
      refine Tree.sumOver_zero (fun b hb => ?_)
      have hbv : b v = i := by
        rw [hb v (fun h => (hnd.mem_erase_iff.mp h).1 rfl), Function.update_self]
      simp only [hq]
      rw [List.prod_eq_zero (List.mem_map.mpr ⟨P, hP, ?_⟩), mul_zero]
      unfold State.jointMass
      rw [if_neg]
      intro hc
      exact hik (hbv.symm.trans (hc (v, k) hk hvP))

/-- The path X - Y - Z: the joint distribution of Z and X, which no factor joins, summed over Z, is the marginal 9/25, 16/25
of X. -/
example : ∃ (s' : State (Ext ℚ)) (f : Fn (Ext ℚ)) (q : Nat → Nat → ℚ) (C : ℚ),
    State.getJoint Ex.rev List.reverse List.reverse (Ex.pair Ex.Z Ex.X) 2 (Ex.after Ex.path) = .ok s' f ∧
    (∀ i < 2, ∀ j < 2, f.findTransformed [i, j] = .ok (.val (q i j))) ∧
    State.getMarginal Ex.rev List.reverse Ex.X 2 (Ex.after Ex.path) = .ok s' [.val (9 / 25), .val (16 / 25)] ∧
    0 < C ∧ q 0 0 + q 1 0 = C * (9 / 25) ∧ q 0 1 + q 1 1 = C * (16 / 25) := by
  have hx := Ex.path_hides (v := Ex.X) (by simp)
  have hz := Ex.path_hides (v := Ex.Z) (by simp)
  have hne : Ex.Z ≠ Ex.X := by decide
  have hev : (match State.getMarginal Ex.rev List.reverse Ex.X 2 (Ex.after Ex.path) with
      | .ok _ ps => some ps
      | _ => none) = some [.val (9 / 25), .val (16 / 25)] := by decide +kernel
  obtain ⟨s', f, q, x, C, h1, h2, h3, h4, h5, h6⟩ := C73_summed_partial Ex.path_reach (ord := Ex.rev) Ex.rev_perm
    (sh := List.reverse) (fun l => List.reverse_perm l) (sched := List.reverse)
    (fun l => List.reverse_perm l) (n := 2) (by omega) (φ := Ex.phi) Ex.path_images Ex.path_symmetric
    (g := Ex.pair Ex.Z Ex.X) (.soup (vars := [Ex.Z, Ex.X]) (by decide))
    (by
      intro v h
      simp only [Ex.pair, List.mem_cons, List.not_mem_nil, or_false] at h
      rcases h with rfl | rfl
      · exact hz.1
      · exact hx.1)
    (by intro u _ v _ ho; rw [State.Observes, Ex.path_evidences] at ho; simp at ho)
    (by intro v _ hh; exact Ex.path_tree hh.1)
    ⟨Ex.zeros, Ex.path_zeros, Ex.path_weighs⟩ (v := Ex.X) (by simp [Ex.pair]) hx
  rw [h4] at hev
  have hx0 : x 0 = 9 / 25 ∧ x 1 = 16 / 25 := by
    have h := Option.some.inj hev
    rw [show Ex.X.size = 2 from rfl] at h
    simp only [List.range_succ, List.range_zero, List.nil_append, List.map_append, List.map_cons, List.map_nil,
      List.cons_append, List.cons.injEq, Ext.val.injEq, and_true] at h
    exact h
  have hl : [Ext.val (x 0), Ext.val (x 1)] = [.val (9 / 25), .val (16 / 25)] := by rw [hx0.1, hx0.2]
  have hq : ∀ i < Ex.X.size, q (Function.update (Function.update Ex.zeros Ex.X i) Ex.Z 0) +
      q (Function.update (Function.update Ex.zeros Ex.X i) Ex.Z 1) = C * x i := by
    intro i hi
    rw [← h6 Ex.zeros i hi, show (Ex.pair Ex.Z Ex.X).group.erase Ex.X = [Ex.Z] by decide]
    simp only [Tree.sumOver, show Ex.Z.size = 2 from rfl, Finset.sum_range_succ, Finset.sum_range_zero, zero_add]
  refine ⟨s', f, fun i j => q (Function.update (Function.update Ex.zeros Ex.X j) Ex.Z i), C, h1, ?_, ?_, h5, ?_, ?_⟩
  · intro i hi j hj
    have hm : (Ex.pair Ex.Z Ex.X).group.map (Function.update (Function.update Ex.zeros Ex.X j) Ex.Z i) = [i, j] := by
      simp [Ex.pair, hne.symm]
    rw [← hm]
    refine h3 _ (fun v hv => ?_)
    simp only [Ex.pair, List.mem_cons, List.not_mem_nil, or_false] at hv
    rcases hv with rfl | rfl
    · rw [Function.update_self]; exact hi
    · rw [Function.update_of_ne hne.symm, Function.update_self]; exact hj
  · rw [h4, ← hl]; rfl
  · rw [← hx0.1]; exact hq 0 (by decide)
  · rw [← hx0.2]; exact hq 1 (by decide)

/-- The path X - Y - Z with the evidence Y = 1: the joint distribution of X and Y, summed over Y, is the marginal 1/5, 4/5
of X. -/
example : ∃ (s' : State (Ext ℚ)) (f : Fn (Ext ℚ)) (q : Nat → Nat → ℚ) (C : ℚ),
    State.getJoint Ex.rev List.reverse List.reverse (Ex.pair Ex.X Ex.Y) 2
      (Ex.after [.add 0, .add 1, .add 2, .observe Ex.Y 1]) = .ok s' f ∧
    (∀ i < 2, ∀ j < 2, f.findTransformed [i, j] = .ok (.val (q i j))) ∧
    State.getMarginal Ex.rev List.reverse Ex.X 2 (Ex.after [.add 0, .add 1, .add 2, .observe Ex.Y 1]) =
      .ok s' [.val (1 / 5), .val (4 / 5)] ∧
    0 < C ∧ q 0 0 + q 0 1 = C * (1 / 5) ∧ q 1 0 + q 1 1 = C * (4 / 5) := by
  have hv : (Ex.after [.add 0, .add 1, .add 2, .observe Ex.Y 1]).vars = [Ex.X, Ex.Y, Ex.Z] := by decide +kernel
  have hh : (Ex.after [.add 0, .add 1, .add 2, .observe Ex.Y 1]).heap = Ex.heapXYZ := by decide +kernel
  have hf : (Ex.after [.add 0, .add 1, .add 2, .observe Ex.Y 1]).factors = [0, 1, 2] := by decide +kernel
  have he : (Ex.after [.add 0, .add 1, .add 2, .observe Ex.Y 1]).evidences = [(Ex.Y, 1)] := by decide +kernel
  have hr := Ex.after_steady [.add 0, .add 1, .add 2, .observe Ex.Y 1] (by decide +kernel)
  have hev : (match State.getMarginal Ex.rev List.reverse Ex.X 2 (Ex.after [.add 0, .add 1, .add 2, .observe Ex.Y 1]) with
      | .ok _ ps => some ps
      | _ => none) = some [.val (1 / 5), .val (4 / 5)] := by decide +kernel
  generalize Ex.after [.add 0, .add 1, .add 2, .observe Ex.Y 1] = s at *
  have hne : Ex.X ≠ Ex.Y := by decide
  have hapart : ∀ u v, s.Hidden u → s.Hidden v → ¬s.Joins u v := by
    intro u v hu hv' hj
    have hy : ∀ w, s.Hidden w → w ≠ Ex.Y := by
      rintro w hw rfl
      exact hw.2 ⟨1, by rw [he]; simp⟩
    have key : ∀ p ∈ s.factors, ∀ f, s.heap[p]? = some f → f.vars.group = [Ex.X] ∨ Ex.Y ∈ f.vars.group := by
      rw [hf, hh]
      intro p hp f hf
      simp only [List.mem_cons, List.not_mem_nil, or_false] at hp
      rcases hp with rfl | rfl | rfl <;> (cases hf; decide)
    obtain ⟨p, ⟨hp, f, hf, hg⟩ | ⟨hp, f, hf, hg⟩⟩ := hj <;> rcases key p hp f hf with h | h <;> rw [hg] at h
    · cases h
    · simp only [List.mem_cons, List.not_mem_nil, or_false] at h
      rcases h with h | h
      · exact hy u hu h.symm
      · exact hy v hv' h.symm
    · cases h
    · simp only [List.mem_cons, List.not_mem_nil, or_false] at h
      rcases h with h | h
      · exact hy v hv' h.symm
      · exact hy u hu h.symm
  have hag : s.Agrees (fun _ => 1) := by
    constructor
    · intro v h
      rw [hv] at h
      simp only [List.mem_cons, List.not_mem_nil, or_false] at h
      rcases h with rfl | rfl | rfl <;> decide
    · intro v k h
      rw [he] at h
      simp at h
      exact h.2.symm
  have hx : s.Hidden Ex.X := ⟨by rw [hv]; simp, by rw [State.Observes, he]; simp [hne]⟩
  obtain ⟨s', f, q, x, C, h1, h2, h3, h4, h5, h6⟩ := C73_summed_partial hr (ord := Ex.rev) Ex.rev_perm
    (sh := List.reverse) (fun l => List.reverse_perm l) (sched := List.reverse)
    (fun l => List.reverse_perm l) (n := 2) (by omega) (φ := Ex.phi)
    (Ex.phi_images hh (by rw [hv, hf]; decide +kernel)) (Ex.phi_symmetric hh (by rw [hf]; decide +kernel))
    (g := Ex.pair Ex.X Ex.Y) (.soup (vars := [Ex.X, Ex.Y]) (by decide))
    (by
      intro v h
      rw [hv]
      simp only [Ex.pair, List.mem_cons, List.not_mem_nil, or_false] at h
      rcases h with rfl | rfl <;> simp)
    (by
      rintro u _ v _ ⟨i, hi⟩ ⟨j, hj⟩
      rw [he] at hi hj
      simp at hi hj
      rw [hi.1, hj.1])
    (by
      intro v _ _ u _ c hc
      cases c with
      | nil => exact hc.not_nil .nil
      | cons h _ => exact hapart _ _ h.2.1 h.2.2.1 h.2.2.2)
    ⟨fun _ => 1, hag, by unfold State.weight; rw [hf]; decide +kernel⟩ (v := Ex.X) (by simp [Ex.pair]) hx
  rw [h4] at hev
  have hx0 : x 0 = 1 / 5 ∧ x 1 = 4 / 5 := by
    have h := Option.some.inj hev
    rw [show Ex.X.size = 2 from rfl] at h
    simp only [List.range_succ, List.range_zero, List.nil_append, List.map_append, List.map_cons, List.map_nil,
      List.cons_append, List.cons.injEq, Ext.val.injEq, and_true] at h
    exact h
  have hl : [Ext.val (x 0), Ext.val (x 1)] = [.val (1 / 5), .val (4 / 5)] := by rw [hx0.1, hx0.2]
  have hq : ∀ i < Ex.X.size, q (Function.update (Function.update Ex.zeros Ex.X i) Ex.Y 0) +
      q (Function.update (Function.update Ex.zeros Ex.X i) Ex.Y 1) = C * x i := by
    intro i hi
    rw [← h6 Ex.zeros i hi, show (Ex.pair Ex.X Ex.Y).group.erase Ex.X = [Ex.Y] by decide]
    simp only [Tree.sumOver, show Ex.Y.size = 2 from rfl, Finset.sum_range_succ, Finset.sum_range_zero, zero_add]
  refine ⟨s', f, fun i j => q (Function.update (Function.update Ex.zeros Ex.X i) Ex.Y j), C, h1, ?_, ?_, h5, ?_, ?_⟩
  · intro i hi j hj
    have hm : (Ex.pair Ex.X Ex.Y).group.map (Function.update (Function.update Ex.zeros Ex.X i) Ex.Y j) = [i, j] := by
      simp [Ex.pair, hne]
    rw [← hm]
    refine h3 _ (fun v hv => ?_)
    simp only [Ex.pair, List.mem_cons, List.not_mem_nil, or_false] at hv
    rcases hv with rfl | rfl
    · rw [Function.update_of_ne hne, Function.update_self]; exact hi
    · rw [Function.update_self]; exact hj
  · rw [h4, ← hl]; rfl
  · rw [← hx0.1]; exact hq 0 (by decide)
  · rw [← hx0.2]; exact hq 1 (by decide)

/-- The path X - Y - Z with the evidence Y = 1: the joint distribution of X and Y, summed over X, is the marginal 0, 1
of the observed variable Y. -/
example : ∃ (s' : State (Ext ℚ)) (f : Fn (Ext ℚ)) (q : Nat → Nat → ℚ) (C : ℚ),
    State.getJoint Ex.rev List.reverse List.reverse (Ex.pair Ex.X Ex.Y) 2
      (Ex.after [.add 0, .add 1, .add 2, .observe Ex.Y 1]) = .ok s' f ∧
    (∀ i < 2, ∀ j < 2, f.findTransformed [i, j] = .ok (.val (q i j))) ∧
    State.getMarginal Ex.rev List.reverse Ex.Y 2 (Ex.after [.add 0, .add 1, .add 2, .observe Ex.Y 1]) =
      .ok s' [.val 0, .val 1] ∧
    0 < C ∧ q 0 0 + q 1 0 = C * 0 ∧ q 0 1 + q 1 1 = C * 1 := by
  have hv : (Ex.after [.add 0, .add 1, .add 2, .observe Ex.Y 1]).vars = [Ex.X, Ex.Y, Ex.Z] := by decide +kernel
  have hh : (Ex.after [.add 0, .add 1, .add 2, .observe Ex.Y 1]).heap = Ex.heapXYZ := by decide +kernel
  have hf : (Ex.after [.add 0, .add 1, .add 2, .observe Ex.Y 1]).factors = [0, 1, 2] := by decide +kernel
  have he : (Ex.after [.add 0, .add 1, .add 2, .observe Ex.Y 1]).evidences = [(Ex.Y, 1)] := by decide +kernel
  have hr := Ex.after_steady [.add 0, .add 1, .add 2, .observe Ex.Y 1] (by decide +kernel)
  have hev : (match State.getMarginal Ex.rev List.reverse Ex.Y 2 (Ex.after [.add 0, .add 1, .add 2, .observe Ex.Y 1]) with
      | .ok _ ps => some ps
      | _ => none) = some [.val 0, .val 1] := by decide +kernel
  generalize Ex.after [.add 0, .add 1, .add 2, .observe Ex.Y 1] = s at *
  have hne : Ex.X ≠ Ex.Y := by decide
  have hapart : ∀ u v, s.Hidden u → s.Hidden v → ¬s.Joins u v := by
    intro u v hu hv' hj
    have hy : ∀ w, s.Hidden w → w ≠ Ex.Y := by
      rintro w hw rfl
      exact hw.2 ⟨1, by rw [he]; simp⟩
    have key : ∀ p ∈ s.factors, ∀ f, s.heap[p]? = some f → f.vars.group = [Ex.X] ∨ Ex.Y ∈ f.vars.group := by
      rw [hf, hh]
      intro p hp f hf
      simp only [List.mem_cons, List.not_mem_nil, or_false] at hp
      rcases hp with rfl | rfl | rfl <;> (cases hf; decide)
    obtain ⟨p, ⟨hp, f, hf, hg⟩ | ⟨hp, f, hf, hg⟩⟩ := hj <;> rcases key p hp f hf with h | h <;> rw [hg] at h
    · cases h
    · simp only [List.mem_cons, List.not_mem_nil, or_false] at h
      rcases h with h | h
      · exact hy u hu h.symm
      · exact hy v hv' h.symm
    · cases h
    · simp only [List.mem_cons, List.not_mem_nil, or_false] at h
      rcases h with h | h
      · exact hy v hv' h.symm
      · exact hy u hu h.symm
  have hag : s.Agrees (fun _ => 1) := by
    constructor
    · intro v h
      rw [hv] at h
      simp only [List.mem_cons, List.not_mem_nil, or_false] at h
      rcases h with rfl | rfl | rfl <;> decide
    · intro v k h
      rw [he] at h
      simp at h
      exact h.2.symm
  have hy : s.Observes Ex.Y := ⟨1, by rw [he]; simp⟩
  obtain ⟨s', f, q, x, C, h1, h2, h3, h4, h5, h6⟩ := C73_summed_observed_partial hr (ord := Ex.rev) Ex.rev_perm
    (sh := List.reverse) (fun l => List.reverse_perm l) (sched := List.reverse)
    (fun l => List.reverse_perm l) (n := 2) (by omega) (φ := Ex.phi)
    (Ex.phi_images hh (by rw [hv, hf]; decide +kernel)) (Ex.phi_symmetric hh (by rw [hf]; decide +kernel))
    (g := Ex.pair Ex.X Ex.Y) (.soup (vars := [Ex.X, Ex.Y]) (by decide))
    (by
      intro v h
      rw [hv]
      simp only [Ex.pair, List.mem_cons, List.not_mem_nil, or_false] at h
      rcases h with rfl | rfl <;> simp)
    (by
      rintro u _ v _ ⟨i, hi⟩ ⟨j, hj⟩
      rw [he] at hi hj
      simp at hi hj
      rw [hi.1, hj.1])
    (by
      intro v _ _ u _ c hc
      cases c with
      | nil => exact hc.not_nil .nil
      | cons h _ => exact hapart _ _ h.2.1 h.2.2.1 h.2.2.2)
    ⟨fun _ => 1, hag, by unfold State.weight; rw [hf]; decide +kernel⟩ (v := Ex.Y) (by simp [Ex.pair]) hy
  rw [h4] at hev
  have hx0 : x 0 = 0 ∧ x 1 = 1 := by
    have h := Option.some.inj hev
    rw [show Ex.Y.size = 2 from rfl] at h
    simp only [List.range_succ, List.range_zero, List.nil_append, List.map_append, List.map_cons, List.map_nil,
      List.cons_append, List.cons.injEq, Ext.val.injEq, and_true] at h
    exact h
  have hl : [Ext.val (x 0), Ext.val (x 1)] = [.val 0, .val 1] := by rw [hx0.1, hx0.2]
  have hq : ∀ j < Ex.Y.size, q (Function.update (Function.update Ex.zeros Ex.Y j) Ex.X 0) +
      q (Function.update (Function.update Ex.zeros Ex.Y j) Ex.X 1) = C * x j := by
    intro j hj
    rw [← h6 Ex.zeros j hj, show (Ex.pair Ex.X Ex.Y).group.erase Ex.Y = [Ex.X] by decide]
    simp only [Tree.sumOver, show Ex.X.size = 2 from rfl, Finset.sum_range_succ, Finset.sum_range_zero, zero_add]
  refine ⟨s', f, fun i j => q (Function.update (Function.update Ex.zeros Ex.Y j) Ex.X i), C, h1, ?_, ?_, h5, ?_, ?_⟩
  · intro i hi j hj
    have hm : (Ex.pair Ex.X Ex.Y).group.map (Function.update (Function.update Ex.zeros Ex.Y j) Ex.X i) = [i, j] := by
      simp [Ex.pair, hne.symm]
    rw [← hm]
    refine h3 _ (fun v hv => ?_)
    simp only [Ex.pair, List.mem_cons, List.not_mem_nil, or_false] at hv
    rcases hv with rfl | rfl
    · rw [Function.update_self]; exact hi
    · rw [Function.update_of_ne hne.symm, Function.update_self]; exact hj
  · rw [h4, ← hl]; rfl
  · rw [← hx0.1]; exact hq 0 (by decide)
  · rw [← hx0.2]; exact hq 1 (by decide)

end EFG
