import Mathlib.Tactic.LinearCombination
import Mathlib.Tactic.Positivity
import Verif.Lemmas.Joint
import Verif.Props.Exact
/-
C34: the joint distributions on trees.
-/

namespace EFG
variable {K : Type} [Field K] [LinearOrder K] [IsStrictOrderedRing K] [FloatParams K]

namespace State

theorem Quiet.symmetricS {s s' : State (Ext K)} (hq : Quiet s s') {φ : Nat → Assign → K} (h : s.Symmetric φ) :
    s'.Symmetric φ := by
  unfold Symmetric FactorOn InRange at *
  rw [hq.factors, hq.heap, hq.vars]
  simp only [hq.hiddenS]
  exact h

theorem Quiet.weightS {s s' : State (Ext K)} (hq : Quiet s s') (φ : Nat → Assign → K) : s'.weight φ = s.weight φ := by
  unfold weight
  rw [hq.factors]

theorem Quiet.joinedS {s s' : State (Ext K)} (hq : Quiet s s') {G : List Var} (h : s.Joined G) : s'.Joined G := by
  unfold Joined Linked at *
  simp only [hq.hiddenS, hq.joinsS]
  exact h

theorem Quiet.piecesS {s s' : State (Ext K)} (hq : Quiet s s') {G : List Var} {Ps : List (List Var)}
    (h : s.Pieces G Ps) : s'.Pieces G Ps := by
  refine ⟨h.all, fun P hP => hq.joinedS (h.joined P hP), ?_⟩
  simp only [hq.hiddenS, hq.joinsS]
  exact h.apart

end State

/-- C34, for all the factors: the joint distribution asked for a group of variables is the one of
`C34_joint_partial`, where the factors which join two hidden variables are read transposed, except those which join
two variables of the group. So the joint distribution of some variables and that of one of them may disagree.

Missing: as for `C34_joint_partial`. -/
theorem C34_transposed_partial {s : State (Ext K)} (h : Reach (fun s op => Prudent s op ∧ Steady s op) s)
    {ord : List Var → List Var} (hord : ∀ l, (ord l).Perm l) {sh : List State.Contribution → List State.Contribution}
    (hsh : ∀ l, (sh l).Perm l) {sched : Sched} (hsched : ∀ l, (sched l).Perm l)
    {n : Nat} (hn : 1 ≤ n) {φ : Nat → Assign → K} (hφ : s.Images φ)
    {g : Group} (hg : GroupReach g) (hne : g.group ≠ []) (hsub : ∀ v ∈ g.group, v ∈ s.vars)
    (hobs : ∀ u ∈ g.group, ∀ v ∈ g.group, s.Observes u → s.Observes v → u = v)
    (ht : ∀ v ∈ g.group, s.Hidden v → s.TreeAt v) (hj : s.Joined g.group)
    {l : List Var} (hl : s.OthersOf g.group l) {e : Assign} (he : s.Agrees e)
    (hpos : ∃ a, s.Agrees a ∧ s.readWeight φ a ≠ 0) :
    ∃ s' f, State.getJoint ord sh sched g n s = .ok s' f ∧ f.vars.group = g.group ∧
      ∃ C : K, 0 < C ∧ ∀ a, InDom g.group a →
        f.findTransformed (g.group.map a) = .ok (.val (C * s.jointMass (s.readWeightIn g.group φ) l e g.group a)) := by
  have hgw := groupReach_wf hg
  obtain ⟨e', he', hpos⟩ := hpos
  have hob : (g.group.filter (fun v => v ∈ s.obs)).length ≤ 1 := by
    by_contra hlt
    have hnd : (g.group.filter (fun v => v ∈ s.obs)).Nodup := hgw.distinct.nodup.filter _
    match hf : g.group.filter (fun v => v ∈ s.obs) with
    | [] => rw [hf] at hlt; simp at hlt
    | [_] => rw [hf] at hlt; simp at hlt
    | u :: v :: _ =>
      have hu : u ∈ g.group.filter (fun v => v ∈ s.obs) := by rw [hf]; simp
      have hv : v ∈ g.group.filter (fun v => v ∈ s.obs) := by rw [hf]; simp
      simp only [List.mem_filter, decide_eq_true_eq] at hu hv
      have := hobs u hu.1 v hv.1 (State.observes_iff.mpr hu.2) (State.observes_iff.mpr hv.2)
      rw [hf, this] at hnd
      simp at hnd
  rw [State.getJoint_eq]
  obtain ⟨s', f, h1, h2, C, h3, h4⟩ := State.asks_faithful hord .sum hsched (reach_sound h) hn
    (r := State.jointOf ord sh g)
    (P := fun f => f.vars.group = g.group ∧ ∃ C : K, 0 < C ∧ ∀ a, InDom g.group a →
        f.findTransformed (g.group.map a) = .ok (.val (C * s.jointMass (s.readWeightIn g.group φ) l e g.group a))) (by
      intro s' p ha hH hF hp hk
      have hq := ha.toQuiet
      have hoo : s'.OthersOf g.group l := by
        refine ⟨hl.1, fun w => ?_⟩
        rw [hl.2 w, hq.hiddenS]
      obtain ⟨f, C, e1, e2, e3, _, e5, e6⟩ := State.jointOf_read hord hsh hH hF hp hk (hq.imagesS hφ)
        hgw (fun v hv => by rw [hq.vars]; exact hsub v hv) hne (by rw [hq.obs]; exact hob)
        (fun v hv hh => hq.treeAt (ht v hv ((hq.hiddenS v).mp hh))) (hq.joinedS hj) hoo (hq.agreesS he)
        (hq.agreesS he') (by rw [hq.readWeightS]; exact hpos)
      refine ⟨f, e1, by rw [e3], C, e5, fun a hd => ?_⟩
      have hv : Valid f.sizes (g.group.map a) := by
        rw [← e3]
        exact e2.valid_map.mpr (by rw [e3]; exact hd)
      rw [e2.findTransformed hv, e6 a hd]
      have hr : s'.readWeightIn g.group φ = s.readWeightIn g.group φ := funext (fun a => hq.readWeightInS a)
      unfold State.jointMass
      rw [hr, hq.evidences])
  exact ⟨s', f, h1, h2, C, h3, h4⟩

/-- C34: after any execution of prudent and steady operations, on the factors `φ`, the joint distribution asked for
a group of variables of the model, whose clusters have no cycles, is a function of these variables, in the order
of the group, proportional to their joint conditional distribution given the evidences: the product of all the
factors, with the observed variables fixed, summed over the hidden variables which are not in the group, and zero
where the evidences are contradicted.

Missing: the groups with two observed variables (`C34_observed_violated`), the groups whose variables are linked
through variables which are not in the group (`C34_apart_violated`), the factors which join two hidden variables and
are not symmetric (`C34_transposed_violated`), the executions which change a factor of the model whose
images were already used, and the models for which all the assignments have weight zero. -/
theorem C34_joint_partial {s : State (Ext K)} (h : Reach (fun s op => Prudent s op ∧ Steady s op) s)
    {ord : List Var → List Var} (hord : ∀ l, (ord l).Perm l) {sh : List State.Contribution → List State.Contribution}
    (hsh : ∀ l, (sh l).Perm l) {sched : Sched} (hsched : ∀ l, (sched l).Perm l)
    {n : Nat} (hn : 1 ≤ n) {φ : Nat → Assign → K} (hφ : s.Images φ) (hsym : s.Symmetric φ)
    {g : Group} (hg : GroupReach g) (hne : g.group ≠ []) (hsub : ∀ v ∈ g.group, v ∈ s.vars)
    (hobs : ∀ u ∈ g.group, ∀ v ∈ g.group, s.Observes u → s.Observes v → u = v)
    (ht : ∀ v ∈ g.group, s.Hidden v → s.TreeAt v) (hj : s.Joined g.group)
    {l : List Var} (hl : s.OthersOf g.group l) {e : Assign} (he : s.Agrees e)
    (hpos : ∃ a, s.Agrees a ∧ s.weight φ a ≠ 0) :
    ∃ s' f, State.getJoint ord sh sched g n s = .ok s' f ∧ f.vars.group = g.group ∧
      ∃ C : K, 0 < C ∧ ∀ a, InDom g.group a →
        f.findTransformed (g.group.map a) = .ok (.val (C * s.jointMass (s.weight φ) l e g.group a)) := by
  have hH := (reach_sound h).healthy
  have hs := hH.inv.toCore
  obtain ⟨e', he', hpos⟩ := hpos
  obtain ⟨s', f, h1, h2, C, h3, h4⟩ := C34_transposed_partial h hord hsh hsched hn hφ hg hne hsub hobs ht hj hl he
    ⟨e', he', by rw [State.readWeight_symmetric hs hsym he'.1]; exact hpos⟩
  refine ⟨s', f, h1, h2, C, h3, fun a ha => ?_⟩
  rw [h4 a ha]
  congr 3
  unfold State.jointMass
  by_cases hc : ∀ x ∈ s.evidences, x.1 ∈ g.group → a x.1 = x.2
  · rw [if_pos hc, if_pos hc]
    exact Tree.sumOver_congr_range (fun b hb hr =>
      State.readWeightIn_symmetric g.group hsym (hl.agrees hs he ha hc hb hr).1)
  · rw [if_neg hc, if_neg hc]

/-- C34, for all the groups and factors: as `C34_pieces_partial`, where for each piece the factors which join two
hidden variables are read transposed, except those which join two variables of the piece.

Missing: as for `C34_pieces_partial`. -/
theorem C34_pieces_transposed_partial {s : State (Ext K)} (h : Reach (fun s op => Prudent s op ∧ Steady s op) s)
    {ord : List Var → List Var} (hord : ∀ l, (ord l).Perm l) {sh : List State.Contribution → List State.Contribution}
    (hsh : ∀ l, (sh l).Perm l) {sched : Sched} (hsched : ∀ l, (sched l).Perm l)
    {n : Nat} (hn : 1 ≤ n) {φ : Nat → Assign → K} (hφ : s.Images φ)
    {g : Group} (hg : GroupReach g) (hne : g.group ≠ []) (hsub : ∀ v ∈ g.group, v ∈ s.vars)
    (hobs : ∀ u ∈ g.group, ∀ v ∈ g.group, s.Observes u → s.Observes v → u = v)
    (ht : ∀ v ∈ g.group, s.Hidden v → s.TreeAt v) {Ps : List (List Var)}
    (hP : s.Pieces g.group Ps) {l : List Var → List Var} (hl : ∀ P ∈ Ps, s.OthersOf P (l P)) {e : Assign} (he : s.Agrees e)
    (hpos : ∃ a, s.Agrees a ∧ s.readWeight φ a ≠ 0) :
    ∃ s' f, State.getJoint ord sh sched g n s = .ok s' f ∧ f.vars.group = g.group ∧
      ∃ C : K, 0 < C ∧ ∀ a, InDom g.group a →
        f.findTransformed (g.group.map a) = .ok (.val (C * (Ps.map (fun P => s.jointMass (s.readWeightIn P φ) (l P) e P a)).prod)) := by
  have hgw := groupReach_wf hg
  obtain ⟨e', he', hpos⟩ := hpos
  have hob : (g.group.filter (fun v => v ∈ s.obs)).length ≤ 1 := by
    by_contra hlt
    have hnd : (g.group.filter (fun v => v ∈ s.obs)).Nodup := hgw.distinct.nodup.filter _
    match hf : g.group.filter (fun v => v ∈ s.obs) with
    | [] => rw [hf] at hlt; simp at hlt
    | [_] => rw [hf] at hlt; simp at hlt
    | u :: v :: _ =>
      have hu : u ∈ g.group.filter (fun v => v ∈ s.obs) := by rw [hf]; simp
      have hv : v ∈ g.group.filter (fun v => v ∈ s.obs) := by rw [hf]; simp
      simp only [List.mem_filter, decide_eq_true_eq] at hu hv
      have := hobs u hu.1 v hv.1 (State.observes_iff.mpr hu.2) (State.observes_iff.mpr hv.2)
      rw [hf, this] at hnd
      simp at hnd
  rw [State.getJoint_eq]
  obtain ⟨s', f, h1, h2, C, h3, h4⟩ := State.asks_faithful hord .sum hsched (reach_sound h) hn
    (r := State.jointOf ord sh g)
    (P := fun f => f.vars.group = g.group ∧ ∃ C : K, 0 < C ∧ ∀ a, InDom g.group a →
        f.findTransformed (g.group.map a) = .ok (.val (C * (Ps.map (fun P => s.jointMass (s.readWeightIn P φ) (l P) e P a)).prod))) (by
      intro s' p ha hH hF hp hk
      have hq := ha.toQuiet
      have hoo : ∀ P ∈ Ps, s'.OthersOf P (l P) := by
        refine fun P hP => ⟨(hl P hP).1, fun w => ?_⟩
        rw [(hl P hP).2 w, hq.hiddenS]
      obtain ⟨f, C, e1, e2, e3, _, e5, e6⟩ := State.jointOf_pieces hord hsh hH hF hp hk (hq.imagesS hφ)
        hgw (fun v hv => by rw [hq.vars]; exact hsub v hv) hne (by rw [hq.obs]; exact hob)
        (fun v hv hh => hq.treeAt (ht v hv ((hq.hiddenS v).mp hh))) (hq.piecesS hP) hoo (hq.agreesS he)
        (hq.agreesS he') (by rw [hq.readWeightS]; exact hpos)
      refine ⟨f, e1, by rw [e3], C, e5, fun a hd => ?_⟩
      have hv : Valid f.sizes (g.group.map a) := by
        rw [← e3]
        exact e2.valid_map.mpr (by rw [e3]; exact hd)
      rw [e2.findTransformed hv, e6 a hd]
      have hr : ∀ P, s'.readWeightIn P φ = s.readWeightIn P φ := fun P => funext (fun a => hq.readWeightInS a)
      unfold State.jointMass
      simp only [hr, hq.evidences])
  exact ⟨s', f, h1, h2, C, h3, h4⟩

/-- What the library returns for any group of variables on clusters without cycles: divide the variables in pieces,
such that no factor joins hidden variables of two pieces; then the answer is proportional to the product of the joint
distributions of the pieces, as if they were independent. Every group can be divided so (`C34_divided`), and with
one piece this is `C34_joint_partial`.

Missing: the groups with two observed variables, the factors which are not symmetric
(`C34_pieces_transposed_partial`), the executions which change a factor of the model whose images were already used, and the
models for which all the assignments have weight zero. -/
theorem C34_pieces_partial {s : State (Ext K)} (h : Reach (fun s op => Prudent s op ∧ Steady s op) s)
    {ord : List Var → List Var} (hord : ∀ l, (ord l).Perm l) {sh : List State.Contribution → List State.Contribution}
    (hsh : ∀ l, (sh l).Perm l) {sched : Sched} (hsched : ∀ l, (sched l).Perm l)
    {n : Nat} (hn : 1 ≤ n) {φ : Nat → Assign → K} (hφ : s.Images φ) (hsym : s.Symmetric φ)
    {g : Group} (hg : GroupReach g) (hne : g.group ≠ []) (hsub : ∀ v ∈ g.group, v ∈ s.vars)
    (hobs : ∀ u ∈ g.group, ∀ v ∈ g.group, s.Observes u → s.Observes v → u = v)
    (ht : ∀ v ∈ g.group, s.Hidden v → s.TreeAt v) {Ps : List (List Var)}
    (hP : s.Pieces g.group Ps) {l : List Var → List Var} (hl : ∀ P ∈ Ps, s.OthersOf P (l P)) {e : Assign} (he : s.Agrees e)
    (hpos : ∃ a, s.Agrees a ∧ s.weight φ a ≠ 0) :
    ∃ s' f, State.getJoint ord sh sched g n s = .ok s' f ∧ f.vars.group = g.group ∧
      ∃ C : K, 0 < C ∧ ∀ a, InDom g.group a →
        f.findTransformed (g.group.map a) = .ok (.val (C * (Ps.map (fun P => s.jointMass (s.weight φ) (l P) e P a)).prod)) := by
  have hH := (reach_sound h).healthy
  have hs := hH.inv.toCore
  obtain ⟨e', he', hpos⟩ := hpos
  obtain ⟨s', f, h1, h2, C, h3, h4⟩ := C34_pieces_transposed_partial h hord hsh hsched hn hφ hg hne hsub hobs ht hP hl he
    ⟨e', he', by rw [State.readWeight_symmetric hs hsym he'.1]; exact hpos⟩
  refine ⟨s', f, h1, h2, C, h3, fun a ha => ?_⟩
  rw [h4 a ha]
  congr 4
  refine List.map_congr_left (fun P hP' => ?_)
  have hmem : ∀ v ∈ P, v ∈ g.group := fun v hv => hP.all.mem_iff.mp (List.mem_flatten.mpr ⟨P, hP', hv⟩)
  unfold State.jointMass
  by_cases hc : ∀ x ∈ s.evidences, x.1 ∈ P → a x.1 = x.2
  · rw [if_pos hc, if_pos hc]
    exact Tree.sumOver_congr_range (fun b hb hr =>
      State.readWeightIn_symmetric P hsym ((hl P hP').agrees hs he (fun v hv => ha v (hmem v hv)) hc hb hr).1)
  · rw [if_neg hc, if_neg hc]

/-- Every list of variables can be divided in pieces which no factor joins and which are joined inside. -/
theorem C34_divided (s : State (Ext K)) (G : List Var) : ∃ Ps, s.Pieces G Ps := State.exists_pieces s G

/-- C34 is violated by every group with two observed variables: a dangling pointer is read. -/
theorem C34_observed_violated {s : State (Ext K)} (h : Reach (fun s op => Prudent s op ∧ Steady s op) s)
    {ord : List Var → List Var} (hord : ∀ l, (ord l).Perm l) (sh : List State.Contribution → List State.Contribution)
    {sched : Sched} (hsched : ∀ l, (sched l).Perm l) {n : Nat} (hn : 1 ≤ n) {g : Group}
    (hsub : ∀ v ∈ g.group, v ∈ s.vars) {u v : Var} (hu : u ∈ g.group) (hv : v ∈ g.group) (huv : u ≠ v)
    (hou : s.Observes u) (hov : s.Observes v) : State.getJoint ord sh sched g n s = .ub := by
  rw [State.getJoint_eq]
  obtain ⟨s', p, h1, h2, h3, h4, _⟩ := State.checkPropagation_sound hord .sum hsched (reach_sound h) hn
  have hq := h2.toQuiet
  have hal := ((h3.faithful trivial).fresh p h4).alive h3.healthy.inv
  unfold State.asks
  rw [h1]
  simp only
  unfold State.lift
  have := (State.jointOf_eq h3.healthy.inv hal.mrg ord sh (g := g) (fun v hv => by rw [hq.vars]; exact hsub v hv)).1 (by
    rw [hq.obs]
    have hu' : u ∈ g.group.filter (fun v => v ∈ s.obs) :=
      List.mem_filter.2 ⟨hu, by simpa using State.observes_iff.mp hou⟩
    have hv' : v ∈ g.group.filter (fun v => v ∈ s.obs) :=
      List.mem_filter.2 ⟨hv, by simpa using State.observes_iff.mp hov⟩
    match hf : g.group.filter (fun v => v ∈ s.obs) with
    | [] => rw [hf] at hu'; simp at hu'
    | [x] =>
      rw [hf] at hu' hv'
      simp at hu' hv'
      exact absurd (hu'.trans hv'.symm) huv
    | _ :: _ :: _ => simp)
  rw [this]

/-- What the library returns for two hidden variables which no factor joins: always a product of a function of the
first and a function of the second. -/
theorem C34_apart_product {s : State (Ext K)} (h : Reach (fun s op => Prudent s op ∧ Steady s op) s)
    {ord : List Var → List Var} (hord : ∀ l, (ord l).Perm l) {sh : List State.Contribution → List State.Contribution}
    (hsh : ∀ l, (sh l).Perm l) {sched : Sched} (hsched : ∀ l, (sched l).Perm l)
    {n : Nat} (hn : 1 ≤ n) {φ : Nat → Assign → K} (hφ : s.Images φ) {g : Group} (hg : GroupReach g) {u w : Var}
    (hgr : g.group = [u, w]) (hu : s.Hidden u) (hw : s.Hidden w) (hnj : ¬s.Joins u w) (htu : s.TreeAt u)
    (htw : s.TreeAt w) (hpos : ∃ a, s.Agrees a ∧ s.readWeight φ a ≠ 0) :
    ∃ s' f, State.getJoint ord sh sched g n s = .ok s' f ∧ ∃ α β : Nat → K, ∀ i < u.size, ∀ j < w.size,
      f.findTransformed [i, j] = .ok (.val (α i * β j)) := by
  obtain ⟨e, he, hpos⟩ := hpos
  rw [State.getJoint_eq]
  refine State.asks_faithful hord .sum hsched (reach_sound h) hn (r := State.jointOf ord sh g) ?_
  intro s' p ha hH hF hp hk
  have hq := ha.toQuiet
  exact State.jointOf_apart hord hsh hH hF hp hk (hq.imagesS hφ) (groupReach_wf hg) hgr
    (State.hidden_iff.mp ((hq.hiddenS u).mpr hu)) (State.hidden_iff.mp ((hq.hiddenS w).mpr hw))
    (fun h => hnj ((hq.joinsS u w).mp h)) (hq.treeAt htu) (hq.treeAt htw) (hq.agreesS he)
    (by rw [hq.readWeightS]; exact hpos)

/-! ### Examples -/

namespace Ex

/-- The hidden variables outside of a list, computed. -/
theorem othersOf_of {s : State (Ext ℚ)} {G l : List Var} (h : (s.vars.filter (fun w =>
    !(s.evidences.any (fun e => decide (e.1 = w))) && decide (w ∉ G))) = l) (hn : l.Nodup) : s.OthersOf G l := by
  refine ⟨hn, fun w => ?_⟩
  rw [← h, List.mem_filter]
  simp only [State.Hidden, State.Observes]
  simp
  constructor
  · rintro ⟨h1, h2, h3⟩
    exact ⟨⟨h1, fun k hk => h2 w k hk rfl⟩, h3⟩
  · rintro ⟨⟨h1, h2⟩, h3⟩
    refine ⟨h1, ?_, h3⟩
    rintro a b hab rfl
    exact h2 b hab

/-- The path X - Y - Z has no cycles. -/
theorem path_tree {v : Var} (hv : v ∈ (after path).vars) : (after path).TreeAt v := by
  have he : (after path).vars = [X, Y, Z] := by decide +kernel
  intro u hu
  refine path_noCycle u ?_
  have : u ∈ (after path).vars := by
    cases hu with
    | refl => exact hv
    | tail _ h => exact h.2.1.1
  rw [he] at this
  exact this

theorem joins_of {s : State (Ext ℚ)} {u v : Var} (p : Nat) (h : p ∈ s.factors)
    (hf : (match s.heap[p]? with | some f => f.vars.group | none => []) = [u, v]) : s.Joins u v := by
  refine ⟨p, Or.inl ⟨h, ?_⟩⟩
  cases hp : s.heap[p]? with
  | none => rw [hp] at hf; cases hf
  | some f => rw [hp] at hf; exact ⟨f, rfl, hf⟩

theorem not_joins_of {s : State (Ext ℚ)} {u v : Var} (h : ∀ p ∈ s.factors,
    (match s.heap[p]? with | some f => f.vars.group | none => []) ≠ [u, v] ∧
    (match s.heap[p]? with | some f => f.vars.group | none => []) ≠ [v, u]) : ¬s.Joins u v := by
  rintro ⟨p, ⟨hp, f, hf, hg⟩ | ⟨hp, f, hf, hg⟩⟩
  · have := (h p hp).1; rw [hf] at this; exact this hg
  · have := (h p hp).2; rw [hf] at this; exact this hg

/-- A group of two variables. -/
def pair (u v : Var) : Group := ⟨[u, v], [u, v]⟩

/-- The assignment with two given values. -/
def pairAt (u : Var) (i j : Nat) : Assign := fun v => if v = u then i else j

theorem pairAt_inDom {u v : Var} {i j : Nat} (huv : u ≠ v) (hi : i < u.size) (hj : j < v.size) :
    InDom [u, v] (pairAt u i j) := by
  intro w hw
  simp only [List.mem_cons, List.not_mem_nil, or_false] at hw
  rcases hw with rfl | rfl
  · simpa [pairAt] using hi
  · simpa [pairAt, huv.symm] using hj

theorem pairAt_map {u v : Var} (huv : u ≠ v) (i j : Nat) : [u, v].map (pairAt u i j) = [i, j] := by
  simp [pairAt, huv.symm]

/-- The joint masses of two variables, computed. -/
theorem jointMass_of {s : State (Ext ℚ)} {l : List Var} {e : Assign} {u v : Var} {i j : Nat} {ps : List Nat} {x : ℚ}
    (he : s.evidences = []) (hf : s.factors = ps)
    (h : Tree.sumOver Var.size l (fun a => (ps.map (fun p => phi p a)).prod)
      (fun w => if w ∈ [u, v] then pairAt u i j w else e w) = x) :
    s.jointMass (s.weight phi) l e [u, v] (pairAt u i j) = x := by
  unfold State.jointMass State.weight
  rw [he, hf, if_pos (by simp)]
  exact h

theorem path_vars : (after path).vars = [X, Y, Z] := by decide +kernel
theorem path_heap : (after path).heap = heapXYZ := rfl
theorem path_factors : (after path).factors = [0, 1, 2] := by decide +kernel
theorem path_evidences : (after path).evidences = [] := by decide +kernel

theorem path_hides {v : Var} (hv : v ∈ [X, Y, Z]) : (after path).Hidden v :=
  ⟨by rw [path_vars]; exact hv, by rw [State.Observes, path_evidences]; simp⟩

theorem path_images : (after path).Images phi :=
  phi_images path_heap (by rw [path_vars, path_factors]; decide +kernel)

theorem path_symmetric : (after path).Symmetric phi := phi_symmetric path_heap (by rw [path_factors]; decide +kernel)

theorem path_zeros : (after path).Agrees zeros :=
  zeros_agrees (by rw [path_vars]; decide) (by rw [path_evidences]; decide)

theorem path_weighs : (after path).weight phi zeros ≠ 0 := by
  unfold State.weight; rw [path_factors]; decide +kernel

end Ex

/-- The path X - Y - Z: the joint distribution of Y and X, in this order. -/
example : ∃ s' f, State.getJoint Ex.rev List.reverse List.reverse (Ex.pair Ex.Y Ex.X) 2 (Ex.after Ex.path) =
    .ok s' f ∧ f.vars.group = [Ex.Y, Ex.X] ∧ ∃ C : ℚ, 0 < C ∧ f.findTransformed [0, 0] = .ok (.val (C * 18)) ∧
      f.findTransformed [0, 1] = .ok (.val (C * 12)) ∧ f.findTransformed [1, 0] = .ok (.val (C * 9)) ∧
      f.findTransformed [1, 1] = .ok (.val (C * 36)) := by
  have hx := Ex.path_hides (v := Ex.X) (by simp)
  have hy := Ex.path_hides (v := Ex.Y) (by simp)
  have hxy : (Ex.after Ex.path).Joins Ex.X Ex.Y :=
    Ex.joins_of 1 (by rw [Ex.path_factors]; simp) (by rw [Ex.path_heap]; decide)
  have hyx : (Ex.after Ex.path).Joins Ex.Y Ex.X := by obtain ⟨p, h⟩ := hxy; exact ⟨p, h.symm⟩
  have hne : Ex.Y ≠ Ex.X := by decide
  obtain ⟨s', f, h1, h2, C, h3, h4⟩ := C34_joint_partial Ex.path_reach (ord := Ex.rev) Ex.rev_perm (sh := List.reverse)
    (fun l => List.reverse_perm l) (sched := List.reverse)
    (fun l => List.reverse_perm l) (n := 2) (by omega) (φ := Ex.phi) Ex.path_images Ex.path_symmetric
    (g := Ex.pair Ex.Y Ex.X) (.soup (vars := [Ex.Y, Ex.X]) (by decide)) (by simp [Ex.pair])
    (by
      intro v h
      rw [Ex.path_vars]
      simp only [Ex.pair, List.mem_cons, List.not_mem_nil, or_false] at h
      rcases h with rfl | rfl <;> simp)
    (by intro u _ v _ ho; rw [State.Observes, Ex.path_evidences] at ho; simp at ho)
    (by intro v _ hh; exact Ex.path_tree hh.1)
    (by
      intro u hu w hw _
      simp only [Ex.pair, List.mem_cons, List.not_mem_nil, or_false] at hu hw
      rcases hu with rfl | rfl <;> rcases hw with rfl | rfl
      · exact .refl
      · exact .single ⟨by simp [Ex.pair], by simp [Ex.pair], hy, hx, hyx⟩
      · exact .single ⟨by simp [Ex.pair], by simp [Ex.pair], hx, hy, hxy⟩
      · exact .refl)
    (l := [Ex.Z]) (Ex.othersOf_of (by rw [Ex.path_vars, Ex.path_evidences]; decide) (by decide)) (e := Ex.zeros)
    Ex.path_zeros ⟨Ex.zeros, Ex.path_zeros, Ex.path_weighs⟩
  have key : ∀ i j x, i < 2 → j < 2 →
      (Ex.after Ex.path).jointMass ((Ex.after Ex.path).weight Ex.phi) [Ex.Z] Ex.zeros [Ex.Y, Ex.X]
        (Ex.pairAt Ex.Y i j) = x → f.findTransformed [i, j] = .ok (.val (C * x)) := by
    intro i j x hi hj hx
    have := h4 (Ex.pairAt Ex.Y i j) (Ex.pairAt_inDom hne hi hj)
    simp only [Ex.pair] at this
    rw [Ex.pairAt_map hne, hx] at this
    exact this
  refine ⟨s', f, h1, h2, C, h3, ?_, ?_, ?_, ?_⟩
  · exact key 0 0 _ (by omega) (by omega) (Ex.jointMass_of Ex.path_evidences Ex.path_factors (by decide +kernel))
  · exact key 0 1 _ (by omega) (by omega) (Ex.jointMass_of Ex.path_evidences Ex.path_factors (by decide +kernel))
  · exact key 1 0 _ (by omega) (by omega) (Ex.jointMass_of Ex.path_evidences Ex.path_factors (by decide +kernel))
  · exact key 1 1 _ (by omega) (by omega) (Ex.jointMass_of Ex.path_evidences Ex.path_factors (by decide +kernel))

/-- The path X - Y - Z: what is returned for X and Z is the product of their marginals, X and Z are the pieces. -/
example : ∃ s' f, State.getJoint Ex.rev List.reverse List.reverse (Ex.pair Ex.X Ex.Z) 2 (Ex.after Ex.path) =
    .ok s' f ∧ f.vars.group = [Ex.X, Ex.Z] ∧ ∃ C : ℚ, 0 < C ∧ ∀ i < 2, ∀ j < 2, f.findTransformed [i, j] =
      .ok (.val (C * ((if i = 0 then 27 else 48) * if j = 0 then 40 else 35))) := by
  have hne : Ex.X ≠ Ex.Z := by decide
  have hnj : ¬(Ex.after Ex.path).Joins Ex.X Ex.Z :=
    Ex.not_joins_of (by rw [Ex.path_factors, Ex.path_heap]; decide)
  have hX : (Ex.after Ex.path).OthersOf [Ex.X] [Ex.Y, Ex.Z] :=
    Ex.othersOf_of (by rw [Ex.path_vars, Ex.path_evidences]; decide) (by decide)
  have hZ : (Ex.after Ex.path).OthersOf [Ex.Z] [Ex.X, Ex.Y] :=
    Ex.othersOf_of (by rw [Ex.path_vars, Ex.path_evidences]; decide) (by decide)
  have hv := Ex.path_vars
  have he := Ex.path_evidences
  have hf := Ex.path_factors
  have hr := Ex.path_reach
  have hi := Ex.path_images
  have hsy := Ex.path_symmetric
  have hz := Ex.path_zeros
  have hw := Ex.path_weighs
  have ht : ∀ v, (Ex.after Ex.path).Hidden v → (Ex.after Ex.path).TreeAt v := fun v h => Ex.path_tree h.1
  generalize Ex.after Ex.path = s at *
  have hone : ∀ v, s.Joined [v] := by
    intro v u hu w hw _
    rw [List.mem_singleton.mp hu, List.mem_singleton.mp hw]
  obtain ⟨s', f, h1, h2, C, h3, h4⟩ := C34_pieces_partial hr (ord := Ex.rev) Ex.rev_perm
    (sh := List.reverse) (fun l => List.reverse_perm l) (sched := List.reverse)
    (fun l => List.reverse_perm l) (n := 2) (by omega) (φ := Ex.phi) hi hsy
    (g := Ex.pair Ex.X Ex.Z) (.soup (vars := [Ex.X, Ex.Z]) (by decide)) (by simp [Ex.pair])
    (by
      intro v h
      rw [hv]
      simp only [Ex.pair, List.mem_cons, List.not_mem_nil, or_false] at h
      rcases h with rfl | rfl <;> simp)
    (by intro u _ v _ ho; rw [State.Observes, he] at ho; simp at ho)
    (by intro v _ hh; exact ht v hh)
    (Ps := [[Ex.X], [Ex.Z]])
    ⟨.refl _, by
      intro P hP
      simp only [List.mem_cons, List.not_mem_nil, or_false] at hP
      rcases hP with rfl | rfl <;> exact hone _, by
      refine .cons ?_ (.cons (by simp) .nil)
      intro Q hQ u hu w hw _ _
      rw [List.mem_singleton.mp hQ] at hw
      rw [List.mem_singleton.mp hu, List.mem_singleton.mp hw]
      exact hnj⟩
    (l := fun P => if P.contains Ex.X then [Ex.Y, Ex.Z] else [Ex.X, Ex.Y])
    (by
      intro P hP
      simp only [List.mem_cons, List.not_mem_nil, or_false] at hP
      rcases hP with rfl | rfl
      · rw [if_pos (by decide)]; exact hX
      · rw [if_neg (by decide)]; exact hZ) (e := Ex.zeros)
    hz ⟨Ex.zeros, hz, hw⟩
  refine ⟨s', f, h1, h2, C, h3, fun i hi j hj => ?_⟩
  have := h4 (Ex.pairAt Ex.X i j) (Ex.pairAt_inDom hne hi hj)
  simp only [Ex.pair] at this
  rw [Ex.pairAt_map hne] at this
  rw [this]
  congr 3
  rw [List.map_cons, List.map_cons, List.map_nil, List.prod_cons, List.prod_cons, List.prod_nil, mul_one,
    if_pos (by decide), if_neg (by decide)]
  unfold State.jointMass State.weight
  rw [he, hf, if_pos (by simp), if_pos (by simp)]
  have h2 : i = 0 ∨ i = 1 := by omega
  have h3 : j = 0 ∨ j = 1 := by omega
  congr 1
  · rcases h2 with rfl | rfl <;> rcases h3 with rfl | rfl <;> decide +kernel
  · rcases h2 with rfl | rfl <;> rcases h3 with rfl | rfl <;> decide +kernel

/-- The path X - Y - Z with the evidence Y = 1: the joint distribution of X and Y. -/
example : ∃ s' f, State.getJoint Ex.rev List.reverse List.reverse (Ex.pair Ex.X Ex.Y) 2
    (Ex.after [.add 0, .add 1, .add 2, .observe Ex.Y 1]) = .ok s' f ∧ f.vars.group = [Ex.X, Ex.Y] ∧
      ∃ C : ℚ, 0 < C ∧ f.findTransformed [0, 0] = .ok (.val 0) ∧ f.findTransformed [0, 1] = .ok (.val (C * 9)) ∧
      f.findTransformed [1, 0] = .ok (.val 0) ∧ f.findTransformed [1, 1] = .ok (.val (C * 36)) := by
  have hv : (Ex.after [.add 0, .add 1, .add 2, .observe Ex.Y 1]).vars = [Ex.X, Ex.Y, Ex.Z] := by decide +kernel
  have hh : (Ex.after [.add 0, .add 1, .add 2, .observe Ex.Y 1]).heap = Ex.heapXYZ := by decide +kernel
  have hf : (Ex.after [.add 0, .add 1, .add 2, .observe Ex.Y 1]).factors = [0, 1, 2] := by decide +kernel
  have he : (Ex.after [.add 0, .add 1, .add 2, .observe Ex.Y 1]).evidences = [(Ex.Y, 1)] := by decide +kernel
  have hr := Ex.after_steady [.add 0, .add 1, .add 2, .observe Ex.Y 1] (by decide +kernel)
  generalize Ex.after [.add 0, .add 1, .add 2, .observe Ex.Y 1] = s at hv hh hf he hr
  have hne : Ex.X ≠ Ex.Y := by decide
  have hapart : ∀ u v, s.Hidden u → s.Hidden v → ¬s.Joins u v := by
    intro u v hu hv' hj
    have hy : ∀ w, s.Hidden w → w ≠ Ex.Y := by
      rintro w hw rfl
      exact hw.2 ⟨1, by rw [he]; simp⟩
    have key : ∀ p ∈ s.factors, ∀ f, s.heap[p]? = some f → f.vars.group = [Ex.X] ∨ Ex.Y ∈ f.vars.group := by
      rw [hf, hh]
      intro p hp f hf
      simp only [List.mem_cons, List.not_mem_nil, or_false] at hp
      rcases hp with rfl | rfl | rfl <;> (cases hf; decide)
    obtain ⟨p, ⟨hp, f, hf, hg⟩ | ⟨hp, f, hf, hg⟩⟩ := hj <;> rcases key p hp f hf with h | h <;> rw [hg] at h
    · cases h
    · simp only [List.mem_cons, List.not_mem_nil, or_false] at h
      rcases h with h | h
      · exact hy u hu h.symm
      · exact hy v hv' h.symm
    · cases h
    · simp only [List.mem_cons, List.not_mem_nil, or_false] at h
      rcases h with h | h
      · exact hy v hv' h.symm
      · exact hy u hu h.symm
  have hag : s.Agrees (fun _ => 1) := by
    constructor
    · intro v h
      rw [hv] at h
      simp only [List.mem_cons, List.not_mem_nil, or_false] at h
      rcases h with rfl | rfl | rfl <;> decide
    · intro v k h
      rw [he] at h
      simp at h
      exact h.2.symm
  obtain ⟨s', f, h1, h2, C, h3, h4⟩ := C34_joint_partial hr (ord := Ex.rev) Ex.rev_perm (sh := List.reverse)
    (fun l => List.reverse_perm l) (sched := List.reverse)
    (fun l => List.reverse_perm l) (n := 2) (by omega) (φ := Ex.phi)
    (Ex.phi_images hh (by rw [hv, hf]; decide +kernel)) (Ex.phi_symmetric hh (by rw [hf]; decide +kernel))
    (g := Ex.pair Ex.X Ex.Y) (.soup (vars := [Ex.X, Ex.Y]) (by decide)) (by simp [Ex.pair])
    (by
      intro v h
      rw [hv]
      simp only [Ex.pair, List.mem_cons, List.not_mem_nil, or_false] at h
      rcases h with rfl | rfl <;> simp)
    (by
      rintro u _ v _ ⟨i, hi⟩ ⟨j, hj⟩
      rw [he] at hi hj
      simp at hi hj
      rw [hi.1, hj.1])
    (by
      intro v _ _ u _ c hc
      cases c with
      | nil => exact hc.not_nil .nil
      | cons h _ => exact hapart _ _ h.2.1 h.2.2.1 h.2.2.2)
    (by
      intro u _ w _ hl
      cases hl with
      | refl => exact .refl
      | tail _ h => exact absurd h.2.2 (hapart _ _ h.1 h.2.1))
    (l := [Ex.Z]) (Ex.othersOf_of (by rw [hv, he]; decide) (by decide)) (e := fun _ => 1) hag
    ⟨fun _ => 1, hag, by unfold State.weight; rw [hf]; decide +kernel⟩
  have key : ∀ i j x, i < 2 → j < 2 → s.jointMass (s.weight Ex.phi) [Ex.Z] (fun _ => 1) [Ex.X, Ex.Y]
        (Ex.pairAt Ex.X i j) = x → f.findTransformed [i, j] = .ok (.val (C * x)) := by
    intro i j x hi hj hx
    have := h4 (Ex.pairAt Ex.X i j) (Ex.pairAt_inDom hne hi hj)
    simp only [Ex.pair] at this
    rw [Ex.pairAt_map hne, hx] at this
    exact this
  have h0 : ∀ i < 2, s.jointMass (s.weight Ex.phi) [Ex.Z] (fun _ => 1) [Ex.X, Ex.Y] (Ex.pairAt Ex.X i 0) = 0 := by
    intro i _
    unfold State.jointMass
    rw [he, if_neg]
    intro h
    have := h (Ex.Y, 1) (by simp) (by simp)
    simp [Ex.pairAt, hne.symm] at this
  have h1' : ∀ i, s.jointMass (s.weight Ex.phi) [Ex.Z] (fun _ => 1) [Ex.X, Ex.Y] (Ex.pairAt Ex.X i 1) =
      Tree.sumOver Var.size [Ex.Z] (fun a => ([0, 1, 2].map (fun p => Ex.phi p a)).prod)
      (fun w => if w ∈ [Ex.X, Ex.Y] then Ex.pairAt Ex.X i 1 w else 1) := by
    intro i
    unfold State.jointMass State.weight
    rw [he, hf, if_pos]
    simp [Ex.pairAt, hne.symm]
  refine ⟨s', f, h1, h2, C, h3, ?_, ?_, ?_, ?_⟩
  · rw [key 0 0 0 (by omega) (by omega) (h0 0 (by omega)), mul_zero]
  · exact key 0 1 9 (by omega) (by omega) ((h1' 0).trans (by decide +kernel))
  · rw [key 1 0 0 (by omega) (by omega) (h0 1 (by omega)), mul_zero]
  · exact key 1 1 36 (by omega) (by omega) ((h1' 1).trans (by decide +kernel))

/-- C34 is violated by the group of X and Z, the ends of the path X - Y - Z: what is returned is not proportional to
their joint distribution. -/
theorem C34_apart_violated : ∃ s : State (Ext ℚ), Reach (fun s op => Prudent s op ∧ Steady s op) s ∧
    s.Images Ex.phi ∧ s.Symmetric Ex.phi ∧ (∀ v ∈ s.vars, s.TreeAt v) ∧ s.OthersOf [Ex.X, Ex.Z] [Ex.Y] ∧
    s.Agrees Ex.zeros ∧ s.weight Ex.phi Ex.zeros ≠ 0 ∧
    ∃ s' f, State.getJoint Ex.rev id id (Ex.pair Ex.X Ex.Z) 1 s = .ok s' f ∧
      ¬∃ C : ℚ, 0 < C ∧ ∀ a, InDom [Ex.X, Ex.Z] a → f.findTransformed ([Ex.X, Ex.Z].map a) =
        .ok (.val (C * s.jointMass (s.weight Ex.phi) [Ex.Y] Ex.zeros [Ex.X, Ex.Z] a)) := by
  have hne : Ex.X ≠ Ex.Z := by decide
  have hx := Ex.path_hides (v := Ex.X) (by simp)
  have hz := Ex.path_hides (v := Ex.Z) (by simp)
  refine ⟨Ex.after Ex.path, Ex.path_reach, Ex.path_images, Ex.path_symmetric, fun v hv => Ex.path_tree hv,
    Ex.othersOf_of (by rw [Ex.path_vars, Ex.path_evidences]; decide) (by decide), Ex.path_zeros, Ex.path_weighs, ?_⟩
  obtain ⟨s', f, h1, α, β, h2⟩ := C34_apart_product Ex.path_reach (ord := Ex.rev) Ex.rev_perm (sh := id)
    (fun l => .refl l) (sched := id) (fun l => .refl l) (n := 1) (by omega) (φ := Ex.phi) Ex.path_images
    (g := Ex.pair Ex.X Ex.Z) (.soup (vars := [Ex.X, Ex.Z]) (by decide)) rfl hx hz
    (Ex.not_joins_of (by rw [Ex.path_factors, Ex.path_heap]; decide)) (Ex.path_tree hx.1) (Ex.path_tree hz.1)
    ⟨Ex.zeros, Ex.path_zeros, by
      rw [State.readWeight_symmetric (reach_sound Ex.path_reach).healthy.inv.toCore Ex.path_symmetric Ex.path_zeros.1]
      exact Ex.path_weighs⟩
  refine ⟨s', f, h1, ?_⟩
  rintro ⟨C, hC, h3⟩
  have key : ∀ i j x, i < 2 → j < 2 →
      (Ex.after Ex.path).jointMass ((Ex.after Ex.path).weight Ex.phi) [Ex.Y] Ex.zeros [Ex.X, Ex.Z]
        (Ex.pairAt Ex.X i j) = x → α i * β j = C * x := by
    intro i j x hi hj hx
    have := h3 (Ex.pairAt Ex.X i j) (Ex.pairAt_inDom hne hi hj)
    rw [Ex.pairAt_map hne, hx, h2 i hi j hj] at this
    simpa using this
  have k00 := key 0 0 12 (by omega) (by omega) (Ex.jointMass_of Ex.path_evidences Ex.path_factors (by decide +kernel))
  have k01 := key 0 1 15 (by omega) (by omega) (Ex.jointMass_of Ex.path_evidences Ex.path_factors (by decide +kernel))
  have k10 := key 1 0 28 (by omega) (by omega) (Ex.jointMass_of Ex.path_evidences Ex.path_factors (by decide +kernel))
  have k11 := key 1 1 20 (by omega) (by omega) (Ex.jointMass_of Ex.path_evidences Ex.path_factors (by decide +kernel))
  have h4 : (α 0 * β 0) * (α 1 * β 1) = (α 0 * β 1) * (α 1 * β 0) := by ring
  rw [k00, k01, k10, k11] at h4
  have h5 : C * C * 180 = 0 := by linear_combination -h4
  have h6 : 0 < C * C * 180 := by positivity
  exact absurd h5 h6.ne'

/-- The hypotheses of `C34_observed_violated`: X and Y observed on the path X - Y - Z. -/
example : State.getJoint Ex.rev id id (Ex.pair Ex.X Ex.Y) 1
    (Ex.after [.add 0, .add 1, .add 2, .observe Ex.X 0, .observe Ex.Y 1]) = .ub := by
  have hv : (Ex.after [.add 0, .add 1, .add 2, .observe Ex.X 0, .observe Ex.Y 1]).vars = [Ex.X, Ex.Y, Ex.Z] := by
    decide +kernel
  have he : (Ex.after [.add 0, .add 1, .add 2, .observe Ex.X 0, .observe Ex.Y 1]).evidences =
    [(Ex.X, 0), (Ex.Y, 1)] := by decide +kernel
  exact C34_observed_violated (Ex.after_steady _ (by decide +kernel)) Ex.rev_perm id (fun l => .refl l) (by omega)
    (by
      intro v h
      rw [hv]
      simp only [Ex.pair, List.mem_cons, List.not_mem_nil, or_false] at h
      rcases h with rfl | rfl <;> simp)
    (u := Ex.X) (v := Ex.Y) (by simp [Ex.pair]) (by simp [Ex.pair]) (by decide)
    ⟨0, by rw [he]; simp⟩ ⟨1, by rw [he]; simp⟩

/-- C34 is violated by a factor which is not symmetric: with only the factor of X and Y whose images are 1,
2, 3, 4, the masses of X are 3 and 7, and the library returns 4 and 6. -/
theorem C34_transposed_violated : ∃ s : State (Ext ℚ), Reach (fun s op => Prudent s op ∧ Steady s op) s ∧
    s.Images Ex.phi ∧ s.OthersOf [Ex.X] [Ex.Y] ∧ s.Agrees Ex.zeros ∧
    (∀ a, a Ex.X = 0 → s.jointMass (s.weight Ex.phi) [Ex.Y] Ex.zeros [Ex.X] a = 3) ∧
    (∀ a, a Ex.X = 1 → s.jointMass (s.weight Ex.phi) [Ex.Y] Ex.zeros [Ex.X] a = 7) ∧
    ∃ s' f, State.getJoint Ex.rev id id (Group.single Ex.X) 1 s = .ok s' f ∧
      f.findTransformed [0] = .ok (.val 4) ∧ f.findTransformed [1] = .ok (.val 6) := by
  have hv : (Ex.after [.add 4]).vars = [Ex.X, Ex.Y] := by decide +kernel
  have hh : (Ex.after [.add 4]).heap = Ex.heapXYZ := rfl
  have hf : (Ex.after [.add 4]).factors = [4] := by decide +kernel
  have he : (Ex.after [.add 4]).evidences = [] := by decide +kernel
  have hm : ∀ (a : Assign) k, a Ex.X = k → (Ex.after [.add 4]).jointMass ((Ex.after [.add 4]).weight Ex.phi) [Ex.Y]
      Ex.zeros [Ex.X] a = Tree.sumOver Var.size [Ex.Y] (fun a => ([4].map (fun p => Ex.phi p a)).prod)
        (fun w => if w ∈ [Ex.X] then k else Ex.zeros w) := by
    intro a k ha
    unfold State.jointMass State.weight
    rw [he, hf, if_pos (by simp)]
    congr 1
    funext w
    by_cases hw : w = Ex.X
    · simp [hw, ha]
    · simp [hw]
  refine ⟨Ex.after [.add 4], Ex.after_steady _ (by decide +kernel),
    Ex.phi_images hh (by rw [hv, hf]; decide +kernel), Ex.othersOf_of (by rw [hv, he]; decide) (by decide),
    Ex.zeros_agrees (by rw [hv]; decide) (by rw [he]; decide), ?_, ?_, ?_⟩
  · intro a ha
    rw [hm a 0 ha]
    decide +kernel
  · intro a ha
    rw [hm a 1 ha]
    decide +kernel
  · have : (match State.getJoint Ex.rev id id (Group.single Ex.X) 1 (Ex.after [.add 4]) with
        | .ok _ f =>
          match f.findTransformed [0], f.findTransformed [1] with
          | .ok (.val x), .ok (.val y) => some (x, y)
          | _, _ => none
        | _ => none) = some (4, 6) := by decide +kernel
    cases h : State.getJoint Ex.rev id id (Group.single Ex.X) 1 (Ex.after [.add 4]) with
    | ok s' f =>
      rw [h] at this
      simp only at this
      split at this
      · rename_i x y h1 h2
        cases this
        exact ⟨s', f, rfl, h1, h2⟩
      · cases this
    | throw _ => rw [h] at this; cases this
    | ub => rw [h] at this; cases this

/-- The hypotheses of `C34_transposed_partial`, on the model of `C34_transposed_violated`: the joint distribution
of X and Y is right, because the factor joins two variables of the group. -/
example : ∃ s' f, State.getJoint Ex.rev id List.reverse (Ex.pair Ex.X Ex.Y) 2 (Ex.after [.add 4]) = .ok s' f ∧
    f.vars.group = [Ex.X, Ex.Y] ∧ ∃ C : ℚ, 0 < C ∧ f.findTransformed [0, 0] = .ok (.val (C * 1)) ∧
      f.findTransformed [0, 1] = .ok (.val (C * 2)) ∧ f.findTransformed [1, 0] = .ok (.val (C * 3)) ∧
      f.findTransformed [1, 1] = .ok (.val (C * 4)) := by
  have hv : (Ex.after [.add 4]).vars = [Ex.X, Ex.Y] := by decide +kernel
  have hh : (Ex.after [.add 4]).heap = Ex.heapXYZ := rfl
  have hf : (Ex.after [.add 4]).factors = [4] := by decide +kernel
  have he : (Ex.after [.add 4]).evidences = [] := by decide +kernel
  have hne : Ex.X ≠ Ex.Y := by decide
  have hhid : ∀ v ∈ [Ex.X, Ex.Y], (Ex.after [.add 4]).Hidden v := fun v hvm =>
    ⟨by rw [hv]; exact hvm, by rw [State.Observes, he]; simp⟩
  have hxy : (Ex.after [.add 4]).Joins Ex.X Ex.Y := Ex.joins_of 4 (by rw [hf]; simp) (by rw [hh]; decide)
  have hyx : (Ex.after [.add 4]).Joins Ex.Y Ex.X := by obtain ⟨p, h⟩ := hxy; exact ⟨p, h.symm⟩
  have hr := Ex.after_steady [.add 4] (by decide +kernel)
  have hx := hhid Ex.X (by simp)
  have hy := hhid Ex.Y (by simp)
  generalize Ex.after [.add 4] = s at *
  have hz : s.Agrees Ex.zeros := Ex.zeros_agrees (by rw [hv]; decide) (by rw [he]; decide)
  have hread : s.readWeight Ex.phi Ex.zeros ≠ 0 := by
    have h1 : s.readAt 4 Ex.zeros = Ex.zeros := by
      unfold State.readAt
      rw [hh]
      have : Assign.exchange Ex.zeros Ex.X Ex.Y = Ex.zeros := by
        funext z
        unfold Assign.exchange Ex.zeros
        split
        · rfl
        · split <;> rfl
      classical
      show (if s.Hidden Ex.X ∧ s.Hidden Ex.Y then Assign.exchange Ex.zeros Ex.X Ex.Y else Ex.zeros) = Ex.zeros
      rw [this, ite_self]
    unfold State.readWeight
    rw [hf]
    simp only [List.map_cons, List.map_nil, List.prod_cons, List.prod_nil, h1]
    decide +kernel
  obtain ⟨s', f, h1, h2, C, h3, h4⟩ := C34_transposed_partial hr (ord := Ex.rev) Ex.rev_perm (sh := id)
    (fun l => .refl l) (sched := List.reverse) (fun l => List.reverse_perm l) (n := 2) (by omega) (φ := Ex.phi)
    (Ex.phi_images hh (by rw [hv, hf]; decide +kernel))
    (g := Ex.pair Ex.X Ex.Y) (.soup (vars := [Ex.X, Ex.Y]) (by decide)) (by simp [Ex.pair])
    (by intro v h; rw [hv]; exact h)
    (by intro u _ v _ ho; rw [State.Observes, he] at ho; simp at ho)
    (fun v _ _ => Ex.two_tree (by rw [hv]; simp) v)
    (by
      intro u hu w hw _
      simp only [Ex.pair, List.mem_cons, List.not_mem_nil, or_false] at hu hw
      rcases hu with rfl | rfl <;> rcases hw with rfl | rfl
      · exact .refl
      · exact .single ⟨by simp [Ex.pair], by simp [Ex.pair], hx, hy, hxy⟩
      · exact .single ⟨by simp [Ex.pair], by simp [Ex.pair], hy, hx, hyx⟩
      · exact .refl)
    (l := []) (Ex.othersOf_of (by rw [hv, he]; decide) (by decide)) (e := Ex.zeros) hz ⟨Ex.zeros, hz, hread⟩
  have hin : ∀ a, s.readWeightIn [Ex.X, Ex.Y] Ex.phi a = Ex.phi 4 a := by
    intro a
    have h1 : s.readAtIn [Ex.X, Ex.Y] 4 a = a := by
      unfold State.readAtIn
      rw [hh]
      classical
      show (if (s.Hidden Ex.X ∧ s.Hidden Ex.Y) ∧ ¬(Ex.X ∈ [Ex.X, Ex.Y] ∧ Ex.Y ∈ [Ex.X, Ex.Y]) then
        Assign.exchange a Ex.X Ex.Y else a) = a
      rw [if_neg (fun h => h.2 (by simp))]
    unfold State.readWeightIn
    rw [hf]
    simp only [List.map_cons, List.map_nil, List.prod_cons, List.prod_nil, h1, mul_one]
  have key : ∀ i j x, i < 2 → j < 2 → Ex.phi 4 (fun w => if w ∈ [Ex.X, Ex.Y] then Ex.pairAt Ex.X i j w else
      Ex.zeros w) = x → f.findTransformed [i, j] = .ok (.val (C * x)) := by
    intro i j x hi hj hx
    have := h4 (Ex.pairAt Ex.X i j) (Ex.pairAt_inDom hne hi hj)
    simp only [Ex.pair] at this
    rw [Ex.pairAt_map hne] at this
    rw [this]
    unfold State.jointMass
    rw [he, if_pos (by simp)]
    simp only [Tree.sumOver]
    rw [hin, hx]
  refine ⟨s', f, h1, h2, C, h3, ?_, ?_, ?_, ?_⟩
  · exact key 0 0 _ (by omega) (by omega) (by decide +kernel)
  · exact key 0 1 _ (by omega) (by omega) (by decide +kernel)
  · exact key 1 0 _ (by omega) (by omega) (by decide +kernel)
  · exact key 1 1 _ (by omega) (by omega) (by decide +kernel)

end EFG
