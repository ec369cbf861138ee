import Verif.Lemmas.FullConditional
import Verif.Props.Gibbs
import Verif.Props.TrainExamples
/-
C37: an update of the Gibbs sampler draws from the conditional distribution of the variable.
-/

namespace EFG
variable {K : Type} [Field K] [LinearOrder K] [IsStrictOrderedRing K] [FloatParams K]

theorem State.updateDistribution_heap {s s' : State (Ext K)} (h : s'.heap = s.heap) (nd : SamplerNode (Ext K))
    (read : List Nat) : s'.updateDistribution nd read = s.updateDistribution nd read := by
  have : s'.depEvidence = s.depEvidence := by
    funext e
    unfold State.depEvidence State.deref
    rw [h]
  unfold State.updateDistribution
  rw [this]

theorem State.NodeOf.read {ord : List Var → List Var} {s : State (Ext K)} {v : Var} {nd : SamplerNode (Ext K)}
    (h : State.NodeOf ord s v nd) (a : Assign) :
    State.readDeps nd.deps (s.vars.map a) = .ok (nd.deps.map (fun d => a d.sender)) := by
  unfold State.readDeps
  refine Res.mapList_ok (fun d hd => ?_)
  rw [List.getElem?_map, (h.dep d hd).1]
  rfl

/-- C37: in every model reached by prudent and steady operations, with or without cycles, for every combination
of the values and every hidden variable: the update of the variable reads the values and draws from its
conditional distribution given the values of all the other variables, that is the product of all the factors at
the combinations which differ in that variable only, divided by their sum. Here `nds` are the nodes which the
sampler builds, and the combinations are those of an assignment `a` which agrees with the evidences.

Missing: the executions which change a factor or a weight while something computed from it is cached
(`C37_violated`), and the combinations where the product is zero whatever the value of the variable, which have
no conditional distribution. -/
theorem C37_full_conditional_partial {s s' : State (Ext K)} (h : Reach (fun s op => Prudent s op ∧ Steady s op) s)
    {ord : List Var → List Var} (hord : ∀ l, (ord l).Perm l) {φ : Nat → Assign → K} (hφ : s.Images φ) {c : List Nat}
    {nds : List (SamplerNode (Ext K))} (hn : State.makeSamplerNodes ord s = .ok s' (c, nds)) {nd : SamplerNode (Ext K)}
    (hnd : nd ∈ nds) {v : Var} (hv : s.vars[nd.slot]? = some v) {a : Assign} (ha : s.Agrees a)
    (hne : ∃ i < v.size, s.weight φ (Function.update a v i) ≠ 0) :
    ∃ read, State.readDeps nd.deps (s.vars.map a) = .ok read ∧ s'.updateDistribution nd read =
      .ok ((List.range v.size).map (fun i => .val (s.weight φ (Function.update a v i) /
        ((List.range v.size).map (fun j => s.weight φ (Function.update a v j))).sum))) := by
  obtain ⟨hH, hF⟩ := reach_sound h
  obtain ⟨s1, c1, nds1, h1, _, h2, h3⟩ := State.makeSamplerNodes_ok hord hH.inv
  rw [hn] at h1
  cases h1
  obtain ⟨i, hi, rfl⟩ := List.getElem_of_mem hnd
  have hlen := h3.length_eq
  have hnode := (List.forall₂_iff_get.mp h3).2 i (by omega) hi
  set u := (State.sampled ord s).get ⟨i, by omega⟩ with hu
  have huv : u = v := by
    have := hnode.slot
    simp only [List.get_eq_getElem] at this
    rw [hv] at this
    exact (Option.some.inj this).symm
  rw [huv] at hnode hu
  have hvh : v ∈ s.hid := (State.sampled_perm hord hH.inv).mem_iff.mp (hu ▸ List.get_mem _ _)
  refine ⟨_, hnode.read a, ?_⟩
  rw [State.updateDistribution_heap h2.heap]
  exact State.updateDistribution_conditional hH.inv.toCore hH.sep (hF trivial).evid hφ hord hvh hnode ha hne

/-- C37: every hidden variable has an update. -/
theorem C37_every_variable {s s' : State (Ext K)} (h : Reach anyOp s)
    {ord : List Var → List Var} (hord : ∀ l, (ord l).Perm l) {c : List Nat}
    {nds : List (SamplerNode (Ext K))} (hn : State.makeSamplerNodes ord s = .ok s' (c, nds)) {v : Var} :
    s.Hidden v ↔ ∃ nd ∈ nds, s.vars[nd.slot]? = some v := by
  have hI := reach_inv h
  obtain ⟨s1, c1, nds1, h1, _, h2, h3⟩ := State.makeSamplerNodes_ok hord hI
  rw [hn] at h1
  cases h1
  have hlen := h3.length_eq
  rw [State.hidden_iff, ← (State.sampled_perm hord hI).mem_iff]
  constructor
  · intro hv
    obtain ⟨i, hi, rfl⟩ := List.getElem_of_mem hv
    exact ⟨nds[i], List.getElem_mem _, ((List.forall₂_iff_get.mp h3).2 i hi (by omega)).slot⟩
  · rintro ⟨nd, hnd, hv⟩
    obtain ⟨i, hi, rfl⟩ := List.getElem_of_mem hnd
    have := ((List.forall₂_iff_get.mp h3).2 i (by omega) hi).slot
    simp only [List.get_eq_getElem] at this
    rw [hv] at this
    rw [Option.some.inj this]
    exact List.getElem_mem _

/-- C37: hence an update leaves the distribution of the model invariant: if the probability of every combination
is proportional to the product of the factors before the update, it is so after it. The left hand side is the
weight which arrives at the combination of `a` from all the combinations which the update can change to it.

Missing: as in `C37_full_conditional_partial`. -/
theorem C37_invariant_partial {s s' : State (Ext K)} (h : Reach (fun s op => Prudent s op ∧ Steady s op) s)
    {ord : List Var → List Var} (hord : ∀ l, (ord l).Perm l) {φ : Nat → Assign → K} (hφ : s.Images φ) {c : List Nat}
    {nds : List (SamplerNode (Ext K))} (hn : State.makeSamplerNodes ord s = .ok s' (c, nds)) {nd : SamplerNode (Ext K)}
    (hnd : nd ∈ nds) {v : Var} (hv : s.vars[nd.slot]? = some v) {a : Assign} (ha : s.Agrees a) :
    ((List.range v.size).map (fun j => s.weight φ (Function.update a v j) *
      s'.chance nd (s.vars.map (Function.update a v j)) (a v))).sum = s.weight φ a := by
  have hvm : v ∈ s.vars := List.mem_of_getElem? hv
  have hav : a v < v.size := ha.1 v hvm
  have hself : s.weight φ a = s.weight φ (Function.update a v (a v)) := by rw [Function.update_eq_self]
  have hvh : v ∈ s.hid := State.hidden_iff.mp
    ((C37_every_variable (Ex.Reach.mono (fun _ _ _ => trivial) h) hord hn).mpr ⟨nd, hnd, hv⟩)
  by_cases hne : ∃ i < v.size, s.weight φ (Function.update a v i) ≠ 0
  · set T := ((List.range v.size).map (fun j => s.weight φ (Function.update a v j))).sum with hT
    have hq : ∀ j < v.size, s'.chance nd (s.vars.map (Function.update a v j)) (a v) = s.weight φ a / T := by
      intro j hj
      have hupd : ∀ i, Function.update (Function.update a v j) v i = Function.update a v i := by
        intro i; rw [Function.update_idem]
      obtain ⟨read, h1, h2⟩ := C37_full_conditional_partial h hord hφ hn hnd hv (ha.update hvh hj) (by
        simpa only [hupd] using hne)
      simp only [hupd] at h2
      unfold State.chance
      rw [h1]
      simp only
      rw [h2]
      simp only [List.getElem?_map, List.getElem?_range hav, Option.map_some]
      rw [hself]
    have h1 : (List.range v.size).map (fun j => s.weight φ (Function.update a v j) *
        s'.chance nd (s.vars.map (Function.update a v j)) (a v)) =
        (List.range v.size).map (fun j => s.weight φ (Function.update a v j) * (s.weight φ a / T)) :=
      List.map_congr_left (fun j hj => by rw [hq j (by simpa using hj)])
    rw [h1, List.sum_map_mul_right, ← hT]
    have hH := (reach_sound h).healthy
    have hnn : ∀ x ∈ (List.range v.size).map (fun j => s.weight φ (Function.update a v j)), 0 ≤ x := by
      intro x hx
      obtain ⟨j, hj, rfl⟩ := List.mem_map.mp hx
      refine list_prod_nonneg (fun y hy => ?_)
      obtain ⟨p, hp, rfl⟩ := List.mem_map.mp hy
      obtain ⟨_, _, _, h0⟩ := hφ p hp _ (ha.update hvh (by simpa using hj)).1
      exact h0
    have hTne : T ≠ 0 := by
      obtain ⟨i, hi, hw⟩ := hne
      have hmem : s.weight φ (Function.update a v i) ∈ (List.range v.size).map (fun j => s.weight φ (Function.update a v j)) :=
        List.mem_map.mpr ⟨i, by simpa using hi, rfl⟩
      have := List.single_le_sum hnn _ hmem
      exact (lt_of_lt_of_le (lt_of_le_of_ne (hnn _ hmem) (Ne.symm hw)) this).ne'
    rw [mul_div_cancel₀ _ hTne]
  · push Not at hne
    rw [hself, hne _ hav]
    refine List.sum_eq_zero (fun x hx => ?_)
    obtain ⟨j, hj, rfl⟩ := List.mem_map.mp hx
    rw [hne j (by simpa using hj), zero_mul]

/-- The triangle X, Y, Z with Z observed: the sampler has a node for X, and its distribution is 1/9, 8/9 when Y
is 1. -/
example : ∃ s' c nds nd, State.makeSamplerNodes Ex.rev (Ex.after [.add 0, .add 1, .add 2, .add 3, .observe Ex.Z 1]) =
      .ok s' (c, nds) ∧ nd ∈ nds ∧
    (Ex.after [.add 0, .add 1, .add 2, .add 3, .observe Ex.Z 1]).vars[nd.slot]? = some Ex.X ∧
    ∃ read, State.readDeps nd.deps [0, 1, 1] = .ok read ∧
      s'.updateDistribution nd read = .ok [.val (1 / 9), .val (8 / 9)] := by
  have hr := Ex.after_steady [.add 0, .add 1, .add 2, .add 3, .observe Ex.Z 1] (by decide +kernel)
  have hv : (Ex.after [.add 0, .add 1, .add 2, .add 3, .observe Ex.Z 1]).vars = [Ex.X, Ex.Y, Ex.Z] := by decide +kernel
  have hf : (Ex.after [.add 0, .add 1, .add 2, .add 3, .observe Ex.Z 1]).factors = [0, 1, 2, 3] := by decide +kernel
  have he : (Ex.after [.add 0, .add 1, .add 2, .add 3, .observe Ex.Z 1]).evidences = [(Ex.Z, 1)] := by decide +kernel
  obtain ⟨s', c, nds, h1, _⟩ := State.makeSamplerNodes_ok Ex.rev_perm (reach_inv hr)
  obtain ⟨nd, h2, h3⟩ := (C37_every_variable (Ex.Reach.mono (fun _ _ _ => trivial) hr) Ex.rev_perm h1 (v := Ex.X)).mp
    ⟨by rw [hv]; simp, by rw [State.Observes, he]; rintro ⟨k, hk⟩; simp at hk; exact absurd hk.1 (by decide)⟩
  have hw : ∀ i, (Ex.after [.add 0, .add 1, .add 2, .add 3, .observe Ex.Z 1]).weight Ex.phi
      (Function.update (fun v => if v = Ex.X then 0 else 1) Ex.X i) =
        ([0, 1, 2, 3].map (fun p => Ex.phi p (Function.update (fun v => if v = Ex.X then 0 else 1) Ex.X i))).prod := by
    intro i; unfold State.weight; rw [hf]
  obtain ⟨read, h4, h5⟩ := C37_full_conditional_partial hr Ex.rev_perm (φ := Ex.phi)
    (Ex.phi_images rfl (by rw [hv, hf]; decide +kernel)) h1 h2 h3 (a := fun v => if v = Ex.X then 0 else 1)
    ⟨by intro v hm; rw [hv] at hm; revert v; decide, by intro v k hk; rw [he] at hk; revert v k; simp; decide⟩
    ⟨0, by decide, by rw [hw]; decide +kernel⟩
  refine ⟨s', c, nds, nd, h1, h2, h3, read, ?_, ?_⟩
  · rw [hv] at h4; exact h4
  · rw [h5]
    simp only [hw]
    decide +kernel

namespace Ex

/-- The images of the functions in memory. -/
def phiIn (h : Heap (Ext ℚ)) (p : Nat) (a : Assign) : ℚ :=
  match h[p]? with
  | some f => (valAt f (f.vars.group.map a)).getD 0
  | none => 0

/-- All the images are nonnegative numbers. -/
def okImagesIn (h : Heap (Ext ℚ)) (vars : List Var) (p : Nat) : Bool :=
  match h[p]? with
  | some f => f.vars.group.all vars.contains && (f.vars.group.map (fun v => List.range v.size)).sections.all (fun c =>
      match valAt f c with
      | some x => decide (0 ≤ x)
      | none => false)
  | none => false

theorem phiIn_images {s : State (Ext ℚ)} (hf : s.factors.all (okImagesIn s.heap s.vars) = true) :
    s.Images (phiIn s.heap) := by
  intro p hp a ha
  have := (List.all_eq_true.mp hf) p hp
  unfold okImagesIn at this
  unfold phiIn
  cases hp : s.heap[p]? with
  | none => rw [hp] at this; cases this
  | some f =>
    rw [hp] at this
    simp only [Bool.and_eq_true, List.all_eq_true] at this
    obtain ⟨h1, h2⟩ := this
    have h3 := h2 (f.vars.group.map a) (by
      rw [List.mem_sections, List.forall₂_map_left_iff, List.forall₂_map_right_iff]
      exact List.forall₂_same.mpr (fun v hv => by
        simpa using ha v (by simpa using h1 v hv)))
    refine ⟨f, rfl, ?_⟩
    simp only
    unfold valAt at h3 ⊢
    cases hr : f.findTransformed (f.vars.group.map a) with
    | ok x =>
      rw [hr] at h3
      cases x with
      | val x => exact ⟨rfl, by simpa using h3⟩
      | nan => cases h3
    | throw => rw [hr] at h3; cases h3
    | ub => rw [hr] at h3; cases h3

/-- A tunable factor of X and Y; Y is observed and then the weight is changed from 2 to 1. -/
def restrained : List TAct := [.tune 1 none, .observe Y 1, .weights [1]]

/-- The first update of the sampler. -/
def firstUpdate (s : State (Ext ℚ)) (values : List Nat) : Option (Nat × Res (List (Ext ℚ))) :=
  match State.makeSamplerNodes id s with
  | .ok s' (_, nd :: _) =>
    match State.readDeps nd.deps values with
    | .ok read => some (nd.slot, s'.updateDistribution nd read)
    | _ => none
  | _ => none

end Ex

/-- C37 is violated by `setWeights`, which does not recompute the messages from the observed variables: after the
change of the weight the update of X draws from 5/6, 1/6, while its conditional distribution is 2/3, 1/3. -/
theorem C37_violated : ∃ (s s' : State (Ext ℚ)) (φ : Nat → Assign → ℚ) (a : Assign) (c read : List Nat)
    (nds : List (SamplerNode (Ext ℚ))) (nd : SamplerNode (Ext ℚ)), Reach Prudent s ∧ s.Images φ ∧ s.Agrees a ∧
    State.makeSamplerNodes id s = .ok s' (c, nds) ∧ nd ∈ nds ∧ s.vars[nd.slot]? = some Ex.X ∧
    (List.range 2).map (fun i => s.weight φ (Function.update a Ex.X i) /
      ((List.range 2).map (fun j => s.weight φ (Function.update a Ex.X j))).sum) = [2 / 3, 1 / 3] ∧
    State.readDeps nd.deps (s.vars.map a) = .ok read ∧
    s'.updateDistribution nd read = .ok [.val (5 / 6), .val (1 / 6)] := by
  have hr := Ex.afterT_prudent Ex.restrained (by decide +kernel)
  have hv : (Ex.afterT Ex.restrained).vars = [Ex.X, Ex.Y] := by decide +kernel
  have he : (Ex.afterT Ex.restrained).evidences = [(Ex.Y, 1)] := by decide +kernel
  have hu : Ex.firstUpdate (Ex.afterT Ex.restrained) [0, 1] = some (0, .ok [.val (5 / 6), .val (1 / 6)]) := by
    decide +kernel
  unfold Ex.firstUpdate at hu
  cases hn : State.makeSamplerNodes id (Ex.afterT Ex.restrained) with
  | ub => rw [hn] at hu; cases hu
  | throw s' => rw [hn] at hu; cases hu
  | ok s' x =>
    obtain ⟨c, nds⟩ := x
    rw [hn] at hu
    cases nds with
    | nil => cases hu
    | cons nd nds =>
      simp only at hu
      cases hd : State.readDeps nd.deps [0, 1] with
      | throw => rw [hd] at hu; cases hu
      | ub => rw [hd] at hu; cases hu
      | ok read =>
        rw [hd] at hu
        simp only [Option.some.injEq, Prod.mk.injEq] at hu
        refine ⟨Ex.afterT Ex.restrained, s', Ex.phiIn (Ex.afterT Ex.restrained).heap,
          fun v => if v = Ex.X then 0 else 1, c, read, nd :: nds, nd, hr, Ex.phiIn_images (by decide +kernel),
          ⟨by intro v hm; rw [hv] at hm; revert v; decide, by intro v k hk; rw [he] at hk; revert v k; simp; decide⟩,
          hn, by simp, ?_, ?_, ?_, hu.2⟩
        · rw [hu.1, hv]; rfl
        · decide +kernel
        · rw [hv]; exact hd

end EFG
