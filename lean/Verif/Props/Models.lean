import Verif.Lemmas.AbsorbAll
import Verif.Props.Weights
import Verif.Props.FullConditional
/- C43: copies of models. -/

namespace EFG

/-! ### C43 -/

section
variable {F : Type} [Arith F]

/-- How the factors are found in the copy: themselves, or new functions. -/
def Placed (s : State F) (copy : Bool) (r : Nat → Nat) : Prop :=
  (copy = false → ∀ p, r p = p) ∧ (copy = true → ∀ p ∈ s.factors, s.heap.length ≤ r p)

theorem State.place_placed (s : State F) (copy : Bool) (order : List Nat) : Placed s copy (State.place s copy order) := by
  refine ⟨?_, ?_⟩
  · rintro rfl p; rfl
  · rintro rfl p _
    unfold State.place
    rw [if_pos rfl]
    omega

/-- C43 for graphs: a model without isolated variables is absorbed by a new graph, or copied, whatever the
order in which its containers are visited. The new graph has the variables, the evidences and the factors of
the source, all of them constant, and is a model to which all other theorems apply.

Missing: isolated variables, which are lost (`C43_isolated_violated`). -/
theorem C43_graph_partial {allowed : State F → GOp F → Prop} {s : State F} (h : Reach allowed s) {o : VisitOrder}
    (ho : o.Perms) (hc : s.Covered) (copy : Bool) :
    ∃ t r, State.graphAbsorb o s copy (State.initial s.heap) = .ok t () ∧ Reach anyOp t ∧ State.CopyOf s t r ∧
      Placed s copy r ∧ t.consts.Perm t.factors ∧ t.tunableClusters = [] := by
  obtain ⟨t, h1, h2, h3, h4, h5⟩ := State.graphAbsorb_copy ho (reach_inv h) (State.reach_built h) hc copy
  refine ⟨t, _, h1, h2, h3, State.place_placed _ _ _, h4, ?_⟩
  unfold State.tunableClusters
  rw [h5]; rfl

/-- C43 for random fields: the tunable factors of the copy have the weights they have in the source, and two
of them share a weight exactly when they do in the source.

Missing: isolated variables, which are lost (`C43_isolated_violated`); tunable factors without a cluster,
which are lost (`C43_refused_violated`); factors of a cluster whose weights were made different from outside,
to which absorbing gives one weight; models in which the first factor of a cluster has the variables of a
factor of an earlier cluster (`C43_sharing_violated`). -/
theorem C43_field_partial {allowed : State F → GOp F → Prop} {s : State F} (h : Reach allowed s) {o : VisitOrder}
    (ho : o.Perms) (hc : s.Covered) (hcl : s.Clustered) (hw : s.EqualWeights) (hu : s.Unambiguous) (copy : Bool) :
    ∃ t r, State.fieldAbsorb o s copy (State.initial s.heap) = .ok t () ∧ Reach anyOp t ∧ State.TunableCopyOf s t r ∧
      Placed s copy r := by
  obtain ⟨t, h1, h2, h3⟩ := State.fieldAbsorb_copy ho (reach_inv h) (State.reach_built h) (reach_tuned h)
    (State.reach_registered h) hc hcl hw hu copy
  exact ⟨t, _, h1, h2, h3, State.place_placed _ _ _⟩

/-- C43: the weights got from the copy are those got from the source. -/
theorem C43_weights {s t : State F} {r : Nat → Nat} (h : State.TunableCopyOf s t r) :
    t.getWeights = s.getWeights := by
  unfold State.getWeights
  have hcl := h.clusters
  unfold State.tunableClusters at hcl
  rw [List.map_map] at hcl
  have hall : ∀ c ∈ s.tuners.map (fun t => t.map BaseTuner.factor), ∀ p ∈ c, t.weightOf (r p) = s.weightOf p := by
    intro c hc p hp
    obtain ⟨f, g, h1, h2, _, _, h3, _⟩ := h.tunable c hc p hp
    unfold State.weightOf
    rw [h1, h2]
    show Res.ofOption g.weight = Res.ofOption f.weight
    rw [h3]
  generalize t.tuners = T at hcl ⊢
  generalize s.tuners = S at hcl hall ⊢
  induction T generalizing S with
  | nil =>
    cases S with
    | nil => rfl
    | cons a S => simp at hcl
  | cons b T ih =>
    cases S with
    | nil => simp at hcl
    | cons a S =>
      simp only [List.map_cons, List.cons.injEq, Function.comp] at hcl
      rw [Res.mapList_cons, Res.mapList_cons, ih S hcl.2 (fun c hc => hall c (by simp [List.mem_map] at hc ⊢; exact Or.inr hc))]
      have : t.tunerWeight b = s.tunerWeight a := by
        cases a with
        | nil =>
          cases b with
          | nil => rfl
          | cons b0 b => simp at hcl
        | cons a0 a =>
          cases b with
          | nil => simp at hcl
          | cons b0 b =>
            simp only [List.map_cons, List.cons.injEq] at hcl
            show t.weightOf b0.factor = s.weightOf a0.factor
            rw [hcl.1.1]
            exact hall ((a0 :: a).map BaseTuner.factor) (by simp) _ (by simp)
      rw [this]

end

/-- C43: a copy describes the same distribution: it has the same values in range, the same evidences, and the
product of its factors is the same at every assignment. -/
theorem C43_weight {K : Type} [Field K] [LinearOrder K] [FloatParams K] {s t : State (Ext K)} {r : Nat → Nat}
    {allowed : State (Ext K) → GOp (Ext K) → Prop} (hs : Reach allowed s) (h : State.CopyOf s t r)
    {φ : Nat → Assign → K} (hφ : s.Images φ) :
    (∃ φ', t.Images φ') ∧ ∀ φ', t.Images φ' →
      ∀ a, (t.InRange a ↔ s.InRange a) ∧ (t.Agrees a ↔ s.Agrees a) ∧ (s.InRange a → t.weight φ' a = s.weight φ a) := by
  have hwf : ∀ p ∈ s.factors, ∃ f, s.heap[p]? = some f ∧ ∀ v ∈ f.vars.group, v ∈ s.vars := by
    intro p hp
    obtain ⟨l, ⟨_, f, h1, h2⟩, _, h3⟩ := (C23_register hs).2.2.2.1 p hp
    exact ⟨f, h1, by rw [h2]; exact h3⟩
  have hrange : ∀ a, t.InRange a ↔ s.InRange a := by
    intro a
    constructor
    · intro ha v hv; exact ha v ((h.vars v).mpr hv)
    · intro ha v hv; exact ha v ((h.vars v).mp hv)
  have himg : ∀ p ∈ s.factors, ∀ a, s.InRange a → ∃ g, t.heap[r p]? = some g ∧
      g.findTransformed (g.vars.group.map a) = .ok (.val (φ p a)) ∧ 0 ≤ φ p a := by
    intro p hp a ha
    obtain ⟨f, g, h1, h2, h3, h4⟩ := h.images p hp
    obtain ⟨f', h5, h6, h7⟩ := hφ p hp a ha
    rw [h1] at h5; cases h5
    obtain ⟨f', h5, h8⟩ := hwf p hp
    rw [h1] at h5; cases h5
    refine ⟨g, h2, ?_, h7⟩
    rw [h3, h4 _ ?_, h6]
    unfold Valid
    rw [List.forall₂_map_left_iff, List.forall₂_map_right_iff, List.forall₂_same]
    exact fun v hv => ha v (h8 v hv)
  refine ⟨?_, ?_⟩
  · classical
    refine ⟨fun q a => if hq : ∃ p, p ∈ s.factors ∧ r p = q then φ hq.choose a else 0, ?_⟩
    intro q hq a ha
    obtain ⟨p, hp, rfl⟩ := List.mem_map.mp (h.factors.mem_iff.mp hq)
    have hex : ∃ p', p' ∈ s.factors ∧ r p' = r p := ⟨p, hp, rfl⟩
    have he : hex.choose = p := h.once _ hex.choose_spec.1 _ hp hex.choose_spec.2
    obtain ⟨g, h1, h2, h3⟩ := himg p hp a ((hrange a).mp ha)
    refine ⟨g, h1, ?_⟩
    have he' : (if hq : ∃ p', p' ∈ s.factors ∧ r p' = r p then φ hq.choose a else 0) = φ p a := by
      rw [dif_pos hex, he]
    simp only [he']
    exact ⟨h2, h3⟩
  · intro φ' hφ' a
    refine ⟨hrange a, ?_, ?_⟩
    · unfold State.Agrees
      rw [hrange a]
      refine and_congr_right (fun _ => ?_)
      constructor
      · intro hh v k hk; exact hh v k (h.evidences.mem_iff.mpr hk)
      · intro hh v k hk; exact hh v k (h.evidences.mem_iff.mp hk)
    · intro ha
      unfold State.weight
      rw [(h.factors.map (fun p => φ' p a)).prod_eq, List.map_map]
      congr 1
      refine List.map_congr_left (fun p hp => ?_)
      obtain ⟨g, h1, h2, _⟩ := himg p hp a ha
      obtain ⟨g', h3, h4, _⟩ := hφ' (r p) (h.factors.mem_iff.mpr (List.mem_map_of_mem hp)) a ((hrange a).mpr ha)
      rw [h1] at h3; cases h3
      rw [h2] at h4
      show φ' (r p) a = φ p a
      have := Res.ok.inj h4
      exact (Ext.val.inj this).symm

namespace Ex

/-- The orders used in the examples. -/
def backwards : VisitOrder := ⟨rev, List.reverse, List.reverse⟩

theorem backwards_perms : backwards.Perms := ⟨rev_perm, fun l => l.reverse_perm, fun l => l.reverse_perm⟩

/-- The variables of a factor. -/
def varsOf (s : State (Ext ℚ)) (p : Nat) : List Var :=
  match s.heap[p]? with
  | some f => f.vars.group
  | none => []

theorem covered_of {s : State (Ext ℚ)} (h : s.vars.all (fun v => s.factors.any (fun p => decide (v ∈ varsOf s p))) = true) :
    s.Covered := by
  intro v hv
  obtain ⟨p, hp, h1⟩ := List.any_eq_true.mp (List.all_eq_true.mp h v hv)
  have h1 := of_decide_eq_true h1
  unfold varsOf at h1
  cases hf : s.heap[p]? with
  | none => rw [hf] at h1; cases h1
  | some f => rw [hf] at h1; exact ⟨p, _, ⟨hp, f, hf, rfl⟩, h1⟩

theorem clustered_of {s : State (Ext ℚ)} (h : s.tunables.all (fun p => s.tunableClusters.any (fun c => c.contains p)) = true) :
    s.Clustered := by
  intro p hp
  obtain ⟨c, hc, h1⟩ := List.any_eq_true.mp (List.all_eq_true.mp h p hp)
  exact ⟨c, hc, by simpa using h1⟩

theorem equalWeights_of {s : State (Ext ℚ)} (h : Reach FromInside s) : s.EqualWeights := by
  intro c hc p hp q hq f g hf hg
  have ht := (C40_weights h).2.2.2 c hc
  obtain ⟨f', h1, h2⟩ := (reach_tuned h).exp p (ht p hp).1
  rw [hf] at h1; cases h1
  obtain ⟨w, hw⟩ := Option.isSome_iff_exists.mp h2
  obtain ⟨g', h3, h4⟩ := C40_shared_partial h c hc p hp q hq w ⟨f, hf, hw⟩
  rw [hg] at h3; cases h3
  rw [hw, h4]

/-- A field with a constant factor, three tunable factors in two clusters and an evidence. -/
def field : State (Ext ℚ) := afterT [.add 5, .tune 0 none, .tune 3 none, .tune 2 (some [X]), .observe Z 1]

theorem field_inside : Reach FromInside field :=
  runT_reach (c := fun s a => a.typed s) (fun _ a h => ⟨TAct.valid h, (fun p w he => by cases a <;> cases he)⟩) _
    (.init heapT_reach) (by decide +kernel)

theorem field_unambiguous : field.Unambiguous := by
  have hc : field.tunableClusters = [[0, 2], [3]] := by decide +kernel
  intro i j c d p q hij hi hj
  rw [hc] at hi hj
  match j, hij, hj with
  | 1, _, hj => cases hj
  | j + 2, _, hj => cases hj

end Ex

/-- A field with constant and tunable factors, two of which share a weight, and an evidence. -/
example : Reach FromInside Ex.field ∧ Ex.backwards.Perms ∧ Ex.field.Covered ∧ Ex.field.Clustered ∧
    Ex.field.EqualWeights ∧ Ex.field.Unambiguous ∧ Ex.field.consts = [5] ∧ Ex.field.evidences = [(Ex.Z, 1)] ∧
    (match State.fieldAbsorb Ex.backwards Ex.field true (State.initial Ex.field.heap) with
      | .ok t _ => some (t.vars, t.consts, t.tunableClusters, t.evidences)
      | _ => none) = some ([Ex.X, Ex.Y, Ex.Z], [10], [[11, 12], [13]], [(Ex.Z, 1)]) :=
  ⟨Ex.field_inside, Ex.backwards_perms, Ex.covered_of (by decide +kernel), Ex.clustered_of (by decide +kernel),
    Ex.equalWeights_of Ex.field_inside, Ex.field_unambiguous, by decide +kernel, by decide +kernel, by decide +kernel⟩

namespace Ex

/-- The second factor of a cluster takes part in the sharing through the group {X}, and a factor on X joins
an earlier cluster afterwards. -/
def twice : State (Ext ℚ) := afterT [.tune 1 none, .tune 0 none, .tune 2 (some [X]), .tune 6 (some [X, Y])]

theorem twice_inside : Reach FromInside twice :=
  runT_reach (c := fun s a => a.typed s) (fun _ a h => ⟨TAct.valid h, (fun p w he => by cases a <;> cases he)⟩) _
    (.init heapT_reach) (by decide +kernel)

/-- The weight of a factor. -/
def weightAt (s : State (Ext ℚ)) (p : Nat) : Option (Ext ℚ) :=
  match s.heap[p]? with
  | some f => f.weight
  | none => none

end Ex

/-- C43 is violated when two tunable factors of different clusters are on the same variables: in the copy the
factor 2 shares its weight with the factors 1 and 6 and not with the factor 0. Copying without cloning changes
the weight of the factor 2 of the source. -/
theorem C43_sharing_violated : ∃ (s t : State (Ext ℚ)), Reach FromInside s ∧ s.Covered ∧ s.Clustered ∧
    State.fieldAbsorb Ex.backwards s false (State.initial s.heap) = .ok t () ∧
    s.tunableClusters = [[1, 6], [0, 2]] ∧ t.tunableClusters = [[1, 6, 2], [0]] ∧
    Ex.weightAt s 2 = some (.val 1) ∧ Ex.weightAt t 2 = some (.val 2) := by
  have hx : (match State.fieldAbsorb Ex.backwards Ex.twice false (State.initial Ex.twice.heap) with
      | .ok t _ => some (t.tunableClusters, Ex.weightAt t 2)
      | _ => none) = some ([[1, 6, 2], [0]], some (.val 2)) := by decide +kernel
  cases he : State.fieldAbsorb Ex.backwards Ex.twice false (State.initial Ex.twice.heap) with
  | throw t => rw [he] at hx; cases hx
  | ub => rw [he] at hx; cases hx
  | ok t u =>
    rw [he] at hx
    simp only [Option.some.injEq, Prod.mk.injEq] at hx
    exact ⟨Ex.twice, t, Ex.twice_inside, Ex.covered_of (by decide +kernel), Ex.clustered_of (by decide +kernel), he,
      by decide +kernel, hx.1, by decide +kernel, hx.2⟩

/-- C43 is violated by a tunable factor left in the model by a refused insertion: it is not in the copy. -/
theorem C43_refused_violated : ∃ (s t : State (Ext ℚ)), Reach FromInside s ∧ s.Covered ∧ s.Unambiguous ∧
    State.fieldAbsorb Ex.backwards s true (State.initial s.heap) = .ok t () ∧
    s.factors.length = 4 ∧ t.factors.length = 3 ∧ s.vars = [Ex.X, Ex.Y, Ex.Z] ∧ t.vars = [Ex.X, Ex.Y] := by
  obtain ⟨s, hs⟩ : ∃ s, s = Ex.afterT [.tune 0 none, .tune 1 none, .tune 2 (some [Ex.X]), .tune 3 (some [Ex.Z])] := ⟨_, rfl⟩
  have hx : (match State.fieldAbsorb Ex.backwards s true (State.initial s.heap) with
      | .ok t _ => some (t.factors.length, t.vars)
      | _ => none) = some (3, [Ex.X, Ex.Y]) := by rw [hs]; decide +kernel
  have hr : Reach FromInside s := by
    rw [hs]
    exact Ex.runT_reach (c := fun s a => a.typed s)
      (fun _ a h => ⟨Ex.TAct.valid h, (fun p w he => by cases a <;> cases he)⟩) _ (.init Ex.heapT_reach) (by decide +kernel)
  have hu : s.Unambiguous := by
    have hc : s.tunableClusters = [[0, 2], [1]] := by rw [hs]; decide +kernel
    intro i j c d p q hij hi hj
    rw [hc] at hi hj
    match j, hij, hj with
    | 1, _, hj => cases hj
    | j + 2, _, hj => cases hj
  cases he : State.fieldAbsorb Ex.backwards s true (State.initial s.heap) with
  | throw t => rw [he] at hx; cases hx
  | ub => rw [he] at hx; cases hx
  | ok t u =>
    rw [he] at hx
    simp only [Option.some.injEq, Prod.mk.injEq] at hx
    exact ⟨s, t, hr, Ex.covered_of (by rw [hs]; decide +kernel), hu, he, by rw [hs]; decide +kernel, hx.1,
      by rw [hs]; decide +kernel, hx.2⟩

namespace Ex

/-- The state after an operation. -/
def step (op : GOp (Ext ℚ)) (s : State (Ext ℚ)) : State (Ext ℚ) :=
  match op.exec s with
  | .ok s' _ => s'
  | .throw s' => s'
  | .ub => s

theorem step_reach {allowed : State (Ext ℚ) → GOp (Ext ℚ) → Prop} {s : State (Ext ℚ)} {op : GOp (Ext ℚ)}
    (h : Reach allowed s) (hv : op.Valid s) (ha : allowed s op) (hm : op.RemovesMany = false) : Reach allowed (step op s) := by
  unfold step
  cases he : op.exec s with
  | ok s' _ => exact .ok h hv ha he
  | throw s' => exact .throw h hv ha hm he
  | ub => exact h

/-- The chain A - B - C with an isolated variable D. -/
def isolated : State (Ext ℚ) := step (.addConst (some 3)) (step (.create fDB) (chain []))

theorem isolated_reach : Reach anyOp isolated :=
  step_reach (step_reach (chain_reach []) ⟨trivial, fDB_reach⟩ trivial rfl) ⟨trivial, trivial⟩ trivial rfl

end Ex

/-- The field is copied with its weights; the copy of the path X - Y - Z with an evidence has the same weight at
every assignment. -/
example : (∃ t r, State.TunableCopyOf Ex.field t r ∧ t.getWeights = Ex.field.getWeights) ∧
    (∃ t r φ', State.CopyOf (Ex.after (Ex.path ++ [.observe Ex.Z 1])) t r ∧ t.Images φ' ∧
      (Ex.after (Ex.path ++ [.observe Ex.Z 1])).Images (Ex.phiIn Ex.heapXYZ) ∧
      ∀ a, t.Agrees a → t.weight φ' a = (Ex.after (Ex.path ++ [.observe Ex.Z 1])).weight (Ex.phiIn Ex.heapXYZ) a) := by
  constructor
  · obtain ⟨t, r, _, _, h, _⟩ := C43_field_partial Ex.field_inside Ex.backwards_perms (Ex.covered_of (by decide +kernel))
      (Ex.clustered_of (by decide +kernel)) (Ex.equalWeights_of Ex.field_inside) Ex.field_unambiguous true
    exact ⟨t, r, h, C43_weights h⟩
  · have hr : Reach anyOp (Ex.after (Ex.path ++ [.observe Ex.Z 1])) := Ex.runActs_any _ (.init Ex.heapXYZ_reach)
    have hh : (Ex.after (Ex.path ++ [.observe Ex.Z 1])).heap = Ex.heapXYZ := rfl
    have hi : (Ex.after (Ex.path ++ [.observe Ex.Z 1])).Images (Ex.phiIn Ex.heapXYZ) := by
      rw [← hh]
      exact Ex.phiIn_images (by decide +kernel)
    obtain ⟨t, r, _, _, h, _⟩ := C43_graph_partial hr Ex.backwards_perms (Ex.covered_of (by decide +kernel)) true
    obtain ⟨⟨φ', h1⟩, h2⟩ := C43_weight hr h hi
    exact ⟨t, r, φ', h, h1, hi, fun a ha => (h2 φ' h1 a).2.2 (((h2 φ' h1 a).1).mp ha.1)⟩

/-- C43 is violated by an isolated variable, left in the model by a refused factor: a copy has not got it, and
if it is observed the copy cannot be made at all. -/
theorem C43_isolated_violated :
    (∃ (s t : State (Ext ℚ)), Reach anyOp s ∧ State.graphAbsorb Ex.backwards s true (State.initial s.heap) = .ok t () ∧
      s.vars = [Ex.A, Ex.B, Ex.C, Ex.D] ∧ Ex.D ∉ t.vars) ∧
    (∃ (s t : State (Ext ℚ)), Reach anyOp s ∧ s.evidences = [(Ex.D, 1)] ∧
      State.graphAbsorb Ex.backwards s true (State.initial s.heap) = .throw t) := by
  constructor
  · have hx : (match State.graphAbsorb Ex.backwards Ex.isolated true (State.initial Ex.isolated.heap) with
        | .ok t _ => some (decide (Ex.D ∉ t.vars))
        | _ => none) = some true := by decide +kernel
    cases he : State.graphAbsorb Ex.backwards Ex.isolated true (State.initial Ex.isolated.heap) with
    | throw t => rw [he] at hx; cases hx
    | ub => rw [he] at hx; cases hx
    | ok t u =>
      rw [he] at hx
      exact ⟨Ex.isolated, t, Ex.isolated_reach, he, by decide +kernel, of_decide_eq_true (Option.some.inj hx)⟩
  · have hr : Reach anyOp (Ex.step (.setEvidence Ex.rev Ex.D 1) Ex.isolated) :=
      Ex.step_reach Ex.isolated_reach ⟨Ex.rev_perm, trivial⟩ trivial rfl
    have hx : (match State.graphAbsorb Ex.backwards (Ex.step (.setEvidence Ex.rev Ex.D 1) Ex.isolated) true
          (State.initial (Ex.step (.setEvidence Ex.rev Ex.D 1) Ex.isolated).heap) with
        | .throw t => some t.evidences.length
        | _ => none) = some 0 := by decide +kernel
    cases he : State.graphAbsorb Ex.backwards (Ex.step (.setEvidence Ex.rev Ex.D 1) Ex.isolated) true
          (State.initial (Ex.step (.setEvidence Ex.rev Ex.D 1) Ex.isolated).heap) with
    | ok t u => rw [he] at hx; cases hx
    | ub => rw [he] at hx; cases hx
    | throw t => exact ⟨_, t, hr, by decide +kernel, he⟩

end EFG
