import Verif.Props.Exact
/-
C26: the MAP estimates on trees.
-/

namespace EFG
variable {K : Type} [Field K] [LinearOrder K] [IsStrictOrderedRing K] [FloatParams K]

theorem State.Quiet.mostProbableS {s s' : State (Ext K)} (hq : State.Quiet s s') {ω : Assign → K} {a : Assign} :
    s'.MostProbable ω a ↔ s.MostProbable ω a := by
  unfold State.MostProbable State.Agrees State.InRange
  rw [hq.vars, hq.evidences]

theorem State.mostProbable_symmetric {s : State (Ext K)} (hs : State.Core s) {φ : Nat → Assign → K} (hy : s.Symmetric φ)
    {a : Assign} : s.MostProbable (s.readWeight φ) a ↔ s.MostProbable (s.weight φ) a := by
  unfold State.MostProbable
  constructor
  · rintro ⟨h1, h2⟩
    refine ⟨h1, fun b hb => ?_⟩
    rw [← State.readWeight_symmetric hs hy hb.1, ← State.readWeight_symmetric hs hy h1.1]
    exact h2 b hb
  · rintro ⟨h1, h2⟩
    refine ⟨h1, fun b hb => ?_⟩
    rw [State.readWeight_symmetric hs hy hb.1, State.readWeight_symmetric hs hy h1.1]
    exact h2 b hb

/-- C26, as the library behaves: the factors which join two hidden variables are read with the two values
exchanged. -/
theorem C26_transposed_partial {s : State (Ext K)} (h : Reach (fun s op => Prudent s op ∧ Steady s op) s)
    {ord : List Var → List Var} (hord : ∀ l, (ord l).Perm l) {sched : Sched} (hsched : ∀ l, (sched l).Perm l)
    {n : Nat} (hn : 1 ≤ n) {φ : Nat → Assign → K} (hφ : s.Images φ) (hfl : s.Floored φ) {v w : Var} (hv : s.Hidden v)
    (hw : v.eqv w = true) (ht : s.TreeAt v) (hpos : ∃ e, s.Agrees e ∧ s.readWeight φ e ≠ 0) :
    ∃ s' k, State.getMAP ord sched w n s = .ok s' k ∧ ∃ a, s.MostProbable (s.readWeight φ) a ∧ a v = k := by
  rw [State.getMAP_eq]
  exact State.asks_faithful hord .map hsched (reach_sound h) hn (r := State.readMAP ord w) (by
    intro s' p ha hH hF hp hk
    have hq := ha.toQuiet
    have hv' := State.hidden_iff.mp ((hq.hiddenS v).mpr hv)
    have hr : s'.readWeight φ = s.readWeight φ := funext (fun a => hq.readWeightS a)
    obtain ⟨e, he, hene⟩ := hpos
    obtain ⟨ps, k, h1, h2, a, h3, h4⟩ := State.belief_map hord hH hF hp hk (hq.imagesS hφ) (hq.flooredS hfl) hv'
      (hq.treeAt ht) ⟨e, hq.agreesS he, by rw [hr]; exact hene⟩
    refine ⟨k, ?_, a, ?_, h4⟩
    · unfold State.readMAP
      rw [hH.inv.readMarginal_hidden hv' hw, h1]
      exact h2
    · rw [hr] at h3
      exact hq.mostProbableS.mp h3)

/-- C26: after any execution of prudent and steady operations, on the factors `φ`, the value returned by
`getMAP` for a hidden variable whose cluster has no cycles is its value in a most probable assignment of the
hidden variables given the evidences.

Missing: the factors which join two hidden variables and are not symmetric, or have an image below the
smallest positive normal number (`C26_violated`), the executions which change a factor of
the model whose images were already used, and the models for which all the assignments have weight zero. -/
theorem C26_map_exact_partial {s : State (Ext K)} (h : Reach (fun s op => Prudent s op ∧ Steady s op) s)
    {ord : List Var → List Var} (hord : ∀ l, (ord l).Perm l) {sched : Sched} (hsched : ∀ l, (sched l).Perm l)
    {n : Nat} (hn : 1 ≤ n) {φ : Nat → Assign → K} (hφ : s.Images φ) (hsym : s.Symmetric φ) (hfl : s.Floored φ)
    {v w : Var} (hv : s.Hidden v) (hw : v.eqv w = true) (ht : s.TreeAt v)
    (hpos : ∃ e, s.Agrees e ∧ s.weight φ e ≠ 0) :
    ∃ s' k, State.getMAP ord sched w n s = .ok s' k ∧ ∃ a, s.MostProbable (s.weight φ) a ∧ a v = k := by
  have hs := (reach_sound h).healthy.inv.toCore
  obtain ⟨e, he, hene⟩ := hpos
  obtain ⟨s', k, h1, a, h2, h3⟩ := C26_transposed_partial h hord hsched hn hφ hfl hv hw ht
    ⟨e, he, by rw [State.readWeight_symmetric hs hsym he.1]; exact hene⟩
  exact ⟨s', k, h1, a, (State.mostProbable_symmetric hs hsym).mp h2, h3⟩

/-- C26, for all the hidden variables at once: when no cluster has cycles and the most probable assignment
`a` is unique, `getHiddenSetMAP` returns it, in the order of the hidden variables. -/
theorem C26_hidden_set_partial {s : State (Ext K)} (h : Reach (fun s op => Prudent s op ∧ Steady s op) s)
    {ord : List Var → List Var} (hord : ∀ l, (ord l).Perm l) {sched : Sched} (hsched : ∀ l, (sched l).Perm l)
    {n : Nat} (hn : 1 ≤ n) {φ : Nat → Assign → K} (hφ : s.Images φ) (hsym : s.Symmetric φ) (hfl : s.Floored φ)
    (ht : ∀ v, s.Hidden v → s.TreeAt v) (hpos : ∃ e, s.Agrees e ∧ s.weight φ e ≠ 0) {a : Assign}
    (huniq : ∀ b, s.MostProbable (s.weight φ) b → ∀ v, s.Hidden v → b v = a v) :
    ∃ s' l, State.getHiddenSetMAP ord sched n s = .ok s' (l.map a) ∧ l = ord s'.hiddenVariables ∧ l.Nodup ∧
      ∀ v, v ∈ l ↔ s.Hidden v := by
  have hs := (reach_sound h).healthy.inv.toCore
  rw [State.getHiddenSetMAP_eq]
  obtain ⟨s', p, h1, ha, h3, hp, hk⟩ := State.checkPropagation_sound hord .map hsched (reach_sound h) hn
  have hH := h3.healthy
  have hF := h3.faithful trivial
  have hq := ha.toQuiet
  have hr : s'.readWeight φ = s.readWeight φ := funext (fun a => hq.readWeightS a)
  obtain ⟨e, he, hene⟩ := hpos
  have hmem : ∀ v, v ∈ ord s'.hiddenVariables ↔ s.Hidden v := by
    intro v
    rw [(hord _).mem_iff, hH.inv.mem_hiddenVariables, hq.hiddenS]
  have hall : ∀ v ∈ ord s'.hiddenVariables, State.mapOf ord s' v = .ok (a v) := by
    intro v hv
    have hv := (hmem v).mp hv
    have hv' := State.hidden_iff.mp ((hq.hiddenS v).mpr hv)
    obtain ⟨ps, k, g1, g2, b, g3, g4⟩ := State.belief_map hord hH hF hp hk (hq.imagesS hφ) (hq.flooredS hfl) hv'
      (hq.treeAt (ht v hv)) ⟨e, hq.agreesS he, by rw [hr, State.readWeight_symmetric hs hsym he.1]; exact hene⟩
    rw [hr] at g3
    have := huniq b ((State.mostProbable_symmetric hs hsym).mp (hq.mostProbableS.mp g3)) v hv
    unfold State.mapOf
    rw [hH.inv.net.nodeKey?_mem (State.mem_hid.mp hv').1]
    simp only
    rw [g1]
    simp only
    rw [g2, ← g4, this]
  refine ⟨s', ord s'.hiddenVariables, ?_, rfl, ?_, hmem⟩
  · unfold State.asks
    rw [h1]
    simp only
    unfold State.lift
    beta_reduce
    rw [Res.mapList_ok hall]
  · rw [(hord _).nodup_iff]
    rw [hH.inv.hiddenVariables, List.flatMap_def]
    exact hH.inv.parts.nodup

/-- The path X - Y - Z. -/
example : ∃ s' k, State.getMAP Ex.rev List.reverse Ex.X 2 (Ex.after Ex.path) = .ok s' k ∧
    ∃ a, (Ex.after Ex.path).MostProbable ((Ex.after Ex.path).weight Ex.phi) a ∧ a Ex.X = k := by
  have hv : (Ex.after Ex.path).vars = [Ex.X, Ex.Y, Ex.Z] := by decide +kernel
  have hh : (Ex.after Ex.path).heap = Ex.heapXYZ := rfl
  have hf : (Ex.after Ex.path).factors = [0, 1, 2] := by decide +kernel
  have he : (Ex.after Ex.path).evidences = [] := by decide +kernel
  refine C26_map_exact_partial Ex.path_reach (ord := Ex.rev) Ex.rev_perm (sched := List.reverse)
    (fun l => List.reverse_perm l) (n := 2) (by omega) (φ := Ex.phi)
    (Ex.phi_images hh (by rw [hv, hf]; decide +kernel)) (Ex.phi_symmetric hh (by rw [hf]; decide +kernel))
    (Ex.phi_floored hh (by rw [hf]; decide +kernel))
    (v := Ex.X) (w := Ex.X) ⟨by rw [hv]; simp, by rw [State.Observes, he]; simp⟩ (Var.eqv_refl _)
    ?_ ⟨Ex.zeros, Ex.zeros_agrees (by rw [hv]; decide) (by rw [he]; decide), by
      unfold State.weight; rw [hf]; decide +kernel⟩
  intro u hu
  refine Ex.path_noCycle u ?_
  have : u ∈ (Ex.after Ex.path).vars := by
    cases hu with
    | refl => rw [hv]; simp
    | tail _ h => exact h.2.1.1
  rw [hv] at this
  exact this

/-- The path X - Y - Z: the only most probable assignment is X = 1, Y = 1, Z = 0. -/
example : ∃ (s' : State (Ext ℚ)) (l : List Var), State.getHiddenSetMAP Ex.rev List.reverse 2 (Ex.after Ex.path) =
      .ok s' (l.map (fun v => if v = Ex.Z then 0 else 1)) ∧ ∀ v, v ∈ l ↔ (Ex.after Ex.path).Hidden v := by
  have hv : (Ex.after Ex.path).vars = [Ex.X, Ex.Y, Ex.Z] := by decide +kernel
  have hh : (Ex.after Ex.path).heap = Ex.heapXYZ := rfl
  have hf : (Ex.after Ex.path).factors = [0, 1, 2] := by decide +kernel
  have he : (Ex.after Ex.path).evidences = [] := by decide +kernel
  have hhid : ∀ v, (Ex.after Ex.path).Hidden v → v ∈ [Ex.X, Ex.Y, Ex.Z] := fun v h => by rw [← hv]; exact h.1
  have ha : (Ex.after Ex.path).Agrees (fun v => if v = Ex.Z then 0 else 1) := by
    constructor
    · intro v h
      rw [hv] at h
      simp only [List.mem_cons, List.not_mem_nil, or_false] at h
      rcases h with rfl | rfl | rfl <;> decide
    · intro v k h; rw [he] at h; simp at h
  obtain ⟨s', l, h1, _, _, h2⟩ := C26_hidden_set_partial Ex.path_reach (ord := Ex.rev) Ex.rev_perm (sched := List.reverse)
    (fun l => List.reverse_perm l) (n := 2) (by omega) (φ := Ex.phi)
    (Ex.phi_images hh (by rw [hv, hf]; decide +kernel)) (Ex.phi_symmetric hh (by rw [hf]; decide +kernel))
    (Ex.phi_floored hh (by rw [hf]; decide +kernel))
    (by
      intro v hv' u hu
      refine Ex.path_noCycle u (hhid u ?_)
      cases hu with
      | refl => exact hv'
      | tail _ h => exact h.2.1)
    ⟨Ex.zeros, Ex.zeros_agrees (by rw [hv]; decide) (by rw [he]; decide), by
      unfold State.weight; rw [hf]; decide +kernel⟩
    (a := fun v => if v = Ex.Z then 0 else 1) (by
      intro b hb v hv'
      have hle := hb.2 _ ha
      have h1 : b Ex.X < 2 := hb.1.1 Ex.X (by rw [hv]; simp)
      have h2 : b Ex.Y < 2 := hb.1.1 Ex.Y (by rw [hv]; simp)
      have h3 : b Ex.Z < 2 := hb.1.1 Ex.Z (by rw [hv]; simp)
      unfold State.weight at hle
      rw [hf] at hle
      have e0 : (([0, 1, 2] : List Nat).map (fun p => Ex.phi p (fun v => if v = Ex.Z then 0 else 1))).prod = 24 := by
        decide +kernel
      have e1 : (([0, 1, 2] : List Nat).map (fun p => Ex.phi p b)).prod =
          (([0, 1, 2] : List Nat).map (fun p => Ex.phi p (fun v => if v = Ex.X then b Ex.X else if v = Ex.Y then b Ex.Y
            else b Ex.Z))).prod := rfl
      rw [e0, e1] at hle
      have h4 : b Ex.X = 1 ∧ b Ex.Y = 1 ∧ b Ex.Z = 0 := by
        generalize b Ex.X = x at *
        generalize b Ex.Y = y at *
        generalize b Ex.Z = z at *
        have : ∀ x y z : Fin 2, (24 : ℚ) ≤ (([0, 1, 2] : List Nat).map (fun p => Ex.phi p (fun v =>
            if v = Ex.X then x.1 else if v = Ex.Y then y.1 else z.1))).prod → x.1 = 1 ∧ y.1 = 1 ∧ z.1 = 0 := by
          decide +kernel
        exact this ⟨x, h1⟩ ⟨y, h2⟩ ⟨z, h3⟩ hle
      have := hhid v hv'
      simp only [List.mem_cons, List.not_mem_nil, or_false] at this
      rcases this with rfl | rfl | rfl
      · rw [h4.1]; decide
      · rw [h4.2.1]; decide
      · rw [h4.2.2]; decide)
  exact ⟨s', l, h1, h2⟩

/-- C26 is violated when a factor has an image below the smallest positive normal number, here zero: the
value Y = 0 has probability zero, and `getMAP` returns it. -/
theorem C26_violated : ∃ s : State (Ext ℚ), Reach (fun s op => Prudent s op ∧ Steady s op) s ∧
    s.Images Ex.phi ∧ s.Symmetric Ex.phi ∧ (∃ e, s.Agrees e ∧ s.weight Ex.phi e ≠ 0) ∧
    (∀ a, s.MostProbable (s.weight Ex.phi) a → a Ex.Y = 1) ∧
    ∃ s', State.getMAP Ex.rev id Ex.Y 1 s = .ok s' 0 := by
  have hv : (Ex.after [.add 7, .add 8]).vars = [Ex.Y, Ex.X] := by decide +kernel
  have hh : (Ex.after [.add 7, .add 8]).heap = Ex.heapXYZ := by with_unfolding_all rfl
  have hf : (Ex.after [.add 7, .add 8]).factors = [7, 8] := by decide +kernel
  have he : (Ex.after [.add 7, .add 8]).evidences = [] := by decide +kernel
  have ha : (Ex.after [.add 7, .add 8]).Agrees (fun _ => 1) := by
    constructor
    · intro v h
      rw [hv] at h
      simp only [List.mem_cons, List.not_mem_nil, or_false] at h
      rcases h with rfl | rfl <;> decide
    · intro v k h; rw [he] at h; simp at h
  refine ⟨Ex.after [.add 7, .add 8], Ex.after_steady _ (by decide +kernel),
    Ex.phi_images hh (by rw [hv, hf]; decide +kernel), Ex.phi_symmetric hh (by rw [hf]; decide +kernel),
    ⟨_, ha, by unfold State.weight; rw [hf]; decide +kernel⟩, ?_, ?_⟩
  · intro b hb
    have hle := hb.2 _ ha
    have h1 : b Ex.X < 2 := hb.1.1 Ex.X (by rw [hv]; simp)
    have h2 : b Ex.Y < 2 := hb.1.1 Ex.Y (by rw [hv]; simp)
    unfold State.weight at hle
    rw [hf] at hle
    have e1 : (([7, 8] : List Nat).map (fun p => Ex.phi p b)).prod =
        (([7, 8] : List Nat).map (fun p => Ex.phi p (fun v => if v = Ex.X then b Ex.X else b Ex.Y))).prod := by
      with_unfolding_all rfl
    rw [e1] at hle
    have : ∀ x < 2, ∀ y < 2, (([7, 8] : List Nat).map (fun p => Ex.phi p (fun _ => 1))).prod ≤
        (([7, 8] : List Nat).map (fun p => Ex.phi p (fun v => if v = Ex.X then x else y))).prod → y = 1 := by
      decide +kernel
    exact this _ h1 _ h2 hle
  · have : (match State.getMAP Ex.rev id Ex.Y 1 (Ex.after [.add 7, .add 8]) with
        | .ok _ l => some l
        | _ => none) = some 0 := by decide +kernel
    cases h : State.getMAP Ex.rev id Ex.Y 1 (Ex.after [.add 7, .add 8]) with
    | ok s' l => rw [h] at this; exact ⟨s', by rw [Option.some.inj this]⟩
    | throw _ => rw [h] at this; cases this
    | ub => rw [h] at this; cases this

/-- C26 is violated when the most probable assignment is not unique: Y and Z are joined by a factor which prefers
different values, and `getHiddenSetMAP` gives 0 to both, because each variable takes the smallest of its best values. -/
theorem C26_ties_violated : ∃ s : State (Ext ℚ), Reach (fun s op => Prudent s op ∧ Steady s op) s ∧
    s.Images Ex.phi ∧ s.Symmetric Ex.phi ∧ s.Floored Ex.phi ∧ (∀ v, v ∈ s.vars ↔ v = Ex.Y ∨ v = Ex.Z) ∧
    (∀ a, s.MostProbable (s.weight Ex.phi) a → a Ex.Y ≠ a Ex.Z) ∧
    ∃ s', State.getHiddenSetMAP Ex.rev id 1 s = .ok s' [0, 0] := by
  have hv : (Ex.after [.add 2]).vars = [Ex.Y, Ex.Z] := by decide +kernel
  have hh : (Ex.after [.add 2]).heap = Ex.heapXYZ := by with_unfolding_all rfl
  have hf : (Ex.after [.add 2]).factors = [2] := by decide +kernel
  have he : (Ex.after [.add 2]).evidences = [] := by decide +kernel
  have ha : (Ex.after [.add 2]).Agrees (fun v => if v = Ex.Y then 1 else 0) := by
    constructor
    · intro v h
      rw [hv] at h
      simp only [List.mem_cons, List.not_mem_nil, or_false] at h
      rcases h with rfl | rfl <;> decide
    · intro v k h; rw [he] at h; simp at h
  refine ⟨Ex.after [.add 2], Ex.after_steady _ (by decide +kernel),
    Ex.phi_images hh (by rw [hv, hf]; decide +kernel), Ex.phi_symmetric hh (by rw [hf]; decide +kernel),
    Ex.phi_floored hh (by rw [hf]; decide +kernel), fun v => by rw [hv]; simp, ?_, ?_⟩
  · intro b hb
    have hle := hb.2 _ ha
    have h1 : b Ex.Y < 2 := hb.1.1 Ex.Y (by rw [hv]; simp)
    have h2 : b Ex.Z < 2 := hb.1.1 Ex.Z (by rw [hv]; simp)
    unfold State.weight at hle
    rw [hf] at hle
    have e1 : (([2] : List Nat).map (fun p => Ex.phi p b)).prod =
        (([2] : List Nat).map (fun p => Ex.phi p (fun v => if v = Ex.Y then b Ex.Y else b Ex.Z))).prod := by
      with_unfolding_all rfl
    rw [e1] at hle
    have : ∀ y < 2, ∀ z < 2, (([2] : List Nat).map (fun p => Ex.phi p (fun v => if v = Ex.Y then 1 else 0))).prod ≤
        (([2] : List Nat).map (fun p => Ex.phi p (fun v => if v = Ex.Y then y else z))).prod → y ≠ z := by
      decide +kernel
    exact this _ h1 _ h2 hle
  · have : (match State.getHiddenSetMAP Ex.rev id 1 (Ex.after [.add 2]) with
        | .ok _ l => some l
        | _ => none) = some [0, 0] := by decide +kernel
    cases h : State.getHiddenSetMAP Ex.rev id 1 (Ex.after [.add 2]) with
    | ok s' l => rw [h] at this; exact ⟨s', by rw [Option.some.inj this]⟩
    | throw _ => rw [h] at this; cases this
    | ub => rw [h] at this; cases this

end EFG
