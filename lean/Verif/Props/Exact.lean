import Mathlib.Data.List.Sections
import Verif.Lemmas.Conditional
import Verif.Props.Propagation
/-
C25: the marginals on trees.
-/

namespace EFG
variable {K : Type} [Field K] [LinearOrder K] [IsStrictOrderedRing K] [FloatParams K]

/-- C25, as the library behaves: after any execution of prudent and steady operations, on the factors `φ`,
the marginal of a hidden variable whose cluster has no cycles is the conditional distribution given the
evidences of the product of the factors, where the factors which join two hidden variables are read with
the two values exchanged. -/
theorem C25_transposed_partial {s : State (Ext K)} (h : Reach (fun s op => Prudent s op ∧ Steady s op) s)
    {ord : List Var → List Var} (hord : ∀ l, (ord l).Perm l) {sched : Sched} (hsched : ∀ l, (sched l).Perm l)
    {n : Nat} (hn : 1 ≤ n) {φ : Nat → Assign → K} (hφ : s.Images φ) {v w : Var} (hv : s.Hidden v)
    (hw : v.eqv w = true) (ht : s.TreeAt v) {l : List Var} (hl : s.Others v l) {e : Assign} (he : s.Agrees e)
    (hpos : ∃ i < v.size, State.mass (s.readWeight φ) l e v i ≠ 0) :
    ∃ s', State.getMarginal ord sched w n s =
      .ok s' ((State.distribution (s.readWeight φ) l e v).map Ext.val) := by
  unfold State.getMarginal
  rw [State.marginalQuery_eq]
  obtain ⟨s', x, h1, h2⟩ := State.asks_faithful hord .sum hsched (reach_sound h) hn (r := State.readMarginal ord w)
    (P := fun x => x = (State.distribution (s.readWeight φ) l e v).map Ext.val) (by
      intro s' p ha hH hF hp hk
      have hq := ha.toQuiet
      have hv' := State.hidden_iff.mp ((hq.hiddenS v).mpr hv)
      have hr : s'.readWeight φ = s.readWeight φ := funext (fun a => hq.readWeightS a)
      refine ⟨_, ?_, rfl⟩
      rw [hH.inv.readMarginal_hidden hv' hw, ← hr]
      exact State.belief_sum hord hH hF hp hk (hq.imagesS hφ) hv' (hq.treeAt ht) (hq.othersS hl) (hq.agreesS he)
        (by rw [hr]; exact hpos))
  exact ⟨s', by rw [h1, h2]⟩

/-- C25: after any execution of prudent and steady operations, on the factors `φ`, the marginal of a hidden
variable whose cluster has no cycles is its conditional distribution given the evidences: the product of all
the factors, with the observed variables fixed, summed over the other hidden variables and normalised.

Missing: the factors which join two hidden variables and are not symmetric (`C25_violated`), the executions
which change a factor of the model whose images were already used, and the models for which all the assignments have
weight zero. -/
theorem C25_marginals_exact_partial {s : State (Ext K)} (h : Reach (fun s op => Prudent s op ∧ Steady s op) s)
    {ord : List Var → List Var} (hord : ∀ l, (ord l).Perm l) {sched : Sched} (hsched : ∀ l, (sched l).Perm l)
    {n : Nat} (hn : 1 ≤ n) {φ : Nat → Assign → K} (hφ : s.Images φ) (hsym : s.Symmetric φ) {v w : Var}
    (hv : s.Hidden v) (hw : v.eqv w = true) (ht : s.TreeAt v) {l : List Var} (hl : s.Others v l) {e : Assign}
    (he : s.Agrees e) (hpos : ∃ i < v.size, State.mass (s.weight φ) l e v i ≠ 0) :
    ∃ s', State.getMarginal ord sched w n s =
      .ok s' ((State.distribution (s.weight φ) l e v).map Ext.val) := by
  have hs := (reach_sound h).healthy.inv.toCore
  have hm : ∀ i < v.size, State.mass (s.readWeight φ) l e v i = State.mass (s.weight φ) l e v i :=
    fun i hi => State.mass_symmetric hs hsym (State.hidden_iff.mp hv) hl he hi
  rw [← State.distribution_congr hm]
  refine C25_transposed_partial h hord hsched hn hφ hv hw ht hl he ?_
  obtain ⟨i, hi, hne⟩ := hpos
  exact ⟨i, hi, by rw [hm i hi]; exact hne⟩

/-! ### Examples -/

namespace Ex

section
variable [Arith (Ext ℚ)]

/-- The value of a function of the examples. -/
def valAt (f : Fn (Ext ℚ)) (c : List Nat) : Option ℚ :=
  match f.findTransformed c with
  | .ok (.val x) => some x
  | _ => none

/-- The images of the functions of the examples. -/
def phi (p : Nat) (a : Assign) : ℚ :=
  match heapXYZ[p]? with
  | some f => (valAt f (f.vars.group.map a)).getD 0
  | none => 0

/-- All the images are nonnegative numbers. -/
def okImages (vars : List Var) (p : Nat) : Bool :=
  match heapXYZ[p]? with
  | some f => f.vars.group.all vars.contains && (f.vars.group.map (fun v => List.range v.size)).sections.all (fun c =>
      match valAt f c with
      | some x => decide (0 ≤ x)
      | none => false)
  | none => false

/-- Exchanging the values changes nothing. -/
def okSymmetric (p : Nat) : Bool :=
  match heapXYZ[p]? with
  | some f =>
    match f.vars.group with
    | [u, w] => (List.range u.size).all (fun i => (List.range w.size).all (fun j =>
        decide (valAt f [i, j] = valAt f [j, i])))
    | _ => true
  | none => true

theorem phi_images {s : State (Ext ℚ)} (hh : s.heap = heapXYZ) (hf : s.factors.all (okImages s.vars) = true) :
    s.Images phi := by
  intro p hp a ha
  have := (List.all_eq_true.mp hf) p hp
  unfold okImages at this
  unfold phi
  rw [hh]
  cases hp : heapXYZ[p]? with
  | none => rw [hp] at this; cases this
  | some f =>
    rw [hp] at this
    simp only [Bool.and_eq_true, List.all_eq_true] at this
    obtain ⟨h1, h2⟩ := this
    have h3 := h2 (f.vars.group.map a) (by
      rw [List.mem_sections, List.forall₂_map_left_iff, List.forall₂_map_right_iff]
      exact List.forall₂_same.mpr (fun v hv => by
        simpa using ha v (by simpa using h1 v hv)))
    refine ⟨f, rfl, ?_⟩
    simp only
    unfold valAt at h3 ⊢
    cases hr : f.findTransformed (f.vars.group.map a) with
    | ok x =>
      rw [hr] at h3
      cases x with
      | val x => exact ⟨rfl, by simpa using h3⟩
      | nan => cases h3
    | throw => rw [hr] at h3; cases h3
    | ub => rw [hr] at h3; cases h3

theorem phi_symmetric {s : State (Ext ℚ)} (hh : s.heap = heapXYZ) (hf : s.factors.all okSymmetric = true) :
    s.Symmetric phi := by
  rintro p u w ⟨hp, f, hpf, hg⟩ hu hw a ha
  have := (List.all_eq_true.mp hf) p hp
  unfold okSymmetric at this
  unfold phi
  rw [hh] at hpf
  rw [hpf] at this ⊢
  simp only [hg, List.all_eq_true, List.mem_range, decide_eq_true_eq, List.map_cons, List.map_nil] at this ⊢
  rw [this (a u) (ha u hu.1) (a w) (ha w hw.1)]
  by_cases h : w = u
  · subst h; simp [Assign.exchange]
  · simp [Assign.exchange, h]

/-- No image of a factor of two variables is below the smallest positive normal number. -/
def okFloor (p : Nat) : Bool :=
  match heapXYZ[p]? with
  | some f =>
    match f.vars.group with
    | [u, w] => (List.range u.size).all (fun i => (List.range w.size).all (fun j =>
        decide (ratParams.minK ≤ (valAt f [i, j]).getD 0)))
    | _ => true
  | none => true

theorem phi_floored {s : State (Ext ℚ)} (hh : s.heap = heapXYZ) (hf : s.factors.all okFloor = true) :
    s.Floored phi := by
  rintro p u w ⟨hp, f, hpf, hg⟩ hu hw a ha
  have := (List.all_eq_true.mp hf) p hp
  unfold okFloor at this
  unfold phi
  rw [hh] at hpf
  rw [hpf] at this ⊢
  simp only [hg, List.all_eq_true, List.mem_range, decide_eq_true_eq, List.map_cons, List.map_nil] at this ⊢
  exact this (a u) (ha u hu.1) (a w) (ha w hw.1)

end

/-- The assignment of zeros. -/
def zeros : Assign := fun _ => 0

theorem zeros_agrees {s : State (Ext ℚ)} (h : s.vars.all (fun v => decide (0 < v.size)) = true)
    (he : s.evidences.all (fun e => decide (e.2 = 0)) = true) : s.Agrees zeros := by
  constructor
  · intro v hv; simpa [zeros] using (List.all_eq_true.mp h) v hv
  · intro v k hk; have := (List.all_eq_true.mp he) _ hk; simp [zeros] at this ⊢; exact this.symm

/-- The hidden variables, computed. -/
theorem others_of {s : State (Ext ℚ)} {v : Var} {l : List Var} (h : (s.vars.filter (fun w =>
    !(s.evidences.any (fun e => decide (e.1 = w))) && decide (w ≠ v))) = l) (hn : l.Nodup) : s.Others v l := by
  refine ⟨hn, fun w => ?_⟩
  rw [← h, List.mem_filter]
  simp only [State.Hidden, State.Observes]
  simp
  constructor
  · rintro ⟨h1, h2, h3⟩
    exact ⟨⟨h1, fun k hk => h2 w k hk rfl⟩, h3⟩
  · rintro ⟨⟨h1, h2⟩, h3⟩
    refine ⟨h1, ?_, h3⟩
    rintro a b hab rfl
    exact h2 b hab

end Ex

/-- The path X - Y - Z: the marginal of X is 27/75 and 48/75. -/
example : ∃ s', State.getMarginal Ex.rev List.reverse Ex.X 2 (Ex.after Ex.path) =
    .ok s' [.val (9 / 25), .val (16 / 25)] := by
  have hv : (Ex.after Ex.path).vars = [Ex.X, Ex.Y, Ex.Z] := by decide +kernel
  have hh : (Ex.after Ex.path).heap = Ex.heapXYZ := rfl
  have hf : (Ex.after Ex.path).factors = [0, 1, 2] := by decide +kernel
  have he : (Ex.after Ex.path).evidences = [] := by decide +kernel
  obtain ⟨s', h⟩ := C25_marginals_exact_partial Ex.path_reach (ord := Ex.rev) Ex.rev_perm (sched := List.reverse)
    (fun l => List.reverse_perm l) (n := 2) (by omega) (φ := Ex.phi)
    (Ex.phi_images hh (by rw [hv, hf]; decide +kernel)) (Ex.phi_symmetric hh (by rw [hf]; decide +kernel))
    (v := Ex.X) (w := Ex.X) ⟨by rw [hv]; simp, by rw [State.Observes, he]; simp⟩ (Var.eqv_refl _)
    (by
      intro u hu
      refine Ex.path_noCycle u ?_
      have : u ∈ (Ex.after Ex.path).vars := by
        cases hu with
        | refl => rw [hv]; simp
        | tail _ h => exact h.2.1.1
      rw [hv] at this
      exact this)
    (l := [Ex.Y, Ex.Z]) (Ex.others_of (by rw [hv, he]; decide) (by decide)) (e := Ex.zeros)
    (Ex.zeros_agrees (by rw [hv]; decide) (by rw [he]; decide))
    ⟨0, by decide, by unfold State.weight; rw [hf]; decide +kernel⟩
  have hd : State.distribution ((Ex.after Ex.path).weight Ex.phi) [Ex.Y, Ex.Z] Ex.zeros Ex.X = [9 / 25, 16 / 25] := by
    unfold State.weight
    rw [hf]
    decide +kernel
  rw [hd] at h
  exact ⟨s', h⟩

/-- C25 is violated by a factor which is not symmetric: with only the factor of X and Y whose images are 1,
2, 3, 4, the marginal of X is 3/10, 7/10, and the library returns 2/5, 3/5. -/
theorem C25_violated : ∃ s : State (Ext ℚ), Reach (fun s op => Prudent s op ∧ Steady s op) s ∧
    s.Images Ex.phi ∧ s.Others Ex.X [Ex.Y] ∧ s.Agrees Ex.zeros ∧
    State.distribution (s.weight Ex.phi) [Ex.Y] Ex.zeros Ex.X = [3 / 10, 7 / 10] ∧
    ∃ s', State.getMarginal Ex.rev id Ex.X 1 s = .ok s' [.val (2 / 5), .val (3 / 5)] := by
  have hv : (Ex.after [.add 4]).vars = [Ex.X, Ex.Y] := by decide +kernel
  have hh : (Ex.after [.add 4]).heap = Ex.heapXYZ := rfl
  have hf : (Ex.after [.add 4]).factors = [4] := by decide +kernel
  have he : (Ex.after [.add 4]).evidences = [] := by decide +kernel
  refine ⟨Ex.after [.add 4], Ex.after_steady _ (by decide +kernel),
    Ex.phi_images hh (by rw [hv, hf]; decide +kernel), Ex.others_of (by rw [hv, he]; decide) (by decide),
    Ex.zeros_agrees (by rw [hv]; decide) (by rw [he]; decide), ?_, ?_⟩
  · unfold State.weight
    rw [hf]
    decide +kernel
  · have : (match State.getMarginal Ex.rev id Ex.X 1 (Ex.after [.add 4]) with
        | .ok _ l => some l
        | _ => none) = some [.val (2 / 5), .val (3 / 5)] := by decide +kernel
    cases h : State.getMarginal Ex.rev id Ex.X 1 (Ex.after [.add 4]) with
    | ok s' l => rw [h] at this; exact ⟨s', by rw [Option.some.inj this]⟩
    | throw _ => rw [h] at this; cases this
    | ub => rw [h] at this; cases this

end EFG
