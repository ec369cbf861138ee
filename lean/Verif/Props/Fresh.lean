import Verif.Lemmas.Alike
import Verif.Props.ExactMap
import Verif.Props.TrainExamples
/-
C28: the answers depend on the current factors and evidences only.
-/

namespace EFG
variable {K : Type} [Field K] [LinearOrder K] [IsStrictOrderedRing K] [FloatParams K]

/-- C28: two models with the same factors, weights and evidences, reached by any two executions of prudent
and steady operations, return the same marginal of a variable whose cluster has no cycles. One of the two
can be a model which was just built.

Missing: the executions which change a factor or a weight while something computed from it is cached
(`C28_violated`), the clusters with cycles, for which the answer of the library depends on the order in which
the factors were inserted (`C28_cycles_violated`), and the models for which all the assignments have weight zero. -/
theorem C28_same_marginal_partial {s t : State (Ext K)} (hs : Reach (fun s op => Prudent s op ∧ Steady s op) s)
    (ht : Reach (fun s op => Prudent s op ∧ Steady s op) t) {π : Nat → Nat} (hA : State.Alike π s t)
    {ord ord' : List Var → List Var} (hord : ∀ l, (ord l).Perm l) (hord' : ∀ l, (ord' l).Perm l)
    {sched sched' : Sched} (hsched : ∀ l, (sched l).Perm l) (hsched' : ∀ l, (sched' l).Perm l)
    {n n' : Nat} (hn : 1 ≤ n) (hn' : 1 ≤ n') {φ : Nat → Assign → K} (hφ : s.Images φ) {v w : Var} (hv : s.Hidden v)
    (hw : v.eqv w = true) (hno : s.TreeAt v) (hpos : ∃ e, s.Agrees e ∧ s.readWeight φ e ≠ 0) :
    ∃ s' t' ps, State.getMarginal ord sched w n s = .ok s' ps ∧ State.getMarginal ord' sched' w n' t = .ok t' ps := by
  have hH := (reach_sound hs).healthy
  have hv' := State.hidden_iff.mp hv
  obtain ⟨e, he, hne⟩ := hpos
  have hl := State.others_erase hH.inv.toCore v
  obtain ⟨ψ, hψ, hψφ⟩ := hA.images hφ
  have hm : ∀ i < v.size, State.mass (t.readWeight ψ) (s.hid.erase v) e v i =
      State.mass (s.readWeight φ) (s.hid.erase v) e v i := fun i hi => hA.mass hH hψφ hv' hl he hi
  have hpos : ∃ i < v.size, State.mass (s.readWeight φ) (s.hid.erase v) e v i ≠ 0 := by
    refine ⟨e v, he.1 v hv.1, ?_⟩
    exact State.mass_ne_zero hH hφ hv' hl he hne
  obtain ⟨s', h1⟩ := C25_transposed_partial hs hord hsched hn hφ hv hw hno hl he hpos
  obtain ⟨t', h2⟩ := C25_transposed_partial ht hord' hsched' hn' hψ ((hA.hidden v).mpr hv) hw (hA.treeAt hno)
    (hA.others hl) ((hA.agrees e).mpr he) (by
      obtain ⟨i, hi, h⟩ := hpos
      exact ⟨i, hi, by rw [hm i hi]; exact h⟩)
  rw [State.distribution_congr hm] at h2
  exact ⟨s', t', _, h1, h2⟩

/-- C28, for the MAP estimates. The additional condition is the one of `C26_map_exact_partial`. -/
theorem C28_same_map_partial {s t : State (Ext K)} (hs : Reach (fun s op => Prudent s op ∧ Steady s op) s)
    (ht : Reach (fun s op => Prudent s op ∧ Steady s op) t) {π : Nat → Nat} (hA : State.Alike π s t)
    {ord ord' : List Var → List Var} (hord : ∀ l, (ord l).Perm l) (hord' : ∀ l, (ord' l).Perm l)
    {sched sched' : Sched} (hsched : ∀ l, (sched l).Perm l) (hsched' : ∀ l, (sched' l).Perm l)
    {n n' : Nat} (hn : 1 ≤ n) (hn' : 1 ≤ n') {φ : Nat → Assign → K} (hφ : s.Images φ) (hfl : s.Floored φ) {v w : Var}
    (hv : s.Hidden v) (hw : v.eqv w = true) (hno : s.TreeAt v) (hpos : ∃ e, s.Agrees e ∧ s.readWeight φ e ≠ 0) :
    ∃ s' t' k, State.getMAP ord sched w n s = .ok s' k ∧ State.getMAP ord' sched' w n' t = .ok t' k := by
  have hH := (reach_sound hs).healthy
  obtain ⟨ψ, hψ, hψφ⟩ := hA.images hφ
  have hrw : ∀ b, s.Agrees b → t.readWeight ψ b = s.readWeight φ b := fun b hb => hA.readWeight hH hψφ hb.1
  obtain ⟨e, he, hne⟩ := hpos
  obtain ⟨s', k, h1, N, h2, h3⟩ := State.map_value (reach_sound hs) hord hsched hn hφ hfl hv hw hno ⟨e, he, hne⟩
  obtain ⟨t', k', g1, N', g2, g3⟩ := State.map_value (reach_sound ht) hord' hsched' hn' hψ (hA.floored hψφ hfl)
    ((hA.hidden v).mpr hv) hw (hA.treeAt hno) ⟨e, (hA.agrees e).mpr he, by rw [hrw e he]; exact hne⟩
  have : ∀ i < v.size, N' i = N i := by
    intro i hi
    refine (g3 i hi).unique ?_
    have e : {x | ∃ b, t.Agrees b ∧ b v = i ∧ x = t.readWeight ψ b} =
        {x | ∃ b, s.Agrees b ∧ b v = i ∧ x = s.readWeight φ b} := by
      ext x
      simp only [Set.mem_setOf_eq, hA.agrees]
      refine exists_congr (fun b => ?_)
      constructor
      · rintro ⟨a1, a2, a3⟩; exact ⟨a1, a2, by rw [a3, hrw b a1]⟩
      · rintro ⟨a1, a2, a3⟩; exact ⟨a1, a2, by rw [a3, hrw b a1]⟩
    rw [e]
    exact h3 i hi
  have e1 : (List.range v.size).map N' = (List.range v.size).map N :=
    List.map_congr_left (fun i hi => this i (by simpa using hi))
  have e2 : (List.range v.size).map (fun i => N' i / ((List.range v.size).map N').sum) =
      (List.range v.size).map (fun i => N i / ((List.range v.size).map N).sum) := by
    rw [e1]
    exact List.map_congr_left (fun i hi => by rw [this i (by simpa using hi)])
  rw [e2, h2] at g2
  cases g2
  exact ⟨s', t', k, h1, g1⟩

namespace Ex

/-- The path X - Y - Z built in another order, with queries in between. -/
def path' : List Act := [.add 2, .askMarginal Y, .add 1, .askMAP Z, .add 0, .askMarginal Z]

theorem path_alike : State.Alike id (after path) (after path') := by
  have hv : (after path').vars = [Y, Z, X] := by decide +kernel
  have hv' : (after path).vars = [X, Y, Z] := by decide +kernel
  have hh : (after path').heap = heapXYZ := by decide +kernel
  have hh' : (after path).heap = heapXYZ := rfl
  have hf : (after path').factors = [2, 1, 0] := by decide +kernel
  have hf' : (after path).factors = [0, 1, 2] := by decide +kernel
  have he : (after path').evidences = [] := by decide +kernel
  have he' : (after path).evidences = [] := by decide +kernel
  refine ⟨by rw [hf, hf']; decide, fun p _ => by rw [hh, hh']; rfl, fun v => ?_, by rw [he, he']; simp⟩
  rw [hv, hv']
  exact (show [Y, Z, X].Perm [X, Y, Z] by decide).mem_iff

theorem path_treeAt : (after path).TreeAt X := by
  have hv : (after path).vars = [X, Y, Z] := by decide +kernel
  intro u hu
  refine path_noCycle u ?_
  have : u ∈ (after path).vars := by
    cases hu with
    | refl => rw [hv]; simp
    | tail _ h => exact h.2.1.1
  rw [hv] at this
  exact this

theorem path_hidden : (after path).Hidden X :=
  ⟨by rw [show (after path).vars = [X, Y, Z] by decide +kernel]; simp, by
    rw [State.Observes, show (after path).evidences = [] by decide +kernel]; simp⟩

theorem path_weight : ∃ e, (after path).Agrees e ∧ (after path).readWeight phi e ≠ 0 := by
  have hv : (after path).vars = [X, Y, Z] := by decide +kernel
  have hh : (after path).heap = heapXYZ := rfl
  have hf : (after path).factors = [0, 1, 2] := by decide +kernel
  have he : (after path).evidences = [] := by decide +kernel
  have hz : (after path).Agrees zeros := zeros_agrees (by rw [hv]; decide) (by rw [he]; decide)
  refine ⟨zeros, hz, ?_⟩
  rw [State.readWeight_symmetric (reach_sound path_reach).healthy.inv.toCore
    (phi_symmetric hh (by rw [hf]; decide +kernel)) hz.1]
  unfold State.weight; rw [hf]; decide +kernel

end Ex

/-- The path X - Y - Z just built, and built in another order with queries in between. -/
example : ∃ (s' t' : State (Ext ℚ)) (ps : List (Ext ℚ)),
    State.getMarginal id id Ex.X 1 (Ex.after Ex.path) = .ok s' ps ∧
    State.getMarginal Ex.rev List.reverse Ex.X 2 (Ex.after Ex.path') = .ok t' ps :=
  C28_same_marginal_partial Ex.path_reach (Ex.after_steady _ (by decide +kernel)) Ex.path_alike (fun l => .refl l)
    Ex.rev_perm (fun l => .refl l) (fun l => List.reverse_perm l) (by omega) (by omega) (φ := Ex.phi)
    (Ex.phi_images rfl (by decide +kernel)) Ex.path_hidden (Var.eqv_refl _) Ex.path_treeAt Ex.path_weight

example : ∃ (s' t' : State (Ext ℚ)) (k : Nat), State.getMAP id id Ex.X 1 (Ex.after Ex.path) = .ok s' k ∧
    State.getMAP Ex.rev List.reverse Ex.X 2 (Ex.after Ex.path') = .ok t' k :=
  C28_same_map_partial Ex.path_reach (Ex.after_steady _ (by decide +kernel)) Ex.path_alike (fun l => .refl l)
    Ex.rev_perm (fun l => .refl l) (fun l => List.reverse_perm l) (by omega) (by omega) (φ := Ex.phi)
    (Ex.phi_images rfl (by decide +kernel)) (Ex.phi_floored rfl (by decide +kernel)) Ex.path_hidden (Var.eqv_refl _)
    Ex.path_treeAt Ex.path_weight

namespace Ex

/-- A model with one tunable factor of X, asked before its weight is changed from 1 to 2. -/
def reweighed : List TAct := [.tune 0 none, .askMarginal X, .weights [2]]

/-- The same factor with the weight 2 in a new model. -/
def rebuilt : List TAct := [.tune 6 none]

end Ex

/-- C28 is violated by `setWeights`, which does not drop the product of the unary factors cached by the
variables: after a query and the change of the weight from 1 to 2 the library still returns the answer for
the weight 1, while a new model with the same factor returns the right one. -/
theorem C28_violated : ∃ (s t : State (Ext ℚ)) (π : Nat → Nat), Reach Prudent s ∧
    Reach (fun s op => Prudent s op ∧ Steady s op) t ∧ State.Alike π s t ∧
    (∃ s', State.getMarginal Ex.rev id Ex.X 1 s = .ok s' [.val (1 / 3), .val (2 / 3)]) ∧
    ∃ t', State.getMarginal Ex.rev id Ex.X 1 t = .ok t' [.val (1 / 6), .val (5 / 6)] := by
  refine ⟨Ex.afterT Ex.reweighed, Ex.afterT Ex.rebuilt, fun _ => 6, ?_, ?_, ⟨?_, ?_, ?_, ?_⟩, ?_, ?_⟩
  · exact Ex.afterT_prudent _ (by decide +kernel)
  · exact Ex.afterT_steady _ (by decide +kernel)
  · decide +kernel
  · have hf : (Ex.afterT Ex.reweighed).factors = [0] := by decide +kernel
    intro p hp
    rw [hf, List.mem_singleton] at hp
    subst hp
    decide +kernel
  · have h1 : (Ex.afterT Ex.reweighed).vars = [Ex.X] := by decide +kernel
    have h2 : (Ex.afterT Ex.rebuilt).vars = [Ex.X] := by decide +kernel
    rw [h1, h2]
    exact fun _ => Iff.rfl
  · have h1 : (Ex.afterT Ex.reweighed).evidences = [] := by decide +kernel
    have h2 : (Ex.afterT Ex.rebuilt).evidences = [] := by decide +kernel
    rw [h1, h2]
    exact fun _ _ => Iff.rfl
  · exact Ex.of_answer (by decide +kernel)
  · exact Ex.of_answer (by decide +kernel)

namespace Ex

/-- The triangle X, Y, Z, with one iteration allowed, whose factors are inserted in the reverse order. -/
def triangle' : List Act := [.iterations 1, .add 3, .add 2, .add 1, .add 0]

end Ex

/-- C28 is violated by the clusters with cycles: two models just built with the same factors, the same allowed
number of iterations and one thread, which only differ in the order of the insertions, return two different
marginals of X. No query came before and no factor was changed. -/
theorem C28_cycles_violated : ∃ (s t : State (Ext ℚ)), Reach (fun s op => Prudent s op ∧ Steady s op) s ∧
    Reach (fun s op => Prudent s op ∧ Steady s op) t ∧ State.Alike id s t ∧ s.maxIter = t.maxIter ∧
    s.last = none ∧ t.last = none ∧
    (∃ s', State.getMarginal id id Ex.X 1 s = .ok s' [.val (207 / 559), .val (352 / 559)]) ∧
    ∃ t', State.getMarginal id id Ex.X 1 t = .ok t' [.val (9 / 25), .val (16 / 25)] := by
  refine ⟨Ex.after Ex.triangle, Ex.after Ex.triangle', Ex.triangle_reach, Ex.after_steady _ (by decide +kernel),
    ⟨?_, ?_, ?_, ?_⟩, by decide +kernel,
    Option.isNone_iff_eq_none.mp (by decide +kernel), Option.isNone_iff_eq_none.mp (by decide +kernel), ?_, ?_⟩
  · decide +kernel
  · have h1 : (Ex.after Ex.triangle).heap = Ex.heapXYZ := rfl
    have h2 : (Ex.after Ex.triangle').heap = Ex.heapXYZ := rfl
    rw [h1, h2]
    exact fun _ _ => rfl
  · have h1 : (Ex.after Ex.triangle).vars = [Ex.X, Ex.Y, Ex.Z] := by decide +kernel
    have h2 : (Ex.after Ex.triangle').vars = [Ex.X, Ex.Z, Ex.Y] := by decide +kernel
    rw [h1, h2]
    exact fun v => (show [Ex.X, Ex.Z, Ex.Y].Perm [Ex.X, Ex.Y, Ex.Z] by decide).mem_iff
  · have h1 : (Ex.after Ex.triangle).evidences = [] := by decide +kernel
    have h2 : (Ex.after Ex.triangle').evidences = [] := by decide +kernel
    rw [h1, h2]
    exact fun _ _ => Iff.rfl
  · exact Ex.of_answer (by decide +kernel)
  · exact Ex.of_answer (by decide +kernel)

end EFG
