import Verif.Spec.Changed
import Verif.Props.Exact
import Verif.Props.Trainer
/-
C70: the changes of the images of a factor which was already inserted.
-/

set_option linter.unusedSectionVars false

namespace EFG

section
variable {F : Type} [Arith F]

/-- The function behind a pointer is the only thing which a change through the pointer touches. -/
theorem mutate_heap {p : Nat} {o : Heap.Op F} {s s' : State F}
    (h : (GOp.mutate p o).exec s = .ok s' () ∨ (GOp.mutate p o).exec s = .throw s') : ∃ x, s' = { s with heap := x } := by
  change GOp.onHeap (Heap.mutate p o) s = .ok s' () ∨ GOp.onHeap (Heap.mutate p o) s = .throw s' at h
  unfold GOp.onHeap at h
  cases hm : Heap.mutate p o s.heap with
  | ok x _ => rw [hm] at h; rcases h with h | h <;> cases h; exact ⟨x, rfl⟩
  | throw x => rw [hm] at h; rcases h with h | h <;> cases h; exact ⟨x, rfl⟩
  | ub => rw [hm] at h; rcases h with h | h <;> cases h

/-- C70, as the library behaves: whatever is done to a factor after a marginal was asked, also if it is one of the
factors of the model, the same marginal asked again is the same as before the change, on any arithmetic. -/
theorem C70_unnoticed_marginal {s : State F} (h : Reach Prudent s) {ord : List Var → List Var}
    (hord : ∀ l, (ord l).Perm l) {sched sched' : Sched} (hsched : ∀ l, (sched l).Perm l) {n m : Nat} (hn : 1 ≤ n)
    {v : Var} {s1 s2 : State F} {x : List F} (h1 : State.getMarginal ord sched v n s = .ok s1 x) {p : Nat} {o : Heap.Op F}
    (h2 : (GOp.mutate p o).exec s1 = .ok s2 () ∨ (GOp.mutate p o).exec s1 = .throw s2) :
    State.getMarginal ord sched' v m s2 = .ok s2 x := by
  obtain ⟨y, rfl⟩ := mutate_heap h2
  unfold State.getMarginal at h1 ⊢
  rw [State.marginalQuery_eq] at h1 ⊢
  obtain ⟨t, r, k1, _, _, k2, k3, _⟩ := State.checkPropagation_ok hord .sum hsched (reach_healthy h) hn
  unfold State.asks at h1 ⊢
  rw [k1] at h1
  simp only at h1
  have h3 : s1 = t ∧ State.readMarginal ord v t = .ok x := by
    unfold State.lift at h1
    cases hr : State.readMarginal ord v t with
    | ok z => rw [hr] at h1; cases h1; exact ⟨rfl, rfl⟩
    | throw => rw [hr] at h1; cases h1
    | ub => rw [hr] at h1; cases h1
  obtain ⟨rfl, h3⟩ := h3
  have h4 : State.checkPropagation ord sched' .sum m { s1 with heap := y } = .ok { s1 with heap := y } () := by
    unfold State.checkPropagation State.wouldNeedPropagation
    simp [k2, k3]
  have h5 : State.readMarginal ord v { s1 with heap := y } = State.readMarginal ord v s1 := rfl
  rw [h4]
  simp only
  unfold State.lift
  rw [h5, h3]

/-- C70, as the library behaves: the same for the most probable value. -/
theorem C70_unnoticed_map {s : State F} (h : Reach Prudent s) {ord : List Var → List Var}
    (hord : ∀ l, (ord l).Perm l) {sched sched' : Sched} (hsched : ∀ l, (sched l).Perm l) {n m : Nat} (hn : 1 ≤ n)
    {v : Var} {s1 s2 : State F} {x : Nat} (h1 : State.getMAP ord sched v n s = .ok s1 x) {p : Nat} {o : Heap.Op F}
    (h2 : (GOp.mutate p o).exec s1 = .ok s2 () ∨ (GOp.mutate p o).exec s1 = .throw s2) :
    State.getMAP ord sched' v m s2 = .ok s2 x := by
  obtain ⟨y, rfl⟩ := mutate_heap h2
  rw [State.getMAP_eq] at h1 ⊢
  obtain ⟨t, r, k1, _, _, k2, k3, _⟩ := State.checkPropagation_ok hord .map hsched (reach_healthy h) hn
  unfold State.asks at h1 ⊢
  rw [k1] at h1
  simp only at h1
  have h3 : s1 = t ∧ State.readMAP ord v t = .ok x := by
    unfold State.lift at h1
    cases hr : State.readMAP ord v t with
    | ok z => rw [hr] at h1; cases h1; exact ⟨rfl, rfl⟩
    | throw => rw [hr] at h1; cases h1
    | ub => rw [hr] at h1; cases h1
  obtain ⟨rfl, h3⟩ := h3
  have h4 : State.checkPropagation ord sched' .map m { s1 with heap := y } = .ok { s1 with heap := y } () := by
    unfold State.checkPropagation State.wouldNeedPropagation
    simp [k2, k3]
  have h5 : State.readMAP ord v { s1 with heap := y } = State.readMAP ord v s1 := rfl
  rw [h4]
  simp only
  unfold State.lift
  rw [h5, h3]

end

variable {K : Type} [Field K] [LinearOrder K] [IsStrictOrderedRing K] [FloatParams K]

/-- The images of a model one of whose factors is replaced by a function of the same variables. -/
theorem State.Images.replaced {s : State (Ext K)} {φ ψ : Nat → Assign → K} (hφ : s.Images φ) {p : Nat} {g : Fn (Ext K)}
    (hp : p < s.heap.length) (ho : ∀ q a, q ≠ p → ψ q a = φ q a) (hg : ∀ a, s.InRange a →
      g.findTransformed (g.vars.group.map a) = .ok (.val (ψ p a)) ∧ 0 ≤ ψ p a) :
    ({ s with heap := s.heap.set p g } : State (Ext K)).Images ψ := by
  intro q hq a ha
  show ∃ f, (s.heap.set p g)[q]? = some f ∧ _
  rw [List.getElem?_set]
  by_cases e : p = q
  · subst e
    rw [if_pos rfl, if_pos hp]
    exact ⟨g, rfl, hg a ha⟩
  · rw [if_neg e]
    obtain ⟨f, h1, h2⟩ := hφ q hq a ha
    refine ⟨f, h1, ?_⟩
    rw [ho q a (fun h => e h.symm)]
    exact h2

/-- The values of the variables of a factor of the model. -/
theorem State.factor_valid {s : State (Ext K)} (hs : Core s) {p : Nat} (hp : p ∈ s.factors) {f : Fn (Ext K)}
    (hf : s.heap[p]? = some f) {a : Assign} (ha : s.InRange a) : Valid f.sizes (f.vars.group.map a) := by
  refine (hs.heapWF f (List.mem_of_getElem? hf)).valid_map.2 (fun v hv => ha v ?_)
  obtain ⟨f', h1, h2⟩ := hs.reg p hp
  rw [hf] at h1
  cases h1
  rcases h2 with ⟨u, h3, h4⟩ | ⟨u, w, h3, h4⟩
  · rw [h3, List.mem_singleton] at hv
    rw [hv]
    exact (hs.unary u p h4).2.1
  · have := hs.net.memL u w p h4
    rw [h3] at hv
    simp only [List.mem_cons, List.not_mem_nil, or_false] at hv
    rcases hv with rfl | rfl
    · exact this.1
    · exact this.2.1

theorem State.ImageOf.transform {f g : Fn (Ext K)} {x y : K} (h : State.ImageOf f.weight x y) (hg : g.weight = f.weight) :
    g.transform (.val x) = .val y := by
  unfold Fn.transform
  rw [hg]
  generalize f.weight = w at h
  cases h with
  | plain => rfl
  | weighted => rfl

/-- Replacing a factor by a function of the same variables, while nothing computed from it is cached. -/
theorem State.replaced_step {s : State (Ext K)} (h : Reach (fun s op => Prudent s op ∧ Steady s op) s) {p : Nat}
    (hlast : s.last = none) (hu : s.Uncached p) {o : Heap.Op (Ext K)}
    (hw : ∀ w, o ≠ .setWeight w) (hr : ∀ l, o ≠ .replaceVariables l) {f g : Fn (Ext K)} (hf : s.heap[p]? = some f)
    (hg : Heap.applyOp o f = .ok g ()) (hgv : g.vars = f.vars) :
    (GOp.mutate p o).exec s = .ok { s with heap := s.heap.set p g } () ∧
      Reach (fun s op => Prudent s op ∧ Steady s op) { s with heap := s.heap.set p g } ∧
      ∀ q l, ({ s with heap := s.heap.set p g } : State (Ext K)).FactorOn q l ↔ s.FactorOn q l := by
  have h1 : (GOp.mutate p o).exec s = .ok { s with heap := s.heap.set p g } () := by
    show GOp.onHeap (Heap.mutate p o) s = _
    unfold GOp.onHeap Heap.mutate
    simp only [hf, hg]
  have hval : (GOp.mutate p o).Valid s := by
    refine ⟨trivial, ?_⟩
    cases o with
    | setWeight w => exact absurd rfl (hw w)
    | replaceVariables l => exact absurd rfl (hr l)
    | _ => trivial
  have hpr : Prudent s (.mutate p o) ∧ Steady s (.mutate p o) := by
    refine ⟨⟨fun _ _ h => h.elim, by simp [GOp.threads], fun _ _ h => by cases h⟩, ⟨?_, ?_, fun h => h.elim, fun _ _ _ _ h => h.elim⟩⟩
    · rintro _ _ ⟨⟩ _; exact ⟨hlast, hu⟩
    · rintro _ w' e'; cases e'; exact absurd rfl (hw w')
  have hpl := (List.getElem?_eq_some_iff.mp hf).1
  refine ⟨h1, Reach.ok h hval hpr h1, fun q l => ?_⟩
  show (q ∈ s.factors ∧ ∃ x, (s.heap.set p g)[q]? = some x ∧ x.vars.group = l) ↔ _
  rw [List.getElem?_set]
  unfold State.FactorOn
  by_cases e : p = q
  · subst e
    rw [if_pos rfl, if_pos hpl, hf]
    constructor
    · rintro ⟨a, x, ⟨⟩, b⟩; exact ⟨a, f, rfl, by rw [← hgv]; exact b⟩
    · rintro ⟨a, x, ⟨⟩, b⟩; exact ⟨a, g, rfl, by rw [hgv]; exact b⟩
  · rw [if_neg e]

/-- The marginals after such a replacement. -/
theorem State.replaced_marginal {s : State (Ext K)} (h : Reach (fun s op => Prudent s op ∧ Steady s op) s) {p : Nat}
    (hlast : s.last = none) (hu : s.Uncached p) {o : Heap.Op (Ext K)}
    (hw : ∀ w, o ≠ .setWeight w) (hr : ∀ l, o ≠ .replaceVariables l) {f g : Fn (Ext K)} (hf : s.heap[p]? = some f)
    (hg : Heap.applyOp o f = .ok g ()) (hgv : g.vars = f.vars)
    {ord : List Var → List Var} (hord : ∀ l, (ord l).Perm l) {sched : Sched} (hsched : ∀ l, (sched l).Perm l)
    {n : Nat} (hn : 1 ≤ n) {ψ : Nat → Assign → K}
    (hψ : ({ s with heap := s.heap.set p g } : State (Ext K)).Images ψ) (hsym : s.Symmetric ψ) {v w : Var}
    (hv : s.Hidden v) (hvw : v.eqv w = true) (ht : s.TreeAt v) {l : List Var} (hl : s.Others v l) {e : Assign}
    (he : s.Agrees e) (hpos : ∃ i < v.size, State.mass (s.weight ψ) l e v i ≠ 0) :
    ∃ s' s'', (GOp.mutate p o).exec s = .ok s' () ∧ State.getMarginal ord sched w n s' =
      .ok s'' ((State.distribution (s.weight ψ) l e v).map Ext.val) := by
  obtain ⟨h1, h2, hF⟩ := State.replaced_step h hlast hu hw hr hf hg hgv
  obtain ⟨s'', h3⟩ := C25_marginals_exact_partial h2 hord hsched hn hψ
    (fun q a b hq ha hb => hsym q a b ((hF q _).mp hq) ha hb) (v := v) (w := w) hv hvw
    (State.treeAt_congr (s := s) (t := { s with heap := s.heap.set p g }) rfl hF (fun _ => Iff.rfl) ht) (l := l) hl (e := e) he hpos
  exact ⟨_, s'', h1, h3⟩

/-- What `set` makes of a factor of the model. -/
theorem State.set_images {s : State (Ext K)} (hs : Inv s) {p : Nat} (hp : p ∈ s.factors) {f : Fn (Ext K)}
    (hf : s.heap[p]? = some f) {c : List Nat} (hc : Valid (f.vars.group.map Var.size) c) {x y : K} (hx : 0 ≤ x)
    (hy : State.ImageOf f.weight x y) (hy0 : 0 ≤ y) {φ : Nat → Assign → K} (hφ : s.Images φ) :
    ∃ g, Heap.applyOp (.set c (.val x)) f = .ok g () ∧ g.vars = f.vars ∧
      ({ s with heap := s.heap.set p g } : State (Ext K)).Images (State.overwrite φ p f.vars.group c y) := by
  have hwf := hs.heapWF f (List.mem_of_getElem? hf)
  rcases hwf.mutableSet c (.val x) with ⟨g, h1, h2, h3, h4, h5, h6, h7, h8⟩ | ⟨_, h2⟩
  · refine ⟨g, h1, h5, hφ.replaced (List.getElem?_eq_some_iff.mp hf).1 (fun q a hq => by simp [State.overwrite, hq])
      (fun a ha => ?_)⟩
    obtain ⟨f', k1, k2, k3⟩ := hφ p hp a ha
    rw [hf] at k1
    cases k1
    have hin := State.factor_valid hs.toCore hp hf ha
    rw [h5, h4.findTransformed (by rw [h6]; exact hin)]
    rw [hwf.findTransformed hin] at k2
    unfold Fn.timg at k2 ⊢
    rw [h8 _ hin]
    unfold State.overwrite
    by_cases e : f.vars.group.map a = c
    · simp only [e, if_pos, and_self]
      exact ⟨by rw [hy.transform h7], hy0⟩
    · simp only [e, if_false, and_false]
      refine ⟨?_, k3⟩
      rw [← k2]
      unfold Fn.transform
      rw [h7]
  · exact absurd ⟨by simp [hx], by rw [hwf.sizes']; exact hc⟩ h2

/-- What `clear` makes of a factor of the model. -/
theorem State.clear_images {s : State (Ext K)} (hs : Inv s) {p : Nat} (hp : p ∈ s.factors) {f : Fn (Ext K)}
    (hf : s.heap[p]? = some f) {y : K} (hy : State.ImageOf f.weight 0 y) (hy0 : 0 ≤ y) {φ : Nat → Assign → K} (hφ : s.Images φ) :
    ({ s with heap := s.heap.set p f.clear } : State (Ext K)).Images (State.erase φ p y) := by
  have hwf := hs.heapWF f (List.mem_of_getElem? hf)
  refine hφ.replaced (List.getElem?_eq_some_iff.mp hf).1 (fun q a hq => by simp [State.erase, hq]) (fun a ha => ?_)
  have hin := State.factor_valid hs.toCore hp hf ha
  have h1 := hwf.clear.findTransformed (comb := f.vars.group.map a) hin
  refine ⟨?_, by simpa [State.erase] using hy0⟩
  show f.clear.findTransformed (f.vars.group.map a) = _
  rw [h1]
  simp only [State.erase, if_true]
  unfold Fn.timg
  rw [show f.clear.img (f.vars.group.map a) = .val 0 from rfl, hy.transform (g := f.clear) rfl]

/-- C70: a factor of the model can be changed, as long as nothing computed from it is cached. The marginals are then
those of the product of the factors in which the changed one has the new image.

Missing: the changes made after a query, which are not noticed (`C70_unnoticed_marginal`, `C70_violated`), and what is
missing in `C25_marginals_exact_partial`. -/
theorem C70_set_partial {s : State (Ext K)} (h : Reach (fun s op => Prudent s op ∧ Steady s op) s) {p : Nat}
    (hp : p ∈ s.factors) (hlast : s.last = none) (hu : s.Uncached p) {f : Fn (Ext K)} (hf : s.heap[p]? = some f)
    {c : List Nat} (hc : Valid (f.vars.group.map Var.size) c) {x y : K} (hx : 0 ≤ x) (hy : State.ImageOf f.weight x y) (hy0 : 0 ≤ y)
    {ord : List Var → List Var} (hord : ∀ l, (ord l).Perm l) {sched : Sched} (hsched : ∀ l, (sched l).Perm l)
    {n : Nat} (hn : 1 ≤ n) {φ : Nat → Assign → K} (hφ : s.Images φ)
    (hsym : s.Symmetric (State.overwrite φ p f.vars.group c y)) {v w : Var}
    (hv : s.Hidden v) (hw : v.eqv w = true) (ht : s.TreeAt v) {l : List Var} (hl : s.Others v l) {e : Assign}
    (he : s.Agrees e) (hpos : ∃ i < v.size, State.mass (s.weight (State.overwrite φ p f.vars.group c y)) l e v i ≠ 0) :
    ∃ s' s'', (GOp.mutate p (.set c (.val x))).exec s = .ok s' () ∧ State.getMarginal ord sched w n s' =
      .ok s'' ((State.distribution (s.weight (State.overwrite φ p f.vars.group c y)) l e v).map Ext.val) := by
  obtain ⟨g, h1, h2, h3⟩ := State.set_images (reach_inv h) hp hf hc hx hy hy0 hφ
  exact State.replaced_marginal h hlast hu (o := .set c (.val x)) (by rintro _ ⟨⟩) (by rintro _ ⟨⟩) hf h1 h2 hord hsched hn h3
    hsym hv hw ht hl he hpos

/-- C70: `clear` makes all the images of the factor those of zero. Partial for the same reasons. -/
theorem C70_clear_partial {s : State (Ext K)} (h : Reach (fun s op => Prudent s op ∧ Steady s op) s) {p : Nat}
    (hp : p ∈ s.factors) (hlast : s.last = none) (hu : s.Uncached p) {f : Fn (Ext K)} (hf : s.heap[p]? = some f)
    {y : K} (hy : State.ImageOf f.weight 0 y) (hy0 : 0 ≤ y)
    {ord : List Var → List Var} (hord : ∀ l, (ord l).Perm l) {sched : Sched} (hsched : ∀ l, (sched l).Perm l)
    {n : Nat} (hn : 1 ≤ n) {φ : Nat → Assign → K} (hφ : s.Images φ)
    (hsym : s.Symmetric (State.erase φ p y)) {v w : Var}
    (hv : s.Hidden v) (hw : v.eqv w = true) (ht : s.TreeAt v) {l : List Var} (hl : s.Others v l) {e : Assign}
    (he : s.Agrees e) (hpos : ∃ i < v.size, State.mass (s.weight (State.erase φ p y)) l e v i ≠ 0) :
    ∃ s' s'', (GOp.mutate p .clear).exec s = .ok s' () ∧ State.getMarginal ord sched w n s' =
      .ok s'' ((State.distribution (s.weight (State.erase φ p y)) l e v).map Ext.val) := by
  exact State.replaced_marginal h hlast hu (o := .clear) (by rintro _ ⟨⟩) (by rintro _ ⟨⟩) hf (g := f.clear) rfl rfl
    hord hsched hn (State.clear_images (reach_inv h) hp hf hy hy0 hφ) hsym hv hw ht hl he hpos

/-! ### Examples -/

namespace Ex

/-- The images of the path X - Y - Z after the image of X = 0, Y = 0 was changed to 5. -/
def phiChanged : Nat → Assign → ℚ := State.overwrite phi 1 [X, Y] [0, 0] 5

/-- The path before any query: its second factor can be changed. -/
theorem path_before : (after path).vars = [X, Y, Z] ∧ (after path).heap = heapXYZ ∧ (after path).factors = [0, 1, 2] ∧
    (after path).evidences = [] ∧ (after path).last = none := by
  refine ⟨by decide +kernel, rfl, by decide +kernel, by decide +kernel, by decide +kernel⟩

theorem bin_group : (bin X Y 2 1 1 3).vars.group = [X, Y] := by decide +kernel

theorem bin_weight : (bin X Y 2 1 1 3).weight = none := by decide +kernel

/-- Exchanging the values of X and Y in the changed images changes nothing. -/
theorem phiChanged_symmetric {s : State (Ext ℚ)} (hh : s.heap = heapXYZ) (hf : s.factors.all okSymmetric = true) :
    s.Symmetric phiChanged := by
  intro p u w hp hu hw a ha
  have h := phi_symmetric hh hf p u w hp hu hw a ha
  unfold phiChanged State.overwrite
  rw [h]
  by_cases e : p = 1
  · subst e
    obtain ⟨_, f, h1, h2⟩ := hp
    rw [hh] at h1
    cases h1
    have h3 : [X, Y] = [u, w] := bin_group.symm.trans h2
    cases h3
    have h4 : a.exchange X Y X = a Y := by simp [Assign.exchange]
    have h5 : a.exchange X Y Y = a X := by
      have : Y ≠ X := by decide
      simp [Assign.exchange, this]
    simp only [List.map_cons, List.map_nil, h4, h5, List.cons.injEq, and_true, true_and]
    by_cases e1 : a X = 0 <;> by_cases e2 : a Y = 0 <;> simp [e1, e2]
  · simp [e]

end Ex

/-- The path X - Y - Z: after the change the marginal of X is 54/102 and 48/102. -/
example : ∃ s' s'', (GOp.mutate 1 (.set [0, 0] (.val 5))).exec (Ex.after Ex.path) = .ok s' () ∧
    State.getMarginal Ex.rev List.reverse Ex.X 2 s' = .ok s'' [.val (9 / 17), .val (8 / 17)] := by
  obtain ⟨hv, hh, hf, he, hl⟩ := Ex.path_before
  have hg : (Ex.after Ex.path).heap[1]? = some (Ex.bin Ex.X Ex.Y 2 1 1 3) := by rw [hh]; rfl
  obtain ⟨s', s'', h1, h2⟩ := C70_set_partial Ex.path_reach (p := 1) (by rw [hf]; decide) hl
    (by
      intro f h
      rw [hg] at h
      cases h
      refine ⟨fun v n h => ?_, fun u v _ => ?_⟩
      · rw [Ex.bin_group] at h; cases h
      · unfold State.Observes; rw [he]; simp)
    hg (c := [0, 0]) (by rw [Ex.bin_group]; decide) (x := 5) (y := 5) (by norm_num)
    (by rw [Ex.bin_weight]; exact .plain 5) (by norm_num) (ord := Ex.rev) Ex.rev_perm (sched := List.reverse)
    (fun l => List.reverse_perm l) (n := 2) (by omega) (φ := Ex.phi)
    (Ex.phi_images hh (by rw [hv, hf]; decide +kernel))
    (by rw [Ex.bin_group]; exact Ex.phiChanged_symmetric hh (by rw [hf]; decide +kernel))
    (v := Ex.X) (w := Ex.X) ⟨by rw [hv]; simp, by rw [State.Observes, he]; simp⟩ (Var.eqv_refl _)
    (by
      intro u hu
      refine Ex.path_noCycle u ?_
      have : u ∈ (Ex.after Ex.path).vars := by
        cases hu with
        | refl => rw [hv]; simp
        | tail _ h => exact h.2.1.1
      rw [hv] at this
      exact this)
    (l := [Ex.Y, Ex.Z]) (Ex.others_of (by rw [hv, he]; decide) (by decide)) (e := Ex.zeros)
    (Ex.zeros_agrees (by rw [hv]; decide) (by rw [he]; decide))
    ⟨0, by decide, by rw [Ex.bin_group]; unfold State.weight; rw [hf]; decide +kernel⟩
  refine ⟨s', s'', h1, ?_⟩
  have hd : State.distribution ((Ex.after Ex.path).weight Ex.phiChanged) [Ex.Y, Ex.Z] Ex.zeros Ex.X = [9 / 17, 8 / 17] := by
    unfold State.weight
    rw [hf]
    decide +kernel
  rw [Ex.bin_group] at h2
  rw [show State.overwrite Ex.phi 1 [Ex.X, Ex.Y] [0, 0] 5 = Ex.phiChanged from rfl, hd] at h2
  exact h2

/-- X with a factor, joined to Y by a tunable factor of weight 2, which is cleared: the image of zero is one, and
the marginal of X is given by the other factor. -/
example : ∃ s' s'', (GOp.mutate 1 .clear).exec (Ex.afterT [.tune 1 none, .add 4]) = .ok s' () ∧
    State.getMarginal Ex.rev List.reverse Ex.X 2 s' = .ok s'' [.val (1 / 3), .val (2 / 3)] := by
  have hv : (Ex.afterT [.tune 1 none, .add 4]).vars = [Ex.X, Ex.Y] := by decide +kernel
  have hh : (Ex.afterT [.tune 1 none, .add 4]).heap = Ex.heapT := by decide +kernel
  have hf : (Ex.afterT [.tune 1 none, .add 4]).factors = [1, 4] := by decide +kernel
  have he : (Ex.afterT [.tune 1 none, .add 4]).evidences = [] := by decide +kernel
  have hl : (Ex.afterT [.tune 1 none, .add 4]).last = none := by decide +kernel
  have hr := Ex.afterT_steady [.tune 1 none, .add 4] (by decide +kernel)
  have hi := Ex.img_images (s := Ex.afterT [.tune 1 none, .add 4]) (by decide +kernel)
  have hsy : Ex.isSymmetric (Ex.una Ex.X 1 2) = true := by decide +kernel
  have hb : (Ex.expo (Ex.bin Ex.X Ex.Y 0 1 1 0) 2).vars.group = [Ex.X, Ex.Y] := by decide +kernel
  have hw : (Ex.expo (Ex.bin Ex.X Ex.Y 0 1 1 0) 2).weight = some (.val 2) := by decide +kernel
  have h4 : (Ex.una Ex.X 1 2).vars.group = [Ex.X] := by decide +kernel
  generalize Ex.afterT [.tune 1 none, .add 4] = s at *
  have hg : s.heap[1]? = some (Ex.expo (Ex.bin Ex.X Ex.Y 0 1 1 0) 2) := by rw [hh]; rfl
  rw [hh] at hi
  obtain ⟨s', s'', h1, h2⟩ := C70_clear_partial hr (p := 1) (by rw [hf]; decide) hl
    (by
      intro f h
      rw [hg] at h
      cases h
      refine ⟨fun v n h => ?_, fun u v _ => ?_⟩
      · rw [hb] at h; cases h
      · unfold State.Observes; rw [he]; simp)
    hg (y := 1)
    (by
      rw [hw]
      have := State.ImageOf.weighted (2 : ℚ) 0
      have h : FloatParams.expK ((2 : ℚ) * 0) = 1 := by decide +kernel
      rw [h] at this
      exact this)
    (by norm_num) (ord := Ex.rev) Ex.rev_perm (sched := List.reverse)
    (fun l => List.reverse_perm l) (n := 2) (by omega) (φ := Ex.img Ex.heapT) hi
    (by
      rintro p u w ⟨hp, f, h5, h6⟩ _ _ a _
      rw [hf] at hp
      simp only [List.mem_cons, List.not_mem_nil, or_false] at hp
      rcases hp with rfl | rfl
      · simp [State.erase]
      · rw [hh] at h5
        cases h5
        have h7 : [Ex.X] = [u, w] := h4.symm.trans h6
        cases h7)
    (v := Ex.X) (w := Ex.X) ⟨by rw [hv]; simp, by rw [State.Observes, he]; simp⟩ (Var.eqv_refl _)
    (Ex.two_tree (by rw [hv]; simp) Ex.X)
    (l := [Ex.Y]) (Ex.others_of (by rw [hv, he]; decide) (by decide)) (e := Ex.zeros)
    (Ex.zeros_agrees (by rw [hv]; decide) (by rw [he]; decide))
    ⟨0, by decide, by unfold State.weight; rw [hf]; decide +kernel⟩
  refine ⟨s', s'', h1, ?_⟩
  have hd : State.distribution (s.weight (State.erase (Ex.img Ex.heapT) 1 1)) [Ex.Y] Ex.zeros Ex.X = [1 / 3, 2 / 3] := by
    unfold State.weight
    rw [hf]
    decide +kernel
  rw [hd] at h2
  exact h2

/-- C70 is violated by a change made after a query: on the path X - Y - Z, after the marginal of X was asked and the
image of X = 0, Y = 0 was changed to 5, the marginal of X is 9/17, 8/17, and the library still returns the old one. -/
theorem C70_violated : ∃ s s' : State (Ext ℚ), Reach (fun s op => Prudent s op ∧ Steady s op) s ∧ 1 ∈ s.factors ∧
    (GOp.mutate 1 (.set [0, 0] (.val 5))).exec s = .ok s' () ∧ s'.Others Ex.X [Ex.Y, Ex.Z] ∧ s'.Agrees Ex.zeros ∧
    s'.Images Ex.phiChanged ∧
    State.distribution (s'.weight Ex.phiChanged) [Ex.Y, Ex.Z] Ex.zeros Ex.X = [9 / 17, 8 / 17] ∧
    ∃ s'', State.getMarginal Ex.rev id Ex.X 1 s' = .ok s'' [.val (9 / 25), .val (16 / 25)] := by
  have hv : (Ex.after (Ex.path ++ [.askMarginal Ex.X])).vars = [Ex.X, Ex.Y, Ex.Z] := by decide +kernel
  have hh : (Ex.after (Ex.path ++ [.askMarginal Ex.X])).heap = Ex.heapXYZ := by decide +kernel
  have hf : (Ex.after (Ex.path ++ [.askMarginal Ex.X])).factors = [0, 1, 2] := by decide +kernel
  have he : (Ex.after (Ex.path ++ [.askMarginal Ex.X])).evidences = [] := by decide +kernel
  have hr := Ex.after_steady (Ex.path ++ [.askMarginal Ex.X]) (by decide +kernel)
  have hm : (match (GOp.mutate 1 (.set [0, 0] (.val 5))).exec (Ex.after (Ex.path ++ [.askMarginal Ex.X])) with
      | .ok s' _ => (match State.getMarginal Ex.rev id Ex.X 1 s' with
        | .ok _ l => some l
        | _ => none)
      | _ => none) = some [.val (9 / 25), .val (16 / 25)] := by decide +kernel
  generalize Ex.after (Ex.path ++ [.askMarginal Ex.X]) = s at *
  have hg : s.heap[1]? = some (Ex.bin Ex.X Ex.Y 2 1 1 3) := by rw [hh]; rfl
  cases hx : (GOp.mutate 1 (.set [0, 0] (.val 5))).exec s with
  | throw _ => rw [hx] at hm; cases hm
  | ub => rw [hx] at hm; cases hm
  | ok s' _ =>
    rw [hx] at hm
    obtain ⟨y, rfl⟩ := mutate_heap (Or.inl hx)
    refine ⟨s, _, hr, by rw [hf]; decide, hx, Ex.others_of (by rw [hv, he]; decide) (by decide),
      Ex.zeros_agrees (by rw [hv]; decide) (by rw [he]; decide), ?_, ?_, ?_⟩
    · obtain ⟨g, k1, _, k3⟩ := State.set_images (reach_inv hr) (p := 1) (by rw [hf]; decide) hg (c := [0, 0])
        (by rw [Ex.bin_group]; decide) (x := 5) (y := 5) (by norm_num) (by rw [Ex.bin_weight]; exact .plain 5) (by norm_num)
        (Ex.phi_images hh (by rw [hv, hf]; decide +kernel))
      have k4 : (GOp.mutate 1 (.set [0, 0] (.val 5))).exec s = .ok { s with heap := s.heap.set 1 g } () := by
        show GOp.onHeap (Heap.mutate 1 _) s = _
        unfold GOp.onHeap Heap.mutate
        simp only [hg, k1]
      rw [k4] at hx
      rw [Ex.bin_group] at k3
      injection hx with hx _
      rw [← hx]
      exact k3
    · show State.distribution (s.weight Ex.phiChanged) _ _ _ = _
      unfold State.weight
      rw [hf]
      decide +kernel
    · simp only at hm
      cases hy : State.getMarginal Ex.rev id Ex.X 1 { s with heap := y } with
      | ok s'' l => rw [hy] at hm; exact ⟨s'', by rw [Option.some.inj hm]⟩
      | throw _ => rw [hy] at hm; cases hm
      | ub => rw [hy] at hm; cases hm

/-- The most probable value of X on the path is 1. After the same change it is 0, and the library still returns 1. -/
example : ∃ s1 s2 : State (Ext ℚ), State.getMAP Ex.rev id Ex.X 1 (Ex.after Ex.path) = .ok s1 1 ∧
    (GOp.mutate 1 (.set [0, 0] (.val 5))).exec s1 = .ok s2 () ∧ State.getMAP Ex.rev List.reverse Ex.X 2 s2 = .ok s2 1 := by
  have h : (match State.getMAP Ex.rev id Ex.X 1 (Ex.after Ex.path) with
      | .ok s1 x => (match (GOp.mutate 1 (.set [0, 0] (.val 5))).exec s1 with
        | .ok _ _ => some x
        | _ => none)
      | _ => none) = some 1 := by decide +kernel
  have hr : Reach Prudent (Ex.after Ex.path) := Ex.Reach.mono (fun _ _ h => h.1) Ex.path_reach
  generalize Ex.after Ex.path = s at *
  cases h1 : State.getMAP Ex.rev id Ex.X 1 s with
  | ok s1 x =>
    rw [h1] at h
    simp only at h
    cases h2 : (GOp.mutate 1 (.set [0, 0] (.val 5))).exec s1 with
    | ok s2 _ =>
      rw [h2] at h
      obtain rfl := Option.some.inj h
      exact ⟨s1, s2, rfl, h2, C70_unnoticed_map hr Ex.rev_perm (fun _ => .refl _) (by omega) h1 (Or.inl h2)⟩
    | throw _ => rw [h2] at h; cases h
    | ub => rw [h2] at h; cases h
  | throw _ => rw [h1] at h; cases h
  | ub => rw [h1] at h; cases h

end EFG
