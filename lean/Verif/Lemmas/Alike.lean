import Mathlib.Algebra.Order.BigOperators.Group.Finset
import Verif.Lemmas.Conditional
import Verif.Spec.Alike
/-
Models with the same factors and evidences describe the same weights.
-/

set_option linter.unusedSectionVars false

namespace EFG

namespace Tree
variable {K : Type} [Field K] [LinearOrder K] [IsStrictOrderedRing K]

theorem sumOver_nonneg (n : Var → Nat) (f : (Var → Nat) → K) {W : List Var} {a : Var → Nat}
    (h : ∀ b, (∀ u, u ∉ W → b u = a u) → (∀ u ∈ W, b u < n u) → 0 ≤ f b) : 0 ≤ sumOver n W f a := by
  induction W generalizing a with
  | nil => exact h a (fun _ _ => rfl) (by simp)
  | cons w W ih =>
    refine Finset.sum_nonneg (fun i hi => ih (fun b h1 h2 => h b (fun u hu => ?_) (fun u hu => ?_)))
    · rw [List.mem_cons, not_or] at hu
      rw [h1 u hu.2, Function.update_of_ne hu.1]
    · by_cases hW : u ∈ W
      · exact h2 u hW
      · rcases List.mem_cons.mp hu with rfl | h'
        · rw [h1 u hW, Function.update_self]; exact Finset.mem_range.mp hi
        · exact absurd h' hW

theorem le_sumOver (n : Var → Nat) (f : (Var → Nat) → K) {W : List Var} {a b : Var → Nat}
    (h : ∀ b, (∀ u, u ∉ W → b u = a u) → (∀ u ∈ W, b u < n u) → 0 ≤ f b)
    (hb : ∀ u, u ∉ W → b u = a u) (hr : ∀ u ∈ W, b u < n u) : f b ≤ sumOver n W f a := by
  induction W generalizing a with
  | nil =>
    have : b = a := funext (fun u => hb u (by simp))
    rw [this]; exact le_rfl
  | cons w W ih =>
    have hstep : ∀ i < n w, ∀ c : Var → Nat, (∀ u, u ∉ W → c u = Function.update a w i u) → (∀ u ∈ W, c u < n u) →
        0 ≤ f c := by
      intro i hi c h1 h2
      refine h c (fun u hu => ?_) (fun u hu => ?_)
      · rw [List.mem_cons, not_or] at hu
        rw [h1 u hu.2, Function.update_of_ne hu.1]
      · by_cases hW : u ∈ W
        · exact h2 u hW
        · rcases List.mem_cons.mp hu with rfl | h'
          · rw [h1 u hW, Function.update_self]; exact hi
          · exact absurd h' hW
    refine le_trans (ih (a := Function.update a w (b w)) (hstep _ (hr w (by simp))) (fun u hu => ?_)
      (fun u hu => hr u (by simp [hu]))) ?_
    · by_cases h : u = w
      · rw [h, Function.update_self]
      · rw [Function.update_of_ne h]; exact hb u (by simp [h, hu])
    · exact Finset.single_le_sum (f := fun i => sumOver n W f (Function.update a w i))
        (fun i hi => sumOver_nonneg n f (hstep i (Finset.mem_range.mp hi))) (Finset.mem_range.mpr (hr w (by simp)))

end Tree

namespace State
variable {K : Type} [Field K] [LinearOrder K] [IsStrictOrderedRing K] [FloatParams K]

section
variable {π : Nat → Nat} {s t : State (Ext K)} (hA : Alike π s t)
include hA

theorem Alike.mem {p : Nat} (hp : p ∈ s.factors) : π p ∈ t.factors :=
  hA.factors.mem_iff.mpr (List.mem_map_of_mem hp)

theorem Alike.mem' {q : Nat} (hq : q ∈ t.factors) : ∃ p ∈ s.factors, π p = q :=
  List.mem_map.mp (hA.factors.mem_iff.mp hq)

theorem Alike.hidden (v : Var) : t.Hidden v ↔ s.Hidden v := by
  simp only [Hidden, Observes, hA.vars, hA.evidence]

theorem Alike.factorOn {l : List Var} : (∃ q, t.FactorOn q l) ↔ ∃ p, s.FactorOn p l := by
  constructor
  · rintro ⟨q, hq, f, h1, h2⟩
    obtain ⟨p, hp, rfl⟩ := hA.mem' hq
    exact ⟨p, hp, f, by rw [← hA.functions p hp]; exact h1, h2⟩
  · rintro ⟨p, hp, f, h1, h2⟩
    exact ⟨π p, hA.mem hp, f, by rw [hA.functions p hp]; exact h1, h2⟩

theorem Alike.joins (u v : Var) : t.Joins u v ↔ s.Joins u v := by
  unfold Joins
  rw [exists_or, exists_or, hA.factorOn, hA.factorOn]

theorem Alike.graph : t.hiddenGraph = s.hiddenGraph := by
  ext u v
  simp only [hiddenGraph, hA.hidden, hA.joins]

theorem Alike.treeAt {v : Var} (h : s.TreeAt v) : t.TreeAt v := by
  unfold TreeAt Linked at *
  rw [hA.graph]
  simp only [hA.hidden, hA.joins]
  exact h

theorem Alike.inRange (a : Assign) : t.InRange a ↔ s.InRange a := by
  simp only [InRange, hA.vars]

theorem Alike.agrees (a : Assign) : t.Agrees a ↔ s.Agrees a := by
  simp only [Agrees, hA.inRange, hA.evidence]

theorem Alike.others {v : Var} {l : List Var} (h : s.Others v l) : t.Others v l := by
  unfold Others at *
  simp only [hA.hidden]
  exact h

theorem Alike.readAt {p : Nat} (hp : p ∈ s.factors) (a : Assign) : t.readAt (π p) a = s.readAt p a := by
  have hh : t.Hidden = s.Hidden := funext (fun v => propext (hA.hidden v))
  unfold State.readAt
  rw [hA.functions p hp, hh]

/-- The images of the factors of the second model. -/
theorem Alike.images {φ : Nat → Assign → K} (hφ : s.Images φ) : ∃ ψ : Nat → Assign → K, t.Images ψ ∧
    ∀ p ∈ s.factors, ∀ a, s.InRange a → ψ (π p) a = φ p a := by
  classical
  let ψ : Nat → Assign → K := fun q a => if h : ∃ p ∈ s.factors, π p = q then φ h.choose a else 0
  have hψ : ∀ p ∈ s.factors, ∀ a, s.InRange a → ψ (π p) a = φ p a := by
    intro p hp a ha
    have h : ∃ p' ∈ s.factors, π p' = π p := ⟨p, hp, rfl⟩
    have e : ψ (π p) a = φ h.choose a := dif_pos h
    rw [e]
    obtain ⟨h1, h2⟩ := h.choose_spec
    obtain ⟨f, f1, f2, _⟩ := hφ _ h1 a ha
    obtain ⟨g, g1, g2, _⟩ := hφ p hp a ha
    rw [← hA.functions _ h1, h2, hA.functions p hp, g1] at f1
    cases f1
    rw [g2] at f2
    exact (Ext.val.inj (Res.ok.inj f2)).symm
  refine ⟨ψ, ?_, hψ⟩
  intro q hq a ha
  obtain ⟨p, hp, rfl⟩ := hA.mem' hq
  rw [hA.inRange] at ha
  rw [hψ p hp a ha, hA.functions p hp]
  exact hφ p hp a ha

theorem Alike.readWeight (hs : Healthy s) {φ ψ : Nat → Assign → K}
    (hψ : ∀ p ∈ s.factors, ∀ a, s.InRange a → ψ (π p) a = φ p a) {a : Assign} (ha : s.InRange a) :
    t.readWeight ψ a = s.readWeight φ a := by
  unfold State.readWeight
  rw [(hA.factors.map _).prod_eq, List.map_map]
  congr 1
  refine List.map_congr_left (fun p hp => ?_)
  simp only [Function.comp]
  rw [hA.readAt hp, hψ p hp _ (readAt_inRange hs hp ha)]

theorem Alike.floored {φ ψ : Nat → Assign → K} (hψ : ∀ p ∈ s.factors, ∀ a, s.InRange a → ψ (π p) a = φ p a)
    (h : s.Floored φ) : t.Floored ψ := by
  rintro q u w ⟨hq, f, h1, h2⟩ hu hw a ha
  obtain ⟨p, hp, rfl⟩ := hA.mem' hq
  rw [hA.inRange] at ha
  rw [hψ p hp a ha]
  exact h p u w ⟨hp, f, by rw [← hA.functions p hp]; exact h1, h2⟩ ((hA.hidden u).mp hu) ((hA.hidden w).mp hw) a ha

theorem Alike.mass (hs : Healthy s) {φ ψ : Nat → Assign → K}
    (hψ : ∀ p ∈ s.factors, ∀ a, s.InRange a → ψ (π p) a = φ p a) {v : Var} (hv : v ∈ s.hid) {l : List Var}
    (hl : s.Others v l) {e : Assign} (he : s.Agrees e) {i : Nat} (hi : i < v.size) :
    State.mass (t.readWeight ψ) l e v i = State.mass (s.readWeight φ) l e v i :=
  Tree.sumOver_congr_range (fun b h1 h2 => hA.readWeight hs hψ (hl.agrees hv he hi h1 h2).1)

end

/-- A sum with a positive term is not zero. -/
theorem mass_ne_zero {s : State (Ext K)} (hH : Healthy s) {φ : Nat → Assign → K} (hφ : s.Images φ) {v : Var}
    (hv : v ∈ s.hid) {l : List Var} (hl : s.Others v l) {e : Assign} (he : s.Agrees e) (hne : s.readWeight φ e ≠ 0) :
    mass (s.readWeight φ) l e v (e v) ≠ 0 := by
  have hpos : ∀ b, s.Agrees b → 0 ≤ s.readWeight φ b := by
    intro b hb
    unfold State.readWeight
    refine list_prod_nonneg (fun x hx => ?_)
    obtain ⟨p, hp, rfl⟩ := List.mem_map.1 hx
    obtain ⟨_, _, _, h⟩ := hφ p hp (s.readAt p b) (readAt_inRange hH hp hb.1)
    exact h
  have hle := Tree.le_sumOver Var.size (s.readWeight φ) (W := l) (a := Function.update e v (e v)) (b := e)
    (fun b h1 h2 => hpos b (hl.agrees hv he (he.1 v (mem_hid.mp hv).1) h1 h2))
    (fun u _ => by rw [Function.update_eq_self]) (fun u hu => he.1 u ((hl.2 u).mp hu).1.1)
  have := lt_of_lt_of_le (lt_of_le_of_ne (hpos e he) (Ne.symm hne)) hle
  exact this.ne'

/-- The MAP estimate of a variable is the first maximum of the greatest weights. -/
theorem map_value {s : State (Ext K)} (h : Sound True s) {ord : List Var → List Var} (hord : ∀ l, (ord l).Perm l)
    {sched : Sched} (hsched : ∀ l, (sched l).Perm l)
    {n : Nat} (hn : 1 ≤ n) {φ : Nat → Assign → K} (hφ : s.Images φ) (hfl : s.Floored φ) {v w : Var} (hv : s.Hidden v)
    (hw : v.eqv w = true) (ht : s.TreeAt v) (hpos : ∃ e, s.Agrees e ∧ s.readWeight φ e ≠ 0) :
    ∃ s' k, State.getMAP ord sched w n s = .ok s' k ∧ ∃ N : Nat → K,
      findMax (((List.range v.size).map (fun i => N i / ((List.range v.size).map N).sum)).map Ext.val) = .ok k ∧
      ∀ i < v.size, IsGreatest {x | ∃ b, s.Agrees b ∧ b v = i ∧ x = s.readWeight φ b} (N i) := by
  rw [getMAP_eq]
  exact asks_faithful hord .map hsched h hn (r := readMAP ord w) (by
    intro s' p ha hH hF hp hk
    have hq := ha.toQuiet
    have hv' := hidden_iff.mp ((hq.hiddenS v).mpr hv)
    have hr : s'.readWeight φ = s.readWeight φ := funext (fun a => hq.readWeightS a)
    have hag : ∀ b, s'.Agrees b ↔ s.Agrees b := fun b => by
      unfold Agrees InRange
      rw [hq.vars, hq.evidences]
    obtain ⟨e, he, hene⟩ := hpos
    obtain ⟨N, h1, h2, h3⟩ := belief_max hord hH hF hp hk (hq.imagesS hφ) (hq.flooredS hfl) hv'
      (hq.treeAt ht) ⟨e, hq.agreesS he, by rw [hr]; exact hene⟩
    have hvp := hH.inv.posV v (mem_hid.mp hv').1
    obtain ⟨k, hk1, _⟩ := findMax_val (l := (List.range v.size).map (fun i => N i / ((List.range v.size).map N).sum)) (by
      intro h
      have := congrArg List.length h
      simp at this
      omega)
    refine ⟨k, ?_, N, hk1, ?_⟩
    · unfold readMAP
      rw [hH.inv.readMarginal_hidden hv' hw, h1]
      exact hk1
    · simpa only [hag, hr] using h3)

end State
end EFG
