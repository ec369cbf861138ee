import Mathlib.Algebra.Order.BigOperators.Group.Finset
import Verif.Lemmas.TreeSet
import Verif.Lemmas.BeliefExact
/-
The messages of the library around a set of variables, and the joint marginals which they give.
-/

set_option linter.unusedSectionVars false

namespace EFG

namespace Tree
variable {α : Type v} [DecidableEq α] {K : Type} [Field K] [LinearOrder K] [IsStrictOrderedRing K]

/-- A sum of nonnegative values is above all of them. -/
theorem le_sumOver_pos (n : α → Nat) (f : (α → Nat) → {x : K // 0 ≤ x}) {W : List α} {a b : α → Nat}
    (hb : ∀ u, u ∉ W → b u = a u) (hr : ∀ u ∈ W, b u < n u) : (f b).1 ≤ (sumOver n W f a).1 := by
  induction W generalizing a with
  | nil =>
    have : b = a := funext (fun u => hb u (by simp))
    rw [this]; exact le_rfl
  | cons w W ih =>
    simp only [sumOver]
    refine le_trans (ih (a := Function.update a w (b w)) (fun u hu => ?_) (fun u hu => hr u (by simp [hu]))) ?_
    · by_cases h : u = w
      · rw [h, Function.update_self]
      · rw [Function.update_of_ne h]; exact hb u (by simp [h, hu])
    · have hsum : (∑ i ∈ Finset.range (n w), sumOver n W f (Function.update a w i)).1 =
          ∑ i ∈ Finset.range (n w), (sumOver n W f (Function.update a w i)).1 := by
        induction n w with
        | zero => rfl
        | succ m ihm => rw [Finset.sum_range_succ, Finset.sum_range_succ, ← ihm]; rfl
      rw [hsum]
      exact Finset.single_le_sum (f := fun i => (sumOver n W f (Function.update a w i)).1)
        (fun i _ => (sumOver n W f (Function.update a w i)).2) (Finset.mem_range.2 (hr w (by simp)))

end Tree

namespace State
variable {K : Type} [Field K] [LinearOrder K] [IsStrictOrderedRing K] [FloatParams K]

/-- The messages which reach the variables of a list, all on trees, and the joint marginals which they give,
whatever joins these variables, for the parts of the list which are joined. -/
theorem joint_messages {s : State (Ext K)} (hH : Healthy s) (hF : Faithful s) (hN : Numeric s) {r : PropResult}
    (hl : s.last = some r) (hk : r.kind = .sum) {G : List Var} (hG : ∀ g ∈ G, g ∈ s.hid)
    (ht : ∀ g ∈ G, s.TreeAt g) {b : Assign} (hbr : s.InRange b)
    (hb : Tree.wgt (s.psiR sumQuant) (s.edgeR sumQuant) s.hid b ≠ 0) :
    ∃ μ : Var → Var → Nat → {x : K // 0 ≤ x}, (∀ u w, ¬s.adj u w → ∀ j, μ u w j = 1) ∧
      (∀ g ∈ G, s.psiR sumQuant g (b g) ≠ 0) ∧
      (∀ g ∈ G, ∀ w, s.adj w g → ∃ m, s.msg g w = some m ∧ ∃ c : K, 0 < c ∧
        ∀ j < g.size, m.timg [j] = .val (c * (μ w g j).1)) ∧
      (∀ P : List Var, (∀ g ∈ P, g ∈ G) → (∀ g ∈ P, ∀ g' ∈ P, Relation.ReflTransGen s.adj g' g →
          Relation.ReflTransGen (fun a b => s.adj a b ∧ a ∈ P ∧ b ∈ P) g g') →
        ∀ W, s.hid.Perm (P ++ W) → ∃ Z : {x : K // 0 ≤ x}, ∀ E : Var → Var → Nat → Nat → {x : K // 0 ≤ x},
          (∀ u w i j, E u w i j = E w u j i) →
          (∀ u w, ¬(u ∈ P ∧ w ∈ P) → ∀ i j, E u w i j = s.edgeR sumQuant u w i j) → ∀ a,
          Tree.sumOver Var.size W (Tree.wgt (s.psiR sumQuant) E s.hid) a =
            Z * (Tree.wgt (s.psiR sumQuant) E P a *
              (P.map (fun g => (W.map (fun w => μ w g (a g))).prod)).prod)) := by
  classical
  have hs := hH.inv.toCore
  have hdata : ∀ g : Var, ∃ (nodes : List Var) (ts : List Topo) (rk : Var → Var → Nat), g ∈ G →
      g ∈ nodes ∧ Setting s nodes ts ∧ Exact .sum s ts ∧
      ∀ w u y, u ∈ nodes → s.adj w u → s.adj u y → w ≠ y → rk w u < rk u y := by
    intro g
    by_cases hg : g ∈ G
    · obtain ⟨nodes, ts, h1, h2, h3⟩ := (hF.fresh r hl).exact_at hH.inv (hG g hg) (ht g hg)
      rw [hk] at h3
      obtain ⟨rk, _, h4⟩ := h2.inward hs h3 h1
      exact ⟨nodes, ts, rk, fun _ => ⟨h1, h2, h3, h4⟩⟩
    · exact ⟨[], [], fun _ _ => 0, fun h => absurd h hg⟩
  choose nodes ts rk hall using hdata
  have hsym : ∀ u w, s.adj u w → s.adj w u := fun u w h => hs.adj_symm h
  have hirr : ∀ u, ¬s.adj u u := fun u hu => absurd hu.2.2 (by simp [hs.net.act_irrefl u])
  have hmem : ∀ u w, s.adj u w → u ∈ s.hid := fun u w h => h.1
  set comp : Var → Prop := fun u => ∃ g, g ∈ G ∧ u ∈ nodes g with hcomp
  have hv : ∀ g ∈ G, comp g := fun g hg => ⟨g, hg, (hall g hg).1⟩
  have hclosed : ∀ g ∈ G, ∀ u w, s.adj w u → u ∈ nodes g → w ∈ nodes g := fun g hg u w h hu =>
    (hall g hg).2.1.closed u hu w (hs.net.symA _ _ h.2.2)
  have hc : ∀ u w, s.adj w u → comp u → comp w := by
    rintro u w h ⟨g, hg, hu⟩
    exact ⟨g, hg, hclosed g hg u w h hu⟩
  have : Nonempty Var := ⟨⟨0, "", 0⟩⟩
  set rep : Var → Var := fun u => Classical.epsilon (fun g => g ∈ G ∧ u ∈ nodes g) with hrep
  have hrepc : ∀ u, comp u → rep u ∈ G ∧ u ∈ nodes (rep u) := fun u h => Classical.epsilon_spec h
  have hrepa : ∀ u w, s.adj w u → rep w = rep u := by
    intro u w h
    simp only [hrep]
    congr 1
    funext g
    apply propext
    constructor
    · rintro ⟨hg, hu⟩; exact ⟨hg, hclosed g hg w u (hsym _ _ h) hu⟩
    · rintro ⟨hg, hu⟩; exact ⟨hg, hclosed g hg u w h hu⟩
  set rr : Var → Var → Nat := fun u y => rk (rep u) u y with hrr
  have hr : ∀ w u y, comp u → s.adj w u → s.adj u y → w ≠ y → rr w u < rr u y := by
    intro w u y hu hwu huy hne
    obtain ⟨h1, h2⟩ := hrepc u hu
    simp only [hrr]
    rw [hrepa u w hwu]
    exact (hall _ h1).2.2.2 w u y h2 hwu huy hne
  obtain ⟨μ, hμ1, hfix⟩ := Tree.exists_fixed_of Var.size (s.psiR sumQuant) (s.edgeR (K := K) sumQuant) (V := s.hid)
    (adj := s.adj) (toward := fun u y => s.adj u y ∧ comp u) (r := rr) (fun h => h.1)
    (fun _ h hadj hne => ⟨⟨hadj, hc _ _ hadj h.2⟩, hr _ _ _ h.2 hadj h.1 hne⟩)
  have hD : ∀ g ∈ G, ∀ u y, Tree.Toward s.adj g u y → s.adj u y ∧ comp u := fun g hg u y h =>
    ⟨h.adj, (h.restrict (hv g hg) hc).2.1⟩
  have hpos : ∀ g ∈ G, s.psiR sumQuant g (b g) * (s.hid.map (fun w => μ w g (b g))).prod ≠ 0 := by
    intro g hg
    have hp : s.hid.Perm (g :: s.hid.erase g) := List.perm_cons_erase (hG g hg)
    obtain ⟨Z, hZ⟩ := Tree.exact (fun u w i j => hs.edgeR_symm sumQuant u w i j)
      (fun u w h i j => edgeR_nonadj sumQuant h i j) hμ1 (hid_nodup hs.net) hp
      (Tree.inward hsym hirr hmem (hv g hg) hc hr) (fun u y h j => hfix u y (hD g hg u y h) j)
    have h1 := hZ (b g) b
    rw [Function.update_eq_self] at h1
    intro h0
    rw [h0, mul_zero] at h1
    have h2 := Tree.le_sumOver_pos Var.size (Tree.wgt (s.psiR sumQuant) (s.edgeR sumQuant) s.hid) (W := s.hid.erase g)
      (a := b) (b := b) (fun _ _ => rfl) (fun u hu => hbr u (mem_hid.mp (List.mem_of_mem_erase hu)).1)
    rw [h1] at h2
    exact hb (Subtype.ext (le_antisymm h2 (Subtype.property _)))
  refine ⟨μ, hμ1, fun g hg h => hpos g hg (by rw [h, zero_mul]), ?_, ?_⟩
  · intro g hg w hw
    have hbg := hbr g (mem_hid.mp (hG g hg)).1
    obtain ⟨m, h1, c, h2, h3⟩ := messages_val sumQuant hH hF hN (hall g hg).2.1 (hF.fresh r hl).typed (hall g hg).2.2.1
      (hall g hg).1 hμ1 (fun u y h j => hfix u y (hD g hg u y h) j) ⟨b g, hbg, hpos g hg⟩ (by intro h; cases h) w g
      (.last hw)
    exact ⟨m, h1, c, h2, h3⟩
  · intro P hP hjoin W hW
    refine Tree.exactTo_inside (fun u w i j => hs.edgeR_symm sumQuant u w i j)
      (fun u w h i j => edgeR_nonadj sumQuant h i j) hμ1 (hid_nodup hs.net) hW
      (Tree.inwardTo hsym hirr hmem (fun g hg => hv g (hP g hg)) hc hr hjoin) ?_
    intro u y h j
    obtain ⟨g, hg, h'⟩ := h.toward
    exact hfix u y (hD g (hP g hg) u y h') j

end State
end EFG
