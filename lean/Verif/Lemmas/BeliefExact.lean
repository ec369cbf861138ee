import Mathlib.Algebra.Order.BigOperators.Group.List
import Verif.Lemmas.Marginal
import Verif.Lemmas.Cycle
/-
The beliefs read after an exact propagation are the marginals, or the max-marginals, of the product of the
factors as the library reads them.
-/

set_option linter.unusedSectionVars false

namespace EFG

namespace Tree
variable {α : Type v} [DecidableEq α] {K : Type} [Field K] [LinearOrder K] [IsStrictOrderedRing K]

theorem sumOver_val (n : α → Nat) (f : (α → Nat) → {x : K // 0 ≤ x}) (W : List α) (a : α → Nat) :
    (sumOver n W f a : {x : K // 0 ≤ x}).1 = sumOver n W (fun b => (f b).1) a := by
  induction W generalizing a with
  | nil => rfl
  | cons w W ih =>
    simp only [sumOver]
    rw [← Finset.sum_congr rfl (fun i _ => ih (Function.update a w i))]
    induction n w with
    | zero => rfl
    | succ m ihm => rw [Finset.sum_range_succ, Finset.sum_range_succ, ← ihm]; rfl

/-- A maximum is above all the values. -/
theorem le_sumOver_max (n : α → Nat) (f : (α → Nat) → MaxTimes K) {W : List α} {a b : α → Nat}
    (hb : ∀ u, u ∉ W → b u = a u) (hr : ∀ u ∈ W, b u < n u) : (f b).x ≤ (sumOver n W f a).x := by
  induction W generalizing a with
  | nil =>
    have : b = a := funext (fun u => hb u (by simp))
    rw [this]; exact le_rfl
  | cons w W ih =>
    simp only [sumOver, MaxTimes.sum_x]
    refine le_trans (ih (a := Function.update a w (b w)) (fun u hu => ?_) (fun u hu => hr u (by simp [hu]))) ?_
    · by_cases h : u = w
      · rw [h, Function.update_self]
      · rw [Function.update_of_ne h]; exact hb u (by simp [h, hu])
    · exact (Ext.le_maxK _ _).2 _ (List.mem_map.2 ⟨b w, by simpa using hr w (by simp), rfl⟩)

/-- A maximum is one of the values, or zero. -/
theorem sumOver_max_mem (n : α → Nat) (f : (α → Nat) → MaxTimes K) {W : List α} (a : α → Nat)
    (h : (sumOver n W f a).x ≠ 0) :
    ∃ b, (∀ u, u ∉ W → b u = a u) ∧ (∀ u ∈ W, b u < n u) ∧ (sumOver n W f a).x = (f b).x := by
  induction W generalizing a with
  | nil => exact ⟨a, fun _ _ => rfl, by simp, rfl⟩
  | cons w W ih =>
    simp only [sumOver, MaxTimes.sum_x] at h ⊢
    rcases Ext.maxK_mem (0 : K) ((List.range (n w)).map (fun i => (sumOver n W f (Function.update a w i)).x)) with h' | h'
    · exact absurd h' h
    · obtain ⟨i, hi, he⟩ := List.mem_map.1 h'
      have hi : i < n w := by simpa using hi
      rw [← he] at h ⊢
      obtain ⟨b, h1, h2, h3⟩ := ih _ h
      by_cases hwW : w ∈ W
      · refine ⟨b, fun u hu => ?_, fun u hu => ?_, h3⟩
        · rw [h1 u (fun h => hu (by simp [h])), Function.update_of_ne (fun h => hu (by simp [h]))]
        · rcases List.mem_cons.1 hu with rfl | hu
          · exact h2 _ hwW
          · exact h2 _ hu
      · refine ⟨b, fun u hu => ?_, fun u hu => ?_, h3⟩
        · rw [h1 u (fun h => hu (by simp [h])), Function.update_of_ne (fun h => hu (by simp [h]))]
        · rcases List.mem_cons.1 hu with rfl | hu
          · rw [h1 u hwW, Function.update_self]; exact hi
          · exact h2 _ hu

end Tree

namespace State
variable {K : Type} [Field K] [LinearOrder K] [IsStrictOrderedRing K]

section lawfree
variable [Arith (Ext K)] {kind : Kind} {R : Type} [CommSemiring R]

/-- The cluster of a variable on a tree has been propagated exactly. -/
theorem Fresh.exact_at {s : State (Ext K)} {r : PropResult} (hr : Fresh s r) (hs : Inv s) {v : Var} (hv : v ∈ s.hid)
    (ht : s.TreeAt v) : ∃ nodes ts, v ∈ nodes ∧ Setting s nodes ts ∧ Exact r.kind s ts := by
  obtain ⟨nodes, ts, tree, h1, _, h3, _, h5, h6, h7⟩ := hr.done v hv
  refine ⟨nodes, ts, h1, h3, h5 ?_⟩
  cases tree with
  | true => rfl
  | false =>
    obtain ⟨u, hu, c, hc⟩ := h3.cycle hs.toCore (h6 rfl)
    refine absurd hc (ht u ?_ c)
    have hp := h7 u hu
    have : ∀ w, Relation.ReflTransGen (fun a b => (s.act a b).isSome) v w → s.Linked v w ∧ w ∈ nodes := by
      intro w hw
      induction hw with
      | refl => exact ⟨.refl, h1⟩
      | tail _ hbc ih =>
        obtain ⟨g1, g2⟩ := h3.hidden hs.toCore ih.2 hbc
        exact ⟨ih.1.tail ⟨g1, g2, (hs.toCore.joins_hidden g1 g2).mpr hbc⟩, h3.closed _ ih.2 _ hbc⟩
    exact (this u hp).1

theorem Others.perm {s : State (Ext K)} (hs : Core s) {v : Var} (hv : v ∈ s.hid) {W : List Var} (hW : s.Others v W) :
    s.hid.Perm (v :: W) := by
  rw [List.perm_ext_iff_of_nodup (hid_nodup hs.net)]
  · intro w
    rw [List.mem_cons, hW.2 w, hidden_iff]
    constructor
    · intro h
      by_cases hwv : w = v
      · exact Or.inl hwv
      · exact Or.inr ⟨h, hwv⟩
    · rintro (rfl | h)
      · exact hv
      · exact h.1
  · exact List.nodup_cons.2 ⟨fun h => ((hW.2 v).mp h).2 rfl, hW.1⟩

end lawfree

variable [FloatParams K] {kind : Kind} {R : Type} [CommSemiring R]

/-- The belief of a variable on a tree. -/
theorem belief_exact (q : Quant kind K R) {ord : List Var → List Var} (hord : ∀ l, (ord l).Perm l) {s : State (Ext K)}
    (hH : Healthy s) (hF : Faithful s) (hN : Numeric s) {r : PropResult} (hl : s.last = some r) (hk : r.kind = kind)
    {v : Var} (hv : v ∈ s.hid) (ht : s.TreeAt v)
    (hfloor : kind = .map → ∀ u ∈ s.hid, ∀ w, (s.act u w).isSome → ∀ i < u.size, ∀ j < w.size,
      FloatParams.minK ≤ s.imgB u w i j)
    {W : List Var} (hW : s.Others v W) (a : Assign) {M : Nat → K}
    (hM : ∀ i, M i = q.toK (Tree.sumOver Var.size W (Tree.wgt (s.psiR q) (s.edgeR q) s.hid) (Function.update a v i)))
    (hne : ∃ i < v.size, M i ≠ 0) :
    s.belief ord v = .ok ((List.range v.size).map (fun i => .val (M i / ((List.range v.size).map M).sum))) ∧
      ∀ i, 0 ≤ M i := by
  have hs := hH.inv.toCore
  obtain ⟨nodes, ts, hvn, hset, hex⟩ := (hF.fresh r hl).exact_at hH.inv hv ht
  rw [hk] at hex
  obtain ⟨rk, hin, _⟩ := hset.inward hs hex hvn
  obtain ⟨μ, hμ1, hfix⟩ := Tree.exists_fixed Var.size (s.psiR q) (s.edgeR q) hin
  obtain ⟨Z, hZ⟩ := Tree.exact (fun u w i j => hs.edgeR_symm q u w i j) (fun u w h i j => edgeR_nonadj q h i j) hμ1
    (hid_nodup hs.net) (hW.perm hs hv) hin hfix
  set B : Nat → R := fun i => s.psiR q v i * (s.hid.map (fun w => μ w v i)).prod with hB
  have hMB : ∀ i, M i = q.toK Z * q.toK (B i) := by
    intro i; rw [hM, hZ i a, q.mul]
  have hM0 : ∀ i, 0 ≤ M i := fun i => by rw [hM]; exact q.nonneg _
  refine ⟨?_, hM0⟩
  obtain ⟨i0, hi0, hi0ne⟩ := hne
  have hZne : q.toK Z ≠ 0 := by
    intro h; rw [hMB, h, zero_mul] at hi0ne; exact hi0ne rfl
  have hBne : q.toK (B i0) ≠ 0 := by
    intro h; rw [hMB, h, mul_zero] at hi0ne; exact hi0ne rfl
  have hmsg := messages_val q hH hF hN hset (hF.fresh r hl).typed hex hvn hμ1 hfix
    ⟨i0, hi0, fun h => hBne (q.eq_zero.mpr h)⟩
    (fun hk u hu w hw => hfloor hk u (mem_hid.mpr ⟨(hs.act_vars hw).1, hset.hid u hu⟩) w hw)
  obtain ⟨mg, ms, f, ps, b1, _, b3, b4, b5, b6, b7, b8, b9⟩ :=
    belief_ok hord hH.inv ((hF.fresh r hl).alive hH.inv) hv
  rw [b9]
  set L := ord (AMap.keys (s.activeOf v)) with hL
  have hLnd : L.Nodup := (hord _).nodup_iff.mpr (hs.net.nodup v).1
  have hLmem : ∀ w, w ∈ L ↔ s.adj w v ∧ ¬False := by
    intro w
    rw [hL, (hord _).mem_iff, AMap.mem_keys]
    constructor
    · rintro ⟨c, hc⟩
      exact ⟨hs.adj_symm (hset.act_adj hs hvn (by unfold State.act; rw [hc]; rfl)), id⟩
    · rintro ⟨h, _⟩
      exact Option.isSome_iff_exists.mp (hs.net.symA _ _ h.2.2)
  have hBK : ∀ i < v.size, q.toK (B i) = s.psiK v i * (L.map (fun w => q.toK (μ w v i))).prod := by
    intro i hi
    rw [hB]
    simp only
    have := prod_neighbours hs hLnd (ex := fun _ => False) hLmem (μ := fun w => μ w v) (fun w h => hμ1 w v h) i
    simp only [if_false] at this
    rw [this, q.mul, q.prod]
    unfold psiR
    rw [q.toK_ofK _ (hN.psiK_nonneg hs v hi)]
  obtain ⟨c, hc, hmv⟩ := merged_val hs hH.sep hF.coh hF.evid hN hv b1
    ⟨i0, hi0, fun h => hBne (by rw [hBK i0 hi0, h, zero_mul])⟩
  obtain ⟨f', e1, _, D, hD, e3, _⟩ := gathered_val hs b1 hc hmv b3 b4
    (fun w hw => hmsg w v (.last ((hLmem w).mp hw).1))
    (fun i hi => by rw [← hBK i hi]; exact q.nonneg _)
    ⟨i0, hi0, by rw [← hBK i0 hi0]; exact hBne⟩
  rw [b5] at e1
  cases e1
  have hfv : ∀ i < v.size, f.timg [i] = .val (D / q.toK Z * M i) := by
    intro i hi
    rw [e3 i hi, ← hBK i hi, hMB]
    congr 1
    rw [div_mul_eq_mul_div, mul_left_comm, mul_div_cancel_left₀ _ hZne]
  have hcne : D / q.toK Z ≠ 0 := div_ne_zero hD.ne' hZne
  have hsum : ((List.range v.size).map (fun i => D / q.toK Z * M i)).sum =
      D / q.toK Z * ((List.range v.size).map M).sum := by
    rw [List.sum_map_mul_left]
  have hMs : ((List.range v.size).map M).sum ≠ 0 := by
    intro h
    have := List.single_le_sum (l := (List.range v.size).map M) (by
      intro x hx
      obtain ⟨i, _, rfl⟩ := List.mem_map.1 hx
      exact hM0 i) _ (List.mem_map.2 ⟨i0, by simpa using hi0, rfl⟩)
    rw [h] at this
    exact hi0ne (le_antisymm this (hM0 i0))
  have := b6.probabilities_val hfv (by rw [hsum]; exact mul_ne_zero hcne hMs)
  rw [b7] at this
  rw [this, hsum]
  congr 1
  refine List.map_congr_left (fun i _ => ?_)
  congr 1
  rw [mul_div_mul_left _ _ hcne]

end State
end EFG
