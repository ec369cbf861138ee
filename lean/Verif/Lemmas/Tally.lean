import Verif.Lemmas.Component
import Verif.Spec.Rounding
/-
How many roundings there are along a tree.
-/

set_option linter.unusedSectionVars false

namespace EFG
namespace Tree
variable {α : Type v} [DecidableEq α]

theorem wgt_le {ψ ψ' : α → Nat → Nat} {E E' : α → α → Nat → Nat → Nat} {V : List α} {a : α → Nat} (hV : V.Nodup)
    (h1 : ∀ u ∈ V, ψ u (a u) ≤ ψ' u (a u)) (h2 : ∀ u ∈ V, ∀ w ∈ V, u ≠ w → E u w (a u) (a w) ≤ E' u w (a u) (a w)) :
    wgt ψ E V a ≤ wgt ψ' E' V a := by
  induction V with
  | nil => exact le_rfl
  | cons u V ih =>
    obtain ⟨hu, hV⟩ := List.nodup_cons.1 hV
    simp only [wgt]
    have hp : (V.map (fun w => E u w (a u) (a w))).prod ≤ (V.map (fun w => E' u w (a u) (a w))).prod := by
      have : ∀ l : List α, (∀ w ∈ l, w ∈ V) → (l.map (fun w => E u w (a u) (a w))).prod ≤
          (l.map (fun w => E' u w (a u) (a w))).prod := by
        intro l
        induction l with
        | nil => intro _; exact le_rfl
        | cons w l ihl =>
          intro hl
          simp only [List.map_cons, List.prod_cons]
          have hw := hl w (by simp)
          exact Nat.mul_le_mul (h2 u (by simp) w (by simp [hw]) (fun h => hu (h ▸ hw)))
            (ihl (fun x hx => hl x (by simp [hx])))
      exact this V (fun _ h => h)
    exact Nat.mul_le_mul (Nat.mul_le_mul (h1 u (by simp)) hp)
      (ih hV (fun w hw => h1 w (by simp [hw])) (fun x hx y hy => h2 x (by simp [hx]) y (by simp [hy])))

theorem wgt_pos {ψ : α → Nat → Nat} {E : α → α → Nat → Nat → Nat} (h1 : ∀ u i, 1 ≤ ψ u i) (h2 : ∀ u w i j, 1 ≤ E u w i j)
    (V : List α) (a : α → Nat) : 1 ≤ wgt ψ E V a := by
  induction V with
  | nil => exact le_rfl
  | cons u V ih =>
    simp only [wgt]
    have hp : ∀ l : List α, 1 ≤ (l.map (fun w => E u w (a u) (a w))).prod := by
      intro l
      induction l with
      | nil => exact le_rfl
      | cons w l ihl => simp only [List.map_cons, List.prod_cons]; exact Nat.mul_le_mul (h2 _ _ _ _) ihl
    exact Nat.mul_le_mul (Nat.mul_le_mul (h1 _ _) (hp V)) ih

theorem wgt_mul {R : Type u} [CommSemiring R] (ψ : α → Nat → R) (g : α → R) (E : α → α → Nat → Nat → R) (V : List α)
    (a : α → Nat) : wgt (fun u i => ψ u i * g u) E V a = wgt ψ E V a * (V.map g).prod := by
  induction V with
  | nil => simp [wgt]
  | cons u V ih => simp only [wgt, ih, List.map_cons, List.prod_cons]; ring

theorem prod_pow_two (l : List α) (f : α → Nat) : (l.map (fun u => 2 ^ f u)).prod = 2 ^ (l.map f).sum := by
  induction l with
  | nil => rfl
  | cons u l ih => simp only [List.map_cons, List.prod_cons, List.sum_cons, ih, pow_add]

/-- A sum over variables with one value only. -/
theorem sumOver_one {f : (α → Nat) → Nat} {c : Nat} (hf : ∀ a, f a = c) (W : List α) (a : α → Nat) :
    sumOver (fun _ => 1) W f a = c := by
  induction W generalizing a with
  | nil => exact hf a
  | cons u W ih => simp [sumOver, ih]

end Tree

namespace State
variable {K : Type} [Field K] [LinearOrder K] [IsStrictOrderedRing K] [Arith (Ext K)]

/-- The number of factors which are merged for a hidden variable. -/
def tally (s : State (Ext K)) (u : Var) : Nat := (s.una u).length + (AMap.keys (s.disabledOf u)).length

/-- What a variable adds to the number of roundings. -/
def psiN (s : State (Ext K)) (u : Var) (_ : Nat) : Nat := 2 ^ (s.tally u + u.size + 4)

open Classical in
/-- What a factor which joins two hidden variables adds to the number of roundings. -/
noncomputable def edgeN (s : State (Ext K)) (u w : Var) (_ _ : Nat) : Nat := if s.adj u w then 2 else 1

theorem Core.edgeN_symm {s : State (Ext K)} (hs : Core s) (u w : Var) (i j : Nat) :
    s.edgeN u w i j = s.edgeN w u j i := by
  unfold edgeN
  by_cases h : s.adj u w
  · rw [if_pos h, if_pos (hs.adj_symm h)]
  · rw [if_neg h, if_neg (fun h' => h (hs.adj_symm h'))]

theorem edgeN_nonadj {s : State (Ext K)} {u w : Var} (h : ¬s.adj u w) (i j : Nat) : s.edgeN u w i j = 1 := by
  unfold edgeN; rw [if_neg h]

theorem wgtN_const (s : State (Ext K)) (N : List Var) (a b : Assign) :
    Tree.wgt s.psiN s.edgeN N a = Tree.wgt s.psiN s.edgeN N b := by
  induction N with
  | nil => rfl
  | cons u N ih =>
    simp only [Tree.wgt, ih]
    rfl

open Classical in
/-- The number of roundings is bounded by the numbers of factors and variables of the cluster. -/
theorem wgtN_le {s : State (Ext K)} (hs : Core s) {v : Var} (hv : s.Hidden v) {W : List Var} (hW : s.ClusterOthers v W)
    (a : Assign) : Tree.wgt s.psiN s.edgeN (v :: W) a ≤
      2 ^ ((s.factors.filter (fun p => s.InCluster v p)).length + ((v :: W).map (fun u => u.size + 4)).sum) := by
  set N := v :: W with hN
  have hNnd : N.Nodup := hW.nodup
  have hNhid : ∀ u ∈ N, u ∈ s.hid := fun u hu => hW.hid hv hu
  set g : Nat → Nat := fun p => if s.InCluster v p then 2 else 1 with hg
  have hg1 : ∀ p, 1 ≤ g p := fun p => by simp only [hg]; split <;> omega
  have h1 : Tree.wgt s.psiN s.edgeN N a =
      Tree.wgt (fun u _ => 2 ^ s.tally u) s.edgeN N a * 2 ^ (N.map (fun u => u.size + 4)).sum := by
    rw [← Tree.prod_pow_two, ← Tree.wgt_mul]
    refine Tree.wgt_congr hNnd (fun u _ => ?_) (fun _ _ _ _ _ => rfl)
    unfold psiN
    rw [← pow_add, add_assoc]
  have h2 : 2 ^ (s.factors.filter (fun p => s.InCluster v p)).length = (s.factors.map g).prod := by
    rw [hg, ← prod_filter s.factors (fun p => s.InCluster v p) (fun _ => 2)]
    simp
  rw [h1, pow_add, h2]
  refine Nat.mul_le_mul_right _ ?_
  set R := s.vars.filter (fun w => w ∉ N) with hR
  have hperm : s.vars.Perm (N ++ R) := by
    rw [List.perm_ext_iff_of_nodup hs.net.distinct.nodup]
    · intro w
      rw [List.mem_append, hR, List.mem_filter]
      constructor
      · intro h
        by_cases hw : w ∈ N
        · exact Or.inl hw
        · exact Or.inr ⟨h, by simpa using hw⟩
      · rintro (h | h)
        · exact (mem_hid.mp (hNhid w h)).1
        · exact h.1
    · rw [List.nodup_append]
      refine ⟨hNnd, hs.net.distinct.nodup.filter _, ?_⟩
      intro x hx y hy h
      subst h
      rw [hR, List.mem_filter] at hy
      exact (by simpa using hy.2 : x ∉ N) hx
  rw [hs.prod_factors g a, Tree.wgt_perm (by intro u w i j; rw [hs.net.symL]) hperm, Tree.wgt_append]
  have hmem : ∀ u ∈ N, ∀ p l, s.FactorOn p l → u ∈ l → g p = 2 := by
    intro u hu p l hp hul
    rw [hg]
    simp only
    rw [if_pos ⟨l, u, hp, hul, hidden_iff.mpr (hNhid u hu), (hW.mem u).mp hu⟩]
  have hlnk : ∀ u ∈ N, ∀ w p, s.lnk u w = some p → g p = 2 := by
    intro u hu w p hl
    obtain ⟨e1, f, hf, hb⟩ := hs.link u w p hl
    rcases hb.vars with h | h
    · exact hmem u hu p _ ⟨e1, f, hf, h⟩ (by simp)
    · exact hmem u hu p _ ⟨e1, f, hf, h⟩ (by simp)
  refine le_trans ?_ (Nat.le_mul_of_pos_right _ (Tree.wgt_pos ?_ ?_ R a))
  · refine Tree.wgt_le hNnd ?_ ?_
    · intro u hu
      simp only [tally, pow_add]
      refine Nat.mul_le_mul (le_of_eq ?_) ?_
      · have : ∀ l : List Nat, (∀ p ∈ l, p ∈ s.una u) → 2 ^ l.length = (l.map g).prod := by
          intro l
          induction l with
          | nil => intro _; rfl
          | cons p l ih =>
            intro hl
            obtain ⟨e1, _, f, hf, hU⟩ := hs.unary u p (hl p (by simp))
            rw [List.length_cons, pow_succ, ih (fun q hq => hl q (by simp [hq])), List.map_cons, List.prod_cons,
              hmem u hu p _ ⟨e1, f, hf, hU.vars⟩ (by simp), mul_comm]
        exact this _ (fun _ h => h)
      · have huo := (mem_hid.mp (hNhid u hu)).2
        set g' : Var → Nat := fun w => if w ∈ AMap.keys (s.disabledOf u) then 2 else 1 with hg'
        have hsub : (R.map g').prod = ((AMap.keys (s.disabledOf u)).map g').prod := by
          refine list_prod_subset (hs.net.distinct.nodup.filter _) (hs.net.nodup u).2 ?_ ?_
          · intro w hw
            obtain ⟨c, hc⟩ := AMap.mem_keys.mp hw
            have hwo : w ∈ s.obs := by
              rcases hs.disObs u w (by unfold State.dis; rw [hc]; rfl) with h | h
              · exact absurd h huo
              · exact h
            rw [List.mem_filter]
            exact ⟨hs.obsMem w hwo, by simpa using fun h => (mem_hid.mp (hNhid w h)).2 hwo⟩
          · intro w _ hn
            rw [hg']; simp only; rw [if_neg hn]
        have hpow : ∀ l : List Var, (∀ w ∈ l, w ∈ AMap.keys (s.disabledOf u)) → 2 ^ l.length = (l.map g').prod := by
          intro l
          induction l with
          | nil => intro _; rfl
          | cons w l ih =>
            intro hl
            rw [List.length_cons, pow_succ, ih (fun q hq => hl q (by simp [hq])), List.map_cons, List.prod_cons, hg']
            simp only
            rw [if_pos (hl w (by simp)), mul_comm]
        rw [hpow _ (fun _ h => h), ← hsub]
        have : ∀ l : List Var, (l.map g').prod ≤
            (l.map (fun w => match s.lnk u w with | some p => g p | none => 1)).prod := by
          intro l
          induction l with
          | nil => exact le_rfl
          | cons w l ih =>
            simp only [List.map_cons, List.prod_cons]
            refine Nat.mul_le_mul ?_ ih
            rw [hg']
            simp only
            by_cases hw : w ∈ AMap.keys (s.disabledOf u)
            · rw [if_pos hw]
              obtain ⟨c, hc⟩ := AMap.mem_keys.mp hw
              have hl := hs.net.lnk_of_dis (u := u) (v := w) (c := c) hc
              rw [hl]
              simp only
              rw [hlnk u hu w _ hl]
            · rw [if_neg hw]
              cases s.lnk u w with
              | none => exact le_rfl
              | some p => exact hg1 p
        exact this R
    · intro u hu w hw _
      unfold edgeN
      by_cases h : s.adj u w
      · rw [if_pos h]
        obtain ⟨c, hc⟩ := Option.isSome_iff_exists.mp h.2.2
        have hl := lnk_of_act hc
        rw [hl]
        simp only
        rw [hlnk u hu w _ hl]
      · rw [if_neg h]
        cases s.lnk u w with
        | none => exact le_rfl
        | some p => exact hg1 p
  · intro u _
    have : ∀ l : List Nat, 1 ≤ (l.map g).prod := by
      intro l
      induction l with
      | nil => exact le_rfl
      | cons p l ih =>
        simp only [List.map_cons, List.prod_cons]
        exact Nat.mul_le_mul (hg1 p) ih
    exact this _
  · intro u w _ _
    cases s.lnk u w with
    | none => exact le_rfl
    | some p => exact hg1 p

theorem Core.degree_le {s : State (Ext K)} (hs : Core s) {u : Var} (hu : u ∈ s.hid) :
    s.tally u + (AMap.keys (s.activeOf u)).length ≤ s.degree u := by
  classical
  set T : Nat → Prop := fun p => ∃ l, s.FactorOn p l ∧ u ∈ l with hT
  set g : Nat → Nat := fun p => if T p then 2 else 1 with hg
  have hg1 : ∀ p, 1 ≤ g p := fun p => by simp only [hg]; split <;> omega
  have hmem : ∀ p l, s.FactorOn p l → u ∈ l → g p = 2 := fun p l hp hul => by
    rw [hg]; simp only; rw [if_pos ⟨l, hp, hul⟩]
  have hlnk : ∀ w p, s.lnk u w = some p → g p = 2 := by
    intro w p hl
    obtain ⟨e1, f, hf, hb⟩ := hs.link u w p hl
    rcases hb.vars with h | h
    · exact hmem p _ ⟨e1, f, hf, h⟩ (by simp)
    · exact hmem p _ ⟨e1, f, hf, h⟩ (by simp)
  have h2 : 2 ^ s.degree u = (s.factors.map g).prod := by
    have := prod_filter s.factors T (fun _ => 2)
    rw [hg, ← this]
    unfold degree
    simp only [List.map_const', List.prod_replicate]
    congr 2
  refine (Nat.pow_le_pow_iff_right (a := 2) (by omega)).mp ?_
  rw [h2]
  obtain ⟨huv, huo⟩ := mem_hid.mp hu
  set R := s.vars.erase u with hR
  have hperm : s.vars.Perm (u :: R) := List.perm_cons_erase huv
  rw [hs.prod_factors g (fun _ => 0), Tree.wgt_perm (by intro u w i j; rw [hs.net.symL]) hperm]
  simp only [Tree.wgt]
  refine le_trans ?_ (Nat.le_mul_of_pos_right _ (Tree.wgt_pos ?_ ?_ R _))
  · simp only [tally, pow_add, mul_assoc]
    refine Nat.mul_le_mul (le_of_eq ?_) ?_
    · have : ∀ l : List Nat, (∀ p ∈ l, p ∈ s.una u) → 2 ^ l.length = (l.map g).prod := by
        intro l
        induction l with
        | nil => intro _; rfl
        | cons p l ih =>
          intro hl
          obtain ⟨e1, _, f, hf, hU⟩ := hs.unary u p (hl p (by simp))
          rw [List.length_cons, pow_succ, ih (fun q hq => hl q (by simp [hq])), List.map_cons, List.prod_cons,
            hmem p _ ⟨e1, f, hf, hU.vars⟩ (by simp), mul_comm]
      exact this _ (fun _ h => h)
    · set Z := AMap.keys (s.disabledOf u) ++ AMap.keys (s.activeOf u) with hZ
      have hdl : ∀ w ∈ Z, ∃ p, s.lnk u w = some p := by
        intro w hw
        rcases List.mem_append.1 hw with hw | hw
        · obtain ⟨c, hc⟩ := AMap.mem_keys.mp hw
          exact ⟨_, hs.net.lnk_of_dis (u := u) (v := w) (c := c) hc⟩
        · obtain ⟨c, hc⟩ := AMap.mem_keys.mp hw
          exact ⟨_, lnk_of_act hc⟩
      have hZnd : Z.Nodup := by
        rw [hZ, List.nodup_append]
        refine ⟨(hs.net.nodup u).2, (hs.net.nodup u).1, ?_⟩
        intro w hw w' hw' h
        subst h
        obtain ⟨c, hc⟩ := AMap.mem_keys.mp hw
        obtain ⟨c', hc'⟩ := AMap.mem_keys.mp hw'
        have := hs.net.excl u w (by unfold State.act; rw [hc']; rfl)
        unfold State.dis at this
        rw [hc] at this
        cases this
      set g' : Var → Nat := fun w => if w ∈ Z then 2 else 1 with hg'
      have hsub : (R.map g').prod = (Z.map g').prod := by
        refine list_prod_subset (hs.net.distinct.nodup.erase _) hZnd ?_ ?_
        · intro w hw
          obtain ⟨p, hp⟩ := hdl w hw
          have hm := hs.net.memL _ _ _ hp
          obtain ⟨_, f, _, hb⟩ := hs.link u w p hp
          rw [hs.net.distinct.nodup.mem_erase_iff]
          exact ⟨hb.ne.symm, hm.2.1⟩
        · intro w _ hn
          rw [hg']; simp only; rw [if_neg hn]
      have hpow : ∀ l : List Var, (∀ w ∈ l, w ∈ Z) → 2 ^ l.length = (l.map g').prod := by
        intro l
        induction l with
        | nil => intro _; rfl
        | cons w l ih =>
          intro hl
          rw [List.length_cons, pow_succ, ih (fun q hq => hl q (by simp [hq])), List.map_cons, List.prod_cons, hg']
          simp only
          rw [if_pos (hl w (by simp)), mul_comm]
      rw [← pow_add, ← List.length_append, hpow Z (fun _ h => h), ← hsub]
      have : ∀ l : List Var, (l.map g').prod ≤
          (l.map (fun w => match s.lnk u w with | some p => g p | none => 1)).prod := by
        intro l
        induction l with
        | nil => exact le_rfl
        | cons w l ih =>
          simp only [List.map_cons, List.prod_cons]
          refine Nat.mul_le_mul ?_ ih
          rw [hg']
          simp only
          by_cases hw : w ∈ Z
          · rw [if_pos hw]
            obtain ⟨p, hl⟩ := hdl w hw
            rw [hl]
            simp only
            rw [hlnk w _ hl]
          · rw [if_neg hw]
            cases s.lnk u w with
            | none => exact le_rfl
            | some p => exact hg1 p
      exact this R
  · intro w _
    have : ∀ l : List Nat, 1 ≤ (l.map g).prod := by
      intro l
      induction l with
      | nil => exact le_rfl
      | cons p l ih =>
        simp only [List.map_cons, List.prod_cons]
        exact Nat.mul_le_mul (hg1 p) ih
    exact this _
  · intro w w' _ _
    cases s.lnk w w' with
    | none => exact le_rfl
    | some p => exact hg1 p

end State
end EFG
