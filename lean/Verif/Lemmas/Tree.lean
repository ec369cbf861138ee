import Mathlib.Algebra.BigOperators.Group.Finset.Sigma
import Mathlib.Algebra.BigOperators.Ring.Finset
import Mathlib.Algebra.BigOperators.Group.List.Lemmas
import Mathlib.Data.List.Perm.Basic
import Mathlib.Tactic.Ring
import Mathlib.Logic.Relation
import Verif.Spec.Sums
/-
Message passing on acyclic pairwise graphs, over an arbitrary commutative semiring: with sums and
products it gives the marginals, with maxima and products the max-marginals. Nothing here refers to the
model of the library.
-/

set_option linter.unusedSectionVars false

namespace EFG.Tree
variable {α : Type v} [DecidableEq α] {R : Type u} [CommSemiring R]

/-! ### Iterated sums -/

theorem sumOver_perm {n : α → Nat} {f : (α → Nat) → R} {W W' : List α} (h : W.Perm W') :
    ∀ a, sumOver n W f a = sumOver n W' f a := by
  induction h with
  | nil => intro a; rfl
  | cons x _ ih => intro a; exact Finset.sum_congr rfl (fun i _ => ih _)
  | swap x y l =>
    intro a
    by_cases hxy : x = y
    · rw [hxy]
    · simp only [sumOver]
      rw [Finset.sum_comm]
      refine Finset.sum_congr rfl (fun i _ => Finset.sum_congr rfl (fun j _ => ?_))
      rw [Function.update_comm hxy]
  | trans _ _ ih1 ih2 => intro a; rw [ih1, ih2]

theorem sumOver_congr {n : α → Nat} {f g : (α → Nat) → R} {W : List α} (h : ∀ a, f a = g a) (a : α → Nat) :
    sumOver n W f a = sumOver n W g a := by
  rw [show f = g from funext h]

theorem sumOver_congr_range {n : α → Nat} {f g : (α → Nat) → R} {W : List α} {a : α → Nat}
    (h : ∀ b, (∀ u, u ∉ W → b u = a u) → (∀ u ∈ W, b u < n u) → f b = g b) :
    sumOver n W f a = sumOver n W g a := by
  induction W generalizing a with
  | nil => exact h a (fun _ _ => rfl) (by simp)
  | cons u W ih =>
    simp only [sumOver]
    refine Finset.sum_congr rfl (fun i hi => ih (fun b hb hr => ?_))
    by_cases huW : u ∈ W
    · refine h b (fun w hw => ?_) (fun w hw => ?_)
      · rw [hb w (fun h => hw (by simp [h])), Function.update_of_ne (fun h => hw (by simp [h]))]
      · rcases List.mem_cons.1 hw with rfl | hw
        · exact hr _ huW
        · exact hr _ hw
    · refine h b (fun w hw => ?_) (fun w hw => ?_)
      · rw [hb w (fun h => hw (by simp [h])), Function.update_of_ne (fun h => hw (by simp [h]))]
      · rcases List.mem_cons.1 hw with rfl | hw
        · rw [hb w huW, Function.update_self]; simpa using hi
        · exact hr _ hw

/-- A sum depends only on the variables which are not summed out. -/
theorem sumOver_local {n : α → Nat} {f : (α → Nat) → R} {V W : List α}
    (hf : ∀ a b, (∀ u ∈ V, a u = b u) → f a = f b) {a b : α → Nat}
    (hab : ∀ u ∈ V, u ∉ W → a u = b u) : sumOver n W f a = sumOver n W f b := by
  induction W generalizing a b with
  | nil => exact hf a b (fun u hu => hab u hu (by simp))
  | cons w W ih =>
    simp only [sumOver]
    refine Finset.sum_congr rfl (fun i _ => ih (fun u hu huW => ?_))
    by_cases huw : u = w
    · subst huw; simp
    · rw [Function.update_of_ne huw, Function.update_of_ne huw]
      exact hab u hu (by simp [huw, huW])

/-- A factor which does not depend on the summed variables comes out of the sum. -/
theorem sumOver_mul {n : α → Nat} {c f : (α → Nat) → R} {W : List α}
    (hc : ∀ a b, (∀ u, u ∉ W → a u = b u) → c a = c b) (a : α → Nat) :
    sumOver n W (fun b => c b * f b) a = c a * sumOver n W f a := by
  induction W generalizing a with
  | nil => rfl
  | cons w W ih =>
    simp only [sumOver]
    rw [Finset.mul_sum]
    refine Finset.sum_congr rfl (fun i _ => ?_)
    rw [ih (fun a b h => hc a b (fun u hu => h u (fun h' => hu (by simp [h']))))]
    rw [hc _ a (fun u hu => Function.update_of_ne (fun h => hu (by simp [h])) _ _)]

theorem sumOver_append {n : α → Nat} {f : (α → Nat) → R} (W W' : List α) (a : α → Nat) :
    sumOver n (W ++ W') f a = sumOver n W (sumOver n W' f) a := by
  induction W generalizing a with
  | nil => rfl
  | cons w W ih => simp only [List.cons_append, sumOver, ih]

/-! ### Weights -/

/-- The weight of an assignment: every node contributes `ψ` and every pair of nodes `E`. -/
def wgt (ψ : α → Nat → R) (E : α → α → Nat → Nat → R) : List α → (α → Nat) → R
  | [], _ => 1
  | u :: V, a => ψ u (a u) * (V.map (fun w => E u w (a u) (a w))).prod * wgt ψ E V a

variable {ψ : α → Nat → R} {E : α → α → Nat → Nat → R}

theorem wgt_perm (hE : ∀ u w i j, E u w i j = E w u j i) {V V' : List α} (h : V.Perm V') (a : α → Nat) :
    wgt ψ E V a = wgt ψ E V' a := by
  induction h with
  | nil => rfl
  | cons x h ih =>
    simp only [wgt, ih]
    rw [(h.map (fun w => E x w (a x) (a w))).prod_eq]
  | swap x y l =>
    simp only [wgt, List.map_cons, List.prod_cons]
    rw [hE y x]
    ring
  | trans _ _ ih1 ih2 => rw [ih1, ih2]

theorem wgt_local {V : List α} {a b : α → Nat} (h : ∀ u ∈ V, a u = b u) : wgt ψ E V a = wgt ψ E V b := by
  induction V with
  | nil => rfl
  | cons u V ih =>
    simp only [wgt]
    rw [h u (by simp), ih (fun w hw => h w (by simp [hw])),
      List.map_congr_left (f := fun w => E u w (b u) (a w)) (g := fun w => E u w (b u) (b w))
        (fun w hw => by rw [h w (by simp [hw])])]

theorem wgt_update {V : List α} {ψ' : α → Nat → R} (h : ∀ u ∈ V, ψ u = ψ' u) (a : α → Nat) :
    wgt ψ E V a = wgt ψ' E V a := by
  induction V with
  | nil => rfl
  | cons u V ih =>
    simp only [wgt, h u (by simp), ih (fun w hw => h w (by simp [hw]))]

/-- Multiplying the contribution of one node multiplies the weight. -/
theorem wgt_absorb {V : List α} {y : α} {g : Nat → R} (hV : V.Nodup) (hy : y ∈ V) (a : α → Nat) :
    wgt (Function.update ψ y (fun i => ψ y i * g i)) E V a = g (a y) * wgt ψ E V a := by
  induction V with
  | nil => simp at hy
  | cons u V ih =>
    obtain ⟨hu, hV⟩ := List.nodup_cons.1 hV
    simp only [wgt]
    by_cases huy : u = y
    · subst huy
      rw [Function.update_self, wgt_update (ψ' := ψ) (fun w hw =>
        Function.update_of_ne (fun h : w = u => hu (h ▸ hw)) _ _)]
      ring
    · have hy' : y ∈ V := by
        rcases List.mem_cons.1 hy with h | h
        · exact absurd h.symm huy
        · exact h
      rw [Function.update_of_ne huy, ih hV hy']
      ring

/-! ### Exactness -/

theorem prod_map_one {V : List α} {f : α → R} (h : ∀ w ∈ V, f w = 1) : (V.map f).prod = 1 := by
  induction V with
  | nil => rfl
  | cons w V ih => simp [h w (by simp), ih (fun u hu => h u (by simp [hu]))]

/-- The data of a propagation towards the node `v`: `toward u y` says that the message from `u` to `y` is
needed, directly or not, by the messages which reach `v`; `r` orders the needed messages. -/
structure Inward (V : List α) (v : α) (adj : α → α → Prop) (toward : α → α → Prop) (r : α → α → Nat) : Prop where
  symm : ∀ u w, adj u w → adj w u
  irrefl : ∀ u, ¬adj u u
  edge : ∀ {u y}, toward u y → adj u y
  mem : ∀ {u y}, toward u y → u ∈ V ∧ y ∈ V
  last : ∀ {w}, w ∈ V → adj w v → toward w v
  step : ∀ {w u y}, w ∈ V → toward u y → adj w u → w ≠ y → toward w u ∧ r w u < r u y
  ne : ∀ {u y}, toward u y → u ≠ v

/-- The messages satisfy the equations of sum-product. -/
def Fixed (n : α → Nat) (ψ : α → Nat → R) (E : α → α → Nat → Nat → R) (V : List α)
    (toward : α → α → Prop) (μ : α → α → Nat → R) : Prop :=
  ∀ u y, toward u y → ∀ j, μ u y j =
    ∑ i ∈ Finset.range (n u), ψ u i * (V.map (fun w => if w = y then 1 else μ w u i)).prod * E u y i j

theorem exact_aux (n : α → Nat) (E : α → α → Nat → Nat → R) (adj : α → α → Prop) (v : α)
    (r : α → α → Nat) (μ : α → α → Nat → R)
    (hE : ∀ u w i j, E u w i j = E w u j i) (hE1 : ∀ u w, ¬adj u w → ∀ i j, E u w i j = 1)
    (hμ1 : ∀ u w, ¬adj u w → ∀ j, μ u w j = 1) :
    ∀ (k : Nat) (W : List α), W.length = k → ∀ (V : List α) (toward : α → α → Prop) (ψ : α → Nat → R),
      V.Nodup → V.Perm (v :: W) → Inward V v adj toward r → Fixed n ψ E V toward μ →
      ∃ Z : R, (∀ i a, sumOver n W (wgt ψ E V) (Function.update a v i) =
        Z * (ψ v i * (V.map (fun w => μ w v i)).prod)) ∧
        ((∀ w ∈ V, Relation.ReflTransGen (fun a b => adj a b ∧ a ∈ V ∧ b ∈ V) w v) → Z = 1) := by
  classical
  intro k
  induction k with
  | zero =>
    intro W hW V toward ψ hnd hp hin hfix
    have hW : W = [] := List.length_eq_zero_iff.1 hW
    subst hW
    have hV : V = [v] := List.perm_singleton.1 hp
    subst hV
    refine ⟨1, fun i a => ?_, fun _ => rfl⟩
    simp [sumOver, wgt, hμ1 v v (hin.irrefl v)]
  | succ k ih =>
    intro W hW V toward ψ hnd hp hin hfix
    have hndW : (v :: W).Nodup := hp.nodup_iff.1 hnd
    obtain ⟨hvW, hWnd⟩ := List.nodup_cons.1 hndW
    by_cases hex : ∃ w ∈ V, adj w v
    · -- remove the sender of the first needed message
      obtain ⟨w, hw, hwv⟩ := hex
      have hset : ∃ m x y, toward x y ∧ r x y = m := ⟨_, w, v, hin.last hw hwv, rfl⟩
      obtain ⟨x, y, hxy, hm⟩ := Nat.find_spec hset
      have hmin : ∀ x' y', toward x' y' → r x y ≤ r x' y' := by
        intro x' y' h
        rw [hm]
        exact Nat.find_min' hset ⟨x', y', h, rfl⟩
      have hxv := hin.ne hxy
      obtain ⟨hxV, hyV⟩ := hin.mem hxy
      have hyx : y ≠ x := by
        intro h; subst h; exact hin.irrefl _ (hin.edge hxy)
      have hleaf : ∀ z ∈ V, z ≠ y → ¬adj z x := by
        intro z hz hzy hadj
        obtain ⟨h1, h2⟩ := hin.step hz hxy hadj hzy
        have := hmin z x h1
        omega
      have hleaf' : ∀ z ∈ V, z ≠ y → ¬adj x z := fun z hz hzy h => hleaf z hz hzy (hin.symm _ _ h)
      have hxW : x ∈ W := by
        rcases List.mem_cons.1 (hp.subset hxV) with h | h
        · exact absurd h hxv
        · exact h
      -- the smaller graph
      let V' := V.erase x
      let W' := W.erase x
      have hpV : V.Perm (x :: V') := List.perm_cons_erase hxV
      have hpW : W.Perm (x :: W') := List.perm_cons_erase hxW
      have hndV' : V'.Nodup := hnd.erase x
      have hxV' : x ∉ V' := fun h => (hnd.mem_erase_iff.1 h).1 rfl
      have hmV' : ∀ z, z ∈ V' ↔ z ≠ x ∧ z ∈ V := fun z => hnd.mem_erase_iff
      have hp' : V'.Perm (v :: W') := by
        have h1 : (x :: V').Perm (x :: v :: W') :=
          (hpV.symm.trans hp).trans ((hpW.cons v).trans (List.Perm.swap x v W'))
        exact h1.cons_inv
      have hyV' : y ∈ V' := (hmV' y).2 ⟨hyx, hyV⟩
      let ψ' := Function.update ψ y (fun i => ψ y i * μ x y i)
      let toward' : α → α → Prop := fun a b => toward a b ∧ a ≠ x ∧ b ≠ x
      have hin' : Inward V' v adj toward' r :=
        { symm := hin.symm
          irrefl := hin.irrefl
          edge := fun h => hin.edge h.1
          mem := fun h => ⟨(hmV' _).2 ⟨h.2.1, (hin.mem h.1).1⟩, (hmV' _).2 ⟨h.2.2, (hin.mem h.1).2⟩⟩
          last := fun hw h => ⟨hin.last ((hmV' _).1 hw).2 h, ((hmV' _).1 hw).1, fun h => hxv h.symm⟩
          step := fun hw h hadj hne => by
            obtain ⟨h1, h2⟩ := hin.step ((hmV' _).1 hw).2 h.1 hadj hne
            exact ⟨⟨h1, ((hmV' _).1 hw).1, h.2.1⟩, h2⟩
          ne := fun h => hin.ne h.1 }
      have hxmsg : ∀ j, μ x y j = ∑ i ∈ Finset.range (n x), ψ x i * E x y i j := by
        intro j
        rw [hfix x y hxy j]
        refine Finset.sum_congr rfl (fun i _ => ?_)
        rw [prod_map_one, mul_one]
        intro z hz
        split
        · rfl
        · exact hμ1 _ _ (hleaf z hz ‹_›) _
      have hfix' : Fixed n ψ' E V' toward' μ := by
        rintro u z ⟨huz, hux, hzx⟩ j
        rw [hfix u z huz j]
        refine Finset.sum_congr rfl (fun i _ => ?_)
        rw [(hpV.map _).prod_eq, List.map_cons, List.prod_cons, if_neg (Ne.symm hzx)]
        by_cases huy : u = y
        · subst huy
          simp only [ψ', Function.update_self]
          ring
        · rw [hμ1 x u (hleaf' u (hin.mem huz).1 huy), one_mul]
          simp only [ψ', Function.update_of_ne huy]
      have hW' : W'.length = k := by
        have := hpW.length_eq
        simp only [List.length_cons] at this
        omega
      obtain ⟨Z, hZ, hZ1⟩ := ih W' hW' V' toward' ψ' hndV' hp' hin' hfix'
      refine ⟨Z, fun i a => ?_, fun hconn => hZ1 (fun w hw => ?_)⟩
      swap
      · -- a path does not need the leaf
        have key : ∀ w, Relation.ReflTransGen (fun a b => adj a b ∧ a ∈ V ∧ b ∈ V) w v →
            (w ≠ x → Relation.ReflTransGen (fun a b => adj a b ∧ a ∈ V' ∧ b ∈ V') w v) ∧
            (w = x → Relation.ReflTransGen (fun a b => adj a b ∧ a ∈ V' ∧ b ∈ V') y v) := by
          intro w hw
          induction hw using Relation.ReflTransGen.head_induction_on with
          | refl => exact ⟨fun _ => .refl, fun h => absurd h.symm hxv⟩
          | @head w b hwb _ ihb =>
            obtain ⟨hadj, hwV, hbV⟩ := hwb
            constructor
            · intro hwx
              by_cases hbx : b = x
              · have : w = y := by
                  by_contra hne
                  exact hleaf w hwV hne (hbx ▸ hadj)
                rw [this]
                exact ihb.2 hbx
              · exact .head ⟨hadj, (hmV' w).2 ⟨hwx, hwV⟩, (hmV' b).2 ⟨hbx, hbV⟩⟩ (ihb.1 hbx)
            · intro hwx
              have : b = y := by
                by_contra hne
                exact hleaf' b hbV hne (hwx ▸ hadj)
              rw [← this]
              exact ihb.1 (this ▸ hyx)
        obtain ⟨h1, h2⟩ := (hmV' w).1 hw
        exact (key w (hconn w h2)).1 h1
      -- sum the leaf out first
      have hsum : sumOver n W (wgt ψ E V) (Function.update a v i) =
          sumOver n W' (wgt ψ' E V') (Function.update a v i) := by
        have hpW2 : W.Perm (W' ++ [x]) := hpW.trans (List.perm_append_singleton x W').symm
        rw [sumOver_perm hpW2, sumOver_append]
        refine sumOver_congr (fun b => ?_) _
        simp only [sumOver]
        rw [wgt_absorb hndV' hyV', hxmsg, Finset.sum_mul]
        refine Finset.sum_congr rfl (fun l _ => ?_)
        rw [wgt_perm hE hpV]
        simp only [wgt, Function.update_self]
        have h1 : (V'.map (fun w => E x w l (Function.update b x l w))).prod = E x y l (b y) := by
          have hpy : V'.Perm (y :: V'.erase y) := List.perm_cons_erase hyV'
          rw [(hpy.map _).prod_eq, List.map_cons, List.prod_cons, Function.update_of_ne hyx,
            prod_map_one, mul_one]
          intro w hw
          obtain ⟨hwy, hwV'⟩ := hndV'.mem_erase_iff.1 hw
          exact hE1 _ _ (hleaf' w ((hmV' w).1 hwV').2 hwy) _ _
        rw [h1, wgt_local (a := Function.update b x l) (b := b) (fun u hu =>
          Function.update_of_ne (fun h : u = x => hxV' (h ▸ hu)) _ _)]
      rw [hsum, hZ i a, (hpV.map _).prod_eq, List.map_cons, List.prod_cons]
      by_cases hvy : v = y
      · subst hvy
        simp only [ψ', Function.update_self]
        ring
      · rw [hμ1 x v (hleaf' v (hp.symm.subset (by simp)) hvy), one_mul]
        simp only [ψ', Function.update_of_ne hvy]
    · -- `v` is isolated
      push Not at hex
      refine ⟨sumOver n W (wgt ψ E W) (fun _ => 0), fun i a => ?_, fun hconn => ?_⟩
      swap
      · exfalso
        obtain ⟨w, l, rfl⟩ := List.exists_cons_of_length_eq_add_one hW
        have hwv : w ≠ v := fun h => hvW (by simp [h])
        rcases (hconn w (hp.symm.subset (by simp))).cases_tail with h | ⟨b, _, h⟩
        · exact hwv h.symm
        · exact hex b h.2.1 h.1
      have h1 : (V.map (fun w => μ w v i)).prod = 1 :=
        prod_map_one (fun w hw => hμ1 _ _ (hex w hw) _)
      have h2 : ∀ b, wgt ψ E V b = ψ v (b v) * wgt ψ E W b := by
        intro b
        rw [wgt_perm hE hp]
        simp only [wgt]
        rw [prod_map_one (f := fun w => E v w (b v) (b w)), mul_one]
        intro w hw
        exact hE1 _ _ (fun h => hex w (hp.symm.subset (by simp [hw])) (hin.symm _ _ h)) _ _
      rw [sumOver_congr h2, sumOver_mul (c := fun b => ψ v (b v)), Function.update_self, h1, mul_one,
        mul_comm]
      · congr 1
        exact sumOver_local (V := W) (fun a b h => wgt_local h) (fun u hu huW => absurd hu huW)
      · intro b c h
        rw [h v hvW]

/-- Message passing is exact: the marginal of the weights at `v` is, up to a constant, the product of
the contribution of `v` and of the messages which reach it. -/
theorem exact {n : α → Nat} {E : α → α → Nat → Nat → R} {adj : α → α → Prop} {v : α}
    {r : α → α → Nat} {μ : α → α → Nat → R} {V W : List α} {toward : α → α → Prop} {ψ : α → Nat → R}
    (hE : ∀ u w i j, E u w i j = E w u j i) (hE1 : ∀ u w, ¬adj u w → ∀ i j, E u w i j = 1)
    (hμ1 : ∀ u w, ¬adj u w → ∀ j, μ u w j = 1)
    (hnd : V.Nodup) (hp : V.Perm (v :: W)) (hin : Inward V v adj toward r)
    (hfix : Fixed n ψ E V toward μ) :
    ∃ Z : R, ∀ i a, sumOver n W (wgt ψ E V) (Function.update a v i) =
      Z * (ψ v i * (V.map (fun w => μ w v i)).prod) := by
  obtain ⟨Z, hZ, _⟩ := exact_aux n E adj v r μ hE hE1 hμ1 _ W rfl V toward ψ hnd hp hin hfix
  exact ⟨Z, hZ⟩

/-- On a connected graph there is no constant. -/
theorem exact_connected {n : α → Nat} {E : α → α → Nat → Nat → R} {adj : α → α → Prop} {v : α}
    {r : α → α → Nat} {μ : α → α → Nat → R} {V W : List α} {toward : α → α → Prop} {ψ : α → Nat → R}
    (hE : ∀ u w i j, E u w i j = E w u j i) (hE1 : ∀ u w, ¬adj u w → ∀ i j, E u w i j = 1)
    (hμ1 : ∀ u w, ¬adj u w → ∀ j, μ u w j = 1)
    (hnd : V.Nodup) (hp : V.Perm (v :: W)) (hin : Inward V v adj toward r)
    (hfix : Fixed n ψ E V toward μ)
    (hconn : ∀ w ∈ V, Relation.ReflTransGen (fun a b => adj a b ∧ a ∈ V ∧ b ∈ V) w v) (i : Nat) (a : α → Nat) :
    sumOver n W (wgt ψ E V) (Function.update a v i) = ψ v i * (V.map (fun w => μ w v i)).prod := by
  obtain ⟨Z, hZ, hZ1⟩ := exact_aux n E adj v r μ hE hE1 hμ1 _ W rfl V toward ψ hnd hp hin hfix
  rw [hZ i a, hZ1 hconn, one_mul]

/-! ### Existence of the messages -/

open Classical in
/-- The messages after `k` rounds of updates. -/
noncomputable def rounds (n : α → Nat) (ψ : α → Nat → R) (E : α → α → Nat → Nat → R) (V : List α)
    (adj : α → α → Prop) : Nat → α → α → Nat → R
  | 0, _, _, _ => 1
  | k + 1, u, y, j =>
    if adj u y then
      ∑ i ∈ Finset.range (n u), ψ u i *
        (V.map (fun w => if w = y then 1 else rounds n ψ E V adj k w u i)).prod * E u y i j
    else 1

theorem rounds_nonadj {n : α → Nat} {V : List α} {adj : α → α → Prop} {u y : α} (h : ¬adj u y) (k : Nat)
    (j : Nat) : rounds n ψ E V adj k u y j = 1 := by
  cases k with
  | zero => rfl
  | succ k => simp [rounds, h]

theorem rounds_stable {n : α → Nat} {V : List α} {v : α} {adj : α → α → Prop} {toward : α → α → Prop}
    {r : α → α → Nat} (hin : Inward V v adj toward r) :
    ∀ (m k u y), toward u y → r u y = m → m < k →
      rounds n ψ E V adj k u y = rounds n ψ E V adj (m + 1) u y := by
  intro m
  induction m using Nat.strong_induction_on with
  | _ m ih =>
    intro k u y huy hm hk
    obtain ⟨k, rfl⟩ := Nat.exists_eq_succ_of_ne_zero (n := k) (by omega)
    funext j
    simp only [rounds, if_pos (hin.edge huy)]
    refine Finset.sum_congr rfl (fun i _ => ?_)
    congr 2
    congr 1
    refine List.map_congr_left (fun w hw => ?_)
    by_cases hwy : w = y
    · simp [hwy]
    · rw [if_neg hwy, if_neg hwy]
      by_cases hwu : adj w u
      · obtain ⟨h1, h2⟩ := hin.step hw huy hwu hwy
        rw [ih _ (by omega) k w u h1 rfl (by omega), ih _ (by omega) m w u h1 rfl (by omega)]
      · rw [rounds_nonadj hwu, rounds_nonadj hwu]

theorem exists_fixed (n : α → Nat) (ψ : α → Nat → R) (E : α → α → Nat → Nat → R) {V : List α} {v : α}
    {adj : α → α → Prop} {toward : α → α → Prop} {r : α → α → Nat} (hin : Inward V v adj toward r) :
    ∃ μ : α → α → Nat → R, (∀ u w, ¬adj u w → ∀ j, μ u w j = 1) ∧ Fixed n ψ E V toward μ := by
  refine ⟨fun u y => rounds n ψ E V adj (r u y + 1) u y, fun u w h j => rounds_nonadj h _ _, ?_⟩
  intro u y huy j
  conv_lhs => simp only [rounds, if_pos (hin.edge huy)]
  refine Finset.sum_congr rfl (fun i _ => ?_)
  congr 2
  congr 1
  refine List.map_congr_left (fun w hw => ?_)
  by_cases hwy : w = y
  · simp [hwy]
  · rw [if_neg hwy, if_neg hwy]
    by_cases hwu : adj w u
    · obtain ⟨h1, h2⟩ := hin.step hw huy hwu hwy
      rw [rounds_stable hin _ _ _ _ h1 rfl h2]
    · rw [rounds_nonadj hwu]; exact (rounds_nonadj hwu _ _).symm

/-! ### The messages needed by a node -/

/-- The directed edges whose messages are needed by the messages which reach `v`. -/
inductive Toward (adj : α → α → Prop) (v : α) : α → α → Prop
  | last {w : α} : adj w v → Toward adj v w v
  | step {w u y : α} : Toward adj v u y → adj w u → w ≠ y → Toward adj v w u

theorem Toward.adj {adj : α → α → Prop} {v u y : α} (h : Toward adj v u y) : adj u y := by
  cases h <;> assumption

/-- A path without immediate returns which goes back to its start contradicts the ranks. -/
theorem no_return {adj : α → α → Prop} {r : α → α → Nat} (hirr : ∀ u, ¬adj u u)
    (hr : ∀ w u y, adj w u → adj u y → w ≠ y → r w u < r u y) :
    ∀ (k : Nat) (f : Nat → α), (∀ i, i < k + 1 → adj (f i) (f (i + 1))) →
      (∀ i, i + 1 < k + 1 → f i ≠ f (i + 2)) → f 0 ≠ f (k + 1) := by
  intro k
  induction k using Nat.strong_induction_on with
  | _ k ih =>
    intro f hadj hne h
    have hmono : ∀ i, i < k → r (f 0) (f 1) < r (f (i + 1)) (f (i + 2)) := by
      intro i
      induction i with
      | zero =>
        intro hi
        exact hr _ _ _ (hadj 0 (by omega)) (hadj 1 (by omega)) (hne 0 (by omega))
      | succ i ihi =>
        intro hi
        exact lt_trans (ihi (by omega))
          (hr _ _ _ (hadj (i + 1) (by omega)) (hadj (i + 2) (by omega)) (hne (i + 1) (by omega)))
    match k, ih, hadj, hne, h, hmono with
    | 0, ih, hadj, hne, h, hmono =>
      have := hadj 0 (by omega)
      rw [h] at this
      exact hirr _ this
    | 1, ih, hadj, hne, h, hmono => exact hne 0 (by omega) h
    | k + 2, ih, hadj, hne, h, hmono =>
      by_cases hback : f (k + 2) = f 1
      · exact ih k (by omega) (fun i => f (i + 1)) (fun i hi => hadj (i + 1) (by omega))
          (fun i hi => hne (i + 1) (by omega)) hback.symm
      · have h1 := hmono (k + 1) (by omega)
        have h2 := hadj (k + 2) (by omega)
        have h3 := hadj 0 (by omega)
        rw [show k + 2 + 1 = k + 3 from rfl] at h2 h
        have h4 : r (f (k + 2)) (f (k + 3)) < r (f 0) (f 1) := by
          rw [← h] at h2 ⊢
          exact hr _ _ _ h2 h3 hback
        exact absurd h4 (not_lt.2 (le_of_lt h1))

theorem Toward.path {adj : α → α → Prop} {v u y : α} (h : Toward adj v u y) :
    ∃ (k : Nat) (f : Nat → α), f 0 = u ∧ f 1 = y ∧ f (k + 1) = v ∧
      (∀ i, i < k + 1 → adj (f i) (f (i + 1))) ∧ ∀ i, i + 1 < k + 1 → f i ≠ f (i + 2) := by
  induction h with
  | @last w h =>
    refine ⟨0, fun i => if i = 0 then w else v, by simp, by simp, by simp, ?_, ?_⟩
    · intro i hi
      have : i = 0 := by omega
      subst this; simpa using h
    · intro i hi; omega
  | @step w u y _ hw hne ih =>
    obtain ⟨k, f, h0, h1, h2, h3, h4⟩ := ih
    refine ⟨k + 1, fun i => match i with | 0 => w | i + 1 => f i, rfl, h0, h2, ?_, ?_⟩
    · intro i hi
      cases i with
      | zero => simpa [h0] using hw
      | succ i => exact h3 i (by omega)
    · intro i hi
      cases i with
      | zero => simpa [h1] using hne
      | succ i => exact h4 i (by omega)

theorem Toward.ne {adj : α → α → Prop} {r : α → α → Nat} (hirr : ∀ u, ¬adj u u)
    (hr : ∀ w u y, adj w u → adj u y → w ≠ y → r w u < r u y) {v u y : α} (h : Toward adj v u y) : u ≠ v := by
  obtain ⟨k, f, h0, _, h2, h3, h4⟩ := h.path
  have := no_return hirr hr k f h3 h4
  rwa [h0, h2] at this

theorem Toward.restrict {adj : α → α → Prop} {v : α} {comp : α → Prop} (hv : comp v)
    (hc : ∀ u w, adj w u → comp u → comp w) {u y : α} (h : Toward adj v u y) :
    Toward (fun a b => adj a b ∧ comp a ∧ comp b) v u y ∧ comp u ∧ comp y := by
  induction h with
  | last h => exact ⟨.last ⟨h, hc _ _ h hv, hv⟩, hc _ _ h hv, hv⟩
  | step _ h hne ih => exact ⟨.step ih.1 ⟨h, hc _ _ h ih.2.1, ih.2.1⟩ hne, hc _ _ h ih.2.1, ih.2.1⟩

/-- Ranks which increase along the paths of the component of `v` give the data of a propagation. -/
theorem inward {V : List α} {v : α} {adj : α → α → Prop} {r : α → α → Nat} {comp : α → Prop}
    (hsymm : ∀ u w, adj u w → adj w u) (hirr : ∀ u, ¬adj u u) (hmem : ∀ u w, adj u w → u ∈ V)
    (hv : comp v) (hc : ∀ u w, adj w u → comp u → comp w)
    (hr : ∀ w u y, comp u → adj w u → adj u y → w ≠ y → r w u < r u y) :
    Inward V v adj (Toward adj v) r :=
  { symm := hsymm
    irrefl := hirr
    edge := fun h => h.adj
    mem := fun h => ⟨hmem _ _ h.adj, hmem _ _ (hsymm _ _ h.adj)⟩
    last := fun _ h => .last h
    step := fun _ h hadj hne =>
      ⟨.step h hadj hne, hr _ _ _ (h.restrict hv hc).2.1 hadj h.adj hne⟩
    ne := fun h => (h.restrict hv hc).1.ne (r := r) (fun u h => hirr u h.1)
      (fun w u y h1 h2 hne => hr w u y h1.2.2 h1.1 h2.1 hne) }

/-- If the messages of an edge towards `v` vanish then so does everything at `v`. -/
theorem Toward.zero {n : α → Nat} {V : List α} {v : α} {adj : α → α → Prop}
    {μ : α → α → Nat → R} (hmem : ∀ u w, adj u w → u ∈ V)
    (hfix : Fixed n ψ E V (Toward adj v) μ) {u y : α} (h : Toward adj v u y)
    (h0 : ∀ j < n y, μ u y j = 0) : ∀ i < n v, (V.map (fun w => μ w v i)).prod = 0 := by
  induction h with
  | @last w h =>
    intro i hi
    exact List.prod_eq_zero (List.mem_map.2 ⟨w, hmem _ _ h, h0 i hi⟩)
  | @step w u y h hw hne ih =>
    apply ih
    intro j _
    rw [hfix u y h j]
    refine Finset.sum_eq_zero (fun i hi => ?_)
    have : (V.map (fun w => if w = y then 1 else μ w u i)).prod = 0 := by
      refine List.prod_eq_zero (List.mem_map.2 ⟨w, hmem _ _ hw, ?_⟩)
      rw [if_neg hne]
      exact h0 i (by simpa using hi)
    rw [this, mul_zero, zero_mul]

end EFG.Tree
