import Verif.Lemmas.Tree
import Verif.Lemmas.Weight
/-
Message passing on acyclic pairwise graphs: the joint marginals of several nodes. Nothing here refers to the model
of the library.
-/

set_option linter.unusedSectionVars false

namespace EFG.Tree
variable {α : Type v} [DecidableEq α] {R : Type u} [CommSemiring R]
variable {ψ : α → Nat → R} {E : α → α → Nat → Nat → R}

/-- The data of a propagation towards the nodes `G`. -/
structure InwardTo (V G : List α) (adj : α → α → Prop) (toward : α → α → Prop) (r : α → α → Nat) : Prop where
  symm : ∀ u w, adj u w → adj w u
  irrefl : ∀ u, ¬adj u u
  edge : ∀ {u y}, toward u y → adj u y
  mem : ∀ {u y}, toward u y → u ∈ V ∧ y ∈ V
  last : ∀ {w g}, w ∈ V → w ∉ G → g ∈ G → adj w g → toward w g
  step : ∀ {w u y}, w ∈ V → toward u y → adj w u → w ≠ y → toward w u ∧ r w u < r u y
  ne : ∀ {u y}, toward u y → u ∉ G

theorem prod_one_but {V : List α} {f : α → R} {y : α} (hV : V.Nodup) (hy : y ∈ V) (h : ∀ w ∈ V, w ≠ y → f w = 1) :
    (V.map f).prod = f y := by
  have hp : V.Perm (y :: V.erase y) := List.perm_cons_erase hy
  rw [(hp.map _).prod_eq, List.map_cons, List.prod_cons, prod_map_one, mul_one]
  intro w hw
  obtain ⟨h1, h2⟩ := hV.mem_erase_iff.1 hw
  exact h w h2 h1

theorem exactTo_aux (n : α → Nat) (E : α → α → Nat → Nat → R) (adj : α → α → Prop) (G : List α)
    (r : α → α → Nat) (μ : α → α → Nat → R)
    (hE : ∀ u w i j, E u w i j = E w u j i) (hE1 : ∀ u w, ¬adj u w → ∀ i j, E u w i j = 1)
    (hμ1 : ∀ u w, ¬adj u w → ∀ j, μ u w j = 1) :
    ∀ (k : Nat) (W : List α), W.length = k → ∀ (V : List α) (toward : α → α → Prop) (ψ : α → Nat → R),
      V.Nodup → V.Perm (G ++ W) → InwardTo V G adj toward r → Fixed n ψ E V toward μ →
      ∃ Z : R, ∀ a, sumOver n W (wgt ψ E V) a =
        Z * (wgt ψ E G a * (G.map (fun g => (W.map (fun w => μ w g (a g))).prod)).prod) := by
  classical
  intro k
  induction k with
  | zero =>
    intro W hW V toward ψ hnd hp hin hfix
    have hW : W = [] := List.length_eq_zero_iff.1 hW
    subst hW
    rw [List.append_nil] at hp
    refine ⟨1, fun a => ?_⟩
    simp only [sumOver, List.map_nil, List.prod_nil, one_mul]
    rw [prod_map_one (fun _ _ => rfl), mul_one, wgt_perm hE hp]
  | succ k ih =>
    intro W hW V toward ψ hnd hp hin hfix
    have hndGW : (G ++ W).Nodup := hp.nodup_iff.1 hnd
    obtain ⟨hGnd, hWnd, hdisj⟩ := List.nodup_append.1 hndGW
    have hGW : ∀ w ∈ W, w ∉ G := fun w hw hg => hdisj w hg w hw rfl
    have hGV : ∀ g ∈ G, g ∈ V := fun g hg => hp.symm.subset (by simp [hg])
    have hWV : ∀ w ∈ W, w ∈ V := fun w hw => hp.symm.subset (by simp [hw])
    by_cases hex : ∃ w ∈ W, ∃ g ∈ G, adj w g
    · -- remove the sender of the first needed message
      obtain ⟨w, hw, g, hg, hwg⟩ := hex
      have hset : ∃ m x y, toward x y ∧ r x y = m := ⟨_, w, g, hin.last (hWV w hw) (hGW w hw) hg hwg, rfl⟩
      obtain ⟨x, y, hxy, hm⟩ := Nat.find_spec hset
      have hmin : ∀ x' y', toward x' y' → r x y ≤ r x' y' := by
        intro x' y' h
        rw [hm]
        exact Nat.find_min' hset ⟨x', y', h, rfl⟩
      have hxG := hin.ne hxy
      obtain ⟨hxV, hyV⟩ := hin.mem hxy
      have hyx : y ≠ x := by
        intro h; subst h; exact hin.irrefl _ (hin.edge hxy)
      have hleaf : ∀ z ∈ V, z ≠ y → ¬adj z x := by
        intro z hz hzy hadj
        obtain ⟨h1, h2⟩ := hin.step hz hxy hadj hzy
        have := hmin z x h1
        omega
      have hleaf' : ∀ z ∈ V, z ≠ y → ¬adj x z := fun z hz hzy h => hleaf z hz hzy (hin.symm _ _ h)
      have hxW : x ∈ W := by
        rcases List.mem_append.1 (hp.subset hxV) with h | h
        · exact absurd h hxG
        · exact h
      -- the smaller graph
      let V' := V.erase x
      let W' := W.erase x
      have hpV : V.Perm (x :: V') := List.perm_cons_erase hxV
      have hpW : W.Perm (x :: W') := List.perm_cons_erase hxW
      have hndV' : V'.Nodup := hnd.erase x
      have hxV' : x ∉ V' := fun h => (hnd.mem_erase_iff.1 h).1 rfl
      have hmV' : ∀ z, z ∈ V' ↔ z ≠ x ∧ z ∈ V := fun z => hnd.mem_erase_iff
      have hp' : V'.Perm (G ++ W') := by
        have h1 : (x :: V').Perm (x :: (G ++ W')) :=
          (hpV.symm.trans hp).trans ((hpW.append_left G).trans List.perm_middle)
        exact h1.cons_inv
      have hyV' : y ∈ V' := (hmV' y).2 ⟨hyx, hyV⟩
      let ψ' := Function.update ψ y (fun i => ψ y i * μ x y i)
      let toward' : α → α → Prop := fun a b => toward a b ∧ a ≠ x ∧ b ≠ x
      have hin' : InwardTo V' G adj toward' r :=
        { symm := hin.symm
          irrefl := hin.irrefl
          edge := fun h => hin.edge h.1
          mem := fun h => ⟨(hmV' _).2 ⟨h.2.1, (hin.mem h.1).1⟩, (hmV' _).2 ⟨h.2.2, (hin.mem h.1).2⟩⟩
          last := fun hw hwG hg h => ⟨hin.last ((hmV' _).1 hw).2 hwG hg h, ((hmV' _).1 hw).1, fun h => hxG (h ▸ hg)⟩
          step := fun hw h hadj hne => by
            obtain ⟨h1, h2⟩ := hin.step ((hmV' _).1 hw).2 h.1 hadj hne
            exact ⟨⟨h1, ((hmV' _).1 hw).1, h.2.1⟩, h2⟩
          ne := fun h => hin.ne h.1 }
      have hxmsg : ∀ j, μ x y j = ∑ i ∈ Finset.range (n x), ψ x i * E x y i j := by
        intro j
        rw [hfix x y hxy j]
        refine Finset.sum_congr rfl (fun i _ => ?_)
        rw [prod_map_one, mul_one]
        intro z hz
        split
        · rfl
        · exact hμ1 _ _ (hleaf z hz ‹_›) _
      have hfix' : Fixed n ψ' E V' toward' μ := by
        rintro u z ⟨huz, hux, hzx⟩ j
        rw [hfix u z huz j]
        refine Finset.sum_congr rfl (fun i _ => ?_)
        rw [(hpV.map _).prod_eq, List.map_cons, List.prod_cons, if_neg (Ne.symm hzx)]
        by_cases huy : u = y
        · subst huy
          simp only [ψ', Function.update_self]
          ring
        · rw [hμ1 x u (hleaf' u (hin.mem huz).1 huy), one_mul]
          simp only [ψ', Function.update_of_ne huy]
      have hW' : W'.length = k := by
        have := hpW.length_eq
        simp only [List.length_cons] at this
        omega
      obtain ⟨Z, hZ⟩ := ih W' hW' V' toward' ψ' hndV' hp' hin' hfix'
      refine ⟨Z, fun a => ?_⟩
      -- sum the leaf out first
      have hsum : sumOver n W (wgt ψ E V) a = sumOver n W' (wgt ψ' E V') a := by
        have hpW2 : W.Perm (W' ++ [x]) := hpW.trans (List.perm_append_singleton x W').symm
        rw [sumOver_perm hpW2, sumOver_append]
        refine sumOver_congr (fun b => ?_) _
        simp only [sumOver]
        rw [wgt_absorb hndV' hyV', hxmsg, Finset.sum_mul]
        refine Finset.sum_congr rfl (fun l _ => ?_)
        rw [wgt_perm hE hpV]
        simp only [wgt, Function.update_self]
        have h1 : (V'.map (fun w => E x w l (Function.update b x l w))).prod = E x y l (b y) := by
          rw [prod_one_but hndV' hyV', Function.update_of_ne hyx]
          intro w hwV' hwy
          exact hE1 _ _ (hleaf' w ((hmV' w).1 hwV').2 hwy) _ _
        rw [h1, wgt_local (a := Function.update b x l) (b := b) (fun u hu =>
          Function.update_of_ne (fun h : u = x => hxV' (h ▸ hu)) _ _)]
      have hprod : (G.map (fun g => (W.map (fun w => μ w g (a g))).prod)).prod =
          (G.map (fun g => μ x g (a g))).prod * (G.map (fun g => (W'.map (fun w => μ w g (a g))).prod)).prod := by
        rw [← List.prod_map_mul]
        congr 1
        refine List.map_congr_left (fun g _ => ?_)
        rw [(hpW.map _).prod_eq, List.map_cons, List.prod_cons]
      rw [hsum, hZ a, hprod]
      by_cases hyG : y ∈ G
      · rw [prod_one_but hGnd hyG (fun g hg hgy => hμ1 _ _ (hleaf' g (hGV g hg) hgy) _), wgt_absorb hGnd hyG]
        ring
      · rw [prod_map_one (fun g hg => hμ1 _ _ (hleaf' g (hGV g hg) (fun h => hyG (h ▸ hg))) _), one_mul,
          wgt_update (ψ' := ψ) (fun u hu => Function.update_of_ne (fun h : u = y => hyG (h ▸ hu)) _ _)]
    · -- the other nodes are not joined to the kept ones
      push Not at hex
      refine ⟨sumOver n W (wgt ψ E W) (fun _ => 0), fun a => ?_⟩
      have h1 : (G.map (fun g => (W.map (fun w => μ w g (a g))).prod)).prod = 1 :=
        prod_map_one (fun g hg => prod_map_one (fun w hw => hμ1 _ _ (hex w hw g hg) _))
      have h2 : ∀ b, wgt ψ E V b = wgt ψ E G b * wgt ψ E W b := by
        intro b
        rw [wgt_perm hE hp, wgt_append]
        congr 1
        refine wgt_congr hGnd (fun u hu => ?_) (fun _ _ _ _ _ => rfl)
        rw [prod_map_one, mul_one]
        intro w hw
        exact hE1 _ _ (fun h => hex w hw u hu (hin.symm _ _ h)) _ _
      rw [sumOver_congr h2, sumOver_mul (c := wgt ψ E G), h1, mul_one, mul_comm]
      · congr 1
        exact sumOver_local (V := W) (fun a b h => wgt_local h) (fun u hu huW => absurd hu huW)
      · intro b c h
        exact wgt_local (fun g hg => h g (fun hw => hGW g hw hg))

/-- Message passing is exact: the joint marginal of the weights at the nodes `G` is, up to a constant, the product
of the weight of these nodes and of the messages which reach them from the other ones. -/
theorem exactTo {n : α → Nat} {E : α → α → Nat → Nat → R} {adj : α → α → Prop}
    {r : α → α → Nat} {μ : α → α → Nat → R} {V G W : List α} {toward : α → α → Prop} {ψ : α → Nat → R}
    (hE : ∀ u w i j, E u w i j = E w u j i) (hE1 : ∀ u w, ¬adj u w → ∀ i j, E u w i j = 1)
    (hμ1 : ∀ u w, ¬adj u w → ∀ j, μ u w j = 1)
    (hnd : V.Nodup) (hp : V.Perm (G ++ W)) (hin : InwardTo V G adj toward r)
    (hfix : Fixed n ψ E V toward μ) :
    ∃ Z : R, ∀ a, sumOver n W (wgt ψ E V) a =
      Z * (wgt ψ E G a * (G.map (fun g => (W.map (fun w => μ w g (a g))).prod)).prod) :=
  exactTo_aux n E adj G r μ hE hE1 hμ1 _ W rfl V toward ψ hnd hp hin hfix

theorem wgt_split (ψ : α → Nat → R) (E : α → α → Nat → Nat → R) (V : List α) (a : α → Nat) :
    wgt ψ E V a = (V.map (fun u => ψ u (a u))).prod * wgt (fun _ _ => 1) E V a := by
  induction V with
  | nil => simp [wgt]
  | cons v V ih => simp only [wgt, List.map_cons, List.prod_cons, ih]; ring

/-- The messages which reach the nodes `G` do not depend on the edges between these nodes: the joint marginal is
exact for all the weights `E'` of these edges, with the same constant. -/
theorem exactTo_inside {n : α → Nat} {E : α → α → Nat → Nat → R} {adj : α → α → Prop}
    {r : α → α → Nat} {μ : α → α → Nat → R} {V G W : List α} {toward : α → α → Prop} {ψ : α → Nat → R}
    (hE : ∀ u w i j, E u w i j = E w u j i) (hE1 : ∀ u w, ¬adj u w → ∀ i j, E u w i j = 1)
    (hμ1 : ∀ u w, ¬adj u w → ∀ j, μ u w j = 1)
    (hnd : V.Nodup) (hp : V.Perm (G ++ W)) (hin : InwardTo V G adj toward r)
    (hfix : Fixed n ψ E V toward μ) :
    ∃ Z : R, ∀ E' : α → α → Nat → Nat → R, (∀ u w i j, E' u w i j = E' w u j i) →
      (∀ u w, ¬(u ∈ G ∧ w ∈ G) → ∀ i j, E' u w i j = E u w i j) → ∀ a, sumOver n W (wgt ψ E' V) a =
      Z * (wgt ψ E' G a * (G.map (fun g => (W.map (fun w => μ w g (a g))).prod)).prod) := by
  classical
  set E₁ : α → α → Nat → Nat → R := fun u w i j => if u ∈ G ∧ w ∈ G then 1 else E u w i j with hE₁
  have hnd' := List.nodup_append.1 (hp.nodup_iff.1 hnd)
  have hdisj : ∀ w ∈ W, w ∉ G := fun w hw hg => hnd'.2.2 w hg w hw rfl
  have hs₁ : ∀ u w i j, E₁ u w i j = E₁ w u j i := by
    intro u w i j
    simp only [hE₁]
    by_cases h : u ∈ G ∧ w ∈ G
    · rw [if_pos h, if_pos h.symm]
    · rw [if_neg h, if_neg (fun h' => h h'.symm)]; exact hE u w i j
  obtain ⟨Z, hZ⟩ := exactTo (n := n) (E := E₁) (ψ := ψ) hs₁ (fun u w h i j => by
    simp only [hE₁]
    split
    · rfl
    · exact hE1 u w h i j) hμ1 hnd hp hin (fun u y h j => by
      rw [hfix u y h j]
      refine Finset.sum_congr rfl (fun i _ => ?_)
      simp only [hE₁]
      rw [if_neg (fun h' => hin.ne h h'.1)])
  refine ⟨Z, fun E' hs' ho a => ?_⟩
  have h1 : ∀ a, wgt (fun _ _ => (1 : R)) E₁ G a = 1 := by
    intro a
    have h2 : wgt (fun _ _ => (1 : R)) E₁ G a = wgt (fun _ _ => (1 : R)) (fun _ _ _ _ => 1) G a := by
      refine wgt_congr hnd'.1 (fun _ _ => rfl) (fun u hu w hw _ => ?_)
      simp only [hE₁]
      rw [if_pos ⟨hu, hw⟩]
    rw [h2]
    clear * -
    induction G with
    | nil => rfl
    | cons u G ih => simp only [wgt, ih, mul_one]; exact (one_mul _).trans (prod_map_one (fun _ _ => rfl))
  have hsplit : ∀ b, wgt ψ E' V b = wgt (fun _ _ => 1) E' G b * wgt ψ E₁ V b := by
    intro b
    rw [wgt_perm hs' hp, wgt_perm hs₁ hp, wgt_append, wgt_append, wgt_split _ E', wgt_split _ E₁ G, h1, mul_one]
    have e1 : wgt ψ E' W b = wgt ψ E₁ W b := by
      refine wgt_congr hnd'.2.1 (fun _ _ => rfl) (fun u hu w hw _ => ?_)
      simp only [hE₁]
      rw [ho u w (fun h => hdisj u hu h.1), if_neg (fun h => hdisj u hu h.1)]
    have e2 : ∀ u ∈ G, (W.map (fun w => E' u w (b u) (b w))).prod = (W.map (fun w => E₁ u w (b u) (b w))).prod := by
      intro u _
      congr 1
      refine List.map_congr_left (fun w hw => ?_)
      simp only [hE₁]
      rw [ho u w (fun h => hdisj w hw h.2), if_neg (fun h => hdisj w hw h.2)]
    have e3 : G.map (fun u => ψ u (b u) * (W.map (fun w => E' u w (b u) (b w))).prod) =
        G.map (fun u => ψ u (b u) * (W.map (fun w => E₁ u w (b u) (b w))).prod) :=
      List.map_congr_left (fun u hu => by rw [e2 u hu])
    rw [e1, e3]
    ring
  rw [sumOver_congr hsplit, sumOver_mul (fun b c h => wgt_local (fun g hg => h g (fun hw => hdisj g hw hg))), hZ a,
    wgt_split ψ E₁, h1, mul_one, wgt_split ψ E']
  ring

/-! ### Existence of the messages -/

theorem rounds_stable_of {n : α → Nat} {V : List α} {adj : α → α → Prop} {toward : α → α → Prop}
    {r : α → α → Nat} (hedge : ∀ {u y}, toward u y → adj u y)
    (hstep : ∀ {w u y}, w ∈ V → toward u y → adj w u → w ≠ y → toward w u ∧ r w u < r u y) :
    ∀ (m k u y), toward u y → r u y = m → m < k →
      rounds n ψ E V adj k u y = rounds n ψ E V adj (m + 1) u y := by
  intro m
  induction m using Nat.strong_induction_on with
  | _ m ih =>
    intro k u y huy hm hk
    obtain ⟨k, rfl⟩ := Nat.exists_eq_succ_of_ne_zero (n := k) (by omega)
    funext j
    simp only [rounds, if_pos (hedge huy)]
    refine Finset.sum_congr rfl (fun i _ => ?_)
    congr 2
    congr 1
    refine List.map_congr_left (fun w hw => ?_)
    by_cases hwy : w = y
    · simp [hwy]
    · rw [if_neg hwy, if_neg hwy]
      by_cases hwu : adj w u
      · obtain ⟨h1, h2⟩ := hstep hw huy hwu hwy
        rw [ih _ (by omega) k w u h1 rfl (by omega), ih _ (by omega) m w u h1 rfl (by omega)]
      · rw [rounds_nonadj hwu, rounds_nonadj hwu]

theorem exists_fixed_of (n : α → Nat) (ψ : α → Nat → R) (E : α → α → Nat → Nat → R) {V : List α}
    {adj : α → α → Prop} {toward : α → α → Prop} {r : α → α → Nat} (hedge : ∀ {u y}, toward u y → adj u y)
    (hstep : ∀ {w u y}, w ∈ V → toward u y → adj w u → w ≠ y → toward w u ∧ r w u < r u y) :
    ∃ μ : α → α → Nat → R, (∀ u w, ¬adj u w → ∀ j, μ u w j = 1) ∧ Fixed n ψ E V toward μ := by
  refine ⟨fun u y => rounds n ψ E V adj (r u y + 1) u y, fun u w h j => rounds_nonadj h _ _, ?_⟩
  intro u y huy j
  conv_lhs => simp only [rounds, if_pos (hedge huy)]
  refine Finset.sum_congr rfl (fun i _ => ?_)
  congr 2
  congr 1
  refine List.map_congr_left (fun w hw => ?_)
  by_cases hwy : w = y
  · simp [hwy]
  · rw [if_neg hwy, if_neg hwy]
    by_cases hwu : adj w u
    · obtain ⟨h1, h2⟩ := hstep hw huy hwu hwy
      rw [rounds_stable_of hedge hstep _ _ _ _ h1 rfl h2]
    · rw [rounds_nonadj hwu]; exact (rounds_nonadj hwu _ _).symm

/-! ### The messages needed by several nodes -/

/-- The directed edges whose messages are needed by the messages which reach a node of `G` from outside. -/
inductive TowardTo (adj : α → α → Prop) (G : List α) : α → α → Prop
  | last {w g : α} : adj w g → g ∈ G → w ∉ G → TowardTo adj G w g
  | step {w u y : α} : TowardTo adj G u y → adj w u → w ≠ y → TowardTo adj G w u

theorem TowardTo.adj {adj : α → α → Prop} {G : List α} {u y : α} (h : TowardTo adj G u y) : adj u y := by
  cases h <;> assumption

theorem TowardTo.toward {adj : α → α → Prop} {G : List α} {u y : α} (h : TowardTo adj G u y) :
    ∃ g ∈ G, Toward adj g u y := by
  induction h with
  | last h hg _ => exact ⟨_, hg, .last h⟩
  | step _ hw hne ih =>
    obtain ⟨g, hg, h⟩ := ih
    exact ⟨g, hg, .step h hw hne⟩

/-- Moving the target to a neighbour. -/
theorem Toward.move {adj : α → α → Prop} {g g' u y : α} (h : Toward adj g u y) (hg : adj g g') :
    (u = g' ∧ y = g) ∨ Toward adj g' u y := by
  induction h with
  | @last w h =>
    by_cases hw : w = g'
    · exact Or.inl ⟨hw, rfl⟩
    · exact Or.inr (.step (.last hg) h hw)
  | @step w u y _ hw hne ih =>
    rcases ih with ⟨h1, h2⟩ | h
    · subst h1
      exact Or.inr (.last hw)
    · exact Or.inr (.step h hw hne)

/-- Moving the target among the nodes of `G`. -/
theorem Toward.moves {adj : α → α → Prop} {G : List α} {g g' u y : α} (h : Toward adj g u y) (hu : u ∉ G)
    (hp : Relation.ReflTransGen (fun a b => adj a b ∧ a ∈ G ∧ b ∈ G) g g') : Toward adj g' u y := by
  induction hp with
  | refl => exact h
  | tail _ hbc ih =>
    rcases ih.move hbc.1 with ⟨h1, _⟩ | h1
    · exact absurd (h1 ▸ hbc.2.2) hu
    · exact h1

theorem TowardTo.ne {adj : α → α → Prop} {G : List α}
    (hself : ∀ g ∈ G, ∀ u y, Toward adj g u y → u ≠ g)
    (hG : ∀ g ∈ G, ∀ g' ∈ G, Relation.ReflTransGen adj g' g →
      Relation.ReflTransGen (fun a b => adj a b ∧ a ∈ G ∧ b ∈ G) g g') {u y : α} (h : TowardTo adj G u y) : u ∉ G := by
  induction h with
  | last _ _ h => exact h
  | @step w u y h hw hne ih =>
    intro hwG
    obtain ⟨g, hg, h1⟩ := h.toward
    have hlink : ∀ {u y}, Toward adj g u y → Relation.ReflTransGen adj u g := by
      intro u y h
      induction h with
      | last h => exact .single h
      | step _ h _ ih => exact .head h ih
    have h2 := h1.moves ih (hG g hg w hwG (.head hw (hlink h1)))
    exact hself w hwG _ _ (.step h2 hw hne) rfl

/-- Ranks which increase along the paths of the components of `G` give the data of a propagation, if the nodes of
`G` which are in the same component are joined inside `G`. -/
theorem inwardTo {V G : List α} {adj : α → α → Prop} {r : α → α → Nat} {comp : α → Prop}
    (hsymm : ∀ u w, adj u w → adj w u) (hirr : ∀ u, ¬adj u u) (hmem : ∀ u w, adj u w → u ∈ V)
    (hv : ∀ g ∈ G, comp g) (hc : ∀ u w, adj w u → comp u → comp w)
    (hr : ∀ w u y, comp u → adj w u → adj u y → w ≠ y → r w u < r u y)
    (hG : ∀ g ∈ G, ∀ g' ∈ G, Relation.ReflTransGen adj g' g →
      Relation.ReflTransGen (fun a b => adj a b ∧ a ∈ G ∧ b ∈ G) g g') :
    InwardTo V G adj (TowardTo adj G) r := by
  have hin : ∀ g ∈ G, Inward V g adj (Toward adj g) r := fun g hg => inward hsymm hirr hmem (hv g hg) hc hr
  have hcomp : ∀ {u y}, TowardTo adj G u y → comp u := by
    intro u y h
    obtain ⟨g, hg, h⟩ := h.toward
    exact (h.restrict (hv g hg) hc).2.1
  exact
    { symm := hsymm
      irrefl := hirr
      edge := fun h => h.adj
      mem := fun h => ⟨hmem _ _ h.adj, hmem _ _ (hsymm _ _ h.adj)⟩
      last := fun _ hw hg h => .last h hg hw
      step := fun _ h hadj hne => ⟨.step h hadj hne, hr _ _ _ (hcomp h) hadj h.adj hne⟩
      ne := fun h => h.ne (fun g hg u y h => (hin g hg).ne h) hG }

end EFG.Tree
