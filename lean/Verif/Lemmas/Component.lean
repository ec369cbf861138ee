import Verif.Lemmas.Nan
import Verif.Lemmas.Conditional
import Verif.Spec.Cluster
/-
The belief of a variable depends on the factors of its cluster only.
-/

set_option linter.unusedSectionVars false

namespace EFG

namespace Tree
variable {α : Type v} [DecidableEq α] {R : Type u} [CommSemiring R]

/-- Message passing on one component of a graph. -/
theorem exact_component {n : α → Nat} {E : α → α → Nat → Nat → R} {adj : α → α → Prop} {v : α}
    {r : α → α → Nat} {μ : α → α → Nat → R} {V N W : List α} {ψ : α → Nat → R}
    (hE : ∀ u w i j, E u w i j = E w u j i) (hE1 : ∀ u w, ¬adj u w → ∀ i j, E u w i j = 1)
    (hμ1 : ∀ u w, ¬adj u w → ∀ j, μ u w j = 1) (hV : V.Nodup) (hin : Inward V v adj (Toward adj v) r)
    (hfix : Fixed n ψ E V (Toward adj v) μ) (hN : N.Nodup) (hp : N.Perm (v :: W)) (hNV : ∀ w ∈ N, w ∈ V)
    (hcl : ∀ u w, adj w u → u ∈ N → w ∈ N)
    (hconn : ∀ w ∈ N, Relation.ReflTransGen (fun a b => adj a b ∧ a ∈ N ∧ b ∈ N) w v) (i : Nat) (a : α → Nat) :
    sumOver n W (wgt ψ E N) (Function.update a v i) = ψ v i * (V.map (fun w => μ w v i)).prod := by
  classical
  have hvN : v ∈ N := hp.symm.subset (by simp)
  have hrest : ∀ {u y}, Toward adj v u y → u ∈ N ∧ y ∈ N := fun h => (h.restrict (comp := fun u => u ∈ N) hvN hcl).2
  set E' : α → α → Nat → Nat → R := fun u w i j => if u ∈ N ∧ w ∈ N then E u w i j else 1 with hE'
  set μ' : α → α → Nat → R := fun u w j => if u ∈ N ∧ w ∈ N then μ u w j else 1 with hμ'
  have hprod : ∀ u ∈ N, ∀ (c : α → Prop) [DecidablePred c] (i : Nat),
      (N.map (fun w => if c w then 1 else μ' w u i)).prod = (V.map (fun w => if c w then 1 else μ w u i)).prod := by
    intro u hu c _ i
    rw [list_prod_subset hV hN hNV (g := fun w => if c w then 1 else μ w u i)]
    · congr 1
      refine List.map_congr_left (fun w hw => ?_)
      rw [show μ' w u i = μ w u i from if_pos ⟨hw, hu⟩]
    · intro w _ hw
      by_cases hc : c w
      · rw [if_pos hc]
      · rw [if_neg hc]
        exact hμ1 w u (fun h => hw (hcl u w h hu)) i
  have hw : ∀ b, wgt ψ E N b = wgt ψ E' N b := by
    intro b
    refine wgt_congr hN (fun _ _ => rfl) (fun u hu w hw _ => ?_)
    simp only [hE']
    rw [if_pos ⟨hu, hw⟩]
  rw [sumOver_congr hw]
  rw [exact_connected (adj := fun a b => adj a b ∧ a ∈ N ∧ b ∈ N) (r := r) (μ := μ') (toward := Toward adj v) (V := N)]
  · have := hprod v hvN (fun _ => False) i
    simp only [if_false] at this
    rw [this]
  · intro u w i j
    simp only [hE']
    by_cases h : u ∈ N ∧ w ∈ N
    · rw [if_pos h, if_pos h.symm, hE]
    · rw [if_neg h, if_neg (fun h' => h h'.symm)]
  · intro u w h i j
    simp only [hE']
    by_cases h' : u ∈ N ∧ w ∈ N
    · rw [if_pos h']; exact hE1 u w (fun h'' => h ⟨h'', h'⟩) i j
    · rw [if_neg h']
  · intro u w h j
    simp only [hμ']
    by_cases h' : u ∈ N ∧ w ∈ N
    · rw [if_pos h']; exact hμ1 u w (fun h'' => h ⟨h'', h'⟩) j
    · rw [if_neg h']
  · exact hN
  · exact hp
  · exact
      { symm := fun u w h => ⟨hin.symm _ _ h.1, h.2.symm⟩
        irrefl := fun u h => hin.irrefl u h.1
        edge := fun h => ⟨hin.edge h, hrest h⟩
        mem := fun h => hrest h
        last := fun _ h => .last h.1
        step := fun hw h hadj hne => hin.step (hNV _ hw) h hadj.1 hne
        ne := fun h => hin.ne h }
  · intro u y huy j
    obtain ⟨hu, hy⟩ := hrest huy
    simp only [hE']
    rw [show μ' u y j = μ u y j from if_pos ⟨hu, hy⟩, hfix u y huy j]
    refine Finset.sum_congr rfl (fun i _ => ?_)
    rw [hprod u hu (fun w => w = y) i, if_pos ⟨hu, hy⟩]
  · intro w hw
    refine Relation.ReflTransGen.mono ?_ _ _ (hconn w hw)
    exact fun a b h => ⟨h, h.2⟩

end Tree

namespace State
variable {K : Type} [Field K] [LinearOrder K] [IsStrictOrderedRing K]
variable {R : Type} [CommSemiring R]

section lawfree
variable [Arith (Ext K)]

/-- The cluster of a variable: the variables of the propagation are the linked ones. -/
theorem Fresh.cluster_at {s : State (Ext K)} {r : PropResult} (hr : Fresh s r) (hs : Inv s) {v : Var} (hv : v ∈ s.hid)
    (ht : s.TreeAt v) : ∃ nodes ts, v ∈ nodes ∧ Setting s nodes ts ∧ Exact r.kind s ts ∧
      (∀ w, w ∈ nodes ↔ s.Linked v w) ∧
      ∀ w ∈ nodes, Relation.ReflTransGen (fun a b => s.adj a b ∧ a ∈ nodes ∧ b ∈ nodes) w v := by
  obtain ⟨nodes, ts, tree, h1, _, h3, _, h5, h6, h7⟩ := hr.done v hv
  have hwalk : ∀ w, Relation.ReflTransGen (fun a b => (s.act a b).isSome) v w → s.Linked v w ∧ w ∈ nodes ∧
      Relation.ReflTransGen (fun a b => s.adj a b ∧ a ∈ nodes ∧ b ∈ nodes) w v := by
    intro w hw
    induction hw with
    | refl => exact ⟨.refl, h1, .refl⟩
    | tail _ hbc ih =>
      obtain ⟨g1, g2⟩ := h3.hidden hs.toCore ih.2.1 hbc
      have hc := h3.closed _ ih.2.1 _ hbc
      exact ⟨ih.1.tail ⟨g1, g2, (hs.toCore.joins_hidden g1 g2).mpr hbc⟩, hc,
        .head ⟨hs.toCore.adj_symm (h3.act_adj hs.toCore ih.2.1 hbc), hc, ih.2.1⟩ ih.2.2⟩
  have hlink : ∀ w, w ∈ nodes ↔ s.Linked v w := by
    intro w
    constructor
    · exact fun h => (hwalk w (h7 w h)).1
    · intro h
      induction h with
      | refl => exact h1
      | tail _ hbc ih => exact h3.closed _ ih _ ((hs.toCore.joins_hidden hbc.1 hbc.2.1).mp hbc.2.2)
  refine ⟨nodes, ts, h1, h3, h5 ?_, hlink, fun w hw => (hwalk w (h7 w hw)).2.2⟩
  cases tree with
  | true => rfl
  | false =>
    obtain ⟨u, hu, c, hc⟩ := h3.cycle hs.toCore (h6 rfl)
    exact absurd hc (ht u ((hlink u).mp hu) c)

theorem prod_filter {β : Type} {M : Type} [CommMonoid M] (l : List β) (c : β → Prop) [DecidablePred c] (g : β → M) :
    ((l.filter (fun p => decide (c p))).map g).prod = (l.map (fun p => if c p then g p else 1)).prod := by
  induction l with
  | nil => rfl
  | cons b l ih =>
    by_cases h : c b
    · simp [h, ih]
    · simp [h, ih]

theorem _root_.EFG.Tree.wgt_one {α : Type v} [DecidableEq α] {M : Type u} [CommSemiring M] (V : List α) (a : α → Nat) :
    Tree.wgt (fun _ _ => (1 : M)) (fun _ _ _ _ => 1) V a = 1 := by
  induction V with
  | nil => rfl
  | cons u V ih => simp [Tree.wgt, ih]

/-- The product of the factors of a cluster, in terms of the tables of the nodes. -/
theorem clusterRead_eq {s : State (Ext K)} (hH : Healthy s) {φ : Nat → Assign → K} (hφ : s.Images φ) {v : Var}
    (hv : s.Hidden v) {N : List Var} (hN : N.Nodup) (hNl : ∀ w, w ∈ N ↔ s.Linked v w) {a : Assign} (ha : s.Agrees a) :
    s.clusterRead φ v a = Tree.wgt s.psiK s.edgeK N a := by
  classical
  have hs := hH.inv.toCore
  have hvn := hs.net.distinct.nodup
  have hhid : ∀ w ∈ N, s.Hidden w := by
    intro w hw
    rcases ((hNl w).mp hw).cases_tail with h | ⟨_, _, h⟩
    · rw [h]; exact hv
    · exact h.2.1
  have hNobs : ∀ w ∈ N, w ∉ s.obs := fun w hw => (mem_hid.mp (hidden_iff.mp (hhid w hw))).2
  have hNvars : ∀ w ∈ N, w ∈ s.vars := fun w hw => (hhid w hw).1
  -- no factor leaves the cluster
  have hcl : ∀ u ∈ N, ∀ w, s.Hidden w → (s.lnk u w).isSome → w ∈ N := by
    intro u hu w hw hl
    refine (hNl w).mpr (((hNl u).mp hu).tail ⟨hhid u hu, hw, ?_⟩)
    exact hs.joins_iff.mpr hl
  set R := s.vars.filter (fun w => decide (w ∉ N)) with hR
  have hperm : s.vars.Perm (N ++ R) := by
    rw [List.perm_ext_iff_of_nodup hvn]
    · intro w
      rw [List.mem_append, hR, List.mem_filter]
      by_cases hw : w ∈ N
      · simp [hw, hNvars w hw]
      · simp [hw]
    · rw [List.nodup_append]
      refine ⟨hN, hvn.filter _, ?_⟩
      intro w hw w' hw' h
      subst h
      rw [hR, List.mem_filter] at hw'
      simp [hw] at hw'
  set ψ1 : Var → Nat → K := fun u i => if u ∈ N then ((s.una u).map (fun p => s.imgU p i)).prod else 1 with hψ1
  set E1 : Var → Var → Nat → Nat → K := fun u w i j =>
    if u ∈ N ∧ w ∈ N then s.imgB u w j i else if u ∈ N ∨ w ∈ N then s.imgB u w i j else 1 with hE1
  have hEs : ∀ u w i j, E1 u w i j = E1 w u j i := by
    intro u w i j
    simp only [hE1]
    by_cases h : u ∈ N ∧ w ∈ N
    · rw [if_pos h, if_pos h.symm, hs.imgB_swap]
    · rw [if_neg h, if_neg (fun h' : w ∈ N ∧ u ∈ N => h h'.symm)]
      by_cases h' : u ∈ N ∨ w ∈ N
      · rw [if_pos h', if_pos h'.symm, hs.imgB_swap]
      · rw [if_neg h', if_neg (fun h'' : w ∈ N ∨ u ∈ N => h' h''.symm)]
  have hreads : ∀ u w p, s.lnk u w = some p → ∀ f, s.heap[p]? = some f →
      (s.InRange (s.readAt p a)) ∧ ((s.Hidden u ∧ s.Hidden w) → s.readAt p a u = a w ∧ s.readAt p a w = a u) ∧
      (¬(s.Hidden u ∧ s.Hidden w) → s.readAt p a = a) := by
    intro u w p hl f hf
    obtain ⟨_, f', hf', hb⟩ := hs.link u w p hl
    rw [hf] at hf'
    cases hf'
    have hne := hb.ne
    unfold readAt
    rw [hf]
    simp only
    by_cases hh : s.Hidden u ∧ s.Hidden w
    · rcases hb.vars with hv | hv
      · rw [hv]
        simp only
        rw [if_pos hh]
        exact ⟨hH.exchange hl ha.1, fun _ => ⟨by simp [Assign.exchange], by simp [Assign.exchange, hne.symm]⟩,
          fun h => absurd hh h⟩
      · rw [hv]
        simp only
        rw [if_pos hh.symm]
        exact ⟨hH.exchange (by rw [hs.net.symL]; exact hl) ha.1, fun _ => ⟨by simp [Assign.exchange, hne],
          by simp [Assign.exchange]⟩, fun h => absurd hh h⟩
    · rcases hb.vars with hv | hv
      · rw [hv]
        simp only
        rw [if_neg hh]
        exact ⟨ha.1, fun h => absurd h hh, fun _ => rfl⟩
      · rw [hv]
        simp only
        rw [if_neg (fun h => hh h.symm)]
        exact ⟨ha.1, fun h => absurd h hh, fun _ => rfl⟩
  have h1 : s.clusterRead φ v a = Tree.wgt ψ1 E1 s.vars a := by
    unfold clusterRead
    rw [prod_filter s.factors (fun p => s.InCluster v p), hs.prod_factors _ a]
    refine Tree.wgt_congr hvn ?_ ?_
    · intro u hu
      simp only [hψ1]
      have hin : ∀ p ∈ s.una u, (s.InCluster v p ↔ u ∈ N) := by
        intro p hp
        obtain ⟨h1, _, f, hf, hun⟩ := hs.unary u p hp
        constructor
        · rintro ⟨l, w, ⟨_, f', hf', rfl⟩, hw, _, hlw⟩
          rw [hf] at hf'
          cases hf'
          rw [hun.vars, List.mem_singleton] at hw
          rw [← hw]; exact (hNl w).mpr hlw
        · intro h
          exact ⟨[u], u, ⟨h1, f, hf, hun.vars⟩, by simp, hhid u h, (hNl u).mp h⟩
      by_cases huN : u ∈ N
      · rw [if_pos huN]
        congr 1
        refine List.map_congr_left (fun p hp => ?_)
        rw [if_pos ((hin p hp).mpr huN)]
        obtain ⟨_, _, f, hf, hun⟩ := hs.unary u p hp
        have : s.readAt p a = a := by
          unfold readAt
          rw [hf]
          simp only
          rw [hun.vars]
        rw [this]
        exact hφ.una hs hp ha.1
      · rw [if_neg huN]
        refine List.prod_eq_one (fun x hx => ?_)
        obtain ⟨p, hp, rfl⟩ := List.mem_map.1 hx
        rw [if_neg (fun h => huN ((hin p hp).mp h))]
    · intro u _ w _ _
      simp only [hE1]
      cases hl : s.lnk u w with
      | none =>
        have : ∀ i j, s.imgB u w i j = 1 := by intro i j; unfold imgB; rw [hl]
        simp [this]
      | some p =>
        simp only
        obtain ⟨h1, f, hf, hb⟩ := hs.link u w p hl
        obtain ⟨r1, r2, r3⟩ := hreads u w p hl f hf
        have hin : s.InCluster v p ↔ u ∈ N ∨ w ∈ N := by
          constructor
          · rintro ⟨l, z, ⟨_, f', hf', rfl⟩, hz, _, hlz⟩
            rw [hf] at hf'
            cases hf'
            have : z = u ∨ z = w := by
              rcases hb.vars with h | h <;> rw [h] at hz <;> simp at hz
              · exact hz
              · exact hz.symm
            rcases this with rfl | rfl
            · exact Or.inl ((hNl _).mpr hlz)
            · exact Or.inr ((hNl _).mpr hlz)
          · have hu : u ∈ f.vars.group ∧ w ∈ f.vars.group := by
              rcases hb.vars with h | h <;> rw [h] <;> simp
            rintro (h | h)
            · exact ⟨_, u, ⟨h1, f, hf, rfl⟩, hu.1, hhid u h, (hNl u).mp h⟩
            · exact ⟨_, w, ⟨h1, f, hf, rfl⟩, hu.2, hhid w h, (hNl w).mp h⟩
        by_cases hboth : u ∈ N ∧ w ∈ N
        · rw [if_pos hboth, if_pos (hin.mpr (Or.inl hboth.1))]
          obtain ⟨e1, e2⟩ := r2 ⟨hhid u hboth.1, hhid w hboth.2⟩
          rw [hφ.bin hs hl r1, e1, e2]
        · rw [if_neg hboth]
          by_cases hone : u ∈ N ∨ w ∈ N
          · rw [if_pos hone, if_pos (hin.mpr hone)]
            have hnh : ¬(s.Hidden u ∧ s.Hidden w) := by
              rintro ⟨g1, g2⟩
              rcases hone with h | h
              · exact hboth ⟨h, hcl u h w g2 (by rw [hl]; rfl)⟩
              · exact hboth ⟨hcl w h u g1 (by rw [hs.net.symL, hl]; rfl), h⟩
            rw [r3 hnh]
            exact hφ.bin hs hl ha.1
          · rw [if_neg hone, if_neg (fun h => hone (hin.mp h))]
  have hRN : ∀ w ∈ R, w ∉ N := by
    intro w hw
    rw [hR, List.mem_filter] at hw
    simpa using hw.2
  have hrest : Tree.wgt ψ1 E1 R a = 1 := by
    rw [← Tree.wgt_one (M := K) R a]
    refine Tree.wgt_congr (hvn.filter _) ?_ ?_
    · intro u hu
      simp only [hψ1]
      rw [if_neg (hRN u hu)]
    · intro u hu w hw _
      simp only [hE1]
      rw [if_neg (fun h => hRN u hu h.1), if_neg]
      rintro (h | h)
      · exact hRN u hu h
      · exact hRN w hw h
  rw [h1, Tree.wgt_perm hEs hperm, Tree.wgt_append, hrest, mul_one]
  refine Tree.wgt_congr hN ?_ ?_
  · intro u hu
    simp only [psiK, hψ1]
    rw [if_pos hu]
    congr 1
    have hnone : ∀ w, w ∉ N → w ∉ s.obs → w ∈ s.vars → ∀ i j, s.imgB u w i j = 1 := by
      intro w hwN hwo hwv i j
      unfold imgB
      cases hl : s.lnk u w with
      | none => rfl
      | some p =>
        exact absurd (hcl u hu w (hidden_iff.mpr (mem_hid.mpr ⟨hwv, hwo⟩)) (by rw [hl]; rfl)) hwN
    rw [list_prod_subset (V := R) (L := s.obs) (hvn.filter _) hs.obsNodup]
    · congr 1
      refine List.map_congr_left (fun w hw => ?_)
      simp only [hE1]
      rw [if_neg (fun h => hNobs w h.2 hw), if_pos (Or.inl hu), ha.ev hw]
    · intro w hw
      rw [hR, List.mem_filter]
      exact ⟨hs.obsMem w hw, by simpa using fun h => hNobs w h hw⟩
    · intro w hw hwo
      simp only [hE1]
      rw [if_neg (fun h => hRN w hw h.2), if_pos (Or.inl hu)]
      rw [hR, List.mem_filter] at hw
      exact hnone w (by simpa using hw.2) hwo hw.1 _ _
  · intro u hu w hw hne
    simp only [hE1, edgeK]
    rw [if_pos ⟨hu, hw⟩]
    by_cases h : s.adj u w
    · rw [if_pos h]
    · rw [if_neg h]
      have hact : s.act u w = none := by
        cases hc : s.act u w with
        | none => rfl
        | some c =>
          exact absurd ⟨hidden_iff.mp (hhid u hu), hidden_iff.mp (hhid w hw), by rw [hc]; rfl⟩ h
      have hdis : s.dis u w = none := by
        cases hc : s.dis u w with
        | none => rfl
        | some c =>
          rcases hs.disObs u w (by rw [hc]; rfl) with h' | h'
          · exact absurd h' (hNobs u hu)
          · exact absurd h' (hNobs w hw)
      unfold imgB State.lnk
      rw [hact, hdis]
      rfl

/-- The variables of the cluster of a hidden variable. -/
theorem ClusterOthers.mem {s : State (Ext K)} {v : Var} {W : List Var} (hW : s.ClusterOthers v W) (w : Var) :
    w ∈ v :: W ↔ s.Linked v w := by
  rw [List.mem_cons, hW.2]
  by_cases h : w = v
  · subst h; simp only [true_or, true_iff]; exact .refl
  · simp [h]

theorem ClusterOthers.hid {s : State (Ext K)} {v : Var} (hv : s.Hidden v) {W : List Var} (hW : s.ClusterOthers v W)
    {w : Var} (hw : w ∈ v :: W) : w ∈ s.hid := by
  rcases ((hW.mem w).mp hw).cases_tail with h | ⟨_, _, h⟩
  · rw [h]; exact hidden_iff.mp hv
  · exact hidden_iff.mp h.2.1

theorem ClusterOthers.nodup {s : State (Ext K)} {v : Var} {W : List Var} (hW : s.ClusterOthers v W) : (v :: W).Nodup :=
  List.nodup_cons.2 ⟨fun h => ((hW.2 v).mp h).2 rfl, hW.1⟩

/-- The masses of a variable in its cluster, in the semiring of the sums. -/
theorem clusterMass_eq {s : State (Ext K)} (hH : Healthy s) {φ : Nat → Assign → K} (hφ : s.Images φ) {v : Var}
    (hv : s.Hidden v) {W : List Var} (hW : s.ClusterOthers v W) {e : Assign} (he : s.Agrees e) {i : Nat}
    (hi : i < v.size) : mass (s.clusterRead φ v) W e v i = sumQuant.toK (Tree.sumOver Var.size W
      (Tree.wgt (s.psiR sumQuant) (s.edgeR sumQuant) (v :: W)) (Function.update e v i)) := by
  have hs := hH.inv.toCore
  have hN := hφ.numeric hs
  set q := sumQuant (K := K) with hq
  have hlinkN := hW.mem
  have hNhid : ∀ w ∈ v :: W, w ∈ s.hid := fun w hw => hW.hid hv hw
  have hNnd := hW.nodup
  have hag : ∀ b : Assign, (∀ u, u ∉ W → b u = Function.update e v i u) → (∀ u ∈ W, b u < u.size) →
      s.Agrees b := by
    intro b h1 h2
    constructor
    · intro u hu
      by_cases huW : u ∈ W
      · exact h2 u huW
      · rw [h1 u huW]
        by_cases huv : u = v
        · rw [huv, Function.update_self]; exact hi
        · rw [Function.update_of_ne huv]; exact he.1 u hu
    · intro u k hk
      have ho : s.Observes u := ⟨k, hk⟩
      have hnh : u ∉ v :: W := fun h => (hidden_iff.mpr (hNhid u h)).2 ho
      rw [h1 u (fun h => hnh (by simp [h])), Function.update_of_ne (fun h => hnh (by simp [h]))]
      exact he.2 u k hk
  have h1 : mass (s.clusterRead φ v) W e v i =
      Tree.sumOver Var.size W (fun b => q.toK (Tree.wgt (s.psiR q) (s.edgeR q) (v :: W) b)) (Function.update e v i) := by
    unfold mass
    refine Tree.sumOver_congr_range (fun b hb hr => ?_)
    have hb' := hag b hb hr
    rw [clusterRead_eq hH hφ hv hNnd hlinkN hb', q.wgt]
    refine Tree.wgt_congr hNnd ?_ ?_
    · intro u hu
      exact (q.toK_ofK _ (hN.psiK_nonneg hs u (hb'.1 u (mem_hid.mp (hNhid u hu)).1))).symm
    · intro u hu w hw _
      unfold edgeR edgeK
      by_cases h : s.adj u w
      · rw [if_pos h, if_pos h]
        have hsz := hH.flow.sq u w (mem_hid.mp (hNhid u hu)).2 (mem_hid.mp (hNhid w hw)).2 h.2.2
        have h1 := hb'.1 u (mem_hid.mp (hNhid u hu)).1
        have h2 := hb'.1 w (mem_hid.mp (hNhid w hw)).1
        exact (q.toK_ofK _ (hN.imgB_nonneg u w (by omega) (by omega))).symm
      · rw [if_neg h, if_neg h, q.one]
  rw [h1, hq]
  simp only [sumQuant]
  rw [Tree.sumOver_val]

/-- The masses of a variable in its cluster, in terms of the messages of the theory. -/
theorem cluster_mass {s : State (Ext K)} (hH : Healthy s) {φ : Nat → Assign → K} (hφ : s.Images φ) {v : Var}
    (hv : s.Hidden v) {W : List Var} (hW : s.ClusterOthers v W) {e : Assign} (he : s.Agrees e) {nodes : List Var}
    {ts : List Topo} (hset : Setting s nodes ts) (hlink : ∀ w, w ∈ nodes ↔ s.Linked v w)
    (hconn : ∀ w ∈ nodes, Relation.ReflTransGen (fun a b => s.adj a b ∧ a ∈ nodes ∧ b ∈ nodes) w v)
    {rk : Var → Var → Nat} (hin : Tree.Inward s.hid v s.adj (Tree.Toward s.adj v) rk)
    {μ : Var → Var → Nat → {x : K // 0 ≤ x}} (hμ1 : ∀ u w, ¬s.adj u w → ∀ j, μ u w j = 1)
    (hfix : Tree.Fixed Var.size (s.psiR sumQuant) (s.edgeR sumQuant) s.hid (Tree.Toward s.adj v) μ) {i : Nat}
    (hi : i < v.size) : mass (s.clusterRead φ v) W e v i =
      sumQuant.toK (s.psiR sumQuant v i * (s.hid.map (fun w => μ w v i)).prod) := by
  have hs := hH.inv.toCore
  have hmemN : ∀ w, w ∈ v :: W ↔ w ∈ nodes := fun w => (hW.mem w).trans (hlink w).symm
  rw [clusterMass_eq hH hφ hv hW he hi, Tree.exact_component (N := v :: W) (W := W)
    (fun u w i j => hs.edgeR_symm sumQuant u w i j) (fun u w h i j => edgeR_nonadj sumQuant h i j) hμ1
    (hid_nodup hs.net) hin hfix hW.nodup (List.Perm.refl _) (fun w hw => hW.hid hv hw)
    (fun u w h hu => (hmemN w).mpr (hset.closed u ((hmemN u).mp hu) w (hs.net.symA _ _ h.2.2)))
    (fun w hw => Relation.ReflTransGen.mono (fun a b h => ⟨h.1, (hmemN a).mpr h.2.1, (hmemN b).mpr h.2.2⟩) _ _
      (hconn w ((hmemN w).mp hw))) i e]


end lawfree

variable [FloatParams K]

/-- The belief after a sum product propagation: the distribution of the product of the factors of the cluster, as
the library reads them, or NaN if all the products are zero. -/
theorem belief_cluster {ord : List Var → List Var} (hord : ∀ l, (ord l).Perm l) {s : State (Ext K)} (hH : Healthy s)
    (hF : Faithful s) {r : PropResult} (hl : s.last = some r) (hk : r.kind = .sum) {φ : Nat → Assign → K}
    (hφ : s.Images φ) {v : Var} (hv : s.Hidden v) (ht : s.TreeAt v) {W : List Var} (hW : s.ClusterOthers v W)
    {e : Assign} (he : s.Agrees e) :
    ((∃ i < v.size, mass (s.clusterRead φ v) W e v i ≠ 0) →
      s.belief ord v = .ok ((distribution (s.clusterRead φ v) W e v).map .val)) ∧
    ((∀ i < v.size, mass (s.clusterRead φ v) W e v i = 0) → s.belief ord v = .ok (List.replicate v.size .nan)) := by
  have hs := hH.inv.toCore
  have hN := hφ.numeric hs
  have hvh := hidden_iff.mp hv
  set q := sumQuant (K := K) with hq
  obtain ⟨nodes, ts, hvn, hset, hex, hlink, hconn⟩ := (hF.fresh r hl).cluster_at hH.inv hvh ht
  rw [hk] at hex
  obtain ⟨rk, hin, _⟩ := hset.inward hs hex hvn
  obtain ⟨μ, hμ1, hfix⟩ := Tree.exists_fixed Var.size (s.psiR q) (s.edgeR q) hin
  set B : Nat → {x : K // 0 ≤ x} := fun i => s.psiR q v i * (s.hid.map (fun w => μ w v i)).prod with hB
  have hmass : ∀ i < v.size, mass (s.clusterRead φ v) W e v i = q.toK (B i) := fun i hi =>
    cluster_mass hH hφ hv hW he hset hlink hconn hin hμ1 hfix hi
  -- what the library computes
  have hmsg := messages_cases q hH hF hN hset (hF.fresh r hl).typed hex hvn hμ1 hfix
  obtain ⟨mg, ms, f, ps, b1, _, b3, b4, b5, b6, b7, b8, b9⟩ :=
    belief_ok hord hH.inv ((hF.fresh r hl).alive hH.inv) hvh
  rw [b9]
  set L := ord (AMap.keys (s.activeOf v)) with hL
  have hLnd : L.Nodup := (hord _).nodup_iff.mpr (hs.net.nodup v).1
  have hLmem : ∀ w, w ∈ L ↔ s.adj w v ∧ ¬False := by
    intro w
    rw [hL, (hord _).mem_iff, AMap.mem_keys]
    constructor
    · rintro ⟨c, hc⟩
      exact ⟨hs.adj_symm (hset.act_adj hs hvn (by unfold State.act; rw [hc]; rfl)), id⟩
    · rintro ⟨h, _⟩
      exact Option.isSome_iff_exists.mp (hs.net.symA _ _ h.2.2)
  have hBK : ∀ i < v.size, q.toK (B i) = s.psiK v i * (L.map (fun w => q.toK (μ w v i))).prod := by
    intro i hi
    rw [hB]
    simp only
    have := prod_neighbours hs hLnd (ex := fun _ => False) hLmem (μ := fun w => μ w v) (fun w h => hμ1 w v h) i
    simp only [if_false] at this
    rw [this, q.mul, q.prod]
    unfold psiR
    rw [q.toK_ofK _ (hN.psiK_nonneg hs v hi)]
  obtain ⟨f', e1, _, hcase⟩ := gathered_cases hs b1 (merged_cases hs hH.sep hF.coh hF.evid hN hvh b1) b3 b4
    (fun w hw => hmsg w v (.last ((hLmem w).mp hw).1))
    (fun i hi => by rw [← hBK i hi]; exact q.nonneg _)
  rw [b5] at e1
  cases e1
  constructor
  · rintro ⟨i0, hi0, hne⟩
    rcases hcase with ⟨D, hD, hval, _⟩ | ⟨_, hz⟩
    swap
    · exact absurd (by rw [hmass i0 hi0, hBK i0 hi0]; exact hz i0 hi0) hne
    set M : Nat → K := mass (s.clusterRead φ v) W e v with hM
    have hfv : ∀ i < v.size, f.timg [i] = .val (D * M i) := by
      intro i hi
      rw [hval i hi, ← hBK i hi, ← hmass i hi]
    have hsum : ((List.range v.size).map (fun i => D * M i)).sum = D * ((List.range v.size).map M).sum := by
      rw [List.sum_map_mul_left]
    have hMs : ((List.range v.size).map M).sum ≠ 0 := by
      intro h
      have h0 : ∀ i < v.size, 0 ≤ M i := fun i hi => by rw [hmass i hi]; exact q.nonneg _
      have := List.single_le_sum (l := (List.range v.size).map M) (by
        intro x hx
        obtain ⟨i, hi, rfl⟩ := List.mem_map.1 hx
        exact h0 i (by simpa using hi)) _ (List.mem_map.2 ⟨i0, by simpa using hi0, rfl⟩)
      rw [h] at this
      exact hne (le_antisymm this (h0 i0 hi0))
    have := b6.probabilities_val hfv (by rw [hsum]; exact mul_ne_zero hD.ne' hMs)
    rw [b7] at this
    rw [this, hsum]
    unfold distribution
    rw [List.map_map]
    congr 1
    refine List.map_congr_left (fun i _ => ?_)
    simp only [Function.comp]
    rw [mul_div_mul_left _ _ hD.ne']
  · intro hz
    have hnan : f.IsNan v := by
      rcases hcase with ⟨_, _, _, i, hi, hne⟩ | ⟨h, _⟩
      · rw [← hBK i hi, ← hmass i hi] at hne
        exact absurd (hz i hi) hne
      · exact h
    have := b6.probabilities_nan hnan
    rw [b7] at this
    exact this

end State
end EFG
