import Verif.Lemmas.Joint
import Verif.Lemmas.Alike
/-
Sums of the masses of a group over its members.
-/

set_option linter.unusedSectionVars false

namespace EFG
variable {K : Type} [Field K] [LinearOrder K] [IsStrictOrderedRing K] [FloatParams K]

theorem Tree.sumOver_outside {α R : Type} [DecidableEq α] [AddCommMonoid R] (n : α → Nat) (f : (α → Nat) → R) {W : List α}
    {a b : α → Nat} (h : ∀ u, u ∉ W → a u = b u) : Tree.sumOver n W f a = Tree.sumOver n W f b := by
  induction W generalizing a b with
  | nil => rw [show a = b from funext (fun u => h u (by simp))]
  | cons w W ih =>
    refine Finset.sum_congr rfl (fun i _ => ih (fun u hu => ?_))
    by_cases hw : u = w
    · subst hw; simp
    · rw [Function.update_of_ne hw, Function.update_of_ne hw]
      exact h u (by simp [hw, hu])

theorem Tree.sumOver_merge {R : Type} [AddCommMonoid R] (f : Assign → R) (e : Assign) {G W : List Var}
    (hW : ∀ w ∈ W, w ∈ G) (a : Assign) : Tree.sumOver Var.size W (fun b => f (fun u => if u ∈ G then b u else e u)) a =
      Tree.sumOver Var.size W f (fun u => if u ∈ G then a u else e u) := by
  induction W generalizing a with
  | nil => rfl
  | cons w W ih =>
    refine Finset.sum_congr rfl (fun i _ => ?_)
    rw [ih (fun u hu => hW u (by simp [hu]))]
    congr 1
    funext u
    by_cases hw : u = w
    · subst hw; rw [if_pos (hW u (by simp))]; simp
    · rw [Function.update_of_ne hw, Function.update_of_ne hw]

theorem Tree.sumOver_const_mul (c : K) (f : Assign → K) (W : List Var) (a : Assign) :
    Tree.sumOver Var.size W (fun b => c * f b) a = c * Tree.sumOver Var.size W f a := by
  induction W generalizing a with
  | nil => rfl
  | cons w W ih =>
    simp only [Tree.sumOver]
    rw [Finset.mul_sum]
    exact Finset.sum_congr rfl (fun i _ => ih _)

theorem Tree.sumOver_zero {R : Type} [AddCommMonoid R] {f : Assign → R} {W : List Var} {a : Assign}
    (h : ∀ b, (∀ u, u ∉ W → b u = a u) → f b = 0) : Tree.sumOver Var.size W f a = 0 := by
  induction W generalizing a with
  | nil => exact h a (fun _ _ => rfl)
  | cons w W ih =>
    refine Finset.sum_eq_zero (fun i _ => ih (fun b hb => ?_))
    refine h b (fun u hu => ?_)
    rw [hb u (fun hu' => hu (by simp [hu'])), Function.update_of_ne (fun e => hu (by simp [e]))]

namespace State

/-- The hidden members of a group other than `v`, when at most one member is observed. -/
theorem exists_members {s : State (Ext K)} {G : List Var} (hnd : G.Nodup)
    (hsub : ∀ w ∈ G, w ∈ s.vars)
    (hobs : ∀ u ∈ G, ∀ w ∈ G, s.Observes u → s.Observes w → u = w) {v : Var} (hv : v ∈ G) (hh : s.Hidden v) :
    ∃ R : List Var, R.Nodup ∧ (∀ w, w ∈ R ↔ w ∈ G ∧ s.Hidden w ∧ w ≠ v) ∧
      ((G.erase v = R ∧ ∀ w ∈ G, s.Hidden w) ∨
        ∃ u ∈ G, s.Observes u ∧ u ≠ v ∧ u ∉ R ∧ (G.erase v).Perm (u :: R) ∧ ∀ w ∈ G, w ≠ u → s.Hidden w) := by
  classical
  by_cases ho : ∃ u ∈ G, s.Observes u
  · obtain ⟨u, hu, hou⟩ := ho
    have huv : u ≠ v := fun e => hh.2 (e ▸ hou)
    have hrest : ∀ w ∈ G, w ≠ u → s.Hidden w := fun w hw hne =>
      ⟨hsub w hw, fun how => hne (hobs w hw u hu how hou)⟩
    refine ⟨(G.erase v).erase u, (hnd.erase v).erase u, fun w => ?_, .inr ⟨u, hu, hou, huv, ?_, ?_, hrest⟩⟩
    · rw [(hnd.erase v).mem_erase_iff, hnd.mem_erase_iff]
      constructor
      · rintro ⟨h1, h2, h3⟩; exact ⟨h3, hrest w h3 h1, h2⟩
      · rintro ⟨h1, h2, h3⟩; exact ⟨fun e => h2.2 (e ▸ hou), h3, h1⟩
    · exact fun h => ((hnd.erase v).mem_erase_iff.mp h).1 rfl
    · exact List.perm_cons_erase (hnd.mem_erase_iff.mpr ⟨huv, hu⟩)
  · have hall : ∀ w ∈ G, s.Hidden w := fun w hw => ⟨hsub w hw, fun how => ho ⟨w, hw, how⟩⟩
    refine ⟨G.erase v, hnd.erase v, fun w => ?_, .inl ⟨rfl, hall⟩⟩
    rw [hnd.mem_erase_iff]
    exact ⟨fun h => ⟨h.2, hall w h.2, h.1⟩, fun h => ⟨h.2.2, h.1⟩⟩

/-- The masses of a group, summed over the members other than `v`, are the mass of `v`. -/
theorem jointMass_summed {s : State (Ext K)} {ω : Assign → K} {G R l : List Var} {e : Assign} (he : s.Agrees e)
    (hnd : G.Nodup) (hobs : ∀ u ∈ G, ∀ w ∈ G, s.Observes u → s.Observes w → u = w) {v : Var} (hv : v ∈ G)
    (hR : ∀ w, w ∈ R ↔ w ∈ G ∧ s.Hidden w ∧ w ≠ v)
    (hc : (G.erase v = R ∧ ∀ w ∈ G, s.Hidden w) ∨
      ∃ u ∈ G, s.Observes u ∧ u ≠ v ∧ u ∉ R ∧ (G.erase v).Perm (u :: R) ∧ ∀ w ∈ G, w ≠ u → s.Hidden w)
    (hlt : ∀ u ∈ G, s.Observes u → e u < u.size) (a : Assign) (i : Nat) :
    Tree.sumOver Var.size (G.erase v) (s.jointMass ω l e G) (Function.update a v i) = mass ω (R ++ l) e v i := by
  have key : ∀ b0 : Assign, b0 v = i → (∀ u, u ∈ G → u ∉ R → u ≠ v → b0 u = e u) →
      (∀ b : Assign, (∀ u, u ∉ R → b u = b0 u) → ∀ x ∈ s.evidences, x.1 ∈ G → b x.1 = x.2) →
      Tree.sumOver Var.size R (s.jointMass ω l e G) b0 = mass ω (R ++ l) e v i := by
    intro b0 h1 h2 h3
    have h4 : Tree.sumOver Var.size R (s.jointMass ω l e G) b0 = Tree.sumOver Var.size R (fun b =>
        (fun c => Tree.sumOver Var.size l ω c) (fun u => if u ∈ G then b u else e u)) b0 := by
      refine Tree.sumOver_congr_range (fun b hb _ => ?_)
      unfold jointMass
      rw [if_pos (h3 b hb)]
    rw [h4, Tree.sumOver_merge (fun c => Tree.sumOver Var.size l ω c) e (fun w hw => ((hR w).mp hw).1)]
    unfold mass
    rw [Tree.sumOver_append]
    refine Tree.sumOver_outside _ _ (fun u hu => ?_)
    by_cases huv : u = v
    · subst huv; rw [if_pos hv, Function.update_self, h1]
    · rw [Function.update_of_ne huv]
      by_cases hug : u ∈ G
      · rw [if_pos hug, h2 u hug hu huv]
      · rw [if_neg hug]
  rcases hc with ⟨h1, h2⟩ | ⟨u, hu, hou, huv, huR, hp, hrest⟩
  · rw [h1]
    refine key _ (Function.update_self ..) (fun u hug hu huv => absurd ((hR u).mpr ⟨hug, h2 u hug, huv⟩) hu)
      (fun b _ x hx hxg => absurd ⟨x.2, hx⟩ (h2 x.1 hxg).2)
  · rw [Tree.sumOver_perm hp]
    show ∑ k ∈ Finset.range u.size, Tree.sumOver Var.size R (s.jointMass ω l e G)
      (Function.update (Function.update a v i) u k) = _
    rw [Finset.sum_eq_single (e u)]
    · refine key _ ?_ (fun w hwg hw hwv => ?_) (fun b hb x hx hxg => ?_)
      · rw [Function.update_of_ne huv.symm, Function.update_self]
      · by_cases hwu : w = u
        · rw [hwu, Function.update_self]
        · exact absurd ((hR w).mpr ⟨hwg, hrest w hwg hwu, hwv⟩) hw
      · have hxu : x.1 = u := hobs _ hxg _ hu ⟨x.2, hx⟩ hou
        rw [hxu, hb u huR, Function.update_self, ← hxu]
        exact he.2 x.1 x.2 hx
    · intro k _ hk
      refine Tree.sumOver_zero (fun b hb => ?_)
      unfold jointMass
      rw [if_neg]
      intro hall
      obtain ⟨m, hm⟩ := hou
      have h1 := hall (u, m) hm hu
      have h2 := he.2 u m hm
      rw [hb u huR, Function.update_self] at h1
      exact hk (h1.trans h2.symm)
    · intro hk
      exact absurd (Finset.mem_range.mpr (hlt u hu hou)) hk

end State

/-! ### Sums over the members of pieces -/

theorem Tree.sumOver_pieces (F : List Var → Assign → K) {Qs : List (List Var)}
    (hloc : ∀ Q ∈ Qs, ∀ a b : Assign, (∀ u ∈ Q, a u = b u) → F Q a = F Q b) (hnd : Qs.flatten.Nodup) (a b : Assign) :
    Tree.sumOver Var.size Qs.flatten (fun c => (Qs.map (fun Q => F Q c)).prod) a =
      (Qs.map (fun Q => Tree.sumOver Var.size Q (F Q) b)).prod := by
  induction Qs generalizing a with
  | nil => rfl
  | cons Q Qs ih =>
    rw [List.flatten_cons] at hnd ⊢
    rw [Tree.sumOver_append]
    have hd : ∀ u ∈ Q, u ∉ Qs.flatten := fun u hu hu' => (List.nodup_append.mp hnd).2.2 u hu u hu' rfl
    have h1 : Tree.sumOver Var.size Qs.flatten (fun c => ((Q :: Qs).map (fun Q => F Q c)).prod) = fun c =>
        (Qs.map (fun Q => Tree.sumOver Var.size Q (F Q) b)).prod * F Q c := by
      funext c
      simp only [List.map_cons, List.prod_cons]
      rw [Tree.sumOver_mul (fun x y hxy => hloc Q (by simp) x y (fun u hu => hxy u (hd u hu))),
        ih (fun Q hQ => hloc Q (by simp [hQ])) (List.nodup_append.mp hnd).2.1, mul_comm]
    rw [h1, Tree.sumOver_const_mul, List.map_cons, List.prod_cons, mul_comm,
      Tree.sumOver_local (V := Q) (hloc Q (by simp)) (b := b) (fun u hu hu' => absurd hu hu')]

namespace State

theorem jointMass_local (s : State (Ext K)) (ω : Assign → K) (l : List Var) (e : Assign) {G : List Var} {a b : Assign}
    (h : ∀ u ∈ G, a u = b u) : s.jointMass ω l e G a = s.jointMass ω l e G b := by
  unfold jointMass
  have h1 : (∀ x ∈ s.evidences, x.1 ∈ G → a x.1 = x.2) ↔ ∀ x ∈ s.evidences, x.1 ∈ G → b x.1 = x.2 := by
    constructor
    · intro h2 x hx hg; rw [← h x.1 hg]; exact h2 x hx hg
    · intro h2 x hx hg; rw [h x.1 hg]; exact h2 x hx hg
  have h2 : (fun v => if v ∈ G then a v else e v) = (fun v => if v ∈ G then b v else e v) := by
    funext v
    by_cases hv : v ∈ G
    · rw [if_pos hv, if_pos hv, h v hv]
    · rw [if_neg hv, if_neg hv]
  by_cases hc : ∀ x ∈ s.evidences, x.1 ∈ G → a x.1 = x.2
  · rw [if_pos hc, if_pos (h1.mp hc), h2]
  · rw [if_neg hc, if_neg (fun hb => hc (h1.mpr hb))]

theorem jointMass_nonneg {s : State (Ext K)} (hs : Core s) {ω : Assign → K} (hω : ∀ a, s.InRange a → 0 ≤ ω a)
    {G l : List Var} (hl : s.OthersOf G l) {e : Assign} (he : s.Agrees e) {b : Assign} (hb : InDom G b) :
    0 ≤ s.jointMass ω l e G b := by
  unfold jointMass
  split
  · rename_i hc
    exact Tree.sumOver_nonneg _ _ (fun c h1 h2 => hω c (hl.agrees hs he hb hc h1 h2).1)
  · exact le_rfl

theorem jointMass_pos {s : State (Ext K)} (hs : Core s) {ω : Assign → K} (hω : ∀ a, s.InRange a → 0 ≤ ω a) {G l : List Var}
    (hl : s.OthersOf G l) (hsub : ∀ u ∈ G, u ∈ s.vars) {e : Assign} (he : s.Agrees e) (hne : ω e ≠ 0) :
    0 < s.jointMass ω l e G e := by
  have hcond : ∀ x ∈ s.evidences, x.1 ∈ G → e x.1 = x.2 := fun x hx _ => he.2 x.1 x.2 hx
  unfold jointMass
  rw [if_pos hcond]
  refine lt_of_lt_of_le (lt_of_le_of_ne (hω e he.1) (Ne.symm hne))
    (Tree.le_sumOver _ _ (fun c h1 h2 => hω c (hl.agrees hs he (fun u hu => he.1 u (hsub u hu)) hcond h1 h2).1) (fun u _ => ?_)
      (fun u hu => he.1 u ((hl.2 u).mp hu).1.1))
  split <;> rfl

/-- The sum of all the masses of a group is positive. -/
theorem jointMass_total {s : State (Ext K)} (hs : Core s) {ω : Assign → K} (hω : ∀ a, s.InRange a → 0 ≤ ω a) {G l : List Var}
    (hl : s.OthersOf G l) (hsub : ∀ u ∈ G, u ∈ s.vars) {e : Assign} (he : s.Agrees e) (hne : ω e ≠ 0) (a : Assign) :
    0 < Tree.sumOver Var.size G (s.jointMass ω l e G) a := by
  rw [Tree.sumOver_local (V := G) (fun x y h => jointMass_local s ω l e h) (b := e) (fun u hu hu' => absurd hu hu')]
  exact lt_of_lt_of_le (jointMass_pos hs hω hl hsub he hne)
    (Tree.le_sumOver _ _ (fun b _ h2 => jointMass_nonneg hs hω hl he h2) (fun _ _ => rfl) (fun u hu => he.1 u (hsub u hu)))

end State

end EFG
