import Verif.Lemmas.Factor
import Verif.Model.Word
/- The operations on words agree with those on natural numbers when the number of combinations fits in a word. -/

set_option linter.unusedSectionVars false

namespace EFG

theorem foldl_mul_mod (N : Nat) (l : List Nat) (a : Nat) :
    l.foldl (fun r v => r * v % N) (a % N) = a * l.prod % N := by
  induction l generalizing a with
  | nil => simp
  | cons x l ih =>
    rw [List.foldl_cons, Nat.mod_mul_mod, ih, List.prod_cons, Nat.mul_assoc]

theorem Group.sizeW_eq (N : Nat) (g : Group) : g.sizeW N = (g.group.map Var.size).prod % N := by
  have := foldl_mul_mod N (g.group.map Var.size) 1
  rw [Nat.one_mul, List.foldl_map] at this
  exact this

namespace Fn
variable {F : Type u}

theorem sizesProdW_eq (N : Nat) (sizes : List Nat) : sizesProdW N sizes = sizes.prod % N := by
  have := foldl_mul_mod N sizes 1
  rwa [Nat.one_mul] at this

theorem hashLoopW_eq {N : Nat} {sizes comb : List Nat} (hv : Valid sizes comb) (hpos : ∀ s ∈ sizes, 0 < s) (res : Nat)
    (h : res + rank sizes comb < N) :
    hashLoopW N sizes comb sizes.prod res = .ok (res + rank sizes comb) := by
  induction hv generalizing res with
  | nil => simp [hashLoopW, rank]
  | cons hc _ ih =>
    rename_i s c ss cs _
    have hs : 0 < s := hpos s (by simp)
    simp only [hashLoopW, List.prod_cons, rank] at h ⊢
    rw [if_neg (by omega), Nat.mul_div_cancel_left _ hs]
    have h1 : c * ss.prod < N := by omega
    rw [Nat.mod_eq_of_lt h1, Nat.mod_eq_of_lt (by omega), ih (fun t ht => hpos t (by simp [ht])) _ (by omega),
      Nat.add_assoc]

/-- Once the product is zero, so are all the positions. -/
theorem hashLoopW_zero {N : Nat} {sizes comb : List Nat} (hv : Valid sizes comb) :
    hashLoopW N sizes comb 0 0 = .ok 0 := by
  induction hv with
  | nil => rfl
  | cons hc _ ih =>
    rename_i s c ss cs _
    simp only [hashLoopW]
    rw [if_neg (by omega), Nat.zero_div, Nat.mul_zero, Nat.zero_mod, Nat.zero_add, Nat.zero_mod]
    exact ih

theorem WF.hashW {N : Nat} {f : Fn F} (h : f.WF) (hN : f.sizes.prod < N) {comb : List Nat} (hv : Valid f.sizes comb) :
    f.hashW N comb = f.hash comb := by
  rw [h.hash hv, Fn.hashW, h.tot_eq, hashLoopW_eq hv h.pos _ (by have := rank_lt hv; omega), Nat.zero_add]

variable [Arith F]

theorem WF.densifyW {N : Nat} {f : Fn F} (h : f.WF) (hN : f.sizes.prod < N) {c : List (List Nat × F)}
    (hc : ∀ e ∈ c, Valid f.sizes e.1) : f.densifyW N c = f.densify c := by
  unfold Fn.densifyW Fn.densify
  generalize List.replicate f.tot (Arith.zero : F) = v
  induction c generalizing v with
  | nil => rfl
  | cons e c ih =>
    have : f.densifyStepW N v e = f.densifyStep v e := by
      unfold densifyStepW densifyStep
      rw [h.hashW hN (hc e (by simp))]
      rfl
    unfold Res.foldList
    rw [this]
    cases f.densifyStep v e with
    | ok v' => exact ih (fun e he => hc e (by simp [he])) v'
    | throw => rfl
    | ub => rfl

theorem WF.setW {N : Nat} {f : Fn F} (h : f.WF) (hN : f.sizes.prod < N) {comb : List Nat} (hv : Valid f.sizes comb)
    (x : F) : f.setW N comb x = f.set comb x := by
  unfold Fn.setW Fn.set
  rw [h.hashW hN hv]
  have hs := h.store
  cases f.hash comb with
  | throw => rfl
  | ub => rfl
  | ok i =>
    cases hd : f.data with
    | dense v => rfl
    | sparse c =>
      rw [hd] at hs
      simp only
      have hc : ∀ e ∈ sparseSet c comb x, Valid f.sizes e.1 := by
        intro e he
        rcases mem_sparseSet.1 he with rfl | ⟨h1, _⟩
        · exact hv
        · exact hs.2 e h1
      rw [h.densifyW hN hc]
      rfl

theorem WF.findImageW {N : Nat} {f : Fn F} (h : f.WF) (hN : f.sizes.prod < N) {comb : List Nat}
    (hv : Valid f.sizes comb) : f.findImageW N comb = f.findImage comb := by
  unfold Fn.findImageW Fn.findImage
  rw [h.hashW hN hv]
  rfl

theorem WF.mutableSetW {N : Nat} {f : Fn F} (h : f.WF) (hN : f.sizes.prod < N) (comb : List Nat) (x : F) :
    Fn.mutableSetW N comb x f = Fn.mutableSet comb x f := by
  unfold Fn.mutableSetW Fn.mutableSet
  split
  · rfl
  · split
    · rfl
    · rename_i hvc
      have hv : Valid f.sizes comb := by
        rw [h.sizes_eq]
        exact (validComb_iff _ _).mp (by simpa using hvc)
      rw [h.setW hN hv]
      rfl

theorem ofGroupW_wf {N : Nat} {half : Nat → Nat} {g : Group} (hg : g.WF) (hpos : ∀ v ∈ g.group, 0 < v.size)
    (hN : (g.group.map Var.size).prod < N) : (ofGroupW N half g : Fn F).WF where
  group := hg
  sizes_eq := rfl
  tot_eq := by
    show sizesProdW N g.sizes = g.sizes.prod
    rw [sizesProdW_eq]
    exact Nat.mod_eq_of_lt hN
  pos := by
    intro s hs
    simp only [ofGroupW, Group.sizes, List.mem_map] at hs
    obtain ⟨v, hv, rfl⟩ := hs
    exact hpos v hv
  store := by simp [ofGroupW, StoreOk]

theorem antiCorrelatedW_eq {N : Nat} {half : Nat → Nat} {g : Group} (hg : g.WF) (hpos : ∀ v ∈ g.group, 0 < v.size)
    (hN : (g.group.map Var.size).prod < N) {f : Fn F} (h : antiCorrelated g = .ok f) :
    antiCorrelatedW N half g = .ok { f with crit := (ofGroupW N half g : Fn F).crit } := by
  have h0 := ofGroupW_wf (F := F) (half := half) hg hpos hN
  unfold antiCorrelated at h
  unfold antiCorrelatedW
  split at h
  · cases h
  rename_i hl
  rw [if_neg hl]
  rw [checkAllSameSize_eq hg.ne] at h ⊢
  split at h
  case h_2 => cases h
  case h_3 => cases h
  rename_i heq
  split at heq
  case isFalse => cases heq
  rename_i hs
  rw [if_pos hs]
  simp only
  cases hgr : g.group with
  | nil => exact absurd hgr hg.ne
  | cons v vs =>
    rw [hgr] at h
    simp only at h ⊢
    rw [← hgr] at h ⊢
    have hsz : ∀ w ∈ g.group, w.size = v.size := fun w hw => hs w hw v (by rw [hgr]; simp)
    have htot : (ofGroupW N half g : Fn F).tot = (ofGroup g : Fn F).tot := by
      rw [h0.tot_eq, (ofGroup_wf (F := F) hg hpos).tot_eq]
      rfl
    have hstep : ∀ (l : List Nat) (imgs : List F), (∀ k ∈ l, k < v.size) →
        Res.foldList (antiStepW N (ofGroupW N half g : Fn F) g.group.length) imgs l =
          Res.foldList (antiStep (ofGroup g : Fn F) g.group.length) imgs l := by
      intro l
      induction l with
      | nil => intros; rfl
      | cons k l ih =>
        intro imgs hk
        have hv : Valid g.sizes (sameValues g.group.length k) := valid_sameValues hsz (hk k (by simp))
        have e : antiStepW N (ofGroupW N half g : Fn F) g.group.length imgs k =
            antiStep (ofGroup g : Fn F) g.group.length imgs k := by
          unfold antiStepW antiStep
          rw [h0.hashW hN hv, h0.hash hv, (ofGroup_wf (F := F) hg hpos).hash hv]
          rfl
        unfold Res.foldList
        rw [e]
        cases antiStep (ofGroup g : Fn F) g.group.length imgs k with
        | ok v' => exact ih v' (fun k hk' => hk k (by simp [hk']))
        | throw => rfl
        | ub => rfl
    rw [htot, hstep _ _ (fun k hk => List.mem_range.mp hk)]
    revert h
    cases Res.foldList (antiStep (ofGroup g : Fn F) g.group.length) (List.replicate (ofGroup g : Fn F).tot Arith.one)
        (List.range v.size) with
    | ok imgs =>
      intro h
      cases h
      simp only [ofGroupW, ofGroup] at htot ⊢
    | throw => intro h; cases h
    | ub => intro h; cases h

/-- When the number of combinations is taken for zero, the conversion to the dense container writes in an empty
vector. -/
theorem densifyW_zero {N : Nat} {f : Fn F} (ht : f.tot = 0) {e : List Nat × F} {c : List (List Nat × F)}
    (he : Valid f.sizes e.1) : f.densifyW N (e :: c) = .ub := by
  unfold densifyW
  have : densifyStepW N f (List.replicate f.tot Arith.zero) e = .ub := by
    unfold densifyStepW Fn.hashW
    rw [ht, hashLoopW_zero he]
    rfl
  unfold Res.foldList
  rw [this]

end Fn
end EFG
