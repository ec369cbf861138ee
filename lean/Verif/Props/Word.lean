import Verif.Props.FactorOps
import Verif.Lemmas.Word
/-
C60: factors when `std::size_t` has `N` values.
-/

namespace EFG
variable {F : Type u} [Arith F]

/-- C60: `Group::size` gives the number of the combinations of the group modulo `N`, so it is right exactly when this
number is less than `N`. -/
theorem C60_size {N : Nat} (hN : 0 < N) (g : Group) : g.sizeW N = (g.group.map Var.size).prod % N ∧
    (g.sizeW N = (g.group.map Var.size).prod ↔ (g.group.map Var.size).prod < N) := by
  rw [Group.sizeW_eq]
  exact ⟨rfl, fun h => h ▸ Nat.mod_lt _ hN, Nat.mod_eq_of_lt⟩

/-- A `set` call whose exception, if any, is caught. -/
def trySetW (N : Nat) (f : Fn F) (w : List Nat × F) : Res (Fn F) :=
  match Fn.mutableSetW N w.1 w.2 f with
  | .ok f' _ => .ok f'
  | .throw f' => .ok f'
  | .ub => .ub

theorem trySetsW_eq {N : Nat} {f : Fn F} (h : f.WF) (hN : f.sizes.prod < N) (ws : List (List Nat × F)) :
    Res.foldList (trySetW N) f ws = Res.foldList trySet f ws := by
  induction ws generalizing f with
  | nil => rfl
  | cons w ws ih =>
    have e : trySetW N f w = trySet f w := by
      unfold trySetW trySet
      rw [h.mutableSetW hN]
      rfl
    unfold Res.foldList
    rw [e]
    unfold trySet
    rcases h.mutableSet w.1 w.2 with ⟨f1, e1, _, _, e4, _, e6, _⟩ | ⟨e1, _⟩
    · rw [e1]
      exact ih e4 (by rw [e6]; exact hN)
    · rw [e1]
      exact ih h hN

/-- C60: on words with `N` values, and with any rounding of the critical size, a new factor over a group with less than
`N` combinations keeps the last accepted write of every combination, as in C04, and no call has undefined behaviour.

Missing: the groups with more combinations, for which this is false (`C60_set_violated`). -/
theorem C60_set_partial {N : Nat} {half : Nat → Nat} {g : Group} (hg : GroupReach g) (hv : ∀ v ∈ g.group, v.WF)
    (hN : (g.group.map Var.size).prod < N) (ws : List (List Nat × F)) :
    ∃ f', Res.foldList (trySetW N) (Fn.ofGroupW N half g) ws = .ok f' ∧
      ∀ q, Valid (g.group.map Var.size) q →
        f'.findImageW N q = .ok ((lastWrite g.group ws q).getD Arith.zero) := by
  have hw := Fn.ofGroupW_wf (F := F) (half := half) (groupReach_wf hg) (fun v h => (hv v h).2) hN
  obtain ⟨f', h1, h2, h3, h4, h5⟩ := trySets_img hw ws
  refine ⟨f', (trySetsW_eq hw hN ws).trans h1, fun q hq => ?_⟩
  rw [h2.findImageW (by rw [h4]; exact hN) (by rw [h4]; exact hq), h2.findImage (by rw [h4]; exact hq), h5 q hq]
  congr 2

/-- C60: in the same way, the anti-correlated factors have the images of C11.

Missing: the groups with more combinations, for which this is false (`C60_anti_violated`). -/
theorem C60_anti_partial {N : Nat} {half : Nat → Nat} {g : Group} (hg : GroupReach g) (hv : ∀ v ∈ g.group, v.WF)
    (hlen : 2 ≤ g.group.length) (hs : ∀ v ∈ g.group, ∀ w ∈ g.group, v.size = w.size)
    (hN : (g.group.map Var.size).prod < N) :
    ∃ f : Fn F, Fn.antiCorrelatedW N half g = .ok f ∧ f.vars = g ∧
      ∀ q, Valid (g.group.map Var.size) q → f.findImageW N q =
        .ok (if (∀ i ∈ q, ∀ j ∈ q, i = j) then Arith.zero else Arith.one) := by
  have hp : ∀ v ∈ g.group, 0 < v.size := fun v h => (hv v h).2
  obtain ⟨f, h1, h2, h3, h4, h5⟩ := Fn.antiCorrelated_ok (F := F) (groupReach_wf hg) hp hs (by omega)
  refine ⟨_, Fn.antiCorrelatedW_eq (groupReach_wf hg) hp hN h1, h3, fun q hq => ?_⟩
  have hw : ({ f with crit := (Fn.ofGroupW N half g : Fn F).crit } : Fn F).WF :=
    ⟨h2.group, h2.sizes_eq, h2.tot_eq, h2.pos, h2.store⟩
  have hsz : f.sizes = g.group.map Var.size := by rw [h2.sizes', h3]
  rw [hw.findImageW (by rw [hsz]; exact hN) (by rw [hsz]; exact hq), hw.findImage (by rw [hsz]; exact hq)]
  exact congrArg _ (h5 q (by rw [hsz]; exact hq))

/-- C60 is violated by the larger groups: when the number of the combinations is a multiple of `N`, as for two
variables with 2^32 values or for 64 variables with two, the sixth accepted write of a new factor is undefined
behaviour, since the values are copied in an empty vector. `compute_critical_size` gives zero for zero, whatever the
rounding. -/
theorem C60_set_violated {N : Nat} {half : Nat → Nat} (h0 : half 0 = 0) {g : Group} (hN : N ∣ (g.group.map Var.size).prod)
    {ws : List (List Nat × F)} (hacc : ∀ w ∈ ws, Accepted g.group w) (hnd : (ws.map Prod.fst).Nodup)
    (hlen : 6 ≤ ws.length) : Res.foldList (trySetW N) (Fn.ofGroupW N half g) ws = .ub := by
  have htot : Fn.sizesProdW N g.sizes = 0 := by
    rw [Fn.sizesProdW_eq]
    exact Nat.mod_eq_zero_of_dvd hN
  have gen : ∀ (ws : List (List Nat × F)) (c : List (List Nat × F)), (∀ w ∈ ws, Accepted g.group w) →
      (c.map Prod.fst ++ ws.map Prod.fst).Nodup → (∀ e ∈ c, Valid g.sizes e.1) → c.length < 6 →
      6 ≤ c.length + ws.length →
      Res.foldList (trySetW N) { (Fn.ofGroupW N half g : Fn F) with data := .sparse c } ws = .ub := by
    intro ws
    induction ws with
    | nil => intro c _ _ _ h1 h2; simp at h2; omega
    | cons w ws ih =>
      intro c hacc hnd hval hc hlen
      obtain ⟨hw1, hw2⟩ := hacc w (by simp)
      have hnot : w.1 ∉ c.map Prod.fst := by
        intro h
        exact (List.nodup_append.mp hnd).2.2 _ h _ (by simp) rfl
      have hset : Fn.sparseSet c w.1 w.2 = c ++ [w] := by
        unfold Fn.sparseSet
        rw [if_neg]
        intro h
        obtain ⟨e, h1, h2⟩ := List.any_eq_true.mp h
        exact hnot (List.mem_map.mpr ⟨e, h1, by simpa using h2⟩)
      have hval' : ∀ e ∈ c ++ [w], Valid g.sizes e.1 := by
        intro e he
        rcases List.mem_append.mp he with he | he
        · exact hval e he
        · rw [List.mem_singleton.mp he]; exact hw2
      have hstep : trySetW N { (Fn.ofGroupW N half g : Fn F) with data := .sparse c } w =
          if 6 ≤ c.length + 1 then .ub else
            .ok { (Fn.ofGroupW N half g : Fn F) with data := .sparse (c ++ [w]) } := by
        unfold trySetW Fn.mutableSetW
        rw [hw1]
        have hvc : Fn.validComb (Fn.ofGroupW N half g : Fn F).vars.group w.1 = true := (Fn.validComb_iff _ _).mpr hw2
        simp only [hvc, Bool.false_eq_true, if_false, Bool.not_true]
        unfold Fn.setW Fn.hashW
        have hw3 : Valid g.sizes w.1 := hw2
        simp only [Fn.ofGroupW, htot, Fn.hashLoopW_zero hw3, hset, h0, Fn.minCritical]
        simp only [List.length_append, List.length_singleton, Nat.zero_max]
        by_cases h6 : 6 ≤ c.length + 1
        · rw [if_pos h6, if_pos h6]
          cases hcw : c ++ [w] with
          | nil => simp at hcw
          | cons e c' =>
            rw [Fn.densifyW_zero rfl (hval' e (by rw [hcw]; simp))]
        · rw [if_neg h6, if_neg h6]
      unfold Res.foldList
      rw [hstep]
      split
      · rename_i heq
        split at heq
        · cases heq
        · cases heq
          refine ih (c ++ [w]) (fun v hv => hacc v (by simp [hv])) ?_ hval' (by simp; omega) (by simp at hlen ⊢; omega)
          simpa [List.append_assoc] using hnd
      · rename_i heq
        split at heq <;> cases heq
      · rfl
  exact gen ws [] hacc (by simpa using hnd) (by simp) (by simp) (by simpa using hlen)

/-- C60 is violated by the larger groups: the constructor of the anti-correlated factors writes in an empty vector. -/
theorem C60_anti_violated {N : Nat} {half : Nat → Nat} {g : Group} (hg : GroupReach g) (hv : ∀ v ∈ g.group, v.WF)
    (hlen : 2 ≤ g.group.length) (hs : ∀ v ∈ g.group, ∀ w ∈ g.group, v.size = w.size)
    (hN : N ∣ (g.group.map Var.size).prod) : Fn.antiCorrelatedW (F := F) N half g = .ub := by
  have htot : Fn.sizesProdW N g.sizes = 0 := by
    rw [Fn.sizesProdW_eq]
    exact Nat.mod_eq_zero_of_dvd hN
  unfold Fn.antiCorrelatedW
  rw [if_neg (by omega), Fn.checkAllSameSize_eq (groupReach_wf hg).ne, if_pos hs]
  cases hgr : g.group with
  | nil => exact absurd hgr (groupReach_wf hg).ne
  | cons v vs =>
    simp only
    rw [← hgr]
    have hsz : ∀ w ∈ g.group, w.size = v.size := fun w hw => hs w hw v (by rw [hgr]; simp)
    have hp : 0 < v.size := (hv v (by rw [hgr]; simp)).2
    obtain ⟨n, hn⟩ := Nat.exists_eq_succ_of_ne_zero hp.ne'
    have hval : Valid g.sizes (Fn.sameValues g.group.length 0) := Fn.valid_sameValues hsz hp
    rw [hn, List.range_succ_eq_map]
    unfold Res.foldList Fn.antiStepW Fn.hashW
    simp only [Fn.ofGroupW, htot, Fn.hashLoopW_zero hval]
    rfl

namespace Ex

/-- Two variables with 2^32 values. -/
def big1 : Var := ⟨50, "big1", 2 ^ 32⟩
def big2 : Var := ⟨51, "big2", 2 ^ 32⟩
def gBig : Group := ⟨[big1, big2], [big1, big2]⟩

theorem gBig_reach : GroupReach gBig := .soup (vars := [big1, big2]) (by decide)

theorem gBig_wf : ∀ v ∈ gBig.group, v.WF := by
  intro v hv
  simp only [gBig, List.mem_cons, List.not_mem_nil, or_false] at hv
  rcases hv with rfl | rfl <;> exact ⟨by decide, by decide⟩

theorem gBig_dvd : 2 ^ 64 ∣ (gBig.group.map Var.size).prod := by decide

end Ex

/-- `Group::size` gives zero for two variables with 2^32 values. -/
example : Ex.gBig.sizeW (2 ^ 64) = 0 := by decide

example : Fn.antiCorrelatedW (F := Ext ℚ) (2 ^ 64) (· / 2) Ex.gBig = .ub :=
  C60_anti_violated Ex.gBig_reach Ex.gBig_wf (by decide) (by decide) Ex.gBig_dvd

/-- Six writes in it. -/
example : Res.foldList (trySetW (2 ^ 64)) (Fn.ofGroupW (2 ^ 64) (· / 2) Ex.gBig : Fn (Ext ℚ))
    ((List.range 6).map (fun i => ([i, 0], .val 1))) = .ub :=
  C60_set_violated rfl Ex.gBig_dvd (by decide) (by decide) (by decide)

/-- A group which fits, with the same words. -/
example : ∃ f', Res.foldList (trySetW (2 ^ 64)) (Fn.ofGroupW (2 ^ 64) (· / 2) Ex.gAB : Fn (Ext ℚ))
    [([0, 1], .val 3), ([1, 1], .val (-1)), ([0, 1], .val 5), ([7], .val 2)] = .ok f' ∧
    ∀ q, Valid (Ex.gAB.group.map Var.size) q → f'.findImageW (2 ^ 64) q = .ok ((lastWrite Ex.gAB.group
      [([0, 1], .val 3), ([1, 1], .val (-1)), ([0, 1], .val 5), ([7], .val 2)] q).getD (.val 0)) :=
  C60_set_partial Ex.gAB_reach Ex.gAB_wf (by decide) _

example : ∃ f : Fn (Ext ℚ), Fn.antiCorrelatedW (2 ^ 64) (· / 2) Ex.gAB = .ok f ∧ f.vars = Ex.gAB ∧
    ∀ q, Valid (Ex.gAB.group.map Var.size) q → f.findImageW (2 ^ 64) q =
      .ok (if (∀ i ∈ q, ∀ j ∈ q, i = j) then .val 0 else .val 1) :=
  C60_anti_partial Ex.gAB_reach Ex.gAB_wf (by decide) (by decide) (by decide)

end EFG
