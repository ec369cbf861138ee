import Mathlib.Data.Rat.Floor
import Verif.Lemmas.Ext
import Verif.Lemmas.Res
import Verif.Model.Train
/-
C39: training sets and their iterators.
-/

namespace EFG

/-- C39: a training set is built exactly from the non-empty lists of combinations of the same positive
length, and contains these combinations in the same order; the constructor throws for the other lists. -/
theorem C39_rectangular (cs : List (List Nat)) :
    (makeTrainSet cs = .ok cs ∧ cs ≠ [] ∧ ∃ n, 0 < n ∧ ∀ c ∈ cs, c.length = n) ∨
    (makeTrainSet cs = .throw ∧ (cs = [] ∨ ∀ n, 0 < n → ∃ c ∈ cs, c.length ≠ n)) := by
  cases cs with
  | nil => exact .inr ⟨rfl, .inl rfl⟩
  | cons c cs =>
    rw [makeTrainSet]
    split
    · rename_i h
      rw [List.all_eq_true] at h
      refine .inl ⟨rfl, by simp, c.length, ?_, fun d hd => ?_⟩
      · have := h c (by simp)
        simp at this
        exact List.length_pos_of_ne_nil this
      · have := h d hd
        simp at this
        exact this.2.symm
    · rename_i h
      refine .inr ⟨rfl, .inr (fun n hn => ?_)⟩
      by_contra hall
      push Not at hall
      apply h
      rw [List.all_eq_true]
      intro d hd
      have h1 := hall d hd
      have h2 := hall c (by simp)
      have hd0 : d.length ≠ 0 := by omega
      have hcd : c.length = d.length := by omega
      simp [hcd, List.ne_nil_of_length_pos (show 0 < d.length by omega)]

example : makeTrainSet [[0, 1], [1, 1], [0, 0]] = .ok [[0, 1], [1, 1], [0, 0]] := by
  rcases C39_rectangular [[0, 1], [1, 1], [0, 0]] with h | ⟨_, h | h⟩
  · exact h.1
  · cases h
  · obtain ⟨c, h1, h2⟩ := h 2 (by omega)
    simp at h1
    rcases h1 with rfl | rfl | rfl <;> exact absurd rfl h2

example : makeTrainSet [[0, 1], [1]] = .throw := by
  rcases C39_rectangular [[0, 1], [1]] with ⟨_, _, n, _, h⟩ | h
  · have h1 := h [0, 1] (by simp)
    have h2 := h [1] (by simp)
    simp at h1 h2
    omega
  · exact h.1

/-- C39: with the percentage 1 the iterator visits every sample once, in the order of the set, for every
arithmetic. -/
theorem C39_everything {F : Type} [Arith F] (floorInt : F → Option Int) (set : List (List Nat)) {percentage : F}
    (h : Arith.eq Arith.one percentage = true) (draw : Nat → Nat) :
    iteratorSamples floorInt set percentage draw = .ok set := by
  rw [iteratorSamples, if_pos h]

section
variable {K : Type} [Field K] [LinearOrder K] [IsStrictOrderedRing K] [FloatParams K] [FloorRing K]

/-- The conversion to `int` of the rounding down of a number. The conversion of NaN is undefined. -/
def Ext.floorInt : Ext K → Option Int
  | .val x => some ⌊x⌋
  | .nan => none

/-- C39: with a percentage strictly between 0 and 1 the iterator visits as many samples as the percentage of
the size of the set, rounded down, all of them samples of the set, whatever the random numbers are. -/
theorem C39_subset_partial {cs : List (List Nat)} (hcs : makeTrainSet cs = .ok cs) {p : K} (h0 : 0 < p) (h1 : p < 1)
    (draw : Nat → Nat) :
    ∃ l, iteratorSamples Ext.floorInt cs (.val p) draw = .ok l ∧ (l.length : Int) = ⌊p * cs.length⌋ ∧
      (∀ c ∈ l, c ∈ cs) ∧ ∀ k < l.length, l[k]? = cs[draw k % cs.length]? := by
  have hpos : 0 < cs.length := by
    cases cs with
    | nil => cases hcs
    | cons c cs => simp
  have hfl : 0 ≤ ⌊p * (cs.length : K)⌋ := Int.floor_nonneg.mpr (by positivity)
  set n := (max 0 ⌊p * (cs.length : K)⌋).toNat with hn
  have hnat : (n : Int) = ⌊p * (cs.length : K)⌋ := by
    rw [hn, max_eq_right hfl, Int.toNat_of_nonneg hfl]
  set l := (drawPositions cs.length ((List.range n).map draw)).map (fun q => cs[q]?.getD []) with hl
  have hmod : ∀ k, draw k % cs.length < cs.length := fun k => Nat.mod_lt _ hpos
  refine ⟨l, ?_, ?_, ?_, ?_⟩
  · unfold iteratorSamples
    rw [if_neg (by simp [h1.ne']), if_neg (by simp [h0, h1.le])]
    simp only [Ext.ofNat_eq, Ext.mul_val, Ext.floorInt]
    rw [← hn]
    refine Res.mapList_ok (fun q hq => ?_)
    simp only [drawPositions, List.map_map, List.mem_map, Function.comp] at hq
    obtain ⟨k, _, rfl⟩ := hq
    rw [List.getElem?_eq_getElem (hmod k)]
    rfl
  · rw [← hnat, hl]
    simp [drawPositions]
  · intro c hc
    simp only [hl, drawPositions, List.map_map, List.mem_map, Function.comp] at hc
    obtain ⟨k, _, rfl⟩ := hc
    rw [List.getElem?_eq_getElem (hmod k)]
    simp
  · intro k hk
    have hk' : k < n := by simpa [hl, drawPositions] using hk
    simp only [hl, drawPositions, List.map_map]
    rw [List.getElem?_map, List.getElem?_range hk', List.getElem?_eq_getElem (hmod k)]
    simp [List.getElem?_eq_getElem (hmod k)]

/-- C39: the other percentages throw.

Missing: a percentage which is not a number (`C39_violated`). -/
theorem C39_refused_partial (set : List (List Nat)) {p : K} (h : p ≤ 0 ∨ 1 < p) (draw : Nat → Nat) :
    iteratorSamples Ext.floorInt set (.val p) draw = .throw := by
  unfold iteratorSamples
  rw [if_neg, if_pos]
  · simp only [Ext.zero_eq, Ext.one_eq, Ext.le_val, Ext.lt_val, Bool.or_eq_true, decide_eq_true_eq]
    exact h
  · simp only [Ext.one_eq, Ext.eq_val, decide_eq_true_eq]
    rintro rfl
    rcases h with h | h
    · exact absurd h (not_le.mpr zero_lt_one)
    · exact lt_irrefl _ h

end

/-- 3/4 of a set of three samples: two of them. -/
example : ∃ l, iteratorSamples Ext.floorInt [[0, 1], [1, 1], [0, 0]] (.val (3 / 4 : ℚ)) (fun k => 7 * k + 1) = .ok l ∧
    (l.length : Int) = ⌊(3 / 4 : ℚ) * 3⌋ ∧ ∀ c ∈ l, c ∈ [[0, 1], [1, 1], [0, 0]] := by
  obtain ⟨l, h1, h2, h3, _⟩ := C39_subset_partial (K := ℚ) (cs := [[0, 1], [1, 1], [0, 0]]) rfl (p := 3 / 4) (by norm_num)
    (by norm_num) (fun k => 7 * k + 1)
  exact ⟨l, h1, h2, h3⟩

example : iteratorSamples Ext.floorInt [[0, 1], [1, 1]] (.val (5 / 4 : ℚ)) id = .throw :=
  C39_refused_partial _ (.inr (by norm_num)) _

example : iteratorSamples Ext.floorInt [[0, 1], [1, 1]] (.val (1 : ℚ)) id = .ok [[0, 1], [1, 1]] :=
  C39_everything _ _ (by decide +kernel) _

/-- C39 is violated by a percentage which is not a number: both comparisons are false, and the conversion to
`int` is undefined. -/
theorem C39_violated : iteratorSamples Ext.floorInt [[0, 1], [1, 1]] (.nan : Ext ℚ) id = .ub := rfl

end EFG
