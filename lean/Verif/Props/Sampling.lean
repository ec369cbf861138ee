import Verif.Lemmas.Sampling
/-
C36: sampling from a discrete distribution.
-/

namespace EFG
variable {K : Type} [Field K] [LinearOrder K] [IsStrictOrderedRing K] [FloatParams K]

/-- C36, for every arithmetic, distribution and draw, also when they are not numbers: the result is a
position of the distribution. -/
theorem C36_in_range {F : Type} [Arith F] (s : F) {p : List F} (h : p ≠ []) : sampleFromDiscrete s p < p.length :=
  sampleFromDiscrete_lt h

/-- Three values and a draw which is not a number. -/
example : sampleFromDiscrete (.nan : Ext ℚ) [.val (1 / 2), .nan, .val 1] < 3 := C36_in_range _ (by simp)

/-- C36: for a positive draw `s`, the values from 0 to 1 are divided in consecutive intervals as long as the
probabilities, and the result is the position of the interval which contains `s`.

Missing: the draw 0 (`C36_violated`). -/
theorem C36_interval_partial {p : List K} (hp : ∀ x ∈ p, 0 ≤ x) (hsum : p.sum = 1) {s : K} (h0 : 0 < s) (h1 : s < 1)
    (k : Nat) : sampleFromDiscrete (.val s) (p.map Ext.val) = k ↔
      k < p.length ∧ (p.take k).sum < s ∧ s ≤ (p.take (k + 1)).sum :=
  sampleFromDiscrete_iff hp h0 (by rw [hsum]; exact h1.le) k

/-- The draw 3/4 on the distribution 1/2, 0, 1/2. -/
example : sampleFromDiscrete (.val (3 / 4 : ℚ)) (([1 / 2, 0, 1 / 2] : List ℚ).map Ext.val) = 2 :=
  (C36_interval_partial (by decide +kernel) (by decide +kernel) (by norm_num) (by norm_num) 2).mpr (by decide +kernel)

/-- C36: a value of probability zero is not returned for a positive draw. -/
theorem C36_positive_partial {p : List K} (hp : ∀ x ∈ p, 0 ≤ x) (hsum : p.sum = 1) {s : K} (h0 : 0 < s) (h1 : s < 1) :
    ∃ x, p[sampleFromDiscrete (.val s) (p.map Ext.val)]? = some x ∧ 0 < x := by
  obtain ⟨h2, h3, h4⟩ := (C36_interval_partial hp hsum h0 h1 _).mp rfl
  refine ⟨_, List.getElem?_eq_getElem h2, ?_⟩
  rw [take_succ_sum (List.getElem?_eq_getElem h2)] at h4
  linarith

example : ∃ x, ([0, 1 / 2, 0, 1 / 2] : List ℚ)[sampleFromDiscrete (.val (1 / 2 : ℚ))
    (([0, 1 / 2, 0, 1 / 2] : List ℚ).map Ext.val)]? = some x ∧ 0 < x :=
  C36_positive_partial (by decide +kernel) (by decide +kernel) (by norm_num) (by norm_num)

/-- C36 is violated by the draw 0: the result is the first value also when its probability is zero. -/
theorem C36_violated : (∀ x ∈ ([0, 1] : List ℚ), 0 ≤ x) ∧ ([0, 1] : List ℚ).sum = 1 ∧
    sampleFromDiscrete (.val (0 : ℚ)) (([0, 1] : List ℚ).map Ext.val) = 0 := by
  decide +kernel

end EFG
