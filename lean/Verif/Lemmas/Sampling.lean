import Verif.Lemmas.Ext
import Verif.Model.Gibbs
/-
Sampling from a discrete distribution.
-/

namespace EFG

theorem sampleLoop_lt {F : Type} [Arith F] {s : F} {l : List F} {c : F} {k r : Nat} (h : sampleLoop s c k l = some r) :
    r < k + l.length := by
  induction l generalizing c k with
  | nil => cases h
  | cons p l ih =>
    rw [sampleLoop] at h
    split at h
    · cases h; simp
    · have := ih h
      simp only [List.length_cons]
      omega

/-- Whatever the arithmetic, the result is a position of the distribution. -/
theorem sampleFromDiscrete_lt {F : Type} [Arith F] {s : F} {l : List F} (h : l ≠ []) :
    sampleFromDiscrete s l < l.length := by
  unfold sampleFromDiscrete
  have hl := List.length_pos_of_ne_nil h
  cases hs : sampleLoop s Arith.zero 0 l with
  | none => simp only; omega
  | some r => have := sampleLoop_lt hs; simp only; omega

variable {K : Type} [Field K] [LinearOrder K] [IsStrictOrderedRing K] [FloatParams K]

theorem sampleLoop_none {s : K} {l : List K} {c : K} {k : Nat}
    (h : sampleLoop (.val s) (.val c) k (l.map Ext.val) = none) :
    ∀ i < l.length, c + (l.take (i + 1)).sum < s := by
  induction l generalizing c k with
  | nil => simp
  | cons p l ih =>
    simp only [List.map_cons, sampleLoop, Ext.add_val, Ext.le_val, decide_eq_true_eq] at h
    split at h
    · cases h
    · rename_i hlt
      intro i hi
      cases i with
      | zero => simpa using hlt
      | succ i =>
        have := ih h i (by simpa using hi)
        simp only [List.take_succ_cons, List.sum_cons]
        rw [← add_assoc]
        exact this

theorem sampleLoop_some {s : K} {l : List K} {c : K} {k r : Nat}
    (h : sampleLoop (.val s) (.val c) k (l.map Ext.val) = some r) :
    ∃ i < l.length, r = k + i ∧ s ≤ c + (l.take (i + 1)).sum ∧ ∀ j < i, c + (l.take (j + 1)).sum < s := by
  induction l generalizing c k with
  | nil => cases h
  | cons p l ih =>
    simp only [List.map_cons, sampleLoop, Ext.add_val, Ext.le_val, decide_eq_true_eq] at h
    split at h
    · cases h
      exact ⟨0, by simp, rfl, by simpa, by omega⟩
    · rename_i hlt
      obtain ⟨i, h1, h2, h3, h4⟩ := ih h
      refine ⟨i + 1, by simpa using h1, by omega, ?_, ?_⟩
      · simp only [List.take_succ_cons, List.sum_cons]
        rw [← add_assoc]
        exact h3
      · intro j hj
        cases j with
        | zero => simpa using hlt
        | succ j =>
          have := h4 j (by omega)
          simp only [List.take_succ_cons, List.sum_cons]
          rw [← add_assoc]
          exact this

theorem take_sum_mono {l : List K} (h : ∀ x ∈ l, 0 ≤ x) {i j : Nat} (hij : i ≤ j) : (l.take i).sum ≤ (l.take j).sum := by
  induction l generalizing i j with
  | nil => simp
  | cons x l ih =>
    cases i with
    | zero =>
      simp only [List.take_zero, List.sum_nil]
      exact List.sum_nonneg (fun y hy => h y (List.mem_of_mem_take hy))
    | succ i =>
      obtain ⟨j, rfl⟩ : ∃ j', j = j' + 1 := ⟨j - 1, by omega⟩
      simp only [List.take_succ_cons, List.sum_cons]
      have := ih (fun y hy => h y (by simp [hy])) (i := i) (j := j) (by omega)
      linarith

theorem take_succ_sum {l : List K} {k : Nat} {x : K} (h : l[k]? = some x) : (l.take (k + 1)).sum = (l.take k).sum + x := by
  rw [List.take_add_one, List.sum_append, h]
  simp

/-- The result for a positive draw. -/
theorem sampleFromDiscrete_iff {s : K} {l : List K} (hl : ∀ x ∈ l, 0 ≤ x) (h0 : 0 < s) (h1 : s ≤ l.sum) (k : Nat) :
    sampleFromDiscrete (.val s) (l.map Ext.val) = k ↔
      k < l.length ∧ (l.take k).sum < s ∧ s ≤ (l.take (k + 1)).sum := by
  unfold sampleFromDiscrete
  rw [Ext.zero_eq]
  cases hs : sampleLoop (Ext.val s) (.val 0) 0 (l.map Ext.val) with
  | none =>
    exfalso
    have h := sampleLoop_none hs
    by_cases hn : l = []
    · subst hn; simp at h1; exact absurd h0 (not_lt.mpr h1)
    · have hp := List.length_pos_of_ne_nil hn
      have := h (l.length - 1) (by omega)
      rw [show l.length - 1 + 1 = l.length by omega, List.take_length, zero_add] at this
      exact absurd h1 (not_le.mpr this)
  | some r =>
    obtain ⟨i, i1, i2, i3, i4⟩ := sampleLoop_some hs
    rw [zero_add] at i2 i3
    subst i2
    simp only [zero_add] at i4
    have hi : (l.take r).sum < s := by
      cases r with
      | zero => simpa using h0
      | succ r => exact i4 r (by omega)
    simp only
    constructor
    · rintro rfl
      exact ⟨i1, hi, i3⟩
    · rintro ⟨k1, k2, k3⟩
      by_contra hne
      rcases lt_or_gt_of_ne hne with h | h
      · have := take_sum_mono hl (i := r + 1) (j := k) (by omega)
        linarith
      · have := take_sum_mono hl (i := k + 1) (j := r) (by omega)
        linarith

end EFG
