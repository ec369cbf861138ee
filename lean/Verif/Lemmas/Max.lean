import Verif.Lemmas.Ask
import Verif.Lemmas.Ext
/-
The first maximum of a list of numbers, as `find_max` computes it.
-/

set_option linter.unusedSectionVars false

namespace EFG
namespace State
variable {K : Type} [Field K] [LinearOrder K] [IsStrictOrderedRing K]

/-- Position `k` holds the first of the largest elements. -/
def FirstMax (l : List K) (k : Nat) : Prop :=
  ∃ x, l[k]? = some x ∧ (∀ (i : Nat) y, l[i]? = some y → y ≤ x) ∧ ∀ (i : Nat) y, i < k → l[i]? = some y → y < x

theorem findMaxLoop_val [Arith (Ext K)] (hlt' : ∀ a b : K, Arith.lt (Ext.val a) (Ext.val b) = decide (a < b)) :
    ∀ (xs pre : List K) (res : Nat) (m : K), pre[res]? = some m →
    (∀ (i : Nat) y, pre[i]? = some y → y ≤ m) → (∀ (i : Nat) y, i < res → pre[i]? = some y → y < m) →
    FirstMax (pre ++ xs) (findMaxLoop res (Ext.val m) pre.length (xs.map Ext.val)) := by
  intro xs
  induction xs with
  | nil =>
    intro pre res m h1 h2 h3
    rw [List.append_nil]
    exact ⟨m, h1, h2, h3⟩
  | cons x xs ih =>
    intro pre res m h1 h2 h3
    have hres : res < pre.length := (List.getElem?_eq_some_iff.mp h1).1
    rw [List.map_cons, findMaxLoop, hlt']
    have happ : pre ++ x :: xs = (pre ++ [x]) ++ xs := by simp
    have hlen : pre.length + 1 = (pre ++ [x]).length := by simp
    have hget : ∀ (i : Nat) y, (pre ++ [x])[i]? = some y → pre[i]? = some y ∨ (i = pre.length ∧ y = x) := by
      intro i y h
      by_cases hi : i < pre.length
      · rw [List.getElem?_append_left hi] at h; exact Or.inl h
      · rw [List.getElem?_append_right (by omega)] at h
        have : i - pre.length = 0 := by
          by_contra hne
          obtain ⟨j, hj⟩ := Nat.exists_eq_succ_of_ne_zero hne
          rw [hj] at h
          simp at h
        rw [this] at h
        exact Or.inr ⟨by omega, by simpa using h.symm⟩
    by_cases hlt : m < x
    · rw [if_pos (by simpa using hlt), happ, hlen]
      refine ih (pre ++ [x]) pre.length x (by simp) ?_ ?_
      · intro i y h
        rcases hget i y h with h | ⟨_, rfl⟩
        · exact (h2 i y h).trans hlt.le
        · exact le_rfl
      · intro i y hi h
        rcases hget i y h with h | ⟨h, _⟩
        · exact (h2 i y h).trans_lt hlt
        · omega
    · rw [if_neg (by simpa using hlt), happ, hlen]
      refine ih (pre ++ [x]) res m ?_ ?_ ?_
      · rw [List.getElem?_append_left hres]; exact h1
      · intro i y h
        rcases hget i y h with h | ⟨_, rfl⟩
        · exact h2 i y h
        · exact not_lt.mp hlt
      · intro i y hi h
        rcases hget i y h with h | ⟨h, _⟩
        · exact h3 i y hi h
        · omega

/-- `find_max` finds the first of the largest elements, whatever the other operations are. -/
theorem findMax_of_lt [Arith (Ext K)] (hlt : ∀ a b : K, Arith.lt (Ext.val a) (Ext.val b) = decide (a < b)) {l : List K} (h : l ≠ []) : ∃ k, findMax (l.map Ext.val) = .ok k ∧ FirstMax l k := by
  cases l with
  | nil => exact absurd rfl h
  | cons x xs =>
    refine ⟨_, rfl, ?_⟩
    have := findMaxLoop_val hlt xs [x] 0 x rfl (by
      intro i y hy
      cases i with
      | zero => simp at hy; exact hy.ge
      | succ i => simp at hy) (by intro i y hi; omega)
    exact this

/-- `find_max` finds the first of the largest elements. -/
theorem findMax_val [FloatParams K] {l : List K} (h : l ≠ []) : ∃ k, findMax (l.map Ext.val) = .ok k ∧ FirstMax l k :=
  findMax_of_lt Ext.lt_val h

theorem FirstMax.unique {l : List K} {k k' : Nat} (h : FirstMax l k) (h' : FirstMax l k') : k = k' := by
  obtain ⟨x, h1, h2, h3⟩ := h
  obtain ⟨x', g1, g2, g3⟩ := h'
  rcases Nat.lt_trichotomy k k' with hlt | he | hlt
  · exact absurd (g3 k x hlt h1) (not_lt.mpr (h2 k' x' g1))
  · exact he
  · exact absurd (h3 k' x' hlt g1) (not_lt.mpr (g2 k x h1))

end State
end EFG
