import Verif.Lemmas.Ask
import Verif.Lemmas.Ext
/-
The convergence test of the loopy propagation, on numbers.
-/

set_option linter.unusedSectionVars false

namespace EFG
namespace State
variable {K : Type} [Field K] [LinearOrder K] [IsStrictOrderedRing K] [FloatParams K]

/-- A number below the tolerance. -/
def Small (x : Ext K) : Prop := ∃ a, x = .val a ∧ a < FloatParams.tolK

/-- Not a number, or below the tolerance. -/
def Passes (x : Ext K) : Prop := x = .nan ∨ Arith.lt x Arith.tol = true

theorem small_max2 {v x : Ext K} (hv : v.IsVal) : Small (Arith.max2 v x) ↔ Small v ∧ Passes x := by
  cases v with
  | nan => exact absurd rfl hv
  | val a =>
    cases x with
    | nan =>
      have : Arith.max2 (Ext.val a) (Ext.nan : Ext K) = .val a := rfl
      rw [this]; simp [Passes]
    | val b =>
      rw [Ext.max2_val]
      simp only [Small, Passes, Ext.val.injEq, exists_eq_left', max_lt_iff, Ext.tol_eq, Ext.lt_val, decide_eq_true_eq]
      constructor
      · rintro ⟨h1, h2⟩; exact ⟨h1, Or.inr h2⟩
      · rintro ⟨h1, h | h2⟩
        · cases h
        · exact ⟨h1, h2⟩

theorem isVal_max2 {v x : Ext K} (hv : v.IsVal) : (Arith.max2 v x).IsVal := by
  cases v with
  | nan => exact absurd rfl hv
  | val a =>
    cases x with
    | nan => exact Ext.isVal_val a
    | val b => rw [Ext.max2_val]; exact Ext.isVal_val _

theorem forall_modify {α : Type} {l : List α} {i : Nat} {f : α → α} {P : α → Prop} (hi : i < l.length) :
    (∀ x ∈ l.modify i f, P x) ↔ (∀ j (hj : j < l.length), P (if i = j then f l[j] else l[j])) := by
  constructor
  · intro h j hj
    have := h ((l.modify i f)[j]'(by simpa using hj)) (List.getElem_mem _)
    rw [List.getElem_modify] at this
    exact this
  · intro h x hx
    obtain ⟨j, hj, rfl⟩ := List.mem_iff_getElem.mp hx
    rw [List.getElem_modify]
    exact h j (by simpa using hj)

theorem slots_small (n : Nat) (hn : 1 ≤ n) : ∀ (ps : List (Nat × Ext K)) (vs : List (Ext K)), vs.length = n →
    (∀ v ∈ vs, v.IsVal) → ((∀ v ∈ slots n ps vs, v.IsVal) ∧
      ((∀ v ∈ slots n ps vs, Small v) ↔ (∀ v ∈ vs, Small v) ∧ ∀ p ∈ ps, Passes p.2)) := by
  intro ps
  induction ps with
  | nil => intro vs _ hv; exact ⟨hv, by simp [slots]⟩
  | cons p ps ih =>
    intro vs hlen hv
    have hi : p.1 % n < vs.length := by rw [hlen]; exact Nat.mod_lt _ (by omega)
    have h1 : ∀ v ∈ vs.modify (p.1 % n) (fun v => Arith.max2 v p.2), v.IsVal := by
      rw [forall_modify hi]
      intro j hj
      by_cases h : p.1 % n = j
      · rw [if_pos h]; exact isVal_max2 (hv _ (List.getElem_mem _))
      · rw [if_neg h]; exact hv _ (List.getElem_mem _)
    obtain ⟨g1, g2⟩ := ih (vs.modify (p.1 % n) (fun v => Arith.max2 v p.2)) (by rw [List.length_modify]; exact hlen) h1
    have hslots : slots n (p :: ps) vs = slots n ps (vs.modify (p.1 % n) (fun v => Arith.max2 v p.2)) := rfl
    rw [hslots]
    refine ⟨g1, g2.trans ?_⟩
    rw [forall_modify hi]
    constructor
    · rintro ⟨k1, k2⟩
      have hp : Passes p.2 := by
        have := k1 _ hi
        rw [if_pos rfl] at this
        exact ((small_max2 (hv _ (List.getElem_mem _))).mp this).2
      refine ⟨?_, ?_⟩
      · intro v hv'
        obtain ⟨j, hj, rfl⟩ := List.mem_iff_getElem.mp hv'
        have := k1 j hj
        by_cases h : p.1 % n = j
        · rw [if_pos h] at this; exact ((small_max2 (hv _ (List.getElem_mem _))).mp this).1
        · rw [if_neg h] at this; exact this
      · intro q hq
        rcases List.mem_cons.mp hq with rfl | hq
        · exact hp
        · exact k2 q hq
    · rintro ⟨k1, k2⟩
      refine ⟨?_, fun q hq => k2 q (by simp [hq])⟩
      intro j hj
      by_cases h : p.1 % n = j
      · rw [if_pos h]
        exact (small_max2 (hv _ (List.getElem_mem _))).mpr ⟨k1 _ (List.getElem_mem _), k2 p (by simp)⟩
      · rw [if_neg h]; exact k1 _ (List.getElem_mem _)

theorem maxElement_small {l : List (Ext K)} (hv : ∀ v ∈ l, v.IsVal) {m : Ext K} (hm : Arith.maxElement l = .ok m) :
    Arith.lt m Arith.tol = true ↔ ∀ v ∈ l, Small v := by
  cases l with
  | nil => cases hm
  | cons x xs =>
    have hx := (hv x (by simp)).eq
    have hxs : xs = (xs.map Ext.toK).map Ext.val := by
      rw [List.map_map]
      conv => lhs; rw [← List.map_id xs]
      refine List.map_congr_left ?_
      intro y hy
      exact (hv y (by simp [hy])).eq
    have hm' : m = Ext.val (Ext.maxK x.toK (xs.map Ext.toK)) := by
      have : m = Arith.maxFrom x xs := by cases hm; rfl
      rw [this]
      conv => lhs; rw [hx, hxs, Ext.maxFrom_val]
    rw [hm', Ext.tol_eq, Ext.lt_val, decide_eq_true_eq]
    have hle := Ext.le_maxK x.toK (xs.map Ext.toK)
    constructor
    · intro h v hv'
      refine ⟨v.toK, (hv v hv').eq, ?_⟩
      rcases List.mem_cons.mp hv' with rfl | hv'
      · exact hle.1.trans_lt h
      · exact (hle.2 _ (List.mem_map.mpr ⟨v, hv', rfl⟩)).trans_lt h
    · intro h
      have hs : ∀ v ∈ x :: xs, v.toK < FloatParams.tolK := by
        intro v hv'
        obtain ⟨a, h1, h2⟩ := h v hv'
        rw [h1]; exact h2
      rcases Ext.maxK_mem x.toK (xs.map Ext.toK) with h1 | h1
      · rw [h1]; exact hs x (by simp)
      · obtain ⟨y, hy, h2⟩ := List.mem_map.mp h1
        rw [← h2]; exact hs y (by simp [hy])

theorem test_iff {n : Nat} (hn : 1 ≤ n) {ps : List (Nat × Ext K)} {m : Ext K}
    (hm : Arith.maxElement (slots n ps (List.replicate n Arith.zero)) = .ok m) :
    Arith.lt m Arith.tol = true ↔ ∀ x ∈ ps.map Prod.snd, Passes x := by
  obtain ⟨h1, h2⟩ := slots_small n hn ps (List.replicate n Arith.zero) (by simp) (by
    intro v hv
    rw [List.eq_of_mem_replicate hv]
    exact Ext.isVal_val 0)
  rw [maxElement_small h1 hm, h2]
  constructor
  · rintro ⟨_, h⟩ x hx
    obtain ⟨p, hp, rfl⟩ := List.mem_map.mp hx
    exact h p hp
  · intro h
    refine ⟨?_, fun p hp => h _ (List.mem_map.mpr ⟨p, hp, rfl⟩)⟩
    intro v hv
    rw [List.eq_of_mem_replicate hv]
    exact ⟨0, rfl, FloatParams.tolK_pos⟩

theorem Calm.passes {n : Nat} (hn : 1 ≤ n) {xs : List (Ext K)} (h : Calm n xs) : ∀ x ∈ xs, Passes x := by
  obtain ⟨ps, m, rfl, h2, h3⟩ := h
  exact (test_iff hn h2).mp h3

theorem Restless.not_passes {n : Nat} (hn : 1 ≤ n) {xs : List (Ext K)} (h : Restless n xs) :
    ¬ ∀ x ∈ xs, Passes x := by
  obtain ⟨ps, m, rfl, h2, h3⟩ := h
  rw [← test_iff hn h2, h3]
  simp

end State
end EFG
