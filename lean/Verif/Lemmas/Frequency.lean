import Mathlib.MeasureTheory.Integral.Bochner.Set
import Mathlib.MeasureTheory.Integral.Bochner.Basic
import Mathlib.Algebra.Order.Field.GeomSum
import Mathlib.Tactic.Linarith
import Mathlib.Tactic.FieldSimp
import Mathlib.Tactic.Positivity
/-
The frequency of events which are nearly independent when they are far from each other. Nothing here refers to the
model of the library.
-/

namespace EFG
open MeasureTheory

theorem geom_le {ρ : ℝ} (h0 : 0 ≤ ρ) (h1 : ρ < 1) (n : Nat) : ∑ i ∈ Finset.range n, ρ ^ i ≤ 1 / (1 - ρ) := by
  have h : (∑ i ∈ Finset.range n, ρ ^ i) * (1 - ρ) = 1 - ρ ^ n := geom_sum_mul_neg ρ n
  rw [le_div_iff₀ (by linarith), h]
  have := pow_nonneg h0 n
  linarith

theorem sum_distance_le {ρ : ℝ} (h0 : 0 ≤ ρ) (h1 : ρ < 1) {n i : Nat} (hi : i < n) :
    ∑ j ∈ Finset.range n, ρ ^ (i - j + (j - i)) ≤ 2 / (1 - ρ) := by
  rw [← Finset.sum_range_add_sum_Ico _ (show i + 1 ≤ n from hi)]
  have h2 : ∑ j ∈ Finset.range (i + 1), ρ ^ (i - j + (j - i)) = ∑ j ∈ Finset.range (i + 1), ρ ^ j := by
    rw [← Finset.sum_range_reflect (fun j => ρ ^ j)]
    refine Finset.sum_congr rfl (fun j hj => ?_)
    have := Finset.mem_range.mp hj
    congr 1
    omega
  have h3 : ∑ j ∈ Finset.Ico (i + 1) n, ρ ^ (i - j + (j - i)) ≤ ∑ j ∈ Finset.range (n - (i + 1)), ρ ^ j := by
    rw [Finset.sum_Ico_eq_sum_range]
    refine Finset.sum_le_sum (fun j _ => ?_)
    exact pow_le_pow_of_le_one h0 h1.le (by omega)
  rw [h2]
  have h4 := geom_le h0 h1 (i + 1)
  have h5 := geom_le h0 h1 (n - (i + 1))
  have h6 : 2 / (1 - ρ) = 1 / (1 - ρ) + 1 / (1 - ρ) := by ring
  rw [h6]
  linarith

variable {Ω : Type} [MeasurableSpace Ω] {P : Measure Ω} [IsProbabilityMeasure P]

/-- The mean square distance of the frequency from `p`. -/
theorem frequency_le {N : Nat} (hN : 0 < N) {S : Nat → Set Ω} (hS : ∀ i < N, MeasurableSet (S i)) {p ρ : ℝ} (hp0 : 0 ≤ p) (hp1 : p ≤ 1)
    (h0 : 0 ≤ ρ) (h1 : ρ < 1) (hone : ∀ i < N, |P.real (S i) - p| ≤ ρ ^ i)
    (htwo : ∀ i < N, ∀ j < N, i ≤ j → |P.real (S i ∩ S j) - P.real (S i) * p| ≤ ρ ^ (j - i)) :
    ∫ ω, ((∑ i ∈ Finset.range N, (S i).indicator (fun _ => (1 : ℝ)) ω) / N - p) ^ 2 ∂P ≤ 4 / ((1 - ρ) * N) := by
  have hN' : (0 : ℝ) < N := by exact_mod_cast hN
  have hint : ∀ i < N, Integrable ((S i).indicator (fun _ => (1 : ℝ))) P :=
    fun i hi => (integrable_const 1).indicator (hS i hi)
  have hint2 : ∀ i < N, ∀ j < N, Integrable ((S i ∩ S j).indicator (fun _ => (1 : ℝ))) P :=
    fun i hi j hj => (integrable_const 1).indicator ((hS i hi).inter (hS j hj))
  have hval : ∀ A : Set Ω, MeasurableSet A → ∫ ω, A.indicator (fun _ => (1 : ℝ)) ω ∂P = P.real A := by
    intro A hA
    rw [integral_indicator_const _ hA]
    simp
  -- the products
  have hprod : ∀ i j ω, ((S i).indicator (fun _ => (1 : ℝ)) ω - p) * ((S j).indicator (fun _ => (1 : ℝ)) ω - p) =
      (S i ∩ S j).indicator (fun _ => (1 : ℝ)) ω - p * (S i).indicator (fun _ => (1 : ℝ)) ω -
        p * (S j).indicator (fun _ => (1 : ℝ)) ω + p * p := by
    intro i j ω
    by_cases hi : ω ∈ S i <;> by_cases hj : ω ∈ S j <;> simp [Set.indicator, hi, hj] <;> ring
  have hpi : ∀ i < N, ∀ j < N, Integrable (fun ω => ((S i).indicator (fun _ => (1 : ℝ)) ω - p) *
      ((S j).indicator (fun _ => (1 : ℝ)) ω - p)) P := by
    intro i hi j hj
    simp only [hprod]
    exact (((hint2 i hi j hj).sub ((hint i hi).const_mul p)).sub ((hint j hj).const_mul p)).add (integrable_const _)
  have hpv : ∀ i < N, ∀ j < N, ∫ ω, ((S i).indicator (fun _ => (1 : ℝ)) ω - p) *
      ((S j).indicator (fun _ => (1 : ℝ)) ω - p) ∂P = P.real (S i ∩ S j) - p * P.real (S i) - p * P.real (S j) + p * p := by
    intro i hi j hj
    simp only [hprod]
    have k1 : Integrable (fun ω => (S i ∩ S j).indicator (fun _ => (1 : ℝ)) ω - p * (S i).indicator (fun _ => (1 : ℝ)) ω) P :=
      (hint2 i hi j hj).sub ((hint i hi).const_mul p)
    have k2 : Integrable (fun ω => (S i ∩ S j).indicator (fun _ => (1 : ℝ)) ω - p * (S i).indicator (fun _ => (1 : ℝ)) ω -
        p * (S j).indicator (fun _ => (1 : ℝ)) ω) P := k1.sub ((hint j hj).const_mul p)
    rw [integral_add k2 (integrable_const _), integral_sub k1 ((hint j hj).const_mul p),
      integral_sub (hint2 i hi j hj) ((hint i hi).const_mul p), integral_const_mul, integral_const_mul,
      hval _ ((hS i hi).inter (hS j hj)), hval _ (hS i hi), hval _ (hS j hj)]
    simp
  have hle : ∀ i < N, ∀ j < N, i ≤ j → P.real (S i ∩ S j) - p * P.real (S i) - p * P.real (S j) + p * p ≤
      2 * ρ ^ (i - j + (j - i)) := by
    intro i hi j hj hij
    have e1 := (abs_le.mp (htwo i hi j hj hij)).2
    have e2 := (abs_le.mp (hone j hj)).1
    have e3 : ρ ^ j ≤ ρ ^ (j - i) := pow_le_pow_of_le_one h0 h1.le (by omega)
    have e4 : i - j + (j - i) = j - i := by omega
    rw [e4]
    have e5 : p * (p - P.real (S j)) ≤ ρ ^ (j - i) := by
      have : p - P.real (S j) ≤ ρ ^ (j - i) := by linarith
      have hq : 0 ≤ ρ ^ (j - i) := pow_nonneg h0 _
      nlinarith
    linarith
  have hle' : ∀ i < N, ∀ j < N, P.real (S i ∩ S j) - p * P.real (S i) - p * P.real (S j) + p * p ≤
      2 * ρ ^ (i - j + (j - i)) := by
    intro i hi j hj
    rcases Nat.le_total i j with h | h
    · exact hle i hi j hj h
    · have := hle j hj i hi h
      rw [Set.inter_comm, Nat.add_comm]
      linarith
  -- the square
  have hsq : ∀ ω, ((∑ i ∈ Finset.range N, (S i).indicator (fun _ => (1 : ℝ)) ω) / N - p) ^ 2 =
      1 / (N : ℝ) ^ 2 * ∑ i ∈ Finset.range N, ∑ j ∈ Finset.range N,
        ((S i).indicator (fun _ => (1 : ℝ)) ω - p) * ((S j).indicator (fun _ => (1 : ℝ)) ω - p) := by
    intro ω
    rw [← Finset.sum_mul_sum, Finset.sum_sub_distrib]
    simp only [Finset.sum_const, Finset.card_range, nsmul_eq_mul]
    field_simp
  simp only [hsq]
  rw [integral_const_mul, integral_finset_sum _ (fun i hi => integrable_finset_sum _ (fun j hj =>
    hpi i (Finset.mem_range.mp hi) j (Finset.mem_range.mp hj)))]
  have hbound : ∑ i ∈ Finset.range N, ∫ ω, ∑ j ∈ Finset.range N, ((S i).indicator (fun _ => (1 : ℝ)) ω - p) *
      ((S j).indicator (fun _ => (1 : ℝ)) ω - p) ∂P ≤ N * (4 / (1 - ρ)) := by
    have : ∀ i ∈ Finset.range N, ∫ ω, ∑ j ∈ Finset.range N, ((S i).indicator (fun _ => (1 : ℝ)) ω - p) *
        ((S j).indicator (fun _ => (1 : ℝ)) ω - p) ∂P ≤ 4 / (1 - ρ) := by
      intro i hi
      have hi' := Finset.mem_range.mp hi
      rw [integral_finset_sum _ (fun j hj => hpi i hi' j (Finset.mem_range.mp hj))]
      calc _ ≤ ∑ j ∈ Finset.range N, 2 * ρ ^ (i - j + (j - i)) := Finset.sum_le_sum (fun j hj => by
              rw [hpv i hi' j (Finset.mem_range.mp hj)]
              exact hle' i hi' j (Finset.mem_range.mp hj))
        _ = 2 * ∑ j ∈ Finset.range N, ρ ^ (i - j + (j - i)) := by rw [Finset.mul_sum]
        _ ≤ 2 * (2 / (1 - ρ)) := mul_le_mul_of_nonneg_left (sum_distance_le h0 h1 hi') (by norm_num)
        _ = 4 / (1 - ρ) := by ring
    refine (Finset.sum_le_sum this).trans ?_
    simp
  have h1ρ : 0 < 1 - ρ := by linarith
  calc _ ≤ 1 / (N : ℝ) ^ 2 * (N * (4 / (1 - ρ))) := mul_le_mul_of_nonneg_left hbound (by positivity)
    _ = 4 / ((1 - ρ) * N) := by field_simp

end EFG
