import Mathlib.Algebra.Order.Nonneg.Ring
import Mathlib.Algebra.BigOperators.Group.List.Basic
import Verif.Lemmas.Special
import Verif.Lemmas.Tree
/-
The two semirings of the propagations, sums and products or maxima and products of nonnegative numbers,
and what merging unary factors and sending messages computes in them.
-/

set_option linter.unusedSectionVars false

namespace EFG
variable {K : Type} [Field K] [LinearOrder K] [IsStrictOrderedRing K]

namespace Ext

theorem maxK_le {m b : K} {l : List K} (h : m ≤ b) (hl : ∀ x ∈ l, x ≤ b) : maxK m l ≤ b := by
  rcases maxK_mem m l with h' | h'
  · rw [h']; exact h
  · exact hl _ h'

theorem maxK_mul {c : K} (hc : 0 ≤ c) (l : List K) : maxK 0 (l.map (fun x => c * x)) = c * maxK 0 l := by
  apply le_antisymm
  · apply maxK_le
    · exact mul_nonneg hc (le_maxK 0 l).1
    · intro x hx
      obtain ⟨y, hy, rfl⟩ := List.mem_map.1 hx
      exact mul_le_mul_of_nonneg_left ((le_maxK 0 l).2 y hy) hc
  · rcases maxK_mem 0 l with h | h
    · rw [h, mul_zero]; exact (le_maxK _ _).1
    · exact (le_maxK _ _).2 _ (List.mem_map.2 ⟨_, h, rfl⟩)

theorem maxK_start {m : K} (hm : 0 ≤ m) {l : List K} (h : ∃ x ∈ l, m ≤ x) : maxK m l = maxK 0 l := by
  obtain ⟨x, hx, hmx⟩ := h
  apply le_antisymm
  · exact maxK_le (le_trans hmx ((le_maxK 0 l).2 x hx)) (le_maxK 0 l).2
  · exact maxK_le (le_trans hm (le_maxK m l).1) (le_maxK m l).2

end Ext

/-- Nonnegative numbers with maxima as sums. -/
@[ext] structure MaxTimes (K : Type) [Field K] [LinearOrder K] where
  x : K
  nonneg : 0 ≤ x

namespace MaxTimes

instance : Add (MaxTimes K) := ⟨fun a b => ⟨max a.x b.x, le_trans a.nonneg (le_max_left _ _)⟩⟩
instance : Mul (MaxTimes K) := ⟨fun a b => ⟨a.x * b.x, mul_nonneg a.nonneg b.nonneg⟩⟩
instance : Zero (MaxTimes K) := ⟨⟨0, le_refl _⟩⟩
instance : One (MaxTimes K) := ⟨⟨1, zero_le_one⟩⟩

@[simp] theorem add_x (a b : MaxTimes K) : (a + b).x = max a.x b.x := rfl
@[simp] theorem mul_x (a b : MaxTimes K) : (a * b).x = a.x * b.x := rfl
@[simp] theorem zero_x : (0 : MaxTimes K).x = 0 := rfl
@[simp] theorem one_x : (1 : MaxTimes K).x = 1 := rfl

instance : CommSemiring (MaxTimes K) where
  add_assoc a b c := by ext; simp [max_assoc]
  zero_add a := by ext; simp [a.nonneg]
  add_zero a := by ext; simp [a.nonneg]
  add_comm a b := by ext; simp [max_comm]
  mul_assoc a b c := by ext; simp [mul_assoc]
  one_mul a := by ext; simp
  mul_one a := by ext; simp
  mul_comm a b := by ext; simp [mul_comm]
  zero_mul a := by ext; simp
  mul_zero a := by ext; simp
  left_distrib a b c := by ext; simp [mul_max_of_nonneg _ _ a.nonneg]
  right_distrib a b c := by ext; simp [max_mul_of_nonneg _ _ c.nonneg]
  nsmul := nsmulRec
  npow := npowRec

theorem sum_x (n : Nat) (f : Nat → MaxTimes K) :
    (∑ i ∈ Finset.range n, f i).x = Ext.maxK 0 ((List.range n).map (fun i => (f i).x)) := by
  induction n with
  | zero => rfl
  | succ n ih =>
    rw [Finset.sum_range_succ, add_x, ih, List.range_succ, List.map_append]
    simp [Ext.maxK, List.foldl_append]

end MaxTimes

/-- The sum or the maximum of some nonnegative numbers. -/
def redZ (kind : Kind) (l : List K) : K :=
  match kind with
  | .sum => l.sum
  | .map => Ext.maxK 0 l

/-- A semiring made of the nonnegative numbers, whose sum is the reduction of the propagation. -/
structure Quant (kind : Kind) (K : Type) [Field K] [LinearOrder K] (R : Type) [CommSemiring R] where
  toK : R → K
  inj : Function.Injective toK
  nonneg : ∀ x, 0 ≤ toK x
  ofK : K → R
  toK_ofK : ∀ x, 0 ≤ x → toK (ofK x) = x
  one : toK 1 = 1
  zero : toK 0 = 0
  mul : ∀ x y, toK (x * y) = toK x * toK y
  sum : ∀ (n : Nat) (f : Nat → R), toK (∑ i ∈ Finset.range n, f i) = redZ kind ((List.range n).map (fun i => toK (f i)))

/-- Sums and products. -/
def sumQuant : Quant .sum K {x : K // 0 ≤ x} where
  toK x := x.1
  inj := Subtype.val_injective
  nonneg x := x.2
  ofK x := ⟨max x 0, le_max_right _ _⟩
  toK_ofK x h := max_eq_left h
  one := rfl
  zero := rfl
  mul _ _ := rfl
  sum n f := by
    simp only [redZ]
    induction n with
    | zero => rfl
    | succ n ih => rw [Finset.sum_range_succ, List.range_succ]; simp [ih]

/-- Maxima and products. -/
def maxQuant : Quant .map K (MaxTimes K) where
  toK x := x.x
  inj := fun a b h => MaxTimes.ext h
  nonneg x := x.nonneg
  ofK x := ⟨max x 0, le_max_right _ _⟩
  toK_ofK x h := max_eq_left h
  one := rfl
  zero := rfl
  mul _ _ := rfl
  sum n f := MaxTimes.sum_x n f

namespace Quant
variable {kind : Kind} {R : Type} [CommSemiring R] (q : Quant kind K R)

theorem prod {α : Type v} (l : List α) (f : α → R) : q.toK (l.map f).prod = (l.map (fun a => q.toK (f a))).prod := by
  induction l with
  | nil => simp [q.one]
  | cons a l ih => simp [q.mul, ih]

theorem eq_zero {x : R} : q.toK x = 0 ↔ x = 0 := by
  rw [← q.zero]; exact q.inj.eq_iff

theorem wgt {α : Type v} [DecidableEq α] (ψ : α → Nat → R) (E : α → α → Nat → Nat → R) (V : List α) (a : α → Nat) :
    q.toK (Tree.wgt ψ E V a) = Tree.wgt (fun u i => q.toK (ψ u i)) (fun u w i j => q.toK (E u w i j)) V a := by
  induction V with
  | nil => exact q.one
  | cons u V ih => simp only [Tree.wgt, q.mul, q.prod, ih]

variable [FloatParams K]

/-- The reduction made by the library is the one of the semiring. -/
theorem red {c : K} (hc : 0 ≤ c) (n : Nat) (g e : Nat → R) (φ : Nat → K)
    (hφ : ∀ i < n, φ i = q.toK (e i))
    (hfloor : kind = .map → ∃ i < n, FloatParams.minK ≤ c * q.toK (g i) * φ i) :
    Fn.redK kind ((List.range n).map (fun i => c * q.toK (g i) * φ i)) =
      c * q.toK (∑ i ∈ Finset.range n, g i * e i) := by
  rw [q.sum]
  have hl : (List.range n).map (fun i => c * q.toK (g i) * φ i) =
      ((List.range n).map (fun i => q.toK (g i * e i))).map (fun x => c * x) := by
    rw [List.map_map]
    refine List.map_congr_left (fun i hi => ?_)
    simp only [Function.comp]
    rw [hφ i (by simpa using hi), q.mul, mul_assoc]
  cases kind with
  | sum =>
    simp only [Fn.redK, redZ]
    rw [hl, List.sum_map_mul_left, List.map_id']
  | map =>
    simp only [Fn.redK, redZ]
    rw [← Ext.maxK_mul hc, ← hl]
    apply Ext.maxK_start (le_of_lt FloatParams.minK_pos)
    obtain ⟨i, hi, h⟩ := hfloor rfl
    exact ⟨_, List.mem_map.2 ⟨i, by simpa using hi, rfl⟩, h⟩

end Quant

namespace Fn
variable [FloatParams K]

/-- Merging unary factors with known products. -/
theorem mergedUnaries_val {v : Var} {fs : List (Fn (Ext K))} (hne : fs ≠ []) (hu : ∀ f ∈ fs, f.Unary v) {G : Nat → K}
    (hG : ∀ i < v.size, prodImg fs i = .val (G i)) (h0 : ∀ i < v.size, 0 ≤ G i) (hpos : ∃ i < v.size, G i ≠ 0) :
    ∃ m M, mergedUnaries fs = .ok m ∧ m.Unary v ∧ 0 < M ∧ (∀ i < v.size, m.timg [i] = .val (G i / M)) ∧
      ∃ k < v.size, G k = M := by
  obtain ⟨m, M, h1, h2, h3, h4, h5⟩ := Fn.mergedUnaries_eq hne hu
  have hlist : (List.range v.size).map (Fn.prodImg fs) = ((List.range v.size).map G).map Ext.val := by
    rw [List.map_map]
    exact List.map_congr_left (fun i hi => hG i (by simpa using hi))
  rw [hlist] at h4
  obtain ⟨k, hk, hkne⟩ := hpos
  obtain ⟨a, l, hl⟩ : ∃ a l, (List.range v.size).map G = a :: l := by
    cases hl : (List.range v.size).map G with
    | nil => simp at hl; omega
    | cons a l => exact ⟨a, l, rfl⟩
  rw [hl] at h4
  simp only [List.map_cons, Arith.maxElement, Ext.maxFrom_val, Res.ok.injEq] at h4
  have hmem : ∀ x, x ∈ a :: l ↔ ∃ i < v.size, x = G i := by
    intro x
    rw [← hl]
    simp [eq_comm]
  have hle : ∀ i < v.size, G i ≤ Ext.maxK a l := by
    intro i hi
    rcases List.mem_cons.1 ((hmem _).2 ⟨i, hi, rfl⟩) with h | h
    · rw [h]; exact (Ext.le_maxK a l).1
    · exact (Ext.le_maxK a l).2 _ h
  have hin : ∃ i < v.size, Ext.maxK a l = G i := by
    apply (hmem _).1
    rcases Ext.maxK_mem a l with h | h
    · rw [h]; simp
    · exact List.mem_cons_of_mem _ h
  have hM : 0 < Ext.maxK a l :=
    lt_of_lt_of_le (lt_of_le_of_ne (h0 k hk) (Ne.symm hkne)) (hle k hk)
  refine ⟨m, Ext.maxK a l, h1, h2, hM, ?_, ?_⟩
  · intro i hi
    rw [h5 i hi, hG i hi, ← h4, Ext.one_eq, Ext.div_val_ne hM.ne', Ext.mul_val, one_div, div_eq_mul_inv]
  · obtain ⟨i, hi, hieq⟩ := hin
    exact ⟨i, hi, hieq.symm⟩

theorem prodImg_cons_val {f : Fn (Ext K)} {fs : List (Fn (Ext K))} {i : Nat} {x y : K} (hf : f.timg [i] = .val x)
    (h : prodImg fs i = .val y) (hv : ∀ g ∈ fs, (g.timg [i]).IsVal) : prodImg (f :: fs) i = .val (x * y) := by
  rw [prodImg_val] at h ⊢
  · simp only [Ext.val.injEq] at h ⊢
    rw [List.map_cons, List.prod_cons, h, hf]; rfl
  · intro g hg
    rcases List.mem_cons.1 hg with rfl | hg
    · rw [hf]; exact Ext.isVal_val _
    · exact hv g hg
  · exact hv

/-- The probabilities of a unary factor. -/
theorem Unary.probabilities_val {v : Var} {f : Fn (Ext K)} (h : f.Unary v) {G : Nat → K}
    (hG : ∀ i < v.size, f.timg [i] = .val (G i)) (hs : ((List.range v.size).map G).sum ≠ 0) :
    f.probabilities = .ok ((List.range v.size).map (fun i => .val (G i / ((List.range v.size).map G).sum))) := by
  have hI : f.images = .ok (((List.range v.size).map G).map .val) := by
    rw [h.images, List.map_map]
    congr 1
    exact List.map_congr_left (fun i hi => hG i (by simpa using hi))
  unfold Fn.probabilities
  rw [hI]
  simp only [Ext.sum_val, Ext.zero_eq, Ext.eq_val, decide_eq_true_eq]
  rw [if_neg hs, List.map_map, List.map_map]
  congr 1
  refine List.map_congr_left (fun i _ => ?_)
  simp only [Function.comp, Ext.div_val_ne hs]

end Fn
end EFG
