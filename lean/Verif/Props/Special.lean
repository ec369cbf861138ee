import Mathlib.Order.Bounds.Basic
import Verif.Lemmas.Special
import Verif.Props.FactorOps
/-
Properties of the special factors: merged unary factors (C14), conditioned binary factors (C15) and
messages (C16, C17).
-/

namespace EFG

/-- The unary factors of a variable that the constructors of structure/SpecialFactors.h can give.
Messages between variables of different sizes are left out, see `C16_sizes_violated`. -/
inductive UnaryReach {F : Type u} [Arith F] : Var → Fn F → Prop
  | factor {v : Var} {f : Fn F} : FactorReach f → f.vars.group = [v] → UnaryReach v f
  | ones {v : Var} : v.WF → UnaryReach v (Fn.ones v)
  | indicator {v : Var} {k : Nat} {f : Fn F} : Fn.indicator v k = .ok f → UnaryReach v f
  | evidence {v w : Var} {k : Nat} {b f : Fn F} : FactorReach b → b.vars.group.Perm [v, w] →
      k < w.size → b.evidence w k = .ok f → UnaryReach v f
  | merged {v : Var} {fs : List (Fn F)} {f : Fn F} : (∀ g ∈ fs, UnaryReach v g) →
      Fn.mergedUnaries fs = .ok f → UnaryReach v f
  | message {kind : Kind} {v w : Var} {ms b f : Fn F} : UnaryReach w ms → FactorReach b →
      b.vars.group.Perm [w, v] → w.size ≤ v.size → Fn.message kind ms b = .ok f → UnaryReach v f

theorem factorReach_binary {F : Type u} [Arith F] {x y : Var} {b : Fn F} (h : FactorReach b)
    (hp : b.vars.group.Perm [x, y]) : b.Binary x y := Fn.binary_of_perm (factorReach_wf h) hp

theorem unaryReach_unary {F : Type u} [Arith F] {v : Var} {f : Fn F} (h : UnaryReach v f) :
    f.Unary v := by
  induction h with
  | factor h1 h2 => exact ⟨factorReach_wf h1, h2⟩
  | ones h => exact (Fn.ones_unary h.2).1
  | @indicator v k f h =>
    by_cases hk : k < v.size
    · obtain ⟨m, h1, h2, _⟩ := Fn.indicator_eq (F := F) hk
      rw [h] at h1; cases h1; exact h2
    · unfold Fn.indicator at h
      rw [if_pos (by omega)] at h; cases h
  | evidence h1 h2 h3 h4 =>
    obtain ⟨m, e1, e2, _⟩ := (factorReach_binary h1 h2).evidence h3
    rw [h4] at e1; cases e1; exact e2
  | @merged v fs f _ h2 ih =>
    cases fs with
    | nil => simp [Fn.mergedUnaries] at h2
    | cons g gs =>
      obtain ⟨m, M, e1, e2, _⟩ := Fn.mergedUnaries_eq (fs := g :: gs) (by simp) ih
      rw [h2] at e1; cases e1; exact e2
  | @message kind v w ms b f _ h2 h3 h4 h5 ih =>
    obtain ⟨m, e1, e2, _⟩ := (factorReach_binary h2 h3).message ih kind h4
    rw [h5] at e1; cases e1; exact e2

/-! ### C14 -/

section
variable {K : Type u} [Field K] [LinearOrder K] [FloatParams K] [IsStrictOrderedRing K]

/-- C14, partial: combining unary factors gives the pointwise product of the images divided by the
largest product `M`, so that the largest image is 1. Missing from the full property: the case in which
all the products are 0, refuted by `C14_violated`. -/
theorem C14_merged_partial {v : Var} {fs : List (Fn (Ext K))} (hne : fs ≠ [])
    (hr : ∀ f ∈ fs, UnaryReach v f) (value : Fn (Ext K) → Nat → K)
    (hval : ∀ f ∈ fs, ∀ i < v.size, f.findTransformed [i] = .ok (.val (value f i)) ∧ 0 ≤ value f i)
    (hpos : ∃ k < v.size, (fs.map (fun f => value f k)).prod ≠ 0) :
    ∃ m M, Fn.mergedUnaries fs = .ok m ∧ m.vars.group = [v] ∧ 0 < M ∧
      IsGreatest {x | ∃ i < v.size, x = (fs.map (fun f => value f i)).prod} M ∧
      (∀ i < v.size, m.findTransformed [i] = .ok (.val ((fs.map (fun f => value f i)).prod / M))) ∧
      ∃ k < v.size, m.findTransformed [k] = .ok (.val 1) := by
  have hu := fun f hf => unaryReach_unary (hr f hf)
  have htimg : ∀ f ∈ fs, ∀ i < v.size, f.timg [i] = .val (value f i) := by
    intro f hf i hi
    have := (hval f hf i hi).1
    rw [(hu f hf).find hi] at this
    simpa using this
  obtain ⟨m, M, h1, h2, h3, h4, h5⟩ := Fn.mergedUnaries_eq hne hu
  have hprod : ∀ i < v.size, Fn.prodImg fs i = .val ((fs.map (fun f => value f i)).prod) := by
    intro i hi
    rw [Fn.prodImg_val (fun f hf => by rw [htimg f hf i hi]; exact Ext.isVal_val _)]
    congr 2
    exact List.map_congr_left (fun f hf => by rw [htimg f hf i hi]; rfl)
  have hlist : (List.range v.size).map (Fn.prodImg fs) =
      ((List.range v.size).map (fun i => (fs.map (fun f => value f i)).prod)).map Ext.val := by
    rw [List.map_map]
    exact List.map_congr_left (fun i hi => hprod i (by simpa using hi))
  rw [hlist] at h4
  obtain ⟨k, hk, hkne⟩ := hpos
  obtain ⟨a, l, hl⟩ : ∃ a l, (List.range v.size).map (fun i => (fs.map (fun f => value f i)).prod) = a :: l := by
    cases hl : (List.range v.size).map (fun i => (fs.map (fun f => value f i)).prod) with
    | nil => simp at hl; omega
    | cons a l => exact ⟨a, l, rfl⟩
  rw [hl] at h4
  simp only [List.map_cons, Arith.maxElement, Ext.maxFrom_val, Res.ok.injEq] at h4
  have hmem : ∀ x, x ∈ a :: l ↔ ∃ i < v.size, x = (fs.map (fun f => value f i)).prod := by
    intro x
    rw [← hl]
    simp [eq_comm]
  have hle : ∀ i < v.size, (fs.map (fun f => value f i)).prod ≤ Ext.maxK a l := by
    intro i hi
    rcases List.mem_cons.1 ((hmem _).2 ⟨i, hi, rfl⟩) with h | h
    · rw [h]; exact (Ext.le_maxK a l).1
    · exact (Ext.le_maxK a l).2 _ h
  have hin : ∃ i < v.size, Ext.maxK a l = (fs.map (fun f => value f i)).prod := by
    apply (hmem _).1
    rcases Ext.maxK_mem a l with h | h
    · rw [h]; simp
    · exact List.mem_cons_of_mem _ h
  have hM : 0 < Ext.maxK a l := by
    have h0 : 0 ≤ (fs.map (fun f => value f k)).prod :=
      list_prod_nonneg (by
        intro x hx
        obtain ⟨f, hf, rfl⟩ := List.mem_map.1 hx
        exact (hval f hf k hk).2)
    exact lt_of_lt_of_le (lt_of_le_of_ne h0 (Ne.symm hkne)) (hle k hk)
  have himg : ∀ i < v.size, m.findTransformed [i] =
      .ok (.val ((fs.map (fun f => value f i)).prod / Ext.maxK a l)) := by
    intro i hi
    rw [h2.find hi, h5 i hi, hprod i hi, ← h4, Ext.one_eq, Ext.div_val_ne hM.ne', Ext.mul_val]
    rw [one_div, div_eq_mul_inv]
  refine ⟨m, Ext.maxK a l, h1, h2.vars, hM, ⟨hin, ?_⟩, himg, ?_⟩
  · rintro x ⟨i, hi, rfl⟩; exact hle i hi
  · obtain ⟨i, hi, hieq⟩ := hin
    exact ⟨i, hi, by rw [himg i hi, ← hieq, div_self hM.ne']⟩

end

/-- C14 fails when the factors contradict each other: all the images of the result are NaN. -/
theorem C14_violated : ∃ (f g m : Fn (Ext ℚ)), UnaryReach Ex.A f ∧ UnaryReach Ex.A g ∧
    (∀ i < 2, ∃ x y, f.findTransformed [i] = .ok (.val x) ∧ g.findTransformed [i] = .ok (.val y) ∧
      0 ≤ x ∧ 0 ≤ y) ∧
    Fn.mergedUnaries [f, g] = .ok m ∧ ∀ i < 2, m.findTransformed [i] = .ok .nan := by
  refine ⟨_, _, _, .indicator (k := 0) rfl, .indicator (k := 1) rfl, ?_, rfl, by decide +kernel⟩
  intro i hi
  have : i = 0 ∨ i = 1 := by omega
  rcases this with rfl | rfl
  · exact ⟨1, 0, by decide +kernel⟩
  · exact ⟨0, 1, by decide +kernel⟩

/-- A concrete case of `C14_merged_partial`: images (3, 4) and (1, 0) give (1, 0). -/
example : UnaryReach Ex.A Ex.fA ∧ ∃ g, Fn.indicator Ex.A 0 = .ok g ∧ UnaryReach Ex.A g ∧
    (match Fn.mergedUnaries [Ex.fA, Ex.fA, g] with
      | .ok m => some ([0, 1].map (fun i => m.findTransformed [i]))
      | _ => none) = some [.ok (.val 1), .ok (.val 0)] ∧
    (match Fn.mergedUnaries [Ex.fA, Ex.fA] with
      | .ok m => some ([0, 1].map (fun i => m.findTransformed [i]))
      | _ => none) = some [.ok (.val (9 / 16)), .ok (.val 1)] :=
  ⟨.factor Ex.fA_reach rfl, _, rfl, .indicator (k := 0) rfl, by decide +kernel, by decide +kernel⟩

/-! ### C15 -/

section
variable {F : Type u} [Arith F]

/-- C15: conditioning a binary factor over `x` and `y` (in either order) on the observation `y = k`
gives the unary factor of `x` with the images of the factor at `y = k`. -/
theorem C15_evidence {x y : Var} {b : Fn F} (hb : FactorReach b) (hp : b.vars.group.Perm [x, y])
    {k : Nat} (hk : k < y.size) :
    ∃ m, b.evidence y k = .ok m ∧ m.vars.group = [x] ∧
      ∀ a : Assign, a y = k → a x < x.size →
        m.findTransformed [a x] = b.findTransformed (b.vars.group.map a) := by
  have h := factorReach_binary hb hp
  obtain ⟨m, h1, h2, h3, h4⟩ := h.evidence hk
  refine ⟨m, h1, h2.vars, fun a ha hax => ?_⟩
  rw [h2.find hax, h4 _ hax, h.wf.findTransformed, h.bimg_map a, ha]
  rw [h.wf.valid_map]
  intro v hv
  have := hp.subset hv
  simp only [List.mem_cons, List.not_mem_nil, or_false] at this
  rcases this with rfl | rfl
  · exact hax
  · rw [ha]; exact hk

end

/-- The factor over B (2 values) and C (3 values) with image 5 at B = 1, C = 2 and 7 at B = 0, C = 1. -/
def Ex.fBC : Fn (Ext ℚ) :=
  { Fn.ofGroup Ex.gBC with data := .sparse [([1, 2], .val 5), ([0, 1], .val 7)] }

theorem Ex.fBC_reach : FactorReach Ex.fBC := by
  have h0 : FactorReach (Fn.ofGroup Ex.gBC : Fn (Ext ℚ)) := .group Ex.gBC_reach Ex.gBC_wf
  have h1 := FactorReach.mutate (op := .set [1, 2] (.val 5)) h0 (by rfl)
  exact FactorReach.mutate (op := .set [0, 1] (.val 7)) h1 (by rfl)

example : Ex.fBC.vars.group.Perm [Ex.B, Ex.C] ∧ Ex.fBC.vars.group.Perm [Ex.C, Ex.B] ∧
    (match Ex.fBC.evidence Ex.C 2 with
      | .ok m => some ([0, 1].map (fun i => m.findTransformed [i]))
      | _ => none) = some [.ok (.val 0), .ok (.val 5)] ∧
    (match Ex.fBC.evidence Ex.B 0 with
      | .ok m => some ([0, 1, 2].map (fun i => m.findTransformed [i]))
      | _ => none) = some [.ok (.val 0), .ok (.val 7), .ok (.val 0)] :=
  ⟨by decide, by decide, by decide +kernel, by decide +kernel⟩

/-! ### C16 and C17 -/

section
variable {K : Type u} [Field K] [LinearOrder K] [FloatParams K]

/-- The images of a binary factor over `x` and `y`, given by `φ`. -/
def HasImages {K : Type u} [Field K] [LinearOrder K] [FloatParams K] (b : Fn (Ext K)) (x y : Var)
    (φ : Nat → Nat → K) : Prop :=
  b.vars.group.Perm [x, y] ∧ ∀ a : Assign, a x < x.size → a y < y.size →
    b.findTransformed (b.vars.group.map a) = .ok (.val (φ (a x) (a y)))

/-- The images of a unary factor of `x`. -/
def HasImages1 {K : Type u} (m : Fn (Ext K)) [Field K] [LinearOrder K] [FloatParams K] (x : Var)
    (μ : Nat → K) : Prop :=
  m.vars.group = [x] ∧ ∀ i < x.size, m.findTransformed [i] = .ok (.val (μ i))

theorem HasImages.bimg {b : Fn (Ext K)} {x y : Var} {φ : Nat → Nat → K} (hb : FactorReach b)
    (h : HasImages b x y φ) {i j : Nat} (hi : i < x.size) (hj : j < y.size) :
    Fn.bimg x b i j = .val (φ i j) := by
  have hbin := factorReach_binary hb h.1
  have hne := hbin.ne
  have := h.2 (fun v => if v = x then i else j) (by simpa using hi) (by simpa [hne.symm] using hj)
  rw [hbin.wf.findTransformed, hbin.bimg_map] at this
  · simpa [hne.symm] using this
  · rw [hbin.wf.valid_map]
    intro v hv
    have := h.1.subset hv
    simp only [List.mem_cons, List.not_mem_nil, or_false] at this
    rcases this with rfl | rfl
    · simpa using hi
    · simpa [hne.symm] using hj

theorem HasImages1.timg {m : Fn (Ext K)} {x : Var} {μ : Nat → K} (hm : UnaryReach x m)
    (h : HasImages1 m x μ) {i : Nat} (hi : i < x.size) : m.timg [i] = .val (μ i) := by
  have := h.2 i hi
  rw [(unaryReach_unary hm).find hi] at this
  simpa using this

/-- The message as the code computes it: the roles of the two variables in the factor are swapped, and
the values of the receiver beyond the size of the sender get 0. -/
theorem message_transposed {kind : Kind} {x y : Var} {ms b : Fn (Ext K)} {μ : Nat → K}
    {φ : Nat → Nat → K} (hms : UnaryReach x ms) (hμ : HasImages1 ms x μ) (hb : FactorReach b)
    (hφ : HasImages b x y φ) (hs : x.size ≤ y.size) :
    ∃ m, Fn.message kind ms b = .ok m ∧ HasImages1 m y (fun j =>
      if j < x.size then Fn.redK kind ((List.range x.size).map (fun i => μ i * φ j i)) else 0) := by
  obtain ⟨m, h1, h2, h3, h4⟩ :=
    (factorReach_binary hb hφ.1).message (unaryReach_unary hms) kind hs
  refine ⟨m, h1, h2.vars, fun j hj => ?_⟩
  rw [h2.find hj, h4 j hj]
  beta_reduce
  by_cases hjx : j < x.size
  · rw [if_pos hjx, if_pos hjx]
    rw [Fn.msgVal_val (fun s hs => hμ.timg hms hs)
      (fun s hs' => hφ.bimg hb hjx (Nat.lt_of_lt_of_le hs' hs))]
  · rw [if_neg hjx, if_neg hjx]; rfl

/-- C16, partial: for a factor which is symmetric in its two variables the message sent from `x` to
`y` is, at each `j`, the sum over `i` of (merged unary of `x` at `i`) times (factor at `x = i`,
`y = j`). Missing from the full property: factors which are not symmetric, refuted by `C16_violated`
and `C16_sizes_violated`. -/
theorem C16_sum_partial {x y : Var} {ms b : Fn (Ext K)} {μ : Nat → K} {φ : Nat → Nat → K}
    (hms : UnaryReach x ms) (hμ : HasImages1 ms x μ) (hb : FactorReach b) (hφ : HasImages b x y φ)
    (hs : x.size = y.size) (hsym : ∀ i < x.size, ∀ j < x.size, φ i j = φ j i) :
    ∃ m, Fn.message .sum ms b = .ok m ∧
      HasImages1 m y (fun j => ∑ i ∈ Finset.range x.size, μ i * φ i j) := by
  obtain ⟨m, h1, h2, h3⟩ := message_transposed (kind := .sum) hms hμ hb hφ hs.le
  refine ⟨m, h1, h2, fun j hj => ?_⟩
  rw [h3 j hj]
  beta_reduce
  rw [if_pos (by omega)]
  simp only [Fn.redK]
  rw [sum_range_list]
  congr 2
  apply Finset.sum_congr rfl
  intro i hi
  rw [hsym i (by simpa using hi) j (by omega)]

/-- C16, partial: without symmetry the code computes the sum for the factor with its two variables
swapped (the exact behaviour of the code when both variables have the same size). -/
theorem C16_swapped_partial {x y : Var} {ms b : Fn (Ext K)} {μ : Nat → K} {φ : Nat → Nat → K}
    (hms : UnaryReach x ms) (hμ : HasImages1 ms x μ) (hb : FactorReach b) (hφ : HasImages b x y φ)
    (hs : x.size = y.size) :
    ∃ m, Fn.message .sum ms b = .ok m ∧
      HasImages1 m y (fun j => ∑ i ∈ Finset.range x.size, μ i * φ j i) := by
  obtain ⟨m, h1, h2, h3⟩ := message_transposed (kind := .sum) hms hμ hb hφ hs.le
  refine ⟨m, h1, h2, fun j hj => ?_⟩
  rw [h3 j hj]
  beta_reduce
  rw [if_pos (by omega)]
  simp only [Fn.redK]
  rw [sum_range_list]

omit [Field K] [FloatParams K] in
theorem maxK_isGreatest {m : K} {l : List K} (h : ∃ x ∈ l, m ≤ x) :
    IsGreatest {x | x ∈ l} (Ext.maxK m l) := by
  refine ⟨?_, fun x hx => (Ext.le_maxK m l).2 x hx⟩
  rcases Ext.maxK_mem m l with h' | h'
  · obtain ⟨x, hx, hmx⟩ := h
    have : x = Ext.maxK m l := le_antisymm ((Ext.le_maxK m l).2 x hx) (by rw [h']; exact hmx)
    show Ext.maxK m l ∈ l
    rw [← this]; exact hx
  · exact h'

/-- C17, partial: for a factor which is symmetric in its two variables the MAP message is the maximum
over `i`, provided that for each `j` some product reaches `FLT_MIN`. Missing from the full property:
factors which are not symmetric (`C17_violated`), and maxima below `FLT_MIN`, in particular 0
(`C17_zero_violated`). -/
theorem C17_map_partial {x y : Var} {ms b : Fn (Ext K)} {μ : Nat → K} {φ : Nat → Nat → K}
    (hms : UnaryReach x ms) (hμ : HasImages1 ms x μ) (hb : FactorReach b) (hφ : HasImages b x y φ)
    (hs : x.size = y.size) (hsym : ∀ i < x.size, ∀ j < x.size, φ i j = φ j i)
    (hmin : ∀ j < y.size, ∃ i < x.size, FloatParams.minK ≤ μ i * φ i j) :
    ∃ m M, Fn.message .map ms b = .ok m ∧ HasImages1 m y M ∧
      ∀ j < y.size, IsGreatest {z | ∃ i < x.size, z = μ i * φ i j} (M j) := by
  obtain ⟨m, h1, h2, h3⟩ := message_transposed (kind := .map) hms hμ hb hφ hs.le
  refine ⟨m, fun j => Ext.maxK FloatParams.minK ((List.range x.size).map (fun i => μ i * φ j i)),
    h1, ⟨h2, fun j hj => ?_⟩, fun j hj => ?_⟩
  · rw [h3 j hj]
    beta_reduce
    rw [if_pos (by omega)]; rfl
  · have hmap : (List.range x.size).map (fun i => μ i * φ j i) =
        (List.range x.size).map (fun i => μ i * φ i j) := by
      apply List.map_congr_left
      intro i hi
      rw [hsym i (by simpa using hi) j (by omega)]
    beta_reduce
    rw [hmap]
    have := maxK_isGreatest (m := FloatParams.minK)
      (l := (List.range x.size).map (fun i => μ i * φ i j)) (by
        obtain ⟨i, hi, h⟩ := hmin j hj
        exact ⟨_, List.mem_map.2 ⟨i, by simpa using hi, rfl⟩, h⟩)
    have hset : {z | ∃ i < x.size, z = μ i * φ i j} =
        {z | z ∈ (List.range x.size).map (fun i => μ i * φ i j)} := by
      ext z
      simp [eq_comm]
    rw [hset]; exact this

/-- C17, partial: the exact behaviour for two variables of the same size, without symmetry and floor
assumptions: the code takes the maximum of `FLT_MIN` and of the products computed with the swapped
factor. -/
theorem C17_swapped_partial {x y : Var} {ms b : Fn (Ext K)} {μ : Nat → K} {φ : Nat → Nat → K}
    (hms : UnaryReach x ms) (hμ : HasImages1 ms x μ) (hb : FactorReach b) (hφ : HasImages b x y φ)
    (hs : x.size = y.size) :
    ∃ m M, Fn.message .map ms b = .ok m ∧ HasImages1 m y M ∧
      ∀ j < y.size,
        IsGreatest ({z | ∃ i < x.size, z = μ i * φ j i} ∪ {FloatParams.minK}) (M j) := by
  obtain ⟨m, h1, h2, h3⟩ := message_transposed (kind := .map) hms hμ hb hφ hs.le
  refine ⟨m, fun j => Ext.maxK FloatParams.minK ((List.range x.size).map (fun i => μ i * φ j i)),
    h1, ⟨h2, fun j hj => ?_⟩, fun j hj => ⟨?_, ?_⟩⟩
  · rw [h3 j hj]
    beta_reduce
    rw [if_pos (by omega)]; rfl
  · rcases Ext.maxK_mem FloatParams.minK ((List.range x.size).map (fun i => μ i * φ j i)) with h | h
    · right; exact h
    · left
      obtain ⟨i, hi, h⟩ := List.mem_map.1 h
      exact ⟨i, by simpa using hi, h.symm⟩
  · rintro z (⟨i, hi, rfl⟩ | rfl)
    · exact (Ext.le_maxK _ _).2 _ (List.mem_map.2 ⟨i, by simpa using hi, rfl⟩)
    · exact (Ext.le_maxK _ _).1

end

/-- C16 fails for a factor over A and B (same sizes) which is not symmetric: images 1 at A = 0, B = 1
and 2 at A = 1, B = 0. The message from A (all ones) to B should be (2, 1) and is (1, 2). -/
theorem C16_violated : ∃ m, UnaryReach Ex.A (Fn.ones Ex.A : Fn (Ext ℚ)) ∧
    HasImages1 (Fn.ones Ex.A : Fn (Ext ℚ)) Ex.A (fun _ => 1) ∧ FactorReach Ex.fAB ∧
    HasImages Ex.fAB Ex.A Ex.B (fun i j => if i = 0 ∧ j = 1 then 1 else if i = 1 ∧ j = 0 then 2 else 0) ∧
    Fn.message .sum (Fn.ones Ex.A) Ex.fAB = .ok m ∧
    m.findTransformed [0] = .ok (.val 1) ∧ m.findTransformed [1] = .ok (.val 2) := by
  refine ⟨_, .ones (by decide), ⟨rfl, by decide +kernel⟩, Ex.fAB_reach, ⟨by decide, ?_⟩, rfl,
    by decide +kernel⟩
  have key : ∀ i < 2, ∀ j < 2, Ex.fAB.findTransformed [i, j] =
      .ok (.val (if i = 0 ∧ j = 1 then 1 else if i = 1 ∧ j = 0 then 2 else 0)) := by decide +kernel
  intro a ha hb
  exact key _ ha _ hb

/-- The factor over C (3 values) and B (2 values) with all images 1. -/
def Ex.gCB : Group := ⟨[Ex.C, Ex.B], [Ex.C, Ex.B]⟩

def Ex.fCB : Fn (Ext ℚ) :=
  { Fn.ofGroup Ex.gCB with data := .dense (List.replicate 6 (.val 1)) }

theorem Ex.fCB_reach : FactorReach Ex.fCB := by
  have hg : GroupReach Ex.gCB := .soup (vars := [Ex.C, Ex.B]) (by decide)
  have h0 : FactorReach (Fn.ofGroup Ex.gCB : Fn (Ext ℚ)) := .group hg (by decide)
  have h1 := FactorReach.mutate (op := .set [0, 0] (.val 1)) h0 (by rfl)
  have h2 := FactorReach.mutate (op := .set [0, 1] (.val 1)) h1 (by rfl)
  have h3 := FactorReach.mutate (op := .set [1, 0] (.val 1)) h2 (by rfl)
  have h4 := FactorReach.mutate (op := .set [1, 1] (.val 1)) h3 (by rfl)
  have h5 := FactorReach.mutate (op := .set [2, 0] (.val 1)) h4 (by rfl)
  exact FactorReach.mutate (op := .set [2, 1] (.val 1)) h5 (by rfl)

/-- C16 fails for variables of different sizes: the message from C (3 values) to B (2 values) across a
dense factor reads past the end of the images. -/
theorem C16_sizes_violated : FactorReach Ex.fCB ∧
    UnaryReach Ex.C (Fn.ones Ex.C : Fn (Ext ℚ)) ∧
    Fn.message .sum (Fn.ones Ex.C) Ex.fCB = .ub :=
  ⟨Ex.fCB_reach, .ones (by decide), by rfl⟩

/-- C16 fails for variables of different sizes also in the other direction: from B (2 values) to C (3
values) across a factor with all images 1, the message at the last value of C is 0 instead of 2. -/
theorem C16_sizes2_violated : FactorReach Ex.fCB ∧
    UnaryReach Ex.B (Fn.ones Ex.B : Fn (Ext ℚ)) ∧
    ∃ m, Fn.message .sum (Fn.ones Ex.B) Ex.fCB = .ok m ∧
      m.findTransformed [0] = .ok (.val 2) ∧ m.findTransformed [2] = .ok (.val 0) :=
  ⟨Ex.fCB_reach, .ones (by decide), _, rfl, by decide +kernel⟩

/-- C17 fails for a factor which is not symmetric: images 1 at A = 0, B = 1 and 2 at A = 1, B = 0. The
message should be (2, 1) and is (1, 2). -/
theorem C17_violated : ∃ m, Fn.message .map (Fn.ones Ex.A) Ex.fAB = .ok m ∧ FactorReach Ex.fAB ∧
    Ex.fAB.findTransformed [0, 1] = .ok (.val 1) ∧ Ex.fAB.findTransformed [1, 0] = .ok (.val 2) ∧
    m.findTransformed [0] = .ok (.val 1) ∧ m.findTransformed [1] = .ok (.val 2) :=
  ⟨_, rfl, Ex.fAB_reach, by decide +kernel⟩

/-- C17 fails when all the products vanish: across a factor with all images 0 the message is `FLT_MIN`
and not 0. -/
theorem C17_zero_violated : ∃ m, FactorReach (Fn.ofGroup Ex.gAB : Fn (Ext ℚ)) ∧
    (∀ i < 2, ∀ j < 2, (Fn.ofGroup Ex.gAB : Fn (Ext ℚ)).findTransformed [i, j] = .ok (.val 0)) ∧
    Fn.message .map (Fn.ones Ex.A) (Fn.ofGroup Ex.gAB : Fn (Ext ℚ)) = .ok m ∧
    m.findTransformed [0] = .ok (.val (1 / 1000000)) :=
  ⟨_, .group Ex.gAB_reach Ex.gAB_wf, by decide +kernel, rfl, by decide +kernel⟩

/-- A concrete case of `C16_sum_partial` and `C17_map_partial`: the unary (3, 4) sent across a
symmetric factor with images 2 on equal values and 1 elsewhere gives (10, 11) and (6, 8). -/
def Ex.sAB : Fn (Ext ℚ) :=
  { Fn.ofGroup Ex.gAB with
    data := .sparse [([0, 0], .val 2), ([0, 1], .val 1), ([1, 0], .val 1), ([1, 1], .val 2)] }

theorem Ex.sAB_reach : FactorReach Ex.sAB := by
  have h0 : FactorReach (Fn.ofGroup Ex.gAB : Fn (Ext ℚ)) := .group Ex.gAB_reach Ex.gAB_wf
  have h1 := FactorReach.mutate (op := .set [0, 0] (.val 2)) h0 (by rfl)
  have h2 := FactorReach.mutate (op := .set [0, 1] (.val 1)) h1 (by rfl)
  have h3 := FactorReach.mutate (op := .set [1, 0] (.val 1)) h2 (by rfl)
  exact FactorReach.mutate (op := .set [1, 1] (.val 2)) h3 (by rfl)

theorem Ex.sAB_images : HasImages Ex.sAB Ex.A Ex.B (fun i j => if i = j then 2 else 1) := by
  have key : ∀ i < 2, ∀ j < 2, Ex.sAB.findTransformed [i, j] =
      .ok (.val (if i = j then 2 else 1)) := by decide +kernel
  exact ⟨by decide, fun a ha hb => key _ ha _ hb⟩

example : UnaryReach Ex.A Ex.fA ∧ HasImages1 Ex.fA Ex.A (fun i => if i = 0 then 3 else 4) ∧
    (match Fn.message .sum Ex.fA Ex.sAB with
      | .ok m => some ([0, 1].map (fun i => m.findTransformed [i]))
      | _ => none) = some [.ok (.val 10), .ok (.val 11)] ∧
    (match Fn.message .map Ex.fA Ex.sAB with
      | .ok m => some ([0, 1].map (fun i => m.findTransformed [i]))
      | _ => none) = some [.ok (.val 6), .ok (.val 8)] :=
  ⟨.factor Ex.fA_reach rfl, ⟨rfl, by decide +kernel⟩, by decide +kernel, by decide +kernel⟩

end EFG
