import Verif.Lemmas.Positive
/-
Functions whose images are proportional give the same merged functions, the same probabilities and the same
variations, NaN included.
-/

set_option linter.unusedSectionVars false

namespace EFG
variable {K : Type} [Field K] [LinearOrder K] [IsStrictOrderedRing K] [FloatParams K]

namespace Ext

/-- A multiple of a number; NaN stays NaN. -/
def times (c : K) (x : Ext K) : Ext K := lift1 (c * ·) x

theorem times_one (x : Ext K) : times 1 x = x := by cases x <;> simp [times, lift1]

theorem times_mul (c d : K) (x y : Ext K) : Arith.mul (times c x) (times d y) = times (c * d) (Arith.mul x y) := by
  cases x <;> cases y <;> try rfl
  change Ext.val _ = Ext.val _
  congr 1
  ring

theorem times_add (c : K) (x y : Ext K) : Arith.add (times c x) (times c y) = times c (Arith.add x y) := by
  cases x <;> cases y <;> try rfl
  change Ext.val _ = Ext.val _
  congr 1
  ring

theorem times_lt {c : K} (hc : 0 < c) (x y : Ext K) : Arith.lt (times c x) (times c y) = Arith.lt x y := by
  cases x <;> cases y <;> try rfl
  rename_i a b
  change decide (c * a < c * b) = decide (a < b)
  simp [mul_lt_mul_iff_right₀ hc]

theorem times_eq_zero {c : K} (hc : 0 < c) (x : Ext K) :
    Arith.eq (times c x) (Arith.zero : Ext K) = Arith.eq x (Arith.zero : Ext K) := by
  cases x with
  | nan => rfl
  | val a =>
    change decide (c * a = 0) = decide (a = 0)
    simp [hc.ne']

theorem times_div {c : K} (hc : 0 < c) (x y : Ext K) : Arith.div (times c x) (times c y) = Arith.div x y := by
  cases x <;> cases y <;> try rfl
  rename_i a b
  change (if c * b = 0 then (.nan : Ext K) else .val (c * a / (c * b))) = if b = 0 then .nan else .val (a / b)
  by_cases hb : b = 0
  · simp [hb]
  · rw [if_neg hb, if_neg (mul_ne_zero hc.ne' hb), mul_div_mul_left _ _ hc.ne']

theorem times_norm {c : K} (hc : 0 < c) (x y : Ext K) :
    Arith.mul (times c x) (Arith.div Arith.one (times c y)) = Arith.mul x (Arith.div Arith.one y) := by
  cases y with
  | nan => cases x <;> rfl
  | val b =>
    by_cases hb : b = 0
    · subst hb
      have h1 : Arith.div (Arith.one : Ext K) (times c (.val 0)) = .nan := by
        change (if c * 0 = 0 then (.nan : Ext K) else _) = _
        simp
      have h2 : Arith.div (Arith.one : Ext K) (.val 0) = .nan := by
        change (if (0 : K) = 0 then (.nan : Ext K) else _) = _
        simp
      rw [h1, h2]
      cases x <;> rfl
    · have h1 : Arith.div (Arith.one : Ext K) (times c (.val b)) = .val (1 / (c * b)) := by
        change (if c * b = 0 then (.nan : Ext K) else _) = _
        rw [if_neg (mul_ne_zero hc.ne' hb)]
      have h2 : Arith.div (Arith.one : Ext K) (.val b) = .val (1 / b) := by
        change (if b = 0 then (.nan : Ext K) else _) = _
        rw [if_neg hb]
      rw [h1, h2]
      cases x with
      | nan => rfl
      | val a =>
        change Ext.val (c * a * (1 / (c * b))) = Ext.val (a * (1 / b))
        congr 1
        rw [mul_one_div, mul_one_div, mul_div_mul_left _ _ hc.ne']

theorem times_maxFrom {c : K} (hc : 0 < c) (l : List (Ext K)) : ∀ m : Ext K,
    Arith.maxFrom (times c m) (l.map (times c)) = times c (Arith.maxFrom m l) := by
  induction l with
  | nil => intro m; rfl
  | cons x l ih =>
    intro m
    rw [List.map_cons, Arith.maxFrom, Arith.maxFrom, times_lt hc]
    by_cases h : Arith.lt m x = true
    · rw [if_pos h, if_pos h, ih]
    · rw [if_neg h, if_neg h, ih]

theorem times_maxElement {c : K} (hc : 0 < c) {l : List (Ext K)} {M : Ext K} (h : Arith.maxElement l = .ok M) :
    Arith.maxElement (l.map (times c)) = .ok (times c M) := by
  cases l with
  | nil => cases h
  | cons x l =>
    cases h
    exact congrArg Res.ok (times_maxFrom hc l x)

theorem times_foldl_add (c : K) (l : List (Ext K)) : ∀ a : Ext K,
    (l.map (times c)).foldl Arith.add (times c a) = times c (l.foldl Arith.add a) := by
  induction l with
  | nil => intro a; rfl
  | cons x l ih => intro a; rw [List.map_cons, List.foldl_cons, List.foldl_cons, times_add, ih]

theorem times_zero (c : K) : times c (Arith.zero : Ext K) = Arith.zero := by
  change Ext.val (c * 0) = Ext.val 0
  rw [mul_zero]

theorem times_sum (c : K) (l : List (Ext K)) : Arith.sum (l.map (times c)) = times c (Arith.sum l) := by
  have := times_foldl_add c l Arith.zero
  rw [times_zero] at this
  exact this

theorem maxFrom_mem (l : List (Ext K)) : ∀ m : Ext K, Arith.maxFrom m l = m ∨ Arith.maxFrom m l ∈ l := by
  induction l with
  | nil => intro m; exact Or.inl rfl
  | cons x l ih =>
    intro m
    rw [Arith.maxFrom]
    split
    · rcases ih x with h | h
      · exact Or.inr (by rw [h]; simp)
      · exact Or.inr (List.mem_cons_of_mem _ h)
    · rcases ih m with h | h
      · exact Or.inl h
      · exact Or.inr (List.mem_cons_of_mem _ h)

theorem maxElement_mem {l : List (Ext K)} {M : Ext K} (h : Arith.maxElement l = .ok M) : M ∈ l := by
  cases l with
  | nil => cases h
  | cons x l =>
    have h : Arith.maxFrom x l = M := Res.ok.inj h
    rcases maxFrom_mem l x with e | e
    · rw [e] at h; rw [h]; simp
    · rw [h] at e; exact List.mem_cons_of_mem _ e

/-- The maximum from a number on, which ignores NaN. -/
theorem foldl_max2 (l : List (Ext K)) : ∀ a : K, ∃ m : K, l.foldl Arith.max2 (.val a) = .val m ∧ a ≤ m ∧
    (∀ y, Ext.val y ∈ l → y ≤ m) ∧ (m = a ∨ Ext.val m ∈ l) := by
  induction l with
  | nil => intro a; exact ⟨a, rfl, le_refl a, by simp, Or.inl rfl⟩
  | cons x l ih =>
    intro a
    cases x with
    | nan =>
      obtain ⟨m, h1, h2, h3, h4⟩ := ih a
      refine ⟨m, ?_, h2, ?_, ?_⟩
      · rw [List.foldl_cons]; exact h1
      · intro y hy
        rcases List.mem_cons.mp hy with h | h
        · cases h
        · exact h3 y h
      · exact h4.imp id (List.mem_cons_of_mem _)
    | val b =>
      have hmx : Arith.max2 (Ext.val a) (.val b) = .val (if a < b then b else a) := by
        change (if decide (a < b) = true then Ext.val b else .val a) = _
        by_cases h : a < b <;> simp [h]
      obtain ⟨m, h1, h2, h3, h4⟩ := ih (if a < b then b else a)
      refine ⟨m, ?_, ?_, ?_, ?_⟩
      · rw [List.foldl_cons, hmx]; exact h1
      · refine le_trans ?_ h2
        split
        · exact le_of_lt ‹_›
        · exact le_refl a
      · intro y hy
        rcases List.mem_cons.mp hy with h | h
        · cases h
          refine le_trans ?_ h2
          split
          · exact le_refl b
          · exact not_lt.mp ‹_›
        · exact h3 y h
      · rcases h4 with h | h
        · split at h
          · exact Or.inr (by rw [h]; simp)
          · exact Or.inl h
        · exact Or.inr (List.mem_cons_of_mem _ h)

/-- A maximum above its floor. -/
theorem times_foldl_max2 {c a x : K} (hc : 0 < c) {l : List (Ext K)} (hx : Ext.val x ∈ l) (h1 : a ≤ x) (h2 : a ≤ c * x) :
    (l.map (times c)).foldl Arith.max2 (.val a) = times c (l.foldl Arith.max2 (.val a)) := by
  obtain ⟨m, e1, e2, e3, e4⟩ := foldl_max2 l a
  obtain ⟨m', g1, g2, g3, g4⟩ := foldl_max2 (l.map (times c)) a
  have hm : Ext.val m ∈ l := by
    rcases e4 with h | h
    · have : x = m := le_antisymm (e3 x hx) (by rw [h]; exact h1)
      rw [← this]; exact hx
    · exact h
  have hm' : Ext.val m' ∈ l.map (times c) := by
    rcases g4 with h | h
    · have : c * x = m' := le_antisymm (g3 _ (List.mem_map.mpr ⟨_, hx, rfl⟩)) (by rw [h]; exact h2)
      rw [← this]; exact List.mem_map.mpr ⟨_, hx, rfl⟩
    · exact h
  obtain ⟨z, hz, hzm⟩ := List.mem_map.mp hm'
  rw [e1, g1]
  change Ext.val m' = Ext.val (c * m)
  congr 1
  refine le_antisymm ?_ (g3 _ (List.mem_map.mpr ⟨_, hm, rfl⟩))
  cases z with
  | nan => cases hzm
  | val z =>
    have : c * z = m' := Ext.val.inj hzm
    rw [← this]
    exact mul_le_mul_of_nonneg_left (e3 z hz) hc.le

/-- Nothing but NaN does not raise the floor. -/
theorem foldl_max2_nan {l : List (Ext K)} (h : ∀ x ∈ l, x = .nan) (a : K) : l.foldl Arith.max2 (.val a) = .val a := by
  induction l with
  | nil => rfl
  | cons x l ih =>
    rw [h x (by simp), List.foldl_cons]
    exact ih (fun y hy => h y (by simp [hy]))

end Ext

namespace Fn

/-- The images of the second unary function are those of the first one times a positive number. -/
def Scaled (u : Var) (f g : Fn (Ext K)) : Prop := ∃ c : K, 0 < c ∧ ∀ i < u.size, g.timg [i] = Ext.times c (f.timg [i])

theorem Scaled.refl (u : Var) (f : Fn (Ext K)) : f.Scaled u f := ⟨1, one_pos, fun _ _ => (Ext.times_one _).symm⟩

theorem prodImg_scaled {u : Var} {fs gs : List (Fn (Ext K))} (h : List.Forall₂ (Scaled u) fs gs) :
    ∃ c : K, 0 < c ∧ ∀ i < u.size, prodImg gs i = Ext.times c (prodImg fs i) := by
  have gen : ∀ fs gs : List (Fn (Ext K)), List.Forall₂ (Scaled u) fs gs → ∃ c : K, 0 < c ∧ ∀ i < u.size, ∀ (d : K) (x : Ext K),
      gs.foldl (fun acc f => Arith.mul acc (f.timg [i])) (Ext.times d x) =
        Ext.times (d * c) (fs.foldl (fun acc f => Arith.mul acc (f.timg [i])) x) := by
    intro fs gs h
    induction h with
    | nil => exact ⟨1, one_pos, fun i _ d x => by rw [mul_one]; rfl⟩
    | @cons f g fs gs hfg _ ih =>
      obtain ⟨c, hc, h1⟩ := hfg
      obtain ⟨e, he, h2⟩ := ih
      refine ⟨c * e, mul_pos hc he, fun i hi d x => ?_⟩
      rw [List.foldl_cons, List.foldl_cons, h1 i hi, Ext.times_mul, h2 i hi, mul_assoc]
  obtain ⟨c, hc, h1⟩ := gen fs gs h
  refine ⟨c, hc, fun i hi => ?_⟩
  have := h1 i hi 1 Arith.one
  rw [Ext.times_one, one_mul] at this
  exact this

/-- Merging proportional functions. -/
theorem mergedUnaries_scaled {u : Var} {fs gs : List (Fn (Ext K))} (hne : fs ≠ []) (hf : ∀ f ∈ fs, f.Unary u)
    (hg : ∀ f ∈ gs, f.Unary u) (h : List.Forall₂ (Scaled u) fs gs) {m m' : Fn (Ext K)}
    (e : mergedUnaries fs = .ok m) (e' : mergedUnaries gs = .ok m') : ∀ i < u.size, m'.timg [i] = m.timg [i] := by
  have hne' : gs ≠ [] := by
    rintro rfl
    cases h
    exact hne rfl
  obtain ⟨c, hc, h1⟩ := prodImg_scaled h
  obtain ⟨m1, M, a1, _, _, a4, a5⟩ := mergedUnaries_eq hne hf
  obtain ⟨m2, M', b1, _, _, b4, b5⟩ := mergedUnaries_eq hne' hg
  rw [e] at a1
  cases a1
  rw [e'] at b1
  cases b1
  have h2 : (List.range u.size).map (prodImg gs) = ((List.range u.size).map (prodImg fs)).map (Ext.times c) := by
    rw [List.map_map]
    exact List.map_congr_left (fun i hi => h1 i (by simpa using hi))
  rw [h2, Ext.times_maxElement hc a4] at b4
  cases b4
  intro i hi
  rw [a5 i hi, b5 i hi, h1 i hi, Ext.times_norm hc]

/-- A merged function has the value one somewhere, or is nothing but NaN. -/
theorem mergedUnaries_normed {u : Var} {fs : List (Fn (Ext K))} (hne : fs ≠ []) (hf : ∀ f ∈ fs, f.Unary u) {m : Fn (Ext K)}
    (e : mergedUnaries fs = .ok m) : (∃ i < u.size, m.timg [i] = .val 1) ∨ ∀ i < u.size, m.timg [i] = .nan := by
  obtain ⟨m1, M, a1, _, _, a4, a5⟩ := mergedUnaries_eq hne hf
  rw [e] at a1
  cases a1
  obtain ⟨i, hi, hiM⟩ := List.mem_map.mp (Ext.maxElement_mem a4)
  have hi : i < u.size := by simpa using hi
  cases M with
  | nan =>
    right
    intro j hj
    rw [a5 j hj]
    cases prodImg fs j <;> rfl
  | val b =>
    by_cases hb : b = 0
    · right
      intro j hj
      rw [a5 j hj]
      have : Arith.div (Arith.one : Ext K) (.val b) = .nan := by
        change (if b = 0 then (.nan : Ext K) else _) = _
        rw [if_pos hb]
      rw [this]
      cases prodImg fs j <;> rfl
    · left
      refine ⟨i, hi, ?_⟩
      rw [a5 i hi, hiM]
      have : Arith.div (Arith.one : Ext K) (.val b) = .val (1 / b) := by
        change (if b = 0 then (.nan : Ext K) else _) = _
        rw [if_neg hb]
      rw [this]
      change Ext.val (b * (1 / b)) = _
      rw [mul_one_div, div_self hb]

/-- The messages which the same merged function sends through proportional factors. The maximum has a floor, so the
messages of the maximum are compared only if the factors are equal or not below the floor. -/
theorem Binary.message_scaled (kind : Kind) {x y : Var} {b b' ms ms' : Fn (Ext K)} (h : b.Binary x y) (h' : b'.Binary x y)
    (hm : ms.Unary x) (hm' : ms'.Unary x) (hms : ∀ i < x.size, ms'.timg [i] = ms.timg [i])
    (hno : (∃ i < x.size, ms.timg [i] = .val 1) ∨ ∀ i < x.size, ms.timg [i] = .nan) (hs : x.size = y.size)
    (hb : ∃ c : K, 0 < c ∧ (kind = .map → c = 1 ∨ ∀ r < y.size, ∀ i < x.size, ∃ z : K, bimg x b r i = .val z ∧
        FloatParams.minK ≤ z ∧ FloatParams.minK ≤ c * z) ∧
      ∀ r < y.size, ∀ i < x.size, bimg x b' r i = Ext.times c (bimg x b r i))
    {m m' : Fn (Ext K)} (e : Fn.message kind ms b = .ok m) (e' : Fn.message kind ms' b' = .ok m') : m.Scaled y m' := by
  obtain ⟨m1, a1, _, _, a4⟩ := h.message hm kind (by omega)
  obtain ⟨m2, b1, _, _, b4⟩ := h'.message hm' kind (by omega)
  rw [e] at a1
  cases a1
  rw [e'] at b1
  cases b1
  obtain ⟨d, hd, hd1, h2⟩ := hb
  have hent : ∀ j < y.size, (List.range x.size).map (fun i => Arith.mul (ms'.timg [i]) (bimg x b' j i)) =
      ((List.range x.size).map (fun i => Arith.mul (ms.timg [i]) (bimg x b j i))).map (Ext.times d) := by
    intro j hj
    rw [List.map_map]
    refine List.map_congr_left (fun i hi => ?_)
    have hi : i < x.size := by simpa using hi
    simp only [Function.comp]
    rw [hms i hi, h2 j hj i hi]
    conv_lhs => rw [← Ext.times_one (ms.timg [i])]
    rw [Ext.times_mul, one_mul]
  cases kind with
  | sum =>
    refine ⟨d, hd, fun j hj => ?_⟩
    rw [a4 j hj, b4 j hj, if_pos (by omega), if_pos (by omega)]
    have hval : ∀ (k b : Fn (Ext K)), msgVal .sum x k b j =
        Arith.sum ((List.range x.size).map (fun i => Arith.mul (k.timg [i]) (bimg x b j i))) := by
      intro k b
      unfold msgVal Arith.sum
      rw [List.foldl_map]
      rfl
    rw [hval, hval, ← Ext.times_sum, hent j hj]
  | map =>
    have hval : ∀ (k b : Fn (Ext K)) (j : Nat), msgVal .map x k b j =
        ((List.range x.size).map (fun i => Arith.mul (k.timg [i]) (bimg x b j i))).foldl Arith.max2
          (.val FloatParams.minK) := by
      intro k b j
      unfold msgVal
      rw [List.foldl_map]
      rfl
    rcases hno with ⟨i, hi, h1⟩ | hnan
    · refine ⟨d, hd, fun j hj => ?_⟩
      rw [a4 j hj, b4 j hj, if_pos (by omega), if_pos (by omega), hval, hval, hent j hj]
      rcases hd1 rfl with hone | hfl
      · rw [hone, Ext.times_one, show Ext.times (1 : K) = id from funext Ext.times_one, List.map_id]
      · obtain ⟨z, k1, k2, k3⟩ := hfl j hj i hi
        refine Ext.times_foldl_max2 hd (List.mem_map.mpr ⟨i, by simpa using hi, ?_⟩) k2 k3
        rw [h1, k1]
        change Ext.val (1 * z) = _
        rw [one_mul]
    · refine ⟨1, one_pos, fun j hj => ?_⟩
      rw [a4 j hj, b4 j hj, if_pos (by omega), if_pos (by omega), hval, hval, Ext.times_one]
      have hn : ∀ (k b : Fn (Ext K)), (∀ i < x.size, k.timg [i] = .nan) →
          ∀ z ∈ (List.range x.size).map (fun i => Arith.mul (k.timg [i]) (bimg x b j i)), z = .nan := by
        intro k b hk z hz
        obtain ⟨i, hi, rfl⟩ := List.mem_map.mp hz
        rw [hk i (by simpa using hi)]
        rfl
      rw [Ext.foldl_max2_nan (hn ms b hnan), Ext.foldl_max2_nan (hn ms' b' (fun i hi => by rw [hms i hi, hnan i hi]))]

/-- The probabilities of proportional functions. -/
theorem Unary.probabilities_scaled {u : Var} {f g : Fn (Ext K)} (hf : f.Unary u) (hg : g.Unary u) (h : f.Scaled u g) :
    g.probabilities = f.probabilities := by
  obtain ⟨c, hc, h1⟩ := h
  have hI : (List.range u.size).map (fun i => g.timg [i]) =
      ((List.range u.size).map (fun i => f.timg [i])).map (Ext.times c) := by
    rw [List.map_map]
    exact List.map_congr_left (fun i hi => h1 i (by simpa using hi))
  unfold Fn.probabilities
  rw [hf.images, hg.images, hI]
  simp only
  rw [Ext.times_sum, Ext.times_eq_zero hc]
  split
  · simp
  · simp only [List.map_map]
    congr 1
    exact List.map_congr_left (fun i _ => by simp only [Function.comp]; rw [Ext.times_div hc])

/-- The variations between proportional functions. -/
theorem Unary.diff_scaled {u : Var} {f f' g g' : Fn (Ext K)} (hf : f.Unary u) (hf' : f'.Unary u) (hg : g.Unary u)
    (hg' : g'.Unary u) (h : f.Scaled u f') (h' : g.Scaled u g') : f'.diff g' = f.diff g := by
  unfold Fn.diff
  rw [hf.probabilities_scaled hf' h, hg.probabilities_scaled hg' h']

end Fn
end EFG
