import Mathlib.Algebra.Order.BigOperators.Group.Finset
import Mathlib.Algebra.BigOperators.Field
import Mathlib.Data.Finset.Max
import Mathlib.Tactic.Linarith
import Mathlib.Tactic.Positivity
import Mathlib.Tactic.FieldSimp
import Verif.Lemmas.Alike
/-
Redrawing the variables one after the other from their conditional distributions: what it does to the probabilities of
the combinations. Nothing here refers to the model of the library.
-/

set_option linter.unusedSectionVars false

namespace EFG.Tree
variable {K : Type} [Field K] [LinearOrder K] [IsStrictOrderedRing K]

/-- The assignments which differ from `e` in the variables of `l` only, where they are in range. -/
def Near (n : Var → Nat) (l : List Var) (e a : Var → Nat) : Prop := (∀ u, u ∉ l → a u = e u) ∧ ∀ u ∈ l, a u < n u

/-- The sum over the values of one variable. -/
def rowSum (n : Var → Nat) (v : Var) (f : (Var → Nat) → K) (a : Var → Nat) : K :=
  ∑ i ∈ Finset.range (n v), f (Function.update a v i)

/-- The probabilities after `v` is redrawn from its conditional distribution according to the weights `w`. -/
def redraw (n : Var → Nat) (w : (Var → Nat) → K) (v : Var) (μ : (Var → Nat) → K) (a : Var → Nat) : K :=
  rowSum n v μ a * (w a / rowSum n v w a)

/-- Some variables redrawn one after the other. -/
def sweep (n : Var → Nat) (w : (Var → Nat) → K) (vs : List Var) (μ : (Var → Nat) → K) : (Var → Nat) → K :=
  vs.foldl (fun μ v => redraw n w v μ) μ

/-- All the variables redrawn `k` times. -/
def sweeps (n : Var → Nat) (w : (Var → Nat) → K) (vs : List Var) : Nat → ((Var → Nat) → K) → (Var → Nat) → K
  | 0, μ => μ
  | k + 1, μ => sweeps n w vs k (sweep n w vs μ)

variable {n : Var → Nat} {w : (Var → Nat) → K} {l : List Var} {e : Var → Nat}

theorem Near.update {a : Var → Nat} (h : Near n l e a) {v : Var} (hv : v ∈ l) {i : Nat} (hi : i < n v) :
    Near n l e (Function.update a v i) := by
  constructor
  · intro u hu
    rw [Function.update_of_ne (fun (h1 : u = v) => hu (h1 ▸ hv))]
    exact h.1 u hu
  · intro u hu
    by_cases huv : u = v
    · subst huv; rw [Function.update_self]; exact hi
    · rw [Function.update_of_ne huv]; exact h.2 u hu

theorem rowSum_update (v : Var) (f : (Var → Nat) → K) (a : Var → Nat) (i : Nat) :
    rowSum n v f (Function.update a v i) = rowSum n v f a := by
  unfold rowSum
  simp only [Function.update_idem]

theorem rowSum_congr {f g : (Var → Nat) → K} (h : ∀ a, Near n l e a → f a = g a) {v : Var} (hv : v ∈ l) {a : Var → Nat}
    (ha : Near n l e a) : rowSum n v f a = rowSum n v g a :=
  Finset.sum_congr rfl (fun _ hi => h _ (ha.update hv (Finset.mem_range.mp hi)))

theorem rowSum_pos (hw : ∀ a, Near n l e a → 0 < w a) {v : Var} (hv : v ∈ l) {a : Var → Nat} (ha : Near n l e a) :
    0 < rowSum n v w a :=
  Finset.sum_pos (fun _ hi => hw _ (ha.update hv (Finset.mem_range.mp hi)))
    ⟨a v, Finset.mem_range.mpr (ha.2 v hv)⟩

theorem rowSum_nonneg {f : (Var → Nat) → K} (hf : ∀ a, Near n l e a → 0 ≤ f a) {v : Var} (hv : v ∈ l) {a : Var → Nat}
    (ha : Near n l e a) : 0 ≤ rowSum n v f a :=
  Finset.sum_nonneg (fun _ hi => hf _ (ha.update hv (Finset.mem_range.mp hi)))

theorem redraw_congr {μ ν : (Var → Nat) → K} (h : ∀ a, Near n l e a → μ a = ν a) {v : Var} (hv : v ∈ l) {a : Var → Nat}
    (ha : Near n l e a) : redraw n w v μ a = redraw n w v ν a := by
  unfold redraw
  rw [rowSum_congr h hv ha]

theorem redraw_nonneg (hw : ∀ a, Near n l e a → 0 < w a) {μ : (Var → Nat) → K} (h : ∀ a, Near n l e a → 0 ≤ μ a) {v : Var}
    (hv : v ∈ l) {a : Var → Nat} (ha : Near n l e a) : 0 ≤ redraw n w v μ a :=
  mul_nonneg (rowSum_nonneg h hv ha) (div_nonneg (hw a ha).le (rowSum_pos hw hv ha).le)

/-- The weights are kept. -/
theorem redraw_sub (hw : ∀ a, Near n l e a → 0 < w a) (μ : (Var → Nat) → K) (c : K) {v : Var} (hv : v ∈ l) {a : Var → Nat}
    (ha : Near n l e a) : redraw n w v (fun b => μ b - c * w b) a = redraw n w v μ a - c * w a := by
  unfold redraw
  have h0 := (rowSum_pos hw hv ha).ne'
  have : rowSum n v (fun b => μ b - c * w b) a = rowSum n v μ a - c * rowSum n v w a := by
    unfold rowSum
    rw [Finset.sum_sub_distrib, Finset.mul_sum]
  rw [this, sub_mul]
  congr 1
  field_simp

theorem rowSum_redraw (hw : ∀ a, Near n l e a → 0 < w a) (μ : (Var → Nat) → K) {v : Var} (hv : v ∈ l) {a : Var → Nat}
    (ha : Near n l e a) : rowSum n v (redraw n w v μ) a = rowSum n v μ a := by
  have h0 := (rowSum_pos hw hv ha).ne'
  have : ∀ i ∈ Finset.range (n v), redraw n w v μ (Function.update a v i) =
      rowSum n v μ a / rowSum n v w a * w (Function.update a v i) := by
    intro i _
    unfold redraw
    rw [rowSum_update, rowSum_update]
    ring
  unfold rowSum at this ⊢
  rw [Finset.sum_congr rfl this, ← Finset.mul_sum]
  change _ / rowSum n v w a * rowSum n v w a = _
  rw [div_mul_cancel₀ _ h0]

theorem sumOver_snoc (f : (Var → Nat) → K) (l : List Var) (v : Var) (a : Var → Nat) :
    sumOver n (l ++ [v]) f a = sumOver n l (rowSum n v f) a := by
  rw [sumOver_append]
  rfl

theorem sumOver_add (f g : (Var → Nat) → K) (W : List Var) (a : Var → Nat) :
    sumOver n W (fun b => f b + g b) a = sumOver n W f a + sumOver n W g a := by
  induction W generalizing a with
  | nil => rfl
  | cons v W ih => simp only [sumOver, ih, Finset.sum_add_distrib]

theorem sumOver_sub (f g : (Var → Nat) → K) (c : K) (W : List Var) (a : Var → Nat) :
    sumOver n W (fun b => f b - c * g b) a = sumOver n W f a - c * sumOver n W g a := by
  induction W generalizing a with
  | nil => rfl
  | cons v W ih => simp only [sumOver, ih, Finset.sum_sub_distrib, Finset.mul_sum]

theorem sumOver_off (f : (Var → Nat) → K) (W : List Var) : ∀ {a b : Var → Nat}, (∀ u, u ∉ W → a u = b u) →
    sumOver n W f a = sumOver n W f b := by
  induction W with
  | nil =>
    intro a b h
    have : a = b := funext (fun u => h u (by simp))
    rw [this]
  | cons v W ih =>
    intro a b h
    refine Finset.sum_congr rfl (fun i _ => ih (fun u hu => ?_))
    by_cases huv : u = v
    · subst huv; rw [Function.update_self, Function.update_self]
    · rw [Function.update_of_ne huv, Function.update_of_ne huv]
      exact h u (by simp [huv, hu])

theorem near_self_of {a : Var → Nat} (ha : ∀ u ∈ l, a u < n u) : Near n l a a := ⟨fun _ _ => rfl, ha⟩

/-- The total is kept. -/
theorem sumOver_redraw (hw : ∀ a, Near n l e a → 0 < w a) (μ : (Var → Nat) → K) {v : Var} (hv : v ∈ l) {a : Var → Nat}
    (ha : Near n l e a) : sumOver n l (redraw n w v μ) a = sumOver n l μ a := by
  have hp : l.Perm (l.erase v ++ [v]) :=
    (List.perm_cons_erase hv).trans ((List.perm_append_singleton v (l.erase v)).symm)
  rw [sumOver_perm hp, sumOver_perm hp, sumOver_snoc, sumOver_snoc]
  refine sumOver_congr_range (fun b h1 h2 => rowSum_redraw hw μ hv ⟨fun u hu => ?_, fun u hu => ?_⟩)
  · rw [h1 u (fun h => hu (List.mem_of_mem_erase h))]
    exact ha.1 u hu
  · by_cases h : u ∈ l.erase v
    · exact h2 u h
    · rw [h1 u h]; exact ha.2 u hu

theorem sweep_congr {vs : List Var} (hvs : ∀ v ∈ vs, v ∈ l) : ∀ {μ ν : (Var → Nat) → K}, (∀ a, Near n l e a → μ a = ν a) →
    ∀ {a : Var → Nat}, Near n l e a → sweep n w vs μ a = sweep n w vs ν a := by
  induction vs with
  | nil => intro μ ν h a ha; exact h a ha
  | cons v vs ih =>
    intro μ ν h a ha
    exact ih (fun u hu => hvs u (by simp [hu])) (fun b hb => redraw_congr h (hvs v (by simp)) hb) ha

theorem sweep_sub (hw : ∀ a, Near n l e a → 0 < w a) {vs : List Var} (hvs : ∀ v ∈ vs, v ∈ l) : ∀ (μ : (Var → Nat) → K) (c : K)
    {a : Var → Nat}, Near n l e a → sweep n w vs (fun b => μ b - c * w b) a = sweep n w vs μ a - c * w a := by
  induction vs with
  | nil => intro μ c a _; rfl
  | cons v vs ih =>
    intro μ c a ha
    have h1 : sweep n w (v :: vs) (fun b => μ b - c * w b) a =
        sweep n w vs (fun b => redraw n w v μ b - c * w b) a :=
      sweep_congr (fun u hu => hvs u (by simp [hu])) (fun b hb => redraw_sub hw μ c (hvs v (by simp)) hb) ha
    rw [h1, ih (fun u hu => hvs u (by simp [hu])) _ _ ha]
    rfl

theorem sumOver_sweep (hw : ∀ a, Near n l e a → 0 < w a) {vs : List Var} (hvs : ∀ v ∈ vs, v ∈ l) : ∀ (μ : (Var → Nat) → K)
    {a : Var → Nat}, Near n l e a → sumOver n l (sweep n w vs μ) a = sumOver n l μ a := by
  induction vs with
  | nil => intro μ a _; rfl
  | cons v vs ih =>
    intro μ a ha
    exact (ih (fun u hu => hvs u (by simp [hu])) _ ha).trans (sumOver_redraw hw μ (hvs v (by simp)) ha)

/-- After all the variables are redrawn every combination is possible. -/
theorem sweep_ge (hw : ∀ a, Near n l e a → 0 < w a) {ε : K} (h0 : 0 ≤ ε)
    (hε : ∀ v ∈ l, ∀ a, Near n l e a → ε ≤ w a / rowSum n v w a) {vs : List Var} (hvs : ∀ v ∈ vs, v ∈ l) :
    ∀ {μ : (Var → Nat) → K}, (∀ a, Near n l e a → 0 ≤ μ a) → ∀ {a : Var → Nat}, Near n l e a →
    ε ^ vs.length * sumOver n vs μ a ≤ sweep n w vs μ a := by
  induction vs with
  | nil => intro μ _ a _; simp [sumOver, sweep]
  | cons v vs ih =>
    intro μ hμ a ha
    have hv := hvs v (by simp)
    have h1 := ih (fun u hu => hvs u (by simp [hu])) (μ := redraw n w v μ) (fun b hb => redraw_nonneg hw hμ hv hb) ha
    refine le_trans ?_ h1
    rw [List.length_cons, pow_succ, mul_assoc]
    refine mul_le_mul_of_nonneg_left ?_ (pow_nonneg h0 _)
    rw [sumOver_perm (List.perm_append_singleton v vs).symm, sumOver_snoc]
    have hnear : ∀ b, (∀ u, u ∉ vs → b u = a u) → (∀ u ∈ vs, b u < n u) → Near n l e b := by
      intro b hb1 hb2
      refine ⟨fun u hu => ?_, fun u hu => ?_⟩
      · rw [hb1 u (fun h => hu (hvs u (by simp [h])))]; exact ha.1 u hu
      · by_cases h : u ∈ vs
        · exact hb2 u h
        · rw [hb1 u h]; exact ha.2 u hu
    have hsub : 0 ≤ sumOver n vs (fun b => redraw n w v μ b - ε * rowSum n v μ b) a := by
      refine sumOver_nonneg n _ (fun b hb1 hb2 => ?_)
      have hb := hnear b hb1 hb2
      have h2 := mul_le_mul_of_nonneg_left (hε v hv b hb) (rowSum_nonneg hμ hv hb)
      unfold redraw
      linarith
    rw [sumOver_sub] at hsub
    linarith

theorem sumOver_near (f : (Var → Nat) → K) {a : Var → Nat} (ha : Near n l e a) : sumOver n l f a = sumOver n l f e :=
  sumOver_off f l ha.1

open Classical in
/-- What is above a part of the distribution is not far from it. -/
theorem near_bounds (hw : ∀ a, Near n l e a → 0 < w a) (he : Near n l e e) {μ : (Var → Nat) → K} {q r : K} (hr : 0 ≤ r)
    (hμ : sumOver n l μ e = q) (h : ∀ a, Near n l e a → (q - r) * (w a / sumOver n l w e) ≤ μ a)
    (A : (Var → Nat) → Prop) :
    |sumOver n l (fun b => if A b then μ b else 0) e -
      q * (sumOver n l (fun b => if A b then w b else 0) e / sumOver n l w e)| ≤ r := by
  have hZ : 0 < sumOver n l w e := lt_of_lt_of_le (hw e he) (le_sumOver n w (fun b h1 h2 => (hw b ⟨h1, h2⟩).le) he.1 he.2)
  have hν : ∀ b, Near n l e b → 0 ≤ μ b - (q - r) / sumOver n l w e * w b := by
    intro b hb
    have := h b hb
    rw [mul_div_assoc'] at this
    rw [div_mul_eq_mul_div]
    linarith
  -- the part above, and the part of it which passes the test
  have hmono : ∀ f g : (Var → Nat) → K, (∀ b, Near n l e b → f b ≤ g b) → sumOver n l f e ≤ sumOver n l g e := by
    intro f g hfg
    have := sumOver_nonneg n (fun b => g b - 1 * f b) (W := l) (a := e) (fun b h1 h2 => by have := hfg b ⟨h1, h2⟩; linarith)
    rw [sumOver_sub] at this
    linarith
  have hsplit : (fun b => if A b then μ b - (q - r) / sumOver n l w e * w b else 0) =
      (fun b => (if A b then μ b else 0) - (q - r) / sumOver n l w e * (if A b then w b else 0)) := by
    funext b
    by_cases hA : A b <;> simp [hA]
  have h1 : 0 ≤ sumOver n l (fun b => if A b then μ b - (q - r) / sumOver n l w e * w b else 0) e :=
    sumOver_nonneg n _ (fun b h1 h2 => by split; exacts [hν b ⟨h1, h2⟩, le_rfl])
  have h2 : sumOver n l (fun b => if A b then μ b - (q - r) / sumOver n l w e * w b else 0) e ≤ r := by
    have := hmono _ (fun b => μ b - (q - r) / sumOver n l w e * w b)
      (fun b hb => (by split; exacts [le_rfl, hν b hb] :
        (if A b then μ b - (q - r) / sumOver n l w e * w b else 0) ≤ μ b - (q - r) / sumOver n l w e * w b))
    rw [sumOver_sub, hμ, div_mul_cancel₀ _ hZ.ne'] at this
    linarith
  rw [hsplit, sumOver_sub] at h1 h2
  set m := sumOver n l (fun b => if A b then μ b else 0) e
  have h3 : 0 ≤ sumOver n l (fun b => if A b then w b else 0) e :=
    sumOver_nonneg n _ (fun b h1 h2 => by split; exacts [(hw b ⟨h1, h2⟩).le, le_rfl])
  have h4 : sumOver n l (fun b => if A b then w b else 0) e ≤ sumOver n l w e :=
    hmono _ _ (fun b hb => by split; exacts [le_rfl, (hw b hb).le])
  set H := sumOver n l (fun b => if A b then w b else 0) e
  set Z := sumOver n l w e
  have h5 : H / Z ≤ 1 := (div_le_one hZ).mpr h4
  have h6 : 0 ≤ H / Z := div_nonneg h3 hZ.le
  have h7 : (q - r) / Z * H = q * (H / Z) - r * (H / Z) := by ring
  rw [h7] at h1 h2
  have h8 : r * (H / Z) ≤ r * 1 := mul_le_mul_of_nonneg_left h5 hr
  have h9 : 0 ≤ r * (H / Z) := mul_nonneg hr h6
  rw [abs_le]
  constructor <;> linarith

open Classical in
/-- The distance from the distribution after `k` rounds. -/
theorem sweeps_bounds (hw : ∀ a, Near n l e a → 0 < w a) (he : Near n l e e) {ε : K} (h0 : 0 ≤ ε)
    (hε : ∀ v ∈ l, ∀ a, Near n l e a → ε ≤ w a / rowSum n v w a) {vs : List Var} (hvs : vs.Perm l)
    (hε1 : ε ^ l.length ≤ 1) (A : (Var → Nat) → Prop) {q : K} (k : Nat) :
    ∀ {μ : (Var → Nat) → K} {r : K}, 0 ≤ r → sumOver n l μ e = q →
      (∀ a, Near n l e a → (q - r) * (w a / sumOver n l w e) ≤ μ a) →
      |sumOver n l (fun b => if A b then sweeps n w vs k μ b else 0) e -
        q * (sumOver n l (fun b => if A b then w b else 0) e / sumOver n l w e)| ≤ r * (1 - ε ^ l.length) ^ k := by
  have hmem : ∀ v ∈ vs, v ∈ l := fun v hv => hvs.mem_iff.mp hv
  induction k with
  | zero =>
    intro μ r hr hμ h
    rw [pow_zero, mul_one]
    exact near_bounds hw he hr hμ h A
  | succ k ih =>
    intro μ r hr hμ h
    rw [pow_succ', ← mul_assoc]
    refine ih (mul_nonneg hr (by linarith)) ((sumOver_sweep hw hmem μ he).trans hμ) (fun b hb => ?_)
    have hle : w b ≤ sumOver n l w e := le_sumOver n w (fun b h1 h2 => (hw b ⟨h1, h2⟩).le) hb.1 hb.2
    have hZ : 0 < sumOver n l w e := lt_of_lt_of_le (hw b hb) hle
    have h1 : w b / sumOver n l w e ≤ 1 := (div_le_one hZ).mpr hle
    have h2 := sweep_ge hw h0 hε hmem (μ := fun b => μ b - (q - r) / sumOver n l w e * w b) (fun c hc => by
      have := h c hc
      rw [mul_div_assoc'] at this
      rw [div_mul_eq_mul_div]
      linarith) hb
    rw [sweep_sub hw hmem _ _ hb, sumOver_perm hvs, hvs.length_eq, sumOver_near _ hb, sumOver_sub, hμ,
      div_mul_cancel₀ _ hZ.ne'] at h2
    have h4 : (q - r) / sumOver n l w e * w b = (q - r) * (w b / sumOver n l w e) := by ring
    rw [h4] at h2
    have h5 : r * ε ^ l.length * (w b / sumOver n l w e) ≤ r * ε ^ l.length * 1 :=
      mul_le_mul_of_nonneg_left h1 (mul_nonneg hr (pow_nonneg h0 _))
    have h6 : (q - r * (1 - ε ^ l.length)) * (w b / sumOver n l w e) =
      (q - r) * (w b / sumOver n l w e) + r * ε ^ l.length * (w b / sumOver n l w e) := by ring
    rw [h6]
    linarith

/-- A positive function has a positive lower bound. -/
theorem exists_bound (n : Var → Nat) (f : (Var → Nat) → K) (l : List Var) : ∀ e : Var → Nat, (∀ a, Near n l e a → 0 < f a) →
    ∃ ε, 0 < ε ∧ ∀ a, Near n l e a → ε ≤ f a := by
  induction l with
  | nil =>
    intro e h
    refine ⟨f e, h e ⟨fun _ _ => rfl, by simp⟩, fun a ha => ?_⟩
    have : a = e := funext (fun u => ha.1 u (by simp))
    rw [this]
  | cons v l ih =>
    intro e h
    have hstep : ∀ i < n v, ∃ ε, 0 < ε ∧ ∀ a, Near n l (Function.update e v i) a → a v < n v → ε ≤ f a := by
      intro i hi
      by_cases hv : v ∈ l
      · obtain ⟨ε, h1, h2⟩ := ih (Function.update e v i) (fun a ha => h a ⟨fun u hu => by
          rw [ha.1 u (fun h => hu (by simp [h])), Function.update_of_ne (fun h => hu (by simp [h]))], fun u hu => by
          rcases List.mem_cons.mp hu with rfl | hu
          · exact ha.2 _ hv
          · exact ha.2 u hu⟩)
        exact ⟨ε, h1, fun a ha _ => h2 a ha⟩
      · obtain ⟨ε, h1, h2⟩ := ih (Function.update e v i) (fun a ha => h a ⟨fun u hu => by
          rw [ha.1 u (fun h => hu (by simp [h])), Function.update_of_ne (fun h => hu (by simp [h]))], fun u hu => by
          by_cases hul : u ∈ l
          · exact ha.2 u hul
          · rcases List.mem_cons.mp hu with rfl | hu
            · rw [ha.1 _ hul, Function.update_self]; exact hi
            · exact absurd hu hul⟩)
        exact ⟨ε, h1, fun a ha _ => h2 a ha⟩
    have hall : ∀ m ≤ n v, ∃ ε, 0 < ε ∧ ∀ i < m, ∀ a, Near n l (Function.update e v i) a → a v < n v → ε ≤ f a := by
      intro m
      induction m with
      | zero => intro _; exact ⟨1, one_pos, by omega⟩
      | succ m ihm =>
        intro hm
        obtain ⟨ε1, h1, h2⟩ := ihm (by omega)
        obtain ⟨ε2, h3, h4⟩ := hstep m (by omega)
        refine ⟨min ε1 ε2, lt_min h1 h3, fun i hi a ha hav => ?_⟩
        rcases Nat.lt_succ_iff_lt_or_eq.mp hi with h | rfl
        · exact (min_le_left _ _).trans (h2 i h a ha hav)
        · exact (min_le_right _ _).trans (h4 a ha hav)
    obtain ⟨ε, h1, h2⟩ := hall (n v) le_rfl
    refine ⟨ε, h1, fun a ha => h2 (a v) (ha.2 v (by simp)) a ⟨fun u hu => ?_, fun u hu => ha.2 u (by simp [hu])⟩
      (ha.2 v (by simp))⟩
    by_cases huv : u = v
    · subst huv; rw [Function.update_self]
    · rw [Function.update_of_ne huv]; exact ha.1 u (by simp [huv, hu])

/-- The probabilities with which the values are drawn have a positive lower bound. -/
theorem exists_rate (hw : ∀ a, Near n l e a → 0 < w a) : ∃ ε, 0 < ε ∧ ε ≤ 1 ∧
    ∀ v ∈ l, ∀ a, Near n l e a → ε ≤ w a / rowSum n v w a := by
  have : ∀ vs : List Var, (∀ v ∈ vs, v ∈ l) → ∃ ε, 0 < ε ∧ ε ≤ 1 ∧ ∀ v ∈ vs, ∀ a, Near n l e a → ε ≤ w a / rowSum n v w a := by
    intro vs
    induction vs with
    | nil => intro _; exact ⟨1, one_pos, le_rfl, by simp⟩
    | cons v vs ih =>
      intro hvs
      obtain ⟨ε1, h1, h2, h3⟩ := ih (fun u hu => hvs u (by simp [hu]))
      obtain ⟨ε2, h4, h5⟩ := exists_bound n (fun a => w a / rowSum n v w a) l e
        (fun a ha => div_pos (hw a ha) (rowSum_pos hw (hvs v (by simp)) ha))
      refine ⟨min ε1 ε2, lt_min h1 h4, (min_le_left _ _).trans h2, fun u hu a ha => ?_⟩
      rcases List.mem_cons.mp hu with rfl | hu
      · exact (min_le_right _ _).trans (h5 a ha)
      · exact (min_le_left _ _).trans (h3 u hu a ha)
  exact this l (fun _ h => h)

end EFG.Tree
