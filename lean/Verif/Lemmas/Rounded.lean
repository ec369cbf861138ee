import Verif.Lemmas.Near
import Verif.Lemmas.Tally
/-
The beliefs of a propagation with rounding.
-/

set_option linter.unusedSectionVars false

namespace EFG
namespace State
variable {K : Type} [Field K] [LinearOrder K] [IsStrictOrderedRing K] [FloatParams K] [Rounding K]
attribute [local instance 2000] Ext.rounded

/-- How large the images, the sizes of the variables and the number of factors on each of them may be, for the results
to be between `1 / H` and `H`. -/
structure Ranged (b : Prop) (H ε A : K) (n D : Nat) (s : State (Ext K)) (nodes : List Var) : Prop where
  one_le : b → 1 ≤ A
  images : s.Valued (fun x => 0 ≤ x ∧ Spans b A A x)
  size : b → ∀ u ∈ nodes, u.size ≤ n
  degree : b → ∀ u ∈ nodes, s.tally u + (AMap.keys (s.activeOf u)).length ≤ D
  range : b → (n * A * (1 - ε)⁻¹ ^ (n + 4)) ^ (4 * D + 3) ≤ H

omit [LinearOrder K] [IsStrictOrderedRing K] [FloatParams K] [Rounding K] in
/-- The bound of the images after the first merging. -/
def boundM (q A : K) (t : Nat) : K := (A ^ t) ^ 2 * q ^ (2 * t + 2)
/-- The bound of the messages. -/
def boundB (q A : K) (n : Nat) : K := n * A * q ^ (n + 3)
/-- The bound of the images after the second merging. -/
def boundG (q A : K) (n t d : Nat) : K := (boundM q A t * boundB q A n ^ d) ^ 2 * q ^ (2 * (d + 1) + 2)

omit [FloatParams K] [Rounding K] in
theorem boundM_one_le {q A : K} (hq : 1 ≤ q) (hA : 1 ≤ A) (t : Nat) : 1 ≤ boundM q A t :=
  one_le_mul_of_one_le_of_one_le (one_le_pow₀ (one_le_pow₀ hA)) (one_le_pow₀ hq)

omit [FloatParams K] [Rounding K] in
theorem boundB_one_le {q A : K} (hq : 1 ≤ q) (hA : 1 ≤ A) {n : Nat} (hn : 1 ≤ n) : 1 ≤ boundB q A n :=
  one_le_mul_of_one_le_of_one_le (one_le_mul_of_one_le_of_one_le (by exact_mod_cast hn) hA) (one_le_pow₀ hq)

omit [FloatParams K] [Rounding K] in
theorem boundG_one_le {q A : K} (hq : 1 ≤ q) (hA : 1 ≤ A) {n : Nat} (hn : 1 ≤ n) (t d : Nat) : 1 ≤ boundG q A n t d :=
  one_le_mul_of_one_le_of_one_le (one_le_pow₀ (one_le_mul_of_one_le_of_one_le (boundM_one_le hq hA t)
    (one_le_pow₀ (boundB_one_le hq hA hn)))) (one_le_pow₀ hq)

omit [FloatParams K] [Rounding K] in
theorem bound_le {q A H : K} {n D t d : Nat} (hq : 1 ≤ q) (hA : 1 ≤ A) (hn : 1 ≤ n) (htd : t + d ≤ D)
    (hH : (n * A * q ^ (n + 4)) ^ (4 * D + 3) ≤ H) : boundG q A n t d * (n * A * q ^ (n + 4)) ≤ H := by
  refine le_trans ?_ hH
  have hn1 : (1 : K) ≤ n := by exact_mod_cast hn
  have hq0 : 0 ≤ q := zero_le_one.trans hq
  have hA0 : 0 ≤ A := zero_le_one.trans hA
  set E := (n : K) * A * q ^ (n + 4) with hE
  have hEnA : 1 ≤ (n : K) * A := one_le_mul_of_one_le_of_one_le hn1 hA
  have h1 : A * q ≤ E := by
    rw [hE]
    exact mul_le_mul (le_mul_of_one_le_left hA0 hn1) (le_self_pow₀ hq (by omega)) hq0 (by positivity)
  have hE1 : 1 ≤ E := one_le_mul_of_one_le_of_one_le hEnA (one_le_pow₀ hq)
  have h2 : q ^ 4 ≤ E := by
    rw [hE]
    exact (pow_le_pow_right₀ hq (by omega)).trans (le_mul_of_one_le_left (by positivity) hEnA)
  have h3 : boundG q A n t d * E = (A * q) ^ (4 * t) * E ^ (2 * d) * (q ^ 4) ^ 2 * E := by
    rw [hE]
    unfold boundG boundM boundB
    ring
  have hE0 : 0 ≤ E := zero_le_one.trans hE1
  rw [h3]
  calc (A * q) ^ (4 * t) * E ^ (2 * d) * (q ^ 4) ^ 2 * E ≤ E ^ (4 * t) * E ^ (2 * d) * E ^ 2 * E := by
        have e1 : (A * q) ^ (4 * t) ≤ E ^ (4 * t) := pow_le_pow_left₀ (by positivity) h1 _
        have e2 : (q ^ 4) ^ 2 ≤ E ^ 2 := pow_le_pow_left₀ (by positivity) h2 _
        refine mul_le_mul_of_nonneg_right (mul_le_mul (mul_le_mul_of_nonneg_right e1 (by positivity)) e2 (by positivity)
          (by positivity)) hE0
    _ = E ^ (4 * t + 2 * d + 3) := by ring
    _ ≤ E ^ (4 * D + 3) := pow_le_pow_right₀ hE1 (by omega)

omit [FloatParams K] [Rounding K] in
theorem boundM_le_G {q A : K} (hq : 1 ≤ q) (hA : 1 ≤ A) {n : Nat} (hn : 1 ≤ n) (t d : Nat) :
    boundM q A t ≤ boundG q A n t d := by
  have h1 := boundM_one_le hq hA t
  have h2 : 1 ≤ boundB q A n ^ d := one_le_pow₀ (boundB_one_le hq hA hn)
  have h3 : 1 ≤ boundM q A t * boundB q A n ^ d := one_le_mul_of_one_le_of_one_le h1 h2
  have h0 : 0 ≤ boundM q A t := zero_le_one.trans h1
  unfold boundG
  calc boundM q A t ≤ boundM q A t * boundB q A n ^ d := le_mul_of_one_le_right h0 h2
    _ ≤ (boundM q A t * boundB q A n ^ d) ^ 2 := le_self_pow₀ h3 (by omega)
    _ ≤ _ := le_mul_of_one_le_right (by positivity) (one_le_pow₀ hq)

omit [FloatParams K] [Rounding K] in
theorem message_le {q A : K} (hq : 1 ≤ q) (hA : 1 ≤ A) {k n : Nat} (hk : k ≤ n) :
    (k : K) * q ^ 2 * A * q ^ (k + 1) ≤ boundB q A n := by
  have h1 : (k : K) ≤ n := by exact_mod_cast hk
  have h0 : 0 ≤ A := zero_le_one.trans hA
  unfold boundB
  rw [show (k : K) * q ^ 2 * A * q ^ (k + 1) = k * A * q ^ (k + 3) by ring]
  exact mul_le_mul (mul_le_mul_of_nonneg_right h1 h0) (pow_le_pow_right₀ hq (by omega)) (by positivity) (by positivity)

omit [FloatParams K] [Rounding K] in
theorem size_le {q A : K} (hq : 1 ≤ q) (hA : 1 ≤ A) {k n : Nat} (hn : 1 ≤ n) (hk : k ≤ n + 4) :
    q ^ k ≤ n * A * q ^ (n + 4) := by
  have h1 : (1 : K) ≤ n * A := one_le_mul_of_one_le_of_one_le (by exact_mod_cast hn) hA
  exact (pow_le_pow_right₀ hq hk).trans (le_mul_of_one_le_left (by positivity) h1)

omit [FloatParams K] [Rounding K] in
theorem sum_le {q A : K} (hq : 1 ≤ q) (hA : 1 ≤ A) {k n : Nat} (hk : k ≤ n) :
    (k : K) * q ^ 2 * q ^ k ≤ n * A * q ^ (n + 4) := by
  have h1 : (k : K) ≤ n * A := by
    have : (k : K) ≤ n := by exact_mod_cast hk
    exact this.trans (le_mul_of_one_le_right (Nat.cast_nonneg _) hA)
  rw [mul_assoc, ← pow_add]
  exact mul_le_mul h1 (pow_le_pow_right₀ hq (by omega)) (by positivity) (by positivity)

variable {b : Prop} {H ε : K} (hε : Rounding.Rounds b H ε)
variable {kind : Kind} {R : Type} [CommSemiring R]
include hε

/-- The merged unaries of a hidden variable. -/
theorem merged_near {s : State (Ext K)} (hs : Core s) (hsep : Separated s) (hf : Coherent s)
    (hevid : ∀ u v c k, u ∉ s.obs → s.dis u v = some c → AMap.find? s.evidences v = some k →
      ∃ m, c.message = some m ∧ IsEvid s c.factor v k m)
    {A : K} (hA : b → 1 ≤ A) (hnum : s.Valued (fun x => 0 ≤ x ∧ Spans b A A x)) {u : Var} (hu : u ∈ s.hid)
    (hH : b → boundM (1 - ε)⁻¹ A (s.tally u) ≤ H) {mg : Fn (Ext K)} (hmg : s.mrg u = some mg)
    (hne : ∃ i < u.size, s.psiK u i ≠ 0) :
    ∃ c : K, 0 < c ∧ ∀ i < u.size, ∃ x, mg.timg [i] = .val x ∧ 0 ≤ x ∧ Near ε (s.tally u + 1) x (c * s.psiK u i) ∧
      Spans b (boundM (1 - ε)⁻¹ A (s.tally u)) (boundM (1 - ε)⁻¹ A (s.tally u)) x := by
  obtain ⟨huv, huo⟩ := mem_hid.mp hu
  obtain ⟨ord, hord, hval⟩ := hf u huv huo mg hmg
  have hq1 := Spans.one_le_inv hε.nonneg hε.lt_one
  obtain ⟨fs, hall, hlen, hprod, ⟨rfl, rfl⟩ | ⟨hfs, hmg⟩⟩ := mergedVal_list hs hsep hevid hnum hu hord hval
  · refine ⟨1, one_pos, fun i hi => ⟨1, ?_, zero_le_one, ?_, (Spans.one b).mono zero_le_one
      (fun hb => boundM_one_le hq1 (hA hb) _) (fun hb => boundM_one_le hq1 (hA hb) _)⟩⟩
    · rw [(Fn.ones_unary (F := Ext K) (hs.posV u huv)).2 i hi]; rfl
    · rw [← (hprod i hi).2]
      simp only [List.map_nil, List.prod_nil, mul_one]
      exact (Near.refl 1).mono hε.nonneg hε.lt_one zero_le_one zero_le_one (Nat.zero_le _)
  · obtain ⟨i0, hi0, hi0ne⟩ := hne
    have hlen' : fs.length = s.tally u := hlen
    obtain ⟨m, e1, _, ⟨c, hc, e4⟩, e5, _⟩ := Fn.mergedUnaries_near hε (v := u) hfs hall
      (fun i hi f hf => ⟨((hprod i hi).1 f hf).1, ((hprod i hi).1 f hf).2.1⟩)
      ⟨i0, hi0, by rw [(hprod i0 hi0).2]; exact hi0ne⟩ (P := A ^ s.tally u) (by
        intro i hi l hl
        refine Spans.prod ?_ hA (by rw [List.length_map, ← hlen']; exact hl.length_le)
        intro x hx
        obtain ⟨f, hf, rfl⟩ := List.mem_map.1 hx
        exact ((hprod i hi).1 f (hl.subset hf)).2) (fun hb => by
        refine le_trans ?_ (hH hb)
        unfold boundM
        rw [hlen']
        have := hA hb
        exact mul_le_mul_of_nonneg_left (pow_le_pow_right₀ hq1 (by omega)) (by positivity))
    rw [hmg] at e1
    cases e1
    refine ⟨c, hc, fun i hi => ?_⟩
    obtain ⟨x, x1, x2, x3⟩ := e4 i hi
    have x4 := e5 i hi
    rw [hlen', (hprod i hi).2] at x3
    rw [hlen', x1, Ext.toK_val] at x4
    refine ⟨x, x1, x2, x3, x4.mono x2 (fun _ => le_rfl) (fun hb => ?_)⟩
    have h1 : (1 : K) ≤ (A ^ s.tally u) ^ 2 := one_le_pow₀ (one_le_pow₀ (hA hb))
    unfold boundM
    exact (pow_le_pow_right₀ hq1 (by omega)).trans (le_mul_of_one_le_left (by positivity) h1)

/-- The product of some messages. -/
theorem messages_prod_near {s : State (Ext K)} {u : Var} {g : Var → Nat → K} {C : Var → Nat} {B : K} {L : List Var}
    {ms : List (Fn (Ext K))} (hf : List.Forall₂ (fun w m => s.msg u w = some m) L ms)
    (hg0 : ∀ w ∈ L, ∀ i < u.size, 0 ≤ g w i)
    (hg : ∀ w ∈ L, ∃ m, s.msg u w = some m ∧ ∃ c : K, 0 < c ∧ ∀ i < u.size, ∃ x, m.timg [i] = .val x ∧ 0 ≤ x ∧
      Near ε (C w) x (c * g w i) ∧ Spans b B B x) :
    ∃ D : K, 0 < D ∧ ∀ i < u.size, (∀ m ∈ ms, (m.timg [i]).IsVal ∧ 0 ≤ (m.timg [i]).toK ∧ Spans b B B (m.timg [i]).toK) ∧
      0 ≤ (L.map (fun w => g w i)).prod ∧
      Near ε (L.map C).sum (ms.map (fun m => (m.timg [i]).toK)).prod (D * (L.map (fun w => g w i)).prod) := by
  induction hf with
  | nil => exact ⟨1, one_pos, fun i _ => ⟨by simp, by simp, by simpa using Near.refl 1⟩⟩
  | @cons w m L ms hwm _ ih =>
    obtain ⟨D, hD, h1⟩ := ih (fun w hw => hg0 w (by simp [hw])) (fun w hw => hg w (by simp [hw]))
    obtain ⟨m', e1, c, hc, e2⟩ := hg w (by simp)
    rw [hwm] at e1
    cases e1
    refine ⟨c * D, mul_pos hc hD, fun i hi => ?_⟩
    obtain ⟨h2, h3, h4⟩ := h1 i hi
    obtain ⟨x, g1, g2, g3, g4⟩ := e2 i hi
    have hw0 := hg0 w (by simp) i hi
    refine ⟨?_, ?_, ?_⟩
    · intro m' hm'
      rcases List.mem_cons.1 hm' with rfl | hm'
      · rw [g1]; exact ⟨Ext.isVal_val _, g2, g4⟩
      · exact h2 m' hm'
    · rw [List.map_cons, List.prod_cons]; exact mul_nonneg hw0 h3
    · simp only [List.map_cons, List.prod_cons, List.sum_cons]
      rw [g1, Ext.toK_val, show c * D * (g w i * (L.map (fun w => g w i)).prod) =
        (c * g w i) * (D * (L.map (fun w => g w i)).prod) by ring]
      refine g3.mul hε.lt_one h4 g2 (mul_nonneg hc.le hw0) (list_prod_nonneg ?_) (mul_nonneg hD.le h3)
      intro y hy
      obtain ⟨m', hm', rfl⟩ := List.mem_map.1 hy
      exact (h2 m' hm').2.1

/-- Merging the unary factors of a variable and some messages. -/
theorem gathered_near {s : State (Ext K)} (hs : Core s) {u : Var} {mg : Fn (Ext K)} (hmg : s.mrg u = some mg) {c : K}
    (hc : 0 < c) {G : Nat → K} {a : Nat} (hG0 : ∀ i < u.size, 0 ≤ G i) {M B : K} (hM : b → 1 ≤ M) (hB : b → 1 ≤ B)
    (hmv : ∀ i < u.size, ∃ x, mg.timg [i] = .val x ∧ 0 ≤ x ∧ Near ε a x (c * G i) ∧ Spans b M M x)
    {g : Var → Nat → K} {C : Var → Nat}
    {L : List Var} {ms : List (Fn (Ext K))} (hf : List.Forall₂ (fun w m => s.msg u w = some m) L ms)
    (hmu : ∀ m ∈ ms, m.Unary u) (hg0 : ∀ w ∈ L, ∀ i < u.size, 0 ≤ g w i)
    (hg : ∀ w ∈ L, ∃ m, s.msg u w = some m ∧ ∃ c : K, 0 < c ∧ ∀ i < u.size, ∃ x, m.timg [i] = .val x ∧ 0 ≤ x ∧
      Near ε (C w) x (c * g w i) ∧ Spans b B B x)
    (hH : b → (M * B ^ L.length) ^ 2 * (1 - ε)⁻¹ ^ (2 * (L.length + 1) + 2) ≤ H)
    (hpos : ∃ i < u.size, G i * (L.map (fun w => g w i)).prod ≠ 0) :
    ∃ f, Fn.mergedUnaries (mg :: ms) = .ok f ∧ f.Unary u ∧ (∃ D : K, 0 < D ∧
      ∀ i < u.size, ∃ x, f.timg [i] = .val x ∧ 0 ≤ x ∧
        Near ε (L.length + 2 + (a + (L.map C).sum)) x (D * (G i * (L.map (fun w => g w i)).prod)) ∧
        Spans b ((M * B ^ L.length) ^ 2 * (1 - ε)⁻¹ ^ (2 * (L.length + 1) + 2)) ((1 - ε)⁻¹ ^ 2) x) ∧
      ∃ i < u.size, Spans True ((1 - ε)⁻¹ ^ 2) ((1 - ε)⁻¹ ^ 2) (f.timg [i]).toK := by
  obtain ⟨D, hD, h1⟩ := messages_prod_near hε hf hg0 hg
  have hcD : 0 < c * D := mul_pos hc hD
  have hq1 := Spans.one_le_inv hε.nonneg hε.lt_one
  have hval : ∀ i < u.size, ∀ f ∈ mg :: ms, (f.timg [i]).IsVal ∧ 0 ≤ (f.timg [i]).toK := by
    intro i hi f hf
    rcases List.mem_cons.1 hf with rfl | hf
    · obtain ⟨x, g1, g2, _⟩ := hmv i hi
      rw [g1]; exact ⟨Ext.isVal_val _, g2⟩
    · exact ⟨((h1 i hi).1 f hf).1, ((h1 i hi).1 f hf).2.1⟩
  have hnear : ∀ i < u.size, Near ε (a + (L.map C).sum) ((mg :: ms).map (fun m => (m.timg [i]).toK)).prod
      (c * D * (G i * (L.map (fun w => g w i)).prod)) := by
    intro i hi
    obtain ⟨x, g1, g2, g3, _⟩ := hmv i hi
    obtain ⟨h2, h3, h4⟩ := h1 i hi
    rw [List.map_cons, List.prod_cons, g1, Ext.toK_val, show c * D * (G i * (L.map (fun w => g w i)).prod) =
        (c * G i) * (D * (L.map (fun w => g w i)).prod) by ring]
    refine g3.mul hε.lt_one h4 g2 (mul_nonneg hc.le (hG0 i hi)) (list_prod_nonneg ?_) (mul_nonneg hD.le h3)
    intro y hy
    obtain ⟨m', hm', rfl⟩ := List.mem_map.1 hy
    exact (h2 m' hm').2.1
  obtain ⟨i0, hi0, hi0ne⟩ := hpos
  obtain ⟨f, e1, e2, ⟨d, hd, e4⟩, e5, e6⟩ := Fn.mergedUnaries_near hε (v := u) (fs := mg :: ms) (by simp) (by
      intro m hm
      rcases List.mem_cons.1 hm with rfl | hm
      · exact hs.mrgT _ _ hmg
      · exact hmu m hm) hval (by
      refine ⟨i0, hi0, ?_⟩
      have hp : 0 < c * D * (G i0 * (L.map (fun w => g w i0)).prod) :=
        mul_pos hcD (lt_of_le_of_ne (mul_nonneg (hG0 i0 hi0) (h1 i0 hi0).2.1) (Ne.symm hi0ne))
      exact ((hnear i0 hi0).symm.pos hε.lt_one hp).ne')
    (P := M * B ^ L.length) (by
      intro i hi l hl
      cases l with
      | nil =>
        have : b → 1 ≤ M * B ^ L.length := fun hb => one_le_mul_of_one_le_of_one_le (hM hb) (one_le_pow₀ (hB hb))
        exact (Spans.one b).mono zero_le_one this this
      | cons f l =>
        obtain ⟨rfl, hl'⟩ := List.cons_prefix_cons.mp hl
        obtain ⟨x, g1, g2, _, g4⟩ := hmv i hi
        rw [List.map_cons, List.prod_cons, g1, Ext.toK_val]
        have hall : ∀ y ∈ l.map (fun m => (m.timg [i]).toK), 0 ≤ y ∧ Spans b B B y := by
          intro y hy
          obtain ⟨m', hm', rfl⟩ := List.mem_map.1 hy
          exact ((h1 i hi).1 m' (hl'.subset hm')).2
        refine g4.mul (Spans.prod hall hB ?_) g2 (list_prod_nonneg (fun y hy => (hall y hy).1))
        rw [List.length_map, hf.length_eq]
        exact hl'.length_le)
    (fun hb => by
      refine le_trans ?_ (hH hb)
      rw [List.length_cons, ← hf.length_eq]
      exact mul_le_mul_of_nonneg_left (pow_le_pow_right₀ hq1 (by omega)) (sq_nonneg _))
  rw [List.length_cons, ← hf.length_eq] at e5
  refine ⟨f, e1, e2, ⟨d * (c * D), mul_pos hd hcD, fun i hi => ?_⟩, e6⟩
  obtain ⟨x, x1, x2, x3⟩ := e4 i hi
  have x5 := e5 i hi
  rw [x1, Ext.toK_val] at x5
  refine ⟨x, x1, x2, ?_, x5⟩
  have := x3.trans hε.lt_one ((hnear i hi).scale hd.le)
  rw [List.length_cons, ← hf.length_eq] at this
  rw [mul_assoc d]
  exact this

/-- The messages of the library are nearly proportional to the ones of the theory. -/
theorem messages_near (q : Quant kind K R) {s : State (Ext K)} (hH : Healthy s) (hF : Faithful s) {A : K} {n D : Nat}
    {nodes : List Var} (hR : Ranged b H ε A n D s nodes) {ts : List Topo} (hset : Setting s nodes ts) (hty : TypedMsgs s) (hex : Exact kind s ts)
    {v : Var} (hv : v ∈ nodes)
    {μ : Var → Var → Nat → R} (hμ1 : ∀ u w, ¬s.adj u w → ∀ j, μ u w j = 1)
    (hfix : Tree.Fixed Var.size (s.psiR q) (s.edgeR q) s.hid (Tree.Toward s.adj v) μ)
    (hpos : ∃ i < v.size, s.psiR q v i * (s.hid.map (fun w => μ w v i)).prod ≠ 0)
    (hfloor : kind = .map → ∀ u ∈ s.hid, ∀ w, (s.act u w).isSome → ∀ i < u.size, ∀ j < w.size,
      FloatParams.minK ≤ (1 - ε) ^ 3 * s.imgB u w i j)
    {ν : Var → Var → Nat → Nat} (hν1 : ∀ u w, ¬s.adj u w → ∀ j, ν u w j = 1)
    (hfixN : Tree.Fixed (fun _ => 1) s.psiN s.edgeN s.hid (Tree.Toward s.adj v) ν) :
    ∀ u y, Tree.Toward s.adj v u y → ∃ C, ν u y 0 = 2 ^ (C + 1) ∧ ∃ m, s.msg y u = some m ∧
      ∃ c : K, 0 < c ∧ ∀ j < y.size, ∃ x, m.timg [j] = .val x ∧ 0 ≤ x ∧ Near ε C x (c * q.toK (μ u y j)) ∧
        Spans b (boundB (1 - ε)⁻¹ A n) (boundB (1 - ε)⁻¹ A n) x := by
  have hs := hH.inv.toCore
  have hN : Numeric s := hR.images.mono (fun _ h => h.1)
  have hq1 := Spans.one_le_inv hε.nonneg hε.lt_one
  obtain ⟨r, hin, hr⟩ := hset.inward hs hex hv
  have hcl : ∀ u w, s.adj w u → u ∈ nodes → w ∈ nodes := fun u w h hu => hset.closed u hu w (hs.net.symA _ _ h.2.2)
  obtain ⟨i0, hi0, hi0ne⟩ := hpos
  have main : ∀ k u y, Tree.Toward s.adj v u y → r u y = k → ∃ C, ν u y 0 = 2 ^ (C + 1) ∧ ∃ m, s.msg y u = some m ∧
      ∃ c : K, 0 < c ∧ ∀ j < y.size, ∃ x, m.timg [j] = .val x ∧ 0 ≤ x ∧ Near ε C x (c * q.toK (μ u y j)) ∧
        Spans b (boundB (1 - ε)⁻¹ A n) (boundB (1 - ε)⁻¹ A n) x := by
    intro k
    induction k using Nat.strong_induction_on with
    | _ k ih =>
      intro u y huy hk
      obtain ⟨_, hun, hyn⟩ := huy.restrict (comp := fun u => u ∈ nodes) hv hcl
      have hadj := huy.adj
      have hsz : u.size = y.size := hH.flow.sq u y (hset.hid u hun) (hset.hid y hyn) hadj.2.2
      -- the message does not vanish
      have hnz : ∃ j < y.size, μ u y j ≠ 0 := by
        by_contra hall
        push Not at hall
        have := huy.zero (fun u w (h : s.adj u w) => h.1) hfix hall i0 hi0
        rw [this, mul_zero] at hi0ne
        exact hi0ne rfl
      obtain ⟨j0, hj0, hj0ne⟩ := hnz
      rw [hfix u y huy j0] at hj0ne
      obtain ⟨i1, hi1, hi1ne⟩ := Finset.exists_ne_zero_of_sum_ne_zero hj0ne
      have hi1 : i1 < u.size := by simpa using hi1
      have hg1 : s.psiR q u i1 * (s.hid.map (fun w => if w = y then 1 else μ w u i1)).prod ≠ 0 :=
        left_ne_zero_of_mul hi1ne
      -- the update
      obtain ⟨rank, hrk⟩ := hex
      obtain ⟨t, ht, e1, e2⟩ := hset.topo.all u hun y hadj.2.2
      obtain ⟨m, hm, hsend, _⟩ := hrk t ht
      have hfrom := hset.topo.from_ t ht
      have hat := hset.at_ ht
      have hdeps := hsend.hasDeps hat
      obtain ⟨ms, d1, d2⟩ := depMessages_some (fun r hr => hat.depActive hr) hdeps
      obtain ⟨mg, deps, p, b1, b2, b3, b4⟩ := hsend
      rw [d1] at b2
      cases b2
      rw [e1] at b1 b3 hfrom
      rw [e2] at b3 hm
      rw [hfrom] at hm
      -- the list of the senders
      set L := t.deps.map (·.from_) with hLdef
      have hown : ∀ r ∈ t.deps, r.owner = u := fun r hr => by rw [← e1]; exact ((hset.topo.deps t ht r).mp hr).1
      have hLnd : L.Nodup := by
        refine (List.nodup_map_iff_inj_on (hset.topo.depsNodup t ht)).mpr ?_
        intro r hr r' hr' h
        have := hown r hr
        have := hown r' hr'
        cases r; cases r'
        simp_all
      have hLmem : ∀ w, w ∈ L ↔ s.adj w u ∧ ¬w = y := by
        intro w
        rw [hLdef, List.mem_map]
        constructor
        · rintro ⟨r, hr, rfl⟩
          obtain ⟨_, g2, g3⟩ := (hset.topo.deps t ht r).mp hr
          rw [e1] at g3
          rw [e2] at g2
          exact ⟨hs.adj_symm (hset.act_adj hs hun g3), g2⟩
        · rintro ⟨g1, g2⟩
          refine ⟨⟨u, w⟩, ?_, rfl⟩
          rw [hset.topo.deps t ht, e1, e2]
          exact ⟨rfl, g2, hs.net.symA _ _ g1.2.2⟩
      have hf2 : List.Forall₂ (fun w m => s.msg u w = some m) L ms := by
        rw [hLdef, List.forall₂_map_left_iff]
        have : ∀ (l : List ConnRef) (ms : List (Fn (Ext K))), (∀ r ∈ l, r.owner = u) →
            List.Forall₂ (fun r m => s.msg r.owner r.from_ = some m) l ms →
            List.Forall₂ (fun r m => s.msg u r.from_ = some m) l ms := by
          intro l ms hl h
          induction h with
          | nil => exact .nil
          | cons h _ ih =>
            refine .cons ?_ (ih (fun r hr => hl r (by simp [hr])))
            rw [hl _ (by simp)] at h; exact h
        exact this _ _ hown d2
      have hmsu : ∀ m ∈ ms, m.Unary u := by
        intro m hm
        obtain ⟨w, _, h3⟩ := forall₂_mem_right hf2 hm
        exact hty u w m (hset.hid u hun) h3
      have hgv' : ∀ w, ∃ C, w ∈ L → ν w u 0 = 2 ^ (C + 1) ∧ ∃ m, s.msg u w = some m ∧ ∃ c : K, 0 < c ∧
          ∀ i < u.size, ∃ x, m.timg [i] = .val x ∧ 0 ≤ x ∧ Near ε C x (c * q.toK (μ w u i)) ∧
            Spans b (boundB (1 - ε)⁻¹ A n) (boundB (1 - ε)⁻¹ A n) x := by
        intro w
        by_cases hw : w ∈ L
        · obtain ⟨g1, g2⟩ := (hLmem w).mp hw
          have := hr w u y hun g1 hadj g2
          obtain ⟨C, hC⟩ := ih _ (by omega) w u (.step huy g1 g2) rfl
          exact ⟨C, fun _ => hC⟩
        · exact ⟨0, fun h => absurd h hw⟩
      choose C hC using hgv'
      -- the products
      set g : Nat → R := fun i => s.psiR q u i * (s.hid.map (fun w => if w = y then 1 else μ w u i)).prod with hgdef
      have hgK : ∀ i < u.size, q.toK (g i) = s.psiK u i * (L.map (fun w => q.toK (μ w u i))).prod := by
        intro i hi
        rw [hgdef]
        simp only
        rw [prod_neighbours hs hLnd (ex := fun w => w = y) hLmem (μ := fun w => μ w u) (fun w h => hμ1 w u h) i,
          q.mul, q.prod]
        unfold psiR
        rw [q.toK_ofK _ (hN.psiK_nonneg hs u hi)]
      have hg1K : q.toK (g i1) ≠ 0 := fun h => hg1 (q.eq_zero.mp h)
      have hψne : ∃ i < u.size, s.psiK u i ≠ 0 := by
        refine ⟨i1, hi1, fun h0 => hg1K ?_⟩
        rw [hgK i1 hi1, h0, zero_mul]
      -- the range
      have hun' : b → 1 ≤ n := fun hb => by have := hR.size hb u hun; omega
      have hLd : b → s.tally u + L.length ≤ D := fun hb => by
        refine le_trans ?_ (hR.degree hb u hun)
        have : L ⊆ AMap.keys (s.activeOf u) := by
          intro w hw
          exact AMap.mem_keys.mpr (Option.isSome_iff_exists.mp (hs.net.symA _ _ ((hLmem w).mp hw).1.2.2))
        have := (List.subperm_of_subset hLnd this).length_le
        omega
      have hGE : b → boundG (1 - ε)⁻¹ A n (s.tally u) L.length * (n * A * (1 - ε)⁻¹ ^ (n + 4)) ≤ H := fun hb =>
        bound_le hq1 (hR.one_le hb) (hun' hb) (hLd hb) (hR.range hb)
      have hM1 : b → 1 ≤ boundM (1 - ε)⁻¹ A (s.tally u) := fun hb => boundM_one_le hq1 (hR.one_le hb) _
      have hB1 : b → 1 ≤ boundB (1 - ε)⁻¹ A n := fun hb => boundB_one_le hq1 (hR.one_le hb) (hun' hb)
      have hG1 : b → 1 ≤ boundG (1 - ε)⁻¹ A n (s.tally u) L.length := fun hb =>
        boundG_one_le hq1 (hR.one_le hb) (hun' hb) _ _
      have hE1 : b → 1 ≤ (n : K) * A * (1 - ε)⁻¹ ^ (n + 4) := fun hb =>
        one_le_mul_of_one_le_of_one_le (one_le_mul_of_one_le_of_one_le (by exact_mod_cast hun' hb) (hR.one_le hb))
          (one_le_pow₀ hq1)
      have hGH : b → boundG (1 - ε)⁻¹ A n (s.tally u) L.length ≤ H := fun hb =>
        (le_mul_of_one_le_right (zero_le_one.trans (hG1 hb)) (hE1 hb)).trans (hGE hb)
      have hMH : b → boundM (1 - ε)⁻¹ A (s.tally u) ≤ H := fun hb => (boundM_le_G hq1 (hR.one_le hb) (hun' hb) _ _).trans (hGH hb)
      obtain ⟨c, hc, hmv⟩ := merged_near hε hs hH.sep hF.coh hF.evid hR.one_le hR.images
        (mem_hid.mpr ⟨(hs.act_vars hadj.2.2).1, hset.hid u hun⟩) hMH b1 hψne
      obtain ⟨f, f1, f2, ⟨D', hD, f3⟩, f4⟩ := gathered_near hε hs b1 hc (fun i hi => hN.psiK_nonneg hs u hi) hM1 hB1 hmv hf2 hmsu
        (g := fun w i => q.toK (μ w u i)) (C := C) (fun w _ i _ => q.nonneg _) (fun w hw => (hC w hw).2) hGH
        ⟨i1, hi1, by rw [← hgK i1 hi1]; exact hg1K⟩
      -- the number of roundings
      refine ⟨L.length + 2 + (s.tally u + 1 + (L.map C).sum) + 1 + u.size, ?_, m, hm, ?_⟩
      · rw [hfixN u y huy 0]
        simp only [Finset.range_one, Finset.sum_singleton]
        rw [prod_neighbours hs hLnd (ex := fun w => w = y) hLmem (μ := fun w => ν w u) (fun w h => hν1 w u h) 0]
        have hL2 : ∀ l : List Var, (∀ w ∈ l, w ∈ L) → (l.map (fun w => ν w u 0)).prod = 2 ^ (l.length + (l.map C).sum) := by
          intro l
          induction l with
          | nil => intro _; rfl
          | cons w l ihl =>
            intro hl
            rw [List.map_cons, List.prod_cons, ihl (fun x hx => hl x (by simp [hx])), (hC w (hl w (by simp))).1,
              ← pow_add, List.length_cons, List.map_cons, List.sum_cons]
            congr 1
            omega
        rw [hL2 L (fun _ h => h)]
        unfold psiN edgeN
        rw [if_pos hadj, ← pow_add, ← pow_succ]
        congr 1
        omega
      -- the message
      obtain ⟨_, g', hb, hbin⟩ := hs.link _ _ _ b3
      have hbin' := hbin.symm
      unfold newMessage at b4
      rw [f1] at b4
      simp only at b4
      rw [deref_eq hb] at b4
      simp only at b4
      obtain ⟨m', g1, g2, _, g4⟩ := hbin'.message f2 kind (by omega)
      rw [b4] at g1
      cases g1
      have hlnk : s.lnk u y = some p := by rw [hs.net.symL]; exact b3
      have himg : ∀ i j, s.imgB u y i j = (Fn.bimg u g' i j).toK := by
        intro i j
        unfold imgB
        rw [hlnk]
        simp only
        rw [hb]
      refine ⟨D', hD, fun j hj => ?_⟩
      rw [g4 j hj, if_pos (by omega)]
      have hbv : ∀ i < u.size, Fn.bimg u g' j i = .val (s.imgB u y j i) ∧ 0 ≤ s.imgB u y j i ∧ Spans b A A (s.imgB u y j i) := by
        intro i hi
        have := hR.images.bin u y p g' hlnk hb j (by omega) i (by omega)
        rw [himg]
        exact ⟨this.1.eq, this.2⟩
      have hfv : ∀ i, ∃ x, i < u.size → f.timg [i] = .val x ∧ 0 ≤ x ∧ 0 ≤ D' * q.toK (g i) ∧
          Near ε (L.length + 2 + (s.tally u + 1 + (L.map C).sum)) x (D' * q.toK (g i)) ∧
          Spans b (boundG (1 - ε)⁻¹ A n (s.tally u) L.length) ((1 - ε)⁻¹ ^ 2) x := by
        intro i
        by_cases hi : i < u.size
        · obtain ⟨x, x1, x2, x3, x4⟩ := f3 i hi
          refine ⟨x, fun _ => ⟨x1, x2, mul_nonneg hD.le (q.nonneg _), ?_, x4⟩⟩
          rw [hgK i hi]
          exact x3
        · exact ⟨0, fun h => absurd h hi⟩
      choose X hX using hfv
      obtain ⟨z, z1, z2, z3, z4⟩ := Fn.msgVal_near hε kind (x := u) (ms := f) (g := g') (r := j) (A := A) (μ := fun i => D' * q.toK (g i))
        (μ' := X) (φ := fun i => s.imgB u y j i) hX
        (by
          obtain ⟨i, hi, h⟩ := f4
          rw [(hX i hi).1, Ext.toK_val] at h
          exact ⟨i, hi, h⟩) hbv
        (fun hk i hi => hfloor hk u (mem_hid.mpr ⟨(hs.act_vars hadj.2.2).1, hset.hid u hun⟩) y hadj.2.2 j (by omega) i
          (by omega))
        (fun hb => by
          refine le_trans ?_ (hGE hb)
          have e1 := hG1 hb
          have e2 := hR.one_le hb
          have e3 : (1 - ε)⁻¹ ^ (u.size + 1) ≤ (1 - ε)⁻¹ ^ (n + 4) :=
            pow_le_pow_right₀ hq1 (by have := hR.size hb u hun; omega)
          have e4 : (1 : K) ≤ n := by exact_mod_cast hun' hb
          rw [mul_assoc]
          refine mul_le_mul_of_nonneg_left (mul_le_mul ?_ e3 (by positivity) (by positivity)) (by positivity)
          exact le_mul_of_one_le_left (by positivity) e4)
        (fun hb => by
          refine le_trans ?_ (hGE hb)
          exact (message_le hq1 (hR.one_le hb) (hR.size hb u hun)).trans
            (le_trans (mul_le_mul_of_nonneg_left (pow_le_pow_right₀ hq1 (by omega))
              (mul_nonneg (Nat.cast_nonneg _) (zero_le_one.trans (hR.one_le hb))))
              (le_mul_of_one_le_left (zero_le_one.trans (hE1 hb)) (hG1 hb))))
      refine ⟨z, z1, z2, ?_, z4.mono z2 (fun hb => ?_) (fun hb => message_le hq1 (hR.one_le hb) (hR.size hb u hun))⟩
      swap
      · refine le_trans ?_ (message_le hq1 (hR.one_le hb) (hR.size hb u hun))
        have e2 := hR.one_le hb
        have e4 : (1 : K) ≤ u.size := by exact_mod_cast (by omega : 1 ≤ u.size)
        refine mul_le_mul_of_nonneg_right ?_ (by positivity)
        exact mul_le_mul_of_nonneg_right (le_mul_of_one_le_left (by positivity) e4) (by positivity)
      have hsum : redZ kind ((List.range u.size).map (fun i => D' * q.toK (g i) * s.imgB u y j i)) =
          D' * q.toK (μ u y j) := by
        rw [hfix u y huy j, q.sum, ← redZ_mul kind _ hD.le]
        congr 1
        refine List.map_congr_left (fun i hi => ?_)
        have h1 := q.mul (g i) (s.edgeR q u y i j)
        have h2 : q.toK (s.edgeR q u y i j) = s.imgB u y j i := by
          unfold edgeR
          rw [if_pos hadj, q.toK_ofK _ (hN.imgB_nonneg u y (by omega) (by have := List.mem_range.1 hi; omega))]
        rw [h2] at h1
        rw [mul_assoc, ← h1]
      rw [hsum] at z3
      exact z3
  intro u y huy
  exact main _ u y huy rfl


/-- The belief after a propagation, near to the theory. -/
theorem belief_near_of (q : Quant kind K R) {ord : List Var → List Var} (hord : ∀ l, (ord l).Perm l)
    {s : State (Ext K)} (hH : Healthy s) (hF : Faithful s) {r : PropResult} (hl : s.last = some r) (hk : r.kind = kind)
    {φ : Nat → Assign → K} (hφ : s.Images φ) {v : Var} (hv : s.Hidden v) (ht : s.TreeAt v) {W : List Var}
    (hW : s.ClusterOthers v W) {e : Assign} (he : s.Agrees e) {A : K} {n D : Nat} (hR : Ranged b H ε A n D s (v :: W))
    (hfloor : kind = .map → ∀ u ∈ s.hid, ∀ w, (s.act u w).isSome → ∀ i < u.size, ∀ j < w.size,
      FloatParams.minK ≤ (1 - ε) ^ 3 * s.imgB u w i j) {W' : List Var} (hW' : s.Others v W')
    (hne : (∃ i < v.size, Tree.sumOver Var.size W (Tree.wgt (s.psiR q) (s.edgeR q) (v :: W)) (Function.update e v i) ≠ 0) ∨
      ∃ i < v.size, Tree.sumOver Var.size W' (Tree.wgt (s.psiR q) (s.edgeR q) s.hid) (Function.update e v i) ≠ 0) :
    ∃ (P : Nat → K) (B : Nat → R), s.belief ord v = .ok (((List.range v.size).map P).map .val) ∧
      (∀ i < v.size, 0 ≤ P i ∧ Near ε (s.roundings v W) (P i)
        (q.toK (B i) / ((List.range v.size).map (fun i => q.toK (B i))).sum)) ∧
      0 < ((List.range v.size).map (fun i => q.toK (B i))).sum ∧
      (∀ i, Tree.sumOver Var.size W (Tree.wgt (s.psiR q) (s.edgeR q) (v :: W)) (Function.update e v i) = B i) ∧
      ∃ Z, ∀ i, Tree.sumOver Var.size W' (Tree.wgt (s.psiR q) (s.edgeR q) s.hid) (Function.update e v i) = Z * B i := by
  have hs := hH.inv.toCore
  have hN := hφ.numeric hs
  have hq1 := Spans.one_le_inv hε.nonneg hε.lt_one
  have hvh := hidden_iff.mp hv
  obtain ⟨nodes, ts, hvn, hset, hex, hlink, hconn⟩ := (hF.fresh r hl).cluster_at hH.inv hvh ht
  rw [hk] at hex
  obtain ⟨rk, hin, _⟩ := hset.inward hs hex hvn
  obtain ⟨μ, hμ1, hfix⟩ := Tree.exists_fixed Var.size (s.psiR q) (s.edgeR q) hin
  obtain ⟨ν, hν1, hfixN⟩ := Tree.exists_fixed (fun _ => 1) s.psiN s.edgeN hin
  have hcl : ∀ u w, s.adj w u → u ∈ v :: W → w ∈ v :: W := fun u w h hu =>
    (hW.mem w).mpr ((hlink w).mp (hset.closed u ((hlink u).mpr ((hW.mem u).mp hu)) w (hs.net.symA _ _ h.2.2)))
  have hcon : ∀ w ∈ v :: W, Relation.ReflTransGen (fun a b => s.adj a b ∧ a ∈ v :: W ∧ b ∈ v :: W) w v := fun w hw =>
    Relation.ReflTransGen.mono (fun a b h => ⟨h.1, (hW.mem a).mpr ((hlink a).mp h.2.1),
      (hW.mem b).mpr ((hlink b).mp h.2.2)⟩) _ _ (hconn w ((hlink w).mpr ((hW.mem w).mp hw)))
  set B : Nat → R := fun i => s.psiR q v i * (s.hid.map (fun w => μ w v i)).prod with hB
  have hmass : ∀ i, Tree.sumOver Var.size W (Tree.wgt (s.psiR q) (s.edgeR q) (v :: W)) (Function.update e v i) = B i :=
    fun i => Tree.exact_component (N := v :: W) (W := W) (fun u w i j => hs.edgeR_symm q u w i j)
      (fun u w h i j => edgeR_nonadj q h i j) hμ1 (hid_nodup hs.net) hin hfix hW.nodup (List.Perm.refl _)
      (fun w hw => hW.hid hv hw) hcl hcon i e
  obtain ⟨Z, hZ⟩ := Tree.exact (fun u w i j => hs.edgeR_symm q u w i j) (fun u w h i j => edgeR_nonadj q h i j) hμ1
    (hid_nodup hs.net) (hW'.perm hs hvh) hin hfix
  obtain ⟨i0, hi0, hB0⟩ : ∃ i < v.size, B i ≠ 0 := by
    rcases hne with ⟨i, hi, h⟩ | ⟨i, hi, h⟩
    · exact ⟨i, hi, by rw [← hmass i]; exact h⟩
    · exact ⟨i, hi, fun h0 => h (by rw [hZ i e]; exact (congrArg (Z * ·) h0).trans (mul_zero Z))⟩
  have hBne : q.toK (B i0) ≠ 0 := fun h => hB0 (q.eq_zero.mp h)
  have hR' : Ranged b H ε A n D s nodes := { hR with
    size := fun hb u hu => hR.size hb u ((hW.mem u).mpr ((hlink u).mp hu))
    degree := fun hb u hu => hR.degree hb u ((hW.mem u).mpr ((hlink u).mp hu)) }
  have hmsg := messages_near hε q hH hF hR' hset (hF.fresh r hl).typed hex hvn hμ1 hfix
    ⟨i0, hi0, hB0⟩ hfloor hν1 hfixN
  obtain ⟨mg, ms, f, ps, b1, _, b3, b4, b5, b6, b7, b8, b9⟩ :=
    belief_ok hord hH.inv ((hF.fresh r hl).alive hH.inv) hvh
  rw [b9]
  set L := ord (AMap.keys (s.activeOf v)) with hL
  have hLnd : L.Nodup := (hord _).nodup_iff.mpr (hs.net.nodup v).1
  have hLmem : ∀ w, w ∈ L ↔ s.adj w v ∧ ¬False := by
    intro w
    rw [hL, (hord _).mem_iff, AMap.mem_keys]
    constructor
    · rintro ⟨c, hc⟩
      exact ⟨hs.adj_symm (hset.act_adj hs hvn (by unfold State.act; rw [hc]; rfl)), id⟩
    · rintro ⟨h, _⟩
      exact Option.isSome_iff_exists.mp (hs.net.symA _ _ h.2.2)
  have hBK : ∀ i < v.size, q.toK (B i) = s.psiK v i * (L.map (fun w => q.toK (μ w v i))).prod := by
    intro i hi
    rw [hB]
    simp only
    have := prod_neighbours hs hLnd (ex := fun _ => False) hLmem (μ := fun w => μ w v) (fun w h => hμ1 w v h) i
    simp only [if_false] at this
    rw [this, q.mul, q.prod]
    unfold psiR
    rw [q.toK_ofK _ (hN.psiK_nonneg hs v hi)]
  have hC' : ∀ w, ∃ C, w ∈ L → ν w v 0 = 2 ^ (C + 1) ∧ ∃ m, s.msg v w = some m ∧ ∃ c : K, 0 < c ∧
      ∀ i < v.size, ∃ x, m.timg [i] = .val x ∧ 0 ≤ x ∧ Near ε C x (c * q.toK (μ w v i)) ∧
        Spans b (boundB (1 - ε)⁻¹ A n) (boundB (1 - ε)⁻¹ A n) x := by
    intro w
    by_cases hw : w ∈ L
    · obtain ⟨C, hC⟩ := hmsg w v (.last ((hLmem w).mp hw).1)
      exact ⟨C, fun _ => hC⟩
    · exact ⟨0, fun h => absurd h hw⟩
  choose C hC using hC'
  -- the range
  have hvs : v.size ≠ 0 := by omega
  have hun' : b → 1 ≤ n := fun hb => by have := hR.size hb v (by simp); omega
  have hLd : b → s.tally v + L.length ≤ D := fun hb => by
    have := hR.degree hb v (by simp)
    rw [hL, (hord _).length_eq]
    exact this
  have hGE : b → boundG (1 - ε)⁻¹ A n (s.tally v) L.length * (n * A * (1 - ε)⁻¹ ^ (n + 4)) ≤ H := fun hb =>
    bound_le hq1 (hR.one_le hb) (hun' hb) (hLd hb) (hR.range hb)
  have hM1 : b → 1 ≤ boundM (1 - ε)⁻¹ A (s.tally v) := fun hb => boundM_one_le hq1 (hR.one_le hb) _
  have hB1 : b → 1 ≤ boundB (1 - ε)⁻¹ A n := fun hb => boundB_one_le hq1 (hR.one_le hb) (hun' hb)
  have hG1 : b → 1 ≤ boundG (1 - ε)⁻¹ A n (s.tally v) L.length := fun hb =>
    boundG_one_le hq1 (hR.one_le hb) (hun' hb) _ _
  have hE1 : b → 1 ≤ (n : K) * A * (1 - ε)⁻¹ ^ (n + 4) := fun hb =>
    one_le_mul_of_one_le_of_one_le (one_le_mul_of_one_le_of_one_le (by exact_mod_cast hun' hb) (hR.one_le hb))
      (one_le_pow₀ hq1)
  have hGH : b → boundG (1 - ε)⁻¹ A n (s.tally v) L.length ≤ H := fun hb =>
    (le_mul_of_one_le_right (zero_le_one.trans (hG1 hb)) (hE1 hb)).trans (hGE hb)
  have hMH : b → boundM (1 - ε)⁻¹ A (s.tally v) ≤ H := fun hb => (boundM_le_G hq1 (hR.one_le hb) (hun' hb) _ _).trans (hGH hb)
  obtain ⟨c, hc, hmv⟩ := merged_near hε hs hH.sep hF.coh hF.evid hR.one_le hR.images hvh hMH b1
    ⟨i0, hi0, fun h => hBne (by rw [hBK i0 hi0, h, zero_mul])⟩
  obtain ⟨f', e1, _, ⟨D', hD, e3⟩, e4⟩ := gathered_near hε hs b1 hc (fun i hi => hN.psiK_nonneg hs v hi) hM1 hB1 hmv b3 b4
    (g := fun w i => q.toK (μ w v i)) (C := C) (fun w _ i _ => q.nonneg _) (fun w hw => (hC w hw).2) hGH
    ⟨i0, hi0, by rw [← hBK i0 hi0]; exact hBne⟩
  rw [b5] at e1
  cases e1
  -- the number of roundings
  set k := L.length + 2 + (s.tally v + 1 + (L.map C).sum) with hkdef
  set T := (s.factors.filter (fun p => @decide (s.InCluster v p) (Classical.propDecidable _))).length +
    ((v :: W).map (fun u => u.size + 4)).sum with hT
  have hkT : k ≤ T := by
    have h1 := Tree.exact_component (n := fun _ => 1) (N := v :: W) (W := W) (fun u w i j => hs.edgeN_symm u w i j)
      (fun u w h i j => edgeN_nonadj h i j) hν1 (hid_nodup hs.net) hin hfixN hW.nodup (List.Perm.refl _)
      (fun w hw => hW.hid hv hw)
      hcl hcon 0 e
    rw [Tree.sumOver_one (fun a => wgtN_const s (v :: W) a e)] at h1
    have h2 := prod_neighbours hs hLnd (ex := fun _ => False) hLmem (μ := fun w => ν w v) (fun w h => hν1 w v h) 0
    simp only [if_false] at h2
    have hL2 : ∀ l : List Var, (∀ w ∈ l, w ∈ L) → (l.map (fun w => ν w v 0)).prod = 2 ^ (l.length + (l.map C).sum) := by
      intro l
      induction l with
      | nil => intro _; rfl
      | cons w l ihl =>
        intro hl
        rw [List.map_cons, List.prod_cons, ihl (fun x hx => hl x (by simp [hx])), (hC w (hl w (by simp))).1,
          ← pow_add, List.length_cons, List.map_cons, List.sum_cons]
        congr 1
        omega
    rw [h2, hL2 L (fun _ h => h)] at h1
    unfold psiN at h1
    rw [← pow_add] at h1
    have h3 := wgtN_le hs hv hW e
    unfold psiN at h3
    rw [h1] at h3
    have := (Nat.pow_le_pow_iff_right (by omega)).mp h3
    omega
  have hX' : ∀ i, ∃ x, i < v.size → f.timg [i] = .val x ∧ 0 ≤ x ∧ 0 ≤ D' * q.toK (B i) ∧ Near ε T x (D' * q.toK (B i)) ∧
      Spans b (boundG (1 - ε)⁻¹ A n (s.tally v) L.length) ((1 - ε)⁻¹ ^ 2) x := by
    intro i
    by_cases hi : i < v.size
    · obtain ⟨x, x1, x2, x3, x4⟩ := e3 i hi
      have h0 := mul_nonneg hD.le (q.nonneg (B i))
      rw [← hBK i hi] at x3
      exact ⟨x, fun _ => ⟨x1, x2, h0, x3.mono hε.nonneg hε.lt_one x2 h0 hkT, x4⟩⟩
    · exact ⟨0, fun h => absurd h hi⟩
  choose X hX using hX'
  have hsum : ((List.range v.size).map (fun i => D' * q.toK (B i))).sum =
      D' * ((List.range v.size).map (fun i => q.toK (B i))).sum := by
    rw [List.sum_map_mul_left]
  have hMs : 0 < ((List.range v.size).map (fun i => q.toK (B i))).sum := by
    have := List.single_le_sum (l := (List.range v.size).map (fun i => q.toK (B i))) (by
      intro x hx
      obtain ⟨i, _, rfl⟩ := List.mem_map.1 hx
      exact q.nonneg _) _ (List.mem_map.2 ⟨i0, by simpa using hi0, rfl⟩)
    exact lt_of_lt_of_le (lt_of_le_of_ne (q.nonneg _) (Ne.symm hBne)) this
  obtain ⟨P, p1, p2⟩ := b6.probabilities_near hε hX (V := (1 - ε)⁻¹ ^ 2)
    (by
      obtain ⟨i, hi, h⟩ := e4
      rw [(hX i hi).1, Ext.toK_val] at h
      exact ⟨i, hi, h.weaken⟩) (by rw [hsum]; exact mul_ne_zero hD.ne' hMs.ne')
    (fun hb => by
      refine le_trans (mul_le_mul_of_nonneg_left ?_ (zero_le_one.trans (hG1 hb))) (hGE hb)
      exact size_le hq1 (hR.one_le hb) (hun' hb) (by have := hR.size hb v (by simp); omega))
    (fun hb => by
      refine le_trans ?_ ((le_mul_of_one_le_left (zero_le_one.trans (hE1 hb)) (hG1 hb)).trans (hGE hb))
      exact sum_le hq1 (hR.one_le hb) (hR.size hb v (by simp)))
    (fun hb => by
      refine le_trans (mul_le_mul_of_nonneg_left ?_ (zero_le_one.trans (hG1 hb))) (hGE hb)
      exact sum_le hq1 (hR.one_le hb) (hR.size hb v (by simp)))
    (fun hb => by
      refine le_trans ?_ ((le_mul_of_one_le_left (zero_le_one.trans (hE1 hb)) (hG1 hb)).trans (hGE hb))
      rw [← pow_add, ← pow_add]
      exact size_le hq1 (hR.one_le hb) (hun' hb) (by have := hR.size hb v (by simp); omega))
  rw [b7] at p1
  rw [p1]
  refine ⟨P, B, by rw [List.map_map]; rfl, fun i hi => ⟨(p2 i hi).1, ?_⟩, hMs, hmass, Z, fun i => hZ i e⟩
  have := (p2 i hi).2
  rw [hsum, mul_div_mul_left _ _ hD.ne'] at this
  exact this

/-- The belief after a sum product propagation, near to the distribution of the product of the factors of the cluster,
as the library reads them. -/
theorem belief_near {ord : List Var → List Var} (hord : ∀ l, (ord l).Perm l) {s : State (Ext K)} (hH : Healthy s)
    (hF : Faithful s) {r : PropResult} (hl : s.last = some r) (hk : r.kind = .sum) {φ : Nat → Assign → K}
    (hφ : s.Images φ) {v : Var} (hv : s.Hidden v) (ht : s.TreeAt v) {W : List Var} (hW : s.ClusterOthers v W)
    {e : Assign} (he : s.Agrees e) {A : K} {n D : Nat} (hR : Ranged b H ε A n D s (v :: W))
    (hne : ∃ i < v.size, mass (s.clusterRead φ v) W e v i ≠ 0) :
    ∃ ps : List K, s.belief ord v = .ok (ps.map .val) ∧
      List.Forall₂ (Near ε (s.roundings v W)) ps (distribution (s.clusterRead φ v) W e v) := by
  obtain ⟨P, B, h1, h2, _, h4, _⟩ := belief_near_of hε sumQuant hord hH hF hl hk hφ hv ht hW he hR (by intro h; cases h)
    (others_erase hH.inv.toCore v) (Or.inl (by
      obtain ⟨i, hi, h⟩ := hne
      exact ⟨i, hi, fun h0 => h (by rw [clusterMass_eq hH hφ hv hW he hi, h0]; rfl)⟩))
  have hm : ∀ i < v.size, mass (s.clusterRead φ v) W e v i = sumQuant.toK (B i) := fun i hi => by
    rw [clusterMass_eq hH hφ hv hW he hi, h4]
  refine ⟨_, h1, ?_⟩
  unfold distribution
  rw [List.forall₂_map_left_iff, List.forall₂_map_right_iff]
  have hsum : ((List.range v.size).map (mass (s.clusterRead φ v) W e v)) =
      ((List.range v.size).map (fun i => sumQuant.toK (B i))) :=
    List.map_congr_left (fun i hi => hm i (by simpa using hi))
  refine List.forall₂_same.mpr (fun i hi => ?_)
  have hi : i < v.size := by simpa using hi
  rw [hsum, hm i hi]
  exact (h2 i hi).2

/-- The maximum of the belief after a max product propagation, nearly the best value. -/
theorem belief_map_near {ord : List Var → List Var} (hord : ∀ l, (ord l).Perm l) {s : State (Ext K)} (hH : Healthy s)
    (hF : Faithful s) {r : PropResult} (hl : s.last = some r) (hk : r.kind = .map) {φ : Nat → Assign → K}
    (hφ : s.Images φ) (hfl : s.AtLeast φ (FloatParams.minK / (1 - ε) ^ 3)) {v : Var} (hv : s.Hidden v) (ht : s.TreeAt v)
    {W : List Var} (hW : s.ClusterOthers v W) {A : K} {n D : Nat} (hR : Ranged b H ε A n D s (v :: W))
    (hne : ∃ e, s.Agrees e ∧ s.readWeight φ e ≠ 0) :
    ∃ ps k, s.belief ord v = .ok ps ∧ findMax ps = .ok k ∧
      ∃ a, s.Agrees a ∧ (∀ c, s.Agrees c → (1 - ε) ^ (2 * s.roundings v W) * s.readWeight φ c ≤ s.readWeight φ a) ∧
        a v = k := by
  have hs := hH.inv.toCore
  have hvh := hidden_iff.mp hv
  obtain ⟨e, he, hene⟩ := hne
  have hvs : ∀ c, s.Agrees c → c v < v.size := fun c hc => hc.1 v (mem_hid.mp hvh).1
  set M : Nat → K := fun i => maxQuant.toK (Tree.sumOver Var.size (s.hid.erase v)
    (Tree.wgt (s.psiR maxQuant) (s.edgeR maxQuant) s.hid) (Function.update e v i)) with hM
  obtain ⟨hρ, hMe, hgr⟩ := greatest_read hH hφ hvh he hene (M := M) (fun _ => rfl)
  have hp := Near.base_pos hε.lt_one
  obtain ⟨P, B, h1, h2, hS, _, Z, hZ⟩ := belief_near_of hε maxQuant hord hH hF hl hk hφ hv ht hW he hR (by
      intro _ u hu w hw i hi j hj
      have hwh : w ∉ s.obs := hH.sep u w (mem_hid.mp hu).2 hw
      have := hfl.imgB hφ hH hu (mem_hid.mpr ⟨(hs.act_vars hw).2, hwh⟩) hw hi hj
      rw [div_le_iff₀ (pow_pos hp 3), mul_comm] at this
      exact this) (others_erase hs v)
    (Or.inr ⟨e v, hvs e he, fun h => hMe (by rw [hM]; exact maxQuant.eq_zero.mpr h)⟩)
  set S := ((List.range v.size).map (fun i => maxQuant.toK (B i))).sum with hSdef
  obtain ⟨k, hk1, x, g1, g2, _⟩ := findMax_of_lt Ext.rounded_lt (l := (List.range v.size).map P) (by
    intro h
    have := congrArg List.length h
    simp at this
    have := hvs e he
    omega)
  refine ⟨_, k, h1, hk1, ?_⟩
  have hkv : k < v.size := by
    have := (List.getElem?_eq_some_iff.mp g1).1
    simpa using this
  have hkx : x = P k := by
    rw [List.getElem?_map, List.getElem?_range hkv] at g1
    simpa using g1.symm
  have hmaxP : ∀ i < v.size, P i ≤ P k := by
    intro i hi
    have := g2 i (P i) (by rw [List.getElem?_map, List.getElem?_range hi]; rfl)
    rwa [hkx] at this
  set N := s.roundings v W with hNdef
  have hc := pow_pos hp N
  have hmax : ∀ i < v.size, (1 - ε) ^ (2 * N) * maxQuant.toK (B i) ≤ maxQuant.toK (B k) := by
    intro i hi
    have e1 := (h2 i hi).2.1
    have e2 := (h2 k hkv).2.2
    have e3 : (1 - ε) ^ N * ((1 - ε) ^ N * (maxQuant.toK (B i) / S)) ≤ maxQuant.toK (B k) / S :=
      (mul_le_mul_of_nonneg_left (e1.trans (hmaxP i hi)) hc.le).trans e2
    rw [← mul_assoc, ← pow_add, ← two_mul, ← mul_div_assoc] at e3
    exact (div_le_div_iff_of_pos_right hS).mp e3
  have hMB : ∀ i, M i = maxQuant.toK Z * maxQuant.toK (B i) := by
    intro i
    rw [hM]
    simp only
    rw [hZ i, maxQuant.mul]
  obtain ⟨⟨a, ha, hak, hax⟩, _⟩ := hgr k hkv
  refine ⟨a, ha, fun c hc' => ?_, hak⟩
  rw [← hax]
  have h3 := (hgr (c v) (hvs c hc')).2 ⟨c, hc', rfl, rfl⟩
  have hZ0 : 0 ≤ s.restK e * maxQuant.toK Z := mul_nonneg hρ.le (maxQuant.nonneg _)
  calc (1 - ε) ^ (2 * N) * s.readWeight φ c ≤ (1 - ε) ^ (2 * N) * (s.restK e * M (c v)) :=
        mul_le_mul_of_nonneg_left h3 (pow_pos hp _).le
    _ = s.restK e * maxQuant.toK Z * ((1 - ε) ^ (2 * N) * maxQuant.toK (B (c v))) := by rw [hMB]; ring
    _ ≤ s.restK e * maxQuant.toK Z * maxQuant.toK (B k) := mul_le_mul_of_nonneg_left (hmax _ (hvs c hc')) hZ0
    _ = s.restK e * M k := by rw [hMB]; ring

end State
end EFG
