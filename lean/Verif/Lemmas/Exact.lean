import Mathlib.Algebra.BigOperators.Group.Finset.Basic
import Verif.Lemmas.Quant
import Verif.Lemmas.Ask
/-
The beliefs left by an exact propagation, in terms of the images of the factors.
-/

set_option linter.unusedSectionVars false

namespace EFG

theorem list_prod_subset {α : Type v} [DecidableEq α] {M : Type u} [CommMonoid M] {V L : List α} (hV : V.Nodup)
    (hL : L.Nodup) (hsub : ∀ w ∈ L, w ∈ V) {g : α → M} (h1 : ∀ w ∈ V, w ∉ L → g w = 1) :
    (V.map g).prod = (L.map g).prod := by
  rw [← List.prod_toFinset g hV, ← List.prod_toFinset g hL]
  symm
  apply Finset.prod_subset
  · intro w hw
    simp only [List.mem_toFinset] at hw ⊢
    exact hsub w hw
  · intro w hw hn
    simp only [List.mem_toFinset] at hw hn
    exact h1 w hw hn

namespace State
variable {K : Type} [Field K] [LinearOrder K] [IsStrictOrderedRing K]

section lawfree
variable [Arith (Ext K)]

/-- The image of an accepted unary factor. -/
def imgU (s : State (Ext K)) (p i : Nat) : K :=
  match s.heap[p]? with
  | some f => (f.timg [i]).toK
  | none => 1

/-- The image of the factor which joins `u` and `w`, at `u = i` and `w = j`. -/
def imgB (s : State (Ext K)) (u w : Var) (i j : Nat) : K :=
  match s.lnk u w with
  | some p =>
    match s.heap[p]? with
    | some f => (Fn.bimg u f i j).toK
    | none => 1
  | none => 1

/-- The observed value of a variable. -/
def ev {F : Type} (s : State F) (w : Var) : Nat := (AMap.find? s.evidences w).getD 0

/-- What the unary factors and the observed neighbours of `u` contribute. -/
def psiK (s : State (Ext K)) (u : Var) (i : Nat) : K :=
  ((s.una u).map (fun p => s.imgU p i)).prod * (s.obs.map (fun w => s.imgB u w i (s.ev w))).prod

/-- All the images of the accepted factors are numbers with the property `Q`. -/
structure Valued (s : State (Ext K)) (Q : K → Prop) : Prop where
  una : ∀ u p f, p ∈ s.una u → s.heap[p]? = some f → ∀ i < u.size, (f.timg [i]).IsVal ∧ Q (f.timg [i]).toK
  bin : ∀ u w p f, s.lnk u w = some p → s.heap[p]? = some f → ∀ i < u.size, ∀ j < w.size,
    (Fn.bimg u f i j).IsVal ∧ Q (Fn.bimg u f i j).toK

/-- All the images of the accepted factors are nonnegative numbers. -/
abbrev Numeric (s : State (Ext K)) : Prop := s.Valued (fun x => 0 ≤ x)

theorem Valued.mono {s : State (Ext K)} {Q Q' : K → Prop} (h : s.Valued Q) (hQ : ∀ x, Q x → Q' x) : s.Valued Q' where
  una u p f hp hf i hi := ⟨(h.una u p f hp hf i hi).1, hQ _ (h.una u p f hp hf i hi).2⟩
  bin u w p f hl hf i hi j hj := ⟨(h.bin u w p f hl hf i hi j hj).1, hQ _ (h.bin u w p f hl hf i hi j hj).2⟩

theorem Core.imgB_swap {s : State (Ext K)} (hs : Core s) (u w : Var) (i j : Nat) : s.imgB u w i j = s.imgB w u j i := by
  unfold imgB
  rw [hs.net.symL w u]
  cases h : s.lnk u w with
  | none => rfl
  | some p =>
    obtain ⟨_, f, hf, hb⟩ := hs.link u w p h
    simp only [hf]
    rw [hb.bimg_swap]

theorem Numeric.imgB_nonneg {s : State (Ext K)} (h : Numeric s) (u w : Var) {i j : Nat} (hi : i < u.size)
    (hj : j < w.size) : 0 ≤ s.imgB u w i j := by
  unfold imgB
  cases hl : s.lnk u w with
  | none => exact zero_le_one
  | some p =>
    simp only
    cases hf : s.heap[p]? with
    | none => exact zero_le_one
    | some f => exact (h.bin u w p f hl hf i hi j hj).2

theorem Core.ev_lt {s : State (Ext K)} (hs : Core s) {w : Var} (hw : w ∈ s.obs) : s.ev w < w.size := by
  obtain ⟨k, hk⟩ := AMap.mem_keys.mp hw
  unfold ev
  rw [hk]
  exact hs.obsVal w k hk

theorem Numeric.psiK_nonneg {s : State (Ext K)} (h : Numeric s) (hs : Core s) (u : Var) {i : Nat} (hi : i < u.size) :
    0 ≤ s.psiK u i := by
  unfold psiK
  refine mul_nonneg (list_prod_nonneg ?_) (list_prod_nonneg ?_)
  · intro x hx
    obtain ⟨p, hp, rfl⟩ := List.mem_map.1 hx
    obtain ⟨_, _, f, hf, _⟩ := hs.unary u p hp
    unfold imgU
    rw [hf]
    exact (h.una u p f hp hf i hi).2
  · intro x hx
    obtain ⟨w, hw, rfl⟩ := List.mem_map.1 hx
    exact h.imgB_nonneg u w hi (hs.ev_lt hw)

/-- The factors which are merged for a hidden variable, and the product of their images. -/
theorem mergedVal_list {s : State (Ext K)} (hs : Core s) (hsep : Separated s)
    (hevid : ∀ u v c k, u ∉ s.obs → s.dis u v = some c → AMap.find? s.evidences v = some k →
      ∃ m, c.message = some m ∧ IsEvid s c.factor v k m)
    {Q : K → Prop} (hnum : s.Valued Q) {u : Var} (hu : u ∈ s.hid) {mg : Fn (Ext K)} {ord : List Var → List Var}
    (hord : ∀ l, (ord l).Perm l) (hval : s.mergedVal ord u = .ok mg) :
    ∃ fs : List (Fn (Ext K)), (∀ f ∈ fs, f.Unary u) ∧ fs.length = (s.una u).length + (AMap.keys (s.disabledOf u)).length ∧
      (∀ i < u.size, (∀ f ∈ fs, (f.timg [i]).IsVal ∧ Q (f.timg [i]).toK) ∧
        (fs.map (fun f => (f.timg [i]).toK)).prod = s.psiK u i) ∧
      ((fs = [] ∧ mg = Fn.ones u) ∨ (fs ≠ [] ∧ Fn.mergedUnaries fs = .ok mg)) := by
  obtain ⟨huv, huo⟩ := mem_hid.mp hu
  obtain ⟨n, us, ms, h1, h2, h3, h4, h5, h6⟩ := gather_ok hord hs huv huo
  unfold mergedVal at hval
  rw [h1] at hval
  simp only at hval
  unfold mergedOf at hval
  rw [h2] at hval
  -- the two products
  have hus : ∀ i < u.size, (∀ f ∈ us, (f.timg [i]).IsVal ∧ Q (f.timg [i]).toK) ∧
      (us.map (fun f => (f.timg [i]).toK)).prod = ((s.una u).map (fun p => s.imgU p i)).prod := by
    intro i hi
    have gen : ∀ (l : List Nat) (us : List (Fn (Ext K))), (∀ p ∈ l, p ∈ s.una u) →
        List.Forall₂ (fun p f => s.heap[p]? = some f) l us → (∀ f ∈ us, (f.timg [i]).IsVal ∧ Q (f.timg [i]).toK) ∧
        (us.map (fun f => (f.timg [i]).toK)).prod = (l.map (fun p => s.imgU p i)).prod := by
      intro l us hl hf2
      induction hf2 with
      | nil => simp
      | @cons p f l us hpf _ ih =>
        obtain ⟨g1, g2⟩ := ih (fun p hp => hl p (by simp [hp]))
        constructor
        · intro g hg
          rcases List.mem_cons.1 hg with rfl | hg
          · exact hnum.una u p g (hl p (by simp)) hpf i hi
          · exact g1 g hg
        · simp only [List.map_cons, List.prod_cons, g2]
          congr 1
          unfold imgU; rw [hpf]
    exact gen _ _ (fun _ h => h) h3
  have hms : ∀ i < u.size, (∀ f ∈ ms, (f.timg [i]).IsVal ∧ Q (f.timg [i]).toK) ∧
      (ms.map (fun f => (f.timg [i]).toK)).prod =
        ((ord (AMap.keys (s.disabledOf u))).map (fun w => s.imgB u w i (s.ev w))).prod := by
    intro i hi
    have gen : ∀ (l : List Var) (ms : List (Fn (Ext K))),
        List.Forall₂ (fun w m => ∃ c, s.dis u w = some c ∧ c.message = some m) l ms →
        (∀ f ∈ ms, (f.timg [i]).IsVal ∧ Q (f.timg [i]).toK) ∧
        (ms.map (fun f => (f.timg [i]).toK)).prod = (l.map (fun w => s.imgB u w i (s.ev w))).prod := by
      intro l ms hf2
      induction hf2 with
      | nil => simp
      | @cons w m l ms hwm _ ih =>
        obtain ⟨c, hd, hcm⟩ := hwm
        have hwo : w ∈ s.obs := by
          rcases hs.disObs u w (by rw [hd]; rfl) with h | h
          · exact absurd h huo
          · exact h
        obtain ⟨k, hk⟩ := AMap.mem_keys.mp hwo
        obtain ⟨m', e1, f, e2, e3⟩ := hevid u w c k huo hd hk
        rw [hcm] at e1
        cases e1
        have hl := hs.net.lnk_of_dis hd
        obtain ⟨_, f', hf', hb⟩ := hs.link u w _ hl
        rw [e2] at hf'
        cases hf'
        have hkw := hs.obsVal w k hk
        obtain ⟨m2, g1, _, _, g4⟩ := hb.evidence hkw
        rw [e3] at g1
        cases g1
        have hbv := hnum.bin u w _ f hl e2 i hi k hkw
        have himg : s.imgB u w i (s.ev w) = (Fn.bimg u f i k).toK := by
          unfold imgB ev
          rw [hl]
          simp only
          rw [e2, hk]
          rfl
        constructor
        · intro g hg
          rcases List.mem_cons.1 hg with rfl | hg
          · rw [g4 i hi]; exact hbv
          · exact ih.1 g hg
        · simp only [List.map_cons, List.prod_cons, ih.2]
          rw [g4 i hi, himg]
    exact gen _ _ h4
  have hobs : ∀ i, ((ord (AMap.keys (s.disabledOf u))).map (fun w => s.imgB u w i (s.ev w))).prod =
      (s.obs.map (fun w => s.imgB u w i (s.ev w))).prod := by
    intro i
    rw [((hord _).map _).prod_eq]
    symm
    refine list_prod_subset hs.obsNodup (hs.net.nodup u).2 ?_ ?_
    · intro w hw
      obtain ⟨c, hc⟩ := AMap.mem_keys.mp hw
      rcases hs.disObs u w (by unfold State.dis; rw [hc]; rfl) with h | h
      · exact absurd h huo
      · exact h
    · intro w hw hn
      have hd : s.dis u w = none := by
        cases h : s.dis u w with
        | none => rfl
        | some c => exact absurd (AMap.mem_keys.mpr ⟨c, h⟩) hn
      have ha : s.act u w = none := by
        cases h : s.act u w with
        | none => rfl
        | some c => exact absurd hw (hsep u w huo (by rw [h]; rfl))
      unfold imgB State.lnk
      rw [ha, hd]
      rfl
  have hprod : ∀ i < u.size, (∀ f ∈ us ++ ms, (f.timg [i]).IsVal ∧ Q (f.timg [i]).toK) ∧
      ((us ++ ms).map (fun f => (f.timg [i]).toK)).prod = s.psiK u i := by
    intro i hi
    constructor
    · intro f hf
      rcases List.mem_append.1 hf with hf | hf
      · exact (hus i hi).1 f hf
      · exact (hms i hi).1 f hf
    · rw [List.map_append, List.prod_append, (hus i hi).2, (hms i hi).2, hobs]
      rfl
  have hall : ∀ f ∈ us ++ ms, f.Unary u := by
    intro f hf
    rcases List.mem_append.1 hf with hf | hf
    · exact h5 f hf
    · exact h6 f hf
  refine ⟨us ++ ms, hall, ?_, hprod, ?_⟩
  · rw [List.length_append, ← h3.length_eq, ← h4.length_eq, (hord _).length_eq]
  cases hl : us ++ ms with
  | nil =>
    rw [hl] at hval
    simp only [Res.ok.injEq] at hval
    exact Or.inl ⟨rfl, hval.symm⟩
  | cons f fs =>
    rw [hl] at hval
    exact Or.inr ⟨by simp, hval⟩

end lawfree

section exact
variable [FloatParams K]

/-- The factors which are merged for a hidden variable, and the product of their images. -/
theorem mergedVal_prod {s : State (Ext K)} (hs : Core s) (hsep : Separated s)
    (hevid : ∀ u v c k, u ∉ s.obs → s.dis u v = some c → AMap.find? s.evidences v = some k →
      ∃ m, c.message = some m ∧ IsEvid s c.factor v k m)
    (hnum : Numeric s) {u : Var} (hu : u ∈ s.hid) {mg : Fn (Ext K)} {ord : List Var → List Var}
    (hord : ∀ l, (ord l).Perm l) (hval : s.mergedVal ord u = .ok mg) :
    ∃ fs : List (Fn (Ext K)), (∀ f ∈ fs, f.Unary u) ∧ (∀ i < u.size, Fn.prodImg fs i = .val (s.psiK u i)) ∧
      ((fs = [] ∧ mg = Fn.ones u) ∨ (fs ≠ [] ∧ Fn.mergedUnaries fs = .ok mg)) := by
  obtain ⟨fs, h1, _, h3, h4⟩ := mergedVal_list hs hsep hevid hnum hu hord hval
  refine ⟨fs, h1, fun i hi => ?_, h4⟩
  rw [Fn.prodImg_val (fun f hf => ((h3 i hi).1 f hf).1), (h3 i hi).2]

/-- The product of the unary factors and evidences of a hidden variable. -/
theorem mergedVal_val {s : State (Ext K)} (hs : Core s) (hsep : Separated s)
    (hevid : ∀ u v c k, u ∉ s.obs → s.dis u v = some c → AMap.find? s.evidences v = some k →
      ∃ m, c.message = some m ∧ IsEvid s c.factor v k m)
    (hnum : Numeric s) {u : Var} (hu : u ∈ s.hid) {mg : Fn (Ext K)} {ord : List Var → List Var}
    (hord : ∀ l, (ord l).Perm l) (hval : s.mergedVal ord u = .ok mg) (hne : ∃ i < u.size, s.psiK u i ≠ 0) :
    ∃ c : K, 0 < c ∧ ∀ i < u.size, mg.timg [i] = .val (c * s.psiK u i) := by
  obtain ⟨huv, huo⟩ := mem_hid.mp hu
  obtain ⟨fs, hall, hprod, ⟨rfl, rfl⟩ | ⟨hfs, hmg⟩⟩ := mergedVal_prod hs hsep hevid hnum hu hord hval
  · refine ⟨1, one_pos, fun i hi => ?_⟩
    have h1 := hprod i hi
    have : s.psiK u i = 1 := by
      simp only [Fn.prodImg, List.foldl_nil, Ext.one_eq, Ext.val.injEq] at h1
      exact h1.symm
    rw [this, mul_one]
    have := (Fn.ones_unary (F := Ext K) (hs.posV u huv)).2 i hi
    rw [this]; rfl
  · obtain ⟨m, M, e1, _, e3, e4, _⟩ := Fn.mergedUnaries_val (v := u) (fs := fs) hfs hall hprod
      (fun i hi => hnum.psiK_nonneg hs u hi) hne
    rw [hmg] at e1
    cases e1
    refine ⟨1 / M, by positivity, fun i hi => ?_⟩
    rw [e4 i hi]
    congr 1
    rw [one_div, div_eq_inv_mul]

/-- The merged unaries of a hidden variable. -/
theorem merged_val {s : State (Ext K)} (hs : Core s) (hsep : Separated s) (hf : Coherent s)
    (hevid : ∀ u v c k, u ∉ s.obs → s.dis u v = some c → AMap.find? s.evidences v = some k →
      ∃ m, c.message = some m ∧ IsEvid s c.factor v k m)
    (hnum : Numeric s) {u : Var} (hu : u ∈ s.hid) {mg : Fn (Ext K)} (hmg : s.mrg u = some mg)
    (hne : ∃ i < u.size, s.psiK u i ≠ 0) :
    ∃ c : K, 0 < c ∧ ∀ i < u.size, mg.timg [i] = .val (c * s.psiK u i) := by
  obtain ⟨huv, huo⟩ := mem_hid.mp hu
  obtain ⟨ord, hord, hval⟩ := hf u huv huo mg hmg
  exact mergedVal_val hs hsep hevid hnum hu hord hval hne

/-- The product of some messages. -/
theorem messages_prod {s : State (Ext K)} {u : Var} {g : Var → Nat → K} {L : List Var} {ms : List (Fn (Ext K))}
    (hf : List.Forall₂ (fun w m => s.msg u w = some m) L ms)
    (hg : ∀ w ∈ L, ∃ m, s.msg u w = some m ∧ ∃ c : K, 0 < c ∧ ∀ i < u.size, m.timg [i] = .val (c * g w i)) :
    ∃ C : K, 0 < C ∧ ∀ i < u.size, (∀ m ∈ ms, (m.timg [i]).IsVal) ∧
      (ms.map (fun m => (m.timg [i]).toK)).prod = C * (L.map (fun w => g w i)).prod := by
  induction hf with
  | nil => exact ⟨1, one_pos, by simp⟩
  | @cons w m L ms hwm _ ih =>
    obtain ⟨C, hC, h1⟩ := ih (fun w hw => hg w (by simp [hw]))
    obtain ⟨m', e1, c, hc, e2⟩ := hg w (by simp)
    rw [hwm] at e1
    cases e1
    refine ⟨c * C, mul_pos hc hC, fun i hi => ?_⟩
    obtain ⟨h2, h3⟩ := h1 i hi
    constructor
    · intro m' hm'
      rcases List.mem_cons.1 hm' with rfl | hm'
      · rw [e2 i hi]; exact Ext.isVal_val _
      · exact h2 m' hm'
    · simp only [List.map_cons, List.prod_cons, h3]
      rw [e2 i hi, Ext.toK_val]
      ring

/-- Merging the unary factors of a variable and some messages. -/
theorem gathered_val {s : State (Ext K)} (hs : Core s) {u : Var} {mg : Fn (Ext K)} (hmg : s.mrg u = some mg) {c : K}
    (hc : 0 < c) {G : Nat → K} (hmv : ∀ i < u.size, mg.timg [i] = .val (c * G i)) {g : Var → Nat → K} {L : List Var}
    {ms : List (Fn (Ext K))} (hf : List.Forall₂ (fun w m => s.msg u w = some m) L ms) (hmu : ∀ m ∈ ms, m.Unary u)
    (hg : ∀ w ∈ L, ∃ m, s.msg u w = some m ∧ ∃ c : K, 0 < c ∧ ∀ i < u.size, m.timg [i] = .val (c * g w i))
    (h0 : ∀ i < u.size, 0 ≤ G i * (L.map (fun w => g w i)).prod)
    (hpos : ∃ i < u.size, G i * (L.map (fun w => g w i)).prod ≠ 0) :
    ∃ f, Fn.mergedUnaries (mg :: ms) = .ok f ∧ f.Unary u ∧ ∃ D : K, 0 < D ∧
      (∀ i < u.size, f.timg [i] = .val (D * (G i * (L.map (fun w => g w i)).prod))) ∧
      ∃ k < u.size, D * (G k * (L.map (fun w => g w k)).prod) = 1 := by
  obtain ⟨C, hC, h1⟩ := messages_prod hf hg
  have hprod : ∀ i < u.size, Fn.prodImg (mg :: ms) i = .val (c * C * (G i * (L.map (fun w => g w i)).prod)) := by
    intro i hi
    obtain ⟨h2, h3⟩ := h1 i hi
    rw [Fn.prodImg_cons_val (hmv i hi) (Fn.prodImg_val h2) h2, h3]
    congr 1
    ring
  have hcC : 0 < c * C := mul_pos hc hC
  obtain ⟨f, M, e1, e2, e3, e4, k, hk, hkM⟩ := Fn.mergedUnaries_val (v := u) (fs := mg :: ms) (by simp) (by
      intro m hm
      rcases List.mem_cons.1 hm with rfl | hm
      · exact hs.mrgT _ _ hmg
      · exact hmu m hm) hprod (fun i hi => mul_nonneg hcC.le (h0 i hi)) (by
      obtain ⟨i, hi, hne⟩ := hpos
      exact ⟨i, hi, mul_ne_zero hcC.ne' hne⟩)
  refine ⟨f, e1, e2, c * C / M, div_pos hcC e3, fun i hi => ?_, k, hk, ?_⟩
  · rw [e4 i hi]
    congr 1
    rw [div_mul_eq_mul_div]
  · rw [div_mul_eq_mul_div, hkM, div_self e3.ne']

end exact

/-! ### The messages -/

section lawfree
variable [Arith (Ext K)]

/-- Two hidden variables joined by a factor. -/
def adj (s : State (Ext K)) (u w : Var) : Prop := u ∈ s.hid ∧ w ∈ s.hid ∧ (s.act u w).isSome

variable {kind : Kind} {R : Type} [CommSemiring R]

/-- What a variable contributes by itself. -/
def psiR (q : Quant kind K R) (s : State (Ext K)) (u : Var) (i : Nat) : R := q.ofK (s.psiK u i)

open Classical in
/-- The factor which joins two hidden variables, as the library reads it. -/
noncomputable def edgeR (q : Quant kind K R) (s : State (Ext K)) (u w : Var) (i j : Nat) : R :=
  if s.adj u w then q.ofK (s.imgB u w j i) else 1

theorem Core.adj_symm {s : State (Ext K)} (hs : Core s) {u w : Var} (h : s.adj u w) : s.adj w u :=
  ⟨h.2.1, h.1, hs.net.symA _ _ h.2.2⟩

theorem Core.edgeR_symm {s : State (Ext K)} (hs : Core s) (q : Quant kind K R) (u w : Var) (i j : Nat) :
    s.edgeR q u w i j = s.edgeR q w u j i := by
  unfold edgeR
  by_cases h : s.adj u w
  · rw [if_pos h, if_pos (hs.adj_symm h), hs.imgB_swap]
  · rw [if_neg h, if_neg (fun h' => h (hs.adj_symm h'))]

theorem edgeR_nonadj {s : State (Ext K)} (q : Quant kind K R) {u w : Var} (h : ¬s.adj u w) (i j : Nat) :
    s.edgeR q u w i j = 1 := by
  unfold edgeR; rw [if_neg h]

theorem Setting.act_adj {s : State (Ext K)} (hs : Core s) {nodes : List Var} {ts : List Topo} (h : Setting s nodes ts)
    {u w : Var} (hu : u ∈ nodes) (ha : (s.act u w).isSome) : s.adj u w := by
  obtain ⟨h1, h2⟩ := h.hidden hs hu ha
  exact ⟨hidden_iff.mp h1, hidden_iff.mp h2, ha⟩

/-- The rank of the messages gives the order needed by the theory. -/
theorem Setting.inward {s : State (Ext K)} (hs : Core s) {nodes : List Var} {ts : List Topo} (h : Setting s nodes ts)
    (he : Exact kind s ts) {v : Var} (hv : v ∈ nodes) :
    ∃ r : Var → Var → Nat, Tree.Inward s.hid v s.adj (Tree.Toward s.adj v) r ∧
      ∀ w u y, u ∈ nodes → s.adj w u → s.adj u y → w ≠ y → r w u < r u y := by
  obtain ⟨rank, hr⟩ := he
  have key : ∀ w u y, u ∈ nodes → s.adj w u → s.adj u y → w ≠ y → rank ⟨u, w⟩ < rank ⟨y, u⟩ := by
    intro w u y hu hwu huy hne
    obtain ⟨t, ht, e1, e2⟩ := h.topo.all u hu y huy.2.2
    obtain ⟨m, _, _, hdep⟩ := hr t ht
    have hd : (⟨u, w⟩ : ConnRef) ∈ t.deps := by
      rw [h.topo.deps t ht]
      refine ⟨e1.symm, ?_, ?_⟩
      · rw [e2]; exact hne
      · rw [e1]; exact hs.net.symA w u hwu.2.2
    have := hdep _ hd
    have hc : t.conn = ⟨y, u⟩ := by
      have h6 := h.topo.from_ t ht
      cases hcn : t.conn with
      | mk o f =>
        rw [hcn] at e2 h6
        simp only at e2 h6
        rw [e2, h6, e1]
    rw [hc] at this
    exact this
  refine ⟨fun u w => rank ⟨w, u⟩, ?_, key⟩
  refine Tree.inward (comp := fun u => u ∈ nodes) (fun u w h => hs.adj_symm h) ?_ (fun u w h => h.1) hv ?_ key
  · intro u hu
    exact absurd hu.2.2 (by simp [hs.net.act_irrefl u])
  · intro u w hwu hu
    exact h.closed u hu w (hs.net.symA _ _ hwu.2.2)

/-- The product over all the nodes is the product over the neighbours. -/
theorem prod_neighbours {s : State (Ext K)} (hs : Core s) {u : Var} {L : List Var} (hL : L.Nodup)
    {ex : Var → Prop} [DecidablePred ex]
    (hmem : ∀ w, w ∈ L ↔ s.adj w u ∧ ¬ex w) {μ : Var → Nat → R} (hμ : ∀ w, ¬s.adj w u → ∀ j, μ w j = 1) (i : Nat) :
    (s.hid.map (fun w => if ex w then 1 else μ w i)).prod = (L.map (fun w => μ w i)).prod := by
  rw [list_prod_subset (hid_nodup hs.net) hL (fun w hw => ((hmem w).mp hw).1.1)]
  · congr 1
    exact List.map_congr_left (fun w hw => if_neg ((hmem w).mp hw).2)
  · intro w _ hn
    by_cases he : ex w
    · rw [if_pos he]
    · rw [if_neg he]
      exact hμ w (fun h => hn ((hmem w).mpr ⟨h, he⟩)) i

end lawfree

variable [FloatParams K] {kind : Kind} {R : Type} [CommSemiring R]

/-- The messages of the library are proportional to the ones of the theory. -/
theorem messages_val (q : Quant kind K R) {s : State (Ext K)} (hH : Healthy s) (hF : Faithful s) (hN : Numeric s)
    {nodes : List Var} {ts : List Topo} (hset : Setting s nodes ts) (hty : TypedMsgs s) (hex : Exact kind s ts)
    {v : Var} (hv : v ∈ nodes)
    {μ : Var → Var → Nat → R} (hμ1 : ∀ u w, ¬s.adj u w → ∀ j, μ u w j = 1)
    (hfix : Tree.Fixed Var.size (s.psiR q) (s.edgeR q) s.hid (Tree.Toward s.adj v) μ)
    (hpos : ∃ i < v.size, s.psiR q v i * (s.hid.map (fun w => μ w v i)).prod ≠ 0)
    (hfloor : kind = .map → ∀ u ∈ nodes, ∀ w, (s.act u w).isSome → ∀ i < u.size, ∀ j < w.size,
      FloatParams.minK ≤ s.imgB u w i j) :
    ∀ u y, Tree.Toward s.adj v u y → ∃ m, s.msg y u = some m ∧ ∃ c : K, 0 < c ∧
      ∀ j < y.size, m.timg [j] = .val (c * q.toK (μ u y j)) := by
  have hs := hH.inv.toCore
  obtain ⟨r, hin, hr⟩ := hset.inward hs hex hv
  have hcl : ∀ u w, s.adj w u → u ∈ nodes → w ∈ nodes := fun u w h hu => hset.closed u hu w (hs.net.symA _ _ h.2.2)
  obtain ⟨i0, hi0, hi0ne⟩ := hpos
  have main : ∀ k u y, Tree.Toward s.adj v u y → r u y = k → ∃ m, s.msg y u = some m ∧ ∃ c : K, 0 < c ∧
      ∀ j < y.size, m.timg [j] = .val (c * q.toK (μ u y j)) := by
    intro k
    induction k using Nat.strong_induction_on with
    | _ k ih =>
      intro u y huy hk
      obtain ⟨_, hun, hyn⟩ := huy.restrict (comp := fun u => u ∈ nodes) hv hcl
      have hadj := huy.adj
      have hsz : u.size = y.size := hH.flow.sq u y (hset.hid u hun) (hset.hid y hyn) hadj.2.2
      -- the message does not vanish
      have hnz : ∃ j < y.size, μ u y j ≠ 0 := by
        by_contra hall
        push Not at hall
        have := huy.zero (fun u w (h : s.adj u w) => h.1) hfix hall i0 hi0
        rw [this, mul_zero] at hi0ne
        exact hi0ne rfl
      obtain ⟨j0, hj0, hj0ne⟩ := hnz
      rw [hfix u y huy j0] at hj0ne
      obtain ⟨i1, hi1, hi1ne⟩ := Finset.exists_ne_zero_of_sum_ne_zero hj0ne
      have hi1 : i1 < u.size := by simpa using hi1
      have hg1 : s.psiR q u i1 * (s.hid.map (fun w => if w = y then 1 else μ w u i1)).prod ≠ 0 :=
        left_ne_zero_of_mul hi1ne
      -- the update
      obtain ⟨rank, hrk⟩ := hex
      obtain ⟨t, ht, e1, e2⟩ := hset.topo.all u hun y hadj.2.2
      obtain ⟨m, hm, hsend, _⟩ := hrk t ht
      have hfrom := hset.topo.from_ t ht
      have hat := hset.at_ ht
      have hdeps := hsend.hasDeps hat
      obtain ⟨ms, d1, d2⟩ := depMessages_some (fun r hr => hat.depActive hr) hdeps
      obtain ⟨mg, deps, p, b1, b2, b3, b4⟩ := hsend
      rw [d1] at b2
      cases b2
      rw [e1] at b1 b3 hfrom
      rw [e2] at b3 hm
      rw [hfrom] at hm
      refine ⟨m, hm, ?_⟩
      -- the list of the senders
      set L := t.deps.map (·.from_) with hLdef
      have hown : ∀ r ∈ t.deps, r.owner = u := fun r hr => by rw [← e1]; exact ((hset.topo.deps t ht r).mp hr).1
      have hLnd : L.Nodup := by
        refine (List.nodup_map_iff_inj_on (hset.topo.depsNodup t ht)).mpr ?_
        intro r hr r' hr' h
        have := hown r hr
        have := hown r' hr'
        cases r; cases r'
        simp_all
      have hLmem : ∀ w, w ∈ L ↔ s.adj w u ∧ ¬w = y := by
        intro w
        rw [hLdef, List.mem_map]
        constructor
        · rintro ⟨r, hr, rfl⟩
          obtain ⟨_, g2, g3⟩ := (hset.topo.deps t ht r).mp hr
          rw [e1] at g3
          rw [e2] at g2
          exact ⟨hs.adj_symm (hset.act_adj hs hun g3), g2⟩
        · rintro ⟨g1, g2⟩
          refine ⟨⟨u, w⟩, ?_, rfl⟩
          rw [hset.topo.deps t ht, e1, e2]
          exact ⟨rfl, g2, hs.net.symA _ _ g1.2.2⟩
      have hf2 : List.Forall₂ (fun w m => s.msg u w = some m) L ms := by
        rw [hLdef, List.forall₂_map_left_iff]
        have : ∀ (l : List ConnRef) (ms : List (Fn (Ext K))), (∀ r ∈ l, r.owner = u) →
            List.Forall₂ (fun r m => s.msg r.owner r.from_ = some m) l ms →
            List.Forall₂ (fun r m => s.msg u r.from_ = some m) l ms := by
          intro l ms hl h
          induction h with
          | nil => exact .nil
          | cons h _ ih =>
            refine .cons ?_ (ih (fun r hr => hl r (by simp [hr])))
            rw [hl _ (by simp)] at h; exact h
        exact this _ _ hown d2
      have hmsu : ∀ m ∈ ms, m.Unary u := by
        intro m hm
        obtain ⟨w, _, h3⟩ := forall₂_mem_right hf2 hm
        exact hty u w m (hset.hid u hun) h3
      have hgv : ∀ w ∈ L, ∃ m, s.msg u w = some m ∧ ∃ c : K, 0 < c ∧
          ∀ i < u.size, m.timg [i] = .val (c * q.toK (μ w u i)) := by
        intro w hw
        obtain ⟨g1, g2⟩ := (hLmem w).mp hw
        have := hr w u y hun g1 hadj g2
        exact ih _ (by omega) w u (.step huy g1 g2) rfl
      -- the products
      set g : Nat → R := fun i => s.psiR q u i * (s.hid.map (fun w => if w = y then 1 else μ w u i)).prod with hgdef
      have hgK : ∀ i < u.size, q.toK (g i) = s.psiK u i * (L.map (fun w => q.toK (μ w u i))).prod := by
        intro i hi
        rw [hgdef]
        simp only
        rw [prod_neighbours hs hLnd (ex := fun w => w = y) hLmem (μ := fun w => μ w u) (fun w h => hμ1 w u h) i, q.mul, q.prod]
        unfold psiR
        rw [q.toK_ofK _ (hN.psiK_nonneg hs u hi)]
      have hψne : ∃ i < u.size, s.psiK u i ≠ 0 := by
        refine ⟨i1, hi1, fun h0 => hg1 ?_⟩
        have := hgK i1 hi1
        rw [h0, zero_mul, q.eq_zero] at this
        exact this
      obtain ⟨c, hc, hmv⟩ := merged_val hs hH.sep hF.coh hF.evid hN (mem_hid.mpr ⟨(hs.act_vars hadj.2.2).1, hset.hid u hun⟩) b1 hψne
      obtain ⟨f, f1, f2, D, hD, f3, k1, hk1, f4⟩ := gathered_val hs b1 hc hmv hf2 hmsu hgv
        (fun i hi => by rw [← hgK i hi]; exact q.nonneg _)
        ⟨i1, hi1, by rw [← hgK i1 hi1]; exact fun h => hg1 (q.eq_zero.mp h)⟩
      -- the message
      obtain ⟨_, b, hb, hbin⟩ := hs.link _ _ _ b3
      have hbin' := hbin.symm
      unfold newMessage at b4
      rw [f1] at b4
      simp only at b4
      rw [deref_eq hb] at b4
      simp only at b4
      obtain ⟨m', g1, g2, _, g4⟩ := hbin'.message f2 kind (by omega)
      rw [b4] at g1
      cases g1
      have hlnk : s.lnk u y = some p := by rw [hs.net.symL]; exact b3
      have himg : ∀ i j, s.imgB u y i j = (Fn.bimg u b i j).toK := by
        intro i j
        unfold imgB
        rw [hlnk]
        simp only
        rw [hb]
      refine ⟨D, hD, fun j hj => ?_⟩
      rw [g4 j hj, if_pos (by omega)]
      have hbv : ∀ i < u.size, Fn.bimg u b j i = .val (s.imgB u y j i) := by
        intro i hi
        rw [himg]
        exact (hN.bin u y p b hlnk hb j (by omega) i (by omega)).1.eq
      have hfv : ∀ i < u.size, f.timg [i] = .val (D * q.toK (g i)) := by
        intro i hi
        rw [f3 i hi, hgK i hi]
      rw [Fn.msgVal_val (μ := fun i => D * q.toK (g i)) (φ := fun i => s.imgB u y j i) hfv hbv]
      congr 1
      rw [hfix u y huy j]
      refine q.red hD.le u.size g (fun i => s.edgeR q u y i j) (fun i => s.imgB u y j i) ?_ ?_
      · intro i hi
        unfold edgeR
        rw [if_pos hadj, q.toK_ofK _ (hN.imgB_nonneg u y (by omega) (by omega))]
      · intro hkind
        refine ⟨k1, hk1, ?_⟩
        rw [hgK k1 hk1, f4, one_mul]
        exact hfloor hkind u hun y hadj.2.2 j (by omega) k1 (by omega)
  intro u y huy
  exact main _ u y huy rfl

end State
end EFG
