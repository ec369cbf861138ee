import Verif.Lemmas.Crf
import Verif.Lemmas.Range
/-
The evidences of conditional random fields and their training sets.
-/

set_option linter.unusedSectionVars false

namespace EFG
namespace State
variable {F : Type} [Arith F]

/-! ### Setting all the evidences -/

theorem forEach_set {ord : List Var → List Var} (hord : ∀ l, (ord l).Perm l) (es : List (Var × Nat)) : ∀ {s : State F},
    Inv s → (AMap.keys es).Nodup → (∀ e ∈ es, e.1 ∈ s.obs ∧ e.2 < e.1.size) →
    ∃ s', forEach (fun e : Var × Nat => setEvidence ord e.1 e.2) es s = .ok s' () ∧ Inv s' ∧ Locked s s' ∧
      s'.heap = s.heap ∧ s'.pool = s.pool ∧
      ∀ v, AMap.find? s'.evidences v = (AMap.find? es v).or (AMap.find? s.evidences v) := by
  induction es with
  | nil => intro s hs _ _; exact ⟨s, rfl, hs, .rfl' s, rfl, rfl, fun v => by simp [AMap.find?]⟩
  | cons e es ih =>
    intro s hs hn he
    obtain ⟨v, k⟩ := e
    obtain ⟨h1, h2⟩ := he (v, k) (by simp)
    simp only at h1 h2
    rcases setEvidence_again hord hs h1 k with ⟨_, s1, g1, g2, g3, g4, g5, g6⟩ | ⟨hk, _⟩
    · rw [AMap.keys, List.map_cons, List.nodup_cons] at hn
      obtain ⟨s', k1, k2, k3, k4, k5, k6⟩ := ih g2 hn.2 (fun e' he' => by rw [g3.obs]; exact he e' (by simp [he']))
      refine ⟨s', ?_, k2, g3.trans k3, k4.trans g4, k5.trans g5, ?_⟩
      · rw [forEach_cons]
        simp only
        rw [g1]
        exact k1
      · intro w
        rw [k6 w, g6, AMap.find?_modify, AMap.find?_cons]
        by_cases hvw : v = w
        · subst hvw
          have hnone : AMap.find? es v = none := by
            cases hf : AMap.find? es v with
            | none => rfl
            | some x => exact absurd (List.mem_map_of_mem (f := Prod.fst) (AMap.find?_mem hf)) hn.1
          obtain ⟨x, hx⟩ := AMap.mem_keys.mp h1
          simp [hnone, hx]
        · simp [hvw]
    · omega

/-- Two maps with the same keys and the same values. -/
theorem amap_perm {α β : Type} [DecidableEq α] {m m' : List (α × β)} (h : (AMap.keys m).Nodup) (h' : (AMap.keys m').Nodup)
    (he : ∀ k, AMap.find? m k = AMap.find? m' k) : m.Perm m' := by
  refine (List.perm_ext_iff_of_nodup h.of_map h'.of_map).mpr (fun e => ?_)
  obtain ⟨k, x⟩ := e
  constructor
  · intro hm
    exact AMap.find?_mem (by rw [← he]; exact AMap.find?_of_mem h hm)
  · intro hm
    exact AMap.find?_mem (by rw [he]; exact AMap.find?_of_mem h' hm)

theorem zip_keys {vs : List Var} {ks : List Nat} (h : ks.length = vs.length) : AMap.keys (vs.zip ks) = vs := by
  unfold AMap.keys
  rw [List.map_fst_zip (by omega)]

theorem setEvidences_ok {ord visit : List Var → List Var} (hord : ∀ l, (ord l).Perm l) (hvis : ∀ l, (visit l).Perm l)
    {s : State F} (hs : Inv s) {values : List Nat} (hv : Valid ((visit s.obs).map Var.size) values) :
    ∃ s', setEvidences ord visit values s = .ok s' () ∧ Inv s' ∧ Locked s s' ∧ s'.heap = s.heap ∧ s'.pool = s.pool ∧
      s'.evidences.Perm ((visit s.obs).zip values) := by
  have hlen : values.length = (visit s.obs).length := by
    have := hv.length_eq
    rw [List.length_map] at this
    exact this.symm
  have hnd : (visit s.obs).Nodup := (hvis _).nodup_iff.mpr hs.obsNodup
  have hk := zip_keys hlen
  have hlen' : values.length = s.evidences.length := by
    rw [hlen, (hvis _).length_eq]
    show (s.evidences.map Prod.fst).length = _
    rw [List.length_map]
  have hin : ∀ e ∈ (visit s.obs).zip values, e.1 ∈ s.obs ∧ e.2 < e.1.size := by
    intro e he
    refine ⟨(hvis _).mem_iff.mp (List.of_mem_zip he).1, ?_⟩
    unfold Valid at hv
    rw [List.forall₂_map_left_iff] at hv
    exact (List.forall₂_iff_zip.mp hv).2 he
  obtain ⟨s', h1, h2, h3, h4, h5, h6⟩ := forEach_set hord ((visit s.obs).zip values) hs (by rw [hk]; exact hnd) hin
  refine ⟨s', ?_, h2, h3, h4, h5, amap_perm (by have := h2.obsNodup; exact this) (by rw [hk]; exact hnd) (fun v => ?_)⟩
  · unfold setEvidences
    rw [if_neg (by simp [hlen'])]
    exact h1
  · rw [h6 v]
    cases hf : AMap.find? ((visit s.obs).zip values) v with
    | some x => rfl
    | none =>
      cases hg : AMap.find? s.evidences v with
      | none => rfl
      | some x =>
        exfalso
        have hm : v ∈ s.obs := List.mem_map_of_mem (f := Prod.fst) (AMap.find?_mem hg)
        have : v ∈ AMap.keys ((visit s.obs).zip values) := by rw [hk]; exact (hvis _).mem_iff.mpr hm
        obtain ⟨y, hy⟩ := AMap.mem_keys.mp this
        rw [hf] at hy; cases hy

theorem forEach_refuse {ord : List Var → List Var} (hord : ∀ l, (ord l).Perm l) (es : List (Var × Nat)) : ∀ {s : State F},
    Inv s → (∀ e ∈ es, e.1 ∈ s.obs) → (∃ e ∈ es, e.1.size ≤ e.2) →
    ∃ s', forEach (fun e : Var × Nat => setEvidence ord e.1 e.2) es s = .throw s' := by
  induction es with
  | nil => rintro s _ _ ⟨e, he, _⟩; cases he
  | cons e es ih =>
    intro s hs he hx
    rw [forEach_cons]
    rcases setEvidence_again hord hs (he e (by simp)) e.2 with ⟨hk, s1, g1, g2, g3, _⟩ | ⟨_, g1⟩
    · rw [g1]
      refine ih g2 (fun e' he' => by rw [g3.obs]; exact he e' (by simp [he'])) ?_
      obtain ⟨e', he', hx⟩ := hx
      rcases List.mem_cons.mp he' with rfl | he'
      · omega
      · exact ⟨e', he', hx⟩
    · rw [g1]; exact ⟨s, rfl⟩

theorem setEvidences_refuse {ord visit : List Var → List Var} (hord : ∀ l, (ord l).Perm l) (hvis : ∀ l, (visit l).Perm l)
    {s : State F} (hs : Inv s) {values : List Nat} (hl : values.length = s.evidences.length)
    (hv : ¬ Valid ((visit s.obs).map Var.size) values) : ∃ s', setEvidences ord visit values s = .throw s' := by
  have hlen : (visit s.obs).length = values.length := by
    rw [hl, (hvis _).length_eq]
    show (s.evidences.map Prod.fst).length = _
    rw [List.length_map]
  unfold setEvidences
  rw [if_neg (by simp [hl])]
  refine forEach_refuse hord ((visit s.obs).zip values) hs (fun e he => (hvis _).mem_iff.mp (List.of_mem_zip he).1) ?_
  by_contra hn
  push Not at hn
  apply hv
  unfold Valid
  rw [List.forall₂_map_left_iff]
  exact List.forall₂_iff_zip.mpr ⟨hlen, fun {a b} h => hn (a, b) h⟩

/-! ### Samples for many evidences -/

theorem emplaceAll_ok {ord visit : List Var → List Var} (hord : ∀ l, (ord l).Perm l) (hvis : ∀ l, (visit l).Perm l)
    (rnd : Nat → Random F) (ctx : SampleContext) {n : Nat} (hn : 1 ≤ n) : ∀ (evs : List (List Nat)) {s : State F}, Inv s →
    s.pool.isSome → (∀ ev ∈ evs, Valid ((visit s.obs).map Var.size) ev) →
    ∃ s' blocks, emplaceAll ord visit rnd ctx n evs s = .ok s' blocks.flatten ∧ Inv s' ∧ Locked s s' ∧
      List.Forall₂ (fun ev b => b.length = ctx.samples ∧
        ∀ c ∈ b, IsSample { s with evidences := (visit s.obs).zip ev } c) evs blocks := by
  intro evs
  induction evs with
  | nil => intro s hs _ _; exact ⟨s, [], rfl, hs, .rfl' s, .nil⟩
  | cons ev evs ih =>
    intro s hs hp hv
    obtain ⟨s1, h1, h2, h3, h4, h5, h6⟩ := setEvidences_ok hord hvis hs (hv ev (by simp))
    obtain ⟨s2, l, g1, g2, _, _, g5, _, g7, g8⟩ := makeSamples_ok hord (rnd evs.length) ctx hn h2 (by rw [h5]; exact hp)
    have hl2 : Locked s1 s2 := ⟨g2.toQuiet.toFrame.regs, g2.toQuiet.obs, .of_eq g2.toQuiet.toFrame.heap⟩
    have hobs : s2.obs = s.obs := (h3.trans hl2).obs
    obtain ⟨s3, bs, k1, k2, k3, k4⟩ := ih (g2.inv h2) (by rw [g5]; rfl) (fun e he => by rw [hobs]; exact hv e (by simp [he]))
    have hvars : s2.vars = s.vars := (h3.trans hl2).vars
    refine ⟨s3, l :: bs, ?_, k2, (h3.trans hl2).trans k3, .cons ⟨g7, fun c hc => ?_⟩ (k4.imp ?_)⟩
    · rw [emplaceAll]
      unfold emplaceSamples
      rw [h1]
      simp only
      rw [g1]
      simp only
      rw [k1]
      rfl
    · obtain ⟨a, b⟩ := g8 c hc
      refine ⟨by rw [a, h3.vars], fun i v hi => ?_⟩
      have hi' : s1.vars[i]? = some v := by rw [h3.vars]; exact hi
      obtain ⟨x, hx1, hx2, hx3⟩ := b i v hi'
      exact ⟨x, hx1, hx2, fun k hk => hx3 k (h6.mem_iff.mpr hk)⟩
    · rintro e b ⟨ha, hb⟩
      refine ⟨ha, fun c hc => ?_⟩
      obtain ⟨a, b'⟩ := hb c hc
      refine ⟨by rw [a]; exact congrArg _ hvars, fun i v hi => ?_⟩
      have hi' : s2.vars[i]? = some v := by rw [hvars]; exact hi
      obtain ⟨x, hx1, hx2, hx3⟩ := b' i v hi'
      exact ⟨x, hx1, hx2, fun k hk => hx3 k (by show (v, k) ∈ (visit s2.obs).zip e; rw [hobs]; exact hk)⟩

/-! ### The combinations -/

theorem advance_enum (sizes : List Nat) (hne : sizes ≠ []) (hpos : ∀ s ∈ sizes, 0 < s) {comb : List Nat} {l : List (List Nat)}
    (h : Enum (nextComb sizes) comb l) (hl : comb.length = sizes.length) : ∀ (k : Nat) (c : List Nat), l[k]? = some c →
    (∀ c ∈ l, c.length = sizes.length) →
    advance k ⟨some ⟨sizes, comb, false⟩⟩ = .ok ⟨some ⟨sizes, c, false⟩⟩ ∧ Enum (nextComb sizes) c (l.drop k) := by
  induction h with
  | last hc =>
    intro k c hk _
    match k with
    | 0 => cases hk; exact ⟨rfl, .last hc⟩
    | k + 1 => simp at hk
  | @step c d l hc hd ih =>
    intro k c' hk hall
    match k with
    | 0 => cases hk; exact ⟨rfl, .step hc hd⟩
    | k + 1 =>
      have hdl : d.length = sizes.length := by
        have : d ∈ l := by cases hd <;> simp
        exact hall d (by simp [this])
      obtain ⟨h1, h2⟩ := ih hdl k c' (by simpa using hk) (fun c hc => hall c (by simp [hc]))
      refine ⟨?_, by simpa using h2⟩
      rw [advance, next_eq sizes _ false hne hl, hc]
      exact h1

/-- Every `delta`-th element of a list. -/
def EveryNth {α : Type} (delta : Nat) (l cs : List α) : Prop := ∀ i : Nat, cs[i]? = l[i * delta]?

theorem spacedFrom_enum (sizes : List Nat) (hne : sizes ≠ []) (hpos : ∀ s ∈ sizes, 0 < s) {max delta : Nat} (hd : 1 ≤ delta) :
    ∀ (fuel k : Nat) (comb : List Nat) (l : List (List Nat)), Enum (nextComb sizes) comb l →
    (∀ c ∈ l, c.length = sizes.length) → l.length = max - k → k < max → max - k ≤ fuel →
    ∃ cs, spacedFrom max delta fuel k ⟨some ⟨sizes, comb, false⟩⟩ = .ok cs ∧ EveryNth delta l cs := by
  intro fuel
  induction fuel with
  | zero => intro k _ _ _ _ _ h1 h2; omega
  | succ fuel ih =>
    intro k comb l h hall hlen hk hf
    have hcomb : l[0]? = some comb := by cases h <;> rfl
    have hmem : comb ∈ l := List.mem_of_getElem? hcomb
    rw [spacedFrom, if_pos hk]
    simp only [GroupRange.deref]
    by_cases hend : max ≤ k + delta
    · rw [if_pos hend]
      refine ⟨[comb], rfl, fun i => ?_⟩
      cases i with
      | zero => simp [hcomb]
      | succ i =>
        rw [List.getElem?_eq_none (by simp), List.getElem?_eq_none]
        rw [hlen]
        have : delta ≤ (i + 1) * delta := Nat.le_mul_of_pos_left _ (by omega)
        omega
    · rw [if_neg hend]
      have hlt : delta < l.length := by omega
      obtain ⟨a1, a2⟩ := advance_enum sizes hne hpos h (hall comb hmem) delta l[delta] (List.getElem?_eq_getElem hlt) hall
      rw [a1]
      simp only
      obtain ⟨cs, b1, b2⟩ := ih (k + delta) l[delta] (l.drop delta) a2 (fun c hc => hall c (List.mem_of_mem_drop hc))
        (by rw [List.length_drop, hlen]; omega) (by omega) (by omega)
      rw [b1]
      refine ⟨comb :: cs, rfl, fun i => ?_⟩
      cases i with
      | zero => simp [hcomb]
      | succ i =>
        rw [List.getElem?_cons_succ, b2 i, List.getElem?_drop]
        congr 1
        ring

theorem EveryNth.sublist {α : Type} {delta : Nat} (hd : 1 ≤ delta) : ∀ {cs l : List α}, EveryNth delta l cs → cs.Sublist l := by
  intro cs
  induction cs with
  | nil => intro l _; exact List.nil_sublist _
  | cons c cs ih =>
    intro l h
    have h0 := h 0
    cases l with
    | nil => simp at h0
    | cons a l =>
      simp at h0
      subst h0
      have hrest : EveryNth delta (l.drop (delta - 1)) cs := by
        intro i
        have := h (i + 1)
        rw [List.getElem?_cons_succ] at this
        rw [this, List.getElem?_drop]
        rw [show (i + 1) * delta = (delta - 1 + i * delta) + 1 by
          have : (i + 1) * delta = i * delta + delta := by ring
          omega]
        rfl
      exact .cons_cons _ ((ih hrest).trans (List.drop_sublist _ _))

theorem EveryNth.length {α : Type} {delta N : Nat} (hd : 1 ≤ delta) {cs l : List α} (h : EveryNth delta l cs)
    (hl : l.length = N) : cs.length = (N + delta - 1) / delta := by
  have hiff : ∀ i, i < cs.length ↔ i < (N + delta - 1) / delta := by
    intro i
    have h1 : i < cs.length ↔ i * delta < N := by
      rw [← not_iff_not, not_lt, not_lt, ← List.getElem?_eq_none_iff, h i, List.getElem?_eq_none_iff, hl]
    rw [h1, ← Nat.succ_le_iff (m := i), Nat.le_div_iff_mul_le (by omega), Nat.succ_mul]
    omega
  exact Nat.le_antisymm (by by_contra hc; have := (hiff ((N + delta - 1) / delta)).mp (by omega); omega)
    (by by_contra hc; have := (hiff cs.length).mpr (by omega); omega)

theorem spaced_ok (g : Group) (hne : g.sizes ≠ []) (hpos : ∀ s ∈ g.sizes, 0 < s) {delta : Nat} (hd : 1 ≤ delta)
    (hsz : g.size = g.sizes.prod) : ∃ cs, spacedFrom g.size delta (g.size + 1) 0 (GroupRange.ofGroup g) = .ok cs ∧
      EveryNth delta (lex g.sizes) cs := by
  refine spacedFrom_enum g.sizes hne hpos hd _ 0 _ _ (enum_lex g.sizes hpos) ?_ ?_ ?_ (by omega)
  · intro c hc
    exact (mem_lex.mp hc).length_eq.symm
  · rw [lex_length, hsz]; rfl
  · rw [hsz]; exact prod_pos_nat hpos

/-! ### The training set -/

/-- The group of the observed variables. -/
theorem observed_group {obsOrder : List Var → List Var} (hobs : ∀ l, (obsOrder l).Perm l) {s : State F} (hs : Inv s)
    (hne : s.evidences ≠ []) : Group.ofSoup (obsOrder s.observedVariables) = .ok ⟨obsOrder s.obs, obsOrder s.obs⟩ ∧
      (obsOrder s.obs).map Var.size ≠ [] ∧ ∀ z ∈ (obsOrder s.obs).map Var.size, 0 < z := by
  have hmem : ∀ v ∈ obsOrder s.obs, v ∈ s.vars := fun v hv => hs.obsMem v ((hobs _).mem_iff.mp hv)
  have hn : obsOrder s.obs ≠ [] := by
    intro h
    have := (hobs s.obs).length_eq
    rw [h] at this
    have h2 : s.evidences.length = 0 := by
      rw [← List.length_map (as := s.evidences) (f := Prod.fst)]
      exact this.symm
    exact hne (List.length_eq_zero_iff.mp h2)
  refine ⟨?_, by simpa using hn, ?_⟩
  · rw [hs.toCore.observedVariables]
    refine Group.ofSoup_eq_ok.mpr ⟨hn, ?_, rfl⟩
    exact distinct_of_subset hs.net.distinct ((hobs _).nodup_iff.mpr hs.obsNodup) hmem
  · intro z hz
    obtain ⟨v, hv, rfl⟩ := List.mem_map.mp hz
    exact hs.posV v (hmem v hv)

theorem makeTrainSet_ok {ord visit obsOrder : List Var → List Var} (hord : ∀ l, (ord l).Perm l)
    (hvis : ∀ l, (visit l).Perm l) (hobs : ∀ l, (obsOrder l).Perm l) (fl : F → Option Nat) (rnd : Nat → Random F)
    (ctx : SampleContext) {n : Nat} (hn : 1 ≤ n) {s : State F} (hs : Inv s) (hp : s.pool.isSome) (hne : s.evidences ≠ [])
    (hsz : (obsOrder s.obs).map Var.size = (visit s.obs).map Var.size) {pct : F}
    (h1 : Arith.lt Arith.one pct = false) (h0 : Arith.lt pct Arith.zero = false) {cs : List (List Nat)}
    (hc : trainCombinations fl ⟨obsOrder s.obs, obsOrder s.obs⟩ pct = .ok cs)
    (hsub : ∀ c ∈ cs, Valid ((visit s.obs).map Var.size) c) :
    ∃ s' blocks, makeTrainSet ord visit obsOrder fl rnd ctx pct n s = .ok s' blocks.flatten ∧ Inv s' ∧ Locked s s' ∧
      List.Forall₂ (fun ev b => b.length = ctx.samples ∧
        ∀ c ∈ b, IsSample { s with evidences := (visit s.obs).zip ev } c) cs blocks := by
  obtain ⟨g1, g2, g3⟩ := observed_group hobs hs hne
  obtain ⟨s', bs, k1, k2⟩ := emplaceAll_ok hord hvis rnd ctx hn cs hs hp hsub
  refine ⟨s', bs, ?_, k2⟩
  unfold makeTrainSet
  rw [h1, h0]
  simp only [Bool.or_self, Bool.false_eq_true, if_false]
  rw [g1]
  simp only
  rw [hc]
  exact k1

end State
end EFG
