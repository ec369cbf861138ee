import Verif.Lemmas.XmlRead
/- The insertion of the factors which were read, in any order. -/

set_option linter.unusedSectionVars false

namespace EFG
namespace XmlIn
variable {F : Type} [Arith F]
open State
open JsonIn (Plan pl pl_inj PartJ mem_vars cumulated)

/-- What a factor is: constant (`none`), the first of a cluster (`some none`), or a further one, with the first. -/
abbrev Role := Nat → Option (Option Nat)

/-- How a factor is inserted. -/
def kindOf (G : Nat → VarSet) : Option (Option Nat) → ItemKind
  | none => .const
  | some none => .tunable none
  | some (some p) => .tunable (some (G p))

/-- What is put aside for a factor. -/
def asideOf (G : Nat → VarSet) (role : Role) (h0 : Heap F) (order : List Nat) (p : Nat) : Option (Nat × VarSet) :=
  (role p).join.map (fun p0 => (pl h0 order p, G p0))

/-- The further factors of clusters. -/
def isNext (role : Role) (p : Nat) : Bool := (role p).join.isSome

/-- The first factors of clusters. -/
def isFirst (role : Role) (p : Nat) : Bool := role p == some none

/-- The constant factors. -/
def isConst (role : Role) (p : Nat) : Bool := (role p).isNone

variable {s t : State F} {ρ : Var → Var} {mv : Nat → Fn F} {h0 : Heap F} {order made done : List Nat}
  {tx : FloatText F} {files : List Char → Option (List Char)} {o : ImportOrder} {vs : VarSet}

/-- The factors are read and inserted, or put aside. -/
theorem mixLoop (hs : Inv s) (hpl : Plan s ρ mv) (hnd : order.Nodup) (hsub : ∀ p ∈ order, p ∈ s.factors)
    {role : Role} {G : Nat → VarSet} {ps : List Nat} {ts : List Tag}
    (hts : List.Forall₂ (fun p t => potential tx files o vs t = .ok (mv p, kindOf G (role p))) ps ts)
    (hw : ∀ p ∈ ps, role p ≠ none → (mv p).weight.isSome) :
    ∀ {made done rest : List Nat} {pend : List (Nat × VarSet)} {t : State F}, PartJ mv h0 order made done t →
    order = made ++ (ps ++ rest) →
    ∃ t', potentials tx files o vs true ts pend t = .ok t' (pend ++ ps.filterMap (asideOf G role h0 order)) ∧
      PartJ mv h0 order (made ++ ps) (done ++ ps.filter (fun p => !isNext role p)) t' ∧
      t'.consts = t.consts ++ (ps.filter (isConst role)).map (pl h0 order) ∧
      t'.tunableClusters = t.tunableClusters ++ (ps.filter (isFirst role)).map (fun p => [pl h0 order p]) := by
  induction hts with
  | nil =>
    intro made done rest pend t h ho
    exact ⟨t, by simp [potentials], by simpa using h, by simp, by simp⟩
  | @cons p j ps ts hj _ ih =>
    intro made done rest pend t h ho
    have ho' : order = made ++ p :: (ps ++ rest) := by rw [ho]; simp
    obtain ⟨f, hf, hg, hr, _⟩ := hpl.fn p (hsub p (by rw [ho']; simp))
    have h1 := h.alloc ho' hr
    have hpd : p ∉ done := fun hm => notMem_of_nodup hnd ho' (h.sub p hm)
    have hw' : ∀ p ∈ ps, role p ≠ none → (mv p).weight.isSome := fun q hq => hw q (by simp [hq])
    have hplace := h.place ho' hnd
    have ho2 : order = (made ++ [p]) ++ (ps ++ rest) := by rw [ho']; simp
    cases hrole : role p with
    | none =>
      rw [hrole] at hj
      obtain ⟨t1, k1, k2, k3, k4, _⟩ := h1.addConst hs hpl hsub (p := p) (by simp) hpd
      obtain ⟨t2, m1, m2, m3, m4⟩ := ih hw' k2 (pend := pend) (rest := rest) ho2
      have hins : JsonIn.insert true pend (mv p, kindOf G none) t = .ok t1 pend := by
        unfold JsonIn.insert kindOf
        simp only
        rw [hplace, k1]
      have e1 : asideOf G role h0 order p = none := by simp [asideOf, hrole]
      have e2 : isNext role p = false := by simp [isNext, hrole]
      have e3 : isConst role p = true := by simp [isConst, hrole]
      have e4 : isFirst role p = false := by simp [isFirst, hrole]
      refine ⟨t2, ?_, ?_, ?_, ?_⟩
      · unfold potentials
        rw [hj]
        simp only
        rw [hins]
        simp only
        rw [m1, List.filterMap_cons, e1]
      · simpa [e2] using m2
      · rw [m3, k3]
        simp [e3, State.alloc]
      · rw [m4]
        simp only [List.filter_cons, e4]
        unfold tunableClusters
        rw [k4]
        rfl
    | some r =>
      have hsome := hw p (by simp) (by rw [hrole]; simp)
      rw [hrole] at hj
      cases r with
      | none =>
        obtain ⟨t1, k1, k2, k3, k4⟩ := h1.addFirst hs hpl hsub (p := p) (by simp) hpd hsome
        obtain ⟨t2, m1, m2, m3, m4⟩ := ih hw' k2 (pend := pend) (rest := rest) ho2
        have hins : JsonIn.insert true pend (mv p, kindOf G (some none)) t = .ok t1 pend := by
          unfold JsonIn.insert kindOf
          simp only [if_true]
          rw [hplace, k1]
        have e1 : asideOf G role h0 order p = none := by simp [asideOf, hrole]
        have e2 : isNext role p = false := by simp [isNext, hrole]
        have e3 : isConst role p = false := by simp [isConst, hrole]
        have e4 : isFirst role p = true := by simp [isFirst, hrole]
        refine ⟨t2, ?_, ?_, ?_, ?_⟩
        · unfold potentials
          rw [hj]
          simp only
          rw [hins]
          simp only
          rw [m1, List.filterMap_cons, e1]
        · simpa [e2] using m2
        · rw [m3, k4]
          simp [e3, State.alloc]
        · rw [m4, k3]
          simp [e4, State.alloc, tunableClusters]
      | some p0 =>
        obtain ⟨t2, m1, m2, m3, m4⟩ := ih hw' h1 (pend := pend ++ [(pl h0 order p, G p0)]) (rest := rest) ho2
        have hins : JsonIn.insert true pend (mv p, kindOf G (some (some p0))) t =
            .ok (State.alloc (mv p) t).1 (pend ++ [(pl h0 order p, G p0)]) := by
          unfold JsonIn.insert kindOf
          simp only [if_true]
          rw [hplace]
        have e1 : asideOf G role h0 order p = some (pl h0 order p, G p0) := by simp [asideOf, hrole]
        have e2 : isNext role p = true := by simp [isNext, hrole]
        have e3 : isConst role p = false := by simp [isConst, hrole]
        have e4 : isFirst role p = false := by simp [isFirst, hrole]
        refine ⟨t2, ?_, ?_, ?_, ?_⟩
        · unfold potentials
          rw [hj]
          simp only
          rw [hins]
          simp only
          rw [m1, List.filterMap_cons, e1]
          simp
        · simpa [e2] using m2
        · rw [m3]
          simp [e3, State.alloc]
        · rw [m4]
          simp [e4, State.alloc, tunableClusters]

/-- A model without tunable factors: all the factors become constant. -/
theorem constLoop (hs : Inv s) (hpl : Plan s ρ mv) (hnd : order.Nodup) (hsub : ∀ p ∈ order, p ∈ s.factors)
    {pend : List (Nat × VarSet)} {ps : List Nat} {ts : List Tag}
    (hts : List.Forall₂ (fun p t => ∃ k, potential tx files o vs t = .ok (mv p, k)) ps ts) :
    ∀ {made done rest : List Nat} {t : State F}, PartJ mv h0 order made done t → order = made ++ (ps ++ rest) →
    ∃ t', potentials tx files o vs false ts pend t = .ok t' pend ∧ PartJ mv h0 order (made ++ ps) (done ++ ps) t' ∧
      t'.consts = t.consts ++ ps.map (pl h0 order) ∧ t'.tuners = t.tuners := by
  induction hts with
  | nil =>
    intro made done rest t h ho
    exact ⟨t, rfl, by simpa using h, by simp, rfl⟩
  | @cons p j ps js hj _ ih =>
    intro made done rest t h ho
    obtain ⟨k, hk⟩ := hj
    have ho' : order = made ++ p :: (ps ++ rest) := by rw [ho]; simp
    obtain ⟨f, hf, hg, hr, _⟩ := hpl.fn p (hsub p (by rw [ho']; simp))
    have h1 := h.alloc ho' hr
    obtain ⟨t1, k1, k2, k3, k4, k5⟩ := h1.addConst hs hpl hsub (p := p) (by simp)
      (fun hm => notMem_of_nodup hnd ho' (h.sub p hm))
    obtain ⟨t2, m1, m2, m3, m4⟩ := ih k2 (rest := rest) (by rw [ho]; simp)
    refine ⟨t2, ?_, by simpa using m2, by rw [m3, k3]; simp [State.alloc], by rw [m4, k4]; rfl⟩
    unfold potentials
    rw [hk]
    simp only
    have : JsonIn.insert false pend (mv p, k) t = .ok t1 pend := by
      unfold JsonIn.insert
      simp only
      rw [h.place ho' hnd]
      cases k with
      | const => simp only; rw [k1]
      | tunable sh =>
        cases sh with
        | none => simp only [Bool.false_eq_true, if_false]; rw [k1]
        | some g => simp only [Bool.false_eq_true, if_false]; rw [k1]
    rw [this]
    exact m1

/-- The clusters with their first factors, when the factors `rests` were added. -/
def grown (role : Role) (firsts rests : List Nat) : List (List Nat) :=
  firsts.map (fun p0 => p0 :: rests.filter (fun q => role q == some (some p0)))

theorem grown_split {role : Role} {A B : List Nat} {p0 : Nat} (rests : List Nat) :
    grown role (A ++ p0 :: B) rests =
      grown role A rests ++ (p0 :: rests.filter (fun q => role q == some (some p0))) :: grown role B rests := by
  simp [grown]

theorem grown_other {role : Role} {A rests : List Nat} {q p0 : Nat} (hq : role q = some (some p0)) (hA : p0 ∉ A) :
    grown role A (rests ++ [q]) = grown role A rests := by
  unfold grown
  refine List.map_congr_left ?_
  intro p hp
  rw [List.filter_append, List.filter_cons_of_neg, List.filter_nil, List.append_nil]
  rw [hq]
  simp only [beq_iff_eq, Option.some.injEq]
  rintro rfl
  exact hA hp

/-- The factors which were put aside are added to their clusters, in any order. -/
theorem restsLoop (hs : Inv s) (hpl : Plan s ρ mv) (hsub : ∀ p ∈ order, p ∈ s.factors) {role : Role} {G : Nat → VarSet}
    {firsts : List Nat} (hfn : firsts.Nodup) (hfo : ∀ p ∈ firsts, p ∈ order)
    (hG : ∀ p ∈ firsts, G p = (mv p).vars.sorted) (ps : List Nat) :
    ∀ {done rests : List Nat} {t : State F}, PartJ mv h0 order order done t →
    t.tunableClusters = (grown role firsts rests).map (fun c => c.map (pl h0 order)) →
    (∀ q ∈ rests ++ ps, q ∈ order) → (done ++ ps.filter (isNext role)).Nodup →
    (∀ q ∈ ps, ∀ p0, role q = some (some p0) → p0 ∈ firsts) →
    (∀ p0 ∈ firsts, ∃ w, (mv p0).weight = some w ∧ ∀ q ∈ rests ++ ps, role q = some (some p0) → (mv q).weight = some w) →
    (∀ q ∈ ps, ∀ p0, role q = some (some p0) → ∀ p' ∈ order, ∀ d ∈ firsts, d ≠ p0 →
      (p' = d ∨ role p' = some (some d)) → ∀ f f', s.heap[p0]? = some f → s.heap[p']? = some f' →
        ¬ f'.vars.group.Perm f.vars.group) →
    ∃ t', cumulated (ps.filterMap (asideOf G role h0 order)) t = .ok t' () ∧
      PartJ mv h0 order order (done ++ ps.filter (isNext role)) t' ∧
      t'.tunableClusters = (grown role firsts (rests ++ ps.filter (isNext role))).map (fun c => c.map (pl h0 order)) ∧
      t'.consts = t.consts := by
  induction ps with
  | nil =>
    intro done rests t h hcl _ _ _ _ _
    exact ⟨t, rfl, by simpa using h, by simpa using hcl, rfl⟩
  | cons p ps ih =>
    intro done rests t h hcl hmem hdn hrole hws hun
    by_cases hnx : isNext role p = true
    · obtain ⟨p0, hp0⟩ : ∃ p0, role p = some (some p0) := by
        unfold isNext at hnx
        cases hr : role p with
        | none => rw [hr] at hnx; cases hnx
        | some r => cases r with
          | none => rw [hr] at hnx; cases hnx
          | some p0 => exact ⟨p0, rfl⟩
      have hp0f := hrole p (by simp) p0 hp0
      obtain ⟨A, B, rfl⟩ := List.append_of_mem hp0f
      have hA : p0 ∉ A := fun hm => (List.nodup_append.mp hfn).2.2 p0 hm p0 (by simp) rfl
      have hB : p0 ∉ B := by
        have := (List.nodup_append.mp hfn).2.1
        rw [List.nodup_cons] at this
        exact this.1
      have hdn' : (done ++ [p] ++ ps.filter (isNext role)).Nodup := by
        rw [List.filter_cons_of_pos hnx] at hdn
        simpa using hdn
      obtain ⟨w, hw1, hw2⟩ := hws p0 hp0f
      obtain ⟨f, hf, _⟩ := hpl.fn p0 (hsub p0 (hfo p0 hp0f))
      have hgm : ∀ d ∈ grown role (A ++ p0 :: B) rests, ∀ q ∈ d, q ∈ order := by
        intro d hd q hq
        obtain ⟨d0, hd0, rfl⟩ := List.mem_map.mp hd
        rcases List.mem_cons.mp hq with rfl | hq
        · exact hfo _ hd0
        · exact hmem q (by simp [(List.mem_filter.mp hq).1])
      rw [grown_split] at hcl hgm
      obtain ⟨t1, k1, k2, k3, k4⟩ := h.addNext hs hpl hsub hcl hgm hf (by
          intro d hd p' hp' f' hf'
          obtain ⟨d0, hd0, rfl⟩ := List.mem_map.mp hd
          have hne : d0 ≠ p0 := fun he => hA (he ▸ hd0)
          have hp'o : p' ∈ order := hgm _ (List.mem_append_left _ hd) p' hp'
          refine hun p (by simp) p0 hp0 p' hp'o d0 (by simp [hd0]) hne ?_ f f' hf hf'
          rcases List.mem_cons.mp hp' with rfl | hq
          · exact Or.inl rfl
          · exact Or.inr (by simpa using (List.mem_filter.mp hq).2)) (p := p) (hmem p (by simp))
          (fun hm => by
            rw [List.append_assoc] at hdn'
            exact (List.nodup_append.mp hdn').2.2 p hm p (by simp) rfl) (w := w) (by
          intro q hq
          rcases List.mem_cons.mp hq with rfl | hq
          · exact hw1
          · rcases List.mem_append.mp hq with hq | hq
            · obtain ⟨h3, h4⟩ := List.mem_filter.mp hq
              exact hw2 q (by simp [h3]) (by simpa using h4)
            · simp at hq
              subst hq
              exact hw2 q (by simp) hp0)
      have hcl' : t1.tunableClusters = (grown role (A ++ p0 :: B) (rests ++ [p])).map (fun c => c.map (pl h0 order)) := by
        rw [k3, grown_split, grown_other hp0 hA, grown_other hp0 hB, List.filter_append, List.filter_cons_of_pos (by simp [hp0])]
        rfl
      obtain ⟨t2, m1, m2, m3, m4⟩ := ih k2 hcl' (by simpa using hmem) hdn' (fun q hq => hrole q (by simp [hq]))
        (fun p1 hp1 => by
          obtain ⟨w, h3, h4⟩ := hws p1 hp1
          exact ⟨w, h3, fun q hq => h4 q (by simpa using hq)⟩) (fun q hq => hun q (by simp [hq]))
      have e1 : asideOf G role h0 order p = some (pl h0 order p, G p0) := by simp [asideOf, hp0]
      refine ⟨t2, ?_, by simpa [hnx] using m2, by simpa [hnx] using m3, by rw [m4, k4]⟩
      rw [List.filterMap_cons, e1]
      unfold cumulated at m1 ⊢
      simp only
      rw [forEach_cons]
      simp only
      rw [hG p0 hp0f, k1]
      exact m1
    · have hnone : (role p).join = none := by
        unfold isNext at hnx
        simpa using hnx
      have e1 : asideOf G role h0 order p = none := by simp [asideOf, hnone]
      rw [List.filter_cons_of_neg hnx] at hdn ⊢
      obtain ⟨t2, m1, m2, m3, m4⟩ := ih h hcl (fun q hq => hmem q (by
        rcases List.mem_append.mp hq with hq | hq
        · simp [hq]
        · simp [hq])) hdn (fun q hq => hrole q (by simp [hq]))
        (fun p1 hp1 => by
          obtain ⟨w, h3, h4⟩ := hws p1 hp1
          exact ⟨w, h3, fun q hq => h4 q (by
            rcases List.mem_append.mp hq with hq | hq
            · simp [hq]
            · simp [hq])⟩) (fun q hq => hun q (by simp [hq]))
      refine ⟨t2, ?_, m2, m3, m4⟩
      rw [List.filterMap_cons, e1]
      exact m1

end XmlIn
end EFG
