import Verif.Lemmas.CrfSafety
import Verif.Spec.CrfSafety
/-
Copies and conditional random fields are defined.
-/

set_option linter.unusedSectionVars false

namespace EFG
namespace State
variable {F : Type} [Arith F]

theorem start_grown {allowed : State F → GOp F → Prop} {s : State F} (h : Reach allowed s) :
    Grown False (Offered False s) (s.consts ++ s.tunableClusters.flatten) (State.initial s.heap) :=
  grown_initial (reach_built h) (reach_tuned h) (fun p hp => (reach_registered h).mem_iff.mpr (List.mem_append_left _ hp))
    (reach_inv h) nofun

theorem graphAbsorb_ne_ub {allowed : State F → GOp F → Prop} {s : State F} (h : Reach allowed s) {o : VisitOrder}
    (ho : o.Perms) (copy : Bool) : graphAbsorb o s copy (State.initial s.heap) ≠ .ub := by
  have hg : Grown False (fun _ _ => True) s.factors (State.initial s.heap) := by
    refine ⟨⟨?_, fun v => rfl⟩, .init (reach_built h)⟩
    intro p hp
    obtain ⟨f, h1, _⟩ := (reach_inv h).reg p hp
    exact ⟨f, h1, trivial⟩
  have hm : ∀ p ∈ o.factors s.factors, p ∈ s.factors := fun p hp => (ho.factors _).mem_iff.mp hp
  refine andThen_ne_ub (b := False) (P := fun _ _ => True) (ps := s.factors)
    (forEach_grows _ (fun p hp t h => swallow_grows (insertConst_grows h copy (hm p hp) nofun)) hg)
    (forEach_ne_ub _ (fun p hp t h => ⟨swallow_grows (insertConst_grows h copy (hm p hp) nofun),
      swallow_ne_ub (insertConst_ne_ub h copy (hm p hp))⟩) hg) ?_
  intro t ht
  exact absorbEvidences_ne_ub ho.vars _ (reach_inv ht.reach)

theorem fieldAbsorb_ne_ub {allowed : State F → GOp F → Prop} {s : State F} (h : Reach allowed s) {o : VisitOrder}
    (ho : o.Perms) (copy : Bool) : fieldAbsorb o s copy (State.initial s.heap) ≠ .ub :=
  andThen_ne_ub (absorbFactors_grows ho copy (start_grown h))
    (absorbFactors_ne_ub ho copy (reach_tuned h).weighted.ne' (start_grown h))
    (fun _ ht => absorbEvidences_ne_ub ho.vars _ (reach_inv ht.reach))

theorem make_ne_ub {allowed : State F → GOp F → Prop} {s : State F} (h : Reach allowed s) {o : VisitOrder}
    (ho : o.Perms) (copy : Bool) : Crf.make o s copy ≠ .ub := by
  unfold Crf.make
  have key : crfAbsorb o s copy (State.initial s.heap) ≠ .ub := by
    unfold crfAbsorb
    split
    · exact (nomatch ·)
    · have g1 := absorbFactors_grows (b := False) ho copy (start_grown h)
      have g2 := absorbFactors_ne_ub ho copy (reach_tuned h).weighted.ne' (start_grown h)
      unfold andThen
      cases hx : absorbFactors o s copy (State.initial s.heap) with
      | throw t => exact (nomatch ·)
      | ub => exact absurd hx g2
      | ok t u =>
        rw [hx] at g1
        simp only
        have g3 := absorbEvidencesByName_grows ho.vars (o.evidences s.evidences) g1
        have g4 := absorbEvidencesByName_ne_ub ho.vars (o.evidences s.evidences) (reach_inv g1.reach)
        cases hy : absorbEvidencesByName o.vars (o.evidences s.evidences) t with
        | throw t => exact (nomatch ·)
        | ub => exact absurd hy g4
        | ok t2 u2 =>
          rw [hy] at g3
          simp only
          rcases replaceTuners_cases (reach_inv g3.reach) (reach_tuned g3.reach) with ⟨ts, k1, _⟩ | ⟨k1, _⟩
          · rw [k1]; exact (nomatch ·)
          · rw [k1]; exact (nomatch ·)
  cases hx : crfAbsorb o s copy (State.initial s.heap) with
  | ok t u => exact (nomatch ·)
  | throw t => exact (nomatch ·)
  | ub => exact absurd hx key

/-- There is a position for each evidence. -/
theorem make_many {allowed : State F → GOp F → Prop} {s : State F} (h : Reach allowed s) {o : VisitOrder}
    (ho : o.Perms) {copy : Bool} {c : Crf F} (hm : Crf.make o s copy = .ok c) :
    c.state.evidences.length ≤ c.positions.length := by
  unfold Crf.make crfAbsorb at hm
  by_cases hev : s.evidences.isEmpty
  · rw [if_pos hev] at hm; cases hm
  rw [if_neg hev] at hm
  unfold andThen at hm
  have h1 := absorbFactors_grows ho copy (start_grown h)
  have h0 := absorbFactors_few (n := 0) ho copy (start_grown h) (Nat.le_refl 0)
  cases hx : absorbFactors o s copy (State.initial s.heap) with
  | throw t => rw [hx] at hm; cases hm
  | ub => rw [hx] at hm; cases hm
  | ok t1 u =>
    rw [hx] at hm h1 h0
    simp only at hm
    have h2 := absorbEvidencesByName_grows ho.vars (o.evidences s.evidences) h1
    cases hy : absorbEvidencesByName o.vars (o.evidences s.evidences) t1 with
    | throw t => rw [hy] at hm; cases hm
    | ub => rw [hy] at hm; cases hm
    | ok t2 u =>
      rw [hy] at hm h2
      simp only at hm
      have h3 := absorbEvidencesByName_count ho.vars (o.evidences s.evidences) (reach_inv h1.reach) hy
      have h4 : t1.evidences.length ≤ 0 := h0
      rw [(ho.evidences _).length_eq] at h3
      rcases replaceTuners_cases (reach_inv h2.reach) (reach_tuned h2.reach) with ⟨ts, k1, _⟩ | ⟨k1, _⟩
      · rw [k1] at hm
        cases hm
        show t2.evidences.length ≤ (s.findPositions (o.vars s.observedVariables)).length
        rw [(reach_inv h).toCore.observedVariables]
        unfold findPositions State.obs AMap.keys
        rw [List.length_map, (ho.vars _).length_eq, List.length_map]
        omega
      · rw [k1] at hm; cases hm

/-- The tuners of a conditional random field fit, and there is a position for each evidence. -/
theorem crf_equipped {allowed : State F → GOp F → Prop} {src : State F} (h : Reach allowed src) {o : VisitOrder}
    (ho : o.Perms) {copy : Bool} {c : Crf F} {permitted : State F → CrfOp F → Prop}
    (hc : CrfReach permitted src o copy c) : Equipped c.positions c.state := by
  obtain ⟨c0, h1, h2, h3, h4, h5⟩ := crf_reach h ho hc
  obtain ⟨t, k1, k2, k3, k4, _⟩ := make_reach ho (reach_inv h) (reach_built h) (reach_tuned h) (reach_registered h) h1
  have he : Equipped c0.positions c0.state := by
    refine ⟨k4, fun tn htn b hb => ?_, make_many h ho h1⟩
    have hm : tn.map BaseTuner.factor ∈ t.tunableClusters := by rw [← k3]; exact List.mem_map_of_mem htn
    have hw := (reach_tuned k1).weighted
    rw [k2]
    exact hw.reg _ (hw.mem' _ hm _ (List.mem_map_of_mem hb))
  rw [h5]
  exact he.locked h2 h4

/-! ### The executions -/

theorem Running.exec {s : State F} (hs : Running 1 s) {op : CrfOp F} {positions : List Nat} (hv : op.Valid s)
    (hth : op.threads ≠ some 0) (he : Equipped positions s) (hne : s.evidences ≠ []) :
    KeepsR 1 (op.exec positions) s ∧
      (op.Sensible s → (∀ p ∈ positions, p < s.vars.length) → op.exec positions s ≠ .ub) := by
  have hn : ∀ n, op.threads = some n → 1 ≤ n := by
    intro n hn
    rw [hn] at hth
    rcases Nat.eq_zero_or_pos n with h | h
    · subst h; exact absurd rfl hth
    · exact h
  cases op with
  | setEvidences ord visit values =>
    obtain ⟨h1, h2⟩ := hs.setEvidences hv.1 hv.2 values
    exact ⟨h1, fun _ _ => h2⟩
  | gradient ord visit sched samples n =>
    have he' : Equipped positions ({ s with pool := some n } : State F) := ⟨he.fits, he.reg, he.many⟩
    obtain ⟨h1, h2⟩ := (hs.light n).crfGradient (hn n rfl) hv.1 hv.2.1 hv.2.2 samples he'
    obtain ⟨h3, h4⟩ := hs.withPool (hn n rfl) h1
    exact ⟨keepsR_drop h3, fun hv hp => drop_ne_ub (h4 (h2 hv hp))⟩
  | trainSet ord visit obsOrder fl rnd ctx pct n =>
    obtain ⟨h1, h2⟩ := hs.makeTrainSet hv.1 hv.2.1 hv.2.2 fl rnd ctx pct (hn n rfl) hne
    refine ⟨keepsR_drop h1, fun hsen _ => drop_ne_ub (h2 (fun hr => ?_))⟩
    obtain ⟨g1, g2, g3⟩ := observed_group hv.2.2 hs.inv hne
    have hprod : ((obsOrder s.obs).map Var.size).prod = (s.evidences.map (fun e => e.1.size)).prod := by
      rw [((hv.2.2 s.obs).map Var.size).prod_eq]
      unfold State.obs AMap.keys
      rw [List.map_map]; rfl
    have hsize : Group.size ⟨obsOrder s.obs, obsOrder s.obs⟩ = (s.evidences.map (fun e => e.1.size)).prod := by
      rw [← hprod]; exact Group.size_eq _
    simp only [Bool.or_eq_false_iff] at hr
    rcases hsen with h | h | h | ⟨a, h3, h4, h5⟩
    · rw [hr.1] at h; cases h
    · rw [hr.2] at h; cases h
    · unfold trainCombinations
      rw [if_pos h]
      have : GroupRange.visit ((obsOrder s.obs).map Var.size) = _ := visit_eq _ g2 g3
      show GroupRange.visit ((obsOrder s.obs).map Var.size) ≠ _
      rw [this]; exact (nomatch ·)
    · unfold trainCombinations
      split
      · have : GroupRange.visit ((obsOrder s.obs).map Var.size) = _ := visit_eq _ g2 g3
        show GroupRange.visit ((obsOrder s.obs).map Var.size) ≠ _
        rw [this]; exact (nomatch ·)
      · rw [hsize, h3]
        simp only
        rw [if_neg (by omega)]
        have hd : 1 ≤ (s.evidences.map (fun e => e.1.size)).prod / a := (Nat.one_le_div_iff (by omega)).mpr h5
        obtain ⟨cs, k1, _⟩ := spaced_ok ⟨obsOrder s.obs, obsOrder s.obs⟩ g2 g3 hd (Group.size_eq _)
        rw [hsize] at k1
        rw [k1]; exact (nomatch ·)
  | shared op =>
    obtain ⟨hk, hv⟩ := hv
    refine ⟨?_, fun hsen _ => exec_ne_ub hs.healthy (fun h => by rw [hk] at h; cases h) hv hth hsen⟩
    have hpr : Prudent s op := by
      refine ⟨fun u w hu => ?_, hth, fun p f hp => ?_⟩
      · cases op <;> first | exact absurd hk Bool.false_ne_true | exact absurd hu id
      · cases op <;> first | exact absurd hk Bool.false_ne_true | exact absurd hp (nomatch ·)
    have hrm : op.RemovesMany = false := by cases op <;> first | exact absurd hk Bool.false_ne_true | rfl
    have h1 := exec_sound (b := False) ⟨hs.healthy, nofun⟩ hv hpr nofun nofun
    unfold KeepsR
    have e : CrfOp.exec positions (.shared op) s = op.exec s := rfl
    rw [e]
    cases hx : op.exec s with
    | ok s' _ => exact (h1.1 s' hx).healthy.running
    | throw s' => exact (h1.2 s' hrm hx).healthy.running
    | ub => trivial

/-- The invariant holds in every state of a conditional random field, if at least one thread is used. -/
theorem crf_running {src : State F} (h : Reach Prudent src) {o : VisitOrder} (ho : o.Perms) {copy : Bool} {c : Crf F}
    {permitted : State F → CrfOp F → Prop} (hth : ∀ s op, permitted s op → op.threads ≠ some 0)
    (hc : CrfReach permitted src o copy c) : Running 1 c.state := by
  induction hc with
  | @made c hm =>
    obtain ⟨t, h1, h2, h3, _⟩ := make_when (b := True) ho (reach_inv h) (reach_built h) (reach_tuned h)
      (fun p hp => (reach_registered h).mem_iff.mpr (List.mem_append_left _ hp)) (fun _ => (reach_healthy h).sizes) hm
    have hT := reach_healthy (reach_when (fun _ _ hw => hw.1 trivial) h1)
    rw [h3]
    refine ⟨hT.inv.registry t.consts t.tunables c.state.tuners, hT.sep, hT.sizes, hT.pool, fun hl => ?_⟩
    obtain ⟨a1, a2, a3⟩ := hT.alive hl
    exact ⟨a1, a2, a3⟩
  | @ok c _ _ hc hv hp he ih =>
    have := (ih.exec hv (hth _ _ hp) (crf_equipped h ho hc) (crf_observed h ho hc)).1
    unfold KeepsR at this
    rw [he] at this
    exact this
  | @throw c _ _ hc hv hp he ih =>
    have := (ih.exec hv (hth _ _ hp) (crf_equipped h ho hc) (crf_observed h ho hc)).1
    unfold KeepsR at this
    rw [he] at this
    exact this

end State
end EFG
