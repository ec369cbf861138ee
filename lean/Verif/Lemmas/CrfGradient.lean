import Verif.Lemmas.CrfReach
import Verif.Lemmas.Gradient
import Verif.Spec.CrfGradient
/-
The gradient of a conditional random field: the mean of the statistics of the samples less the mean of their
expectations given the observed part of each sample.
-/

set_option linter.unusedSectionVars false

namespace EFG
namespace State
variable {K : Type} [Field K] [LinearOrder K] [FloatParams K] [IsStrictOrderedRing K]

/-! ### Expectations of a variable joined to an observed one -/

theorem expectation_one {ω ρ : Assign → K} {l W : List Var} {v : Var} (hp : l.Perm (v :: W)) {e : Assign}
    (hρ : ∀ i < v.size, ∀ b : Assign, (∀ u, u ∉ W → b u = Function.update e v i u) → (∀ u ∈ W, b u < u.size) →
      ρ b = ρ (Function.update e v i)) :
    expectation l e ω ρ = ((List.range v.size).map (fun i => mass ω W e v i /
      ((List.range v.size).map (mass ω W e v)).sum * ρ (Function.update e v i))).sum := by
  have hZ : Tree.sumOver Var.size l ω e = ((List.range v.size).map (mass ω W e v)).sum := by
    rw [Tree.sumOver_perm hp, sum_range_list]
    rfl
  have hnum : Tree.sumOver Var.size (v :: W) (fun a => ω a * ρ a) e =
      ((List.range v.size).map (fun i => mass ω W e v i * ρ (Function.update e v i))).sum := by
    rw [sum_range_list]
    refine Finset.sum_congr rfl (fun i hi => ?_)
    have hi' := Finset.mem_range.mp hi
    unfold mass
    rw [mul_comm, ← Tree.sumOver_mul (c := fun _ => ρ (Function.update e v i)) (fun _ _ _ => rfl)]
    refine Tree.sumOver_congr_range (fun b h1 h2 => ?_)
    rw [hρ i hi' b h1 h2]
    exact mul_comm _ _
  unfold expectation
  rw [hZ, Tree.sumOver_perm hp, hnum, div_eq_mul_inv, mul_comm, ← List.sum_map_mul_left]
  congr 1
  refine List.map_congr_left (fun i _ => ?_)
  rw [div_eq_mul_inv]
  ring

theorem hiddenObservedFold_val {f : Fn (Ext K)} {comb : Nat → List Nat} {P R : Nat → K} (l : List Nat) :
    (∀ i ∈ l, f.findImage (comb i) = .ok (.val (R i))) → ∀ acc : K,
    Res.foldList (hiddenObservedStep f comb) (.val acc) (l.map (fun i => (.val (P i), i))) =
      .ok (.val (acc + (l.map (fun i => P i * R i)).sum)) := by
  induction l with
  | nil => intro _ acc; simp [Res.foldList]
  | cons i l ih =>
    intro h acc
    rw [List.map_cons, Res.foldList, hiddenObservedStep]
    rw [h i (by simp)]
    simp only [Ext.mul_val, Ext.add_val]
    rw [ih (fun j hj => h j (by simp [hj]))]
    simp [add_assoc]

theorem hiddenObservedBeta_val {ord : List Var → List Var} (hord : ∀ l, (ord l).Perm l) {s : State (Ext K)} (hH : Healthy s)
    (hF : Faithful s) {r : PropResult} (hlast : s.last = some r) (hk : r.kind = .sum) {φ : Nat → Assign → K}
    (hφ : s.Images φ) {v w : Var} (hv : s.Hidden v) (hwo : s.Observes w) (ht : s.TreeAt v)
    {f : Fn (Ext K)} (hg : f.vars.group = [v, w] ∨ f.vars.group = [w, v]) {ρ : Assign → K}
    (hρ : ∀ a, s.InRange a → f.findImage (f.vars.group.map a) = .ok (.val (ρ a))) {l : List Var} (hn : l.Nodup)
    (hl : ∀ w, w ∈ l ↔ s.Hidden w) {e : Assign} (he : s.Agrees e) (hpos : ∃ a, s.Agrees a ∧ s.readWeight φ a ≠ 0) :
    hiddenObservedBeta ord s f v w = .ok (.val (expectation l e (s.readWeight φ) ρ)) := by
  have hs := hH.inv.toCore
  have hvh := hidden_iff.mp hv
  have hvl := (hl v).mpr hv
  have hvw : v ≠ w := fun h => hv.2 (h ▸ hwo)
  set W := l.erase v with hWdef
  have hperm : l.Perm (v :: W) := List.perm_cons_erase hvl
  have hW : s.Others v W := by
    refine ⟨hn.erase v, fun w => ?_⟩
    rw [hWdef, hn.mem_erase_iff, hl]
    exact And.comm
  have hwW : w ∉ W := fun h => ((hW.2 w).mp h).1.2 hwo
  have hvW : v ∉ W := fun h => ((hW.2 v).mp h).2 rfl
  have hZ : 0 < Tree.sumOver Var.size l (s.readWeight φ) e := by
    have h := partition_pos hH [] hφ hl he (by simpa only [readWeightIn_nil] using hpos)
    rwa [show s.readWeightIn [] φ = s.readWeight φ from funext (readWeightIn_nil s φ)] at h
  have hZ' : Tree.sumOver Var.size l (s.readWeight φ) e =
      ((List.range v.size).map (mass (s.readWeight φ) W e v)).sum := by
    rw [Tree.sumOver_perm hperm, sum_range_list]
    rfl
  have hne : ∃ i < v.size, mass (s.readWeight φ) W e v i ≠ 0 := by
    by_contra hc
    push Not at hc
    rw [hZ', List.sum_eq_zero] at hZ
    · exact lt_irrefl _ hZ
    · intro x hx
      obtain ⟨i, hi, rfl⟩ := List.mem_map.mp hx
      exact hc i (by simpa using hi)
  obtain ⟨k, hk'⟩ := hwo
  have hfind : AMap.find? s.evidences w = some (e w) := by
    rw [he.2 w k hk']
    exact AMap.find?_of_mem hs.obsNodup hk'
  have hup : ∀ i < v.size, s.InRange (Function.update e v i) := fun i hi =>
    (Agrees.hidden (l := [v]) (by simpa using hv) he (fun u hu => Function.update_of_ne (by simpa using hu) _ _)
      (fun u hu => by
        rw [List.mem_singleton] at hu
        rw [hu, Function.update_self]; exact hi)).1
  unfold hiddenObservedBeta
  rw [belief_sum hord hH hF hlast hk hφ hvh ht hW he hne, hfind]
  simp only
  set Z := ((List.range v.size).map (mass (s.readWeight φ) W e v)).sum with hZdef
  have hz : ((distribution (s.readWeight φ) W e v).map Ext.val).zipIdx =
      (List.range v.size).map (fun i => (Ext.val (mass (s.readWeight φ) W e v i / Z), i)) := by
    unfold distribution
    apply List.ext_getElem
    · simp
    · intro i h1 h2
      simp [hZdef]
  have hcomb : ∀ i, (if f.vars.group.head? = some w then [e w, i] else [i, e w]) =
      f.vars.group.map (Function.update e v i) := by
    intro i
    rcases hg with h | h
    · rw [h]
      simp [hvw, Function.update_of_ne (Ne.symm hvw)]
    · rw [h]
      simp [Function.update_of_ne (Ne.symm hvw)]
  rw [hz, Ext.zero_eq, hiddenObservedFold_val (R := fun i => ρ (Function.update e v i)) _ (by
    intro i hi
    rw [hcomb]
    exact hρ _ (hup i (by simpa using hi)))]
  rw [zero_add]
  congr 2
  refine (expectation_one hperm (fun i hi b h1 h2 => ?_)).symm
  have hb := (hW.agrees hvh he hi h1 h2).1
  have e1 := hρ b hb
  rw [show f.vars.group.map b = f.vars.group.map (Function.update e v i) from by
    rcases hg with h | h <;> rw [h] <;> simp [h1 v hvW, h1 w hwW], hρ _ (hup i hi)] at e1
  exact (Ext.val.inj (Res.ok.inj e1)).symm

/-! ### The evidences of a sample -/

/-- The stored positions are those of the observed variables, in the order in which these are visited. -/
theorem sampleEvidences_val {s : State (Ext K)} {positions comb : List Nat} (hc : comb.length = s.vars.length) :
    ∀ (vs : List Var) (k : Nat), (∀ i v, vs[i]? = some v → positions[k + i]? = some (s.vars.idxOf v)) →
    (∀ v ∈ vs, v ∈ s.vars) →
    sampleEvidences positions comb vs k = .ok (vs.map (fun v => (v, s.sampleAt comb v))) := by
  intro vs
  induction vs with
  | nil => intro k _ _; rfl
  | cons v vs ih =>
    intro k hp hv
    have h1 := hp 0 v rfl
    rw [Nat.add_zero] at h1
    have hlt : s.vars.idxOf v < comb.length := by rw [hc]; exact List.idxOf_lt_length_iff.mpr (hv v (by simp))
    rw [sampleEvidences, h1]
    simp only
    rw [List.getElem?_eq_getElem hlt]
    simp only
    rw [ih (k + 1) (fun i w hw => by
      have := hp (i + 1) w (by simpa using hw)
      rw [show k + 1 + i = k + (i + 1) by omega]; exact this) (fun w hw => hv w (by simp [hw]))]
    simp only [List.map_cons]
    unfold sampleAt
    rw [List.getElem?_eq_getElem hlt]
    rfl

/-! ### One sample -/

/-- What does not depend on the values of the evidences. -/
theorem Frame.same {s t : State (Ext K)} (hf : Frame s t) (ho : t.obs = s.obs) :
    (∀ v, t.Observes v ↔ s.Observes v) ∧ (∀ v, t.Hidden v ↔ s.Hidden v) ∧
    (∀ (G : List Var) (φ : Nat → Assign → K), t.readWeightIn G φ = s.readWeightIn G φ) ∧
    (∀ v, s.TreeAt v → t.TreeAt v) ∧ (∀ φ : Nat → Assign → K, s.Images φ → t.Images φ) ∧
    (∀ ρ : Nat → Assign → K, s.RawImages ρ → t.RawImages ρ) ∧ (∀ b, s.TunerFits b → t.TunerFits b) := by
  have hO : ∀ v, t.Observes v ↔ s.Observes v := fun v => by rw [observes_iff, observes_iff, ho]
  have hH : ∀ v, t.Hidden v ↔ s.Hidden v := fun v => by unfold Hidden; rw [hO, hf.vars]
  have hJ : ∀ u v, t.Joins u v ↔ s.Joins u v := by
    intro u v
    simp only [Joins, FactorOn, hf.heap, hf.factors]
  have hG : t.hiddenGraph = s.hiddenGraph := by
    ext u v
    simp only [hiddenGraph, hH, hJ]
  refine ⟨hO, hH, ?_, ?_, ?_, ?_, ?_⟩
  · intro G φ
    have hHf : t.Hidden = s.Hidden := funext (fun v => propext (hH v))
    funext a
    unfold readWeightIn readAtIn
    rw [hHf, hf.factors, hf.heap]
  · intro v h
    unfold TreeAt Linked at *
    rw [hG]
    simp only [hH, hJ]
    exact h
  · intro φ h
    unfold Images InRange at *
    rw [hf.factors, hf.vars, hf.heap]
    exact h
  · intro ρ h
    unfold RawImages InRange at *
    rw [hf.tunables, hf.vars, hf.heap]
    exact h
  · intro b h
    unfold TunerFits at *
    rw [hf.heap, hf.vars]
    simp only [hH, hO]
    exact h

/-- The belief is propagated again after all the evidences are set: nothing is stale. -/
theorem Renewed.propagate {R : Var → Prop} {n : Nat} (hn : 1 ≤ n) {ord : List Var → List Var}
    (hord : ∀ l, (ord l).Perm l) {sched : Sched} (hsched : ∀ l, (sched l).Perm l) {s : State (Ext K)} (hs : Renewed R s)
    (hR : ∀ v ∈ s.obs, R v) (hp : s.pool = some n) (hl : s.last = none) :
    ∃ s2 r, propagateBelief ord sched .sum s = .ok s2 () ∧ Asked s s2 ∧ s2.pool = some n ∧ Sound True s2.resetPool ∧
      s2.last = some r ∧ r.kind = .sum := by
  have hw : s.wouldNeedPropagation .sum = true := by unfold wouldNeedPropagation; rw [hl]
  obtain ⟨s2, r, h1, h2, h3, h4, h5, h6, h7, _⟩ := propagateBelief_ok hord .sum hsched hs.inv hs.flow hn hp hw
  have ha1 : Asked s2 s2.resetPool := Asked.light rfl rfl rfl rfl rfl rfl rfl rfl rfl rfl
  have hall := h2.trans ha1
  have hr := hs.asked hall
  have hset : Settled s2.resetPool r := by
    refine ⟨h6.typed, h6.len, ?_⟩
    intro j hj
    obtain ⟨c, g1, g2, g3⟩ := h6.done j hj
    exact ⟨c, g1, g2, g3.keep ha1.toQuiet (fun _ _ => rfl) (fun _ _ _ => rfl)⟩
  have hdis : ∀ u w, u ∉ s2.resetPool.obs → (s2.resetPool.dis u w).isSome → R w := by
    intro u w hu hd
    rcases hr.inv.toCore.disObs u w hd with h | h
    · exact absurd h hu
    · rw [hall.toQuiet.obs] at h
      exact hR w h
  refine ⟨s2, r, h1, h2, h7.trans hp, ⟨⟨hr.inv, hr.sep, hr.sizes, rfl, fun _ => (hset.fresh hr.inv).alive hr.inv⟩,
    fun _ => ⟨?_, ?_, ?_⟩⟩, h4, h5⟩
  · intro v hv ho
    exact hr.coh v hv ho (fun w hd => hdis v w ho hd)
  · intro u v c k hu hd hk
    exact hr.evid u v c k (hdis u v hu (by rw [hd]; rfl)) hu hd hk
  · intro r' hr'
    have : s2.last = some r' := hr'
    rw [h4] at this
    cases this
    exact hset.fresh hr.inv

/-- The tuners are those of tunable factors. -/
structure Fitted (s : State (Ext K)) : Prop where
  fits : ∀ t ∈ s.tuners, ∀ b ∈ t, s.TunerFits b
  tunable : ∀ t ∈ s.tuners, ∀ b ∈ t, b.factor ∈ s.tunables
  factor : ∀ p ∈ s.tunables, p ∈ s.factors

theorem Fitted.same {s t : State (Ext K)} (h : Fitted s) (hf : Frame s t) (ho : t.obs = s.obs) : Fitted t := by
  obtain ⟨_, _, _, _, _, _, h7⟩ := hf.same ho
  refine ⟨?_, ?_, ?_⟩
  · rw [hf.tuners]; exact fun t ht b hb => h7 b (h.fits t ht b hb)
  · rw [hf.tuners, hf.tunables]; exact h.tunable
  · rw [hf.tunables, hf.factors]; exact h.factor

theorem betaStep_val {ord visit : List Var → List Var} (hord : ∀ l, (ord l).Perm l) (hvis : ∀ l, (visit l).Perm l)
    {sched : Sched} (hsched : ∀ l, (sched l).Perm l) {n : Nat} (hn : 1 ≤ n) {s : State (Ext K)} (hs : Half n s)
    (hfit : Fitted s) (hobs : s.obs ≠ []) {positions : List Nat} (hal : s.Aligned visit positions) {c : List Nat}
    (hv : Valid (s.vars.map Var.size) c) {φ ρ : Nat → Assign → K} (hφ : s.Images φ) (hρ : s.RawImages ρ)
    (htree : ∀ v, s.Hidden v → s.TreeAt v)
    (hread : s.PossibleBy (s.readWeight φ) c)
    (hpos : ∀ p ∈ s.tunables, s.PossibleBy (s.readWeightIn (s.groupOf p) φ) c) {l : List Var} (hln : l.Nodup)
    (hl : ∀ w, w ∈ l ↔ s.Hidden w) (coeff : K) (betas : List (Ext K)) :
    ∃ s2, betaStep ord visit sched positions (.val coeff) betas c s = .ok s2
        ((betas.zip (s.tuners.map (fun t => Ext.val (s.readStatistic φ ρ l
          (t.map BaseTuner.factor) (s.sampleAt c))))).map (fun e => Arith.add e.1 (Arith.mul (.val coeff) e.2))) ∧
      Half n s2 ∧ Frame s s2 ∧ s2.obs = s.obs := by
  have hc := hs.renewed.inv.toCore
  have hnd : s.vars.Nodup := hc.net.distinct.nodup
  have hlen : c.length = s.vars.length := by
    have := hv.length_eq
    rw [List.length_map] at this
    exact this.symm
  have hvo : ∀ v, v ∈ visit s.obs ↔ v ∈ s.obs := fun v => (hvis s.obs).mem_iff
  have hse := sampleEvidences_val (s := s) (positions := positions) hlen (visit s.obs) 0
    (fun i v h => by rw [Nat.zero_add]; exact hal i v h) (fun v h => hc.obsMem v ((hvo v).mp h))
  have hrng := sampleAt_inRange hnd hv
  set es := (visit s.obs).map (fun v => (v, s.sampleAt c v)) with hes
  have hkeys : AMap.keys es = visit s.obs := by
    rw [hes]
    unfold AMap.keys
    rw [List.map_map]
    exact List.map_id _
  obtain ⟨s1, k1, k2, k3, k4, k5, k6, k7, k8⟩ := forEach_renews hord es hs.renewed
    (by rw [hkeys]; exact (hvis _).nodup_iff.mpr hc.obsNodup) (by
      intro e he
      rw [hes] at he
      obtain ⟨v, h1, rfl⟩ := List.mem_map.mp he
      exact ⟨(hvo v).mp h1, hrng v (hc.obsMem v ((hvo v).mp h1))⟩)
  have hlast : s1.last = none := by
    refine k6.resolve_right (fun h => hobs ?_)
    have h1 : visit s.obs = [] := by rw [← hkeys, h]; rfl
    exact List.eq_nil_iff_forall_not_mem.mpr (fun v hv => by
      have := (hvo v).mpr hv
      rw [h1] at this; cases this)
  obtain ⟨s2, r, p1, p2, p3, p4, p5, p6⟩ := k2.propagate hn hord hsched
    (fun v hv => Or.inr (by rw [hkeys, hvo, ← k4]; exact hv)) (k5.trans hs.pool) hlast
  have hf2 : Frame s s2 := k3.trans p2.toQuiet.toFrame
  have ho2 : s2.obs = s.obs := (p2.toQuiet.obs).trans k4
  have hev : ∀ v ∈ s.obs, AMap.find? s2.evidences v = some (s.sampleAt c v) := by
    intro v hv'
    rw [p2.toQuiet.evidences, k8]
    have hm : (v, s.sampleAt c v) ∈ es := List.mem_map.mpr ⟨v, (hvo v).mpr hv', rfl⟩
    rw [AMap.find?_of_mem (by rw [hkeys]; exact (hvis _).nodup_iff.mpr hc.obsNodup) hm]
    rfl
  refine ⟨s2, ?_, ⟨(k2.asked p2).mono nofun, p3⟩, hf2, ho2⟩
  have hfr : Frame s s2.resetPool := ⟨hf2.heap, hf2.vars, hf2.keys, hf2.factors, hf2.consts, hf2.maxIter, hf2.tunables,
    hf2.tuners, hf2.una⟩
  have hor : s2.resetPool.obs = s.obs := ho2
  obtain ⟨b1, b2, b3, b4, b5, b6, b7⟩ := hfr.same hor
  have hH := p4.healthy
  have hF := p4.faithful trivial
  have hcc := hH.inv.toCore
  have hfit2 := hfit.same hfr hor
  have hr : ∀ a, s2.resetPool.InRange a ↔ s.InRange a := fun a => by unfold InRange; rw [hfr.vars]
  have hag : ∀ a, s2.resetPool.Agrees a ↔ s.InRange a ∧ ∀ v, s.Observes v → a v = s.sampleAt c v := by
    intro a
    unfold Agrees
    rw [hr]
    refine and_congr_right (fun _ => ⟨fun h v hv' => ?_, fun h v k hk => ?_⟩)
    · exact h v _ (AMap.find?_mem (hev v (observes_iff.mp hv')))
    · have h1 : v ∈ s.obs := by rw [← hor]; exact List.mem_map_of_mem (f := Prod.fst) hk
      rw [h v (observes_iff.mpr h1)]
      have h2 := AMap.find?_of_mem hcc.obsNodup hk
      have h3 : AMap.find? s2.resetPool.evidences v = some (s.sampleAt c v) := hev v h1
      rw [h3] at h2
      exact Option.some.inj h2
  have hw0 : s2.resetPool.readWeight φ = s.readWeight φ := by
    funext a
    rw [← readWeightIn_nil, ← readWeightIn_nil, b3]
  have he : s2.resetPool.Agrees (s.sampleAt c) := (hag _).mpr ⟨hrng, fun _ _ => rfl⟩
  have hread2 : ∃ a, s2.resetPool.Agrees a ∧ s2.resetPool.readWeight φ a ≠ 0 := by
    obtain ⟨a, h1, h2, h3⟩ := hread
    exact ⟨a, (hag a).mpr ⟨h1, h2⟩, by rw [hw0]; exact h3⟩
  have hl2 : ∀ w, w ∈ l ↔ s2.resetPool.Hidden w := fun w => (hl w).trans (b2 w).symm
  have hbeta : ∀ t ∈ s2.tuners, ∀ b ∈ t, s2.baseBeta ord b =
      .ok (.val (expectation l (s.sampleAt c) (s.readWeightIn (s.groupOf b.factor) φ) (ρ b.factor))) := by
    intro t htm b hb
    have htun := hfit2.tunable t htm b hb
    obtain ⟨f, f1, _, f3⟩ := hfit2.fits t htm b hb
    have hraw : ∀ a, s2.resetPool.InRange a → f.findImage (f.vars.group.map a) = .ok (.val (ρ b.factor a)) := by
      intro a ha
      obtain ⟨f', g1, g2⟩ := b6 ρ hρ b.factor htun a ha
      rw [f1] at g1
      cases g1
      exact g2
    have hT : ∀ v, s2.resetPool.Hidden v → s2.resetPool.TreeAt v := fun v hv' => b4 v (htree v ((b2 v).mp hv'))
    have hgrp : s.groupOf b.factor = f.vars.group := by
      unfold groupOf
      rw [← hfr.heap, f1]
    show s2.resetPool.baseBeta ord b = _
    unfold baseBeta
    rw [deref_eq f1, ← b3, hgrp]
    simp only
    rcases f3 with ⟨v, f5, f6, f7⟩ | ⟨u, v, f5, f6, f7, f8⟩ | ⟨u, v, f5, f6, f7, f8⟩
    · rw [f7, f5, readWeightIn_single hcc (G := [v]) (by simp)]
      exact unaryBeta_val hord hH hF p5 p6 (b5 φ hφ) f6 (hT v f6) (hcc.heapWF f (List.mem_of_getElem? f1)) f5
        hraw hln hl2 he hread2
    · rw [f8, f5]
      exact binaryBeta_val hord hH hF p5 p6 (b5 φ hφ) f6 f7 (hT u f6) (hT v f7) (hfit2.factor _ htun) f1 f5
        hraw hln hl2 he hread2 (by
          obtain ⟨a, h1, h2, h3⟩ := hpos b.factor (by rw [← hfr.tunables]; exact htun)
          rw [hgrp, f5, ← b3] at h3
          exact ⟨a, (hag a).mpr ⟨h1, h2⟩, h3⟩)
    · rw [f8, readWeightIn_single hcc (G := f.vars.group) (by
        intro x hx y hy' hxh hyh
        have : ∀ z ∈ f.vars.group, z = u ∨ z = v := by
          rcases f5 with h | h <;> rw [h] <;> simp [or_comm]
        rcases this x hx with rfl | rfl
        · rcases this y hy' with rfl | rfl
          · rfl
          · exact absurd f7 hyh.2
        · exact absurd f7 hxh.2)]
      exact hiddenObservedBeta_val hord hH hF p5 p6 (b5 φ hφ) f6 f7 (hT u f6) f5 hraw hln hl2 he hread2
  have hsum : ∀ t ∈ s2.tuners, tunerSum (s2.baseBeta ord) t = .ok (.val (s.readStatistic φ ρ l
      (t.map BaseTuner.factor) (s.sampleAt c))) := by
    intro t htm
    rw [tunerSum_val (hbeta t htm)]
    unfold readStatistic
    rw [List.map_map]
    rfl
  unfold betaStep
  have hse' : sampleEvidences positions c (visit (AMap.keys s.evidences)) 0 = .ok es := hse
  rw [hse']
  simp only
  rw [k1]
  simp only
  rw [p1]
  simp only
  rw [Res.mapList_ok hsum]
  simp only
  rw [hf2.tuners]

/-! ### The visit of the samples -/

theorem betaLoop_val {ord visit : List Var → List Var} (hord : ∀ l, (ord l).Perm l) (hvis : ∀ l, (visit l).Perm l)
    {sched : Sched} (hsched : ∀ l, (sched l).Perm l) {n : Nat} (hn : 1 ≤ n) {s : State (Ext K)}
    (hfit : Fitted s) (hobs : s.obs ≠ []) {positions : List Nat} (hal : s.Aligned visit positions)
    {φ ρ : Nat → Assign → K} (hφ : s.Images φ) (hρ : s.RawImages ρ)
    (htree : ∀ v, s.Hidden v → s.TreeAt v) {l : List Var} (hln : l.Nodup)
    (hl : ∀ w, w ∈ l ↔ s.Hidden w) (coeff : K) :
    ∀ (cs : List (List Nat)) (B : List BaseTuner → K) {t : State (Ext K)}, Half n t → Frame s t → t.obs = s.obs →
    (∀ c ∈ cs, Valid (s.vars.map Var.size) c) → (∀ c ∈ cs, s.PossibleBy (s.readWeight φ) c) →
    (∀ c ∈ cs, ∀ p ∈ s.tunables, s.PossibleBy (s.readWeightIn (s.groupOf p) φ) c) →
    ∃ t', betaLoop ord visit sched positions (.val coeff) (s.tuners.map (fun b => Ext.val (B b))) cs t = .ok t'
        (s.tuners.map (fun b => Ext.val (B b + (cs.map (fun c => coeff * s.readStatistic φ ρ l
          (b.map BaseTuner.factor) (s.sampleAt c))).sum))) ∧
      Half n t' ∧ Frame s t' ∧ t'.obs = s.obs := by
  intro cs
  induction cs with
  | nil =>
    intro B t ht hf ho _ _ _
    exact ⟨t, by simp [betaLoop], ht, hf, ho⟩
  | cons c cs ih =>
    intro B t ht hf ho hv hread hpos
    obtain ⟨b1, b2, b3, b4, b5, b6, b7⟩ := hf.same ho
    have hw0 : t.readWeight φ = s.readWeight φ := by
      funext a
      rw [← readWeightIn_nil, ← readWeightIn_nil, b3]
    have hgr : ∀ p, t.groupOf p = s.groupOf p := fun p => by unfold groupOf; rw [hf.heap]
    have hsa : ∀ c, t.sampleAt c = s.sampleAt c := fun c => by unfold sampleAt; rw [hf.vars]
    have hal' : t.Aligned visit positions := by
      intro i v hi
      rw [hf.vars]
      refine hal i v ?_
      have ho' : t.evidences.map Prod.fst = s.evidences.map Prod.fst := ho
      rw [← ho']; exact hi
    have hby : ∀ ω, s.PossibleBy ω c → t.PossibleBy ω c := by
      rintro ω ⟨a, h1, h2, h3⟩
      refine ⟨a, ?_, fun v hv' => ?_, h3⟩
      · unfold InRange at h1 ⊢; rw [hf.vars]; exact h1
      · rw [hsa]; exact h2 v ((b1 v).mp hv')
    have hst : ∀ ps a, t.readStatistic φ ρ l ps a = s.readStatistic φ ρ l ps a := by
      intro ps a
      unfold readStatistic
      simp only [hgr, b3]
    obtain ⟨t1, e1, e2, e3, e4⟩ := betaStep_val hord hvis hsched hn ht (hfit.same hf ho) (by rw [ho]; exact hobs) hal'
      (by rw [hf.vars]; exact hv c (by simp)) (b5 φ hφ) (b6 ρ hρ) (fun v hv' => b4 v (htree v ((b2 v).mp hv')))
      (by rw [hw0]; exact hby _ (hread c (by simp)))
      (by rw [hf.tunables]; intro p hp; rw [hgr, b3]; exact hby _ (hpos c (by simp) p hp)) hln (fun w => (hl w).trans (b2 w).symm) coeff (s.tuners.map (fun b => Ext.val (B b)))
    obtain ⟨t', i1, i2, i3, i4⟩ := ih (fun b => B b + coeff * s.readStatistic φ ρ l
      (b.map BaseTuner.factor) (s.sampleAt c)) e2 (hf.trans e3) (e4.trans ho) (fun d hd => hv d (by simp [hd]))
      (fun d hd => hread d (by simp [hd])) (fun d hd => hpos d (by simp [hd]))
    refine ⟨t', ?_, i2, i3, i4⟩
    rw [betaLoop, e1]
    simp only
    have hz : ((s.tuners.map (fun b => Ext.val (B b))).zip (t.tuners.map (fun b => Ext.val (t.readStatistic φ ρ l
        (b.map BaseTuner.factor) (t.sampleAt c))))).map
        (fun e => Arith.add e.1 (Arith.mul (Ext.val coeff) e.2)) =
        s.tuners.map (fun b => Ext.val (B b + coeff * s.readStatistic φ ρ l
          (b.map BaseTuner.factor) (s.sampleAt c))) := by
      simp only [hst]
      rw [hf.tuners, hsa, List.zip_map', List.map_map]
      refine List.map_congr_left (fun b _ => ?_)
      simp only [Function.comp, Ext.mul_val, Ext.add_val]
    rw [hz, i1]
    congr 1
    refine List.map_congr_left (fun b _ => ?_)
    simp [add_assoc]

/-- The gradient of a conditional random field. -/
theorem crfGradient_read {ord visit : List Var → List Var} (hord : ∀ l, (ord l).Perm l) (hvis : ∀ l, (visit l).Perm l)
    {sched : Sched} (hsched : ∀ l, (sched l).Perm l) {n : Nat} (hn : 1 ≤ n) {s : State (Ext K)} (hs : Half 1 s)
    (hfit : Fitted s) (hobs : s.obs ≠ []) {positions : List Nat} (hal : s.Aligned visit positions)
    {samples : List (List Nat)} (hne : samples ≠ []) (hv : ∀ c ∈ samples, Valid (s.vars.map Var.size) c)
    {φ ρ : Nat → Assign → K} (hφ : s.Images φ) (hρ : s.RawImages ρ)
    (htree : ∀ v, s.Hidden v → s.TreeAt v)
    (hread : ∀ c ∈ samples, s.PossibleBy (s.readWeight φ) c)
    (hpos : ∀ c ∈ samples, ∀ p ∈ s.tunables, s.PossibleBy (s.readWeightIn (s.groupOf p) φ) c) {l : List Var}
    (hln : l.Nodup) (hl : ∀ w, w ∈ l ↔ s.Hidden w) :
    ∃ s', getCrfGradient ord visit sched positions samples n s = .ok s' (s.tunableClusters.map (fun c =>
      .val (s.sampleMean samples (statistic ρ c) -
        s.sampleMean samples (s.readStatistic φ ρ l c)))) := by
  have h0 : setPoolSize n s = .ok { s with pool := some n } () := by
    unfold setPoolSize
    rw [hs.pool]
    simp only
    by_cases h1 : n = 1
    · subst h1
      rw [if_pos rfl]
      have hp := hs.pool
      cases s
      simp only at hp
      rw [hp]
    · rw [if_neg h1, if_neg (by omega)]
  have hlen : ((samples.length : Nat) : K) ≠ 0 := by simpa using hne
  set t : State (Ext K) := { s with pool := some n } with ht
  have hst : Frame s t := ⟨rfl, rfl, rfl, rfl, rfl, rfl, rfl, rfl, fun _ => rfl⟩
  have hnd : s.vars.Nodup := hs.renewed.inv.toCore.net.distinct.nodup
  have halpha : ∀ b ∈ t.tuners, tunerSum (t.baseAlpha samples) b =
      .ok (.val (s.sampleMean samples (statistic ρ (b.map BaseTuner.factor)))) := by
    intro b hb
    rw [← sampleMean_statistic]
    refine tunerSum_val (fun x hx => ?_)
    have htun := hfit.tunable b hb x hx
    obtain ⟨f, f1, f2, f3⟩ := hfit.fits b hb x hx
    exact alpha_fits (s := s) hnd hρ hv hne htun f1 (hs.renewed.inv.toCore.group_sub (hfit.factor _ htun) f1) f2
  obtain ⟨t', e1, e2, _⟩ := betaLoop_val hord hvis hsched hn hfit hobs hal hφ hρ htree hln hl
    (1 / (samples.length : K)) samples (fun _ => 0) (hs.light n) hst rfl hv hread hpos
  refine ⟨t'.resetPool, ?_⟩
  unfold getCrfGradient withPool
  rw [h0]
  simp only
  unfold crfGradient
  rw [Res.mapList_ok halpha]
  simp only
  have hcoef : Arith.div Arith.one (Arith.ofNat samples.length) = Ext.val (1 / (samples.length : K)) := by
    rw [Ext.one_eq, Ext.ofNat_eq, Ext.div_val_ne hlen]
  have hzero : t.tuners.map (fun _ => (Arith.zero : Ext K)) = s.tuners.map (fun _ => Ext.val (0 : K)) := rfl
  rw [hcoef, hzero, e1]
  simp only
  congr 1
  rw [show t.tuners = s.tuners from rfl, List.zip_map', List.map_map]
  unfold tunableClusters
  rw [List.map_map]
  refine List.map_congr_left (fun b _ => ?_)
  simp only [Function.comp, Ext.sub_val, zero_add]
  congr 2
  conv_rhs => unfold sampleMean
  rw [List.sum_map_mul_left, div_mul_eq_mul_div, one_mul]

/-- The gradient of a conditional random field with symmetric factors. -/
theorem crfGradient_val {ord visit : List Var → List Var} (hord : ∀ l, (ord l).Perm l) (hvis : ∀ l, (visit l).Perm l)
    {sched : Sched} (hsched : ∀ l, (sched l).Perm l) {n : Nat} (hn : 1 ≤ n) {s : State (Ext K)} (hs : Half 1 s)
    (hfit : Fitted s) (hobs : s.obs ≠ []) {positions : List Nat} (hal : s.Aligned visit positions)
    {samples : List (List Nat)} (hne : samples ≠ []) (hv : ∀ c ∈ samples, Valid (s.vars.map Var.size) c)
    {φ ρ : Nat → Assign → K} (hφ : s.Images φ) (hρ : s.RawImages ρ)
    (hy : s.Symmetric φ) (htree : ∀ v, s.Hidden v → s.TreeAt v) (hpos : ∀ c ∈ samples, s.Possible φ c) {l : List Var}
    (hln : l.Nodup) (hl : ∀ w, w ∈ l ↔ s.Hidden w) :
    ∃ s', getCrfGradient ord visit sched positions samples n s = .ok s' (s.tunableClusters.map (fun c =>
      .val (s.sampleMean samples (statistic ρ c) -
        s.sampleMean samples (fun a => expectation l a (s.weight φ) (statistic ρ c))))) := by
  have hnd : s.vars.Nodup := hs.renewed.inv.toCore.net.distinct.nodup
  have hw : ∀ G a, s.InRange a → s.readWeightIn G φ a = s.weight φ a := fun G a ha => readWeightIn_symmetric G hy ha
  have hby : ∀ G, ∀ c ∈ samples, s.PossibleBy (s.readWeightIn G φ) c := by
    intro G c hc
    obtain ⟨a, h1, h2, h3⟩ := hpos c hc
    exact ⟨a, h1, h2, by rw [hw G a h1]; exact h3⟩
  obtain ⟨s', h⟩ := crfGradient_read hord hvis hsched hn hs hfit hobs hal hne hv hφ hρ htree
    (by rw [← show s.readWeightIn [] φ = s.readWeight φ from funext (readWeightIn_nil s φ)]; exact hby [])
    (fun c hc p _ => hby _ c hc) hln hl
  refine ⟨s', h.trans ?_⟩
  congr 1
  unfold tunableClusters
  rw [List.map_map, List.map_map]
  refine List.map_congr_left (fun t _ => ?_)
  simp only [Function.comp]
  congr 2
  unfold sampleMean
  congr 2
  refine List.map_congr_left (fun c hc => ?_)
  have ha := sampleAt_inRange hnd (hv c hc)
  have hr : ∀ b : Assign, (∀ u, u ∉ l → b u = s.sampleAt c u) → (∀ u ∈ l, b u < u.size) → s.InRange b := by
    intro b h1 h2 u hu
    by_cases hl' : u ∈ l
    · exact h2 u hl'
    · rw [h1 u hl']; exact ha u hu
  unfold readStatistic
  rw [List.map_map]
  refine Eq.trans ?_ (expectation_statistic _ _ _ _ _)
  congr 1
  refine List.map_congr_left (fun b _ => ?_)
  simp only [Function.comp]
  unfold expectation
  congr 1
  · exact Tree.sumOver_congr_range (fun b h1 h2 => by rw [hw _ b (hr b h1 h2)])
  · exact Tree.sumOver_congr_range (fun b h1 h2 => hw _ b (hr b h1 h2))

end State
end EFG
