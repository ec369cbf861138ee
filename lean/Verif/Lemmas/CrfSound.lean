import Verif.Lemmas.Sound
import Verif.Lemmas.AbsorbReach
import Verif.Lemmas.CrfTrain
/-
What stays valid in a conditional random field: setting all the evidences again renews the caches which depend on them.
-/

set_option linter.unusedSectionVars false

namespace EFG
namespace State
variable {F : Type} [Arith F]

/-- The caches which only depend on the evidences of the variables in `R` are not stale. -/
structure Renewed (R : Var → Prop) (s : State F) : Prop where
  inv : Inv s
  sep : Separated s
  sizes : ∀ u v, (s.lnk u v).isSome → u.size = v.size
  coh : ∀ u ∈ s.vars, u ∉ s.obs → (∀ w, (s.dis u w).isSome → R w) → CohAt s u
  evid : ∀ u v c k, R v → u ∉ s.obs → s.dis u v = some c → AMap.find? s.evidences v = some k →
    ∃ m, c.message = some m ∧ IsEvid s c.factor v k m

theorem Renewed.mono {R R' : Var → Prop} {s : State F} (h : Renewed R s) (hR : ∀ w, R' w → R w) : Renewed R' s :=
  ⟨h.inv, h.sep, h.sizes, fun u hu ho hw => h.coh u hu ho (fun w hd => hR w (hw w hd)),
    fun u v c k hv => h.evid u v c k (hR v hv)⟩

theorem Renewed.flow {R : Var → Prop} {s : State F} (h : Renewed R s) : Flow s := by
  refine ⟨h.inv.toCore, h.sep, ?_⟩
  intro u v _ _ ha
  obtain ⟨c, hc⟩ := Option.isSome_iff_exists.mp ha
  exact h.sizes u v (by rw [lnk_of_act hc]; rfl)

theorem CohAt.keep {s s' : State F} {v : Var} (h : CohAt s v) (hs : Core s) (hs' : Core s') (hv : v ∈ s.vars)
    (hv' : v ∈ s'.vars) (hm : ∀ m, s'.mrg v = some m → s.mrg v = some m) (hu : s'.una v = s.una v)
    (hd : ∀ w, s'.dis v w = s.dis v w) (hh : ∀ p ∈ s.una v, s'.heap[p]? = s.heap[p]?) : CohAt s' v := by
  intro m hm'
  obtain ⟨o, h7, h8⟩ := h m (hm m hm')
  obtain ⟨o', h9, h10⟩ := mergedVal_perm hs.net hs'.net hv hv' hu hd hh h7
  exact ⟨o', h9, h10.trans h8⟩

theorem Renewed.asked {R : Var → Prop} {s s' : State F} (h : Renewed R s) (ha : Asked s s') : Renewed R s' := by
  have hq := ha.toQuiet
  have hi := ha.inv h.inv
  refine ⟨hi, (h.flow.quiet hq hi.toCore).sep, ?_, ?_, ?_⟩
  · intro u v; rw [hq.lnk]; exact h.sizes u v
  · intro u hu ho hw
    rw [hq.vars] at hu
    rw [hq.obs] at ho
    refine ha.keepsCoh h.inv u hu ho (h.coh u hu ho (fun w hd => hw w ?_))
    rw [hq.dis]; exact hd
  · intro u v c k hv hu hd hk
    rw [hq.obs] at hu
    rw [hq.dis] at hd
    rw [hq.evidences] at hk
    obtain ⟨m, h1, f, h2, h3⟩ := h.evid u v c k hv hu hd hk
    exact ⟨m, h1, f, by rw [hq.heap]; exact h2, h3⟩

/-- Setting an evidence again renews what depends on it. -/
theorem Reobserved.renewed {R : Var → Prop} {s s' : State F} {v : Var} {k : Nat} (h : Reobserved s s' v k)
    (hr : Renewed R s) (hi : Inv s') : Renewed (fun w => R w ∨ w = v) s' := by
  have ho : s'.obs = s.obs := by
    show AMap.keys s'.evidences = _
    rw [h.evidences, AMap.keys_modify]; rfl
  have hc := hr.inv.toCore
  refine ⟨hi, ?_, ?_, ?_, ?_⟩
  · intro u w; rw [ho, h.act]; exact hr.sep u w
  · intro u w; rw [h.lnk]; exact hr.sizes u w
  · intro u hu huo hw
    rw [ho] at huo
    by_cases hd : (s.dis u v).isSome
    · intro m hm
      rw [h.mrg, if_pos hd] at hm
      cases hm
    · have hno : s.dis u v = none := by simpa using hd
      have huv : u ∈ s.vars := by rw [← h.frame.vars]; exact hu
      refine (hr.coh u huv huo (fun w hw' => ?_)).keep hc hi.toCore huv hu (fun m hm => ?_) (h.frame.una u) (fun w => ?_)
        (fun _ _ => by rw [h.frame.heap])
      · rcases hw w (by rw [h.disS]; exact hw') with h1 | h1
        · exact h1
        · rw [h1] at hw'; exact absurd hw' hd
      · rw [h.mrg, if_neg hd] at hm; exact hm
      · by_cases hw' : w = v
        · subst hw'
          have h1 := h.disS u w
          rw [hno] at h1 ⊢
          simpa using h1
        · exact h.dis u w hw'
  · intro u w c k' hR hu hd hk
    rw [ho] at hu
    rw [h.evidences, AMap.find?_modify] at hk
    by_cases hw : w = v
    · subst hw
      rw [if_pos rfl] at hk
      have h0 := h.disS u w
      rw [hd] at h0
      obtain ⟨c0, hc0⟩ := Option.isSome_iff_exists.mp h0.symm
      obtain ⟨c', m, h1, h2, h3, _, f, h5, h6⟩ := h.cond u c0 hc0
      rw [hd] at h1
      cases h1
      have hkk : k' = k := by
        cases hx : AMap.find? s.evidences w with
        | none => rw [hx] at hk; cases hk
        | some x => rw [hx] at hk; simpa using hk.symm
      subst hkk
      exact ⟨m, h3, f, by rw [h.frame.heap, h2]; exact h5, h6⟩
    · rw [h.dis u w hw] at hd
      rw [if_neg (Ne.symm hw)] at hk
      obtain ⟨m, h1, f, h2, h3⟩ := hr.evid u w c k' (hR.resolve_right hw) hu hd hk
      exact ⟨m, h1, f, by rw [h.frame.heap]; exact h2, h3⟩

/-- Setting several evidences again. -/
theorem forEach_renews {ord : List Var → List Var} (hord : ∀ l, (ord l).Perm l) (es : List (Var × Nat)) :
    ∀ {R : Var → Prop} {s : State F}, Renewed R s → (AMap.keys es).Nodup → (∀ e ∈ es, e.1 ∈ s.obs ∧ e.2 < e.1.size) →
    ∃ s', forEach (fun e : Var × Nat => setEvidence ord e.1 e.2) es s = .ok s' () ∧
      Renewed (fun w => R w ∨ w ∈ AMap.keys es) s' ∧ Frame s s' ∧ s'.obs = s.obs ∧ s'.pool = s.pool ∧
      (s'.last = none ∨ es = []) ∧ (∀ u w, s'.lnk u w = s.lnk u w) ∧
      ∀ v, AMap.find? s'.evidences v = (AMap.find? es v).or (AMap.find? s.evidences v) := by
  induction es with
  | nil =>
    intro R s hs _ _
    exact ⟨s, rfl, hs.mono (fun w h => h.resolve_right (by simp [AMap.keys])), .rfl' s, rfl, rfl, Or.inr rfl,
      fun _ _ => rfl, fun v => by simp [AMap.find?]⟩
  | cons e es ih =>
    intro R s hs hn he
    obtain ⟨v, k⟩ := e
    obtain ⟨h1, h2⟩ := he (v, k) (by simp)
    simp only at h1 h2
    obtain ⟨s1, g1, g2⟩ := setEvidence_observed hord hs.inv.toCore h1 h2
    have gi := g2.inv hs.inv h2
    have go : s1.obs = s.obs := by
      show AMap.keys s1.evidences = _
      rw [g2.evidences, AMap.keys_modify]; rfl
    rw [AMap.keys, List.map_cons, List.nodup_cons] at hn
    obtain ⟨s', k1, k2, k3, k4, k5, k6, k7, k8⟩ := ih (g2.renewed hs gi) hn.2
      (fun e' he' => by rw [go]; exact he e' (by simp [he']))
    refine ⟨s', ?_, ?_, g2.frame.trans k3, k4.trans go, k5.trans g2.pool, Or.inl ?_,
      fun u w => (k7 u w).trans (g2.lnk u w), ?_⟩
    · rw [forEach_cons]
      simp only
      rw [g1]
      exact k1
    · refine k2.mono (fun w hw => ?_)
      rcases hw with h | h
      · exact Or.inl (Or.inl h)
      · rw [AMap.keys, List.map_cons, List.mem_cons] at h
        rcases h with h | h
        · exact Or.inl (Or.inr h)
        · exact Or.inr h
    · rcases k6 with h | h
      · exact h
      · subst h
        cases k1
        exact g2.last
    · intro w
      rw [k8 w, g2.evidences, AMap.find?_modify, AMap.find?_cons]
      by_cases hvw : v = w
      · subst hvw
        have hnone : AMap.find? es v = none := by
          cases hf : AMap.find? es v with
          | none => rfl
          | some x => exact absurd (List.mem_map_of_mem (f := Prod.fst) (AMap.find?_mem hf)) hn.1
        obtain ⟨x, hx⟩ := AMap.mem_keys.mp h1
        simp [hnone, hx]
      · simp [hvw]

/-! ### The operations -/

/-- Nothing is stale at the variables which no observed variable is joined to, and the pool has a size. -/
structure Half (n : Nat) (s : State F) : Prop where
  renewed : Renewed (fun _ => False) s
  pool : s.pool = some n

/-- The operation keeps it, whatever happens. -/
def KeepsH {α : Type} (n : Nat) (x : M (State F) α) (s : State F) : Prop :=
  match x s with
  | .ok s' _ => Half n s'
  | .throw s' => Half n s'
  | .ub => True

theorem Half.again {n : Nat} {ord : List Var → List Var} (hord : ∀ l, (ord l).Perm l) (es : List (Var × Nat)) :
    ∀ {s : State F}, Half n s → (∀ e ∈ es, e.1 ∈ s.obs) →
    KeepsH n (forEach (fun e : Var × Nat => setEvidence ord e.1 e.2) es) s := by
  induction es with
  | nil => intro s hs _; exact hs
  | cons e es ih =>
    intro s hs he
    unfold KeepsH
    rw [forEach_cons]
    by_cases hk : e.1.size ≤ e.2
    · have : setEvidence ord e.1 e.2 s = .throw s := by unfold setEvidence; rw [if_pos hk]
      rw [this]; exact hs
    · obtain ⟨s1, g1, g2⟩ := setEvidence_observed hord hs.renewed.inv.toCore (he e (by simp)) (k := e.2) (by omega)
      have gi := g2.inv hs.renewed.inv (by omega)
      have go : s1.obs = s.obs := by
        show AMap.keys s1.evidences = _
        rw [g2.evidences, AMap.keys_modify]; rfl
      rw [g1]
      exact ih ⟨(g2.renewed hs.renewed gi).mono nofun, g2.pool.trans hs.pool⟩
        (fun e' he' => by rw [go]; exact he e' (by simp [he']))

theorem Half.setEvidences {n : Nat} {ord visit : List Var → List Var} (hord : ∀ l, (ord l).Perm l)
    (hvis : ∀ l, (visit l).Perm l) (values : List Nat) {s : State F} (hs : Half n s) :
    KeepsH n (setEvidences ord visit values) s := by
  unfold KeepsH State.setEvidences
  by_cases hl : values.length ≠ s.evidences.length
  · rw [if_pos hl]; exact hs
  · rw [if_neg hl]
    exact hs.again hord ((visit (AMap.keys s.evidences)).zip values)
      (fun e he => (hvis _).mem_iff.mp (List.of_mem_zip he).1)

theorem Half.propagate {n : Nat} (hn : 1 ≤ n) {ord : List Var → List Var} (hord : ∀ l, (ord l).Perm l) {sched : Sched}
    (hsched : ∀ l, (sched l).Perm l) (kind : Kind) {s : State F} (hs : Half n s) :
    ∃ s', propagateBelief ord sched kind s = .ok s' () ∧ Half n s' := by
  by_cases hw : s.wouldNeedPropagation kind = true
  · obtain ⟨s', r, h1, h2, h3, h4, h5, h6, h7, _⟩ := propagateBelief_ok hord kind hsched hs.renewed.inv hs.renewed.flow hn
      hs.pool hw
    exact ⟨s', h1, hs.renewed.asked h2, h7.trans hs.pool⟩
  · refine ⟨s, ?_, hs⟩
    unfold propagateBelief
    rw [if_pos (by simpa using hw)]

theorem Half.light {n : Nat} {s : State F} (hs : Half n s) (m : Nat) : Half m { s with pool := some m } :=
  ⟨hs.renewed.asked (Asked.light rfl rfl rfl rfl rfl rfl rfl rfl rfl rfl), rfl⟩

theorem Half.withPool {α : Type} {n : Nat} (hn : 1 ≤ n) {body : M (State F) α}
    (hb : ∀ s, Half n s → KeepsH n body s) {s : State F} (hs : Half 1 s) : KeepsH 1 (withPool n body) s := by
  have h0 : setPoolSize n s = .ok { s with pool := some n } () := by
    unfold setPoolSize
    rw [hs.pool]
    simp only
    by_cases h1 : n = 1
    · subst h1
      rw [if_pos rfl]
      have hp := hs.pool
      cases s
      simp only at hp
      rw [hp]
    · rw [if_neg h1, if_neg (by omega)]
  unfold KeepsH State.withPool
  rw [h0]
  simp only
  have h1 := hb _ (hs.light n)
  cases hx : body { s with pool := some n } with
  | ok s2 a => rw [KeepsH, hx] at h1; exact h1.light 1
  | throw s2 => rw [KeepsH, hx] at h1; exact h1.light 1
  | ub => trivial

theorem Half.asks {α : Type} {n : Nat} (hn : 1 ≤ n) {ord : List Var → List Var} (hord : ∀ l, (ord l).Perm l) {sched : Sched}
    (hsched : ∀ l, (sched l).Perm l) (kind : Kind) (r : State F → Res α) {s : State F} (hs : Half 1 s) :
    KeepsH 1 (asks ord sched kind n r) s := by
  have h0 : KeepsH 1 (checkPropagation ord sched kind n) s := by
    unfold KeepsH checkPropagation
    by_cases hw : s.wouldNeedPropagation kind = true
    · rw [if_pos hw]
      refine hs.withPool hn (fun s hs => ?_)
      obtain ⟨s', h1, h2⟩ := hs.propagate hn hord hsched kind
      unfold KeepsH
      rw [h1]; exact h2
    · rw [if_neg hw]; exact hs
  unfold KeepsH State.asks
  cases hp : checkPropagation ord sched kind n s with
  | ok s1 _ =>
    rw [KeepsH, hp] at h0
    simp only
    unfold lift
    cases r s1 with
    | ok a => exact h0
    | throw => exact h0
    | ub => trivial
  | throw s1 => rw [KeepsH, hp] at h0; exact h0
  | ub => trivial

theorem Half.betaStep {n : Nat} (hn : 1 ≤ n) {ord visit : List Var → List Var} (hord : ∀ l, (ord l).Perm l)
    (hvis : ∀ l, (visit l).Perm l) {sched : Sched} (hsched : ∀ l, (sched l).Perm l) (positions : List Nat) (coeff : F)
    (betas : List F) (comb : List Nat) {s : State F} (hs : Half n s) :
    KeepsH n (betaStep ord visit sched positions coeff betas comb) s := by
  unfold KeepsH State.betaStep
  cases he : sampleEvidences positions comb (visit (AMap.keys s.evidences)) 0 with
  | throw => exact hs
  | ub => trivial
  | ok es =>
    simp only
    have hk := sampleEvidences_keys _ _ _ he
    have h1 := hs.again hord es (fun e hm => (hvis _).mem_iff.mp (hk ▸ List.mem_map_of_mem hm))
    cases hx : forEach (fun e : Var × Nat => setEvidence ord e.1 e.2) es s with
    | throw s1 => rw [KeepsH, hx] at h1; exact h1
    | ub => trivial
    | ok s1 u =>
      rw [KeepsH, hx] at h1
      simp only
      obtain ⟨s2, h2, h3⟩ := h1.propagate hn hord hsched .sum
      rw [h2]
      simp only
      cases Res.mapList (fun t => tunerSum (s2.baseBeta ord) t) s2.tuners with
      | ok bs => exact h3
      | throw => exact h3
      | ub => trivial

theorem Half.betaLoop {n : Nat} (hn : 1 ≤ n) {ord visit : List Var → List Var} (hord : ∀ l, (ord l).Perm l)
    (hvis : ∀ l, (visit l).Perm l) {sched : Sched} (hsched : ∀ l, (sched l).Perm l) (positions : List Nat) (coeff : F) :
    ∀ (cs : List (List Nat)) (betas : List F) {s : State F}, Half n s →
    KeepsH n (betaLoop ord visit sched positions coeff betas cs) s := by
  intro cs
  induction cs with
  | nil => intro betas s hs; exact hs
  | cons c cs ih =>
    intro betas s hs
    unfold KeepsH
    rw [State.betaLoop]
    have h1 := hs.betaStep hn hord hvis hsched positions coeff betas c
    cases hx : State.betaStep ord visit sched positions coeff betas c s with
    | throw s1 => rw [KeepsH, hx] at h1; exact h1
    | ub => trivial
    | ok s1 b => rw [KeepsH, hx] at h1; exact ih b h1

theorem Half.crfGradient {n : Nat} (hn : 1 ≤ n) {ord visit : List Var → List Var} (hord : ∀ l, (ord l).Perm l)
    (hvis : ∀ l, (visit l).Perm l) {sched : Sched} (hsched : ∀ l, (sched l).Perm l) (positions : List Nat)
    (samples : List (List Nat)) {s : State F} (hs : Half n s) :
    KeepsH n (crfGradient ord visit sched positions samples) s := by
  unfold KeepsH State.crfGradient
  cases Res.mapList (fun t => tunerSum (s.baseAlpha samples) t) s.tuners with
  | throw => exact hs
  | ub => trivial
  | ok alphas =>
    simp only
    have h1 := hs.betaLoop hn hord hvis hsched positions (Arith.div Arith.one (Arith.ofNat samples.length)) samples
      (s.tuners.map (fun _ => Arith.zero))
    cases hx : State.betaLoop ord visit sched positions (Arith.div Arith.one (Arith.ofNat samples.length))
        (s.tuners.map (fun _ => Arith.zero)) samples s with
    | throw s2 => rw [KeepsH, hx] at h1; exact h1
    | ok s2 _ => rw [KeepsH, hx] at h1; exact h1
    | ub => trivial

theorem Half.makeSamples {ord : List Var → List Var} (hord : ∀ l, (ord l).Perm l) (rnd : Random F) (ctx : SampleContext)
    {n : Nat} (hn : 1 ≤ n) {s : State F} (hs : Half 1 s) : KeepsH 1 (makeSamples ord rnd ctx n) s := by
  obtain ⟨s', l, h1, h2, h3, h4, h5, _⟩ := makeSamples_ok hord rnd ctx hn hs.renewed.inv (by rw [hs.pool]; rfl)
  unfold KeepsH
  rw [h1]
  exact ⟨hs.renewed.asked h2, h5⟩

theorem Half.emplaceAll {ord visit : List Var → List Var} (hord : ∀ l, (ord l).Perm l) (hvis : ∀ l, (visit l).Perm l)
    (rnd : Nat → Random F) (ctx : SampleContext) {n : Nat} (hn : 1 ≤ n) : ∀ (evs : List (List Nat)) {s : State F},
    Half 1 s → KeepsH 1 (emplaceAll ord visit rnd ctx n evs) s := by
  intro evs
  induction evs with
  | nil => intro s hs; exact hs
  | cons ev evs ih =>
    intro s hs
    unfold KeepsH
    rw [State.emplaceAll]
    have h1 : KeepsH 1 (emplaceSamples ord visit (rnd evs.length) ctx n ev) s := by
      unfold KeepsH emplaceSamples
      have h1 := hs.setEvidences hord hvis ev
      cases hx : State.setEvidences ord visit ev s with
      | throw s1 => rw [KeepsH, hx] at h1; exact h1
      | ub => trivial
      | ok s1 u => rw [KeepsH, hx] at h1; exact h1.makeSamples hord (rnd evs.length) ctx hn
    cases hx : emplaceSamples ord visit (rnd evs.length) ctx n ev s with
    | throw s1 => rw [KeepsH, hx] at h1; exact h1
    | ub => trivial
    | ok s1 l =>
      rw [KeepsH, hx] at h1
      simp only
      have h2 := ih h1
      cases hy : State.emplaceAll ord visit rnd ctx n evs s1 with
      | throw s2 => rw [KeepsH, hy] at h2; exact h2
      | ok s2 _ => rw [KeepsH, hy] at h2; exact h2
      | ub => trivial

theorem Half.makeTrainSet {ord visit : List Var → List Var} (hord : ∀ l, (ord l).Perm l) (hvis : ∀ l, (visit l).Perm l)
    (obsOrder : List Var → List Var) (floorNat : F → Option Nat) (rnd : Nat → Random F) (ctx : SampleContext) (pct : F)
    {n : Nat} (hn : 1 ≤ n) {s : State F} (hs : Half 1 s) :
    KeepsH 1 (makeTrainSet ord visit obsOrder floorNat rnd ctx pct n) s := by
  unfold KeepsH State.makeTrainSet
  by_cases hp : (Arith.lt Arith.one pct || Arith.lt pct Arith.zero) = true
  · rw [if_pos hp]; exact hs
  · rw [if_neg hp]
    cases Group.ofSoup (obsOrder s.observedVariables) with
    | throw => exact hs
    | ub => trivial
    | ok g =>
      simp only
      cases trainCombinations floorNat g pct with
      | throw => exact hs
      | ub => trivial
      | ok evs => exact hs.emplaceAll hord hvis rnd ctx hn evs

/-- The heap changes, but not the unary factors of which a product is cached at a variable which no observed
variable is joined to. -/
theorem Half.outer {n : Nat} {s s' : State F} (hs : Half n s) (h : Outer s s') (hi : Inv s')
    (hh : ∀ v, v ∉ s.obs → (∀ w, s.dis v w = none) → (s.mrg v).isSome → ∀ p ∈ s.una v, s'.heap[p]? = s.heap[p]?) :
    Half n s' := by
  refine ⟨⟨hi, ?_, ?_, ?_, fun _ _ _ _ h => h.elim⟩, h.pool.trans hs.pool⟩
  · intro u v hu ha
    rw [h.obs] at hu ⊢
    rw [h.act] at ha
    exact hs.renewed.sep u v hu ha
  · intro u v; rw [h.lnk]; exact hs.renewed.sizes u v
  · intro u hu ho hw
    rw [h.obs] at ho
    have hd : ∀ w, s.dis u w = none := by
      intro w
      cases hx : s.dis u w with
      | none => rfl
      | some c => exact (hw w (by rw [h.dis, hx]; rfl)).elim
    have huv : u ∈ s.vars := by rw [← h.vars]; exact hu
    intro m hm
    refine ((hs.renewed.coh u huv ho (fun w hw' => by rw [hd] at hw'; cases hw')).keep hs.renewed.inv.toCore hi.toCore huv hu
      (fun m hm => by rw [h.mrg] at hm; exact hm) (h.una u) (fun w => h.dis u w) ?_) m hm
    exact hh u ho hd (by rw [← h.mrg, hm]; rfl)

end State
end EFG
