import Verif.Lemmas.Safety
import Verif.Lemmas.CrfReach
/-
The operations on copies and on conditional random fields which are defined, whatever the arithmetic is.
-/

set_option linter.unusedSectionVars false

namespace EFG
namespace State
variable {F : Type} [Arith F]

/-! ### Absorptions -/

variable {P : Nat → Fn F → Prop} {ps : List Nat} {b : Prop}

theorem Stocked.lt {t : State F} (h : Stocked P ps t) {p : Nat} (hp : p ∈ ps) : p < t.heap.length := by
  obtain ⟨g, h1, _⟩ := h.holds p hp
  exact (List.getElem?_eq_some_iff.mp h1).1

theorem insertConst_ne_ub {t : State F} (h : Grown b P ps t) (copy : Bool) {p : Nat} (hp : p ∈ ps) :
    insertConst copy p t ≠ .ub := by
  have hi := reach_inv h.reach
  have ht := reach_tuned h.reach
  cases copy with
  | false => exact exec_ne_ub_still (op := .addConst (some p)) hi (fun _ => ht) ⟨trivial, trivial⟩ rfl (h.toStocked.lt hp)
  | true => exact exec_ne_ub_still (op := .copyConst p) hi (fun _ => ht) ⟨trivial, trivial⟩ rfl (h.toStocked.lt hp)

theorem insertTunable_ne_ub {t : State F} (h : Grown b P ps t) (copy : Bool) {p : Nat} (hp : p ∈ ps)
    (hexp : ∀ f, P p f → f.weight.isSome) (share : Option VarSet) : insertTunable copy p share t ≠ .ub := by
  have hi := reach_inv h.reach
  have ht := reach_tuned h.reach
  have hty : ∀ f, t.heap[p]? = some f → f.weight.isSome := by
    intro f hf
    obtain ⟨g, h1, h2⟩ := h.holds p hp
    rw [hf] at h1; cases h1; exact hexp f h2
  cases copy with
  | false => exact exec_ne_ub_still (op := .addTunable (some p) share) hi (fun _ => ht) ⟨trivial, hty⟩ rfl (h.toStocked.lt hp)
  | true => exact exec_ne_ub_still (op := .copyTunable p share) hi (fun _ => ht) ⟨trivial, hty⟩ rfl (h.toStocked.lt hp)

theorem swallow_ne_ub {x : M (State F) Unit} {t : State F} (h : x t ≠ .ub) : swallow x t ≠ .ub := by
  unfold swallow
  cases hx : x t with
  | ok s' _ => exact (nomatch ·)
  | throw s' => exact (nomatch ·)
  | ub => exact absurd hx h

theorem forEach_ne_ub {α : Type} {f : α → M (State F) Unit} : ∀ (l : List α),
    (∀ a ∈ l, ∀ t, Grown b P ps t → Grows b P ps (f a t) ∧ f a t ≠ .ub) → ∀ {t : State F}, Grown b P ps t →
    forEach f l t ≠ .ub := by
  intro l
  induction l with
  | nil => intro _ t h; exact (nomatch ·)
  | cons a l ih =>
    intro hf t h
    obtain ⟨h1, h2⟩ := hf a (by simp) t h
    rw [forEach_cons]
    cases hx : f a t with
    | ok s' _ => rw [hx] at h1; exact ih (fun b hb => hf b (by simp [hb])) h1
    | throw s' => exact (nomatch ·)
    | ub => exact absurd hx h2

theorem andThen_ne_ub {x y : M (State F) Unit} {t : State F} (h : Grows b P ps (x t)) (hx : x t ≠ .ub)
    (hy : ∀ t, Grown b P ps t → y t ≠ .ub) : andThen x y t ≠ .ub := by
  unfold andThen
  cases he : x t with
  | ok s' _ => rw [he] at h; exact hy s' h
  | throw s' => exact (nomatch ·)
  | ub => exact absurd he hx

theorem insertCluster_ne_ub (hP : Weightless P) {t : State F} (h : Grown b P ps t) (copy : Bool) {c : List Nat} (hne : c ≠ [])
    (hc : ∀ p ∈ c, p ∈ ps ∧ (b → ∀ f, P p f → EqualSizes f) ∧ ∀ f, P p f → f.weight.isSome) :
    insertTunableCluster copy c t ≠ .ub := by
  unfold insertTunableCluster
  cases c with
  | nil => exact absurd rfl hne
  | cons p c =>
    simp only
    obtain ⟨a1, a2, a3⟩ := hc p (by simp)
    rw [deref_eq (List.getElem?_eq_getElem (h.toStocked.lt a1))]
    simp only
    have h1 := insertTunable_grows hP h copy a1 a2 a3 none
    have h2 := insertTunable_ne_ub h copy a1 a3 none
    cases hx : insertTunable copy p none t with
    | ok s' _ =>
      rw [hx] at h1
      refine forEach_ne_ub c (fun q hq t ht => ?_) h1
      obtain ⟨b1, b2, b3⟩ := hc q (by simp [hq])
      exact ⟨insertTunable_grows hP ht copy b1 b2 b3 _, insertTunable_ne_ub ht copy b1 b3 _⟩
    | throw s' => exact (nomatch ·)
    | ub => exact absurd hx h2

theorem absorbFactors_ne_ub {s : State F} {o : VisitOrder} (ho : o.Perms) (copy : Bool)
    (hcl : ∀ c ∈ s.tunableClusters, c ≠ []) {t : State F}
    (h : Grown b (Offered b s) (s.consts ++ s.tunableClusters.flatten) t) : absorbFactors o s copy t ≠ .ub := by
  have hc : ∀ p ∈ o.factors s.consts, p ∈ s.consts ++ s.tunableClusters.flatten := fun p hp =>
    List.mem_append_left _ ((ho.factors _).mem_iff.mp hp)
  refine andThen_ne_ub (b := b) (P := Offered b s) (ps := s.consts ++ s.tunableClusters.flatten)
    (forEach_grows _ (fun p hp t h => swallow_grows (insertConst_grows h copy (hc p hp) (fun hb f hf => hf.2 hb))) h)
    (forEach_ne_ub _ (fun p hp t h => ⟨swallow_grows (insertConst_grows h copy (hc p hp) (fun hb f hf => hf.2 hb)),
      swallow_ne_ub (insertConst_ne_ub h copy (hc p hp))⟩) h) ?_
  intro t h
  refine forEach_ne_ub _ (fun c hcm t h => ?_) h
  have hall : ∀ p ∈ c, p ∈ s.consts ++ s.tunableClusters.flatten ∧ (b → ∀ f, Offered b s p f → EqualSizes f) ∧
      ∀ f, Offered b s p f → f.weight.isSome := by
    intro p hp
    have hm : p ∈ s.tunableClusters.flatten := List.mem_flatten.mpr ⟨c, hcm, hp⟩
    exact ⟨List.mem_append_right _ hm, fun hb f hf => hf.2 hb, fun f hf => hf.1 hm⟩
  exact ⟨swallow_grows (insertCluster_grows (offered_weightless s) h copy hall),
    swallow_ne_ub (insertCluster_ne_ub (offered_weightless s) h copy (hcl c hcm) hall)⟩

theorem absorbEvidences_ne_ub {ord : List Var → List Var} (hord : ∀ l, (ord l).Perm l) (evs : List (Var × Nat)) :
    ∀ {t : State F}, Inv t → absorbEvidences ord evs t ≠ .ub := by
  induction evs with
  | nil => intro t _; exact (nomatch ·)
  | cons e evs ih =>
    intro t hi
    unfold absorbEvidences
    rw [forEach_cons]
    have h1 := setEvidence_ne_ub hord e.1 e.2 hi
    have h2 := (exec_preserves (op := .setEvidence ord e.1 e.2) hi ⟨hord, trivial⟩).1
    cases hx : setEvidence ord e.1 e.2 t with
    | ok s' _ => exact ih (h2 s' hx)
    | throw s' => exact (nomatch ·)
    | ub => exact absurd hx h1

theorem absorbEvidencesByName_ne_ub {ord : List Var → List Var} (hord : ∀ l, (ord l).Perm l) (evs : List (Var × Nat)) :
    ∀ {t : State F}, Inv t → absorbEvidencesByName ord evs t ≠ .ub := by
  induction evs with
  | nil => intro t _; exact (nomatch ·)
  | cons e evs ih =>
    intro t hi
    unfold absorbEvidencesByName
    rw [forEach_cons]
    have h1 : setEvidenceByName ord e.1.name e.2 t ≠ .ub := by
      unfold setEvidenceByName
      rcases findVariable_cases t e.1.name with ⟨v, h⟩ | h
      · rw [h]; exact setEvidence_ne_ub hord v e.2 hi
      · rw [h]; exact (nomatch ·)
    have h2 := (exec_preserves (op := .setEvidenceByName ord e.1.name e.2) hi ⟨hord, trivial⟩).1
    cases hx : setEvidenceByName ord e.1.name e.2 t with
    | ok s' _ => exact ih (h2 s' hx)
    | throw s' => exact (nomatch ·)
    | ub => exact absurd hx h1

/-! ### The invariant -/

/-- What the queries need, with a pool of a given size. -/
structure Running (n : Nat) (s : State F) : Prop where
  inv : Inv s
  sep : Separated s
  sizes : ∀ u v, (s.lnk u v).isSome → u.size = v.size
  pool : s.pool = some n
  alive : s.last.isSome → Alive s

/-- The operation keeps it, whatever happens. -/
def KeepsR {α : Type} (n : Nat) (x : M (State F) α) (s : State F) : Prop :=
  match x s with
  | .ok s' _ => Running n s'
  | .throw s' => Running n s'
  | .ub => True

theorem Running.healthy {s : State F} (h : Running 1 s) : Healthy s := ⟨h.inv, h.sep, h.sizes, h.pool, h.alive⟩

theorem Healthy.running {s : State F} (h : Healthy s) : Running 1 s := ⟨h.inv, h.sep, h.sizes, h.pool, h.alive⟩

theorem Running.flow {n : Nat} {s : State F} (h : Running n s) : Flow s := by
  refine ⟨h.inv.toCore, h.sep, ?_⟩
  intro u v _ _ ha
  obtain ⟨c, hc⟩ := Option.isSome_iff_exists.mp ha
  exact h.sizes u v (by rw [lnk_of_act hc]; rfl)

theorem Running.light {n : Nat} {s : State F} (h : Running n s) (m : Nat) : Running m { s with pool := some m } := by
  refine ⟨(Asked.light rfl rfl rfl rfl rfl rfl rfl rfl rfl rfl : Asked s { s with pool := some m }).inv h.inv, h.sep, h.sizes, rfl,
    fun hl => ?_⟩
  obtain ⟨h1, h2, h3⟩ := h.alive hl
  exact ⟨h1, h2, h3⟩

theorem Running.again {n : Nat} {ord : List Var → List Var} (hord : ∀ l, (ord l).Perm l) (es : List (Var × Nat)) :
    ∀ {s : State F}, Running n s → (∀ e ∈ es, e.1 ∈ s.obs) →
    KeepsR n (forEach (fun e : Var × Nat => setEvidence ord e.1 e.2) es) s ∧
      forEach (fun e : Var × Nat => setEvidence ord e.1 e.2) es s ≠ .ub := by
  induction es with
  | nil => intro s hs _; exact ⟨hs, (nomatch ·)⟩
  | cons e es ih =>
    intro s hs he
    unfold KeepsR
    rw [forEach_cons]
    by_cases hk : e.1.size ≤ e.2
    · have : setEvidence ord e.1 e.2 s = .throw s := by unfold setEvidence; rw [if_pos hk]
      rw [this]; exact ⟨hs, (nomatch ·)⟩
    · obtain ⟨s1, g1, g2⟩ := setEvidence_observed hord hs.inv.toCore (he e (by simp)) (k := e.2) (by omega)
      have gi := g2.inv hs.inv (by omega)
      have go : s1.obs = s.obs := by
        show AMap.keys s1.evidences = _
        rw [g2.evidences, AMap.keys_modify]; rfl
      rw [g1]
      refine ih ⟨gi, ?_, ?_, g2.pool.trans hs.pool, ?_⟩ (fun e' he' => by rw [go]; exact he e' (by simp [he']))
      · intro u w; rw [go, g2.act]; exact hs.sep u w
      · intro u w; rw [g2.lnk]; exact hs.sizes u w
      · intro hl; rw [g2.last] at hl; cases hl

theorem Running.setEvidences {n : Nat} {ord visit : List Var → List Var} (hord : ∀ l, (ord l).Perm l)
    (hvis : ∀ l, (visit l).Perm l) (values : List Nat) {s : State F} (hs : Running n s) :
    KeepsR n (setEvidences ord visit values) s ∧ State.setEvidences ord visit values s ≠ .ub := by
  unfold KeepsR State.setEvidences
  by_cases hl : values.length ≠ s.evidences.length
  · rw [if_pos hl]; exact ⟨hs, (nomatch ·)⟩
  · rw [if_neg hl]
    exact hs.again hord ((visit (AMap.keys s.evidences)).zip values)
      (fun e he => (hvis _).mem_iff.mp (List.of_mem_zip he).1)

/-- After a propagation the beliefs can be read. -/
theorem Running.propagate {n : Nat} (hn : 1 ≤ n) {ord : List Var → List Var} (hord : ∀ l, (ord l).Perm l) {sched : Sched}
    (hsched : ∀ l, (sched l).Perm l) (kind : Kind) {s : State F} (hs : Running n s) :
    ∃ s', propagateBelief ord sched kind s = .ok s' () ∧ Running n s' ∧ Alive s' := by
  by_cases hw : s.wouldNeedPropagation kind = true
  · obtain ⟨s', r, h1, h2, h3, h4, h5, h6, h7, _⟩ := propagateBelief_ok hord kind hsched hs.inv hs.flow hn hs.pool hw
    have hi := h2.inv hs.inv
    have ha := (h6.fresh hi).alive hi
    exact ⟨s', h1, ⟨hi, h3.sep, fun u v => by rw [h2.toQuiet.lnk]; exact hs.sizes u v, h7.trans hs.pool, fun _ => ha⟩, ha⟩
  · refine ⟨s, ?_, hs, ?_⟩
    · unfold propagateBelief
      rw [if_pos (by simpa using hw)]
    · apply hs.alive
      unfold wouldNeedPropagation at hw
      cases hl : s.last with
      | none => rw [hl] at hw; simp at hw
      | some r => rfl

theorem Running.withPool {α : Type} {n : Nat} (hn : 1 ≤ n) {body : M (State F) α} {s : State F} (hs : Running 1 s)
    (hb : KeepsR n body { s with pool := some n }) :
    KeepsR 1 (withPool n body) s ∧ (body { s with pool := some n } ≠ .ub → State.withPool n body s ≠ .ub) := by
  have h0 : setPoolSize n s = .ok { s with pool := some n } () := by
    unfold setPoolSize
    rw [hs.pool]
    simp only
    by_cases h1 : n = 1
    · subst h1
      rw [if_pos rfl]
      have hp := hs.pool
      cases s
      simp only at hp
      rw [hp]
    · rw [if_neg h1, if_neg (by omega)]
  unfold KeepsR State.withPool
  rw [h0]
  simp only
  cases hx : body { s with pool := some n } with
  | ok s2 a => rw [KeepsR, hx] at hb; exact ⟨hb.light 1, fun _ => (nomatch ·)⟩
  | throw s2 => rw [KeepsR, hx] at hb; exact ⟨hb.light 1, fun _ => (nomatch ·)⟩
  | ub => exact ⟨trivial, fun h => absurd rfl h⟩

theorem Running.makeSamples {ord : List Var → List Var} (hord : ∀ l, (ord l).Perm l) (rnd : Random F) (ctx : SampleContext)
    {n : Nat} (hn : 1 ≤ n) {s : State F} (hs : Running 1 s) :
    KeepsR 1 (makeSamples ord rnd ctx n) s ∧ State.makeSamples ord rnd ctx n s ≠ .ub := by
  have h := makeSamples_sound (b := False) hord rnd ctx hn nofun ⟨hs.healthy, nofun⟩
  obtain ⟨s', l, h1, _⟩ := makeSamples_ok hord rnd ctx hn hs.inv (by rw [hs.pool]; rfl)
  unfold KeepsAt at h
  unfold KeepsR
  rw [h1] at h ⊢
  exact ⟨h.healthy.running, (nomatch ·)⟩

theorem Running.emplaceAll {ord visit : List Var → List Var} (hord : ∀ l, (ord l).Perm l) (hvis : ∀ l, (visit l).Perm l)
    (rnd : Nat → Random F) (ctx : SampleContext) {n : Nat} (hn : 1 ≤ n) : ∀ (evs : List (List Nat)) {s : State F},
    Running 1 s → KeepsR 1 (emplaceAll ord visit rnd ctx n evs) s ∧ State.emplaceAll ord visit rnd ctx n evs s ≠ .ub := by
  intro evs
  induction evs with
  | nil => intro s hs; exact ⟨hs, (nomatch ·)⟩
  | cons ev evs ih =>
    intro s hs
    unfold KeepsR
    rw [State.emplaceAll]
    have h1 : KeepsR 1 (emplaceSamples ord visit (rnd evs.length) ctx n ev) s ∧
        emplaceSamples ord visit (rnd evs.length) ctx n ev s ≠ .ub := by
      unfold KeepsR emplaceSamples
      obtain ⟨h1, h2⟩ := hs.setEvidences hord hvis ev
      cases hx : State.setEvidences ord visit ev s with
      | throw s1 => rw [KeepsR, hx] at h1; exact ⟨h1, (nomatch ·)⟩
      | ub => exact absurd hx h2
      | ok s1 u => rw [KeepsR, hx] at h1; exact h1.makeSamples hord (rnd evs.length) ctx hn
    obtain ⟨h1, h2⟩ := h1
    cases hx : emplaceSamples ord visit (rnd evs.length) ctx n ev s with
    | throw s1 => rw [KeepsR, hx] at h1; exact ⟨h1, (nomatch ·)⟩
    | ub => exact absurd hx h2
    | ok s1 l =>
      rw [KeepsR, hx] at h1
      simp only
      obtain ⟨h3, h4⟩ := ih h1
      cases hy : State.emplaceAll ord visit rnd ctx n evs s1 with
      | throw s2 => rw [KeepsR, hy] at h3; exact ⟨h3, (nomatch ·)⟩
      | ok s2 _ => rw [KeepsR, hy] at h3; exact ⟨h3, (nomatch ·)⟩
      | ub => exact absurd hy h4

theorem Running.makeTrainSet {ord visit : List Var → List Var} (hord : ∀ l, (ord l).Perm l) (hvis : ∀ l, (visit l).Perm l)
    {obsOrder : List Var → List Var} (hobs : ∀ l, (obsOrder l).Perm l) (floorNat : F → Option Nat) (rnd : Nat → Random F)
    (ctx : SampleContext) (pct : F) {n : Nat} (hn : 1 ≤ n) {s : State F} (hs : Running 1 s) (he : s.evidences ≠ []) :
    KeepsR 1 (makeTrainSet ord visit obsOrder floorNat rnd ctx pct n) s ∧
      (((Arith.lt Arith.one pct || Arith.lt pct Arith.zero) = false →
        trainCombinations floorNat ⟨obsOrder s.obs, obsOrder s.obs⟩ pct ≠ .ub) →
        State.makeTrainSet ord visit obsOrder floorNat rnd ctx pct n s ≠ .ub) := by
  unfold KeepsR State.makeTrainSet
  obtain ⟨h1, _⟩ := observed_group hobs hs.inv he
  by_cases hp : (Arith.lt Arith.one pct || Arith.lt pct Arith.zero) = true
  · rw [if_pos hp]; exact ⟨hs, fun _ => (nomatch ·)⟩
  · rw [if_neg hp, h1]
    simp only
    cases ht : trainCombinations floorNat ⟨obsOrder s.obs, obsOrder s.obs⟩ pct with
    | throw => exact ⟨hs, fun _ => (nomatch ·)⟩
    | ub => exact ⟨trivial, fun h => absurd rfl (h (by simpa using hp))⟩
    | ok evs =>
      obtain ⟨h2, h3⟩ := hs.emplaceAll hord hvis rnd ctx hn evs
      exact ⟨h2, fun _ => h3⟩

/-! ### The gradient -/

/-- Every tuner fits, and the positions of the evidences are those of values of a sample. -/
structure Equipped (positions : List Nat) (s : State F) : Prop where
  fits : ∀ tn ∈ s.tuners, ∀ b ∈ tn, s.TunerFits b
  reg : ∀ tn ∈ s.tuners, ∀ b ∈ tn, b.factor ∈ s.factors
  many : s.evidences.length ≤ positions.length

theorem Equipped.locked {positions : List Nat} {s s' : State F} (hi : Inv s) (h : Equipped positions s) (hl : Locked s s') :
    Equipped positions s' := by
  refine ⟨fun tn htn b hb => ?_, fun tn htn b hb => ?_, ?_⟩
  · rw [hl.tuners] at htn
    exact hl.fits hi (h.reg tn htn b hb) (h.fits tn htn b hb)
  · rw [hl.tuners] at htn
    rw [hl.factors]
    exact h.reg tn htn b hb
  · have := congrArg List.length hl.obs
    unfold State.obs AMap.keys at this
    rw [List.length_map, List.length_map] at this
    rw [this]; exact h.many

theorem TunerFits.sub {s : State F} (hi : Inv s) {b : BaseTuner} {f : Fn F} (h1 : s.heap[b.factor]? = some f)
    (h : s.TunerFits b) : (∀ v ∈ f.vars.group, v ∈ s.vars) ∧ b.indices = f.vars.group.map (fun v => s.vars.idxOf v) := by
  obtain ⟨g, h2, h3, h4⟩ := h
  rw [h1] at h2
  cases h2
  refine ⟨fun w hw => ?_, h3⟩
  have hob : ∀ v, s.Observes v → v ∈ s.vars := fun v h => hi.obsMem v (observes_iff.mp h)
  rcases h4 with ⟨v, a1, a2, _⟩ | ⟨u, v, a1, a2, a3, _⟩ | ⟨u, v, a1 | a1, a2, a3, _⟩ <;> rw [a1] at hw <;>
    simp only [List.mem_cons, List.not_mem_nil, or_false] at hw
  · subst hw; exact a2.1
  · rcases hw with rfl | rfl
    · exact a2.1
    · exact a3.1
  · rcases hw with rfl | rfl
    · exact a2.1
    · exact hob _ a3
  · rcases hw with rfl | rfl
    · exact hob _ a3
    · exact a2.1

theorem hiddenObservedBeta_ok {ord : List Var → List Var} (hord : ∀ l, (ord l).Perm l) {s : State F} (hs : Inv s) (ha : Alive s)
    {u v : Var} (hu : u ∈ s.hid) (hv : v ∈ s.obs) {f : Fn F} (hw : f.WF)
    (hg : f.vars.group = [u, v] ∨ f.vars.group = [v, u]) : ∃ y, hiddenObservedBeta ord s f u v = .ok y := by
  obtain ⟨_, _, _, ps, _, _, _, _, _, _, _, h1, h2⟩ := belief_ok hord hs ha hu
  obtain ⟨k, hk⟩ := AMap.mem_keys.mp hv
  have hkv := hs.obsVal v k hk
  have huo := (mem_hid.mp hu).2
  have huv : u ≠ v := fun e => huo (e ▸ hv)
  unfold hiddenObservedBeta
  rw [h2, hk]
  simp only
  have step : ∀ (e : F × Nat), e.2 < u.size → ∀ acc : F, ∃ y, hiddenObservedStep f
      (fun h => if f.vars.group.head? = some v then [k, h] else [h, k]) acc e = .ok y := by
    intro e he acc
    have : ∃ x, f.findImage (if f.vars.group.head? = some v then [k, e.2] else [e.2, k]) = .ok x := by
      rcases hg with hg | hg
      · rw [hg, if_neg (by simpa using huv)]
        exact ⟨_, hw.findImage (by
          rw [hw.sizes', hg]
          exact .cons he (.cons hkv .nil))⟩
      · rw [hg, if_pos (by simp)]
        exact ⟨_, hw.findImage (by
          rw [hw.sizes', hg]
          exact .cons hkv (.cons he .nil))⟩
    obtain ⟨x, hx⟩ := this
    unfold hiddenObservedStep
    simp only
    rw [hx]
    exact ⟨_, rfl⟩
  have fold : ∀ (l : List (F × Nat)), (∀ e ∈ l, e.2 < u.size) → ∀ acc : F, ∃ y, Res.foldList (hiddenObservedStep f
      (fun h => if f.vars.group.head? = some v then [k, h] else [h, k])) acc l = .ok y := by
    intro l
    induction l with
    | nil => intro _ acc; exact ⟨acc, rfl⟩
    | cons c l ih =>
      intro hl acc
      obtain ⟨y, hy⟩ := step c (hl c (by simp)) acc
      rw [Res.foldList, hy]
      exact ih (fun d hd => hl d (by simp [hd])) y
  refine fold _ (fun e he => ?_) _
  have := List.snd_lt_of_mem_zipIdx he
  rw [h1] at this
  exact this

theorem baseBeta_fits {ord : List Var → List Var} (hord : ∀ l, (ord l).Perm l) {s : State F} (hs : Inv s) (ha : Alive s)
    {b : BaseTuner} (hb : s.TunerFits b) : ∃ y, s.baseBeta ord b = .ok y := by
  obtain ⟨f, h1, _, h4⟩ := hb
  have hw := hs.heapWF f (List.mem_of_getElem? h1)
  have hh : ∀ v, s.Hidden v → v ∈ s.hid := fun v hv => mem_hid.mpr ⟨hv.1, fun h => hv.2 (observes_iff.mpr h)⟩
  unfold baseBeta
  rw [deref_eq h1]
  simp only
  rcases h4 with ⟨v, a1, a2, a3⟩ | ⟨u, v, a1, a2, a3, a4⟩ | ⟨u, v, a1, a2, a3, a4⟩
  · rw [a3]; exact unaryBeta_ok hord hs ha (hh v a2) hw a1
  · rw [a4]; exact binaryBeta_ok hord hs ha (hh u a2) (hh v a3) hw a1
  · rw [a4]; exact hiddenObservedBeta_ok hord hs ha (hh u a2) (observes_iff.mp a3) hw a1

theorem sampleEvidences_ok {positions comb : List Nat} (hp : ∀ p ∈ positions, p < comb.length) : ∀ (vs : List Var) (k : Nat),
    k + vs.length ≤ positions.length → ∃ es, sampleEvidences positions comb vs k = .ok es := by
  intro vs
  induction vs with
  | nil => intro k _; exact ⟨[], rfl⟩
  | cons v vs ih =>
    intro k h
    rw [List.length_cons] at h
    have hk : k < positions.length := by omega
    have h2 := hp _ (List.getElem_mem hk)
    obtain ⟨es, he⟩ := ih (k + 1) (by omega)
    rw [sampleEvidences, List.getElem?_eq_getElem hk]
    simp only
    rw [List.getElem?_eq_getElem h2]
    simp only
    rw [he]
    exact ⟨_, rfl⟩

theorem tunerSums_ok {g : BaseTuner → Res F} {ts : List (List BaseTuner)} (h : ∀ t ∈ ts, ∀ b ∈ t, ∃ y, g b = .ok y) :
    ∃ ys, Res.mapList (fun t => tunerSum g t) ts = .ok ys := by
  induction ts with
  | nil => exact ⟨[], rfl⟩
  | cons t ts ih =>
    obtain ⟨y, hy⟩ := tunerSum_ok (h t (by simp))
    obtain ⟨ys, hys⟩ := ih (fun t' ht' => h t' (by simp [ht']))
    rw [Res.mapList, hy]
    simp only
    rw [hys]
    exact ⟨_, rfl⟩

theorem Running.betaStep {n : Nat} (hn : 1 ≤ n) {ord visit : List Var → List Var} (hord : ∀ l, (ord l).Perm l)
    (hvis : ∀ l, (visit l).Perm l) {sched : Sched} (hsched : ∀ l, (sched l).Perm l) {positions : List Nat} (coeff : F)
    (betas : List F) (comb : List Nat) {s : State F} (hs : Running n s) (he : Equipped positions s) :
    KeepsR n (betaStep ord visit sched positions coeff betas comb) s ∧ ((∀ p ∈ positions, p < comb.length) →
      State.betaStep ord visit sched positions coeff betas comb s ≠ .ub) := by
  unfold KeepsR State.betaStep
  cases hse : sampleEvidences positions comb (visit (AMap.keys s.evidences)) 0 with
  | throw => exact ⟨hs, fun _ => (nomatch ·)⟩
  | ub =>
    refine ⟨trivial, fun h => ?_⟩
    obtain ⟨es, h1⟩ := sampleEvidences_ok h (visit (AMap.keys s.evidences)) 0 (by
      rw [(hvis _).length_eq, Nat.zero_add]
      unfold AMap.keys
      rw [List.length_map]
      exact he.many)
    rw [hse] at h1; cases h1
  | ok es =>
    simp only
    have hk := sampleEvidences_keys _ _ _ hse
    have hmem : ∀ e ∈ es, e.1 ∈ s.obs := fun e hm => (hvis _).mem_iff.mp (hk ▸ List.mem_map_of_mem hm)
    obtain ⟨h1, h2⟩ := hs.again hord es hmem
    have h3 := locksAt_cases (forEach_again hord es hs.inv hmem)
    cases hx : forEach (fun e : Var × Nat => setEvidence ord e.1 e.2) es s with
    | throw s1 => rw [KeepsR, hx] at h1; exact ⟨h1, fun _ => (nomatch ·)⟩
    | ub => exact absurd hx h2
    | ok s1 u =>
      rw [KeepsR, hx] at h1
      simp only
      obtain ⟨s2, h4, h5, h6⟩ := h1.propagate hn hord hsched .sum
      have h7 := locksAt_cases ((propagateBelief_asked (F := F) hord sched .sum).locks s1 h1.inv)
      have hE : Equipped positions s2 := (he.locked hs.inv (h3.1 s1 u hx).2).locked h1.inv (h7.1 s2 () h4).2
      rw [h4]
      simp only
      obtain ⟨bs, h8⟩ := tunerSums_ok (g := s2.baseBeta ord) (ts := s2.tuners)
        (fun t ht b hb => baseBeta_fits hord h5.inv h6 (hE.fits t ht b hb))
      rw [h8]
      exact ⟨h5, fun _ => (nomatch ·)⟩

theorem Running.betaLoop {n : Nat} (hn : 1 ≤ n) {ord visit : List Var → List Var} (hord : ∀ l, (ord l).Perm l)
    (hvis : ∀ l, (visit l).Perm l) {sched : Sched} (hsched : ∀ l, (sched l).Perm l) {positions : List Nat} (coeff : F) :
    ∀ (cs : List (List Nat)) (betas : List F) {s : State F}, Running n s → Equipped positions s →
    KeepsR n (betaLoop ord visit sched positions coeff betas cs) s ∧ ((∀ c ∈ cs, ∀ p ∈ positions, p < c.length) →
      State.betaLoop ord visit sched positions coeff betas cs s ≠ .ub) := by
  intro cs
  induction cs with
  | nil => intro betas s hs _; exact ⟨hs, fun _ => (nomatch ·)⟩
  | cons c cs ih =>
    intro betas s hs he
    unfold KeepsR
    rw [State.betaLoop]
    obtain ⟨h1, h2⟩ := hs.betaStep hn hord hvis hsched coeff betas c he
    have h3 := locksAt_cases (betaStep_locks hord hvis sched positions coeff betas c s hs.inv)
    cases hx : State.betaStep ord visit sched positions coeff betas c s with
    | throw s1 => rw [KeepsR, hx] at h1; exact ⟨h1, fun _ => (nomatch ·)⟩
    | ub => exact ⟨trivial, fun h => absurd hx (h2 (h c (by simp)))⟩
    | ok s1 b =>
      rw [KeepsR, hx] at h1
      obtain ⟨h4, h5⟩ := ih b h1 (he.locked hs.inv (h3.1 s1 b hx).2)
      exact ⟨h4, fun h => h5 (fun c' hc' => h c' (by simp [hc']))⟩

theorem Running.crfGradient {n : Nat} (hn : 1 ≤ n) {ord visit : List Var → List Var} (hord : ∀ l, (ord l).Perm l)
    (hvis : ∀ l, (visit l).Perm l) {sched : Sched} (hsched : ∀ l, (sched l).Perm l) {positions : List Nat}
    (samples : List (List Nat)) {s : State F} (hs : Running n s) (he : Equipped positions s) :
    KeepsR n (crfGradient ord visit sched positions samples) s ∧
      ((∀ c ∈ samples, EFG.Valid (s.vars.map Var.size) c) → (∀ p ∈ positions, p < s.vars.length) →
        State.crfGradient ord visit sched positions samples s ≠ .ub) := by
  unfold KeepsR State.crfGradient
  obtain ⟨h1, h2⟩ := hs.betaLoop hn hord hvis hsched (Arith.div Arith.one (Arith.ofNat samples.length)) samples
    (s.tuners.map (fun _ => Arith.zero)) he
  cases ha : Res.mapList (fun t => tunerSum (s.baseAlpha samples) t) s.tuners with
  | throw => exact ⟨hs, fun _ _ => (nomatch ·)⟩
  | ub =>
    refine ⟨trivial, fun hv _ => ?_⟩
    obtain ⟨ys, h3⟩ := tunerSums_ok (g := s.baseAlpha samples) (ts := s.tuners) (fun t ht b hb => by
      have hf := he.fits t ht b hb
      obtain ⟨f, h4, _⟩ := id hf
      obtain ⟨h5, h6⟩ := hf.sub hs.inv h4
      exact baseAlpha_fits hs.inv hv h4 h5 h6)
    rw [ha] at h3; cases h3
  | ok alphas =>
    simp only
    cases hx : State.betaLoop ord visit sched positions (Arith.div Arith.one (Arith.ofNat samples.length))
        (s.tuners.map (fun _ => Arith.zero)) samples s with
    | throw s2 => rw [KeepsR, hx] at h1; exact ⟨h1, fun _ _ => (nomatch ·)⟩
    | ok s2 _ => rw [KeepsR, hx] at h1; exact ⟨h1, fun _ _ => (nomatch ·)⟩
    | ub =>
      refine ⟨trivial, fun hv hp => absurd hx (h2 (fun c hc p hpp => ?_))⟩
      have := (hv c hc).length_eq
      rw [List.length_map] at this
      rw [← this]
      exact hp p hpp

theorem keepsR_drop {α : Type} {n : Nat} {x : M (State F) α} {s : State F} (h : KeepsR n x s) :
    KeepsR n (GOp.drop x) s := by
  unfold KeepsR at h ⊢
  unfold GOp.drop
  cases hx : x s with
  | ok s' a => rw [hx] at h; exact h
  | throw s' => rw [hx] at h; exact h
  | ub => trivial

/-! ### The number of the positions -/

/-- Returning or throwing leaves a sound model with as many evidences at most. -/
def Few (n : Nat) (o : Out (State F) Unit) : Prop :=
  match o with
  | .ok s' _ => s'.evidences.length ≤ n
  | .throw s' => s'.evidences.length ≤ n
  | .ub => True

theorem few_refused {n : Nat} {s s' : State F} (hr : s.evidences.length ≤ n) {f : Fn F}
    (h : s' = s ∨ s' = s.resetBelief ∨ ∃ a b, f.vars.group = [a, b] ∧ (∀ w ∈ s.vars, w.eqv a = false) ∧
      s' = addVar a s.resetBelief) : s'.evidences.length ≤ n := by
  rcases h with h | h | ⟨a, b, _, _, h⟩ <;> rw [h] <;> exact hr

theorem few_inserted {n : Nat} {s s' : State F} (hr : s.evidences.length ≤ n) {p : Nat} {f : Fn F} (h : Inserted s s' p f) :
    s'.evidences.length ≤ n := by rw [h.kept.evidences]; exact hr

theorem addConst_few {n : Nat} {s : State F} (hs : Inv s) (h : s.evidences.length ≤ n) (ptr : Option Nat) :
    Few n (addConstFactor ptr s) := by
  cases ptr with
  | none => exact h
  | some p =>
    unfold addConstFactor
    cases hp : s.heap[p]? with
    | none =>
      rcases addDistribution_none s hp with h1 | h1 <;> rw [h1]
      · exact h
      · trivial
    | some f =>
      rcases addDistribution_cases hs hp with ⟨s', h1, h2, _⟩ | ⟨s', h1, _, _, h3⟩
      · rw [h1]
        have := few_inserted h h2
        exact this
      · rw [h1]; exact few_refused h h3

theorem addTunable_few {n : Nat} {s : State F} (hs : Inv s) (ht : Tuned s) (h : s.evidences.length ≤ n)
    (ptr : Option Nat) (share : Option VarSet) : Few n (addTunable ptr share s) := by
  cases ptr with
  | none => exact h
  | some p =>
    cases hp : s.heap[p]? with
    | none =>
      unfold addTunable
      rcases addDistribution_none s hp with h1 | h1 <;> rw [h1]
      · exact h
      · trivial
    | some f =>
      rcases addTunable_cases hs ht hp share with ⟨s', h1, _, _, h3⟩ | ⟨_, s1, b, h1, _, _, h4⟩
      · rw [h1]
        exact few_refused h h3
      · have hb := few_inserted h h1
        cases share with
        | none => rw [h4]; exact hb
        | some g =>
          rcases h4 with ⟨_, h4⟩ | ⟨i, _, h4⟩
          · rw [h4]; exact hb
          · rw [h4]
            unfold shareTuner
            cases (registered s1 p).tuners[i]? with
            | none => trivial
            | some t =>
              simp only
              cases (registered s1 p).tunerWeight t with
              | throw => exact hb
              | ub => trivial
              | ok w => exact hb

theorem insertConst_few {n : Nat} {t : State F} (h : Grown b P ps t) (hn : t.evidences.length ≤ n) (copy : Bool) (p : Nat) :
    Few n (insertConst copy p t) := by
  have hi := reach_inv h.reach
  cases copy with
  | false => exact addConst_few hi hn _
  | true =>
    show Few n (copyConstFactor p t)
    unfold copyConstFactor
    cases hd : t.deref p with
    | throw => exact hn
    | ub => trivial
    | ok f =>
      simp only
      have hf : f.WF := hi.heapWF f (List.mem_of_getElem? (deref_some hd))
      obtain ⟨g, hg, hgw, _⟩ := hf.cloneTransformed
      rw [hg]
      exact addConst_few (hi.create hgw) hn _

theorem insertTunable_few {n : Nat} {t : State F} (h : Grown b P ps t) (hn : t.evidences.length ≤ n) (copy : Bool) {p : Nat}
    (hp : p ∈ ps) (hexp : ∀ f, P p f → f.weight.isSome) (share : Option VarSet) : Few n (insertTunable copy p share t) := by
  have hi := reach_inv h.reach
  have ht := reach_tuned h.reach
  cases copy with
  | false => exact addTunable_few hi ht hn _ _
  | true =>
    show Few n (copyTunable p share t)
    unfold copyTunable
    cases hd : t.deref p with
    | throw => exact hn
    | ub => trivial
    | ok f =>
      simp only
      have hf : f.WF := hi.heapWF f (List.mem_of_getElem? (deref_some hd))
      obtain ⟨f', h1, h2⟩ := h.holds p hp
      rw [deref_some hd] at h1; cases h1
      obtain ⟨g, hg, hgw, _⟩ := hf.sameExponential (hexp f h2)
      rw [hg]
      exact addTunable_few (hi.create hgw) (alloc_tuned hi ht g) hn _ _

theorem swallow_few {n : Nat} {x : M (State F) Unit} {t : State F} (h : Few n (x t)) : Few n (swallow x t) := by
  unfold swallow
  cases hx : x t with
  | ok s' _ => rw [hx] at h; exact h
  | throw s' => rw [hx] at h; exact h
  | ub => trivial

theorem forEach_few {α : Type} {n : Nat} {f : α → M (State F) Unit} : ∀ (l : List α),
    (∀ a ∈ l, ∀ t, Grown b P ps t → t.evidences.length ≤ n → Grows b P ps (f a t) ∧ Few n (f a t)) → ∀ {t : State F},
    Grown b P ps t → t.evidences.length ≤ n → Few n (forEach f l t) := by
  intro l
  induction l with
  | nil => intro _ t _ h; exact h
  | cons a l ih =>
    intro hf t h hn
    obtain ⟨h1, h2⟩ := hf a (by simp) t h hn
    rw [forEach_cons]
    cases hx : f a t with
    | ok s' _ => rw [hx] at h1 h2; exact ih (fun b hb => hf b (by simp [hb])) h1 h2
    | throw s' => rw [hx] at h2; exact h2
    | ub => trivial

theorem insertCluster_few {n : Nat} (hP : Weightless P) {t : State F} (h : Grown b P ps t) (hn : t.evidences.length ≤ n)
    (copy : Bool) {c : List Nat}
    (hc : ∀ p ∈ c, p ∈ ps ∧ (b → ∀ f, P p f → EqualSizes f) ∧ ∀ f, P p f → f.weight.isSome) :
    Few n (insertTunableCluster copy c t) := by
  unfold insertTunableCluster
  cases c with
  | nil => trivial
  | cons p c =>
    simp only
    cases t.deref p with
    | throw => exact hn
    | ub => trivial
    | ok f =>
      simp only
      obtain ⟨a1, a2, a3⟩ := hc p (by simp)
      have h1 := insertTunable_grows hP h copy a1 a2 a3 none
      have h2 := insertTunable_few h hn copy a1 a3 none
      cases hx : insertTunable copy p none t with
      | ok s' _ =>
        rw [hx] at h1 h2
        refine forEach_few c (fun q hq t ht hn => ?_) h1 h2
        obtain ⟨b1, b2, b3⟩ := hc q (by simp [hq])
        exact ⟨insertTunable_grows hP ht copy b1 b2 b3 _, insertTunable_few ht hn copy b1 b3 _⟩
      | throw s' => rw [hx] at h2; exact h2
      | ub => trivial

theorem absorbFactors_few {n : Nat} {s : State F} {o : VisitOrder} (ho : o.Perms) (copy : Bool) {t : State F}
    (h : Grown b (Offered b s) (s.consts ++ s.tunableClusters.flatten) t) (hn : t.evidences.length ≤ n) :
    Few n (absorbFactors o s copy t) := by
  have hc : ∀ p ∈ o.factors s.consts, p ∈ s.consts ++ s.tunableClusters.flatten := fun p hp =>
    List.mem_append_left _ ((ho.factors _).mem_iff.mp hp)
  have step : ∀ p ∈ o.factors s.consts, ∀ t, Grown b (Offered b s) (s.consts ++ s.tunableClusters.flatten) t →
      t.evidences.length ≤ n → Grows b (Offered b s) (s.consts ++ s.tunableClusters.flatten)
        (swallow (insertConst copy p) t) ∧ Few n (swallow (insertConst copy p) t) := fun p hp t h hn =>
    ⟨swallow_grows (insertConst_grows h copy (hc p hp) (fun hb f hf => hf.2 hb)), swallow_few (insertConst_few h hn copy p)⟩
  have g1 : Grows b (Offered b s) (s.consts ++ s.tunableClusters.flatten) (absorbConst copy (o.factors s.consts) t) :=
    forEach_grows _ (fun p hp t h => swallow_grows (insertConst_grows h copy (hc p hp) (fun hb f hf => hf.2 hb))) h
  have g2 : Few n (absorbConst copy (o.factors s.consts) t) := forEach_few _ step h hn
  unfold absorbFactors andThen
  cases hx : absorbConst copy (o.factors s.consts) t with
  | throw s' => rw [hx] at g2; exact g2
  | ub => trivial
  | ok s' u =>
    rw [hx] at g1 g2
    refine forEach_few _ (fun c hcm t h hn => ?_) g1 g2
    have hall : ∀ p ∈ c, p ∈ s.consts ++ s.tunableClusters.flatten ∧ (b → ∀ f, Offered b s p f → EqualSizes f) ∧
        ∀ f, Offered b s p f → f.weight.isSome := by
      intro p hp
      have hm : p ∈ s.tunableClusters.flatten := List.mem_flatten.mpr ⟨c, hcm, hp⟩
      exact ⟨List.mem_append_right _ hm, fun hb f hf => hf.2 hb, fun f hf => hf.1 hm⟩
    exact ⟨swallow_grows (insertCluster_grows (offered_weightless s) h copy hall),
      swallow_few (insertCluster_few (offered_weightless s) h hn copy hall)⟩

theorem setEvidence_count {ord : List Var → List Var} (hord : ∀ l, (ord l).Perm l) {t t' : State F} (hi : Inv t) {v : Var}
    (hv : v ∈ t.vars) {k : Nat} (h : setEvidence ord v k t = .ok t' ()) : t'.evidences.length ≤ t.evidences.length + 1 := by
  by_cases hk : v.size ≤ k
  · unfold setEvidence at h
    rw [if_pos hk] at h
    cases h
  · have hk' : k < v.size := by omega
    by_cases ho : v ∈ t.obs
    · obtain ⟨s', h3, h4⟩ := setEvidence_observed hord hi.toCore ho hk'
      rw [h] at h3; cases h3
      rw [h4.evidences]
      have := congrArg List.length (AMap.keys_modify t.evidences v (fun _ => k))
      unfold AMap.keys at this
      rw [List.length_map, List.length_map] at this
      omega
    · obtain ⟨s', h3, h4⟩ := setEvidence_hidden hord hi hv ho hk'
      rw [h] at h3; cases h3
      rw [h4.evidences]
      simp

theorem absorbEvidencesByName_count {ord : List Var → List Var} (hord : ∀ l, (ord l).Perm l) :
    ∀ (evs : List (Var × Nat)) {t t' : State F}, Inv t → absorbEvidencesByName ord evs t = .ok t' () →
      t'.evidences.length ≤ t.evidences.length + evs.length := by
  intro evs
  induction evs with
  | nil => intro t t' _ h; cases h; simp
  | cons e evs ih =>
    intro t t' hi h
    unfold absorbEvidencesByName at h
    rw [forEach_cons] at h
    cases hx : setEvidenceByName ord e.1.name e.2 t with
    | throw t1 => rw [hx] at h; cases h
    | ub => rw [hx] at h; cases h
    | ok t1 u =>
      rw [hx] at h
      have hi1 := (exec_preserves (op := .setEvidenceByName ord e.1.name e.2) hi ⟨hord, trivial⟩).1 t1 hx
      have h1 := ih hi1 h
      unfold setEvidenceByName at hx
      rcases findVariable_cases t e.1.name with ⟨v, h2⟩ | h2
      · rw [h2] at hx
        have h3 := setEvidence_count hord hi (findVariable_mem h2).1 hx
        rw [List.length_cons]
        omega
      · rw [h2] at hx; cases hx

end State
end EFG
