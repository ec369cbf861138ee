import Verif.Lemmas.Crf
import Verif.Spec.Prudent
/-
Whatever an absorption does, the receiver is a model reached by public operations.
-/

set_option linter.unusedSectionVars false

namespace EFG
namespace State
variable {F : Type} [Arith F]

/-- The pointers point to factors which satisfy a condition. -/
def Holds (P : Nat → Fn F → Prop) (ps : List Nat) (h : Heap F) : Prop := ∀ p ∈ ps, ∃ g, h[p]? = some g ∧ P p g

/-- A condition which does not depend on the value of the weight. -/
def Weightless (P : Nat → Fn F → Prop) : Prop := ∀ p f w, P p f → P p (f.setWeight w)

/-- The pointers point to such factors, and nothing is cached. -/
structure Stocked (P : Nat → Fn F → Prop) (ps : List Nat) (t : State F) : Prop where
  holds : Holds P ps t.heap
  bare : ∀ v, t.mrg v = none

/-- In every case afterwards it is so. -/
def GoodE (P : Nat → Fn F → Prop) (ps : List Nat) (o : Out (State F) Unit) : Prop :=
  match o with
  | .ok s' _ => Stocked P ps s'
  | .throw s' => Stocked P ps s'
  | .ub => True

variable {P : Nat → Fn F → Prop} {ps : List Nat}

theorem Holds.snoc {h : Heap F} (he : Holds P ps h) (f : Fn F) : Holds P ps (h ++ [f]) := by
  intro p hp
  obtain ⟨g, h1, h2⟩ := he p hp
  exact ⟨g, by rw [List.getElem?_append_left (List.getElem?_eq_some_iff.mp h1).1]; exact h1, h2⟩

theorem Fn.setWeight_isSome {f : Fn F} (w : F) (h : f.weight.isSome) : (f.setWeight w).weight.isSome := by
  unfold Fn.setWeight
  first | rfl | (split <;> first | rfl | exact h)

theorem Fn.setWeight_group (f : Fn F) (w : F) : (f.setWeight w).vars = f.vars := by
  unfold Fn.setWeight
  first | rfl | (split <;> rfl)

theorem Holds.setWeights (hP : Weightless P) {h : Heap F} (he : Holds P ps h) (w : F) (qs : List Nat) :
    Holds P ps (qs.foldl (heapSetWeight w) h) := by
  intro p hp
  obtain ⟨g, h1, h2⟩ := he p hp
  rw [foldl_heapSetWeight_get, h1]
  by_cases hq : p ∈ qs
  · rw [if_pos hq]; exact ⟨_, rfl, hP p g w h2⟩
  · rw [if_neg hq]; exact ⟨_, rfl, h2⟩

theorem Inserted.bare {s s' : State F} {p : Nat} {f : Fn F} (h : Inserted s s' p f) (hb : ∀ v, s.mrg v = none) (v : Var) :
    s'.mrg v = none := by
  cases h with
  | unary _ h => rw [h.mrg]; split <;> first | rfl | exact hb v
  | binary _ h => rw [h.mrg]; split <;> first | rfl | exact hb v

theorem Stocked.inserted {s s' : State F} (hr : Stocked P ps s) {p : Nat} {f : Fn F} (h : Inserted s s' p f) :
    Stocked P ps s' := ⟨by rw [h.kept.heap]; exact hr.holds, h.bare hr.bare⟩

/-- What remains of a refused factor. -/
theorem Stocked.refused {s s' : State F} (hr : Stocked P ps s) {f : Fn F}
    (h : s' = s ∨ s' = s.resetBelief ∨ ∃ a b, f.vars.group = [a, b] ∧ (∀ w ∈ s.vars, w.eqv a = false) ∧
      s' = addVar a s.resetBelief) : Stocked P ps s' := by
  rcases h with h | h | ⟨a, b, _, _, h⟩ <;> rw [h]
  · exact hr
  · exact ⟨hr.holds, hr.bare⟩
  · exact ⟨hr.holds, fun v => by rw [mrg_addVar]; exact hr.bare v⟩

theorem addConst_ready {s : State F} (hs : Inv s) (h : Stocked P ps s) (ptr : Option Nat) :
    GoodE P ps (addConstFactor ptr s) := by
  cases ptr with
  | none => exact h
  | some p =>
    unfold addConstFactor
    cases hp : s.heap[p]? with
    | none =>
      rcases addDistribution_none s hp with h1 | h1 <;> rw [h1]
      · exact h
      · trivial
    | some f =>
      rcases addDistribution_cases hs hp with ⟨s', h1, h2, _⟩ | ⟨s', h1, _, _, h3⟩
      · rw [h1]
        exact ⟨(h.inserted h2).holds, (h.inserted h2).bare⟩
      · rw [h1]
        exact h.refused h3

theorem addTunable_ready (hP : Weightless P) {s : State F} (hs : Inv s) (ht : Tuned s) (h : Stocked P ps s)
    (ptr : Option Nat) (share : Option VarSet) : GoodE P ps (addTunable ptr share s) := by
  cases ptr with
  | none => exact h
  | some p =>
    cases hp : s.heap[p]? with
    | none =>
      unfold addTunable
      rcases addDistribution_none s hp with h1 | h1 <;> rw [h1]
      · exact h
      · trivial
    | some f =>
      rcases addTunable_cases hs ht hp share with ⟨s', h1, _, _, h3⟩ | ⟨_, s1, b, h1, _, _, h4⟩
      · rw [h1]
        exact h.refused h3
      · have hb : Stocked P ps s1 := h.inserted h1
        cases share with
        | none => rw [h4]; exact ⟨hb.holds, hb.bare⟩
        | some g =>
          rcases h4 with ⟨_, h4⟩ | ⟨i, _, h4⟩
          · rw [h4]; exact ⟨hb.holds, hb.bare⟩
          · rw [h4]
            unfold shareTuner
            cases (registered s1 p).tuners[i]? with
            | none => trivial
            | some t =>
              simp only
              cases (registered s1 p).tunerWeight t with
              | throw => exact ⟨hb.holds, hb.bare⟩
              | ub => trivial
              | ok w => exact ⟨hb.holds.setWeights hP w _, hb.bare⟩

/-- The operations change no factor from outside, and are prudent when `b` holds. -/
def When (b : Prop) (s : State F) (op : GOp F) : Prop := (b → Prudent s op) ∧ ∀ p o, op ≠ .mutate p o

theorem reach_when {Q R : State F → GOp F → Prop} (h : ∀ s op, Q s op → R s op) {s : State F} (hr : Reach Q s) : Reach R s := by
  induction hr with
  | init h => exact .init h
  | ok _ hv ha he ih => exact .ok ih hv (h _ _ ha) he
  | throw _ hv ha hm he ih => exact .throw ih hv (h _ _ ha) hm he

/-- The variables of a factor have one size. -/
def EqualSizes (f : Fn F) : Prop := ∀ u ∈ f.vars.group, ∀ v ∈ f.vars.group, u.size = v.size

/-- A model reached by absorbing factors. -/
structure Grown (b : Prop) (P : Nat → Fn F → Prop) (ps : List Nat) (t : State F) : Prop extends Stocked P ps t where
  reach : Reach (When b) t

/-- Returning or throwing leaves such a model. -/
def Grows (b : Prop) (P : Nat → Fn F → Prop) (ps : List Nat) (o : Out (State F) Unit) : Prop :=
  match o with
  | .ok s' _ => Grown b P ps s'
  | .throw s' => Grown b P ps s'
  | .ub => True

variable {b : Prop}

theorem grows_of {t : State F} (h : Reach (When b) t) {op : GOp F} (hv : op.Valid t) (hp : b → Prudent t op)
    (hm : op.RemovesMany = false) (he : GoodE P ps (op.exec t)) (hu : ∀ p o, op ≠ .mutate p o := by nofun) :
    Grows b P ps (op.exec t) := by
  cases hx : op.exec t with
  | ok s' _ => rw [hx] at he; exact ⟨he, .ok h hv ⟨hp, hu⟩ hx⟩
  | throw s' => rw [hx] at he; exact ⟨he, .throw h hv ⟨hp, hu⟩ hm hx⟩
  | ub => trivial

theorem insertConst_grows {t : State F} (h : Grown b P ps t) (copy : Bool) {p : Nat} (hp : p ∈ ps)
    (hsq : b → ∀ f, P p f → EqualSizes f) : Grows b P ps (insertConst copy p t) := by
  have hi := reach_inv h.reach
  have hsq' : b → ∀ f, t.heap[p]? = some f → EqualSizes f := by
    intro hb f hf
    obtain ⟨g, h1, h2⟩ := h.holds p hp
    rw [hf] at h1; cases h1; exact hsq hb f h2
  cases copy with
  | false =>
    refine grows_of (op := .addConst (some p)) h.reach ⟨trivial, trivial⟩ (fun hb => ⟨fun _ _ h => h.elim, nofun, ?_⟩) rfl
      (addConst_ready hi h.toStocked _)
    rintro q f hq hf
    cases hq
    exact hsq' hb f hf
  | true =>
    refine grows_of (op := .copyConst p) h.reach ⟨trivial, trivial⟩ (fun hb => ⟨fun _ _ h => h.elim, nofun, ?_⟩) rfl ?_
    · rintro q f hq hf
      cases hq
      exact hsq' hb f hf
    show GoodE P ps (copyConstFactor p t)
    unfold copyConstFactor
    cases hd : t.deref p with
    | throw => exact h.toStocked
    | ub => trivial
    | ok f =>
      simp only
      have hf : f.WF := hi.heapWF f (List.mem_of_getElem? (deref_some hd))
      obtain ⟨g, hg, hgw, _⟩ := hf.cloneTransformed
      rw [hg]
      exact addConst_ready (hi.create hgw) ⟨h.holds.snoc g, h.bare⟩ _

theorem insertTunable_grows (hP : Weightless P) {t : State F} (h : Grown b P ps t) (copy : Bool) {p : Nat} (hp : p ∈ ps)
    (hsq : b → ∀ f, P p f → EqualSizes f) (hexp : ∀ f, P p f → f.weight.isSome)
    (share : Option VarSet) : Grows b P ps (insertTunable copy p share t) := by
  have hi := reach_inv h.reach
  have ht := reach_tuned h.reach
  have hty : ∀ f, t.heap[p]? = some f → f.weight.isSome := by
    intro f hf
    obtain ⟨g, h1, h2⟩ := h.holds p hp
    rw [hf] at h1; cases h1; exact hexp f h2
  have hsq' : b → ∀ f, t.heap[p]? = some f → EqualSizes f := by
    intro hb f hf
    obtain ⟨g, h1, h2⟩ := h.holds p hp
    rw [hf] at h1; cases h1; exact hsq hb f h2
  cases copy with
  | false =>
    refine grows_of (op := .addTunable (some p) share) h.reach ⟨trivial, hty⟩
      (fun hb => ⟨fun _ _ h => h.elim, nofun, ?_⟩) rfl (addTunable_ready hP hi ht h.toStocked _ _)
    rintro q f hq hf
    cases hq
    exact hsq' hb f hf
  | true =>
    refine grows_of (op := .copyTunable p share) h.reach ⟨trivial, hty⟩
      (fun hb => ⟨fun _ _ h => h.elim, nofun, ?_⟩) rfl ?_
    · rintro q f hq hf
      cases hq
      exact hsq' hb f hf
    show GoodE P ps (copyTunable p share t)
    unfold copyTunable
    cases hd : t.deref p with
    | throw => exact h.toStocked
    | ub => trivial
    | ok f =>
      simp only
      have hf : f.WF := hi.heapWF f (List.mem_of_getElem? (deref_some hd))
      obtain ⟨g, hg, hgw, _⟩ := hf.sameExponential (hty f (deref_some hd))
      rw [hg]
      exact addTunable_ready hP (hi.create hgw) (alloc_tuned hi ht g) ⟨h.holds.snoc g, h.bare⟩ _ _

theorem swallow_grows {x : M (State F) Unit} {t : State F} (h : Grows b P ps (x t)) : Grows b P ps (swallow x t) := by
  unfold swallow
  cases hx : x t with
  | ok s' _ => rw [hx] at h; exact h
  | throw s' => rw [hx] at h; exact h
  | ub => trivial

theorem forEach_grows {α : Type} {f : α → M (State F) Unit} : ∀ (l : List α),
    (∀ a ∈ l, ∀ t, Grown b P ps t → Grows b P ps (f a t)) → ∀ {t : State F}, Grown b P ps t →
    Grows b P ps (forEach f l t) := by
  intro l
  induction l with
  | nil => intro _ t h; exact h
  | cons a l ih =>
    intro hf t h
    have h1 := hf a (by simp) t h
    rw [forEach_cons]
    cases hx : f a t with
    | ok s' _ => rw [hx] at h1; exact ih (fun b hb => hf b (by simp [hb])) h1
    | throw s' => rw [hx] at h1; exact h1
    | ub => trivial

theorem insertCluster_grows (hP : Weightless P) {t : State F} (h : Grown b P ps t) (copy : Bool) {c : List Nat}
    (hc : ∀ p ∈ c, p ∈ ps ∧ (b → ∀ f, P p f → EqualSizes f) ∧ ∀ f, P p f → f.weight.isSome) :
    Grows b P ps (insertTunableCluster copy c t) := by
  unfold insertTunableCluster
  cases c with
  | nil => trivial
  | cons p c =>
    simp only
    cases t.deref p with
    | throw => exact h
    | ub => trivial
    | ok f =>
      simp only
      obtain ⟨a1, a2, a3⟩ := hc p (by simp)
      have h1 := insertTunable_grows hP h copy a1 a2 a3 none
      cases hx : insertTunable copy p none t with
      | ok s' _ =>
        rw [hx] at h1
        refine forEach_grows c (fun q hq t ht => ?_) h1
        obtain ⟨b1, b2, b3⟩ := hc q (by simp [hq])
        exact insertTunable_grows hP ht copy b1 b2 b3 _
      | throw s' => rw [hx] at h1; exact h1
      | ub => trivial

theorem andThen_grows {x y : M (State F) Unit} {t : State F} (h : Grows b P ps (x t))
    (hy : ∀ t, Grown b P ps t → Grows b P ps (y t)) : Grows b P ps (andThen x y t) := by
  unfold andThen
  cases hx : x t with
  | ok s' _ => rw [hx] at h; exact hy s' h
  | throw s' => rw [hx] at h; exact h
  | ub => trivial

/-- What the absorption needs of the factors of the source. -/
def Offered (b : Prop) (s : State F) (p : Nat) (f : Fn F) : Prop :=
  (p ∈ s.tunableClusters.flatten → f.weight.isSome) ∧ (b → EqualSizes f)

theorem offered_weightless (s : State F) : Weightless (Offered b s) := by
  intro p f w h
  refine ⟨fun hp => Fn.setWeight_isSome w (h.1 hp), fun hb => ?_⟩
  unfold EqualSizes
  rw [Fn.setWeight_group]
  exact h.2 hb

theorem absorbFactors_grows {s : State F} {o : VisitOrder} (ho : o.Perms) (copy : Bool) {t : State F}
    (h : Grown b (Offered b s) (s.consts ++ s.tunableClusters.flatten) t) :
    Grows b (Offered b s) (s.consts ++ s.tunableClusters.flatten) (absorbFactors o s copy t) := by
  refine andThen_grows (forEach_grows _ (fun p hp t h => swallow_grows (insertConst_grows h copy
    (List.mem_append_left _ ((ho.factors _).mem_iff.mp hp)) (fun hb f hf => hf.2 hb))) h) ?_
  intro t h
  refine forEach_grows _ (fun c hc t h => swallow_grows (insertCluster_grows (offered_weightless s) h copy
    (fun p hp => ?_))) h
  have hm : p ∈ s.tunableClusters.flatten := List.mem_flatten.mpr ⟨c, hc, hp⟩
  exact ⟨List.mem_append_right _ hm, fun hb f hf => hf.2 hb, fun f hf => hf.1 hm⟩

theorem grown_initial {s : State F} (hb : Built s.heap) (ht : Tuned s) (hcf : ∀ p ∈ s.consts, p ∈ s.factors)
    (hi : Inv s) (hsq : b → ∀ u v, (s.lnk u v).isSome → u.size = v.size) :
    Grown b (Offered b s) (s.consts ++ s.tunableClusters.flatten) (State.initial s.heap) := by
  refine ⟨⟨?_, fun v => rfl⟩, .init hb⟩
  intro p hp
  have htun : p ∈ s.tunableClusters.flatten → p ∈ s.tunables := by
    intro h
    obtain ⟨c, hc, hpc⟩ := List.mem_flatten.mp h
    obtain ⟨tn, htn, rfl⟩ := List.mem_map.mp hc
    obtain ⟨b, hbm, rfl⟩ := List.mem_map.mp hpc
    exact (ht.of tn htn b hbm).reg
  have hpf : p ∈ s.factors := by
    rcases List.mem_append.mp hp with h | h
    · exact hcf p h
    · exact ht.reg p (htun h)
  obtain ⟨f, h1, h2⟩ := hi.reg p hpf
  refine ⟨f, h1, fun h => ?_, fun hbb u hu v hv => ?_⟩
  · obtain ⟨g, h3, h4⟩ := ht.exp p (htun h)
    rw [h1] at h3; cases h3; exact h4
  · rcases h2 with ⟨w, h3, _⟩ | ⟨x, y, h3, h4⟩
    · rw [h3, List.mem_singleton] at hu hv
      rw [hu, hv]
    · have := hsq hbb x y (by rw [h4]; rfl)
      rw [h3] at hu hv
      simp only [List.mem_cons, List.not_mem_nil, or_false] at hu hv
      rcases hu with rfl | rfl <;> rcases hv with rfl | rfl <;> first | rfl | exact this | exact this.symm

theorem setEvidence_bare {ord : List Var → List Var} (hord : ∀ l, (ord l).Perm l) {t : State F} (hi : Inv t)
    (h : ∀ v, t.mrg v = none) (v : Var) (k : Nat) :
    match setEvidence ord v k t with
    | .ok s' _ => ∀ v, s'.mrg v = none
    | .throw s' => ∀ v, s'.mrg v = none
    | .ub => True := by
  by_cases hk : v.size ≤ k
  · unfold setEvidence; rw [if_pos hk]; exact h
  · cases hl : t.locate v with
    | none => unfold setEvidence; rw [if_neg hk, hl]; exact h
    | some e =>
      obtain ⟨h1, h2⟩ := hi.net.locate_some hl
      rw [setEvidence_eqv (w := e.1) (by rw [Var.eqv_comm]; exact h2)]
      have hk' : k < e.1.size := by rw [(Var.eqv_iff.mp h2).2]; omega
      by_cases ho : e.1 ∈ t.obs
      · obtain ⟨s', h3, h4⟩ := setEvidence_observed hord hi.toCore ho hk'
        rw [h3]
        intro v
        rw [h4.mrg]; split <;> first | rfl | exact h v
      · obtain ⟨s', h3, h4⟩ := setEvidence_hidden hord hi h1 ho hk'
        rw [h3]
        intro v
        rw [h4.mrg]; split <;> first | rfl | exact h v

theorem absorbEvidencesByName_grows {ord : List Var → List Var} (hord : ∀ l, (ord l).Perm l)
    (evs : List (Var × Nat)) {t : State F} (h : Grown b P ps t) : Grows b P ps (absorbEvidencesByName ord evs t) := by
  refine forEach_grows _ (fun e _ t h => ?_) h
  have hi := reach_inv h.reach
  have hv : (GOp.setEvidenceByName ord e.1.name e.2 : GOp F).Valid t := ⟨hord, trivial⟩
  have h1 := exec_all hi hv rfl rfl
  refine grows_of (op := .setEvidenceByName ord e.1.name e.2) h.reach hv
    (fun hb => ⟨fun _ _ h => h.elim, nofun, nofun⟩) rfl ?_
  have hbare : match (GOp.setEvidenceByName ord e.1.name e.2 : GOp F).exec t with
      | .ok s' _ => ∀ v, s'.mrg v = none
      | .throw s' => ∀ v, s'.mrg v = none
      | .ub => True := by
    show match setEvidenceByName ord e.1.name e.2 t with
      | .ok s' _ => ∀ v, s'.mrg v = none
      | .throw s' => ∀ v, s'.mrg v = none
      | .ub => True
    unfold setEvidenceByName
    rcases findVariable_cases t e.1.name with ⟨v, h2⟩ | h2
    · rw [h2]; exact setEvidence_bare hord hi h.bare v e.2
    · rw [h2]; exact h.bare
  cases hx : (GOp.setEvidenceByName ord e.1.name e.2 : GOp F).exec t with
  | ok s' _ => rw [hx] at hbare; exact ⟨by rw [(h1.1 s' hx).heap]; exact h.holds, hbare⟩
  | throw s' => rw [hx] at hbare; exact ⟨by rw [(h1.2 s' hx).heap]; exact h.holds, hbare⟩
  | ub => trivial

/-- Whatever the source is, a conditional random field is a reached model with other tuners. -/
theorem make_when {s : State F} {o : VisitOrder} (ho : o.Perms) (hs : Inv s) (hb : Built s.heap) (ht : Tuned s)
    (hcf : ∀ p ∈ s.consts, p ∈ s.factors) (hsq : b → ∀ u v, (s.lnk u v).isSome → u.size = v.size) {copy : Bool}
    {c : Crf F} (h : Crf.make o s copy = .ok c) :
    ∃ t, Reach (When b) t ∧ (∀ v, t.mrg v = none) ∧ c.state = { t with tuners := c.state.tuners } ∧
      c.state.tunableClusters = t.tunableClusters ∧ (∀ tn ∈ c.state.tuners, ∀ b ∈ tn, c.state.TunerFits b) ∧
      (∀ tn ∈ t.tunableClusters, ∀ p ∈ tn, ¬ t.Pinned p) ∧ c.positions = s.findPositions (o.vars s.observedVariables) := by
  unfold Crf.make crfAbsorb at h
  by_cases hev : s.evidences.isEmpty
  · rw [if_pos hev] at h; cases h
  rw [if_neg hev] at h
  unfold andThen at h
  have h1 := absorbFactors_grows ho copy (grown_initial hb ht hcf hs hsq)
  cases hx : absorbFactors o s copy (State.initial s.heap) with
  | throw t => rw [hx] at h; cases h
  | ub => rw [hx] at h; cases h
  | ok t1 u =>
    rw [hx] at h h1
    simp only at h
    have h2 := absorbEvidencesByName_grows ho.vars (o.evidences s.evidences) h1
    cases hy : absorbEvidencesByName o.vars (o.evidences s.evidences) t1 with
    | throw t => rw [hy] at h; cases h
    | ub => rw [hy] at h; cases h
    | ok t2 u =>
      rw [hy] at h h2
      simp only at h
      rcases replaceTuners_cases (reach_inv h2.reach) (reach_tuned h2.reach) with ⟨ts, k1, k2, k3, k4⟩ | ⟨k1, k2⟩
      · rw [k1] at h
        cases h
        exact ⟨t2, h2.reach, h2.bare, rfl, k2, k3, k4, rfl⟩
      · rw [k1] at h; cases h

theorem make_reach {s : State F} {o : VisitOrder} (ho : o.Perms) (hs : Inv s) (hb : Built s.heap) (ht : Tuned s)
    (hr : Registered s) {copy : Bool} {c : Crf F} (h : Crf.make o s copy = .ok c) :
    ∃ t, Reach anyOp t ∧ c.state = { t with tuners := c.state.tuners } ∧
      c.state.tunableClusters = t.tunableClusters ∧ (∀ tn ∈ c.state.tuners, ∀ b ∈ tn, c.state.TunerFits b) ∧
      (∀ tn ∈ t.tunableClusters, ∀ p ∈ tn, ¬ t.Pinned p) ∧ c.positions = s.findPositions (o.vars s.observedVariables) := by
  obtain ⟨t, h1, _, h2⟩ := make_when (b := False) ho hs hb ht
    (fun p hp => hr.mem_iff.mpr (List.mem_append_left _ hp)) nofun h
  exact ⟨t, reach_when (fun _ _ _ => trivial) h1, h2⟩

/-- The factors of a cluster of a conditional random field which was just made have one weight. -/
theorem make_equal {s : State F} {o : VisitOrder} (ho : o.Perms) (hs : Inv s) (hb : Built s.heap) (ht : Tuned s)
    (hr : Registered s) {copy : Bool} {c : Crf F} (h : Crf.make o s copy = .ok c) :
    ∃ t, Shared t ∧ Tuned t ∧ c.state.heap = t.heap ∧ c.state.tunableClusters = t.tunableClusters := by
  obtain ⟨t, h1, _, h2, h3, _⟩ := make_when (b := False) ho hs hb ht
    (fun p hp => hr.mem_iff.mpr (List.mem_append_left _ hp)) nofun h
  exact ⟨t, reach_shared h1 (fun _ _ hw p w he => (hw.2 p _ he).elim), reach_tuned h1, by rw [h2], h3⟩

/-- After an evidence was set by name there is an evidence. -/
theorem setEvidenceByName_obs {ord : List Var → List Var} (hord : ∀ l, (ord l).Perm l) {t t' : State F} (hi : Inv t)
    {name : String} {k : Nat} (h : setEvidenceByName ord name k t = .ok t' ()) : Inv t' ∧ t'.obs ≠ [] := by
  refine ⟨(exec_preserves (op := .setEvidenceByName ord name k) hi ⟨hord, trivial⟩).1 t' h, ?_⟩
  unfold setEvidenceByName at h
  rcases findVariable_cases t name with ⟨v, h1⟩ | h1
  · rw [h1] at h
    simp only at h
    obtain ⟨hv, _⟩ := findVariable_mem h1
    by_cases hk : v.size ≤ k
    · unfold setEvidence at h
      rw [if_pos hk] at h
      cases h
    · have hk' : k < v.size := by omega
      by_cases ho : v ∈ t.obs
      · obtain ⟨s', h3, h4⟩ := setEvidence_observed hord hi.toCore ho hk'
        rw [h] at h3; cases h3
        unfold State.obs
        rw [h4.evidences, AMap.keys_modify]
        exact List.ne_nil_of_mem ho
      · obtain ⟨s', h3, h4⟩ := setEvidence_hidden hord hi hv ho hk'
        rw [h] at h3; cases h3
        unfold State.obs
        rw [h4.evidences, obs_append]
        simp
  · rw [h1] at h; cases h

theorem absorbEvidencesByName_obs {ord : List Var → List Var} (hord : ∀ l, (ord l).Perm l) :
    ∀ (evs : List (Var × Nat)) {t t' : State F}, Inv t → (evs ≠ [] ∨ t.obs ≠ []) →
      absorbEvidencesByName ord evs t = .ok t' () → t'.obs ≠ [] := by
  intro evs
  induction evs with
  | nil =>
    intro t t' _ hne h
    cases h
    exact hne.resolve_left (fun h => h rfl)
  | cons e evs ih =>
    intro t t' hi _ h
    unfold absorbEvidencesByName at h
    rw [forEach_cons] at h
    cases hx : setEvidenceByName ord e.1.name e.2 t with
    | throw t1 => rw [hx] at h; cases h
    | ub => rw [hx] at h; cases h
    | ok t1 u =>
      rw [hx] at h
      obtain ⟨h1, h2⟩ := setEvidenceByName_obs hord hi hx
      exact ih h1 (Or.inr h2) h

/-- A conditional random field has an evidence. -/
theorem make_obs {s : State F} {o : VisitOrder} (ho : o.Perms) (hs : Inv s) (hb : Built s.heap) (ht : Tuned s)
    (hr : Registered s) {copy : Bool} {c : Crf F} (h : Crf.make o s copy = .ok c) : c.state.obs ≠ [] := by
  unfold Crf.make crfAbsorb at h
  by_cases hev : s.evidences.isEmpty
  · rw [if_pos hev] at h; cases h
  rw [if_neg hev] at h
  unfold andThen at h
  have h1 := absorbFactors_grows (b := False) ho copy (grown_initial hb ht
    (fun p hp => hr.mem_iff.mpr (List.mem_append_left _ hp)) hs nofun)
  cases hx : absorbFactors o s copy (State.initial s.heap) with
  | throw t => rw [hx] at h; cases h
  | ub => rw [hx] at h; cases h
  | ok t1 u =>
    rw [hx] at h h1
    simp only at h
    cases hy : absorbEvidencesByName o.vars (o.evidences s.evidences) t1 with
    | throw t => rw [hy] at h; cases h
    | ub => rw [hy] at h; cases h
    | ok t2 u =>
      rw [hy] at h
      simp only at h
      have h2 : t2.obs ≠ [] := by
        refine absorbEvidencesByName_obs ho.vars _ (reach_inv h1.reach) (Or.inl ?_) hy
        intro he
        have := ho.evidences s.evidences
        rw [he] at this
        rw [this.symm.eq_nil] at hev
        exact hev rfl
      unfold replaceTuners at h
      split at h
      · rename_i hz
        split at hz
        · cases hz
          cases h
          exact h2
        · cases hz
        · cases hz
      · cases h
      · cases h

/-- A conditional random field is locked after it is made. -/
theorem crf_reach {allowed : State F → GOp F → Prop} {src : State F} (h : Reach allowed src) {o : VisitOrder}
    (ho : o.Perms) {copy : Bool} {c : Crf F} {permitted : State F → CrfOp F → Prop}
    (hc : CrfReach permitted src o copy c) :
    ∃ c0, Crf.make o src copy = .ok c0 ∧ Inv c0.state ∧ Inv c.state ∧ Locked c0.state c.state ∧
      c.positions = c0.positions := by
  induction hc with
  | @made c hm =>
    obtain ⟨t, h1, h2, _⟩ := make_reach ho (reach_inv h) (reach_built h) (reach_tuned h) (reach_registered h) hm
    have hi : Inv c.state := by rw [h2]; exact (reach_inv h1).registry _ _ _
    exact ⟨c, hm, hi, hi, .rfl' _, rfl⟩
  | @ok c s' op hc hv _ he ih =>
    obtain ⟨c0, h1, h2, h3, h4, h5⟩ := ih
    obtain ⟨h6, h7⟩ := (locksAt_cases (crf_locks h3 c.positions hv)).1 s' () he
    exact ⟨c0, h1, h2, h6, h4.trans h7, h5⟩
  | @throw c s' op hc hv _ he ih =>
    obtain ⟨c0, h1, h2, h3, h4, h5⟩ := ih
    obtain ⟨h6, h7⟩ := (locksAt_cases (crf_locks h3 c.positions hv)).2 s' he
    exact ⟨c0, h1, h2, h6, h4.trans h7, h5⟩

/-- A conditional random field always has an evidence. -/
theorem crf_observed {allowed : State F → GOp F → Prop} {src : State F} (h : Reach allowed src) {o : VisitOrder}
    (ho : o.Perms) {copy : Bool} {c : Crf F} {permitted : State F → CrfOp F → Prop}
    (hc : CrfReach permitted src o copy c) : c.state.evidences ≠ [] := by
  obtain ⟨c0, h1, _, _, h4, _⟩ := crf_reach h ho hc
  have h2 := make_obs ho (reach_inv h) (reach_built h) (reach_tuned h) (reach_registered h) h1
  rw [← h4.obs] at h2
  intro he
  unfold State.obs at h2
  rw [he] at h2
  exact h2 rfl

theorem Locked.factorOn {s s' : State F} (hs : Inv s) (h : Locked s s') (p : Nat) (l : List Var) :
    s'.FactorOn p l ↔ s.FactorOn p l := by
  constructor
  · rintro ⟨h1, f', h2, h3⟩
    rw [h.factors] at h1
    obtain ⟨f, h4, _⟩ := hs.reg p h1
    obtain ⟨g, h5, h6, _⟩ := h.heap p h1 f h4
    rw [h2] at h5; cases h5
    exact ⟨h1, f, h4, by rw [← h6]; exact h3⟩
  · rintro ⟨h1, f, h2, h3⟩
    obtain ⟨g, h5, h6, _⟩ := h.heap p h1 f h2
    exact ⟨by rw [h.factors]; exact h1, g, h5, by rw [h6]; exact h3⟩

theorem Locked.observes {s s' : State F} (h : Locked s s') (v : Var) : s'.Observes v ↔ s.Observes v := by
  rw [observes_iff, observes_iff, h.obs]

theorem Locked.fits {s s' : State F} (hs : Inv s) (h : Locked s s') {b : BaseTuner} (hb : b.factor ∈ s.factors)
    (ht : s.TunerFits b) : s'.TunerFits b := by
  obtain ⟨f, h1, h2, h3⟩ := ht
  obtain ⟨g, h4, h5, _⟩ := h.heap _ hb f h1
  have hh : ∀ v, s.Hidden v → s'.Hidden v := by
    rintro v ⟨hv, hn⟩
    exact ⟨by rw [h.vars]; exact hv, fun ho => hn ((h.observes v).mp ho)⟩
  refine ⟨g, h4, by rw [h5, h.vars]; exact h2, ?_⟩
  rw [h5]
  rcases h3 with ⟨v, a1, a2, a3⟩ | ⟨u, v, a1, a2, a3, a4⟩ | ⟨u, v, a1, a2, a3, a4⟩
  · exact Or.inl ⟨v, a1, hh v a2, a3⟩
  · exact Or.inr (Or.inl ⟨u, v, a1, hh u a2, hh v a3, a4⟩)
  · exact Or.inr (Or.inr ⟨u, v, a1, hh u a2, (h.observes v).mpr a3, a4⟩)

end State
end EFG
