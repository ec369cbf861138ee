import Verif.Lemmas.AbsorbParts
/- The end of the absorption of a model. -/

set_option linter.unusedSectionVars false

namespace EFG
namespace State
variable {F : Type} [Arith F]

theorem notMem_of_nodup {α : Type} {l done rest : List α} {p : α} (hnd : l.Nodup) (ho : l = done ++ p :: rest) : p ∉ done := by
  intro hm
  rw [ho] at hnd
  exact (List.nodup_append.mp hnd).2.2 p hm p (by simp) rfl

/-- The remaining factors of a cluster. -/
theorem PartT.others {s : State F} {copy : Bool} {order : List Nat} {L : List (List Nat)} {p0 : Nat} (hs : Inv s)
    (hnd : order.Nodup) (hsub : ∀ p ∈ order, p ∈ s.factors) {f0 : Fn F} (hf0 : s.heap[p0]? = some f0)
    (hun : ∀ d ∈ L, ∀ p ∈ d, ∀ f', s.heap[p]? = some f' → ¬ f'.vars.group.Perm f0.vars.group) {w : F} (ps : List Nat) :
    ∀ {done rest c : List Nat} {t : State F}, PartT s copy order done (L ++ [p0 :: c]) t →
    order = done ++ (ps ++ rest) → (∀ q ∈ p0 :: (c ++ ps), ∀ f', s.heap[q]? = some f' → f'.weight = some w) →
    ∃ t', forEach (fun q => insertTunable copy q (some f0.vars.sorted)) ps t = .ok t' () ∧
      PartT s copy order (done ++ ps) (L ++ [p0 :: (c ++ ps)]) t' ∧ t'.consts = t.consts := by
  induction ps with
  | nil =>
    intro done rest c t h ho hws
    exact ⟨t, rfl, by simpa using h, rfl⟩
  | cons p ps ih =>
    intro done rest c t h ho hws
    have ho' : order = done ++ p :: (ps ++ rest) := by rw [ho]; simp
    have hp := hsub p (by rw [ho]; simp)
    obtain ⟨f, hf, _⟩ := hs.reg p hp
    obtain ⟨t1, h1, h2, h3⟩ := h.next hs (fun x hx => hsub x (by rw [ho]; simp [hx])) ho' (notMem_of_nodup hnd ho') hp hf
      hf0 hun (hws p (by simp) f hf) (fun q hq => hws q (by
        rcases List.mem_cons.mp hq with h | h
        · simp [h]
        · simp [h]))
    obtain ⟨t2, g1, g2, g3⟩ := ih (rest := rest) (c := c ++ [p]) h2 (by rw [ho]; simp) (by
      intro q hq; exact hws q (by simpa using hq))
    refine ⟨t2, ?_, ?_, by rw [g3, h3]⟩
    · rw [forEach_cons, h1]
      exact g1
    · simpa using g2

/-- A cluster. -/
theorem PartT.cluster {s t : State F} {copy : Bool} {order done rest : List Nat} {L : List (List Nat)} {p : Nat}
    {ps : List Nat} (hs : Inv s) (hnd : order.Nodup) (hsub : ∀ p ∈ order, p ∈ s.factors)
    (h : PartT s copy order done L t) (ho : order = done ++ (p :: ps ++ rest))
    (hun : ps ≠ [] → ∀ d ∈ L, ∀ p' ∈ d, ∀ f f', s.heap[p]? = some f → s.heap[p']? = some f' →
      ¬ f'.vars.group.Perm f.vars.group) {w : F}
    (hws : ∀ q ∈ p :: ps, ∀ f', s.heap[q]? = some f' → f'.weight = some w) :
    ∃ t', insertTunableCluster copy (p :: ps) t = .ok t' () ∧ PartT s copy order (done ++ p :: ps) (L ++ [p :: ps]) t' ∧
      t'.consts = t.consts := by
  have ho' : order = done ++ p :: (ps ++ rest) := by rw [ho]; simp
  have hp := hsub p (by rw [ho]; simp)
  obtain ⟨f, hf, _⟩ := hs.reg p hp
  obtain ⟨t1, h1, h2, h3⟩ := h.first hs (fun x hx => hsub x (by rw [ho]; simp [hx])) ho' (notMem_of_nodup hnd ho') hp hf
    (by rw [hws p (by simp) f hf]; rfl)
  unfold insertTunableCluster
  simp only
  rw [deref_eq (h.get hf)]
  simp only
  rw [h1]
  simp only
  cases ps with
  | nil => exact ⟨t1, rfl, h2, h3⟩
  | cons q ps =>
    obtain ⟨t2, g1, g2, g3⟩ := PartT.others hs hnd hsub hf (L := L) (fun d hd p' hp' f' hf' => hun (by simp) d hd p' hp' f f' hf hf')
      (w := w) (q :: ps) (done := done ++ [p]) (rest := rest) (c := []) h2 (by rw [ho]; simp) (by
        intro x hx; exact hws x (by simpa using hx))
    exact ⟨t2, g1, by simpa using g2, by rw [g3, h3]⟩

/-- The clusters. -/
theorem PartT.all {s : State F} {copy : Bool} {order : List Nat} (hs : Inv s) (hnd : order.Nodup)
    (hsub : ∀ p ∈ order, p ∈ s.factors) (cs : List (List Nat)) : ∀ {done : List Nat} {L : List (List Nat)} {t : State F},
    PartT s copy order done L t → order = done ++ cs.flatten → (∀ c ∈ cs, c ≠ []) →
    (∀ c ∈ cs, ∃ w, ∀ q ∈ c, ∀ f', s.heap[q]? = some f' → f'.weight = some w) →
    (∀ (i j : Nat) (c d : List Nat) (p q : Nat), i < j → (L ++ cs)[i]? = some c →
      (L ++ cs)[j]? = some (p :: q :: d) → ∀ p' ∈ c, ∀ f f', s.heap[p]? = some f → s.heap[p']? = some f' →
        ¬ f'.vars.group.Perm f.vars.group) →
    ∃ t', absorbTunableClusters copy cs t = .ok t' () ∧ PartT s copy order order (L ++ cs) t' ∧ t'.consts = t.consts := by
  induction cs with
  | nil =>
    intro done L t h ho _ _ _
    rw [List.flatten_nil, List.append_nil] at ho
    subst ho
    exact ⟨t, rfl, by simpa using h, rfl⟩
  | cons c cs ih =>
    intro done L t h ho hne hws hun
    cases c with
    | nil => exact absurd rfl (hne [] (by simp))
    | cons p ps =>
      obtain ⟨w, hw⟩ := hws (p :: ps) (by simp)
      obtain ⟨t1, h1, h2, h3⟩ := h.cluster hs hnd hsub (rest := cs.flatten) (by rw [ho]; simp) (by
        intro hps d hd p' hp' f f' hf hf'
        cases ps with
        | nil => exact absurd rfl hps
        | cons q ps =>
          obtain ⟨i, hi⟩ := List.mem_iff_getElem?.mp hd
          have hil := (List.getElem?_eq_some_iff.mp hi).1
          exact hun i L.length d ps p q hil (by rw [List.getElem?_append_left hil]; exact hi) (by simp) p' hp' f f' hf hf') hw
      obtain ⟨t2, g1, g2, g3⟩ := ih h2 (by rw [ho]; simp) (fun c hc => hne c (List.mem_cons_of_mem _ hc))
        (fun c hc => hws c (List.mem_cons_of_mem _ hc)) (by
          intro i j c d p' q hij hi hj
          refine hun i j c d p' q hij ?_ ?_
          · simpa using hi
          · simpa using hj)
      refine ⟨t2, ?_, by simpa using g2, by rw [g3, h3]⟩
      unfold absorbTunableClusters at g1 ⊢
      rw [forEach_cons]
      unfold swallow at g1 ⊢
      rw [h1]
      exact g1

/-! ### Evidences -/

/-- What setting evidences does not change. -/
structure Rest (s s' : State F) : Prop where
  heap : s'.heap = s.heap
  vars : s'.vars = s.vars
  factors : s'.factors = s.factors
  consts : s'.consts = s.consts
  tunables : s'.tunables = s.tunables
  tuners : s'.tuners = s.tuners

theorem absorbEvidences_ok {ord : List Var → List Var} (hord : ∀ l, (ord l).Perm l) (evs : List (Var × Nat)) :
    ∀ {t : State F}, Reach anyOp t → (AMap.keys evs).Nodup → (∀ e ∈ evs, e.1 ∈ t.vars ∧ e.1 ∉ t.obs ∧ e.2 < e.1.size) →
    ∃ t', absorbEvidences ord evs t = .ok t' () ∧ Reach anyOp t' ∧ Rest t t' ∧ t'.evidences = t.evidences ++ evs := by
  induction evs with
  | nil => intro t h _ _; exact ⟨t, rfl, h, ⟨rfl, rfl, rfl, rfl, rfl, rfl⟩, by simp⟩
  | cons e evs ih =>
    intro t h hnd hev
    obtain ⟨h1, h2, h3⟩ := hev e (by simp)
    obtain ⟨t1, g1, g2⟩ := setEvidence_hidden hord (reach_inv h) h1 h2 h3
    have hi : Reach anyOp t1 := .ok (op := .setEvidence ord e.1 e.2) h ⟨hord, trivial⟩ trivial g1
    have hf := g2.frame
    have hnd' : e.1 ∉ AMap.keys evs ∧ (AMap.keys evs).Nodup := by
      have : AMap.keys (e :: evs) = e.1 :: AMap.keys evs := rfl
      rw [this] at hnd
      exact List.nodup_cons.mp hnd
    obtain ⟨t2, k1, k2, k3, k4⟩ := ih hi hnd'.2 (by
      intro e' he'
      obtain ⟨a1, a2, a3⟩ := hev e' (List.mem_cons_of_mem _ he')
      refine ⟨by rw [hf.vars]; exact a1, ?_, a3⟩
      show e'.1 ∉ AMap.keys t1.evidences
      rw [g2.evidences, obs_append]
      intro hm
      rcases List.mem_append.mp hm with hm | hm
      · exact a2 hm
      · simp at hm
        exact hnd'.1 (hm ▸ List.mem_map_of_mem he'))
    refine ⟨t2, ?_, k2, ⟨k3.heap.trans hf.heap, k3.vars.trans hf.vars, k3.factors.trans hf.factors,
      k3.consts.trans hf.consts, k3.tunables.trans hf.tunables, k3.tuners.trans hf.tuners⟩, ?_⟩
    · unfold absorbEvidences at k1 ⊢
      rw [forEach_cons, g1]
      exact k1
    · rw [k4, g2.evidences]; simp

/-! ### The models -/

/-- The variables of a model whose variables are covered, read from the factors. -/
theorem Inv.vars_iff {s : State F} (hs : Inv s) (hc : s.Covered) {order : List Nat} (hp : order.Perm s.factors) (v : Var) :
    (∃ p ∈ order, ∃ f, s.heap[p]? = some f ∧ v ∈ f.vars.group) ↔ v ∈ s.vars := by
  constructor
  · rintro ⟨p, hp', f, hf, hv⟩
    obtain ⟨f', hf', hreg⟩ := hs.reg p (hp.mem_iff.mp hp')
    rw [hf] at hf'
    cases hf'
    rcases hreg with ⟨x, h3, h4⟩ | ⟨u, x, h3, h4⟩
    · rw [h3] at hv
      have := (hs.unary x p h4).2.1
      simp at hv
      rw [hv]; exact this
    · rw [h3] at hv
      have := hs.net.memL u x p h4
      simp at hv
      rcases hv with rfl | rfl
      · exact this.1
      · exact this.2.1
  · intro hv
    obtain ⟨p, l, ⟨h1, f, h2, h3⟩, h4⟩ := hc v hv
    exact ⟨p, hp.mem_iff.mpr h1, f, h2, by rw [h3]; exact h4⟩

theorem place_inj {s : State F} {copy : Bool} {order : List Nat} {p q : Nat} (hp : p ∈ order)
    (h : place s copy order p = place s copy order q) : p = q := by
  cases copy with
  | false => exact h
  | true =>
    unfold place at h
    rw [if_pos rfl, if_pos rfl] at h
    exact (List.idxOf_inj hp).mp (by omega)

/-- Nothing is lost when all the factors have been absorbed and the evidences are set. -/
theorem Part.finish {s t : State F} {copy : Bool} {order : List Nat} {o : VisitOrder} (ho : o.Perms) (hs : Inv s)
    (hc : s.Covered) (hp : order.Perm s.factors) (h : Part s copy order order t) :
    ∃ t', absorbEvidences o.vars (o.evidences s.evidences) t = .ok t' () ∧ Reach anyOp t' ∧ Rest t t' ∧
      CopyOf s t' (place s copy order) := by
  have hvars : ∀ v, v ∈ t.vars ↔ v ∈ s.vars := fun v => (h.vars v).trans (hs.vars_iff hc hp v)
  have hpe := ho.evidences s.evidences
  have hk : (AMap.keys (o.evidences s.evidences)).Perm s.obs := hpe.map _
  obtain ⟨t', h1, h2, h3, h4⟩ := absorbEvidences_ok ho.vars (o.evidences s.evidences) h.reach
    (hk.nodup_iff.mpr hs.obsNodup) (by
      intro e he
      have he' := hpe.mem_iff.mp he
      have hobs : e.1 ∈ s.obs := List.mem_map_of_mem he'
      refine ⟨(hvars _).mpr (hs.obsMem _ hobs), ?_, ?_⟩
      · show e.1 ∉ AMap.keys t.evidences
        rw [h.evidences]
        simp [AMap.keys]
      · exact hs.obsVal e.1 e.2 (AMap.find?_of_mem hs.obsNodup he'))
  refine ⟨t', h1, h2, h3, ?_⟩
  refine ⟨by rw [h3.heap]; exact h.heap, fun v => by rw [h3.vars]; exact hvars v, ?_, ?_, ?_, ?_⟩
  · rw [h4, h.evidences]; exact hpe
  · rw [h3.factors, h.factors]; exact hp.map _
  · intro p hp' q _ he
    exact place_inj (hp.mem_iff.mpr hp') he
  · intro p hp'
    rw [h3.heap]
    exact h.same p (hp.mem_iff.mpr hp')

theorem graphAbsorb_copy {s : State F} {o : VisitOrder} (ho : o.Perms) (hs : Inv s) (hb : Built s.heap) (hc : s.Covered) (copy : Bool) :
    ∃ t, graphAbsorb o s copy (State.initial s.heap) = .ok t () ∧ Reach anyOp t ∧
      CopyOf s t (place s copy (o.factors s.factors)) ∧ t.consts.Perm t.factors ∧ t.tuners = [] := by
  have hp := ho.factors s.factors
  obtain ⟨t1, h1, h2, h3, h4, h5⟩ := Part.consts hs (hp.nodup_iff.mpr hs.facNodup) (fun p hp' => hp.mem_iff.mp hp')
    (o.factors s.factors) (rest := []) (part_initial hb copy (o.factors s.factors)) (by simp)
  rw [List.nil_append] at h2
  obtain ⟨t2, g1, g2, g3, g4⟩ := Part.finish ho hs hc hp h2
  refine ⟨t2, ?_, g2, g4, ?_, by rw [g3.tuners, h4]; rfl⟩
  · unfold graphAbsorb andThen
    rw [h1]
    exact g1
  · rw [g3.consts, g3.factors, h3, h2.factors]
    exact List.Perm.refl _

/-- The factors of a field in the order in which they are absorbed. -/
def fieldOrder (o : VisitOrder) (s : State F) : List Nat := o.factors s.consts ++ s.tunableClusters.flatten

theorem flatten_clusters (s : State F) : s.tunableClusters.flatten = s.tuners.flatten.map BaseTuner.factor := by
  unfold tunableClusters
  rw [List.map_flatten]

theorem fieldOrder_perm {s : State F} {o : VisitOrder} (ho : o.Perms) (hs : Inv s) (ht : Tuned s) (hr : Registered s)
    (hc : s.Clustered) : (fieldOrder o s).Perm s.factors := by
  have hnd : (s.consts ++ s.tunables).Nodup := hr.nodup_iff.mp hs.facNodup
  refine List.Perm.trans ?_ hr.symm
  refine List.Perm.append (ho.factors _) ?_
  refine (List.perm_ext_iff_of_nodup ?_ (List.nodup_append.mp hnd).2.1).mpr ?_
  · rw [flatten_clusters]; exact ht.nodup
  · intro p
    constructor
    · intro hm
      rw [flatten_clusters] at hm
      obtain ⟨b, hb, rfl⟩ := List.mem_map.mp hm
      obtain ⟨t, h1, h2⟩ := List.mem_flatten.mp hb
      exact (ht.of t h1 b h2).reg
    · intro hm
      obtain ⟨c, h1, h2⟩ := hc p hm
      exact List.mem_flatten.mpr ⟨c, h1, h2⟩

/-- The factors of a field are absorbed. -/
theorem absorbFactors_ok {s : State F} {o : VisitOrder} (ho : o.Perms) (hs : Inv s) (hb : Built s.heap) (ht : Tuned s) (hr : Registered s)
    (hc : s.Clustered) (hw : s.EqualWeights) (hu : s.Unambiguous) (copy : Bool) :
    ∃ t, absorbFactors o s copy (State.initial s.heap) = .ok t () ∧
      PartT s copy (fieldOrder o s) (fieldOrder o s) s.tunableClusters t ∧
      t.consts = (o.factors s.consts).map (place s copy (fieldOrder o s)) := by
  have hp := fieldOrder_perm ho hs ht hr hc
  have hnd := hp.nodup_iff.mpr hs.facNodup
  have hsub : ∀ p ∈ fieldOrder o s, p ∈ s.factors := fun p hp' => hp.mem_iff.mp hp'
  obtain ⟨t1, h1, h2, h3, h4, h5⟩ := Part.consts hs hnd hsub
    (o.factors s.consts) (rest := s.tunableClusters.flatten) (part_initial hb copy (fieldOrder o s)) rfl
  rw [List.nil_append] at h2
  have hT : PartT s copy (fieldOrder o s) (o.factors s.consts) [] t1 :=
    ⟨h2, by unfold tunableClusters; rw [h4]; rfl, by intro c hc; cases hc⟩
  have hel : ∀ c ∈ s.tunableClusters, c ≠ [] ∧ ∀ p ∈ c, ∃ f, s.heap[p]? = some f ∧ f.weight.isSome := by
    intro c hc'
    obtain ⟨t, h6, rfl⟩ := List.mem_map.mp hc'
    refine ⟨by simpa using ht.ne t h6, ?_⟩
    intro p hp'
    obtain ⟨b, hb, rfl⟩ := List.mem_map.mp hp'
    exact ht.exp _ (ht.of t h6 b hb).reg
  obtain ⟨t2, g1, g2, g3⟩ := PartT.all hs hnd hsub s.tunableClusters hT rfl (fun c hc => (hel c hc).1) (by
    intro c hc'
    obtain ⟨hne, hall⟩ := hel c hc'
    obtain ⟨p, hp'⟩ := List.exists_mem_of_ne_nil c hne
    obtain ⟨f, h6, h7⟩ := hall p hp'
    obtain ⟨w, h8⟩ := Option.isSome_iff_exists.mp h7
    exact ⟨w, fun q hq f' hf' => by rw [← h8]; exact hw c hc' q hq p hp' f' f hf' h6⟩) (by unfold Unambiguous at hu; simpa using hu)
  refine ⟨t2, ?_, by simpa using g2, ?_⟩
  · unfold absorbFactors andThen
    rw [h1]
    exact g1
  · rw [g3, h3]; rfl

theorem fieldAbsorb_copy {s : State F} {o : VisitOrder} (ho : o.Perms) (hs : Inv s) (hb : Built s.heap) (ht : Tuned s) (hr : Registered s)
    (hc : s.Covered) (hcl : s.Clustered) (hw : s.EqualWeights) (hu : s.Unambiguous) (copy : Bool) :
    ∃ t, fieldAbsorb o s copy (State.initial s.heap) = .ok t () ∧ Reach anyOp t ∧
      TunableCopyOf s t (place s copy (fieldOrder o s)) := by
  obtain ⟨t1, h1, h2, h3⟩ := absorbFactors_ok ho hs hb ht hr hcl hw hu copy
  obtain ⟨t2, g1, g2, g3, g4⟩ := Part.finish ho hs hc (fieldOrder_perm ho hs ht hr hcl) h2.toPart
  refine ⟨t2, ?_, g2, g4, ?_, ?_, ?_⟩
  · unfold fieldAbsorb andThen
    rw [h1]
    exact g1
  · rw [g3.consts, h3]
    exact (ho.factors _).map _
  · have := h2.clusters
    unfold tunableClusters at this ⊢
    rw [g3.tuners, this]
  · rw [g3.heap]
    exact h2.tunable

end State
end EFG
