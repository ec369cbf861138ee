import Verif.Lemmas.Absorb
/- The states between the start and the end of the absorption of a model. -/

set_option linter.unusedSectionVars false

namespace EFG
namespace State
variable {F : Type} [Arith F]

/-- The address which a factor of the source gets in the receiver, when the factors are visited in the given
order. -/
def place (s : State F) (copy : Bool) (order : List Nat) (p : Nat) : Nat :=
  if copy then s.heap.length + order.idxOf p else p

/-- The factors `done` of the source have been absorbed. -/
structure Part (s : State F) (copy : Bool) (order done : List Nat) (t : State F) : Prop where
  reach : Reach anyOp t
  factors : t.factors = done.map (place s copy order)
  evidences : t.evidences = []
  heap : s.heap <+: t.heap
  size : t.heap.length = s.heap.length + (if copy then done.length else 0)
  same : ∀ p ∈ done, ∃ f g, s.heap[p]? = some f ∧ t.heap[place s copy order p]? = some g ∧ SameImages f g
  vars : ∀ v, v ∈ t.vars ↔ ∃ p ∈ done, ∃ f, s.heap[p]? = some f ∧ v ∈ f.vars.group

theorem Part.inv {s t : State F} {copy : Bool} {order done : List Nat} (h : Part s copy order done t) : Inv t :=
  reach_inv h.reach

theorem Part.tuned {s t : State F} {copy : Bool} {order done : List Nat} (h : Part s copy order done t) : Tuned t :=
  reach_tuned h.reach

theorem part_initial {s : State F} (hs : Built s.heap) (copy : Bool) (order : List Nat) :
    Part s copy order [] (State.initial s.heap) where
  reach := .init hs
  factors := rfl
  evidences := rfl
  heap := List.prefix_refl _
  size := by
    show s.heap.length = _
    cases copy <;> rfl
  same := (by intro p hp; cases hp)
  vars v := by
    constructor
    · intro h; cases h
    · rintro ⟨p, hp, _⟩; cases hp

theorem prefix_get {α : Type} {l l' : List α} (h : l <+: l') {i : Nat} {x : α} (hx : l[i]? = some x) : l'[i]? = some x := by
  obtain ⟨k, rfl⟩ := h
  rw [List.getElem?_append_left (List.getElem?_eq_some_iff.mp hx).1]
  exact hx

/-- A further factor of the source is not refused. `t1` is the receiver after the copy of the factor, if it is
copied. -/
theorem Part.accepted {s t t1 : State F} {copy : Bool} {order done : List Nat} (hs : Inv s)
    (h : Part s copy order done t) (hsub : ∀ p ∈ done, p ∈ s.factors) {p q : Nat} {f g : Fn F} (hp : p ∈ s.factors)
    (hn : p ∉ done) (hf : s.heap[p]? = some f) (hg : g.vars.group = f.vars.group)
    (hi : Inv t1) (hv : t1.vars = t.vars) (hfac : t1.factors = t.factors) (hheap : t.heap <+: t1.heap)
    (hq : q ∉ t.factors) : ¬ Refused t1 q g := by
  obtain ⟨f', hf', hreg⟩ := hs.reg p hp
  rw [hf] at hf'
  cases hf'
  have hmem : ∀ v ∈ f.vars.group, v ∈ s.vars := by
    rcases hreg with ⟨v, h3, h4⟩ | ⟨u, v, h3, h4⟩
    · rw [h3]
      have := (hs.unary v p h4).2.1
      simpa using this
    · rw [h3]
      have := hs.net.memL u v p h4
      simp [this.1, this.2.1]
  have hvs : ∀ v ∈ t.vars, v ∈ s.vars := by
    intro v hm
    obtain ⟨p', hp', f', hf', hv'⟩ := (h.vars v).mp hm
    obtain ⟨f'', hf'', hreg'⟩ := hs.reg p' (hsub p' hp')
    rw [hf'] at hf''
    cases hf''
    rcases hreg' with ⟨x, h3, h4⟩ | ⟨u, x, h3, h4⟩
    · rw [h3] at hv'
      have := (hs.unary x p' h4).2.1
      simp at hv'
      rw [hv']; exact this
    · rw [h3] at hv'
      have := hs.net.memL u x p' h4
      simp at hv'
      rcases hv' with rfl | rfl
      · exact this.1
      · exact this.2.1
  rintro (h1 | ⟨h1, h2⟩ | ⟨_, v, h1, w, h2, h3, h4⟩ | ⟨h1, h2⟩)
  · rw [hfac] at h1; exact hq h1
  · rw [hg] at h1 h2
    rcases hreg with ⟨v, h3, _⟩ | ⟨u, v, h3, _⟩ <;> rw [h3] at h1 h2
    · exact h1 rfl
    · exact h2 rfl
  · rw [hg] at h1
    rw [hv] at h2
    have e1 := find?_eqv_mem hs.net.distinct (hmem v h1)
    have e2 := find?_eqv_mem hs.net.distinct (hvs w h2)
    rw [eqv_pred h3] at e2
    rw [e1] at e2
    exact h4 (Option.some.inj e2).symm
  · rename_i a b
    rw [hg] at h1
    obtain ⟨q', hq'⟩ := Option.isSome_iff_exists.mp h2
    have hj := hi.toCore.joinedBy.mpr hq'
    have hon : ∀ l, t1.FactorOn q' l → ∃ p' ∈ done, s.FactorOn p' l := by
      rintro l ⟨h3, g', h4, h5⟩
      rw [hfac, h.factors] at h3
      obtain ⟨p', hp', rfl⟩ := List.mem_map.mp h3
      obtain ⟨f1, g1, h6, h7, h8⟩ := h.same p' hp'
      rw [prefix_get hheap h7] at h4
      cases h4
      exact ⟨p', hp', hsub p' hp', f1, h6, by rw [← h8.1]; exact h5⟩
    have hpp := hs.toCore.factorOn (p := p) ⟨hp, f, hf, h1⟩
    rcases hj with hj | hj
    · obtain ⟨p', hp', h3⟩ := hon _ hj
      have := hs.toCore.joinedBy.mp (Or.inl h3)
      rw [hpp] at this
      exact hn (Option.some.inj this ▸ hp')
    · obtain ⟨p', hp', h3⟩ := hon _ hj
      have := hs.toCore.joinedBy.mp (Or.inr h3)
      rw [hpp] at this
      exact hn (Option.some.inj this ▸ hp')

/-- After the insertion of a further factor. -/
theorem Part.inserted {s t t1 t2 t3 : State F} {copy : Bool} {order done : List Nat}
    (h : Part s copy order done t) {p q : Nat} {f g : Fn F} (hf : s.heap[p]? = some f) (hg : t1.heap[q]? = some g)
    (hsame : SameImages f g) (hq : q = place s copy order p) (hv : t1.vars = t.vars) (hfac : t1.factors = t.factors)
    (hev : t1.evidences = t.evidences) (hheap : t.heap <+: t1.heap)
    (hlen : t1.heap.length = t.heap.length + (if copy then 1 else 0)) (hins : Inserted t1 t2 q g)
    (hr : Reach anyOp t3) (e1 : t3.vars = t2.vars) (e2 : t3.factors = t2.factors) (e3 : t3.evidences = t2.evidences)
    (e4 : t3.heap = t2.heap) : Part s copy order (done ++ [p]) t3 where
  reach := hr
  factors := by rw [e2, hins.factors, hfac, h.factors, hq]; simp
  evidences := by rw [e3, hins.kept.evidences, hev, h.evidences]
  heap := by rw [e4, hins.kept.heap]; exact h.heap.trans hheap
  size := by
    rw [e4, hins.kept.heap, hlen, h.size]
    cases copy <;> simp [Nat.add_assoc]
  same := by
    intro x hx
    rw [e4, hins.kept.heap]
    rcases List.mem_append.mp hx with hx | hx
    · obtain ⟨f1, g1, h6, h7, h8⟩ := h.same x hx
      exact ⟨f1, g1, h6, prefix_get hheap h7, h8⟩
    · simp at hx
      rw [hx]
      exact ⟨f, g, hf, by rw [← hq]; exact hg, hsame⟩
  vars := by
    intro v
    rw [e1, hins.vars, hv, List.mem_append, h.vars, List.mem_filter]
    constructor
    · rintro (⟨x, hx, f', h1, h2⟩ | ⟨h1, _⟩)
      · exact ⟨x, List.mem_append_left _ hx, f', h1, h2⟩
      · exact ⟨p, by simp, f, hf, by rw [← hsame.1]; exact h1⟩
    · rintro ⟨x, hx, f', h1, h2⟩
      rcases List.mem_append.mp hx with hx | hx
      · exact Or.inl ⟨x, hx, f', h1, h2⟩
      · simp at hx
        rw [hx, hf] at h1
        cases h1
        by_cases hm : ∃ x ∈ done, ∃ f, s.heap[x]? = some f ∧ v ∈ f.vars.group
        · exact Or.inl hm
        · refine Or.inr ⟨by rw [hsame.1]; exact h2, ?_⟩
          rw [← h.vars] at hm
          simpa using hm

theorem place_false (s : State F) (order : List Nat) (p : Nat) : place s false order p = p := rfl

theorem place_true (s : State F) {done rest : List Nat} {p : Nat} (hn : p ∉ done) :
    place s true (done ++ p :: rest) p = s.heap.length + done.length := by
  unfold place
  rw [if_pos rfl, List.idxOf_append_of_notMem hn]
  simp

theorem Part.fresh {s t : State F} {copy : Bool} {order done rest : List Nat} (h : Part s copy order done t) {p : Nat}
    (ho : order = done ++ p :: rest) (hn : p ∉ done) : place s copy order p ∉ t.factors := by
  cases copy with
  | false =>
    rw [h.factors]
    intro hm
    obtain ⟨x, hx, e⟩ := List.mem_map.mp hm
    rw [place_false, place_false] at e
    exact hn (e ▸ hx)
  | true =>
    intro hm
    obtain ⟨f, hf, _⟩ := h.inv.reg _ hm
    have := (List.getElem?_eq_some_iff.mp hf).1
    rw [h.size, ho, place_true s hn] at this
    simp at this

/-- The factors of the source are found. -/
theorem Part.get {s t : State F} {copy : Bool} {order done : List Nat} (h : Part s copy order done t) {p : Nat} {f : Fn F}
    (hf : s.heap[p]? = some f) : t.heap[p]? = some f := prefix_get h.heap hf

/-- One constant factor. -/
theorem Part.const {s t : State F} {copy : Bool} {order done rest : List Nat} (hs : Inv s)
    (h : Part s copy order done t) (hsub : ∀ p ∈ done, p ∈ s.factors) {p : Nat} (ho : order = done ++ p :: rest)
    (hn : p ∉ done) (hp : p ∈ s.factors) :
    ∃ t', insertConst copy p t = .ok t' () ∧ Part s copy order (done ++ [p]) t' ∧
      t'.consts = t.consts ++ [place s copy order p] ∧ t'.tuners = t.tuners ∧ t'.tunables = t.tunables := by
  obtain ⟨f, hf, _⟩ := hs.reg p hp
  have hfr := h.fresh ho hn
  cases copy with
  | false =>
    have hft := h.get hf
    have hna := h.accepted hs hsub (q := p) hp hn hf rfl h.inv rfl rfl (List.prefix_refl _) hfr
    rcases addDistribution_cases h.inv hft with ⟨t2, h1, h2, _⟩ | ⟨_, _, h2, _⟩
    · have he : addConstFactor (some p) t = .ok { t2 with consts := t2.consts ++ [p] } () := by
        unfold addConstFactor
        rw [h1]; rfl
      refine ⟨{ t2 with consts := t2.consts ++ [p] }, he, ?_, ?_, h2.kept.tuners, h2.kept.tunables⟩
      · exact h.inserted hf hft (.refl f) rfl rfl rfl rfl (List.prefix_refl _) rfl h2
          (.ok (op := .addConst (some p)) h.reach ⟨trivial, trivial⟩ trivial he) rfl rfl rfl rfl
      · show t2.consts ++ [p] = _
        rw [h2.kept.consts]; rfl
    · exact absurd h2 hna
  | true =>
    have hwf := hs.heapWF f (List.mem_of_getElem? hf)
    obtain ⟨g, hg1, hg2, hg3⟩ := hwf.sameClone
    have hq : t.heap.length = place s true order p := by
      rw [ho, place_true s hn, h.size]; rfl
    have hgt : (t.alloc g).1.heap[t.heap.length]? = some g := by
      show (t.heap ++ [g])[t.heap.length]? = _
      simp
    have hpre : t.heap <+: (t.alloc g).1.heap := ⟨[g], rfl⟩
    have hi := h.inv.create hg2
    have hna := h.accepted hs hsub (q := t.heap.length) hp hn hf hg3.1 hi rfl rfl hpre (by rw [hq]; exact hfr)
    rcases addDistribution_cases hi hgt with ⟨t2, h1, h2, _⟩ | ⟨_, _, h2, _⟩
    · have he : copyConstFactor p t = .ok { t2 with consts := t2.consts ++ [t.heap.length] } () := by
        unfold copyConstFactor
        rw [deref_eq (h.get hf)]
        simp only
        rw [hg1]
        show addConstFactor (some t.heap.length) (t.alloc g).1 = _
        unfold addConstFactor
        rw [h1]; rfl
      refine ⟨{ t2 with consts := t2.consts ++ [t.heap.length] }, he, ?_, ?_, h2.kept.tuners, h2.kept.tunables⟩
      · exact h.inserted hf hgt hg3 hq rfl rfl rfl hpre (by show (t.heap ++ [g]).length = _; simp) h2
          (.ok (op := .copyConst p) h.reach ⟨trivial, trivial⟩ trivial he) rfl rfl rfl rfl
      · show t2.consts ++ [t.heap.length] = _
        rw [h2.kept.consts, hq]; rfl
    · exact absurd h2 hna

/-- All the constant factors. -/
theorem Part.consts {s : State F} {copy : Bool} {order : List Nat} (hs : Inv s) (hnd : order.Nodup)
    (hsub : ∀ p ∈ order, p ∈ s.factors) (ps : List Nat) : ∀ {done rest : List Nat} {t : State F},
    Part s copy order done t → order = done ++ (ps ++ rest) →
    ∃ t', absorbConst copy ps t = .ok t' () ∧ Part s copy order (done ++ ps) t' ∧
      t'.consts = t.consts ++ ps.map (place s copy order) ∧ t'.tuners = t.tuners ∧ t'.tunables = t.tunables := by
  induction ps with
  | nil =>
    intro done rest t h ho
    exact ⟨t, rfl, by rw [List.append_nil]; exact h, by simp, rfl, rfl⟩
  | cons p ps ih =>
    intro done rest t h ho
    have hn : p ∉ done := by
      intro hm
      rw [ho] at hnd
      exact (List.nodup_append.mp hnd).2.2 p hm p (by simp) rfl
    obtain ⟨t1, h1, h2, h3, h4, h5⟩ := h.const hs (fun x hx => hsub x (by rw [ho]; simp [hx])) (rest := ps ++ rest)
      (by rw [ho]; simp) hn (hsub p (by rw [ho]; simp))
    obtain ⟨t2, g1, g2, g3, g4, g5⟩ := ih (rest := rest) h2 (by rw [ho]; simp)
    refine ⟨t2, ?_, ?_, ?_, by rw [g4, h4], by rw [g5, h5]⟩
    · unfold absorbConst at g1 ⊢
      rw [forEach_cons]
      unfold swallow at g1 ⊢
      rw [h1]
      exact g1
    · rw [show done ++ p :: ps = done ++ [p] ++ ps by simp]; exact g2
    · rw [g3, h3]; simp

/-! ### Tunable factors -/

/-- The clusters `L` of the source have been absorbed. -/
structure PartT (s : State F) (copy : Bool) (order done : List Nat) (L : List (List Nat)) (t : State F) : Prop
    extends Part s copy order done t where
  clusters : t.tunableClusters = L.map (fun c => c.map (place s copy order))
  tunable : ∀ c ∈ L, ∀ p ∈ c, ∃ f g, s.heap[p]? = some f ∧ t.heap[place s copy order p]? = some g ∧
    SameExponential f g

/-- Whether a factor has the given variables. -/
def hasVars (s : State F) (g : VarSet) (p : Nat) : Bool :=
  match s.heap[p]? with
  | some f => VarSet.same f.vars.sorted g
  | none => false

theorem findTuner_clusters (s : State F) (g : VarSet) :
    s.findTuner g = s.tunableClusters.findIdx? (fun c => c.any (s.hasVars g)) := by
  unfold findTuner tunableClusters
  rw [List.findIdx?_map]
  congr 1
  funext t
  simp only [Function.comp, List.any_map]
  rfl

theorem heapSetWeight_id {w : F} {h : Heap F} {p : Nat} (hw : ∀ f, h[p]? = some f → f.weight = some w) :
    heapSetWeight w h p = h := by
  apply List.ext_getElem?
  intro i
  unfold heapSetWeight
  rw [List.getElem?_modify]
  cases hf : h[i]? with
  | none => rfl
  | some f =>
    show some (if p = i then f.setWeight w else f) = some f
    by_cases hi : p = i
    · rw [if_pos hi]
      have := hw f (by rw [hi]; exact hf)
      unfold Fn.setWeight
      rw [← this]
    · rw [if_neg hi]

theorem foldl_heapSetWeight_id {w : F} {h : Heap F} (ps : List Nat)
    (hw : ∀ p ∈ ps, ∀ f, h[p]? = some f → f.weight = some w) : ps.foldl (heapSetWeight w) h = h := by
  induction ps with
  | nil => rfl
  | cons p ps ih =>
    rw [List.foldl_cons, heapSetWeight_id (hw p (by simp))]
    exact ih (fun q hq => hw q (List.mem_cons_of_mem _ hq))

theorem shareTuner_same {s : State F} {i : Nat} {b : BaseTuner} {tn : List BaseTuner} {w : F}
    (hi : s.tuners[i]? = some tn) (hne : tn ≠ [])
    (hall : ∀ c ∈ tn ++ [b], ∃ f, s.heap[c.factor]? = some f ∧ f.weight = some w) :
    shareTuner i b s = .ok { s with tuners := s.tuners.modify i (fun t => t ++ [b]) } () := by
  unfold shareTuner
  rw [hi]
  simp only
  have h1 : s.tunerWeight tn = .ok w := by
    cases tn with
    | nil => exact absurd rfl hne
    | cons c cs =>
      obtain ⟨f, h1, h2⟩ := hall c (by simp)
      show s.weightOf c.factor = _
      unfold weightOf
      rw [h1]
      simp only
      rw [h2]; rfl
  rw [h1]
  simp only
  unfold setTunerWeight
  congr 1
  have : ((tn ++ [b]).map BaseTuner.factor).foldl (heapSetWeight w) s.heap = s.heap := by
    apply foldl_heapSetWeight_id
    intro p hp f hf
    obtain ⟨c, hc, rfl⟩ := List.mem_map.mp hp
    obtain ⟨f', h1, h2⟩ := hall c hc
    rw [hf] at h1
    cases h1
    exact h2
  show ({ s with heap := _, tuners := _ } : State F) = _
  rw [this]

theorem PartT.findTuner {s t t1 : State F} {copy : Bool} {order done : List Nat} {L : List (List Nat)} {p0 : Nat}
    {c : List Nat} (hs : Inv s) (h : PartT s copy order done (L ++ [p0 :: c]) t) (hu : t1.tuners = t.tuners)
    (hi1 : Inv t1) (hheap : t.heap <+: t1.heap) {f : Fn F} (hf : s.heap[p0]? = some f)
    (hun : ∀ d ∈ L, ∀ p ∈ d, ∀ f', s.heap[p]? = some f' → ¬ f'.vars.group.Perm f.vars.group) :
    t1.findTuner f.vars.sorted = some L.length := by
  have hwf := hs.heapWF f (List.mem_of_getElem? hf)
  have hc1 : t1.tunableClusters = t.tunableClusters := by unfold tunableClusters; rw [hu]
  have hhas : ∀ d ∈ L ++ [p0 :: c], ∀ p ∈ d, ∃ f', s.heap[p]? = some f' ∧
      (t1.hasVars f.vars.sorted (place s copy order p) = true ↔ f'.vars.group.Perm f.vars.group) := by
    intro d hd p hp
    obtain ⟨f', g', h1, h2, h3⟩ := h.tunable d hd p hp
    have h4 := prefix_get hheap h2
    have hg' := hi1.heapWF g' (List.mem_of_getElem? h4)
    refine ⟨f', h1, ?_⟩
    unfold hasVars
    rw [h4]
    simp only
    rw [VarSet.same_iff (hg'.group.perm.nodup_iff.mpr hg'.group.distinct.nodup)]
    rw [← h3.1.1]
    constructor
    · intro hp; exact (hg'.group.perm.symm.trans hp).trans hwf.group.perm
    · intro hp; exact (hg'.group.perm.trans hp).trans hwf.group.perm.symm
  rw [findTuner_clusters, hc1, h.clusters, List.map_append, List.findIdx?_append]
  have h1 : (L.map (fun c => c.map (place s copy order))).findIdx? (fun c => c.any (t1.hasVars f.vars.sorted)) = none := by
    rw [List.findIdx?_eq_none_iff]
    intro d' hd'
    obtain ⟨d, hd, rfl⟩ := List.mem_map.mp hd'
    rw [List.any_eq_false]
    intro q hq
    obtain ⟨p, hp, rfl⟩ := List.mem_map.mp hq
    obtain ⟨f', h1, h2⟩ := hhas d (List.mem_append_left _ hd) p hp
    rw [h2]
    exact hun d hd p hp f' h1
  have h2 : ([p0 :: c].map (fun c => c.map (place s copy order))).findIdx? (fun c => c.any (t1.hasVars f.vars.sorted)) =
      some 0 := by
    obtain ⟨f', h1, h2⟩ := hhas (p0 :: c) (by simp) p0 (by simp)
    rw [hf] at h1
    cases h1
    have := h2.mpr (List.Perm.refl _)
    simp [List.findIdx?_cons, this]
  rw [h1, h2]
  simp

/-- A further tunable factor: after the copy, if it is copied. -/
theorem PartT.step {s t : State F} {copy : Bool} {order done rest : List Nat} {L : List (List Nat)} (hs : Inv s)
    (h : PartT s copy order done L t) (hsub : ∀ p ∈ done, p ∈ s.factors) {p : Nat} (ho : order = done ++ p :: rest)
    (hn : p ∉ done) (hp : p ∈ s.factors) {f : Fn F} (hf : s.heap[p]? = some f) (hw : f.weight.isSome) :
    ∃ t1 g, Inv t1 ∧ Tuned t1 ∧ t1.vars = t.vars ∧ t1.factors = t.factors ∧ t1.evidences = t.evidences ∧
      t1.consts = t.consts ∧ t1.tuners = t.tuners ∧ t.heap <+: t1.heap ∧
      t1.heap.length = t.heap.length + (if copy then 1 else 0) ∧ t1.heap[place s copy order p]? = some g ∧
      SameExponential f g ∧ ¬ Refused t1 (place s copy order p) g ∧
      ∀ share, insertTunable copy p share t = addTunable (some (place s copy order p)) share t1 := by
  have hfr := h.fresh ho hn
  cases copy with
  | false =>
    exact ⟨t, f, h.inv, h.tuned, rfl, rfl, rfl, rfl, rfl, List.prefix_refl _, rfl, h.get hf, .refl hw,
      h.accepted hs hsub hp hn hf rfl h.inv rfl rfl (List.prefix_refl _) hfr, fun _ => rfl⟩
  | true =>
    have hwf := hs.heapWF f (List.mem_of_getElem? hf)
    obtain ⟨g, hg1, hg2, hg3⟩ := hwf.sameExponential hw
    have hq : t.heap.length = place s true order p := by
      rw [ho, place_true s hn, h.size]; rfl
    have hpre : t.heap <+: (t.alloc g).1.heap := ⟨[g], rfl⟩
    have hi := h.inv.create hg2
    refine ⟨(t.alloc g).1, g, hi, alloc_tuned h.inv h.tuned g, rfl, rfl, rfl, rfl, rfl, hpre, ?_, ?_, hg3, ?_, ?_⟩
    · show (t.heap ++ [g]).length = _
      simp
    · rw [← hq]
      show (t.heap ++ [g])[t.heap.length]? = _
      simp
    · exact h.accepted hs hsub hp hn hf hg3.1.1 hi rfl rfl hpre hfr
    · intro share
      show copyTunable p share t = _
      unfold copyTunable
      rw [deref_eq (h.get hf)]
      simp only
      rw [hg1, hq]

theorem PartT.extend {s t t1 t3 : State F} {copy : Bool} {order done : List Nat} {L L' : List (List Nat)}
    (h : PartT s copy order done L t) {p : Nat} {f g : Fn F} (hf : s.heap[p]? = some f)
    (hg : t1.heap[place s copy order p]? = some g) (hsame : SameExponential f g) (hheap : t.heap <+: t1.heap)
    (hL : ∀ c ∈ L', ∀ q ∈ c, q = p ∨ ∃ d ∈ L, q ∈ d) (hpart : Part s copy order (done ++ [p]) t3)
    (he : t3.heap = t1.heap) (hc : t3.tunableClusters = L'.map (fun c => c.map (place s copy order))) :
    PartT s copy order (done ++ [p]) L' t3 where
  toPart := hpart
  clusters := hc
  tunable := by
    intro c hc q hq
    rw [he]
    rcases hL c hc q hq with rfl | ⟨d, hd, hqd⟩
    · exact ⟨f, g, hf, hg, hsame⟩
    · obtain ⟨f1, g1, h1, h2, h3⟩ := h.tunable d hd q hqd
      exact ⟨f1, g1, h1, prefix_get hheap h2, h3⟩

theorem Part.tunable_reach {s t t' : State F} {copy : Bool} {order done : List Nat} (h : Part s copy order done t)
    {p : Nat} {f : Fn F} (hf : s.heap[p]? = some f) (hw : f.weight.isSome) {share : Option VarSet}
    (he : insertTunable copy p share t = .ok t' ()) : Reach anyOp t' := by
  have hty : ∀ g, t.heap[p]? = some g → g.weight.isSome := by
    intro g hg
    rw [h.get hf] at hg
    cases hg
    exact hw
  cases copy with
  | false => exact .ok (op := .addTunable (some p) share) h.reach ⟨trivial, hty⟩ trivial he
  | true => exact .ok (op := .copyTunable p share) h.reach ⟨trivial, hty⟩ trivial he

/-- The first factor of a cluster. -/
theorem PartT.first {s t : State F} {copy : Bool} {order done rest : List Nat} {L : List (List Nat)} (hs : Inv s)
    (h : PartT s copy order done L t) (hsub : ∀ p ∈ done, p ∈ s.factors) {p : Nat} (ho : order = done ++ p :: rest)
    (hn : p ∉ done) (hp : p ∈ s.factors) {f : Fn F} (hf : s.heap[p]? = some f) (hw : f.weight.isSome) :
    ∃ t', insertTunable copy p none t = .ok t' () ∧ PartT s copy order (done ++ [p]) (L ++ [[p]]) t' ∧
      t'.consts = t.consts := by
  obtain ⟨t1, g, hi, htu, h1, h2, h3, h4, h5, h6, h7, h8, h9, h10, h11⟩ := h.step hs hsub ho hn hp hf hw
  rcases addTunable_cases hi htu h8 none with ⟨_, _, hr, _⟩ | ⟨_, t2, b, g1, g2, g3, g4⟩
  · exact absurd hr h10
  · simp only at g4
    have he := (h11 none).trans g4
    refine ⟨_, he, ?_, ?_⟩
    · refine h.extend hf h8 h9 h6 ?_ (h.toPart.inserted hf h8 h9.1 rfl h1 h2 h3 h6 h7 g1 (h.tunable_reach hf hw he)
        rfl rfl rfl rfl) g1.kept.heap ?_
      · intro c hc q hq
        rcases List.mem_append.mp hc with hc | hc
        · exact Or.inr ⟨c, hc, hq⟩
        · simp at hc
          rw [hc] at hq
          simp at hq
          exact Or.inl hq
      · show (t1.tuners ++ [[b]]).map (fun t => t.map BaseTuner.factor) = _
        have := h.clusters
        unfold tunableClusters at this
        rw [List.map_append, h5, this]
        simp [g2]
    · show t2.consts = _
      rw [g1.kept.consts, h4]

/-- A further factor of a cluster. -/
theorem PartT.next {s t : State F} {copy : Bool} {order done rest : List Nat} {L : List (List Nat)} {p0 : Nat}
    {c : List Nat} (hs : Inv s)
    (h : PartT s copy order done (L ++ [p0 :: c]) t) (hsub : ∀ p ∈ done, p ∈ s.factors) {p : Nat}
    (ho : order = done ++ p :: rest) (hn : p ∉ done) (hp : p ∈ s.factors) {f f0 : Fn F} (hf : s.heap[p]? = some f)
    (hf0 : s.heap[p0]? = some f0)
    (hun : ∀ d ∈ L, ∀ p ∈ d, ∀ f', s.heap[p]? = some f' → ¬ f'.vars.group.Perm f0.vars.group) {w : F}
    (hw : f.weight = some w) (hws : ∀ q ∈ p0 :: c, ∀ f', s.heap[q]? = some f' → f'.weight = some w) :
    ∃ t', insertTunable copy p (some f0.vars.sorted) t = .ok t' () ∧
      PartT s copy order (done ++ [p]) (L ++ [p0 :: c ++ [p]]) t' ∧ t'.consts = t.consts := by
  obtain ⟨t1, g, hi, htu, h1, h2, h3, h4, h5, h6, h7, h8, h9, h10, h11⟩ :=
    h.step hs hsub ho hn hp hf (by rw [hw]; rfl)
  have hgw : g.weight = some w := by rw [h9.2.2.1]; exact hw
  have hft := h.findTuner hs h5 hi h6 hf0 hun
  rcases addTunable_cases hi htu h8 (some f0.vars.sorted) with ⟨_, _, hr, _⟩ | ⟨_, t2, b, g1, g2, g3, g4⟩
  · exact absurd hr h10
  · simp only at g4
    rcases g4 with ⟨g4, _⟩ | ⟨i, g4, g5⟩
    · rw [hft] at g4; cases g4
    · rw [hft] at g4
      cases g4
      have hcl : t2.tuners.map (fun t => t.map BaseTuner.factor) =
          (L ++ [p0 :: c]).map (fun c => c.map (place s copy order)) := by
        rw [g1.kept.tuners, h5]
        exact h.clusters
      have hlen : t2.tuners.length = L.length + 1 := by
        have := congrArg List.length hcl
        simpa using this
      obtain ⟨tn, htn⟩ : ∃ tn, t2.tuners[L.length]? = some tn := by
        rw [List.getElem?_eq_getElem (by omega)]
        exact ⟨_, rfl⟩
      have htn' : tn.map BaseTuner.factor = (p0 :: c).map (place s copy order) := by
        have := congrArg (fun l => l[L.length]?) hcl
        simp only [List.getElem?_map, htn] at this
        simpa using this
      have hsh := shareTuner_same (s := registered t2 (place s copy order p)) (i := L.length) (b := b) (tn := tn) (w := w)
        htn (by intro he; rw [he] at htn'; simp at htn') (by
          intro x hx
          rcases List.mem_append.mp hx with hx | hx
          · have : x.factor ∈ (p0 :: c).map (place s copy order) := by rw [← htn']; exact List.mem_map_of_mem hx
            obtain ⟨q, hq, e⟩ := List.mem_map.mp this
            obtain ⟨f1, g1', h12, h13, h14⟩ := h.tunable (p0 :: c) (by simp) q hq
            refine ⟨g1', ?_, by rw [h14.2.2.1]; exact hws q hq f1 h12⟩
            show t2.heap[x.factor]? = _
            rw [g1.kept.heap, ← e]
            exact prefix_get h6 h13
          · simp at hx
            refine ⟨g, ?_, hgw⟩
            show t2.heap[x.factor]? = _
            rw [hx, g2, g1.kept.heap]
            exact h8)
      have hres := (h11 (some f0.vars.sorted)).trans (g5.trans hsh)
      refine ⟨_, hres, ?_, ?_⟩
      · refine h.extend hf h8 h9 h6 ?_ (h.toPart.inserted hf h8 h9.1 rfl h1 h2 h3 h6 h7 g1
          (h.tunable_reach hf (by rw [hw]; rfl) hres) rfl rfl rfl rfl) g1.kept.heap ?_
        · intro d hd q hq
          rcases List.mem_append.mp hd with hd | hd
          · exact Or.inr ⟨d, List.mem_append_left _ hd, hq⟩
          · simp at hd
            rw [hd] at hq
            rcases List.mem_cons.mp hq with rfl | hq
            · exact Or.inr ⟨q :: c, by simp, by simp⟩
            · rcases List.mem_append.mp hq with hq | hq
              · exact Or.inr ⟨p0 :: c, by simp, List.mem_cons_of_mem _ hq⟩
              · simp at hq
                exact Or.inl hq
        · show (t2.tuners.modify L.length (fun t => t ++ [b])).map (fun t => t.map BaseTuner.factor) = _
          apply List.ext_getElem?
          intro j
          have hj := congrArg (fun l => l[j]?) hcl
          simp only [List.getElem?_map] at hj
          rw [List.getElem?_map, List.getElem?_modify, List.getElem?_map]
          by_cases hjl : L.length = j
          · subst hjl
            rw [htn]
            simp [htn', g2]
          · have : (fun a => if L.length = j then a ++ [b] else a) <$> t2.tuners[j]? = t2.tuners[j]? := by
              simp only [if_neg hjl]
              cases t2.tuners[j]? <;> rfl
            rw [this, hj]
            rcases Nat.lt_or_gt_of_ne hjl with hlt | hlt
            · rw [List.getElem?_eq_none (by simp; omega), List.getElem?_eq_none (by simp; omega)]
            · rw [List.getElem?_append_left hlt, List.getElem?_append_left hlt]
      · show t2.consts = _
        rw [g1.kept.consts, h4]

end State
end EFG
