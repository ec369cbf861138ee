import Verif.Lemmas.JsonRead
/- The insertion of the factors which were read. -/

set_option linter.unusedSectionVars false

namespace EFG
namespace JsonIn
variable {F : Type} [Arith F]
open State

/-- The factors of `s` on other variables. -/
structure Plan (s : State F) (ρ : Var → Var) (mv : Nat → Fn F) : Prop where
  eqv : ∀ u v, (ρ u).eqv (ρ v) = u.eqv v
  inj : ∀ u ∈ s.vars, ∀ v ∈ s.vars, ρ u = ρ v → u = v
  fn : ∀ p ∈ s.factors, ∃ f, s.heap[p]? = some f ∧ (mv p).vars = ⟨f.vars.group.map ρ, f.vars.group.map ρ⟩ ∧
    FactorReach (mv p) ∧ (mv p).weight = f.weight

/-- The address of a factor which is read. -/
def pl (h0 : Heap F) (order : List Nat) (p : Nat) : Nat := h0.length + order.idxOf p

theorem pl_inj {h0 : Heap F} {order : List Nat} {p q : Nat} (hp : p ∈ order) (h : pl h0 order p = pl h0 order q) : p = q := by
  unfold pl at h
  exact (List.idxOf_inj hp).mp (by omega)

/-- The factors `made` have been read, the factors `done` have been inserted. -/
structure PartJ (mv : Nat → Fn F) (h0 : Heap F) (order made done : List Nat) (t : State F) : Prop where
  reach : Reach anyOp t
  heap : t.heap = h0 ++ made.map mv
  factors : t.factors = done.map (pl h0 order)
  evidences : t.evidences = []
  vars : ∀ v, v ∈ t.vars ↔ ∃ p ∈ done, v ∈ (mv p).vars.group
  pre : made <+: order
  sub : ∀ p ∈ done, p ∈ made

theorem partJ_initial {h0 : Heap F} (hb : Built h0) (mv : Nat → Fn F) (order : List Nat) :
    PartJ mv h0 order [] [] (State.initial h0) where
  reach := .init hb
  heap := by simp [State.initial]
  factors := rfl
  evidences := rfl
  vars v := by
    constructor
    · intro h; cases h
    · rintro ⟨p, hp, _⟩; cases hp
  pre := List.nil_prefix
  sub := (by intro p hp; cases hp)

variable {s t : State F} {ρ : Var → Var} {mv : Nat → Fn F} {h0 : Heap F} {order made done : List Nat}

theorem PartJ.get (h : PartJ mv h0 order made done t) {p : Nat} (hp : p ∈ made) : t.heap[pl h0 order p]? = some (mv p) := by
  obtain ⟨k, hk⟩ := h.pre
  have h1 : order.idxOf p = made.idxOf p := by rw [← hk, List.idxOf_append_of_mem hp]
  rw [h.heap]
  unfold pl
  rw [List.getElem?_append_right (by omega), h1, Nat.add_sub_cancel_left, List.getElem?_map]
  rw [List.getElem?_eq_getElem (List.idxOf_lt_length_iff.mpr hp), List.getElem_idxOf]
  rfl

/-- Reading a further factor. -/
theorem PartJ.alloc (h : PartJ mv h0 order made done t) {p : Nat} {rest : List Nat} (ho : order = made ++ p :: rest)
    (hr : FactorReach (mv p)) : PartJ mv h0 order (made ++ [p]) done (State.alloc (mv p) t).1 where
  reach := .ok (op := .create (mv p)) h.reach ⟨trivial, hr⟩ trivial rfl
  heap := by show t.heap ++ [mv p] = _; rw [h.heap]; simp
  factors := h.factors
  evidences := h.evidences
  vars := h.vars
  pre := ⟨rest, by rw [ho]; simp⟩
  sub q hq := List.mem_append_left _ (h.sub q hq)

theorem PartJ.place (h : PartJ mv h0 order made done t) {p : Nat} {rest : List Nat} (ho : order = made ++ p :: rest)
    (hnd : order.Nodup) : t.heap.length = pl h0 order p := by
  unfold pl
  rw [h.heap, ho, List.idxOf_append_of_notMem (notMem_of_nodup hnd ho)]
  simp

theorem mem_vars (hs : Inv s) {p : Nat} (hp : p ∈ s.factors) {f : Fn F} (hf : s.heap[p]? = some f) :
    ∀ v ∈ f.vars.group, v ∈ s.vars := by
  obtain ⟨f', hf', hreg⟩ := hs.reg p hp
  rw [hf] at hf'
  cases hf'
  rcases hreg with ⟨v, h3, h4⟩ | ⟨u, v, h3, h4⟩
  · rw [h3]
    have := (hs.unary v p h4).2.1
    simpa using this
  · rw [h3]
    have := hs.net.memL u v p h4
    simp [this.1, this.2.1]

theorem map_inj_on {α β : Type} {f : α → β} {P : α → Prop} (hi : ∀ a, P a → ∀ b, P b → f a = f b → a = b) :
    ∀ {l l' : List α}, (∀ a ∈ l, P a) → (∀ a ∈ l', P a) → l.map f = l'.map f → l = l' := by
  intro l
  induction l with
  | nil => intro l' _ _ h; cases l' with
    | nil => rfl
    | cons => cases h
  | cons a l ih =>
    intro l' h1 h2 h
    cases l' with
    | nil => cases h
    | cons b l' =>
      rw [List.map_cons, List.map_cons, List.cons.injEq] at h
      rw [hi a (h1 a (by simp)) b (h2 b (by simp)) h.1,
        ih (fun x hx => h1 x (by simp [hx])) (fun x hx => h2 x (by simp [hx])) h.2]

/-- A further factor is not refused. -/
theorem PartJ.accepted (hs : Inv s) (hpl : Plan s ρ mv) (h : PartJ mv h0 order made done t)
    (hsub : ∀ p ∈ order, p ∈ s.factors) {p : Nat} (hp : p ∈ made) (hn : p ∉ done) :
    ¬ Refused t (pl h0 order p) (mv p) := by
  have hmo : ∀ q ∈ made, q ∈ order := fun q hq => h.pre.subset hq
  obtain ⟨f, hf, hg, _⟩ := hpl.fn p (hsub p (hmo p hp))
  have hg' : (mv p).vars.group = f.vars.group.map ρ := by rw [hg]
  have hmem := mem_vars hs (hsub p (hmo p hp)) hf
  obtain ⟨f', hf', hreg⟩ := hs.reg p (hsub p (hmo p hp))
  rw [hf] at hf'
  cases hf'
  rintro (h1 | ⟨h1, h2⟩ | ⟨_, v, h1, w, h2, h3, h4⟩ | ⟨h1, h2⟩)
  · rw [h.factors] at h1
    obtain ⟨q, hq, he⟩ := List.mem_map.mp h1
    exact hn (pl_inj (hmo q (h.sub q hq)) he ▸ hq)
  · rw [hg', List.length_map] at h1 h2
    rcases hreg with ⟨v, h3, _⟩ | ⟨u, v, h3, _⟩ <;> rw [h3] at h1 h2
    · exact h1 rfl
    · exact h2 rfl
  · rw [hg'] at h1
    obtain ⟨v0, hv0, rfl⟩ := List.mem_map.mp h1
    obtain ⟨q, hq, hw⟩ := (h.vars w).mp h2
    obtain ⟨f1, hf1, hg1, _⟩ := hpl.fn q (hsub q (hmo q (h.sub q hq)))
    rw [hg1] at hw
    obtain ⟨w0, hw0, rfl⟩ := List.mem_map.mp hw
    rw [hpl.eqv] at h3
    have e1 := find?_eqv_mem hs.net.distinct (hmem v0 hv0)
    have e2 := find?_eqv_mem hs.net.distinct (mem_vars hs (hsub q (hmo q (h.sub q hq))) hf1 w0 hw0)
    rw [eqv_pred h3] at e2
    rw [e1] at e2
    exact h4 (by rw [Option.some.inj e2])
  · rename_i a b
    obtain ⟨q', hq'⟩ := Option.isSome_iff_exists.mp h2
    have hj := (reach_inv h.reach).toCore.joinedBy.mpr hq'
    have hon : ∀ l0, (∀ v ∈ l0, v ∈ s.vars) → t.FactorOn q' (l0.map ρ) → ∃ p' ∈ done, s.FactorOn p' l0 := by
      rintro l0 hl0 ⟨h3, g', h4, h5⟩
      rw [h.factors] at h3
      obtain ⟨p', hp', rfl⟩ := List.mem_map.mp h3
      rw [h.get (h.sub p' hp')] at h4
      cases h4
      have hp'f := hsub p' (hmo p' (h.sub p' hp'))
      obtain ⟨f1, hf1, hg1, _⟩ := hpl.fn p' hp'f
      rw [hg1] at h5
      refine ⟨p', hp', hp'f, f1, hf1, ?_⟩
      exact map_inj_on (P := fun v => v ∈ s.vars) (fun a ha b hb => hpl.inj a ha b hb) (mem_vars hs hp'f hf1) hl0 h5
    rw [hg'] at h1
    have hlen := congrArg List.length h1
    rw [List.length_map] at hlen
    obtain ⟨a0, b0, h3⟩ : ∃ a0 b0, f.vars.group = [a0, b0] := by
      rcases hreg with ⟨v, h3, _⟩ | ⟨u, v, h3, _⟩
      · rw [h3] at hlen; cases hlen
      · exact ⟨u, v, h3⟩
    rw [h3] at h1 hmem
    simp only [List.map_cons, List.map_nil, List.cons.injEq, and_true] at h1
    have hpp := hs.toCore.factorOn (p := p) ⟨hsub p (hmo p hp), f, hf, h3⟩
    rcases hj with hj | hj
    · obtain ⟨p', hp', h4⟩ := hon [a0, b0] hmem (by rw [List.map_cons, List.map_cons, List.map_nil, h1.1, h1.2]; exact hj)
      have := hs.toCore.joinedBy.mp (Or.inl h4)
      rw [hpp] at this
      exact hn (Option.some.inj this ▸ hp')
    · obtain ⟨p', hp', h4⟩ := hon [b0, a0] (by intro v hv; exact hmem v (by simpa [or_comm] using hv))
        (by rw [List.map_cons, List.map_cons, List.map_nil, h1.1, h1.2]; exact hj)
      have := hs.toCore.joinedBy.mp (Or.inr h4)
      rw [hpp] at this
      exact hn (Option.some.inj this ▸ hp')

/-- After the insertion of a further factor. -/
theorem PartJ.inserted {t2 t3 : State F} (h : PartJ mv h0 order made done t) {p : Nat} (hp : p ∈ made)
    (hins : Inserted t t2 (pl h0 order p) (mv p)) (hr : Reach anyOp t3) (e1 : t3.vars = t2.vars)
    (e2 : t3.factors = t2.factors) (e3 : t3.evidences = t2.evidences) (e4 : t3.heap = t2.heap) :
    PartJ mv h0 order made (done ++ [p]) t3 where
  reach := hr
  heap := by rw [e4, hins.kept.heap, h.heap]
  factors := by rw [e2, hins.factors, h.factors]; simp
  evidences := by rw [e3, hins.kept.evidences, h.evidences]
  vars := by
    intro v
    rw [e1, hins.vars, List.mem_append, h.vars, List.mem_filter]
    constructor
    · rintro (⟨x, hx, h2⟩ | ⟨h1, _⟩)
      · exact ⟨x, List.mem_append_left _ hx, h2⟩
      · exact ⟨p, by simp, h1⟩
    · rintro ⟨x, hx, h2⟩
      rcases List.mem_append.mp hx with hx | hx
      · exact Or.inl ⟨x, hx, h2⟩
      · simp at hx
        rw [hx] at h2
        by_cases hm : ∃ x ∈ done, v ∈ (mv x).vars.group
        · exact Or.inl hm
        · refine Or.inr ⟨h2, ?_⟩
          rw [← h.vars] at hm
          simpa using hm
  pre := h.pre
  sub := by
    intro q hq
    rcases List.mem_append.mp hq with hq | hq
    · exact h.sub q hq
    · simp at hq; rw [hq]; exact hp

/-- Inserting a constant factor which was read. -/
theorem PartJ.addConst (hs : Inv s) (hpl : Plan s ρ mv) (h : PartJ mv h0 order made done t)
    (hsub : ∀ p ∈ order, p ∈ s.factors) {p : Nat} (hp : p ∈ made) (hn : p ∉ done) :
    ∃ t', addConstFactor (some (pl h0 order p)) t = .ok t' () ∧ PartJ mv h0 order made (done ++ [p]) t' ∧
      t'.consts = t.consts ++ [pl h0 order p] ∧ t'.tuners = t.tuners ∧ t'.tunables = t.tunables := by
  rcases addDistribution_cases (reach_inv h.reach) (h.get hp) with ⟨t2, h1, h2, _⟩ | ⟨_, _, h2, _⟩
  · have he : addConstFactor (some (pl h0 order p)) t = .ok { t2 with consts := t2.consts ++ [pl h0 order p] } () := by
      unfold addConstFactor
      rw [h1]; rfl
    refine ⟨_, he, h.inserted hp h2 (.ok (op := .addConst (some (pl h0 order p))) h.reach ⟨trivial, trivial⟩ trivial he)
      rfl rfl rfl rfl, ?_, h2.kept.tuners, h2.kept.tunables⟩
    show t2.consts ++ _ = _
    rw [h2.kept.consts]
  · exact absurd h2 (h.accepted hs hpl hsub hp hn)

/-- Inserting the first factor of a cluster. -/
theorem PartJ.addFirst (hs : Inv s) (hpl : Plan s ρ mv) (h : PartJ mv h0 order made done t)
    (hsub : ∀ p ∈ order, p ∈ s.factors) {p : Nat} (hp : p ∈ made) (hn : p ∉ done) (hw : (mv p).weight.isSome) :
    ∃ t', addTunable (some (pl h0 order p)) none t = .ok t' () ∧ PartJ mv h0 order made (done ++ [p]) t' ∧
      t'.tunableClusters = t.tunableClusters ++ [[pl h0 order p]] ∧ t'.consts = t.consts := by
  rcases addTunable_cases (reach_inv h.reach) (reach_tuned h.reach) (h.get hp) none with ⟨_, _, hr, _⟩ | ⟨_, t2, b, g1, g2, g3, g4⟩
  · exact absurd hr (h.accepted hs hpl hsub hp hn)
  · simp only at g4
    refine ⟨_, g4, h.inserted hp g1 (.ok (op := .addTunable (some (pl h0 order p)) none) h.reach ⟨trivial, ?_⟩ trivial g4)
      rfl rfl rfl rfl, ?_, g1.kept.consts⟩
    · intro f hf
      rw [h.get hp] at hf
      cases hf
      exact hw
    · show (t.tuners ++ [[b]]).map (fun t => t.map BaseTuner.factor) = _
      rw [List.map_append]
      simp [g2, tunableClusters]

theorem PartJ.findTuner (hs : Inv s) (hpl : Plan s ρ mv) (h : PartJ mv h0 order made done t)
    (hsub : ∀ p ∈ order, p ∈ s.factors) {D R : List (List Nat)} {p0 : Nat} {c : List Nat}
    (hcl : t.tunableClusters = (D ++ (p0 :: c) :: R).map (fun c => c.map (pl h0 order)))
    (hmd : ∀ d ∈ D ++ (p0 :: c) :: R, ∀ p ∈ d, p ∈ made) {f : Fn F} (hf : s.heap[p0]? = some f)
    (hun : ∀ d ∈ D, ∀ p ∈ d, ∀ f', s.heap[p]? = some f' → ¬ f'.vars.group.Perm f.vars.group) :
    t.findTuner (mv p0).vars.sorted = some D.length := by
  have hmo : ∀ q ∈ made, q ∈ s.factors := fun q hq => hsub q (h.pre.subset hq)
  have hp0 := hmd (p0 :: c) (by simp) p0 (by simp)
  obtain ⟨f0, hf0, hg0, _⟩ := hpl.fn p0 (hmo p0 hp0)
  rw [hf] at hf0
  cases hf0
  have hhas : ∀ d ∈ D ++ (p0 :: c) :: R, ∀ p ∈ d, ∃ f', s.heap[p]? = some f' ∧
      (t.hasVars (mv p0).vars.sorted (pl h0 order p) = true ↔ f'.vars.group.Perm f.vars.group) := by
    intro d hd p hp
    have hpm := hmd d hd p hp
    obtain ⟨f', hf', hg', hr', _⟩ := hpl.fn p (hmo p hpm)
    have hwf := factorReach_wf hr'
    refine ⟨f', hf', ?_⟩
    unfold hasVars
    rw [h.get hpm]
    simp only
    rw [VarSet.same_iff (hwf.group.perm.nodup_iff.mpr hwf.group.distinct.nodup), hg', hg0]
    simp only
    constructor
    · intro hpm'
      refine (List.perm_ext_iff_of_nodup (hs.heapWF f' (List.mem_of_getElem? hf')).group.distinct.nodup
        (hs.heapWF f (List.mem_of_getElem? hf)).group.distinct.nodup).mpr ?_
      intro v
      have hm1 := mem_vars hs (hmo p hpm) hf'
      have hm2 := mem_vars hs (hmo p0 hp0) hf
      constructor
      · intro hv
        obtain ⟨u, hu, he⟩ := List.mem_map.mp (hpm'.mem_iff.mp (List.mem_map_of_mem hv))
        rw [← hpl.inj u (hm2 u hu) v (hm1 v hv) he]; exact hu
      · intro hv
        obtain ⟨u, hu, he⟩ := List.mem_map.mp (hpm'.mem_iff.mpr (List.mem_map_of_mem hv))
        rw [← hpl.inj u (hm1 u hu) v (hm2 v hv) he]; exact hu
    · intro hp'; exact hp'.map _
  rw [findTuner_clusters, hcl, List.map_append, List.findIdx?_append]
  have h1 : (D.map (fun c => c.map (pl h0 order))).findIdx? (fun c => c.any (t.hasVars (mv p0).vars.sorted)) = none := by
    rw [List.findIdx?_eq_none_iff]
    intro d' hd'
    obtain ⟨d, hd, rfl⟩ := List.mem_map.mp hd'
    rw [List.any_eq_false]
    intro q hq
    obtain ⟨p, hp, rfl⟩ := List.mem_map.mp hq
    obtain ⟨f', h1, h2⟩ := hhas d (List.mem_append_left _ hd) p hp
    rw [h2]
    exact hun d hd p hp f' h1
  have h2 : (((p0 :: c) :: R).map (fun c => c.map (pl h0 order))).findIdx?
      (fun c => c.any (t.hasVars (mv p0).vars.sorted)) = some 0 := by
    obtain ⟨f', h1, h2⟩ := hhas (p0 :: c) (by simp) p0 (by simp)
    rw [hf] at h1
    cases h1
    have := h2.mpr (List.Perm.refl _)
    simp [List.findIdx?_cons, this]
  rw [h1, h2]
  simp

/-- Inserting a further factor of a cluster. -/
theorem PartJ.addNext (hs : Inv s) (hpl : Plan s ρ mv) (h : PartJ mv h0 order made done t)
    (hsub : ∀ p ∈ order, p ∈ s.factors) {D R : List (List Nat)} {p0 : Nat} {c : List Nat}
    (hcl : t.tunableClusters = (D ++ (p0 :: c) :: R).map (fun c => c.map (pl h0 order)))
    (hmd : ∀ d ∈ D ++ (p0 :: c) :: R, ∀ p ∈ d, p ∈ made) {f : Fn F} (hf : s.heap[p0]? = some f)
    (hun : ∀ d ∈ D, ∀ p ∈ d, ∀ f', s.heap[p]? = some f' → ¬ f'.vars.group.Perm f.vars.group)
    {p : Nat} (hp : p ∈ made) (hn : p ∉ done) {w : F} (hws : ∀ q ∈ p0 :: c ++ [p], (mv q).weight = some w) :
    ∃ t', addTunable (some (pl h0 order p)) (some (mv p0).vars.sorted) t = .ok t' () ∧
      PartJ mv h0 order made (done ++ [p]) t' ∧
      t'.tunableClusters = (D ++ (p0 :: c ++ [p]) :: R).map (fun c => c.map (pl h0 order)) ∧ t'.consts = t.consts := by
  have hft := h.findTuner hs hpl hsub hcl hmd hf hun
  rcases addTunable_cases (reach_inv h.reach) (reach_tuned h.reach) (h.get hp) (some (mv p0).vars.sorted) with
    ⟨_, _, hr, _⟩ | ⟨_, t2, b, g1, g2, g3, g4⟩
  · exact absurd hr (h.accepted hs hpl hsub hp hn)
  · simp only at g4
    rcases g4 with ⟨g4, _⟩ | ⟨i, g4, g5⟩
    · rw [hft] at g4; cases g4
    · rw [hft] at g4
      cases g4
      have hcl' : t2.tuners.map (fun t => t.map BaseTuner.factor) =
          (D ++ (p0 :: c) :: R).map (fun c => c.map (pl h0 order)) := by
        rw [g1.kept.tuners]
        exact hcl
      have hlen : t2.tuners.length = D.length + (R.length + 1) := by
        have := congrArg List.length hcl'
        simpa using this
      obtain ⟨tn, htn⟩ : ∃ tn, t2.tuners[D.length]? = some tn := by
        rw [List.getElem?_eq_getElem (by omega)]
        exact ⟨_, rfl⟩
      have htn' : tn.map BaseTuner.factor = (p0 :: c).map (pl h0 order) := by
        have := congrArg (fun l => l[D.length]?) hcl'
        simp only [List.getElem?_map, htn] at this
        simpa using this
      have hsh := shareTuner_same (s := registered t2 (pl h0 order p)) (i := D.length) (b := b) (tn := tn) (w := w)
        htn (by intro he; rw [he] at htn'; simp at htn') (by
          intro x hx
          rcases List.mem_append.mp hx with hx | hx
          · have : x.factor ∈ (p0 :: c).map (pl h0 order) := by rw [← htn']; exact List.mem_map_of_mem hx
            obtain ⟨q, hq, e⟩ := List.mem_map.mp this
            refine ⟨mv q, ?_, hws q (List.mem_append_left _ hq)⟩
            show t2.heap[x.factor]? = _
            rw [g1.kept.heap, ← e]
            exact h.get (hmd (p0 :: c) (by simp) q hq)
          · simp at hx
            refine ⟨mv p, ?_, hws p (by simp)⟩
            show t2.heap[x.factor]? = _
            rw [hx, g2, g1.kept.heap]
            exact h.get hp)
      have hres := g5.trans hsh
      refine ⟨_, hres, h.inserted hp g1 (.ok (op := .addTunable (some (pl h0 order p)) (some (mv p0).vars.sorted)) h.reach
        ⟨trivial, ?_⟩ trivial hres) rfl rfl rfl rfl, ?_, g1.kept.consts⟩
      · intro f' hf'
        rw [h.get hp] at hf'
        cases hf'
        rw [hws p (by simp)]
        rfl
      · show (t2.tuners.modify D.length (fun t => t ++ [b])).map (fun t => t.map BaseTuner.factor) = _
        apply List.ext_getElem?
        intro j
        have hj := congrArg (fun l => l[j]?) hcl'
        simp only [List.getElem?_map] at hj
        rw [List.getElem?_map, List.getElem?_modify, List.getElem?_map]
        by_cases hjl : D.length = j
        · subst hjl
          rw [htn]
          simp [htn', g2]
        · have : (fun a => if D.length = j then a ++ [b] else a) <$> t2.tuners[j]? = t2.tuners[j]? := by
            simp only [if_neg hjl]
            cases t2.tuners[j]? <;> rfl
          rw [this, hj]
          rcases Nat.lt_or_gt_of_ne hjl with hlt | hlt
          · rw [List.getElem?_append_right (by omega), List.getElem?_append_right (by omega)]
            obtain ⟨k, hk⟩ : ∃ k, j - D.length = k + 1 := ⟨j - D.length - 1, by omega⟩
            rw [hk]
            rfl
          · rw [List.getElem?_append_left hlt, List.getElem?_append_left hlt]

/-! ### The loops -/

theorem potentials_cons (tx : FloatText F) (o : ImportOrder) (vs : VarSet) (b : Bool) (j : Json) (js : List Json)
    (pend : List (Nat × VarSet)) (t : State F) : potentials tx o vs b (j :: js) pend t =
      match potential tx o vs j with
      | .ok x =>
        match insert b pend x t with
        | .ok t1 pend1 => potentials tx o vs b js pend1 t1
        | .throw t1 => .throw t1
        | .ub => .ub
      | .throw => .throw t
      | .ub => .ub := rfl

theorem potentials_append (tx : FloatText F) (o : ImportOrder) (vs : VarSet) (b : Bool) (js js' : List Json) :
    ∀ (pend : List (Nat × VarSet)) (t : State F), potentials tx o vs b (js ++ js') pend t =
      match potentials tx o vs b js pend t with
      | .ok t1 pend1 => potentials tx o vs b js' pend1 t1
      | .throw t1 => .throw t1
      | .ub => .ub := by
  induction js with
  | nil => intro pend t; rfl
  | cons j js ih =>
    intro pend t
    rw [List.cons_append, potentials_cons, potentials_cons]
    cases potential tx o vs j with
    | ok x =>
      simp only
      cases insert b pend x t with
      | ok t1 pend1 => exact ih pend1 t1
      | throw t1 => rfl
      | ub => rfl
    | throw => rfl
    | ub => rfl

/-- Factors which become constant. -/
theorem PartJ.constLoop (hs : Inv s) (hpl : Plan s ρ mv) (hnd : order.Nodup) (hsub : ∀ p ∈ order, p ∈ s.factors)
    {tx : FloatText F} {o : ImportOrder} {vs : VarSet} {b : Bool} {pend : List (Nat × VarSet)} {ps : List Nat}
    {js : List Json}
    (hjs : List.Forall₂ (fun p j => ∃ k, potential tx o vs j = .ok (mv p, k) ∧ (k = .const ∨ b = false)) ps js) :
    ∀ {made rest : List Nat} {t : State F}, PartJ mv h0 order made done t → order = made ++ (ps ++ rest) →
    ∃ t', potentials tx o vs b js pend t = .ok t' pend ∧ PartJ mv h0 order (made ++ ps) (done ++ ps) t' ∧
      t'.consts = t.consts ++ ps.map (pl h0 order) ∧ t'.tuners = t.tuners ∧ t'.tunables = t.tunables := by
  induction hjs generalizing done with
  | nil =>
    intro made rest t h ho
    exact ⟨t, rfl, by simpa using h, by simp, rfl, rfl⟩
  | @cons p j ps js hj _ ih =>
    intro made rest t h ho
    obtain ⟨k, hk, hkb⟩ := hj
    have ho' : order = made ++ p :: (ps ++ rest) := by rw [ho]; simp
    obtain ⟨f, hf, hg, hr, hw⟩ := hpl.fn p (hsub p (by rw [ho']; simp))
    have h1 := h.alloc ho' hr
    obtain ⟨t1, k1, k2, k3, k4, k5⟩ := h1.addConst hs hpl hsub (p := p) (by simp)
      (fun hm => notMem_of_nodup hnd ho' (h.sub p hm))
    obtain ⟨t2, m1, m2, m3, m4, m5⟩ := ih k2 (rest := rest) (by rw [ho]; simp)
    refine ⟨t2, ?_, by simpa using m2, by rw [m3, k3]; simp [State.alloc], by rw [m4, k4]; rfl, by rw [m5, k5]; rfl⟩
    unfold potentials
    rw [hk]
    simp only
    have : insert b pend (mv p, k) t = .ok t1 pend := by
      unfold insert
      simp only
      rw [h.place ho' hnd]
      rcases hkb with rfl | rfl
      · simp only
        rw [k1]
      · cases k with
        | const => simp only; rw [k1]
        | tunable sh =>
          cases sh with
          | none => simp only [Bool.false_eq_true, if_false]; rw [k1]
          | some g => simp only [Bool.false_eq_true, if_false]; rw [k1]
    rw [this]
    exact m1

/-- Factors which are put aside. -/
theorem PartJ.asideLoop (hpl : Plan s ρ mv) (hnd : order.Nodup) (hsub : ∀ p ∈ order, p ∈ s.factors)
    {tx : FloatText F} {o : ImportOrder} {vs : VarSet} {g : VarSet} {ps : List Nat} {js : List Json}
    (hjs : List.Forall₂ (fun p j => potential tx o vs j = .ok (mv p, .tunable (some g))) ps js) :
    ∀ {made rest : List Nat} {pend : List (Nat × VarSet)} {t : State F}, PartJ mv h0 order made done t →
    order = made ++ (ps ++ rest) →
    ∃ t', potentials tx o vs true js pend t = .ok t' (pend ++ ps.map (fun p => (pl h0 order p, g))) ∧
      PartJ mv h0 order (made ++ ps) done t' ∧ t'.consts = t.consts ∧ t'.tuners = t.tuners := by
  induction hjs with
  | nil =>
    intro made rest pend t h ho
    exact ⟨t, by simp [potentials], by simpa using h, rfl, rfl⟩
  | @cons p j ps js hj _ ih =>
    intro made rest pend t h ho
    have ho' : order = made ++ p :: (ps ++ rest) := by rw [ho]; simp
    obtain ⟨f, hf, hg, hr, hw⟩ := hpl.fn p (hsub p (by rw [ho']; simp))
    have h1 := h.alloc ho' hr
    obtain ⟨t2, m1, m2, m3, m4⟩ := ih h1 (rest := rest) (pend := pend ++ [(pl h0 order p, g)]) (by rw [ho]; simp)
    refine ⟨t2, ?_, by simpa using m2, m3, m4⟩
    unfold potentials
    rw [hj]
    simp only
    have : insert true pend (mv p, .tunable (some g)) t = .ok (State.alloc (mv p) t).1 (pend ++ [(pl h0 order p, g)]) := by
      unfold insert
      simp only
      rw [h.place ho' hnd]
      rfl
    rw [this]
    simpa using m1

/-- The json values of a cluster. -/
def ClusterRead (tx : FloatText F) (o : ImportOrder) (vs : VarSet) (mv : Nat → Fn F) (c : List Nat) (js : List Json) : Prop :=
  ∃ p ps j js', c = p :: ps ∧ js = j :: js' ∧ potential tx o vs j = .ok (mv p, .tunable none) ∧
    List.Forall₂ (fun q j => potential tx o vs j = .ok (mv q, .tunable (some (mv p).vars.sorted))) ps js'

/-- What is put aside of a cluster. -/
def aside (mv : Nat → Fn F) (h0 : Heap F) (order : List Nat) (c : List Nat) : List (Nat × VarSet) :=
  match c with
  | [] => []
  | p :: ps => ps.map (fun q => (pl h0 order q, (mv p).vars.sorted))

/-- The first visit of the clusters: the first factors are inserted, the others are put aside. -/
theorem PartJ.clusterLoop (hs : Inv s) (hpl : Plan s ρ mv) (hnd : order.Nodup) (hsub : ∀ p ∈ order, p ∈ s.factors)
    {tx : FloatText F} {o : ImportOrder} {vs : VarSet} {cs : List (List Nat)} {jss : List (List Json)}
    (hjs : List.Forall₂ (ClusterRead tx o vs mv) cs jss) (hw : ∀ c ∈ cs, ∀ p ∈ c, (mv p).weight.isSome) :
    ∀ {made done rest : List Nat} {pend : List (Nat × VarSet)} {t : State F}, PartJ mv h0 order made done t →
    order = made ++ (cs.flatten ++ rest) →
    ∃ t', potentials tx o vs true jss.flatten pend t = .ok t' (pend ++ cs.flatMap (aside mv h0 order)) ∧
      PartJ mv h0 order (made ++ cs.flatten) (done ++ cs.flatMap (List.take 1)) t' ∧ t'.consts = t.consts ∧
      t'.tunableClusters = t.tunableClusters ++ (cs.map (List.take 1)).map (fun c => c.map (pl h0 order)) := by
  induction hjs with
  | nil =>
    intro made done rest pend t h ho
    exact ⟨t, by simp [potentials], by simpa using h, rfl, by simp⟩
  | @cons c js cs jss hj _ ih =>
    intro made done rest pend t h ho
    obtain ⟨p, ps, j, js', rfl, rfl, hj1, hj2⟩ := hj
    have ho' : order = made ++ p :: (ps ++ (cs.flatten ++ rest)) := by rw [ho]; simp
    obtain ⟨f, hf, hg, hr, _⟩ := hpl.fn p (hsub p (by rw [ho']; simp))
    have h1 := h.alloc ho' hr
    obtain ⟨t1, k1, k2, k3, k4⟩ := h1.addFirst hs hpl hsub (p := p) (by simp)
      (fun hm => notMem_of_nodup hnd ho' (h.sub p hm)) (hw (p :: ps) (by simp) p (by simp))
    obtain ⟨t2, m1, m2, m3, m4⟩ := k2.asideLoop hpl hnd hsub hj2 (pend := pend) (rest := cs.flatten ++ rest)
      (by rw [ho']; simp)
    obtain ⟨t3, n1, n2, n3, n4⟩ := ih (fun c hc => hw c (by simp [hc])) m2 (rest := rest)
      (pend := pend ++ ps.map (fun q => (pl h0 order q, (mv p).vars.sorted))) (by rw [ho']; simp)
    refine ⟨t3, ?_, by simpa using n2, by rw [n3, m3, k4]; rfl, ?_⟩
    · rw [List.flatten_cons, potentials_append]
      have : potentials tx o vs true (j :: js') pend t =
          .ok t2 (pend ++ ps.map (fun q => (pl h0 order q, (mv p).vars.sorted))) := by
        unfold potentials
        rw [hj1]
        simp only
        have : insert true pend (mv p, .tunable none) t = .ok t1 pend := by
          unfold insert
          simp only
          rw [h.place ho' hnd]
          simp only [if_true]
          rw [k1]
        rw [this]
        exact m1
      rw [this]
      simp only
      rw [n1]
      simp [aside]
    · have e : t2.tunableClusters = t1.tunableClusters := by unfold tunableClusters; rw [m4]
      rw [n4, e, k3]
      simp [tunableClusters, State.alloc]

/-- The factors of a cluster which were put aside. -/
theorem PartJ.restLoop (hs : Inv s) (hpl : Plan s ρ mv) (hnd : order.Nodup) (hsub : ∀ p ∈ order, p ∈ s.factors)
    {D R : List (List Nat)} {p0 : Nat} {f : Fn F} (hf : s.heap[p0]? = some f)
    (hmD : ∀ d ∈ D ++ R, ∀ p ∈ d, p ∈ order) (hm0 : p0 ∈ order) {w : F} (ps : List Nat) :
    ∀ {done c : List Nat} {t : State F}, PartJ mv h0 order order done t →
    t.tunableClusters = (D ++ (p0 :: c) :: R).map (fun c => c.map (pl h0 order)) →
    (∀ q ∈ c ++ ps, q ∈ order) → (done ++ ps).Nodup → (∀ q ∈ p0 :: (c ++ ps), (mv q).weight = some w) →
    (ps ≠ [] → ∀ d ∈ D, ∀ p ∈ d, ∀ f', s.heap[p]? = some f' → ¬ f'.vars.group.Perm f.vars.group) →
    ∃ t', cumulated (ps.map (fun q => (pl h0 order q, (mv p0).vars.sorted))) t = .ok t' () ∧
      PartJ mv h0 order order (done ++ ps) t' ∧
      t'.tunableClusters = (D ++ (p0 :: (c ++ ps)) :: R).map (fun c => c.map (pl h0 order)) ∧ t'.consts = t.consts := by
  induction ps with
  | nil =>
    intro done c t h hcl _ _ _ _
    exact ⟨t, rfl, by simpa using h, by simpa using hcl, rfl⟩
  | cons p ps ih =>
    intro done c t h hcl hmem hdn hws hun
    obtain ⟨t1, k1, k2, k3, k4⟩ := h.addNext hs hpl hsub hcl (by
        intro d hd q hq
        rcases List.mem_append.mp hd with hd | hd
        · exact hmD d (by simp [hd]) q hq
        · rcases List.mem_cons.mp hd with rfl | hd
          · rcases List.mem_cons.mp hq with rfl | hq
            · exact hm0
            · exact hmem q (by simp [hq])
          · exact hmD d (by simp [hd]) q hq) hf (hun (by simp)) (p := p) (hmem p (by simp))
        (fun hm => (List.nodup_append.mp hdn).2.2 p hm p (by simp) rfl) (w := w) (by
          intro q hq
          refine hws q ?_
          simp only [List.cons_append, List.mem_cons, List.mem_append, List.not_mem_nil, or_false] at hq ⊢
          tauto)
    obtain ⟨t2, m1, m2, m3, m4⟩ := ih (c := c ++ [p]) k2 (by simpa using k3) (by simpa using hmem) (by simpa using hdn)
      (by simpa using hws) (fun _ => hun (by simp))
    refine ⟨t2, ?_, by simpa using m2, by simpa using m3, by rw [m4, k4]⟩
    unfold cumulated at m1 ⊢
    rw [List.map_cons, forEach_cons]
    simp only
    rw [k1]
    exact m1

theorem cumulated_append (l l' : List (Nat × VarSet)) (t : State F) {t1 : State F} (h : cumulated l t = .ok t1 ()) :
    cumulated (l ++ l') t = cumulated l' t1 := by
  unfold cumulated at h ⊢
  induction l generalizing t with
  | nil =>
    cases h
    rfl
  | cons e l ih =>
    rw [List.cons_append, forEach_cons]
    rw [forEach_cons] at h
    cases hx : addTunable (some e.1) (some e.2) t with
    | ok t2 _ => rw [hx] at h; exact ih t2 h
    | throw t2 => rw [hx] at h; cases h
    | ub => rw [hx] at h; cases h

/-- All the factors which were put aside. -/
theorem PartJ.allRest (hs : Inv s) (hpl : Plan s ρ mv) (hnd : order.Nodup) (hsub : ∀ p ∈ order, p ∈ s.factors)
    (cs : List (List Nat)) : ∀ {D : List (List Nat)} {done : List Nat} {t : State F}, PartJ mv h0 order order done t →
    t.tunableClusters = (D ++ cs.map (List.take 1)).map (fun c => c.map (pl h0 order)) →
    (∀ d ∈ D ++ cs, ∀ p ∈ d, p ∈ order) → (done ++ cs.flatMap List.tail).Nodup → (∀ c ∈ cs, c ≠ []) →
    (∀ c ∈ cs, ∃ w, ∀ q ∈ c, (mv q).weight = some w) →
    (∀ (i j : Nat) (c d : List Nat) (p q : Nat), i < j → (D ++ cs)[i]? = some c →
      (D ++ cs)[j]? = some (p :: q :: d) → ∀ p' ∈ c, ∀ f f', s.heap[p]? = some f → s.heap[p']? = some f' →
        ¬ f'.vars.group.Perm f.vars.group) →
    ∃ t', cumulated (cs.flatMap (aside mv h0 order)) t = .ok t' () ∧
      PartJ mv h0 order order (done ++ cs.flatMap List.tail) t' ∧
      t'.tunableClusters = (D ++ cs).map (fun c => c.map (pl h0 order)) ∧ t'.consts = t.consts := by
  induction cs with
  | nil =>
    intro D done t h hcl _ _ _ _ _
    exact ⟨t, rfl, by simpa using h, by simpa using hcl, rfl⟩
  | cons c cs ih =>
    intro D done t h hcl hmem hdn hne hws hun
    cases c with
    | nil => exact absurd rfl (hne [] (by simp))
    | cons p ps =>
      obtain ⟨w, hw⟩ := hws (p :: ps) (by simp)
      obtain ⟨f, hf, _⟩ := hpl.fn p (hsub p (hmem (p :: ps) (by simp) p (by simp)))
      have hdn' : (done ++ ps ++ cs.flatMap List.tail).Nodup := by simpa using hdn
      obtain ⟨t1, k1, k2, k3, k4⟩ := PartJ.restLoop hs hpl hnd hsub (D := D) (R := cs.map (List.take 1)) hf (by
          intro d hd q hq
          rcases List.mem_append.mp hd with hd | hd
          · exact hmem d (by simp [hd]) q hq
          · obtain ⟨d', hd', rfl⟩ := List.mem_map.mp hd
            exact hmem d' (by simp [hd']) q (List.mem_of_mem_take hq)) (hmem (p :: ps) (by simp) p (by simp)) (w := w) ps
          (c := []) h (by simpa using hcl) (by
            intro q hq
            exact hmem (p :: ps) (by simp) q (by simp at hq; simp [hq]))
          (List.nodup_append.mp hdn').1 (by simpa using hw) (by
            intro hps d hd p' hp' f' hf'
            cases ps with
            | nil => exact absurd rfl hps
            | cons q ps =>
              obtain ⟨i, hi⟩ := List.mem_iff_getElem?.mp hd
              have hil := (List.getElem?_eq_some_iff.mp hi).1
              exact hun i D.length d ps p q hil (by rw [List.getElem?_append_left hil]; exact hi) (by simp) p' hp' f f' hf hf')
      obtain ⟨t2, m1, m2, m3, m4⟩ := ih (D := D ++ [p :: ps]) k2 (by simpa using k3) (by simpa using hmem) hdn'
        (fun c hc => hne c (by simp [hc])) (fun c hc => hws c (by simp [hc])) (by
          intro i j c d p' q hij hi hj
          refine hun i j c d p' q hij ?_ ?_
          · simpa using hi
          · simpa using hj)
      refine ⟨t2, ?_, by simpa using m2, by simpa using m3, by rw [m4, k4]⟩
      have k1' : cumulated (aside mv h0 order (p :: ps)) t = .ok t1 () := k1
      rw [List.flatMap_cons, cumulated_append _ _ _ k1']
      exact m1

end JsonIn
end EFG
