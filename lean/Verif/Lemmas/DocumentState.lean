import Verif.Lemmas.Document
import Verif.Lemmas.Absorb
import Verif.Lemmas.Gradient
/- What was read is what is in the model. -/

set_option linter.unusedSectionVars false

namespace EFG
variable {F : Type} [Arith F]

namespace State

/-- What the operations of an import leave as it was. -/
structure Later (s t : State F) : Prop where
  fns : ∀ (p : Nat) (f : Fn F), s.heap[p]? = some f → ∃ w, t.heap[p]? = some { f with weight := w }
  kept : ∀ (p : Nat) (f : Fn F), s.heap[p]? = some f → p ∉ t.tunables → t.heap[p]? = some f
  factors : ∀ p ∈ s.factors, p ∈ t.factors
  consts : ∀ p ∈ s.consts, p ∈ t.consts
  tunables : ∀ p ∈ s.tunables, p ∈ t.tunables
  clusters : ∀ c ∈ s.tunableClusters, ∃ l, c ++ l ∈ t.tunableClusters
  heads : ∀ c ∈ s.tunableClusters, ∀ (q : Nat) (f : Fn F), c.head? = some q → s.heap[q]? = some f → t.heap[q]? = some f
  members : ∀ c ∈ s.tunableClusters, ∀ (q : Nat) (f : Fn F), c.head? = some q → s.heap[q]? = some f → ∀ p ∈ c, ∀ (g : Fn F), s.heap[p]? = some g →
    g.weight = f.weight → ∃ g' : Fn F, t.heap[p]? = some g' ∧ g'.weight = f.weight

theorem Later.rfl' (s : State F) : Later s s where
  fns p f h := ⟨f.weight, h⟩
  kept _ _ h _ := h
  factors _ h := h
  consts _ h := h
  tunables _ h := h
  clusters c h := ⟨[], by simpa using h⟩
  heads _ _ _ _ _ h := h
  members _ _ _ _ _ _ _ _ g hg h := ⟨g, hg, h⟩

theorem head?_append {α : Type} {c l : List α} {q : α} (h : c.head? = some q) : (c ++ l).head? = some q := by
  cases c with
  | nil => cases h
  | cons a c => exact h

theorem Later.trans {s t u : State F} (a : Later s t) (b : Later t u) : Later s u where
  fns p f h := by
    obtain ⟨w, h1⟩ := a.fns p f h
    obtain ⟨w', h2⟩ := b.fns p _ h1
    exact ⟨w', h2⟩
  kept p f h hp := b.kept p f (a.kept p f h (fun h => hp (b.tunables p h))) hp
  factors p h := b.factors p (a.factors p h)
  consts p h := b.consts p (a.consts p h)
  tunables p h := b.tunables p (a.tunables p h)
  clusters c h := by
    obtain ⟨l, h1⟩ := a.clusters c h
    obtain ⟨l', h2⟩ := b.clusters _ h1
    exact ⟨l ++ l', by rw [← List.append_assoc]; exact h2⟩
  heads c h q f hq hf := by
    obtain ⟨l, h1⟩ := a.clusters c h
    exact b.heads _ h1 q f (head?_append hq) (a.heads c h q f hq hf)
  members c h q f hq hf p hp g hg hw := by
    obtain ⟨l, h1⟩ := a.clusters c h
    obtain ⟨g', h2, h3⟩ := a.members c h q f hq hf p hp g hg hw
    exact b.members _ h1 q f (head?_append hq) (a.heads c h q f hq hf) p (List.mem_append_left _ hp) g' h2 h3

/-- Nothing happens to the functions and to the clusters. -/
theorem later_of {s t : State F} (h1 : ∀ (p : Nat) (f : Fn F), s.heap[p]? = some f → t.heap[p]? = some f) (h2 : ∀ p ∈ s.factors, p ∈ t.factors)
    (h3 : ∀ p ∈ s.consts, p ∈ t.consts) (h4 : ∀ p ∈ s.tunables, p ∈ t.tunables)
    (h5 : ∀ c ∈ s.tunableClusters, c ∈ t.tunableClusters) : Later s t where
  fns p f h := ⟨f.weight, h1 p f h⟩
  kept p f h _ := h1 p f h
  factors := h2
  consts := h3
  tunables := h4
  clusters c h := ⟨[], by simpa using h5 c h⟩
  heads _ _ q f _ h := h1 q f h
  members _ _ _ _ _ _ p _ g hg h := ⟨g, h1 p g hg, h⟩

theorem alloc_later (f : Fn F) (s : State F) : Later s (s.alloc f).1 :=
  later_of (fun p g h => by
    show (s.heap ++ [f])[p]? = _
    rw [List.getElem?_append_left (List.getElem?_eq_some_iff.mp h).1]; exact h)
    (fun _ h => h) (fun _ h => h) (fun _ h => h) (fun _ h => h)

/-- A constant factor which is inserted. -/
theorem const_later {s t : State F} (hs : Inv s) {p : Nat} {f : Fn F} (hf : s.heap[p]? = some f)
    (h : addConstFactor (some p) s = .ok t ()) : Later s t ∧ t.heap = s.heap ∧ p ∈ t.factors ∧ p ∈ t.consts ∧
      t.tunables = s.tunables ∧ t.evidences = s.evidences := by
  unfold addConstFactor at h
  rcases addDistribution_cases hs hf with ⟨s1, h1, h2, _⟩ | ⟨s1, h1, _⟩
  · rw [h1] at h
    cases h
    have k := h2.kept
    refine ⟨later_of ?_ ?_ ?_ ?_ ?_, k.heap, ?_, ?_, k.tunables, k.evidences⟩
    · intro q g hq; show s1.heap[q]? = _; rw [k.heap]; exact hq
    · intro q hq; show q ∈ s1.factors; rw [h2.factors]; exact List.mem_append_left _ hq
    · intro q hq; show q ∈ s1.consts ++ [p]; rw [k.consts]; exact List.mem_append_left _ hq
    · intro q hq; show q ∈ s1.tunables; rw [k.tunables]; exact hq
    · intro c hc
      show c ∈ s1.tuners.map _
      rw [k.tuners]; exact hc
    · show p ∈ s1.factors; rw [h2.factors]; simp
    · show p ∈ s1.consts ++ [p]; simp
  · rw [h1] at h; cases h

theorem inserted_later {s s1 : State F} {p : Nat} {f : Fn F} (h2 : Inserted s s1 p f) : Later s (registered s1 p) := by
  have k := h2.kept
  refine later_of ?_ ?_ ?_ ?_ ?_
  · intro q g hq; show s1.heap[q]? = _; rw [k.heap]; exact hq
  · intro q hq; show q ∈ s1.factors; rw [h2.factors]; exact List.mem_append_left _ hq
  · intro q hq; show q ∈ s1.consts; rw [k.consts]; exact hq
  · intro q hq; show q ∈ s1.tunables ++ [p]; rw [k.tunables]; exact List.mem_append_left _ hq
  · intro c hc
    show c ∈ s1.tuners.map _
    rw [k.tuners]; exact hc

/-- A tunable factor which is inserted with a cluster of its own. -/
theorem own_later {s t : State F} (hs : Inv s) (ht : Tuned s) {p : Nat} {f : Fn F} (hf : s.heap[p]? = some f)
    (h : addTunable (some p) none s = .ok t ()) : Later s t ∧ t.heap = s.heap ∧ p ∈ t.factors ∧
      t.tunables = s.tunables ++ [p] ∧ [p] ∈ t.tunableClusters ∧ t.evidences = s.evidences := by
  rcases addTunable_cases hs ht hf none with ⟨s', h1, _⟩ | ⟨_, s1, b, h2, hb, _, h1⟩
  · rw [h1] at h; cases h
  · simp only at h1
    rw [h1] at h
    cases h
    have k := h2.kept
    refine ⟨(inserted_later h2).trans (later_of (fun _ _ h => h) (fun _ h => h) (fun _ h => h) (fun _ h => h) ?_), k.heap, ?_, ?_, ?_, k.evidences⟩
    · intro c hc
      show c ∈ (s.tuners ++ [[b]]).map _
      rw [List.map_append]
      refine List.mem_append_left _ ?_
      rw [← k.tuners]; exact hc
    · show p ∈ s1.factors; rw [h2.factors]; simp
    · show s1.tunables ++ [p] = _; rw [k.tunables]
    · show [p] ∈ (s.tuners ++ [[b]]).map _
      simp [hb]

theorem Tuned.cluster_eq {s : State F} (ht : Tuned s) {c c' : List Nat} (h : c ∈ s.tunableClusters) (h' : c' ∈ s.tunableClusters)
    {q : Nat} (hq : q ∈ c) (hq' : q ∈ c') : c = c' := by
  have hn : s.tunableClusters.flatten.Nodup := by
    have := ht.nodup
    unfold tunableClusters
    rw [← List.map_flatten]; exact this
  rw [List.nodup_flatten] at hn
  by_contra hne
  haveI : Std.Symm (List.Disjoint (α := Nat)) := ⟨fun _ _ h => h.symm⟩
  exact hn.2.forall h h' hne hq hq'

theorem Tuned.cluster_reg {s : State F} (ht : Tuned s) {c : List Nat} (h : c ∈ s.tunableClusters) {q : Nat} (hq : q ∈ c) :
    q ∈ s.tunables := by
  unfold tunableClusters at h
  obtain ⟨t, h1, rfl⟩ := List.mem_map.mp h
  obtain ⟨b, h2, rfl⟩ := List.mem_map.mp hq
  exact (ht.of t h1 b h2).reg

/-- A factor which is added to a cluster. -/
theorem shareTuner_later {s t : State F} (ht : Tuned s) {i : Nat} {b : BaseTuner} (hreg : b.factor ∈ s.tunables)
    (hb : ∀ c ∈ s.tunableClusters, b.factor ∉ c) (h : shareTuner i b s = .ok t ()) :
    ∃ c q f w, s.tunableClusters[i]? = some c ∧ Later s t ∧ c ++ [b.factor] ∈ t.tunableClusters ∧ c.head? = some q ∧
      s.heap[q]? = some f ∧ f.weight = some w ∧
      (∀ g, s.heap[b.factor]? = some g → t.heap[b.factor]? = some { g with weight := some w }) ∧
      t.factors = s.factors ∧ t.tunables = s.tunables ∧ t.evidences = s.evidences := by
  unfold shareTuner at h
  cases hi : s.tuners[i]? with
  | none => rw [hi] at h; cases h
  | some m =>
    rw [hi] at h
    simp only at h
    cases hw : s.tunerWeight m with
    | throw => rw [hw] at h; cases h
    | ub => rw [hw] at h; cases h
    | ok w =>
      rw [hw] at h
      simp only at h
      have hc : s.tunableClusters[i]? = some (m.map BaseTuner.factor) := by
        unfold tunableClusters
        rw [List.getElem?_map, hi]; rfl
      have hmem := List.mem_of_getElem? hc
      obtain ⟨q, f, hq, hf, hfw⟩ : ∃ q f, (m.map BaseTuner.factor).head? = some q ∧ s.heap[q]? = some f ∧ f.weight = some w := by
        unfold tunerWeight at hw
        cases m with
        | nil => cases hw
        | cons a m =>
          simp only at hw
          unfold weightOf at hw
          cases ha : s.heap[a.factor]? with
          | none => rw [ha] at hw; cases hw
          | some f =>
            rw [ha] at hw
            simp only at hw
            refine ⟨a.factor, f, rfl, ha, ?_⟩
            cases hfw : f.weight with
            | none => rw [hfw] at hw; cases hw
            | some w' => rw [hfw] at hw; cases hw; rfl
      have heap : ∀ p, t.heap[p]? = if p ∈ m.map BaseTuner.factor ++ [b.factor] then (s.heap[p]?).map (fun f => f.setWeight w)
          else s.heap[p]? := by
        intro p
        cases h
        show (List.foldl (heapSetWeight w) s.heap ((m ++ [b]).map BaseTuner.factor))[p]? = _
        rw [foldl_heapSetWeight_get, List.map_append]
        rfl
      have clus : ∀ c ∈ s.tunableClusters, ∃ l, c ++ l ∈ t.tunableClusters := by
        intro c hcm
        obtain ⟨j, hj⟩ := List.getElem?_of_mem hcm
        cases h
        unfold tunableClusters at hj
        rw [List.getElem?_map] at hj
        cases hj' : s.tuners[j]? with
        | none => rw [hj'] at hj; cases hj
        | some m' =>
          rw [hj'] at hj
          simp only [Option.map_some, Option.some.injEq] at hj
          have : ∀ l, (List.map (fun t => t.map BaseTuner.factor) (s.tuners.modify i (fun t => t ++ [b])))[j]? = some (c ++ l) →
              ∃ l, c ++ l ∈ List.map (fun t => t.map BaseTuner.factor) (s.tuners.modify i (fun t => t ++ [b])) :=
            fun l hl => ⟨l, List.mem_of_getElem? hl⟩
          by_cases hij : i = j
          · exact this [b.factor] (by rw [List.getElem?_map, List.getElem?_modify, hj']; simp [hij, ← hj])
          · exact this [] (by rw [List.getElem?_map, List.getElem?_modify, hj']; simp [hij, ← hj])
      have hhead : ∀ c ∈ s.tunableClusters, ∀ q' f', c.head? = some q' → s.heap[q']? = some f' → t.heap[q']? = some f' := by
        intro c hcm q' f' hq' hf'
        rw [heap, hf']
        have hq'm : q' ∈ c := List.mem_of_mem_head? hq'
        by_cases hm : q' ∈ m.map BaseTuner.factor ++ [b.factor]
        · rw [if_pos hm]
          rcases List.mem_append.mp hm with hm | hm
          · have := ht.cluster_eq hcm hmem hq'm hm
            subst this
            rw [hq] at hq'; cases hq'
            rw [hf] at hf'; cases hf'
            show some ({ f with weight := some w } : Fn F) = _
            rw [← hfw]
          · simp at hm
            rw [hm] at hq'm
            exact absurd hq'm (hb c hcm)
        · rw [if_neg hm]
      refine ⟨m.map BaseTuner.factor, q, f, w, hc, ⟨?_, ?_, ?_, ?_, ?_, clus, hhead, ?_⟩, ?_, hq, hf, hfw, ?_, ?_, ?_, ?_⟩
      · intro p g hp
        rw [heap, hp]
        split
        · exact ⟨some w, rfl⟩
        · exact ⟨g.weight, rfl⟩
      · intro p g hp hn
        have hn' : p ∉ s.tunables := by cases h; exact hn
        rw [heap, hp, if_neg]
        intro hm
        rcases List.mem_append.mp hm with hm | hm
        · exact hn' (ht.cluster_reg hmem hm)
        · simp at hm
          rw [hm] at hn'
          exact hn' hreg
      · cases h; exact fun _ h => h
      · cases h; exact fun _ h => h
      · cases h; exact fun _ h => h
      · intro c hcm q' f' hq' hf' p hp g hg hgw
        rw [heap, hg]
        by_cases hm : p ∈ m.map BaseTuner.factor ++ [b.factor]
        · rw [if_pos hm]
          rcases List.mem_append.mp hm with hm | hm
          · have := ht.cluster_eq hcm hmem hp hm
            subst this
            rw [hq] at hq'; cases hq'
            rw [hf] at hf'; cases hf'
            exact ⟨_, rfl, hfw.symm⟩
          · simp at hm
            rw [hm] at hp
            exact absurd hp (hb c hcm)
        · rw [if_neg hm]
          exact ⟨g, rfl, hgw⟩
      · cases h
        show _ ∈ List.map (fun t => t.map BaseTuner.factor) (s.tuners.modify i (fun t => t ++ [b]))
        refine List.mem_of_getElem? (i := i) ?_
        rw [List.getElem?_map, List.getElem?_modify, hi]
        simp
      · intro g hg
        rw [heap, hg, if_pos (by simp)]
        rfl
      · cases h; rfl
      · cases h; rfl
      · cases h; rfl

/-- A tunable factor which is inserted in the cluster of another factor. -/
theorem sharing_later {s t : State F} (hs : Inv s) (ht : Tuned s) {p : Nat} {f : Fn F} (hf : s.heap[p]? = some f)
    (hw : f.weight.isSome) {g : VarSet} (h : addTunable (some p) (some g) s = .ok t ()) :
    Later s t ∧ t.evidences = s.evidences ∧ p ∈ t.factors ∧ t.tunables = s.tunables ++ [p] ∧ ∃ c ∈ s.tunableClusters, c ++ [p] ∈ t.tunableClusters ∧ p ∉ c ∧
      (∃ q ∈ c, ∃ f, s.heap[q]? = some f ∧ VarSet.same f.vars.sorted g = true) ∧
      ∃ q f' w, c.head? = some q ∧ s.heap[q]? = some f' ∧ f'.weight = some w ∧
        t.heap[p]? = some { f with weight := some w } := by
  rcases addTunable_cases hs ht hf (some g) with ⟨s', h1, _⟩ | ⟨hr, s1, b, h2, hb, _, h1⟩
  · rw [h1] at h; cases h
  · simp only at h1
    rcases h1 with ⟨_, h1⟩ | ⟨i, hi, h1⟩
    · rw [h1] at h; cases h
    · rw [h1] at h
      have k := h2.kept
      have hclus : (registered s1 p).tunableClusters = s.tunableClusters := by
        unfold tunableClusters
        show s1.tuners.map _ = _
        rw [k.tuners]
      have hheap : (registered s1 p).heap = s.heap := k.heap
      have hnot : ∀ c ∈ s.tunableClusters, p ∉ c := by
        intro c hc hp
        exact hr (.known (ht.reg p (ht.cluster_reg hc hp)))
      obtain ⟨c, q, f', w, h3, h4, h5, h6, h7, h8, h9, h10, h11, h14⟩ := shareTuner_later (registered_tuned ht h2 hf hw)
        (by rw [hb]; show p ∈ s1.tunables ++ [p]; simp) (by rw [hclus, hb]; exact hnot) h
      rw [hclus] at h3
      rw [hheap] at h7 h9
      rw [hb] at h5 h9
      have hc := List.mem_of_getElem? h3
      refine ⟨(inserted_later h2).trans h4, h14.trans k.evidences, ?_, ?_, c, hc, h5, hnot c hc, ?_, q, f', w, h6, h7, h8, h9 f hf⟩
      · rw [h10]; show p ∈ s1.factors; rw [h2.factors]; simp
      · rw [h11]; show s1.tunables ++ [p] = _; rw [k.tunables]
      · unfold findTuner at hi
        obtain ⟨hlt, h12, _⟩ := List.findIdx?_eq_some_iff_getElem.mp hi
        have h13 : s.tuners[i]? = some s.tuners[i] := List.getElem?_eq_getElem hlt
        unfold tunableClusters at h3
        rw [List.getElem?_map, h13] at h3
        simp only [Option.map_some, Option.some.injEq] at h3
        unfold tunes at h12
        rw [List.any_eq_true] at h12
        obtain ⟨x, hx, hx'⟩ := h12
        cases hg : s.heap[x.factor]? with
        | none => rw [hg] at hx'; cases hx'
        | some f0 =>
          rw [hg] at hx'
          exact ⟨x.factor, by rw [← h3]; exact List.mem_map_of_mem hx, f0, hg, hx'⟩

/-- An evidence which is set. -/
theorem setEvidence_later {ord : List Var → List Var} (hord : ∀ l, (ord l).Perm l) {s t : State F} (hs : Inv s) {name : String}
    {k : Nat} (h : setEvidenceByName ord name k s = .ok t ()) : Later s t ∧
      ∃ v, v.name = name ∧ (v, k) ∈ t.evidences ∧ (∀ u j, (u, j) ∈ s.evidences → u ≠ v → (u, j) ∈ t.evidences) ∧
        ∀ u j, (u, j) ∈ t.evidences → (u, j) ∈ s.evidences ∨ (u = v ∧ j = k) := by
  have modify_mem : ∀ (m : List (Var × Nat)) (v : Var), (v ∈ AMap.keys m → (v, k) ∈ AMap.modify m v (fun _ => k)) ∧
      (∀ u j, (u, j) ∈ m → u ≠ v → (u, j) ∈ AMap.modify m v (fun _ => k)) ∧
      ∀ u j, (u, j) ∈ AMap.modify m v (fun _ => k) → (u, j) ∈ m ∨ (u = v ∧ j = k) := by
    intro m v
    induction m with
    | nil => exact ⟨(by intro h; cases h), (by intro _ _ h; cases h), (by intro _ _ h; cases h)⟩
    | cons e m ih =>
      obtain ⟨v', x⟩ := e
      obtain ⟨i1, i2, i3⟩ := ih
      unfold AMap.modify
      by_cases hv : v' = v
      · subst hv
        rw [if_pos rfl]
        refine ⟨fun _ => by simp, ?_, ?_⟩
        · intro u j hu hne
          rcases List.mem_cons.mp hu with hu | hu
          · cases hu; exact absurd rfl hne
          · exact List.mem_cons_of_mem _ hu
        · intro u j hu
          rcases List.mem_cons.mp hu with hu | hu
          · cases hu; exact Or.inr ⟨rfl, rfl⟩
          · exact Or.inl (List.mem_cons_of_mem _ hu)
      · rw [if_neg hv]
        refine ⟨?_, ?_, ?_⟩
        · intro hm
          refine List.mem_cons_of_mem _ (i1 ?_)
          rw [AMap.keys_cons] at hm
          rcases List.mem_cons.mp hm with hm | hm
          · exact absurd hm.symm hv
          · exact hm
        · intro u j hu hne
          rcases List.mem_cons.mp hu with hu | hu
          · rw [hu]; simp
          · exact List.mem_cons_of_mem _ (i2 u j hu hne)
        · intro u j hu
          rcases List.mem_cons.mp hu with hu | hu
          · rw [hu]; left; simp
          · rcases i3 u j hu with h | h
            · exact Or.inl (List.mem_cons_of_mem _ h)
            · exact Or.inr h
  have frame : ∀ {s' : State F}, Frame s s' → Later s s' := by
    intro s' hf
    refine later_of ?_ ?_ ?_ ?_ ?_
    · intro q g hq; rw [hf.heap]; exact hq
    · rw [hf.factors]; exact fun _ h => h
    · rw [hf.consts]; exact fun _ h => h
    · rw [hf.tunables]; exact fun _ h => h
    · unfold tunableClusters; rw [hf.tuners]; exact fun _ h => h
  unfold setEvidenceByName at h
  rcases findVariable_cases s name with ⟨v, h1⟩ | h1
  · rw [h1] at h
    simp only at h
    obtain ⟨hv, hn⟩ := findVariable_mem h1
    by_cases hk : v.size ≤ k
    · unfold setEvidence at h
      rw [if_pos hk] at h
      cases h
    · have hk' : k < v.size := by omega
      by_cases ho : v ∈ s.obs
      · obtain ⟨s', h3, h4⟩ := setEvidence_observed hord hs.toCore ho hk'
        rw [h3] at h
        cases h
        obtain ⟨i1, i2, i3⟩ := modify_mem s.evidences v
        refine ⟨frame h4.frame, v, hn, ?_, ?_, ?_⟩
        · rw [h4.evidences]; exact i1 ho
        · rw [h4.evidences]; exact i2
        · rw [h4.evidences]; exact i3
      · obtain ⟨s', h3, h4⟩ := setEvidence_hidden hord hs hv ho hk'
        rw [h3] at h
        cases h
        refine ⟨frame h4.frame, v, hn, ?_, ?_, ?_⟩
        · rw [h4.evidences]; simp
        · rw [h4.evidences]; exact fun u j hu _ => List.mem_append_left _ hu
        · rw [h4.evidences]
          intro u j hu
          rcases List.mem_append.mp hu with hu | hu
          · exact Or.inl hu
          · simp at hu
            exact Or.inr hu
  · rw [h1] at h; cases h

/-! ### Where what was read is -/

/-- The model has what was read. -/
def Lodged (inserts : Bool) (s : State F) (p : Nat) (x : Fn F × ItemKind) : Prop :=
  p ∈ s.factors ∧
  match inserts, x.2 with
  | true, .tunable none => p ∈ s.tunables ∧ s.heap[p]? = some x.1 ∧ ∃ c ∈ s.tunableClusters, c.head? = some p
  | true, .tunable (some g) => p ∈ s.tunables ∧ (∃ w, s.heap[p]? = some { x.1 with weight := w }) ∧
      ∃ c ∈ s.tunableClusters, p ∈ c ∧
        (∃ q ∈ c, q ≠ p ∧ ∃ f, s.heap[q]? = some f ∧ VarSet.same f.vars.sorted g = true) ∧
        ∃ q f g', c.head? = some q ∧ s.heap[q]? = some f ∧ s.heap[p]? = some g' ∧ g'.weight = f.weight
  | _, _ => p ∈ s.consts ∧ s.heap[p]? = some x.1

theorem const_not_tunable {allowed : State F → GOp F → Prop} {s : State F} (h : Reach allowed s) {p : Nat} (hp : p ∈ s.consts) :
    p ∉ s.tunables := by
  have h1 : s.factors.Perm (s.consts ++ s.tunables) := reach_registered h
  have h2 := h1.nodup_iff.mp (reach_inv h).facNodup
  exact fun hq => (List.nodup_append.mp h2).2.2 p hp p hq rfl

theorem Lodged.later {allowed : State F → GOp F → Prop} {inserts : Bool} {s t : State F} {p : Nat} {x : Fn F × ItemKind}
    (h : Lodged inserts s p x) (hl : Later s t) (hr : Reach allowed t) : Lodged inserts t p x := by
  obtain ⟨h0, h⟩ := h
  refine ⟨hl.factors p h0, ?_⟩
  have const : p ∈ s.consts ∧ s.heap[p]? = some x.1 → p ∈ t.consts ∧ t.heap[p]? = some x.1 := by
    rintro ⟨h1, h2⟩
    have h3 := hl.consts p h1
    exact ⟨h3, hl.kept p _ h2 (const_not_tunable hr h3)⟩
  cases inserts with
  | false => exact const h
  | true =>
    cases hk : x.2 with
    | const => rw [hk] at h; exact const h
    | tunable share =>
      rw [hk] at h
      cases share with
      | none =>
        simp only at h ⊢
        obtain ⟨h1, h2, c, h3, h4⟩ := h
        obtain ⟨l, h5⟩ := hl.clusters c h3
        exact ⟨hl.tunables p h1, hl.heads c h3 p _ h4 h2, c ++ l, h5, head?_append h4⟩
      | some g =>
        simp only at h ⊢
        obtain ⟨h1, ⟨w, h2⟩, c, h3, h4, ⟨q, h5, h6, f, h7, h8⟩, q', f', g', h9, h10, h11, h12⟩ := h
        obtain ⟨l, h13⟩ := hl.clusters c h3
        obtain ⟨w', h14⟩ := hl.fns p _ h2
        obtain ⟨w'', h15⟩ := hl.fns q _ h7
        obtain ⟨g'', h16, h17⟩ := hl.members c h3 q' f' h9 h10 p h4 g' h11 h12
        exact ⟨hl.tunables p h1, ⟨w', h14⟩, c ++ l, h13, List.mem_append_left _ h4,
          ⟨q, List.mem_append_left _ h5, h6, _, h15, h8⟩, q', f', g'', head?_append h9, hl.heads c h3 q' f' h9 h10, h16, h17⟩

/-- A factor which was put aside. -/
structure Aside (L : List Var) (s : State F) (e : Nat × VarSet) (x : Fn F × ItemKind) : Prop where
  item : Item L x
  kind : x.2 = .tunable (some e.2)
  fn : s.heap[e.1]? = some x.1
  out : e.1 ∉ s.tunables

theorem Aside.later {L : List Var} {s t : State F} {e : Nat × VarSet} {x : Fn F × ItemKind} (h : Aside L s e x) (hl : Later s t)
    (ht : e.1 ∉ t.tunables) : Aside L t e x := ⟨h.item, h.kind, hl.kept _ _ h.fn ht, ht⟩

end State

open State

/-- The insertion of what was read. -/
def JsonIn.insertAll (inserts : Bool) : List (Fn F × ItemKind) → List (Nat × VarSet) → M (State F) (List (Nat × VarSet))
  | [], pending, s => .ok s pending
  | x :: xs, pending, s =>
    match insert inserts pending x s with
    | .ok s1 pending' => insertAll inserts xs pending' s1
    | .throw s1 => .throw s1
    | .ub => .ub

theorem JsonIn.potentials_of {tx : FloatText F} {o : ImportOrder} {L : VarSet} {inserts : Bool} {t : State F}
    {pending' : List (Nat × VarSet)} : ∀ {js : List Json} {pending : List (Nat × VarSet)} {s : State F},
    potentials tx o L inserts js pending s = .ok t pending' →
    ∃ xs, List.Forall₂ (fun j x => potential tx o L j = .ok x) js xs ∧ insertAll inserts xs pending s = .ok t pending'
  | [], _, _, h => ⟨[], .nil, h⟩
  | j :: js, pending, s, h => by
    unfold potentials at h
    cases e1 : potential tx o L j with
    | throw => rw [e1] at h; cases h
    | ub => rw [e1] at h; cases h
    | ok x =>
      rw [e1] at h
      simp only at h
      cases e2 : insert inserts pending x s with
      | throw s1 => rw [e2] at h; cases h
      | ub => rw [e2] at h; cases h
      | ok s1 p1 =>
        rw [e2] at h
        obtain ⟨xs, h1, h2⟩ := potentials_of h
        refine ⟨x :: xs, .cons e1 h1, ?_⟩
        unfold insertAll
        rw [e2]
        exact h2

theorem XmlIn.potentials_of {tx : FloatText F} {files : List Char → Option (List Char)} {o : ImportOrder} {L : VarSet}
    {inserts : Bool} {t : State F}
    {pending' : List (Nat × VarSet)} : ∀ {js : List Tag} {pending : List (Nat × VarSet)} {s : State F},
    potentials tx files o L inserts js pending s = .ok t pending' →
    ∃ xs, List.Forall₂ (fun j x => potential tx files o L j = .ok x) js xs ∧
      JsonIn.insertAll inserts xs pending s = .ok t pending'
  | [], _, _, h => ⟨[], .nil, h⟩
  | j :: js, pending, s, h => by
    unfold potentials at h
    cases e1 : potential tx files o L j with
    | throw => rw [e1] at h; cases h
    | ub => rw [e1] at h; cases h
    | ok x =>
      rw [e1] at h
      simp only at h
      cases e2 : JsonIn.insert inserts pending x s with
      | throw s1 => rw [e2] at h; cases h
      | ub => rw [e2] at h; cases h
      | ok s1 p1 =>
        rw [e2] at h
        obtain ⟨xs, h1, h2⟩ := potentials_of h
        refine ⟨x :: xs, .cons e1 h1, ?_⟩
        unfold JsonIn.insertAll
        rw [e2]
        exact h2

namespace JsonIn
variable {L : List Var}

theorem insert_settles {inserts : Bool} {pending pending' : List (Nat × VarSet)} {x : Fn F × ItemKind} (hx : Item L x)
    {s t : State F} (hr : Reach anyOp s) (h : insert inserts pending x s = .ok t pending') :
    Reach anyOp t ∧ Later s t ∧ t.evidences = s.evidences ∧ t.heap.length = s.heap.length + 1 ∧
      (∀ q ∈ t.tunables, q ∈ s.tunables ∨ q = s.heap.length) ∧
      ((pending' = pending ∧ Lodged inserts t s.heap.length x) ∨
        (inserts = true ∧ ∃ g, pending' = pending ++ [(s.heap.length, g)] ∧ Aside L t (s.heap.length, g) x)) := by
  have hr1 : Reach anyOp (s.alloc x.1).1 := .ok (op := .create x.1) hr ⟨trivial, hx.fresh.1⟩ trivial rfl
  have hA := alloc_later x.1 s
  have hlen : (s.alloc x.1).1.heap.length = s.heap.length + 1 := by
    show (s.heap ++ [x.1]).length = _
    simp
  have hf : (s.alloc x.1).1.heap[s.heap.length]? = some x.1 := by
    show (s.heap ++ [x.1])[s.heap.length]? = _
    simp
  have const : ∀ t, addConstFactor (some s.heap.length) (s.alloc x.1).1 = .ok t () → (inserts = false ∨ x.2 = .const) →
      Reach anyOp t ∧ Later s t ∧ t.evidences = s.evidences ∧ t.heap.length = s.heap.length + 1 ∧
      (∀ q ∈ t.tunables, q ∈ s.tunables ∨ q = s.heap.length) ∧ Lodged inserts t s.heap.length x := by
    intro t ht hk
    obtain ⟨h1, h2, h3, h4, h5, h6⟩ := const_later (reach_inv hr1) hf ht
    refine ⟨.ok (op := .addConst (some s.heap.length)) hr1 ⟨trivial, trivial⟩ trivial ht, hA.trans h1, h6, by rw [h2, hlen], ?_, h3, ?_⟩
    · intro q hq; rw [h5] at hq; exact Or.inl hq
    · have : s.heap.length ∈ t.consts ∧ t.heap[s.heap.length]? = some x.1 := ⟨h4, by rw [h2]; exact hf⟩
      rcases hk with rfl | hk
      · exact this
      · rw [hk]
        cases inserts <;> exact this
  unfold insert at h
  cases hk : x.2 with
  | const =>
    rw [hk] at h
    simp only at h
    cases e : addConstFactor (some s.heap.length) (s.alloc x.1).1 with
    | throw s1 => rw [e] at h; cases h
    | ub => rw [e] at h; cases h
    | ok s1 u =>
      rw [e] at h
      cases h
      obtain ⟨h1, h2, h3, h4, h5, h6⟩ := const t e (Or.inr hk)
      exact ⟨h1, h2, h3, h4, h5, Or.inl ⟨rfl, h6⟩⟩
  | tunable share =>
    have hw := hx.weight share hk
    rw [hk] at h
    cases inserts with
    | false =>
      have key : ∀ o : Out (State F) Unit, o = addConstFactor (some s.heap.length) (s.alloc x.1).1 →
          (match o with
          | .ok s2 _ => Out.ok s2 pending
          | .throw s2 => .throw s2
          | .ub => .ub) = .ok t pending' → addConstFactor (some s.heap.length) (s.alloc x.1).1 = .ok t () ∧ pending' = pending := by
        intro o ho h
        cases o with
        | throw s1 => cases h
        | ub => cases h
        | ok s1 u => cases h; exact ⟨ho.symm, rfl⟩
      have h7 : addConstFactor (some s.heap.length) (s.alloc x.1).1 = .ok t () ∧ pending' = pending := by
        cases share with
        | none => exact key _ rfl h
        | some g => exact key _ rfl h
      obtain ⟨h1, h2, h3, h4, h5, h6⟩ := const t h7.1 (Or.inl rfl)
      exact ⟨h1, h2, h3, h4, h5, Or.inl ⟨h7.2, h6⟩⟩
    | true =>
      cases share with
      | none =>
        simp only [if_true] at h
        cases e : addTunable (some s.heap.length) none (s.alloc x.1).1 with
        | throw s1 => rw [e] at h; cases h
        | ub => rw [e] at h; cases h
        | ok s1 u =>
          rw [e] at h
          cases h
          obtain ⟨h1, h2, h3, h4, h5, h6⟩ := own_later (reach_inv hr1) (reach_tuned hr1) hf e
          have h4' : t.tunables = s.tunables ++ [s.heap.length] := h4
          refine ⟨.ok (op := .addTunable (some s.heap.length) none) hr1 ⟨trivial, ?_⟩ trivial e, hA.trans h1, h6, by rw [h2, hlen],
            ?_, Or.inl ⟨rfl, h3, ?_⟩⟩
          · intro f' hf'; rw [hf] at hf'; cases hf'; exact hw
          · intro q hq
            rw [h4'] at hq
            rcases List.mem_append.mp hq with hq | hq
            · exact Or.inl hq
            · simp at hq; exact Or.inr hq
          · rw [hk]
            exact ⟨by rw [h4']; simp, by rw [h2]; exact hf, _, h5, rfl⟩
      | some g =>
        simp only [if_true] at h
        cases h
        refine ⟨hr1, hA, rfl, hlen, fun q hq => Or.inl hq, Or.inr ⟨rfl, g, rfl, hx, hk, hf, ?_⟩⟩
        intro hq
        have hq' : s.heap.length ∈ s.tunables := hq
        obtain ⟨f, h1, _⟩ := (reach_tuned hr).exp _ hq'
        have := (List.getElem?_eq_some_iff.mp h1).1
        omega

theorem insertAll_settles {inserts : Bool} {pending' : List (Nat × VarSet)} {t : State F} : ∀ {xs : List (Fn F × ItemKind)}
    {pending : List (Nat × VarSet)} {s : State F}, (∀ x ∈ xs, Item L x) → Reach anyOp s →
    (pending.map Prod.fst).Nodup → (∀ e ∈ pending, inserts = true ∧ ∃ x, Aside L s e x) →
    insertAll inserts xs pending s = .ok t pending' →
    Reach anyOp t ∧ Later s t ∧ t.evidences = s.evidences ∧ (pending'.map Prod.fst).Nodup ∧ (∀ e ∈ pending', inserts = true ∧ ∃ x, Aside L t e x) ∧
      (∀ e ∈ pending, e ∈ pending' ∧ ∀ x, Aside L s e x → Aside L t e x) ∧
      ∀ (k : Nat) x, xs[k]? = some x → Lodged inserts t (s.heap.length + k) x ∨
        ∃ e ∈ pending', e.1 = s.heap.length + k ∧ Aside L t e x
  | [], pending, s, _, hr, hn, hp, h => by
    cases h
    exact ⟨hr, .rfl' _, rfl, hn, hp, fun e he => ⟨he, fun _ h => h⟩, fun k x hk => by cases hk⟩
  | x :: xs, pending, s, hx, hr, hn, hp, h => by
    unfold insertAll at h
    cases e1 : insert inserts pending x s with
    | throw s1 => rw [e1] at h; cases h
    | ub => rw [e1] at h; cases h
    | ok s1 p1 =>
      rw [e1] at h
      simp only at h
      obtain ⟨h1, h2, h2e, h3, h4, h5⟩ := insert_settles (hx x (by simp)) hr e1
      have hlt : ∀ e ∈ pending, e.1 < s.heap.length := by
        intro e he
        obtain ⟨_, y, hy⟩ := hp e he
        exact (List.getElem?_eq_some_iff.mp hy.fn).1
      have keep : ∀ e ∈ pending, ∀ y, Aside L s e y → Aside L s1 e y := by
        intro e he y hy
        refine hy.later h2 ?_
        intro hq
        rcases h4 _ hq with hq | hq
        · exact hy.out hq
        · have := hlt e he; omega
      have hp1 : (p1.map Prod.fst).Nodup ∧ (∀ e ∈ p1, inserts = true ∧ ∃ x, Aside L s1 e x) ∧ ∀ e ∈ pending, e ∈ p1 := by
        rcases h5 with ⟨h6, _⟩ | ⟨h6, g, h7, h8⟩
        · rw [h6]
          refine ⟨hn, fun e he => ?_, fun e he => he⟩
          obtain ⟨h9, y, hy⟩ := hp e he
          exact ⟨h9, y, keep e he y hy⟩
        · rw [h7]
          refine ⟨?_, fun e he => ?_, fun e he => List.mem_append_left _ he⟩
          · rw [List.map_append, List.nodup_append]
            refine ⟨hn, by simp, ?_⟩
            intro a ha b hb
            obtain ⟨e, he, rfl⟩ := List.mem_map.mp ha
            simp at hb
            have := hlt e he
            omega
          · rcases List.mem_append.mp he with he | he
            · obtain ⟨h9, y, hy⟩ := hp e he
              exact ⟨h9, y, keep e he y hy⟩
            · simp at he
              rw [he]; exact ⟨h6, x, h8⟩
      obtain ⟨i1, i2, i2e, i3, i4, i5, i6⟩ := insertAll_settles (fun y hy => hx y (List.mem_cons_of_mem _ hy)) h1 hp1.1 hp1.2.1 h
      refine ⟨i1, h2.trans i2, i2e.trans h2e, i3, i4, ?_, ?_⟩
      · intro e he
        have h9 := i5 e (hp1.2.2 e he)
        exact ⟨h9.1, fun y hy => h9.2 y (keep e he y hy)⟩
      · intro k y hk
        cases k with
        | zero =>
          cases hk
          rcases h5 with ⟨_, h6⟩ | ⟨_, g, h7, h8⟩
          · exact Or.inl (h6.later i2 i1)
          · have h9 := i5 (s.heap.length, g) (by rw [h7]; simp)
            exact Or.inr ⟨_, h9.1, rfl, h9.2 _ h8⟩
        | succ k =>
          have := i6 k y hk
          rw [h3] at this
          have e : s.heap.length + 1 + k = s.heap.length + (k + 1) := by omega
          rw [e] at this
          exact this

theorem cumulated_settles {t : State F} : ∀ {pending : List (Nat × VarSet)} {s : State F}, Reach anyOp s →
    (pending.map Prod.fst).Nodup → (∀ e ∈ pending, ∃ x, Aside L s e x) → cumulated pending s = .ok t () →
    Reach anyOp t ∧ Later s t ∧ t.evidences = s.evidences ∧ ∀ e ∈ pending, ∀ x, Aside L s e x → Lodged true t e.1 x
  | [], s, hr, _, _, h => by
    cases h
    exact ⟨hr, .rfl' _, rfl, fun e he => by cases he⟩
  | e :: pending, s, hr, hn, hp, h => by
    unfold cumulated State.forEach at h
    cases e1 : addTunable (some e.1) (some e.2) s with
    | throw s1 => rw [e1] at h; cases h
    | ub => rw [e1] at h; cases h
    | ok s1 u =>
      rw [e1] at h
      simp only at h
      obtain ⟨x, hx⟩ := hp e (by simp)
      have hw := hx.item.weight _ hx.kind
      have hr1 : Reach anyOp s1 := .ok (op := .addTunable (some e.1) (some e.2)) hr
        ⟨trivial, (by intro f' hf'; rw [hx.fn] at hf'; cases hf'; exact hw)⟩ trivial e1
      obtain ⟨h1, h1e, h2, h3, c, h4, h5, h6, ⟨q, h7, f, h8, h9⟩, q', f', w, h10, h11, h12, h13⟩ :=
        sharing_later (reach_inv hr) (reach_tuned hr) hx.fn hw e1
      rw [List.map_cons, List.nodup_cons] at hn
      have keep : ∀ e' ∈ pending, ∀ y, Aside L s e' y → Aside L s1 e' y := by
        intro e' he' y hy
        refine hy.later h1 ?_
        intro hq
        rw [h3] at hq
        rcases List.mem_append.mp hq with hq | hq
        · exact hy.out hq
        · simp at hq
          exact hn.1 (by rw [← hq]; exact List.mem_map_of_mem he')
      obtain ⟨i1, i2, i2e, i3⟩ := cumulated_settles hr1 hn.2 (fun e' he' => by
        obtain ⟨y, hy⟩ := hp e' (List.mem_cons_of_mem _ he')
        exact ⟨y, keep e' he' y hy⟩) h
      refine ⟨i1, h1.trans i2, i2e.trans h1e, ?_⟩
      intro e' he' y hy
      rcases List.mem_cons.mp he' with rfl | he'
      · have hyx : y.1 = x.1 := by
          have := hy.fn
          rw [hx.fn] at this
          exact (Option.some.inj this).symm
        have : Lodged true s1 e'.1 y := by
          refine ⟨h2, ?_⟩
          rw [hy.kind]
          obtain ⟨w2, h14⟩ := h1.fns q f h8
          refine ⟨by rw [h3]; simp, ⟨some w, by rw [hyx]; exact h13⟩, c ++ [e'.1], h5, by simp, ?_, ?_⟩
          · refine ⟨q, List.mem_append_left _ h7, ?_, _, h14, h9⟩
            rintro rfl
            exact h6 h7
          · exact ⟨q', f', _, head?_append h10, h1.heads c h4 q' f' h10 h11, h13, h12.symm⟩
        exact this.later i2 i1
      · exact i3 e' he' y (keep e' he' y hy)

theorem setEvidences_settles {o : ImportOrder} (ho : o.Fair) {t : State F} : ∀ {l : List (String × Nat)} {s : State F},
    Reach anyOp s → (l.map Prod.fst).Nodup →
    State.forEach (fun e => State.setEvidenceByName o.vars e.1 e.2) l s = .ok t () →
    Reach anyOp t ∧ Later s t ∧ (∀ name k, (name, k) ∈ l → ∃ v, v.name = name ∧ (v, k) ∈ t.evidences) ∧
      (∀ v k, (v, k) ∈ s.evidences → v.name ∉ l.map Prod.fst → (v, k) ∈ t.evidences) ∧
      ∀ v k, (v, k) ∈ t.evidences → (v, k) ∈ s.evidences ∨ (v.name, k) ∈ l
  | [], s, hr, _, h => by
    cases h
    exact ⟨hr, .rfl' _, fun _ _ h => (by cases h), fun _ _ h _ => h, fun _ _ h => Or.inl h⟩
  | e :: l, s, hr, hn, h => by
    unfold State.forEach at h
    cases e1 : setEvidenceByName o.vars e.1 e.2 s with
    | throw s1 => rw [e1] at h; cases h
    | ub => rw [e1] at h; cases h
    | ok s1 u =>
      rw [e1] at h
      simp only at h
      have hr1 : Reach anyOp s1 := .ok (op := .setEvidenceByName o.vars e.1 e.2) hr ⟨ho.vars, trivial⟩ trivial e1
      obtain ⟨h1, v, h2, h3, h4, h5⟩ := setEvidence_later ho.vars (reach_inv hr) e1
      rw [List.map_cons, List.nodup_cons] at hn
      obtain ⟨i1, i2, i3, i4, i5⟩ := setEvidences_settles ho hr1 hn.2 h
      refine ⟨i1, h1.trans i2, ?_, ?_, ?_⟩
      · intro name k hk
        rcases List.mem_cons.mp hk with hk | hk
        · have h6 : e.1 = name := by rw [← hk]
          have h7 : e.2 = k := by rw [← hk]
          subst h6; subst h7
          exact ⟨v, h2, i4 v e.2 h3 (by rw [h2]; exact hn.1)⟩
        · exact i3 name k hk
      · intro u k hu hnu
        rw [List.map_cons, List.mem_cons, not_or] at hnu
        refine i4 u k (h4 u k hu ?_) hnu.2
        rintro rfl
        exact hnu.1 h2
      · intro u k hu
        rcases i5 u k hu with hu | hu
        · rcases h5 u k hu with hu | ⟨rfl, rfl⟩
          · exact Or.inl hu
          · exact Or.inr (by rw [h2]; simp)
        · exact Or.inr (List.mem_cons_of_mem _ hu)

/-- The factors, the factors put aside and the evidences. -/
theorem all_settles {o : ImportOrder} (ho : o.Fair) {inserts : Bool} {pending : List (Nat × VarSet)} {s s1 t : State F}
    {xs : List (Fn F × ItemKind)} {evs : List (String × Nat)} (hx : ∀ x ∈ xs, Item L x) (hr : Reach anyOp s)
    (hn : (evs.map Prod.fst).Nodup) (h1 : insertAll inserts xs [] s = .ok s1 pending)
    (h2 : State.andThen (cumulated pending) (setEvidences o evs) s1 = .ok t ()) :
    Reach anyOp t ∧ (∀ (k : Nat) x, xs[k]? = some x → Lodged inserts t (s.heap.length + k) x) ∧
      (∀ name k, (name, k) ∈ evs → ∃ v, v.name = name ∧ (v, k) ∈ t.evidences) ∧
      (∀ v k, (v, k) ∈ s.evidences → v.name ∉ evs.map Prod.fst → (v, k) ∈ t.evidences) ∧
      ∀ v k, (v, k) ∈ t.evidences → (v, k) ∈ s.evidences ∨ (v.name, k) ∈ evs := by
  obtain ⟨a1, a2, a2e, a3, a4, _, a6⟩ := insertAll_settles hx hr (by simp) (fun e he => by cases he) h1
  unfold State.andThen at h2
  cases e1 : cumulated pending s1 with
  | throw s2 => rw [e1] at h2; cases h2
  | ub => rw [e1] at h2; cases h2
  | ok s2 u =>
    rw [e1] at h2
    simp only at h2
    obtain ⟨b1, b2, b2e, b3⟩ := cumulated_settles a1 a3 (fun e he => (a4 e he).2) e1
    unfold setEvidences at h2
    have hp := ho.evidences evs
    obtain ⟨c1, c2, c3, c4, c5⟩ := setEvidences_settles ho b1 ((hp.map Prod.fst).nodup_iff.mpr hn) h2
    have hev : s2.evidences = s.evidences := b2e.trans a2e
    refine ⟨c1, ?_, ?_, ?_, ?_⟩
    · intro k x hk
      rcases a6 k x hk with h | ⟨e, he, he1, hA⟩
      · exact (h.later b2 b1).later c2 c1
      · have := b3 e he x hA
        rw [(a4 e he).1, ← he1]
        exact this.later c2 c1
    · intro name k hk
      exact c3 name k (hp.mem_iff.mpr hk)
    · intro v k hv hnv
      refine c4 v k (by rw [hev]; exact hv) ?_
      rw [(hp.map Prod.fst).mem_iff]; exact hnv
    · intro v k hv
      rcases c5 v k hv with h | h
      · exact Or.inl (by rw [← hev]; exact h)
      · exact Or.inr (hp.mem_iff.mp h)

end JsonIn
end EFG
