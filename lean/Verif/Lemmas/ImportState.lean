import Verif.Lemmas.Import
/- The insertion of what was read in a model which is not empty. -/

set_option linter.unusedSectionVars false

namespace EFG
variable {F : Type} [Arith F]

namespace State

/-- `Extends`, with the pointers of the new factors from `n` on. The weights of these may change, too. -/
structure Adds (n : Nat) (s t : State F) : Prop where
  heap : s.heap.length ≤ t.heap.length
  fns : ∀ p f, s.heap[p]? = some f →
    t.heap[p]? = some f ∨ ((p ∈ s.tunables ∨ n ≤ p) ∧ ∃ w, t.heap[p]? = some { f with weight := some w })
  vars : ∃ l, t.vars = s.vars ++ l
  factors : ∃ l, t.factors = s.factors ++ l ∧ ∀ p ∈ l, n ≤ p
  consts : ∃ l, t.consts = s.consts ++ l ∧ ∀ p ∈ l, n ≤ p
  tunables : ∃ l, t.tunables = s.tunables ++ l ∧ ∀ p ∈ l, n ≤ p
  clusters : ∀ (i : Nat) c, s.tunableClusters[i]? = some c → ∃ l, t.tunableClusters[i]? = some (c ++ l)
  observed : ∀ v, s.Observes v → t.Observes v
  iterations : t.maxIter = s.maxIter

theorem Adds.rfl' (n : Nat) (s : State F) : Adds n s s where
  heap := Nat.le_refl _
  fns _ _ h := Or.inl h
  vars := ⟨[], by simp⟩
  factors := ⟨[], by simp, by simp⟩
  consts := ⟨[], by simp, by simp⟩
  tunables := ⟨[], by simp, by simp⟩
  clusters _ _ h := ⟨[], by rw [List.append_nil]; exact h⟩
  observed _ h := h
  iterations := rfl

theorem Adds.trans {n : Nat} {s t u : State F} (a : Adds n s t) (b : Adds n t u) : Adds n s u where
  heap := Nat.le_trans a.heap b.heap
  fns p f h := by
    have hm : p ∈ t.tunables → p ∈ s.tunables ∨ n ≤ p := by
      intro hp
      obtain ⟨l, e, hl⟩ := a.tunables
      rw [e] at hp
      rcases List.mem_append.mp hp with h | h
      · exact Or.inl h
      · exact Or.inr (hl p h)
    rcases a.fns p f h with h1 | ⟨h1, w, h2⟩
    · rcases b.fns p f h1 with h3 | ⟨h3, w, h4⟩
      · exact Or.inl h3
      · refine Or.inr ⟨?_, w, h4⟩
        rcases h3 with h3 | h3
        · exact hm h3
        · exact Or.inr h3
    · rcases b.fns p _ h2 with h3 | ⟨_, w', h4⟩
      · exact Or.inr ⟨h1, w, h3⟩
      · exact Or.inr ⟨h1, w', h4⟩
  vars := by
    obtain ⟨l, e⟩ := a.vars; obtain ⟨l', e'⟩ := b.vars
    exact ⟨l ++ l', by rw [e', e, List.append_assoc]⟩
  factors := by
    obtain ⟨l, e, h⟩ := a.factors; obtain ⟨l', e', h'⟩ := b.factors
    refine ⟨l ++ l', by rw [e', e, List.append_assoc], fun p hp => ?_⟩
    rcases List.mem_append.mp hp with hp | hp
    exacts [h p hp, h' p hp]
  consts := by
    obtain ⟨l, e, h⟩ := a.consts; obtain ⟨l', e', h'⟩ := b.consts
    refine ⟨l ++ l', by rw [e', e, List.append_assoc], fun p hp => ?_⟩
    rcases List.mem_append.mp hp with hp | hp
    exacts [h p hp, h' p hp]
  tunables := by
    obtain ⟨l, e, h⟩ := a.tunables; obtain ⟨l', e', h'⟩ := b.tunables
    refine ⟨l ++ l', by rw [e', e, List.append_assoc], fun p hp => ?_⟩
    rcases List.mem_append.mp hp with hp | hp
    exacts [h p hp, h' p hp]
  clusters i c h := by
    obtain ⟨l, e⟩ := a.clusters i c h
    obtain ⟨l', e'⟩ := b.clusters i _ e
    exact ⟨l ++ l', by rw [← List.append_assoc]; exact e'⟩
  observed v h := b.observed v (a.observed v h)
  iterations := b.iterations.trans a.iterations

theorem Adds.extends {s t : State F} (h : Adds s.heap.length s t) : Extends s t where
  heap := h.heap
  fns p f hp := by
    rcases h.fns p f hp with h1 | ⟨h1 | h1, h2⟩
    · exact Or.inl h1
    · exact Or.inr ⟨h1, h2⟩
    · have := (List.getElem?_eq_some_iff.mp hp).1
      omega
  vars := h.vars
  factors := h.factors
  consts := h.consts
  tunables := h.tunables
  clusters := h.clusters
  observed := h.observed
  iterations := h.iterations

/-- The functions which are there stay, but for their weights. -/
theorem Adds.get {n : Nat} {s t : State F} (h : Adds n s t) {p : Nat} {f : Fn F} (hp : s.heap[p]? = some f) :
    ∃ f', t.heap[p]? = some f' ∧ f'.vars = f.vars ∧ (f.weight.isSome → f'.weight.isSome) := by
  rcases h.fns p f hp with h1 | ⟨_, w, h1⟩
  · exact ⟨f, h1, rfl, id⟩
  · exact ⟨_, h1, rfl, fun _ => rfl⟩

/-- Nothing but new variables. -/
theorem adds_of {n : Nat} {s t : State F} (h1 : t.heap = s.heap) (h2 : ∃ l, t.vars = s.vars ++ l) (h3 : t.factors = s.factors)
    (h4 : t.consts = s.consts) (h5 : t.tunables = s.tunables) (h6 : t.tuners = s.tuners)
    (h7 : ∀ v, s.Observes v → t.Observes v) (h8 : t.maxIter = s.maxIter) : Adds n s t where
  heap := by rw [h1]
  fns p f h := Or.inl (by rw [h1]; exact h)
  vars := h2
  factors := ⟨[], by simp [h3], by simp⟩
  consts := ⟨[], by simp [h4], by simp⟩
  tunables := ⟨[], by simp [h5], by simp⟩
  clusters i c h := ⟨[], by unfold tunableClusters at h ⊢; rw [h6, List.append_nil]; exact h⟩
  observed := h7
  iterations := h8

theorem alloc_adds (n : Nat) (f : Fn F) (s : State F) : Adds n s (s.alloc f).1 where
  heap := by show _ ≤ (s.heap ++ [f]).length; simp
  fns p g h := Or.inl (by
    show (s.heap ++ [f])[p]? = _
    rw [List.getElem?_append_left (List.getElem?_eq_some_iff.mp h).1]; exact h)
  vars := ⟨[], by simp [alloc]⟩
  factors := ⟨[], by simp [alloc], by simp⟩
  consts := ⟨[], by simp [alloc], by simp⟩
  tunables := ⟨[], by simp [alloc], by simp⟩
  clusters _ _ h := ⟨[], by rw [List.append_nil]; exact h⟩
  observed _ h := h
  iterations := rfl

/-- A refused insertion. -/
theorem refused_adds {n : Nat} {s s' : State F} {f : Fn F}
    (h : s' = s ∨ s' = s.resetBelief ∨ ∃ a b, f.vars.group = [a, b] ∧ (∀ w ∈ s.vars, w.eqv a = false) ∧
        s' = addVar a s.resetBelief) : Adds n s s' := by
  rcases h with rfl | rfl | ⟨a, b, _, _, rfl⟩
  · exact Adds.rfl' n _
  · exact adds_of rfl ⟨[], by simp [resetBelief]⟩ rfl rfl rfl rfl (fun _ h => h) rfl
  · exact adds_of rfl ⟨[a], rfl⟩ rfl rfl rfl rfl (fun _ h => h) rfl

/-- What an operation does to a model with `m` factors, and how many it has afterwards. -/
def Goes (n k : Nat) (s : State F) (o : Out (State F) Unit) : Prop :=
  match o with
  | .ok t _ => Adds n s t ∧ t.factors.length = s.factors.length + k
  | .throw t => Adds n s t
  | .ub => False

theorem addConst_goes {n : Nat} {s : State F} (hs : Inv s) {p : Nat} {f : Fn F} (hf : s.heap[p]? = some f) (hn : n ≤ p) :
    Goes n 1 s (addConstFactor (some p) s) := by
  unfold addConstFactor
  rcases addDistribution_cases hs hf with ⟨s1, h1, h2, _⟩ | ⟨s1, h1, _, _, h4⟩
  · rw [h1]
    refine ⟨⟨?_, ?_, ?_, ?_, ?_, ?_, ?_, ?_, ?_⟩, ?_⟩
    · show _ ≤ s1.heap.length; rw [h2.kept.heap]
    · intro q g hq; left; show s1.heap[q]? = _; rw [h2.kept.heap]; exact hq
    · exact ⟨_, h2.vars⟩
    · exact ⟨[p], h2.factors, by simpa using hn⟩
    · exact ⟨[p], by show s1.consts ++ [p] = _; rw [h2.kept.consts], by simpa using hn⟩
    · exact ⟨[], by show s1.tunables = _; rw [h2.kept.tunables]; simp, by simp⟩
    · intro i c hc
      refine ⟨[], ?_⟩
      unfold tunableClusters at hc ⊢
      show (s1.tuners.map _)[i]? = _
      rw [h2.kept.tuners, List.append_nil]; exact hc
    · intro v hv
      unfold Observes at hv ⊢
      show ∃ k, (v, k) ∈ s1.evidences
      rw [h2.kept.evidences]; exact hv
    · exact h2.kept.maxIter
    · show s1.factors.length = _
      rw [h2.factors]; simp
  · rw [h1]; exact refused_adds h4

theorem registered_adds {n : Nat} {s s1 : State F} {p : Nat} {f : Fn F} (h2 : Inserted s s1 p f) (hn : n ≤ p) :
    Adds n s (registered s1 p) where
  heap := by show _ ≤ s1.heap.length; rw [h2.kept.heap]
  fns q g hq := Or.inl (by show s1.heap[q]? = _; rw [h2.kept.heap]; exact hq)
  vars := ⟨_, h2.vars⟩
  factors := ⟨[p], h2.factors, by simpa using hn⟩
  consts := ⟨[], by show s1.consts = _; rw [h2.kept.consts]; simp, by simp⟩
  tunables := ⟨[p], by show s1.tunables ++ [p] = _; rw [h2.kept.tunables], by simpa using hn⟩
  clusters i c hc := ⟨[], by
    unfold tunableClusters at hc ⊢
    show (s1.tuners.map _)[i]? = _
    rw [h2.kept.tuners, List.append_nil]; exact hc⟩
  observed v hv := by
    unfold Observes at hv ⊢
    show ∃ k, (v, k) ∈ s1.evidences
    rw [h2.kept.evidences]; exact hv
  iterations := h2.kept.maxIter

theorem share_goes {n : Nat} {s : State F} (ht : Tuned s) {i : Nat} {b : BaseTuner} (hn : n ≤ b.factor)
    (hne : shareTuner i b s ≠ .ub) : Goes n 0 s (shareTuner i b s) := by
  unfold shareTuner at hne ⊢
  cases hi : s.tuners[i]? with
  | none => rw [hi] at hne; exact absurd rfl hne
  | some t =>
    rw [hi] at hne
    simp only at hne ⊢
    cases hw : s.tunerWeight t with
    | throw => exact Adds.rfl' n s
    | ub => rw [hw] at hne; exact absurd rfl hne
    | ok w =>
      refine ⟨⟨?_, ?_, ⟨[], (List.append_nil _).symm⟩, ⟨[], (List.append_nil _).symm, by simp⟩,
        ⟨[], (List.append_nil _).symm, by simp⟩, ⟨[], (List.append_nil _).symm, by simp⟩, ?_, fun _ h => h, rfl⟩, rfl⟩
      · show s.heap.length ≤ (setTunerWeight (t ++ [b]) w _).heap.length
        show _ ≤ (List.foldl (heapSetWeight w) s.heap _).length
        have : ∀ (ps : List Nat) (h : Heap F), (ps.foldl (heapSetWeight w) h).length = h.length := by
          intro ps
          induction ps with
          | nil => intro h; rfl
          | cons p ps ih =>
            intro h
            rw [List.foldl_cons, ih]
            unfold heapSetWeight
            first
              | (split <;> simp)
              | simp
        rw [this]
      · intro q g hq
        show (setTunerWeight (t ++ [b]) w _).heap[q]? = _ ∨ _ ∧ ∃ w', (setTunerWeight (t ++ [b]) w _).heap[q]? = _
        show (List.foldl (heapSetWeight w) s.heap _)[q]? = _ ∨ _ ∧ ∃ w', (List.foldl (heapSetWeight w) s.heap _)[q]? = _
        rw [foldl_heapSetWeight_get, hq]
        by_cases hm : q ∈ (t ++ [b]).map BaseTuner.factor
        · right
          rw [if_pos hm]
          refine ⟨?_, w, rfl⟩
          obtain ⟨c, hc, rfl⟩ := List.mem_map.mp hm
          rcases List.mem_append.mp hc with hc | hc
          · exact Or.inl (ht.of t (List.mem_of_getElem? hi) c hc).reg
          · simp at hc; rw [hc]; exact Or.inr hn
        · rw [if_neg hm]; exact Or.inl rfl
      · intro j c hc
        show ∃ l, (List.map _ (setTunerWeight (t ++ [b]) w _).tuners)[j]? = _
        show ∃ l, (List.map _ (s.tuners.modify i (fun t => t ++ [b])))[j]? = _
        unfold tunableClusters at hc
        rw [List.getElem?_map] at hc
        rw [List.getElem?_map, List.getElem?_modify]
        cases hj : s.tuners[j]? with
        | none => rw [hj] at hc; cases hc
        | some t' =>
          rw [hj] at hc
          simp only [Option.map_some, Option.some.injEq] at hc
          by_cases hij : i = j
          · exact ⟨[b.factor], by simp [hij, ← hc]⟩
          · exact ⟨[], by simp [hij, ← hc]⟩

theorem addTunable_goes {n : Nat} {s : State F} (hs : Inv s) (ht : Tuned s) {p : Nat} {f : Fn F} (hf : s.heap[p]? = some f)
    (hw : f.weight.isSome) (hn : n ≤ p) (share : Option VarSet) : Goes n 1 s (addTunable (some p) share s) := by
  have hne := addTunable_ne_ub hs ht hf hw share
  rcases addTunable_cases hs ht hf share with ⟨s', h1, _, _, h3⟩ | ⟨_, s1, b, h1, hb, _, h2⟩
  · rw [h1]; exact refused_adds h3
  · have ha := registered_adds h1 hn
    have hl : (registered s1 p).factors.length = s.factors.length + 1 := by
      show s1.factors.length = _
      rw [h1.factors]; simp
    cases share with
    | none =>
      simp only at h2
      rw [h2]
      refine ⟨⟨ha.heap, ha.fns, ha.vars, ha.factors, ha.consts, ha.tunables, ?_, ha.observed, ha.iterations⟩, hl⟩
      intro i c hc
      refine ⟨[], ?_⟩
      show (List.map _ (s.tuners ++ [[b]]))[i]? = _
      unfold tunableClusters at hc
      rw [List.map_append, List.getElem?_append_left (List.getElem?_eq_some_iff.mp hc).1, List.append_nil]
      exact hc
    | some g =>
      simp only at h2
      rcases h2 with ⟨_, h2⟩ | ⟨i, _, h2⟩
      · rw [h2]; exact ha
      · rw [h2] at hne ⊢
        have h5 := share_goes (n := n) (registered_tuned ht h1 hf hw) (b := b) (by rw [hb]; exact hn) hne
        cases ho : shareTuner i b (registered s1 p) with
        | ok t u =>
          rw [ho] at h5
          exact ⟨ha.trans h5.1, by rw [h5.2, hl]⟩
        | throw t => rw [ho] at h5; exact ha.trans h5
        | ub => rw [ho] at h5; exact h5

theorem setEvidence_goes {n : Nat} {ord : List Var → List Var} (hord : ∀ l, (ord l).Perm l) {s : State F} (hs : Inv s)
    (name : String) (k : Nat) : Goes n 0 s (setEvidenceByName ord name k s) := by
  unfold setEvidenceByName
  rcases findVariable_cases s name with ⟨v, h1⟩ | h1
  · rw [h1]
    simp only
    obtain ⟨hv, _⟩ := findVariable_mem h1
    by_cases hk : v.size ≤ k
    · unfold setEvidence
      rw [if_pos hk]
      exact Adds.rfl' n s
    · have hk' : k < v.size := by omega
      by_cases ho : v ∈ s.obs
      · obtain ⟨s', h3, h4⟩ := setEvidence_observed hord hs.toCore ho hk'
        rw [h3]
        refine ⟨adds_of h4.frame.heap ⟨[], by rw [h4.frame.vars]; simp⟩ h4.frame.factors h4.frame.consts h4.frame.tunables
          h4.frame.tuners ?_ h4.frame.maxIter, by rw [h4.frame.factors]; rfl⟩
        intro u hu
        rw [observes_iff] at hu ⊢
        unfold State.obs
        rw [h4.evidences, AMap.keys_modify]
        exact hu
      · obtain ⟨s', h3, h4⟩ := setEvidence_hidden hord hs hv ho hk'
        rw [h3]
        refine ⟨adds_of h4.frame.heap ⟨[], by rw [h4.frame.vars]; simp⟩ h4.frame.factors h4.frame.consts h4.frame.tunables
          h4.frame.tuners ?_ h4.frame.maxIter, by rw [h4.frame.factors]; rfl⟩
        intro u hu
        rw [observes_iff] at hu ⊢
        unfold State.obs
        rw [h4.evidences, obs_append]
        exact List.mem_append_left _ hu
  · rw [h1]; exact Adds.rfl' n s

/-! ### Executions -/

/-- The operations of an import are allowed. -/
structure Allows (allowed : State F → GOp F → Prop) (L : List Var) : Prop where
  create : ∀ t f, allowed t (.create f)
  const : ∀ t p f, t.heap[p]? = some f → (∀ v ∈ f.vars.group, v ∈ L) → allowed t (.addConst (some p))
  tunable : ∀ t p f share, t.heap[p]? = some f → (∀ v ∈ f.vars.group, v ∈ L) → allowed t (.addTunable (some p) share)
  evidence : ∀ t ord name k, allowed t (.setEvidenceByName ord name k)

/-- `Goes`, with states which are reached. -/
def Runs {α : Type} (allowed : State F → GOp F → Prop) (n : Nat) (P : State F → α → Prop) (s : State F) (o : Out (State F) α) : Prop :=
  match o with
  | .ok t a => Reach allowed t ∧ Adds n s t ∧ P t a
  | .throw t => Reach allowed t ∧ Adds n s t
  | .ub => False

variable {allowed : State F → GOp F → Prop} {L : List Var} {n : Nat}

theorem Runs.of {s : State F} (h : Reach allowed s) {op : GOp F} (hv : op.Valid s) (ha : allowed s op)
    (hm : op.RemovesMany = false) {k : Nat} (hg : Goes n k s (op.exec s)) :
    Runs allowed n (fun t _ => t.factors.length = s.factors.length + k) s (op.exec s) := by
  cases ho : op.exec s with
  | ok t u => rw [ho] at hg; exact ⟨.ok h hv ha ho, hg.1, hg.2⟩
  | throw t => rw [ho] at hg; exact ⟨.throw h hv ha hm ho, hg⟩
  | ub => rw [ho] at hg; exact hg

theorem Runs.const (hL : Allows allowed L) {s : State F} (h : Reach allowed s) {p : Nat} {f : Fn F}
    (hf : s.heap[p]? = some f) (hg : ∀ v ∈ f.vars.group, v ∈ L) (hn : n ≤ p) :
    Runs allowed n (fun t _ => t.factors.length = s.factors.length + 1) s (addConstFactor (some p) s) :=
  Runs.of (op := .addConst (some p)) h ⟨trivial, trivial⟩ (hL.const s p f hf hg) rfl (addConst_goes (reach_inv h) hf hn)

theorem Runs.tunable (hL : Allows allowed L) {s : State F} (h : Reach allowed s) {p : Nat} {f : Fn F}
    (hf : s.heap[p]? = some f) (hg : ∀ v ∈ f.vars.group, v ∈ L) (hw : f.weight.isSome) (hn : n ≤ p) (share : Option VarSet) :
    Runs allowed n (fun t _ => t.factors.length = s.factors.length + 1) s (addTunable (some p) share s) :=
  Runs.of (op := .addTunable (some p) share) h
    ⟨trivial, (by intro f' hf'; rw [hf] at hf'; cases hf'; exact hw)⟩ (hL.tunable s p f share hf hg) rfl
    (addTunable_goes (reach_inv h) (reach_tuned h) hf hw hn share)

/-- The factors put aside. -/
def Waiting (n : Nat) (L : List Var) (pending : List (Nat × VarSet)) (s : State F) : Prop :=
  ∀ e ∈ pending, n ≤ e.1 ∧ ∃ f, s.heap[e.1]? = some f ∧ f.weight.isSome ∧ ∀ v ∈ f.vars.group, v ∈ L

theorem Waiting.adds {pending : List (Nat × VarSet)} {s t : State F} (h : Waiting n L pending s) (ha : Adds n s t) :
    Waiting n L pending t := by
  intro e he
  obtain ⟨h1, f, h2, h3, h4⟩ := h e he
  obtain ⟨f', h5, h6, h7⟩ := ha.get h2
  exact ⟨h1, f', h5, h7 h3, by rw [h6]; exact h4⟩

end State

open State

variable {allowed : State F → GOp F → Prop} {L : List Var} {n : Nat}

theorem JsonIn.insert_runs (hL : Allows allowed L) {inserts : Bool} {pending : List (Nat × VarSet)} {x : Fn F × ItemKind}
    (hx : Item L x) {s : State F} (h : Reach allowed s) (hn : n ≤ s.heap.length) (hp : Waiting n L pending s) :
    Runs allowed n (fun t pending' => Waiting n L pending' t ∧
      t.factors.length + pending'.length = s.factors.length + pending.length + 1) s (insert inserts pending x s) := by
  have hr : Reach allowed (s.alloc x.1).1 := .ok (op := .create x.1) h ⟨trivial, hx.fresh.1⟩ (hL.create s x.1) rfl
  have hA := alloc_adds n x.1 s
  have hf : (s.alloc x.1).1.heap[s.heap.length]? = some x.1 := by
    show (s.heap ++ [x.1])[s.heap.length]? = _
    simp
  have done : ∀ o : Out (State F) Unit,
      Runs allowed n (fun t _ => t.factors.length = (s.alloc x.1).1.factors.length + 1) (s.alloc x.1).1 o →
      Runs allowed n (fun t pending' => Waiting n L pending' t ∧
        t.factors.length + pending'.length = s.factors.length + pending.length + 1) s
        (match o with
          | .ok s2 _ => .ok s2 pending
          | .throw s2 => .throw s2
          | .ub => .ub) := by
    intro o ho
    cases o with
    | ok t u =>
      obtain ⟨h1, h2, h3⟩ := ho
      have h4 := hA.trans h2
      refine ⟨h1, h4, hp.adds h4, ?_⟩
      have : (s.alloc x.1).1.factors = s.factors := rfl
      rw [h3, this]; omega
    | throw t => exact ⟨ho.1, hA.trans ho.2⟩
    | ub => exact ho
  have hc := Runs.const (n := n) hL hr hf hx.fresh.2 hn
  unfold insert
  cases hk : x.2 with
  | const => exact done _ hc
  | tunable share =>
    have hw := hx.weight share hk
    cases share with
    | none =>
      cases inserts with
      | true => exact done _ (Runs.tunable (n := n) hL hr hf hx.fresh.2 hw hn none)
      | false => exact done _ hc
    | some g =>
      cases inserts with
      | true =>
        refine ⟨hr, hA, ?_, ?_⟩
        · intro e he
          rcases List.mem_append.mp he with he | he
          · exact hp.adds hA e he
          · simp at he
            rw [he]
            exact ⟨hn, x.1, hf, hw, hx.fresh.2⟩
        · show s.factors.length + (pending ++ [(s.heap.length, g)]).length = _
          simp; omega
      | false => exact done _ hc

theorem JsonIn.cumulated_runs (hL : Allows allowed L) (pending : List (Nat × VarSet)) : ∀ {s : State F}, Reach allowed s →
    Waiting n L pending s →
    Runs allowed n (fun t _ => t.factors.length = s.factors.length + pending.length) s (cumulated pending s) := by
  induction pending with
  | nil => intro s h _; exact ⟨h, Adds.rfl' n s, rfl⟩
  | cons e pending ih =>
    intro s h hp
    obtain ⟨h1, f, h2, h3, h4⟩ := hp e (by simp)
    have h5 := Runs.tunable (n := n) hL h h2 h4 h3 h1 (some e.2)
    unfold cumulated at ih ⊢
    unfold State.forEach
    cases ho : addTunable (some e.1) (some e.2) s with
    | throw t => rw [ho] at h5; exact h5
    | ub => rw [ho] at h5; exact h5
    | ok t u =>
      rw [ho] at h5
      obtain ⟨h6, h7, h8⟩ := h5
      have h9 := ih h6 (fun e' he' => hp.adds h7 e' (List.mem_cons_of_mem _ he'))
      simp only
      cases hf : forEach (fun e => addTunable (some e.1) (some e.2)) pending t with
      | ok t' u' => rw [hf] at h9; exact ⟨h9.1, h7.trans h9.2.1, by
          have := h9.2.2
          simp only [List.length_cons] at this ⊢
          omega⟩
      | throw t' => rw [hf] at h9; exact ⟨h9.1, h7.trans h9.2⟩
      | ub => rw [hf] at h9; exact h9

theorem JsonIn.setEvidences_runs (hL : Allows allowed L) {o : ImportOrder} (ho : o.Fair) (evs : List (String × Nat))
    {s : State F} (h : Reach allowed s) :
    Runs allowed n (fun t _ => t.factors.length = s.factors.length) s (setEvidences o evs s) := by
  unfold setEvidences
  generalize o.evidences evs = l
  induction l generalizing s with
  | nil => exact ⟨h, Adds.rfl' n s, rfl⟩
  | cons e l ih =>
    have h5 := Runs.of (op := .setEvidenceByName o.vars e.1 e.2) h ⟨ho.vars, trivial⟩ (hL.evidence s _ _ _) rfl
      (setEvidence_goes (n := n) ho.vars (reach_inv h) e.1 e.2)
    unfold State.forEach
    have he : (GOp.setEvidenceByName o.vars e.1 e.2 : GOp F).exec s = setEvidenceByName o.vars e.1 e.2 s := rfl
    rw [he] at h5
    cases hx : setEvidenceByName o.vars e.1 e.2 s with
    | throw t => rw [hx] at h5; exact h5
    | ub => rw [hx] at h5; exact h5
    | ok t u =>
      rw [hx] at h5
      obtain ⟨h6, h7, h8⟩ := h5
      have h9 := ih h6
      simp only
      cases hf : forEach (fun e => setEvidenceByName o.vars e.1 e.2) l t with
      | ok t' u' => rw [hf] at h9; exact ⟨h9.1, h7.trans h9.2.1, by
          have := h9.2.2
          simp only [Nat.add_zero] at this h8 ⊢
          omega⟩
      | throw t' => rw [hf] at h9; exact ⟨h9.1, h7.trans h9.2⟩
      | ub => rw [hf] at h9; exact h9

/-- What an import gives; something undefined is met only if `c` does not hold. -/
def Brings (allowed : State F → GOp F → Prop) (c : Prop) (s : State F) (k : Nat) (o : Out (State F) Unit) : Prop :=
  match o with
  | .ok t _ => Reach allowed t ∧ Extends s t ∧ t.factors.length = s.factors.length + k
  | .throw t => Reach allowed t ∧ Extends s t
  | .ub => ¬ c

/-- After the loop on the potentials. -/
theorem JsonIn.finish {c : Prop} (hL : Allows allowed L) {o : ImportOrder} (ho : o.Fair) {s : State F} {k : Nat}
    (evs : List (String × Nat)) {x : Out (State F) (List (Nat × VarSet))}
    (h : match x with
      | .ok t pending => Reach allowed t ∧ Adds s.heap.length s t ∧ Waiting s.heap.length L pending t ∧
          t.factors.length + pending.length = s.factors.length + k
      | .throw t => Reach allowed t ∧ Adds s.heap.length s t
      | .ub => ¬ c) :
    Brings allowed c s k (match (generalizing := false) x with
      | .ok s1 pending => State.andThen (cumulated pending) (setEvidences o evs) s1
      | .throw s1 => .throw s1
      | .ub => .ub) := by
  cases x with
  | throw t => exact ⟨h.1, h.2.extends⟩
  | ub => exact h
  | ok t pending =>
    obtain ⟨h1, h2, h3, h4⟩ := h
    have h5 := cumulated_runs hL pending h1 h3
    simp only
    unfold State.andThen
    cases hc : cumulated pending t with
    | throw t1 => rw [hc] at h5; exact ⟨h5.1, (h2.trans h5.2).extends⟩
    | ub => rw [hc] at h5; exact h5.elim
    | ok t1 u =>
      rw [hc] at h5
      obtain ⟨h6, h7, h8⟩ := h5
      have h9 := setEvidences_runs (n := s.heap.length) hL ho evs h6
      have h10 := h2.trans h7
      simp only
      cases he : setEvidences o evs t1 with
      | throw t2 => rw [he] at h9; exact ⟨h9.1, (h10.trans h9.2).extends⟩
      | ub => rw [he] at h9; exact h9.elim
      | ok t2 u2 =>
        rw [he] at h9
        obtain ⟨h11, h12, h13⟩ := h9
        exact ⟨h11, (h10.trans h12).extends, by rw [h13, h8, h4]⟩

/-- The loops on the potentials. -/
theorem JsonIn.potentials_brings {c : Prop} {tx : FloatText F} {o : ImportOrder} {inserts : Bool} (hL : Allows allowed L)
    (js : List Json) (hj : ∀ j ∈ js, Res.Yields c (Item L) (potential (F := F) tx o L j)) :
    ∀ {s : State F} {pending : List (Nat × VarSet)}, Reach allowed s → n ≤ s.heap.length → Waiting n L pending s →
    match potentials tx o L inserts js pending s with
      | .ok t pending' => Reach allowed t ∧ Adds n s t ∧ Waiting n L pending' t ∧
          t.factors.length + pending'.length = s.factors.length + pending.length + js.length
      | .throw t => Reach allowed t ∧ Adds n s t
      | .ub => ¬ c := by
  induction js with
  | nil => intro s pending h _ hp; exact ⟨h, Adds.rfl' n s, hp, rfl⟩
  | cons j js ih =>
    intro s pending h hn hp
    have h1 := hj j (by simp)
    unfold potentials
    cases e1 : potential tx o L j with
    | throw => exact ⟨h, Adds.rfl' n s⟩
    | ub => rw [e1] at h1; exact h1
    | ok x =>
      rw [e1] at h1
      simp only
      have h2 := insert_runs (n := n) hL (inserts := inserts) h1 h hn hp
      cases e2 : insert inserts pending x s with
      | throw t => rw [e2] at h2; exact h2
      | ub => rw [e2] at h2; exact h2.elim
      | ok t pending' =>
        rw [e2] at h2
        obtain ⟨h3, h4, h5, h6⟩ := h2
        simp only
        have h7 := ih (fun j hj' => hj j (List.mem_cons_of_mem _ hj')) h3 (Nat.le_trans hn h4.heap) h5
        cases e3 : potentials tx o L inserts js pending' t with
        | ok t' p' =>
          rw [e3] at h7
          exact ⟨h7.1, h4.trans h7.2.1, h7.2.2.1, by rw [h7.2.2.2, h6, List.length_cons]; omega⟩
        | throw t' => rw [e3] at h7; exact ⟨h7.1, h4.trans h7.2⟩
        | ub => rw [e3] at h7; exact h7

theorem XmlIn.potentials_brings {c : Prop} {tx : FloatText F} {files : List Char → Option (List Char)} {o : ImportOrder}
    {inserts : Bool} (hL : Allows allowed L)
    (ts : List Tag) (hj : ∀ j ∈ ts, Res.Yields c (Item L) (potential (F := F) tx files o L j)) :
    ∀ {s : State F} {pending : List (Nat × VarSet)}, Reach allowed s → n ≤ s.heap.length → Waiting n L pending s →
    match potentials tx files o L inserts ts pending s with
      | .ok t pending' => Reach allowed t ∧ Adds n s t ∧ Waiting n L pending' t ∧
          t.factors.length + pending'.length = s.factors.length + pending.length + ts.length
      | .throw t => Reach allowed t ∧ Adds n s t
      | .ub => ¬ c := by
  induction ts with
  | nil => intro s pending h _ hp; exact ⟨h, Adds.rfl' n s, hp, rfl⟩
  | cons j js ih =>
    intro s pending h hn hp
    have h1 := hj j (by simp)
    unfold potentials
    cases e1 : potential tx files o L j with
    | throw => exact ⟨h, Adds.rfl' n s⟩
    | ub => rw [e1] at h1; exact h1
    | ok x =>
      rw [e1] at h1
      simp only
      have h2 := JsonIn.insert_runs (n := n) hL (inserts := inserts) h1 h hn hp
      cases e2 : JsonIn.insert inserts pending x s with
      | throw t => rw [e2] at h2; exact h2
      | ub => rw [e2] at h2; exact h2.elim
      | ok t pending' =>
        rw [e2] at h2
        obtain ⟨h3, h4, h5, h6⟩ := h2
        simp only
        have h7 := ih (fun j hj' => hj j (List.mem_cons_of_mem _ hj')) h3 (Nat.le_trans hn h4.heap) h5
        cases e3 : potentials tx files o L inserts js pending' t with
        | ok t' p' =>
          rw [e3] at h7
          exact ⟨h7.1, h4.trans h7.2.1, h7.2.2.1, by rw [h7.2.2.2, h6, List.length_cons]; omega⟩
        | throw t' => rw [e3] at h7; exact ⟨h7.1, h4.trans h7.2⟩
        | ub => rw [e3] at h7; exact h7

/-- The number of the potentials of a document. -/
theorem JsonIn.import_brings {tx : FloatText F} {o : ImportOrder} (ho : o.Fair) {inserts : Bool} {j : Json} {Q : Nat → Prop}
    (hq : ∀ vs, j.tryAccess "Variables" = some vs → ∀ v ∈ vs.items, ∀ x, v.tryAccess "Size" = some x →
      ∀ t, x.toStr = .ok t → ∀ k, Text.atoSize t = .ok k → Q k)
    (hL : ∀ L : List Var, (∀ v ∈ L, v.WF ∧ Q v.size) → Allows allowed L) {s : State F} (h : Reach allowed s)
    {k : Nat} (hk : ∀ ps, j.tryAccess "Potentials" = some ps → ps.items.length = k) :
    Brings allowed j.Complete s k (importJson tx o inserts j s) := by
  have get : ∀ key x, j.index key = .ok x → j.tryAccess key = some x := by
    intro key x hi
    unfold Json.index at hi
    cases j with
    | obj l =>
      simp only at hi
      cases ha : (Json.obj l).tryAccess key with
      | none => rw [ha] at hi; cases hi
      | some x => rw [ha] at hi; cases hi; rfl
    | _ => cases hi
  have miss : ∀ key, j.index key = .ub → ¬ j.Has key := by
    intro key hi hh
    cases j with
    | obj l =>
      obtain ⟨x, hx⟩ := hh l rfl
      unfold Json.index at hi
      simp only at hi
      rw [hx] at hi
      cases hi
    | _ => cases hi
  unfold importJson
  cases e1 : j.index "Variables" with
  | throw => exact ⟨h, (Adds.rfl' _ s).extends⟩
  | ub => exact fun hc => miss _ e1 hc.hasVariables
  | ok vs =>
    have hvs := get _ _ e1
    simp only
    have h2 := Res.Yields.foldList (c := j.Complete) (P := Sized Q) (f := oneVariable o) (l := vs.items)
      (fun r hr v hv => oneVariable_yields hr (fun hc => hc.numbers vs hvs v hv) (hq vs hvs v hv))
      (b := ⟨[], []⟩) (fun v hv => by cases hv)
    cases e2 : Res.foldList (oneVariable o) ⟨[], []⟩ vs.items with
    | throw => exact ⟨h, (Adds.rfl' _ s).extends⟩
    | ub => rw [e2] at h2; exact h2
    | ok r =>
      rw [e2] at h2
      simp only
      cases e3 : j.index "Potentials" with
      | throw => exact ⟨h, (Adds.rfl' _ s).extends⟩
      | ub => exact fun hc => miss _ e3 hc.hasPotentials
      | ok ps =>
        have hps := get _ _ e3
        simp only
        unfold build
        have hA := hL r.vars h2
        refine JsonIn.finish hA ho r.evidences ?_
        have := JsonIn.potentials_brings (n := s.heap.length) (c := j.Complete) (tx := tx) (o := o) (inserts := inserts) hA ps.items
          (fun p hp => potential_yields ho (fun v hv => (h2 v hv).1) (fun hc => hc.values ps hps p hp)) (s := s) (pending := [])
          h (Nat.le_refl _) (fun e he => by cases he)
        rw [← hk ps hps]
        simpa using this

theorem XmlIn.import_brings {tx : FloatText F} {files : List Char → Option (List Char)} {o : ImportOrder} (ho : o.Fair)
    {inserts : Bool} {root : Tag} {Q : Nat → Prop}
    (hq : ∀ t ∈ root.nestedOf "Variable", ∀ x, t.tryAttribute "Size" = some x → ∀ k, Text.atoSize x = .ok k → Q k)
    (hL : ∀ L : List Var, (∀ v ∈ L, v.WF ∧ Q v.size) → Allows allowed L) {s : State F} (h : Reach allowed s) :
    Brings allowed (root.Complete files) s (root.nestedOf "Potential").length (importXml tx files o inserts root s) := by
  unfold importXml
  have h2 := Res.Yields.foldList (c := root.Complete files) (P := Sized Q) (f := oneVariable o) (l := root.nestedOf "Variable")
    (fun r hr v hv => oneVariable_yields hr (fun hc => hc.numbers v hv) (hq v hv))
    (b := ⟨[], []⟩) (fun v hv => by cases hv)
  cases e2 : Res.foldList (oneVariable o) ⟨[], []⟩ (root.nestedOf "Variable") with
  | throw => exact ⟨h, (Adds.rfl' _ s).extends⟩
  | ub => rw [e2] at h2; exact h2
  | ok r =>
    rw [e2] at h2
    simp only
    unfold build
    have hA := hL r.vars h2
    refine JsonIn.finish hA ho r.evidences ?_
    have := XmlIn.potentials_brings (n := s.heap.length) (c := root.Complete files) (tx := tx) (files := files) (o := o)
      (inserts := inserts) hA (root.nestedOf "Potential")
      (fun p hp => potential_yields ho (fun v hv => (h2 v hv).1)
        (fun hc => ⟨hc.values p hp, hc.sources p hp⟩)) (s := s) (pending := [])
      h (Nat.le_refl _) (fun e he => by cases he)
    simpa using this

theorem allows_any (L : List Var) : Allows (anyOp (F := F)) L := ⟨fun _ _ => trivial, fun _ _ _ _ _ => trivial,
  fun _ _ _ _ _ _ => trivial, fun _ _ _ _ => trivial⟩

theorem allows_prudent {m : Nat} {L : List Var} (h : ∀ v ∈ L, v.WF ∧ v.size = m) : Allows (Prudent (F := F)) L where
  create t f := ⟨(by intro u w hu; exact hu.elim), (by simp [GOp.threads]), (by intro p f hp; cases hp)⟩
  const t p f hf hg := ⟨(by intro u w hu; exact hu.elim), (by simp [GOp.threads]), (by
    intro p' f' hp hf' u hu v hv
    cases hp
    rw [hf] at hf'
    cases hf'
    rw [(h u (hg u hu)).2, (h v (hg v hv)).2])⟩
  tunable t p f share hf hg := ⟨(by intro u w hu; exact hu.elim), (by simp [GOp.threads]), (by
    intro p' f' hp hf' u hu v hv
    cases hp
    rw [hf] at hf'
    cases hf'
    rw [(h u (hg u hu)).2, (h v (hg v hv)).2])⟩
  evidence t ord name k := ⟨(by intro u w hu; exact hu.elim), (by simp [GOp.threads]), (by intro p f hp; cases hp)⟩

end EFG
