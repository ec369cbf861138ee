import Verif.Lemmas.GraphSpec
/- The tunable factors and their clusters in the reachable states. -/

set_option linter.unusedSectionVars false

namespace EFG
namespace State
variable {F : Type} [Arith F]

/-- A tuner refers to a tunable factor and to its variables. -/
structure TunerOf (s : State F) (b : BaseTuner) : Prop where
  reg : b.factor ∈ s.tunables
  fn : ∃ f, s.heap[b.factor]? = some f ∧ (∀ v ∈ f.vars.group, v ∈ s.vars) ∧
    b.indices = f.vars.group.map (fun v => s.vars.idxOf v) ∧
    ((∃ v, f.vars.group = [v] ∧ b.kind = .unary v) ∨ (∃ u v, f.vars.group = [u, v] ∧ b.kind = .binary u v))

/-- What always holds of the tuners: none is empty, every factor has at most one tuner, and the tunable
factors are exponential factors of the model. -/
structure Tuned (s : State F) : Prop where
  ne : ∀ t ∈ s.tuners, t ≠ []
  nodup : (s.tuners.flatten.map BaseTuner.factor).Nodup
  of : ∀ t ∈ s.tuners, ∀ b ∈ t, TunerOf s b
  reg : ∀ p ∈ s.tunables, p ∈ s.factors
  exp : ∀ p ∈ s.tunables, ∃ f, s.heap[p]? = some f ∧ f.weight.isSome

/-- The functions in the model keep their variables, and stay exponential if they are. -/
def HeapKept (s : State F) (h : Heap F) : Prop :=
  ∀ p ∈ s.factors, ∀ f, s.heap[p]? = some f →
    ∃ g, h[p]? = some g ∧ g.vars.group = f.vars.group ∧ (f.weight.isSome → g.weight.isSome)

theorem HeapKept.of_eq {s : State F} {h : Heap F} (he : h = s.heap) : HeapKept s h :=
  fun _ _ f hf => ⟨f, by rw [he]; exact hf, rfl, id⟩

theorem HeapKept.of_same {s : State F} {h : Heap F} (he : SameButWeight s.heap h) : HeapKept s h := by
  intro p _ f hf
  rcases he p with ⟨h1, _⟩ | ⟨g, w, h1, h2, h3⟩
  · rw [hf] at h1; cases h1
  · rw [hf] at h1; cases h1
    exact ⟨_, h2, rfl, h3⟩

theorem TunerOf.kept {s s' : State F} {b : BaseTuner} (ht : Tuned s) (h : TunerOf s b)
    (hh : HeapKept s s'.heap) (hv : ∃ l, s'.vars = s.vars ++ l) (hr : ∀ p ∈ s.tunables, p ∈ s'.tunables) :
    TunerOf s' b := by
  obtain ⟨f, h1, h2, h3, h4⟩ := h.fn
  obtain ⟨g, h5, h6, _⟩ := hh b.factor (ht.reg _ h.reg) f h1
  obtain ⟨l, hl⟩ := hv
  refine ⟨hr _ h.reg, g, h5, ?_, ?_, ?_⟩
  · intro v hm
    rw [h6] at hm
    rw [hl]
    exact List.mem_append_left _ (h2 v hm)
  · rw [h3, h6]
    apply List.map_congr_left
    intro v hm
    rw [hl, List.idxOf_append_of_mem (h2 v hm)]
  · rw [h6]; exact h4

theorem Tuned.kept {s s' : State F} (ht : Tuned s) (hh : HeapKept s s'.heap) (hv : ∃ l, s'.vars = s.vars ++ l)
    (hf : ∃ l, s'.factors = s.factors ++ l) (hr : s'.tunables = s.tunables) (hu : s'.tuners = s.tuners) : Tuned s' := by
  refine ⟨by rw [hu]; exact ht.ne, by rw [hu]; exact ht.nodup, ?_, ?_, ?_⟩
  · rw [hu]
    intro t h b hb
    exact (ht.of t h b hb).kept ht hh hv (fun p hp => by rw [hr]; exact hp)
  · rw [hr]
    intro p hp
    obtain ⟨l, hl⟩ := hf
    rw [hl]
    exact List.mem_append_left _ (ht.reg p hp)
  · rw [hr]
    intro p hp
    obtain ⟨f, h1, h2⟩ := ht.exp p hp
    obtain ⟨g, h3, _, h4⟩ := hh p (ht.reg p hp) f h1
    exact ⟨g, h3, h4 h2⟩

theorem tuned_initial (h : Heap F) : Tuned (State.initial h) :=
  ⟨(by intro t ht; cases ht), List.nodup_nil, (by intro t ht; cases ht), (by intro p hp; cases hp),
    (by intro p hp; cases hp)⟩

/-! ### Insertion -/

theorem Inserted.kept {s s' : State F} {p : Nat} {f : Fn F} (h : Inserted s s' p f) : Kept s s' := by
  cases h with
  | unary _ h => exact h.kept
  | binary _ h => exact h.kept

theorem Inserted.factors {s s' : State F} {p : Nat} {f : Fn F} (h : Inserted s s' p f) :
    s'.factors = s.factors ++ [p] := by
  cases h with
  | unary _ h => exact h.factors
  | binary _ h => exact h.factors

theorem Inserted.vars {s s' : State F} {p : Nat} {f : Fn F} (h : Inserted s s' p f) :
    s'.vars = s.vars ++ f.vars.group.filter (fun w => !decide (w ∈ s.vars)) := by
  cases h with
  | unary hg h => rw [hg]; exact h.vars
  | binary hg h => rw [hg]; exact h.vars

theorem Inserted.mem {s s' : State F} {p : Nat} {f : Fn F} (h : Inserted s s' p f) :
    ∀ v ∈ f.vars.group, v ∈ s'.vars := by
  intro v hv
  rw [h.vars]
  by_cases hm : v ∈ s.vars
  · exact List.mem_append_left _ hm
  · exact List.mem_append_right _ (List.mem_filter.mpr ⟨hv, by simpa using hm⟩)

theorem Inserted.tuned {s s' : State F} {p : Nat} {f : Fn F} (h : Inserted s s' p f) (ht : Tuned s) : Tuned s' :=
  ht.kept (.of_eq h.kept.heap) ⟨_, h.vars⟩ ⟨_, h.factors⟩ h.kept.tunables h.kept.tuners

/-- The tuner of an inserted factor can be made. -/
theorem makeTuner_ok {s : State F} (hs : Inv s) {p : Nat} {f : Fn F} (hf : s.heap[p]? = some f)
    (hm : ∀ v ∈ f.vars.group, v ∈ s.vars) (ha : f.vars.group.length = 1 ∨ f.vars.group.length = 2) :
    ∃ b, s.makeTuner p f = .ok b ∧ b.factor = p ∧ b.indices = f.vars.group.map (fun v => s.vars.idxOf v) ∧
      ((∃ v, f.vars.group = [v] ∧ b.kind = .unary v) ∨ (∃ u v, f.vars.group = [u, v] ∧ b.kind = .binary u v)) := by
  have hwf := hs.heapWF f (List.mem_of_getElem? hf)
  have hi := Fn.getIndices_ok hwf.group.distinct.nodup (fun v hv => hm v hv : f.vars.group ⊆ s.vars)
  unfold makeTuner
  match hg : f.vars.group, ha with
  | [v], _ =>
    rw [hg] at hi hm
    obtain ⟨loc, hl⟩ := hs.locate_mem (hm v (by simp))
    simp only [hl, hi]
    exact ⟨_, rfl, rfl, rfl, Or.inl ⟨v, rfl, rfl⟩⟩
  | [u, v], _ =>
    rw [hg] at hi hm
    obtain ⟨l1, h1⟩ := hs.locate_mem (hm u (by simp))
    obtain ⟨l2, h2⟩ := hs.locate_mem (hm v (by simp))
    simp only [h1, h2, hi, ne_eq, not_true_eq_false, if_false]
    exact ⟨_, rfl, rfl, rfl, Or.inr ⟨u, v, rfl, rfl⟩⟩

theorem Inserted.arity {s s' : State F} {p : Nat} {f : Fn F} (h : Inserted s s' p f) :
    f.vars.group.length = 1 ∨ f.vars.group.length = 2 := by
  cases h with
  | unary hg h => rw [hg]; exact Or.inl rfl
  | binary hg h => rw [hg]; exact Or.inr rfl

theorem addVar_tuned {s : State F} (ht : Tuned s) (a : Var) : Tuned (addVar a s.resetBelief) :=
  ht.kept (.of_eq rfl) ⟨[a], rfl⟩ ⟨[], by simp [addVar, resetBelief]⟩ rfl rfl

theorem resetBelief_tuned {s : State F} (ht : Tuned s) : Tuned s.resetBelief :=
  ht.kept (.of_eq rfl) ⟨[], by simp [resetBelief]⟩ ⟨[], by simp [resetBelief]⟩ rfl rfl

/-- An operation after which the tuners are in order. -/
def Good (x : Out (State F) Unit) : Prop :=
  match x with
  | .ok s' _ => Tuned s'
  | .throw s' => Tuned s'
  | .ub => True

theorem addConst_tuned {s : State F} (hs : Inv s) (ht : Tuned s) (ptr : Option Nat) : Good (addConstFactor ptr s) := by
  cases ptr with
  | none => exact ht
  | some p =>
    cases hp : s.heap[p]? with
    | none =>
      unfold addConstFactor addDistribution
      simp only
      by_cases h : s.factors.contains p = true
      · rw [if_pos h]; exact ht
      · rw [if_neg h]
        have : s.deref p = .ub := by
          unfold deref Heap.get
          rw [hp]; rfl
        rw [this]; trivial
    | some f =>
      unfold addConstFactor
      rcases addDistribution_cases hs hp with ⟨s', h1, h2, _⟩ | ⟨s', h1, _, _, h3⟩
      · rw [h1]
        exact (h2.tuned ht).kept (.of_eq rfl) ⟨[], by simp⟩ ⟨[], by simp⟩ rfl rfl
      · rw [h1]
        rcases h3 with h | h | ⟨a, b, _, _, h⟩
        · rw [h]; exact ht
        · rw [h]; exact resetBelief_tuned ht
        · rw [h]; exact addVar_tuned ht a

theorem alloc_tuned {s : State F} (hs : Inv s) (ht : Tuned s) (f : Fn F) : Tuned (s.alloc f).1 := by
  refine ht.kept ?_ ⟨[], by simp [alloc]⟩ ⟨[], by simp [alloc]⟩ rfl rfl
  intro p _ g hg
  refine ⟨g, ?_, rfl, id⟩
  show (s.heap ++ [f])[p]? = some g
  rw [List.getElem?_append_left]
  · exact hg
  · exact (List.getElem?_eq_some_iff.mp hg).1

theorem copyConst_tuned {s : State F} (hs : Inv s) (ht : Tuned s) (p : Nat) : Good (copyConstFactor p s) := by
  unfold copyConstFactor
  cases hd : s.deref p with
  | ok f =>
    simp only
    have hf : f.WF := by
      unfold deref Heap.get at hd
      cases hp : s.heap[p]? with
      | none => rw [hp] at hd; cases hd
      | some g => rw [hp] at hd; cases hd; exact hs.heapWF f (List.mem_of_getElem? hp)
    obtain ⟨g, hg, hgw, _⟩ := hf.cloneTransformed
    rw [hg]
    exact addConst_tuned (hs.create hgw) (alloc_tuned hs ht g) _
  | throw => exact ht
  | ub => trivial

theorem flatten_modify_perm {α : Type} (l : List (List α)) (i : Nat) (x : α) (h : i < l.length) :
    (l.modify i (fun t => t ++ [x])).flatten.Perm (l.flatten ++ [x]) := by
  induction l generalizing i with
  | nil => cases h
  | cons a l ih =>
    cases i with
    | zero =>
      simp only [List.modify_zero_cons, List.flatten_cons, List.append_assoc]
      exact List.Perm.append_left a List.perm_append_comm
    | succ i =>
      simp only [List.modify_succ_cons, List.flatten_cons, List.append_assoc]
      exact List.Perm.append_left a (ih i (by simpa using h))

/-- Joining a cluster keeps the tuners in order. -/
theorem share_tuned {s : State F} (ht : Tuned s) {i : Nat} {b : BaseTuner} (hb : TunerOf s b)
    (hn : ∀ t ∈ s.tuners, ∀ c ∈ t, c.factor ≠ b.factor) : Good (shareTuner i b s) := by
  unfold shareTuner
  cases hi : s.tuners[i]? with
  | none => trivial
  | some t =>
    simp only
    cases hw : s.tunerWeight t with
    | throw => exact ht
    | ub => trivial
    | ok w =>
      have hlt := (List.getElem?_eq_some_iff.mp hi).1
      have hperm := flatten_modify_perm s.tuners i b hlt
      have hk : HeapKept s ((t ++ [b]).map BaseTuner.factor |>.foldl (heapSetWeight w) s.heap) :=
        .of_same (foldl_heapSetWeight_same w _ s.heap)
      show Tuned (setTunerWeight (t ++ [b]) w { s with tuners := s.tuners.modify i (fun t => t ++ [b]) })
      refine ⟨?_, ?_, ?_, ht.reg, ?_⟩
      · intro u hu
        obtain ⟨j, hj⟩ := List.mem_iff_getElem?.mp hu
        change (s.tuners.modify i (fun t => t ++ [b]))[j]? = some u at hj
        rw [List.getElem?_modify] at hj
        cases hj' : s.tuners[j]? with
        | none => rw [hj'] at hj; cases hj
        | some u' =>
          rw [hj'] at hj
          have hj := Option.some.inj hj
          rw [← hj]
          beta_reduce
          by_cases hij : i = j
          · rw [if_pos hij]; simp
          · rw [if_neg hij]; exact ht.ne u' (List.mem_of_getElem? hj')
      · show ((s.tuners.modify i (fun t => t ++ [b])).flatten.map BaseTuner.factor).Nodup
        rw [(hperm.map _).nodup_iff, List.map_append, List.nodup_append]
        refine ⟨ht.nodup, by simp, ?_⟩
        intro x hx y hy he
        simp only [List.map_cons, List.map_nil, List.mem_singleton] at hy
        obtain ⟨c, hc, rfl⟩ := List.mem_map.mp hx
        obtain ⟨u, hu, hcu⟩ := List.mem_flatten.mp hc
        exact hn u hu c hcu (he.trans hy)
      · intro u hu c hc
        have hmem : c ∈ s.tuners.flatten ++ [b] := hperm.mem_iff.mp (List.mem_flatten.mpr ⟨u, hu, hc⟩)
        have : TunerOf s c := by
          rcases List.mem_append.mp hmem with h | h
          · obtain ⟨u', hu', hcu'⟩ := List.mem_flatten.mp h
            exact ht.of u' hu' c hcu'
          · simp at h; rw [h]; exact hb
        exact this.kept ht hk ⟨[], by simp [setTunerWeight]⟩ (fun p hp => hp)
      · intro p hp
        obtain ⟨f, h1, h2⟩ := ht.exp p hp
        obtain ⟨g, h3, _, h4⟩ := hk p (ht.reg p hp) f h1
        exact ⟨g, h3, h4 h2⟩

/-- The state after the registration of an inserted tunable factor. -/
def registered (s : State F) (p : Nat) : State F := { s with tunables := s.tunables ++ [p] }

theorem registered_tuned {s s1 : State F} {p : Nat} {f : Fn F} (ht : Tuned s) (hi : Inserted s s1 p f)
    (hf : s.heap[p]? = some f) (hw : f.weight.isSome) : Tuned (registered s1 p) := by
  have h1 := hi.tuned ht
  have hf1 : s1.heap[p]? = some f := by rw [hi.kept.heap]; exact hf
  refine ⟨h1.ne, h1.nodup, ?_, ?_, ?_⟩
  · intro t h b hb
    exact (h1.of t h b hb).kept h1 (.of_eq rfl) ⟨[], by simp [registered]⟩ (fun q hq => List.mem_append_left _ hq)
  · intro q hq
    rcases List.mem_append.mp hq with h | h
    · exact h1.reg q h
    · simp at h
      show q ∈ s1.factors
      rw [h, hi.factors]; simp
  · intro q hq
    rcases List.mem_append.mp hq with h | h
    · exact h1.exp q h
    · simp at h
      rw [h]
      exact ⟨f, hf1, hw⟩

/-- How the insertion of a tunable factor goes: refused; inserted with a tuner of its own; inserted without
a tuner, and refused, because no tuner has the group to share with; or inserted in a cluster. -/
theorem addTunable_cases {s : State F} (hs : Inv s) (ht : Tuned s) {p : Nat} {f : Fn F} (hf : s.heap[p]? = some f)
    (share : Option VarSet) :
    (∃ s', addTunable (some p) share s = .throw s' ∧ Refused s p f ∧ Inv s' ∧
      (s' = s ∨ s' = s.resetBelief ∨ ∃ a b, f.vars.group = [a, b] ∧ (∀ w ∈ s.vars, w.eqv a = false) ∧
        s' = addVar a s.resetBelief)) ∨
    (¬ Refused s p f ∧ ∃ s1 b, Inserted s s1 p f ∧ b.factor = p ∧ (f.weight.isSome → TunerOf (registered s1 p) b) ∧
      match share with
      | none => addTunable (some p) share s = .ok { registered s1 p with tuners := s.tuners ++ [[b]] } ()
      | some g =>
        (s.findTuner g = none ∧ addTunable (some p) share s = .throw (registered s1 p)) ∨
        (∃ i, s.findTuner g = some i ∧ addTunable (some p) share s = shareTuner i b (registered s1 p))) := by
  unfold addTunable
  rcases addDistribution_cases hs hf with ⟨s1, h1, h2, h3⟩ | ⟨s1, h1, h2, h3, h4⟩
  · refine Or.inr ⟨h3, ?_⟩
    have hf1 : s1.heap[p]? = some f := by rw [h2.kept.heap]; exact hf
    obtain ⟨b, hb, hb1, hb2, hb3⟩ := makeTuner_ok h2.inv hf1 h2.mem h2.arity
    have hft : ∀ g, State.findTuner { s1 with tunables := s1.tunables ++ [p] } g = s.findTuner g := by
      intro g
      have ht : ∀ t, State.tunes { s1 with tunables := s1.tunables ++ [p] } g t = s.tunes g t := by
        intro t
        unfold tunes
        show (t.any fun b => match s1.heap[b.factor]? with
          | some f => VarSet.same f.vars.sorted g
          | none => false) = _
        rw [h2.kept.heap]
        rfl
      unfold findTuner
      rw [funext ht]
      show s1.tuners.findIdx? _ = _
      rw [h2.kept.tuners]
    refine ⟨s1, b, h2, hb1, ?_, ?_⟩
    · intro _
      refine ⟨by rw [hb1]; exact List.mem_append_right _ (by simp), f, by rw [hb1]; exact hf1, h2.mem, hb2, hb3⟩
    · rw [h1]
      simp only [deref_eq hf1, hb]
      cases share with
      | none => simp only [registered, h2.kept.tuners]
      | some g =>
        simp only [hft]
        cases s.findTuner g with
        | none => exact Or.inl ⟨rfl, rfl⟩
        | some i => exact Or.inr ⟨i, rfl, rfl⟩
  · exact Or.inl ⟨s1, by rw [h1], h2, h3, h4⟩

theorem addTunable_tuned {s : State F} (hs : Inv s) (ht : Tuned s) (ptr : Option Nat) (share : Option VarSet)
    (hw : ∀ p, ptr = some p → ∀ f, s.heap[p]? = some f → f.weight.isSome) : Good (addTunable ptr share s) := by
  cases ptr with
  | none => exact ht
  | some p =>
    cases hp : s.heap[p]? with
    | none =>
      unfold addTunable addDistribution
      simp only
      by_cases h : s.factors.contains p = true
      · rw [if_pos h]; exact ht
      · rw [if_neg h]
        have : s.deref p = .ub := by
          unfold deref Heap.get
          rw [hp]; rfl
        rw [this]; trivial
    | some f =>
      have hwf := hw p rfl f hp
      rcases addTunable_cases hs ht hp share with ⟨s', h1, _, _, h3⟩ | ⟨hr, s1, b, h1, hb, hof, h2⟩
      · rw [h1]
        rcases h3 with h | h | ⟨a, b, _, _, h⟩
        · rw [h]; exact ht
        · rw [h]; exact resetBelief_tuned ht
        · rw [h]; exact addVar_tuned ht a
      · have h3 := registered_tuned ht h1 hp hwf
        have hpn : p ∉ s.factors := fun h => hr (.known h)
        have hn : ∀ t ∈ s.tuners, ∀ c ∈ t, c.factor ≠ b.factor := by
          intro t hm c hc he
          apply hpn
          rw [← hb, ← he]
          exact ht.reg _ (ht.of t hm c hc).reg
        cases share with
        | none =>
          simp only at h2
          rw [h2]
          have ht1 : (registered s1 p).tuners = s.tuners := h1.kept.tuners
          refine ⟨?_, ?_, ?_, h3.reg, h3.exp⟩
          · intro t hm
            rcases List.mem_append.mp hm with h | h
            · exact ht.ne t h
            · simp at h; rw [h]; simp
          · show ((s.tuners ++ [[b]]).flatten.map BaseTuner.factor).Nodup
            rw [List.flatten_append, List.map_append, List.nodup_append]
            refine ⟨ht.nodup, by simp, ?_⟩
            intro x hx y hy he
            simp at hy
            obtain ⟨c, hc, rfl⟩ := List.mem_map.mp hx
            obtain ⟨u, hu, hcu⟩ := List.mem_flatten.mp hc
            exact hn u hu c hcu (he.trans hy)
          · intro t hm c hc
            have : TunerOf (registered s1 p) c := by
              rcases List.mem_append.mp hm with h | h
              · exact h3.of t (by rw [ht1]; exact h) c hc
              · simp at h; rw [h] at hc; simp at hc; rw [hc]; exact hof hwf
            exact ⟨this.reg, this.fn⟩
        | some g =>
          simp only at h2
          rcases h2 with ⟨_, h2⟩ | ⟨i, _, h2⟩
          · rw [h2]; exact h3
          · rw [h2]
            refine share_tuned h3 (hof hwf) ?_
            intro t hm
            exact hn t (by rw [← h1.kept.tuners]; exact hm)

theorem deref_some {s : State F} {p : Nat} {f : Fn F} (h : s.deref p = .ok f) : s.heap[p]? = some f := by
  unfold deref Heap.get at h
  cases hp : s.heap[p]? with
  | none => rw [hp] at h; cases h
  | some g => rw [hp] at h; cases h; rfl

theorem copyTunable_tuned {s : State F} (hs : Inv s) (ht : Tuned s) (p : Nat) (share : Option VarSet) :
    Good (copyTunable p share s) := by
  unfold copyTunable
  cases hd : s.deref p with
  | ok f =>
    simp only
    have hf : f.WF := hs.heapWF f (List.mem_of_getElem? (deref_some hd))
    unfold Fn.copyExponential
    cases f.weight with
    | none => trivial
    | some w =>
      simp only
      obtain ⟨g, hg, hgw, _, _, h5, _⟩ := hf.exponential w
      rw [hg]
      refine addTunable_tuned (hs.create hgw) (alloc_tuned hs ht g) _ _ ?_
      intro q hq g' hg'
      cases hq
      have : (s.alloc g).1.heap[s.heap.length]? = some g := by
        show (s.heap ++ [g])[s.heap.length]? = some g
        simp
      rw [this] at hg'
      cases hg'
      rw [h5]; rfl
  | throw => exact ht
  | ub => trivial

/-! ### The other operations -/

theorem mutate_kept {p : Nat} {op : Heap.Op F} {s : State F} (hs : Inv s)
    (hv : (∃ vs, op = .replaceVariables vs) → p ∉ s.factors) :
    match GOp.onHeap (Heap.mutate p op) s with
    | .ok s' _ => HeapKept s s'.heap ∧ s' = { s with heap := s'.heap } ∧
        ((∀ w, op ≠ .setWeight w) → ∀ (q : Nat) f, s.heap[q]? = some f → ∃ g, s'.heap[q]? = some g ∧ g.weight = f.weight) ∧
        (∀ (q : Nat), q ≠ p → s'.heap[q]? = s.heap[q]?)
    | .throw s' => s' = s
    | .ub => True := by
  unfold GOp.onHeap Heap.mutate
  cases hp : s.heap[p]? with
  | none => trivial
  | some f =>
    have hf := hs.heapWF f (List.mem_of_getElem? hp)
    have h := applyOp_wf (op := op) hf
    have hlt := (List.getElem?_eq_some_iff.mp hp).1
    simp only
    cases ho : Heap.applyOp op f with
    | ok g _ =>
      rw [ho] at h
      obtain ⟨_, h1, h2⟩ := h
      refine ⟨?_, rfl, ?_, ?_⟩
      · intro q hq f' hf'
        show ∃ g', (s.heap.set p g)[q]? = some g' ∧ _
        rw [List.getElem?_set]
        by_cases hpq : p = q
        · subst hpq
          rw [hp] at hf'
          cases hf'
          rw [if_pos rfl, if_pos hlt]
          refine ⟨g, rfl, by rw [h1 (fun vs hvs => hv ⟨vs, hvs⟩ hq)], ?_⟩
          intro hw
          by_cases hsw : ∀ w, op ≠ .setWeight w
          · rw [h2 hsw]; exact hw
          · push Not at hsw
            obtain ⟨w, rfl⟩ := hsw
            cases ho
            rfl
        · rw [if_neg hpq]; exact ⟨f', hf', rfl, id⟩
      · intro hsw q f' hf'
        show ∃ g', (s.heap.set p g)[q]? = some g' ∧ _
        rw [List.getElem?_set]
        by_cases hpq : p = q
        · subst hpq
          rw [hp] at hf'
          cases hf'
          rw [if_pos rfl, if_pos hlt]
          exact ⟨g, rfl, h2 hsw⟩
        · rw [if_neg hpq]; exact ⟨f', hf', rfl⟩
      · intro q hq
        show (s.heap.set p g)[q]? = s.heap[q]?
        rw [List.getElem?_set, if_neg (fun h => hq h.symm)]
    | throw g =>
      rw [ho] at h
      subst h
      show { s with heap := s.heap.set p g } = s
      have : s.heap.set p g = s.heap := by
        apply List.ext_getElem?
        intro q
        rw [List.getElem?_set]
        by_cases hpq : p = q
        · subst hpq; rw [if_pos rfl, if_pos hlt, hp]
        · rw [if_neg hpq]
      rw [this]
    | ub => trivial

theorem setWeights_tuned {s : State F} (ht : Tuned s) (ws : List F) : Good (setWeights ws s) := by
  unfold setWeights
  by_cases h : ws.length ≠ s.tuners.length
  · rw [if_pos h]; exact ht
  · rw [if_neg h]
    obtain ⟨h, h1, h2⟩ := setTunersWeights_eq (s.tuners.zip ws) s
    rw [h1]
    exact ht.kept (.of_same h2) ⟨[], by simp [resetBelief]⟩ ⟨[], by simp [resetBelief]⟩ rfl rfl

theorem exec_tuned {s : State F} (hs : Inv s) (ht : Tuned s) {op : GOp F} (hv : op.Valid s) : Good (op.exec s) := by
  by_cases hc : op.Inserts = false ∧ op.Alters = false
  · have h := exec_all hs hv hc.1 hc.2
    have gen : ∀ s', SameAll s s' → Tuned s' := fun s' h =>
      ht.kept (.of_eq h.heap) ⟨[], by rw [h.vars]; simp⟩ ⟨[], by rw [h.factors]; simp⟩ h.tunables h.tuners
    cases he : op.exec s with
    | ok s' _ => exact gen s' (h.1 s' he)
    | throw s' => exact gen s' (h.2 s' he)
    | ub => trivial
  · cases op with
    | create f => exact alloc_tuned hs ht f
    | mutate p o =>
      have h := mutate_kept (p := p) (op := o) hs (by
        rintro ⟨vs, rfl⟩
        exact hv.2)
      show Good (GOp.onHeap (Heap.mutate p o) s)
      cases he : GOp.onHeap (Heap.mutate p o) s with
      | ok s' _ =>
        rw [he] at h
        obtain ⟨h1, h2, _⟩ := h
        exact ht.kept h1 ⟨[], by rw [h2]; simp⟩ ⟨[], by rw [h2]; simp⟩ (by rw [h2]) (by rw [h2])
      | throw s' => rw [he] at h; rw [h]; exact ht
      | ub => trivial
    | addConst p => exact addConst_tuned hs ht p
    | copyConst p => exact copyConst_tuned hs ht p
    | addTunable p share =>
      refine addTunable_tuned hs ht p share ?_
      rintro q rfl
      exact hv.2
    | copyTunable p share => exact copyTunable_tuned hs ht p share
    | setWeights ws => exact setWeights_tuned ht ws
    | _ => exact absurd ⟨rfl, rfl⟩ hc

/-! ### Weights -/

theorem foldl_heapSetWeight_get (w : F) (ps : List Nat) (h : Heap F) (q : Nat) :
    (ps.foldl (heapSetWeight w) h)[q]? = if q ∈ ps then (h[q]?).map (fun f => f.setWeight w) else h[q]? := by
  induction ps generalizing h with
  | nil => simp
  | cons p ps ih =>
    rw [List.foldl_cons, ih, getElem?_heapSetWeight]
    by_cases hpq : p = q
    · subst hpq
      by_cases hm : p ∈ ps
      · simp only [hm, if_true, List.mem_cons, or_true]
        cases h[p]? <;> rfl
      · simp [hm]
    · have : q ≠ p := fun h => hpq h.symm
      simp [hpq, this]

/-- The functions after changing the weights of several tuners. -/
theorem setTunersWeights_get (l : List (List BaseTuner × F)) (s : State F)
    (hn : ((l.map Prod.fst).flatten.map BaseTuner.factor).Nodup) :
    (∀ e ∈ l, ∀ b ∈ e.1, (setTunersWeights l s).heap[b.factor]? =
      (s.heap[b.factor]?).map (fun f => f.setWeight e.2)) ∧
    (∀ q : Nat, q ∉ (l.map Prod.fst).flatten.map BaseTuner.factor →
      (setTunersWeights l s).heap[q]? = s.heap[q]?) := by
  induction l generalizing s with
  | nil => exact ⟨(by intro e he; cases he), fun q _ => rfl⟩
  | cons e l ih =>
    obtain ⟨t, w⟩ := e
    simp only [List.map_cons, List.flatten_cons, List.map_append, List.nodup_append] at hn
    obtain ⟨h1, h2⟩ := ih (setTunerWeight t w s) hn.2.1
    have hget : ∀ q : Nat, (setTunerWeight t w s).heap[q]? =
        if q ∈ t.map BaseTuner.factor then (s.heap[q]?).map (fun f => f.setWeight w) else s.heap[q]? :=
      fun q => foldl_heapSetWeight_get w _ _ q
    refine ⟨?_, ?_⟩
    · intro e he b hb
      rw [setTunersWeights]
      rcases List.mem_cons.mp he with rfl | he
      · have hbm : b.factor ∈ t.map BaseTuner.factor := List.mem_map_of_mem hb
        rw [h2 _ (fun h => hn.2.2 _ hbm _ h rfl), hget, if_pos hbm]
      · rw [h1 e he b hb, hget, if_neg]
        intro h
        refine hn.2.2 _ h b.factor ?_ rfl
        exact List.mem_map_of_mem (List.mem_flatten.mpr ⟨e.1, List.mem_map_of_mem he, hb⟩)
    · intro q hq
      simp only [List.map_cons, List.flatten_cons, List.map_append, List.mem_append, not_or] at hq
      rw [setTunersWeights, h2 q hq.2, hget, if_neg hq.1]

theorem mapList_zip_snd {α β : Type} {f : α → Res β} {l : List α} {l' : List β} (hl : l'.length = l.length)
    (h : ∀ (k : Nat) a b, l[k]? = some a → l'[k]? = some b → f a = .ok b) : Res.mapList f l = .ok l' := by
  induction l generalizing l' with
  | nil =>
    have : l' = [] := List.length_eq_zero_iff.mp hl
    rw [this]; rfl
  | cons a l ih =>
    cases l' with
    | nil => cases hl
    | cons b l' =>
      have h1 := h 0 a b rfl rfl
      have h2 := ih (by simpa using hl) (fun k a b ha hb => h (k + 1) a b (by simpa using ha) (by simpa using hb))
      rw [Res.mapList_cons, h1]
      simp only [h2]

/-- No cluster is empty, every factor is in at most one cluster, and the factors of the clusters are exponential
factors of the model. -/
structure Weighted (s : State F) : Prop where
  ne' : ∀ c ∈ s.tunableClusters, c ≠ []
  nodup' : s.tunableClusters.flatten.Nodup
  mem' : ∀ c ∈ s.tunableClusters, ∀ p ∈ c, p ∈ s.tunables
  reg : ∀ p ∈ s.tunables, p ∈ s.factors
  exp : ∀ p ∈ s.tunables, ∃ f, s.heap[p]? = some f ∧ f.weight.isSome

theorem Weighted.ne {s : State F} (h : Weighted s) {t : List BaseTuner} (ht : t ∈ s.tuners) : t ≠ [] := by
  rintro rfl
  exact h.ne' [] (List.mem_map.mpr ⟨[], ht, rfl⟩) rfl

theorem Weighted.nodup {s : State F} (h : Weighted s) : (s.tuners.flatten.map BaseTuner.factor).Nodup := by
  rw [List.map_flatten]; exact h.nodup'

theorem Weighted.mem {s : State F} (h : Weighted s) {t : List BaseTuner} (ht : t ∈ s.tuners) {b : BaseTuner} (hb : b ∈ t) :
    b.factor ∈ s.tunables :=
  h.mem' _ (List.mem_map_of_mem ht) _ (List.mem_map_of_mem hb)

theorem Tuned.weighted {s : State F} (h : Tuned s) : Weighted s := by
  refine ⟨?_, ?_, ?_, h.reg, h.exp⟩
  · intro c hc
    obtain ⟨t, ht, rfl⟩ := List.mem_map.mp hc
    exact fun e => h.ne t ht (List.map_eq_nil_iff.mp e)
  · have := h.nodup
    rw [List.map_flatten] at this
    exact this
  · intro c hc p hp
    obtain ⟨t, ht, rfl⟩ := List.mem_map.mp hc
    obtain ⟨b, hb, rfl⟩ := List.mem_map.mp hp
    exact (h.of t ht b hb).reg

/-- The weights after `setWeights`. -/
theorem setWeights_ok {s : State F} (ht : Weighted s) {ws : List F} (hl : ws.length = s.tuners.length) :
    ∃ s', setWeights ws s = .ok s' () ∧ s' = { s with heap := s'.heap, last := s'.last } ∧ SameButWeight s.heap s'.heap ∧
      (∀ (k : Nat) t w, s.tuners[k]? = some t → ws[k]? = some w → ∀ b ∈ t, s'.weightOf b.factor = .ok w) ∧
      (∀ q, q ∉ s.tuners.flatten.map BaseTuner.factor → s'.heap[q]? = s.heap[q]?) ∧
      s'.getWeights = .ok ws := by
  unfold setWeights
  rw [if_neg (by simp [hl])]
  obtain ⟨h, h1, h2⟩ := setTunersWeights_eq (s.tuners.zip ws) s
  have hfst : (s.tuners.zip ws).map Prod.fst = s.tuners := List.map_fst_zip (by omega)
  obtain ⟨h3, h4⟩ := setTunersWeights_get (s.tuners.zip ws) s (by rw [hfst]; exact ht.nodup)
  rw [hfst] at h4
  have hw : ∀ (k : Nat) t w, s.tuners[k]? = some t → ws[k]? = some w → ∀ b ∈ t,
      (setTunersWeights (s.tuners.zip ws) s).resetBelief.weightOf b.factor = .ok w := by
    intro k t w hk hkw b hb
    have hm : (t, w) ∈ s.tuners.zip ws := by
      apply List.mem_of_getElem? (i := k)
      rw [List.getElem?_zip_eq_some]
      exact ⟨hk, hkw⟩
    obtain ⟨f, hf, _⟩ := ht.exp _ (ht.mem (List.mem_of_getElem? hk) hb)
    have := h3 (t, w) hm b hb
    rw [hf] at this
    unfold weightOf
    show (match (setTunersWeights (s.tuners.zip ws) s).heap[b.factor]? with
      | some f => Res.ofOption f.weight
      | none => .ub) = _
    rw [this]
    rfl
  refine ⟨_, rfl, ?_, ?_, hw, ?_, ?_⟩
  · rw [h1]; rfl
  · rw [h1]; exact h2
  · intro q hq
    exact h4 q hq
  · unfold getWeights
    have : (setTunersWeights (s.tuners.zip ws) s).resetBelief.tuners = s.tuners := by rw [h1]; rfl
    rw [this]
    refine mapList_zip_snd hl ?_
    intro k t w hk hkw
    unfold tunerWeight
    cases t with
    | nil => exact absurd rfl (ht.ne (List.mem_of_getElem? hk))
    | cons b t => exact hw k (b :: t) w hk hkw b (by simp)

/-! ### Equal weights inside the clusters -/

/-- The factors of a cluster have equal weights. -/
def Shared (s : State F) : Prop := ∀ t ∈ s.tuners, ∀ b ∈ t, ∀ c ∈ t, s.weightOf b.factor = s.weightOf c.factor

theorem Shared.kept {s s' : State F} (h : Shared s) (hu : s'.tuners = s.tuners)
    (hw : ∀ t ∈ s.tuners, ∀ b ∈ t, s'.weightOf b.factor = s.weightOf b.factor) : Shared s' := by
  intro t ht b hb c hc
  rw [hu] at ht
  rw [hw t ht b hb, hw t ht c hc]
  exact h t ht b hb c hc

theorem weightOf_congr {s s' : State F} {p : Nat} (h : s'.heap[p]? = s.heap[p]?) : s'.weightOf p = s.weightOf p := by
  unfold weightOf
  rw [h]

/-- An operation after which the weights inside the clusters are equal. -/
def GoodW (x : Out (State F) Unit) : Prop :=
  match x with
  | .ok s' _ => Shared s'
  | .throw s' => Shared s'
  | .ub => True

theorem addConst_shared {s : State F} (hs : Inv s) (h : Shared s) (ptr : Option Nat) : GoodW (addConstFactor ptr s) := by
  cases ptr with
  | none => exact h
  | some p =>
    cases hp : s.heap[p]? with
    | none =>
      unfold addConstFactor addDistribution
      simp only
      by_cases hc : s.factors.contains p = true
      · rw [if_pos hc]; exact h
      · rw [if_neg hc]
        have : s.deref p = .ub := by
          unfold deref Heap.get
          rw [hp]; rfl
        rw [this]; trivial
    | some f =>
      unfold addConstFactor
      rcases addDistribution_cases hs hp with ⟨s', h1, h2, _⟩ | ⟨s', h1, _, _, h3⟩
      · rw [h1]
        exact h.kept h2.kept.tuners (fun _ _ b _ => weightOf_congr (by
          show s'.heap[b.factor]? = _
          rw [h2.kept.heap]))
      · rw [h1]
        rcases h3 with h4 | h4 | ⟨a, b, _, _, h4⟩
        · rw [h4]; exact h
        · rw [h4]; exact h
        · rw [h4]; exact h

theorem alloc_shared {s : State F} (ht : Tuned s) (h : Shared s) (f : Fn F) : Shared (s.alloc f).1 := by
  refine h.kept rfl ?_
  intro t hm b hb
  obtain ⟨g, hg, _⟩ := (ht.of t hm b hb).fn
  refine weightOf_congr ?_
  show (s.heap ++ [f])[b.factor]? = s.heap[b.factor]?
  exact List.getElem?_append_left (List.getElem?_eq_some_iff.mp hg).1

theorem copyConst_shared {s : State F} (hs : Inv s) (ht : Tuned s) (h : Shared s) (p : Nat) :
    GoodW (copyConstFactor p s) := by
  unfold copyConstFactor
  cases hd : s.deref p with
  | ok f =>
    simp only
    have hf : f.WF := hs.heapWF f (List.mem_of_getElem? (deref_some hd))
    obtain ⟨g, hg, hgw, _⟩ := hf.cloneTransformed
    rw [hg]
    exact addConst_shared (hs.create hgw) (alloc_shared ht h g) _
  | throw => exact h
  | ub => trivial

theorem share_shared {s : State F} (ht : Tuned s) (h : Shared s) {i : Nat} {b : BaseTuner} (hb : TunerOf s b)
    (hn : ∀ t ∈ s.tuners, ∀ c ∈ t, c.factor ≠ b.factor) : GoodW (shareTuner i b s) := by
  unfold shareTuner
  cases hi : s.tuners[i]? with
  | none => trivial
  | some t =>
    simp only
    cases hw : s.tunerWeight t with
    | throw => exact h
    | ub => trivial
    | ok w =>
      show Shared (setTunerWeight (t ++ [b]) w { s with tuners := s.tuners.modify i (fun t => t ++ [b]) })
      have hin : ∀ c ∈ t ++ [b],
          (setTunerWeight (t ++ [b]) w { s with tuners := s.tuners.modify i (fun t => t ++ [b]) }).weightOf c.factor = .ok w := by
        intro c hc
        have : TunerOf s c := by
          rcases List.mem_append.mp hc with h | h
          · exact ht.of t (List.mem_of_getElem? hi) c h
          · simp at h; rw [h]; exact hb
        obtain ⟨f, hf, _⟩ := this.fn
        have hg : (setTunerWeight (t ++ [b]) w { s with tuners := s.tuners.modify i (fun t => t ++ [b]) }).heap[c.factor]? =
            some (f.setWeight w) := by
          show (((t ++ [b]).map BaseTuner.factor).foldl (heapSetWeight w) s.heap)[c.factor]? = _
          rw [foldl_heapSetWeight_get, if_pos (List.mem_map_of_mem hc), hf]
          rfl
        unfold weightOf
        rw [hg]
        rfl
      intro u hu c hc d hd
      obtain ⟨j, hj⟩ := List.mem_iff_getElem?.mp hu
      change (s.tuners.modify i (fun t => t ++ [b]))[j]? = some u at hj
      rw [List.getElem?_modify] at hj
      cases hj' : s.tuners[j]? with
      | none => rw [hj'] at hj; cases hj
      | some u' =>
        rw [hj'] at hj
        have hj := Option.some.inj hj
        beta_reduce at hj
        by_cases hij : i = j
        · rw [if_pos hij] at hj
          rw [← hij, hi] at hj'
          cases hj'
          rw [← hj] at hc hd
          rw [hin c hc, hin d hd]
        · rw [if_neg hij] at hj
          subst hj
          have hout : ∀ c ∈ u',
              (setTunerWeight (t ++ [b]) w { s with tuners := s.tuners.modify i (fun t => t ++ [b]) }).weightOf c.factor =
                s.weightOf c.factor := by
            intro c hc
            refine weightOf_congr ?_
            show (((t ++ [b]).map BaseTuner.factor).foldl (heapSetWeight w) s.heap)[c.factor]? = _
            rw [foldl_heapSetWeight_get, if_neg]
            intro hm
            obtain ⟨e, he, hec⟩ := List.mem_map.mp hm
            rcases List.mem_append.mp he with he | he
            · have hnd := ht.nodup
              rw [List.map_flatten] at hnd
              have hp := (List.nodup_flatten.mp hnd).2
              rw [List.pairwise_iff_getElem] at hp
              have hi' := List.getElem?_eq_some_iff.mp hi
              have hj'' := List.getElem?_eq_some_iff.mp hj'
              obtain ⟨hi1, hi2⟩ := hi'
              obtain ⟨hj1, hj2⟩ := hj''
              rcases Nat.lt_or_gt_of_ne hij with hlt | hlt
              · have := hp i j (by simpa using hi1) (by simpa using hj1) hlt
                rw [List.getElem_map, List.getElem_map, hi2, hj2] at this
                exact this (List.mem_map_of_mem he) (hec ▸ List.mem_map_of_mem hc)
              · have := hp j i (by simpa using hj1) (by simpa using hi1) hlt
                rw [List.getElem_map, List.getElem_map, hi2, hj2] at this
                exact this (List.mem_map_of_mem hc) (hec ▸ List.mem_map_of_mem he)
            · simp at he
              rw [he] at hec
              exact hn u' (List.mem_of_getElem? hj') c hc hec.symm
          rw [hout c hc, hout d hd]
          exact h u' (List.mem_of_getElem? hj') c hc d hd

theorem addTunable_shared {s : State F} (hs : Inv s) (ht : Tuned s) (h : Shared s) (ptr : Option Nat)
    (share : Option VarSet) (hw : ∀ p, ptr = some p → ∀ f, s.heap[p]? = some f → f.weight.isSome) :
    GoodW (addTunable ptr share s) := by
  cases ptr with
  | none => exact h
  | some p =>
    cases hp : s.heap[p]? with
    | none =>
      unfold addTunable addDistribution
      simp only
      by_cases hc : s.factors.contains p = true
      · rw [if_pos hc]; exact h
      · rw [if_neg hc]
        have : s.deref p = .ub := by
          unfold deref Heap.get
          rw [hp]; rfl
        rw [this]; trivial
    | some f =>
      have hwf := hw p rfl f hp
      rcases addTunable_cases hs ht hp share with ⟨s', h1, _, _, h3⟩ | ⟨hr, s1, b, h1, hb, hof, h2⟩
      · rw [h1]
        rcases h3 with h4 | h4 | ⟨a, b, _, _, h4⟩
        · rw [h4]; exact h
        · rw [h4]; exact h
        · rw [h4]; exact h
      · have h3 := registered_tuned ht h1 hp hwf
        have hpn : p ∉ s.factors := fun h => hr (.known h)
        have hn : ∀ t ∈ s.tuners, ∀ c ∈ t, c.factor ≠ b.factor := by
          intro t hm c hc he
          apply hpn
          rw [← hb, ← he]
          exact ht.reg _ (ht.of t hm c hc).reg
        have hsh : Shared (registered s1 p) := h.kept h1.kept.tuners (fun _ _ b _ => weightOf_congr (by
          show s1.heap[b.factor]? = _
          rw [h1.kept.heap]))
        cases share with
        | none =>
          simp only at h2
          rw [h2]
          intro t hm c hc d hd
          rcases List.mem_append.mp hm with h | h
          · exact hsh t (by rw [← h1.kept.tuners] at h; exact h) c hc d hd
          · simp at h; rw [h] at hc hd; simp at hc hd; rw [hc, hd]
        | some g =>
          simp only at h2
          rcases h2 with ⟨_, h2⟩ | ⟨i, _, h2⟩
          · rw [h2]; exact hsh
          · rw [h2]
            refine share_shared h3 hsh (hof hwf) ?_
            intro t hm
            exact hn t (by rw [← h1.kept.tuners]; exact hm)

theorem copyTunable_shared {s : State F} (hs : Inv s) (ht : Tuned s) (h : Shared s) (p : Nat) (share : Option VarSet) :
    GoodW (copyTunable p share s) := by
  unfold copyTunable
  cases hd : s.deref p with
  | ok f =>
    simp only
    have hf : f.WF := hs.heapWF f (List.mem_of_getElem? (deref_some hd))
    unfold Fn.copyExponential
    cases f.weight with
    | none => trivial
    | some w =>
      simp only
      obtain ⟨g, hg, hgw, _, _, h5, _⟩ := hf.exponential w
      rw [hg]
      refine addTunable_shared (hs.create hgw) (alloc_tuned hs ht g) (alloc_shared ht h g) _ _ ?_
      intro q hq g' hg'
      cases hq
      have : (s.alloc g).1.heap[s.heap.length]? = some g := by
        show (s.heap ++ [g])[s.heap.length]? = some g
        simp
      rw [this] at hg'
      cases hg'
      rw [h5]; rfl
  | throw => exact h
  | ub => trivial

theorem exec_shared {s : State F} (hs : Inv s) (ht : Tuned s) (h : Shared s) {op : GOp F} (hv : op.Valid s)
    (ha : ∀ p w, op = .mutate p (.setWeight w) → p ∉ s.factors) : GoodW (op.exec s) := by
  by_cases hc : op.Inserts = false ∧ op.Alters = false
  · have he := exec_all hs hv hc.1 hc.2
    have gen : ∀ s', SameAll s s' → Shared s' := fun s' h' =>
      h.kept h'.tuners (fun _ _ b _ => weightOf_congr (by rw [h'.heap]))
    cases hx : op.exec s with
    | ok s' _ => exact gen s' (he.1 s' hx)
    | throw s' => exact gen s' (he.2 s' hx)
    | ub => trivial
  · cases op with
    | create f => exact alloc_shared ht h f
    | mutate p o =>
      have hk := mutate_kept (p := p) (op := o) hs (by
        rintro ⟨vs, rfl⟩
        exact hv.2)
      show GoodW (GOp.onHeap (Heap.mutate p o) s)
      cases he : GOp.onHeap (Heap.mutate p o) s with
      | ok s' _ =>
        rw [he] at hk
        obtain ⟨_, h2, h3, h4⟩ := hk
        refine h.kept (by rw [h2]) ?_
        intro t hm b hb
        have hof := ht.of t hm b hb
        obtain ⟨f, hf, _⟩ := hof.fn
        by_cases hsw : ∀ w, o ≠ .setWeight w
        · obtain ⟨g, hg1, hg2⟩ := h3 hsw b.factor f hf
          unfold weightOf
          rw [hg1, hf]
          show Res.ofOption g.weight = Res.ofOption f.weight
          rw [hg2]
        · push Not at hsw
          obtain ⟨w, rfl⟩ := hsw
          refine weightOf_congr (h4 _ ?_)
          rintro hp
          exact ha p w rfl (hp ▸ ht.reg _ hof.reg)
      | throw s' => rw [he] at hk; rw [hk]; exact h
      | ub => trivial
    | addConst p => exact addConst_shared hs h p
    | copyConst p => exact copyConst_shared hs ht h p
    | addTunable p share =>
      refine addTunable_shared hs ht h p share ?_
      rintro q rfl
      exact hv.2
    | copyTunable p share => exact copyTunable_shared hs ht h p share
    | setWeights ws =>
      show GoodW (setWeights ws s)
      by_cases hl : ws.length = s.tuners.length
      · obtain ⟨s', h1, h2, _, h3, _⟩ := setWeights_ok ht.weighted hl
        rw [h1]
        intro t hm b hb c hc
        rw [h2] at hm
        obtain ⟨k, hk⟩ := List.mem_iff_getElem?.mp hm
        have hlt := (List.getElem?_eq_some_iff.mp hk).1
        change k < s.tuners.length at hlt
        have hkw : ws[k]? = some ws[k] := List.getElem?_eq_getElem (by omega)
        rw [h3 k t _ hk hkw b hb, h3 k t _ hk hkw c hc]
      · unfold setWeights
        rw [if_pos hl]
        exact h
    | _ => exact absurd ⟨rfl, rfl⟩ hc

end State

/-- The tuners are in order in every reachable state. -/
theorem reach_tuned {F : Type} [Arith F] {allowed : State F → GOp F → Prop} {s : State F} (h : Reach allowed s) :
    s.Tuned := by
  induction h with
  | init _ => exact State.tuned_initial _
  | ok hr hv _ he ih =>
    have := State.exec_tuned (reach_inv hr) ih hv
    rw [he] at this
    exact this
  | throw hr hv _ _ he ih =>
    have := State.exec_tuned (reach_inv hr) ih hv
    rw [he] at this
    exact this

/-- The weights inside the clusters are equal if the weights of inserted factors are not set from outside. -/
theorem reach_shared {F : Type} [Arith F] {allowed : State F → GOp F → Prop} {s : State F} (h : Reach allowed s)
    (ha : ∀ s op, allowed s op → ∀ p w, op = .mutate p (.setWeight w) → p ∉ s.factors) : s.Shared := by
  induction h with
  | init _ => intro t ht; cases ht
  | ok hr hv hal he ih =>
    have := State.exec_shared (reach_inv hr) (reach_tuned hr) ih hv (ha _ _ hal)
    rw [he] at this
    exact this
  | throw hr hv hal _ he ih =>
    have := State.exec_shared (reach_inv hr) (reach_tuned hr) ih hv (ha _ _ hal)
    rw [he] at this
    exact this

end EFG
