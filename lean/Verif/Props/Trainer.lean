import Verif.Lemmas.Trainer
import Verif.Props.CrfGradient
import Verif.Props.TrainSet
/-
C51: the training of a model.
-/

set_option linter.unusedSectionVars false

namespace EFG

section
variable {F D : Type} [Arith F]

/-- The calls of the training of a random field, one after the other. -/
abbrev FieldSession (cv : Doubles F D) (floorInt : F → Option Int) (draw : Nat → Nat → Nat)
    (ord : Nat → List Var → List Var) (sched : Nat → Sched) (set : List (List Nat)) (info : TrainInfo F) (opt : Optimiser D)
    (s : State F) (es : List (Event F)) (o : Out (State F) Unit) : Prop :=
  Session cv (fun k => batch floorInt set info.percentage (draw k))
    (fun k l => State.getWeightsGradient (ord k) (sched k) l info.threads) opt 0 s es o

/-- The calls of the training of a conditional random field, one after the other. -/
abbrev CrfSession (cv : Doubles F D) (floorInt : F → Option Int) (draw : Nat → Nat → Nat)
    (ord visit : Nat → List Var → List Var) (sched : Nat → Sched) (positions : List Nat) (set : List (List Nat))
    (info : TrainInfo F) (opt : Optimiser D) (s : State F) (es : List (Event F)) (o : Out (State F) Unit) : Prop :=
  Session cv (fun k => batch floorInt set info.percentage (draw k))
    (fun k l => State.getCrfGradient (ord k) (visit k) (sched k) positions l info.threads) opt 0 s es o

variable {cv : Doubles F D} {floorInt : F → Option Int} {draw : Nat → Nat → Nat} {ord visit : Nat → List Var → List Var}
  {sched : Nat → Sched} {positions : List Nat} {set : List (List Nat)} {info : TrainInfo F} {opt : Optimiser D}

/-- C51: the training of a random field, whatever the optimiser does, is the sequence of the calls of the public
functions which the optimiser asks for, with the same answers and the same outcome; there is only one such sequence. -/
theorem C51_calls {allowed : State F → GOp F → Prop} {s : State F} (h : Reach allowed s) (hp : s.pool = some 1)
    (hord : ∀ k l, (ord k l).Perm l) (hn : 1 ≤ info.threads) :
    ∃ es, FieldSession cv floorInt draw ord sched set info opt s es (State.trainField cv floorInt draw ord sched opt set info s) ∧
      ∀ es' o, FieldSession cv floorInt draw ord sched set info opt s es' o →
        es' = es ∧ o = State.trainField cv floorInt draw ord sched opt set info s := by
  obtain ⟨es, h1⟩ := State.optimise_session (cv := cv) (samples := fun k => batch floorInt set info.percentage (draw k))
    (fun k l => State.gradient_mildly (hord k) (sched k) l) hn opt 0 s (reach_inv h) hp
  unfold State.trainField State.trainModel
  rw [State.withPool_leave hn hp]
  exact ⟨es, h1, fun es' o hx => Session.det hx h1⟩

/-- C51: the same for a conditional random field. -/
theorem C51_crf_calls {allowed : State F → GOp F → Prop} {src : State F} (h : Reach allowed src) {o : VisitOrder} (ho : o.Perms)
    {copy : Bool} {c : Crf F} {permitted : State F → CrfOp F → Prop} (hc : CrfReach permitted src o copy c)
    (hp : c.state.pool = some 1) (hord : ∀ k l, (ord k l).Perm l) (hvis : ∀ k l, (visit k l).Perm l) (hn : 1 ≤ info.threads) :
    ∃ es, CrfSession cv floorInt draw ord visit sched c.positions set info opt c.state es
        (State.trainCrf cv floorInt draw ord visit sched c.positions opt set info c.state) ∧
      ∀ es' o, CrfSession cv floorInt draw ord visit sched c.positions set info opt c.state es' o →
        es' = es ∧ o = State.trainCrf cv floorInt draw ord visit sched c.positions opt set info c.state := by
  obtain ⟨_, _, _, hi, _⟩ := State.crf_reach h ho hc
  obtain ⟨es, h1⟩ := State.optimise_session (cv := cv) (samples := fun k => batch floorInt set info.percentage (draw k))
    (fun k l => State.crfGradient_mildly (hord k) (hvis k) (sched k) c.positions l) hn opt 0 c.state hi hp
  unfold State.trainCrf State.trainModel
  rw [State.withPool_leave hn hp]
  exact ⟨es, h1, fun es' o hx => Session.det hx h1⟩

/-- What a training leaves: the model has the weights which were set last, the pool is the one it had, and only weights,
evidences and caches have changed. The gradients are asked with the weights set before, and these are the ones read. -/
structure Trained (s : State F) (ws : List F) (es : List (Event F)) (o : Out (State F) Unit) : Prop where
  asked : ∀ pre s1 l g post, es = pre ++ .gradient s1 l g :: post →
    SameModel s s1 ∧ s1.getWeights = .ok (weightsAfter ws pre)
  read : ∀ pre ws' post, es = pre ++ .read ws' :: post → ws' = weightsAfter ws pre
  left : ∀ s', o = .ok s' () ∨ o = .throw s' →
    SameModel s s' ∧ s'.getWeights = .ok (weightsAfter ws es) ∧ s'.pool = s.pool

theorem State.Training.trained {s : State F} (ht : State.Training s s) {grad : Nat → List (List Nat) → M (State F) (List F)}
    (hg : ∀ k l, State.Mildly (grad k l)) {samples : Nat → Res (List (List Nat))} {n : Nat} (hn : 1 ≤ n)
    {es : List (Event F)} {o : Out (State F) Unit} {ws : List F} (hws : s.getWeights = .ok ws)
    (h : Session cv samples (fun k l => State.withPool n (grad k l)) opt 0 s es o) : Trained s ws es o := by
  have hm : ∀ k l (s1 : State F), State.Training s s1 → State.MildAt (State.withPool n (grad k l)) s1 :=
    fun k l s1 h1 => State.withPool_mild hn h1.inv h1.pool (hg k l)
  obtain ⟨a1, a2, a3⟩ := h.always (P := State.Training s) (fun _ _ _ h1 h2 => (h1.setWeights h2).1)
    (fun k l s1 s2 g h1 _ h2 => h1.mild ((State.mildAt_cases (hm k l s1 h1)).1 _ _ h2))
    (fun k l s1 s2 h1 _ h2 => h1.mild ((State.mildAt_cases (hm k l s1 h1)).2 _ h2)) ht
  obtain ⟨b1, b2, b3, b4⟩ := h.weights (P := State.Training s) (fun _ _ _ h1 h2 => h1.setWeights h2)
    (fun k l s1 s2 g h1 _ h2 =>
      have m := (State.mildAt_cases (hm k l s1 h1)).1 _ _ h2
      ⟨h1.mild m, m.weights⟩)
    (fun k l s1 s2 h1 _ h2 =>
      have m := (State.mildAt_cases (hm k l s1 h1)).2 _ h2
      ⟨h1.mild m, m.weights⟩) ht hws
  refine ⟨fun pre s1 l g post he => ⟨(a1 s1 l g (by rw [he]; simp)).1.same, b1 _ _ _ _ _ he⟩, b2, ?_⟩
  rintro s' (h1 | h1)
  · exact ⟨(a2 s' h1).same, b3 s' h1, (a2 s' h1).pool.trans ht.pool.symm⟩
  · exact ⟨(a3 s' h1).same, b4 s' h1, (a3 s' h1).pool.trans ht.pool.symm⟩

/-- C51: what the training of a random field leaves. -/
theorem C51_weights {allowed : State F → GOp F → Prop} {s : State F} (h : Reach allowed s) (hp : s.pool = some 1)
    (hord : ∀ k l, (ord k l).Perm l) (hn : 1 ≤ info.threads) {ws : List F} (hws : s.getWeights = .ok ws) :
    ∃ es, FieldSession cv floorInt draw ord sched set info opt s es (State.trainField cv floorInt draw ord sched opt set info s) ∧
      Trained s ws es (State.trainField cv floorInt draw ord sched opt set info s) := by
  obtain ⟨es, h1, _⟩ := C51_calls (cv := cv) (floorInt := floorInt) (draw := draw) (sched := sched) (set := set) (opt := opt) h hp
    hord hn
  exact ⟨es, h1, State.Training.trained ⟨reach_inv h, hp, (reach_tuned h).weighted, .rfl' s⟩
    (fun k l => State.gradient_mildly (hord k) (sched k) l) hn hws h1⟩

/-- C51: what the training of a conditional random field leaves. -/
theorem C51_crf_weights {allowed : State F → GOp F → Prop} {src : State F} (h : Reach allowed src) {o : VisitOrder} (ho : o.Perms)
    {copy : Bool} {c : Crf F} {permitted : State F → CrfOp F → Prop} (hc : CrfReach permitted src o copy c)
    (hp : c.state.pool = some 1) (hord : ∀ k l, (ord k l).Perm l) (hvis : ∀ k l, (visit k l).Perm l) (hn : 1 ≤ info.threads)
    {ws : List F} (hws : c.state.getWeights = .ok ws) :
    ∃ es, CrfSession cv floorInt draw ord visit sched c.positions set info opt c.state es
        (State.trainCrf cv floorInt draw ord visit sched c.positions opt set info c.state) ∧
      Trained c.state ws es (State.trainCrf cv floorInt draw ord visit sched c.positions opt set info c.state) := by
  obtain ⟨es, h1, _⟩ := C51_crf_calls (cv := cv) (floorInt := floorInt) (draw := draw) (sched := sched) (set := set) (opt := opt)
    h ho hc hp hord hvis hn
  obtain ⟨_, _, _, hi, _⟩ := State.crf_reach h ho hc
  exact ⟨es, h1, State.Training.trained ⟨hi, hp, State.crf_weighted h ho hc, .rfl' _⟩
    (fun k l => State.crfGradient_mildly (hord k) (hvis k) (sched k) c.positions l) hn hws h1⟩

/-- C51 is violated without threads: the training throws before the optimiser is called, and leaves the model without a
pool, so that the next query is undefined (C33). -/
theorem C51_threads_violated {grad : Nat → List (List Nat) → M (State F) (List F)} {s : State F} (hp : s.pool = some 1)
    (h0 : info.threads = 0) : State.trainModel cv floorInt draw grad opt set info s = .throw { s with pool := none } := by
  unfold State.trainModel State.withPool State.setPoolSize
  rw [hp, h0]
  rfl

/-- C51: no gradient is computed with a percentage which is not positive or is greater than 1; the optimiser is called,
and the weights which it sets are kept. -/
theorem C51_percentage {grad : Nat → List (List Nat) → M (State F) (List F)} (h1 : Arith.eq Arith.one info.percentage = false)
    (h2 : Arith.le info.percentage Arith.zero = true ∨ Arith.lt Arith.one info.percentage = true) {k : Nat} {s : State F}
    {es : List (Event F)} {o : Out (State F) Unit}
    (h : Session cv (fun k => batch floorInt set info.percentage (draw k)) grad opt k s es o) :
    ∀ s1 l g, .gradient s1 l g ∉ es := by
  intro s1 l g hm
  obtain ⟨_, k', hk, _⟩ := (h.always (P := fun _ => True) (fun _ _ _ _ _ => trivial) (fun _ _ _ _ _ _ _ _ => trivial)
    (fun _ _ _ _ _ _ _ => trivial) trivial).1 s1 l g hm
  unfold batch iteratorSamples at hk
  rw [h1] at hk
  have h3 : (Arith.le info.percentage Arith.zero || Arith.lt Arith.one info.percentage) = true := by
    rcases h2 with h2 | h2 <;> simp [h2]
  rw [h3] at hk
  cases hk

/-! ### The gradients -/

theorem SameModel.factorOn {s s' : State F} (hm : SameModel s s') (hw : State.Weighted s) {p : Nat} {l : List Var} :
    s'.FactorOn p l ↔ s.FactorOn p l := by
  unfold State.FactorOn
  rw [hm.factors]
  refine and_congr_right (fun _ => ?_)
  constructor
  · rintro ⟨f, h1, h2⟩
    by_cases hc : p ∈ s.tunableClusters.flatten
    · obtain ⟨c, hc1, hc2⟩ := List.mem_flatten.mp hc
      obtain ⟨g, g1, _⟩ := hw.exp p (hw.mem' c hc1 p hc2)
      obtain ⟨w, g2⟩ := hm.heap p g g1
      rw [h1] at g2
      cases g2
      exact ⟨g, g1, h2⟩
    · exact ⟨f, by rw [← hm.untouched p hc]; exact h1, h2⟩
  · rintro ⟨f, h1, h2⟩
    obtain ⟨w, h3⟩ := hm.heap p f h1
    exact ⟨_, h3, h2⟩

end

section
variable {K D : Type} [Field K] [LinearOrder K] [IsStrictOrderedRing K] [FloatParams K]

theorem State.treeAt_congr {s t : State (Ext K)} (hv : t.vars = s.vars) (hf : ∀ p l, t.FactorOn p l ↔ s.FactorOn p l)
    (ho : ∀ v, t.Observes v ↔ s.Observes v) {v : Var} (h : s.TreeAt v) : t.TreeAt v := by
  have hH : ∀ v, t.Hidden v ↔ s.Hidden v := fun v => by unfold State.Hidden; rw [ho, hv]
  have hJ : ∀ u v, t.Joins u v ↔ s.Joins u v := by
    intro u v
    simp only [State.Joins, hf]
  have hG : t.hiddenGraph = s.hiddenGraph := by
    ext u v
    simp only [State.hiddenGraph, hH, hJ]
  unfold State.TreeAt State.Linked at *
  rw [hG]
  simp only [hH, hJ]
  exact h

variable {cv : Doubles (Ext K) D} {floorInt : Ext K → Option Int} {draw : Nat → Nat → Nat}
  {ord visit : Nat → List Var → List Var} {sched : Nat → Sched} {set : List (List Nat)} {info : TrainInfo (Ext K)}
  {opt : Optimiser D}

/-- Every tunable factor joins two variables, both observed or both not. -/
def JoinsOnly {F : Type} [Arith F] (s : State F) : Prop :=
  ∀ c ∈ s.tunableClusters, ∀ p ∈ c, ∃ u v, s.FactorOn p [u, v] ∧ (s.Observes u ↔ s.Observes v)

/-- The states in which the gradients are asked are reached without leaving stale values. -/
theorem State.field_states {s : State (Ext K)} (h : Reach (fun s op => Prudent s op ∧ Steady s op) s) (hj : JoinsOnly s)
    (hord : ∀ k l, (ord k l).Perm l) (hsched : ∀ k l, (sched k l).Perm l) (hn : 1 ≤ info.threads) {es : List (Event (Ext K))}
    {o : Out (State (Ext K)) Unit} (hx : FieldSession cv floorInt draw ord sched set info opt s es o) :
    ∀ s1 l g, .gradient s1 l g ∈ es → Reach (fun s op => Prudent s op ∧ Steady s op) s1 ∧ State.Training s s1 ∧
      ∃ k, batch floorInt set info.percentage (draw k) = .ok l ∧
        ∀ s' g', State.getWeightsGradient (ord k) (sched k) l info.threads s1 = .ok s' g' → g = some g' := by
  have hpool : s.pool = some 1 := (reach_healthy (Ex.Reach.mono (fun _ _ h => h.1) h)).pool
  have ht : State.Training s s := ⟨reach_inv h, hpool, (reach_tuned h).weighted, .rfl' s⟩
  have hu : ∀ s1 : State (Ext K), JoinsOnly s1 → ∀ t ∈ s1.tuners, ∀ b ∈ t, s1.Uncached b.factor := by
    intro s1 hj1 t htm b hb f hf
    obtain ⟨u, v, ⟨_, f', h1, h2⟩, h3⟩ := hj1 (t.map BaseTuner.factor) (List.mem_map_of_mem htm) _ (List.mem_map_of_mem hb)
    rw [hf] at h1
    cases h1
    refine ⟨fun w n hw => ?_, fun u' v' hw => ?_⟩
    · rw [h2] at hw; cases hw
    · rw [h2] at hw; cases hw; exact h3
  have hkeep : ∀ s1 s2 : State (Ext K), State.Training s s1 → JoinsOnly s1 → SameModel s1 s2 →
      (∀ u v, (s1.Observes u ↔ s1.Observes v) → (s2.Observes u ↔ s2.Observes v)) → JoinsOnly s2 := by
    intro s1 s2 h1 hj1 hm ho c hc p hp
    rw [hm.clusters] at hc
    obtain ⟨u, v, h2, h3⟩ := hj1 c hc p hp
    exact ⟨u, v, (hm.factorOn h1.weighted).mpr h2, ho u v h3⟩
  have hgr : ∀ (k : Nat) (l : List (List Nat)) (s1 : State (Ext K)),
      (GOp.gradient (F := Ext K) (ord k) (sched k) l info.threads).Valid s1 ∧
      Prudent s1 (.gradient (ord k) (sched k) l info.threads) ∧ Steady s1 (.gradient (ord k) (sched k) l info.threads) := by
    intro k l s1
    refine ⟨⟨⟨hord k, hsched k⟩, trivial⟩, ⟨fun _ _ _ _ _ => trivial, ?_, ?_⟩, ⟨?_, ?_, fun hr => hr.elim, fun _ _ _ _ hr => hr.elim⟩⟩
    · intro he
      have : info.threads = 0 := Option.some.inj he
      omega
    · intro p f he; cases he
    · intro p o he; cases he
    · intro p w he; cases he
  have hbare : ∀ (k : Nat) (l : List (List Nat)) (s1 s2 : State (Ext K)), State.Training s s1 →
      (∀ g, State.getWeightsGradient (ord k) (sched k) l info.threads s1 = .ok s2 g → s2.evidences = []) ∧
      (State.getWeightsGradient (ord k) (sched k) l info.threads s1 = .throw s2 → s2.evidences = []) := by
    intro k l s1 s2 h1
    have hb := State.gradient_bare (hord k) (sched k) l (State.inPool_inv (n := info.threads) h1.inv)
    unfold State.getWeightsGradient
    rw [State.withPool_leave hn h1.pool]
    cases hy : State.gradient (ord k) (sched k) l (State.inPool info.threads s1) with
    | ok t g => rw [hy] at hb; exact ⟨(fun _ he => by cases he; exact hb), (fun he => by cases he)⟩
    | throw t => rw [hy] at hb; exact ⟨(fun _ he => by cases he), (fun he => by cases he; exact hb)⟩
    | ub => exact ⟨(fun _ he => by cases he), (fun he => by cases he)⟩
  have hnone : ∀ s2 : State (Ext K), s2.evidences = [] → ∀ u v, s2.Observes u ↔ s2.Observes v := by
    intro s2 he u v
    unfold State.Observes
    rw [he]
    simp
  have hm : ∀ k l (s1 : State (Ext K)), State.Training s s1 →
      State.MildAt (State.getWeightsGradient (ord k) (sched k) l info.threads) s1 :=
    fun k l s1 h1 => State.withPool_mild hn h1.inv h1.pool (State.gradient_mildly (hord k) (sched k) l)
  have key := (Session.always (P := fun s1 => Reach (fun s op => Prudent s op ∧ Steady s op) s1 ∧ State.Training s s1 ∧ JoinsOnly s1)
    ?_ ?_ ?_ hx ⟨h, ht, hj⟩).1
  · intro s1 l g he
    obtain ⟨⟨k1, k2, _⟩, k, k3, k4⟩ := key s1 l g he
    exact ⟨k1, k2, k, k3, k4⟩
  · rintro ws s1 s2 ⟨h1, h2, h3⟩ h4
    have h5 := (h2.setWeights h4).1
    have hse := State.setWeights_ok h2.weighted (ws := ws) (by
      by_contra hne
      unfold State.setWeights at h4
      rw [if_pos hne] at h4
      cases h4)
    obtain ⟨t, e1, e2, _⟩ := hse
    rw [h4] at e1
    cases e1
    have hsm : SameModel s1 s2 :=
      ((State.Training.setWeights (s0 := s1) ⟨h2.inv, h2.pool, h2.weighted, .rfl' s1⟩ h4).1).same
    refine ⟨.ok (op := .setWeights ws) h1 ⟨trivial, trivial⟩
      ⟨⟨fun _ _ hr => hr.elim, (by intro he; cases he), (by intro p f he; cases he)⟩,
        ⟨(by intro p o he; cases he), (by intro p w he; cases he), fun _ => hu s1 h3, (by intro p f u v _ he; cases he)⟩⟩ h4, h5, ?_⟩
    refine hkeep s1 s2 h2 h3 hsm (fun u v ho => ?_)
    have hev : s2.evidences = s1.evidences := by rw [e2]
    unfold State.Observes at ho ⊢
    rw [hev]
    exact ho
  · rintro k l s1 s2 g ⟨h1, h2, h3⟩ _ h4
    obtain ⟨v1, v2⟩ := hgr k l s1
    have md := (State.mildAt_cases (hm k l s1 h2)).1 _ _ h4
    refine ⟨.ok (op := .gradient (ord k) (sched k) l info.threads) h1 v1 v2 (by
      show GOp.drop _ s1 = _
      unfold GOp.drop
      rw [h4]), h2.mild md, hkeep s1 s2 h2 h3 md.same (fun u v _ => hnone s2 ((hbare k l s1 s2 h2).1 g h4) u v)⟩
  · rintro k l s1 s2 ⟨h1, h2, h3⟩ _ h4
    obtain ⟨v1, v2⟩ := hgr k l s1
    have md := (State.mildAt_cases (hm k l s1 h2)).2 _ h4
    refine ⟨.throw (op := .gradient (ord k) (sched k) l info.threads) h1 v1 v2 rfl (by
      show GOp.drop _ s1 = _
      unfold GOp.drop
      rw [h4]), h2.mild md, hkeep s1 s2 h2 h3 md.same (fun u v _ => hnone s2 ((hbare k l s1 s2 h2).2 h4) u v)⟩

/-- C51: in the training of a random field without cycles, every gradient for a batch which is not empty is that of the
model with the weights which were set last (`C51_weights`): the mean over the batch, which is made of samples of the set,
minus the expectation.

Missing: every tunable factor must join two variables, since the product of the unary factors of a variable is not
computed again after the weights are changed (`C51_stale_violated`); the batch must not be empty (`C51_empty_violated`);
the factors which join two variables must be symmetric, as in C41. -/
theorem C51_gradient_partial {s : State (Ext K)} (h : Reach (fun s op => Prudent s op ∧ Steady s op) s) (hj : JoinsOnly s)
    (hord : ∀ k l, (ord k l).Perm l) (hsched : ∀ k l, (sched k l).Perm l) (hn : 1 ≤ info.threads)
    (hset : ∀ c ∈ set, Valid (s.vars.map Var.size) c) (htree : ∀ v ∈ s.vars, s.unconditioned.TreeAt v)
    {es : List (Event (Ext K))} {o : Out (State (Ext K)) Unit}
    (hx : FieldSession cv floorInt draw ord sched set info opt s es o) {s1 : State (Ext K)} {l : List (List Nat)}
    {g : Option (List (Ext K))} (he : .gradient s1 l g ∈ es) (hne : l ≠ []) {φ ρ : Nat → Assign → K} (hφ : s1.Images φ)
    (hρ : s1.RawImages ρ) (hy : s1.unconditioned.Symmetric φ) (hpos : ∃ a, s1.InRange a ∧ s1.weight φ a ≠ 0) :
    (∀ c ∈ l, c ∈ set) ∧ g = some (s1.tunableClusters.map (fun c =>
      .val (s1.sampleMean l (State.statistic ρ c) - s1.modelMean φ (State.statistic ρ c)))) := by
  obtain ⟨h1, h2, k, h3, h4⟩ := State.field_states h hj hord hsched hn hx s1 l g he
  have hmem := batch_mem h3
  obtain ⟨s', h5⟩ := C41_gradient_partial h1 (hord k) (hsched k) hne
    (fun c hc => by rw [h2.same.vars]; exact hset c (hmem c hc)) hn hφ hρ hy
    (fun v hv => State.treeAt_congr (s := s.unconditioned) (t := s1.unconditioned) h2.same.vars
      (fun p l => h2.same.factorOn (reach_tuned h).weighted)
      (fun v => by simp [State.unconditioned, State.Observes]) (htree v (by rw [← h2.same.vars]; exact hv))) hpos
  exact ⟨hmem, h4 _ _ h5⟩

/-- The states in which the gradients of a conditional random field are asked. -/
theorem State.crf_states {src : State (Ext K)} (h : Reach Prudent src) {vo : VisitOrder} (ho : vo.Perms) {copy : Bool}
    {c : Crf (Ext K)} (hc : CrfReach CrfPrudent src vo copy c)
    (hr : ∀ e ∈ c.state.tunableClusters, ∀ p ∈ e, ∀ v, c.state.FactorOn p [v] → ∃ w, c.state.Joins v w ∧ c.state.Observes w)
    (hord : ∀ k l, (ord k l).Perm l) (hvis : ∀ k l, (visit k l).Perm l) (hsched : ∀ k l, (sched k l).Perm l)
    (hn : 1 ≤ info.threads) {es : List (Event (Ext K))} {o : Out (State (Ext K)) Unit}
    (hx : CrfSession cv floorInt draw ord visit sched c.positions set info opt c.state es o) :
    ∀ s1 l g, .gradient s1 l g ∈ es → CrfReach CrfPrudent src vo copy { c with state := s1 } ∧ State.Training c.state s1 ∧
      s1.obs = c.state.obs ∧ (∀ v, s1.Observes v ↔ c.state.Observes v) ∧ (∀ v, s1.Hidden v ↔ c.state.Hidden v) ∧
      ∃ k, batch floorInt set info.percentage (draw k) = .ok l ∧
        ∀ s' g', State.getCrfGradient (ord k) (visit k) (sched k) c.positions l info.threads s1 = .ok s' g' → g = some g' := by
  have hw := State.crf_weighted h ho hc
  obtain ⟨c0, m1, _, hi, hlk, _⟩ := State.crf_reach h ho hc
  have ht : State.Training c.state c.state := ⟨hi, (State.crf_half h ho hc).pool, hw, .rfl' _⟩
  have hobs : ∀ s1 : State (Ext K), CrfReach CrfPrudent src vo copy { c with state := s1 } → s1.obs = c.state.obs := by
    intro s1 h1
    obtain ⟨c1, n1, _, _, nlk, _⟩ := State.crf_reach h ho h1
    rw [m1] at n1
    cases n1
    exact nlk.obs.trans hlk.obs.symm
  have hObs : ∀ s1 : State (Ext K), CrfReach CrfPrudent src vo copy { c with state := s1 } →
      ∀ v, s1.Observes v ↔ c.state.Observes v := fun s1 h1 v => by
    rw [State.observes_iff, State.observes_iff, hobs s1 h1]
  have hm : ∀ k l (s1 : State (Ext K)), State.Training c.state s1 →
      State.MildAt (State.getCrfGradient (ord k) (visit k) (sched k) c.positions l info.threads) s1 :=
    fun k l s1 h1 => State.withPool_mild hn h1.inv h1.pool
      (State.crfGradient_mildly (hord k) (hvis k) (sched k) c.positions l)
  have hgr : ∀ (k : Nat) (l : List (List Nat)) (s1 : State (Ext K)),
      CrfPrudent s1 (.gradient (ord k) (visit k) (sched k) l info.threads) := by
    intro k l s1
    refine ⟨?_, nofun, nofun, nofun⟩
    intro he
    have : info.threads = 0 := Option.some.inj he
    omega
  have key := (Session.always (P := fun s1 => CrfReach CrfPrudent src vo copy { c with state := s1 } ∧
    State.Training c.state s1) ?_ ?_ ?_ hx ⟨hc, ht⟩).1
  · intro s1 l g he
    obtain ⟨⟨h1, h2⟩, k, h3, h4⟩ := key s1 l g he
    have hO := hObs s1 h1
    exact ⟨h1, h2, hobs s1 h1, hO, fun v => by unfold State.Hidden; rw [hO, h2.same.vars], k, h3, h4⟩
  · rintro ws s1 s2 ⟨h1, h2⟩ h4
    refine ⟨.ok (c := { c with state := s1 }) (op := .shared (.setWeights ws)) h1 ⟨rfl, trivial, trivial⟩ ⟨nofun, nofun, nofun, ?_⟩ h4,
      (h2.setWeights h4).1⟩
    intro ws' _ t htm b hb f v n hf hv _
    right
    have hcl : t.map BaseTuner.factor ∈ c.state.tunableClusters := by
      rw [← h2.same.clusters]; exact List.mem_map_of_mem htm
    have hon : s1.FactorOn b.factor [v] := ⟨h2.weighted.reg _ (h2.weighted.mem htm hb), f, hf, hv⟩
    obtain ⟨w, ⟨q, hq⟩, hw2⟩ := hr _ hcl _ (List.mem_map_of_mem hb) v ((h2.same.factorOn hw).mp hon)
    exact ⟨w, ⟨q, hq.imp (h2.same.factorOn hw).mpr (h2.same.factorOn hw).mpr⟩, (hObs s1 h1 w).mpr hw2⟩
  · rintro k l s1 s2 g ⟨h1, h2⟩ _ h4
    refine ⟨.ok (c := { c with state := s1 }) (op := .gradient (ord k) (visit k) (sched k) l info.threads) h1
      ⟨hord k, hvis k, hsched k⟩ (hgr k l s1) (by
        show GOp.drop _ s1 = _
        unfold GOp.drop
        rw [h4]), h2.mild ((State.mildAt_cases (hm k l s1 h2)).1 _ _ h4)⟩
  · rintro k l s1 s2 ⟨h1, h2⟩ _ h4
    refine ⟨.throw (c := { c with state := s1 }) (op := .gradient (ord k) (visit k) (sched k) l info.threads) h1
      ⟨hord k, hvis k, hsched k⟩ (hgr k l s1) (by
        show GOp.drop _ s1 = _
        unfold GOp.drop
        rw [h4]), h2.mild ((State.mildAt_cases (hm k l s1 h2)).2 _ h4)⟩

/-- C51: the same for a conditional random field whose hidden variables are joined without cycles; the gradient is that of
the conditional likelihood of the batch.

Missing: every variable with a tunable factor of its own must be joined to an observed one, since otherwise the product
of its factors is not computed again (`C50_stale_violated`); the batch must not be empty; the conditions of C50 on the
positions and on the symmetry. -/
theorem C51_crf_gradient_partial {src : State (Ext K)} (h : Reach Prudent src) {vo : VisitOrder} (ho : vo.Perms) {copy : Bool}
    {c : Crf (Ext K)} (hc : CrfReach CrfPrudent src vo copy c)
    (hr : ∀ e ∈ c.state.tunableClusters, ∀ p ∈ e, ∀ v, c.state.FactorOn p [v] → ∃ w, c.state.Joins v w ∧ c.state.Observes w)
    (hord : ∀ k l, (ord k l).Perm l) (hvis : ∀ k l, (visit k l).Perm l) (hsched : ∀ k l, (sched k l).Perm l)
    (hal : ∀ k, c.state.Aligned (visit k) c.positions) (hn : 1 ≤ info.threads)
    (hset : ∀ x ∈ set, Valid (c.state.vars.map Var.size) x) (htree : ∀ v, c.state.Hidden v → c.state.TreeAt v)
    {hs : List Var} (hln : hs.Nodup) (hl : ∀ w, w ∈ hs ↔ c.state.Hidden w)
    {es : List (Event (Ext K))} {o : Out (State (Ext K)) Unit}
    (hx : CrfSession cv floorInt draw ord visit sched c.positions set info opt c.state es o) {s1 : State (Ext K)}
    {l : List (List Nat)} {g : Option (List (Ext K))} (he : .gradient s1 l g ∈ es) (hne : l ≠ []) {φ ρ : Nat → Assign → K}
    (hφ : s1.Images φ) (hρ : s1.RawImages ρ) (hy : s1.Symmetric φ) (hpos : ∀ x ∈ l, s1.Possible φ x) :
    (∀ x ∈ l, x ∈ set) ∧ g = some ((s1.conditionalGradient φ ρ l hs).map .val) := by
  obtain ⟨h1, h2, hobs, hO, hH, k, h3, h4⟩ := State.crf_states h ho hc hr hord hvis hsched hn hx s1 l g he
  have hmem := batch_mem h3
  obtain ⟨s', h5⟩ := C50_gradient_partial h ho h1 (hord k) (hvis k) (hsched k) (by
      intro i v hv
      have e : s1.evidences.map Prod.fst = c.state.evidences.map Prod.fst := hobs
      show c.positions[i]? = some (s1.vars.idxOf v)
      rw [h2.same.vars]
      exact hal k i v (by rw [← e]; exact hv)) hne
    (fun x hx => by
      show Valid (s1.vars.map Var.size) x
      rw [h2.same.vars]; exact hset x (hmem x hx)) hn hφ hρ hy
    (fun v hv => State.treeAt_congr (s := c.state) (t := s1) h2.same.vars
      (fun p l => h2.same.factorOn (State.crf_weighted h ho hc)) hO
      (htree v ((hH v).mp hv))) hpos hln (fun w => (hl w).trans (hH w).symm)
  exact ⟨hmem, h4 _ _ h5⟩

end

/-- C51: with the exact exponential, the optimiser of a random field gets the opposite of the derivative of the average
log-likelihood of the batch, with respect to the weights, at the weights which were set last. Partial for the same
reasons as `C51_gradient_partial`; the samples must have a positive weight. -/
theorem C51_derivative_partial [FloatParams ℝ] (hexp : ∀ x : ℝ, FloatParams.expK x = Real.exp x) {D : Type}
    {cv : Doubles (Ext ℝ) D} {floorInt : Ext ℝ → Option Int} {draw : Nat → Nat → Nat} {ord : Nat → List Var → List Var}
    {sched : Nat → Sched} {set : List (List Nat)} {info : TrainInfo (Ext ℝ)} {opt : Optimiser D} {s : State (Ext ℝ)}
    (h : Reach (fun s op => Prudent s op ∧ Steady s op) s) (hj : JoinsOnly s)
    (hord : ∀ k l, (ord k l).Perm l) (hsched : ∀ k l, (sched k l).Perm l) (hn : 1 ≤ info.threads)
    (hset : ∀ c ∈ set, Valid (s.vars.map Var.size) c) (htree : ∀ v ∈ s.vars, s.unconditioned.TreeAt v)
    {es : List (Event (Ext ℝ))} {o : Out (State (Ext ℝ)) Unit}
    (hx : FieldSession cv floorInt draw ord sched set info opt s es o) {ws : List (Ext ℝ)} (hws : s.getWeights = .ok ws)
    {pre post : List (Event (Ext ℝ))} {s1 : State (Ext ℝ)} {l : List (List Nat)}
    {g : Option (List (Ext ℝ))} (he : es = pre ++ .gradient s1 l g :: post) (hne : l ≠ []) {φ ρ : Nat → Assign → ℝ}
    (hφ : s1.Images φ) (hρ : s1.RawImages ρ) (hy : s1.unconditioned.Symmetric φ)
    (hpos : ∀ c ∈ l, s1.weight φ (s1.sampleAt c) ≠ 0) {xs : List ℝ} (hxs : weightsAfter ws pre = xs.map .val) :
    ∃ d : List ℝ, g = some (d.map .val) ∧ d.length = xs.length ∧ ∀ k x y, xs[k]? = some x → d[k]? = some y →
      HasDerivAt (fun z => State.logLikelihood l (s1.reweighed (xs.set k z))) y x := by
  obtain ⟨h1, h2, k, h3, h4⟩ := State.field_states h hj hord hsched hn hx s1 l g (by rw [he]; simp)
  have hmem := batch_mem h3
  have htr := State.Training.trained ⟨reach_inv h, (reach_healthy (Ex.Reach.mono (fun _ _ h => h.1) h)).pool,
    (reach_tuned h).weighted, .rfl' s⟩ (fun k l => State.gradient_mildly (hord k) (sched k) l) hn hws hx
  have hw := (htr.asked _ _ _ _ _ he).2
  rw [hxs] at hw
  obtain ⟨s', d, h5, h6, h7⟩ := C41_derivative_partial hexp h1 (hord k) (hsched k) hne
    (fun c hc => by rw [h2.same.vars]; exact hset c (hmem c hc)) hn hφ hρ hy
    (fun v hv => State.treeAt_congr (s := s.unconditioned) (t := s1.unconditioned) h2.same.vars
      (fun p l => h2.same.factorOn (reach_tuned h).weighted)
      (fun v => by simp [State.unconditioned, State.Observes]) (htree v (by rw [← h2.same.vars]; exact hv))) hpos hw
  exact ⟨d, h4 _ _ h5, h6, h7⟩

/-- C51: with the exact exponential, the optimiser of a conditional random field gets the opposite of the derivative of
the average conditional log-likelihood of the batch. Partial for the same reasons as `C51_crf_gradient_partial`. -/
theorem C51_crf_derivative_partial [FloatParams ℝ] (hexp : ∀ x : ℝ, FloatParams.expK x = Real.exp x) {D : Type}
    {cv : Doubles (Ext ℝ) D} {floorInt : Ext ℝ → Option Int} {draw : Nat → Nat → Nat} {ord visit : Nat → List Var → List Var}
    {sched : Nat → Sched} {set : List (List Nat)} {info : TrainInfo (Ext ℝ)} {opt : Optimiser D} {src : State (Ext ℝ)}
    (h : Reach Prudent src) {vo : VisitOrder} (ho : vo.Perms) {copy : Bool}
    {c : Crf (Ext ℝ)} (hc : CrfReach CrfPrudent src vo copy c)
    (hr : ∀ e ∈ c.state.tunableClusters, ∀ p ∈ e, ∀ v, c.state.FactorOn p [v] → ∃ w, c.state.Joins v w ∧ c.state.Observes w)
    (hord : ∀ k l, (ord k l).Perm l) (hvis : ∀ k l, (visit k l).Perm l) (hsched : ∀ k l, (sched k l).Perm l)
    (hal : ∀ k, c.state.Aligned (visit k) c.positions) (hn : 1 ≤ info.threads)
    (hset : ∀ x ∈ set, Valid (c.state.vars.map Var.size) x) (htree : ∀ v, c.state.Hidden v → c.state.TreeAt v)
    {hs : List Var} (hln : hs.Nodup) (hl : ∀ w, w ∈ hs ↔ c.state.Hidden w)
    {es : List (Event (Ext ℝ))} {o : Out (State (Ext ℝ)) Unit}
    (hx : CrfSession cv floorInt draw ord visit sched c.positions set info opt c.state es o)
    {ws : List (Ext ℝ)} (hws : c.state.getWeights = .ok ws) {pre post : List (Event (Ext ℝ))} {s1 : State (Ext ℝ)}
    {l : List (List Nat)} {g : Option (List (Ext ℝ))} (he : es = pre ++ .gradient s1 l g :: post) (hne : l ≠ [])
    {φ ρ : Nat → Assign → ℝ} (hφ : s1.Images φ) (hρ : s1.RawImages ρ) (hy : s1.Symmetric φ)
    (hpos : ∀ x ∈ l, s1.weight φ (s1.sampleAt x) ≠ 0) {xs : List ℝ} (hxs : weightsAfter ws pre = xs.map .val) :
    ∃ d : List ℝ, g = some (d.map .val) ∧ d.length = xs.length ∧ ∀ k x y, xs[k]? = some x → d[k]? = some y →
      HasDerivAt (fun z => State.conditionalLogLikelihood l hs (s1.reweighed (xs.set k z))) y x := by
  obtain ⟨h1, h2, hobs, hO, hH, k, h3, h4⟩ := State.crf_states h ho hc hr hord hvis hsched hn hx s1 l g (by rw [he]; simp)
  have hmem := batch_mem h3
  obtain ⟨_, _, _, hi, _⟩ := State.crf_reach h ho hc
  have htr := State.Training.trained ⟨hi, (State.crf_half h ho hc).pool, State.crf_weighted h ho hc, .rfl' _⟩
    (fun k l => State.crfGradient_mildly (hord k) (hvis k) (sched k) c.positions l) hn hws hx
  have hw := (htr.asked _ _ _ _ _ he).2
  rw [hxs] at hw
  obtain ⟨s', d, h5, h6, h7⟩ := C50_derivative_partial hexp h ho h1 (hord k) (hvis k) (hsched k) (by
      intro i v hv
      have e : s1.evidences.map Prod.fst = c.state.evidences.map Prod.fst := hobs
      show c.positions[i]? = some (s1.vars.idxOf v)
      rw [h2.same.vars]
      exact hal k i v (by rw [← e]; exact hv)) hne
    (fun x hx => by
      show Valid (s1.vars.map Var.size) x
      rw [h2.same.vars]; exact hset x (hmem x hx)) hn hφ hρ hy
    (fun v hv => State.treeAt_congr (s := c.state) (t := s1) h2.same.vars
      (fun p l => h2.same.factorOn (State.crf_weighted h ho hc)) hO
      (htree v ((hH v).mp hv))) hpos hln (fun w => (hl w).trans (hH w).symm) hw
  exact ⟨d, h4 _ _ h5, h6, h7⟩

/-- C51: the batch of a gradient: all the samples if the percentage is 1, otherwise as many as the percentage of the size
of the set, rounded down, all of them samples of the set.

Missing: with less than one sample the batch is empty, and the gradient is not refused (`C51_empty_violated`). -/
theorem C51_batch_partial {K : Type} [Field K] [LinearOrder K] [IsStrictOrderedRing K] [FloatParams K] [FloorRing K]
    {set : List (List Nat)} (hset : makeTrainSet set = .ok set) {p : K} (h0 : 0 < p) (h1 : p ≤ 1) (draw : Nat → Nat) :
    ∃ l, batch Ext.floorInt set (.val p) draw = .ok l ∧ (l.length : Int) = ⌊p * set.length⌋ ∧ (∀ c ∈ l, c ∈ set) ∧
      (p = 1 → l = set) := by
  rcases h1.eq_or_lt with rfl | h1
  · refine ⟨set, ?_, by simp, fun _ h => h, fun _ => rfl⟩
    unfold batch
    simp
  · obtain ⟨l, k1, k2, k3, _⟩ := C39_subset_partial hset h0 h1 draw
    refine ⟨l, ?_, k2, k3, fun h => absurd h h1.ne⟩
    unfold batch
    rw [if_pos (by simp [h1.ne'])]
    exact k1

/-- C51 is violated by a percentage which is not a number: the first request of a gradient is undefined. -/
theorem C51_nan_violated {K D : Type} [Field K] [LinearOrder K] [IsStrictOrderedRing K] [FloatParams K] [FloorRing K]
    {cv : Doubles (Ext K) D} {draw : Nat → Nat → Nat} {grad : Nat → List (List Nat) → M (State (Ext K)) (List (Ext K))}
    {next : Option (List D) → Optimiser D} {set : List (List Nat)} {n : Nat} {s : State (Ext K)} (hp : s.pool = some 1)
    (hn : 1 ≤ n) : State.trainModel cv Ext.floorInt draw grad (.gradient next) set ⟨n, .nan⟩ s = .ub := by
  unfold State.trainModel
  rw [State.withPool_leave hn hp]
  rfl

/-! ### Examples and violations -/

namespace Ex

/-- Doubles are as precise as floats here. -/
def exact : Doubles (Ext ℚ) (Ext ℚ) := ⟨id, id, fun x => Arith.sub Arith.zero x⟩

/-- Two steps of the descent of the gradient, and one more gradient. -/
def descent : Optimiser (Ext ℚ) :=
  .parameters fun w => .gradient fun g => .set (w.zipWith Arith.sub (g.getD [])) fun _ => .gradient fun _ => .stop

/-- The weight is set to 2 between two gradients. -/
def toTwo : Optimiser (Ext ℚ) := .gradient fun _ => .set [.val 2] fun _ => .gradient fun _ => .stop

/-- Samples cannot be drawn: then a weight is set. -/
def stubborn : Optimiser (Ext ℚ) := .gradient fun g => match g with
  | none => .set [.val 7] fun _ => .fail
  | some _ => .stop

theorem ask_next {l : List (List Nat)} {s : State (Ext ℚ)} {g : List (Ext ℚ)}
    (h : answer (State.getWeightsGradient rev id l 1 s) = some g) :
    State.getWeightsGradient rev id l 1 s = .ok ((TAct.askGradient l).next s) g := by
  obtain ⟨s', h1⟩ := of_answer h
  rw [h1]
  unfold TAct.next
  show _ = Out.ok (match GOp.drop (State.getWeightsGradient rev id l 1) s with | .ok s' _ => s' | .throw s' => s' | .ub => s) g
  unfold GOp.drop
  rw [h1]

theorem weights_next {ws : List ℚ} {s : State (Ext ℚ)} (h : answer (State.setWeights (ws.map Ext.val) s) = some ()) :
    State.setWeights (ws.map Ext.val) s = .ok ((TAct.weights ws).next s) () := by
  obtain ⟨s', h1⟩ := of_answer h
  rw [h1]
  unfold TAct.next
  show _ = Out.ok (match State.setWeights (ws.map Ext.val) s with | .ok s' _ => s' | .throw s' => s' | .ub => s) ()
  rw [h1]

theorem runT_snoc (as : List TAct) (a : TAct) : ∀ s, runT (as ++ [a]) s = a.next (runT as s) := by
  induction as with
  | nil => intro s; rfl
  | cons b as ih => intro s; exact ih _

/-- X and Y joined by a tunable factor. -/
def duo : State (Ext ℚ) := afterT [.tune 1 none]

/-- The model after the first step. -/
def duo' : State (Ext ℚ) := (TAct.weights [13 / 6]).next ((TAct.askGradient [[0, 1]]).next duo)

theorem duo_steady : Reach (fun s op => Prudent s op ∧ Steady s op) duo := afterT_steady _ (by decide +kernel)

theorem duo_joins : JoinsOnly duo := by
  have h1 : duo.tunableClusters = [[1]] := by decide +kernel
  have h2 : duo.heap = heapT := by decide +kernel
  have h3 : duo.factors = [1] := by decide +kernel
  have h4 : duo.evidences = [] := by decide +kernel
  generalize duo = s at *
  intro c hc p hp
  rw [h1] at hc
  cases List.mem_singleton.mp hc
  cases List.mem_singleton.mp hp
  refine ⟨X, Y, ⟨by rw [h3]; simp, expo (bin X Y 0 1 1 0) 2, by rw [h2]; rfl, by decide +kernel⟩, ?_⟩
  unfold State.Observes
  rw [h4]
  simp

/-- What two steps of the training on the sample (0, 1) do: the first gradient is 1/6, and the weight becomes 13/6. -/
theorem duo_session : FieldSession exact Ext.floorInt (fun _ => id) (fun _ => rev) (fun _ => id) [[0, 1]] ⟨1, .val 1⟩ descent
    duo [.read [.val 2], .gradient duo [[0, 1]] (some [.val (1 / 6)]), .set [.val (13 / 6)],
      .gradient duo' [[0, 1]] (some [.val (36 / 241)])]
    (.ok ((TAct.askGradient [[0, 1]]).next duo') ()) := by
  have hb : ∀ k : Nat, batch Ext.floorInt [[0, 1]] (.val (1 : ℚ)) ((fun _ => id : Nat → Nat → Nat) k) = .ok [[0, 1]] := fun k => by
    unfold batch; simp
  have e : List.zipWith Arith.sub (List.map exact.widen [Ext.val (2 : ℚ)])
      ((some (List.map (fun x => exact.neg (exact.widen x)) [Ext.val (1 / 6)])).getD []) = [.val (13 / 6)] := by decide +kernel
  unfold FieldSession descent
  refine Session.read (ws := [Ext.val (2 : ℚ)]) (by decide +kernel) ?_
  refine Session.gradient (hb 0) (ask_next (g := [.val (1 / 6)]) (by decide +kernel)) ?_
  simp only []
  rw [e]
  refine Session.set (w := [Ext.val (13 / 6 : ℚ)]) (weights_next (ws := [13 / 6]) (by decide +kernel)) ?_
  exact Session.gradient (hb 1) (ask_next (g := [.val (36 / 241)]) (by decide +kernel)) .stop

/-- One gradient with half of the set, and nothing else. -/
def once : Optimiser (Ext ℚ) := .gradient fun _ => .stop

/-- The model with a tunable factor of X only. -/
def alone : State (Ext ℚ) := afterT [.tune 0 none]

end Ex

/-- The training of two joined variables is the session above. -/
example : State.trainField Ex.exact Ext.floorInt (fun _ => id) (fun _ => Ex.rev) (fun _ => id) Ex.descent [[0, 1]] ⟨1, .val 1⟩
    Ex.duo = .ok ((Ex.TAct.askGradient [[0, 1]]).next Ex.duo') () := by
  obtain ⟨_, _, h⟩ := C51_calls (cv := Ex.exact) (floorInt := Ext.floorInt) (draw := fun _ => id) (ord := fun _ => Ex.rev)
    (sched := fun _ => id) (set := [[0, 1]]) (info := ⟨1, .val 1⟩) (opt := Ex.descent) Ex.duo_steady
    (reach_healthy (Ex.Reach.mono (fun _ _ h => h.1) Ex.duo_steady)).pool (fun _ => Ex.rev_perm) (Nat.le_refl 1)
  exact (h _ _ Ex.duo_session).2.symm

/-- Its weight is 13/6 afterwards. -/
example : ∃ s' : State (Ext ℚ), State.trainField Ex.exact Ext.floorInt (fun _ => id) (fun _ => Ex.rev) (fun _ => id) Ex.descent
    [[0, 1]] ⟨1, .val 1⟩ Ex.duo = .ok s' () ∧ SameModel Ex.duo s' ∧ s'.getWeights = .ok [.val (13 / 6)] ∧
    s'.pool = some 1 := by
  have hp := (reach_healthy (Ex.Reach.mono (fun _ _ h => h.1) Ex.duo_steady)).pool
  have hw : Ex.duo.getWeights = .ok [.val 2] := by decide +kernel
  obtain ⟨_, _, h⟩ := C51_calls (cv := Ex.exact) (floorInt := Ext.floorInt) (draw := fun _ => id) (ord := fun _ => Ex.rev)
    (sched := fun _ => id) (set := [[0, 1]]) (info := ⟨1, .val 1⟩) (opt := Ex.descent) Ex.duo_steady hp (fun _ => Ex.rev_perm)
    (Nat.le_refl 1)
  obtain ⟨es, h1, h2⟩ := C51_weights (cv := Ex.exact) (floorInt := Ext.floorInt) (draw := fun _ => id) (ord := fun _ => Ex.rev)
    (sched := fun _ => id) (set := [[0, 1]]) (info := ⟨1, .val 1⟩) (opt := Ex.descent) Ex.duo_steady hp (fun _ => Ex.rev_perm)
    (Nat.le_refl 1) hw
  have h3 := h _ _ Ex.duo_session
  rw [(h _ _ h1).1, ← h3.1, ← h3.2] at h2
  obtain ⟨k1, k2, k3⟩ := h2.left _ (.inl rfl)
  exact ⟨_, h3.2.symm, k1, k2, k3.trans hp⟩

/-- The second gradient is the one of the model with the weight 13/6. -/
example : (36 / 241 : ℚ) = Ex.duo'.sampleMean [[0, 1]] (State.statistic (Ex.raw Ex.duo'.heap) [1]) -
    Ex.duo'.modelMean (Ex.img Ex.duo'.heap) (State.statistic (Ex.raw Ex.duo'.heap) [1]) := by
  have hx := Ex.duo_session
  have hv0 : Ex.duo.vars = [Ex.X, Ex.Y] := by decide +kernel
  have hi : Ex.duo'.factors.all (Ex.okAll Ex.duo'.vars Ex.isImg Ex.duo'.heap) = true := by decide +kernel
  have hr : Ex.duo'.tunables.all (Ex.okAll Ex.duo'.vars Ex.isRaw Ex.duo'.heap) = true := by decide +kernel
  have hs : Ex.symmetricOk Ex.duo'.unconditioned = true := by decide +kernel
  have hv : Ex.duo'.vars = [Ex.X, Ex.Y] := by decide +kernel
  have hc : Ex.duo'.tunableClusters = [[1]] := by decide +kernel
  have hw : Ex.duo'.weight (Ex.img Ex.duo'.heap) (fun _ => 0) ≠ 0 := by decide +kernel
  have ht : ∀ v, Ex.duo.unconditioned.TreeAt v := Ex.two_tree (by simp only [State.unconditioned]; rw [hv0]; simp)
  generalize Ex.duo' = s1 at *
  obtain ⟨_, h⟩ := C51_gradient_partial Ex.duo_steady Ex.duo_joins (fun _ => Ex.rev_perm) (fun _ l => .refl l)
    (Nat.le_refl 1) (by rw [hv0]; intro c hc; fin_cases hc; exact .cons (by decide) (.cons (by decide) .nil))
    (fun v _ => ht v) hx (s1 := s1) (l := [[0, 1]]) (g := some [.val (36 / 241)]) (by simp) (by simp)
    (Ex.img_images hi) (Ex.raw_images hr) (Ex.symmetric_of (s := s1.unconditioned) hs)
    ⟨fun _ => 0, by rw [State.InRange, hv]; decide, hw⟩
  rw [hc] at h
  simpa using h

/-- 1/2 of three samples: one of them. -/
example : ∃ l, batch Ext.floorInt [[0, 1], [1, 1], [0, 0]] (.val (1 / 2 : ℚ)) (fun k => 7 * k + 1) = .ok l ∧
    (l.length : Int) = ⌊(1 / 2 : ℚ) * 3⌋ ∧ ∀ c ∈ l, c ∈ [[0, 1], [1, 1], [0, 0]] := by
  obtain ⟨l, h1, h2, h3, _⟩ := C51_batch_partial (K := ℚ) (set := [[0, 1], [1, 1], [0, 0]]) rfl (p := 1 / 2) (by norm_num)
    (by norm_num) (fun k => 7 * k + 1)
  exact ⟨l, h1, h2, h3⟩

/-- The percentage 3/2: the optimiser is told that the gradient threw, sets the weight 7 and throws. -/
example : ∃ es, FieldSession Ex.exact Ext.floorInt (fun _ => id) (fun _ => Ex.rev) (fun _ => id) [[0, 1]] ⟨1, .val (3 / 2)⟩
    Ex.stubborn Ex.duo es (.throw ((Ex.TAct.weights [7]).next Ex.duo)) ∧ es = [.noSamples, .set [.val 7]] ∧
    ∀ s1 l g, .gradient s1 l g ∉ es := by
  have hx : FieldSession Ex.exact Ext.floorInt (fun _ => id) (fun _ => Ex.rev) (fun _ => id) [[0, 1]] ⟨1, .val (3 / 2)⟩
      Ex.stubborn Ex.duo [.noSamples, .set [.val 7]] (.throw ((Ex.TAct.weights [7]).next Ex.duo)) := by
    refine Session.noSamples ?_ (Session.set (w := [Ext.val (7 : ℚ)]) (Ex.weights_next (ws := [7]) (by decide +kernel)) .fail)
    have : batch Ext.floorInt [[0, 1]] (.val (3 / 2 : ℚ)) id = .throw := by
      unfold batch
      rw [if_pos (by decide +kernel)]
      exact C39_refused_partial _ (.inr (by norm_num)) _
    exact this
  exact ⟨_, hx, rfl, C51_percentage (info := ⟨1, .val (3 / 2)⟩) (by decide +kernel) (.inr (by decide +kernel)) hx⟩

example : State.trainField Ex.exact Ext.floorInt (fun _ => id) (fun _ => Ex.rev) (fun _ => id) Ex.descent [[0, 1]] ⟨0, .val 1⟩
    Ex.duo = .throw { Ex.duo with pool := none } :=
  C51_threads_violated (reach_healthy (Ex.Reach.mono (fun _ _ h => h.1) Ex.duo_steady)).pool rfl

example : State.trainField Ex.exact Ext.floorInt (fun _ => id) (fun _ => Ex.rev) (fun _ => id) Ex.stubborn [[0, 1]] ⟨2, .nan⟩
    Ex.duo = .ub :=
  C51_nan_violated (reach_healthy (Ex.Reach.mono (fun _ _ h => h.1) Ex.duo_steady)).pool (by omega)

/-- C51 is violated by a percentage of less than one sample: the gradient is computed for no samples at all, and is the
opposite of the expectation. Here the derivative for the only sample of the set is 1/6, and the optimiser gets 5/6 instead
of -1/6: the training goes away from the sample, whatever the random numbers are. -/
theorem C51_empty_violated (draw : Nat → Nat → Nat) : ∃ (s : State (Ext ℚ)) (es : List (Event (Ext ℚ))),
    Reach (fun s op => Prudent s op ∧ Steady s op) s ∧ JoinsOnly s ∧
    FieldSession Ex.exact Ext.floorInt draw (fun _ => Ex.rev) (fun _ => id) [[0, 1]] ⟨1, .val (1 / 2)⟩ Ex.once s es
      (State.trainField Ex.exact Ext.floorInt draw (fun _ => Ex.rev) (fun _ => id) Ex.once [[0, 1]] ⟨1, .val (1 / 2)⟩ s) ∧
    .gradient s [] (some [.val (-5 / 6)]) ∈ es ∧ s.tunableClusters = [[1]] ∧
    s.sampleMean [[0, 1]] (State.statistic (Ex.raw s.heap) [1]) -
      s.modelMean (Ex.img s.heap) (State.statistic (Ex.raw s.heap) [1]) = 1 / 6 := by
  have hp := (reach_healthy (Ex.Reach.mono (fun _ _ h => h.1) Ex.duo_steady)).pool
  obtain ⟨es, h1, h2⟩ := C51_calls (cv := Ex.exact) (floorInt := Ext.floorInt) (draw := draw) (ord := fun _ => Ex.rev)
    (sched := fun _ => id) (set := [[0, 1]]) (info := ⟨1, .val (1 / 2)⟩) (opt := Ex.once) Ex.duo_steady hp (fun _ => Ex.rev_perm)
    (Nat.le_refl 1)
  have hb : batch Ext.floorInt [[0, 1]] (.val (1 / 2 : ℚ)) (draw 0) = .ok [] := by
    obtain ⟨l, k1, k2, _⟩ := C51_batch_partial (K := ℚ) (set := [[0, 1]]) rfl (p := 1 / 2) (by norm_num) (by norm_num) (draw 0)
    have : ⌊(1 / 2 : ℚ) * (([[0, 1]] : List (List Nat)).length : ℕ)⌋ = 0 := by decide +kernel
    rw [this] at k2
    have : l = [] := List.eq_nil_of_length_eq_zero (by omega)
    rw [k1, this]
  have hx : FieldSession Ex.exact Ext.floorInt draw (fun _ => Ex.rev) (fun _ => id) [[0, 1]] ⟨1, .val (1 / 2)⟩ Ex.once Ex.duo
      [.gradient Ex.duo [] (some [.val (-5 / 6)])] (.ok ((Ex.TAct.askGradient []).next Ex.duo) ()) :=
    Session.gradient hb (Ex.ask_next (g := [.val (-5 / 6)]) (by decide +kernel)) .stop
  refine ⟨Ex.duo, es, Ex.duo_steady, Ex.duo_joins, h1, ?_, by decide +kernel, by decide +kernel⟩
  rw [← (h2 _ _ hx).1]
  simp

/-- C51 is violated by a tunable factor of one variable: the product of the factors of X is computed for the first gradient
and kept when the weight is changed. With the weight 2 the derivative is 1/6, and the optimiser gets -1/3, as with the
weight 1. -/
theorem C51_stale_violated : ∃ (s s1 : State (Ext ℚ)) (es : List (Event (Ext ℚ))),
    Reach (fun s op => Prudent s op ∧ Steady s op) s ∧
    FieldSession Ex.exact Ext.floorInt (fun _ => id) (fun _ => Ex.rev) (fun _ => id) [[1]] ⟨1, .val 1⟩ Ex.toTwo s es
      (State.trainField Ex.exact Ext.floorInt (fun _ => id) (fun _ => Ex.rev) (fun _ => id) Ex.toTwo [[1]] ⟨1, .val 1⟩ s) ∧
    es = [.gradient s [[1]] (some [.val (1 / 3)]), .set [.val 2], .gradient s1 [[1]] (some [.val (1 / 3)])] ∧
    s1.getWeights = .ok [.val 2] ∧ s1.tunableClusters = [[0]] ∧ s1.Images (Ex.img s1.heap) ∧
    s1.RawImages (Ex.raw s1.heap) ∧ s1.unconditioned.Symmetric (Ex.img s1.heap) ∧
    (∀ v ∈ s1.vars, s1.unconditioned.TreeAt v) ∧
    s1.sampleMean [[1]] (State.statistic (Ex.raw s1.heap) [0]) -
      s1.modelMean (Ex.img s1.heap) (State.statistic (Ex.raw s1.heap) [0]) = 1 / 6 := by
  have hr : Reach (fun s op => Prudent s op ∧ Steady s op) Ex.alone := Ex.afterT_steady _ (by decide +kernel)
  have hp := (reach_healthy (Ex.Reach.mono (fun _ _ h => h.1) hr)).pool
  have hb : ∀ k : Nat, batch Ext.floorInt [[1]] (.val (1 : ℚ)) ((fun _ => id : Nat → Nat → Nat) k) = .ok [[1]] := fun k => by
    unfold batch; simp
  obtain ⟨es, h1, h2⟩ := C51_calls (cv := Ex.exact) (floorInt := Ext.floorInt) (draw := fun _ => id) (ord := fun _ => Ex.rev)
    (sched := fun _ => id) (set := [[1]]) (info := ⟨1, .val 1⟩) (opt := Ex.toTwo) hr hp (fun _ => Ex.rev_perm)
    (Nat.le_refl 1)
  have hx : FieldSession Ex.exact Ext.floorInt (fun _ => id) (fun _ => Ex.rev) (fun _ => id) [[1]] ⟨1, .val 1⟩ Ex.toTwo Ex.alone
      [.gradient Ex.alone [[1]] (some [.val (1 / 3)]), .set [.val 2],
        .gradient ((Ex.TAct.weights [2]).next ((Ex.TAct.askGradient [[1]]).next Ex.alone)) [[1]] (some [.val (1 / 3)])]
      (.ok ((Ex.TAct.askGradient [[1]]).next ((Ex.TAct.weights [2]).next ((Ex.TAct.askGradient [[1]]).next Ex.alone))) ()) := by
    refine Session.gradient (hb 0) (Ex.ask_next (g := [.val (1 / 3)]) (by decide +kernel)) ?_
    refine Session.set (w := [Ext.val (2 : ℚ)]) (Ex.weights_next (ws := [2]) (by decide +kernel)) ?_
    exact Session.gradient (hb 1) (Ex.ask_next (g := [.val (1 / 3)]) (by decide +kernel)) .stop
  refine ⟨Ex.alone, _, es, hr, h1, (h2 _ _ hx).1.symm, by decide +kernel, by decide +kernel, Ex.img_images (by decide +kernel),
    Ex.raw_images (by decide +kernel), Ex.symmetric_of (s := State.unconditioned _) (by decide +kernel),
    fun v _ => Ex.two_tree (by decide +kernel) v, by decide +kernel⟩

namespace Ex

theorem crf_next {visit : List Var → List Var} {l : List (List Nat)} {c : Crf (Ext ℚ)} {g : List (Ext ℚ)}
    (h : answer (State.getCrfGradient rev visit id c.positions l 1 c.state) = some g) :
    State.getCrfGradient rev visit id c.positions l 1 c.state = .ok (crfStep (.gradient rev visit id l 1) c).state g := by
  obtain ⟨s', h1⟩ := of_answer h
  rw [h1]
  unfold crfStep
  have : CrfOp.exec c.positions (.gradient rev visit id l 1) c.state = .ok s' () := by
    show GOp.drop _ _ = _
    unfold GOp.drop
    rw [h1]
  rw [this]

theorem crf_weights_next {ws : List (Ext ℚ)} {c : Crf (Ext ℚ)} (h : answer (State.setWeights ws c.state) = some ()) :
    State.setWeights ws c.state = .ok (crfStep (.shared (.setWeights ws)) c).state () := by
  obtain ⟨s', h1⟩ := of_answer h
  rw [h1]
  unfold crfStep
  have : CrfOp.exec c.positions (.shared (.setWeights ws)) c.state = .ok s' () := h1
  rw [this]

/-- The weights are set to 2 between two gradients. -/
def twoToTwo : Optimiser (Ext ℚ) := .gradient fun _ => .set [.val 2, .val 2] fun _ => .gradient fun _ => .stop

/-- The path X - Y - Z with X and Z observed, as a conditional random field. -/
def ends : Crf (Ext ℚ) := crf forwards endsObs true

/-- The same after the first step. -/
def ends' : Crf (Ext ℚ) :=
  crfStep (.shared (.setWeights [.val 2, .val 2])) (crfStep (.gradient rev rev id [[1, 1, 0]] 1) ends)

theorem ends_reach : CrfReach CrfPrudent endsObs forwards true ends := .made (crf_made (by decide +kernel))

theorem endsObs_prudent : Reach Prudent endsObs := afterT_prudent _ (by decide +kernel)

end Ex

/-- Two steps of its training on the sample (1, 1, 0). -/
theorem Ex.ends_session : CrfSession Ex.exact Ext.floorInt (fun _ => id) (fun _ => Ex.rev) (fun _ => Ex.rev) (fun _ => id)
    Ex.ends.positions [[1, 1, 0]] ⟨1, .val 1⟩ Ex.twoToTwo Ex.ends.state
    [.gradient Ex.ends.state [[1, 1, 0]] (some [.val (-2 / 7), .val (2 / 7)]), .set [.val 2, .val 2],
      .gradient Ex.ends'.state [[1, 1, 0]] (some [.val (-2 / 3), .val (2 / 3)])]
    (.ok (Ex.crfStep (.gradient Ex.rev Ex.rev id [[1, 1, 0]] 1) Ex.ends').state ()) := by
  have hb : ∀ k : Nat, batch Ext.floorInt [[1, 1, 0]] (.val (1 : ℚ)) ((fun _ => id : Nat → Nat → Nat) k) = .ok [[1, 1, 0]] :=
    fun k => by unfold batch; simp
  refine Session.gradient (hb 0) (Ex.crf_next (c := Ex.ends) (g := [.val (-2 / 7), .val (2 / 7)]) (by decide +kernel)) ?_
  refine Session.set (w := [Ext.val (2 : ℚ), .val 2]) (Ex.crf_weights_next (ws := [.val 2, .val 2])
    (c := Ex.crfStep (.gradient Ex.rev Ex.rev id [[1, 1, 0]] 1) Ex.ends) (by decide +kernel)) ?_
  have hp : Ex.ends'.positions = Ex.ends.positions := by decide +kernel
  have h := Ex.crf_next (visit := Ex.rev) (l := [[1, 1, 0]]) (c := Ex.ends') (g := [.val (-2 / 3), .val (2 / 3)])
    (by decide +kernel)
  rw [hp] at h
  exact Session.gradient (hb 1) h .stop

/-- What its training leaves: the weights 2. -/
example : ∃ s' : State (Ext ℚ), State.trainCrf Ex.exact Ext.floorInt (fun _ => id) (fun _ => Ex.rev) (fun _ => Ex.rev)
    (fun _ => id) Ex.ends.positions Ex.twoToTwo [[1, 1, 0]] ⟨1, .val 1⟩ Ex.ends.state = .ok s' () ∧
    SameModel Ex.ends.state s' ∧ s'.getWeights = .ok [.val 2, .val 2] ∧ s'.pool = some 1 := by
  have hp := (State.crf_half Ex.endsObs_prudent Ex.forwards_perms Ex.ends_reach).pool
  have hw : Ex.ends.state.getWeights = .ok [.val 1, .val 3] := by decide +kernel
  obtain ⟨_, _, h⟩ := C51_crf_calls (cv := Ex.exact) (floorInt := Ext.floorInt) (draw := fun _ => id) (ord := fun _ => Ex.rev)
    (visit := fun _ => Ex.rev) (sched := fun _ => id) (set := [[1, 1, 0]]) (info := ⟨1, .val 1⟩) (opt := Ex.twoToTwo)
    Ex.endsObs_prudent Ex.forwards_perms Ex.ends_reach hp (fun _ => Ex.rev_perm) (fun _ => Ex.rev_perm) (Nat.le_refl 1)
  obtain ⟨es, h1, h2⟩ := C51_crf_weights (cv := Ex.exact) (floorInt := Ext.floorInt) (draw := fun _ => id)
    (ord := fun _ => Ex.rev) (visit := fun _ => Ex.rev) (sched := fun _ => id) (set := [[1, 1, 0]]) (info := ⟨1, .val 1⟩)
    (opt := Ex.twoToTwo) Ex.endsObs_prudent Ex.forwards_perms Ex.ends_reach hp (fun _ => Ex.rev_perm) (fun _ => Ex.rev_perm)
    (Nat.le_refl 1) hw
  have h3 := h _ _ Ex.ends_session
  rw [(h _ _ h1).1, ← h3.1, ← h3.2] at h2
  obtain ⟨k1, k2, k3⟩ := h2.left _ (.inl rfl)
  exact ⟨_, h3.2.symm, k1, k2, k3.trans hp⟩

/-- The second gradient is the one of the conditional likelihood with the weights 2. -/
example : [-2 / 3, 2 / 3] = Ex.ends'.state.conditionalGradient (Ex.img Ex.ends'.state.heap) (Ex.raw Ex.ends'.state.heap)
    [[1, 1, 0]] [Ex.Y] := by
  have hx := Ex.ends_session
  have h0 := Ex.regular_of (s := Ex.ends.state) (l := [Ex.Y]) (samples := [[1, 1, 0]]) (by decide +kernel)
  have h1 := Ex.regular_of (s := Ex.ends'.state) (l := [Ex.Y]) (samples := [[1, 1, 0]]) (by decide +kernel)
  have h2 := Ex.symmetric_of (s := Ex.ends'.state) (by decide +kernel)
  have hal := Ex.aligned_of (s := Ex.ends.state) (visit := Ex.rev) (positions := Ex.ends.positions) (by decide +kernel)
  have hc : Ex.ends.state.tunableClusters = [[11], [12]] := by decide +kernel
  have hg : (Ex.ends.state.heap[11]?.map (fun f => f.vars.group)) = some [Ex.Y, Ex.Z] := by decide +kernel
  have hg' : (Ex.ends.state.heap[12]?.map (fun f => f.vars.group)) = some [Ex.Y] := by decide +kernel
  have hf : 11 ∈ Ex.ends.state.factors := by decide +kernel
  have he : Ex.Z ∈ Ex.ends.state.evidences.map Prod.fst := by decide +kernel
  have hr := Ex.ends_reach
  generalize Ex.ends' = c1 at *
  generalize Ex.ends = c at *
  have hon : c.state.FactorOn 11 [Ex.Y, Ex.Z] := by
    cases h : c.state.heap[11]? with
    | none => rw [h] at hg; cases hg
    | some f => rw [h] at hg; exact ⟨hf, f, h, by simpa using hg⟩
  obtain ⟨_, h⟩ := C51_crf_gradient_partial Ex.endsObs_prudent Ex.forwards_perms hr (by
      intro e he' p hp v hv
      obtain ⟨_, f, hf1, hf2⟩ := hv
      rw [hc] at he'
      have : p = 11 ∨ p = 12 := by
        simp only [List.mem_cons, List.not_mem_nil, or_false] at he'
        rcases he' with rfl | rfl <;> simp at hp <;> simp [hp]
      rcases this with rfl | rfl
      · rw [hf1] at hg
        rw [Option.map_some, hf2] at hg
        cases hg
      · rw [hf1] at hg'
        rw [Option.map_some, hf2] at hg'
        cases hg'
        refine ⟨Ex.Z, ⟨11, .inl hon⟩, ?_⟩
        obtain ⟨x, hx1, hx2⟩ := List.mem_map.mp he
        exact ⟨x.2, by rw [← hx2]; exact hx1⟩)
    (fun _ => Ex.rev_perm) (fun _ => Ex.rev_perm) (fun _ l => .refl l) (fun _ => hal) (Nat.le_refl 1) h0.valid h0.tree h0.nodup
    h0.hidden hx (s1 := c1.state) (l := [[1, 1, 0]]) (g := some [.val (-2 / 3), .val (2 / 3)]) (by simp) (by simp)
    h1.images h1.raws h2 h1.possible
  have h := Option.some.inj h
  exact List.map_injective_iff.mpr (fun _ _ h => Ext.val.inj h)
    (show List.map Ext.val [(-2 / 3 : ℚ), 2 / 3] = _ from h)

namespace Ex

attribute [local instance] realParams

/-- One gradient over the reals. -/
def onceReal : Optimiser (Ext ℝ) := .gradient fun _ => .stop

noncomputable def exactReal : Doubles (Ext ℝ) (Ext ℝ) := ⟨id, id, fun x => Arith.sub Arith.zero x⟩

theorem batch_all {l : List (List Nat)} (draw : Nat → Nat) : batch (Ext.floorInt (K := ℝ)) l (.val 1) draw = .ok l := by
  unfold batch
  have h : Arith.eq (Arith.one : Ext ℝ) (.val 1) = true := decide_eq_true (rfl : (1 : ℝ) = 1)
  simp [h]

/-- The training of X and Y joined by an exponential factor with weight 2: the optimiser gets the derivative at 2. -/
example : ∃ d : ℝ, FieldSession exactReal Ext.floorInt (fun _ => id) (fun _ => rev) (fun _ => id) [[0, 0], [0, 1]]
      ⟨1, .val 1⟩ onceReal (linked 2) [.gradient (linked 2) [[0, 0], [0, 1]] (some [.val d])]
      (State.trainField exactReal Ext.floorInt (fun _ => id) (fun _ => rev) (fun _ => id) onceReal [[0, 0], [0, 1]]
        ⟨1, .val 1⟩ (linked 2)) ∧
    HasDerivAt (fun y => State.logLikelihood [[0, 0], [0, 1]] ((linked 2).reweighed [y])) d 2 := by
  obtain ⟨s', d, h1, _⟩ := linked_gradient
  have hr := linked_reach 2
  have hv : (linked 2).vars = [X, Y] := rfl
  have hh : (linked 2).heap = [link 2] := rfl
  have hf : (linked 2).factors = [0] := rfl
  have ht : (linked 2).tunables = [0] := rfl
  have hk : (linked 2).tunableClusters = [[0]] := rfl
  have he : (linked 2).evidences = [] := rfl
  have hw : (linked 2).getWeights = .ok ([2].map .val) := rfl
  have hx : FieldSession exactReal Ext.floorInt (fun _ => id) (fun _ => rev) (fun _ => id) [[0, 0], [0, 1]] ⟨1, .val 1⟩
      onceReal (linked 2) [.gradient (linked 2) [[0, 0], [0, 1]] (some [.val d])] (.ok s' ()) :=
    Session.gradient (batch_all id) h1 .stop
  generalize linked 2 = s at *
  obtain ⟨hi, hi', hpos, hval⟩ := link_facts hv hh hf ht
  obtain ⟨d', h2, h3, h4⟩ := C51_derivative_partial (fun _ => rfl) hr (by
      intro c hc p hp
      rw [hk] at hc
      cases List.mem_singleton.mp hc
      cases List.mem_singleton.mp hp
      refine ⟨X, Y, ⟨by rw [hf]; simp, link 2, by rw [hh]; rfl, rfl⟩, ?_⟩
      unfold State.Observes
      rw [he]
      simp)
    (fun _ => rev_perm) (fun _ l => .refl l) (Nat.le_refl 1) hval
    (fun v _ => two_tree (by simp only [State.unconditioned]; rw [hv]; simp) v) hx hw (pre := []) (post := []) rfl (by simp)
    hi hi' (link_symmetric (s := s.unconditioned) hh hf) (fun c _ => hpos _) (xs := [2]) rfl
  obtain ⟨es, h5, h6⟩ := C51_calls (cv := exactReal) (floorInt := Ext.floorInt) (draw := fun _ => id) (ord := fun _ => rev)
    (sched := fun _ => id) (set := [[0, 0], [0, 1]]) (info := ⟨1, .val 1⟩) (opt := onceReal) hr
    (reach_healthy (Ex.Reach.mono (fun _ _ h => h.1) hr)).pool (fun _ => rev_perm) (Nat.le_refl 1)
  refine ⟨d, by rw [← (h6 _ _ hx).2]; exact hx, ?_⟩
  have hd : d' = [d] := List.map_injective_iff.mpr (fun _ _ h => Ext.val.inj h)
    (show List.map Ext.val d' = List.map Ext.val [d] from (Option.some.inj h2).symm)
  rw [hd] at h4
  exact h4 0 2 d rfl rfl

/-- The same for the conditional random field of X given Y. -/
example : ∃ d : ℝ, CrfSession exactReal Ext.floorInt (fun _ => id) (fun _ => rev) (fun _ => id) (fun _ => id)
      linkedCrf.positions [[0, 0], [0, 1]] ⟨1, .val 1⟩ onceReal linkedCrf.state
      [.gradient linkedCrf.state [[0, 0], [0, 1]] (some [.val d])]
      (State.trainCrf exactReal Ext.floorInt (fun _ => id) (fun _ => rev) (fun _ => id) (fun _ => id) linkedCrf.positions
        onceReal [[0, 0], [0, 1]] ⟨1, .val 1⟩ linkedCrf.state) ∧
    HasDerivAt (fun y => State.conditionalLogLikelihood [[0, 0], [0, 1]] [X] (linkedCrf.state.reweighed [y])) d 2 := by
  obtain ⟨s', d, h1, _⟩ := linkedCrf_gradient
  have hc : CrfReach CrfPrudent linkedObs forwards false linkedCrf := .made linkedCrf_eq
  obtain ⟨hv, hh, hf, ht, he, hp, hw⟩ := linkedCrf_facts
  have hk : linkedCrf.state.tunableClusters = [[0]] := by kernel_rfl
  have hx : CrfSession exactReal Ext.floorInt (fun _ => id) (fun _ => rev) (fun _ => id) (fun _ => id) linkedCrf.positions
      [[0, 0], [0, 1]] ⟨1, .val 1⟩ onceReal linkedCrf.state
      [.gradient linkedCrf.state [[0, 0], [0, 1]] (some [.val d])] (.ok s' ()) :=
    Session.gradient (batch_all id) h1 .stop
  generalize linkedCrf = c at *
  obtain ⟨hi, hi', hpos, hval⟩ := link_facts hv hh hf ht
  obtain ⟨d', h2, h3, h4⟩ := C51_crf_derivative_partial (fun _ => rfl) linkedObs_reach forwards_perms hc (by
      intro e he' p hp' v hv'
      obtain ⟨_, f, hf1, hf2⟩ := hv'
      rw [hk] at he'
      cases List.mem_singleton.mp he'
      cases List.mem_singleton.mp hp'
      rw [hh] at hf1
      cases hf1
      cases hf2)
    (fun _ => rev_perm) (fun _ l => .refl l) (fun _ l => .refl l) (fun _ => link_aligned hv he hp) (Nat.le_refl 1) hval
    (fun v _ => two_tree (by rw [hv]; simp) v) (hs := [X]) (by simp) (link_hidden hv he) hx hw (pre := []) (post := []) rfl
    (by simp) hi hi' (link_symmetric hh hf) (fun c _ => hpos _) (xs := [2]) rfl
  obtain ⟨es, h5, h6⟩ := C51_crf_calls (cv := exactReal) (floorInt := Ext.floorInt) (draw := fun _ => id) (ord := fun _ => rev)
    (visit := fun _ => id) (sched := fun _ => id) (set := [[0, 0], [0, 1]]) (info := ⟨1, .val 1⟩) (opt := onceReal)
    linkedObs_reach forwards_perms hc (State.crf_half linkedObs_reach forwards_perms hc).pool (fun _ => rev_perm)
    (fun _ l => .refl l) (Nat.le_refl 1)
  refine ⟨d, by rw [← (h6 _ _ hx).2]; exact hx, ?_⟩
  have hd : d' = [d] := List.map_injective_iff.mpr (fun _ _ h => Ext.val.inj h)
    (show List.map Ext.val d' = List.map Ext.val [d] from (Option.some.inj h2).symm)
  rw [hd] at h4
  exact h4 0 2 d rfl rfl

end Ex

end EFG
