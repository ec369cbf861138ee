import Verif.Lemmas.TrainDefined
import Verif.Props.Safety
import Verif.Props.Trainer
/-
C62: copies, conditional random fields and the training of models have no undefined behaviour, under the conditions which
the library does not check.
-/

set_option linter.unusedSectionVars false

namespace EFG

section
variable {F : Type} [Arith F]

/-- Copying a model, as a graph or as a field, sharing the factors or cloning them, returns or throws: whatever was
executed before on the source, and whatever the orders in which the containers are visited. -/
theorem C62_copy_defined {allowed : State F → GOp F → Prop} {s : State F} (h : Reach allowed s) {o : VisitOrder}
    (ho : o.Perms) (copy : Bool) :
    State.graphAbsorb o s copy (State.initial s.heap) ≠ .ub ∧ State.fieldAbsorb o s copy (State.initial s.heap) ≠ .ub :=
  ⟨State.graphAbsorb_ne_ub h ho copy, State.fieldAbsorb_ne_ub h ho copy⟩

/-- Making a conditional random field returns or throws, whatever was executed before on the source. -/
theorem C62_make_defined {allowed : State F → GOp F → Prop} {s : State F} (h : Reach allowed s) {o : VisitOrder}
    (ho : o.Perms) (copy : Bool) : Crf.make o s copy ≠ .ub :=
  State.make_ne_ub h ho copy

/-- Every operation of a conditional random field returns or throws: setting the evidences, the gradient, the making of a
training set, queries and sampling, on models with or without cycles.

Partial because the source must be the result of a prudent execution, and because the positions of the evidences, which
are those of the variables of the source, must be positions of values in the samples (`C62_positions_violated`); the
percentages which are not sensible are those of `C45_small_violated`. -/
theorem C62_operations_defined_partial {src : State F} (h : Reach Prudent src) {o : VisitOrder} (ho : o.Perms) {copy : Bool}
    {c : Crf F} {permitted : State F → CrfOp F → Prop} (hth : ∀ s op, permitted s op → op.threads ≠ some 0)
    (hc : CrfReach permitted src o copy c) (hp : c.WithinSamples) {op : CrfOp F} (hv : op.Valid c.state)
    (ht : op.threads ≠ some 0) (hs : op.Sensible c.state) : op.exec c.positions c.state ≠ .ub :=
  ((State.crf_running h ho hth hc).exec hv ht (State.crf_equipped h ho hc) (State.crf_observed h ho hc)).2 hs hp

/-- The positions are within the samples, if the source is one of those which C44 shows to be copied faithfully. -/
theorem C62_positions {allowed : State F → GOp F → Prop} {src : State F} (h : Reach allowed src) {o : VisitOrder}
    (ho : o.Perms) (hcv : src.Covered) (hcl : src.Clustered) (hw : src.EqualWeights) (hu : src.Unambiguous) (hn : src.Named)
    {copy : Bool} {c : Crf F} {permitted : State F → CrfOp F → Prop} (hc : CrfReach permitted src o copy c) :
    c.WithinSamples := by
  obtain ⟨c0, h1, h2, h3, _⟩ := C49_locked h ho hc
  obtain ⟨_, _, _, _, _, _, k6⟩ := State.make_reach ho (reach_inv h) (State.reach_built h) (reach_tuned h)
    (State.reach_registered h) h1
  intro p hp
  rw [h2, k6] at hp
  obtain ⟨v, hv, rfl⟩ := List.mem_map.mp hp
  have hv' : v ∈ src.vars := by
    have := (ho.vars _).mem_iff.mp hv
    rw [(reach_inv h).toCore.observedVariables] at this
    exact (reach_inv h).toCore.obsMem v this
  rcases C44_make_partial h ho hcv hcl hw hu hn copy with ⟨_, c1, r, k1, k2, _⟩ | ⟨_, k1⟩
  · rw [h1] at k1
    cases k1
    have hnd : src.vars.Nodup := (reach_inv h).toCore.net.distinct.nodup
    have hle : src.vars.length ≤ c0.state.vars.length :=
      (hnd.subperm (fun x hx => (k2.vars x).mpr hx)).length_le
    rw [h3]
    exact lt_of_lt_of_le (List.idxOf_lt_length_of_mem hv') hle
  · rw [h1] at k1; cases k1

end

section
variable {F D : Type} [Arith F] {cv : Doubles F D} {floorInt : F → Option Int} {draw : Nat → Nat → Nat}
  {ord visit : Nat → List Var → List Var} {sched : Nat → Sched} {set : List (List Nat)} {info : TrainInfo F}
  {opt : Optimiser D}

/-- The training of a random field returns or throws, whatever the optimiser does. Partial because the execution before it
must be prudent. -/
theorem C62_training_defined_partial {s : State F} (h : Reach Prudent s) (hord : ∀ k l, (ord k l).Perm l)
    (hsched : ∀ k l, (sched k l).Perm l) (hn : 1 ≤ info.threads) (hset : ∀ c ∈ set, Valid (s.vars.map Var.size) c)
    (hi : info.Sensible floorInt set) : State.trainField cv floorInt draw ord sched opt set info s ≠ .ub := by
  have hpool : s.pool = some 1 := (reach_healthy h).pool
  obtain ⟨es, hx, _⟩ := C51_calls (cv := cv) (floorInt := floorInt) (draw := draw) (sched := sched) (set := set) (opt := opt)
    h hpool hord hn
  have hm : ∀ k l (s1 : State F), State.Training s s1 →
      State.MildAt (State.getWeightsGradient (ord k) (sched k) l info.threads) s1 :=
    fun k l s1 h1 => State.withPool_mild hn h1.inv h1.pool (State.gradient_mildly (hord k) (sched k) l)
  have hth : ∀ k l, (GOp.gradient (F := F) (ord k) (sched k) l info.threads).threads ≠ some 0 := by
    intro k l he
    have : info.threads = 0 := Option.some.inj he
    omega
  have hgr : ∀ (k : Nat) (l : List (List Nat)) (s1 : State F),
      (GOp.gradient (F := F) (ord k) (sched k) l info.threads).Valid s1 ∧
      Prudent s1 (.gradient (ord k) (sched k) l info.threads) :=
    fun k l s1 => ⟨⟨⟨hord k, hsched k⟩, trivial⟩, fun _ _ _ _ _ => trivial, hth k l, nofun⟩
  refine Session.ne_ub (P := fun s1 => Reach Prudent s1 ∧ State.Training s s1) ?_ ?_ ?_ ?_ (fun k => batch_ne_ub hi (draw k)) ?_
    hx ⟨h, reach_inv h, hpool, (reach_tuned h).weighted, .rfl' s⟩
  · rintro ws s1 s2 ⟨h1, h2⟩ h3
    exact ⟨.ok (op := .setWeights ws) h1 ⟨trivial, trivial⟩ ⟨fun _ _ hr => hr.elim, nofun, nofun⟩ h3, (h2.setWeights h3).1⟩
  · rintro k l s1 s2 g ⟨h1, h2⟩ _ h3
    exact ⟨.ok (op := .gradient (ord k) (sched k) l info.threads) h1 (hgr k l s1).1 (hgr k l s1).2 (State.drop_ok h3),
      h2.mild ((State.mildAt_cases (hm k l s1 h2)).1 _ _ h3)⟩
  · rintro k l s1 s2 ⟨h1, h2⟩ _ h3
    exact ⟨.throw (op := .gradient (ord k) (sched k) l info.threads) h1 (hgr k l s1).1 (hgr k l s1).2 rfl (State.drop_throw h3),
      h2.mild ((State.mildAt_cases (hm k l s1 h2)).2 _ h3)⟩
  · rintro s1 ⟨_, h2⟩
    exact h2.weighted.getWeights
  · rintro k l s1 ⟨h1, h2⟩ h3
    refine State.ne_ub_of_drop (C52_defined_partial (op := .gradient (ord k) (sched k) l info.threads) h1 (hgr k l s1).1
      (hth k l) (fun c hc => ?_))
    rw [h2.same.vars]
    exact hset c (batch_mem h3 c hc)

/-- The same for a conditional random field. Partial as `C62_operations_defined_partial`. -/
theorem C62_crf_training_defined_partial {src : State F} (h : Reach Prudent src) {o : VisitOrder} (ho : o.Perms) {copy : Bool}
    {c : Crf F} (hc : CrfReach (fun _ op => op.threads ≠ some 0) src o copy c) (hp : c.WithinSamples)
    (hord : ∀ k l, (ord k l).Perm l) (hvis : ∀ k l, (visit k l).Perm l) (hsched : ∀ k l, (sched k l).Perm l)
    (hn : 1 ≤ info.threads) (hset : ∀ x ∈ set, Valid (c.state.vars.map Var.size) x) (hi : info.Sensible floorInt set) :
    State.trainCrf cv floorInt draw ord visit sched c.positions opt set info c.state ≠ .ub := by
  have hR := State.crf_running h ho (fun _ _ h => h) hc
  obtain ⟨es, hx, _⟩ := C51_crf_calls (cv := cv) (floorInt := floorInt) (draw := draw) (sched := sched) (set := set) (opt := opt)
    h ho hc hR.pool hord hvis hn
  have hm : ∀ k l (s1 : State F), State.Training c.state s1 →
      State.MildAt (State.getCrfGradient (ord k) (visit k) (sched k) c.positions l info.threads) s1 :=
    fun k l s1 h1 => State.withPool_mild hn h1.inv h1.pool
      (State.crfGradient_mildly (hord k) (hvis k) (sched k) c.positions l)
  have hth : ∀ k l, (CrfOp.gradient (F := F) (ord k) (visit k) (sched k) l info.threads).threads ≠ some 0 := by
    intro k l he
    have : info.threads = 0 := Option.some.inj he
    omega
  refine Session.ne_ub (P := fun s1 => CrfReach (fun _ op => op.threads ≠ some 0) src o copy { c with state := s1 } ∧
    State.Training c.state s1) ?_ ?_ ?_ ?_ (fun k => batch_ne_ub hi (draw k)) ?_ hx
    ⟨hc, hR.inv, hR.pool, State.crf_weighted h ho hc, .rfl' _⟩
  · rintro ws s1 s2 ⟨h1, h2⟩ h3
    exact ⟨.ok (c := { c with state := s1 }) (op := .shared (.setWeights ws)) h1 ⟨rfl, trivial, trivial⟩ nofun h3,
      (h2.setWeights h3).1⟩
  · rintro k l s1 s2 g ⟨h1, h2⟩ _ h3
    exact ⟨.ok (c := { c with state := s1 }) (op := .gradient (ord k) (visit k) (sched k) l info.threads) h1
      ⟨hord k, hvis k, hsched k⟩ (hth k l) (State.drop_ok h3), h2.mild ((State.mildAt_cases (hm k l s1 h2)).1 _ _ h3)⟩
  · rintro k l s1 s2 ⟨h1, h2⟩ _ h3
    exact ⟨.throw (c := { c with state := s1 }) (op := .gradient (ord k) (visit k) (sched k) l info.threads) h1
      ⟨hord k, hvis k, hsched k⟩ (hth k l) (State.drop_throw h3), h2.mild ((State.mildAt_cases (hm k l s1 h2)).2 _ h3)⟩
  · rintro s1 ⟨_, h2⟩
    exact h2.weighted.getWeights
  · rintro k l s1 ⟨h1, h2⟩ h3
    have hp' : Crf.WithinSamples { c with state := s1 } := fun p hpp => by
      show p < s1.vars.length
      rw [h2.same.vars]; exact hp p hpp
    refine State.ne_ub_of_drop (C62_operations_defined_partial
      (op := .gradient (ord k) (visit k) (sched k) l info.threads) h ho (fun _ _ h => h) h1 hp'
      ⟨hord k, hvis k, hsched k⟩ (hth k l) (fun x hx => ?_))
    show Valid (s1.vars.map Var.size) x
    rw [h2.same.vars]
    exact hset x (batch_mem h3 x hx)

end

namespace Ex

theorem field_prudent : Reach Prudent field := afterT_prudent _ (by decide +kernel)

/-- The field of C43 with Z observed, as a conditional random field. -/
abbrev fieldCrf : Crf (Ext ℚ) := crf backwards field true

theorem fieldCrf_reach {permitted : State (Ext ℚ) → CrfOp (Ext ℚ) → Prop} : CrfReach permitted field backwards true fieldCrf :=
  .made (crf_made (by decide +kernel))

theorem fieldCrf_within : fieldCrf.WithinSamples :=
  C62_positions (permitted := fun _ _ => True) field_inside backwards_perms (covered_of (by decide +kernel))
    (clustered_of (by decide +kernel)) (equalWeights_of field_inside) field_unambiguous (named_of (by decide +kernel))
    fieldCrf_reach

theorem fieldCrf_sizes : fieldCrf.state.vars.map Var.size = [2, 2, 2] := by decide +kernel

/-- A number rounded down. -/
def floorDown : Ext ℚ → Option Nat
  | .val x => some ⌊x⌋.toNat
  | .nan => none

end Ex

/-- The model with an isolated variable, observed, is copied, or the copy throws. -/
example : State.graphAbsorb Ex.backwards (Ex.step (.setEvidence Ex.rev Ex.D 1) Ex.isolated) true
      (State.initial (Ex.step (.setEvidence Ex.rev Ex.D 1) Ex.isolated).heap) ≠ .ub ∧
    Crf.make Ex.backwards (Ex.step (.setEvidence Ex.rev Ex.D 1) Ex.isolated) true ≠ .ub := by
  have hr : Reach anyOp (Ex.step (.setEvidence Ex.rev Ex.D 1) Ex.isolated) :=
    Ex.step_reach Ex.isolated_reach ⟨Ex.rev_perm, trivial⟩ trivial rfl
  exact ⟨(C62_copy_defined hr Ex.backwards_perms true).1, C62_make_defined hr Ex.backwards_perms true⟩

/-- The gradient of the conditional random field for two samples, with three threads. -/
example : (CrfOp.gradient Ex.rev id id [[0, 1, 1], [1, 1, 0]] 3).exec Ex.fieldCrf.positions Ex.fieldCrf.state ≠ .ub := by
  refine C62_operations_defined_partial (permitted := fun _ op => op.threads ≠ some 0) Ex.field_prudent Ex.backwards_perms
    (fun _ _ h => h) Ex.fieldCrf_reach Ex.fieldCrf_within ⟨Ex.rev_perm, fun l => .refl l, fun l => .refl l⟩ (by decide) ?_
  intro c hc
  rw [Ex.fieldCrf_sizes]
  revert c hc
  decide

/-- A training set for half of the combinations of the evidences: one of the two values of Z. -/
example : (CrfOp.trainSet Ex.rev id id Ex.floorDown (fun _ => Ex.coin) Ex.five (.val (1 / 2)) 2).exec Ex.fieldCrf.positions
    Ex.fieldCrf.state ≠ .ub := by
  refine C62_operations_defined_partial (permitted := fun _ op => op.threads ≠ some 0) Ex.field_prudent Ex.backwards_perms
    (fun _ _ h => h) Ex.fieldCrf_reach Ex.fieldCrf_within ⟨Ex.rev_perm, fun l => .refl l, fun l => .refl l⟩ (by decide) ?_
  refine .inr (.inr (.inr ⟨1, ?_, by decide, by decide +kernel⟩))
  have : Ex.fieldCrf.state.evidences.map (fun e => e.1.size) = [2] := by decide +kernel
  rw [this]
  decide +kernel

/-- The training of a random field on half of a set of two samples. -/
example : State.trainField Ex.exact Ext.floorInt (fun _ => id) (fun _ => Ex.rev) (fun _ => id) Ex.once [[0, 1], [1, 1]]
    ⟨2, .val (1 / 2)⟩ Ex.duo ≠ .ub := by
  have hv : Ex.duo.vars.map Var.size = [2, 2] := by decide +kernel
  refine C62_training_defined_partial (Ex.Reach.mono (fun _ _ h => h.1) Ex.duo_steady) (fun _ => Ex.rev_perm)
    (fun _ l => .refl l) (by decide) ?_ ⟨by decide, .inr (.inr (.inr ⟨1, by decide +kernel⟩))⟩
  rw [hv]
  decide

/-- The training of the conditional random field, with an optimiser which reads the weights, asks for a gradient and sets
the weights. -/
example : State.trainCrf Ex.exact Ext.floorInt (fun _ => id) (fun _ => Ex.rev) (fun _ => id) (fun _ => id) Ex.fieldCrf.positions
    Ex.descent [[0, 1, 1], [1, 1, 0]] ⟨1, .val 1⟩ Ex.fieldCrf.state ≠ .ub := by
  refine C62_crf_training_defined_partial Ex.field_prudent Ex.backwards_perms Ex.fieldCrf_reach Ex.fieldCrf_within
    (fun _ => Ex.rev_perm) (fun _ l => .refl l) (fun _ l => .refl l) (by decide) ?_ ⟨by decide, .inl (by decide +kernel)⟩
  rw [Ex.fieldCrf_sizes]
  decide

namespace Ex

/-- The factor on Y and Z is refused, since there is no factor on Z with which it could share its weight; a constant factor
on Z is inserted afterwards. -/
def strayed : State (Ext ℚ) := afterT [.tune 0 none, .tune 3 (some [Z]), .add 7, .observe Z 1]

theorem strayed_prudent : Reach Prudent strayed := afterT_prudent _ (by decide +kernel)

end Ex

/-- C62 is violated by a conditional random field whose source has variables which are not in any factor that is copied:
the positions of the evidences are those of the source, and the gradient reads past the end of a sample which gives to
each variable of the conditional random field one of its values. -/
theorem C62_positions_violated : ∃ (src : State (Ext ℚ)) (c : Crf (Ext ℚ)) (op : CrfOp (Ext ℚ)), Reach Prudent src ∧
    CrfReach (fun _ _ => True) src Ex.backwards true c ∧ op.Valid c.state ∧ op.threads ≠ some 0 ∧ op.Sensible c.state ∧
    src.vars = [Ex.X, Ex.Y, Ex.Z] ∧ c.state.vars = [Ex.Z, Ex.X] ∧ c.positions = [2] ∧
    op.exec c.positions c.state = .ub := by
  have hm : Crf.make Ex.backwards Ex.strayed true = .ok (Ex.crf Ex.backwards Ex.strayed true) := Ex.crf_made (by decide +kernel)
  have hv : (Ex.crf Ex.backwards Ex.strayed true).state.vars = [Ex.Z, Ex.X] := by decide +kernel
  have hx : (match (CrfOp.gradient Ex.rev id id [[1, 0]] 1).exec (Ex.crf Ex.backwards Ex.strayed true).positions
      (Ex.crf Ex.backwards Ex.strayed true).state with
    | .ub => true
    | _ => false) = true := by decide +kernel
  refine ⟨Ex.strayed, _, .gradient Ex.rev id id [[1, 0]] 1, Ex.strayed_prudent, .made hm,
    ⟨Ex.rev_perm, fun l => .refl l, fun l => .refl l⟩, by decide, ?_, by decide +kernel, hv, by decide +kernel, ?_⟩
  · intro c hc
    rw [hv]
    revert c hc
    decide
  · split at hx
    · assumption
    · cases hx

end EFG
