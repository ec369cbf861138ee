import Verif.Lemmas.JsonTrip
import Verif.Props.Crf
/- C48: models written to json and read again. -/

namespace EFG

section
variable {F : Type} [Arith F]

/-- C48: a model with constant and tunable factors which is written to json and read into an empty model gives the
same model: the variables with their names and sizes, the evidences, the factors with the same images and weights,
the tunable factors and the clusters of factors which share a weight. It holds for all the orders in which the
containers are visited and whatever the addresses of the new variables are.

Missing: isolated variables (`C48_isolated_violated`), variables with the same name (`C48_names_violated`), names
with escaped characters (`C48_escape_violated`), images and weights which are not read as they were printed
(`C48_precision_violated`), sizes above the range of `int`, and the sharing which is not determined by the
variables of the factors (`C48_sharing_violated`). -/
theorem C48_field_partial {allowed : State F → GOp F → Prop} {s : State F} (h : Reach allowed s) {tx : FloatText F}
    {ord : VisitOrder} (hord : ord.Perms) {o : ImportOrder} (ho : o.Fair) (hc : s.Covered) (hn : s.Named)
    (hcl : s.Clustered) (hw : s.EqualWeights) (hu : s.Unambiguous) (hp : s.Portable tx)
    {h0 : Heap F} (hb : ∀ f ∈ h0, FactorReach f) :
    ∃ j t ρ r, JsonOut.convert tx ord s = .ok j ∧ JsonIn.importJson tx o true j (State.initial h0) = .ok t () ∧
      Reach anyOp t ∧ State.SameField s t ρ r := by
  obtain ⟨j, t, h1, h2, h3, h4⟩ := JsonIn.trip_field hb hord ho (reach_inv h) (reach_tuned h) (State.reach_registered h)
    hc hn hcl hw hu hp
  exact ⟨j, t, _, _, h1, h2, h3, h4⟩

/-- C48: read into a model which cannot have tunable factors, the same json gives the same factors, all of them
constant; the sharing of the weights does not matter then. -/
theorem C48_graph_partial {allowed : State F → GOp F → Prop} {s : State F} (h : Reach allowed s) {tx : FloatText F}
    {ord : VisitOrder} (hord : ord.Perms) {o : ImportOrder} (ho : o.Fair) (hc : s.Covered) (hn : s.Named)
    (hcl : s.Clustered) (hp : s.Portable tx) {h0 : Heap F} (hb : ∀ f ∈ h0, FactorReach f) :
    ∃ j t ρ r, JsonOut.convert tx ord s = .ok j ∧ JsonIn.importJson tx o false j (State.initial h0) = .ok t () ∧
      Reach anyOp t ∧ State.SameModel s t ρ r ∧ t.consts.Perm t.factors ∧ t.tuners = [] := by
  obtain ⟨j, t, h1, h2, h3, h4⟩ := JsonIn.trip_graph hb hord ho (reach_inv h) (reach_tuned h) (State.reach_registered h)
    hc hn hcl hp
  exact ⟨j, t, _, _, h1, h2, h3, h4⟩

end

/-- C48: the model which was read describes the same distribution: an assignment of its variables is an assignment
of the variables of the exported one with the same values in range, the same evidences and the same product of the
factors. -/
theorem C48_weight {K : Type} [Field K] [LinearOrder K] [FloatParams K] {s t : State (Ext K)} {ρ : Var → Var}
    {r : Nat → Nat} {allowed : State (Ext K) → GOp (Ext K) → Prop} (hs : Reach allowed s) (h : State.SameModel s t ρ r)
    {φ : Nat → Assign → K} (hφ : s.Images φ) :
    (∃ φ', t.Images φ') ∧ ∀ φ', t.Images φ' → ∀ a, (t.InRange a ↔ s.InRange (fun v => a (ρ v))) ∧
      (t.Agrees a ↔ s.Agrees (fun v => a (ρ v))) ∧
      (t.InRange a → t.weight φ' a = s.weight φ (fun v => a (ρ v))) := by
  have hwf : ∀ p ∈ s.factors, ∃ f, s.heap[p]? = some f ∧ ∀ v ∈ f.vars.group, v ∈ s.vars := by
    intro p hp
    obtain ⟨l, ⟨_, f, h1, h2⟩, _, h3⟩ := (C23_register hs).2.2.2.1 p hp
    exact ⟨f, h1, by rw [h2]; exact h3⟩
  have hrange : ∀ a, t.InRange a ↔ s.InRange (fun v => a (ρ v)) := by
    intro a
    constructor
    · intro ha v hv
      have := ha (ρ v) ((h.vars _).mpr ⟨v, hv, rfl⟩)
      rw [(h.named v hv).2] at this
      exact this
    · intro ha w hw
      obtain ⟨v, hv, rfl⟩ := (h.vars w).mp hw
      rw [(h.named v hv).2]
      exact ha v hv
  have himg : ∀ p ∈ s.factors, ∀ a, t.InRange a → ∃ g, t.heap[r p]? = some g ∧
      g.findTransformed (g.vars.group.map a) = .ok (.val (φ p (fun v => a (ρ v)))) ∧ 0 ≤ φ p (fun v => a (ρ v)) := by
    intro p hp a ha
    have ha' := (hrange a).mp ha
    obtain ⟨f, g, h1, h2, h3, _, h4⟩ := h.images p hp
    obtain ⟨f', h5, h6, h7⟩ := hφ p hp (fun v => a (ρ v)) ha'
    rw [h1] at h5; cases h5
    obtain ⟨f', h5, h8⟩ := hwf p hp
    rw [h1] at h5; cases h5
    refine ⟨g, h2, ?_, h7⟩
    have e : g.vars.group.map a = f.vars.group.map (fun v => a (ρ v)) := by rw [h3, List.map_map]; rfl
    rw [e, (h4 _ ?_).2, h6]
    unfold Valid
    rw [List.forall₂_map_left_iff, List.forall₂_map_right_iff, List.forall₂_same]
    exact fun v hv => ha' v (h8 v hv)
  refine ⟨?_, ?_⟩
  · classical
    refine ⟨fun q a => if hq : ∃ p, p ∈ s.factors ∧ r p = q then φ hq.choose (fun v => a (ρ v)) else 0, ?_⟩
    intro q hq a ha
    obtain ⟨p, hp, rfl⟩ := List.mem_map.mp (h.factors.mem_iff.mp hq)
    have hex : ∃ p', p' ∈ s.factors ∧ r p' = r p := ⟨p, hp, rfl⟩
    have he : hex.choose = p := h.once _ hex.choose_spec.1 _ hp hex.choose_spec.2
    obtain ⟨g, h1, h2, h3⟩ := himg p hp a ha
    refine ⟨g, h1, ?_⟩
    have he' : (if hq : ∃ p', p' ∈ s.factors ∧ r p' = r p then φ hq.choose (fun v => a (ρ v)) else 0) =
        φ p (fun v => a (ρ v)) := by
      rw [dif_pos hex, he]
    simp only [he']
    exact ⟨h2, h3⟩
  · intro φ' hφ' a
    refine ⟨hrange a, ?_, ?_⟩
    · unfold State.Agrees
      rw [hrange a]
      refine and_congr_right (fun _ => ?_)
      constructor
      · intro hh v k hk
        exact hh (ρ v) k (h.evidences.mem_iff.mpr (List.mem_map.mpr ⟨(v, k), hk, rfl⟩))
      · intro hh w k hk
        obtain ⟨e, he, heq⟩ := List.mem_map.mp (h.evidences.mem_iff.mp hk)
        cases heq
        exact hh e.1 e.2 he
    · intro ha
      unfold State.weight
      rw [(h.factors.map (fun p => φ' p a)).prod_eq, List.map_map]
      congr 1
      refine List.map_congr_left (fun p hp => ?_)
      obtain ⟨g, h1, h2, _⟩ := himg p hp a ha
      obtain ⟨g', h3, h4, _⟩ := hφ' (r p) (h.factors.mem_iff.mpr (List.mem_map_of_mem hp)) a ha
      rw [h1] at h3; cases h3
      rw [h2] at h4
      show φ' (r p) a = φ p _
      have := Res.ok.inj h4
      exact (Ext.val.inj this).symm

/-! ### Examples -/

namespace Ex

/-- The choices of an import. -/
def reading : ImportOrder := ⟨fun i => 100 + i, List.reverse, List.reverse, rev⟩

theorem reading_fair : reading.Fair :=
  ⟨fun i j h => by unfold reading at h; simp only at h; omega, fun l => l.reverse_perm, fun l => l.reverse_perm, rev_perm⟩

/-- Writing a model and reading it into an empty one. -/
def trip (inserts : Bool) (s : State (Ext ℚ)) : Out (State (Ext ℚ)) Unit :=
  match JsonOut.convert Text.fixed forwards s with
  | .ok j => JsonIn.importJson Text.fixed reading inserts j (State.initial [])
  | .throw => .throw s
  | .ub => .ub

/-- The model which is read. -/
def arrived (inserts : Bool) (s : State (Ext ℚ)) : State (Ext ℚ) :=
  match trip inserts s with
  | .ok t _ => t
  | _ => State.initial []

theorem trip_ok {inserts : Bool} {s : State (Ext ℚ)} (h : (match trip inserts s with | .ok _ _ => true | _ => false) = true) :
    ∃ j, JsonOut.convert Text.fixed forwards s = .ok j ∧
      JsonIn.importJson Text.fixed reading inserts j (State.initial []) = .ok (arrived inserts s) () := by
  unfold arrived
  cases ht : trip inserts s with
  | throw t => rw [ht] at h; cases h
  | ub => rw [ht] at h; cases h
  | ok t u =>
    unfold trip at ht
    cases hc : JsonOut.convert Text.fixed forwards s with
    | throw => rw [hc] at ht; cases ht
    | ub => rw [hc] at ht; cases ht
    | ok j => rw [hc] at ht; exact ⟨j, rfl, ht⟩

theorem trip_throw {inserts : Bool} {s : State (Ext ℚ)} (hs : (match JsonOut.convert Text.fixed forwards s with | .ok _ => true | _ => false) = true)
    (h : (match trip inserts s with | .throw _ => true | _ => false) = true) :
    ∃ j t, JsonOut.convert Text.fixed forwards s = .ok j ∧
      JsonIn.importJson Text.fixed reading inserts j (State.initial []) = .throw t := by
  cases ht : trip inserts s with
  | ok t _ => rw [ht] at h; cases h
  | ub => rw [ht] at h; cases h
  | throw t =>
    unfold trip at ht
    cases hc : JsonOut.convert Text.fixed forwards s with
    | throw => rw [hc] at hs; cases hs
    | ub => rw [hc] at ht; cases ht
    | ok j => rw [hc] at ht; exact ⟨j, t, rfl, ht⟩

/-- A number with at most six decimals. -/
def legible (x : Ext ℚ) : Bool :=
  (Text.fixed.print x).all (fun c => decide (Plain c)) && decide (Text.fixed.parse (Text.fixed.print x) = x)

theorem legible_of {x : Ext ℚ} (h : legible x = true) : Legible Text.fixed x := by
  unfold legible at h
  rw [Bool.and_eq_true, List.all_eq_true] at h
  exact ⟨fun c hc => of_decide_eq_true (h.1 c hc), of_decide_eq_true h.2⟩

/-- Whether a model survives. -/
def portable (s : State (Ext ℚ)) : Bool :=
  s.vars.all (fun v => decide (v.name ≠ "") && v.name.toList.all (fun c => decide (Plain c)) && decide (v.size < 2 ^ 31)) &&
    s.factors.all (fun p =>
      match s.heap[p]? with
      | some f =>
        (lex (f.vars.group.map Var.size)).all (fun q =>
          match f.findImage q with
          | .ok x => legible x && !Arith.lt x Arith.zero && (!Arith.eq x Arith.zero || decide (x = Arith.zero))
          | _ => true) &&
        (match f.weight with
        | some w => legible w
        | none => true)
      | none => true)

theorem portable_of {s : State (Ext ℚ)} (h : portable s = true) : s.Portable Text.fixed := by
  unfold portable at h
  rw [Bool.and_eq_true, List.all_eq_true, List.all_eq_true] at h
  have hf : ∀ p ∈ s.factors, ∀ f, s.heap[p]? = some f →
      (∀ q ∈ lex (f.vars.group.map Var.size), (match f.findImage q with
          | .ok x => legible x && !Arith.lt x Arith.zero && (!Arith.eq x Arith.zero || decide (x = Arith.zero))
          | _ => true) = true) ∧
      (match f.weight with
        | some w => legible w
        | none => true) = true := by
    intro p hp f hf
    have := h.2 p hp
    rw [hf] at this
    simp only at this
    rw [Bool.and_eq_true, List.all_eq_true] at this
    exact this
  refine ⟨?_, ?_, ?_, ?_⟩
  · intro v hv
    have := h.1 v hv
    rw [Bool.and_eq_true, Bool.and_eq_true, List.all_eq_true] at this
    exact ⟨of_decide_eq_true this.1.1, fun c hc => of_decide_eq_true (this.1.2 c hc)⟩
  · intro v hv
    have := h.1 v hv
    rw [Bool.and_eq_true] at this
    exact of_decide_eq_true this.2
  · intro p hp f hf' q x hq hx
    have := (hf p hp f hf').1 q (mem_lex.mpr hq)
    rw [hx] at this
    simp only [Bool.and_eq_true, Bool.not_eq_true', Bool.or_eq_true, decide_eq_true_eq] at this
    refine ⟨legible_of this.1.1, this.1.2, fun he => ?_⟩
    rcases this.2 with h1 | h1
    · rw [he] at h1; cases h1
    · exact h1
  · intro p hp f hf' w hw
    have := (hf p hp f hf').2
    rw [hw] at this
    exact legible_of this

end Ex

/-- The field with two clusters, a constant factor and an evidence: the model which is read. -/
example : Reach FromInside Ex.field ∧ Ex.forwards.Perms ∧ Ex.reading.Fair ∧ Ex.field.Covered ∧ Ex.field.Named ∧
    Ex.field.Clustered ∧ Ex.field.EqualWeights ∧ Ex.field.Unambiguous ∧ Ex.field.Portable Text.fixed ∧
    Ex.field.tunableClusters = [[0, 2], [3]] ∧
    (match Ex.trip true Ex.field with
      | .ok t _ => some (t.vars.map (fun v => (v.name, v.size)), t.consts, t.tunableClusters, t.evidences.map (fun e => (e.1.name, e.2)))
      | _ => none) = some ([("X", 2), ("Y", 2), ("Z", 2)], [0], [[1, 2], [3]], [("Z", 1)]) :=
  ⟨Ex.field_inside, Ex.forwards_perms, Ex.reading_fair, Ex.covered_of (by decide +kernel), Ex.named_of (by decide +kernel),
    Ex.clustered_of (by decide +kernel), Ex.equalWeights_of Ex.field_inside, Ex.field_unambiguous,
    Ex.portable_of (by decide +kernel), by decide +kernel, by decide +kernel⟩

/-- The path X - Y - Z with an evidence, with its distribution. -/
example : ∃ j t ρ r φ', JsonOut.convert Text.fixed Ex.forwards (Ex.after (Ex.path ++ [.observe Ex.Z 1])) = .ok j ∧
    JsonIn.importJson Text.fixed Ex.reading false j (State.initial Ex.heapT) = .ok t () ∧
    State.SameModel (Ex.after (Ex.path ++ [.observe Ex.Z 1])) t ρ r ∧ t.Images φ' ∧
    ∀ a, t.Agrees a → t.weight φ' a =
      (Ex.after (Ex.path ++ [.observe Ex.Z 1])).weight (Ex.phiIn Ex.heapXYZ) (fun v => a (ρ v)) := by
  have hr : Reach anyOp (Ex.after (Ex.path ++ [.observe Ex.Z 1])) := Ex.runActs_any _ (.init Ex.heapXYZ_reach)
  have hh : (Ex.after (Ex.path ++ [.observe Ex.Z 1])).heap = Ex.heapXYZ := rfl
  have hi : (Ex.after (Ex.path ++ [.observe Ex.Z 1])).Images (Ex.phiIn Ex.heapXYZ) := by
    rw [← hh]
    exact Ex.phiIn_images (by decide +kernel)
  obtain ⟨j, t, ρ, r, h1, h2, _, h3, _⟩ := C48_graph_partial hr (tx := Text.fixed) Ex.forwards_perms Ex.reading_fair
    (Ex.covered_of (by decide +kernel)) (Ex.named_of (by decide +kernel)) (Ex.clustered_of (by decide +kernel))
    (Ex.portable_of (by decide +kernel)) Ex.heapT_reach
  obtain ⟨⟨φ', h4⟩, h5⟩ := C48_weight hr h3 hi
  exact ⟨j, t, ρ, r, φ', h1, h2, h3, h4, fun a ha => (h5 φ' h4 a).2.2 ha.1⟩

/-! ### Violations -/

namespace Ex

/-- Small images. -/
def heapSmall : Heap (Ext ℚ) := [una X (1 / 10 ^ 7) 1]

theorem heapSmall_reach : ∀ f ∈ heapSmall, FactorReach f := by
  intro f hf
  simp only [heapSmall, List.mem_cons, List.not_mem_nil, or_false] at hf
  subst hf
  exact build_reach (.single _) (by decide) _

def small : State (Ext ℚ) := (runActs [.add 0] (State.initial heapSmall)).1

theorem small_reach : Reach anyOp small := runActs_any _ (.init heapSmall_reach)

/-- A variable whose name has quotes. -/
def Q : Var := ⟨20, "a\"b", 2⟩

def heapQ : Heap (Ext ℚ) := [una Q 1 2]

theorem heapQ_reach : ∀ f ∈ heapQ, FactorReach f := by
  intro f hf
  simp only [heapQ, List.mem_cons, List.not_mem_nil, or_false] at hf
  subst hf
  exact build_reach (.single _) (by decide) _

def quoted : State (Ext ℚ) := (runActs [.add 0] (State.initial heapQ)).1

theorem quoted_reach : Reach anyOp quoted := runActs_any _ (.init heapQ_reach)

/-- The image of a factor. -/
def imageAt (s : State (Ext ℚ)) (p : Nat) (q : List Nat) : Option (Ext ℚ) :=
  match s.heap[p]? with
  | some f =>
    match f.findImage q with
    | .ok x => some x
    | _ => none
  | none => none

end Ex

/-- C48 is violated by images which have more than six decimals: the image 1/10^7 is read as 0. -/
theorem C48_precision_violated : ∃ (s t : State (Ext ℚ)) (j : Json), Reach anyOp s ∧
    s.Covered ∧ s.Named ∧ JsonOut.convert Text.fixed Ex.forwards s = .ok j ∧
    JsonIn.importJson Text.fixed Ex.reading true j (State.initial []) = .ok t () ∧
    Ex.imageAt s 0 [0] = some (.val (1 / 10 ^ 7)) ∧ t.factors = [0] ∧ Ex.imageAt t 0 [0] = some (.val 0) ∧
    ¬ ∃ ρ r, State.SameModel s t ρ r := by
  obtain ⟨j, h1, h2⟩ := Ex.trip_ok (inserts := true) (s := Ex.small) (by decide +kernel)
  have e1 : Ex.imageAt Ex.small 0 [0] = some (.val (1 / 10 ^ 7)) := by decide +kernel
  have e2 : Ex.imageAt (Ex.arrived true Ex.small) 0 [0] = some (.val 0) := by decide +kernel
  have e3 : (Ex.arrived true Ex.small).factors = [0] := by decide +kernel
  refine ⟨Ex.small, Ex.arrived true Ex.small, j, Ex.small_reach, Ex.covered_of (by decide +kernel),
    Ex.named_of (by decide +kernel), h1, h2, e1, e3, e2, ?_⟩
  rintro ⟨ρ, r, h⟩
  have hf : Ex.small.factors = [0] := by decide +kernel
  have h0 : 0 ∈ Ex.small.factors := by rw [hf]; simp
  obtain ⟨f, g, h3, h4, _, _, h5⟩ := h.images 0 h0
  have hr : r 0 = 0 := by
    have := h.factors.mem_iff.mpr (List.mem_map_of_mem (f := r) h0)
    rw [e3] at this
    simpa using this
  rw [hr] at h4
  have hv : f.vars.group.map Var.size = [2] := by
    have : (Ex.varsOf Ex.small 0).map Var.size = [2] := by decide +kernel
    unfold Ex.varsOf at this
    rw [h3] at this
    exact this
  have h6 := (h5 [0] (by rw [hv]; exact .cons (by decide) .nil)).1
  unfold Ex.imageAt at e1 e2
  rw [h3] at e1
  rw [h4] at e2
  simp only at e1 e2
  rw [h6, e1] at e2
  have := Option.some.inj e2
  exact absurd this (by decide +kernel)

/-- C48 is violated by names with characters which json escapes: the name a"b is read as a\"b. -/
theorem C48_escape_violated : ∃ (s t : State (Ext ℚ)) (j : Json), Reach anyOp s ∧
    s.Covered ∧ s.Named ∧ JsonOut.convert Text.fixed Ex.forwards s = .ok j ∧
    JsonIn.importJson Text.fixed Ex.reading true j (State.initial []) = .ok t () ∧
    s.vars.map Var.name = ["a\"b"] ∧ t.vars.map Var.name = ["a\\\"b"] := by
  obtain ⟨j, h1, h2⟩ := Ex.trip_ok (inserts := true) (s := Ex.quoted) (by decide +kernel)
  exact ⟨Ex.quoted, _, j, Ex.quoted_reach, Ex.covered_of (by decide +kernel), Ex.named_of (by decide +kernel), h1, h2,
    by decide +kernel, by decide +kernel⟩

/-- C48 is violated by an isolated variable: it is not in the model which is read, and if it is observed the import
throws. -/
theorem C48_isolated_violated :
    (∃ (s t : State (Ext ℚ)) (j : Json), Reach anyOp s ∧ s.Named ∧ s.Portable Text.fixed ∧
      JsonOut.convert Text.fixed Ex.forwards s = .ok j ∧
      JsonIn.importJson Text.fixed Ex.reading true j (State.initial []) = .ok t () ∧
      s.vars.map Var.name = ["A", "B", "C", "D"] ∧ "D" ∉ t.vars.map Var.name) ∧
    (∃ (s t : State (Ext ℚ)) (j : Json), Reach anyOp s ∧ s.Named ∧ s.Portable Text.fixed ∧ s.evidences = [(Ex.D, 1)] ∧
      JsonOut.convert Text.fixed Ex.forwards s = .ok j ∧
      JsonIn.importJson Text.fixed Ex.reading true j (State.initial []) = .throw t) := by
  constructor
  · obtain ⟨j, h1, h2⟩ := Ex.trip_ok (inserts := true) (s := Ex.isolated) (by decide +kernel)
    exact ⟨Ex.isolated, _, j, Ex.isolated_reach, Ex.named_of (by decide +kernel), Ex.portable_of (by decide +kernel), h1, h2,
      by decide +kernel, by decide +kernel⟩
  · obtain ⟨j, t, h1, h2⟩ := Ex.trip_throw (inserts := true) (s := Ex.step (.setEvidence Ex.rev Ex.D 1) Ex.isolated)
      (by decide +kernel) (by decide +kernel)
    exact ⟨Ex.step (.setEvidence Ex.rev Ex.D 1) Ex.isolated, t, j,
      Ex.step_reach Ex.isolated_reach ⟨Ex.rev_perm, trivial⟩ trivial rfl, Ex.named_of (by decide +kernel),
      Ex.portable_of (by decide +kernel), by decide +kernel, h1, h2⟩

/-- C48 is violated when two variables have the same name and different sizes: a model which was exported without
errors cannot be read. -/
theorem C48_names_violated : ∃ (s t : State (Ext ℚ)) (j : Json), Reach anyOp s ∧ s.Covered ∧ s.Portable Text.fixed ∧
    JsonOut.convert Text.fixed Ex.forwards s = .ok j ∧
    JsonIn.importJson Text.fixed Ex.reading true j (State.initial []) = .throw t := by
  obtain ⟨j, t, h1, h2⟩ := Ex.trip_throw (inserts := true) (s := Ex.names 2) (by decide +kernel) (by decide +kernel)
  exact ⟨_, t, j, Ex.names_reach 2, Ex.covered_of (by decide +kernel), Ex.portable_of (by decide +kernel), h1, h2⟩

/-- C48 is violated when two tunable factors of different clusters are on the same variables: the factor on Y, which
shares the weight 1, is in another cluster and has the weight 2 in the model which is read. -/
theorem C48_sharing_violated : ∃ (s t : State (Ext ℚ)) (j : Json), Reach FromInside s ∧ s.Covered ∧ s.Named ∧
    s.Clustered ∧ s.Portable Text.fixed ∧ JsonOut.convert Text.fixed Ex.forwards s = .ok j ∧
    JsonIn.importJson Text.fixed Ex.reading true j (State.initial []) = .ok t () ∧
    s.tunableClusters = [[1, 6], [0, 2]] ∧ t.tunableClusters = [[0, 1, 3], [2]] ∧
    Ex.weightAt s 2 = some (.val 1) ∧ Ex.weightAt t 3 = some (.val 2) := by
  obtain ⟨j, h1, h2⟩ := Ex.trip_ok (inserts := true) (s := Ex.twice) (by decide +kernel)
  exact ⟨Ex.twice, _, j, Ex.twice_inside, Ex.covered_of (by decide +kernel), Ex.named_of (by decide +kernel),
    Ex.clustered_of (by decide +kernel), Ex.portable_of (by decide +kernel), h1, h2, by decide +kernel, by decide +kernel,
    by decide +kernel, by decide +kernel⟩

end EFG
