import Verif.Props.Graph
/- C22, C23: insertion of factors. -/

namespace EFG
variable {F : Type} [Arith F]

/-! ### C22 -/

/-- A factor which has to be refused: already in the model, neither unary nor binary, with a variable
known under a different instance, or joining two variables already joined. -/
def MustRefuse (s : State F) (p : Nat) (f : Fn F) : Prop :=
  p ∈ s.factors ∨ (f.vars.group.length ≠ 1 ∧ f.vars.group.length ≠ 2) ∨
    (∃ v ∈ f.vars.group, ∃ w ∈ s.vars, w.name = v.name ∧ w.size = v.size ∧ w ≠ v) ∨
    ∃ a b, f.vars.group = [a, b] ∧ s.Joins a b

theorem State.Core.refused_iff {s : State F} (hs : s.Core) {p : Nat} {f : Fn F} :
    State.Refused s p f ↔ MustRefuse s p f := by
  unfold MustRefuse
  constructor
  · rintro (h | ⟨h1, h2⟩ | ⟨_, v, h1, w, h2, h3, h4⟩ | ⟨h1, h2⟩)
    · exact Or.inl h
    · exact Or.inr (Or.inl ⟨h1, h2⟩)
    · have := Var.eqv_iff.mp h3
      exact Or.inr (Or.inr (Or.inl ⟨v, h1, w, h2, this.1, this.2, h4⟩))
    · exact Or.inr (Or.inr (Or.inr ⟨_, _, h1, hs.joins_iff.mpr h2⟩))
  · rintro (h | ⟨h1, h2⟩ | ⟨v, h1, w, h2, h3, h4, h5⟩ | ⟨a, b, h1, h2⟩)
    · exact .known h
    · exact .arity h1 h2
    · by_cases ha : f.vars.group.length = 1 ∨ f.vars.group.length = 2
      · exact .instance_ ha ⟨v, h1, w, h2, Var.eqv_iff.mpr ⟨h3, h4⟩, h5⟩
      · exact .arity (fun h => ha (Or.inl h)) (fun h => ha (Or.inr h))
    · exact .connected h1 (hs.joins_iff.mp h2)

/-- C22: adding a factor throws exactly when it has to be refused. When it throws the model is the
same, but for the memory of the last propagation, which is forgotten; and but for a first variable
which is not in the model.

Missing: in this last case (a binary factor whose first variable is new) the variable stays in the
model: `C22_violated`. -/
theorem C22_refused_partial {allowed : State F → GOp F → Prop} {s : State F} (h : Reach allowed s)
    {p : Nat} {f : Fn F} (hf : s.heap[p]? = some f) :
    (∃ s', State.addConstFactor (some p) s = .ok s' () ∧ ¬ MustRefuse s p f) ∨
    (∃ s', State.addConstFactor (some p) s = .throw s' ∧ MustRefuse s p f ∧
      (s' = s ∨ s' = { s with last := none } ∨
        ∃ a b, f.vars.group = [a, b] ∧ (∀ w ∈ s.vars, ¬ (w.name = a.name ∧ w.size = a.size)) ∧
          s'.vars = s.vars ++ [a] ∧ s'.factors = s.factors ∧ s'.evidences = s.evidences ∧
          s'.heap = s.heap ∧ s'.consts = s.consts ∧ s'.tuners = s.tuners)) := by
  have hs := reach_inv h
  unfold State.addConstFactor
  rcases State.addDistribution_cases hs hf with ⟨s', h1, _, h3⟩ | ⟨s', h1, h2, _, h4⟩
  · exact Or.inl ⟨_, by rw [h1], fun hr => h3 (hs.toCore.refused_iff.mpr hr)⟩
  · refine Or.inr ⟨s', by rw [h1], hs.toCore.refused_iff.mp h2, ?_⟩
    rcases h4 with h | h | ⟨a, b, h5, h6, h7⟩
    · exact Or.inl h
    · exact Or.inr (Or.inl h)
    · refine Or.inr (Or.inr ⟨a, b, h5, ?_, by rw [h7]; rfl, by rw [h7]; rfl, by rw [h7]; rfl, by rw [h7]; rfl,
        by rw [h7]; rfl, by rw [h7]; rfl⟩)
      intro w hw he
      have := h6 w hw
      rw [Var.eqv_iff.mpr he] at this
      cases this

/-- C22 for unary factors and for binary factors on variables of the model: nothing changes but the
memory of the last propagation. -/
theorem C22_refused_known_partial {allowed : State F → GOp F → Prop} {s s' : State F} (h : Reach allowed s)
    {p : Nat} {f : Fn F} (hf : s.heap[p]? = some f)
    (hk : ∀ v ∈ f.vars.group, ∃ w ∈ s.vars, w.name = v.name ∧ w.size = v.size)
    (he : State.addConstFactor (some p) s = .throw s') : s' = s ∨ s' = { s with last := none } := by
  rcases C22_refused_partial h hf with ⟨s1, h1, _⟩ | ⟨s1, h1, _, h3⟩
  · rw [he] at h1; cases h1
  · rw [he] at h1
    cases h1
    rcases h3 with h | h | ⟨a, b, h5, h6, _⟩
    · exact Or.inl h
    · exact Or.inr h
    · obtain ⟨w, hw, h7⟩ := hk a (by rw [h5]; simp)
      exact absurd h7 (h6 w hw)

/-- The null pointer is refused without effect. -/
theorem C22_null (s : State F) : State.addConstFactor none s = .throw s := rfl

/-- The same factor twice, and a second factor joining A and B, are refused. -/
example : let s := Ex.chain []
    Reach anyOp s ∧ s.heap[1]? = some Ex.fAB ∧ MustRefuse s 1 Ex.fAB ∧
    (∀ v ∈ Ex.fAB.vars.group, ∃ w ∈ s.vars, w.name = v.name ∧ w.size = v.size) ∧
    (match State.addConstFactor (some 1) s with | .throw s' => some (s'.vars, s'.factors) | _ => none) =
      some ([Ex.A, Ex.B, Ex.C], [0, 1, 2]) ∧
    (match State.copyConstFactor 1 s with | .throw s' => some (s'.vars, s'.factors) | _ => none) =
      some ([Ex.A, Ex.B, Ex.C], [0, 1, 2]) :=
  ⟨Ex.chain_reach _, rfl, Or.inl (by decide +kernel), by decide +kernel, by decide +kernel, by decide +kernel⟩

namespace Ex

/-- Another instance of the variable B, and a new variable. -/
def B' : Var := ⟨7, "B", 2⟩
def D : Var := ⟨8, "D", 2⟩
def gDB : Group := ⟨[D, B'], [D, B']⟩
def fDB : Fn (Ext ℚ) := Fn.ofGroup gDB

theorem fDB_reach : FactorReach fDB := .group (.soup (vars := [D, B']) (by decide)) (by decide)

end Ex

/-- C22 is violated by a binary factor whose second variable is a different instance of a variable of
the model while the first one is new: it is refused, but the first variable stays in the model. -/
theorem C22_violated : ∃ s s' : State (Ext ℚ), Reach anyOp s ∧ s.heap[3]? = some Ex.fDB ∧
    MustRefuse s 3 Ex.fDB ∧ State.addConstFactor (some 3) s = .throw s' ∧
    s.vars = [Ex.A, Ex.B, Ex.C] ∧ s'.vars = [Ex.A, Ex.B, Ex.C, Ex.D] ∧ s'.factors = s.factors ∧
    s'.hiddenVariables = [Ex.A, Ex.B, Ex.C, Ex.D] := by
  refine ⟨_, _, .ok (op := .create Ex.fDB) (Ex.chain_reach []) ⟨trivial, Ex.fDB_reach⟩ trivial rfl, rfl,
    Or.inr (Or.inr (Or.inl ⟨Ex.B', by decide, Ex.B, ?_, by decide⟩)), rfl, ?_⟩
  · show Ex.B ∈ (Ex.chain []).vars
    decide +kernel
  · decide +kernel

/-! ### C23 -/

/-- C23: in every reachable state each accepted factor is listed once and is unary or binary, its
variables are variables of the model, the variables are pairwise different (by address and by name
and size), two accepted factors do not join the same two variables, and two variables are neighbours
exactly when an accepted factor joins them. -/
theorem C23_register {allowed : State F → GOp F → Prop} {s : State F} (h : Reach allowed s) :
    s.factors.Nodup ∧ s.vars.Nodup ∧ Distinct s.vars ∧
    (∀ p ∈ s.factors, ∃ l, s.FactorOn p l ∧ (l.length = 1 ∨ l.length = 2) ∧ ∀ v ∈ l, v ∈ s.vars) ∧
    (∀ p q u v, (s.FactorOn p [u, v] ∨ s.FactorOn p [v, u]) → (s.FactorOn q [u, v] ∨ s.FactorOn q [v, u]) →
      p = q) ∧
    (∀ u v, s.Neighbour u v ↔ s.Joins u v) := by
  have hs := reach_inv h
  refine ⟨hs.facNodup, hs.net.distinct.nodup, hs.net.distinct, ?_, ?_, ?_⟩
  · intro p hp
    obtain ⟨f, h1, h2⟩ := hs.reg p hp
    refine ⟨f.vars.group, ⟨hp, f, h1, rfl⟩, ?_⟩
    rcases h2 with ⟨v, h3, h4⟩ | ⟨u, v, h3, h4⟩
    · rw [h3]
      have := (hs.unary v p h4).2.1
      exact ⟨Or.inl rfl, by simpa using this⟩
    · rw [h3]
      have := hs.net.memL u v p h4
      exact ⟨Or.inr rfl, by simp [this.1, this.2.1]⟩
  · intro p q u v hp hq
    have h1 := hs.toCore.joinedBy.mp hp
    have h2 := hs.toCore.joinedBy.mp hq
    rw [h1] at h2
    exact Option.some.inj h2
  · intro u v
    rw [hs.toCore.neighbour_iff, hs.toCore.joins_iff]

/-- C23: an accepted factor is appended to the list of the factors, and those of its variables which
are not yet in the model are appended, in their order, to the list of the variables. -/
theorem C23_accepted {allowed : State F → GOp F → Prop} {s s' : State F} (h : Reach allowed s)
    {p : Nat} {f : Fn F} (hf : s.heap[p]? = some f) (he : State.addConstFactor (some p) s = .ok s' ()) :
    s'.factors = s.factors ++ [p] ∧ s'.consts = s.consts ++ [p] ∧
    s'.vars = s.vars ++ f.vars.group.filter (fun v => !decide (v ∈ s.vars)) ∧
    s'.evidences = s.evidences ∧ s'.heap = s.heap := by
  have hs := reach_inv h
  unfold State.addConstFactor at he
  rcases State.addDistribution_cases hs hf with ⟨s1, h1, h2, _⟩ | ⟨s1, h1, _⟩
  · rw [h1] at he
    cases he
    cases h2 with
    | unary hg hi => exact ⟨hi.factors, by simp [hi.kept.consts], by rw [hg]; exact hi.vars, hi.kept.evidences, hi.kept.heap⟩
    | binary hg hi => exact ⟨hi.factors, by simp [hi.kept.consts], by rw [hg]; exact hi.vars, hi.kept.evidences, hi.kept.heap⟩
  · rw [h1] at he; cases he

/-- C23: no other operation changes the lists of the variables, of the factors and of the tunable
clusters, also when it throws. -/
theorem C23_unchanged {allowed : State F → GOp F → Prop} {s s' : State F} (h : Reach allowed s) {op : GOp F}
    (hv : op.Valid s) (hi : op.Inserts = false) (he : op.exec s = .ok s' () ∨ op.exec s = .throw s') :
    s'.vars = s.vars ∧ s'.factors = s.factors ∧ s'.consts = s.consts ∧ s'.tunables = s.tunables ∧
    s'.tuners = s.tuners := by
  have h1 := State.exec_regs (reach_inv h) hv hi
  rcases he with he | he
  · have := h1.1 s' he
    exact ⟨this.vars, this.factors, this.consts, this.tunables, this.tuners⟩
  · have := h1.2 s' he
    exact ⟨this.vars, this.factors, this.consts, this.tunables, this.tuners⟩

example : let s := Ex.chain [(Ex.B, 1)]
    Reach anyOp s ∧ s.vars = [Ex.A, Ex.B, Ex.C] ∧ s.factors = [0, 1, 2] ∧ s.FactorOn 1 [Ex.A, Ex.B] ∧
    s.Neighbour Ex.A Ex.B ∧ ¬ s.Joins Ex.A Ex.C := by
  have h := Ex.chain_reach [(Ex.B, 1)]
  have hj : (Ex.chain [(Ex.B, 1)]).FactorOn 1 [Ex.A, Ex.B] := ⟨by decide +kernel, Ex.fAB, rfl, rfl⟩
  refine ⟨h, by decide +kernel, by decide +kernel, hj, ((C23_register h).2.2.2.2.2 _ _).mpr ⟨1, Or.inl hj⟩, ?_⟩
  rw [← (C23_register h).2.2.2.2.2]
  rintro ⟨n, h1, h2⟩
  have h3 : ((Ex.chain [(Ex.B, 1)]).node? Ex.A).map (fun n => (n.active ++ n.disabled).map Prod.fst) =
      some [Ex.B] := by decide +kernel
  rw [h1] at h3
  simp only [Option.map_some, Option.some.injEq] at h3
  rw [h3] at h2
  revert h2
  decide

/-- The first factor of the example is inserted, and the evidence changes no register. -/
example : Reach anyOp (State.initial Ex.heap3) ∧ (State.initial Ex.heap3).heap[1]? = some Ex.fAB ∧
    (match State.addConstFactor (some 1) (State.initial Ex.heap3) with
      | .ok s' _ => some (s'.vars, s'.factors, s'.consts) | _ => none) = some ([Ex.A, Ex.B], [1], [1]) ∧
    (GOp.setEvidence (F := Ext ℚ) Ex.rev Ex.A 1).Inserts = false :=
  ⟨.init Ex.heap3_reach, rfl, by decide +kernel, rfl⟩

end EFG
