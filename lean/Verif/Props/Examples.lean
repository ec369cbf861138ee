import Verif.Spec.Prudent
import Verif.Props.Insert
/-
Concrete models used in the examples of the theorems about queries: three variables X, Y, Z with two
values each, joined in a path or in a triangle.
-/

namespace EFG

deriving instance DecidableEq for Store
deriving instance DecidableEq for Fn

namespace Ex

section
variable [Arith (Ext ℚ)]

/-- A factor on a group, with some images set. -/
def build (g : Group) : List (List Nat × Ext ℚ) → Fn (Ext ℚ)
  | [] => Fn.ofGroup g
  | e :: l =>
    match Fn.mutableSet e.1 e.2 (build g l) with
    | .ok f _ => f
    | .throw f => f
    | .ub => build g l

theorem build_reach {g : Group} (hg : GroupReach g) (hw : ∀ v ∈ g.group, v.WF) : ∀ l, FactorReach (build g l) := by
  intro l
  induction l with
  | nil => exact .group hg hw
  | cons e l ih =>
    rw [build]
    cases h : Fn.mutableSet e.1 e.2 (build g l) with
    | ok f _ => exact FactorReach.mutate (op := .set e.1 e.2) ih h
    | throw f => exact FactorReach.mutateThrow (op := .set e.1 e.2) ih h
    | ub => exact ih

/-- A function of one variable with two values. -/
def una (v : Var) (a b : ℚ) : Fn (Ext ℚ) := build (Group.single v) [([0], .val a), ([1], .val b)]

/-- A function of two variables with two values. -/
def bin (u v : Var) (a b c d : ℚ) : Fn (Ext ℚ) :=
  build ⟨[u, v], [u, v]⟩ [([0, 0], .val a), ([0, 1], .val b), ([1, 0], .val c), ([1, 1], .val d)]

def X : Var := ⟨10, "X", 2⟩
def Y : Var := ⟨11, "Y", 2⟩
def Z : Var := ⟨12, "Z", 2⟩

/-- A variable with three values. -/
def W : Var := ⟨13, "W", 3⟩

/-- The functions of the examples. -/
def heapXYZ : Heap (Ext ℚ) :=
  [una X 3 4, bin X Y 2 1 1 3, bin Y Z 1 2 2 1, bin X Z 2 1 1 2, bin X Y 1 2 3 4, una X 0 0,
   build ⟨[Z, W], [Z, W]⟩ [([0, 0], .val 1), ([0, 1], .val 2), ([0, 2], .val 3), ([1, 0], .val 4), ([1, 1], .val 5),
     ([1, 2], .val 6)], una Y 1 (1 / 10000000), bin X Y 0 0 0 1]

theorem heapXYZ_reach : ∀ f ∈ heapXYZ, FactorReach f := by
  intro f hf
  simp only [heapXYZ, List.mem_cons, List.not_mem_nil, or_false] at hf
  rcases hf with rfl | rfl | rfl | rfl | rfl | rfl | rfl | rfl | rfl
  · exact build_reach (.single _) (by decide) _
  · exact build_reach (.soup (vars := [X, Y]) (by decide)) (by decide) _
  · exact build_reach (.soup (vars := [Y, Z]) (by decide)) (by decide) _
  · exact build_reach (.soup (vars := [X, Z]) (by decide)) (by decide) _
  · exact build_reach (.soup (vars := [X, Y]) (by decide)) (by decide) _
  · exact build_reach (.single _) (by decide) _
  · exact build_reach (.soup (vars := [Z, W]) (by decide)) (by decide) _
  · exact build_reach (.single _) (by decide) _
  · exact build_reach (.soup (vars := [X, Y]) (by decide)) (by decide) _

/-- The operations used in the examples. -/
inductive Act where
  | add (p : Nat)
  | observe (v : Var) (k : Nat)
  | iterations (n : Nat)
  | askMarginal (v : Var)
  | askMAP (v : Var)

/-- As an operation on the model. -/
def Act.op : Act → GOp (Ext ℚ)
  | .add p => .addConst (some p)
  | .observe v k => .setEvidence rev v k
  | .iterations n => .setMaxIterations n
  | .askMarginal v => .marginal rev id v 1
  | .askMAP v => .map rev id v 1

/-- Whether an inserted factor joins variables of the same size. -/
def Act.sizes (s : State (Ext ℚ)) : Act → Bool
  | .add p =>
    match s.heap[p]? with
    | some f => f.vars.group.all (fun u => f.vars.group.all (fun v => decide (u.size = v.size)))
    | none => true
  | _ => true

/-- The state after one operation. -/
def Act.next (a : Act) (s : State (Ext ℚ)) : State (Ext ℚ) :=
  match a.op.exec s with
  | .ok s' _ => s'
  | .throw s' => s'
  | .ub => s

/-- The state after all of them, and whether all the inserted factors had equal sizes. -/
def runActs : List Act → State (Ext ℚ) → State (Ext ℚ) × Bool
  | [], s => (s, true)
  | a :: as, s => ((runActs as (a.next s)).1, a.sizes s && (runActs as (a.next s)).2)

theorem Act.prudent {s : State (Ext ℚ)} {a : Act} (h : a.sizes s = true) :
    Prudent s a.op ∧ Steady s a.op := by
  constructor
  · refine ⟨?_, ?_, ?_⟩
    · intro u w hr; cases a <;> exact hr.elim
    · cases a <;> simp [Act.op, GOp.threads]
    · intro p f hi hp u hu v hv
      cases a <;> simp [Act.op, GOp.inserted] at hi
      subst hi
      simp only [Act.sizes, hp, List.all_eq_true, decide_eq_true_eq] at h
      exact h u hu v hv
  · refine ⟨?_, ?_, ?_, ?_⟩
    · intro p o h; cases a <;> cases h
    · intro p w h; cases a <;> cases h
    · intro h; cases a <;> exact h.elim
    · intro _ _ _ _ h; cases a <;> exact h.elim

theorem Act.valid (a : Act) (s : State (Ext ℚ)) : a.op.Valid s := by
  cases a
  · exact ⟨trivial, trivial⟩
  · exact ⟨rev_perm, trivial⟩
  · exact ⟨trivial, trivial⟩
  · exact ⟨⟨rev_perm, fun l => .refl l⟩, trivial⟩
  · exact ⟨⟨rev_perm, fun l => .refl l⟩, trivial⟩

theorem runActs_drawless : ∀ (as : List Act) {s : State (Ext ℚ)}, Reach (fun s op => Prudent s op ∧ Steady s op ∧ ¬op.Draws) s →
    (runActs as s).2 = true
    → Reach (fun s op => Prudent s op ∧ Steady s op ∧ ¬op.Draws) (runActs as s).1 := by
  intro as
  induction as with
  | nil => intro s h _; exact h
  | cons a as ih =>
    intro s h hs
    simp only [runActs, Bool.and_eq_true] at hs ⊢
    refine ih ?_ hs.2
    have hv : a.op.Valid s := a.valid s
    have hp := Act.prudent hs.1
    have hd : ¬a.op.Draws := by cases a <;> exact id
    have hm : a.op.RemovesMany = false := by cases a <;> rfl
    unfold Act.next
    cases he : a.op.exec s with
    | ok s' _ => exact .ok h hv ⟨hp.1, hp.2, hd⟩ he
    | throw s' => exact .throw h hv ⟨hp.1, hp.2, hd⟩ hm he
    | ub => exact h

theorem Reach.mono {F : Type} [Arith F] {P Q : State F → GOp F → Prop} (hpq : ∀ s op, P s op → Q s op) {s : State F}
    (h : Reach P s) : Reach Q s := by
  induction h with
  | init h => exact .init h
  | ok _ hv ha he ih => exact .ok ih hv (hpq _ _ ha) he
  | throw _ hv ha hm he ih => exact .throw ih hv (hpq _ _ ha) hm he

/-- The state after a list of operations on a new model. -/
def after (as : List Act) : State (Ext ℚ) := (runActs as (State.initial heapXYZ)).1

theorem after_drawless (as : List Act) (h : (runActs as (State.initial heapXYZ)).2 = true) :
    Reach (fun s op => Prudent s op ∧ Steady s op ∧ ¬op.Draws) (after as) :=
  runActs_drawless as (.init heapXYZ_reach) h

theorem after_steady (as : List Act) (h : (runActs as (State.initial heapXYZ)).2 = true) :
    Reach (fun s op => Prudent s op ∧ Steady s op) (after as) :=
  Reach.mono (fun _ _ h => ⟨h.1, h.2.1⟩) (after_drawless as h)

theorem after_prudent (as : List Act) (h : (runActs as (State.initial heapXYZ)).2 = true) :
    Reach Prudent (after as) := Reach.mono (fun _ _ h => h.1) (after_steady as h)

theorem runActs_any : ∀ (as : List Act) {s : State (Ext ℚ)}, Reach anyOp s → Reach anyOp (runActs as s).1 := by
  intro as
  induction as with
  | nil => intro s h; exact h
  | cons a as ih =>
    intro s h
    simp only [runActs]
    refine ih ?_
    have hv : a.op.Valid s := a.valid s
    have hm : a.op.RemovesMany = false := by cases a <;> rfl
    unfold Act.next
    cases he : a.op.exec s with
    | ok s' _ => exact .ok h hv trivial he
    | throw s' => exact .throw h hv trivial hm he
    | ub => exact h

theorem after_any (as : List Act) : Reach anyOp (after as) := runActs_any as (.init heapXYZ_reach)

end

/-- The path X - Y - Z, with a function of X. -/
def path : List Act := [.add 0, .add 1, .add 2]

/-- The triangle X, Y, Z, with one iteration allowed. -/
def triangle : List Act := [.iterations 1, .add 0, .add 1, .add 2, .add 3]

theorem path_reach : Reach (fun s op => Prudent s op ∧ Steady s op) (after path) := after_steady _ (by decide +kernel)
theorem triangle_reach : Reach (fun s op => Prudent s op ∧ Steady s op) (after triangle) :=
  after_steady _ (by decide +kernel)

end Ex
end EFG
