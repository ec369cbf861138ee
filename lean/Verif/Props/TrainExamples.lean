import Verif.Props.Examples
/-
Concrete models with tunable factors, used in the examples of the theorems about weights.
-/

namespace EFG
namespace Ex

/-- The exponential function with some raw images and a weight. -/
def expo (f : Fn (Ext ℚ)) (w : ℚ) : Fn (Ext ℚ) :=
  match f.exponential (.val w) with
  | .ok e => e
  | _ => f

theorem expo_reach {f : Fn (Ext ℚ)} (h : FactorReach f) (w : ℚ) : FactorReach (expo f w) := by
  unfold expo
  cases he : f.exponential (.val w) with
  | ok e => exact .exponential h he
  | throw => exact h
  | ub => exact h

/-- The functions of the examples with tunable factors. -/
def heapT : Heap (Ext ℚ) :=
  [expo (una X 0 1) 1, expo (bin X Y 0 1 1 0) 2, expo (una Y 0 1) 3, expo (bin Y Z 1 0 0 1) 1, una X 1 2, bin X Y 1 2 2 1,
   expo (una X 0 1) 2, expo (una Z 0 1) 1, expo (una X 1 1) 1, bin X Y 1 2 3 4]

theorem heapT_reach : ∀ f ∈ heapT, FactorReach f := by
  intro f hf
  simp only [heapT, List.mem_cons, List.not_mem_nil, or_false] at hf
  rcases hf with rfl | rfl | rfl | rfl | rfl | rfl | rfl | rfl | rfl | rfl
  · exact expo_reach (build_reach (.single _) (by decide) _) _
  · exact expo_reach (build_reach (.soup (vars := [X, Y]) (by decide)) (by decide) _) _
  · exact expo_reach (build_reach (.single _) (by decide) _) _
  · exact expo_reach (build_reach (.soup (vars := [Y, Z]) (by decide)) (by decide) _) _
  · exact build_reach (.single _) (by decide) _
  · exact build_reach (.soup (vars := [X, Y]) (by decide)) (by decide) _
  · exact expo_reach (build_reach (.single _) (by decide) _) _
  · exact expo_reach (build_reach (.single _) (by decide) _) _
  · exact expo_reach (build_reach (.single _) (by decide) _) _
  · exact build_reach (.soup (vars := [X, Y]) (by decide)) (by decide) _

/-- The operations used in these examples. -/
inductive TAct where
  | add (p : Nat)
  | tune (p : Nat) (share : Option (List Var))
  | copyTune (p : Nat) (share : Option (List Var))
  | weights (ws : List ℚ)
  | observe (v : Var) (k : Nat)
  | forget
  | askMarginal (v : Var)
  | askMAP (v : Var)
  | askGradient (samples : List (List Nat))

/-- As an operation on the model. -/
def TAct.op : TAct → GOp (Ext ℚ)
  | .add p => .addConst (some p)
  | .tune p share => .addTunable (some p) share
  | .copyTune p share => .copyTunable p share
  | .weights ws => .setWeights (ws.map Ext.val)
  | .observe v k => .setEvidence rev v k
  | .forget => .removeAllEvidences rev
  | .askMarginal v => .marginal rev id v 1
  | .askMAP v => .map rev id v 1
  | .askGradient samples => .gradient rev id samples 1

/-- Tunable factors are exponential. -/
def TAct.typed (s : State (Ext ℚ)) : TAct → Bool
  | .tune p _ | .copyTune p _ =>
    match s.heap[p]? with
    | some f => f.weight.isSome
    | none => true
  | _ => true

theorem TAct.valid {a : TAct} {s : State (Ext ℚ)} (h : a.typed s = true) : a.op.Valid s := by
  cases a with
  | add p => exact ⟨trivial, trivial⟩
  | tune p g => exact ⟨trivial, fun f hf => by simpa [TAct.typed, hf] using h⟩
  | copyTune p g => exact ⟨trivial, fun f hf => by simpa [TAct.typed, hf] using h⟩
  | weights ws => exact ⟨trivial, trivial⟩
  | observe v k => exact ⟨rev_perm, trivial⟩
  | forget => exact ⟨rev_perm, trivial⟩
  | askMarginal v => exact ⟨⟨rev_perm, fun l => .refl l⟩, trivial⟩
  | askMAP v => exact ⟨⟨rev_perm, fun l => .refl l⟩, trivial⟩
  | askGradient samples => exact ⟨⟨rev_perm, fun l => .refl l⟩, trivial⟩

/-- The state after one operation. -/
def TAct.next (a : TAct) (s : State (Ext ℚ)) : State (Ext ℚ) :=
  match a.op.exec s with
  | .ok s' _ => s'
  | .throw s' => s'
  | .ub => s

/-- The state after all of them. -/
def runT : List TAct → State (Ext ℚ) → State (Ext ℚ)
  | [], s => s
  | a :: as, s => runT as (a.next s)

/-- A check along an execution. -/
def allT (c : State (Ext ℚ) → TAct → Bool) : List TAct → State (Ext ℚ) → Bool
  | [], _ => true
  | a :: as, s => c s a && allT c as (a.next s)

theorem runT_reach {allowed : State (Ext ℚ) → GOp (Ext ℚ) → Prop} {c : State (Ext ℚ) → TAct → Bool}
    (hc : ∀ s a, c s a = true → a.op.Valid s ∧ allowed s a.op) : ∀ (as : List TAct) {s : State (Ext ℚ)},
    Reach allowed s → allT c as s = true → Reach allowed (runT as s) := by
  intro as
  induction as with
  | nil => intro s h _; exact h
  | cons a as ih =>
    intro s h hs
    simp only [runT, allT, Bool.and_eq_true] at hs ⊢
    refine ih ?_ hs.2
    obtain ⟨hv, hal⟩ := hc s a hs.1
    have hm : a.op.RemovesMany = false := by cases a <;> rfl
    unfold TAct.next
    cases he : a.op.exec s with
    | ok s' _ => exact .ok h hv hal he
    | throw s' => exact .throw h hv hal hm he
    | ub => exact h

/-- Whether an inserted factor joins variables of the same size. -/
def TAct.sizes (s : State (Ext ℚ)) : TAct → Bool
  | .add p | .tune p _ | .copyTune p _ =>
    match s.heap[p]? with
    | some f => f.vars.group.all (fun u => f.vars.group.all (fun v => decide (u.size = v.size)))
    | none => true
  | _ => true

/-- Whether an operation may change weights. -/
def TAct.keeps : TAct → Bool
  | .tune _ (some _) | .copyTune _ (some _) | .weights _ => false
  | _ => true

theorem TAct.prudent {s : State (Ext ℚ)} {a : TAct} (h : a.sizes s = true) : Prudent s a.op := by
  refine ⟨?_, ?_, ?_⟩
  · intro u w hr hj ho
    cases a with
    | forget => trivial
    | askGradient _ => trivial
    | _ => exact hr.elim
  · cases a <;> simp [TAct.op, GOp.threads]
  · intro p f hi hp u hu v hv
    cases a <;> simp [TAct.op, GOp.inserted] at hi <;> subst hi <;>
      · simp only [TAct.sizes, hp, List.all_eq_true, decide_eq_true_eq] at h
        exact h u hu v hv

theorem TAct.steady {s : State (Ext ℚ)} {a : TAct} (h : a.keeps = true) : Steady s a.op := by
  have hr : ¬ a.op.Reweighs := by
    intro hr
    cases a with
    | weights => cases h
    | tune p g => cases g with
      | none => exact hr
      | some g => cases h
    | copyTune p g => cases g with
      | none => exact hr
      | some g => cases h
    | _ => exact hr
  exact ⟨(fun p o h => by cases a <;> cases h), (fun p w h => by cases a <;> cases h), fun h => (hr h).elim, fun _ _ _ _ h => (hr h).elim⟩

/-- The state after a list of operations on a new model. -/
def afterT (as : List TAct) : State (Ext ℚ) := runT as (State.initial heapT)

theorem afterT_any (as : List TAct) (h : allT (fun s a => a.typed s) as (State.initial heapT) = true) :
    Reach anyOp (afterT as) :=
  runT_reach (fun _ _ h => ⟨TAct.valid h, trivial⟩) as (.init heapT_reach) h

theorem afterT_prudent (as : List TAct)
    (h : allT (fun s a => a.typed s && a.sizes s) as (State.initial heapT) = true) : Reach Prudent (afterT as) :=
  runT_reach (fun _ _ h => by
    rw [Bool.and_eq_true] at h
    exact ⟨TAct.valid h.1, TAct.prudent h.2⟩) as (.init heapT_reach) h

theorem afterT_steady (as : List TAct)
    (h : allT (fun s a => a.typed s && a.sizes s && a.keeps) as (State.initial heapT) = true) :
    Reach (fun s op => Prudent s op ∧ Steady s op) (afterT as) :=
  runT_reach (fun _ _ h => by
    rw [Bool.and_eq_true, Bool.and_eq_true] at h
    exact ⟨TAct.valid h.1.1, TAct.prudent h.1.2, TAct.steady h.2⟩) as (.init heapT_reach) h

/-- The answer of a query. -/
def answer {α : Type} : Out (State (Ext ℚ)) α → Option α
  | .ok _ x => some x
  | _ => none

theorem of_answer {α : Type} {o : Out (State (Ext ℚ)) α} {x : α} (h : answer o = some x) : ∃ s', o = .ok s' x := by
  cases o with
  | ok s' y => exact ⟨s', by rw [Option.some.inj h]⟩
  | throw s' => cases h
  | ub => cases h

end Ex
end EFG
