import Verif.Model.Train
import Verif.Model.Gibbs
import Verif.Props.Factor
/-
The operations a program can apply to a model, and the states reached by executing them.

An operation can return, throw, or be undefined; an execution goes on after the first two. Each
operation has its own iteration orders of the hash containers and its own schedule of the parallel
tasks.
-/

namespace EFG

/-- The public operations. -/
inductive GOp (F : Type) where
  /-- A factor is constructed. -/
  | create (f : Fn F)
  /-- A public mutation of a factor. -/
  | mutate (ptr : Nat) (op : Heap.Op F)
  | addConst (ptr : Option Nat)
  | copyConst (ptr : Nat)
  | addTunable (ptr : Option Nat) (share : Option VarSet)
  | copyTunable (ptr : Nat) (share : Option VarSet)
  | setWeights (ws : List F)
  | setEvidence (ord : List Var → List Var) (v : Var) (value : Nat)
  | setEvidenceByName (ord : List Var → List Var) (name : String) (value : Nat)
  | removeEvidence (ord : List Var → List Var) (v : Var)
  | removeEvidenceByName (ord : List Var → List Var) (name : String)
  | removeEvidences (ord : List Var → List Var) (vs : VarSet)
  | removeEvidencesByName (ord : List Var → List Var) (names : List String)
  | removeAllEvidences (ord : List Var → List Var)
  | setMaxIterations (n : Nat)
  | marginal (ord : List Var → List Var) (sched : Sched) (v : Var) (threads : Nat)
  | marginalByName (ord : List Var → List Var) (sched : Sched) (name : String) (threads : Nat)
  | map (ord : List Var → List Var) (sched : Sched) (v : Var) (threads : Nat)
  | hiddenSetMap (ord : List Var → List Var) (sched : Sched) (threads : Nat)
  | joint (ord : List Var → List Var) (shuffle : List State.Contribution → List State.Contribution)
      (sched : Sched) (g : Group) (threads : Nat)
  | gradient (ord : List Var → List Var) (sched : Sched) (samples : List (List Nat)) (threads : Nat)
  | drawSamples (ord : List Var → List Var) (rnd : Random F) (ctx : SampleContext) (threads : Nat)

namespace GOp
variable {F : Type} [Arith F]

/-- Forgetting the result. -/
def drop {σ α : Type} (x : M σ α) : M σ Unit := fun s =>
  match x s with
  | .ok s' _ => .ok s' ()
  | .throw s' => .throw s'
  | .ub => .ub

/-- A mutation of the heap of functions. -/
def onHeap (x : M (Heap F) Unit) : M (State F) Unit := fun s =>
  match x s.heap with
  | .ok h _ => .ok { s with heap := h } ()
  | .throw h => .throw { s with heap := h }
  | .ub => .ub

/-- Executing an operation. -/
def exec : GOp F → M (State F) Unit
  | .create f => fun s => .ok (s.alloc f).1 ()
  | .mutate p op => onHeap (Heap.mutate p op)
  | .addConst p => State.addConstFactor p
  | .copyConst p => State.copyConstFactor p
  | .addTunable p share => State.addTunable p share
  | .copyTunable p share => State.copyTunable p share
  | .setWeights ws => State.setWeights ws
  | .setEvidence ord v k => State.setEvidence ord v k
  | .setEvidenceByName ord n k => State.setEvidenceByName ord n k
  | .removeEvidence ord v => State.removeEvidence ord v
  | .removeEvidenceByName ord n => State.removeEvidenceByName ord n
  | .removeEvidences ord vs => State.removeEvidences ord vs
  | .removeEvidencesByName ord ns => State.removeEvidencesByName ord ns
  | .removeAllEvidences ord => State.removeAllEvidences ord
  | .setMaxIterations n => fun s => .ok { s with maxIter := n } ()
  | .marginal ord sched v n => drop (State.getMarginal ord sched v n)
  | .marginalByName ord sched name n => drop (State.getMarginalByName ord sched name n)
  | .map ord sched v n => drop (State.getMAP ord sched v n)
  | .hiddenSetMap ord sched n => drop (State.getHiddenSetMAP ord sched n)
  | .joint ord sh sched g n => drop (State.getJoint ord sh sched g n)
  | .gradient ord sched samples n => drop (State.getWeightsGradient ord sched samples n)
  | .drawSamples ord rnd ctx n => drop (State.makeSamples ord rnd ctx n)

/-- The iteration orders are permutations. -/
def Orders : GOp F → Prop
  | .setEvidence ord _ _ | .setEvidenceByName ord _ _ | .removeEvidence ord _
  | .removeEvidenceByName ord _ | .removeEvidences ord _ | .removeEvidencesByName ord _
  | .removeAllEvidences ord | .drawSamples ord _ _ _ => ∀ l, (ord l).Perm l
  | .marginal ord sched _ _ | .marginalByName ord sched _ _ | .map ord sched _ _
  | .hiddenSetMap ord sched _ | .gradient ord sched _ _ =>
    (∀ l, (ord l).Perm l) ∧ ∀ l, (sched l).Perm l
  | .joint ord sh sched _ _ => (∀ l, (ord l).Perm l) ∧ (∀ l, (sh l).Perm l) ∧ ∀ l, (sched l).Perm l
  | _ => True

/-- The arguments are those a C++ program can give: constructed factors, and exponential ones where
the type asks for them. The variables of a factor which is already part of the model are not
replaced (that would leave the model with stale variables, see DESIGN.md). -/
def Typed (s : State F) : GOp F → Prop
  | .create f => FactorReach f
  | .mutate p (.replaceVariables _) => p ∉ s.factors
  | .mutate p (.setWeight _) => ∀ f, s.heap[p]? = some f → f.weight.isSome
  | .addTunable (some p) _ => ∀ f, s.heap[p]? = some f → f.weight.isSome
  | .copyTunable p _ => ∀ f, s.heap[p]? = some f → f.weight.isSome
  | .joint _ _ _ g _ => GroupReach g
  | _ => True

/-- An operation a program can perform. -/
def Valid (s : State F) (op : GOp F) : Prop := op.Orders ∧ op.Typed s

/-- `removeEvidences` with several variables, the only operation which leaves the clusters behind
when it throws. -/
def RemovesMany : GOp F → Bool
  | .removeEvidences _ _ | .removeEvidencesByName _ _ => true
  | _ => false

end GOp

/-- The states reached by executing allowed operations on a new model. An operation may throw; a
throwing removal of several evidences ends the execution. -/
inductive Reach {F : Type} [Arith F] (allowed : State F → GOp F → Prop) : State F → Prop where
  | init {h : Heap F} : (∀ f ∈ h, FactorReach f) → Reach allowed (State.initial h)
  | ok {s s' op} : Reach allowed s → op.Valid s → allowed s op → op.exec s = .ok s' () → Reach allowed s'
  | throw {s s' op} : Reach allowed s → op.Valid s → allowed s op → op.RemovesMany = false →
      op.exec s = .throw s' → Reach allowed s'

/-- Every operation is allowed. -/
def anyOp {F : Type} [Arith F] : State F → GOp F → Prop := fun _ _ => True

namespace GOp
variable {F : Type} [Arith F]

/-- Runs a list of operations, going on after those which throw; `none` when one is undefined. -/
def run : List (GOp F) → State F → Option (State F)
  | [], s => some s
  | op :: ops, s =>
    match op.exec s with
    | .ok s' _ => run ops s'
    | .throw s' => run ops s'
    | .ub => none

theorem run_reach {allowed : State F → GOp F → Prop} {ops : List (GOp F)} {s s' : State F}
    (hs : Reach allowed s) (hv : ∀ op ∈ ops, ∀ s, op.Valid s) (ha : ∀ op ∈ ops, ∀ s, allowed s op)
    (hm : ∀ op ∈ ops, op.RemovesMany = false) (hr : run ops s = some s') : Reach allowed s' := by
  induction ops generalizing s with
  | nil => cases hr; exact hs
  | cons op ops ih =>
    rw [run] at hr
    have hv' := fun o ho => hv o (List.mem_cons_of_mem _ ho)
    have ha' := fun o ho => ha o (List.mem_cons_of_mem _ ho)
    have hm' := fun o ho => hm o (List.mem_cons_of_mem _ ho)
    have h1 := hv op (by simp) s
    have h2 := ha op (by simp) s
    cases he : op.exec s with
    | ok s1 u => rw [he] at hr; exact ih (.ok hs h1 h2 he) hv' ha' hm' hr
    | throw s1 => rw [he] at hr; exact ih (.throw hs h1 h2 (hm op (by simp)) he) hv' ha' hm' hr
    | ub => rw [he] at hr; cases hr

end GOp
end EFG
