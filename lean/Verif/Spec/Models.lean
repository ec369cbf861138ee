import Verif.Spec.Exec
import Verif.Spec.Graph
import Verif.Model.Models
/-
What it means that a model is a copy of another one, and which models are copied faithfully.
-/

namespace EFG
variable {F : Type} [Arith F]

/-- The same variables, in the same order, and the same images. -/
def SameImages (f g : Fn F) : Prop :=
  g.vars.group = f.vars.group ∧
    ∀ q, Valid (f.vars.group.map Var.size) q → g.findTransformed q = f.findTransformed q

/-- The same exponential factor: also the weight and the raw images are the same. -/
def SameExponential (f g : Fn F) : Prop :=
  SameImages f g ∧ f.weight.isSome ∧ g.weight = f.weight ∧
    ∀ q, Valid (f.vars.group.map Var.size) q → g.findImage q = f.findImage q

namespace State

/-- `t` has the variables, the evidences and the factors of `s`; the factor `p` of `s` is the factor `r p`
of `t`, and the functions of `s` are not changed. -/
structure CopyOf (s t : State F) (r : Nat → Nat) : Prop where
  heap : s.heap <+: t.heap
  vars : ∀ v, v ∈ t.vars ↔ v ∈ s.vars
  evidences : t.evidences.Perm s.evidences
  factors : t.factors.Perm (s.factors.map r)
  once : ∀ p ∈ s.factors, ∀ q ∈ s.factors, r p = r q → p = q
  images : ∀ p ∈ s.factors, ∃ f g, s.heap[p]? = some f ∧ t.heap[r p]? = some g ∧ SameImages f g

/-- The constant factors are constant and the tunable ones are tunable, with the same weights, in the same
clusters. -/
structure TunableCopyOf (s t : State F) (r : Nat → Nat) : Prop extends CopyOf s t r where
  consts : t.consts.Perm (s.consts.map r)
  clusters : t.tunableClusters = s.tunableClusters.map (fun c => c.map r)
  tunable : ∀ c ∈ s.tunableClusters, ∀ p ∈ c, ∃ f g, s.heap[p]? = some f ∧ t.heap[r p]? = some g ∧
    SameExponential f g

/-- Every variable is a variable of a factor. -/
def Covered (s : State F) : Prop := ∀ v ∈ s.vars, ∃ p l, s.FactorOn p l ∧ v ∈ l

/-- Every tunable factor is in a cluster. -/
def Clustered (s : State F) : Prop := ∀ p ∈ s.tunables, ∃ c ∈ s.tunableClusters, p ∈ c

/-- The factors of a cluster have one weight. -/
def EqualWeights (s : State F) : Prop :=
  ∀ c ∈ s.tunableClusters, ∀ p ∈ c, ∀ q ∈ c, ∀ f g, s.heap[p]? = some f → s.heap[q]? = some g → f.weight = g.weight

/-- The first factor of a cluster with several factors has not the variables of a factor of an earlier
cluster. -/
def Unambiguous (s : State F) : Prop :=
  ∀ (i j : Nat) (c d : List Nat) (p q : Nat), i < j → s.tunableClusters[i]? = some c →
    s.tunableClusters[j]? = some (p :: q :: d) → ∀ p' ∈ c, ∀ f f', s.heap[p]? = some f → s.heap[p']? = some f' →
      ¬ f'.vars.group.Perm f.vars.group

/-- The names tell the variables apart. -/
def Named (s : State F) : Prop := ∀ u ∈ s.vars, ∀ v ∈ s.vars, u.name = v.name → u = v

/-- All the variables of the factor are observed. -/
def Pinned (s : State F) (p : Nat) : Prop := ∃ l, s.FactorOn p l ∧ ∀ v ∈ l, s.Observes v

/-- The models from which a conditional random field can be made. -/
def Admissible (s : State F) : Prop := s.evidences ≠ [] ∧ ∀ p ∈ s.tunables, ¬ s.Pinned p

/-- The tuner fits the factor and the evidences. -/
def TunerFits (s : State F) (b : BaseTuner) : Prop :=
  ∃ f, s.heap[b.factor]? = some f ∧ b.indices = f.vars.group.map (fun v => s.vars.idxOf v) ∧
    ((∃ v, f.vars.group = [v] ∧ s.Hidden v ∧ b.kind = .unary v) ∨
     (∃ u v, f.vars.group = [u, v] ∧ s.Hidden u ∧ s.Hidden v ∧ b.kind = .binary u v) ∨
     (∃ u v, (f.vars.group = [u, v] ∨ f.vars.group = [v, u]) ∧ s.Hidden u ∧ s.Observes v ∧
        b.kind = .hiddenObserved u v))

end State

/-! ### Executions of conditional random fields -/

/-- The public operations of a conditional random field. -/
inductive CrfOp (F : Type) where
  | setEvidences (ord visit : List Var → List Var) (values : List Nat)
  | gradient (ord visit : List Var → List Var) (sched : Sched) (samples : List (List Nat)) (threads : Nat)
  | trainSet (ord visit observedOrder : List Var → List Var) (floorNat : F → Option Nat) (rnd : Nat → Random F)
      (ctx : SampleContext) (percentage : F) (threads : Nat)
  /-- The operations which it shares with the other models. -/
  | shared (op : GOp F)

/-- The operations of `GOp` which are public in a conditional random field, or act on the factors only. -/
def GOp.OfCrf {F : Type} : GOp F → Bool
  | .create _ | .mutate _ _ | .setWeights _ | .setMaxIterations _ | .marginal _ _ _ _ | .marginalByName _ _ _ _
  | .map _ _ _ _ | .hiddenSetMap _ _ _ | .joint _ _ _ _ _ | .drawSamples _ _ _ _ => true
  | _ => false

namespace CrfOp

/-- Executing an operation. -/
def exec (positions : List Nat) : CrfOp F → M (State F) Unit
  | .setEvidences ord visit values => State.setEvidences ord visit values
  | .gradient ord visit sched samples n => GOp.drop (State.getCrfGradient ord visit sched positions samples n)
  | .trainSet ord visit obsOrder fl rnd ctx pct n => GOp.drop (State.makeTrainSet ord visit obsOrder fl rnd ctx pct n)
  | .shared op => op.exec

/-- An operation a program can perform. -/
def Valid (s : State F) : CrfOp F → Prop
  | .setEvidences ord visit _ => (∀ l, (ord l).Perm l) ∧ ∀ l, (visit l).Perm l
  | .gradient ord visit sched _ _ => (∀ l, (ord l).Perm l) ∧ (∀ l, (visit l).Perm l) ∧ ∀ l, (sched l).Perm l
  | .trainSet ord visit obsOrder _ _ _ _ _ => (∀ l, (ord l).Perm l) ∧ (∀ l, (visit l).Perm l) ∧ ∀ l, (obsOrder l).Perm l
  | .shared op => op.OfCrf = true ∧ op.Valid s

end CrfOp

/-- The conditional random fields reached by executing allowed operations on one which was made from a source. -/
inductive CrfReach (allowed : State F → CrfOp F → Prop) (src : State F) (o : VisitOrder) (copy : Bool) : Crf F → Prop where
  | made {c} : Crf.make o src copy = .ok c → CrfReach allowed src o copy c
  | ok {c : Crf F} {s' : State F} {op : CrfOp F} : CrfReach allowed src o copy c → op.Valid c.state → allowed c.state op →
      op.exec c.positions c.state = .ok s' () → CrfReach allowed src o copy { c with state := s' }
  | throw {c : Crf F} {s' : State F} {op : CrfOp F} : CrfReach allowed src o copy c → op.Valid c.state → allowed c.state op →
      op.exec c.positions c.state = .throw s' → CrfReach allowed src o copy { c with state := s' }

/-- The orders are permutations. -/
structure VisitOrder.Perms (o : VisitOrder) : Prop where
  vars : ∀ l, (o.vars l).Perm l
  factors : ∀ l, (o.factors l).Perm l
  evidences : ∀ l, (o.evidences l).Perm l

end EFG
