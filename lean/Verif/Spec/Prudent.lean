import Verif.Spec.Exec
import Verif.Spec.Graph
/-
Executions which stay clear of the defects recorded in DESIGN.md: those after which every query is
defined (`Prudent`) and those after which no cached value is stale (`Steady`).
-/

namespace EFG
namespace GOp
variable {F : Type} [Arith F]

/-- The variables whose evidence an operation removes. -/
def Releases (s : State F) : GOp F → Var → Prop
  | .removeEvidence _ v, u => u.eqv v = true
  | .removeEvidenceByName _ n, u => s.vars.find? (fun v => v.name == n) = some u
  | .removeEvidences _ vs, u => ∃ v ∈ vs, u.eqv v = true
  | .removeEvidencesByName _ ns, u => ∃ n ∈ ns, s.vars.find? (fun v => v.name == n) = some u
  | .removeAllEvidences _, _ => True
  | .gradient _ _ _ _, _ => True
  | _, _ => False

/-- The number of threads a query is made with. -/
def threads : GOp F → Option Nat
  | .marginal _ _ _ n | .marginalByName _ _ _ n | .map _ _ _ n | .hiddenSetMap _ _ n | .joint _ _ _ _ n
  | .gradient _ _ _ n | .drawSamples _ _ _ n => some n
  | _ => none

/-- The factor which an operation inserts, or copies and inserts. -/
def inserted : GOp F → Option Nat
  | .addConst p | .addTunable p _ => p
  | .copyConst p | .copyTunable p _ => some p
  | _ => none

/-- The operation may change the weight of factors of the model. -/
def Reweighs : GOp F → Prop
  | .setWeights _ | .addTunable _ (some _) | .copyTunable _ (some _) => True
  | _ => False

/-- The operation draws samples. -/
def Draws : GOp F → Prop
  | .drawSamples _ _ _ _ => True
  | _ => False

end GOp

namespace State
variable {F : Type} [Arith F]

/-- Nothing computed from a factor is cached: the product of the unary factors of its variable is not,
and the other variable of a factor of an observed variable is observed as well. -/
def Uncached (s : State F) (p : Nat) : Prop :=
  ∀ f, s.heap[p]? = some f →
    (∀ v n, f.vars.group = [v] → s.node? v = some n → n.merged = none) ∧
    (∀ u v, f.vars.group = [u, v] → (s.Observes u ↔ s.Observes v))

end State

/-- An operation which keeps every later query defined: no neighbour of a variable whose evidence is
removed stays observed, queries are made with at least one thread, and the variables joined by a
factor have the same size. -/
structure Prudent {F : Type} [Arith F] (s : State F) (op : GOp F) : Prop where
  released : ∀ u w, op.Releases s u → s.Joins u w → s.Observes w → op.Releases s w
  threads : op.threads ≠ some 0
  square : ∀ p f, op.inserted = some p → s.heap[p]? = some f → ∀ u ∈ f.vars.group, ∀ v ∈ f.vars.group, u.size = v.size

/-- An operation which leaves no stale value: the factors of the model and their weights are only changed while
nothing computed from them is cached. A change of a factor through its pointer is not noticed by the model, thus no
propagation may have been made since the last change of the model. The weights are only changed by the model, which
keeps those of a cluster equal. -/
structure Steady {F : Type} [Arith F] (s : State F) (op : GOp F) : Prop where
  values : ∀ p o, op = .mutate p o → p ∈ s.factors → s.last = none ∧ s.Uncached p
  own : ∀ p w, op = .mutate p (.setWeight w) → p ∉ s.factors
  weights : op.Reweighs → ∀ t ∈ s.tuners, ∀ b ∈ t, s.Uncached b.factor
  shared : ∀ p f u v, op.Reweighs → op.inserted = some p → s.heap[p]? = some f → f.vars.group = [u, v] →
    (s.Observes u ↔ s.Observes v)

end EFG
