import Verif.Spec.Cluster
/-
Two models built in the same way, whose factors may have different images.
-/

namespace EFG
namespace State
variable {K : Type} [Field K]

/-- The factors a node refers to: the unary ones, then the active and the disabled ones with their neighbours. -/
def _root_.EFG.Node.skeleton {F : Type} (n : Node F) : List Nat × List (Var × Nat) × List (Var × Nat) :=
  (n.unary, n.active.map (fun e => (e.1, e.2.factor)), n.disabled.map (fun e => (e.1, e.2.factor)))

/-- The two models have the same variables, evidences, accepted factors, clusters, iteration limit and connections.
Nothing is said of the images of the factors, of the messages and of the cached products. -/
structure SameGraph {F : Type} (s t : State F) : Prop where
  vars : t.vars = s.vars
  evidences : t.evidences = s.evidences
  factors : t.factors = s.factors
  clusters : t.clusters = s.clusters
  maxIter : t.maxIter = s.maxIter
  nodes : ∀ v, (t.node? v).map Node.skeleton = (s.node? v).map Node.skeleton

/-- The factors of the cluster of `v` have proportional images: the ratio may depend on the factor. -/
def ScaledAt [LinearOrder K] (s : State (Ext K)) (v : Var) (φ ψ : Nat → Assign → K) : Prop :=
  ∀ p, s.InCluster v p → ∃ c : K, 0 < c ∧ ∀ a, s.InRange a → ψ p a = c * φ p a

/-- The factors of the cluster of `v` which join two hidden variables have the same images, or no image below `m`. -/
def JoinsAbove [LinearOrder K] (s : State (Ext K)) (m : K) (v : Var) (φ ψ : Nat → Assign → K) : Prop :=
  ∀ p u w, s.FactorOn p [u, w] → s.Hidden u → s.Hidden w → s.Linked v u →
    (∀ a, s.InRange a → ψ p a = φ p a) ∨ ∀ a, s.InRange a → m ≤ φ p a ∧ m ≤ ψ p a

end State
end EFG
