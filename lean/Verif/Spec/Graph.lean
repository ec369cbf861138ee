import Mathlib.Combinatorics.SimpleGraph.Paths
import Mathlib.Logic.Relation
import Verif.Spec.Basic
import Verif.Model.Graph
/- What the factors accepted by a model and its evidences mean, read from the plain registers of the
model: the list of the factors, the list of the variables, the map of the evidences. -/

namespace EFG
namespace State
variable {F : Type}

/-- An accepted factor with these variables, in this order. -/
def FactorOn (s : State F) (p : Nat) (l : List Var) : Prop :=
  p ∈ s.factors ∧ ∃ f, s.heap[p]? = some f ∧ f.vars.group = l

/-- An accepted factor joins two variables. -/
def Joins (s : State F) (u v : Var) : Prop := ∃ p, s.FactorOn p [u, v] ∨ s.FactorOn p [v, u]

/-- A variable with an evidence. -/
def Observes (s : State F) (v : Var) : Prop := ∃ k, (v, k) ∈ s.evidences

/-- A variable without evidence. -/
def Hidden (s : State F) (v : Var) : Prop := v ∈ s.vars ∧ ¬ s.Observes v

/-- Two variables are linked by a chain of factors through hidden variables. -/
def Linked (s : State F) : Var → Var → Prop :=
  Relation.ReflTransGen (fun a b => s.Hidden a ∧ s.Hidden b ∧ s.Joins a b)

/-- The graph whose vertices are the variables, and whose edges are the factors joining two hidden
variables. -/
def hiddenGraph (s : State F) : SimpleGraph Var where
  Adj u v := u ≠ v ∧ s.Hidden u ∧ s.Hidden v ∧ s.Joins u v
  symm := ⟨fun _ _ h => ⟨h.1.symm, h.2.2.1, h.2.1, h.2.2.2.imp (fun _ h => h.symm)⟩⟩
  loopless := ⟨fun _ h => h.1 rfl⟩

/-- No cycle of factors goes through these variables. -/
def NoCycle (s : State F) (l : List Var) : Prop :=
  ∀ u ∈ l, ∀ c : s.hiddenGraph.Walk u u, ¬ c.IsCycle

/-- The node of `u` stores a message from `w`, equal to an accepted factor with `w` fixed at `k`. -/
def Conditioned [Arith F] (s : State F) (u w : Var) (k : Nat) : Prop :=
  ∃ n c f m, s.node? u = some n ∧ (w, c) ∈ n.disabled ∧ c.message = some m ∧ c.factor ∈ s.factors ∧
    s.heap[c.factor]? = some f ∧ m.vars.group = [u] ∧ f.vars.group.Perm [u, w] ∧
    ∀ a : Assign, a w = k → a u < u.size → m.findTransformed [a u] = f.findTransformed (f.vars.group.map a)

/-- The neighbours of a variable, as its node lists them. -/
def Neighbour (s : State F) (u w : Var) : Prop :=
  ∃ n, s.node? u = some n ∧ w ∈ (n.active ++ n.disabled).map Prod.fst

end State
end EFG
