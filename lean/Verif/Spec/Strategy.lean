import Verif.Model.Strategy
/-
What is asked of a propagation strategy given by the user.
-/

namespace EFG
variable {F : Type} [Arith F]

/-- The node where the message of every connection is the one given. -/
def Node.withMessages (n : Node F) (μ : Var → Option (Fn F)) : Node F :=
  { n with active := n.active.map (fun x => (x.1, { x.2 with message := μ x.1 })) }

/-- The state where the message of every connection is the one given. -/
def State.withMessages (s : State F) (μ : Var → Var → Option (Fn F)) : State F :=
  { s with nodes := s.nodes.map (fun e => (e.1, e.2.withMessages (μ e.1))) }

/-- The message which a node has received from another one. -/
def State.received (s : State F) (u v : Var) : Option (Fn F) := (AMap.find? (s.activeOf u) v).bind (·.message)

/-- A strategy which, when it returns, has changed nothing but the messages between the nodes of the
cluster it was given, and has left in each connection of these nodes a table with one number for each value of the node. -/
def Strategy.Careful (σ : Strategy F) : Prop :=
  ∀ kind n (c : Cluster) topos s s' done, σ kind n c topos s = .ok s' done →
    ∃ μ : Var → Var → Option (Fn F), s' = s.withMessages μ ∧
      (∀ u, u ∉ c.nodes → ∀ v, μ u v = s.received u v) ∧
      ∀ u ∈ c.nodes, ∀ v ∈ AMap.keys (s.activeOf u), ∃ xs : List F, xs.length = u.size ∧
        μ u v = some { (Fn.ones u : Fn F) with data := .dense xs }

end EFG
