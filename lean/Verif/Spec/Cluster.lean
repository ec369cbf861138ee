import Verif.Spec.Weight
/-
The cluster of a hidden variable: the variables linked to it and the factors which involve one of them.
-/

namespace EFG
namespace State
variable {K : Type} [Field K]

/-- The accepted factor `p` involves a hidden variable linked to `v`. -/
def InCluster (s : State (Ext K)) (v : Var) (p : Nat) : Prop :=
  ∃ l u, s.FactorOn p l ∧ u ∈ l ∧ s.Hidden u ∧ s.Linked v u

open Classical in
/-- The product of the factors of the cluster of `v`. -/
noncomputable def clusterWeight (s : State (Ext K)) (φ : Nat → Assign → K) (v : Var) (a : Assign) : K :=
  ((s.factors.filter (fun p => s.InCluster v p)).map (fun p => φ p a)).prod

open Classical in
/-- The product of the factors of the cluster of `v`, as the library reads them. -/
noncomputable def clusterRead (s : State (Ext K)) (φ : Nat → Assign → K) (v : Var) (a : Assign) : K :=
  ((s.factors.filter (fun p => s.InCluster v p)).map (fun p => φ p (s.readAt p a))).prod

/-- The other variables of the cluster of `v`. -/
def ClusterOthers (s : State (Ext K)) (v : Var) (l : List Var) : Prop :=
  l.Nodup ∧ ∀ w, w ∈ l ↔ s.Linked v w ∧ w ≠ v

end State
end EFG
