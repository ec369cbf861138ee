import Mathlib.Algebra.Order.AbsoluteValue.Basic
import Verif.Model.Rounded
import Verif.Spec.Cluster
/-
Relative errors: what a rounding with unit roundoff `u` may do, and how far two numbers are after some roundings.
-/

namespace EFG
variable {K : Type} [Field K] [LinearOrder K]

/-- The standard model of floating point arithmetic: the relative error of a rounding is at most `u`. It holds for the
results which do not overflow and are not below the normal numbers; for `float`, with `u = 2⁻²⁴`. -/
structure Rounding.Standard [Rounding K] (u : K) : Prop where
  nonneg : 0 ≤ u
  lt_one : u < 1
  error : ∀ x : K, |Rounding.round x - x| ≤ u * |x|

/-- The same, only for the results between `1 / H` and `H`. For `float`, with `u = 2⁻²⁴` and `H = 2¹²⁶`. -/
structure Rounding.StandardWithin [Rounding K] (H u : K) : Prop where
  nonneg : 0 ≤ u
  lt_one : u < 1
  error : ∀ x : K, 1 / H ≤ |x| → |x| ≤ H → |Rounding.round x - x| ≤ u * |x|

/-- As near as two nonnegative numbers are after `k` roundings. -/
def Near (u : K) (k : Nat) (x y : K) : Prop := (1 - u) ^ k * y ≤ x ∧ (1 - u) ^ k * x ≤ y

namespace State

open Classical in
/-- The number of roundings in a marginal of `v`, when `l` are the other variables of its cluster: twice the number of
the factors of the cluster, plus four and the size for every variable, for a normalization of the products. -/
noncomputable def roundings (s : State (Ext K)) (v : Var) (l : List Var) : Nat :=
  2 * ((s.factors.filter (fun p => s.InCluster v p)).length + ((v :: l).map (fun u => u.size + 4)).sum) + v.size + 1

open Classical in
/-- The number of the accepted factors on `u`. -/
noncomputable def degree (s : State (Ext K)) (u : Var) : Nat :=
  (s.factors.filter (fun p => ∃ l, s.FactorOn p l ∧ u ∈ l)).length

/-- An assignment of the hidden variables given the evidences which weighs at least `t` times as much as any other. -/
def NearlyBest (s : State (Ext K)) (ω : Assign → K) (t : K) (a : Assign) : Prop :=
  s.Agrees a ∧ ∀ b, s.Agrees b → t * ω b ≤ ω a

end State
end EFG
