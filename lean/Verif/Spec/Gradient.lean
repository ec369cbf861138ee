import Mathlib.Algebra.Order.Field.Basic
import Verif.Spec.Weight
/-
The gradient of the average log-likelihood of a training set, as statistics and expectations.
-/

namespace EFG
namespace State
variable {K : Type} [Field K] [LinearOrder K] [FloatParams K]

/-- The model with the evidences erased. -/
def unconditioned (s : State (Ext K)) : State (Ext K) := { s with evidences := [] }

/-- `ρ p a` is the image which the tunable factor `p` has before the exponential at the assignment `a`. -/
def RawImages (s : State (Ext K)) (ρ : Nat → Assign → K) : Prop :=
  ∀ p ∈ s.tunables, ∀ a, s.InRange a → ∃ f, s.heap[p]? = some f ∧
    f.findImage (f.vars.group.map a) = .ok (.val (ρ p a))

/-- A sample lists the values of the variables in the order of the model. -/
def sampleAt (s : State (Ext K)) (c : List Nat) : Assign := fun v => (c[s.vars.idxOf v]?).getD 0

/-- The expectation of `h` under the distribution proportional to `ω` over the assignments of the variables `l`,
the others being fixed as in `e`. -/
def expectation (l : List Var) (e : Assign) (ω h : Assign → K) : K :=
  Tree.sumOver Var.size l (fun a => ω a * h a) e / Tree.sumOver Var.size l ω e

/-- The expectation of `h` under the distribution which the factors describe without evidences. -/
def modelMean (s : State (Ext K)) (φ : Nat → Assign → K) (h : Assign → K) : K :=
  expectation s.vars (fun _ => 0) (s.weight φ) h

/-- The variables of the factor `p`. -/
def groupOf (s : State (Ext K)) (p : Nat) : List Var :=
  match s.heap[p]? with
  | some f => f.vars.group
  | none => []

/-- The expectation of `h` under the distribution which the library reads from the factors, without evidences, when it
asks for the joint distribution of the variables of the factor `p`. -/
noncomputable def readMean (s : State (Ext K)) (φ : Nat → Assign → K) (p : Nat) (h : Assign → K) : K :=
  expectation s.vars (fun _ => 0) (s.unconditioned.readWeightIn (s.groupOf p) φ) h

/-- The mean of `h` over the samples. -/
def sampleMean (s : State (Ext K)) (samples : List (List Nat)) (h : Assign → K) : K :=
  (samples.map (fun c => h (s.sampleAt c))).sum / samples.length

/-- The sum of the raw images of the factors of a cluster. -/
def statistic (ρ : Nat → Assign → K) (ps : List Nat) (a : Assign) : K := (ps.map (fun p => ρ p a)).sum

end State
end EFG
