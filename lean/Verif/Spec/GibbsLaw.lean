import Mathlib.Probability.Independence.Basic
import Verif.Spec.Gibbs
import Verif.Spec.Joint
/-
Engines which draw independent numbers, uniformly distributed between 0 and 1, and the event that the library draws a
given sample.
-/

namespace EFG
open MeasureTheory ProbabilityTheory

variable {Ω : Type}

/-- The numbers drawn by the engines: `U z k` is the k-th number of an engine seeded with `z`. They are independent and
uniformly distributed from 0, included, to 1, excluded. -/
structure IdealEngines [MeasurableSpace Ω] (P : Measure Ω) (U : Nat → Nat → Ω → ℝ) : Prop where
  range : ∀ z k ω, 0 ≤ U z k ω ∧ U z k ω < 1
  measurable : ∀ z k, Measurable (U z k)
  uniform : ∀ z k x, 0 ≤ x → x ≤ 1 → P.real {ω | U z k ω ≤ x} = x
  indep : iIndepFun (fun (i : Nat × Nat) => U i.1 i.2) P

/-- The source of the random numbers: the engines draw the numbers `U`, and the rest is not random. -/
def Random.of (U : Nat → Nat → Ω → ℝ) (clock tenth : Nat → Nat) (ω : Ω) : Random (Ext ℝ) :=
  { engine := fun z k => .val (U z k ω), clock := clock, tenth := tenth }

namespace State
variable [FloatParams ℝ]

/-- The event that the i-th sample passes the test `A`. -/
def SamplePasses (ord : List Var → List Var) (rnd : Ω → Random (Ext ℝ)) (ctx : SampleContext) (n : Nat)
    (s : State (Ext ℝ)) (A : List Nat → Prop) (i : Nat) : Set Ω :=
  {ω | ∃ s' l c, makeSamples ord (rnd ω) ctx n s = .ok s' l ∧ l[i]? = some c ∧ A c}

open Classical in
/-- The part of the samples which pass the test `A`. -/
noncomputable def frequency (ord : List Var → List Var) (rnd : Ω → Random (Ext ℝ)) (ctx : SampleContext) (n : Nat)
    (s : State (Ext ℝ)) (A : List Nat → Prop) (ω : Ω) : ℝ :=
  match makeSamples ord (rnd ω) ctx n s with
  | .ok _ l => (l.countP (fun c => decide (A c)) : ℝ) / l.length
  | _ => 0

open Classical in
/-- The probability of the test `A` according to the weights: `l` are the hidden variables, and `e` gives the values of the
others. -/
noncomputable def expected (s : State (Ext ℝ)) (φ : Nat → Assign → ℝ) (l : List Var) (e : Assign) (A : List Nat → Prop) : ℝ :=
  Tree.sumOver Var.size l (fun b => if A (s.vars.map b) then s.weight φ b else 0) e /
    Tree.sumOver Var.size l (s.weight φ) e

end State
end EFG
