import Mathlib.Analysis.SpecialFunctions.Log.Basic
import Verif.Model.Train
import Verif.Spec.Gradient
/-
The likelihood of a training set.
-/

namespace EFG
namespace State

/-- The image of the factor `p` at the assignment `a`. -/
def imageAt {K : Type} [Field K] [LinearOrder K] [FloatParams K] (s : State (Ext K)) (p : Nat) (a : Assign) : K :=
  match s.heap[p]? with
  | some f =>
    match f.findTransformed (f.vars.group.map a) with
    | .ok (.val x) => x
    | _ => 0
  | none => 0

variable [FloatParams ℝ]

/-- The probability which the factors give to an assignment of all the variables. -/
noncomputable def likelihood (s : State (Ext ℝ)) (a : Assign) : ℝ :=
  s.weight s.imageAt a / Tree.sumOver Var.size s.vars (s.weight s.imageAt) (fun _ => 0)

/-- The average of the logarithms of the probabilities of the samples. -/
noncomputable def logLikelihood (samples : List (List Nat)) (s : State (Ext ℝ)) : ℝ :=
  s.sampleMean samples (fun a => Real.log (s.likelihood a))

/-- The model after setting the weights. -/
noncomputable def reweighed (s : State (Ext ℝ)) (xs : List ℝ) : State (Ext ℝ) :=
  match setWeights (xs.map .val) s with
  | .ok t _ => t
  | _ => s

end State
end EFG
