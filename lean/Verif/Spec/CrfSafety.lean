import Verif.Spec.Safety
import Verif.Spec.CrfPrudent
import Verif.Model.Trainer
/-
The operands with which an operation of a conditional random field is defined.
-/

namespace EFG
namespace CrfOp
variable {F : Type} [Arith F]

/-- The operands which the library does not check: the samples of a training set give to each variable of the model
one of its values; the percentage of the combinations of the evidences is 1, or is refused, or is such that the whole
number of combinations, as the code computes it, is neither null nor greater than that of all the combinations. -/
def Sensible (s : State F) : CrfOp F → Prop
  | .setEvidences _ _ _ => True
  | .gradient _ _ _ samples _ => ∀ c ∈ samples, EFG.Valid (s.vars.map Var.size) c
  | .trainSet _ _ _ floorNat _ _ percentage _ =>
      Arith.lt Arith.one percentage = true ∨ Arith.lt percentage Arith.zero = true ∨ Arith.eq Arith.one percentage = true ∨
      ∃ a, floorNat (Arith.mul (Arith.ofNat (s.evidences.map (fun e => e.1.size)).prod) percentage) = some a ∧
        1 ≤ a ∧ a ≤ (s.evidences.map (fun e => e.1.size)).prod
  | .shared op => op.Sensible s

end CrfOp

/-- The positions at which the evidences are read in a sample are those of values of the sample. -/
def Crf.WithinSamples {F : Type} [Arith F] (c : Crf F) : Prop := ∀ p ∈ c.positions, p < c.state.vars.length

/-- The operands of a training which the library does not check: the set is not empty, as one which was constructed, and
the percentage is 1, or is refused, or the whole number of samples is a number of type `int`. -/
def TrainInfo.Sensible {F : Type} [Arith F] (info : TrainInfo F) (floorInt : F → Option Int) (set : List (List Nat)) : Prop :=
  set ≠ [] ∧ (Arith.eq Arith.one info.percentage = true ∨ Arith.le info.percentage Arith.zero = true ∨
    Arith.lt Arith.one info.percentage = true ∨
    ∃ k, floorInt (Arith.mul info.percentage (Arith.ofNat set.length)) = some k)

end EFG
