import Verif.Spec.CrfPrudent
import Verif.Spec.Likelihood
/-
The gradient of the average conditional log-likelihood of a training set.
-/

namespace EFG
namespace State

/-- The `i`-th stored position is that of the `i`-th observed variable, in the order in which the map of the
evidences is visited. -/
def Aligned {F : Type} [Arith F] (s : State F) (visit : List Var → List Var) (positions : List Nat) : Prop :=
  ∀ (i : Nat) (v : Var), (visit (s.evidences.map Prod.fst))[i]? = some v → positions[i]? = some (s.vars.idxOf v)

section
variable {K : Type} [Field K] [LinearOrder K] [FloatParams K]

/-- Some assignment which agrees with the observed part of the sample has a positive weight. -/
def Possible (s : State (Ext K)) (φ : Nat → Assign → K) (c : List Nat) : Prop :=
  ∃ a, s.InRange a ∧ (∀ v, s.Observes v → a v = s.sampleAt c v) ∧ s.weight φ a ≠ 0

/-- Some assignment which agrees with the observed part of the sample has a positive weight `ω`. -/
def PossibleBy (s : State (Ext K)) (ω : Assign → K) (c : List Nat) : Prop :=
  ∃ a, s.InRange a ∧ (∀ v, s.Observes v → a v = s.sampleAt c v) ∧ ω a ≠ 0

/-- The sum over the factors of a cluster of the expectations of their raw images when the variables `l` are free and
the others are as in `a`, each under the distribution which the library reads from the factors when it asks for the
joint distribution of the variables of that factor. -/
noncomputable def readStatistic (s : State (Ext K)) (φ ρ : Nat → Assign → K) (l : List Var) (ps : List Nat) (a : Assign) : K :=
  (ps.map (fun p => expectation l a (s.readWeightIn (s.groupOf p) φ) (ρ p))).sum

/-- For each cluster the mean over the samples of the sum of the raw images of its factors, minus the mean over the
samples of the expectation of that sum when the variables `l` are free and the others have the values of the sample. -/
def conditionalGradient (s : State (Ext K)) (φ ρ : Nat → Assign → K) (samples : List (List Nat)) (l : List Var) : List K :=
  s.tunableClusters.map (fun k => s.sampleMean samples (statistic ρ k) -
    s.sampleMean samples (fun a => expectation l a (s.weight φ) (statistic ρ k)))

end

variable [FloatParams ℝ]

/-- The probability which the factors give to the values which `a` gives to the variables `l`, given the values
which it gives to the others. -/
noncomputable def conditional (s : State (Ext ℝ)) (l : List Var) (a : Assign) : ℝ :=
  s.weight s.imageAt a / Tree.sumOver Var.size l (s.weight s.imageAt) a

/-- The average of the logarithms of the conditional probabilities of the samples. -/
noncomputable def conditionalLogLikelihood (samples : List (List Nat)) (l : List Var) (s : State (Ext ℝ)) : ℝ :=
  s.sampleMean samples (fun a => Real.log (s.conditional l a))

end State
end EFG
