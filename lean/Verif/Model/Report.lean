import Verif.Model.Belief
/-
The report on the last propagation: structure/bases/BeliefAware.h:39-45.
-/

namespace EFG.State
variable {F : Type}

/-- `BeliefAware::hasPropagationResult` (structure/bases/BeliefAware.h:41). -/
def hasPropagationResult (s : State F) : Bool := s.last.isSome

/-- `BeliefAware::getLastPropagationResult` (structure/bases/BeliefAware.h:42-44): the optional is dereferenced without
a check, which is undefined when it is empty. -/
def getLastPropagationResult (s : State F) : Res PropResult :=
  match s.last with
  | some r => .ok r
  | none => .ub

end EFG.State
