import Verif.Model.Trainer
import Verif.Spec.Models
/-
What the training of a model should be: a sequence of calls of its public functions.
-/

namespace EFG
variable {F D : Type} [Arith F]

/-- A call which the optimiser made. -/
inductive Event (F : Type) where
  /-- The weights were read. -/
  | read (ws : List F)
  /-- The weights were set. -/
  | set (ws : List F)
  /-- The weights were refused. -/
  | refused (ws : List F)
  /-- The gradient was asked in the state `s` for the samples, and was `g`, or the call threw. -/
  | gradient (s : State F) (samples : List (List Nat)) (g : Option (List F))
  /-- No samples could be drawn. -/
  | noSamples

/-- `Session cv samples grad opt k s es o`: the calls `es` which the optimiser makes from the state `s`, after `k`
requests of a gradient, and the way in which it ends. `grad k l` is the public gradient of the model for the samples
`l`, as called the `k`-th time; the optimiser gets its opposite. -/
inductive Session (cv : Doubles F D) (samples : Nat → Res (List (List Nat)))
    (grad : Nat → List (List Nat) → M (State F) (List F)) :
    Optimiser D → Nat → State F → List (Event F) → Out (State F) Unit → Prop where
  | stop {k s} : Session cv samples grad .stop k s [] (.ok s ())
  | fail {k s} : Session cv samples grad .fail k s [] (.throw s)
  | read {next k s ws es o} : s.getWeights = .ok ws → Session cv samples grad (next (ws.map cv.widen)) k s es o →
      Session cv samples grad (.parameters next) k s (.read ws :: es) o
  | readThrow {next k s} : s.getWeights = .throw → Session cv samples grad (.parameters next) k s [] (.throw s)
  | readUb {next k s} : s.getWeights = .ub → Session cv samples grad (.parameters next) k s [] .ub
  | set {w next k s s' es o} : State.setWeights (w.map cv.narrow) s = .ok s' () →
      Session cv samples grad (next true) k s' es o →
      Session cv samples grad (.set w next) k s (.set (w.map cv.narrow) :: es) o
  | refused {w next k s s' es o} : State.setWeights (w.map cv.narrow) s = .throw s' →
      Session cv samples grad (next false) k s' es o →
      Session cv samples grad (.set w next) k s (.refused (w.map cv.narrow) :: es) o
  | setUb {w next k s} : State.setWeights (w.map cv.narrow) s = .ub → Session cv samples grad (.set w next) k s [] .ub
  | gradient {next k s s' l g es o} : samples k = .ok l → grad k l s = .ok s' g →
      Session cv samples grad (next (some (g.map (fun x => cv.neg (cv.widen x))))) (k + 1) s' es o →
      Session cv samples grad (.gradient next) k s (.gradient s l (some g) :: es) o
  | gradientThrow {next k s s' l es o} : samples k = .ok l → grad k l s = .throw s' →
      Session cv samples grad (next none) (k + 1) s' es o →
      Session cv samples grad (.gradient next) k s (.gradient s l none :: es) o
  | gradientUb {next k s l} : samples k = .ok l → grad k l s = .ub → Session cv samples grad (.gradient next) k s [] .ub
  | noSamples {next k s es o} : samples k = .throw → Session cv samples grad (next none) (k + 1) s es o →
      Session cv samples grad (.gradient next) k s (.noSamples :: es) o
  | samplesUb {next k s} : samples k = .ub → Session cv samples grad (.gradient next) k s [] .ub

/-- The weights after the calls: the last ones which were set. -/
def weightsAfter (ws : List F) : List (Event F) → List F
  | [] => ws
  | .set ws' :: es => weightsAfter ws' es
  | _ :: es => weightsAfter ws es

/-- Two states of a model have the same variables, factors and clusters, and differ in the weights, the evidences and
what is cached only. -/
structure SameModel (s s' : State F) : Prop where
  vars : s'.vars = s.vars
  factors : s'.factors = s.factors
  consts : s'.consts = s.consts
  tunables : s'.tunables = s.tunables
  clusters : s'.tunableClusters = s.tunableClusters
  heap : ∀ (p : Nat) f, s.heap[p]? = some f → ∃ w, s'.heap[p]? = some { f with weight := w }
  untouched : ∀ p, p ∉ s.tunableClusters.flatten → s'.heap[p]? = s.heap[p]?

end EFG
