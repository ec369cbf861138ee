import Verif.Model.Models
/-
The training of a model: trainable/ModelTrainer.{h,cpp}.

The optimiser is part of an external library (TrainingTools): here it is any program which ends after a finite number
of calls, each of which may depend on the answers to the previous ones and on whether they threw. The first steps of
an optimiser which never ends are those of one which ends.
-/

namespace EFG

/-- The conversions between `float` and `double` and the change of sign of a `double` (trainable/ModelTrainer.cpp:15-30,
68). -/
structure Doubles (F D : Type) where
  widen : F → D
  narrow : D → F
  neg : D → D

/-- An optimiser: it stops, it throws, or it calls one of the functions of `ModelWrapper`. -/
inductive Optimiser (D : Type) where
  | stop
  | fail
  | parameters (next : List D → Optimiser D)
  /-- `next` is told whether the call returned. -/
  | set (w : List D) (next : Bool → Optimiser D)
  /-- `next` has no vector if the call threw. -/
  | gradient (next : Option (List D) → Optimiser D)

/-- `TrainInfo` (trainable/ModelTrainer.h:16-27). -/
structure TrainInfo (F : Type) where
  threads : Nat
  percentage : F

section
variable {F D : Type} [Arith F]

/-- `TrainSetWrapper::get` (trainable/ModelTrainer.cpp:43-48): the samples of the iterator, which is made again unless
the percentage is 1. -/
def batch (floorInt : F → Option Int) (set : List (List Nat)) (percentage : F) (draw : Nat → Nat) :
    Res (List (List Nat)) :=
  if !Arith.eq Arith.one percentage then iteratorSamples floorInt set percentage draw else .ok set

namespace State

/-- The calls of the optimiser: `ModelWrapper::getParameters`, `setParameters`, `getGradient`
(trainable/ModelTrainer.cpp:60-69). `samples k` are the samples of the iterator of the `k`-th gradient and `grad k` is
`getWeightsGradient_` in that call. -/
def optimise (cv : Doubles F D) (samples : Nat → Res (List (List Nat)))
    (grad : Nat → List (List Nat) → M (State F) (List F)) : Optimiser D → Nat → M (State F) Unit
  | .stop, _, s => .ok s ()
  | .fail, _, s => .throw s
  | .parameters next, k, s =>
    match s.getWeights with
    | .ok ws => optimise cv samples grad (next (ws.map cv.widen)) k s
    | .throw => .throw s
    | .ub => .ub
  | .set w next, k, s =>
    match setWeights (w.map cv.narrow) s with
    | .ok s1 _ => optimise cv samples grad (next true) k s1
    | .throw s1 => optimise cv samples grad (next false) k s1
    | .ub => .ub
  | .gradient next, k, s =>
    match samples k with
    | .ok l =>
      match grad k l s with
      | .ok s1 g => optimise cv samples grad (next (some (g.map (fun x => cv.neg (cv.widen x))))) (k + 1) s1
      | .throw s1 => optimise cv samples grad (next none) (k + 1) s1
      | .ub => .ub
    | .throw => optimise cv samples grad (next none) (k + 1) s
    | .ub => .ub

/-- `train_model` (trainable/ModelTrainer.cpp:77-81): the pool is active as long as the wrapper lives. -/
def trainModel (cv : Doubles F D) (floorInt : F → Option Int) (draw : Nat → Nat → Nat)
    (grad : Nat → List (List Nat) → M (State F) (List F)) (opt : Optimiser D) (set : List (List Nat))
    (info : TrainInfo F) : M (State F) Unit :=
  withPool info.threads (optimise cv (fun k => batch floorInt set info.percentage (draw k)) grad opt 0)

/-- `train_model` on a random field: every gradient has its own orders of the containers and of the tasks. -/
def trainField (cv : Doubles F D) (floorInt : F → Option Int) (draw : Nat → Nat → Nat)
    (ord : Nat → List Var → List Var) (sched : Nat → Sched) (opt : Optimiser D) (set : List (List Nat))
    (info : TrainInfo F) : M (State F) Unit :=
  trainModel cv floorInt draw (fun k l => gradient (ord k) (sched k) l) opt set info

/-- `train_model` on a conditional random field. -/
def trainCrf (cv : Doubles F D) (floorInt : F → Option Int) (draw : Nat → Nat → Nat)
    (ord visit : Nat → List Var → List Var) (sched : Nat → Sched) (positions : List Nat) (opt : Optimiser D)
    (set : List (List Nat)) (info : TrainInfo F) : M (State F) Unit :=
  trainModel cv floorInt draw (fun k l => crfGradient (ord k) (visit k) (sched k) positions l) opt set info

end State
end
end EFG
