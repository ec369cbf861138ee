import Verif.Model.Train
import Verif.Model.Gibbs
/-
The models: model/Graph.{h,cpp}, model/RandomField.{h,cpp}, model/ConditionalRandomField.{h,cpp}.

A source model and the model which absorbs it live in one program: the heap of the receiver contains the
functions of the source. A model absorbing itself is not modelled.
-/

namespace EFG

/-- The orders in which the hash containers are visited while a model is absorbed. -/
structure VisitOrder where
  /-- Sets of nodes and of variables, keys of the maps of connections. -/
  vars : List Var → List Var
  /-- Sets of factors. -/
  factors : List Nat → List Nat
  /-- The map of the evidences. -/
  evidences : List (Var × Nat) → List (Var × Nat)

namespace State
variable {F : Type} [Arith F]

/-- One call after the other. -/
def andThen (x y : M (State F) Unit) : M (State F) Unit := fun s =>
  match x s with
  | .ok s1 _ => y s1
  | .throw s1 => .throw s1
  | .ub => .ub

/-- The loop on the evidences of the source (model/Graph.cpp:14-16, model/RandomField.cpp:25-27). -/
def absorbEvidences (ord : List Var → List Var) (evs : List (Var × Nat)) : M (State F) Unit :=
  forEach (fun e => setEvidence ord e.1 e.2) evs

/-- `Graph::absorb` (model/Graph.cpp:11-17): all the factors of the source become constant. The copy
constructor (model/Graph.h:28) is this function on a new model with `copy = false`. -/
def graphAbsorb (o : VisitOrder) (src : State F) (copy : Bool) : M (State F) Unit :=
  andThen (absorbConst copy (o.factors src.factors)) (absorbEvidences o.vars (o.evidences src.evidences))

/-- The two absorptions of factors of `RandomField::absorb` (model/RandomField.cpp:13-24) and of
`ConditionalRandomField::absorb` (model/ConditionalRandomField.cpp:57-59). A source without tunable
factors has no tuners. -/
def absorbFactors (o : VisitOrder) (src : State F) (copy : Bool) : M (State F) Unit :=
  andThen (absorbConst copy (o.factors src.consts)) (absorbTunableClusters copy src.tunableClusters)

/-- `RandomField::absorb` (model/RandomField.cpp:12-28). The copy constructor (model/RandomField.h:30) is
this function on a new model with `copy = false`. -/
def fieldAbsorb (o : VisitOrder) (src : State F) (copy : Bool) : M (State F) Unit :=
  andThen (absorbFactors o src copy) (absorbEvidences o.vars (o.evidences src.evidences))

/-! ### Conditional random fields -/

/-- The tuner which replaces the one of a factor joining a hidden and an observed variable
(model/ConditionalRandomField.cpp:105-116). The search of the node is not checked. -/
def conditionedTuner (s : State F) (b : BaseTuner) (f : Fn F) (hidden observed : Var) : Res BaseTuner :=
  match s.nodeKey? hidden with
  | none => .ub
  | some n =>
    match Finder.getIndices f.vars.group s.vars with
    | .ok is => .ok { factor := b.factor, indices := is, kind := .hiddenObserved n observed }
    | .throw => .throw
    | .ub => .ub

/-- `ConditionalRandomField::replaceIfNeeded` (model/ConditionalRandomField.cpp:80-119). -/
def replaceIfNeeded (s : State F) (b : BaseTuner) : Res BaseTuner :=
  match s.deref b.factor with
  | .ok f =>
    match f.vars.group with
    | [v] => if (s.evidenceKey? v).isSome then .throw else .ok b
    | [u, v] =>
      match s.evidenceKey? u, s.evidenceKey? v with
      | none, none => .ok b
      | some _, some _ => .throw
      | none, some k => conditionedTuner s b f u k
      | some k, none => conditionedTuner s b f v k
    | _ => .ok b
  | .throw => .throw
  | .ub => .ub

/-- The loop on the tuners (model/ConditionalRandomField.cpp:64-77). The evidences and the variables do not
change in it. When it throws the constructor of the model throws, so that the tuners already replaced are
not observable. -/
def replaceTuners : M (State F) Unit := fun s =>
  match Res.mapList (Res.mapList s.replaceIfNeeded) s.tuners with
  | .ok ts => .ok { s with tuners := ts } ()
  | .throw => .throw s
  | .ub => .ub

/-- The evidences of a conditional random field (model/ConditionalRandomField.cpp:60-62): the variables are
searched by name. -/
def absorbEvidencesByName (ord : List Var → List Var) (evs : List (Var × Nat)) : M (State F) Unit :=
  forEach (fun e => setEvidenceByName ord e.1.name e.2) evs

/-- `ConditionalRandomField::absorb` (model/ConditionalRandomField.cpp:52-78). -/
def crfAbsorb (o : VisitOrder) (src : State F) (copy : Bool) : M (State F) Unit := fun s =>
  if src.evidences.isEmpty then .throw s
  else andThen (andThen (absorbFactors o src copy) (absorbEvidencesByName o.vars (o.evidences src.evidences)))
    replaceTuners s

/-- `find_positions` (model/ConditionalRandomField.cpp:20-31) on the variables of a model. -/
def findPositions (s : State F) (vs : List Var) : List Nat := vs.map (fun v => s.vars.idxOf v)

end State

/-- `ConditionalRandomField` (model/ConditionalRandomField.h:19-88). -/
structure Crf (F : Type) where
  state : State F
  positions : List Nat

namespace Crf
variable {F : Type} [Arith F]

/-- The constructors of `ConditionalRandomField` (model/ConditionalRandomField.cpp:33-50) in a program whose
heap is that of the source; `none` is a throw. -/
def make (o : VisitOrder) (src : State F) (copy : Bool) : Res (Crf F) :=
  match State.crfAbsorb o src copy (State.initial src.heap) with
  | .ok s _ => .ok { state := s, positions := src.findPositions (o.vars src.observedVariables) }
  | .throw _ => .throw
  | .ub => .ub

end Crf

namespace State
variable {F : Type} [Arith F]

/-- `ConditionalRandomField::setEvidences` (model/ConditionalRandomField.cpp:121-133). `visit` is the order
in which the map of the evidences is visited: the keys do not change in the loop. -/
def setEvidences (ord visit : List Var → List Var) (values : List Nat) : M (State F) Unit := fun s =>
  if values.length ≠ s.evidences.length then .throw s
  else forEach (fun e => setEvidence ord e.1 e.2) ((visit (AMap.keys s.evidences)).zip values) s

/-- The evidences of a sample (model/ConditionalRandomField.cpp:170-175). Reading out of a vector is
undefined. -/
def sampleEvidences (positions comb : List Nat) : List Var → Nat → Res (List (Var × Nat))
  | [], _ => .ok []
  | v :: vs, k =>
    match positions[k]? with
    | none => .ub
    | some p =>
      match comb[p]? with
      | none => .ub
      | some x =>
        match sampleEvidences positions comb vs (k + 1) with
        | .ok es => .ok ((v, x) :: es)
        | .throw => .throw
        | .ub => .ub

/-- One sample of the gradient of a conditional random field (model/ConditionalRandomField.cpp:167-179):
the evidences are set, the belief is propagated and the tasks add their parts to the receivers. -/
def betaStep (ord visit : List Var → List Var) (sched : Sched) (positions : List Nat) (coeff : F)
    (betas : List F) (comb : List Nat) : M (State F) (List F) := fun s =>
  match sampleEvidences positions comb (visit (AMap.keys s.evidences)) 0 with
  | .ok es =>
    match forEach (fun e => setEvidence ord e.1 e.2) es s with
    | .ok s1 _ =>
      match propagateBelief ord sched .sum s1 with
      | .ok s2 _ =>
        match Res.mapList (fun t => tunerSum (s2.baseBeta ord) t) s2.tuners with
        | .ok bs => .ok s2 ((betas.zip bs).map (fun e => Arith.add e.1 (Arith.mul coeff e.2)))
        | .throw => .throw s2
        | .ub => .ub
      | .throw s2 => .throw s2
      | .ub => .ub
    | .throw s1 => .throw s1
    | .ub => .ub
  | .throw => .throw s
  | .ub => .ub

/-- The visit of the samples (model/ConditionalRandomField.cpp:167-179). -/
def betaLoop (ord visit : List Var → List Var) (sched : Sched) (positions : List Nat) (coeff : F) :
    List F → List (List Nat) → M (State F) (List F)
  | betas, [], s => .ok s betas
  | betas, c :: cs, s =>
    match betaStep ord visit sched positions coeff betas c s with
    | .ok s1 betas1 => betaLoop ord visit sched positions coeff betas1 cs s1
    | .throw s1 => .throw s1
    | .ub => .ub

/-- `ConditionalRandomField::getWeightsGradient_` (model/ConditionalRandomField.cpp:135-185). -/
def crfGradient (ord visit : List Var → List Var) (sched : Sched) (positions : List Nat)
    (samples : List (List Nat)) : M (State F) (List F) := fun s =>
  match Res.mapList (fun t => tunerSum (s.baseAlpha samples) t) s.tuners with
  | .ok alphas =>
    match betaLoop ord visit sched positions (Arith.div Arith.one (Arith.ofNat samples.length))
        (s.tuners.map (fun _ => Arith.zero)) samples s with
    | .ok s1 betas => .ok s1 ((alphas.zip betas).map (fun e => Arith.sub e.1 e.2))
    | .throw s1 => .throw s1
    | .ub => .ub
  | .throw => .throw s
  | .ub => .ub

/-- `FactorsTunableGetter::getWeightsGradient` (trainable/FactorsTunableManager.cpp:64-69) of a conditional
random field. -/
def getCrfGradient (ord visit : List Var → List Var) (sched : Sched) (positions : List Nat)
    (samples : List (List Nat)) (threads : Nat) : M (State F) (List F) :=
  withPool threads (crfGradient ord visit sched positions samples)

/-- `emplace_samples` (model/ConditionalRandomField.cpp:198-203). -/
def emplaceSamples (ord visit : List Var → List Var) (rnd : Random F) (ctx : SampleContext) (threads : Nat)
    (ev : List Nat) : M (State F) (List (List Nat)) := fun s =>
  match setEvidences ord visit ev s with
  | .ok s1 _ => makeSamples ord rnd ctx threads s1
  | .throw s1 => .throw s1
  | .ub => .ub

/-- The samples for a list of combinations of the evidences. Each call of the sampler has its own random
numbers. -/
def emplaceAll (ord visit : List Var → List Var) (rnd : Nat → Random F) (ctx : SampleContext) (threads : Nat) :
    List (List Nat) → M (State F) (List (List Nat))
  | [], s => .ok s []
  | ev :: evs, s =>
    match emplaceSamples ord visit (rnd evs.length) ctx threads ev s with
    | .ok s1 l =>
      match emplaceAll ord visit rnd ctx threads evs s1 with
      | .ok s2 l' => .ok s2 (l ++ l')
      | .throw s2 => .throw s2
      | .ub => .ub
    | .throw s1 => .throw s1
    | .ub => .ub

/-- The increments of model/ConditionalRandomField.cpp:222-224. -/
def advance : Nat → GroupRange → Res GroupRange
  | 0, r => .ok r
  | n + 1, r =>
    match GroupRange.next r with
    | .ok r' _ => advance n r'
    | .throw _ => .throw
    | .ub => .ub

/-- The combinations visited by the loop of model/ConditionalRandomField.cpp:216-226 from the position `k`
on. The loop is cut after `fuel` rounds with `ub`; `spacedCombinations` gives it one round more than the
size of the joint domain. With a null `delta` the loop would not end. -/
def spacedFrom (max delta : Nat) : Nat → Nat → GroupRange → Res (List (List Nat))
  | 0, k, _ => if k < max then .ub else .ok []
  | fuel + 1, k, r =>
    if k < max then
      match r.deref with
      | .ok c =>
        if max ≤ k + delta then .ok [c]
        else
          match advance delta r with
          | .ok r' =>
            match spacedFrom max delta fuel (k + delta) r' with
            | .ok cs => .ok (c :: cs)
            | .throw => .throw
            | .ub => .ub
          | .throw => .throw
          | .ub => .ub
      | .throw => .throw
      | .ub => .ub
    else .ok []

/-- The combinations of the evidences visited by `makeTrainSet` (model/ConditionalRandomField.cpp:209-227);
`floorNat` is `static_cast<std::size_t>(floorf(x))`, undefined on the numbers out of range. A division by
zero is undefined. -/
def trainCombinations (floorNat : F → Option Nat) (g : Group) (percentage : F) : Res (List (List Nat)) :=
  if Arith.eq Arith.one percentage then GroupRange.visit g.sizes
  else
    match floorNat (Arith.mul (Arith.ofNat g.size) percentage) with
    | none => .ub
    | some approx =>
      if approx = 0 then .ub
      else spacedFrom g.size (g.size / approx) (g.size + 1) 0 (GroupRange.ofGroup g)

/-- `ConditionalRandomField::makeTrainSet` (model/ConditionalRandomField.cpp:187-229). `observedOrder` is
the order in which the set of the observed variables is visited, `visit` that of the map of the evidences.
All the combinations are computed before the first is used: setting the evidences does not change them. -/
def makeTrainSet (ord visit observedOrder : List Var → List Var) (floorNat : F → Option Nat) (rnd : Nat → Random F)
    (ctx : SampleContext) (percentage : F) (threads : Nat) : M (State F) (List (List Nat)) := fun s =>
  if Arith.lt Arith.one percentage || Arith.lt percentage Arith.zero then .throw s
  else
    match Group.ofSoup (observedOrder s.observedVariables) with
    | .ok g =>
      match trainCombinations floorNat g percentage with
      | .ok evs => emplaceAll ord visit rnd ctx threads evs s
      | .throw => .throw s
      | .ub => .ub
    | .throw => .throw s
    | .ub => .ub

end State
end EFG
