import Verif.Model.Query
/-
Tunable factors: trainable/FactorsTunableManager.{h,cpp}, trainable/tuners/*.{h,cpp},
trainable/TrainSet.{h,cpp}, the gradient of a random field (model/RandomField.cpp) and the
absorption of factors (structure/FactorsConstManager.h).
-/

namespace EFG

/-! ### Training sets -/

/-- `TrainSet::TrainSet` (trainable/TrainSet.cpp:14-25). -/
def makeTrainSet (combinations : List (List Nat)) : Res (List (List Nat)) :=
  match combinations with
  | [] => .throw
  | c :: _ =>
    if combinations.all (fun d => !(d.length == 0 || !(c.length == d.length))) then .ok combinations
    else .throw

/-- The random draws of `TrainSet::Iterator::Iterator` (trainable/TrainSet.cpp:39-42): `rand() % n`. -/
def drawPositions (n : Nat) (draws : List Nat) : List Nat := draws.map (fun r => r % n)

/-- The samples visited by an iterator (trainable/TrainSet.cpp:27-43, TrainSet.h `forEachSample`).
`floorInt` is `static_cast<int>(floorf(x))`, undefined on the numbers which are not in the range of an
`int`, and `draw k` the result of the k-th call of `rand()`. -/
def iteratorSamples {F : Type} [Arith F] (floorInt : F → Option Int) (set : List (List Nat)) (percentage : F)
    (draw : Nat → Nat) : Res (List (List Nat)) :=
  if Arith.eq Arith.one percentage then .ok set
  else if Arith.le percentage Arith.zero || Arith.lt Arith.one percentage then .throw
  else
    match floorInt (Arith.mul percentage (Arith.ofNat set.length)) with
    | none => .ub
    | some k =>
      Res.mapList (fun p => Res.ofOption set[p]?) (drawPositions set.length ((List.range (max 0 k).toNat).map draw))

namespace State
variable {F : Type} [Arith F]

/-! ### Tuners -/

/-- A factor constructed in place: `BaseTuner::getWeight` (trainable/tuners/BaseTuner.h). Reading the
weight of a function which is not exponential is not possible in C++. -/
def weightOf (s : State F) (p : Nat) : Res F :=
  match s.heap[p]? with
  | some f => Res.ofOption f.weight
  | none => .ub

/-- `Tuner::getWeight`: the weight of the first element (trainable/tuners/CompositeTuner.h). -/
def tunerWeight (s : State F) (t : List BaseTuner) : Res F :=
  match t with
  | b :: _ => s.weightOf b.factor
  | [] => .ub

/-- `BaseTuner::setWeight` on the heap. -/
def heapSetWeight (w : F) (h : Heap F) (p : Nat) : Heap F := h.modify p (fun f => f.setWeight w)

/-- `Tuner::setWeight` (trainable/tuners/BaseTuner.h, CompositeTuner.cpp:42-46). -/
def setTunerWeight (t : List BaseTuner) (w : F) (s : State F) : State F :=
  { s with heap := (t.map BaseTuner.factor).foldl (heapSetWeight w) s.heap }

/-- `FactorsTunableGetter::getWeights` (trainable/FactorsTunableManager.cpp:45-52). -/
def getWeights (s : State F) : Res (List F) := Res.mapList s.tunerWeight s.tuners

/-- The loop of `setWeights` (trainable/FactorsTunableManager.cpp:58-60). -/
def setTunersWeights : List (List BaseTuner × F) → State F → State F
  | [], s => s
  | (t, w) :: l, s => setTunersWeights l (setTunerWeight t w s)

/-- `FactorsTunableGetter::setWeights` (trainable/FactorsTunableManager.cpp:54-62). -/
def setWeights (ws : List F) : M (State F) Unit := fun s =>
  if ws.length ≠ s.tuners.length then .throw s
  else .ok (setTunersWeights (s.tuners.zip ws) s).resetBelief ()

/-- `set_ones` (trainable/FactorsTunableManager.cpp:188-194). -/
def setOnes : M (State F) Unit := fun s =>
  match s.getWeights with
  | .ok ws => setWeights (ws.map (fun _ => Arith.one)) s
  | .throw => .throw s
  | .ub => .ub

/-- Whether a tuner has an element whose factor has exactly the given variables
(trainable/FactorsTunableManager.cpp:74-94). -/
def tunes (s : State F) (g : VarSet) (t : List BaseTuner) : Bool :=
  t.any (fun b => match s.heap[b.factor]? with
    | some f => VarSet.same f.vars.sorted g
    | none => false)

/-- `FactorsTunableInserter::findTuner` (trainable/FactorsTunableManager.cpp:71-100). -/
def findTuner (s : State F) (g : VarSet) : Option Nat := s.tuners.findIdx? (s.tunes g)

/-- `FactorsTunableInserter::makeTuner` (trainable/FactorsTunableManager.cpp:102-117) with the
constructors of the tuners (trainable/tuners/BaseTuner.cpp:11-13, BinaryTuner.cpp:13-25). -/
def makeTuner (s : State F) (p : Nat) (f : Fn F) : Res BaseTuner :=
  match f.vars.group with
  | [v] =>
    match s.locate v with
    | none => .ub
    | some (node, _) =>
      match Finder.getIndices f.vars.group s.vars with
      | .ok is => .ok { factor := p, indices := is, kind := .unary node }
      | .throw => .throw
      | .ub => .ub
  | [v, w] =>
    match s.locate v, s.locate w with
    | some (a, _), some (b, _) =>
      match Finder.getIndices f.vars.group s.vars with
      | .ok is =>
        if v ≠ a then .throw
        else if w ≠ b then .throw
        else .ok { factor := p, indices := is, kind := .binary a b }
      | .throw => .throw
      | .ub => .ub
    | _, _ => .ub
  | _ => .throw

/-- Joining the tuner at a position (trainable/FactorsTunableManager.cpp:130-142): the new element
takes the weight of the first one. -/
def shareTuner (i : Nat) (b : BaseTuner) : M (State F) Unit := fun s =>
  match s.tuners[i]? with
  | none => .ub
  | some t =>
    match s.tunerWeight t with
    | .ok w =>
      .ok (setTunerWeight (t ++ [b]) w { s with tuners := s.tuners.modify i (fun t => t ++ [b]) }) ()
    | .throw => .throw s
    | .ub => .ub

/-- `FactorsTunableInserter::addTunableFactor` (trainable/FactorsTunableManager.cpp:119-143). -/
def addTunable (ptr : Option Nat) (share : Option VarSet) : M (State F) Unit := fun s =>
  match addDistribution ptr s with
  | .ok s1 _ =>
    match ptr with
    | none => .ub
    | some p =>
      match s1.deref p with
      | .ok f =>
        match s1.makeTuner p f with
        | .ok b =>
          let s2 : State F := { s1 with tunables := s1.tunables ++ [p] }
          match share with
          | none => .ok { s2 with tuners := s2.tuners ++ [[b]] } ()
          | some g =>
            match s2.findTuner g with
            | none => .throw s2
            | some i => shareTuner i b s2
        | .throw => .throw s1
        | .ub => .ub
      | .throw => .throw s1
      | .ub => .ub
  | .throw s1 => .throw s1
  | .ub => .ub

/-- `FactorsTunableInserter::copyTunableFactor` (trainable/FactorsTunableManager.cpp:145-150). -/
def copyTunable (ptr : Nat) (share : Option VarSet) : M (State F) Unit := fun s =>
  match s.deref ptr with
  | .ok f =>
    match f.copyExponential with
    | .ok g => addTunable (some s.heap.length) share (alloc g s).1
    | .throw => .throw s
    | .ub => .ub
  | .throw => .throw s
  | .ub => .ub

/-! ### Absorption -/

/-- `try { ... } catch (...) {}`. -/
def swallow (x : M (State F) Unit) : M (State F) Unit := fun s =>
  match x s with
  | .ok s' _ => .ok s' ()
  | .throw s' => .ok s' ()
  | .ub => .ub

/-- One insertion of `absorbConstFactors`. -/
def insertConst (copy : Bool) (p : Nat) : M (State F) Unit :=
  if copy then copyConstFactor p else addConstFactor (some p)

/-- `absorbConstFactors` (structure/FactorsConstManager.h:64-77). -/
def absorbConst (copy : Bool) (ps : List Nat) : M (State F) Unit :=
  forEach (fun p => swallow (insertConst copy p)) ps

/-- `insertFactor` (trainable/FactorsTunableManager.cpp:154-163). -/
def insertTunable (copy : Bool) (p : Nat) (share : Option VarSet) : M (State F) Unit :=
  if copy then copyTunable p share else addTunable (some p) share

/-- `absorbTunableFactors` (trainable/FactorsTunableManager.h). -/
def absorbTunable (copy : Bool) (ps : List Nat) : M (State F) Unit :=
  forEach (fun p => swallow (insertTunable copy p none)) ps

/-- The insertion of one cluster (trainable/FactorsTunableManager.cpp:166-182). `front()` of an empty
cluster is undefined. -/
def insertTunableCluster (copy : Bool) (ps : List Nat) : M (State F) Unit := fun s =>
  match ps with
  | [] => .ub
  | p :: ps =>
    match s.deref p with
    | .ok f =>
      match insertTunable copy p none s with
      | .ok s1 _ => forEach (fun q => insertTunable copy q (some f.vars.sorted)) ps s1
      | .throw s1 => .throw s1
      | .ub => .ub
    | .throw => .throw s
    | .ub => .ub

/-- `absorbTunableClusters` (trainable/FactorsTunableManager.cpp:152-186). -/
def absorbTunableClusters (copy : Bool) (clusters : List (List Nat)) : M (State F) Unit :=
  forEach (fun c => swallow (insertTunableCluster copy c)) clusters

/-- `FactorsTunableGetter::getTunableClusters` (trainable/FactorsTunableManager.cpp:25-43). -/
def tunableClusters (s : State F) : List (List Nat) := s.tuners.map (fun t => t.map BaseTuner.factor)

/-! ### Gradients -/

/-- One round of the visit of `getGradientAlpha` (trainable/tuners/BaseTuner.cpp:21-24). -/
def alphaStep (f : Fn F) (indices : List Nat) (coeff acc : F) (comb : List Nat) : Res F :=
  match Finder.findImage ⟨f, indices⟩ comb with
  | .ok x => .ok (Arith.add acc (Arith.mul coeff x))
  | .throw => .throw
  | .ub => .ub

/-- `BaseTuner::getGradientAlpha` (trainable/tuners/BaseTuner.cpp:15-27). -/
def baseAlpha (s : State F) (samples : List (List Nat)) (b : BaseTuner) : Res F :=
  match s.deref b.factor with
  | .ok f =>
    Res.foldList (alphaStep f b.indices (Arith.div Arith.one (Arith.ofNat samples.length))) Arith.zero samples
  | .throw => .throw
  | .ub => .ub

/-- The loop of `dotProduct` (trainable/tuners/BaseTuner.cpp:31-35): reading past the end of the
probabilities is undefined. -/
def dotLoop : F → List F → List F → Res F
  | acc, _, [] => .ok acc
  | _, [], _ :: _ => .ub
  | acc, p :: ps, x :: xs => dotLoop (Arith.add acc (Arith.mul p x)) ps xs

/-- `BaseTuner::dotProduct` (trainable/tuners/BaseTuner.cpp:29-37): raw images. -/
def dotProduct (f : Fn F) (probs : List F) : Res F :=
  match f.rawEntries with
  | .ok es => dotLoop Arith.zero probs (es.map Prod.snd)
  | .throw => .throw
  | .ub => .ub

/-- The factors gathered at a node: the merged unaries and the messages of the given neighbours. -/
def gatherFrom (n : Node F) (keys : List Var) : Res (Fn F) :=
  match n.merged with
  | none => .throw
  | some m =>
    match Res.mapList (activeMessage n) keys with
    | .ok ms => Fn.mergedUnaries (m :: ms)
    | .throw => .throw
    | .ub => .ub

/-- `UnaryTuner::getGradientBeta` (trainable/tuners/UnaryTuner.cpp:17-24). -/
def unaryBeta (ord : List Var → List Var) (s : State F) (f : Fn F) (node : Var) : Res F :=
  match belief ord s node with
  | .ok probs => dotProduct f probs
  | .throw => .throw
  | .ub => .ub

/-- The distribution of a node without the message of `other`
(trainable/tuners/BinaryTuner.cpp:29-42). The order of the set of pointers is not modelled: the
merged unaries come first. -/
def cavity (ord : List Var → List Var) (s : State F) (v other : Var) : Res (List F) :=
  match s.node? v with
  | none => .ub
  | some n =>
    match gatherFrom n (ord ((AMap.keys n.active).filter (fun w => !decide (w = other)))) with
    | .ok m => m.probabilities
    | .throw => .throw
    | .ub => .ub

/-- One entry of the vector of `BinaryTuner::getGradientBeta` (trainable/tuners/BinaryTuner.cpp:54-58).
Reading out of a vector is undefined. -/
def pairWeight (pa pb : List F) (e : List Nat × F) : Res F :=
  match e.1 with
  | [i, j] =>
    match pa[i]?, pb[j]? with
    | some x, some y => .ok (Arith.mul (Arith.mul e.2 x) y)
    | _, _ => .ub
  | _ => .ub

/-- `BinaryTuner::getGradientBeta` (trainable/tuners/BinaryTuner.cpp:46-63). -/
def binaryBeta (ord : List Var → List Var) (s : State F) (f : Fn F) (a b : Var) : Res F :=
  match cavity ord s a b with
  | .ok pa =>
    match cavity ord s b a with
    | .ok pb =>
      match f.entries with
      | .ok es =>
        match Res.mapList (pairWeight pa pb) es with
        | .ok ws =>
          dotProduct f (ws.map (fun w => Arith.mul w (Arith.div Arith.one (Arith.sum ws))))
        | .throw => .throw
        | .ub => .ub
      | .throw => .throw
      | .ub => .ub
    | .throw => .throw
    | .ub => .ub
  | .throw => .throw
  | .ub => .ub

/-- One round of the loop of `HiddenObservedTuner::getGradientBeta`
(src/model/HiddenObservedTuner.cpp:37-40). -/
def hiddenObservedStep (f : Fn F) (comb : Nat → List Nat) (acc : F) (e : F × Nat) : Res F :=
  match f.findImage (comb e.2) with
  | .ok x => .ok (Arith.add acc (Arith.mul e.1 x))
  | .throw => .throw
  | .ub => .ub

/-- `HiddenObservedTuner::getGradientBeta` (src/model/HiddenObservedTuner.cpp:25-43); the positions are
those computed by the constructor (11-22). -/
def hiddenObservedBeta (ord : List Var → List Var) (s : State F) (f : Fn F) (hidden ev : Var) : Res F :=
  match belief ord s hidden with
  | .ok probs =>
    match AMap.find? s.evidences ev with
    | none => .ub
    | some value =>
      let comb := fun h => if f.vars.group.head? = some ev then [value, h] else [h, value]
      Res.foldList (hiddenObservedStep f comb) Arith.zero probs.zipIdx
  | .throw => .throw
  | .ub => .ub

/-- `getGradientBeta` of a base tuner. -/
def baseBeta (ord : List Var → List Var) (s : State F) (b : BaseTuner) : Res F :=
  match s.deref b.factor with
  | .ok f =>
    match b.kind with
    | .unary v => unaryBeta ord s f v
    | .binary u v => binaryBeta ord s f u v
    | .hiddenObserved h o => hiddenObservedBeta ord s f h o
  | .throw => .throw
  | .ub => .ub

/-- The sum over the elements: `CompositeTuner::getGradient*` (trainable/tuners/CompositeTuner.cpp:26-40).
A base tuner returns the value of its only element; adding it to 0 is the same in exact arithmetic. -/
def tunerSum (g : BaseTuner → Res F) (t : List BaseTuner) : Res F :=
  match t with
  | [b] => g b
  | _ =>
    match Res.mapList g t with
    | .ok xs => .ok (Arith.sum xs)
    | .throw => .throw
    | .ub => .ub

/-- A task of the gradient of a random field (model/RandomField.cpp:43-46). -/
def gradientTask (ord : List Var → List Var) (samples : List (List Nat)) (s : State F)
    (t : List BaseTuner) : Res F :=
  match tunerSum (s.baseAlpha samples) t with
  | .ok a =>
    match tunerSum (s.baseBeta ord) t with
    | .ok b => .ok (Arith.sub a b)
    | .throw => .throw
    | .ub => .ub
  | .throw => .throw
  | .ub => .ub

/-- `RandomField::getWeightsGradient_` (model/RandomField.cpp:32-51). Each task writes its own
receiver; the tasks are executed in the order of the tuners. -/
def gradient (ord : List Var → List Var) (sched : Sched) (samples : List (List Nat)) :
    M (State F) (List F) := fun s =>
  let start : Out (State F) Unit :=
    if s.evidences.isEmpty then .ok s () else removeAllEvidences ord s
  match start with
  | .ok s1 _ =>
    match propagateBelief ord sched .sum s1.resetBelief with
    | .ok s2 _ => lift (fun s => Res.mapList (gradientTask ord samples s) s.tuners) s2
    | .throw s2 => .throw s2
    | .ub => .ub
  | .throw s1 => .throw s1
  | .ub => .ub

/-- `FactorsTunableGetter::getWeightsGradient` (trainable/FactorsTunableManager.cpp:64-69). -/
def getWeightsGradient (ord : List Var → List Var) (sched : Sched) (samples : List (List Nat))
    (threads : Nat) : M (State F) (List F) := withPool threads (gradient ord sched samples)

end State
end EFG
