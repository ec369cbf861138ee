import Verif.Model.Query
/-
Gibbs sampling: structure/GibbsSampler.{h,cpp}.

A pointer in the combination (`std::size_t *`) is a position in it. The tasks of one `parallelFor` are
executed one after the other in their order; task `k` uses the engine of the thread which executes it,
thread `k % size`. That the parallel execution has the same result is a separate theorem (C38).
-/

namespace EFG
variable {F : Type} [Arith F]

/-- The loop of `sampleFromDiscrete` (structure/GibbsSampler.cpp:24-29) from the position `k` on. -/
def sampleLoop (s : F) : F → Nat → List F → Option Nat
  | _, _, [] => none
  | cumul, k, p :: ps => if Arith.le s (Arith.add cumul p) then some k else sampleLoop s (Arith.add cumul p) (k + 1) ps

/-- `UniformSampler::sampleFromDiscrete` (structure/GibbsSampler.cpp:20-31) for the draw `s`. With an empty
distribution the C++ code returns the largest `std::size_t`; here it is `0 - 1 = 0`, and the code never calls
it with one. -/
def sampleFromDiscrete (s : F) (distribution : List F) : Nat :=
  match sampleLoop s Arith.zero 0 distribution with
  | some k => k
  | none => distribution.length - 1

/-- `SamplerNode::DynamicDependency` (structure/GibbsSampler.h:78-82). -/
structure SamplerDep where
  sender : Var
  slot : Nat
  factor : Nat
  deriving DecidableEq

/-- `GibbsSampler::SamplerNode` (structure/GibbsSampler.h:74-87). -/
structure SamplerNode (F : Type) where
  slot : Nat
  fixed : Fn F
  deps : List SamplerDep

/-- `SamplesGenerationContext` (structure/GibbsSampler.h:39-59). -/
structure SampleContext where
  samples : Nat
  delta : Option Nat
  transient : Option Nat
  seed : Option Nat

/-- Where the random numbers come from: the n-th number drawn from an engine seeded with a value, and the
seeds of the engines when none is given (`time(NULL)`, structure/GibbsSampler.cpp:15-18). `tenth n` is
`ceil(n * 0.1)` (structure/GibbsSampler.cpp:155), computed by the C++ code on a `double`. -/
structure Random (F : Type) where
  engine : Nat → Nat → F
  clock : Nat → Nat
  tenth : Nat → Nat

/-- The n-th number drawn by the engine of a thread: engine `t` is seeded with `seed + 5 * t`
(structure/GibbsSampler.cpp:106-113), converted to `unsigned int` (line 34). -/
def Random.draw (r : Random F) (seed : Option Nat) (thread n : Nat) : F :=
  match seed with
  | some x => r.engine ((x + 5 * thread) % 2 ^ 32) n
  | none => r.engine (r.clock thread) n

/-- `delta_and_burn_out` (structure/GibbsSampler.cpp:150-163). -/
def SampleContext.steps (c : SampleContext) (tenth : Nat → Nat) : Nat × Nat :=
  let delta := max 1 (match c.delta with | some d => d | none => tenth c.samples)
  (delta, match c.transient with | some b => b | none => 10 * delta)

namespace State

/-- `combination_values_map.find(v)->second` (structure/GibbsSampler.cpp:51-57): the position of the variable;
following `end()` is undefined. -/
def slotOf (s : State F) (v : Var) : Res Nat := Res.ofOption (s.vars.findIdx? (fun w => w.eqv v))

/-- One round of the loop of structure/GibbsSampler.cpp:61-63. -/
def observeSlot (s : State F) (values : List Nat) (v : Var) : Res (List Nat) :=
  match s.slotOf v, AMap.find? s.evidences v with
  | .ok i, some k => if i < values.length then .ok (values.set i k) else .ub
  | _, _ => .ub

/-- The combination at the start (structure/GibbsSampler.cpp:50-63): zeros, and the evidences. -/
def startCombination (ord : List Var → List Var) (s : State F) : Res (List Nat) :=
  Res.foldList s.observeSlot (List.replicate s.vars.length 0) (ord (AMap.keys s.evidences))

/-- One dependency (structure/GibbsSampler.cpp:71-78). -/
def samplerDep (s : State F) (n : Node F) (w : Var) : Res SamplerDep :=
  match s.slotOf w, AMap.find? n.active w with
  | .ok i, some c => .ok { sender := w, slot := i, factor := c.factor }
  | _, _ => .ub

/-- The node of a variable (structure/GibbsSampler.cpp:67-78) after the update of the merged unaries. -/
def samplerNode (ord : List Var → List Var) (s : State F) (v : Var) : Res (SamplerNode F) :=
  match s.node? v, s.slotOf v with
  | some n, .ok i =>
    match n.merged with
    | none => .throw
    | some m =>
      match Res.mapList (s.samplerDep n) (ord (AMap.keys n.active)) with
      | .ok ds => .ok { slot := i, fixed := m, deps := ds }
      | .throw => .throw
      | .ub => .ub
  | _, _ => .ub

/-- One round of the loop of structure/GibbsSampler.cpp:65-79. -/
def makeSamplerNode (ord : List Var → List Var) (v : Var) : M (State F) (SamplerNode F) := fun s =>
  match updateMerged ord v s with
  | .ok s1 _ => lift (fun s => samplerNode ord s v) s1
  | .throw s1 => .throw s1
  | .ub => .ub

/-- The loops of structure/GibbsSampler.cpp:64-80. -/
def collectNodes (ord : List Var → List Var) : List Var → M (State F) (List (SamplerNode F))
  | [], s => .ok s []
  | v :: vs, s =>
    match makeSamplerNode ord v s with
    | .ok s1 nd =>
      match collectNodes ord vs s1 with
      | .ok s2 nds => .ok s2 (nd :: nds)
      | .throw s2 => .throw s2
      | .ub => .ub
    | .throw s1 => .throw s1
    | .ub => .ub

/-- `GibbsSampler::makeSamplerNodes` (structure/GibbsSampler.cpp:48-83). -/
def makeSamplerNodes (ord : List Var → List Var) : M (State F) (List Nat × List (SamplerNode F)) := fun s =>
  match startCombination ord s with
  | .ok values =>
    match collectNodes ord (s.clusters.flatMap (fun c => ord c.nodes)) s with
    | .ok s1 nodes => .ok s1 (values, nodes)
    | .throw s1 => .throw s1
    | .ub => .ub
  | .throw => .throw s
  | .ub => .ub

/-- Reading the values of the dependencies in the combination. -/
def readDeps (deps : List SamplerDep) (values : List Nat) : Res (List Nat) :=
  Res.mapList (fun d => Res.ofOption values[d.slot]?) deps

/-- `factor::Evidence` of a dependency (structure/GibbsSampler.cpp:92-95). -/
def depEvidence (s : State F) (e : SamplerDep × Nat) : Res (Fn F) :=
  match s.deref e.1.factor with
  | .ok f => f.evidence e.1.sender e.2
  | .throw => .throw
  | .ub => .ub

/-- The distribution of an update (structure/GibbsSampler.cpp:89-98) for the values read. -/
def updateDistribution (s : State F) (nd : SamplerNode F) (read : List Nat) : Res (List F) :=
  match Res.mapList s.depEvidence (nd.deps.zip read) with
  | .ok es =>
    match Fn.mergedUnaries (nd.fixed :: es) with
    | .ok m => m.probabilities
    | .throw => .throw
    | .ub => .ub
  | .throw => .throw
  | .ub => .ub

/-- What the tasks change: the combination and, for each thread, how many numbers its engine has drawn. -/
structure Sampling where
  values : List Nat
  drawn : Nat → Nat

/-- The value written by an update, given the values read and the number drawn. -/
def updatedValue (s : State F) (nd : SamplerNode F) (read : List Nat) (x : F) : Res Nat :=
  match s.updateDistribution nd read with
  | .ok ps => .ok (sampleFromDiscrete x ps)
  | .throw => .throw
  | .ub => .ub

/-- The task of a node (structure/GibbsSampler.cpp:86-100) executed by a thread. -/
def sampleTask (s : State F) (draw : Nat → Nat → F) (nd : SamplerNode F) (thread : Nat) (c : Sampling) :
    Res Sampling :=
  match readDeps nd.deps c.values with
  | .ok read =>
    match s.updatedValue nd read (draw thread (c.drawn thread)) with
    | .ok x =>
      if nd.slot < c.values.length then
        .ok { values := c.values.set nd.slot x, drawn := fun t => if t = thread then c.drawn t + 1 else c.drawn t }
      else .ub
    | .throw => .throw
    | .ub => .ub
  | .throw => .throw
  | .ub => .ub

/-- One pass of the inner loop of `make_sampling_tasks` (structure/GibbsSampler.cpp:128-144): the nodes taken
and those left open. -/
def samplerPass : List Nat → List Nat → List (SamplerNode F) → List (SamplerNode F) × List (SamplerNode F)
  | _, _, [] => ([], [])
  | stay, change, nd :: nds =>
    if !stay.contains nd.slot && !nd.deps.any (fun d => change.contains d.slot) then
      let (now, later) := samplerPass (nd.deps.map SamplerDep.slot ++ stay) (nd.slot :: change) nds
      (nd :: now, later)
    else
      let (now, later) := samplerPass stay change nds
      (now, nd :: later)

omit [Arith F] in
theorem samplerPass_length : ∀ (nds : List (SamplerNode F)) (stay change : List Nat),
    (samplerPass stay change nds).1.length + (samplerPass stay change nds).2.length = nds.length := by
  intro nds
  induction nds with
  | nil => intro _ _; rfl
  | cons nd nds ih =>
    intro stay change
    rw [samplerPass]
    split
    · have := ih (nd.deps.map SamplerDep.slot ++ stay) (nd.slot :: change); simp; omega
    · have := ih stay change; simp; omega

/-- The loop of structure/GibbsSampler.cpp:123-145, at most `k` rounds of it. -/
def samplerGroupsUpTo : Nat → List (SamplerNode F) → List (List (SamplerNode F))
  | _, [] => []
  | 0, _ :: _ => []
  | k + 1, nd :: nds =>
    (samplerPass [] [] (nd :: nds)).1 :: samplerGroupsUpTo k (samplerPass [] [] (nd :: nds)).2

/-- The loop of structure/GibbsSampler.cpp:123-145. The bound on the number of rounds is never reached:
`samplerGroups_cons`. -/
def samplerGroups (nds : List (SamplerNode F)) : List (List (SamplerNode F)) := samplerGroupsUpTo nds.length nds

omit [Arith F] in
theorem samplerGroupsUpTo_enough : ∀ (k l : Nat) (nds : List (SamplerNode F)), nds.length ≤ k → nds.length ≤ l →
    samplerGroupsUpTo k nds = samplerGroupsUpTo l nds := by
  intro k
  induction k with
  | zero =>
    intro l nds hk _
    have : nds = [] := List.length_eq_zero_iff.mp (by omega)
    subst this
    cases l <;> rfl
  | succ k ih =>
    intro l nds hk hl
    cases nds with
    | nil => cases l <;> rfl
    | cons nd nds =>
      cases l with
      | zero => simp at hl
      | succ l =>
        have h1 := samplerPass_length (nd :: nds) [] []
        have h2 : 0 < (samplerPass [] [] (nd :: nds)).1.length := by simp [samplerPass]
        rw [samplerGroupsUpTo, samplerGroupsUpTo, ih l _ (by omega) (by omega)]

omit [Arith F] in
/-- The loop, without bound. -/
theorem samplerGroups_cons (nd : SamplerNode F) (nds : List (SamplerNode F)) : samplerGroups (nd :: nds) =
    (samplerPass [] [] (nd :: nds)).1 :: samplerGroups (samplerPass [] [] (nd :: nds)).2 := by
  have h1 := samplerPass_length (nd :: nds) [] []
  have h2 : 0 < (samplerPass [] [] (nd :: nds)).1.length := by simp [samplerPass]
  have h3 : (nd :: nds).length = nds.length + 1 := rfl
  conv => lhs; unfold samplerGroups; rw [h3, samplerGroupsUpTo]
  rw [samplerGroupsUpTo_enough nds.length _ _ (by omega) le_rfl]
  rfl

/-- The groups of `make_sampling_tasks` (structure/GibbsSampler.cpp:115-147). -/
def samplingGroups (poolSize : Nat) (nds : List (SamplerNode F)) : List (List (SamplerNode F)) :=
  if poolSize = 1 then [nds] else samplerGroups nds

/-- A task with its position, executed by its thread. -/
def sampleStep (s : State F) (draw : Nat → Nat → F) (poolSize : Nat) (c : Sampling) (e : SamplerNode F × Nat) :
    Res Sampling := s.sampleTask draw e.1 (e.2 % poolSize) c

/-- `pool.parallelFor(tasks)` (structure/GibbsSampler.cpp:169). -/
def sampleGroup (s : State F) (draw : Nat → Nat → F) (poolSize : Nat) (c : Sampling) (g : List (SamplerNode F)) :
    Res Sampling := Res.foldList (s.sampleStep draw poolSize) c g.zipIdx

/-- `evolve_samples` (structure/GibbsSampler.cpp:165-172). -/
def evolve (s : State F) (draw : Nat → Nat → F) (poolSize : Nat) (gs : List (List (SamplerNode F))) :
    Nat → Sampling → Res Sampling
  | 0, c => .ok c
  | n + 1, c =>
    match Res.foldList (s.sampleGroup draw poolSize) c gs with
    | .ok c1 => evolve s draw poolSize gs n c1
    | .throw => .throw
    | .ub => .ub

/-- The loop of structure/GibbsSampler.cpp:193-196, with the number of samples left. -/
def takeSamples (s : State F) (draw : Nat → Nat → F) (poolSize delta : Nat) (gs : List (List (SamplerNode F))) :
    Nat → Sampling → Res (List (List Nat))
  | 0, _ => .ok []
  | n + 1, c =>
    match evolve s draw poolSize gs delta c with
    | .ok c1 =>
      match takeSamples s draw poolSize delta gs n c1 with
      | .ok l => .ok (c.values :: l)
      | .throw => .throw
      | .ub => .ub
    | .throw => .throw
    | .ub => .ub

/-- The part of `makeSamples` after the construction of the nodes (structure/GibbsSampler.cpp:184-197). -/
def sampleFrom (s : State F) (draw : Nat → Nat → F) (poolSize : Nat) (steps : Nat × Nat) (samples : Nat)
    (nodes : List (SamplerNode F)) (values : List Nat) : Res (List (List Nat)) :=
  let gs := samplingGroups poolSize nodes
  match evolve s draw poolSize gs steps.2 { values := values, drawn := fun _ => 0 } with
  | .ok c => takeSamples s draw poolSize steps.1 gs samples c
  | .throw => .throw
  | .ub => .ub

/-- The body of `makeSamples` (structure/GibbsSampler.cpp:178-197). -/
def samplesBody (ord : List Var → List Var) (rnd : Random F) (ctx : SampleContext) (threads : Nat) :
    M (State F) (List (List Nat)) := fun s =>
  match makeSamplerNodes ord s with
  | .ok s1 (values, nodes) =>
    lift (fun s => s.sampleFrom (rnd.draw ctx.seed) threads (ctx.steps rnd.tenth) ctx.samples nodes values) s1
  | .throw s1 => .throw s1
  | .ub => .ub

/-- `GibbsSampler::makeSamples` (structure/GibbsSampler.cpp:175-198). -/
def makeSamples (ord : List Var → List Var) (rnd : Random F) (ctx : SampleContext) (threads : Nat) :
    M (State F) (List (List Nat)) := withPool threads (samplesBody ord rnd ctx threads)

end State
end EFG
