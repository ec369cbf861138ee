import Verif.Model.Gibbs
import Verif.Spec.Weight
/-
What samples are, and the parallel execution of the updates of one `parallelFor`: every thread executes
its tasks in their order, reading one value of the combination at a time, and then writes its own; these
steps are interleaved in any way.
-/

namespace EFG
namespace State
variable {F : Type} [Arith F]

/-- A combination which gives to every variable of the model, in their order, one of its values, and to the
observed ones their observed value. -/
def IsSample (s : State F) (c : List Nat) : Prop :=
  c.length = s.vars.length ∧
  ∀ (i : Nat) (v : Var), s.vars[i]? = some v → ∃ x, c[i]? = some x ∧ x < v.size ∧ ∀ k, (v, k) ∈ s.evidences → x = k

/-- A thread in the middle of its tasks: those left, and the values read so far by the first of them, if it
has begun. -/
structure Worker (F : Type) where
  todo : List (SamplerNode F)
  read : Option (List Nat)

/-- All the threads, the combination and how many numbers each engine has drawn. -/
structure Workers (F : Type) where
  worker : Nat → Worker F
  values : List Nat
  drawn : Nat → Nat

/-- One step of one of the threads. -/
inductive WorkStep (s : State F) (draw : Nat → Nat → F) : Workers F → Workers F → Prop where
  | start {w t nd rest} : w.worker t = ⟨nd :: rest, none⟩ →
      WorkStep s draw w { w with worker := Function.update w.worker t ⟨nd :: rest, some []⟩ }
  | read {w t nd rest xs d x} : w.worker t = ⟨nd :: rest, some xs⟩ → nd.deps[xs.length]? = some d →
      w.values[d.slot]? = some x →
      WorkStep s draw w { w with worker := Function.update w.worker t ⟨nd :: rest, some (xs ++ [x])⟩ }
  | write {w t nd rest xs x} : w.worker t = ⟨nd :: rest, some xs⟩ → xs.length = nd.deps.length →
      s.updatedValue nd xs (draw t (w.drawn t)) = .ok x → nd.slot < w.values.length →
      WorkStep s draw w
        { worker := Function.update w.worker t ⟨rest, none⟩, values := w.values.set nd.slot x,
          drawn := Function.update w.drawn t (w.drawn t + 1) }

/-- The threads at the begin of `parallelFor`: thread `t` has the tasks whose position gives `t` modulo the
number of threads. -/
def Workers.start (size : Nat) (g : List (SamplerNode F)) (c : Sampling) : Workers F :=
  { worker := fun t => ⟨(g.zipIdx.filter (fun e => e.2 % size = t)).map Prod.fst, none⟩,
    values := c.values, drawn := c.drawn }

/-- All the threads have done their tasks. -/
def Workers.Done (w : Workers F) : Prop := ∀ t, (w.worker t).todo = []

/-- No update of a group writes what another one reads or writes. -/
def RaceFree (g : List (SamplerNode F)) : Prop :=
  ∀ (i j : Nat) (a b : SamplerNode F), g[i]? = some a → g[j]? = some b → i ≠ j →
    a.slot ≠ b.slot ∧ ∀ d ∈ b.deps, d.slot ≠ a.slot

/-- The executions of the steps of the threads. -/
inductive Works (s : State F) (draw : Nat → Nat → F) : Nat → Workers F → Workers F → Prop where
  | nil {w} : Works s draw 0 w w
  | cons {n w w' w''} : WorkStep s draw w w' → Works s draw n w' w'' → Works s draw (n + 1) w w''

/-- One `parallelFor` with any interleaving. -/
def ParGroup (s : State F) (draw : Nat → Nat → F) (size : Nat) (g : List (SamplerNode F)) (c c' : Sampling) : Prop :=
  ∃ n w, Works s draw n (Workers.start size g c) w ∧ w.Done ∧ c'.values = w.values ∧ c'.drawn = w.drawn

/-- The groups of an iteration, one after the other. -/
inductive ParGroups (s : State F) (draw : Nat → Nat → F) (size : Nat) :
    List (List (SamplerNode F)) → Sampling → Sampling → Prop where
  | nil {c} : ParGroups s draw size [] c c
  | cons {g gs c c' c''} : ParGroup s draw size g c c' → ParGroups s draw size gs c' c'' →
      ParGroups s draw size (g :: gs) c c''

/-- Iterations, with any interleavings. -/
inductive ParEvolve (s : State F) (draw : Nat → Nat → F) (size : Nat) (gs : List (List (SamplerNode F))) :
    Nat → Sampling → Sampling → Prop where
  | zero {c} : ParEvolve s draw size gs 0 c c
  | succ {n c c' c''} : ParGroups s draw size gs c c' → ParEvolve s draw size gs n c' c'' →
      ParEvolve s draw size gs (n + 1) c c''

/-- Drawing samples, with any interleavings: `delta` iterations follow every sample. -/
inductive ParSamples (s : State F) (draw : Nat → Nat → F) (size delta : Nat) (gs : List (List (SamplerNode F))) :
    Nat → Sampling → List (List Nat) → Prop where
  | zero {c} : ParSamples s draw size delta gs 0 c []
  | succ {n c c' l} : ParEvolve s draw size gs delta c c' → ParSamples s draw size delta gs n c' l →
      ParSamples s draw size delta gs (n + 1) c (c.values :: l)

/-- The samples obtained with any interleavings: the nodes are made, the transient is run, and the samples are
drawn. -/
def ParSampling (ord : List Var → List Var) (rnd : Random F) (ctx : SampleContext) (threads : Nat) (s : State F)
    (l : List (List Nat)) : Prop :=
  ∃ s1 c nds c1, makeSamplerNodes ord s = .ok s1 (c, nds) ∧
    ParEvolve s1 (rnd.draw ctx.seed) threads (samplingGroups threads nds) (ctx.steps rnd.tenth).2 ⟨c, fun _ => 0⟩ c1 ∧
    ParSamples s1 (rnd.draw ctx.seed) threads (ctx.steps rnd.tenth).1 (samplingGroups threads nds) ctx.samples c1 l

/-- The probability that an update of the combination writes a value, as the library computes it. -/
def chance {K : Type} [Field K] [LinearOrder K] [FloatParams K] (s : State (Ext K)) (nd : SamplerNode (Ext K))
    (values : List Nat) (i : Nat) : K :=
  match readDeps nd.deps values with
  | .ok read =>
    match s.updateDistribution nd read with
    | .ok ps =>
      match ps[i]? with
      | some (.val x) => x
      | _ => 0
    | _ => 0
  | _ => 0

end State
end EFG
