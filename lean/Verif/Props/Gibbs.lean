import Verif.Lemmas.GibbsParallel
import Verif.Lemmas.Sound
import Verif.Props.Exact
/-
C35 and C38: samples are well formed, and do not depend on the scheduling of the threads.
-/

namespace EFG
variable {F : Type} [Arith F]

/-! ### C35 -/

/-- C35, for every arithmetic, source of random numbers, context, number of threads and reachable model:
`makeSamples` returns as many samples as requested; each gives one of its values to every variable, in the
order of the variables of the model, and the observed value to the observed ones.

Missing: the models whose pool of threads was lost by a request of zero threads (`C33_violated`,
`C35_violated`). -/
theorem C35_samples_partial {s : State F} (h : Reach anyOp s) (hp : s.pool.isSome) {ord : List Var → List Var}
    (hord : ∀ l, (ord l).Perm l) (rnd : Random F) (ctx : SampleContext) {n : Nat} (hn : 1 ≤ n) :
    ∃ s' l, State.makeSamples ord rnd ctx n s = .ok s' l ∧ l.length = ctx.samples ∧ ∀ c ∈ l, s.IsSample c := by
  obtain ⟨s', l, h1, _, _, _, _, _, h2, h3⟩ := State.makeSamples_ok hord rnd ctx hn (reach_inv h) hp
  exact ⟨s', l, h1, h2, h3⟩

/-- C35: drawing samples changes neither the variables, nor the factors, nor the evidences. -/
theorem C35_model_kept_partial {s : State F} (h : Reach anyOp s) (hp : s.pool.isSome) {ord : List Var → List Var}
    (hord : ∀ l, (ord l).Perm l) (rnd : Random F) (ctx : SampleContext) {n : Nat} (hn : 1 ≤ n) :
    ∃ s' l, State.makeSamples ord rnd ctx n s = .ok s' l ∧ s'.vars = s.vars ∧ s'.evidences = s.evidences ∧
      s'.factors = s.factors ∧ s'.heap = s.heap ∧ s'.pool = some 1 := by
  obtain ⟨s', l, h1, h2, _, _, h3, _⟩ := State.makeSamples_ok hord rnd ctx hn (reach_inv h) hp
  exact ⟨s', l, h1, h2.vars, h2.evidences, h2.factors, h2.heap, h3⟩

namespace Ex

/-- Engines which draw the eighths from 1/8 to 7/8, every third one. -/
def coin : Random (Ext ℚ) :=
  { engine := fun seed n => .val ((((seed + 3 * n) % 7 + 1 : Nat) : ℚ) / 8), clock := fun t => t,
    tenth := fun n => (n + 9) / 10 }

/-- Five samples, two iterations between them, one before. -/
def five : SampleContext := { samples := 5, delta := some 2, transient := some 1, seed := some 7 }

end Ex

/-- The path X - Y - Z with Y observed, two threads. -/
example : ∃ s' l, State.makeSamples Ex.rev Ex.coin Ex.five 2 (Ex.after [.add 0, .add 1, .add 2, .observe Ex.Y 1]) =
      .ok s' l ∧ l.length = 5 ∧ ∀ c ∈ l, (Ex.after [.add 0, .add 1, .add 2, .observe Ex.Y 1]).IsSample c :=
  C35_samples_partial (Ex.Reach.mono (fun _ _ _ => trivial) (Ex.after_steady _ (by decide +kernel))) (by decide +kernel)
    Ex.rev_perm _ _ (by omega)

/-- The observed variable has its value in all the samples. -/
example : (match State.makeSamples Ex.rev Ex.coin Ex.five 2 (Ex.after [.add 0, .add 1, .add 2, .observe Ex.Y 1]) with
    | .ok _ l => some l
    | _ => none) = some [[1, 1, 0], [1, 1, 1], [1, 1, 1], [1, 1, 0], [1, 1, 0]] := by
  decide +kernel

/-- C35 is violated after a request of zero threads: the exception leaves the model without pool, and the
request of a sample follows a null pointer. -/
theorem C35_violated : ∃ s s' : State (Ext ℚ), Reach anyOp s ∧
    State.makeSamples id Ex.coin Ex.five 0 s = .throw s' ∧ Reach anyOp s' ∧
    State.makeSamples id Ex.coin Ex.five 1 s' = .ub := by
  have h0 : Reach anyOp (Ex.after [.add 0]) :=
    Ex.Reach.mono (fun _ _ _ => trivial) (Ex.after_steady _ (by decide +kernel))
  have h1 : State.makeSamples id Ex.coin Ex.five 0 (Ex.after [.add 0]) = .throw { Ex.after [.add 0] with pool := none } := by
    have hp : (Ex.after [.add 0]).pool = some 1 := by decide +kernel
    unfold State.makeSamples State.withPool State.setPoolSize
    rw [hp]
    rfl
  refine ⟨_, _, h0, h1, .throw (op := .drawSamples id Ex.coin Ex.five 0) h0 ⟨fun l => .refl l, trivial⟩ trivial rfl ?_, rfl⟩
  rw [GOp.exec]
  unfold GOp.drop
  rw [h1]

/-! ### C38 -/

/-- C38: with several threads, no value written by an update of a group is read or written by another update of
that group. -/
theorem C38_race_free {s s' : State F} (h : Reach anyOp s) {ord : List Var → List Var} (hord : ∀ l, (ord l).Perm l)
    {c : List Nat} {nds : List (SamplerNode F)} (hn : State.makeSamplerNodes ord s = .ok s' (c, nds)) {n : Nat} (h1 : n ≠ 1) :
    ∀ g ∈ State.samplingGroups n nds, State.RaceFree g := by
  intro g hg
  unfold State.samplingGroups at hg
  rw [if_neg h1] at hg
  exact State.samplerGroups_raceFree _ nds le_rfl (State.makeSamplerNodes_nodes hord (reach_inv h) hn).2.2.2.2.1 g hg

/-- C38: an iteration resamples every hidden variable once, and nothing else. -/
theorem C38_once {s s' : State F} (h : Reach anyOp s) {ord : List Var → List Var} (hord : ∀ l, (ord l).Perm l)
    {c : List Nat} {nds : List (SamplerNode F)} (hn : State.makeSamplerNodes ord s = .ok s' (c, nds)) (n : Nat) :
    (∀ nd ∈ (State.samplingGroups n nds).flatten, ∃ v, s.vars[nd.slot]? = some v ∧ s.Hidden v) ∧
    ∀ v, s.Hidden v → ∃ i, s.vars[i]? = some v ∧
      ((State.samplingGroups n nds).flatten.map SamplerNode.slot).count i = 1 := by
  have hs := reach_inv h
  obtain ⟨_, _, _, _, hnd, hmap⟩ := State.makeSamplerNodes_nodes hord hs hn
  have hp := State.samplingGroups_perm n nds
  have hidden : ∀ v, v ∈ State.sampled ord s ↔ s.Hidden v := fun v =>
    (State.sampled_perm hord hs).mem_iff.trans State.hidden_iff.symm
  constructor
  · intro nd hnd'
    have : s.vars[nd.slot]? ∈ nds.map (fun nd => s.vars[nd.slot]?) := List.mem_map.mpr ⟨nd, hp.mem_iff.mp hnd', rfl⟩
    rw [hmap] at this
    obtain ⟨v, hv, e⟩ := List.mem_map.mp this
    exact ⟨v, e.symm, (hidden v).mp hv⟩
  · intro v hv
    have : some v ∈ nds.map (fun nd => s.vars[nd.slot]?) := by
      rw [hmap]
      exact List.mem_map.mpr ⟨v, (hidden v).mpr hv, rfl⟩
    obtain ⟨nd, h1, h2⟩ := List.mem_map.mp this
    refine ⟨nd.slot, h2, ?_⟩
    rw [(hp.map SamplerNode.slot).count_eq]
    exact List.count_eq_one_of_mem hnd (List.mem_map.mpr ⟨nd, h1, rfl⟩)

/-- C38: the samples do not depend on the scheduling. Whatever the interleaving of the reads and writes of the
threads, in all the calls of `parallelFor`, the samples are those of the execution in order: they are a function
of the model, the numbers drawn by the engines and the number of threads. -/
theorem C38_schedule {s : State F} (h : Reach anyOp s) (hp : s.pool.isSome) {ord : List Var → List Var}
    (hord : ∀ l, (ord l).Perm l) (rnd : Random F) (ctx : SampleContext) {n : Nat} (hn : 1 ≤ n) :
    ∃ s' l, State.makeSamples ord rnd ctx n s = .ok s' l ∧
      ∀ l', State.ParSampling ord rnd ctx n { s with pool := some n } l' → l' = l := by
  have hs := reach_inv h
  have h0 : State.setPoolSize n s = .ok { s with pool := some n } () := by
    unfold State.setPoolSize
    obtain ⟨k, hk⟩ := Option.isSome_iff_exists.mp hp
    rw [hk]
    simp only
    by_cases h1 : n = k
    · subst h1
      rw [if_pos rfl]
      cases s
      simp only at hk
      rw [hk]
    · rw [if_neg h1, if_neg (by omega)]
  have hi : State.Inv ({ s with pool := some n } : State F) := hs.settings _ _ _
  obtain ⟨s1, c, nds, e1, _⟩ := State.makeSamplerNodes_ok hord hi
  obtain ⟨g1, g2, g3, g4, g5, _⟩ := State.makeSamplerNodes_nodes hord hi e1
  have hg := g4.groups n
  have hap := State.samplingGroups_apart (size := n) g5
  have hc1 : s1.IsSample c := (State.IsSample.quiet g3).mpr g1
  obtain ⟨c1, e2, e3⟩ := State.evolve_ok g2.toCore (rnd.draw ctx.seed) n hg (ctx.steps rnd.tenth).2 ⟨c, fun _ => 0⟩ hc1
  obtain ⟨l, e4, _⟩ := State.takeSamples_ok g2.toCore (rnd.draw ctx.seed) n (ctx.steps rnd.tenth).1 hg ctx.samples c1 e3
  refine ⟨s1.resetPool, l, ?_, ?_⟩
  · unfold State.makeSamples State.withPool
    rw [h0]
    simp only
    unfold State.samplesBody
    rw [e1]
    simp only
    unfold State.lift State.sampleFrom
    simp only
    rw [e2]
    simp only
    rw [e4]
  · rintro l' ⟨s1', c', nds', c1', k1, k2, k3⟩
    rw [e1] at k1
    cases k1
    have := k2.eq hap c1 e2
    subst this
    exact k3.eq hap l e4

/-- C38: the threads never get stuck and always come to an end. The steps of an execution of a group are bounded,
and every execution can be continued until all the tasks are done. -/
theorem C38_completes {s s' : State F} (h : Reach anyOp s) {ord : List Var → List Var} (hord : ∀ l, (ord l).Perm l)
    {c : List Nat} {nds : List (SamplerNode F)} (hn : State.makeSamplerNodes ord s = .ok s' (c, nds)) {n : Nat} (h1 : 1 ≤ n)
    (draw : Nat → Nat → F) {g : List (SamplerNode F)} (hg : g ∈ State.samplingGroups n nds) (x : State.Sampling)
    (hx : s.IsSample x.values) :
    ∃ bound, ∀ k w, State.Works s' draw k (State.Workers.start n g x) w → k ≤ bound ∧
      ∃ k' w', State.Works s' draw k' w w' ∧ w'.Done := by
  obtain ⟨_, g2, g3, g4, _, _⟩ := State.makeSamplerNodes_nodes hord (reach_inv h) hn
  have hsane := State.sane_start (size := n) h1 (g := g) (c := x) ((State.IsSample.quiet g3).mpr hx)
  refine ⟨((List.range n).map (fun t => ((State.Workers.start n g x).worker t).left)).sum, fun k w hw => ?_⟩
  obtain ⟨h2, h3⟩ := hw.left g2.toCore (g4.groups n g hg) hsane
  refine ⟨?_, h2.complete g2.toCore draw (g4.groups n g hg) _ w le_rfl⟩
  · rw [← h3]
    exact Nat.le_add_left _ _

/-- The path X - Y - Z with two threads: X and Z are resampled together, then Y. -/
example : (match State.makeSamplerNodes id (Ex.after Ex.path) with
    | .ok _ (_, nds) => (State.samplingGroups 2 nds).map (List.map SamplerNode.slot)
    | _ => []) = [[0, 2], [1]] := by
  decide +kernel

example : ∃ s' c nds, State.makeSamplerNodes id (Ex.after Ex.path) = .ok s' (c, nds) ∧
    ∀ g ∈ State.samplingGroups 2 nds, State.RaceFree g := by
  obtain ⟨s', c, nds, h, _⟩ := State.makeSamplerNodes_ok (ord := id) (fun l => .refl l) (reach_inv Ex.path_reach)
  exact ⟨s', c, nds, h, C38_race_free (Ex.Reach.mono (fun _ _ _ => trivial) Ex.path_reach) (fun l => .refl l) h (by omega)⟩

example : ∃ s' l, State.makeSamples id Ex.coin Ex.five 2 (Ex.after Ex.path) = .ok s' l ∧
    ∀ l', State.ParSampling id Ex.coin Ex.five 2 { Ex.after Ex.path with pool := some 2 } l' → l' = l :=
  C38_schedule (Ex.Reach.mono (fun _ _ _ => trivial) Ex.path_reach) (by decide +kernel) (fun l => .refl l) _ _ (by omega)

end EFG
