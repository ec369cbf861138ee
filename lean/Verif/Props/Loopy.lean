import Verif.Lemmas.Calm
import Verif.Props.Propagation
import Verif.Lemmas.Positive
import Verif.Props.Exact
/-
C30, C31, C33: the schedule and the convergence of the loopy propagation, and the requests with zero
threads.
-/

namespace EFG
variable {F : Type} [Arith F]

/-! ### C30 -/

/-- The sender and the receiver of the message computed by a task. -/
def Topo.way (t : Topo) : Var × Var := (t.sender, t.conn.owner)

/-- `u` and `v` exchange messages: the node of `u` has an active connection to `v`. -/
def State.Exchange (s : State F) (u v : Var) : Prop := ∃ n, s.node? u = some n ∧ v ∈ n.active.map Prod.fst

theorem State.exchange_iff {s : State F} {u v : Var} : s.Exchange u v ↔ (s.act u v).isSome := by
  unfold State.Exchange State.act State.activeOf
  cases s.node? u with
  | none => simp [AMap.find?]
  | some n =>
    simp only [Option.some.injEq, exists_eq_left']
    have := AMap.mem_keys (m := n.active) (k := v)
    rw [Option.isSome_iff_exists, ← this]
    rfl

/-- C30: in every reachable state and for every number of threads, the schedule built for a cluster
contains exactly one task for each ordered pair of variables of the cluster which exchange messages;
the tasks listed as its dependencies are those of the other messages to the sender; no group is
empty; with more than one thread, no task of a group consumes the message another task of the same
group produces, and no two tasks of a group produce the same message. -/
theorem C30_schedule {allowed : State F → GOp F → Prop} {s : State F} (h : Reach allowed s) {c : Cluster}
    (hc : c ∈ s.clusters) {ts : List Topo} (hts : c.connectivity = some ts) (n : Nat) :
    ((State.loopyOrder n ts).flatten.map Topo.way).Nodup ∧
    (∀ u v, (u, v) ∈ (State.loopyOrder n ts).flatten.map Topo.way ↔ u ∈ c.nodes ∧ s.Exchange u v) ∧
    (∀ t ∈ (State.loopyOrder n ts).flatten, t.conn = ⟨t.way.2, t.way.1⟩ ∧
      ∀ r, r ∈ t.deps ↔ r.owner = t.sender ∧ r.from_ ≠ t.way.2 ∧ s.Exchange t.sender r.from_) ∧
    (1 < n → ∀ g ∈ State.loopyOrder n ts, g ≠ [] ∧ (g.map (·.conn)).Nodup ∧
      ∀ t ∈ g, ∀ t' ∈ g, t.conn ∉ t'.deps) := by
  have hs := reach_inv h
  have hto := hs.topos c hc ts hts
  have hp := State.loopyOrder_perm n ts
  have hway : (ts.map Topo.way).Nodup := hto.nodup
  refine ⟨(hp.map _).nodup_iff.mpr hway, ?_, ?_, ?_⟩
  · intro u v
    rw [(hp.map _).mem_iff, State.exchange_iff, List.mem_map]
    constructor
    · rintro ⟨t, ht, he⟩
      have h1 : t.sender = u := congrArg Prod.fst he
      have h2 : t.conn.owner = v := congrArg Prod.snd he
      rw [← h1, ← h2]
      exact ⟨hto.sender t ht, hto.active t ht⟩
    · rintro ⟨h1, h2⟩
      obtain ⟨t, ht, h3, h4⟩ := hto.all u h1 v h2
      exact ⟨t, ht, by rw [Topo.way, h3, h4]⟩
  · intro t ht
    have ht' := hp.mem_iff.mp ht
    refine ⟨?_, ?_⟩
    · have := hto.from_ t ht'
      cases hcn : t.conn with
      | mk o f =>
        rw [hcn] at this
        simp only at this
        simp [Topo.way, hcn, this]
    · intro r
      rw [State.exchange_iff]
      exact hto.deps t ht' r
  · intro hn g hg
    have hself : ∀ t ∈ ts, t.conn ∉ t.deps := by
      intro t ht hmem
      have h1 := (hto.deps t ht t.conn).mp hmem
      have h2 := hto.active t ht
      rw [h1.1] at h2
      rw [hs.net.act_irrefl] at h2
      cases h2
    have hg' : g ∈ State.greedyOrder ts := by
      unfold State.loopyOrder at hg
      rw [if_pos hn] at hg
      exact hg
    refine ⟨?_, ?_, State.greedyOrder_apart ts hself g hg'⟩
    · exact State.greedyOrder_ne ts g hg'
    · have h1 : (ts.map (·.conn)).Nodup := by
        have h2 : ts.map Topo.way = (ts.map (·.conn)).map (fun r => (r.from_, r.owner)) := by
          rw [List.map_map]
          refine List.map_congr_left ?_
          intro t ht
          simp [Topo.way, hto.from_ t ht]
        rw [h2] at hway
        exact List.Nodup.of_map _ hway
      have h3 := (hp.map (·.conn)).nodup_iff.mpr h1
      rw [List.map_flatten] at h3
      exact (List.nodup_flatten.mp h3).1 _ (List.mem_map.mpr ⟨g, hg, rfl⟩)

/-- After a query the cluster of the triangle has its list of tasks: six of them, which two or more
threads execute in six groups. -/
example : Reach Prudent (Ex.after (Ex.triangle ++ [.askMarginal Ex.X])) ∧
    (Ex.after (Ex.triangle ++ [.askMarginal Ex.X])).clusters.map
      (fun c : Cluster => (c.nodes, c.connectivity.map (fun ts => (ts.length, (State.loopyOrder 2 ts).map List.length)))) =
      [([Ex.X, Ex.Y, Ex.Z], some (6, [2, 2, 2]))] :=
  ⟨Ex.after_prudent _ (by decide +kernel), by decide +kernel⟩

/-! ### C31 -/

/-- What the loopy propagation of a cluster did: starting from messages all equal to one, it computed
all the messages of the cluster, each exactly once, in each of the iterations; `runs` are the
variations of the messages in each iteration, and the messages now stored are the last ones. -/
def State.Iterated {K : Type} [Field K] [LinearOrder K] [FloatParams K] (kind : Kind) (s s' : State (Ext K))
    (nodes : List Var) (runs : List (List (Ext K))) : Prop :=
  ∃ (s0 s1 : State (Ext K)) (ts : List Topo),
    (∀ u v, (u, v) ∈ ts.map Topo.way ↔ u ∈ nodes ∧ s.hiddenGraph.Adj u v) ∧ (ts.map Topo.way).Nodup ∧
    (∀ t ∈ ts, s0.msg t.conn.owner t.conn.from_ = some (Fn.ones t.conn.owner)) ∧
    State.Sweeps kind ts runs s0 s1 ∧ ∀ u ∈ nodes, ∀ v, s'.msg u v = s1.msg u v

/-- The runs of the loopy propagations made by a query. -/
theorem State.convergence_runs {K : Type} [Field K] [LinearOrder K] [IsStrictOrderedRing K] [FloatParams K]
    {s : State (Ext K)} (h : Reach Prudent s) {ord : List Var → List Var}
    (hord : ∀ l, (ord l).Perm l) {sched : Sched} (hsched : ∀ l, (sched l).Perm l) (kind : Kind) {n : Nat} (hn : 1 ≤ n)
    (hneed : s.wouldNeedPropagation kind = true) :
    ∃ s' r, ∃ runs : Nat → List (List (Ext K)),
      State.checkPropagation ord sched kind n s = .ok s' () ∧ s'.last = some r ∧
      (∀ (j : Nat) (c : Cluster), s.clusters[j]? = some c → ¬ s.NoCycle c.nodes →
        State.Iterated kind s s' c.nodes (runs j) ∧ (runs j).length ≤ s.maxIter ∧
        (∀ (i : Nat) xs, (runs j)[i]? = some xs → i + 1 < (runs j).length → ∃ x ∈ xs, ¬ State.Passes x) ∧
        ((∀ xs ∈ runs j, ∃ x ∈ xs, ¬ State.Passes x) → (runs j).length = s.maxIter)) ∧
      (∀ (j : Nat) (c : Cluster), s.clusters[j]? = some c → ¬ s.NoCycle c.nodes →
        ∃ done, State.LoopRun kind n s.maxIter s' c.nodes done (runs j)) ∧
      (r.completed = true ↔ ∀ (j : Nat) (c : Cluster), s.clusters[j]? = some c → ¬ s.NoCycle c.nodes →
        ∃ xs ∈ runs j, ∀ x ∈ xs, State.Passes x) := by
  classical
  have hs := reach_healthy h
  obtain ⟨s', r, h1, h2, h3, h4, h5, h6⟩ := State.checkPropagation_run hord kind hsched hs hn hneed
  obtain ⟨s'', r', g1, g2, g3, g4, g5, _⟩ := C24_trees_recognised_partial h hord hsched kind hn hneed
  rw [h1] at g1
  cases g1
  rw [h4] at g2
  cases g2
  obtain ⟨flags, f1, f2, f3⟩ := h6.flags
  have hcl := h2.toQuiet.clusters
  have hnodes : ∀ (j : Nat) (c c' : Cluster), s.clusters[j]? = some c → s'.clusters[j]? = some c' → c'.nodes = c.nodes := by
    intro j c c' hc hc'
    have e1 : (s'.clusters.map (·.nodes))[j]? = some c'.nodes := by rw [List.getElem?_map, hc']; rfl
    have e2 : (s.clusters.map (·.nodes))[j]? = some c.nodes := by rw [List.getElem?_map, hc]; rfl
    rw [hcl, e2] at e1
    exact (Option.some.inj e1).symm
  -- one cluster with cycles
  have hloop : ∀ (j : Nat) (c : Cluster), s.clusters[j]? = some c → ¬ s.NoCycle c.nodes →
      ∃ (hj' : j < flags.length) (sw : List (List (Ext K))),
        State.LoopRun kind n s.maxIter s' c.nodes flags[j] sw := by
    intro j c hc hcy
    obtain ⟨tree, e1, e2⟩ := g5 j c hc
    have htree : tree = false := by
      cases tree with
      | false => rfl
      | true => exact absurd (e2.mp rfl) hcy
    obtain ⟨hj, e3⟩ := List.getElem?_eq_some_iff.mp e1
    have hj' : j < flags.length := by omega
    obtain ⟨c', sw, e4, e5⟩ := (f3 j hj hj').2 (by rw [e3]; exact htree)
    rw [hnodes j c c' hc e4] at e5
    exact ⟨hj', sw, e5⟩
  have htreeFlag : ∀ (j : Nat) (c : Cluster) (hj' : j < flags.length), s.clusters[j]? = some c → s.NoCycle c.nodes →
      flags[j] = true := by
    intro j c hj' hc hcy
    obtain ⟨tree, e1, e2⟩ := g5 j c hc
    obtain ⟨hj, e3⟩ := List.getElem?_eq_some_iff.mp e1
    refine (f3 j hj hj').1 ?_
    rw [e3]
    exact e2.mpr hcy
  have hex : ∀ j : Nat, ∃ sw : List (List (Ext K)), ∀ c : Cluster, s.clusters[j]? = some c → ¬ s.NoCycle c.nodes →
      ∃ hj' : j < flags.length, State.LoopRun kind n s.maxIter s' c.nodes flags[j] sw := by
    intro j
    by_cases hx : ∃ c : Cluster, s.clusters[j]? = some c ∧ ¬ s.NoCycle c.nodes
    · obtain ⟨c, hc, hcy⟩ := hx
      obtain ⟨hj', sw, hsw⟩ := hloop j c hc hcy
      refine ⟨sw, ?_⟩
      intro c' hc' _
      rw [hc] at hc'
      cases hc'
      exact ⟨hj', hsw⟩
    · exact ⟨[], fun c hc hcy => absurd ⟨c, hc, hcy⟩ hx⟩
  choose runs hruns using hex
  have hcalm : ∀ (j : Nat) (c : Cluster) (hc : s.clusters[j]? = some c) (hcy : ¬ s.NoCycle c.nodes)
      (hj' : j < flags.length), flags[j] = true ↔ ∃ xs ∈ runs j, ∀ x ∈ xs, State.Passes x := by
    intro j c hc hcy hj'
    obtain ⟨_, s0, s1, ts, k1, k2, k3, k4, k5⟩ := hruns j c hc hcy
    constructor
    · intro hf
      obtain ⟨front, last, e1, e2, e3⟩ := k1.yes hf
      exact ⟨last, by rw [e1]; simp, e2.passes hn⟩
    · rintro ⟨xs, hxs, hp⟩
      by_contra hf
      have := (k1.no (by simpa using hf)).2 xs hxs
      exact this.not_passes hn hp
  refine ⟨s', r, runs, h1, h4, ?_, ?_, ?_⟩
  · intro j c hc hcy
    obtain ⟨hj', s0, s1, ts, k1, k2, k3, k4, k5⟩ := hruns j c hc hcy
    have hq : State.Quiet s0 s' := by
      have : State.Soft s0 s1 := k1.sweeps.soft
      exact this.toQuiet.trans k3
    have hg : s0.hiddenGraph = s.hiddenGraph := by
      rw [← State.hiddenGraph_congr h2.toQuiet, State.hiddenGraph_congr hq]
    have hset := k1.ready.setting
    have hcore := k1.ready.flow.core
    refine ⟨⟨s0, s1, ts, ?_, hset.topo.nodup, k1.ones, k1.sweeps, k5⟩, ?_, ?_, ?_⟩
    · intro u v
      rw [← hg, List.mem_map]
      constructor
      · rintro ⟨t, ht, he⟩
        have e1 : t.sender = u := congrArg Prod.fst he
        have e2 : t.conn.owner = v := congrArg Prod.snd he
        have e3 := hset.topo.active t ht
        have e4 := hset.topo.sender t ht
        rw [← e1, ← e2]
        have e5 := hset.hidden hcore e4 e3
        exact ⟨e4, hcore.hiddenGraph_adj.mpr ⟨e5.1, e5.2, e3⟩⟩
      · rintro ⟨e1, e2⟩
        obtain ⟨t, ht, e3, e4⟩ := hset.topo.all u e1 v (hcore.hiddenGraph_adj.mp e2).2.2
        exact ⟨t, ht, by rw [Topo.way, e3, e4]⟩
    · rw [← k2]; exact k1.bound
    · intro i xs hi hlt
      have hne : ¬ ∀ x ∈ xs, State.Passes x := by
        cases hf : flags[j] with
        | false => exact ((k1.no hf).2 xs (List.mem_of_getElem? hi)).not_passes hn
        | true =>
          obtain ⟨front, last, e1, e2, e3⟩ := k1.yes hf
          rw [e1] at hi hlt
          rw [List.length_append, List.length_singleton] at hlt
          rw [List.getElem?_append_left (by omega)] at hi
          exact (e3 xs (List.mem_of_getElem? hi)).not_passes hn
      push Not at hne
      exact hne
    · intro hall
      have hf : flags[j] = false := by
        by_contra hf
        obtain ⟨xs, hxs, hp⟩ := (hcalm j c hc hcy hj').mp (by simpa using hf)
        obtain ⟨x, hx, hnp⟩ := hall xs hxs
        exact hnp (hp x hx)
      rw [← k2]
      exact (k1.no hf).1
  · intro j c hc hcy
    obtain ⟨hj', h⟩ := hruns j c hc hcy
    exact ⟨_, h⟩
  · rw [f2, List.all_eq_true]
    constructor
    · intro hall j c hc hcy
      obtain ⟨hj', _⟩ := hruns j c hc hcy
      exact (hcalm j c hc hcy hj').mp (hall _ (List.getElem_mem hj'))
    · intro hall b hb
      obtain ⟨j, hj', rfl⟩ := List.mem_iff_getElem.mp hb
      have hlen : j < s.clusters.length := by omega
      have hc := List.getElem?_eq_getElem hlen
      by_cases hcy : s.NoCycle s.clusters[j].nodes
      · exact htreeFlag j _ hj' hc hcy
      · exact (hcalm j _ hc hcy hj').mpr (hall j _ hc hcy)

/-- C31: after any execution of prudent operations, with any positive number of threads, schedule and
iteration order, a propagation runs on each cluster with cycles at most the configured number of
iterations, stops at the first iteration in which no variation of a message is a number not below
the tolerance, and is reported as completed exactly when such an iteration was found for every
cluster with cycles. All the queries return.

Missing: variations which are not numbers (NaN) count as below the tolerance (`C31_violated`), and the
executions which are not prudent. -/
theorem C31_convergence_partial {K : Type} [Field K] [LinearOrder K] [IsStrictOrderedRing K] [FloatParams K]
    {s : State (Ext K)} (h : Reach Prudent s) {ord : List Var → List Var}
    (hord : ∀ l, (ord l).Perm l) {sched : Sched} (hsched : ∀ l, (sched l).Perm l) (kind : Kind) {n : Nat} (hn : 1 ≤ n)
    (hneed : s.wouldNeedPropagation kind = true) :
    ∃ s' r, ∃ runs : Nat → List (List (Ext K)),
      State.checkPropagation ord sched kind n s = .ok s' () ∧ s'.last = some r ∧
      (∀ (j : Nat) (c : Cluster), s.clusters[j]? = some c → ¬ s.NoCycle c.nodes →
        State.Iterated kind s s' c.nodes (runs j) ∧ (runs j).length ≤ s.maxIter ∧
        (∀ (i : Nat) xs, (runs j)[i]? = some xs → i + 1 < (runs j).length → ∃ x ∈ xs, ¬ State.Passes x) ∧
        ((∀ xs ∈ runs j, ∃ x ∈ xs, ¬ State.Passes x) → (runs j).length = s.maxIter)) ∧
      (r.completed = true ↔ ∀ (j : Nat) (c : Cluster), s.clusters[j]? = some c → ¬ s.NoCycle c.nodes →
        ∃ xs ∈ runs j, ∀ x ∈ xs, State.Passes x) := by
  obtain ⟨s', r, runs, h1, h2, h3, _, h4⟩ := State.convergence_runs h hord hsched kind hn hneed
  exact ⟨s', r, runs, h1, h2, h3, h4⟩

/-- C31: when all the images of the factors are positive, all the variations are numbers, so that a propagation is
reported as completed exactly when on every cluster with cycles an iteration was found in which all the messages changed
by less than the tolerance.

Missing: the factors which vanish somewhere, for which `C31_convergence_partial` says what is reported. -/
theorem C31_positive_partial {K : Type} [Field K] [LinearOrder K] [IsStrictOrderedRing K] [FloatParams K]
    {s : State (Ext K)} (h : Reach (fun s op => Prudent s op ∧ Steady s op) s) {ord : List Var → List Var}
    (hord : ∀ l, (ord l).Perm l) {sched : Sched} (hsched : ∀ l, (sched l).Perm l) (kind : Kind) {n : Nat} (hn : 1 ≤ n)
    (hneed : s.wouldNeedPropagation kind = true) {φ : Nat → Assign → K} (hφ : s.Images φ)
    (hpos : ∀ p ∈ s.factors, ∀ a, s.InRange a → 0 < φ p a) :
    ∃ s' r, ∃ runs : Nat → List (List (Ext K)),
      State.checkPropagation ord sched kind n s = .ok s' () ∧ s'.last = some r ∧
      (∀ (j : Nat) (c : Cluster), s.clusters[j]? = some c → ¬ s.NoCycle c.nodes →
        State.Iterated kind s s' c.nodes (runs j) ∧ (runs j).length ≤ s.maxIter ∧
        (∀ xs ∈ runs j, ∀ x ∈ xs, ∃ a : K, x = .val a) ∧
        (∀ (i : Nat) xs, (runs j)[i]? = some xs → i + 1 < (runs j).length →
          ∃ a : K, Ext.val a ∈ xs ∧ FloatParams.tolK ≤ a)) ∧
      (r.completed = true ↔ ∀ (j : Nat) (c : Cluster), s.clusters[j]? = some c → ¬ s.NoCycle c.nodes →
        ∃ xs ∈ runs j, ∀ x ∈ xs, ∃ a : K, x = .val a ∧ a < FloatParams.tolK) := by
  have hs := reach_sound h
  have hP := hφ.valued hs.healthy.inv.toCore hpos
  obtain ⟨s', r, runs, h1, h2, h3, h4, h5⟩ := State.convergence_runs (Ex.Reach.mono (fun _ _ h => h.1) h) hord hsched kind hn hneed
  obtain ⟨s'', r', g1, g2, g3, _, _, _, _, g4, _⟩ := State.checkPropagation_positive hord kind hsched hs hn hneed hP
  rw [h1] at g1
  cases g1
  have hnum : ∀ (j : Nat) (c : Cluster), s.clusters[j]? = some c → ¬ s.NoCycle c.nodes →
      ∀ xs ∈ runs j, ∀ x ∈ xs, ∃ a : K, x = .val a := by
    intro j c hc hcy xs hxs x hx
    obtain ⟨done, hrun⟩ := h4 j c hc hcy
    have hmem : ∀ u ∈ c.nodes, u ∈ s'.hid := by
      intro u hu
      rw [g2.toQuiet.hid]
      exact State.mem_hid.mpr (hs.healthy.inv.cluster_mem hc hu)
    have := (hrun.posOn (hP.quiet g2.toQuiet) (fun u hu => g4 u (hmem u hu))).2 xs hxs x hx
    exact ⟨_, this.eq⟩
  have hpass : ∀ a : K, State.Passes (.val a) ↔ a < FloatParams.tolK := by
    intro a
    unfold State.Passes
    constructor
    · rintro (h | h)
      · cases h
      · exact of_decide_eq_true h
    · exact fun h => Or.inr (decide_eq_true h)
  refine ⟨s', r, runs, h1, h2, fun j c hc hcy => ?_, h5.trans ?_⟩
  · obtain ⟨k1, k2, k3, _⟩ := h3 j c hc hcy
    refine ⟨k1, k2, hnum j c hc hcy, fun i xs hi hlt => ?_⟩
    obtain ⟨x, hx, hnp⟩ := k3 i xs hi hlt
    obtain ⟨a, rfl⟩ := hnum j c hc hcy xs (List.mem_of_getElem? hi) x hx
    exact ⟨a, hx, not_lt.mp (fun h => hnp ((hpass a).mpr h))⟩
  · refine forall_congr' (fun j => forall_congr' (fun c => forall_congr' (fun hc => forall_congr' (fun hcy => ?_))))
    refine exists_congr (fun xs => and_congr_right (fun hxs => ?_))
    refine forall_congr' (fun x => forall_congr' (fun hx => ?_))
    obtain ⟨a, rfl⟩ := hnum j c hc hcy xs hxs x hx
    rw [hpass]
    exact ⟨fun h => ⟨a, rfl, h⟩, fun ⟨b, e, hb⟩ => by cases e; exact hb⟩

/-- C31: all the queries return, whatever the structure of the clusters and the convergence. -/
theorem C31_queries_return_partial {s : State F} (h : Reach Prudent s) {ord : List Var → List Var}
    (hord : ∀ l, (ord l).Perm l) {sched : Sched} (hsched : ∀ l, (sched l).Perm l) {n : Nat} (hn : 1 ≤ n) :
    (∀ v ∈ s.vars, (∃ s' ps, State.getMarginal ord sched v n s = .ok s' ps ∧ ps.length = v.size) ∧
      ∃ s' k, State.getMAP ord sched v n s = .ok s' k ∧ k < v.size) ∧
    ∃ s' ks, State.getHiddenSetMAP ord sched n s = .ok s' ks := by
  have hs := reach_healthy h
  refine ⟨?_, ?_⟩
  · intro v hv
    obtain ⟨s1, ps, e1, _, _, _, _, e2⟩ := State.getMarginal_ok hord .sum hsched hs hn hv (Var.eqv_refl v)
    obtain ⟨s2, k, _, e3, _, _, _, _, _, _, e4⟩ := State.getMAP_ok hord hsched hs hn hv (Var.eqv_refl v)
    exact ⟨⟨s1, ps, e1, e2⟩, s2, k, e3, e4⟩
  · obtain ⟨s1, ks, e1, _⟩ := State.getHiddenSetMAP_ok hord hsched hs hn
    exact ⟨s1, ks, e1⟩

/-- All the images of a factor of the examples are positive. -/
def Ex.okPositive (vars : List Var) (p : Nat) : Bool :=
  match Ex.heapXYZ[p]? with
  | some f => f.vars.group.all vars.contains && (f.vars.group.map (fun v => List.range v.size)).sections.all (fun c =>
      match Ex.valAt f c with
      | some x => decide (0 < x)
      | none => false)
  | none => false

theorem Ex.phi_positive {s : State (Ext ℚ)} (hf : s.factors.all (Ex.okPositive s.vars) = true) :
    ∀ p ∈ s.factors, ∀ a, s.InRange a → 0 < Ex.phi p a := by
  intro p hp a ha
  have := (List.all_eq_true.mp hf) p hp
  unfold Ex.okPositive at this
  unfold Ex.phi
  cases hp : Ex.heapXYZ[p]? with
  | none => rw [hp] at this; cases this
  | some f =>
    rw [hp] at this
    simp only [Bool.and_eq_true, List.all_eq_true] at this
    obtain ⟨h1, h2⟩ := this
    have h3 := h2 (f.vars.group.map a) (by
      rw [List.mem_sections, List.forall₂_map_left_iff, List.forall₂_map_right_iff]
      exact List.forall₂_same.mpr (fun v hv => by
        simpa using ha v (by simpa using h1 v hv)))
    simp only
    cases hv : Ex.valAt f (f.vars.group.map a) with
    | none => rw [hv] at h3; cases h3
    | some x => rw [hv] at h3; simpa using h3

/-- The factors of the triangle are positive, and it has a cycle: `C31_positive_partial` applies. -/
example : ∃ s' r, State.checkPropagation Ex.rev id .sum 1 (Ex.after Ex.triangle) = .ok s' () ∧ s'.last = some r ∧
    ∃ runs : Nat → List (List (Ext ℚ)), ∀ (j : Nat) (c : Cluster), (Ex.after Ex.triangle).clusters[j]? = some c →
      ¬ (Ex.after Ex.triangle).NoCycle c.nodes → ∀ xs ∈ runs j, ∀ x ∈ xs, ∃ a : ℚ, x = .val a := by
  obtain ⟨s', r, runs, h1, h2, h3, _⟩ := C31_positive_partial Ex.triangle_reach (ord := Ex.rev) Ex.rev_perm (sched := id)
    (fun l => List.Perm.refl l) .sum (n := 1) le_rfl (by decide +kernel) (φ := Ex.phi)
    (Ex.phi_images rfl (by decide +kernel)) (Ex.phi_positive (by decide +kernel))
  exact ⟨s', r, h1, h2, runs, fun j c hc hcy => (h3 j c hc hcy).2.2.1⟩

/-- One iteration is not enough on the triangle. -/
example : Reach Prudent (Ex.after Ex.triangle) ∧ (Ex.after Ex.triangle).wouldNeedPropagation .sum = true ∧
    (match State.checkPropagation Ex.rev List.reverse .sum 2 (Ex.after Ex.triangle) with
      | .ok s _ => s.last.map (fun r : PropResult => (r.completed, r.structures))
      | _ => none) = some (false, [(false, 3)]) :=
  ⟨Ex.Reach.mono (fun _ _ h => h.1) Ex.triangle_reach, by decide +kernel, by decide +kernel⟩

/-- C31 is violated by messages which are not numbers: on the triangle with a null factor on X the
message from X to Y is nowhere a number, so that its variations, with respect to anything, are not
numbers and not below the tolerance; still the propagation is reported as completed. -/
theorem C31_violated : ∃ s : State (Ext ℚ), Reach Prudent s ∧ s.maxIter = 2 ∧
    (match State.checkPropagation Ex.rev id .sum 1 s with
      | .ok s' _ => s'.last.map (fun r : PropResult => r.completed)
      | _ => none) = some true ∧
    (match State.checkPropagation Ex.rev id .sum 1 s with
      | .ok s' _ => (s'.msg Ex.Y Ex.X).map (fun m => [Fn.ones Ex.Y, m].map (fun o =>
          match Fn.diff o m with
          | .ok x => Arith.lt x Arith.tol
          | _ => true))
      | _ => none) = some [false, false] :=
  ⟨Ex.after [.iterations 2, .add 5, .add 1, .add 2, .add 3], Ex.after_prudent _ (by decide +kernel), by decide +kernel,
    by decide +kernel, by decide +kernel⟩

/-! ### C33 -/

/-- C33: after any execution of prudent operations, a request with zero threads which needs a
propagation throws, and nothing but the pool of threads is changed.

Missing: that the model keeps working (`C33_violated`). -/
theorem C33_zero_threads_partial {s : State F} (h : Reach Prudent s) (ord : List Var → List Var) (sched : Sched)
    (kind : Kind) (hneed : s.wouldNeedPropagation kind = true) (v : Var) :
    State.marginalQuery ord sched kind v 0 s = .throw { s with pool := none } := by
  have hs := reach_healthy h
  have hpool : State.setPoolSize 0 s = .throw { s with pool := none } := by
    unfold State.setPoolSize
    rw [hs.pool]
    rfl
  unfold State.marginalQuery State.checkPropagation
  rw [if_pos hneed]
  unfold State.withPool
  rw [hpool]

/-- The path needs a propagation. -/
example : Reach Prudent (Ex.after Ex.path) ∧ (Ex.after Ex.path).wouldNeedPropagation .sum = true :=
  ⟨Ex.Reach.mono (fun _ _ h => h.1) Ex.path_reach, by decide +kernel⟩

/-- C33 is violated: the refused request leaves the model without pool, and the next request with one
thread dereferences an empty optional. -/
theorem C33_violated : ∃ s s' : State (Ext ℚ), Reach Prudent s ∧
    State.getMarginal Ex.rev id Ex.X 0 s = .throw s' ∧ State.getMarginal Ex.rev id Ex.X 1 s' = .ub := by
  have h : Reach Prudent (Ex.after Ex.path) := Ex.Reach.mono (fun _ _ h => h.1) Ex.path_reach
  have hneed : (Ex.after Ex.path).wouldNeedPropagation .sum = true := by decide +kernel
  refine ⟨Ex.after Ex.path, { Ex.after Ex.path with pool := none }, h,
    C33_zero_threads_partial h Ex.rev id .sum hneed Ex.X, ?_⟩
  have hneed' : ({ Ex.after Ex.path with pool := none } : State (Ext ℚ)).wouldNeedPropagation .sum = true := hneed
  unfold State.getMarginal State.marginalQuery State.checkPropagation
  rw [if_pos hneed']
  rfl

end EFG
