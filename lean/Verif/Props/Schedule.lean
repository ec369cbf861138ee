import Verif.Lemmas.Race
import Verif.Props.Propagation
/-
C29: the propagation does not depend on the threads.
-/

namespace EFG
variable {F : Type} [Arith F]

/-- C29: consider any round of parallel tasks executed by the propagation started by a query. Different
tasks write different messages, and no task reads a message which a task of the round writes. Whatever
the interleaving of the tasks, every task not yet started can compute its message, and when all the
tasks are done the state is the one left by executing them one after the other in any order.

Missing: the executions which are not prudent, after which a task may have undefined behaviour
(`C24_violated`). -/
theorem C29_rounds_partial {s : State F} (h : Reach Prudent s) {ord : List Var → List Var}
    (hord : ∀ l, (ord l).Perm l) {sched : Sched} (hsched : ∀ l, (sched l).Perm l) (kind : Kind) {n : Nat} (hn : 1 ≤ n)
    {s1 : State F} {now : List Topo} (hr : State.RunsRound ord sched kind n s s1 now) :
    (now.map (·.conn)).Nodup ∧ (∀ t ∈ now, ∀ t' ∈ now, t.conn ∉ t'.deps) ∧
    ∃ s', (∀ sched' : Sched, (∀ l, (sched' l).Perm l) → State.messageRound kind sched' now s1 = .ok s' ()) ∧
      ∀ cfg, Relation.ReflTransGen (State.RaceStep kind) ⟨now, [], s1⟩ cfg →
        (∀ t ∈ cfg.todo, ∃ m, State.Computes kind cfg.state t m) ∧
        (cfg.todo = [] → cfg.pending = [] → cfg.state = s') := by
  obtain ⟨h1, h2, h3⟩ := hr.roundOk hord hsched hn (reach_healthy h)
  exact ⟨h3.nodup, h3.apart, h3.race h1 h2⟩

/-- The first round on the path X - Y - Z, with two threads: the messages from the two ends to the
middle. -/
example : ∃ s1, State.RunsRound id id .sum 2 (Ex.after Ex.path) s1
    [⟨Ex.X, ⟨Ex.Y, Ex.X⟩, []⟩, ⟨Ex.Z, ⟨Ex.Y, Ex.Z⟩, []⟩] := by
  obtain ⟨sB, hB⟩ : ∃ sB, State.prepareCluster id 0
      ({ Ex.after Ex.path with pool := some 2 } : State (Ext ℚ)).resetMessages = .ok sB () := by
    have h : (match State.prepareCluster id 0
        ({ Ex.after Ex.path with pool := some 2 } : State (Ext ℚ)).resetMessages with | .ok _ _ => true | _ => false) = true := by
      decide +kernel
    cases hq : State.prepareCluster id 0 ({ Ex.after Ex.path with pool := some 2 } : State (Ext ℚ)).resetMessages with
    | ok a b => exact ⟨a, rfl⟩
    | throw a => rw [hq] at h; cases h
    | ub => rw [hq] at h; cases h
  have hc : (match State.prepareCluster id 0
      ({ Ex.after Ex.path with pool := some 2 } : State (Ext ℚ)).resetMessages with
      | .ok s _ => (s.clusters[0]?).bind (·.connectivity) | _ => none) = some
        [⟨Ex.X, ⟨Ex.Y, Ex.X⟩, []⟩, ⟨Ex.Y, ⟨Ex.X, Ex.Y⟩, [⟨Ex.Y, Ex.Z⟩]⟩, ⟨Ex.Y, ⟨Ex.Z, Ex.Y⟩, [⟨Ex.Y, Ex.X⟩]⟩,
         ⟨Ex.Z, ⟨Ex.Y, Ex.Z⟩, []⟩] := by decide +kernel
  have hs : (match State.prepareCluster id 0
      ({ Ex.after Ex.path with pool := some 2 } : State (Ext ℚ)).resetMessages with
      | .ok s _ => (match s.splitReady [⟨Ex.X, ⟨Ex.Y, Ex.X⟩, []⟩, ⟨Ex.Y, ⟨Ex.X, Ex.Y⟩, [⟨Ex.Y, Ex.Z⟩]⟩,
          ⟨Ex.Y, ⟨Ex.Z, Ex.Y⟩, [⟨Ex.Y, Ex.X⟩]⟩, ⟨Ex.Z, ⟨Ex.Y, Ex.Z⟩, []⟩] with
        | .ok p => some p | _ => none) | _ => none) = some
        ([⟨Ex.X, ⟨Ex.Y, Ex.X⟩, []⟩, ⟨Ex.Z, ⟨Ex.Y, Ex.Z⟩, []⟩],
          [⟨Ex.Y, ⟨Ex.X, Ex.Y⟩, [⟨Ex.Y, Ex.Z⟩]⟩, ⟨Ex.Y, ⟨Ex.Z, Ex.Y⟩, [⟨Ex.Y, Ex.X⟩]⟩]) := by decide +kernel
  rw [hB] at hc hs
  simp only at hc hs
  cases hcl : sB.clusters[0]? with
  | none => rw [hcl] at hc; cases hc
  | some c =>
    rw [hcl] at hc
    simp only [Option.bind_some] at hc
    refine ⟨sB, 0, _, [], sB, c, _, by decide +kernel, rfl, hB, hcl, hc, State.Rounds.here (later :=
      [⟨Ex.Y, ⟨Ex.X, Ex.Y⟩, [⟨Ex.Y, Ex.Z⟩]⟩, ⟨Ex.Y, ⟨Ex.Z, Ex.Y⟩, [⟨Ex.Y, Ex.X⟩]⟩]) ?_ (by simp)⟩
    generalize sB.splitReady _ = x at hs
    cases x with
    | ok p => simp only [Option.some.injEq] at hs; rw [hs]
    | throw => cases hs
    | ub => cases hs

/-- C29: queries made in the same state with different numbers of threads and different schedules leave
the same connections, with the same factors and messages, in the nodes of every cluster without cycles,
also when other clusters have cycles; and they return the same values for the variables of these
clusters.

Missing: the executions which are not prudent (`C24_violated`). -/
theorem C29_same_messages_partial {s : State F} (h : Reach Prudent s) {ord : List Var → List Var}
    (hord : ∀ l, (ord l).Perm l) (kind : Kind) {sched sched' : Sched} (hsched : ∀ l, (sched l).Perm l)
    (hsched' : ∀ l, (sched' l).Perm l) {n n' : Nat} (hn : 1 ≤ n) (hn' : 1 ≤ n') {c : Cluster} (hc : c ∈ s.clusters)
    (hno : s.NoCycle c.nodes) {v : Var} (hv : v ∈ c.nodes) :
    ∃ s1 s2 ps, State.marginalQuery ord sched kind v n s = .ok s1 ps ∧
      State.marginalQuery ord sched' kind v n' s = .ok s2 ps ∧
      ∀ u ∈ c.nodes, s1.activeOf u = s2.activeOf u := by
  obtain ⟨s1, s2, h1, h2, h3, h4, h5, h6, h7, h8, h9, h10⟩ :=
    State.checkPropagation_same hord kind hsched hsched' hn hn' (reach_healthy h)
  obtain ⟨j, hj⟩ := List.mem_iff_getElem?.mp hc
  have hvs := (reach_healthy h).inv.cluster_mem hj hv
  have hvh : v ∈ s1.hid := State.mem_hid.mpr ⟨by rw [h4.vars]; exact hvs.1, by rw [h4.toQuiet.obs]; exact hvs.2⟩
  have hvh2 : v ∈ s2.hid := State.mem_hid.mpr ⟨by rw [h5.vars]; exact hvs.1, by rw [h5.toQuiet.obs]; exact hvs.2⟩
  obtain ⟨_, _, _, ps, _, _, _, _, _, _, _, _, hb⟩ := State.belief_ok hord h6.inv (h6.alive h8) hvh
  have hb2 : s2.belief ord v = .ok ps := by
    obtain ⟨n1, hn1⟩ := State.node?_of_mem (s := s1) (v := v) (by
      rw [h6.inv.net.keys]; exact (State.mem_hid.mp hvh).1)
    obtain ⟨n2, hn2⟩ := State.node?_of_mem (s := s2) (v := v) (by
      rw [h7.inv.net.keys]; exact (State.mem_hid.mp hvh2).1)
    have ha := h10 c hc hno v hv
    have hm := h3.mrg v
    unfold State.activeOf at ha
    unfold State.mrg at hm
    rw [hn1, hn2] at ha hm
    simp only at ha
    have hm' : n2.merged = n1.merged := hm
    rw [← hb]
    unfold State.belief
    rw [hn1, hn2]
    simp only
    unfold State.gatherIncoming State.activeMessage
    rw [ha, hm']
  refine ⟨s1, s2, ps, ?_, ?_, fun u hu => (h10 c hc hno u hu).symm⟩
  · rw [State.marginalQuery_eq]
    unfold State.asks
    rw [h1]
    simp only [State.lift]
    rw [h6.inv.readMarginal_hidden hvh (Var.eqv_refl v), hb]
  · rw [State.marginalQuery_eq]
    unfold State.asks
    rw [h2]
    simp only [State.lift]
    rw [h7.inv.readMarginal_hidden hvh2 (Var.eqv_refl v), hb2]

example : Reach Prudent (Ex.after Ex.path) ∧ (Ex.after Ex.path).clusters.map (·.nodes) = [[Ex.X, Ex.Y, Ex.Z]] ∧
    (Ex.after Ex.path).NoCycle [Ex.X, Ex.Y, Ex.Z] :=
  ⟨Ex.Reach.mono (fun _ _ h => h.1) Ex.path_reach, by decide +kernel, Ex.path_noCycle⟩

end EFG
