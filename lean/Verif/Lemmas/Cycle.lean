import Verif.Lemmas.Sound
/-
Cycles in the graph of the hidden variables, and what the exact propagation finds.
-/

set_option linter.unusedSectionVars false

namespace EFG

/-! ### Graphs -/

/-- Directed edges which can be numbered so that the number grows along every path exclude cycles. -/
theorem noCycle_of_rank {V : Type} {G : SimpleGraph V} (S : V → Prop) (hS : ∀ u v, S u → G.Adj u v → S v)
    (rank : V → V → Nat)
    (hr : ∀ u v w, S u → G.Adj u v → G.Adj v w → u ≠ w → rank u v < rank v w) {x : V} (hx : S x)
    (c : G.Walk x x) : ¬ c.IsCycle := by
  intro hc
  have hl := hc.three_le_length
  have hmem : ∀ i, i ≤ c.length → S (c.getVert i) := by
    intro i
    induction i with
    | zero => intro _; rw [SimpleGraph.Walk.getVert_zero]; exact hx
    | succ i ih => intro hi; exact hS _ _ (ih (by omega)) (c.adj_getVert_succ (by omega))
  have hinc : ∀ i, i + 2 ≤ c.length → rank (c.getVert i) (c.getVert (i + 1)) <
      rank (c.getVert (i + 1)) (c.getVert (i + 2)) := by
    intro i hi
    refine hr _ _ _ (hmem i (by omega)) (c.adj_getVert_succ (by omega)) (c.adj_getVert_succ (by omega)) ?_
    have := hc.getVert_sub_one_ne_getVert_add_one (i := i + 1) (by omega)
    simpa using this
  have hchain : ∀ i, i + 1 ≤ c.length → rank (c.getVert 0) (c.getVert 1) ≤
      rank (c.getVert i) (c.getVert (i + 1)) := by
    intro i
    induction i with
    | zero => intro _; exact le_rfl
    | succ i ih => intro hi; exact (ih (by omega)).trans (hinc i (by omega)).le
  have hlast := hchain (c.length - 1) (by omega)
  have hwrap : rank (c.getVert (c.length - 1)) (c.getVert (c.length - 1 + 1)) < rank (c.getVert 0) (c.getVert 1) := by
    have e : c.getVert (c.length - 1 + 1) = c.getVert 0 := by
      rw [Nat.sub_add_cancel (by omega), SimpleGraph.Walk.getVert_length, SimpleGraph.Walk.getVert_zero]
    have ha := c.adj_getVert_succ (i := c.length - 1) (by omega)
    have hb := c.adj_getVert_succ (i := 0) (by omega)
    rw [e] at ha ⊢
    refine hr _ _ _ (hmem _ (by omega)) ha hb ?_
    have := hc.snd_ne_penultimate
    exact fun h => this h.symm
  omega

/-- Directed edges each of which can be extended backwards contain a cycle. -/
theorem cycle_of_stuck {V : Type} [DecidableEq V] {G : SimpleGraph V} (nodes : List V) (L : V → V → Prop)
    (hadj : ∀ u v, L u v → G.Adj u v ∧ u ∈ nodes ∧ v ∈ nodes)
    (hback : ∀ u v, L u v → ∃ w, w ≠ v ∧ L w u) {a b : V} (hab : L a b) :
    ∃ u ∈ nodes, ∃ c : G.Walk u u, c.IsCycle := by
  by_contra hno
  push Not at hno
  have hlong : ∀ k, ∃ (u v z : V) (h : G.Adj u v) (p : G.Walk v z), L u v ∧ (SimpleGraph.Walk.cons h p).IsPath ∧
      p.length = k ∧ ∀ y ∈ (SimpleGraph.Walk.cons h p).support, y ∈ nodes := by
    intro k
    induction k with
    | zero =>
      refine ⟨a, b, b, (hadj a b hab).1, .nil, hab, ?_, rfl, ?_⟩
      · rw [SimpleGraph.Walk.cons_isPath_iff]
        refine ⟨SimpleGraph.Walk.IsPath.nil, ?_⟩
        simp only [SimpleGraph.Walk.support_nil, List.mem_singleton]
        exact (hadj a b hab).1.ne
      · intro y hy
        simp only [SimpleGraph.Walk.support_cons, SimpleGraph.Walk.support_nil, List.mem_cons, List.not_mem_nil,
          or_false] at hy
        rcases hy with rfl | rfl
        · exact (hadj _ _ hab).2.1
        · exact (hadj _ _ hab).2.2
    | succ k ih =>
      obtain ⟨u, v, z, h, p, h1, h2, h3, h4⟩ := ih
      obtain ⟨w, hwv, hwu⟩ := hback u v h1
      obtain ⟨g1, g2, g3⟩ := hadj w u hwu
      by_cases hw : w ∈ (SimpleGraph.Walk.cons h p).support
      · exfalso
        refine hno w g2 (SimpleGraph.Walk.cons g1 ((SimpleGraph.Walk.cons h p).takeUntil w hw)) ?_
        rw [SimpleGraph.Walk.cons_isCycle_iff]
        refine ⟨h2.takeUntil hw, ?_⟩
        intro he
        have he' : s(w, u) ∈ (SimpleGraph.Walk.cons h p).edges :=
          SimpleGraph.Walk.edges_takeUntil_subset_edges _ hw he
        rw [Sym2.eq_swap] at he'
        have := h2.eq_snd_of_mem_edges he'
        simp at this
        exact hwv this
      · refine ⟨w, u, z, g1, SimpleGraph.Walk.cons h p, hwu, ?_, ?_, ?_⟩
        · rw [SimpleGraph.Walk.cons_isPath_iff]; exact ⟨h2, hw⟩
        · rw [SimpleGraph.Walk.length_cons, h3]
        · intro y hy
          rw [SimpleGraph.Walk.support_cons] at hy
          rcases List.mem_cons.mp hy with rfl | hy
          · exact g2
          · exact h4 y hy
  obtain ⟨u, v, z, h, p, _, h2, h3, h4⟩ := hlong nodes.length
  have hnd : (SimpleGraph.Walk.cons h p).support.Nodup := h2.support_nodup
  have hle : (SimpleGraph.Walk.cons h p).support.length ≤ nodes.length :=
    (hnd.subperm (fun y hy => h4 y hy)).length_le
  rw [SimpleGraph.Walk.length_support, SimpleGraph.Walk.length_cons, h3] at hle
  omega

namespace State
variable {F : Type} [Arith F]

/-- The edges between hidden variables. -/
theorem Core.hiddenGraph_adj {s : State F} (hs : Core s) {u v : Var} :
    s.hiddenGraph.Adj u v ↔ s.Hidden u ∧ s.Hidden v ∧ (s.act u v).isSome := by
  constructor
  · rintro ⟨_, h2, h3, h4⟩; exact ⟨h2, h3, (hs.joins_hidden h2 h3).mp h4⟩
  · rintro ⟨h2, h3, h4⟩
    refine ⟨?_, h2, h3, (hs.joins_hidden h2 h3).mpr h4⟩
    rintro rfl
    exact absurd h4 (by simpa using hs.net.act_irrefl u)

theorem Setting.hidden {s : State F} (hs : Core s) {nodes : List Var} {ts : List Topo} (h : Setting s nodes ts) {u v : Var}
    (hu : u ∈ nodes) (ha : (s.act u v).isSome) : s.Hidden u ∧ s.Hidden v := by
  have hv := hs.act_vars ha
  exact ⟨hidden_iff.mpr (mem_hid.mpr ⟨hv.1, h.hid u hu⟩),
    hidden_iff.mpr (mem_hid.mpr ⟨hv.2, h.hid v (h.closed u hu v ha)⟩)⟩

/-- When the exact propagation succeeds the cluster has no cycle. -/
theorem Setting.noCycle {s : State F} (hs : Core s) {nodes : List Var} {ts : List Topo} (h : Setting s nodes ts)
    {kind : Kind} (he : Exact kind s ts) : s.NoCycle nodes := by
  obtain ⟨rank, hr⟩ := he
  intro x hx c
  refine noCycle_of_rank (fun u => u ∈ nodes) ?_ (fun u v => rank ⟨v, u⟩) ?_ hx c
  · intro u v hu ha
    exact h.closed u hu v (hs.hiddenGraph_adj.mp ha).2.2
  · intro u v w hu huv hvw hne
    have h1 := (hs.hiddenGraph_adj.mp huv).2.2
    have h2 := (hs.hiddenGraph_adj.mp hvw).2.2
    have hv := h.closed u hu v h1
    obtain ⟨t, ht, e1, e2⟩ := h.topo.all v hv w h2
    obtain ⟨m, _, _, hdep⟩ := hr t ht
    have hd : (⟨v, u⟩ : ConnRef) ∈ t.deps := by
      rw [h.topo.deps t ht]
      refine ⟨e1.symm, ?_, ?_⟩
      · rw [e2]; exact hne
      · rw [e1]; exact hs.net.symA u v h1
    have := hdep _ hd
    have hc : t.conn = ⟨w, v⟩ := by
      have h6 := h.topo.from_ t ht
      cases hcn : t.conn with
      | mk o f =>
        rw [hcn] at e2 h6
        simp only at e2 h6
        rw [e2, h6, e1]
    rw [hc] at this
    exact this

/-- When the exact propagation is stuck the cluster has a cycle. -/
theorem Setting.cycle {s : State F} (hs : Core s) {nodes : List Var} {ts : List Topo} (h : Setting s nodes ts)
    (hst : Stuck ts) : ∃ u ∈ nodes, ∃ c : s.hiddenGraph.Walk u u, c.IsCycle := by
  classical
  obtain ⟨left, hsub, hne, hst⟩ := hst
  obtain ⟨t0, ht0⟩ := List.exists_mem_of_ne_nil left hne
  refine cycle_of_stuck nodes (fun u v => ∃ t ∈ left, t.sender = u ∧ t.conn.owner = v) ?_ ?_
    (a := t0.sender) (b := t0.conn.owner) ⟨t0, ht0, rfl, rfl⟩
  · rintro u v ⟨t, ht, rfl, rfl⟩
    have ht' := hsub ht
    have ha := h.topo.active t ht'
    have hu := h.topo.sender t ht'
    obtain ⟨g1, g2⟩ := h.hidden hs hu ha
    exact ⟨hs.hiddenGraph_adj.mpr ⟨g1, g2, ha⟩, hu, h.closed _ hu _ ha⟩
  · rintro u v ⟨t, ht, rfl, rfl⟩
    obtain ⟨t', ht', hd⟩ := hst t ht
    obtain ⟨e1, e2, _⟩ := (h.topo.deps t (hsub ht) _).mp hd
    have h6 := h.topo.from_ t' (hsub ht')
    refine ⟨t'.sender, ?_, t', ht', rfl, e1⟩
    rw [← h6]; exact e2

end State
end EFG
