import Verif.Lemmas.Component
import Verif.Props.Joint
/-
C57: the marginals depend on the cluster only, and are NaN where the weights of the cluster vanish.
-/

namespace EFG
variable {K : Type} [Field K] [LinearOrder K] [IsStrictOrderedRing K]

section
variable {s s' : State (Ext K)} (hq : State.Quiet s s')
include hq

theorem State.Quiet.linkedS (u v : Var) : s'.Linked u v ↔ s.Linked u v := by
  unfold State.Linked
  simp only [hq.hiddenS, hq.joinsS]

theorem State.Quiet.inClusterS (v : Var) (p : Nat) : s'.InCluster v p ↔ s.InCluster v p := by
  unfold State.InCluster State.FactorOn
  simp only [hq.linkedS, hq.hiddenS, hq.factors, hq.heap]

theorem State.Quiet.clusterReadS (φ : Nat → Assign → K) (v : Var) : s'.clusterRead φ v = s.clusterRead φ v := by
  have hh : s'.Hidden = s.Hidden := funext (fun v => propext (hq.hiddenS v))
  have hc : s'.InCluster v = s.InCluster v := funext (fun p => propext (hq.inClusterS v p))
  funext a
  unfold State.clusterRead State.readAt
  rw [hq.factors, hq.heap, hh, hc]

theorem State.Quiet.clusterOthersS {v : Var} {l : List Var} (h : s.ClusterOthers v l) : s'.ClusterOthers v l := by
  unfold State.ClusterOthers at *
  simp only [hq.linkedS]
  exact h

end

variable [FloatParams K]

/-- C57, as the library behaves: after any execution of prudent and steady operations, on the factors `φ`, the
marginal of a hidden variable whose cluster has no cycles is computed from the factors of the cluster alone, the ones
which involve a hidden variable linked to it: it is the distribution described by their product, or a list of NaN if
all the products are zero. The factors which join two hidden variables are read with the two values exchanged. -/
theorem C57_transposed_partial {s : State (Ext K)} (h : Reach (fun s op => Prudent s op ∧ Steady s op) s)
    {ord : List Var → List Var} (hord : ∀ l, (ord l).Perm l) {sched : Sched} (hsched : ∀ l, (sched l).Perm l)
    {n : Nat} (hn : 1 ≤ n) {φ : Nat → Assign → K} (hφ : s.Images φ) {v w : Var} (hv : s.Hidden v)
    (hw : v.eqv w = true) (ht : s.TreeAt v) {l : List Var} (hl : s.ClusterOthers v l) {e : Assign} (he : s.Agrees e) :
    ∃ s' ps, State.getMarginal ord sched w n s = .ok s' ps ∧
      ((∃ i < v.size, State.mass (s.clusterRead φ v) l e v i ≠ 0) →
        ps = (State.distribution (s.clusterRead φ v) l e v).map Ext.val) ∧
      ((∀ i < v.size, State.mass (s.clusterRead φ v) l e v i = 0) → ps = List.replicate v.size Ext.nan) := by
  unfold State.getMarginal
  rw [State.marginalQuery_eq]
  obtain ⟨s', x, h1, h2⟩ := State.asks_faithful hord .sum hsched (reach_sound h) hn (r := State.readMarginal ord w)
    (P := fun x => ((∃ i < v.size, State.mass (s.clusterRead φ v) l e v i ≠ 0) →
        x = (State.distribution (s.clusterRead φ v) l e v).map Ext.val) ∧
      ((∀ i < v.size, State.mass (s.clusterRead φ v) l e v i = 0) → x = List.replicate v.size Ext.nan)) (by
      intro s' p ha hH hF hp hk
      have hq := ha.toQuiet
      have hv' := (hq.hiddenS v).mpr hv
      have hr := hq.clusterReadS φ v
      obtain ⟨b1, b2⟩ := State.belief_cluster hord hH hF hp hk (hq.imagesS hφ) hv' (hq.treeAt ht)
        (hq.clusterOthersS hl) (hq.agreesS he)
      rw [hr] at b1 b2
      rw [hH.inv.readMarginal_hidden (State.hidden_iff.mp hv') hw]
      by_cases hne : ∃ i < v.size, State.mass (s.clusterRead φ v) l e v i ≠ 0
      · refine ⟨_, b1 hne, fun _ => rfl, fun h0 => ?_⟩
        obtain ⟨i, hi, hi'⟩ := hne
        exact absurd (h0 i hi) hi'
      · push Not at hne
        refine ⟨_, b2 hne, fun ⟨i, hi, hi'⟩ => ?_, fun _ => rfl⟩
        exact absurd (hne i hi) hi')
  exact ⟨s', x, h1, h2⟩

/-- What the assignments of a sum over a cluster look like. -/
theorem State.ClusterOthers.agrees {s : State (Ext K)} {v : Var} (hv : s.Hidden v) {l : List Var}
    (hl : s.ClusterOthers v l) {e : Assign} (he : s.Agrees e) {i : Nat} (hi : i < v.size) {b : Assign}
    (h1 : ∀ u, u ∉ l → b u = Function.update e v i u) (h2 : ∀ u ∈ l, b u < u.size) : s.Agrees b := by
  constructor
  · intro u hu
    by_cases hul : u ∈ l
    · exact h2 u hul
    · rw [h1 u hul]
      by_cases huv : u = v
      · rw [huv, Function.update_self]; exact hi
      · rw [Function.update_of_ne huv]; exact he.1 u hu
  · intro u k hk
    have ho : s.Observes u := ⟨k, hk⟩
    have hul : u ∉ l := by
      intro h
      rcases ((hl.2 u).mp h).1.cases_tail with h' | ⟨_, _, h'⟩
      · exact ((hl.2 u).mp h).2 h'
      · exact h'.2.1.2 ho
    rw [h1 u hul, Function.update_of_ne (fun h : u = v => hv.2 (by rw [← h]; exact ho))]
    exact he.2 u k hk

/-- Without factors which tell the two values apart, reading them exchanged makes no difference. -/
theorem State.clusterMass_symmetric {s : State (Ext K)} {φ : Nat → Assign → K} (hsym : s.Symmetric φ) {v : Var}
    (hv : s.Hidden v) {l : List Var} (hl : s.ClusterOthers v l) {e : Assign} (he : s.Agrees e) {i : Nat}
    (hi : i < v.size) : State.mass (s.clusterRead φ v) l e v i = State.mass (s.clusterWeight φ v) l e v i := by
  refine Tree.sumOver_congr_range (fun b hb hr => ?_)
  have ha := hl.agrees hv he hi hb hr
  unfold State.clusterRead State.clusterWeight
  congr 1
  refine List.map_congr_left (fun p hp => ?_)
  have hp := (List.mem_filter.1 hp).1
  unfold State.readAt
  cases hf : s.heap[p]? with
  | none => rfl
  | some f =>
    simp only
    split
    · rename_i u w hg
      by_cases hh : s.Hidden u ∧ s.Hidden w
      · rw [if_pos hh]
        exact hsym p u w ⟨hp, f, hf, hg⟩ hh.1 hh.2 b ha.1
      · rw [if_neg hh]
    · rfl

/-- C57: after any execution of prudent and steady operations, on the factors `φ`, the marginal of a hidden variable
whose cluster has no cycles is its distribution in the product of the factors of its cluster, whatever the other
clusters contain, and a list of NaN exactly when no assignment of the cluster has a positive weight.

Missing: the factors which join two hidden variables and are not symmetric (for which `C57_transposed_partial` gives
the answer of the library), and the executions which change a factor of the model whose images were already used. -/
theorem C57_cluster_partial {s : State (Ext K)} (h : Reach (fun s op => Prudent s op ∧ Steady s op) s)
    {ord : List Var → List Var} (hord : ∀ l, (ord l).Perm l) {sched : Sched} (hsched : ∀ l, (sched l).Perm l)
    {n : Nat} (hn : 1 ≤ n) {φ : Nat → Assign → K} (hφ : s.Images φ) (hsym : s.Symmetric φ) {v w : Var}
    (hv : s.Hidden v) (hw : v.eqv w = true) (ht : s.TreeAt v) {l : List Var} (hl : s.ClusterOthers v l) {e : Assign}
    (he : s.Agrees e) :
    ∃ s' ps, State.getMarginal ord sched w n s = .ok s' ps ∧
      ((∃ i < v.size, State.mass (s.clusterWeight φ v) l e v i ≠ 0) →
        ps = (State.distribution (s.clusterWeight φ v) l e v).map Ext.val) ∧
      ((∀ i < v.size, State.mass (s.clusterWeight φ v) l e v i = 0) → ps = List.replicate v.size Ext.nan) := by
  have hm : ∀ i < v.size, State.mass (s.clusterRead φ v) l e v i = State.mass (s.clusterWeight φ v) l e v i :=
    fun i hi => State.clusterMass_symmetric hsym hv hl he hi
  obtain ⟨s', ps, h1, h2, h3⟩ := C57_transposed_partial h hord hsched hn hφ hv hw ht hl he
  refine ⟨s', ps, h1, ?_, fun h0 => h3 (fun i hi => by rw [hm i hi]; exact h0 i hi)⟩
  rintro ⟨i, hi, hne⟩
  rw [← State.distribution_congr hm]
  exact h2 ⟨i, hi, by rw [hm i hi]; exact hne⟩

/-- C57: two models, reached in any way, whose variable `v` has the same masses in its cluster give the same marginal,
whatever is in the other clusters. -/
theorem C57_local_partial {s t : State (Ext K)} (h : Reach (fun s op => Prudent s op ∧ Steady s op) s)
    (h' : Reach (fun s op => Prudent s op ∧ Steady s op) t)
    {ord ord' : List Var → List Var} (hord : ∀ l, (ord l).Perm l) (hord' : ∀ l, (ord' l).Perm l)
    {sched sched' : Sched} (hsched : ∀ l, (sched l).Perm l) (hsched' : ∀ l, (sched' l).Perm l)
    {n n' : Nat} (hn : 1 ≤ n) (hn' : 1 ≤ n') {φ φ' : Nat → Assign → K} (hφ : s.Images φ) (hφ' : t.Images φ')
    {v w : Var} (hv : s.Hidden v) (hv' : t.Hidden v) (hw : v.eqv w = true) (ht : s.TreeAt v) (ht' : t.TreeAt v)
    {l l' : List Var} (hl : s.ClusterOthers v l) (hl' : t.ClusterOthers v l') {e e' : Assign} (he : s.Agrees e)
    (he' : t.Agrees e') (hmass : ∀ i < v.size, State.mass (s.clusterRead φ v) l e v i =
      State.mass (t.clusterRead φ' v) l' e' v i) :
    ∃ s' t' ps, State.getMarginal ord sched w n s = .ok s' ps ∧ State.getMarginal ord' sched' w n' t = .ok t' ps := by
  obtain ⟨s', ps, a1, a2, a3⟩ := C57_transposed_partial h hord hsched hn hφ hv hw ht hl he
  obtain ⟨t', qs, b1, b2, b3⟩ := C57_transposed_partial h' hord' hsched' hn' hφ' hv' hw ht' hl' he'
  refine ⟨s', t', ps, a1, ?_⟩
  rw [b1]
  congr 1
  by_cases hne : ∃ i < v.size, State.mass (s.clusterRead φ v) l e v i ≠ 0
  · rw [a2 hne, b2 (by obtain ⟨i, hi, hi'⟩ := hne; exact ⟨i, hi, by rw [← hmass i hi]; exact hi'⟩)]
    congr 1
    unfold State.distribution
    have : (List.range v.size).map (State.mass (s.clusterRead φ v) l e v) =
        (List.range v.size).map (State.mass (t.clusterRead φ' v) l' e' v) :=
      List.map_congr_left (fun i hi => hmass i (by simpa using hi))
    rw [this]
    exact List.map_congr_left (fun i hi => by rw [hmass i (by simpa using hi)])
  · push Not at hne
    rw [a3 hne, b3 (fun i hi => by rw [← hmass i hi]; exact hne i hi)]

/-! ### Examples -/

namespace Ex

/-- The clusters of at most two variables have no cycle. -/
theorem small_tree {s : State (Ext ℚ)} {v a b : Var} (h : ∀ u, s.Linked v u → u = a ∨ u = b) : s.TreeAt v := by
  intro u hu c hc
  have hsup : ∀ x ∈ c.support, s.Linked v x := by
    intro x hx
    have : ∀ (y z : Var) (c : s.hiddenGraph.Walk y z), s.Linked v y → ∀ x ∈ c.support, s.Linked v x := by
      intro y z c
      induction c with
      | nil => intro hy x hx; simp at hx; rw [hx]; exact hy
      | cons hadj c ih =>
        intro hy x hx
        rw [SimpleGraph.Walk.support_cons] at hx
        rcases List.mem_cons.1 hx with rfl | hx
        · exact hy
        · exact ih (hy.tail ⟨hadj.2.1, hadj.2.2.1, hadj.2.2.2⟩) x hx
    exact this _ _ c hu x hx
  have h3 := hc.three_le_length
  have hnd := hc.support_nodup
  have hsub : c.support.tail ⊆ [a, b] := by
    intro x hx
    rcases h x (hsup x (List.mem_of_mem_tail hx)) with rfl | rfl <;> simp
  have := (hnd.subperm hsub).length_le
  rw [List.length_tail, SimpleGraph.Walk.length_support] at this
  simp at this
  omega

/-- X alone with a factor which is always zero, Y and Z joined by a factor which prefers different values. -/
abbrev torn : State (Ext ℚ) := after [.add 5, .add 2]

theorem torn_vars : torn.vars = [X, Y, Z] := by decide +kernel
theorem torn_heap : torn.heap = heapXYZ := by with_unfolding_all rfl
theorem torn_factors : torn.factors = [5, 2] := by decide +kernel
theorem torn_evidences : torn.evidences = [] := by decide +kernel

theorem torn_hidden {v : Var} (h : v ∈ [X, Y, Z]) : torn.Hidden v :=
  ⟨by rw [torn_vars]; exact h, by rw [State.Observes, torn_evidences]; simp⟩

theorem torn_groups {p : Nat} (hp : p ∈ torn.factors) {l : List Var} (h : torn.FactorOn p l) :
    (p = 5 ∧ l = [X]) ∨ (p = 2 ∧ l = [Y, Z]) := by
  obtain ⟨_, f, hf, rfl⟩ := h
  rw [torn_factors] at hp
  rw [torn_heap] at hf
  simp only [List.mem_cons, List.not_mem_nil, or_false] at hp
  rcases hp with rfl | rfl
  · have : (heapXYZ[5]?).map (fun f => f.vars.group) = some [X] := by decide +kernel
    rw [hf] at this
    exact Or.inl ⟨rfl, Option.some.inj this⟩
  · have : (heapXYZ[2]?).map (fun f => f.vars.group) = some [Y, Z] := by decide +kernel
    rw [hf] at this
    exact Or.inr ⟨rfl, Option.some.inj this⟩

theorem torn_joins {u v : Var} : torn.Joins u v ↔ (u = Y ∧ v = Z) ∨ (u = Z ∧ v = Y) := by
  constructor
  · rintro ⟨p, h | h⟩
    · rcases torn_groups h.1 h with ⟨_, h⟩ | ⟨_, h⟩
      · cases h
      · simp only [List.cons.injEq, and_true] at h; exact Or.inl h
    · rcases torn_groups h.1 h with ⟨_, h⟩ | ⟨_, h⟩
      · cases h
      · simp only [List.cons.injEq, and_true] at h; exact Or.inr ⟨h.2, h.1⟩
  · have hj : torn.Joins Y Z := joins_of 2 (by rw [torn_factors]; simp) (by rw [torn_heap]; decide +kernel)
    rintro (⟨rfl, rfl⟩ | ⟨rfl, rfl⟩)
    · exact hj
    · exact hj.imp (fun _ h => h.symm)

theorem torn_linkedX (u : Var) : torn.Linked X u ↔ u = X := by
  constructor
  · intro h
    induction h with
    | refl => rfl
    | tail _ h ih =>
      subst ih
      rcases torn_joins.mp h.2.2 with ⟨h, _⟩ | ⟨h, _⟩ <;> exact absurd h (by decide)
  · rintro rfl; exact .refl

theorem torn_linkedY (u : Var) : torn.Linked Y u ↔ u = Y ∨ u = Z := by
  constructor
  · intro h
    induction h with
    | refl => exact Or.inl rfl
    | tail _ h ih =>
      rcases torn_joins.mp h.2.2 with ⟨_, h⟩ | ⟨_, h⟩
      · exact Or.inr h
      · exact Or.inl h
  · rintro (rfl | rfl)
    · exact .refl
    · exact .single ⟨torn_hidden (by simp), torn_hidden (by simp), torn_joins.mpr (Or.inl ⟨rfl, rfl⟩)⟩

theorem torn_weight {v : Var} {p : Nat} (h : ∀ q ∈ [5, 2], torn.InCluster v q ↔ q = p) (hp : p ∈ [5, 2])
    (a : Assign) : torn.clusterWeight phi v a = phi p a := by
  classical
  unfold State.clusterWeight
  rw [State.prod_filter torn.factors (fun p => torn.InCluster v p), torn_factors]
  simp only [List.map_cons, List.map_nil, List.prod_cons, List.prod_nil, mul_one]
  simp only [List.mem_cons, List.not_mem_nil, or_false] at hp
  rcases hp with rfl | rfl
  · rw [if_pos ((h 5 (by simp)).mpr rfl), if_neg (fun h' => by have := (h 2 (by simp)).mp h'; omega), mul_one]
  · rw [if_neg (fun h' => by have := (h 5 (by simp)).mp h'; omega), if_pos ((h 2 (by simp)).mpr rfl), one_mul]

theorem torn_inX (q : Nat) (hq : q ∈ [5, 2]) : torn.InCluster X q ↔ q = 5 := by
  have hq' : q ∈ torn.factors := by rw [torn_factors]; exact hq
  constructor
  · rintro ⟨l, u, h1, h2, _, h4⟩
    rcases torn_groups hq' h1 with ⟨h, _⟩ | ⟨_, rfl⟩
    · exact h
    · rw [torn_linkedX] at h4; subst h4; exact absurd h2 (by decide)
  · rintro rfl
    have hg : (heapXYZ[5]?).map (fun f => f.vars.group) = some [X] := by decide +kernel
    cases hf : heapXYZ[5]? with
    | none => rw [hf] at hg; cases hg
    | some f =>
      rw [hf] at hg
      exact ⟨[X], X, ⟨hq', f, by rw [torn_heap]; exact hf, Option.some.inj hg⟩, by simp, torn_hidden (by simp), .refl⟩

theorem torn_inY (q : Nat) (hq : q ∈ [5, 2]) : torn.InCluster Y q ↔ q = 2 := by
  have hq' : q ∈ torn.factors := by rw [torn_factors]; exact hq
  constructor
  · rintro ⟨l, u, h1, h2, _, h4⟩
    rcases torn_groups hq' h1 with ⟨_, rfl⟩ | ⟨h, _⟩
    · rw [torn_linkedY] at h4; rcases h4 with rfl | rfl <;> exact absurd h2 (by decide)
    · exact h
  · rintro rfl
    have hg : (heapXYZ[2]?).map (fun f => f.vars.group) = some [Y, Z] := by decide +kernel
    cases hf : heapXYZ[2]? with
    | none => rw [hf] at hg; cases hg
    | some f =>
      rw [hf] at hg
      exact ⟨[Y, Z], Y, ⟨hq', f, by rw [torn_heap]; exact hf, Option.some.inj hg⟩, by simp, torn_hidden (by simp),
        .refl⟩

end Ex

/-- The weights of all the assignments are zero, and still the marginal of Y is 1/2, 1/2, computed from its cluster;
the marginal of X is NaN. -/
example : (∀ a, Ex.torn.Agrees a → Ex.torn.weight Ex.phi a = 0) ∧
    (∃ s', State.getMarginal Ex.rev List.reverse Ex.Y 2 Ex.torn = .ok s' [.val (1 / 2), .val (1 / 2)]) ∧
    ∃ s', State.getMarginal Ex.rev List.reverse Ex.X 2 Ex.torn = .ok s' [.nan, .nan] := by
  have hreach : Reach (fun s op => Prudent s op ∧ Steady s op) Ex.torn := Ex.after_steady _ (by decide +kernel)
  have hφ := Ex.phi_images Ex.torn_heap (by rw [Ex.torn_vars, Ex.torn_factors]; decide +kernel)
  have hsym := Ex.phi_symmetric Ex.torn_heap (by rw [Ex.torn_factors]; decide +kernel)
  have hz : Ex.torn.Agrees Ex.zeros :=
    Ex.zeros_agrees (by rw [Ex.torn_vars]; decide) (by rw [Ex.torn_evidences]; decide)
  have hX : ∀ a, Ex.torn.clusterWeight Ex.phi Ex.X a = Ex.phi 5 a := Ex.torn_weight Ex.torn_inX (by simp)
  have hY : ∀ a, Ex.torn.clusterWeight Ex.phi Ex.Y a = Ex.phi 2 a := Ex.torn_weight Ex.torn_inY (by simp)
  have h5 : ∀ a : Assign, a Ex.X < 2 → Ex.phi 5 a = 0 := by
    intro a ha
    have e1 : Ex.phi 5 a = Ex.phi 5 (fun _ => a Ex.X) := by with_unfolding_all rfl
    have : ∀ x < 2, Ex.phi 5 (fun _ => x) = 0 := by decide +kernel
    rw [e1, this _ ha]
  refine ⟨fun a ha => ?_, ?_, ?_⟩
  · unfold State.weight
    rw [Ex.torn_factors]
    simp only [List.map_cons, List.prod_cons]
    rw [h5 a (ha.1 Ex.X (by rw [Ex.torn_vars]; simp)), zero_mul]
  · obtain ⟨s', ps, h1, h2, _⟩ := C57_cluster_partial hreach (ord := Ex.rev) Ex.rev_perm (sched := List.reverse)
      (fun l => List.reverse_perm l) (n := 2) (by omega) hφ hsym (v := Ex.Y) (w := Ex.Y) (Ex.torn_hidden (by simp))
      (Var.eqv_refl _) (Ex.small_tree (fun u => (Ex.torn_linkedY u).mp)) (l := [Ex.Z]) (e := Ex.zeros)
      ⟨by decide, fun w => by
        rw [Ex.torn_linkedY]
        constructor
        · intro h
          rw [List.mem_singleton] at h
          subst h
          exact ⟨Or.inr rfl, by decide⟩
        · rintro ⟨rfl | rfl, h⟩
          · exact absurd rfl h
          · simp⟩ hz
    have hmass : State.distribution (Ex.torn.clusterWeight Ex.phi Ex.Y) [Ex.Z] Ex.zeros Ex.Y = [1 / 2, 1 / 2] := by
      rw [show Ex.torn.clusterWeight Ex.phi Ex.Y = Ex.phi 2 from funext hY]
      decide +kernel
    refine ⟨s', ?_⟩
    rw [h1, h2 ⟨0, by decide, by rw [show Ex.torn.clusterWeight Ex.phi Ex.Y = Ex.phi 2 from funext hY]; decide +kernel⟩,
      hmass]
    rfl
  · obtain ⟨s', ps, h1, _, h3⟩ := C57_cluster_partial hreach (ord := Ex.rev) Ex.rev_perm (sched := List.reverse)
      (fun l => List.reverse_perm l) (n := 2) (by omega) hφ hsym (v := Ex.X) (w := Ex.X) (Ex.torn_hidden (by simp))
      (Var.eqv_refl _) (Ex.small_tree (fun u h => Or.inl ((Ex.torn_linkedX u).mp h)) (b := Ex.X)) (l := []) (e := Ex.zeros)
      ⟨by decide, fun w => by rw [Ex.torn_linkedX]; simp⟩ hz
    refine ⟨s', ?_⟩
    rw [h1, h3 (fun i hi => by
      rw [show Ex.torn.clusterWeight Ex.phi Ex.X = Ex.phi 5 from funext hX]
      have : ∀ i < 2, State.mass (Ex.phi 5) [] Ex.zeros Ex.X i = 0 := by decide +kernel
      exact this i hi)]
    rfl

/-- `getProbabilities` has a branch for the images which sum to zero, and gives them equal probabilities
(factor/Immutable.cpp:31-36). It is never taken by the marginals: `normalize` has already made NaN of the zeros. -/
theorem C57_uniform_violated : ∃ s : State (Ext ℚ), Reach (fun s op => Prudent s op ∧ Steady s op) s ∧
    s.Images Ex.phi ∧ (∀ p ∈ s.factors, ∃ f, s.heap[p]? = some f ∧ f.vars.group = [Ex.X] ∧
      f.probabilities = .ok [.val (1 / 2), .val (1 / 2)]) ∧
    ∃ s', State.getMarginal Ex.rev id Ex.X 1 s = .ok s' [.nan, .nan] := by
  have hv : (Ex.after [.add 5]).vars = [Ex.X] := by decide +kernel
  have hh : (Ex.after [.add 5]).heap = Ex.heapXYZ := by with_unfolding_all rfl
  have hf : (Ex.after [.add 5]).factors = [5] := by decide +kernel
  refine ⟨Ex.after [.add 5], Ex.after_steady _ (by decide +kernel),
    Ex.phi_images hh (by rw [hv, hf]; decide +kernel), ?_, ?_⟩
  · intro p hp
    rw [hf, List.mem_singleton] at hp
    subst hp
    rw [hh]
    have : (match Ex.heapXYZ[5]? with
        | some f => some (f.vars.group, f.probabilities)
        | none => none) = some ([Ex.X], .ok [.val (1 / 2), .val (1 / 2)]) := by decide +kernel
    cases hp : Ex.heapXYZ[5]? with
    | none => rw [hp] at this; cases this
    | some f =>
      rw [hp] at this
      simp only [Option.some.injEq, Prod.mk.injEq] at this
      exact ⟨f, rfl, this⟩
  · have : (match State.getMarginal Ex.rev id Ex.X 1 (Ex.after [.add 5]) with
        | .ok _ l => some l
        | _ => none) = some [.nan, .nan] := by decide +kernel
    cases h : State.getMarginal Ex.rev id Ex.X 1 (Ex.after [.add 5]) with
    | ok s' l => rw [h] at this; exact ⟨s', by rw [Option.some.inj this]⟩
    | throw _ => rw [h] at this; cases this
    | ub => rw [h] at this; cases this

end EFG
