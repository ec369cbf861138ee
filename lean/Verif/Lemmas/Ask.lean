import Verif.Lemmas.Cycle
/-
What the queries return.
-/

set_option linter.unusedSectionVars false

namespace EFG
namespace State
variable {F : Type} [Arith F]

/-- The changes of the size of the pool. -/
theorem asked_pool (s : State F) (m : Option Nat) : Asked s { s with pool := m } :=
  Asked.light rfl rfl rfl rfl rfl rfl rfl rfl rfl rfl

theorem Healthy.setPoolSize {s : State F} (hs : Healthy s) {n : Nat} (hn : 1 ≤ n) :
    setPoolSize n s = .ok { s with pool := some n } () := by
  unfold State.setPoolSize
  rw [hs.pool]
  simp only
  by_cases h1 : n = 1
  · subst h1
    rw [if_pos rfl]
    have hp := hs.pool
    cases s
    simp only at hp
    rw [hp]
  · rw [if_neg h1, if_neg (by omega)]

/-- What a propagation leaves in a state. -/
structure Ran (kind : Kind) (n mi : Nat) (s' : State F) (r : PropResult) : Prop where
  settled : Settled s' r
  flags : ∃ flags : List Bool, flags.length = r.structures.length ∧ r.completed = flags.all id ∧
    ∀ j (hj : j < r.structures.length) (hj' : j < flags.length),
      (r.structures[j].1 = true → flags[j] = true) ∧
      (r.structures[j].1 = false → ∃ c sw, s'.clusters[j]? = some c ∧ LoopRun kind n mi s' c.nodes flags[j] sw)

theorem checkPropagation_run {ord : List Var → List Var} (hord : ∀ l, (ord l).Perm l) (kind : Kind) {sched : Sched}
    (hsched : ∀ l, (sched l).Perm l) {s : State F} (hs : Healthy s) {n : Nat} (hn : 1 ≤ n)
    (hw : s.wouldNeedPropagation kind = true) :
    ∃ s' r, checkPropagation ord sched kind n s = .ok s' () ∧ Asked s s' ∧ Healthy s' ∧ s'.last = some r ∧
      r.kind = kind ∧ Ran kind n s.maxIter s' r := by
  unfold checkPropagation
  rw [if_pos hw]
  have h0 := hs.setPoolSize hn
  have ha0 := asked_pool s (some n)
  have hi0 := ha0.inv hs.inv
  obtain ⟨s1, r, h1, h2, h3, h4, h5, h6, h7, _, flags, f1, f2, f3⟩ := propagateBelief_ok hord kind hsched hi0
    (hs.flow.quiet ha0.toQuiet hi0.toCore) hn rfl hw
  have ha1 := asked_pool s1 (some 1)
  have hall := (ha0.trans h2).trans ha1
  have hset : Settled s1.resetPool r := by
    refine ⟨h6.typed, h6.len, ?_⟩
    intro j hj
    obtain ⟨c, g1, g2, g3⟩ := h6.done j hj
    exact ⟨c, g1, g2, g3.keep ha1.toQuiet (fun _ _ => rfl) (fun _ _ _ => rfl)⟩
  have hinv := hall.inv hs.inv
  refine ⟨s1.resetPool, r, ?_, hall, ⟨hinv, ?_, ?_, rfl, fun _ => (hset.fresh hinv).alive hinv⟩, h4, h5, hset,
    flags, f1, f2, ?_⟩
  · unfold withPool
    rw [h0]
    simp only
    rw [h1]
  · exact (hs.flow.quiet hall.toQuiet hinv.toCore).sep
  · intro u v
    have : s1.resetPool.lnk u v = s.lnk u v := hall.toQuiet.lnk u v
    rw [this]; exact hs.sizes u v
  · intro j hj hj'
    obtain ⟨g1, g2⟩ := f3 j hj hj'
    refine ⟨g1, fun h => ?_⟩
    obtain ⟨c, sw, e1, e2⟩ := g2 h
    exact ⟨c, sw, e1, e2.keep ha1.toQuiet (fun _ _ => rfl) (fun _ _ _ => rfl)⟩

/-! ### Reading the beliefs -/

/-- The belief of a hidden variable after a propagation. -/
theorem belief_ok {ord : List Var → List Var} (hord : ∀ l, (ord l).Perm l) {s : State F} (hs : Inv s) (ha : Alive s)
    {u : Var} (hu : u ∈ s.hid) : ∃ mg ms f ps, s.mrg u = some mg ∧ mg.Unary u ∧
      List.Forall₂ (fun w m => s.msg u w = some m) (ord (AMap.keys (s.activeOf u))) ms ∧ (∀ m ∈ ms, m.Unary u) ∧
      Fn.mergedUnaries (mg :: ms) = .ok f ∧ f.Unary u ∧ f.probabilities = .ok ps ∧ ps.length = u.size ∧
      s.belief ord u = .ok ps := by
  obtain ⟨mg, hmg⟩ := Option.isSome_iff_exists.mp (ha.mrg u hu)
  have huv := mem_hid.mp hu
  obtain ⟨n, hn⟩ := node?_of_mem (s := s) (v := u) (by rw [hs.net.keys]; exact huv.1)
  have hmu := hs.mrgT _ _ hmg
  have hao : s.activeOf u = n.active := by unfold activeOf; rw [hn]
  have hnm : n.merged = some mg := by unfold mrg at hmg; rw [hn] at hmg; exact hmg
  have hex : ∀ w, ∃ m, w ∈ ord (AMap.keys n.active) → activeMessage n w = .ok m ∧ s.msg u w = some m ∧ m.Unary u := by
    intro w
    by_cases hw : w ∈ ord (AMap.keys n.active)
    · have hk := (hord _).mem_iff.mp hw
      obtain ⟨c, hc⟩ := AMap.mem_keys.mp hk
      have hact : s.act u w = some c := by unfold State.act; rw [hao]; exact hc
      obtain ⟨m, hm⟩ := Option.isSome_iff_exists.mp (ha.msg u w huv.2 (by rw [hact]; rfl))
      have hcm : c.message = some m := by unfold msg at hm; rw [hact] at hm; exact hm
      refine ⟨m, fun _ => ⟨?_, hm, ha.typed u w m huv.2 hm⟩⟩
      unfold activeMessage
      rw [hc]
      simp only
      rw [hcm]
      rfl
    · exact ⟨Fn.ones u, fun h => absurd h hw⟩
  choose val hval using hex
  have hmap : Res.mapList (activeMessage n) (ord (AMap.keys n.active)) = .ok ((ord (AMap.keys n.active)).map val) :=
    Res.mapList_ok (fun w hw => (hval w hw).1)
  have hmsu : ∀ m ∈ (ord (AMap.keys n.active)).map val, m.Unary u := by
    intro m hm
    obtain ⟨w, hw, rfl⟩ := List.mem_map.mp hm
    exact (hval w hw).2.2
  obtain ⟨f, _, e1, e2, _⟩ := Fn.mergedUnaries_eq (v := u) (fs := mg :: (ord (AMap.keys n.active)).map val) (by simp) (by
    intro g hg
    rcases List.mem_cons.mp hg with rfl | hg
    · exact hmu
    · exact hmsu g hg)
  obtain ⟨ps, e3, e4⟩ := e2.probabilities
  refine ⟨mg, _, f, ps, hmg, hmu, ?_, hmsu, e1, e2, e3, e4, ?_⟩
  · rw [hao]
    rw [List.forall₂_map_right_iff]
    exact List.forall₂_same.mpr (fun w hw => (hval w hw).2.1)
  · unfold State.belief
    rw [hn]
    simp only
    unfold gatherIncoming
    rw [hnm]
    simp only
    rw [hmap]
    simp only
    rw [e1]
    exact e3

/-- The variable which a query finds. -/
theorem Inv.locate_eqv_hidden {s : State F} (hs : Inv s) {v w : Var} (hv : v ∈ s.hid) (he : v.eqv w = true) :
    ∃ i, s.locate w = some (v, .hidden (some i)) := by
  obtain ⟨i, c, _, _, h⟩ := hs.locate_hidden (mem_hid.mp hv).1 (mem_hid.mp hv).2
  exact ⟨i, by rw [← locate_eqv s he]; exact h⟩

theorem Core.locate_eqv_observed {s : State F} (hs : Core s) {v w : Var} (hv : v ∈ s.obs) (he : v.eqv w = true) :
    s.locate w = some (v, .observed v) := by
  rw [← locate_eqv s he]; exact hs.locate_observed hv

theorem find?_obs {s : State F} {v : Var} (hv : v ∈ s.obs) : ∃ k, AMap.find? s.evidences v = some k :=
  AMap.mem_keys.mp hv

/-- The marginal read for an observed variable. -/
theorem Core.readMarginal_observed {ord : List Var → List Var} {s : State F} (hs : Core s) {v w : Var} {k : Nat}
    (hk : AMap.find? s.evidences v = some k) (he : v.eqv w = true) :
    readMarginal ord w s = .ok ((List.replicate v.size Arith.zero).set k Arith.one) := by
  have hv : v ∈ s.obs := AMap.mem_keys.mpr ⟨k, hk⟩
  have hlt := hs.obsVal v k hk
  unfold readMarginal
  rw [hs.locate_eqv_observed hv he]
  simp only [marginalAt]
  rw [hk]
  simp only
  unfold Fn.vecSet
  rw [List.length_replicate, if_pos hlt]

theorem Inv.readMarginal_hidden {ord : List Var → List Var} {s : State F} (hs : Inv s) {v w : Var} (hv : v ∈ s.hid)
    (he : v.eqv w = true) : readMarginal ord w s = s.belief ord v := by
  obtain ⟨i, h⟩ := hs.locate_eqv_hidden hv he
  unfold readMarginal
  rw [h]
  rfl

/-- A query returns the marginal of any variable of the model. -/
theorem readMarginal_ok {ord : List Var → List Var} (hord : ∀ l, (ord l).Perm l) {s : State F} (hs : Inv s) (ha : Alive s)
    {v w : Var} (hv : v ∈ s.vars) (he : v.eqv w = true) : ∃ ps, readMarginal ord w s = .ok ps ∧ ps.length = v.size := by
  by_cases ho : v ∈ s.obs
  · obtain ⟨k, hk⟩ := find?_obs ho
    exact ⟨_, hs.toCore.readMarginal_observed hk he, by simp⟩
  · have hh := mem_hid.mpr ⟨hv, ho⟩
    obtain ⟨_, _, _, ps, _, _, _, _, _, _, _, h1, h2⟩ := belief_ok hord hs ha hh
    exact ⟨ps, by rw [hs.readMarginal_hidden hh he]; exact h2, h1⟩

theorem findMaxLoop_le : ∀ (l : List F) (res : Nat) (m : F) (k : Nat), findMaxLoop res m k l = res ∨
    (k ≤ findMaxLoop res m k l ∧ findMaxLoop res m k l < k + l.length) := by
  intro l
  induction l with
  | nil => intro res m k; exact Or.inl rfl
  | cons x xs ih =>
    intro res m k
    rw [findMaxLoop]
    by_cases h : Arith.lt m x = true
    · rw [if_pos h]
      right
      rcases ih k x (k + 1) with h1 | ⟨h1, h2⟩
      · rw [h1]; simp
      · simp only [List.length_cons]; omega
    · rw [if_neg h]
      rcases ih res m (k + 1) with h1 | ⟨h1, h2⟩
      · exact Or.inl h1
      · right; simp only [List.length_cons]; omega

theorem findMax_ok {l : List F} (h : 0 < l.length) : ∃ k, findMax l = .ok k ∧ k < l.length := by
  cases l with
  | nil => simp at h
  | cons x xs =>
    refine ⟨_, rfl, ?_⟩
    rcases findMaxLoop_le xs 0 x 1 with h1 | ⟨_, h2⟩
    · rw [h1]; simp
    · simp only [List.length_cons]; omega

/-- All the queries return for every variable of the model. -/
theorem asks_ok {α : Type} {ord : List Var → List Var} (hord : ∀ l, (ord l).Perm l) (kind : Kind)
    {sched : Sched} (hsched : ∀ l, (sched l).Perm l) {s : State F} (hs : Healthy s) {n : Nat} (hn : 1 ≤ n)
    (r : State F → Res α) (hr : ∀ s', Asked s s' → Healthy s' → Alive s' → ∃ a, r s' = .ok a) :
    ∃ s' a, asks ord sched kind n r s = .ok s' a ∧ Asked s s' ∧ Healthy s' ∧ Alive s' ∧ r s' = .ok a := by
  obtain ⟨s', rr, h1, h2, h3, h4, _⟩ := checkPropagation_ok hord kind hsched hs hn
  have ha := h3.alive (by rw [h4]; rfl)
  obtain ⟨a, e⟩ := hr s' h2 h3 ha
  refine ⟨s', a, ?_, h2, h3, ha, e⟩
  unfold asks
  rw [h1]
  simp only
  unfold lift
  rw [e]

theorem getMarginal_ok {ord : List Var → List Var} (hord : ∀ l, (ord l).Perm l) (kind : Kind)
    {sched : Sched} (hsched : ∀ l, (sched l).Perm l) {s : State F} (hs : Healthy s) {n : Nat} (hn : 1 ≤ n)
    {v w : Var} (hv : v ∈ s.vars) (he : v.eqv w = true) :
    ∃ s' ps, marginalQuery ord sched kind w n s = .ok s' ps ∧ Asked s s' ∧ Healthy s' ∧ Alive s' ∧
      readMarginal ord w s' = .ok ps ∧ ps.length = v.size := by
  rw [marginalQuery_eq]
  obtain ⟨s', a, h1, h2, h3, h4, h5⟩ := asks_ok hord kind hsched hs hn (readMarginal ord w) (by
    intro s' ha hh hal
    obtain ⟨ps, h1, _⟩ := readMarginal_ok hord hh.inv hal (by rw [ha.vars]; exact hv) he
    exact ⟨ps, h1⟩)
  obtain ⟨ps, e1, e2⟩ := readMarginal_ok hord h3.inv h4 (by rw [h2.vars]; exact hv) he
  rw [h5] at e1
  cases e1
  exact ⟨s', a, h1, h2, h3, h4, h5, e2⟩

theorem getMAP_ok {ord : List Var → List Var} (hord : ∀ l, (ord l).Perm l)
    {sched : Sched} (hsched : ∀ l, (sched l).Perm l) {s : State F} (hs : Healthy s) {n : Nat} (hn : 1 ≤ n)
    {v w : Var} (hv : v ∈ s.vars) (he : v.eqv w = true) :
    ∃ s' k ps, getMAP ord sched w n s = .ok s' k ∧ Asked s s' ∧ Healthy s' ∧ Alive s' ∧
      readMarginal ord w s' = .ok ps ∧ ps.length = v.size ∧ findMax ps = .ok k ∧ k < v.size := by
  have hpos := hs.inv.posV v hv
  rw [getMAP_eq]
  have key : ∀ s', Asked s s' → Healthy s' → Alive s' → ∃ k ps, readMAP ord w s' = .ok k ∧
      readMarginal ord w s' = .ok ps ∧ ps.length = v.size ∧ findMax ps = .ok k ∧ k < v.size := by
    intro s' ha hh hal
    obtain ⟨ps, h1, h2⟩ := readMarginal_ok hord hh.inv hal (by rw [ha.vars]; exact hv) he
    obtain ⟨k, h3, h4⟩ := findMax_ok (l := ps) (by omega)
    exact ⟨k, ps, by unfold readMAP; rw [h1]; exact h3, h1, h2, h3, by omega⟩
  obtain ⟨s', a, h1, h2, h3, h4, h5⟩ := asks_ok hord .map hsched hs hn (readMAP ord w)
    (fun s' ha hh hal => (key s' ha hh hal).imp (fun k h => h.choose_spec.1))
  obtain ⟨k, ps, e1, e2, e3, e4, e5⟩ := key s' h2 h3 h4
  rw [h5] at e1
  cases e1
  exact ⟨s', a, ps, h1, h2, h3, h4, e2, e3, e4, e5⟩

/-- What `getHiddenSetMAP` returns. -/
theorem getHiddenSetMAP_ok {ord : List Var → List Var} (hord : ∀ l, (ord l).Perm l)
    {sched : Sched} (hsched : ∀ l, (sched l).Perm l) {s : State F} (hs : Healthy s) {n : Nat} (hn : 1 ≤ n) :
    ∃ s' ks, getHiddenSetMAP ord sched n s = .ok s' ks ∧ Asked s s' ∧ Healthy s' ∧ Alive s' ∧
      List.Forall₂ (fun v k => ∃ ps, s'.belief ord v = .ok ps ∧ findMax ps = .ok k ∧ k < v.size)
        (ord s'.hiddenVariables) ks := by
  rw [getHiddenSetMAP_eq]
  have key : ∀ s', Asked s s' → Healthy s' → Alive s' → ∃ ks,
      Res.mapList (mapOf ord s') (ord s'.hiddenVariables) = .ok ks ∧
      List.Forall₂ (fun v k => ∃ ps, s'.belief ord v = .ok ps ∧ findMax ps = .ok k ∧ k < v.size)
        (ord s'.hiddenVariables) ks := by
    intro s' ha hh hal
    have hex : ∀ v, ∃ k, v ∈ ord s'.hiddenVariables → mapOf ord s' v = .ok k ∧
        ∃ ps, s'.belief ord v = .ok ps ∧ findMax ps = .ok k ∧ k < v.size := by
      intro v
      by_cases hv : v ∈ ord s'.hiddenVariables
      · have hv' : v ∈ s'.hid := by
          have := (hord _).mem_iff.mp hv
          rw [hh.inv.mem_hiddenVariables, hidden_iff] at this
          exact this
        obtain ⟨_, _, _, ps, _, _, _, _, _, _, _, h1, h2⟩ := belief_ok hord hh.inv hal hv'
        have hpos := hh.inv.posV v (mem_hid.mp hv').1
        obtain ⟨k, h3, h4⟩ := findMax_ok (l := ps) (by omega)
        refine ⟨k, fun _ => ⟨?_, ps, h2, h3, by omega⟩⟩
        unfold mapOf
        rw [hh.inv.net.nodeKey?_mem (mem_hid.mp hv').1]
        simp only
        rw [h2]
        exact h3
      · exact ⟨0, fun h => absurd h hv⟩
    choose val hval using hex
    refine ⟨_, Res.mapList_ok (fun v hv => (hval v hv).1), ?_⟩
    rw [List.forall₂_map_right_iff]
    exact List.forall₂_same.mpr (fun v hv => (hval v hv).2)
  obtain ⟨s', a, h1, h2, h3, h4, h5⟩ := asks_ok hord .map hsched hs hn
    (fun s => Res.mapList (mapOf ord s) (ord s.hiddenVariables)) (fun s' ha hh hal => (key s' ha hh hal).imp (fun _ h => h.1))
  obtain ⟨ks, e1, e2⟩ := key s' h2 h3 h4
  rw [h5] at e1
  cases e1
  exact ⟨s', a, h1, h2, h3, h4, e2⟩

end State
end EFG
