import Verif.Lemmas.Propagate
/-
The propagation of the belief on every cluster, with cycles or not: it succeeds, and what it leaves.
-/

set_option linter.unusedSectionVars false

namespace EFG
namespace State
variable {F : Type} [Arith F]

/-! ### Loopy propagation -/

/-- Every message of the cluster is available. -/
def Live (s : State F) (ts : List Topo) : Prop := ∀ t ∈ ts, (s.msg t.conn.owner t.conn.from_).isSome

/-- A cluster whose messages can all be recomputed. -/
structure Ready (s : State F) (nodes : List Var) (ts : List Topo) : Prop where
  flow : Flow s
  typed : TypedMsgs s
  setting : Setting s nodes ts
  live : Live s ts

theorem Ready.hasDeps {s : State F} {nodes : List Var} {ts : List Topo} (h : Ready s nodes ts) {t : Topo}
    (ht : t ∈ ts) : HasDeps s t := by
  intro r hr
  obtain ⟨t', ht', rfl⟩ := h.setting.dep h.flow.core.net ht hr
  exact h.live t' ht'

theorem Setting.ownerMem {s : State F} {nodes : List Var} {ts : List Topo} (h : Setting s nodes ts) {t : Topo}
    (ht : t ∈ ts) : t.conn.owner ∈ nodes :=
  h.closed _ (h.topo.sender t ht) _ (h.topo.active t ht)

/-- The messages of a list are recomputed one after the other; the last list contains the
variations. -/
inductive Updates (kind : Kind) : List Topo → State F → State F → List F → Prop
  | nil (s : State F) : Updates kind [] s s []
  | cons {t : Topo} {ts : List Topo} {s s' : State F} {m : Fn F} {x : F} {xs : List F} :
      Sends kind s t m → variation (s.msg t.conn.owner t.conn.from_) m = .ok x →
      Updates kind ts (setActiveMessage t.conn.owner t.conn.from_ (some m) s) s' xs →
      Updates kind (t :: ts) s s' (x :: xs)

theorem Updates.append {kind : Kind} {l l' : List Topo} {s s' s'' : State F} {xs xs' : List F}
    (h : Updates kind l s s' xs) (h' : Updates kind l' s' s'' xs') : Updates kind (l ++ l') s s'' (xs ++ xs') := by
  induction h with
  | nil => exact h'
  | cons h1 h2 _ ih => exact .cons h1 h2 (ih h')

/-- The maximal variations seen by each thread. -/
def slots (n : Nat) (ps : List (Nat × F)) (vs : List F) : List F :=
  ps.foldl (fun vs p => vs.modify (p.1 % n) (fun v => Arith.max2 v p.2)) vs

theorem slots_length (n : Nat) (ps : List (Nat × F)) (vs : List F) : (slots n ps vs).length = vs.length := by
  unfold slots
  induction ps generalizing vs with
  | nil => rfl
  | cons p ps ih => rw [List.foldl_cons, ih, List.length_modify]

/-- Messages stored outside of the nodes of the cluster. -/
def SameOutside (nodes : List Var) (s s' : State F) : Prop := ∀ u v, u ∉ nodes → s'.msg u v = s.msg u v

theorem SameOutside.trans {nodes : List Var} {s s' s'' : State F} (h : SameOutside nodes s s')
    (h' : SameOutside nodes s' s'') : SameOutside nodes s s'' := fun u v hu => (h' u v hu).trans (h u v hu)

theorem Ready.update (kind : Kind) {s : State F} {nodes : List Var} {ts : List Topo} (h : Ready s nodes ts) {t : Topo}
    (ht : t ∈ ts) : ∃ m x, updateMessage kind t s = .ok (setActiveMessage t.conn.owner t.conn.from_ (some m) s) (some x) ∧
      Sends kind s t m ∧ variation (s.msg t.conn.owner t.conn.from_) m = .ok x ∧
      Ready (setActiveMessage t.conn.owner t.conn.from_ (some m) s) nodes ts ∧
      SameOutside nodes s (setActiveMessage t.conn.owner t.conn.from_ (some m) s) := by
  have hat := h.setting.at_ ht
  obtain ⟨m, h1, h2⟩ := sends_ok kind h.flow h.typed hat (h.setting.merged _ (h.setting.topo.sender t ht)) (h.hasDeps ht)
  obtain ⟨x, h3, h4⟩ := updateMessage_ok h.flow h.typed hat h1 h2
  have hsoft := setActiveMessage_soft s t.conn.owner t.conn.from_ (some m)
  have hmsg := msg_setActiveMessage (hat.ownerActive h.flow) (some m)
  refine ⟨m, x, h3, h1, h4, ⟨h.flow.soft hsoft, ?_, h.setting.soft hsoft, ?_⟩, ?_⟩
  · intro u v m' hu hm
    rw [hmsg] at hm
    by_cases hp : u = t.conn.owner ∧ v = t.conn.from_
    · rw [if_pos hp] at hm; cases hm; rw [hp.1]; exact h2
    · rw [if_neg hp] at hm
      rw [hsoft.toQuiet.obs] at hu
      exact h.typed u v m' hu hm
  · intro t' ht'
    rw [hmsg]
    by_cases hp : t'.conn.owner = t.conn.owner ∧ t'.conn.from_ = t.conn.from_
    · rw [if_pos hp]; rfl
    · rw [if_neg hp]; exact h.live t' ht'
  · intro u v hu
    rw [hmsg, if_neg]
    rintro ⟨rfl, _⟩
    exact hu (h.setting.ownerMem ht)

theorem loopyTasks_ok (kind : Kind) (n : Nat) {nodes : List Var} {ts : List Topo} : ∀ (l : List (Topo × Nat))
    (vs : List F) (s : State F), (∀ e ∈ l, e.1 ∈ ts) → Ready s nodes ts →
    ∃ s' ps, loopyTasks kind n l vs s = .ok s' (slots n ps vs) ∧
      Updates kind (l.map Prod.fst) s s' (ps.map Prod.snd) ∧ Ready s' nodes ts ∧ SameOutside nodes s s' := by
  intro l
  induction l with
  | nil => intro vs s _ h; exact ⟨s, [], rfl, .nil s, h, fun _ _ _ => rfl⟩
  | cons e l ih =>
    intro vs s hl h
    obtain ⟨m, x, h1, h2, h3, h4, h5⟩ := h.update kind (hl e (by simp))
    obtain ⟨s', ps, g1, g2, g3, g4⟩ := ih (vs.modify (e.2 % n) (fun v => Arith.max2 v x)) _
      (fun e he => hl e (by simp [he])) h4
    refine ⟨s', (e.2, x) :: ps, ?_, .cons h2 h3 g2, g3, h5.trans g4⟩
    rw [loopyTasks]
    unfold loopyTask
    rw [h1]
    simp only
    rw [g1]
    rfl

theorem loopyGroups_ok (kind : Kind) {sched : Sched} (hsched : ∀ l, (sched l).Perm l) (n : Nat) {nodes : List Var}
    {ts : List Topo} : ∀ (gs : List (List Topo)) (vs : List F) (s : State F), (∀ g ∈ gs, ∀ t ∈ g, t ∈ ts) →
    Ready s nodes ts → ∃ s' ps order, loopyGroups kind sched n gs vs s = .ok s' (slots n ps vs) ∧
      order.Perm gs.flatten ∧ Updates kind order s s' (ps.map Prod.snd) ∧ Ready s' nodes ts ∧ SameOutside nodes s s' := by
  intro gs
  induction gs with
  | nil => intro vs s _ h; exact ⟨s, [], [], rfl, by simp, .nil s, h, fun _ _ _ => rfl⟩
  | cons g gs ih =>
    intro vs s hg h
    have hp := hsched g.zipIdx
    have hp' : ((sched g.zipIdx).map Prod.fst).Perm g := by
      have := hp.map Prod.fst
      rwa [List.zipIdx_map_fst] at this
    obtain ⟨s1, ps, h1, h2, h3, h4⟩ := loopyTasks_ok kind n (sched g.zipIdx) vs s (by
      intro e he
      exact hg g (by simp) e.1 (hp'.mem_iff.mp (List.mem_map.mpr ⟨e, he, rfl⟩))) h
    obtain ⟨s2, ps', order, g1, g2, g3, g4, g5⟩ := ih (slots n ps vs) s1 (fun g hg' => hg g (by simp [hg'])) h3
    refine ⟨s2, ps ++ ps', (sched g.zipIdx).map Prod.fst ++ order, ?_, ?_, ?_, g4, h4.trans g5⟩
    · rw [loopyGroups, h1]
      simp only
      rw [g1]
      unfold slots
      rw [List.foldl_append]
    · rw [List.flatten_cons]; exact hp'.append g2
    · rw [List.map_append]; exact h2.append g3

/-- The variations seen in consecutive iterations, each of which updates all the messages once. -/
inductive Sweeps (kind : Kind) (ts : List Topo) : List (List F) → State F → State F → Prop
  | nil (s : State F) : Sweeps kind ts [] s s
  | cons {order : List Topo} {s s' s'' : State F} {xs : List F} {rest : List (List F)} :
      order.Perm ts → Updates kind order s s' xs → Sweeps kind ts rest s' s'' → Sweeps kind ts (xs :: rest) s s''

theorem Updates.maxIter {kind : Kind} {l : List Topo} {s s' : State F} {xs : List F} (h : Updates kind l s s' xs) :
    s'.maxIter = s.maxIter := by
  induction h with
  | nil => rfl
  | cons _ _ _ ih => exact ih

theorem Sweeps.maxIter {kind : Kind} {ts : List Topo} {sw : List (List F)} {s s' : State F} (h : Sweeps kind ts sw s s') :
    s'.maxIter = s.maxIter := by
  induction h with
  | nil => rfl
  | cons _ hu _ ih => rw [ih, hu.maxIter]

/-- The test made at the end of an iteration. -/
def Calm (n : Nat) (xs : List F) : Prop :=
  ∃ (ps : List (Nat × F)) (m : F), ps.map Prod.snd = xs ∧
    Arith.maxElement (slots n ps (List.replicate n Arith.zero)) = .ok m ∧ Arith.lt m Arith.tol = true

/-- The contrary of the test made at the end of an iteration. -/
def Restless (n : Nat) (xs : List F) : Prop :=
  ∃ (ps : List (Nat × F)) (m : F), ps.map Prod.snd = xs ∧
    Arith.maxElement (slots n ps (List.replicate n Arith.zero)) = .ok m ∧ Arith.lt m Arith.tol = false

theorem maxElement_ne {l : List F} (h : l ≠ []) : ∃ m, Arith.maxElement l = .ok m := by
  cases l with
  | nil => exact absurd rfl h
  | cons x xs => exact ⟨_, rfl⟩

theorem loopyIterations_ok (kind : Kind) {sched : Sched} (hsched : ∀ l, (sched l).Perm l) {n : Nat} (hn : 1 ≤ n)
    {nodes : List Var} {ts : List Topo} {gs : List (List Topo)} (hg : gs.flatten.Perm ts) : ∀ (k : Nat) (s : State F),
    Ready s nodes ts → ∃ s' b sw, loopyIterations kind sched n gs k s = .ok s' b ∧ Sweeps kind ts sw s s' ∧
      sw.length ≤ k ∧ (b = false → sw.length = k ∧ ∀ xs ∈ sw, Restless n xs) ∧
      (b = true → ∃ front last, sw = front ++ [last] ∧ Calm n last ∧ ∀ xs ∈ front, Restless n xs) ∧
      Ready s' nodes ts ∧ SameOutside nodes s s' := by
  intro k
  induction k with
  | zero =>
    intro s h
    exact ⟨s, false, [], rfl, .nil s, le_rfl, fun _ => ⟨rfl, by simp⟩, by simp, h, fun _ _ _ => rfl⟩
  | succ k ih =>
    intro s h
    obtain ⟨s1, ps, order, h1, h2, h3, h4, h5⟩ := loopyGroups_ok kind hsched n gs (List.replicate n Arith.zero) s (by
      intro g hg' t ht
      exact hg.mem_iff.mp (List.mem_flatten.mpr ⟨g, hg', ht⟩)) h
    obtain ⟨m, hm⟩ := maxElement_ne (l := slots n ps (List.replicate n (Arith.zero : F))) (by
      intro h0
      have := slots_length n ps (List.replicate n (Arith.zero : F))
      rw [h0] at this
      simp at this
      omega)
    rw [loopyIterations, h1]
    simp only
    rw [hm]
    simp only
    by_cases hlt : Arith.lt m Arith.tol = true
    · rw [if_pos hlt]
      refine ⟨s1, true, [ps.map Prod.snd], rfl, .cons (h2.trans hg) h3 (.nil s1), by simp, by simp, ?_, h4, h5⟩
      intro _
      exact ⟨[], _, rfl, ⟨ps, m, rfl, hm, hlt⟩, by simp⟩
    · rw [if_neg hlt]
      obtain ⟨s2, b, sw, g1, g2, g3, g4, g5, g6, g7⟩ := ih s1 h4
      have hrest : Restless n (ps.map Prod.snd) := ⟨ps, m, rfl, hm, by simpa using hlt⟩
      refine ⟨s2, b, ps.map Prod.snd :: sw, g1, .cons (h2.trans hg) h3 g2, by simp; omega, ?_, ?_, g6, h5.trans g7⟩
      · intro hb
        obtain ⟨e1, e2⟩ := g4 hb
        refine ⟨by simp [e1], ?_⟩
        intro xs hxs
        rcases List.mem_cons.mp hxs with rfl | hxs
        · exact hrest
        · exact e2 xs hxs
      · intro hb
        obtain ⟨front, last, e1, e2, e3⟩ := g5 hb
        refine ⟨ps.map Prod.snd :: front, last, by rw [e1]; rfl, e2, ?_⟩
        intro xs hxs
        rcases List.mem_cons.mp hxs with rfl | hxs
        · exact hrest
        · exact e3 xs hxs

/-! ### The schedule of the loopy propagation -/

theorem greedyPass_perm : ∀ (ts : List Topo) (stay change : List ConnRef),
    ((greedyPass stay change ts).1 ++ (greedyPass stay change ts).2).Perm ts := by
  intro ts
  induction ts with
  | nil => intro _ _; exact List.Perm.refl _
  | cons t ts ih =>
    intro stay change
    rw [greedyPass]
    split
    · simp only [List.cons_append]; exact (ih _ _).cons t
    · simp only
      exact List.perm_middle.trans ((ih _ _).cons t)

theorem greedyOrder_perm (ts : List Topo) : (greedyOrder ts).flatten.Perm ts := by
  induction h : ts.length using Nat.strong_induction_on generalizing ts with
  | _ n ih =>
    cases ts with
    | nil => rw [greedyOrder_nil]; exact List.Perm.refl _
    | cons t ts =>
      rw [greedyOrder_cons, List.flatten_cons]
      have hl := greedyPass_length (t :: ts) [] []
      have hpos : 0 < (greedyPass [] [] (t :: ts)).1.length := by simp [greedyPass]
      have := ih (greedyPass [] [] (t :: ts)).2.length (by omega) _ rfl
      exact (this.append_left _).trans (greedyPass_perm _ _ _)

theorem loopyOrder_perm (n : Nat) (ts : List Topo) : (loopyOrder n ts).flatten.Perm ts := by
  unfold loopyOrder
  split
  · exact greedyOrder_perm ts
  · simp

/-- The tasks taken by a pass do not interfere, neither with each other nor with what was fixed
before. -/
theorem greedyPass_apart : ∀ (ts : List Topo) (stay change : List ConnRef), (∀ t ∈ ts, t.conn ∉ t.deps) →
    (∀ t ∈ (greedyPass stay change ts).1, t.conn ∉ stay ∧ ∀ r ∈ t.deps, r ∉ change) ∧
    ∀ t ∈ (greedyPass stay change ts).1, ∀ t' ∈ (greedyPass stay change ts).1, t.conn ∉ t'.deps := by
  intro ts
  induction ts with
  | nil => intro _ _ _; exact ⟨by simp [greedyPass], by simp [greedyPass]⟩
  | cons t ts ih =>
    intro stay change hself
    rw [greedyPass]
    split
    · rename_i hc
      simp only [Bool.and_eq_true, Bool.not_eq_true', List.any_eq_false] at hc
      obtain ⟨hc1, hc2⟩ := hc
      have hc1' : t.conn ∉ stay := by
        intro h
        rw [List.contains_iff_mem.mpr h] at hc1
        cases hc1
      have hc2' : ∀ r ∈ t.deps, r ∉ change := by
        intro r hr h
        exact hc2 r hr (List.contains_iff_mem.mpr h)
      obtain ⟨h1, h2⟩ := ih (t.deps ++ stay) (t.conn :: change) (fun t ht => hself t (by simp [ht]))
      simp only
      refine ⟨?_, ?_⟩
      · intro t' ht'
        rcases List.mem_cons.mp ht' with rfl | ht'
        · exact ⟨hc1', hc2'⟩
        · obtain ⟨g1, g2⟩ := h1 t' ht'
          exact ⟨fun h => g1 (List.mem_append.mpr (Or.inr h)), fun r hr h => g2 r hr (List.mem_cons.mpr (Or.inr h))⟩
      · intro a ha b hb
        rcases List.mem_cons.mp ha with rfl | ha
        · rcases List.mem_cons.mp hb with rfl | hb
          · exact hself _ (by simp)
          · intro h; exact (h1 b hb).2 _ h (by simp)
        · rcases List.mem_cons.mp hb with rfl | hb
          · intro h; exact (h1 a ha).1 (List.mem_append.mpr (Or.inl h))
          · exact h2 a ha b hb
    · simp only
      exact ih stay change (fun t ht => hself t (by simp [ht]))

theorem greedyOrder_apart (ts : List Topo) (hself : ∀ t ∈ ts, t.conn ∉ t.deps) :
    ∀ g ∈ greedyOrder ts, ∀ t ∈ g, ∀ t' ∈ g, t.conn ∉ t'.deps := by
  induction h : ts.length using Nat.strong_induction_on generalizing ts with
  | _ n ih =>
    cases ts with
    | nil => rw [greedyOrder_nil]; simp
    | cons t ts =>
      rw [greedyOrder_cons]
      have hl := greedyPass_length (t :: ts) [] []
      have hpos : 0 < (greedyPass [] [] (t :: ts)).1.length := by simp [greedyPass]
      intro g hg
      rcases List.mem_cons.mp hg with rfl | hg
      · exact (greedyPass_apart (t :: ts) [] [] hself).2
      · refine ih (greedyPass [] [] (t :: ts)).2.length (by omega) _ ?_ rfl g hg
        intro t' ht'
        refine hself t' ((greedyPass_perm (t :: ts) [] []).mem_iff.mp (List.mem_append.mpr (Or.inr ht')))

/-! ### The messages set to ones -/

theorem msg_oneMessages (s : State F) (a u v : Var) :
    (oneMessages s a).msg u v = if u = a then (s.act u v).bind (fun _ => some (Fn.ones a)) else s.msg u v := by
  unfold msg oneMessages State.act
  rw [activeOf_updNode]
  by_cases h : a = u
  · subst h
    rw [if_pos rfl, if_pos rfl]
    unfold activeOf
    cases hn : s.node? a with
    | none => rfl
    | some n =>
      simp only
      have h := AMap.find?_map n.active (fun c : Conn F => ({ c with message := some (Fn.ones a) } : Conn F)) v
      rw [h]
      cases AMap.find? n.active v <;> rfl
  · rw [if_neg h, if_neg (Ne.symm h)]

theorem msg_ones (l : List Var) : ∀ (s : State F) (u v : Var), (l.foldl oneMessages s).msg u v =
    if u ∈ l then (s.act u v).bind (fun _ => some (Fn.ones u)) else s.msg u v := by
  induction l with
  | nil => intro s u v; rfl
  | cons a l ih =>
    intro s u v
    rw [List.foldl_cons, ih]
    have hsoft := oneMessages_soft s a
    by_cases hul : u ∈ l
    · rw [if_pos hul, if_pos (by simp [hul])]
      have := hsoft.toQuiet.isSome u v
      cases h1 : (oneMessages s a).act u v <;> cases h2 : s.act u v <;> simp_all
    · rw [if_neg hul, msg_oneMessages]
      by_cases hua : u = a
      · subst hua
        rw [if_pos rfl, if_pos (by simp)]
      · rw [if_neg hua, if_neg (by simp [hua, hul])]

theorem loopyPropagate_ok (kind : Kind) {sched : Sched} (hsched : ∀ l, (sched l).Perm l) {n : Nat} (hn : 1 ≤ n)
    {c : Cluster} {ts : List Topo} {s : State F} (hf : Flow s) (hty : TypedMsgs s) (hs : Setting s c.nodes ts) :
    ∃ s0 s' b sw, loopyPropagate kind sched n c ts s = .ok s' b ∧ Ready s0 c.nodes ts ∧ Sweeps kind ts sw s0 s' ∧
      (∀ t ∈ ts, s0.msg t.conn.owner t.conn.from_ = some (Fn.ones t.conn.owner)) ∧
      sw.length ≤ s.maxIter ∧ (b = false → sw.length = s.maxIter ∧ ∀ xs ∈ sw, Restless n xs) ∧
      (b = true → ∃ front last, sw = front ++ [last] ∧ Calm n last ∧ ∀ xs ∈ front, Restless n xs) ∧
      Ready s' c.nodes ts ∧ SameOutside c.nodes s s' := by
  have hsoft := foldl_soft (oneMessages_soft (F := F)) c.nodes s
  have hmsg := msg_ones (F := F) c.nodes s
  set s1 := c.nodes.foldl oneMessages s with hs1
  have hones : ∀ t ∈ ts, s1.msg t.conn.owner t.conn.from_ = some (Fn.ones t.conn.owner) := by
    intro t ht
    rw [hmsg, if_pos (hs.ownerMem ht)]
    obtain ⟨c', hc'⟩ := Option.isSome_iff_exists.mp ((hs.at_ ht).ownerActive hf)
    rw [hc']; rfl
  have hready : Ready s1 c.nodes ts := by
    refine ⟨hf.soft hsoft, ?_, hs.soft hsoft, ?_⟩
    · intro u v m hu hm
      rw [hsoft.toQuiet.obs] at hu
      rw [hmsg] at hm
      by_cases huc : u ∈ c.nodes
      · rw [if_pos huc] at hm
        cases ha : s.act u v with
        | none => rw [ha] at hm; cases hm
        | some c' =>
          rw [ha] at hm
          cases hm
          have huv : u ∈ s.vars := by
            have := hf.core.net.keys
            rw [← this]
            unfold State.act activeOf node? at ha
            cases hk : AMap.find? s.nodes u with
            | none => rw [hk] at ha; cases ha
            | some _ => exact AMap.mem_keys.mpr ⟨_, hk⟩
          exact (Fn.ones_unary (F := F) (hf.core.posV u huv)).1
      · rw [if_neg huc] at hm
        exact hty u v m hu hm
    · intro t ht; rw [hones t ht]; rfl
  obtain ⟨s', b, sw, h1, h2, h3, h4, h5, h6, h7⟩ := loopyIterations_ok kind hsched hn (loopyOrder_perm n ts) s1.maxIter s1 hready
  have hmi : s1.maxIter = s.maxIter := hsoft.maxIter
  rw [hmi] at h3 h4
  refine ⟨s1, s', b, sw, ?_, hready, h2, hones, h3, h4, h5, h6, ?_⟩
  · unfold loopyPropagate
    simp only
    exact h1
  · refine SameOutside.trans ?_ h7
    intro u v hu
    rw [hmsg, if_neg hu]

/-! ### One cluster -/

/-- What the propagation leaves on one cluster. -/
structure ClusterDone (kind : Kind) (s : State F) (c : Cluster) (tree : Bool) : Prop where
  ready : ∃ ts, c.connectivity = some ts ∧ Setting s c.nodes ts ∧ Live s ts ∧ (tree = true → Exact kind s ts) ∧
    (tree = false → Stuck ts)

/-- Nothing relevant for the nodes of a cluster changes. -/
theorem ClusterDone.keep {kind : Kind} {s s' : State F} {c : Cluster} {tree : Bool} (h : ClusterDone kind s c tree)
    (hq : Quiet s s') (hg : ∀ u ∈ c.nodes, s'.mrg u = s.mrg u) (hm : ∀ u ∈ c.nodes, ∀ v, s'.msg u v = s.msg u v) :
    ClusterDone kind s' c tree := by
  obtain ⟨ts, h1, h2, h3, h4, h5⟩ := h
  have hset : Setting s' c.nodes ts := by
    refine ⟨h2.topo.congr (fun u _ v => hq.isSome u v), ?_, ?_, ?_⟩
    · intro u hu; rw [hq.obs]; exact h2.hid u hu
    · intro u hu v hv; exact h2.closed u hu v (by rw [← hq.isSome]; exact hv)
    · intro u hu; rw [hg u hu]; exact h2.merged u hu
  refine ⟨ts, h1, hset, ?_, ?_, h5⟩
  · intro t ht; rw [hm _ (h2.ownerMem ht)]; exact h3 t ht
  · intro htree
    obtain ⟨rank, hr⟩ := h4 htree
    refine ⟨rank, ?_⟩
    intro t ht
    obtain ⟨m, g1, g2, g3⟩ := hr t ht
    refine ⟨m, by rw [hm _ (h2.ownerMem ht)]; exact g1, ?_, g3⟩
    refine g2.congr' hq (hg _ (h2.topo.sender t ht)) ?_
    intro r hr'
    refine hm _ ?_ _
    rw [((h2.topo.deps t ht r).mp hr').1]
    exact h2.topo.sender t ht

theorem Prep.msg {s s' : State F} (h : Prep s s') (u v : Var) : s'.msg u v = s.msg u v := by
  unfold State.msg State.act; rw [h.activeOf]

theorem Inv.closed {s : State F} (hs : Inv s) (hsep : Separated s) {i : Nat} {c : Cluster} (hc : s.clusters[i]? = some c)
    {u v : Var} (hu : u ∈ c.nodes) (ha : (s.act u v).isSome) : v ∈ c.nodes := by
  have hu' := hs.cluster_mem hc hu
  have hv := hsep u v hu'.2 ha
  have hvv : v ∈ s.vars := by
    have := hs.net.symA u v ha
    rw [← hs.net.keys]
    unfold State.act activeOf node? at this
    cases hk : AMap.find? s.nodes v with
    | none => rw [hk] at this; cases this
    | some _ => exact AMap.mem_keys.mpr ⟨_, hk⟩
  refine hs.parts.closed c.nodes (List.mem_map.mpr ⟨c, List.mem_of_getElem? hc, rfl⟩) u hu v (mem_hid.mpr ⟨hvv, hv⟩) ?_
  exact activeKeys_iff.mpr ha

/-- What the loopy propagation of one cluster does: `sw` are the variations of the messages in the
iterations it runs. -/
structure LoopyDone (kind : Kind) (n : Nat) (s0 s' : State F) (nodes : List Var) (ts : List Topo) (done : Bool)
    (sw : List (List F)) : Prop where
  ready : Ready s0 nodes ts
  ones : ∀ t ∈ ts, s0.msg t.conn.owner t.conn.from_ = some (Fn.ones t.conn.owner)
  sweeps : Sweeps kind ts sw s0 s'
  bound : sw.length ≤ s0.maxIter
  no : done = false → sw.length = s0.maxIter ∧ ∀ xs ∈ sw, Restless n xs
  yes : done = true → ∃ front last, sw = front ++ [last] ∧ Calm n last ∧ ∀ xs ∈ front, Restless n xs

/-- The changes made while the cluster at position `i` is processed. -/
structure ClusterStep (kind : Kind) (s s' : State F) (i : Nat) (c : Cluster) (tree : Bool) : Prop where
  step : Step s s'
  flow : Flow s'
  typed : TypedMsgs s'
  len : s'.clusters.length = s.clusters.length
  other : ∀ j, j ≠ i → s'.clusters[j]? = s.clusters[j]?
  here : ∃ c', s'.clusters[i]? = some c' ∧ c'.nodes = c.nodes ∧ ClusterDone kind s' c' tree
  mrg : ∀ u, u ∉ c.nodes → s'.mrg u = s.mrg u
  msg : ∀ u v, u ∉ c.nodes → s'.msg u v = s.msg u v

theorem propagateCluster_ok {ord : List Var → List Var} (hord : ∀ l, (ord l).Perm l) (kind : Kind) {s : State F}
    (hs : Inv s) (hf : Flow s) (hty : TypedMsgs s) {i : Nat} {c : Cluster} (hc : s.clusters[i]? = some c)
    (hno : ∀ u ∈ c.nodes, ∀ v, s.msg u v = none) :
    (∃ s', ClusterStep kind s s' i c true ∧ ∀ sched : Sched, (∀ l, (sched l).Perm l) → ∀ n,
      propagateCluster ord sched kind n i s = .ok s' ((true, c.nodes.length), true)) ∨
    (∀ sched : Sched, (∀ l, (sched l).Perm l) → ∀ n, 1 ≤ n → ∃ s0 s' ts sw done,
      ClusterStep kind s s' i c false ∧ LoopyDone kind n s0 s' c.nodes ts done sw ∧ s0.maxIter = s.maxIter ∧
      propagateCluster ord sched kind n i s = .ok s' ((false, c.nodes.length), done)) := by
  obtain ⟨s1, e1, hp⟩ := prepareCluster_ok hord hs hc
  have hf1 : Flow s1 := hf.quiet hp.prep.toQuiet hp.inv.toCore
  have hty1 : TypedMsgs s1 := by
    intro u v m hu hm
    rw [hp.prep.toQuiet.obs] at hu
    rw [hp.prep.msg] at hm
    exact hty u v m hu hm
  obtain ⟨ts, ht1, ht2⟩ := hp.conn
  have hset : Setting s1 c.nodes ts := by
    refine ⟨ht2, ?_, ?_, ?_⟩
    · intro u hu; rw [hp.prep.toQuiet.obs]; exact (hs.cluster_mem hc hu).2
    · intro u hu v hv
      exact hp.inv.closed hf1.sep ht1 hu hv
    · intro u hu
      obtain ⟨m, hm, _⟩ := hp.merged u hu
      rw [hm]; rfl
  have hprog : Progress kind s1 c.nodes ts ts 0 (fun _ => 0) := by
    refine ⟨hf1, hty1, hset, List.Sublist.refl ts, ?_, ?_⟩
    · intro t ht
      rw [hp.prep.msg]
      exact hno _ (hset.ownerMem ht) _
    · intro t ht h; exact absurd ht h
  obtain ⟨s2, b, h1, h2, h3, h4, h5, h6⟩ := messageRounds_ok kind ts.length ts le_rfl s1 0 (fun _ => 0) hprog
  have hmk : ∀ (s3 : State F) (tree : Bool), Soft s2 s3 → TypedMsgs s3 → SameOutside c.nodes s2 s3 → Live s3 ts →
      (tree = true → Exact kind s3 ts) → (tree = false → Stuck ts) → ClusterStep kind s s3 i c tree := by
    intro s3 tree hsoft hty3 hout hlive hex hst
    have hS := h2.trans hsoft
    refine ⟨hp.step.trans hS.step, hf1.soft hS, hty3, by rw [hS.cl]; exact hp.len, ?_, ?_, ?_, ?_⟩
    · intro j hj; rw [hS.cl]; exact hp.other j hj
    · exact ⟨{ nodes := c.nodes, connectivity := some ts }, by rw [hS.cl]; exact ht1, rfl,
        ⟨ts, rfl, hset.soft hS, hlive, hex, hst⟩⟩
    · intro u hu; rw [hS.mrg]; exact hp.mrgOther u hu
    · intro u v hu
      rw [hout u v hu, h4 u v, hp.prep.msg]
      intro t ht hcn
      have := hset.ownerMem ht
      rw [hcn] at this
      exact hu this
  cases b with
  | true =>
    left
    obtain ⟨rank, hrank⟩ := h5 rfl
    refine ⟨s2, hmk s2 true (Soft.rfl' s2) h3 (fun _ _ _ => rfl) ?_ (fun _ => ⟨rank, hrank⟩) (by simp), ?_⟩
    · intro t ht
      obtain ⟨m, g1, _⟩ := hrank t ht
      rw [g1]; rfl
    · intro sched hsched n
      unfold propagateCluster
      rw [e1]
      simp only
      rw [ht1]
      simp only
      rw [h1 sched hsched]
  | false =>
    right
    intro sched hsched n hn
    obtain ⟨s0, s3, done, sw, g1, g2, g3, g4, g5, g6, g7, g8, g9⟩ := loopyPropagate_ok kind hsched hn
      (c := { nodes := c.nodes, connectivity := some ts }) (ts := ts) (hf1.soft h2) h3 (hset.soft h2)
    have hl := loopyPropagate_soft (F := F) kind sched n { nodes := c.nodes, connectivity := some ts } ts s2
    rw [g1] at hl
    have hs0 : s0.maxIter = s2.maxIter := by
      have a1 := hl.maxIter
      rw [← g3.maxIter, a1]
    have hmi : s0.maxIter = s.maxIter := by rw [hs0, h2.maxIter, hp.prep.maxIter]
    refine ⟨s0, s3, ts, sw, done, hmk s3 false hl g8.typed g9 g8.live (by simp) (fun _ => h6 rfl),
      ⟨g2, g4, g3, by rw [hs0]; exact g5, by rw [hs0]; exact g6, g7⟩, hmi, ?_⟩
    unfold propagateCluster
    rw [e1]
    simp only
    rw [ht1]
    simp only
    rw [h1 sched hsched]
    simp only
    rw [g1]

/-! ### All the clusters -/

/-- A loopy propagation of the cluster with these nodes, with `n` threads and at most `mi` iterations,
which ended with the messages now stored in `s`: `sw` are the variations of the messages in the
iterations it ran. -/
def LoopRun (kind : Kind) (n mi : Nat) (s : State F) (nodes : List Var) (done : Bool) (sw : List (List F)) : Prop :=
  ∃ s0 s1 ts, LoopyDone kind n s0 s1 nodes ts done sw ∧ s0.maxIter = mi ∧ Quiet s1 s ∧
    (∀ u ∈ nodes, s.mrg u = s1.mrg u) ∧ ∀ u ∈ nodes, ∀ v, s.msg u v = s1.msg u v

theorem LoopRun.keep {kind : Kind} {n mi : Nat} {s s' : State F} {nodes : List Var} {done : Bool} {sw : List (List F)}
    (h : LoopRun kind n mi s nodes done sw) (hq : Quiet s s') (hg : ∀ u ∈ nodes, s'.mrg u = s.mrg u)
    (hm : ∀ u ∈ nodes, ∀ v, s'.msg u v = s.msg u v) : LoopRun kind n mi s' nodes done sw := by
  obtain ⟨s0, s1, ts, h1, h2, h3, h4, h5⟩ := h
  exact ⟨s0, s1, ts, h1, h2, h3.trans hq, fun u hu => (hg u hu).trans (h4 u hu),
    fun u hu v => (hm u hu v).trans (h5 u hu v)⟩

/-- The clusters already processed. -/
structure Processed (kind : Kind) (n mi : Nat) (s : State F) (k : Nat) (rs : List ((Bool × Nat) × Bool)) : Prop where
  len : rs.length = k
  done : ∀ j (hj : j < rs.length), ∃ c, s.clusters[j]? = some c ∧ rs[j].1.2 = c.nodes.length ∧
    ClusterDone kind s c rs[j].1.1
  tree : ∀ j (hj : j < rs.length), rs[j].1.1 = true → rs[j].2 = true
  loop : ∀ j (hj : j < rs.length), rs[j].1.1 = false → ∃ c sw, s.clusters[j]? = some c ∧
    LoopRun kind n mi s c.nodes rs[j].2 sw

theorem clusters_disjoint {s : State F} (hs : Inv s) {i j : Nat} {c c' : Cluster} (hij : i ≠ j)
    (hi : s.clusters[i]? = some c) (hj : s.clusters[j]? = some c') {u : Var} (hu : u ∈ c.nodes) : u ∉ c'.nodes := by
  intro hu'
  have h1 := (List.nodup_flatten.mp hs.parts.nodup).2
  rw [List.pairwise_iff_getElem] at h1
  have hi' : i < (s.clusters.map (·.nodes)).length := by
    rw [List.length_map]; exact (List.getElem?_eq_some_iff.mp hi).1
  have hj' : j < (s.clusters.map (·.nodes)).length := by
    rw [List.length_map]; exact (List.getElem?_eq_some_iff.mp hj).1
  have gi : (s.clusters.map (·.nodes))[i] = c.nodes := by
    rw [List.getElem_map, (List.getElem?_eq_some_iff.mp hi).2]
  have gj : (s.clusters.map (·.nodes))[j] = c'.nodes := by
    rw [List.getElem_map, (List.getElem?_eq_some_iff.mp hj).2]
  rcases Nat.lt_or_gt_of_ne hij with h | h
  · have := h1 i j hi' hj' h
    rw [gi, gj] at this
    exact List.disjoint_left.mp this hu hu'
  · have := h1 j i hj' hi' h
    rw [gi, gj] at this
    exact List.disjoint_left.mp this hu' hu

/-- The states and results of the propagation of the clusters from position `k` on. -/
theorem propagateClusters_ok {ord : List Var → List Var} (hord : ∀ l, (ord l).Perm l) (kind : Kind) {sched : Sched}
    (hsched : ∀ l, (sched l).Perm l) {n : Nat} (hn : 1 ≤ n) : ∀ (d k : Nat) (s : State F)
    (rs : List ((Bool × Nat) × Bool)), Inv s → Flow s → TypedMsgs s → Processed kind n s.maxIter s k rs → k + d = s.clusters.length →
    (∀ j c, k ≤ j → s.clusters[j]? = some c → ∀ u ∈ c.nodes, ∀ v, s.msg u v = none) →
    ∃ s' rs', propagateClusters ord sched kind n (List.range' k d) s = .ok s' rs' ∧ Step s s' ∧ Flow s' ∧ TypedMsgs s' ∧
      Processed kind n s.maxIter s' s.clusters.length (rs ++ rs') ∧ s'.clusters.length = s.clusters.length := by
  intro d
  induction d with
  | zero =>
    intro k s rs hs hf hty hpr hk _
    refine ⟨s, [], rfl, Step.rfl' s, hf, hty, ?_, rfl⟩
    rw [List.append_nil]
    have : k = s.clusters.length := by omega
    rw [← this]; exact hpr
  | succ d ih =>
    intro k s rs hs hf hty hpr hk hno
    have hkl : k < s.clusters.length := by omega
    have hc : s.clusters[k]? = some s.clusters[k] := List.getElem?_eq_getElem hkl
    set c := s.clusters[k] with hcdef
    obtain ⟨s1, tree, done, hstep, hrun, htree, hloop⟩ : ∃ s1 tree done, ClusterStep kind s s1 k c tree ∧
        propagateCluster ord sched kind n k s = .ok s1 ((tree, c.nodes.length), done) ∧ (tree = true → done = true) ∧
        (tree = false → ∃ sw, LoopRun kind n s.maxIter s1 c.nodes done sw) := by
      rcases propagateCluster_ok hord kind hs hf hty hc (hno k c le_rfl hc) with ⟨s1, h1, h2⟩ | h
      · exact ⟨s1, true, true, h1, h2 sched hsched n, fun _ => rfl, by simp⟩
      · obtain ⟨s0, s1, ts, sw, done, h1, h3, h4, h2⟩ := h sched hsched n hn
        exact ⟨s1, false, done, h1, h2, by simp, fun _ => ⟨sw, s0, s1, ts, h3, h4, Quiet.rfl' s1,
          fun _ _ => rfl, fun _ _ _ => rfl⟩⟩
    have hmi : s1.maxIter = s.maxIter := hstep.step.toQuiet.toFrame.maxIter
    have hpr1 : Processed kind n s1.maxIter s1 (k + 1) (rs ++ [((tree, c.nodes.length), done)]) := by
      have hlen : rs.length = k := hpr.len
      refine ⟨by simp [hlen], ?_, ?_, ?_⟩
      · intro j hj
        rw [List.length_append, List.length_singleton] at hj
        by_cases hjk : j < rs.length
        · obtain ⟨c', g1, g2, g3⟩ := hpr.done j hjk
          refine ⟨c', by rw [hstep.other j (by omega)]; exact g1, ?_, ?_⟩
          · rw [List.getElem_append_left hjk]; exact g2
          · rw [List.getElem_append_left hjk]
            refine g3.keep hstep.step.toQuiet ?_ ?_
            · intro u hu
              exact hstep.mrg u (clusters_disjoint hs (by omega) g1 hc hu)
            · intro u hu v
              exact hstep.msg u v (clusters_disjoint hs (by omega) g1 hc hu)
        · have hjeq : j = rs.length := by omega
          subst hjeq
          obtain ⟨c', g1, g2, g3⟩ := hstep.here
          refine ⟨c', by rw [hlen]; exact g1, ?_, ?_⟩
          · rw [List.getElem_append_right (by omega)]; simp [g2]
          · rw [List.getElem_append_right (by omega)]; simpa using g3
      · intro j hj
        rw [List.length_append, List.length_singleton] at hj
        by_cases hjk : j < rs.length
        · rw [List.getElem_append_left hjk]; exact hpr.tree j hjk
        · rw [List.getElem_append_right (by omega)]; simpa using htree
      · intro j hj
        rw [List.length_append, List.length_singleton] at hj
        rw [hmi]
        by_cases hjk : j < rs.length
        · rw [List.getElem_append_left hjk]
          intro hfalse
          obtain ⟨c', sw, g1, g2⟩ := hpr.loop j hjk hfalse
          refine ⟨c', sw, by rw [hstep.other j (by omega)]; exact g1, ?_⟩
          refine g2.keep hstep.step.toQuiet ?_ ?_
          · intro u hu
            exact hstep.mrg u (clusters_disjoint hs (by omega) g1 hc hu)
          · intro u hu v
            exact hstep.msg u v (clusters_disjoint hs (by omega) g1 hc hu)
        · have hjeq : j = rs.length := by omega
          subst hjeq
          obtain ⟨c', g1, g2, _⟩ := hstep.here
          rw [List.getElem_append_right (by omega)]
          intro hfalse
          simp only [Nat.sub_self, List.getElem_cons_zero] at hfalse ⊢
          obtain ⟨sw, g3⟩ := hloop hfalse
          exact ⟨c', sw, by rw [hlen]; exact g1, by rw [g2]; exact g3⟩
    obtain ⟨s2, rs', e1, e2, e3, e4, e5, e6⟩ := ih (k + 1) s1 _ (hstep.step.inv hs) hstep.flow hstep.typed hpr1
      (by rw [hstep.len]; omega) (by
        intro j c' hj hc' u hu v
        have hne : j ≠ k := by omega
        rw [hstep.other j hne] at hc'
        rw [hstep.msg u v (clusters_disjoint hs hne hc' hc hu)]
        exact hno j c' (by omega) hc' u hu v)
    refine ⟨s2, ((tree, c.nodes.length), done) :: rs', ?_, hstep.step.trans e2, e3, e4, ?_, by rw [e6, hstep.len]⟩
    · rw [List.range'_succ, propagateClusters, hrun]
      simp only
      rw [e1]
    · rw [← hstep.len, ← hmi]
      simpa using e5

/-! ### Forgetting the messages -/

theorem msg_dropMessages (s : State F) (a u v : Var) :
    (dropMessages s a).msg u v = if u = a then none else s.msg u v := by
  unfold msg dropMessages State.act
  rw [activeOf_updNode]
  by_cases h : a = u
  · subst h
    rw [if_pos rfl, if_pos rfl]
    cases hn : s.node? a with
    | none => rfl
    | some n =>
      simp only
      have h := AMap.find?_map n.active (fun c : Conn F => ({ c with message := none } : Conn F)) v
      rw [h]
      cases AMap.find? n.active v <;> rfl
  · rw [if_neg h, if_neg (Ne.symm h)]

theorem msg_drop (l : List Var) : ∀ (s : State F) (u v : Var), (l.foldl dropMessages s).msg u v =
    if u ∈ l then none else s.msg u v := by
  induction l with
  | nil => intro s u v; rfl
  | cons a l ih =>
    intro s u v
    rw [List.foldl_cons, ih, msg_dropMessages]
    by_cases hul : u ∈ l
    · rw [if_pos hul, if_pos (by simp [hul])]
    · rw [if_neg hul]
      by_cases hua : u = a
      · subst hua; rw [if_pos rfl, if_pos (by simp)]
      · rw [if_neg hua, if_neg (by simp [hua, hul])]

theorem msg_resetMessages {s : State F} (hs : Inv s) {u : Var} (hu : u ∉ s.obs) (v : Var) :
    s.resetMessages.msg u v = none := by
  unfold resetMessages
  rw [msg_drop]
  by_cases h : u ∈ s.clusters.flatMap (·.nodes)
  · rw [if_pos h]
  · rw [if_neg h]
    unfold msg
    cases ha : s.act u v with
    | none => rfl
    | some c =>
      exfalso
      apply h
      have huv : u ∈ s.vars := by
        rw [← hs.net.keys]
        unfold State.act activeOf node? at ha
        cases hk : AMap.find? s.nodes u with
        | none => rw [hk] at ha; cases ha
        | some _ => exact AMap.mem_keys.mpr ⟨_, hk⟩
      have := (hs.parts.mem u).mpr (mem_hid.mpr ⟨huv, hu⟩)
      rw [List.flatMap_def]
      exact this

/-- The messages available after a propagation of this kind. -/
structure Settled (s : State F) (r : PropResult) : Prop where
  typed : TypedMsgs s
  len : r.structures.length = s.clusters.length
  done : ∀ j (hj : j < r.structures.length), ∃ c, s.clusters[j]? = some c ∧ r.structures[j].2 = c.nodes.length ∧
    ClusterDone r.kind s c r.structures[j].1

/-- The propagation succeeds. -/
theorem propagateBelief_ok {ord : List Var → List Var} (hord : ∀ l, (ord l).Perm l) (kind : Kind) {sched : Sched}
    (hsched : ∀ l, (sched l).Perm l) {s : State F} (hs : Inv s) (hf : Flow s) {n : Nat} (hn : 1 ≤ n)
    (hpool : s.pool = some n) (hneed : s.wouldNeedPropagation kind = true) :
    ∃ s' r, propagateBelief ord sched kind s = .ok s' () ∧ Asked s s' ∧ Flow s' ∧ s'.last = some r ∧ r.kind = kind ∧
      Settled s' r ∧ s'.pool = s.pool ∧
      ((∀ e ∈ r.structures, e.1 = true) → r.completed = true) ∧
      ∃ flags : List Bool, flags.length = r.structures.length ∧ r.completed = flags.all id ∧
        ∀ j (hj : j < r.structures.length) (hj' : j < flags.length),
          (r.structures[j].1 = true → flags[j] = true) ∧
          (r.structures[j].1 = false → ∃ c sw, s'.clusters[j]? = some c ∧
            LoopRun kind n s.maxIter s' c.nodes flags[j] sw) := by
  have hsoft := resetMessages_soft s
  have hs0 : Inv s.resetMessages := hsoft.inv hs
  have hf0 : Flow s.resetMessages := hf.soft hsoft
  have hmsg : ∀ u, u ∉ s.obs → ∀ v, s.resetMessages.msg u v = none := fun u hu v => msg_resetMessages hs hu v
  have hty0 : TypedMsgs s.resetMessages := by
    intro u v m hu hm
    rw [hsoft.toQuiet.obs] at hu
    rw [hmsg u hu v] at hm
    cases hm
  obtain ⟨s1, rs, h1, h2, h3, h4, h5, h6⟩ := propagateClusters_ok hord kind hsched hn s.resetMessages.clusters.length 0
    s.resetMessages [] hs0 hf0 hty0 ⟨rfl, by simp, by simp, by simp⟩ (by omega) (by
      intro j c _ hc u hu v
      refine hmsg u ?_ v
      have := (hs0.cluster_mem hc hu).2
      rw [hsoft.toQuiet.obs] at this
      exact this)
  rw [List.nil_append] at h5
  have hrange : List.range s.clusters.length = List.range' 0 s.resetMessages.clusters.length := by
    rw [hsoft.cl, List.range_eq_range']
  set r : PropResult := { kind := kind, completed := rs.all (fun e => e.2), structures := rs.map (fun e => e.1) } with hr
  refine ⟨{ s1 with last := some r }, r, ?_, ?_, ?_, rfl, rfl, ?_, ?_, ?_, rs.map (fun e => e.2), ?_, ?_, ?_⟩
  · unfold propagateBelief
    rw [hneed]
    simp only [Bool.not_true, Bool.false_eq_true, if_false]
    rw [hpool]
    simp only
    rw [hrange, h1]
  · exact (hsoft.step.trans h2).asked.trans (Asked.light rfl rfl rfl rfl rfl rfl rfl rfl rfl rfl)
  · have ha : Asked s1 { s1 with last := some r } := Asked.light rfl rfl rfl rfl rfl rfl rfl rfl rfl rfl
    exact h3.quiet ha.toQuiet (ha.inv (h2.inv hs0)).toCore
  · refine ⟨h4, ?_, ?_⟩
    · rw [hr]
      show (rs.map _).length = s1.clusters.length
      rw [List.length_map, h5.len, h6]
    · intro j hj
      have hj' : j < rs.length := by rw [hr] at hj; simpa using hj
      obtain ⟨c, g1, g2, g3⟩ := h5.done j hj'
      have hget : r.structures[j] = (rs[j]'hj').1 := by simp [hr]
      refine ⟨c, g1, ?_, ?_⟩
      · rw [hget]; exact g2
      · rw [hget]
        exact g3.keep (Asked.light (s := s1) (s' := { s1 with last := some r }) rfl rfl rfl rfl rfl rfl rfl rfl rfl rfl).toQuiet (fun _ _ => rfl) (fun _ _ _ => rfl)
  · show s1.pool = s.pool
    rw [h2.pool, hsoft.pool]
  · intro hall
    show rs.all (fun e => e.2) = true
    rw [List.all_eq_true]
    intro e he
    obtain ⟨j, hj, rfl⟩ := List.mem_iff_getElem.mp he
    refine h5.tree j hj ?_
    exact hall rs[j].1 (List.mem_map.mpr ⟨rs[j], he, rfl⟩)
  · rw [hr]; simp
  · show rs.all (fun e => e.2) = _
    rw [List.all_map]; rfl
  · intro j hj hj'
    have hjr : j < rs.length := by rw [List.length_map] at hj'; exact hj'
    have hget : r.structures[j] = (rs[j]'hjr).1 := by simp [hr]
    have hget' : (rs.map (fun e => e.2))[j] = (rs[j]'hjr).2 := by simp
    rw [hget, hget']
    refine ⟨h5.tree j hjr, ?_⟩
    intro hfalse
    obtain ⟨c, sw, g1, g2⟩ := h5.loop j hjr hfalse
    refine ⟨c, sw, g1, ?_⟩
    have hmi : s.resetMessages.maxIter = s.maxIter := hsoft.toQuiet.toFrame.maxIter
    rw [hmi] at g2
    exact g2.keep (Asked.light (s := s1) (s' := { s1 with last := some r }) rfl rfl rfl rfl rfl rfl rfl rfl rfl rfl).toQuiet
      (fun _ _ => rfl) (fun _ _ _ => rfl)

end State
end EFG

namespace EFG
namespace State
variable {F : Type} [Arith F]

theorem greedyOrder_ne (ts : List Topo) : ∀ g ∈ greedyOrder ts, g ≠ [] := by
  induction h : ts.length using Nat.strong_induction_on generalizing ts with
  | _ n ih =>
    cases ts with
    | nil => rw [greedyOrder_nil]; simp
    | cons t ts =>
      rw [greedyOrder_cons]
      have hl := greedyPass_length (t :: ts) [] []
      have hpos : 0 < (greedyPass [] [] (t :: ts)).1.length := by simp [greedyPass]
      intro g hg
      rcases List.mem_cons.mp hg with rfl | hg
      · exact List.length_pos_iff.mp hpos
      · exact ih (greedyPass [] [] (t :: ts)).2.length (by omega) _ rfl g hg

theorem Updates.soft {kind : Kind} {l : List Topo} {s s' : State F} {xs : List F} (h : Updates kind l s s' xs) :
    Soft s s' := by
  induction h with
  | nil => exact Soft.rfl' _
  | cons _ _ _ ih => exact (setActiveMessage_soft _ _ _ _).trans ih

theorem Sweeps.soft {kind : Kind} {ts : List Topo} {sw : List (List F)} {s s' : State F} (h : Sweeps kind ts sw s s') :
    Soft s s' := by
  induction h with
  | nil => exact Soft.rfl' _
  | cons _ hu _ ih => exact hu.soft.trans ih

end State
end EFG
