import Verif.Lemmas.Tuners
import Verif.Props.Insert
import Verif.Props.TrainExamples
/- C40, C42: weights of the tunable factors, and refused tunable factors. -/

namespace EFG
variable {F : Type} [Arith F]

/-! ### C40 -/

/-- The factor `p` has weight `w`. -/
def State.HasWeight (s : State F) (p : Nat) (w : F) : Prop := ∃ f, s.heap[p]? = some f ∧ f.weight = some w

theorem State.weightOf_iff {s : State F} {p : Nat} {w : F} : s.weightOf p = .ok w ↔ s.HasWeight p w := by
  unfold State.weightOf State.HasWeight
  cases s.heap[p]? with
  | none => simp
  | some f =>
    simp only [Option.some.injEq, exists_eq_left']
    unfold Res.ofOption
    cases f.weight with
    | none => simp
    | some w' => simp

/-- C40: the weights are refused, without any effect, if there is not one for each tunable cluster. -/
theorem C40_refused (s : State F) {ws : List F} (h : ws.length ≠ s.tunableClusters.length) :
    State.setWeights ws s = .throw s := by
  unfold State.setWeights
  rw [if_pos (by simpa [State.tunableClusters] using h)]

/-- C40: in every reachable state, the weights which are set are the weights which are got, every factor of
the k-th cluster has the k-th of them, and nothing else changes but the memory of the last propagation. -/
theorem C40_roundtrip {allowed : State F → GOp F → Prop} {s : State F} (h : Reach allowed s) {ws : List F}
    (hl : ws.length = s.tunableClusters.length) :
    ∃ s', State.setWeights ws s = .ok s' () ∧ s'.getWeights = .ok ws ∧
      (∀ (k : Nat) c w, s.tunableClusters[k]? = some c → ws[k]? = some w → ∀ p ∈ c, s'.HasWeight p w) ∧
      (∀ p, p ∉ s.tunableClusters.flatten → s'.heap[p]? = s.heap[p]?) ∧
      (∀ (p : Nat) f, s.heap[p]? = some f → ∃ w, s'.heap[p]? = some { f with weight := w }) ∧
      s' = { s with heap := s'.heap, last := s'.last } := by
  have ht := reach_tuned h
  obtain ⟨s', h1, h2, h3, h4, h5, h6⟩ := State.setWeights_ok ht.weighted (ws := ws) (by simpa [State.tunableClusters] using hl)
  refine ⟨s', h1, h6, ?_, ?_, ?_, h2⟩
  · intro k c w hk hw p hp
    unfold State.tunableClusters at hk
    rw [List.getElem?_map] at hk
    cases ht' : s.tuners[k]? with
    | none => rw [ht'] at hk; cases hk
    | some t =>
      rw [ht'] at hk
      cases hk
      obtain ⟨b, hb, rfl⟩ := List.mem_map.mp hp
      exact State.weightOf_iff.mp (h4 k t w ht' hw b hb)
  · intro p hp
    refine h5 p ?_
    rw [List.map_flatten]
    exact hp
  · intro p f hf
    rcases h3 p with ⟨h7, _⟩ | ⟨g, w, h7, h8, _⟩
    · rw [hf] at h7; cases h7
    · rw [hf] at h7; cases h7
      exact ⟨w, h8⟩

/-- C40: in every reachable state the weights can be got, there is one for each cluster, no cluster is
empty and no factor is in two clusters. -/
theorem C40_weights {allowed : State F → GOp F → Prop} {s : State F} (h : Reach allowed s) :
    (∃ ws, s.getWeights = .ok ws ∧ ws.length = s.tunableClusters.length ∧
      ∀ (k : Nat) c w p, s.tunableClusters[k]? = some c → ws[k]? = some w → c.head? = some p → s.HasWeight p w) ∧
    (∀ c ∈ s.tunableClusters, c ≠ []) ∧ s.tunableClusters.flatten.Nodup ∧
    (∀ c ∈ s.tunableClusters, ∀ p ∈ c, p ∈ s.tunables ∧ p ∈ s.factors) := by
  have ht := reach_tuned h
  refine ⟨?_, ?_, ?_, ?_⟩
  · have hw : ∀ t ∈ s.tuners, ∃ w, s.tunerWeight t = .ok w := by
      intro t hm
      unfold State.tunerWeight
      cases t with
      | nil => exact absurd rfl (ht.ne [] hm)
      | cons b t =>
        obtain ⟨f, h1, h2⟩ := ht.exp _ (ht.of _ hm b (by simp)).reg
        obtain ⟨w, hw⟩ := Option.isSome_iff_exists.mp h2
        exact ⟨w, State.weightOf_iff.mpr ⟨f, h1, hw⟩⟩
    obtain ⟨g, hg⟩ : ∃ g : List BaseTuner → Option F, ∀ t ∈ s.tuners, ∃ w, g t = some w ∧ s.tunerWeight t = .ok w := by
      refine ⟨fun t => match s.tunerWeight t with | .ok w => some w | _ => none, ?_⟩
      intro t hm
      obtain ⟨w, hw⟩ := hw t hm
      exact ⟨w, by simp only [hw], hw⟩
    refine ⟨s.tuners.filterMap g, ?_, ?_, ?_⟩
    · unfold State.getWeights
      have : ∀ l : List (List BaseTuner), (∀ t ∈ l, ∃ w, g t = some w ∧ s.tunerWeight t = .ok w) →
          Res.mapList s.tunerWeight l = .ok (l.filterMap g) := by
        intro l
        induction l with
        | nil => intro _; rfl
        | cons t l ih =>
          intro hl
          obtain ⟨w, h1, h2⟩ := hl t (by simp)
          rw [Res.mapList_cons, h2]
          simp only [ih (fun t ht => hl t (by simp [ht])), List.filterMap_cons, h1]
      exact this _ hg
    · have : ∀ l : List (List BaseTuner), (∀ t ∈ l, ∃ w, g t = some w ∧ s.tunerWeight t = .ok w) →
          (l.filterMap g).length = l.length := by
        intro l
        induction l with
        | nil => intro _; rfl
        | cons t l ih =>
          intro hl
          obtain ⟨w, h1, h2⟩ := hl t (by simp)
          simp [List.filterMap_cons, h1, ih (fun t ht => hl t (by simp [ht]))]
      rw [this _ hg]
      simp [State.tunableClusters]
    · have : ∀ l : List (List BaseTuner), (∀ t ∈ l, ∃ w, g t = some w ∧ s.tunerWeight t = .ok w) →
          ∀ (k : Nat) t w, l[k]? = some t → (l.filterMap g)[k]? = some w → s.tunerWeight t = .ok w := by
        intro l
        induction l with
        | nil => intro _ k t w hk; cases hk
        | cons t l ih =>
          intro hl k t' w hk hkw
          obtain ⟨w', h1, h2⟩ := hl t (by simp)
          simp only [List.filterMap_cons, h1] at hkw
          cases k with
          | zero => cases hk; cases hkw; exact h2
          | succ k => exact ih (fun t ht => hl t (by simp [ht])) k t' w hk hkw
      intro k c w p hk hkw hc
      unfold State.tunableClusters at hk
      rw [List.getElem?_map] at hk
      cases htk : s.tuners[k]? with
      | none => rw [htk] at hk; cases hk
      | some t =>
        rw [htk] at hk
        cases hk
        have := this _ hg k t w htk hkw
        cases t with
        | nil => cases hc
        | cons b t => cases hc; exact State.weightOf_iff.mp this
  · intro c hc
    obtain ⟨t, hm, rfl⟩ := List.mem_map.mp hc
    simpa using ht.ne t hm
  · have := ht.nodup
    rw [List.map_flatten] at this
    exact this
  · intro c hc p hp
    obtain ⟨t, hm, rfl⟩ := List.mem_map.mp hc
    obtain ⟨b, hb, rfl⟩ := List.mem_map.mp hp
    have := (ht.of t hm b hb).reg
    exact ⟨this, ht.reg _ this⟩

/-- An operation which does not set the weight of a factor of the model from outside. -/
def FromInside (s : State F) (op : GOp F) : Prop := ∀ p w, op = .mutate p (.setWeight w) → p ∉ s.factors

/-- C40: the factors of a cluster have equal weights in every state reached without setting the weight of
a factor of the model from outside.

Missing: a program keeps pointers to the factors it inserted and can set their weights; then the factors of
a cluster have different weights, and only the first of them is got: `C40_violated`. -/
theorem C40_shared_partial {s : State F} (h : Reach FromInside s) :
    ∀ c ∈ s.tunableClusters, ∀ p ∈ c, ∀ q ∈ c, ∀ w, s.HasWeight p w → s.HasWeight q w := by
  intro c hc p hp q hq w hw
  obtain ⟨t, hm, rfl⟩ := List.mem_map.mp hc
  obtain ⟨b, hb, rfl⟩ := List.mem_map.mp hp
  obtain ⟨d, hd, rfl⟩ := List.mem_map.mp hq
  have hs := reach_shared h (fun s op h => h) t hm b hb d hd
  exact State.weightOf_iff.mp (hs ▸ State.weightOf_iff.mpr hw)

namespace Ex

/-- Factors 0 and 2 share a weight, factor 1 has its own. -/
def sharing : State (Ext ℚ) := afterT [.tune 0 none, .tune 1 none, .tune 2 (some [X])]

theorem sharing_any : Reach anyOp sharing := afterT_any _ (by decide +kernel)

theorem sharing_inside : Reach FromInside sharing :=
  runT_reach (c := fun s a => a.typed s) (fun _ a h => ⟨TAct.valid h, (fun p w he => by cases a <;> cases he)⟩) _
    (.init heapT_reach) (by decide +kernel)

end Ex

/-- Three factors in two clusters: both weights are set and got, and the factors 0 and 2 have the same. -/
example : Reach FromInside Ex.sharing ∧ Ex.sharing.tunableClusters = [[0, 2], [1]] ∧
    [Ext.val 5, Ext.val (7 : ℚ)].length = Ex.sharing.tunableClusters.length ∧
    Ex.sharing.HasWeight 0 (.val 1) ∧ Ex.sharing.HasWeight 2 (.val 1) :=
  ⟨Ex.sharing_inside, by decide +kernel, by decide +kernel,
    State.weightOf_iff.mp (by
      have : (match Ex.sharing.weightOf 0 with | .ok w => some w | _ => none) = some (.val 1) := by decide +kernel
      cases h : Ex.sharing.weightOf 0 <;> rw [h] at this <;> cases this; rfl),
    State.weightOf_iff.mp (by
      have : (match Ex.sharing.weightOf 2 with | .ok w => some w | _ => none) = some (.val 1) := by decide +kernel
      cases h : Ex.sharing.weightOf 2 <;> rw [h] at this <;> cases this; rfl)⟩

example : Reach anyOp Ex.sharing ∧ [Ext.val (5 : ℚ)].length ≠ Ex.sharing.tunableClusters.length :=
  ⟨Ex.sharing_any, by decide +kernel⟩

/-- C40 is violated when the weight of an inserted factor is set through the pointer its creator has kept:
the two factors of a cluster have different weights, and the weights which are got do not tell. -/
theorem C40_violated : ∃ s : State (Ext ℚ), Reach anyOp s ∧ s.tunableClusters = [[0, 2], [1]] ∧
    s.getWeights = .ok [.val 1, .val 2] ∧ s.HasWeight 0 (.val 1) ∧ s.HasWeight 2 (.val 9) := by
  have hv : (GOp.mutate 2 (.setWeight (.val 9)) : GOp (Ext ℚ)).Valid Ex.sharing := by
    refine ⟨trivial, ?_⟩
    intro f hf
    have : (Ex.sharing.heap[2]?).map (fun f => f.weight.isSome) = some true := by decide +kernel
    rw [hf] at this
    exact Option.some.inj this
  have h1 : ∃ s', (GOp.mutate 2 (.setWeight (.val 9)) : GOp (Ext ℚ)).exec Ex.sharing = .ok s' () ∧
      s'.tunableClusters = [[0, 2], [1]] ∧ (s'.heap[0]?).map (·.weight) = some (some (.val 1)) ∧
      (s'.heap[1]?).map (·.weight) = some (some (.val 2)) ∧
      (s'.heap[2]?).map (·.weight) = some (some (.val 9)) := by
    refine ⟨_, rfl, ?_⟩
    decide +kernel
  obtain ⟨s', h2, h3, h4, h5, h6⟩ := h1
  have hr : Reach anyOp s' := .ok Ex.sharing_any hv trivial h2
  have get : ∀ (p : Nat) w, (s'.heap[p]?).map (·.weight) = some (some w) → s'.HasWeight p w := by
    intro p w h
    cases hp : s'.heap[p]? with
    | none => rw [hp] at h; cases h
    | some f => rw [hp] at h; exact ⟨f, hp, Option.some.inj h⟩
  refine ⟨s', hr, h3, ?_, get _ _ h4, get _ _ h6⟩
  obtain ⟨⟨ws, hw1, hw2, hw3⟩, _⟩ := C40_weights hr
  rw [h3] at hw2 hw3
  match ws, hw2 with
  | [a, b], _ =>
    obtain ⟨f, hf, hfw⟩ := hw3 0 [0, 2] a 0 rfl rfl rfl
    obtain ⟨g, hg, hgw⟩ := hw3 1 [1] b 1 rfl rfl rfl
    rw [hf] at h4
    rw [hg] at h5
    simp only [Option.map_some, Option.some.injEq] at h4 h5
    rw [hfw] at h4
    rw [hgw] at h5
    cases h4
    cases h5
    exact hw1

/-! ### C42 -/

/-- A tunable factor of the model, with a weight which can be shared, has exactly the variables `g`. -/
def KnownGroup (s : State F) (g : VarSet) : Prop :=
  ∃ c ∈ s.tunableClusters, ∃ p ∈ c, ∃ f, s.heap[p]? = some f ∧ f.vars.group.length = g.length ∧ ∀ v ∈ f.vars.group, v ∈ g

theorem findTuner_iff {s : State F} (hs : s.Inv) (g : VarSet) : s.findTuner g ≠ none ↔ KnownGroup s g := by
  have hsame : ∀ (p : Nat) f, s.heap[p]? = some f → (VarSet.same f.vars.sorted g = true ↔
      f.vars.group.length = g.length ∧ ∀ v ∈ f.vars.group, v ∈ g) := by
    intro p f hf
    have hwf := (hs.heapWF f (List.mem_of_getElem? hf)).group
    unfold VarSet.same
    rw [Bool.and_eq_true, beq_iff_eq, List.all_eq_true, hwf.perm.length_eq]
    refine and_congr_right (fun _ => ?_)
    constructor
    · intro h v hv
      simpa using h v (hwf.perm.mem_iff.mpr hv)
    · intro h v hv
      simpa using h v (hwf.perm.mem_iff.mp hv)
  unfold State.findTuner KnownGroup
  rw [ne_eq, List.findIdx?_eq_none_iff]
  push Not
  constructor
  · rintro ⟨t, ht, h⟩
    have h : s.tunes g t = true := by simpa using h
    unfold State.tunes at h
    obtain ⟨b, hb, h1⟩ := List.any_eq_true.mp h
    refine ⟨t.map BaseTuner.factor, List.mem_map_of_mem ht, b.factor, List.mem_map_of_mem hb, ?_⟩
    cases hf : s.heap[b.factor]? with
    | none => rw [hf] at h1; cases h1
    | some f =>
      rw [hf] at h1
      exact ⟨f, rfl, (hsame _ f hf).mp h1⟩
  · rintro ⟨c, hc, p, hp, f, hf, h1⟩
    obtain ⟨t, ht, rfl⟩ := List.mem_map.mp hc
    obtain ⟨b, hb, rfl⟩ := List.mem_map.mp hp
    refine ⟨t, ht, ?_⟩
    have : s.tunes g t = true := by
      unfold State.tunes
      rw [List.any_eq_true]
      refine ⟨b, hb, ?_⟩
      rw [hf]
      exact (hsame _ f hf).mpr h1
    simp [this]

/-- C42: adding a tunable factor throws exactly when the factor has to be refused or its weight should be
shared with an unknown group.

Missing: in the second case the model is changed, see `C42_refused_partial` and `C42_violated`. -/
theorem C42_throws {allowed : State F → GOp F → Prop} {s : State F} (h : Reach allowed s) {p : Nat} {f : Fn F}
    (hf : s.heap[p]? = some f) (hw : f.weight.isSome) (share : Option VarSet) :
    (∃ s', State.addTunable (some p) share s = .ok s' () ∧ ¬ MustRefuse s p f ∧ ∀ g, share = some g → KnownGroup s g) ∨
    (∃ s', State.addTunable (some p) share s = .throw s' ∧
      (MustRefuse s p f ∨ ∃ g, share = some g ∧ ¬ KnownGroup s g)) := by
  have hs := reach_inv h
  have ht := reach_tuned h
  rcases State.addTunable_cases hs ht hf share with ⟨s', h1, h2, _⟩ | ⟨hr, s1, b, h1, hb, hof, h2⟩
  · exact Or.inr ⟨s', h1, Or.inl (hs.toCore.refused_iff.mp h2)⟩
  · have hr' := fun h => hr (hs.toCore.refused_iff.mpr h)
    cases share with
    | none => exact Or.inl ⟨_, h2, hr', by intro g hg; cases hg⟩
    | some g =>
      simp only at h2
      rcases h2 with ⟨h3, h4⟩ | ⟨i, h3, h4⟩
      · refine Or.inr ⟨_, h4, Or.inr ⟨g, rfl, ?_⟩⟩
        intro hk
        exact (findTuner_iff hs g).mpr hk h3
      · have hk : KnownGroup s g := (findTuner_iff hs g).mp (by rw [h3]; simp)
        refine Or.inl ?_
        rw [h4]
        unfold State.shareTuner
        have hidx : i < s.tuners.length := by
          unfold State.findTuner at h3
          rw [List.findIdx?_eq_some_iff_findIdx_eq] at h3
          exact h3.1
        have htun : (State.registered s1 p).tuners = s.tuners := h1.kept.tuners
        have hheap : (State.registered s1 p).heap = s.heap := h1.kept.heap
        rw [htun, List.getElem?_eq_getElem hidx]
        simp only
        have hm : s.tuners[i] ∈ s.tuners := List.getElem_mem hidx
        obtain ⟨w, hw⟩ : ∃ w, (State.registered s1 p).tunerWeight s.tuners[i] = .ok w := by
          unfold State.tunerWeight
          cases htu : s.tuners[i] with
          | nil => exact absurd htu (ht.ne _ hm)
          | cons c t =>
            obtain ⟨f', h5, h6⟩ := ht.exp _ (ht.of _ hm c (by rw [htu]; simp)).reg
            obtain ⟨w, hw⟩ := Option.isSome_iff_exists.mp h6
            exact ⟨w, State.weightOf_iff.mpr ⟨f', by rw [hheap]; exact h5, hw⟩⟩
        rw [hw]
        exact ⟨_, rfl, hr', by intro g' hg'; cases hg'; exact hk⟩

/-- C42 when no weight should be shared, or the group is known: a refused factor leaves the factors, the
tunable factors, the weights, the evidences and the variables of the model as they are, but for a first
variable which is not in the model.

Missing: if the group is unknown the factor stays in the model (`C42_violated`); a refused binary factor
whose first variable is new leaves it in the model (`C22_violated`). -/
theorem C42_refused_partial {allowed : State F → GOp F → Prop} {s s' : State F} (h : Reach allowed s) {p : Nat}
    {f : Fn F} (hf : s.heap[p]? = some f) (hw : f.weight.isSome) {share : Option VarSet}
    (hk : ∀ g, share = some g → KnownGroup s g) (he : State.addTunable (some p) share s = .throw s') :
    s'.factors = s.factors ∧ s'.tunables = s.tunables ∧ s'.tunableClusters = s.tunableClusters ∧ s'.heap = s.heap ∧
    s'.consts = s.consts ∧ s'.evidences = s.evidences ∧
    (s'.vars = s.vars ∨ ∃ a b, f.vars.group = [a, b] ∧ (∀ w ∈ s.vars, ¬ (w.name = a.name ∧ w.size = a.size)) ∧
      s'.vars = s.vars ++ [a]) := by
  have hs := reach_inv h
  have ht := reach_tuned h
  rcases C42_throws h hf hw share with ⟨s1, h1, _⟩ | ⟨s1, h1, h2⟩
  · rw [he] at h1; cases h1
  · have hr : MustRefuse s p f := by
      rcases h2 with h2 | ⟨g, hg, hn⟩
      · exact h2
      · exact absurd (hk g hg) hn
    rcases State.addTunable_cases hs ht hf share with ⟨s2, h3, _, _, h4⟩ | ⟨hr', _⟩
    · rw [he] at h3
      cases h3
      rcases h4 with h4 | h4 | ⟨a, b, h5, h6, h4⟩
      · rw [h4]; exact ⟨rfl, rfl, rfl, rfl, rfl, rfl, Or.inl rfl⟩
      · rw [h4]; exact ⟨rfl, rfl, rfl, rfl, rfl, rfl, Or.inl rfl⟩
      · rw [h4]
        refine ⟨rfl, rfl, rfl, rfl, rfl, rfl, Or.inr ⟨a, b, h5, ?_, rfl⟩⟩
        intro w hw he
        have := h6 w hw
        rw [Var.eqv_iff.mpr he] at this
        cases this
    · exact absurd (hs.toCore.refused_iff.mpr hr) hr'

/-- A second factor joining X and Y is refused, with and without a weight to share. -/
example : ∃ f, Reach anyOp Ex.sharing ∧ Ex.sharing.heap[1]? = some f ∧ f.weight.isSome ∧ KnownGroup Ex.sharing [Ex.X] ∧
    MustRefuse Ex.sharing 1 f := by
  refine ⟨_, Ex.sharing_any, rfl, by decide +kernel, ⟨[0, 2], by decide +kernel, 0, by simp, _, rfl, by decide +kernel, by decide +kernel⟩,
    Or.inl (by decide +kernel)⟩

/-- C42 is violated: a factor whose weight should be shared with an unknown group is refused, but it stays
in the model, as a tunable factor which has no weight among those of the model. -/
theorem C42_violated : ∃ (s s' : State (Ext ℚ)) (f : Fn (Ext ℚ)), Reach anyOp s ∧ s.heap[3]? = some f ∧
    f.weight.isSome ∧ State.addTunable (some 3) (some [Ex.Z]) s = .throw s' ∧ ¬ MustRefuse s 3 f ∧
    s.factors = [0, 1, 2] ∧ s'.factors = [0, 1, 2, 3] ∧ s.tunables = [0, 1, 2] ∧ s'.tunables = [0, 1, 2, 3] ∧
    s.vars = [Ex.X, Ex.Y] ∧ s'.vars = [Ex.X, Ex.Y, Ex.Z] ∧ s'.tunableClusters = [[0, 2], [1]] := by
  obtain ⟨f, hf⟩ : ∃ f, Ex.sharing.heap[3]? = some f := ⟨_, rfl⟩
  have hw : (Ex.sharing.heap[3]?).map (fun f => f.weight.isSome) = some true := by decide +kernel
  rw [hf] at hw
  have hw := Option.some.inj hw
  have hx : (match State.addTunable (some 3) (some [Ex.Z]) Ex.sharing with
      | .throw s' => some (s'.factors, s'.tunables, s'.vars, s'.tunableClusters)
      | _ => none) = some ([0, 1, 2, 3], [0, 1, 2, 3], [Ex.X, Ex.Y, Ex.Z], [[0, 2], [1]]) := by decide +kernel
  cases he : State.addTunable (some 3) (some [Ex.Z]) Ex.sharing with
  | ok s' _ => rw [he] at hx; cases hx
  | ub => rw [he] at hx; cases hx
  | throw s' =>
    rw [he] at hx
    simp only [Option.some.injEq, Prod.mk.injEq] at hx
    refine ⟨Ex.sharing, s', f, Ex.sharing_any, hf, hw, he, ?_, by decide +kernel, hx.1, by decide +kernel, hx.2.1, by decide +kernel, hx.2.2.1,
      hx.2.2.2⟩
    intro hr
    have hr := (reach_inv Ex.sharing_any).toCore.refused_iff.mpr hr
    rcases State.addTunable_cases (reach_inv Ex.sharing_any) (reach_tuned Ex.sharing_any) hf (some [Ex.Z]) with
      ⟨s2, h1, _, _, h4⟩ | ⟨h, _⟩
    · rw [he] at h1
      cases h1
      have hf0 : Ex.sharing.factors = [0, 1, 2] := by decide +kernel
      rcases h4 with h4 | h4 | ⟨a, b, _, _, h4⟩
      · rw [h4, hf0] at hx; exact absurd hx.1 (by decide)
      · rw [h4] at hx; change Ex.sharing.factors = _ ∧ _ at hx; rw [hf0] at hx; exact absurd hx.1 (by decide)
      · rw [h4] at hx; change Ex.sharing.factors = _ ∧ _ at hx; rw [hf0] at hx; exact absurd hx.1 (by decide)
    · exact h hr

end EFG
