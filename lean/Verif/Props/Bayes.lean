import Verif.Lemmas.Gradient
import Verif.Props.Joint
/-
C68: the answers before and after an evidence fit together.
-/

namespace EFG
variable {K : Type} [Field K] [LinearOrder K] [IsStrictOrderedRing K] [FloatParams K]

namespace State

/-- The mass of the assignments with the values `i` for `v` and `k` for `w`. -/
def pairMass (ω : Assign → K) (l : List Var) (e : Assign) (v w : Var) (i k : Nat) : K :=
  Tree.sumOver Var.size l ω (Function.update (Function.update e v i) w k)

omit [LinearOrder K] [IsStrictOrderedRing K] [FloatParams K] in
theorem pairMass_comm (ω : Assign → K) (l : List Var) (e : Assign) {v w : Var} (h : v ≠ w) (i k : Nat) :
    pairMass ω l e v w i k = pairMass ω l e w v k i := by
  unfold pairMass
  rw [Function.update_comm h]

omit [LinearOrder K] [IsStrictOrderedRing K] [FloatParams K] in
theorem mass_pair (ω : Assign → K) {l l' : List Var} {w : Var} (h : l.Perm (w :: l')) (e : Assign) (v : Var) (i : Nat) :
    mass ω l e v i = ∑ k ∈ Finset.range w.size, pairMass ω l' e v w i k := by
  unfold mass
  rw [Tree.sumOver_perm h]
  rfl

omit [LinearOrder K] [IsStrictOrderedRing K] [FloatParams K] in
theorem list_range_sum (n : Nat) (f : Nat → K) : ((List.range n).map f).sum = ∑ i ∈ Finset.range n, f i := by
  rw [← List.sum_toFinset f List.nodup_range, List.toFinset_range]

/-- What an evidence on a hidden variable changes. -/
structure Narrows (s t : State (Ext K)) (w : Var) (k : Nat) : Prop where
  heap : t.heap = s.heap
  vars : t.vars = s.vars
  factors : t.factors = s.factors
  evidences : t.evidences = s.evidences ++ [(w, k)]

namespace Narrows
variable {s t : State (Ext K)} {w : Var} {k : Nat} (h : Narrows s t w k)
include h

theorem hidden_iff (u : Var) : t.Hidden u ↔ s.Hidden u ∧ u ≠ w := by
  unfold Hidden Observes
  rw [h.vars, h.evidences]
  constructor
  · rintro ⟨h1, h2⟩
    refine ⟨⟨h1, fun ⟨j, hj⟩ => h2 ⟨j, by simp [hj]⟩⟩, ?_⟩
    rintro rfl
    exact h2 ⟨k, by simp⟩
  · rintro ⟨⟨h1, h2⟩, h3⟩
    refine ⟨h1, ?_⟩
    rintro ⟨j, hj⟩
    rcases List.mem_append.1 hj with hj | hj
    · exact h2 ⟨j, hj⟩
    · simp at hj
      exact h3 hj.1

theorem joins (u v : Var) : t.Joins u v ↔ s.Joins u v := by
  unfold Joins FactorOn
  rw [h.factors, h.heap]

theorem le : t.hiddenGraph ≤ s.hiddenGraph := by
  intro u v ⟨h1, h2, h3, h4⟩
  exact ⟨h1, ((h.hidden_iff u).mp h2).1, ((h.hidden_iff v).mp h3).1, (h.joins u v).mp h4⟩

theorem treeAt {v : Var} (ht : s.TreeAt v) : t.TreeAt v := by
  intro u hu c hc
  refine ht u ?_ (c.mapLe h.le) (hc.mapLe h.le)
  exact Relation.ReflTransGen.mono (fun a b hab => ⟨((h.hidden_iff a).mp hab.1).1, ((h.hidden_iff b).mp hab.2.1).1,
    (h.joins a b).mp hab.2.2⟩) _ _ hu

theorem weight (φ : Nat → Assign → K) : t.weight φ = s.weight φ := by
  unfold State.weight
  rw [h.factors]

theorem images {φ : Nat → Assign → K} (hφ : s.Images φ) : t.Images φ := by
  unfold Images InRange at *
  rw [h.factors, h.vars, h.heap]
  exact hφ

theorem symmetric {φ : Nat → Assign → K} (hφ : s.Symmetric φ) : t.Symmetric φ := by
  intro p u v hp hu hv a ha
  refine hφ p u v ?_ ((h.hidden_iff u).mp hu).1 ((h.hidden_iff v).mp hv).1 a ?_
  · unfold FactorOn at *
    rwa [h.factors, h.heap] at hp
  · unfold InRange at *
    rwa [h.vars] at ha

theorem agrees {e : Assign} (he : s.Agrees e) (hk : k < w.size) (hw : s.Hidden w) : t.Agrees (Function.update e w k) := by
  constructor
  · intro u hu
    rw [h.vars] at hu
    by_cases huw : u = w
    · subst huw; rwa [Function.update_self]
    · rw [Function.update_of_ne huw]; exact he.1 u hu
  · intro u j hj
    rw [h.evidences] at hj
    rcases List.mem_append.1 hj with hj' | hj'
    · have huw : u ≠ w := by
        rintro rfl
        exact hw.2 ⟨j, hj'⟩
      rw [Function.update_of_ne huw]
      exact he.2 u j hj'
    · simp at hj'
      obtain ⟨rfl, rfl⟩ := hj'
      rw [Function.update_self]

theorem others {v : Var} {l : List Var} (hl : s.OthersOf [v, w] l) : t.Others v l := by
  refine ⟨hl.1, fun u => ?_⟩
  rw [hl.2, h.hidden_iff]
  simp only [List.mem_cons, List.not_mem_nil, or_false, not_or]
  tauto

end Narrows

/-- The evidence of a hidden variable can be set to each of its values. -/
theorem narrows {s : State (Ext K)} (h : Reach (fun s op => Prudent s op ∧ Steady s op) s)
    {ord : List Var → List Var} (hord : ∀ l, (ord l).Perm l) {w : Var} (hw : s.Hidden w) {k : Nat} (hk : k < w.size) :
    ∃ t, State.setEvidence ord w k s = .ok t () ∧ Narrows s t w k ∧
      Reach (fun s op => Prudent s op ∧ Steady s op) t := by
  obtain ⟨hw1, hw2⟩ := mem_hid.mp (State.hidden_iff.mp hw)
  obtain ⟨t, h1, h2⟩ := setEvidence_hidden hord (reach_inv h) hw1 hw2 hk
  refine ⟨t, h1, ⟨h2.frame.heap, h2.frame.vars, h2.frame.factors, h2.evidences⟩, ?_⟩
  exact .ok (op := .setEvidence ord w k) h ⟨hord, trivial⟩
    ⟨⟨fun u w h => absurd h (by simp [GOp.Releases]), by simp [GOp.threads], by simp [GOp.inserted]⟩,
      ⟨by simp, by simp, by simp [GOp.Reweighs], by simp [GOp.Reweighs]⟩⟩ h1

/-- Two variables and the other hidden ones. -/
theorem othersOf_pair {s : State (Ext K)} (hs : Core s) (v w : Var) : s.OthersOf [v, w] ((s.hid.erase v).erase w) := by
  refine ⟨((hid_nodup hs.net).erase v).erase w, fun u => ?_⟩
  rw [((hid_nodup hs.net).erase v).mem_erase_iff, (hid_nodup hs.net).mem_erase_iff, State.hidden_iff]
  simp only [List.mem_cons, List.not_mem_nil, or_false, not_or]
  tauto

theorem OthersOf.swap {s : State (Ext K)} {v w : Var} {l : List Var} (h : s.OthersOf [v, w] l) : s.OthersOf [w, v] l := by
  refine ⟨h.1, fun u => ?_⟩
  rw [h.2]
  simp only [List.mem_cons, List.not_mem_nil, or_false, not_or]
  tauto

theorem OthersOf.others {s : State (Ext K)} {v w : Var} {l : List Var} (h : s.OthersOf [v, w] l) (hw : s.Hidden w)
    (hvw : v ≠ w) : s.Others v (w :: l) := by
  refine ⟨List.nodup_cons.mpr ⟨fun hm => ((h.2 w).mp hm).2 (by simp), h.1⟩, fun u => ?_⟩
  rw [List.mem_cons, h.2]
  simp only [List.mem_cons, List.not_mem_nil, or_false, not_or]
  constructor
  · rintro (rfl | h)
    · exact ⟨hw, hvw.symm⟩
    · exact ⟨h.1, h.2.1⟩
  · rintro ⟨h1, h2⟩
    by_cases huw : u = w
    · exact Or.inl huw
    · exact Or.inr ⟨h1, h2, huw⟩

theorem pairMass_nonneg {s : State (Ext K)} {φ : Nat → Assign → K} (hφ : s.Images φ) {v w : Var} {l : List Var}
    (hl : s.OthersOf [v, w] l) {e : Assign} (he : s.Agrees e) {i k : Nat} (hi : i < v.size)
    (hk : k < w.size) : 0 ≤ pairMass (s.weight φ) l e v w i k := by
  refine Tree.sumOver_nonneg _ _ (fun b h1 h2 => weight_nonneg hφ (fun u hu => ?_))
  by_cases hul : u ∈ l
  · exact h2 u hul
  · rw [h1 u hul]
    by_cases huw : u = w
    · subst huw; rwa [Function.update_self]
    · rw [Function.update_of_ne huw]
      by_cases huv : u = v
      · subst huv; rwa [Function.update_self]
      · rw [Function.update_of_ne huv]; exact he.1 u hu

theorem pairMass_pos {s : State (Ext K)} {φ : Nat → Assign → K} (hφ : s.Images φ) {v w : Var} (hv : s.Hidden v)
    (hw : s.Hidden w) (hvw : v ≠ w) {l : List Var}
    (hl : s.OthersOf [v, w] l) {e : Assign} (he : s.Agrees e) (hpos : s.weight φ e ≠ 0) :
    0 < pairMass (s.weight φ) l e v w (e v) (e w) := by
  refine lt_of_lt_of_le (lt_of_le_of_ne (weight_nonneg hφ he.1) (Ne.symm hpos))
    (Tree.le_sumOver _ _ (fun b h1 h2 => weight_nonneg hφ (fun u hu => ?_)) (fun u _ => ?_)
      (fun u hu => he.1 u ((hl.2 u).mp hu).1.1))
  · by_cases hul : u ∈ l
    · exact h2 u hul
    · rw [h1 u hul, Function.update_eq_self, Function.update_eq_self]
      exact he.1 u hu
  · rw [Function.update_eq_self, Function.update_eq_self]

/-- The marginal of one of two variables, and the one after an evidence on the other. -/
theorem marginals_pair {s : State (Ext K)} (h : Reach (fun s op => Prudent s op ∧ Steady s op) s)
    {ord : List Var → List Var} (hord : ∀ l, (ord l).Perm l) {sched : Sched} (hsched : ∀ l, (sched l).Perm l)
    {n : Nat} (hn : 1 ≤ n) {φ : Nat → Assign → K} (hφ : s.Images φ) (hsym : s.Symmetric φ) {v w : Var}
    (hv : s.Hidden v) (hw : s.Hidden w) (hvw : v ≠ w) (ht : s.TreeAt v) {l : List Var} (hl : s.OthersOf [v, w] l)
    {e : Assign} (he : s.Agrees e) (hpos : s.weight φ e ≠ 0) :
    (∃ s', State.getMarginal ord sched v n s = .ok s' (((List.range v.size).map (fun i =>
      (∑ k ∈ Finset.range w.size, pairMass (s.weight φ) l e v w i k) /
        ∑ i ∈ Finset.range v.size, ∑ k ∈ Finset.range w.size, pairMass (s.weight φ) l e v w i k)).map Ext.val)) ∧
    ∀ k < w.size, ∃ t, State.setEvidence ord w k s = .ok t () ∧
      ((∑ i ∈ Finset.range v.size, pairMass (s.weight φ) l e v w i k) ≠ 0 →
        ∃ t', State.getMarginal ord sched v n t = .ok t' (((List.range v.size).map (fun i =>
          pairMass (s.weight φ) l e v w i k / ∑ i ∈ Finset.range v.size, pairMass (s.weight φ) l e v w i k)).map
            Ext.val)) := by
  have hm := fun i => mass_pair (s.weight φ) (List.Perm.refl (w :: l)) e v i
  constructor
  · have hsum : ((List.range v.size).map (mass (s.weight φ) (w :: l) e v)).sum =
        ∑ i ∈ Finset.range v.size, ∑ k ∈ Finset.range w.size, pairMass (s.weight φ) l e v w i k := by
      rw [list_range_sum]
      exact Finset.sum_congr rfl (fun i _ => hm i)
    have := C25_marginals_exact_partial h hord hsched hn hφ hsym hv (Var.eqv_refl v) ht (hl.others hw hvw) he
      ⟨e v, he.1 v hv.1, by
        rw [hm]
        have h1 := Finset.single_le_sum (f := fun k => pairMass (s.weight φ) l e v w (e v) k)
          (fun k hk => pairMass_nonneg hφ hl he (he.1 v hv.1) (by simpa using hk))
          (by simpa using he.1 w hw.1 : e w ∈ Finset.range w.size)
        exact ((pairMass_pos hφ hv hw hvw hl he hpos).trans_le h1).ne'⟩
    unfold distribution at this
    rw [hsum] at this
    simp only [hm] at this
    exact this
  · intro k hk
    obtain ⟨t, h1, h2, h3⟩ := narrows h hord hw hk
    refine ⟨t, h1, fun hne => ?_⟩
    have hm' : ∀ i, mass (s.weight φ) l (Function.update e w k) v i = pairMass (s.weight φ) l e v w i k := by
      intro i
      rw [pairMass_comm _ _ _ hvw]
      rfl
    obtain ⟨i, hi, hine⟩ := Finset.exists_ne_zero_of_sum_ne_zero hne
    have := C25_marginals_exact_partial h3 hord hsched hn (h2.images hφ) (h2.symmetric hsym)
      ((h2.hidden_iff v).mpr ⟨hv, hvw⟩) (Var.eqv_refl v) (h2.treeAt ht) (h2.others hl) (h2.agrees he hk hw)
      ⟨i, by simpa using hi, by rw [h2.weight, hm']; exact hine⟩
    unfold distribution at this
    rw [h2.weight] at this
    simp only [hm', list_range_sum] at this
    exact this

end State

/-- C68, the law of total probability: after any execution of prudent and steady operations, the marginal of a hidden
variable `v` is the average of those which the library gives after each evidence `w = k`, each with the probability of
`k` in the marginal of `w`. The evidences of probability zero do not count.

Missing: the variables of clusters with cycles, the factors which join two hidden variables and are not symmetric
(`C68_violated`), and the executions which change a factor of the model whose images were already used. -/
theorem C68_total_partial {s : State (Ext K)} (h : Reach (fun s op => Prudent s op ∧ Steady s op) s)
    {ord : List Var → List Var} (hord : ∀ l, (ord l).Perm l) {sched : Sched} (hsched : ∀ l, (sched l).Perm l)
    {n : Nat} (hn : 1 ≤ n) {φ : Nat → Assign → K} (hφ : s.Images φ) (hsym : s.Symmetric φ) {v w : Var}
    (hv : s.Hidden v) (hw : s.Hidden w) (hvw : v ≠ w) (htv : s.TreeAt v) (htw : s.TreeAt w)
    (hpos : ∃ e, s.Agrees e ∧ s.weight φ e ≠ 0) :
    ∃ (P Q : Nat → K) (R : Nat → Nat → K) (sv sw : State (Ext K)),
      State.getMarginal ord sched v n s = .ok sv (((List.range v.size).map P).map Ext.val) ∧
      State.getMarginal ord sched w n s = .ok sw (((List.range w.size).map Q).map Ext.val) ∧
      (∀ k < w.size, ∃ t, State.setEvidence ord w k s = .ok t () ∧ (Q k ≠ 0 →
        ∃ t', State.getMarginal ord sched v n t = .ok t' (((List.range v.size).map (R k)).map Ext.val))) ∧
      ∀ i < v.size, P i = ∑ k ∈ Finset.range w.size, Q k * R k i := by
  obtain ⟨e, he, hpos⟩ := hpos
  have hl := State.othersOf_pair (reach_sound h).healthy.inv.toCore v w
  obtain ⟨⟨sv, h1⟩, h2⟩ := State.marginals_pair h hord hsched hn hφ hsym hv hw hvw htv hl he hpos
  obtain ⟨⟨sw, h3⟩, _⟩ := State.marginals_pair h hord hsched hn hφ hsym hw hv hvw.symm htw hl.swap he hpos
  set M := State.pairMass (s.weight φ) ((s.hid.erase v).erase w) e v w with hM
  have hsw : ∀ k i, State.pairMass (s.weight φ) ((s.hid.erase v).erase w) e w v k i = M i k :=
    fun k i => State.pairMass_comm _ _ _ hvw.symm k i
  simp only [hsw] at h3
  set Z := ∑ i ∈ Finset.range v.size, ∑ k ∈ Finset.range w.size, M i k with hZ
  rw [Finset.sum_comm, ← hZ] at h3
  have hM0 : ∀ i < v.size, ∀ k < w.size, 0 ≤ M i k := fun i hi k hk => State.pairMass_nonneg hφ hl he hi hk
  refine ⟨_, _, fun k i => M i k / ∑ i ∈ Finset.range v.size, M i k, sv, sw, h1, h3, ?_, ?_⟩
  · intro k hk
    obtain ⟨t, g1, g2⟩ := h2 k hk
    exact ⟨t, g1, fun hq => g2 (fun h0 => hq (by rw [h0, zero_div]))⟩
  · intro i hi
    simp only
    rw [Finset.sum_div]
    refine Finset.sum_congr rfl (fun k hk => ?_)
    have hk : k < w.size := by simpa using hk
    by_cases h0 : ∑ i ∈ Finset.range v.size, M i k = 0
    · have := (Finset.sum_eq_zero_iff_of_nonneg (fun i hi => hM0 i (by simpa using hi) k hk)).mp h0 i (by simpa using hi)
      rw [this, h0]
      simp
    · rw [div_mul_div_comm, mul_comm Z, mul_div_mul_left _ _ h0]

/-- C68, the theorem of Bayes: the probability of `v = i` times that of `w = k` after the evidence `v = i` is the
probability of `w = k` times that of `v = i` after the evidence `w = k`. And if the library gives the joint
distribution of the two (`C34_joint_partial`), its image at `i` and `k` is proportional to them.

Missing: as in `C68_total_partial`; and the joint distribution of two variables of a cluster which no factor joins
(`C34_apart_violated`). -/
theorem C68_bayes_partial {s : State (Ext K)} (h : Reach (fun s op => Prudent s op ∧ Steady s op) s)
    {ord : List Var → List Var} (hord : ∀ l, (ord l).Perm l) {sched : Sched} (hsched : ∀ l, (sched l).Perm l)
    {n : Nat} (hn : 1 ≤ n) {φ : Nat → Assign → K} (hφ : s.Images φ) (hsym : s.Symmetric φ) {v w : Var}
    (hv : s.Hidden v) (hw : s.Hidden w) (hvw : v ≠ w) (htv : s.TreeAt v) (htw : s.TreeAt w)
    (hpos : ∃ e, s.Agrees e ∧ s.weight φ e ≠ 0) :
    ∃ (P Q : Nat → K) (R S : Nat → Nat → K) (sv sw : State (Ext K)),
      State.getMarginal ord sched v n s = .ok sv (((List.range v.size).map P).map Ext.val) ∧
      State.getMarginal ord sched w n s = .ok sw (((List.range w.size).map Q).map Ext.val) ∧
      (∀ k < w.size, ∃ t, State.setEvidence ord w k s = .ok t () ∧ (Q k ≠ 0 →
        ∃ t', State.getMarginal ord sched v n t = .ok t' (((List.range v.size).map (R k)).map Ext.val))) ∧
      (∀ i < v.size, ∃ t, State.setEvidence ord v i s = .ok t () ∧ (P i ≠ 0 →
        ∃ t', State.getMarginal ord sched w n t = .ok t' (((List.range w.size).map (S i)).map Ext.val))) ∧
      (∀ i < v.size, ∀ k < w.size, Q k * R k i = P i * S i k) ∧
      ∀ {sh : List State.Contribution → List State.Contribution}, (∀ l, (sh l).Perm l) → ∀ {g : Group},
        GroupReach g → g.group = [v, w] → s.Joined [v, w] → ∃ s' f, State.getJoint ord sh sched g n s = .ok s' f ∧
          ∃ C : K, 0 < C ∧ ∀ i < v.size, ∀ k < w.size, f.findTransformed [i, k] = .ok (.val (C * (Q k * R k i))) := by
  obtain ⟨e, he, hpos⟩ := hpos
  have hl := State.othersOf_pair (reach_sound h).healthy.inv.toCore v w
  obtain ⟨⟨sv, h1⟩, h2⟩ := State.marginals_pair h hord hsched hn hφ hsym hv hw hvw htv hl he hpos
  obtain ⟨⟨sw, h3⟩, h4⟩ := State.marginals_pair h hord hsched hn hφ hsym hw hv hvw.symm htw hl.swap he hpos
  set M := State.pairMass (s.weight φ) ((s.hid.erase v).erase w) e v w with hM
  have hsw : ∀ k i, State.pairMass (s.weight φ) ((s.hid.erase v).erase w) e w v k i = M i k :=
    fun k i => State.pairMass_comm _ _ _ hvw.symm k i
  simp only [hsw] at h3 h4
  set Z := ∑ i ∈ Finset.range v.size, ∑ k ∈ Finset.range w.size, M i k with hZ
  rw [Finset.sum_comm, ← hZ] at h3
  have hM0 : ∀ i < v.size, ∀ k < w.size, 0 ≤ M i k := fun i hi k hk => State.pairMass_nonneg hφ hl he hi hk
  have hQR : ∀ i < v.size, ∀ k < w.size, (∑ i ∈ Finset.range v.size, M i k) / Z *
      (M i k / ∑ i ∈ Finset.range v.size, M i k) = M i k / Z := by
    intro i hi k hk
    by_cases h0 : ∑ i ∈ Finset.range v.size, M i k = 0
    · have := (Finset.sum_eq_zero_iff_of_nonneg (fun i hi => hM0 i (by simpa using hi) k hk)).mp h0 i (by simpa using hi)
      rw [this, h0]
      simp
    · rw [div_mul_div_comm, mul_comm Z, mul_div_mul_left _ _ h0]
  have hPS : ∀ i < v.size, ∀ k < w.size, (∑ k ∈ Finset.range w.size, M i k) / Z *
      (M i k / ∑ k ∈ Finset.range w.size, M i k) = M i k / Z := by
    intro i hi k hk
    by_cases h0 : ∑ k ∈ Finset.range w.size, M i k = 0
    · have := (Finset.sum_eq_zero_iff_of_nonneg (fun k hk => hM0 i hi k (by simpa using hk))).mp h0 k (by simpa using hk)
      rw [this, h0]
      simp
    · rw [div_mul_div_comm, mul_comm Z, mul_div_mul_left _ _ h0]
  have hZ0 : 0 < Z := by
    have hiv := he.1 v hv.1
    have hiw := he.1 w hw.1
    have a1 := Finset.single_le_sum (f := fun k => M (e v) k) (fun k hk => hM0 _ hiv k (by simpa using hk))
      (by simpa using hiw : e w ∈ Finset.range w.size)
    have a2 := Finset.single_le_sum (f := fun i => ∑ k ∈ Finset.range w.size, M i k)
      (fun i hi => Finset.sum_nonneg (fun k hk => hM0 i (by simpa using hi) k (by simpa using hk)))
      (by simpa using hiv : e v ∈ Finset.range v.size)
    exact (State.pairMass_pos hφ hv hw hvw hl he hpos).trans_le (a1.trans a2)
  refine ⟨_, _, fun k i => M i k / ∑ i ∈ Finset.range v.size, M i k, fun i k => M i k / ∑ k ∈ Finset.range w.size, M i k,
    sv, sw, h1, h3, ?_, ?_, ?_, ?_⟩
  · intro k hk
    obtain ⟨t, g1, g2⟩ := h2 k hk
    exact ⟨t, g1, fun hq => g2 (fun h0 => hq (by rw [h0, zero_div]))⟩
  · intro i hi
    obtain ⟨t, g1, g2⟩ := h4 i hi
    exact ⟨t, g1, fun hq => g2 (fun h0 => hq (by rw [h0, zero_div]))⟩
  · intro i hi k hk
    simp only
    rw [hQR i hi k hk, hPS i hi k hk]
  · intro sh hsh g hg hgr hj
    obtain ⟨s', f, f1, f2, C, hC, f3⟩ := C34_joint_partial h hord hsh hsched hn hφ hsym hg (by rw [hgr]; simp) (by
        rw [hgr]
        simp only [List.mem_cons, List.not_mem_nil, or_false]
        rintro u (rfl | rfl)
        · exact hv.1
        · exact hw.1)
      (by
        rw [hgr]
        simp only [List.mem_cons, List.not_mem_nil, or_false]
        rintro u (rfl | rfl) _ _ ho
        · exact absurd ho hv.2
        · exact absurd ho hw.2)
      (by
        rw [hgr]
        simp only [List.mem_cons, List.not_mem_nil, or_false]
        rintro u (rfl | rfl) _
        · exact htv
        · exact htw)
      (by rw [hgr]; exact hj) (by rw [hgr]; exact hl) he ⟨e, he, hpos⟩
    refine ⟨s', f, f1, C * Z, mul_pos hC hZ0, fun i hi k hk => ?_⟩
    have := f3 (Function.update (Function.update e v i) w k) (by
      rw [hgr]
      simp only [InDom, List.mem_cons, List.not_mem_nil, or_false]
      rintro u (rfl | rfl)
      · rwa [Function.update_of_ne hvw, Function.update_self]
      · rwa [Function.update_self])
    rw [hgr] at this
    simp only [List.map_cons, List.map_nil, Function.update_self, Function.update_of_ne hvw] at this
    rw [this, hQR i hi k hk]
    congr 2
    rw [mul_assoc, mul_div_cancel₀ _ hZ0.ne']
    congr 1
    unfold State.jointMass
    rw [if_pos (by
      rintro ⟨u, j⟩ hu huG
      simp only [List.mem_cons, List.not_mem_nil, or_false] at huG
      rcases huG with rfl | rfl
      · exact absurd ⟨j, hu⟩ hv.2
      · exact absurd ⟨j, hu⟩ hw.2)]
    rw [hM]
    unfold State.pairMass
    congr 1
    funext u
    simp only [List.mem_cons, List.not_mem_nil, or_false]
    by_cases huw : u = w
    · rw [if_pos (Or.inr huw)]
    · by_cases huv : u = v
      · rw [if_pos (Or.inl huv)]
      · rw [if_neg (by tauto), Function.update_of_ne huw, Function.update_of_ne huv]

namespace Ex

/-- What the examples need to know about the path X - Y - Z. -/
theorem path_facts : Reach (fun s op => Prudent s op ∧ Steady s op) (after path) ∧
    (after path).Images phi ∧ (after path).Symmetric phi ∧ (∀ v ∈ [X, Y, Z], (after path).Hidden v) ∧
    (∀ v ∈ [X, Y, Z], (after path).TreeAt v) ∧ ∃ e, (after path).Agrees e ∧ (after path).weight phi e ≠ 0 := by
  have hv : (after path).vars = [X, Y, Z] := by decide +kernel
  have hh : (after path).heap = heapXYZ := rfl
  have hf : (after path).factors = [0, 1, 2] := by decide +kernel
  have he : (after path).evidences = [] := by decide +kernel
  refine ⟨path_reach, phi_images hh (by rw [hv, hf]; decide +kernel), phi_symmetric hh (by rw [hf]; decide +kernel),
    fun v h => ⟨by rw [hv]; exact h, by rw [State.Observes, he]; simp⟩, ?_, zeros,
    zeros_agrees (by rw [hv]; decide) (by rw [he]; decide), by unfold State.weight; rw [hf]; decide +kernel⟩
  intro v h u hu
  refine path_noCycle u ?_
  have : u ∈ (after path).vars := by
    cases hu with
    | refl => rw [hv]; exact h
    | tail _ h => exact h.2.1.1
  rw [hv] at this
  exact this

/-- The marginal which the library gives. -/
def marginalOf [Arith (Ext ℚ)] (v : Var) (s : State (Ext ℚ)) : Option (List (Ext ℚ)) :=
  match State.getMarginal rev id v 1 s with
  | .ok _ l => some l
  | _ => none

/-- The marginal which the library gives after an evidence. -/
def marginalGiven [Arith (Ext ℚ)] (w : Var) (k : Nat) (v : Var) (s : State (Ext ℚ)) : Option (List (Ext ℚ)) :=
  match State.setEvidence rev w k s with
  | .ok t _ => marginalOf v t
  | _ => none

end Ex

/-- The path X - Y - Z: the marginal of X from those given Z = 0 and Z = 1. -/
example : ∃ (P Q : Nat → ℚ) (R : Nat → Nat → ℚ) (sv sw : State (Ext ℚ)),
    State.getMarginal Ex.rev List.reverse Ex.X 2 (Ex.after Ex.path) = .ok sv [.val (P 0), .val (P 1)] ∧
    State.getMarginal Ex.rev List.reverse Ex.Z 2 (Ex.after Ex.path) = .ok sw [.val (Q 0), .val (Q 1)] ∧
    P 0 = Q 0 * R 0 0 + Q 1 * R 1 0 := by
  obtain ⟨h1, h2, h3, h4, h5, h6⟩ := Ex.path_facts
  obtain ⟨P, Q, R, sv, sw, g1, g2, _, g4⟩ := C68_total_partial h1 Ex.rev_perm (sched := List.reverse)
    (fun l => List.reverse_perm l) (n := 2) (by omega) h2 h3 (h4 Ex.X (by simp)) (h4 Ex.Z (by simp)) (by decide)
    (h5 Ex.X (by simp)) (h5 Ex.Z (by simp)) h6
  refine ⟨P, Q, R, sv, sw, g1, g2, ?_⟩
  rw [g4 0 (by decide), show Ex.Z.size = 2 from rfl, Finset.sum_range_succ, Finset.sum_range_one]

/-- The path X - Y - Z: the theorem of Bayes for X and Y, and their joint distribution. -/
example : ∃ (P Q : Nat → ℚ) (R S : Nat → Nat → ℚ), (∀ i < 2, ∀ k < 2, Q k * R k i = P i * S i k) ∧
    ∃ s' f, State.getJoint Ex.rev id id (Ex.pair Ex.X Ex.Y) 1 (Ex.after Ex.path) = .ok s' f ∧ ∃ C : ℚ, 0 < C ∧
      ∀ i < 2, ∀ k < 2, f.findTransformed [i, k] = .ok (.val (C * (Q k * R k i))) := by
  obtain ⟨h1, h2, h3, h4, h5, h6⟩ := Ex.path_facts
  obtain ⟨P, Q, R, S, sv, sw, _, _, _, _, g5, g6⟩ := C68_bayes_partial h1 Ex.rev_perm (sched := id)
    (fun l => .refl l) (n := 1) (by omega) h2 h3 (h4 Ex.X (by simp)) (h4 Ex.Y (by simp)) (by decide)
    (h5 Ex.X (by simp)) (h5 Ex.Y (by simp)) h6
  refine ⟨P, Q, R, S, g5, g6 (sh := id) (fun l => .refl l) (g := Ex.pair Ex.X Ex.Y)
    (.soup (vars := [Ex.X, Ex.Y]) (by decide)) rfl ?_⟩
  have hj : (Ex.after Ex.path).Joins Ex.X Ex.Y := by
    have hf : (Ex.after Ex.path).factors = [0, 1, 2] := by decide +kernel
    refine Ex.joins_of 1 (by rw [hf]; simp) ?_
    decide +kernel
  have hx := h4 Ex.X (by simp)
  have hy := h4 Ex.Y (by simp)
  generalize Ex.after Ex.path = s at *
  have hj' : s.Joins Ex.Y Ex.X := hj.imp (fun _ h => h.symm)
  intro u hu w hw _
  simp only [List.mem_cons, List.not_mem_nil, or_false] at hu hw
  rcases hu with rfl | rfl <;> rcases hw with rfl | rfl
  · exact .refl
  · exact .single ⟨by simp, by simp, hx, hy, hj⟩
  · exact .single ⟨by simp, by simp, hy, hx, hj'⟩
  · exact .refl

/-- C68 is violated by a factor which is not symmetric, since the library reads it transposed as long as both of its
variables are hidden, and as it is when one of them is observed: with only the factor of X and Y whose images are 1, 2,
3, 4, the marginal of X is 2/5, 3/5, and the average of those given Y is 37/120, 83/120. -/
theorem C68_violated : ∃ s : State (Ext ℚ), Reach (fun s op => Prudent s op ∧ Steady s op) s ∧ s.Images Ex.phi ∧
    s.Hidden Ex.X ∧ s.Hidden Ex.Y ∧
    Ex.marginalOf Ex.X s = some [.val (2 / 5), .val (3 / 5)] ∧ Ex.marginalOf Ex.Y s = some [.val (3 / 10), .val (7 / 10)] ∧
    Ex.marginalGiven Ex.Y 0 Ex.X s = some [.val (1 / 4), .val (3 / 4)] ∧
    Ex.marginalGiven Ex.Y 1 Ex.X s = some [.val (1 / 3), .val (2 / 3)] ∧
    (2 / 5 : ℚ) ≠ 3 / 10 * (1 / 4) + 7 / 10 * (1 / 3) := by
  have hv : (Ex.after [.add 4]).vars = [Ex.X, Ex.Y] := by decide +kernel
  have hh : (Ex.after [.add 4]).heap = Ex.heapXYZ := rfl
  have hf : (Ex.after [.add 4]).factors = [4] := by decide +kernel
  have he : (Ex.after [.add 4]).evidences = [] := by decide +kernel
  exact ⟨Ex.after [.add 4], Ex.after_steady _ (by decide +kernel),
    Ex.phi_images hh (by rw [hv, hf]; decide +kernel), ⟨by rw [hv]; simp, by rw [State.Observes, he]; simp⟩,
    ⟨by rw [hv]; simp, by rw [State.Observes, he]; simp⟩, by decide +kernel, by decide +kernel, by decide +kernel,
    by decide +kernel, by norm_num⟩

end EFG
