import Verif.Spec.Scale
import Verif.Lemmas.ScaleRun
import Verif.Lemmas.Component
/-
Two models built in the same way with proportional factors satisfy the hypotheses of `checkPropagation_like`.
-/

set_option linter.unusedSectionVars false

namespace EFG
namespace State

section lawfree
variable {F : Type} [Arith F]

theorem SameGraph.una {s t : State F} (h : SameGraph s t) (v : Var) : t.una v = s.una v := by
  have := h.nodes v
  unfold State.una
  cases hs : s.node? v <;> cases ht : t.node? v <;> rw [hs, ht] at this <;> simp [Node.skeleton] at this ⊢
  exact this.1

theorem SameGraph.active {s t : State F} (h : SameGraph s t) (v : Var) : links (t.activeOf v) = links (s.activeOf v) := by
  have := h.nodes v
  unfold State.activeOf
  cases hs : s.node? v <;> cases ht : t.node? v <;> rw [hs, ht] at this <;> simp [Node.skeleton] at this ⊢
  exact this.2.1

theorem SameGraph.disabled {s t : State F} (h : SameGraph s t) (v : Var) :
    links (t.disabledOf v) = links (s.disabledOf v) := by
  have := h.nodes v
  unfold State.disabledOf
  cases hs : s.node? v <;> cases ht : t.node? v <;> rw [hs, ht] at this <;> simp [Node.skeleton] at this ⊢
  exact this.2.2

theorem SameGraph.lnk {s t : State F} (h : SameGraph s t) (u v : Var) : t.lnk u v = s.lnk u v := by
  have h1 : (t.act u v).map Conn.factor = (s.act u v).map Conn.factor := by
    unfold act; rw [← find?_links, ← find?_links, h.active]
  have h2 : (t.dis u v).map Conn.factor = (s.dis u v).map Conn.factor := by
    unfold dis; rw [← find?_links, ← find?_links, h.disabled]
  unfold State.lnk
  cases e1 : s.act u v <;> cases e2 : t.act u v <;> rw [e1, e2] at h1 <;> simp at h1 ⊢
  · exact h2
  · exact h1

theorem SameGraph.obs {s t : State F} (h : SameGraph s t) : t.obs = s.obs := by unfold State.obs; rw [h.evidences]

theorem SameGraph.hid {s t : State F} (h : SameGraph s t) : t.hid = s.hid := by unfold State.hid; rw [h.vars, h.obs]

/-- The variables of the cluster of a variable are those linked to it. -/
theorem Inv.cluster_linked {s : State F} (hs : Inv s) {i : Nat} {c : Cluster} (hc : s.clusters[i]? = some c) {u v : Var}
    (hu : u ∈ c.nodes) (hv : v ∈ c.nodes) : s.Linked v u := by
  rw [hs.toCore.linked_iff]
  exact hs.parts.conn c.nodes (List.mem_map.mpr ⟨c, List.mem_of_getElem? hc, rfl⟩) v hv u hu

end lawfree

variable {K : Type} [Field K] [LinearOrder K] [IsStrictOrderedRing K] [FloatParams K]

/-- A product of proportional terms. -/
theorem prod_scaled {β : Type} (l : List β) (n : Nat) (f g : β → Nat → K)
    (h : ∀ p ∈ l, ∃ c : K, 0 < c ∧ ∀ i < n, g p i = c * f p i) :
    ∃ c : K, 0 < c ∧ ∀ i < n, (l.map (fun p => g p i)).prod = c * (l.map (fun p => f p i)).prod := by
  induction l with
  | nil => exact ⟨1, one_pos, fun i _ => by simp⟩
  | cons p l ih =>
    obtain ⟨c, hc, h1⟩ := h p (by simp)
    obtain ⟨d, hd, h2⟩ := ih (fun q hq => h q (by simp [hq]))
    refine ⟨c * d, mul_pos hc hd, fun i hi => ?_⟩
    simp only [List.map_cons, List.prod_cons]
    rw [h1 i hi, h2 i hi]
    ring

/-- An assignment in range with two chosen values. -/
theorem Core.choose {s : State (Ext K)} (hs : Core s) {u w : Var} (hne : u ≠ w) {i j : Nat} (hi : i < u.size)
    (hj : j < w.size) : ∃ a : Assign, s.InRange a ∧ a u = i ∧ a w = j := by
  refine ⟨fun z => if z = u then i else if z = w then j else 0, ?_, by simp, by simp [hne.symm]⟩
  intro z hz
  by_cases h1 : z = u
  · simp only [h1, if_true]; exact hi
  · by_cases h2 : z = w
    · simp only [h2, hne.symm, if_true, if_false]; exact hj
    · simp only [h1, h2, if_false]; exact hs.posV z hz

/-- Two models built in the same way, with proportional factors in a cluster. -/
theorem SameGraph.likeOn {kind : Kind} {s t : State (Ext K)} (hg : SameGraph s t) (hs : Inv s) (ht : Inv t) {φ ψ : Nat → Assign → K}
    (hφ : s.Images φ) (hψ : t.Images ψ) {i : Nat} {c : Cluster} (hc : s.clusters[i]? = some c) {v : Var} (hv : v ∈ c.nodes)
    (hsc : s.ScaledAt v φ ψ) (hj : kind = .map → s.JoinsAbove FloatParams.minK v φ ψ) : LikeOn kind c.nodes s t := by
  have hhid : ∀ u ∈ c.nodes, s.Hidden u := fun u hu => hidden_iff.mpr (mem_hid.mpr (hs.cluster_mem hc hu))
  have hr : ∀ a, s.InRange a → t.InRange a := fun a h => by unfold InRange; rw [hg.vars]; exact h
  have hnum := hφ.numeric hs.toCore
  have hnumt := hψ.numeric ht.toCore
  -- the factors which join a variable of the cluster to another one
  have hbin : ∀ u ∈ c.nodes, ∀ w, ∃ d : K, 0 < d ∧ ∀ i < u.size, ∀ j < w.size, t.imgB u w i j = d * s.imgB u w i j := by
    intro u hu w
    cases hl : s.lnk u w with
    | none =>
      refine ⟨1, one_pos, fun i _ j _ => ?_⟩
      unfold imgB
      rw [hg.lnk, hl, one_mul]
    | some p =>
      obtain ⟨h1, f, hf, hb⟩ := hs.toCore.link u w p hl
      have hin : s.InCluster v p := by
        refine ⟨_, u, ⟨h1, f, hf, rfl⟩, ?_, hhid u hu, hs.cluster_linked hc hu hv⟩
        rcases hb.vars with h | h <;> rw [h] <;> simp
      obtain ⟨d, hd, h2⟩ := hsc p hin
      refine ⟨d, hd, fun i hi j hj => ?_⟩
      obtain ⟨a, ha, rfl, rfl⟩ := hs.toCore.choose hb.ne hi hj
      rw [← hψ.bin ht.toCore (by rw [hg.lnk]; exact hl) (hr a ha), ← hφ.bin hs.toCore hl ha]
      exact h2 a ha
  refine ⟨hg.active, hg.lnk, hg.maxIter, ?_, ?_⟩
  · intro u hu
    obtain ⟨d, hd, h1⟩ := prod_scaled (s.una u) u.size (fun p i => s.imgU p i) (fun p i => t.imgU p i) (by
      intro p hp
      obtain ⟨h1, h2, f, hf, hun⟩ := hs.toCore.unary u p hp
      obtain ⟨d, hd, h3⟩ := hsc p ⟨[u], u, ⟨h1, f, hf, hun.vars⟩, by simp, hhid u hu, hs.cluster_linked hc hu hv⟩
      refine ⟨d, hd, fun i hi => ?_⟩
      have ha : s.InRange (fun z => if z = u then i else 0) := by
        intro z hz
        by_cases e : z = u
        · simp only [e, if_true]; exact hi
        · simp only [e, if_false]; exact hs.toCore.posV z hz
      have e1 := hφ.una hs.toCore hp ha
      have e2 := hψ.una ht.toCore (u := u) (by rw [hg.una]; exact hp) (hr _ ha)
      simp only [if_true] at e1 e2
      rw [← e1, ← e2]
      exact h3 _ ha)
    obtain ⟨d', hd', h2⟩ := prod_scaled s.obs u.size (fun w i => s.imgB u w i (s.ev w)) (fun w i => t.imgB u w i (s.ev w)) (by
      intro w hw
      obtain ⟨d, hd, h3⟩ := hbin u hu w
      exact ⟨d, hd, fun i hi => h3 i hi _ (hs.toCore.ev_lt hw)⟩)
    refine ⟨d * d', mul_pos hd hd', fun i hi => ?_⟩
    have hev : ∀ w, t.ev w = s.ev w := fun w => by unfold ev; rw [hg.evidences]
    unfold psiK
    rw [hg.una, hg.obs]
    simp only [hev]
    rw [h1 i hi, h2 i hi]
    ring
  · intro u hu w hw p b b' hl hb hb'
    have hl' : t.lnk u w = some p := by rw [hg.lnk]; exact hl
    obtain ⟨h1, f, hf, hbi⟩ := hs.toCore.link u w p hl
    have key : ∃ d : K, 0 < d ∧ (kind = .map → d = 1 ∨ ∀ i < u.size, ∀ j < w.size, FloatParams.minK ≤ s.imgB u w i j ∧
        FloatParams.minK ≤ d * s.imgB u w i j) ∧ ∀ i < u.size, ∀ j < w.size, t.imgB u w i j = d * s.imgB u w i j := by
      obtain ⟨d, hd, hd1⟩ := hbin u hu w
      cases kind with
      | sum => exact ⟨d, hd, (by rintro ⟨⟩), hd1⟩
      | map =>
        have hcase : (∀ a, s.InRange a → ψ p a = φ p a) ∨
            ∀ a, s.InRange a → FloatParams.minK ≤ φ p a ∧ FloatParams.minK ≤ ψ p a := by
          rcases hbi.vars with h | h
          · exact hj rfl p u w ⟨h1, f, hf, h⟩ (hhid u hu) (hhid w hw) (hs.cluster_linked hc hu hv)
          · exact hj rfl p w u ⟨h1, f, hf, h⟩ (hhid w hw) (hhid u hu) (hs.cluster_linked hc hw hv)
        rcases hcase with heq | hab
        · refine ⟨1, one_pos, fun _ => Or.inl rfl, fun i hi j hj' => ?_⟩
          obtain ⟨a, ha, rfl, rfl⟩ := hs.toCore.choose hbi.ne hi hj'
          rw [one_mul, ← hψ.bin ht.toCore hl' (hr a ha), ← hφ.bin hs.toCore hl ha]
          exact heq a ha
        · refine ⟨d, hd, fun _ => Or.inr fun i hi j hj' => ?_, hd1⟩
          rw [← hd1 i hi j hj']
          obtain ⟨a, ha, rfl, rfl⟩ := hs.toCore.choose hbi.ne hi hj'
          rw [← hψ.bin ht.toCore hl' (hr a ha), ← hφ.bin hs.toCore hl ha]
          exact hab a ha
    have hsv : ∀ i < u.size, ∀ j < w.size, Fn.bimg u b i j = .val (s.imgB u w i j) := by
      intro i hi j hj
      unfold imgB
      rw [hl]
      simp only [hb]
      obtain ⟨e1, _⟩ := hnum.bin u w p b hl hb i hi j hj
      cases h : Fn.bimg u b i j with
      | val x => rfl
      | nan => rw [h] at e1; exact (e1 rfl).elim
    have htv : ∀ i < u.size, ∀ j < w.size, Fn.bimg u b' i j = .val (t.imgB u w i j) := by
      intro i hi j hj
      unfold imgB
      rw [hl']
      simp only [hb']
      obtain ⟨e1, _⟩ := hnumt.bin u w p b' hl' hb' i hi j hj
      cases h : Fn.bimg u b' i j with
      | val x => rfl
      | nan => rw [h] at e1; exact (e1 rfl).elim
    obtain ⟨d, hd, hd1, h2⟩ := key
    refine ⟨d, hd, fun h => (hd1 h).imp id (fun k i hi j hj => ⟨_, hsv i hi j hj, k i hi j hj⟩), fun i hi j hj => ?_⟩
    rw [hsv i hi j hj, htv i hi j hj, h2 i hi j hj]
    rfl

/-- What is read after the propagation in two models built in the same way, with proportional factors in the cluster. -/
theorem SameGraph.read {kind : Kind} {ord : List Var → List Var} (hord : ∀ l, (ord l).Perm l) {sched : Sched}
    (hsched : ∀ l, (sched l).Perm l) {n : Nat} (hn : 1 ≤ n) {s t : State (Ext K)} (hg : SameGraph s t) (hs : Sound True s)
    (ht : Sound True t) {φ ψ : Nat → Assign → K} (hφ : s.Images φ) (hψ : t.Images ψ)
    (hws : s.wouldNeedPropagation kind = true) (hwt : t.wouldNeedPropagation kind = true) {v w : Var} (hv : s.Hidden v)
    (he : v.eqv w = true) (hsc : s.ScaledAt v φ ψ) (hj : kind = .map → s.JoinsAbove FloatParams.minK v φ ψ) :
    ∃ s' t' ps, checkPropagation ord sched kind n s = .ok s' () ∧ checkPropagation ord sched kind n t = .ok t' () ∧
      readMarginal ord w s' = .ok ps ∧ readMarginal ord w t' = .ok ps := by
  have hi := hs.healthy.inv
  have hit := ht.healthy.inv
  have hvh := hidden_iff.mp hv
  obtain ⟨i, c, hc, hvc⟩ := hi.cluster_of hvh
  obtain ⟨s', t', ts, e1, e2, hp⟩ := checkPropagation_like hord hsched hn hs ht (hφ.numeric hi.toCore)
    (hψ.numeric hit.toCore) hws hwt hg.clusters hc (hg.likeOn hi hit hφ hψ hc hvc hsc hj)
  obtain ⟨_, r, f1, f2, f3, f5, _, _⟩ := checkPropagation_run hord kind hsched hs.healthy hn hws
  obtain ⟨_, r', g1, g2, g3, g5, _, _⟩ := checkPropagation_run hord kind hsched ht.healthy hn hwt
  rw [e1] at f1
  cases f1
  rw [e2] at g1
  cases g1
  have fa := f3.alive (by rw [f5]; rfl)
  have ga := g3.alive (by rw [g5]; rfl)
  have hvs : v ∈ s'.hid := by rw [f2.toQuiet.hid]; exact hvh
  have hvt : v ∈ t'.hid := by rw [g2.toQuiet.hid, hg.hid]; exact hvh
  obtain ⟨_, _, _, ps, _, _, _, _, _, _, _, _, hb⟩ := belief_ok hord f3.inv fa hvs
  have hbt := hp.belief hord f3.inv g3.inv fa ga hvc hvs hvt
  exact ⟨s', t', ps, e1, e2, by rw [f3.inv.readMarginal_hidden hvs he, hb], by rw [g3.inv.readMarginal_hidden hvt he, hbt, hb]⟩

/-- The marginal query in two models built in the same way, with proportional factors in the cluster. -/
theorem SameGraph.getMarginal {ord : List Var → List Var} (hord : ∀ l, (ord l).Perm l) {sched : Sched}
    (hsched : ∀ l, (sched l).Perm l) {n : Nat} (hn : 1 ≤ n) {s t : State (Ext K)} (hg : SameGraph s t) (hs : Sound True s)
    (ht : Sound True t) {φ ψ : Nat → Assign → K} (hφ : s.Images φ) (hψ : t.Images ψ)
    (hws : s.wouldNeedPropagation .sum = true) (hwt : t.wouldNeedPropagation .sum = true) {v w : Var} (hv : s.Hidden v)
    (he : v.eqv w = true) (hsc : s.ScaledAt v φ ψ) :
    ∃ s' t' ps, State.getMarginal ord sched w n s = .ok s' ps ∧ State.getMarginal ord sched w n t = .ok t' ps := by
  obtain ⟨s', t', ps, e1, e2, e3, e4⟩ := hg.read hord hsched hn hs ht hφ hψ hws hwt hv he hsc (by rintro ⟨⟩)
  refine ⟨s', t', ps, ?_, ?_⟩
  · unfold State.getMarginal
    rw [marginalQuery_eq]
    unfold asks lift
    rw [e1]
    simp only [e3]
  · unfold State.getMarginal
    rw [marginalQuery_eq]
    unfold asks lift
    rw [e2]
    simp only [e4]

/-- The MAP query in two models built in the same way. -/
theorem SameGraph.getMAP {ord : List Var → List Var} (hord : ∀ l, (ord l).Perm l) {sched : Sched}
    (hsched : ∀ l, (sched l).Perm l) {n : Nat} (hn : 1 ≤ n) {s t : State (Ext K)} (hg : SameGraph s t) (hs : Sound True s)
    (ht : Sound True t) {φ ψ : Nat → Assign → K} (hφ : s.Images φ) (hψ : t.Images ψ)
    (hws : s.wouldNeedPropagation .map = true) (hwt : t.wouldNeedPropagation .map = true) {v w : Var} (hv : s.Hidden v)
    (he : v.eqv w = true) (hsc : s.ScaledAt v φ ψ) (hj : s.JoinsAbove FloatParams.minK v φ ψ) :
    ∃ s' t' k, State.getMAP ord sched w n s = .ok s' k ∧ State.getMAP ord sched w n t = .ok t' k := by
  obtain ⟨s', t', ps, e1, e2, e3, e4⟩ := hg.read hord hsched hn hs ht hφ hψ hws hwt hv he hsc (fun _ => hj)
  obtain ⟨s1, k, _, h1, _⟩ := getMAP_ok hord hsched hs.healthy hn hv.1 he
  have h2 : State.getMAP ord sched w n s = State.lift (readMAP ord w) s' := by
    rw [getMAP_eq]; unfold asks; rw [e1]
  have h3 : State.getMAP ord sched w n t = State.lift (readMAP ord w) t' := by
    rw [getMAP_eq]; unfold asks; rw [e2]
  have hr : readMAP ord w t' = readMAP ord w s' := by unfold readMAP; rw [e3, e4]
  rw [h2] at h1
  unfold State.lift at h1 h3
  rw [hr] at h3
  cases hk : readMAP ord w s' with
  | ok k' =>
    rw [hk] at h1 h3
    cases h1
    exact ⟨s', t', k, by rw [h2]; unfold State.lift; rw [hk], h3⟩
  | throw => rw [hk] at h1; cases h1
  | ub => rw [hk] at h1; cases h1

/-- The values of all the hidden variables in two models built in the same way. -/
theorem SameGraph.getHiddenSetMAP {ord : List Var → List Var} (hord : ∀ l, (ord l).Perm l) {sched : Sched}
    (hsched : ∀ l, (sched l).Perm l) {n : Nat} (hn : 1 ≤ n) {s t : State (Ext K)} (hg : SameGraph s t) (hs : Sound True s)
    (ht : Sound True t) {φ ψ : Nat → Assign → K} (hφ : s.Images φ) (hψ : t.Images ψ)
    (hws : s.wouldNeedPropagation .map = true) (hwt : t.wouldNeedPropagation .map = true)
    (hsc : ∀ v, s.Hidden v → s.ScaledAt v φ ψ ∧ s.JoinsAbove FloatParams.minK v φ ψ) :
    ∃ s' t' ks, State.getHiddenSetMAP ord sched n s = .ok s' ks ∧ State.getHiddenSetMAP ord sched n t = .ok t' ks := by
  obtain ⟨s', r, f1, f2, f3, f5, _, _⟩ := checkPropagation_run hord .map hsched hs.healthy hn hws
  obtain ⟨t', r', g1, g2, g3, g5, _, _⟩ := checkPropagation_run hord .map hsched ht.healthy hn hwt
  have hhv : t'.hiddenVariables = s'.hiddenVariables := by
    rw [f3.inv.hiddenVariables, g3.inv.hiddenVariables, List.flatMap_def, List.flatMap_def, f2.toQuiet.clusters,
      g2.toQuiet.clusters, hg.clusters]
  have fa := f3.alive (by rw [f5]; rfl)
  have hall : ∀ v ∈ ord s'.hiddenVariables, ∃ k, mapOf ord s' v = .ok k ∧ mapOf ord t' v = .ok k := by
    intro v hv
    rw [(hord _).mem_iff, f3.inv.mem_hiddenVariables, f2.toQuiet.hiddenS] at hv
    obtain ⟨s1, t1, ps, e1, e2, e3, e4⟩ := hg.read hord hsched hn hs ht hφ hψ hws hwt hv (Var.eqv_refl v) (hsc v hv).1
      (fun _ => (hsc v hv).2)
    rw [f1] at e1
    cases e1
    rw [g1] at e2
    cases e2
    have hvs : v ∈ s'.hid := by rw [f2.toQuiet.hid]; exact hidden_iff.mp hv
    have hvt : v ∈ t'.hid := by rw [g2.toQuiet.hid, hg.hid]; exact hidden_iff.mp hv
    rw [f3.inv.readMarginal_hidden hvs (Var.eqv_refl v)] at e3
    rw [g3.inv.readMarginal_hidden hvt (Var.eqv_refl v)] at e4
    obtain ⟨_, _, _, ps', _, _, _, _, _, _, _, h1, h2⟩ := belief_ok hord f3.inv fa hvs
    rw [e3] at h2
    cases h2
    have hpos := f3.inv.posV v (mem_hid.mp hvs).1
    obtain ⟨k, h3, _⟩ := findMax_ok (l := ps) (by omega)
    refine ⟨k, ?_, ?_⟩
    · unfold mapOf
      rw [f3.inv.net.nodeKey?_mem (mem_hid.mp hvs).1]
      simp only [e3, h3]
    · unfold mapOf
      rw [g3.inv.net.nodeKey?_mem (mem_hid.mp hvt).1]
      simp only [e4, h3]
  have key : ∀ l : List Var, (∀ v ∈ l, ∃ k, mapOf ord s' v = .ok k ∧ mapOf ord t' v = .ok k) →
      ∃ ks, Res.mapList (mapOf ord s') l = .ok ks ∧ Res.mapList (mapOf ord t') l = .ok ks := by
    intro l hl
    choose! k h1 h2 using hl
    exact ⟨l.map k, Res.mapList_ok h1, Res.mapList_ok h2⟩
  obtain ⟨ks, h1, h2⟩ := key _ hall
  refine ⟨s', t', ks, ?_, ?_⟩
  · rw [getHiddenSetMAP_eq]; unfold asks lift; rw [f1]; simp only [h1]
  · rw [getHiddenSetMAP_eq]; unfold asks lift; rw [g1]; simp only [hhv, h2]

end State
end EFG
