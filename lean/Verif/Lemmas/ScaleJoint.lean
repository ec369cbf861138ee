import Verif.Lemmas.ScaleGraph
import Verif.Lemmas.Joint
import Verif.Lemmas.Positive
/-
The joint distributions of two models built in the same way with proportional positive factors.
-/

set_option linter.unusedSectionVars false

namespace EFG
namespace State

section lawfree
variable {F : Type} [Arith F]

theorem edges_congr {s t : State F} (h : ∀ u v, t.lnk u v = s.lnk u v) (V : List Var) : t.edges V = s.edges V := by
  induction V with
  | nil => rfl
  | cons u V ih => rw [edges, edges, ih, show t.lnk u = s.lnk u from funext (h u)]

end lawfree

variable {K : Type} [Field K] [LinearOrder K] [IsStrictOrderedRing K] [FloatParams K]

/-- A product of proportional terms, over assignments. -/
theorem prod_scaledOn {β : Type} (P : Assign → Prop) (l : List β) (f g : Assign → β → K)
    (h : ∀ p ∈ l, ∃ c : K, 0 < c ∧ ∀ a, P a → g a p = c * f a p) :
    ∃ c : K, 0 < c ∧ ∀ a, P a → (l.map (g a)).prod = c * (l.map (f a)).prod := by
  induction l with
  | nil => exact ⟨1, one_pos, fun a _ => by simp⟩
  | cons p l ih =>
    obtain ⟨c, hc, h1⟩ := h p (by simp)
    obtain ⟨d, hd, h2⟩ := ih (fun q hq => h q (by simp [hq]))
    refine ⟨c * d, mul_pos hc hd, fun a ha => ?_⟩
    simp only [List.map_cons, List.prod_cons]
    rw [h1 a ha, h2 a ha]
    ring

theorem contribList_congr {s t : State (Ext K)} (ho : t.obs = s.obs) (he : t.evidences = s.evidences)
    (hl : ∀ u v, t.lnk u v = s.lnk u v) (hk : ∀ v, AMap.keys (t.activeOf v) = AMap.keys (s.activeOf v)) (G : List Var) :
    t.contribList G = s.contribList G := by
  have hev : ∀ w, t.ev w = s.ev w := fun w => by unfold ev; rw [he]
  unfold contribList
  rw [ho, edges_congr hl]
  simp only [hk, hev]

/-- A joining factor, at an assignment. -/
theorem Core.imgF_eq {s : State (Ext K)} (hs : Core s) {u w : Var} {p : Nat} (hl : s.lnk u w = some p) (a : Assign) :
    s.imgF p a = s.imgB u w (a u) (a w) := by
  obtain ⟨_, f, hf, hb⟩ := hs.link u w p hl
  unfold imgF imgB
  rw [hl]
  simp only [hf]
  rw [hb.bimg_map]

/-- The values of the messages. -/
noncomputable def msgVal (s : State (Ext K)) (w v : Var) (j : Nat) : {x : K // 0 ≤ x} :=
  match s.msg v w with
  | some m => ⟨max 0 (m.timg [j]).toK, le_max_left _ _⟩
  | none => 0

theorem msgVal_eq {s : State (Ext K)} {w v : Var} {m : Fn (Ext K)} (hm : s.msg v w = some m) (hp : m.PosOn v) {j : Nat}
    (hj : j < v.size) : m.timg [j] = .val (s.msgVal w v j).1 := by
  obtain ⟨h1, h2⟩ := hp j hj
  unfold msgVal
  rw [hm]
  simp only
  rw [max_eq_right h2.le]
  exact h1.eq

/-- A group with at most one observed variable. -/
theorem oneObserved {s : State (Ext K)} {G : Group} (hgw : G.WF)
    (hobs : ∀ u ∈ G.group, ∀ v ∈ G.group, s.Observes u → s.Observes v → u = v) :
    (G.group.filter (fun v => v ∈ s.obs)).length ≤ 1 := by
  by_contra hlt
  have hnd : (G.group.filter (fun v => v ∈ s.obs)).Nodup := hgw.distinct.nodup.filter _
  match hf : G.group.filter (fun v => v ∈ s.obs) with
  | [] => rw [hf] at hlt; simp at hlt
  | [_] => rw [hf] at hlt; simp at hlt
  | u :: v :: _ =>
    have hu : u ∈ G.group.filter (fun v => v ∈ s.obs) := by rw [hf]; simp
    have hv : v ∈ G.group.filter (fun v => v ∈ s.obs) := by rw [hf]; simp
    simp only [List.mem_filter, decide_eq_true_eq] at hu hv
    have := hobs u hu.1 v hv.1 (observes_iff.mpr hu.2) (observes_iff.mpr hv.2)
    rw [hf, this] at hnd
    simp at hnd

/-- The joint distributions in two models built in the same way. -/
theorem SameGraph.getJoint {ord : List Var → List Var} (hord : ∀ l, (ord l).Perm l)
    {sh : List Contribution → List Contribution} (hsh : ∀ l, (sh l).Perm l) {sched : Sched}
    (hsched : ∀ l, (sched l).Perm l) {n : Nat} (hn : 1 ≤ n) {s t : State (Ext K)} (hg : SameGraph s t) (hs : Sound True s)
    (ht : Sound True t) {φ ψ : Nat → Assign → K} (hφ : s.Images φ) (hψ : t.Images ψ)
    (hws : s.wouldNeedPropagation .sum = true) (hwt : t.wouldNeedPropagation .sum = true)
    (hpos : ∀ p ∈ s.factors, ∀ a, s.InRange a → 0 < φ p a) {G : Group} (hG : G.WF) (hne : G.group ≠ [])
    (hsub : ∀ v ∈ G.group, v ∈ s.vars) (hob : (G.group.filter (fun v => v ∈ s.obs)).length ≤ 1)
    (hsc : ∀ v ∈ G.group, s.Hidden v → s.ScaledAt v φ ψ) :
    ∃ s' t' f g C, State.getJoint ord sh sched G n s = .ok s' f ∧ State.getJoint ord sh sched G n t = .ok t' g ∧
      f.vars = G ∧ g.vars = G ∧ 0 < C ∧ ∀ a, InDom G.group a → ∃ x : K,
        f.findTransformed (G.group.map a) = .ok (.val x) ∧ g.findTransformed (G.group.map a) = .ok (.val (C * x)) := by
  have hi := hs.healthy.inv
  have hit := ht.healthy.inv
  have hP : s.AllPositive := hφ.valued hi.toCore hpos
  obtain ⟨s', r, f1, f2, f3, f4, _, _, fa, _, fm⟩ := checkPropagation_positive hord .sum hsched hs hn hws hP
  obtain ⟨_, _, x1, _, x3, _, _⟩ := checkPropagation_sound hord .sum hsched hs hn
  rw [f1] at x1
  cases x1
  obtain ⟨t', r', g1, g2, g3, g4, _⟩ := checkPropagation_sound hord .sum hsched ht hn
  have fF := x3.faithful trivial
  have gF := g3.faithful trivial
  have gH := g3.healthy
  have ga := (gF.fresh r' g4).alive gH.inv
  have hPs' := hP.quiet f2.toQuiet
  -- the two propagated models, in the cluster of a hidden variable of the group
  have hprop : ∀ v ∈ G.group, v ∈ s'.hid → ∃ nodes ts, v ∈ nodes ∧ Proportional .sum nodes ts s' t' := by
    intro v hv hh
    rw [f2.toQuiet.hid] at hh
    obtain ⟨i, c, hc, hvc⟩ := hi.cluster_of hh
    obtain ⟨_, _, ts, e1, e2, hp⟩ := checkPropagation_like hord hsched hn hs ht (hφ.numeric hi.toCore)
      (hψ.numeric hit.toCore) hws hwt hg.clusters hc
      (hg.likeOn hi hit hφ hψ hc hvc (hsc v hv (hidden_iff.mpr hh)) (by rintro ⟨⟩))
    rw [f1] at e1
    cases e1
    rw [g1] at e2
    cases e2
    exact ⟨c.nodes, ts, hvc, hp⟩
  have hhid : t'.hid = s'.hid := by rw [g2.toQuiet.hid, hg.hid, f2.toQuiet.hid]
  have hobs : t'.obs = s'.obs := by rw [g2.toQuiet.obs, hg.obs, f2.toQuiet.obs]
  have hvars : t'.vars = s'.vars := by rw [g2.toQuiet.vars, hg.vars, f2.toQuiet.vars]
  have hlnk : ∀ u v, t'.lnk u v = s'.lnk u v := fun u v => by rw [g2.toQuiet.lnk, hg.lnk, f2.toQuiet.lnk]
  have hkeys : ∀ v, AMap.keys (t'.activeOf v) = AMap.keys (s'.activeOf v) := fun v => by
    rw [← keys_links, g2.toQuiet.active, hg.active, ← f2.toQuiet.active, keys_links]
  have hev : t'.evidences = s'.evidences := by rw [g2.toQuiet.evidences, hg.evidences, f2.toQuiet.evidences]
  have hsub' : ∀ v ∈ G.group, v ∈ s'.vars := fun v hv => by rw [f2.toQuiet.vars]; exact hsub v hv
  have hbr : s'.InRange (fun _ => 0) := fun v hv => f3.inv.posV v hv
  have hpsi : ∀ v ∈ G.group, v ∈ s'.hid → s'.psiK v 0 ≠ 0 := fun v hv _ =>
    (hPs'.psiK_pos f3.inv.toCore v (hbr v (hsub' v hv))).ne'
  obtain ⟨f, C, a1, a2, a3, _, a5, a6⟩ := jointOf_val hord hsh f3 fF ((hφ.numeric hi.toCore).quiet f2.toQuiet) f4 hG hsub' hne
    (by rw [f2.toQuiet.obs]; exact hob) (μ := s'.msgVal) hbr hpsi (by
      intro v hv hh w hadj
      have hact := f3.inv.toCore.net.symA _ _ hadj.2.2
      obtain ⟨m, hm⟩ := Option.isSome_iff_exists.mp (fa.msg v w (mem_hid.mp hh).2 hact)
      exact ⟨m, hm, 1, one_pos, fun j hj => by rw [one_mul]; exact msgVal_eq hm (fm v hh w hact m hm) hj⟩)
  obtain ⟨g, D, b1, b2, b3, _, b5, b6⟩ := jointOf_val hord hsh gH gF ((hψ.numeric hit.toCore).quiet g2.toQuiet) g4 hG
    (fun v hv => by rw [hvars]; exact hsub' v hv) hne
    (by rw [hobs, f2.toQuiet.obs]; exact hob) (μ := s'.msgVal) (b := fun _ => 0) (fun v hv => gH.inv.posV v hv) (by
      intro v hv hh
      rw [hhid] at hh
      obtain ⟨nodes, ts, h1, h2⟩ := hprop v hv hh
      obtain ⟨c, hc, h3⟩ := h2.alike.psi v h1
      rw [h3 0 (hbr v (hsub' v hv))]
      exact mul_ne_zero hc.ne' (hpsi v hv hh)) (by
      intro v hv hh w hadj
      have hact' := gH.inv.toCore.net.symA _ _ hadj.2.2
      obtain ⟨m', hm'⟩ := Option.isSome_iff_exists.mp (ga.msg v w (mem_hid.mp hh).2 hact')
      rw [hhid] at hh
      have hact : (s'.act v w).isSome := by
        have h := activeKeys_iff.mpr hact'
        refine activeKeys_iff.mp ?_
        unfold activeKeys at h ⊢
        rw [← hkeys]
        exact h
      obtain ⟨m, hm⟩ := Option.isSome_iff_exists.mp (fa.msg v w (mem_hid.mp hh).2 hact)
      obtain ⟨nodes, ts, h1, h2⟩ := hprop v hv hh
      have hset := h2.left.setting
      obtain ⟨e, he, k1, k2⟩ := hset.topo.all w (hset.closed v h1 w hact) v (f3.inv.toCore.net.symA _ _ hact)
      have := h2.msgs e he m m' (by rw [k2, hset.topo.from_ e he, k1]; exact hm) (by rw [k2, hset.topo.from_ e he, k1]; exact hm')
      rw [k2] at this
      obtain ⟨c, hc, h3⟩ := this
      refine ⟨m', hm', c, hc, fun j hj => ?_⟩
      rw [h3 j hj, msgVal_eq hm (fm v hh w hact m hm) hj]
      rfl)
  have hcl := contribList_congr hobs hev hlnk hkeys G.group
  obtain ⟨d, hd, hprod⟩ := prod_scaledOn (fun a => InDom G.group a) (s'.contribList G.group) (s'.contribVal s'.msgVal)
    (t'.contribVal s'.msgVal) (by
      intro p hp
      unfold contribList at hp
      simp only [List.mem_append, List.mem_map, List.mem_flatMap, List.mem_filter, decide_eq_true_eq] at hp
      rcases hp with ((⟨v, ⟨hv, ho⟩, rfl⟩ | ⟨v, ⟨hv, ho⟩, w, ⟨hw, hwG⟩, rfl⟩) | ⟨p, hp, rfl⟩) | ⟨v, ⟨hv, ho⟩, rfl⟩
      · obtain ⟨nodes, ts, h1, h2⟩ := hprop v hv (mem_hid.mpr ⟨hsub' v hv, ho⟩)
        obtain ⟨c, hc, h3⟩ := h2.alike.psi v h1
        exact ⟨c, hc, fun a ha => h3 _ (ha v hv)⟩
      · exact ⟨1, one_pos, fun a _ => (one_mul _).symm⟩
      · obtain ⟨u, hu, w, hw, hl⟩ := mem_edges hp
        simp only [List.mem_filter, decide_eq_true_eq] at hu hw
        have hl0 : s.lnk u w = some p := by rw [← f2.toQuiet.lnk]; exact hl
        have hlt : t.lnk u w = some p := by rw [hg.lnk]; exact hl0
        obtain ⟨h1, b, hb, hbi⟩ := hi.toCore.link u w p hl0
        have hh : s.Hidden u := by
          rw [← f2.toQuiet.hiddenS]
          exact hidden_iff.mpr (mem_hid.mpr ⟨hsub' u hu.1, hu.2⟩)
        obtain ⟨c, hc, h3⟩ := hsc u hu.1 hh p ⟨_, u, ⟨h1, b, hb, rfl⟩, by rcases hbi.vars with h | h <;> rw [h] <;> simp,
          hh, Relation.ReflTransGen.refl⟩
        refine ⟨c, hc, fun a ha => ?_⟩
        have e1 : s'.imgF p a = s.imgB u w (a u) (a w) := by
          rw [← hi.toCore.imgF_eq hl0]; unfold imgF; rw [f2.toQuiet.heap]
        have e2 : t'.imgF p a = t.imgB u w (a u) (a w) := by
          rw [← hit.toCore.imgF_eq hlt]; unfold imgF; rw [g2.toQuiet.heap]
        show t'.imgF p a = c * s'.imgF p a
        rw [e1, e2]
        obtain ⟨a', ha', r1, r2⟩ := hi.toCore.choose hbi.ne (ha u hu.1) (ha w hw.1)
        rw [← r1, ← r2, ← hφ.bin hi.toCore hl0 ha',
          ← hψ.bin hit.toCore hlt (by unfold InRange; rw [hg.vars]; exact ha')]
        exact h3 a' ha'
      · exact ⟨1, one_pos, fun a _ => (one_mul _).symm⟩)
  refine ⟨s', t', f, g, D * d / C, ?_, ?_, a3, b3, div_pos (mul_pos b5 hd) a5, fun a ha =>
    ⟨C * ((s'.contribList G.group).map (s'.contribVal s'.msgVal a)).prod, ?_, ?_⟩⟩
  · rw [getJoint_eq]; unfold asks lift; rw [f1]; simp only [a1]
  · rw [getJoint_eq]; unfold asks lift; rw [g1]; simp only [b1]
  · have hv : Valid f.sizes (G.group.map a) := by
      rw [← a3]
      exact a2.valid_map.mpr (by rw [a3]; exact ha)
    rw [a2.findTransformed hv, a6 a ha]
  · have hv : Valid g.sizes (G.group.map a) := by
      rw [← b3]
      exact b2.valid_map.mpr (by rw [b3]; exact ha)
    rw [b2.findTransformed hv, b6 a ha, hcl, hprod a ha]
    congr 2
    have := a5.ne'
    rw [← mul_assoc, ← mul_assoc, div_mul_cancel₀ _ this]

end State
end EFG
