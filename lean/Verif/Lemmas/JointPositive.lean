import Verif.Lemmas.ScaleJoint
/-
The joint distributions of a model whose images are positive.
-/

set_option linter.unusedSectionVars false

namespace EFG
namespace State
variable {K : Type} [Field K] [LinearOrder K] [IsStrictOrderedRing K] [FloatParams K]

/-- The images of the joint distribution in a model whose images are positive. -/
theorem getJoint_positive {ord : List Var → List Var} (hord : ∀ l, (ord l).Perm l)
    {sh : List Contribution → List Contribution} (hsh : ∀ l, (sh l).Perm l) {sched : Sched}
    (hsched : ∀ l, (sched l).Perm l) {n : Nat} (hn : 1 ≤ n) {s : State (Ext K)} (hs : Sound True s)
    (hws : s.wouldNeedPropagation .sum = true) (hP : s.AllPositive) {G : Group} (hG : G.WF) (hne : G.group ≠ [])
    (hsub : ∀ v ∈ G.group, v ∈ s.vars) (hob : (G.group.filter (fun v => v ∈ s.obs)).length ≤ 1) :
    ∃ s' f, State.getJoint ord sh sched G n s = .ok s' f ∧ f.vars = G ∧ ∀ a, InDom G.group a → ∃ x : K,
        f.findTransformed (G.group.map a) = .ok (.val x) ∧ 0 ≤ x ∧
        (0 < x ↔ ∀ v ∈ G.group, v ∈ s.obs → a v = s.ev v) := by
  obtain ⟨s', r, f1, f2, f3, f4, _, _, fa, _, fm⟩ := checkPropagation_positive hord .sum hsched hs hn hws hP
  obtain ⟨_, _, x1, _, x3, _, _⟩ := checkPropagation_sound hord .sum hsched hs hn
  rw [f1] at x1
  cases x1
  have hPs' := hP.quiet f2.toQuiet
  have hsub' : ∀ v ∈ G.group, v ∈ s'.vars := fun v hv => by rw [f2.toQuiet.vars]; exact hsub v hv
  have hbr : s'.InRange (fun _ => 0) := fun v hv => f3.inv.posV v hv
  obtain ⟨f, C, a1, a2, a3, _, a5, a6⟩ := jointOf_val hord hsh f3 (x3.faithful trivial)
    (hPs'.mono (fun _ h => h.le)) f4 hG hsub' hne (by rw [f2.toQuiet.obs]; exact hob) (μ := s'.msgVal) hbr
    (fun v hv _ => (hPs'.psiK_pos f3.inv.toCore v (hbr v (hsub' v hv))).ne') (by
      intro v hv hh w hadj
      have hact := f3.inv.toCore.net.symA _ _ hadj.2.2
      obtain ⟨m, hm⟩ := Option.isSome_iff_exists.mp (fa.msg v w (mem_hid.mp hh).2 hact)
      exact ⟨m, hm, 1, one_pos, fun j hj => by rw [one_mul]; exact msgVal_eq hm (fm v hh w hact m hm) hj⟩)
  have hobs : s'.obs = s.obs := f2.toQuiet.obs
  have hev : ∀ w, s'.ev w = s.ev w := fun w => by unfold ev; rw [f2.toQuiet.evidences]
  have hterm : ∀ a, InDom G.group a → ∀ c ∈ s'.contribList G.group, 0 < s'.contribVal s'.msgVal a c ∨
      ∃ v ∈ G.group, v ∈ s.obs ∧ c = .indicator v (s.ev v) := by
    intro a ha p hp
    unfold contribList at hp
    simp only [List.mem_append, List.mem_map, List.mem_flatMap, List.mem_filter, decide_eq_true_eq] at hp
    rcases hp with ((⟨v, ⟨hv, ho⟩, rfl⟩ | ⟨v, ⟨hv, ho⟩, w, ⟨hw, hwG⟩, rfl⟩) | ⟨p, hp, rfl⟩) | ⟨v, ⟨hv, ho⟩, rfl⟩
    · exact Or.inl (hPs'.psiK_pos f3.inv.toCore v (ha v hv))
    · left
      obtain ⟨cn, hcn⟩ := AMap.mem_keys.mp hw
      have hact : (s'.act v w).isSome := by unfold State.act; rw [hcn]; rfl
      obtain ⟨m, hm⟩ := Option.isSome_iff_exists.mp (fa.msg v w ho hact)
      have hpo := fm v (mem_hid.mpr ⟨hsub' v hv, ho⟩) w hact m hm
      have h1 := msgVal_eq hm hpo (ha v hv)
      have h2 := (hpo _ (ha v hv)).2
      rw [h1] at h2
      exact h2
    · left
      obtain ⟨u, hu, w, hw, hl⟩ := mem_edges hp
      simp only [List.mem_filter, decide_eq_true_eq] at hu hw
      obtain ⟨_, b, hb, _⟩ := f3.inv.toCore.link u w p hl
      show 0 < s'.imgF p a
      rw [f3.inv.toCore.imgF_eq hl]
      unfold imgB
      rw [hl]
      simp only [hb]
      exact (hPs'.bin u w p b hl hb _ (ha u hu.1) _ (ha w hw.1)).2
    · exact Or.inr ⟨v, hv, hobs ▸ ho, by rw [hev]⟩
  refine ⟨s', f, ?_, a3, fun a ha => ⟨C * ((s'.contribList G.group).map (s'.contribVal s'.msgVal a)).prod, ?_, ?_, ?_⟩⟩
  · rw [getJoint_eq]; unfold asks lift; rw [f1]; simp only [a1]
  · have hv : Valid f.sizes (G.group.map a) := by
      rw [← a3]
      exact a2.valid_map.mpr (by rw [a3]; exact ha)
    rw [a2.findTransformed hv, a6 a ha]
  · refine mul_nonneg a5.le (prod_map_nonneg fun c hc => ?_)
    rcases hterm a ha c hc with h | ⟨v, _, _, rfl⟩
    · exact h.le
    · show (0 : K) ≤ if a v = s.ev v then 1 else 0
      split <;> simp
  · constructor
    · intro hx v hv ho
      by_contra hne'
      have hz : ((s'.contribList G.group).map (s'.contribVal s'.msgVal a)).prod = 0 := by
        refine List.prod_eq_zero (List.mem_map.mpr ⟨.indicator v (s.ev v), ?_, ?_⟩)
        · unfold contribList
          simp only [List.mem_append, List.mem_map, List.mem_filter, decide_eq_true_eq]
          exact Or.inr ⟨v, ⟨hv, hobs ▸ ho⟩, by rw [hev]⟩
        · show (if a v = s.ev v then (1 : K) else 0) = 0
          rw [if_neg hne']
      rw [hz, mul_zero] at hx
      exact lt_irrefl _ hx
    · intro h
      refine mul_pos a5 (prod_map_pos fun c hc => ?_)
      rcases hterm a ha c hc with h' | ⟨v, hv, ho, rfl⟩
      · exact h'
      · show (0 : K) < if a v = s.ev v then 1 else 0
        rw [if_pos (h v hv ho)]
        exact one_pos

end State
end EFG
