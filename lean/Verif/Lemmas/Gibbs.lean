import Verif.Spec.Gibbs
import Verif.Lemmas.QueryInv
import Verif.Lemmas.Propagate
import Verif.Lemmas.Sampling
/- The nodes of the Gibbs sampler, and the samples it draws. -/

set_option linter.unusedSectionVars false

namespace EFG

namespace State
variable {F : Type} [Arith F]

/-! ### Positions -/

theorem slotOf_mem {s : State F} (hd : Distinct s.vars) {v : Var} (hv : v ∈ s.vars) :
    ∃ i, s.slotOf v = .ok i ∧ s.vars[i]? = some v := by
  unfold slotOf
  cases h : s.vars.findIdx? (fun w => w.eqv v) with
  | none =>
    rw [List.findIdx?_eq_none_iff] at h
    have := h v hv
    rw [Var.eqv_refl] at this
    cases this
  | some i =>
    obtain ⟨hi, h1, _⟩ := List.findIdx?_eq_some_iff_getElem.mp h
    refine ⟨i, rfl, ?_⟩
    rw [List.getElem?_eq_getElem hi, Distinct.eqv_eq hd (List.getElem_mem hi) hv h1]

theorem slot_inj {s : State F} (hd : Distinct s.vars) {i j : Nat} {v : Var} (hi : s.vars[i]? = some v)
    (hj : s.vars[j]? = some v) : i = j := by
  obtain ⟨h1, h2⟩ := List.getElem?_eq_some_iff.mp hi
  obtain ⟨h3, h4⟩ := List.getElem?_eq_some_iff.mp hj
  exact (List.Nodup.getElem_inj_iff hd.nodup).mp (h2.trans h4.symm)

/-- The values are in range. -/
def Fits (s : State F) (c : List Nat) : Prop :=
  c.length = s.vars.length ∧ ∀ (i : Nat) (v : Var), s.vars[i]? = some v → ∃ x, c[i]? = some x ∧ x < v.size

theorem Fits.set {s : State F} {c : List Nat} (h : s.Fits c) {i x : Nat} {v : Var} (hi : s.vars[i]? = some v)
    (hx : x < v.size) : s.Fits (c.set i x) := by
  refine ⟨by rw [List.length_set]; exact h.1, fun j w hj => ?_⟩
  rw [List.getElem?_set]
  by_cases hij : i = j
  · subst hij
    rw [hi] at hj
    cases hj
    have : i < c.length := by rw [h.1]; exact (List.getElem?_eq_some_iff.mp hi).1
    exact ⟨x, by rw [if_pos rfl, if_pos this], hx⟩
  · rw [if_neg hij]; exact h.2 j w hj

theorem startCombination_ok {ord : List Var → List Var} (hord : ∀ l, (ord l).Perm l) {s : State F} (hs : Core s) :
    ∃ c, startCombination ord s = .ok c ∧ s.IsSample c := by
  unfold startCombination
  have hp := hord (AMap.keys s.evidences)
  have gen : ∀ (l : List Var) (c : List Nat), (∀ v ∈ l, v ∈ s.obs) → s.Fits c →
      ∃ c', Res.foldList s.observeSlot c l = .ok c' ∧ s.Fits c' ∧
        ∀ (i : Nat) (v : Var), s.vars[i]? = some v →
          (v ∈ l → c'[i]? = AMap.find? s.evidences v) ∧ (v ∉ l → c'[i]? = c[i]?) := by
    intro l
    induction l with
    | nil => intro c _ hc; exact ⟨c, rfl, hc, fun i v _ => ⟨by simp, fun _ => rfl⟩⟩
    | cons v l ih =>
      intro c hl hc
      have hv := hl v (by simp)
      obtain ⟨i, h1, h2⟩ := slotOf_mem hs.net.distinct (hs.obsMem v hv)
      obtain ⟨k, hk⟩ := AMap.mem_keys.mp hv
      have hi : i < c.length := by rw [hc.1]; exact (List.getElem?_eq_some_iff.mp h2).1
      have hstep : s.observeSlot c v = .ok (c.set i k) := by
        unfold observeSlot
        rw [h1, hk]
        simp only
        rw [if_pos hi]
      obtain ⟨c', e1, e2, e3⟩ := ih (c.set i k) (fun w hw => hl w (by simp [hw])) (hc.set h2 (hs.obsVal v k hk))
      refine ⟨c', by rw [Res.foldList_cons_ok hstep]; exact e1, e2, fun j w hj => ?_⟩
      obtain ⟨g1, g2⟩ := e3 j w hj
      constructor
      · intro hw
        by_cases hwl : w ∈ l
        · exact g1 hwl
        · rcases List.mem_cons.mp hw with rfl | h
          · rw [g2 hwl, slot_inj hs.net.distinct hj h2, List.getElem?_set, if_pos rfl, if_pos hi, hk]
          · exact absurd h hwl
      · intro hw
        rw [List.mem_cons, not_or] at hw
        rw [g2 hw.2, List.getElem?_set, if_neg]
        rintro rfl
        rw [h2] at hj
        cases hj
        exact hw.1 rfl
  obtain ⟨c, h1, h2, h3⟩ := gen (ord (AMap.keys s.evidences)) (List.replicate s.vars.length 0)
    (fun v hv => hp.mem_iff.mp hv) (by
      refine ⟨by simp, fun i v hi => ⟨0, ?_, hs.posV v (List.mem_of_getElem? hi)⟩⟩
      rw [List.getElem?_replicate, if_pos (List.getElem?_eq_some_iff.mp hi).1])
  refine ⟨c, h1, h2.1, fun i v hi => ?_⟩
  obtain ⟨x, hx1, hx2⟩ := h2.2 i v hi
  refine ⟨x, hx1, hx2, fun k hk => ?_⟩
  have hf := AMap.find?_of_mem hs.obsNodup hk
  have ho : v ∈ s.obs := AMap.mem_keys.mpr ⟨k, hf⟩
  have := (h3 i v hi).1 (hp.mem_iff.mpr ho)
  rw [hx1, hf] at this
  cases this
  rfl

/-! ### Nodes -/

/-- What the node of a hidden variable holds. -/
structure NodeOf (ord : List Var → List Var) (s : State F) (v : Var) (nd : SamplerNode F) : Prop where
  slot : s.vars[nd.slot]? = some v
  fixed : s.mergedVal ord v = .ok nd.fixed
  unary : nd.fixed.Unary v
  senders : nd.deps.map SamplerDep.sender = ord (s.activeKeys v)
  dep : ∀ d ∈ nd.deps, s.vars[d.slot]? = some d.sender ∧ s.lnk v d.sender = some d.factor

theorem NodeOf.quiet {ord : List Var → List Var} {s s' : State F} (h : Quiet s s') {v : Var} {nd : SamplerNode F} :
    NodeOf ord s' v nd ↔ NodeOf ord s v nd := by
  constructor
  · rintro ⟨k1, k2, k3, k4, k5⟩
    rw [h.vars] at k1
    rw [h.mergedVal] at k2
    rw [h.activeKeys] at k4
    refine ⟨k1, k2, k3, k4, fun d hd => ?_⟩
    have := k5 d hd
    rw [h.vars, h.lnk] at this
    exact this
  · rintro ⟨k1, k2, k3, k4, k5⟩
    refine ⟨by rw [h.vars]; exact k1, by rw [h.mergedVal]; exact k2, k3, by rw [h.activeKeys]; exact k4, fun d hd => ?_⟩
    rw [h.vars, h.lnk]
    exact k5 d hd

theorem samplerNode_ok {ord : List Var → List Var} (hord : ∀ l, (ord l).Perm l) {s : State F} (hs : Core s) {v : Var}
    (hv : v ∈ s.vars) {m : Fn F} (hm : s.mrg v = some m) :
    ∃ nd, samplerNode ord s v = .ok nd ∧ nd.fixed = m ∧ s.vars[nd.slot]? = some v ∧
      nd.deps.map SamplerDep.sender = ord (s.activeKeys v) ∧
      ∀ d ∈ nd.deps, s.vars[d.slot]? = some d.sender ∧ s.lnk v d.sender = some d.factor := by
  obtain ⟨n, hn⟩ := node?_of_mem (s := s) (v := v) (by rw [hs.net.keys]; exact hv)
  obtain ⟨i, h1, h2⟩ := slotOf_mem hs.net.distinct hv
  have hmn : n.merged = some m := by
    unfold mrg at hm
    rw [hn] at hm
    exact hm
  have hact : s.activeOf v = n.active := by unfold activeOf; rw [hn]
  have hdep : ∀ l : List Var, (∀ w ∈ l, w ∈ AMap.keys n.active) → ∃ ds, Res.mapList (s.samplerDep n) l = .ok ds ∧
      ds.map SamplerDep.sender = l ∧ ∀ d ∈ ds, s.vars[d.slot]? = some d.sender ∧ s.lnk v d.sender = some d.factor := by
    intro l
    induction l with
    | nil => intro _; exact ⟨[], rfl, rfl, by simp⟩
    | cons w l ih =>
      intro hl
      obtain ⟨ds, e1, e2, e3⟩ := ih (fun x hx => hl x (by simp [hx]))
      obtain ⟨c, hc⟩ := AMap.mem_keys.mp (hl w (by simp))
      have hca : s.act v w = some c := by unfold act; rw [hact]; exact hc
      have hl := lnk_of_act hca
      obtain ⟨j, g1, g2⟩ := slotOf_mem hs.net.distinct (hs.net.memL _ _ _ hl).2.1
      refine ⟨⟨w, j, c.factor⟩ :: ds, ?_, by simp [e2], ?_⟩
      · rw [Res.mapList_cons, e1]
        unfold samplerDep
        rw [g1, hc]
      · intro d hd
        rcases List.mem_cons.mp hd with rfl | hd
        · exact ⟨g2, hl⟩
        · exact e3 d hd
  obtain ⟨ds, e1, e2, e3⟩ := hdep (ord (AMap.keys n.active)) (fun w hw => (hord _).mem_iff.mp hw)
  refine ⟨⟨i, m, ds⟩, ?_, rfl, h2, ?_, e3⟩
  · unfold samplerNode
    rw [hn, h1]
    simp only
    rw [hmn]
    simp only
    rw [e1]
  · rw [e2]; unfold activeKeys; rw [hact]

/-- Changes of the caches of the merged unaries only. -/
structure Remerged (ord : List Var → List Var) (l : List Var) (s s' : State F) : Prop extends Prep s s' where
  clusters' : s'.clusters = s.clusters
  mrg : ∀ v, (v ∉ l → s'.mrg v = s.mrg v) ∧ (v ∈ l → ∃ m, s'.mrg v = some m ∧ s.mergedVal ord v = .ok m ∧ m.Unary v)

theorem Remerged.inv {ord : List Var → List Var} {l : List Var} {s s' : State F} (h : Remerged ord l s s') (hs : Inv s) :
    Inv s' := by
  refine hs.quiet h.toQuiet ?_ ?_
  · intro v m hm
    by_cases hv : v ∈ l
    · obtain ⟨m', h1, _, h2⟩ := (h.mrg v).2 hv
      rw [hm] at h1
      cases h1
      exact h2
    · rw [(h.mrg v).1 hv] at hm
      exact hs.mrgT v m hm
  · intro c hc ts ht
    exact (hs.topos c (h.clusters' ▸ hc) ts ht).congr (fun u _ v => h.toQuiet.isSome u v)

theorem collectNodes_ok {ord : List Var → List Var} (hord : ∀ l, (ord l).Perm l) (l : List Var) :
    ∀ {s : State F}, Inv s → (∀ v ∈ l, v ∈ s.hid) →
    ∃ s' nds, collectNodes ord l s = .ok s' nds ∧ Remerged ord l s s' ∧ List.Forall₂ (NodeOf ord s) l nds := by
  induction l with
  | nil => intro s _ _; exact ⟨s, [], rfl, ⟨Prep.rfl' s, rfl, fun v => ⟨fun _ => rfl, by simp⟩⟩, .nil⟩
  | cons v l ih =>
    intro s hs hl
    obtain ⟨hv, ho⟩ := mem_hid.mp (hl v (by simp))
    obtain ⟨m, h1, h2, h3⟩ := updateMerged_eq hord hs.toCore hv ho
    have hk : v ∈ AMap.keys s.nodes := by rw [hs.net.keys]; exact hv
    have hp := setMerged_prep s v m
    have hmr := mrg_setMerged (s := s) hk m
    have hR : Remerged ord [v] s (setMerged v m s) := by
      refine ⟨hp, rfl, fun u => ⟨fun hu => ?_, fun hu => ?_⟩⟩
      · rw [hmr, if_neg (by simpa using hu)]
      · simp only [List.mem_singleton] at hu
        subst hu
        exact ⟨m, by rw [hmr, if_pos rfl], h2, h3⟩
    have hs1 := hR.inv hs
    obtain ⟨nd, e1, e2, e3, e4, e5⟩ := samplerNode_ok hord hs1.toCore (v := v) (by rw [hp.vars]; exact hv) (m := m)
      (by rw [hmr, if_pos rfl])
    obtain ⟨s', nds, g1, g2, g3⟩ := ih hs1 (fun w hw => by rw [hp.toQuiet.hid]; exact hl w (by simp [hw]))
    refine ⟨s', nd :: nds, ?_, ⟨hp.trans g2.toPrep, g2.clusters'.trans rfl, fun u => ⟨?_, ?_⟩⟩, .cons ?_ ?_⟩
    · rw [collectNodes]
      unfold makeSamplerNode
      rw [h1]
      simp only
      unfold lift
      beta_reduce
      rw [e1]
      simp only
      rw [g1]
    · intro hu
      simp only [List.mem_cons, not_or] at hu
      rw [(g2.mrg u).1 hu.2, hmr, if_neg hu.1]
    · intro hu
      by_cases hul : u ∈ l
      · obtain ⟨m', k1, k2, k3⟩ := (g2.mrg u).2 hul
        rw [hp.toQuiet.mergedVal] at k2
        exact ⟨m', k1, k2, k3⟩
      · have : u = v := by rcases List.mem_cons.mp hu with h | h; exacts [h, absurd h hul]
        subst this
        rw [(g2.mrg u).1 hul, hmr, if_pos rfl]
        exact ⟨m, rfl, h2, h3⟩
    · rw [hp.vars] at e3
      rw [hp.toQuiet.activeKeys] at e4
      refine ⟨e3, by rw [e2]; exact h2, by rw [e2]; exact h3, e4, fun d hd => ?_⟩
      have := e5 d hd
      rw [hp.vars, hp.toQuiet.lnk] at this
      exact this
    · exact g3.imp (fun u nd' h => (NodeOf.quiet hp.toQuiet).mp h)

/-- The variables which are resampled, in the order of their nodes. -/
def sampled (ord : List Var → List Var) (s : State F) : List Var := s.clusters.flatMap (fun c => ord c.nodes)

theorem sampled_perm {ord : List Var → List Var} (hord : ∀ l, (ord l).Perm l) {s : State F} (hs : Inv s) :
    (sampled ord s).Perm s.hid := by
  have h1 : (sampled ord s).Perm (s.clusters.map (·.nodes)).flatten := by
    unfold sampled
    induction s.clusters with
    | nil => exact .nil
    | cons c cs ih => simp only [List.flatMap_cons, List.map_cons, List.flatten_cons]; exact (hord _).append ih
  refine h1.trans ?_
  rw [List.perm_ext_iff_of_nodup hs.parts.nodup (hid_nodup hs.net)]
  exact hs.parts.mem

theorem makeSamplerNodes_ok {ord : List Var → List Var} (hord : ∀ l, (ord l).Perm l) {s : State F} (hs : Inv s) :
    ∃ s' c nds, makeSamplerNodes ord s = .ok s' (c, nds) ∧ s.IsSample c ∧ Remerged ord (sampled ord s) s s' ∧
      List.Forall₂ (NodeOf ord s) (sampled ord s) nds := by
  obtain ⟨c, h1, h2⟩ := startCombination_ok hord hs.toCore
  obtain ⟨s', nds, h3, h4, h5⟩ := collectNodes_ok hord (sampled ord s) hs
    (fun v hv => (sampled_perm hord hs).mem_iff.mp hv)
  refine ⟨s', c, nds, ?_, h2, h4, h5⟩
  unfold makeSamplerNodes
  rw [h1]
  simp only
  unfold sampled at h3
  rw [h3]

/-! ### Updates -/

theorem IsSample.fits {s : State F} {c : List Nat} (h : s.IsSample c) : s.Fits c :=
  ⟨h.1, fun i v hi => by obtain ⟨x, h1, h2, _⟩ := h.2 i v hi; exact ⟨x, h1, h2⟩⟩

theorem IsSample.set {s : State F} {c : List Nat} (h : s.IsSample c) {i x : Nat} {v : Var} (hi : s.vars[i]? = some v)
    (hv : v ∉ s.obs) (hx : x < v.size) : s.IsSample (c.set i x) := by
  refine ⟨(h.fits.set hi hx).1, fun j w hj => ?_⟩
  obtain ⟨y, h1, h2⟩ := (h.fits.set hi hx).2 j w hj
  refine ⟨y, h1, h2, fun k hk => ?_⟩
  rw [List.getElem?_set] at h1
  by_cases hij : i = j
  · subst hij
    rw [hi] at hj
    cases hj
    exact absurd (List.mem_map.mpr ⟨_, hk, rfl⟩) hv
  · rw [if_neg hij] at h1
    obtain ⟨z, g1, _, g2⟩ := h.2 j w hj
    rw [h1] at g1
    cases g1
    exact g2 k hk

/-- The values read. -/
theorem readDeps_ok {ord : List Var → List Var} {s : State F} {v : Var} {nd : SamplerNode F} (hn : NodeOf ord s v nd)
    {c : List Nat} (hc : s.Fits c) : ∃ xs, readDeps nd.deps c = .ok xs ∧
      List.Forall₂ (fun d x => c[d.slot]? = some x ∧ x < d.sender.size) nd.deps xs := by
  have hd := hn.dep
  unfold readDeps
  revert hd
  induction nd.deps with
  | nil => intro _; exact ⟨[], rfl, .nil⟩
  | cons d ds ih =>
    intro hd
    obtain ⟨xs, h1, h2⟩ := ih (fun e he => hd e (by simp [he]))
    obtain ⟨x, h3, h4⟩ := hc.2 d.slot d.sender (hd d (by simp)).1
    refine ⟨x :: xs, ?_, .cons ⟨h3, h4⟩ h2⟩
    rw [Res.mapList_cons, h1, h3]
    rfl

/-- The factors merged by an update. -/
theorem depEvidences_ok {ord : List Var → List Var} {s : State F} (hs : Core s) {v : Var} {nd : SamplerNode F}
    (hn : NodeOf ord s v nd) {xs : List Nat} (hx : List.Forall₂ (fun d x => x < d.sender.size) nd.deps xs) :
    ∃ es, Res.mapList s.depEvidence (nd.deps.zip xs) = .ok es ∧
      List.Forall₂ (fun e m => m.Unary v ∧ ∃ f, s.heap[e.1.factor]? = some f ∧ f.Binary v e.1.sender ∧
        ∀ i < v.size, m.timg [i] = Fn.bimg v f i e.2) (nd.deps.zip xs) es := by
  have hd := hn.dep
  revert hd
  generalize nd.deps = ds at hx ⊢
  induction hx with
  | nil => intro _; exact ⟨[], rfl, .nil⟩
  | @cons d x ds xs hdx _ ih =>
    intro hd
    obtain ⟨es, h1, h2⟩ := ih (fun e he => hd e (by simp [he]))
    obtain ⟨_, f, hf, hb⟩ := hs.link _ _ _ (hd d (by simp)).2
    obtain ⟨m, h3, h4, _, h5⟩ := hb.evidence hdx
    refine ⟨m :: es, ?_, .cons ⟨h4, f, hf, hb, h5⟩ h2⟩
    rw [List.zip_cons_cons, Res.mapList_cons, h1]
    unfold depEvidence
    have hdf : s.deref d.factor = .ok f := by
      unfold deref Heap.get
      rw [hf]
      rfl
    simp only
    rw [hdf]
    simp only
    rw [h3]

/-- The distribution of an update. -/
theorem updateDistribution_ok {ord : List Var → List Var} {s : State F} (hs : Core s) {v : Var} {nd : SamplerNode F}
    (hn : NodeOf ord s v nd) {xs : List Nat} (hx : List.Forall₂ (fun d x => x < d.sender.size) nd.deps xs) :
    ∃ es m ps, Res.mapList s.depEvidence (nd.deps.zip xs) = .ok es ∧
      List.Forall₂ (fun e m => m.Unary v ∧ ∃ f, s.heap[e.1.factor]? = some f ∧ f.Binary v e.1.sender ∧
        ∀ i < v.size, m.timg [i] = Fn.bimg v f i e.2) (nd.deps.zip xs) es ∧
      Fn.mergedUnaries (nd.fixed :: es) = .ok m ∧ m.Unary v ∧ m.probabilities = .ok ps ∧
      s.updateDistribution nd xs = .ok ps ∧ ps.length = v.size := by
  obtain ⟨es, h1, h2⟩ := depEvidences_ok hs hn hx
  obtain ⟨m, _, h3, h4, _⟩ := Fn.mergedUnaries_eq (v := v) (fs := nd.fixed :: es) (by simp) (by
    intro f hf
    rcases List.mem_cons.mp hf with rfl | hf
    · exact hn.unary
    · obtain ⟨i, hi, rfl⟩ := List.getElem_of_mem hf
      exact (h2.get (by rw [h2.length_eq]; exact hi) hi).1)
  obtain ⟨ps, h5, h6⟩ := h4.probabilities
  refine ⟨es, m, ps, h1, h2, h3, h4, h5, ?_, h6⟩
  unfold updateDistribution
  rw [h1]
  simp only
  rw [h3]
  exact h5

theorem updatedValue_ok {ord : List Var → List Var} {s : State F} (hs : Core s) {v : Var} {nd : SamplerNode F}
    (hn : NodeOf ord s v nd) {xs : List Nat} (hx : List.Forall₂ (fun d x => x < d.sender.size) nd.deps xs) (r : F) :
    ∃ y, s.updatedValue nd xs r = .ok y ∧ y < v.size := by
  obtain ⟨_, m, ps, _, _, _, h4, _, h5, h6⟩ := updateDistribution_ok hs hn hx
  refine ⟨sampleFromDiscrete r ps, ?_, ?_⟩
  · unfold updatedValue
    rw [h5]
  · rw [← h6]
    refine sampleFromDiscrete_lt ?_
    rw [← List.length_pos_iff, h6]
    exact h4.pos

theorem sampleTask_ok {ord : List Var → List Var} {s : State F} (hs : Core s) {v : Var} (hv : v ∉ s.obs)
    {nd : SamplerNode F} (hn : NodeOf ord s v nd) (draw : Nat → Nat → F) (t : Nat) {c : Sampling}
    (hc : s.IsSample c.values) : ∃ c', s.sampleTask draw nd t c = .ok c' ∧ s.IsSample c'.values := by
  obtain ⟨xs, h1, h2⟩ := readDeps_ok hn hc.fits
  obtain ⟨y, h3, h4⟩ := updatedValue_ok hs hn (h2.imp fun _ _ h => h.2) (draw t (c.drawn t))
  have hlt : nd.slot < c.values.length := by rw [hc.1]; exact (List.getElem?_eq_some_iff.mp hn.slot).1
  refine ⟨⟨c.values.set nd.slot y, fun u => if u = t then c.drawn u + 1 else c.drawn u⟩, ?_, hc.set hn.slot hv h4⟩
  · unfold sampleTask
    rw [h1]
    simp only
    rw [h3]
    simp only
    rw [if_pos hlt]

theorem Res.foldList_keeps {A B : Type} {f : B → A → Res B} {P : B → Prop} (l : List A)
    (h : ∀ a ∈ l, ∀ b, P b → ∃ b', f b a = .ok b' ∧ P b') : ∀ b, P b → ∃ b', Res.foldList f b l = .ok b' ∧ P b' := by
  induction l with
  | nil => intro b hb; exact ⟨b, rfl, hb⟩
  | cons a l ih =>
    intro b hb
    obtain ⟨b', h1, h2⟩ := h a (by simp) b hb
    rw [Res.foldList_cons_ok h1]
    exact ih (fun a' ha' => h a' (by simp [ha'])) b' h2

/-- The nodes of hidden variables. -/
def Nodes (ord : List Var → List Var) (s : State F) (nds : List (SamplerNode F)) : Prop :=
  ∀ nd ∈ nds, ∃ v, v ∉ s.obs ∧ NodeOf ord s v nd

theorem sampleGroup_ok {ord : List Var → List Var} {s : State F} (hs : Core s) (draw : Nat → Nat → F) (size : Nat)
    {g : List (SamplerNode F)} (hg : Nodes ord s g) (c : Sampling) (hc : s.IsSample c.values) :
    ∃ c', s.sampleGroup draw size c g = .ok c' ∧ s.IsSample c'.values := by
  unfold sampleGroup
  refine Res.foldList_keeps (P := fun c => s.IsSample c.values) _ ?_ c hc
  rintro ⟨nd, k⟩ he c hc
  obtain ⟨v, hv, hn⟩ := hg nd (List.fst_mem_of_mem_zipIdx he)
  exact sampleTask_ok hs hv hn draw _ hc

theorem evolve_ok {ord : List Var → List Var} {s : State F} (hs : Core s) (draw : Nat → Nat → F) (size : Nat)
    {gs : List (List (SamplerNode F))} (hg : ∀ g ∈ gs, Nodes ord s g) (n : Nat) : ∀ (c : Sampling), s.IsSample c.values →
    ∃ c', s.evolve draw size gs n c = .ok c' ∧ s.IsSample c'.values := by
  induction n with
  | zero => intro c hc; exact ⟨c, rfl, hc⟩
  | succ n ih =>
    intro c hc
    obtain ⟨c1, h1, h2⟩ := Res.foldList_keeps (P := fun c => s.IsSample c.values) gs
      (fun g hg' c hc => sampleGroup_ok hs draw size (hg g hg') c hc) c hc
    rw [evolve, h1]
    exact ih c1 h2

theorem takeSamples_ok {ord : List Var → List Var} {s : State F} (hs : Core s) (draw : Nat → Nat → F) (size delta : Nat)
    {gs : List (List (SamplerNode F))} (hg : ∀ g ∈ gs, Nodes ord s g) (n : Nat) : ∀ (c : Sampling), s.IsSample c.values →
    ∃ l, s.takeSamples draw size delta gs n c = .ok l ∧ l.length = n ∧ ∀ x ∈ l, s.IsSample x := by
  induction n with
  | zero => intro c _; exact ⟨[], rfl, rfl, by simp⟩
  | succ n ih =>
    intro c hc
    obtain ⟨c1, h1, h2⟩ := evolve_ok hs draw size hg delta c hc
    obtain ⟨l, h3, h4, h5⟩ := ih c1 h2
    refine ⟨c.values :: l, ?_, by simp [h4], ?_⟩
    · rw [takeSamples, h1]
      simp only
      rw [h3]
    · intro x hx
      rcases List.mem_cons.mp hx with rfl | hx
      · exact hc
      · exact h5 x hx

/-! ### The groups -/

theorem samplerPass_perm : ∀ (nds : List (SamplerNode F)) (stay change : List Nat),
    ((samplerPass stay change nds).1 ++ (samplerPass stay change nds).2).Perm nds := by
  intro nds
  induction nds with
  | nil => intro _ _; exact .nil
  | cons nd nds ih =>
    intro stay change
    rw [samplerPass]
    split
    · exact (ih (nd.deps.map SamplerDep.slot ++ stay) (nd.slot :: change)).cons nd
    · exact List.perm_middle.trans ((ih stay change).cons nd)

theorem samplerGroups_perm : ∀ (n : Nat) (nds : List (SamplerNode F)), nds.length ≤ n →
    (samplerGroups nds).flatten.Perm nds := by
  intro n
  induction n with
  | zero =>
    intro nds h
    have : nds = [] := List.length_eq_zero_iff.mp (by omega)
    subst this
    exact .nil
  | succ n ih =>
    intro nds h
    cases nds with
    | nil => exact .nil
    | cons nd nds =>
      rw [samplerGroups_cons, List.flatten_cons]
      have h1 := samplerPass_length (nd :: nds) [] []
      have h2 : 0 < (samplerPass [] [] (nd :: nds)).1.length := by simp [samplerPass]
      exact ((ih _ (by omega)).append_left _).trans (samplerPass_perm _ _ _)

theorem samplingGroups_perm (size : Nat) (nds : List (SamplerNode F)) : (samplingGroups size nds).flatten.Perm nds := by
  unfold samplingGroups
  split
  · simp
  · exact samplerGroups_perm _ nds le_rfl

theorem Nodes.groups {ord : List Var → List Var} {s : State F} {nds : List (SamplerNode F)} (h : Nodes ord s nds)
    (size : Nat) : ∀ g ∈ samplingGroups size nds, Nodes ord s g := by
  intro g hg nd hnd
  exact h nd ((samplingGroups_perm size nds).mem_iff.mp (List.mem_flatten.mpr ⟨g, hg, hnd⟩))

theorem sampleFrom_ok {ord : List Var → List Var} {s : State F} (hs : Core s) (draw : Nat → Nat → F) (size : Nat)
    (steps : Nat × Nat) (n : Nat) {nds : List (SamplerNode F)} (hn : Nodes ord s nds) {c : List Nat} (hc : s.IsSample c) :
    ∃ l, s.sampleFrom draw size steps n nds c = .ok l ∧ l.length = n ∧ ∀ x ∈ l, s.IsSample x := by
  obtain ⟨c1, h1, h2⟩ := evolve_ok hs draw size (hn.groups size) steps.2 ⟨c, fun _ => 0⟩ hc
  obtain ⟨l, h3, h4⟩ := takeSamples_ok hs draw size steps.1 (hn.groups size) n c1 h2
  refine ⟨l, ?_, h4⟩
  unfold sampleFrom
  simp only
  rw [h1]
  exact h3

theorem IsSample.quiet {s s' : State F} (h : Quiet s s') {c : List Nat} : s'.IsSample c ↔ s.IsSample c := by
  unfold IsSample
  rw [h.vars, h.evidences]

/-- What drawing samples does. -/
theorem samplesBody_ok {ord : List Var → List Var} (hord : ∀ l, (ord l).Perm l) (rnd : Random F) (ctx : SampleContext)
    (threads : Nat) {s : State F} (hs : Inv s) :
    ∃ s' l, samplesBody ord rnd ctx threads s = .ok s' l ∧ Remerged ord (sampled ord s) s s' ∧
      l.length = ctx.samples ∧ ∀ c ∈ l, s.IsSample c := by
  obtain ⟨s', c, nds, h1, h2, h3, h4⟩ := makeSamplerNodes_ok hord hs
  have hs' := h3.inv hs
  have hnd : Nodes ord s' nds := by
    intro nd hnd
    obtain ⟨i, hi, rfl⟩ := List.getElem_of_mem hnd
    have := h4.get (by rw [h4.length_eq]; exact hi) hi
    have hv := (sampled_perm hord hs).mem_iff.mp (List.get_mem (sampled ord s) ⟨i, by rw [h4.length_eq]; exact hi⟩)
    refine ⟨_, ?_, (NodeOf.quiet h3.toQuiet).mpr this⟩
    unfold obs
    rw [h3.evidences]
    exact (mem_hid.mp hv).2
  obtain ⟨l, h5, h6, h7⟩ := sampleFrom_ok hs'.toCore (rnd.draw ctx.seed) threads (ctx.steps rnd.tenth) ctx.samples hnd
    ((IsSample.quiet h3.toQuiet).mpr h2)
  refine ⟨s', l, ?_, h3, h6, fun c hc => (IsSample.quiet h3.toQuiet).mp (h7 c hc)⟩
  unfold samplesBody
  rw [h1]
  simp only
  unfold lift
  beta_reduce
  rw [h5]

/-- Drawing samples keeps the caches sound. -/
theorem Remerged.asked {ord : List Var → List Var} (hord : ∀ l, (ord l).Perm l) {l : List Var} {s s' : State F}
    (h : Remerged ord l s s') : Asked s s' := by
  refine ⟨h.toQuiet, h.inv, fun _ v _ _ hc m hm => ?_⟩
  by_cases hl : v ∈ l
  · obtain ⟨m', h1, h2, _⟩ := (h.mrg v).2 hl
    rw [hm] at h1
    cases h1
    exact ⟨ord, hord, by rw [h.toQuiet.mergedVal]; exact h2⟩
  · rw [(h.mrg v).1 hl] at hm
    obtain ⟨ord', h1, h2⟩ := hc m hm
    exact ⟨ord', h1, by rw [h.toQuiet.mergedVal]; exact h2⟩

theorem samplesBody_asked {ord : List Var → List Var} (hord : ∀ l, (ord l).Perm l) (rnd : Random F) (ctx : SampleContext)
    (n : Nat) : KeepsI (samplesBody ord rnd ctx n) := by
  intro s hs
  obtain ⟨s', l, h1, h2, _⟩ := samplesBody_ok hord rnd ctx n hs
  rw [h1]
  exact h2.asked hord

theorem makeSamples_asked {ord : List Var → List Var} (hord : ∀ l, (ord l).Perm l) (rnd : Random F) (ctx : SampleContext)
    (n : Nat) : KeepsI (makeSamples ord rnd ctx n) := withPool_asked n (samplesBody_asked hord rnd ctx n)

/-- What `makeSamples` does. -/
theorem makeSamples_ok {ord : List Var → List Var} (hord : ∀ l, (ord l).Perm l) (rnd : Random F) (ctx : SampleContext)
    {n : Nat} (hn : 1 ≤ n) {s : State F} (hs : Inv s) (hp : s.pool.isSome) :
    ∃ s' l, makeSamples ord rnd ctx n s = .ok s' l ∧ Asked s s' ∧ (∀ v, s'.activeOf v = s.activeOf v) ∧
      s'.last = s.last ∧ s'.pool = some 1 ∧
      (∀ v, (v ∉ sampled ord s → s'.mrg v = s.mrg v) ∧
        (v ∈ sampled ord s → ∃ m, s'.mrg v = some m ∧ s.mergedVal ord v = .ok m ∧ m.Unary v)) ∧
      l.length = ctx.samples ∧ ∀ c ∈ l, s.IsSample c := by
  have h0 : setPoolSize n s = .ok { s with pool := some n } () := by
    unfold setPoolSize
    obtain ⟨k, hk⟩ := Option.isSome_iff_exists.mp hp
    rw [hk]
    simp only
    by_cases h1 : n = k
    · subst h1
      rw [if_pos rfl]
      cases s
      simp only at hk
      rw [hk]
    · rw [if_neg h1, if_neg (by omega)]
  have hlight : ∀ (x : State F) (m : Option Nat), Asked x { x with pool := m } :=
    fun x m => Asked.light rfl rfl rfl rfl rfl rfl rfl rfl rfl rfl
  have ha0 := hlight s (some n)
  obtain ⟨s', l, h1, h2, h3, h4⟩ := samplesBody_ok hord rnd ctx n (ha0.inv hs)
  refine ⟨s'.resetPool, l, ?_, (ha0.trans (h2.asked hord)).trans (hlight s' (some 1)), h2.activeOf, h2.last, rfl, ?_, h3, h4⟩
  · unfold makeSamples withPool
    rw [h0]
    simp only
    rw [h1]
  · intro v
    have := h2.mrg v
    rw [ha0.toQuiet.mergedVal] at this
    exact this

/-! ### Arithmetics in which products do not depend on the order -/

/-- The product of unary factors does not depend on their order. -/
def Mixes (F : Type) [Arith F] : Prop := ∀ (v : Var) (fs fs' : List (Fn F)), fs.Perm fs' → (∀ f ∈ fs, f.Unary v) →
  Fn.mergedUnaries fs = Fn.mergedUnaries fs'

theorem Mixes.mergedVal (h : Mixes F) {ord ord' : List Var → List Var} (hord : ∀ l, (ord l).Perm l)
    (hord' : ∀ l, (ord' l).Perm l) {s : State F} (hs : Core s) {v : Var} (hv : v ∈ s.vars) (ho : v ∉ s.obs) :
    s.mergedVal ord v = s.mergedVal ord' v := by
  obtain ⟨n, us, ms, hn, hg, hus, hms, h3, h4⟩ := gather_ok hord hs hv ho
  obtain ⟨n', us', ms', hn', hg', hus', hms', h3', h4'⟩ := gather_ok hord' hs hv ho
  rw [hn] at hn'
  cases hn'
  have hudet : ∀ {l : List Nat} {a b : List (Fn F)}, List.Forall₂ (fun p f => s.heap[p]? = some f) l a →
      List.Forall₂ (fun p f => s.heap[p]? = some f) l b → a = b := by
    intro l a b ha
    induction ha generalizing b with
    | nil => intro h; cases h; rfl
    | cons h1 _ ih =>
      intro h
      cases h with
      | cons g1 g2 => rw [h1] at g1; cases g1; rw [ih g2]
  have hu := hudet hus hus'
  subst hu
  have hdet : ∀ {l : List Var} {a b : List (Fn F)},
      List.Forall₂ (fun w m => ∃ c, s.dis v w = some c ∧ c.message = some m) l a →
      List.Forall₂ (fun w m => ∃ c, s.dis v w = some c ∧ c.message = some m) l b → a = b := by
    intro l a b ha
    induction ha generalizing b with
    | nil => intro h; cases h; rfl
    | cons h1 _ ih =>
      intro h
      cases h with
      | cons g1 g2 =>
        obtain ⟨c, e1, e2⟩ := h1
        obtain ⟨c', e3, e4⟩ := g1
        rw [e1] at e3; cases e3
        rw [e2] at e4; cases e4
        rw [ih g2]
  have hm : ms.Perm ms' := by
    obtain ⟨z, hz1, hz2⟩ := (List.perm_comp_forall₂ ((hord' _).trans (hord _).symm) hms)
    rw [hdet hms' hz1]
    exact hz2.symm
  have hp := hm.append_left us
  unfold State.mergedVal
  rw [hn]
  simp only
  unfold mergedOf
  rw [hg, hg']
  have key := h v (us ++ ms) (us ++ ms') hp (by
    intro f hf
    rcases List.mem_append.mp hf with hf | hf
    · exact h3 f hf
    · exact h4 f hf)
  revert key hp
  generalize us ++ ms = a
  generalize us ++ ms' = b
  intro hp key
  cases a with
  | nil => rw [List.nil_perm.mp hp]
  | cons x a =>
    cases b with
    | nil => exact absurd hp.length_eq (by simp)
    | cons y b => exact key

theorem ext_mixes {K : Type} [Field K] [LinearOrder K] [FloatParams K] : Mixes (Ext K) := by
  intro v fs fs' hp hu
  by_cases hne : fs = []
  · subst hne; rw [List.nil_perm.mp hp]
  · have hr : RightCommutative (fun (a b : Ext K) => Arith.mul a b) := by
      constructor
      intro a b c
      cases a <;> cases b <;> cases c <;> simp [mul_assoc, mul_comm, mul_left_comm]
    have hprod : Fn.prodImg fs = Fn.prodImg fs' := by
      funext i
      have h1 : ∀ l : List (Fn (Ext K)), Fn.prodImg l i = (l.map (fun f => f.timg [i])).foldl (fun a b => Arith.mul a b) Arith.one := by
        intro l
        unfold Fn.prodImg
        rw [List.foldl_map]
      rw [h1, h1]
      exact (hp.map _).foldl_eq _
    rw [Fn.mergedUnaries_form hne hu, Fn.mergedUnaries_form (v := v) (fs := fs')
      (by rintro rfl; exact hne (List.perm_nil.mp hp)) (fun f hf => hu f (hp.mem_iff.mpr hf)), hprod]

end State
end EFG
