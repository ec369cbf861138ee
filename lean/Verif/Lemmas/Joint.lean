import Verif.Spec.Joint
import Verif.Lemmas.JointExact
import Verif.Lemmas.Conditional
import Verif.Lemmas.Merge
/-
The joint distribution computed by the library.
-/

set_option linter.unusedSectionVars false

namespace EFG

namespace State
variable {K : Type} [Field K] [LinearOrder K] [IsStrictOrderedRing K] [FloatParams K]

/-! ### Gathering the contributions -/

section
variable {F : Type} [Arith F]

theorem Inv.locateAll {s : State F} (hs : Inv s) {vs : List Var} (hv : ∀ v ∈ vs, v ∈ s.vars) :
    ∃ locs, s.locateAll vs = .ok locs ∧ locs.map Prod.fst = vs ∧ ∀ e ∈ locs, s.locate e.1 = some e := by
  induction vs with
  | nil => exact ⟨[], rfl, rfl, by simp⟩
  | cons v vs ih =>
    obtain ⟨locs, h1, h2, h3⟩ := ih (fun w hw => hv w (by simp [hw]))
    obtain ⟨loc, h4⟩ := hs.locate_mem (hv v (by simp))
    refine ⟨(v, loc) :: locs, ?_, by simp [h2], ?_⟩
    · simp only [State.locateAll, h4, h1]
    · intro e he
      rcases List.mem_cons.1 he with rfl | he
      · exact h4
      · exact h3 e he

/-- What a variable contributes to the joint distribution of the variables `G`. -/
def contribs (s : State F) (G : List Var) (v : Var) : List Contribution :=
  if v ∈ s.obs then [.indicator v (s.ev v)]
  else .merged v :: (s.activeOf v).map (fun x =>
    if G.contains x.1 then .factor x.2.factor else .message { owner := v, from_ := x.1 })

theorem Inv.contributionsOf {s : State F} (hs : Inv s) (hm : ∀ u ∈ s.hid, (s.mrg u).isSome) {G : List Var}
    {e : Var × Loc} (hv : e.1 ∈ s.vars) (he : s.locate e.1 = some e) :
    s.contributionsOf G e = .ok (s.contribs G e.1) ∧ (e.2.isObserved = true ↔ e.1 ∈ s.obs) := by
  obtain ⟨v, loc⟩ := e
  simp only at hv he
  by_cases ho : v ∈ s.obs
  · rw [hs.toCore.locate_observed ho] at he
    cases he
    obtain ⟨k, hk⟩ := AMap.mem_keys.mp ho
    have hlt := hs.obsVal v k hk
    simp only [State.contributionsOf, contribs, hk, if_pos ho, Loc.isObserved, ho, and_true]
    rw [if_neg (by omega)]
    unfold State.ev
    rw [hk]
    rfl
  · obtain ⟨i, c, _, _, h⟩ := hs.locate_hidden hv ho
    rw [h] at he
    cases he
    obtain ⟨m, hmm⟩ := Option.isSome_iff_exists.mp (hm v (mem_hid.mpr ⟨hv, ho⟩))
    obtain ⟨n, hn⟩ := node?_of_mem (s := s) (v := v) (by rw [hs.net.keys]; exact hv)
    unfold State.mrg at hmm
    rw [hn] at hmm
    simp only at hmm
    simp only [State.contributionsOf, hn, hmm, contribs, if_neg ho, activeOf, Loc.isObserved, ho]
    simp

theorem jointOf_eq {s : State F} (hs : Inv s) (hm : ∀ u ∈ s.hid, (s.mrg u).isSome)
    (ord : List Var → List Var) (sh : List Contribution → List Contribution) {g : Group}
    (hv : ∀ v ∈ g.group, v ∈ s.vars) :
    (2 ≤ (g.group.filter (fun v => v ∈ s.obs)).length → s.jointOf ord sh g = .ub) ∧
    ∀ fs m, (g.group.filter (fun v => v ∈ s.obs)).length ≤ 1 →
      Res.mapList s.contribution (sh (g.group.flatMap (s.contribs g.group)).dedup) = .ok fs →
      Fn.merge ord fs = .ok m → s.jointOf ord sh g = m.cloneWithPermutedGroup g := by
  obtain ⟨locs, h1, h2, h3⟩ := hs.locateAll hv
  have hmem : ∀ e ∈ locs, e.1 ∈ s.vars := fun e he => hv _ (by rw [← h2]; exact List.mem_map.2 ⟨e, he, rfl⟩)
  have hc := Res.mapList_ok (l := locs) (f := s.contributionsOf (locs.map Prod.fst))
    (g := fun e => s.contribs g.group e.1) (fun e he => by
      rw [h2]; exact (hs.contributionsOf hm (hmem e he) (h3 e he)).1)
  have hfl : (locs.filter (fun e => e.2.isObserved)).length = (g.group.filter (fun v => v ∈ s.obs)).length := by
    have : locs.filter (fun e => e.2.isObserved) = locs.filter (fun e => decide (e.1 ∈ s.obs)) := by
      refine List.filter_congr (fun e he => ?_)
      have := (hs.contributionsOf hm (G := g.group) (hmem e he) (h3 e he)).2
      by_cases ho : e.1 ∈ s.obs
      · simp [ho, this.mpr ho]
      · have h' : e.2.isObserved ≠ true := fun h => ho (this.mp h)
        simp [ho, h']
    rw [this, ← h2, List.filter_map, List.length_map]
    rfl
  have hfm : (locs.map (fun e => s.contribs g.group e.1)).flatten = g.group.flatMap (s.contribs g.group) := by
    rw [← h2, List.flatMap_map]
    rfl
  unfold State.jointOf
  rw [h1]
  simp only
  rw [hc]
  simp only
  rw [hfl, hfm]
  constructor
  · intro h
    rw [if_pos h]
  · intro fs m h e1 e2
    rw [if_neg (by omega), e1]
    simp only
    rw [e2]

end

/-! ### The list of the contributions -/

/-- The contributions to the joint distribution of the variables `G`, each once. -/
def contribList (s : State (Ext K)) (G : List Var) : List Contribution :=
  (G.filter (fun v => v ∉ s.obs)).map .merged ++
  (G.filter (fun v => v ∉ s.obs)).flatMap (fun v =>
    ((AMap.keys (s.activeOf v)).filter (fun w => w ∉ G)).map (fun w => .message ⟨v, w⟩)) ++
  (s.edges (G.filter (fun v => v ∉ s.obs))).map .factor ++
  (G.filter (fun v => v ∈ s.obs)).map (fun v => .indicator v (s.ev v))

theorem Core.contribList_nodup {s : State (Ext K)} (hs : Core s) {G : List Var} (hG : G.Nodup) :
    (s.contribList G).Nodup := by
  unfold contribList
  have hGh : (G.filter (fun v => v ∉ s.obs)).Nodup := hG.filter _
  have hGo : (G.filter (fun v => v ∈ s.obs)).Nodup := hG.filter _
  refine List.nodup_append.2 ⟨List.nodup_append.2 ⟨List.nodup_append.2 ⟨?_, ?_, ?_⟩, ?_, ?_⟩, ?_, ?_⟩
  · exact hGh.map (fun a b h => by cases h; rfl)
  · rw [List.nodup_flatMap]
    constructor
    · intro v _
      exact ((hs.net.nodup v).1.filter _).map (fun a b h => by cases h; rfl)
    · refine List.Pairwise.imp (fun {u v} huv => ?_) hGh
      intro c hc hc'
      obtain ⟨w, _, rfl⟩ := List.mem_map.1 hc
      obtain ⟨w', _, h⟩ := List.mem_map.1 hc'
      cases h
      exact huv rfl
  · intro c hc c' hc' h
    subst h
    obtain ⟨u, _, rfl⟩ := List.mem_map.1 hc
    obtain ⟨v, _, h⟩ := List.mem_flatMap.1 hc'
    obtain ⟨w, _, h⟩ := List.mem_map.1 h
    cases h
  · exact (hs.edges_nodup hGh).map (fun a b h => by cases h; rfl)
  · intro c hc c' hc' h
    subst h
    obtain ⟨u, _, rfl⟩ := List.mem_map.1 hc'
    rcases List.mem_append.1 hc with h | h
    · obtain ⟨w, _, h⟩ := List.mem_map.1 h
      cases h
    · obtain ⟨v, _, h⟩ := List.mem_flatMap.1 h
      obtain ⟨w, _, h⟩ := List.mem_map.1 h
      cases h
  · exact hGo.map (fun a b h => by cases h; rfl)
  · intro c hc c' hc' h
    subst h
    obtain ⟨u, _, rfl⟩ := List.mem_map.1 hc'
    rcases List.mem_append.1 hc with h | h
    · rcases List.mem_append.1 h with h | h
      · obtain ⟨w, _, h⟩ := List.mem_map.1 h
        cases h
      · obtain ⟨v, _, h⟩ := List.mem_flatMap.1 h
        obtain ⟨w, _, h⟩ := List.mem_map.1 h
        cases h
    · obtain ⟨w, _, h⟩ := List.mem_map.1 h
      cases h

theorem Core.act_of_lnk {s : State (Ext K)} (hs : Core s) {u w : Var} {p : Nat} (hu : u ∉ s.obs) (hw : w ∉ s.obs)
    (hl : s.lnk u w = some p) : (s.act u w).isSome := by
  cases hc : s.act u w with
  | some c => rfl
  | none =>
    cases hd : s.dis u w with
    | none => unfold State.lnk at hl; rw [hc, hd] at hl; cases hl
    | some c =>
      rcases hs.disObs u w (by rw [hd]; rfl) with h | h
      · exact absurd h hu
      · exact absurd h hw

theorem Core.contribs_perm {s : State (Ext K)} (hs : Core s) (hsep : Separated s) {G : List Var} (hG : G.Nodup) :
    (G.flatMap (s.contribs G)).dedup.Perm (s.contribList G) := by
  rw [List.perm_ext_iff_of_nodup (List.nodup_dedup _) (hs.contribList_nodup hG)]
  intro c
  rw [List.mem_dedup, List.mem_flatMap]
  unfold contribList
  simp only [List.mem_append, List.mem_map, List.mem_flatMap, List.mem_filter, decide_eq_true_eq]
  constructor
  · rintro ⟨v, hv, hc⟩
    unfold contribs at hc
    by_cases ho : v ∈ s.obs
    · rw [if_pos ho, List.mem_singleton] at hc
      exact Or.inr ⟨v, ⟨hv, ho⟩, hc.symm⟩
    · rw [if_neg ho] at hc
      rcases List.mem_cons.1 hc with rfl | hc
      · exact Or.inl (Or.inl (Or.inl ⟨v, ⟨hv, ho⟩, rfl⟩))
      · obtain ⟨⟨w, cn⟩, hx, rfl⟩ := List.mem_map.1 hc
        have hact : s.act v w = some cn := AMap.find?_of_mem (hs.net.nodup v).1 hx
        by_cases hw : w ∈ G
        · have hwo : w ∉ s.obs := hsep v w ho (by rw [hact]; rfl)
          refine Or.inl (Or.inr ⟨cn.factor, ?_, by simp [hw]⟩)
          exact hs.net.edges_mem (u := v) (w := w) (List.mem_filter.2 ⟨hv, by simp [ho]⟩)
            (List.mem_filter.2 ⟨hw, by simp [hwo]⟩) (lnk_of_act hact)
        · refine Or.inl (Or.inl (Or.inr ⟨v, ⟨hv, ho⟩, w, ⟨AMap.mem_keys.mpr ⟨cn, hact⟩, hw⟩, by simp [hw]⟩))
  · rintro (((⟨v, ⟨hv, ho⟩, rfl⟩ | ⟨v, ⟨hv, ho⟩, w, ⟨hw, hwG⟩, rfl⟩) | ⟨p, hp, rfl⟩) | ⟨v, ⟨hv, ho⟩, rfl⟩)
    · exact ⟨v, hv, by unfold contribs; rw [if_neg ho]; simp⟩
    · obtain ⟨cn, hcn⟩ := AMap.mem_keys.mp hw
      refine ⟨v, hv, ?_⟩
      unfold contribs
      rw [if_neg ho]
      exact List.mem_cons_of_mem _ (List.mem_map.2 ⟨(w, cn), AMap.find?_mem hcn, by simp [hwG]⟩)
    · obtain ⟨u, hu, w, hw, hl⟩ := mem_edges hp
      simp only [List.mem_filter, decide_eq_true_eq] at hu hw
      obtain ⟨cn, hcn⟩ := Option.isSome_iff_exists.mp (hs.act_of_lnk hu.2 hw.2 hl)
      have := lnk_of_act hcn
      rw [hl] at this
      cases this
      refine ⟨u, hu.1, ?_⟩
      unfold contribs
      rw [if_neg hu.2]
      exact List.mem_cons_of_mem _ (List.mem_map.2 ⟨(w, cn), AMap.find?_mem hcn, by simp [hw.1]⟩)
    · exact ⟨v, hv, by unfold contribs; rw [if_pos ho]; simp⟩

/-! ### Their values -/

/-- The image of a factor. -/
def imgF (s : State (Ext K)) (p : Nat) (a : Assign) : K :=
  match s.heap[p]? with
  | some f => (f.timg (f.vars.group.map a)).toK
  | none => 1

theorem Core.imgF_edges {s : State (Ext K)} (hs : Core s) (V : List Var) (a : Assign) :
    ((s.edges V).map (fun p => s.imgF p a)).prod = Tree.wgt (fun _ _ => 1) s.imgB V a := by
  induction V with
  | nil => rfl
  | cons u V ih =>
    rw [edges, List.map_append, List.prod_append, ih, Tree.wgt, one_mul]
    congr 1
    clear ih
    induction V with
    | nil => rfl
    | cons w V ih =>
      rw [List.map_cons, List.prod_cons, ← ih]
      cases hl : s.lnk u w with
      | none =>
        rw [List.filterMap_cons_none hl]
        unfold imgB
        rw [hl, one_mul]
      | some p =>
        rw [List.filterMap_cons_some hl, List.map_cons, List.prod_cons]
        congr 1
        obtain ⟨_, f, hf, hb⟩ := hs.link u w p hl
        unfold imgF imgB
        rw [hl]
        simp only
        rw [hf]
        simp only
        rw [hb.bimg_map]

/-- The value of a contribution. -/
def contribVal (s : State (Ext K)) (μ : Var → Var → Nat → {x : K // 0 ≤ x}) (a : Assign) : Contribution → K
  | .merged v => s.psiK v (a v)
  | .message r => (μ r.from_ r.owner (a r.owner)).1
  | .factor p => s.imgF p a
  | .indicator v k => if a v = k then 1 else 0

theorem isVal_of_inDom {f : Fn (Ext K)} (hf : f.WF)
    (h : ∀ a : Assign, InDom f.vars.group a → (f.timg (f.vars.group.map a)).IsVal) :
    ∀ q, Valid f.sizes q → (f.timg q).IsVal := by
  intro q hq
  have hl : q.length = f.vars.group.length := by
    have := hq.length; rw [hf.sizes'] at this; simpa using this
  have hm := map_assignOf hf.nodup hl
  rw [← hm]
  refine h _ ?_
  rw [← hf.valid_map, hm]
  exact hq

/-- What is needed of a contribution. -/
structure Contributes (s : State (Ext K)) (G : List Var) (val : Assign → K) (c : Contribution) (f : Fn (Ext K)) (κ : K) :
    Prop where
  find : s.contribution c = .ok f
  wf : f.WF
  sub : ∀ v ∈ f.vars.group, v ∈ G
  pos : 0 < κ
  val : ∀ a, InDom f.vars.group a → f.timg (f.vars.group.map a) = .val (κ * val a)
  own : ∀ v, (c = .merged v ∨ ∃ k, c = .indicator v k) → v ∈ f.vars.group

theorem contributes {s : State (Ext K)} (hH : Healthy s) (hF : Faithful s) (hN : Numeric s) {r : PropResult}
    (hl : s.last = some r) {G : List Var} {μ : Var → Var → Nat → {x : K // 0 ≤ x}} {b : Assign} (hbr : s.InRange b)
    (hsub : ∀ v ∈ G, v ∈ s.vars)
    (hpsi : ∀ g ∈ G, g ∈ s.hid → s.psiK g (b g) ≠ 0)
    (hmsg : ∀ g ∈ G, g ∈ s.hid → ∀ w, s.adj w g → ∃ m, s.msg g w = some m ∧ ∃ c : K, 0 < c ∧
      ∀ j < g.size, m.timg [j] = .val (c * (μ w g j).1)) {c : Contribution} (hc : c ∈ s.contribList G) :
    ∃ f κ, Contributes s G (fun a => s.contribVal μ a c) c f κ := by
  have hs := hH.inv.toCore
  have hal := (hF.fresh r hl).alive hH.inv
  have hty := (hF.fresh r hl).typed
  unfold contribList at hc
  simp only [List.mem_append, List.mem_map, List.mem_flatMap, List.mem_filter, decide_eq_true_eq] at hc
  have hone : ∀ {v : Var} {m : Fn (Ext K)} {κ : K} {x : Nat → K}, m.Unary v → (∀ j < v.size, m.timg [j] = .val (κ * x j)) →
      ∀ a, InDom m.vars.group a → m.timg (m.vars.group.map a) = .val (κ * x (a v)) := by
    intro v m κ x hu hv a ha
    have h' := ha v (by rw [hu.vars]; simp)
    rw [hu.vars]
    exact hv _ h'
  rcases hc with ((⟨v, ⟨hv, ho⟩, rfl⟩ | ⟨v, ⟨hv, ho⟩, w, ⟨hw, hwG⟩, rfl⟩) | ⟨p, hp, rfl⟩) | ⟨v, ⟨hv, ho⟩, rfl⟩
  · have hh : v ∈ s.hid := mem_hid.mpr ⟨hsub v hv, ho⟩
    obtain ⟨m, hm⟩ := Option.isSome_iff_exists.mp (hal.mrg v hh)
    obtain ⟨c, hc, hval⟩ := merged_val hs hH.sep hF.coh hF.evid hN hh hm ⟨b v, hbr v (hsub v hv), hpsi v hv hh⟩
    have hu := hs.mrgT v m hm
    refine ⟨m, c, ?_, hu.wf, ?_, hc, hone hu hval, ?_⟩
    · unfold State.mrg at hm
      unfold contribution
      simp only
      cases hn : s.node? v with
      | none => rw [hn] at hm; cases hm
      | some n =>
        rw [hn] at hm
        simp only at hm ⊢
        rw [hm]; rfl
    · intro x hx
      rw [hu.vars, List.mem_singleton] at hx
      rw [hx]; exact hv
    · rintro x (h | ⟨k, h⟩) <;> cases h
      rw [hu.vars]; simp
  · have hh : v ∈ s.hid := mem_hid.mpr ⟨hsub v hv, ho⟩
    obtain ⟨cn, hcn⟩ := AMap.mem_keys.mp hw
    have hact : (s.act v w).isSome := by unfold State.act; rw [hcn]; rfl
    have hwh : w ∈ s.hid := mem_hid.mpr ⟨(hs.act_vars hact).2, hH.sep v w ho hact⟩
    obtain ⟨m, hm, c, hc, hval⟩ := hmsg v hv hh w ⟨hwh, hh, hs.net.symA _ _ hact⟩
    have hu := hty v w m ho hm
    refine ⟨m, c, ?_, hu.wf, ?_, hc, hone hu hval, ?_⟩
    · unfold State.msg State.act at hm
      unfold contribution conn?
      simp only
      rw [hcn] at hm ⊢
      simp only [Option.bind_some] at hm ⊢
      rw [hm]; rfl
    · intro x hx
      rw [hu.vars, List.mem_singleton] at hx
      rw [hx]; exact hv
    · rintro x (h | ⟨k, h⟩) <;> cases h
  · obtain ⟨u, hu, w, hw, hl⟩ := mem_edges hp
    simp only [List.mem_filter, decide_eq_true_eq] at hu hw
    obtain ⟨_, f, hf, hb⟩ := hs.link u w p hl
    refine ⟨f, 1, ?_, hb.wf, ?_, one_pos, ?_, ?_⟩
    · exact deref_eq hf
    · intro x hx
      rcases hb.vars with h | h <;> rw [h] at hx <;> simp at hx <;> rcases hx with rfl | rfl
      exacts [hu.1, hw.1, hw.1, hu.1]
    · intro a ha
      have h1 : a u < u.size ∧ a w < w.size := by
        rcases hb.vars with h | h <;> rw [h] at ha
        · exact ⟨ha u (by simp), ha w (by simp)⟩
        · exact ⟨ha u (by simp), ha w (by simp)⟩
      have h2 := (hN.bin u w p f hl hf _ h1.1 _ h1.2).1
      rw [← hb.bimg_map] at h2
      simp only [contribVal, imgF, hf, one_mul]
      exact h2.eq
    · rintro x (h | ⟨k, h⟩) <;> cases h
  · have hlt := hs.ev_lt ho
    obtain ⟨m, h1, h2, _, h4⟩ := Fn.indicator_eq (F := Ext K) hlt
    refine ⟨m, 1, h1, h2.wf, ?_, one_pos, ?_, ?_⟩
    · intro x hx
      rw [h2.vars, List.mem_singleton] at hx
      rw [hx]; exact hv
    · refine hone h2 (x := fun i => if i = s.ev v then 1 else 0) (κ := 1) ?_
      intro j hj
      rw [h4 j hj, one_mul]
      split <;> rfl
    · rintro x (h | ⟨k, h⟩) <;> cases h
      rw [h2.vars]; simp

theorem prod_map_nonneg {α : Type v} {l : List α} {f : α → K} (h : ∀ x ∈ l, 0 ≤ f x) : 0 ≤ (l.map f).prod := by
  induction l with
  | nil => simp
  | cons x l ih =>
    rw [List.map_cons, List.prod_cons]
    exact mul_nonneg (h x (by simp)) (ih (fun y hy => h y (by simp [hy])))

theorem prod_map_pos {α : Type v} {l : List α} {f : α → K} (h : ∀ x ∈ l, 0 < f x) : 0 < (l.map f).prod := by
  induction l with
  | nil => simp
  | cons x l ih =>
    rw [List.map_cons, List.prod_cons]
    exact mul_pos (h x (by simp)) (ih (fun y hy => h y (by simp [hy])))

/-- The joint distribution, as a product. -/
theorem jointOf_val {ord : List Var → List Var} (hord : ∀ l, (ord l).Perm l)
    {sh : List Contribution → List Contribution} (hsh : ∀ l, (sh l).Perm l) {s : State (Ext K)}
    (hH : Healthy s) (hF : Faithful s) (hN : Numeric s) {r : PropResult}
    (hl : s.last = some r) {g : Group} (hg : g.WF) (hsub : ∀ v ∈ g.group, v ∈ s.vars) (hne : g.group ≠ [])
    (hobs : (g.group.filter (fun v => v ∈ s.obs)).length ≤ 1)
    {μ : Var → Var → Nat → {x : K // 0 ≤ x}} {b : Assign} (hbr : s.InRange b)
    (hpsi : ∀ v ∈ g.group, v ∈ s.hid → s.psiK v (b v) ≠ 0)
    (hmsg : ∀ v ∈ g.group, v ∈ s.hid → ∀ w, s.adj w v → ∃ m, s.msg v w = some m ∧ ∃ c : K, 0 < c ∧
      ∀ j < v.size, m.timg [j] = .val (c * (μ w v j).1)) :
    ∃ f C, s.jointOf ord sh g = .ok f ∧ f.WF ∧ f.vars = g ∧ f.weight = none ∧ 0 < C ∧
      ∀ a, InDom g.group a → f.timg (g.group.map a) =
        .val (C * ((s.contribList g.group).map (s.contribVal μ a)).prod) := by
  have hs := hH.inv.toCore
  have hal := (hF.fresh r hl).alive hH.inv
  have hgn := hg.distinct.nodup
  set L := sh (g.group.flatMap (s.contribs g.group)).dedup with hL
  have hLp : L.Perm (s.contribList g.group) := (hsh _).trans (hs.contribs_perm hH.sep hgn)
  have hall : ∀ c, ∃ f κ, c ∈ L → Contributes s g.group (fun a => s.contribVal μ a c) c f κ := by
    intro c
    by_cases hc : c ∈ L
    · obtain ⟨f, κ, h⟩ := contributes hH hF hN hl hbr hsub hpsi hmsg (hLp.mem_iff.1 hc)
      exact ⟨f, κ, fun _ => h⟩
    · exact ⟨Fn.ofGroup g, 1, fun h => absurd h hc⟩
  choose fn κ hfn using hall
  have hmap := Res.mapList_ok (l := L) (f := s.contribution) (g := fn) (fun c hc => (hfn c hc).find)
  have hown : ∀ v ∈ g.group, ∃ c ∈ L, v ∈ (fn c).vars.group := by
    intro v hv
    by_cases ho : v ∈ s.obs
    · refine ⟨.indicator v (s.ev v), ?_, ?_⟩
      · rw [hLp.mem_iff]
        unfold contribList
        simp [hv, ho]
      · exact (hfn _ (by rw [hLp.mem_iff]; unfold contribList; simp [hv, ho])).own v (Or.inr ⟨_, rfl⟩)
    · refine ⟨.merged v, ?_, ?_⟩
      · rw [hLp.mem_iff]
        unfold contribList
        simp [hv, ho]
      · exact (hfn _ (by rw [hLp.mem_iff]; unfold contribList; simp [hv, ho])).own v (Or.inl rfl)
  have hfs : ∀ f ∈ L.map fn, ∃ c ∈ L, fn c = f := fun f hf => by simpa using hf
  obtain ⟨m, e1, e2, e3, e4, e5⟩ := Fn.merge_ok hord (factors := L.map fn) (by
      obtain ⟨v, hv⟩ := List.exists_mem_of_ne_nil _ hne
      obtain ⟨c, hc, _⟩ := hown v hv
      intro h
      rw [List.map_eq_nil_iff] at h
      rw [h] at hc
      simp at hc)
    (by intro f hf; obtain ⟨c, hc, rfl⟩ := hfs f hf; exact (hfn c hc).wf)
    (by
      intro v hv w hw he
      obtain ⟨f, hf, hv⟩ := List.mem_flatMap.1 hv
      obtain ⟨f', hf', hw⟩ := List.mem_flatMap.1 hw
      obtain ⟨c, hc, rfl⟩ := hfs f hf
      obtain ⟨c', hc', rfl⟩ := hfs f' hf'
      exact hs.net.distinct.eqv_eq (hsub _ ((hfn c hc).sub v hv)) (hsub _ ((hfn c' hc').sub w hw)) he)
    (by
      intro f hf
      obtain ⟨c, hc, rfl⟩ := hfs f hf
      refine isVal_of_inDom (hfn c hc).wf (fun a ha => ?_)
      rw [(hfn c hc).val a ha]
      exact Ext.isVal_val _)
  have hperm : g.group.Perm m.vars.group := by
    rw [List.perm_ext_iff_of_nodup hgn e2.nodup]
    intro v
    rw [e4]
    constructor
    · intro hv
      obtain ⟨c, hc, h⟩ := hown v hv
      exact ⟨fn c, List.mem_map.2 ⟨c, hc, rfl⟩, h⟩
    · rintro ⟨f, hf, hv⟩
      obtain ⟨c, hc, rfl⟩ := hfs f hf
      exact (hfn c hc).sub v hv
  obtain ⟨f', d1, d2, d3, d4, d5⟩ := e2.cloneWithPermutedGroup hg hperm
  refine ⟨f', (L.map κ).prod, ?_, d2, d3, d4, ?_, ?_⟩
  · rw [(jointOf_eq hH.inv hal.mrg ord sh hsub).2 _ m hobs hmap e1, d1]
  · exact prod_map_pos (fun c hc => (hfn c hc).pos)
  · intro a ha
    have ham : InDom m.vars.group a := fun v hv => ha v (hperm.mem_iff.2 hv)
    rw [Fn.timg_plain d4, d5 a ham, ← Fn.timg_plain e3, e5 a ham]
    congr 1
    rw [← (hLp.map _).prod_eq, ← List.prod_map_mul, List.map_map]
    congr 1
    refine List.map_congr_left (fun c hc => ?_)
    simp only [Function.comp]
    rw [(hfn c hc).val a (fun v hv => ha v ((hfn c hc).sub v hv)), Ext.toK_val]

/-- The product of the contributions. -/
theorem Core.contribList_prod {s : State (Ext K)} (hs : Core s) (G : List Var)
    (μ : Var → Var → Nat → {x : K // 0 ≤ x}) (a : Assign) :
    ((s.contribList G).map (s.contribVal μ a)).prod =
      Tree.wgt s.psiK s.imgB (G.filter (fun v => v ∉ s.obs)) a *
      ((G.filter (fun v => v ∉ s.obs)).map (fun v =>
        (((AMap.keys (s.activeOf v)).filter (fun w => w ∉ G)).map (fun w => (μ w v (a v)).1)).prod)).prod *
      ((G.filter (fun v => v ∈ s.obs)).map (fun v => if a v = s.ev v then (1 : K) else 0)).prod := by
  unfold contribList
  simp only [List.map_append, List.prod_append, List.map_map]
  have h1 : (List.map (s.contribVal μ a ∘ Contribution.factor) (s.edges (G.filter (fun v => v ∉ s.obs)))).prod =
      Tree.wgt (fun _ _ => 1) s.imgB (G.filter (fun v => v ∉ s.obs)) a := hs.imgF_edges _ a
  have h2 : ((List.flatMap (fun v => List.map (fun w => Contribution.message ⟨v, w⟩)
        ((AMap.keys (s.activeOf v)).filter (fun w => w ∉ G))) (G.filter (fun v => v ∉ s.obs))).map
        (s.contribVal μ a)).prod =
      ((G.filter (fun v => v ∉ s.obs)).map (fun v =>
        (((AMap.keys (s.activeOf v)).filter (fun w => w ∉ G)).map (fun w => (μ w v (a v)).1)).prod)).prod := by
    generalize G.filter (fun v => v ∉ s.obs) = H
    induction H with
    | nil => rfl
    | cons v H ih =>
      rw [List.flatMap_cons, List.map_append, List.prod_append, ih, List.map_cons, List.prod_cons, List.map_map]
      rfl
  rw [h1, h2, Tree.wgt_split s.psiK]
  have h3 : (List.map (s.contribVal μ a ∘ Contribution.merged) (G.filter (fun v => v ∉ s.obs))).prod =
      ((G.filter (fun v => v ∉ s.obs)).map (fun u => s.psiK u (a u))).prod := rfl
  have h4 : (List.map (s.contribVal μ a ∘ fun v => Contribution.indicator v (s.ev v)) (G.filter (fun v => v ∈ s.obs))).prod =
      ((G.filter (fun v => v ∈ s.obs)).map (fun v => if a v = s.ev v then (1 : K) else 0)).prod := rfl
  rw [h3, h4]
  ring

/-! ### The joint distribution -/

theorem Symmetric.imgB {s : State (Ext K)} (hH : Healthy s) {φ : Nat → Assign → K} (hφ : s.Images φ)
    (hy : s.Symmetric φ) {u w : Var} (hu : u ∈ s.hid) (hw : w ∈ s.hid) {i j : Nat} (hi : i < u.size) (hj : j < w.size) :
    s.imgB u w j i = s.imgB u w i j := by
  have hs := hH.inv.toCore
  cases hl : s.lnk u w with
  | none => unfold State.imgB; rw [hl]
  | some p =>
    obtain ⟨hp, f, hf, hb⟩ := hs.link u w p hl
    have hne := hb.ne
    let a : Assign := fun z => if z = u then i else if z = w then j else 0
    have hau : a u = i := by simp [a]
    have haw : a w = j := by simp [a, hne.symm]
    have ha : s.InRange a := by
      intro z hz
      simp only [a]
      split
      · rename_i h; rw [h]; exact hi
      · split
        · rename_i h; rw [h]; exact hj
        · exact hs.posV z hz
    have h1 := hφ.bin hs hl ha
    have h2 := hφ.bin hs hl (hH.exchange hl ha)
    have e1 : a.exchange u w u = j := by simp [Assign.exchange, haw]
    have e2 : a.exchange u w w = i := by simp [Assign.exchange, hne.symm, hau]
    rw [hau, haw] at h1
    rw [e1, e2] at h2
    rw [← h1, ← h2]
    rcases hb.vars with hv | hv
    · exact hy p u w ⟨hp, f, hf, hv⟩ (hidden_iff.mpr hu) (hidden_iff.mpr hw) a ha
    · have := hy p w u ⟨hp, f, hf, hv⟩ (hidden_iff.mpr hw) (hidden_iff.mpr hu) a ha
      have hx : a.exchange w u = a.exchange u w := by
        funext z
        unfold Assign.exchange
        by_cases h1 : z = w
        · subst h1; simp [hne.symm]
        · by_cases h2 : z = u
          · subst h2; simp [hne]
          · simp [h1, h2]
      rw [← hx]
      exact this

theorem OthersOf.agrees {s : State (Ext K)} (hs : Core s) {G W : List Var} (hW : s.OthersOf G W) {e : Assign}
    (he : s.Agrees e) {a : Assign} (ha : InDom G a) (hc : ∀ x ∈ s.evidences, x.1 ∈ G → a x.1 = x.2) {b : Assign}
    (h1 : ∀ u, u ∉ W → b u = if u ∈ G then a u else e u) (h2 : ∀ u ∈ W, b u < u.size) : s.Agrees b := by
  constructor
  · intro u hu
    by_cases huW : u ∈ W
    · exact h2 u huW
    · rw [h1 u huW]
      split
      · rename_i h; exact ha u h
      · exact he.1 u hu
  · intro u k hk
    have huo : u ∈ s.obs := observes_iff.mp ⟨k, hk⟩
    have huW : u ∉ W := fun h => (mem_hid.mp (hidden_iff.mp ((hW.2 u).mp h).1)).2 huo
    rw [h1 u huW]
    split
    · rename_i h; exact hc (u, k) hk h
    · exact he.2 u k hk

/-- What the messages give for some variables on trees which are joined by factors among themselves: the joint
distribution of the product of the factors, as the library reads them. -/
theorem contribs_read {s : State (Ext K)} (hH : Healthy s) {φ : Nat → Assign → K} (hφ : s.Images φ)
    {G : List Var} (hgn : G.Nodup) (hsub : ∀ v ∈ G, v ∈ s.vars) (hj : s.Joined G) {W : List Var}
    (hW : s.OthersOf G W) {e : Assign} (he : s.Agrees e) {e' : Assign} (he' : s.Agrees e')
    (hpos : s.readWeight φ e' ≠ 0) {μ : Var → Var → Nat → {x : K // 0 ≤ x}}
    (hμ1 : ∀ u w, ¬s.adj u w → ∀ j, μ u w j = 1)
    (hexact : ∀ P : List Var, P = G.filter (fun v => v ∉ s.obs) →
      (∀ g ∈ P, ∀ g' ∈ P, Relation.ReflTransGen s.adj g' g →
          Relation.ReflTransGen (fun a b => s.adj a b ∧ a ∈ P ∧ b ∈ P) g g') →
        ∀ W, s.hid.Perm (P ++ W) → ∃ Z : {x : K // 0 ≤ x}, ∀ E : Var → Var → Nat → Nat → {x : K // 0 ≤ x},
          (∀ u w i j, E u w i j = E w u j i) →
          (∀ u w, ¬(u ∈ P ∧ w ∈ P) → ∀ i j, E u w i j = s.edgeR sumQuant u w i j) → ∀ a,
          Tree.sumOver Var.size W (Tree.wgt (s.psiR sumQuant) E s.hid) a =
            Z * (Tree.wgt (s.psiR sumQuant) E P a *
              (P.map (fun g => (W.map (fun w => μ w g (a g))).prod)).prod)) :
    ∃ C : K, 0 < C ∧ ∀ a, InDom G a → ((s.contribList G).map (s.contribVal μ a)).prod =
      C * s.jointMass (s.readWeightIn G φ) W e G a := by
  have hs := hH.inv.toCore
  have hN := hφ.numeric hs
  set H := G.filter (fun v => v ∉ s.obs) with hHdef
  have hHn : H.Nodup := hgn.filter _
  have hmH : ∀ v, v ∈ H ↔ v ∈ G ∧ v ∈ s.hid := by
    intro v
    rw [hHdef, List.mem_filter, mem_hid]
    simp only [decide_eq_true_eq]
    constructor
    · rintro ⟨h1, h2⟩; exact ⟨h1, hsub v h1, h2⟩
    · rintro ⟨h1, _, h2⟩; exact ⟨h1, h2⟩
  have hw' : s.readWeight φ e' = s.codeK e' * s.restK e' := readWeight_eq hH hφ he'
  have hcode : s.codeK e' ≠ 0 := fun h => hpos (by rw [hw', h, zero_mul])
  have hrest : s.restK e' ≠ 0 := fun h => hpos (by rw [hw', h, mul_zero])
  have hcode0 : 0 ≤ s.codeK e' := by
    rw [← codeK_eq sumQuant hH hN he'.1]; exact sumQuant.nonneg _
  have hrest0 : 0 < s.restK e := by
    rw [he.rest he']
    refine lt_of_le_of_ne ?_ (Ne.symm hrest)
    have h0 : 0 ≤ s.readWeight φ e' := by
      unfold readWeight
      refine prod_map_nonneg (fun p hp => ?_)
      obtain ⟨_, _, _, h⟩ := hφ p hp _ (readAt_inRange hH hp he'.1)
      exact h
    rw [hw'] at h0
    exact nonneg_of_mul_nonneg_right h0 (lt_of_le_of_ne hcode0 (Ne.symm hcode))
  have hwR : Tree.wgt (s.psiR sumQuant) (s.edgeR sumQuant) s.hid e' ≠ 0 := by
    intro h
    apply hcode
    rw [← codeK_eq sumQuant hH hN he'.1, h]
    rfl
  have hperm : s.hid.Perm (H ++ W) := by
    rw [List.perm_ext_iff_of_nodup (hid_nodup hs.net)]
    · intro v
      rw [List.mem_append, hmH, hW.2, hidden_iff]
      by_cases h : v ∈ G <;> simp [h]
    · refine List.nodup_append.2 ⟨hHn, hW.1, ?_⟩
      intro v hv w hw h
      subst h
      exact ((hW.2 v).mp hw).2 ((hmH v).mp hv).1
  obtain ⟨Z, hZall⟩ := hexact H rfl (by
    intro u hu w hw hlink
    have h1 : s.Linked u w := by
      have : Relation.ReflTransGen s.adj u w := by
        clear hu
        induction hlink with
        | refl => exact .refl
        | tail _ h ih => exact .head (hs.adj_symm h) ih
      refine Relation.ReflTransGen.mono (fun x y h => ?_) _ _ this
      exact ⟨hidden_iff.mpr h.1, hidden_iff.mpr h.2.1,
        (hs.joins_hidden (hidden_iff.mpr h.1) (hidden_iff.mpr h.2.1)).mpr h.2.2⟩
    refine Relation.ReflTransGen.mono (fun x y h => ?_) _ _ (hj u ((hmH u).mp hu).1 w ((hmH w).mp hw).1 h1)
    obtain ⟨a1, a2, a3, a4, a5⟩ := h
    have b1 := hidden_iff.mp a3
    have b2 := hidden_iff.mp a4
    exact ⟨⟨b1, b2, (hs.joins_hidden a3 a4).mp a5⟩, (hmH x).mpr ⟨a1, b1⟩, (hmH y).mpr ⟨a2, b2⟩⟩) W hperm
  have hZ := hZall (s.edgeR sumQuant) (fun u w i j => hs.edgeR_symm sumQuant u w i j) (fun _ _ _ _ _ => rfl)
  have hZg := hZall (s.edgeRIn sumQuant G) (fun u w i j => hs.edgeRIn_symm sumQuant G u w i j)
    (fun u w h i j => edgeRIn_out sumQuant (fun h' => h ⟨(hmH u).mpr ⟨h'.1, h'.2.1⟩, (hmH w).mpr ⟨h'.2.2.1, h'.2.2.2⟩⟩) i j)
  have hZ0 : 0 < Z.1 := by
    refine lt_of_le_of_ne Z.2 (fun h => ?_)
    have h1 := Tree.le_sumOver_pos Var.size (Tree.wgt (s.psiR sumQuant) (s.edgeR sumQuant) s.hid) (W := W)
      (a := e') (b := e') (fun _ _ => rfl)
      (fun u hu => he'.1 u (mem_hid.mp (hidden_iff.mp ((hW.2 u).mp hu).1)).1)
    have hz : Z = 0 := Subtype.ext h.symm
    rw [hZ e', hz, zero_mul] at h1
    exact hwR (Subtype.ext (le_antisymm h1 (Subtype.property _)))
  -- the product of the contributions of the hidden variables
  have hval : ∀ a, InDom G a → ∀ b : Assign, (∀ v ∈ G, b v = a v) →
      (Tree.sumOver Var.size W (Tree.wgt (s.psiR sumQuant) (s.edgeRIn sumQuant G) s.hid) b).1 =
        Z.1 * (Tree.wgt s.psiK s.imgB H a *
          (H.map (fun v => (((AMap.keys (s.activeOf v)).filter (fun w => w ∉ G)).map
            (fun w => (μ w v (a v)).1)).prod)).prod) := by
    intro a ha b hba
    have hbH : ∀ v ∈ H, b v = a v := fun v hv => hba v ((hmH v).mp hv).1
    rw [hZg b]
    have hq : ∀ x : {x : K // 0 ≤ x}, x.1 = (sumQuant (K := K)).toK x := fun _ => rfl
    rw [hq, sumQuant.mul, sumQuant.mul]
    congr 1
    congr 1
    · rw [sumQuant.wgt, Tree.wgt_local hbH]
      refine Tree.wgt_congr hHn ?_ ?_
      · intro u hu
        exact sumQuant.toK_ofK _ (hN.psiK_nonneg hs u (ha u ((hmH u).mp hu).1))
      · intro u hu w hw _
        obtain ⟨hu1, hu2⟩ := (hmH u).mp hu
        obtain ⟨hw1, hw2⟩ := (hmH w).mp hw
        have hiu := ha u hu1
        have hiw := ha w hw1
        unfold edgeRIn
        by_cases h : s.adj u w
        · rw [if_pos h, if_pos ⟨hu1, hw1⟩]
          exact sumQuant.toK_ofK _ (hN.imgB_nonneg u w hiu hiw)
        · rw [if_neg h, sumQuant.one]
          cases hc : s.lnk u w with
          | none => unfold State.imgB; rw [hc]
          | some p => exact absurd ⟨hu2, hw2, hs.act_of_lnk (mem_hid.mp hu2).2 (mem_hid.mp hw2).2 hc⟩ h
    · rw [sumQuant.prod]
      congr 1
      refine List.map_congr_left (fun v hv => ?_)
      obtain ⟨hv1, hv2⟩ := (hmH v).mp hv
      rw [hbH v hv, sumQuant.prod]
      refine list_prod_subset hW.1 ((hs.net.nodup v).1.filter _) ?_ ?_
      · intro w hw
        rw [List.mem_filter] at hw
        obtain ⟨c, hc⟩ := AMap.mem_keys.mp hw.1
        have hact : (s.act v w).isSome := by unfold State.act; rw [hc]; rfl
        rw [hW.2, hidden_iff, mem_hid]
        exact ⟨⟨(hs.act_vars hact).2, hH.sep v w (mem_hid.mp hv2).2 hact⟩, by simpa using hw.2⟩
      · intro w hw hn
        have : ¬s.adj w v := by
          intro h
          apply hn
          rw [List.mem_filter]
          refine ⟨AMap.mem_keys.mpr (Option.isSome_iff_exists.mp (hs.net.symA _ _ h.2.2)), ?_⟩
          simpa using ((hW.2 w).mp hw).2
        rw [hμ1 w v this]
        rfl
  refine ⟨1 / (s.restK e * Z.1), div_pos one_pos (mul_pos hrest0 hZ0), ?_⟩
  intro a ha
  rw [hs.contribList_prod]
  unfold jointMass
  by_cases hc : ∀ x ∈ s.evidences, x.1 ∈ G → a x.1 = x.2
  · rw [if_pos hc]
    have hind : ((G.filter (fun v => v ∈ s.obs)).map (fun v => if a v = s.ev v then (1 : K) else 0)).prod = 1 := by
      refine Tree.prod_map_one (fun v hv => ?_)
      simp only [List.mem_filter, decide_eq_true_eq] at hv
      obtain ⟨k, hk⟩ := AMap.mem_keys.mp hv.2
      have h1 := hc (v, k) (AMap.find?_mem hk) hv.1
      have h2 : s.ev v = k := by unfold State.ev; rw [hk]; rfl
      rw [if_pos (by rw [h2]; exact h1)]
    set b : Assign := fun v => if v ∈ G then a v else e v with hb
    have hbobs : ∀ u ∈ s.obs, u ∉ W := fun u hu h => (mem_hid.mp (hidden_iff.mp ((hW.2 u).mp h).1)).2 hu
    have hsum : Tree.sumOver Var.size W (s.readWeightIn G φ) b = s.restK e * (Z.1 * (Tree.wgt s.psiK s.imgB H a *
          (H.map (fun v => (((AMap.keys (s.activeOf v)).filter (fun w => w ∉ G)).map
            (fun w => (μ w v (a v)).1)).prod)).prod)) := by
      rw [← hval a ha b (fun v hv => by simp only [hb, if_pos hv]), Tree.sumOver_val]
      have h1 : Tree.sumOver Var.size W (s.readWeightIn G φ) b =
          Tree.sumOver Var.size W (fun c => s.restK c *
            (Tree.wgt (s.psiR sumQuant) (s.edgeRIn sumQuant G) s.hid c).1) b := by
        refine Tree.sumOver_congr_range (fun c hcb hr => ?_)
        have hag := hW.agrees hs he ha hc hcb hr
        rw [readWeightIn_eq hH G hφ hag, mul_comm, ← codeIn_eq sumQuant hH hN G hag.1]
        rfl
      rw [h1, Tree.sumOver_mul]
      · congr 1
        refine restK_congr (fun u hu => ?_)
        obtain ⟨k, hk⟩ := AMap.mem_keys.mp hu
        simp only [hb]
        split
        · rename_i h
          rw [hc (u, k) (AMap.find?_mem hk) h, he.2 u k (AMap.find?_mem hk)]
        · rfl
      · intro c d hcd
        exact restK_congr (fun u hu => hcd u (hbobs u hu))
    rw [hsum, hind, mul_one, div_mul_eq_mul_div, eq_div_iff (mul_pos hrest0 hZ0).ne']
    ring
  · rw [if_neg hc, mul_zero]
    push Not at hc
    obtain ⟨⟨v, k⟩, hx, hv, hne⟩ := hc
    have hvo : v ∈ s.obs := observes_iff.mp ⟨k, hx⟩
    have hk : AMap.find? s.evidences v = some k := AMap.find?_of_mem hs.obsNodup hx
    have h2 : s.ev v = k := by unfold State.ev; rw [hk]; rfl
    have : ((G.filter (fun v => v ∈ s.obs)).map (fun v => if a v = s.ev v then (1 : K) else 0)).prod = 0 := by
      refine List.prod_eq_zero (List.mem_map.2 ⟨v, List.mem_filter.2 ⟨hv, by simpa using hvo⟩, ?_⟩)
      rw [if_neg (by rw [h2]; exact hne)]
    rw [this, mul_zero]

/-- The joint distribution of some variables on trees is the one of the product of the factors, as the library
reads them, if the variables are joined by factors among themselves. -/
theorem jointOf_read {ord : List Var → List Var} (hord : ∀ l, (ord l).Perm l)
    {sh : List Contribution → List Contribution} (hsh : ∀ l, (sh l).Perm l) {s : State (Ext K)}
    (hH : Healthy s) (hF : Faithful s) {r : PropResult} (hl : s.last = some r) (hk : r.kind = .sum)
    {φ : Nat → Assign → K} (hφ : s.Images φ)
    {g : Group} (hg : g.WF) (hsub : ∀ v ∈ g.group, v ∈ s.vars) (hne : g.group ≠ [])
    (hobs : (g.group.filter (fun v => v ∈ s.obs)).length ≤ 1) (ht : ∀ v ∈ g.group, s.Hidden v → s.TreeAt v)
    (hj : s.Joined g.group) {W : List Var} (hW : s.OthersOf g.group W) {e : Assign} (he : s.Agrees e)
    {e' : Assign} (he' : s.Agrees e') (hpos : s.readWeight φ e' ≠ 0) :
    ∃ f C, s.jointOf ord sh g = .ok f ∧ f.WF ∧ f.vars = g ∧ f.weight = none ∧ 0 < C ∧
      ∀ a, InDom g.group a → f.timg (g.group.map a) = .val (C * s.jointMass (s.readWeightIn g.group φ) W e g.group a) := by
  have hs := hH.inv.toCore
  have hN := hφ.numeric hs
  have hgn := hg.distinct.nodup
  set H := g.group.filter (fun v => v ∉ s.obs) with hHdef
  have hHn : H.Nodup := hgn.filter _
  have hmH : ∀ v, v ∈ H ↔ v ∈ g.group ∧ v ∈ s.hid := by
    intro v
    rw [hHdef, List.mem_filter, mem_hid]
    simp only [decide_eq_true_eq]
    constructor
    · rintro ⟨h1, h2⟩; exact ⟨h1, hsub v h1, h2⟩
    · rintro ⟨h1, _, h2⟩; exact ⟨h1, h2⟩
  have hcode : s.codeK e' ≠ 0 := fun h => hpos (by rw [readWeight_eq hH hφ he', h, zero_mul])
  have hwR : Tree.wgt (s.psiR sumQuant) (s.edgeR sumQuant) s.hid e' ≠ 0 := by
    intro h
    apply hcode
    rw [← codeK_eq sumQuant hH hN he'.1, h]
    rfl
  obtain ⟨μ, hμ1, hψ, hmsg, hexact⟩ := joint_messages hH hF hN hl hk (G := H) (fun v hv => ((hmH v).mp hv).2)
    (fun v hv => ht v ((hmH v).mp hv).1 (hidden_iff.mpr ((hmH v).mp hv).2)) he'.1 hwR
  obtain ⟨f, C, f1, f2, f3, f4, f5, f6⟩ := jointOf_val hord hsh hH hF hN hl hg hsub hne hobs (μ := μ) (b := e') he'.1
    (by
      intro v hv hh h0
      apply hψ v ((hmH v).mpr ⟨hv, hh⟩)
      apply Subtype.ext
      unfold psiR
      rw [h0]
      exact sumQuant.toK_ofK 0 le_rfl)
    (fun v hv hh => hmsg v ((hmH v).mpr ⟨hv, hh⟩))
  obtain ⟨D, d1, d2⟩ := contribs_read hH hφ hgn hsub hj hW he he' hpos hμ1
    (fun P hP => hexact P (fun g hg => by rw [hP] at hg; exact hg))
  refine ⟨f, C * D, f1, f2, f3, f4, mul_pos f5 d1, ?_⟩
  intro a ha
  rw [f6 a ha, d2 a ha, mul_assoc]

/-! ### Pieces -/

theorem _root_.EFG.Tree.wgt_apart {α : Type v} [DecidableEq α] {R : Type w} [CommSemiring R] {ψ : α → Nat → R} {E : α → α → Nat → Nat → R}
    {A B : List α} {a : α → Nat} (h : ∀ u ∈ A, ∀ w ∈ B, E u w (a u) (a w) = 1) :
    Tree.wgt ψ E (A ++ B) a = Tree.wgt ψ E A a * Tree.wgt ψ E B a := by
  induction A with
  | nil => simp [Tree.wgt]
  | cons u A ih =>
    rw [List.cons_append]
    simp only [Tree.wgt, List.map_append, List.prod_append]
    rw [ih (fun x hx => h x (by simp [hx])), Tree.prod_map_one (V := B) (fun w hw => h u (by simp) w hw)]
    ring

/-- What the hidden variables `H` contribute to the joint distribution of `S`. -/
def partVal (s : State (Ext K)) (μ : Var → Var → Nat → {x : K // 0 ≤ x}) (a : Assign) (S H : List Var) : K :=
  Tree.wgt s.psiK s.imgB H a *
    (H.map (fun v => (((AMap.keys (s.activeOf v)).filter (fun w => w ∉ S)).map (fun w => (μ w v (a v)).1)).prod)).prod

theorem partVal_append {s : State (Ext K)} {μ : Var → Var → Nat → {x : K // 0 ≤ x}} {a : Assign} {S A B : List Var}
    (h : ∀ u ∈ A, ∀ w ∈ B, s.imgB u w (a u) (a w) = 1) :
    s.partVal μ a S (A ++ B) = s.partVal μ a S A * s.partVal μ a S B := by
  unfold partVal
  rw [Tree.wgt_apart h, List.map_append, List.prod_append]
  ring

theorem Core.imgB_apart {s : State (Ext K)} (hs : Core s) {u w : Var} (hu : u ∈ s.hid) (hw : w ∈ s.hid)
    (hn : ¬s.Joins u w) (i j : Nat) : s.imgB u w i j = 1 := by
  cases hc : s.lnk u w with
  | none => unfold State.imgB; rw [hc]
  | some p =>
    exact absurd ((hs.joins_hidden (hidden_iff.mpr hu) (hidden_iff.mpr hw)).mpr
      (hs.act_of_lnk (mem_hid.mp hu).2 (mem_hid.mp hw).2 hc)) hn

/-- The contributions of the variables are those of its pieces. -/
theorem Pieces.prod {s : State (Ext K)} (hs : Core s) (hsep : Separated s) {G : List Var} (hG : G.Nodup)
    (hsub : ∀ v ∈ G, v ∈ s.vars) {Ps : List (List Var)} (hP : s.Pieces G Ps)
    (μ : Var → Var → Nat → {x : K // 0 ≤ x}) (a : Assign) :
    ((s.contribList G).map (s.contribVal μ a)).prod =
      (Ps.map (fun P => ((s.contribList P).map (s.contribVal μ a)).prod)).prod := by
  have hmem : ∀ P ∈ Ps, ∀ v ∈ P, v ∈ G := fun P hP' v hv =>
    hP.all.mem_iff.mp (List.mem_flatten.mpr ⟨P, hP', hv⟩)
  have hhid : ∀ P ∈ Ps, ∀ v ∈ P.filter (fun v => v ∉ s.obs), v ∈ P ∧ v ∈ s.hid := by
    intro P hP' v hv
    simp only [List.mem_filter, decide_eq_true_eq] at hv
    exact ⟨hv.1, mem_hid.mpr ⟨hsub v (hmem P hP' v hv.1), hv.2⟩⟩
  have happ : ∀ Qs : List (List Var), (∀ P ∈ Qs, P ∈ Ps) →
      Qs.Pairwise (fun P Q => ∀ u ∈ P, ∀ w ∈ Q, s.Hidden u → s.Hidden w → ¬s.Joins u w) →
      s.partVal μ a G (Qs.flatten.filter (fun v => v ∉ s.obs)) =
        (Qs.map (fun P => s.partVal μ a G (P.filter (fun v => v ∉ s.obs)))).prod := by
    intro Qs
    induction Qs with
    | nil => intro _ _; simp [partVal, Tree.wgt]
    | cons P Qs ih =>
      intro hQ hpw
      rw [List.pairwise_cons] at hpw
      rw [List.flatten_cons, List.filter_append, partVal_append, ih (fun Q hQ' => hQ Q (by simp [hQ'])) hpw.2,
        List.map_cons, List.prod_cons]
      intro u hu w hw
      obtain ⟨u1, u2⟩ := hhid P (hQ P (by simp)) u hu
      simp only [List.mem_filter, decide_eq_true_eq] at hw
      obtain ⟨Q, hQ', hwQ⟩ := List.mem_flatten.mp hw.1
      have w2 : w ∈ s.hid := mem_hid.mpr ⟨hsub w (hmem Q (hQ Q (by simp [hQ'])) w hwQ), hw.2⟩
      exact hs.imgB_apart u2 w2 (hpw.1 Q hQ' u u1 w hwQ (hidden_iff.mpr u2) (hidden_iff.mpr w2)) _ _
  have hown : ∀ P ∈ Ps, s.partVal μ a G (P.filter (fun v => v ∉ s.obs)) =
      s.partVal μ a P (P.filter (fun v => v ∉ s.obs)) := by
    intro P hP'
    unfold partVal
    congr 2
    refine List.map_congr_left (fun v hv => ?_)
    obtain ⟨v1, v2⟩ := hhid P hP' v hv
    congr 2
    refine List.filter_congr (fun w hw => ?_)
    have hact : (s.act v w).isSome := by
      obtain ⟨c, hc⟩ := AMap.mem_keys.mp hw
      unfold State.act; rw [hc]; rfl
    have hwh : w ∈ s.hid := mem_hid.mpr ⟨(hs.act_vars hact).2, hsep v w (mem_hid.mp v2).2 hact⟩
    have hjn : s.Joins v w := (hs.joins_hidden (hidden_iff.mpr v2) (hidden_iff.mpr hwh)).mpr hact
    have : w ∈ G ↔ w ∈ P := by
      constructor
      · intro hwG
        obtain ⟨Q, hQ, hwQ⟩ := List.mem_flatten.mp (hP.all.mem_iff.mpr hwG)
        by_contra hwP
        have hne : P ≠ Q := fun h => hwP (h ▸ hwQ)
        have hsy : Std.Symm (fun P Q : List Var => ∀ u ∈ P, ∀ w ∈ Q, s.Hidden u → s.Hidden w → ¬s.Joins u w) := by
          constructor
          rintro P Q h u hu w hw h1 h2 ⟨p, h3⟩
          exact h w hw u hu h2 h1 ⟨p, h3.symm⟩
        exact hP.apart.forall hP' hQ hne v v1 w hwQ (hidden_iff.mpr v2) (hidden_iff.mpr hwh) hjn
      · exact hmem P hP' w
    simp only [this]
  have hperm : (G.filter (fun v => v ∉ s.obs)).Perm (Ps.flatten.filter (fun v => v ∉ s.obs)) := (hP.all.symm).filter _
  have hT : s.partVal μ a G (G.filter (fun v => v ∉ s.obs)) =
      (Ps.map (fun P => s.partVal μ a P (P.filter (fun v => v ∉ s.obs)))).prod := by
    rw [← List.map_congr_left hown, ← happ Ps (fun _ h => h) hP.apart]
    unfold partVal
    rw [Tree.wgt_perm (fun u w i j => hs.imgB_swap u w i j) hperm, (hperm.map _).prod_eq]
  have hI : ((G.filter (fun v => v ∈ s.obs)).map (fun v => if a v = s.ev v then (1 : K) else 0)).prod =
      (Ps.map (fun P => ((P.filter (fun v => v ∈ s.obs)).map (fun v => if a v = s.ev v then (1 : K) else 0)).prod)).prod := by
    rw [((hP.all.symm.filter (fun v => v ∈ s.obs)).map _).prod_eq]
    generalize Ps = Qs
    induction Qs with
    | nil => rfl
    | cons P Qs ih =>
      rw [List.flatten_cons, List.filter_append, List.map_append, List.prod_append, ih, List.map_cons, List.prod_cons]
  rw [hs.contribList_prod]
  have e1 : ∀ P : List Var, ((s.contribList P).map (s.contribVal μ a)).prod =
      s.partVal μ a P (P.filter (fun v => v ∉ s.obs)) *
        ((P.filter (fun v => v ∈ s.obs)).map (fun v => if a v = s.ev v then (1 : K) else 0)).prod :=
    fun P => hs.contribList_prod P μ a
  simp only [e1]
  rw [List.prod_map_mul, ← hT, ← hI]
  rfl

/-- The joint distribution of some variables on trees is the product of those of the pieces in which they are
divided. -/
theorem jointOf_pieces {ord : List Var → List Var} (hord : ∀ l, (ord l).Perm l)
    {sh : List Contribution → List Contribution} (hsh : ∀ l, (sh l).Perm l) {s : State (Ext K)}
    (hH : Healthy s) (hF : Faithful s) {r : PropResult} (hl : s.last = some r) (hk : r.kind = .sum)
    {φ : Nat → Assign → K} (hφ : s.Images φ)
    {g : Group} (hg : g.WF) (hsub : ∀ v ∈ g.group, v ∈ s.vars) (hne : g.group ≠ [])
    (hobs : (g.group.filter (fun v => v ∈ s.obs)).length ≤ 1) (ht : ∀ v ∈ g.group, s.Hidden v → s.TreeAt v)
    {Ps : List (List Var)} (hP : s.Pieces g.group Ps)
    {W : List Var → List Var} (hW : ∀ P ∈ Ps, s.OthersOf P (W P)) {e : Assign} (he : s.Agrees e)
    {e' : Assign} (he' : s.Agrees e') (hpos : s.readWeight φ e' ≠ 0) :
    ∃ f C, s.jointOf ord sh g = .ok f ∧ f.WF ∧ f.vars = g ∧ f.weight = none ∧ 0 < C ∧
      ∀ a, InDom g.group a → f.timg (g.group.map a) = 
        .val (C * (Ps.map (fun P => s.jointMass (s.readWeightIn P φ) (W P) e P a)).prod) := by
  have hs := hH.inv.toCore
  have hN := hφ.numeric hs
  have hgn := hg.distinct.nodup
  set H := g.group.filter (fun v => v ∉ s.obs) with hHdef
  have hHn : H.Nodup := hgn.filter _
  have hmH : ∀ v, v ∈ H ↔ v ∈ g.group ∧ v ∈ s.hid := by
    intro v
    rw [hHdef, List.mem_filter, mem_hid]
    simp only [decide_eq_true_eq]
    constructor
    · rintro ⟨h1, h2⟩; exact ⟨h1, hsub v h1, h2⟩
    · rintro ⟨h1, _, h2⟩; exact ⟨h1, h2⟩
  have hcode : s.codeK e' ≠ 0 := fun h => hpos (by rw [readWeight_eq hH hφ he', h, zero_mul])
  have hwR : Tree.wgt (s.psiR sumQuant) (s.edgeR sumQuant) s.hid e' ≠ 0 := by
    intro h
    apply hcode
    rw [← codeK_eq sumQuant hH hN he'.1, h]
    rfl
  obtain ⟨μ, hμ1, hψ, hmsg, hexact⟩ := joint_messages hH hF hN hl hk (G := H) (fun v hv => ((hmH v).mp hv).2)
    (fun v hv => ht v ((hmH v).mp hv).1 (hidden_iff.mpr ((hmH v).mp hv).2)) he'.1 hwR
  obtain ⟨f, C, f1, f2, f3, f4, f5, f6⟩ := jointOf_val hord hsh hH hF hN hl hg hsub hne hobs (μ := μ) (b := e') he'.1
    (by
      intro v hv hh h0
      apply hψ v ((hmH v).mpr ⟨hv, hh⟩)
      apply Subtype.ext
      unfold psiR
      rw [h0]
      exact sumQuant.toK_ofK 0 le_rfl)
    (fun v hv hh => hmsg v ((hmH v).mpr ⟨hv, hh⟩))
  have hmem : ∀ P ∈ Ps, ∀ v ∈ P, v ∈ g.group := fun P hP' v hv =>
    hP.all.mem_iff.mp (List.mem_flatten.mpr ⟨P, hP', hv⟩)
  have hnd : ∀ P ∈ Ps, P.Nodup := (List.nodup_flatten.mp (hP.all.nodup_iff.mpr hgn)).1
  have hall : ∀ P, ∃ D : K, P ∈ Ps → 0 < D ∧ ∀ a, InDom P a → ((s.contribList P).map (s.contribVal μ a)).prod =
      D * s.jointMass (s.readWeightIn P φ) (W P) e P a := by
    intro P
    by_cases hP' : P ∈ Ps
    · obtain ⟨D, d1, d2⟩ := contribs_read hH hφ (hnd P hP') (fun v hv => hsub v (hmem P hP' v hv)) (hP.joined P hP')
        (hW P hP') he he' hpos hμ1 (fun Q hQ => hexact Q (fun v hv => by
          rw [hQ, List.mem_filter] at hv
          rw [hHdef, List.mem_filter]
          exact ⟨hmem P hP' v hv.1, hv.2⟩))
      exact ⟨D, fun _ => ⟨d1, d2⟩⟩
    · exact ⟨1, fun h => absurd h hP'⟩
  choose D hD using hall
  refine ⟨f, C * (Ps.map D).prod, f1, f2, f3, f4, mul_pos f5 (prod_map_pos (fun P hP' => (hD P hP').1)), ?_⟩
  intro a ha
  rw [f6 a ha, hP.prod hs hH.sep hgn hsub μ a, mul_assoc, ← List.prod_map_mul]
  congr 3
  exact List.map_congr_left (fun P hP' => (hD P hP').2 a (fun v hv => ha v (hmem P hP' v hv)))

/-- Every list of variables can be divided in pieces. -/
theorem exists_pieces (s : State (Ext K)) (G : List Var) : ∃ Ps, s.Pieces G Ps := by
  classical
  let R : List Var → Var → Var → Prop := fun G x y => x ∈ G ∧ y ∈ G ∧ s.Hidden x ∧ s.Hidden y ∧ s.Joins x y
  have hsy : ∀ G x y, R G x y → R G y x := fun G x y h =>
    ⟨h.2.1, h.1, h.2.2.2.1, h.2.2.1, h.2.2.2.2.elim fun p hp => ⟨p, hp.symm⟩⟩
  suffices h : ∀ n (G : List Var), G.length ≤ n → ∃ Ps, s.Pieces G Ps from h _ G le_rfl
  intro n
  induction n with
  | zero =>
    intro G hG
    have : G = [] := List.eq_nil_of_length_eq_zero (by omega)
    subst this
    exact ⟨[], .nil, by simp, .nil⟩
  | succ n ih =>
    intro G hG
    match G with
    | [] => exact ⟨[], .nil, by simp, .nil⟩
    | v :: G' =>
      set G := v :: G' with hGdef
      set P := G.filter (fun w => Relation.ReflTransGen (R G) v w) with hPdef
      set Q := G.filter (fun w => ¬Relation.ReflTransGen (R G) v w) with hQdef
      have hperm : (P ++ Q).Perm G := by
        rw [hPdef, hQdef]
        have := List.filter_append_perm (fun w => decide (Relation.ReflTransGen (R G) v w)) G
        simpa using this
      have hvP : v ∈ P := by
        rw [hPdef, List.mem_filter]
        exact ⟨by simp [hGdef], by simpa using Relation.ReflTransGen.refl⟩
      have hlen : Q.length ≤ n := by
        have h1 := hperm.length_eq
        rw [List.length_append] at h1
        have h2 := List.length_pos_of_mem hvP
        omega
      obtain ⟨Ps, hPs⟩ := ih Q hlen
      have hmP : ∀ w, w ∈ P ↔ w ∈ G ∧ Relation.ReflTransGen (R G) v w := by
        intro w; rw [hPdef, List.mem_filter]; simp
      have hmQ : ∀ w, w ∈ Q ↔ w ∈ G ∧ ¬Relation.ReflTransGen (R G) v w := by
        intro w; rw [hQdef, List.mem_filter]; simp
      refine ⟨P :: Ps, ?_, ?_, ?_⟩
      · rw [List.flatten_cons]
        exact (hPs.all.append_left P).trans hperm
      · intro P' hP'
        rcases List.mem_cons.mp hP' with rfl | hP'
        · intro u hu w hw _
          have hin : ∀ x, Relation.ReflTransGen (R G) v x → Relation.ReflTransGen (R P) v x := by
            intro x hx
            induction hx with
            | refl => exact .refl
            | tail h1 h2 ih =>
              refine ih.tail ⟨(hmP _).mpr ⟨h2.1, h1⟩, (hmP _).mpr ⟨h2.2.1, h1.tail h2⟩, h2.2.2⟩
          have hu' := hin u ((hmP u).mp hu).2
          have hw' := hin w ((hmP w).mp hw).2
          have hback : ∀ x, Relation.ReflTransGen (R P) v x → Relation.ReflTransGen (R P) x v := by
            intro x hx
            induction hx with
            | refl => exact .refl
            | tail _ h2 ih => exact .head (hsy _ _ _ h2) ih
          exact (hback u hu').trans hw'
        · exact hPs.joined P' hP'
      · rw [List.pairwise_cons]
        refine ⟨fun Q' hQ' u hu w hw h1 h2 h3 => ?_, hPs.apart⟩
        have hwQ : w ∈ Q := hPs.all.mem_iff.mp (List.mem_flatten.mpr ⟨Q', hQ', hw⟩)
        obtain ⟨u1, u2⟩ := (hmP u).mp hu
        obtain ⟨w1, w2⟩ := (hmQ w).mp hwQ
        exact w2 (u2.tail ⟨u1, w1, h1, h2, h3⟩)

/-- The joint distribution of two variables on trees which no factor joins is a product. -/
theorem jointOf_apart {ord : List Var → List Var} (hord : ∀ l, (ord l).Perm l)
    {sh : List Contribution → List Contribution} (hsh : ∀ l, (sh l).Perm l) {s : State (Ext K)}
    (hH : Healthy s) (hF : Faithful s) {r : PropResult} (hl : s.last = some r) (hk : r.kind = .sum)
    {φ : Nat → Assign → K} (hφ : s.Images φ) {g : Group} (hg : g.WF) {u w : Var} (hgr : g.group = [u, w])
    (hu : u ∈ s.hid) (hw : w ∈ s.hid) (hn : ¬s.Joins u w) (htu : s.TreeAt u) (htw : s.TreeAt w)
    {e : Assign} (he : s.Agrees e) (hpos : s.readWeight φ e ≠ 0) :
    ∃ f, s.jointOf ord sh g = .ok f ∧ ∃ α β : Nat → K, ∀ i < u.size, ∀ j < w.size,
      f.findTransformed [i, j] = .ok (.val (α i * β j)) := by
  have hs := hH.inv.toCore
  have hN := hφ.numeric hs
  have hne : u ≠ w := by
    have := hg.distinct.nodup
    rw [hgr] at this
    simpa using this
  have hcode : s.codeK e ≠ 0 := fun h => hpos (by rw [readWeight_eq hH hφ he, h, zero_mul])
  have hwR : Tree.wgt (s.psiR sumQuant) (s.edgeR sumQuant) s.hid e ≠ 0 := by
    intro h
    apply hcode
    rw [← codeK_eq sumQuant hH hN he.1, h]
    rfl
  have hsub : ∀ v ∈ g.group, v ∈ s.hid := by
    intro v hv
    rw [hgr] at hv
    simp at hv
    rcases hv with rfl | rfl
    · exact hu
    · exact hw
  obtain ⟨μ, _, hψ, hmsg, _⟩ := joint_messages hH hF hN hl hk (G := g.group) hsub
    (by
      intro v hv
      rw [hgr] at hv
      simp at hv
      rcases hv with rfl | rfl
      · exact htu
      · exact htw) he.1 hwR
  have hobs : g.group.filter (fun v => v ∈ s.obs) = [] := by
    rw [List.filter_eq_nil_iff]
    intro v hv
    simpa using (mem_hid.mp (hsub v hv)).2
  have hhid : g.group.filter (fun v => v ∉ s.obs) = [u, w] := by
    rw [List.filter_eq_self.2, hgr]
    intro v hv
    simpa using (mem_hid.mp (hsub v hv)).2
  obtain ⟨f, C, f1, f2, f3, _, _, f6⟩ := jointOf_val hord hsh hH hF hN hl hg (fun v hv => (mem_hid.mp (hsub v hv)).1)
    (by rw [hgr]; simp) (by rw [hobs]; simp) (μ := μ) (b := e) he.1
    (by
      intro v hv hh h0
      apply hψ v hv
      apply Subtype.ext
      unfold psiR
      rw [h0]
      exact sumQuant.toK_ofK 0 le_rfl)
    (fun v hv _ => hmsg v hv)
  have hB : ∀ i j, s.imgB u w i j = 1 := by
    intro i j
    cases hc : s.lnk u w with
    | none => unfold State.imgB; rw [hc]
    | some p =>
      exact absurd ((hs.joins_hidden (hidden_iff.mpr hu) (hidden_iff.mpr hw)).mpr
        (hs.act_of_lnk (mem_hid.mp hu).2 (mem_hid.mp hw).2 hc)) hn
  set P : Var → Nat → K := fun v i => s.psiK v i *
    (((AMap.keys (s.activeOf v)).filter (fun x => x ∉ g.group)).map (fun x => (μ x v i).1)).prod with hP
  refine ⟨f, f1, fun i => C * P u i, P w, ?_⟩
  intro i hi j hj
  let a : Assign := fun z => if z = u then i else j
  have hau : a u = i := by simp [a]
  have haw : a w = j := by simp [a, hne.symm]
  have ha : InDom g.group a := by
    intro v hv
    rw [hgr] at hv
    simp at hv
    rcases hv with rfl | rfl
    · rw [hau]; exact hi
    · rw [haw]; exact hj
  have hm : f.vars.group.map a = [i, j] := by rw [f3, hgr]; simp [hau, haw]
  have := f6 a ha
  rw [hs.contribList_prod, hobs, hhid] at this
  rw [← hm, f2.findTransformed (f2.valid_map.mpr (by rw [f3]; exact ha))]
  have hm' : f.vars.group.map a = g.group.map a := by rw [f3]
  rw [hm', this]
  congr 2
  simp only [Tree.wgt, List.map_cons, List.map_nil, List.prod_cons, List.prod_nil, hau, haw, hB, hP]
  ring

end State

namespace Ex

/-- A graph of at most two variables has no cycles. -/
theorem two_tree {K : Type} [Field K] [LinearOrder K] [FloatParams K] {s : State (Ext K)} (h : s.vars.length ≤ 2)
    (v : Var) : s.TreeAt v := by
  intro u _ c hc
  have h1 := hc.three_le_length
  have h2 := hc.support_nodup
  have h3 : ∀ {a b : Var} (w : s.hiddenGraph.Walk a b), ∀ x ∈ w.support.tail, x ∈ s.vars := by
    intro a b w
    induction w with
    | nil => simp
    | cons hadj p ih =>
      intro x hx
      rw [SimpleGraph.Walk.support_cons, List.tail_cons, SimpleGraph.Walk.mem_support_iff] at hx
      rcases hx with rfl | hx
      · exact hadj.2.2.1.1
      · exact ih x hx
  have h4 := (List.subperm_of_subset h2 (fun x hx => h3 c x hx)).length_le
  rw [List.length_tail, SimpleGraph.Walk.length_support] at h4
  omega

end Ex
end EFG
