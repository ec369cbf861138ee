import Verif.Spec.Gradient
import Verif.Lemmas.Joint
import Verif.Lemmas.Alike
import Verif.Lemmas.Tuners
/-
The values computed by the tuners.
-/

set_option linter.unusedSectionVars false

namespace EFG

theorem lex_pair_sum {K : Type} [AddCommMonoid K] (m n : Nat) (g : List Nat → K) :
    ((lex [m, n]).map g).sum = ∑ i ∈ Finset.range m, ∑ j ∈ Finset.range n, g [i, j] := by
  rw [← sum_range_list]
  simp only [lex, List.map_flatMap, List.map_cons, List.map_nil, List.flatMap_map]
  induction List.range m with
  | nil => simp
  | cons i l ih =>
    rw [List.flatMap_cons, List.sum_append, ih, List.map_cons, List.sum_cons]
    congr 1
    rw [← sum_range_list]
    congr 1
    induction List.range n with
    | nil => rfl
    | cons j l ih => simp_all

namespace State
variable {K : Type} [Field K] [LinearOrder K] [IsStrictOrderedRing K] [FloatParams K]

/-! ### Statistics of the data -/

theorem sampleAt_inRange {s : State (Ext K)} {c : List Nat} (hn : s.vars.Nodup) (h : Valid (s.vars.map Var.size) c) :
    s.InRange (s.sampleAt c) := by
  intro v hv
  unfold Valid at h
  rw [List.forall₂_map_left_iff] at h
  have hlt := List.idxOf_lt_length_of_mem hv
  have hlc : s.vars.idxOf v < c.length := by rw [← h.length_eq]; exact hlt
  have := h.get hlt hlc
  unfold sampleAt
  rw [List.getElem?_eq_getElem hlc]
  simpa [List.getElem_idxOf] using this

theorem map_sampleAt {s : State (Ext K)} {c : List Nat} (hn : s.vars.Nodup) (h : c.length = s.vars.length) :
    s.vars.map (s.sampleAt c) = c := by
  apply List.ext_getElem
  · rw [List.length_map, h]
  · intro i h1 h2
    rw [List.getElem_map]
    unfold sampleAt
    rw [hn.idxOf_getElem]
    simp [h2]

theorem alpha_fits {s : State (Ext K)} (hn : s.vars.Nodup) {ρ : Nat → Assign → K} (hρ : s.RawImages ρ)
    {samples : List (List Nat)} (hv : ∀ c ∈ samples, Valid (s.vars.map Var.size) c) (hne : samples ≠ []) {b : BaseTuner}
    (hreg : b.factor ∈ s.tunables) {f : Fn (Ext K)} (h1 : s.heap[b.factor]? = some f)
    (h2 : ∀ v ∈ f.vars.group, v ∈ s.vars) (h3 : b.indices = f.vars.group.map (fun v => s.vars.idxOf v)) :
    s.baseAlpha samples b = .ok (.val (s.sampleMean samples (ρ b.factor))) := by
  have hlen : ((samples.length : Nat) : K) ≠ 0 := by
    simpa using hne
  unfold baseAlpha
  rw [deref_eq h1]
  simp only
  rw [Ext.one_eq, Ext.ofNat_eq, Ext.div_val_ne hlen]
  have step : ∀ c ∈ samples, ∀ acc : K, alphaStep f b.indices (.val (1 / (samples.length : K))) (.val acc) c =
      .ok (.val (acc + 1 / (samples.length : K) * ρ b.factor (s.sampleAt c))) := by
    intro c hc acc
    obtain ⟨f', e1, e2⟩ := hρ b.factor hreg (s.sampleAt c) (sampleAt_inRange hn (hv c hc))
    rw [h1] at e1
    cases e1
    unfold alphaStep Finder.findImage
    rw [h3]
    have hlc : c.length = s.vars.length := by
      have := (hv c hc).length_eq
      rw [List.length_map] at this
      exact this.symm
    have := Fn.finder_extract (f := f) (bigger := s.vars) (fun v hv => h2 v hv) (s.sampleAt c)
    rw [map_sampleAt hn hlc] at this
    rw [this]
    simp only
    rw [e2]
    rfl
  have fold : ∀ (l : List (List Nat)), (∀ c ∈ l, c ∈ samples) → ∀ acc : K,
      Res.foldList (alphaStep f b.indices (.val (1 / (samples.length : K)))) (.val acc) l =
      .ok (.val (acc + (l.map (fun c => 1 / (samples.length : K) * ρ b.factor (s.sampleAt c))).sum)) := by
    intro l
    induction l with
    | nil => intro _ acc; simp [Res.foldList]
    | cons c l ih =>
      intro hl acc
      rw [Res.foldList, step c (hl c (by simp))]
      simp only
      rw [ih (fun d hd => hl d (by simp [hd]))]
      simp [add_assoc]
  rw [Ext.zero_eq, fold samples (fun _ h => h)]
  congr 2
  unfold sampleMean
  rw [List.sum_map_mul_left, zero_add, div_mul_eq_mul_div, one_mul]

theorem alpha_val {s : State (Ext K)} (hn : s.vars.Nodup) {ρ : Nat → Assign → K} (hρ : s.RawImages ρ)
    {samples : List (List Nat)} (hv : ∀ c ∈ samples, Valid (s.vars.map Var.size) c) (hne : samples ≠ []) {b : BaseTuner}
    (hb : TunerOf s b) :
    s.baseAlpha samples b = .ok (.val (s.sampleMean samples (ρ b.factor))) := by
  obtain ⟨f, h1, h2, h3, _⟩ := hb.fn
  exact alpha_fits hn hρ hv hne hb.reg h1 h2 h3

/-! ### Products -/

theorem dotLoop_val {α : Type} (l : List α) (P R : α → K) : ∀ acc : K,
    dotLoop (Ext.val acc) (l.map (fun c => .val (P c))) (l.map (fun c => .val (R c))) =
      .ok (.val (acc + (l.map (fun c => P c * R c)).sum)) := by
  induction l with
  | nil => intro acc; simp [dotLoop]
  | cons c l ih =>
    intro acc
    simp only [List.map_cons, dotLoop, Ext.mul_val, Ext.add_val]
    rw [ih]
    simp [add_assoc]

theorem dotProduct_val {f : Fn (Ext K)} (hw : f.WF) {P R : List Nat → K}
    (hR : ∀ c, Valid f.sizes c → f.img c = .val (R c)) :
    dotProduct f ((lex f.sizes).map (fun c => .val (P c))) = .ok (.val (((lex f.sizes).map (fun c => P c * R c)).sum)) := by
  unfold dotProduct
  rw [hw.rawEntries]
  simp only [List.map_map]
  have : (lex f.sizes).map (Prod.snd ∘ fun c => (c, f.img c)) = (lex f.sizes).map (fun c => Ext.val (R c)) :=
    List.map_congr_left (fun c hc => hR c (mem_lex.mp hc))
  rw [this, Ext.zero_eq, dotLoop_val, zero_add]

/-! ### Weights -/

theorem Core.group_sub {F : Type} [Arith F] {s : State F} (hs : Core s) {p : Nat} (hp : p ∈ s.factors) {f : Fn F}
    (hf : s.heap[p]? = some f) : ∀ v ∈ f.vars.group, v ∈ s.vars := by
  obtain ⟨g, h1, h2⟩ := hs.reg p hp
  rw [hf] at h1
  cases h1
  rcases h2 with ⟨v, h3, h4⟩ | ⟨u, v, h3, h4⟩
  · rw [h3]
    intro w hw
    rw [List.mem_singleton] at hw
    rw [hw]; exact (hs.unary v p h4).2.1
  · rw [h3]
    obtain ⟨a1, a2, _⟩ := hs.net.memL _ _ _ h4
    intro w hw
    simp only [List.mem_cons, List.not_mem_nil, or_false] at hw
    rcases hw with rfl | rfl
    · exact a1
    · exact a2

/-- The weight of an assignment depends on the variables of the model only. -/
theorem weight_congr {s : State (Ext K)} (hs : Core s) {φ : Nat → Assign → K} (hφ : s.Images φ) {a b : Assign}
    (ha : s.InRange a) (hb : s.InRange b) (h : ∀ v ∈ s.vars, a v = b v) : s.weight φ a = s.weight φ b := by
  unfold weight
  congr 1
  refine List.map_congr_left (fun p hp => ?_)
  obtain ⟨f, h1, h2, _⟩ := hφ p hp a ha
  obtain ⟨f', h1', h2', _⟩ := hφ p hp b hb
  rw [h1] at h1'
  cases h1'
  have hsub : ∀ v ∈ f.vars.group, v ∈ s.vars := hs.group_sub hp h1
  rw [List.map_congr_left (fun v hv => h v (hsub v hv)), h2'] at h2
  exact (Ext.val.inj (Res.ok.inj h2)).symm

theorem weight_nonneg {s : State (Ext K)} {φ : Nat → Assign → K} (hφ : s.Images φ) {a : Assign} (ha : s.InRange a) :
    0 ≤ s.weight φ a := by
  unfold weight
  refine prod_map_nonneg (fun p hp => ?_)
  obtain ⟨_, _, _, h⟩ := hφ p hp a ha
  exact h

/-- Assignments which differ from one that agrees with the evidences only on hidden variables. -/
theorem Agrees.hidden {s : State (Ext K)} {l : List Var} (hl : ∀ w ∈ l, s.Hidden w) {e : Assign} (he : s.Agrees e)
    {b : Assign} (h1 : ∀ u, u ∉ l → b u = e u) (h2 : ∀ u ∈ l, b u < u.size) : s.Agrees b := by
  constructor
  · intro u hu
    by_cases h : u ∈ l
    · exact h2 u h
    · rw [h1 u h]; exact he.1 u hu
  · intro u k hk
    have : u ∉ l := fun h => (hl u h).2 ⟨k, hk⟩
    rw [h1 u this]
    exact he.2 u k hk

theorem readAtIn_inRange {s : State (Ext K)} (hH : Healthy s) (G : List Var) {p : Nat} (hp : p ∈ s.factors) {a : Assign}
    (ha : s.InRange a) : s.InRange (s.readAtIn G p a) := by
  have hs := hH.inv.toCore
  unfold readAtIn
  cases hf : s.heap[p]? with
  | none => exact ha
  | some f =>
    simp only
    split
    · rename_i u w hg
      by_cases hh : (s.Hidden u ∧ s.Hidden w) ∧ ¬(u ∈ G ∧ w ∈ G)
      · rw [if_pos hh]
        have hj : s.Joins u w := ⟨p, Or.inl ⟨hp, f, hf, hg⟩⟩
        have := (hs.joins_hidden hh.1.1 hh.1.2).mp hj
        obtain ⟨c, hc⟩ := Option.isSome_iff_exists.mp this
        exact hH.exchange (lnk_of_act hc) ha
      · rw [if_neg hh]; exact ha
    · exact ha

theorem readWeightIn_nonneg {s : State (Ext K)} (hH : Healthy s) (G : List Var) {φ : Nat → Assign → K} (hφ : s.Images φ)
    {a : Assign} (ha : s.InRange a) : 0 ≤ s.readWeightIn G φ a := by
  unfold readWeightIn
  refine prod_map_nonneg (fun p hp => ?_)
  obtain ⟨_, _, _, h⟩ := hφ p hp _ (readAtIn_inRange hH G hp ha)
  exact h

theorem readWeightIn_congr {s : State (Ext K)} (hH : Healthy s) (G : List Var) {φ : Nat → Assign → K} (hφ : s.Images φ)
    {a b : Assign} (ha : s.Agrees a) (hb : s.Agrees b) (h : ∀ v ∈ s.hid, a v = b v) :
    s.readWeightIn G φ a = s.readWeightIn G φ b := by
  rw [readWeightIn_eq hH G hφ ha, readWeightIn_eq hH G hφ hb, restK_congr (fun u hu => ?_)]
  · congr 1
    exact Tree.wgt_local h
  · obtain ⟨k, hk⟩ := observes_iff.mpr hu
    rw [ha.2 u k hk, hb.2 u k hk]

/-- No factor is read differently for a joint distribution of a group with at most one hidden variable. -/
theorem readWeightIn_single {s : State (Ext K)} (hs : Core s) {G : List Var}
    (hG : ∀ u ∈ G, ∀ w ∈ G, s.Hidden u → s.Hidden w → u = w) (φ : Nat → Assign → K) :
    s.readWeightIn G φ = s.readWeight φ := by
  funext a
  unfold readWeightIn readWeight
  congr 1
  refine List.map_congr_left (fun p hp => ?_)
  congr 1
  unfold readAtIn readAt
  cases hf : s.heap[p]? with
  | none => rfl
  | some f =>
    simp only
    split
    · rename_i u w hg
      by_cases h : s.Hidden u ∧ s.Hidden w
      · have hd := (hs.heapWF f (List.mem_of_getElem? hf)).group.distinct.nodup
        rw [hg] at hd
        rw [if_pos h, if_pos ⟨h, fun h' => absurd (hG u h'.1 w h'.2 h.1 h.2) (by simpa using hd)⟩]
      · rw [if_neg h, if_neg (fun h' => h h'.1)]
    · rfl

theorem partition_pos {s : State (Ext K)} (hH : Healthy s) (G : List Var) {φ : Nat → Assign → K} (hφ : s.Images φ)
    {l : List Var} (hl : ∀ w, w ∈ l ↔ s.Hidden w) {e : Assign} (he : s.Agrees e)
    (hpos : ∃ a, s.Agrees a ∧ s.readWeightIn G φ a ≠ 0) : 0 < Tree.sumOver Var.size l (s.readWeightIn G φ) e := by
  obtain ⟨a, ha, hne⟩ := hpos
  set b : Assign := fun v => if v ∈ l then a v else e v with hb
  have hb1 : ∀ u, u ∉ l → b u = e u := fun u hu => by simp only [hb, if_neg hu]
  have hb2 : ∀ u ∈ l, b u < u.size := fun u hu => by
    simp only [hb, if_pos hu]; exact ha.1 u ((hl u).mp hu).1
  have hbr := he.hidden (fun w hw => (hl w).mp hw) hb1 hb2
  have hw : s.readWeightIn G φ b = s.readWeightIn G φ a := by
    refine readWeightIn_congr hH G hφ hbr ha (fun v hv => ?_)
    simp only [hb]
    rw [if_pos ((hl v).mpr (hidden_iff.mpr hv))]
  have hle := Tree.le_sumOver Var.size (s.readWeightIn G φ) (W := l) (a := e) (b := b)
    (fun c h1 h2 => readWeightIn_nonneg hH G hφ (he.hidden (fun w hw => (hl w).mp hw) h1 h2).1) hb1 hb2
  rw [hw] at hle
  exact lt_of_lt_of_le (lt_of_le_of_ne (readWeightIn_nonneg hH G hφ ha.1) (Ne.symm hne)) hle

/-- The images of a function of the model before the exponential. -/
theorem raw_img {s : State (Ext K)} {f : Fn (Ext K)} (hw : f.WF) (hsub : ∀ v ∈ f.vars.group, v ∈ s.vars)
    {ρ : Assign → K} (hρ : ∀ a, s.InRange a → f.findImage (f.vars.group.map a) = .ok (.val (ρ a))) {a : Assign}
    (ha : s.InRange a) : f.img (f.vars.group.map a) = .val (ρ a) := by
  have h := hρ a ha
  rw [hw.findImage (hw.valid_map.mpr (fun v hv => ha v (hsub v hv)))] at h
  exact Res.ok.inj h

/-! ### Expectations of one variable -/

theorem unaryBeta_val {ord : List Var → List Var} (hord : ∀ l, (ord l).Perm l) {s : State (Ext K)} (hH : Healthy s)
    (hF : Faithful s) {r : PropResult} (hlast : s.last = some r) (hk : r.kind = .sum) {φ : Nat → Assign → K}
    (hφ : s.Images φ) {v : Var} (hv : s.Hidden v) (ht : s.TreeAt v) {f : Fn (Ext K)} (hw : f.WF)
    (hg : f.vars.group = [v]) {ρ : Assign → K}
    (hρ : ∀ a, s.InRange a → f.findImage (f.vars.group.map a) = .ok (.val (ρ a))) {l : List Var} (hn : l.Nodup)
    (hl : ∀ w, w ∈ l ↔ s.Hidden w) {e : Assign} (he : s.Agrees e) (hpos : ∃ a, s.Agrees a ∧ s.readWeight φ a ≠ 0) :
    unaryBeta ord s f v = .ok (.val (expectation l e (s.readWeight φ) ρ)) := by
  have hs := hH.inv.toCore
  have hvh := hidden_iff.mp hv
  have hvl := (hl v).mpr hv
  set W := l.erase v with hWdef
  have hperm : l.Perm (v :: W) := List.perm_cons_erase hvl
  have hW : s.Others v W := by
    refine ⟨hn.erase v, fun w => ?_⟩
    rw [hWdef, hn.mem_erase_iff, hl]
    exact And.comm
  have hZ : 0 < Tree.sumOver Var.size l (s.readWeight φ) e := by
    have h := partition_pos hH [] hφ hl he (by simpa only [readWeightIn_nil] using hpos)
    rwa [show s.readWeightIn [] φ = s.readWeight φ from funext (readWeightIn_nil s φ)] at h
  have hZ' : Tree.sumOver Var.size l (s.readWeight φ) e =
      ((List.range v.size).map (mass (s.readWeight φ) W e v)).sum := by
    rw [Tree.sumOver_perm hperm, sum_range_list]
    rfl
  have hne : ∃ i < v.size, mass (s.readWeight φ) W e v i ≠ 0 := by
    by_contra hc
    push Not at hc
    rw [hZ', List.sum_eq_zero] at hZ
    · exact lt_irrefl _ hZ
    · intro x hx
      obtain ⟨i, hi, rfl⟩ := List.mem_map.mp hx
      exact hc i (by simpa using hi)
  unfold unaryBeta
  rw [belief_sum hord hH hF hlast hk hφ hvh ht hW he hne]
  have hsz : f.sizes = [v.size] := by rw [hw.sizes', hg]; rfl
  have hsub : ∀ w ∈ f.vars.group, w ∈ s.vars := by
    intro w hw'
    rw [hg, List.mem_singleton] at hw'
    rw [hw']; exact hv.1
  set Z := ((List.range v.size).map (mass (s.readWeight φ) W e v)).sum with hZdef
  have hup : ∀ i < v.size, s.InRange (Function.update e v i) := fun i hi =>
    (Agrees.hidden (l := [v]) (by simpa using hv) he (fun u hu => Function.update_of_ne (by simpa using hu) _ _)
      (fun u hu => by
        rw [List.mem_singleton] at hu
        rw [hu, Function.update_self]; exact hi)).1
  have himg : ∀ a, s.InRange a → f.img [a v] = .val (ρ a) := by
    intro a ha
    have := raw_img hw hsub hρ ha
    rw [hg] at this
    exact this
  have hdot := dotProduct_val hw (P := fun c => mass (s.readWeight φ) W e v (c.headD 0) / Z)
    (R := fun c => ρ (Function.update e v (c.headD 0))) (by
      intro c hc
      rw [hsz, valid_single] at hc
      obtain ⟨i, hi, rfl⟩ := hc
      have := himg _ (hup i hi)
      rw [Function.update_self] at this
      exact this)
  rw [hsz, lex_single, List.map_map, List.map_map] at hdot
  have hd : (distribution (s.readWeight φ) W e v).map Ext.val = (List.range v.size).map
      ((fun c => Ext.val (mass (s.readWeight φ) W e v (c.headD 0) / Z)) ∘ fun i => [i]) := by
    unfold distribution
    rw [List.map_map]
    rfl
  simp only
  rw [hd, hdot]
  congr 2
  unfold expectation
  rw [hZ', Tree.sumOver_perm hperm]
  have hnum : Tree.sumOver Var.size (v :: W) (fun a => s.readWeight φ a * ρ a) e =
      ((List.range v.size).map (fun i => mass (s.readWeight φ) W e v i * ρ (Function.update e v i))).sum := by
    rw [sum_range_list]
    refine Finset.sum_congr rfl (fun i hi => ?_)
    have hi' := Finset.mem_range.mp hi
    unfold mass
    rw [mul_comm, ← Tree.sumOver_mul (c := fun _ => ρ (Function.update e v i)) (fun _ _ _ => rfl)]
    refine Tree.sumOver_congr_range (fun b h1 h2 => ?_)
    have hb := (hW.agrees hvh he hi' h1 h2).1
    have hvW : v ∉ W := fun h => ((hW.2 v).mp h).2 rfl
    have e1 := himg b hb
    have e2 := himg _ (hup i hi')
    rw [h1 v hvW, e2] at e1
    rw [← Ext.val.inj e1]
    exact mul_comm _ _
  rw [hnum, div_eq_mul_inv, mul_comm, ← List.sum_map_mul_left]
  congr 1
  refine List.map_congr_left (fun i _ => ?_)
  simp only [Function.comp, List.headD_cons]
  rw [div_eq_mul_inv]
  ring

/-! ### Expectations of two variables -/

/-- The distribution of a variable without the message of a neighbour. -/
theorem cavity_val {ord : List Var → List Var} (hord : ∀ l, (ord l).Perm l) {s : State (Ext K)} (hH : Healthy s)
    (hF : Faithful s) (hN : Numeric s) {r : PropResult} (hlast : s.last = some r) {u w : Var} (hu : u ∈ s.hid)
    {μ : Var → Nat → {x : K // 0 ≤ x}}
    (hmsg : ∀ x, s.adj x u → ∃ m, s.msg u x = some m ∧ ∃ c : K, 0 < c ∧ ∀ j < u.size, m.timg [j] = .val (c * (μ x j).1))
    {A : Nat → K}
    (hA : ∀ i, A i = s.psiK u i * (((AMap.keys (s.activeOf u)).filter (fun x => !decide (x = w))).map (fun x => (μ x i).1)).prod)
    (hne : ∃ i < u.size, A i ≠ 0) :
    (∀ i < u.size, 0 ≤ A i) ∧
    cavity ord s u w = .ok ((List.range u.size).map (fun i => .val (A i / ((List.range u.size).map A).sum))) := by
  have hs := hH.inv.toCore
  have ha := hH.alive (by rw [hlast]; rfl)
  have hA0 : ∀ i < u.size, 0 ≤ A i := by
    intro i hi
    rw [hA]
    exact mul_nonneg (hN.psiK_nonneg hs u hi) (prod_map_nonneg (fun x _ => (μ x i).2))
  refine ⟨hA0, ?_⟩
  obtain ⟨mg, hmg⟩ := Option.isSome_iff_exists.mp (ha.mrg u hu)
  obtain ⟨huv, huo⟩ := mem_hid.mp hu
  obtain ⟨n, hn⟩ := node?_of_mem (s := s) (v := u) (by rw [hs.net.keys]; exact huv)
  have hao : s.activeOf u = n.active := by unfold activeOf; rw [hn]
  have hnm : n.merged = some mg := by unfold mrg at hmg; rw [hn] at hmg; exact hmg
  rw [hao] at hA
  set L := (AMap.keys n.active).filter (fun x => !decide (x = w)) with hL
  have hadj : ∀ x ∈ ord L, s.adj x u := by
    intro x hx
    have hx' := (hord _).mem_iff.mp hx
    rw [hL, List.mem_filter] at hx'
    obtain ⟨c, hc⟩ := AMap.mem_keys.mp hx'.1
    have hact : (s.act u x).isSome := by unfold State.act; rw [hao, hc]; rfl
    exact ⟨mem_hid.mpr ⟨(hs.act_vars hact).2, hH.sep u x huo hact⟩, hu, hs.net.symA _ _ hact⟩
  have hex : ∀ x, ∃ m, x ∈ ord L → activeMessage n x = .ok m ∧ s.msg u x = some m ∧ m.Unary u := by
    intro x
    by_cases hx : x ∈ ord L
    · obtain ⟨m, hm, _⟩ := hmsg x (hadj x hx)
      have hx' := (hord _).mem_iff.mp hx
      rw [hL, List.mem_filter] at hx'
      obtain ⟨c, hc⟩ := AMap.mem_keys.mp hx'.1
      have hact : s.act u x = some c := by unfold State.act; rw [hao]; exact hc
      have hcm : c.message = some m := by unfold msg at hm; rw [hact] at hm; exact hm
      refine ⟨m, fun _ => ⟨?_, hm, ha.typed u x m huo hm⟩⟩
      unfold activeMessage
      rw [hc]
      simp only
      rw [hcm]
      rfl
    · exact ⟨Fn.ones u, fun h => absurd h hx⟩
  choose val hval using hex
  have hmap : Res.mapList (activeMessage n) (ord L) = .ok ((ord L).map val) :=
    Res.mapList_ok (fun x hx => (hval x hx).1)
  have hAo : ∀ i, A i = s.psiK u i * ((ord L).map (fun x => (μ x i).1)).prod := by
    intro i
    rw [hA, ((hord L).map (fun x => (μ x i).1)).prod_eq]
  obtain ⟨i0, hi0, hne0⟩ := hne
  obtain ⟨c, hc, hmv⟩ := merged_val hs hH.sep hF.coh hF.evid hN hu hmg
    ⟨i0, hi0, fun h => hne0 (by rw [hA, h, zero_mul])⟩
  obtain ⟨f, e1, e2, D, hD, e3, _⟩ := gathered_val hs hmg hc hmv (g := fun x i => (μ x i).1) (L := ord L)
    (ms := (ord L).map val) (by
      rw [List.forall₂_map_right_iff]
      exact List.forall₂_same.mpr (fun x hx => (hval x hx).2.1)) (by
      intro m hm
      obtain ⟨x, hx, rfl⟩ := List.mem_map.mp hm
      exact (hval x hx).2.2) (fun x hx => hmsg x (hadj x hx))
    (fun i hi => by rw [← hAo]; exact hA0 i hi) ⟨i0, hi0, by rw [← hAo]; exact hne0⟩
  have hsum : ((List.range u.size).map (fun i => D * A i)).sum = D * ((List.range u.size).map A).sum :=
    List.sum_map_mul_left _ _ _
  have hpos : 0 < ((List.range u.size).map A).sum := by
    refine lt_of_lt_of_le (lt_of_le_of_ne (hA0 i0 hi0) (Ne.symm hne0)) (List.single_le_sum ?_ _ ?_)
    · intro x hx
      obtain ⟨i, hi, rfl⟩ := List.mem_map.1 hx
      exact hA0 i (by simpa using hi)
    · exact List.mem_map.2 ⟨i0, by simpa using hi0, rfl⟩
  have hps := e2.probabilities_val (G := fun i => D * A i) (fun i hi => by rw [e3 i hi, hAo]) (by
    rw [hsum]; exact mul_ne_zero hD.ne' hpos.ne')
  unfold cavity
  rw [hn]
  simp only
  unfold gatherFrom
  rw [hnm]
  simp only
  rw [hmap]
  simp only
  rw [e1]
  simp only
  rw [hps, hsum]
  congr 1
  refine List.map_congr_left (fun i _ => ?_)
  congr 1
  rw [mul_div_mul_left _ _ hD.ne']

/-- The sums of the weights of the assignments which give some values to two joined variables. -/
theorem pair_mass {s : State (Ext K)} (hH : Healthy s) (hF : Faithful s) {r : PropResult} (hlast : s.last = some r)
    (hk : r.kind = .sum) {φ : Nat → Assign → K} (hφ : s.Images φ) {u w : Var} (hu : u ∈ s.hid)
    (hw : w ∈ s.hid) {p : Nat} (hlnk : s.lnk u w = some p) (htu : s.TreeAt u) (htw : s.TreeAt w) {W : List Var}
    (hperm : s.hid.Perm ([u, w] ++ W)) {e : Assign} (he : s.Agrees e) {e' : Assign} (he' : s.Agrees e')
    (hpos : s.readWeight φ e' ≠ 0) :
    ∃ (μ : Var → Var → Nat → {x : K // 0 ≤ x}) (C : K),
      (∀ x, s.adj x u → ∃ m, s.msg u x = some m ∧ ∃ c : K, 0 < c ∧ ∀ j < u.size, m.timg [j] = .val (c * (μ x u j).1)) ∧
      (∀ x, s.adj x w → ∃ m, s.msg w x = some m ∧ ∃ c : K, 0 < c ∧ ∀ j < w.size, m.timg [j] = .val (c * (μ x w j).1)) ∧
      ∀ i < u.size, ∀ j < w.size,
        Tree.sumOver Var.size W (s.readWeightIn [u, w] φ) (Function.update (Function.update e u i) w j) = C *
          (s.psiK u i * (((AMap.keys (s.activeOf u)).filter (fun x => !decide (x = w))).map (fun x => (μ x u i).1)).prod *
            s.imgB u w i j *
          (s.psiK w j * (((AMap.keys (s.activeOf w)).filter (fun x => !decide (x = u))).map (fun x => (μ x w j).1)).prod)) := by
  have hs := hH.inv.toCore
  have hN := hφ.numeric hs
  have hne : u ≠ w := (hs.net.memL _ _ _ hlnk).2.2
  have hadj : s.adj u w := ⟨hu, hw, hs.act_of_lnk (mem_hid.mp hu).2 (mem_hid.mp hw).2 hlnk⟩
  have hWn : W.Nodup := (List.nodup_append.mp (hperm.nodup_iff.mp (hid_nodup hs.net))).2.1
  have hWm : ∀ x, x ∈ W ↔ x ∈ s.hid ∧ x ≠ u ∧ x ≠ w := by
    intro x
    have hnd := List.nodup_append.mp (hperm.nodup_iff.mp (hid_nodup hs.net))
    constructor
    · intro hx
      refine ⟨hperm.mem_iff.mpr (List.mem_append_right _ hx), ?_, ?_⟩
      · rintro rfl; exact hnd.2.2 x (by simp) x hx rfl
      · rintro rfl; exact hnd.2.2 x (by simp) x hx rfl
    · rintro ⟨h1, h2, h3⟩
      have := hperm.mem_iff.mp h1
      simpa [h2, h3] using this
  have hw' : s.readWeight φ e' = s.codeK e' * s.restK e' := readWeight_eq hH hφ he'
  have hcode : s.codeK e' ≠ 0 := fun h => hpos (by rw [hw', h, zero_mul])
  have hwR : Tree.wgt (s.psiR sumQuant) (s.edgeR sumQuant) s.hid e' ≠ 0 := by
    intro h
    apply hcode
    rw [← codeK_eq sumQuant hH hN he'.1, h]
    rfl
  obtain ⟨μ, hμ1, _, hmsg, hexact⟩ := joint_messages hH hF hN hlast hk (G := [u, w])
    (by intro v hv; simp only [List.mem_cons, List.not_mem_nil, or_false] at hv; rcases hv with rfl | rfl <;> assumption)
    (by intro v hv; simp only [List.mem_cons, List.not_mem_nil, or_false] at hv; rcases hv with rfl | rfl <;> assumption)
    he'.1 hwR
  obtain ⟨Z, hZall⟩ := hexact [u, w] (fun _ h => h) (by
    intro x hx y hy' _
    simp only [List.mem_cons, List.not_mem_nil, or_false] at hx hy'
    rcases hx with rfl | rfl <;> rcases hy' with rfl | rfl
    · exact .refl
    · exact .single ⟨hadj, by simp, by simp⟩
    · exact .single ⟨hs.adj_symm hadj, by simp, by simp⟩
    · exact .refl) W hperm
  have hZ := hZall (s.edgeRIn sumQuant [u, w]) (fun x y i j => hs.edgeRIn_symm sumQuant [u, w] x y i j)
    (fun x y h i j => edgeRIn_out sumQuant (fun h' => h ⟨h'.1, h'.2.2.1⟩) i j)
  refine ⟨μ, s.restK e * Z.1, hmsg u (by simp), hmsg w (by simp), ?_⟩
  intro i hi j hj
  set b : Assign := Function.update (Function.update e u i) w j with hb
  have hbu : b u = i := by rw [hb, Function.update_of_ne hne, Function.update_self]
  have hbw : b w = j := by rw [hb, Function.update_self]
  have hbo : ∀ x, x ≠ u → x ≠ w → b x = e x := by
    intro x h1 h2
    rw [hb, Function.update_of_ne h2, Function.update_of_ne h1]
  have hag : ∀ c : Assign, (∀ x, x ∉ W → c x = b x) → (∀ x ∈ W, c x < x.size) → s.Agrees c := by
    intro c h1 h2
    refine he.hidden (l := s.hid) (fun x hx => hidden_iff.mpr hx) (fun x hx => ?_) (fun x hx => ?_)
    · rw [h1 x (fun h => hx ((hWm x).mp h).1), hbo x (fun h => hx (h ▸ hu)) (fun h => hx (h ▸ hw))]
    · by_cases hxW : x ∈ W
      · exact h2 x hxW
      · rw [h1 x hxW]
        by_cases h1 : x = u
        · subst h1; rw [hbu]; exact hi
        · by_cases h2 : x = w
          · subst h2; rw [hbw]; exact hj
          · exact absurd ((hWm x).mpr ⟨hx, h1, h2⟩) hxW
  have h1 : Tree.sumOver Var.size W (s.readWeightIn [u, w] φ) b =
      Tree.sumOver Var.size W (fun c => s.restK c *
        (Tree.wgt (s.psiR sumQuant) (s.edgeRIn sumQuant [u, w]) s.hid c).1) b := by
    refine Tree.sumOver_congr_range (fun c hcb hr => ?_)
    have hc := hag c hcb hr
    rw [readWeightIn_eq hH [u, w] hφ hc, mul_comm, ← codeIn_eq sumQuant hH hN [u, w] hc.1]
    rfl
  have hobs : ∀ x ∈ s.obs, x ∉ W := fun x hx h => (mem_hid.mp ((hWm x).mp h).1).2 hx
  rw [h1, Tree.sumOver_mul (fun c d hcd => restK_congr (fun x hx => hcd x (hobs x hx))), ← Tree.sumOver_val, hZ b]
  have hrest : s.restK b = s.restK e := restK_congr (fun x hx => hbo x
    (fun h => (mem_hid.mp hu).2 (h ▸ hx)) (fun h => (mem_hid.mp hw).2 (h ▸ hx)))
  have hq : ∀ x : {x : K // 0 ≤ x}, x.1 = (sumQuant (K := K)).toK x := fun _ => rfl
  have hprod : ∀ v v', (v = u ∧ v' = w ∨ v = w ∧ v' = u) → ∀ k,
      ((W.map (fun x => μ x v k)).prod).1 =
        (((AMap.keys (s.activeOf v)).filter (fun x => !decide (x = v'))).map (fun x => (μ x v k).1)).prod := by
    intro v v' hvv k
    have hv : v ∈ s.hid := by rcases hvv with ⟨rfl, _⟩ | ⟨rfl, _⟩ <;> assumption
    have hvm : ∀ x, x ∈ W ↔ x ∈ s.hid ∧ x ≠ v ∧ x ≠ v' := by
      intro x
      rw [hWm]
      rcases hvv with ⟨rfl, rfl⟩ | ⟨rfl, rfl⟩
      · exact Iff.rfl
      · exact and_congr_right (fun _ => and_comm)
    rw [hq, sumQuant.prod]
    refine list_prod_subset hWn ((hs.net.nodup v).1.filter _) ?_ ?_
    · intro x hx
      rw [List.mem_filter] at hx
      obtain ⟨c, hc⟩ := AMap.mem_keys.mp hx.1
      have hact : (s.act v x).isSome := by unfold State.act; rw [hc]; rfl
      rw [hvm, mem_hid]
      refine ⟨⟨(hs.act_vars hact).2, hH.sep v x (mem_hid.mp hv).2 hact⟩, ?_, by simpa using hx.2⟩
      rintro rfl
      rw [hs.net.act_irrefl x] at hact
      cases hact
    · intro x hx hn
      have : ¬s.adj x v := by
        intro h
        apply hn
        rw [List.mem_filter]
        refine ⟨AMap.mem_keys.mpr (Option.isSome_iff_exists.mp (hs.net.symA _ _ h.2.2)), ?_⟩
        simpa using ((hvm x).mp hx).2.2
      rw [hμ1 x v this]
      rfl
  have hedge : (s.edgeRIn sumQuant [u, w] u w i j).1 = s.imgB u w i j := by
    rw [hq]
    unfold edgeRIn
    rw [if_pos hadj, if_pos (by simp)]
    exact sumQuant.toK_ofK _ (hN.imgB_nonneg u w hi hj)
  have hψ : ∀ v k, k < v.size → (s.psiR sumQuant v k).1 = s.psiK v k := by
    intro v k hk'
    rw [hq]
    exact sumQuant.toK_ofK _ (hN.psiK_nonneg hs v hk')
  have e1 := hprod u w (Or.inl ⟨rfl, rfl⟩) i
  have e2 := hprod w u (Or.inr ⟨rfl, rfl⟩) j
  rw [hrest, ← e1, ← e2, ← hedge, ← hψ u i hi, ← hψ w j hj]
  simp only [Tree.wgt, List.map_cons, List.map_nil, List.prod_cons, List.prod_nil, mul_one, hbu, hbw]
  rw [hq, hq, hq, hq, hq, hq, hq]
  simp only [sumQuant.mul]
  ring

theorem valid_pair {m n : Nat} {c : List Nat} : Valid [m, n] c ↔ ∃ i < m, ∃ j < n, c = [i, j] := by
  constructor
  · intro h
    cases h with
    | cons h1 h2 =>
      cases h2 with
      | cons h2 h3 =>
        cases h3
        exact ⟨_, h1, _, h2, rfl⟩
  · rintro ⟨i, hi, j, hj, rfl⟩
    exact .cons hi (.cons hj .nil)

/-- The expectation which a tuner of a factor of two joined variables computes. -/
theorem binaryBeta_val {ord : List Var → List Var} (hord : ∀ l, (ord l).Perm l) {s : State (Ext K)} (hH : Healthy s)
    (hF : Faithful s) {r : PropResult} (hlast : s.last = some r) (hk : r.kind = .sum) {φ : Nat → Assign → K}
    (hφ : s.Images φ) {u w : Var} (hu : s.Hidden u) (hw : s.Hidden w) (htu : s.TreeAt u)
    (htw : s.TreeAt w) {p : Nat} (hp : p ∈ s.factors) {f : Fn (Ext K)} (hf : s.heap[p]? = some f)
    (hg : f.vars.group = [u, w]) {ρ : Assign → K}
    (hρ : ∀ a, s.InRange a → f.findImage (f.vars.group.map a) = .ok (.val (ρ a))) {l : List Var} (hn : l.Nodup)
    (hl : ∀ w, w ∈ l ↔ s.Hidden w) {e : Assign} (he : s.Agrees e) (hread : ∃ a, s.Agrees a ∧ s.readWeight φ a ≠ 0)
    (hpos : ∃ a, s.Agrees a ∧ s.readWeightIn [u, w] φ a ≠ 0) :
    binaryBeta ord s f u w = .ok (.val (expectation l e (s.readWeightIn [u, w] φ) ρ)) := by
  have hs := hH.inv.toCore
  have hN := hφ.numeric hs
  have huh := hidden_iff.mp hu
  have hwh := hidden_iff.mp hw
  have hwf := hs.heapWF f (List.mem_of_getElem? hf)
  have hsub := hs.group_sub hp hf
  have hlnk : s.lnk u w = some p := by
    obtain ⟨g, h1, h2⟩ := hs.reg p hp
    rw [hf] at h1
    cases h1
    rcases h2 with ⟨v, h3, _⟩ | ⟨x, y, h3, h4⟩
    · rw [hg] at h3; cases h3
    · rw [hg] at h3; cases h3; exact h4
  have hne : u ≠ w := (hs.net.memL _ _ _ hlnk).2.2
  set W := (l.erase u).erase w with hWdef
  have hperm : l.Perm ([u, w] ++ W) := by
    refine (List.perm_cons_erase ((hl u).mpr hu)).trans (List.Perm.cons u ?_)
    exact List.perm_cons_erase (hn.mem_erase_iff.mpr ⟨hne.symm, (hl w).mpr hw⟩)
  have hlh : s.hid.Perm l := by
    rw [List.perm_ext_iff_of_nodup (hid_nodup hs.net) hn]
    intro v
    rw [hl, hidden_iff]
  obtain ⟨e', he', hpos'⟩ := hread
  obtain ⟨μ, C, hmu, hmw, hM⟩ := pair_mass hH hF hlast hk hφ huh hwh hlnk htu htw (hlh.trans hperm) he he' hpos'
  set A : Nat → K := fun i =>
    s.psiK u i * (((AMap.keys (s.activeOf u)).filter (fun x => !decide (x = w))).map (fun x => (μ x u i).1)).prod with hA
  set B : Nat → K := fun j =>
    s.psiK w j * (((AMap.keys (s.activeOf w)).filter (fun x => !decide (x = u))).map (fun x => (μ x w j).1)).prod with hB
  set M : Nat → Nat → K := fun i j =>
    Tree.sumOver Var.size W (s.readWeightIn [u, w] φ) (Function.update (Function.update e u i) w j) with hMdef
  have hM' : ∀ i < u.size, ∀ j < w.size, M i j = C * (A i * s.imgB u w i j * B j) := hM
  have hZ := partition_pos hH [u, w] hφ hl he hpos
  have hZ' : Tree.sumOver Var.size l (s.readWeightIn [u, w] φ) e = ∑ i ∈ Finset.range u.size, ∑ j ∈ Finset.range w.size, M i j := by
    rw [Tree.sumOver_perm hperm]
    rfl
  set q : Nat → Nat → K := fun i j => A i * s.imgB u w i j * B j with hq
  have hZq : Tree.sumOver Var.size l (s.readWeightIn [u, w] φ) e =
      C * ∑ i ∈ Finset.range u.size, ∑ j ∈ Finset.range w.size, q i j := by
    rw [hZ', Finset.mul_sum]
    refine Finset.sum_congr rfl (fun i hi => ?_)
    rw [Finset.mul_sum]
    exact Finset.sum_congr rfl (fun j hj => hM' i (Finset.mem_range.mp hi) j (Finset.mem_range.mp hj))
  set Q := ∑ i ∈ Finset.range u.size, ∑ j ∈ Finset.range w.size, q i j with hQ
  have hC : C ≠ 0 := fun h => hZ.ne' (by rw [hZq, h, zero_mul])
  have hQ0 : Q ≠ 0 := fun h => hZ.ne' (by rw [hZq, h, mul_zero])
  obtain ⟨i0, hi0, j0, hj0, hne0⟩ : ∃ i < u.size, ∃ j < w.size, q i j ≠ 0 := by
    by_contra hc
    push Not at hc
    apply hQ0
    exact Finset.sum_eq_zero (fun i hi => Finset.sum_eq_zero (fun j hj =>
      hc i (Finset.mem_range.mp hi) j (Finset.mem_range.mp hj)))
  have hAne : ∃ i < u.size, A i ≠ 0 := ⟨i0, hi0, fun h => hne0 (by simp only [hq, h, zero_mul])⟩
  have hBne : ∃ j < w.size, B j ≠ 0 := ⟨j0, hj0, fun h => hne0 (by simp only [hq, h, mul_zero])⟩
  obtain ⟨hA0, hcu⟩ := cavity_val hord hH hF hN hlast huh (w := w) (μ := fun x => μ x u) hmu (A := A) (fun _ => rfl) hAne
  obtain ⟨hB0, hcw⟩ := cavity_val hord hH hF hN hlast hwh (w := u) (μ := fun x => μ x w) hmw (A := B) (fun _ => rfl) hBne
  have hpsum : ∀ {m : Nat} {D : Nat → K}, (∀ i < m, 0 ≤ D i) → (∃ i < m, D i ≠ 0) → ((List.range m).map D).sum ≠ 0 := by
    rintro m D h0 ⟨i, hi, hne⟩
    refine (lt_of_lt_of_le (lt_of_le_of_ne (h0 i hi) (Ne.symm hne)) (List.single_le_sum ?_ _ ?_)).ne'
    · intro x hx
      obtain ⟨i, hi, rfl⟩ := List.mem_map.1 hx
      exact h0 i (by simpa using hi)
    · exact List.mem_map.2 ⟨i, by simpa using hi, rfl⟩
  have hSA := hpsum hA0 hAne
  have hSB := hpsum hB0 hBne
  set SA := ((List.range u.size).map A).sum
  set SB := ((List.range w.size).map B).sum
  have hsz : f.sizes = [u.size, w.size] := by rw [hwf.sizes', hg]; rfl
  have hup : ∀ i < u.size, ∀ j < w.size, s.InRange (Function.update (Function.update e u i) w j) := by
    intro i hi j hj v hv
    by_cases h1 : v = w
    · subst h1; rw [Function.update_self]; exact hj
    · rw [Function.update_of_ne h1]
      by_cases h2 : v = u
      · subst h2; rw [Function.update_self]; exact hi
      · rw [Function.update_of_ne h2]; exact he.1 v hv
  have hupu : ∀ i j, Function.update (Function.update e u i) w j u = i := by
    intro i j
    rw [Function.update_of_ne hne, Function.update_self]
  have hupw : ∀ i j, Function.update (Function.update e u i) w j w = j := fun i j => Function.update_self _ _ _
  have himg : ∀ a, s.InRange a → f.img [a u, a w] = .val (ρ a) := by
    intro a ha
    have := raw_img hwf hsub hρ ha
    rw [hg] at this
    exact this
  have htimg : ∀ i < u.size, ∀ j < w.size, f.timg [i, j] = .val (s.imgB u w i j) := by
    intro i hi j hj
    have ha := hup i hi j hj
    obtain ⟨f', h1, h2, _⟩ := hφ p hp _ ha
    rw [hf] at h1
    cases h1
    rw [hφ.bin hs hlnk ha, hupu, hupw, hg] at h2
    simp only [List.map_cons, List.map_nil, hupu, hupw] at h2
    rw [hwf.findTransformed (by rw [hsz]; exact valid_pair.mpr ⟨i, hi, j, hj, rfl⟩)] at h2
    exact Res.ok.inj h2
  unfold binaryBeta
  rw [hcu]
  simp only
  rw [hcw]
  simp only
  rw [hwf.entries]
  simp only
  have hws : Res.mapList (pairWeight ((List.range u.size).map (fun i => Ext.val (A i / SA)))
      ((List.range w.size).map (fun j => Ext.val (B j / SB)))) ((lex f.sizes).map (fun c => (c, f.timg c))) =
      .ok (((lex f.sizes).map (fun c => q (c.headD 0) (c.tail.headD 0) / (SA * SB))).map Ext.val) := by
    have hx : Res.mapList (pairWeight ((List.range u.size).map (fun i => Ext.val (A i / SA)))
        ((List.range w.size).map (fun j => Ext.val (B j / SB)))) ((lex f.sizes).map (fun c => (c, f.timg c))) =
        .ok (((lex f.sizes).map (fun c => (c, f.timg c))).map
          (fun x => Ext.val (q (x.1.headD 0) (x.1.tail.headD 0) / (SA * SB)))) := by
      refine Res.mapList_ok (fun x hx => ?_)
      obtain ⟨c, hc, rfl⟩ := List.mem_map.mp hx
      rw [mem_lex, hsz, valid_pair] at hc
      obtain ⟨i, hi, j, hj, rfl⟩ := hc
      unfold pairWeight
      simp only [List.getElem?_map, List.getElem?_range hi, List.getElem?_range hj, Option.map_some]
      rw [htimg i hi j hj]
      simp only [Ext.mul_val, List.headD_cons, List.tail_cons]
      congr 2
      simp only [hq]
      rw [div_eq_mul_inv, div_eq_mul_inv, div_eq_mul_inv, mul_inv]
      ring
    rw [hx, List.map_map, List.map_map]
    rfl
  rw [hws]
  simp only
  have hS : ((lex f.sizes).map (fun c => q (c.headD 0) (c.tail.headD 0) / (SA * SB))).sum = Q / (SA * SB) := by
    rw [hsz, lex_pair_sum]
    simp only [List.headD_cons, List.tail_cons]
    rw [hQ, Finset.sum_div]
    exact Finset.sum_congr rfl (fun i _ => (Finset.sum_div _ _ _).symm)
  have hSne : Q / (SA * SB) ≠ 0 := div_ne_zero hQ0 (mul_ne_zero hSA hSB)
  rw [Ext.sum_val, hS, Ext.one_eq, Ext.div_val_ne hSne, List.map_map, List.map_map]
  have hd : (lex f.sizes).map (((fun x => Arith.mul x (Ext.val (1 / (Q / (SA * SB))))) ∘ Ext.val) ∘
      fun c => q (c.headD 0) (c.tail.headD 0) / (SA * SB)) =
      (lex f.sizes).map (fun c => Ext.val (q (c.headD 0) (c.tail.headD 0) / Q)) := by
    refine List.map_congr_left (fun c _ => ?_)
    simp only [Function.comp, Ext.mul_val]
    congr 1
    have h1 := mul_ne_zero hSA hSB
    rw [one_div_div, div_mul_div_comm, mul_comm (q _ _), mul_comm (SA * SB) Q, mul_comm (SA * SB) (q _ _),
      mul_div_mul_right _ _ h1]
  rw [hd, dotProduct_val hwf (P := fun c => q (c.headD 0) (c.tail.headD 0) / Q)
    (R := fun c => ρ (Function.update (Function.update e u (c.headD 0)) w (c.tail.headD 0))) (by
      intro c hc
      rw [hsz, valid_pair] at hc
      obtain ⟨i, hi, j, hj, rfl⟩ := hc
      have := himg _ (hup i hi j hj)
      rw [hupu, hupw] at this
      exact this), hsz, lex_pair_sum]
  congr 2
  unfold expectation
  rw [hZq, Tree.sumOver_perm hperm]
  have hnum : Tree.sumOver Var.size ([u, w] ++ W) (fun a => s.readWeightIn [u, w] φ a * ρ a) e = C *
      ∑ i ∈ Finset.range u.size, ∑ j ∈ Finset.range w.size,
        q i j * ρ (Function.update (Function.update e u i) w j) := by
    rw [Finset.mul_sum]
    refine Finset.sum_congr rfl (fun i hi => ?_)
    rw [Finset.mul_sum]
    refine Finset.sum_congr rfl (fun j hj => ?_)
    have hi' := Finset.mem_range.mp hi
    have hj' := Finset.mem_range.mp hj
    rw [← mul_assoc, ← hM' i hi' j hj', mul_comm]
    simp only [hMdef]
    rw [← Tree.sumOver_mul (c := fun _ => ρ (Function.update (Function.update e u i) w j)) (fun _ _ _ => rfl)]
    refine Tree.sumOver_congr_range (fun b h1 h2 => ?_)
    have hmW : ∀ x, x ∈ W → s.Hidden x ∧ x ≠ u ∧ x ≠ w := by
      intro x hx
      rw [hWdef, (hn.erase u).mem_erase_iff, hn.mem_erase_iff, hl] at hx
      exact ⟨hx.2.2, hx.2.1, hx.1⟩
    have hb : s.InRange b := by
      intro v hv
      by_cases hvW : v ∈ W
      · exact h2 v hvW
      · rw [h1 v hvW]; exact hup i hi' j hj' v hv
    have e1 := himg b hb
    have e2 := himg _ (hup i hi' j hj')
    rw [h1 u (fun h => (hmW u h).2.1 rfl), h1 w (fun h => (hmW w h).2.2 rfl), e2] at e1
    rw [← Ext.val.inj e1]
    exact mul_comm _ _
  rw [hnum, mul_div_mul_left _ _ hC, Finset.sum_div]
  refine Finset.sum_congr rfl (fun i _ => ?_)
  rw [Finset.sum_div]
  refine Finset.sum_congr rfl (fun j _ => ?_)
  simp only [List.headD_cons, List.tail_cons]
  rw [div_mul_eq_mul_div]

/-! ### The gradient -/

section
variable {F : Type} [Arith F]

/-- The gradient is computed after a sum product propagation without evidences. -/
theorem gradient_start {b : Prop} {ord : List Var → List Var} (hord : ∀ l, (ord l).Perm l) {sched : Sched}
    (hsched : ∀ l, (sched l).Perm l) (samples : List (List Nat)) {n : Nat} (hn : 1 ≤ n) {s : State F}
    (hs : Sound b s) : ∃ s2 r, getWeightsGradient ord sched samples n s =
      (match Res.mapList (gradientTask ord samples s2) s2.tuners with
        | .ok a => .ok s2 a
        | .throw => .throw s2
        | .ub => .ub) ∧ Sound b s2 ∧ s2.last = some r ∧ r.kind = .sum ∧ s2.evidences = [] ∧ Frame s s2 := by
  have h0 : setPoolSize n s = .ok { s with pool := some n } () := by
    unfold setPoolSize
    rw [hs.healthy.pool]
    simp only
    by_cases h1 : n = 1
    · subst h1
      rw [if_pos rfl]
      have hp := hs.healthy.pool
      cases s
      simp only at hp
      rw [hp]
    · rw [if_neg h1, if_neg (by omega)]
  have hstart : ∃ s1, (if ({ s with pool := some n } : State F).evidences.isEmpty then
      .ok { s with pool := some n } ()
      else removeAllEvidences ord { s with pool := some n } : Out (State F) Unit) = .ok s1 () ∧
      Sound b s1.resetPool ∧ s1.pool = some n ∧ Inv s1 ∧ s1.evidences = [] ∧ Frame s s1 := by
    have hi : Inv ({ s with pool := some n } : State F) := hs.healthy.inv.settings _ _ _
    by_cases he : ({ s with pool := some n } : State F).evidences.isEmpty = true
    · refine ⟨_, by rw [if_pos he], ?_, rfl, hi, by simpa using he, ⟨rfl, rfl, rfl, rfl, rfl, rfl, rfl, rfl, fun _ => rfl⟩⟩
      have : State.resetPool ({ s with pool := some n } : State F) = s := by
        have hp := hs.healthy.pool
        cases s
        simp only at hp
        unfold State.resetPool
        rw [hp]
      rw [this]; exact hs
    · have hp := hord (AMap.keys s.evidences)
      obtain ⟨s1, h1, h1c, h1f, h1p, _, h1o, _⟩ := forEach_removeAll hord (ord (AMap.keys s.evidences)) hi.toCore
        (fun v hv => hp.mem_iff.mp hv) (hp.nodup_iff.mpr hi.obsNodup)
      refine ⟨resetState ord s1, ?_, ?_, h1p, resetState_inv hord h1c, ?_, ?_⟩
      · rw [if_neg he]; unfold removeAllEvidences; rw [h1]
      · have h2 := forEach_shed hord _ hi.toCore h1
        have h3 : Shed s s1.resetPool (fun w => w ∈ s.obs ∧ ∃ v ∈ ord (AMap.keys s.evidences), w.eqv v = true) := by
          refine ⟨(Inv.settings (resetState_inv hord h1c) s1.maxIter s1.last (some 1)).toCore |> fun hc => ?_, ?_, ?_, ?_, h2.lnk, h2.obs, h2.act, h2.coh, h2.evid⟩
          · exact ⟨⟨hc.net.keys, hc.net.distinct, hc.net.nodup, hc.net.excl, hc.net.symA, hc.net.symL, hc.net.memL⟩,
              hc.heapWF, hc.posV, hc.link, hc.unary, hc.unaNodup, hc.facNodup, hc.reg, hc.obsNodup, hc.obsMem, hc.obsVal,
              hc.disObs, hc.msgH, hc.mrgT⟩
          · exact ⟨h2.frame.heap, h2.frame.vars, h2.frame.keys, h2.frame.factors, h2.frame.consts, h2.frame.maxIter,
              h2.frame.tunables, h2.frame.tuners, h2.frame.una⟩
          · exact hs.healthy.pool.symm
          · rcases h2.last with h4 | h4
            · left
              rw [h4]
              have hp := hs.healthy.pool
              cases s
              simp only at hp
              unfold State.resetPool
              rw [hp]
            · exact Or.inr h4
        exact h3.sound hord hs (fun u w _ hw _ => ⟨hw, w, hp.mem_iff.mpr hw, Var.eqv_refl w⟩)
      · have hnil : ∀ w, w ∉ s1.obs := by
          intro w hw
          obtain ⟨h2, h3⟩ := (h1o w).mp hw
          exact h3 (hp.mem_iff.mpr h2)
        have : s1.obs = [] := List.eq_nil_iff_forall_not_mem.mpr hnil
        exact List.map_eq_nil_iff.mp this
      · exact ⟨h1f.heap, h1f.vars, h1f.keys, h1f.factors, h1f.consts, h1f.maxIter, h1f.tunables, h1f.tuners, h1f.una⟩
  obtain ⟨s1, e1, hs1, hp1, hi1, hev1, hfr1⟩ := hstart
  have hs1' := hs1.resetBelief
  have hb0 : Asked s1.resetPool.resetBelief s1.resetBelief := by
    refine Asked.light rfl rfl rfl rfl rfl rfl rfl rfl rfl rfl
  have hflow : Flow s1.resetBelief := hs1'.healthy.flow.quiet hb0.toQuiet hi1.resetBelief.toCore
  obtain ⟨s2, r, h1, h2, h3, h4, h5, h6, h7, _, _⟩ := propagateBelief_ok hord .sum hsched hi1.resetBelief hflow hn hp1 rfl
  have ha1 : Asked s2 s2.resetPool := Asked.light rfl rfl rfl rfl rfl rfl rfl rfl rfl rfl
  have hall := (hb0.trans h2).trans ha1
  have hinv := hall.inv hs1'.healthy.inv
  have hfin : Sound b s2.resetPool := by
    have hset : Settled s2.resetPool r := by
      refine ⟨h6.typed, h6.len, ?_⟩
      intro j hj
      obtain ⟨c, g1, g2, g3⟩ := h6.done j hj
      exact ⟨c, g1, g2, g3.keep ha1.toQuiet (fun _ _ => rfl) (fun _ _ _ => rfl)⟩
    refine ⟨⟨hinv, (hs1'.healthy.flow.quiet hall.toQuiet hinv.toCore).sep, ?_, rfl,
      fun _ => (hset.fresh hinv).alive hinv⟩, fun hb => ?_⟩
    · intro u v
      have : s2.resetPool.lnk u v = s1.resetPool.resetBelief.lnk u v := hall.toQuiet.lnk u v
      rw [this]; exact hs1'.healthy.sizes u v
    · have hf := hs1'.faithful hb
      refine ⟨hall.coh hs1'.healthy.inv hf.coh, hall.evid hf.evid, ?_⟩
      intro r' hr'
      have : s2.last = some r' := hr'
      rw [h4] at this
      cases this
      exact hset.fresh hinv
  refine ⟨s2.resetPool, r, ?_, hfin, h4, h5, ?_, ?_⟩
  · unfold getWeightsGradient withPool
    rw [h0]
    simp only
    unfold gradient
    simp only [e1]
    rw [h1]
    simp only
    unfold lift
    beta_reduce
    have ht : gradientTask ord samples s2.resetPool = gradientTask ord samples s2 := rfl
    rw [ht]
    have ht' : s2.resetPool.tuners = s2.tuners := rfl
    rw [ht']
    cases Res.mapList (gradientTask ord samples s2) s2.tuners <;> rfl
  · have := hall.toQuiet.evidences
    rw [this]; exact hev1
  · have hq := hall.toQuiet.toFrame
    refine hfr1.trans ?_
    have h8 : Frame s1 s1.resetPool.resetBelief := ⟨rfl, rfl, rfl, rfl, rfl, rfl, rfl, rfl, fun _ => rfl⟩
    exact h8.trans hq

end

/-- The properties of a model which do not depend on the propagation. -/
theorem Frame.bare {s t : State (Ext K)} (hf : Frame s t) (he : t.evidences = []) :
    (∀ v, t.Hidden v ↔ v ∈ s.vars) ∧ (∀ (G : List Var) (φ : Nat → Assign → K), t.readWeightIn G φ = s.unconditioned.readWeightIn G φ) ∧
    (∀ v, s.unconditioned.TreeAt v → t.TreeAt v) ∧ (∀ φ : Nat → Assign → K, s.Images φ → t.Images φ) ∧
    (∀ ρ : Nat → Assign → K, s.RawImages ρ → t.RawImages ρ) := by
  have hu1 : s.unconditioned.evidences = [] := rfl
  have hu2 : s.unconditioned.vars = s.vars := rfl
  have hH : ∀ v, t.Hidden v ↔ s.unconditioned.Hidden v := by
    intro v
    simp only [Hidden, Observes, he, hf.vars, hu1, hu2]
  have hJ : ∀ u v, t.Joins u v ↔ s.unconditioned.Joins u v := by
    intro u v
    simp only [Joins, FactorOn, hf.heap, hf.factors]
    rfl
  have hG : t.hiddenGraph = s.unconditioned.hiddenGraph := by
    ext u v
    simp only [hiddenGraph, hH, hJ]
  refine ⟨?_, ?_, ?_, ?_, ?_⟩
  · intro v
    simp only [Hidden, Observes, he, hf.vars, List.not_mem_nil, exists_false, not_false_eq_true, and_true]
  · intro G φ
    have hHf : t.Hidden = s.unconditioned.Hidden := funext (fun v => propext (hH v))
    funext a
    unfold readWeightIn readAtIn
    rw [hHf, hf.factors, hf.heap]
    rfl
  · intro v h
    unfold TreeAt Linked at *
    rw [hG]
    simp only [hH, hJ]
    exact h
  · intro φ h
    unfold Images InRange at *
    rw [hf.factors, hf.vars, hf.heap]
    exact h
  · intro ρ h
    unfold RawImages InRange at *
    rw [hf.tunables, hf.vars, hf.heap]
    exact h

theorem tunerSum_val {g : BaseTuner → Res (Ext K)} {G : BaseTuner → K} {t : List BaseTuner}
    (h : ∀ b ∈ t, g b = .ok (.val (G b))) : tunerSum g t = .ok (.val ((t.map G).sum)) := by
  have hsum : Arith.sum (t.map (fun b => Ext.val (G b))) = Ext.val (t.map G).sum := by
    rw [show t.map (fun b => Ext.val (G b)) = (t.map G).map Ext.val from by rw [List.map_map]; rfl, Ext.sum_val]
  have hmap := Res.mapList_ok h
  unfold tunerSum
  split
  · rename_i b
    rw [h b (by simp)]
    simp
  · rw [hmap]
    simp only
    rw [hsum]

theorem sampleMean_statistic (s : State (Ext K)) (samples : List (List Nat)) (ρ : Nat → Assign → K) (t : List BaseTuner) :
    (t.map (fun b => s.sampleMean samples (ρ b.factor))).sum =
      s.sampleMean samples (statistic ρ (t.map BaseTuner.factor)) := by
  unfold sampleMean statistic
  induction t with
  | nil => simp
  | cons b t ih =>
    rw [List.map_cons, List.sum_cons, ih, ← add_div, ← List.sum_map_add]
    simp only [List.map_cons, List.sum_cons]

theorem expectation_statistic (l : List Var) (e : Assign) (ω : Assign → K) (ρ : Nat → Assign → K) (t : List BaseTuner) :
    (t.map (fun b => expectation l e ω (ρ b.factor))).sum =
      expectation l e ω (statistic ρ (t.map BaseTuner.factor)) := by
  have hadd : ∀ (l : List Var) (f g : Assign → K) (e : Assign), Tree.sumOver Var.size l (fun a => f a + g a) e =
      Tree.sumOver Var.size l f e + Tree.sumOver Var.size l g e := by
    intro l f g
    induction l with
    | nil => intro e; rfl
    | cons v l ih =>
      intro e
      simp only [Tree.sumOver, ih]
      exact Finset.sum_add_distrib
  have hzero : ∀ (l : List Var) (e : Assign), Tree.sumOver Var.size l (fun _ => (0 : K)) e = 0 := by
    intro l
    induction l with
    | nil => intro e; rfl
    | cons v l ih =>
      intro e
      simp only [Tree.sumOver, ih]
      exact Finset.sum_const_zero
  unfold expectation statistic
  induction t with
  | nil => simp [hzero]
  | cons b t ih =>
    rw [List.map_cons, List.sum_cons, ih, ← add_div, ← hadd]
    simp only [List.map_cons, List.sum_cons, mul_add]

/-- The gradient of a random field without cycles. -/
theorem gradient_read {ord : List Var → List Var} (hord : ∀ l, (ord l).Perm l) {sched : Sched}
    (hsched : ∀ l, (sched l).Perm l) {samples : List (List Nat)} {n : Nat} (hn : 1 ≤ n) {s : State (Ext K)}
    (hs : Sound True s) (ht : Tuned s) (hne : samples ≠ []) (hv : ∀ c ∈ samples, Valid (s.vars.map Var.size) c)
    {φ ρ : Nat → Assign → K} (hφ : s.Images φ) (hρ : s.RawImages ρ)
    (htree : ∀ v ∈ s.vars, s.unconditioned.TreeAt v)
    (hread : ∃ a, s.InRange a ∧ s.unconditioned.readWeight φ a ≠ 0)
    (hpos : ∀ p ∈ s.tunables, ∃ a, s.InRange a ∧ s.unconditioned.readWeightIn (s.groupOf p) φ a ≠ 0) :
    ∃ s', getWeightsGradient ord sched samples n s = .ok s' (s.tunableClusters.map (fun c =>
      .val (s.sampleMean samples (statistic ρ c) - (c.map (fun p => s.readMean φ p (ρ p))).sum))) := by
  obtain ⟨s2, r, h1, h2, h3, h4, h5, h6⟩ := gradient_start hord hsched samples hn hs
  obtain ⟨b1, b2, b3, b4, b5⟩ := h6.bare h5
  refine ⟨s2, ?_⟩
  have ht2 : Tuned s2 := ht.kept (.of_eq h6.heap) ⟨[], by rw [h6.vars, List.append_nil]⟩
    ⟨[], by rw [h6.factors, List.append_nil]⟩ h6.tunables h6.tuners
  have hH := h2.healthy
  have hF := h2.faithful trivial
  have hc := hH.inv.toCore
  have hn2 : s2.vars.Nodup := hc.net.distinct.nodup
  have hr : ∀ a, s2.InRange a ↔ s.InRange a := fun a => by unfold InRange; rw [h6.vars]
  have hag : ∀ a, s2.Agrees a ↔ s.InRange a := fun a => by
    unfold Agrees
    rw [hr, h5]
    simp
  have hw0 : s2.readWeight φ = s.unconditioned.readWeight φ := by
    funext a
    rw [← readWeightIn_nil, ← readWeightIn_nil, b2]
  have he : s2.Agrees (fun _ => 0) := by
    rw [hag]
    intro v hv
    exact hc.posV v (by rw [h6.vars]; exact hv)
  have hread2 : ∃ a, s2.Agrees a ∧ s2.readWeight φ a ≠ 0 := by
    obtain ⟨a, h1, h2⟩ := hread
    exact ⟨a, (hag a).mpr h1, by rw [hw0]; exact h2⟩
  have hl : ∀ w, w ∈ s.vars ↔ s2.Hidden w := fun w => (b1 w).symm
  have hmean : ∀ h, s2.sampleMean samples h = s.sampleMean samples h := by
    intro h
    unfold sampleMean sampleAt
    rw [h6.vars]
  have htask : ∀ t ∈ s2.tuners, gradientTask ord samples s2 t = .ok
      (.val (s.sampleMean samples (statistic ρ (t.map BaseTuner.factor)) -
        ((t.map BaseTuner.factor).map (fun p => s.readMean φ p (ρ p))).sum)) := by
    intro t htm
    have halpha : ∀ b ∈ t, s2.baseAlpha samples b = .ok (.val (s.sampleMean samples (ρ b.factor))) := by
      intro b hb
      rw [alpha_val hn2 (b5 ρ hρ) (by rw [h6.vars]; exact hv) hne (ht2.of t htm b hb), hmean]
    have hbeta : ∀ b ∈ t, s2.baseBeta ord b = .ok (.val (s.readMean φ b.factor (ρ b.factor))) := by
      intro b hb
      have hof := ht2.of t htm b hb
      obtain ⟨f, f1, f2, _, f4⟩ := hof.fn
      have hraw : ∀ a, s2.InRange a → f.findImage (f.vars.group.map a) = .ok (.val (ρ b.factor a)) := by
        intro a ha
        obtain ⟨f', g1, g2⟩ := b5 ρ hρ b.factor hof.reg a ha
        rw [f1] at g1
        cases g1
        exact g2
      have hgrp : s.groupOf b.factor = f.vars.group := by
        unfold groupOf
        rw [← h6.heap, f1]
      unfold baseBeta readMean
      rw [deref_eq f1, ← b2, hgrp]
      simp only
      rcases f4 with ⟨v, f5, f6⟩ | ⟨u, v, f5, f6⟩
      · rw [f6]
        simp only
        have hvv := f2 v (by rw [f5]; simp)
        rw [f5, readWeightIn_single hc (G := [v]) (by simp)]
        exact unaryBeta_val hord hH hF h3 h4 (b4 φ hφ) ((b1 v).mpr (by rw [← h6.vars]; exact hvv))
          (b3 v (htree v (by rw [← h6.vars]; exact hvv))) (hc.heapWF f (List.mem_of_getElem? f1)) f5 hraw
          (by rw [← h6.vars]; exact hn2) hl he hread2
      · rw [f6]
        simp only
        have hvu := f2 u (by rw [f5]; simp)
        have hvv := f2 v (by rw [f5]; simp)
        rw [h6.vars] at hvu hvv
        rw [f5]
        exact binaryBeta_val hord hH hF h3 h4 (b4 φ hφ) ((b1 u).mpr hvu) ((b1 v).mpr hvv)
          (b3 u (htree u hvu)) (b3 v (htree v hvv)) (ht2.reg _ hof.reg) f1 f5 hraw
          (by rw [← h6.vars]; exact hn2) hl he hread2 (by
            obtain ⟨a, g1, g2⟩ := hpos b.factor (by rw [← h6.tunables]; exact hof.reg)
            rw [hgrp, f5, ← b2] at g2
            exact ⟨a, (hag a).mpr g1, g2⟩)
    unfold gradientTask
    rw [tunerSum_val halpha]
    simp only
    rw [tunerSum_val hbeta]
    simp only
    rw [Ext.sub_val, sampleMean_statistic]
    rw [List.map_map]
    rfl
  rw [h1, Res.mapList_ok htask]
  simp only
  congr 1
  unfold tunableClusters
  rw [h6.tuners, List.map_map]
  rfl

/-- Symmetric factors are read as they are. -/
theorem readMean_symmetric {s : State (Ext K)} {φ : Nat → Assign → K} (hy : s.unconditioned.Symmetric φ) (p : Nat) (h : Assign → K) :
    s.readMean φ p h = s.modelMean φ h := by
  unfold readMean modelMean expectation
  have hw : ∀ b : Assign, (∀ u, u ∉ s.vars → b u = 0) → (∀ u ∈ s.vars, b u < u.size) →
      s.unconditioned.readWeightIn (s.groupOf p) φ b = s.weight φ b :=
    fun b _ h2 => readWeightIn_symmetric _ hy h2
  congr 1
  · exact Tree.sumOver_congr_range (fun b h1 h2 => by rw [hw b h1 h2])
  · exact Tree.sumOver_congr_range hw

/-- The gradient of a random field without cycles and with symmetric factors. -/
theorem gradient_val {ord : List Var → List Var} (hord : ∀ l, (ord l).Perm l) {sched : Sched}
    (hsched : ∀ l, (sched l).Perm l) {samples : List (List Nat)} {n : Nat} (hn : 1 ≤ n) {s : State (Ext K)}
    (hs : Sound True s) (ht : Tuned s) (hne : samples ≠ []) (hv : ∀ c ∈ samples, Valid (s.vars.map Var.size) c)
    {φ ρ : Nat → Assign → K} (hφ : s.Images φ) (hρ : s.RawImages ρ) (hy : s.unconditioned.Symmetric φ)
    (htree : ∀ v ∈ s.vars, s.unconditioned.TreeAt v) (hpos : ∃ a, s.InRange a ∧ s.weight φ a ≠ 0) :
    ∃ s', getWeightsGradient ord sched samples n s = .ok s' (s.tunableClusters.map (fun c =>
      .val (s.sampleMean samples (statistic ρ c) - s.modelMean φ (statistic ρ c)))) := by
  obtain ⟨a, ha, hne'⟩ := hpos
  have hw : ∀ G, s.unconditioned.readWeightIn G φ a = s.weight φ a := fun G => readWeightIn_symmetric G hy ha
  obtain ⟨s', h⟩ := gradient_read hord hsched hn hs ht hne hv hφ hρ htree
    ⟨a, ha, by rw [← readWeightIn_nil, hw]; exact hne'⟩ (fun p _ => ⟨a, ha, by rw [hw]; exact hne'⟩)
  refine ⟨s', h.trans ?_⟩
  congr 1
  unfold tunableClusters
  rw [List.map_map, List.map_map]
  refine List.map_congr_left (fun t _ => ?_)
  simp only [Function.comp]
  congr 2
  rw [List.map_map]
  refine Eq.trans ?_ (expectation_statistic _ _ _ _ _)
  congr 1
  exact List.map_congr_left (fun b _ => readMean_symmetric hy _ _)

end State
end EFG
