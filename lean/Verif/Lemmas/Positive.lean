import Verif.Lemmas.Conditional
import Verif.Lemmas.Nan
import Verif.Lemmas.Calm
import Verif.Spec.Sign
/-
The messages of a model whose factors have positive images are positive numbers, on every graph.
-/

set_option linter.unusedSectionVars false

namespace EFG
variable {K : Type} [Field K] [LinearOrder K] [IsStrictOrderedRing K] [FloatParams K]

theorem listProd_pos {l : List K} (h : ∀ x ∈ l, 0 < x) : 0 < l.prod := by
  induction l with
  | nil => simp
  | cons x l ih =>
    rw [List.prod_cons]
    exact mul_pos (h x (by simp)) (ih (fun y hy => h y (by simp [hy])))

namespace Fn

/-- The images of a unary function are positive numbers. -/
def PosOn (u : Var) (f : Fn (Ext K)) : Prop := ∀ i < u.size, (f.timg [i]).IsVal ∧ 0 < (f.timg [i]).toK

theorem PosOn.of_val {u : Var} {f : Fn (Ext K)} {g : Nat → K} (h : ∀ i < u.size, f.timg [i] = .val (g i))
    (hg : ∀ i < u.size, 0 < g i) : f.PosOn u := fun i hi => by
  rw [h i hi]; exact ⟨Ext.isVal_val _, hg i hi⟩

theorem ones_posOn {u : Var} (hu : 0 < u.size) : (ones u : Fn (Ext K)).PosOn u :=
  .of_val (g := fun _ => 1) (fun i hi => by rw [(ones_unary (F := Ext K) hu).2 i hi]; rfl) (fun _ _ => one_pos)

theorem mergedUnaries_posOn {u : Var} {fs : List (Fn (Ext K))} (hne : fs ≠ []) (hu : ∀ f ∈ fs, f.Unary u)
    (hp : ∀ f ∈ fs, f.PosOn u) : ∃ m, mergedUnaries fs = .ok m ∧ m.Unary u ∧ m.PosOn u := by
  have h0 : 0 < u.size := by
    cases fs with
    | nil => exact absurd rfl hne
    | cons f _ => exact (hu f (by simp)).pos
  have hpr : ∀ i < u.size, 0 < (fs.map (fun f => (f.timg [i]).toK)).prod := by
    intro i hi
    refine listProd_pos (fun x hx => ?_)
    obtain ⟨f, hf, rfl⟩ := List.mem_map.mp hx
    exact (hp f hf i hi).2
  obtain ⟨m, M, e1, e2, e3, e4, _⟩ := mergedUnaries_val (v := u) (fs := fs)
    (G := fun i => (fs.map (fun f => (f.timg [i]).toK)).prod) hne hu
    (fun i hi => prodImg_val (fun f hf => (hp f hf i hi).1)) (fun i hi => (hpr i hi).le) ⟨0, h0, (hpr 0 h0).ne'⟩
  exact ⟨m, e1, e2, .of_val e4 (fun i hi => div_pos (hpr i hi) e3)⟩

theorem maxK_le (l : List K) (m : K) : m ≤ Ext.maxK m l := by
  unfold Ext.maxK
  induction l generalizing m with
  | nil => exact le_refl _
  | cons x l ih => exact (le_max_left m x).trans (ih _)

theorem redK_pos {kind : Kind} {l : List K} (hl : l ≠ []) (h : ∀ x ∈ l, 0 < x) : 0 < redK kind l := by
  cases kind with
  | sum => exact List.sum_pos l h hl
  | map => exact lt_of_lt_of_le FloatParams.minK_pos (maxK_le l _)

theorem Binary.message_posOn {x y : Var} {b ms : Fn (Ext K)} (h : b.Binary x y) (hm : ms.Unary x) (hp : ms.PosOn x)
    (hb : ∀ r < y.size, ∀ i < x.size, (bimg x b r i).IsVal ∧ 0 < (bimg x b r i).toK) (kind : Kind)
    (hs : x.size = y.size) {m : Fn (Ext K)} (e : Fn.message kind ms b = .ok m) : m.Unary y ∧ m.PosOn y := by
  obtain ⟨m', g1, g2, _, g4⟩ := h.message hm kind (by omega)
  rw [e] at g1
  cases g1
  refine ⟨g2, .of_val (g := fun j => redK kind ((List.range x.size).map (fun i => (ms.timg [i]).toK * (bimg x b j i).toK)))
    (fun j hj => ?_) (fun j hj => ?_)⟩
  · rw [g4 j hj, if_pos (by omega)]
    exact msgVal_val (fun i hi => (hp i hi).1.eq) (fun i hi => (hb j hj i hi).1.eq)
  · refine redK_pos ?_ (fun z hz => ?_)
    · have := hm.pos
      simp only [ne_eq, List.map_eq_nil_iff, List.range_eq_nil]
      omega
    · obtain ⟨i, hi, rfl⟩ := List.mem_map.mp hz
      have hi : i < x.size := by simpa using hi
      exact mul_pos (hp i hi).2 (hb j hj i hi).2

/-- The probabilities of a function whose images are positive numbers. -/
theorem Unary.probabilities_posOn {u : Var} {f : Fn (Ext K)} (h : f.Unary u) (hp : f.PosOn u) :
    ∃ ps : List K, f.probabilities = .ok (ps.map Ext.val) ∧ ps.length = u.size ∧ (∀ p ∈ ps, 0 < p) ∧ ps.sum = 1 := by
  have hI : f.images = .ok (((List.range u.size).map (fun i => (f.timg [i]).toK)).map Ext.val) := by
    rw [h.images, List.map_map]
    congr 1
    exact List.map_congr_left (fun i hi => (hp i (by simpa using hi)).1.eq)
  set qs := (List.range u.size).map (fun i => (f.timg [i]).toK) with hqs
  have hq : ∀ q ∈ qs, 0 < q := by
    intro q hq
    obtain ⟨i, hi, rfl⟩ := List.mem_map.mp hq
    exact (hp i (by simpa using hi)).2
  have hne : qs ≠ [] := by
    have := h.pos
    simp only [hqs, ne_eq, List.map_eq_nil_iff, List.range_eq_nil]
    omega
  have hsum : 0 < qs.sum := List.sum_pos qs hq hne
  refine ⟨qs.map (fun q => q / qs.sum), ?_, by simp [hqs], ?_, ?_⟩
  · unfold Fn.probabilities
    rw [hI]
    simp only
    rw [Ext.sum_val]
    have h3 : Arith.eq (Ext.val qs.sum) (Arith.zero : Ext K) = false := decide_eq_false hsum.ne'
    rw [h3]
    simp only [Bool.false_eq_true, if_false, List.map_map, Res.ok.injEq]
    refine List.map_congr_left (fun q _ => ?_)
    change (if qs.sum = 0 then (.nan : Ext K) else .val (q / qs.sum)) = _
    rw [if_neg hsum.ne']
    rfl
  · intro p hp
    obtain ⟨q, hq', rfl⟩ := List.mem_map.mp hp
    exact div_pos (hq q hq') hsum
  · have : ∀ (l : List K) (t : K), (l.map (fun q => q / t)).sum = l.sum / t := by
      intro l t
      induction l with
      | nil => simp
      | cons q l ih => simp only [List.map_cons, List.sum_cons, ih, add_div]
    rw [this, div_self hsum.ne']

/-- The variation of a message is a number. -/
theorem Unary.diff_val {u : Var} {f g : Fn (Ext K)} (hf : f.Unary u) (hg : g.Unary u) (hpf : f.PosOn u)
    (hpg : g.PosOn u) {x : Ext K} (e : f.diff g = .ok x) : x.IsVal := by
  obtain ⟨ps, e1, _⟩ := hf.probabilities_posOn hpf
  obtain ⟨qs, e2, _⟩ := hg.probabilities_posOn hpg
  unfold Fn.diff at e
  rw [e1, e2] at e
  simp only at e
  have gen : ∀ (ps qs : List K) (a : K) (x : Ext K), diffLoop (.val a) (ps.map Ext.val) (qs.map Ext.val) = .ok x →
      x.IsVal := by
    intro ps
    induction ps with
    | nil => intro qs a x e; cases e; exact Ext.isVal_val _
    | cons p ps ih =>
      intro qs a x e
      cases qs with
      | nil => cases e
      | cons q qs => exact ih qs _ x e
  exact gen ps qs 0 x e

end Fn

namespace State

/-- All the images of the accepted factors are positive numbers. -/
abbrev AllPositive (s : State (Ext K)) : Prop := s.Valued (fun x => 0 < x)

theorem Valued.psiK_pos {s : State (Ext K)} (h : s.AllPositive) (hs : Core s) (u : Var) {i : Nat} (hi : i < u.size) :
    0 < s.psiK u i := by
  unfold psiK
  refine mul_pos (listProd_pos ?_) (listProd_pos ?_)
  · intro x hx
    obtain ⟨p, hp, rfl⟩ := List.mem_map.1 hx
    obtain ⟨_, _, f, hf, _⟩ := hs.unary u p hp
    unfold imgU
    rw [hf]
    exact (h.una u p f hp hf i hi).2
  · intro x hx
    obtain ⟨w, hw, rfl⟩ := List.mem_map.1 hx
    unfold imgB
    cases hl : s.lnk u w with
    | none => exact one_pos
    | some p =>
      simp only
      cases hf : s.heap[p]? with
      | none => exact one_pos
      | some f => exact (h.bin u w p f hl hf i hi _ (hs.ev_lt hw)).2

theorem merged_posOn {s : State (Ext K)} (hH : Healthy s) (hF : Faithful s) (hP : s.AllPositive) {u : Var}
    (hu : u ∈ s.hid) {mg : Fn (Ext K)} (hmg : s.mrg u = some mg) : mg.PosOn u := by
  have hs := hH.inv.toCore
  have h0 := hs.posV u (mem_hid.mp hu).1
  obtain ⟨c, hc, h1⟩ := merged_val hs hH.sep hF.coh hF.evid (hP.mono (fun _ h => le_of_lt h)) hu hmg
    ⟨0, h0, (hP.psiK_pos hs u h0).ne'⟩
  exact .of_val h1 (fun i hi => mul_pos hc (hP.psiK_pos hs u hi))

/-- The messages listed are positive. -/
def PosMsgs (s : State (Ext K)) (ts : List Topo) : Prop :=
  ∀ t ∈ ts, ∀ m, s.msg t.conn.owner t.conn.from_ = some m → m.PosOn t.conn.owner

/-- One message computed from positive ones. -/
theorem Ready.sends_posOn {kind : Kind} {s : State (Ext K)} {nodes : List Var} {ts : List Topo} (h : Ready s nodes ts)
    (hP : s.AllPositive) (hmg : ∀ u ∈ nodes, ∀ mg, s.mrg u = some mg → mg.PosOn u) {t : Topo} (ht : t ∈ ts)
    (hd : ∀ r ∈ t.deps, ∀ m, s.msg r.owner r.from_ = some m → m.PosOn r.owner) {m : Fn (Ext K)}
    (hsend : Sends kind s t m) : m.Unary t.conn.owner ∧ m.PosOn t.conn.owner := by
  have hs := h.flow.core
  have hset := h.setting
  have hun := hset.topo.sender t ht
  have hact := hset.topo.active t ht
  have hon := hset.ownerMem ht
  have hsz : t.sender.size = t.conn.owner.size := h.flow.sq _ _ (hset.hid _ hun) (hset.hid _ hon) hact
  have hat := hset.at_ ht
  obtain ⟨ms, d1, d2⟩ := depMessages_some (fun r hr => hat.depActive hr) (h.hasDeps ht)
  obtain ⟨mg, deps, p, b1, b2, b3, b4⟩ := hsend
  rw [d1] at b2
  cases b2
  have hms : ∀ m ∈ ms, m.Unary t.sender ∧ m.PosOn t.sender := by
    intro m hm
    obtain ⟨r, hr, h3⟩ := forall₂_mem_right d2 hm
    have hown := ((hset.topo.deps t ht r).mp hr).1
    have h4 := hd r hr m h3
    rw [hown] at h3 h4
    exact ⟨h.typed _ _ m (hset.hid _ hun) h3, h4⟩
  obtain ⟨f, f1, f2, f3⟩ := Fn.mergedUnaries_posOn (u := t.sender) (fs := mg :: ms) (by simp)
    (fun g hg => by
      rcases List.mem_cons.mp hg with rfl | hg
      · exact hs.mrgT _ _ b1
      · exact (hms g hg).1)
    (fun g hg => by
      rcases List.mem_cons.mp hg with rfl | hg
      · exact hmg _ hun _ b1
      · exact (hms g hg).2)
  obtain ⟨_, b, hb, hbin⟩ := hs.link _ _ _ b3
  unfold newMessage at b4
  rw [f1] at b4
  simp only at b4
  rw [deref_eq hb] at b4
  simp only at b4
  have hlnk : s.lnk t.sender t.conn.owner = some p := by rw [hs.net.symL]; exact b3
  exact hbin.symm.message_posOn f2 f3
    (fun r hr i hi => hP.bin t.sender t.conn.owner p b hlnk hb r (by omega) i (by omega)) kind hsz b4

theorem Valued.quiet {s s' : State (Ext K)} {Q : K → Prop} (h : s.Valued Q) (hq : Quiet s s') : s'.Valued Q where
  una u p f hp hf := by
    rw [hq.una] at hp
    rw [hq.heap] at hf
    exact h.una u p f hp hf
  bin u w p f hl hf := by
    rw [hq.lnk] at hl
    rw [hq.heap] at hf
    exact h.bin u w p f hl hf

/-- The updates of a loopy propagation keep the messages positive, and their variations are numbers. -/
theorem Updates.posOn {kind : Kind} {nodes : List Var} {ts l : List Topo} {s s' : State (Ext K)} {xs : List (Ext K)}
    (hu : Updates kind l s s' xs) (hl : ∀ t ∈ l, t ∈ ts) (h : Ready s nodes ts) (hP : s.AllPositive)
    (hmg : ∀ u ∈ nodes, ∀ mg, s.mrg u = some mg → mg.PosOn u) (hpm : PosMsgs s ts) :
    Ready s' nodes ts ∧ PosMsgs s' ts ∧ ∀ x ∈ xs, x.IsVal := by
  induction hu with
  | nil s => exact ⟨h, hpm, by simp⟩
  | @cons t ts' s s' m x xs hsend hvar hrest ih =>
    have ht := hl t (by simp)
    obtain ⟨m', x', _, g2, _, g4, _⟩ := h.update kind ht
    have hmm := g2.functional hsend
    subst hmm
    have hsoft := setActiveMessage_soft s t.conn.owner t.conn.from_ (some m')
    have hmsg := msg_setActiveMessage ((h.setting.at_ ht).ownerActive h.flow) (some m')
    have hpos := h.sends_posOn hP hmg ht (fun r hr m hm => by
      obtain ⟨t', ht', rfl⟩ := h.setting.dep h.flow.core.net ht hr
      exact hpm t' ht' m hm) hsend
    obtain ⟨i1, i2, i3⟩ := ih (fun t ht => hl t (by simp [ht])) g4 (hP.quiet hsoft.toQuiet)
      (fun u hu mg hm => hmg u hu mg (by rw [← hsoft.mrg]; exact hm))
      (fun t' ht' m hm => by
        rw [hmsg] at hm
        by_cases hp : t'.conn.owner = t.conn.owner ∧ t'.conn.from_ = t.conn.from_
        · rw [if_pos hp] at hm; cases hm; rw [hp.1]; exact hpos.2
        · rw [if_neg hp] at hm; exact hpm t' ht' m hm)
    refine ⟨i1, i2, fun y hy => ?_⟩
    rcases List.mem_cons.mp hy with rfl | hy
    · obtain ⟨o, ho⟩ := Option.isSome_iff_exists.mp (h.live t ht)
      rw [ho] at hvar
      exact (h.typed _ _ o (h.setting.hid _ (h.setting.ownerMem ht)) ho).diff_val hpos.1 (hpm t ht o ho) hpos.2 hvar
    · exact i3 y hy

theorem Sweeps.posOn {kind : Kind} {nodes : List Var} {ts : List Topo} {s s' : State (Ext K)} {sw : List (List (Ext K))}
    (hu : Sweeps kind ts sw s s') (h : Ready s nodes ts) (hP : s.AllPositive)
    (hmg : ∀ u ∈ nodes, ∀ mg, s.mrg u = some mg → mg.PosOn u) (hpm : PosMsgs s ts) :
    PosMsgs s' ts ∧ ∀ xs ∈ sw, ∀ x ∈ xs, x.IsVal := by
  induction hu with
  | nil s => exact ⟨hpm, by simp⟩
  | @cons order s s1 s2 xs rest hperm hup _ ih =>
    obtain ⟨i1, i2, i3⟩ := hup.posOn (fun t ht => hperm.mem_iff.mp ht) h hP hmg hpm
    obtain ⟨j1, j2⟩ := ih i1 (hP.quiet hup.soft.toQuiet)
      (fun u hu mg hm => hmg u hu mg (by rw [← hup.soft.mrg]; exact hm)) i2
    refine ⟨j1, fun ys hys => ?_⟩
    rcases List.mem_cons.mp hys with rfl | hys
    · exact i3
    · exact j2 ys hys

/-- The messages of a cluster without cycles. -/
theorem Exact.posMsgs {kind : Kind} {nodes : List Var} {ts : List Topo} {s : State (Ext K)} (h : Ready s nodes ts)
    (hP : s.AllPositive) (hmg : ∀ u ∈ nodes, ∀ mg, s.mrg u = some mg → mg.PosOn u) (hex : Exact kind s ts) :
    PosMsgs s ts := by
  obtain ⟨rank, hr⟩ := hex
  have main : ∀ k, ∀ t ∈ ts, rank t.conn = k → ∀ m, s.msg t.conn.owner t.conn.from_ = some m → m.PosOn t.conn.owner := by
    intro k
    induction k using Nat.strong_induction_on with
    | _ k ih =>
      intro t ht hk m hm
      obtain ⟨m', h1, h2, h3⟩ := hr t ht
      rw [hm] at h1
      cases h1
      refine (h.sends_posOn hP hmg ht (fun r hr' m hm => ?_) h2).2
      obtain ⟨t', ht', rfl⟩ := h.setting.dep h.flow.core.net ht hr'
      exact ih _ (by rw [← hk]; exact h3 _ hr') t' ht' rfl m hm
  exact fun t ht => main _ t ht rfl

/-- A loopy propagation, when the images of the factors are positive. -/
theorem LoopRun.posOn {kind : Kind} {n mi : Nat} {s : State (Ext K)} {nodes : List Var} {done : Bool}
    {sw : List (List (Ext K))} (h : LoopRun kind n mi s nodes done sw) (hP : s.AllPositive)
    (hmg : ∀ u ∈ nodes, ∀ mg, s.mrg u = some mg → mg.PosOn u) :
    (∀ u ∈ nodes, ∀ v, (s.act u v).isSome → ∀ m, s.msg u v = some m → m.PosOn u) ∧ ∀ xs ∈ sw, ∀ x ∈ xs, x.IsVal := by
  obtain ⟨s0, s1, ts, h1, _, h3, h4, h5⟩ := h
  have hsoft := h1.sweeps.soft
  have hq : Quiet s0 s := hsoft.toQuiet.trans h3
  have hP0 : s0.AllPositive := by
    refine ⟨fun u p f hp hf => ?_, fun u w p f hl hf => ?_⟩
    · rw [← hq.una] at hp
      rw [← hq.heap] at hf
      exact hP.una u p f hp hf
    · rw [← hq.lnk] at hl
      rw [← hq.heap] at hf
      exact hP.bin u w p f hl hf
  have hset := h1.ready.setting
  have hcore := h1.ready.flow.core
  have hpos : ∀ t ∈ ts, 0 < t.conn.owner.size := by
    intro t ht
    refine hcore.posV _ ?_
    exact (hcore.act_vars (hcore.net.symA _ _ (hset.topo.active t ht))).1
  obtain ⟨i1, i2⟩ := h1.sweeps.posOn h1.ready hP0
    (fun u hu mg hm => hmg u hu mg (by rw [h4 u hu, hsoft.mrg]; exact hm))
    (fun t ht m hm => by
      rw [h1.ones t ht] at hm
      cases hm
      exact Fn.ones_posOn (hpos t ht))
  refine ⟨fun u hu v hv m hm => ?_, i2⟩
  have hv0 : (s0.act u v).isSome := by rw [← hq.isSome]; exact hv
  have hvn := hset.closed u hu v hv0
  obtain ⟨t, ht, e1, e2⟩ := hset.topo.all v hvn u (hcore.net.symA _ _ hv0)
  have := i1 t ht m (by rw [e2, hset.topo.from_ t ht, e1, ← h5 u hu]; exact hm)
  rw [e2] at this
  exact this

/-- After a propagation of a model whose images are positive, all the messages are positive. -/
theorem checkPropagation_positive {ord : List Var → List Var} (hord : ∀ l, (ord l).Perm l) (kind : Kind) {sched : Sched}
    (hsched : ∀ l, (sched l).Perm l) {s : State (Ext K)} (hs : Sound True s) {n : Nat} (hn : 1 ≤ n)
    (hw : s.wouldNeedPropagation kind = true) (hP : s.AllPositive) :
    ∃ s' r, checkPropagation ord sched kind n s = .ok s' () ∧ Asked s s' ∧ Healthy s' ∧ s'.last = some r ∧ r.kind = kind ∧
      Ran kind n s.maxIter s' r ∧ Alive s' ∧ (∀ u ∈ s'.hid, ∀ mg, s'.mrg u = some mg → mg.PosOn u) ∧
      (∀ u ∈ s'.hid, ∀ v, (s'.act u v).isSome → ∀ m, s'.msg u v = some m → m.PosOn u) := by
  obtain ⟨s', r, h1, h2, h3, h4, h5, h6⟩ := checkPropagation_run hord kind hsched hs.healthy hn hw
  obtain ⟨s'', r', g1, _, g3, g4, _⟩ := checkPropagation_sound hord kind hsched hs hn
  rw [h1] at g1
  cases g1
  rw [h4] at g4
  cases g4
  have hF := g3.faithful trivial
  have hP' := hP.quiet h2.toQuiet
  have hmg : ∀ u ∈ s'.hid, ∀ mg, s'.mrg u = some mg → mg.PosOn u := fun u hu mg hm => merged_posOn h3 hF hP' hu hm
  have hfresh := h6.settled.fresh h3.inv
  refine ⟨s', r, h1, h2, h3, h4, h5, h6, hfresh.alive h3.inv, hmg, fun u hu v hv m hm => ?_⟩
  obtain ⟨j, c, e1, e2⟩ := h3.inv.cluster_of hu
  have hj : j < r.structures.length := by rw [h6.settled.len]; exact (List.getElem?_eq_some_iff.mp e1).1
  obtain ⟨c', e3, _, ⟨ts, _, e5, e6, e7, _⟩⟩ := h6.settled.done j hj
  rw [e1] at e3
  cases e3
  have hmgc : ∀ u ∈ c.nodes, ∀ mg, s'.mrg u = some mg → mg.PosOn u := fun u hu mg hm =>
    hmg u (mem_hid.mpr (h3.inv.cluster_mem e1 hu)) mg hm
  by_cases htree : r.structures[j].1 = true
  · have hpm := Exact.posMsgs ⟨h3.flow, h6.settled.typed, e5, e6⟩ hP' hmgc (e7 htree)
    have hvn := e5.closed u e2 v hv
    obtain ⟨t, ht, k1, k2⟩ := e5.topo.all v hvn u (h3.inv.toCore.net.symA _ _ hv)
    have := hpm t ht m (by rw [k2, e5.topo.from_ t ht, k1]; exact hm)
    rw [k2] at this
    exact this
  · obtain ⟨flags, f1, _, f3⟩ := h6.flags
    obtain ⟨c', sw, k1, k2⟩ := (f3 j hj (by omega)).2 (by simpa using htree)
    rw [e1] at k1
    cases k1
    exact (k2.posOn hP' hmgc).1 u e2 v hv m hm

/-- The belief of a hidden variable. -/
theorem belief_positive {ord : List Var → List Var} (hord : ∀ l, (ord l).Perm l) {s : State (Ext K)} (hs : Inv s)
    (ha : Alive s) (hmg : ∀ u ∈ s.hid, ∀ mg, s.mrg u = some mg → mg.PosOn u)
    (hms : ∀ u ∈ s.hid, ∀ v, (s.act u v).isSome → ∀ m, s.msg u v = some m → m.PosOn u) {u : Var} (hu : u ∈ s.hid) :
    ∃ ps : List K, s.belief ord u = .ok (ps.map Ext.val) ∧ ps.length = u.size ∧ (∀ p ∈ ps, 0 < p) ∧ ps.sum = 1 := by
  obtain ⟨mg, ms, f, qs, h1, h2, h3, h4, h5, h6, h7, h8, h9⟩ := belief_ok hord hs ha hu
  obtain ⟨f', g1, g2, g3⟩ := Fn.mergedUnaries_posOn (u := u) (fs := mg :: ms) (by simp)
    (fun g hg => by
      rcases List.mem_cons.mp hg with rfl | hg
      · exact h2
      · exact h4 g hg)
    (fun g hg => by
      rcases List.mem_cons.mp hg with rfl | hg
      · exact hmg u hu _ h1
      · obtain ⟨w, hw, e⟩ := forall₂_mem_right h3 hg
        refine hms u hu w ?_ g e
        unfold State.msg at e
        cases hc : s.act u w with
        | none => rw [hc] at e; cases e
        | some c => rfl)
  rw [h5] at g1
  cases g1
  obtain ⟨ps, k1, k2, k3, k4⟩ := g2.probabilities_posOn g3
  rw [h7] at k1
  cases k1
  exact ⟨ps, h9, k2, k3, k4⟩

end State
end EFG
