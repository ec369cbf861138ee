import Verif.Lemmas.Scale
import Verif.Lemmas.RepeatRun
/-
Two models with the same structure, and proportional factors in one of the clusters: the propagation of that
cluster computes proportional messages and ends in the same way, with or without cycles.
-/

set_option linter.unusedSectionVars false

namespace EFG
namespace State
variable {K : Type} [Field K] [LinearOrder K] [IsStrictOrderedRing K] [FloatParams K] {kind : Kind}

/-- The same structure; the factors of the nodes given are proportional. -/
structure LikeOn (kind : Kind) (nodes : List Var) (s t : State (Ext K)) : Prop where
  links : ∀ v, links (t.activeOf v) = links (s.activeOf v)
  lnk : ∀ u v, t.lnk u v = s.lnk u v
  maxIter : t.maxIter = s.maxIter
  psi : ∀ u ∈ nodes, ∃ c : K, 0 < c ∧ ∀ i < u.size, t.psiK u i = c * s.psiK u i
  bin : ∀ u ∈ nodes, ∀ v ∈ nodes, ∀ p b b', s.lnk u v = some p → s.heap[p]? = some b → t.heap[p]? = some b' →
    ∃ c : K, 0 < c ∧ (kind = .map → c = 1 ∨ ∀ i < u.size, ∀ j < v.size, ∃ z : K, Fn.bimg u b i j = .val z ∧
      FloatParams.minK ≤ z ∧ FloatParams.minK ≤ c * z) ∧ ∀ i < u.size, ∀ j < v.size, Fn.bimg u b' i j = Ext.times c (Fn.bimg u b i j)

theorem Quiet.psiK {s s' : State (Ext K)} (h : Quiet s s') (u : Var) (i : Nat) : s'.psiK u i = s.psiK u i := by
  have h1 : ∀ p, s'.imgU p i = s.imgU p i := fun p => by unfold imgU; rw [h.heap]
  have h2 : ∀ w, s'.imgB u w i (s'.ev w) = s.imgB u w i (s.ev w) := fun w => by
    unfold imgB State.ev; rw [h.lnk, h.heap, h.evidences]
  unfold State.psiK
  rw [h.una, h.obs]
  simp only [h1, h2]

theorem LikeOn.quiet {nodes : List Var} {s t s' t' : State (Ext K)} (h : LikeOn kind nodes s t) (hs : Quiet s s')
    (ht : Quiet t t') : LikeOn kind nodes s' t' where
  links v := by rw [ht.active, hs.active]; exact h.links v
  lnk u v := by rw [ht.lnk, hs.lnk]; exact h.lnk u v
  maxIter := by rw [ht.toFrame.maxIter, hs.toFrame.maxIter]; exact h.maxIter
  psi u hu := by
    obtain ⟨c, hc, h1⟩ := h.psi u hu
    exact ⟨c, hc, fun i hi => by rw [ht.psiK, hs.psiK]; exact h1 i hi⟩
  bin u hu v hv p b b' hl hb hb' := by
    rw [hs.lnk] at hl
    rw [hs.heap] at hb
    rw [ht.heap] at hb'
    exact h.bin u hu v hv p b b' hl hb hb'

/-- The merged unary factors of the nodes are proportional. -/
def TwinMrg (nodes : List Var) (s t : State (Ext K)) : Prop :=
  ∀ u ∈ nodes, ∀ m m', s.mrg u = some m → t.mrg u = some m' → m.Scaled u m'

/-- The messages are proportional. -/
def TwinMsgs (ts : List Topo) (s t : State (Ext K)) : Prop :=
  ∀ e ∈ ts, ∀ m m', s.msg e.conn.owner e.conn.from_ = some m → t.msg e.conn.owner e.conn.from_ = some m' →
    m.Scaled e.conn.owner m'

theorem twinMrg {nodes : List Var} {s t : State (Ext K)} (ha : LikeOn kind nodes s t) (hs : Core s) (ht : Core t)
    (hfs : Separated s) (hft : Separated t) (hcs : Coherent s) (hct : Coherent t)
    (hes : ∀ u v c k, u ∉ s.obs → s.dis u v = some c → AMap.find? s.evidences v = some k →
      ∃ m, c.message = some m ∧ IsEvid s c.factor v k m)
    (het : ∀ u v c k, u ∉ t.obs → t.dis u v = some c → AMap.find? t.evidences v = some k →
      ∃ m, c.message = some m ∧ IsEvid t c.factor v k m)
    (hns : Numeric s) (hnt : Numeric t) (hhs : ∀ u ∈ nodes, u ∈ s.hid) (hht : ∀ u ∈ nodes, u ∈ t.hid) :
    TwinMrg nodes s t := by
  intro u hu m m' hm hm'
  obtain ⟨c, hc, hpsi⟩ := ha.psi u hu
  rcases merged_cases hs hfs hcs hes hns (hhs u hu) hm with ⟨a, h1, h2⟩ | ⟨h1, h2⟩
  · rcases merged_cases ht hft hct het hnt (hht u hu) hm' with ⟨b, g1, g2⟩ | ⟨g1, g2⟩
    · refine ⟨b * c / a, div_pos (mul_pos g1 hc) h1, fun i hi => ?_⟩
      rw [h2 i hi, g2 i hi, hpsi i hi]
      change Ext.val (b * (c * s.psiK u i)) = Ext.val (b * c / a * (a * s.psiK u i))
      congr 1
      have : b * c / a * (a * s.psiK u i) = b * c * s.psiK u i * (a / a) := by ring
      rw [this, div_self h1.ne']
      ring
    · exfalso
      have h0 := hs.posV u (mem_hid.mp (hhs u hu)).1
      have hz : ∀ i < u.size, s.psiK u i = 0 := by
        intro i hi
        have := g2 i hi
        rw [hpsi i hi] at this
        exact (mul_eq_zero.mp this).resolve_left hc.ne'
      have := merged_cases hs hfs hcs hes hns (hhs u hu) hm
      obtain ⟨ord, hord, hval⟩ := hcs u (mem_hid.mp (hhs u hu)).1 (mem_hid.mp (hhs u hu)).2 m hm
      obtain ⟨fs, hall, hprod, ⟨rfl, rfl⟩ | ⟨hfs', e⟩⟩ := mergedVal_prod hs hfs hes hns (hhs u hu) hord hval
      · have h3 := hprod 0 h0
        rw [hz 0 h0] at h3
        simp only [Fn.prodImg, List.foldl_nil, Ext.one_eq, Ext.val.injEq] at h3
        exact one_ne_zero h3
      · obtain ⟨m1, e1, _, e3⟩ := Fn.mergedUnaries_nan hfs' hall (Or.inl (fun i hi => by rw [hprod i hi, hz i hi]))
        rw [e] at e1
        cases e1
        have h4 := e3 0 h0
        rw [h2 0 h0] at h4
        cases h4
  · rcases merged_cases ht hft hct het hnt (hht u hu) hm' with ⟨b, g1, g2⟩ | ⟨g1, g2⟩
    · exfalso
      have h0 := hs.posV u (mem_hid.mp (hhs u hu)).1
      have hz : ∀ i < u.size, t.psiK u i = 0 := fun i hi => by rw [hpsi i hi, h2 i hi, mul_zero]
      obtain ⟨ord, hord, hval⟩ := hct u (mem_hid.mp (hht u hu)).1 (mem_hid.mp (hht u hu)).2 m' hm'
      obtain ⟨fs, hall, hprod, ⟨rfl, rfl⟩ | ⟨hfs', e⟩⟩ := mergedVal_prod ht hft het hnt (hht u hu) hord hval
      · have h3 := hprod 0 h0
        rw [hz 0 h0] at h3
        simp only [Fn.prodImg, List.foldl_nil, Ext.one_eq, Ext.val.injEq] at h3
        exact one_ne_zero h3
      · obtain ⟨m1, e1, _, e3⟩ := Fn.mergedUnaries_nan hfs' hall (Or.inl (fun i hi => by rw [hprod i hi, hz i hi]))
        rw [e] at e1
        cases e1
        have h4 := e3 0 h0
        rw [g2 0 h0] at h4
        cases h4
    · refine ⟨1, one_pos, fun i hi => ?_⟩
      rw [h1 i hi, g1 i hi]
      rfl

theorem forall₂_two {α β : Type} {P Q : α → β → Prop} {R : β → β → Prop} {l : List α} {xs ys : List β}
    (h : List.Forall₂ P l xs) (h' : List.Forall₂ Q l ys) (hr : ∀ a ∈ l, ∀ x y, P a x → Q a y → R x y) :
    List.Forall₂ R xs ys := by
  induction h generalizing ys with
  | nil => cases h'; exact .nil
  | cons h1 _ ih =>
    cases h' with
    | cons g1 g2 => exact .cons (hr _ (by simp) _ _ h1 g1) (ih g2 (fun a ha => hr a (by simp [ha])))

/-- One message, computed in the two models. -/
theorem Ready.sends_like {s t : State (Ext K)} {nodes : List Var} {ts : List Topo} (hs : Ready s nodes ts)
    (ht : Ready t nodes ts) (ha : LikeOn kind nodes s t) (hg : TwinMrg nodes s t) {e : Topo} (he : e ∈ ts)
    (hd : ∀ r ∈ e.deps, ∀ m m', s.msg r.owner r.from_ = some m → t.msg r.owner r.from_ = some m' → m.Scaled r.owner m')
    {m m' : Fn (Ext K)} (h1 : Sends kind s e m) (h2 : Sends kind t e m') :
    m.Unary e.conn.owner ∧ m'.Unary e.conn.owner ∧ m.Scaled e.conn.owner m' := by
  have hset := hs.setting
  have hun := hset.topo.sender e he
  have hon := hset.ownerMem he
  have hsz : e.sender.size = e.conn.owner.size :=
    hs.flow.sq _ _ (hset.hid _ hun) (hset.hid _ hon) (hset.topo.active e he)
  obtain ⟨ms, d1, d2⟩ := depMessages_some (fun r hr => (hset.at_ he).depActive hr) (hs.hasDeps he)
  obtain ⟨ms', d1', d2'⟩ := depMessages_some (fun r hr => (ht.setting.at_ he).depActive hr) (ht.hasDeps he)
  obtain ⟨mg, deps, p, b1, b2, b3, b4⟩ := h1
  obtain ⟨mg', deps', p', b1', b2', b3', b4'⟩ := h2
  rw [d1] at b2
  cases b2
  rw [d1'] at b2'
  cases b2'
  have hpp : p' = p := by
    rw [ha.lnk, b3] at b3'
    cases b3'
    rfl
  subst hpp
  have hms : ∀ m ∈ ms, m.Unary e.sender := by
    intro m hm
    obtain ⟨r, hr, h3⟩ := forall₂_mem_right d2 hm
    rw [((hset.topo.deps e he r).mp hr).1] at h3
    exact hs.typed _ _ m (hset.hid _ hun) h3
  have hms' : ∀ m ∈ ms', m.Unary e.sender := by
    intro m hm
    obtain ⟨r, hr, h3⟩ := forall₂_mem_right d2' hm
    rw [((hset.topo.deps e he r).mp hr).1] at h3
    exact ht.typed _ _ m (ht.setting.hid _ hun) h3
  have hall : ∀ f ∈ mg :: ms, f.Unary e.sender := by
    intro f hf
    rcases List.mem_cons.mp hf with rfl | hf
    · exact hs.flow.core.mrgT _ _ b1
    · exact hms f hf
  have hall' : ∀ f ∈ mg' :: ms', f.Unary e.sender := by
    intro f hf
    rcases List.mem_cons.mp hf with rfl | hf
    · exact ht.flow.core.mrgT _ _ b1'
    · exact hms' f hf
  have hsc : List.Forall₂ (Fn.Scaled e.sender) (mg :: ms) (mg' :: ms') := by
    refine .cons (hg _ hun _ _ b1 b1') (forall₂_two d2 d2' ?_)
    intro r hr x y hx hy
    have := hd r hr x y hx hy
    rw [((hset.topo.deps e he r).mp hr).1] at this
    exact this
  obtain ⟨f, _, f1, f2, _⟩ := Fn.mergedUnaries_eq (by simp) hall
  obtain ⟨f', _, f1', f2', _⟩ := Fn.mergedUnaries_eq (by simp) hall'
  have hff := Fn.mergedUnaries_scaled (by simp) hall hall' hsc f1 f1'
  obtain ⟨_, b, hb, hbin⟩ := hs.flow.core.link _ _ _ b3
  obtain ⟨_, b', hb', hbin'⟩ := ht.flow.core.link _ _ _ b3'
  unfold newMessage at b4 b4'
  rw [f1] at b4
  rw [f1'] at b4'
  simp only at b4 b4'
  rw [deref_eq hb] at b4
  rw [deref_eq hb'] at b4'
  simp only at b4 b4'
  have hlnk : s.lnk e.sender e.conn.owner = some p' := by rw [hs.flow.core.net.symL]; exact b3
  obtain ⟨c, hc, hc1, hcb⟩ := ha.bin _ hun _ hon p' b b' hlnk hb hb'
  obtain ⟨_, k1, k2, _⟩ := hbin.symm.message f2 kind (by omega)
  obtain ⟨_, k1', k2', _⟩ := hbin'.symm.message f2' kind (by omega)
  rw [b4] at k1
  cases k1
  rw [b4'] at k1'
  cases k1'
  refine ⟨k2, k2', hbin.symm.message_scaled kind hbin'.symm f2 f2' hff (Fn.mergedUnaries_normed (by simp) hall f1) hsz
    ⟨c, hc, fun h => (hc1 h).imp id (fun k r hr i hi => k r (by omega) i (by omega)), fun r hr i hi => hcb r (by omega) i (by omega)⟩ b4 b4'⟩

/-- One update, in the two models. -/
theorem Ready.update_like {s t : State (Ext K)} {nodes : List Var} {ts : List Topo} (hs : Ready s nodes ts)
    (ht : Ready t nodes ts) (ha : LikeOn kind nodes s t) (hg : TwinMrg nodes s t) (hm : TwinMsgs ts s t) {e : Topo}
    (he : e ∈ ts) : ∃ s' t' x, updateMessage kind e s = .ok s' (some x) ∧ updateMessage kind e t = .ok t' (some x) ∧
      Ready s' nodes ts ∧ Ready t' nodes ts ∧ LikeOn kind nodes s' t' ∧ TwinMrg nodes s' t' ∧ TwinMsgs ts s' t' := by
  obtain ⟨m, x, a1, a2, a3, a4, _⟩ := hs.update kind he
  obtain ⟨m', x', b1, b2, b3, b4, _⟩ := ht.update kind he
  obtain ⟨h1, h2, h3⟩ := hs.sends_like ht ha hg he (fun r hr m m' hx hy => by
    obtain ⟨e', he', rfl⟩ := hs.setting.dep hs.flow.core.net he hr
    exact hm e' he' m m' hx hy) a2 b2
  obtain ⟨o, ho⟩ := Option.isSome_iff_exists.mp (hs.live e he)
  obtain ⟨o', ho'⟩ := Option.isSome_iff_exists.mp (ht.live e he)
  have hown := hs.setting.hid _ (hs.setting.ownerMem he)
  have hown' := ht.setting.hid _ (ht.setting.ownerMem he)
  have hxx : x' = x := by
    rw [ho] at a3
    rw [ho'] at b3
    unfold variation at a3 b3
    simp only at a3 b3
    rw [(hs.typed _ _ o hown ho).diff_scaled (ht.typed _ _ o' hown' ho') h1 h2 (hm e he o o' ho ho') h3, a3] at b3
    cases b3
    rfl
  subst hxx
  have hsoft := setActiveMessage_soft s e.conn.owner e.conn.from_ (some m)
  have hsoft' := setActiveMessage_soft t e.conn.owner e.conn.from_ (some m')
  have hmsg := msg_setActiveMessage ((hs.setting.at_ he).ownerActive hs.flow) (some m)
  have hmsg' := msg_setActiveMessage ((ht.setting.at_ he).ownerActive ht.flow) (some m')
  refine ⟨_, _, x', a1, b1, a4, b4, ha.quiet hsoft.toQuiet hsoft'.toQuiet, ?_, ?_⟩
  · intro u hu k k' hk hk'
    rw [hsoft.mrg] at hk
    rw [hsoft'.mrg] at hk'
    exact hg u hu k k' hk hk'
  · intro e' he' k k' hk hk'
    rw [hmsg] at hk
    rw [hmsg'] at hk'
    by_cases hp : e'.conn.owner = e.conn.owner ∧ e'.conn.from_ = e.conn.from_
    · rw [if_pos hp] at hk hk'
      cases hk
      cases hk'
      rw [hp.1]
      exact h3
    · rw [if_neg hp] at hk hk'
      exact hm e' he' k k' hk hk'

/-- What holds between the two models during a loopy propagation. -/
structure Proportional (kind : Kind) (nodes : List Var) (ts : List Topo) (s t : State (Ext K)) : Prop where
  left : Ready s nodes ts
  right : Ready t nodes ts
  alike : LikeOn kind nodes s t
  mrg : TwinMrg nodes s t
  msgs : TwinMsgs ts s t

theorem loopyTasks_like (n : Nat) {nodes : List Var} {ts : List Topo} : ∀ (l : List (Topo × Nat)) (vs : List (Ext K))
    (s t : State (Ext K)), (∀ e ∈ l, e.1 ∈ ts) → Proportional kind nodes ts s t →
    ∃ s' t' vs', loopyTasks kind n l vs s = .ok s' vs' ∧ loopyTasks kind n l vs t = .ok t' vs' ∧ Proportional kind nodes ts s' t' := by
  intro l
  induction l with
  | nil => intro vs s t _ h; exact ⟨s, t, vs, rfl, rfl, h⟩
  | cons e l ih =>
    intro vs s t hl h
    obtain ⟨s1, t1, x, h1, h2, h3, h4, h5, h6, h7⟩ := h.left.update_like h.right h.alike h.mrg h.msgs (hl e (by simp))
    obtain ⟨s', t', vs', g1, g2, g3⟩ := ih (vs.modify (e.2 % n) (fun v => Arith.max2 v x)) s1 t1
      (fun e he => hl e (by simp [he])) ⟨h3, h4, h5, h6, h7⟩
    refine ⟨s', t', vs', ?_, ?_, g3⟩
    · rw [loopyTasks]
      unfold loopyTask
      rw [h1]
      exact g1
    · rw [loopyTasks]
      unfold loopyTask
      rw [h2]
      exact g2

theorem loopyGroups_like {sched : Sched} (hsched : ∀ l, (sched l).Perm l) (n : Nat) {nodes : List Var} {ts : List Topo} :
    ∀ (gs : List (List Topo)) (vs : List (Ext K)) (s t : State (Ext K)), (∀ g ∈ gs, ∀ e ∈ g, e ∈ ts) → Proportional kind nodes ts s t →
    ∃ s' t' vs', loopyGroups kind sched n gs vs s = .ok s' vs' ∧ loopyGroups kind sched n gs vs t = .ok t' vs' ∧
      Proportional kind nodes ts s' t' ∧ vs'.length = vs.length := by
  intro gs
  induction gs with
  | nil => intro vs s t _ h; exact ⟨s, t, vs, rfl, rfl, h, rfl⟩
  | cons g gs ih =>
    intro vs s t hg h
    have hp' : ((sched g.zipIdx).map Prod.fst).Perm g := by
      have := (hsched g.zipIdx).map Prod.fst
      rwa [List.zipIdx_map_fst] at this
    have hmem : ∀ e ∈ sched g.zipIdx, e.1 ∈ ts := fun e he =>
      hg g (by simp) e.1 (hp'.mem_iff.mp (List.mem_map.mpr ⟨e, he, rfl⟩))
    obtain ⟨s1, t1, vs1, h1, h2, h3⟩ := loopyTasks_like n (sched g.zipIdx) vs s t hmem h
    obtain ⟨s2, ps, k1, _⟩ := loopyTasks_ok kind n (sched g.zipIdx) vs s hmem h.left
    rw [h1] at k1
    obtain ⟨s', t', vs', g1, g2, g3, g4⟩ := ih vs1 s1 t1 (fun g hg' => hg g (by simp [hg'])) h3
    refine ⟨s', t', vs', ?_, ?_, g3, ?_⟩
    · rw [loopyGroups, h1]; exact g1
    · rw [loopyGroups, h2]; exact g2
    · rw [g4]
      cases k1
      exact slots_length n ps vs

theorem loopyIterations_like {sched : Sched} (hsched : ∀ l, (sched l).Perm l) {n : Nat} (hn : 1 ≤ n) {nodes : List Var}
    {ts : List Topo} {gs : List (List Topo)} (hg : ∀ g ∈ gs, ∀ e ∈ g, e ∈ ts) : ∀ (k : Nat) (s t : State (Ext K)),
    Proportional kind nodes ts s t → ∃ s' t' b, loopyIterations kind sched n gs k s = .ok s' b ∧
      loopyIterations kind sched n gs k t = .ok t' b ∧ Proportional kind nodes ts s' t' := by
  intro k
  induction k with
  | zero => intro s t h; exact ⟨s, t, false, rfl, rfl, h⟩
  | succ k ih =>
    intro s t h
    obtain ⟨s1, t1, vs, h1, h2, h3, h4⟩ := loopyGroups_like hsched n gs (List.replicate n Arith.zero) s t hg h
    obtain ⟨m, hm⟩ := maxElement_ne (l := vs) (by
      rintro rfl
      simp at h4
      omega)
    rw [loopyIterations, loopyIterations, h1, h2]
    simp only
    rw [hm]
    simp only
    by_cases hlt : Arith.lt m Arith.tol = true
    · rw [if_pos hlt, if_pos hlt]
      exact ⟨s1, t1, true, rfl, rfl, h3⟩
    · rw [if_neg hlt, if_neg hlt]
      exact ih s1 t1 h3

theorem ones_ready {nodes : List Var} {ts : List Topo} {s : State (Ext K)} (hf : Flow s) (hty : TypedMsgs s)
    (hs : Setting s nodes ts) : Ready (nodes.foldl oneMessages s) nodes ts ∧ Soft s (nodes.foldl oneMessages s) ∧
      ∀ e ∈ ts, (nodes.foldl oneMessages s).msg e.conn.owner e.conn.from_ = some (Fn.ones e.conn.owner) := by
  have hsoft := foldl_soft (oneMessages_soft (F := Ext K)) nodes s
  have hmsg := msg_ones (F := Ext K) nodes s
  have hones : ∀ t ∈ ts, (nodes.foldl oneMessages s).msg t.conn.owner t.conn.from_ = some (Fn.ones t.conn.owner) := by
    intro t ht
    rw [hmsg, if_pos (hs.ownerMem ht)]
    obtain ⟨c', hc'⟩ := Option.isSome_iff_exists.mp ((hs.at_ ht).ownerActive hf)
    rw [hc']; rfl
  refine ⟨⟨hf.soft hsoft, ?_, hs.soft hsoft, fun t ht => by rw [hones t ht]; rfl⟩, hsoft, hones⟩
  intro u v m hu hm
  rw [hsoft.toQuiet.obs] at hu
  rw [hmsg] at hm
  by_cases huc : u ∈ nodes
  · rw [if_pos huc] at hm
    cases ha : s.act u v with
    | none => rw [ha] at hm; cases hm
    | some c' =>
      rw [ha] at hm
      cases hm
      have huv : u ∈ s.vars := (hf.core.act_vars (by rw [ha]; rfl)).1
      exact (Fn.ones_unary (F := Ext K) (hf.core.posV u huv)).1
  · rw [if_neg huc] at hm
    exact hty u v m hu hm

/-- What is needed of each of the two models. -/
structure Base (s : State (Ext K)) : Prop where
  inv : Inv s
  flow : Flow s
  typed : TypedMsgs s
  coh : Coherent s
  evid : ∀ u v c k, u ∉ s.obs → s.dis u v = some c → AMap.find? s.evidences v = some k →
    ∃ m, c.message = some m ∧ IsEvid s c.factor v k m
  num : Numeric s

theorem Base.asked {s s' : State (Ext K)} (h : Base s) (hq : Asked s s') (hty : TypedMsgs s') : Base s' where
  inv := hq.inv h.inv
  flow := h.flow.quiet hq.toQuiet (hq.inv h.inv).toCore
  typed := hty
  coh := hq.coh h.inv h.coh
  evid := hq.evid h.evid
  num := h.num.quiet hq.toQuiet

theorem Exact.not_stuck {kind : Kind} {s : State (Ext K)} {ts : List Topo} (h : Exact kind s ts) : ¬ Stuck ts := by
  rintro ⟨left, hsub, hne, hl⟩
  obtain ⟨rank, hr⟩ := h
  have main : ∀ k, ∀ e ∈ left, rank e.conn = k → False := by
    intro k
    induction k using Nat.strong_induction_on with
    | _ k ih =>
      intro e he hk
      obtain ⟨e', he', hd⟩ := hl e he
      obtain ⟨_, _, _, h3⟩ := hr e (hsub he)
      exact ih _ (by rw [← hk]; exact h3 _ hd) e' he' rfl
  obtain ⟨e, l, rfl⟩ := List.exists_cons_of_ne_nil hne
  exact main _ e (by simp) rfl

/-- The messages of the two models on a cluster without cycles. -/
theorem Exact.twin {s t : State (Ext K)} {nodes : List Var} {ts : List Topo} (hs : Ready s nodes ts)
    (ht : Ready t nodes ts) (ha : LikeOn kind nodes s t) (hg : TwinMrg nodes s t) (hex : Exact kind s ts)
    (hex' : Exact kind t ts) : TwinMsgs ts s t := by
  obtain ⟨rank, hr⟩ := hex
  obtain ⟨_, hr'⟩ := hex'
  have main : ∀ k, ∀ e ∈ ts, rank e.conn = k → ∀ m m', s.msg e.conn.owner e.conn.from_ = some m →
      t.msg e.conn.owner e.conn.from_ = some m' → m.Scaled e.conn.owner m' := by
    intro k
    induction k using Nat.strong_induction_on with
    | _ k ih =>
      intro e he hk m m' hm hm'
      obtain ⟨a, h1, h2, h3⟩ := hr e he
      obtain ⟨b, g1, g2, _⟩ := hr' e he
      rw [hm] at h1
      cases h1
      rw [hm'] at g1
      cases g1
      refine (hs.sends_like ht ha hg he (fun r hr'' x y hx hy => ?_) h2 g2).2.2
      obtain ⟨e', he', rfl⟩ := hs.setting.dep hs.flow.core.net he hr''
      exact ih _ (by rw [← hk]; exact h3 _ hr'') e' he' rfl x y hx hy
  exact fun e he => main _ e he rfl

theorem LikeOn.toposOf {nodes : List Var} {s t : State (Ext K)} (h : LikeOn kind nodes s t) (ord : List Var → List Var) :
    State.toposOf ord t = State.toposOf ord s := by
  funext u
  unfold State.toposOf
  have : AMap.keys (t.activeOf u) = AMap.keys (s.activeOf u) := by rw [← keys_links, h.links, keys_links]
  rw [this]

/-- The clusters after the preparation of one of them. -/
theorem prepareCluster_like {nodes : List Var} {ord : List Var → List Var} (hord : ∀ l, (ord l).Perm l)
    {s t : State (Ext K)} (hs : Inv s) (ht : Inv t) (ha : LikeOn kind nodes s t) (hcl : t.clusters = s.clusters) {i : Nat}
    {c : Cluster} (hc : s.clusters[i]? = some c) {s1 t1 : State (Ext K)} (es : prepareCluster ord i s = .ok s1 ())
    (et : prepareCluster ord i t = .ok t1 ()) : t1.clusters = s1.clusters := by
  have hct : t.clusters[i]? = some c := by rw [hcl]; exact hc
  have hi : t1.clusters[i]? = s1.clusters[i]? := by
    cases hts : c.connectivity with
    | none =>
      rw [(prepareCluster_make hord hs hc hts es).1, (prepareCluster_make hord ht hct hts et).1, ha.toposOf]
    | some ts =>
      rw [(prepareCluster_keep hord hs hc (by rw [hts]; rfl) es).1,
        (prepareCluster_keep hord ht hct (by rw [hts]; rfl) et).1]
  obtain ⟨x, e1, hp⟩ := prepareCluster_ok hord hs hc
  rw [es] at e1
  cases e1
  obtain ⟨x, e1, hp'⟩ := prepareCluster_ok hord ht hct
  rw [et] at e1
  cases e1
  refine List.ext_getElem? (fun j => ?_)
  by_cases hj : j = i
  · rw [hj]; exact hi
  · rw [hp'.other j hj, hp.other j hj, hcl]

theorem propagateCluster_prepared {ord : List Var → List Var} {kind : Kind} {sched : Sched} {n i : Nat}
    {s s' : State (Ext K)} {r : (Bool × Nat) × Bool} (e : propagateCluster ord sched kind n i s = .ok s' r) :
    ∃ s1, prepareCluster ord i s = .ok s1 () ∧ s'.clusters = s1.clusters := by
  unfold propagateCluster at e
  cases h1 : prepareCluster ord i s with
  | throw s1 => rw [h1] at e; cases e
  | ub => rw [h1] at e; cases e
  | ok s1 _ =>
    rw [h1] at e
    simp only at e
    refine ⟨s1, rfl, ?_⟩
    cases hc : s1.clusters[i]? with
    | none => rw [hc] at e; cases e
    | some c =>
      rw [hc] at e
      simp only at e
      cases hts : c.connectivity with
      | none => rw [hts] at e; cases e
      | some ts =>
        rw [hts] at e
        simp only at e
        have hm := messageRounds_soft (F := Ext K) kind sched ts.length ts le_rfl s1
        cases hr : messageRounds kind sched ts s1 with
        | throw s2 => rw [hr] at e; cases e
        | ub => rw [hr] at e; cases e
        | ok s2 b =>
          rw [hr] at e hm
          cases b with
          | true =>
            cases e
            exact hm.cl
          | false =>
            simp only at e
            have hl := loopyPropagate_soft (F := Ext K) kind sched n c ts s2
            cases hl2 : loopyPropagate kind sched n c ts s2 with
            | throw s3 => rw [hl2] at e; cases e
            | ub => rw [hl2] at e; cases e
            | ok s3 d =>
              rw [hl2] at e hl
              cases e
              exact hl.cl.trans hm.cl

/-- The propagation of a cluster whose factors are proportional. -/
theorem propagateCluster_like {ord : List Var → List Var} (hord : ∀ l, (ord l).Perm l) {sched : Sched}
    (hsched : ∀ l, (sched l).Perm l) {n : Nat} (hn : 1 ≤ n) {s t : State (Ext K)} (hs : Base s) (ht : Base t) {i : Nat}
    {c : Cluster} (hc : s.clusters[i]? = some c) (hcl : t.clusters = s.clusters)
    (hnos : ∀ u ∈ c.nodes, ∀ v, s.msg u v = none) (hnot : ∀ u ∈ c.nodes, ∀ v, t.msg u v = none)
    (ha : LikeOn kind c.nodes s t) : ∃ s' t' r ts, propagateCluster ord sched kind n i s = .ok s' r ∧
      propagateCluster ord sched kind n i t = .ok t' r ∧ Proportional kind c.nodes ts s' t' := by
  have hct : t.clusters[i]? = some c := by rw [hcl]; exact hc
  obtain ⟨s1, e1, hp⟩ := prepareCluster_ok hord hs.inv hc
  obtain ⟨t1, e1', hp'⟩ := prepareCluster_ok hord ht.inv hct
  have hcl1 := prepareCluster_like hord hs.inv ht.inv ha hcl hc e1 e1'
  have hty1 : TypedMsgs s1 := by
    intro u v m hu hm
    rw [hp.prep.toQuiet.obs] at hu
    rw [hp.prep.msg] at hm
    exact hs.typed u v m hu hm
  have hty1' : TypedMsgs t1 := by
    intro u v m hu hm
    rw [hp'.prep.toQuiet.obs] at hu
    rw [hp'.prep.msg] at hm
    exact ht.typed u v m hu hm
  have hb1 := hs.asked hp.step.asked hty1
  have hb1' := ht.asked hp'.step.asked hty1'
  have ha1 := ha.quiet hp.prep.toQuiet hp'.prep.toQuiet
  obtain ⟨ts, k1, k2⟩ := hp.conn
  obtain ⟨ts', k1', k2'⟩ := hp'.conn
  have hts : ts' = ts := by
    rw [hcl1, k1] at k1'
    simpa using k1'.symm
  subst hts
  have hset : Setting s1 c.nodes ts' := by
    refine ⟨k2, fun u hu => ?_, fun u hu v hv => hp.inv.closed hb1.flow.sep k1 hu hv, fun u hu => ?_⟩
    · rw [hp.prep.toQuiet.obs]; exact (hs.inv.cluster_mem hc hu).2
    · obtain ⟨m, hm, _⟩ := hp.merged u hu
      rw [hm]; rfl
  have hset' : Setting t1 c.nodes ts' := by
    refine ⟨k2', fun u hu => ?_, fun u hu v hv => hp'.inv.closed hb1'.flow.sep k1' hu hv, fun u hu => ?_⟩
    · rw [hp'.prep.toQuiet.obs]; exact (ht.inv.cluster_mem hct hu).2
    · obtain ⟨m, hm, _⟩ := hp'.merged u hu
      rw [hm]; rfl
  have hg1 : TwinMrg c.nodes s1 t1 := twinMrg ha1 hb1.inv.toCore hb1'.inv.toCore hb1.flow.sep hb1'.flow.sep hb1.coh hb1'.coh
    hb1.evid hb1'.evid hb1.num hb1'.num (fun u hu => mem_hid.mpr (hb1.inv.cluster_mem k1 hu))
    (fun u hu => mem_hid.mpr (hb1'.inv.cluster_mem k1' hu))
  have hprog : Progress kind s1 c.nodes ts' ts' 0 (fun _ => 0) :=
    ⟨hb1.flow, hty1, hset, List.Sublist.refl _, fun e he => by rw [hp.prep.msg]; exact hnos _ (hset.ownerMem he) _,
      fun e he h => absurd he h⟩
  have hprog' : Progress kind t1 c.nodes ts' ts' 0 (fun _ => 0) :=
    ⟨hb1'.flow, hty1', hset', List.Sublist.refl _, fun e he => by rw [hp'.prep.msg]; exact hnot _ (hset'.ownerMem he) _,
      fun e he h => absurd he h⟩
  obtain ⟨s2, b, h1, h2, h3, h4, h5, h6⟩ := messageRounds_ok kind ts'.length ts' le_rfl s1 0 (fun _ => 0) hprog
  obtain ⟨t2, b', h1', h2', h3', h4', h5', h6'⟩ := messageRounds_ok kind ts'.length ts' le_rfl t1 0 (fun _ => 0) hprog'
  have hbb : b' = b := by
    cases b <;> cases b'
    · rfl
    · exact absurd (h6 rfl) (h5' rfl).not_stuck
    · exact absurd (h6' rfl) (h5 rfl).not_stuck
    · rfl
  subst hbb
  have ha2 := ha1.quiet h2.toQuiet h2'.toQuiet
  have hg2 : TwinMrg c.nodes s2 t2 := by
    intro u hu m m' hm hm'
    rw [h2.mrg] at hm
    rw [h2'.mrg] at hm'
    exact hg1 u hu m m' hm hm'
  cases b' with
  | true =>
    have hr : Ready s2 c.nodes ts' := by
      refine ⟨hb1.flow.soft h2, h3, hset.soft h2, fun e he => ?_⟩
      obtain ⟨rank, hr⟩ := h5 rfl
      obtain ⟨m, g1, _⟩ := hr e he
      rw [g1]; rfl
    have hr' : Ready t2 c.nodes ts' := by
      refine ⟨hb1'.flow.soft h2', h3', hset'.soft h2', fun e he => ?_⟩
      obtain ⟨rank, hr⟩ := h5' rfl
      obtain ⟨m, g1, _⟩ := hr e he
      rw [g1]; rfl
    refine ⟨s2, t2, ((true, c.nodes.length), true), ts', ?_, ?_, ⟨hr, hr', ha2, hg2, Exact.twin hr hr' ha2 hg2 (h5 rfl) (h5' rfl)⟩⟩
    · unfold propagateCluster
      rw [e1]
      simp only
      rw [k1]
      simp only
      rw [h1 sched hsched]
    · unfold propagateCluster
      rw [e1']
      simp only
      rw [k1']
      simp only
      rw [h1' sched hsched]
  | false =>
    obtain ⟨r1, r2, r3⟩ := ones_ready (hb1.flow.soft h2) h3 (hset.soft h2)
    obtain ⟨r1', r2', r3'⟩ := ones_ready (hb1'.flow.soft h2') h3' (hset'.soft h2')
    obtain ⟨s3, t3, d, g1, g2, g3⟩ := loopyIterations_like hsched hn (gs := loopyOrder n ts')
      (fun g hg e he => (loopyOrder_perm n ts').mem_iff.mp (List.mem_flatten.mpr ⟨g, hg, he⟩))
      (c.nodes.foldl oneMessages s2).maxIter _ _
      ⟨r1, r1', ha2.quiet r2.toQuiet r2'.toQuiet,
        fun u hu m m' hm hm' => by
          rw [r2.mrg] at hm
          rw [r2'.mrg] at hm'
          exact hg2 u hu m m' hm hm',
        fun e he m m' hm hm' => by
          rw [r3 e he] at hm
          rw [r3' e he] at hm'
          cases hm
          cases hm'
          exact Fn.Scaled.refl _ _⟩
    have hmi : (c.nodes.foldl oneMessages t2).maxIter = (c.nodes.foldl oneMessages s2).maxIter :=
      (ha2.quiet r2.toQuiet r2'.toQuiet).maxIter
    refine ⟨s3, t3, ((false, c.nodes.length), d), ts', ?_, ?_, g3⟩
    · unfold propagateCluster
      rw [e1]
      simp only
      rw [k1]
      simp only
      rw [h1 sched hsched]
      simp only
      unfold loopyPropagate
      simp only
      rw [g1]
    · unfold propagateCluster
      rw [e1']
      simp only
      rw [k1']
      simp only
      rw [h1' sched hsched]
      simp only
      unfold loopyPropagate
      simp only
      rw [hmi, g2]

theorem Ready.keep {s s' : State (Ext K)} {nodes : List Var} {ts : List Topo} (h : Ready s nodes ts) (hq : Quiet s s')
    (hf : Flow s') (hty : TypedMsgs s') (hg : ∀ u ∈ nodes, s'.mrg u = s.mrg u)
    (hm : ∀ u ∈ nodes, ∀ v, s'.msg u v = s.msg u v) : Ready s' nodes ts where
  flow := hf
  typed := hty
  setting := ⟨h.setting.topo.congr (fun u _ v => hq.isSome u v), fun u hu => by rw [hq.obs]; exact h.setting.hid u hu,
    fun u hu v hv => h.setting.closed u hu v (by rw [← hq.isSome]; exact hv),
    fun u hu => by rw [hg u hu]; exact h.setting.merged u hu⟩
  live e he := by rw [hm _ (h.setting.ownerMem he)]; exact h.live e he

theorem Proportional.keep {s t s' t' : State (Ext K)} {nodes : List Var} {ts : List Topo} (h : Proportional kind nodes ts s t)
    (hq : Quiet s s') (hq' : Quiet t t') (hf : Flow s') (hf' : Flow t') (hty : TypedMsgs s') (hty' : TypedMsgs t')
    (hg : ∀ u ∈ nodes, s'.mrg u = s.mrg u) (hg' : ∀ u ∈ nodes, t'.mrg u = t.mrg u)
    (hm : ∀ u ∈ nodes, ∀ v, s'.msg u v = s.msg u v) (hm' : ∀ u ∈ nodes, ∀ v, t'.msg u v = t.msg u v) :
    Proportional kind nodes ts s' t' where
  left := h.left.keep hq hf hty hg hm
  right := h.right.keep hq' hf' hty' hg' hm'
  alike := h.alike.quiet hq hq'
  mrg u hu m m' e e' := by
    rw [hg u hu] at e
    rw [hg' u hu] at e'
    exact h.mrg u hu m m' e e'
  msgs e he m m' h1 h2 := by
    have ho := h.left.setting.ownerMem he
    rw [hm _ ho] at h1
    rw [hm' _ ho] at h2
    exact h.msgs e he m m' h1 h2

theorem propagateCluster_steps {ord : List Var → List Var} (hord : ∀ l, (ord l).Perm l) (kind : Kind) {sched : Sched}
    (hsched : ∀ l, (sched l).Perm l) {n : Nat} (hn : 1 ≤ n) {s : State (Ext K)} (hs : Base s) {i : Nat} {c : Cluster}
    (hc : s.clusters[i]? = some c) (hno : ∀ u ∈ c.nodes, ∀ v, s.msg u v = none) :
    ∃ s' r tree, propagateCluster ord sched kind n i s = .ok s' r ∧ ClusterStep kind s s' i c tree := by
  rcases propagateCluster_ok hord kind hs.inv hs.flow hs.typed hc hno with ⟨s1, h1, h2⟩ | h
  · exact ⟨s1, _, true, h2 sched hsched n, h1⟩
  · obtain ⟨_, s1, _, _, _, h1, _, _, h2⟩ := h sched hsched n hn
    exact ⟨s1, _, false, h2, h1⟩

/-- The propagation of all the clusters, one of which, at position `i`, has proportional factors. -/
theorem propagateClusters_like {ord : List Var → List Var} (hord : ∀ l, (ord l).Perm l) {sched : Sched}
    (hsched : ∀ l, (sched l).Perm l) {n : Nat} (hn : 1 ≤ n) {i : Nat} {N : List Var} : ∀ (d k : Nat) (s t : State (Ext K)),
    Base s → Base t → t.clusters = s.clusters → k + d = s.clusters.length → LikeOn kind N s t →
    (∃ c, s.clusters[i]? = some c ∧ c.nodes = N) →
    (∀ j c, k ≤ j → s.clusters[j]? = some c → ∀ u ∈ c.nodes, ∀ v, s.msg u v = none) →
    (∀ j c, k ≤ j → t.clusters[j]? = some c → ∀ u ∈ c.nodes, ∀ v, t.msg u v = none) →
    (i < k → ∃ ts, Proportional kind N ts s t) →
    ∃ s' t' rs rs' ts, propagateClusters ord sched kind n (List.range' k d) s = .ok s' rs ∧
      propagateClusters ord sched kind n (List.range' k d) t = .ok t' rs' ∧ Proportional kind N ts s' t' := by
  intro d
  induction d with
  | zero =>
    intro k s t _ _ _ hk _ hi _ _ hpr
    obtain ⟨c, hc, _⟩ := hi
    obtain ⟨ts, h⟩ := hpr (by have := (List.getElem?_eq_some_iff.mp hc).1; omega)
    exact ⟨s, t, [], [], ts, rfl, rfl, h⟩
  | succ d ih =>
    intro k s t hs ht hcl hk ha hi hno hno' hpr
    have hkl : k < s.clusters.length := by omega
    have hc : s.clusters[k]? = some s.clusters[k] := List.getElem?_eq_getElem hkl
    set c := s.clusters[k] with hcdef
    have hct : t.clusters[k]? = some c := by rw [hcl]; exact hc
    obtain ⟨s1, r1, tr, e1, h1⟩ := propagateCluster_steps hord kind hsched hn hs hc (hno k c le_rfl hc)
    obtain ⟨t1, r2, tr', e2, h2⟩ := propagateCluster_steps hord kind hsched hn ht hct (hno' k c le_rfl hct)
    have hb1 := hs.asked h1.step.asked h1.typed
    have hb2 := ht.asked h2.step.asked h2.typed
    have hcl1 : t1.clusters = s1.clusters := by
      obtain ⟨x, g1, g2⟩ := propagateCluster_prepared e1
      obtain ⟨y, g1', g2'⟩ := propagateCluster_prepared e2
      rw [g2, g2']
      exact prepareCluster_like hord hs.inv ht.inv ha hcl hc g1 g1'
    obtain ⟨ci, hci, hN⟩ := hi
    have hi1 : ∃ c, s1.clusters[i]? = some c ∧ c.nodes = N := by
      by_cases hik : i = k
      · subst hik
        obtain ⟨c', g1, g2, _⟩ := h1.here
        have hcc : ci = c := by rw [hc] at hci; exact (Option.some.inj hci).symm
        exact ⟨c', g1, by rw [g2, ← hcc]; exact hN⟩
      · exact ⟨ci, by rw [h1.other i hik]; exact hci, hN⟩
    have hpr1 : i < k + 1 → ∃ ts, Proportional kind N ts s1 t1 := by
      intro hik
      by_cases hik' : i = k
      · subst hik'
        have hcc : ci = c := by rw [hc] at hci; exact (Option.some.inj hci).symm
        rw [hcc] at hN
        obtain ⟨s', t', r, ts, g1, g2, g3⟩ := propagateCluster_like hord hsched hn hs ht hc hcl (hno i c le_rfl hc)
          (hno' i c le_rfl hct) (by rw [hN]; exact ha)
        rw [e1] at g1
        cases g1
        rw [e2] at g2
        cases g2
        exact ⟨ts, by rw [← hN]; exact g3⟩
      · obtain ⟨ts, hP⟩ := hpr (by omega)
        have hdis : ∀ u ∈ N, u ∉ c.nodes := fun u hu => by
          rw [← hN] at hu
          exact clusters_disjoint hs.inv hik' hci hc hu
        exact ⟨ts, hP.keep h1.step.toQuiet h2.step.toQuiet h1.flow h2.flow h1.typed h2.typed
          (fun u hu => h1.mrg u (hdis u hu)) (fun u hu => h2.mrg u (hdis u hu))
          (fun u hu v => h1.msg u v (hdis u hu)) (fun u hu v => h2.msg u v (hdis u hu))⟩
    obtain ⟨s', t', rs, rs', ts, f1, f2, f3⟩ := ih (k + 1) s1 t1 hb1 hb2 hcl1 (by rw [h1.len]; omega)
      (ha.quiet h1.step.toQuiet h2.step.toQuiet) hi1
      (by
        intro j c' hj hc' u hu v
        have hne : j ≠ k := by omega
        rw [h1.other j hne] at hc'
        rw [h1.msg u v (clusters_disjoint hs.inv hne hc' hc hu)]
        exact hno j c' (by omega) hc' u hu v)
      (by
        intro j c' hj hc' u hu v
        have hne : j ≠ k := by omega
        rw [h2.other j hne] at hc'
        rw [h2.msg u v (clusters_disjoint ht.inv hne hc' hct hu)]
        exact hno' j c' (by omega) hc' u hu v)
      hpr1
    refine ⟨s', t', r1 :: rs, r2 :: rs', ts, ?_, ?_, f3⟩
    · rw [List.range'_succ, propagateClusters, e1]
      simp only
      rw [f1]
    · rw [List.range'_succ, propagateClusters, e2]
      simp only
      rw [f2]

/-- What a successful propagation runs. -/
theorem checkPropagation_inner {ord : List Var → List Var} {sched : Sched} {kind : Kind} {n : Nat} {s : State (Ext K)}
    (hs : Healthy s) (hn : 1 ≤ n) (hw : s.wouldNeedPropagation kind = true) {s1 : State (Ext K)}
    {rs : List ((Bool × Nat) × Bool)}
    (h : propagateClusters ord sched kind n (List.range s.clusters.length) ({ s with pool := some n } : State (Ext K)).resetMessages
      = .ok s1 rs) : ∃ r, checkPropagation ord sched kind n s = .ok { s1 with last := some r, pool := some 1 } () := by
  refine ⟨{ kind := kind, completed := rs.all (fun e => e.2), structures := rs.map (fun e => e.1) }, ?_⟩
  unfold checkPropagation
  rw [if_pos hw]
  unfold withPool
  rw [hs.setPoolSize hn]
  simp only
  have hw' : ({ s with pool := some n } : State (Ext K)).wouldNeedPropagation kind = true := hw
  unfold propagateBelief
  rw [hw']
  simp only [Bool.not_true, Bool.false_eq_true, if_false]
  rw [h]
  rfl

/-- A propagation in two models with the same structure and proportional factors in the cluster of a variable. -/
theorem checkPropagation_like {ord : List Var → List Var} (hord : ∀ l, (ord l).Perm l) {sched : Sched}
    (hsched : ∀ l, (sched l).Perm l) {n : Nat} (hn : 1 ≤ n) {s t : State (Ext K)} (hs : Sound True s) (ht : Sound True t)
    (hns : Numeric s) (hnt : Numeric t) (hws : s.wouldNeedPropagation kind = true)
    (hwt : t.wouldNeedPropagation kind = true) (hcl : t.clusters = s.clusters) {i : Nat} {c : Cluster}
    (hc : s.clusters[i]? = some c) (ha : LikeOn kind c.nodes s t) :
    ∃ s' t' ts, checkPropagation ord sched kind n s = .ok s' () ∧ checkPropagation ord sched kind n t = .ok t' () ∧
      Proportional kind c.nodes ts s' t' := by
  have base : ∀ x : State (Ext K), Sound True x → Numeric x →
      Base ({ x with pool := some n } : State (Ext K)).resetMessages ∧
      Asked x ({ x with pool := some n } : State (Ext K)).resetMessages ∧
      ({ x with pool := some n } : State (Ext K)).resetMessages.clusters = x.clusters ∧
      ∀ u, u ∉ x.obs → ∀ v, ({ x with pool := some n } : State (Ext K)).resetMessages.msg u v = none := by
    intro x hx hnx
    have ha0 := asked_pool x (some n)
    have hi0 := ha0.inv hx.healthy.inv
    have hsoft := resetMessages_soft ({ x with pool := some n } : State (Ext K))
    have hq := ha0.trans hsoft.step.asked
    have hmsg : ∀ u, u ∉ x.obs → ∀ v, ({ x with pool := some n } : State (Ext K)).resetMessages.msg u v = none :=
      fun u hu v => msg_resetMessages hi0 hu v
    have hf := hx.faithful trivial
    refine ⟨⟨hq.inv hx.healthy.inv, hx.healthy.flow.quiet hq.toQuiet (hq.inv hx.healthy.inv).toCore, ?_,
      hq.coh hx.healthy.inv hf.coh, hq.evid hf.evid, hnx.quiet hq.toQuiet⟩, hq, hsoft.cl, hmsg⟩
    intro u v m hu hm
    rw [hq.toQuiet.obs] at hu
    rw [hmsg u hu v] at hm
    cases hm
  obtain ⟨a1, a2, a3, a4⟩ := base s hs hns
  obtain ⟨b1, b2, b3, b4⟩ := base t ht hnt
  obtain ⟨s1, t1, rs, rs', ts, g1, g2, g3⟩ := propagateClusters_like hord hsched hn (i := i) (N := c.nodes) s.clusters.length 0
    _ _ a1 b1 (by rw [a3, b3, hcl]) (by rw [a3]; omega) (ha.quiet a2.toQuiet b2.toQuiet) ⟨c, by rw [a3]; exact hc, rfl⟩
    (by
      intro j c' _ hc' u hu v
      refine a4 u ?_ v
      rw [a3] at hc'
      exact (hs.healthy.inv.cluster_mem hc' hu).2)
    (by
      intro j c' _ hc' u hu v
      refine b4 u ?_ v
      rw [b3] at hc'
      exact (ht.healthy.inv.cluster_mem hc' hu).2)
    (by omega)
  rw [← List.range_eq_range'] at g1
  rw [← List.range_eq_range', ← hcl] at g2
  obtain ⟨r, k1⟩ := checkPropagation_inner hs.healthy hn hws g1
  obtain ⟨r', k2⟩ := checkPropagation_inner ht.healthy hn hwt g2
  have q1 : Asked s1 { s1 with last := some r, pool := some 1 } := Asked.light rfl rfl rfl rfl rfl rfl rfl rfl rfl rfl
  have q2 : Asked t1 { t1 with last := some r', pool := some 1 } := Asked.light rfl rfl rfl rfl rfl rfl rfl rfl rfl rfl
  obtain ⟨_, _, f1, _, f3, _⟩ := checkPropagation_run hord kind hsched hs.healthy hn hws
  obtain ⟨_, _, f1', _, f3', _⟩ := checkPropagation_run hord kind hsched ht.healthy hn hwt
  rw [k1] at f1
  cases f1
  rw [k2] at f1'
  cases f1'
  exact ⟨_, _, ts, k1, k2, g3.keep q1.toQuiet q2.toQuiet f3.flow f3'.flow g3.left.typed g3.right.typed
    (fun _ _ => rfl) (fun _ _ => rfl) (fun _ _ _ => rfl) (fun _ _ _ => rfl)⟩

/-- The beliefs read in the two models. -/
theorem Proportional.belief {ord : List Var → List Var} (hord : ∀ l, (ord l).Perm l) {s t : State (Ext K)} (hs : Inv s)
    (ht : Inv t) (hsa : Alive s) (hta : Alive t) {nodes : List Var} {ts : List Topo} (h : Proportional kind nodes ts s t)
    {u : Var} (hu : u ∈ nodes) (hus : u ∈ s.hid) (hut : u ∈ t.hid) : t.belief ord u = s.belief ord u := by
  obtain ⟨mg, ms, f, ps, a1, a2, a3, a4, a5, a6, a7, _, a9⟩ := belief_ok hord hs hsa hus
  obtain ⟨mg', ms', f', ps', b1, b2, b3, b4, b5, b6, b7, _, b9⟩ := belief_ok hord ht hta hut
  have hk : AMap.keys (t.activeOf u) = AMap.keys (s.activeOf u) := by rw [← keys_links, h.alike.links, keys_links]
  rw [hk] at b3
  have hsc : List.Forall₂ (Fn.Scaled u) (mg :: ms) (mg' :: ms') := by
    refine .cons (h.mrg u hu _ _ a1 b1) (forall₂_two a3 b3 ?_)
    intro w hw x y hx hy
    have hact : (s.act u w).isSome := by
      have := (hord _).mem_iff.mp hw
      exact activeKeys_iff.mp this
    have hset := h.left.setting
    obtain ⟨e, he, k1, k2⟩ := hset.topo.all w (hset.closed u hu w hact) u (hs.toCore.net.symA _ _ hact)
    have := h.msgs e he x y (by rw [k2, hset.topo.from_ e he, k1]; exact hx) (by rw [k2, hset.topo.from_ e he, k1]; exact hy)
    rw [k2] at this
    exact this
  have hff := Fn.mergedUnaries_scaled (by simp)
    (fun g hg => by
      rcases List.mem_cons.mp hg with rfl | hg
      · exact a2
      · exact a4 g hg)
    (fun g hg => by
      rcases List.mem_cons.mp hg with rfl | hg
      · exact b2
      · exact b4 g hg) hsc a5 b5
  rw [a9, b9, ← a7, ← b7]
  exact a6.probabilities_scaled b6 ⟨1, one_pos, fun i hi => by rw [hff i hi, Ext.times_one]⟩

end State
end EFG
