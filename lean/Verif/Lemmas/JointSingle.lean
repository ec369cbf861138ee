import Verif.Lemmas.JointPositive
import Verif.Lemmas.Safety
/-
The joint distribution of one variable and its marginal, in a model whose images are positive.
-/

set_option linter.unusedSectionVars false

namespace EFG
namespace State
variable {K : Type} [Field K] [LinearOrder K] [IsStrictOrderedRing K] [FloatParams K]

theorem Core.noLoop {F : Type} [Arith F] {s : State F} (hs : Core s) (v : Var) : ¬(s.act v v).isSome := by
  intro h
  obtain ⟨c, hc⟩ := Option.isSome_iff_exists.mp h
  obtain ⟨_, f, _, hb⟩ := hs.link v v c.factor (by unfold lnk; rw [hc]; rfl)
  exact hb.ne rfl

/-- The joint distribution of a hidden variable and its belief. -/
theorem single_positive {ord : List Var → List Var} (hord : ∀ l, (ord l).Perm l)
    {sh : List Contribution → List Contribution} (hsh : ∀ l, (sh l).Perm l) {s : State (Ext K)} (hH : Healthy s)
    (hF : Faithful s) (hP : s.AllPositive) {r : PropResult} (hl : s.last = some r) (ha : Alive s)
    (hm : ∀ u ∈ s.hid, ∀ v, (s.act u v).isSome → ∀ m, s.msg u v = some m → m.PosOn u) {v : Var} (hv : v ∈ s.hid) :
    ∃ (f : Fn (Ext K)) (x : Nat → K) (C : K), s.jointOf ord sh (Group.single v) = .ok f ∧ f.vars = Group.single v ∧
      s.belief ord v = .ok ((List.range v.size).map (fun i => .val (x i))) ∧ 0 < C ∧
      ((List.range v.size).map x).sum = 1 ∧ ∀ i < v.size, f.findTransformed [i] = .ok (.val (C * x i)) := by
  have hs := hH.inv.toCore
  obtain ⟨hvv, hvo⟩ := mem_hid.mp hv
  have hgr : (Group.single v).group = [v] := rfl
  have hGw : (Group.single v).WF := groupReach_wf (.single v)
  have h0 : 0 < v.size := hs.posV v hvv
  have hN : s.Numeric := hP.mono (fun _ h => h.le)
  have hpsi : ∀ i < v.size, 0 < s.psiK v i := fun i hi => hP.psiK_pos hs v hi
  have hmsg : ∀ w, (s.act v w).isSome → ∃ m, s.msg v w = some m ∧ ∃ c : K, 0 < c ∧
      ∀ j < v.size, m.timg [j] = .val (c * (s.msgVal w v j).1) := by
    intro w hact
    obtain ⟨m, hm'⟩ := Option.isSome_iff_exists.mp (ha.msg v w hvo hact)
    exact ⟨m, hm', 1, one_pos, fun j hj => by rw [one_mul]; exact msgVal_eq hm' (hm v hv w hact m hm') hj⟩
  have hmpos : ∀ w, (s.act v w).isSome → ∀ j < v.size, 0 < (s.msgVal w v j).1 := by
    intro w hact j hj
    obtain ⟨m, hm'⟩ := Option.isSome_iff_exists.mp (ha.msg v w hvo hact)
    have hp := hm v hv w hact m hm'
    have := (hp j hj).2
    rw [msgVal_eq hm' hp hj] at this
    exact this
  obtain ⟨f, C, a1, a2, a3, _, a5, a6⟩ := jointOf_val hord hsh hH hF hN hl hGw (by rw [hgr]; simpa using hvv) (by simp [hgr])
    (by rw [hgr]; simp [hvo]) (μ := s.msgVal) (b := fun _ => 0) (fun u hu => hs.posV u hu)
    (by rw [hgr]; intro u hu _; rw [List.mem_singleton] at hu; rw [hu]; exact (hpsi 0 h0).ne')
    (by
      rw [hgr]
      intro u hu _ w hadj
      rw [List.mem_singleton] at hu
      subst hu
      exact hmsg w (hs.net.symA _ _ hadj.2.2))
  -- the product of the messages
  have hkey : ∀ w ∈ AMap.keys (s.activeOf v), (s.act v w).isSome := fun w hw => activeKeys_iff.mp hw
  have hprod : ∀ i, ((s.contribList [v]).map (s.contribVal s.msgVal (fun _ => i))).prod =
      s.psiK v i * (((AMap.keys (s.activeOf v)).map (fun w => (s.msgVal w v i).1)).prod) := by
    intro i
    have hfl : (AMap.keys (s.activeOf v)).filter (fun w => !decide (w = v)) = AMap.keys (s.activeOf v) := by
      refine List.filter_eq_self.mpr (fun w hw => ?_)
      have : w ≠ v := by
        rintro rfl
        exact hs.noLoop _ (hkey _ hw)
      simpa using this
    rw [hs.contribList_prod]
    simp [hvo, Tree.wgt, hfl]
  obtain ⟨mg, ms, b, ps, b1, b2, b3, b4, b5, b6, b7, _, b9⟩ := belief_ok hord hH.inv ha hv
  obtain ⟨c, hc, hmv⟩ := merged_val hs hH.sep hF.coh hF.evid hN hv b1 ⟨0, h0, (hpsi 0 h0).ne'⟩
  have hLp : ∀ i, ((ord (AMap.keys (s.activeOf v))).map (fun w => (s.msgVal w v i).1)).prod =
      ((AMap.keys (s.activeOf v)).map (fun w => (s.msgVal w v i).1)).prod := fun i => ((hord _).map _).prod_eq
  have hpp : ∀ i < v.size, 0 < s.psiK v i * ((ord (AMap.keys (s.activeOf v))).map (fun w => (s.msgVal w v i).1)).prod := by
    intro i hi
    exact mul_pos (hpsi i hi) (prod_map_pos fun w hw => hmpos w (hkey w ((hord _).mem_iff.mp hw)) i hi)
  obtain ⟨b', d1, d2, D, hD, d3, _⟩ := gathered_val hs b1 hc hmv (g := fun w i => (s.msgVal w v i).1) b3 b4
    (fun w hw => hmsg w (hkey w ((hord _).mem_iff.mp hw))) (fun i hi => (hpp i hi).le) ⟨0, h0, (hpp 0 h0).ne'⟩
  rw [b5] at d1
  cases d1
  have hsum : 0 < ((List.range v.size).map (fun i => D * (s.psiK v i *
      ((ord (AMap.keys (s.activeOf v))).map (fun w => (s.msgVal w v i).1)).prod))).sum := by
    refine List.sum_pos _ (fun x hx => ?_) (by simpa using h0.ne')
    obtain ⟨i, hi, rfl⟩ := List.mem_map.mp hx
    exact mul_pos hD (hpp i (by simpa using hi))
  have hpr := d2.probabilities_val d3 hsum.ne'
  rw [b7] at hpr
  set S := ((List.range v.size).map (fun i => D * (s.psiK v i *
      ((ord (AMap.keys (s.activeOf v))).map (fun w => (s.msgVal w v i).1)).prod))).sum with hS
  refine ⟨f, _, C / D * S, a1, a3, b9.trans hpr, mul_pos (div_pos a5 hD) hsum, ?_, fun i hi => ?_⟩
  · simp only [div_eq_mul_inv]
    rw [List.sum_map_mul_right, ← hS]
    exact mul_inv_cancel₀ hsum.ne'
  have hvd : Valid f.sizes [i] := by
    have := a2.valid_map (a := fun _ => i)
    rw [a3, hgr] at this
    exact this.mpr (fun u hu => by rw [List.mem_singleton] at hu; rw [hu]; exact hi)
  have h6 := a6 (fun _ => i) (by rw [hgr]; intro u hu; rw [List.mem_singleton] at hu; rw [hu]; exact hi)
  rw [hgr, hprod, ← hLp] at h6
  rw [a2.findTransformed hvd]
  refine congrArg Res.ok (h6.trans (congrArg Ext.val ?_))
  have h1 := hsum.ne'
  have h2 := hD.ne'
  rw [div_mul_eq_mul_div, div_mul_div_comm, mul_comm D S, ← mul_assoc (C * S)]
  rw [eq_div_iff (mul_ne_zero h1 h2)]
  ring

end State

/-! ### The function which is returned -/

namespace State

/-- What is returned for a group is a well formed function of its variables. -/
theorem jointOf_wf {F : Type} [Arith F] {ord : List Var → List Var} (hord : ∀ l, (ord l).Perm l)
    {sh : List Contribution → List Contribution} (hsh : ∀ l, (sh l).Perm l) {s : State F} (hs : Inv s) (ha : Alive s)
    {g : Group} (hg : g.WF) {f : Fn F} (h : s.jointOf ord sh g = .ok f) : f.WF ∧ f.vars = g := by
  unfold State.jointOf at h
  rcases locateAll_cases s g.group with h0 | ⟨locs, h1, h2⟩
  · rw [h0] at h; cases h
  · rw [h1] at h
    simp only at h
    have hown : ∀ e ∈ locs, e.1 ∈ s.vars ∧ s.locate e.1 = some e := by
      intro e he
      obtain ⟨i, hi⟩ := List.mem_iff_getElem?.mp he
      obtain ⟨hil, hie⟩ := List.getElem?_eq_some_iff.mp hi
      have := List.Forall₂.get h2 (i := i) (by rw [h2.length_eq]; exact hil) hil
      simp only [List.get_eq_getElem, hie] at this
      exact ⟨(hs.locate_own this).1, (hs.locate_own this).2.2⟩
    have hc := Res.mapList_ok (l := locs) (f := s.contributionsOf (locs.map Prod.fst))
      (g := fun e => s.contribs (locs.map Prod.fst) e.1) (fun e he =>
        (hs.contributionsOf ha.mrg (hown e he).1 (hown e he).2).1)
    rw [hc] at h
    simp only at h
    split at h
    · cases h
    · have hcontr : ∀ c, ∃ f, c ∈ sh (locs.map (fun e => s.contribs (locs.map Prod.fst) e.1)).flatten.dedup →
          s.contribution c = .ok f ∧ f.WF := by
        intro c
        by_cases hm : c ∈ sh (locs.map (fun e => s.contribs (locs.map Prod.fst) e.1)).flatten.dedup
        · have hm' := (hsh _).mem_iff.mp hm
          rw [List.mem_dedup, List.mem_flatten] at hm'
          obtain ⟨l, hl, hcl⟩ := hm'
          obtain ⟨e, he, rfl⟩ := List.mem_map.mp hl
          obtain ⟨f, hf⟩ := contribution_ok hs ha (hown e he).1 hcl
          exact ⟨f, fun _ => hf⟩
        · exact ⟨Fn.ofGroup g, fun h => absurd h hm⟩
      choose fn hfn using hcontr
      rw [Res.mapList_ok (fun c hc => (hfn c hc).1)] at h
      simp only at h
      obtain ⟨_, hm2⟩ := Fn.merge_ne_ub hord
        (factors := (sh (locs.map (fun e => s.contribs (locs.map Prod.fst) e.1)).flatten.dedup).map fn) (by
        intro f hf
        obtain ⟨c, hc, rfl⟩ := List.mem_map.mp hf
        exact (hfn c hc).2)
      split at h
      · rename_i m hm
        by_cases hp : g.group.Perm m.vars.group
        · obtain ⟨f', h3, h4, h5, _⟩ := (hm2 m hm).cloneWithPermutedGroup hg hp
          rw [h3] at h
          cases h
          exact ⟨h4, h5⟩
        · rw [Fn.cloneWithPermutedGroup_throw (hm2 m hm) hg hp] at h
          cases h
      · cases h
      · cases h

end State

variable {K : Type} [Field K] [LinearOrder K] [IsStrictOrderedRing K] [FloatParams K]

theorem sum_range_single {k n : Nat} (h : k < n) : ((List.range n).map (fun i => if i = k then (1 : K) else 0)).sum = 1 := by
  have h0 : ∀ n ≤ k, ((List.range n).map (fun i => if i = k then (1 : K) else 0)).sum = 0 := by
    intro n hn
    refine List.sum_eq_zero (fun x hx => ?_)
    obtain ⟨i, hi, rfl⟩ := List.mem_map.mp hx
    rw [if_neg (by rw [List.mem_range] at hi; omega)]
  induction n with
  | zero => omega
  | succ n ih =>
    rw [List.range_succ, List.map_append, List.sum_append, List.map_singleton, List.sum_singleton]
    by_cases e : n = k
    · rw [if_pos e, h0 n e.le, zero_add]
    · rw [if_neg e, ih (by omega), add_zero]

/-- A function of one variable whose images are a multiple of a distribution has that distribution. -/
theorem Fn.Unary.probabilities_multiple {v : Var} {f : Fn (Ext K)} (h : f.Unary v) {x : Nat → K} {C : K} (hC : 0 < C)
    (hx : ∀ i < v.size, f.findTransformed [i] = .ok (.val (C * x i))) (hsum : ((List.range v.size).map x).sum = 1) :
    f.probabilities = .ok ((List.range v.size).map (fun i => .val (x i))) := by
  have hG : ∀ i < v.size, f.timg [i] = .val (C * x i) := by
    intro i hi
    have hvd : Valid f.sizes [i] := by rw [h.sizes]; simpa [Valid] using hi
    have := h.wf.findTransformed hvd
    rw [hx i hi] at this
    exact (Res.ok.inj this).symm
  have hs : ((List.range v.size).map (fun i => C * x i)).sum = C := by
    rw [List.sum_map_mul_left, hsum, mul_one]
  rw [h.probabilities_val hG (by rw [hs]; exact hC.ne'), hs]
  congr 1
  exact List.map_congr_left (fun i _ => by rw [mul_div_cancel_left₀ _ hC.ne'])

end EFG
