import Verif.Lemmas.BeliefExact
import Verif.Lemmas.Max
/-
From the beliefs of the library to the conditional distributions of the product of the factors.
-/

set_option linter.unusedSectionVars false

namespace EFG
namespace State
variable {K : Type} [Field K] [LinearOrder K] [IsStrictOrderedRing K]

/-! ### Queries change nothing the specification mentions -/

section
variable {s s' : State (Ext K)} (hq : Quiet s s')
include hq

theorem Quiet.hiddenS (v : Var) : s'.Hidden v ↔ s.Hidden v := by
  simp only [Hidden, Observes, hq.vars, hq.evidences]

theorem Quiet.joinsS (u v : Var) : s'.Joins u v ↔ s.Joins u v := by
  simp only [Joins, FactorOn, hq.heap, hq.factors]

theorem Quiet.graphS : s'.hiddenGraph = s.hiddenGraph := by
  ext u v
  simp only [hiddenGraph, hq.hiddenS, hq.joinsS]

theorem Quiet.treeAt {v : Var} (h : s.TreeAt v) : s'.TreeAt v := by
  unfold TreeAt Linked at *
  rw [hq.graphS]
  simp only [hq.hiddenS, hq.joinsS]
  exact h

theorem Quiet.imagesS [Arith (Ext K)] {φ : Nat → Assign → K} (h : s.Images φ) : s'.Images φ := by
  unfold Images InRange at *
  rw [hq.factors, hq.vars, hq.heap]
  exact h

theorem Quiet.othersS {v : Var} {W : List Var} (h : s.Others v W) : s'.Others v W := by
  unfold Others at *
  simp only [hq.hiddenS]
  exact h

theorem Quiet.agreesS {e : Assign} (h : s.Agrees e) : s'.Agrees e := by
  unfold Agrees InRange at *
  rw [hq.vars, hq.evidences]
  exact h

theorem Quiet.readWeightS {φ : Nat → Assign → K} (a : Assign) : s'.readWeight φ a = s.readWeight φ a := by
  have hh : s'.Hidden = s.Hidden := funext (fun v => propext (hq.hiddenS v))
  unfold readWeight readAt
  rw [hq.factors, hq.heap, hh]

theorem Quiet.readWeightInS {G : List Var} {φ : Nat → Assign → K} (a : Assign) :
    s'.readWeightIn G φ a = s.readWeightIn G φ a := by
  have hh : s'.Hidden = s.Hidden := funext (fun v => propext (hq.hiddenS v))
  unfold readWeightIn readAtIn
  rw [hq.factors, hq.heap, hh]

end

/-- A query on a sound state. -/
theorem asks_faithful {F α : Type} [Arith F] {ord : List Var → List Var} (hord : ∀ l, (ord l).Perm l) (kind : Kind)
    {sched : Sched} (hsched : ∀ l, (sched l).Perm l) {s : State F} (hs : Sound True s) {n : Nat} (hn : 1 ≤ n)
    {r : State F → Res α} {P : α → Prop}
    (hr : ∀ s' p, Asked s s' → Healthy s' → Faithful s' → s'.last = some p → p.kind = kind → ∃ x, r s' = .ok x ∧ P x) :
    ∃ s' x, asks ord sched kind n r s = .ok s' x ∧ P x := by
  obtain ⟨s', p, h1, h2, h3, h4, h5⟩ := checkPropagation_sound hord kind hsched hs hn
  obtain ⟨x, e, hx⟩ := hr s' p h2 h3.healthy (h3.faithful trivial) h4 h5
  refine ⟨s', x, ?_, hx⟩
  unfold asks
  rw [h1]
  simp only
  unfold lift
  rw [e]

theorem readAt_inRange [Arith (Ext K)] {s : State (Ext K)} (hH : Healthy s) {p : Nat} (hp : p ∈ s.factors) {a : Assign}
    (ha : s.InRange a) : s.InRange (s.readAt p a) := by
  have hs := hH.inv.toCore
  unfold readAt
  cases hf : s.heap[p]? with
  | none => exact ha
  | some f =>
    simp only
    split
    · rename_i u w hg
      by_cases hh : s.Hidden u ∧ s.Hidden w
      · rw [if_pos hh]
        have hj : s.Joins u w := ⟨p, Or.inl ⟨hp, f, hf, hg⟩⟩
        have := (hs.joins_hidden hh.1 hh.2).mp hj
        obtain ⟨c, hc⟩ := Option.isSome_iff_exists.mp this
        exact hH.exchange (lnk_of_act hc) ha
      · rw [if_neg hh]; exact ha
    · exact ha

section lawfree
variable [Arith (Ext K)]

/-! ### Masses -/

/-- What the assignments of a sum look like. -/
theorem Others.agrees {s : State (Ext K)} {v : Var} (hv : v ∈ s.hid) {W : List Var} (hW : s.Others v W)
    {e : Assign} (he : s.Agrees e) {i : Nat} (hi : i < v.size) {b : Assign}
    (h1 : ∀ u, u ∉ W → b u = Function.update e v i u) (h2 : ∀ u ∈ W, b u < u.size) : s.Agrees b := by
  constructor
  · intro u hu
    by_cases huW : u ∈ W
    · exact h2 u huW
    · rw [h1 u huW]
      by_cases huv : u = v
      · rw [huv, Function.update_self]; exact hi
      · rw [Function.update_of_ne huv]; exact he.1 u hu
  · intro u k hk
    have ho : s.Observes u := ⟨k, hk⟩
    have huW : u ∉ W := fun h => ((hW.2 u).mp h).1.2 ho
    have huv : u ≠ v := fun h => (hidden_iff.mpr hv).2 (h ▸ ho)
    rw [h1 u huW, Function.update_of_ne huv]
    exact he.2 u k hk

/-- The observed part does not depend on the hidden variables. -/
theorem restK_congr {s : State (Ext K)} {a b : Assign} (h : ∀ u ∈ s.obs, a u = b u) : s.restK a = s.restK b :=
  Tree.wgt_local h

theorem mass_read {s : State (Ext K)} (hH : Healthy s) {φ : Nat → Assign → K} (hφ : s.Images φ) {v : Var}
    (hv : v ∈ s.hid) {W : List Var} (hW : s.Others v W) {e : Assign} (he : s.Agrees e) {i : Nat} (hi : i < v.size) :
    mass (s.readWeight φ) W e v i = s.restK e * Tree.sumOver Var.size W s.codeK (Function.update e v i) := by
  unfold mass
  have h1 : Tree.sumOver Var.size W (s.readWeight φ) (Function.update e v i) =
      Tree.sumOver Var.size W (fun b => s.restK b * s.codeK b) (Function.update e v i) := by
    refine Tree.sumOver_congr_range (fun b hb hr => ?_)
    rw [readWeight_eq hH hφ (hW.agrees hv he hi hb hr), mul_comm]
  have hobs : ∀ u ∈ s.obs, u ∉ W ∧ u ≠ v := by
    intro u hu
    constructor
    · intro h
      exact (mem_hid.mp (hidden_iff.mp ((hW.2 u).mp h).1)).2 hu
    · rintro rfl
      exact (mem_hid.mp hv).2 hu
  rw [h1, Tree.sumOver_mul]
  · congr 1
    refine restK_congr (fun u hu => ?_)
    rw [Function.update_of_ne (hobs u hu).2]
  · intro a b hab
    exact restK_congr (fun u hu => hab u (hobs u hu).1)

/-- With symmetric factors the library reads the factors as they are. -/
theorem readWeight_symmetric {s : State (Ext K)} (hs : Core s) {φ : Nat → Assign → K} (hy : s.Symmetric φ) {a : Assign}
    (ha : s.InRange a) : s.readWeight φ a = s.weight φ a := by
  unfold readWeight weight
  congr 1
  refine List.map_congr_left (fun p hp => ?_)
  unfold readAt
  cases hf : s.heap[p]? with
  | none => rfl
  | some f =>
    simp only
    split
    · rename_i u w hg
      by_cases hh : s.Hidden u ∧ s.Hidden w
      · rw [if_pos hh]
        exact hy p u w ⟨hp, f, hf, hg⟩ hh.1 hh.2 a ha
      · rw [if_neg hh]
    · rfl

theorem readWeightIn_symmetric {s : State (Ext K)} (G : List Var) {φ : Nat → Assign → K}
    (hy : s.Symmetric φ) {a : Assign} (ha : s.InRange a) : s.readWeightIn G φ a = s.weight φ a := by
  unfold readWeightIn weight
  congr 1
  refine List.map_congr_left (fun p hp => ?_)
  unfold readAtIn
  cases hf : s.heap[p]? with
  | none => rfl
  | some f =>
    simp only
    split
    · rename_i u w hg
      by_cases hh : (s.Hidden u ∧ s.Hidden w) ∧ ¬(u ∈ G ∧ w ∈ G)
      · rw [if_pos hh]
        exact hy p u w ⟨hp, f, hf, hg⟩ hh.1.1 hh.1.2 a ha
      · rw [if_neg hh]
    · rfl

theorem mass_symmetric {s : State (Ext K)} (hs : Core s) {φ : Nat → Assign → K} (hy : s.Symmetric φ) {v : Var}
    (hv : v ∈ s.hid) {W : List Var} (hW : s.Others v W) {e : Assign} (he : s.Agrees e) {i : Nat} (hi : i < v.size) :
    mass (s.readWeight φ) W e v i = mass (s.weight φ) W e v i :=
  Tree.sumOver_congr_range (fun _ hb hr => readWeight_symmetric hs hy (hW.agrees hv he hi hb hr).1)

theorem distribution_congr {ω ω' : Assign → K} {W : List Var} {e : Assign} {v : Var}
    (h : ∀ i < v.size, mass ω W e v i = mass ω' W e v i) : distribution ω W e v = distribution ω' W e v := by
  unfold distribution
  have : (List.range v.size).map (mass ω W e v) = (List.range v.size).map (mass ω' W e v) :=
    List.map_congr_left (fun i hi => h i (by simpa using hi))
  rw [this]
  exact List.map_congr_left (fun i hi => by rw [h i (by simpa using hi)])

/-! ### Maxima -/

theorem Quiet.atLeastS {s s' : State (Ext K)} (hq : Quiet s s') {φ : Nat → Assign → K} {c : K} (h : s.AtLeast φ c) :
    s'.AtLeast φ c := by
  unfold AtLeast FactorOn InRange at *
  rw [hq.factors, hq.heap, hq.vars]
  simp only [hq.hiddenS]
  exact h

theorem AtLeast.imgB {s : State (Ext K)} {φ : Nat → Assign → K} {d : K} (h : s.AtLeast φ d) (hφ : s.Images φ) (hH : Healthy s)
    {u w : Var} (hu : u ∈ s.hid) (hw : w ∈ s.hid) (ha : (s.act u w).isSome) {i j : Nat} (hi : i < u.size)
    (hj : j < w.size) : d ≤ s.imgB u w i j := by
  have hs := hH.inv.toCore
  obtain ⟨c, hc⟩ := Option.isSome_iff_exists.mp ha
  have hl := lnk_of_act hc
  obtain ⟨h1, f, hf, hb⟩ := hs.link u w _ hl
  set a : Assign := fun z => if z = u then i else if z = w then j else 0 with had
  have hr : s.InRange a := by
    intro z hz
    simp only [had]
    split
    · rename_i h; rw [h]; exact hi
    · split
      · rename_i h; rw [h]; exact hj
      · exact hs.posV z hz
  have := hφ.bin hs hl hr
  simp only [had, if_true, if_neg hb.ne.symm] at this
  rw [← this]
  rcases hb.vars with hv | hv
  · exact h _ u w ⟨h1, f, hf, hv⟩ (hidden_iff.mpr hu) (hidden_iff.mpr hw) a hr
  · exact h _ w u ⟨h1, f, hf, hv⟩ (hidden_iff.mpr hw) (hidden_iff.mpr hu) a hr

theorem others_erase {s : State (Ext K)} (hs : Core s) (v : Var) : s.Others v (s.hid.erase v) := by
  refine ⟨(hid_nodup hs.net).erase v, fun w => ?_⟩
  rw [(hid_nodup hs.net).mem_erase_iff, hidden_iff, and_comm]

theorem Agrees.rest {s : State (Ext K)} {a b : Assign} (ha : s.Agrees a) (hb : s.Agrees b) : s.restK a = s.restK b :=
  restK_congr (fun u hu => by rw [ha.ev hu, hb.ev hu])

/-- The greatest weights of the assignments which give a value to a variable. -/
theorem greatest_read {s : State (Ext K)} (hH : Healthy s) {φ : Nat → Assign → K} (hφ : s.Images φ) {v : Var}
    (hv : v ∈ s.hid) {e : Assign} (he : s.Agrees e) (hene : s.readWeight φ e ≠ 0) {M : Nat → K}
    (hM : ∀ i, M i = maxQuant.toK (Tree.sumOver Var.size (s.hid.erase v)
      (Tree.wgt (s.psiR maxQuant) (s.edgeR maxQuant) s.hid) (Function.update e v i))) :
    0 < s.restK e ∧ M (e v) ≠ 0 ∧
      ∀ i < v.size, IsGreatest {x | ∃ b, s.Agrees b ∧ b v = i ∧ x = s.readWeight φ b} (s.restK e * M i) := by
  have hs := hH.inv.toCore
  have hN := hφ.numeric hs
  have hW := others_erase hs v
  set W := s.hid.erase v with hWdef
  set ω := Tree.wgt (s.psiR maxQuant) (s.edgeR maxQuant) s.hid with hω
  have hcode : ∀ b, s.Agrees b → (ω b).x = s.codeK b := fun b hb => codeK_eq maxQuant hH hN hb.1
  have hread : ∀ b, s.Agrees b → s.readWeight φ b = s.restK e * (ω b).x := by
    intro b hb
    rw [readWeight_eq hH hφ hb, hcode b hb, hb.rest he, mul_comm]
  -- the maxima dominate
  have hdom : ∀ b, s.Agrees b → (ω b).x ≤ M (b v) := by
    intro b hb
    have hb' : ∀ c, (∀ u ∈ s.hid, c u = b u) → ω c = ω b := fun c hc => Tree.wgt_local hc
    have := Tree.le_sumOver_max Var.size ω (W := W) (a := Function.update e v (b v))
      (b := fun u => if u ∈ W then b u else Function.update e v (b v) u) (fun u hu => if_neg hu) (fun u hu => by
        simp only [if_pos hu]
        exact hb.1 u ((hW.2 u).mp hu).1.1)
    rw [hb' _ (fun u hu => ?_)] at this
    · rw [hM]; exact this
    · by_cases huv : u = v
      · have : u ∉ W := fun h => ((hW.2 u).mp h).2 huv
        rw [if_neg this, huv, Function.update_self]
      · rw [if_pos ((hW.2 u).mpr ⟨hidden_iff.mpr hu, huv⟩)]
  have hvs : ∀ b, s.Agrees b → b v < v.size := fun b hb => hb.1 v (mem_hid.mp hv).1
  have he0 : (ω e).x ≠ 0 := by
    intro h; rw [hread e he, h, mul_zero] at hene; exact hene rfl
  have hMe : M (e v) ≠ 0 := by
    have h1 := hdom e he
    have h2 := (ω e).nonneg
    intro h
    rw [h] at h1
    exact he0 (le_antisymm h1 h2)
  have hρ : 0 < s.restK e := by
    have h3 : 0 ≤ s.readWeight φ e := by
      unfold readWeight
      refine list_prod_nonneg (fun x hx => ?_)
      obtain ⟨p, hp, rfl⟩ := List.mem_map.1 hx
      obtain ⟨_, _, _, h⟩ := hφ p hp (s.readAt p e) (readAt_inRange hH hp he.1)
      exact h
    have h4 := lt_of_le_of_ne h3 (Ne.symm hene)
    rw [hread e he] at h4
    exact pos_of_mul_pos_left h4 (ω e).nonneg
  refine ⟨hρ, hMe, fun i hi => ?_⟩
  · constructor
    · by_cases hMi : M i = 0
      · refine ⟨Function.update e v i, ?_, by simp, ?_⟩
        · refine hW.agrees hv he hi (fun u _ => rfl) (fun u hu => ?_)
          obtain ⟨g1, g2⟩ := (hW.2 u).mp hu
          rw [Function.update_of_ne g2]
          exact he.1 u g1.1
        · have ha : s.Agrees (Function.update e v i) := by
            refine hW.agrees hv he hi (fun u _ => rfl) (fun u hu => ?_)
            obtain ⟨g1, g2⟩ := (hW.2 u).mp hu
            rw [Function.update_of_ne g2]
            exact he.1 u g1.1
          have h3 := hdom _ ha
          rw [Function.update_self, hMi] at h3
          rw [hread _ ha, le_antisymm h3 (ω _).nonneg]
          beta_reduce
          rw [hMi]
      · obtain ⟨b, b1, b2, b3⟩ := Tree.sumOver_max_mem Var.size ω (W := W) (Function.update e v i)
          (fun h => hMi (by rw [hM]; exact h))
        have hb := hW.agrees hv he hi b1 b2
        refine ⟨b, hb, ?_, ?_⟩
        · have hvW : v ∉ W := fun h => ((hW.2 v).mp h).2 rfl
          rw [b1 v hvW, Function.update_self]
        · rw [hread b hb, ← b3, hM]
          rfl
    · rintro x ⟨b, hb, hbi, rfl⟩
      rw [hread b hb]
      refine mul_le_mul_of_nonneg_left ?_ hρ.le
      rw [← hbi]
      exact hdom b hb

end lawfree

variable [FloatParams K]

/-- The belief after a sum product propagation is the distribution of the product of the factors, as the
library reads them. -/
theorem belief_sum {ord : List Var → List Var} (hord : ∀ l, (ord l).Perm l) {s : State (Ext K)} (hH : Healthy s)
    (hF : Faithful s) {r : PropResult} (hl : s.last = some r) (hk : r.kind = .sum) {φ : Nat → Assign → K}
    (hφ : s.Images φ) {v : Var} (hv : v ∈ s.hid) (ht : s.TreeAt v) {W : List Var} (hW : s.Others v W) {e : Assign}
    (he : s.Agrees e) (hne : ∃ i < v.size, mass (s.readWeight φ) W e v i ≠ 0) :
    s.belief ord v = .ok ((distribution (s.readWeight φ) W e v).map .val) := by
  have hN := hφ.numeric hH.inv.toCore
  set q := sumQuant (K := K) with hq
  set M : Nat → K := fun i =>
    q.toK (Tree.sumOver Var.size W (Tree.wgt (s.psiR q) (s.edgeR q) s.hid) (Function.update e v i)) with hM
  have hmass : ∀ i < v.size, mass (s.readWeight φ) W e v i = s.restK e * M i := by
    intro i hi
    rw [mass_read hH hφ hv hW he hi, hM]
    simp only
    congr 1
    rw [hq]
    simp only [sumQuant]
    rw [Tree.sumOver_val]
    refine Tree.sumOver_congr_range (fun b hb hr => ?_)
    exact (codeK_eq sumQuant hH hN (hW.agrees hv he hi hb hr).1).symm
  obtain ⟨i0, hi0, hi0ne⟩ := hne
  rw [hmass i0 hi0] at hi0ne
  have hρ := left_ne_zero_of_mul hi0ne
  obtain ⟨h1, _⟩ := belief_exact q hord hH hF hN hl hk hv ht (by intro h; cases h) hW e (M := M) (fun _ => rfl)
    ⟨i0, hi0, right_ne_zero_of_mul hi0ne⟩
  rw [h1]
  congr 1
  unfold distribution
  rw [List.map_map]
  have hs : ((List.range v.size).map (mass (s.readWeight φ) W e v)).sum =
      s.restK e * ((List.range v.size).map M).sum := by
    rw [← List.sum_map_mul_left]
    congr 1
    exact List.map_congr_left (fun i hi => hmass i (by simpa using hi))
  refine List.map_congr_left (fun i hi => ?_)
  simp only [Function.comp]
  rw [hmass i (by simpa using hi), hs, mul_div_mul_left _ _ hρ]

theorem Quiet.flooredS {s s' : State (Ext K)} (hq : Quiet s s') {φ : Nat → Assign → K} (h : s.Floored φ) :
    s'.Floored φ := hq.atLeastS h

theorem Floored.imgB {s : State (Ext K)} {φ : Nat → Assign → K} (h : s.Floored φ) (hφ : s.Images φ) (hH : Healthy s)
    {u w : Var} (hu : u ∈ s.hid) (hw : w ∈ s.hid) (ha : (s.act u w).isSome) {i j : Nat} (hi : i < u.size)
    (hj : j < w.size) : FloatParams.minK ≤ s.imgB u w i j := AtLeast.imgB h hφ hH hu hw ha hi hj

/-- The belief after a max product propagation: the greatest weights, normalised. -/
theorem belief_max {ord : List Var → List Var} (hord : ∀ l, (ord l).Perm l) {s : State (Ext K)} (hH : Healthy s)
    (hF : Faithful s) {r : PropResult} (hl : s.last = some r) (hk : r.kind = .map) {φ : Nat → Assign → K}
    (hφ : s.Images φ) (hfl : s.Floored φ) {v : Var} (hv : v ∈ s.hid) (ht : s.TreeAt v)
    (hne : ∃ e, s.Agrees e ∧ s.readWeight φ e ≠ 0) :
    ∃ N : Nat → K, s.belief ord v =
        .ok (((List.range v.size).map (fun i => N i / ((List.range v.size).map N).sum)).map Ext.val) ∧
      0 < ((List.range v.size).map N).sum ∧
      ∀ i < v.size, IsGreatest {x | ∃ b, s.Agrees b ∧ b v = i ∧ x = s.readWeight φ b} (N i) := by
  have hs := hH.inv.toCore
  have hN := hφ.numeric hs
  have hW := others_erase hs v
  obtain ⟨e, he, hene⟩ := hne
  set W := s.hid.erase v with hWdef
  set q := maxQuant (K := K) with hq
  set M : Nat → K := fun i => q.toK (Tree.sumOver Var.size W (Tree.wgt (s.psiR q) (s.edgeR q) s.hid)
    (Function.update e v i)) with hM
  have hvs : ∀ b, s.Agrees b → b v < v.size := fun b hb => hb.1 v (mem_hid.mp hv).1
  obtain ⟨hρ, hMe, hgr⟩ := greatest_read hH hφ hv he hene (M := M) (fun _ => rfl)
  obtain ⟨h1, h2⟩ := belief_exact q hord hH hF hN hl hk hv ht (by
      intro _ u hu w hw i hi j hj
      have hwh : w ∉ s.obs := hH.sep u w (mem_hid.mp hu).2 hw
      exact hfl.imgB hφ hH hu (mem_hid.mpr ⟨(hs.act_vars hw).2, hwh⟩) hw hi hj) hW e (M := M) (fun _ => rfl)
    ⟨e v, hvs e he, hMe⟩
  have hS : 0 < ((List.range v.size).map M).sum := by
    have := List.single_le_sum (l := (List.range v.size).map M) (by
      intro x hx
      obtain ⟨i, _, rfl⟩ := List.mem_map.1 hx
      exact h2 i) _ (List.mem_map.2 ⟨e v, by simpa using hvs e he, rfl⟩)
    exact lt_of_lt_of_le (lt_of_le_of_ne (h2 _) (Ne.symm hMe)) this
  refine ⟨fun i => s.restK e * M i, ?_, ?_, hgr⟩
  · rw [h1, List.sum_map_mul_left, List.map_map]
    congr 1
    refine List.map_congr_left (fun i _ => ?_)
    simp only [Function.comp]
    rw [mul_div_mul_left _ _ hρ.ne']
  · rw [List.sum_map_mul_left]
    exact mul_pos hρ hS

/-- The maximum of the belief after a max product propagation. -/
theorem belief_map {ord : List Var → List Var} (hord : ∀ l, (ord l).Perm l) {s : State (Ext K)} (hH : Healthy s)
    (hF : Faithful s) {r : PropResult} (hl : s.last = some r) (hk : r.kind = .map) {φ : Nat → Assign → K}
    (hφ : s.Images φ) (hfl : s.Floored φ) {v : Var} (hv : v ∈ s.hid) (ht : s.TreeAt v)
    (hne : ∃ e, s.Agrees e ∧ s.readWeight φ e ≠ 0) :
    ∃ ps k, s.belief ord v = .ok ps ∧ findMax ps = .ok k ∧
      ∃ a, s.MostProbable (s.readWeight φ) a ∧ a v = k := by
  obtain ⟨N, h1, hS, h2⟩ := belief_max hord hH hF hl hk hφ hfl hv ht hne
  have hvs : ∀ b, s.Agrees b → b v < v.size := fun b hb => hb.1 v (mem_hid.mp hv).1
  have hpos := hH.inv.posV v (mem_hid.mp hv).1
  obtain ⟨k, hk1, x, g1, g2, _⟩ := findMax_val (l := (List.range v.size).map (fun i => N i / ((List.range v.size).map N).sum)) (by
    intro h
    have := congrArg List.length h
    simp at this
    omega)
  refine ⟨_, k, h1, hk1, ?_⟩
  have hkv : k < v.size := by
    have := (List.getElem?_eq_some_iff.mp g1).1
    simpa using this
  have hkx : x = N k / ((List.range v.size).map N).sum := by
    rw [List.getElem?_map, List.getElem?_range hkv] at g1
    simpa using g1.symm
  have hmax : ∀ i < v.size, N i ≤ N k := by
    intro i hi
    have := g2 i (N i / ((List.range v.size).map N).sum) (by rw [List.getElem?_map, List.getElem?_range hi]; rfl)
    rw [hkx] at this
    exact (div_le_div_iff_of_pos_right hS).mp this
  obtain ⟨⟨b, hb, hbk, hbx⟩, _⟩ := h2 k hkv
  refine ⟨b, ⟨hb, fun c hc => ?_⟩, hbk⟩
  rw [← hbx]
  exact ((h2 (c v) (hvs c hc)).2 ⟨c, hc, rfl, rfl⟩).trans (hmax _ (hvs c hc))

end State
end EFG
