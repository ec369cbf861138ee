import Verif.Lemmas.Marginal
import Verif.Lemmas.Gibbs
/-
The distribution from which an update of the Gibbs sampler draws is the conditional distribution of the
variable given the values of all the others.
-/

set_option linter.unusedSectionVars false

namespace EFG
namespace State
variable {K : Type} [Field K] [LinearOrder K] [IsStrictOrderedRing K] [FloatParams K]

/-- What the factors on a hidden variable give when it has the value `i` and the others those of `a`. -/
def rowK (s : State (Ext K)) (v : Var) (a : Assign) (i : Nat) : K :=
  s.psiK v i * ((s.activeKeys v).map (fun w => s.imgB v w i (a w))).prod

/-- What the factors on the other variables give. -/
def otherK (s : State (Ext K)) (v : Var) (a : Assign) : K :=
  Tree.wgt (fun u i => ((s.una u).map (fun p => s.imgU p i)).prod) s.imgB (s.vars.erase v) a

theorem weight_eq {s : State (Ext K)} (hs : Core s) {φ : Nat → Assign → K} (hφ : s.Images φ) {a : Assign}
    (ha : s.InRange a) : s.weight φ a =
      Tree.wgt (fun u i => ((s.una u).map (fun p => s.imgU p i)).prod) s.imgB s.vars a := by
  unfold weight
  rw [hs.prod_factors _ a]
  refine Tree.wgt_congr hs.net.distinct.nodup ?_ ?_
  · intro u _
    congr 1
    exact List.map_congr_left (fun p hp => hφ.una hs hp ha)
  · intro u _ w _ _
    cases hl : s.lnk u w with
    | none => unfold imgB; rw [hl]
    | some p => exact hφ.bin hs hl ha

theorem otherK_update {s : State (Ext K)} (hs : Core s) (v : Var) (a : Assign) (i : Nat) :
    s.otherK v (Function.update a v i) = s.otherK v a := by
  unfold otherK
  have hn := hs.net.distinct.nodup
  have : ∀ l : List Var, v ∉ l → Tree.wgt (fun u i => ((s.una u).map (fun p => s.imgU p i)).prod) s.imgB l
      (Function.update a v i) = Tree.wgt (fun u i => ((s.una u).map (fun p => s.imgU p i)).prod) s.imgB l a := by
    intro l
    induction l with
    | nil => intro _; rfl
    | cons u l ih =>
      intro hl
      have h1 : u ≠ v := fun h => hl (by simp [h])
      have h2 : v ∉ l := fun h => hl (by simp [h])
      simp only [Tree.wgt, Function.update_of_ne h1, ih h2]
      congr 2
      congr 1
      refine List.map_congr_left (fun w hw => ?_)
      rw [Function.update_of_ne (show w ≠ v from fun h => h2 (h ▸ hw))]
  exact this _ (fun h => absurd h (by simp [hn.mem_erase_iff]))

/-- The product of the factors, split between those on a hidden variable and the others. -/
theorem weight_row {s : State (Ext K)} (hs : Core s) (hsep : Separated s) {φ : Nat → Assign → K} (hφ : s.Images φ)
    {a : Assign} (ha : s.Agrees a) {v : Var} (hv : v ∈ s.hid) :
    s.weight φ a = s.rowK v a (a v) * s.otherK v a := by
  obtain ⟨hvv, hvo⟩ := mem_hid.mp hv
  have hn := hs.net.distinct.nodup
  rw [weight_eq hs hφ ha.1, Tree.wgt_perm (fun u w i j => hs.imgB_swap u w i j) (List.perm_cons_erase hvv)]
  simp only [Tree.wgt]
  unfold rowK otherK psiK
  congr 1
  rw [mul_assoc]
  congr 1
  -- the neighbours
  have hp : (s.vars.erase v).Perm (((s.vars.erase v).filter (fun w => decide (w ∈ s.obs))) ++
      ((s.vars.erase v).filter (fun w => !decide (w ∈ s.obs)))) :=
    (List.filter_append_perm _ _).symm
  rw [(hp.map _).prod_eq, List.map_append, List.prod_append]
  have hne : (s.vars.erase v).Nodup := hn.erase v
  congr 1
  · have hq : ((s.vars.erase v).filter (fun w => decide (w ∈ s.obs))).Perm s.obs := by
      rw [List.perm_ext_iff_of_nodup (hne.filter _) hs.obsNodup]
      intro w
      rw [List.mem_filter, hn.mem_erase_iff]
      constructor
      · rintro ⟨_, h⟩; simpa using h
      · intro h
        have : w ∈ s.vars := by
          obtain ⟨k, hk⟩ := AMap.mem_keys.mp h
          exact hs.obsMem w h
        exact ⟨⟨fun h' => hvo (h' ▸ h), this⟩, by simpa using h⟩
    rw [(hq.map _).prod_eq]
    congr 1
    refine List.map_congr_left (fun w hw => ?_)
    rw [ha.ev hw]
  · refine list_prod_subset (hne.filter _) (hs.net.nodup v).1 ?_ ?_
    · intro w hw
      obtain ⟨c, hc⟩ := mem_activeKeys.mp hw
      have hm := hs.net.memL _ _ _ (lnk_of_act hc)
      rw [List.mem_filter, hn.mem_erase_iff]
      refine ⟨⟨hm.2.2.symm, hm.2.1⟩, ?_⟩
      simpa using hsep v w hvo (by rw [hc]; rfl)
    · intro w hw hna
      have hwo : w ∉ s.obs := by simpa using (List.mem_filter.mp hw).2
      have hact : s.act v w = none := by
        cases hc : s.act v w with
        | none => rfl
        | some c => exact absurd (mem_activeKeys.mpr ⟨c, hc⟩) hna
      have hdis : s.dis v w = none := by
        cases hc : s.dis v w with
        | none => rfl
        | some c =>
          rcases hs.disObs v w (by rw [hc]; rfl) with h' | h'
          · exact absurd h' hvo
          · exact absurd h' hwo
      unfold imgB State.lnk
      rw [hact, hdis]
      rfl

theorem rowK_nonneg {s : State (Ext K)} (hs : Core s) (hnum : Numeric s) {v : Var} {a : Assign} (ha : s.InRange a)
    {i : Nat} (hi : i < v.size) : 0 ≤ s.rowK v a i := by
  unfold rowK
  refine mul_nonneg (hnum.psiK_nonneg hs v hi) (list_prod_nonneg ?_)
  intro x hx
  obtain ⟨w, hw, rfl⟩ := List.mem_map.mp hx
  obtain ⟨c, hc⟩ := mem_activeKeys.mp hw
  exact hnum.imgB_nonneg v w hi (ha w (hs.net.memL _ _ _ (lnk_of_act hc)).2.1)

/-- The distribution of an update, from the factors on the variable. -/
theorem updateDistribution_row {s : State (Ext K)} (hs : Core s) (hsep : Separated s)
    (hevid : ∀ u v c k, u ∉ s.obs → s.dis u v = some c → AMap.find? s.evidences v = some k →
      ∃ m, c.message = some m ∧ IsEvid s c.factor v k m)
    (hnum : Numeric s) {ord : List Var → List Var} (hord : ∀ l, (ord l).Perm l) {v : Var} (hv : v ∈ s.hid)
    {nd : SamplerNode (Ext K)} (hnd : NodeOf ord s v nd) {a : Assign} (ha : s.InRange a)
    (hne : ∃ i < v.size, s.rowK v a i ≠ 0) :
    s.updateDistribution nd (nd.deps.map (fun d => a d.sender)) =
      .ok ((List.range v.size).map (fun i => .val (s.rowK v a i / ((List.range v.size).map (s.rowK v a)).sum))) := by
  have hx : List.Forall₂ (fun d x => x < d.sender.size) nd.deps (nd.deps.map (fun d => a d.sender)) := by
    have hd := hnd.dep
    revert hd
    induction nd.deps with
    | nil => intro _; exact .nil
    | cons d ds ih =>
      intro hd
      refine .cons (ha _ (hs.net.memL _ _ _ (hd d (by simp)).2).2.1) (ih (fun e he => hd e (by simp [he])))
  obtain ⟨es, m, ps, h1, h2, h3, h4, h5, h6, _⟩ := updateDistribution_ok hs hnd hx
  obtain ⟨c, hc, hfix⟩ := mergedVal_val hs hsep hevid hnum hv hord hnd.fixed (by
    obtain ⟨i, hi, h⟩ := hne
    exact ⟨i, hi, fun h0 => h (by unfold rowK; rw [h0, zero_mul])⟩)
  -- the product of the evidences
  have hes : ∀ i < v.size, (∀ f ∈ es, (f.timg [i]).IsVal) ∧
      (es.map (fun f => (f.timg [i]).toK)).prod = (nd.deps.map (fun d => s.imgB v d.sender i (a d.sender))).prod := by
    intro i hi
    have hd := hnd.dep
    revert hd h2
    clear h1 h3 hx h6
    generalize nd.deps = ds
    induction ds generalizing es with
    | nil => intro h _; cases h; simp
    | cons d ds ih =>
      intro h hd
      simp only [List.map_cons, List.zip_cons_cons] at h
      cases h with
      | cons hm hrest =>
        rename_i e es
        obtain ⟨g1, g2⟩ := ih es hrest (fun e he => hd e (by simp [he]))
        obtain ⟨_, f, hf, hb, himg⟩ := hm
        have hl := (hd d (by simp)).2
        have hw := ha _ (hs.net.memL _ _ _ hl).2.1
        have hval := (hnum.bin v d.sender _ f hl hf i hi _ hw)
        have e1 : e.timg [i] = Fn.bimg v f i (a d.sender) := himg i hi
        constructor
        · intro g hg
          rcases List.mem_cons.mp hg with rfl | hg
          · rw [e1]; exact hval.1
          · exact g1 g hg
        · simp only [List.map_cons, List.prod_cons, g2]
          congr 1
          rw [e1]
          unfold imgB
          rw [hl]
          simp only
          rw [hf]
  have hact : ∀ i, (nd.deps.map (fun d => s.imgB v d.sender i (a d.sender))).prod =
      ((s.activeKeys v).map (fun w => s.imgB v w i (a w))).prod := by
    intro i
    have : nd.deps.map (fun d => s.imgB v d.sender i (a d.sender)) =
        (nd.deps.map SamplerDep.sender).map (fun w => s.imgB v w i (a w)) := by
      rw [List.map_map]; rfl
    rw [this, hnd.senders, ((hord _).map _).prod_eq]
  have hprod : ∀ i < v.size, Fn.prodImg (nd.fixed :: es) i = .val (c * s.rowK v a i) := by
    intro i hi
    obtain ⟨g1, g2⟩ := hes i hi
    rw [Fn.prodImg_cons_val (hfix i hi) (Fn.prodImg_val g1) g1, g2, hact]
    unfold rowK
    rw [mul_assoc]
  have hun : ∀ f ∈ nd.fixed :: es, f.Unary v := by
    intro f hf
    rcases List.mem_cons.mp hf with rfl | hf
    · exact hnd.unary
    · obtain ⟨i, hi, rfl⟩ := List.getElem_of_mem hf
      have hlen := h2.length_eq
      have := (List.forall₂_iff_get.mp h2).2 i (by omega) hi
      exact this.1
  obtain ⟨m', M, e1, e2, e3, e4, _⟩ := Fn.mergedUnaries_val (v := v) (by simp) hun hprod
    (fun i hi => mul_nonneg hc.le (rowK_nonneg hs hnum ha hi)) (by
      obtain ⟨i, hi, h⟩ := hne
      exact ⟨i, hi, mul_ne_zero hc.ne' h⟩)
  rw [h3] at e1
  cases e1
  have hpos : 0 < ((List.range v.size).map (s.rowK v a)).sum := by
    obtain ⟨i, hi, h⟩ := hne
    have h0 : ∀ x ∈ (List.range v.size).map (s.rowK v a), 0 ≤ x := by
      intro x hx
      obtain ⟨j, hj, rfl⟩ := List.mem_map.mp hx
      exact rowK_nonneg hs hnum ha (by simpa using hj)
    have h1 : s.rowK v a i ≤ ((List.range v.size).map (s.rowK v a)).sum :=
      List.single_le_sum h0 _ (List.mem_map.mpr ⟨i, by simpa using hi, rfl⟩)
    exact lt_of_lt_of_le (lt_of_le_of_ne (rowK_nonneg hs hnum ha hi) (Ne.symm h)) h1
  have hcM : c / M ≠ 0 := (div_pos hc e3).ne'
  have hsum : ((List.range v.size).map (fun i => c * s.rowK v a i / M)).sum =
      c / M * ((List.range v.size).map (s.rowK v a)).sum := by
    rw [← List.sum_map_mul_left]
    congr 1
    refine List.map_congr_left (fun i _ => ?_)
    ring
  have hps := e2.probabilities_val (G := fun i => c * s.rowK v a i / M) e4 (by
    rw [hsum]; exact mul_ne_zero hcM hpos.ne')
  rw [h6]
  rw [h5] at hps
  rw [hps]
  congr 1
  refine List.map_congr_left (fun i _ => ?_)
  rw [hsum]
  congr 1
  have : c * s.rowK v a i / M = c / M * s.rowK v a i := by ring
  rw [this, mul_div_mul_left _ _ hcM]

theorem Agrees.update {s : State (Ext K)} {a : Assign} (ha : s.Agrees a) {v : Var} (hv : v ∈ s.hid) {i : Nat}
    (hi : i < v.size) : s.Agrees (Function.update a v i) := by
  constructor
  · intro w hw
    by_cases h : w = v
    · subst h; rw [Function.update_self]; exact hi
    · rw [Function.update_of_ne h]; exact ha.1 w hw
  · intro w k hk
    have : w ≠ v := fun h => (mem_hid.mp hv).2 (h ▸ List.mem_map.mpr ⟨_, hk, rfl⟩)
    rw [Function.update_of_ne this]
    exact ha.2 w k hk

/-- The distribution of an update is the conditional distribution of the variable. -/
theorem updateDistribution_conditional {s : State (Ext K)} (hs : Core s) (hsep : Separated s)
    (hevid : ∀ u v c k, u ∉ s.obs → s.dis u v = some c → AMap.find? s.evidences v = some k →
      ∃ m, c.message = some m ∧ IsEvid s c.factor v k m)
    {φ : Nat → Assign → K} (hφ : s.Images φ) {ord : List Var → List Var} (hord : ∀ l, (ord l).Perm l) {v : Var}
    (hv : v ∈ s.hid) {nd : SamplerNode (Ext K)} (hnd : NodeOf ord s v nd) {a : Assign} (ha : s.Agrees a)
    (hne : ∃ i < v.size, s.weight φ (Function.update a v i) ≠ 0) :
    s.updateDistribution nd (nd.deps.map (fun d => a d.sender)) =
      .ok ((List.range v.size).map (fun i => .val (s.weight φ (Function.update a v i) /
        ((List.range v.size).map (fun j => s.weight φ (Function.update a v j))).sum))) := by
  have hrow : ∀ i < v.size, s.weight φ (Function.update a v i) = s.rowK v a i * s.otherK v a := by
    intro i hi
    rw [weight_row hs hsep hφ (ha.update hv hi) hv, otherK_update hs, Function.update_self]
    congr 1
    unfold rowK
    congr 2
    refine List.map_congr_left (fun w hw => ?_)
    obtain ⟨c, hc⟩ := mem_activeKeys.mp hw
    rw [Function.update_of_ne (hs.net.memL _ _ _ (lnk_of_act hc)).2.2.symm]
  obtain ⟨i0, hi0, hne0⟩ := hne
  rw [hrow i0 hi0] at hne0
  have hother : s.otherK v a ≠ 0 := right_ne_zero_of_mul hne0
  rw [updateDistribution_row hs hsep hevid (hφ.numeric hs) hord hv hnd ha.1 ⟨i0, hi0, left_ne_zero_of_mul hne0⟩]
  have hsum : ((List.range v.size).map (fun j => s.weight φ (Function.update a v j))).sum =
      ((List.range v.size).map (s.rowK v a)).sum * s.otherK v a := by
    rw [← List.sum_map_mul_right]
    congr 1
    exact List.map_congr_left (fun i hi => hrow i (by simpa using hi))
  congr 1
  refine List.map_congr_left (fun i hi => ?_)
  rw [hsum, hrow i (by simpa using hi), mul_div_mul_right _ _ hother]

end State
end EFG
