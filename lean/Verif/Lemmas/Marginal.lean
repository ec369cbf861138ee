import Verif.Spec.Weight
import Verif.Lemmas.Weight
/-
The beliefs after an exact propagation are the marginals of the product of the factors, as the library
reads them.
-/

set_option linter.unusedSectionVars false

namespace EFG
namespace State
variable {K : Type} [Field K] [LinearOrder K] [IsStrictOrderedRing K] [Arith (Ext K)]
variable {kind : Kind} {R : Type} [CommSemiring R]

open Classical in
/-- The factor which joins two hidden variables, as the library reads it. -/
noncomputable def edgeK (s : State (Ext K)) (u w : Var) (i j : Nat) : K :=
  if s.adj u w then s.imgB u w j i else 1

/-- The weight of the hidden variables. -/
noncomputable def codeK (s : State (Ext K)) (a : Assign) : K := Tree.wgt s.psiK s.edgeK s.hid a

open Classical in
/-- The factor which joins two hidden variables, as the library reads it for a joint distribution. -/
noncomputable def edgeIn (s : State (Ext K)) (G : List Var) (u w : Var) (i j : Nat) : K :=
  if s.adj u w then (if u ∈ G ∧ w ∈ G then s.imgB u w i j else s.imgB u w j i) else 1

/-- The weight of the hidden variables, as the library reads the factors for a joint distribution. -/
noncomputable def codeIn (s : State (Ext K)) (G : List Var) (a : Assign) : K := Tree.wgt s.psiK (s.edgeIn G) s.hid a

theorem codeIn_nil (s : State (Ext K)) (a : Assign) : s.codeIn [] a = s.codeK a := by
  have : s.edgeIn [] = s.edgeK := by
    funext u w i j
    unfold edgeIn edgeK
    simp
  unfold codeIn codeK
  rw [this]

theorem readWeightIn_nil (s : State (Ext K)) (φ : Nat → Assign → K) (a : Assign) :
    s.readWeightIn [] φ a = s.readWeight φ a := by
  unfold readWeightIn readWeight
  congr 1
  refine List.map_congr_left (fun p _ => ?_)
  congr 1
  unfold readAtIn readAt
  cases s.heap[p]? with
  | none => rfl
  | some f =>
    simp only
    split
    · rename_i u w _
      by_cases h : s.Hidden u ∧ s.Hidden w
      · rw [if_pos h, if_pos ⟨h, by simp⟩]
      · rw [if_neg h, if_neg (fun h' => h h'.1)]
    · rfl

/-- What the observed variables contribute. -/
def restK (s : State (Ext K)) (a : Assign) : K :=
  Tree.wgt (fun u i => ((s.una u).map (fun p => s.imgU p i)).prod) s.imgB s.obs a

theorem codeK_eq (q : Quant kind K R) {s : State (Ext K)} (hH : Healthy s) (hN : Numeric s) {a : Assign}
    (ha : s.InRange a) : q.toK (Tree.wgt (s.psiR q) (s.edgeR q) s.hid a) = s.codeK a := by
  have hs := hH.inv.toCore
  rw [q.wgt]
  refine Tree.wgt_congr (hid_nodup hs.net) ?_ ?_
  · intro u hu
    exact q.toK_ofK _ (hN.psiK_nonneg hs u (ha u (mem_hid.mp hu).1))
  · intro u hu w hw _
    unfold edgeR edgeK
    by_cases h : s.adj u w
    · rw [if_pos h, if_pos h]
      have hsz := hH.flow.sq u w (mem_hid.mp hu).2 (mem_hid.mp hw).2 h.2.2
      have h1 := ha u (mem_hid.mp hu).1
      have h2 := ha w (mem_hid.mp hw).1
      exact q.toK_ofK _ (hN.imgB_nonneg u w (by omega) (by omega))
    · rw [if_neg h, if_neg h, q.one]

open Classical in
/-- The factor which joins two hidden variables, as the library reads it for a joint distribution. -/
noncomputable def edgeRIn (q : Quant kind K R) (s : State (Ext K)) (G : List Var) (u w : Var) (i j : Nat) : R :=
  if s.adj u w then q.ofK (if u ∈ G ∧ w ∈ G then s.imgB u w i j else s.imgB u w j i) else 1

theorem Core.edgeRIn_symm {s : State (Ext K)} (hs : Core s) (q : Quant kind K R) (G : List Var) (u w : Var) (i j : Nat) :
    s.edgeRIn q G u w i j = s.edgeRIn q G w u j i := by
  unfold edgeRIn
  by_cases h : s.adj u w
  · rw [if_pos h, if_pos (hs.adj_symm h)]
    by_cases hG : u ∈ G ∧ w ∈ G
    · rw [if_pos hG, if_pos hG.symm, hs.imgB_swap]
    · rw [if_neg hG, if_neg (fun h' => hG h'.symm), hs.imgB_swap]
  · rw [if_neg h, if_neg (fun h' => h (hs.adj_symm h'))]

theorem edgeRIn_out {s : State (Ext K)} (q : Quant kind K R) {G : List Var} {u w : Var}
    (h : ¬(u ∈ G ∧ u ∈ s.hid ∧ w ∈ G ∧ w ∈ s.hid)) (i j : Nat) : s.edgeRIn q G u w i j = s.edgeR q u w i j := by
  unfold edgeRIn edgeR
  by_cases ha : s.adj u w
  · rw [if_pos ha, if_pos ha, if_neg (fun h' => h ⟨h'.1, ha.1, h'.2, ha.2.1⟩)]
  · rw [if_neg ha, if_neg ha]

theorem codeIn_eq (q : Quant kind K R) {s : State (Ext K)} (hH : Healthy s) (hN : Numeric s) (G : List Var) {a : Assign}
    (ha : s.InRange a) : q.toK (Tree.wgt (s.psiR q) (s.edgeRIn q G) s.hid a) = s.codeIn G a := by
  have hs := hH.inv.toCore
  rw [q.wgt]
  refine Tree.wgt_congr (hid_nodup hs.net) ?_ ?_
  · intro u hu
    exact q.toK_ofK _ (hN.psiK_nonneg hs u (ha u (mem_hid.mp hu).1))
  · intro u hu w hw _
    unfold edgeRIn edgeIn
    by_cases h : s.adj u w
    · rw [if_pos h, if_pos h]
      have hsz := hH.flow.sq u w (mem_hid.mp hu).2 (mem_hid.mp hw).2 h.2.2
      have h1 := ha u (mem_hid.mp hu).1
      have h2 := ha w (mem_hid.mp hw).1
      refine q.toK_ofK _ ?_
      split <;> exact hN.imgB_nonneg u w (by omega) (by omega)
    · rw [if_neg h, if_neg h, q.one]

theorem Images.valued {s : State (Ext K)} {φ : Nat → Assign → K} (h : s.Images φ) (hs : Core s) {Q : K → Prop}
    (hQ : ∀ p ∈ s.factors, ∀ a, s.InRange a → Q (φ p a)) : s.Valued Q where
  una u p f hp hf i hi := by
    obtain ⟨h1, h2, f', hf', hu⟩ := hs.unary u p hp
    rw [hf] at hf'
    cases hf'
    have hrange : ∀ w ∈ s.vars, (fun w => if w = u then i else 0) w < w.size := by
      intro w hw
      by_cases hwu : w = u
      · simp only [hwu, if_true]; exact hi
      · simp only [hwu, if_false]; exact hs.posV w hw
    obtain ⟨f', hf', e1, _⟩ := h p h1 (fun w => if w = u then i else 0) hrange
    have e2 := hQ p h1 _ hrange
    rw [hf] at hf'
    cases hf'
    rw [hu.vars] at e1
    simp only [List.map_cons, List.map_nil, if_true] at e1
    rw [hu.find hi] at e1
    simp only [Res.ok.injEq] at e1
    rw [e1]
    exact ⟨Ext.isVal_val _, e2⟩
  bin u w p f hl hf i hi j hj := by
    obtain ⟨h1, f', hf', hb⟩ := hs.link u w p hl
    rw [hf] at hf'
    cases hf'
    have hne := hb.ne
    have hrange : ∀ z ∈ s.vars, (fun z => if z = u then i else if z = w then j else 0) z < z.size := by
      intro z hz
      simp only
      split
      · rename_i h; rw [h]; exact hi
      · split
        · rename_i h; rw [h]; exact hj
        · exact hs.posV z hz
    obtain ⟨f', hf', e1, _⟩ := h p h1 (fun z => if z = u then i else if z = w then j else 0) hrange
    have e2 := hQ p h1 _ hrange
    rw [hf] at hf'
    cases hf'
    rw [hb.wf.findTransformed] at e1
    · have := hb.bimg_map (fun z => if z = u then i else if z = w then j else 0)
      simp only [if_true, if_neg hne.symm] at this
      rw [this] at e1
      simp only [Res.ok.injEq] at e1
      rw [e1]
      exact ⟨Ext.isVal_val _, e2⟩
    · rw [hb.wf.valid_map]
      intro z hz
      have : z = u ∨ z = w := by
        rcases hb.vars with h | h <;> rw [h] at hz <;> simp at hz
        · exact hz
        · exact hz.symm
      have hmem := hs.net.memL _ _ _ hl
      rcases this with rfl | rfl
      · exact hrange _ hmem.1
      · exact hrange _ hmem.2.1

theorem Images.numeric {s : State (Ext K)} {φ : Nat → Assign → K} (h : s.Images φ) (hs : Core s) : Numeric s :=
  h.valued hs fun p hp a ha => by
    obtain ⟨_, _, _, e2⟩ := h p hp a ha
    exact e2

theorem Core.vars_perm {s : State (Ext K)} (hs : Core s) : s.vars.Perm (s.hid ++ s.obs) := by
  rw [List.perm_ext_iff_of_nodup hs.net.distinct.nodup]
  · intro v
    rw [List.mem_append, mem_hid]
    constructor
    · intro h
      by_cases ho : v ∈ s.obs
      · exact Or.inr ho
      · exact Or.inl ⟨h, ho⟩
    · rintro (h | h)
      · exact h.1
      · exact hs.obsMem v h
  · rw [List.nodup_append]
    refine ⟨hid_nodup hs.net, hs.obsNodup, ?_⟩
    intro v hv w hw h
    subst h
    exact (mem_hid.mp hv).2 hw

/-- The image of a factor which belongs to one variable. -/
theorem Images.una {s : State (Ext K)} {φ : Nat → Assign → K} (h : s.Images φ) (hs : Core s) {u : Var} {p : Nat}
    (hp : p ∈ s.una u) {a : Assign} (ha : s.InRange a) : φ p a = s.imgU p (a u) := by
  obtain ⟨h1, h2, f, hf, hu⟩ := hs.unary u p hp
  obtain ⟨f', hf', e1, _⟩ := h p h1 a ha
  rw [hf] at hf'
  cases hf'
  rw [hu.vars] at e1
  simp only [List.map_cons, List.map_nil] at e1
  rw [hu.find (ha u h2)] at e1
  simp only [Res.ok.injEq] at e1
  unfold imgU
  rw [hf]
  simp only
  rw [e1, Ext.toK_val]

/-- The image of a factor which joins two variables. -/
theorem Images.bin {s : State (Ext K)} {φ : Nat → Assign → K} (h : s.Images φ) (hs : Core s) {u w : Var} {p : Nat}
    (hl : s.lnk u w = some p) {a : Assign} (ha : s.InRange a) : φ p a = s.imgB u w (a u) (a w) := by
  obtain ⟨h1, f, hf, hb⟩ := hs.link u w p hl
  obtain ⟨f', hf', e1, _⟩ := h p h1 a ha
  rw [hf] at hf'
  cases hf'
  rw [hb.wf.findTransformed] at e1
  · rw [hb.bimg_map a] at e1
    simp only [Res.ok.injEq] at e1
    unfold imgB
    rw [hl]
    simp only
    rw [hf]
    simp only
    rw [e1, Ext.toK_val]
  · rw [hb.wf.valid_map]
    intro z hz
    have : z = u ∨ z = w := by
      rcases hb.vars with h | h <;> rw [h] at hz <;> simp at hz
      · exact hz
      · exact hz.symm
    have hmem := hs.net.memL _ _ _ hl
    rcases this with rfl | rfl
    · exact ha _ hmem.1
    · exact ha _ hmem.2.1

theorem Healthy.exchange {s : State (Ext K)} (hH : Healthy s) {u w : Var} {p : Nat} (hl : s.lnk u w = some p)
    {a : Assign} (ha : s.InRange a) : s.InRange (a.exchange u w) := by
  have hsz := hH.sizes u w (by rw [hl]; rfl)
  have hmem := hH.inv.net.memL _ _ _ hl
  intro z hz
  unfold Assign.exchange
  split
  · rename_i h; rw [h, hsz]; exact ha w hmem.2.1
  · split
    · rename_i h; rw [h, ← hsz]; exact ha u hmem.1
    · exact ha z hz

theorem Agrees.ev {s : State (Ext K)} {a : Assign} (ha : s.Agrees a) {w : Var} (hw : w ∈ s.obs) : a w = s.ev w := by
  obtain ⟨k, hk⟩ := AMap.mem_keys.mp hw
  unfold State.ev
  rw [hk]
  exact ha.2 w k (AMap.find?_mem hk)

/-- The product of the factors as the library reads them, for a joint distribution, split between the
hidden and the observed variables. -/
theorem readWeightIn_eq {s : State (Ext K)} (hH : Healthy s) (G : List Var) {φ : Nat → Assign → K} (hφ : s.Images φ) {a : Assign}
    (ha : s.Agrees a) : s.readWeightIn G φ a = s.codeIn G a * s.restK a := by
  have hs := hH.inv.toCore
  have hvn := hs.net.distinct.nodup
  set ψ0 : Var → Nat → K := fun u i => ((s.una u).map (fun p => s.imgU p i)).prod with hψ0
  set E' : Var → Var → Nat → Nat → K := fun u w i j =>
    if (u ∈ s.hid ∧ w ∈ s.hid) ∧ ¬(u ∈ G ∧ w ∈ G) then s.imgB u w j i else s.imgB u w i j with hE'
  have hEs : ∀ u w i j, E' u w i j = E' w u j i := by
    intro u w i j
    simp only [hE']
    by_cases h : (u ∈ s.hid ∧ w ∈ s.hid) ∧ ¬(u ∈ G ∧ w ∈ G)
    · rw [if_pos h, if_pos ⟨h.1.symm, fun h' => h.2 h'.symm⟩, hs.imgB_swap]
    · rw [if_neg h, if_neg (fun h' => h ⟨h'.1.symm, fun h'' => h'.2 h''.symm⟩), hs.imgB_swap]
  have h1 : s.readWeightIn G φ a = Tree.wgt ψ0 E' s.vars a := by
    unfold readWeightIn
    rw [hs.prod_factors _ a]
    refine Tree.wgt_congr hvn ?_ ?_
    · intro u _
      simp only [hψ0]
      congr 1
      refine List.map_congr_left (fun p hp => ?_)
      obtain ⟨_, _, f, hf, hu⟩ := hs.unary u p hp
      have : s.readAtIn G p a = a := by
        unfold readAtIn
        rw [hf]
        simp only
        rw [hu.vars]
      rw [this]
      exact hφ.una hs hp ha.1
    · intro u _ w _ _
      simp only [hE']
      cases hl : s.lnk u w with
      | none =>
        have : ∀ i j, s.imgB u w i j = 1 := by intro i j; unfold imgB; rw [hl]
        simp [this]
      | some p =>
        simp only
        obtain ⟨_, f, hf, hb⟩ := hs.link u w p hl
        have hne := hb.ne
        by_cases h : (u ∈ s.hid ∧ w ∈ s.hid) ∧ ¬(u ∈ G ∧ w ∈ G)
        · rw [if_pos h]
          have hr : s.InRange (s.readAtIn G p a) ∧ s.readAtIn G p a u = a w ∧ s.readAtIn G p a w = a u := by
            unfold readAtIn
            rw [hf]
            simp only
            have hh : s.Hidden u ∧ s.Hidden w := ⟨hidden_iff.mpr h.1.1, hidden_iff.mpr h.1.2⟩
            rcases hb.vars with hv | hv
            · rw [hv]
              simp only
              rw [if_pos ⟨hh, h.2⟩]
              exact ⟨hH.exchange hl ha.1, by simp [Assign.exchange], by simp [Assign.exchange, hne.symm]⟩
            · rw [hv]
              simp only
              rw [if_pos ⟨hh.symm, fun h' => h.2 h'.symm⟩]
              exact ⟨hH.exchange (by rw [hs.net.symL]; exact hl) ha.1, by simp [Assign.exchange, hne],
                by simp [Assign.exchange]⟩
          rw [hφ.bin hs hl hr.1, hr.2.1, hr.2.2]
        · rw [if_neg h]
          have hr : s.readAtIn G p a = a := by
            unfold readAtIn
            rw [hf]
            simp only
            rcases hb.vars with hv | hv
            · rw [hv]
              simp only
              rw [if_neg (fun hh => h ⟨⟨hidden_iff.mp hh.1.1, hidden_iff.mp hh.1.2⟩, hh.2⟩)]
            · rw [hv]
              simp only
              rw [if_neg (fun hh => h ⟨⟨hidden_iff.mp hh.1.2, hidden_iff.mp hh.1.1⟩, fun h' => hh.2 h'.symm⟩)]
          rw [hr]
          exact hφ.bin hs hl ha.1
  rw [h1, Tree.wgt_perm hEs hs.vars_perm, Tree.wgt_append]
  congr 1
  · refine Tree.wgt_congr (hid_nodup hs.net) ?_ ?_
    · intro u hu
      simp only [psiK, hψ0]
      congr 1
      congr 1
      refine List.map_congr_left (fun w hw => ?_)
      simp only [hE']
      rw [if_neg (fun h => (mem_hid.mp h.1.2).2 hw), ha.ev hw]
    · intro u hu w hw hne
      simp only [hE', edgeIn]
      by_cases h : s.adj u w
      · rw [if_pos h]
        by_cases hG : u ∈ G ∧ w ∈ G
        · rw [if_pos hG, if_neg (fun h' => h'.2 hG)]
        · rw [if_neg hG, if_pos ⟨⟨hu, hw⟩, hG⟩]
      · rw [if_neg h]
        have hact : s.act u w = none := by
          cases hc : s.act u w with
          | none => rfl
          | some c => exact absurd ⟨hu, hw, by rw [hc]; rfl⟩ h
        have hdis : s.dis u w = none := by
          cases hc : s.dis u w with
          | none => rfl
          | some c =>
            rcases hs.disObs u w (by rw [hc]; rfl) with h' | h'
            · exact absurd h' (mem_hid.mp hu).2
            · exact absurd h' (mem_hid.mp hw).2
        have hone : ∀ i j, s.imgB u w i j = 1 := by
          intro i j
          unfold imgB State.lnk
          rw [hact, hdis]
          rfl
        simp only [hone, ite_self]
  · refine Tree.wgt_congr hs.obsNodup (fun _ _ => rfl) ?_
    intro u hu w hw _
    simp only [hE']
    rw [if_neg (fun h => (mem_hid.mp h.1.1).2 hu)]

/-- The product of the factors as the library reads them, split between the hidden and the observed
variables. -/
theorem readWeight_eq {s : State (Ext K)} (hH : Healthy s) {φ : Nat → Assign → K} (hφ : s.Images φ) {a : Assign}
    (ha : s.Agrees a) : s.readWeight φ a = s.codeK a * s.restK a := by
  rw [← readWeightIn_nil, ← codeIn_nil, readWeightIn_eq hH [] hφ ha]

end State
end EFG
