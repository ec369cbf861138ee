import Mathlib.Analysis.SpecialFunctions.ExpDeriv
import Mathlib.Analysis.SpecialFunctions.Log.Deriv
import Verif.Spec.Likelihood
import Verif.Lemmas.Gradient
/-
The derivative of the likelihood with respect to the weight of a cluster.
-/

set_option linter.unusedSectionVars false

namespace EFG

/-! ### Derivatives of sums -/

theorem Tree.sumOver_hasDerivAt {f : ℝ → Assign → ℝ} {f' : Assign → ℝ} {x : ℝ} (l : List Var) : ∀ (e : Assign),
    (∀ b, (∀ u, u ∉ l → b u = e u) → (∀ u ∈ l, b u < u.size) → HasDerivAt (fun y => f y b) (f' b) x) →
    HasDerivAt (fun y => Tree.sumOver Var.size l (f y) e) (Tree.sumOver Var.size l f' e) x := by
  induction l with
  | nil => intro e h; exact h e (fun _ _ => rfl) (by simp)
  | cons v l ih =>
    intro e h
    simp only [Tree.sumOver]
    refine HasDerivAt.fun_sum (fun i hi => ih _ (fun b h1 h2 => h b ?_ ?_))
    · intro u hu
      rw [List.mem_cons, not_or] at hu
      rw [h1 u hu.2, Function.update_of_ne hu.1]
    · intro u hu
      by_cases hl : u ∈ l
      · exact h2 u hl
      · rcases List.mem_cons.mp hu with rfl | h'
        · rw [h1 u hl, Function.update_self]; exact Finset.mem_range.mp hi
        · exact absurd h' hl

theorem list_hasDerivAt {α : Type} {f : α → ℝ → ℝ} {f' : α → ℝ} {x : ℝ} (l : List α)
    (h : ∀ a ∈ l, HasDerivAt (f a) (f' a) x) :
    HasDerivAt (fun y => (l.map (fun a => f a y)).sum) (l.map f').sum x := by
  induction l with
  | nil => simpa using hasDerivAt_const x (0 : ℝ)
  | cons a l ih =>
    simp only [List.map_cons, List.sum_cons]
    exact (h a (by simp)).add (ih (fun b hb => h b (by simp [hb])))

namespace State

theorem imageAt_eq {K : Type} [Field K] [LinearOrder K] [FloatParams K] {s : State (Ext K)} {φ : Nat → Assign → K}
    (hφ : s.Images φ) {p : Nat} (hp : p ∈ s.factors) {a : Assign} (ha : s.InRange a) : s.imageAt p a = φ p a := by
  obtain ⟨f, h1, h2, _⟩ := hφ p hp a ha
  unfold imageAt
  rw [h1]
  simp only
  rw [h2]

variable [FloatParams ℝ]

/-- The images of the factors after setting the weight of one cluster. -/
theorem reweighed_image {s : State (Ext ℝ)} (hexp : ∀ x : ℝ, FloatParams.expK x = Real.exp x) (ht : Weighted s)
    (hsh : s.Shared) {φ ρ : Nat → Assign → ℝ} (hφ : s.Images φ) (hρ : s.RawImages ρ) {xs : List ℝ}
    (hxs : s.getWeights = .ok (xs.map .val)) {k : Nat} {c : List Nat} (hc : s.tunableClusters[k]? = some c) (y : ℝ) :
    (s.reweighed (xs.set k y)).vars = s.vars ∧ (s.reweighed (xs.set k y)).factors = s.factors ∧
    ∀ p ∈ s.factors, ∀ a, s.InRange a →
      (s.reweighed (xs.set k y)).imageAt p a = if p ∈ c then Real.exp (y * ρ p a) else φ p a := by
  have hf2 := Res.mapList_eq_ok.mp hxs
  have hlen : xs.length = s.tuners.length := by
    have := hf2.length_eq
    simpa using this.symm
  obtain ⟨t, h1, h2, h3, h4, h5, _⟩ := setWeights_ok ht (ws := (xs.set k y).map Ext.val) (by simpa using hlen)
  have hr : s.reweighed (xs.set k y) = t := by unfold reweighed; rw [h1]
  rw [hr]
  refine ⟨by rw [h2], by rw [h2], ?_⟩
  intro p hp a ha
  obtain ⟨tk, htk, rfl⟩ : ∃ tk, s.tuners[k]? = some tk ∧ tk.map BaseTuner.factor = c := by
    unfold tunableClusters at hc
    rw [List.getElem?_map] at hc
    cases h : s.tuners[k]? with
    | none => rw [h] at hc; cases hc
    | some tk => rw [h] at hc; cases hc; exact ⟨tk, rfl, rfl⟩
  have hk : k < xs.length := by rw [hlen]; exact (List.getElem?_eq_some_iff.mp htk).1
  obtain ⟨f, f1, f2, _⟩ := hφ p hp a ha
  by_cases hpc : p ∈ tk.map BaseTuner.factor
  · rw [if_pos hpc]
    obtain ⟨b, hb, rfl⟩ := List.mem_map.mp hpc
    have hw := h4 k tk (.val y) htk (by simp [hk]) b hb
    rcases h3 b.factor with ⟨e1, _⟩ | ⟨g, w, e1, e2, _⟩
    · rw [f1] at e1; cases e1
    · rw [f1] at e1
      cases e1
      unfold weightOf at hw
      rw [e2] at hw
      cases w with
      | none => cases hw
      | some w =>
        cases hw
        have hreg := ht.mem (List.mem_of_getElem? htk) hb
        obtain ⟨f', g1, g2⟩ := hρ b.factor hreg a ha
        rw [f1] at g1
        cases g1
        unfold imageAt
        rw [e2]
        simp only
        have : Fn.findTransformed ({ f with weight := some (.val y) } : Fn (Ext ℝ)) (f.vars.group.map a) =
            .ok (.val (Real.exp (y * ρ b.factor a))) := by
          unfold Fn.findTransformed
          rw [show Fn.findImage ({ f with weight := some (.val y) } : Fn (Ext ℝ)) (f.vars.group.map a) =
            f.findImage (f.vars.group.map a) from rfl, g2]
          simp only [Fn.transform, Ext.mul_val, Ext.exp_val, hexp]
        rw [this]
  · rw [if_neg hpc]
    have hheap : t.heap[p]? = s.heap[p]? := by
      by_cases hfl : p ∈ s.tuners.flatten.map BaseTuner.factor
      · obtain ⟨b, hb, rfl⟩ := List.mem_map.mp hfl
        obtain ⟨tj, htj, hbj⟩ := List.mem_flatten.mp hb
        obtain ⟨j, hj, hjt⟩ := List.getElem_of_mem htj
        have hjk : j ≠ k := by
          rintro rfl
          rw [List.getElem?_eq_getElem hj, hjt] at htk
          cases htk
          exact hpc (List.mem_map.mpr ⟨b, hbj, rfl⟩)
        have hjx : j < xs.length := by rw [hlen]; exact hj
        have hw := h4 j tj (.val xs[j]) (by rw [List.getElem?_eq_getElem hj, hjt]) (by
          rw [List.getElem?_map, List.getElem?_set_ne hjk.symm, List.getElem?_eq_getElem hjx]
          rfl) b hbj
        have hws : s.weightOf b.factor = .ok (.val xs[j]) := by
          have h6 := List.Forall₂.get hf2 hj (by simpa using hjx)
          simp only [List.get_eq_getElem, List.getElem_map] at h6
          rw [hjt] at h6
          cases tj with
          | nil => cases hbj
          | cons d tj =>
            rw [hsh (d :: tj) htj b hbj d (by simp)]
            exact h6
        rcases h3 b.factor with ⟨e1, _⟩ | ⟨g, w, e1, e2, _⟩
        · rw [f1] at e1; cases e1
        · rw [f1] at e1
          cases e1
          unfold weightOf at hw hws
          rw [e2] at hw
          rw [f1] at hws
          rw [e2, f1]
          cases w with
          | none => cases hw
          | some w =>
            cases hw
            have : f.weight = some (.val xs[j]) := by
              cases hx : f.weight with
              | none => simp only [hx, Res.ofOption] at hws; cases hws
              | some w => simp only [hx, Res.ofOption] at hws; cases hws; rfl
            rw [← this]
      · exact h5 p hfl
    unfold imageAt
    rw [hheap, f1]
    simp only
    rw [f2]

theorem perm_cluster {s : State (Ext ℝ)} (hs : Core s) (ht : Weighted s) {k : Nat} {c : List Nat}
    (hc : s.tunableClusters[k]? = some c) : s.factors.Perm (c ++ s.factors.filter (fun p => !decide (p ∈ c))) := by
  have hcm := List.mem_of_getElem? hc
  have hnd : c.Nodup := by
    have h := ht.nodup
    rw [List.map_flatten] at h
    exact (List.nodup_flatten.mp h).1 c hcm
  rw [List.perm_ext_iff_of_nodup hs.facNodup]
  · intro p
    simp only [List.mem_append, List.mem_filter, Bool.not_eq_true', decide_eq_false_iff_not]
    constructor
    · intro h
      by_cases hpc : p ∈ c
      · exact Or.inl hpc
      · exact Or.inr ⟨h, hpc⟩
    · rintro (h | h)
      · obtain ⟨t, htm, rfl⟩ := List.mem_map.mp hcm
        obtain ⟨b, hb, rfl⟩ := List.mem_map.mp h
        exact ht.reg _ (ht.mem htm hb)
      · exact h.1
  · refine List.nodup_append.2 ⟨hnd, hs.facNodup.filter _, ?_⟩
    intro p hp q hq h
    subst h
    simp only [List.mem_filter, Bool.not_eq_true', decide_eq_false_iff_not] at hq
    exact hq.2 hp

/-- The weight of an assignment after setting the weight of one cluster. -/
theorem reweighed_weight {s : State (Ext ℝ)} (hexp : ∀ x : ℝ, FloatParams.expK x = Real.exp x) (hs : Core s)
    (ht : Weighted s) (hsh : s.Shared) {φ ρ : Nat → Assign → ℝ} (hφ : s.Images φ) (hρ : s.RawImages ρ) {xs : List ℝ}
    (hxs : s.getWeights = .ok (xs.map .val)) {k : Nat} {c : List Nat} (hc : s.tunableClusters[k]? = some c) (y : ℝ)
    {a : Assign} (ha : s.InRange a) :
    (s.reweighed (xs.set k y)).weight (s.reweighed (xs.set k y)).imageAt a =
      ((s.factors.filter (fun p => !decide (p ∈ c))).map (fun p => φ p a)).prod * Real.exp (y * statistic ρ c a) := by
  obtain ⟨h1, h2, h3⟩ := reweighed_image hexp ht hsh hφ hρ hxs hc y
  unfold weight
  have hperm := perm_cluster hs ht hc
  rw [h2, (hperm.map _).prod_eq, List.map_append, List.prod_append, mul_comm]
  have hsub : ∀ p ∈ c, p ∈ s.factors := fun p hp => hperm.mem_iff.mpr (List.mem_append_left _ hp)
  congr 1
  · congr 1
    refine List.map_congr_left (fun p hp => ?_)
    simp only [List.mem_filter, Bool.not_eq_true', decide_eq_false_iff_not] at hp
    rw [h3 p hp.1 a ha, if_neg hp.2]
  · unfold statistic
    have : c.map (fun p => (s.reweighed (xs.set k y)).imageAt p a) = c.map (fun p => Real.exp (y * ρ p a)) :=
      List.map_congr_left (fun p hp => by rw [h3 p (hsub p hp) a ha, if_pos hp])
    rw [this, ← List.sum_map_mul_left, Real.exp_list_sum, List.map_map]
    rfl

/-- The weight of an assignment, with the cluster set apart. -/
theorem weight_self {s : State (Ext ℝ)} (hexp : ∀ x : ℝ, FloatParams.expK x = Real.exp x) (hs : Core s)
    (ht : Weighted s) (hsh : s.Shared) {φ ρ : Nat → Assign → ℝ} (hφ : s.Images φ) (hρ : s.RawImages ρ) {xs : List ℝ}
    (hxs : s.getWeights = .ok (xs.map .val)) {k : Nat} {c : List Nat} (hc : s.tunableClusters[k]? = some c) {x : ℝ}
    (hx : xs[k]? = some x) {a : Assign} (ha : s.InRange a) :
    s.weight φ a = ((s.factors.filter (fun p => !decide (p ∈ c))).map (fun p => φ p a)).prod *
      Real.exp (x * statistic ρ c a) := by
  rw [← reweighed_weight hexp hs ht hsh hφ hρ hxs hc x ha]
  obtain ⟨h1, h2, h3⟩ := reweighed_image hexp ht hsh hφ hρ hxs hc x
  unfold weight
  rw [h2]
  congr 1
  refine List.map_congr_left (fun p hp => ?_)
  rw [h3 p hp a ha]
  by_cases hpc : p ∈ c
  · rw [if_pos hpc]
    obtain ⟨tk, htk, rfl⟩ : ∃ tk, s.tuners[k]? = some tk ∧ tk.map BaseTuner.factor = c := by
      unfold tunableClusters at hc
      rw [List.getElem?_map] at hc
      cases h : s.tuners[k]? with
      | none => rw [h] at hc; cases hc
      | some tk => rw [h] at hc; cases hc; exact ⟨tk, rfl, rfl⟩
    obtain ⟨b, hb, rfl⟩ := List.mem_map.mp hpc
    have hf2 := Res.mapList_eq_ok.mp hxs
    obtain ⟨hk1, hk2⟩ := List.getElem?_eq_some_iff.mp htk
    obtain ⟨hk3, hk4⟩ := List.getElem?_eq_some_iff.mp hx
    have h6 := List.Forall₂.get hf2 hk1 (by simpa using hk3)
    simp only [List.get_eq_getElem, List.getElem_map] at h6
    rw [hk2, hk4] at h6
    have hws : s.weightOf b.factor = .ok (.val x) := by
      cases tk with
      | nil => cases hb
      | cons d tj =>
        rw [hsh (d :: tj) (List.mem_of_getElem? htk) b hb d (by simp)]
        exact h6
    obtain ⟨f, f1, f2, _⟩ := hφ b.factor hp a ha
    obtain ⟨f', g1, g2⟩ := hρ b.factor (ht.mem (List.mem_of_getElem? htk) hb) a ha
    rw [f1] at g1
    cases g1
    unfold weightOf at hws
    rw [f1] at hws
    have : f.weight = some (.val x) := by
      cases hx : f.weight with
      | none => simp only [hx, Res.ofOption] at hws; cases hws
      | some w => simp only [hx, Res.ofOption] at hws; cases hws; rfl
    unfold Fn.findTransformed at f2
    rw [g2] at f2
    simp only [Fn.transform, this, Ext.mul_val, Ext.exp_val, hexp] at f2
    exact (Ext.val.inj (Res.ok.inj f2)).symm
  · rw [if_neg hpc]

/-- The derivative of the average log-likelihood with respect to the weight of a cluster. -/
theorem logLikelihood_deriv {s : State (Ext ℝ)} (hexp : ∀ x : ℝ, FloatParams.expK x = Real.exp x) (hs : Core s)
    (ht : Weighted s) (hsh : s.Shared) {φ ρ : Nat → Assign → ℝ} (hφ : s.Images φ) (hρ : s.RawImages ρ) {xs : List ℝ}
    (hxs : s.getWeights = .ok (xs.map .val)) {samples : List (List Nat)} (hne : samples ≠ [])
    (hv : ∀ c ∈ samples, Valid (s.vars.map Var.size) c) (hpos : ∀ c ∈ samples, s.weight φ (s.sampleAt c) ≠ 0)
    {k : Nat} {c : List Nat} (hc : s.tunableClusters[k]? = some c) {x : ℝ} (hx : xs[k]? = some x) :
    HasDerivAt (fun y => logLikelihood samples (s.reweighed (xs.set k y)))
      (s.sampleMean samples (statistic ρ c) - s.modelMean φ (statistic ρ c)) x := by
  set B : Assign → ℝ := fun a => ((s.factors.filter (fun p => !decide (p ∈ c))).map (fun p => φ p a)).prod with hB
  set S := statistic ρ c with hS
  have hn := hs.net.distinct.nodup
  -- the weights of the model itself
  have hw : ∀ a, s.InRange a → s.weight φ a = B a * Real.exp (x * S a) := by
    exact fun a ha => weight_self hexp hs ht hsh hφ hρ hxs hc hx ha
  have hB0 : ∀ a, s.InRange a → 0 ≤ B a := by
    intro a ha
    refine prod_map_nonneg (fun p hp => ?_)
    simp only [List.mem_filter] at hp
    obtain ⟨_, _, _, h⟩ := hφ p hp.1 a ha
    exact h
  have hBs : ∀ d ∈ samples, 0 < B (s.sampleAt d) := by
    intro d hd
    have hr := sampleAt_inRange hn (hv d hd)
    refine lt_of_le_of_ne (hB0 _ hr) (fun h => hpos d hd ?_)
    rw [hw _ hr, ← h, zero_mul]
  -- the partition function
  set Z : ℝ → ℝ := fun y => Tree.sumOver Var.size s.vars (fun a => B a * Real.exp (y * S a)) (fun _ => 0) with hZ
  have hZpos : ∀ y, 0 < Z y := by
    intro y
    cases samples with
    | nil => exact absurd rfl hne
    | cons d _ =>
      have hr := sampleAt_inRange hn (hv d (by simp))
      set b : Assign := fun v => if v ∈ s.vars then s.sampleAt d v else 0 with hb
      have hb1 : ∀ u, u ∉ s.vars → b u = 0 := fun u hu => by simp only [hb, if_neg hu]
      have hb2 : ∀ u ∈ s.vars, b u < u.size := fun u hu => by simp only [hb, if_pos hu]; exact hr u hu
      have hle := Tree.le_sumOver Var.size (fun a => B a * Real.exp (y * S a)) (W := s.vars) (a := fun _ => 0) (b := b)
        (fun c _ h2 => mul_nonneg (hB0 c h2) (Real.exp_pos _).le) hb1 hb2
      refine lt_of_lt_of_le (mul_pos ?_ (Real.exp_pos _)) hle
      refine lt_of_le_of_ne (hB0 b hb2) (fun h => hpos d (by simp) ?_)
      rw [weight_congr hs hφ hr hb2 (fun v hv => by simp only [hb, if_pos hv]), hw b hb2, ← h, zero_mul]
  have hZd : HasDerivAt Z (Tree.sumOver Var.size s.vars (fun a => s.weight φ a * S a) (fun _ => 0)) x := by
    have h1 := Tree.sumOver_hasDerivAt (f := fun y a => B a * Real.exp (y * S a))
      (f' := fun a => B a * (Real.exp (x * S a) * (1 * S a))) (x := x) s.vars (fun _ => 0) (by
        intro b _ _
        exact (((hasDerivAt_id x).mul_const (S b)).exp).const_mul (B b))
    have h2 : Tree.sumOver Var.size s.vars (fun a => B a * (Real.exp (x * S a) * (1 * S a))) (fun _ => 0) =
        Tree.sumOver Var.size s.vars (fun a => s.weight φ a * S a) (fun _ => 0) := by
      refine Tree.sumOver_congr_range (fun b _ h2 => ?_)
      rw [hw b h2]
      ring
    rw [h2] at h1
    exact h1
  have hZx : Z x = Tree.sumOver Var.size s.vars (s.weight φ) (fun _ => 0) := by
    refine Tree.sumOver_congr_range (fun b _ h2 => ?_)
    exact (hw b h2).symm
  -- the logarithms
  have hlog : ∀ y, logLikelihood samples (s.reweighed (xs.set k y)) =
      (samples.map (fun d => Real.log (B (s.sampleAt d)) + y * S (s.sampleAt d) - Real.log (Z y))).sum /
        samples.length := by
    intro y
    obtain ⟨h1, h2, h3⟩ := reweighed_image hexp ht hsh hφ hρ hxs hc y
    unfold logLikelihood sampleMean
    congr 2
    refine List.map_congr_left (fun d hd => ?_)
    have hr := sampleAt_inRange hn (hv d hd)
    have hsa : (s.reweighed (xs.set k y)).sampleAt d = s.sampleAt d := by unfold sampleAt; rw [h1]
    have hz : Tree.sumOver Var.size (s.reweighed (xs.set k y)).vars
        ((s.reweighed (xs.set k y)).weight (s.reweighed (xs.set k y)).imageAt) (fun _ => 0) = Z y := by
      rw [h1]
      refine Tree.sumOver_congr_range (fun b _ hb2 => ?_)
      exact reweighed_weight hexp hs ht hsh hφ hρ hxs hc y hb2
    unfold likelihood
    beta_reduce
    rw [hsa, hz, reweighed_weight hexp hs ht hsh hφ hρ hxs hc y hr,
      Real.log_div (mul_pos (hBs d hd) (Real.exp_pos _)).ne' (hZpos y).ne',
      Real.log_mul (hBs d hd).ne' (Real.exp_pos _).ne', Real.log_exp]
  have hlen : ((samples.length : Nat) : ℝ) ≠ 0 := by simpa using hne
  have hder := (list_hasDerivAt (f := fun d y => Real.log (B (s.sampleAt d)) + y * S (s.sampleAt d) - Real.log (Z y))
    (f' := fun d => S (s.sampleAt d) - s.modelMean φ S) (x := x) samples (by
      intro d _
      have h1 := ((hasDerivAt_id x).mul_const (S (s.sampleAt d))).const_add (Real.log (B (s.sampleAt d)))
      have h2 := h1.sub (hZd.log (hZpos x).ne')
      rw [one_mul] at h2
      unfold modelMean expectation
      rw [← hZx]
      exact h2)).div_const (samples.length : ℝ)
  have hfin : (samples.map (fun d => S (s.sampleAt d) - s.modelMean φ S)).sum / (samples.length : ℝ) =
      s.sampleMean samples S - s.modelMean φ S := by
    unfold sampleMean
    rw [div_eq_iff hlen, sub_mul, div_mul_cancel₀ _ hlen]
    clear hder hlog hne hv hpos hBs hlen
    induction samples with
    | nil => simp
    | cons d l ih =>
      simp only [List.map_cons, List.sum_cons, List.length_cons, Nat.cast_add, Nat.cast_one]
      rw [ih]
      ring
  rw [hfin] at hder
  exact hder.congr_of_eventuallyEq (Filter.Eventually.of_forall hlog)

end State
end EFG
