import Verif.Lemmas.Concave
import Verif.Props.CrfGradient
/-
C61: where the gradient of the weights vanishes, the likelihood is greatest.
-/

set_option linter.unusedSectionVars false

namespace EFG

/-- With the exact exponential, the average log-likelihood of the samples lies, for all weights of the clusters, below
its tangent at the weights which the model has, whose slope is the gradient which the library returns; so the gradient is
zero iff no weights give a greater likelihood. Partial for the same reasons as `C41_gradient_partial`; the likelihood of
the samples has to be positive. -/
theorem C61_optimum_partial [FloatParams ℝ] (hexp : ∀ x : ℝ, FloatParams.expK x = Real.exp x) {s : State (Ext ℝ)}
    (h : Reach (fun s op => Prudent s op ∧ Steady s op) s)
    {ord : List Var → List Var} (hord : ∀ l, (ord l).Perm l) {sched : Sched} (hsched : ∀ l, (sched l).Perm l)
    {samples : List (List Nat)} (hne : samples ≠ []) (hv : ∀ c ∈ samples, Valid (s.vars.map Var.size) c)
    {n : Nat} (hn : 1 ≤ n) {φ ρ : Nat → Assign → ℝ} (hφ : s.Images φ) (hρ : s.RawImages ρ)
    (hy : s.unconditioned.Symmetric φ) (htree : ∀ v ∈ s.vars, s.unconditioned.TreeAt v)
    (hpos : ∀ c ∈ samples, s.weight φ (s.sampleAt c) ≠ 0) {xs : List ℝ} (hxs : s.getWeights = .ok (xs.map .val)) :
    ∃ (s' : State (Ext ℝ)) (g : List ℝ), State.getWeightsGradient ord sched samples n s = .ok s' (g.map .val) ∧
      g.length = xs.length ∧
      (∀ ys : List ℝ, ys.length = xs.length → State.logLikelihood samples (s.reweighed ys) ≤
        State.logLikelihood samples s + (List.zipWith (· * ·) g (List.zipWith (· - ·) ys xs)).sum) ∧
      ((∀ d ∈ g, d = 0) ↔ ∀ ys : List ℝ, ys.length = xs.length →
        State.logLikelihood samples (s.reweighed ys) ≤ State.logLikelihood samples s) := by
  have hc := (reach_sound h).healthy.inv.toCore
  have ht := (reach_tuned h).weighted
  have hsh := reach_shared h (fun s op ha p w he => ha.2.own p w he)
  have hself := State.logLikelihood_self hexp hc ht hsh hφ hρ hxs hv
  obtain ⟨c0, l, hl⟩ := List.exists_cons_of_ne_nil hne
  have hc0 : c0 ∈ samples := by rw [hl]; simp
  obtain ⟨s', h1⟩ := C41_gradient_partial h hord hsched hne hv hn hφ hρ hy htree
    ⟨s.sampleAt c0, State.sampleAt_inRange hc.net.distinct.nodup (hv c0 hc0), hpos c0 hc0⟩
  obtain ⟨s'', g, h2, h3, h4⟩ := C41_derivative_partial hexp h hord hsched hne hv hn hφ hρ hy htree hpos hxs
  have hg : g = s.tunableClusters.map (fun c => s.sampleMean samples (State.statistic ρ c) -
      s.modelMean φ (State.statistic ρ c)) := by
    rw [h1] at h2
    injection h2 with _ h2
    refine List.map_injective_iff.mpr (fun _ _ e => Ext.val.inj e) (h2.symm.trans ?_)
    rw [List.map_map]
    rfl
  have htan : ∀ ys : List ℝ, ys.length = xs.length → State.logLikelihood samples (s.reweighed ys) ≤
      State.logLikelihood samples s + (List.zipWith (· * ·) g (List.zipWith (· - ·) ys xs)).sum := by
    intro ys hys
    rw [hg]
    exact State.logLikelihood_tangent hexp hc ht hsh hφ hρ hxs hys hne hv hpos
  refine ⟨s'', g, h2, h3, htan, ?_⟩
  rw [← hself] at htan ⊢
  exact State.greatest_iff (L := fun ys => State.logLikelihood samples (s.reweighed ys)) h3 htan h4

/-- The same for a conditional random field and the average conditional log-likelihood. Partial for the same reasons as
`C50_gradient_partial`; the samples must have a positive weight. -/
theorem C61_crf_optimum_partial [FloatParams ℝ] (hexp : ∀ x : ℝ, FloatParams.expK x = Real.exp x) {src : State (Ext ℝ)}
    (h : Reach Prudent src) {o : VisitOrder} (ho : o.Perms) {copy : Bool}
    {c : Crf (Ext ℝ)} (hc : CrfReach CrfPrudent src o copy c) {ord visit : List Var → List Var}
    (hord : ∀ l, (ord l).Perm l) (hvis : ∀ l, (visit l).Perm l) {sched : Sched} (hsched : ∀ l, (sched l).Perm l)
    (hal : c.state.Aligned visit c.positions) {samples : List (List Nat)} (hne : samples ≠ [])
    (hv : ∀ x ∈ samples, Valid (c.state.vars.map Var.size) x) {n : Nat} (hn : 1 ≤ n) {φ ρ : Nat → Assign → ℝ}
    (hφ : c.state.Images φ) (hρ : c.state.RawImages ρ) (hy : c.state.Symmetric φ)
    (htree : ∀ v, c.state.Hidden v → c.state.TreeAt v)
    (hpos : ∀ x ∈ samples, c.state.weight φ (c.state.sampleAt x) ≠ 0) {l : List Var}
    (hln : l.Nodup) (hl : ∀ w, w ∈ l ↔ c.state.Hidden w) {xs : List ℝ} (hxs : c.state.getWeights = .ok (xs.map .val)) :
    ∃ (s' : State (Ext ℝ)) (g : List ℝ),
      State.getCrfGradient ord visit sched c.positions samples n c.state = .ok s' (g.map .val) ∧ g.length = xs.length ∧
      (∀ ys : List ℝ, ys.length = xs.length → State.conditionalLogLikelihood samples l (c.state.reweighed ys) ≤
        State.conditionalLogLikelihood samples l c.state +
          (List.zipWith (· * ·) g (List.zipWith (· - ·) ys xs)).sum) ∧
      ((∀ d ∈ g, d = 0) ↔ ∀ ys : List ℝ, ys.length = xs.length →
        State.conditionalLogLikelihood samples l (c.state.reweighed ys) ≤
          State.conditionalLogLikelihood samples l c.state) := by
  have ht := State.crf_weighted h ho hc
  have hsh := (State.crf_equal h ho (fun _ _ hp p w he => hp.own p w he) hc).shared ht
  have hs := (State.crf_half h ho hc).renewed.inv.toCore
  have hself := State.conditionalLogLikelihood_self hexp hs ht hsh hφ hρ hxs hv l
  obtain ⟨s', h1⟩ := C50_gradient_partial h ho hc hord hvis hsched hal hne hv hn hφ hρ hy htree
    (fun x hx => ⟨c.state.sampleAt x, State.sampleAt_inRange hs.net.distinct.nodup (hv x hx), fun _ _ => rfl, hpos x hx⟩) hln hl
  obtain ⟨s'', g, h2, h3, h4⟩ := C50_derivative_partial hexp h ho hc hord hvis hsched hal hne hv hn hφ hρ hy htree hpos
    hln hl hxs
  have hg : g = c.state.conditionalGradient φ ρ samples l := by
    rw [h1] at h2
    injection h2 with _ h2
    exact List.map_injective_iff.mpr (fun _ _ e => Ext.val.inj e) h2.symm
  have htan : ∀ ys : List ℝ, ys.length = xs.length → State.conditionalLogLikelihood samples l (c.state.reweighed ys) ≤
      State.conditionalLogLikelihood samples l c.state +
        (List.zipWith (· * ·) g (List.zipWith (· - ·) ys xs)).sum := by
    intro ys hys
    rw [hg]
    exact State.conditionalLogLikelihood_tangent hexp hs ht hsh hφ hρ hxs hys hv hpos (fun v hv => ((hl v).mp hv).1)
  refine ⟨s'', g, h2, h3, htan, ?_⟩
  rw [← hself] at htan ⊢
  exact State.greatest_iff (L := fun ys => State.conditionalLogLikelihood samples l (c.state.reweighed ys)) h3 htan h4

/-! ### Examples -/

namespace Ex

set_option warn.classDefReducibility false
attribute [local instance] realParams

/-- X and Y joined by an exponential factor with weight 0: of the samples (0, 0) and (0, 1) one has equal values, as it is
expected, and no other weight makes them more likely. -/
theorem linked_optimum : (∃ s', State.getWeightsGradient rev id [[0, 0], [0, 1]] 1 (linked 0) = .ok s' [.val 0]) ∧
    ∀ y : ℝ, State.logLikelihood [[0, 0], [0, 1]] ((linked 0).reweighed [y]) ≤
      State.logLikelihood [[0, 0], [0, 1]] (linked 0) := by
  have hr := linked_reach 0
  have hv : (linked 0).vars = [X, Y] := rfl
  have hh : (linked 0).heap = [link 0] := rfl
  have hf : (linked 0).factors = [0] := rfl
  have ht : (linked 0).tunables = [0] := rfl
  have hc : (linked 0).tunableClusters = [[0]] := rfl
  have hw : (linked 0).getWeights = .ok ([0].map .val) := rfl
  generalize linked 0 = s at hr hv hh hf ht hc hw
  obtain ⟨hi, hi', hpos, hval⟩ := link_facts hv hh hf ht
  have htree : ∀ v ∈ s.vars, s.unconditioned.TreeAt v :=
    fun v _ => two_tree (by simp only [State.unconditioned]; rw [hv]; simp) v
  have hsym := link_symmetric (s := s.unconditioned) hh hf
  obtain ⟨s1, h1⟩ := C41_gradient_partial hr (ord := rev) rev_perm (sched := id) (fun l => .refl l)
    (samples := [[0, 0], [0, 1]]) (by simp) hval (n := 1) (by omega) hi hi' hsym htree
    ⟨fun _ => 0, by rw [State.InRange, hv]; decide, hpos _⟩
  obtain ⟨s', g, h2, h3, h4, h5⟩ := C61_optimum_partial (fun _ => rfl) hr (ord := rev) rev_perm (sched := id)
    (fun l => .refl l) (samples := [[0, 0], [0, 1]]) (by simp) hval (n := 1) (by omega) hi hi' hsym htree
    (fun c _ => hpos _) hw
  have hone : ∀ a, s.weight (linkImg 0) a = 1 := by
    intro a
    unfold State.weight
    rw [hf]
    simp [linkImg]
  have hXY : Y ≠ X := by decide
  have hS : s.sampleMean [[0, 0], [0, 1]] (State.statistic linkRaw [0]) = 1 / 2 := by
    unfold State.sampleMean State.sampleAt State.statistic linkRaw
    rw [hv]
    have e1 : [X, Y].idxOf X = 0 := by decide
    have e2 : [X, Y].idxOf Y = 1 := by decide
    simp [e1, e2]
  have hM : s.modelMean (linkImg 0) (State.statistic linkRaw [0]) = 1 / 2 := by
    unfold State.modelMean State.expectation State.statistic linkRaw
    rw [hv]
    have e1 : X.size = 2 := rfl
    have e2 : Y.size = 2 := rfl
    simp only [hone, Tree.sumOver, e1, e2, Finset.sum_range_succ, Finset.sum_range_zero]
    simp [Function.update, hXY, hXY.symm]
    norm_num
  rw [hc, List.map_singleton, hS, hM, sub_self] at h1
  refine ⟨⟨s1, h1⟩, fun y => h5.mp ?_ [y] (by simp)⟩
  rw [h1] at h2
  injection h2 with _ h2
  cases g with
  | nil => cases h2
  | cons d g =>
    cases g with
    | nil =>
      simp only [List.map_cons, List.map_nil, List.cons.injEq, Ext.val.injEq, and_true] at h2
      intro x hx
      rw [List.mem_singleton.mp hx, ← h2]
    | cons => cases h2

/-- The conditional random field of X and Y joined by an exponential factor with weight 2, Y being observed: the average
conditional log-likelihood of (0, 0), (0, 1) lies below its tangent at 2. -/
theorem linkedCrf_tangent : ∃ (s' : State (Ext ℝ)) (d : ℝ),
    State.getCrfGradient rev id id linkedCrf.positions [[0, 0], [0, 1]] 1 linkedCrf.state = .ok s' [.val d] ∧
    ∀ y : ℝ, State.conditionalLogLikelihood [[0, 0], [0, 1]] [X] (linkedCrf.state.reweighed [y]) ≤
      State.conditionalLogLikelihood [[0, 0], [0, 1]] [X] linkedCrf.state + d * (y - 2) := by
  have hc : CrfReach CrfPrudent linkedObs forwards false linkedCrf := .made linkedCrf_eq
  obtain ⟨hv, hh, hf, ht, he, hp, hw⟩ := linkedCrf_facts
  generalize linkedCrf = c at *
  obtain ⟨hi, hi', hpos, hval⟩ := link_facts hv hh hf ht
  obtain ⟨s', g, h1, h2, h3, _⟩ := C61_crf_optimum_partial (fun _ => rfl) linkedObs_reach forwards_perms hc (ord := rev)
    rev_perm (visit := id) (fun l => .refl l) (sched := id) (fun l => .refl l) (samples := [[0, 0], [0, 1]])
    (link_aligned hv he hp) (by simp) hval (n := 1) (by omega) hi hi' (link_symmetric hh hf)
    (fun v _ => two_tree (by rw [hv]; simp) v) (fun x _ => hpos _) (l := [X]) (by simp) (link_hidden hv he) hw
  cases g with
  | nil => cases h2
  | cons d g =>
    cases g with
    | nil =>
      refine ⟨s', d, h1, fun y => ?_⟩
      have := h3 [y] (by simp)
      simpa using this
    | cons => cases h2

end Ex

end EFG
