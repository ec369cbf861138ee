import Verif.Lemmas.Likelihood
import Verif.Spec.CrfGradient
/-
The derivative of the average conditional log-likelihood with respect to the weight of a cluster.
-/

set_option linter.unusedSectionVars false

namespace EFG
namespace State
variable [FloatParams ℝ]

theorem conditionalLogLikelihood_deriv {s : State (Ext ℝ)} (hexp : ∀ x : ℝ, FloatParams.expK x = Real.exp x) (hs : Core s)
    (ht : Weighted s) (hsh : s.Shared) {φ ρ : Nat → Assign → ℝ} (hφ : s.Images φ) (hρ : s.RawImages ρ) {xs : List ℝ}
    (hxs : s.getWeights = .ok (xs.map .val)) {samples : List (List Nat)}
    (hv : ∀ c ∈ samples, Valid (s.vars.map Var.size) c) (hpos : ∀ c ∈ samples, s.weight φ (s.sampleAt c) ≠ 0)
    {l : List Var} (hl : ∀ v ∈ l, v ∈ s.vars)
    {k : Nat} {c : List Nat} (hc : s.tunableClusters[k]? = some c) {x : ℝ} (hx : xs[k]? = some x) :
    HasDerivAt (fun y => conditionalLogLikelihood samples l (s.reweighed (xs.set k y)))
      (s.sampleMean samples (statistic ρ c) -
        s.sampleMean samples (fun a => expectation l a (s.weight φ) (statistic ρ c))) x := by
  set B : Assign → ℝ := fun a => ((s.factors.filter (fun p => !decide (p ∈ c))).map (fun p => φ p a)).prod with hB
  set S := statistic ρ c with hS
  have hn := hs.net.distinct.nodup
  have hw : ∀ a, s.InRange a → s.weight φ a = B a * Real.exp (x * S a) :=
    fun a ha => weight_self hexp hs ht hsh hφ hρ hxs hc hx ha
  have hB0 : ∀ a, s.InRange a → 0 ≤ B a := by
    intro a ha
    refine prod_map_nonneg (fun p hp => ?_)
    simp only [List.mem_filter] at hp
    obtain ⟨_, _, _, h⟩ := hφ p hp.1 a ha
    exact h
  have hBs : ∀ d ∈ samples, 0 < B (s.sampleAt d) := by
    intro d hd
    have hr := sampleAt_inRange hn (hv d hd)
    refine lt_of_le_of_ne (hB0 _ hr) (fun h => hpos d hd ?_)
    rw [hw _ hr, ← h, zero_mul]
  have hrange : ∀ d ∈ samples, ∀ b : Assign, (∀ u, u ∉ l → b u = s.sampleAt d u) → (∀ u ∈ l, b u < u.size) →
      s.InRange b := by
    intro d hd b h1 h2 v hv'
    by_cases h : v ∈ l
    · exact h2 v h
    · rw [h1 v h]; exact sampleAt_inRange hn (hv d hd) v hv'
  set Z : List Nat → ℝ → ℝ := fun d y => Tree.sumOver Var.size l (fun a => B a * Real.exp (y * S a)) (s.sampleAt d) with hZ
  have hZpos : ∀ d ∈ samples, ∀ y, 0 < Z d y := by
    intro d hd y
    have hr := sampleAt_inRange hn (hv d hd)
    have hle := Tree.le_sumOver Var.size (fun a => B a * Real.exp (y * S a)) (W := l) (a := s.sampleAt d) (b := s.sampleAt d)
      (fun c h1 h2 => mul_nonneg (hB0 c (hrange d hd c h1 h2)) (Real.exp_pos _).le) (fun _ _ => rfl)
      (fun u hu => hr u (hl u hu))
    exact lt_of_lt_of_le (mul_pos (hBs d hd) (Real.exp_pos _)) hle
  have hZd : ∀ d ∈ samples, HasDerivAt (Z d) (Tree.sumOver Var.size l (fun a => s.weight φ a * S a) (s.sampleAt d)) x := by
    intro d hd
    have h1 := Tree.sumOver_hasDerivAt (f := fun y a => B a * Real.exp (y * S a))
      (f' := fun a => B a * (Real.exp (x * S a) * (1 * S a))) (x := x) l (s.sampleAt d) (by
        intro b _ _
        exact (((hasDerivAt_id x).mul_const (S b)).exp).const_mul (B b))
    have h2 : Tree.sumOver Var.size l (fun a => B a * (Real.exp (x * S a) * (1 * S a))) (s.sampleAt d) =
        Tree.sumOver Var.size l (fun a => s.weight φ a * S a) (s.sampleAt d) := by
      refine Tree.sumOver_congr_range (fun b h1 h2 => ?_)
      rw [hw b (hrange d hd b h1 h2)]
      ring
    rw [h2] at h1
    exact h1
  have hZx : ∀ d ∈ samples, Z d x = Tree.sumOver Var.size l (s.weight φ) (s.sampleAt d) := by
    intro d hd
    refine Tree.sumOver_congr_range (fun b h1 h2 => ?_)
    exact (hw b (hrange d hd b h1 h2)).symm
  have hlog : ∀ y, conditionalLogLikelihood samples l (s.reweighed (xs.set k y)) =
      (samples.map (fun d => Real.log (B (s.sampleAt d)) + y * S (s.sampleAt d) - Real.log (Z d y))).sum /
        samples.length := by
    intro y
    obtain ⟨h1, h2, h3⟩ := reweighed_image hexp ht hsh hφ hρ hxs hc y
    unfold conditionalLogLikelihood sampleMean
    congr 2
    refine List.map_congr_left (fun d hd => ?_)
    have hr := sampleAt_inRange hn (hv d hd)
    have hsa : (s.reweighed (xs.set k y)).sampleAt d = s.sampleAt d := by unfold sampleAt; rw [h1]
    have hz : Tree.sumOver Var.size l
        ((s.reweighed (xs.set k y)).weight (s.reweighed (xs.set k y)).imageAt) (s.sampleAt d) = Z d y := by
      refine Tree.sumOver_congr_range (fun b hb1 hb2 => ?_)
      exact reweighed_weight hexp hs ht hsh hφ hρ hxs hc y (hrange d hd b hb1 hb2)
    unfold conditional
    beta_reduce
    rw [hsa, hz, reweighed_weight hexp hs ht hsh hφ hρ hxs hc y hr,
      Real.log_div (mul_pos (hBs d hd) (Real.exp_pos _)).ne' (hZpos d hd y).ne',
      Real.log_mul (hBs d hd).ne' (Real.exp_pos _).ne', Real.log_exp]
  have hder := (list_hasDerivAt (f := fun d y => Real.log (B (s.sampleAt d)) + y * S (s.sampleAt d) - Real.log (Z d y))
    (f' := fun d => S (s.sampleAt d) - expectation l (s.sampleAt d) (s.weight φ) S) (x := x) samples (by
      intro d hd
      have h1 := ((hasDerivAt_id x).mul_const (S (s.sampleAt d))).const_add (Real.log (B (s.sampleAt d)))
      have h2 := h1.sub ((hZd d hd).log (hZpos d hd x).ne')
      rw [one_mul] at h2
      unfold expectation
      rw [← hZx d hd]
      exact h2)).div_const (samples.length : ℝ)
  have hfin : (samples.map (fun d => S (s.sampleAt d) - expectation l (s.sampleAt d) (s.weight φ) S)).sum /
      (samples.length : ℝ) =
      s.sampleMean samples S - s.sampleMean samples (fun a => expectation l a (s.weight φ) S) := by
    unfold sampleMean
    have hsub : ∀ (L : List (List Nat)) (f g : List Nat → ℝ),
        (L.map (fun d => f d - g d)).sum = (L.map f).sum - (L.map g).sum := by
      intro L f g
      induction L with
      | nil => simp
      | cons d L ih =>
        simp only [List.map_cons, List.sum_cons, ih]
        ring
    rw [← sub_div, hsub]
  rw [hfin] at hder
  exact hder.congr_of_eventuallyEq (Filter.Eventually.of_forall hlog)

end State
end EFG
