import Mathlib.Probability.HasLawExists
import Mathlib.MeasureTheory.Measure.Lebesgue.Basic
import Mathlib.MeasureTheory.Function.Floor
import Verif.Lemmas.GibbsLimit
import Verif.Props.Gradient
/-
C56: the samples of the Gibbs sampler follow the distribution of the model, up to an error which vanishes when the
number of the iterations grows.
-/

namespace EFG
open MeasureTheory ProbabilityTheory

section theorems
variable [FloatParams ℝ]

theorem State.drawing {s : State (Ext ℝ)} (h : Reach (fun s op => Prudent s op ∧ Steady s op) s) {φ : Nat → Assign → ℝ}
    (hφ : s.Images φ) (hpos : ∀ p ∈ s.factors, ∀ a, s.Agrees a → 0 < φ p a) : State.Drawing s φ := by
  obtain ⟨hH, hF⟩ := reach_sound h
  refine ⟨hH.inv.toCore, hH.sep, (hF trivial).evid, hφ, fun a ha => ?_⟩
  unfold State.weight
  refine List.prod_pos (fun x hx => ?_)
  obtain ⟨p, hp, rfl⟩ := List.mem_map.mp hx
  exact hpos p hp a ha

/-- C56: in every model reached by prudent and steady operations whose factors are positive, with or without cycles. The
engines draw independent numbers. Whatever the requested number of samples, the iterations before the first and between
two of them, the number of threads, the order of the hash tables and the test `A` on a combination: the probability that
the i-th sample passes the test differs from its probability in the model given the evidences by at most
`(1 - δ) ^ (transient + i * delta)`, where `δ` depends on the model only. A test can be that the combination is a given one
or that a variable has a given value. Here `l` are the hidden variables and `e` is an assignment which gives their value
to the observed ones.

Missing: factors which can be zero (`C56_zero_violated`); several threads without seed, whose engines have the same
seed if they are made in the same second (`C56_clock_violated`). -/
theorem C56_law_partial {s : State (Ext ℝ)} (h : Reach (fun s op => Prudent s op ∧ Steady s op) s) {φ : Nat → Assign → ℝ}
    (hφ : s.Images φ) (hpos : ∀ p ∈ s.factors, ∀ a, s.Agrees a → 0 < φ p a) {l : List Var} (hl : s.OthersOf [] l)
    {e : Assign} (he : s.Agrees e) : ∃ δ : ℝ, 0 < δ ∧ δ ≤ 1 ∧
    ∀ {Ω : Type} [MeasurableSpace Ω] (P : Measure Ω) [IsProbabilityMeasure P] {U : Nat → Nat → Ω → ℝ} (_ : IdealEngines P U)
      (clock tenth : Nat → Nat) {ord : List Var → List Var} (_ : ∀ l, (ord l).Perm l) (n : Nat) (_ : 1 ≤ n) (_ : n ≤ 2 ^ 32)
      (ctx : SampleContext) (_ : ctx.seed.isSome ∨ n = 1) (A : List Nat → Prop) (i : Nat) (_ : i < ctx.samples),
      |P.real (s.SamplePasses ord (Random.of U clock tenth) ctx n A i) - s.expected φ l e A| ≤
        (1 - δ) ^ ((ctx.steps tenth).2 + i * (ctx.steps tenth).1) := by
  have hH := (reach_sound h).1
  obtain ⟨δ, h0, h1, h2⟩ := State.samples_law (State.drawing h hφ hpos) hH.inv (by rw [hH.pool]; rfl) hl he
  exact ⟨δ, h0, h1, fun P _ U hU clock tenth ord hord n hn hn' ctx hseed A i hi =>
    (h2 P hord hn hn' hU hseed clock tenth).one A i hi⟩

open Classical in
theorem countP_sum (A : List Nat → Prop) (l : List (List Nat)) : (l.countP (fun c => decide (A c)) : ℝ) =
    ∑ i ∈ Finset.range l.length, if ∃ c, l[i]? = some c ∧ A c then 1 else 0 := by
  induction l with
  | nil => simp
  | cons c l ih =>
    rw [List.length_cons, Finset.sum_range_succ', List.countP_cons]
    simp only [List.getElem?_cons_succ, List.getElem?_cons_zero, Option.some.injEq, exists_eq_left', decide_eq_true_eq]
    rw [← ih]
    push_cast
    rfl

theorem State.frequency_eq {Ω : Type} {s : State (Ext ℝ)} (hs : State.Inv s) (hp : s.pool.isSome)
    {ord : List Var → List Var} (hord : ∀ l, (ord l).Perm l) (rnd : Ω → Random (Ext ℝ)) (ctx : SampleContext) {n : Nat}
    (hn : 1 ≤ n) (A : List Nat → Prop) (ω : Ω) : s.frequency ord rnd ctx n A ω =
      (∑ i ∈ Finset.range ctx.samples, (s.SamplePasses ord rnd ctx n A i).indicator (fun _ => (1 : ℝ)) ω) / ctx.samples := by
  obtain ⟨s', l, h1, _, _, _, _, _, h2, _⟩ := State.makeSamples_ok hord (rnd ω) ctx hn hs hp
  unfold State.frequency
  rw [h1]
  simp only
  rw [h2, countP_sum, h2]
  congr 1
  refine Finset.sum_congr rfl (fun i _ => ?_)
  unfold State.SamplePasses Set.indicator
  simp only [Set.mem_setOf_eq]
  by_cases hA : ∃ c, l[i]? = some c ∧ A c
  · obtain ⟨c, hc⟩ := hA
    rw [if_pos ⟨c, hc⟩, if_pos ⟨s', l, c, h1, hc⟩]
  · rw [if_neg hA, if_neg]
    rintro ⟨s2, l2, c2, k1, k2⟩
    rw [h1] at k1
    cases k1
    exact hA ⟨c2, k2⟩

/-- C56: hence the part of the samples which pass a test approximates the probability of the test in the model: the mean
square error is at most `4 / (δ * samples)`.

Missing: as in `C56_law_partial`. -/
theorem C56_frequency_partial {s : State (Ext ℝ)} (h : Reach (fun s op => Prudent s op ∧ Steady s op) s) {φ : Nat → Assign → ℝ}
    (hφ : s.Images φ) (hpos : ∀ p ∈ s.factors, ∀ a, s.Agrees a → 0 < φ p a) {l : List Var} (hl : s.OthersOf [] l)
    {e : Assign} (he : s.Agrees e) : ∃ δ : ℝ, 0 < δ ∧ δ ≤ 1 ∧
    ∀ {Ω : Type} [MeasurableSpace Ω] (P : Measure Ω) [IsProbabilityMeasure P] {U : Nat → Nat → Ω → ℝ} (_ : IdealEngines P U)
      (clock tenth : Nat → Nat) {ord : List Var → List Var} (_ : ∀ l, (ord l).Perm l) (n : Nat) (_ : 1 ≤ n) (_ : n ≤ 2 ^ 32)
      (ctx : SampleContext) (_ : ctx.seed.isSome ∨ n = 1) (_ : 0 < ctx.samples) (A : List Nat → Prop),
      Integrable (fun ω => (s.frequency ord (Random.of U clock tenth) ctx n A ω - s.expected φ l e A) ^ 2) P ∧
      ∫ ω, (s.frequency ord (Random.of U clock tenth) ctx n A ω - s.expected φ l e A) ^ 2 ∂P ≤ 4 / (δ * ctx.samples) := by
  have hH := (reach_sound h).1
  have hD := State.drawing h hφ hpos
  obtain ⟨δ, h0, h1, h2⟩ := State.samples_law hD hH.inv (by rw [hH.pool]; rfl) hl he
  refine ⟨δ, h0, h1, fun P _ U hU clock tenth ord hord n hn hn' ctx hseed hsamples A => ?_⟩
  have hm := h2 P hord hn hn' hU hseed clock tenth
  have hp := State.expected_mem hD hl he A
  have hρ0 : 0 ≤ 1 - δ := by linarith
  have hdelta : 1 ≤ (ctx.steps tenth).1 := by unfold SampleContext.steps; simp
  simp only [State.frequency_eq hH.inv (by rw [hH.pool]; rfl) hord _ ctx hn A]
  refine ⟨?_, ?_⟩
  · have hmeas : Measurable (fun ω => ((∑ i ∈ Finset.range ctx.samples,
        (s.SamplePasses ord (Random.of U clock tenth) ctx n A i).indicator (fun _ => (1 : ℝ)) ω) / ctx.samples -
          s.expected φ l e A) ^ 2) := by
      refine Measurable.pow_const (Measurable.sub_const (Measurable.div_const (Finset.measurable_sum _ (fun i hi => ?_)) _) _) 2
      exact measurable_const.indicator (hm.meas A i (Finset.mem_range.mp hi))
    refine Integrable.of_bound hmeas.aestronglyMeasurable 1 (Filter.Eventually.of_forall (fun ω => ?_))
    have hN : (0 : ℝ) < ctx.samples := by exact_mod_cast hsamples
    have b0 : 0 ≤ ∑ i ∈ Finset.range ctx.samples,
        (s.SamplePasses ord (Random.of U clock tenth) ctx n A i).indicator (fun _ => (1 : ℝ)) ω :=
      Finset.sum_nonneg (fun i _ => Set.indicator_nonneg (fun _ _ => zero_le_one) _)
    have b1 : ∑ i ∈ Finset.range ctx.samples,
        (s.SamplePasses ord (Random.of U clock tenth) ctx n A i).indicator (fun _ => (1 : ℝ)) ω ≤ ctx.samples := by
      refine (Finset.sum_le_sum (fun i _ => Set.indicator_le_self' (fun _ _ => zero_le_one) _)).trans ?_
      simp
    have b2 := (div_le_one hN).mpr b1
    have b3 := div_nonneg b0 hN.le
    rw [Real.norm_eq_abs, abs_of_nonneg (sq_nonneg _)]
    have b4 := hp.1
    have b5 := hp.2
    nlinarith
  · have := frequency_le (P := P) hsamples (fun i hi => hm.meas A i hi) hp.1 hp.2 hρ0 (by linarith) (fun i hi => (hm.one A i hi).trans
      (pow_le_pow_of_le_one hρ0 (by linarith) (by nlinarith))) (fun i hi j hj hij => (hm.two A A i j hij hj).trans (by
        have k1 : P.real (s.SamplePasses ord (Random.of U clock tenth) ctx n A i) ≤ 1 := measureReal_le_one
        have k2 : (1 - δ) ^ ((j - i) * (ctx.steps tenth).1) ≤ (1 - δ) ^ (j - i) :=
          pow_le_pow_of_le_one hρ0 (by linarith) (by nlinarith)
        have k3 : 0 ≤ (1 - δ) ^ ((j - i) * (ctx.steps tenth).1) := pow_nonneg hρ0 _
        have k4 : 0 ≤ P.real (s.SamplePasses ord (Random.of U clock tenth) ctx n A i) := measureReal_nonneg
        nlinarith))
    rw [sub_sub_cancel] at this
    exact this

/-- C56: hence the part of the samples which pass a test converges in probability to the probability of the test in the
model, uniformly in the test, the threads and the iterations between the samples.

Missing: as in `C56_law_partial`. -/
theorem C56_limit_partial {s : State (Ext ℝ)} (h : Reach (fun s op => Prudent s op ∧ Steady s op) s) {φ : Nat → Assign → ℝ}
    (hφ : s.Images φ) (hpos : ∀ p ∈ s.factors, ∀ a, s.Agrees a → 0 < φ p a) {l : List Var} (hl : s.OthersOf [] l)
    {e : Assign} (he : s.Agrees e) {η : ℝ} (hη : 0 < η) : ∃ N : Nat,
    ∀ {Ω : Type} [MeasurableSpace Ω] (P : Measure Ω) [IsProbabilityMeasure P] {U : Nat → Nat → Ω → ℝ} (_ : IdealEngines P U)
      (clock tenth : Nat → Nat) {ord : List Var → List Var} (_ : ∀ l, (ord l).Perm l) (n : Nat) (_ : 1 ≤ n) (_ : n ≤ 2 ^ 32)
      (ctx : SampleContext) (_ : ctx.seed.isSome ∨ n = 1) (_ : N ≤ ctx.samples) (A : List Nat → Prop),
      P.real {ω | η ≤ |s.frequency ord (Random.of U clock tenth) ctx n A ω - s.expected φ l e A|} ≤ η := by
  obtain ⟨δ, h0, h1, h2⟩ := C56_frequency_partial h hφ hpos hl he
  obtain ⟨N, hN⟩ := exists_nat_gt (4 / (δ * η ^ 3))
  refine ⟨N, fun P _ U hU clock tenth ord hord n hn hn' ctx hseed hsamples A => ?_⟩
  have hNpos : (0 : ℝ) < N := lt_trans (by positivity) hN
  have hs' : (N : ℝ) ≤ ctx.samples := by exact_mod_cast hsamples
  have hspos : (0 : ℝ) < ctx.samples := lt_of_lt_of_le hNpos hs'
  obtain ⟨h3, h4⟩ := h2 P hU clock tenth hord n hn hn' ctx hseed (by exact_mod_cast hspos) A
  have h5 := mul_meas_ge_le_integral_of_nonneg (Filter.Eventually.of_forall (fun ω => sq_nonneg _)) h3 (η ^ 2)
  have hset : {ω | η ≤ |s.frequency ord (Random.of U clock tenth) ctx n A ω - s.expected φ l e A|} =
      {ω | η ^ 2 ≤ (s.frequency ord (Random.of U clock tenth) ctx n A ω - s.expected φ l e A) ^ 2} := by
    ext ω
    simp only [Set.mem_setOf_eq]
    rw [← sq_abs (_ - _), sq_le_sq₀ hη.le (abs_nonneg _)]
  rw [hset]
  have h6 : 4 / (δ * ctx.samples) ≤ η ^ 3 := by
    rw [div_le_iff₀ (by positivity)]
    rw [div_lt_iff₀ (by positivity)] at hN
    have : N * (δ * η ^ 3) ≤ ctx.samples * (δ * η ^ 3) := mul_le_mul_of_nonneg_right hs' (by positivity)
    linarith
  have h7 : η ^ 2 * P.real {ω | η ^ 2 ≤ (s.frequency ord (Random.of U clock tenth) ctx n A ω - s.expected φ l e A) ^ 2} ≤
      η ^ 2 * η := by
    have : η ^ 2 * η = η ^ 3 := by ring
    rw [this]
    exact (h5.trans h4).trans h6
  exact le_of_mul_le_mul_left h7 (by positivity)

end theorems

/-- There are such engines: the hypothesis of the theorems can be met. -/
theorem exists_engines : ∃ (Ω : Type) (_ : MeasurableSpace Ω) (P : Measure Ω) (U : Nat → Nat → Ω → ℝ),
    IsProbabilityMeasure P ∧ IdealEngines P U := by
  haveI : IsProbabilityMeasure ((volume : Measure ℝ).restrict (Set.Icc 0 1)) := ⟨by simp⟩
  obtain ⟨Ω, mΩ, P, X, h1, h2, h3, h4⟩ := exists_iid (Nat × Nat) ((volume : Measure ℝ).restrict (Set.Icc 0 1))
  refine ⟨Ω, mΩ, P, fun z k ω => Int.fract (X (z, k) ω), h4, fun z k ω => ⟨Int.fract_nonneg _, Int.fract_lt_one _⟩,
    fun z k => measurable_fract.comp (h1 (z, k)), ?_, ?_⟩
  · intro z k x h0 hx
    have hae : ∀ᵐ ω ∂P, X (z, k) ω ∈ Set.Ico (0 : ℝ) 1 := by
      have hm : MeasurableSet (Set.Ico (0 : ℝ) 1) := measurableSet_Ico
      have : ∀ᵐ y ∂((volume : Measure ℝ).restrict (Set.Icc 0 1)), y ∈ Set.Ico (0 : ℝ) 1 := by
        rw [← Measure.restrict_congr_set Ico_ae_eq_Icc]
        exact ae_restrict_mem hm
      rw [← (h2 (z, k)).map_eq] at this
      exact (ae_map_iff (h2 (z, k)).aemeasurable hm).mp this
    have e1 : P.real {ω | Int.fract (X (z, k) ω) ≤ x} = P.real (X (z, k) ⁻¹' Set.Iic x) := by
      refine measureReal_congr ?_
      filter_upwards [hae] with ω hω
      have : Int.fract (X (z, k) ω) = X (z, k) ω := Int.fract_eq_self.mpr ⟨hω.1, hω.2⟩
      refine propext ?_
      show Int.fract (X (z, k) ω) ≤ x ↔ X (z, k) ω ≤ x
      rw [this]
    rw [e1, measureReal_def, ← Measure.map_apply (h1 (z, k)) measurableSet_Iic, (h2 (z, k)).map_eq,
      Measure.restrict_apply measurableSet_Iic]
    have e2 : Set.Iic x ∩ Set.Icc (0 : ℝ) 1 = Set.Icc 0 x := by
      ext y
      simp only [Set.mem_inter_iff, Set.mem_Iic, Set.mem_Icc]
      constructor
      · rintro ⟨a, b, _⟩; exact ⟨b, a⟩
      · rintro ⟨a, b⟩; exact ⟨b, a, b.trans hx⟩
    rw [e2, Real.volume_Icc, sub_zero, ENNReal.toReal_ofReal h0]
  · exact h3.comp (fun _ => Int.fract) (fun _ => measurable_fract)

namespace Ex
attribute [local instance] realParams

/-- X and Y are hidden. -/
theorem linked_others : (linked 2).OthersOf [] [X, Y] := by
  refine ⟨by decide, fun w => ?_⟩
  have hv : (linked 2).vars = [X, Y] := rfl
  have he : (linked 2).evidences = [] := rfl
  constructor
  · intro hw
    exact ⟨⟨by rw [hv]; exact hw, fun ⟨k, hk⟩ => by rw [he] at hk; cases hk⟩, by simp⟩
  · intro hw
    have := hw.1.1
    rwa [hv] at this

/-- The assignment of zeros. -/
theorem linked_agrees : (linked 2).Agrees (fun _ => 0) := by
  have hv : (linked 2).vars = [X, Y] := rfl
  have he : (linked 2).evidences = [] := rfl
  refine ⟨fun v h => ?_, fun v k h => by rw [he] at h; cases h⟩
  rw [hv] at h
  simp only [List.mem_cons, List.not_mem_nil, or_false] at h
  rcases h with rfl | rfl <;> decide

/-- The model of X and Y joined by an exponential factor with weight 2, sampled by two threads: there are engines, and the
part of the samples which are (0, 0) converges to the probability of (0, 0). -/
example : ∃ (Ω : Type) (_ : MeasurableSpace Ω) (P : Measure Ω) (U : Nat → Nat → Ω → ℝ), IdealEngines P U ∧
    ∀ η > 0, ∃ N, ∀ m ≥ N, P.real {ω | η ≤ |(linked 2).frequency rev (Random.of U id id) ⟨m, none, none, some 7⟩ 2
      (fun c => c = [0, 0]) ω - (linked 2).expected (linkImg 2) [X, Y] (fun _ => 0) (fun c => c = [0, 0])|} ≤ η := by
  obtain ⟨Ω, mΩ, P, U, hP, hU⟩ := exists_engines
  refine ⟨Ω, mΩ, P, U, hU, fun η hη => ?_⟩
  obtain ⟨N, hN⟩ := C56_limit_partial (linked_reach 2) (link_facts rfl rfl rfl rfl).1 (fun p _ a _ => Real.exp_pos _)
    linked_others linked_agrees hη
  exact ⟨N, fun m hm => hN P hU id id rev_perm 2 (by omega) (by omega) ⟨m, none, none, some 7⟩ (.inl rfl) hm _⟩

/-- The probability of (0, 0). -/
theorem linked_expected : (linked 2).expected (linkImg 2) [X, Y] (fun _ => 0) (fun c => c = [0, 0]) =
    Real.exp 2 / (2 * Real.exp 2 + 2) := by
  have hv : (linked 2).vars = [X, Y] := rfl
  have hf : (linked 2).factors = [0] := rfl
  have hx : X.size = 2 := rfl
  have hy : Y.size = 2 := rfl
  have hne : X ≠ Y := by decide
  unfold State.expected State.weight
  rw [hv, hf]
  simp [Tree.sumOver, hx, hy, linkImg, linkRaw, Finset.sum_range_succ, Function.update, hne, hne.symm]
  ring

/-- The law of the samples of the same model, and the mean square error. -/
example : ∃ δ : ℝ, 0 < δ ∧ ∃ (Ω : Type) (_ : MeasurableSpace Ω) (P : Measure Ω) (U : Nat → Nat → Ω → ℝ), IdealEngines P U ∧
    ∀ i < 100, |P.real ((linked 2).SamplePasses rev (Random.of U id id) ⟨100, some 3, some 20, some 7⟩ 2
      (fun c => c = [0, 0]) i) - Real.exp 2 / (2 * Real.exp 2 + 2)| ≤ (1 - δ) ^ (20 + i * 3) := by
  obtain ⟨Ω, mΩ, P, U, hP, hU⟩ := exists_engines
  obtain ⟨δ, h0, _, h1⟩ := C56_law_partial (linked_reach 2) (link_facts rfl rfl rfl rfl).1 (fun p _ a _ => Real.exp_pos _)
    linked_others linked_agrees
  refine ⟨δ, h0, Ω, mΩ, P, U, hU, fun i hi => ?_⟩
  rw [← linked_expected]
  exact h1 P hU id id rev_perm 2 (by omega) (by omega) ⟨100, some 3, some 20, some 7⟩ (.inl rfl) _ i hi

example : ∃ δ : ℝ, 0 < δ ∧ ∃ (Ω : Type) (_ : MeasurableSpace Ω) (P : Measure Ω) (U : Nat → Nat → Ω → ℝ), IdealEngines P U ∧
    ∫ ω, ((linked 2).frequency rev (Random.of U id id) ⟨100, some 3, some 20, none⟩ 1
      (fun c => c = [0, 0]) ω - Real.exp 2 / (2 * Real.exp 2 + 2)) ^ 2 ∂P ≤ 4 / (δ * (100 : Nat)) := by
  obtain ⟨Ω, mΩ, P, U, hP, hU⟩ := exists_engines
  obtain ⟨δ, h0, _, h1⟩ := C56_frequency_partial (linked_reach 2) (link_facts rfl rfl rfl rfl).1 (fun p _ a _ => Real.exp_pos _)
    linked_others linked_agrees
  refine ⟨δ, h0, Ω, mΩ, P, U, hU, ?_⟩
  rw [← linked_expected]
  exact (h1 P hU id id rev_perm 1 (by omega) (by omega) ⟨100, some 3, some 20, none⟩ (.inr rfl) (by simp) _).2

end Ex

section violated

/-- What every task keeps is kept by the iterations. -/
theorem State.evolve_keeps {F : Type} [Arith F] {s : State F} {draw : Nat → Nat → F} {n : Nat} (Q : State.Sampling → Prop)
    {gs : List (List (SamplerNode F))} (hg : ∀ g ∈ gs, ∀ c c', Q c → s.sampleGroup draw n c g = .ok c' → Q c') (k : Nat) :
    ∀ {c c' : State.Sampling}, Q c → s.evolve draw n gs k c = .ok c' → Q c' := by
  induction k with
  | zero => intro c c' hc h; cases h; exact hc
  | succ k ih =>
    intro c c' hc h
    rw [State.evolve] at h
    cases h1 : Res.foldList (s.sampleGroup draw n) c gs with
    | ok c1 =>
      rw [h1] at h
      exact ih (foldList_ok_inv Q (fun b hb a ha b' h => hg a ha b b' hb h) hc h1) h
    | throw => rw [h1] at h; cases h
    | ub => rw [h1] at h; cases h

theorem add_reach {F : Type} [Arith F] {s s' : State F} (h : Reach (fun s op => Prudent s op ∧ Steady s op) s) {p : Nat} {f : Fn F}
    (hf : s.heap[p]? = some f) (hsq : ∀ u ∈ f.vars.group, ∀ v ∈ f.vars.group, u.size = v.size)
    (he : State.addConstFactor (some p) s = .ok s' ()) : Reach (fun s op => Prudent s op ∧ Steady s op) s' := by
  refine .ok (op := .addConst (some p)) h ⟨trivial, trivial⟩ ⟨⟨?_, ?_, ?_⟩, ?_⟩ he
  · intro u v hr; exact hr.elim
  · simp [GOp.threads]
  · intro q g hq hg
    cases hq
    rw [hf] at hg
    cases hg
    exact hsq
  · exact ⟨(fun p o h => by cases h), (fun p w h => by cases h), fun h => h.elim, fun _ _ _ _ h => h.elim⟩

namespace Ex
attribute [local instance] realParams

/-- The factor of X and Y with images 1 where the values are equal and 0 elsewhere. -/
noncomputable def same : Fn (Ext ℝ) :=
  { (Fn.ofGroup ⟨[X, Y], [X, Y]⟩ : Fn (Ext ℝ)) with data := .sparse [([0, 0], Arith.one), ([1, 1], Arith.one)] }

/-- The model with this factor only. -/
noncomputable def tied : State (Ext ℝ) :=
  match State.addConstFactor (some 0) (State.initial [same]) with
  | .ok s _ => s
  | _ => State.initial []

theorem tied_reach : Reach (fun s op => Prudent s op ∧ Steady s op) tied := by
  refine add_reach (s := State.initial [same]) (p := 0) (f := same) (.init ?_) rfl ?_ rfl
  · intro f hf
    rw [List.mem_singleton.mp hf]
    exact .correlated (g := ⟨[X, Y], [X, Y]⟩) (.soup (vars := [X, Y]) (by decide)) (by decide) rfl
  · intro u hu v hv
    have hu : u ∈ [X, Y] := hu
    have hv : v ∈ [X, Y] := hv
    simp only [List.mem_cons, List.not_mem_nil, or_false] at hu hv
    rcases hu with rfl | rfl <;> rcases hv with rfl | rfl <;> rfl

theorem tied_images : tied.Images linkRaw := by
  have hv : tied.vars = [X, Y] := rfl
  have hf : tied.factors = [0] := rfl
  intro p hp a ha
  rw [State.InRange, hv] at ha
  rw [hf] at hp
  cases List.mem_singleton.mp hp
  refine ⟨same, rfl, ?_, by unfold linkRaw; split <;> norm_num⟩
  have h : ∀ i < 2, ∀ j < 2, same.findTransformed [i, j] = .ok (.val (if i = j then 1 else 0)) := by
    intro i hi j hj
    match i, j, hi, hj with
    | 0, 0, _, _ => rw [if_pos rfl]; with_unfolding_all rfl
    | 0, 1, _, _ => rw [if_neg (by omega)]; with_unfolding_all rfl
    | 1, 0, _, _ => rw [if_neg (by omega)]; with_unfolding_all rfl
    | 1, 1, _, _ => rw [if_pos rfl]; with_unfolding_all rfl
  exact h (a X) (ha X (by simp)) (a Y) (ha Y (by simp))

/-- X and Y are hidden. -/
theorem pair_others {s : State (Ext ℝ)} (hv : s.vars = [X, Y]) (he : s.evidences = []) : s.OthersOf [] [X, Y] := by
  refine ⟨by decide, fun w => ?_⟩
  constructor
  · intro hw
    exact ⟨⟨by rw [hv]; exact hw, fun ⟨k, hk⟩ => by rw [he] at hk; cases hk⟩, by simp⟩
  · intro hw
    have := hw.1.1
    rwa [hv] at this

theorem pair_agrees {s : State (Ext ℝ)} (hv : s.vars = [X, Y]) (he : s.evidences = []) {a : Assign} (hx : a X < 2) (hy : a Y < 2) :
    s.Agrees a := by
  refine ⟨fun v h => ?_, fun v k h => by rw [he] at h; cases h⟩
  rw [hv] at h
  simp only [List.mem_cons, List.not_mem_nil, or_false] at h
  rcases h with rfl | rfl
  · exact hx
  · exact hy

theorem pair_start {s : State (Ext ℝ)} (hv : s.vars = [X, Y]) (he : s.evidences = []) {ord : List Var → List Var}
    (hord : ∀ l, (ord l).Perm l) {c : List Nat} (h : s.startCombination ord = .ok c) : c = [0, 0] := by
  unfold State.startCombination at h
  rw [hv, he] at h
  have : ord (AMap.keys ([] : List (Var × Nat))) = [] := (hord _).eq_nil
  rw [this] at h
  cases h
  rfl

theorem tied_drawn {ord : List Var → List Var} (hord : ∀ l, (ord l).Perm l) {v : Var} (hv : v ∈ tied.hid) {nd : SamplerNode (Ext ℝ)}
    (hn : State.NodeOf ord tied v nd) (u : ℝ) (h0 : 0 ≤ u) (h1 : u < 1) (draw : Nat → Nat → Ext ℝ) (t : Nat) {c c' : State.Sampling}
    (hd : draw t (c.drawn t) = .val u) (hc : c.values = [0, 0]) (h : tied.sampleTask draw nd t c = .ok c') : c'.values = [0, 0] := by
  obtain ⟨hH, hF⟩ := reach_sound tied_reach
  have hvs : tied.vars = [X, Y] := rfl
  have hfs : tied.factors = [0] := rfl
  have hvm : v = X ∨ v = Y := by
    have := (State.mem_hid.mp hv).1
    rw [hvs] at this
    simpa using this
  have hsize : v.size = 2 := by rcases hvm with rfl | rfl <;> rfl
  have ha : tied.Agrees (fun _ => 0) := pair_agrees rfl rfl (by simp) (by simp)
  have hne : X ≠ Y := by decide
  have w0 : tied.weight linkRaw (Function.update (fun _ => 0) v 0) = 1 := by
    unfold State.weight linkRaw
    rw [hfs]
    rcases hvm with rfl | rfl <;> simp
  have w1 : tied.weight linkRaw (Function.update (fun _ => 0) v 1) = 0 := by
    unfold State.weight linkRaw
    rw [hfs]
    rcases hvm with rfl | rfl <;> simp [Function.update, hne, hne.symm]
  have hd' := State.updateDistribution_conditional hH.inv.toCore hH.sep (hF trivial).evid tied_images hord hv hn ha
    ⟨0, by rw [hsize]; omega, by rw [w0]; exact one_ne_zero⟩
  have hr2 : List.range 2 = [0, 1] := rfl
  rw [hsize, hr2] at hd'
  simp only [List.map_cons, List.map_nil, List.sum_cons, List.sum_nil, w0, w1, add_zero, div_one] at hd'
  unfold State.sampleTask at h
  have hc' : c.values = tied.vars.map (fun _ => 0) := by rw [hc, hvs]; rfl
  rw [hc', State.read_assign hn] at h
  simp only at h
  unfold State.updatedValue at h
  rw [hd', hd] at h
  simp only at h
  have hs0 : sampleFromDiscrete (Ext.val u) [Ext.val 1, Ext.val 0] = 0 := by
    have := (sampleFromDiscrete_iff' (l := [1, 0]) (s := u) (by intro x hx; fin_cases hx <;> norm_num) (by norm_num) h0 h1 0).mpr
      ⟨by simp, .inl rfl, by simpa using h1.le⟩
    exact this
  rw [hs0] at h
  split at h
  · cases h
    simp only
    rw [hvs]
    have : nd.slot = 0 ∨ nd.slot = 1 := by
      have := (List.getElem?_eq_some_iff.mp hn.slot).1
      rw [hvs] at this
      simp at this
      omega
    rcases this with h | h <;> rw [h] <;> rfl
  · cases h

end Ex

/-- C56: factors which can be zero are needed to be excluded. The model is a factor which is 1 where X and Y are equal
and 0 elsewhere. Whatever the engines, the threads and the iterations no sample is (1, 1), whose probability in the model
is 1/2: the samples are all (0, 0), where the sampling starts (structure/GibbsSampler.cpp:50-63). -/
theorem C56_zero_violated : ∃ (_ : FloatParams ℝ) (s : State (Ext ℝ)) (φ : Nat → Assign → ℝ) (l : List Var) (e : Assign)
    (A : List Nat → Prop), Reach (fun s op => Prudent s op ∧ Steady s op) s ∧ s.Images φ ∧ s.OthersOf [] l ∧ s.Agrees e ∧
    s.expected φ l e A = 1 / 2 ∧
    ∀ {Ω : Type} [MeasurableSpace Ω] (P : Measure Ω) [IsProbabilityMeasure P] {U : Nat → Nat → Ω → ℝ} (_ : IdealEngines P U)
      (clock tenth : Nat → Nat) {ord : List Var → List Var} (_ : ∀ l, (ord l).Perm l) (n : Nat) (_ : 1 ≤ n)
      (ctx : SampleContext) (i : Nat), P.real (s.SamplePasses ord (Random.of U clock tenth) ctx n A i) = 0 := by
  letI := Ex.realParams
  refine ⟨Ex.realParams, Ex.tied, Ex.linkRaw, [Ex.X, Ex.Y], fun _ => 0, fun c => c = [1, 1], Ex.tied_reach, Ex.tied_images,
    Ex.pair_others rfl rfl, Ex.pair_agrees rfl rfl (by simp) (by simp), ?_, ?_⟩
  · have hv : Ex.tied.vars = [Ex.X, Ex.Y] := rfl
    have hf : Ex.tied.factors = [0] := rfl
    have hx : Ex.X.size = 2 := rfl
    have hy : Ex.Y.size = 2 := rfl
    have hne : Ex.X ≠ Ex.Y := by decide
    unfold State.expected State.weight
    rw [hv, hf]
    simp [Tree.sumOver, hx, hy, Ex.linkRaw, Finset.sum_range_succ, Function.update, hne, hne.symm]
    exact_mod_cast (by decide : (Finset.filter (fun x => x ≤ 1) (Finset.range 2)).card = 2)
  · intro Ω _ P _ U hU clock tenth ord hord n hn ctx i
    have hH := (reach_sound Ex.tied_reach).1
    obtain ⟨c, nds, _, hc, hnd, _, hget⟩ := State.makeSamples_get hord hn hH.inv (by rw [hH.pool]; rfl)
    have hc0 := Ex.pair_start rfl rfl hord hc
    have hempty : Ex.tied.SamplePasses ord (Random.of U clock tenth) ctx n (fun c => c = [1, 1]) i = ∅ := by
      refine Set.eq_empty_of_forall_notMem (fun ω hω => ?_)
      obtain ⟨s', l, c2, h1, h2, h3⟩ := hω
      obtain ⟨s'', l', k1, k2⟩ := hget (Random.of U clock tenth ω) ctx
      have hl := State.makeSamples_ok hord (Random.of U clock tenth ω) ctx hn hH.inv (by rw [hH.pool]; rfl)
      obtain ⟨_, l3, q1, _, _, _, _, _, q2, _⟩ := hl
      rw [h1] at q1 k1
      cases q1
      cases k1
      obtain ⟨c1, k3, k4⟩ := k2 i (by rw [← q2]; exact (List.getElem?_eq_some_iff.mp h2).1)
      have hval : c1.values = [0, 0] := State.evolve_keeps (fun c => c.values = [0, 0]) (fun g hg c c' hc h => by
        refine foldList_ok_inv (fun c : State.Sampling => c.values = [0, 0]) (fun b hb a ha b' h => ?_) hc h
        have hmem : a.1 ∈ nds := (State.samplingGroups_perm n nds).mem_iff.mp (List.mem_flatten.mpr ⟨g, hg, by
          obtain ⟨k, hk⟩ := List.mem_iff_getElem?.mp ha
          rw [List.getElem?_zipIdx] at hk
          cases hk2 : g[k]? with
          | none => rw [hk2] at hk; cases hk
          | some x => rw [hk2] at hk; cases hk; exact List.mem_of_getElem? hk2⟩)
        obtain ⟨v, hv, hnode⟩ := hnd a.1 hmem
        exact Ex.tied_drawn hord hv hnode _ (hU.range _ _ ω).1 (hU.range _ _ ω).2 _ _ (Random.of_draw ctx.seed ω _ _) hb h)
        _ hc0 k3
      rw [k4] at h2
      cases h2
      rw [hval] at h3
      cases h3
    rw [hempty]
    simp

namespace Ex
attribute [local instance] realParams

/-- The exponential factor of a variable with image 1 for every value. -/
noncomputable def flat (v : Var) : Fn (Ext ℝ) :=
  { (Fn.ofGroup ⟨[v], [v]⟩ : Fn (Ext ℝ)) with data := .dense [Arith.zero, Arith.zero], weight := some (.val 0) }

/-- X and Y, not joined. -/
noncomputable def apart : State (Ext ℝ) :=
  match State.addConstFactor (some 0) (State.initial [flat X, flat Y]) with
  | .ok s _ =>
    match State.addConstFactor (some 1) s with
    | .ok s _ => s
    | _ => State.initial []
  | _ => State.initial []

theorem apart_reach : Reach (fun s op => Prudent s op ∧ Steady s op) apart := by
  have hsq : ∀ v : Var, ∀ u ∈ (flat v).vars.group, ∀ w ∈ (flat v).vars.group, u.size = w.size := by
    intro v u hu w hw
    have hu : u ∈ [v] := hu
    have hw : w ∈ [v] := hw
    rw [List.mem_singleton.mp hu, List.mem_singleton.mp hw]
  refine add_reach (p := 1) (f := flat Y) (add_reach (s := State.initial [flat X, flat Y]) (p := 0) (f := flat X) (.init ?_) rfl
    (hsq X) rfl) rfl (hsq Y) rfl
  intro f hf
  simp only [List.mem_cons, List.not_mem_nil, or_false] at hf
  rcases hf with rfl | rfl
  · exact .exponential (.group (g := ⟨[X], [X]⟩) (.soup (vars := [X]) (by decide)) (by decide)) (w := .val 0) rfl
  · exact .exponential (.group (g := ⟨[Y], [Y]⟩) (.soup (vars := [Y]) (by decide)) (by decide)) (w := .val 0) rfl

theorem apart_images : apart.Images (fun _ _ => 1) := by
  have hv : apart.vars = [X, Y] := rfl
  have hf : apart.factors = [0, 1] := rfl
  intro p hp a ha
  rw [State.InRange, hv] at ha
  rw [hf] at hp
  have key : ∀ v, v = X ∨ v = Y → ∀ i < 2, (flat v).findTransformed [i] = .ok (.val 1) := by
    intro v hv i hi
    have h1 : (flat v).findImage [i] = .ok (.val 0) := by
      rcases hv with rfl | rfl
      · match i, hi with
        | 0, _ => with_unfolding_all rfl
        | 1, _ => with_unfolding_all rfl
      · match i, hi with
        | 0, _ => with_unfolding_all rfl
        | 1, _ => with_unfolding_all rfl
    unfold Fn.findTransformed
    rw [h1]
    have : (Ext.val (Real.exp (0 * 0)) : Ext ℝ) = .val 1 := by rw [zero_mul, Real.exp_zero]
    rw [← this]
    rfl
  simp only [List.mem_cons, List.not_mem_nil, or_false] at hp
  rcases hp with rfl | rfl
  · exact ⟨flat X, rfl, key X (.inl rfl) _ (ha X (by simp)), zero_le_one⟩
  · exact ⟨flat Y, rfl, key Y (.inr rfl) _ (ha Y (by simp)), zero_le_one⟩

theorem apart_drawing : State.Drawing apart (fun _ _ => 1) :=
  State.drawing apart_reach apart_images (fun _ _ _ _ => zero_lt_one)

/-- The distribution of either variable is uniform. -/
theorem apart_conditional {v : Var} (hv : v = X ∨ v = Y) (a : Assign) :
    apart.fullCond (fun _ _ => 1) v a = [1 / 2, 1 / 2] := by
  have hsize : v.size = 2 := by rcases hv with rfl | rfl <;> rfl
  have hr2 : List.range 2 = [0, 1] := rfl
  unfold State.fullCond Tree.rowSum State.weight
  rw [hsize, hr2]
  simp

/-- An iteration gives the same value to the two variables, if the engines of the two threads have the same seed. -/
theorem apart_group {ord : List Var → List Var} (hord : ∀ l, (ord l).Perm l) {v w : Var} (hv : v ∈ apart.hid) (hw : w ∈ apart.hid)
    (hne : v ≠ w) {x y : SamplerNode (Ext ℝ)} (hx : State.NodeOf ord apart v x) (hy : State.NodeOf ord apart w y)
    {draw : Nat → Nat → Ext ℝ} (hd : ∀ k, draw 0 k = draw 1 k) {c c' : State.Sampling}
    (hc : c.drawn 0 = c.drawn 1 ∧ ∃ i < 2, c.values = [i, i])
    (hlt : ∀ k, sampleFromDiscrete (draw 0 k) [.val (1 / 2), .val (1 / 2)] < 2)
    (h : apart.sampleGroup draw 2 c [x, y] = .ok c') : c'.drawn 0 = c'.drawn 1 ∧ ∃ i < 2, c'.values = [i, i] := by
  have hvs : apart.vars = [X, Y] := rfl
  have hm : ∀ v, v ∈ apart.hid → v = X ∨ v = Y := by
    intro v hv
    have := (State.mem_hid.mp hv).1
    rw [hvs] at this
    simpa using this
  obtain ⟨hc0, i, hi, hc1⟩ := hc
  have ha : apart.Agrees (fun _ => i) := pair_agrees rfl rfl hi hi
  have hval : c.values = apart.vars.map (fun _ => i) := by rw [hc1, hvs]; rfl
  unfold State.sampleGroup at h
  have hz : [x, y].zipIdx = [(x, 0), (y, 1)] := rfl
  rw [hz] at h
  simp only [Res.foldList] at h
  unfold State.sampleStep at h
  cases e1 : apart.sampleTask draw x (0 % 2) c with
  | ok c1 =>
    simp only at h
    rw [e1] at h
    simp only at h
    cases e2 : apart.sampleTask draw y (1 % 2) c1 with
    | ok c2 =>
      rw [e2] at h
      cases h
      obtain ⟨k1, k2⟩ := State.sampleTask_assign apart_drawing hord hv hx draw 0 ha hval e1
      rw [apart_conditional (hm v hv)] at k1
      simp only [List.map_cons, List.map_nil] at k1
      obtain ⟨j, hj⟩ : ∃ j, j = sampleFromDiscrete (draw 0 (c.drawn 0)) [Ext.val (1 / 2), Ext.val (1 / 2)] := ⟨_, rfl⟩
      have hj2 : j < 2 := by rw [hj]; exact hlt _
      rw [← hj] at k1
      have hsz : ∀ v, v ∈ apart.hid → j < v.size := fun v hv => by rcases hm v hv with rfl | rfl <;> exact hj2
      obtain ⟨k3, k4⟩ := State.sampleTask_assign apart_drawing hord hw hy draw 1 (ha.update hv (hsz v hv)) k1 e2
      have hd1 : c1.drawn 1 = c.drawn 0 := by rw [k2, hc0]; simp
      rw [apart_conditional (hm w hw), hd1, ← hd] at k3
      simp only [List.map_cons, List.map_nil] at k3
      rw [← hj] at k3
      refine ⟨?_, j, hj2, ?_⟩
      · rw [k4]
        simp only [if_neg (show (0 : Nat) ≠ 1 by omega), if_true]
        rw [k2]
        simp [hc0]
      · have hxy : X ≠ Y := by decide
        rw [k3, hvs]
        rcases hm v hv with rfl | rfl <;> rcases hm w hw with rfl | rfl
        · exact absurd rfl hne
        · simp [Function.update, hxy]
        · simp [Function.update, hxy.symm]
        · exact absurd rfl hne
    | throw => rw [e2] at h; cases h
    | ub => rw [e2] at h; cases h
  | throw => rw [e1] at h; cases h
  | ub => rw [e1] at h; cases h

end Ex

/-- C56: several threads without a seed are needed to be excluded. The engine of each thread is seeded with the time in
seconds when the vector of the engines is resized (structure/GibbsSampler.cpp:14-17, 106), so that in general they have the
same seed, and draw the same numbers. The model is X and Y, each with a constant factor and not joined, sampled by two
threads: whatever the numbers and the iterations no sample is (0, 1), whose probability in the model is 1/4. -/
theorem C56_clock_violated : ∃ (_ : FloatParams ℝ) (s : State (Ext ℝ)) (φ : Nat → Assign → ℝ) (l : List Var) (e : Assign)
    (A : List Nat → Prop), Reach (fun s op => Prudent s op ∧ Steady s op) s ∧ s.Images φ ∧
    (∀ p ∈ s.factors, ∀ a, s.Agrees a → 0 < φ p a) ∧ s.OthersOf [] l ∧ s.Agrees e ∧ s.expected φ l e A = 1 / 4 ∧
    ∀ {Ω : Type} [MeasurableSpace Ω] (P : Measure Ω) [IsProbabilityMeasure P] {U : Nat → Nat → Ω → ℝ} (_ : IdealEngines P U)
      (time : Nat) (tenth : Nat → Nat) {ord : List Var → List Var} (_ : ∀ l, (ord l).Perm l) (ctx : SampleContext)
      (_ : ctx.seed = none) (i : Nat), P.real (s.SamplePasses ord (Random.of U (fun _ => time) tenth) ctx 2 A i) = 0 := by
  letI := Ex.realParams
  refine ⟨Ex.realParams, Ex.apart, fun _ _ => 1, [Ex.X, Ex.Y], fun _ => 0, fun c => c = [0, 1], Ex.apart_reach, Ex.apart_images,
    fun _ _ _ _ => zero_lt_one, Ex.pair_others rfl rfl, Ex.pair_agrees rfl rfl (by simp) (by simp), ?_, ?_⟩
  · have hv : Ex.apart.vars = [Ex.X, Ex.Y] := rfl
    have hx : Ex.X.size = 2 := rfl
    have hy : Ex.Y.size = 2 := rfl
    have hne : Ex.X ≠ Ex.Y := by decide
    unfold State.expected State.weight
    rw [hv]
    simp [Tree.sumOver, hx, hy, Finset.sum_range_succ, Function.update, hne, hne.symm]
    norm_num
  · intro Ω _ P _ U hU time tenth ord hord ctx hseed i
    have hH := (reach_sound Ex.apart_reach).1
    obtain ⟨c, nds, _, hc, hnd, hperm, hget⟩ := State.makeSamples_get hord (n := 2) (by omega) hH.inv (by rw [hH.pool]; rfl)
    have hc0 := Ex.pair_start rfl rfl hord hc
    have hhid : Ex.apart.hid = [Ex.X, Ex.Y] := by with_unfolding_all rfl
    have hempty : Ex.apart.SamplePasses ord (Random.of U (fun _ => time) tenth) ctx 2 (fun c => c = [0, 1]) i = ∅ := by
      refine Set.eq_empty_of_forall_notMem (fun ω hω => ?_)
      obtain ⟨s', l, c2, h1, h2, h3⟩ := hω
      obtain ⟨s'', l', k1, k2⟩ := hget (Random.of U (fun _ => time) tenth ω) ctx
      have hl := State.makeSamples_ok hord (Random.of U (fun _ => time) tenth ω) ctx (n := 2) (by omega) hH.inv (by rw [hH.pool]; rfl)
      obtain ⟨_, l3, q1, _, _, _, _, _, q2, _⟩ := hl
      rw [h1] at q1 k1
      cases q1
      cases k1
      obtain ⟨c1, k3, k4⟩ := k2 i (by rw [← q2]; exact (List.getElem?_eq_some_iff.mp h2).1)
      have hmap : nds.map (fun nd => Ex.apart.vars[nd.slot]?) = (nds.filterMap (fun nd => Ex.apart.vars[nd.slot]?)).map some := by
        clear hperm hget k2 k3
        induction nds with
        | nil => rfl
        | cons x nds ih =>
          obtain ⟨v, _, hv⟩ := hnd x (by simp)
          rw [List.map_cons, List.filterMap_cons_some (f := fun nd : SamplerNode (Ext ℝ) => Ex.apart.vars[nd.slot]?) hv.slot, List.map_cons, hv.slot, ih (fun nd h => hnd nd (by simp [h]))]
      rw [hhid] at hperm
      have hlen : nds.length = 2 := by
        have := congrArg List.length hmap
        rw [List.length_map, List.length_map, hperm.length_eq] at this
        exact this
      have hval : c1.drawn 0 = c1.drawn 1 ∧ ∃ i < 2, c1.values = [i, i] := by
        obtain ⟨x, y, rfl⟩ := List.length_eq_two.mp hlen
        obtain ⟨v, hv, hx⟩ := hnd x (by simp)
        obtain ⟨w, hw, hy⟩ := hnd y (by simp)
        have hvw : v ≠ w := by
          rw [List.filterMap_cons_some (f := fun nd : SamplerNode (Ext ℝ) => Ex.apart.vars[nd.slot]?) hx.slot, List.filterMap_cons_some (f := fun nd : SamplerNode (Ext ℝ) => Ex.apart.vars[nd.slot]?) hy.slot] at hperm
          have := hperm.nodup_iff.mpr (by decide)
          simp only [List.filterMap_nil, List.nodup_cons, List.mem_singleton] at this
          exact this.1
        have hdeps : ∀ (v : Var) (nd : SamplerNode (Ext ℝ)), v ∈ Ex.apart.hid → State.NodeOf ord Ex.apart v nd → nd.deps = [] := by
          intro v nd hv hn
          have h1 : Ex.apart.activeKeys v = [] := by
            rw [hhid] at hv
            simp only [List.mem_cons, List.not_mem_nil, or_false] at hv
            rcases hv with rfl | rfl <;> with_unfolding_all rfl
          have h2 := hn.senders
          rw [h1, (hord []).eq_nil] at h2
          exact List.map_eq_nil_iff.mp h2
        have hgs : State.samplingGroups 2 [x, y] = [[x, y]] := by
          unfold State.samplingGroups
          rw [if_neg (by omega), State.samplerGroups_cons]
          simp [State.samplerPass, hdeps v x hv hx, hdeps w y hw hy, State.samplerGroups, State.samplerGroupsUpTo]
        rw [hgs] at k3
        refine State.evolve_keeps (fun c => c.drawn 0 = c.drawn 1 ∧ ∃ i < 2, c.values = [i, i]) (fun g hg c c' hc h => ?_)
          _ ⟨rfl, 0, by omega, hc0⟩ k3
        rw [List.mem_singleton.mp hg] at h
        refine Ex.apart_group hord hv hw hvw hx hy (fun k => ?_) hc (fun k => ?_) h
        · rw [hseed]; rfl
        · rw [Random.of_draw]
          have := (sampleFromDiscrete_iff' (l := [1 / 2, 1 / 2]) (s := U (seedOf (fun _ => time) ctx.seed 0) k ω)
            (by intro x hx; fin_cases hx <;> norm_num) (by norm_num) (hU.range _ _ ω).1 (hU.range _ _ ω).2 _).mp rfl
          exact this.1
      rw [k4] at h2
      cases h2
      obtain ⟨_, j, _, hj⟩ := hval
      rw [hj] at h3
      injection h3 with h4 h5
      injection h5 with h6 _
      omega
    rw [hempty]
    simp

end violated

end EFG
