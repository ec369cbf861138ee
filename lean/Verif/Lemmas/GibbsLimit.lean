import Verif.Lemmas.Frequency
import Verif.Lemmas.GibbsLaw
/-
How far the samples are from the distribution of the model.
-/

set_option linter.unusedSectionVars false

namespace EFG
open MeasureTheory ProbabilityTheory

namespace State
variable [FloatParams ℝ]

/-- The bounds on the probabilities of tests on the samples. -/
structure Mixing {Ω : Type} [MeasurableSpace Ω] (P : Measure Ω) (S : (List Nat → Prop) → Nat → Set Ω)
    (p : (List Nat → Prop) → ℝ) (ρ : ℝ) (samples delta transient : Nat) : Prop where
  meas : ∀ A, ∀ i < samples, MeasurableSet (S A i)
  one : ∀ A, ∀ i < samples, |P.real (S A i) - p A| ≤ ρ ^ (transient + i * delta)
  two : ∀ A B i j, i ≤ j → j < samples →
    |P.real (S A i ∩ S B j) - P.real (S A i) * p B| ≤ P.real (S A i) * ρ ^ ((j - i) * delta)

theorem sweeps_add {n : Var → Nat} {w : Assign → ℝ} (vs : List Var) (i j : Nat) (μ : Assign → ℝ) :
    Tree.sweeps n w vs (i + j) μ = Tree.sweeps n w vs j (Tree.sweeps n w vs i μ) := by
  induction i generalizing μ with
  | zero => rw [Nat.zero_add]; rfl
  | succ i ih => rw [Nat.add_right_comm]; exact ih _

theorem Near.refl_of {s : State (Ext ℝ)} {l : List Var} (hl : s.OthersOf [] l) {e : Assign} (he : s.Agrees e) :
    Tree.Near Var.size l e e :=
  ⟨fun _ _ => rfl, fun u hu => he.1 u (mem_hid.mp ((mem_others hl).mp hu)).1⟩

open Classical in
theorem samples_law {s : State (Ext ℝ)} {φ : Nat → Assign → ℝ} (hs : Drawing s φ) (hI : Inv s) (hp : s.pool.isSome)
    {l : List Var} (hl : s.OthersOf [] l) {e : Assign} (he : s.Agrees e) : ∃ δ : ℝ, 0 < δ ∧ δ ≤ 1 ∧
    ∀ {Ω : Type} [MeasurableSpace Ω] (P : Measure Ω) [IsProbabilityMeasure P] {ord : List Var → List Var}
      (_ : ∀ l, (ord l).Perm l) {n : Nat} (_ : 1 ≤ n) (_ : n ≤ 2 ^ 32) {U : Nat → Nat → Ω → ℝ} (_ : IdealEngines P U)
      {ctx : SampleContext} (_ : ctx.seed.isSome ∨ n = 1) (clock tenth : Nat → Nat),
      Mixing P (s.SamplePasses ord (Random.of U clock tenth) ctx n) (s.expected φ l e) (1 - δ) ctx.samples (ctx.steps tenth).1 (ctx.steps tenth).2 := by
  have hne := Near.refl_of hl he
  have hw : ∀ a, Tree.Near Var.size l e a → 0 < s.weight φ a := fun a ha => hs.pos a (he.near hl ha)
  obtain ⟨ε, h0, h1, hε⟩ := Tree.exists_rate hw
  have hδ1 : ε ^ l.length ≤ 1 := pow_le_one₀ h0.le h1
  refine ⟨ε ^ l.length, pow_pos h0 _, hδ1, ?_⟩
  intro Ω _ P _ ord hord n hn hn' U0 hU0 ctx hseed clock tenth
  set rnd := Random.of U0 clock tenth with hrnd
  have ht : ∀ ω, (rnd ω).tenth = tenth := fun _ => rfl
  have hU := hU0.threads (seedOf_inj (clock := clock) (seed := ctx.seed) (n := n) (hseed.imp (fun h => ⟨h, hn'⟩) id))
  have hdraw : ∀ ω, ∀ t < n, ∀ k, (rnd ω).draw ctx.seed t k = .val (U0 (seedOf clock ctx.seed t) k ω) :=
    fun ω t _ k => Random.of_draw ctx.seed ω t k
  set U := fun t k => U0 (seedOf clock ctx.seed t) k with hUdef
  obtain ⟨c, nds, hc, _, hnd, hperm, hget⟩ := makeSamples_get hord hn hI hp
  set gs := samplingGroups n nds with hgs
  have hg : ∀ g ∈ gs, ∀ nd ∈ g, ∃ v, v ∈ s.hid ∧ NodeOf ord s v nd := fun g hg nd hnd' =>
    hnd nd ((samplingGroups_perm n nds).mem_iff.mp (List.mem_flatten.mpr ⟨g, hg, hnd'⟩))
  have hvs : (s.varsOf gs.flatten).Perm l := by
    have h2 : (s.varsOf gs.flatten).Perm s.hid := ((samplingGroups_perm n nds).filterMap _).trans hperm
    refine h2.trans ?_
    rw [List.perm_ext_iff_of_nodup (hid_nodup hs.core.net) hl.1]
    exact fun v => (mem_others hl).symm
  set vs := s.varsOf gs.flatten
  -- the combinations at the times of the samples
  have hX0 : Follows s P n U Set.univ (fun _ => ⟨c, fun _ => 0⟩) (fun _ => 0) (fun a => if c = s.vars.map a then 1 else 0) :=
    Follows.start hc
  have hat : ∀ k, ∃ X D, (∀ ω, s.evolve ((rnd ω).draw ctx.seed) n gs k ⟨c, fun _ => 0⟩ = .ok (X ω)) ∧
      Follows s P n U Set.univ X D (Tree.sweeps Var.size (s.weight φ) vs k (fun a => if c = s.vars.map a then 1 else 0)) :=
    fun k => hX0.evolve hs hord hn hU (draw := fun ω => (rnd ω).draw ctx.seed) hdraw hg k
  have hpass : ∀ (A : List Nat → Prop) (i : Nat), i < ctx.samples → ∀ X : Ω → Sampling,
      (∀ ω, s.evolve ((rnd ω).draw ctx.seed) n gs ((ctx.steps tenth).2 + i * (ctx.steps tenth).1) ⟨c, fun _ => 0⟩ = .ok (X ω)) →
      s.SamplePasses ord rnd ctx n A i = {ω | A (X ω).values} := by
    intro A i hi X hX
    ext ω
    obtain ⟨s', l', e1, e2⟩ := hget (rnd ω) ctx
    obtain ⟨c1, e3, e4⟩ := e2 i hi
    rw [ht ω, hX ω] at e3
    cases e3
    unfold SamplePasses
    simp only [Set.mem_setOf_eq]
    constructor
    · rintro ⟨s2, l2, c2, k1, k2, k3⟩
      rw [e1] at k1
      cases k1
      rw [e4] at k2
      cases k2
      exact k3
    · intro h
      exact ⟨s', l', _, e1, e4, h⟩
  have hmass : Tree.sumOver Var.size l (fun a => if c = s.vars.map a then (1 : ℝ) else 0) e = 1 := by
    have := (hX0.test hs.core hl hU (fun _ => True) he).2
    simp only [Set.setOf_true, Set.univ_inter, if_true, probReal_univ] at this
    exact this.symm
  have hδ : 0 ≤ 1 - ε ^ l.length := by linarith
  have hmassk : ∀ k, ∀ (A : List Nat → Prop) (μ : Assign → ℝ), (∀ a, s.Agrees a → 0 ≤ μ a) → ∀ q, Tree.sumOver Var.size l μ e = q →
      |Tree.sumOver Var.size l (fun b => if A (s.vars.map b) then Tree.sweeps Var.size (s.weight φ) vs k μ b else 0) e -
        q * s.expected φ l e A| ≤ q * (1 - ε ^ l.length) ^ k := by
    intro k A μ hμ q hq
    have hq0 : 0 ≤ q := by
      rw [← hq]
      exact Tree.sumOver_nonneg Var.size _ (fun b h1 h2 => hμ b (he.near hl ⟨h1, h2⟩))
    refine Tree.sweeps_bounds hw hne h0.le hε hvs hδ1 (fun b => A (s.vars.map b)) k hq0 hq (fun a ha => ?_)
    rw [sub_self, zero_mul]
    exact hμ a (he.near hl ha)
  have hone : ∀ (A : List Nat → Prop) (i : Nat), i < ctx.samples →
      MeasurableSet (s.SamplePasses ord rnd ctx n A i) ∧ |P.real (s.SamplePasses ord rnd ctx n A i) - s.expected φ l e A| ≤
        (1 - ε ^ l.length) ^ ((ctx.steps tenth).2 + i * (ctx.steps tenth).1) := by
    intro A i hi
    obtain ⟨X, D, hX, hF⟩ := hat ((ctx.steps tenth).2 + i * (ctx.steps tenth).1)
    rw [hpass A i hi X hX]
    obtain ⟨m1, m2⟩ := hF.test hs.core hl hU A he
    refine ⟨past_le hU D _ m1, ?_⟩
    rw [Set.univ_inter] at m2
    rw [m2]
    have := hmassk ((ctx.steps tenth).2 + i * (ctx.steps tenth).1) A _ (fun a _ => by split <;> norm_num) 1 hmass
    rwa [one_mul, one_mul] at this
  refine ⟨fun A i hi => (hone A i hi).1, fun A i hi => (hone A i hi).2, fun A B i j hij hj => ?_⟩
  obtain ⟨X, D, hX, hF⟩ := hat ((ctx.steps tenth).2 + i * (ctx.steps tenth).1)
  have hT := hF.tested hs.core hl hU A he
  obtain ⟨Y, D', hY, hG⟩ := hT.evolve hs hord hn hU (draw := fun ω => (rnd ω).draw ctx.seed) hdraw hg
    ((j - i) * (ctx.steps tenth).1)
  have hY' : ∀ ω, s.evolve ((rnd ω).draw ctx.seed) n gs ((ctx.steps tenth).2 + j * (ctx.steps tenth).1) ⟨c, fun _ => 0⟩ =
      .ok (Y ω) := by
    intro ω
    have : (ctx.steps tenth).2 + j * (ctx.steps tenth).1 =
        (ctx.steps tenth).2 + i * (ctx.steps tenth).1 + (j - i) * (ctx.steps tenth).1 := by
      obtain ⟨d, rfl⟩ := Nat.exists_eq_add_of_le hij
      rw [Nat.add_sub_cancel_left, Nat.add_mul]
      omega
    rw [this, evolve_add s _ _ _ _ _ (hX ω)]
    exact hY ω
  rw [hpass A i (by omega) X hX, hpass B j hj Y hY']
  have m1 := (hF.test hs.core hl hU A he).2
  have m2 := (hG.test hs.core hl hU B he).2
  rw [Set.univ_inter] at m1 m2
  rw [m2]
  refine hmassk _ B _ (fun a ha => ?_) _ m1.symm
  split
  · rw [← hF.law a ha]; exact measureReal_nonneg
  · exact le_rfl

open Classical in
theorem expected_mem {s : State (Ext ℝ)} {φ : Nat → Assign → ℝ} (hs : Drawing s φ) {l : List Var} (hl : s.OthersOf [] l)
    {e : Assign} (he : s.Agrees e) (A : List Nat → Prop) : 0 ≤ s.expected φ l e A ∧ s.expected φ l e A ≤ 1 := by
  have hpos : ∀ b, (∀ u, u ∉ l → b u = e u) → (∀ u ∈ l, b u < u.size) → 0 ≤ s.weight φ b :=
    fun b h1 h2 => (hs.pos b (he.near hl ⟨h1, h2⟩)).le
  have h1 : 0 ≤ Tree.sumOver Var.size l (fun b => if A (s.vars.map b) then s.weight φ b else 0) e :=
    Tree.sumOver_nonneg _ _ (fun b h1 h2 => by split; exacts [hpos b h1 h2, le_rfl])
  have h2 : 0 ≤ Tree.sumOver Var.size l (s.weight φ) e := Tree.sumOver_nonneg _ _ hpos
  have h3 : 0 ≤ Tree.sumOver Var.size l (fun b => s.weight φ b - 1 * (if A (s.vars.map b) then s.weight φ b else 0)) e :=
    Tree.sumOver_nonneg _ _ (fun b h1 h2 => by have := hpos b h1 h2; split <;> linarith)
  rw [Tree.sumOver_sub] at h3
  exact ⟨div_nonneg h1 h2, div_le_one_of_le₀ (by linarith) h2⟩

end State
end EFG
