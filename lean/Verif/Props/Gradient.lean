import Verif.Lemmas.Likelihood
import Mathlib.Data.List.Sections
import Verif.Props.TrainExamples
/-
C41: what the gradient of the weights is.
-/

set_option linter.unusedSectionVars false

namespace EFG

section
variable {K : Type} [Field K] [LinearOrder K] [IsStrictOrderedRing K] [FloatParams K]

/-- The gradient of a random field without cycles, whose factors need not be symmetric: for each tunable cluster the mean
over the samples of the sum of the raw images of its factors, minus the sum over its factors of the expectation of the
raw image without evidences, under the distribution which has the factors of two variables with their values exchanged,
except for the factor itself. Missing: the exact gradient (`C41_transposed_violated`), and weights must not have been
changed after something computed from them was cached (`C41_stale_violated`). -/
theorem C41_transposed_partial {s : State (Ext K)} (h : Reach (fun s op => Prudent s op ∧ Steady s op) s)
    {ord : List Var → List Var} (hord : ∀ l, (ord l).Perm l) {sched : Sched} (hsched : ∀ l, (sched l).Perm l)
    {samples : List (List Nat)} (hne : samples ≠ []) (hv : ∀ c ∈ samples, Valid (s.vars.map Var.size) c)
    {n : Nat} (hn : 1 ≤ n) {φ ρ : Nat → Assign → K} (hφ : s.Images φ) (hρ : s.RawImages ρ)
    (htree : ∀ v ∈ s.vars, s.unconditioned.TreeAt v)
    (hread : ∃ a, s.InRange a ∧ s.unconditioned.readWeight φ a ≠ 0)
    (hpos : ∀ p ∈ s.tunables, ∃ a, s.InRange a ∧ s.unconditioned.readWeightIn (s.groupOf p) φ a ≠ 0) :
    ∃ s', State.getWeightsGradient ord sched samples n s = .ok s' (s.tunableClusters.map (fun c =>
      .val (s.sampleMean samples (State.statistic ρ c) - (c.map (fun p => s.readMean φ p (ρ p))).sum))) :=
  State.gradient_read hord hsched hn (reach_sound h) (reach_tuned h) hne hv hφ hρ htree hread hpos

/-- The gradient of a random field without cycles: for each tunable cluster the mean over the samples of the sum of
the raw images of its factors, minus the expectation of that sum under the current model, without evidences. Partial:
the factors which join two variables have to be symmetric (`C41_transposed_violated`), and weights must not have been
changed after something computed from them was cached (`C41_stale_violated`). -/
theorem C41_gradient_partial {s : State (Ext K)} (h : Reach (fun s op => Prudent s op ∧ Steady s op) s)
    {ord : List Var → List Var} (hord : ∀ l, (ord l).Perm l) {sched : Sched} (hsched : ∀ l, (sched l).Perm l)
    {samples : List (List Nat)} (hne : samples ≠ []) (hv : ∀ c ∈ samples, Valid (s.vars.map Var.size) c)
    {n : Nat} (hn : 1 ≤ n) {φ ρ : Nat → Assign → K} (hφ : s.Images φ) (hρ : s.RawImages ρ)
    (hy : s.unconditioned.Symmetric φ) (htree : ∀ v ∈ s.vars, s.unconditioned.TreeAt v)
    (hpos : ∃ a, s.InRange a ∧ s.weight φ a ≠ 0) :
    ∃ s', State.getWeightsGradient ord sched samples n s = .ok s' (s.tunableClusters.map (fun c =>
      .val (s.sampleMean samples (State.statistic ρ c) - s.modelMean φ (State.statistic ρ c)))) :=
  State.gradient_val hord hsched hn (reach_sound h) (reach_tuned h) hne hv hφ hρ hy htree hpos

end

/-- With the exact exponential, the gradient is the derivative of the average log-likelihood of the samples with
respect to the weight of each cluster. Partial for the same reasons as `C41_gradient_partial`; the likelihood of the
samples has to be positive. -/
theorem C41_derivative_partial [FloatParams ℝ] (hexp : ∀ x : ℝ, FloatParams.expK x = Real.exp x) {s : State (Ext ℝ)}
    (h : Reach (fun s op => Prudent s op ∧ Steady s op) s)
    {ord : List Var → List Var} (hord : ∀ l, (ord l).Perm l) {sched : Sched} (hsched : ∀ l, (sched l).Perm l)
    {samples : List (List Nat)} (hne : samples ≠ []) (hv : ∀ c ∈ samples, Valid (s.vars.map Var.size) c)
    {n : Nat} (hn : 1 ≤ n) {φ ρ : Nat → Assign → ℝ} (hφ : s.Images φ) (hρ : s.RawImages ρ)
    (hy : s.unconditioned.Symmetric φ) (htree : ∀ v ∈ s.vars, s.unconditioned.TreeAt v)
    (hpos : ∀ c ∈ samples, s.weight φ (s.sampleAt c) ≠ 0) {xs : List ℝ} (hxs : s.getWeights = .ok (xs.map .val)) :
    ∃ (s' : State (Ext ℝ)) (g : List ℝ), State.getWeightsGradient ord sched samples n s = .ok s' (g.map .val) ∧ g.length = xs.length ∧
      ∀ k x d, xs[k]? = some x → g[k]? = some d →
        HasDerivAt (fun y => State.logLikelihood samples (s.reweighed (xs.set k y))) d x := by
  have hs := reach_sound h
  have hc := hs.healthy.inv.toCore
  obtain ⟨c0, l, rfl⟩ := List.exists_cons_of_ne_nil hne
  obtain ⟨s', h1⟩ := C41_gradient_partial h hord hsched hne hv hn hφ hρ hy htree
    ⟨s.sampleAt c0, State.sampleAt_inRange hc.net.distinct.nodup (hv c0 (by simp)), hpos c0 (by simp)⟩
  refine ⟨s', s.tunableClusters.map (fun c => s.sampleMean (c0 :: l) (State.statistic ρ c) -
    s.modelMean φ (State.statistic ρ c)), ?_, ?_, ?_⟩
  · rw [h1, List.map_map]; rfl
  · have := (Res.mapList_eq_ok.mp hxs).length_eq
    simpa [State.tunableClusters] using this
  · intro k x d hx hd
    rw [List.getElem?_map] at hd
    cases hk : s.tunableClusters[k]? with
    | none => rw [hk] at hd; cases hd
    | some c =>
      rw [hk] at hd
      cases hd
      exact State.logLikelihood_deriv hexp hc (reach_tuned h).weighted
        (reach_shared h (fun s op ha p w he => ha.2.own p w he)) hφ hρ hxs hne hv hpos hk hx

/-! ### Examples -/

namespace Ex

/-- The images of the functions of a heap. -/
def img (h : Heap (Ext ℚ)) (p : Nat) (a : Assign) : ℚ :=
  match h[p]? with
  | some f =>
    match f.findTransformed (f.vars.group.map a) with
    | .ok (.val x) => x
    | _ => 0
  | none => 0

/-- The raw images of the functions of a heap. -/
def raw (h : Heap (Ext ℚ)) (p : Nat) (a : Assign) : ℚ :=
  match h[p]? with
  | some f =>
    match f.findImage (f.vars.group.map a) with
    | .ok (.val x) => x
    | _ => 0
  | none => 0

/-- A check on all the combinations of the values of the variables of a function. -/
def okAll (vars : List Var) (c : Fn (Ext ℚ) → List Nat → Bool) (h : Heap (Ext ℚ)) (p : Nat) : Bool :=
  match h[p]? with
  | some f => f.vars.group.all vars.contains &&
      (f.vars.group.map (fun v => List.range v.size)).sections.all (c f)
  | none => false

theorem okAll_of {s : State (Ext ℚ)} {c : Fn (Ext ℚ) → List Nat → Bool} {p : Nat}
    (h : okAll s.vars c s.heap p = true) {a : Assign} (ha : s.InRange a) :
    ∃ f, s.heap[p]? = some f ∧ c f (f.vars.group.map a) = true := by
  unfold okAll at h
  cases hp : s.heap[p]? with
  | none => rw [hp] at h; cases h
  | some f =>
    rw [hp] at h
    simp only [Bool.and_eq_true, List.all_eq_true] at h
    refine ⟨f, rfl, h.2 (f.vars.group.map a) ?_⟩
    rw [List.mem_sections, List.forall₂_map_left_iff, List.forall₂_map_right_iff]
    exact List.forall₂_same.mpr (fun v hv => by simpa using ha v (by simpa using h.1 v hv))

def isImg (f : Fn (Ext ℚ)) (c : List Nat) : Bool :=
  match f.findTransformed c with
  | .ok (.val x) => decide (0 ≤ x)
  | _ => false

def isRaw (f : Fn (Ext ℚ)) (c : List Nat) : Bool :=
  match f.findImage c with
  | .ok (.val _) => true
  | _ => false

theorem img_images {s : State (Ext ℚ)} (hf : s.factors.all (okAll s.vars isImg s.heap) = true) :
    s.Images (img s.heap) := by
  intro p hp a ha
  obtain ⟨f, h1, h2⟩ := okAll_of ((List.all_eq_true.mp hf) p hp) ha
  refine ⟨f, h1, ?_⟩
  unfold img
  rw [h1]
  unfold isImg at h2
  simp only
  cases hr : f.findTransformed (f.vars.group.map a) with
  | ok x =>
    rw [hr] at h2
    cases x with
    | val x => exact ⟨rfl, by simpa using h2⟩
    | nan => cases h2
  | throw => rw [hr] at h2; cases h2
  | ub => rw [hr] at h2; cases h2

theorem raw_images {s : State (Ext ℚ)} (hf : s.tunables.all (okAll s.vars isRaw s.heap) = true) :
    s.RawImages (raw s.heap) := by
  intro p hp a ha
  obtain ⟨f, h1, h2⟩ := okAll_of ((List.all_eq_true.mp hf) p hp) ha
  refine ⟨f, h1, ?_⟩
  unfold raw
  rw [h1]
  unfold isRaw at h2
  simp only
  cases hr : f.findImage (f.vars.group.map a) with
  | ok x =>
    rw [hr] at h2
    cases x with
    | val x => rfl
    | nan => cases h2
  | throw => rw [hr] at h2; cases h2
  | ub => rw [hr] at h2; cases h2

/-- Exchanging the values of a function of two variables changes nothing. -/
def isSymmetric (f : Fn (Ext ℚ)) : Bool :=
  match f.vars.group with
  | [u, w] => (List.range u.size).all (fun i => (List.range w.size).all (fun j =>
      decide (f.findTransformed [i, j] = f.findTransformed [j, i])))
  | _ => true

theorem img_symmetric {s : State (Ext ℚ)} (hf : ∀ p ∈ s.factors, ∀ f, s.heap[p]? = some f → isSymmetric f = true) :
    s.Symmetric (img s.heap) := by
  rintro p u w ⟨hp, f, hpf, hg⟩ hu hw a ha
  have := hf p hp f hpf
  unfold isSymmetric at this
  unfold img
  rw [hpf]
  simp only [hg, List.all_eq_true, List.mem_range, decide_eq_true_eq, List.map_cons, List.map_nil] at this ⊢
  rw [this (a u) (ha u hu.1) (a w) (ha w hw.1)]
  by_cases h : w = u
  · subst h; simp [Assign.exchange]
  · simp [Assign.exchange, h]

end Ex

namespace Ex

/-- The product of the factors, as the library reads them for a joint distribution of `G`, computed. -/
def readB (s : State (Ext ℚ)) (G : List Var) (φ : Nat → Assign → ℚ) (a : Assign) : ℚ :=
  (s.factors.map (fun p => φ p (match s.heap[p]? with
    | some f =>
      match f.vars.group with
      | [u, w] => if ((u ∈ s.vars ∧ u ∉ s.evidences.map Prod.fst) ∧ w ∈ s.vars ∧ w ∉ s.evidences.map Prod.fst) ∧
          ¬(u ∈ G ∧ w ∈ G) then a.exchange u w else a
      | _ => a
    | none => a))).prod

theorem readB_eq (s : State (Ext ℚ)) (G : List Var) (φ : Nat → Assign → ℚ) : s.readWeightIn G φ = readB s G φ := by
  have hh : ∀ v, s.Hidden v ↔ (v ∈ s.vars ∧ v ∉ s.evidences.map Prod.fst) := by
    intro v
    simp [State.Hidden, State.Observes]
  funext a
  unfold State.readWeightIn readB State.readAtIn
  congr 1
  refine List.map_congr_left (fun p _ => ?_)
  congr 1
  cases s.heap[p]? with
  | none => rfl
  | some f =>
    simp only
    split
    · rename_i u w hg
      rw [hg]
      simp only
      by_cases h : (s.Hidden u ∧ s.Hidden w) ∧ ¬(u ∈ G ∧ w ∈ G)
      · rw [if_pos h, if_pos (by rw [← hh, ← hh]; exact h)]
      · rw [if_neg h, if_neg (by rw [← hh, ← hh]; exact h)]
    · rename_i hg
      split
      · rename_i u w hg'
        exact absurd hg' (hg u w)
      · rfl

/-- The functions of the examples and a tunable factor which is not symmetric. -/
def heapA : Heap (Ext ℚ) := heapT ++ [expo (bin X Y 0 1 2 0) 1]

theorem heapA_reach : ∀ f ∈ heapA, FactorReach f := by
  intro f hf
  rcases List.mem_append.mp hf with hf | hf
  · exact heapT_reach f hf
  · rw [List.mem_singleton.mp hf]
    exact expo_reach (build_reach (.soup (vars := [X, Y]) (by decide)) (by decide) _) _

/-- X with a tunable factor, joined to Y by a tunable factor which is not symmetric. -/
def askew : State (Ext ℚ) := runT [.tune 0 none, .tune 10 none] (State.initial heapA)

theorem askew_reach : Reach (fun s op => Prudent s op ∧ Steady s op) askew :=
  runT_reach (c := fun s a => a.typed s && a.sizes s && a.keeps) (fun _ _ h => by
    rw [Bool.and_eq_true, Bool.and_eq_true] at h
    exact ⟨TAct.valid h.1.1, TAct.prudent h.1.2, TAct.steady h.2⟩) _ (.init heapA_reach) (by decide +kernel)

end Ex

/-- X with a tunable factor, joined to Y by a tunable factor which is not symmetric: for the first factor the images of
the second are transposed, for the second they are not. -/
example : ∃ s', State.getWeightsGradient Ex.rev List.reverse [[0, 1], [1, 1]] 2 Ex.askew =
    .ok s' [.val 0, .val (-29 / 30)] := by
  have hv : Ex.askew.vars = [Ex.X, Ex.Y] := by decide +kernel
  obtain ⟨s', h⟩ := C41_transposed_partial Ex.askew_reach (ord := Ex.rev) Ex.rev_perm (sched := List.reverse)
    (fun l => List.reverse_perm l) (samples := [[0, 1], [1, 1]]) (by simp)
    (by rw [hv]; intro c hc; fin_cases hc <;> exact .cons (by decide) (.cons (by decide) .nil)) (n := 2) (by omega)
    (φ := Ex.img Ex.heapA) (ρ := Ex.raw Ex.heapA)
    (Ex.img_images (by decide +kernel)) (Ex.raw_images (by decide +kernel))
    (fun v _ => Ex.two_tree (by simp only [State.unconditioned]; rw [hv]; simp) v)
    ⟨fun _ => 0, by rw [State.InRange, hv]; decide, by rw [← State.readWeightIn_nil, Ex.readB_eq]; decide +kernel⟩
    (by
      intro p hp
      refine ⟨fun _ => 0, by rw [State.InRange, hv]; decide, ?_⟩
      rw [Ex.readB_eq]
      revert p
      decide +kernel)
  refine ⟨s', h.trans ?_⟩
  unfold State.readMean
  simp only [Ex.readB_eq]
  congr 1
  decide +kernel

/-- X and Y joined by a tunable factor, each with a tunable factor of its own. -/
example : ∃ s', State.getWeightsGradient Ex.rev List.reverse [[0, 1], [1, 1], [1, 0]] 2
    (Ex.afterT [.tune 0 none, .tune 1 none, .tune 2 none]) =
      .ok s' [.val (8 / 27), .val (-2 / 27), .val (-16 / 81)] := by
  have hr := Ex.afterT_steady [.tune 0 none, .tune 1 none, .tune 2 none] (by decide +kernel)
  have hv : (Ex.afterT [.tune 0 none, .tune 1 none, .tune 2 none]).vars = [Ex.X, Ex.Y] := by decide +kernel
  have hh : (Ex.afterT [.tune 0 none, .tune 1 none, .tune 2 none]).heap = Ex.heapT := by decide +kernel
  have hf : (Ex.afterT [.tune 0 none, .tune 1 none, .tune 2 none]).factors = [0, 1, 2] := by decide +kernel
  have ht : (Ex.afterT [.tune 0 none, .tune 1 none, .tune 2 none]).tunables = [0, 1, 2] := by decide +kernel
  have hc : (Ex.afterT [.tune 0 none, .tune 1 none, .tune 2 none]).tunableClusters = [[0], [1], [2]] := by decide +kernel
  generalize Ex.afterT [.tune 0 none, .tune 1 none, .tune 2 none] = s at hr hv hh hf ht hc
  obtain ⟨s', h⟩ := C41_gradient_partial hr (ord := Ex.rev) Ex.rev_perm (sched := List.reverse)
    (fun l => List.reverse_perm l) (samples := [[0, 1], [1, 1], [1, 0]]) (by simp)
    (by rw [hv]; intro c hc; fin_cases hc <;> exact .cons (by decide) (.cons (by decide) .nil)) (n := 2) (by omega)
    (φ := Ex.img s.heap) (ρ := Ex.raw s.heap)
    (Ex.img_images (by rw [hv, hf, hh]; decide +kernel)) (Ex.raw_images (by rw [hv, ht, hh]; decide +kernel))
    (Ex.img_symmetric (s := s.unconditioned) (by
      simp only [State.unconditioned]
      rw [hf, hh]
      intro p hp f hf
      fin_cases hp <;> cases hf <;> decide +kernel))
    (fun v _ => Ex.two_tree (by simp only [State.unconditioned]; rw [hv]; simp) v)
    ⟨fun _ => 0, by rw [State.InRange, hv]; decide, by unfold State.weight; rw [hf, hh]; decide +kernel⟩
  refine ⟨s', h.trans ?_⟩
  rw [hc]
  unfold State.modelMean State.sampleMean State.sampleAt State.weight
  rw [hv, hf, hh]
  congr 1
  decide +kernel

namespace Ex

/-- The exact exponential. -/
noncomputable def realParams : FloatParams ℝ where
  expK := Real.exp
  expK_pos := Real.exp_pos
  minK := 1 / 1000000
  minK_pos := by norm_num
  maxK := 1000000
  tolK := 1 / 1000
  tolK_pos := by norm_num
  tolK_lt_maxK := by norm_num

attribute [local instance] realParams

/-- The exponential factor of X and Y with raw images 1 where the values are equal and 0 elsewhere. -/
noncomputable def link (w : ℝ) : Fn (Ext ℝ) :=
  { (Fn.ofGroup ⟨[X, Y], [X, Y]⟩ : Fn (Ext ℝ)) with
    data := .dense [Arith.one, Arith.zero, Arith.zero, Arith.one], weight := some (.val w) }

theorem link_reach (w : ℝ) : FactorReach (link w) :=
  .exponential (.correlated (g := ⟨[X, Y], [X, Y]⟩) (.soup (vars := [X, Y]) (by decide)) (by decide) rfl) (w := .val w) rfl

/-- The model with this factor only. -/
noncomputable def linked (w : ℝ) : State (Ext ℝ) :=
  match State.addTunable (some 0) none (State.initial [link w]) with
  | .ok s _ => s
  | _ => State.initial []

theorem linked_eq (w : ℝ) : State.addTunable (some 0) none (State.initial [link w]) = .ok (linked w) () := by
  rfl

theorem linked_reach (w : ℝ) : Reach (fun s op => Prudent s op ∧ Steady s op) (linked w) := by
  refine .ok (op := .addTunable (some 0) none) (.init (h := [link w]) ?_) ⟨trivial, ?_⟩ ⟨⟨?_, ?_, ?_⟩, ?_⟩ (linked_eq w)
  · intro f hf
    rw [List.mem_singleton.mp hf]
    exact link_reach w
  · intro f hf
    cases hf
    rfl
  · intro u v hr; exact hr.elim
  · simp [GOp.threads]
  · intro p f hp hf u hu v hv
    cases hp
    cases hf
    have hu : u ∈ [X, Y] := hu
    have hv : v ∈ [X, Y] := hv
    simp only [List.mem_cons, List.not_mem_nil, or_false] at hu hv
    rcases hu with rfl | rfl <;> rcases hv with rfl | rfl <;> rfl
  · exact ⟨(fun p o h => by cases h), (fun p w h => by cases h), fun h => h.elim, fun _ _ _ _ h => h.elim⟩

/-- The raw images of the factor. -/
def linkRaw (_ : Nat) (a : Assign) : ℝ := if a X = a Y then 1 else 0

theorem link_image (w : ℝ) (a : Assign) (hx : a X < 2) (hy : a Y < 2) :
    (link w).findImage ((link w).vars.group.map a) = .ok (.val (linkRaw 0 a)) := by
  have h : ∀ i < 2, ∀ j < 2, (link w).findImage [i, j] = .ok (.val (if i = j then 1 else 0)) := by
    intro i hi j hj
    match i, j, hi, hj with
    | 0, 0, _, _ => rw [if_pos rfl]; with_unfolding_all rfl
    | 0, 1, _, _ => rw [if_neg (by omega)]; with_unfolding_all rfl
    | 1, 0, _, _ => rw [if_neg (by omega)]; with_unfolding_all rfl
    | 1, 1, _, _ => rw [if_pos rfl]; with_unfolding_all rfl
  exact h (a X) hx (a Y) hy

/-- The images of the factor. -/
noncomputable def linkImg (w : ℝ) (p : Nat) (a : Assign) : ℝ := Real.exp (w * linkRaw p a)

/-- The hypotheses of the theorems on the gradient, for a model of X and Y whose only factor is the one above. -/
theorem link_facts {s : State (Ext ℝ)} {w : ℝ} (hv : s.vars = [X, Y]) (hh : s.heap = [link w]) (hf : s.factors = [0])
    (ht : s.tunables = [0]) : s.Images (linkImg w) ∧ s.RawImages linkRaw ∧ (∀ a, s.weight (linkImg w) a ≠ 0) ∧
    (∀ c ∈ [[0, 0], [0, 1]], Valid (s.vars.map Var.size) c) := by
  have hin : ∀ a, s.InRange a → a X < 2 ∧ a Y < 2 := by
    intro a ha
    rw [State.InRange, hv] at ha
    exact ⟨ha X (by simp), ha Y (by simp)⟩
  refine ⟨?_, ?_, ?_, ?_⟩
  · intro p hp a ha
    rw [hf] at hp
    cases List.mem_singleton.mp hp
    refine ⟨link w, by rw [hh]; rfl, ?_, (Real.exp_pos _).le⟩
    unfold Fn.findTransformed
    rw [link_image w a (hin a ha).1 (hin a ha).2]
    rfl
  · intro p hp a ha
    rw [ht] at hp
    cases List.mem_singleton.mp hp
    exact ⟨link w, by rw [hh]; rfl, link_image w a (hin a ha).1 (hin a ha).2⟩
  · intro a
    unfold State.weight
    rw [hf]
    simp [linkImg, Real.exp_ne_zero]
  · rw [hv]
    intro c hc
    fin_cases hc <;> exact .cons (by decide) (.cons (by decide) .nil)

/-- The factor is symmetric. -/
theorem link_symmetric {s : State (Ext ℝ)} {x : ℝ} (hh : s.heap = [link x]) (hf : s.factors = [0]) :
    s.Symmetric (linkImg x) := by
  rintro p u w ⟨hp, f, hpf, hg⟩ _ _ a _
  rw [hf] at hp
  cases List.mem_singleton.mp hp
  rw [hh] at hpf
  cases hpf
  have hg : [X, Y] = [u, w] := hg
  cases hg
  have hne : Y ≠ X := by decide
  unfold linkImg linkRaw
  simp only [Assign.exchange, if_true, if_neg hne]
  by_cases h : a X = a Y
  · rw [if_pos h, if_pos h.symm]
  · rw [if_neg h, if_neg (fun e => h e.symm)]

/-- The model of X and Y joined by an exponential factor with weight 2: the gradient of the samples (0, 0), (0, 1) is the
derivative of their average log-likelihood at 2. -/
theorem linked_gradient : ∃ (s' : State (Ext ℝ)) (d : ℝ),
    State.getWeightsGradient rev id [[0, 0], [0, 1]] 1 (linked 2) = .ok s' [.val d] ∧
    HasDerivAt (fun y => State.logLikelihood [[0, 0], [0, 1]] ((linked 2).reweighed [y])) d 2 := by
  have hr := linked_reach 2
  have hv : (linked 2).vars = [X, Y] := rfl
  have hh : (linked 2).heap = [link 2] := rfl
  have hf : (linked 2).factors = [0] := rfl
  have ht : (linked 2).tunables = [0] := rfl
  have hw : (linked 2).getWeights = .ok ([2].map .val) := rfl
  generalize linked 2 = s at hr hv hh hf ht hw
  obtain ⟨hi, hi', hpos, hval⟩ := link_facts hv hh hf ht
  obtain ⟨s', g, h1, h2, h3⟩ := C41_derivative_partial (fun _ => rfl) hr (ord := rev) rev_perm (sched := id)
    (fun l => .refl l) (samples := [[0, 0], [0, 1]]) (by simp) hval (n := 1) (by omega) hi hi'
    (link_symmetric (s := s.unconditioned) hh hf)
    (fun v _ => two_tree (by simp only [State.unconditioned]; rw [hv]; simp) v) (fun c _ => hpos _) hw
  cases g with
  | nil => cases h2
  | cons d g =>
    cases g with
    | nil => exact ⟨s', d, h1, h3 0 2 d rfl rfl⟩
    | cons => cases h2

end Ex

/-- C41 is violated after a change of the weights: the product of the unary factors of X, cached by an earlier query, is
kept. With the weight 2 the gradient of the sample X = 1 is 1 - 5/6, and the library returns 1 - 2/3. -/
theorem C41_stale_violated : ∃ s : State (Ext ℚ), Reach Prudent s ∧ s.tunableClusters = [[0]] ∧
    Valid (s.vars.map Var.size) [1] ∧ s.Images (Ex.img s.heap) ∧ s.RawImages (Ex.raw s.heap) ∧
    s.unconditioned.Symmetric (Ex.img s.heap) ∧ (∀ v ∈ s.vars, s.unconditioned.TreeAt v) ∧
    (∀ a, s.InRange a → s.weight (Ex.img s.heap) a ≠ 0) ∧
    s.sampleMean [[1]] (State.statistic (Ex.raw s.heap) [0]) -
      s.modelMean (Ex.img s.heap) (State.statistic (Ex.raw s.heap) [0]) = 1 / 6 ∧
    ∃ s', State.getWeightsGradient Ex.rev id [[1]] 1 s = .ok s' [.val (1 / 3)] := by
  have hr := Ex.afterT_prudent [.tune 0 none, .askGradient [[1]], .weights [2]] (by decide +kernel)
  have hv : (Ex.afterT [.tune 0 none, .askGradient [[1]], .weights [2]]).vars = [Ex.X] := by decide +kernel
  have hh : (Ex.afterT [.tune 0 none, .askGradient [[1]], .weights [2]]).heap =
    Ex.expo (Ex.una Ex.X 0 1) 2 :: Ex.heapT.tail := by decide +kernel
  have hf : (Ex.afterT [.tune 0 none, .askGradient [[1]], .weights [2]]).factors = [0] := by decide +kernel
  have ht : (Ex.afterT [.tune 0 none, .askGradient [[1]], .weights [2]]).tunables = [0] := by decide +kernel
  have hc : (Ex.afterT [.tune 0 none, .askGradient [[1]], .weights [2]]).tunableClusters = [[0]] := by decide +kernel
  have hg := Ex.of_answer (o := State.getWeightsGradient Ex.rev id [[1]] 1
    (Ex.afterT [.tune 0 none, .askGradient [[1]], .weights [2]])) (x := [.val (1 / 3)]) (by decide +kernel)
  generalize Ex.afterT [.tune 0 none, .askGradient [[1]], .weights [2]] = s at *
  refine ⟨s, hr, hc, ?_, Ex.img_images (by rw [hv, hf, hh]; decide +kernel),
    Ex.raw_images (by rw [hv, ht, hh]; decide +kernel), ?_, fun v _ => Ex.two_tree (by
      simp only [State.unconditioned]; rw [hv]; simp) v, ?_, ?_, hg⟩
  · rw [hv]; exact .cons (by decide) .nil
  · refine Ex.img_symmetric (s := s.unconditioned) ?_
    simp only [State.unconditioned]
    rw [hf, hh]
    intro p hp f hf
    fin_cases hp <;> cases hf <;> decide +kernel
  · intro a ha
    have hx := ha Ex.X (by rw [hv]; simp)
    have h : ∀ i < 2, Ex.img (Ex.expo (Ex.una Ex.X 0 1) 2 :: Ex.heapT.tail) 0 (fun _ => i) ≠ 0 := by decide +kernel
    unfold State.weight
    rw [hf, hh]
    simp only [List.map_cons, List.map_nil, List.prod_cons, List.prod_nil, mul_one]
    exact h (a Ex.X) hx
  · unfold State.modelMean State.sampleMean State.sampleAt State.weight
    rw [hv, hf, hh]
    decide +kernel

/-- C41 is violated by a factor which is not symmetric: with the factor of X and Y whose images are 1, 2, 3, 4 the gradient
of the sample (1, 0) for the unary factor of X is 1 - 14/17, and the library returns 1 - 3/4. -/
theorem C41_transposed_violated : ∃ s : State (Ext ℚ), Reach (fun s op => Prudent s op ∧ Steady s op) s ∧
    s.tunableClusters = [[0]] ∧ Valid (s.vars.map Var.size) [1, 0] ∧ s.Images (Ex.img s.heap) ∧
    s.RawImages (Ex.raw s.heap) ∧ (∀ v ∈ s.vars, s.unconditioned.TreeAt v) ∧
    (∃ a, s.InRange a ∧ s.weight (Ex.img s.heap) a ≠ 0) ∧
    s.sampleMean [[1, 0]] (State.statistic (Ex.raw s.heap) [0]) -
      s.modelMean (Ex.img s.heap) (State.statistic (Ex.raw s.heap) [0]) = 3 / 17 ∧
    ∃ s', State.getWeightsGradient Ex.rev id [[1, 0]] 1 s = .ok s' [.val (1 / 4)] := by
  have hr := Ex.afterT_steady [.tune 0 none, .add 9] (by decide +kernel)
  have hv : (Ex.afterT [.tune 0 none, .add 9]).vars = [Ex.X, Ex.Y] := by decide +kernel
  have hh : (Ex.afterT [.tune 0 none, .add 9]).heap = Ex.heapT := by decide +kernel
  have hf : (Ex.afterT [.tune 0 none, .add 9]).factors = [0, 9] := by decide +kernel
  have ht : (Ex.afterT [.tune 0 none, .add 9]).tunables = [0] := by decide +kernel
  have hc : (Ex.afterT [.tune 0 none, .add 9]).tunableClusters = [[0]] := by decide +kernel
  have hg := Ex.of_answer (o := State.getWeightsGradient Ex.rev id [[1, 0]] 1
    (Ex.afterT [.tune 0 none, .add 9])) (x := [.val (1 / 4)]) (by decide +kernel)
  generalize Ex.afterT [.tune 0 none, .add 9] = s at *
  refine ⟨s, hr, hc, ?_, Ex.img_images (by rw [hv, hf, hh]; decide +kernel),
    Ex.raw_images (by rw [hv, ht, hh]; decide +kernel), fun v _ => Ex.two_tree (by
      simp only [State.unconditioned]; rw [hv]; simp) v, ⟨fun _ => 0, by rw [State.InRange, hv]; decide, by
      unfold State.weight; rw [hf, hh]; decide +kernel⟩, ?_, hg⟩
  · rw [hv]; exact .cons (by decide) (.cons (by decide) .nil)
  · unfold State.modelMean State.sampleMean State.sampleAt State.weight
    rw [hv, hf, hh]
    decide +kernel

end EFG
