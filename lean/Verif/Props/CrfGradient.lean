import Verif.Lemmas.CrfReach
import Verif.Lemmas.CrfShared
import Verif.Lemmas.CrfLikelihood
import Verif.Lemmas.CrfGradient
import Verif.Props.Crf
import Verif.Props.Gradient
/-
C50: what the gradient of the weights of a conditional random field is.
-/

set_option linter.unusedSectionVars false

namespace EFG

namespace State

section
variable {F : Type} [Arith F]

/-- The tuners of a conditional random field fit its factors, which are tunable factors of the model. -/
theorem crf_weighted {allowed : State F → GOp F → Prop} {src : State F} (h : Reach allowed src) {o : VisitOrder}
    (ho : o.Perms) {copy : Bool} {c : Crf F} {permitted : State F → CrfOp F → Prop}
    (hc : CrfReach permitted src o copy c) : Weighted c.state := by
  obtain ⟨c0, h1, h2, h3, h4, h5⟩ := crf_reach h ho hc
  obtain ⟨t, k1, k2, k3, _⟩ := make_reach ho (reach_inv h) (reach_built h) (reach_tuned h) (reach_registered h) h1
  have ht := (reach_tuned k1).weighted
  have e1 : c.state.tunableClusters = t.tunableClusters := by
    rw [← k3]; unfold tunableClusters; rw [h4.tuners]
  have e2 : c.state.tunables = t.tunables := by rw [h4.tunables, k2]
  have e3 : c.state.factors = t.factors := by rw [h4.factors, k2]
  refine ⟨by rw [e1]; exact ht.ne', by rw [e1]; exact ht.nodup', by rw [e1, e2]; exact ht.mem', by rw [e2, e3]; exact ht.reg, ?_⟩
  intro p hp
  rw [e2] at hp
  obtain ⟨f, f1, f2⟩ := ht.exp p hp
  obtain ⟨g, g1, _, g3⟩ := h4.heap p (by rw [k2]; exact ht.reg p hp) f (by rw [k2]; exact f1)
  exact ⟨g, g1, g3 f2⟩

theorem EqualWeights.shared {s : State F} (hw : s.EqualWeights) (ht : Weighted s) : s.Shared := by
  intro t htt b hb d hd
  obtain ⟨f, f1, _⟩ := ht.exp _ (ht.mem htt hb)
  obtain ⟨g, g1, _⟩ := ht.exp _ (ht.mem htt hd)
  have := hw (t.map BaseTuner.factor) (List.mem_map_of_mem htt) _ (List.mem_map_of_mem hb) _ (List.mem_map_of_mem hd) f g f1 g1
  unfold weightOf
  rw [f1, g1]
  simp only [this]

/-- The factors of a cluster of a conditional random field have one weight, if the weights of its factors are not set
from outside. -/
theorem crf_equal {allowed : State F → GOp F → Prop} {src : State F} (h : Reach allowed src) {o : VisitOrder}
    (ho : o.Perms) {copy : Bool} {c : Crf F} {permitted : State F → CrfOp F → Prop}
    (ha : ∀ s op, permitted s op → ∀ p w, op = .shared (.mutate p (.setWeight w)) → p ∉ s.factors)
    (hc : CrfReach permitted src o copy c) : c.state.EqualWeights := by
  suffices hsh : c.state.Shared from hsh.equal (crf_weighted h ho hc)
  induction hc with
  | @made c hm =>
    obtain ⟨t, h1, h2, h3, h4⟩ := make_equal ho (reach_inv h) (reach_built h) (reach_tuned h) (reach_registered h) hm
    refine EqualWeights.shared ?_ (crf_weighted h ho (.made (allowed := permitted) hm))
    have := h1.equal h2.weighted
    unfold EqualWeights at this ⊢
    rw [h3, h4]
    exact this
  | @ok c _ _ hr hv hp he ih =>
    obtain ⟨_, _, _, hi, _⟩ := crf_reach h ho hr
    exact (crf_exec_shared hi (crf_weighted h ho hr) ih hv (ha _ _ hp)).1 _ he
  | @throw c _ _ hr hv hp he ih =>
    obtain ⟨_, _, _, hi, _⟩ := crf_reach h ho hr
    exact (crf_exec_shared hi (crf_weighted h ho hr) ih hv (ha _ _ hp)).2 _ he

end

section
variable {K : Type} [Field K] [LinearOrder K] [IsStrictOrderedRing K] [FloatParams K]

theorem crf_fitted {allowed : State (Ext K) → GOp (Ext K) → Prop} {src : State (Ext K)} (h : Reach allowed src)
    {o : VisitOrder} (ho : o.Perms) {copy : Bool} {c : Crf (Ext K)} {permitted : State (Ext K) → CrfOp (Ext K) → Prop}
    (hc : CrfReach permitted src o copy c) : Fitted c.state := by
  obtain ⟨c0, _, _, _, _, _, _, _, _, _, hfit⟩ := C49_locked h ho hc
  have ht := crf_weighted h ho hc
  exact ⟨hfit, fun t htt b hb => ht.mem htt hb, ht.reg⟩

end

end State

section
variable {K : Type} [Field K] [LinearOrder K] [IsStrictOrderedRing K] [FloatParams K]

/-- C50: the gradient of a conditional random field whose hidden variables are joined without cycles, by factors which
need not be symmetric: for each cluster the mean over the samples of the sum of the raw images of its factors, minus the
mean over the samples of the sum over its factors of the expectation of the raw image given the observed part of the
sample, under the distribution which has the factors of two hidden variables with their values exchanged, except for the
factor itself.

Missing: the exact gradient (`C50_transposed_violated`), and the two other conditions of `C50_gradient_partial`. -/
theorem C50_transposed_partial {src : State (Ext K)} (h : Reach Prudent src) {o : VisitOrder} (ho : o.Perms) {copy : Bool}
    {c : Crf (Ext K)} (hc : CrfReach CrfPrudent src o copy c) {ord visit : List Var → List Var}
    (hord : ∀ l, (ord l).Perm l) (hvis : ∀ l, (visit l).Perm l) {sched : Sched} (hsched : ∀ l, (sched l).Perm l)
    (hal : c.state.Aligned visit c.positions) {samples : List (List Nat)} (hne : samples ≠ [])
    (hv : ∀ x ∈ samples, Valid (c.state.vars.map Var.size) x) {n : Nat} (hn : 1 ≤ n) {φ ρ : Nat → Assign → K}
    (hφ : c.state.Images φ) (hρ : c.state.RawImages ρ)
    (htree : ∀ v, c.state.Hidden v → c.state.TreeAt v)
    (hread : ∀ x ∈ samples, c.state.PossibleBy (c.state.readWeight φ) x)
    (hpos : ∀ x ∈ samples, ∀ p ∈ c.state.tunables, c.state.PossibleBy (c.state.readWeightIn (c.state.groupOf p) φ) x)
    {l : List Var} (hln : l.Nodup) (hl : ∀ w, w ∈ l ↔ c.state.Hidden w) :
    ∃ s', State.getCrfGradient ord visit sched c.positions samples n c.state = .ok s'
      (c.state.tunableClusters.map (fun k => .val (c.state.sampleMean samples (State.statistic ρ k) -
        c.state.sampleMean samples (c.state.readStatistic φ ρ l k)))) := by
  refine State.crfGradient_read hord hvis hsched hn (State.crf_half h ho hc) (State.crf_fitted h ho hc) ?_ hal hne hv hφ hρ
    htree hread hpos hln hl
  intro he
  exact State.crf_observed h ho hc (by simpa [State.obs, AMap.keys] using he)

/-- C50: the gradient of a conditional random field whose hidden variables are joined without cycles: for each cluster
the mean over the samples of the sum of the raw images of its factors, minus the mean over the samples of the
expectation of that sum given the observed part of the sample.

Missing: the stored positions must be those of the variables in the order in which the map of the evidences is visited
(`C50_order_violated`, `C50_positions_violated`), the factors which join two hidden variables must be symmetric
(`C50_transposed_violated`), and weights on which a cached product depends must not be changed unless the evidences
renew it (`C50_stale_violated`). -/
theorem C50_gradient_partial {src : State (Ext K)} (h : Reach Prudent src) {o : VisitOrder} (ho : o.Perms) {copy : Bool}
    {c : Crf (Ext K)} (hc : CrfReach CrfPrudent src o copy c) {ord visit : List Var → List Var}
    (hord : ∀ l, (ord l).Perm l) (hvis : ∀ l, (visit l).Perm l) {sched : Sched} (hsched : ∀ l, (sched l).Perm l)
    (hal : c.state.Aligned visit c.positions) {samples : List (List Nat)} (hne : samples ≠ [])
    (hv : ∀ x ∈ samples, Valid (c.state.vars.map Var.size) x) {n : Nat} (hn : 1 ≤ n) {φ ρ : Nat → Assign → K}
    (hφ : c.state.Images φ) (hρ : c.state.RawImages ρ) (hy : c.state.Symmetric φ)
    (htree : ∀ v, c.state.Hidden v → c.state.TreeAt v) (hpos : ∀ x ∈ samples, c.state.Possible φ x) {l : List Var}
    (hln : l.Nodup) (hl : ∀ w, w ∈ l ↔ c.state.Hidden w) :
    ∃ s', State.getCrfGradient ord visit sched c.positions samples n c.state = .ok s'
      ((c.state.conditionalGradient φ ρ samples l).map .val) := by
  unfold State.conditionalGradient
  rw [List.map_map]
  refine State.crfGradient_val hord hvis hsched hn (State.crf_half h ho hc) (State.crf_fitted h ho hc) ?_ hal hne hv hφ hρ
    hy htree hpos hln hl
  intro he
  exact State.crf_observed h ho hc (by simpa [State.obs, AMap.keys] using he)

end

/-- C50: with the exact exponential, the gradient is the derivative of the average conditional log-likelihood of the
samples with respect to the weight of each cluster. Partial for the same reasons as `C50_gradient_partial`; the samples
must have a positive weight. -/
theorem C50_derivative_partial [FloatParams ℝ] (hexp : ∀ x : ℝ, FloatParams.expK x = Real.exp x) {src : State (Ext ℝ)}
    (h : Reach Prudent src) {o : VisitOrder} (ho : o.Perms) {copy : Bool}
    {c : Crf (Ext ℝ)} (hc : CrfReach CrfPrudent src o copy c) {ord visit : List Var → List Var}
    (hord : ∀ l, (ord l).Perm l) (hvis : ∀ l, (visit l).Perm l) {sched : Sched} (hsched : ∀ l, (sched l).Perm l)
    (hal : c.state.Aligned visit c.positions) {samples : List (List Nat)} (hne : samples ≠ [])
    (hv : ∀ x ∈ samples, Valid (c.state.vars.map Var.size) x) {n : Nat} (hn : 1 ≤ n) {φ ρ : Nat → Assign → ℝ}
    (hφ : c.state.Images φ) (hρ : c.state.RawImages ρ) (hy : c.state.Symmetric φ)
    (htree : ∀ v, c.state.Hidden v → c.state.TreeAt v)
    (hpos : ∀ x ∈ samples, c.state.weight φ (c.state.sampleAt x) ≠ 0) {l : List Var}
    (hln : l.Nodup) (hl : ∀ w, w ∈ l ↔ c.state.Hidden w) {xs : List ℝ} (hxs : c.state.getWeights = .ok (xs.map .val)) :
    ∃ (s' : State (Ext ℝ)) (g : List ℝ),
      State.getCrfGradient ord visit sched c.positions samples n c.state = .ok s' (g.map .val) ∧ g.length = xs.length ∧
      ∀ k x d, xs[k]? = some x → g[k]? = some d →
        HasDerivAt (fun y => State.conditionalLogLikelihood samples l (c.state.reweighed (xs.set k y))) d x := by
  have ht := State.crf_weighted h ho hc
  have hw := State.crf_equal h ho (fun _ _ hp p w he => hp.own p w he) hc
  have hs := (State.crf_half h ho hc).renewed.inv.toCore
  obtain ⟨s', h1⟩ := C50_gradient_partial h ho hc hord hvis hsched hal hne hv hn hφ hρ hy htree
    (fun x hx => ⟨c.state.sampleAt x, State.sampleAt_inRange hs.net.distinct.nodup (hv x hx), fun _ _ => rfl, hpos x hx⟩) hln hl
  refine ⟨s', _, h1, ?_, ?_⟩
  · have := (Res.mapList_eq_ok.mp hxs).length_eq
    simpa [State.conditionalGradient, State.tunableClusters] using this
  · intro k x d hx hd
    unfold State.conditionalGradient at hd
    rw [List.getElem?_map] at hd
    cases hk : c.state.tunableClusters[k]? with
    | none => rw [hk] at hd; cases hd
    | some e =>
      rw [hk] at hd
      cases hd
      exact State.conditionalLogLikelihood_deriv hexp hs ht (hw.shared ht) hφ hρ hxs hv hpos
        (fun v hv => ((hl v).mp hv).1) hk hx

/-! ### Examples and violations -/

namespace Ex

/-- A graph with at most two hidden variables has no cycles. -/
theorem two_hidden_tree {s : State (Ext ℚ)} {l : List Var} (hl : ∀ v, s.Hidden v → v ∈ l) (h : l.length ≤ 2)
    (v : Var) : s.TreeAt v := by
  intro u _ c hc
  have h1 := hc.three_le_length
  have h2 := hc.support_nodup
  have h3 : ∀ {a b : Var} (w : s.hiddenGraph.Walk a b), ∀ x ∈ w.support.tail, x ∈ l := by
    intro a b w
    induction w with
    | nil => simp
    | cons hadj p ih =>
      intro x hx
      rw [SimpleGraph.Walk.support_cons, List.tail_cons, SimpleGraph.Walk.mem_support_iff] at hx
      rcases hx with rfl | hx
      · exact hl _ hadj.2.2.1
      · exact ih x hx
  have h4 := (List.subperm_of_subset h2 (fun x hx => h3 c x hx)).length_le
  rw [List.length_tail, SimpleGraph.Walk.length_support] at h4
  omega

theorem hidden_of {s : State (Ext ℚ)} {l : List Var}
    (h : (s.vars.filter (fun v => !(s.evidences.map Prod.fst).contains v)) = l) (v : Var) : v ∈ l ↔ s.Hidden v := by
  rw [← h, List.mem_filter]
  unfold State.Hidden State.Observes
  simp only [Bool.not_eq_true', List.contains_eq_mem, List.mem_map, Prod.exists, exists_and_right, exists_eq_right,
    decide_eq_false_iff_not]

/-- The model in which the hypotheses on the images, on the cycles and on the hidden variables hold. -/
structure Regular (s : State (Ext ℚ)) (l : List Var) (samples : List (List Nat)) : Prop where
  images : s.Images (img s.heap)
  raws : s.RawImages (raw s.heap)
  tree : ∀ v, s.Hidden v → s.TreeAt v
  hidden : ∀ v, v ∈ l ↔ s.Hidden v
  nodup : l.Nodup
  valid : ∀ x ∈ samples, Valid (s.vars.map Var.size) x
  possible : ∀ x ∈ samples, s.Possible (img s.heap) x

/-- The check of these hypotheses. -/
def regularOk (s : State (Ext ℚ)) (l : List Var) (samples : List (List Nat)) : Bool :=
  s.factors.all (okAll s.vars isImg s.heap) && s.tunables.all (okAll s.vars isRaw s.heap) &&
  decide (s.vars.filter (fun v => !(s.evidences.map Prod.fst).contains v) = l) && decide (l.length ≤ 2) && decide s.vars.Nodup &&
  samples.all (fun x => decide (s.vars.length = x.length) && ((s.vars.map Var.size).zip x).all (fun e => decide (e.2 < e.1)) &&
    decide (s.weight (img s.heap) (s.sampleAt x) ≠ 0))

theorem valid_of : ∀ {sizes x : List Nat}, sizes.length = x.length → (∀ e ∈ sizes.zip x, e.2 < e.1) → Valid sizes x
  | [], [], _, _ => .nil
  | [], _ :: _, h, _ => by cases h
  | _ :: _, [], h, _ => by cases h
  | d :: sizes, k :: x, h, hz => .cons (hz (d, k) (by simp)) (valid_of (by simpa using h) (fun e he => hz e (by simp [he])))

theorem regular_of {s : State (Ext ℚ)} {l : List Var} {samples : List (List Nat)} (h : regularOk s l samples = true) :
    Regular s l samples := by
  unfold regularOk at h
  simp only [Bool.and_eq_true, decide_eq_true_eq, List.all_eq_true] at h
  obtain ⟨⟨⟨⟨⟨h1, h2⟩, h3⟩, h4⟩, h5⟩, h6⟩ := h
  have hval : ∀ x ∈ samples, Valid (s.vars.map Var.size) x := fun x hx =>
    valid_of (by rw [List.length_map]; exact (h6 x hx).1.1) (h6 x hx).1.2
  refine ⟨img_images (List.all_eq_true.mpr h1), raw_images (List.all_eq_true.mpr h2),
    fun v _ => two_hidden_tree (fun v hv => (hidden_of h3 v).mpr hv) h4 v, hidden_of h3, by rw [← h3]; exact h5.filter _,
    hval, fun x hx => ⟨s.sampleAt x, State.sampleAt_inRange h5 (hval x hx), fun _ _ => rfl, (h6 x hx).2⟩⟩

/-- The check that the factors are symmetric. -/
def symmetricOk (s : State (Ext ℚ)) : Bool :=
  s.factors.all (fun p => match s.heap[p]? with | some f => isSymmetric f | none => true)

theorem symmetric_of {s : State (Ext ℚ)} (h : symmetricOk s = true) : s.Symmetric (img s.heap) := by
  refine img_symmetric (fun p hp f hf => ?_)
  have := (List.all_eq_true.mp h) p hp
  rw [hf] at this
  exact this

/-- The check that the positions are in the order of the evidences. -/
def alignedOk (s : State (Ext ℚ)) (visit : List Var → List Var) (positions : List Nat) : Bool :=
  decide ((visit (s.evidences.map Prod.fst)).map (fun v => s.vars.idxOf v) = positions)

theorem aligned_of {s : State (Ext ℚ)} {visit : List Var → List Var} {positions : List Nat}
    (h : alignedOk s visit positions = true) : s.Aligned visit positions := by
  intro i v hv
  have := of_decide_eq_true h
  rw [← this, List.getElem?_map, hv]
  rfl

/-- The state after an operation on a conditional random field. -/
def crfStep (op : CrfOp (Ext ℚ)) (c : Crf (Ext ℚ)) : Crf (Ext ℚ) :=
  match op.exec c.positions c.state with
  | .ok s' _ => { c with state := s' }
  | _ => c

theorem crfStep_reach {permitted : State (Ext ℚ) → CrfOp (Ext ℚ) → Prop} {src : State (Ext ℚ)} {o : VisitOrder} {copy : Bool}
    {op : CrfOp (Ext ℚ)} {c : Crf (Ext ℚ)} (h : CrfReach permitted src o copy c) (hv : op.Valid c.state)
    (hp : permitted c.state op) : CrfReach permitted src o copy (crfStep op c) := by
  unfold crfStep
  cases he : op.exec c.positions c.state with
  | ok s' _ => exact .ok h hv hp he
  | throw s' => exact h
  | ub => exact h

/-- The path X - Y - Z with X and Z observed. -/
def endsObs : State (Ext ℚ) := afterT [.add 5, .tune 3 none, .tune 2 none, .observe X 1, .observe Z 1]

/-- The path Y - Z, to which X is joined afterwards, with Z observed. -/
def lateX : State (Ext ℚ) := afterT [.tune 3 none, .tune 2 none, .add 5, .observe Z 1]

/-- The path X - Y - Z with a factor of X and Y which is not symmetric and Z observed. -/
def skewed : State (Ext ℚ) := afterT [.tune 0 none, .add 9, .tune 3 none, .observe Z 1]

/-- The path X - Y - Z with Z observed, with an unary factor on X. -/
def endObs : State (Ext ℚ) := afterT [.tune 0 none, .tune 3 none, .add 5, .observe Z 1]

theorem endObs_prudent : Reach Prudent endObs := afterT_prudent _ (by decide +kernel)

end Ex

/-- The conditional random field of `Ex.field`, after the evidence was changed and samples were drawn: two clusters, the
first of which has a factor on X and one on Y, the second the factor on Y and the observed Z. -/
example : ∃ c, CrfReach CrfPrudent Ex.field Ex.backwards true c ∧ c.state.evidences = [(Ex.Z, 0)] ∧
    c.state.tunableClusters = [[11, 12], [13]] ∧
    ∃ s', State.getCrfGradient Ex.rev id List.reverse c.positions [[0, 1, 1], [1, 0, 0]] 2 c.state =
      .ok s' [.val (-2 / 9), .val (43 / 126)] := by
  have hr : Reach Prudent Ex.field := Ex.afterT_prudent _ (by decide +kernel)
  have hm : Crf.make Ex.backwards Ex.field true = .ok (Ex.crf Ex.backwards Ex.field true) := Ex.crf_made (by decide +kernel)
  have hc : CrfReach CrfPrudent Ex.field Ex.backwards true
      (Ex.crfStep (.setEvidences Ex.rev id [0]) (Ex.crf Ex.backwards Ex.field true)) :=
    Ex.crfStep_reach (.made hm) ⟨Ex.rev_perm, fun l => .refl l⟩ ⟨nofun, nofun, nofun, nofun⟩
  have h1 : (Ex.crfStep (.setEvidences Ex.rev id [0]) (Ex.crf Ex.backwards Ex.field true)).state.evidences = [(Ex.Z, 0)] := by
    decide +kernel
  have h2 : (Ex.crfStep (.setEvidences Ex.rev id [0]) (Ex.crf Ex.backwards Ex.field true)).state.tunableClusters =
    [[11, 12], [13]] := by decide +kernel
  have h3 := Ex.aligned_of (s := (Ex.crfStep (.setEvidences Ex.rev id [0]) (Ex.crf Ex.backwards Ex.field true)).state)
    (visit := id) (positions := (Ex.crfStep (.setEvidences Ex.rev id [0]) (Ex.crf Ex.backwards Ex.field true)).positions)
    (by decide +kernel)
  have h4 := Ex.regular_of (s := (Ex.crfStep (.setEvidences Ex.rev id [0]) (Ex.crf Ex.backwards Ex.field true)).state)
    (l := [Ex.X, Ex.Y]) (samples := [[0, 1, 1], [1, 0, 0]]) (by decide +kernel)
  have h5 := Ex.symmetric_of (s := (Ex.crfStep (.setEvidences Ex.rev id [0]) (Ex.crf Ex.backwards Ex.field true)).state)
    (by decide +kernel)
  have h6 : (Ex.crfStep (.setEvidences Ex.rev id [0]) (Ex.crf Ex.backwards Ex.field true)).state.conditionalGradient
    (Ex.img (Ex.crfStep (.setEvidences Ex.rev id [0]) (Ex.crf Ex.backwards Ex.field true)).state.heap)
    (Ex.raw (Ex.crfStep (.setEvidences Ex.rev id [0]) (Ex.crf Ex.backwards Ex.field true)).state.heap)
    [[0, 1, 1], [1, 0, 0]] [Ex.X, Ex.Y] = [-2 / 9, 43 / 126] := by decide +kernel
  generalize Ex.crfStep (.setEvidences Ex.rev id [0]) (Ex.crf Ex.backwards Ex.field true) = c at *
  obtain ⟨s', h⟩ := C50_gradient_partial hr Ex.backwards_perms hc Ex.rev_perm (fun l => .refl l)
    (sched := List.reverse) (fun l => l.reverse_perm) h3 (by simp) h4.valid (n := 2) (by omega) h4.images h4.raws h5 h4.tree
    h4.possible h4.nodup h4.hidden
  rw [h6] at h
  exact ⟨c, hc, h1, h2, s', h⟩

/-- C50 is violated when the map of the evidences is not visited in the order in which the positions were computed: the
observed X = 1, Z = 0 of the sample become X = 0, Z = 1. -/
theorem C50_order_violated : ∃ (src : State (Ext ℚ)) (c : Crf (Ext ℚ)), Reach Prudent src ∧
    CrfReach CrfPrudent src Ex.forwards true c ∧ Ex.Regular c.state [Ex.Y] [[1, 1, 0]] ∧
    c.state.Symmetric (Ex.img c.state.heap) ∧ c.positions = [c.state.vars.idxOf Ex.Z, c.state.vars.idxOf Ex.X] ∧
    c.state.conditionalGradient (Ex.img c.state.heap) (Ex.raw c.state.heap) [[1, 1, 0]] [Ex.Y] = [-2 / 7, 2 / 7] ∧
    ∃ s', State.getCrfGradient Ex.rev id id c.positions [[1, 1, 0]] 1 c.state = .ok s' [.val (-40 / 41), .val (1 / 41)] := by
  have hm : Crf.make Ex.forwards Ex.endsObs true = .ok (Ex.crf Ex.forwards Ex.endsObs true) := Ex.crf_made (by decide +kernel)
  exact ⟨Ex.endsObs, _, Ex.afterT_prudent _ (by decide +kernel), .made hm, Ex.regular_of (by decide +kernel),
    Ex.symmetric_of (by decide +kernel), by decide +kernel, by decide +kernel, Ex.of_answer (by decide +kernel)⟩

/-- C50 is violated when the variables of the source are in another order than those of the conditional random field: the
constant factors are copied first, so that X, the last variable of the source, becomes the first one, and the value of Y
in the sample is taken for that of Z. -/
theorem C50_positions_violated : ∃ (src : State (Ext ℚ)) (c : Crf (Ext ℚ)), Reach Prudent src ∧
    CrfReach CrfPrudent src Ex.forwards true c ∧ Ex.Regular c.state [Ex.X, Ex.Y] [[1, 1, 0]] ∧
    c.state.Symmetric (Ex.img c.state.heap) ∧ src.vars = [Ex.Y, Ex.Z, Ex.X] ∧ c.state.vars = [Ex.X, Ex.Y, Ex.Z] ∧
    c.positions = [1] ∧
    c.state.conditionalGradient (Ex.img c.state.heap) (Ex.raw c.state.heap) [[1, 1, 0]] [Ex.X, Ex.Y] = [-1 / 6, 1 / 6] ∧
    ∃ s', State.getCrfGradient Ex.rev id id c.positions [[1, 1, 0]] 1 c.state = .ok s' [.val (-20 / 21), .val (1 / 21)] := by
  have hm : Crf.make Ex.forwards Ex.lateX true = .ok (Ex.crf Ex.forwards Ex.lateX true) := Ex.crf_made (by decide +kernel)
  exact ⟨Ex.lateX, _, Ex.afterT_prudent _ (by decide +kernel), .made hm, Ex.regular_of (by decide +kernel),
    Ex.symmetric_of (by decide +kernel), by decide +kernel, by decide +kernel, by decide +kernel, by decide +kernel,
    Ex.of_answer (by decide +kernel)⟩

/-- C50 is violated by a factor of two hidden variables which is not symmetric. -/
theorem C50_transposed_violated : ∃ (src : State (Ext ℚ)) (c : Crf (Ext ℚ)), Reach Prudent src ∧
    CrfReach CrfPrudent src Ex.forwards true c ∧ Ex.Regular c.state [Ex.X, Ex.Y] [[1, 1, 0]] ∧
    c.state.Aligned id c.positions ∧
    c.state.conditionalGradient (Ex.img c.state.heap) (Ex.raw c.state.heap) [[1, 1, 0]] [Ex.X, Ex.Y] = [1 / 6, -7 / 12] ∧
    ∃ s', State.getCrfGradient Ex.rev id id c.positions [[1, 1, 0]] 1 c.state = .ok s' [.val (5 / 21), .val (-10 / 21)] := by
  have hm : Crf.make Ex.forwards Ex.skewed true = .ok (Ex.crf Ex.forwards Ex.skewed true) := Ex.crf_made (by decide +kernel)
  exact ⟨Ex.skewed, _, Ex.afterT_prudent _ (by decide +kernel), .made hm, Ex.regular_of (by decide +kernel),
    Ex.aligned_of (by decide +kernel), by decide +kernel, Ex.of_answer (by decide +kernel)⟩

/-- What the gradient of this conditional random field is. -/
example : ∃ c, CrfReach CrfPrudent Ex.skewed Ex.forwards true c ∧
    ∃ s', State.getCrfGradient Ex.rev id id c.positions [[1, 1, 0]] 1 c.state = .ok s' [.val (5 / 21), .val (-10 / 21)] := by
  have hs : Reach Prudent Ex.skewed := Ex.afterT_prudent _ (by decide +kernel)
  have hm : Crf.make Ex.forwards Ex.skewed true = .ok (Ex.crf Ex.forwards Ex.skewed true) := Ex.crf_made (by decide +kernel)
  have hc : CrfReach CrfPrudent Ex.skewed Ex.forwards true (Ex.crf Ex.forwards Ex.skewed true) := .made hm
  have hr := Ex.regular_of (s := (Ex.crf Ex.forwards Ex.skewed true).state) (l := [Ex.X, Ex.Y]) (samples := [[1, 1, 0]])
    (by decide +kernel)
  have hnd : (Ex.crf Ex.forwards Ex.skewed true).state.vars.Nodup := by decide +kernel
  have ha := Ex.aligned_of (s := (Ex.crf Ex.forwards Ex.skewed true).state) (visit := id)
    (positions := (Ex.crf Ex.forwards Ex.skewed true).positions) (by decide +kernel)
  have h1 : ∀ x ∈ [[1, 1, 0]], Ex.readB (Ex.crf Ex.forwards Ex.skewed true).state []
    (Ex.img (Ex.crf Ex.forwards Ex.skewed true).state.heap) ((Ex.crf Ex.forwards Ex.skewed true).state.sampleAt x) ≠ 0 := by
    decide +kernel
  have h2 : ∀ x ∈ [[1, 1, 0]], ∀ p ∈ (Ex.crf Ex.forwards Ex.skewed true).state.tunables,
    Ex.readB (Ex.crf Ex.forwards Ex.skewed true).state ((Ex.crf Ex.forwards Ex.skewed true).state.groupOf p)
    (Ex.img (Ex.crf Ex.forwards Ex.skewed true).state.heap) ((Ex.crf Ex.forwards Ex.skewed true).state.sampleAt x) ≠ 0 := by
    decide +kernel
  have h3 : (Ex.crf Ex.forwards Ex.skewed true).state.tunableClusters.map (fun k =>
      (Ext.val ((Ex.crf Ex.forwards Ex.skewed true).state.sampleMean [[1, 1, 0]]
        (State.statistic (Ex.raw (Ex.crf Ex.forwards Ex.skewed true).state.heap) k) -
      (Ex.crf Ex.forwards Ex.skewed true).state.sampleMean [[1, 1, 0]] (fun a => (k.map (fun p => State.expectation [Ex.X, Ex.Y] a
        (Ex.readB (Ex.crf Ex.forwards Ex.skewed true).state ((Ex.crf Ex.forwards Ex.skewed true).state.groupOf p)
          (Ex.img (Ex.crf Ex.forwards Ex.skewed true).state.heap))
        (Ex.raw (Ex.crf Ex.forwards Ex.skewed true).state.heap p))).sum)) : Ext ℚ)) = [.val (5 / 21), .val (-10 / 21)] := by
    decide +kernel
  generalize Ex.crf Ex.forwards Ex.skewed true = c at *
  obtain ⟨s', h⟩ := C50_transposed_partial hs Ex.forwards_perms hc Ex.rev_perm (visit := id) (fun l => .refl l)
    (sched := id) (fun l => .refl l) ha (by simp) hr.valid (le_refl 1) hr.images hr.raws hr.tree
    (fun x hx => ⟨_, State.sampleAt_inRange hnd (hr.valid x hx), fun _ _ => rfl, by
      rw [← State.readWeightIn_nil, Ex.readB_eq]; exact h1 x hx⟩)
    (fun x hx p hp => ⟨_, State.sampleAt_inRange hnd (hr.valid x hx), fun _ _ => rfl, by
      rw [Ex.readB_eq]; exact h2 x hx p hp⟩) hr.nodup hr.hidden
  refine ⟨c, hc, s', h.trans ?_⟩
  rw [← h3]
  unfold State.readStatistic
  simp only [Ex.readB_eq]

/-- C50 is violated at the second step of the training: after a gradient was computed and the weights were changed, the
product of the unary factors of X, which is not joined to an observed variable, is that of the old weights. -/
theorem C50_stale_violated : ∃ (src : State (Ext ℚ)) (c : Crf (Ext ℚ)), Reach Prudent src ∧
    CrfReach (fun _ _ => True) src Ex.backwards true c ∧ Ex.Regular c.state [Ex.X, Ex.Y] [[1, 1, 1]] ∧
    c.state.Symmetric (Ex.img c.state.heap) ∧ c.state.Aligned id c.positions ∧
    c.state.conditionalGradient (Ex.img c.state.heap) (Ex.raw c.state.heap) [[1, 1, 1]] [Ex.X, Ex.Y] = [11 / 46, 11 / 46] ∧
    ∃ s', State.getCrfGradient Ex.rev id id c.positions [[1, 1, 1]] 1 c.state = .ok s' [.val (11 / 25), .val (1 / 5)] := by
  have hm : Crf.make Ex.backwards Ex.endObs true = .ok (Ex.crf Ex.backwards Ex.endObs true) := Ex.crf_made (by decide +kernel)
  have h1 : CrfReach (fun _ _ => True) Ex.endObs Ex.backwards true
      (Ex.crfStep (.gradient Ex.rev id id [[1, 1, 1]] 1) (Ex.crf Ex.backwards Ex.endObs true)) :=
    Ex.crfStep_reach (.made hm) ⟨Ex.rev_perm, fun l => .refl l, fun l => .refl l⟩ trivial
  have h2 := Ex.crfStep_reach (op := .shared (.setWeights [.val 2, .val 2])) h1 ⟨rfl, trivial, trivial⟩ trivial
  exact ⟨Ex.endObs, _, Ex.endObs_prudent, h2, Ex.regular_of (by decide +kernel), Ex.symmetric_of (by decide +kernel),
    Ex.aligned_of (by decide +kernel), by decide +kernel, Ex.of_answer (by decide +kernel)⟩

namespace Ex

set_option warn.classDefReducibility false
attribute [local instance] realParams

open Lean Elab Tactic Meta in
/-- Reflexivity, with the two sides compared by the kernel only. -/
elab "kernel_rfl" : tactic => do
  let g ← getMainGoal
  let some (_, a, _) := (← g.getType).eq? | throwError "not an equality"
  g.assign (← mkEqRefl a)

/-- The model of X and Y joined by an exponential factor, with Y observed. -/
noncomputable def linkedObs : State (Ext ℝ) :=
  match State.setEvidence rev Y 1 (linked 2) with
  | .ok s _ => s
  | _ => State.initial []

theorem linkedObs_reach : Reach Prudent linkedObs := by
  refine .ok (op := .setEvidence rev Y 1) (Reach.mono (fun _ _ h => h.1) (linked_reach 2)) ⟨rev_perm, trivial⟩ ⟨?_, nofun, nofun⟩
    (show State.setEvidence rev Y 1 (linked 2) = .ok linkedObs () by kernel_rfl)
  intro u v hr
  exact hr.elim

/-- Its conditional random field. -/
noncomputable def linkedCrf : Crf (Ext ℝ) :=
  match Crf.make forwards linkedObs false with
  | .ok c => c
  | _ => ⟨State.initial [], []⟩

theorem linkedCrf_eq : Crf.make forwards linkedObs false = .ok linkedCrf := by kernel_rfl

/-- What it consists of. -/
theorem linkedCrf_facts : linkedCrf.state.vars = [X, Y] ∧ linkedCrf.state.heap = [link 2] ∧
    linkedCrf.state.factors = [0] ∧ linkedCrf.state.tunables = [0] ∧ linkedCrf.state.evidences = [(Y, 1)] ∧
    linkedCrf.positions = [1] ∧ linkedCrf.state.getWeights = .ok ([2].map .val) := by
  exact ⟨by kernel_rfl, by kernel_rfl, by kernel_rfl, by kernel_rfl, by kernel_rfl, by kernel_rfl, by kernel_rfl⟩

theorem link_hidden {c : Crf (Ext ℝ)} (hv : c.state.vars = [X, Y]) (he : c.state.evidences = [(Y, 1)]) :
    ∀ w, w ∈ [X] ↔ c.state.Hidden w := by
  intro w
  unfold State.Hidden State.Observes
  rw [hv, he]
  have hne : X ≠ Y := by decide
  constructor
  · intro hw
    rw [List.mem_singleton.mp hw]
    refine ⟨by simp, ?_⟩
    rintro ⟨k, hk⟩
    simp only [List.mem_singleton, Prod.mk.injEq] at hk
    exact hne hk.1
  · rintro ⟨h1, h2⟩
    simp only [List.mem_cons, List.not_mem_nil, or_false] at h1
    rcases h1 with rfl | rfl
    · simp
    · exact absurd ⟨1, by simp⟩ h2

theorem link_aligned {c : Crf (Ext ℝ)} (hv : c.state.vars = [X, Y]) (he : c.state.evidences = [(Y, 1)])
    (hp : c.positions = [1]) : c.state.Aligned id c.positions := by
  intro i v hi
  rw [he] at hi
  rw [hp, hv]
  match i, hi with
  | 0, hi => cases hi; rfl
  | i + 1, hi => cases hi

/-- The gradient of the samples (0, 0), (0, 1) is the derivative at 2 of the average of the logarithms of the conditional
probabilities of X = 0 given Y = 0 and of X = 0 given Y = 1. -/
theorem linkedCrf_gradient : ∃ (s' : State (Ext ℝ)) (d : ℝ),
    State.getCrfGradient rev id id linkedCrf.positions [[0, 0], [0, 1]] 1 linkedCrf.state = .ok s' [.val d] ∧
    HasDerivAt (fun y => State.conditionalLogLikelihood [[0, 0], [0, 1]] [X] (linkedCrf.state.reweighed [y])) d 2 := by
  have hc : CrfReach CrfPrudent linkedObs forwards false linkedCrf := .made linkedCrf_eq
  obtain ⟨hv, hh, hf, ht, he, hp, hw⟩ := linkedCrf_facts
  generalize linkedCrf = c at *
  obtain ⟨hi, hi', hpos, hval⟩ := link_facts hv hh hf ht
  obtain ⟨s', g, h1, h2, h3⟩ := C50_derivative_partial (fun _ => rfl) linkedObs_reach forwards_perms hc (ord := rev) rev_perm
    (visit := id) (fun l => .refl l) (sched := id) (fun l => .refl l) (samples := [[0, 0], [0, 1]])
    (link_aligned hv he hp) (by simp) hval (n := 1) (by omega) hi hi' (link_symmetric hh hf)
    (fun v _ => two_tree (by rw [hv]; simp) v) (fun x _ => hpos _) (l := [X]) (by simp) (link_hidden hv he) hw
  cases g with
  | nil => cases h2
  | cons d g =>
    cases g with
    | nil => exact ⟨s', d, h1, h3 0 2 d rfl rfl⟩
    | cons => cases h2

end Ex

end EFG
