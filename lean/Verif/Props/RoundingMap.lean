import Verif.Props.ExactMap
import Verif.Props.Rounding
/-
C59: the MAP estimates on trees in an arithmetic with rounding.
-/

namespace EFG
variable {K : Type} [Field K] [LinearOrder K] [IsStrictOrderedRing K]

theorem State.Quiet.nearlyBestS {s s' : State (Ext K)} (hq : State.Quiet s s') {ω : Assign → K} {t : K} {a : Assign} :
    s'.NearlyBest ω t a ↔ s.NearlyBest ω t a := by
  unfold State.NearlyBest State.Agrees State.InRange
  rw [hq.vars, hq.evidences]

section
variable [FloatParams K] [Rounding K]
attribute [local instance 2000] Ext.rounded

theorem State.nearlyBest_symmetric {s : State (Ext K)} (hs : State.Core s) {φ : Nat → Assign → K} (hy : s.Symmetric φ)
    {t : K} {a : Assign} : s.NearlyBest (s.readWeight φ) t a ↔ s.NearlyBest (s.weight φ) t a := by
  unfold State.NearlyBest
  constructor
  · rintro ⟨h1, h2⟩
    refine ⟨h1, fun b hb => ?_⟩
    rw [← State.readWeight_symmetric hs hy hb.1, ← State.readWeight_symmetric hs hy h1.1]
    exact h2 b hb
  · rintro ⟨h1, h2⟩
    refine ⟨h1, fun b hb => ?_⟩
    rw [State.readWeight_symmetric hs hy hb.1, State.readWeight_symmetric hs hy h1.1]
    exact h2 b hb

theorem State.map_near {b : Prop} {H u : K} (hu : Rounding.Rounds b H u) {s : State (Ext K)}
    (h : Reach (fun s op => Prudent s op ∧ Steady s op ∧ ¬op.Draws) s)
    {ord : List Var → List Var} (hord : ∀ l, (ord l).Perm l) {sched : Sched} (hsched : ∀ l, (sched l).Perm l)
    {n : Nat} (hn : 1 ≤ n) {φ : Nat → Assign → K} (hφ : s.Images φ)
    (hfl : s.AtLeast φ (FloatParams.minK / (1 - u) ^ 3)) {v w : Var} (hv : s.Hidden v)
    (hw : v.eqv w = true) (ht : s.TreeAt v) {l : List Var} (hl : s.ClusterOthers v l)
    {A : K} {m D : Nat} (hA : b → 1 ≤ A)
    (him : b → ∀ p ∈ s.factors, ∀ a, s.InRange a → 1 / A ≤ φ p a ∧ φ p a ≤ A)
    (hsize : b → ∀ x ∈ v :: l, x.size ≤ m) (hdeg : b → ∀ x ∈ v :: l, s.degree x ≤ D)
    (hH : b → (m * A * (1 - u)⁻¹ ^ (m + 4)) ^ (4 * D + 3) ≤ H)
    (hpos : ∃ e, s.Agrees e ∧ s.readWeight φ e ≠ 0) :
    ∃ s' k, State.getMAP ord sched w n s = .ok s' k ∧
      ∃ a, s.NearlyBest (s.readWeight φ) ((1 - u) ^ (2 * s.roundings v l)) a ∧ a v = k := by
  rw [State.getMAP_eq]
  exact State.asks_faithful hord .map hsched (reach_sound_drawless h) hn (r := State.readMAP ord w) (by
    intro s' p ha hH' hF hp hk
    have hq := ha.toQuiet
    have hv' := (hq.hiddenS v).mpr hv
    have hr : s'.readWeight φ = s.readWeight φ := funext (fun a => hq.readWeightS a)
    obtain ⟨e, he, hene⟩ := hpos
    obtain ⟨ps, k, h1, h2, a, h3, h4, h5⟩ := State.belief_map_near hu hord hH' hF hp hk (hq.imagesS hφ) (hq.atLeastS hfl)
      hv' (hq.treeAt ht) (hq.clusterOthersS hl) (State.ranged_of hq hH'.inv.toCore hφ hv hl hA him hsize hdeg hH)
      ⟨e, hq.agreesS he, by rw [hr]; exact hene⟩
    refine ⟨k, ?_, a, ?_, h5⟩
    · unfold State.readMAP
      rw [hH'.inv.readMarginal_hidden (State.hidden_iff.mp hv') hw, h1]
      exact h2
    · rw [hr, hq.roundingsS] at h4
      exact hq.nearlyBestS.mp ⟨h3, h4⟩)

/-- C59, as the library behaves: the factors which join two hidden variables are read with the two values exchanged. -/
theorem C59_transposed_partial {u : K} (hu : Rounding.Standard u) {s : State (Ext K)}
    (h : Reach (fun s op => Prudent s op ∧ Steady s op ∧ ¬op.Draws) s)
    {ord : List Var → List Var} (hord : ∀ l, (ord l).Perm l) {sched : Sched} (hsched : ∀ l, (sched l).Perm l)
    {n : Nat} (hn : 1 ≤ n) {φ : Nat → Assign → K} (hφ : s.Images φ)
    (hfl : s.AtLeast φ (FloatParams.minK / (1 - u) ^ 3)) {v w : Var} (hv : s.Hidden v)
    (hw : v.eqv w = true) (ht : s.TreeAt v) {l : List Var} (hl : s.ClusterOthers v l)
    (hpos : ∃ e, s.Agrees e ∧ s.readWeight φ e ≠ 0) :
    ∃ s' k, State.getMAP ord sched w n s = .ok s' k ∧
      ∃ a, s.NearlyBest (s.readWeight φ) ((1 - u) ^ (2 * s.roundings v l)) a ∧ a v = k :=
  State.map_near (hu.rounds 0) h hord hsched hn hφ hfl hv hw ht hl (A := 1) (m := 0) (D := 0) False.elim False.elim
    False.elim False.elim False.elim hpos

/-- C59: with operations whose relative error is at most `u`, after any execution of prudent and steady operations
which draws no samples, on the factors `φ`, the value returned by `getMAP` for a hidden variable whose cluster has no
cycles is its value in an assignment whose weight is the greatest one, up to two relative errors for each of the
`roundings`.

Missing: the results which underflow or overflow (see `C59_range_partial`), the factors which join two hidden
variables and are not symmetric or have an image not above the smallest positive normal number by three roundings
(`C26_violated`), the executions which change a factor of the model whose images were already used or draw samples, and the models
for which all the assignments have weight zero. -/
theorem C59_map_rounded_partial {u : K} (hu : Rounding.Standard u) {s : State (Ext K)}
    (h : Reach (fun s op => Prudent s op ∧ Steady s op ∧ ¬op.Draws) s)
    {ord : List Var → List Var} (hord : ∀ l, (ord l).Perm l) {sched : Sched} (hsched : ∀ l, (sched l).Perm l)
    {n : Nat} (hn : 1 ≤ n) {φ : Nat → Assign → K} (hφ : s.Images φ) (hsym : s.Symmetric φ)
    (hfl : s.AtLeast φ (FloatParams.minK / (1 - u) ^ 3)) {v w : Var} (hv : s.Hidden v)
    (hw : v.eqv w = true) (ht : s.TreeAt v) {l : List Var} (hl : s.ClusterOthers v l)
    (hpos : ∃ e, s.Agrees e ∧ s.weight φ e ≠ 0) :
    ∃ s' k, State.getMAP ord sched w n s = .ok s' k ∧
      ∃ a, s.NearlyBest (s.weight φ) ((1 - u) ^ (2 * s.roundings v l)) a ∧ a v = k := by
  have hs := (reach_sound_drawless h).healthy.inv.toCore
  obtain ⟨e, he, hene⟩ := hpos
  obtain ⟨s', k, h1, a, h2, h3⟩ := C59_transposed_partial hu h hord hsched hn hφ hfl hv hw ht hl
    ⟨e, he, by rw [State.readWeight_symmetric hs hsym he.1]; exact hene⟩
  exact ⟨s', k, h1, a, (State.nearlyBest_symmetric hs hsym).mp h2, h3⟩

/-- C59, for the operations which have a relative error of at most `u` when the result is between `1 / H` and `H`: the
images of the factors are between `1 / A` and `A`, the variables of the cluster have at most `m` values and `D` factors
each, and `H` is large enough for them. The rest is as in `C59_map_rounded_partial`. -/
theorem C59_range_partial {H u : K} (hu : Rounding.StandardWithin H u) {s : State (Ext K)}
    (h : Reach (fun s op => Prudent s op ∧ Steady s op ∧ ¬op.Draws) s)
    {ord : List Var → List Var} (hord : ∀ l, (ord l).Perm l) {sched : Sched} (hsched : ∀ l, (sched l).Perm l)
    {n : Nat} (hn : 1 ≤ n) {φ : Nat → Assign → K} (hφ : s.Images φ) (hsym : s.Symmetric φ)
    (hfl : s.AtLeast φ (FloatParams.minK / (1 - u) ^ 3)) {v w : Var} (hv : s.Hidden v) (hw : v.eqv w = true)
    (ht : s.TreeAt v) {l : List Var} (hl : s.ClusterOthers v l) {e : Assign} (he : s.Agrees e)
    {A : K} {m D : Nat} (hA : 1 ≤ A)
    (him : ∀ p ∈ s.factors, ∀ a, s.InRange a → 1 / A ≤ φ p a ∧ φ p a ≤ A)
    (hsize : ∀ x ∈ v :: l, x.size ≤ m) (hdeg : ∀ x ∈ v :: l, s.degree x ≤ D)
    (hH : (m * A / (1 - u) ^ (m + 4)) ^ (4 * D + 3) ≤ H) :
    ∃ s' k, State.getMAP ord sched w n s = .ok s' k ∧
      ∃ a, s.NearlyBest (s.weight φ) ((1 - u) ^ (2 * s.roundings v l)) a ∧ a v = k := by
  have hs := (reach_sound_drawless h).healthy.inv.toCore
  have hpos : s.weight φ e ≠ 0 := by
    refine (list_prod_pos (fun x hx => ?_)).ne'
    obtain ⟨p, hp, rfl⟩ := List.mem_map.1 hx
    exact (div_pos one_pos (zero_lt_one.trans_le hA)).trans_le (him p hp e he.1).1
  obtain ⟨s', k, h1, a, h2, h3⟩ := State.map_near hu.rounds h hord hsched hn hφ hfl hv hw ht hl (fun _ => hA)
    (fun _ => him) (fun _ => hsize) (fun _ => hdeg) (fun _ => by rw [inv_pow, ← div_eq_mul_inv]; exact hH)
    ⟨e, he, by rw [State.readWeight_symmetric hs hsym he.1]; exact hpos⟩
  exact ⟨s', k, h1, a, (State.nearlyBest_symmetric hs hsym).mp h2, h3⟩

/-- C59: when an assignment `a` outweighs the ones which give another value to `v` by more than the roundings, `getMAP`
returns its value. The rest is as in `C59_map_rounded_partial`. -/
theorem C59_margin_partial {u : K} (hu : Rounding.Standard u) {s : State (Ext K)}
    (h : Reach (fun s op => Prudent s op ∧ Steady s op ∧ ¬op.Draws) s)
    {ord : List Var → List Var} (hord : ∀ l, (ord l).Perm l) {sched : Sched} (hsched : ∀ l, (sched l).Perm l)
    {n : Nat} (hn : 1 ≤ n) {φ : Nat → Assign → K} (hφ : s.Images φ) (hsym : s.Symmetric φ)
    (hfl : s.AtLeast φ (FloatParams.minK / (1 - u) ^ 3)) {v w : Var} (hv : s.Hidden v)
    (hw : v.eqv w = true) (ht : s.TreeAt v) {l : List Var} (hl : s.ClusterOthers v l) {a : Assign} (ha : s.Agrees a)
    (hpos : s.weight φ a ≠ 0)
    (hmargin : ∀ b, s.Agrees b → b v ≠ a v → s.weight φ b < (1 - u) ^ (2 * s.roundings v l) * s.weight φ a) :
    ∃ s', State.getMAP ord sched w n s = .ok s' (a v) := by
  obtain ⟨s', k, h1, b, h2, h3⟩ := C59_map_rounded_partial hu h hord hsched hn hφ hsym hfl hv hw ht hl ⟨a, ha, hpos⟩
  refine ⟨s', ?_⟩
  by_cases hb : b v = a v
  · rw [h1, ← h3, hb]
  · exact absurd (h2.2 a ha) (not_le.mpr (hmargin b h2.1 hb))

/-- C59, for all the hidden variables at once: when no cluster has cycles and, for each hidden variable, the assignment
`a` outweighs the ones which give it another value by more than the roundings, `getHiddenSetMAP` returns `a`, in the
order of the hidden variables. The rest is as in `C59_map_rounded_partial`. -/
theorem C59_hidden_set_partial {u : K} (hu : Rounding.Standard u) {s : State (Ext K)}
    (h : Reach (fun s op => Prudent s op ∧ Steady s op ∧ ¬op.Draws) s)
    {ord : List Var → List Var} (hord : ∀ l, (ord l).Perm l) {sched : Sched} (hsched : ∀ l, (sched l).Perm l)
    {n : Nat} (hn : 1 ≤ n) {φ : Nat → Assign → K} (hφ : s.Images φ) (hsym : s.Symmetric φ)
    (hfl : s.AtLeast φ (FloatParams.minK / (1 - u) ^ 3)) (ht : ∀ v, s.Hidden v → s.TreeAt v) {l : Var → List Var}
    (hl : ∀ v, s.Hidden v → s.ClusterOthers v (l v)) {a : Assign} (ha : s.Agrees a) (hpos : s.weight φ a ≠ 0)
    (hmargin : ∀ v, s.Hidden v → ∀ b, s.Agrees b → b v ≠ a v →
      s.weight φ b < (1 - u) ^ (2 * s.roundings v (l v)) * s.weight φ a) :
    ∃ s' vs, State.getHiddenSetMAP ord sched n s = .ok s' (vs.map a) ∧ vs = ord s'.hiddenVariables ∧ vs.Nodup ∧
      ∀ v, v ∈ vs ↔ s.Hidden v := by
  have hs := (reach_sound_drawless h).healthy.inv.toCore
  rw [State.getHiddenSetMAP_eq]
  obtain ⟨s', p, h1, hask, h3, hp, hk⟩ := State.checkPropagation_sound hord .map hsched (reach_sound_drawless h) hn
  have hH := h3.healthy
  have hF := h3.faithful trivial
  have hq := hask.toQuiet
  have hr : s'.readWeight φ = s.readWeight φ := funext (fun a => hq.readWeightS a)
  have hmem : ∀ v, v ∈ ord s'.hiddenVariables ↔ s.Hidden v := by
    intro v
    rw [(hord _).mem_iff, hH.inv.mem_hiddenVariables, hq.hiddenS]
  have hall : ∀ v ∈ ord s'.hiddenVariables, State.mapOf ord s' v = .ok (a v) := by
    intro v hv
    have hv := (hmem v).mp hv
    have hv' := (hq.hiddenS v).mpr hv
    obtain ⟨ps, k, g1, g2, c, g3, g4, g5⟩ := State.belief_map_near (hu.rounds 0) hord hH hF hp hk (hq.imagesS hφ)
      (hq.atLeastS hfl) hv' (hq.treeAt (ht v hv)) (hq.clusterOthersS (hl v hv))
      (State.ranged_of hq hH.inv.toCore hφ hv (hl v hv) (A := 1) (m := 0) (D := 0) False.elim False.elim False.elim
        False.elim False.elim)
      ⟨a, hq.agreesS ha, by rw [hr, State.readWeight_symmetric hs hsym ha.1]; exact hpos⟩
    rw [hr, hq.roundingsS] at g4
    have hb : s.NearlyBest (s.weight φ) ((1 - u) ^ (2 * s.roundings v (l v))) c :=
      (State.nearlyBest_symmetric hs hsym).mp (hq.nearlyBestS.mp ⟨g3, g4⟩)
    have hcv : c v = a v := by
      by_contra hne
      exact absurd (hb.2 a ha) (not_le.mpr (hmargin v hv c hb.1 hne))
    unfold State.mapOf
    rw [hH.inv.net.nodeKey?_mem (State.mem_hid.mp (State.hidden_iff.mp hv')).1]
    simp only
    rw [g1]
    simp only
    rw [g2, ← g5, hcv]
  refine ⟨s', ord s'.hiddenVariables, ?_, rfl, ?_, hmem⟩
  · unfold State.asks
    rw [h1]
    simp only
    unfold State.lift
    beta_reduce
    rw [Res.mapList_ok hall]
  · rw [(hord _).nodup_iff]
    rw [hH.inv.hiddenVariables, List.flatMap_def]
    exact hH.inv.parts.nodup

end

namespace Ex
section
variable [Arith (Ext ℚ)] {s : State (Ext ℚ)}

/-- What the examples evaluate about the two factors. -/
structure CoupleFacts [Arith (Ext ℚ)] : Prop where
  group : (match (heapXYZ : Heap (Ext ℚ))[1]? with | some f => f.vars.group | none => []) = [X, Y]
  has : ∀ q ∈ [0, 1], ((heapXYZ[q]?).any (fun f => decide (X ∈ f.vars.group))) = true
  only : ∀ q ∈ [0, 1], (heapXYZ[q]?).all (fun f => f.vars.group.all (fun v => v = X ∨ v = Y)) = true
  images : ∀ q ∈ [0, 1], ∀ i < 2, ∀ j < 2, 1 ≤ phi q (fun z => if z = X then i else j) ∧
    phi q (fun z => if z = X then i else j) ≤ 4
  weights : ∀ i < 2, ∀ j < 2, phi 0 (fun z => if z = X then i else j) * phi 1 (fun z => if z = X then i else j) =
    if i = 1 ∧ j = 1 then 12 else if i = 0 ∧ j = 0 then 6 else if i = 0 then 3 else 4

theorem Couple.linked' (h : Couple s) (f : CoupleFacts) {v : Var} (hv : v = X ∨ v = Y) (u : Var) :
    s.Linked v u ↔ u = X ∨ u = Y := by
  rcases hv with rfl | rfl
  · exact h.linked f.group u
  · have hXY : s.Linked X Y := (h.linked f.group Y).mpr (Or.inr rfl)
    have hYX : s.Linked Y X := .single ⟨h.hidden (by simp), h.hidden (by simp), by
      obtain ⟨p, hp⟩ := h.joins f.group
      exact ⟨p, hp.symm⟩⟩
    rw [← h.linked f.group u]
    exact ⟨fun h => hXY.trans h, fun h => hYX.trans h⟩

theorem Couple.others (h : Couple s) (f : CoupleFacts) {v : Var} (hv : v = X ∨ v = Y) :
    s.ClusterOthers v (if v = X then [Y] else [X]) := by
  refine ⟨by split <;> simp, fun w => ?_⟩
  rw [h.linked' f hv]
  rcases hv with rfl | rfl
  · rw [if_pos rfl, List.mem_singleton]
    exact ⟨fun h => ⟨Or.inr h, by rw [h]; decide⟩, fun h => h.1.resolve_left h.2⟩
  · rw [if_neg (by decide), List.mem_singleton]
    exact ⟨fun h => ⟨Or.inl h, by rw [h]; decide⟩, fun h => h.1.resolve_right h.2⟩

theorem Couple.roundings (h : Couple s) (f : CoupleFacts) {v : Var} (hv : v = X ∨ v = Y) :
    s.roundings v (if v = X then [Y] else [X]) = 31 := by
  have hfil : s.factors.filter (fun p => @decide (s.InCluster v p) (Classical.propDecidable _)) = [0, 1] := by
    rw [h.factors]
    refine List.filter_eq_self.mpr (fun q hq => ?_)
    obtain ⟨l, x, h1, h2, h3, h4⟩ := h.in_ f.has q hq
    have : s.InCluster v q := ⟨l, x, h1, h2, h3, (h.linked' f hv x).mpr ((h.linked f.group x).mp h4)⟩
    simpa using this
  unfold State.roundings
  rw [hfil]
  rcases hv with rfl | rfl <;> rfl

theorem Couple.phi_eq (h : Couple s) (f : CoupleFacts) {q : Nat} (hq : q ∈ s.factors) (a : Assign) :
    phi q a = phi q (fun z => if z = X then a X else a Y) := by
  rw [h.factors] at hq
  refine phi_congr (fun g hg v hv => ?_)
  have := f.only q hq
  rw [hg] at this
  rcases of_decide_eq_true (List.all_eq_true.mp this v hv) with rfl | rfl <;> rfl

theorem Couple.range (h : Couple s) {a : Assign} (ha : s.InRange a) : a X < 2 ∧ a Y < 2 :=
  ⟨ha X (by rw [h.vars]; simp), ha Y (by rw [h.vars]; simp)⟩

theorem Couple.images (h : Couple s) (f : CoupleFacts) {q : Nat} (hq : q ∈ s.factors) {a : Assign} (ha : s.InRange a) :
    1 ≤ phi q a ∧ phi q a ≤ 4 := by
  rw [h.phi_eq f hq]
  exact f.images q (by rwa [h.factors] at hq) _ (h.range ha).1 _ (h.range ha).2

theorem Couple.weight (h : Couple s) (f : CoupleFacts) {a : Assign} (ha : s.InRange a) :
    s.weight phi a = if a X = 1 ∧ a Y = 1 then 12 else if a X = 0 ∧ a Y = 0 then 6 else if a X = 0 then 3 else 4 := by
  rw [← f.weights _ (h.range ha).1 _ (h.range ha).2, ← h.phi_eq f (by rw [h.factors]; simp),
    ← h.phi_eq f (by rw [h.factors]; simp)]
  unfold State.weight
  rw [h.factors]
  simp

theorem Couple.ones (h : Couple s) : s.Agrees (fun _ => 1) := by
  refine ⟨fun v hv => ?_, fun v k hk => ?_⟩
  · rw [h.vars] at hv
    simp only [List.mem_cons, List.not_mem_nil, or_false] at hv
    rcases hv with rfl | rfl <;> decide
  · rw [h.evidences] at hk
    simp at hk

/-- X = 1, Y = 1 weighs 12, and the others at most 6. -/
theorem Couple.margin (h : Couple s) (f : CoupleFacts) {v : Var} (hv : v = X ∨ v = Y) {b : Assign} (hb : s.Agrees b)
    (hne : b v ≠ 1) {t : ℚ} (ht : 1 / 2 < t) : s.weight phi b < t * s.weight phi (fun _ => 1) := by
  have h12 : s.weight phi (fun _ => 1) = 12 := by
    rw [h.weight f h.ones.1]
    exact if_pos ⟨rfl, rfl⟩
  rw [h.weight f hb.1, h12]
  have : ¬ (b X = 1 ∧ b Y = 1) := by
    rintro ⟨h1, h2⟩
    rcases hv with rfl | rfl
    · exact hne h1
    · exact hne h2
  rw [if_neg this]
  split
  · linarith
  · split <;> linarith

end
end Ex

section
attribute [local instance 2000] Ext.rounded
attribute [local instance] Ex.nearest24

theorem Ex.couple_facts : Ex.CoupleFacts where
  group := by decide +kernel
  has := by decide +kernel
  only := by decide +kernel
  images := by decide +kernel
  weights := by decide +kernel

/-- The assignment with the value returned for Y weighs at least `(1 - 2⁻²⁴) ^ 62` times the greatest weight. -/
example : ∃ s' k, State.getMAP Ex.rev List.reverse Ex.Y 2 Ex.couple = .ok s' k ∧
    ∃ a, Ex.couple.NearlyBest (Ex.couple.weight Ex.phi) ((1 - 1 / 2 ^ 24) ^ 62) a ∧ a Ex.Y = k := by
  have hc := Ex.couple_is
  have hf := Ex.couple_facts
  have hN := hc.roundings hf (Or.inr rfl)
  have := C59_map_rounded_partial Ex.nearest24_standard (s := Ex.couple)
    (Ex.after_drawless _ (by decide +kernel)) (ord := Ex.rev) Ex.rev_perm (sched := List.reverse)
    (fun l => List.reverse_perm l) (n := 2) (by omega) (φ := Ex.phi)
    (Ex.phi_images hc.heap (by rw [hc.vars, hc.factors]; decide +kernel))
    (Ex.phi_symmetric hc.heap (by rw [hc.factors]; decide +kernel))
    (fun p _ _ hp _ _ a ha => le_trans (by show (1 / 1000000 : ℚ) / _ ≤ 1; norm_num) (hc.images hf hp.1 ha).1)
    (v := Ex.Y) (w := Ex.Y) (hc.hidden (by simp)) (Var.eqv_refl _)
    (Ex.small_tree (fun u => (hc.linked' hf (Or.inr rfl) u).mp)) (hc.others hf (Or.inr rfl))
    ⟨_, hc.ones, by rw [hc.weight hf hc.ones.1]; norm_num⟩
  rwa [hN] at this

/-- X = 1, Y = 1 is the most probable assignment, and a significand of 24 bits suffices to find it. -/
example : ∃ s', State.getMAP Ex.rev List.reverse Ex.X 2 Ex.couple = .ok s' 1 := by
  have hc := Ex.couple_is
  have hf := Ex.couple_facts
  have hN := hc.roundings hf (Or.inl rfl)
  exact C59_margin_partial Ex.nearest24_standard (s := Ex.couple)
    (Ex.after_drawless _ (by decide +kernel)) (ord := Ex.rev) Ex.rev_perm (sched := List.reverse)
    (fun l => List.reverse_perm l) (n := 2) (by omega) (φ := Ex.phi)
    (Ex.phi_images hc.heap (by rw [hc.vars, hc.factors]; decide +kernel))
    (Ex.phi_symmetric hc.heap (by rw [hc.factors]; decide +kernel))
    (fun p _ _ hp _ _ a ha => le_trans (by show (1 / 1000000 : ℚ) / _ ≤ 1; norm_num) (hc.images hf hp.1 ha).1)
    (v := Ex.X) (w := Ex.X) (hc.hidden (by simp)) (Var.eqv_refl _)
    (Ex.small_tree (fun u => (hc.linked' hf (Or.inl rfl) u).mp)) (hc.others hf (Or.inl rfl)) hc.ones
    (by rw [hc.weight hf hc.ones.1]; norm_num)
    (fun b hb hne => hc.margin hf (Or.inl rfl) hb hne (by rw [hN]; norm_num))

/-- Both at once. -/
example : ∃ (s' : State (Ext ℚ)) (vs : List Var), State.getHiddenSetMAP Ex.rev List.reverse 2 Ex.couple =
    .ok s' (vs.map (fun _ => 1)) ∧ ∀ v, v ∈ vs ↔ Ex.couple.Hidden v := by
  have hc := Ex.couple_is
  have hf := Ex.couple_facts
  have hin : ∀ v, Ex.couple.Hidden v → v = Ex.X ∨ v = Ex.Y := by
    intro v hv
    have := hv.1
    rw [hc.vars] at this
    simpa using this
  obtain ⟨s', vs, h1, _, _, h2⟩ := C59_hidden_set_partial Ex.nearest24_standard (s := Ex.couple)
    (Ex.after_drawless _ (by decide +kernel)) (ord := Ex.rev) Ex.rev_perm (sched := List.reverse)
    (fun l => List.reverse_perm l) (n := 2) (by omega) (φ := Ex.phi)
    (Ex.phi_images hc.heap (by rw [hc.vars, hc.factors]; decide +kernel))
    (Ex.phi_symmetric hc.heap (by rw [hc.factors]; decide +kernel))
    (fun p _ _ hp _ _ a ha => le_trans (by show (1 / 1000000 : ℚ) / _ ≤ 1; norm_num) (hc.images hf hp.1 ha).1)
    (fun v hv => Ex.small_tree (fun u => (hc.linked' hf (hin v hv) u).mp))
    (fun v hv => hc.others hf (hin v hv)) hc.ones
    (by rw [hc.weight hf hc.ones.1]; norm_num)
    (fun v hv b hb hne => hc.margin hf (hin v hv) hb hne (by rw [hc.roundings hf (hin v hv)]; norm_num))
  exact ⟨s', vs, h1, h2⟩

end

section
attribute [local instance 2000] Ext.rounded
attribute [local instance] Ex.binary32

theorem Ex.couple32_facts : Ex.CoupleFacts where
  group := by decide +kernel
  has := by decide +kernel
  only := by decide +kernel
  images := by decide +kernel
  weights := by decide +kernel

/-- In the format binary32: the assignment with the value returned for Y weighs at least `1 - 2⁻¹⁸` times the greatest
weight. -/
example : ∃ s' k, State.getMAP Ex.rev List.reverse Ex.Y 2 Ex.couple32 = .ok s' k ∧
    ∃ a, Ex.couple32.NearlyBest (Ex.couple32.weight Ex.phi) (1 - 1 / 2 ^ 18) a ∧ a Ex.Y = k := by
  have hc := Ex.couple32_is
  have hf := Ex.couple32_facts
  obtain ⟨s', k, h1, a, ⟨h2, h3⟩, h4⟩ := C59_range_partial Ex.binary32_within (s := Ex.couple32)
    (Ex.after_drawless _ (by decide +kernel)) (ord := Ex.rev) Ex.rev_perm (sched := List.reverse)
    (fun l => List.reverse_perm l) (n := 2) (by omega) (φ := Ex.phi)
    (Ex.phi_images hc.heap (by rw [hc.vars, hc.factors]; decide +kernel))
    (Ex.phi_symmetric hc.heap (by rw [hc.factors]; decide +kernel))
    (fun p _ _ hp _ _ a ha => le_trans (by show (1 / 1000000 : ℚ) / _ ≤ 1; norm_num) (hc.images hf hp.1 ha).1)
    (v := Ex.Y) (w := Ex.Y) (hc.hidden (by simp)) (Var.eqv_refl _)
    (Ex.small_tree (fun u => (hc.linked' hf (Or.inr rfl) u).mp)) (hc.others hf (Or.inr rfl)) hc.ones
    (A := 4) (m := 2) (D := 2) (by norm_num)
    (fun p hp a ha => ⟨le_trans (by norm_num) (hc.images hf hp ha).1, (hc.images hf hp ha).2⟩) (by decide)
    (by
      intro x _
      unfold State.degree
      refine (List.length_filter_le _ _).trans ?_
      rw [hc.factors]
      decide)
    (by norm_num)
  refine ⟨s', k, h1, a, ⟨h2, fun b hb => le_trans ?_ (h3 b hb)⟩, h4⟩
  rw [hc.roundings hf (Or.inr rfl)]
  refine mul_le_mul_of_nonneg_right (by norm_num) ?_
  rw [hc.weight hf hb.1]
  split
  · norm_num
  · split
    · norm_num
    · split <;> norm_num

end

namespace Ex

/-- Two factors of X, whose products differ by less than half a unit in the last place. -/
def closeHeap [Arith (Ext ℚ)] : Heap (Ext ℚ) :=
  [una X (1 + 1 / 2 ^ 22) (1 + 1 / 2 ^ 23), una X 1 (1 + 1 / 2 ^ 23)]

theorem closeHeap_reach [Arith (Ext ℚ)] : ∀ f ∈ closeHeap, FactorReach f := by
  intro f hf
  simp only [closeHeap, List.mem_cons, List.not_mem_nil, or_false] at hf
  rcases hf with rfl | rfl <;> exact build_reach (.single _) (by decide) _

/-- Their images. -/
def closePhi (p : Nat) (a : Assign) : ℚ :=
  if p = 0 then if a X = 0 then 1 + 1 / 2 ^ 22 else 1 + 1 / 2 ^ 23 else if a X = 0 then 1 else 1 + 1 / 2 ^ 23

end Ex

section
attribute [local instance 2000] Ext.rounded
attribute [local instance] Ex.binary32

/-- C26 does not hold with rounding, and the factor in C59 is needed: for X with two factors, whose images are
`1 + 2⁻²²`, `1 + 2⁻²³` and `1`, `1 + 2⁻²³`, the most probable value is 1, but in the format binary32 the two products are
equal after their rounding and `getMAP` returns 0. -/
theorem C59_exact_violated : ∃ s : State (Ext ℚ), Reach (fun s op => Prudent s op ∧ Steady s op ∧ ¬op.Draws) s ∧
    ∃ φ : Nat → Assign → ℚ, s.Images φ ∧ s.Hidden Ex.X ∧ s.TreeAt Ex.X ∧ s.ClusterOthers Ex.X [] ∧
    (∀ a, s.MostProbable (s.weight φ) a → a Ex.X = 1) ∧ (∃ a, s.MostProbable (s.weight φ) a) ∧
    ∃ s', State.getMAP Ex.rev id Ex.X 1 s = .ok s' 0 := by
  let s := (Ex.runActs [.add 0, .add 1] (State.initial Ex.closeHeap)).1
  have hv : s.vars = [Ex.X] := by decide +kernel
  have hh : s.heap = Ex.closeHeap := by with_unfolding_all rfl
  have hf : s.factors = [0, 1] := by decide +kernel
  have he : s.evidences = [] := by decide +kernel
  have hhid : s.Hidden Ex.X := ⟨by rw [hv]; simp, by rw [State.Observes, he]; simp⟩
  have hlink : ∀ u, s.Linked Ex.X u → u = Ex.X := by
    intro u h
    cases h with
    | refl => rfl
    | tail _ h =>
      have := h.2.1.1
      rw [hv] at this
      simpa using this
  have hg : ∀ p ∈ [0, 1], ∀ f, (Ex.closeHeap : Heap (Ext ℚ))[p]? = some f → f.vars.group = [Ex.X] := by
    have : ∀ p ∈ [0, 1], ((Ex.closeHeap : Heap (Ext ℚ))[p]?).all (fun f => f.vars.group = [Ex.X]) = true := by
      decide +kernel
    intro p hp f hpf
    have := this p hp
    rw [hpf] at this
    exact of_decide_eq_true this
  have hi : ∀ p ∈ [0, 1], ∀ i < 2, ((Ex.closeHeap : Heap (Ext ℚ))[p]?).bind (fun f => Ex.valAt f [i]) =
      some (Ex.closePhi p (fun _ => i)) := by decide +kernel
  have hw : ∀ a, s.weight Ex.closePhi a = if a Ex.X = 0 then 1 + 1 / 2 ^ 22 else (1 + 1 / 2 ^ 23) ^ 2 := by
    intro a
    unfold State.weight
    rw [hf]
    by_cases h : a Ex.X = 0 <;> simp [Ex.closePhi, h] <;> norm_num
  have ha : ∀ i < 2, s.Agrees (fun _ => i) := by
    intro i hi
    refine ⟨fun v h => ?_, fun v k h => ?_⟩
    · rw [hv, List.mem_singleton] at h
      rw [h]
      exact hi
    · rw [he] at h
      simp at h
  refine ⟨s, Ex.runActs_drawless _ (.init Ex.closeHeap_reach) (by decide +kernel), Ex.closePhi, ?_, hhid,
    Ex.small_tree (a := Ex.X) (b := Ex.X) (fun u h => Or.inl (hlink u h)), ⟨by simp, fun w => ?_⟩, ?_,
    ⟨fun _ => 1, ha 1 (by omega), ?_⟩, ?_⟩
  · intro p hp a ha
    rw [hf] at hp
    have := hi p hp (a Ex.X) (ha Ex.X (by rw [hv]; simp))
    cases hpf : (Ex.closeHeap : Heap (Ext ℚ))[p]? with
    | none => rw [hpf] at this; cases this
    | some f =>
      rw [hpf] at this
      refine ⟨f, by rw [hh]; exact hpf, ?_, ?_⟩
      · rw [hg p hp f hpf]
        exact Ex.valAt_some this
      · unfold Ex.closePhi
        split <;> split <;> norm_num
  · simp only [List.not_mem_nil, false_iff, not_and, not_not]
    exact fun h => hlink w h
  · intro a hm
    have h2 : a Ex.X < 2 := hm.1.1 Ex.X (by rw [hv]; simp)
    by_contra hne
    have h0 : a Ex.X = 0 := by omega
    have := hm.2 _ (ha 1 (by omega))
    rw [hw, hw, if_pos h0, if_neg (by simp)] at this
    norm_num at this
  · intro b _
    rw [hw, hw (fun _ => 1), if_neg (show ¬(1 : Nat) = 0 by decide)]
    split <;> norm_num
  · have : (match State.getMAP Ex.rev id Ex.X 1 s with
        | .ok _ k => some k
        | _ => none) = some 0 := by decide +kernel
    cases h : State.getMAP Ex.rev id Ex.X 1 s with
    | ok s' k => rw [h] at this; exact ⟨s', by rw [Option.some.inj this]⟩
    | throw _ => rw [h] at this; cases this
    | ub => rw [h] at this; cases this

end
end EFG
