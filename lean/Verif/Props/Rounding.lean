import Mathlib.Algebra.Order.Round
import Mathlib.Algebra.Order.Ring.Pow
import Mathlib.Data.Int.Log
import Mathlib.Data.Rat.Floor
import Mathlib.Tactic.FieldSimp
import Verif.Lemmas.Alike
import Verif.Lemmas.Rounded
import Verif.Props.Cluster
/-
C58: the marginals on trees in an arithmetic with rounding.
-/

namespace EFG
variable {K : Type} [Field K] [LinearOrder K] [IsStrictOrderedRing K]

/-- Asking does not change the number of roundings. -/
theorem State.Quiet.roundingsS {s s' : State (Ext K)} (hq : State.Quiet s s') (v : Var) (l : List Var) :
    s'.roundings v l = s.roundings v l := by
  have hc : s'.InCluster v = s.InCluster v := funext (fun p => propext (hq.inClusterS v p))
  unfold State.roundings
  rw [hq.factors, hc]

theorem State.Quiet.degreeS {s s' : State (Ext K)} (hq : State.Quiet s s') (u : Var) : s'.degree u = s.degree u := by
  unfold State.degree State.FactorOn
  rw [hq.factors, hq.heap]

theorem list_prod_pos {l : List K} (h : ∀ x ∈ l, 0 < x) : 0 < l.prod := by
  induction l with
  | nil => simp
  | cons x l ih =>
    rw [List.prod_cons]
    exact mul_pos (h x (by simp)) (ih (fun y hy => h y (by simp [hy])))

/-- A number of roundings small with respect to the unit roundoff. -/
theorem Near.error {u : K} (h0 : 0 ≤ u) (h1 : u < 1) {k : Nat} {x d : K} (h : Near u k x d)
    (hk : 2 * ((k : K) * u) ≤ 1) : |x - d| ≤ 2 * (k * u) * d := by
  have hb : 1 - (k : K) * u ≤ (1 - u) ^ k := by
    have := one_add_mul_le_pow (a := -u) (by linarith) k
    rw [← sub_eq_add_neg] at this
    linarith
  have hku : 0 ≤ (k : K) * u := mul_nonneg (Nat.cast_nonneg k) h0
  have hc0 : 0 ≤ (1 - u) ^ k := pow_nonneg (by linarith) k
  rcases lt_or_eq_of_le (pow_le_one₀ (by linarith : 0 ≤ 1 - u) (by linarith) : (1 - u) ^ k ≤ 1) with hc | hc
  · obtain ⟨g1, g2⟩ := h
    have hd : 0 ≤ d := by
      by_contra hd
      have e1 := mul_lt_mul_of_neg_right hc (not_le.mp hd)
      have e2 := mul_le_mul_of_nonneg_left e1.le hc0
      have e3 := mul_le_mul_of_nonneg_left g1 hc0
      linarith
    have hx : 0 ≤ x := (mul_nonneg hc0 hd).trans g1
    have a1 : (1 - (k : K) * u) * d ≤ x := (mul_le_mul_of_nonneg_right hb hd).trans g1
    have a2 : (1 - (k : K) * u) * x ≤ d := (mul_le_mul_of_nonneg_right hb hx).trans g2
    have h3 : 0 ≤ (k : K) * u * d := mul_nonneg hku hd
    rw [abs_le]
    constructor
    · nlinarith
    · have hx2 : x ≤ 2 * d := by nlinarith
      have : (k : K) * u * x ≤ (k : K) * u * (2 * d) := mul_le_mul_of_nonneg_left hx2 hku
      linarith
  · have hxd : x = d := le_antisymm (by simpa [hc] using h.2) (by simpa [hc] using h.1)
    have hz : (k : K) * u = 0 := by
      rcases Nat.eq_zero_or_pos k with rfl | hpos
      · simp
      · have := (pow_eq_one_iff_of_nonneg (by linarith : 0 ≤ 1 - u) hpos.ne').mp hc
        rw [show u = 0 by linarith, mul_zero]
    rw [hxd, hz]
    simp

variable [FloatParams K] [Rounding K]
attribute [local instance 2000] Ext.rounded

/-- What the hypotheses on the images, the sizes and the degrees say about the state after the propagation. -/
theorem State.ranged_of {b : Prop} {H u : K} {s s' : State (Ext K)} (hq : State.Quiet s s') (hs : State.Core s')
    {φ : Nat → Assign → K} (hφ : s.Images φ) {v : Var} (hv : s.Hidden v) {l : List Var} (hl : s.ClusterOthers v l)
    {A : K} {m D : Nat} (hA : b → 1 ≤ A)
    (him : b → ∀ p ∈ s.factors, ∀ a, s.InRange a → 1 / A ≤ φ p a ∧ φ p a ≤ A)
    (hsize : b → ∀ x ∈ v :: l, x.size ≤ m) (hdeg : b → ∀ x ∈ v :: l, s.degree x ≤ D)
    (hH : b → (m * A * (1 - u)⁻¹ ^ (m + 4)) ^ (4 * D + 3) ≤ H) : State.Ranged b H u A m D s' (v :: l) where
  one_le := hA
  images := (hq.imagesS hφ).valued hs (fun p hp a ha => by
    obtain ⟨_, _, _, h0⟩ := hq.imagesS hφ p hp a ha
    refine ⟨h0, fun hb => ?_⟩
    obtain ⟨g1, g2⟩ := him hb p (by rwa [hq.factors] at hp) a (by
      unfold State.InRange at ha ⊢
      rwa [hq.vars] at ha)
    have hA' : 0 < A := zero_lt_one.trans_le (hA hb)
    exact ⟨hA'.le, by rwa [div_le_iff₀ hA', mul_comm] at g1, g2⟩)
  size := hsize
  degree := fun hb x hx => by
    have := hdeg hb x hx
    rw [← hq.degreeS] at this
    exact (hs.degree_le ((hq.clusterOthersS hl).hid ((hq.hiddenS v).mpr hv) hx)).trans this
  range := hH

/-- The theorems of C58, for roundings with a bounded error on all the results or on those in a range. -/
theorem State.marginal_near {b : Prop} {H u : K} (hu : Rounding.Rounds b H u) {s : State (Ext K)}
    (h : Reach (fun s op => Prudent s op ∧ Steady s op ∧ ¬op.Draws) s)
    {ord : List Var → List Var} (hord : ∀ l, (ord l).Perm l) {sched : Sched} (hsched : ∀ l, (sched l).Perm l)
    {n : Nat} (hn : 1 ≤ n) {φ : Nat → Assign → K} (hφ : s.Images φ) {v w : Var} (hv : s.Hidden v)
    (hw : v.eqv w = true) (ht : s.TreeAt v) {l : List Var} (hl : s.ClusterOthers v l) {e : Assign} (he : s.Agrees e)
    {A : K} {m D : Nat} (hA : b → 1 ≤ A)
    (him : b → ∀ p ∈ s.factors, ∀ a, s.InRange a → 1 / A ≤ φ p a ∧ φ p a ≤ A)
    (hsize : b → ∀ x ∈ v :: l, x.size ≤ m) (hdeg : b → ∀ x ∈ v :: l, s.degree x ≤ D)
    (hH : b → (m * A * (1 - u)⁻¹ ^ (m + 4)) ^ (4 * D + 3) ≤ H)
    (hne : ∃ i < v.size, State.mass (s.clusterRead φ v) l e v i ≠ 0) :
    ∃ s' ps, State.getMarginal ord sched w n s = .ok s' (ps.map Ext.val) ∧
      List.Forall₂ (Near u (s.roundings v l)) ps (State.distribution (s.clusterRead φ v) l e v) := by
  unfold State.getMarginal
  rw [State.marginalQuery_eq]
  obtain ⟨s', x, h1, ps, rfl, h2⟩ := State.asks_faithful hord .sum hsched (reach_sound_drawless h) hn
    (r := State.readMarginal ord w)
    (P := fun x => ∃ ps, x = ps.map Ext.val ∧
      List.Forall₂ (Near u (s.roundings v l)) ps (State.distribution (s.clusterRead φ v) l e v)) (by
      intro s' p ha hH' hF hp hk
      have hq := ha.toQuiet
      have hv' := (hq.hiddenS v).mpr hv
      have hr := hq.clusterReadS φ v
      have hs := hH'.inv.toCore
      have hR := State.ranged_of hq hs hφ hv hl hA him hsize hdeg hH
      rw [hH'.inv.readMarginal_hidden (State.hidden_iff.mp hv') hw]
      obtain ⟨ps, b1, b2⟩ := State.belief_near hu hord hH' hF hp hk (hq.imagesS hφ) hv' (hq.treeAt ht)
        (hq.clusterOthersS hl) (hq.agreesS he) hR (by rw [hr]; exact hne)
      rw [hr, hq.roundingsS] at b2
      exact ⟨_, b1, ps, rfl, b2⟩)
  exact ⟨s', ps, h1, h2⟩

/-- C58, as the library behaves: with operations whose relative error is at most `u`, after any execution of prudent
and steady operations which draws no samples, on the factors `φ`, the marginal of a hidden variable whose cluster has no cycles is, up to as
many errors as `roundings`, the distribution described by the product of the factors of the cluster. The factors which
join two hidden variables are read with the two values exchanged. -/
theorem C58_transposed_partial {u : K} (hu : Rounding.Standard u) {s : State (Ext K)}
    (h : Reach (fun s op => Prudent s op ∧ Steady s op ∧ ¬op.Draws) s)
    {ord : List Var → List Var} (hord : ∀ l, (ord l).Perm l) {sched : Sched} (hsched : ∀ l, (sched l).Perm l)
    {n : Nat} (hn : 1 ≤ n) {φ : Nat → Assign → K} (hφ : s.Images φ) {v w : Var} (hv : s.Hidden v)
    (hw : v.eqv w = true) (ht : s.TreeAt v) {l : List Var} (hl : s.ClusterOthers v l) {e : Assign} (he : s.Agrees e)
    (hne : ∃ i < v.size, State.mass (s.clusterRead φ v) l e v i ≠ 0) :
    ∃ s' ps, State.getMarginal ord sched w n s = .ok s' (ps.map Ext.val) ∧
      List.Forall₂ (Near u (s.roundings v l)) ps (State.distribution (s.clusterRead φ v) l e v) :=
  State.marginal_near (hu.rounds 0) h hord hsched hn hφ hv hw ht hl he (A := 1) (m := 0) (D := 0) False.elim False.elim
    False.elim False.elim False.elim hne

/-- C58: with operations whose relative error is at most `u`, after any execution of prudent and steady operations
which draws no samples, on the factors `φ`, the marginal of a hidden variable whose cluster has no cycles is, up to as many errors as `roundings`,
its distribution in the product of the factors of the cluster.

Missing: the results which underflow or overflow (`C58_underflow_violated`), the factors which join two hidden
variables and are not symmetric, the executions which change a factor of the model whose images were already used or draw samples
(which may multiply the factors again in another order, and so with other errors), and the error of the images of the exponential factors, which are taken as the library computes them. -/
theorem C58_rounded_partial {u : K} (hu : Rounding.Standard u) {s : State (Ext K)}
    (h : Reach (fun s op => Prudent s op ∧ Steady s op ∧ ¬op.Draws) s)
    {ord : List Var → List Var} (hord : ∀ l, (ord l).Perm l) {sched : Sched} (hsched : ∀ l, (sched l).Perm l)
    {n : Nat} (hn : 1 ≤ n) {φ : Nat → Assign → K} (hφ : s.Images φ) (hsym : s.Symmetric φ) {v w : Var}
    (hv : s.Hidden v) (hw : v.eqv w = true) (ht : s.TreeAt v) {l : List Var} (hl : s.ClusterOthers v l) {e : Assign}
    (he : s.Agrees e) (hne : ∃ i < v.size, State.mass (s.clusterWeight φ v) l e v i ≠ 0) :
    ∃ s' ps, State.getMarginal ord sched w n s = .ok s' (ps.map Ext.val) ∧
      List.Forall₂ (Near u (s.roundings v l)) ps (State.distribution (s.clusterWeight φ v) l e v) := by
  have hm : ∀ i < v.size, State.mass (s.clusterRead φ v) l e v i = State.mass (s.clusterWeight φ v) l e v i :=
    fun i hi => State.clusterMass_symmetric hsym hv hl he hi
  obtain ⟨s', ps, h1, h2⟩ := C58_transposed_partial hu h hord hsched hn hφ hv hw ht hl he
    (by obtain ⟨i, hi, hi'⟩ := hne; exact ⟨i, hi, by rw [hm i hi]; exact hi'⟩)
  rw [State.distribution_congr hm] at h2
  exact ⟨s', ps, h1, h2⟩

/-- C58: as long as the number of roundings is small with respect to `1 / u`, each of the probabilities has a relative
error of at most `2 u` for each rounding. The rest is as in `C58_rounded_partial`. -/
theorem C58_error_partial {u : K} (hu : Rounding.Standard u) {s : State (Ext K)}
    (h : Reach (fun s op => Prudent s op ∧ Steady s op ∧ ¬op.Draws) s)
    {ord : List Var → List Var} (hord : ∀ l, (ord l).Perm l) {sched : Sched} (hsched : ∀ l, (sched l).Perm l)
    {n : Nat} (hn : 1 ≤ n) {φ : Nat → Assign → K} (hφ : s.Images φ) (hsym : s.Symmetric φ) {v w : Var}
    (hv : s.Hidden v) (hw : v.eqv w = true) (ht : s.TreeAt v) {l : List Var} (hl : s.ClusterOthers v l) {e : Assign}
    (he : s.Agrees e) (hne : ∃ i < v.size, State.mass (s.clusterWeight φ v) l e v i ≠ 0)
    (hk : 2 * ((s.roundings v l : K) * u) ≤ 1) :
    ∃ s' ps, State.getMarginal ord sched w n s = .ok s' (ps.map Ext.val) ∧
      List.Forall₂ (fun x d => |x - d| ≤ 2 * (s.roundings v l * u) * d) ps
        (State.distribution (s.clusterWeight φ v) l e v) := by
  obtain ⟨s', ps, h1, h2⟩ := C58_rounded_partial hu h hord hsched hn hφ hsym hv hw ht hl he hne
  exact ⟨s', ps, h1, h2.imp (fun _ _ h => h.error hu.nonneg hu.lt_one hk)⟩

/-- C58, as the library behaves, with results of a bounded range: it is enough that the operations have a relative error
of at most `u` on the results between `1 / H` and `H`, as those on `float` do, when the images are between `1 / A` and
`A`, the variables of the cluster have at most `m` values and at most `D` factors each, and
`(m A / (1 - u) ^ (m + 4)) ^ (4 D + 3) ≤ H`. The number of the variables of the cluster does not matter. -/
theorem C58_range_transposed_partial {H u : K} (hu : Rounding.StandardWithin H u) {s : State (Ext K)}
    (h : Reach (fun s op => Prudent s op ∧ Steady s op ∧ ¬op.Draws) s)
    {ord : List Var → List Var} (hord : ∀ l, (ord l).Perm l) {sched : Sched} (hsched : ∀ l, (sched l).Perm l)
    {n : Nat} (hn : 1 ≤ n) {φ : Nat → Assign → K} (hφ : s.Images φ) {v w : Var} (hv : s.Hidden v)
    (hw : v.eqv w = true) (ht : s.TreeAt v) {l : List Var} (hl : s.ClusterOthers v l) {e : Assign} (he : s.Agrees e)
    {A : K} {m D : Nat} (hA : 1 ≤ A) (him : ∀ p ∈ s.factors, ∀ a, s.InRange a → 1 / A ≤ φ p a ∧ φ p a ≤ A)
    (hsize : ∀ x ∈ v :: l, x.size ≤ m) (hdeg : ∀ x ∈ v :: l, s.degree x ≤ D)
    (hH : (m * A / (1 - u) ^ (m + 4)) ^ (4 * D + 3) ≤ H) :
    ∃ s' ps, State.getMarginal ord sched w n s = .ok s' (ps.map Ext.val) ∧
      List.Forall₂ (Near u (s.roundings v l)) ps (State.distribution (s.clusterRead φ v) l e v) := by
  refine State.marginal_near hu.rounds h hord hsched hn hφ hv hw ht hl he (fun _ => hA) (fun _ => him) (fun _ => hsize)
    (fun _ => hdeg) (fun _ => by rw [inv_pow, ← div_eq_mul_inv]; exact hH) ⟨e v, he.1 v hv.1, ?_⟩
  have hpos : ∀ a, s.Agrees a → 0 < s.clusterRead φ v a := by
    intro a ha
    unfold State.clusterRead
    refine list_prod_pos (fun x hx => ?_)
    obtain ⟨p, hp, rfl⟩ := List.mem_map.1 hx
    have hp := (List.mem_filter.1 hp).1
    have hA' : 0 < 1 / A := by have := zero_lt_one.trans_le hA; positivity
    exact hA'.trans_le (him p hp _ (State.readAt_inRange (reach_sound_drawless h).healthy hp ha.1)).1
  have hle := Tree.le_sumOver Var.size (s.clusterRead φ v) (W := l) (a := Function.update e v (e v)) (b := e)
    (fun b h1 h2 => (hpos b (hl.agrees hv he (he.1 v hv.1) h1 h2)).le)
    (fun u _ => by rw [Function.update_eq_self])
    (fun u hu => he.1 u (State.mem_hid.mp (hl.hid hv (by simp [hu]))).1)
  exact ((hpos e he).trans_le hle).ne'

/-- C58 with results of a bounded range: it is enough that the operations have a relative error of at most `u` on the
results between `1 / H` and `H`, as those on `float` do, when the images are between `1 / A` and `A`, the variables of
the cluster have at most `m` values and at most `D` factors each, and `(m A / (1 - u) ^ (m + 4)) ^ (4 D + 3) ≤ H`. The
number of the variables of the cluster does not matter, since the library normalizes the messages.

Missing: the images outside of that range, zero in particular; the rest is as in `C58_rounded_partial`. -/
theorem C58_range_partial {H u : K} (hu : Rounding.StandardWithin H u) {s : State (Ext K)}
    (h : Reach (fun s op => Prudent s op ∧ Steady s op ∧ ¬op.Draws) s)
    {ord : List Var → List Var} (hord : ∀ l, (ord l).Perm l) {sched : Sched} (hsched : ∀ l, (sched l).Perm l)
    {n : Nat} (hn : 1 ≤ n) {φ : Nat → Assign → K} (hφ : s.Images φ) (hsym : s.Symmetric φ) {v w : Var}
    (hv : s.Hidden v) (hw : v.eqv w = true) (ht : s.TreeAt v) {l : List Var} (hl : s.ClusterOthers v l) {e : Assign}
    (he : s.Agrees e) {A : K} {m D : Nat} (hA : 1 ≤ A)
    (him : ∀ p ∈ s.factors, ∀ a, s.InRange a → 1 / A ≤ φ p a ∧ φ p a ≤ A)
    (hsize : ∀ x ∈ v :: l, x.size ≤ m) (hdeg : ∀ x ∈ v :: l, s.degree x ≤ D)
    (hH : (m * A / (1 - u) ^ (m + 4)) ^ (4 * D + 3) ≤ H) (hk : 2 * ((s.roundings v l : K) * u) ≤ 1) :
    ∃ s' ps, State.getMarginal ord sched w n s = .ok s' (ps.map Ext.val) ∧
      List.Forall₂ (fun x d => |x - d| ≤ 2 * (s.roundings v l * u) * d) ps
        (State.distribution (s.clusterWeight φ v) l e v) := by
  have hm : ∀ i < v.size, State.mass (s.clusterRead φ v) l e v i = State.mass (s.clusterWeight φ v) l e v i :=
    fun i hi => State.clusterMass_symmetric hsym hv hl he hi
  obtain ⟨s', ps, h1, h2⟩ := C58_range_transposed_partial hu h hord hsched hn hφ hv hw ht hl he hA him hsize hdeg hH
  rw [State.distribution_congr hm] at h2
  exact ⟨s', ps, h1, h2.imp (fun _ _ h => h.error hu.nonneg hu.lt_one hk)⟩

/-! ### Examples -/

namespace Ex

/-- The nearest number with a significand of 24 bits, with exponents of any size. -/
@[reducible] def nearest24 : Rounding ℚ :=
  ⟨fun x => _root_.round (x / 2 ^ (Int.log 2 |x| - 23)) * 2 ^ (Int.log 2 |x| - 23)⟩

/-- The nearest multiple of a power of two. -/
theorem nearest_error (x : ℚ) (k : Int) : |_root_.round (x / 2 ^ k) * 2 ^ k - x| ≤ 2 ^ k / 2 := by
  have hq : (0 : ℚ) < 2 ^ k := zpow_pos (by norm_num) k
  have h := abs_sub_round (x / 2 ^ k)
  have : _root_.round (x / 2 ^ k) * 2 ^ k - x = -((x / 2 ^ k - _root_.round (x / 2 ^ k)) * 2 ^ k) := by
    field_simp
    ring
  rw [this, abs_neg, abs_mul, abs_of_pos hq]
  calc _ ≤ 1 / 2 * (2 : ℚ) ^ k := mul_le_mul_of_nonneg_right h hq.le
    _ = 2 ^ k / 2 := by ring

theorem half_ulp {x : ℚ} (hx : x ≠ 0) : (2 : ℚ) ^ (Int.log 2 |x| - 23) / 2 ≤ 1 / 2 ^ 24 * |x| := by
  have h := Int.zpow_log_le_self (b := 2) (by norm_num) (abs_pos.mpr hx)
  rw [zpow_sub₀ (by norm_num)]
  push_cast at h
  norm_num at h ⊢
  linarith

theorem nearest24_standard : @Rounding.Standard ℚ _ _ nearest24 (1 / 2 ^ 24) := by
  refine @Rounding.Standard.mk ℚ _ _ nearest24 _ (by norm_num) (by norm_num) (fun x => ?_)
  show |_root_.round (x / 2 ^ (Int.log 2 |x| - 23)) * 2 ^ (Int.log 2 |x| - 23) - x| ≤ _
  by_cases hx : x = 0
  · subst hx; simp
  · exact (nearest_error x _).trans (half_ulp hx)

/-- The nearest number of the format binary32, with its smallest exponent but with no largest one. -/
@[reducible] def binary32 : Rounding ℚ :=
  ⟨fun x => _root_.round (x / 2 ^ (max (Int.log 2 |x| - 23) (-149))) * 2 ^ (max (Int.log 2 |x| - 23) (-149))⟩

/-- It has the same error, away from the subnormal numbers. -/
theorem binary32_error {x : ℚ} (hx : 1 / 2 ^ 126 ≤ |x|) :
    |binary32.round x - x| ≤ 1 / 2 ^ 24 * |x| := by
  have h0 : (0 : ℚ) < 1 / 2 ^ 126 := by positivity
  have hne : x ≠ 0 := abs_pos.mp (h0.trans_le hx)
  have hl : -126 ≤ Int.log 2 |x| := by
    have := Int.lt_zpow_succ_log_self (b := 2) (by norm_num) |x|
    have h1 : (2 : ℚ) ^ (-126 : Int) < 2 ^ (Int.log 2 |x| + 1) := by
      refine lt_of_le_of_lt ?_ this
      rw [zpow_neg]
      norm_num at hx ⊢
      exact hx
    have := (zpow_lt_zpow_iff_right₀ (by norm_num : (1 : ℚ) < 2)).mp h1
    omega
  show |_root_.round (x / 2 ^ (max (Int.log 2 |x| - 23) (-149))) * 2 ^ (max (Int.log 2 |x| - 23) (-149)) - x| ≤ _
  rw [max_eq_left (by omega)]
  exact (nearest_error x _).trans (half_ulp hne)

/-- X with a factor of its own, joined to Y. -/
structure Couple [Arith (Ext ℚ)] (s : State (Ext ℚ)) : Prop where
  vars : s.vars = [X, Y]
  heap : s.heap = heapXYZ
  factors : s.factors = [0, 1]
  evidences : s.evidences = []

section
variable [Arith (Ext ℚ)] {s : State (Ext ℚ)}

theorem phi_congr {p : Nat} {a b : Assign} (h : ∀ f, (heapXYZ : Heap (Ext ℚ))[p]? = some f → ∀ v ∈ f.vars.group, a v = b v) :
    phi p a = phi p b := by
  unfold phi
  cases hf : (heapXYZ : Heap (Ext ℚ))[p]? with
  | none => rfl
  | some f =>
    simp only
    rw [List.map_congr_left (h f hf)]

theorem Couple.hidden (h : Couple s) {v : Var} (hv : v ∈ [X, Y]) : s.Hidden v :=
  ⟨by rw [h.vars]; exact hv, by rw [State.Observes, h.evidences]; simp⟩

theorem Couple.joins (h : Couple s) (hg : (match (heapXYZ : Heap (Ext ℚ))[1]? with | some f => f.vars.group | none => []) = [X, Y]) : s.Joins X Y :=
  joins_of 1 (by rw [h.factors]; simp) (by rw [h.heap]; exact hg)

theorem Couple.linked (h : Couple s) (hg : (match (heapXYZ : Heap (Ext ℚ))[1]? with | some f => f.vars.group | none => []) = [X, Y]) (u : Var) :
    s.Linked X u ↔ u = X ∨ u = Y := by
  constructor
  · intro h'
    have : u = X ∨ s.Hidden u := by
      cases h' with
      | refl => exact Or.inl rfl
      | tail _ h => exact Or.inr h.2.1
    rcases this with h' | h'
    · exact Or.inl h'
    · have := h'.1
      rw [h.vars] at this
      simpa using this
  · rintro (rfl | rfl)
    · exact .refl
    · exact .single ⟨h.hidden (by simp), h.hidden (by simp), h.joins hg⟩

theorem Couple.in_ (h : Couple s)
    (hg : ∀ q ∈ [0, 1], ((heapXYZ[q]?).any (fun f => decide (X ∈ f.vars.group))) = true) (q : Nat) (hq : q ∈ [0, 1]) :
    s.InCluster X q := by
  have hq' : q ∈ s.factors := by rw [h.factors]; exact hq
  have := hg q hq
  cases hf : (heapXYZ : Heap (Ext ℚ))[q]? with
  | none => rw [hf] at this; cases this
  | some f =>
    rw [hf] at this
    exact ⟨_, X, ⟨hq', f, by rw [h.heap]; exact hf, rfl⟩, by simpa using this, h.hidden (by simp), .refl⟩

theorem Couple.filter (h : Couple s)
    (hg : ∀ q ∈ [0, 1], ((heapXYZ[q]?).any (fun f => decide (X ∈ f.vars.group))) = true) :
    s.factors.filter (fun p => @decide (s.InCluster X p) (Classical.propDecidable _)) = [0, 1] := by
  rw [h.factors]
  exact List.filter_eq_self.mpr (fun q hq => by simpa using h.in_ hg q hq)

end

section
attribute [local instance] nearest24

/-- In the arithmetic with 24 bits. -/
abbrev couple : State (Ext ℚ) := after [.add 0, .add 1]

theorem couple_is : Couple couple where
  vars := by decide +kernel
  heap := by with_unfolding_all rfl
  factors := by decide +kernel
  evidences := by decide +kernel

end

section
attribute [local instance] binary32

/-- In the format binary32. -/
abbrev couple32 : State (Ext ℚ) := after [.add 0, .add 1]

theorem couple32_is : Couple couple32 where
  vars := by decide +kernel
  heap := by with_unfolding_all rfl
  factors := by decide +kernel
  evidences := by decide +kernel

theorem binary32_within : Rounding.StandardWithin (2 ^ 126 : ℚ) (1 / 2 ^ 24) :=
  ⟨by norm_num, by norm_num, fun _ h _ => binary32_error h⟩

end
end Ex

section
attribute [local instance] Ex.nearest24

/-- The marginal of X is 9/25, 16/25, and with a significand of 24 bits the library gives it with a relative error of
at most 62 units in the last place. -/
example : ∃ s' x y, State.getMarginal Ex.rev List.reverse Ex.X 2 Ex.couple = .ok s' [.val x, .val y] ∧
    |x - 9 / 25| ≤ 62 / 2 ^ 24 * (9 / 25) ∧ |y - 16 / 25| ≤ 62 / 2 ^ 24 * (16 / 25) := by
  have hc := Ex.couple_is
  have hg : (match (Ex.heapXYZ : Heap (Ext ℚ))[1]? with | some f => f.vars.group | none => []) = [Ex.X, Ex.Y] := by
    decide +kernel
  have hin : ∀ q ∈ [0, 1], (((Ex.heapXYZ : Heap (Ext ℚ))[q]?).any (fun f => decide (Ex.X ∈ f.vars.group))) = true := by
    decide +kernel
  have hw : Ex.couple.clusterWeight Ex.phi Ex.X = fun a => Ex.phi 0 a * Ex.phi 1 a := by
    funext a
    unfold State.clusterWeight
    rw [hc.filter hin]
    simp
  have hN : Ex.couple.roundings Ex.X [Ex.Y] = 31 := by
    unfold State.roundings
    rw [hc.filter hin]
    rfl
  obtain ⟨s', ps, h1, h2⟩ := C58_error_partial Ex.nearest24_standard (s := Ex.couple)
    (Ex.after_drawless _ (by decide +kernel)) (ord := Ex.rev) Ex.rev_perm (sched := List.reverse)
    (fun l => List.reverse_perm l) (n := 2) (by omega) (φ := Ex.phi)
    (Ex.phi_images hc.heap (by rw [hc.vars, hc.factors]; decide +kernel))
    (Ex.phi_symmetric hc.heap (by rw [hc.factors]; decide +kernel))
    (v := Ex.X) (w := Ex.X) (hc.hidden (by simp)) (Var.eqv_refl _)
    (Ex.small_tree (fun u => (hc.linked hg u).mp)) (l := [Ex.Y]) (e := Ex.zeros)
    ⟨by decide, fun w => by
      rw [hc.linked hg]
      constructor
      · intro h
        rw [List.mem_singleton] at h
        subst h
        exact ⟨Or.inr rfl, by decide⟩
      · rintro ⟨h | h, hne⟩
        · exact absurd h hne
        · simp [h]⟩
    (Ex.zeros_agrees (by rw [hc.vars]; decide) (by rw [hc.evidences]; decide))
    ⟨0, by decide, by rw [hw]; decide +kernel⟩ (by rw [hN]; norm_num)
  have hd : State.distribution (Ex.couple.clusterWeight Ex.phi Ex.X) [Ex.Y] Ex.zeros Ex.X = [9 / 25, 16 / 25] := by
    rw [hw]
    decide +kernel
  rw [hd, hN] at h2
  cases h2 with
  | cons a1 a2 =>
    cases a2 with
    | cons b1 b2 =>
      cases b2
      refine ⟨s', _, _, h1, ?_, ?_⟩
      · exact a1.trans (le_of_eq (by norm_num))
      · exact b1.trans (le_of_eq (by norm_num))

end

section
attribute [local instance] Ex.binary32

/-- The same in the format binary32, with its smallest exponent: the images are between 1/4 and 4, the variables have
two values and at most two factors each, and `(8 / (1 - 2⁻²⁴) ^ 6) ^ 11` is less than `2 ^ 126`. -/
example : ∃ s' x y, State.getMarginal Ex.rev List.reverse Ex.X 2 Ex.couple32 = .ok s' [.val x, .val y] ∧
    |x - 9 / 25| ≤ 62 / 2 ^ 24 * (9 / 25) ∧ |y - 16 / 25| ≤ 62 / 2 ^ 24 * (16 / 25) := by
  have hc := Ex.couple32_is
  have hg : (match (Ex.heapXYZ : Heap (Ext ℚ))[1]? with | some f => f.vars.group | none => []) = [Ex.X, Ex.Y] := by
    decide +kernel
  have hin : ∀ q ∈ [0, 1], (((Ex.heapXYZ : Heap (Ext ℚ))[q]?).any (fun f => decide (Ex.X ∈ f.vars.group))) = true := by
    decide +kernel
  have hw : Ex.couple32.clusterWeight Ex.phi Ex.X = fun a => Ex.phi 0 a * Ex.phi 1 a := by
    funext a
    unfold State.clusterWeight
    rw [hc.filter hin]
    simp
  have hN : Ex.couple32.roundings Ex.X [Ex.Y] = 31 := by
    unfold State.roundings
    rw [hc.filter hin]
    rfl
  obtain ⟨s', ps, h1, h2⟩ := C58_range_partial Ex.binary32_within (s := Ex.couple32)
    (Ex.after_drawless _ (by decide +kernel)) (ord := Ex.rev) Ex.rev_perm (sched := List.reverse)
    (fun l => List.reverse_perm l) (n := 2) (by omega) (φ := Ex.phi)
    (Ex.phi_images hc.heap (by rw [hc.vars, hc.factors]; decide +kernel))
    (Ex.phi_symmetric hc.heap (by rw [hc.factors]; decide +kernel))
    (v := Ex.X) (w := Ex.X) (hc.hidden (by simp)) (Var.eqv_refl _)
    (Ex.small_tree (fun u => (hc.linked hg u).mp)) (l := [Ex.Y]) (e := Ex.zeros)
    ⟨by decide, fun w => by
      rw [hc.linked hg]
      constructor
      · intro h
        rw [List.mem_singleton] at h
        subst h
        exact ⟨Or.inr rfl, by decide⟩
      · rintro ⟨h | h, hne⟩
        · exact absurd h hne
        · simp [h]⟩
    (Ex.zeros_agrees (by rw [hc.vars]; decide) (by rw [hc.evidences]; decide))
    (A := 4) (m := 2) (D := 2) (by norm_num) (by
      intro p hp a ha
      rw [hc.factors] at hp
      have h1 : ∀ q ∈ [0, 1], ((Ex.heapXYZ : Heap (Ext ℚ))[q]?).all (fun f => f.vars.group.all (fun v => v = Ex.X ∨ v = Ex.Y)) =
          true := by decide +kernel
      have h2 : ∀ q ∈ [0, 1], ∀ i < 2, ∀ j < 2, 1 / 4 ≤ Ex.phi q (fun z => if z = Ex.X then i else j) ∧
          Ex.phi q (fun z => if z = Ex.X then i else j) ≤ 4 := by decide +kernel
      rw [Ex.phi_congr (b := fun z => if z = Ex.X then a Ex.X else a Ex.Y) (by
        intro f hf v hv
        have := h1 p hp
        rw [hf] at this
        have := List.all_eq_true.mp this v hv
        rcases of_decide_eq_true this with rfl | rfl
        · rfl
        · rfl)]
      exact h2 p hp _ (ha Ex.X (by rw [hc.vars]; simp)) _ (ha Ex.Y (by rw [hc.vars]; simp)))
    (by decide)
    (by
      intro x _
      unfold State.degree
      refine (List.length_filter_le _ _).trans ?_
      rw [hc.factors]
      decide)
    (by norm_num)
    (by rw [hN]; norm_num)
  have hd : State.distribution (Ex.couple32.clusterWeight Ex.phi Ex.X) [Ex.Y] Ex.zeros Ex.X = [9 / 25, 16 / 25] := by
    rw [hw]
    decide +kernel
  rw [hd, hN] at h2
  cases h2 with
  | cons a1 a2 =>
    cases a2 with
    | cons b1 b2 =>
      cases b2
      refine ⟨s', _, _, h1, ?_, ?_⟩
      · exact a1.trans (le_of_eq (by norm_num))
      · exact b1.trans (le_of_eq (by norm_num))

end

namespace Ex

/-- Two factors of X with very small images. -/
def tinyHeap [Arith (Ext ℚ)] : Heap (Ext ℚ) := [una X (1 / 2 ^ 80) (1 / 2 ^ 80), una X (1 / 2 ^ 80) (1 / 2 ^ 80)]

theorem tinyHeap_reach [Arith (Ext ℚ)] : ∀ f ∈ tinyHeap, FactorReach f := by
  intro f hf
  simp only [tinyHeap, List.mem_cons, List.not_mem_nil, or_false, or_self] at hf
  subst hf
  exact build_reach (.single _) (by decide) _

theorem valAt_some [Arith (Ext ℚ)] {f : Fn (Ext ℚ)} {c : List Nat} {x : ℚ} (h : valAt f c = some x) :
    f.findTransformed c = .ok (.val x) := by
  unfold valAt at h
  split at h
  · rename_i y hy
    cases h
    exact hy
  · cases h

end Ex

section
attribute [local instance] Ex.binary32

/-- C58 is violated by products below the smallest number: X with two factors, whose images are all `2⁻⁸⁰`, has the
marginal 1/2, 1/2, but the library multiplies the images of the two factors before it normalizes them, gets zeros in
the format binary32, and returns NaN. -/
theorem C58_underflow_violated : ∃ s : State (Ext ℚ), Reach (fun s op => Prudent s op ∧ Steady s op ∧ ¬op.Draws) s ∧
    ∃ φ : Nat → Assign → ℚ, s.Images φ ∧ s.Hidden Ex.X ∧ s.TreeAt Ex.X ∧ s.ClusterOthers Ex.X [] ∧ s.Agrees Ex.zeros ∧
    State.distribution (s.clusterWeight φ Ex.X) [] Ex.zeros Ex.X = [1 / 2, 1 / 2] ∧
    ∃ s', State.getMarginal Ex.rev id Ex.X 1 s = .ok s' [.nan, .nan] := by
  let s := (Ex.runActs [.add 0, .add 1] (State.initial Ex.tinyHeap)).1
  have hv : s.vars = [Ex.X] := by decide +kernel
  have hh : s.heap = Ex.tinyHeap := by with_unfolding_all rfl
  have hf : s.factors = [0, 1] := by decide +kernel
  have he : s.evidences = [] := by decide +kernel
  have hhid : s.Hidden Ex.X := ⟨by rw [hv]; simp, by rw [State.Observes, he]; simp⟩
  have hlink : ∀ u, s.Linked Ex.X u → u = Ex.X := by
    intro u h
    cases h with
    | refl => rfl
    | tail _ h =>
      have := h.2.1.1
      rw [hv] at this
      simpa using this
  have hu : ∀ p ∈ [0, 1], s.heap[p]? = some (Ex.una Ex.X (1 / 2 ^ 80) (1 / 2 ^ 80)) := by
    rw [hh]
    intro p hp
    simp only [List.mem_cons, List.not_mem_nil, or_false] at hp
    rcases hp with rfl | rfl <;> rfl
  have hg : (Ex.una Ex.X (1 / 2 ^ 80) (1 / 2 ^ 80)).vars.group = [Ex.X] := by decide +kernel
  have hi : ∀ i < 2, Ex.valAt (Ex.una Ex.X (1 / 2 ^ 80) (1 / 2 ^ 80)) [i] = some (1 / 2 ^ 80) := by decide +kernel
  refine ⟨s, Ex.runActs_drawless _ (.init Ex.tinyHeap_reach) (by decide +kernel), fun _ _ => 1 / 2 ^ 80, ?_, hhid,
    Ex.small_tree (a := Ex.X) (b := Ex.X) (fun u h => Or.inl (hlink u h)), ⟨by simp, fun w => ?_⟩,
    Ex.zeros_agrees (by rw [hv]; decide) (by rw [he]; decide), ?_, ?_⟩
  · intro p hp a ha
    rw [hf] at hp
    refine ⟨_, hu p hp, ?_, by positivity⟩
    rw [hg]
    exact Ex.valAt_some (hi _ (ha Ex.X (by rw [hv]; simp)))
  · simp only [List.not_mem_nil, false_iff, not_and, not_not]
    exact fun h => hlink w h
  · have hfil : s.factors.filter (fun p => @decide (s.InCluster Ex.X p) (Classical.propDecidable _)) = [0, 1] := by
      rw [hf]
      refine List.filter_eq_self.mpr (fun q hq => ?_)
      have : s.InCluster Ex.X q :=
        ⟨_, Ex.X, ⟨by rw [hf]; exact hq, _, hu q hq, rfl⟩, by rw [hg]; simp, hhid, .refl⟩
      simpa using this
    have hw : s.clusterWeight (fun _ _ => 1 / 2 ^ 80) Ex.X = fun _ => 1 / 2 ^ 160 := by
      funext a
      unfold State.clusterWeight
      rw [hfil]
      norm_num
    rw [hw]
    decide +kernel
  · have : (match State.getMarginal Ex.rev id Ex.X 1 s with
        | .ok _ l => some l
        | _ => none) = some [.nan, .nan] := by decide +kernel
    cases h : State.getMarginal Ex.rev id Ex.X 1 s with
    | ok s' l => rw [h] at this; exact ⟨s', by rw [Option.some.inj this]⟩
    | throw _ => rw [h] at this; cases this
    | ub => rw [h] at this; cases this

end
end EFG
