import Mathlib.Analysis.SpecialFunctions.Exp
import Mathlib.Analysis.Calculus.LocalExtr.Basic
import Verif.Lemmas.CrfLikelihood
/-
The average log-likelihood lies below its tangents.
-/

set_option linter.unusedSectionVars false

namespace EFG

/-! ### Sums -/

theorem Tree.sumOver_le {f g : Assign → ℝ} (l : List Var) : ∀ (e : Assign),
    (∀ b, (∀ u, u ∉ l → b u = e u) → (∀ u ∈ l, b u < u.size) → f b ≤ g b) →
    Tree.sumOver Var.size l f e ≤ Tree.sumOver Var.size l g e := by
  induction l with
  | nil => intro e h; exact h e (fun _ _ => rfl) (by simp)
  | cons v l ih =>
    intro e h
    simp only [Tree.sumOver]
    refine Finset.sum_le_sum (fun i hi => ih _ (fun b h1 h2 => h b ?_ ?_))
    · intro u hu
      rw [List.mem_cons, not_or] at hu
      rw [h1 u hu.2, Function.update_of_ne hu.1]
    · intro u hu
      by_cases hl : u ∈ l
      · exact h2 u hl
      · rcases List.mem_cons.mp hu with rfl | h'
        · rw [h1 u hl, Function.update_self]; exact Finset.mem_range.mp hi
        · exact absurd h' hl

theorem Tree.sumOver_lin (f g : Assign → ℝ) (x y : ℝ) (l : List Var) : ∀ (e : Assign),
    Tree.sumOver Var.size l (fun a => x * f a + y * g a) e =
      x * Tree.sumOver Var.size l f e + y * Tree.sumOver Var.size l g e := by
  induction l with
  | nil => intro e; rfl
  | cons v l ih =>
    intro e
    simp only [Tree.sumOver, ih, Finset.sum_add_distrib, Finset.mul_sum]

/-- The logarithm of the expectation of an exponential is at least the expectation of the exponent. -/
theorem log_sum_exp_le {l : List Var} {e : Assign} {ω t : Assign → ℝ}
    (h0 : ∀ b, (∀ u, u ∉ l → b u = e u) → (∀ u ∈ l, b u < u.size) → 0 ≤ ω b)
    (hZ : 0 < Tree.sumOver Var.size l ω e) :
    0 < Tree.sumOver Var.size l (fun a => ω a * Real.exp (t a)) e ∧
    Real.log (Tree.sumOver Var.size l ω e) + State.expectation l e ω t ≤
      Real.log (Tree.sumOver Var.size l (fun a => ω a * Real.exp (t a)) e) := by
  set Z := Tree.sumOver Var.size l ω e with hZd
  set m := State.expectation l e ω t with hm
  have hmZ : Tree.sumOver Var.size l (fun a => ω a * t a) e = m * Z := by
    rw [hm]
    unfold State.expectation
    rw [← hZd, div_mul_cancel₀ _ hZ.ne']
  have hle : Real.exp m * Z ≤ Tree.sumOver Var.size l (fun a => ω a * Real.exp (t a)) e := by
    have h1 : Tree.sumOver Var.size l (fun a => (Real.exp m * (1 - m)) * ω a + Real.exp m * (ω a * t a)) e =
        Real.exp m * Z := by
      rw [Tree.sumOver_lin, hmZ, ← hZd]
      ring
    rw [← h1]
    refine Tree.sumOver_le l e (fun b hb1 hb2 => ?_)
    have h2 := Real.add_one_le_exp (t b - m)
    have h3 : Real.exp (t b) = Real.exp m * Real.exp (t b - m) := by rw [← Real.exp_add]; congr 1; ring
    rw [h3]
    have h4 := mul_le_mul_of_nonneg_left (mul_le_mul_of_nonneg_left h2 (Real.exp_pos m).le) (h0 b hb1 hb2)
    linarith
  have hpos := mul_pos (Real.exp_pos m) hZ
  refine ⟨hpos.trans_le hle, ?_⟩
  have := Real.log_le_log hpos hle
  rw [Real.log_mul (Real.exp_pos m).ne' hZ.ne', Real.log_exp] at this
  linarith

theorem State.expectation_sum {l : List Var} {e : Assign} {ω : Assign → ℝ} {α : Type} (L : List α) (d : α → ℝ)
    (t : α → Assign → ℝ) : State.expectation l e ω (fun a => (L.map (fun i => d i * t i a)).sum) =
      (L.map (fun i => d i * State.expectation l e ω (t i))).sum := by
  induction L with
  | nil =>
    unfold State.expectation
    have := Tree.sumOver_lin ω ω 0 0 l e
    simp only [zero_mul, add_zero] at this
    simp [this]
  | cons i L ih =>
    simp only [List.map_cons, List.sum_cons, ← ih]
    unfold State.expectation
    rw [← mul_div_assoc, ← add_div]
    congr 1
    have := Tree.sumOver_lin (fun a => ω a * t i a) (fun a => ω a * (L.map (fun i => d i * t i a)).sum) (d i) 1 l e
    rw [one_mul] at this
    rw [← this]
    congr 1
    funext a
    ring

namespace State
variable [FloatParams ℝ]

/-- The image of a tunable factor is the exponential of the weight of its cluster times its raw image. -/
theorem image_self {s : State (Ext ℝ)} (hexp : ∀ x : ℝ, FloatParams.expK x = Real.exp x) (ht : Weighted s)
    (hsh : s.Shared) {φ ρ : Nat → Assign → ℝ} (hφ : s.Images φ) (hρ : s.RawImages ρ) {xs : List ℝ}
    (hxs : s.getWeights = .ok (xs.map .val)) {k : Nat} {c : List Nat} (hc : s.tunableClusters[k]? = some c) {x : ℝ}
    (hx : xs[k]? = some x) {p : Nat} (hpc : p ∈ c) {a : Assign} (ha : s.InRange a) :
    φ p a = Real.exp (x * ρ p a) := by
  obtain ⟨tk, htk, rfl⟩ : ∃ tk, s.tuners[k]? = some tk ∧ tk.map BaseTuner.factor = c := by
    unfold tunableClusters at hc
    rw [List.getElem?_map] at hc
    cases h : s.tuners[k]? with
    | none => rw [h] at hc; cases hc
    | some tk => rw [h] at hc; cases hc; exact ⟨tk, rfl, rfl⟩
  obtain ⟨b, hb, rfl⟩ := List.mem_map.mp hpc
  have hf2 := Res.mapList_eq_ok.mp hxs
  obtain ⟨hk1, hk2⟩ := List.getElem?_eq_some_iff.mp htk
  obtain ⟨hk3, hk4⟩ := List.getElem?_eq_some_iff.mp hx
  have h6 := List.Forall₂.get hf2 hk1 (by simpa using hk3)
  simp only [List.get_eq_getElem, List.getElem_map] at h6
  rw [hk2, hk4] at h6
  have hws : s.weightOf b.factor = .ok (.val x) := by
    cases tk with
    | nil => cases hb
    | cons d tj =>
      rw [hsh (d :: tj) (List.mem_of_getElem? htk) b hb d (by simp)]
      exact h6
  have hreg := ht.mem (List.mem_of_getElem? htk) hb
  obtain ⟨f, f1, f2, _⟩ := hφ b.factor (ht.reg _ hreg) a ha
  obtain ⟨f', g1, g2⟩ := hρ b.factor hreg a ha
  rw [f1] at g1
  cases g1
  unfold weightOf at hws
  rw [f1] at hws
  have : f.weight = some (.val x) := by
    cases hx : f.weight with
    | none => simp only [hx, Res.ofOption] at hws; cases hws
    | some w => simp only [hx, Res.ofOption] at hws; cases hws; rfl
  unfold Fn.findTransformed at f2
  rw [g2] at f2
  simp only [Fn.transform, this, Ext.mul_val, Ext.exp_val, hexp] at f2
  exact (Ext.val.inj (Res.ok.inj f2)).symm

/-- The images of the factors after setting the weights. -/
theorem reweighed_images {s : State (Ext ℝ)} (hexp : ∀ x : ℝ, FloatParams.expK x = Real.exp x) (ht : Weighted s)
    {φ ρ : Nat → Assign → ℝ} (hφ : s.Images φ) (hρ : s.RawImages ρ) {ys : List ℝ}
    (hlen : ys.length = s.tuners.length) :
    (s.reweighed ys).vars = s.vars ∧ (s.reweighed ys).factors = s.factors ∧
    (∀ (k : Nat) (c : List Nat) (y : ℝ), s.tunableClusters[k]? = some c → ys[k]? = some y → ∀ p ∈ c, ∀ a, s.InRange a →
      (s.reweighed ys).imageAt p a = Real.exp (y * ρ p a)) ∧
    ∀ p ∈ s.factors, p ∉ s.tunableClusters.flatten → ∀ a, s.InRange a → (s.reweighed ys).imageAt p a = φ p a := by
  obtain ⟨t, h1, h2, h3, h4, h5, _⟩ := setWeights_ok ht (ws := ys.map Ext.val) (by simpa using hlen)
  have hr : s.reweighed ys = t := by unfold reweighed; rw [h1]
  rw [hr]
  refine ⟨by rw [h2], by rw [h2], ?_, ?_⟩
  · intro k c y hc hy p hpc a ha
    obtain ⟨tk, htk, rfl⟩ : ∃ tk, s.tuners[k]? = some tk ∧ tk.map BaseTuner.factor = c := by
      unfold tunableClusters at hc
      rw [List.getElem?_map] at hc
      cases h : s.tuners[k]? with
      | none => rw [h] at hc; cases hc
      | some tk => rw [h] at hc; cases hc; exact ⟨tk, rfl, rfl⟩
    obtain ⟨b, hb, rfl⟩ := List.mem_map.mp hpc
    have hreg := ht.mem (List.mem_of_getElem? htk) hb
    obtain ⟨f, f1, f2, _⟩ := hφ b.factor (ht.reg _ hreg) a ha
    have hw := h4 k tk (.val y) htk (by rw [List.getElem?_map, hy]; rfl) b hb
    rcases h3 b.factor with ⟨e1, _⟩ | ⟨g, w, e1, e2, _⟩
    · rw [f1] at e1; cases e1
    · rw [f1] at e1
      cases e1
      unfold weightOf at hw
      rw [e2] at hw
      cases w with
      | none => cases hw
      | some w =>
        cases hw
        obtain ⟨f', g1, g2⟩ := hρ b.factor hreg a ha
        rw [f1] at g1
        cases g1
        unfold imageAt
        rw [e2]
        simp only
        have : Fn.findTransformed ({ f with weight := some (.val y) } : Fn (Ext ℝ)) (f.vars.group.map a) =
            .ok (.val (Real.exp (y * ρ b.factor a))) := by
          unfold Fn.findTransformed
          rw [show Fn.findImage ({ f with weight := some (.val y) } : Fn (Ext ℝ)) (f.vars.group.map a) =
            f.findImage (f.vars.group.map a) from rfl, g2]
          simp only [Fn.transform, Ext.mul_val, Ext.exp_val, hexp]
        rw [this]
  · intro p hp hpc a ha
    obtain ⟨f, f1, f2, _⟩ := hφ p hp a ha
    have hheap : t.heap[p]? = s.heap[p]? := by
      refine h5 p ?_
      rw [List.map_flatten]
      exact hpc
    unfold imageAt
    rw [hheap, f1]
    simp only
    rw [f2]

theorem perm_clusters {s : State (Ext ℝ)} (hs : Core s) (ht : Weighted s) :
    s.factors.Perm (s.tunableClusters.flatten ++ s.factors.filter (fun p => !decide (p ∈ s.tunableClusters.flatten))) := by
  rw [List.perm_ext_iff_of_nodup hs.facNodup]
  · intro p
    simp only [List.mem_append, List.mem_filter, Bool.not_eq_true', decide_eq_false_iff_not]
    constructor
    · intro h
      by_cases hpc : p ∈ s.tunableClusters.flatten
      · exact Or.inl hpc
      · exact Or.inr ⟨h, hpc⟩
    · rintro (h | h)
      · obtain ⟨c, hcm, hp⟩ := List.mem_flatten.mp h
        exact ht.reg _ (ht.mem' c hcm p hp)
      · exact h.1
  · refine List.nodup_append.2 ⟨ht.nodup', hs.facNodup.filter _, ?_⟩
    intro p hp q hq h
    subst h
    simp only [List.mem_filter, Bool.not_eq_true', decide_eq_false_iff_not] at hq
    exact hq.2 hp

/-- How the exponent of the weight of an assignment changes with the weights of the clusters. -/
noncomputable def tilt (ρ : Nat → Assign → ℝ) (cs : List (List Nat)) (ds : List ℝ) (a : Assign) : ℝ :=
  ((ds.zip cs).map (fun x => x.1 * statistic ρ x.2 a)).sum

theorem prod_tilt {ρ : Nat → Assign → ℝ} {f g : Nat → ℝ} {a : Assign} {ds : List ℝ} {cs : List (List Nat)}
    (h : List.Forall₂ (fun d c => ∀ p ∈ c, f p = g p * Real.exp (d * ρ p a)) ds cs) :
    (cs.flatten.map f).prod = (cs.flatten.map g).prod * Real.exp (tilt ρ cs ds a) := by
  induction h with
  | nil => simp [tilt]
  | cons h1 _ ih =>
    rename_i d c ds cs _
    have hc : ∀ c : List Nat, (∀ p ∈ c, f p = g p * Real.exp (d * ρ p a)) →
        (c.map f).prod = (c.map g).prod * Real.exp (d * statistic ρ c a) := by
      intro c
      induction c with
      | nil => intro _; simp [statistic]
      | cons p c ih' =>
        intro h
        have e : statistic ρ (p :: c) a = ρ p a + statistic ρ c a := by simp [statistic]
        simp only [List.map_cons, List.prod_cons]
        rw [ih' (fun q hq => h q (by simp [hq])), h p (by simp), e, mul_add, Real.exp_add]
        ring
    have e : tilt ρ (c :: cs) (d :: ds) a = d * statistic ρ c a + tilt ρ cs ds a := by simp [tilt]
    rw [List.flatten_cons, List.map_append, List.prod_append, List.map_append, List.prod_append, ih, hc c h1, e,
      Real.exp_add]
    ring

/-- The weight of an assignment after setting the weights. -/
theorem reweighed_weights {s : State (Ext ℝ)} (hexp : ∀ x : ℝ, FloatParams.expK x = Real.exp x) (hs : Core s)
    (ht : Weighted s) (hsh : s.Shared) {φ ρ : Nat → Assign → ℝ} (hφ : s.Images φ) (hρ : s.RawImages ρ) {xs ys : List ℝ}
    (hxs : s.getWeights = .ok (xs.map .val)) (hlen : ys.length = xs.length) {a : Assign} (ha : s.InRange a) :
    (s.reweighed ys).weight (s.reweighed ys).imageAt a =
      s.weight φ a * Real.exp (tilt ρ s.tunableClusters (List.zipWith (· - ·) ys xs) a) := by
  have hxl : xs.length = s.tuners.length := by
    have := (Res.mapList_eq_ok.mp hxs).length_eq
    simpa using this.symm
  obtain ⟨h1, h2, h3, h4⟩ := reweighed_images hexp ht hφ hρ (hlen.trans hxl)
  have hperm := perm_clusters hs ht
  unfold weight
  rw [h2, (hperm.map _).prod_eq, (hperm.map _).prod_eq, List.map_append, List.prod_append, List.map_append,
    List.prod_append]
  have hrest : ((s.factors.filter (fun p => !decide (p ∈ s.tunableClusters.flatten))).map
      (fun p => (s.reweighed ys).imageAt p a)) =
      (s.factors.filter (fun p => !decide (p ∈ s.tunableClusters.flatten))).map (fun p => φ p a) := by
    refine List.map_congr_left (fun p hp => ?_)
    simp only [List.mem_filter, Bool.not_eq_true', decide_eq_false_iff_not] at hp
    exact h4 p hp.1 hp.2 a ha
  rw [hrest, prod_tilt (ρ := ρ) (g := fun p => φ p a) (ds := List.zipWith (· - ·) ys xs) (a := a)]
  · ring
  · have hcl : s.tunableClusters.length = s.tuners.length := by simp [tunableClusters]
    rw [List.forall₂_iff_get]
    refine ⟨by simp [hlen, hcl, hxl], ?_⟩
    intro k hk1 hk2 p hp
    simp only [List.length_zipWith] at hk1
    simp only [List.get_eq_getElem, List.getElem_zipWith] at hp ⊢
    rw [h3 k _ (ys[k]'(by omega)) (List.getElem?_eq_getElem hk2) (List.getElem?_eq_getElem (by omega)) p hp a ha,
      image_self hexp ht hsh hφ hρ hxs (List.getElem?_eq_getElem hk2) (x := xs[k]'(by omega))
        (List.getElem?_eq_getElem (by omega)) hp ha, ← Real.exp_add]
    congr 1
    ring

/-- One sample: the logarithm of its probability lies below the tangent. -/
theorem log_tangent {s : State (Ext ℝ)} (hexp : ∀ x : ℝ, FloatParams.expK x = Real.exp x) (hs : Core s)
    (ht : Weighted s) (hsh : s.Shared) {φ ρ : Nat → Assign → ℝ} (hφ : s.Images φ) (hρ : s.RawImages ρ) {xs ys : List ℝ}
    (hxs : s.getWeights = .ok (xs.map .val)) (hlen : ys.length = xs.length) {d e : Assign} (hd : s.InRange d)
    (hpos : s.weight φ d ≠ 0) {l : List Var}
    (hr : ∀ b : Assign, (∀ u, u ∉ l → b u = e u) → (∀ u ∈ l, b u < u.size) → s.InRange b)
    (hZ : 0 < Tree.sumOver Var.size l (s.weight φ) e) :
    Real.log ((s.reweighed ys).weight (s.reweighed ys).imageAt d /
        Tree.sumOver Var.size l ((s.reweighed ys).weight (s.reweighed ys).imageAt) e) ≤
      Real.log (s.weight s.imageAt d / Tree.sumOver Var.size l (s.weight s.imageAt) e) +
        (tilt ρ s.tunableClusters (List.zipWith (· - ·) ys xs) d -
          expectation l e (s.weight φ) (tilt ρ s.tunableClusters (List.zipWith (· - ·) ys xs))) := by
  have hself : ∀ a, s.InRange a → s.weight s.imageAt a = s.weight φ a := by
    intro a ha
    unfold weight
    congr 1
    exact List.map_congr_left (fun p hp => imageAt_eq hφ hp ha)
  have hw0 : ∀ a, s.InRange a → 0 ≤ s.weight φ a := by
    intro a ha
    refine prod_map_nonneg (fun p hp => ?_)
    obtain ⟨_, _, _, h⟩ := hφ p hp a ha
    exact h
  have e1 : Tree.sumOver Var.size l (s.weight s.imageAt) e = Tree.sumOver Var.size l (s.weight φ) e :=
    Tree.sumOver_congr_range (fun b h1 h2 => hself b (hr b h1 h2))
  have e2 : Tree.sumOver Var.size l ((s.reweighed ys).weight (s.reweighed ys).imageAt) e =
      Tree.sumOver Var.size l (fun a => s.weight φ a *
        Real.exp (tilt ρ s.tunableClusters (List.zipWith (· - ·) ys xs) a)) e :=
    Tree.sumOver_congr_range (fun b h1 h2 => reweighed_weights hexp hs ht hsh hφ hρ hxs hlen (hr b h1 h2))
  obtain ⟨g1, g2⟩ := log_sum_exp_le (t := tilt ρ s.tunableClusters (List.zipWith (· - ·) ys xs))
    (fun b h1 h2 => hw0 b (hr b h1 h2)) hZ
  rw [e1, e2, hself d hd, reweighed_weights hexp hs ht hsh hφ hρ hxs hlen hd,
    Real.log_div (mul_ne_zero hpos (Real.exp_pos _).ne') g1.ne', Real.log_div hpos hZ.ne',
    Real.log_mul hpos (Real.exp_pos _).ne', Real.log_exp]
  linarith

theorem sum_swap {α β : Type} (L : List α) (M : List β) (u : α → β → ℝ) (d : α → ℝ) (n : ℝ) :
    (M.map (fun b => (L.map (fun x => d x * u x b)).sum)).sum / n =
      (L.map (fun x => d x * ((M.map (u x)).sum / n))).sum := by
  induction M with
  | nil => simp
  | cons b M ih =>
    simp only [List.map_cons, List.sum_cons]
    rw [add_div, ih]
    clear ih
    induction L with
    | nil => simp
    | cons x L ih =>
      simp only [List.map_cons, List.sum_cons]
      rw [← ih]
      ring

theorem zip_sum (G : List Nat → ℝ) : ∀ (ds : List ℝ) (cs : List (List Nat)),
    ((ds.zip cs).map (fun x => x.1 * G x.2)).sum = (List.zipWith (· * ·) (cs.map G) ds).sum
  | [], cs => by simp
  | _ :: _, [] => by simp
  | d :: ds, c :: cs => by
    simp only [List.zip_cons_cons, List.map_cons, List.sum_cons, List.zipWith_cons_cons]
    rw [zip_sum G ds cs, mul_comm]

theorem sum_le_sum_add {M : List (List Nat)} {f g h : List Nat → ℝ} (hle : ∀ d ∈ M, f d ≤ g d + h d) :
    (M.map f).sum ≤ (M.map g).sum + (M.map h).sum := by
  induction M with
  | nil => simp
  | cons d M ih =>
    simp only [List.map_cons, List.sum_cons]
    have := ih (fun d hd => hle d (by simp [hd]))
    have := hle d (by simp)
    linarith

/-- The averages of the logarithms lie below their tangent. -/
theorem mean_tangent {s : State (Ext ℝ)} (hexp : ∀ x : ℝ, FloatParams.expK x = Real.exp x) (hs : Core s)
    (ht : Weighted s) (hsh : s.Shared) {φ ρ : Nat → Assign → ℝ} (hφ : s.Images φ) (hρ : s.RawImages ρ) {xs ys : List ℝ}
    (hxs : s.getWeights = .ok (xs.map .val)) (hlen : ys.length = xs.length) {samples : List (List Nat)}
    (hv : ∀ c ∈ samples, Valid (s.vars.map Var.size) c) (hpos : ∀ c ∈ samples, s.weight φ (s.sampleAt c) ≠ 0)
    {l : List Var} {E : Assign → Assign}
    (hr : ∀ c ∈ samples, ∀ b : Assign, (∀ u, u ∉ l → b u = E (s.sampleAt c) u) → (∀ u ∈ l, b u < u.size) → s.InRange b)
    (hZ : ∀ c ∈ samples, 0 < Tree.sumOver Var.size l (s.weight φ) (E (s.sampleAt c))) :
    s.sampleMean samples (fun a => Real.log ((s.reweighed ys).weight (s.reweighed ys).imageAt a /
        Tree.sumOver Var.size l ((s.reweighed ys).weight (s.reweighed ys).imageAt) (E a))) ≤
      s.sampleMean samples (fun a => Real.log (s.weight s.imageAt a /
        Tree.sumOver Var.size l (s.weight s.imageAt) (E a))) +
      (List.zipWith (· * ·) (s.tunableClusters.map (fun k => s.sampleMean samples (statistic ρ k) -
        s.sampleMean samples (fun a => expectation l (E a) (s.weight φ) (statistic ρ k))))
        (List.zipWith (· - ·) ys xs)).sum := by
  have hn := hs.net.distinct.nodup
  have h1 := sum_le_sum_add (fun d hd => log_tangent hexp hs ht hsh hφ hρ hxs hlen
    (sampleAt_inRange hn (hv d hd)) (hpos d hd) (hr d hd) (hZ d hd))
  have h2 := div_le_div_of_nonneg_right h1 (Nat.cast_nonneg (α := ℝ) samples.length)
  rw [add_div] at h2
  refine h2.trans (le_of_eq ?_)
  unfold sampleMean
  congr 1
  rw [← zip_sum (fun k => (samples.map (fun c => statistic ρ k (s.sampleAt c))).sum / (samples.length : ℝ) -
    (samples.map (fun c => expectation l (E (s.sampleAt c)) (s.weight φ) (statistic ρ k))).sum / (samples.length : ℝ))]
  have h3 : ∀ d : List Nat, tilt ρ s.tunableClusters (List.zipWith (· - ·) ys xs) (s.sampleAt d) -
      expectation l (E (s.sampleAt d)) (s.weight φ) (tilt ρ s.tunableClusters (List.zipWith (· - ·) ys xs)) =
      (((List.zipWith (· - ·) ys xs).zip s.tunableClusters).map (fun x => x.1 * (statistic ρ x.2 (s.sampleAt d) -
        expectation l (E (s.sampleAt d)) (s.weight φ) (statistic ρ x.2)))).sum := by
    intro d
    have := expectation_sum (l := l) (e := E (s.sampleAt d)) (ω := s.weight φ)
      ((List.zipWith (· - ·) ys xs).zip s.tunableClusters) (fun x => x.1) (fun x => statistic ρ x.2)
    unfold tilt
    rw [this]
    generalize (List.zipWith (· - ·) ys xs).zip s.tunableClusters = L
    induction L with
    | nil => simp
    | cons x L ih =>
      simp only [List.map_cons, List.sum_cons]
      rw [← ih]
      ring
  simp only [h3]
  rw [sum_swap ((List.zipWith (· - ·) ys xs).zip s.tunableClusters) samples
    (fun x d => statistic ρ x.2 (s.sampleAt d) - expectation l (E (s.sampleAt d)) (s.weight φ) (statistic ρ x.2))
    (fun x => x.1)]
  congr 1
  refine List.map_congr_left (fun x _ => ?_)
  congr 1
  rw [← sub_div]
  congr 1
  clear h1 h2 h3 hv hpos hr hZ
  induction samples with
  | nil => simp
  | cons d L ih =>
    simp only [List.map_cons, List.sum_cons, ih]
    ring

theorem conditionalLogLikelihood_tangent {s : State (Ext ℝ)} (hexp : ∀ x : ℝ, FloatParams.expK x = Real.exp x)
    (hs : Core s) (ht : Weighted s) (hsh : s.Shared) {φ ρ : Nat → Assign → ℝ} (hφ : s.Images φ) (hρ : s.RawImages ρ)
    {xs ys : List ℝ} (hxs : s.getWeights = .ok (xs.map .val)) (hlen : ys.length = xs.length) {samples : List (List Nat)}
    (hv : ∀ c ∈ samples, Valid (s.vars.map Var.size) c) (hpos : ∀ c ∈ samples, s.weight φ (s.sampleAt c) ≠ 0)
    {l : List Var} (hl : ∀ v ∈ l, v ∈ s.vars) :
    conditionalLogLikelihood samples l (s.reweighed ys) ≤ conditionalLogLikelihood samples l s +
      (List.zipWith (· * ·) (s.conditionalGradient φ ρ samples l) (List.zipWith (· - ·) ys xs)).sum := by
  have hn := hs.net.distinct.nodup
  have hrange : ∀ d ∈ samples, ∀ b : Assign, (∀ u, u ∉ l → b u = s.sampleAt d u) → (∀ u ∈ l, b u < u.size) →
      s.InRange b := by
    intro d hd b h1 h2 v hv'
    by_cases h : v ∈ l
    · exact h2 v h
    · rw [h1 v h]; exact sampleAt_inRange hn (hv d hd) v hv'
  have hw0 : ∀ a, s.InRange a → 0 ≤ s.weight φ a := by
    intro a ha
    refine prod_map_nonneg (fun p hp => ?_)
    obtain ⟨_, _, _, h⟩ := hφ p hp a ha
    exact h
  have hxl : xs.length = s.tuners.length := by
    have := (Res.mapList_eq_ok.mp hxs).length_eq
    simpa using this.symm
  have hvars := (reweighed_images hexp ht hφ hρ (hlen.trans hxl)).1
  have := mean_tangent hexp hs ht hsh hφ hρ hxs hlen hv hpos (l := l) (E := id) hrange (fun d hd => by
    have hr := sampleAt_inRange hn (hv d hd)
    have hle := Tree.le_sumOver Var.size (s.weight φ) (W := l) (a := s.sampleAt d) (b := s.sampleAt d)
      (fun c h1 h2 => hw0 c (hrange d hd c h1 h2)) (fun _ _ => rfl) (fun u hu => hr u (hl u hu))
    exact lt_of_lt_of_le (lt_of_le_of_ne (hw0 _ hr) (Ne.symm (hpos d hd))) hle)
  have e : conditionalLogLikelihood samples l (s.reweighed ys) = s.sampleMean samples
      (fun a => Real.log ((s.reweighed ys).conditional l a)) := by
    unfold conditionalLogLikelihood sampleMean sampleAt
    rw [hvars]
  rw [e]
  exact this

theorem logLikelihood_tangent {s : State (Ext ℝ)} (hexp : ∀ x : ℝ, FloatParams.expK x = Real.exp x)
    (hs : Core s) (ht : Weighted s) (hsh : s.Shared) {φ ρ : Nat → Assign → ℝ} (hφ : s.Images φ) (hρ : s.RawImages ρ)
    {xs ys : List ℝ} (hxs : s.getWeights = .ok (xs.map .val)) (hlen : ys.length = xs.length) {samples : List (List Nat)}
    (hne : samples ≠ [])
    (hv : ∀ c ∈ samples, Valid (s.vars.map Var.size) c) (hpos : ∀ c ∈ samples, s.weight φ (s.sampleAt c) ≠ 0) :
    logLikelihood samples (s.reweighed ys) ≤ logLikelihood samples s +
      (List.zipWith (· * ·) (s.tunableClusters.map (fun c => s.sampleMean samples (statistic ρ c) -
        s.modelMean φ (statistic ρ c))) (List.zipWith (· - ·) ys xs)).sum := by
  have hn := hs.net.distinct.nodup
  have hw0 : ∀ a, s.InRange a → 0 ≤ s.weight φ a := by
    intro a ha
    refine prod_map_nonneg (fun p hp => ?_)
    obtain ⟨_, _, _, h⟩ := hφ p hp a ha
    exact h
  have hxl : xs.length = s.tuners.length := by
    have := (Res.mapList_eq_ok.mp hxs).length_eq
    simpa using this.symm
  have hvars := (reweighed_images hexp ht hφ hρ (hlen.trans hxl)).1
  have := mean_tangent hexp hs ht hsh hφ hρ hxs hlen hv hpos (l := s.vars) (E := fun _ _ => 0)
    (fun d hd b _ h2 => h2) (fun d hd => by
    have hr := sampleAt_inRange hn (hv d hd)
    set b : Assign := fun v => if v ∈ s.vars then s.sampleAt d v else 0 with hb
    have hb1 : ∀ u, u ∉ s.vars → b u = 0 := fun u hu => by simp only [hb, if_neg hu]
    have hb2 : ∀ u ∈ s.vars, b u < u.size := fun u hu => by simp only [hb, if_pos hu]; exact hr u hu
    have hle := Tree.le_sumOver Var.size (s.weight φ) (W := s.vars) (a := fun _ => 0) (b := b)
      (fun c _ h2 => hw0 c h2) hb1 hb2
    refine lt_of_lt_of_le (lt_of_le_of_ne (hw0 b hb2) (fun h => hpos d hd ?_)) hle
    rw [weight_congr hs hφ hr hb2 (fun v hv => by simp only [hb, if_pos hv]), ← h])
  have e : logLikelihood samples (s.reweighed ys) = s.sampleMean samples
      (fun a => Real.log ((s.reweighed ys).weight (s.reweighed ys).imageAt a /
        Tree.sumOver Var.size s.vars ((s.reweighed ys).weight (s.reweighed ys).imageAt) (fun _ => 0))) := by
    unfold logLikelihood likelihood sampleMean sampleAt
    rw [hvars]
  rw [e]
  have hc : ∀ x : ℝ, s.sampleMean samples (fun _ => x) = x := by
    intro x
    have hl : ((samples.length : Nat) : ℝ) ≠ 0 := by simpa using hne
    unfold sampleMean
    rw [List.map_const', List.sum_replicate, nsmul_eq_mul, mul_div_assoc, mul_comm, div_mul_cancel₀ _ hl]
  simp only [hc] at this
  exact this

theorem tilt_zero (ρ : Nat → Assign → ℝ) (a : Assign) : ∀ (cs : List (List Nat)) (xs : List ℝ),
    tilt ρ cs (List.zipWith (· - ·) xs xs) a = 0
  | [], xs => by simp [tilt]
  | _ :: _, [] => by simp [tilt]
  | c :: cs, x :: xs => by
    have h := tilt_zero ρ a cs xs
    unfold tilt at h ⊢
    simp only [List.zipWith_cons_cons, List.zip_cons_cons, List.map_cons, List.sum_cons, h, sub_self, zero_mul, add_zero]

/-- Setting the weights which the clusters have changes no weight of an assignment. -/
theorem reweighed_self {s : State (Ext ℝ)} (hexp : ∀ x : ℝ, FloatParams.expK x = Real.exp x) (hs : Core s)
    (ht : Weighted s) (hsh : s.Shared) {φ ρ : Nat → Assign → ℝ} (hφ : s.Images φ) (hρ : s.RawImages ρ) {xs : List ℝ}
    (hxs : s.getWeights = .ok (xs.map .val)) : (s.reweighed xs).vars = s.vars ∧ ∀ a, s.InRange a →
    (s.reweighed xs).weight (s.reweighed xs).imageAt a = s.weight s.imageAt a := by
  have hxl : xs.length = s.tuners.length := by
    have := (Res.mapList_eq_ok.mp hxs).length_eq
    simpa using this.symm
  refine ⟨(reweighed_images hexp ht hφ hρ hxl).1, fun a ha => ?_⟩
  rw [reweighed_weights hexp hs ht hsh hφ hρ hxs rfl ha, tilt_zero, Real.exp_zero, mul_one]
  unfold weight
  congr 1
  exact (List.map_congr_left (fun p hp => imageAt_eq hφ hp ha)).symm

theorem logLikelihood_self {s : State (Ext ℝ)} (hexp : ∀ x : ℝ, FloatParams.expK x = Real.exp x) (hs : Core s)
    (ht : Weighted s) (hsh : s.Shared) {φ ρ : Nat → Assign → ℝ} (hφ : s.Images φ) (hρ : s.RawImages ρ) {xs : List ℝ}
    (hxs : s.getWeights = .ok (xs.map .val)) {samples : List (List Nat)}
    (hv : ∀ c ∈ samples, Valid (s.vars.map Var.size) c) :
    logLikelihood samples (s.reweighed xs) = logLikelihood samples s := by
  obtain ⟨h1, h2⟩ := reweighed_self hexp hs ht hsh hφ hρ hxs
  unfold logLikelihood sampleMean
  congr 2
  refine List.map_congr_left (fun d hd => ?_)
  have hr := sampleAt_inRange hs.net.distinct.nodup (hv d hd)
  have hsa : (s.reweighed xs).sampleAt d = s.sampleAt d := by unfold sampleAt; rw [h1]
  unfold likelihood
  beta_reduce
  rw [hsa, h1, h2 _ hr, Tree.sumOver_congr_range (fun b _ hb2 => h2 b hb2)]

theorem conditionalLogLikelihood_self {s : State (Ext ℝ)} (hexp : ∀ x : ℝ, FloatParams.expK x = Real.exp x) (hs : Core s)
    (ht : Weighted s) (hsh : s.Shared) {φ ρ : Nat → Assign → ℝ} (hφ : s.Images φ) (hρ : s.RawImages ρ) {xs : List ℝ}
    (hxs : s.getWeights = .ok (xs.map .val)) {samples : List (List Nat)}
    (hv : ∀ c ∈ samples, Valid (s.vars.map Var.size) c) (l : List Var) :
    conditionalLogLikelihood samples l (s.reweighed xs) = conditionalLogLikelihood samples l s := by
  obtain ⟨h1, h2⟩ := reweighed_self hexp hs ht hsh hφ hρ hxs
  unfold conditionalLogLikelihood sampleMean
  congr 2
  refine List.map_congr_left (fun d hd => ?_)
  have hr := sampleAt_inRange hs.net.distinct.nodup (hv d hd)
  have hsa : (s.reweighed xs).sampleAt d = s.sampleAt d := by unfold sampleAt; rw [h1]
  unfold conditional
  beta_reduce
  rw [hsa, h2 _ hr, Tree.sumOver_congr_range (fun b hb1 hb2 => h2 b ?_)]
  intro v hv'
  by_cases h : v ∈ l
  · exact hb2 v h
  · rw [hb1 v h]; exact hr v hv'

/-- A function of the weights which lies below its tangent at `xs` and has the entries `g` as derivatives there is
greatest at `xs` iff `g` vanishes. -/
theorem greatest_iff {L : List ℝ → ℝ} {xs g : List ℝ} (hl : g.length = xs.length)
    (ht : ∀ ys, ys.length = xs.length → L ys ≤ L xs + (List.zipWith (· * ·) g (List.zipWith (· - ·) ys xs)).sum)
    (hd : ∀ (k : Nat) (x d : ℝ), xs[k]? = some x → g[k]? = some d → HasDerivAt (fun y => L (xs.set k y)) d x) :
    (∀ d ∈ g, d = 0) ↔ ∀ ys, ys.length = xs.length → L ys ≤ L xs := by
  constructor
  · intro h0 ys hy
    refine (ht ys hy).trans (le_of_eq ?_)
    have : ∀ (g ds : List ℝ), (∀ d ∈ g, d = 0) → (List.zipWith (· * ·) g ds).sum = 0 := by
      intro g
      induction g with
      | nil => simp
      | cons a g ih =>
        intro ds h
        cases ds with
        | nil => simp
        | cons b ds =>
          simp only [List.zipWith_cons_cons, List.sum_cons]
          rw [ih ds (fun d hd => h d (by simp [hd])), h a (by simp)]
          ring
    rw [this g _ h0, add_zero]
  · intro h d hdg
    obtain ⟨k, hk, rfl⟩ := List.getElem_of_mem hdg
    have hx : xs[k]? = some (xs[k]'(hl ▸ hk)) := List.getElem?_eq_getElem _
    have hder := hd k _ _ hx (List.getElem?_eq_getElem hk)
    refine IsLocalMax.hasDerivAt_eq_zero (Filter.Eventually.of_forall (fun y => ?_)) hder
    have e : xs.set k (xs[k]'(hl ▸ hk)) = xs := by simp
    rw [e]
    exact h _ (by simp)

end State
end EFG
