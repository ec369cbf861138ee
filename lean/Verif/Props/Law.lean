import Mathlib.Tactic.FieldSimp
import Verif.Spec.Law
import Verif.Props.Bayes
import Verif.Props.Cluster
import Verif.Props.Fresh
/-
C69: the answers depend only on the distribution which the model describes.
-/

namespace EFG
variable {K : Type} [Field K] [LinearOrder K] [IsStrictOrderedRing K] [FloatParams K]

namespace State.SameLaw
variable {s t : State (Ext K)} {φ ψ : Nat → Assign → K} (h : SameLaw s t φ ψ)
include h

theorem hidden (v : Var) : t.Hidden v ↔ s.Hidden v := by
  unfold Hidden Observes
  simp only [h.vars, h.evidences]

theorem agrees (a : Assign) : t.Agrees a ↔ s.Agrees a := by
  unfold Agrees InRange
  simp only [h.vars, h.evidences]

theorem others {v : Var} {l : List Var} (hl : s.Others v l) : t.Others v l := by
  unfold Others at *
  simp only [h.hidden]
  exact hl

theorem othersOf {G l : List Var} (hl : s.OthersOf G l) : t.OthersOf G l := by
  unfold OthersOf at *
  simp only [h.hidden]
  exact hl

end State.SameLaw

omit [IsStrictOrderedRing K] [FloatParams K] in
/-- The assignments which are summed agree with the evidences. -/
theorem State.agrees_of_others {s : State (Ext K)} {v : Var} (hv : s.Hidden v) {l : List Var} (hl : s.Others v l)
    {e : Assign} (he : s.Agrees e) {i : Nat} (hi : i < v.size) {b : Assign}
    (h1 : ∀ u, u ∉ l → b u = Function.update e v i u) (h2 : ∀ u ∈ l, b u < u.size) : s.Agrees b := by
  constructor
  · intro u hu
    by_cases hul : u ∈ l
    · exact h2 u hul
    · rw [h1 u hul]
      by_cases huv : u = v
      · subst huv; rwa [Function.update_self]
      · rw [Function.update_of_ne huv]; exact he.1 u hu
  · intro u k hk
    have hul : u ∉ l := fun h => ((hl.2 u).mp h).1.2 ⟨k, hk⟩
    have huv : u ≠ v := by
      rintro rfl
      exact hv.2 ⟨k, hk⟩
    rw [h1 u hul, Function.update_of_ne huv]
    exact he.2 u k hk

/-- C69: two models which describe the same distribution, reached by any two executions of prudent and steady operations,
return the same marginal of a variable whose clusters have no cycles, even if their factors are different.

Missing: the clusters with cycles, the factors which join two hidden variables and are not symmetric
(`C69_violated`), the executions which change a factor of the model whose images were already used, and the models for which all
the assignments have weight zero. -/
theorem C69_marginal_partial {s t : State (Ext K)} (hs : Reach (fun s op => Prudent s op ∧ Steady s op) s)
    (ht : Reach (fun s op => Prudent s op ∧ Steady s op) t) {φ ψ : Nat → Assign → K} (hφ : s.Images φ) (hψ : t.Images ψ)
    (hsφ : s.Symmetric φ) (hsψ : t.Symmetric ψ) (hL : State.SameLaw s t φ ψ)
    {ord ord' : List Var → List Var} (hord : ∀ l, (ord l).Perm l) (hord' : ∀ l, (ord' l).Perm l)
    {sched sched' : Sched} (hsched : ∀ l, (sched l).Perm l) (hsched' : ∀ l, (sched' l).Perm l)
    {n n' : Nat} (hn : 1 ≤ n) (hn' : 1 ≤ n') {v w : Var} (hv : s.Hidden v) (hw : v.eqv w = true)
    (hts : s.TreeAt v) (htt : t.TreeAt v) (hpos : ∃ e, s.Agrees e ∧ s.weight φ e ≠ 0) :
    ∃ s' t' ps, State.getMarginal ord sched w n s = .ok s' ps ∧ State.getMarginal ord' sched' w n' t = .ok t' ps := by
  obtain ⟨e, he, hne⟩ := hpos
  have hc := (reach_sound hs).healthy.inv.toCore
  have hl := State.others_erase hc v
  obtain ⟨c, hc0, hcw⟩ := hL.weight
  have hm : ∀ i < v.size, State.mass (t.weight ψ) (s.hid.erase v) e v i =
      c * State.mass (s.weight φ) (s.hid.erase v) e v i := by
    intro i hi
    unfold State.mass
    rw [← Tree.sumOver_mul (c := fun _ => c) (fun _ _ _ => rfl)]
    exact Tree.sumOver_congr_range (fun b h1 h2 => hcw b (State.agrees_of_others hv hl he hi h1 h2))
  have hp : ∃ i < v.size, State.mass (s.weight φ) (s.hid.erase v) e v i ≠ 0 := by
    refine ⟨e v, he.1 v hv.1, ?_⟩
    refine (lt_of_lt_of_le (lt_of_le_of_ne (State.weight_nonneg hφ he.1) (Ne.symm hne))
      (Tree.le_sumOver _ _ (fun b h1 h2 => State.weight_nonneg hφ
        (State.agrees_of_others hv hl he (he.1 v hv.1) h1 h2).1) (fun u _ => by rw [Function.update_eq_self])
        (fun u hu => he.1 u ((hl.2 u).mp hu).1.1))).ne'
  obtain ⟨s', h1⟩ := C25_marginals_exact_partial hs hord hsched hn hφ hsφ hv hw hts hl he hp
  obtain ⟨t', h2⟩ := C25_marginals_exact_partial ht hord' hsched' hn' hψ hsψ ((hL.hidden v).mpr hv) hw htt
    (hL.others hl) ((hL.agrees e).mpr he) (by
      obtain ⟨i, hi, h⟩ := hp
      exact ⟨i, hi, by rw [hm i hi]; exact mul_ne_zero hc0.ne' h⟩)
  refine ⟨s', t', _, h1, ?_⟩
  rw [h2]
  congr 2
  unfold State.distribution
  have hsum : ((List.range v.size).map (State.mass (t.weight ψ) (s.hid.erase v) e v)).sum =
      c * ((List.range v.size).map (State.mass (s.weight φ) (s.hid.erase v) e v)).sum := by
    rw [← List.sum_map_mul_left]
    exact congrArg List.sum (List.map_congr_left (fun i hi => hm i (by simpa using hi)))
  refine List.map_congr_left (fun i hi => ?_)
  rw [hsum, hm i (by simpa using hi), mul_div_mul_left _ _ hc0.ne']

/-- C69 for `getMAP`, also when several values are equally good. The rest is as in `C69_marginal_partial`; besides, the
images of the factors which join two hidden variables must not be below the smallest positive normal number. -/
theorem C69_map_partial {s t : State (Ext K)} (hs : Reach (fun s op => Prudent s op ∧ Steady s op) s)
    (ht : Reach (fun s op => Prudent s op ∧ Steady s op) t) {φ ψ : Nat → Assign → K} (hφ : s.Images φ) (hψ : t.Images ψ)
    (hsφ : s.Symmetric φ) (hsψ : t.Symmetric ψ) (hfs : s.Floored φ) (hft : t.Floored ψ) (hL : State.SameLaw s t φ ψ)
    {ord ord' : List Var → List Var} (hord : ∀ l, (ord l).Perm l) (hord' : ∀ l, (ord' l).Perm l)
    {sched sched' : Sched} (hsched : ∀ l, (sched l).Perm l) (hsched' : ∀ l, (sched' l).Perm l)
    {n n' : Nat} (hn : 1 ≤ n) (hn' : 1 ≤ n') {v w : Var} (hv : s.Hidden v) (hw : v.eqv w = true)
    (hts : s.TreeAt v) (htt : t.TreeAt v) (hpos : ∃ e, s.Agrees e ∧ s.weight φ e ≠ 0) :
    ∃ s' t' k, State.getMAP ord sched w n s = .ok s' k ∧ State.getMAP ord' sched' w n' t = .ok t' k := by
  have hcs := (reach_sound hs).healthy.inv.toCore
  have hct := (reach_sound ht).healthy.inv.toCore
  obtain ⟨e, he, hne⟩ := hpos
  obtain ⟨c, hc0, hcw⟩ := hL.weight
  have hrs : ∀ b, s.Agrees b → s.readWeight φ b = s.weight φ b := fun b hb => State.readWeight_symmetric hcs hsφ hb.1
  have hrt : ∀ b, s.Agrees b → t.readWeight ψ b = c * s.weight φ b := fun b hb => by
    rw [State.readWeight_symmetric hct hsψ ((hL.agrees b).mpr hb).1, hcw b hb]
  obtain ⟨s', k, h1, N, h2, h3⟩ := State.map_value (reach_sound hs) hord hsched hn hφ hfs hv hw hts
    ⟨e, he, by rw [hrs e he]; exact hne⟩
  obtain ⟨t', k', g1, N', g2, g3⟩ := State.map_value (reach_sound ht) hord' hsched' hn' hψ hft ((hL.hidden v).mpr hv) hw
    htt ⟨e, (hL.agrees e).mpr he, by rw [hrt e he]; exact mul_ne_zero hc0.ne' hne⟩
  have hN : ∀ i < v.size, N' i = c * N i := by
    intro i hi
    refine (g3 i hi).unique ?_
    obtain ⟨⟨b, b1, b2, b3⟩, hub⟩ := h3 i hi
    refine ⟨⟨b, (hL.agrees b).mpr b1, b2, by rw [hrt b b1, b3, hrs b b1]⟩, ?_⟩
    rintro x ⟨d, d1, d2, rfl⟩
    have d1 := (hL.agrees d).mp d1
    rw [hrt d d1]
    exact mul_le_mul_of_nonneg_left (hub ⟨d, d1, d2, (hrs d d1).symm⟩) hc0.le
  have e1 : ((List.range v.size).map N').sum = c * ((List.range v.size).map N).sum := by
    rw [← List.sum_map_mul_left]
    exact congrArg List.sum (List.map_congr_left (fun i hi => hN i (by simpa using hi)))
  have e2 : (List.range v.size).map (fun i => N' i / ((List.range v.size).map N').sum) =
      (List.range v.size).map (fun i => N i / ((List.range v.size).map N).sum) := by
    rw [e1]
    exact List.map_congr_left (fun i hi => by rw [hN i (by simpa using hi), mul_div_mul_left _ _ hc0.ne'])
  rw [e2, h2] at g2
  cases g2
  exact ⟨s', t', k, h1, g1⟩

/-- C69 for the joint distributions: the images which the two models return are proportional. The group must be one for
which the library gives the joint distribution (`C34_joint_partial`), in both models. The rest is as in
`C69_marginal_partial`. -/
theorem C69_joint_partial {s t : State (Ext K)} (hs : Reach (fun s op => Prudent s op ∧ Steady s op) s)
    (ht : Reach (fun s op => Prudent s op ∧ Steady s op) t) {φ ψ : Nat → Assign → K} (hφ : s.Images φ) (hψ : t.Images ψ)
    (hsφ : s.Symmetric φ) (hsψ : t.Symmetric ψ) (hL : State.SameLaw s t φ ψ)
    {ord ord' : List Var → List Var} (hord : ∀ l, (ord l).Perm l) (hord' : ∀ l, (ord' l).Perm l)
    {sh sh' : List State.Contribution → List State.Contribution} (hsh : ∀ l, (sh l).Perm l) (hsh' : ∀ l, (sh' l).Perm l)
    {sched sched' : Sched} (hsched : ∀ l, (sched l).Perm l) (hsched' : ∀ l, (sched' l).Perm l)
    {n n' : Nat} (hn : 1 ≤ n) (hn' : 1 ≤ n') {g : Group} (hg : GroupReach g) (hgne : g.group ≠ [])
    (hsub : ∀ v ∈ g.group, s.Hidden v) (hts : ∀ v ∈ g.group, s.TreeAt v) (htt : ∀ v ∈ g.group, t.TreeAt v)
    (hjs : s.Joined g.group) (hjt : t.Joined g.group) (hpos : ∃ e, s.Agrees e ∧ s.weight φ e ≠ 0) :
    ∃ s' t' f f', State.getJoint ord sh sched g n s = .ok s' f ∧ State.getJoint ord' sh' sched' g n' t = .ok t' f' ∧
      f'.vars.group = f.vars.group ∧ ∃ C : K, 0 < C ∧ ∀ a, InDom g.group a → ∃ x,
        f.findTransformed (g.group.map a) = .ok (.val x) ∧ f'.findTransformed (g.group.map a) = .ok (.val (C * x)) := by
  obtain ⟨e, he, hne⟩ := hpos
  have hc := (reach_sound hs).healthy.inv.toCore
  obtain ⟨c, hc0, hcw⟩ := hL.weight
  have hl : s.OthersOf g.group (s.hid.filter (fun w => w ∉ g.group)) := by
    refine ⟨(State.hid_nodup hc.net).filter _, fun w => ?_⟩
    rw [List.mem_filter, State.hidden_iff]
    simp
  obtain ⟨s', f, h1, h2, C, hC, h3⟩ := C34_joint_partial hs hord hsh hsched hn hφ hsφ hg hgne (fun v hv => (hsub v hv).1)
    (fun u hu _ _ ho => absurd ho (hsub u hu).2) (fun v hv _ => hts v hv) hjs hl he ⟨e, he, hne⟩
  obtain ⟨t', f', g1, g2, C', hC', g3⟩ := C34_joint_partial ht hord' hsh' hsched' hn' hψ hsψ hg hgne
    (fun v hv => (hL.vars v).mpr (hsub v hv).1) (fun u hu _ _ ho => absurd ho ((hL.hidden u).mpr (hsub u hu)).2)
    (fun v hv _ => htt v hv) hjt (hL.othersOf hl) ((hL.agrees e).mpr he)
    ⟨e, (hL.agrees e).mpr he, by rw [hcw e he]; exact mul_ne_zero hc0.ne' hne⟩
  refine ⟨s', t', f, f', h1, g1, by rw [g2, h2], C' * c / C, by positivity, fun a ha => ⟨_, h3 a ha, ?_⟩⟩
  rw [g3 a ha]
  congr 2
  have hj : t.jointMass (t.weight ψ) (s.hid.filter (fun w => w ∉ g.group)) e g.group a =
      c * s.jointMass (s.weight φ) (s.hid.filter (fun w => w ∉ g.group)) e g.group a := by
    unfold State.jointMass
    simp only [hL.evidences]
    split
    · rw [← Tree.sumOver_mul (c := fun _ => c) (fun _ _ _ => rfl)]
      refine Tree.sumOver_congr_range (fun b b1 b2 => hcw b ⟨fun u hu => ?_, fun u k hk => ?_⟩)
      · by_cases hul : u ∈ s.hid.filter (fun w => w ∉ g.group)
        · exact b2 u hul
        · rw [b1 u hul]
          by_cases hug : u ∈ g.group
          · rw [if_pos hug]; exact ha u hug
          · rw [if_neg hug]; exact he.1 u hu
      · have hug : u ∉ g.group := fun h => (hsub u h).2 ⟨k, hk⟩
        have hul : u ∉ s.hid.filter (fun w => w ∉ g.group) := fun h => ((hl.2 u).mp h).1.2 ⟨k, hk⟩
        rw [b1 u hul, if_neg hug]
        exact he.2 u k hk
    · rw [mul_zero]
  rw [hj]
  field_simp

namespace Ex

/-- Two models of the same distribution on X and Y: the factors 0 and 1, or 2, 3 and 4, whose product is four times as
large; and two models of the distribution 1/4, 3/4 of X, with any Y: the factor 5, or 6 and 7. -/
def heapLaw : Heap (Ext ℚ) :=
  [una X 3 4, bin X Y 2 1 1 3, una X 1 2, una X 6 4, bin X Y 4 2 2 6, bin X Y 1 1 3 3, una X 1 3, bin X Y 1 1 1 1]

theorem heapLaw_reach : ∀ f ∈ heapLaw, FactorReach f := by
  intro f hf
  simp only [heapLaw, List.mem_cons, List.not_mem_nil, or_false] at hf
  rcases hf with rfl | rfl | rfl | rfl | rfl | rfl | rfl | rfl
  · exact build_reach (.single _) (by decide) _
  · exact build_reach (.soup (vars := [X, Y]) (by decide)) (by decide) _
  · exact build_reach (.single _) (by decide) _
  · exact build_reach (.single _) (by decide) _
  · exact build_reach (.soup (vars := [X, Y]) (by decide)) (by decide) _
  · exact build_reach (.soup (vars := [X, Y]) (by decide)) (by decide) _
  · exact build_reach (.single _) (by decide) _
  · exact build_reach (.soup (vars := [X, Y]) (by decide)) (by decide) _

/-- The images of these functions. -/
def phiLaw (p : Nat) (a : Assign) : ℚ :=
  match heapLaw[p]? with
  | some f => (valAt f (f.vars.group.map a)).getD 0
  | none => 0

/-- A model with some of these factors. -/
def law (as : List Nat) : State (Ext ℚ) := (runActs (as.map .add) (State.initial heapLaw)).1

/-- All the images are nonnegative numbers, and not below the floor. -/
def okLaw (p : Nat) : Bool :=
  match heapLaw[p]? with
  | some f => f.vars.group.all [X, Y].contains && (f.vars.group.map (fun v => List.range v.size)).sections.all (fun c =>
      match valAt f c with
      | some x => decide (0 ≤ x) && decide (ratParams.minK ≤ x)
      | none => false)
  | none => false

/-- Exchanging the values changes nothing. -/
def evenLaw (p : Nat) : Bool :=
  match heapLaw[p]? with
  | some f =>
    match f.vars.group with
    | [u, w] => (List.range u.size).all (fun i => (List.range w.size).all (fun j =>
        decide (valAt f [i, j] = valAt f [j, i])))
    | _ => true
  | none => true

/-- What the examples need to know about such a model. -/
structure IsLaw (s : State (Ext ℚ)) (as : List Nat) : Prop where
  reach : Reach (fun s op => Prudent s op ∧ Steady s op) s
  heap : s.heap = heapLaw
  vars : s.vars = [X, Y]
  factors : s.factors = as
  evidences : s.evidences = []

theorem law_is (as : List Nat) (h : (runActs (as.map .add) (State.initial heapLaw)).2 = true)
    (hh : (law as).heap = heapLaw) (hv : (law as).vars = [X, Y]) (hf : (law as).factors = as)
    (he : (law as).evidences = []) : IsLaw (law as) as :=
  ⟨Reach.mono (fun _ _ h => ⟨h.1, h.2.1⟩) (runActs_drawless _ (.init heapLaw_reach) h), hh, hv, hf, he⟩

namespace IsLaw
variable {s : State (Ext ℚ)} {as : List Nat} (h : IsLaw s as)
include h

theorem hidden {v : Var} (hv : v ∈ [X, Y]) : s.Hidden v :=
  ⟨by rw [h.vars]; exact hv, by rw [State.Observes, h.evidences]; simp⟩

theorem agrees : s.Agrees zeros := zeros_agrees (by rw [h.vars]; decide) (by rw [h.evidences]; decide)

theorem tree {v : Var} (hv : v ∈ [X, Y]) : s.TreeAt v := by
  refine small_tree (a := X) (b := Y) (fun u hu => ?_)
  have : u ∈ [X, Y] := by
    cases hu with
    | refl => exact hv
    | tail _ h' => rw [← h.vars]; exact h'.2.1.1
  simpa using this

theorem value (hok : as.all okLaw = true) {p : Nat} (hp : p ∈ as) {a : Assign} (ha : s.InRange a) :
    ∃ f, s.heap[p]? = some f ∧ f.findTransformed (f.vars.group.map a) = .ok (.val (phiLaw p a)) ∧ 0 ≤ phiLaw p a ∧
      ratParams.minK ≤ phiLaw p a := by
  have := (List.all_eq_true.mp hok) p hp
  unfold okLaw at this
  unfold phiLaw
  rw [h.heap]
  cases hp : heapLaw[p]? with
  | none => rw [hp] at this; cases this
  | some f =>
    rw [hp] at this
    simp only [Bool.and_eq_true, List.all_eq_true] at this
    obtain ⟨h1, h2⟩ := this
    have h3 := h2 (f.vars.group.map a) (by
      rw [List.mem_sections, List.forall₂_map_left_iff, List.forall₂_map_right_iff]
      exact List.forall₂_same.mpr (fun v hv => by
        simpa using ha v (by rw [h.vars]; simpa using h1 v hv)))
    refine ⟨f, rfl, ?_⟩
    simp only
    unfold valAt at h3 ⊢
    cases hr : f.findTransformed (f.vars.group.map a) with
    | ok x =>
      rw [hr] at h3
      cases x with
      | val x => exact ⟨rfl, by simpa using h3⟩
      | nan => cases h3
    | throw => rw [hr] at h3; cases h3
    | ub => rw [hr] at h3; cases h3

theorem images (hok : as.all okLaw = true) : s.Images phiLaw := by
  intro p hp a ha
  rw [h.factors] at hp
  obtain ⟨f, h1, h2, h3, _⟩ := h.value hok hp ha
  exact ⟨f, h1, h2, h3⟩

theorem floored (hok : as.all okLaw = true) : s.Floored phiLaw := by
  rintro p u w ⟨hp, _⟩ _ _ a ha
  rw [h.factors] at hp
  obtain ⟨f, _, _, _, h4⟩ := h.value hok hp ha
  exact h4

theorem symmetric (hf : as.all evenLaw = true) : s.Symmetric phiLaw := by
  rintro p u w ⟨hp, f, hpf, hg⟩ hu hw a ha
  rw [h.factors] at hp
  have := (List.all_eq_true.mp hf) p hp
  unfold evenLaw at this
  unfold phiLaw
  rw [h.heap] at hpf
  rw [hpf] at this ⊢
  simp only [hg, List.all_eq_true, List.mem_range, decide_eq_true_eq, List.map_cons, List.map_nil] at this ⊢
  rw [this (a u) (ha u hu.1) (a w) (ha w hw.1)]
  by_cases h : w = u
  · subst h; simp [Assign.exchange]
  · simp [Assign.exchange, h]

theorem joined (hj : s.Joins X Y) : s.Joined [X, Y] := by
  intro u hu w hw _
  have hj' : s.Joins Y X := hj.imp (fun _ h => h.symm)
  have hx := h.hidden (v := X) (by simp)
  have hy := h.hidden (v := Y) (by simp)
  simp only [List.mem_cons, List.not_mem_nil, or_false] at hu hw
  rcases hu with rfl | rfl <;> rcases hw with rfl | rfl
  · exact .refl
  · exact .single ⟨by simp, by simp, hx, hy, hj⟩
  · exact .single ⟨by simp, by simp, hy, hx, hj'⟩
  · exact .refl

end IsLaw

/-- Two assignments with the same values of X and Y. -/
theorem phiLaw_two (p : Nat) (a : Assign) (hp : (match heapLaw[p]? with
    | some f => f.vars.group.all [X, Y].contains
    | none => true) = true) : phiLaw p a = phiLaw p (fun v => if v = X then a X else a Y) := by
  unfold phiLaw
  cases hf : heapLaw[p]? with
  | none => rfl
  | some f =>
    rw [hf] at hp
    simp only at hp ⊢
    rw [List.map_congr_left (fun v hv => ?_)]
    have := List.all_eq_true.mp hp v hv
    simp only [List.contains_iff_mem, List.mem_cons, List.not_mem_nil, or_false] at this
    rcases this with rfl | rfl
    · simp
    · rw [if_neg (by decide)]

/-- Two models with proportional products. -/
theorem law_same {s t : State (Ext ℚ)} {as bs : List Nat} (hs : IsLaw s as) (ht : IsLaw t bs) {c : ℚ} (hc : 0 < c)
    (hin : ∀ p ∈ as ++ bs, (match heapLaw[p]? with
      | some f => f.vars.group.all [X, Y].contains
      | none => true) = true)
    (hw : ∀ i < 2, ∀ j < 2, (bs.map (fun p => phiLaw p (fun v => if v = X then i else j))).prod =
      c * (as.map (fun p => phiLaw p (fun v => if v = X then i else j))).prod) : State.SameLaw s t phiLaw phiLaw := by
  refine ⟨fun v => by rw [hs.vars, ht.vars], fun x => by rw [hs.evidences, ht.evidences], c, hc, fun a ha => ?_⟩
  have hx := ha.1 X (by rw [hs.vars]; simp)
  have hy := ha.1 Y (by rw [hs.vars]; simp)
  have := hw (a X) hx (a Y) hy
  unfold State.weight
  rw [hs.factors, ht.factors,
    List.map_congr_left (fun p hp => phiLaw_two p a (hin p (List.mem_append_right _ hp))),
    List.map_congr_left (l := as) (fun p hp => phiLaw_two p a (hin p (List.mem_append_left _ hp))), this]

theorem law01 : IsLaw (law [0, 1]) [0, 1] :=
  law_is _ (by decide +kernel) (by decide +kernel) (by decide +kernel) (by decide +kernel) (by decide +kernel)
theorem law234 : IsLaw (law [2, 3, 4]) [2, 3, 4] :=
  law_is _ (by decide +kernel) (by decide +kernel) (by decide +kernel) (by decide +kernel) (by decide +kernel)
theorem law5 : IsLaw (law [5]) [5] :=
  law_is _ (by decide +kernel) (by decide +kernel) (by decide +kernel) (by decide +kernel) (by decide +kernel)
theorem law67 : IsLaw (law [6, 7]) [6, 7] :=
  law_is _ (by decide +kernel) (by decide +kernel) (by decide +kernel) (by decide +kernel) (by decide +kernel)

theorem law_alike : State.SameLaw (law [0, 1]) (law [2, 3, 4]) phiLaw phiLaw :=
  law_same law01 law234 (c := 4) (by norm_num) (by decide +kernel) (by decide +kernel)

end Ex

/-- The same answers from the factors 0, 1 and from the factors 2, 3, 4. -/
example : (∃ s' t' ps, State.getMarginal Ex.rev id Ex.X 1 (Ex.law [0, 1]) = .ok s' ps ∧
      State.getMarginal id List.reverse Ex.X 2 (Ex.law [2, 3, 4]) = .ok t' ps) ∧
    (∃ s' t' k, State.getMAP Ex.rev id Ex.X 1 (Ex.law [0, 1]) = .ok s' k ∧
      State.getMAP id List.reverse Ex.X 2 (Ex.law [2, 3, 4]) = .ok t' k) ∧
    ∃ s' t' f f', State.getJoint Ex.rev id id (Ex.pair Ex.X Ex.Y) 1 (Ex.law [0, 1]) = .ok s' f ∧
      State.getJoint id id List.reverse (Ex.pair Ex.X Ex.Y) 2 (Ex.law [2, 3, 4]) = .ok t' f' ∧
      f'.vars.group = f.vars.group := by
  have hj1 : (Ex.law [0, 1]).Joins Ex.X Ex.Y :=
    Ex.joins_of 1 (by rw [Ex.law01.factors]; simp) (by rw [Ex.law01.heap]; decide +kernel)
  have hj2 : (Ex.law [2, 3, 4]).Joins Ex.X Ex.Y :=
    Ex.joins_of 4 (by rw [Ex.law234.factors]; simp) (by rw [Ex.law234.heap]; decide +kernel)
  have hp : (Ex.law [0, 1]).weight Ex.phiLaw Ex.zeros ≠ 0 := by
    unfold State.weight
    rw [Ex.law01.factors]
    decide +kernel
  have h1 := Ex.law01
  have h2 := Ex.law234
  have hL := Ex.law_alike
  have o1 : [0, 1].all Ex.okLaw = true := by decide +kernel
  have o2 : [2, 3, 4].all Ex.okLaw = true := by decide +kernel
  have e1 : [0, 1].all Ex.evenLaw = true := by decide +kernel
  have e2 : [2, 3, 4].all Ex.evenLaw = true := by decide +kernel
  generalize Ex.law [0, 1] = s at *
  generalize Ex.law [2, 3, 4] = t at *
  refine ⟨?_, ?_, ?_⟩
  · exact C69_marginal_partial h1.reach h2.reach (h1.images o1) (h2.images o2) (h1.symmetric e1) (h2.symmetric e2) hL
      Ex.rev_perm (fun l => .refl l) (fun l => .refl l) (fun l => List.reverse_perm l) (by omega) (by omega)
      (h1.hidden (by simp)) (Var.eqv_refl _) (h1.tree (by simp)) (h2.tree (by simp)) ⟨_, h1.agrees, hp⟩
  · exact C69_map_partial h1.reach h2.reach (h1.images o1) (h2.images o2) (h1.symmetric e1) (h2.symmetric e2)
      (h1.floored o1) (h2.floored o2) hL
      Ex.rev_perm (fun l => .refl l) (fun l => .refl l) (fun l => List.reverse_perm l) (by omega) (by omega)
      (h1.hidden (by simp)) (Var.eqv_refl _) (h1.tree (by simp)) (h2.tree (by simp)) ⟨_, h1.agrees, hp⟩
  · obtain ⟨s', t', f, f', g1, g2, g3, _⟩ := C69_joint_partial h1.reach h2.reach (h1.images o1) (h2.images o2)
      (h1.symmetric e1) (h2.symmetric e2) hL Ex.rev_perm (ord' := id) (fun l => .refl l) (sh := id) (sh' := id)
      (fun l => .refl l) (fun l => .refl l) (sched := id) (sched' := List.reverse) (fun l => .refl l)
      (fun l => List.reverse_perm l) (n := 1) (n' := 2) (by omega) (by omega)
      (g := Ex.pair Ex.X Ex.Y) (.soup (vars := [Ex.X, Ex.Y]) (by decide)) (by simp [Ex.pair])
      (fun v hv => h1.hidden hv) (fun v hv => h1.tree hv) (fun v hv => h2.tree hv) (h1.joined hj1) (h2.joined hj2)
      ⟨_, h1.agrees, hp⟩
    exact ⟨s', t', f, f', g1, g2, g3⟩

/-- C69 is violated by the factors which are not symmetric: the factor of X and Y whose images are 1, 1, 3, 3 describes
the same distribution as the factor of X whose images are 1, 3 and a factor of X and Y whose images are all 1, and the
library returns two marginals of X. -/
theorem C69_violated : ∃ s t : State (Ext ℚ), Reach (fun s op => Prudent s op ∧ Steady s op) s ∧
    Reach (fun s op => Prudent s op ∧ Steady s op) t ∧ s.Images Ex.phiLaw ∧ t.Images Ex.phiLaw ∧
    State.SameLaw s t Ex.phiLaw Ex.phiLaw ∧ s.Hidden Ex.X ∧ s.TreeAt Ex.X ∧ t.TreeAt Ex.X ∧
    Ex.marginalOf Ex.X s = some [.val (1 / 2), .val (1 / 2)] ∧
    Ex.marginalOf Ex.X t = some [.val (1 / 4), .val (3 / 4)] :=
  ⟨_, _, Ex.law5.reach, Ex.law67.reach, Ex.law5.images (by decide +kernel), Ex.law67.images (by decide +kernel),
    Ex.law_same Ex.law5 Ex.law67 (c := 1) (by norm_num) (by decide +kernel) (by decide +kernel),
    Ex.law5.hidden (by simp), Ex.law5.tree (by simp), Ex.law67.tree (by simp), by decide +kernel, by decide +kernel⟩

end EFG
