import Verif.Lemmas.AbsorbReach
import Verif.Lemmas.CrfTrain
import Verif.Props.Models
import Mathlib.Data.Rat.Floor
/- C44, C45 and C49: conditional random fields. -/

namespace EFG

section
variable {F : Type} [Arith F]

/-! ### C44 -/

/-- C44: a conditional random field is made exactly from the admissible models: those with an evidence, and
without a tunable factor all of whose variables are observed. It has the variables, the evidences, the factors,
the weights and the clusters of the source, and every tuner fits its factor: the two ends of its factor are
hidden, or one of them is the observed one the tuner knows.

Missing: isolated variables (`C44_isolated_violated`), variables with the same name (`C44_names_violated`) and
the sources of which C43 shows that they are not copied faithfully. -/
theorem C44_make_partial {allowed : State F → GOp F → Prop} {s : State F} (h : Reach allowed s) {o : VisitOrder}
    (ho : o.Perms) (hc : s.Covered) (hcl : s.Clustered) (hw : s.EqualWeights) (hu : s.Unambiguous) (hn : s.Named)
    (copy : Bool) :
    (s.Admissible ∧ ∃ c r, Crf.make o s copy = .ok c ∧ State.TunableCopyOf s c.state r ∧ Placed s copy r ∧
      ∀ tn ∈ c.state.tuners, ∀ b ∈ tn, c.state.TunerFits b) ∨
    (¬ s.Admissible ∧ Crf.make o s copy = .throw) := by
  rcases State.make_cases ho (reach_inv h) (State.reach_built h) (reach_tuned h) (State.reach_registered h) hc hcl hw hu hn
    copy with ⟨h1, c, t, h2, h3, h4, h5, h6, h7⟩ | h1
  · exact Or.inl ⟨h1, c, _, h2, h5, State.place_placed _ _ _, h6⟩
  · exact Or.inr h1

/-- C44: from a source without evidences no conditional random field is made, whatever the source is. -/
theorem C44_no_evidence {s : State F} (h : ∀ v, ¬ s.Observes v) (o : VisitOrder) (copy : Bool) :
    Crf.make o s copy = .throw := by
  have : s.evidences = [] := by
    cases he : s.evidences with
    | nil => rfl
    | cons e l => exact absurd ⟨e.2, by rw [he]; simp⟩ (h e.1)
  unfold Crf.make State.crfAbsorb
  rw [this]
  rfl

/-- C44: whatever the source is, in a conditional random field which was made no tunable factor in a cluster has
all its variables observed, and the tuners fit. -/
theorem C44_sound {allowed : State F → GOp F → Prop} {s : State F} (h : Reach allowed s) {o : VisitOrder}
    (ho : o.Perms) {copy : Bool} {c : Crf F} (hm : Crf.make o s copy = .ok c) :
    (∀ tn ∈ c.state.tunableClusters, ∀ p ∈ tn, ¬ c.state.Pinned p) ∧
      ∀ tn ∈ c.state.tuners, ∀ b ∈ tn, c.state.TunerFits b := by
  obtain ⟨t, h1, h2, h3, h4, h5, h6⟩ := State.make_reach ho (reach_inv h) (State.reach_built h) (reach_tuned h) (State.reach_registered h) hm
  refine ⟨?_, h4⟩
  intro tn htn p hp hpn
  rw [h3] at htn
  refine h5 tn htn p hp ?_
  rw [h2] at hpn
  exact hpn

/-! ### C49 -/

/-- C49: no sequence of public operations on a conditional random field, successful or not, changes its
variables, its factors and the variables they are on, its clusters and tuners, or which variables are observed;
hence the tuners chosen when it was made fit forever. -/
theorem C49_locked {allowed : State F → GOp F → Prop} {src : State F} (h : Reach allowed src) {o : VisitOrder}
    (ho : o.Perms) {copy : Bool} {c : Crf F} {permitted : State F → CrfOp F → Prop}
    (hc : CrfReach permitted src o copy c) :
    ∃ c0, Crf.make o src copy = .ok c0 ∧ c.positions = c0.positions ∧ c.state.vars = c0.state.vars ∧
      c.state.factors = c0.state.factors ∧ c.state.consts = c0.state.consts ∧ c.state.tunables = c0.state.tunables ∧
      c.state.tuners = c0.state.tuners ∧ (∀ v, c.state.Observes v ↔ c0.state.Observes v) ∧
      (∀ p l, c.state.FactorOn p l ↔ c0.state.FactorOn p l) ∧
      ∀ tn ∈ c.state.tuners, ∀ b ∈ tn, c.state.TunerFits b := by
  obtain ⟨c0, h1, h2, h3, h4, h5⟩ := State.crf_reach h ho hc
  refine ⟨c0, h1, h5, h4.vars, h4.factors, h4.consts, h4.tunables, h4.tuners, h4.observes, h4.factorOn h2, ?_⟩
  obtain ⟨t, k1, k2, k3, k4, _⟩ := State.make_reach ho (reach_inv h) (State.reach_built h) (reach_tuned h) (State.reach_registered h) h1
  intro tn htn b hb
  rw [h4.tuners] at htn
  refine h4.fits h2 ?_ (k4 tn htn b hb)
  have hm : tn.map BaseTuner.factor ∈ t.tunableClusters := by rw [← k3]; exact List.mem_map_of_mem htn
  obtain ⟨tn', g1, g2⟩ := List.mem_map.mp hm
  have hb' : b.factor ∈ tn'.map BaseTuner.factor := by rw [g2]; exact List.mem_map_of_mem hb
  obtain ⟨b', g3, g4⟩ := List.mem_map.mp hb'
  have ht := reach_tuned k1
  have := ht.reg _ (ht.of tn' g1 b' g3).reg
  rw [k2, ← g4]
  exact this

/-- C49: the values of the evidences are changed in place, so that the position of a variable in the map of the
evidences is always the same. -/
theorem C49_keys {allowed : State F → GOp F → Prop} {src : State F} (h : Reach allowed src) {o : VisitOrder}
    (ho : o.Perms) {copy : Bool} {c : Crf F} {permitted : State F → CrfOp F → Prop}
    (hc : CrfReach permitted src o copy c) :
    ∃ c0, Crf.make o src copy = .ok c0 ∧ c.state.evidences.map Prod.fst = c0.state.evidences.map Prod.fst := by
  obtain ⟨c0, h1, h2, h3, h4, h5⟩ := State.crf_reach h ho hc
  exact ⟨c0, h1, h4.obs⟩

/-- C49: there is always an evidence. -/
theorem C49_observed {allowed : State F → GOp F → Prop} {src : State F} (h : Reach allowed src) {o : VisitOrder}
    (ho : o.Perms) {copy : Bool} {c : Crf F} {permitted : State F → CrfOp F → Prop}
    (hc : CrfReach permitted src o copy c) : ∃ v, c.state.Observes v := by
  obtain ⟨e, l, he⟩ := List.exists_cons_of_ne_nil (State.crf_observed h ho hc)
  exact ⟨e.1, e.2, by rw [he]; simp⟩

/-! ### Setting the evidences -/

/-- C44: `setEvidences` throws and changes nothing if the number of values is not that of the evidences; it
throws if a value is out of range; otherwise the i-th value becomes that of the i-th variable, in the order in
which the map of the evidences is visited, and nothing else is changed in the structure.

Missing: the documentation gives the order of `getObservedVariables`, which can be another one
(`C44_order_violated`). -/
theorem C44_evidences_partial {allowed : State F → GOp F → Prop} {src : State F} (h : Reach allowed src) {o : VisitOrder}
    (ho : o.Perms) {copy : Bool} {c : Crf F} {permitted : State F → CrfOp F → Prop}
    (hc : CrfReach permitted src o copy c) {ord visit : List Var → List Var}
    (hord : ∀ l, (ord l).Perm l) (hvis : ∀ l, (visit l).Perm l) (values : List Nat) :
    (values.length ≠ c.state.evidences.length → State.setEvidences ord visit values c.state = .throw c.state) ∧
    (values.length = c.state.evidences.length →
      (¬ Valid ((visit (c.state.evidences.map Prod.fst)).map Var.size) values →
        ∃ s', State.setEvidences ord visit values c.state = .throw s') ∧
      (Valid ((visit (c.state.evidences.map Prod.fst)).map Var.size) values →
        ∃ s', State.setEvidences ord visit values c.state = .ok s' () ∧
          s'.evidences.Perm ((visit (c.state.evidences.map Prod.fst)).zip values) ∧ s'.heap = c.state.heap ∧
          s'.vars = c.state.vars ∧ s'.factors = c.state.factors)) := by
  obtain ⟨c0, h1, h2, h3, h4, h5⟩ := State.crf_reach h ho hc
  refine ⟨?_, fun hl => ⟨?_, ?_⟩⟩
  · intro hl
    unfold State.setEvidences
    rw [if_pos hl]
  · intro hv
    exact State.setEvidences_refuse hord hvis h3 hl hv
  · intro hv
    obtain ⟨s', k1, k2, k3, k4, k5, k6⟩ := State.setEvidences_ok hord hvis h3 hv
    exact ⟨s', k1, k6, k4, k3.vars, k3.factors⟩

/-! ### C45 -/

/-- C45: a percentage out of [0, 1] is refused and nothing changes. -/
theorem C45_percentage (ord visit obsOrder : List Var → List Var) (fl : F → Option Nat) (rnd : Nat → Random F)
    (ctx : SampleContext) (n : Nat) (s : State F) {pct : F}
    (h : Arith.lt Arith.one pct = true ∨ Arith.lt pct Arith.zero = true) :
    State.makeTrainSet ord visit obsOrder fl rnd ctx pct n s = .throw s := by
  unfold State.makeTrainSet
  rw [if_pos]
  simpa using h

/-- The training set is made of blocks of samples, one for each combination of the evidences: all the samples of
a block have the values of the combination on the observed variables. -/
def TrainingSet (s : State F) (visit : List Var → List Var) (ctx : SampleContext) (combs : List (List Nat))
    (l : List (List Nat)) : Prop :=
  ∃ blocks, l = List.flatten blocks ∧ List.Forall₂ (fun ev b => b.length = ctx.samples ∧
    ∀ c ∈ b, State.IsSample { s with evidences := (visit (s.evidences.map Prod.fst)).zip ev } c) combs blocks

/-- C45: with the percentage 1 the training set has samples for every combination of the evidences, each visited
once.

Missing: the two orders must give the sizes in the same order (`C45_order_violated`). -/
theorem C45_all_partial {allowed : State F → GOp F → Prop} {src : State F} (h : Reach allowed src) {o : VisitOrder}
    (ho : o.Perms) {copy : Bool} {c : Crf F} {permitted : State F → CrfOp F → Prop}
    (hc : CrfReach permitted src o copy c) {ord visit obsOrder : List Var → List Var}
    (hord : ∀ l, (ord l).Perm l) (hvis : ∀ l, (visit l).Perm l) (hobs : ∀ l, (obsOrder l).Perm l)
    (hsz : (obsOrder (c.state.evidences.map Prod.fst)).map Var.size = (visit (c.state.evidences.map Prod.fst)).map Var.size)
    (hp : c.state.pool.isSome) {n : Nat} (hn : 1 ≤ n) (fl : F → Option Nat)
    (rnd : Nat → Random F) (ctx : SampleContext) {pct : F} (h1 : Arith.lt Arith.one pct = false)
    (h0 : Arith.lt pct Arith.zero = false) (he : Arith.eq Arith.one pct = true) :
    ∃ s' l combs, State.makeTrainSet ord visit obsOrder fl rnd ctx pct n c.state = .ok s' l ∧
      TrainingSet c.state visit ctx combs l ∧ combs.Nodup ∧
      ∀ ev, ev ∈ combs ↔ Valid ((visit (c.state.evidences.map Prod.fst)).map Var.size) ev := by
  obtain ⟨c0, _, h2, h3, h4, _⟩ := State.crf_reach h ho hc
  have hne := State.crf_observed h ho hc
  obtain ⟨g1, g2, g3⟩ := State.observed_group hobs h3 hne
  have hcomb : State.trainCombinations fl ⟨obsOrder c.state.obs, obsOrder c.state.obs⟩ pct =
      .ok (lex ((obsOrder c.state.obs).map Var.size)) := by
    unfold State.trainCombinations
    rw [if_pos he]
    exact visit_eq _ g2 g3
  have hmem : ∀ ev, ev ∈ lex ((obsOrder c.state.obs).map Var.size) ↔ Valid ((visit c.state.obs).map Var.size) ev := by
    intro ev
    rw [mem_lex]
    have : (obsOrder c.state.obs).map Var.size = (visit c.state.obs).map Var.size := hsz
    rw [this]
  obtain ⟨s', bs, k1, k2, k3, k4⟩ := State.makeTrainSet_ok hord hvis hobs fl rnd ctx hn h3 hp hne hsz h1 h0 hcomb
    (fun ev hev => (hmem ev).mp hev)
  exact ⟨s', _, _, k1, ⟨bs, rfl, k4⟩, lex_nodup _, hmem⟩

end

/-- The conversion of a float to an integer, rounding down. -/
def IsFloor {K : Type} [Field K] [LinearOrder K] (fl : Ext K → Option Nat) : Prop :=
  ∀ (x : K) (n : Nat), (n : K) ≤ x → x < n + 1 → fl (.val x) = some n

section
variable {K : Type} [Field K] [LinearOrder K] [FloatParams K] [IsStrictOrderedRing K]

/-- The combinations with a percentage less than 1. -/
theorem trainCombinations_some (fl : Ext K → Option Nat) (hfl : IsFloor fl) {p : K} (h1 : p < 1) {l : List Var}
    (hne : l.map Var.size ≠ []) (hpos : ∀ z ∈ l.map Var.size, 0 < z) {a : Nat}
    (ha : (a : K) ≤ ((l.map Var.size).prod : Nat) * p) (ha' : (((l.map Var.size).prod : Nat) : K) * p < a + 1) :
    (a = 0 → State.trainCombinations fl ⟨l, l⟩ (.val p) = .ub) ∧
    (1 ≤ a → ∃ combs, State.trainCombinations fl ⟨l, l⟩ (.val p) = .ok combs ∧
      State.EveryNth ((l.map Var.size).prod / a) (lex (l.map Var.size)) combs ∧ 1 ≤ (l.map Var.size).prod / a) := by
  have hsize : Group.size ⟨l, l⟩ = (l.map Var.size).prod := Group.size_eq _
  have heq : Arith.eq (Arith.one : Ext K) (.val p) = false := by
    show decide ((1 : K) = p) = false
    simp only [decide_eq_false_iff_not]
    exact fun h => by rw [h] at h1; exact lt_irrefl _ h1
  have hf : fl (Arith.mul (Arith.ofNat (Group.size ⟨l, l⟩)) (.val p)) = some a := by
    rw [hsize]
    exact hfl _ a ha ha'
  constructor
  · intro h0
    unfold State.trainCombinations
    rw [heq, hf]
    simp [h0]
  · intro h
    have hle : a ≤ (l.map Var.size).prod := by
      have hp0 : (0 : K) < ((l.map Var.size).prod : Nat) := by exact_mod_cast prod_pos_nat hpos
      have : (a : K) ≤ ((l.map Var.size).prod : Nat) := ha.trans (by nlinarith)
      exact_mod_cast this
    have hd : 1 ≤ (l.map Var.size).prod / a := (Nat.one_le_div_iff (by omega)).mpr hle
    obtain ⟨cs, k1, k2⟩ := State.spaced_ok ⟨l, l⟩ hne hpos hd hsize
    refine ⟨cs, ?_, k2, hd⟩
    unfold State.trainCombinations
    rw [heq, hf]
    simp only [Bool.false_eq_true, if_false]
    rw [if_neg (by omega), hsize]
    rw [hsize] at k1
    exact k1

/-- C45: with a percentage `p` less than 1, of which `a` is the whole number of combinations, not null, the
training set has samples for one combination of the evidences out of `n / a`, where `n` is the number of all the
combinations, in lexicographic order: no combination is visited twice.

Missing: the two orders must give the sizes in the same order (`C45_order_violated`), and `a` must not be null
(`C45_small_violated`). -/
theorem C45_some_partial {allowed : State (Ext K) → GOp (Ext K) → Prop} {src : State (Ext K)} (h : Reach allowed src)
    {o : VisitOrder} (ho : o.Perms) {copy : Bool} {c : Crf (Ext K)} {permitted : State (Ext K) → CrfOp (Ext K) → Prop}
    (hc : CrfReach permitted src o copy c)
    {ord visit obsOrder : List Var → List Var} (hord : ∀ l, (ord l).Perm l) (hvis : ∀ l, (visit l).Perm l)
    (hobs : ∀ l, (obsOrder l).Perm l)
    (hsz : (obsOrder (c.state.evidences.map Prod.fst)).map Var.size = (visit (c.state.evidences.map Prod.fst)).map Var.size)
    (hp : c.state.pool.isSome) {n : Nat} (hn : 1 ≤ n) {fl : Ext K → Option Nat}
    (hfl : IsFloor fl) (rnd : Nat → Random (Ext K)) (ctx : SampleContext) {p : K} (h0 : 0 ≤ p) (h1 : p < 1) {a N : Nat}
    (hN : N = ((c.state.evidences.map Prod.fst).map Var.size).prod) (ha : (a : K) ≤ N * p) (ha' : (N : K) * p < a + 1)
    (ha1 : 1 ≤ a) :
    ∃ s' l combs, State.makeTrainSet ord visit obsOrder fl rnd ctx (.val p) n c.state = .ok s' l ∧
      TrainingSet c.state visit ctx combs l ∧ combs.Nodup ∧ combs.Pairwise LexLt ∧ combs.length = (N + N / a - 1) / (N / a) ∧
      ∀ ev ∈ combs, Valid ((visit (c.state.evidences.map Prod.fst)).map Var.size) ev := by
  obtain ⟨c0, _, h2, h3, h4, _⟩ := State.crf_reach h ho hc
  have hne := State.crf_observed h ho hc
  obtain ⟨g1, g2, g3⟩ := State.observed_group hobs h3 hne
  have hNp : ((obsOrder c.state.obs).map Var.size).prod = N := by
    rw [hN]
    exact (((hobs c.state.obs).map Var.size).prod_eq)
  obtain ⟨combs, k1, k2, k3⟩ := (trainCombinations_some fl hfl h1 g2 g3 (a := a) (by rw [hNp]; exact ha)
    (by rw [hNp]; exact ha')).2 ha1
  rw [hNp] at k2 k3
  have hsub := k2.sublist k3
  have hval : ∀ ev ∈ combs, Valid ((visit c.state.obs).map Var.size) ev := by
    intro ev hev
    have := mem_lex.mp (hsub.subset hev)
    have hz : (obsOrder c.state.obs).map Var.size = (visit c.state.obs).map Var.size := hsz
    rw [hz] at this
    exact this
  obtain ⟨s', bs, e1, _, _, e4⟩ := State.makeTrainSet_ok hord hvis hobs fl rnd ctx hn h3 hp hne hsz
    (by show decide ((1 : K) < p) = false; simpa using h1.le) (by show decide (p < (0 : K)) = false; simpa using h0) k1 hval
  refine ⟨s', _, combs, e1, ⟨bs, rfl, e4⟩, (lex_nodup _).sublist hsub, (lex_sorted _).sublist hsub, ?_, hval⟩
  have hlen := lex_length ((obsOrder c.state.obs).map Var.size)
  rw [hNp] at hlen
  exact State.EveryNth.length k3 k2 hlen

/-- C45 is violated by every conditional random field and every percentage of less than one combination: the
program divides by zero. -/
theorem C45_small_violated {allowed : State (Ext K) → GOp (Ext K) → Prop} {src : State (Ext K)} (h : Reach allowed src)
    {o : VisitOrder} (ho : o.Perms) {copy : Bool} {c : Crf (Ext K)} {permitted : State (Ext K) → CrfOp (Ext K) → Prop}
    (hc : CrfReach permitted src o copy c)
    (ord visit : List Var → List Var) {obsOrder : List Var → List Var} (hobs : ∀ l, (obsOrder l).Perm l)
    (n : Nat) {fl : Ext K → Option Nat}
    (hfl : IsFloor fl) (rnd : Nat → Random (Ext K)) (ctx : SampleContext) {p : K} (h0 : 0 ≤ p)
    (h1 : (((c.state.evidences.map Prod.fst).map Var.size).prod : K) * p < 1) :
    State.makeTrainSet ord visit obsOrder fl rnd ctx (.val p) n c.state = .ub := by
  obtain ⟨c0, _, h2, h3, h4, _⟩ := State.crf_reach h ho hc
  have hne := State.crf_observed h ho hc
  obtain ⟨g1, g2, g3⟩ := State.observed_group hobs h3 hne
  have hNp : ((obsOrder c.state.obs).map Var.size).prod = ((c.state.evidences.map Prod.fst).map Var.size).prod :=
    ((hobs c.state.obs).map Var.size).prod_eq
  have hpos : 1 ≤ ((c.state.evidences.map Prod.fst).map Var.size).prod := by
    rw [← hNp]
    exact prod_pos_nat g3
  have hp1 : p < 1 := by
    have : (1 : K) ≤ (((c.state.evidences.map Prod.fst).map Var.size).prod : Nat) := by exact_mod_cast hpos
    nlinarith
  have hcomb := (trainCombinations_some fl hfl hp1 g2 g3 (a := 0) (by rw [Nat.cast_zero]; positivity)
    (by rw [hNp]; simpa using h1)).1 rfl
  unfold State.makeTrainSet
  rw [if_neg (by
    have a1 : Arith.lt (Arith.one : Ext K) (.val p) = false := by show decide ((1 : K) < p) = false; simpa using hp1.le
    have a2 : Arith.lt (.val p) (Arith.zero : Ext K) = false := by show decide (p < (0 : K)) = false; simpa using h0
    rw [a1, a2]; decide)]
  rw [g1]
  simp only
  rw [hcomb]

end

/-! ### Examples and violations -/

namespace Ex

/-- The field obtained by executing operations which return. -/
def crf (o : VisitOrder) (s : State (Ext ℚ)) (copy : Bool) : Crf (Ext ℚ) :=
  match Crf.make o s copy with
  | .ok c => c
  | _ => ⟨s, []⟩

/-- Whether the field could be made. -/
def crfOk (o : VisitOrder) (s : State (Ext ℚ)) (copy : Bool) : Bool :=
  match Crf.make o s copy with
  | .ok _ => true
  | _ => false

theorem crf_made {o : VisitOrder} {s : State (Ext ℚ)} {copy : Bool} (h : crfOk o s copy = true) :
    Crf.make o s copy = .ok (crf o s copy) := by
  unfold crf
  unfold crfOk at h
  cases hm : Crf.make o s copy with
  | ok c => rfl
  | throw => rw [hm] at h; cases h
  | ub => rw [hm] at h; cases h

theorem named_of {s : State (Ext ℚ)} (h : s.vars.all (fun u => s.vars.all (fun v => decide (u.name = v.name → u = v))) = true) :
    s.Named := by
  intro u hu v hv
  have := (List.all_eq_true.mp ((List.all_eq_true.mp h) u hu)) v hv
  exact of_decide_eq_true this

/-- The field with the evidence on X too: the tunable factors on X are pinned. -/
def pinned : State (Ext ℚ) := afterT [.add 5, .tune 0 none, .tune 3 none, .tune 2 (some [X]), .observe Z 1, .observe X 0]

/-- The path Y - Z - W with Z and W observed. -/
def twoObs : State (Ext ℚ) := after [.add 2, .add 6, .observe Z 1, .observe W 2]

theorem twoObs_reach : Reach anyOp twoObs := runActs_any _ (.init heapXYZ_reach)

end Ex

/-- A field with constant and tunable factors, two of which share a weight, and an evidence. The tuner of the
factor on Y and Z knows that Z is observed. -/
example : Reach FromInside Ex.field ∧ Ex.backwards.Perms ∧ Ex.field.Covered ∧ Ex.field.Clustered ∧
    Ex.field.EqualWeights ∧ Ex.field.Unambiguous ∧ Ex.field.Named ∧
    (match Crf.make Ex.backwards Ex.field true with
      | .ok c => some (c.state.tunableClusters, c.state.tuners.map (fun t => t.map (·.kind)), c.positions)
      | _ => none) = some ([[11, 12], [13]], [[.unary Ex.X, .unary Ex.Y], [.hiddenObserved Ex.Y Ex.Z]], [2]) ∧
    (match Crf.make Ex.backwards Ex.pinned true with | .throw => true | _ => false) = true :=
  ⟨Ex.field_inside, Ex.backwards_perms, Ex.covered_of (by decide +kernel), Ex.clustered_of (by decide +kernel),
    Ex.equalWeights_of Ex.field_inside, Ex.field_unambiguous, Ex.named_of (by decide +kernel), by decide +kernel,
    by decide +kernel⟩

/-- A conditional random field with two observed variables of different sizes, whose evidences are changed; all
the hypotheses of C44, C45 and C49 hold. -/
example : ∃ c, CrfReach (fun _ _ => True) Ex.twoObs Ex.backwards true c ∧ c.state.evidences = [(Ex.W, 1), (Ex.Z, 0)] ∧ c.state.pool.isSome ∧
    c.state.factors.length = 2 := by
  have hm : Crf.make Ex.backwards Ex.twoObs true = .ok (Ex.crf Ex.backwards Ex.twoObs true) := Ex.crf_made (by decide +kernel)
  have hx : (match State.setEvidences Ex.rev id [1, 0] (Ex.crf Ex.backwards Ex.twoObs true).state with
    | .ok s' _ => some (s'.evidences, s'.pool.isSome, s'.factors.length)
    | _ => none) = some ([(Ex.W, 1), (Ex.Z, 0)], true, 2) := by decide +kernel
  cases he : State.setEvidences Ex.rev id [1, 0] (Ex.crf Ex.backwards Ex.twoObs true).state with
  | throw t => rw [he] at hx; cases hx
  | ub => rw [he] at hx; cases hx
  | ok t u =>
    rw [he] at hx
    simp only [Option.some.injEq, Prod.mk.injEq] at hx
    exact ⟨_, .ok (op := .setEvidences Ex.rev id [1, 0]) (.made hm) ⟨Ex.rev_perm, fun l => .refl l⟩ trivial he, hx.1, hx.2.1, hx.2.2⟩

/-- C44 is violated when the order of the observed variables is not that of the map of the evidences: the values,
given in the order of `getObservedVariables`, go to the wrong variables. -/
theorem C44_order_violated : ∃ (c : Crf (Ext ℚ)) (obsOrder visit : List Var → List Var) (s' : State (Ext ℚ)),
    CrfReach (fun _ _ => True) Ex.twoObs Ex.backwards true c ∧ (∀ l, (obsOrder l).Perm l) ∧ (∀ l, (visit l).Perm l) ∧
    obsOrder c.state.observedVariables = [Ex.Z, Ex.W] ∧ State.setEvidences Ex.rev visit [0, 1] c.state = .ok s' () ∧
    (Ex.W, 0) ∈ s'.evidences ∧ (Ex.Z, 1) ∈ s'.evidences := by
  have hm : Crf.make Ex.backwards Ex.twoObs true = .ok (Ex.crf Ex.backwards Ex.twoObs true) := Ex.crf_made (by decide +kernel)
  have hx : (match State.setEvidences Ex.rev id [0, 1] (Ex.crf Ex.backwards Ex.twoObs true).state with
    | .ok s' _ => some s'.evidences
    | _ => none) = some [(Ex.W, 0), (Ex.Z, 1)] := by decide +kernel
  cases he : State.setEvidences Ex.rev id [0, 1] (Ex.crf Ex.backwards Ex.twoObs true).state with
  | throw t => rw [he] at hx; cases hx
  | ub => rw [he] at hx; cases hx
  | ok t u =>
    rw [he] at hx
    have hx := Option.some.inj hx
    refine ⟨_, Ex.rev, id, t, .made hm, Ex.rev_perm, fun l => .refl l, by decide +kernel, he, ?_, ?_⟩
    · rw [hx]; simp
    · rw [hx]; simp

/-- C44 is violated by an isolated observed variable: the source is admissible and the constructor throws. -/
theorem C44_isolated_violated : ∃ s : State (Ext ℚ), Reach anyOp s ∧ s.Admissible ∧ s.Named ∧ s.evidences = [(Ex.D, 1)] ∧
    Crf.make Ex.backwards s true = .throw := by
  have hx : (match Crf.make Ex.backwards (Ex.step (.setEvidence Ex.rev Ex.D 1) Ex.isolated) true with
    | .throw => true | _ => false) = true := by decide +kernel
  have hev : (Ex.step (.setEvidence Ex.rev Ex.D 1) Ex.isolated).evidences = [(Ex.D, 1)] := by decide +kernel
  have htn : (Ex.step (.setEvidence Ex.rev Ex.D 1) Ex.isolated).tunables = [] := by decide +kernel
  refine ⟨Ex.step (.setEvidence Ex.rev Ex.D 1) Ex.isolated,
    Ex.step_reach Ex.isolated_reach ⟨Ex.rev_perm, trivial⟩ trivial rfl, ⟨?_, ?_⟩, Ex.named_of (by decide +kernel), hev, ?_⟩
  · rw [hev]; simp
  · rw [htn]; intro p hp; cases hp
  · cases he : Crf.make Ex.backwards (Ex.step (.setEvidence Ex.rev Ex.D 1) Ex.isolated) true with
    | throw => rfl
    | ok c => rw [he] at hx; cases hx
    | ub => rw [he] at hx; cases hx

namespace Ex

/-- The containers are visited in the order of insertion. -/
def forwards : VisitOrder := ⟨rev, id, id⟩

theorem forwards_perms : forwards.Perms := ⟨rev_perm, fun l => .refl l, fun l => .refl l⟩

/-- A variable with the name of X and another size. -/
def X3 : Var := ⟨14, "X", 3⟩

/-- Factors on X and Y, and on Y and the other X. -/
def heapN : Heap (Ext ℚ) := [bin X Y 1 2 3 4, Fn.ofGroup ⟨[Y, X3], [Y, X3]⟩]

theorem heapN_reach : ∀ f ∈ heapN, FactorReach f := by
  intro f hf
  simp only [heapN, List.mem_cons, List.not_mem_nil, or_false] at hf
  rcases hf with rfl | rfl
  · exact build_reach (.soup (vars := [X, Y]) (by decide)) (by decide) _
  · exact .group (.soup (vars := [Y, X3]) (by decide)) (by decide)

/-- The path X - Y - X' with X' observed. -/
def names (k : Nat) : State (Ext ℚ) := (runActs [.add 0, .add 1, .observe X3 k] (State.initial heapN)).1

theorem names_reach (k : Nat) : Reach anyOp (names k) := runActs_any _ (.init heapN_reach)

end Ex

/-- C44 is violated when two variables have the same name and different sizes: the evidence of one of them goes to
the other in the conditional random field, or the constructor throws although the source is admissible. -/
theorem C44_names_violated : Ex.forwards.Perms ∧
    (∃ (s : State (Ext ℚ)) (c : Crf (Ext ℚ)), Reach anyOp s ∧ Crf.make Ex.forwards s true = .ok c ∧
      s.evidences = [(Ex.X3, 1)] ∧ c.state.evidences = [(Ex.X, 1)]) ∧
    (∃ s : State (Ext ℚ), Reach anyOp s ∧ s.Admissible ∧ s.evidences = [(Ex.X3, 2)] ∧
      Crf.make Ex.forwards s true = .throw) := by
  refine ⟨⟨Ex.rev_perm, fun l => .refl l, fun l => .refl l⟩, ?_, ?_⟩
  · have hm : Crf.make Ex.forwards (Ex.names 1) true = .ok (Ex.crf Ex.forwards (Ex.names 1) true) :=
      Ex.crf_made (by decide +kernel)
    exact ⟨Ex.names 1, _, Ex.names_reach 1, hm, by decide +kernel, by decide +kernel⟩
  · have hx : (match Crf.make Ex.forwards (Ex.names 2) true with | .throw => true | _ => false) = true := by decide +kernel
    have hev : (Ex.names 2).evidences = [(Ex.X3, 2)] := by decide +kernel
    have htn : (Ex.names 2).tunables = [] := by decide +kernel
    refine ⟨Ex.names 2, Ex.names_reach 2, ⟨?_, ?_⟩, hev, ?_⟩
    · rw [hev]; simp
    · rw [htn]; intro p hp; cases hp
    · cases he : Crf.make Ex.forwards (Ex.names 2) true with
      | throw => rfl
      | ok c => rw [he] at hx; cases hx
      | ub => rw [he] at hx; cases hx

/-- C45 is violated when the order of the observed variables is not that of the map of the evidences: the values of
a variable are given to another one with fewer values and the program throws. -/
theorem C45_order_violated : ∃ (c : Crf (Ext ℚ)) (obsOrder visit : List Var → List Var) (s' : State (Ext ℚ)),
    CrfReach (fun _ _ => True) Ex.twoObs Ex.backwards true c ∧ (∀ l, (obsOrder l).Perm l) ∧ (∀ l, (visit l).Perm l) ∧
    State.makeTrainSet Ex.rev visit obsOrder (fun _ => none) (fun _ => Ex.coin) Ex.five (.val 1) 1 c.state = .throw s' := by
  have hm : Crf.make Ex.backwards Ex.twoObs true = .ok (Ex.crf Ex.backwards Ex.twoObs true) := Ex.crf_made (by decide +kernel)
  have hx : (match State.makeTrainSet Ex.rev Ex.rev id (fun _ => none) (fun _ => Ex.coin) Ex.five (.val 1) 1
      (Ex.crf Ex.backwards Ex.twoObs true).state with
    | .throw s' => true
    | _ => false) = true := by decide +kernel
  cases he : State.makeTrainSet Ex.rev Ex.rev id (fun _ => none) (fun _ => Ex.coin) Ex.five (.val 1) 1
      (Ex.crf Ex.backwards Ex.twoObs true).state with
  | throw t => exact ⟨_, id, Ex.rev, t, .made hm, fun l => .refl l, Ex.rev_perm, he⟩
  | ub => rw [he] at hx; cases hx
  | ok t u => rw [he] at hx; cases hx

/-- With the two orders equal the same call succeeds, with five samples for each of the six combinations. -/
example : ∃ c, CrfReach (fun _ _ => True) Ex.twoObs Ex.backwards true c ∧ c.state.pool.isSome ∧
    (match State.makeTrainSet Ex.rev id id (fun _ => none) (fun _ => Ex.coin) Ex.five (.val 1) 1 c.state with
      | .ok _ l => l.length
      | _ => 0) = 30 := by
  have hm : Crf.make Ex.backwards Ex.twoObs true = .ok (Ex.crf Ex.backwards Ex.twoObs true) := Ex.crf_made (by decide +kernel)
  exact ⟨_, .made hm, by decide +kernel, by decide +kernel⟩

/-- The hypotheses of `C45_some_partial` and of `C45_small_violated`: half of the six combinations, and a tenth of
them. -/
example : IsFloor (K := ℚ) (fun x => match x with | .val q => some ⌊q⌋₊ | .nan => none) ∧
    (((Ex.crf Ex.backwards Ex.twoObs true).state.evidences.map Prod.fst).map Var.size).prod = 6 ∧
    (((3 : Nat) : ℚ) ≤ (6 : Nat) * (1 / 2) ∧ ((6 : Nat) : ℚ) * (1 / 2) < (3 : Nat) + 1) ∧ ((6 : Nat) : ℚ) * (1 / 10) < 1 := by
  refine ⟨?_, by decide +kernel, by norm_num, by norm_num⟩
  intro x n h1 h2
  show some ⌊x⌋₊ = some n
  rw [Option.some.injEq, Nat.floor_eq_iff ((Nat.cast_nonneg n).trans h1)]
  exact ⟨h1, h2⟩

end EFG
