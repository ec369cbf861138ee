import Verif.Props.Factor
/-
Properties of the operations building factors from factors: C09 to C13, the witness for C07, and
concrete cases for C04 to C13.
-/

namespace EFG

/-! ### C09 -/

/-- Equal variables of the given factors are the same instance. -/
def SameInstances {F : Type u} (fs : List (Fn F)) : Prop :=
  ∀ f ∈ fs, ∀ v ∈ f.vars.group, ∀ f' ∈ fs, ∀ w ∈ f'.vars.group,
    v.name = w.name ∧ v.size = w.size → v = w

theorem sameInstances_iff {F : Type u} {fs : List (Fn F)} : SameInstances fs ↔
    ∀ v ∈ fs.flatMap (fun f => f.vars.group),
      ∀ w ∈ fs.flatMap (fun f => f.vars.group), v.eqv w = true → v = w := by
  simp only [SameInstances, List.mem_flatMap, Var.eqv_iff]
  constructor
  · rintro h v ⟨f, hf, hv⟩ w ⟨f', hf', hw⟩ he
    exact h f hf v hv f' hf' w hw he
  · intro h f hf v hv f' hf' w hw he
    exact h v ⟨f, hf, hv⟩ w ⟨f', hf', hw⟩ he

section
variable {K : Type u} [Field K] [LinearOrder K] [FloatParams K]

/-- C09: merging factors gives a factor over the union of their variables whose image at every
assignment is the product of their images, whatever the order `ord` in which the set of the variables
is iterated. -/
theorem C09_merge {ord : List Var → List Var} (hord : ∀ l, (ord l).Perm l)
    {fs : List (Fn (Ext K))} (hne : fs ≠ []) (hr : ∀ f ∈ fs, FactorReach f)
    (hsame : SameInstances fs) (value : Fn (Ext K) → Assign → K)
    (hval : ∀ f ∈ fs, ∀ a, InDom f.vars.group a →
      f.findTransformed (f.vars.group.map a) = .ok (.val (value f a))) :
    ∃ m, Fn.merge ord fs = .ok m ∧ Distinct m.vars.group ∧
      (∀ v, v ∈ m.vars.group ↔ ∃ f ∈ fs, v ∈ f.vars.group) ∧
      ∀ a, InDom m.vars.group a →
        m.findTransformed (m.vars.group.map a) = .ok (.val ((fs.map (fun f => value f a)).prod)) := by
  have hwf := fun f hf => factorReach_wf (hr f hf)
  have htimg : ∀ f ∈ fs, ∀ a, InDom f.vars.group a →
      f.timg (f.vars.group.map a) = .val (value f a) := by
    intro f hf a ha
    have := hval f hf a ha
    rw [(hwf f hf).findTransformed ((hwf f hf).valid_map.2 ha)] at this
    simpa using this
  obtain ⟨m, h1, h2, _, h4, h5⟩ := Fn.merge_ok hord hne hwf (sameInstances_iff.1 hsame) (by
    intro f hf q hq
    rw [(hwf f hf).sizes'] at hq
    obtain ⟨a, ha, rfl⟩ := exists_assign (hwf f hf).nodup hq
    rw [htimg f hf a ha]
    exact Ext.isVal_val _)
  refine ⟨m, h1, h2.group.distinct, h4, ?_⟩
  intro a ha
  rw [h2.findTransformed (h2.valid_map.2 ha), h5 a ha]
  congr 3
  apply List.map_congr_left
  intro f hf
  rw [htimg f hf a (fun v hv => ha v ((h4 v).2 ⟨f, hf, hv⟩))]
  rfl

/-- C09: as functions of the assignments, two merges of the same factors, given in any order and with
any iteration order of the variables, agree. -/
theorem C09_order {ord ord' : List Var → List Var} (hord : ∀ l, (ord l).Perm l)
    (hord' : ∀ l, (ord' l).Perm l) {fs fs' : List (Fn (Ext K))} (hp : fs.Perm fs') (hne : fs ≠ [])
    (hr : ∀ f ∈ fs, FactorReach f)
    (hsame : SameInstances fs)
    (hval : ∀ f ∈ fs, ∀ a, InDom f.vars.group a →
      ∃ x, f.findTransformed (f.vars.group.map a) = .ok (.val x)) :
    ∃ m m', Fn.merge ord fs = .ok m ∧ Fn.merge ord' fs' = .ok m' ∧ m.vars.group.Perm m'.vars.group ∧
      ∀ a, InDom m.vars.group a → m.findTransformed (m.vars.group.map a) =
        m'.findTransformed (m'.vars.group.map a) := by
  let value : Fn (Ext K) → Assign → K := fun f a =>
    match f.findTransformed (f.vars.group.map a) with
    | .ok x => x.toK
    | _ => 0
  have hv : ∀ f ∈ fs, ∀ a, InDom f.vars.group a →
      f.findTransformed (f.vars.group.map a) = .ok (.val (value f a)) := by
    intro f hf a ha
    obtain ⟨x, hx⟩ := hval f hf a ha
    simp only [value, hx, Ext.toK_val]
  obtain ⟨m, h1, h2, h3, h4⟩ := C09_merge hord hne hr hsame value hv
  obtain ⟨m', h1', h2', h3', h4'⟩ := C09_merge hord' (fs := fs')
    (by intro h; exact hne (by rw [h] at hp; exact hp.eq_nil))
    (fun f hf => hr f (hp.mem_iff.2 hf))
    (by
      intro f hf v hv f' hf' w hw
      exact hsame f (hp.mem_iff.2 hf) v hv f' (hp.mem_iff.2 hf') w hw) value
    (fun f hf => hv f (hp.mem_iff.2 hf))
  have hmem : ∀ v, v ∈ m.vars.group ↔ v ∈ m'.vars.group := by
    intro v
    rw [h3, h3']
    constructor
    · rintro ⟨f, hf, hv⟩; exact ⟨f, hp.mem_iff.1 hf, hv⟩
    · rintro ⟨f, hf, hv⟩; exact ⟨f, hp.mem_iff.2 hf, hv⟩
  refine ⟨m, m', h1, h1', (List.perm_ext_iff_of_nodup h2.nodup h2'.nodup).2 hmem, ?_⟩
  intro a ha
  rw [h4 a ha, h4' a (fun v hv => ha v ((hmem v).2 hv))]
  congr 2
  exact (hp.map _).prod_eq

end

section
variable {F : Type u} [Arith F]

/-- C09: merging throws when equal variables come as different instances. -/
theorem C09_throws_instances (ord : List Var → List Var) {fs : List (Fn F)}
    (h : ¬ SameInstances fs) : Fn.merge ord fs = .throw := by
  unfold Fn.merge
  rw [Fn.gatherVariables_throw ord fs (by rw [← sameInstances_iff]; exact h)]

/-- C09: merging no factor throws. -/
theorem C09_throws_empty {ord : List Var → List Var} (hord : ∀ l, (ord l).Perm l) :
    Fn.merge ord ([] : List (Fn F)) = .throw := by
  unfold Fn.merge Fn.gatherVariables
  simp only [List.flatMap_nil, Fn.gatherSet]
  have : ord [] = [] := (hord []).eq_nil
  rw [this]
  rfl

/-- The correlation of A and B. -/
def _root_.EFG.Ex.cAB : Fn (Ext ℚ) :=
  { Fn.ofGroup Ex.gAB with data := .sparse [([0, 0], .val 1), ([1, 1], .val 1)] }

theorem _root_.EFG.Ex.cAB_reach : FactorReach Ex.cAB :=
  .correlated Ex.gAB_reach Ex.gAB_wf (by rfl)

/-- A concrete case: the factor over A merged with a correlation of A and B. -/
example : FactorReach Ex.fA ∧ FactorReach Ex.cAB ∧
    (match Fn.merge id [Ex.fA, Ex.cAB] with
      | .ok m => some (m.vars.group, [[0, 0], [1, 1], [0, 1]].map m.findTransformed)
      | _ => none) = some ([Ex.A, Ex.B], [.ok (.val 3), .ok (.val 4), .ok (.val 0)]) :=
  ⟨Ex.fA_reach, Ex.cAB_reach, by decide +kernel⟩

/-! ### C10 -/

/-- C10: permuting the group of a factor keeps the image of every assignment. -/
theorem C10_permuted {f : Fn F} (hf : FactorReach f) {g : Group} (hg : GroupReach g)
    (hp : g.group.Perm f.vars.group) :
    ∃ f', f.cloneWithPermutedGroup g = .ok f' ∧ f'.vars.group = g.group ∧
      ∀ a, InDom f.vars.group a →
        f'.findTransformed (g.group.map a) = f.findImage (f.vars.group.map a) := by
  have hw := factorReach_wf hf
  obtain ⟨f', h1, h2, h3, h4, h5⟩ := hw.cloneWithPermutedGroup (groupReach_wf hg) hp
  refine ⟨f', h1, by rw [h3], ?_⟩
  intro a ha
  have hv : Valid f'.sizes (g.group.map a) := by
    rw [h2.sizes', h3]
    exact valid_map_iff.2 (fun v hv => ha v (hp.mem_iff.1 hv))
  rw [hw.findImage (hw.valid_map.2 ha), h2.findTransformed hv, Fn.timg_plain h4, h5 a ha]

/-- C10: it throws exactly when the new group is not a permutation of the variables of the factor. -/
theorem C10_throws {f : Fn F} (hf : FactorReach f) {g : Group} (hg : GroupReach g) :
    f.cloneWithPermutedGroup g = .throw ↔ ¬ g.group.Perm f.vars.group := by
  constructor
  · intro h hp
    obtain ⟨f', h1, _⟩ := C10_permuted hf hg hp
    rw [h1] at h; cases h
  · exact Fn.cloneWithPermutedGroup_throw (factorReach_wf hf) (groupReach_wf hg)

/-- The factor over A and B with images 1, 2 at (0,1), (1,0). -/
def _root_.EFG.Ex.fAB : Fn (Ext ℚ) :=
  { Fn.ofGroup Ex.gAB with data := .sparse [([0, 1], .val 1), ([1, 0], .val 2)] }

theorem _root_.EFG.Ex.fAB_reach : FactorReach Ex.fAB := by
  have h0 : FactorReach (Fn.ofGroup Ex.gAB : Fn (Ext ℚ)) := .group Ex.gAB_reach Ex.gAB_wf
  have h1 := FactorReach.mutate (op := .set [0, 1] (.val 1)) h0 (by rfl)
  exact FactorReach.mutate (op := .set [1, 0] (.val 2)) h1 (by rfl)

example : Ex.gBA.group.Perm Ex.fAB.vars.group ∧ ∃ f', Ex.fAB.cloneWithPermutedGroup Ex.gBA = .ok f' ∧
    f'.findImage [1, 0] = .ok (.val 1) ∧ f'.findImage [0, 1] = .ok (.val 2) :=
  ⟨by decide, _, rfl, by decide, by decide⟩
example : Ex.fAB.cloneWithPermutedGroup Ex.gBC = .throw := by rfl

/-! ### C11 -/

/-- C11: the simply correlated factor. -/
theorem C11_correlated {g : Group} (hg : GroupReach g) (hv : ∀ v ∈ g.group, v.WF)
    (hlen : 2 ≤ g.group.length) (hs : ∀ v ∈ g.group, ∀ w ∈ g.group, v.size = w.size) :
    ∃ f : Fn F, Fn.correlated g = .ok f ∧ f.vars = g ∧
      ∀ q, Valid (g.group.map Var.size) q → f.findTransformed q =
        .ok (if (∀ i ∈ q, ∀ j ∈ q, i = j) then Arith.one else Arith.zero) := by
  obtain ⟨f, h1, h2, h3, h4, h5⟩ := Fn.correlated_ok (F := F) (groupReach_wf hg)
    (fun v h => (hv v h).2) hs (by omega)
  refine ⟨f, h1, h3, ?_⟩
  intro q hq
  have hq' : Valid f.sizes q := by rw [h2.sizes', h3]; exact hq
  rw [h2.findTransformed hq', Fn.timg_plain h4, h5 q hq']

/-- C11: the simply anti-correlated factor. -/
theorem C11_antiCorrelated {g : Group} (hg : GroupReach g) (hv : ∀ v ∈ g.group, v.WF)
    (hlen : 2 ≤ g.group.length) (hs : ∀ v ∈ g.group, ∀ w ∈ g.group, v.size = w.size) :
    ∃ f : Fn F, Fn.antiCorrelated g = .ok f ∧ f.vars = g ∧
      ∀ q, Valid (g.group.map Var.size) q → f.findTransformed q =
        .ok (if (∀ i ∈ q, ∀ j ∈ q, i = j) then Arith.zero else Arith.one) := by
  obtain ⟨f, h1, h2, h3, h4, h5⟩ := Fn.antiCorrelated_ok (F := F) (groupReach_wf hg)
    (fun v h => (hv v h).2) hs (by omega)
  refine ⟨f, h1, h3, ?_⟩
  intro q hq
  have hq' : Valid f.sizes q := by rw [h2.sizes', h3]; exact hq
  rw [h2.findTransformed hq', Fn.timg_plain h4, h5 q hq']

/-- C11: both constructors throw for a single variable or for different sizes. -/
theorem C11_throws {g : Group} (hg : GroupReach g)
    (h : g.group.length = 1 ∨ ¬ ∀ v ∈ g.group, ∀ w ∈ g.group, v.size = w.size) :
    Fn.correlated (F := F) g = .throw ∧ Fn.antiCorrelated (F := F) g = .throw := by
  have hne := (groupReach_wf hg).ne
  unfold Fn.correlated Fn.antiCorrelated
  rw [Fn.checkAllSameSize_eq hne]
  by_cases hl : g.group.length = 1
  · constructor
    · split <;> simp_all
      all_goals split at * <;> simp_all
    · simp [hl]
  · have hs := h.resolve_left hl
    rw [if_neg hs]
    simp [hl]

example : 2 ≤ Ex.gAB.group.length ∧ (∀ v ∈ Ex.gAB.group, ∀ w ∈ Ex.gAB.group, v.size = w.size) ∧
    ∃ f : Fn (Ext ℚ), Fn.antiCorrelated Ex.gAB = .ok f ∧ f.findTransformed [1, 0] = .ok (.val 1) ∧
      f.findTransformed [1, 1] = .ok (.val 0) :=
  ⟨by decide, by decide, _, rfl, by decide, by decide⟩
example : Fn.correlated (F := Ext ℚ) Ex.gBC = .throw ∧ Fn.antiCorrelated (F := Ext ℚ) Ex.gA = .throw :=
  ⟨rfl, rfl⟩

/-! ### C12 -/

/-- C12: a `FactorExponential` evaluates to `exp(w * raw image)` and keeps the raw images. -/
theorem C12_exponential {f : Fn F} (hf : FactorReach f) (w : F) :
    ∃ e, f.exponential w = .ok e ∧ e.vars = f.vars ∧ e.weight = some w ∧
      ∀ q, Valid (f.vars.group.map Var.size) q → ∃ x, f.findImage q = .ok x ∧
        e.findImage q = .ok x ∧ e.findTransformed q = .ok (Arith.exp (Arith.mul w x)) := by
  have hw := factorReach_wf hf
  rw [← hw.sizes']
  obtain ⟨e, h1, h2, h3, h4, h5, h6⟩ := hw.exponential w
  refine ⟨e, h1, h3, h5, ?_⟩
  intro q hq
  have hq' : Valid e.sizes q := by rw [h4]; exact hq
  exact ⟨f.img q, hw.findImage hq, by rw [h2.findImage hq', h6 q hq],
    by rw [h2.findTransformed hq', Fn.timg_exp h5, h6 q hq]⟩

/-- C12: `setWeight` changes only the weight. -/
theorem C12_setWeight {e : Fn F} (he : FactorReach e) (w : F) :
    (e.setWeight w).weight = some w ∧ (e.setWeight w).vars = e.vars ∧
      ∀ q, Valid (e.vars.group.map Var.size) q → ∃ x, e.findImage q = .ok x ∧
        (e.setWeight w).findImage q = .ok x ∧
        (e.setWeight w).findTransformed q = .ok (Arith.exp (Arith.mul w x)) := by
  have hw := factorReach_wf he
  rw [← hw.sizes']
  refine ⟨rfl, rfl, ?_⟩
  intro q hq
  refine ⟨e.img q, hw.findImage hq, (hw.setWeight w).findImage hq, ?_⟩
  rw [(hw.setWeight w).findTransformed hq, Fn.timg_exp (w := w) rfl]
  rfl

/-- C12: copying an exponential factor copies raw images and weight. -/
theorem C12_copy {e : Fn F} (he : FactorReach e) {w : F} (hwt : e.weight = some w) :
    ∃ c, e.copyExponential = .ok c ∧ c.vars = e.vars ∧ c.weight = some w ∧
      ∀ q, Valid (e.vars.group.map Var.size) q → c.findImage q = e.findImage q ∧
        c.findTransformed q = e.findTransformed q := by
  have hw := factorReach_wf he
  rw [← hw.sizes']
  obtain ⟨c, h1, h2, h3, h4, h5, h6⟩ := hw.exponential w
  refine ⟨c, by simp [Fn.copyExponential, hwt, h1], h3, h5, ?_⟩
  intro q hq
  have hq' : Valid c.sizes q := by rw [h4]; exact hq
  rw [h2.findImage hq', hw.findImage hq, h6 q hq, h2.findTransformed hq', hw.findTransformed hq,
    Fn.timg_exp h5, Fn.timg_exp hwt, h6 q hq]
  exact ⟨rfl, rfl⟩

/-- C12: the clone with transformed images is a plain factor holding the transformed images. -/
theorem C12_cloneTransformed {f : Fn F} (hf : FactorReach f) :
    ∃ c, f.cloneTransformed = .ok c ∧ c.vars = f.vars ∧ c.weight = none ∧
      ∀ q, Valid (f.vars.group.map Var.size) q → c.findImage q = f.findTransformed q ∧
        c.findTransformed q = f.findTransformed q := by
  have hw := factorReach_wf hf
  rw [← hw.sizes']
  obtain ⟨c, h1, h2, h3, h4, h5, h6⟩ := hw.cloneTransformed
  refine ⟨c, h1, h3, h5, ?_⟩
  intro q hq
  have hq' : Valid c.sizes q := by rw [h4]; exact hq
  rw [h2.findImage hq', h2.findTransformed hq', hw.findTransformed hq, Fn.timg_plain h5, h6 q hq]
  exact ⟨rfl, rfl⟩

/-- C12: the mutations which are not `setWeight` keep the weight, accepted or refused, and afterwards
every image is still the exponential of the weight times the raw image. -/
theorem C12_mutations {e e' : Fn F} (he : FactorReach e) {w : F} (hwt : e.weight = some w)
    {op : Heap.Op F} (hop : ∀ v, op ≠ .setWeight v)
    (h : Heap.applyOp op e = .ok e' () ∨ Heap.applyOp op e = .throw e') :
    e'.weight = some w ∧ ∀ q, Valid (e'.vars.group.map Var.size) q → ∃ x, e'.findImage q = .ok x ∧
      e'.findTransformed q = .ok (Arith.exp (Arith.mul w x)) := by
  have hw := factorReach_wf he
  have hr : FactorReach e' := by
    rcases h with h | h
    · exact .mutate he h
    · exact .mutateThrow he h
  have hw' := factorReach_wf hr
  have hwt' : e'.weight = some w := by
    rw [← hwt]
    cases op with
    | set comb x =>
      simp only [Heap.applyOp] at h
      rcases hw.mutableSet comb x with ⟨f', e1, _, _, _, _, _, e7, _⟩ | ⟨e1, _⟩
      · rw [e1] at h
        rcases h with h | h
        · cases h; exact e7
        · cases h
      · rw [e1] at h
        rcases h with h | h
        · cases h
        · cases h; rfl
    | clear =>
      simp only [Heap.applyOp] at h
      rcases h with h | h
      · cases h; rfl
      · cases h
    | replaceVariables vars =>
      simp only [Heap.applyOp] at h
      rcases h with h | h
      · exact (hw.replace h).2.2.2.2
      · rw [Fn.replaceVariables_throw h]
    | setWeight v => exact absurd rfl (hop v)
  refine ⟨hwt', fun q hq => ?_⟩
  rw [← hw'.sizes'] at hq
  exact ⟨e'.img q, hw'.findImage hq, by rw [hw'.findTransformed hq, Fn.timg_exp hwt']⟩

/-- After `clear` the raw image is 0, and the image `1 + (2·0)² = 1` in place of 65. -/
example : ∃ e, Ex.fA.exponential (.val 2) = .ok e ∧ e.clear.weight = some (.val 2) ∧
    e.clear.findImage [1] = .ok (.val 0) ∧ e.clear.findTransformed [1] = .ok (.val 1) :=
  ⟨_, rfl, rfl, by decide +kernel, by decide +kernel⟩

/-- With `1 + x²` standing for the exponential: 1 + (2·4)² = 65, and 1 + (1·4)² = 17. -/
example : ∃ e c, Ex.fA.exponential (.val 2) = .ok e ∧ e.findTransformed [1] = .ok (.val 65) ∧
    (e.setWeight (.val 1)).findTransformed [1] = .ok (.val 17) ∧
    e.copyExponential = .ok c ∧ c.findTransformed [1] = .ok (.val 65) :=
  ⟨_, _, rfl, by decide +kernel, by decide +kernel, rfl, by decide +kernel⟩

/-! ### C13 -/

/-- Mutations called one after the other, exceptions caught, each on the factor holding the given
pointer. -/
def runOps (h : Heap F) (ops : List (Nat × Heap.Op F)) : Res (Heap F) :=
  Res.foldList (fun h (o : Nat × Heap.Op F) => match Heap.mutate o.1 o.2 h with
    | .ok h' _ => .ok h'
    | .throw h' => .ok h'
    | .ub => .ub) h ops

/-- The same on a single function. -/
def runOn (f : Fn F) (ops : List (Heap.Op F)) : Res (Fn F) :=
  Res.foldList (fun f o => match Heap.applyOp o f with
    | .ok f' _ => .ok f'
    | .throw f' => .ok f'
    | .ub => .ub) f ops

/-- What happens to the function at `p` only depends on the mutations called on `p`. -/
theorem runOps_get {h h' : Heap F} {ops : List (Nat × Heap.Op F)} (hr : runOps h ops = .ok h')
    (p : Nat) (f : Fn F) (hp : h[p]? = some f) :
    ∃ f', h'[p]? = some f' ∧
      runOn f ((ops.filter (fun o => o.1 = p)).map Prod.snd) = .ok f' := by
  induction ops generalizing h f with
  | nil => cases hr; exact ⟨f, hp, rfl⟩
  | cons o ops ih =>
    unfold runOps at hr
    simp only [Res.foldList, Heap.mutate] at hr
    cases hq : h[o.1]? with
    | none => simp [hq] at hr
    | some fq =>
      simp only [hq] at hr
      -- the function after the step
      have key : ∀ fq', (match Heap.applyOp o.2 fq with
          | .ok f' _ => Res.ok f'
          | .throw f' => .ok f'
          | .ub => .ub) = .ok fq' → runOps (h.set o.1 fq') ops = .ok h' →
          ∃ f', h'[p]? = some f' ∧
            runOn f (((o :: ops).filter (fun o => o.1 = p)).map Prod.snd) = .ok f' := by
        intro fq' hfq' hrun
        by_cases hop : o.1 = p
        · have hf : fq = f := by
            rw [hop, hp] at hq
            exact (Option.some.inj hq).symm
          subst hf
          have hlt : o.1 < h.length := by
            rw [List.getElem?_eq_some_iff] at hq
            exact hq.1
          obtain ⟨f', e1, e2⟩ := ih hrun fq' (by rw [← hop]; simp [hlt])
          refine ⟨f', e1, ?_⟩
          rw [List.filter_cons_of_pos (by simpa using hop), List.map_cons]
          unfold runOn
          rw [Res.foldList_cons_ok (b' := fq') hfq']
          exact e2
        · obtain ⟨f', e1, e2⟩ := ih hrun f (by rw [List.getElem?_set_ne hop]; exact hp)
          refine ⟨f', e1, ?_⟩
          rw [List.filter_cons_of_neg (by simpa using hop)]
          exact e2
      cases ha : Heap.applyOp o.2 fq with
      | ok fq' u =>
        simp only [ha] at hr
        exact key fq' (by rw [ha]) hr
      | throw fq' =>
        simp only [ha] at hr
        exact key fq' (by rw [ha]) hr
      | ub => simp [ha] at hr

/-- C13: a copy has the same variables and images as the original. -/
theorem C13_copy_same {h : Heap F} {p : Nat} {f : Fn F} (hf : FactorReach f)
    (hp : h[p]? = some f) :
    ∃ h' j c, Heap.copyFactor p h = .ok h' j ∧ h'[j]? = some c ∧ h'[p]? = some f ∧ j ≠ p ∧
      c.vars = f.vars ∧ c.weight = none ∧
      ∀ q, Valid (f.vars.group.map Var.size) q → c.findImage q = f.findImage q := by
  have hw := factorReach_wf hf
  have hlt : p < h.length := (List.getElem?_eq_some_iff.1 hp).1
  refine ⟨h ++ [f.copy], h.length, f.copy, by simp [Heap.copyFactor, hp], by simp,
    by rw [List.getElem?_append_left hlt]; exact hp, by omega, rfl, rfl, ?_⟩
  intro q hq
  rw [← hw.sizes'] at hq
  rw [hw.findImage hq, hw.copy.findImage (by rw [hw.copy_sizes]; exact hq), hw.copy_img]

/-- C13: after copying, any later sequence of mutations of the two factors (interleaved in any way)
leaves each of them as if the mutations of the other one had not been called. -/
theorem C13_copy_independent {h h' h'' : Heap F} {p j : Nat} {f : Fn F} (hp : h[p]? = some f)
    (hc : Heap.copyFactor p h = .ok h' j) (ops : List (Nat × Heap.Op F))
    (hr : runOps h' ops = .ok h'') :
    ∃ f1 f2, h''[p]? = some f1 ∧ h''[j]? = some f2 ∧ j ≠ p ∧
      runOn f ((ops.filter (fun o => o.1 = p)).map Prod.snd) = .ok f1 ∧
      runOn f.copy ((ops.filter (fun o => o.1 = j)).map Prod.snd) = .ok f2 := by
  have hlt : p < h.length := (List.getElem?_eq_some_iff.1 hp).1
  unfold Heap.copyFactor at hc
  rw [hp] at hc
  simp only [Out.ok.injEq] at hc
  obtain ⟨rfl, rfl⟩ := hc
  obtain ⟨f1, a1, a2⟩ := runOps_get hr p f (by rw [List.getElem?_append_left hlt]; exact hp)
  obtain ⟨f2, b1, b2⟩ := runOps_get hr h.length f.copy (by simp)
  exact ⟨f1, f2, a1, b1, by omega, a2, b2⟩

/-- A concrete case: the original is cleared, the copy is written. -/
example : ∃ h' h'' f2, Heap.copyFactor 0 [Ex.fA] = .ok h' 1 ∧
    runOps h' [(0, .clear), (1, .set [0] (.val 9))] = .ok h'' ∧
    h''[1]? = some f2 ∧ f2.findImage [0] = .ok (.val 9) ∧ f2.findImage [1] = .ok (.val 4) :=
  ⟨_, _, _, rfl, rfl, rfl, by decide, by decide⟩

end

end EFG
