import Verif.Spec.Sign
import Verif.Lemmas.SignState
import Verif.Model.Rounded
import Verif.Lemmas.Nan
import Verif.Props.Loopy
import Verif.Props.Rounding
/-
C71: what the queries return is a probability distribution on every graph, also where the answers are approximate.
-/

set_option linter.unusedSectionVars false

namespace EFG

section
variable {F : Type} [Arith F] [Arith.Signed F]

/-- The answer is the list of the probabilities of a function without negative images, or an indicator. -/
theorem State.getMarginal_shape {allowed : State F → GOp F → Prop} {s s' : State F} (h : Reach allowed s)
    {ord : List Var → List Var} {sched : Sched} {v : Var} {n : Nat} {ps : List F}
    (hq : State.getMarginal ord sched v n s = .ok s' ps) :
    (∃ f : Fn F, f.NotNeg ∧ f.probabilities = .ok ps) ∨
    ∃ m k, k < m ∧ ps = (List.replicate m Arith.zero).set k Arith.one := by
  unfold State.getMarginal State.marginalQuery at hq
  have h1 := State.safe_checkPropagation (F := F) ord sched .sum n s
  cases hc : State.checkPropagation ord sched .sum n s with
  | throw s1 => rw [hc] at hq; cases hq
  | ub => rw [hc] at hq; cases hq
  | ok s1 u =>
    rw [hc] at hq h1
    have h2 : s1.NotNeg := h1 (reach_notNeg h)
    simp only at hq
    cases hl : s1.locate v with
    | none => rw [hl] at hq; cases hq
    | some e =>
      obtain ⟨node, loc⟩ := e
      rw [hl] at hq
      simp only at hq
      unfold State.lift at hq
      beta_reduce at hq
      cases hm : State.marginalAt ord s1 node loc with
      | throw => rw [hm] at hq; cases hq
      | ub => rw [hm] at hq; cases hq
      | ok x =>
        rw [hm] at hq
        cases hq
        cases loc with
        | hidden i =>
          left
          unfold State.marginalAt State.belief at hm
          simp only at hm
          cases hn : s'.node? node with
          | none => rw [hn] at hm; cases hm
          | some nd =>
            rw [hn] at hm
            simp only at hm
            cases hg : State.gatherIncoming ord nd with
            | throw => rw [hg] at hm; cases hm
            | ub => rw [hg] at hm; cases hm
            | ok f =>
              rw [hg] at hm
              refine ⟨f, ?_, hm⟩
              unfold State.gatherIncoming at hg
              cases hmg : nd.merged with
              | none => rw [hmg] at hg; cases hg
              | some m =>
                rw [hmg] at hg
                simp only at hg
                cases hms : Res.mapList (State.activeMessage nd) (ord (AMap.keys nd.active)) with
                | throw => rw [hms] at hg; cases hg
                | ub => rw [hms] at hg; cases hg
                | ok ms =>
                  rw [hms] at hg
                  refine Fn.notNeg_mergedUnaries (fun g hgm => ?_) hg
                  rcases List.mem_cons.mp hgm with h3 | h3
                  · rw [h3]; exact (h2.node hn).merged _ hmg
                  · refine Fn.mapList_all Fn.NotNeg (fun w _ b hb => ?_) hms g h3
                    unfold State.activeMessage at hb
                    cases hf : AMap.find? nd.active w with
                    | none => rw [hf] at hb; cases hb
                    | some c =>
                      rw [hf] at hb
                      simp only at hb
                      cases hcm : c.message with
                      | none => rw [hcm] at hb; cases hb
                      | some m' =>
                        rw [hcm] at hb
                        cases hb
                        exact (h2.node hn).active _ (AMap.mem_of_find? hf) _ hcm
        | observed k =>
          right
          unfold State.marginalAt at hm
          simp only at hm
          cases hf : AMap.find? s'.evidences k with
          | none => rw [hf] at hm; cases hm
          | some value =>
            rw [hf] at hm
            simp only at hm
            unfold Fn.vecSet at hm
            split at hm
            · rename_i hlt
              cases hm
              exact ⟨node.size, value, by simpa using hlt, rfl⟩
            · cases hm

/-- C71: on any arithmetic whose operations keep the sign, also with rounding, after any execution and on any graph, no
entry of a marginal is negative. -/
theorem C71_sign {allowed : State F → GOp F → Prop} {s s' : State F} (h : Reach allowed s) {ord : List Var → List Var}
    {sched : Sched} {v : Var} {n : Nat} {ps : List F} (hq : State.getMarginal ord sched v n s = .ok s' ps) :
    ∀ x ∈ ps, Arith.lt x Arith.zero = false := by
  rcases State.getMarginal_shape h hq with ⟨f, h1, h2⟩ | ⟨m, k, _, rfl⟩
  · exact h1.probabilities h2
  · intro x hx
    rcases List.mem_or_eq_of_mem_set hx with h3 | h3
    · rw [List.eq_of_mem_replicate h3]; exact Arith.Signed.zero
    · rw [h3]; exact Arith.Signed.one

/-- C71: the images of a joint distribution are not negative, under the same hypotheses. -/
theorem C71_joint {allowed : State F → GOp F → Prop} {s s' : State F} (h : Reach allowed s) {ord : List Var → List Var}
    {sh : List State.Contribution → List State.Contribution} {sched : Sched} {g : Group} {n : Nat} {m : Fn F}
    (hq : State.getJoint ord sh sched g n s = .ok s' m) (c : List Nat) (x : F) (hx : m.findTransformed c = .ok x) :
    Arith.lt x Arith.zero = false := by
  refine Fn.NotNeg.findTransformed (f := m) ?_ hx
  unfold State.getJoint at hq
  have h1 := State.safe_checkPropagation (F := F) ord sched .sum n s
  cases hc : State.checkPropagation ord sched .sum n s with
  | throw s1 => rw [hc] at hq; cases hq
  | ub => rw [hc] at hq; cases hq
  | ok s1 u =>
    rw [hc] at hq h1
    have h2 : s1.NotNeg := h1 (reach_notNeg h)
    simp only at hq
    unfold State.lift at hq
    cases hm : State.jointOf ord sh g s1 with
    | throw => rw [hm] at hq; cases hq
    | ub => rw [hm] at hq; cases hq
    | ok y =>
      rw [hm] at hq
      cases hq
      unfold State.jointOf at hm
      split at hm
      · split at hm
        · split at hm
          · cases hm
          · split at hm
            · rename_i fs hfs
              split at hm
              · rename_i r hr
                refine Fn.NotNeg.permute (Fn.notNeg_merge (fun f hf => ?_) hr) hm
                refine Fn.mapList_all Fn.NotNeg (fun c _ b hb => ?_) hfs f hf
                cases c with
                | merged w =>
                  unfold State.contribution at hb
                  simp only at hb
                  cases hn : s'.node? w with
                  | none => rw [hn] at hb; cases hb
                  | some nd =>
                    rw [hn] at hb
                    simp only at hb
                    cases hmg : nd.merged with
                    | none => rw [hmg] at hb; cases hb
                    | some m' => rw [hmg] at hb; cases hb; exact (h2.node hn).merged _ hmg
                | message r' =>
                  unfold State.contribution at hb
                  simp only at hb
                  cases hn : s'.conn? r' with
                  | none => rw [hn] at hb; cases hb
                  | some c =>
                    rw [hn] at hb
                    simp only at hb
                    cases hmg : c.message with
                    | none => rw [hmg] at hb; cases hb
                    | some m' => rw [hmg] at hb; cases hb; exact h2.conn hn hmg
                | factor p => exact h2.deref hb
                | indicator w k => exact Fn.notNeg_indicator hb
              · cases hm
              · cases hm
            · cases hm
            · cases hm
        · cases hm
        · cases hm
      · cases hm
      · cases hm

end

variable {K : Type} [Field K] [LinearOrder K] [IsStrictOrderedRing K] [FloatParams K]

theorem Ext.notNeg_iff {x : Ext K} : NotNeg x ↔ ∀ a, x = .val a → 0 ≤ a := by
  cases x with
  | nan => exact ⟨fun _ a h => (nomatch h), fun _ => rfl⟩
  | val b =>
    unfold NotNeg
    rw [show Arith.lt (Ext.val b) (Arith.zero : Ext K) = decide (b < 0) from rfl]
    simp

/-- The exact arithmetic keeps the sign. -/
instance Ext.signed : Arith.Signed (Ext K) where
  zero := Ext.notNeg_iff.mpr (fun a h => by cases h; exact le_refl _)
  one := Ext.notNeg_iff.mpr (fun a h => by cases h; exact zero_le_one)
  fltMin := Ext.notNeg_iff.mpr (fun a h => by cases h; exact FloatParams.minK_pos.le)
  ofNat n := Ext.notNeg_iff.mpr (fun a h => by cases h; exact Nat.cast_nonneg n)
  add x y hx hy := Ext.notNeg_iff.mpr (fun a h => by
    cases x with
    | nan => cases h
    | val b =>
      cases y with
      | nan => cases h
      | val c => cases h; exact add_nonneg (Ext.notNeg_iff.mp hx b rfl) (Ext.notNeg_iff.mp hy c rfl))
  mul x y hx hy := Ext.notNeg_iff.mpr (fun a h => by
    cases x with
    | nan => cases h
    | val b =>
      cases y with
      | nan => cases h
      | val c => cases h; exact mul_nonneg (Ext.notNeg_iff.mp hx b rfl) (Ext.notNeg_iff.mp hy c rfl))
  div x y hx hy := Ext.notNeg_iff.mpr (fun a h => by
    cases x with
    | nan => cases h
    | val b =>
      cases y with
      | nan => cases h
      | val c =>
        change (if c = 0 then (.nan : Ext K) else .val (b / c)) = .val a at h
        split at h
        · cases h
        · cases h; exact div_nonneg (Ext.notNeg_iff.mp hx b rfl) (Ext.notNeg_iff.mp hy c rfl))
  exp x := Ext.notNeg_iff.mpr (fun a h => by
    cases x with
    | nan => cases h
    | val b => cases h; exact (FloatParams.expK_pos b).le)

/-- And so does the arithmetic with rounding, when a number which is not negative is not rounded to a negative one. -/
theorem Ext.rounded_signed [Rounding K] (hr : ∀ x : K, 0 ≤ x → 0 ≤ Rounding.round x) :
    @Arith.Signed (Ext K) (Ext.rounded K) := by
  have hn : ∀ x : Ext K, @NotNeg (Ext K) (Ext.rounded K) x ↔ ∀ a, x = .val a → 0 ≤ a := fun x => Ext.notNeg_iff (x := x)
  letI := Ext.rounded K
  refine @Arith.Signed.mk (Ext K) (Ext.rounded K) ?_ ?_ ?_ (fun n => ?_) (fun x y hx hy => ?_) (fun x y hx hy => ?_)
    (fun x y hx hy => ?_) (fun x => ?_)
  · exact (hn _).mpr (fun a h => by cases h; exact le_refl _)
  · exact (hn _).mpr (fun a h => by cases h; exact zero_le_one)
  · exact (hn _).mpr (fun a h => by cases h; exact FloatParams.minK_pos.le)
  · exact (hn _).mpr (fun a h => by cases h; exact hr _ (Nat.cast_nonneg n))
  · refine (hn _).mpr (fun a h => ?_)
    cases x with
    | nan => cases h
    | val b =>
      cases y with
      | nan => cases h
      | val c => cases h; exact hr _ (add_nonneg ((hn _).mp hx b rfl) ((hn _).mp hy c rfl))
  · refine (hn _).mpr (fun a h => ?_)
    cases x with
    | nan => cases h
    | val b =>
      cases y with
      | nan => cases h
      | val c => cases h; exact hr _ (mul_nonneg ((hn _).mp hx b rfl) ((hn _).mp hy c rfl))
  · refine (hn _).mpr (fun a h => ?_)
    cases x with
    | nan => cases h
    | val b =>
      cases y with
      | nan => cases h
      | val c =>
        change (if c = 0 then (.nan : Ext K) else .val (Rounding.round (b / c))) = .val a at h
        split at h
        · cases h
        · cases h; exact hr _ (div_nonneg ((hn _).mp hx b rfl) ((hn _).mp hy c rfl))
  · refine (hn _).mpr (fun a h => ?_)
    cases x with
    | nan => cases h
    | val b => cases h; exact hr _ (FloatParams.expK_pos b).le

/-- C71: with the rounding of every operation no entry of a marginal is negative. -/
theorem C71_rounded [Rounding K] (hr : ∀ x : K, 0 ≤ x → 0 ≤ Rounding.round x)
    {allowed : State (Ext K) → GOp (Ext K) → Prop} {s s' : State (Ext K)} (h : @Reach (Ext K) (Ext.rounded K) allowed s)
    {ord : List Var → List Var} {sched : Sched} {v : Var} {n : Nat} {ps : List (Ext K)}
    (hq : @State.getMarginal (Ext K) (Ext.rounded K) ord sched v n s = .ok s' ps) : ∀ x : K, Ext.val x ∈ ps → 0 ≤ x := by
  intro x hx
  have := @C71_sign (Ext K) (Ext.rounded K) (Ext.rounded_signed hr) allowed s s' h ord sched v n ps hq (.val x) hx
  exact (Ext.notNeg_iff (x := Ext.val x)).mp this x rfl

theorem sum_div (l : List K) (t : K) : (l.map (fun q => q / t)).sum = l.sum / t := by
  induction l with
  | nil => simp
  | cons q l ih => simp only [List.map_cons, List.sum_cons, ih, add_div]

/-- The probabilities of a function without negative images. -/
theorem Fn.NotNeg.distribution {f : Fn (Ext K)} (h : f.NotNeg) {ps : List (Ext K)} (e : f.probabilities = .ok ps) :
    (∀ x ∈ ps, x = .nan) ∨ IsDistribution ps := by
  have hb : ∀ qs : List K, (∀ q ∈ qs, 0 ≤ q) → qs.sum = 1 → ∀ q ∈ qs, 0 ≤ q ∧ q ≤ 1 := by
    intro qs hq hs q hm
    exact ⟨hq q hm, hs ▸ List.single_le_sum hq q hm⟩
  unfold Fn.probabilities at e
  cases hi : f.images with
  | throw => rw [hi] at e; cases e
  | ub => rw [hi] at e; cases e
  | ok l =>
    rw [hi] at e
    simp only at e
    have h1 := h.images hi
    by_cases hn : ∃ x ∈ l, x = .nan
    · left
      have h2 : Arith.sum l = (.nan : Ext K) := by
        have := Ext.foldl_add_nan (fun x : Ext K => x) l (Arith.zero) (Or.inr (by simpa using hn))
        exact this
      rw [h2] at e
      have h3 : Arith.eq (.nan : Ext K) Arith.zero = false := rfl
      rw [h3] at e
      simp only [Bool.false_eq_true, if_false, Res.ok.injEq] at e
      subst e
      intro x hx
      obtain ⟨y, _, rfl⟩ := List.mem_map.mp hx
      exact Ext.div_nan y
    · push Not at hn
      obtain ⟨qs, rfl⟩ : ∃ qs : List K, l = qs.map Ext.val := by
        clear e hi h1
        induction l with
        | nil => exact ⟨[], rfl⟩
        | cons x l ih =>
          obtain ⟨qs, rfl⟩ := ih (fun y hy => hn y (by simp [hy]))
          cases x with
          | nan => exact absurd rfl (hn .nan (by simp))
          | val q => exact ⟨q :: qs, rfl⟩
      have h2 : ∀ q ∈ qs, 0 ≤ q := fun q hq => Ext.notNeg_iff.mp (h1 (.val q) (List.mem_map.mpr ⟨q, hq, rfl⟩)) q rfl
      rw [Ext.sum_val] at e
      by_cases h0 : qs.sum = 0
      · have h3 : Arith.eq (Ext.val qs.sum) (Arith.zero : Ext K) = true := by
          rw [h0]; exact decide_eq_true rfl
        rw [h3, if_pos rfl, Res.ok.injEq] at e
        by_cases hl : qs = []
        · subst hl
          left
          subst e
          intro x hx
          simp at hx
        · right
          have h4 : (qs.length : K) ≠ 0 := by
            have := List.length_pos_iff.mpr hl
            exact_mod_cast this.ne'
          have h5 : ps = (qs.map (fun _ => (1 : K) / qs.length)).map Ext.val := by
            rw [← e, List.map_map, List.map_map]
            refine List.map_congr_left (fun q _ => ?_)
            show Arith.div (Arith.one : Ext K) (Arith.ofNat (qs.map Ext.val).length) = _
            rw [List.length_map]
            change (if (qs.length : K) = 0 then (.nan : Ext K) else .val (1 / qs.length)) = _
            rw [if_neg h4]
            rfl
          have h6 : (qs.map (fun _ => (1 : K) / qs.length)).sum = 1 := by
            rw [List.map_const', List.sum_replicate, nsmul_eq_mul, mul_one_div, div_self h4]
          refine ⟨_, h5, hb _ (fun q hq => ?_) h6, h6⟩
          obtain ⟨_, _, rfl⟩ := List.mem_map.mp hq
          positivity
      · right
        have h3 : Arith.eq (Ext.val qs.sum) (Arith.zero : Ext K) = false := decide_eq_false h0
        rw [h3] at e
        simp only [Bool.false_eq_true, if_false, Res.ok.injEq] at e
        have h5 : ps = (qs.map (fun q => q / qs.sum)).map Ext.val := by
          rw [← e, List.map_map, List.map_map]
          refine List.map_congr_left (fun q _ => ?_)
          change (if qs.sum = 0 then (.nan : Ext K) else .val (q / qs.sum)) = _
          rw [if_neg h0]
          rfl
        have h6 : (qs.map (fun q => q / qs.sum)).sum = 1 := by rw [sum_div, div_self h0]
        refine ⟨_, h5, hb _ (fun q hq => ?_) h6, h6⟩
        obtain ⟨r, hr, rfl⟩ := List.mem_map.mp hq
        exact div_nonneg (h2 r hr) (List.sum_nonneg h2)

theorem set_sum {m k : Nat} (h : k < m) : ((List.replicate m (0 : K)).set k 1).sum = 1 := by
  induction m generalizing k with
  | zero => omega
  | succ m ih =>
    cases k with
    | zero => simp [List.replicate_succ]
    | succ k => simp [List.replicate_succ, ih (by omega : k < m)]

/-- C71: after any execution whatsoever, on any graph, what `getMarginalDistribution` returns is a probability
distribution or a list of NaN: the factors may have been changed behind the back of the model, the loopy propagation may
have been stopped before it converged.

Missing: that no marginal is a list of NaN (`C71_violated`). -/
theorem C71_any_partial {allowed : State (Ext K) → GOp (Ext K) → Prop} {s s' : State (Ext K)} (h : Reach allowed s)
    {ord : List Var → List Var} {sched : Sched} {v : Var} {n : Nat} {ps : List (Ext K)}
    (hq : State.getMarginal ord sched v n s = .ok s' ps) : (∀ x ∈ ps, x = .nan) ∨ IsDistribution ps := by
  rcases State.getMarginal_shape h hq with ⟨f, h1, h2⟩ | ⟨m, k, hk, rfl⟩
  · exact h1.distribution h2
  · right
    have h1 : (List.replicate m (Arith.zero : Ext K)).set k Arith.one =
        ((List.replicate m (0 : K)).set k 1).map Ext.val := by
      rw [List.map_set, List.map_replicate]
      rfl
    refine ⟨_, h1, fun q hq => ?_, set_sum hk⟩
    rcases List.mem_or_eq_of_mem_set hq with h3 | h3
    · rw [List.eq_of_mem_replicate h3]; exact ⟨le_refl _, zero_le_one⟩
    · rw [h3]; exact ⟨zero_le_one, le_refl _⟩

/-- C71: after any execution of prudent operations the marginal of every variable is returned, with one number for each
value of the variable, and is a probability distribution or a list of NaN.

Missing: that no marginal is a list of NaN (`C71_violated`). -/
theorem C71_marginal_partial {s : State (Ext K)} (h : Reach Prudent s) {ord : List Var → List Var}
    (hord : ∀ l, (ord l).Perm l) {sched : Sched} (hsched : ∀ l, (sched l).Perm l) {n : Nat} (hn : 1 ≤ n) {v : Var}
    (hv : v ∈ s.vars) : ∃ s' ps, State.getMarginal ord sched v n s = .ok s' ps ∧ ps.length = v.size ∧ 0 < v.size ∧
      (ps = List.replicate v.size .nan ∨ IsDistribution ps) := by
  obtain ⟨s', ps, h1, h2⟩ := ((C31_queries_return_partial h hord hsched hn).1 v hv).1
  refine ⟨s', ps, h1, h2, (reach_healthy h).inv.posV v hv, ?_⟩
  rcases C71_any_partial h h1 with h3 | h3
  · exact Or.inl (List.eq_replicate_iff.mpr ⟨h2, h3⟩)
  · exact Or.inr h3

/-- C71: when all the images of the factors are positive, the marginal of a hidden variable which a propagation computes
is on every graph, also on those with cycles, made of positive numbers which sum to one. -/
theorem C71_positive {s : State (Ext K)} (h : Reach (fun s op => Prudent s op ∧ Steady s op) s) {ord : List Var → List Var}
    (hord : ∀ l, (ord l).Perm l) {sched : Sched} (hsched : ∀ l, (sched l).Perm l) {n : Nat} (hn : 1 ≤ n)
    (hneed : s.wouldNeedPropagation .sum = true) {φ : Nat → Assign → K} (hφ : s.Images φ)
    (hpos : ∀ p ∈ s.factors, ∀ a, s.InRange a → 0 < φ p a) {v w : Var} (hv : s.Hidden v) (hw : v.eqv w = true) :
    ∃ s', ∃ ps : List K, State.getMarginal ord sched w n s = .ok s' (ps.map Ext.val) ∧ ps.length = v.size ∧
      (∀ p ∈ ps, 0 < p) ∧ ps.sum = 1 := by
  have hs := reach_sound h
  obtain ⟨s', r, h1, h2, h3, _, _, _, h6, h7, h8⟩ := State.checkPropagation_positive hord .sum hsched hs hn hneed
    (hφ.valued hs.healthy.inv.toCore hpos)
  have hv' := State.hidden_iff.mp ((h2.toQuiet.hiddenS v).mpr hv)
  obtain ⟨ps, e1, e2, e3, e4⟩ := State.belief_positive hord h3.inv h6 h7 h8 hv'
  refine ⟨s', ps, ?_, e2, e3, e4⟩
  unfold State.getMarginal
  rw [State.marginalQuery_eq]
  unfold State.asks
  rw [h1]
  simp only
  unfold State.lift
  rw [h3.inv.readMarginal_hidden hv' hw, e1]

/-- The factors of the triangle are positive: `C71_positive` applies. -/
example : ∃ s', ∃ ps : List ℚ, State.getMarginal Ex.rev id Ex.Z 1 (Ex.after Ex.triangle) = .ok s' (ps.map Ext.val) ∧
    ps.length = 2 ∧ (∀ p ∈ ps, 0 < p) ∧ ps.sum = 1 :=
  C71_positive Ex.triangle_reach Ex.rev_perm (fun l => List.Perm.refl l) le_rfl (by decide +kernel) (φ := Ex.phi)
    (Ex.phi_images rfl (by decide +kernel)) (Ex.phi_positive (by decide +kernel)) (v := Ex.Z)
    (State.hidden_iff.mpr (by decide +kernel)) (Var.eqv_refl _)

/-- The triangle, on which one iteration is made and no message converges: 9/25 and 16/25. -/
example : Reach Prudent (Ex.after Ex.triangle) ∧ Ex.X ∈ (Ex.after Ex.triangle).vars ∧
    (match State.getMarginal Ex.rev id Ex.X 1 (Ex.after Ex.triangle) with
      | .ok s ps => some (ps, s.last.map (fun r : PropResult => r.completed))
      | _ => none) = some ([.val (9 / 25), .val (16 / 25)], some false) ∧
    IsDistribution ([.val (9 / 25), .val (16 / 25)] : List (Ext ℚ)) :=
  ⟨Ex.Reach.mono (fun _ _ h => h.1) Ex.triangle_reach, by decide +kernel, by decide +kernel,
    [9 / 25, 16 / 25], rfl, by norm_num, by norm_num⟩

/-- The joint distribution of two variables of the triangle. -/
example : Reach Prudent (Ex.after Ex.triangle) ∧
    (match State.getJoint Ex.rev id id ⟨[Ex.X, Ex.Y], [Ex.X, Ex.Y]⟩ 1 (Ex.after Ex.triangle) with
      | .ok _ m => [[0, 0], [0, 1], [1, 0], [1, 1]].map (fun c =>
          match m.findTransformed c with | .ok x => decide (Arith.lt x Arith.zero) | _ => true)
      | _ => []) = [false, false, false, false] :=
  ⟨Ex.Reach.mono (fun _ _ h => h.1) Ex.triangle_reach, by decide +kernel⟩

/-- C71 is violated by a model with a null factor: the marginals, also of the other variables, are made of NaN and do not
sum to one. -/
theorem C71_violated : ∃ (s : State (Ext ℚ)), Reach Prudent s ∧ Ex.X ∈ s.vars ∧ Ex.Y ∈ s.vars ∧
    ∀ v ∈ [Ex.X, Ex.Y], ∃ s' ps, State.getMarginal Ex.rev id v 1 s = .ok s' ps ∧ ¬ IsDistribution ps := by
  refine ⟨Ex.after [.add 5, .add 1], Ex.after_prudent _ (by decide +kernel), by decide +kernel, by decide +kernel, ?_⟩
  have hX : (match State.getMarginal Ex.rev id Ex.X 1 (Ex.after [.add 5, .add 1]) with
      | .ok _ ps => some ps
      | _ => none) = some [.nan, .nan] := by decide +kernel
  have hY : (match State.getMarginal Ex.rev id Ex.Y 1 (Ex.after [.add 5, .add 1]) with
      | .ok _ ps => some ps
      | _ => none) = some [.nan, .nan] := by decide +kernel
  generalize Ex.after [.add 5, .add 1] = s at *
  have hno : ¬ IsDistribution ([.nan, .nan] : List (Ext ℚ)) := by
    rintro ⟨qs, h, _⟩
    cases qs with
    | nil => simp at h
    | cons q qs => simp at h
  intro v hv
  rcases List.mem_cons.mp hv with rfl | hv
  · cases h : State.getMarginal Ex.rev id Ex.X 1 s with
    | ok s' ps => rw [h] at hX; cases hX; exact ⟨s', _, rfl, hno⟩
    | throw => rw [h] at hX; cases hX
    | ub => rw [h] at hX; cases hX
  · rw [List.mem_singleton] at hv
    subst hv
    cases h : State.getMarginal Ex.rev id Ex.Y 1 s with
    | ok s' ps => rw [h] at hY; cases hY; exact ⟨s', _, rfl, hno⟩
    | throw => rw [h] at hY; cases hY
    | ub => rw [h] at hY; cases hY

theorem Ex.binary32_nonneg (x : ℚ) (hx : 0 ≤ x) : 0 ≤ Ex.binary32.round x := by
  have hq : (0 : ℚ) < 2 ^ (max (Int.log 2 |x| - 23) (-149)) := zpow_pos (by norm_num) _
  have h1 : (0 : ℤ) ≤ _root_.round (x / 2 ^ (max (Int.log 2 |x| - 23) (-149))) := by
    rw [round_eq]
    exact Int.floor_nonneg.mpr (by positivity)
  have h2 : (0 : ℚ) ≤ (_root_.round (x / 2 ^ (max (Int.log 2 |x| - 23) (-149))) : ℤ) := by exact_mod_cast h1
  exact mul_nonneg h2 hq.le

section
attribute [local instance 2000] Ext.rounded
attribute [local instance] Ex.binary32

/-- In the format binary32 the query on two factors returns, and `C71_rounded` applies. -/
example : ∃ s' ps, State.getMarginal Ex.rev List.reverse Ex.X 2 Ex.couple32 = .ok s' ps ∧ ps.length = 2 ∧
    ∀ x : ℚ, Ext.val x ∈ ps → 0 ≤ x := by
  have h : Reach Prudent Ex.couple32 := Ex.after_prudent [.add 0, .add 1] (by decide +kernel)
  obtain ⟨s', ps, h1, h2⟩ := ((C31_queries_return_partial h (ord := Ex.rev) Ex.rev_perm (sched := List.reverse)
    (fun l => List.reverse_perm l) (n := 2) (by omega)).1 Ex.X (by rw [Ex.couple32_is.vars]; simp)).1
  exact ⟨s', ps, h1, h2, C71_rounded Ex.binary32_nonneg h h1⟩

end

end EFG
