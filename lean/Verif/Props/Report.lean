import Verif.Model.Report
import Verif.Lemmas.Report
import Verif.Props.Examples
/-
C66: the report on the last propagation.
-/

namespace EFG
variable {F : Type} [Arith F]

/-- C66: after any prudent execution, the report is available exactly when `hasPropagationResult()` says so, and then it
describes the model as it is now: it lists the size of every group of linked hidden variables and whether the group is
free of cycles, and says that the propagation was completed if there are no cycles at all. The order of the groups is
any.

Missing: the executions which are not prudent, and what happens when there is no report (`C66_absent_violated`). -/
theorem C66_report_partial {s : State F} (h : Reach Prudent s) :
    (s.hasPropagationResult = true ↔ ∃ r, s.getLastPropagationResult = .ok r) ∧
    ∀ r, s.getLastPropagationResult = .ok r → s.DescribedBy r := by
  unfold State.hasPropagationResult State.getLastPropagationResult
  refine ⟨?_, fun r hr => ?_⟩
  · cases hl : s.last with
    | none => simp
    | some r => simp
  · cases hl : s.last with
    | none => rw [hl] at hr; cases hr
    | some r' =>
      rw [hl] at hr
      cases hr
      exact (reach_described h).2 r hl

/-- C66: the sizes reported add up to the number of hidden variables. -/
theorem C66_sizes_partial {s : State F} (h : Reach Prudent s) {r : PropResult}
    (hr : s.getLastPropagationResult = .ok r) : (r.structures.map (·.2)).sum = s.hiddenVariables.length := by
  obtain ⟨parts, h1, h2, h3⟩ := (C66_report_partial h).2 r hr
  have e : (r.structures.map (·.2)).sum = parts.flatten.length := by
    clear h1 h3 hr
    generalize r.structures = l at h2
    induction h2 with
    | nil => rfl
    | cons h _ ih => simp only [List.map_cons, List.sum_cons, List.flatten_cons, List.length_append, ih, h.1]
  have hi := reach_inv h
  rw [e]
  have hn : s.hiddenVariables.Nodup := by
    rw [hi.hiddenVariables, List.flatMap_def]; exact hi.parts.nodup
  refine List.Perm.length_eq ((List.perm_ext_iff_of_nodup h1.nodup hn).mpr (fun v => ?_))
  rw [h1.hidden, hi.mem_hiddenVariables]

/-- A path cut by an observation, asked for a marginal: two groups of one variable. Setting the limit of the iterations
keeps the report. -/
example : Reach Prudent (Ex.after (Ex.path ++ [.observe Ex.Y 1, .askMarginal Ex.X, .iterations 3])) ∧
    (Ex.after (Ex.path ++ [.observe Ex.Y 1, .askMarginal Ex.X, .iterations 3])).getLastPropagationResult =
      .ok ⟨.sum, true, [(true, 1), (true, 1)]⟩ :=
  ⟨Ex.after_prudent _ (by decide +kernel), by decide +kernel⟩

/-- A triangle, asked for a marginal and then for a MAP value. -/
example : Reach Prudent (Ex.after (Ex.triangle ++ [.askMarginal Ex.X, .askMAP Ex.Y])) ∧
    (Ex.after (Ex.triangle ++ [.askMarginal Ex.X, .askMAP Ex.Y])).getLastPropagationResult =
      .ok ⟨.map, false, [(false, 3)]⟩ :=
  ⟨Ex.after_prudent _ (by decide +kernel), by decide +kernel⟩

/-- C66: after a query or a gradient which returned, there is a report, of the propagation which it needs. -/
theorem C66_query_partial {s s' : State F} (h : Reach Prudent s) {op : GOp F} (hv : op.Valid s) (hp : Prudent s op)
    {kind : Kind} (hk : op.needs = some kind) (he : op.exec s = .ok s' ()) :
    ∃ r, s'.getLastPropagationResult = .ok r ∧ r.kind = kind ∧ s'.DescribedBy r := by
  have hs' : Reach Prudent s' := .ok h hv hp he
  have hH := reach_healthy h
  have hth : ∀ n, op.threads = some n → 1 ≤ n := by
    intro n hn
    have := hp.threads
    rw [hn] at this
    rcases Nat.eq_zero_or_pos n with h | h
    · subst h; exact absurd rfl this
    · exact h
  suffices hl : ∃ r, s'.last = some r ∧ r.kind = kind by
    obtain ⟨r, h1, h2⟩ := hl
    have h3 : s'.getLastPropagationResult = .ok r := by unfold State.getLastPropagationResult; rw [h1]
    exact ⟨r, h3, h2, (C66_report_partial hs').2 r h3⟩
  have drop : ∀ {α : Type} {x : M (State F) α}, GOp.drop x s = .ok s' () → ∃ a, x s = .ok s' a := by
    intro α x hx
    unfold GOp.drop at hx
    cases hy : x s with
    | ok s1 a => rw [hy] at hx; cases hx; exact ⟨a, rfl⟩
    | throw s1 => rw [hy] at hx; cases hx
    | ub => rw [hy] at hx; cases hx
  have ask : ∀ {α : Type} {ord : List Var → List Var} (_ : ∀ l, (ord l).Perm l) (k : Kind) {sched : Sched}
      (_ : ∀ l, (sched l).Perm l) {n : Nat} (_ : 1 ≤ n) (f : State F → Res α) (a : α),
      State.asks ord sched k n f s = .ok s' a → ∃ r, s'.last = some r ∧ r.kind = k := by
    intro α ord hord k sched hsched n hn f a ha
    obtain ⟨s1, r, h1, _, h2, h3⟩ := State.checkPropagation_told hord k hsched hH hn
    unfold State.asks at ha
    rw [h1] at ha
    simp only [State.lift] at ha
    cases hf : f s1 with
    | ok b => rw [hf] at ha; cases ha; exact ⟨r, h2, h3⟩
    | throw => rw [hf] at ha; cases ha
    | ub => rw [hf] at ha; cases ha
  cases op with
  | marginal ord sched v n =>
    cases hk
    obtain ⟨a, ha⟩ := drop he
    exact ask hv.1.1 .sum hv.1.2 (hth n rfl) _ a ((State.marginalQuery_eq ord sched .sum v n s).symm.trans ha)
  | marginalByName ord sched name n =>
    cases hk
    obtain ⟨a, ha⟩ := drop he
    unfold State.getMarginalByName at ha
    rcases State.findVariable_cases s name with ⟨v, hf⟩ | hf
    · rw [hf] at ha
      exact ask hv.1.1 .sum hv.1.2 (hth n rfl) _ a ((State.marginalQuery_eq ord sched .sum v n s).symm.trans ha)
    · rw [hf] at ha; cases ha
  | map ord sched v n =>
    cases hk
    obtain ⟨a, ha⟩ := drop he
    exact ask hv.1.1 .map hv.1.2 (hth n rfl) _ a ((State.getMAP_eq ord sched v n s).symm.trans ha)
  | hiddenSetMap ord sched n =>
    cases hk
    obtain ⟨a, ha⟩ := drop he
    exact ask hv.1.1 .map hv.1.2 (hth n rfl) _ a ((State.getHiddenSetMAP_eq ord sched n s).symm.trans ha)
  | joint ord sh sched g n =>
    cases hk
    obtain ⟨a, ha⟩ := drop he
    exact ask hv.1.1 .sum hv.1.2.2 (hth n rfl) _ a ((State.getJoint_eq ord sh sched g n s).symm.trans ha)
  | gradient ord sched samples n =>
    cases hk
    obtain ⟨a, ha⟩ := drop he
    have hg := State.gradient_told hv.1.1 hv.1.2 samples (hth n rfl) (reach_described h).1
    rw [ha] at hg
    obtain ⟨r, h1, h2, _⟩ := hg
    exact ⟨r, h1, h2⟩
  | _ => cases hk

example : Reach Prudent (Ex.after Ex.path) ∧ (GOp.map Ex.rev id Ex.Y 1 : GOp (Ext ℚ)).Valid (Ex.after Ex.path) ∧
    Prudent (Ex.after Ex.path) (GOp.map Ex.rev id Ex.Y 1) ∧ (GOp.map Ex.rev id Ex.Y 1 : GOp (Ext ℚ)).needs = some .map ∧
    (match (GOp.map Ex.rev id Ex.Y 1).exec (Ex.after Ex.path) with
      | .ok s' _ => s'.getLastPropagationResult
      | _ => .throw) = .ok ⟨.map, true, [(true, 3)]⟩ :=
  ⟨Ex.after_prudent _ (by decide +kernel), Ex.Act.valid (.askMAP Ex.Y) _, (Ex.Act.prudent (a := .askMAP Ex.Y) rfl).1, rfl,
    by decide +kernel⟩

/-- C66: a change of the factors, of the weights or of the evidences which is accepted makes the report unavailable, and
reading it undefined. -/
theorem C66_changed {allowed : State F → GOp F → Prop} {s s' : State F} (h : Reach allowed s) {op : GOp F}
    (hv : op.Valid s) (hc : op.Changes) (he : op.exec s = .ok s' ()) :
    s'.hasPropagationResult = false ∧ s'.getLastPropagationResult = .ub := by
  have hi := reach_inv h
  suffices hl : s'.last = none by
    unfold State.hasPropagationResult State.getLastPropagationResult
    rw [hl]; exact ⟨rfl, rfl⟩
  cases op with
  | addConst p =>
    have := State.addConst_told hi p
    rw [show State.addConstFactor p s = .ok s' () from he] at this
    exact this
  | copyConst p =>
    have := State.copyConst_told hi p
    rw [show State.copyConstFactor p s = .ok s' () from he] at this
    exact this
  | addTunable p share =>
    have := State.addTunable_told hi p share
    rw [show State.addTunable p share s = .ok s' () from he] at this
    exact this
  | copyTunable p share =>
    have := State.copyTunable_told hi p share
    rw [show State.copyTunable p share s = .ok s' () from he] at this
    exact this
  | setWeights ws =>
    have := State.setWeights_told ws s
    rw [show State.setWeights ws s = .ok s' () from he] at this
    exact this
  | setEvidence ord v k =>
    have := State.setEvidence_told hv.1 v k hi
    rw [show State.setEvidence ord v k s = .ok s' () from he] at this
    exact this
  | setEvidenceByName ord n k =>
    replace he : State.setEvidenceByName ord n k s = .ok s' () := he
    unfold State.setEvidenceByName at he
    rcases State.findVariable_cases s n with ⟨v, hf⟩ | hf
    · have := State.setEvidence_told hv.1 v k hi
      rw [hf] at he
      simp only at he
      rw [he] at this
      exact this
    · rw [hf] at he; cases he
  | removeEvidence ord v =>
    have := State.removeEvidence_told hv.1 v hi
    rw [show State.removeEvidence ord v s = .ok s' () from he] at this
    exact this
  | removeEvidenceByName ord n =>
    replace he : State.removeEvidenceByName ord n s = .ok s' () := he
    unfold State.removeEvidenceByName at he
    rcases State.findVariable_cases s n with ⟨v, hf⟩ | hf
    · have := State.removeEvidence_told hv.1 v hi
      rw [hf] at he
      simp only at he
      rw [he] at this
      exact this
    · rw [hf] at he; cases he
  | _ => exact hc.elim

example : Reach Prudent (Ex.after (Ex.path ++ [.askMarginal Ex.X])) ∧
    (GOp.setEvidence Ex.rev Ex.Y 1 : GOp (Ext ℚ)).Valid (Ex.after (Ex.path ++ [.askMarginal Ex.X])) ∧
    (GOp.setEvidence Ex.rev Ex.Y 1 : GOp (Ext ℚ)).Changes ∧
    (Ex.after (Ex.path ++ [.askMarginal Ex.X])).hasPropagationResult = true ∧
    (match (GOp.setEvidence Ex.rev Ex.Y 1).exec (Ex.after (Ex.path ++ [.askMarginal Ex.X])) with
      | .ok _ _ => true
      | _ => false) = true :=
  ⟨Ex.after_prudent _ (by decide +kernel), Ex.Act.valid (.observe Ex.Y 1) _, trivial, by decide +kernel, by decide +kernel⟩

/-- C66 is violated when there is no report: reading it is undefined, for instance in a model which was asked for a
marginal and then got an evidence. -/
theorem C66_absent_violated : ∃ s : State (Ext ℚ), Reach Prudent s ∧ s.hasPropagationResult = false ∧
    s.getLastPropagationResult = .ub :=
  ⟨Ex.after (Ex.path ++ [.askMarginal Ex.X, .observe Ex.Y 1]), Ex.after_prudent _ (by decide +kernel), by decide +kernel,
    by decide +kernel⟩


end EFG
