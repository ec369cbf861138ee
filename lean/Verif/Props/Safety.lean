import Verif.Lemmas.Safety
import Verif.Props.TrainExamples
/-
C52: no operation of a model has undefined behaviour, under the conditions which the library does not check.
-/

namespace EFG
set_option linter.unusedSectionVars false
variable {F : Type} [Arith F]

/-- Inserting factors, sharing and setting weights, setting and removing evidences, and changing the functions: whatever
was executed before, the operation returns or throws. -/
theorem C52_edits_defined {allowed : State F → GOp F → Prop} {s : State F} (h : Reach allowed s) {op : GOp F}
    (hv : op.Valid s) (hq : op.threads = none) (hs : op.Sensible s) : op.exec s ≠ .ub :=
  State.exec_ne_ub_still (reach_inv h) (fun _ => reach_tuned h) hv hq hs

/-- Every operation, queries, training steps and sampling included, returns or throws, on models with or without cycles.
Partial because the executions are the prudent ones: see C21, C24 and C33 for what happens after the others. -/
theorem C52_defined_partial {s : State F} (h : Reach Prudent s) {op : GOp F} (hv : op.Valid s)
    (ht : op.threads ≠ some 0) (hs : op.Sensible s) : op.exec s ≠ .ub :=
  State.exec_ne_ub (reach_healthy h) (fun _ => reach_tuned h) hv ht hs

/-- Nothing given to the threads of the pool throws (a task which throws in a worker ends the program): the
three operations which give them tasks (the propagation before a query, the drawing of samples, the gradient
for samples with an admissible value for each variable) return normally. In the model the exception of a task
is the exception of the operation.

Missing: the executions which are not prudent, as for `C52_defined_partial`. -/
theorem C52_workers_partial {s : State F} (h : Reach Prudent s) {ord : List Var → List Var}
    (hord : ∀ l, (ord l).Perm l) {sched : Sched} (hsched : ∀ l, (sched l).Perm l) {n : Nat} (hn : 1 ≤ n) :
    (∀ kind, ∃ s', State.checkPropagation ord sched kind n s = .ok s' ()) ∧
    (∀ (rnd : Random F) (ctx : SampleContext), ∃ s' l, State.makeSamples ord rnd ctx n s = .ok s' l) ∧
    ∀ samples : List (List Nat), (∀ c ∈ samples, Valid (s.vars.map Var.size) c) →
      ∃ s' gs, State.getWeightsGradient ord sched samples n s = .ok s' gs := by
  have hs := reach_healthy h
  refine ⟨?_, ?_, ?_⟩
  · intro kind
    obtain ⟨s', _, h1, _⟩ := State.checkPropagation_ok hord kind hsched hs hn
    exact ⟨s', h1⟩
  · intro rnd ctx
    obtain ⟨s', l, h1, _⟩ := State.makeSamples_ok hord rnd ctx hn hs.inv (by rw [hs.pool]; rfl)
    exact ⟨s', l, h1⟩
  · intro samples hv
    obtain ⟨s', gs, h1, _⟩ := State.gradient_ok hord hsched hn hs (reach_tuned h) hv
    exact ⟨s', gs, h1⟩

/-- A program which catches the exceptions, executed from a new model, is defined to its end. -/
theorem C52_programs_defined_partial {s : State F} (h : Reach Prudent s) {ops : List (GOp F)} (hc : GOp.Careful s ops) :
    ∃ s', GOp.attempt s ops = .ok s' ∧ Reach Prudent s' := by
  induction ops generalizing s with
  | nil => exact ⟨s, rfl, h⟩
  | cons op ops ih =>
    obtain ⟨hv, hp, hs, h1, h2⟩ := hc
    have hne := C52_defined_partial h hv hp.threads hs
    unfold GOp.attempt
    cases he : op.exec s with
    | ok s' _ => exact ih (.ok h hv hp he) (h1 s' he)
    | throw s' => exact ih (.throw h hv hp (h2 s' he).1 he) (h2 s' he).2
    | ub => exact absurd he hne

namespace Ex

/-- Whether the operands are sensible. -/
def TAct.sensible (s : State (Ext ℚ)) : TAct → Bool
  | .add p | .tune p _ | .copyTune p _ => decide (p < s.heap.length)
  | .askGradient samples => samples.all (fun c => decide (EFG.Valid (s.vars.map Var.size) c))
  | _ => true

theorem TAct.sensible_spec {a : TAct} {s : State (Ext ℚ)} (h : a.sensible s = true) : a.op.Sensible s := by
  cases a with
  | add p => exact (decide_eq_true_iff (p := p < s.heap.length)).mp h
  | tune p g => exact (decide_eq_true_iff (p := p < s.heap.length)).mp h
  | copyTune p g => exact (decide_eq_true_iff (p := p < s.heap.length)).mp h
  | askGradient samples =>
    intro c hc
    exact of_decide_eq_true (List.all_eq_true.mp h c hc)
  | _ => trivial

theorem TAct.careful : ∀ (as : List TAct) {s : State (Ext ℚ)},
    allT (fun s a => a.typed s && a.sizes s && a.sensible s) as s = true → GOp.Careful s (as.map TAct.op) := by
  intro as
  induction as with
  | nil => intro s _; trivial
  | cons a as ih =>
    intro s h
    simp only [allT, Bool.and_eq_true] at h
    obtain ⟨⟨⟨h1, h2⟩, h3⟩, h4⟩ := h
    refine ⟨TAct.valid h1, TAct.prudent h2, TAct.sensible_spec h3, ?_, ?_⟩
    · intro s' he
      have : a.next s = s' := by unfold TAct.next; rw [he]
      exact this ▸ ih h4
    · intro s' he
      have : a.next s = s' := by unfold TAct.next; rw [he]
      exact ⟨by cases a <;> rfl, this ▸ ih h4⟩

/-- Evidences, sharing of weights, a refused factor, queries and gradients. -/
def program : List TAct :=
  [.tune 1 none, .tune 3 (some [X, Y]), .add 1, .add 4, .observe Z 1, .askMarginal X, .observe W 0, .askMAP Y,
   .askGradient [[0, 1, 1], [1, 1, 0]], .weights [3], .weights [3, 4], .askMarginal Z]

end Ex

/-- A program in which some operations throw. -/
example : ∃ s', GOp.attempt (State.initial Ex.heapT) (Ex.program.map Ex.TAct.op) = .ok s' ∧ Reach Prudent s' :=
  C52_programs_defined_partial (.init Ex.heapT_reach) (Ex.TAct.careful _ (by decide +kernel))

/-- Four threads: a gradient with two samples. -/
example : ∃ s' gs, State.getWeightsGradient Ex.rev List.reverse [[0, 1], [1, 1]] 4 (Ex.afterT [.tune 1 none, .observe Ex.Y 1]) =
    .ok s' gs := by
  refine (C52_workers_partial (Ex.afterT_prudent _ (by decide +kernel)) Ex.rev_perm (fun l => l.reverse_perm) (by decide)).2.2 _ ?_
  have : ([[0, 1], [1, 1]] : List (List Nat)).all (fun c => decide (EFG.Valid
    ((Ex.afterT [.tune 1 none, .observe Ex.Y 1]).vars.map Var.size) c)) = true := by decide +kernel
  intro c hc
  exact of_decide_eq_true (List.all_eq_true.mp this c hc)

/-- The joint distribution of X and Y in a triangle of factors. -/
example : (GOp.joint Ex.rev id id ⟨[Ex.X, Ex.Y], [Ex.X, Ex.Y]⟩ 1).exec (Ex.after Ex.triangle) ≠ .ub := by
  have he : (Ex.after Ex.triangle).evidences = [] := by decide +kernel
  refine C52_defined_partial (Ex.Reach.mono (fun _ _ h => h.1) Ex.triangle_reach)
    ⟨⟨Ex.rev_perm, fun l => .refl l, fun l => .refl l⟩, GroupReach.soup (vars := [Ex.X, Ex.Y]) (by decide)⟩ (by decide) ?_
  rintro u _ v _ u' v' ⟨k, hk⟩
  rw [he] at hk
  cases hk

/-- Copying an exponential factor which shares the weight of another one, while Y is observed. -/
example : (GOp.copyTunable 6 (some [Ex.X])).exec (Ex.afterT [.tune 0 none, .add 5, .observe Ex.Y 1]) ≠ .ub := by
  have hh : (Ex.afterT [.tune 0 none, .add 5, .observe Ex.Y 1]).heap = Ex.heapT := rfl
  refine C52_edits_defined (Ex.afterT_any _ (by decide +kernel)) ⟨trivial, ?_⟩ rfl ?_
  · intro f hf
    rw [hh] at hf
    have : (Ex.heapT[6]?.map (fun f => f.weight.isSome)) = some true := by decide +kernel
    rw [hf] at this
    exact Option.some.inj this
  · show 6 < List.length _
    rw [hh]; decide

/-- C52 is violated by samples which do not cover the variables: the training set only checks that they all have the same
length, and the gradient reads past their end. -/
theorem C52_samples_violated : ∃ s : State (Ext ℚ), Reach Prudent s ∧
    (GOp.gradient Ex.rev id [[0], [1]] 1).Valid s ∧ Prudent s (.gradient Ex.rev id [[0], [1]] 1) ∧
    (GOp.gradient Ex.rev id [[0], [1]] 1).exec s = .ub := by
  refine ⟨Ex.afterT [.tune 1 none], Ex.afterT_prudent _ (by decide +kernel),
    Ex.TAct.valid (a := .askGradient [[0], [1]]) rfl, Ex.TAct.prudent (a := .askGradient [[0], [1]]) rfl, ?_⟩
  have : (match (GOp.gradient Ex.rev id [[0], [1]] 1).exec (Ex.afterT [.tune 1 none]) with
    | .ub => true
    | _ => false) = true := by decide +kernel
  split at this
  · assumption
  · cases this

end EFG
