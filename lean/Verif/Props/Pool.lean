import Mathlib.Data.List.Count
import Verif.Lemmas.PoolLive
/- C32: the pool runs every task exactly once and returns only afterwards. -/

namespace EFG
namespace Pool

/-! ### Executions to speak about -/

/-- What a worker does next. -/
def actWorker (size : Nat) (life : Bool) (t : Nat) : WorkerPc → Slot → Option (WorkerPc × Slot × List Event)
  | .check, sl => if life then some (.load, sl, []) else some (.over, sl, [])
  | .load, .empty => some (.check, .empty, [])
  | .load, .task j => some (.exec j t, .task j, [])
  | .load, .raw => none
  | .exec j k, sl => if k < j.tasks then some (.inside j k, sl, [.enter j k t]) else some (.clear j, sl, [])
  | .inside j k, sl => some (.exec j (k + size), sl, [.leave j k t])
  | .clear _, _ => some (.check, .empty, [])
  | .absent, _ => none
  | .over, _ => none

/-- What the owner of the pool does next, when its calls have the numbers of tasks in `prog`. -/
def actMain (prog : List Nat) (s : Sys) : Option Sys :=
  match s.main with
  | .start k =>
    if k < s.size then some { s with main := .init k, worker := Function.update s.worker k .check }
    else some { s with main := .idle }
  | .init k => some { s with main := .start (k + 1), slot := Function.update s.slot k .empty }
  | .idle =>
    match prog[s.calls]? with
    | some n => some { s with main := .publish ⟨s.calls, n⟩ 1, calls := s.calls + 1, log := s.log ++ [.call ⟨s.calls, n⟩] }
    | none => some { s with main := .join 1, life := false }
  | .publish j k =>
    if k < s.size then some { s with main := .publish j (k + 1), slot := Function.update s.slot k (.task j) }
    else some { s with main := .exec j 0 }
  | .exec j k =>
    if k < j.tasks then some { s with main := .inside j k, log := s.log ++ [.enter j k 0] }
    else some { s with main := .scan j 1 }
  | .inside j k => some { s with main := .exec j (k + s.size), log := s.log ++ [.leave j k 0] }
  | .scan j k =>
    if k < s.size then
      match s.slot k with
      | .empty => some { s with main := .scan j (k + 1) }
      | .task _ => some { s with main := .scan j 1 }
      | .raw => none
    else some { s with main := .idle, log := s.log ++ [.ret j] }
  | .join k =>
    if k < s.size then
      if s.worker k = .over then some { s with main := .join (k + 1) } else none
    else some { s with main := .gone }
  | .gone => none

/-- What thread `t` does next. -/
def act (prog : List Nat) (t : Nat) (s : Sys) : Option Sys :=
  if t = 0 then actMain prog s
  else
    (actWorker s.size s.life t (s.worker t) (s.slot t)).map fun r =>
      { s with
        worker := Function.update s.worker t r.1, slot := Function.update s.slot t r.2.1, log := s.log ++ r.2.2 }

theorem actWorker_some {size : Nat} {life : Bool} {t : Nat} {w : WorkerPc} {sl : Slot} {r : WorkerPc × Slot × List Event}
    (h : actWorker size life t w sl = some r) : WStep size life t w sl r.1 r.2.1 r.2.2 := by
  cases w with
  | check =>
    simp only [actWorker] at h
    split at h <;> cases h
    · exact .alive ‹_›
    · exact .dead (by simpa using ‹¬ life = true›)
  | load => cases sl <;> simp only [actWorker] at h <;> cases h <;> constructor
  | exec j k =>
    simp only [actWorker] at h
    split at h <;> cases h
    · exact .enter ‹_›
    · exact .finish ‹_›
  | inside j k => simp only [actWorker] at h; cases h; constructor
  | clear j => simp only [actWorker] at h; cases h; constructor
  | absent => cases h
  | over => cases h

theorem actWorker_none {size : Nat} {life : Bool} {t : Nat} {w w' : WorkerPc} {sl sl' : Slot} {es : List Event}
    (h : actWorker size life t w sl = none) : ¬ WStep size life t w sl w' sl' es := by
  intro hs
  cases hs <;> simp only [actWorker] at h <;> first | cases h | (split at h <;> cases h)

theorem actMain_some {prog : List Nat} {s s' : Sys} (h : actMain prog s = some s') : MStep s s' := by
  unfold actMain at h
  split at h
  next k hm => split at h <;> cases h; exacts [.launch hm ‹_›, .built hm ‹_›]
  next k hm => cases h; exact .init hm
  next hm => split at h <;> cases h; exacts [.call hm, .destroy hm]
  next j k hm => split at h <;> cases h; exacts [.publish hm ‹_›, .published hm ‹_›]
  next j k hm => split at h <;> cases h; exacts [.enter hm ‹_›, .wait hm ‹_›]
  next j k hm => cases h; exact .leave hm
  next j k hm =>
    split at h
    · split at h
      next he => cases h; exact .scanned hm ‹_› he
      next i he => cases h; exact .again hm ‹_› he
      next he => cases h
    · cases h; exact .ret hm ‹_›
  next k hm =>
    split at h
    · split at h <;> cases h; exact .join hm ‹_› ‹_›
    · cases h; exact .gone hm ‹_›
  next hm => cases h

theorem actMain_none {prog : List Nat} {s s' : Sys} (h : actMain prog s = none) : ¬ MStep s s' := by
  intro hs
  cases hs with
  | call hm | destroy hm => simp only [actMain, hm] at h; split at h <;> cases h
  | init hm | leave hm => simp only [actMain, hm] at h; cases h
  | launch hm h1 | built hm h1 | publish hm h1 | published hm h1 | enter hm h1 | wait hm h1 | ret hm h1 | gone hm h1 =>
    simp [actMain, hm, h1] at h
  | scanned hm h1 h2 | again hm h1 h2 | join hm h1 h2 => simp [actMain, hm, h1, h2] at h

theorem act_some {prog : List Nat} {t : Nat} {s s' : Sys} (h : act prog t s = some s') : Step t s s' := by
  unfold act at h
  split at h
  · next ht => subst ht; exact .main (actMain_some h)
  · next ht =>
    cases hr : actWorker s.size s.life t (s.worker t) (s.slot t) with
    | none => rw [hr] at h; cases h
    | some r =>
      rw [hr] at h
      cases h
      exact .worker (by omega) (actWorker_some hr)

theorem act_none {prog : List Nat} {t : Nat} {s s' : Sys} (h : act prog t s = none) : ¬ Step t s s' := by
  intro hs
  cases hs with
  | main hm =>
    simp only [act] at h
    exact actMain_none h hm
  | worker h0 hw =>
    unfold act at h
    rw [if_neg (by omega)] at h
    simp only [Option.map_eq_none_iff] at h
    exact actWorker_none h hw

/-- The state after the turns of the given threads. -/
def after (size : Nat) (prog : List Nat) (l : List Nat) : Sys :=
  l.foldl (fun s t => (act prog t s).getD s) (initial size)

theorem runs_after (size : Nat) (prog : List Nat) (l : List Nat) : Runs size (after size prog l) := by
  unfold after
  suffices h : ∀ s, Runs size s → Runs size (l.foldl (fun s t => (act prog t s).getD s) s) from h _ .init
  induction l with
  | nil => intro s h; exact h
  | cons t l ih =>
    intro s h
    refine ih _ ?_
    show Runs size ((act prog t s).getD s)
    cases ha : act prog t s with
    | none => exact h
    | some s' => exact h.step (act_some ha)

/-- The threads take turns. -/
def robin (size : Nat) (prog : List Nat) (i : Nat) : Sys := after size prog ((List.range i).map (· % size))

theorem robin_succ (size : Nat) (prog : List Nat) (i : Nat) :
    robin size prog (i + 1) = (act prog (i % size) (robin size prog i)).getD (robin size prog i) := by
  unfold robin after
  rw [List.range_succ, List.map_append, List.foldl_append]
  rfl

/-- There are fair executions for every pool size and any calls. -/
theorem robin_fair (size : Nat) (prog : List Nat) : Fair size (robin size prog) (fun i => i % size) where
  start := rfl
  next i := by
    rw [robin_succ]
    cases ha : act prog (i % size) (robin size prog i) with
    | none => exact Or.inr ⟨rfl, fun s' => act_none ha⟩
    | some s' => exact Or.inl (act_some ha)
  fair t ht i := ⟨i * size + t, by
    have : i * 1 ≤ i * size := Nat.mul_le_mul_left i (by omega)
    omega, by
    show (i * size + t) % size = t
    rw [Nat.add_comm, Nat.add_mul_mod_self_right, Nat.mod_eq_of_lt ht]⟩

/-! ### What is seen of a call -/

theorem count_pairs {j j' : Job} {t t' : Nat} (k : Nat) {l : List Nat} (hl : l.Nodup) :
    (l.flatMap (fun k => [Event.enter j k t, Event.leave j k t])).count (.enter j' k t') =
        (if j' = j ∧ k ∈ l ∧ t' = t then 1 else 0) ∧
      (l.flatMap (fun k => [Event.enter j k t, Event.leave j k t])).count (.leave j' k t') =
        if j' = j ∧ k ∈ l ∧ t' = t then 1 else 0 := by
  induction l with
  | nil => simp
  | cons m l ih =>
    obtain ⟨h1, h2⟩ := ih hl.of_cons
    have hm : m ∉ l := (List.nodup_cons.1 hl).1
    rw [List.flatMap_cons, List.count_append, List.count_append, h1, h2]
    by_cases hj : j' = j
    · by_cases ht : t' = t
      · by_cases hk : k = m
        · subst hj ht hk
          simp [hm]
        · subst hj ht
          simp [hk, List.count_cons, Ne.symm hk]
      · simp [ht, List.count_cons, Ne.symm ht]
    · simp [hj, List.count_cons, Ne.symm hj]

/-- The tasks of a call are begun and ended once each, by the thread whose turn it is, and nothing else is done. -/
theorem Served.once {size : Nat} (hp : 0 < size) {j : Job} {es : List Event} (h : Served size j es) (j' : Job) (k t : Nat) :
    es.count (.enter j' k t) = (if j' = j ∧ k < j.tasks ∧ t = k % size then 1 else 0) ∧
      es.count (.leave j' k t) = if j' = j ∧ k < j.tasks ∧ t = k % size then 1 else 0 := by
  by_cases ht : t < size
  · have hc : ∀ e : Event, e.thread = some t → es.count e = (turn size j t).count e := by
      intro e he
      rw [← h.2 t ht, List.count_filter (by simpa using he)]
    rw [hc _ rfl, hc _ rfl]
    have hnd : ((List.range j.tasks).filter (fun k => k % size = t)).Nodup := List.nodup_range.filter _
    obtain ⟨h1, h2⟩ := count_pairs (j := j) (j' := j') (t := t) (t' := t) k hnd
    unfold turn
    rw [h1, h2]
    have hiff : (j' = j ∧ k ∈ (List.range j.tasks).filter (fun k => k % size = t) ∧ t = t) ↔
        (j' = j ∧ k < j.tasks ∧ t = k % size) := by
      simp only [List.mem_filter, List.mem_range, decide_eq_true_eq, and_true]
      constructor
      · rintro ⟨a, b, c⟩; exact ⟨a, b, c.symm⟩
      · rintro ⟨a, b, c⟩; exact ⟨a, b, c.symm⟩
    rw [if_congr hiff rfl rfl]
    exact ⟨rfl, rfl⟩
  · have hn : ∀ e : Event, e.thread = some t → es.count e = 0 := by
      intro e he
      rw [List.count_eq_zero]
      intro hmem
      obtain ⟨t', h1, h2⟩ := h.1 e hmem
      rw [he] at h2
      cases h2
      exact ht h1
    have : ¬ (j' = j ∧ k < j.tasks ∧ t = k % size) := by
      rintro ⟨_, _, rfl⟩
      exact ht (Nat.mod_lt _ hp)
    rw [hn _ rfl, hn _ rfl, if_neg this]
    exact ⟨rfl, rfl⟩

theorem Served.order {size : Nat} (hp : 0 < size) {j : Job} {es : List Event} (h : Served size j es) {k : Nat}
    (hk : k < j.tasks) : [Event.enter j k (k % size), Event.leave j k (k % size)].Sublist es := by
  have h1 := h.2 (k % size) (Nat.mod_lt _ hp)
  refine List.Sublist.trans ?_ (List.filter_sublist (p := fun e => decide (e.thread = some (k % size))))
  rw [h1]
  unfold turn
  have hm : k ∈ (List.range j.tasks).filter (fun m => m % size = k % size) := by simp [hk]
  obtain ⟨a, b, hab⟩ := List.append_of_mem hm
  rw [hab, List.flatMap_append, List.flatMap_cons]
  exact List.Sublist.trans (List.sublist_append_left _ _) (List.sublist_append_right _ _)

/-- A call in a history, with what happens between its begin and its return. -/
theorem History.get {size i : Nat} {l : List Event} (h : History size i l) {m : Nat} (hm : m < i) :
    ∃ n before es after, l = before ++ .call ⟨m, n⟩ :: es ++ .ret ⟨m, n⟩ :: after ∧ Served size ⟨m, n⟩ es := by
  induction h with
  | nil => omega
  | @call i es l n hl hs ih =>
    by_cases he : m = i
    · subst he
      exact ⟨n, l, es, [], by simp, hs⟩
    · obtain ⟨n', b, es', a, h1, h2⟩ := ih (by omega)
      refine ⟨n', b, es', a ++ .call ⟨i, n⟩ :: es ++ [.ret ⟨i, n⟩], ?_, h2⟩
      rw [h1]
      simp

/-! ### C32 -/

/-- **C32, what is observed.** In all executions of a pool of any size in which no thread loads a variable which is
not initialised: between the calls, everything that happened is a sequence of calls, each of which ran its tasks
between its begin and its return; in a call the calls before it have returned, and nothing happens but on
the threads of the pool. (Not all executions: `C32_violated`.) -/
theorem C32_calls_partial {size : Nat} (hp : 0 < size) {s : Sys} (h : Runs size s) :
    (¬ s.main.Calling → History size s.calls s.log) ∧
      (s.main.Calling → ∃ closed j seg, s.log = closed ++ .call j :: seg ∧ s.calls = j.call + 1 ∧
        History size j.call closed ∧ ∀ e ∈ seg, ∃ t, t < size ∧ e.thread = some t) := by
  obtain ⟨hsz, closed, seg, hinv⟩ := runs_inv hp h
  subst hsz
  constructor
  · intro hc
    have hj : s.main.job = none := by
      cases hm : s.main <;> rw [hm] at hc <;> first | rfl | exact absurd trivial hc
    obtain ⟨h1, h2⟩ := hinv.between hj
    have := hinv.log
    rw [hj, h1] at this
    rw [this]
    simpa using h2
  · intro hc
    have hj : ∃ j, s.main.job = some j := by
      cases hm : s.main <;> rw [hm] at hc <;> first | exact ⟨_, rfl⟩ | cases hc
    obtain ⟨j, hj⟩ := hj
    obtain ⟨h1, h2⟩ := hinv.during j hj
    refine ⟨closed, j, seg, ?_, h2, h1, hinv.segs⟩
    rw [hinv.log, hj]
    rfl

/-- **C32, exactly once.** Each of the calls which have returned began and ended each of its tasks exactly
once, the k-th by thread k mod size, and nothing else, before its return. -/
theorem C32_once_partial {size : Nat} (hp : 0 < size) {s : Sys} (h : Runs size s) (hc : ¬ s.main.Calling) {m : Nat}
    (hm : m < s.calls) :
    ∃ n before es after, s.log = before ++ .call ⟨m, n⟩ :: es ++ .ret ⟨m, n⟩ :: after ∧
      (∀ j k t, es.count (.enter j k t) = if j = ⟨m, n⟩ ∧ k < n ∧ t = k % size then 1 else 0) ∧
      (∀ j k t, es.count (.leave j k t) = if j = ⟨m, n⟩ ∧ k < n ∧ t = k % size then 1 else 0) ∧
      (∀ k, k < n → [Event.enter ⟨m, n⟩ k (k % size), Event.leave ⟨m, n⟩ k (k % size)].Sublist es) ∧
      ∀ e ∈ es, (∃ j k t, e = .enter j k t) ∨ ∃ j k t, e = .leave j k t := by
  obtain ⟨n, b, es, a, h1, h2⟩ := ((C32_calls_partial hp h).1 hc).get hm
  refine ⟨n, b, es, a, h1, fun j k t => (h2.once hp j k t).1, fun j k t => (h2.once hp j k t).2,
    fun k hk => h2.order hp hk, ?_⟩
  intro e he
  obtain ⟨t, _, ht⟩ := h2.1 e he
  cases e with
  | enter j k t => exact Or.inl ⟨j, k, t, rfl⟩
  | leave j k t => exact Or.inr ⟨j, k, t, rfl⟩
  | call j => cases ht
  | ret j => cases ht

/-- **C32, returns.** In all fair executions the pool gets ready, and every call returns. -/
theorem C32_returns_partial {size : Nat} (hp : 0 < size) {σ : Nat → Sys} {τ : Nat → Nat} (hf : Fair size σ τ) :
    (∃ i, (σ i).main = .idle) ∧ ∀ i, (σ i).main.Calling → ∃ i', i ≤ i' ∧ (σ i').main = .idle := by
  refine ⟨hf.ready hp, fun i hc => ?_⟩
  have hj : ∃ j, (σ i).main.job = some j := by
    cases hm : (σ i).main <;> rw [hm] at hc <;> first | exact ⟨_, rfl⟩ | cases hc
  obtain ⟨j, hj⟩ := hj
  exact hf.returns hp hj

/-- **C32, destruction.** Once the destructor has returned all workers have ended, and in all fair
executions it does return. -/
theorem C32_destroyed_partial {size : Nat} (hp : 0 < size) :
    (∀ s, Runs size s → s.main = .gone → ∀ t, 0 < t → t < size → s.worker t = .over) ∧
      ∀ σ τ, Fair size σ τ → ∀ i, (σ i).life = false →
        ∃ i', i ≤ i' ∧ (σ i').main = .gone ∧ ∀ t, 0 < t → t < size → (σ i').worker t = .over := by
  have hsafe : ∀ s, Runs size s → s.main = .gone → ∀ t, 0 < t → t < size → s.worker t = .over := by
    intro s h hm t ht0 ht
    obtain ⟨hsz, closed, seg, hinv⟩ := runs_inv hp h
    have hw := hinv.workers t ht0 (by omega)
    rw [hm] at hw
    exact hw.2
  refine ⟨hsafe, ?_⟩
  intro σ τ hf i hl
  obtain ⟨hsz, closed, seg, hinv⟩ := hf.ok hp i
  have hlife := hinv.life
  rw [hl] at hlife
  have : ∃ i', i ≤ i' ∧ (σ i').main = .gone := by
    cases hm : (σ i).main with
    | join k => exact hf.ends hp hm
    | gone => exact ⟨i, le_refl i, hm⟩
    | _ => rw [hm] at hlife; cases hlife
  obtain ⟨i', h1, h2⟩ := this
  exact ⟨i', h1, h2, hsafe _ (hf.runs i') h2⟩

/-- **C32 is violated from construction on.** A worker thread is launched before the members which it reads are
initialised, as they are declared after it (PoolAware.h: Worker): with any two threads there is an execution
whose next action is the load of a variable which is not initialised. -/
theorem C32_violated {size : Nat} (hs : 2 ≤ size) : ∃ s, Runs size s ∧ Undefined s := by
  have h1 : 1 < (initial size).size := hs
  refine ⟨_, (Runs.init.step (.main (.launch rfl h1))).step (.worker (t := 1) (by omega) (.alive rfl)), 1, ?_, ?_⟩
  · rfl
  · rfl

/-! ### Examples -/

namespace Ex

/-- Two threads; two calls, of three tasks and of one. The threads take turns. -/
def turns : List Nat := (List.range 60).map (· % 2)

/-- A call has returned and another has begun. -/
example : (after 2 [3, 1] (turns.take 34)).log =
    [.call ⟨0, 3⟩, .enter ⟨0, 3⟩ 0 0, .enter ⟨0, 3⟩ 1 1, .leave ⟨0, 3⟩ 0 0, .leave ⟨0, 3⟩ 1 1, .enter ⟨0, 3⟩ 2 0,
      .leave ⟨0, 3⟩ 2 0, .ret ⟨0, 3⟩, .call ⟨1, 1⟩, .enter ⟨1, 1⟩ 0 0] := by decide +kernel

example : ∃ closed j seg, (after 2 [3, 1] (turns.take 34)).log = closed ++ .call j :: seg ∧
    (after 2 [3, 1] (turns.take 34)).calls = j.call + 1 ∧ History 2 j.call closed ∧
    ∀ e ∈ seg, ∃ t, t < 2 ∧ e.thread = some t :=
  (C32_calls_partial (by decide) (runs_after 2 [3, 1] _)).2 (by
    rw [show (after 2 [3, 1] (turns.take 34)).main = .inside ⟨1, 1⟩ 0 by decide +kernel]; trivial)

/-- The two calls have returned. -/
example : ∃ n before es later, (after 2 [3, 1] (turns.take 42)).log = before ++ .call ⟨0, n⟩ :: es ++ .ret ⟨0, n⟩ :: later ∧
    ∀ j k t, es.count (.enter j k t) = if j = ⟨0, n⟩ ∧ k < n ∧ t = k % 2 then 1 else 0 := by
  have hm : (after 2 [3, 1] (turns.take 42)).main = .idle := by decide +kernel
  obtain ⟨n, b, es, a, h1, h2, _⟩ := C32_once_partial (m := 0) (by decide) (runs_after 2 [3, 1] (turns.take 42))
    (by rw [hm]; exact id) (by decide +kernel)
  exact ⟨n, b, es, a, h1, h2⟩

/-- A call of seven tasks to a pool of three threads returns. -/
example : ∃ i, (robin 3 [7] i).main.Calling ∧ ∃ i', i ≤ i' ∧ (robin 3 [7] i').main = .idle := by
  have hm : (robin 3 [7] 30).main.Calling := by
    have h : (robin 3 [7] 30).main = .inside ⟨0, 7⟩ 0 := by decide +kernel
    simp only [h, MainPc.Calling]
  exact ⟨30, hm, (C32_returns_partial (by decide) (robin_fair 3 [7])).2 30 hm⟩

/-- It is then destroyed. -/
example : ∃ i', 80 ≤ i' ∧ (robin 3 [7] i').main = .gone ∧ ∀ t, 0 < t → t < 3 → (robin 3 [7] i').worker t = .over :=
  (C32_destroyed_partial (by decide)).2 _ _ (robin_fair 3 [7]) 80 (by decide +kernel)

end Ex

end Pool
end EFG
