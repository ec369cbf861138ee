import Mathlib.Data.List.Basic
import Mathlib.Logic.Function.Basic
/-
The pool of threads: structure/bases/PoolAware.{h,cpp}, as a system of threads which execute one
atomic action at a time in any order (the atomic variables are sequentially consistent, the default
of `std::atomic`).

Simplified: one thread creates the pool, calls `parallelFor` and destroys the pool, as the library does
(the mutex of `parallelFor`, PoolAware.cpp:53, is never contended); tasks do not throw; a task is the
event of its begin and that of its end.
-/

namespace EFG
namespace Pool

/-- A call of `parallelFor`: its number and the number of its tasks. -/
structure Job where
  call : Nat
  tasks : Nat
  deriving DecidableEq

/-- What an observer sees: the k-th task of a call begins and ends on a thread, a call begins and returns. -/
inductive Event where
  | call (j : Job)
  | enter (j : Job) (k thread : Nat)
  | leave (j : Job) (k thread : Nat)
  | ret (j : Job)
  deriving DecidableEq

/-- The variable `to_process` of a worker (PoolAware.h:49); `raw` before its initialisation. -/
inductive Slot where
  | raw
  | empty
  | task (j : Job)
  deriving DecidableEq

/-- Where the thread of a worker is (PoolAware.cpp:22-30). -/
inductive WorkerPc where
  /-- Not launched yet. -/
  | absent
  /-- `while (context.life.load())`. -/
  | check
  /-- `to_process.load()`. -/
  | load
  /-- The test `k < subject.size()` of `process_tasks_in_parallel` (PoolAware.cpp:16). -/
  | exec (j : Job) (k : Nat)
  /-- Inside the task `k`. -/
  | inside (j : Job) (k : Nat)
  /-- `to_process.store(nullptr)`. -/
  | clear (j : Job)
  /-- The thread has ended. -/
  | over
  deriving DecidableEq

/-- Where the thread which owns the pool is. -/
inductive MainPc where
  /-- The loop of the constructor of the pool (PoolAware.cpp:37-39) before worker `k`. -/
  | start (k : Nat)
  /-- The thread of worker `k` runs, its variable `to_process` is still to be initialised: the member
  `loop` is declared, and so initialised, before `to_process` (PoolAware.h:47-49). -/
  | init (k : Nat)
  /-- Outside of the pool. -/
  | idle
  /-- The loop storing the tasks (PoolAware.cpp:54-56) before worker `k`. -/
  | publish (j : Job) (k : Nat)
  /-- Its own part of the tasks (PoolAware.cpp:57). -/
  | exec (j : Job) (k : Nat)
  | inside (j : Job) (k : Nat)
  /-- The loop waiting for the workers (PoolAware.cpp:58-67) before worker `k`. -/
  | scan (j : Job) (k : Nat)
  /-- The destructor (PoolAware.cpp:42-50) before joining worker `k`. -/
  | join (k : Nat)
  /-- The pool is destroyed. -/
  | gone
  deriving DecidableEq

/-- The state of the threads and of the pool. -/
structure Sys where
  size : Nat
  main : MainPc
  worker : Nat → WorkerPc
  slot : Nat → Slot
  life : Bool
  calls : Nat
  log : List Event

/-- The constructor is entered with a positive size (0 throws, PoolAware.cpp:33-35). -/
def initial (size : Nat) : Sys :=
  { size := size, main := .start 1, worker := fun _ => .absent, slot := fun _ => .raw, life := true, calls := 0,
    log := [] }

/-- A step of the thread of a worker (PoolAware.cpp:22-30, 13-19). There is none which loads a variable not
initialised: that is undefined. -/
inductive WStep (size : Nat) (life : Bool) (t : Nat) : WorkerPc → Slot → WorkerPc → Slot → List Event → Prop where
  | alive {sl} : life = true → WStep size life t .check sl .load sl []
  | dead {sl} : life = false → WStep size life t .check sl .over sl []
  | nothing : WStep size life t .load .empty .check .empty []
  | take {j} : WStep size life t .load (.task j) (.exec j t) (.task j) []
  | enter {j k sl} : k < j.tasks → WStep size life t (.exec j k) sl (.inside j k) sl [.enter j k t]
  | leave {j k sl} : WStep size life t (.inside j k) sl (.exec j (k + size)) sl [.leave j k t]
  | finish {j k sl} : ¬ k < j.tasks → WStep size life t (.exec j k) sl (.clear j) sl []
  | clear {j sl} : WStep size life t (.clear j) sl .check .empty []

/-- A step of the thread which owns the pool. -/
inductive MStep : Sys → Sys → Prop where
  | launch {s k} : s.main = .start k → k < s.size →
      MStep s { s with main := .init k, worker := Function.update s.worker k .check }
  | init {s k} : s.main = .init k → MStep s { s with main := .start (k + 1), slot := Function.update s.slot k .empty }
  | built {s k} : s.main = .start k → ¬ k < s.size → MStep s { s with main := .idle }
  | call {s : Sys} {n : Nat} : s.main = .idle →
      MStep s { s with main := .publish ⟨s.calls, n⟩ 1, calls := s.calls + 1, log := s.log ++ [.call ⟨s.calls, n⟩] }
  | publish {s j k} : s.main = .publish j k → k < s.size →
      MStep s { s with main := .publish j (k + 1), slot := Function.update s.slot k (.task j) }
  | published {s j k} : s.main = .publish j k → ¬ k < s.size → MStep s { s with main := .exec j 0 }
  | enter {s j k} : s.main = .exec j k → k < j.tasks →
      MStep s { s with main := .inside j k, log := s.log ++ [.enter j k 0] }
  | leave {s j k} : s.main = .inside j k →
      MStep s { s with main := .exec j (k + s.size), log := s.log ++ [.leave j k 0] }
  | wait {s j k} : s.main = .exec j k → ¬ k < j.tasks → MStep s { s with main := .scan j 1 }
  | scanned {s j k} : s.main = .scan j k → k < s.size → s.slot k = .empty → MStep s { s with main := .scan j (k + 1) }
  | again {s j k i} : s.main = .scan j k → k < s.size → s.slot k = .task i → MStep s { s with main := .scan j 1 }
  | ret {s j k} : s.main = .scan j k → ¬ k < s.size → MStep s { s with main := .idle, log := s.log ++ [.ret j] }
  | destroy {s} : s.main = .idle → MStep s { s with main := .join 1, life := false }
  | join {s k} : s.main = .join k → k < s.size → s.worker k = .over → MStep s { s with main := .join (k + 1) }
  | gone {s k} : s.main = .join k → ¬ k < s.size → MStep s { s with main := .gone }

/-- A step of thread `t`; thread 0 owns the pool, the others are the workers. -/
inductive Step : Nat → Sys → Sys → Prop where
  | main {s s'} : MStep s s' → Step 0 s s'
  | worker {s t w sl es} : 0 < t → WStep s.size s.life t (s.worker t) (s.slot t) w sl es →
      Step t s { s with worker := Function.update s.worker t w, slot := Function.update s.slot t sl, log := s.log ++ es }

/-- The states of all executions. -/
inductive Runs (size : Nat) : Sys → Prop where
  | init : Runs size (initial size)
  | step {t s s'} : Runs size s → Step t s s' → Runs size s'

/-- The next action of a thread loads a variable which is not initialised. -/
def Undefined (s : Sys) : Prop := ∃ t, s.worker t = .load ∧ s.slot t = .raw

end Pool
end EFG
