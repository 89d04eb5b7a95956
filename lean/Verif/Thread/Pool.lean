import Mathlib.Data.Multiset.AddSub
import Mathlib.Data.Multiset.Bind
import Mathlib.Algebra.BigOperators.Group.Finset.Basic
import Mathlib.Algebra.BigOperators.Fin
import Mathlib.Logic.Function.Basic
import Mathlib.Logic.Relation

/-!
# Model of the thread pool

Source: `cppcore/include/detail/thread.hpp`: `Queue` (7-86) and `ThreadPool` (167-201).

Threads are interleaved.  A critical section (the code between taking and releasing the mutex of the queue) is one
step; everything outside of critical sections is a separate step.  `condition_variable::wait(lock, predicate)` is the
loop `while (!predicate()) wait(lock)`: evaluating the predicate is part of the critical section, a thread that finds
it false is put to sleep (`waiting`) and evaluates it again after it is woken up.  `notify_one` wakes one waiting thread,
chosen arbitrarily, if there is one; `notify_all` wakes all.  A waiting thread may also wake up spuriously.

The queue of the pool has no bound (`max_size` is the largest `size_t`), so nothing waits on `production_cv`.
Exceptions thrown by a job (which terminate the program) are not modelled.
-/

namespace Verif.Thread

/-- What a job does to the memory `σ` that it shares with other jobs: a sequence of atomic steps, where `R` is the
local state of a running job.  `none`: the job has returned.
The `std::function<void()>` of thread.hpp:199. -/
structure JobSem (J σ R : Type) where
  start : J → R
  step : R → σ → σ × Option R

/-- What the owner of a pool calls: `add(f)`, thread.hpp:182-185, or `join()`, thread.hpp:187-195. -/
inductive Cmd (J : Type) where
  | add (j : J)
  | join
deriving DecidableEq

/-- Where a worker thread is, thread.hpp:172-176 and `pop`, 45-57. -/
inductive Worker (J R : Type) where
  /-- the thread has not been created yet -/
  | unborn
  /-- about to take the mutex in `pop` (for the first time, or after waking up) -/
  | start
  /-- asleep in `consumption_cv.wait` -/
  | waiting
  /-- has taken a job from the queue and released the mutex; about to notify `production_cv` -/
  | got (j : J)
  /-- the job runs -/
  | running (r : R)
  /-- the loop has ended -/
  | done
deriving DecidableEq

/-- Effect of `notify_all` on a worker. thread.hpp:42, 72. -/
def Worker.wake {J R : Type} : Worker J R → Worker J R
  | .waiting => .start
  | x => x

/-- Where the owner of the pool is. thread.hpp:169-195. -/
inductive Main where
  /-- in the constructor, about to create thread `i` -/
  | spawn (i : Nat)
  /-- between two calls -/
  | idle
  /-- in `push`, about to notify -/
  | notify
  /-- in `remove_producer`, about to notify -/
  | notifyAll
  /-- in `join`, waits for the end of thread `i` -/
  | joining (i : Nat)
deriving DecidableEq

/-- The pool with `W` workers, its queue, and the shared memory of the jobs.
thread.hpp:77-85, 197-200. -/
structure Pool (W : Nat) (J σ R : Type) where
  q : List J
  closed : Bool
  producers : Int
  workers : Fin W → Worker J R
  main : Main
  todo : List (Cmd J)
  joined : Bool
  mem : σ

variable {W : Nat} {J σ R : Type}

/-- A new pool, in its constructor after `queue.add_producer()`, thread.hpp:169-170 (and 29-34).  The owner is going to
make the calls `prog`; the last `join` is that of the destructor, thread.hpp:180. -/
def Pool.init (W : Nat) (R : Type) (prog : List (Cmd J)) (mem : σ) : Pool W J σ R :=
  ⟨[], false, 1, fun _ => .unborn, .spawn 0, prog ++ [.join], false, mem⟩

/-- The steps of all threads, except spurious wake-ups. thread.hpp:29-73, 167-195. -/
inductive Step (P : JobSem J σ R) : Pool W J σ R → Pool W J σ R → Prop
  /-- constructor: create a thread, thread.hpp:171-177 -/
  | spawn (s : Pool W J σ R) (i : Nat) (h : s.main = .spawn i) (hi : i < W) :
      Step P s { s with workers := Function.update s.workers ⟨i, hi⟩ .start, main := .spawn (i + 1) }
  /-- constructor: end -/
  | spawned (s : Pool W J σ R) (h : s.main = .spawn W) : Step P s { s with main := .idle }
  /-- `push`, critical section, thread.hpp:68-71 -/
  | add (s : Pool W J σ R) (j : J) (t : List (Cmd J)) (h : s.main = .idle) (ht : s.todo = .add j :: t) :
      Step P s { s with q := s.q ++ [j], todo := t, main := .notify }
  /-- `push`: `notify_one`, nobody waits, thread.hpp:72 -/
  | notifyNone (s : Pool W J σ R) (h : s.main = .notify) (hw : ∀ w, s.workers w ≠ .waiting) :
      Step P s { s with main := .idle }
  /-- `push`: `notify_one` wakes a worker -/
  | notifyOne (s : Pool W J σ R) (w : Fin W) (h : s.main = .notify) (hw : s.workers w = .waiting) :
      Step P s { s with workers := Function.update s.workers w .start, main := .idle }
  /-- `join` on a joined pool, thread.hpp:188 -/
  | joinAgain (s : Pool W J σ R) (t : List (Cmd J)) (h : s.main = .idle) (ht : s.todo = .join :: t) (hj : s.joined = true) :
      Step P s { s with todo := t }
  /-- `join`: `remove_producer`, critical section, thread.hpp:37-41 -/
  | close (s : Pool W J σ R) (t : List (Cmd J)) (h : s.main = .idle) (ht : s.todo = .join :: t) (hj : s.joined = false) :
      Step P s { s with producers := s.producers - 1, closed := if s.producers - 1 ≤ 0 then true else s.closed, main := .notifyAll }
  /-- `remove_producer`: `notify_all`, thread.hpp:42 -/
  | notifyAll (s : Pool W J σ R) (h : s.main = .notifyAll) :
      Step P s { s with
        workers := fun w => (s.workers w).wake
        main := .joining 0 }
  /-- `join`: thread `i` has ended, thread.hpp:191-193 -/
  | joinOne (s : Pool W J σ R) (i : Nat) (h : s.main = .joining i) (hi : i < W) (hd : s.workers ⟨i, hi⟩ = .done) :
      Step P s { s with main := .joining (i + 1) }
  /-- `join`: end, thread.hpp:194 -/
  | joinEnd (s : Pool W J σ R) (h : s.main = .joining W) :
      Step P s { s with joined := true, todo := s.todo.tail, main := .idle }
  /-- `pop`: take a job, thread.hpp:46-54 -/
  | popJob (s : Pool W J σ R) (w : Fin W) (j : J) (q : List J) (h : s.workers w = .start) (hq : s.q = j :: q) :
      Step P s { s with q := q, workers := Function.update s.workers w (.got j) }
  /-- `pop`: the queue is empty and closed, thread.hpp:49-50; the loop of the worker ends, thread.hpp:173 -/
  | popClosed (s : Pool W J σ R) (w : Fin W) (h : s.workers w = .start) (hq : s.q = []) (hc : s.closed = true) :
      Step P s { s with workers := Function.update s.workers w .done }
  /-- `pop`: the predicate is false, thread.hpp:47 -/
  | popWait (s : Pool W J σ R) (w : Fin W) (h : s.workers w = .start) (hq : s.q = []) (hc : s.closed = false) :
      Step P s { s with workers := Function.update s.workers w .waiting }
  /-- `pop`: notify `production_cv` (nobody waits there), thread.hpp:55; the job starts, thread.hpp:174 -/
  | begin (s : Pool W J σ R) (w : Fin W) (j : J) (h : s.workers w = .got j) :
      Step P s { s with workers := Function.update s.workers w (.running (P.start j)) }
  /-- a step of a job -/
  | run (s : Pool W J σ R) (w : Fin W) (r r' : R) (m : σ) (h : s.workers w = .running r) (hr : P.step r s.mem = (m, some r')) :
      Step P s { s with mem := m, workers := Function.update s.workers w (.running r') }
  /-- the last step of a job -/
  | finish (s : Pool W J σ R) (w : Fin W) (r : R) (m : σ) (h : s.workers w = .running r) (hr : P.step r s.mem = (m, none)) :
      Step P s { s with mem := m, workers := Function.update s.workers w .start }

/-- A spurious wake-up of a waiting worker. The waits of thread.hpp:47, 69. -/
inductive Spurious : Pool W J σ R → Pool W J σ R → Prop
  | wake (s : Pool W J σ R) (w : Fin W) (h : s.workers w = .waiting) :
      Spurious s { s with workers := Function.update s.workers w .start }

/-- The states that a new pool can reach, under every schedule. thread.hpp:167-201. -/
inductive Reach (P : JobSem J σ R) (prog : List (Cmd J)) (mem : σ) : Pool W J σ R → Prop
  | init : Reach P prog mem (Pool.init W R prog mem)
  | step {s s'} : Reach P prog mem s → Step P s s' → Reach P prog mem s'
  | spurious {s s'} : Reach P prog mem s → Spurious s s' → Reach P prog mem s'

/-- All calls, including the destructor, have returned. thread.hpp:180, 187-195. -/
def Pool.Finished (s : Pool W J σ R) : Prop := s.main = .idle ∧ s.todo = []

/-! ## Specification: a bag of jobs -/

/-- Specification.  The meaning of running jobs concurrently, without threads and queues: any job may start, and any
running job may take its next step, in any order.  The state is the memory, the jobs that have not been started and
those that run. -/
inductive Bag (P : JobSem J σ R) : σ × Multiset J × Multiset R → σ × Multiset J × Multiset R → Prop
  | start (m : σ) (j : J) (js : Multiset J) (rs : Multiset R) : Bag P (m, j ::ₘ js, rs) (m, js, P.start j ::ₘ rs)
  | run (m m' : σ) (r r' : R) (js : Multiset J) (rs : Multiset R) (h : P.step r m = (m', some r')) :
      Bag P (m, js, r ::ₘ rs) (m', js, r' ::ₘ rs)
  | finish (m m' : σ) (r : R) (js : Multiset J) (rs : Multiset R) (h : P.step r m = (m', none)) :
      Bag P (m, js, r ::ₘ rs) (m', js, rs)

/-- Specification.  `m'` is a possible result of running all `jobs`, each of them exactly once and to its end. -/
def RunsAll (P : JobSem J σ R) (m : σ) (jobs : List J) (m' : σ) : Prop :=
  Relation.ReflTransGen (Bag P) (m, ↑jobs, 0) (m', 0, 0)

end Verif.Thread
