import Mathlib.Data.Fintype.BigOperators
import Mathlib.Data.Multiset.Range
import Verif.Thread.PoolInv

/-!
# `parallel_for`

A production thread, `num_threads` compute threads and a report thread, connected by a bounded work queue and an
unbounded retirement queue.  The steps are the critical sections of the queues, the notifications after them, and the
three user functions.

Simplifications: all threads exist from the start, which is the same as being created and not yet having made a step;
the calling thread, which only creates and joins them, is left out, and `PF.Returned` says when it returns. The
user functions are pure and do not throw; their calls are recorded in logs.  `max_size` of the retirement queue, the
largest `size_t`, is never reached.
-/

namespace Verif.Thread

/-- Program points of the production thread (thread.hpp:131-136). -/
inductive Producer (V : Type) where
  /-- `QueueGuard` constructor -/
  | reg
  /-- loop condition with index `k` -/
  | make (k : Nat)
  /-- in `push`, about to lock or to test the predicate -/
  | push (k : Nat) (v : V)
  /-- in `push`, waits on `production_cv` -/
  | waiting (k : Nat) (v : V)
  /-- in `push`, about to notify `consumption_cv` -/
  | notify (k : Nat)
  /-- `QueueGuard` destructor: `remove_producer` -/
  | unreg
  /-- in `remove_producer`, about to notify -/
  | notifyAll
  | done

/-- Program points of a compute thread (thread.hpp:142-149). -/
inductive Computer (V : Type) where
  | reg
  /-- in `pop`, about to lock or to test the predicate -/
  | pop
  | waiting
  /-- in `pop`, about to notify `production_cv` -/
  | got (k : Nat) (v : V)
  /-- about to call `compute` -/
  | compute (k : Nat) (v : V)
  /-- about to push to the retirement queue -/
  | push (k : Nat) (v : V)
  /-- in `push`, about to notify `consumption_cv` of the retirement queue -/
  | notify
  | unreg
  | notifyAll
  | done

/-- Program points of the report thread (thread.hpp:153-158). -/
inductive Reporter (V : Type) where
  | pop
  | waiting
  /-- about to call `retire` (the notification of `production_cv` in `pop` is left out: nobody waits there) -/
  | retire (k : Nat) (v : V)
  | done

/-- Notification of `production_cv` of the work queue. thread.hpp:55. -/
def Producer.wake {V : Type} : Producer V → Producer V
  | .waiting k v => .push k v
  | p => p

/-- Notification of all compute threads. thread.hpp:42, 72. -/
def Computer.wake {V : Type} : Computer V → Computer V
  | .waiting => .pop
  | p => p

/-- Notification of the report thread. thread.hpp:42, 72. -/
def Reporter.wake {V : Type} : Reporter V → Reporter V
  | .waiting => .pop
  | p => p

/-- State of a call of `parallel_for`. thread.hpp:114-165. -/
structure PF (W : Nat) (V : Type) where
  /-- work queue: content, `is_closed`, `num_producers` -/
  wq : List (Nat × V)
  wclosed : Bool
  wprod : Int
  /-- retirement queue -/
  rq : List (Nat × V)
  rclosed : Bool
  rprod : Int
  prod : Producer V
  workers : Fin W → Computer V
  rep : Reporter V
  /-- calls of `produce`, `compute` and `retire` that were made -/
  produced : List Nat
  computed : List Nat
  retired : List (Nat × V)

/-- The arguments of `parallel_for` (thread.hpp:114-116). -/
structure PFArgs (V : Type) where
  size : Nat
  queueSize : Nat
  produce : Nat → V
  compute : V → V

variable {W : Nat} {V : Type}

/-- `queue_size > 0 ? queue_size : num_threads` (thread.hpp:127). -/
def PFArgs.cap (A : PFArgs V) (W : Nat) : Nat := if A.queueSize > 0 then A.queueSize else W

/-- The state at the start of `parallel_for`: both queues are empty and all threads are created. thread.hpp:127-158. -/
def PF.init (W : Nat) (V : Type) : PF W V :=
  ⟨[], false, 0, [], false, 0, .reg, fun _ => .reg, .pop, [], [], []⟩

/-- The steps of all threads, except spurious wake-ups. thread.hpp:29-73, 114-165. -/
inductive PFStep (A : PFArgs V) : PF W V → PF W V → Prop
  /-- `add_producer` of the work queue, thread.hpp:29-34 -/
  | pReg (s : PF W V) (h : s.prod = .reg) :
      PFStep A s { s with wprod := s.wprod + 1, wclosed := if s.wprod + 1 > 0 then false else s.wclosed, prod := .make 0 }
  /-- call of `produce`, thread.hpp:133-134 -/
  | pMake (s : PF W V) (k : Nat) (h : s.prod = .make k) (hk : k < A.size) :
      PFStep A s { s with prod := .push k (A.produce k), produced := s.produced ++ [k] }
  /-- end of the loop -/
  | pEnd (s : PF W V) (k : Nat) (h : s.prod = .make k) (hk : ¬ k < A.size) : PFStep A s { s with prod := .unreg }
  /-- `push` to the work queue, thread.hpp:67-71 -/
  | pPush (s : PF W V) (k : Nat) (v : V) (h : s.prod = .push k v) (hq : s.wq.length < A.cap W) :
      PFStep A s { s with wq := s.wq ++ [(k, v)], prod := .notify k }
  /-- the work queue is full, thread.hpp:69 -/
  | pWait (s : PF W V) (k : Nat) (v : V) (h : s.prod = .push k v) (hq : ¬ s.wq.length < A.cap W) :
      PFStep A s { s with prod := .waiting k v }
  /-- `notify_one`, nobody waits, thread.hpp:72 -/
  | pNotifyNone (s : PF W V) (k : Nat) (h : s.prod = .notify k) (hw : ∀ w, s.workers w ≠ .waiting) :
      PFStep A s { s with prod := .make (k + 1) }
  /-- `notify_one` wakes some compute thread -/
  | pNotifyOne (s : PF W V) (k : Nat) (w : Fin W) (h : s.prod = .notify k) (hw : s.workers w = .waiting) :
      PFStep A s { s with workers := Function.update s.workers w .pop, prod := .make (k + 1) }
  /-- `remove_producer` of the work queue, thread.hpp:37-40 -/
  | pUnreg (s : PF W V) (h : s.prod = .unreg) :
      PFStep A s { s with wprod := s.wprod - 1, wclosed := if s.wprod - 1 ≤ 0 then true else s.wclosed, prod := .notifyAll }
  /-- `notify_all`, thread.hpp:42 -/
  | pNotifyAll (s : PF W V) (h : s.prod = .notifyAll) :
      PFStep A s { s with workers := fun w => (s.workers w).wake, prod := .done }
  /-- `add_producer` of the retirement queue -/
  | wReg (s : PF W V) (w : Fin W) (h : s.workers w = .reg) :
      PFStep A s { s with rprod := s.rprod + 1, rclosed := if s.rprod + 1 > 0 then false else s.rclosed,
                          workers := Function.update s.workers w .pop }
  /-- `pop` from the work queue, thread.hpp:46-54 -/
  | wPop (s : PF W V) (w : Fin W) (k : Nat) (v : V) (q : List (Nat × V)) (h : s.workers w = .pop) (hq : s.wq = (k, v) :: q) :
      PFStep A s { s with wq := q, workers := Function.update s.workers w (.got k v) }
  /-- the work queue is empty and closed: the loop ends, thread.hpp:49-50, 144 -/
  | wPopClosed (s : PF W V) (w : Fin W) (h : s.workers w = .pop) (hq : s.wq = []) (hc : s.wclosed = true) :
      PFStep A s { s with workers := Function.update s.workers w .unreg }
  /-- the predicate of the wait is false, thread.hpp:47 -/
  | wWait (s : PF W V) (w : Fin W) (h : s.workers w = .pop) (hq : s.wq = []) (hc : s.wclosed = false) :
      PFStep A s { s with workers := Function.update s.workers w .waiting }
  /-- `notify_one` on `production_cv`, thread.hpp:55 -/
  | wGot (s : PF W V) (w : Fin W) (k : Nat) (v : V) (h : s.workers w = .got k v) :
      PFStep A s { s with workers := Function.update s.workers w (.compute k v), prod := s.prod.wake }
  /-- call of `compute`, thread.hpp:146 -/
  | wCompute (s : PF W V) (w : Fin W) (k : Nat) (v : V) (h : s.workers w = .compute k v) :
      PFStep A s { s with workers := Function.update s.workers w (.push k (A.compute v)), computed := s.computed ++ [k] }
  /-- `push` to the retirement queue, thread.hpp:147 -/
  | wPush (s : PF W V) (w : Fin W) (k : Nat) (v : V) (h : s.workers w = .push k v) :
      PFStep A s { s with rq := s.rq ++ [(k, v)], workers := Function.update s.workers w .notify }
  /-- `notify_one` of the report thread -/
  | wNotify (s : PF W V) (w : Fin W) (h : s.workers w = .notify) :
      PFStep A s { s with workers := Function.update s.workers w .pop, rep := s.rep.wake }
  /-- `remove_producer` of the retirement queue -/
  | wUnreg (s : PF W V) (w : Fin W) (h : s.workers w = .unreg) :
      PFStep A s { s with rprod := s.rprod - 1, rclosed := if s.rprod - 1 ≤ 0 then true else s.rclosed,
                          workers := Function.update s.workers w .notifyAll }
  /-- `notify_all` of the report thread -/
  | wNotifyAll (s : PF W V) (w : Fin W) (h : s.workers w = .notifyAll) :
      PFStep A s { s with workers := Function.update s.workers w .done, rep := s.rep.wake }
  /-- `pop` from the retirement queue -/
  | rPop (s : PF W V) (k : Nat) (v : V) (q : List (Nat × V)) (h : s.rep = .pop) (hq : s.rq = (k, v) :: q) :
      PFStep A s { s with rq := q, rep := .retire k v }
  /-- the retirement queue is empty and closed -/
  | rPopClosed (s : PF W V) (h : s.rep = .pop) (hq : s.rq = []) (hc : s.rclosed = true) :
      PFStep A s { s with rep := .done }
  | rWait (s : PF W V) (h : s.rep = .pop) (hq : s.rq = []) (hc : s.rclosed = false) :
      PFStep A s { s with rep := .waiting }
  /-- call of `retire`, thread.hpp:156 -/
  | rRetire (s : PF W V) (k : Nat) (v : V) (h : s.rep = .retire k v) :
      PFStep A s { s with retired := s.retired ++ [(k, v)], rep := .pop }

/-- Spurious wake-ups. The waits of thread.hpp:47, 69. -/
inductive PFSpurious : PF W V → PF W V → Prop
  | prod (s : PF W V) (k : Nat) (v : V) (h : s.prod = .waiting k v) : PFSpurious s { s with prod := .push k v }
  | worker (s : PF W V) (w : Fin W) (h : s.workers w = .waiting) :
      PFSpurious s { s with workers := Function.update s.workers w .pop }
  | rep (s : PF W V) (h : s.rep = .waiting) : PFSpurious s { s with rep := .pop }

/-- The states a call can reach, under every schedule. thread.hpp:114-165. -/
inductive PFReach (A : PFArgs V) : PF W V → Prop
  | init : PFReach A (PF.init W V)
  | step {s s'} : PFReach A s → PFStep A s s' → PFReach A s'
  | spurious {s s'} : PFReach A s → PFSpurious s s' → PFReach A s'

/-- `PFRun s n k s'`: from `s` to `s'` in `n` steps and `k` spurious wake-ups.
thread.hpp:114-165. -/
inductive PFRun (A : PFArgs V) : PF W V → Nat → Nat → PF W V → Prop
  | refl (s) : PFRun A s 0 0 s
  | step {s n k s' s''} : PFRun A s n k s' → PFStep A s' s'' → PFRun A s (n + 1) k s''
  | spurious {s n k s' s''} : PFRun A s n k s' → PFSpurious s' s'' → PFRun A s n (k + 1) s''

/-- The joins have succeeded (thread.hpp:160-164). -/
def PF.Returned (s : PF W V) : Prop := s.prod = .done ∧ (∀ w, s.workers w = .done) ∧ s.rep = .done

end Verif.Thread
