import Verif.Thread.ParallelFor

/-!
# Reference counts of the jobs of `parallel_for`

A job of `cppmodule/src/parallel.cpp` has a reference to the Python object that `produce` returned (`py::object py`, parallel.cpp:20-23).  `Queue::pop` copies the first job and
then removes it from the queue (thread.hpp:52-53): it increments the reference count of the object and decrements it, in a thread that does not hold the lock of the interpreter.
Both are not atomic: the count is read and written in two steps.  Moving a job does not touch the count.

Simplifications: the lock of the interpreter is left out, so that `produce` and `retire` of different jobs can overlap (more executions than there are). What `retire` does with its
argument is one change of the count: it adds `keeps k` references.  Python keeps `ext o` references to object `o` all the time and does not change their number while the call runs.
The second reference of a job, a `std::shared_ptr` with an atomic count, is left out.
-/

namespace Verif.Thread

variable {W : Nat} {V : Type}

/-- How far a thread is in copying the first job of a queue, thread.hpp:52-53: the count was read (`one`), the incremented count was written (`two`), and it was read again to be
decremented (`three`). -/
inductive Phase where
  | one (r : Nat)
  | two
  | three (r : Nat)
deriving DecidableEq

/-- A call of `parallel_for` with the reference counts of its objects. cppmodule/src/parallel.cpp:15-46. -/
structure Refs (W : Nat) (V : Type) where
  pf : PF W V
  /-- the counts in memory -/
  cnt : Nat → Nat
  /-- the compute thread that holds the mutex of the work queue to copy a job, and the job -/
  wc : Option (Fin W × Nat × Phase)
  /-- the report thread copies a job -/
  rc : Option (Nat × Phase)
  /-- the production thread has read the count of a new reference -/
  pc : Option Nat
  /-- the report thread has read the count to give a reference back -/
  tc : Option Nat
  /-- objects whose count became zero -/
  destroyed : List Nat
  /-- the count of an object that was destroyed has been read -/
  bad : Bool

/-- The objects returned by `produce`, and the references that Python keeps all the time and those it keeps after `retire`. cppmodule/src/parallel.cpp:27-43. -/
structure RefArgs (V : Type) extends PFArgs V where
  obj : Nat → Nat
  ext : Nat → Nat
  keeps : Nat → Nat

/-- Before the call. -/
def Refs.init (B : RefArgs V) (W : Nat) : Refs W V := ⟨PF.init W V, B.ext, none, none, none, none, [], false⟩

/-- Read the count of object `o`. -/
def Refs.see (s : Refs W V) (o : Nat) : Bool := s.bad || s.destroyed.contains o

/-- Write the count of object `o`; at zero the object is destroyed (`Py_DECREF`). -/
def Refs.put (s : Refs W V) (o n : Nat) : Refs W V :=
  { s with cnt := Function.update s.cnt o n, destroyed := if n = 0 then s.destroyed ++ [o] else s.destroyed }

/-- A step of `parallel_for` that neither makes, copies nor gives back a reference. thread.hpp:29-73, 114-165. -/
structure Plain (A : PFArgs V) (p p' : PF W V) : Prop where
  step : PFStep A p p'
  produced : p'.produced = p.produced
  retired : p'.retired = p.retired
  wq : p'.wq = p.wq ∨ ∃ x, p'.wq = p.wq ++ [x]
  rq : p'.rq = p.rq ∨ ∃ x, p'.rq = p.rq ++ [x]

/-- The steps of all threads. thread.hpp:29-73, 114-165, cppmodule/src/parallel.cpp:25-45. -/
inductive RefStep (B : RefArgs V) : Refs W V → Refs W V → Prop
  | plain (s : Refs W V) (p : PF W V) (h : Plain B.toPFArgs s.pf p) : RefStep B s { s with pf := p }
  | spurious (s : Refs W V) (p : PF W V) (h : PFSpurious s.pf p) : RefStep B s { s with pf := p }
  /-- `produce` makes a reference: the count is read, parallel.cpp:30-31 -/
  | pLoad (s : Refs W V) (k : Nat) (h : s.pf.prod = .make k) (hk : k < B.size) (hc : s.pc = none) :
      RefStep B s { s with pc := some (s.cnt (B.obj k)), bad := s.see (B.obj k) }
  /-- and written -/
  | pStore (s : Refs W V) (k r : Nat) (h : s.pf.prod = .make k) (hk : k < B.size) (hc : s.pc = some r) :
      RefStep B s { s.put (B.obj k) (r + 1) with pc := none, pf := { s.pf with prod := .push k (B.produce k), produced := s.pf.produced ++ [k] } }
  /-- `auto val = q.front()` of a compute thread: the count is read.  No other thread holds the mutex, thread.hpp:46-52. -/
  | wLoad (s : Refs W V) (w : Fin W) (k : Nat) (v : V) (q : List (Nat × V)) (h : s.pf.workers w = .pop) (hq : s.pf.wq = (k, v) :: q) (hc : s.wc = none) :
      RefStep B s { s with wc := some (w, k, .one (s.cnt (B.obj k))), bad := s.see (B.obj k) }
  /-- and written -/
  | wStore (s : Refs W V) (w : Fin W) (k r : Nat) (hc : s.wc = some (w, k, .one r)) :
      RefStep B s { s.put (B.obj k) (r + 1) with wc := some (w, k, .two) }
  /-- `q.pop()`: the count is read, thread.hpp:53 -/
  | wLoad' (s : Refs W V) (w : Fin W) (k : Nat) (hc : s.wc = some (w, k, .two)) :
      RefStep B s { s with wc := some (w, k, .three (s.cnt (B.obj k))), bad := s.see (B.obj k) }
  /-- and written, and the mutex is released, thread.hpp:53-54 -/
  | wStore' (s : Refs W V) (w : Fin W) (k r : Nat) (v : V) (q : List (Nat × V)) (h : s.pf.workers w = .pop) (hq : s.pf.wq = (k, v) :: q) (hc : s.wc = some (w, k, .three r)) :
      RefStep B s { s.put (B.obj k) (r - 1) with wc := none, pf := { s.pf with wq := q, workers := Function.update s.pf.workers w (.got k v) } }
  /-- the same in the report thread and the retirement queue -/
  | rLoad (s : Refs W V) (k : Nat) (v : V) (q : List (Nat × V)) (h : s.pf.rep = .pop) (hq : s.pf.rq = (k, v) :: q) (hc : s.rc = none) :
      RefStep B s { s with rc := some (k, .one (s.cnt (B.obj k))), bad := s.see (B.obj k) }
  | rStore (s : Refs W V) (k r : Nat) (hc : s.rc = some (k, .one r)) : RefStep B s { s.put (B.obj k) (r + 1) with rc := some (k, .two) }
  | rLoad' (s : Refs W V) (k : Nat) (hc : s.rc = some (k, .two)) :
      RefStep B s { s with rc := some (k, .three (s.cnt (B.obj k))), bad := s.see (B.obj k) }
  | rStore' (s : Refs W V) (k r : Nat) (v : V) (q : List (Nat × V)) (h : s.pf.rep = .pop) (hq : s.pf.rq = (k, v) :: q) (hc : s.rc = some (k, .three r)) :
      RefStep B s { s.put (B.obj k) (r - 1) with rc := none, pf := { s.pf with rq := q, rep := .retire k v } }
  /-- `retire(job.py, id); job.py.release().dec_ref()`, parallel.cpp:40-41: the count is read -/
  | tLoad (s : Refs W V) (k : Nat) (v : V) (h : s.pf.rep = .retire k v) (hc : s.tc = none) :
      RefStep B s { s with tc := some (s.cnt (B.obj k)), bad := s.see (B.obj k) }
  /-- and written -/
  | tStore (s : Refs W V) (k r : Nat) (v : V) (h : s.pf.rep = .retire k v) (hc : s.tc = some r) :
      RefStep B s { s.put (B.obj k) (r + B.keeps k - 1) with tc := none, pf := { s.pf with retired := s.pf.retired ++ [(k, v)], rep := .pop } }

/-- The states a call can reach, under every schedule. thread.hpp:114-165, cppmodule/src/parallel.cpp:25-45. -/
inductive RefReach (B : RefArgs V) : Refs W V → Prop
  | init : RefReach B (Refs.init B W)
  | step {s s'} : RefReach B s → RefStep B s s' → RefReach B s'

end Verif.Thread
