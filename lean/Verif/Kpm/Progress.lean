import Verif.Kpm.PropsBatch
import Verif.Thread.OneWorker

/-!
# Progress reports of KPM calculations

`calc_ldos`, `calc_spatial_ldos`, `calc_dos` and deferred calculations report their progress to a callback: once before the first vector, once after every job of the pool (from the
thread which ran it) and once at the end.  The default callback draws a progress bar and captures what the program prints meanwhile.

A callback is Python code.  A thread must hold the lock of the interpreter to run it (pybind11 takes the lock in the `std::function` which it makes of the callback).  pybind11 is not
part of /repo.
-/

namespace Verif.Kpm.Progress

open Verif.Thread

/-! ## Calls of the callback -/

/-- The ways to start a calculation from Python. cppmodule/src/kpm.cpp:78-91; cppmodule/src/parallel.cpp:6-45. -/
inductive Entry where
  /-- a method of `KPM`: bound with `release_gil()`, cppmodule/src/kpm.cpp:78-83 -/
  | method
  /-- `Deferred.compute()` and `Deferred.result`: bound without it, cppmodule/src/parallel.cpp:8-10; also what `parallel_for` does with one thread, pybinding/parallel.py:21-26, 210-211 -/
  | deferred
  /-- `parallel_for` with several threads: releases the lock, cppmodule/src/parallel.cpp:18, 35-39 -/
  | parallelFor
  deriving DecidableEq

/-- The thread which waits for the pool holds the lock of the interpreter all the time. kpm.cpp:78-83; parallel.cpp:8-10, 18. -/
def Entry.holds : Entry → Bool
  | .method => false
  | .deferred => true
  | .parallelFor => false

/-- Local state of a job. default/Compute.cpp:68-84. -/
inductive ReportRun where
  /-- about to compute and collect moments; no Python code, see `Kpm/Batch` for what it does -/
  | work (j : BatchJob)
  /-- about to call `progress_update` -/
  | report (j : BatchJob)
  deriving DecidableEq

/-- A job, default/Compute.cpp:68-84, with `progress_update`, 137-140.  The memory is the list of calls (`delta`, `total`).  A thread that waits for the lock of the interpreter tries again and
again. `callback`: there is one (it is not `silent`, pybinding/chebyshev.py:374-377). -/
def reportStep (callback : Bool) (e : Entry) (bs nv : Nat) : ReportRun → List (Int × Int) → List (Int × Int) × Option ReportRun
  | .work j, m => (m, some (.report j))
  | .report j, m =>
    if callback then
      if e.holds then (m, some (.report j)) else (m ++ [((j.width bs : Int), (nv : Int))], none)
    else (m, none)

/-- The jobs as programs of the thread pool. default/Compute.cpp:68-84. -/
def reportSem (callback : Bool) (e : Entry) (bs nv : Nat) : JobSem BatchJob (List (Int × Int)) ReportRun :=
  ⟨.work, reportStep callback e bs nv⟩

/-- All calls: `progress_start`, those of the jobs, `progress_finish`. default/Compute.cpp:66, 86-87, 133-144. -/
def allCalls (callback : Bool) (nv : Nat) (jobs : List (Int × Int)) : List (Int × Int) :=
  if callback then (-1, (nv : Int)) :: jobs ++ [((nv : Int), (nv : Int))] else jobs

/-! ## The progress bar -/

/-- `ProgressBar`, pybinding/utils/progressbar.py:104-125.  `shown`: the number of vectors and the total on each line that was drawn (the line shows the quotient). -/
structure Bar where
  size : Nat
  value : Nat
  running : Bool
  shown : List (Nat × Nat)
  deriving DecidableEq

/-- `refresh`, progressbar.py:193-203, with `percent`, 130-132: `value / size` raises an exception (`none`) when the size is 0. -/
def Bar.refresh (b : Bar) : Option Bar :=
  if b.size = 0 then none else some { b with shown := b.shown ++ [(b.value, b.size)] }

/-- `start`, progressbar.py:169-180. -/
def Bar.start (b : Bar) : Option Bar := ({ b with running := true, value := 0 } : Bar).refresh

/-- `update` without other threads, progressbar.py:182-191. -/
def Bar.update (b : Bar) (v : Nat) : Option Bar :=
  (if b.running then some b else b.start) >>= fun b => if b.value = v then some b else ({ b with value := v } : Bar).refresh

/-- `finish` and `stop`, progressbar.py:205-223. -/
def Bar.finish (b : Bar) : Option Bar :=
  if b.running then b.update b.size >>= fun b => b.refresh >>= fun b => some { b with running := false } else some b

/-- `_ComputeProgressReporter` when the calculation starts: it is silent for one vector. chebyshev.py:325-332. -/
def Bar.begin (nv : Nat) (b : Bar) : Option Bar := if nv = 1 then some b else ({ b with size := nv } : Bar).start

/-- `_ComputeProgressReporter` when the calculation ends. chebyshev.py:325-334. -/
def Bar.end (nv : Nat) (b : Bar) : Option Bar := if nv = 1 then some b else b.finish

/-- Local state of a job with a progress bar: the threads of Python take turns between the instructions of `pbar += delta`, progressbar.py:144-146, 182-191. -/
inductive BarRun where
  | work (j : BatchJob)
  /-- about to call the callback, and to read `self.value` -/
  | report (j : BatchJob)
  /-- in `update(v)` -/
  | update (v : Nat)
  /-- about to set `self.value = v` -/
  | set (v : Nat)
  /-- about to draw the bar -/
  | draw
  deriving DecidableEq

/-- One step of a job: default/Compute.cpp:68-84, chebyshev.py:325-336, progressbar.py:144-146, 182-191.  The call of `finish` for a job of all vectors is one step: there is no other job then. -/
def barStep (bs nv : Nat) : BarRun → Option Bar → Option Bar × Option BarRun
  | .work j, m => (m, some (.report j))
  | .report j, some b =>
    if nv = 1 then (some b, none)
    else if j.width bs = nv then (b.finish, none)
    else (some b, some (.update (b.value + j.width bs)))
  | .update v, some b =>
    match (if b.running then some b else b.start) with
    | some b => if b.value = v then (some b, none) else (some b, some (.set v))
    | none => (none, none)
  | .set v, some b => (some { b with value := v }, some .draw)
  | .draw, some b => (b.refresh, none)
  | _, none => (none, none)

/-- The jobs as programs of the thread pool. default/Compute.cpp:68-84. -/
def barSem (bs nv : Nat) : JobSem BatchJob (Option Bar) BarRun := ⟨.work, barStep bs nv⟩

/-! ## Captured output -/

/-- `sys.stdout` as seen by `StdCapture`, progressbar.py:37-53: the current stream, the next new buffer, the contents of the buffers, what each progress bar has stored as
`_old_stream`, and the text which has reached the user.  Stream 0 is the stream of the user (a terminal or a file, which has no `getvalue`), all others are buffers.  `sys.stderr` is
handled in the same way. -/
structure Std where
  out : Nat
  next : Nat
  text : Nat → List String
  old : Nat → Nat
  sent : List String

/-- What progress bar `r` does, and what the program prints. progressbar.py:169-216. -/
inductive Ev where
  /-- `capture.start()`, progressbar.py:173-174 -/
  | start (r : Nat)
  /-- `capture.get()` and writing its result to the outputs, progressbar.py:197-200 -/
  | get (r : Nat)
  /-- `capture.stop()`, progressbar.py:211-212 -/
  | stop (r : Nat)
  /-- `print(t)` -/
  | print (t : String)

/-- A new empty buffer becomes `sys.stdout`, progressbar.py:44, 48. -/
def Std.fresh (s : Std) : Std := { s with out := s.next, next := s.next + 1, text := Function.update s.text s.next [] }

/-- One event, progressbar.py:37-53; `none`: `AttributeError`, the stream of the user has no method `getvalue`. -/
def Std.step (s : Std) : Ev → Option Std
  | .start r => some ({ s with old := Function.update s.old r s.out } : Std).fresh
  | .get _ => if s.out = 0 then none else some ({ s with sent := s.sent ++ s.text s.out } : Std).fresh
  | .stop r => some { s with out := s.old r }
  | .print t => if s.out = 0 then some { s with sent := s.sent ++ [t] }
      else some { s with text := Function.update s.text s.out (s.text s.out ++ [t]) }

/-- Several events. progressbar.py:169-216. -/
def Std.run (s : Std) : List Ev → Option Std
  | [] => some s
  | e :: es => s.step e >>= fun s => s.run es

/-- What a calculation of `nv` vectors does to `sys.stdout` when its bar is drawn `n` times by jobs, and the program prints `t` before each of these and `t'` at the end of
the last one; progressbar.py:169-223, chebyshev.py:325-336.  For `nv = 0` drawing the first line raises `ZeroDivisionError`, after the output was captured. -/
def barEvents (r nv : Nat) (draws : List (List String)) : List Ev :=
  if nv = 1 then []
  else if nv = 0 then [.start r, .get r]
  else .start r :: .get r :: draws.flatMap (fun ts => ts.map Ev.print ++ [.get r]) ++ [.get r, .stop r]

end Verif.Kpm.Progress
