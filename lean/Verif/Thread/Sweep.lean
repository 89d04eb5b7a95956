import Verif.Basic
import Verif.Thread.ParallelFor

/-!
# Parameter sweeps

`pybinding/parallel.py` (`parallelize`, `Factory`, `ParallelFor`, `_sequential_for`, `sweep`, `ndsweep`), `NDSweep` of `pybinding/results.py` and the
deferred results of `cppmodule/include/thread.hpp` and `cppmodule/src/parallel.cpp`.

Not modelled: files, plots, status messages and the progress bar (apart from its counter), and exceptions of the user's functions.
-/

namespace Verif.Thread

/-! ## Deferred results -/

/-- `Deferred`, cppmodule/include/thread.hpp:18-41: what its function computes (`_compute`), and `_result` if it `is_computed`. -/
structure Deferred (R : Type) where
  value : R
  result : Option R
deriving DecidableEq, Repr

/-- A new object, cppmodule/include/thread.hpp:21-22. -/
def Deferred.new {R : Type} (r : R) : Deferred R := ⟨r, none⟩

/-- `compute`, cppmodule/include/thread.hpp:26-31. -/
def Deferred.compute {R : Type} (d : Deferred R) : Deferred R :=
  match d.result with
  | some _ => d
  | none => { d with result := some d.value }

/-- `result`, cppmodule/include/thread.hpp:33.  `none`: not possible. -/
def Deferred.get {R : Type} (d : Deferred R) : Option R := d.compute.result

/-! ## Parameters -/

/-- An argument of the user's function: a value, or the class `inspect.Parameter.empty`, which `default` is for a parameter without one
(parallel.py:354). -/
inductive Arg (A : Type) where
  | val (a : A)
  | empty
deriving DecidableEq, Repr

variable {A : Type}

/-- `kwargs[k]`, parallel.py:353. -/
def look {B : Type} (kw : List (String × B)) (k : String) : Option B := (kw.find? fun p => p.1 == k).map (·.2)

/-- `variables`, parallel.py:353.  `params` are the names of the parameters of the user's function with their default values. -/
def swept (params : List (String × Option A)) (kwargs : List (String × List A)) : List (List A) :=
  params.filterMap fun p => look kwargs p.1

/-- `fixtures`, parallel.py:354. -/
def fixtures (params : List (String × Option A)) (kwargs : List (String × List A)) : List (String × Arg A) :=
  (params.filter fun p => (look kwargs p.1).isNone).map fun p => (p.1, match p.2 with
    | some a => .val a
    | none => .empty)

/-- `itertools.product`, parallel.py:178. -/
def product : List (List A) → List (List A)
  | [] => [[]]
  | xs :: rest => xs.flatMap fun x => (product rest).map fun t => x :: t

/-- The value of a parameter which is not given by its position, parallel.py:225: the one given by name, or its default. -/
def byName (kw : List (String × Arg A)) (p : String × Option A) : Option (String × Arg A) :=
  match look kw p.1 with
  | some a => some (p.1, a)
  | none => p.2.map fun a => (p.1, Arg.val a)

/-- The call `produce(*var, **fixtures)`, parallel.py:225, by Python's rules: the arguments of the function.  A `TypeError` (here `runtimeError`) if there are too
many values, if a parameter gets two, or if one gets none. -/
def bindCall (params : List (String × Option A)) (var : List A) (kw : List (String × Arg A)) : Res (List (String × Arg A)) :=
  if params.length < var.length then .err .runtimeError
  else if kw.any fun p => (params.take var.length).any fun q => q.1 == p.1 then .err .runtimeError
  else if kw.any fun p => !(params.any fun q => q.1 == p.1) then .err .runtimeError
  else
    match (params.drop var.length).mapM (byName kw) with
    | some rest => .ok ((params.take var.length).zipWith (fun p a => (p.1, Arg.val a)) var ++ rest)
    | none => .err .runtimeError

/-- `Factory`, parallel.py:172-183: `DefaultStatus` takes a maximum over the sequence, which raises a `ValueError` (here `invalidArgument`) if it is empty
(parallel.py:144). -/
def sequence (params : List (String × Option A)) (kwargs : List (String × List A)) : Res (List (List A)) :=
  let s := product (swept params kwargs)
  if s.isEmpty then .err .invalidArgument else .ok s

/-! ## The loop -/

variable {R S : Type}

/-- `make_save_set`, parallel.py:121-125; `points` are the numbers `int(total * p)`, of which the first is zero. -/
def saveSet (points : List Nat) (total : Nat) : List Nat := points.filter (· ≠ 0) ++ [total]

/-- The variables of `ParallelFor`, parallel.py:208-218: `data`, the counter of the progress bar, and `result`. -/
structure Sweeper (R S : Type) where
  data : List (Option R)
  count : Nat
  result : Option S

/-- `ParallelFor.__init__`, parallel.py:216-218. -/
def Sweeper.init (size : Nat) : Sweeper R S := ⟨List.replicate size none, 0, none⟩

/-- `_retire`, parallel.py:238-249. -/
def Sweeper.retire (makeResult : List (Option R) → S) (save : List Nat) (s : Sweeper R S) (idx : Nat) (r : Option R) : Sweeper R S :=
  let data := s.data.set idx r
  let count := s.count + 1
  ⟨data, count, if count ∈ save then some (makeResult data) else s.result⟩

/-- The calls of `_retire` with the deferred objects of the jobs, parallel.py:238-249, cppmodule/src/parallel.cpp:38-43. -/
def Sweeper.retireAll (makeResult : List (Option R) → S) (save : List Nat) (s : Sweeper R S) (jobs : List (Nat × Deferred R)) : Sweeper R S :=
  jobs.foldl (fun s j => s.retire makeResult save j.1 j.2.get) s

/-- `_sequential_for`, parallel.py:21-26: the jobs in the order in which they are retired.  `f` is what the job for an element of the sequence
computes. -/
def sequentialJobs (f : A → R) (seq : List A) : List (Nat × Deferred R) := seq.zipIdx.map fun p => (p.2, (Deferred.new (f p.1)).compute)

/-- The arguments of the C++ function, cppmodule/src/parallel.cpp:25-43.  Indices outside of the sequence do not occur; `d` is used for
them. -/
def parallelArgs (queueSize : Nat) (f : A → R) (d : R) (seq : List A) : PFArgs (Deferred R) :=
  ⟨seq.length, queueSize, fun k => Deferred.new ((seq[k]?.map f).getD d), Deferred.compute⟩

/-! ## Results -/

/-- `np.vstack([v if v is not None else zero for v in data])`, parallel.py:385, 419, for arrays with one axis (after `squeeze`). -/
def stack {F : Type} (zero : List F) (data : List (Option (List F))) : Res (List (List F)) :=
  let rows := data.map fun v => v.getD zero
  match rows with
  | [] => .err .invalidArgument
  | r :: rs => if rs.all fun r' => r'.length == r.length then .ok (r :: rs) else .err .invalidArgument

/-- Position of an element in C order (numpy documentation), for `reshape` in results.py:1043. -/
def flat : List Nat → List Nat → Nat
  | _ :: ds, i :: is => i * ds.prod + flat ds is
  | _, _ => 0

/-- `np.reshape(data, shape)[idx]`, results.py:1043.  A `ValueError` (here `invalidArgument`) if the numbers of elements differ. -/
def reshaped {F : Type} (rows : List (List F)) (shape idx : List Nat) : Res F :=
  if rows.flatten.length ≠ shape.prod then .err .invalidArgument
  else
    match rows.flatten[flat shape idx]? with
    | some x => .ok x
    | none => .err .outOfRange

end Verif.Thread
