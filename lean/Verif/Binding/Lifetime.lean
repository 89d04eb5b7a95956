import Verif.Basic

/-!
# Memory of the matrices given to Python

`Model.hamiltonian`, `Lead.h0` and `Lead.h1` return scipy matrices whose arrays are the memory of the C++ matrix (cppmodule/src/model.cpp:27-31,
cppmodule/src/leads.cpp:16-17, cppmodule/include/cast.hpp:86-123).  The C++ matrix is reference counted (`SparseMatrixRC`); the arrays keep the
*object* alive from which they came, not the matrix.

Simplifications: the matrices of the leads of a model are cached like its Hamiltonian, a model with leads is a model here for each of these
matrices.  Calls which do not clear the cached matrix (setting the wave vector it has already) are not changes.
-/

namespace Verif.Binding.Lifetime

variable {P α : Type}

/-- Memory: matrix number `b` with the number of its owners.  A matrix without owners is freed.  Numbers are not used again (which is the best case:
memory that was freed may hold anything).  `std::shared_ptr` in `SparseMatrixRC`, Hamiltonian.hpp:43-44. -/
abbrev Heap (α : Type) := List (Nat × α)

/-- A new matrix with one owner, `std::make_shared` in Hamiltonian.hpp:165-166. -/
def Heap.alloc (h : Heap α) (a : α) : Heap α × Nat := (h ++ [(1, a)], h.length)

/-- Copy of an owner, Hamiltonian.hpp:43-44. -/
def Heap.inc (h : Heap α) (b : Nat) : Heap α := h.modify b fun p => (p.1 + 1, p.2)

/-- An owner is destroyed or reset, Hamiltonian.cpp:11-14. -/
def Heap.dec (h : Heap α) (b : Nat) : Heap α := h.modify b fun p => (p.1 - 1, p.2)

/-- The owner lets go of what it has, if anything, Hamiltonian.cpp:11-14. -/
def Heap.release (h : Heap α) : Option Nat → Heap α
  | none => h
  | some b => h.dec b

/-- A copy of an owner takes part, Hamiltonian.hpp:43-44. -/
def Heap.acquire (h : Heap α) : Option Nat → Heap α
  | none => h
  | some b => h.inc b

/-- Reading through a pointer: undefined if the matrix was freed, cast.hpp:86-95. -/
def Heap.read (h : Heap α) (b : Nat) : Res α :=
  match h[b]? with
  | some (_ + 1, a) => .ok a
  | _ => .ub

/-- What the `Hamiltonian` variables are in: models (Model.hpp:120), which can build a matrix, and others, which have one: `Lead` (Leads.hpp:12-16),
solver strategies (FEAST.hpp:80), KPM (Core.hpp:75). -/
inductive Kind where
  | model | holder
deriving DecidableEq, Repr

/-- An object with a `Hamiltonian` variable.  `par` are the parameters of a model (of the model it was taken from, for others).  `dropped`: Python has
no reference to it any more. -/
structure Obj (P : Type) where
  kind : Kind
  par : P
  ptr : Option Nat
  dropped : Bool

/-- A scipy matrix: its memory, the object it keeps alive, and (only to state properties) what it contained when it was made.
cast.hpp:109-123. -/
structure View (α : Type) where
  block : Nat
  parent : Nat
  seen : α
  live : Bool

/-- Everything. No counterpart in the code. -/
structure World (P α : Type) where
  heap : Heap α
  objs : List (Obj P)
  views : List (View α)

/-- Nothing. No counterpart in the code. -/
def World.init : World P α := ⟨[], [], []⟩

/-- Give object `i` another pointer and parameters. No counterpart in the code. -/
def World.put (w : World P α) (i : Nat) (o : Obj P) : World P α := { w with objs := w.objs.set i o }

/-- Calls. No counterpart in the code: the program of the user. -/
inductive Op (P : Type) where
  /-- A new model. -/
  | newModel (p : P)
  /-- `Model.add`, `attach_lead`, `set_wave_vector` with effect on the Hamiltonian. -/
  | change (i : Nat) (f : P → P)
  /-- Read `Model.hamiltonian` or `Lead.h0`. -/
  | view (i : Nat)
  /-- A copy of a model: the constructors and `set_model` of solvers. -/
  | copy (i : Nat)
  /-- A new object with the matrix of a model: a lead, a solver strategy, KPM. -/
  | hold (i : Nat)
  /-- `change_hamiltonian` of a strategy. -/
  | replace (k i : Nat)
  /-- Python lets go of an object. -/
  | drop (i : Nat)
  /-- Python lets go of a matrix (and of all arrays made from it). -/
  | dropView (v : Nat)

/-- An object the program can use. No counterpart in the code. -/
def World.usable (w : World P α) (i : Nat) : Option (Obj P) :=
  match w.objs[i]? with
  | some o => if o.dropped then none else some o
  | none => none

/-- `Model::hamiltonian`, Model.cpp:109-117: builds the matrix unless there is one. -/
def World.evaluate (build : P → Res α) (w : World P α) (i : Nat) (o : Obj P) : World P α × Res Nat :=
  match o.ptr with
  | some b => (w, .ok b)
  | none =>
    match o.kind with
    | .holder => (w, .ub)
    | .model =>
      match build o.par with
      | .ok a => (({ w with heap := (w.heap.alloc a).1 }).put i { o with ptr := some (w.heap.alloc a).2 }, .ok (w.heap.alloc a).2)
      | .err e => (w, .err e)
      | .ub => (w, .ub)

/-- Is the object kept alive by an array?  `keep_alive_impl`, cast.hpp:95, 122. -/
def World.kept (w : World P α) (i : Nat) : Bool := w.views.any fun v => v.live && v.parent == i

/-- The object lets go of its matrix: `Model::clear_hamiltonian`, Model.cpp:206-209, and destructors. -/
def World.clear (w : World P α) (i : Nat) (o : Obj P) (f : P → P) : World P α :=
  ({ w with heap := w.heap.release o.ptr }).put i { o with ptr := none, par := f o.par }

/-- An object without references is destroyed, unless an array keeps it alive.  `keep_alive_impl`, cast.hpp:95, 122. -/
def World.collect (w : World P α) (i : Nat) : World P α :=
  match w.objs[i]? with
  | some o => if o.dropped && !w.kept i then w.clear i o id else w
  | none => w

/-- A view of matrix `b`, csrref in model.cpp:29-31 and leads.cpp:16-17. -/
def World.expose (w : World P α) (i b : Nat) : World P α × Res Unit :=
  match w.heap.read b with
  | .ok a => ({ w with views := w.views ++ [⟨b, i, a, true⟩] }, .ok ())
  | .err e => (w, .err e)
  | .ub => (w, .ub)

/-- A new owner of matrix `b`: a lead (Leads.hpp:42-43), a solver strategy (Solver.cpp:47-49) or KPM. -/
def World.give (w : World P α) (p : P) (b : Nat) : World P α :=
  { w with heap := w.heap.inc b, objs := w.objs ++ [⟨.holder, p, some b, false⟩] }

/-- `change_hamiltonian`, FEAST.cpp:99-109: another matrix for strategy `k`. -/
def World.assign (w : World P α) (k : Nat) (p : P) (b : Nat) : World P α :=
  match w.usable k with
  | some o => ({ w with heap := (w.heap.inc b).release o.ptr }).put k { o with ptr := some b, par := p }
  | none => w

/-- One call; calls on objects which Python does not have are undefined (not possible).  Model.cpp:13-87 (`change`), model.cpp:29-31 (`view`),
Solver.cpp:47-65 (`copy`, `hold`, `replace`), Leads.hpp:42-43 (`hold`).  A strategy whose matrix changes is never the parent of an array. -/
def World.step (build : P → Res α) (w : World P α) : Op P → World P α × Res Unit
  | .newModel p => ({ w with objs := w.objs ++ [⟨.model, p, none, false⟩] }, .ok ())
  | .change i f =>
    match w.usable i with
    | some o => if o.kind = .model then (w.clear i o f, .ok ()) else (w, .ub)
    | none => (w, .ub)
  | .view i =>
    match w.usable i with
    | some o =>
      match w.evaluate build i o with
      | (w', .ok b) => w'.expose i b
      | (w', .err e) => (w', .err e)
      | (w', .ub) => (w', .ub)
    | none => (w, .ub)
  | .copy i =>
    match w.usable i with
    | some o => ({ w with heap := w.heap.acquire o.ptr, objs := w.objs ++ [o] }, .ok ())
    | none => (w, .ub)
  | .hold i =>
    match w.usable i with
    | some o =>
      match w.evaluate build i o with
      | (w', .ok b) => (w'.give o.par b, .ok ())
      | (w', .err e) => (w', .err e)
      | (w', .ub) => (w', .ub)
    | none => (w, .ub)
  | .replace k i =>
    if w.kept k then (w, .ub)
    else
      match w.usable i with
      | some o =>
        match w.evaluate build i o with
        | (w', .ok b) => (w'.assign k o.par b, .ok ())
        | (w', .err e) => (w', .err e)
        | (w', .ub) => (w', .ub)
      | none => (w, .ub)
  | .drop i =>
    match w.usable i with
    | some o => ((w.put i { o with dropped := true }).collect i, .ok ())
    | none => (w, .ub)
  | .dropView v =>
    match w.views[v]? with
    | some x => (({ w with views := w.views.set v { x with live := false } }).collect x.parent, .ok ())
    | none => (w, .ub)

/-- A program. No counterpart in the code. -/
def run (build : P → Res α) (w : World P α) : List (Op P) → World P α
  | [] => w
  | op :: ops => run build (w.step build op).1 ops

/-- Python reads an element of a matrix it has, cast.hpp:86-95. -/
def World.readView (w : World P α) (v : Nat) : Res α :=
  match w.views[v]? with
  | some x => w.heap.read x.block
  | none => .ub

end Verif.Binding.Lifetime
