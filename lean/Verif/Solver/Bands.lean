import Verif.Solver.Solver

/-!
# Band structures: changing the wave vector of a solver

`Solver.set_wave_vector` and `Solver.calc_bands` of pybinding/solver.py, for both kinds of implementation: the C++ solvers
(`BaseSolver` with a strategy such as FEAST) and `_SolverPythonImpl` (LAPACK and ARPACK of scipy).

The eigenvalues of a C++ solver are given to Python without a copy (cppmodule/src/solver.cpp:15, cast.hpp:86-95), so that the memory of the strategy is part of
the model.  FEAST is taken to find the result with its size guess and not to recycle the subspace (C71 describes what it does otherwise).
-/

namespace Verif.Solver

/-! ## C++ solvers -/

/-- The memory of the results, FEAST.hpp:83-84: `none` is freed memory.  `cur` is the memory `_eigenvalues` has now, if its size is not zero. -/
structure Arrays (V : Type) where
  blocks : List (Option V)
  cur : Option Nat

/-- The results are stored: in new memory if there is none, else in place, FEAST.cpp:180-204. -/
def Arrays.store {V : Type} (a : Arrays V) (v : V) : Arrays V :=
  match a.cur with
  | some b => { a with blocks := a.blocks.set b (some v) }
  | none => ⟨a.blocks ++ [some v], some a.blocks.length⟩

/-- `force_clear`, FEAST.cpp:112-118, and the destructor of the strategy: the memory is freed. -/
def Arrays.free {V : Type} (a : Arrays V) : Arrays V :=
  match a.cur with
  | some b => ⟨a.blocks.set b none, none⟩
  | none => a

/-- Python reads an array it has. cast.hpp:86-95. -/
def Arrays.read {V : Type} (a : Arrays V) (b : Nat) : Res V :=
  match a.blocks[b]? with
  | some (some v) => .ok v
  | _ => .ub

/-- A C++ solver with the memory of its results. Solver.hpp:55-62. -/
structure CppSolver (E : Env) where
  base : Solver E
  mem : Arrays E.Eig

variable {E : Env}

/-- The constructor, Solver.cpp:47-49. -/
def CppSolver.create (m : E.Model) : Res (CppSolver E) :=
  match Solver.create m with
  | .ok s => .ok ⟨s, ⟨[], none⟩⟩
  | .err e => .err e
  | .ub => .ub

/-- `BaseSolver::solve`, Solver.cpp:67-76, with the memory. -/
def CppSolver.solve (s : CppSolver E) : CppSolver E × Res Unit :=
  match s.base.solve with
  | (base, .ok ()) =>
    if s.base.isSolved then (s, .ok ())
    else
      match base.current with
      | some r => (⟨base, s.mem.store r⟩, .ok ())
      | none => (⟨base, s.mem⟩, .ub)
  | (base, .err e) => (⟨base, s.mem⟩, .err e)
  | (base, .ub) => (⟨base, s.mem⟩, .ub)

/-- `BaseSolver::eigenvalues`, Solver.cpp:78-81: solves and returns a reference to the memory. -/
def CppSolver.eigenvalues (s : CppSolver E) : CppSolver E × Res Nat :=
  match s.solve with
  | (s', .ok ()) => (s', match s'.mem.cur with
    | some b => .ok b
    | none => .ub)
  | (s', .err e) => (s', .err e)
  | (s', .ub) => (s', .ub)

/-- `solver.model = model`, Solver.cpp:51-65.  The results of the strategy are freed if its Hamiltonian is replaced (FEAST.cpp:99-110) and if the strategy
is replaced. -/
def CppSolver.setModel (s : CppSolver E) (m : E.Model) : CppSolver E × Res Unit :=
  match s.base.setModel m with
  | (base, .ok ()) => (⟨base, s.mem.free⟩, .ok ())
  | (base, .err e) => (⟨base, s.mem⟩, .err e)
  | (base, .ub) => (⟨base, s.mem⟩, .ub)

/-- `solver.model.set_wave_vector(k)` or `solver.model.add(...)`: `get_model` returns a reference, cppmodule/src/solver.cpp:13, Solver.hpp:41.  Only the
model of the solver changes. -/
def CppSolver.changeModel (s : CppSolver E) (f : E.Model → E.Model) : CppSolver E :=
  { s with base := { s.base with model := f s.base.model } }

/-- `BaseSolver::clear`, Solver.hpp:37. -/
def CppSolver.clear (s : CppSolver E) : CppSolver E := { s with base := s.base.clear }

/-- `Solver.set_wave_vector`, solver.py:91-100. -/
def CppSolver.setWaveVector {W : Type} (setK : W → E.Model → E.Model) (s : CppSolver E) (k : W) : CppSolver E := s.clear.changeModel (setK k)

/-- The loop of `calc_bands`, solver.py:299-302: the arrays of all points. -/
def CppSolver.bandsLoop {W : Type} (setK : W → E.Model → E.Model) : CppSolver E → List W → CppSolver E × Res (List Nat)
  | s, [] => (s, .ok [])
  | s, k :: ks =>
    match (s.setWaveVector setK k).eigenvalues with
    | (s', .ok b) =>
      match CppSolver.bandsLoop setK s' ks with
      | (s'', .ok bs) => (s'', .ok (b :: bs))
      | (s'', .err e) => (s'', .err e)
      | (s'', .ub) => (s'', .ub)
    | (s', .err e) => (s', .err e)
    | (s', .ub) => (s', .ub)

/-- Read several arrays, `np.vstack` in solver.py:304. -/
def readAll {V : Type} (a : Arrays V) : List Nat → Res (List V)
  | [] => .ok []
  | b :: bs =>
    match a.read b with
    | .ok v =>
      match readAll a bs with
      | .ok vs => .ok (v :: vs)
      | .err e => .err e
      | .ub => .ub
    | .err e => .err e
    | .ub => .ub

/-- `calc_bands`, solver.py:280-304, with a C++ solver; the rows are read at the end. -/
def CppSolver.calcBands {W : Type} (setK : W → E.Model → E.Model) (s : CppSolver E) (path : List W) : Res (List E.Eig) :=
  match s.bandsLoop setK path with
  | (s', .ok bs) => readAll s'.mem bs
  | (_, .err e) => .err e
  | (_, .ub) => .ub

/-- The calls on a C++ solver. No counterpart in the code: the program of the user. -/
inductive CppOp (E : Env) where
  | setModel (m : E.Model)
  | changeModel (f : E.Model → E.Model)
  | clear
  | eigenvalues

/-- One call. Solver.cpp:51-86. -/
def CppSolver.step (s : CppSolver E) : CppOp E → CppSolver E
  | .setModel m => (s.setModel m).1
  | .changeModel f => s.changeModel f
  | .clear => s.clear
  | .eigenvalues => s.eigenvalues.1

/-- A history of calls. No counterpart in the code. -/
def CppSolver.run (s : CppSolver E) (ops : List (CppOp E)) : CppSolver E := ops.foldl CppSolver.step s

/-! ## Python solvers -/

/-- The models, Hamiltonians, eigenvalues and eigenvectors and what scipy computes.  solver.py:336-389. -/
structure PyEnv where
  Model : Type
  Ham : Type
  F : Type
  V : Type
  /-- `Model.hamiltonian`. -/
  ham : Model → Res Ham
  /-- `solve_func`: eigenvalues with their eigenvectors (columns), in any order. -/
  eig : Ham → Res (List (F × V))
  /-- `argsort`. -/
  argsort : List F → List Nat

/-- `_SolverPythonImpl`, solver.py:336-348: the model (the object of the user), and the results, which are empty if there are none. -/
structure PySolver (E : PyEnv) where
  model : E.Model
  pairs : List (E.F × E.V)

variable {Y : PyEnv}

/-- `vals[idx]` and `vecs[:, idx]` in solver.py:385-387. -/
def arrange (argsort : List Y.F → List Nat) (l : List (Y.F × Y.V)) : List (Y.F × Y.V) := (argsort (l.map (·.1))).filterMap fun j => l[j]?

/-- `solve`, solver.py:378-389. -/
def PySolver.solve (s : PySolver Y) : PySolver Y × Res Unit :=
  if s.pairs.length > 0 then (s, .ok ())
  else
    match Y.ham s.model with
    | .ok h =>
      match Y.eig h with
      | .ok l => ({ s with pairs := arrange Y.argsort l }, .ok ())
      | .err e => (s, .err e)
      | .ub => (s, .ub)
    | .err e => (s, .err e)
    | .ub => (s, .ub)

/-- `eigenvalues` and `eigenvectors`, solver.py:368-376. -/
def PySolver.result (s : PySolver Y) : PySolver Y × Res (List (Y.F × Y.V)) :=
  match s.solve with
  | (s', .ok ()) => (s', .ok s'.pairs)
  | (s', .err e) => (s', .err e)
  | (s', .ub) => (s', .ub)

/-- `clear`, solver.py:350-353. -/
def PySolver.clear (s : PySolver Y) : PySolver Y := { s with pairs := [] }

/-- `solver.model = model`, solver.py:359-362. -/
def PySolver.setModel (s : PySolver Y) (m : Y.Model) : PySolver Y := { s.clear with model := m }

/-- `Solver.set_wave_vector`, solver.py:91-100: the model is the object of the user. -/
def PySolver.setWaveVector {W : Type} (setK : W → Y.Model → Y.Model) (s : PySolver Y) (k : W) : PySolver Y :=
  { s.clear with model := setK k s.model }

/-- The loop of `calc_bands`, solver.py:299-302. -/
def PySolver.bandsLoop {W : Type} (setK : W → Y.Model → Y.Model) : PySolver Y → List W → PySolver Y × Res (List (List Y.F))
  | s, [] => (s, .ok [])
  | s, k :: ks =>
    match (s.setWaveVector setK k).result with
    | (s', .ok l) =>
      match PySolver.bandsLoop setK s' ks with
      | (s'', .ok ls) => (s'', .ok (l.map (·.1) :: ls))
      | (s'', .err e) => (s'', .err e)
      | (s'', .ub) => (s'', .ub)
    | (s', .err e) => (s', .err e)
    | (s', .ub) => (s', .ub)

/-- `np.vstack`, solver.py:304: at least one row, all of the same length. -/
def vstack {F : Type} : List (List F) → Res (List (List F))
  | [] => .err .invalidArgument
  | r :: rs => if rs.all fun r' => r'.length == r.length then .ok (r :: rs) else .err .invalidArgument

/-- `calc_bands`, solver.py:280-304, with a Python solver. -/
def PySolver.calcBands {W : Type} (setK : W → Y.Model → Y.Model) (s : PySolver Y) (path : List W) : Res (List (List Y.F)) :=
  match s.bandsLoop setK path with
  | (_, .ok ls) => vstack ls
  | (_, .err e) => .err e
  | (_, .ub) => .ub

/-- The calls on a Python solver. No counterpart in the code: the program of the user. -/
inductive PyOp (Y : PyEnv) (W : Type) where
  | setModel (m : Y.Model)
  | setWaveVector (k : W)
  | clear
  | result

/-- One call. solver.py:336-389. -/
def PySolver.step {W : Type} (setK : W → Y.Model → Y.Model) (s : PySolver Y) : PyOp Y W → PySolver Y
  | .setModel m => s.setModel m
  | .setWaveVector k => s.setWaveVector setK k
  | .clear => s.clear
  | .result => s.result.1

end Verif.Solver
