import Verif.Basic

/-!
# Model of `BaseSolver`

Source: `cppcore/src/solver/Solver.cpp`, `cppcore/include/solver/Solver.hpp`,
`cppcore/include/detail/strategy.hpp`, `cppcore/src/solver/FEAST.cpp`.

What `Model::hamiltonian` gives and what a strategy computes are arbitrary deterministic functions
which may throw.  Eigenvalues and eigenvectors are one result; timers and reports are not modelled.
A strategy whose result would depend on earlier results (FEAST with `recycle_subspace` starts from
the previous subspace) is not modelled.
-/

namespace Verif.Solver

/-- The models, Hamiltonians, scalar types and eigensolutions, and the two computations.
Solver.hpp:16-60. -/
structure Env where
  Model : Type
  Ham : Type
  Scalar : Type
  Eig : Type
  scalarEq : DecidableEq Scalar
  /-- `Model::hamiltonian`, may throw. -/
  ham : Model → Res Ham
  /-- The scalar type of a Hamiltonian. -/
  scalar : Ham → Scalar
  /-- `SolverStrategy::solve`, may throw. -/
  eig : Ham → Res Eig

variable {E : Env}

/-- `SolverStrategy`: the scalar type it was made for, the Hamiltonian, the last solution (the one
read by `eigenvalues()`), and the number of computations so far. Solver.hpp:16-27. -/
structure Strategy (E : Env) where
  scalar : E.Scalar
  ham : E.Ham
  result : Option E.Eig
  count : Nat

/-- `BaseSolver`, Solver.hpp:55-62; the strategy is a `unique_ptr`. -/
structure Solver (E : Env) where
  model : E.Model
  strategy : Option (Strategy E)
  isSolved : Bool

/-- `MakeStrategy::operator()`, strategy.hpp:24-38: a strategy for the scalar type of `h`. -/
def makeStrategy (h : E.Ham) : Strategy E := ⟨E.scalar h, h, none, 0⟩

/-- `change_hamiltonian`, FEAST.cpp:99-109: `none` for the return value `false`. -/
def Strategy.change (st : Strategy E) (h : E.Ham) : Option (Strategy E) :=
  if @decide (E.scalar h = st.scalar) (E.scalarEq _ _) then some { st with ham := h, result := none }
  else none

/-- `SolverStrategy::solve`. Solver.hpp:22. -/
def Strategy.solve (st : Strategy E) : Strategy E × Res Unit :=
  match E.eig st.ham with
  | .ok r => ({ st with result := some r, count := st.count + 1 }, .ok ())
  | .err e => ({ st with count := st.count + 1 }, .err e)
  | .ub => ({ st with count := st.count + 1 }, .ub)

/-- The constructor, Solver.cpp:47-49. -/
def create (m : E.Model) : Res (Solver E) :=
  match E.ham m with
  | .ok h => .ok ⟨m, some (makeStrategy h), false⟩
  | .err e => .err e
  | .ub => .ub

/-- `BaseSolver::set_model`, Solver.cpp:51-65.  The model is assigned before its Hamiltonian is
evaluated.  Without a strategy (never the case between calls) only the second `if` is run. -/
def Solver.setModel (s : Solver E) (m : E.Model) : Solver E × Res Unit :=
  let s1 : Solver E := { s with isSolved := false, model := m }
  match E.ham m with
  | .ok h =>
    match s1.strategy.bind (fun st => st.change h) with
    | some st => ({ s1 with strategy := some st }, .ok ())
    | none => ({ s1 with strategy := some (makeStrategy h) }, .ok ())
  | .err e => (s1, .err e)
  | .ub => (s1, .ub)

/-- `BaseSolver::clear`, Solver.hpp:37. -/
def Solver.clear (s : Solver E) : Solver E := { s with isSolved := false }

/-- `BaseSolver::solve`, Solver.cpp:67-76. -/
def Solver.solve (s : Solver E) : Solver E × Res Unit :=
  if s.isSolved then (s, .ok ())
  else
    match s.strategy with
    | none => (s, .ub)
    | some st =>
      match st.solve with
      | (st', .ok ()) => ({ s with strategy := some st', isSolved := true }, .ok ())
      | (st', .err e) => ({ s with strategy := some st' }, .err e)
      | (st', .ub) => ({ s with strategy := some st' }, .ub)

/-- Read the solution of the strategy; before the first computation there is none (FEAST returns
empty arrays). Solver.cpp:78-86. -/
def Solver.current (s : Solver E) : Option E.Eig := s.strategy.bind (·.result)

/-- `BaseSolver::eigenvalues` and `eigenvectors`, Solver.cpp:78-86. -/
def Solver.eigenvalues (s : Solver E) : Solver E × Res (Option E.Eig) :=
  match s.solve with
  | (s', .ok ()) => (s', .ok s'.current)
  | (s', .err e) => (s', .err e)
  | (s', .ub) => (s', .ub)

/-- The calls of a history. Solver.hpp:36-48. -/
inductive Op (E : Env) where
  | setModel (m : E.Model)
  | clear
  | solve
  | eigenvalues

/-- One call: the solver after it and whether it returned or threw. Solver.cpp:51-97. -/
def Solver.step (s : Solver E) : Op E → Solver E × Res Unit
  | .setModel m => s.setModel m
  | .clear => (s.clear, .ok ())
  | .solve => s.solve
  | .eigenvalues => (s.eigenvalues.1, match s.eigenvalues.2 with
      | .ok _ => .ok ()
      | .err e => .err e
      | .ub => .ub)

/-- A history of calls; calls that throw are part of it.
No counterpart in the code: the caller of the functions in Solver.hpp:36-48. -/
def run : Solver E → List (Op E) → Solver E
  | s, [] => s
  | s, op :: rest => run (s.step op).1 rest

/-- The number of computations so far. No counterpart in the code. -/
def Solver.count (s : Solver E) : Nat := (s.strategy.map (·.count)).getD 0

end Verif.Solver
