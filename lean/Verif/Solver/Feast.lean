import Verif.Numeric.Model

/-!
# Model of the FEAST strategy

Source: `cppcore/src/solver/FEAST.cpp`, `cppcore/include/solver/FEAST.hpp`.

The eigensolver is in an external library.  A library is an arbitrary function from the number of the call and its
arguments to what it writes, so the same arguments may be answered differently at different times.  Error traces,
reports and the PARDISO parameters (which are not used) are not modelled.
-/

namespace Verif.Feast

open Verif.Numeric

variable {K R : Type}

/-- `FEASTConfig`, FEAST.hpp:9-30; stopping criteria are left to the library. -/
structure Config (R : Type) where
  emin : R
  emax : R
  guess : Int
  recycle : Bool
  maxLoops : Int
deriving DecidableEq

/-- The eigenvalue problem as it is given to the library, FEAST.cpp:211-232: the matrix with one-based indices and the
interval. -/
structure Problem (K R : Type) where
  size : Nat
  outer : List Nat
  inner : List Nat
  vals : List K
  emin : R
  emax : R

/-- The arguments of a call of the library which it reads, FEAST.cpp:222-239.  `reuse` is `fpm[4]`; `start` are the
eigenvectors it starts from if that is set. -/
structure Call (K R : Type) where
  problem : Problem K R
  m0 : Int
  reuse : Bool
  start : List K

/-- What the library writes, FEAST.cpp:229-238.  The arrays are written from their beginning. -/
structure Reply (K R : Type) where
  loops : Int
  m0 : Int
  values : List R
  vectors : List K
  final : Int
  residual : List R
  code : Int

/-- A library: what it answers to its `t`-th call. FEAST.cpp:222. -/
abbrev Lib (K R : Type) := Nat → Call K R → Reply K R

/-- `FEAST` with its `Info`, FEAST.hpp:40-88.  `vectors` is column-major with `vecRows` rows.  `calls` counts the calls of the
library. -/
structure State (K R : Type) where
  ham : Raw K
  cfg : Config R
  values : List R
  vecRows : Nat
  vectors : List K
  residual : List R
  suggested : Int
  final : Int
  loops : Int
  code : Int
  recycleWarning : Bool
  recycleLoops : Int
  sizeWarning : Bool
  calls : Nat
deriving DecidableEq

/-- The ways to leave a function here.  `running` is a loop which has not ended after the given number of rounds; an exception
leaves the object in some state. -/
inductive Out (σ : Type) where
  | done (s : σ)
  | threw (s : σ) (e : Err)
  | undefined
  | running
deriving DecidableEq

/-- The constructor, FEAST.hpp:55-56.  The members of `info` without initialiser are 0 here; they are not read before the
first call of the library. -/
def create (h : Raw K) (cfg : Config R) : State K R :=
  ⟨h, cfg, [], 0, [], [], 0, 0, 0, 0, false, 0, false, 0⟩

/-- `force_clear`, FEAST.cpp:112-118. -/
def State.clear (s : State K R) : State K R := { s with values := [], vecRows := 0, vectors := [], residual := [] }

/-- `change_hamiltonian`, FEAST.cpp:99-110, for a Hamiltonian of the right scalar type. -/
def State.change (s : State K R) (h : Raw K) : State K R :=
  let s := { s with ham := h }
  if !s.cfg.recycle then s.clear else s

/-- `config.initial_size_guess *= 1.7`, FEAST.cpp:36, 50: the product is truncated to an `int`; undefined if it does not
fit.  (The product of an `int` and the `double` nearest to 1.7 truncates to the same integer as the exact product.) -/
def grow (guess : Int) : Option Int :=
  let g := (17 * guess).tdiv 10
  if g < 2147483648 then some g else none

/-- Writing `data` from the beginning of the array `buf`. FEAST.cpp:234-237. -/
def write {α : Type} (buf data : List α) : List α := data.take buf.length ++ buf.drop data.length

/-- The buffers made by `call_feast`, FEAST.cpp:186-200.  New arrays are not initialised; here they hold default values. -/
def State.prepare [Inhabited K] [Inhabited R] (s : State K R) : State K R :=
  let n := s.ham.rows
  let s :=
    if s.values.length = 0 then
      let guess := if s.cfg.guess > n ∨ s.cfg.guess < 0 then (n : Int) else s.cfg.guess
      { s with cfg := { s.cfg with guess := guess }, values := List.replicate guess.toNat default, suggested := guess }
    else s
  let s := if s.residual.length = 0 then { s with residual := List.replicate s.cfg.guess.toNat default } else s
  if s.vectors.length = 0 then { s with vecRows := n, vectors := List.replicate (n * s.cfg.guess.toNat) default } else s

/-- The problem that is solved, FEAST.cpp:210-232: indices are converted to one-based ones. -/
def problem (h : Raw K) (cfg : Config R) : Problem K R :=
  ⟨h.rows, h.outer.map (· + 1), h.inner.map (· + 1), h.vals, cfg.emin, cfg.emax⟩

/-- The arguments of the library, FEAST.cpp:222-239. -/
def State.args (s : State K R) (reuse : Bool) : Call K R :=
  ⟨problem s.ham s.cfg, s.suggested, reuse, if reuse then s.vectors else []⟩

/-- `call_feast_impl`, FEAST.cpp:206-240.  The library may write `m0` eigenvalues and residuals and `m0` eigenvectors of
`system_size` elements: anything else is undefined if an array is smaller. -/
def State.invoke (lib : Lib K R) (reuse : Bool) (s : State K R) : Out (State K R) :=
  let m0 := s.suggested.toNat
  if m0 ≤ s.values.length ∧ m0 ≤ s.residual.length ∧ s.ham.rows * m0 ≤ s.vectors.length then
    let r := lib s.calls (s.args reuse)
    .done { s with values := write s.values r.values, vectors := write s.vectors r.vectors,
                   residual := write s.residual r.residual, suggested := r.m0, final := r.final, loops := r.loops,
                   code := r.code, calls := s.calls + 1 }
  else .undefined

/-- `call_feast` with `init_feast`, FEAST.cpp:120-135, 180-204. -/
def State.call [Inhabited K] [Inhabited R] (lib : Lib K R) (s : State K R) : Out (State K R) :=
  let reuse := s.cfg.recycle && decide (s.values.length ≠ 0)
  s.prepare.invoke lib reuse

/-- Clear the data, make the guess bigger if asked to and call again, FEAST.cpp:35-39, 50-52. -/
def State.retry [Inhabited K] [Inhabited R] (lib : Lib K R) (bigger : Bool) (s : State K R) : Out (State K R) :=
  if bigger then
    match grow s.cfg.guess with
    | some g => ({ s with cfg := { s.cfg with guess := g } }).clear.call lib
    | none => .undefined
  else s.clear.call lib

/-- One round of the loop for a recycled subspace, FEAST.cpp:26-39. -/
def State.recycleBody [Inhabited K] [Inhabited R] (lib : Lib K R) (s : State K R) : Out (State K R) :=
  let s := { s with recycleWarning := true, recycleLoops := s.recycleLoops + s.loops }
  if s.recycleLoops > 2 * s.cfg.maxLoops then .threw s .runtimeError
  else s.retry lib (decide (s.suggested = s.cfg.guess))

/-- The loop for a recycled subspace, FEAST.cpp:24-40, for at most `fuel` rounds. -/
def recycleLoop [Inhabited K] [Inhabited R] (lib : Lib K R) : Nat → State K R → Out (State K R)
  | fuel, s =>
    if s.loops ≥ s.cfg.maxLoops ∨ s.code = 3 then
      match fuel with
      | 0 => .running
      | fuel + 1 =>
        match s.recycleBody lib with
        | .done s => recycleLoop lib fuel s
        | o => o
    else .done s

/-- One round of the loop for a subspace that is too small, FEAST.cpp:50-56. -/
def State.sizeBody [Inhabited K] [Inhabited R] (lib : Lib K R) (s : State K R) : Out (State K R) :=
  match s.retry lib true with
  | .done s => if s.code ≠ 3 ∧ s.code ≠ 0 then .threw s .runtimeError else .done s
  | o => o

/-- The loop for a subspace that is too small, FEAST.cpp:48-57. -/
def sizeLoop [Inhabited K] [Inhabited R] (lib : Lib K R) : Nat → State K R → Out (State K R)
  | fuel, s =>
    if s.code = 3 then
      match fuel with
      | 0 => .running
      | fuel + 1 =>
        match s.sizeBody lib with
        | .done s => sizeLoop lib fuel s
        | o => o
    else .done s

/-- The check of the return code, FEAST.cpp:43-63. -/
def State.checkCode [Inhabited K] [Inhabited R] (lib : Lib K R) (fuel : Nat) (s : State K R) : Out (State K R) :=
  if s.code ≠ 0 then
    if s.code = 3 then sizeLoop lib fuel { s with sizeWarning := true }
    else if s.code = 1 then .done s
    else .threw s .runtimeError
  else .done s

/-- The end of `solve`, FEAST.cpp:65-67.  `head` and `maxCoeff` are undefined for too many or no elements (Eigen asserts them
in debug builds). -/
def State.finish (s : State K R) : Out (State K R) :=
  if 0 < s.final ∧ s.final ≤ s.residual.length then
    .done (if s.recycleWarning then { s with loops := s.loops + s.recycleLoops } else s)
  else .undefined

/-- `solve`, FEAST.cpp:11-68. -/
def State.solve [Inhabited K] [Inhabited R] (lib : Lib K R) (fuel : Nat) (s : State K R) : Out (State K R) :=
  let s := { s with recycleWarning := false, recycleLoops := 0, sizeWarning := false }
  match s.call lib with
  | .done s =>
    match (if s.cfg.recycle then recycleLoop lib fuel s else .done s) with
    | .done s =>
      match s.checkCode lib fuel with
      | .done s => s.finish
      | o => o
    | o => o
  | o => o

/-- `eigenvalues`, FEAST.hpp:64-66: a view of the first `final_size` elements. -/
def State.eigenvalues (s : State K R) : Res (List R) :=
  if 0 ≤ s.final ∧ s.final ≤ s.values.length then .ok (s.values.take s.final.toNat) else .ub

/-- `eigenvectors`, FEAST.hpp:67-70: a view of `final_size` columns. -/
def State.eigenvectors (s : State K R) : Res (List (List K)) :=
  if 0 ≤ s.final ∧ s.vecRows * s.final.toNat ≤ s.vectors.length then
    .ok ((List.range s.final.toNat).map fun j => (s.vectors.drop (j * s.vecRows)).take s.vecRows)
  else .ub

end Verif.Feast
