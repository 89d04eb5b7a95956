import Verif.Kpm.Core
import Verif.Kpm.PropsBatch
import Verif.Sublat.Model

/-!
# Model of `KPM::calc_ldos` and `KPM::calc_spatial_ldos`

Source: `cppcore/src/KPM.cpp`.

The moments of the targets are computed by the threads of the pool, so a calculation has possible results: one for every
schedule.  `sched` below is any state in which the pool has been joined.
-/

namespace Verif.Kpm

open Verif.Numeric
open Verif.Hopping (Csr)
open Verif.Sublat (Table)

variable {n : Nat}

/-- The targets of `calc_ldos`, KPM.cpp:57-58: the Hamiltonian indices of the site which is nearest to the position. -/
def ldosTargets {R : Type} [LT R] [DecidableRel (α := R) (· < ·)] (data : Table) (numSites : Nat) (dist : Nat → R) (target : Option Int) :
    Res (List Nat) := do
  let i ← Sublat.findNearest data numSites dist target
  Sublat.toHamiltonianIndices data i

/-- One round of the loop over the sites in `calc_spatial_ldos`, KPM.cpp:82-84. -/
def pushContained (contains : List Bool) (v : List Nat) (i : Nat) : Res (List Nat) := do
  let c ← rd contains i
  return if c then v ++ [i] else v

/-- The targets of `calc_spatial_ldos`, KPM.cpp:69-87.  `contains` is the result of `shape.contains`, one element per site. -/
def spatialTargets (multiorbital : Bool) (contains : List Bool) (data : Table) (numSites : Nat) (target : Option Int) : Res (List Nat) := do
  if multiorbital then .err .runtimeError else
  let range ← Sublat.sublatticeRange data numSites target
  ((List.range range.2).drop range.1).foldlM (pushContained contains) []

/-- `(reduce && results.cols() > 1) ? results.rowwise().sum() : results`, KPM.cpp:64, for the row of one energy. -/
def reduceRow (reduce : Bool) (row : List ℝ) : List ℝ :=
  if reduce = true ∧ 1 < row.length then [row.sum] else row

/-- `Core::ldos`, Core.cpp:58-72, for a given number of moments and one energy: `row` is a possible result with `W` threads
and batches of `bs` vectors.  Columns which no job has written would be uninitialised: `.ub`.
Without targets the result depends on earlier calculations (C56) and the optimised matrix may not exist: `.ub`. -/
def CoreLdos [DecidableEq ℂ] (f : Format ℂ n ℂ) (cfg : AlgorithmConfig) (g : Nat → Nat → ℝ) (s : Scale ℝ) (h : Csr ℂ) (num W bs : Nat)
    (junk : Nat → ℂ) (targets : List Nat) (energy : ℝ) (row : Res (List ℝ)) : Prop :=
  if targets = [] then row = .ub else
  match optimizeFor cfg.reorder h (2 / s.a) s.b targets targets with
  | .err e => row = .err e
  | .ub => row = .ub
  | .ok o =>
    match f.mat (1 / 2) (ofRows n o.h2) with
    | .err e => row = .err e
    | .ub => row = .ub
    | .ok M => ∃ sched, Thread.Reach (W := W) (batchSem bs targets.length (ldosColumn (1 / 2) M cfg o num junk) concatenator)
        (batchProg W bs targets.length) (.ok ⟨0, 0, []⟩) sched ∧ sched.joined = true ∧
        row = (sched.mem >>= fun mem => mem.data.mapM fun col =>
          match col with
          | none => .ub
          | some c => ldosValue g s c energy)

/-- `KPM::calc_ldos`, KPM.cpp:55-65: `row` is a possible result. -/
def CalcLdos [DecidableEq ℂ] {R : Type} [LT R] [DecidableRel (α := R) (· < ·)] (f : Format ℂ n ℂ) (cfg : AlgorithmConfig)
    (g : Nat → Nat → ℝ) (s : Scale ℝ) (h : Csr ℂ) (num W bs : Nat) (junk : Nat → ℂ) (data : Table) (numSites : Nat) (dist : Nat → R)
    (target : Option Int) (reduce : Bool) (energy : ℝ) (row : Res (List ℝ)) : Prop :=
  match ldosTargets data numSites dist target with
  | .err e => row = .err e
  | .ub => row = .ub
  | .ok targets => ∃ r, CoreLdos f cfg g s h num W bs junk targets energy r ∧ row = (r >>= fun r => .ok (reduceRow reduce r))

/-- `KPM::calc_spatial_ldos`, KPM.cpp:67-94: `row` is a possible result. -/
def CalcSpatialLdos [DecidableEq ℂ] (f : Format ℂ n ℂ) (cfg : AlgorithmConfig)
    (g : Nat → Nat → ℝ) (s : Scale ℝ) (h : Csr ℂ) (num W bs : Nat) (junk : Nat → ℂ) (multiorbital : Bool) (contains : List Bool)
    (data : Table) (numSites : Nat) (target : Option Int) (energy : ℝ) (row : Res (List ℝ)) : Prop :=
  match spatialTargets multiorbital contains data numSites target with
  | .err e => row = .err e
  | .ub => row = .ub
  | .ok targets => CoreLdos f cfg g s h num W bs junk targets energy row

end Verif.Kpm
