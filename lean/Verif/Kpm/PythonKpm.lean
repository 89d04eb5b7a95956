import Verif.Kpm.Ldos
import Verif.Binding.Names
import Verif.Binding.Slicing
import Verif.Binding.SweepResult

/-!
# Model of `pybinding/chebyshev.py`

The implementation of the kernel polynomial method in Python (`_PythonImpl`), and what the class `KPM` and `SpatialLDOS` make of the
results of the implementations.  Real and complex numbers stand for the floating point types; numpy and scipy by
their documentation.  Reports and timers are not modelled.
-/

namespace Verif.Kpm.Py

open Verif.Numeric
open Verif.Hopping (Csr)
open Verif.Sublat (Table)
open Verif.Binding (Names.Name Names.AliasArray Names.nameMap Names.Pos Slicing.trues Slicing.gather)

variable {n : Nat}

/-! ## `_PythonImpl` -/

/-- The scaling factors for bounds of the energy, chebyshev.py:488-491. -/
def scale {R : Type} [Field R] (emin emax : R) : Scale R := ⟨1 / 2 * (emax - emin) * (1 + 1 / 100), 1 / 2 * (emax + emin)⟩

/-- `_rescale_hamiltonian`, chebyshev.py:493-496. -/
noncomputable def rescale (s : Scale ℝ) (H : Matrix (Fin n) (Fin n) ℂ) : Matrix (Fin n) (Fin n) ℂ := (2 / s.a : ℂ) • (H - (s.b : ℂ) • 1)

/-- `moments[i] = v`, chebyshev.py:503-511; an `IndexError` past the end. -/
def put (l : List ℂ) (i : Nat) (v : ℂ) : Res (List ℂ) := if i < l.length then .ok (l.set i v) else .err .outOfRange

/-- `moments[i]`, chebyshev.py:510-511. -/
def item (l : List ℂ) (i : Nat) : Res ℂ := match l[i]? with | some v => .ok v | none => .err .outOfRange

/-- The variables of the loop, chebyshev.py:500-511. -/
structure Loop (n : Nat) where
  r0 : Fin n → ℂ
  r1 : Fin n → ℂ
  moments : List ℂ

/-- One round of the loop, chebyshev.py:507-511. `np.vdot` conjugates its first argument. -/
noncomputable def step (h2 : Matrix (Fin n) (Fin n) ℂ) (l : Loop n) (k : Nat) : Res (Loop n) := do
  let r := act h2 l.r1 - l.r0
  let r0 := l.r1
  let r1 := r
  let m0 ← item l.moments 0
  let ms ← put l.moments (2 * k) (2 * (inner r0 r0 - m0))
  let m1 ← item ms 1
  let ms ← put ms (2 * k + 1) (2 * inner r1 r0 - m1)
  return ⟨r0, r1, ms⟩

/-- `_compute_diagonal_moments`, chebyshev.py:498-518. -/
noncomputable def diagonalMoments (num : Nat) (starter : Fin n → ℂ) (h2 : Matrix (Fin n) (Fin n) ℂ) : Res (List ℂ) := do
  let r0 := starter
  let r1 : Fin n → ℂ := (1 / 2 : ℂ) • act h2 r0
  let ms ← put (List.replicate num 0) 0 (inner r0 r0 * (1 / 2))
  let ms ← put ms 1 (inner r1 r0)
  let l ← (List.range' 1 (num / 2 - 1)).foldlM (step h2) ⟨r0, r1, ms⟩
  return l.moments

/-- `_exval_starter`, chebyshev.py:520-525. -/
def starter (i : Nat) : Fin n → ℂ := fun j => if j.val = i then 1 else 0

/-- `_reconstruct_real` for one energy, chebyshev.py:527-534.  Outside of the open interval the square root is zero or not a real number: `.ub`. -/
noncomputable def reconstruct (s : Scale ℝ) (moments : List ℂ) (energy : ℝ) : Res ℝ :=
  let w := (energy - s.b) / s.a
  let k := 2 / (s.a * Real.pi)
  if -1 < w ∧ w < 1 then .ok (k / Real.sqrt (1 - w ^ 2) * (moments.mapIdx fun n m => m.re * Real.cos (n * Real.arccos w)).sum) else .ub

/-- `_ldos` for one energy and a given number of moments, chebyshev.py:536-548.  An index past the end is an `IndexError`; dividing by `a = 0` gives
no number: `.ub`. -/
noncomputable def ldos (g : Nat → Nat → ℝ) (s : Scale ℝ) (H : Matrix (Fin n) (Fin n) ℂ) (num : Nat) (index : Nat) (energy : ℝ) : Res ℝ :=
  if s.a = 0 then .ub
  else if index < n then do
    let ms ← diagonalMoments num (starter index) (rescale s H)
    reconstruct s (damp g ms) energy
  else .err .outOfRange

/-- `_PythonImpl.calc_ldos` for one energy, chebyshev.py:550-559. The site and its rows are found by the C++ functions. -/
noncomputable def calcLdos {R : Type} [LT R] [DecidableRel (α := R) (· < ·)] (g : Nat → Nat → ℝ) (s : Scale ℝ) (H : Matrix (Fin n) (Fin n) ℂ) (num : Nat)
    (data : Table) (numSites : Nat) (dist : Nat → R) (target : Option Int) (reduce : Bool) (energy : ℝ) : Res (List ℝ) := do
  let hamIdx ← ldosTargets data numSites dist target
  let row ← hamIdx.mapM fun i => ldos g s H num i energy
  return if reduce then [row.sum] else row

/-! ## The bounds of `_PythonImpl` -/

/-- The state of `_PythonImpl` which matters for the bounds, chebyshev.py:451-456. -/
structure Impl (M R : Type) where
  model : M
  range : R × R

/-- What a user does: assign a model (chebyshev.py:84-86), or calculate something. -/
inductive Op (M : Type) where
  | setModel (m : M)
  | calc

/-- `find_bounds`, chebyshev.py:473-481.  `eigs` stands for the two calls of `eigsh`. -/
def findBounds {M R : Type} [DecidableEq R] (eigs : M → R × R) (k : Impl M R) : Impl M R := if k.range.1 ≠ k.range.2 then k else ⟨k.model, eigs k.model⟩

/-- One operation. chebyshev.py:84-86, 471-491. -/
def Impl.run {M R : Type} [DecidableEq R] (eigs : M → R × R) (k : Impl M R) : Op M → Impl M R
  | .setModel m => ⟨m, k.range⟩
  | .calc => findBounds eigs k

/-! ## `KPM.calc_ldos` -/

/-- Shape of `ldos.squeeze()` for an array with `rows` times `cols` elements, chebyshev.py:199-201 (numpy documentation), and then of
`np.atleast_1d`, results.py:178. -/
def squeezed (rows cols : Nat) : List Nat :=
  match [rows, cols].filter (· ≠ 1) with
  | [] => [1]
  | l => l

/-- `Series.reduced`, results.py:187-193: `sum(axis=1)` needs two axes (numpy documentation); the shape of the result. -/
def reducedShape : List Nat → Res (List Nat)
  | [r, _] => .ok [r]
  | _ => .err .outOfRange

/-! ## Spatial density of states -/

/-- The sites of the structure which `calc_spatial_ldos` returns with the data, chebyshev.py:223-227: first those inside of the shape, of these the ones with
the given name.  `ids` are the sublattice ids of all sites. -/
def spatialSites (ids : List Int) (names : List Names.Name) (contains : List Bool) (sublattice : Names.Name) : List Nat :=
  let smap := Slicing.trues contains 0
  if sublattice = [] then smap
  else Slicing.gather smap (Slicing.trues ((⟨Slicing.gather ids smap, Names.nameMap names⟩ : Names.AliasArray).eq sublattice) 0)

/-- The C++ function looks up the name as a whole (Registry.cpp:73-79), KPM.cpp:75-76. -/
def lookup (names : List Names.Name) (sublattice : Names.Name) : Res (Option Int) :=
  if sublattice = [] then .ok none
  else match names.findIdx? (fun n => n == sublattice) with
    | none => .err .outOfRange
    | some i => .ok (some (i : Int))

/-- `SpatialLDOS`, chebyshev.py:22-31: a row of data for each energy; the sites of the structure with their positions and ids. -/
structure SpatialLDOS (F : Type) where
  data : List (List ℝ)
  energy : List ℝ
  positions : List (Names.Pos F)
  ids : Names.AliasArray

/-- `SpatialLDOS.structure_map`, chebyshev.py:33-46: the data of the map. -/
noncomputable def SpatialLDOS.structureMap {F : Type} (l : SpatialLDOS F) (energy : ℝ) : Res (List ℝ) := do
  let idx ← Binding.SweepResult.nearest l.energy energy
  match l.data[idx]? with
  | some row => .ok row
  | none => .err .outOfRange

/-- `SpatialLDOS.ldos`, chebyshev.py:48-63: the data of the series. -/
def SpatialLDOS.ldosAt {F : Type} [Field F] [LinearOrder F] (l : SpatialLDOS F) (position : List F) (sublattice : Names.Name) : Res (List ℝ) := do
  let idx ← Binding.Names.sitesNearest l.positions l.ids position sublattice
  l.data.mapM fun row => match row[idx]? with
    | some v => .ok v
    | none => .err .outOfRange

end Verif.Kpm.Py
