import Verif.Solver.Dos
import Verif.Sublat.Model
import Mathlib.Algebra.Order.Group.Abs
import Mathlib.Algebra.Order.Field.Basic

/-!
# Probabilities and local densities of states in the Python layer

Source: `pybinding/solver.py` (`calc_eigenvalues`, `calc_probability`, `calc_ldos`, `calc_spatial_ldos`, `find_degenerate_states`), `pybinding/system.py` (`reduce_orbitals`).

The states are the columns `vecs` of `eigenvectors`, one for each eigenvalue in `vals`; arithmetic is exact.
-/

namespace Verif.Solver.Probability

/-! ## Degenerate states -/

section
variable {F : Type}

/-- `np.diff`, solver.py:327 and 330. -/
def diff [Sub F] : List F → List F
  | [] => []
  | [_] => []
  | x :: y :: rest => (y - x) :: diff (y :: rest)

/-- `np.flatnonzero`, solver.py:327 and 330: the places (from `i` on) where the condition holds. -/
def flatnonzero (p : F → Bool) : List F → Nat → List Nat
  | [], _ => []
  | x :: xs, i => if p x then i :: flatnonzero p xs (i + 1) else flatnonzero p xs (i + 1)

/-- `np.split(idx, cuts)`, solver.py:330: the pieces between the cuts, `start` is the previous one. -/
def split (l : List F) : Nat → List Nat → List (List F)
  | start, [] => [l.drop start]
  | start, c :: cs => ((l.take c).drop start) :: split l c cs

/-- `np.diff(idx) != 1`, solver.py:330 (the numbers ascend). -/
def cuts (idx : List Nat) : List Nat := (flatnonzero (fun d : Int => d != 1) (diff (idx.map fun (i : Nat) => (i : Int))) 0).map (· + 1)

/-- `Solver.find_degenerate_states(energies, abs_tolerance)`, solver.py:306-333. -/
def findDegenerate [Field F] [LinearOrder F] (energies : List F) (tol : F) : List (List Nat) :=
  let idx := flatnonzero (fun d => decide (|d| < tol)) (diff energies) 0
  if idx.length = 0 then [] else (split idx 0 (cuts idx)).map fun g => g ++ [g.getLastD 0 + 1]

/-- `probability[idx] = np.sum(probability[idx]) / len(idx)`, solver.py:128, for one group. -/
def average [Field F] (prob : List F) (g : List Nat) : List F :=
  let mean := (g.map fun i => prob.getD i 0).sum / g.length
  prob.zipIdx.map fun p => if p.2 ∈ g then mean else p.1

end

/-! ## Orbitals -/

section
variable {F : Type} [AddCommMonoid F]

/-- `.reshape((-1, norb)).sum(axis=1)`, system.py:153: sums over `count` rows. -/
def chunkSums (norb : Nat) : Nat → List F → List F
  | 0, _ => []
  | count + 1, l => (l.take norb).sum :: chunkSums norb count (l.drop norb)

/-- The loop of `reduce_orbitals`, system.py:151-154. -/
def reduceLoop (data : List F) : Nat → Sublat.Table → List F
  | _, [] => []
  | start, e :: rest =>
    chunkSums e.numOrb e.numSites ((data.drop start).take (e.numSites * e.numOrb)) ++ reduceLoop data (start + e.numSites * e.numOrb) rest

/-- `System.reduce_orbitals(data)`, system.py:126-156, for one-dimensional arrays. -/
def reduceOrbitals (table : Sublat.Table) (data : List F) : Res (List F) :=
  if data.length = Sublat.decompressedSize table then .ok data
  else if data.length ≠ Sublat.hamiltonianSize table then .err .runtimeError
  else .ok (reduceLoop data 0 table)

end

/-! ## Results -/

section
variable {𝕜 : Type} [RCLike 𝕜] {n : Nat}

/-- `probability = abs(self.eigenvectors[site_idx, :])**2`, solver.py:124, averaged over degenerate states, solver.py:127-128.  `find_degenerate_states` has its default
tolerance, here `tol`. -/
noncomputable def eigenvaluesProbability (vals : List ℝ) (vecs : List (Fin n → 𝕜)) (tol : ℝ) (siteIdx : Nat) : Res (List ℝ) :=
  if h : siteIdx < n then .ok ((findDegenerate vals tol).foldl average (vecs.map fun v => ‖v ⟨siteIdx, h⟩‖ ^ 2))
  else .err .outOfRange

/-- `calc_probability(n, reduce)`, solver.py:132-162, for a single state `k` (not negative). -/
noncomputable def calcProbability (table : Sublat.Table) (vals : List ℝ) (vecs : List (Fin n → 𝕜)) (k : Nat) (reduce : ℝ) : Res (List ℝ) :=
  match vals[k]? with
  | none => .err .outOfRange
  | some e =>
    let ns := if reduce ≠ 0 then flatnonzero (fun x => decide (|e - x| < reduce)) vals 0 else [k]
    reduceOrbitals table (List.ofFn fun i : Fin n => ((ns.filterMap fun m => vecs[m]?).map fun v => ‖v i‖ ^ 2).sum)

/-- `calc_single(index)` for one energy, solver.py:237-239. -/
noncomputable def ldosRow (vals : List ℝ) (vecs : List (Fin n → 𝕜)) (E b : ℝ) (i : Fin n) : ℝ :=
  dosScale b * (List.zipWith (fun (v : Fin n → 𝕜) e => ‖v i‖ ^ 2 * dosGaussian b e E) vecs vals).sum

/-- `calc_ldos(energies, broadening, position)` for one energy and the site found at the position, solver.py:230-243, with `reduce=True`. -/
noncomputable def calcLdos (table : Sublat.Table) (vals : List ℝ) (vecs : List (Fin n → 𝕜)) (E b : ℝ) (sysIdx : Nat) : Res ℝ := do
  let hamIdx ← Sublat.toHamiltonianIndices table sysIdx
  if hamIdx.all fun i => decide (i < n) then
    return (hamIdx.map fun i => if h : i < n then ldosRow vals vecs E b ⟨i, h⟩ else 0).sum
  else .err .outOfRange

/-- `calc_spatial_ldos(energy, broadening)`, solver.py:240-278. -/
noncomputable def calcSpatialLdos (table : Sublat.Table) (vals : List ℝ) (vecs : List (Fin n → 𝕜)) (E b : ℝ) : Res (List ℝ) :=
  reduceOrbitals table (List.ofFn (ldosRow vals vecs E b))

end

end Verif.Solver.Probability
