import Verif.Basic
import Verif.Binding.Slicing
import Mathlib.Data.Real.Sqrt
import Mathlib.Algebra.Order.Floor.Ring

/-!
# Paths in reciprocal space

Source: `pybinding/results.py` (`Path`, `make_path`).

Points are lists of exact real numbers; arrays with more than one axis, or without components, as points are not modelled.
-/

namespace Verif.Solver.Paths

/-- A point, results.py:143 (`np.atleast_1d(k)`). -/
abbrev Vec := List ℝ

/-- `np.linalg.norm`, results.py:150 (numpy documentation). -/
noncomputable def norm (v : Vec) : ℝ := Real.sqrt ((v.map fun x => x * x).sum)

/-- `k_end - k_start`, results.py:150: arrays of one element are stretched, other different lengths are a `ValueError` (numpy documentation). -/
noncomputable def sub (a b : Vec) : Res Vec :=
  if a.length = b.length then .ok (List.zipWith (· - ·) a b)
  else if a.length = 1 then .ok (b.map fun x => a.getD 0 0 - x)
  else if b.length = 1 then .ok (a.map fun x => x - b.getD 0 0)
  else .err .invalidArgument

/-- `int(norm // step)`, results.py:150, and the check of `np.linspace` in results.py:152 that it is not negative.  For `step = 0` the quotient is infinite or not a number
and `int` raises. -/
noncomputable def numSteps (d step : ℝ) : Res Nat :=
  if step = 0 then .err .invalidArgument else if ⌊d / step⌋ < 0 then .err .invalidArgument else .ok ⌊d / step⌋.toNat

/-- A two-dimensional array; the number of columns is known also without rows. results.py:152-154. -/
structure Block where
  rows : List Vec
  width : Nat

/-- Sample `i` of `n`: `np.linspace(s, e, num_steps, endpoint=False)[i]` for all components (`zip` stops at the shorter point). results.py:152-153. -/
noncomputable def sample (a b : Vec) (n i : Nat) : Vec := List.zipWith (fun s e => s + i * ((e - s) / n)) a b

/-- `k_path`, results.py:152-153: the transposed array of the samples of all components. -/
noncomputable def segment (a b : Vec) (n : Nat) : Block := ⟨(List.range n).map (sample a b n), min a.length b.length⟩

/-- The loop of `make_path`, results.py:149-156, with the last point at the end; `last` is `point_indices[-1]`, `k` the start of the segment. The result are `k_paths` and the new
`point_indices`. -/
noncomputable def loop (step : ℝ) : Nat → Vec → List Vec → Res (List Block × List Nat)
  | _, k, [] => .ok ([⟨[k], k.length⟩], [])
  | last, k, k' :: ks => do
    let d ← sub k' k
    let n ← numSteps (norm d) step
    let (bs, is) ← loop step (last + n) k' ks
    return (segment k k' n :: bs, (last + n) :: is)

/-- `np.vstack(k_paths)`, results.py:158: all arrays must have the same number of columns. -/
def vstack : List Block → Res (List Vec)
  | [] => .err .invalidArgument
  | b :: bs => if bs.all fun c => c.width == b.width then .ok (b.rows ++ bs.flatMap (·.rows)) else .err .invalidArgument

/-- `Path`, results.py:30-44. -/
structure Path where
  rows : List Vec
  pointIndices : List Nat

/-- `make_path(k0, k1, *ks, step)`, results.py:123-158.  The shapes are compared for the first point only (`k_points[:1]`, results.py:144). -/
noncomputable def makePath (step : ℝ) (k0 k1 : Vec) (ks : List Vec) : Res Path :=
  if ((k0 :: k1 :: ks).take 1).all fun k => k.length == k0.length then do
    let (bs, is) ← loop step 0 k0 (k1 :: ks)
    let rows ← vstack bs
    return ⟨rows, 0 :: is⟩
  else .err .runtimeError

/-- `self[indices]`, results.py:65. -/
def gatherRows (rows : List Vec) : List Nat → Res (List Vec)
  | [] => .ok []
  | i :: is => do
    let r ← match rows[i]? with
      | some r => .ok r
      | none => .err .outOfRange
    let rs ← gatherRows rows is
    return r :: rs

/-- `Path.points`, results.py:62-65. -/
def Path.points (p : Path) : Res (List Vec) := gatherRows p.rows p.pointIndices

/-- `np.flatnonzero(...)[0]`, results.py:93: the first place which is not zero. -/
noncomputable def firstNonzero : List ℝ → Nat → Res Nat
  | [], _ => .err .outOfRange
  | x :: xs, i => if x = 0 then firstNonzero xs (i + 1) else .ok i

/-- `Path.as_1d`, results.py:72-95, for two-dimensional arrays (as of `make_path`). -/
noncomputable def Path.as1d (p : Path) : Res (List ℝ) :=
  if p.pointIndices.length = 2 then do
    let ps ← p.points
    let c ← firstNonzero (List.zipWith (· - ·) (ps.getD 1 []) (ps.getD 0 [])) 0
    return p.rows.map fun r => r.getD c 0
  else .ok ((List.range p.rows.length).map fun (i : Nat) => (i : ℝ))

/-- `path[idx]`: the rows of the index, with the same `point_indices` (`__array_finalize__`, results.py:46-50). -/
def Path.get (p : Path) (idx : Binding.Slicing.Idx) : Res Path := do
  let rows ← Binding.Slicing.index p.rows idx
  return ⟨rows, p.pointIndices⟩

end Verif.Solver.Paths
