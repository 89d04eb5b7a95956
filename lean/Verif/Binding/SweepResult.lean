import Verif.Binding.Slicing
import Mathlib.Algebra.Order.Field.Basic
import Mathlib.Algebra.Order.Group.Unbundled.Abs
import Mathlib.Data.List.Sort

/-!
# Results of two-dimensional sweeps

Source: `pybinding/results.py`, class `Sweep`.  Arrays of numpy and `scipy.interpolate.interp1d` are taken by their
documentation.  Plots are not modelled, neither are the labels and tags, which are passed on unchanged.
-/

namespace Verif.Binding.SweepResult

open Verif.Binding.Slicing (Idx resolve gather)

variable {A D : Type}

/-! ## Model -/

/-- A two-dimensional array with its shape. results.py:791. -/
structure Grid (D : Type) where
  rows : Nat
  cols : Nat
  e : Nat → Nat → D

/-- `Sweep`, results.py:771-794. -/
structure Sweep (A D : Type) where
  x : List A
  y : List A
  data : Grid D

/-- One of the two indices of `__getitem__`: a number, or an array or slice.  results.py:796-803. -/
inductive Item where
  | int (i : Int)
  | arr (idx : Idx)

/-- The places taken from an axis.  Numpy documentation; results.py:803.  For a number the axis disappears, and comes back
through `np.atleast_1d`, results.py:789-790. -/
def Item.places (n : Nat) : Item → Res (List Nat)
  | .int i => (Slicing.wrap n i).bind fun p => .ok [p]
  | .arr idx => resolve n idx

/-- Is it basic indexing with a slice? Numpy documentation; results.py:803. -/
def Item.isSlice : Item → Bool
  | .arr (.slice ..) => true
  | _ => false

/-- Is it a number? Numpy documentation; results.py:803. -/
def Item.isInt : Item → Bool
  | .int _ => true
  | _ => false

/-- `np.atleast_2d` of a one-dimensional array, results.py:791: it becomes a row. -/
def asRow (n : Nat) (f : Nat → D) : Grid D := ⟨1, n, fun _ k => f k⟩

/-- `np.atleast_2d(data[idx_x, idx_y])`, results.py:803, 791.  Two slices, or a slice and an array, select rows and columns.  A
number with a slice gives one dimension.  Otherwise the indices are broadcast and taken in pairs, which gives one dimension
(or none, for two numbers); lengths which do not fit are an `IndexError`. -/
def select (g : Grid D) (ix iy : Item) (px py : List Nat) : Res (Grid D) :=
  if ix.isInt && iy.isSlice then .ok (asRow py.length fun k => g.e (px.getD 0 0) (py.getD k 0))
  else if ix.isSlice && iy.isInt then .ok (asRow px.length fun k => g.e (px.getD k 0) (py.getD 0 0))
  else if ix.isSlice || iy.isSlice then .ok ⟨px.length, py.length, fun i j => g.e (px.getD i 0) (py.getD j 0)⟩
  else if px.length = py.length then .ok (asRow px.length fun k => g.e (px.getD k 0) (py.getD k 0))
  else if px.length = 1 then .ok (asRow py.length fun k => g.e (px.getD 0 0) (py.getD k 0))
  else if py.length = 1 then .ok (asRow px.length fun k => g.e (px.getD k 0) (py.getD 0 0))
  else .err .outOfRange

/-- `Sweep.__getitem__`, results.py:796-803.  One index alone is completed by `slice(None)`: give this as `iy`. -/
def Sweep.get (s : Sweep A D) (ix iy : Item) : Res (Sweep A D) := do
  let px ← ix.places s.x.length
  let py ← iy.places s.y.length
  -- the same indices for the array of data, whose axes could have another length
  let qx ← ix.places s.data.rows
  let qy ← iy.places s.data.cols
  let data ← select s.data ix iy qx qy
  return ⟨gather s.x px, gather s.y py, data⟩

/-- `np.logical_and(lo <= v, v <= hi) if limits else np.arange(v.size)`, results.py:849-850, as the places which are
taken (`np.ix_`). -/
def within [LE A] [DecidableLE A] (limits : Option (A × A)) (v : List A) : List Nat :=
  match limits with
  | none => List.range v.length
  | some (lo, hi) => Slicing.trues (v.map fun a => decide (lo ≤ a) && decide (a ≤ hi)) 0

/-- `Sweep.cropped`, results.py:835-851. -/
def Sweep.cropped [LE A] [DecidableLE A] (s : Sweep A D) (x y : Option (A × A)) : Sweep A D :=
  ⟨gather s.x (within x s.x), gather s.y (within y s.y),
    ⟨(within x s.x).length, (within y s.y).length, fun i j => s.data.e ((within x s.x).getD i 0) ((within y s.y).getD j 0)⟩⟩

/-- `np.concatenate((-v[::-1], v[1:]))`, results.py:867, 871. -/
def mirror [Neg A] (v : List A) : List A := v.reverse.map (- ·) ++ v.drop 1

/-- Place `k` of the rows `data[::-1]`, `data[1:]` one after the other, results.py:868, 872. -/
def mirrorPlace (n k : Nat) : Nat := if k < n then n - 1 - k else k - n + 1

/-- The two axes. results.py:866, 870. -/
inductive Axis where
  | x | y

/-- `Sweep.mirrored`, results.py:853-875.  Any other name of an axis gives `None`: the exception is made but not
raised. -/
def Sweep.mirrored [Neg A] (s : Sweep A D) : Option Axis → Option (Sweep A D)
  | some .x => some ⟨mirror s.x, s.y, ⟨s.data.rows + (s.data.rows - 1), s.data.cols, fun i j => s.data.e (mirrorPlace s.data.rows i) j⟩⟩
  | some .y => some ⟨s.x, mirror s.y, ⟨s.data.rows, s.data.cols + (s.data.cols - 1), fun i j => s.data.e i (mirrorPlace s.data.cols j)⟩⟩
  | none => none

/-- Rows of the file written by `save_txt`, results.py:820-833, without the formatting: `_xy_grids`, results.py:814-818, and
`zip` of the three arrays in C order. -/
def Sweep.rowsOfFile (s : Sweep A D) : List (A × A × D) :=
  (s.x.flatMap fun u => List.replicate s.y.length u).zip (((List.replicate s.x.length s.y).flatten).zip
    ((List.range s.data.rows).flatMap fun i => (List.range s.data.cols).map fun j => s.data.e i j))

/-- `np.abs(v - a).argmin()`, results.py:1004, 1014: the first of the smallest distances; a `ValueError` for an empty array. -/
def nearest [AddCommGroup A] [LinearOrder A] (v : List A) (a : A) : Res Nat :=
  match v with
  | [] => .err .invalidArgument
  | b :: bs => .ok ((bs.zipIdx 1).foldl (fun (m : A × Nat) p => if |p.1 - a| < m.1 then (|p.1 - a|, p.2) else m) (|b - a|, 0)).2

/-- `Sweep._slice_x`, results.py:997-1005 (`plot_slice_x` shows this line). -/
def Sweep.sliceX [AddCommGroup A] [LinearOrder A] (s : Sweep A D) (a : A) : Res (List D × A) := do
  let idx ← nearest s.x a
  match s.x[idx]? with
  | some u => if idx < s.data.rows then .ok ((List.range s.data.cols).map fun j => s.data.e idx j, u) else .err .outOfRange
  | none => .err .outOfRange

section
variable [Field A] [LinearOrder A]

/-- `interp1d(..., kind='linear')` for one line of data: the points are sorted; the place is found with
`searchsorted` and clipped; the line through the two neighbors is evaluated.  results.py:915-923; scipy documentation.
Fewer than two points are a `ValueError`.  Coinciding points divide by zero: `.ub`. -/
def interp (xs ds : List A) (u : A) : Res A :=
  let pts := (xs.zip ds).insertionSort fun p q => p.1 ≤ q.1
  if pts.length < 2 then .err .invalidArgument
  else
    let hi := max 1 (min (pts.countP fun p => decide (p.1 < u)) (pts.length - 1))
    match pts[hi - 1]?, pts[hi]? with
    | some a, some b => if b.1 = a.1 then .ub else .ok ((b.2 - a.2) / (b.1 - a.1) * (u - a.1) + a.2)
    | _, _ => .ub

/-- `np.linspace(lo, hi, size)[k]`, results.py:917, 922.  Numpy documentation. -/
def linspace (lo hi : A) (size k : Nat) : A := if size ≤ 1 then lo else lo + k * ((hi - lo) / (size - 1 : Nat))

/-- One line of data at all the new places. results.py:918, 923. -/
def interpAll (xs ds : List A) : List A → Res (List A)
  | [] => .ok []
  | u :: us => do
    let v ← interp xs ds u
    let vs ← interpAll xs ds us
    return v :: vs

/-- The new places, results.py:917, 922.  `cast` is the conversion to the type of the old ones: rounding towards zero for
integers. -/
def newPlaces (cast : A → A) (xs : List A) (size : Nat) : Res (List A) :=
  match xs.min?, xs.max? with
  | some lo, some hi => .ok ((List.range size).map fun k => cast (linspace lo hi size k))
  | _, _ => .err .invalidArgument

/-- All lines of data at all the new places. results.py:918, 923. -/
def interpLines (xs us : List A) : List (List A) → Res (List (List A))
  | [] => .ok []
  | ds :: rest => do
    let v ← interpAll xs ds us
    let vs ← interpLines xs us rest
    return v :: vs

/-- The part of `Sweep.interpolated` for the x axis, results.py:915-918: each column is a line. -/
def Sweep.interpX (cast : A → A) (s : Sweep A A) (size : Nat) : Res (Sweep A A) :=
  if 0 < size ∧ size ≠ s.x.length then do
    let us ← newPlaces cast s.x size
    let cols ← interpLines s.x us ((List.range s.data.cols).map fun j => (List.range s.data.rows).map fun i => s.data.e i j)
    return ⟨us, s.y, ⟨us.length, s.data.cols, fun i j => (cols.getD j []).getD i 0⟩⟩
  else .ok s

/-- The part for the y axis, results.py:920-923: each row is a line. -/
def Sweep.interpY (cast : A → A) (s : Sweep A A) (size : Nat) : Res (Sweep A A) :=
  if 0 < size ∧ size ≠ s.y.length then do
    let us ← newPlaces cast s.y size
    let rows ← interpLines s.y us ((List.range s.data.rows).map fun i => (List.range s.data.cols).map fun j => s.data.e i j)
    return ⟨s.x, us, ⟨s.data.rows, us.length, fun i j => (rows.getD i []).getD j 0⟩⟩
  else .ok s

/-- `Sweep.interpolated` with `kind='linear'`, results.py:877-925, for the sizes of both axes (zero: unchanged).  `mul` stands
for the sizes `x.size * mul_x`, `y.size * mul_y`, results.py:902-912. -/
def Sweep.interpolated (cast : A → A) (s : Sweep A A) (sizeX sizeY : Nat) : Res (Sweep A A) := do
  let t ← s.interpX cast sizeX
  t.interpY cast sizeY

end

end Verif.Binding.SweepResult
