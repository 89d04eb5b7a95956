import Verif.Shape.Model
import Verif.Foundation.Model
import Verif.Lattice.Geometry
import Mathlib.Analysis.SpecialFunctions.Trigonometric.Basic

/-!
# Shapes made in Python, and the foundation which is made for a shape

Source: `pybinding/shape.py`, `cppmodule/src/shape.cpp`, `cppmodule/include/cast.hpp` (`static_vec_caster`), `cppcore/src/system/Foundation.cpp`
(`find_bounds` and the constructor for shapes).

Coordinates are real numbers.  The functions `contains` are given position by position: functions of the user which look at several positions at once are not
modelled.  `scipy.spatial.ConvexHull` is an arbitrary function with the documented property, see `Hull`.
-/

namespace Verif.Shape

open Verif.Lattice (Cart calcPosition translateCoordinates)
open Verif.Foundation (Dims findBounds boundsLoop generatePositions)

/-- `Shape`, Shape.hpp:27-42, without the lattice offset. -/
structure PyShape where
  vertices : List Vec
  contains : Vec → Bool

/-- `static_vec_caster::load`, cast.hpp:28-46: up to three numbers, the rest is zero.  `none`: the argument is refused. -/
def loadVec (l : List ℝ) : Option Vec := if 3 < l.length then none else some fun i => l.getD i 0

/-- The `x` and `y` components, Shape.cpp:46-49. -/
def xy (p : Vec) : Pt ℝ := ⟨p 0, p 1⟩

/-- `Polygon(vertices)`, shape.py:109-112 and Shape.cpp:92-93. -/
noncomputable def polygon (eps tiny : ℝ) (vs : List Vec) : Res PyShape :=
  if vs.length < 3 then .err .runtimeError else .ok ⟨vs, fun p => within eps tiny (vs.map xy) (xy p)⟩

/-- `Polygon.with_offset(vector)`, shape.py:114-118. An assignment of too many numbers is a `ValueError`. -/
noncomputable def polygonOffset (eps tiny : ℝ) (s : PyShape) (v : List ℝ) : Res PyShape :=
  match loadVec v with
  | none => .err .invalidArgument
  | some v => polygon eps tiny (s.vertices.map (· + v))

/-- `FreeformShape`, shape.py:152-155: the function, and width and center as they were given. -/
structure Freeform where
  contains : Vec → Bool
  width : List ℝ
  center : List ℝ

/-- The C++ object behind it, cppmodule/src/shape.cpp:41-48 and Shape.cpp:114-115. -/
noncomputable def Freeform.shape (f : Freeform) : Option PyShape :=
  match loadVec f.width, loadVec f.center with
  | some w, some c => some ⟨freeformVertices w c, f.contains⟩
  | _, _ => none

/-- The sum of two one-dimensional numpy arrays: an array with one element is repeated, other different lengths are a `ValueError`. -/
def broadcastAdd (a b : List ℝ) : Res (List ℝ) :=
  if a.length = b.length then .ok (List.zipWith (· + ·) a b)
  else if a.length = 1 then .ok (b.map (a.getD 0 0 + ·))
  else if b.length = 1 then .ok (a.map (· + b.getD 0 0))
  else .err .invalidArgument

/-- `r` in the `contains` functions of `with_offset`, shape.py:160-161 and 209-210: `[v0 - v for v0, v in zip(r0, vector)] + r0[len(vector):]`. -/
def moveBack (p : Vec) (v : List ℝ) : Vec := fun i => if i.val < v.length then p i - v.getD i 0 else p i

/-- `FreeformShape.with_offset(vector)`, shape.py:157-163. -/
def Freeform.withOffset (f : Freeform) (v : List ℝ) : Res Freeform := do
  let center ← broadcastAdd (f.center.take v.length) v
  return ⟨fun p => f.contains (moveBack p v), f.width, center⟩

/-- `a.resize(2)`, shape.py:80-81: cut off or filled with zeros. -/
def resize2 (l : List ℝ) : List ℝ := (l ++ [0, 0]).take 2

/-- `Line`, shape.py:78-84: the resized arrays. -/
structure PyLine where
  a : List ℝ
  b : List ℝ

/-- `Line(a, b)`, shape.py:78-84. -/
def PyLine.make (a b : List ℝ) : PyLine := ⟨resize2 a, resize2 b⟩

/-- The C++ object behind it, Shape.cpp:17-24. -/
noncomputable def PyLine.shape (l : PyLine) : Option PyShape :=
  match loadVec l.a, loadVec l.b with
  | some a, some b => some ⟨[a, b], lineContains a b⟩
  | _, _ => none

/-- `Line.with_offset(vector)`, shape.py:86-88: the first component is added to both coordinates of `a`, the second one to those of `b`.  Too few components are
an `IndexError`. -/
def PyLine.withOffset (l : PyLine) (v : List ℝ) : Res PyLine :=
  match v with
  | v0 :: v1 :: _ => .ok (.make (l.a.map (· + v0)) (l.b.map (· + v1)))
  | _ => .err .outOfRange

/-- `scipy.spatial.ConvexHull`, used in shape.py:200-201: `hull.points[hull.vertices]` are some of the points, and every linear function is as small on one of
them as on any of the points.  Degenerate sets of points are an error. -/
structure Hull where
  run : List (ℝ × ℝ) → Res (List (ℝ × ℝ))
  subset : ∀ ps vs, run ps = .ok vs → ∀ v ∈ vs, v ∈ ps
  extreme : ∀ ps vs, run ps = .ok vs → ∀ p ∈ ps, ∀ u w : ℝ, ∃ v ∈ vs, u * v.1 + w * v.2 ≤ u * p.1 + w * p.2

/-- `CompositeShape(shape1, shape2, op)`, shape.py:193-204; the constructor of `Shape` refuses less than two vertices. -/
def composite (hull : Hull) (s1 s2 : PyShape) (op : Bool → Bool → Bool) : Res PyShape := do
  let vs ← hull.run ((s1.vertices ++ s2.vertices).map fun v => (v 0, v 1))
  checkVertices vs
  return ⟨vs.map fun v => ![v.1, v.2, 0], fun p => op (s1.contains p) (s2.contains p)⟩

/-- `CompositeShape.with_offset(vector)`, shape.py:206-218. -/
def compositeOffset (s : PyShape) (v : List ℝ) : Res PyShape :=
  match loadVec v with
  | none => .err .invalidArgument
  | some w => do
    checkVertices s.vertices
    return ⟨s.vertices.map (· + w), fun p => s.contains (moveBack p v)⟩

/-- `shape1 & shape2`, shape.py:52-53. -/
def shapeAnd (hull : Hull) (s1 s2 : PyShape) : Res PyShape := composite hull s1 s2 (· && ·)

/-- `shape1 | shape2`, shape.py:55-56. -/
def shapeOr (hull : Hull) (s1 s2 : PyShape) : Res PyShape := composite hull s1 s2 (· || ·)

/-- `shape1 ^ shape2`, shape.py:58-59. -/
def shapeXor (hull : Hull) (s1 s2 : PyShape) : Res PyShape := composite hull s1 s2 (· != ·)

/-- `shape1 + shape2`, shape.py:61-62. -/
def shapeAdd (hull : Hull) (s1 s2 : PyShape) : Res PyShape := shapeOr hull s1 s2

/-- `shape1 - shape2`, shape.py:64-65. -/
def shapeSub (hull : Hull) (s1 s2 : PyShape) : Res PyShape := composite hull s1 s2 fun a b => a && !b

open Classical in
/-- `y or x`, shape.py:277. -/
noncomputable def orElse (y : Option ℝ) (x : ℝ) : ℝ :=
  match y with
  | none => x
  | some y => if y = 0 then x else y

/-- `rectangle(x, y)`, shape.py:263-279. -/
noncomputable def rectangle (eps tiny x : ℝ) (y : Option ℝ) : Res PyShape :=
  let y := orElse y x
  let x0 := x / 2
  let y0 := y / 2
  polygon eps tiny [![x0, y0, 0], ![x0, -y0, 0], ![-x0, -y0, 0], ![-x0, y0, 0]]

/-- `regular_polygon(num_sides, radius, angle)`, shape.py:282-300. -/
noncomputable def regularPolygon (eps tiny : ℝ) (num : Nat) (radius angle : ℝ) : Res PyShape :=
  polygon eps tiny ((List.range num).map fun n : Nat =>
    let a := angle + 2 * n * Real.pi / num
    ![radius * Real.sin a, radius * Real.cos a, 0])

open Classical in
/-- `circle(radius, center)`, shape.py:303-319. -/
noncomputable def circle (radius cx cy : ℝ) : Freeform :=
  ⟨fun p => decide (Real.sqrt ((p 0 - cx) ^ 2 + (p 1 - cy) ^ 2) < radius), [2 * radius, 2 * radius], [cx, cy]⟩

/-! ## The foundation -/

/-- The part of `Foundation` which depends on the shape. Foundation.hpp:102-107. -/
structure ShapeFoundation where
  lo : Index3
  dims : Dims
  positions : List Vec
  valid : List Bool

/-- `find_bounds` in direction `i`, Foundation.cpp:6-22, for vertices in lattice coordinates.  Beyond the number of vectors the coordinates are zero and there is no
padding. -/
noncomputable def axisBounds {n : Nat} (intMax intMin : Int) (cs : List (Fin n → ℝ)) (i : Nat) : Int × Int :=
  if h : i < n then findBounds intMax intMin (cs.map fun c => c ⟨i, h⟩) else boundsLoop (cs.map fun _ => (0 : ℝ)) intMax intMin

/-- The constructor of `Foundation` for shapes, Foundation.cpp:116-125, without `remove_dangling`.  `subs` are the positions in the unit cell.  `none` stands for
the unspecified coordinates of a singular lattice. -/
noncomputable def shapeFoundation (intMax intMin : Int) (vectors : List Vec) (hd : vectors.length ≤ 3) (offset : Vec) (subs : List Vec) (s : PyShape) :
    Option (Res ShapeFoundation) :=
  match s.vertices.mapM (translateCoordinates vectors hd) with
  | none => none
  | some cs =>
    let bx := axisBounds intMax intMin cs 0
    let y := axisBounds intMax intMin cs 1
    let z := axisBounds intMax intMin cs 2
    let lo : Index3 := ⟨bx.1, y.1, z.1⟩
    let d : Dims := ⟨(bx.2 - bx.1 + 1).toNat, (y.2 - y.1 + 1).toNat, (z.2 - z.1 + 1).toNat⟩
    some <| do
      let ps ← generatePositions vectors (calcPosition vectors offset [lo.x, lo.y, lo.z] 0) d subs
      return ⟨lo, d, ps, ps.map s.contains⟩

end Verif.Shape
