import Verif.Basic
import Mathlib.Algebra.Order.Field.Basic
import Mathlib.Analysis.SpecialFunctions.Sqrt

/-!
# Model of the shapes

Source: `cppcore/src/system/Shape.cpp`, `cppcore/include/system/Shape.hpp`,
`cppcore/include/numeric/traits.hpp` (`approx_equal`).

Coordinates are elements of an ordered field (real numbers for lines, which use a square root).
-/

namespace Verif.Shape

section Polygon

variable {F : Type} [Field F] [LinearOrder F]

/-- A point of the plane.
`Cartesian`, numeric/dense.hpp:52; the shapes use two of its components. -/
structure Pt (F : Type) where
  x : F
  y : F
deriving DecidableEq

/-- `num::approx_equal` with one unit in the last place, traits.hpp:92-98; `eps` and `tiny` are
`numeric_limits::epsilon()` and `numeric_limits::min()`, zero for exact arithmetic. -/
def approxEqual (eps tiny a b : F) : Bool :=
  decide (|a - b| ≤ eps * |a + b|) || decide (|a - b| ≤ tiny)

/-- The test for one side and one position, Shape.cpp:69-77. -/
def flips (p1 p2 c : Pt F) : Bool :=
  let k := (p2.x - p1.x) / (p2.y - p1.y)
  let intersectsY := decide (p1.y > c.y) != decide (p2.y > c.y)
  let xSide := k * (c.y - p1.y) + p1.x
  let intersectsX := decide (c.x > xSide)
  intersectsY && intersectsX

/-- The loop of `WithinPolygon::operator()`, Shape.cpp:58-86, for one position: `p2` is vertex `j`,
the one before the first of the remaining vertices, `w` the element of `is_within`. -/
def withinLoop (eps tiny : F) (c : Pt F) : Pt F → List (Pt F) → Bool → Bool
  | _, [], w => w
  | p2, p1 :: rest, w =>
    withinLoop eps tiny c p1 rest
      (if approxEqual eps tiny p1.y p2.y then w else if flips p1 p2 c then !w else w)

/-- `WithinPolygon::operator()`, Shape.cpp:53-89, for one position. -/
def within (eps tiny : F) (vs : List (Pt F)) (c : Pt F) : Bool :=
  match vs.getLast? with
  | none => false
  | some last => withinLoop eps tiny c last vs false

/-- The constructor of `Shape`, Shape.cpp:11-15: the number of vertices is checked. -/
def checkVertices {α : Type} (vs : List α) : Res Unit :=
  if vs.length < 2 then .err .logicError else .ok ()

end Polygon

section Line

/-- A position. `Cartesian`, numeric/dense.hpp:52. -/
abbrev Vec := Fin 3 → ℝ

/-- The dot product of two vectors. Shape.cpp:30-36. -/
def dot (u v : Vec) : ℝ := u 0 * v 0 + u 1 * v 1 + u 2 * v 2

/-- The length of a vector. `norm()`, Shape.cpp:37. -/
noncomputable def length (v : Vec) : ℝ := Real.sqrt (v 0 ^ 2 + v 1 ^ 2 + v 2 ^ 2)

open Classical in
/-- `detail::is_acute_angle`, Shape.cpp:28-43, for one position.  If one of the lengths is zero the
quotient is 0/0, not a number, and the comparison with it is false. -/
noncomputable def isAcute (a b c : Vec) : Bool :=
  let ba := a - b
  let bc := c - b
  let d := length ba * length bc
  if d = 0 then false else decide (dot ba bc / d ≥ 0)

/-- The `contains` function of `Line`, Shape.cpp:17-24. -/
noncomputable def lineContains (a b c : Vec) : Bool := isAcute a b c && isAcute b a c

end Line

section Freeform

variable {F : Type} [Field F]

/-- `make_freeformshape_vertices`, Shape.cpp:97-111. -/
def freeformVertices (width center : Fin 3 → F) : List (Fin 3 → F) :=
  let v1 := fun i => center i - width i / 2
  let v2 := fun i => center i + width i / 2
  [![v1 0, v1 1, v1 2], ![v2 0, v1 1, v1 2], ![v1 0, v2 1, v1 2], ![v2 0, v2 1, v1 2],
    ![v1 0, v1 1, v2 2], ![v2 0, v1 1, v2 2], ![v1 0, v2 1, v2 2], ![v2 0, v2 1, v2 2]]

end Freeform

end Verif.Shape
