import Verif.Shape.Model

/-!
# Specification vocabulary for shapes
-/

namespace Verif.Shape

variable {F : Type} [Field F] [LinearOrder F]

/-- The sides of a polygon: consecutive vertices, and the last one with the first. -/
def sides (vs : List (Pt F)) : List (Pt F × Pt F) := vs.zip (vs.rotate 1)

/-- The ray from `c` to the left meets the side between `p` and `q`: some point of the side is at the
height of `c` and left of it.  The upper end point does not belong to the side and a horizontal side
is never met, so that a ray through a vertex counts once if the polygon passes to the other side there
and zero or two times if not. -/
def Crosses (c : Pt F) (s : Pt F × Pt F) : Prop :=
  ∃ t, 0 ≤ t ∧ t ≤ 1 ∧ s.1.y + t * (s.2.y - s.1.y) = c.y ∧ s.1.x + t * (s.2.x - s.1.x) < c.x ∧
    s.1.y ≠ s.2.y ∧ c.y ≠ max s.1.y s.2.y

open Classical in
/-- The number of sides met by the ray to the left. -/
noncomputable def crossings (vs : List (Pt F)) (c : Pt F) : Nat :=
  (sides vs).countP fun s => decide (Crosses c s)

/-- No side is treated as horizontal unless it is. -/
def Resolved (eps tiny : F) (vs : List (Pt F)) : Prop :=
  ∀ s ∈ sides vs, approxEqual eps tiny s.1.y s.2.y = true → s.1.y = s.2.y

/-- Move a point. -/
def Pt.shift (d p : Pt F) : Pt F := ⟨p.x + d.x, p.y + d.y⟩

/-- Twice the signed area of the triangle `a b c`: positive if `c` is left of the line from `a` to
`b`. -/
def turn (a b c : Pt F) : F := (b.x - a.x) * (c.y - a.y) - (b.y - a.y) * (c.x - a.x)

end Verif.Shape
