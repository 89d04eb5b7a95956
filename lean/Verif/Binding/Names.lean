import Verif.Basic
import Verif.Sublat.Model
import Mathlib.Algebra.Order.Field.Basic

/-!
# Selecting sites and hoppings by name

Source: `pybinding/support/alias.py`, `pybinding/support/structure.py` (`AbstractSites`), `pybinding/modifier.py` (`_process_modifier_args`),
`pybinding/system.py` (`_CppSites`).

Names are lists of characters.  Python's dictionaries are lists of pairs with different keys; different strings are taken to have different hashes.
-/

namespace Verif.Binding.Names

/-- `str`. alias.py:193. -/
abbrev Name := List Char

/-- `SplitName.first`, alias.py:213-215: `split("|")[0]`. -/
def first (n : Name) : Name := n.takeWhile fun c => c != '|'

/-- `SplitName.__eq__`, alias.py:217-218. -/
def splitEq (n o : Name) : Bool := n == o || first n == o

/-- `SplitName.__ne__`, alias.py:220-221. -/
def splitNe (n o : Name) : Bool := n != o && first n != o

/-- `AliasArray`, alias.py:5-72. -/
structure AliasArray where
  data : List Int
  mapping : List (Name × Int)

/-- `mapping[other]` and `other in mapping`, alias.py:46-47: a key is found by the hash of the whole string. -/
def dictGet (mapping : List (Name × Int)) (o : Name) : Option Int := (mapping.find? fun p => p.1 == o).map (·.2)

/-- `super().__eq__(v)`: elementwise comparison with a number, alias.py:47, 52. -/
def eqNum (data : List Int) (v : Int) : List Bool := data.map fun d => d == v

/-- The loop of `_mapped_eq`, alias.py:49-53. -/
def mappedLoop (data : List Int) (o : Name) : List (Name × Int) → List Bool → List Bool
  | [], result => result
  | (k, v) :: rest, result => mappedLoop data o rest (if splitEq k o then List.zipWith (· || ·) result (eqNum data v) else result)

/-- `_mapped_eq`, alias.py:45-53, which is `__eq__` for strings (alias.py:55-57). -/
def AliasArray.eq (a : AliasArray) (o : Name) : List Bool :=
  match dictGet a.mapping o with
  | some v => eqNum a.data v
  | none => mappedLoop a.data o a.mapping (List.replicate a.data.length false)

/-- `__ne__` for strings, alias.py:61-63. -/
def AliasArray.ne (a : AliasArray) (o : Name) : List Bool := (a.eq o).map not

/-- `AliasIndex(SplitName(name), shape)`, alias.py:178-181 and modifier.py:42-44. -/
structure AliasIndex where
  name : Name
  shape : Nat

/-- `AliasIndex.__eq__` as an array, alias.py:171-176, 186-187. -/
def AliasIndex.eq (a : AliasIndex) (o : Name) : List Bool := List.replicate a.shape (splitEq a.name o)

/-- `AliasIndex.__ne__` as an array, alias.py:171-176, 189-190. -/
def AliasIndex.ne (a : AliasIndex) (o : Name) : List Bool := List.replicate a.shape (splitNe a.name o)

/-- `name_map`, Registry.cpp:45-52, as the dictionary of Python. -/
def nameMap (names : List Name) : List (Name × Int) := names.zipIdx.map fun p => (p.1, (p.2 : Int))

/-- `_CppSites.ids`, system.py:41-43, for the sublattice ids `ids` of the sites (`decompressed()`). -/
def systemIds (ids : List Int) (names : List Name) : AliasArray := ⟨ids, nameMap names⟩

/-- The masks which a modifier of onsite energies gets from `sub_id == o`: it is called once for each sublattice, with the name of the sublattice and the number of
its sites (HamiltonianModifiers.hpp:113-140).  The masks of all calls one after another.  An id without a name is an `std::out_of_range` (Registry.cpp:55-61). -/
def modifierMasks (table : Sublat.Table) (names : List Name) (o : Name) : Res (List Bool) :=
  match table with
  | [] => .ok []
  | e :: rest =>
    if e.id < 0 then .err .outOfRange
    else match names[e.id.toNat]? with
      | none => .err .outOfRange
      | some n => do
        let ms ← modifierMasks rest names o
        return (AliasIndex.mk n e.numSites).eq o ++ ms

/-! ## Nearest sites -/

section
variable {F : Type} [Field F] [LinearOrder F]

/-- A site: position and family. structure.py:151-157. -/
structure Pos (F : Type) where
  x : F
  y : F
  z : F

/-- `positions[:ndim]` of one site, structure.py:92-93. -/
def Pos.head (p : Pos F) (n : Nat) : List F := [p.x, p.y, p.z].take n

/-- One entry of `distances`, structure.py:91-94, squared: the squares are in the same order as the distances. -/
def sqDist (p : Pos F) (target : List F) : F := ((p.head target.length).zipWith (fun a b => (a - b) * (a - b)) target).sum

/-- `distances(target)`, structure.py:91-94.  A target without components (`np.stack` of nothing) or with more than three (broadcasting fails) is a `ValueError`. -/
def distances (ps : List (Pos F)) (target : List F) : Res (List F) :=
  if target.length = 0 ∨ 3 < target.length then .err .invalidArgument else .ok (ps.map fun p => sqDist p target)

/-- `np.argmin`: the first index of the smallest value, a `ValueError` for nothing (numpy documentation); structure.py:119. -/
def argmin {K : Type} [LT K] [DecidableRel (α := K) (· < ·)] : List K → Res Nat
  | [] => .err .invalidArgument
  | d :: ds => .ok (go ds 1 0 d)
where
  /-- Scan from the left. numpy documentation of `argmin`; structure.py:119. -/
  go : List K → Nat → Nat → K → Nat
    | [], _, best, _ => best
    | d :: ds, i, best, b => if d < b then go ds (i + 1) i d else go ds (i + 1) best b

/-- `ma.argmin(ma.array(distances, mask))`, structure.py:121: masked values are replaced by the largest float (numpy documentation), here by `⊤`. -/
def maskedArgmin (ds : List F) (mask : List Bool) : Res Nat :=
  argmin (List.zipWith (fun (d : F) m => if m then (⊤ : WithTop F) else (d : WithTop F)) ds mask)

/-- `Sites.find_nearest(target, family)`, structure.py:96-121, for families given by name. -/
def sitesNearest (ps : List (Pos F)) (ids : AliasArray) (target : List F) (family : Name) : Res Nat := do
  let ds ← distances ps target
  if family = [] then argmin ds else maskedArgmin ds (ids.ne family)

/-- The distance which `System.find_nearest` (system.py:83-96 and System.cpp:68-82) uses: missing components of the target are zero (cast.hpp:28-46). -/
def cppDist (p : Pos F) (target : List F) : F :=
  (p.x - target.getD 0 0) * (p.x - target.getD 0 0) + (p.y - target.getD 1 0) * (p.y - target.getD 1 0) +
    (p.z - target.getD 2 0) * (p.z - target.getD 2 0)

/-- The distance of site `i`, System.cpp:71, 74. -/
def distAt (ps : List (Pos F)) (target : List F) (i : Nat) : F := match ps[i]? with | some p => cppDist p target | none => 0

/-- `System.find_nearest(target, name)`, system.py:83-96, System.cpp:50-82. The name is looked up as a whole (Registry.cpp:73-79). -/
def systemNearest (table : Sublat.Table) (names : List Name) (ps : List (Pos F)) (target : List F) (family : Name) : Res Nat :=
  let dist := distAt ps target
  if family = [] then Sublat.findNearest table ps.length dist none
  else match names.findIdx? (fun n => n == family) with
    | none => .err .outOfRange
    | some i => Sublat.findNearest table ps.length dist (some (i : Int))

end

end Verif.Binding.Names
