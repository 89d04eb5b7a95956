import Verif.Binding.ArrayRef
import Mathlib.Data.List.Sort

/-!
# Modifiers written in Python

The way of an array of energies from C++ to a Python function and back: `arrayref_caster` (`cppmodule/include/cast.hpp`), the
decorator in `pybinding/modifier.py` and `ExtractModifierResult` in `cppmodule/src/modifiers.cpp`.  The functions of numpy are
modelled by their documentation.
-/

namespace Verif.Binding

variable {K : Type}

/-! ## Numpy -/

/-- All indices of an array in C order, as `copy` in modifier.py:116 runs through them (numpy documentation). -/
def indices : List Nat → List (List Nat)
  | [] => [[]]
  | d :: ds => (List.range d).flatMap fun i => (indices ds).map fun is => i :: is

/-- The flag `C_CONTIGUOUS` for sizes and strides from the last axis to the first: axes of size 1 do not count
(numpy documentation; modifier.py:115). -/
def contigFrom : List (Nat × Int) → Int → Bool
  | [], _ => true
  | (d, s) :: rest, acc => if d = 1 then contigFrom rest acc else decide (s = acc) && contigFrom rest (acc * d)

/-- The flag `C_CONTIGUOUS` of numpy, modifier.py:115. -/
def Nd.cContiguous (a : Nd K) : Bool := a.size == 0 || contigFrom (a.shape.zip a.strides).reverse 1

/-- The flag `F_CONTIGUOUS` of numpy, on which the storage order in modifier.py:105 depends. -/
def Nd.fContiguous (a : Nd K) : Bool := a.size == 0 || contigFrom (a.shape.zip a.strides) 1

/-- Axes in the order in which `astype` stores them (`order="K"`, as close to the original as possible): C order for arrays that
are contiguous in C order or have one axis, Fortran order for those contiguous in Fortran order, otherwise sorted by the absolute
values of the strides, the biggest first, axes with equal strides in their order (numpy documentation;
used by `astype` in modifier.py:105). -/
def Nd.axes (a : Nd K) : List Nat :=
  let n := a.shape.length
  if a.cContiguous || decide (n ≤ 1) then List.range n
  else if a.fContiguous then (List.range n).reverse
  else (List.range n).insertionSort fun x y => (a.strides.getD y 0).natAbs ≤ (a.strides.getD x 0).natAbs

/-- A new array with the elements of `a`, converted by `g`; its axes are stored in the order `axes`.  Reading outside of the memory
of `a` (impossible for a numpy array) is undefined.  Common part of `astype` and `copy` (numpy documentation), modifier.py:105, 116. -/
def Nd.store (buf : List K) (a : Nd K) (tag : Tag) (g : K → K) (axes : List Nat) : Res (Nd K) :=
  let shape := axes.map fun x => a.shape.getD x 0
  let data := (indices shape).mapM fun q => a.get buf ((List.range a.shape.length).map fun x => q.getD (axes.idxOf x) 0)
  match data with
  | some data =>
    .ok ⟨.other (data.map g), tag, 0, a.shape,
      (List.range a.shape.length).map fun x => (cStrides shape).getD (axes.idxOf x) 0, true⟩
  | none => .ub

/-- Order of the kinds of types: `astype(casting="same_kind")` may go up, and to other precisions of the same kind
(numpy documentation), modifier.py:105. -/
def Tag.kind : Tag → Nat
  | .b => 0
  | .u8 | .u16 | .u32 | .u64 => 1
  | .i8 | .i16 | .i32 | .i64 => 2
  | .f32 | .f64 => 3
  | .cf32 | .cf64 => 4

/-- `numpy.iscomplexobj`, modifier.py:107. -/
def Tag.isComplex (t : Tag) : Bool := decide (t.kind = 4)

/-- `std::is_floating_point`, cppmodule/src/modifiers.cpp:19. -/
def Tag.isFloating (t : Tag) : Bool := decide (t.kind = 3)

/-- `a.astype(tag, casting="same_kind", copy=False)`: `a` itself if it has the type.  `conv` converts numbers.
modifier.py:105. -/
def Nd.astype (conv : Tag → Tag → K → K) (buf : List K) (a : Nd K) (tag : Tag) : Res (Nd K) :=
  if a.tag = tag then .ok a else a.store buf tag (conv a.tag tag) a.axes

/-- `np.moveaxis(a, 2, 0)` of an array with three axes, modifier.py:34. -/
def Nd.moveFront (a : Nd K) : Nd K :=
  match a.shape, a.strides with
  | [x, y, z], [s, t, u] => { a with shape := [z, x, y], strides := [u, s, t], owns := false }
  | _, _ => a

/-- `np.moveaxis(a, 0, 2)` of an array with three axes, modifier.py:116. -/
def Nd.moveBack (a : Nd K) : Nd K :=
  match a.shape, a.strides with
  | [x, y, z], [s, t, u] => { a with shape := [y, z, x], strides := [t, u, s], owns := false }
  | _, _ => a

/-- `a.copy()`: a new array in C order, modifier.py:116. -/
def Nd.copy (buf : List K) (a : Nd K) : Res (Nd K) := a.store buf a.tag id (List.range a.shape.length)

/-! ## The decorator -/

/-- `arrayref` of the energies, HamiltonianModifiers.hpp:133-134, 234-235. -/
def energyRef (tag : Tag) (rows cols n : Nat) : ArrayRef :=
  if rows = 1 ∧ cols = 1 then arrayref1 tag 0 n else arrayref3 tag 0 rows cols n

/-- The first argument of the user's function, `_process_modifier_args`, modifier.py:29-36.  (Positions only change their shape, 47-48;
names of sublattices and hoppings become `AliasIndex` objects, 45-46.) -/
def processArg (a : Nd K) : Nd K := if a.shape.length > 1 then a.moveFront else a

/-- The function `cast` in `_sanitize_modifier_result`, modifier.py:102-111.  A Python exception (here `TypeError`) arrives in C++ as
`py::error_already_set`, which is a `std::runtime_error`. -/
def castResult (conv : Tag → Tag → K → K) (canBeComplex : Bool) (buf : List K) (tag : Tag) (r : Nd K) : Res (Nd K) :=
  if r.tag.kind ≤ tag.kind then r.astype conv buf tag
  else if r.tag.isComplex && canBeComplex then .ok r
  else .err .runtimeError

/-- The function `moveaxis` in `_sanitize_modifier_result`, modifier.py:113-118. -/
def moveResult (buf : List K) (r : Nd K) : Res (Nd K) :=
  if r.shape.length = 3 && r.owns && r.cContiguous then r.moveBack.copy buf else .ok r

/-- The check that a result is an array, modifier.py:92-93. -/
def asArray (r : Option (Nd K)) : Res (Nd K) :=
  match r with
  | some r => .ok r
  | none => .err .runtimeError

/-- `_sanitize_modifier_result`, modifier.py:87-122.  `none` in the list is an object that is not an array; `tag` and `size` are those of
the first argument. -/
def sanitize (conv : Tag → Tag → K → K) (canBeComplex : Bool) (numReturn : Nat) (buf : List K) (tag : Tag) (size : Nat)
    (result : List (Option (Nd K))) : Res (List (Nd K)) := do
  let rs ← result.mapM asArray
  if rs.length ≠ numReturn then .err .runtimeError
  else if rs.any fun r => r.size != size then .err .runtimeError
  else do
    let rs ← rs.mapM (castResult conv canBeComplex buf tag)
    rs.mapM (moveResult buf)

/-! ## Back in C++ -/

/-- `ExtractModifierResult::operator()`, modifiers.cpp:12-32: the new contents of the array `buf`.  Only type and size of the result are
compared, and its memory is read from its first element on; reading outside of the memory is undefined. -/
def extract (tag : Tag) (buf : List K) (r : Nd K) : Res (List K) :=
  if r.tag ≠ tag then (if tag.isFloating then .err .complexOverride else .err .runtimeError)
  else if buf.length ≠ r.size then .err .runtimeError
  else if r.mem.isBuffer && r.offset == 0 then .ok buf
  else if buf.length = 0 ∨ r.offset + buf.length ≤ (r.mem.data buf).length then
    .ok (((r.mem.data buf).drop r.offset).take buf.length)
  else .ub

/-- A Python function: from its array argument, the contents of its memory and the other arguments (`Q`), it makes new contents
of that memory and a list of results (called in modifier.py:155). -/
abbrev PyFunction (K Q : Type) := Nd K → List K → Q → List K × List (Option (Nd K))

/-- The C++ function of an onsite or hopping modifier, modifiers.cpp:98-138 with `apply_func`, modifier.py:153-157. -/
def applyPython {Q : Type} (conv : Tag → Tag → K → K) (tag : Tag) (rows cols n : Nat) (f : PyFunction K Q) (data : List K) (q : Q) :
    Res (List K) := do
  let ref ← checkVariant complexTypes (energyRef tag rows cols n)
  let (buf, result) := f (processArg (toNumpy ref)) data q
  let rs ← sanitize conv true 1 buf tag ref.size result
  match rs with
  | [r] => matchOne complexTypes ref fun _ => extract tag buf r
  | _ => .ub

end Verif.Binding
