import Verif.Basic

/-!
# References to arrays of any scalar type

`numeric/arrayref.hpp`, `detail/typelist.hpp`, the parts of `numeric/dense.hpp` which make and read such references, and
`cppmodule/include/cast.hpp`, which turns them into numpy arrays.  Memory is a list of scalars of one type, and pointers are
positions in it: reading a scalar through a pointer to another type does not occur because the tag is compared first.
-/

namespace Verif.Binding

/-- Scalar types of C++ for which `get_tag` may be called, arrayref.hpp:16-42.  Integers are described by their size in bytes. -/
inductive Scalar where
  | float | cfloat | double | cdouble | bool
  | int (bytes : Nat)
  | uint (bytes : Nat)
deriving DecidableEq, Repr

/-- `enum class Tag`, arrayref.hpp:14. -/
inductive Tag where
  | f32 | cf32 | f64 | cf64 | b | i8 | i16 | i32 | i64 | u8 | u16 | u32 | u64
deriving DecidableEq, Repr

/-- `get_tag`, arrayref.hpp:16-42.  `none`: the `static_assert` fails.  (Integers of 4 and 8 bytes which are not one of the
fixed-width types get the tag of the one of the same size.) -/
def getTag : Scalar → Option Tag
  | .float => some .f32
  | .cfloat => some .cf32
  | .double => some .f64
  | .cdouble => some .cf64
  | .bool => some .b
  | .int 1 => some .i8
  | .int 2 => some .i16
  | .int 4 => some .i32
  | .int 8 => some .i64
  | .uint 1 => some .u8
  | .uint 2 => some .u16
  | .uint 4 => some .u32
  | .uint 8 => some .u64
  | _ => none

/-- `get_real_t`, traits.hpp:9-35. -/
def Scalar.real : Scalar → Scalar
  | .cfloat => .float
  | .cdouble => .double
  | t => t

/-- `BasicArrayRef`, arrayref.hpp:44-68, whether constant or not.  `offset` is the data pointer, `shape` has three entries. -/
structure ArrayRef where
  offset : Nat
  tag : Tag
  ndim : Nat
  rowMajor : Bool
  shape : List Nat
deriving DecidableEq, Repr

/-- `BasicArrayRef::size`, arrayref.hpp:70-71: product of the first `ndim` sizes. -/
def ArrayRef.size (r : ArrayRef) : Nat := (r.shape.take r.ndim).prod

/-- `arrayref(data, x)`, arrayref.hpp:122-126. -/
def arrayref1 (tag : Tag) (offset x : Nat) : ArrayRef := ⟨offset, tag, 1, true, [x, 0, 0]⟩

/-- `arrayref(data, x, y)`, arrayref.hpp:128-132. -/
def arrayref2 (tag : Tag) (offset x y : Nat) : ArrayRef := ⟨offset, tag, 2, true, [x, y, 0]⟩

/-- `arrayref(data, x, y, z)`, arrayref.hpp:134-138. -/
def arrayref3 (tag : Tag) (offset x y z : Nat) : ArrayRef := ⟨offset, tag, 3, true, [x, y, z]⟩

/-- `arrayref(std::vector const&)`, dense.hpp:302-305. -/
def arrayrefVector (tag : Tag) (size : Nat) : ArrayRef := arrayref1 tag 0 size

/-- `arrayref(std::vector&)`, dense.hpp:307-310.  The arguments `(data, 1, true, size)` fit the function with three sizes
(`true` is converted to 1). -/
def arrayrefMutableVector (tag : Tag) (size : Nat) : ArrayRef := arrayref3 tag 0 1 1 size

/-- An Eigen array, matrix, map or block.  Element `(i, j)` is at `offset + i * outer + j * inner` in row-major order and at
`offset + j * outer + i * inner` in column-major order.  `vector`: one of the sizes is 1 at compile time.  The argument of `arrayref`, dense.hpp:282-300; a
data structure of Eigen. -/
structure Dense where
  offset : Nat
  vector : Bool
  rowMajor : Bool
  rows : Nat
  cols : Nat
  inner : Nat
  outer : Nat
deriving DecidableEq, Repr

/-- Position of an element in memory, as Eigen computes it for the arguments of `arrayref`, dense.hpp:282-300. -/
def Dense.pos (d : Dense) (i j : Nat) : Nat :=
  d.offset + if d.rowMajor then i * d.outer + j * d.inner else j * d.outer + i * d.inner

/-- `arrayref(DenseBase const&)` and `arrayref(DenseBase&)`, dense.hpp:282-300. -/
def arrayrefDense (tag : Tag) (d : Dense) : ArrayRef :=
  ⟨d.offset, tag, if d.vector then 1 else 2, d.rowMajor,
    if d.vector then [d.rows * d.cols, 0, 0] else [d.rows, d.cols, 0]⟩

/-- `MakeContainer` for vectors, dense.hpp:228-251: a map of `size()` elements. -/
def makeVector (r : ArrayRef) : Dense := ⟨r.offset, true, false, r.size, 1, 1, r.size⟩

/-- `MakeContainer` for matrices in row-major or column-major order, dense.hpp:253-264.  `none`: there are no two sizes (not
possible). -/
def makeMatrix (rowMajor : Bool) (r : ArrayRef) : Option Dense :=
  match r.shape with
  | x :: y :: _ => some ⟨r.offset, false, rowMajor, x, y, 1, if rowMajor then y else x⟩
  | _ => none

/-! ## Dispatch -/

/-- `VariantArrayConstRef::check` and the same code in `VariantArrayRef`, arrayref.hpp:97-105, 112-119. -/
def checkVariant (types : List Scalar) (r : ArrayRef) : Res ArrayRef :=
  if (types.map getTag).all fun t => !decide (t = some r.tag) then .err .runtimeError else .ok r

/-- `RealArrayConstRef::Types`, arrayref.hpp:141, 145. -/
def realTypes : List Scalar := [.float, .double]

/-- `ComplexArrayConstRef::Types`, arrayref.hpp:142-144, 146-148. -/
def complexTypes : List Scalar := [.float, .double, .cfloat, .cdouble]

/-- `try_match`, arrayref.hpp:174-187.  The function is called with the type whose container it gets. -/
def tryMatch {α : Type} (tag : Tag) (f : Scalar → Res α) : List Scalar → Res α
  | [] => .err .runtimeError
  | t :: ts => if some tag = getTag t then f t else tryMatch tag f ts

/-- `match`, arrayref.hpp:226-231. -/
def matchOne {α : Type} (types : List Scalar) (r : ArrayRef) (f : Scalar → Res α) : Res α := tryMatch r.tag f types

/-- `tl::Combinations`, typelist.hpp:22-41.  There is no case for an empty first list, which does not compile. -/
def combinations : List Scalar → List Scalar → List (Scalar × Scalar)
  | [], _ => []
  | [t], us => us.map fun u => (t, u)
  | t :: ts, us => (us.map fun u => (t, u)) ++ combinations ts us

/-- `tl::Filter`, typelist.hpp:44-61. -/
def filterPairs (p : Scalar × Scalar → Bool) : List (Scalar × Scalar) → List (Scalar × Scalar)
  | [] => []
  | t :: ts => (if p t then [t] else []) ++ filterPairs p ts

/-- `IsSamePrecision`, arrayref.hpp:215-223. -/
def isSamePrecision (t : Scalar × Scalar) : Bool := decide (t.1.real = t.2.real)

/-- `try_match2`, arrayref.hpp:195-213. -/
def tryMatch2 {α : Type} (tag1 tag2 : Tag) (f : Scalar → Scalar → Res α) : List (Scalar × Scalar) → Res α
  | [] => .err .runtimeError
  | t :: ts => if some tag1 = getTag t.1 ∧ some tag2 = getTag t.2 then f t.1 t.2 else tryMatch2 tag1 tag2 f ts

/-- `match2`, arrayref.hpp:233-240. -/
def matchTwo {α : Type} (types1 types2 : List Scalar) (r1 r2 : ArrayRef) (f : Scalar → Scalar → Res α) : Res α :=
  tryMatch2 r1.tag r2.tag f (combinations types1 types2)

/-- `match2sp`, arrayref.hpp:242-250. -/
def matchTwoSp {α : Type} (types1 types2 : List Scalar) (r1 r2 : ArrayRef) (f : Scalar → Scalar → Res α) : Res α :=
  tryMatch2 r1.tag r2.tag f (filterPairs isSamePrecision (combinations types1 types2))

/-! ## Numpy arrays -/

/-- What the memory of a numpy array is: the array given to the Python function (compared in cppmodule/src/modifiers.cpp:29), or
other memory. -/
inductive Mem (K : Type) where
  | buffer
  | other (data : List K)
deriving DecidableEq, Repr

/-- A numpy array: element `[i, j, ...]` is at `offset + i * strides[0] + j * strides[1] + ...`.  `owns` is the flag
`OWNDATA`.  Strides and offset are counted in elements.  This is numpy's data structure (made in cast.hpp:90-93), not code of the repository. -/
structure Nd (K : Type) where
  mem : Mem K
  tag : Tag
  offset : Nat
  shape : List Nat
  strides : List Int
  owns : Bool
deriving DecidableEq, Repr

variable {K : Type}

/-- Contents of the memory, given those of the buffer (read in cppmodule/src/modifiers.cpp:29-30). -/
def Mem.data (buf : List K) : Mem K → List K
  | .buffer => buf
  | .other d => d

/-- Is it the memory of the array given to the function?  (cppmodule/src/modifiers.cpp:29) -/
def Mem.isBuffer : Mem K → Bool
  | .buffer => true
  | .other _ => false

/-- Strides in C order (numpy documentation), cast.hpp:87. -/
def cStrides : List Nat → List Int
  | [] => []
  | _ :: ds => (ds.prod : Int) :: cStrides ds

/-- Strides in Fortran order (numpy documentation), cast.hpp:88; `acc` is the product of the sizes before. -/
def fStrides (acc : Nat) : List Nat → List Int
  | [] => []
  | d :: ds => (acc : Int) :: fStrides (acc * d) ds

/-- Position of an element: `offset + Σ idx * strides` (numpy documentation of the arrays of cast.hpp:90-93). -/
def dot : List Nat → List Int → Int
  | i :: is, s :: ss => (i : Int) * s + dot is ss
  | _, _ => 0

/-- Element of a numpy array (of cast.hpp:90-93); `none`: outside of the memory. -/
def Nd.get (buf : List K) (a : Nd K) (idx : List Nat) : Option K :=
  let p := (a.offset : Int) + dot idx a.strides
  if 0 ≤ p then (a.mem.data buf)[p.toNat]? else none

/-- Number of elements, `size` in modifier.py:99. -/
def Nd.size (a : Nd K) : Nat := a.shape.prod

/-- The types in `arrayref_caster::cast`, cast.hpp:67-84. -/
def dtypeOf : Tag → Scalar
  | .f32 => .float
  | .cf32 => .cfloat
  | .f64 => .double
  | .cf64 => .cdouble
  | .b => .bool
  | .i8 => .int 1
  | .i16 => .int 2
  | .i32 => .int 4
  | .i64 => .int 8
  | .u8 => .uint 1
  | .u16 => .uint 2
  | .u32 => .uint 4
  | .u64 => .uint 8

/-- `arrayref_caster::cast`, cast.hpp:86-96: a numpy array on the same memory, which it does not own.  Numpy computes the strides
from the order.  The lifetime (`keep_alive`) is not modelled. -/
def toNumpy (r : ArrayRef) : Nd K :=
  let shape := r.shape.take r.ndim
  ⟨.buffer, r.tag, r.offset, shape, if r.rowMajor then cStrides shape else fStrides 1 shape, false⟩

end Verif.Binding
