import Verif.Sublat.Model

/-!
# Model of `HoppingBlocks` and of the structure modifiers acting on a built `System`

Source: `cppcore/include/system/HoppingBlocks.hpp`, `cppcore/src/system/HoppingBlocks.cpp`,
`cppcore/src/system/System.cpp` (`remove_invalid`), `cppcore/src/system/StructureModifiers.cpp`.

Site indices are natural numbers (a negative index coming from a user's generator is outside the
model); indices beyond the end of an array are undefined behaviour wherever the code uses them.
-/

namespace Verif.Hopping

/-- `struct COO`, HoppingBlocks.hpp:15-30. -/
structure COO where
  row : Nat
  col : Nat
deriving DecidableEq, Repr

/-- `operator<` on COO (lexicographic), HoppingBlocks.hpp:27-29, as the non-strict order used by
`std::sort`. -/
def COO.le (a b : COO) : Prop := a.row < b.row ∨ (a.row = b.row ∧ a.col ≤ b.col)

instance : DecidableRel COO.le := fun a b => by unfold COO.le; infer_instance

/-- `class HoppingBlocks` data members, HoppingBlocks.hpp:136-139. -/
structure HoppingBlocks where
  numSites : Nat
  blocks : List (List COO)
  nameMap : List (String × Nat)
deriving DecidableEq, Repr

namespace HoppingBlocks

/-- Constructor, HoppingBlocks.hpp:99-100: one empty block per family. -/
def make (numSites : Nat) (nameMap : List (String × Nat)) : HoppingBlocks :=
  ⟨numSites, List.replicate nameMap.length [], nameMap⟩

/-- `get_serialized_blocks`, HoppingBlocks.cpp:19-33. -/
def serialize (h : HoppingBlocks) : List (List Nat × List Nat) :=
  h.blocks.map fun b => (b.map (·.row), b.map (·.col))

/-- One block of the serialised constructor, HoppingBlocks.cpp:8-16: the second array is read at
every index of the first one without a bounds check. -/
def blockOfArrays (p : List Nat × List Nat) : Res (List COO) :=
  if p.1.length ≤ p.2.length then .ok (List.zipWith COO.mk p.1 p.2) else .ub

/-- Sequence the blocks. HoppingBlocks.cpp:5-20. -/
def blocksOfArrays : List (List Nat × List Nat) → Res (List (List COO))
  | [] => .ok []
  | p :: ps => do
    let b ← blockOfArrays p
    let bs ← blocksOfArrays ps
    return b :: bs

/-- Constructor from serialised data, HoppingBlocks.cpp:5-17. -/
def deserialize (numSites : Nat) (data : List (List Nat × List Nat))
    (nameMap : List (String × Nat)) : Res HoppingBlocks := do
  let bs ← blocksOfArrays data
  return ⟨numSites, bs, nameMap⟩

/-- `nnz`, HoppingBlocks.cpp:35-39. -/
def nnz (h : HoppingBlocks) : Nat := h.blocks.foldl (fun n b => n + b.length) 0

/-- `counts[i] += 1` on an Eigen array: out of range is undefined behaviour.
HoppingBlocks.cpp:45-46. -/
def bump (counts : List Nat) (i : Nat) : Res (List Nat) :=
  if i < counts.length then .ok (counts.modify i (· + 1)) else .ub

/-- The inner loop of `count_neighbors`, HoppingBlocks.cpp:44-47. -/
def countBlock : List COO → List Nat → Res (List Nat)
  | [], counts => .ok counts
  | coo :: rest, counts => do
    let c₁ ← bump counts coo.row
    let c₂ ← bump c₁ coo.col
    countBlock rest c₂

/-- The outer loop of `count_neighbors`, HoppingBlocks.cpp:43-48. -/
def countBlocks : List (List COO) → List Nat → Res (List Nat)
  | [], counts => .ok counts
  | b :: bs, counts => do
    let c ← countBlock b counts
    countBlocks bs c

/-- `count_neighbors`, HoppingBlocks.cpp:41-50. -/
def countNeighbors (h : HoppingBlocks) : Res (List Nat) :=
  countBlocks h.blocks (List.replicate h.numSites 0)

/-- `add`, HoppingBlocks.hpp:123-125: `blocks[id]` is not bounds checked. -/
def add (h : HoppingBlocks) (family row col : Nat) : Res HoppingBlocks :=
  if family < h.blocks.length then
    .ok { h with blocks := h.blocks.modify family (· ++ [⟨row, col⟩]) }
  else .ub

/-- The normalisation of one generated pair, HoppingBlocks.cpp:69-72. -/
def orient (m n : Nat) : COO := if m > n then ⟨n, m⟩ else ⟨m, n⟩

/-- The body of `append` on one block, HoppingBlocks.cpp:68-77: push the oriented pairs, sort,
`unique`. -/
def appendBlock (block : List COO) (rows cols : List Nat) : List COO :=
  Sublat.adjUnique ((block ++ List.zipWith orient rows cols).insertionSort COO.le)

/-- `append`, HoppingBlocks.cpp:59-78.  Returns the object after the call and the outcome. -/
def append (h : HoppingBlocks) (family : Nat) (rows cols : List Nat) :
    HoppingBlocks × Res Unit :=
  if rows.length ≠ cols.length then (h, .err .runtimeError)
  else if family < h.blocks.length then
    ({ h with blocks := h.blocks.modify family (fun b => appendBlock b rows cols) }, .ok ())
  else (h, .ub)

/-- `filter`, HoppingBlocks.cpp:80-89.  Note that the surviving pairs keep their old indices.  All
indices are looked up in the mask without a bounds check. -/
def filter (h : HoppingBlocks) (keep : List Bool) : Res HoppingBlocks :=
  if h.blocks.all (fun b => b.all fun c => decide (c.row < keep.length ∧ c.col < keep.length)) then
    .ok { h with
      numSites := keep.count true
      blocks := h.blocks.map fun b =>
        b.filter fun c => keep.getD c.row false && keep.getD c.col false }
  else .ub

/-- `add_sites`, HoppingBlocks.cpp:91-93. -/
def addSites (h : HoppingBlocks) (n : Nat) : HoppingBlocks := { h with numSites := h.numSites + n }

end HoppingBlocks

/-! ## CSR export -/

/-- A CSR matrix as a list of rows; each row is its list of `(column, value)` entries.
The type `HoppingCSR` of HoppingBlocks.cpp:95-105. -/
abbrev Csr (α : Type) := List (List (Nat × α))

/-- Insert an entry in a row that is sorted by column.  `Eigen::SparseMatrix::insert` requires that
the entry does not exist yet; a second insertion is undefined behaviour.
Used in HoppingBlocks.cpp:100. -/
def rowInsert {α : Type} (col : Nat) (v : α) : List (Nat × α) → Res (List (Nat × α))
  | [] => .ok [(col, v)]
  | (c, w) :: rest =>
    if col < c then .ok ((col, v) :: (c, w) :: rest)
    else if col = c then .ub
    else do
      let r ← rowInsert col v rest
      return (c, w) :: r

/-- `csr.insert(row, col) = v` on a matrix with `ncols` columns. HoppingBlocks.cpp:100. -/
def csrInsert {α : Type} (ncols : Nat) (m : Csr α) (row col : Nat) (v : α) : Res (Csr α) :=
  if col < ncols then
    match m[row]? with
    | none => .ub
    | some r => do
      let r' ← rowInsert col v r
      return m.set row r'
  else .ub

/-- The loop over one block in `tocsr`, HoppingBlocks.cpp:99-101. -/
def csrBlock (n id : Nat) : List COO → Csr Nat → Res (Csr Nat)
  | [], m => .ok m
  | c :: rest, m => do
    let m' ← csrInsert n m c.row c.col id
    csrBlock n id rest m'

/-- The loop over the blocks in `tocsr`, HoppingBlocks.cpp:98-102; the iterator counts the family
id from 0 (HoppingBlocks.hpp:84). -/
def csrBlocks (n : Nat) : Nat → List (List COO) → Csr Nat → Res (Csr Nat)
  | _, [], m => .ok m
  | id, b :: bs, m => do
    let m' ← csrBlock n id b m
    csrBlocks n (id + 1) bs m'

/-- `tocsr`, HoppingBlocks.cpp:95-105. -/
def HoppingBlocks.tocsr (h : HoppingBlocks) : Res (Csr Nat) :=
  csrBlocks h.numSites 0 h.blocks (List.replicate h.numSites [])

/-! ## The system and its modifiers -/

/-- `struct System`, System.hpp:24-33, without the registries (positions of any type). -/
structure System (P : Type u) where
  positions : List P
  sublattices : Sublat.Table
  hoppings : HoppingBlocks
  boundaries : List HoppingBlocks
  isValid : List Bool

/-- Filter all boundaries, System.cpp:169-171. -/
def filterAll (keep : List Bool) : List HoppingBlocks → Res (List HoppingBlocks)
  | [] => .ok []
  | b :: bs => do
    let b' ← b.filter keep
    let bs' ← filterAll keep bs
    return b' :: bs'

/-- `detail::remove_invalid`, System.cpp:160-174.  `slice(array, mask)` keeps the masked elements
(`numeric/dense.hpp:322-335`). -/
def removeInvalid {P : Type u} (s : System P) : Res (System P) :=
  if s.isValid.length = 0 then .ok s
  else
    match Sublat.filter s.sublattices s.isValid, s.hoppings.filter s.isValid,
        filterAll s.isValid s.boundaries with
    | .ok sub, .ok hop, .ok bds =>
      .ok { positions := maskFilter s.isValid s.positions, sublattices := sub, hoppings := hop,
            boundaries := bds, isValid := [] }
    | _, _, _ => .ub

/-- The system-level structure modifiers, StructureModifiers.cpp:21-65.  User callbacks are
arbitrary functions.  `siteState` receives the current mask and the positions and returns a new mask
of the same length (the callback writes into the given segment, so the length cannot change);
`position` maps the positions and preserves the length for the same reason. -/
inductive Modifier (P : Type u) where
  | siteState (f : List Bool → List P → List Bool) (minNeighbors : Nat)
  | position (f : List P → List P)
  | siteGenerator (id : Int) (norb : Nat) (make : System P → List P)
  | hoppingGenerator (family : Nat) (make : System P → List Nat × List Nat)

/-- Write `new` over `old` elementwise, as a callback does that is given a writable segment: the
length of `old` is kept. StructureModifiers.cpp:19-31. -/
def overwrite {α : Type u} (old new : List α) : List α :=
  new.take old.length ++ old.drop new.length

/-- `apply(modifier, System&)`, StructureModifiers.cpp:21-65. -/
def applyModifier {P : Type u} (m : Modifier P) (s : System P) : Res (System P) :=
  match m with
  | .siteState f minNeighbors =>
    let valid := if s.isValid.length = 0 then List.replicate s.positions.length true else s.isValid
    if minNeighbors > 0 then .err .runtimeError
    else .ok { s with isValid := overwrite valid (f valid s.positions) }
  | .position f => .ok { s with positions := overwrite s.positions (f s.positions) }
  | .siteGenerator id norb make => do
    let s ← removeInvalid s
    let new := make s
    return { s with
      sublattices := Sublat.add s.sublattices id norb new.length
      hoppings := s.hoppings.addSites new.length
      positions := s.positions ++ new }
  | .hoppingGenerator family make => do
    let s ← removeInvalid s
    let pairs := make s
    match s.hoppings.append family pairs.1 pairs.2 with
    | (h, .ok ()) => .ok { s with hoppings := h }
    | (_, .err e) => .err e
    | (_, .ub) => .ub

/-- The modifier loop and the final clean-up of `Model::make_system`, Model.cpp:167-175. -/
def applyModifiers {P : Type u} : List (Modifier P) → System P → Res (System P)
  | [], s => do
    let s ← removeInvalid s
    if s.positions.length = 0 then .err .runtimeError else .ok s
  | m :: ms, s => do
    let s ← applyModifier m s
    applyModifiers ms s

end Verif.Hopping
