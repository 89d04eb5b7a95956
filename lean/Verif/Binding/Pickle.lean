import Verif.Lattice.Geometry
import Verif.Lattice.Model
import Verif.Hamiltonian.Model

/-!
# Saving and loading

Source: `cppmodule/src/lattice.cpp`, `cppmodule/src/system.cpp` (the functions given to `py::pickle`), `pybinding/support/pickle.py`
(`pickleable`).

`pickle` itself and pybind11's conversions of numbers, strings, lists and numpy arrays are taken as documented: they give back what was
stored.  An object inside of another one is stored as its state (its class is the one asked for when loading).
-/

namespace Verif.Binding.Pickle

open Verif.Lattice Verif.Sublat Verif.Hopping

variable {K F : Type}

/-- Python objects, as far as they occur in the states of lattice.cpp:12-20, 28-34, 42-48, 76-91 and system.cpp:9-15, 25-30, 37-45,
58-66, 75-80, 94-117. -/
inductive Py (K F : Type) where
  | int (i : Int)
  | str (s : String)
  | mat (m : Mat K)
  | vec (v : Cart F)
  | index (i : Index3)
  | ints (l : List Int)
  | floats (l : List F)
  | list (l : List (Py K F))
  | dict (l : List (String × Py K F))

namespace Py

/-- `d["key"]`: a `KeyError` if it is missing.  E.g. lattice.cpp:16. -/
def get (d : Py K F) (key : String) : Res (Py K F) :=
  match d with
  | .dict l => match lookup l key with
    | some v => .ok v
    | none => .err .outOfRange
  | _ => .err .runtimeError

/-- `d.contains("key")`, system.cpp:103. -/
def contains (d : Py K F) (key : String) : Bool :=
  match d with
  | .dict l => (lookup l key).isSome
  | _ => false

/-- `t[i]` for a tuple, system.cpp:29, 78. -/
def item (t : Py K F) (i : Nat) : Res (Py K F) :=
  match t with
  | .list l => match l[i]? with
    | some v => .ok v
    | none => .err .outOfRange
  | _ => .err .runtimeError

/-- `cast<int>()`, lattice.cpp:89: `py::cast_error` for anything else.  (Also for the integer aliases, lattice.cpp:18-19.) -/
def toInt : Py K F → Res Int
  | .int i => .ok i
  | _ => .err .runtimeError

/-- `cast` to an id, lattice.cpp:18-19; ids are never negative. -/
def toNat (p : Py K F) : Res Nat := do
  let i ← p.toInt
  if i < 0 then .err .runtimeError else .ok i.toNat

/-- `cast<std::string>()`, system.cpp:14. -/
def toStr : Py K F → Res String
  | .str s => .ok s
  | _ => .err .runtimeError

/-- `cast<MatrixXcd>()`, lattice.cpp:17. -/
def toMat : Py K F → Res (Mat K)
  | .mat m => .ok m
  | _ => .err .runtimeError

/-- `cast<Cartesian>()`, lattice.cpp:16. -/
def toVec : Py K F → Res (Cart F)
  | .vec v => .ok v
  | _ => .err .runtimeError

/-- `cast<Index3D>()`, lattice.cpp:31. -/
def toIndex : Py K F → Res Index3
  | .index v => .ok v
  | _ => .err .runtimeError

/-- `cast<ArrayXi>()`, system.cpp:42-44. -/
def toInts : Py K F → Res (List Int)
  | .ints l => .ok l
  | _ => .err .runtimeError

/-- `cast<ArrayXi>()` of an array of indices or counts, which are never negative; system.cpp:43-44, 64. -/
def toNats (p : Py K F) : Res (List Nat) := do
  let l ← p.toInts
  if l.any (· < 0) then .err .runtimeError else .ok (l.map Int.toNat)

/-- `cast<ArrayXf>()`, system.cpp:28-29. -/
def toFloats : Py K F → Res (List F)
  | .floats l => .ok l
  | _ => .err .runtimeError

/-- All results, or the first failure: the loop in pybind11's `list_caster`, used in lattice.cpp:46. -/
def all {α β : Type} (f : α → Res β) : List α → Res (List β)
  | [] => .ok []
  | x :: xs => do
    let y ← f x
    let ys ← all f xs
    Res.ok (y :: ys)

/-- `cast<std::vector<T>>()`, lattice.cpp:46. -/
def toList {α : Type} (f : Py K F → Res α) : Py K F → Res (List α)
  | .list l => all f l
  | _ => .err .runtimeError

/-- `cast<std::unordered_map<std::string, T>>()`, lattice.cpp:85-86: `order` is the order of iteration of the new map. -/
def toMap {α : Type} (order : List (String × α) → List (String × α)) (f : Py K F → Res α) : Py K F → Res (List (String × α))
  | .dict l => do
    let m ← all (fun p => do
      let v ← f p.2
      Res.ok (p.1, v)) l
    Res.ok (order m)
  | _ => .err .runtimeError

end Py

/-- Names of states: the dictionary of a map, lattice.cpp:78-79. -/
def mapState {α : Type} (f : α → Py K F) (m : List (String × α)) : Py K F := .dict (m.map fun p => (p.1, f p.2))

/-! ## Lattice -/

/-- The state of a sublattice, lattice.cpp:12-15. -/
def subState (s : Sublattice K (Cart F)) : Py K F :=
  .dict [("position", .vec s.position), ("energy", .mat s.energy), ("unique_id", .int s.uniqueId), ("alias_id", .int s.aliasId)]

/-- A sublattice from its state, lattice.cpp:15-20. -/
def subLoad (d : Py K F) : Res (Sublattice K (Cart F)) := do
  let position ← (← d.get "position").toVec
  let energy ← (← d.get "energy").toMat
  let uniqueId ← (← d.get "unique_id").toNat
  let aliasId ← (← d.get "alias_id").toNat
  Res.ok ⟨position, energy, uniqueId, aliasId⟩

/-- The state of a hopping term, lattice.cpp:28-29. -/
def termState (t : HoppingTerm) : Py K F :=
  .dict [("relative_index", .index t.rel), ("from", .int t.src), ("to", .int t.dst)]

/-- A hopping term from its state, lattice.cpp:30-34. -/
def termLoad (d : Py K F) : Res HoppingTerm := do
  let rel ← (← d.get "relative_index").toIndex
  let src ← (← d.get "from").toNat
  let dst ← (← d.get "to").toNat
  Res.ok ⟨rel, src, dst⟩

/-- The state of a hopping family, lattice.cpp:42-43. -/
def familyState (f : HoppingFamily K) : Py K F :=
  .dict [("energy", .mat f.energy), ("family_id", .int f.familyId), ("terms", .list (f.terms.map termState))]

/-- A hopping family from its state, lattice.cpp:44-48. -/
def familyLoad (d : Py K F) : Res (HoppingFamily K) := do
  let energy ← (← d.get "energy").toMat
  let familyId ← (← d.get "family_id").toNat
  let terms ← (← d.get "terms").toList termLoad
  Res.ok ⟨energy, familyId, terms⟩

/-- All members of `Lattice`, Lattice.hpp:145-151. -/
structure FullLattice (K F : Type) where
  vectors : List (Cart F)
  lattice : Lattice K (Cart F)
  offset : Cart F
  minNeighbors : Int

/-- The orders of iteration of the two maps of a lattice, Lattice.hpp:44-45. -/
structure Order (K F : Type) where
  subs : List (String × Sublattice K (Cart F)) → List (String × Sublattice K (Cart F))
  hops : List (String × HoppingFamily K) → List (String × HoppingFamily K)

/-- The state of a lattice, lattice.cpp:76-81. -/
def latticeState (l : FullLattice K F) : Py K F :=
  .dict [("vectors", .list (l.vectors.map Py.vec)), ("sublattices", mapState subState l.lattice.subs),
    ("hoppings", mapState familyState l.lattice.hops), ("offset", .vec l.offset), ("min_neighbors", .int l.minNeighbors)]

/-- `Lattice::set_offset`, Lattice.cpp:127-133, where `near vectors position` is the comparison in Lattice.cpp:129: any deterministic function,
so that no assumption on its floating point arithmetic is made. -/
def setOffset (near : List (Cart F) → Cart F → Bool) (l : FullLattice K F) (position : Cart F) : Res (FullLattice K F) :=
  if near l.vectors position then .ok { l with offset := position } else .err .logicError

/-- A lattice from its state, lattice.cpp:82-91, with the constructor and the default values of Lattice.hpp:49-50, 149-150; `zero` is the
default offset. -/
def latticeLoad (near : List (Cart F) → Cart F → Bool) (zero : Cart F) (order : Order K F) (d : Py K F) : Res (FullLattice K F) := do
  let vectors ← (← d.get "vectors").toList Py.toVec
  let subs ← (← d.get "sublattices").toMap order.subs subLoad
  let hops ← (← d.get "hoppings").toMap order.hops familyLoad
  let l : FullLattice K F := ⟨vectors, ⟨subs, hops⟩, zero, 1⟩
  let offset ← (← d.get "offset").toVec
  let l ← setOffset near l offset
  let n ← (← d.get "min_neighbors").toInt
  Res.ok { l with minNeighbors := n }

/-! ## System -/

/-- The state of a registry, system.cpp:9-11. -/
def registryState (r : Registry K) : Py K F :=
  .dict [("energies", .list (r.energies.map Py.mat)), ("names", .list (r.names.map Py.str))]

/-- A registry from its state, system.cpp:11-15; the constructor stores both (Registry.cpp:24-26). -/
def registryLoad (d : Py K F) : Res (Registry K) := do
  let energies ← (← d.get "energies").toList Py.toMat
  let names ← (← d.get "names").toList Py.toStr
  Res.ok ⟨energies, names⟩

/-- The state of an array of positions, system.cpp:25-26.  The object is three arrays. -/
def positionsState (ps : List (Cart F)) : Py K F :=
  .list [.floats (ps.map (· 0)), .floats (ps.map (· 1)), .floats (ps.map (· 2))]

/-- The positions of three arrays: position `i` has the coordinates `x[i]`, `y[i]` and `z[i]` (numeric/dense.hpp:180-186). -/
def positionsOf : List F → List F → List F → List (Cart F)
  | x :: xs, y :: ys, z :: zs => ![x, y, z] :: positionsOf xs ys zs
  | _, _, _ => []

/-- Positions from their state, system.cpp:27-30. -/
def positionsLoad (d : Py K F) : Res (List (Cart F)) := do
  let x ← (← d.item 0).toFloats
  let y ← (← d.item 1).toFloats
  let z ← (← d.item 2).toFloats
  Res.ok (positionsOf x y z)

/-- The state of the compressed sublattices, system.cpp:37-39. -/
def tableState (t : Table) : Py K F :=
  .dict [("alias_ids", .ints (aliasIds t)), ("site_counts", .ints ((siteCounts t).map Int.ofNat)),
    ("orbital_counts", .ints ((orbitalCounts t).map Int.ofNat))]

/-- Compressed sublattices from their state, system.cpp:40-45. -/
def tableLoad (d : Py K F) : Res Table := do
  let ids ← (← d.get "alias_ids").toInts
  let counts ← (← d.get "site_counts").toNats
  let norbs ← (← d.get "orbital_counts").toNats
  fromArrays ids counts norbs

/-- The state of hopping blocks, system.cpp:58-60. -/
def blocksState (h : HoppingBlocks) : Py K F :=
  .dict [("num_sites", .int h.numSites),
    ("data", .list (h.serialize.map fun p => .list [.ints (p.1.map Int.ofNat), .ints (p.2.map Int.ofNat)])),
    ("name_map", mapState (fun (n : Nat) => .int n) h.nameMap)]

/-- One pair of arrays, `cast<std::pair<ArrayXi, ArrayXi>>()` in system.cpp:63. -/
def pairLoad (d : Py K F) : Res (List Nat × List Nat) := do
  let a ← (← d.item 0).toNats
  let b ← (← d.item 1).toNats
  Res.ok (a, b)

/-- Hopping blocks from their state, system.cpp:61-65; `order` is the order of iteration of the map of names. -/
def blocksLoad (order : List (String × Nat) → List (String × Nat)) (d : Py K F) : Res HoppingBlocks := do
  let n ← (← d.get "num_sites").toNat
  let data ← (← d.get "data").toList pairLoad
  let names ← (← d.get "name_map").toMap order Py.toNat
  HoppingBlocks.deserialize n data names

/-- The state of a boundary, system.cpp:75-76. -/
def boundaryState (b : Hamiltonian.Boundary (Cart F)) : Py K F := .list [blocksState b.hoppings, .vec b.shift]

/-- A boundary from its state, system.cpp:77-80. -/
def boundaryLoad (order : List (String × Nat) → List (String × Nat)) (d : Py K F) : Res (Hamiltonian.Boundary (Cart F)) := do
  let h ← blocksLoad order (← d.item 0)
  let s ← (← d.item 1).toVec
  Res.ok ⟨s, h⟩

/-- The state of a system, system.cpp:94-100.  `System::is_valid` is not stored; it is empty in every system that was built
(System.cpp:173, C07). -/
def systemState (s : Hamiltonian.System K (Cart F)) : Py K F :=
  .dict [("site_registry", registryState s.siteRegistry), ("hopping_registry", registryState s.hoppingRegistry),
    ("positions", positionsState s.positions), ("compressed_sublattices", tableState s.sublattices),
    ("hopping_blocks", blocksState s.hoppings), ("boundaries", .list (s.boundaries.map boundaryState))]

/-- The registries in the state of a system: those stored or (in files of older versions) those of the stored lattice, system.cpp:101-109. -/
def registriesLoad (near : List (Cart F) → Cart F → Bool) (zero : Cart F) (order : Order K F) (d : Py K F) :
    Res (Registry K × Registry K) :=
  if d.contains "lattice" then do
    let l ← latticeLoad near zero order (← d.get "lattice")
    let sr ← siteRegistry l.lattice.subs
    let hr ← hoppingRegistry l.lattice.hops
    Res.ok (sr, hr)
  else do
    let sr ← registryLoad (← d.get "site_registry")
    let hr ← registryLoad (← d.get "hopping_registry")
    Res.ok (sr, hr)

/-- A system from its state, system.cpp:101-117. -/
def systemLoad (near : List (Cart F) → Cart F → Bool) (zero : Cart F) (order : Order K F)
    (names : List (String × Nat) → List (String × Nat)) (d : Py K F) : Res (Hamiltonian.System K (Cart F)) := do
  let (sr, hr) ← registriesLoad near zero order d
  let positions ← positionsLoad (← d.get "positions")
  let sublattices ← tableLoad (← d.get "compressed_sublattices")
  let hoppings ← blocksLoad names (← d.get "hopping_blocks")
  let boundaries ← (← d.get "boundaries").toList (boundaryLoad names)
  Res.ok ⟨sr, hr, positions, sublattices, hoppings, boundaries⟩

/-! ## Results -/

/-- The state of a result, `getstate` in pybinding/support/pickle.py:82-86.  `fields` is `self.__dict__`; `props` the pairs of a property name and
its value. -/
structure ResultState (V : Type) where
  version : Option Nat
  fields : List (String × V)
  props : Option (List (String × V))

/-- `getstate`, support/pickle.py:82-86. -/
def getState {V : Type} (version : Nat) (props : List (String × V)) (fields : List (String × V)) : ResultState V :=
  ⟨some version, fields, if props.isEmpty then none else some props⟩

/-- `for name, value in d` iterates over the keys of a dictionary, and each key is unpacked into two characters, support/pickle.py:99-102: a
`ValueError` unless every key has two. -/
def unpackKeys (keys : List String) : Res (List (String × String)) :=
  Py.all (fun k => match k.toList with
    | [a, b] => .ok (String.singleton a, String.singleton b)
    | _ => .err .invalidArgument) keys

/-- `d.update(e)` for dictionaries, support/pickle.py:90, 98. -/
def update {V : Type} (d e : List (String × V)) : List (String × V) :=
  e.foldl (fun d p => if (lookup d p.1).isSome then d.map (fun q => if q.1 = p.1 then p else q) else d ++ [p]) d

/-- `setstate`, support/pickle.py:88-102: the new `__dict__`.  Setting the properties is only reached if there are none or all have two-letter
names; what is then set is not modelled. -/
def setState {V : Type} (version : Nat) (fields : List (String × V)) (s : ResultState V) : Res (List (String × V)) :=
  match s.version with
  | none => .ok (update fields s.fields)
  | some v =>
    if v ≠ version then .err .runtimeError
    else do
      let _ ← unpackKeys ((s.props.getD []).map (·.1))
      Res.ok (update fields s.fields)

end Verif.Binding.Pickle
