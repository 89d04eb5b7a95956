import Verif.Pipeline.Model
import Verif.Hamiltonian.Coeff

/-!
# Site and hopping generators, up to the Hamiltonian

Source: `cppcore/src/Model.cpp` (`add` of generators, `make_system`), `cppcore/src/system/StructureModifiers.cpp`,
`cppcore/src/system/Registry.cpp`, `pybinding/modifier.py` (`site_generator`, `hopping_generator`).

What a generator does to the tables of a system is the model of `Verif.Hopping`.  Here the registries are added, and
the Hamiltonian of the resulting system is that of `Verif.Hamiltonian`.
-/

namespace Verif.Pipeline.Generators

open Verif.Lattice (Sublattice HoppingFamily Registry optimizedUnitCell siteRegistry hoppingRegistry)
open Verif.Foundation (Dims populateSystem)
open Verif.Symmetry (Periods)
open Verif.Hamiltonian (System Boundary)

variable {C L P : Type}

/-- A structure modifier which acts on the system: `SiteGenerator`, `HoppingGenerator` (StructureModifiers.hpp:39-88),
or a `PositionModifier` added after one.  The functions of the user are arbitrary; they see the system as it is when
they are called.  Site state modifiers after a generator are not included here (see C07). -/
inductive Change (C P : Type) where
  | sites (name : String) (energy : Mat C) (make : Hopping.System P → List P)
  | hoppings (name : String) (energy : Mat C) (make : Hopping.System P → List Nat × List Nat)
  | positions (f : List P → List P)

/-- The registries of the model after `add` of one modifier, Model.cpp:77-87.  A rejected generator is an error
(the model keeps it nevertheless, see C38). -/
def addChange (checkSite checkHop : Mat C → Res Unit) (r : Registry C × Registry C) : Change C P → Res (Registry C × Registry C)
  | .sites name energy _ =>
    match r.1.registerFamily checkSite name energy with
    | (sr, .ok ()) => .ok (sr, r.2)
    | (_, .err e) => .err e
    | (_, .ub) => .ub
  | .hoppings name energy _ =>
    match r.2.registerFamily checkHop name energy with
    | (hr, .ok ()) => .ok (r.1, hr)
    | (_, .err e) => .err e
    | (_, .ub) => .ub
  | .positions _ => .ok r

/-- All modifiers are added before the system is made, Model.cpp:60-87. -/
def addChanges (checkSite checkHop : Mat C → Res Unit) (cs : List (Change C P)) (r : Registry C × Registry C) :
    Res (Registry C × Registry C) := cs.foldlM (addChange checkSite checkHop) r

/-- The tables of the system which generators see and change, System.hpp:24-33. No site is marked for removal. -/
def tables (s : System C P) : Hopping.System P :=
  ⟨s.positions, s.sublattices, s.hoppings, s.boundaries.map (·.hoppings), []⟩

/-- The modifier with the id of its family, StructureModifiers.cpp:54, 63. -/
def modifier (s : System C P) : Change C P → Res (Hopping.Modifier P)
  | .sites name energy make => do
    let id ← s.siteRegistry.id name
    return .siteGenerator (id : Int) energy.rows make
  | .hoppings name _ make => do
    let id ← s.hoppingRegistry.id name
    return .hoppingGenerator id make
  | .positions f => .ok (.position f)

/-- `apply(modifier, System&)`, StructureModifiers.cpp:41-66, with the registries. -/
def step (s : System C P) (c : Change C P) : Res (System C P) := do
  let m ← modifier s c
  let t ← Hopping.applyModifier m (tables s)
  return { s with
    positions := t.positions
    sublattices := t.sublattices
    hoppings := t.hoppings
    boundaries := List.zipWith (fun b h => ⟨b.shift, h⟩) s.boundaries t.boundaries }

/-- `Model::make_system` (Model.cpp:142-176) for a model with generators: the registries already contain the families of
all generators, so that there is a block for each of them; then the modifiers act in turn. -/
def makeSystemWith [DecidableEq C] [Zero C] [Star C] (checkSite checkHop : Mat C → Res Unit) (cs : List (Change C P))
    (subs : List (String × Sublattice C L)) (hops : List (String × HoppingFamily C)) (d : Dims) (p : Periods)
    (valid : List Bool) (pos : Nat → P) (junk : P) (shiftOf : Index3 → P) : Res (System C P) := do
  let sr ← siteRegistry subs
  let hr ← hoppingRegistry hops
  let r ← addChanges checkSite checkHop cs (sr, hr)
  let cell ← optimizedUnitCell subs hops
  let s ← populateSystem d cell hops.length (nameMap r.2) valid pos junk
  let bs ← boundariesOf d cell hops.length p (nameMap r.2) valid
  let s ← cs.foldlM step ⟨r.1, r.2, s.positions, s.sublattices, s.hoppings,
    bs.map fun b => ⟨shiftOf b.shift, b.hoppings⟩⟩
  if s.positions.length = 0 then .err .runtimeError else return s

/-- What the function of the user returned. -/
inductive Output (C P : Type) where
  | sites (name : String) (energy : Mat C) (new : List P)
  | hoppings (name : String) (energy : Mat C) (pairs : List (Nat × Nat))
  | positions (new : List P)

/-- The result of the function of the user in a system, StructureModifiers.cpp:41-66. -/
def output (s : System C P) : Change C P → Output C P
  | .sites name energy make => .sites name energy (make (tables s))
  | .hoppings name energy make => .hoppings name energy ((make (tables s)).1.zip (make (tables s)).2)
  | .positions f => .positions (Hopping.overwrite s.positions (f s.positions))

/-- The results of all functions, each called in the system left by the one before, Model.cpp:167-169. -/
def outputs (s : System C P) : List (Change C P) → List (Output C P)
  | [] => []
  | c :: cs => output s c :: (match step s c with
    | .ok s' => outputs s' cs
    | _ => [])

end Verif.Pipeline.Generators
