import Verif.Basic
import Mathlib.Algebra.Star.Basic
import Mathlib.Data.List.Sort

/-!
# Model of `Lattice`, `OptimizedUnitCell` and `Registry`

Source: `cppcore/include/Lattice.hpp`, `cppcore/src/Lattice.cpp`,
`cppcore/include/system/Registry.hpp`, `cppcore/src/system/Registry.cpp`.

`K` is the type of energies: any type with a zero and a conjugation (`star`).  `P` is the type of
positions, which the building calls only store.

`std::unordered_map` is a list of bindings in insertion order.  Its real iteration order is
unspecified; where a result could depend on it, the function takes the bindings as an argument and
the theorems hold for every reordering.
-/

set_option linter.dupNamespace false

namespace Verif.Lattice

variable {K P : Type} [DecidableEq K] [Zero K] [Star K]

/-- `Lattice::Sublattice`, Lattice.hpp:15-20. -/
structure Sublattice (K P : Type) where
  position : P
  energy : Mat K
  uniqueId : Nat
  aliasId : Nat

/-- `Lattice::HoppingTerm`, Lattice.hpp:22-25. -/
structure HoppingTerm where
  rel : Index3
  src : Nat
  dst : Nat
deriving DecidableEq, Repr

/-- `operator==` on hopping terms, Lattice.hpp:27-32: equal, or equal to the conjugate. -/
def HoppingTerm.same (a b : HoppingTerm) : Bool :=
  decide ((a.rel, a.src, a.dst) = (b.rel, b.src, b.dst)
    ∨ (a.rel, a.src, a.dst) = (b.rel.neg, b.dst, b.src))

/-- `Lattice::HoppingFamily`, Lattice.hpp:37-41. -/
structure HoppingFamily (K : Type) where
  energy : Mat K
  familyId : Nat
  terms : List HoppingTerm

/-- The part of `Lattice` that the building calls change, Lattice.hpp:145-151. -/
structure Lattice (K P : Type) where
  subs : List (String × Sublattice K P)
  hops : List (String × HoppingFamily K)

/-- The lattice right after construction, Lattice.cpp:23-28 (the vectors are in
`Verif.Lattice.Geometry`). -/
def Lattice.empty : Lattice K P := ⟨[], []⟩

/-- `unordered_map::find` by key. `sublattices.find(name)`, Lattice.cpp:136, 154. -/
def lookup {α : Type} (m : List (String × α)) (name : String) : Option α :=
  (m.find? (fun p => p.1 == name)).map (·.2)

/-- All diagonal entries equal to their conjugate.
`energy.diagonal().imag().isZero()`, Registry.cpp:114. -/
def diagReal (m : Mat K) : Bool :=
  decide (∀ (i : Fin m.rows) (j : Fin m.cols), i.val = j.val → star (m.e i j) = m.e i j)

/-- `isUpperTriangular`: zeros below the diagonal. Registry.cpp:117. -/
def isUpper (m : Mat K) : Bool :=
  decide (∀ (i : Fin m.rows) (j : Fin m.cols), j.val < i.val → m.e i j = 0)

/-- `energy == energy.adjoint()` (for square matrices). Registry.cpp:117. -/
def isHermitian (m : Mat K) : Bool :=
  if h : m.rows = m.cols then
    decide (∀ (i : Fin m.rows) (j : Fin m.cols), m.e i j = star (m.e (j.cast h.symm) (i.cast h)))
  else false

/-- `detail::check_onsite_energy`, Registry.cpp:107-120. -/
def checkOnsite (m : Mat K) : Res Unit :=
  if m.rows ≠ m.cols then .err .logicError
  else if m.rows = 0 then .err .logicError
  else if diagReal m = false then .err .logicError
  else if isUpper m = false ∧ isHermitian m = false then .err .logicError
  else .ok ()

/-- `detail::check_hopping_energy`, Registry.cpp:133-137. -/
def checkHopping (m : Mat K) : Res Unit :=
  if m.rows = 0 ∨ m.cols = 0 then .err .logicError else .ok ()

/-- `selfadjointView<Upper>` evaluated to a matrix (Lattice.cpp:42, 45): the upper triangle is kept,
the lower one is its conjugate.  For a non-square matrix the code never gets here. -/
def selfadjointUpper (m : Mat K) : Mat K :=
  if h : m.rows = m.cols then
    ⟨m.rows, m.cols, fun i j =>
      if i.val ≤ j.val then m.e i j else star (m.e (j.cast h.symm) (i.cast h))⟩
  else m

namespace Lattice

/-- `make_unique_sublattice_id`, Lattice.cpp:278-286. -/
def makeUniqueSublatticeId (l : Lattice K P) (name : String) : Res Nat :=
  if name = "" then .err .logicError
  else if (lookup l.subs name).isSome then .err .logicError
  else .ok l.subs.length

/-- `add_sublattice` (matrix overload), Lattice.cpp:38-46.  Every building call returns the lattice
after the call together with the outcome. -/
def addSublattice (l : Lattice K P) (name : String) (position : P) (energy : Mat K) :
    Lattice K P × Res Unit :=
  match checkOnsite energy with
  | .ok () =>
    match l.makeUniqueSublatticeId name with
    | .ok id =>
      ({ l with subs := l.subs ++ [(name, ⟨position, selfadjointUpper energy, id, id⟩)] }, .ok ())
    | .err e => (l, .err e)
    | .ub => (l, .ub)
  | .err e => (l, .err e)
  | .ub => (l, .ub)

/-- `add_alias`, Lattice.cpp:48-53. -/
def addAlias (l : Lattice K P) (aliasName original : String) (position : P) :
    Lattice K P × Res Unit :=
  match lookup l.subs original with
  | none => (l, .err .outOfRange)
  | some orig =>
    match l.makeUniqueSublatticeId aliasName with
    | .ok id =>
      ({ l with subs := l.subs ++ [(aliasName, ⟨position, orig.energy, id, orig.uniqueId⟩)] }, .ok ())
    | .err e => (l, .err e)
    | .ub => (l, .ub)

/-- `register_hopping_energy`, Lattice.cpp:59-67. -/
def registerHoppingEnergy (l : Lattice K P) (name : String) (energy : Mat K) :
    Lattice K P × Res Unit :=
  if name = "" then (l, .err .logicError)
  else
    match checkHopping energy with
    | .ok () =>
      if (lookup l.hops name).isSome then (l, .err .logicError)
      else ({ l with hops := l.hops ++ [(name, ⟨energy, l.hops.length, []⟩)] }, .ok ())
    | .err e => (l, .err e)
    | .ub => (l, .ub)

/-- All terms of all families: the visiting order of `for_each_term`, Lattice.cpp:11-20. -/
def allTerms (hops : List (String × HoppingFamily K)) : List (HoppingFamily K × HoppingTerm) :=
  hops.flatMap fun p => p.2.terms.map fun t => (p.2, t)

/-- `hoppings[name].terms.push_back(candidate)` for an existing name. Lattice.cpp:98. -/
def pushTerm (hops : List (String × HoppingFamily K)) (name : String) (t : HoppingTerm) :
    List (String × HoppingFamily K) :=
  hops.map fun p => if p.1 = name then (p.1, { p.2 with terms := p.2.terms ++ [t] }) else p

/-- `add_hopping` with a family name, Lattice.cpp:69-99. -/
def addHopping (l : Lattice K P) (rel : Index3) (src dst family : String) :
    Lattice K P × Res Unit :=
  if src = dst ∧ rel = Index3.zero then (l, .err .logicError)
  else
    match lookup l.subs src, lookup l.subs dst, lookup l.hops family with
    | some a, some b, some f =>
      if a.energy.rows ≠ f.energy.rows ∨ b.energy.cols ≠ f.energy.cols then (l, .err .logicError)
      else
        let candidate : HoppingTerm := ⟨rel, a.uniqueId, b.uniqueId⟩
        if (allTerms l.hops).any (fun p => candidate.same p.2) then (l, .err .logicError)
        else ({ l with hops := pushTerm l.hops family candidate }, .ok ())
    | _, _, _ => (l, .err .outOfRange)

/-- The name given to an anonymous family, Lattice.cpp:118. -/
def anonymousName (l : Lattice K P) : String := "__anonymous__" ++ toString l.hops.length

/-- `add_hopping` with an energy, Lattice.cpp:106-125.  An existing family with the same energy is
reused (the first one in iteration order, here insertion order).  A new family stays registered even
if the following `add_hopping` throws. -/
def addHoppingEnergy (l : Lattice K P) (rel : Index3) (src dst : String) (energy : Mat K) :
    Lattice K P × Res Unit :=
  match l.hops.find? (fun p => decide (p.2.energy = energy)) with
  | some p => l.addHopping rel src dst p.1
  | none =>
    match l.registerHoppingEnergy l.anonymousName energy with
    | (l', .ok ()) => l'.addHopping rel src dst l.anonymousName
    | (l', r) => (l', r)

/-- The building calls. The public functions that change a lattice, Lattice.hpp:53-73. -/
inductive Op (K P : Type) where
  | addSublattice (name : String) (position : P) (energy : Mat K)
  | addAlias (aliasName original : String) (position : P)
  | registerHoppingEnergy (name : String) (energy : Mat K)
  | addHopping (rel : Index3) (src dst family : String)
  | addHoppingEnergy (rel : Index3) (src dst : String) (energy : Mat K)

/-- One building call. See the functions named in Lattice.hpp:53-73. -/
def step (l : Lattice K P) : Op K P → Lattice K P × Res Unit
  | .addSublattice n p e => l.addSublattice n p e
  | .addAlias a o p => l.addAlias a o p
  | .registerHoppingEnergy n e => l.registerHoppingEnergy n e
  | .addHopping r s d f => l.addHopping r s d f
  | .addHoppingEnergy r s d e => l.addHoppingEnergy r s d e

/-- Any history of building calls; rejected calls are part of the history.
No counterpart in the code: the caller of the functions in Lattice.hpp:53-73. -/
def run (ops : List (Op K P)) (l : Lattice K P) : Lattice K P :=
  ops.foldl (fun l op => (l.step op).1) l

/-- `sublattice(name)`, Lattice.cpp:135-141. -/
def subByName (l : Lattice K P) (name : String) : Res (Sublattice K P) :=
  match lookup l.subs name with
  | some s => .ok s
  | none => .err .outOfRange

/-- `sublattice(id)`, Lattice.cpp:143-151. -/
def subById (l : Lattice K P) (id : Nat) : Res (Sublattice K P) :=
  match l.subs.find? (fun p => p.2.uniqueId == id) with
  | some p => .ok p.2
  | none => .err .outOfRange

/-- `hopping_family(name)`, Lattice.cpp:153-159. -/
def hopByName (l : Lattice K P) (name : String) : Res (HoppingFamily K) :=
  match lookup l.hops name with
  | some s => .ok s
  | none => .err .outOfRange

/-- `hopping_family(id)`, Lattice.cpp:161-169. -/
def hopById (l : Lattice K P) (id : Nat) : Res (HoppingFamily K) :=
  match l.hops.find? (fun p => p.2.familyId == id) with
  | some p => .ok p.2
  | none => .err .outOfRange

/-- The inner count of `max_hoppings` for one sublattice, Lattice.cpp:174-184. -/
def scalarHoppings (hops : List (String × HoppingFamily K)) (s : Sublattice K P) : Int :=
  (allTerms hops).foldl (fun n p =>
    let n := if p.2.src = s.uniqueId then n + p.1.energy.cols else n
    if p.2.dst = s.uniqueId then n + p.1.energy.rows else n) ((s.energy.cols : Int) - 1)

/-- `max_hoppings`, Lattice.cpp:171-188. -/
def maxHoppings (l : Lattice K P) : Int :=
  l.subs.foldl (fun r p => max r (scalarHoppings l.hops p.2)) 0

end Lattice

/-! ## Registry -/

/-- `template class Registry`, Registry.hpp:26-53. -/
structure Registry (K : Type) where
  energies : List (Mat K)
  names : List String

namespace Registry

/-- `register_family` for a given energy check, Registry.cpp:30-43. -/
def registerFamily (check : Mat K → Res Unit) (r : Registry K) (name : String) (energy : Mat K) :
    Registry K × Res Unit :=
  if name = "" then (r, .err .logicError)
  else
    match check energy with
    | .ok () =>
      if r.names.contains name then (r, .err .logicError)
      else (⟨r.energies ++ [energy], r.names ++ [name]⟩, .ok ())
    | .err e => (r, .err e)
    | .ub => (r, .ub)

/-- `name`, Registry.cpp:55-61. -/
def name (r : Registry K) (id : Nat) : Res String :=
  if id ≥ r.names.length then .err .outOfRange
  else match r.names[id]? with
    | some n => .ok n
    | none => .ub

/-- `energy`, Registry.cpp:64-70. -/
def energy (r : Registry K) (id : Nat) : Res (Mat K) :=
  if id ≥ r.names.length then .err .outOfRange
  else match r.energies[id]? with
    | some n => .ok n
    | none => .ub

/-- `id`, Registry.cpp:73-79. -/
def id (r : Registry K) (name : String) : Res Nat :=
  match r.names.findIdx? (fun n => n == name) with
  | some i => .ok i
  | none => .err .outOfRange

end Registry

/-- `vector.at(i) = v`. Lattice.cpp:261-262, 272-273. -/
def atSet {α : Type} (xs : List α) (i : Nat) (v : α) : Res (List α) :=
  if i < xs.length then .ok (xs.set i v) else .err .outOfRange

/-- The loop of `site_registry`, Lattice.cpp:257-263. -/
def siteRegistryLoop : List (String × Sublattice K P) → List (Mat K) → List String →
    Res (Registry K)
  | [], energies, names => .ok ⟨energies, names⟩
  | (n, s) :: rest, energies, names =>
    if s.aliasId ≠ s.uniqueId then siteRegistryLoop rest energies names
    else do
      let energies ← atSet energies s.uniqueId s.energy
      let names ← atSet names s.uniqueId n
      siteRegistryLoop rest energies names

/-- `Lattice::site_registry`, Lattice.cpp:247-265; `subs` are the bindings in iteration order.  A
default constructed matrix is 0x0. -/
def siteRegistry (subs : List (String × Sublattice K P)) : Res (Registry K) :=
  let num := subs.countP (fun p => p.2.aliasId == p.2.uniqueId)
  siteRegistryLoop subs (List.replicate num ⟨0, 0, fun i _ => i.elim0⟩) (List.replicate num "")

/-- The loop of `hopping_registry`, Lattice.cpp:270-274. -/
def hoppingRegistryLoop : List (String × HoppingFamily K) → List (Mat K) → List String →
    Res (Registry K)
  | [], energies, names => .ok ⟨energies, names⟩
  | (n, f) :: rest, energies, names => do
    let energies ← atSet energies f.familyId f.energy
    let names ← atSet names f.familyId n
    hoppingRegistryLoop rest energies names

/-- `Lattice::hopping_registry`, Lattice.cpp:267-276. -/
def hoppingRegistry (hops : List (String × HoppingFamily K)) : Res (Registry K) :=
  hoppingRegistryLoop hops (List.replicate hops.length ⟨0, 0, fun i _ => i.elim0⟩)
    (List.replicate hops.length "")

/-! ## Optimised unit cell -/

/-- `OptimizedUnitCell::Hopping`, Lattice.hpp:162-167. -/
structure CellHopping where
  rel : Index3
  toIdx : Nat
  familyId : Nat
  isConjugate : Bool
deriving DecidableEq, Repr

/-- `OptimizedUnitCell::Site`, Lattice.hpp:170-176 (without the position). -/
structure CellSite where
  norb : Nat
  uniqueId : Nat
  aliasId : Nat
  hoppings : List CellHopping
deriving DecidableEq, Repr

/-- Populate the sites by unique id, Lattice.cpp:288-295: `sites[idx]` is not bounds checked. -/
def populateSites : List (String × Sublattice K P) → List (Option CellSite) →
    Res (List (Option CellSite))
  | [], sites => .ok sites
  | (_, s) :: rest, sites =>
    if s.uniqueId < sites.length then
      populateSites rest (sites.set s.uniqueId (some ⟨s.energy.cols, s.uniqueId, s.aliasId, []⟩))
    else .ub

/-- All elements, or `none` if one is missing (an entry that was never assigned).
The arrays `energies`, `names` of Lattice.cpp:247-275. -/
def allSome {α : Type} : List (Option α) → Option (List α)
  | [] => some []
  | none :: _ => none
  | some a :: rest => (allSome rest).map (a :: ·)

/-- The two stable sorts, Lattice.cpp:299-308. -/
def sortSites (sites : List CellSite) : List CellSite :=
  (sites.insertionSort (fun a b => a.aliasId ≤ b.aliasId)).insertionSort (fun a b => a.norb ≤ b.norb)

/-- `find_index`, Lattice.cpp:311-317: the assertion is disabled in release builds, where a missing
id gives the end index. -/
def findIndex (sites : List CellSite) (uid : Nat) : Nat :=
  sites.findIdx (fun s => s.uniqueId == uid)

/-- The effect of one term on the hopping lists, Lattice.cpp:321-327. -/
def pushHoppings (sites : List CellSite) (familyId : Nat) (t : HoppingTerm) : Res (List CellSite) :=
  let idx1 := findIndex sites t.src
  let idx2 := findIndex sites t.dst
  if idx1 < sites.length ∧ idx2 < sites.length then
    let sites := sites.modify idx1 (fun s =>
      { s with hoppings := s.hoppings ++ [⟨t.rel, idx2, familyId, false⟩] })
    .ok (sites.modify idx2 (fun s =>
      { s with hoppings := s.hoppings ++ [⟨t.rel.neg, idx1, familyId, true⟩] }))
  else .ub

/-- The loop over all terms, Lattice.cpp:319-328. -/
def pushAll : List (HoppingFamily K × HoppingTerm) → List CellSite → Res (List CellSite)
  | [], sites => .ok sites
  | (f, t) :: rest, sites => do
    let sites ← pushHoppings sites f.familyId t
    pushAll rest sites

/-- `OptimizedUnitCell::OptimizedUnitCell`, Lattice.cpp:288-329; `subs` and `hops` are the bindings
in iteration order. -/
def optimizedUnitCell (subs : List (String × Sublattice K P))
    (hops : List (String × HoppingFamily K)) : Res (List CellSite) := do
  let sites ← populateSites subs (List.replicate subs.length none)
  match allSome sites with
  | none => .ub
  | some sites => pushAll (Lattice.allTerms hops) (sortSites sites)

end Verif.Lattice
