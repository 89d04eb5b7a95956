import Verif.Pipeline.Reciprocal
import Verif.Lattice.Model
import Mathlib.Analysis.Real.Sqrt

/-!
# Model of the material repository

`pybinding/repository/graphene/lattice.py`, `pybinding/repository/examples.py`, `pybinding/repository/phosphorene.py` and
`pybinding/repository/group6_tmd.py`: the lattice vectors and the building calls of each function, in order.
`register_hopping_energies` registers the names in sorted order (lattice.py:117).  Numbers are exact: reals for lengths and
onsite energies, complex numbers for hopping energies.  Positions are only stored by the building calls.
-/

namespace Verif.Pipeline.Repository

open Verif.Lattice.Lattice (Op)

/-- A building call of a lattice with complex energies. -/
abbrev Call := Op ℂ Vec3

/-- `add_one_sublattice(name, position, onsite_energy)` with a scalar energy, lattice.py:120-140. -/
noncomputable def sub (name : String) (position : Vec3) (energy : ℝ) : Call := .addSublattice name position (Mat.scalar (energy : ℂ))

/-- `register_hopping_energy` with a scalar energy, lattice.py:117-118. -/
def reg (name : String) (energy : ℂ) : Call := .registerHoppingEnergy name (Mat.scalar energy)

/-- `add_one_hopping` with a registered name and a two-dimensional relative index, lattice.py:202-221. -/
def hop (x y : Int) (src dst name : String) : Call := .addHopping ⟨x, y, 0⟩ src dst name

/-- `add_one_hopping` with a scalar energy, lattice.py:202-221. -/
def hopE (x y : Int) (src dst : String) (energy : ℂ) : Call := .addHoppingEnergy ⟨x, y, 0⟩ src dst (Mat.scalar energy)

/-- `a`, graphene/constants.py:3. -/
noncomputable def a : ℝ := 0.24595

/-- `a_cc`, graphene/constants.py:4. -/
noncomputable def aCC : ℝ := 0.142

/-- `t`, graphene/constants.py:5. -/
noncomputable def t : ℝ := -2.8

/-- `t_nn`, graphene/constants.py:6. -/
noncomputable def tNN : ℝ := 0.1

/-- The lattice vectors of `graphene.monolayer`, graphene/lattice.py:22. -/
noncomputable def monolayerVectors : Fin 2 → Vec3 := ![![a, 0, 0], ![a / 2, a / 2 * √3, 0]]

/-- The building calls of `graphene.monolayer`, graphene/lattice.py:24-63.  `t`, `tNN` and `tNNN` are the values of
`kwargs.get`.  With four or more neighbours the function raises after all calls. -/
noncomputable def monolayer (neighbors : Int) (onsite : ℝ × ℝ) (t : ℂ) (tNN : ℝ) (tNNN : ℂ) : Res (List Call) :=
  let offset : ℝ := if neighbors < 2 then 0 else 3 * tNN
  let calls :=
    [sub "A" ![0, -aCC / 2, 0] (onsite.1 + offset), sub "B" ![0, aCC / 2, 0] (onsite.2 + offset),
     reg "t" t, reg "t_nn" tNN, reg "t_nnn" tNNN,
     hop 0 0 "A" "B" "t", hop 1 (-1) "A" "B" "t", hop 0 (-1) "A" "B" "t"]
    ++ (if neighbors ≥ 2 then
      [hop 0 (-1) "A" "A" "t_nn", hop 0 (-1) "B" "B" "t_nn", hop 1 (-1) "A" "A" "t_nn", hop 1 (-1) "B" "B" "t_nn",
       hop 1 0 "A" "A" "t_nn", hop 1 0 "B" "B" "t_nn"] else [])
    ++ (if neighbors ≥ 3 then
      [hop 1 (-2) "A" "B" "t_nnn", hop 1 0 "A" "B" "t_nnn", hop (-1) 0 "A" "B" "t_nnn"] else [])
  if neighbors ≥ 4 then .err .runtimeError else .ok calls

/-- The lattice vectors of `graphene.monolayer_alt`, graphene/lattice.py:80-81. -/
noncomputable def monolayerAltVectors : Fin 2 → Vec3 := ![![a / 2, a / 2 * √3, 0], ![a / 2, -a / 2 * √3, 0]]

/-- The building calls of `graphene.monolayer_alt`, graphene/lattice.py:83-88. -/
noncomputable def monolayerAlt (onsite : ℝ × ℝ) : List Call :=
  [sub "A" ![0, 0, 0] onsite.1, sub "B" ![0, aCC, 0] onsite.2,
   hopE 0 0 "A" "B" t, hopE 0 1 "A" "B" t, hopE (-1) 0 "A" "B" t]

/-- The lattice vectors of `graphene.monolayer_4atom`, graphene/lattice.py:104. -/
noncomputable def monolayer4Vectors : Fin 2 → Vec3 := ![![a, 0, 0], ![0, 3 * aCC, 0]]

/-- The building calls of `graphene.monolayer_4atom`, graphene/lattice.py:106-121. -/
noncomputable def monolayer4 (onsite : ℝ × ℝ) : List Call :=
  [sub "A" ![0, -aCC / 2, 0] onsite.1, sub "B" ![0, aCC / 2, 0] onsite.2,
   .addAlias "A2" "A" ![a / 2, aCC, 0], .addAlias "B2" "B" ![a / 2, 2 * aCC, 0],
   hopE 0 0 "A" "B" t, hopE 0 0 "B" "A2" t, hopE 0 0 "A2" "B2" t,
   hopE (-1) (-1) "A" "B2" t, hopE 0 (-1) "A" "B2" t, hopE (-1) 0 "B" "A2" t]

/-- The lattice vectors of `graphene.bilayer`, graphene/lattice.py:147-150. -/
noncomputable def bilayerVectors : Fin 2 → Vec3 := ![![a / 2, a / 2 * √3, 0], ![-a / 2, a / 2 * √3, 0]]

/-- The building calls of `graphene.bilayer`, graphene/lattice.py:152-192. -/
noncomputable def bilayer (gamma3 gamma4 : Bool) (onsite : Fin 4 → ℝ) : List Call :=
  [sub "A1" ![0, -aCC / 2, 0] (onsite 0), sub "B1" ![0, aCC / 2, 0] (onsite 1),
   sub "A2" ![0, aCC / 2, -0.335] (onsite 2), sub "B2" ![0, 3 * aCC / 2, -0.335] (onsite 3),
   reg "gamma0" t, reg "gamma1" (-0.4), reg "gamma3" (-0.3), reg "gamma4" (-0.04),
   hop 0 0 "A1" "B1" "gamma0", hop 0 (-1) "A1" "B1" "gamma0", hop (-1) 0 "A1" "B1" "gamma0",
   hop 0 0 "A2" "B2" "gamma0", hop 0 (-1) "A2" "B2" "gamma0", hop (-1) 0 "A2" "B2" "gamma0",
   hop 0 0 "B1" "A2" "gamma1"]
  ++ (if gamma3 then [hop 0 1 "B2" "A1" "gamma3", hop 1 0 "B2" "A1" "gamma3", hop 1 1 "B2" "A1" "gamma3"] else [])
  ++ (if gamma4 then [hop 0 0 "A2" "A1" "gamma4", hop 0 1 "A2" "A1" "gamma4", hop 1 0 "A2" "A1" "gamma4"] else [])

/-- The lattice vector of `examples.chain_lattice`, examples.py:21. -/
def chainVectors (a : ℝ) : Fin 1 → Vec3 := ![![a, 0, 0]]

/-- The building calls of `examples.chain_lattice`, examples.py:22-23. -/
noncomputable def chainLattice (t : ℂ) (v : ℝ) : List Call := [sub "A" ![0, 0, 0] v, hopE 1 0 "A" "A" t]

/-- The lattice vectors of `examples.square_lattice`, examples.py:41. -/
def squareVectors (d : ℝ) : Fin 2 → Vec3 := ![![d, 0, 0], ![0, d, 0]]

/-- The building calls of `examples.square_lattice`, examples.py:42-48. -/
noncomputable def squareLattice (t : ℂ) : List Call :=
  [sub "A" ![0, 0, 0] 0, hopE 0 1 "A" "A" t, hopE 1 0 "A" "A" t, hopE 1 1 "A" "A" t, hopE 1 (-1) "A" "A" t]

/-- The lattice vectors of `phosphorene.monolayer_4band`, phosphorene.py:20. -/
noncomputable def phosphoreneVectors : Fin 2 → Vec3 := ![![0.438, 0, 0], ![0, 0.332, 0]]

/-- The building calls of `phosphorene.monolayer_4band`, phosphorene.py:24-60.  The positions are left out: no call
uses them. -/
noncomputable def phosphorene (numHoppings : Int) : Res (List Call) :=
  let calls :=
    [sub "A" 0 0, sub "B" 0 0, sub "C" 0 0, sub "D" 0 0,
     reg "t1" (-1.22), reg "t2" 3.665, reg "t3" (-0.205), reg "t4" (-0.105), reg "t5" (-0.055)]
    ++ (if numHoppings ≥ 2 then
      [hop (-1) 0 "A" "D" "t1", hop (-1) (-1) "A" "D" "t1", hop 0 0 "B" "C" "t1", hop 0 (-1) "B" "C" "t1",
       hop 0 0 "A" "B" "t2", hop 0 0 "C" "D" "t2"] else [])
    ++ (if numHoppings ≥ 3 then
      [hop 0 0 "A" "D" "t3", hop 0 (-1) "A" "D" "t3", hop 1 1 "C" "B" "t3", hop 1 0 "C" "B" "t3"] else [])
    ++ (if numHoppings ≥ 4 then
      [hop 0 0 "A" "C" "t4", hop 0 (-1) "A" "C" "t4", hop (-1) 0 "A" "C" "t4", hop (-1) (-1) "A" "C" "t4",
       hop 0 0 "B" "D" "t4", hop 0 (-1) "B" "D" "t4", hop (-1) 0 "B" "D" "t4", hop (-1) (-1) "B" "D" "t4"] else [])
    ++ (if numHoppings ≥ 5 then [hop (-1) 0 "A" "B" "t5", hop (-1) 0 "C" "D" "t5"] else [])
  if numHoppings < 2 ∨ numHoppings > 5 then .err .runtimeError else .ok calls

/-- The lattice vectors of `group6_tmd.monolayer_3band`, group6_tmd.py:90. -/
noncomputable def tmdVectors (a : ℝ) : Fin 2 → Vec3 := ![![a, 0, 0], ![1 / 2 * a, √3 / 2 * a, 0]]

/-- The material parameters without the lattice constant, group6_tmd.py:87. -/
structure TmdParams where
  eps1 : ℝ
  eps2 : ℝ
  t0 : ℝ
  t1 : ℝ
  t2 : ℝ
  t11 : ℝ
  t12 : ℝ
  t22 : ℝ

/-- A 3×3 complex matrix from a nested list of reals. Caster of `MatrixXcd`, cppmodule/src/lattice.cpp:67-68. -/
noncomputable def mat3 (m : Fin 3 → Fin 3 → ℝ) : Mat ℂ := ⟨3, 3, fun i j => ((m i j : ℝ) : ℂ)⟩

/-- `h1`, group6_tmd.py:95-97. -/
def tmdH1 (p : TmdParams) : Fin 3 → Fin 3 → ℝ :=
  ![![p.t0, -p.t1, p.t2],
    ![p.t1, p.t11, -p.t12],
    ![p.t2, p.t12, p.t22]]

/-- `h2`, group6_tmd.py:99-101. -/
noncomputable def tmdH2 (p : TmdParams) : Fin 3 → Fin 3 → ℝ :=
  ![![p.t0, 1 / 2 * p.t1 + √3 / 2 * p.t2, √3 / 2 * p.t1 - 1 / 2 * p.t2],
    ![-1 / 2 * p.t1 + √3 / 2 * p.t2, 1 / 4 * p.t11 + 3 / 4 * p.t22, √3 / 4 * (p.t11 - p.t22) - p.t12],
    ![-√3 / 2 * p.t1 - 1 / 2 * p.t2, √3 / 4 * (p.t11 - p.t22) + p.t12, 3 / 4 * p.t11 + 1 / 4 * p.t22]]

/-- `h3`, group6_tmd.py:103-105. -/
noncomputable def tmdH3 (p : TmdParams) : Fin 3 → Fin 3 → ℝ :=
  ![![p.t0, -1 / 2 * p.t1 - √3 / 2 * p.t2, √3 / 2 * p.t1 - 1 / 2 * p.t2],
    ![1 / 2 * p.t1 - √3 / 2 * p.t2, 1 / 4 * p.t11 + 3 / 4 * p.t22, √3 / 4 * (p.t22 - p.t11) + p.t12],
    ![-√3 / 2 * p.t1 - 1 / 2 * p.t2, √3 / 4 * (p.t22 - p.t11) - p.t12, 3 / 4 * p.t11 + 1 / 4 * p.t22]]

/-- The building calls of `group6_tmd.monolayer_3band`, group6_tmd.py:92-110.  The onsite energies are given as a vector and
stored as a diagonal matrix (Lattice.cpp:34-36).  `metal` is the first part of the name. -/
noncomputable def tmd (metal : String) (p : TmdParams) : List Call :=
  [.addSublattice metal ![0, 0, 0] (mat3 ![![p.eps1, 0, 0], ![0, p.eps2, 0], ![0, 0, p.eps2]]),
   .addHoppingEnergy ⟨1, 0, 0⟩ metal metal (mat3 (tmdH1 p)), .addHoppingEnergy ⟨0, -1, 0⟩ metal metal (mat3 (tmdH2 p)),
   .addHoppingEnergy ⟨1, -1, 0⟩ metal metal (mat3 (tmdH3 p))]

end Verif.Pipeline.Repository
