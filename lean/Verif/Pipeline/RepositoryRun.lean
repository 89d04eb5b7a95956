import Verif.Pipeline.Repository

/-!
# The lattices of the material repository, after all building calls
-/

namespace Verif.Pipeline.Repository

open Verif.Lattice
open Verif.Lattice.Lattice (run empty step allTerms)

theorem selfadjointUpper_scalar (e : ℝ) : selfadjointUpper (Mat.scalar (e : ℂ)) = Mat.scalar (e : ℂ) := by
  unfold selfadjointUpper Mat.scalar
  simp

theorem checkOnsite_scalar (e : ℝ) : checkOnsite (Mat.scalar (e : ℂ)) = .ok () := by
  unfold checkOnsite diagReal isUpper isHermitian Mat.scalar
  simp

theorem step_sub (l : Lattice.Lattice ℂ Vec3) (name : String) (pos : Vec3) (e : ℝ) (hn : name ≠ "")
    (hl : lookup l.subs name = none) :
    (l.step (sub name pos e)).1
      = ⟨l.subs ++ [(name, ⟨pos, Mat.scalar (e : ℂ), l.subs.length, l.subs.length⟩)], l.hops⟩ := by
  simp only [sub, step, Lattice.addSublattice, checkOnsite_scalar, Lattice.makeUniqueSublatticeId, hn, if_false, hl,
    Option.isSome_none, Bool.false_eq_true, selfadjointUpper_scalar]

theorem step_reg (l : Lattice.Lattice ℂ Vec3) (name : String) (e : ℂ) (hn : name ≠ "") (hl : lookup l.hops name = none) :
    (l.step (reg name e)).1 = ⟨l.subs, l.hops ++ [(name, ⟨Mat.scalar e, l.hops.length, []⟩)]⟩ := by
  simp only [reg, step, Lattice.registerHoppingEnergy, checkHopping, hn, if_false, hl, Mat.scalar,
    Option.isSome_none, Bool.false_eq_true, one_ne_zero, or_self]

theorem step_hop (l : Lattice.Lattice ℂ Vec3) (x y : Int) (src dst name : String) (a b : Sublattice ℂ Vec3) (f : HoppingFamily ℂ)
    (h0 : ¬ (src = dst ∧ (⟨x, y, 0⟩ : Index3) = Index3.zero))
    (ha : lookup l.subs src = some a) (hb : lookup l.subs dst = some b) (hf : lookup l.hops name = some f)
    (har : a.energy.rows = f.energy.rows) (hbc : b.energy.cols = f.energy.cols)
    (hnew : (allTerms l.hops).any (fun p => HoppingTerm.same ⟨⟨x, y, 0⟩, a.uniqueId, b.uniqueId⟩ p.2) = false) :
    (l.step (hop x y src dst name)).1
      = ⟨l.subs, Lattice.pushTerm l.hops name ⟨⟨x, y, 0⟩, a.uniqueId, b.uniqueId⟩⟩ := by
  simp only [hop, step, Lattice.addHopping, h0, if_false, ha, hb, hf, har, hbc, ne_eq, not_true, or_self, hnew,
    Bool.false_eq_true]

theorem step_hopE (l : Lattice.Lattice ℂ Vec3) (x y : Int) (src dst : String) (e : ℂ) (p : String × HoppingFamily ℂ)
    (h : l.hops.find? (fun p => decide (p.2.energy = Mat.scalar e)) = some p) :
    l.step (hopE x y src dst e) = l.step (hop x y src dst p.1) := by
  simp only [hopE, hop, step, Lattice.addHoppingEnergy, h]

theorem step_hopE_new (l : Lattice.Lattice ℂ Vec3) (x y : Int) (src dst : String) (e : ℂ) (hl : l.hops = []) :
    l.step (hopE x y src dst e)
      = (⟨l.subs, [("__anonymous__0", ⟨Mat.scalar e, 0, []⟩)]⟩ : Lattice.Lattice ℂ Vec3).step (hop x y src dst "__anonymous__0") := by
  have e1 : l.anonymousName = "__anonymous__0" := by
    rw [Lattice.anonymousName, hl]; rfl
  have h2 := step_reg l "__anonymous__0" e (by decide) (by rw [hl]; rfl)
  have h3 : (l.registerHoppingEnergy "__anonymous__0" (Mat.scalar e)).2 = .ok () := by
    simp [Lattice.registerHoppingEnergy, checkHopping, hl, lookup, Mat.scalar]
  simp only [hopE, hop, step, Lattice.addHoppingEnergy, hl, List.find?_nil, e1]
  rw [hl] at h2
  simp only [reg, step, List.nil_append, List.length_nil] at h2
  rcases hr : l.registerHoppingEnergy "__anonymous__0" (Mat.scalar e) with ⟨l', r⟩
  rw [hr] at h2 h3
  simp only at h2 h3
  subst h2 h3
  rfl

theorem run_cons (op : Call) (ops : List Call) (l : Lattice.Lattice ℂ Vec3) : run (op :: ops) l = run ops (l.step op).1 := rfl

/-- Carry out an `add_sublattice` call. -/
macro "go_sub" : tactic => `(tactic| (
  rw [run_cons, step_sub _ _ _ _ (by decide) (by first | rfl | simp [lookup])]
  simp only [List.nil_append, List.cons_append, List.length_nil, List.length_cons, Nat.zero_add, Nat.reduceAdd]))

/-- Carry out a `register_hopping_energy` call. -/
macro "go_reg" : tactic => `(tactic| (
  rw [run_cons, step_reg _ _ _ (by decide) (by first | rfl | simp [lookup])]
  simp only [List.nil_append, List.cons_append, List.length_nil, List.length_cons, Nat.zero_add, Nat.reduceAdd]))

/-- Carry out an `add_hopping` call with a name. -/
macro "go_hop" : tactic => `(tactic| (
  rw [run_cons, step_hop _ _ _ _ _ _ _ _ _ (by decide) (by rfl) (by rfl) (by rfl) (by rfl) (by rfl) (by rfl)]
  simp only [Lattice.pushTerm, List.map_cons, List.map_nil, if_true, List.nil_append, List.cons_append, String.reduceEq, if_false]))

/-- Carry out an `add_hopping` call with an energy which the only family has. -/
macro "go_hopE" : tactic => `(tactic| (
  rw [run_cons, step_hopE _ _ _ _ _ _ _ (List.find?_cons_of_pos (by simp)), ← run_cons]
  go_hop))

theorem run_monolayerAlt (onsite : ℝ × ℝ) : run (monolayerAlt onsite) empty
    = ⟨[("A", ⟨![0, 0, 0], Mat.scalar (onsite.1 : ℂ), 0, 0⟩), ("B", ⟨![0, aCC, 0], Mat.scalar (onsite.2 : ℂ), 1, 1⟩)],
       [("__anonymous__0", ⟨Mat.scalar (t : ℂ), 0, [⟨⟨0, 0, 0⟩, 0, 1⟩, ⟨⟨0, 1, 0⟩, 0, 1⟩, ⟨⟨-1, 0, 0⟩, 0, 1⟩]⟩)]⟩ := by
  unfold monolayerAlt empty
  go_sub
  go_sub
  rw [run_cons, step_hopE_new _ _ _ _ _ _ rfl, ← run_cons]
  go_hop
  go_hopE
  go_hopE
  rfl

theorem run_monolayer1 (neighbors : Int) (hn : neighbors < 2) (onsite : ℝ × ℝ) (t : ℂ) (tNN : ℝ) (tNNN : ℂ) :
    ∃ calls, monolayer neighbors onsite t tNN tNNN = .ok calls ∧ run calls empty
      = ⟨[("A", ⟨![0, -aCC / 2, 0], Mat.scalar ((onsite.1 + 0 : ℝ) : ℂ), 0, 0⟩),
          ("B", ⟨![0, aCC / 2, 0], Mat.scalar ((onsite.2 + 0 : ℝ) : ℂ), 1, 1⟩)],
         [("t", ⟨Mat.scalar t, 0, [⟨⟨0, 0, 0⟩, 0, 1⟩, ⟨⟨1, -1, 0⟩, 0, 1⟩, ⟨⟨0, -1, 0⟩, 0, 1⟩]⟩),
          ("t_nn", ⟨Mat.scalar (tNN : ℂ), 1, []⟩),
          ("t_nnn", ⟨Mat.scalar tNNN, 2, []⟩)]⟩ := by
  refine ⟨_, by unfold monolayer; rw [if_neg (by omega)], ?_⟩
  simp only [show ¬ neighbors ≥ 2 by omega, show ¬ neighbors ≥ 3 by omega, hn, if_true, if_false, List.append_nil]
  unfold empty
  go_sub; go_sub; go_reg; go_reg; go_reg; go_hop; go_hop; go_hop
  rfl

theorem run_monolayer2 (onsite : ℝ × ℝ) (t : ℂ) (tNN : ℝ) (tNNN : ℂ) :
    ∃ calls, monolayer 2 onsite t tNN tNNN = .ok calls ∧ run calls empty
      = ⟨[("A", ⟨![0, -aCC / 2, 0], Mat.scalar ((onsite.1 + 3 * tNN : ℝ) : ℂ), 0, 0⟩),
          ("B", ⟨![0, aCC / 2, 0], Mat.scalar ((onsite.2 + 3 * tNN : ℝ) : ℂ), 1, 1⟩)],
         [("t", ⟨Mat.scalar t, 0, [⟨⟨0, 0, 0⟩, 0, 1⟩, ⟨⟨1, -1, 0⟩, 0, 1⟩, ⟨⟨0, -1, 0⟩, 0, 1⟩]⟩),
          ("t_nn", ⟨Mat.scalar (tNN : ℂ), 1, [⟨⟨0, -1, 0⟩, 0, 0⟩, ⟨⟨0, -1, 0⟩, 1, 1⟩, ⟨⟨1, -1, 0⟩, 0, 0⟩, ⟨⟨1, -1, 0⟩, 1, 1⟩, ⟨⟨1, 0, 0⟩, 0, 0⟩, ⟨⟨1, 0, 0⟩, 1, 1⟩]⟩),
          ("t_nnn", ⟨Mat.scalar tNNN, 2, []⟩)]⟩ := by
  refine ⟨_, by unfold monolayer; rw [if_neg (by omega)], ?_⟩
  simp only [ge_iff_le, Int.reduceLE, Int.reduceLT, if_true, if_false, List.append_nil, List.cons_append, List.nil_append]
  unfold empty
  go_sub; go_sub; go_reg; go_reg; go_reg; go_hop; go_hop; go_hop
  go_hop; go_hop; go_hop; go_hop; go_hop; go_hop
  rfl

theorem run_monolayer3 (onsite : ℝ × ℝ) (t : ℂ) (tNN : ℝ) (tNNN : ℂ) :
    ∃ calls, monolayer 3 onsite t tNN tNNN = .ok calls ∧ run calls empty
      = ⟨[("A", ⟨![0, -aCC / 2, 0], Mat.scalar ((onsite.1 + 3 * tNN : ℝ) : ℂ), 0, 0⟩),
          ("B", ⟨![0, aCC / 2, 0], Mat.scalar ((onsite.2 + 3 * tNN : ℝ) : ℂ), 1, 1⟩)],
         [("t", ⟨Mat.scalar t, 0, [⟨⟨0, 0, 0⟩, 0, 1⟩, ⟨⟨1, -1, 0⟩, 0, 1⟩, ⟨⟨0, -1, 0⟩, 0, 1⟩]⟩),
          ("t_nn", ⟨Mat.scalar (tNN : ℂ), 1, [⟨⟨0, -1, 0⟩, 0, 0⟩, ⟨⟨0, -1, 0⟩, 1, 1⟩, ⟨⟨1, -1, 0⟩, 0, 0⟩, ⟨⟨1, -1, 0⟩, 1, 1⟩, ⟨⟨1, 0, 0⟩, 0, 0⟩, ⟨⟨1, 0, 0⟩, 1, 1⟩]⟩),
          ("t_nnn", ⟨Mat.scalar tNNN, 2, [⟨⟨1, -2, 0⟩, 0, 1⟩, ⟨⟨1, 0, 0⟩, 0, 1⟩, ⟨⟨-1, 0, 0⟩, 0, 1⟩]⟩)]⟩ := by
  refine ⟨_, by unfold monolayer; rw [if_neg (by omega)], ?_⟩
  simp only [ge_iff_le, Int.reduceLE, Int.reduceLT, if_true, if_false, List.append_nil, List.cons_append, List.nil_append]
  unfold empty
  go_sub; go_sub; go_reg; go_reg; go_reg; go_hop; go_hop; go_hop
  go_hop; go_hop; go_hop; go_hop; go_hop; go_hop
  go_hop; go_hop; go_hop
  rfl

theorem step_alias (l : Lattice.Lattice ℂ Vec3) (name original : String) (pos : Vec3) (o : Sublattice ℂ Vec3)
    (ho : lookup l.subs original = some o) (hn : name ≠ "") (hl : lookup l.subs name = none) :
    (l.step (.addAlias name original pos)).1
      = ⟨l.subs ++ [(name, ⟨pos, o.energy, l.subs.length, o.uniqueId⟩)], l.hops⟩ := by
  simp only [step, Lattice.addAlias, ho, Lattice.makeUniqueSublatticeId, hn, if_false, hl, Option.isSome_none, Bool.false_eq_true]

/-- Carry out an `add_alias` call. -/
macro "go_alias" : tactic => `(tactic| (
  rw [run_cons, step_alias _ _ _ _ _ (by rfl) (by decide) (by first | rfl | simp [lookup])]
  simp only [List.nil_append, List.cons_append, List.length_nil, List.length_cons, Nat.zero_add, Nat.reduceAdd]))

theorem run_monolayer4 (onsite : ℝ × ℝ) : run (monolayer4 onsite) empty
    = ⟨[("A", ⟨![0, -aCC / 2, 0], Mat.scalar (onsite.1 : ℂ), 0, 0⟩), ("B", ⟨![0, aCC / 2, 0], Mat.scalar (onsite.2 : ℂ), 1, 1⟩),
        ("A2", ⟨![a / 2, aCC, 0], Mat.scalar (onsite.1 : ℂ), 2, 0⟩), ("B2", ⟨![a / 2, 2 * aCC, 0], Mat.scalar (onsite.2 : ℂ), 3, 1⟩)],
       [("__anonymous__0", ⟨Mat.scalar (t : ℂ), 0, [⟨⟨0, 0, 0⟩, 0, 1⟩, ⟨⟨0, 0, 0⟩, 1, 2⟩, ⟨⟨0, 0, 0⟩, 2, 3⟩, ⟨⟨-1, -1, 0⟩, 0, 3⟩, ⟨⟨0, -1, 0⟩, 0, 3⟩, ⟨⟨-1, 0, 0⟩, 1, 2⟩]⟩)]⟩ := by
  unfold monolayer4 empty
  go_sub; go_sub; go_alias; go_alias
  rw [run_cons, step_hopE_new _ _ _ _ _ _ rfl, ← run_cons]
  go_hop; go_hopE; go_hopE; go_hopE; go_hopE; go_hopE
  rfl

theorem run_chain (t : ℂ) (v : ℝ) : run (chainLattice t v) empty
    = ⟨[("A", ⟨![0, 0, 0], Mat.scalar (v : ℂ), 0, 0⟩)], [("__anonymous__0", ⟨Mat.scalar t, 0, [⟨⟨1, 0, 0⟩, 0, 0⟩]⟩)]⟩ := by
  unfold chainLattice empty
  go_sub
  rw [run_cons, step_hopE_new _ _ _ _ _ _ rfl, ← run_cons]
  go_hop
  rfl

theorem run_square (t : ℂ) : run (squareLattice t) empty
    = ⟨[("A", ⟨![0, 0, 0], Mat.scalar ((0 : ℝ) : ℂ), 0, 0⟩)], [("__anonymous__0", ⟨Mat.scalar t, 0, [⟨⟨0, 1, 0⟩, 0, 0⟩, ⟨⟨1, 0, 0⟩, 0, 0⟩, ⟨⟨1, 1, 0⟩, 0, 0⟩, ⟨⟨1, -1, 0⟩, 0, 0⟩]⟩)]⟩ := by
  unfold squareLattice empty
  go_sub
  rw [run_cons, step_hopE_new _ _ _ _ _ _ rfl, ← run_cons]
  go_hop; go_hopE; go_hopE; go_hopE
  rfl

theorem run_bilayer (gamma3 gamma4 : Bool) (onsite : Fin 4 → ℝ) : run (bilayer gamma3 gamma4 onsite) empty
    = ⟨[("A1", ⟨![0, -aCC / 2, 0], Mat.scalar (onsite 0 : ℂ), 0, 0⟩), ("B1", ⟨![0, aCC / 2, 0], Mat.scalar (onsite 1 : ℂ), 1, 1⟩),
        ("A2", ⟨![0, aCC / 2, -0.335], Mat.scalar (onsite 2 : ℂ), 2, 2⟩), ("B2", ⟨![0, 3 * aCC / 2, -0.335], Mat.scalar (onsite 3 : ℂ), 3, 3⟩)],
       [("gamma0", ⟨Mat.scalar (t : ℂ), 0, [⟨⟨0, 0, 0⟩, 0, 1⟩, ⟨⟨0, -1, 0⟩, 0, 1⟩, ⟨⟨-1, 0, 0⟩, 0, 1⟩, ⟨⟨0, 0, 0⟩, 2, 3⟩, ⟨⟨0, -1, 0⟩, 2, 3⟩, ⟨⟨-1, 0, 0⟩, 2, 3⟩]⟩),
        ("gamma1", ⟨Mat.scalar (-0.4), 1, [⟨⟨0, 0, 0⟩, 1, 2⟩]⟩),
        ("gamma3", ⟨Mat.scalar (-0.3), 2, if gamma3 then [⟨⟨0, 1, 0⟩, 3, 0⟩, ⟨⟨1, 0, 0⟩, 3, 0⟩, ⟨⟨1, 1, 0⟩, 3, 0⟩] else []⟩),
        ("gamma4", ⟨Mat.scalar (-0.04), 3, if gamma4 then [⟨⟨0, 0, 0⟩, 2, 0⟩, ⟨⟨0, 1, 0⟩, 2, 0⟩, ⟨⟨1, 0, 0⟩, 2, 0⟩] else []⟩)]⟩ := by
  unfold bilayer empty
  cases gamma3 <;> cases gamma4 <;>
    simp only [Bool.false_eq_true, if_false, if_true, List.append_nil, List.cons_append, List.nil_append] <;>
    (go_sub; go_sub; go_sub; go_sub; go_reg; go_reg; go_reg; go_reg; go_hop; go_hop; go_hop; go_hop; go_hop; go_hop; go_hop)
  · rfl
  · go_hop; go_hop; go_hop
    rfl
  · go_hop; go_hop; go_hop
    rfl
  · go_hop; go_hop; go_hop; go_hop; go_hop; go_hop
    rfl

theorem run_phosphorene (n : Int) (h2 : 2 ≤ n) (h5 : n ≤ 5) : ∃ calls, phosphorene n = .ok calls ∧ run calls empty
    = ⟨[("A", ⟨0, Mat.scalar ((0 : ℝ) : ℂ), 0, 0⟩), ("B", ⟨0, Mat.scalar ((0 : ℝ) : ℂ), 1, 1⟩),
        ("C", ⟨0, Mat.scalar ((0 : ℝ) : ℂ), 2, 2⟩), ("D", ⟨0, Mat.scalar ((0 : ℝ) : ℂ), 3, 3⟩)],
       [("t1", ⟨Mat.scalar (-1.22), 0, [⟨⟨-1, 0, 0⟩, 0, 3⟩, ⟨⟨-1, -1, 0⟩, 0, 3⟩, ⟨⟨0, 0, 0⟩, 1, 2⟩, ⟨⟨0, -1, 0⟩, 1, 2⟩]⟩),
        ("t2", ⟨Mat.scalar 3.665, 1, [⟨⟨0, 0, 0⟩, 0, 1⟩, ⟨⟨0, 0, 0⟩, 2, 3⟩]⟩),
        ("t3", ⟨Mat.scalar (-0.205), 2, if n ≥ 3 then [⟨⟨0, 0, 0⟩, 0, 3⟩, ⟨⟨0, -1, 0⟩, 0, 3⟩, ⟨⟨1, 1, 0⟩, 2, 1⟩, ⟨⟨1, 0, 0⟩, 2, 1⟩] else []⟩),
        ("t4", ⟨Mat.scalar (-0.105), 3, if n ≥ 4 then [⟨⟨0, 0, 0⟩, 0, 2⟩, ⟨⟨0, -1, 0⟩, 0, 2⟩, ⟨⟨-1, 0, 0⟩, 0, 2⟩, ⟨⟨-1, -1, 0⟩, 0, 2⟩, ⟨⟨0, 0, 0⟩, 1, 3⟩, ⟨⟨0, -1, 0⟩, 1, 3⟩, ⟨⟨-1, 0, 0⟩, 1, 3⟩, ⟨⟨-1, -1, 0⟩, 1, 3⟩] else []⟩),
        ("t5", ⟨Mat.scalar (-0.055), 4, if n ≥ 5 then [⟨⟨-1, 0, 0⟩, 0, 1⟩, ⟨⟨-1, 0, 0⟩, 2, 3⟩] else []⟩)]⟩ := by
  refine ⟨_, by unfold phosphorene; rw [if_neg (by omega)], ?_⟩
  unfold empty
  have h : n = 2 ∨ n = 3 ∨ n = 4 ∨ n = 5 := by omega
  rcases h with rfl | rfl | rfl | rfl <;>
    simp only [ge_iff_le, Int.reduceLE, if_false, if_true, List.append_nil, List.cons_append, List.nil_append] <;>
    (go_sub; go_sub; go_sub; go_sub; go_reg; go_reg; go_reg; go_reg; go_reg; go_hop; go_hop; go_hop; go_hop; go_hop; go_hop)
  · rfl
  · go_hop; go_hop; go_hop; go_hop
    rfl
  · go_hop; go_hop; go_hop; go_hop
    go_hop; go_hop; go_hop; go_hop; go_hop; go_hop; go_hop; go_hop
    rfl
  · go_hop; go_hop; go_hop; go_hop
    go_hop; go_hop; go_hop; go_hop; go_hop; go_hop; go_hop; go_hop
    go_hop; go_hop
    rfl

/-! ## The transition metal dichalcogenides -/

theorem step_mat (l : Lattice.Lattice ℂ Vec3) (name : String) (pos : Vec3) (d : Fin 3 → ℝ) (hn : name ≠ "")
    (hl : lookup l.subs name = none) :
    (l.step (.addSublattice name pos (mat3 ![![d 0, 0, 0], ![0, d 1, 0], ![0, 0, d 2]]))).1
      = ⟨l.subs ++ [(name, ⟨pos, mat3 ![![d 0, 0, 0], ![0, d 1, 0], ![0, 0, d 2]], l.subs.length, l.subs.length⟩)], l.hops⟩ := by
  have h1 : selfadjointUpper (mat3 ![![d 0, 0, 0], ![0, d 1, 0], ![0, 0, d 2]]) = mat3 ![![d 0, 0, 0], ![0, d 1, 0], ![0, 0, d 2]] := by
    unfold selfadjointUpper mat3
    simp only [dif_pos, Mat.mk.injEq, heq_eq_eq, true_and]
    funext i j
    fin_cases i <;> fin_cases j <;> simp
  have h2 : checkOnsite (mat3 ![![d 0, 0, 0], ![0, d 1, 0], ![0, 0, d 2]]) = .ok () := by
    have h3 : diagReal (mat3 ![![d 0, 0, 0], ![0, d 1, 0], ![0, 0, d 2]]) = true := by
      unfold diagReal mat3
      refine decide_eq_true ?_
      intro i j hij
      exact Complex.conj_ofReal _
    have h4 : isUpper (mat3 ![![d 0, 0, 0], ![0, d 1, 0], ![0, 0, d 2]]) = true := by
      unfold isUpper mat3
      refine decide_eq_true ?_
      intro i j hij
      simp only at i j
      fin_cases i <;> fin_cases j <;> simp at hij ⊢
    unfold checkOnsite
    rw [h3, h4]
    simp
    simp [mat3]
  simp only [step, Lattice.addSublattice, h1, h2, Lattice.makeUniqueSublatticeId, hn, if_false, hl,
    Option.isSome_none, Bool.false_eq_true]

theorem step_matE (l : Lattice.Lattice ℂ Vec3) (x y : Int) (src dst : String) (e : Mat ℂ) (p : String × HoppingFamily ℂ)
    (h : l.hops.find? (fun p => decide (p.2.energy = e)) = some p) :
    l.step (.addHoppingEnergy ⟨x, y, 0⟩ src dst e) = l.step (hop x y src dst p.1) := by
  simp only [hop, step, Lattice.addHoppingEnergy, h]

theorem step_matE_new (l : Lattice.Lattice ℂ Vec3) (x y : Int) (src dst name : String) (m : Fin 3 → Fin 3 → ℝ)
    (h : l.hops.find? (fun p => decide (p.2.energy = mat3 m)) = none) (n : Nat) (hlen : l.hops.length = n)
    (hname0 : "__anonymous__" ++ toString n = name) (hn : name ≠ "")
    (hl : lookup l.hops name = none) :
    l.step (.addHoppingEnergy ⟨x, y, 0⟩ src dst (mat3 m))
      = (⟨l.subs, l.hops ++ [(name, ⟨mat3 m, l.hops.length, []⟩)]⟩ : Lattice.Lattice ℂ Vec3).step (hop x y src dst name) := by
  have hname : l.anonymousName = name := by rw [Lattice.anonymousName, hlen, hname0]
  have h3 : l.registerHoppingEnergy name (mat3 m) = (⟨l.subs, l.hops ++ [(name, ⟨mat3 m, l.hops.length, []⟩)]⟩, .ok ()) := by
    simp [Lattice.registerHoppingEnergy, checkHopping, hl, mat3, hn]
  simp only [hop, step, Lattice.addHoppingEnergy, h, hname, h3]

/-- Carry out an `add_hopping` call of a lattice whose only sublattice has a name which is not known. -/
macro "go_self" : tactic => `(tactic| (
  rw [run_cons, step_hop _ _ _ _ _ _ _ _ _ (by simp [Index3.zero]) (by simp [lookup]; rfl) (by simp [lookup]; rfl) (by rfl) (by rfl) (by rfl) (by rfl)]
  simp only [Lattice.pushTerm, List.map_cons, List.map_nil, if_true, List.nil_append, List.cons_append, String.reduceEq, if_false]))

/-- The lattice of a transition metal dichalcogenide.  Hoppings with equal energies are in one family; for every function of
an energy and a hopping the sum over all hoppings is the same. -/
theorem run_tmd (metal : String) (hm : metal ≠ "") (p : TmdParams) : ∃ hops : List (String × HoppingFamily ℂ),
    run (tmd metal p) empty
      = ⟨[(metal, ⟨![0, 0, 0], mat3 ![![p.eps1, 0, 0], ![0, p.eps2, 0], ![0, 0, p.eps2]], 0, 0⟩)], hops⟩ ∧
    (∀ F : Mat ℂ → HoppingTerm → ℂ, (hops.map fun q => (q.2.terms.map fun t => F q.2.energy t).sum).sum
      = F (mat3 (tmdH1 p)) ⟨⟨1, 0, 0⟩, 0, 0⟩ + F (mat3 (tmdH2 p)) ⟨⟨0, -1, 0⟩, 0, 0⟩ + F (mat3 (tmdH3 p)) ⟨⟨1, -1, 0⟩, 0, 0⟩) ∧
    (∀ q ∈ allTerms hops, q.2.rel.z = 0) ∧ ∀ q ∈ hops, q.2.energy.size = 9 := by
  unfold tmd empty
  rw [run_cons]
  have h := step_mat (⟨[], []⟩ : Lattice.Lattice ℂ Vec3) metal ![0, 0, 0] ![p.eps1, p.eps2, p.eps2] hm rfl
  simp only [Matrix.cons_val_zero, Matrix.cons_val_one, Matrix.cons_val, List.nil_append, List.length_nil] at h
  rw [h, run_cons, step_matE_new _ _ _ _ _ "__anonymous__0" _ rfl 0 (by rfl) (by rfl) (by decide) rfl, ← run_cons]
  simp only [List.nil_append, List.length_nil]
  go_self
  have h9 : ∀ m, (mat3 m).size = 9 := fun m => rfl
  by_cases h12 : mat3 (tmdH1 p) = mat3 (tmdH2 p)
  · rw [run_cons, step_matE _ _ _ _ _ _ _ (List.find?_cons_of_pos (by simp [h12])), ← run_cons]
    go_self
    by_cases h13 : mat3 (tmdH1 p) = mat3 (tmdH3 p)
    · rw [run_cons, step_matE _ _ _ _ _ _ _ (List.find?_cons_of_pos (by simp [h13])), ← run_cons]
      go_self
      refine ⟨_, rfl, ?_, by simp [allTerms], by simp [h9]⟩
      intro F
      simp [← h12, ← h13]
      ring
    · rw [run_cons, step_matE_new _ _ _ _ _ "__anonymous__1" _ (by simp [h13]) 1 (by rfl) (by rfl) (by decide) rfl, ← run_cons]
      simp only [List.cons_append, List.nil_append, List.length_cons, List.length_nil, Nat.zero_add]
      go_self
      refine ⟨_, rfl, ?_, by simp [allTerms], by simp [h9]⟩
      intro F
      simp [← h12]
  · rw [run_cons, step_matE_new _ _ _ _ _ "__anonymous__1" _ (by simp [h12]) 1 (by rfl) (by rfl) (by decide) rfl, ← run_cons]
    simp only [List.cons_append, List.nil_append, List.length_cons, List.length_nil, Nat.zero_add]
    go_self
    by_cases h13 : mat3 (tmdH1 p) = mat3 (tmdH3 p)
    · rw [run_cons, step_matE _ _ _ _ _ _ _ (List.find?_cons_of_pos (by simp [h13])), ← run_cons]
      go_self
      refine ⟨_, rfl, ?_, by simp [allTerms], by simp [h9]⟩
      intro F
      simp [← h13]
      ring
    · by_cases h23 : mat3 (tmdH2 p) = mat3 (tmdH3 p)
      · rw [run_cons, step_matE _ _ _ _ _ _ ("__anonymous__1", _) (by rw [List.find?_cons_of_neg (by simp [h13]), List.find?_cons_of_pos (by simp [h23])]), ← run_cons]
        go_self
        refine ⟨_, rfl, ?_, by simp [allTerms], by simp [h9]⟩
        intro F
        simp [← h23]
        ring
      · rw [run_cons, step_matE_new _ _ _ _ _ "__anonymous__2" _ (by simp [h13, h23]) 2 (by rfl) (by rfl) (by decide) rfl, ← run_cons]
        simp only [List.cons_append, List.nil_append, List.length_cons, List.length_nil, Nat.zero_add, Nat.reduceAdd]
        go_self
        refine ⟨_, rfl, ?_, by simp [allTerms], by simp [h9]⟩
        intro F
        simp
        ring

end Verif.Pipeline.Repository
