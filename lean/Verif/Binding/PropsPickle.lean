import Verif.Binding.Pickle
import Verif.Lattice.Props
import Verif.Sublat.Props
import Verif.Hopping.Props
import Verif.Lattice.PropsOrder

/-!
# C75: a saved object behaves as the original after loading
-/

set_option linter.unusedSectionVars false

namespace Verif.Binding.Pickle

open Verif.Lattice Verif.Sublat Verif.Hopping

/-! ## States -/

section states
variable {K F : Type}

theorem all_map {α β γ : Type} (f : β → Res γ) (g : α → β) (h : α → γ) (l : List α) (hl : ∀ x ∈ l, f (g x) = .ok (h x)) :
    Py.all f (l.map g) = .ok (l.map h) := by
  induction l with
  | nil => rfl
  | cons x l ih =>
    rw [List.map_cons, Py.all, hl x List.mem_cons_self]
    simp only [Res.bind_ok]
    rw [ih fun y hy => hl y (List.mem_cons_of_mem _ hy)]
    rfl

theorem all_map' {α β : Type} (f : β → Res α) (g : α → β) (l : List α) (hl : ∀ x ∈ l, f (g x) = .ok x) :
    Py.all f (l.map g) = .ok l := by
  rw [all_map f g id l hl, List.map_id]

theorem toMap_mapState {α : Type} (order : List (String × α) → List (String × α)) (f : Py K F → Res α) (g : α → Py K F)
    (m : List (String × α)) (h : ∀ x, f (g x) = .ok x) : (mapState g m).toMap order f = .ok (order m) := by
  unfold mapState Py.toMap
  simp only
  rw [all_map' _ (fun p : String × α => (p.1, g p.2)) m (by
    rintro ⟨n, x⟩ -
    simp only [h, Res.bind_ok])]
  rfl

theorem toNat_int (n : Nat) : (Py.int (n : Int) : Py K F).toNat = .ok n := by
  unfold Py.toNat Py.toInt
  simp only [Res.bind_ok]
  rw [if_neg (by omega)]
  simp

theorem toNats_ints (l : List Nat) : (Py.ints (l.map Int.ofNat) : Py K F).toNats = .ok l := by
  unfold Py.toNats Py.toInts
  simp only [Res.bind_ok]
  rw [if_neg]
  · simp [Function.comp_def]
  · simp

theorem subLoad_state (s : Sublattice K (Cart F)) : subLoad (subState s) = .ok s := by
  simp [subLoad, subState, Py.get, lookup, Py.toVec, Py.toMat, toNat_int]

theorem termLoad_state (t : HoppingTerm) : termLoad (termState t : Py K F) = .ok t := by
  simp [termLoad, termState, Py.get, lookup, Py.toIndex, toNat_int]

theorem familyLoad_state (f : HoppingFamily K) : familyLoad (familyState f : Py K F) = .ok f := by
  have h : Py.all (termLoad (K := K) (F := F)) (f.terms.map termState) = .ok f.terms :=
    all_map' _ _ _ fun t _ => termLoad_state t
  simp [familyLoad, familyState, Py.get, lookup, Py.toMat, toNat_int, Py.toList, h]

theorem registryLoad_state (r : Registry K) : registryLoad (registryState r : Py K F) = .ok r := by
  have h1 : Py.all (Py.toMat (K := K) (F := F)) (r.energies.map Py.mat) = .ok r.energies := all_map' _ _ _ fun _ _ => rfl
  have h2 : Py.all (Py.toStr (K := K) (F := F)) (r.names.map Py.str) = .ok r.names := all_map' _ _ _ fun _ _ => rfl
  simp [registryLoad, registryState, Py.get, lookup, Py.toList, h1, h2]

theorem positionsOf_map (ps : List (Cart F)) : positionsOf (ps.map (· 0)) (ps.map (· 1)) (ps.map (· 2)) = ps := by
  induction ps with
  | nil => rfl
  | cons p ps ih =>
    simp only [List.map_cons, positionsOf, ih, List.cons.injEq, and_true]
    funext i
    fin_cases i <;> rfl

theorem positionsLoad_state (ps : List (Cart F)) : positionsLoad (positionsState ps : Py K F) = .ok ps := by
  simp [positionsLoad, positionsState, Py.item, Py.toFloats, positionsOf_map]

theorem tableLoad_state (t : Table) : tableLoad (tableState t : Py K F) = .ok t := by
  have h := C04_sublattices_roundtrip t
  have h1 := toNats_ints (K := K) (F := F) (siteCounts t)
  have h2 := toNats_ints (K := K) (F := F) (orbitalCounts t)
  simp only [tableLoad, tableState, Py.get, lookup]
  simp [Py.toInts, h1, h2, h]

theorem pairLoad_state (p : List Nat × List Nat) :
    pairLoad (.list [.ints (p.1.map Int.ofNat), .ints (p.2.map Int.ofNat)] : Py K F) = .ok p := by
  have h1 := toNats_ints (K := K) (F := F) p.1
  have h2 := toNats_ints (K := K) (F := F) p.2
  simp only [pairLoad, Py.item]
  simp [h1, h2]

theorem blocksLoad_state (order : List (String × Nat) → List (String × Nat)) (h : HoppingBlocks) :
    blocksLoad order (blocksState h : Py K F) = .ok { h with nameMap := order h.nameMap } := by
  have h1 : Py.all (pairLoad (K := K) (F := F))
      (h.serialize.map fun p => .list [.ints (p.1.map Int.ofNat), .ints (p.2.map Int.ofNat)]) = .ok h.serialize :=
    all_map' _ _ _ fun p _ => pairLoad_state p
  have h2 := toMap_mapState (K := K) (F := F) order Py.toNat (fun (n : Nat) => .int n) h.nameMap toNat_int
  have h3 := C04_hoppings_roundtrip { h with nameMap := order h.nameMap }
  have h4 : HoppingBlocks.serialize { h with nameMap := order h.nameMap } = h.serialize := rfl
  rw [h4] at h3
  simp only [blocksLoad, blocksState, Py.get, lookup]
  simp only [List.find?, Option.map, String.reduceBEq, Res.bind_ok, toNat_int, Py.toList, h1, h2]
  exact h3

theorem boundaryLoad_state (order : List (String × Nat) → List (String × Nat)) (b : Hamiltonian.Boundary (Cart F)) :
    boundaryLoad order (boundaryState b : Py K F) = .ok ⟨b.shift, { b.hoppings with nameMap := order b.hoppings.nameMap }⟩ := by
  simp [boundaryLoad, boundaryState, Py.item, blocksLoad_state, Py.toVec]

end states

/-! ## Saved lattices -/

section lattice
variable {K F : Type}

/-- The same bindings, iterated in another order. -/
def Order.Fair (o : Order K F) : Prop := (∀ m, (o.subs m).Perm m) ∧ ∀ m, (o.hops m).Perm m

/-- **C75** (lattice).  A lattice whose offset was accepted (as that of every lattice) can be loaded from its saved state and has the same vectors,
offset, minimum number of neighbours, sublattices and hopping families (in another order of iteration of the maps). -/
theorem C75_lattice (near : List (Cart F) → Cart F → Bool) (zero : Cart F) (order : Order K F) (hord : order.Fair) (l : FullLattice K F)
    (hoff : near l.vectors l.offset = true) :
    ∃ l', latticeLoad near zero order (latticeState l) = .ok l' ∧ l'.vectors = l.vectors ∧ l'.offset = l.offset ∧
      l'.minNeighbors = l.minNeighbors ∧ l'.lattice.subs.Perm l.lattice.subs ∧ l'.lattice.hops.Perm l.lattice.hops := by
  have h1 : Py.all (Py.toVec (K := K) (F := F)) (l.vectors.map Py.vec) = .ok l.vectors := all_map' _ _ _ fun _ _ => rfl
  have h2 := toMap_mapState (K := K) (F := F) order.subs subLoad subState l.lattice.subs subLoad_state
  have h3 := toMap_mapState (K := K) (F := F) order.hops familyLoad familyState l.lattice.hops familyLoad_state
  refine ⟨⟨l.vectors, ⟨order.subs l.lattice.subs, order.hops l.lattice.hops⟩, l.offset, l.minNeighbors⟩, ?_, rfl, rfl, rfl,
    hord.1 _, hord.2 _⟩
  simp only [latticeLoad, latticeState, Py.get, lookup]
  simp only [List.find?, Option.map, String.reduceBEq, Res.bind_ok, Py.toList, h1, h2, h3, Py.toVec, setOffset, hoff, if_true, Py.toInt]

/-- Setting an offset is the only way to change it, and keeps the hypothesis of `C75_lattice`. -/
theorem C75_offset_accepted (near : List (Cart F) → Cart F → Bool) (l l' : FullLattice K F) (p : Cart F)
    (h : setOffset near l p = .ok l') : near l'.vectors l'.offset = true := by
  unfold setOffset at h
  split at h
  · simp only [Res.ok.injEq] at h
    subst h
    assumption
  · simp at h

/-- The system with the maps of names in another order. -/
def renamed (order : List (String × Nat) → List (String × Nat)) (s : Hamiltonian.System K (Cart F)) : Hamiltonian.System K (Cart F) :=
  { s with
    hoppings := { s.hoppings with nameMap := order s.hoppings.nameMap }
    boundaries := s.boundaries.map fun b => ⟨b.shift, { b.hoppings with nameMap := order b.hoppings.nameMap }⟩ }

/-- **C75** (system).  A system loaded from its saved state is the same, except for the order of iteration of its maps of names. -/
theorem C75_system (near : List (Cart F) → Cart F → Bool) (zero : Cart F) (order : Order K F)
    (names : List (String × Nat) → List (String × Nat)) (s : Hamiltonian.System K (Cart F)) :
    systemLoad near zero order names (systemState s) = .ok (renamed names s) := by
  have h1 : Py.all (boundaryLoad (K := K) (F := F) names) (s.boundaries.map boundaryState) = .ok (renamed names s).boundaries :=
    all_map _ _ _ _ fun b _ => boundaryLoad_state names b
  simp only [systemLoad, registriesLoad, systemState, Py.contains, Py.get, lookup]
  simp only [List.find?, Option.map, String.reduceBEq, Option.isSome, Res.bind_ok, Py.toList, h1, registryLoad_state,
    positionsLoad_state, tableLoad_state, blocksLoad_state, Bool.false_eq_true, if_false]
  rfl

end lattice

/-! ## Hamiltonian of a saved system -/

section hamiltonian
variable {C F K : Type} [Zero C] [DecidableEq C] [Zero K] [Add K] [Mul K] [Star K] [DecidableEq K] [Sub (Cart F)]
  (names : List (String × Nat) → List (String × Nat)) (s : Hamiltonian.System C (Cart F))
open Hamiltonian

theorem hoppingSlices_renamed (mods : List (HoppingModifier K (Cart F))) (shift : Option (Cart F)) (unit : List K) (name : String)
    (tr : Translator) (l : List (List COO)) :
    hoppingSlices (renamed names s) mods shift unit name tr l = hoppingSlices s mods shift unit name tr l := by
  induction l with
  | nil => rfl
  | cons c l ih =>
    unfold hoppingSlices
    rw [ih]
    rfl

theorem slowBlock_renamed (cast : C → K) (mods : List (HoppingModifier K (Cart F))) (maxBuffer : Nat) (shift : Option (Cart F)) :
    slowBlock cast (renamed names s) mods maxBuffer shift = slowBlock cast s mods maxBuffer shift := by
  funext fam block
  unfold slowBlock
  simp only [hoppingSlices_renamed]
  rfl

theorem applyToHoppings_renamed (cast : C → K) (mods : Modifiers K (Cart F)) (maxBuffer : Nat) (shift : Option (Cart F)) (h : HoppingBlocks)
    (order : List (String × Nat) → List (String × Nat)) :
    applyToHoppings cast (renamed names s) mods maxBuffer shift { h with nameMap := order h.nameMap }
      = applyToHoppings cast s mods maxBuffer shift h := by
  unfold applyToHoppings
  rw [slowBlock_renamed]
  rfl

theorem buildPeriodic_renamed (cast : C → K) (mods : Modifiers K (Cart F)) (maxBuffer : Nat) (phase : Cart F → K)
    (bs : List (Boundary (Cart F))) (m : Csr K) :
    buildPeriodic cast (renamed names s) mods maxBuffer phase
        (bs.map fun b => ⟨b.shift, { b.hoppings with nameMap := names b.hoppings.nameMap }⟩) m
      = buildPeriodic cast s mods maxBuffer phase bs m := by
  induction bs generalizing m with
  | nil => rfl
  | cons b bs ih =>
    simp only [List.map_cons, buildPeriodic, applyToHoppings_renamed, ih]
    rfl

theorem onsiteLoop_renamed (cast : C → K) (mods : List (OnsiteModifier K (Cart F))) (b : Bool) (l : List It) :
    onsiteLoop cast (renamed names s) mods b l = onsiteLoop cast s mods b l := by
  induction l with
  | nil => rfl
  | cons c l ih =>
    unfold onsiteLoop
    rw [ih]
    rfl

/-- **C75** (Hamiltonian).  A system saved and loaded again has the Hamiltonian (or the failure) of the original, for all modifiers and at every
wave vector. -/
theorem C75_hamiltonian (near : List (Cart F) → Cart F → Bool) (zero : Cart F) (order : Order C F) (cast : C → K) (mods : Modifiers K (Cart F))
    (maxBuffer : Nat) (phase : Cart F → K) (simpleBuild : Bool) :
    (systemLoad near zero order names (systemState s) >>= fun s' => Hamiltonian.make cast s' mods maxBuffer phase simpleBuild)
      = Hamiltonian.make cast s mods maxBuffer phase simpleBuild := by
  rw [C75_system, Res.bind_ok]
  have hm : buildMain cast (renamed names s) mods maxBuffer simpleBuild = buildMain cast s mods maxBuffer simpleBuild := by
    unfold buildMain
    have ha := applyToHoppings_renamed names s cast mods maxBuffer none s.hoppings names
    have ho : applyToOnsite cast (renamed names s) mods = applyToOnsite cast s mods := by
      unfold applyToOnsite
      simp only [onsiteLoop_renamed]
      rfl
    show (if simpleBuild then _ else _) = _
    rw [ho]
    change (if simpleBuild then
      applyToOnsite cast s mods >>= fun onsite => insertAll _ onsite _ >>= fun m =>
        applyToHoppings cast (renamed names s) mods maxBuffer none { s.hoppings with nameMap := names s.hoppings.nameMap } >>= fun hop =>
          insertAll _ (withConjugate hop) m
      else applyToOnsite cast s mods >>= fun onsite =>
        applyToHoppings cast (renamed names s) mods maxBuffer none { s.hoppings with nameMap := names s.hoppings.nameMap } >>= fun hop =>
          addAll _ (onsite ++ withConjugate hop) _) = _
    rw [ha]
    rfl
  unfold Hamiltonian.make
  rw [hm]
  simp only [renamed]
  congr 1
  funext m
  exact buildPeriodic_renamed names s cast mods maxBuffer phase s.boundaries m

end hamiltonian

/-! ## Files of older versions -/

section old
variable {K F : Type} [DecidableEq K] [Zero K] [InvolutiveStar K]

/-- **C75** (older files).  A state that has the lattice in place of the registries gives the registries that the lattice has. -/
theorem C75_old_format (near : List (Cart F) → Cart F → Bool) (zero : Cart F) (order : Order K F) (hord : order.Fair) (l : FullLattice K F)
    (hoff : near l.vectors l.offset = true) (ops : List (Lattice.Op K (Cart F))) (hl : l.lattice = Lattice.run ops Lattice.empty)
    (rest : List (String × Py K F)) :
    registriesLoad near zero order (.dict (("lattice", latticeState l) :: rest)) = (do
      let sr ← siteRegistry l.lattice.subs
      let hr ← hoppingRegistry l.lattice.hops
      Res.ok (sr, hr)) := by
  obtain ⟨l', h1, h2, h3, h4, h5, h6⟩ := C75_lattice near zero order hord l hoff
  have inv : Inv l.lattice := hl ▸ Inv.reachable ops
  simp only [registriesLoad, Py.contains, Py.get, lookup]
  simp only [List.find?, Option.map, String.reduceBEq, beq_self_eq_true, Option.isSome, Res.bind_ok, if_true, h1, siteRegistry_perm inv h5,
    hoppingRegistry_keys inv (h6.map hopKey)]

end old

/-! ## Saved results -/

section results
variable {V : Type}

theorem update_self (d e : List (String × V)) (hd : ((d ++ e).map (·.1)).Nodup) : update d e = d ++ e := by
  induction e generalizing d with
  | nil => simp [update]
  | cons p e ih =>
    have hp : lookup d p.1 = none := by
      unfold lookup
      rw [Option.map_eq_none_iff, List.find?_eq_none]
      intro q hq hqp
      simp only [List.map_append, List.map_cons, List.nodup_append, List.mem_map, List.mem_cons] at hd
      exact hd.2.2 q.1 ⟨q, hq, rfl⟩ p.1 (Or.inl rfl) (by simpa using hqp)
    have : update d (p :: e) = update (d ++ [p]) e := by
      simp [update, hp]
    rw [this, ih _ (by simpa using hd)]
    simp

/-- **C75** (results).  A result of a class without extra properties, loaded with the same version of the class, has the fields it was saved with; with
another version loading raises. -/
theorem C75_results (version version' : Nat) (fields : List (String × V)) (hn : (fields.map (·.1)).Nodup) :
    setState version' [] (getState version [] fields) = if version = version' then .ok fields else .err .runtimeError := by
  have h := update_self [] fields (by simpa using hn)
  by_cases hv : version = version' <;> simp [setState, getState, hv, unpackKeys, Py.all, h]

theorem lookup_map_replace (d : List (String × V)) (p : String × V) (k : String) (hp : (lookup d p.1).isSome = true) :
    lookup (d.map fun q => if q.1 = p.1 then p else q) k = if k = p.1 then some p.2 else lookup d k := by
  induction d with
  | nil => simp [lookup] at hp
  | cons q d ih =>
    unfold lookup at ih hp ⊢
    by_cases hq : q.1 = p.1
    · by_cases hk : k = p.1
      · simp [hq, hk]
      · have h1 : ¬ p.1 = k := fun h => hk h.symm
        have h2 : ¬ q.1 = k := fun h => hk (h.symm.trans hq)
        simp only [List.map_cons, hq, if_true, List.find?_cons, beq_eq_false_iff_ne.2 h1, beq_eq_false_iff_ne.2 h2, if_neg hk]
        clear ih hp
        induction d with
        | nil => rfl
        | cons r d ih2 =>
          by_cases hr : r.1 = p.1
          · have h3 : ¬ r.1 = k := fun h => hk (h.symm.trans hr)
            simp only [List.map_cons, hr, if_true, List.find?_cons, beq_eq_false_iff_ne.2 h1]
            exact ih2
          · simp only [List.map_cons, hr, if_false, List.find?_cons]
            by_cases hrk : r.1 = k
            · simp [hrk]
            · simp only [beq_eq_false_iff_ne.2 hrk]
              exact ih2
    · have h1 : (List.find? (fun x => x.1 == p.1) d |>.map (·.2)).isSome = true := by
        simpa [List.find?_cons, beq_eq_false_iff_ne.2 hq] using hp
      have h2 := ih h1
      simp only [List.map_cons, hq, if_false, List.find?_cons]
      by_cases hqk : q.1 = k
      · have hk : ¬ k = p.1 := fun h => hq (hqk.trans h)
        simp [hqk, hk]
      · simp only [beq_eq_false_iff_ne.2 hqk]
        exact h2

theorem lookup_update (d e : List (String × V)) (he : (e.map (·.1)).Nodup) (k : String) : lookup (update d e) k = (lookup e k).or (lookup d k) := by
  induction e generalizing d with
  | nil => simp [update, lookup]
  | cons p e ih =>
    have hn := List.nodup_cons.1 he
    have hstep : update d (p :: e) = update (if (lookup d p.1).isSome then d.map (fun q => if q.1 = p.1 then p else q) else d ++ [p]) e := rfl
    rw [hstep, ih _ hn.2]
    have h0 : lookup (p :: e) k = if k = p.1 then some p.2 else lookup e k := by
      unfold lookup
      by_cases hk : k = p.1
      · simp [hk]
      · simp only [List.find?_cons, beq_eq_false_iff_ne.2 fun h : p.1 = k => hk h.symm, if_neg hk]
    have h1 : lookup (if (lookup d p.1).isSome then d.map (fun q => if q.1 = p.1 then p else q) else d ++ [p]) k = if k = p.1 then some p.2 else lookup d k := by
      split
      · rename_i hs
        exact lookup_map_replace d p k hs
      · rename_i hs
        have hs' : lookup d p.1 = none := by simpa using hs
        unfold lookup at hs' ⊢
        rw [List.find?_append]
        by_cases hk : k = p.1
        · rw [hk, if_pos rfl]
          rw [Option.map_eq_none_iff] at hs'
          simp [hs']
        · rw [if_neg hk]
          simp only [List.find?_cons, beq_eq_false_iff_ne.2 fun h : p.1 = k => hk h.symm, List.find?_nil, Option.or_none]
    rw [h0, h1]
    by_cases hk : k = p.1
    · have h2 : lookup e k = none := by
        unfold lookup
        rw [Option.map_eq_none_iff, List.find?_eq_none]
        intro q hq hqk
        exact hn.1 (List.mem_map.2 ⟨q, hq, (by simpa using hqk : q.1 = k).trans hk⟩)
      rw [if_pos hk, if_pos hk, h2]
      rfl
    · rw [if_neg hk, if_neg hk]

/-- **C75** (fields).  Whatever fields an object has already, loading results of the same version, or of the time before versions were saved, sets the saved fields and keeps the
others. -/
theorem C75_fields (version : Nat) (old : List (String × V)) (s : ResultState V) (hv : s.version = none ∨ s.version = some version ∧ s.props = none) (hn : (s.fields.map (·.1)).Nodup) :
    ∃ new, setState version old s = .ok new ∧ ∀ k, lookup new k = (lookup s.fields k).or (lookup old k) := by
  refine ⟨update old s.fields, ?_, lookup_update old s.fields hn⟩
  unfold setState
  rcases hv with hv | ⟨hv, hp⟩
  · rw [hv]
  · rw [hv, hp]
    simp [unpackKeys, Py.all]

/-- Extra properties can not be loaded: unless the names of all of them have two characters, loading raises. -/
theorem C75_props_witness (version : Nat) (fields props : List (String × V)) (p : String × V) (hp : p ∈ props) (hl : p.1.toList.length ≠ 2) :
    setState version [] (getState version props fields) = .err .invalidArgument := by
  have hne : props.isEmpty = false := by
    cases props with
    | nil => simp at hp
    | cons _ _ => rfl
  have key : ∀ keys : List String, (∃ k ∈ keys, k.toList.length ≠ 2) → unpackKeys keys = .err .invalidArgument := by
    intro keys
    induction keys with
    | nil => simp
    | cons k keys ih =>
      rintro ⟨k', hk', hne⟩
      have hu : unpackKeys (k :: keys) = (match k.toList with
          | [a, b] => Res.ok (String.singleton a, String.singleton b)
          | _ => .err .invalidArgument) >>= fun y => unpackKeys keys >>= fun ys => Res.ok (y :: ys) := rfl
      rw [hu]
      by_cases hk : k.toList.length = 2
      · obtain ⟨a, b, hab⟩ := List.length_eq_two.1 hk
        rw [hab]
        have : k' ∈ keys := by
          rcases List.mem_cons.1 hk' with rfl | h
          · exact absurd hk hne
          · exact h
        simp [ih ⟨k', this, hne⟩]
      · rcases hab : k.toList with _ | ⟨a, _ | ⟨b, _ | ⟨c, r⟩⟩⟩
        · simp
        · simp
        · rw [hab] at hk
          simp at hk
        · simp
  have := key (props.map (·.1)) ⟨p.1, List.mem_map.2 ⟨p, hp, rfl⟩, hl⟩
  simp [setState, getState, hne, this]

end results

/-! ## Examples -/

/-- A lattice with one sublattice, loaded with both maps reversed. -/
def sampleLattice : FullLattice Rat Rat :=
  ⟨[fun _ => 1], Lattice.run [.addSublattice "A" (fun _ => 0) ⟨1, 1, fun _ _ => 0⟩, .addSublattice "B" (fun _ => 1) ⟨1, 1, fun _ _ => 0⟩,
    .addHoppingEnergy ⟨0, 0, 0⟩ "A" "B" ⟨1, 1, fun _ _ => 1⟩] Lattice.empty, fun _ => 0, 1⟩

example : (⟨List.reverse, List.reverse⟩ : Order Rat Rat).Fair ∧ sampleLattice.lattice.subs.length = 2 ∧
    sampleLattice.lattice.hops.length = 1 := by
  refine ⟨⟨List.reverse_perm, List.reverse_perm⟩, ?_, ?_⟩ <;> decide +kernel

/-- The hypotheses of C75_fields are met by results which were saved before versions were. -/
example := C75_fields 1 [("data", 1), ("other", 3)] ⟨none, [("data", 5), ("labels", 2)], none⟩ (Or.inl rfl) (by decide)

example : ([("data", 1), ("labels", 2)].map (·.1) : List String).Nodup ∧ (("x", 1) : String × Nat) ∈ [("x", 1)] ∧ "x".toList.length ≠ 2 := by
  decide

end Verif.Binding.Pickle
