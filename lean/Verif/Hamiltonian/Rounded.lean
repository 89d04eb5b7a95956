import Verif.Hamiltonian.Props3

/-!
# The Hamiltonian without the laws of arithmetic

Nothing is assumed about `+` and `*` here, so that they may be rounded operations.
-/

namespace Verif.Hamiltonian

open Verif.Sublat (Table It iters itersFrom tableNorbs)
open Verif.Sublat.Spec (firstRow)
open Verif.Hopping (COO HoppingBlocks Csr csrInsert overwrite)
open Verif.Lattice (Registry)

variable {C K P : Type}

/-- Specification: what is stored at row `i` and column `j`. -/
def stored (m : Csr K) (i j : Nat) : Option K := ((m.getD i []).find? fun e => e.1 == j).map (·.2)

/-- Specification: the value at row `i` and column `j`, zero if nothing is stored. -/
def value [Zero K] (m : Csr K) (i j : Nat) : K := (stored m i j).getD 0

/-- The values sent to `(i, j)`, in order. -/
def vals (calls : List (Call K)) (i j : Int) : List K := (calls.filter fun c => c.1 = i ∧ c.2.1 = j).map (·.2.2)

/-- Specification: values are added up from the left; the first one is stored as it is. -/
def accum [Add K] (o : Option K) (vs : List K) : Option K := vs.foldl (fun o v => some (match o with | none => v | some w => w + v)) o

theorem accum_append [Add K] (o : Option K) (a b : List K) : accum o (a ++ b) = accum (accum o a) b := by
  unfold accum
  rw [List.foldl_append]

theorem vals_append (a b : List (Call K)) (i j : Int) : vals (a ++ b) i j = vals a i j ++ vals b i j := by
  unfold vals
  rw [List.filter_append, List.map_append]

theorem vals_cons (c : Call K) (b : List (Call K)) (i j : Int) :
    vals (c :: b) i j = (if c.1 = i ∧ c.2.1 = j then [c.2.2] else []) ++ vals b i j := by
  unfold vals
  rw [List.filter_cons]
  by_cases h : c.1 = i ∧ c.2.1 = j
  · rw [if_pos (by simpa using h), if_pos h]; rfl
  · rw [if_neg (by simpa using h), if_neg h]; rfl

/-! ## Rows -/

section rows
variable [Add K]

/-- The value of a row in a column. -/
def look (r : List (Nat × K)) (j : Nat) : Option K := (r.find? fun e => e.1 == j).map (·.2)

theorem look_nil (j : Nat) : look ([] : List (Nat × K)) j = none := rfl

omit [Add K] in
theorem look_cons (e : Nat × K) (r : List (Nat × K)) (j : Nat) : look (e :: r) j = if e.1 = j then some e.2 else look r j := by
  unfold look
  rw [List.find?_cons]
  by_cases h : e.1 = j
  · have : (e.1 == j) = true := by simpa using h
    rw [this, if_pos h]; rfl
  · have : (e.1 == j) = false := by simpa using h
    rw [this, if_neg h]

omit [Add K] in
theorem look_none (r : List (Nat × K)) (j : Nat) (h : j ∉ r.map (·.1)) : look r j = none := by
  induction r with
  | nil => rfl
  | cons e r ih =>
    rw [List.map_cons, List.mem_cons, not_or] at h
    rw [look_cons, if_neg (fun x => h.1 x.symm), ih h.2]

theorem keys_rowAdd (c : Nat) (v : K) (r : List (Nat × K)) (x : Nat) :
    x ∈ (rowAdd c v r).map (·.1) ↔ x = c ∨ x ∈ r.map (·.1) := by
  induction r with
  | nil => simp [rowAdd]
  | cons e r ih =>
    obtain ⟨d, w⟩ := e
    unfold rowAdd
    split
    · simp
    · split
      · rename_i h; subst h; simp
      · rw [List.map_cons, List.mem_cons, ih, List.map_cons, List.mem_cons]; tauto

theorem sorted_rowAdd (c : Nat) (v : K) (r : List (Nat × K)) (h : (r.map (·.1)).Pairwise (· < ·)) :
    ((rowAdd c v r).map (·.1)).Pairwise (· < ·) := by
  induction r with
  | nil => simp [rowAdd]
  | cons e r ih =>
    obtain ⟨d, w⟩ := e
    rw [List.map_cons, List.pairwise_cons] at h
    unfold rowAdd
    split
    · rename_i hc
      rw [List.map_cons, List.map_cons, List.pairwise_cons, List.pairwise_cons]
      refine ⟨?_, h⟩
      intro x hx
      rcases List.mem_cons.1 hx with rfl | hx
      · exact hc
      · exact Nat.lt_trans hc (h.1 x hx)
    · split
      · rw [List.map_cons, List.pairwise_cons]; exact h
      · rw [List.map_cons, List.pairwise_cons]
        refine ⟨?_, ih h.2⟩
        intro x hx
        rcases (keys_rowAdd c v r x).1 hx with rfl | hx
        · simp only; omega
        · exact h.1 x hx

theorem look_rowAdd (c : Nat) (v : K) (r : List (Nat × K)) (h : (r.map (·.1)).Pairwise (· < ·)) (j : Nat) :
    look (rowAdd c v r) j = accum (look r j) (if c = j then [v] else []) := by
  induction r with
  | nil =>
    rw [rowAdd, look_cons, look_nil]
    by_cases hc : c = j
    · rw [if_pos hc, if_pos hc]; rfl
    · rw [if_neg hc, if_neg hc]; rfl
  | cons e r ih =>
    obtain ⟨d, w⟩ := e
    rw [List.map_cons, List.pairwise_cons] at h
    unfold rowAdd
    split
    · rename_i hc
      rw [look_cons]
      by_cases hj : c = j
      · have hn : look ((d, w) :: r) j = none := by
          apply look_none
          rw [List.map_cons, List.mem_cons, not_or]
          refine ⟨by omega, fun hx => ?_⟩
          have := h.1 j hx
          omega
        rw [if_pos hj, if_pos hj, hn]; rfl
      · rw [if_neg hj, if_neg hj]; rfl
    · split
      · rename_i hc
        subst hc
        rw [look_cons, look_cons]
        by_cases hj : c = j
        · simp only [hj, if_true]; rfl
        · simp only [hj, if_false]; rfl
      · rename_i h1 h2
        rw [look_cons, look_cons, ih h.2]
        simp only
        by_cases hd : d = j
        · rw [if_pos hd, if_pos hd, if_neg (by omega)]; rfl
        · rw [if_neg hd, if_neg hd]

/-! ## Matrices -/

theorem addAt_stored {n : Nat} {m m' : Csr K} (hm : Sorted n m) {i j : Int} {v : K} (h : addAt n m i j v = .ok m') :
    Sorted n m' ∧ ∀ a b : Nat, stored m' a b = accum (stored m a b) (if i = a ∧ j = b then [v] else []) := by
  unfold addAt at h
  split at h
  · cases h
  rename_i h0
  obtain ⟨i, rfl⟩ := Int.eq_ofNat_of_zero_le (a := i) (by omega)
  obtain ⟨j, rfl⟩ := Int.eq_ofNat_of_zero_le (a := j) (by omega)
  split at h
  · rename_i hj
    simp only [Int.toNat_natCast] at h hj
    by_cases hi : i < m.length
    · rw [List.getElem?_eq_getElem hi] at h
      simp only [Res.ok.injEq] at h
      subst h
      have hr := hm.2 _ (List.getElem_mem hi)
      refine ⟨⟨by simp [hm.1], ?_⟩, ?_⟩
      · intro r hr'
        rcases List.mem_or_eq_of_mem_set hr' with hr' | rfl
        · exact hm.2 r hr'
        · refine ⟨sorted_rowAdd _ _ _ hr.1, ?_⟩
          intro e he
          rcases (keys_rowAdd j v m[i] e.1).1 (List.mem_map.2 ⟨e, he, rfl⟩) with hk | hk
          · omega
          · obtain ⟨e', he', hx⟩ := List.mem_map.1 hk
            have := hr.2 e' he'
            omega
      · intro a b
        unfold stored
        rw [List.getD_eq_getElem?_getD, List.getD_eq_getElem?_getD, List.getElem?_set]
        by_cases ha : i = a
        · subst ha
          rw [if_pos rfl, if_pos hi, List.getElem?_eq_getElem hi]
          simp only [Option.getD_some, Nat.cast_inj, true_and]
          exact look_rowAdd j v m[i] hr.1 b
        · rw [if_neg ha, if_neg (by omega)]; rfl
    · rw [List.getElem?_eq_none (by omega)] at h
      cases h
  · cases h

theorem addAll_stored {n : Nat} {calls : List (Call K)} {m m' : Csr K} (hm : Sorted n m) (h : addAll n calls m = .ok m') :
    Sorted n m' ∧ ∀ a b : Nat, stored m' a b = accum (stored m a b) (vals calls a b) := by
  induction calls generalizing m with
  | nil => cases h; exact ⟨hm, fun _ _ => rfl⟩
  | cons c rest ih =>
    obtain ⟨i, j, v⟩ := c
    unfold addAll at h
    rcases hx : addAt n m i j v with x | _ | _
    · rw [hx] at h
      obtain ⟨s1, e1⟩ := addAt_stored hm hx
      obtain ⟨s2, e2⟩ := ih s1 h
      refine ⟨s2, fun a b => ?_⟩
      rw [e2, e1, vals_cons, accum_append]
    · rw [hx] at h; cases h
    · rw [hx] at h; cases h

theorem addAll_join {n : Nat} (a b : List (Call K)) (m : Csr K) : addAll n (a ++ b) m = (addAll n a m).bind fun m => addAll n b m := by
  induction a generalizing m with
  | nil => rfl
  | cons c rest ih =>
    obtain ⟨i, j, v⟩ := c
    simp only [List.cons_append, addAll]
    rcases addAt n m i j v with x | _ | _
    · simp only [Res.bind_ok]; exact ih x
    · rfl
    · rfl

end rows

theorem stored_zero (n a b : Nat) : stored (List.replicate n ([] : List (Nat × K))) a b = none := by
  unfold stored
  rw [List.getD_eq_getElem?_getD, List.getElem?_replicate]
  split <;> rfl

theorem withConjugate_append [Star K] (a b : List (Call K)) : withConjugate (a ++ b) = withConjugate a ++ withConjugate b := by
  unfold withConjugate
  rw [List.flatMap_append]

/-! ## What is added up -/

section build
variable [Zero C] [DecidableEq C] [Zero K] [Add K] [Mul K] [Star K] [DecidableEq K] [Sub P]
  (cast : C → K) (s : System C P) (mods : Modifiers K P) (maxBuffer : Nat) (phase : P → K)

omit [Mul K] in
theorem buildMain_calls (simple : Bool) (m : Csr K) (h : buildMain cast s mods maxBuffer simple = .ok m) :
    ∃ onsite hop, applyToOnsite cast s mods = .ok onsite ∧ applyToHoppings cast s mods maxBuffer none s.hoppings = .ok hop ∧
      addAll (Sublat.hamiltonianSize s.sublattices) (onsite ++ withConjugate hop)
        (List.replicate (Sublat.hamiltonianSize s.sublattices) []) = .ok m := by
  unfold buildMain at h
  simp only at h
  rcases ho : applyToOnsite cast s mods with o | _ | _
  · cases simple with
    | true =>
      simp only [if_true] at h
      rw [ho] at h
      simp only [Res.bind_ok] at h
      rcases hi : insertAll (Sublat.hamiltonianSize s.sublattices) o
        (List.replicate (Sublat.hamiltonianSize s.sublattices) []) with m1 | _ | _
      · rw [hi] at h
        simp only [Res.bind_ok] at h
        rcases hh : applyToHoppings cast s mods maxBuffer none s.hoppings with hp | _ | _
        · rw [hh] at h
          refine ⟨o, hp, rfl, rfl, ?_⟩
          rw [addAll_join, insertAll_addAll hi]
          exact insertAll_addAll h
        · rw [hh] at h; cases h
        · rw [hh] at h; cases h
      · rw [hi] at h; cases h
      · rw [hi] at h; cases h
    | false =>
      simp only [Bool.false_eq_true, if_false] at h
      rw [ho] at h
      simp only [Res.bind_ok] at h
      rcases hh : applyToHoppings cast s mods maxBuffer none s.hoppings with hp | _ | _
      · rw [hh] at h
        exact ⟨o, hp, rfl, rfl, h⟩
      · rw [hh] at h; cases h
      · rw [hh] at h; cases h
  · cases simple <;> simp only [if_true, Bool.false_eq_true, if_false, ho] at h <;> cases h
  · cases simple <;> simp only [if_true, Bool.false_eq_true, if_false, ho] at h <;> cases h

/-- Specification: the hoppings of the boundaries with their phases. -/
def PeriodicCalls (bs : List (Boundary P)) (per : List (Call K)) : Prop :=
  ∃ hops : List (List (Call K)), List.Forall₂ (fun b h => applyToHoppings cast s mods maxBuffer (some b.shift) b.hoppings = .ok h) bs hops ∧
    per = (bs.zip hops).flatMap fun p => p.2.map fun c => (c.1, c.2.1, c.2.2 * phase p.1.shift)

omit [Zero C] [DecidableEq C] in
theorem buildPeriodic_calls (bs : List (Boundary P)) (m m' : Csr K) (h : buildPeriodic cast s mods maxBuffer phase bs m = .ok m') :
    ∃ per, PeriodicCalls cast s mods maxBuffer phase bs per ∧
      addAll (Sublat.hamiltonianSize s.sublattices) (withConjugate per) m = .ok m' := by
  induction bs generalizing m with
  | nil => cases h; exact ⟨[], ⟨[], .nil, rfl⟩, rfl⟩
  | cons b bs ih =>
    unfold buildPeriodic at h
    rcases hh : applyToHoppings cast s mods maxBuffer (some b.shift) b.hoppings with hop | _ | _
    · rw [hh] at h
      simp only [Res.bind_ok] at h
      rcases ha : addAll (Sublat.hamiltonianSize s.sublattices) (withConjugate (hop.map fun c =>
        (c.1, c.2.1, c.2.2 * phase b.shift))) m with m1 | _ | _
      · rw [ha] at h
        simp only [Res.bind_ok] at h
        obtain ⟨per, ⟨hops, f, rfl⟩, e⟩ := ih m1 h
        refine ⟨_, ⟨hop :: hops, .cons hh f, rfl⟩, ?_⟩
        rw [List.zip_cons_cons, List.flatMap_cons, withConjugate_append, addAll_join, ha]
        exact e
      · rw [ha] at h; cases h
      · rw [ha] at h; cases h
    · rw [hh] at h; cases h
    · rw [hh] at h; cases h

/-- Every value of the Hamiltonian is the sum, from the left, of the onsite energy, the hoppings and their conjugates. -/
theorem make_stored (simple : Bool) (m : Csr K) (h : make cast s mods maxBuffer phase simple = .ok m) :
    ∃ onsite hop per, applyToOnsite cast s mods = .ok onsite ∧ applyToHoppings cast s mods maxBuffer none s.hoppings = .ok hop ∧
      PeriodicCalls cast s mods maxBuffer phase s.boundaries per ∧ Sorted (Sublat.hamiltonianSize s.sublattices) m ∧
      ∀ a b : Nat, stored m a b = accum none (vals (onsite ++ withConjugate (hop ++ per)) a b) := by
  unfold make at h
  rcases hb : buildMain cast s mods maxBuffer simple with m0 | _ | _
  · rw [hb] at h
    simp only [Res.bind_ok] at h
    obtain ⟨o, hop, ho, hh, ha⟩ := buildMain_calls cast s mods maxBuffer simple m0 hb
    obtain ⟨per, hp, e⟩ := buildPeriodic_calls cast s mods maxBuffer phase s.boundaries m0 m h
    have hall : addAll (Sublat.hamiltonianSize s.sublattices) (o ++ withConjugate (hop ++ per))
        (List.replicate (Sublat.hamiltonianSize s.sublattices) []) = .ok m := by
      rw [withConjugate_append, ← List.append_assoc, addAll_join, ha]
      exact e
    obtain ⟨s1, e1⟩ := addAll_stored (sorted_zero _) hall
    refine ⟨o, hop, per, ho, hh, hp, s1, fun a b => ?_⟩
    rw [e1, stored_zero]
  · rw [hb] at h; cases h
  · rw [hb] at h; cases h

end build

/-! ## Hermiticity -/

/-- The laws of conjugation that rounded arithmetic keeps.  They are implied by the exact laws and hold for rounded complex numbers. -/
structure ConjLaws (K : Type) [Zero K] [Add K] [Star K] : Prop where
  star_star : ∀ x : K, star (star x) = x
  star_zero : star (0 : K) = 0
  star_add : ∀ x y : K, star (x + y) = star x + star y
  pair : ∀ h : K, star (h + star h) = h + star h
  pair_add : ∀ x h : K, star x = x → star (x + h + star h) = x + h + star h

section herm
variable [Zero K] [Add K] [Star K]

theorem accum_star (L : ConjLaws K) (o : Option K) (vs : List K) : accum (o.map star) (vs.map star) = (accum o vs).map star := by
  induction vs generalizing o with
  | nil => rfl
  | cons v vs ih =>
    have := ih (some (match o with | none => v | some w => w + v))
    unfold accum at this ⊢
    rw [List.map_cons, List.foldl_cons, List.foldl_cons, ← this]
    congr 1
    cases o with
    | none => rfl
    | some w => simp only [Option.map_some, L.star_add]

omit [Zero K] [Add K] in
theorem vals_conjugate_ne (hss : ∀ x : K, star (star x) = x) (calls : List (Call K)) (a b : Int) (hab : a ≠ b) :
    vals (withConjugate calls) b a = (vals (withConjugate calls) a b).map star := by
  unfold withConjugate
  induction calls with
  | nil => rfl
  | cons c rest ih =>
    obtain ⟨i, j, v⟩ := c
    rw [List.flatMap_cons, vals_append, vals_append, ih, List.map_append]
    congr 1
    rw [vals_cons, vals_cons, vals_cons, vals_cons]
    simp only [vals, List.filter_nil, List.map_nil, List.append_nil]
    by_cases h1 : i = a ∧ j = b
    · rw [if_neg (by omega), if_pos h1.symm, if_pos h1, if_neg (by omega)]; rfl
    · by_cases h2 : i = b ∧ j = a
      · rw [if_pos h2, if_neg (by omega), if_neg h1, if_pos h2.symm]
        simp only [List.append_nil, List.nil_append, List.map_cons, List.map_nil, hss]
      · rw [if_neg h2, if_neg (by omega), if_neg h1, if_neg (by omega)]; rfl

theorem accum_conjugate_diag (L : ConjLaws K) (calls : List (Call K)) (a : Int) (o : Option K) (ho : o.map star = o) :
    (accum o (vals (withConjugate calls) a a)).map star = accum o (vals (withConjugate calls) a a) := by
  unfold withConjugate
  induction calls generalizing o with
  | nil => exact ho
  | cons c rest ih =>
    obtain ⟨i, j, v⟩ := c
    rw [List.flatMap_cons, vals_append, accum_append]
    apply ih
    rw [vals_cons, vals_cons]
    simp only [vals, List.filter_nil, List.map_nil, List.append_nil]
    by_cases h : i = a ∧ j = a
    · rw [if_pos h, if_pos h.symm]
      unfold accum
      cases o with
      | none =>
        simp only [List.cons_append, List.nil_append, List.foldl_cons, List.foldl_nil, Option.map_some, L.pair]
      | some x =>
        simp only [Option.map_some, Option.some.injEq] at ho
        simp only [List.cons_append, List.nil_append, List.foldl_cons, List.foldl_nil, Option.map_some, L.pair_add x v ho]
    · rw [if_neg h, if_neg (fun e => h e.symm)]
      exact ho

/-- Each call has its conjugate among the calls. -/
def ClosedCalls (calls : List (Call K)) : Prop := ∀ c ∈ calls, (c.2.1, c.1, star c.2.2) ∈ calls

omit [Zero K] [Add K] [Star K] in
theorem mem_vals {calls : List (Call K)} {a b : Int} {v : K} : v ∈ vals calls a b ↔ (a, b, v) ∈ calls := by
  unfold vals
  rw [List.mem_map]
  constructor
  · rintro ⟨⟨i, j, w⟩, hc, rfl⟩
    rw [List.mem_filter] at hc
    have := of_decide_eq_true hc.2
    simp only at this
    obtain ⟨rfl, rfl⟩ := this
    exact hc.1
  · intro h
    exact ⟨(a, b, v), List.mem_filter.2 ⟨h, by simp⟩, rfl⟩

omit [Zero K] [Add K] [Star K] in
theorem length_vals {calls : List (Call K)} (hn : (calls.map pos).Nodup) (a b : Int) : (vals calls a b).length ≤ 1 := by
  induction calls with
  | nil => simp [vals]
  | cons c rest ih =>
    rw [List.map_cons, List.nodup_cons] at hn
    rw [vals_cons]
    by_cases h : c.1 = a ∧ c.2.1 = b
    · rw [if_pos h]
      have : vals rest a b = [] := by
        rw [List.eq_nil_iff_forall_not_mem]
        intro v hv
        apply hn.1
        have := mem_vals.1 hv
        refine List.mem_map.2 ⟨_, this, ?_⟩
        exact Prod.ext h.1.symm h.2.symm
      rw [this]
      simp
    · rw [if_neg h]
      simpa using ih hn.2

omit [Zero K] [Add K] in
theorem vals_closed {calls : List (Call K)} (hn : (calls.map pos).Nodup) (hc : ClosedCalls calls) (a b : Int) :
    vals calls b a = (vals calls a b).map star := by
  have hl1 := length_vals hn a b
  have hl2 := length_vals hn b a
  rcases h1 : vals calls a b with _ | ⟨v, t⟩
  · rcases h2 : vals calls b a with _ | ⟨w, u⟩
    · rfl
    · have := hc _ (mem_vals.1 (h2 ▸ List.mem_cons_self : w ∈ vals calls b a))
      have := mem_vals.2 this
      simp only at this
      rw [h1] at this
      simp at this
  · have ht : t = [] := by
      rw [h1] at hl1
      exact List.eq_nil_of_length_eq_zero (by simpa using hl1)
    subst ht
    have := mem_vals.2 (hc _ (mem_vals.1 (h1 ▸ List.mem_cons_self : v ∈ vals calls a b)))
    simp only at this
    rcases h2 : vals calls b a with _ | ⟨w, u⟩
    · rw [h2] at this; simp at this
    · have hu : u = [] := by
        rw [h2] at hl2
        exact List.eq_nil_of_length_eq_zero (by simpa using hl2)
      subst hu
      rw [h2] at this
      simp only [List.mem_singleton] at this
      rw [← this]; rfl

end herm

/-! ## Onsite energies -/

section onsite
variable [Zero C] [Star C] [DecidableEq C] [Zero K] [Star K] [DecidableEq K]

omit [DecidableEq K] in
theorem zeros_hermitian (h0 : star (0 : K) = 0) (norb n : Nat) : HermArray norb n (List.replicate (n * norb * norb) (0 : K)) := by
  refine ⟨by simp [Nat.mul_assoc], ?_⟩
  intro i j k _ _ _
  rw [List.getD_eq_getElem?_getD, List.getD_eq_getElem?_getD, List.getElem?_replicate, List.getElem?_replicate]
  split <;> split <;> simp [h0]

omit [DecidableEq C] [DecidableEq K] in
theorem onsiteData_hermitian (h0 : star (0 : K) = 0) (cast : C → K) (hcast : ∀ z, cast (star z) = star (cast z)) (s : System C P)
    (mods : List (OnsiteModifier K P)) (hmods : ∀ f ∈ mods, KeepsHermitian f)
    (hreg : ∀ m ∈ s.siteRegistry.energies, HermMat m) (hsz : SizesOK s) (hi : Bool) (sub : It)
    (hsub : sub ∈ iters s.sublattices) (data : List K)
    (h : onsiteData cast s mods hi sub = .ok data) : HermArray sub.elem.numOrb sub.elem.numSites data := by
  unfold onsiteData at h
  rcases h1 : onsiteIntrinsic cast s.siteRegistry hi sub with d | _ | _
  · have hd : HermArray sub.elem.numOrb sub.elem.numSites d := by
      cases hi with
      | false =>
        simp only [onsiteIntrinsic, Bool.false_eq_true, if_false, Res.ok.injEq] at h1
        subst h1
        exact zeros_hermitian h0 _ _
      | true =>
        rcases hm : energyAt s.siteRegistry sub.elem.id with m | _ | _
        · have hr := hsz _ (iters_elem hsub) m hm
          have hh := hreg m (energyAt_mem hm)
          have hc : m.cols = sub.elem.numOrb := hh.1 ▸ hr
          rw [onsiteIntrinsic_eq cast _ sub m hm hr hc, Res.ok.injEq] at h1
          subst h1
          refine ⟨by rw [length_layout]; simp, ?_⟩
          intro i j k hi hj hk
          have key : ∀ i j, i < sub.elem.numOrb → j < sub.elem.numOrb →
              (layout sub.elem.numOrb sub.elem.numOrb (List.replicate sub.elem.numSites
                fun i j => cast (entry m i j))).getD
                ((i * sub.elem.numOrb + j) * sub.elem.numSites + k) 0 = cast (entry m i j) := by
            intro i j hi hj
            have := getD_layout sub.elem.numOrb sub.elem.numOrb (List.replicate sub.elem.numSites
                fun i j => cast (entry m i j)) i j k hi hj (by simpa using hk)
            rw [List.length_replicate] at this
            rw [this, List.getD_eq_getElem?_getD, List.getElem?_replicate, if_pos hk]
            rfl
          rw [key i j hi hj, key j i hj hi, hh.2 i j (hr ▸ hi) (hr ▸ hj), hcast]
        · simp only [onsiteIntrinsic, if_true, hm] at h1; cases h1
        · simp only [onsiteIntrinsic, if_true, hm] at h1; cases h1
    rw [h1] at h
    simp only [Res.bind_ok] at h
    split at h
    · cases h; exact hd
    · rcases hp : segment s.positions sub.sysStart sub.elem.numSites with p | _ | _
      · rw [hp] at h
        simp only [Res.bind_ok] at h
        rcases hn : nameAt s.siteRegistry sub.elem.id with nm | _ | _
        · rw [hn] at h
          exact runOnsite_herm _ _ p nm mods hmods d data hd h
        · rw [hn] at h; cases h
        · rw [hn] at h; cases h
      · rw [hp] at h; cases h
      · rw [hp] at h; cases h
  · rw [h1] at h; cases h
  · rw [h1] at h; cases h

omit [Star K] in
/-- Which calls are made for a sublattice. -/
theorem mem_emit_onsite (sub : It) (data : List K) (hl : data.length = sub.elem.numSites * (sub.elem.numOrb * sub.elem.numOrb)) (c : Call K) :
    c ∈ emit (onsiteIndices sub) data ↔ ∃ i j k, i < sub.elem.numOrb ∧ j < sub.elem.numOrb ∧ k < sub.elem.numSites ∧
      c.1 = ((i + (sub.hamStart + k * sub.elem.numOrb) : Nat) : Int) ∧ c.2.1 = ((j + (sub.hamStart + k * sub.elem.numOrb) : Nat) : Int) ∧
      c.2.2 = data.getD ((i * sub.elem.numOrb + j) * sub.elem.numSites + k) 0 ∧ c.2.2 ≠ 0 := by
  obtain ⟨es, he1, he2, he3⟩ := exists_layout sub.elem.numOrb sub.elem.numOrb sub.elem.numSites data hl
  have e := emit_onsite_perm sub es he1
  rw [← he2] at e
  rw [e.mem_iff, List.mem_flatMap]
  have hes : ∀ k e, (k, e) ∈ (List.range sub.elem.numSites).zip es ↔ k < sub.elem.numSites ∧ es[k]? = some e := by
    intro k e
    rw [List.mem_iff_getElem?]
    constructor
    · rintro ⟨x, hx⟩
      rw [List.getElem?_zip_eq_some] at hx
      obtain ⟨hx1, hx2⟩ := hx
      obtain ⟨hxl, hxk⟩ := List.getElem?_eq_some_iff.1 hx1
      simp only [List.getElem_range] at hxk
      subst hxk
      exact ⟨by simpa using hxl, hx2⟩
    · rintro ⟨h1, h2⟩
      exact ⟨k, List.getElem?_zip_eq_some.2 ⟨List.getElem?_range h1, h2⟩⟩
  have hval : ∀ k e, k < sub.elem.numSites → es[k]? = some e → ∀ i j,
      e i j = data.getD ((i * sub.elem.numOrb + j) * sub.elem.numSites + k) 0 := by
    intro k e hk h i j
    rw [← he3 k hk i j, List.getD_eq_getElem?_getD, h]
    rfl
  constructor
  · rintro ⟨⟨k, e⟩, hke, hc⟩
    obtain ⟨hk, he⟩ := (hes k e).1 hke
    unfold elemCalls at hc
    obtain ⟨i, hi, hc⟩ := List.mem_flatMap.1 hc
    obtain ⟨j, hj, hc⟩ := List.mem_flatMap.1 hc
    split at hc
    · simp at hc
    · rename_i hz
      simp only [List.mem_singleton] at hc
      subst hc
      exact ⟨i, j, k, List.mem_range.1 hi, List.mem_range.1 hj, hk, rfl, rfl, hval k e hk he i j, hz⟩
  · rintro ⟨i, j, k, hi, hj, hk, h1, h2, h3, h4⟩
    have hk' : k < es.length := he1 ▸ hk
    refine ⟨(k, es[k]), (hes k _).2 ⟨hk, List.getElem?_eq_getElem hk'⟩, ?_⟩
    unfold elemCalls
    refine List.mem_flatMap.2 ⟨i, List.mem_range.2 hi, List.mem_flatMap.2 ⟨j, List.mem_range.2 hj, ?_⟩⟩
    have hv := hval k _ hk (List.getElem?_eq_getElem hk') i j
    have hx : es[k] i j = c.2.2 := by rw [hv, h3]
    rw [if_neg (show ¬ es[k] i j = 0 by rw [hx]; exact h4)]
    simp only [List.mem_singleton]
    exact Prod.ext h1 (Prod.ext h2 hx.symm)

theorem onsite_closed (hss : ∀ x : K, star (star x) = x) (h0 : star (0 : K) = 0) (cast : C → K) (hcast : ∀ z, cast (star z) = star (cast z))
    (s : System C P) (mods : Modifiers K P) (hmods : ∀ f ∈ mods.onsite, KeepsHermitian f)
    (hreg : ∀ m ∈ s.siteRegistry.energies, HermMat m) (hsz : SizesOK s) (calls : List (Call K))
    (h : applyToOnsite cast s mods = .ok calls) : ClosedCalls calls := by
  unfold applyToOnsite at h
  simp only at h
  split at h
  · cases h; intro c hc; simp at hc
  · generalize hasNonzeroEnergy s.siteRegistry = hi at h
    have key : ∀ subs : List It, (∀ x ∈ subs, x ∈ iters s.sublattices) → ∀ calls,
        onsiteLoop cast s mods.onsite hi subs = .ok calls → ClosedCalls calls := by
      intro subs
      induction subs with
      | nil => intro _ calls h; cases h; intro c hc; simp at hc
      | cons sub rest ih =>
        intro hs calls h
        unfold onsiteLoop at h
        rcases hd : onsiteData cast s mods.onsite hi sub with d | _ | _
        · rw [hd] at h
          simp only [Res.bind_ok] at h
          rcases hr : onsiteLoop cast s mods.onsite hi rest with cs | _ | _
          · rw [hr] at h
            simp only [Res.bind_ok, Res.pure_eq, Res.ok.injEq] at h
            subst h
            have hh := onsiteData_hermitian h0 cast hcast s mods.onsite hmods hreg hsz hi sub (hs _ List.mem_cons_self) d hd
            intro c hc
            rcases List.mem_append.1 hc with hc | hc
            · refine List.mem_append_left _ ?_
              obtain ⟨i, j, k, hi, hj, hk, h1, h2, h3, h4⟩ := (mem_emit_onsite sub d hh.1 c).1 hc
              refine (mem_emit_onsite sub d hh.1 _).2 ⟨j, i, k, hj, hi, hk, h2, h1, ?_, ?_⟩
              · simp only
                rw [h3, hh.2 i j k hi hj hk, hss]
              · simp only
                intro e
                apply h4
                rw [← hss c.2.2, e, h0]
            · exact List.mem_append_right _ (ih (fun x hx => hs x (List.mem_cons_of_mem _ hx)) cs hr c hc)
          · rw [hr] at h; cases h
          · rw [hr] at h; cases h
        · rw [hd] at h; cases h
        · rw [hd] at h; cases h
    exact key _ (fun x hx => hx) calls h

omit [Star C] [Star K] in
theorem onsite_nodup (cast : C → K) (s : System C P) (mods : Modifiers K P) (onsite : List (Call K))
    (ho : applyToOnsite cast s mods = .ok onsite) : (onsite.map pos).Nodup := by
  have hp := applyToOnsite_places cast s mods onsite ho
  have hdn : (diagPairs (tableNorbs s.sublattices).length).Nodup := by
    unfold diagPairs
    refine List.Nodup.map_on ?_ List.nodup_range
    intro x _ y _ e
    exact (COO.mk.injEq .. ▸ e).1
  obtain ⟨l, hl, hs⟩ := hp
  exact hl.nodup_iff.1 ((boxes_nodup (tableNorbs s.sublattices) _ hdn).sublist hs)

end onsite

/-- The Hamiltonian is Hermitian element by element, in any arithmetic that conjugates like complex numbers. -/
theorem make_hermitian [Zero C] [Star C] [DecidableEq C] [Zero K] [Add K] [Mul K] [Star K] [DecidableEq K] [Sub P] (L : ConjLaws K)
    (cast : C → K) (hcast : ∀ z, cast (star z) = star (cast z)) (s : System C P) (mods : Modifiers K P) (maxBuffer : Nat) (phase : P → K)
    (simple : Bool) (hmods : ∀ f ∈ mods.onsite, KeepsHermitian f) (hreg : ∀ m ∈ s.siteRegistry.energies, HermMat m)
    (hsz : SizesOK s) (m : Csr K) (h : make cast s mods maxBuffer phase simple = .ok m) (a b : Nat) :
    stored m b a = (stored m a b).map star := by
  obtain ⟨onsite, hop, per, ho, -, -, -, e⟩ := make_stored cast s mods maxBuffer phase simple m h
  have hv := vals_closed (onsite_nodup cast s mods onsite ho) (onsite_closed L.star_star L.star_zero cast hcast s mods hmods hreg hsz onsite ho)
  rw [e, e, vals_append, vals_append]
  by_cases hab : a = b
  · subst hab
    rw [accum_append, accum_conjugate_diag L]
    rw [← accum_star L, ← hv]
    rfl
  · rw [vals_conjugate_ne L.star_star _ (a : Int) (b : Int) (by exact_mod_cast hab), hv (a : Int) (b : Int), ← List.map_append]
    exact accum_star L none _

end Verif.Hamiltonian
