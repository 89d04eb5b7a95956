import Verif.Solver.Probability
import Verif.Solver.PropsDos
import Verif.Sublat.Props
import Mathlib.Tactic.Linarith
import Mathlib.Tactic.NormNum
import Mathlib.Data.List.GetD
import Mathlib.Algebra.BigOperators.Intervals

/-!
# C84: probabilities and local densities of states do not depend on the choice of degenerate states, and belong to the right sites
-/

namespace Verif.Solver.Probability

/-! ## Groups of degenerate states -/

section
variable {F : Type}

theorem flatnonzero_mem (p : F → Bool) (l : List F) (i k : Nat) : k ∈ flatnonzero p l i ↔ i ≤ k ∧ ∃ x, l[k - i]? = some x ∧ p x = true := by
  induction l generalizing i with
  | nil => simp [flatnonzero]
  | cons x l ih =>
    unfold flatnonzero
    have key : (k ∈ flatnonzero p l (i + 1)) ↔ i < k ∧ ∃ y, (x :: l)[k - i]? = some y ∧ p y = true := by
      rw [ih (i + 1)]
      constructor
      · rintro ⟨h1, y, h2, h3⟩
        refine ⟨h1, y, ?_, h3⟩
        rw [show k - i = (k - (i + 1)) + 1 by omega, List.getElem?_cons_succ]
        exact h2
      · rintro ⟨h1, y, h2, h3⟩
        rw [show k - i = (k - (i + 1)) + 1 by omega, List.getElem?_cons_succ] at h2
        exact ⟨h1, y, h2, h3⟩
    by_cases hx : p x = true
    · rw [if_pos hx, List.mem_cons, key]
      constructor
      · rintro (rfl | ⟨h1, h2⟩)
        · exact ⟨le_refl _, x, by simp, hx⟩
        · exact ⟨h1.le, h2⟩
      · rintro ⟨h1, h2⟩
        rcases Nat.eq_or_lt_of_le h1 with h | h
        · exact .inl h.symm
        · exact .inr ⟨h, h2⟩
    · rw [if_neg hx, key]
      constructor
      · rintro ⟨h1, h2⟩
        exact ⟨h1.le, h2⟩
      · rintro ⟨h1, y, h2, h3⟩
        rcases Nat.eq_or_lt_of_le h1 with h | h
        · subst h
          simp only [Nat.sub_self, List.getElem?_cons_zero, Option.some.injEq] at h2
          rw [h2] at hx
          exact absurd h3 hx
        · exact ⟨h, y, h2, h3⟩

theorem flatnonzero_succ (p : F → Bool) (l : List F) (i : Nat) : flatnonzero p l (i + 1) = (flatnonzero p l i).map (· + 1) := by
  induction l generalizing i with
  | nil => rfl
  | cons x l ih =>
    unfold flatnonzero
    rw [ih (i + 1)]
    split <;> simp

theorem flatnonzero_sorted (p : F → Bool) (l : List F) (i : Nat) : (flatnonzero p l i).Pairwise (· < ·) := by
  induction l generalizing i with
  | nil => exact List.Pairwise.nil
  | cons x l ih =>
    unfold flatnonzero
    split
    · refine List.Pairwise.cons ?_ (ih (i + 1))
      intro k hk
      exact ((flatnonzero_mem p l (i + 1) k).1 hk).1
    · exact ih (i + 1)

theorem diff_get [Sub F] (l : List F) (k : Nat) : (diff l)[k]? = match l[k]?, l[k + 1]? with | some x, some y => some (y - x) | _, _ => none := by
  induction l generalizing k with
  | nil => simp [diff]
  | cons x l ih =>
    rcases l with _ | ⟨y, l⟩
    · rcases k with _ | k <;> simp [diff]
    · unfold diff
      rcases k with _ | k
      · rfl
      · rw [List.getElem?_cons_succ, ih k]
        simp

theorem split_succ (x : F) (l : List F) (s : Nat) (cs : List Nat) : split (x :: l) (s + 1) (cs.map (· + 1)) = split l s cs := by
  induction cs generalizing s with
  | nil => simp [split]
  | cons c cs ih => simp [split, ih c]

end

theorem cuts_cons (x y : Nat) (l : List Nat) : cuts (x :: y :: l) = (if y = x + 1 then [] else [1]) ++ (cuts (y :: l)).map (· + 1) := by
  unfold cuts
  simp only [List.map_cons, diff]
  rw [flatnonzero, Nat.zero_add]
  have h : flatnonzero (fun d : Int => d != 1) (diff ((y : Int) :: l.map fun (i : Nat) => (i : Int))) 1 =
      (flatnonzero (fun d : Int => d != 1) (diff ((y : Int) :: l.map fun (i : Nat) => (i : Int))) 0).map (· + 1) := flatnonzero_succ _ _ 0
  rw [h]
  by_cases hy : y = x + 1
  · have : ((y : Int) - x != 1) = false := by
      subst hy
      simp
    rw [this]
    simp [hy]
  · have : ((y : Int) - x != 1) = true := by
      simp only [bne_iff_ne, ne_eq]
      omega
    rw [this]
    simp [hy]

/-- Runs of consecutive numbers, with gaps between them. -/
structure Runs (idx : List Nat) (gs : List (List Nat)) : Prop where
  flat : gs.flatten = idx
  run : ∀ g ∈ gs, ∃ i len, g = List.range' i (len + 1)
  gap : gs.Pairwise fun g g' => ∀ a ∈ g, ∀ b ∈ g', a + 1 < b

theorem split_runs (idx : List Nat) (hne : idx ≠ []) (hs : idx.Pairwise (· < ·)) : Runs idx (split idx 0 (cuts idx)) := by
  induction idx with
  | nil => exact absurd rfl hne
  | cons x l ih =>
    rcases l with _ | ⟨y, l⟩
    · refine ⟨by simp [cuts, diff, flatnonzero, split], ?_, ?_⟩
      · intro g hg
        simp only [cuts, diff, flatnonzero, split, List.map_nil, List.map_cons, List.drop_zero, List.mem_singleton] at hg
        exact ⟨x, 0, by simp [hg]⟩
      · simp [cuts, diff, flatnonzero, split]
    · have ih' := ih (by simp) (List.pairwise_cons.1 hs).2
      have hxy : x < y := (List.pairwise_cons.1 hs).1 y List.mem_cons_self
      rw [cuts_cons]
      by_cases hy : y = x + 1
      · rw [if_pos hy, List.nil_append]
        obtain ⟨g, gs, e1, e2⟩ : ∃ g gs, split (y :: l) 0 (cuts (y :: l)) = g :: gs ∧ split (x :: y :: l) 0 ((cuts (y :: l)).map (· + 1)) = (x :: g) :: gs := by
          rcases cuts (y :: l) with _ | ⟨c, cs⟩
          · exact ⟨y :: l, [], rfl, rfl⟩
          · refine ⟨(y :: l).take c, split (y :: l) c cs, by simp [split], ?_⟩
            simp only [List.map_cons, split, List.drop_zero, List.take_succ_cons]
            rw [split_succ]
        rw [e1] at ih'
        rw [e2]
        obtain ⟨i, len, hg⟩ := ih'.run g List.mem_cons_self
        have hfl := ih'.flat
        have hi : i = y := by
          rw [List.flatten_cons, hg, List.range'_succ, List.cons_append, List.cons.injEq] at hfl
          exact hfl.1
        refine ⟨by rw [List.flatten_cons, List.cons_append, ← List.flatten_cons, hfl], ?_, ?_⟩
        · intro g' hg'
          rcases List.mem_cons.1 hg' with rfl | hg'
          · refine ⟨x, len + 1, ?_⟩
            rw [List.range'_succ (s := x), hg, hi, hy]
          · exact ih'.run g' (List.mem_cons_of_mem _ hg')
        · have hp := List.pairwise_cons.1 ih'.gap
          refine List.Pairwise.cons ?_ hp.2
          intro g' hg' a ha b hb
          rcases List.mem_cons.1 ha with rfl | ha
          · have := hp.1 g' hg' y (by rw [hg, hi]; simp) b hb
            omega
          · exact hp.1 g' hg' a ha b hb
      · rw [if_neg hy]
        have e : split (x :: y :: l) 0 ([1] ++ (cuts (y :: l)).map (· + 1)) = [x] :: split (y :: l) 0 (cuts (y :: l)) := by
          simp only [List.cons_append, List.nil_append, split, List.drop_zero, List.take_succ_cons, List.take_zero]
          rw [show (1 : Nat) = 0 + 1 by rfl, split_succ]
        rw [e]
        refine ⟨by rw [List.flatten_cons, ih'.flat]; rfl, ?_, List.Pairwise.cons ?_ ih'.gap⟩
        · intro g hg
          rcases List.mem_cons.1 hg with rfl | hg
          · exact ⟨x, 0, rfl⟩
          · exact ih'.run g hg
        · intro g hg a ha b hb
          rw [List.mem_singleton.1 ha]
          have hb' : b ∈ y :: l := by
            rw [← ih'.flat]
            exact List.mem_flatten.2 ⟨g, hg, hb⟩
          rcases List.mem_cons.1 hb' with rfl | hb''
          · omega
          · have := (List.pairwise_cons.1 (List.pairwise_cons.1 hs).2).1 b hb''
            omega

section
variable {F : Type} [Field F] [LinearOrder F]

/-- Two neighboring energies differ by less than the tolerance. -/
def Close (e : List F) (tol : F) (m : Nat) : Prop := ∃ x y, e[m]? = some x ∧ e[m + 1]? = some y ∧ |y - x| < tol

/-- **C84** (degenerate states).  `find_degenerate_states` returns disjoint ranges of at least two neighboring states, in ascending order; two states are in the same one if and only
if all neighbors between them differ by less than the tolerance. -/
theorem C84_groups (e : List F) (tol : F) :
    (∀ g ∈ findDegenerate e tol, ∃ i len, g = List.range' i (len + 2) ∧ i + len + 1 < e.length) ∧
    (findDegenerate e tol).Pairwise (fun g g' => ∀ a ∈ g, ∀ b ∈ g', a < b) ∧
    ∀ k l, k < l → ((∃ g ∈ findDegenerate e tol, k ∈ g ∧ l ∈ g) ↔ ∀ m, k ≤ m → m < l → Close e tol m) := by
  have hmem : ∀ m, m ∈ flatnonzero (fun d => decide (|d| < tol)) (diff e) 0 ↔ Close e tol m := by
    intro m
    rw [flatnonzero_mem, diff_get, Nat.sub_zero]
    unfold Close
    constructor
    · rintro ⟨-, x, h1, h2⟩
      rcases h3 : e[m]? with _ | a
      · rw [h3] at h1
        cases h1
      · rcases h4 : e[m + 1]? with _ | b
        · rw [h3, h4] at h1
          cases h1
        · rw [h3, h4] at h1
          cases h1
          exact ⟨a, b, rfl, rfl, by simpa using h2⟩
    · rintro ⟨x, y, h1, h2, h3⟩
      refine ⟨Nat.zero_le _, y - x, ?_, by simpa using h3⟩
      rw [h1, h2]
  have hsort := flatnonzero_sorted (fun d : F => decide (|d| < tol)) (diff e) 0
  unfold findDegenerate
  simp only
  generalize flatnonzero (fun d => decide (|d| < tol)) (diff e) 0 = idx at hmem hsort
  by_cases h0 : idx.length = 0
  · have h0' := List.eq_nil_of_length_eq_zero h0
    subst h0'
    rw [if_pos h0]
    refine ⟨by simp, by simp, ?_⟩
    intro k l hkl
    constructor
    · rintro ⟨g, hg, -⟩
      cases hg
    · intro h
      exact absurd ((hmem k).2 (h k (le_refl k) hkl)) (by simp)
  · rw [if_neg h0]
    obtain ⟨r1, r2, r3⟩ := split_runs idx (by intro h; rw [h] at h0; exact h0 rfl) hsort
    generalize split idx 0 (cuts idx) = gs at r1 r2 r3
    have hrun : ∀ g ∈ gs, ∃ i len, g = List.range' i (len + 1) ∧ g ++ [g.getLastD 0 + 1] = List.range' i (len + 2) := by
      intro g hg
      obtain ⟨i, len, hgi⟩ := r2 g hg
      refine ⟨i, len, hgi, ?_⟩
      subst hgi
      have : (List.range' i (len + 1)).getLastD 0 = i + len := by
        rw [List.range'_concat, List.getLastD_concat]
        omega
      rw [this, List.range'_concat (n := len + 1)]
      simp [Nat.add_assoc]
    have p1 : ∀ g ∈ gs.map (fun g => g ++ [g.getLastD 0 + 1]), ∃ i len, g = List.range' i (len + 2) ∧ i + len + 1 < e.length := by
      intro g' hg'
      obtain ⟨g, hg, rfl⟩ := List.mem_map.1 hg'
      obtain ⟨i, len, h1, h2⟩ := hrun g hg
      refine ⟨i, len, h2, ?_⟩
      have : i + len ∈ idx := by
        rw [← r1]
        refine List.mem_flatten.2 ⟨g, hg, ?_⟩
        rw [h1, List.mem_range'_1]
        omega
      obtain ⟨x, y, -, hy, -⟩ := (hmem _).1 this
      exact (List.getElem?_eq_some_iff.1 hy).1
    have p2 : (gs.map (fun g => g ++ [g.getLastD 0 + 1])).Pairwise (fun g g' => ∀ a ∈ g, ∀ b ∈ g', a < b) := by
      rw [List.pairwise_map]
      refine List.Pairwise.imp_of_mem ?_ r3
      intro g g' hg hg' hgap a ha b hb
      obtain ⟨i, len, h1, h2⟩ := hrun g hg
      obtain ⟨i', len', h1', h2'⟩ := hrun g' hg'
      rw [h2, List.mem_range'_1] at ha
      rw [h2', List.mem_range'_1] at hb
      have := hgap (i + len) (by rw [h1, List.mem_range'_1]; omega) i' (by rw [h1', List.mem_range'_1]; omega)
      omega
    have pair : ∀ m, (∃ g ∈ gs.map (fun g => g ++ [g.getLastD 0 + 1]), m ∈ g ∧ m + 1 ∈ g) ↔ Close e tol m := by
      intro m
      rw [← hmem m, ← r1, List.mem_flatten]
      constructor
      · rintro ⟨g', hg', h1, h2⟩
        obtain ⟨g, hg, rfl⟩ := List.mem_map.1 hg'
        obtain ⟨i, len, e1, e2⟩ := hrun g hg
        rw [e2, List.mem_range'_1] at h1 h2
        exact ⟨g, hg, by rw [e1, List.mem_range'_1]; omega⟩
      · rintro ⟨g, hg, h1⟩
        obtain ⟨i, len, e1, e2⟩ := hrun g hg
        rw [e1, List.mem_range'_1] at h1
        exact ⟨_, List.mem_map.2 ⟨g, hg, rfl⟩, by rw [e2, List.mem_range'_1]; omega, by rw [e2, List.mem_range'_1]; omega⟩
    refine ⟨p1, p2, ?_⟩
    intro k l hkl
    constructor
    · rintro ⟨g, hg, hk, hl⟩ m hm1 hm2
      obtain ⟨i, len, e1, -⟩ := p1 g hg
      rw [e1, List.mem_range'_1] at hk hl
      refine (pair m).1 ⟨g, hg, ?_, ?_⟩ <;> rw [e1, List.mem_range'_1] <;> omega
    · intro h
      obtain ⟨d, rfl⟩ := Nat.exists_eq_add_of_lt hkl
      clear hkl
      induction d with
      | zero =>
        obtain ⟨g, hg, h1, h2⟩ := (pair k).2 (h k (le_refl k) (by omega))
        exact ⟨g, hg, h1, h2⟩
      | succ d ih =>
        obtain ⟨g, hg, h1, h2⟩ := ih fun m hm1 hm2 => h m hm1 (by omega)
        obtain ⟨g', hg', h1', h2'⟩ := (pair (k + d + 1)).2 (h _ (by omega) (by omega))
        by_cases hgg : g = g'
        · subst hgg
          exact ⟨g, hg, h1, h2'⟩
        · exfalso
          have := List.Pairwise.forall_of_forall_of_flip (R := fun g g' => g ≠ g' → ∀ a ∈ g, a ∉ g') (l := gs.map (fun g => g ++ [g.getLastD 0 + 1]))
            (fun g _ h => absurd rfl h) (p2.imp fun hlt _ a ha ha' => absurd (hlt a ha a ha') (lt_irrefl _))
            (p2.imp fun hlt _ a ha ha' => absurd (hlt a ha' a ha) (lt_irrefl _))
          exact this hg hg' hgg _ h2 h1'

omit [LinearOrder F] in
theorem average_get (prob : List F) (g : List Nat) (k : Nat) (p : F) (hk : prob[k]? = some p) :
    (average prob g)[k]? = some (if k ∈ g then (g.map fun i => prob.getD i 0).sum / g.length else p) := by
  unfold average
  simp only [List.getElem?_map, List.getElem?_zipIdx, hk, Option.map_some, Nat.zero_add]

omit [LinearOrder F] in
theorem average_length (prob : List F) (g : List Nat) : (average prob g).length = prob.length := by
  simp [average]

omit [LinearOrder F] in
theorem average_fold (groups : List (List Nat)) (hdis : groups.Pairwise fun g g' => ∀ a ∈ g, a ∉ g') (prob : List F)
    (hin : ∀ g ∈ groups, ∀ a ∈ g, a < prob.length) :
    (groups.foldl average prob).length = prob.length ∧ ∀ k p, prob[k]? = some p →
      (∀ g ∈ groups, k ∈ g → (groups.foldl average prob)[k]? = some ((g.map fun i => prob.getD i 0).sum / g.length)) ∧
      ((∀ g ∈ groups, k ∉ g) → (groups.foldl average prob)[k]? = some p) := by
  induction groups generalizing prob with
  | nil => exact ⟨rfl, fun k p hk => ⟨by simp, fun _ => hk⟩⟩
  | cons g groups ih =>
    have hd := List.pairwise_cons.1 hdis
    obtain ⟨i1, i2⟩ := ih hd.2 (average prob g) fun g' hg' a ha => by rw [average_length]; exact hin g' (List.mem_cons_of_mem _ hg') a ha
    rw [List.foldl_cons]
    refine ⟨by rw [i1, average_length], ?_⟩
    intro k p hk
    have hav := average_get prob g k p hk
    obtain ⟨j1, j2⟩ := i2 k _ hav
    constructor
    · intro g' hg' hkg'
      rcases List.mem_cons.1 hg' with rfl | hg'
      · rw [j2 fun g'' hg'' => hd.1 g'' hg'' k hkg', if_pos hkg']
      · rw [j1 g' hg' hkg']
        congr 2
        refine congrArg List.sum (List.map_congr_left ?_)
        intro a ha
        have hal := hin g' (List.mem_cons_of_mem _ hg') a ha
        have h1 : prob[a]? = some prob[a] := List.getElem?_eq_getElem hal
        rw [List.getD_eq_getElem?_getD, List.getD_eq_getElem?_getD, average_get prob g a _ h1, if_neg fun hag => hd.1 g' hg' a hag ha, h1]
    · intro h
      rw [j2 fun g' hg' => h g' (List.mem_cons_of_mem _ hg'), if_neg (h g List.mem_cons_self)]

end

/-! ## Orbitals -/

section
variable {F : Type} [AddCommMonoid F]

/-- Sums over the sites: as many values as each site has orbitals, one site after the other. -/
def siteSums : List Nat → List F → List F
  | [], _ => []
  | n :: ns, l => (l.take n).sum :: siteSums ns (l.drop n)

theorem chunkSums_eq (norb count : Nat) (l : List F) : chunkSums norb count l = siteSums (List.replicate count norb) l := by
  induction count generalizing l with
  | zero => rfl
  | succ count ih => rw [chunkSums, List.replicate_succ, siteSums, ih]

theorem siteSums_append (a b : List Nat) (l : List F) : siteSums (a ++ b) l = siteSums a (l.take a.sum) ++ siteSums b (l.drop a.sum) := by
  induction a generalizing l with
  | nil => simp [siteSums]
  | cons n a ih =>
    rw [List.cons_append, siteSums, siteSums, ih, List.cons_append, List.sum_cons, List.take_take, List.drop_drop, List.drop_take,
      show min n (n + a.sum) = n by omega, show n + a.sum - n = a.sum by omega]

theorem reduceLoop_eq (data : List F) (start : Nat) (table : Sublat.Table) : reduceLoop data start table = siteSums (Sublat.tableNorbs table) (data.drop start) := by
  induction table generalizing start with
  | nil => rfl
  | cons e rest ih =>
    rw [reduceLoop, ih, Sublat.tableNorbs_cons, siteSums_append, chunkSums_eq, List.drop_drop, List.sum_replicate, smul_eq_mul]

theorem siteSums_length (ns : List Nat) (l : List F) : (siteSums ns l).length = ns.length := by
  induction ns generalizing l with
  | nil => rfl
  | cons n ns ih => simp [siteSums, ih]

theorem siteSums_get (ns : List Nat) (l : List F) (i n : Nat) (h : ns[i]? = some n) : (siteSums ns l)[i]? = some ((l.drop (ns.take i).sum).take n).sum := by
  induction ns generalizing l i with
  | nil => simp at h
  | cons m ns ih =>
    rw [siteSums]
    rcases i with _ | i
    · simp only [List.getElem?_cons_zero, Option.some.injEq] at h ⊢
      subst h
      simp
    · simp only [List.getElem?_cons_succ] at h ⊢
      rw [ih _ i h, List.drop_drop, List.take_succ_cons, List.sum_cons]

theorem slice_map (l : List F) (s n : Nat) (h : s + n ≤ l.length) : (l.drop s).take n = (List.range' s n).map fun r => l.getD r 0 := by
  apply List.ext_getElem
  · simp
    omega
  · intro k h1 h2
    simp only [List.getElem_take, List.getElem_drop, List.getElem_map, List.getElem_range', Nat.one_mul]
    rw [List.getD_eq_getElem]

theorem all_one (ns : List Nat) (hpos : ∀ n ∈ ns, 0 < n) (hs : ns.sum = ns.length) : ∀ n ∈ ns, n = 1 := by
  induction ns with
  | nil => simp
  | cons n ns ih =>
    have h0 := hpos n List.mem_cons_self
    have hge : ns.length ≤ ns.sum := by
      clear ih hs
      induction ns with
      | nil => simp
      | cons m ns ih =>
        have := hpos m (by simp)
        have := ih fun k hk => hpos k (by rcases List.mem_cons.1 hk with rfl | hk <;> simp_all)
        simp only [List.length_cons, List.sum_cons]
        omega
    simp only [List.sum_cons, List.length_cons] at hs
    intro m hm
    rcases List.mem_cons.1 hm with rfl | hm
    · omega
    · exact ih (fun k hk => hpos k (List.mem_cons_of_mem _ hk)) (by omega) m hm

/-- **C84** (orbitals).  `reduce_orbitals` has one value for each site: the sum of the values at the rows of this site in the Hamiltonian. -/
theorem C84_reduce (table : Sublat.Table) (hpos : ∀ n ∈ Sublat.tableNorbs table, 0 < n) (data : List F) (hd : data.length = Sublat.hamiltonianSize table) :
    ∃ out, reduceOrbitals table data = .ok out ∧ out.length = Sublat.decompressedSize table ∧
      ∀ i, i < Sublat.decompressedSize table → ∃ rows, Sublat.toHamiltonianIndices table i = .ok rows ∧ (∀ r ∈ rows, r < data.length) ∧
        out[i]? = some (rows.map fun r => data.getD r 0).sum := by
  have key : ∀ i, i < Sublat.decompressedSize table → ∃ rows, Sublat.toHamiltonianIndices table i = .ok rows ∧ (∀ r ∈ rows, r < data.length) ∧
      (siteSums (Sublat.tableNorbs table) data)[i]? = some (rows.map fun r => data.getD r 0).sum := by
    intro i hi
    rw [← Sublat.length_tableNorbs] at hi
    obtain ⟨sub, h1, h2, h3⟩ := Sublat.find_site table 0 0 i (Nat.zero_le _) (by omega)
    rw [Nat.sub_zero] at h2 h3
    rw [Nat.zero_add] at h3
    have hle : ((Sublat.tableNorbs table).take i).sum + sub.elem.numOrb ≤ data.length := by
      rw [hd, Sublat.hamiltonianSize_eq]
      have hsplit := congrArg List.sum (List.take_append_drop i (Sublat.tableNorbs table))
      rw [List.sum_append] at hsplit
      have hh := List.getElem?_eq_some_iff.1 h2
      rw [List.drop_eq_getElem_cons hh.1, List.sum_cons, hh.2] at hsplit
      omega
    refine ⟨List.range' ((Sublat.tableNorbs table).take i).sum sub.elem.numOrb, ?_, ?_, ?_⟩
    · unfold Sublat.toHamiltonianIndices Sublat.iters
      rw [h1]
      simp only
      rw [h3, Sublat.range_map_add]
    · intro r hr
      rw [List.mem_range'_1] at hr
      omega
    · rw [siteSums_get _ _ i _ h2, slice_map _ _ _ hle]
  unfold reduceOrbitals
  by_cases h1 : data.length = Sublat.decompressedSize table
  · rw [if_pos h1]
    refine ⟨data, rfl, h1, ?_⟩
    intro i hi
    obtain ⟨rows, k1, k2, k3⟩ := key i hi
    refine ⟨rows, k1, k2, ?_⟩
    rw [← k3]
    have hone : ∀ n ∈ Sublat.tableNorbs table, n = 1 := all_one _ hpos (by rw [← Sublat.hamiltonianSize_eq, Sublat.length_tableNorbs, ← hd, h1])
    have hrep : Sublat.tableNorbs table = List.replicate data.length 1 := by
      rw [List.eq_replicate_iff]
      exact ⟨by rw [Sublat.length_tableNorbs, h1], hone⟩
    rw [hrep]
    congr 1
    clear k3 k2 k1 key hone hrep h1 hd hi
    induction data with
    | nil => rfl
    | cons x data ih =>
      rw [List.length_cons, List.replicate_succ, siteSums]
      simp [← ih]
  · rw [if_neg h1, if_neg (by simpa using hd), reduceLoop_eq, List.drop_zero]
    exact ⟨_, rfl, by rw [siteSums_length, Sublat.length_tableNorbs], key⟩

end

/-! ## Independence of the states -/

section
variable {𝕜 : Type} [RCLike 𝕜] {n : Nat}

open Finset

theorem weight_range (vals : List ℝ) (vecs : List (Fin n → 𝕜)) (hl : vals.length = vecs.length) (f : ℝ → ℝ) (s : Fin n) :
    (List.zipWith (fun (v : Fin n → 𝕜) e => ‖v s‖ ^ 2 * f e) vecs vals).sum =
      ∑ k ∈ range vals.length, (vecs.map fun v => ‖v s‖ ^ 2).getD k 0 * f (vals.getD k 0) := by
  induction vecs generalizing vals with
  | nil =>
    have : vals = [] := List.eq_nil_of_length_eq_zero hl
    subst this
    simp
  | cons v vecs ih =>
    rcases vals with _ | ⟨e, vals⟩
    · simp at hl
    · rw [List.zipWith_cons_cons, List.sum_cons, ih vals (by simpa using hl), List.length_cons, sum_range_succ']
      simp [add_comm]

/-- A block of sorted energies, separated from those before and after it. -/
structure Block (vals : List ℝ) (i j : Nat) : Prop where
  le : i ≤ j
  lt : j < vals.length
  left : ∀ m x y, m + 1 = i → vals[m]? = some x → vals[i]? = some y → x < y
  right : ∀ x y, vals[j]? = some x → vals[j + 1]? = some y → x < y

theorem sorted_get (vals : List ℝ) (hs : vals.Pairwise (· ≤ ·)) (a b : Nat) (hab : a ≤ b) (hb : b < vals.length) : vals.getD a 0 ≤ vals.getD b 0 := by
  rw [List.getD_eq_getElem _ _ (by omega), List.getD_eq_getElem _ _ hb]
  rcases Nat.eq_or_lt_of_le hab with rfl | h
  · exact le_refl _
  · exact List.pairwise_iff_getElem.1 hs a b (by omega) hb h

theorem block_iff (vals : List ℝ) (hs : vals.Pairwise (· ≤ ·)) (i j : Nat) (hb : Block vals i j) (k : Nat) (hk : k < vals.length) :
    (vals.getD i 0 ≤ vals.getD k 0 ∧ vals.getD k 0 ≤ vals.getD j 0) ↔ i ≤ k ∧ k ≤ j := by
  obtain ⟨hle, hlt, hleft, hright⟩ := hb
  constructor
  · rintro ⟨h1, h2⟩
    constructor
    · by_contra hc
      obtain ⟨m, hm⟩ : ∃ m, m + 1 = i := ⟨i - 1, by omega⟩
      have a1 := hleft m (vals.getD m 0) (vals.getD i 0) hm (by rw [List.getD_eq_getElem _ _ (by omega)]; exact List.getElem?_eq_getElem _)
        (by rw [List.getD_eq_getElem _ _ (by omega)]; exact List.getElem?_eq_getElem _)
      have a2 := sorted_get vals hs k m (by omega) (by omega)
      linarith
    · by_contra hc
      have a1 := hright (vals.getD j 0) (vals.getD (j + 1) 0) (by rw [List.getD_eq_getElem _ _ (by omega)]; exact List.getElem?_eq_getElem _)
        (by rw [List.getD_eq_getElem _ _ (by omega)]; exact List.getElem?_eq_getElem _)
      have a2 := sorted_get vals hs (j + 1) k (by omega) hk
      linarith
  · rintro ⟨h1, h2⟩
    exact ⟨sorted_get vals hs i k h1 hk, sorted_get vals hs k j h2 hlt⟩

theorem sum_range' (f : Nat → ℝ) (i m : Nat) : ((List.range' i m).map f).sum = ∑ k ∈ range m, f (i + k) := by
  induction m with
  | zero => rfl
  | succ m ih => rw [List.range'_concat, List.map_append, List.sum_append, ih, sum_range_succ]; simp

theorem block_sum (vals : List ℝ) (hs : vals.Pairwise (· ≤ ·)) (vecs : List (Fin n → 𝕜)) (hl : vals.length = vecs.length) (i len : Nat) (hb : Block vals i (i + len)) (s : Fin n) :
    ((List.range' i (len + 1)).map fun k => (vecs.map fun v => ‖v s‖ ^ 2).getD k 0).sum =
      (List.zipWith (fun (v : Fin n → 𝕜) e => ‖v s‖ ^ 2 * (if vals.getD i 0 ≤ e ∧ e ≤ vals.getD (i + len) 0 then 1 else 0)) vecs vals).sum := by
  rw [weight_range vals vecs hl (fun e => if vals.getD i 0 ≤ e ∧ e ≤ vals.getD (i + len) 0 then 1 else 0) s]
  have h1 : ∀ k ∈ range vals.length, (vecs.map fun v => ‖v s‖ ^ 2).getD k 0 * (if vals.getD i 0 ≤ vals.getD k 0 ∧ vals.getD k 0 ≤ vals.getD (i + len) 0 then (1 : ℝ) else 0) =
      if k ∈ Finset.Ico i (i + len + 1) then (vecs.map fun v => ‖v s‖ ^ 2).getD k 0 else 0 := by
    intro k hk
    have := block_iff vals hs i (i + len) hb k (mem_range.1 hk)
    by_cases hc : i ≤ k ∧ k ≤ i + len
    · rw [if_pos (this.2 hc), if_pos (by rw [Finset.mem_Ico]; omega), mul_one]
    · rw [if_neg fun h => hc (this.1 h), if_neg (by rw [Finset.mem_Ico]; omega), mul_zero]
  rw [sum_congr rfl h1, ← sum_filter]
  have h2 : (range vals.length).filter (fun k => k ∈ Finset.Ico i (i + len + 1)) = Finset.Ico i (i + len + 1) := by
    have := hb.lt
    ext k
    rw [mem_filter, mem_range, Finset.mem_Ico]
    omega
  rw [h2, Finset.sum_Ico_eq_sum_range, show i + len + 1 - i = len + 1 by omega]
  exact sum_range' _ i (len + 1)

theorem disjoint_groups (vals : List ℝ) (tol : ℝ) : (findDegenerate vals tol).Pairwise (fun g g' => ∀ a ∈ g, a ∉ g') ∧
    ∀ g ∈ findDegenerate vals tol, ∀ g' ∈ findDegenerate vals tol, ∀ a, a ∈ g → a ∈ g' → g = g' := by
  obtain ⟨-, h2, -⟩ := C84_groups vals tol
  refine ⟨h2.imp fun hlt a ha ha' => absurd (hlt a ha a ha') (lt_irrefl _), ?_⟩
  intro g hg g' hg' a ha ha'
  by_contra hne
  have := List.Pairwise.forall_of_forall_of_flip (R := fun g g' => g ≠ g' → ∀ a ∈ g, a ∉ g') (l := findDegenerate vals tol)
    (fun g _ h => absurd rfl h) (h2.imp fun hlt _ a ha ha' => absurd (hlt a ha a ha') (lt_irrefl _))
    (h2.imp fun hlt _ a ha ha' => absurd (hlt a ha' a ha) (lt_irrefl _))
  exact this hg hg' hne a ha ha'

theorem block_of_not_close (vals : List ℝ) (hs : vals.Pairwise (· ≤ ·)) (tol : ℝ) (htol : 0 < tol) (i j : Nat) (hij : i ≤ j) (hj : j < vals.length)
    (hl : ∀ m, m + 1 = i → ¬ Close vals tol m) (hr : ¬ Close vals tol j) : Block vals i j := by
  have key : ∀ m x y, vals[m]? = some x → vals[m + 1]? = some y → ¬ Close vals tol m → x < y := by
    intro m x y hx hy hc
    have h1 := (List.getElem?_eq_some_iff.1 hx)
    have h2 := (List.getElem?_eq_some_iff.1 hy)
    have hle : x ≤ y := by
      rw [← h1.2, ← h2.2]
      exact List.pairwise_iff_getElem.1 hs m (m + 1) h1.1 h2.1 (by omega)
    rcases lt_or_eq_of_le hle with h | h
    · exact h
    · exact absurd ⟨x, y, hx, hy, by rw [h, sub_self, abs_zero]; exact htol⟩ hc
  refine ⟨hij, hj, ?_, ?_⟩
  · intro m x y hm hx hy
    subst hm
    exact key m x y hx hy (hl m rfl)
  · intro x y hx hy
    exact key j x y hx hy hr

/-- The numbers of states with each energy do not depend on the choice of the states, nor do the sorted eigenvalues. -/
theorem vals_unique {H : Matrix (Fin n) (Fin n) 𝕜} (hH : H.IsHermitian) {W : Set ℝ} {vals vals' : List ℝ} {vecs vecs' : List (Fin n → 𝕜)}
    (h : Solves H W vals vecs) (h' : Solves H W vals' vecs') (hs : vals.Pairwise (· ≤ ·)) (hs' : vals'.Pairwise (· ≤ ·)) : vals = vals' := by
  have cnt : ∀ {vals : List ℝ} {vecs : List (Fin n → 𝕜)}, Solves H W vals vecs → ∀ e : ℝ,
      ∑ i, (List.zipWith (fun (v : Fin n → 𝕜) x => ‖v i‖ ^ 2 * (if x = e then 1 else 0)) vecs vals).sum = (vals.count e : ℝ) := by
    intro vals vecs h e
    have hn : ∀ v ∈ vecs, ∑ i, ‖v i‖ ^ 2 = 1 := by
      intro v hv
      obtain ⟨k, hk, rfl⟩ := List.getElem_of_mem hv
      have := h.ortho k k hk hk
      rw [if_pos rfl, dotProduct] at this
      apply RCLike.ofReal_injective (K := 𝕜)
      push_cast
      rw [← this]
      refine sum_congr rfl fun i _ => ?_
      rw [Pi.star_apply, ← RCLike.mul_conj, mul_comm]
      rfl
    have hl := h.len
    clear h
    induction vecs generalizing vals with
    | nil =>
      have : vals = [] := List.eq_nil_of_length_eq_zero hl
      subst this
      simp
    | cons v vecs ih =>
      rcases vals with _ | ⟨x, vals⟩
      · simp at hl
      · simp only [List.zipWith_cons_cons, List.sum_cons]
        rw [sum_add_distrib, ih (fun v hv => hn v (List.mem_cons_of_mem _ hv)) (by simpa using hl), ← sum_mul, hn v List.mem_cons_self, List.count_cons]
        by_cases hx : x = e
        · simp [hx, add_comm]
        · simp [hx]
  have hperm : vals.Perm vals' := by
    rw [List.perm_iff_count]
    intro e
    have h1 := cnt h e
    have h2 := cnt h' e
    have : ∀ i, (List.zipWith (fun (v : Fin n → 𝕜) x => ‖v i‖ ^ 2 * (if x = e then 1 else 0)) vecs vals).sum =
        (List.zipWith (fun (v : Fin n → 𝕜) x => ‖v i‖ ^ 2 * (if x = e then 1 else 0)) vecs' vals').sum := fun i => h.weight hH h' (fun x => if x = e then 1 else 0) i
    rw [sum_congr rfl fun i _ => this i, h2] at h1
    exact_mod_cast h1.symm
  exact hperm.eq_of_pairwise (fun a b _ _ h1 h2 => le_antisymm h1 h2) hs hs'

/-- **C84** (eigenvalues with probabilities).  The probability of a state in a group of degenerate states is the mean of the group, and of another state its own probability. -/
theorem C84_mean (vals : List ℝ) (vecs : List (Fin n → 𝕜)) (hl : vals.length = vecs.length) (tol : ℝ) (s : Fin n) :
    ∃ out, eigenvaluesProbability vals vecs tol s = .ok out ∧ out.length = vals.length ∧ ∀ k, k < vals.length →
      (∀ g ∈ findDegenerate vals tol, k ∈ g → out[k]? = some ((g.map fun i => (vecs.map fun v => ‖v s‖ ^ 2).getD i 0).sum / g.length)) ∧
      ((∀ g ∈ findDegenerate vals tol, k ∉ g) → out[k]? = some ((vecs.map fun v => ‖v s‖ ^ 2).getD k 0)) := by
  obtain ⟨g1, -, -⟩ := C84_groups vals tol
  obtain ⟨f1, f2⟩ := average_fold (findDegenerate vals tol) (disjoint_groups vals tol).1 (vecs.map fun v => ‖v s‖ ^ 2) (by
    intro g hg a ha
    obtain ⟨i, len, e1, e2⟩ := g1 g hg
    rw [e1, List.mem_range'_1] at ha
    rw [List.length_map, ← hl]
    omega)
  refine ⟨_, by unfold eigenvaluesProbability; rw [dif_pos s.2], by rw [f1, List.length_map, hl], ?_⟩
  intro k hk
  refine f2 k _ ?_
  rw [List.getD_eq_getElem _ _ (by rw [List.length_map]; omega)]
  exact List.getElem?_eq_getElem _

/-- **C84** (independence).  `calc_eigenvalues(map_probability_at)` does not depend on which states the solver has chosen for degenerate energies. -/
theorem C84_eigenvalues {H : Matrix (Fin n) (Fin n) 𝕜} (hH : H.IsHermitian) {W : Set ℝ} {vals vals' : List ℝ} {vecs vecs' : List (Fin n → 𝕜)}
    (h : Solves H W vals vecs) (h' : Solves H W vals' vecs') (hs : vals.Pairwise (· ≤ ·)) (hs' : vals'.Pairwise (· ≤ ·)) (tol : ℝ) (htol : 0 < tol) (s : Nat) :
    vals = vals' ∧ eigenvaluesProbability vals vecs tol s = eigenvaluesProbability vals' vecs' tol s := by
  have hv := vals_unique hH h h' hs hs'
  subst hv
  refine ⟨rfl, ?_⟩
  by_cases hsn : s < n
  swap
  · unfold eigenvaluesProbability
    rw [dif_neg hsn, dif_neg hsn]
  obtain ⟨out, o1, o2, o3⟩ := C84_mean vals vecs h.len tol ⟨s, hsn⟩
  obtain ⟨out', o1', o2', o3'⟩ := C84_mean vals vecs' h'.len tol ⟨s, hsn⟩
  have hsum : ∀ i len, Block vals i (i + len) → ((List.range' i (len + 1)).map fun k => (vecs.map fun v => ‖v ⟨s, hsn⟩‖ ^ 2).getD k 0).sum =
      ((List.range' i (len + 1)).map fun k => (vecs'.map fun v => ‖v ⟨s, hsn⟩‖ ^ 2).getD k 0).sum := by
    intro i len hb
    rw [block_sum vals hs vecs h.len i len hb, block_sum vals hs vecs' h'.len i len hb]
    exact h.weight hH h' (fun e => if vals.getD i 0 ≤ e ∧ e ≤ vals.getD (i + len) 0 then 1 else 0) ⟨s, hsn⟩
  obtain ⟨g1, -, g3⟩ := C84_groups vals tol
  have hsame := (disjoint_groups vals tol).2
  simp only at o1 o1'
  rw [o1, o1']
  congr 1
  apply List.ext_getElem?
  intro k
  rcases Nat.lt_or_ge k vals.length with hk | hk
  swap
  · rw [List.getElem?_eq_none (by omega), List.getElem?_eq_none (by omega)]
  by_cases hg : ∃ g ∈ findDegenerate vals tol, k ∈ g
  · obtain ⟨g, hg, hkg⟩ := hg
    rw [(o3 k hk).1 g hg hkg, (o3' k hk).1 g hg hkg]
    obtain ⟨i, len, e1, e2⟩ := g1 g hg
    have hb : Block vals i (i + (len + 1)) := by
      refine block_of_not_close vals hs tol htol i (i + (len + 1)) (by omega) (by omega) ?_ ?_
      · intro m hm hc
        obtain ⟨g', hg', h1, h2⟩ := (g3 m (m + 1) (by omega)).2 fun q hq1 hq2 => by
          have : q = m := by omega
          rw [this]
          exact hc
        have : g' = g := hsame g' hg' g hg (m + 1) h2 (by rw [e1, List.mem_range'_1]; omega)
        rw [this, e1, List.mem_range'_1] at h1
        omega
      · intro hc
        obtain ⟨g', hg', h1, h2⟩ := (g3 (i + (len + 1)) (i + (len + 1) + 1) (by omega)).2 fun q hq1 hq2 => by
          have : q = i + (len + 1) := by omega
          rw [this]
          exact hc
        have : g' = g := hsame g' hg' g hg (i + (len + 1)) h1 (by rw [e1, List.mem_range'_1]; omega)
        rw [this, e1, List.mem_range'_1] at h2
        omega
    rw [e1, hsum i (len + 1) hb]
  · push Not at hg
    rw [(o3 k hk).2 hg, (o3' k hk).2 hg]
    have hb : Block vals k (k + 0) := by
      refine block_of_not_close vals hs tol htol k k (le_refl k) hk ?_ ?_
      · intro m hm hc
        obtain ⟨g', hg', h1, h2⟩ := (g3 m (m + 1) (by omega)).2 fun q hq1 hq2 => by
          have : q = m := by omega
          rw [this]
          exact hc
        rw [hm] at h2
        exact hg g' hg' h2
      · intro hc
        obtain ⟨g', hg', h1, h2⟩ := (g3 k (k + 1) (by omega)).2 fun q hq1 hq2 => by
          have : q = k := by omega
          rw [this]
          exact hc
        exact hg g' hg' h1
    have := hsum k 0 hb
    simpa using this

/-- **C84** (probabilities).  `calc_probability(n)` is the sum over all states whose energy differs from that of state `n` by less than `reduce`, and does not depend on the choice of the
states. -/
theorem C84_probability {H : Matrix (Fin n) (Fin n) 𝕜} (hH : H.IsHermitian) {W : Set ℝ} {vals vals' : List ℝ} {vecs vecs' : List (Fin n → 𝕜)}
    (h : Solves H W vals vecs) (h' : Solves H W vals' vecs') (table : Sublat.Table) (k k' : Nat) (e : ℝ) (hk : vals[k]? = some e) (hk' : vals'[k']? = some e)
    (reduce : ℝ) (hr : 0 < reduce) :
    calcProbability table vals vecs k reduce = calcProbability table vals' vecs' k' reduce ∧
    calcProbability table vals vecs k reduce = reduceOrbitals table (List.ofFn fun i : Fin n =>
      (List.zipWith (fun (v : Fin n → 𝕜) x => if |e - x| < reduce then ‖v i‖ ^ 2 else 0) vecs vals).sum) := by
  have key : ∀ (p : ℝ → Bool) (vals : List ℝ) (vecs : List (Fin n → 𝕜)), vals.length = vecs.length → ∀ i : Fin n,
      (((flatnonzero p vals 0).filterMap fun m => vecs[m]?).map fun v => ‖v i‖ ^ 2).sum =
        (List.zipWith (fun (v : Fin n → 𝕜) x => ‖v i‖ ^ 2 * (if p x = true then 1 else 0)) vecs vals).sum := by
    intro p vals
    induction vals with
    | nil => intro vecs _ i; simp [flatnonzero]
    | cons x vals ih =>
      intro vecs hl i
      rcases vecs with _ | ⟨v, vecs⟩
      · simp at hl
      · have hf : (flatnonzero p vals (0 + 1)).filterMap (fun m => (v :: vecs)[m]?) = (flatnonzero p vals 0).filterMap fun m => vecs[m]? := by
          rw [flatnonzero_succ, List.filterMap_map]
          rfl
        unfold flatnonzero
        rw [List.zipWith_cons_cons, List.sum_cons, ← ih vecs (by simpa using hl) i]
        by_cases hp : p x = true
        · rw [if_pos hp, if_pos hp, List.filterMap_cons_some (b := v) (by simp), List.map_cons, List.sum_cons, hf, mul_one]
        · rw [if_neg hp, if_neg hp, hf, mul_zero, zero_add]
  have rewr : ∀ {vals : List ℝ} {vecs : List (Fin n → 𝕜)} {k : Nat}, Solves H W vals vecs → vals[k]? = some e → calcProbability table vals vecs k reduce =
      reduceOrbitals table (List.ofFn fun i : Fin n => (List.zipWith (fun (v : Fin n → 𝕜) x => ‖v i‖ ^ 2 * (if |e - x| < reduce then 1 else 0)) vecs vals).sum) := by
    intro vals vecs k h hk
    unfold calcProbability
    rw [hk]
    simp only
    rw [if_pos hr.ne']
    congr 2
    funext i
    rw [key _ _ _ h.len i]
    simp only [decide_eq_true_eq]
  constructor
  · rw [rewr h hk, rewr h' hk']
    congr 2
    funext i
    exact h.weight hH h' (fun x => if |e - x| < reduce then 1 else 0) i
  · rw [rewr h hk]
    congr 2
    funext i
    congr 2
    funext v x
    split <;> simp

theorem siteSums_sum (ns : List Nat) (l : List ℝ) (hl : l.length = ns.sum) : (siteSums ns l).sum = l.sum := by
  induction ns generalizing l with
  | nil =>
    have : l = [] := List.eq_nil_of_length_eq_zero hl
    subst this
    rfl
  | cons m ns ih =>
    rw [siteSums, List.sum_cons, ih _ (by rw [List.length_drop, hl, List.sum_cons]; omega), ← List.sum_append, List.take_append_drop]

/-- **C84** (one state).  With `reduce=0` the result of `calc_probability(n)` is the probability of state `n` alone. -/
theorem C84_single (table : Sublat.Table) (vals : List ℝ) (vecs : List (Fin n → 𝕜)) (k : Nat) (e : ℝ) (v : Fin n → 𝕜) (hk : vals[k]? = some e) (hv : vecs[k]? = some v) :
    calcProbability table vals vecs k 0 = reduceOrbitals table (List.ofFn fun i : Fin n => ‖v i‖ ^ 2) := by
  unfold calcProbability
  rw [hk]
  simp [hv]

/-- **C84** (sum over the sites).  The sum of the values at all sites is not changed when orbitals are reduced. -/
theorem C84_total (table : Sublat.Table) (data out : List ℝ) (hd : data.length = Sublat.hamiltonianSize table) (h : reduceOrbitals table data = .ok out) :
    out.sum = data.sum := by
  unfold reduceOrbitals at h
  split at h
  · rw [Res.ok.injEq] at h
    rw [h]
  · rw [if_neg (by simpa using hd), Res.ok.injEq, reduceLoop_eq, List.drop_zero] at h
    rw [← h, siteSums_sum _ _ (by rw [hd, Sublat.hamiltonianSize_eq])]

/-- **C84** (local densities of states).  `calc_ldos` at a site and `calc_spatial_ldos` at this site are the same number, also for sites with several orbitals. -/
theorem C84_ldos (table : Sublat.Table) (hpos : ∀ m ∈ Sublat.tableNorbs table, 0 < m) (hn : n = Sublat.hamiltonianSize table) (vals : List ℝ) (vecs : List (Fin n → 𝕜))
    (E b : ℝ) (i : Nat) (hi : i < Sublat.decompressedSize table) :
    ∃ out x, calcSpatialLdos table vals vecs E b = .ok out ∧ out.length = Sublat.decompressedSize table ∧ calcLdos table vals vecs E b i = .ok x ∧ out[i]? = some x := by
  obtain ⟨out, o1, o2, o3⟩ := C84_reduce table hpos (List.ofFn (ldosRow vals vecs E b)) (by rw [List.length_ofFn, hn])
  obtain ⟨rows, r1, r2, r3⟩ := o3 i hi
  refine ⟨out, _, o1, o2, ?_, r3⟩
  unfold calcLdos
  rw [r1, Res.bind_ok, if_pos]
  · congr 1
    refine congrArg List.sum (List.map_congr_left ?_)
    intro r hr
    have hrn := r2 r hr
    rw [List.length_ofFn] at hrn
    rw [dif_pos hrn, List.getD_eq_getElem _ _ (by rw [List.length_ofFn]; exact hrn), List.getElem_ofFn]
  · rw [List.all_eq_true]
    intro r hr
    have hrn := r2 r hr
    rw [List.length_ofFn] at hrn
    exact decide_eq_true hrn

/-- **C84** (local densities of states, value).  `calc_ldos` at a site is the sum over the rows of this site in the Hamiltonian and over all states of the probability of the state in this
row times a normal distribution with the broadening as its standard deviation, centered on the energy of the state. -/
theorem C84_ldos_value (table : Sublat.Table) (hpos : ∀ m ∈ Sublat.tableNorbs table, 0 < m) (hn : n = Sublat.hamiltonianSize table) (vals : List ℝ) (vecs : List (Fin n → 𝕜))
    (E : ℝ) {b : ℝ} (hb : 0 < b) (i : Nat) (hi : i < Sublat.decompressedSize table) :
    ∃ rows : List (Fin n), Sublat.toHamiltonianIndices table i = .ok (rows.map Fin.val) ∧
      calcLdos table vals vecs E b i = .ok (rows.map fun r => (List.zipWith (fun (v : Fin n → 𝕜) e => ‖v r‖ ^ 2 * normal b e E) vecs vals).sum).sum := by
  obtain ⟨out, o1, o2, o3⟩ := C84_reduce table hpos (List.ofFn (ldosRow vals vecs E b)) (by rw [List.length_ofFn, hn])
  obtain ⟨rows, r1, r2, r3⟩ := o3 i hi
  simp only [List.length_ofFn] at r2
  have hrow : ∀ r, ldosRow vals vecs E b r = (List.zipWith (fun (v : Fin n → 𝕜) e => ‖v r‖ ^ 2 * normal b e E) vecs vals).sum := by
    intro r
    unfold ldosRow
    clear o1 o3 r3
    induction vecs generalizing vals with
    | nil => simp
    | cons v vecs ih =>
      rcases vals with _ | ⟨e, vals⟩
      · simp
      · simp only [List.zipWith_cons_cons, List.sum_cons, mul_add]
        rw [ih vals, ← scaled_gaussian hb]
        ring
  obtain ⟨rs, rfl⟩ : ∃ rs : List (Fin n), rs.map Fin.val = rows := ⟨rows.pmap Fin.mk r2, by simp [List.map_pmap]⟩
  refine ⟨rs, r1, ?_⟩
  unfold calcLdos
  rw [r1, Res.bind_ok, if_pos (by rw [List.all_eq_true]; intro r hr; exact decide_eq_true (r2 r hr)), List.map_map]
  congr 3
  funext r
  simp only [Function.comp]
  rw [dif_pos r.2, hrow]

end

/-! ## Where they are wrong -/

/-- **C84** (rows, exactly).  `calc_eigenvalues(map_probability_at)` reads the row with the number of the site; it is the row of this site, and its only one, if and only if this and all
sites before it have one orbital. -/
theorem C84_row_exact (table : Sublat.Table) (hpos : ∀ m ∈ Sublat.tableNorbs table, 0 < m) (i : Nat) (hi : i < Sublat.decompressedSize table) :
    Sublat.toHamiltonianIndices table i = .ok [i] ↔ ∀ j ≤ i, (Sublat.tableNorbs table)[j]? = some 1 := by
  rw [← Sublat.length_tableNorbs] at hi
  obtain ⟨sub, h1, h2, h3⟩ := Sublat.find_site table 0 0 i (Nat.zero_le _) (by omega)
  rw [Nat.sub_zero] at h2 h3
  rw [Nat.zero_add] at h3
  have hrows : Sublat.toHamiltonianIndices table i = .ok (List.range' ((Sublat.tableNorbs table).take i).sum sub.elem.numOrb) := by
    unfold Sublat.toHamiltonianIndices Sublat.iters
    rw [h1]
    simp only
    rw [h3, Sublat.range_map_add]
  rw [hrows, Res.ok.injEq]
  generalize Sublat.tableNorbs table = ns at hpos hi h2 h3
  constructor
  · intro h
    have hm : sub.elem.numOrb = 1 := by
      have := congrArg List.length h
      simpa using this
    rw [hm] at h h2
    have hs : (ns.take i).sum = i := by simpa using h
    have hone := all_one (ns.take i) (fun m hm => hpos m (List.mem_of_mem_take hm)) (by rw [hs, List.length_take]; omega)
    intro j hj
    rcases Nat.eq_or_lt_of_le hj with rfl | hj
    · exact h2
    · have : ns[j]? = some (ns[j]'(by omega)) := List.getElem?_eq_getElem _
      rw [this]
      congr 1
      refine hone _ ?_
      rw [List.mem_take_iff_getElem]
      exact ⟨j, by omega, rfl⟩
  · intro h
    rw [h i (le_refl i), Option.some.injEq] at h2
    have : ns.take i = List.replicate i 1 := by
      rw [List.eq_replicate_iff]
      refine ⟨by rw [List.length_take]; omega, ?_⟩
      intro m hm
      obtain ⟨j, hj, rfl⟩ := List.mem_take_iff_getElem.1 hm
      have := h j (by omega)
      exact (List.getElem?_eq_some_iff.1 this).2
    rw [this, ← h2]
    simp

/-- **C84** (rows): with two sites of two orbitals, the probability at the second site is read from the second orbital of the first one. -/
theorem C84_row_witness : Sublat.toHamiltonianIndices [⟨0, 2, 2⟩] 0 = .ok [0, 1] ∧ Sublat.toHamiltonianIndices [⟨0, 2, 2⟩] 1 = .ok [2, 3] := by decide

/-- **C84** (degenerate states): groups are made from neighbors, so that they can contain states which differ by more than the tolerance; `calc_probability` takes the states
which differ from the given one, so that its groups are different ones. -/
theorem C84_chain_witness : findDegenerate [(0 : Rat), 9 / 10, 18 / 10] 1 = [[0, 1, 2]] ∧
    flatnonzero (fun x => decide (|(0 : Rat) - x| < 1)) [0, 9 / 10, 18 / 10] 0 = [0, 1] ∧
    flatnonzero (fun x => decide (|(9 / 10 : Rat) - x| < 1)) [0, 9 / 10, 18 / 10] 0 = [0, 1, 2] := by decide +kernel

/-! ## Examples -/

/-- The example of the documentation. -/
example : findDegenerate [(1 / 10 : Rat), 1 / 10, 2 / 10, 5 / 10, 5 / 10, 5 / 10, 7 / 10, 8 / 10, 8 / 10] (1 / 100000) = [[0, 1], [3, 4, 5], [7, 8]] := by decide +kernel

/-- Two sites with one orbital and one with two. -/
example : (∀ m ∈ Sublat.tableNorbs [⟨0, 2, 1⟩, ⟨1, 1, 2⟩], 0 < m) ∧ reduceOrbitals [⟨0, 2, 1⟩, ⟨1, 1, 2⟩] [(1 : Rat), 2, 3, 4] = .ok [1, 2, 7] := by
  constructor
  · decide
  · decide +kernel

end Verif.Solver.Probability
