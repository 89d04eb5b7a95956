import Verif.Foundation.Model
import Mathlib.Data.List.Count
import Mathlib.Tactic.Ring
import Mathlib.Algebra.BigOperators.Group.List.Basic

/-!
# Lemmas: removal of dangling sites

The recursion of `clear_neighbors` is analysed with a credit argument: the recorded count of a valid
site is its number of valid neighbours plus the number of removed neighbours that have not been
announced to it yet.
-/

namespace Verif.Foundation

/-- Number of valid neighbours. -/
def validDegree (nbrs : Nat → List Nat) (valid : Nat → Bool) (v : Nat) : Nat :=
  (nbrs v).countP (fun u => valid u)

@[simp] theorem upd_same {α : Type} (f : Nat → α) (i : Nat) (v : α) : upd f i v i = v := by simp [upd]
theorem upd_ne {α : Type} (f : Nat → α) {i j : Nat} (v : α) (h : j ≠ i) : upd f i v j = f j := by
  simp [upd, h]

/-- A set of removed sites `C` is closed if every other site that has a neighbour in `C` still has
at least `minN` neighbours outside `C`. -/
def ClosedSet (nbrs : Nat → List Nat) (minN : Int) (C : Nat → Prop) : Prop :=
  ∀ v, ¬ C v → (∃ u ∈ nbrs v, C u) → ∀ k : Nat, (∃ p : Nat → Bool, (∀ u, p u = true ↔ ¬ C u) ∧
    k = (nbrs v).countP p) → minN ≤ k

section
variable {nbrs : Nat → List Nat} {minN : Int} {n : Nat}

/-- Number of valid sites. -/
def numValid (n : Nat) (valid : Nat → Bool) : Nat := (List.range n).countP (fun u => valid u)

theorem countP_upd_false (l : List Nat) (valid : Nat → Bool) (m : Nat) (hm : valid m = true) :
    l.countP (fun u => valid u) = l.countP (fun u => upd valid m false u) + l.count m := by
  induction l with
  | nil => rfl
  | cons a l ih =>
    rw [List.countP_cons, List.countP_cons, List.count_cons, ih]
    by_cases h : a = m
    · subst h; simp [hm]; omega
    · have h2 : (a == m) = false := by simpa using h
      rw [upd_ne _ _ h, h2]
      simp only [Bool.false_eq_true, if_false]
      omega

theorem countP_le_of_imp (l : List Nat) (p q : Nat → Bool) (h : ∀ u, p u = true → q u = true) :
    l.countP p ≤ l.countP q := List.countP_mono_left (fun u _ => h u)

/-- What one call of `clear_neighbors` (or a part of its loop) guarantees. -/
structure Cleared (nbrs : Nat → List Nat) (minN : Int) (ext : Nat → Nat) (s : Nat) (C : Nat → Prop)
    (st st' : Dangling) : Prop where
  mono : ∀ u, st'.valid u = true → st.valid u = true
  counts : ∀ v, st'.valid v = true → st'.count v = validDegree nbrs st'.valid v + ext v
  kept : ∀ u, st.valid u = false → u ≠ s → st'.count u = st.count u
  removed : ∀ u, st.valid u = true → st'.valid u = false → st'.count u = 0
  touched : (∀ v, st.valid v = true → st.count v = (nbrs v).length ∨ minN ≤ st.count v) →
    ∀ v, st'.valid v = true → st'.count v = (nbrs v).length ∨ minN ≤ st'.count v
  least : (∀ u, st.valid u = false → C u) → ∀ u, st'.valid u = false → C u

theorem clearNeighbors_spec (hsym : ∀ u v, (nbrs u).count v = (nbrs v).count u)
    (hlt : ∀ u, ∀ v ∈ nbrs u, v < n) (C : Nat → Prop) (hC : ClosedSet nbrs minN C)
    (fuel : Nat) : ∀ (s : Nat) (st : Dangling) (ext : Nat → Nat),
    numValid n st.valid < fuel → st.valid s = false →
    (∀ v, st.valid v = true →
      st.count v = validDegree nbrs st.valid v + ext v + (nbrs s).count v) →
    (st.count s = 0 → ∀ v ∈ nbrs s, st.valid v = false) →
    ∃ st', clearNeighbors nbrs minN fuel s st = some st' ∧ Cleared nbrs minN ext s C st st' ∧
      st'.count s = 0 := by
  induction fuel with
  | zero => intro s st ext h; omega
  | succ fuel ih =>
    intro s st ext hfuel hs hcnt hzero
    unfold clearNeighbors
    split
    · rename_i h0
      refine ⟨st, rfl, ⟨fun u h => h, ?_, fun u _ _ => rfl, ?_, fun h => h, fun h => h⟩, h0⟩
      · intro v hv
        rw [hcnt v hv]
        have : (nbrs s).count v = 0 := by
          rw [List.count_eq_zero]
          intro hm
          have := hzero h0 v hm
          simp [this] at hv
        omega
      · intro u h1 h2; simp [h1] at h2
    · -- the loop
      have loop : ∀ (l : List Nat) (st1 : Dangling), (∀ v ∈ l, v ∈ nbrs s) →
          numValid n st1.valid < fuel + 1 → st1.valid s = false →
          (∀ v, st1.valid v = true →
            st1.count v = validDegree nbrs st1.valid v + ext v + l.count v) →
          ∃ st2, l.foldlM (init := st1) (fun st n =>
            if st.valid n = false then some st
            else
              let st := { st with count := upd st.count n (st.count n - 1) }
              if st.count n < minN then
                clearNeighbors nbrs minN fuel n { st with valid := upd st.valid n false }
              else some st) = some st2 ∧ Cleared nbrs minN ext s C st1 st2 ∧
            st2.count s = st1.count s ∧ st2.valid s = false := by
        intro l
        induction l with
        | nil =>
          intro st1 _ _ hs1 hc1
          exact ⟨st1, rfl, ⟨fun u h => h, fun v hv => by rw [hc1 v hv]; simp, fun u _ _ => rfl,
            fun u h1 h2 => by simp [h1] at h2, fun h => h, fun h => h⟩, rfl, hs1⟩
        | cons m l ihl =>
          intro st1 hl hf1 hs1 hc1
          rw [List.foldlM_cons]
          have hl' : ∀ v ∈ l, v ∈ nbrs s := fun v hv => hl v (List.mem_cons_of_mem _ hv)
          have hms := hl m List.mem_cons_self
          by_cases hm : st1.valid m = false
          · rw [if_pos hm]
            exact ihl st1 hl' hf1 hs1 (fun v hv => by
              rw [hc1 v hv, List.count_cons_of_ne]
              rintro rfl
              rw [hm] at hv; simp at hv)
          · rw [if_neg hm]
            have hmv : st1.valid m = true := by simpa using hm
            have hne : s ≠ m := by rintro rfl; rw [hs1] at hmv; simp at hmv
            have hcm := hc1 m hmv
            rw [List.count_cons_self] at hcm
            simp only [upd_same]
            by_cases hlow : st1.count m - 1 < minN
            · rw [if_pos hlow]
              -- the removed site is in every closed superset
              have hCm : (∀ u, st1.valid u = false → C u) → C m := by
                intro hsub
                by_contra hnC
                have hms' : s ∈ nbrs m := by
                  rw [← List.count_pos_iff, hsym m s]
                  exact List.count_pos_iff.2 hms
                classical
                have := hC m hnC ⟨s, hms', hsub s hs1⟩ _ ⟨fun u => decide (¬ C u), by simp, rfl⟩
                have hle : (nbrs m).countP (fun u => decide (¬ C u)) ≤ validDegree nbrs st1.valid m := by
                  refine countP_le_of_imp _ _ _ ?_
                  intro u hu
                  by_contra hnv
                  have := hsub u (by simpa using hnv)
                  simp [this] at hu
                omega
              have hdec : numValid n (upd st1.valid m false) < numValid n st1.valid := by
                unfold numValid
                rw [countP_upd_false _ st1.valid m hmv]
                have : 0 < (List.range n).count m :=
                  List.count_pos_iff.2 (List.mem_range.2 (hlt s m hms))
                omega
              obtain ⟨st2, e2, c2, z2⟩ := ih m
                ⟨upd st1.valid m false, upd st1.count m (st1.count m - 1)⟩
                (fun v => ext v + l.count v) (by simp only; omega) (by simp) (by
                  intro v hv
                  simp only at hv ⊢
                  have hvm : v ≠ m := by rintro rfl; simp at hv
                  rw [upd_ne _ _ hvm] at hv ⊢
                  rw [hc1 v hv, List.count_cons_of_ne (Ne.symm hvm)]
                  unfold validDegree
                  rw [countP_upd_false _ st1.valid m hmv, hsym v m]
                  push_cast
                  ring) (by
                  intro h0 v hv
                  simp only [upd_same] at h0
                  simp only
                  by_contra hvv
                  have hvm : v ≠ m := by rintro rfl; simp at hvv
                  rw [upd_ne _ _ hvm] at hvv
                  have : 0 < validDegree nbrs st1.valid m :=
                    List.countP_pos_iff.2 ⟨v, hv, by simpa using hvv⟩
                  omega)
              have hs2 : st2.valid s = false := by
                by_contra h
                have := c2.mono s (by simpa using h)
                simp only at this
                rw [upd_ne _ _ hne, hs1] at this
                simp at this
              have hn2 : numValid n st2.valid < fuel + 1 := by
                have : numValid n st2.valid ≤ numValid n (upd st1.valid m false) :=
                  countP_le_of_imp _ _ _ (fun u hu => c2.mono u hu)
                omega
              obtain ⟨st3, e3, c3, z3, w3⟩ := ihl st2 hl' hn2 hs2 (fun v hv => by
                rw [c2.counts v hv]; push_cast; ring)
              refine ⟨st3, by
                rw [e2]
                simp only [upd_same] at e3
                exact e3, ⟨?_, c3.counts, ?_, ?_, ?_, ?_⟩, ?_, w3⟩
              · intro u hu
                have := c2.mono u (c3.mono u hu)
                simp only at this
                by_cases hum : u = m
                · subst hum; exact hmv
                · rwa [upd_ne _ _ hum] at this
              · intro u hu hus
                have hum : u ≠ m := by rintro rfl; rw [hmv] at hu; simp at hu
                have hu2 : st2.valid u = false := by
                  by_contra h
                  have := c2.mono u (by simpa using h)
                  simp only at this
                  rw [upd_ne _ _ hum, hu] at this
                  simp at this
                rw [c3.kept u hu2 hus, c2.kept u (by simp only; rw [upd_ne _ _ hum, hu]) hum]
                simp only
                rw [upd_ne _ _ hum]
              · intro u hu hu3
                by_cases hu2 : st2.valid u = true
                · exact c3.removed u hu2 hu3
                · have hu2' : st2.valid u = false := by simpa using hu2
                  have hus : u ≠ s := by rintro rfl; rw [hs1] at hu; simp at hu
                  rw [c3.kept u hu2' hus]
                  by_cases hum : u = m
                  · subst hum; exact z2
                  · exact c2.removed u (by simp only; rw [upd_ne _ _ hum, hu]) hu2'
              · intro ht
                refine c3.touched (c2.touched ?_)
                intro v hv
                simp only at hv ⊢
                have hvm : v ≠ m := by rintro rfl; simp at hv
                rw [upd_ne _ _ hvm] at hv ⊢
                exact ht v hv
              · intro hsub
                refine c3.least (c2.least ?_)
                intro u hu
                simp only at hu
                by_cases hum : u = m
                · subst hum; exact hCm hsub
                · rw [upd_ne _ _ hum] at hu
                  exact hsub u hu
              · rw [z3, c2.kept s (by simp only; rw [upd_ne _ _ hne, hs1]) hne]
                simp only
                rw [upd_ne _ _ hne]
            · rw [if_neg hlow]
              obtain ⟨st3, e3, c3, z3, w3⟩ := ihl
                ⟨st1.valid, upd st1.count m (st1.count m - 1)⟩ hl' hf1 hs1 (fun v hv => by
                  simp only at hv ⊢
                  by_cases hvm : v = m
                  · subst hvm
                    rw [upd_same, hcm]; push_cast; ring
                  · rw [upd_ne _ _ hvm, hc1 v hv, List.count_cons_of_ne (Ne.symm hvm)])
              refine ⟨st3, by
                simp only [upd_same] at e3
                exact e3, ⟨c3.mono, c3.counts, ?_, c3.removed, ?_, c3.least⟩, ?_, w3⟩
              · intro u hu hus
                have hum : u ≠ m := by rintro rfl; rw [hmv] at hu; simp at hu
                rw [c3.kept u hu hus]
                simp only
                rw [upd_ne _ _ hum]
              · intro ht
                refine c3.touched ?_
                intro v hv
                simp only at hv ⊢
                by_cases hvm : v = m
                · subst hvm
                  rw [upd_same]; right; omega
                · rw [upd_ne _ _ hvm]
                  exact ht v hv
              · rw [z3]
                simp only
                rw [upd_ne _ _ hne]
      obtain ⟨st2, e2, c2, z2, w2⟩ := loop (nbrs s) st (fun v hv => hv) hfuel hs hcnt
      refine ⟨{ st2 with count := upd st2.count s 0 }, ?_, ⟨c2.mono, ?_, ?_, ?_, ?_, c2.least⟩, ?_⟩
      · rw [e2]; rfl
      · intro v hv
        simp only at hv ⊢
        have hvs : v ≠ s := by rintro rfl; rw [w2] at hv; simp at hv
        rw [upd_ne _ _ hvs]
        exact c2.counts v hv
      · intro u hu hus
        simp only
        rw [upd_ne _ _ hus]
        exact c2.kept u hu hus
      · intro u hu hu'
        simp only
        by_cases hus : u = s
        · subst hus; simp
        · rw [upd_ne _ _ hus]
          exact c2.removed u hu hu'
      · intro ht v hv
        simp only at hv ⊢
        have hvs : v ≠ s := by rintro rfl; rw [w2] at hv; simp at hv
        rw [upd_ne _ _ hvs]
        exact c2.touched ht v hv
      · simp

/-- Announcements outstanding from the initially invalid sites in `rest`. -/
def outstanding (nbrs : Nat → List Nat) (init : Nat → Bool) (rest : List Nat) (v : Nat) : Nat :=
  ((rest.filter (fun u => init u = false)).map fun u => (nbrs u).count v).sum

theorem removeDanglingLoop_spec (hsym : ∀ u v, (nbrs u).count v = (nbrs v).count u)
    (hlt : ∀ u, ∀ v ∈ nbrs u, v < n) (C : Nat → Prop) (hC : ClosedSet nbrs minN C)
    (init : Nat → Bool) (fuel : Nat) (rest : List Nat) (hnd : rest.Nodup) : ∀ st : Dangling,
    numValid n st.valid < fuel →
    (∀ u, st.valid u = true → init u = true) →
    (∀ v, st.valid v = true →
      st.count v = validDegree nbrs st.valid v + outstanding nbrs init rest v) →
    (∀ u ∈ rest, init u = false → st.count u = (nbrs u).length) →
    (∀ u ∈ rest, init u = true → st.valid u = false → st.count u = 0) →
    (∀ v, st.valid v = true → st.count v = (nbrs v).length ∨ minN ≤ st.count v) →
    (∀ u, st.valid u = false → C u) →
    ∃ st', removeDanglingLoop nbrs minN fuel rest st = some st' ∧
      (∀ u, st'.valid u = true → st.valid u = true) ∧
      (∀ v, st'.valid v = true → st'.count v = validDegree nbrs st'.valid v) ∧
      (∀ v, st'.valid v = true → st'.count v = (nbrs v).length ∨ minN ≤ st'.count v) ∧
      (∀ u, st'.valid u = false → C u) := by
  induction rest with
  | nil =>
    intro st _ _ h2 _ _ h5 h6
    exact ⟨st, rfl, fun u h => h, fun v hv => by rw [h2 v hv]; simp [outstanding], h5, h6⟩
  | cons s rest ih =>
    intro st hf h1 h2 h3 h4 h5 h6
    rw [List.nodup_cons] at hnd
    unfold removeDanglingLoop
    have hrest3 : ∀ u ∈ rest, init u = false → st.count u = (nbrs u).length :=
      fun u hu => h3 u (List.mem_cons_of_mem _ hu)
    have hrest4 : ∀ u ∈ rest, init u = true → st.valid u = false → st.count u = 0 :=
      fun u hu => h4 u (List.mem_cons_of_mem _ hu)
    by_cases hs : st.valid s = false
    · rw [if_pos hs]
      by_cases hi : init s = false
      · have hout : ∀ v, outstanding nbrs init (s :: rest) v
            = outstanding nbrs init rest v + (nbrs s).count v := by
          intro v; simp [outstanding, hi, Nat.add_comm]
        obtain ⟨st1, e1, c1, -⟩ := clearNeighbors_spec (n := n) hsym hlt C hC fuel s st
          (outstanding nbrs init rest) hf hs (fun v hv => by
            rw [h2 v hv, hout]; push_cast; ring) (by
            intro h0 v hv
            rw [h3 s List.mem_cons_self hi] at h0
            have : (nbrs s) = [] := List.length_eq_zero_iff.1 (by omega)
            rw [this] at hv
            simp at hv)
        obtain ⟨st2, e2, m2, q1, q2, q3⟩ := ih hnd.2 st1
          (Nat.lt_of_le_of_lt (countP_le_of_imp _ _ _ c1.mono) hf)
          (fun u hu => h1 u (c1.mono u hu)) c1.counts
          (by
            intro u hu hui
            have hus : u ≠ s := by rintro rfl; exact hnd.1 hu
            have huv : st.valid u = false := by
              by_contra h
              have := h1 u (by simpa using h)
              rw [hui] at this; simp at this
            rw [c1.kept u huv hus]
            exact hrest3 u hu hui)
          (by
            intro u hu hui hu1
            have hus : u ≠ s := by rintro rfl; exact hnd.1 hu
            by_cases huv : st.valid u = false
            · rw [c1.kept u huv hus]
              exact hrest4 u hu hui huv
            · exact c1.removed u (by simpa using huv) hu1)
          (c1.touched h5) (c1.least h6)
        refine ⟨st2, ?_, fun u hu => c1.mono u (m2 u hu), q1, q2, q3⟩
        rw [e1]
        exact e2
      · have hi' : init s = true := by simpa using hi
        have h0 := h4 s List.mem_cons_self hi' hs
        have hc : clearNeighbors nbrs minN fuel s st = some st := by
          cases fuel with
          | zero => omega
          | succ f => unfold clearNeighbors; rw [if_pos h0]
        rw [hc]
        refine ih hnd.2 st hf h1 ?_ hrest3 hrest4 h5 h6
        intro v hv
        rw [h2 v hv]
        simp [outstanding, hi']
    · rw [if_neg hs]
      have hi' := h1 s (by simpa using hs)
      refine ih hnd.2 st hf h1 ?_ hrest3 hrest4 h5 h6
      intro v hv
      rw [h2 v hv]
      simp [outstanding, hi']

theorem sum_count_range (l : List Nat) (n : Nat) (h : ∀ v ∈ l, v < n) (p : Nat → Bool) :
    (((List.range n).filter (fun u => p u)).map fun u => l.count u).sum = l.countP p := by
  induction l with
  | nil => simp
  | cons a l ih =>
    have ha := h a List.mem_cons_self
    rw [List.countP_cons, ← ih (fun v hv => h v (List.mem_cons_of_mem _ hv))]
    have : ∀ L : List Nat, (L.map fun u => (a :: l).count u).sum
        = (L.map fun u => l.count u).sum + L.count a := by
      intro L
      induction L with
      | nil => rfl
      | cons b L ihL =>
        rw [List.map_cons, List.sum_cons, ihL, List.map_cons, List.sum_cons, List.count_cons,
          List.count_cons]
        by_cases hab : a = b
        · subst hab; simp; omega
        · have h1 : (a == b) = false := by simpa using hab
          have h2 : (b == a) = false := by simpa using Ne.symm hab
          rw [h1, h2]
          simp; omega
    rw [this]
    congr 1
    by_cases hp : p a = true
    · rw [List.count_filter (by simpa using hp)]
      rw [if_pos hp]
      exact List.count_eq_one_of_mem List.nodup_range (List.mem_range.2 ha)
    · rw [if_neg hp, List.count_eq_zero]
      intro hm
      exact hp (List.mem_filter.1 hm).2

/-- The whole removal. -/
theorem removeDangling_spec (hsym : ∀ u v, (nbrs u).count v = (nbrs v).count u)
    (hlt : ∀ u, ∀ v ∈ nbrs u, v < n) (valid : Nat → Bool) (fuel : Nat) (hfuel : n < fuel) :
    ∃ st, removeDangling nbrs minN fuel n valid = some st ∧
      (∀ u, st.valid u = true → valid u = true) ∧
      (∀ v, st.valid v = true → st.count v = validDegree nbrs st.valid v) ∧
      (∀ v, st.valid v = true → (∃ u ∈ nbrs v, st.valid u = false) →
        minN ≤ validDegree nbrs st.valid v) ∧
      (∀ C : Nat → Prop, ClosedSet nbrs minN C → (∀ u, valid u = false → C u) →
        ∀ u, st.valid u = false → C u) := by
  have key : ∀ C : Nat → Prop, ClosedSet nbrs minN C → (∀ u, valid u = false → C u) → 
      ∃ st', removeDanglingLoop nbrs minN fuel (List.range n) ⟨valid, fun i => (nbrs i).length⟩
          = some st' ∧
      (∀ u, st'.valid u = true → valid u = true) ∧
      (∀ v, st'.valid v = true → st'.count v = validDegree nbrs st'.valid v) ∧
      (∀ v, st'.valid v = true → st'.count v = (nbrs v).length ∨ minN ≤ st'.count v) ∧
      (∀ u, st'.valid u = false → C u) := by
    intro C hC hsub
    refine removeDanglingLoop_spec (n := n) hsym hlt C hC valid fuel (List.range n)
      List.nodup_range _ ?_ (fun u hu => hu) ?_ (fun u _ _ => rfl) ?_ (fun v _ => .inl rfl) hsub
    · have : numValid n valid ≤ (List.range n).length := List.countP_le_length
      rw [List.length_range] at this
      simp only
      omega
    · intro v _
      simp only
      unfold outstanding validDegree
      have h1 : ((List.range n).filter (fun u => valid u = false)).map (fun u => (nbrs u).count v)
          = ((List.range n).filter (fun u => !valid u)).map (fun u => (nbrs v).count u) := by
        have : (fun u => decide (valid u = false)) = (fun u => !valid u) := by
          funext u; cases valid u <;> rfl
        rw [this]
        apply List.map_congr_left
        intro u _
        exact hsym u v
      rw [h1, sum_count_range (nbrs v) n (hlt v) (fun u => !valid u)]
      have := List.length_eq_countP_add_countP (fun u => valid u) (l := nbrs v)
      rw [this]
      push_cast
      congr 2
      congr 1
      funext u
      cases valid u <;> rfl
    · intro u _ h1 h2
      simp only at h2
      rw [h1] at h2
      simp at h2
  obtain ⟨st, e, p1, p2, p3, -⟩ := key (fun _ => True) (fun v hv => absurd trivial hv)
    (fun _ _ => trivial)
  refine ⟨st, e, p1, p2, ?_, ?_⟩
  · rintro v hv ⟨u, hu, hu'⟩
    rcases p3 v hv with h | h
    · exfalso
      rw [p2 v hv] at h
      have hle : validDegree nbrs st.valid v < (nbrs v).length := by
        refine Nat.lt_of_le_of_ne List.countP_le_length ?_
        intro he
        have := List.countP_eq_length.1 he u hu
        rw [hu'] at this
        simp at this
      omega
    · rw [p2 v hv] at h
      exact h
  · intro C hC hsub u hu
    obtain ⟨st', e', -, -, -, q⟩ := key C hC hsub
    rw [e] at e'
    simp only [Option.some.injEq] at e'
    subst e'
    exact q u hu

end

end Verif.Foundation
