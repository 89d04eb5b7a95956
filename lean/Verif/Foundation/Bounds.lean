import Verif.Foundation.Walk
import Verif.Lattice.Props
import Mathlib.Algebra.Order.Floor.Ring

/-!
# Lemmas: bounds and positions
-/

namespace Verif.Foundation

section
variable {F : Type} [Field F] [LinearOrder F] [IsStrictOrderedRing F] [FloorRing F]

theorem truncate_le {v : F} {n : Int} (h : v ≤ (n : F)) : truncate v ≤ n := by
  unfold truncate
  split
  · have : ((⌊v⌋ : Int) : F) ≤ (n : F) := le_trans (Int.floor_le v) h
    exact_mod_cast this
  · exact Int.ceil_le.2 h

theorem le_truncate {v : F} {n : Int} (h : (n : F) ≤ v) : n ≤ truncate v := by
  unfold truncate
  split
  · exact Int.le_floor.2 h
  · have : (n : F) ≤ ((⌈v⌉ : Int) : F) := le_trans h (Int.le_ceil v)
    exact_mod_cast this

theorem boundsLoop_spec (vs : List F) (lo hi : Int) :
    (boundsLoop vs lo hi).1 ≤ lo ∧ hi ≤ (boundsLoop vs lo hi).2 ∧
    ∀ v ∈ vs, (boundsLoop vs lo hi).1 ≤ truncate v ∧ truncate v ≤ (boundsLoop vs lo hi).2 := by
  induction vs generalizing lo hi with
  | nil => simp [boundsLoop]
  | cons v vs ih =>
    unfold boundsLoop
    simp only
    obtain ⟨h1, h2, h3⟩ := ih (if truncate v < lo then truncate v else lo)
      (if hi < truncate v then truncate v else hi)
    have e1 : (if truncate v < lo then truncate v else lo) ≤ lo
        ∧ (if truncate v < lo then truncate v else lo) ≤ truncate v := by split <;> omega
    have e2 : hi ≤ (if hi < truncate v then truncate v else hi)
        ∧ truncate v ≤ (if hi < truncate v then truncate v else hi) := by split <;> omega
    refine ⟨le_trans h1 e1.1, le_trans e2.1 h2, ?_⟩
    intro w hw
    rcases List.mem_cons.1 hw with rfl | hw
    · exact ⟨le_trans h1 e1.2, le_trans e2.2 h2⟩
    · exact h3 w hw

/-- Coverage in one direction. -/
theorem findBounds_covers (intMax intMin : Int) (vs : List F) (n : Int) (δ : F) (hδ : |δ| ≤ 1)
    (hlo : ∃ v ∈ vs, v ≤ n + δ) (hhi : ∃ v ∈ vs, n + δ ≤ v) :
    (findBounds intMax intMin vs).1 ≤ n ∧ n ≤ (findBounds intMax intMin vs).2 := by
  obtain ⟨-, -, h3⟩ := boundsLoop_spec vs intMax intMin
  rw [abs_le] at hδ
  obtain ⟨v, hv, hv'⟩ := hlo
  obtain ⟨w, hw, hw'⟩ := hhi
  have e1 : truncate v ≤ n + 1 := truncate_le (by push_cast; linarith [hδ.2])
  have e2 : n - 1 ≤ truncate w := le_truncate (by push_cast; linarith [hδ.1])
  have f1 := (h3 v hv).1
  have f2 := (h3 w hw).2
  unfold findBounds
  simp only
  omega

end

theorem getElem?_flatMap_const {α β : Type} (xs : List α) (g : α → List β) (m : Nat) (hm : 0 < m)
    (hg : ∀ x ∈ xs, (g x).length = m) (k : Nat) :
    (xs.flatMap g)[k]? = (xs[k / m]?).bind fun x => (g x)[k % m]? := by
  induction xs generalizing k with
  | nil => simp
  | cons x xs ih =>
    have hx := hg x List.mem_cons_self
    rw [List.flatMap_cons]
    rcases Nat.lt_or_ge k m with h | h
    · rw [List.getElem?_append_left (by omega), Nat.div_eq_of_lt h, Nat.mod_eq_of_lt h]
      rfl
    · rw [List.getElem?_append_right (by omega), hx,
        ih (fun y hy => hg y (List.mem_cons_of_mem _ hy))]
      obtain ⟨j, rfl⟩ := Nat.exists_eq_add_of_le h
      rw [Nat.add_sub_cancel_left, Nat.add_div_left _ hm, Nat.add_mod_left]
      rfl

theorem length_flatMap_const {α β : Type} (xs : List α) (g : α → List β) (m : Nat)
    (hg : ∀ x ∈ xs, (g x).length = m) : (xs.flatMap g).length = xs.length * m := by
  induction xs with
  | nil => simp
  | cons x xs ih =>
    rw [List.flatMap_cons, List.length_append, hg x List.mem_cons_self,
      ih (fun y hy => hg y (List.mem_cons_of_mem _ hy)), List.length_cons]
    ring

section
variable {F : Type} [Field F]

theorem generatePositions_spec (vectors : List (Fin 3 → F)) (origin : Fin 3 → F) (d : Dims)
    (subs : List (Fin 3 → F)) (h0 : 0 < vectors.length) (h1 : 1 < d.sy → 1 < vectors.length)
    (h2 : 1 < d.sz → 2 < vectors.length) :
    ∃ ps, generatePositions vectors origin d subs = .ok ps ∧ ps.length = size d subs.length ∧
      ∀ k, k < size d subs.length → ∀ p, subs[(locOf d k).sub]? = some p →
        ps[k]? = some (origin + p + ((locOf d k).idx.z : F) • vectors.getD 2 0
          + ((locOf d k).idx.y : F) • vectors.getD 1 0 + ((locOf d k).idx.x : F) • vectors.getD 0 0) := by
  unfold generatePositions
  simp only
  rw [if_neg (by omega)]
  refine ⟨_, rfl, ?_, ?_⟩
  · rw [length_flatMap_const _ _ (d.sz * (d.sy * d.sx))]
    · unfold size Dims.prod; ring
    · intro p _
      rw [length_flatMap_const _ _ (d.sy * d.sx)]
      · simp
      · intro c _
        rw [length_flatMap_const _ _ d.sx]
        · simp
        · simp
  · intro k hk p hp
    have hpos : 0 < d.sx ∧ 0 < d.sy ∧ 0 < d.sz := by
      by_contra hc
      rw [size, prod_eq_zero hc] at hk
      omega
    have l1 : ∀ (pb : Fin 3 → F), ((List.range d.sx).map fun a : Nat =>
        pb + (a : F) • vectors.getD 0 0).length = d.sx := by simp
    have l2 : ∀ (pc : Fin 3 → F), ((List.range d.sy).flatMap fun b : Nat =>
        (List.range d.sx).map fun a : Nat => (if b = 0 then pc else pc + (b : F) • vectors.getD 1 0)
          + (a : F) • vectors.getD 0 0).length = d.sy * d.sx := by
      intro pc
      rw [length_flatMap_const _ _ d.sx (fun b _ => l1 _)]
      simp
    have l3 : ∀ (ps : Fin 3 → F), ((List.range d.sz).flatMap fun c : Nat =>
        (List.range d.sy).flatMap fun b : Nat => (List.range d.sx).map fun a : Nat =>
          (if b = 0 then (if c = 0 then ps else ps + (c : F) • vectors.getD 2 0)
            else (if c = 0 then ps else ps + (c : F) • vectors.getD 2 0) + (b : F) • vectors.getD 1 0)
          + (a : F) • vectors.getD 0 0).length = d.sz * (d.sy * d.sx) := by
      intro ps
      rw [length_flatMap_const _ _ (d.sy * d.sx) (fun b _ => l2 _)]
      simp
    have hyx : 0 < d.sy * d.sx := Nat.mul_pos hpos.2.1 hpos.1
    rw [getElem?_flatMap_const _ _ _ (Nat.mul_pos hpos.2.2 hyx) (fun p _ => l3 _)]
    have hsub : k / (d.sz * (d.sy * d.sx)) = (locOf d k).sub := by
      simp only [locOf, Nat.div_div_eq_div_mul]
      congr 1; ring
    rw [hsub, hp, Option.bind_some, getElem?_flatMap_const _ _ _ hyx (fun p _ => l2 _)]
    have hz : k % (d.sz * (d.sy * d.sx)) / (d.sy * d.sx) = k / d.sx / d.sy % d.sz := by
      rw [Nat.mul_comm d.sz, Nat.mod_mul_right_div_self, Nat.mul_comm d.sy, Nat.div_div_eq_div_mul]
    have hyx2 : k % (d.sz * (d.sy * d.sx)) % (d.sy * d.sx) = k % (d.sy * d.sx) :=
      Nat.mod_mod_of_dvd _ (Dvd.intro_left _ rfl)
    rw [hz, hyx2, List.getElem?_range (Nat.mod_lt _ hpos.2.2), Option.bind_some,
      getElem?_flatMap_const _ _ _ hpos.1 (fun p _ => l1 _)]
    have hy : k % (d.sy * d.sx) / d.sx = k / d.sx % d.sy := by
      rw [Nat.mul_comm d.sy, Nat.mod_mul_right_div_self]
    have hx : k % (d.sy * d.sx) % d.sx = k % d.sx := Nat.mod_mod_of_dvd _ (Dvd.intro_left _ rfl)
    rw [hy, hx, List.getElem?_range (Nat.mod_lt _ hpos.2.1), Option.bind_some, List.getElem?_map,
      List.getElem?_range (Nat.mod_lt _ hpos.1), Option.map_some]
    simp only [locOf, Int.cast_natCast]
    congr 2
    generalize k / d.sx / d.sy % d.sz = c
    generalize k / d.sx % d.sy = b
    by_cases hc : c = 0 <;> by_cases hb : b = 0 <;> simp [hc, hb]

end

end Verif.Foundation
