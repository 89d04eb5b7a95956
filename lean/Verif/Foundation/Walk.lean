import Verif.Foundation.Model
import Mathlib.Data.List.Nodup
import Mathlib.Tactic.Ring

/-!
# Lemmas: the odometer and flat indices
-/

namespace Verif.Foundation

theorem succ_mod (k n : Nat) (hn : 0 < n) :
    (k + 1) % n = if k % n + 1 = n then 0 else k % n + 1 := by
  have h1 := Nat.div_add_mod k n
  have h2 := Nat.mod_lt k hn
  split
  · rename_i h
    have : k + 1 = n * (k / n + 1) := by rw [Nat.mul_add]; omega
    rw [this]; simp
  · have : k + 1 = n * (k / n) + (k % n + 1) := by omega
    rw [this, Nat.mul_add_mod, Nat.mod_eq_of_lt (by omega)]

theorem succ_div (k n : Nat) (hn : 0 < n) :
    (k + 1) / n = if k % n + 1 = n then k / n + 1 else k / n := by
  have h1 := Nat.div_add_mod k n
  have h2 := Nat.mod_lt k hn
  split
  · rename_i h
    have : k + 1 = n * (k / n + 1) := by rw [Nat.mul_add]; omega
    rw [this, Nat.mul_div_cancel_left _ hn]
  · have : k + 1 = n * (k / n) + (k % n + 1) := by omega
    have hlt : (k % n + 1) / n = 0 := Nat.div_eq_of_lt (by omega)
    rw [this, Nat.mul_add_div hn, hlt, Nat.add_zero]

/-- Shift a location. -/
def Loc.shift (lo : Index3) (l : Loc) : Loc := ⟨lo.add l.idx, l.sub⟩

/-- The extent of a box. -/
def extent (lo hi : Index3) : Dims :=
  ⟨(hi.x - lo.x).toNat, (hi.y - lo.y).toNat, (hi.z - lo.z).toNat⟩

theorem advance_mk (lo hi : Index3) (x y z : Int) (n : Nat) :
    advance lo hi ⟨⟨x, y, z⟩, n⟩ = if x + 1 = hi.x then
      if y + 1 = hi.y then
        if z + 1 = hi.z then ⟨⟨lo.x, lo.y, lo.z⟩, n + 1⟩
        else ⟨⟨lo.x, lo.y, z + 1⟩, n⟩
      else ⟨⟨lo.x, y + 1, z⟩, n⟩
    else ⟨⟨x + 1, y, z⟩, n⟩ := rfl

theorem shift_locOf (lo : Index3) (sx sy sz k : Nat) : (locOf ⟨sx, sy, sz⟩ k).shift lo
    = ⟨⟨lo.x + (k % sx : Nat), lo.y + (k / sx % sy : Nat), lo.z + (k / sx / sy % sz : Nat)⟩,
      k / sx / sy / sz⟩ := rfl

theorem advance_locOf (lo hi : Index3) (hx : lo.x < hi.x) (hy : lo.y < hi.y) (hz : lo.z < hi.z)
    (k : Nat) : advance lo hi ((locOf (extent lo hi) k).shift lo)
      = (locOf (extent lo hi) (k + 1)).shift lo := by
  have px : 0 < (hi.x - lo.x).toNat := by omega
  have py : 0 < (hi.y - lo.y).toNat := by omega
  have pz : 0 < (hi.z - lo.z).toNat := by omega
  simp only [extent]
  generalize ex : (hi.x - lo.x).toNat = sx at *
  generalize ey : (hi.y - lo.y).toNat = sy at *
  generalize ez : (hi.z - lo.z).toNat = sz at *
  rw [shift_locOf, shift_locOf, advance_mk]
  rw [succ_mod k sx px, succ_div k sx px]
  by_cases h1 : k % sx + 1 = sx
  · rw [if_pos (by omega), if_pos h1, if_pos h1]
    rw [succ_mod _ sy py, succ_div _ sy py]
    by_cases h2 : k / sx % sy + 1 = sy
    · rw [if_pos (by omega), if_pos h2, if_pos h2]
      rw [succ_mod _ sz pz, succ_div _ sz pz]
      by_cases h3 : k / sx / sy % sz + 1 = sz
      · rw [if_pos (by omega), if_pos h3, if_pos h3]
        simp
      · rw [if_neg (by omega), if_neg h3, if_neg h3]
        simp; omega
    · rw [if_neg (by omega), if_neg h2, if_neg h2]
      simp; omega
  · rw [if_neg (by omega), if_neg h1, if_neg h1]
    simp; omega

theorem extent_index (d : Dims) : extent Index3.zero d.index = d := by
  cases d; simp [extent, Index3.zero, Dims.index]

theorem shift_zero (l : Loc) : l.shift Index3.zero = l := by
  cases l; simp [Loc.shift, Index3.add, Index3.zero]

theorem advance_dims (d : Dims) (hx : 0 < d.sx) (hy : 0 < d.sy) (hz : 0 < d.sz) (k : Nat) :
    advance Index3.zero d.index (locOf d k) = locOf d (k + 1) := by
  have := advance_locOf Index3.zero d.index (by simpa [Index3.zero, Dims.index])
    (by simpa [Index3.zero, Dims.index]) (by simpa [Index3.zero, Dims.index]) k
  rwa [extent_index, shift_zero, shift_zero] at this

theorem walk_eq (d : Dims) (hx : 0 < d.sx) (hy : 0 < d.sy) (hz : 0 < d.sz) (n k : Nat) (f : Int) :
    walk d n ⟨locOf d k, f⟩ = (List.range n).map fun i : Nat => ⟨locOf d (k + i), f + (i : Int)⟩ := by
  induction n generalizing k f with
  | zero => rfl
  | succ n ih =>
    simp only [walk, Site.next, advance_dims d hx hy hz]
    rw [ih, List.range_succ_eq_map]
    simp only [List.map_cons, List.map_map, Nat.add_zero, Int.natCast_zero, Int.add_zero]
    congr 1
    apply List.map_congr_left
    intro i _
    simp only [Function.comp, Nat.succ_eq_add_one, Int.natCast_add, Int.natCast_one]
    rw [show k + 1 + i = k + (i + 1) by omega, show f + 1 + (i : Int) = f + (i + 1) by omega]

theorem locOf_zero (d : Dims) : locOf d 0 = ⟨Index3.zero, 0⟩ := by
  simp [locOf, Index3.zero]

theorem prod_eq_zero {d : Dims} (h : ¬ (0 < d.sx ∧ 0 < d.sy ∧ 0 < d.sz)) : d.prod = 0 := by
  unfold Dims.prod
  by_cases h1 : d.sx = 0
  · simp [h1]
  · by_cases h2 : d.sy = 0
    · simp [h2]
    · have : d.sz = 0 := by omega
      simp [this]

theorem sites_eq (d : Dims) (nsub : Nat) :
    sites d nsub = (List.range (size d nsub)).map fun i : Nat => ⟨locOf d i, (i : Int)⟩ := by
  by_cases h : 0 < d.sx ∧ 0 < d.sy ∧ 0 < d.sz
  · unfold sites
    rw [← locOf_zero d, walk_eq d h.1 h.2.1 h.2.2]
    simp
  · simp [sites, size, prod_eq_zero h, walk]

theorem sublatticeSites_eq (d : Dims) (n : Nat) :
    sublatticeSites d n
      = (List.range d.prod).map fun i : Nat => ⟨locOf d i, (n * d.prod : Nat) + (i : Int)⟩ := by
  by_cases h : 0 < d.sx ∧ 0 < d.sy ∧ 0 < d.sz
  · unfold sublatticeSites
    rw [← locOf_zero d, walk_eq d h.1 h.2.1 h.2.2]
    simp
  · simp [sublatticeSites, prod_eq_zero h, walk]

/-- Is the location in the box `[0, d) × [0, nsub)`? -/
def Loc.In (d : Dims) (nsub : Nat) (l : Loc) : Prop :=
  0 ≤ l.idx.x ∧ l.idx.x < d.sx ∧ 0 ≤ l.idx.y ∧ l.idx.y < d.sy ∧ 0 ≤ l.idx.z ∧ l.idx.z < d.sz ∧
    l.sub < nsub

/-- The flat index of in-range coordinates as a natural number. -/
def flatNat (d : Dims) (a b c n : Nat) : Nat := ((n * d.sz + c) * d.sy + b) * d.sx + a

theorem locOf_flatNat {d : Dims} {a b c : Nat} (n : Nat) (ha : a < d.sx) (hb : b < d.sy)
    (hc : c < d.sz) : locOf d (flatNat d a b c n) = ⟨⟨a, b, c⟩, n⟩ := by
  unfold locOf flatNat
  have e1 : (((n * d.sz + c) * d.sy + b) * d.sx + a) / d.sx = (n * d.sz + c) * d.sy + b := by
    rw [Nat.mul_comm, Nat.mul_add_div (by omega), Nat.div_eq_of_lt ha, Nat.add_zero]
  have e2 : ((n * d.sz + c) * d.sy + b) / d.sy = n * d.sz + c := by
    rw [Nat.mul_comm, Nat.mul_add_div (by omega), Nat.div_eq_of_lt hb, Nat.add_zero]
  have e3 : (n * d.sz + c) / d.sz = n := by
    rw [Nat.mul_comm, Nat.mul_add_div (by omega), Nat.div_eq_of_lt hc, Nat.add_zero]
  rw [e1, e2, e3, Nat.mul_add_mod_self_right, Nat.mul_add_mod_self_right,
    Nat.mul_add_mod_self_right, Nat.mod_eq_of_lt ha, Nat.mod_eq_of_lt hb, Nat.mod_eq_of_lt hc]

theorem flatIdx_nat (d : Dims) (a b c n : Nat) :
    flatIdx d ⟨⟨a, b, c⟩, n⟩ = (flatNat d a b c n : Int) := by
  simp [flatIdx, flatNat]

theorem flatNat_lt {d : Dims} {a b c n nsub : Nat} (ha : a < d.sx) (hb : b < d.sy) (hc : c < d.sz)
    (hn : n < nsub) : flatNat d a b c n < size d nsub := by
  unfold flatNat size Dims.prod
  have h1 : n * d.sz + c + 1 ≤ nsub * d.sz := by
    calc n * d.sz + c + 1 ≤ n * d.sz + d.sz := by omega
      _ = (n + 1) * d.sz := by ring
      _ ≤ nsub * d.sz := Nat.mul_le_mul_right _ hn
  have h2 : (n * d.sz + c) * d.sy + b + 1 ≤ nsub * d.sz * d.sy := by
    calc (n * d.sz + c) * d.sy + b + 1 ≤ (n * d.sz + c) * d.sy + d.sy := by omega
      _ = (n * d.sz + c + 1) * d.sy := by ring
      _ ≤ nsub * d.sz * d.sy := Nat.mul_le_mul_right _ h1
  have h3 : ((n * d.sz + c) * d.sy + b) * d.sx + a + 1 ≤ nsub * d.sz * d.sy * d.sx := by
    calc ((n * d.sz + c) * d.sy + b) * d.sx + a + 1
        ≤ ((n * d.sz + c) * d.sy + b) * d.sx + d.sx := by omega
      _ = ((n * d.sz + c) * d.sy + b + 1) * d.sx := by ring
      _ ≤ nsub * d.sz * d.sy * d.sx := Nat.mul_le_mul_right _ h2
  calc _ < nsub * d.sz * d.sy * d.sx := by omega
    _ = d.sx * d.sy * d.sz * nsub := by ring

theorem flatIdx_locOf (d : Dims) (k : Nat) : flatIdx d (locOf d k) = k := by
  unfold locOf
  rw [flatIdx_nat]
  unfold flatNat
  have h1 := Nat.div_add_mod k d.sx
  have h2 := Nat.div_add_mod (k / d.sx) d.sy
  have h3 := Nat.div_add_mod (k / d.sx / d.sy) d.sz
  congr 1
  rw [Nat.mul_comm _ d.sz, h3, Nat.mul_comm _ d.sy, h2, Nat.mul_comm _ d.sx, h1]

theorem locOf_in {d : Dims} {nsub k : Nat} (h : k < size d nsub) : (locOf d k).In d nsub := by
  have hp : 0 < d.sx ∧ 0 < d.sy ∧ 0 < d.sz := by
    by_contra hc
    rw [size, prod_eq_zero hc] at h
    omega
  have m1 := Nat.mod_lt k hp.1
  have m2 := Nat.mod_lt (k / d.sx) hp.2.1
  have m3 := Nat.mod_lt (k / d.sx / d.sy) hp.2.2
  refine ⟨Int.natCast_nonneg _, by simp only [locOf]; omega, Int.natCast_nonneg _,
    by simp only [locOf]; omega, Int.natCast_nonneg _, by simp only [locOf]; omega, ?_⟩
  simp only [locOf]
  rw [Nat.div_div_eq_div_mul, Nat.div_div_eq_div_mul,
    Nat.div_lt_iff_lt_mul (Nat.mul_pos hp.1 (Nat.mul_pos hp.2.1 hp.2.2))]
  unfold size Dims.prod at h
  calc k < _ := h
    _ = nsub * (d.sx * (d.sy * d.sz)) := by ring

theorem Loc.In.exists_nat {d : Dims} {nsub : Nat} {l : Loc} (h : l.In d nsub) :
    ∃ a b c n : Nat, a < d.sx ∧ b < d.sy ∧ c < d.sz ∧ n < nsub ∧ l = ⟨⟨a, b, c⟩, n⟩ := by
  obtain ⟨⟨x, y, z⟩, n⟩ := l
  obtain ⟨h1, h2, h3, h4, h5, h6, h7⟩ := h
  simp only at h1 h2 h3 h4 h5 h6 h7
  refine ⟨x.toNat, y.toNat, z.toNat, n, by omega, by omega, by omega, h7, ?_⟩
  simp [h1, h3, h5]

theorem Loc.In.flat {d : Dims} {nsub : Nat} {l : Loc} (h : l.In d nsub) :
    ∃ k : Nat, k < size d nsub ∧ flatIdx d l = k ∧ locOf d k = l := by
  obtain ⟨a, b, c, n, ha, hb, hc, hn, rfl⟩ := h.exists_nat
  exact ⟨flatNat d a b c n, flatNat_lt ha hb hc hn, flatIdx_nat d a b c n, locOf_flatNat n ha hb hc⟩

theorem mem_locs (d : Dims) (nsub : Nat) (l : Loc) :
    l ∈ (List.range (size d nsub)).map (locOf d) ↔ l.In d nsub := by
  constructor
  · intro h
    obtain ⟨k, hk, rfl⟩ := List.mem_map.1 h
    exact locOf_in (List.mem_range.1 hk)
  · intro h
    obtain ⟨k, hk, -, rfl⟩ := h.flat
    exact List.mem_map.2 ⟨k, List.mem_range.2 hk, rfl⟩

theorem nodup_locs (d : Dims) (n : Nat) : ((List.range n).map (locOf d)).Nodup := by
  refine List.Nodup.map_on ?_ List.nodup_range
  intro a _ b _ h
  have := congrArg (flatIdx d) h
  rw [flatIdx_locOf, flatIdx_locOf] at this
  omega

theorem flatIdx_inj {d : Dims} {nsub : Nat} {a b : Loc} (ha : a.In d nsub) (hb : b.In d nsub)
    (h : flatIdx d a = flatIdx d b) : a = b := by
  obtain ⟨k, -, e1, e2⟩ := ha.flat
  obtain ⟨m, -, e3, e4⟩ := hb.flat
  rw [e1, e3] at h
  rw [← e2, ← e4, Int.natCast_inj.1 h]

theorem sliceWalk_eq (d : Dims) (lo hi : Index3) (hx : lo.x < hi.x) (hy : lo.y < hi.y)
    (hz : lo.z < hi.z) (n k j : Nat) :
    sliceWalk d lo hi n ⟨Site.at d ((locOf (extent lo hi) k).shift lo).idx (locOf (extent lo hi) k).sub, j⟩
      = (List.range n).map fun i : Nat =>
        ⟨Site.at d ((locOf (extent lo hi) (k + i)).shift lo).idx (locOf (extent lo hi) (k + i)).sub,
          j + i⟩ := by
  induction n generalizing k j with
  | zero => rfl
  | succ n ih =>
    simp only [sliceWalk, SliceSite.next, Site.at]
    have ha := advance_locOf lo hi hx hy hz k
    rw [show (⟨((locOf (extent lo hi) k).shift lo).idx, (locOf (extent lo hi) k).sub⟩ : Loc)
      = (locOf (extent lo hi) k).shift lo from rfl, ha]
    have := ih (k + 1) (j + 1)
    simp only [Site.at] at this
    simp only [Loc.shift] at this ⊢
    rw [this, List.range_succ_eq_map]
    simp only [List.map_cons, List.map_map, Nat.add_zero]
    congr 1
    apply List.map_congr_left
    intro i _
    simp only [Function.comp, Nat.succ_eq_add_one]
    rw [show k + 1 + i = k + (i + 1) by omega, show j + 1 + i = j + (i + 1) by omega]

end Verif.Foundation
