import Verif.Kpm.Slice

/-!
# The interleaved algorithms compute the same as the basic ones
-/

namespace Verif.Kpm

open Verif.Numeric

variable {K V α : Type} {n : Nat}

variable [CommRing K] [CommRing V] [StarRing V] [Module K V]
variable {half : K} {M : Mat n V} {A : Matrix (Fin n) (Fin n) K} {map : SliceMap}

/-! ## Off-diagonal -/

theorem offIl_loop (hM : Implements half M A) (hS : Slices map.data A) (p : Nat) (q : Int)
    (hp : (p : Int) ≤ map.lastIndex) (r0 r1 : Fin n → V) (t : Nat) (ht : t ≤ p) :
    (List.range t).foldlM (offIlStep M map p q) ⟨r0, r1, 0, 0⟩
      = .ok ⟨mulSub A 0 (edge map.data t) r1 r0,
          mulSub A 0 (edge map.data (t - 1)) (mulSub A 0 (edge map.data (p + 1)) r1 r0) r1,
          edge map.data t, edge map.data (t - 1)⟩ := by
  induction t with
  | zero =>
    simp only [List.range_zero, List.foldlM_nil, edge, Nat.zero_sub, mulSub_self]
    rfl
  | succ t ih =>
    rw [List.range_succ, List.foldlM_append, ih (by omega), Res.bind_ok]
    simp only [List.foldlM_cons, List.foldlM_nil]
    unfold offIlStep
    rw [SliceMap.at_eq (by omega) (by omega), Res.bind_ok]
    unfold end1For
    rw [if_neg (by omega), Res.bind_ok]
    have e1 : border map.data ((t : Int)).toNat = edge map.data (t + 1) := by
      rw [Int.toNat_natCast]; rfl
    simp only [e1]
    rw [hM.spmv _ _ _ _ (edge_mono hS.mono (by omega)) (by exact hS.le _), Res.bind_ok,
      hM.spmv _ _ _ _ (edge_mono hS.mono (by omega)) (Nat.le_trans (edge_mono hS.mono (Nat.le_add_right t 1)) (hS.le _)),
      Res.bind_ok, il_first hS, il_second hS t (edge_mono hS.mono (by omega))]
    rfl

theorem offIl_eq (hM : Implements half M A) (hS : Slices map.data A) (max1 max2 : Int)
    (h1 : 0 ≤ max1) (h1' : max1 ≤ map.lastIndex) (h2 : 0 ≤ max2) (h2' : max2 ≤ map.lastIndex) (h12 : max1 - 1 ≤ max2)
    (r0 r1 : Fin n → V) :
    ∃ a b, (List.range (max1 + 1).toNat).foldlM (offIlStep M map max1 max2) ⟨r0, r1, 0, 0⟩
      = .ok ⟨mulSub A 0 (border map.data max1.toNat) r1 r0,
          mulSub A 0 (border map.data max2.toNat) (mulSub A 0 (border map.data max1.toNat) r1 r0) r1, a, b⟩ := by
  obtain ⟨p, rfl⟩ := Int.eq_ofNat_of_zero_le h1
  rw [show ((p : Int) + 1).toNat = p + 1 by omega, List.range_succ, List.foldlM_append,
    offIl_loop hM hS p max2 h1' r0 r1 p (le_refl p), Res.bind_ok]
  simp only [List.foldlM_cons, List.foldlM_nil]
  unfold offIlStep
  rw [SliceMap.at_eq (by omega) (by omega), Res.bind_ok]
  unfold end1For
  rw [if_pos rfl, SliceMap.at_eq h2 h2', Res.bind_ok]
  have e1 : border map.data ((p : Int)).toNat = edge map.data (p + 1) := by
    rw [Int.toNat_natCast]; rfl
  have hle : edge map.data (p - 1) ≤ border map.data max2.toNat := by
    have : edge map.data (p - 1) ≤ edge map.data (max2.toNat + 1) := edge_mono hS.mono (by omega)
    exact this
  simp only [e1]
  rw [hM.spmv _ _ _ _ (edge_mono hS.mono (by omega)) (by exact hS.le _), Res.bind_ok, il_first hS,
    hM.spmv _ _ _ _ hle (hS.le _), Res.bind_ok, mulSub_join (Nat.zero_le _) hle]
  exact ⟨_, _, rfl⟩

/-- One interleaved step is two basic steps. -/
theorem offInterStep_eq (hM : Implements half M A) (hS : Slices map.data A) (opt : Bool) (num : Nat)
    (val : (Fin n → V) → Res α) (s : St n V (List α)) (k : Nat) (hk : k + 1 < num) :
    offInterStep M map opt num val s k
      = (offBasicStep M map opt num val s k >>= fun s => offBasicStep M map opt num val s (k + 1)) := by
  have r1 := ilMax_range (m := map) hS.nonempty (opt := opt) (show k < num by omega)
  have r2 := ilMax_range (m := map) hS.nonempty (opt := opt) hk
  obtain ⟨a, b, e⟩ := offIl_eq hM hS _ _ r1.1 r1.2 r2.1 r2.2 ilMax_step s.r0 s.r1
  unfold offInterStep
  simp only [e, Res.bind_ok]
  unfold offBasicStep
  rw [sizeFor_eq (fun _ => hS.nonempty) hS.last (show k < num by omega), Res.bind_ok,
    hM.spmv _ _ _ _ (Nat.zero_le _) (rowsFor_le hS _ _ _), Res.bind_ok]
  unfold rowsFor
  rcases offCollect val s.col k (mulSub A 0 (border map.data (ilMax map opt k num).toNat) s.r1 s.r0) with c | _ | _
  · simp only [Res.bind_ok, Res.pure_eq]
    rw [sizeFor_eq (fun _ => hS.nonempty) hS.last hk, Res.bind_ok,
      hM.spmv _ _ _ _ (Nat.zero_le _) (rowsFor_le hS _ _ _), Res.bind_ok]
    rfl
  · rfl
  · rfl

/-! ## Loops by two -/

/-- A loop whose body does two steps. -/
theorem foldlM_pairs {S : Type} (f g : S → Nat → Res S) (start m : Nat)
    (h : ∀ s k, start ≤ k → k + 1 < start + 2 * m → f s k = (g s k >>= fun s => g s (k + 1))) (s : S) :
    (List.range' start m 2).foldlM f s = (List.range' start (2 * m)).foldlM g s := by
  induction m generalizing start s with
  | zero => rfl
  | succ m ih =>
    rw [show 2 * (m + 1) = 2 * m + 1 + 1 by omega, List.range'_succ, List.range'_succ, List.range'_succ]
    simp only [List.foldlM_cons]
    rw [h s start (le_refl _) (by omega), bind_assoc]
    refine bind_congr' _ _ _ fun s1 _ => bind_congr' _ _ _ fun s2 _ => ?_
    rw [ih (start + 2) (fun s k h1 h2 => h s k (by omega) (by omega))]

theorem offInterleaved_eq (hM : Implements half M A) (hS : Slices map.data A) (opt : Bool)
    (val : (Fin n → V) → Res α) (moments : List α) (hnum : moments.length % 2 = 0)
    (r0 r1 : Fin n → V) :
    offInterleaved M map opt val moments r0 r1 = offBasic M map opt val moments r0 r1 := by
  unfold offInterleaved offBasic
  simp only
  rw [foldlM_pairs _ (offBasicStep M map opt moments.length val), show 2 * ((moments.length - 1) / 2) = moments.length - 2 by omega]
  intro s k h1 h2
  exact offInterStep_eq hM hS opt _ val s k (by omega)

/-! ## Diagonal -/

omit [CommRing K] [Module K V] in
theorem dotOn_join {a b c : Nat} (hab : a ≤ b) (hbc : b ≤ c) (x y : Fin n → V) :
    dotOn a b x y + dotOn b c x y = dotOn a c x y := by
  unfold dotOn
  rw [← Finset.sum_add_distrib]
  refine Finset.sum_congr rfl fun i _ => ?_
  by_cases h1 : a ≤ i.val ∧ i.val < b
  · rw [if_pos h1, if_neg (by omega), if_pos (by omega), add_zero]
  · rw [if_neg h1, zero_add]
    by_cases h2 : b ≤ i.val ∧ i.val < c
    · rw [if_pos h2, if_pos (by omega)]
    · rw [if_neg h2, if_neg (by omega)]

omit [CommRing K] [Module K V] in
theorem dotOn_congr {a b : Nat} {x y x' y' : Fin n → V}
    (h : ∀ i, a ≤ i.val → i.val < b → x i = x' i ∧ y i = y' i) : dotOn a b x y = dotOn a b x' y' := by
  unfold dotOn
  refine Finset.sum_congr rfl fun i _ => ?_
  split
  · rename_i hi
    rw [(h i hi.1 hi.2).1, (h i hi.1 hi.2).2]
  · rfl

omit [CommRing K] [Module K V] in
theorem dotOn_self {a : Nat} {x y : Fin n → V} : dotOn a a x y = 0 := by
  unfold dotOn
  refine Finset.sum_eq_zero fun i _ => ?_
  rw [if_neg (by omega)]

theorem diagIl_loop (hM : Implements half M A) (hS : Slices map.data A) (p : Nat) (q : Int)
    (hp : (p : Int) ≤ map.lastIndex) (r0 r1 full full2 : Fin n → V)
    (hf : full = mulSub A 0 (edge map.data (p + 1)) r1 r0)
    (hf2 : full2 = mulSub A 0 (border map.data q.toNat) full r1)
    (hpq : (p : Int) - 1 ≤ q) (t : Nat) (ht : t ≤ p) :
    (List.range t).foldlM (diagIlStep M map p q) ⟨r0, r1, 0, 0, 0, 0, 0, 0⟩
      = .ok ⟨mulSub A 0 (edge map.data t) r1 r0, mulSub A 0 (edge map.data (t - 1)) full r1,
          dotOn 0 (edge map.data t) r1 r1, dotOn 0 (edge map.data t) full r1,
          dotOn 0 (edge map.data (t - 1)) full full, dotOn 0 (edge map.data (t - 1)) full2 full,
          edge map.data t, edge map.data (t - 1)⟩ := by
  induction t with
  | zero =>
    simp only [List.range_zero, List.foldlM_nil, edge, Nat.zero_sub, mulSub_self, dotOn_self]
    rfl
  | succ t ih =>
    rw [List.range_succ, List.foldlM_append, ih (by omega), Res.bind_ok]
    simp only [List.foldlM_cons, List.foldlM_nil]
    unfold diagIlStep
    rw [SliceMap.at_eq (by omega) (by omega), Res.bind_ok]
    unfold end1For
    rw [if_neg (by omega), Res.bind_ok]
    have e1 : border map.data ((t : Int)).toNat = edge map.data (t + 1) := by
      rw [Int.toNat_natCast]; rfl
    have m01 : edge map.data (t - 1) ≤ edge map.data t := edge_mono hS.mono (by omega)
    have m12 : edge map.data t ≤ edge map.data (t + 1) := edge_mono hS.mono (by omega)
    have m2f : edge map.data (t + 1) ≤ edge map.data (p + 1) := edge_mono hS.mono (by omega)
    simp only [e1]
    rw [hM.diag _ _ _ _ _ _ m12 (hS.le _), Res.bind_ok]
    simp only [diagSpec]
    rw [hM.diag _ _ _ _ _ _ m01 (Nat.le_trans m12 (hS.le _)), Res.bind_ok]
    simp only [diagSpec]
    rw [il_first hS]
    have s2 : mulSub A (edge map.data (t - 1)) (edge map.data t) (mulSub A 0 (edge map.data (t + 1)) r1 r0)
        (mulSub A 0 (edge map.data (t - 1)) full r1) = mulSub A 0 (edge map.data t) full r1 := by
      rw [hf]; exact il_second hS t m2f r0 r1
    rw [s2]
    have hx : ∀ i : Fin n, edge map.data t ≤ i.val → mulSub A 0 (edge map.data (t - 1)) full r1 i = r1 i :=
      fun i hi => mulSub_ge (by omega)
    have hy : ∀ i : Fin n, i.val < edge map.data (t + 1) → mulSub A 0 (edge map.data (t + 1)) r1 r0 i = full i := by
      intro i hi
      rw [hf, mulSub_lt hi, mulSub_lt (by omega)]
    have d1 : dotOn (edge map.data t) (edge map.data (t + 1)) (mulSub A 0 (edge map.data (t - 1)) full r1)
        (mulSub A 0 (edge map.data (t - 1)) full r1) = dotOn (edge map.data t) (edge map.data (t + 1)) r1 r1 :=
      dotOn_congr fun i h1 _ => ⟨hx i h1, hx i h1⟩
    have d2 : dotOn (edge map.data t) (edge map.data (t + 1)) (mulSub A 0 (edge map.data (t + 1)) r1 r0)
        (mulSub A 0 (edge map.data (t - 1)) full r1) = dotOn (edge map.data t) (edge map.data (t + 1)) full r1 :=
      dotOn_congr fun i h1 h2 => ⟨hy i h2, hx i h1⟩
    have d3 : dotOn (edge map.data (t - 1)) (edge map.data t) (mulSub A 0 (edge map.data (t + 1)) r1 r0)
        (mulSub A 0 (edge map.data (t + 1)) r1 r0) = dotOn (edge map.data (t - 1)) (edge map.data t) full full :=
      dotOn_congr fun i h1 h2 => ⟨hy i (by omega), hy i (by omega)⟩
    have hq : edge map.data t ≤ border map.data q.toNat :=
      (edge_mono hS.mono (show t ≤ q.toNat + 1 by omega) : edge map.data t ≤ edge map.data (q.toNat + 1))
    have d4 : dotOn (edge map.data (t - 1)) (edge map.data t) (mulSub A 0 (edge map.data t) full r1)
        (mulSub A 0 (edge map.data (t + 1)) r1 r0) = dotOn (edge map.data (t - 1)) (edge map.data t) full2 full :=
      dotOn_congr fun i h1 h2 => ⟨by rw [hf2, mulSub_lt h2, mulSub_lt (by omega)], hy i (by omega)⟩
    rw [d1, d2, d3, d4, dotOn_join (Nat.zero_le _) m12, dotOn_join (Nat.zero_le _) m12,
      dotOn_join (Nat.zero_le _) m01, dotOn_join (Nat.zero_le _) m01]
    rfl

theorem diagIl_eq (hM : Implements half M A) (hS : Slices map.data A) (max1 max2 : Int)
    (h1 : 0 ≤ max1) (h1' : max1 ≤ map.lastIndex) (h2 : 0 ≤ max2) (h2' : max2 ≤ map.lastIndex) (h12 : max1 - 1 ≤ max2)
    (r0 r1 full full2 : Fin n → V) (hf : full = mulSub A 0 (border map.data max1.toNat) r1 r0)
    (hf2 : full2 = mulSub A 0 (border map.data max2.toNat) full r1) :
    ∃ a b, (List.range (max1 + 1).toNat).foldlM (diagIlStep M map max1 max2) ⟨r0, r1, 0, 0, 0, 0, 0, 0⟩
      = .ok ⟨full, full2, dotOn 0 (border map.data max1.toNat) r1 r1, dotOn 0 (border map.data max1.toNat) full r1,
          dotOn 0 (border map.data max2.toNat) full full, dotOn 0 (border map.data max2.toNat) full2 full, a, b⟩ := by
  obtain ⟨p, rfl⟩ := Int.eq_ofNat_of_zero_le h1
  have e1 : border map.data ((p : Int)).toNat = edge map.data (p + 1) := by
    rw [Int.toNat_natCast]; rfl
  rw [e1] at hf
  rw [show ((p : Int) + 1).toNat = p + 1 by omega, List.range_succ, List.foldlM_append,
    diagIl_loop hM hS p max2 h1' r0 r1 full full2 hf hf2 h12 p (le_refl p), Res.bind_ok]
  simp only [List.foldlM_cons, List.foldlM_nil]
  unfold diagIlStep
  rw [SliceMap.at_eq (by omega) (by omega), Res.bind_ok]
  unfold end1For
  rw [if_pos rfl, SliceMap.at_eq h2 h2', Res.bind_ok]
  have hle : edge map.data (p - 1) ≤ border map.data max2.toNat := by
    have : edge map.data (p - 1) ≤ edge map.data (max2.toNat + 1) := edge_mono hS.mono (by omega)
    exact this
  have m12 : edge map.data p ≤ edge map.data (p + 1) := edge_mono hS.mono (by omega)
  have m01 : edge map.data (p - 1) ≤ edge map.data p := edge_mono hS.mono (by omega)
  simp only [e1]
  rw [hM.diag _ _ _ _ _ _ m12 (hS.le _), Res.bind_ok]
  simp only [diagSpec]
  rw [il_first hS, hM.diag _ _ _ _ _ _ hle (hS.le _), Res.bind_ok]
  simp only [diagSpec]
  rw [← hf, mulSub_join (Nat.zero_le _) hle, ← hf2]
  have hx : ∀ i : Fin n, edge map.data p ≤ i.val → mulSub A 0 (edge map.data (p - 1)) full r1 i = r1 i :=
    fun i hi => mulSub_ge (by omega)
  rw [dotOn_congr (a := edge map.data p) (x := mulSub A 0 (edge map.data (p - 1)) full r1) (x' := r1)
      (y := mulSub A 0 (edge map.data (p - 1)) full r1) (y' := r1) (fun i h1 _ => ⟨hx i h1, hx i h1⟩),
    dotOn_congr (a := edge map.data p) (x := full) (x' := full)
      (y := mulSub A 0 (edge map.data (p - 1)) full r1) (y' := r1) (fun i h1 _ => ⟨rfl, hx i h1⟩),
    dotOn_join (Nat.zero_le _) m12, dotOn_join (Nat.zero_le _) m12, dotOn_join (Nat.zero_le _) hle,
    dotOn_join (Nat.zero_le _) hle]
  exact ⟨_, _, rfl⟩

theorem diagInterStep_eq (hM : Implements half M A) (hS : Slices map.data A) (opt : Bool) (num : Nat)
    (s : St n V (DiagCol V)) (k : Nat) (hk : k + 1 < num) :
    diagInterStep M map opt num s k
      = (diagBasicStep M map opt num s k >>= fun s => diagBasicStep M map opt num s (k + 1)) := by
  have r1 := ilMax_range (m := map) hS.nonempty (opt := opt) (show k < num by omega)
  have r2 := ilMax_range (m := map) hS.nonempty (opt := opt) hk
  obtain ⟨a, b, e⟩ := diagIl_eq hM hS _ _ r1.1 r1.2 r2.1 r2.2 ilMax_step s.r0 s.r1 _ _ rfl rfl
  unfold diagInterStep
  simp only [e, Res.bind_ok]
  unfold diagBasicStep
  rw [sizeFor_eq (fun _ => hS.nonempty) hS.last (show k < num by omega), Res.bind_ok,
    hM.diag _ _ _ _ _ _ (Nat.zero_le _) (rowsFor_le hS _ _ _), Res.bind_ok]
  unfold rowsFor
  simp only [diagSpec, zero_add]
  rcases s.col.collect k (dotOn 0 (border map.data (ilMax map opt k num).toNat) s.r1 s.r1)
    (dotOn 0 (border map.data (ilMax map opt k num).toNat)
      (mulSub A 0 (border map.data (ilMax map opt k num).toNat) s.r1 s.r0) s.r1) with c | _ | _
  · simp only [Res.bind_ok, Res.pure_eq]
    rw [sizeFor_eq (fun _ => hS.nonempty) hS.last hk, Res.bind_ok,
      hM.diag _ _ _ _ _ _ (Nat.zero_le _) (rowsFor_le hS _ _ _), Res.bind_ok]
    simp only [diagSpec, zero_add]
    rfl
  · rfl
  · rfl

theorem diagInterleaved_eq (hM : Implements half M A) (hS : Slices map.data A) (opt : Bool)
    (c : DiagCol V) (hnum : c.moments.length % 4 = 2) (r0 r1 : Fin n → V) :
    diagInterleaved M map opt c r0 r1 = diagBasic M map opt c r0 r1 := by
  unfold diagInterleaved diagBasic
  simp only
  rw [foldlM_pairs _ (diagBasicStep M map opt c.moments.length),
    show 2 * (c.moments.length / 2 / 2) = c.moments.length / 2 - 1 by omega]
  intro s k h1 h2
  exact diagInterStep_eq hM hS opt _ s k (by omega)

end Verif.Kpm
