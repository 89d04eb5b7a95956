import Mathlib.Data.Rat.Cast.Lemmas
import Mathlib.Algebra.BigOperators.Group.Finset.Basic
import Verif.Kpm.BatchInv
import Verif.Thread.PropsPool

/-!
# Results of batched calculations do not depend on the threads (C30)
-/

namespace Verif.Kpm
open Verif.Thread

variable {M : Type}

/-! ## The jobs -/

theorem batchJobs_sum {threads bs nv : Nat} (hbs : 0 < bs) :
    nv ≤ ((batchJobs threads bs nv).map (BatchJob.width bs)).sum ∧
      ∀ j ∈ batchJobs threads bs nv, ((batchJobs threads bs nv).map (BatchJob.width bs)).sum < nv + j.width bs := by
  have hd := Nat.div_add_mod nv bs
  have hm := Nat.mod_lt nv hbs
  have hc : nv / bs * bs = bs * (nv / bs) := Nat.mul_comm ..
  unfold batchJobs
  split_ifs with h
  · have hs : ((List.replicate (nv / bs + 1) BatchJob.batch).map (BatchJob.width bs)).sum = nv / bs * bs + bs := by
      simp [BatchJob.width, Nat.add_mul]
    rw [hs]
    refine ⟨by omega, fun j hj => ?_⟩
    rw [List.eq_of_mem_replicate hj]
    simp only [BatchJob.width]
    omega
  · have hs : ((List.replicate (nv / bs) BatchJob.batch ++ List.replicate (nv % bs) BatchJob.single).map
        (BatchJob.width bs)).sum = nv / bs * bs + nv % bs := by
      simp [BatchJob.width]
    rw [hs]
    refine ⟨by omega, fun j hj => ?_⟩
    cases j <;> simp only [BatchJob.width] <;> omega

theorem batchJobs_ne {threads bs nv : Nat} (hbs : 0 < bs) (h : 0 < nv) : batchJobs threads bs nv ≠ [] := by
  intro e
  have := (batchJobs_sum (threads := threads) (nv := nv) hbs).1
  rw [e] at this
  simp at this
  omega

/-! ## The collectors -/

theorem leftCols_eq {nv idx bs : Nat} (f : Nat → M) (h : idx ≤ nv) :
    leftCols nv idx ((List.range bs).map f) = .ok ((List.range (min bs (nv - idx))).map f) := by
  unfold leftCols
  simp only [List.length_map, List.length_range]
  by_cases hc : (nv : Int) - idx > bs
  · rw [if_pos hc, if_neg (by omega)]
    simp only [Int.toNat_natCast]
    rw [List.take_of_length_le (by simp), Nat.min_eq_left (by omega)]
  · rw [if_neg hc, if_neg (by omega)]
    have : ((nv : Int) - idx).toNat = nv - idx := by omega
    rw [this, ← List.map_take, List.take_range, Nat.min_comm]

section
variable {K : Type} [Field K] [CharZero K] [AddCommGroup M] [Module K M]

/-- The sum of the moments of the delivered vectors that were asked for. -/
def partSum (nv : Nat) (col : Nat → M) (d : Multiset Nat) : M := ((d.filter (· < nv)).map col).sum

omit [Field K] [CharZero K] [Module K M] in
theorem partSum_batch (nv idx bs : Nat) (col : Nat → M) (h : idx ≤ nv) :
    ((List.range (min bs (nv - idx))).map fun i => col (idx + i)).sum = partSum nv col ((Multiset.range bs).map (idx + ·)) := by
  unfold partSum
  rw [Multiset.filter_map, Multiset.map_map]
  have e : (Multiset.range bs).filter ((· < nv) ∘ (idx + ·)) = Multiset.range (min bs (nv - idx)) := by
    apply Multiset.Nodup.ext (Multiset.Nodup.filter _ (Multiset.nodup_range _)) (Multiset.nodup_range _) |>.2
    intro a
    simp only [Multiset.mem_filter, Multiset.mem_range, Function.comp]
    omega
  rw [e]
  simp only [Function.comp_def, Multiset.range, Multiset.map_coe, Multiset.sum_coe]

/-- State of the accumulator after the vectors `d`. -/
def AccGood (K : Type) [Field K] [Module K M] (nv N : Nat) (col : Nat → M) (d : Multiset Nat) (c : Nat) (x : Option M) : Prop :=
  (d.card = N ∧ x = some ((nv : K)⁻¹ • partSum nv col d)) ∨ (d.card < N ∧ c = d.card ∧ (d ≠ 0 → x = some (partSum nv col d)))

omit [CharZero K] in
theorem accumulates {bs nv N : Nat} (col : Nat → M) (hbs : 0 < bs) (hN : nv ≤ N) :
    Collects bs nv N col (accumulator K) (AccGood K nv N col) := by
  have inv1 : nv = 1 → ∀ y : M, (nv : K)⁻¹ • y = y := by
    rintro rfl y; simp
  constructor
  · intro d c x idx hg hw hidx hcase hle
    rcases hg with ⟨h, _⟩ | ⟨hlt, rfl, hx⟩
    · omega
    have hsum : partSum nv col (idx ::ₘ d) = partSum nv col d + col idx := by
      unfold partSum
      rw [Multiset.filter_cons_of_pos _ (by omega), Multiset.map_cons, Multiset.sum_cons, add_comm]
    have hr : (if d.card = 0 then Res.ok (col idx) else getData x >>= fun r => .ok (r + col idx))
        = .ok (partSum nv col (idx ::ₘ d)) := by
      by_cases h0 : d = 0
      · subst h0; rw [hsum]; simp [partSum]
      · rw [if_neg (by simpa using h0), hx h0, hsum]; rfl
    simp only [accumulator]
    rw [hr, Res.bind_ok]
    by_cases hfull : d.card + 1 = N
    · by_cases h1 : nv = 1
      · rw [if_neg (by simp [h1])]
        exact ⟨_, _, rfl, .inl ⟨by simpa using hfull, by rw [inv1 h1]⟩⟩
      · rw [if_pos ⟨by omega, h1⟩]
        exact ⟨_, _, rfl, .inl ⟨by simpa using hfull, rfl⟩⟩
    · rw [if_neg (by omega)]
      exact ⟨_, _, rfl, .inr ⟨by simp; omega, by simp, fun _ => rfl⟩⟩
  · intro d c x idx hg hw hidx hcase hle
    rcases hg with ⟨h, _⟩ | ⟨hlt, rfl, hx⟩
    · omega
    have hsum : partSum nv col ((Multiset.range bs).map (idx + ·) + d)
        = partSum nv col d + partSum nv col ((Multiset.range bs).map (idx + ·)) := by
      unfold partSum
      rw [Multiset.filter_add, Multiset.map_add, Multiset.sum_add, add_comm]
    have hr : (if d.card = 0 then Res.ok 0 else getData x)
        = .ok (partSum nv col d) := by
      by_cases h0 : d = 0
      · subst h0; simp [partSum]
      · rw [if_neg (by simpa using h0), hx h0]; rfl
    have hcard : ((Multiset.range bs).map (idx + ·) + d).card = d.card + bs := by
      simp; omega
    simp only [accumulator]
    rw [hr, Res.bind_ok, leftCols_eq _ (by omega), Res.bind_ok, partSum_batch _ _ _ _ (by omega)]
    simp only [List.length_map, List.length_range]
    rw [← hsum]
    by_cases hfull : d.card + bs = N
    · by_cases h1 : nv = 1
      · rw [if_neg (by simp [h1])]
        exact ⟨_, _, rfl, .inl ⟨by rw [hcard]; exact hfull, by rw [inv1 h1]⟩⟩
      · rw [if_pos ⟨by omega, h1⟩]
        exact ⟨_, _, rfl, .inl ⟨by rw [hcard]; exact hfull, rfl⟩⟩
    · rw [if_neg (by omega)]
      exact ⟨_, _, rfl, .inr ⟨by rw [hcard]; omega, hcard.symm, fun _ => rfl⟩⟩

end

/-- State of the concatenator after the vectors `d`. -/
def CatGood (nv : Nat) (col : Nat → M) (d : Multiset Nat) (c : Nat) (x : List (Option M)) : Prop :=
  (d = 0 ∧ c = 0) ∨ (c ≠ 0 ∧ x.length = nv ∧ ∀ k ∈ d, k < nv → x[k]? = some (some (col k)))

theorem setCols_spec {idx n : Nat} {x : List (Option M)} (f : Nat → M) (h : idx + n ≤ x.length) :
    ∃ y, setCols idx ((List.range n).map fun i => f (idx + i)) x = .ok y ∧ y.length = x.length ∧
      ∀ k, y[k]? = if idx ≤ k ∧ k < idx + n then some (some (f k)) else x[k]? := by
  refine ⟨_, if_pos (by simpa using h), ?_, fun k => ?_⟩
  · simp; omega
  · simp only [List.length_map, List.length_range]
    by_cases h1 : k < idx
    · rw [if_neg (by omega), List.append_assoc, List.getElem?_append_left (by simp; omega), List.getElem?_take_of_lt h1]
    · by_cases h2 : k < idx + n
      · rw [if_pos ⟨by omega, h2⟩, List.getElem?_append_left (by simp; omega), List.getElem?_append_right (by simp; omega)]
        simp only [List.length_take, List.getElem?_map]
        rw [Nat.min_eq_left (by omega), List.getElem?_range (by omega)]
        simp only [Option.map_some]
        congr 3
        omega
      · rw [if_neg (by omega), List.getElem?_append_right (by simp; omega)]
        simp only [List.length_append, List.length_take, List.length_map, List.length_range, List.getElem?_drop]
        congr 1
        omega

theorem concatenates {bs nv N : Nat} (col : Nat → M) (hbs : 0 < bs) (hN : nv ≤ N) (hnv : 0 < nv) :
    Collects bs nv N col concatenator (CatGood nv col) := by
  have hdata : ∀ (d : Multiset Nat) c (x : List (Option M)), CatGood nv col d c x →
      (if c = 0 then List.replicate nv none else x).length = nv ∧
      ∀ k ∈ d, k < nv → (if c = 0 then List.replicate nv none else x)[k]? = some (some (col k)) := by
    intro d c x hg
    rcases hg with ⟨rfl, rfl⟩ | ⟨hc, hl, hk⟩
    · simp
    · rw [if_neg hc]; exact ⟨hl, hk⟩
  constructor
  · intro d c x idx hg hw hidx _ _
    obtain ⟨hl, hk⟩ := hdata d c x hg
    obtain ⟨y, e, hy, hyk⟩ := setCols_spec (idx := idx) (n := 1) col (x := if c = 0 then List.replicate nv none else x) (by omega)
    simp only [List.range_one, List.map_cons, List.map_nil, add_zero] at e
    simp only [concatenator, e, Res.bind_ok]
    refine ⟨_, _, rfl, .inr ⟨by omega, by omega, fun k hkd hkn => ?_⟩⟩
    rw [hyk]
    by_cases h : idx ≤ k ∧ k < idx + 1
    · exact if_pos h
    · rw [if_neg h]
      rcases Multiset.mem_cons.1 hkd with rfl | hkd
      · omega
      · exact hk k hkd hkn
  · intro d c x idx hg hw hidx _ _
    obtain ⟨hl, hk⟩ := hdata d c x hg
    have hmin : 0 < min bs (nv - idx) := by
      have : idx < nv := by omega
      exact lt_min hbs (by omega)
    obtain ⟨y, e, hy, hyk⟩ := setCols_spec (idx := idx) (n := min bs (nv - idx)) col
      (x := if c = 0 then List.replicate nv none else x) (by have := Nat.min_le_right bs (nv - idx); omega)
    simp only [concatenator, leftCols_eq (fun i => col (idx + i)) (show idx ≤ nv by omega), Res.bind_ok, e]
    refine ⟨_, _, rfl, .inr ⟨by simp; omega, by omega, fun k hkd hkn => ?_⟩⟩
    rw [hyk]
    by_cases h : idx ≤ k ∧ k < idx + min bs (nv - idx)
    · exact if_pos h
    · rw [if_neg h]
      rcases Multiset.mem_add.1 hkd with hkd | hkd
      · simp only [Multiset.mem_map, Multiset.mem_range] at hkd
        obtain ⟨a, ha, rfl⟩ := hkd
        omega
      · exact hk k hkd hkn

/-! ## The property -/

/-- The calls of `SelectAlgorithm::operator()(BatchDiagonalMoments*)` on its pool (Compute.cpp 64-87). -/
def batchProg (threads bs nv : Nat) : List (Cmd BatchJob) := (batchJobs threads bs nv).map .add ++ [.join]

theorem beforeJoin_batchProg (threads bs nv : Nat) : beforeJoin (batchProg threads bs nv) = batchJobs threads bs nv := by
  unfold batchProg
  induction batchJobs threads bs nv with
  | nil => rfl
  | cons j js ih => simpa [beforeJoin] using ih

/-- **C30** (DOS).  For every number of worker threads, batch size, number of vectors and schedule of the threads: when
the pool has been joined, the data are the average of the moments of exactly the first `nv` vectors of the starter. -/
theorem C30_average {K : Type} [Field K] [AddCommGroup M] [Module K M] {W bs nv : Nat} (hW : 0 < W) (hbs : 0 < bs)
    (hnv : 0 < nv) (col : Nat → M) (s : Pool W BatchJob (Res (BatchMem (Option M))) (BatchRun M))
    (h : Reach (batchSem bs nv col (accumulator K)) (batchProg W bs nv) (.ok ⟨0, 0, none⟩) s) (hj : s.joined = true) :
    ∃ mem, s.mem = .ok mem ∧ mem.data = some ((nv : K)⁻¹ • ∑ k ∈ Finset.range nv, col k) := by
  have hr := C32_all_jobs hW _ _ _ _ h hj
  rw [beforeJoin_batchProg] at hr
  obtain ⟨h1, h2⟩ := batchJobs_sum (threads := W) (nv := nv) hbs
  obtain ⟨mem, e, hg⟩ := batch_all (accumulates (K := K) col hbs h1) rfl h2
    (.inr ⟨by simpa using lt_of_lt_of_le hnv h1, rfl, fun h => absurd rfl h⟩) hr
  refine ⟨mem, e, ?_⟩
  rcases hg with ⟨_, hx⟩ | ⟨hlt, _⟩
  · rw [hx]
    congr 2
    unfold partSum
    have : ∀ N, nv ≤ N → (Multiset.range N).filter (· < nv) = Multiset.range nv := by
      intro N hN
      apply (Multiset.Nodup.ext (Multiset.Nodup.filter _ (Multiset.nodup_range _)) (Multiset.nodup_range _)).2
      intro a
      simp only [Multiset.mem_filter, Multiset.mem_range]
      omega
    rw [this _ h1]
    rfl
  · simp at hlt

/-- **C30** (LDOS).  For every number of worker threads, batch size, number of vectors and schedule of the threads: when
the pool has been joined, column `k` of the data holds the moments of vector `k` of the starter, for every `k`. -/
theorem C30_columns {W bs nv : Nat} (hW : 0 < W) (hbs : 0 < bs) (hnv : 0 < nv) (col : Nat → M)
    (s : Pool W BatchJob (Res (BatchMem (List (Option M)))) (BatchRun M))
    (h : Reach (batchSem bs nv col concatenator) (batchProg W bs nv) (.ok ⟨0, 0, []⟩) s) (hj : s.joined = true) :
    ∃ mem, s.mem = .ok mem ∧ mem.data = (List.range nv).map fun k => some (col k) := by
  have hr := C32_all_jobs hW _ _ _ _ h hj
  rw [beforeJoin_batchProg] at hr
  obtain ⟨h1, h2⟩ := batchJobs_sum (threads := W) (nv := nv) hbs
  obtain ⟨mem, e, hg⟩ := batch_all (concatenates col hbs h1 hnv) rfl h2 (.inl ⟨rfl, rfl⟩) hr
  refine ⟨mem, e, ?_⟩
  rcases hg with ⟨h0, _⟩ | ⟨_, hl, hk⟩
  · have := congrArg Multiset.card h0
    simp only [Multiset.card_range, Multiset.card_zero] at this
    omega
  · apply List.ext_getElem?
    intro k
    by_cases hkn : k < nv
    · rw [hk k (by simp only [Multiset.mem_range]; omega) hkn, List.getElem?_map, List.getElem?_range hkn]
      rfl
    · rw [List.getElem?_eq_none (by omega), List.getElem?_eq_none (by simp; omega)]

/-- The number of steps a job has left after the next. -/
def stepsLeft : BatchRun M → Nat
  | .take _ => 1
  | _ => 0

theorem batch_decreases {D : Type} {bs nv : Nat} (col : Nat → M) (C : Collector D M) (r : BatchRun M) (m m' : Res (BatchMem D))
    (r' : BatchRun M) (h : (batchSem bs nv col C).step r m = (m', some r')) :
    stepsLeft r' < stepsLeft r := by
  match r, m with
  | .take .single, .ok m => simp [batchSem, batchStep] at h; rw [← h.2]; simp [stepsLeft]
  | .take .batch, .ok m => simp [batchSem, batchStep] at h; rw [← h.2]; simp [stepsLeft]
  | .take j, .err _ => simp [batchSem, batchStep] at h
  | .take j, .ub => simp [batchSem, batchStep] at h
  | .one _ _, .ok _ => simp [batchSem, batchStep] at h
  | .one _ _, .err _ => simp [batchSem, batchStep] at h
  | .one _ _, .ub => simp [batchSem, batchStep] at h
  | .many _ _, .ok _ => simp [batchSem, batchStep] at h
  | .many _ _, .err _ => simp [batchSem, batchStep] at h
  | .many _ _, .ub => simp [batchSem, batchStep] at h

/-- **C30** (termination).  Every execution of a batched calculation ends: the number of steps, apart from spurious
wake-ups, is bounded. -/
theorem C30_terminates {D : Type} {W bs nv : Nat} (col : Nat → M) (C : Collector D M) (mem : Res (BatchMem D)) :
    ∃ bound, ∀ n k s, Run (batchSem bs nv col C) (Pool.init W (BatchRun M) (batchProg W bs nv) mem) n k s → n ≤ bound + k :=
  C32_terminates _ stepsLeft (batch_decreases col C) _ _

/-- **C30** (some execution ends).  Every batched calculation has an execution in which the pool is joined. -/
theorem C30_can_finish {D : Type} {W bs nv : Nat} (col : Nat → M) (C : Collector D M) (mem : Res (BatchMem D)) :
    ∃ s, Reach (W := W) (batchSem bs nv col C) (batchProg W bs nv) mem s ∧ s.joined = true := by
  obtain ⟨s, hs, hf⟩ := C32_can_finish (W := W) (batchSem bs nv col C) stepsLeft
    (batch_decreases col C) (batchProg W bs nv) mem
  exact ⟨s, hs, C32_finished_joined _ _ _ s hs hf⟩

/-! ## Concrete cases -/

example : batchJobs 1 4 7 = [.batch, .batch] := by decide
example : batchJobs 2 4 7 = [.batch, .single, .single, .single] := by decide

/-- One worker, one vector: the accumulator after the pool has been joined. -/
example : ∃ s : Pool 1 BatchJob (Res (BatchMem (Option ℚ))) (BatchRun ℚ),
    Reach (batchSem 4 1 (fun k => (k : ℚ) + 3) (accumulator ℚ)) (batchProg 1 4 1) (.ok ⟨0, 0, none⟩) s ∧ s.joined = true := by
  have s0 : Reach (W := 1) (batchSem 4 1 (fun k => (k : ℚ) + 3) (accumulator ℚ)) (batchProg 1 4 1) (.ok ⟨0, 0, none⟩) _ := .init
  have s1 := s0.step (.spawn _ 0 rfl (by decide))
  have s2 := s1.step (.spawned _ rfl)
  have s3 := s2.step (.add _ .single [.join, .join] rfl rfl)
  have s4 := s3.step (.notifyNone _ rfl (by simp))
  have s5 := s4.step (.popJob _ 0 .single [] (by simp) rfl)
  have s6 := s5.step (.begin _ 0 .single (by simp))
  have s7 := s6.step (.run _ 0 (.take .single) (.one 0 ((0 : ℕ) + 3)) (.ok ⟨1, 0, none⟩) (by simp [batchSem]) rfl)
  have s8 := s7.step (.finish _ 0 (.one 0 ((0 : ℕ) + 3)) (.ok ⟨1, 1, some ((0 : ℕ) + 3)⟩) (by simp)
    (by simp [batchSem, batchStep, accumulator]))
  have s9 := s8.step (.close _ [.join] rfl rfl rfl)
  have s10 := s9.step (.notifyAll _ rfl)
  have s11 := s10.step (.popClosed _ 0 (by simp [Worker.wake]) rfl rfl)
  have s12 := s11.step (.joinOne _ 0 rfl (by decide) (by simp))
  have s13 := s12.step (.joinEnd _ rfl)
  exact ⟨_, s13, rfl⟩

end Verif.Kpm
