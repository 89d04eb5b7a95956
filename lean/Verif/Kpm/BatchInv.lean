import Mathlib.Data.Multiset.Range
import Mathlib.Algebra.BigOperators.Group.Finset.Basic
import Mathlib.Tactic.Abel
import Verif.Kpm.Batch

/-!
# Invariant of the batch jobs
-/

namespace Verif.Kpm
open Verif.Thread

variable {M D : Type}

/-- The numbers of the vectors a running job holds. -/
def BatchRun.span : BatchRun M → Multiset Nat
  | .take _ => 0
  | .one idx _ => {idx}
  | .many idx a => (Multiset.range a.length).map (idx + ·)

/-- The number of vectors a running job has yet to take. -/
def BatchRun.todo (bs : Nat) : BatchRun M → Nat
  | .take j => j.width bs
  | _ => 0

/-- The number of vectors a running job is responsible for. -/
def BatchRun.weight (bs : Nat) : BatchRun M → Nat
  | .take j => j.width bs
  | .one _ _ => 1
  | .many _ a => a.length

/-- The moments a job holds belong to its vectors. -/
def BatchRun.Valid (bs N : Nat) (col : Nat → M) : BatchRun M → Prop
  | .take _ => True
  | .one idx a => a = col idx ∧ idx + 1 ≤ N
  | .many idx a => a = (List.range bs).map (fun i => col (idx + i)) ∧ idx + bs ≤ N

/-- The invariant: `Good d` describes the collector after the vectors with numbers in `d` have been delivered. -/
structure BatchInv (bs nv N : Nat) (col : Nat → M) (Good : Multiset Nat → Nat → D → Prop)
    (x : Res (BatchMem D) × Multiset BatchJob × Multiset (BatchRun M)) (mem : BatchMem D) (d : Multiset Nat) : Prop where
  ok : x.1 = .ok mem
  parts : d + (x.2.2.map BatchRun.span).sum = Multiset.range mem.taken
  taken : mem.taken + (x.2.2.map (BatchRun.todo bs)).sum + (x.2.1.map (BatchJob.width bs)).sum = N
  total : d.card + (x.2.2.map (BatchRun.weight bs)).sum + (x.2.1.map (BatchJob.width bs)).sum = N
  valid : ∀ r ∈ x.2.2, r.Valid bs N col ∧ N < nv + r.weight bs
  jobs : ∀ j ∈ x.2.1, N < nv + j.width bs
  good : Good d mem.count mem.data

/-- What is required of a collector. -/
structure Collects (bs nv N : Nat) (col : Nat → M) (C : Collector D M) (Good : Multiset Nat → Nat → D → Prop) : Prop where
  one : ∀ d c x idx, Good d c x → N < nv + 1 → idx + 1 ≤ N → (d.card + 1 = N ∨ d.card + 1 < nv) → d.card + 1 ≤ N →
    ∃ c' x', C.one nv idx (col idx) c x = .ok (c', x') ∧ Good (idx ::ₘ d) c' x'
  many : ∀ d c x idx, Good d c x → N < nv + bs → idx + bs ≤ N → (d.card + bs = N ∨ d.card + bs < nv) → d.card + bs ≤ N →
    ∃ c' x', C.many nv idx ((List.range bs).map fun i => col (idx + i)) c x = .ok (c', x') ∧
      Good ((Multiset.range bs).map (idx + ·) + d) c' x'

/-- If anything is left besides a job of weight `w`, the count after that job is still below the number of vectors. -/
theorem rest_weight {bs nv N c w : Nat} {rs : Multiset (BatchRun M)} {js : Multiset BatchJob}
    (hr : ∀ r ∈ rs, N < nv + r.weight bs) (hj : ∀ j ∈ js, N < nv + j.width bs)
    (h : c + (w + (rs.map (BatchRun.weight bs)).sum) + (js.map (BatchJob.width bs)).sum = N) :
    (c + w = N ∨ c + w < nv) ∧ c + w ≤ N := by
  refine ⟨?_, by omega⟩
  rcases Multiset.empty_or_exists_mem rs with h0 | ⟨r, hmem⟩
  · rcases Multiset.empty_or_exists_mem js with h1 | ⟨j, hmem⟩
    · subst h0; subst h1
      simp at h
      exact .inl h
    · obtain ⟨t, rfl⟩ := Multiset.exists_cons_of_mem hmem
      simp only [Multiset.map_cons, Multiset.sum_cons] at h
      have := hj j hmem
      right; omega
  · obtain ⟨t, rfl⟩ := Multiset.exists_cons_of_mem hmem
    simp only [Multiset.map_cons, Multiset.sum_cons] at h
    have := hr r hmem
    right; omega

theorem batch_step {bs nv N : Nat} {col : Nat → M} {C : Collector D M} {Good : Multiset Nat → Nat → D → Prop}
    (hC : Collects bs nv N col C Good)
    {x y : Res (BatchMem D) × Multiset BatchJob × Multiset (BatchRun M)} {mem : BatchMem D} {d : Multiset Nat}
    (I : BatchInv bs nv N col Good x mem d) (h : Bag (batchSem bs nv col C) x y) :
    ∃ mem' d', BatchInv bs nv N col Good y mem' d' := by
  obtain ⟨ok, parts, taken, total, valid, jobs, good⟩ := I
  cases h with
  | start m j js rs =>
    refine ⟨mem, d, ok, ?_, ?_, ?_, ?_, fun k hk => jobs k (Multiset.mem_cons_of_mem hk), good⟩
    · simpa [batchSem, BatchRun.span] using parts
    · simp only [batchSem, Multiset.map_cons, Multiset.sum_cons, BatchRun.todo] at taken ⊢; omega
    · simp only [batchSem, Multiset.map_cons, Multiset.sum_cons, BatchRun.weight] at total ⊢; omega
    · intro r hr
      rcases Multiset.mem_cons.1 hr with rfl | hr
      · exact ⟨trivial, jobs j (Multiset.mem_cons_self ..)⟩
      · exact valid r hr
  | run m m' r r' js rs h =>
    simp only at ok
    subst ok
    have hv := valid r (Multiset.mem_cons_self ..)
    have hrest : ∀ q ∈ rs, q.Valid bs N col ∧ N < nv + q.weight bs := fun q hq => valid q (Multiset.mem_cons_of_mem hq)
    match r, h with
    | .take .single, h =>
      simp only [batchSem, batchStep, Prod.mk.injEq, Option.some.injEq] at h
      obtain ⟨rfl, rfl⟩ := h
      refine ⟨{ mem with taken := mem.taken + 1 }, d, rfl, ?_, ?_, ?_, ?_, jobs, good⟩
      · simp only [Multiset.map_cons, Multiset.sum_cons, BatchRun.span, zero_add] at parts ⊢
        rw [Multiset.range_succ, ← parts, ← Multiset.singleton_add]; abel
      · simp only [Multiset.map_cons, Multiset.sum_cons, BatchRun.todo, BatchJob.width] at taken ⊢; omega
      · simp only [Multiset.map_cons, Multiset.sum_cons, BatchRun.weight, BatchJob.width] at total ⊢; omega
      · intro q hq
        rcases Multiset.mem_cons.1 hq with rfl | hq
        · refine ⟨⟨rfl, ?_⟩, hv.2⟩
          simp only [Multiset.map_cons, Multiset.sum_cons, BatchRun.todo, BatchJob.width] at taken; omega
        · exact hrest q hq
    | .take .batch, h =>
      simp only [batchSem, batchStep, Prod.mk.injEq, Option.some.injEq] at h
      obtain ⟨rfl, rfl⟩ := h
      refine ⟨{ mem with taken := mem.taken + bs }, d, rfl, ?_, ?_, ?_, ?_, jobs, good⟩
      · simp only [Multiset.map_cons, Multiset.sum_cons, BatchRun.span, zero_add, List.length_map, List.length_range] at parts ⊢
        rw [Multiset.range_add_eq_union, ← Multiset.add_eq_union_iff_disjoint.2 (Multiset.range_disjoint_map_add _ _), ← parts]
        abel
      · simp only [Multiset.map_cons, Multiset.sum_cons, BatchRun.todo, BatchJob.width] at taken ⊢; omega
      · simp only [Multiset.map_cons, Multiset.sum_cons, BatchRun.weight, BatchJob.width, List.length_map, List.length_range] at total ⊢; omega
      · intro q hq
        rcases Multiset.mem_cons.1 hq with rfl | hq
        · refine ⟨⟨rfl, ?_⟩, ?_⟩
          · simp only [Multiset.map_cons, Multiset.sum_cons, BatchRun.todo, BatchJob.width] at taken; omega
          · have := hv.2
            simpa [BatchRun.weight, BatchJob.width] using this
        · exact hrest q hq
    | .one idx a, h => simp [batchSem, batchStep] at h
    | .many idx a, h => simp [batchSem, batchStep] at h
  | finish m m' r js rs h =>
    simp only at ok
    subst ok
    have hv := valid r (Multiset.mem_cons_self ..)
    have hrest : ∀ q ∈ rs, q.Valid bs N col ∧ N < nv + q.weight bs := fun q hq => valid q (Multiset.mem_cons_of_mem hq)
    match r, h with
    | .take .single, h => simp [batchSem, batchStep] at h
    | .take .batch, h => simp [batchSem, batchStep] at h
    | .one idx a, h =>
      simp only [batchSem, batchStep, Prod.mk.injEq, and_true] at h
      obtain ⟨⟨rfl, hidx⟩, hw⟩ := hv
      have hr := rest_weight (fun q hq => (hrest q hq).2) jobs (c := d.card) (w := 1) (by
        simpa [BatchRun.weight] using total)
      obtain ⟨c', x', e, hg⟩ := hC.one d mem.count mem.data idx good hw hidx hr.1 hr.2
      rw [e] at h
      simp only [Res.bind_ok] at h
      refine ⟨⟨mem.taken, c', x'⟩, idx ::ₘ d, h.symm, ?_, ?_, ?_, hrest, jobs, hg⟩
      · simp only [Multiset.map_cons, Multiset.sum_cons, BatchRun.span] at parts ⊢
        rw [← parts, ← Multiset.singleton_add]; abel
      · simpa [BatchRun.todo] using taken
      · simp only [Multiset.map_cons, Multiset.sum_cons, BatchRun.weight, Multiset.card_cons] at total ⊢; omega
    | .many idx a, h =>
      simp only [batchSem, batchStep, Prod.mk.injEq, and_true] at h
      obtain ⟨⟨rfl, hidx⟩, hw⟩ := hv
      simp only [BatchRun.weight, List.length_map, List.length_range] at hw
      have hr := rest_weight (fun q hq => (hrest q hq).2) jobs (c := d.card) (w := bs) (by
        simpa [BatchRun.weight] using total)
      obtain ⟨c', x', e, hg⟩ := hC.many d mem.count mem.data idx good hw hidx hr.1 hr.2
      rw [e] at h
      simp only [Res.bind_ok] at h
      refine ⟨⟨mem.taken, c', x'⟩, (Multiset.range bs).map (idx + ·) + d, h.symm, ?_, ?_, ?_, hrest, jobs, hg⟩
      · simp only [Multiset.map_cons, Multiset.sum_cons, BatchRun.span, List.length_map, List.length_range] at parts ⊢
        rw [← parts]; abel
      · simpa [BatchRun.todo] using taken
      · simp only [Multiset.map_cons, Multiset.sum_cons, BatchRun.weight, List.length_map, List.length_range,
          Multiset.card_add, Multiset.card_map, Multiset.card_range] at total ⊢; omega

/-- After all jobs, exactly the vectors `0, …, N - 1` have been delivered. -/
theorem batch_all {bs nv N : Nat} {col : Nat → M} {C : Collector D M} {Good : Multiset Nat → Nat → D → Prop}
    (hC : Collects bs nv N col C Good) {jobs : List BatchJob} {data : D} {m' : Res (BatchMem D)}
    (hN : (jobs.map (BatchJob.width bs)).sum = N) (hj : ∀ j ∈ jobs, N < nv + j.width bs) (h0 : Good 0 0 data)
    (h : RunsAll (batchSem bs nv col C) (.ok ⟨0, 0, data⟩) jobs m') :
    ∃ mem, m' = .ok mem ∧ Good (Multiset.range N) mem.count mem.data := by
  have key : ∀ y, Relation.ReflTransGen (Bag (batchSem bs nv col C)) (.ok ⟨0, 0, data⟩, ↑jobs, 0) y →
      ∃ mem d, BatchInv bs nv N col Good y mem d := by
    intro y hy
    induction hy with
    | refl =>
      refine ⟨⟨0, 0, data⟩, 0, rfl, by simp, ?_, ?_, by simp, by simpa using hj, h0⟩
      · simpa using hN
      · simpa using hN
    | tail _ hb ih =>
      obtain ⟨mem, d, I⟩ := ih
      exact batch_step hC I hb
  obtain ⟨mem, d, I⟩ := key _ h
  obtain ⟨ok, parts, taken, total, valid, jobs, good⟩ := I
  refine ⟨mem, ok, ?_⟩
  simp only [Multiset.map_zero, Multiset.sum_zero, add_zero] at parts taken total
  rw [← taken, ← parts]
  exact good

end Verif.Kpm
