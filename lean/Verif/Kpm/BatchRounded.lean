import Verif.Kpm.BatchInv
import Verif.Thread.PropsPool

/-!
# Batches of starting vectors when numbers are rounded

As `Kpm/Batch`, but nothing is assumed about arithmetic: the moments of a vector that is a column of a batch may differ from those of the same vector alone (other kernels
compute them), and sums depend on the order of the terms.
-/

namespace Verif.Kpm

open Verif.Thread

variable {M D : Type}

/-! ## Model -/

/-- What the kernels compute: `one k` are the moments of vector `k` of the starter (`DiagonalCollector`), `many k` those of the columns of a batch which starts with vector `k`
(`BatchDiagonalCollector`). default/Compute.cpp:67-85. -/
structure Columns (M : Type) where
  one : Nat → M
  many : Nat → List M

/-- One step of a job, `SelectAlgorithm::with`, default/Compute.cpp:24-44, 69-84: take the vectors under the lock of the starter, then collect under the lock of the collector. -/
def roundedStep (bs nv : Nat) (cols : Columns M) (C : Collector D M) : BatchRun M → Res (BatchMem D) → Res (BatchMem D) × Option (BatchRun M)
  | .take .single, .ok m => (.ok { m with taken := m.taken + 1 }, some (.one m.taken (cols.one m.taken)))
  | .take .batch, .ok m => (.ok { m with taken := m.taken + bs }, some (.many m.taken (cols.many m.taken)))
  | .one idx a, .ok m => (C.one nv idx a m.count m.data >>= fun r => .ok { m with count := r.1, data := r.2 }, none)
  | .many idx a, .ok m => (C.many nv idx a m.count m.data >>= fun r => .ok { m with count := r.1, data := r.2 }, none)
  | _, m => (m, none)

/-- The jobs as programs of the thread pool. default/Compute.cpp:52-88. -/
def roundedSem (bs nv : Nat) (cols : Columns M) (C : Collector D M) : JobSem BatchJob (Res (BatchMem D)) (BatchRun M) :=
  ⟨.take, roundedStep bs nv cols C⟩

/-- The operations of the accumulator: `result += a`, `Zero`, `result += a.rowwise().sum()` and `result /= n`. Moments.cpp:13-48. -/
structure SumOps (M : Type) where
  zero : M
  add : M → M → M
  addAll : M → List M → M
  div : M → Nat → M

/-- `BatchAccumulatorImpl`, Moments.cpp:7-50. -/
def roundedAccumulator (o : SumOps M) : Collector (Option M) M where
  one nv _ a count data :=
    (if count = 0 then Res.ok a else getData data >>= fun r => .ok (o.add r a)) >>= fun r =>
    if count + 1 ≥ nv ∧ nv ≠ 1 then .ok (0, some (o.div r nv)) else .ok (count + 1, some r)
  many nv idx a count data :=
    (if count = 0 then Res.ok o.zero else getData data) >>= fun r =>
    leftCols nv idx a >>= fun l =>
    let r := o.addAll r l
    if count + a.length ≥ nv ∧ nv ≠ 1 then .ok (0, some (o.div r nv)) else .ok (count + a.length, some r)

/-! ## Invariant -/

/-- `V k a`: `a` may be the moments of vector `k`. The kernels meet it for the jobs `A` when `I` holds of the number of vectors taken so far. -/
structure Columns.Give (cols : Columns M) (bs : Nat) (A : BatchJob → Prop) (I : Nat → Prop) (V : Nat → M → Prop) : Prop where
  one : ∀ t, I t → A .single → V t (cols.one t) ∧ I (t + 1)
  many : ∀ t, I t → A .batch → (cols.many t).length = bs ∧ (∀ i (h : i < (cols.many t).length), V (t + i) (cols.many t)[i]) ∧ I (t + bs)

/-- The moments a job holds belong to its vectors. -/
def BatchRun.Holds (bs N : Nat) (A : BatchJob → Prop) (V : Nat → M → Prop) : BatchRun M → Prop
  | .take j => A j
  | .one idx a => V idx a ∧ idx + 1 ≤ N
  | .many idx a => a.length = bs ∧ (∀ i (h : i < a.length), V (idx + i) a[i]) ∧ idx + bs ≤ N

/-- The invariant of the bag of jobs: no undefined behaviour, every vector taken once, and what the collector holds. -/
structure RoundedInv (bs nv N : Nat) (A : BatchJob → Prop) (I : Nat → Prop) (V : Nat → M → Prop) (Good : Multiset Nat → Nat → D → Prop)
    (x : Res (BatchMem D) × Multiset BatchJob × Multiset (BatchRun M)) (mem : BatchMem D) (d : Multiset Nat) : Prop where
  ok : x.1 = .ok mem
  parts : d + (x.2.2.map BatchRun.span).sum = Multiset.range mem.taken
  taken : mem.taken + (x.2.2.map (BatchRun.todo bs)).sum + (x.2.1.map (BatchJob.width bs)).sum = N
  total : d.card + (x.2.2.map (BatchRun.weight bs)).sum + (x.2.1.map (BatchJob.width bs)).sum = N
  valid : ∀ r ∈ x.2.2, r.Holds bs N A V ∧ N < nv + r.weight bs
  jobs : ∀ j ∈ x.2.1, A j ∧ N < nv + j.width bs
  state : I mem.taken
  good : Good d mem.count mem.data

/-- What is required of a collector. -/
structure CollectsAny (bs nv N : Nat) (V : Nat → M → Prop) (C : Collector D M) (Good : Multiset Nat → Nat → D → Prop) : Prop where
  one : ∀ d c x idx a, Good d c x → V idx a → idx ∉ d → N < nv + 1 → idx + 1 ≤ N → (d.card + 1 = N ∨ d.card + 1 < nv) → d.card + 1 ≤ N →
    ∃ c' x', C.one nv idx a c x = .ok (c', x') ∧ Good (idx ::ₘ d) c' x'
  many : ∀ d c x idx a, Good d c x → a.length = bs → (∀ i (h : i < a.length), V (idx + i) a[i]) → (∀ i, i < bs → idx + i ∉ d) → N < nv + bs → idx + bs ≤ N →
    (d.card + bs = N ∨ d.card + bs < nv) → d.card + bs ≤ N →
    ∃ c' x', C.many nv idx a c x = .ok (c', x') ∧ Good ((Multiset.range bs).map (idx + ·) + d) c' x'

theorem rounded_step {bs nv N : Nat} {cols : Columns M} {A : BatchJob → Prop} {I : Nat → Prop} {V : Nat → M → Prop} (hV : cols.Give bs A I V) {C : Collector D M}
    {Good : Multiset Nat → Nat → D → Prop} (hC : CollectsAny bs nv N V C Good) {x y : Res (BatchMem D) × Multiset BatchJob × Multiset (BatchRun M)} {mem : BatchMem D}
    {d : Multiset Nat} (J : RoundedInv bs nv N A I V Good x mem d) (h : Bag (roundedSem bs nv cols C) x y) :
    ∃ mem' d', RoundedInv bs nv N A I V Good y mem' d' := by
  obtain ⟨ok, parts, taken, total, valid, jobs, state, good⟩ := J
  cases h with
  | start m j js rs =>
    refine ⟨mem, d, ok, ?_, ?_, ?_, ?_, fun k hk => jobs k (Multiset.mem_cons_of_mem hk), state, good⟩
    · simpa [roundedSem, BatchRun.span] using parts
    · simp only [roundedSem, Multiset.map_cons, Multiset.sum_cons, BatchRun.todo] at taken ⊢; omega
    · simp only [roundedSem, Multiset.map_cons, Multiset.sum_cons, BatchRun.weight] at total ⊢; omega
    · intro r hr
      rcases Multiset.mem_cons.1 hr with rfl | hr
      · exact jobs j (Multiset.mem_cons_self ..)
      · exact valid r hr
  | run m m' r r' js rs h =>
    simp only at ok
    subst ok
    have hv := valid r (Multiset.mem_cons_self ..)
    have hrest : ∀ q ∈ rs, q.Holds bs N A V ∧ N < nv + q.weight bs := fun q hq => valid q (Multiset.mem_cons_of_mem hq)
    match r, h with
    | .take .single, h =>
      simp only [roundedSem, roundedStep, Prod.mk.injEq, Option.some.injEq] at h
      obtain ⟨rfl, rfl⟩ := h
      obtain ⟨g1, g2⟩ := hV.one mem.taken state hv.1
      refine ⟨{ mem with taken := mem.taken + 1 }, d, rfl, ?_, ?_, ?_, ?_, jobs, g2, good⟩
      · simp only [Multiset.map_cons, Multiset.sum_cons, BatchRun.span, zero_add] at parts ⊢
        rw [Multiset.range_succ, ← parts, ← Multiset.singleton_add]; abel
      · simp only [Multiset.map_cons, Multiset.sum_cons, BatchRun.todo, BatchJob.width] at taken ⊢; omega
      · simp only [Multiset.map_cons, Multiset.sum_cons, BatchRun.weight, BatchJob.width] at total ⊢; omega
      · intro q hq
        rcases Multiset.mem_cons.1 hq with rfl | hq
        · refine ⟨⟨g1, ?_⟩, hv.2⟩
          simp only [Multiset.map_cons, Multiset.sum_cons, BatchRun.todo, BatchJob.width] at taken; omega
        · exact hrest q hq
    | .take .batch, h =>
      simp only [roundedSem, roundedStep, Prod.mk.injEq, Option.some.injEq] at h
      obtain ⟨rfl, rfl⟩ := h
      obtain ⟨g0, g1, g2⟩ := hV.many mem.taken state hv.1
      refine ⟨{ mem with taken := mem.taken + bs }, d, rfl, ?_, ?_, ?_, ?_, jobs, g2, good⟩
      · simp only [Multiset.map_cons, Multiset.sum_cons, BatchRun.span, zero_add, g0] at parts ⊢
        rw [Multiset.range_add_eq_union, ← Multiset.add_eq_union_iff_disjoint.2 (Multiset.range_disjoint_map_add _ _), ← parts]
        abel
      · simp only [Multiset.map_cons, Multiset.sum_cons, BatchRun.todo, BatchJob.width] at taken ⊢; omega
      · simp only [Multiset.map_cons, Multiset.sum_cons, BatchRun.weight, BatchJob.width, g0] at total ⊢; omega
      · intro q hq
        rcases Multiset.mem_cons.1 hq with rfl | hq
        · refine ⟨⟨g0, g1, ?_⟩, ?_⟩
          · simp only [Multiset.map_cons, Multiset.sum_cons, BatchRun.todo, BatchJob.width] at taken; omega
          · have := hv.2
            simpa [BatchRun.weight, BatchJob.width, g0] using this
        · exact hrest q hq
    | .one idx a, h => simp [roundedSem, roundedStep] at h
    | .many idx a, h => simp [roundedSem, roundedStep] at h
  | finish m m' r js rs h =>
    simp only at ok
    subst ok
    have hv := valid r (Multiset.mem_cons_self ..)
    have hrest : ∀ q ∈ rs, q.Holds bs N A V ∧ N < nv + q.weight bs := fun q hq => valid q (Multiset.mem_cons_of_mem hq)
    have hnd : (d + ((r ::ₘ rs).map BatchRun.span).sum).Nodup := by rw [parts]; exact Multiset.nodup_range _
    match r, h with
    | .take .single, h => simp [roundedSem, roundedStep] at h
    | .take .batch, h => simp [roundedSem, roundedStep] at h
    | .one idx a, h =>
      simp only [roundedSem, roundedStep, Prod.mk.injEq, and_true] at h
      obtain ⟨⟨hva, hidx⟩, hw⟩ := hv
      have hr := rest_weight (fun q hq => (hrest q hq).2) (fun j hj => (jobs j hj).2) (c := d.card) (w := 1) (by
        simpa [BatchRun.weight] using total)
      have hnew : idx ∉ d := by
        intro hd
        exact Multiset.disjoint_left.1 (Multiset.nodup_add.1 hnd).2.2 hd (by simp [BatchRun.span])
      obtain ⟨c', x', e, hg⟩ := hC.one d mem.count mem.data idx a good hva hnew hw hidx hr.1 hr.2
      rw [e] at h
      simp only [Res.bind_ok] at h
      refine ⟨⟨mem.taken, c', x'⟩, idx ::ₘ d, h.symm, ?_, ?_, ?_, hrest, jobs, state, hg⟩
      · simp only [Multiset.map_cons, Multiset.sum_cons, BatchRun.span] at parts ⊢
        rw [← parts, ← Multiset.singleton_add]; abel
      · simpa [BatchRun.todo] using taken
      · simp only [Multiset.map_cons, Multiset.sum_cons, BatchRun.weight, Multiset.card_cons] at total ⊢; omega
    | .many idx a, h =>
      simp only [roundedSem, roundedStep, Prod.mk.injEq, and_true] at h
      obtain ⟨⟨hla, hva, hidx⟩, hw⟩ := hv
      simp only [BatchRun.weight, hla] at hw
      have hr := rest_weight (fun q hq => (hrest q hq).2) (fun j hj => (jobs j hj).2) (c := d.card) (w := bs) (by
        simpa [BatchRun.weight, hla] using total)
      have hnew : ∀ i, i < bs → idx + i ∉ d := by
        intro i hi hd
        refine Multiset.disjoint_left.1 (Multiset.nodup_add.1 hnd).2.2 hd ?_
        rw [Multiset.map_cons, Multiset.sum_cons]
        refine Multiset.mem_add.2 (.inl ?_)
        simp only [BatchRun.span, hla]
        exact Multiset.mem_map.2 ⟨i, Multiset.mem_range.2 hi, rfl⟩
      obtain ⟨c', x', e, hg⟩ := hC.many d mem.count mem.data idx a good hla hva hnew hw hidx hr.1 hr.2
      rw [e] at h
      simp only [Res.bind_ok] at h
      refine ⟨⟨mem.taken, c', x'⟩, (Multiset.range bs).map (idx + ·) + d, h.symm, ?_, ?_, ?_, hrest, jobs, state, hg⟩
      · simp only [Multiset.map_cons, Multiset.sum_cons, BatchRun.span, hla] at parts ⊢
        rw [← parts]; abel
      · simpa [BatchRun.todo] using taken
      · simp only [Multiset.map_cons, Multiset.sum_cons, BatchRun.weight, hla,
          Multiset.card_add, Multiset.card_map, Multiset.card_range] at total ⊢; omega

/-- After all jobs, exactly the vectors `0, …, N - 1` have been delivered. -/
theorem rounded_all {bs nv N : Nat} {cols : Columns M} {A : BatchJob → Prop} {I : Nat → Prop} {V : Nat → M → Prop} (hV : cols.Give bs A I V) (hI : I 0) {C : Collector D M}
    {Good : Multiset Nat → Nat → D → Prop} (hC : CollectsAny bs nv N V C Good) {jobs : List BatchJob} {data : D} {m' : Res (BatchMem D)}
    (hN : (jobs.map (BatchJob.width bs)).sum = N) (hj : ∀ j ∈ jobs, A j ∧ N < nv + j.width bs) (h0 : Good 0 0 data)
    (h : RunsAll (roundedSem bs nv cols C) (.ok ⟨0, 0, data⟩) jobs m') :
    ∃ mem, m' = .ok mem ∧ Good (Multiset.range N) mem.count mem.data := by
  have key : ∀ y, Relation.ReflTransGen (Bag (roundedSem bs nv cols C)) (.ok ⟨0, 0, data⟩, ↑jobs, 0) y →
      ∃ mem d, RoundedInv bs nv N A I V Good y mem d := by
    intro y hy
    induction hy with
    | refl =>
      refine ⟨⟨0, 0, data⟩, 0, rfl, by simp, ?_, ?_, by simp, by simpa using hj, hI, h0⟩
      · simpa using hN
      · simpa using hN
    | tail _ hb ih =>
      obtain ⟨mem, d, J⟩ := ih
      exact rounded_step hV hC J hb
  obtain ⟨mem, d, J⟩ := key _ h
  obtain ⟨ok, parts, taken, total, valid, jobs, state, good⟩ := J
  refine ⟨mem, ok, ?_⟩
  simp only [Multiset.map_zero, Multiset.sum_zero, add_zero] at parts taken total
  rw [← taken, ← parts]
  exact good

end Verif.Kpm
