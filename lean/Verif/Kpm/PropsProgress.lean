import Verif.Kpm.Progress

/-!
# Progress reports of KPM calculations (C102)
-/

namespace Verif.Kpm.Progress

open Verif.Thread

/-! ## Calls of the callback -/

/-- Specification.  The number of vectors that are computed: `nv`, or the next multiple of the width of a batch. -/
def computed (threads bs nv : Nat) : Nat := if nv % bs > threads * bs / 2 then (nv / bs + 1) * bs else nv

theorem jobs_sum {threads bs nv : Nat} : ((batchJobs threads bs nv).map (BatchJob.width bs)).sum = computed threads bs nv := by
  have hd := Nat.div_add_mod nv bs
  have hc : nv / bs * bs = bs * (nv / bs) := Nat.mul_comm ..
  unfold batchJobs computed
  split_ifs with h
  · simp [BatchJob.width]
  · simp only [BatchJob.width, List.map_append, List.map_replicate, List.sum_append, List.sum_replicate, smul_eq_mul]
    omega

theorem computed_bounds {threads bs nv : Nat} (hbs : 0 < bs) : nv ≤ computed threads bs nv ∧ computed threads bs nv < nv + bs := by
  have hd := Nat.div_add_mod nv bs
  have hm := Nat.mod_lt nv hbs
  have hc : nv / bs * bs = bs * (nv / bs) := Nat.mul_comm ..
  unfold computed
  split_ifs with h
  · rw [Nat.add_mul, hc]; omega
  · omega

theorem report_bag {e : Entry} {bs nv : Nat} (he : e.holds = false) {x y : List (Int × Int) × Multiset BatchJob × Multiset ReportRun}
    (h : Relation.ReflTransGen (Bag (reportSem true e bs nv)) x y) :
    (x.1 : Multiset (Int × Int)) + x.2.1.map (fun j => ((j.width bs : Int), (nv : Int)))
        + x.2.2.map (fun r => match r with | .work j => ((j.width bs : Int), (nv : Int)) | .report j => ((j.width bs : Int), (nv : Int))) =
      (y.1 : Multiset (Int × Int)) + y.2.1.map (fun j => ((j.width bs : Int), (nv : Int)))
        + y.2.2.map (fun r => match r with | .work j => ((j.width bs : Int), (nv : Int)) | .report j => ((j.width bs : Int), (nv : Int))) := by
  induction h with
  | refl => rfl
  | tail _ hb ih =>
    rw [ih]
    cases hb with
    | start m j js rs =>
      simp only [reportSem, Multiset.map_cons, Multiset.add_cons, Multiset.cons_add]
    | run m m' r r' js rs h =>
      cases r with
      | work j =>
        simp only [reportSem, reportStep, Prod.mk.injEq, Option.some.injEq] at h
        obtain ⟨rfl, rfl⟩ := h
        simp only [Multiset.map_cons]
      | report j => simp [reportSem, reportStep, he] at h
    | finish m m' r js rs h =>
      cases r with
      | work j => simp [reportSem, reportStep] at h
      | report j =>
        simp only [reportSem, reportStep, he, if_true, Bool.false_eq_true, if_false, Prod.mk.injEq, and_true] at h
        subst h
        simp only [Multiset.map_cons, ← Multiset.coe_add, Multiset.coe_singleton, Multiset.add_cons]
        rw [← Multiset.singleton_add]
        abel

/-- **C102** (calls).  A calculation started by a method or by `parallel_for` with several threads: for every number of threads, width of a batch, number of vectors and schedule, the
callback is called with a negative `delta` first, then once for every job in some order, and with `delta = total` last.  The `delta`s of the jobs are 1 or the width of a batch, and add
up to the number of vectors which are computed; this is `total`, or exceeds it by less than a batch.  The total is always the number of vectors asked for. -/
theorem C102_calls {W bs nv : Nat} (hW : 0 < W) (hbs : 0 < bs) {e : Entry} (he : e ≠ .deferred) (s : Pool W BatchJob (List (Int × Int)) ReportRun)
    (h : Reach (reportSem true e bs nv) (batchProg W bs nv) [] s) (hj : s.joined = true) :
    ∃ mid, allCalls true nv s.mem = (-1, (nv : Int)) :: mid ++ [((nv : Int), (nv : Int))] ∧
      mid.Perm ((batchJobs W bs nv).map fun j => ((j.width bs : Int), (nv : Int))) ∧
      (∀ c ∈ mid, (c.1 = 1 ∨ c.1 = bs) ∧ c.2 = nv) ∧
      (mid.map Prod.fst).sum = computed W bs nv ∧ nv ≤ computed W bs nv ∧ computed W bs nv < nv + bs := by
  have he' : e.holds = false := by cases e <;> simp_all [Entry.holds]
  have hr := C32_all_jobs hW _ _ _ _ h hj
  rw [beforeJoin_batchProg] at hr
  have key := report_bag he' hr
  simp only [Multiset.coe_nil, zero_add, Multiset.map_zero, add_zero, Multiset.map_coe] at key
  have hp : s.mem.Perm ((batchJobs W bs nv).map fun j => ((j.width bs : Int), (nv : Int))) := (Multiset.coe_eq_coe.1 key).symm
  refine ⟨s.mem, by simp [allCalls], hp, fun c hc => ?_, ?_, computed_bounds hbs⟩
  · obtain ⟨j, _, rfl⟩ := List.mem_map.1 (hp.mem_iff.1 hc)
    cases j <;> simp [BatchJob.width]
  · rw [(hp.map Prod.fst).sum_eq, ← jobs_sum]
    simp only [List.map_map]
    induction batchJobs W bs nv with
    | nil => rfl
    | cons j js ih => simp only [List.map_cons, List.sum_cons, Function.comp, Nat.cast_add] at ih ⊢; rw [ih]

/-- Steps a job has left. -/
def reportLeft : ReportRun → Nat
  | .work _ => 1
  | .report _ => 0

theorem report_decreases {callback : Bool} {e : Entry} {bs nv : Nat} (he : callback = false ∨ e ≠ .deferred) :
    ∀ r m m' r', (reportSem callback e bs nv).step r m = (m', some r') → reportLeft r' < reportLeft r := by
  intro r m m' r' h
  cases r with
  | work j =>
    simp only [reportSem, reportStep, Prod.mk.injEq, Option.some.injEq] at h
    obtain ⟨_, rfl⟩ := h
    simp [reportLeft]
  | report j =>
    rcases he with rfl | he
    · simp [reportSem, reportStep] at h
    · cases e <;> cases callback <;> simp_all [reportSem, reportStep, Entry.holds]

/-- **C102** (returns).  Without a callback, or when the calculation is started by a method or by `parallel_for` with several threads: every execution ends, none gets stuck, and there is
one in which the calculation returns. -/
theorem C102_returns {W bs nv : Nat} {callback : Bool} {e : Entry} (he : callback = false ∨ e ≠ .deferred) :
    (∃ bound, ∀ n k s, Run (reportSem callback e bs nv) (Pool.init W ReportRun (batchProg W bs nv) []) n k s → n ≤ bound + k) ∧
    (∀ s : Pool W BatchJob (List (Int × Int)) ReportRun, Reach (reportSem callback e bs nv) (batchProg W bs nv) [] s → ¬ s.Finished →
      ∃ s', Step (reportSem callback e bs nv) s s') ∧
    ∃ s : Pool W BatchJob (List (Int × Int)) ReportRun, Reach (reportSem callback e bs nv) (batchProg W bs nv) [] s ∧ s.joined = true := by
  refine ⟨C32_terminates _ reportLeft (report_decreases he) _ _, fun s hs hf => C32_no_deadlock _ _ _ s hs hf, ?_⟩
  obtain ⟨s, hs, hf⟩ := C32_can_finish (W := W) (reportSem callback e bs nv) reportLeft (report_decreases he) (batchProg W bs nv) []
  exact ⟨s, hs, C32_finished_joined _ _ _ s hs hf⟩

/-- **C102** (finding).  `Deferred.compute()`, `Deferred.result` and `parallel_for` with one thread never return when the calculation has a callback, as it has by default: the calling
thread holds the lock of the interpreter while it waits for the pool, and the first thread of the pool which finishes a job waits for that lock. -/
theorem C102_deferred_never_returns {W bs nv : Nat} (hW : 0 < W) (hbs : 0 < bs) (hnv : 0 < nv) (s : Pool W BatchJob (List (Int × Int)) ReportRun)
    (h : Reach (reportSem true .deferred bs nv) (batchProg W bs nv) [] s) : s.joined = false := by
  cases hj : s.joined with
  | false => rfl
  | true =>
    exfalso
    have hr := C32_all_jobs hW _ _ _ _ h hj
    rw [beforeJoin_batchProg] at hr
    have key : ∀ x y : List (Int × Int) × Multiset BatchJob × Multiset ReportRun, Relation.ReflTransGen (Bag (reportSem true .deferred bs nv)) x y →
        x.2.1.card + x.2.2.card = y.2.1.card + y.2.2.card := by
      intro x y hxy
      induction hxy with
      | refl => rfl
      | tail _ hb ih =>
        rw [ih]
        cases hb with
        | start m j js rs => simp only [Multiset.card_cons]; omega
        | run m m' r r' js rs h => simp only [Multiset.card_cons]
        | finish m m' r js rs h => cases r <;> simp [reportSem, reportStep, Entry.holds] at h
    have := key _ _ hr
    simp only [Multiset.coe_card, Multiset.card_zero, add_zero] at this
    exact batchJobs_ne hbs hnv (List.eq_nil_of_length_eq_zero this)

/-- The same calculation without a callback does return. -/
example : ∃ s : Pool 2 BatchJob (List (Int × Int)) ReportRun, Reach (reportSem false .deferred 4 9) (batchProg 2 4 9) [] s ∧ s.joined = true :=
  (C102_returns (.inl rfl)).2.2

example : ∃ s : Pool 2 BatchJob (List (Int × Int)) ReportRun, Reach (reportSem true .method 4 9) (batchProg 2 4 9) [] s ∧ s.joined = true :=
  (C102_returns (.inr (by decide))).2.2

/-- Three vectors are computed as four. -/
example : computed 1 4 3 = 4 ∧ computed 2 4 3 = 3 ∧ computed 1 4 9 = 9 := by decide

end Verif.Kpm.Progress
