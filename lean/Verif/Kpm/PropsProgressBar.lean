import Mathlib.Tactic.FinCases
import Verif.Kpm.PropsProgress

/-!
# The progress bar of KPM calculations (C102)
-/

namespace Verif.Kpm.Progress

open Verif.Thread

/-! ## Any schedule -/

/-- Vectors which a job has not added to the bar yet. -/
def BarRun.pending (bs : Nat) : BarRun → Nat
  | .work j => j.width bs
  | .report j => j.width bs
  | _ => 0

/-- The number which a job is about to store is at most `T`. -/
def BarRun.Below (T : Nat) : BarRun → Prop
  | .update v => v ≤ T
  | .set v => v ≤ T
  | _ => True

theorem BarRun.Below.mono {T T' : Nat} (h : T ≤ T') {r : BarRun} (hr : r.Below T) : r.Below T' := by
  cases r <;> simp only [BarRun.Below] at hr ⊢ <;> omega

/-- Invariant: the bar runs and shows at most `T`, the number of vectors of the jobs which have read it. -/
structure BarInv (bs nv N : Nat) (shown : List (Nat × Nat)) (x : Option Bar × Multiset BatchJob × Multiset BarRun) (b : Bar) (T : Nat) : Prop where
  ok : x.1 = some b
  size : b.size = nv
  running : b.running = true
  total : T + (x.2.1.map (BatchJob.width bs)).sum + (x.2.2.map (BarRun.pending bs)).sum = N
  value : b.value ≤ T
  below : ∀ r ∈ x.2.2, r.Below T
  shows : ∃ mid, b.shown = shown ++ mid ∧ ∀ p ∈ mid, p.1 ≤ N ∧ p.2 = nv

theorem width_pos {bs : Nat} (hbs : 0 < bs) (j : BatchJob) : 0 < j.width bs := by cases j <;> simp [BatchJob.width, hbs]

theorem bar_step {bs nv N : Nat} (h2 : 2 ≤ nv) (hne : bs ≠ nv) {shown : List (Nat × Nat)}
    {x y : Option Bar × Multiset BatchJob × Multiset BarRun} {b : Bar} {T : Nat} (I : BarInv bs nv N shown x b T) (h : Bag (barSem bs nv) x y) :
    ∃ b' T', BarInv bs nv N shown y b' T' := by
  have hw : ∀ j : BatchJob, j.width bs ≠ nv := by intro j; cases j <;> simp only [BatchJob.width] <;> omega
  obtain ⟨ok, size, running, total, value, below, shows⟩ := I
  cases h with
  | start m j js rs =>
    refine ⟨b, T, ok, size, running, ?_, value, ?_, shows⟩
    · simp only [barSem, Multiset.map_cons, Multiset.sum_cons, BarRun.pending] at total ⊢; omega
    · intro r hr
      rcases Multiset.mem_cons.1 hr with rfl | hr
      · exact trivial
      · exact below r hr
  | run m m' r r' js rs h =>
    have ok' : m = some b := ok
    subst ok'
    have hrest : ∀ q ∈ rs, q.Below T := fun q hq => below q (Multiset.mem_cons_of_mem hq)
    have hme : r.Below T := below r (Multiset.mem_cons_self _ _)
    simp only [Multiset.map_cons, Multiset.sum_cons] at total
    cases r with
    | work j =>
      simp only [barSem, barStep, Prod.mk.injEq, Option.some.injEq] at h
      obtain ⟨rfl, rfl⟩ := h
      refine ⟨b, T, rfl, size, running, ?_, value, ?_, shows⟩
      · simp only [Multiset.map_cons, Multiset.sum_cons, BarRun.pending] at total ⊢; omega
      · intro q hq
        rcases Multiset.mem_cons.1 hq with rfl | hq
        · exact trivial
        · exact hrest q hq
    | report j =>
      simp only [barSem, barStep, if_neg (show nv ≠ 1 by omega), if_neg (hw j), Prod.mk.injEq, Option.some.injEq] at h
      obtain ⟨rfl, rfl⟩ := h
      refine ⟨b, T + j.width bs, rfl, size, running, ?_, by omega, ?_, shows⟩
      · simp only [Multiset.map_cons, Multiset.sum_cons, BarRun.pending] at total ⊢; omega
      · intro q hq
        rcases Multiset.mem_cons.1 hq with rfl | hq
        · simp only [BarRun.Below]; omega
        · exact (hrest q hq).mono (by omega)
    | update v =>
      simp only [barSem, barStep, running, if_true] at h
      split_ifs at h with hv
      · simp at h
      · simp only [Prod.mk.injEq, Option.some.injEq] at h
        obtain ⟨rfl, rfl⟩ := h
        refine ⟨b, T, rfl, size, running, ?_, value, ?_, shows⟩
        · simp only [Multiset.map_cons, Multiset.sum_cons, BarRun.pending] at total ⊢; omega
        · intro q hq
          rcases Multiset.mem_cons.1 hq with rfl | hq
          · exact hme
          · exact hrest q hq
    | set v =>
      simp only [barSem, barStep, Prod.mk.injEq, Option.some.injEq] at h
      obtain ⟨rfl, rfl⟩ := h
      refine ⟨_, T, rfl, size, running, ?_, hme, ?_, shows⟩
      · simp only [Multiset.map_cons, Multiset.sum_cons, BarRun.pending] at total ⊢; omega
      · intro q hq
        rcases Multiset.mem_cons.1 hq with rfl | hq
        · exact trivial
        · exact hrest q hq
    | draw => simp [barSem, barStep] at h
  | finish m m' r js rs h =>
    have ok' : m = some b := ok
    subst ok'
    have hrest : ∀ q ∈ rs, q.Below T := fun q hq => below q (Multiset.mem_cons_of_mem hq)
    simp only [Multiset.map_cons, Multiset.sum_cons] at total
    cases r with
    | work j => simp [barSem, barStep] at h
    | report j =>
      simp only [barSem, barStep, if_neg (show nv ≠ 1 by omega), if_neg (hw j), Prod.mk.injEq, reduceCtorEq, and_false] at h
    | update v =>
      simp only [barSem, barStep, running, if_true] at h
      split_ifs at h with hv
      · simp only [Prod.mk.injEq, and_true] at h
        subst h
        refine ⟨b, T, rfl, size, running, ?_, value, hrest, shows⟩
        simp only [BarRun.pending] at total ⊢; omega
      · simp at h
    | set v => simp [barSem, barStep] at h
    | draw =>
      simp only [barSem, barStep, Bar.refresh, if_neg (show b.size ≠ 0 by omega), Prod.mk.injEq, and_true] at h
      subst h
      obtain ⟨mid, hm, hp⟩ := shows
      refine ⟨_, T, rfl, size, running, ?_, value, hrest, mid ++ [(b.value, b.size)], by simp [hm], ?_⟩
      · simp only [BarRun.pending] at total ⊢; omega
      · intro p hpm
        rcases List.mem_append.1 hpm with hpm | hpm
        · exact hp p hpm
        · rw [List.mem_singleton.1 hpm]
          exact ⟨by omega, size⟩

theorem bar_all {bs nv N : Nat} (h2 : 2 ≤ nv) (hne : bs ≠ nv) {shown : List (Nat × Nat)}
    {x y : Option Bar × Multiset BatchJob × Multiset BarRun} {b : Bar} {T : Nat} (I : BarInv bs nv N shown x b T)
    (h : Relation.ReflTransGen (Bag (barSem bs nv)) x y) : ∃ b' T', BarInv bs nv N shown y b' T' := by
  induction h with
  | refl => exact ⟨b, T, I⟩
  | tail _ hb ih =>
    obtain ⟨_, _, I'⟩ := ih
    exact bar_step h2 hne I' hb

/-- A bar which runs ends with 100%. -/
theorem finish_running {b : Bar} {nv : Nat} (h2 : 2 ≤ nv) (hs : b.size = nv) (hr : b.running = true) :
    ∃ b' last, b.finish = some b' ∧ b'.running = false ∧ b'.shown = b.shown ++ last ++ [(nv, nv)] ∧ ∀ p ∈ last, p = (nv, nv) := by
  unfold Bar.finish Bar.update
  rw [if_pos hr, if_pos hr]
  by_cases hv : b.value = b.size
  · refine ⟨{ b with shown := b.shown ++ [(b.value, b.size)], running := false }, [], ?_, rfl, by simp [hv, hs], by simp⟩
    simp [hv, Bar.refresh, show b.size ≠ 0 by omega]
  · refine ⟨{ size := b.size, value := b.size, running := false, shown := b.shown ++ [(b.size, b.size)] ++ [(b.size, b.size)] }, [(nv, nv)], ?_, rfl, by simp [hs], by simp⟩
    simp [hv, Bar.refresh, show b.size ≠ 0 by omega]

/-- One job for all vectors. -/
theorem whole_jobs {threads nv : Nat} (h : 0 < nv) : batchJobs threads nv nv = [.batch] := by
  unfold batchJobs
  rw [Nat.mod_self, Nat.div_self h, if_neg (by omega)]
  rfl

theorem whole_bag {nv : Nat} (h2 : 2 ≤ nv) {b : Bar} {m : Option Bar} (h : Relation.ReflTransGen (Bag (barSem nv nv)) (some b, {.batch}, 0) (m, 0, 0)) :
    m = b.finish := by
  have key : ∀ y : Option Bar × Multiset BatchJob × Multiset BarRun, Relation.ReflTransGen (Bag (barSem nv nv)) (some b, {.batch}, 0) y →
      y = (some b, {.batch}, 0) ∨ y = (some b, 0, {.work .batch}) ∨ y = (some b, 0, {.report .batch}) ∨ y = (b.finish, 0, 0) := by
    intro y hy
    induction hy with
    | refl => exact .inl rfl
    | tail _ hb ih =>
      have hcons : ∀ {α : Type} {a c : α} {s : Multiset α}, ({c} : Multiset α) = a ::ₘ s → a = c ∧ s = 0 := by
        intro α a c s e
        have h1 : a ∈ ({c} : Multiset α) := by rw [e]; exact Multiset.mem_cons_self _ _
        have h2 := congrArg Multiset.card e
        simp only [Multiset.card_singleton, Multiset.card_cons] at h2
        exact ⟨Multiset.mem_singleton.1 h1, Multiset.card_eq_zero.1 (by omega)⟩
      cases hb with
      | start m j js rs =>
        rcases ih with e | e | e | e <;> simp only [Prod.mk.injEq] at e
        · obtain ⟨rfl, e2, rfl⟩ := e
          obtain ⟨rfl, rfl⟩ := hcons e2.symm
          exact .inr (.inl rfl)
        all_goals exact absurd e.2.1 (Multiset.cons_ne_zero)
      | run m m' r r' js rs h =>
        rcases ih with e | e | e | e <;> simp only [Prod.mk.injEq] at e
        · exact absurd e.2.2 Multiset.cons_ne_zero
        · obtain ⟨rfl, rfl, e3⟩ := e
          obtain ⟨rfl, rfl⟩ := hcons e3.symm
          simp only [barSem, barStep, Prod.mk.injEq, Option.some.injEq] at h
          obtain ⟨rfl, rfl⟩ := h
          exact .inr (.inr (.inl rfl))
        · obtain ⟨rfl, rfl, e3⟩ := e
          obtain ⟨rfl, rfl⟩ := hcons e3.symm
          simp [barSem, barStep, BatchJob.width, show nv ≠ 1 by omega] at h
        · exact absurd e.2.2 Multiset.cons_ne_zero
      | finish m m' r js rs h =>
        rcases ih with e | e | e | e <;> simp only [Prod.mk.injEq] at e
        · exact absurd e.2.2 Multiset.cons_ne_zero
        · obtain ⟨rfl, rfl, e3⟩ := e
          obtain ⟨rfl, rfl⟩ := hcons e3.symm
          simp [barSem, barStep] at h
        · obtain ⟨rfl, rfl, e3⟩ := e
          obtain ⟨rfl, rfl⟩ := hcons e3.symm
          simp only [barSem, barStep, BatchJob.width, if_neg (show nv ≠ 1 by omega), if_true, Prod.mk.injEq, and_true] at h
          subst h
          exact .inr (.inr (.inr rfl))
        · exact absurd e.2.2 Multiset.cons_ne_zero
  rcases key _ h with e | e | e | e <;> simp only [Prod.mk.injEq] at e
  · exact absurd e.2.1.symm (Multiset.singleton_ne_zero _)
  · exact absurd e.2.2.symm (Multiset.singleton_ne_zero _)
  · exact absurd e.2.2.symm (Multiset.singleton_ne_zero _)
  · exact e.1

/-- The bar at the beginning. -/
theorem begin_eq {nv : Nat} (h2 : 2 ≤ nv) (b : Bar) : b.begin nv = some ⟨nv, 0, true, b.shown ++ [(0, nv)]⟩ := by
  simp [Bar.begin, Bar.start, Bar.refresh, show nv ≠ 1 by omega, show nv ≠ 0 by omega]

/-- **C102** (bar).  For two or more vectors, every number of threads, width of a batch and schedule, whatever the bar showed before: no exception is raised; the bar starts at 0, ends
at 100% and has stopped when the calculation returns; it never shows more vectors than are computed. -/
theorem C102_bar {W bs nv : Nat} (hW : 0 < W) (hbs : 0 < bs) (h2 : 2 ≤ nv) (b0 : Bar) :
    ∃ b1, b0.begin nv = some b1 ∧ ∀ s : Pool W BatchJob (Option Bar) BarRun, Reach (barSem bs nv) (batchProg W bs nv) (some b1) s → s.joined = true →
      ∃ b2 b3 mid, s.mem = some b2 ∧ b2.end nv = some b3 ∧ b3.running = false ∧ b3.shown = b0.shown ++ [(0, nv)] ++ mid ++ [(nv, nv)] ∧
        ∀ p ∈ mid, p.2 = nv ∧ p.1 ≤ computed W bs nv := by
  have hc := (computed_bounds (threads := W) (nv := nv) hbs).1
  refine ⟨_, begin_eq h2 b0, fun s h hj => ?_⟩
  have hr := C32_all_jobs hW _ _ _ _ h hj
  rw [beforeJoin_batchProg] at hr
  unfold RunsAll at hr
  by_cases hne : bs = nv
  · subst hne
    rw [whole_jobs (by omega)] at hr
    have hm := whole_bag h2 hr
    obtain ⟨b', last, hf, hr', hs, hl⟩ := finish_running (b := ⟨bs, 0, true, b0.shown ++ [(0, bs)]⟩) h2 rfl rfl
    rw [hf] at hm
    refine ⟨b', b', last, hm, ?_, hr', by rw [hs], fun p hp => ?_⟩
    · simp [Bar.end, show bs ≠ 1 by omega, Bar.finish, hr']
    · rw [hl p hp]; exact ⟨rfl, hc⟩
  · have I0 : BarInv bs nv (computed W bs nv) (b0.shown ++ [(0, nv)]) (some ⟨nv, 0, true, b0.shown ++ [(0, nv)]⟩, ↑(batchJobs W bs nv), 0)
        ⟨nv, 0, true, b0.shown ++ [(0, nv)]⟩ 0 :=
      ⟨rfl, rfl, rfl, by simp [jobs_sum], le_refl _, by simp, [], by simp, by simp⟩
    obtain ⟨b2, T, I⟩ := bar_all h2 hne I0 hr
    obtain ⟨mid, hm, hp⟩ := I.shows
    obtain ⟨b3, last, hf, hr', hs, hl⟩ := finish_running h2 I.size I.running
    refine ⟨b2, b3, mid ++ last, I.ok, ?_, hr', by rw [hs, hm]; simp, fun p hpm => ?_⟩
    · simp [Bar.end, show nv ≠ 1 by omega, hf]
    · rcases List.mem_append.1 hpm with hpm | hpm
      · exact ⟨(hp p hpm).2, (hp p hpm).1⟩
      · rw [hl p hpm]; exact ⟨rfl, hc⟩

/-- One vector: nothing is shown. -/
theorem C102_one_vector (b : Bar) : b.begin 1 = some b ∧ b.end 1 = some b := by simp [Bar.begin, Bar.end]

/-- **C102** (finding).  For no vectors at all (`calc_dos` with `num_random=0`) drawing the bar raises `ZeroDivisionError`. -/
theorem C102_no_vectors (b : Bar) : b.begin 0 = none := by simp [Bar.begin, Bar.start, Bar.refresh]

/-! ## One thread -/

/-- Specification.  Running sums. -/
def partials : Nat → List Nat → List Nat
  | _, [] => []
  | a, d :: ds => (a + d) :: partials (a + d) ds

theorem job_completes {bs nv : Nat} (h2 : 2 ≤ nv) (hbs : 0 < bs) (hne : bs ≠ nv) (j : BatchJob) (v : Nat) (shown : List (Nat × Nat)) :
    Completes (barSem bs nv) (.work j) (some ⟨nv, v, true, shown⟩) (some ⟨nv, v + j.width bs, true, shown ++ [(v + j.width bs, nv)]⟩) := by
  have hw : j.width bs ≠ nv := by cases j <;> simp only [BatchJob.width] <;> omega
  have hp := width_pos hbs j
  refine .more (r' := .report j) (m1 := some ⟨nv, v, true, shown⟩) rfl ?_
  refine .more (r' := .update (v + j.width bs)) (m1 := some ⟨nv, v, true, shown⟩) (by simp [barSem, barStep, show nv ≠ 1 by omega, hw]) ?_
  refine .more (r' := .set (v + j.width bs)) (m1 := some ⟨nv, v, true, shown⟩) (by simp [barSem, barStep]; omega) ?_
  refine .more (r' := .draw) (m1 := some ⟨nv, v + j.width bs, true, shown⟩) rfl ?_
  exact .last (by simp [barSem, barStep, Bar.refresh, show nv ≠ 0 by omega])

theorem jobs_sequential {bs nv : Nat} (h2 : 2 ≤ nv) (hbs : 0 < bs) (hne : bs ≠ nv) (js : List BatchJob) (v : Nat) (shown : List (Nat × Nat)) :
    Sequential (barSem bs nv) (some ⟨nv, v, true, shown⟩) js
      (some ⟨nv, v + (js.map (BatchJob.width bs)).sum, true, shown ++ (partials v (js.map (BatchJob.width bs))).map fun a => (a, nv)⟩) := by
  induction js generalizing v shown with
  | nil => simpa [partials] using Sequential.nil _
  | cons j js ih =>
    refine .cons (job_completes h2 hbs hne j v shown) ?_
    have := ih (v + j.width bs) (shown ++ [(v + j.width bs, nv)])
    simpa [partials, Nat.add_assoc] using this

/-- **C102** (one thread).  With one thread the bar counts every job: it shows the running sums of the numbers of vectors of the jobs, in the order of the jobs. -/
theorem C102_one_thread {bs nv : Nat} (h2 : 2 ≤ nv) (hbs : 0 < bs) (hne : bs ≠ nv) (b0 : Bar) (s : Pool 1 BatchJob (Option Bar) BarRun)
    (h : Reach (barSem bs nv) (batchProg 1 bs nv) (b0.begin nv) s) (hj : s.joined = true) :
    s.mem = some ⟨nv, computed 1 bs nv, true,
      b0.shown ++ [(0, nv)] ++ (partials 0 ((batchJobs 1 bs nv).map (BatchJob.width bs))).map fun a => (a, nv)⟩ := by
  have hs := one_worker h hj
  rw [beforeJoin_batchProg, begin_eq h2] at hs
  have := hs.unique (jobs_sequential h2 hbs hne (batchJobs 1 bs nv) 0 (b0.shown ++ [(0, nv)]))
  rw [this, jobs_sum, Nat.zero_add]

theorem partials_last (ds : List Nat) (h : ds ≠ []) (a : Nat) : a + ds.sum ∈ partials a ds := by
  induction ds generalizing a with
  | nil => exact absurd rfl h
  | cons d ds ih =>
    cases ds with
    | nil => simp [partials]
    | cons e es =>
      have := ih (by simp) (a + d)
      rw [List.sum_cons, ← Nat.add_assoc]
      exact List.mem_cons_of_mem _ this

/-- **C102** (finding).  With one thread, when more than half a batch is left over, the bar shows more than 100%. -/
theorem C102_over_hundred {bs nv : Nat} (h2 : 2 ≤ nv) (hbs : 0 < bs) (hover : nv % bs > bs / 2) (b0 : Bar) (s : Pool 1 BatchJob (Option Bar) BarRun)
    (h : Reach (barSem bs nv) (batchProg 1 bs nv) (b0.begin nv) s) (hj : s.joined = true) :
    ∃ b v, s.mem = some b ∧ (v, nv) ∈ b.shown ∧ nv < v := by
  have hne : bs ≠ nv := by rintro rfl; simp at hover
  refine ⟨_, computed 1 bs nv, C102_one_thread h2 hbs hne b0 s h hj, ?_, ?_⟩
  · have := partials_last ((batchJobs 1 bs nv).map (BatchJob.width bs)) (by simpa using batchJobs_ne hbs (by omega)) 0
    rw [jobs_sum, Nat.zero_add] at this
    exact List.mem_append_right _ (List.mem_map.2 ⟨_, this, rfl⟩)
  · have hd := Nat.div_add_mod nv bs
    have hm := Nat.mod_lt nv hbs
    unfold computed
    rw [if_pos (by omega), Nat.add_mul, Nat.mul_comm (nv / bs)]
    omega

/-- Steps a job has left. -/
def barLeft : BarRun → Nat
  | .work _ => 4
  | .report _ => 3
  | .update _ => 2
  | .set _ => 1
  | .draw => 0

theorem bar_decreases {bs nv : Nat} : ∀ r m m' r', (barSem bs nv).step r m = (m', some r') → barLeft r' < barLeft r := by
  intro r m m' r' h
  cases r <;> cases m <;> simp only [barSem, barStep] at h
  all_goals try (simp only [Prod.mk.injEq, Option.some.injEq, reduceCtorEq, and_false] at h)
  all_goals try (obtain ⟨_, rfl⟩ := h; simp [barLeft])
  · split_ifs at h <;> simp only [Prod.mk.injEq, Option.some.injEq, reduceCtorEq, and_false] at h
    obtain ⟨_, rfl⟩ := h
    simp [barLeft]
  · split at h
    · split_ifs at h <;> simp only [Prod.mk.injEq, Option.some.injEq, reduceCtorEq, and_false] at h
      obtain ⟨_, rfl⟩ := h
      simp [barLeft]
    · simp at h

/-- The bar does not keep a calculation from returning. -/
theorem C102_bar_can_finish {W bs nv : Nat} (m : Option Bar) : ∃ s : Pool W BatchJob (Option Bar) BarRun, Reach (barSem bs nv) (batchProg W bs nv) m s ∧ s.joined = true := by
  obtain ⟨s, hs, hf⟩ := C32_can_finish (W := W) (barSem bs nv) barLeft bar_decreases (batchProg W bs nv) m
  exact ⟨s, hs, C32_finished_joined _ _ _ s hs hf⟩

/-- Three vectors in one batch of four: the bar shows 0/3, 4/3 and then 3/3. -/
example : ∃ s : Pool 1 BatchJob (Option Bar) BarRun, Reach (barSem 4 3) (batchProg 1 4 3) (Bar.begin 3 ⟨0, 0, false, []⟩) s ∧ s.joined = true ∧
    s.mem = some ⟨3, 4, true, [(0, 3), (4, 3)]⟩ := by
  obtain ⟨s, hs, hj⟩ := C102_bar_can_finish (W := 1) (bs := 4) (nv := 3) (Bar.begin 3 ⟨0, 0, false, []⟩)
  exact ⟨s, hs, hj, C102_one_thread (by decide) (by decide) (by decide) _ s hs hj⟩

/-! ## Two threads -/

/-- **C102** (finding).  With two threads the bar may go back and lose jobs: `pbar += delta` reads the number, and stores the sum later.  Six vectors in three batches: the bar shows 0, 2,
4, 2, and stays there until the end of the calculation. -/
theorem C102_goes_back : ∃ s : Pool 2 BatchJob (Option Bar) BarRun, Reach (barSem 2 6) (batchProg 2 2 6) (Bar.begin 6 ⟨0, 0, false, []⟩) s ∧ s.joined = true ∧
    s.mem = some ⟨6, 2, true, [(0, 6), (2, 6), (4, 6), (2, 6)]⟩ := by
  have s0 : Reach (W := 2) (barSem 2 6) (batchProg 2 2 6) (Bar.begin 6 ⟨0, 0, false, []⟩) _ := .init
  have s0 := s0.step (.spawn _ 0 rfl (by decide))
  have s0 := s0.step (.spawn _ 1 rfl (by decide))
  have s0 := s0.step (.spawned _ rfl)
  have s0 := s0.step (.add _ .batch [.add .batch, .add .batch, .join, .join] rfl rfl)
  have s0 := s0.step (.notifyNone _ rfl (fun w => by fin_cases w <;> simp))
  have s0 := s0.step (.add _ .batch [.add .batch, .join, .join] rfl rfl)
  have s0 := s0.step (.notifyNone _ rfl (fun w => by fin_cases w <;> simp))
  have s0 := s0.step (.add _ .batch [.join, .join] rfl rfl)
  have s0 := s0.step (.notifyNone _ rfl (fun w => by fin_cases w <;> simp))
  have s0 := s0.step (.popJob _ 0 .batch [.batch, .batch] (by simp) rfl)
  have s0 := s0.step (.begin _ 0 .batch (by simp))
  have s0 := s0.step (.run _ 0 (.work .batch) (.report .batch) (some ⟨6, 0, true, [(0, 6)]⟩) (by simp [barSem]) rfl)
  have s0 := s0.step (.run _ 0 (.report .batch) (.update 2) (some ⟨6, 0, true, [(0, 6)]⟩) (by simp) rfl)
  have s0 := s0.step (.run _ 0 (.update 2) (.set 2) (some ⟨6, 0, true, [(0, 6)]⟩) (by simp) rfl)
  have s0 := s0.step (.popJob _ 1 .batch [.batch] (by simp) rfl)
  have s0 := s0.step (.begin _ 1 .batch (by simp))
  have s0 := s0.step (.run _ 1 (.work .batch) (.report .batch) (some ⟨6, 0, true, [(0, 6)]⟩) (by simp [barSem]) rfl)
  have s0 := s0.step (.run _ 1 (.report .batch) (.update 2) (some ⟨6, 0, true, [(0, 6)]⟩) (by simp) rfl)
  have s0 := s0.step (.run _ 1 (.update 2) (.set 2) (some ⟨6, 0, true, [(0, 6)]⟩) (by simp) rfl)
  have s0 := s0.step (.run _ 1 (.set 2) .draw (some ⟨6, 2, true, [(0, 6)]⟩) (by simp) rfl)
  have s0 := s0.step (.finish _ 1 .draw (some ⟨6, 2, true, [(0, 6), (2, 6)]⟩) (by simp) rfl)
  have s0 := s0.step (.popJob _ 1 .batch [] (by simp) rfl)
  have s0 := s0.step (.begin _ 1 .batch (by simp))
  have s0 := s0.step (.run _ 1 (.work .batch) (.report .batch) (some ⟨6, 2, true, [(0, 6), (2, 6)]⟩) (by simp [barSem]) rfl)
  have s0 := s0.step (.run _ 1 (.report .batch) (.update 4) (some ⟨6, 2, true, [(0, 6), (2, 6)]⟩) (by simp) rfl)
  have s0 := s0.step (.run _ 1 (.update 4) (.set 4) (some ⟨6, 2, true, [(0, 6), (2, 6)]⟩) (by simp) rfl)
  have s0 := s0.step (.run _ 1 (.set 4) .draw (some ⟨6, 4, true, [(0, 6), (2, 6)]⟩) (by simp) rfl)
  have s0 := s0.step (.finish _ 1 .draw (some ⟨6, 4, true, [(0, 6), (2, 6), (4, 6)]⟩) (by simp) rfl)
  have s0 := s0.step (.run _ 0 (.set 2) .draw (some ⟨6, 2, true, [(0, 6), (2, 6), (4, 6)]⟩) (by simp) rfl)
  have s0 := s0.step (.finish _ 0 .draw (some ⟨6, 2, true, [(0, 6), (2, 6), (4, 6), (2, 6)]⟩) (by simp) rfl)
  have s0 := s0.step (.close _ [.join] rfl rfl rfl)
  have s0 := s0.step (.notifyAll _ rfl)
  have s0 := s0.step (.popClosed _ 0 (by simp [Worker.wake]) rfl rfl)
  have s0 := s0.step (.popClosed _ 1 (by simp [Worker.wake]) rfl rfl)
  have s0 := s0.step (.joinOne _ 0 rfl (by decide) (by simp))
  have s0 := s0.step (.joinOne _ 1 rfl (by decide) (by simp))
  have s0 := s0.step (.joinEnd _ rfl)
  exact ⟨_, s0, rfl, rfl⟩

end Verif.Kpm.Progress
