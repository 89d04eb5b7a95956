import Verif.Thread.PoolRun

/-!
# Properties of the thread pool (C32)
-/

namespace Verif.Thread

variable {W : Nat} {J σ R : Type}

/-- **C32** (every job runs).  For every schedule, every program of the owner and every kind of job: once `join` has
returned, the memory is what running each job added before it exactly once, to its end, in some interleaving, can
produce.  This remains true later, so that further calls of `join`, and jobs added after the first one, do nothing. -/
theorem C32_all_jobs (hW : 0 < W) (P : JobSem J σ R) (prog : List (Cmd J)) (mem : σ) (s : Pool W J σ R)
    (h : Reach P prog mem s) (hj : s.joined = true) : RunsAll P mem (beforeJoin prog) s.mem :=
  (sim_reach hW h).2 hj

/-- Jobs that write their name to a log. -/
def logSem (J : Type) : JobSem J (List J) J := ⟨id, fun j log => (log ++ [j], none)⟩

/-- **C32** (exactly once).  When `join` has returned, the log of finished jobs is a permutation of the jobs that were
added. -/
theorem C32_exactly_once (hW : 0 < W) (prog : List (Cmd J)) (s : Pool W J (List J) J)
    (h : Reach (logSem J) prog [] s) (hj : s.joined = true) : s.mem.Perm (beforeJoin prog) := by
  have hr := C32_all_jobs hW _ _ _ _ h hj
  unfold RunsAll at hr
  have key : ∀ x y : List J × Multiset J × Multiset J, Relation.ReflTransGen (Bag (logSem J)) x y →
      (x.1 : Multiset J) + x.2.1 + x.2.2 = (y.1 : Multiset J) + y.2.1 + y.2.2 := by
    intro x y hxy
    induction hxy with
    | refl => rfl
    | tail _ hb ih =>
      rw [ih]
      cases hb with
      | start m j js rs =>
        simp only [logSem, id, Multiset.add_cons, Multiset.cons_add]
      | run m m' r r' js rs h => simp [logSem] at h
      | finish m m' r js rs h =>
        simp only [logSem, Prod.mk.injEq, and_true] at h
        subst h
        simp only [← Multiset.coe_add, Multiset.add_cons, Multiset.coe_singleton]
        rw [← Multiset.singleton_add]
        abel
  have := key _ _ hr
  simp only [add_zero, Multiset.coe_nil, zero_add] at this
  exact (Multiset.coe_eq_coe.1 this).symm

/-- **C32** (after the first `join`).  No step of any thread changes the memory, the workers or the closed state any
more; the steps of the owner only remove commands and fill the queue. -/
theorem C32_after_join (P : JobSem J σ R) (prog : List (Cmd J)) (mem : σ) (s s' : Pool W J σ R)
    (h : Reach P prog mem s) (hj : s.joined = true) (hs : Step P s s') :
    s'.joined = true ∧ s'.mem = s.mem ∧ s'.workers = s.workers := by
  have I := inv_reach h
  have hd := I.joinedDone hj
  cases hs with
  | spawn i h hi => have := (I.spawning i h).2.1; rw [hj] at this; cases this
  | spawned h => exact ⟨hj, rfl, rfl⟩
  | add j t h ht => exact ⟨hj, rfl, rfl⟩
  | notifyNone h hw => exact ⟨hj, rfl, rfl⟩
  | notifyOne w h hw => rw [hd w] at hw; cases hw
  | joinAgain t h ht hj' => exact ⟨hj, rfl, rfl⟩
  | close t h ht hj' => rw [hj] at hj'; cases hj'
  | notifyAll h => have := (I.joinTodo (.inr h)).1; rw [hj] at this; cases this
  | joinOne i h hi hd' => exact ⟨hj, rfl, rfl⟩
  | joinEnd h => exact ⟨rfl, rfl, rfl⟩
  | popJob w j q h hq => rw [hd w] at h; cases h
  | popClosed w h hq hc => rw [hd w] at h; cases h
  | popWait w h hq hc => rw [hd w] at h; cases h
  | begin w j h => rw [hd w] at h; cases h
  | run w r r' m h hr => rw [hd w] at h; cases h
  | finish w r m h hr => rw [hd w] at h; cases h

/-- **C32** (no deadlock).  As long as a call of the owner has not returned, some thread can take a step (that is not a
spurious wake-up). -/
theorem C32_no_deadlock (P : JobSem J σ R) (prog : List (Cmd J)) (mem : σ) (s : Pool W J σ R)
    (h : Reach P prog mem s) (hf : ¬ s.Finished) : ∃ s', Step P s s' :=
  progress (inv_reach h) hf

/-- **C32** (termination).  If every job ends, so does every execution: the number of steps is bounded by a number that
depends on the jobs and calls only, plus the number of spurious wake-ups. -/
theorem C32_terminates (P : JobSem J σ R) (left : R → Nat) (hleft : ∀ r m m' r', P.step r m = (m', some r') → left r' < left r)
    (prog : List (Cmd J)) (mem : σ) : ∃ bound, ∀ n k (s : Pool W J σ R), Run P (Pool.init W R prog mem) n k s → n ≤ bound + k := by
  refine ⟨(Pool.init W R prog mem).cost (fun j => left (P.start j)) left, fun n k s h => ?_⟩
  have := (run_bound hleft (inv_init prog mem) h).2
  exact le_trans (Nat.le_add_right _ _) this

/-- When all calls have returned, the pool has been joined. -/
theorem C32_finished_joined (P : JobSem J σ R) (prog : List (Cmd J)) (mem : σ) (s : Pool W J σ R)
    (h : Reach P prog mem s) (hf : s.Finished) : s.joined = true := by
  cases hj : s.joined with
  | true => rfl
  | false =>
    have := (inv_reach h).lastJoin hj
    rw [hf.2] at this
    cases this

/-- **C32** (some execution ends).  If every job ends, there is an execution in which all calls return. -/
theorem C32_can_finish (P : JobSem J σ R) (left : R → Nat) (hleft : ∀ r m m' r', P.step r m = (m', some r') → left r' < left r)
    (prog : List (Cmd J)) (mem : σ) : ∃ s : Pool W J σ R, Reach P prog mem s ∧ s.Finished := by
  obtain ⟨bound, hb⟩ := C32_terminates (W := W) P left hleft prog mem
  have key : ∀ d n (s : Pool W J σ R), d + n = bound + 1 → Reach P prog mem s → Run P (Pool.init W R prog mem) n 0 s →
      ∃ s : Pool W J σ R, Reach P prog mem s ∧ s.Finished := by
    intro d
    induction d with
    | zero =>
      intro n s hd _ hr
      have := hb n 0 s hr
      omega
    | succ d ih =>
      intro n s hd hs hr
      by_cases hf : s.Finished
      · exact ⟨s, hs, hf⟩
      · obtain ⟨s', h'⟩ := C32_no_deadlock P prog mem s hs hf
        exact ih (n + 1) s' (by omega) (hs.step h') (hr.step h')
  exact key (bound + 1) 0 _ (by omega) .init (.refl _)

/-- **C32** (finding).  A pool without workers (for instance when the hardware concurrency is reported as 0) never runs
a job, yet `join` returns. -/
theorem C32_no_workers (P : JobSem J σ R) (prog : List (Cmd J)) (mem : σ) (s : Pool 0 J σ R) (h : Reach P prog mem s) :
    s.mem = mem := by
  induction h with
  | init => rfl
  | step _ hs ih =>
    cases hs with
    | spawn i h hi => omega
    | popJob w => exact w.elim0
    | popClosed w => exact w.elim0
    | popWait w => exact w.elim0
    | begin w => exact w.elim0
    | run w => exact w.elim0
    | finish w => exact w.elim0
    | _ => exact ih
  | spurious _ hs ih =>
    cases hs with
    | wake w => exact w.elim0

/-! ## A concrete execution -/

/-- One worker and one job: the states up to the return of `join`. -/
example : ∃ s : Pool 1 Nat (List Nat) Nat, Reach (logSem Nat) [.add 7] [] s ∧ s.joined = true ∧ s.mem = [7] := by
  have s0 : Reach (W := 1) (logSem Nat) [.add 7] [] _ := .init
  have s1 := s0.step (.spawn _ 0 rfl (by decide))
  have s2 := s1.step (.spawned _ rfl)
  have s3 := s2.step (.add _ 7 [.join] rfl rfl)
  have s4 := s3.step (.notifyNone _ rfl (by simp))
  have s5 := s4.step (.popJob _ 0 7 [] (by simp) rfl)
  have s6 := s5.step (.begin _ 0 7 (by simp))
  have s7 := s6.step (.finish _ 0 7 [7] (by simp [logSem]) rfl)
  have s8 := s7.step (.close _ [] rfl rfl rfl)
  have s9 := s8.step (.notifyAll _ rfl)
  have s10 := s9.step (.popClosed _ 0 (by simp [Worker.wake]) rfl rfl)
  have s11 := s10.step (.joinOne _ 0 rfl (by decide) (by simp))
  have s12 := s11.step (.joinEnd _ rfl)
  exact ⟨_, s12, rfl, rfl⟩

end Verif.Thread
