import Verif.Thread.PropsParallel

/-!
# The jobs of `parallel_for` in memory (C104)
-/

namespace Verif.Thread

variable {W : Nat} {V : Type}

/-! ## Specification: where jobs are -/

/-- The job which the production thread holds: made and not yet in the queue.  A job that was pushed has been moved into the queue, thread.hpp:67-70. -/
def Producer.held : Producer V → List Nat
  | .push k _ => [k]
  | .waiting k _ => [k]
  | _ => []

/-- The job which a compute thread holds. -/
def Computer.held : Computer V → Multiset Nat
  | .got k _ => {k}
  | .compute k _ => {k}
  | .push k _ => {k}
  | _ => 0

/-- The job which the report thread holds. -/
def Reporter.held : Reporter V → List Nat
  | .retire k _ => [k]
  | _ => []

/-- The jobs in memory: those of the threads and of the two queues. -/
def PF.inMemory (s : PF W V) : Multiset Nat :=
  (s.prod.held : Multiset Nat) + ((s.wq.map Prod.fst : List Nat) : Multiset Nat) + ∑ w, (s.workers w).held + ((s.rq.map Prod.fst : List Nat) : Multiset Nat) + (s.rep.held : Multiset Nat)

/-! ## Every job is in one place -/

theorem map_fst_job (f : V → V) (x : Computer V) : (x.job f).map Prod.fst = x.held := by
  cases x <;> simp [Computer.job, Computer.held]

theorem made_eq (size : Nat) (p : Producer V) :
    Multiset.range (p.made size) = Multiset.range (p.next size) + (p.held : Multiset Nat) := by
  cases p <;> simp only [Producer.made, Producer.next, Producer.held, Multiset.range_succ, Multiset.coe_nil, add_zero, Multiset.coe_singleton]
  all_goals rw [add_comm, Multiset.singleton_add]

/-- **C104** (places).  In every reachable state, every job that was produced is held by exactly one thread or queue, or it was retired, and each only once. -/
theorem C104_places (A : PFArgs V) (s : PF W V) (h : PFReach A s) :
    s.inMemory + ((s.retired.map Prod.fst : List Nat) : Multiset Nat) = Multiset.range s.produced.length := by
  obtain ⟨-, J⟩ := pf_reach h
  have h1 := congrArg (Multiset.map Prod.fst) J.retired
  rw [Multiset.map_map, show (Prod.fst ∘ A.result) = id from rfl, Multiset.map_id] at h1
  simp only [Multiset.map_add, Multiset.map_coe, List.map_map] at h1
  have hsum : Multiset.map Prod.fst (∑ w, (s.workers w).job A.compute) = ∑ w, (s.workers w).held := by
    rw [← Multiset.coe_mapAddMonoidHom, map_sum]
    exact Finset.sum_congr rfl fun w _ => map_fst_job _ _
  have hrep : Multiset.map Prod.fst s.rep.job = (s.rep.held : Multiset Nat) := by
    cases s.rep <;> simp [Reporter.job, Reporter.held]
  have hwq : (s.wq.map (Prod.fst ∘ fun j : Nat × V => (j.1, A.compute j.2))) = s.wq.map Prod.fst := rfl
  rw [hsum, hrep, hwq] at h1
  rw [J.produced, List.length_range, made_eq, ← h1]
  unfold PF.inMemory
  abel

/-- **C104** (how many).  The number of jobs in memory is the number of calls of `produce` minus the number of calls of `retire`. -/
theorem C104_count (A : PFArgs V) (s : PF W V) (h : PFReach A s) : s.inMemory.card + s.retired.length = s.produced.length := by
  have := congrArg Multiset.card (C104_places A s h)
  simpa using this

/-! ## Bounds -/

theorem wq_le {A : PFArgs V} {s : PF W V} (h : PFReach A s) : s.wq.length ≤ A.cap W := by
  induction h with
  | init => simp [PF.init]
  | step _ hs ih =>
    cases hs <;> simp_all [List.length_append] <;> omega
  | spurious _ hs ih => cases hs <;> exact ih

/-- **C104** (jobs that are not computed).  At most `queue_size + num_threads + 1` jobs were produced and not computed yet (`queue_size` is `num_threads` if zero). -/
theorem C104_waiting (A : PFArgs V) (s : PF W V) (h : PFReach A s) : s.produced.length ≤ s.computed.length + A.cap W + W + 1 := by
  obtain ⟨-, J⟩ := pf_reach h
  have h1 := congrArg Multiset.card J.computed
  have hraw : (∑ w, (s.workers w).raw).card ≤ W := by
    rw [Multiset.card_sum]
    refine (Finset.sum_le_sum (g := fun _ => 1) fun w _ => ?_).trans (by simp)
    cases s.workers w <;> simp [Computer.raw]
  have h2 := wq_le h
  have h3 : s.prod.made A.size ≤ s.prod.next A.size + 1 := by cases s.prod <;> simp [Producer.made, Producer.next]
  simp only [Multiset.card_add, Multiset.coe_card, List.length_map, Multiset.card_range] at h1
  rw [J.produced, List.length_range]
  omega

/-- **C104** (the bound with the retirement queue).  Besides the jobs in the retirement queue at most `queue_size + num_threads + 2` jobs are in memory. -/
theorem C104_memory (A : PFArgs V) (s : PF W V) (h : PFReach A s) : s.inMemory.card ≤ A.cap W + W + 2 + s.rq.length := by
  have hheld : (∑ w, (s.workers w).held).card ≤ W := by
    rw [Multiset.card_sum]
    refine (Finset.sum_le_sum (g := fun _ => 1) fun w _ => ?_).trans (by simp)
    cases s.workers w <;> simp [Computer.held]
  have h1 := wq_le h
  have h2 : s.prod.held.length ≤ 1 := by cases s.prod <;> simp [Producer.held]
  have h3 : s.rep.held.length ≤ 1 := by cases s.rep <;> simp [Reporter.held]
  unfold PF.inMemory
  simp only [Multiset.card_add, Multiset.coe_card, List.length_map]
  omega

/-! ## The documented bound does not hold -/

/-- The first compute thread is waiting for work, the others have not started. -/
def firstOnly (W : Nat) (x : Computer V) : Fin W → Computer V := fun w => if w.val = 0 then x else .reg

theorem firstOnly_update (w : Fin W) (hw : w.val = 0) (x y : Computer V) : Function.update (firstOnly W x) w y = firstOnly W y := by
  funext v
  by_cases hv : v = w
  · subst hv; simp [firstOnly, hw]
  · have : v.val ≠ 0 := fun h => hv (Fin.ext (by omega))
    simp [firstOnly, Function.update_of_ne hv, this]

/-- The first `k` jobs were computed and none was retired. -/
def piled (A : PFArgs V) (W : Nat) (k : Nat) : PF W V :=
  ⟨[], false, 1, (List.range k).map A.result, false, 1, .make k, firstOnly W .pop, .pop, List.range k, List.range k, []⟩

theorem piled_reach (A : PFArgs V) (hW : 0 < W) (k : Nat) (hk : k ≤ A.size) : PFReach A (piled A W k) := by
  have hcap : 0 < A.cap W := by unfold PFArgs.cap; split <;> omega
  let w : Fin W := ⟨0, hW⟩
  induction k with
  | zero =>
    have s0 : PFReach A (PF.init W V) := .init
    have s1 : PFReach A (W := W) ⟨[], false, 1, [], false, 0, .make 0, fun _ => .reg, .pop, [], [], []⟩ := s0.step (.pReg _ rfl)
    have e : (fun _ : Fin W => (Computer.reg : Computer V)) = firstOnly W .reg := by funext v; simp [firstOnly]
    rw [e] at s1
    have s2 := s1.step (.wReg _ w (by simp [firstOnly, w]))
    rw [show Function.update (firstOnly W (.reg : Computer V)) w .pop = firstOnly W .pop from firstOnly_update w rfl _ _] at s2
    simpa [piled] using s2
  | succ k ih =>
    have s0 := ih (by omega)
    have s1 : PFReach A (W := W) ⟨[], false, 1, (List.range k).map A.result, false, 1, .push k (A.produce k), firstOnly W .pop, .pop, List.range (k + 1), List.range k, []⟩ := by
      have := s0.step (.pMake _ k rfl (by omega))
      simpa [piled, List.range_succ] using this
    have s2 : PFReach A (W := W) ⟨[(k, A.produce k)], false, 1, (List.range k).map A.result, false, 1, .notify k, firstOnly W .pop, .pop, List.range (k + 1), List.range k, []⟩ :=
      s1.step (.pPush _ k _ rfl hcap)
    have s3 : PFReach A (W := W) ⟨[(k, A.produce k)], false, 1, (List.range k).map A.result, false, 1, .make (k + 1), firstOnly W .pop, .pop, List.range (k + 1), List.range k, []⟩ :=
      s2.step (.pNotifyNone _ k rfl fun v => by show firstOnly W .pop v ≠ _; unfold firstOnly; split <;> simp)
    have s4 := s3.step (.wPop _ w k (A.produce k) [] (by simp [firstOnly, w]) rfl)
    rw [firstOnly_update w rfl] at s4
    have s5 := s4.step (.wGot _ w k (A.produce k) (by simp [firstOnly, w]))
    rw [firstOnly_update w rfl] at s5
    have s6 := s5.step (.wCompute _ w k (A.produce k) (by simp [firstOnly, w]))
    rw [firstOnly_update w rfl] at s6
    have s7 := s6.step (.wPush _ w k (A.compute (A.produce k)) (by simp [firstOnly, w]))
    rw [firstOnly_update w rfl] at s7
    have s8 := s7.step (.wNotify _ w (by simp [firstOnly, w]))
    rw [firstOnly_update w rfl] at s8
    simpa [piled, List.range_succ, PFArgs.result, Producer.wake, Reporter.wake] using s8

/-- **C104** (finding).  `parallel_for` is documented to keep at most `queue_size + num_threads` jobs in memory.  For every number of jobs, threads and every queue size there is an
execution with all jobs in memory: the retirement queue has no bound, and jobs pile up in it if `retire`, which saves and plots results, is slower than the threads. -/
theorem C104_unbounded (A : PFArgs V) (hW : 0 < W) : ∃ s : PF W V, PFReach A s ∧ s.inMemory.card = A.size ∧ s.retired = [] := by
  refine ⟨_, piled_reach A hW A.size le_rfl, ?_, rfl⟩
  have := C104_count A _ (piled_reach A hW A.size le_rfl)
  simpa [piled] using this

/-! ## The bound for jobs that are not computed is attained -/

/-- The first `j` threads compute the first `j` jobs, the others have not started. -/
def busy (A : PFArgs V) (W j : Nat) : Fin W → Computer V := fun w => if w.val < j then .compute w.val (A.produce w.val) else .reg

theorem busy_update (A : PFArgs V) (j : Nat) (hj : j < W) (x : Computer V) (hx : x = .compute j (A.produce j)) : Function.update (busy A W j) ⟨j, hj⟩ x = busy A W (j + 1) := by
  subst hx
  funext v
  by_cases hv : v = ⟨j, hj⟩
  · subst hv; simp [busy]
  · have : v.val ≠ j := fun h => hv (Fin.ext h)
    simp only [busy, Function.update_of_ne hv]
    by_cases h1 : v.val < j
    · rw [if_pos h1, if_pos (by omega)]
    · rw [if_neg h1, if_neg (by omega)]

theorem busy_reach (A : PFArgs V) (j : Nat) (hj : j ≤ W) (hs : j ≤ A.size) :
    PFReach A (W := W) ⟨[], false, 1, [], false, j, .make j, busy A W j, .pop, List.range j, [], []⟩ := by
  induction j with
  | zero =>
    have s0 : PFReach A (PF.init W V) := .init
    have s1 : PFReach A (W := W) ⟨[], false, 1, [], false, 0, .make 0, fun _ => .reg, .pop, [], [], []⟩ := s0.step (.pReg _ rfl)
    have e : (fun _ : Fin W => (Computer.reg : Computer V)) = busy A W 0 := by funext v; simp [busy]
    rw [e] at s1
    exact s1
  | succ j ih =>
    have hcap : 0 < A.cap W := by unfold PFArgs.cap; split <;> omega
    let w : Fin W := ⟨j, by omega⟩
    have s0 := ih (by omega) (by omega)
    have s1 := s0.step (.pMake _ j rfl (by omega))
    have s2 := s1.step (.pPush _ j _ rfl hcap)
    have s3 := s2.step (.pNotifyNone _ j rfl fun v => by show busy A W j v ≠ _; unfold busy; split <;> simp)
    have s4 := s3.step (.wReg _ w (by simp [busy, w]))
    have s5 := s4.step (.wPop _ w j (A.produce j) [] (by simp) rfl)
    have s6 := s5.step (.wGot _ w j (A.produce j) (by simp))
    simp only [Function.update_idem] at s6
    rw [busy_update A j (by omega) _ rfl] at s6
    have hp : ((j : Int) + 1 > 0) := by omega
    simpa [List.range_succ, Producer.wake] using s6

theorem full_reach (A : PFArgs V) (m : Nat) (hm : m ≤ A.cap W) (hs : W + m ≤ A.size) :
    PFReach A (W := W) ⟨(List.range m).map fun i => (W + i, A.produce (W + i)), false, 1, [], false, W, .make (W + m), busy A W W, .pop, List.range (W + m), [], []⟩ := by
  induction m with
  | zero => simpa using busy_reach A W le_rfl (by omega)
  | succ m ih =>
    have s0 := ih (by omega) (by omega)
    have s1 := s0.step (.pMake _ (W + m) rfl (by omega))
    have s2 := s1.step (.pPush _ (W + m) _ rfl (by simp; omega))
    have s3 := s2.step (.pNotifyNone _ (W + m) rfl fun v => by show busy A W W v ≠ _; unfold busy; split <;> simp)
    simpa [List.range_succ, ← Nat.add_assoc] using s3

/-- **C104** (the bound is exact).  With enough jobs, `queue_size + num_threads + 1` jobs can be produced while none is computed: the documented number does not count the job
which the production thread cannot put into the full queue. -/
theorem C104_attained (A : PFArgs V) (hs : A.cap W + W < A.size) :
    ∃ s : PF W V, PFReach A s ∧ s.computed = [] ∧ s.produced.length = A.cap W + W + 1 ∧ s.inMemory.card = A.cap W + W + 1 := by
  have s0 := full_reach (W := W) A (A.cap W) le_rfl (by omega)
  have s1 := s0.step (.pMake _ (W + A.cap W) rfl (by omega))
  refine ⟨_, s1, rfl, by simp; omega, ?_⟩
  have e := C104_count A _ s1
  generalize PF.inMemory _ = m at e ⊢
  simp only [List.length_nil, List.length_append, List.length_range, List.length_singleton] at e
  omega

/-- **C104** (in terms of the arguments).  The jobs whose computation is not finished are at most `queue_size + num_threads + 1`, where a queue size of zero stands for the number of
threads. -/
theorem C104_arguments (A : PFArgs V) (s : PF W V) (h : PFReach A s) :
    (0 < A.queueSize → s.produced.length ≤ s.computed.length + A.queueSize + W + 1) ∧ (A.queueSize = 0 → s.produced.length ≤ s.computed.length + W + W + 1) := by
  have := C104_waiting A s h
  unfold PFArgs.cap at this
  constructor <;> intro hq
  · rwa [if_pos hq] at this
  · rwa [if_neg (by omega)] at this

/-- Two threads, a queue of one and five jobs: four jobs in memory before any result, and later all five. -/
example : (∃ s : PF 2 Nat, PFReach ⟨5, 1, fun k => k, fun v => v⟩ s ∧ s.computed = [] ∧ s.inMemory.card = 4) ∧
    ∃ s : PF 2 Nat, PFReach ⟨5, 1, fun k => k, fun v => v⟩ s ∧ s.inMemory.card = 5 := by
  obtain ⟨s, h1, h2, -, h3⟩ := C104_attained (W := 2) (⟨5, 1, fun k => k, fun v => v⟩ : PFArgs Nat) (by decide)
  obtain ⟨s', h4, h5, -⟩ := C104_unbounded (W := 2) (⟨5, 1, fun k => k, fun v => v⟩ : PFArgs Nat) (by decide)
  exact ⟨⟨s, h1, h2, h3⟩, s', h4, h5⟩

end Verif.Thread
