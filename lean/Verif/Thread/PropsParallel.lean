import Verif.Thread.ParallelRun

/-!
# Properties of `parallel_for` (C31)
-/

namespace Verif.Thread

variable {W : Nat} {V : Type}

/-- **C31** (exactly once).  For every schedule, number of jobs, queue size and number of threads: when the call has
returned, `produce` was called once for each index, in order, `compute` once for the value of each index, and `retire`
once for each index with the computed value. -/
theorem C31_exactly_once (A : PFArgs V) (s : PF W V) (h : PFReach A s) (hr : s.Returned) :
    s.produced = List.range A.size ∧ s.computed.Perm (List.range A.size) ∧
    s.retired.Perm ((List.range A.size).map fun k => (k, A.compute (A.produce k))) := by
  obtain ⟨I, J⟩ := pf_reach h
  obtain ⟨hp, hw, hrep⟩ := hr
  have hd := I.repDone
  rw [show s.rep.code = 3 by rw [hrep]; rfl] at hd
  have hrq : s.rq = [] := List.length_eq_zero_iff.1 (by omega)
  have hwq : s.wq = [] := List.length_eq_zero_iff.1 (by omega)
  obtain ⟨J1, J2, J3, J4⟩ := J
  rw [hp] at J2 J3 J4
  rw [hwq, Finset.sum_eq_zero fun w _ => by rw [hw w]; rfl] at J3
  rw [hwq, hrq, hrep, Finset.sum_eq_zero fun w _ => by rw [hw w]; rfl] at J4
  refine ⟨J2, ?_, ?_⟩
  · have : (s.computed : Multiset Nat) = (List.range A.size : List Nat) := by simpa [Multiset.range, Producer.next] using J3
    exact Multiset.coe_eq_coe.1 this
  · have : (s.retired : Multiset (Nat × V)) = ((List.range A.size).map A.result : List (Nat × V)) := by
      simpa [Multiset.range, Reporter.job, Producer.next] using J4
    exact Multiset.coe_eq_coe.1 this

/-- **C31** (at most once, at any time).  In every reachable state the retired jobs are distinct, and each is an index
below `size` with its computed value. -/
theorem C31_at_most_once (A : PFArgs V) (s : PF W V) (h : PFReach A s) :
    (s.retired.map Prod.fst).Nodup ∧ ∀ j ∈ s.retired, j.1 < A.size ∧ j.2 = A.compute (A.produce j.1) := by
  obtain ⟨-, J⟩ := pf_reach h
  have hle : (s.retired : Multiset (Nat × V)) ≤ (Multiset.range (s.prod.next A.size)).map A.result := by
    rw [← J.retired, add_assoc, add_assoc, add_assoc]
    exact Multiset.le_add_right _ _
  have hnext : s.prod.next A.size ≤ A.size := by
    have := J.prod
    cases hp : s.prod <;> rw [hp] at this <;> simp only [Producer.next, Producer.Ok] at this ⊢ <;> omega
  constructor
  · have h1 : ((s.retired.map Prod.fst : List Nat) : Multiset Nat) ≤ Multiset.range (s.prod.next A.size) := by
      have := Multiset.map_le_map (f := Prod.fst) hle
      rw [Multiset.map_map] at this
      have e : (Prod.fst ∘ A.result) = id := rfl
      rw [e, Multiset.map_id, Multiset.map_coe] at this
      exact this
    exact Multiset.coe_nodup.1 (Multiset.nodup_of_le h1 (Multiset.nodup_range _))
  · intro j hj
    have := Multiset.mem_of_le hle (Multiset.mem_coe.2 hj)
    obtain ⟨k, hk, rfl⟩ := Multiset.mem_map.1 this
    exact ⟨lt_of_lt_of_le (Multiset.mem_range.1 hk) hnext, rfl⟩

/-- **C31** (no deadlock).  With at least one compute thread, as long as the call has not returned some thread can make
a step that is not a spurious wake-up. -/
theorem C31_no_deadlock (hW : 0 < W) (A : PFArgs V) (s : PF W V) (h : PFReach A s) (hr : ¬ s.Returned) : ∃ s', PFStep A s s' :=
  pf_progress hW (pf_reach h).1 hr

/-- **C31** (termination).  Every execution ends: the number of steps is bounded, linearly in the number of threads and
jobs, apart from spurious wake-ups. -/
theorem C31_terminates (A : PFArgs V) (n k : Nat) (s : PF W V) (h : PFRun A (PF.init W V) n k s) : n ≤ 7 * W + 14 * A.size + 6 + k := by
  have := (pf_run_bound (jinv_init A) h).2
  have e : (PF.init W V).cost A.size = 7 * W + 14 * A.size + 6 := by
    simp only [PF.cost, PF.init, Producer.cost, Computer.cost, Reporter.cost, Finset.sum_const, Finset.card_univ, Fintype.card_fin,
      smul_eq_mul, List.length_nil]
    omega
  omega

/-- **C31** (finding).  Without compute threads the call never returns, even without jobs: the retirement queue is never
closed. -/
theorem C31_no_threads (A : PFArgs V) (s : PF 0 V) (h : PFReach A s) : ¬ s.Returned := by
  rintro ⟨-, -, hrep⟩
  have I := (pf_reach h).1
  have hd := I.repDone
  rw [show s.rep.code = 3 by rw [hrep]; rfl] at hd
  have := I.total
  omega

/-! ## A concrete execution -/

/-- One compute thread. -/
theorem update_one (a b : Computer V) : Function.update (fun _ : Fin 1 => a) 0 b = fun _ => b := by
  funext w
  obtain rfl : w = 0 := Subsingleton.elim _ _
  simp

/-- One job. -/
def oneJob : PFArgs Nat := ⟨1, 0, fun k => k + 5, fun v => 2 * v⟩

/-- One compute thread and one job: an execution until the call returns. -/
example : ∃ s : PF 1 Nat, PFReach oneJob s ∧ s.Returned ∧ s.retired = [(0, 10)] := by
  have s0 : PFReach (W := 1) oneJob ⟨[], false, 0, [], false, 0, .reg, fun _ => .reg, .pop, [], [], []⟩ := .init
  have s1 : PFReach (W := 1) oneJob ⟨[], false, 1, [], false, 0, .make 0, fun _ => .reg, .pop, [], [], []⟩ := s0.step (.pReg _ rfl)
  have s2 : PFReach (W := 1) oneJob ⟨[], false, 1, [], false, 0, .push 0 5, fun _ => .reg, .pop, [0], [], []⟩ :=
    s1.step (.pMake _ 0 rfl (by decide))
  have s3 : PFReach (W := 1) oneJob ⟨[], false, 1, [], false, 1, .push 0 5, fun _ => .pop, .pop, [0], [], []⟩ := by
    rw [← update_one .reg .pop]; exact s2.step (.wReg _ 0 rfl)
  have s4 : PFReach (W := 1) oneJob ⟨[], false, 1, [], false, 1, .push 0 5, fun _ => .waiting, .pop, [0], [], []⟩ := by
    rw [← update_one .pop .waiting]; exact s3.step (.wWait _ 0 rfl rfl rfl)
  have s5 : PFReach (W := 1) oneJob ⟨[], false, 1, [], false, 1, .push 0 5, fun _ => .waiting, .waiting, [0], [], []⟩ :=
    s4.step (.rWait _ rfl rfl rfl)
  have s6 : PFReach (W := 1) oneJob ⟨[(0, 5)], false, 1, [], false, 1, .notify 0, fun _ => .waiting, .waiting, [0], [], []⟩ :=
    s5.step (.pPush _ 0 5 rfl (by decide))
  have s7 : PFReach (W := 1) oneJob ⟨[(0, 5)], false, 1, [], false, 1, .make 1, fun _ => .pop, .waiting, [0], [], []⟩ := by
    rw [← update_one .waiting .pop]; exact s6.step (.pNotifyOne _ 0 0 rfl rfl)
  have s8 : PFReach (W := 1) oneJob ⟨[], false, 1, [], false, 1, .make 1, fun _ => .got 0 5, .waiting, [0], [], []⟩ := by
    rw [← update_one .pop (.got 0 5)]; exact s7.step (.wPop _ 0 0 5 [] rfl rfl)
  have s9 : PFReach (W := 1) oneJob ⟨[], false, 1, [], false, 1, .make 1, fun _ => .compute 0 5, .waiting, [0], [], []⟩ := by
    rw [← update_one (.got 0 5) (.compute 0 5)]; exact s8.step (.wGot _ 0 0 5 rfl)
  have s10 : PFReach (W := 1) oneJob ⟨[], false, 1, [], false, 1, .make 1, fun _ => .push 0 10, .waiting, [0], [0], []⟩ := by
    rw [← update_one (.compute 0 5) (.push 0 10)]; exact s9.step (.wCompute _ 0 0 5 rfl)
  have s11 : PFReach (W := 1) oneJob ⟨[], false, 1, [(0, 10)], false, 1, .make 1, fun _ => .notify, .waiting, [0], [0], []⟩ := by
    rw [← update_one (.push 0 10) .notify]; exact s10.step (.wPush _ 0 0 10 rfl)
  have s12 : PFReach (W := 1) oneJob ⟨[], false, 1, [(0, 10)], false, 1, .make 1, fun _ => .pop, .pop, [0], [0], []⟩ := by
    rw [← update_one .notify .pop]; exact s11.step (.wNotify _ 0 rfl)
  have s13 : PFReach (W := 1) oneJob ⟨[], false, 1, [], false, 1, .make 1, fun _ => .pop, .retire 0 10, [0], [0], []⟩ :=
    s12.step (.rPop _ 0 10 [] rfl rfl)
  have s14 : PFReach (W := 1) oneJob ⟨[], false, 1, [], false, 1, .make 1, fun _ => .pop, .pop, [0], [0], [(0, 10)]⟩ :=
    s13.step (.rRetire _ 0 10 rfl)
  have s15 : PFReach (W := 1) oneJob ⟨[], false, 1, [], false, 1, .unreg, fun _ => .pop, .pop, [0], [0], [(0, 10)]⟩ :=
    s14.step (.pEnd _ 1 rfl (by decide))
  have s16 : PFReach (W := 1) oneJob ⟨[], true, 0, [], false, 1, .notifyAll, fun _ => .pop, .pop, [0], [0], [(0, 10)]⟩ :=
    s15.step (.pUnreg _ rfl)
  have s17 : PFReach (W := 1) oneJob ⟨[], true, 0, [], false, 1, .done, fun _ => .pop, .pop, [0], [0], [(0, 10)]⟩ :=
    s16.step (.pNotifyAll _ rfl)
  have s18 : PFReach (W := 1) oneJob ⟨[], true, 0, [], false, 1, .done, fun _ => .unreg, .pop, [0], [0], [(0, 10)]⟩ := by
    rw [← update_one .pop .unreg]; exact s17.step (.wPopClosed _ 0 rfl rfl rfl)
  have s19 : PFReach (W := 1) oneJob ⟨[], true, 0, [], true, 0, .done, fun _ => .notifyAll, .pop, [0], [0], [(0, 10)]⟩ := by
    rw [← update_one .unreg .notifyAll]; exact s18.step (.wUnreg _ 0 rfl)
  have s20 : PFReach (W := 1) oneJob ⟨[], true, 0, [], true, 0, .done, fun _ => .done, .pop, [0], [0], [(0, 10)]⟩ := by
    rw [← update_one .notifyAll .done]; exact s19.step (.wNotifyAll _ 0 rfl)
  have s21 : PFReach (W := 1) oneJob ⟨[], true, 0, [], true, 0, .done, fun _ => .done, .done, [0], [0], [(0, 10)]⟩ :=
    s20.step (.rPopClosed _ rfl rfl rfl)
  exact ⟨_, s21, ⟨rfl, fun _ => rfl, rfl⟩, rfl⟩

end Verif.Thread
