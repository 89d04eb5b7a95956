import Verif.Thread.PoolInv
import Mathlib.Algebra.Order.BigOperators.Group.Finset

/-!
# The thread pool refines the bag of jobs, makes progress and terminates
-/

namespace Verif.Thread

variable {W : Nat} {J σ R α : Type}

open Finset

/-- Job taken but not begun. -/
def Worker.taken : Worker J R → Multiset J
  | .got j => {j}
  | _ => 0

/-- Job that runs. -/
def Worker.runs : Worker J R → Multiset R
  | .running r => {r}
  | _ => 0

/-- The state of the bag of jobs that corresponds to a state of the pool before the end of `join`. -/
def Pool.abs (s : Pool W J σ R) : σ × Multiset J × Multiset R :=
  (s.mem, (s.q : Multiset J) + (beforeJoin s.todo : Multiset J) + ∑ w, (s.workers w).taken, ∑ w, (s.workers w).runs)

/-- The refinement relation. -/
def Sim (P : JobSem J σ R) (prog : List (Cmd J)) (mem : σ) (s : Pool W J σ R) : Prop :=
  (s.joined = false → Relation.ReflTransGen (Bag P) (mem, (beforeJoin prog : Multiset J), 0) s.abs) ∧
  (s.joined = true → RunsAll P mem (beforeJoin prog) s.mem)

theorem sum_same {f : Worker J R → Multiset α} (ws : Fin W → Worker J R) (w : Fin W) (v : Worker J R) (h : f v = f (ws w)) :
    ∑ x, f (Function.update ws w v x) = ∑ x, f (ws x) := by
  have := sum_update ws w v f
  rw [h] at this
  exact add_right_cancel this

theorem sum_new {f : Worker J R → Multiset α} (ws : Fin W → Worker J R) (w : Fin W) (v : Worker J R) {a : α} (h : f (ws w) = 0) (h' : f v = {a}) :
    ∑ x, f (Function.update ws w v x) = a ::ₘ ∑ x, f (ws x) := by
  have := sum_update ws w v f
  rw [h, h', add_zero] at this
  rw [this, add_comm, Multiset.singleton_add]

theorem sum_old {f : Worker J R → Multiset α} (ws : Fin W → Worker J R) (w : Fin W) (v : Worker J R) {a : α} (h : f (ws w) = {a}) (h' : f v = 0) :
    a ::ₘ ∑ x, f (Function.update ws w v x) = ∑ x, f (ws x) := by
  have := sum_update ws w v f
  rw [h, h', add_zero] at this
  rw [← this, add_comm _ ({a} : Multiset α), Multiset.singleton_add]

theorem sim_step (hW : 0 < W) {P : JobSem J σ R} {prog : List (Cmd J)} {mem : σ} {s s' : Pool W J σ R} (I : Inv s)
    (S : Sim P prog mem s) (h : Step P s s') : Sim P prog mem s' := by
  obtain ⟨S1, S2⟩ := S
  -- a step of a worker is impossible after `join`
  have hdead : ∀ w, s.workers w ≠ .done → s.joined = false := by
    intro w hw
    cases hj : s.joined with
    | false => rfl
    | true => exact absurd (I.joinedDone hj w) hw
  cases h with
  | spawn i h hi =>
    have hu : s.workers ⟨i, hi⟩ = .unborn := ((I.spawning i h).2.2 _).2 (le_refl _)
    refine ⟨fun hj => ?_, fun hj => S2 hj⟩
    have := S1 hj
    unfold Pool.abs at this ⊢
    simp only
    rwa [sum_same s.workers ⟨i, hi⟩ .start (f := Worker.taken) (by rw [hu]; rfl),
      sum_same s.workers ⟨i, hi⟩ .start (f := Worker.runs) (by rw [hu]; rfl)]
  | spawned h => exact ⟨S1, S2⟩
  | add j t h ht =>
    refine ⟨fun hj => ?_, fun hj => S2 hj⟩
    have := S1 hj
    unfold Pool.abs at this ⊢
    rw [ht] at this
    simp only
    have e : ((s.q ++ [j] : List J) : Multiset J) + (beforeJoin t : Multiset J) = (s.q : Multiset J) + (beforeJoin (.add j :: t) : Multiset J) := by
      simp [beforeJoin]
    rwa [e]
  | notifyNone h hw => exact ⟨S1, S2⟩
  | notifyOne w h hw =>
    refine ⟨fun hj => ?_, fun hj => S2 hj⟩
    have := S1 hj
    unfold Pool.abs at this ⊢
    simp only
    rwa [sum_same s.workers w .start (f := Worker.taken) (by rw [hw]; rfl),
      sum_same s.workers w .start (f := Worker.runs) (by rw [hw]; rfl)]
  | joinAgain t h ht hj => exact ⟨fun hj' => absurd (hj.symm.trans hj') (by decide), S2⟩
  | close t h ht hj => exact ⟨S1, S2⟩
  | notifyAll h =>
    refine ⟨fun hj => ?_, fun hj => S2 hj⟩
    have := S1 hj
    unfold Pool.abs at this ⊢
    simp only
    have e1 : ∀ w, (s.workers w).wake.taken = (s.workers w).taken := by
      intro w; cases s.workers w <;> rfl
    have e2 : ∀ w, (s.workers w).wake.runs = (s.workers w).runs := by
      intro w; cases s.workers w <;> rfl
    rwa [sum_congr rfl fun w _ => e1 w, sum_congr rfl fun w _ => e2 w]
  | joinOne i h hi hd => exact ⟨S1, S2⟩
  | joinEnd h =>
    refine ⟨fun hj => (by cases hj), fun _ => ?_⟩
    obtain ⟨j1, t, ht⟩ := I.joinTodo (.inl ⟨W, h⟩)
    have hdone := fun w : Fin W => (I.joiningDone W h).2 w w.isLt
    have := S1 j1
    unfold Pool.abs at this
    have hq : s.q = [] := (I.doneClosed ⟨0, hW⟩ (hdone _)).2 j1
    rw [sum_eq_zero fun w _ => by rw [hdone w]; rfl, sum_eq_zero fun w _ => by rw [hdone w]; rfl, hq, ht] at this
    exact this
  | popJob w j q h hq =>
    refine ⟨fun hj => ?_, fun hj => S2 hj⟩
    have := S1 hj
    unfold Pool.abs at this ⊢
    simp only
    rw [sum_new s.workers w (.got j) (f := Worker.taken) (a := j) (by rw [h]; rfl) rfl,
      sum_same s.workers w (.got j) (f := Worker.runs) (by rw [h]; rfl)]
    rw [hq] at this
    have e : (q : Multiset J) + (beforeJoin s.todo : Multiset J) + (j ::ₘ ∑ x, (s.workers x).taken) =
        ((j :: q : List J) : Multiset J) + (beforeJoin s.todo : Multiset J) + ∑ x, (s.workers x).taken := by
      rw [← Multiset.cons_coe, Multiset.add_cons, Multiset.cons_add, Multiset.cons_add]
    rwa [e]
  | popClosed w h hq hc =>
    refine ⟨fun hj => ?_, fun hj => S2 hj⟩
    have := S1 hj
    unfold Pool.abs at this ⊢
    simp only
    rwa [sum_same s.workers w .done (f := Worker.taken) (by rw [h]; rfl),
      sum_same s.workers w .done (f := Worker.runs) (by rw [h]; rfl)]
  | popWait w h hq hc =>
    refine ⟨fun hj => ?_, fun hj => S2 hj⟩
    have := S1 hj
    unfold Pool.abs at this ⊢
    simp only
    rwa [sum_same s.workers w .waiting (f := Worker.taken) (by rw [h]; rfl),
      sum_same s.workers w .waiting (f := Worker.runs) (by rw [h]; rfl)]
  | begin w j h =>
    refine ⟨fun hj => ?_, fun hj => S2 hj⟩
    have := S1 hj
    unfold Pool.abs at this ⊢
    simp only
    rw [sum_new s.workers w (.running (P.start j)) (f := Worker.runs) (a := P.start j) (by rw [h]; rfl) rfl]
    refine this.tail ?_
    rw [← sum_old s.workers w (.running (P.start j)) (f := Worker.taken) (a := j) (by rw [h]; rfl) rfl, Multiset.add_cons]
    exact Bag.start _ _ _ _
  | run w r r' m h hr =>
    have hj0 := hdead w (by simp [h])
    refine ⟨fun hj => ?_, fun hj => by simp only at hj; rw [hj0] at hj; cases hj⟩
    have := S1 hj
    refine this.tail ?_
    unfold Pool.abs
    simp only
    rw [sum_same s.workers w (.running r') (f := Worker.taken) (by rw [h]; rfl)]
    have e := sum_update s.workers w (.running r') Worker.runs
    rw [h] at e
    have hmem : r ∈ ∑ x, (s.workers x).runs := by
      rw [Multiset.mem_sum]
      exact ⟨w, mem_univ _, by rw [h]; exact Multiset.mem_singleton_self r⟩
    obtain ⟨rs, hrs⟩ := Multiset.exists_cons_of_mem hmem
    have e2 : ∑ x, (Function.update s.workers w (.running r') x).runs = r' ::ₘ rs := by
      rw [hrs] at e
      have : (∑ x, (Function.update s.workers w (.running r') x).runs) + {r} = (r' ::ₘ rs) + {r} := by
        rw [show ({r} : Multiset R) = (Worker.running r : Worker J R).runs from rfl, e]
        show r ::ₘ rs + {r'} = r' ::ₘ rs + {r}
        rw [← Multiset.singleton_add, ← Multiset.singleton_add r']
        abel
      exact add_right_cancel this
    rw [e2, hrs]
    exact Bag.run _ _ _ _ _ _ hr
  | finish w r m h hr =>
    have hj0 := hdead w (by simp [h])
    refine ⟨fun hj => ?_, fun hj => by simp only at hj; rw [hj0] at hj; cases hj⟩
    have := S1 hj
    refine this.tail ?_
    unfold Pool.abs
    simp only
    rw [sum_same s.workers w .start (f := Worker.taken) (by rw [h]; rfl),
      ← sum_old s.workers w .start (f := Worker.runs) (a := r) (by rw [h]; rfl) rfl]
    exact Bag.finish _ _ _ _ _ hr

theorem sim_reach (hW : 0 < W) {P : JobSem J σ R} {prog : List (Cmd J)} {mem : σ} {s : Pool W J σ R} (h : Reach P prog mem s) :
    Sim P prog mem s := by
  induction h with
  | init =>
    refine ⟨fun _ => ?_, fun hj => by cases hj⟩
    unfold Pool.abs Pool.init
    simp only [beforeJoin_append]
    simp only [Worker.taken, Worker.runs, sum_const_zero, Multiset.coe_nil, zero_add, add_zero]
    exact .refl
  | step hr hs ih => exact sim_step hW (inv_reach hr) ih hs
  | @spurious s s' hr hs ih =>
    cases hs with
    | wake w h =>
      refine ⟨fun hj => ?_, fun hj => ih.2 hj⟩
      have := ih.1 hj
      unfold Pool.abs at this ⊢
      simp only
      rwa [sum_same s.workers w .start (f := Worker.taken) (by rw [h]; rfl),
        sum_same s.workers w .start (f := Worker.runs) (by rw [h]; rfl)]

/-- There is always a thread that can continue. -/
theorem progress {P : JobSem J σ R} {s : Pool W J σ R} (I : Inv s) (hf : ¬ s.Finished) : ∃ s', Step P s s' := by
  have hwork : ∀ w, s.workers w ≠ .unborn → s.workers w ≠ .waiting → s.workers w ≠ .done → ∃ s', Step P s s' := by
    intro w h1 h2 h3
    cases h : s.workers w with
    | unborn => exact absurd h h1
    | waiting => exact absurd h h2
    | done => exact absurd h h3
    | start =>
      cases hq : s.q with
      | cons j q => exact ⟨_, .popJob s w j q h hq⟩
      | nil =>
        cases hc : s.closed with
        | true => exact ⟨_, .popClosed s w h hq hc⟩
        | false => exact ⟨_, .popWait s w h hq hc⟩
    | got j => exact ⟨_, .begin s w j h⟩
    | running r =>
      rcases hr : P.step r s.mem with ⟨m, _ | r'⟩
      · exact ⟨_, .finish s w r m h hr⟩
      · exact ⟨_, .run s w r r' m h hr⟩
  cases h : s.main with
  | spawn i =>
    have := (I.spawning i h).1
    by_cases hi : i < W
    · exact ⟨_, .spawn s i h hi⟩
    · obtain rfl : i = W := by omega
      exact ⟨_, .spawned s h⟩
  | idle =>
    cases ht : s.todo with
    | nil => exact absurd ⟨h, ht⟩ hf
    | cons c t =>
      cases c with
      | add j => exact ⟨_, .add s j t h ht⟩
      | join =>
        cases hj : s.joined with
        | true => exact ⟨_, .joinAgain s t h ht hj⟩
        | false => exact ⟨_, .close s t h ht hj⟩
  | notify =>
    by_cases hw : ∃ w, s.workers w = .waiting
    · obtain ⟨w, hw⟩ := hw
      exact ⟨_, .notifyOne s w h hw⟩
    · exact ⟨_, .notifyNone s h fun w hw' => hw ⟨w, hw'⟩⟩
  | notifyAll => exact ⟨_, .notifyAll s h⟩
  | joining i =>
    obtain ⟨b1, -⟩ := I.joiningDone i h
    by_cases hi : i < W
    · by_cases hd : s.workers ⟨i, hi⟩ = .done
      · exact ⟨_, .joinOne s i h hi hd⟩
      · exact hwork _ (I.born (by simp [h]) _) (I.noWait (.inr ⟨i, h⟩) _) hd
    · obtain rfl : i = W := by omega
      exact ⟨_, .joinEnd s h⟩

/-! ## Termination -/

/-- Cost of a command, `cost j` bounding the number of steps of a job. -/
def cmdCost (W : Nat) (cost : J → Nat) : Cmd J → Nat
  | .add j => cost j + 6
  | .join => 2 * W + 10

/-- Cost of what remains for a worker. -/
def workerCost (cost : J → Nat) (left : R → Nat) : Worker J R → Nat
  | .unborn => 2
  | .start => 2
  | .waiting => 1
  | .got j => 4 + cost j
  | .running r => 3 + left r
  | .done => 0

section
variable (cost : J → Nat) (left : R → Nat)
theorem wc_unborn : workerCost cost left (.unborn : Worker J R) = 2 := rfl
theorem wc_start : workerCost cost left (.start : Worker J R) = 2 := rfl
theorem wc_waiting : workerCost cost left (.waiting : Worker J R) = 1 := rfl
theorem wc_got (j : J) : workerCost cost left (.got j : Worker J R) = 4 + cost j := rfl
theorem wc_running (r : R) : workerCost cost left (.running r : Worker J R) = 3 + left r := rfl
theorem wc_done : workerCost cost left (.done : Worker J R) = 0 := rfl
end

/-- Cost of what remains in the current call. -/
def mainCost (W : Nat) : Main → Nat
  | .spawn i => 3 * W + 5 - i
  | .idle => 2 * W + 4
  | .notify => 2 * W + 6
  | .notifyAll => 2 * W + 3
  | .joining i => W + 2 - i

/-- An upper bound of the number of steps from a state. -/
def Pool.cost (cost : J → Nat) (left : R → Nat) (s : Pool W J σ R) : Nat :=
  (s.q.map fun j => cost j + 3).sum + (s.todo.map (cmdCost W cost)).sum + (∑ w, workerCost cost left (s.workers w)) + mainCost W s.main

theorem cost_step {P : JobSem J σ R} {left : R → Nat} (hleft : ∀ r m m' r', P.step r m = (m', some r') → left r' < left r)
    {s s' : Pool W J σ R} (I : Inv s) (h : Step P s s') :
    s'.cost (fun j => left (P.start j)) left < s.cost (fun j => left (P.start j)) left := by
  unfold Pool.cost
  cases h with
  | spawn i h hi =>
    have hu : s.workers ⟨i, hi⟩ = .unborn := ((I.spawning i h).2.2 _).2 (le_refl _)
    have e := sum_update s.workers ⟨i, hi⟩ .start (workerCost (fun j => left (P.start j)) left)
    rw [hu] at e
    simp only [wc_unborn, wc_start, wc_waiting, wc_got, wc_running, wc_done] at e
    simp only [h, mainCost]
    omega
  | spawned h => simp only [h, mainCost]; omega
  | add j t h ht =>
    simp only [h, ht, mainCost, List.map_append, List.sum_append, List.map_cons, List.sum_cons, List.map_nil, List.sum_nil, cmdCost]
    omega
  | notifyNone h hw => simp only [h, mainCost]; omega
  | notifyOne w h hw =>
    have e := sum_update s.workers w .start (workerCost (fun j => left (P.start j)) left)
    rw [hw] at e
    simp only [wc_unborn, wc_start, wc_waiting, wc_got, wc_running, wc_done] at e
    simp only [h, mainCost]
    omega
  | joinAgain t h ht hj =>
    simp only [ht, List.map_cons, List.sum_cons, cmdCost]
    omega
  | close t h ht hj => simp only [h, mainCost]; omega
  | notifyAll h =>
    have e : ∑ w, workerCost (fun j => left (P.start j)) left (s.workers w).wake ≤
        ∑ w, workerCost (fun j => left (P.start j)) left (s.workers w) + W := by
      have : ∑ w, (workerCost (fun j => left (P.start j)) left (s.workers w) + 1) =
          ∑ w, workerCost (fun j => left (P.start j)) left (s.workers w) + W := by
        rw [sum_add_distrib]; simp
      rw [← this]
      refine sum_le_sum fun w _ => ?_
      cases s.workers w <;> simp [workerCost, Worker.wake]
    simp only [h, mainCost]
    omega
  | joinOne i h hi hd =>
    simp only [h, mainCost]; omega
  | joinEnd h =>
    obtain ⟨j1, t, ht⟩ := I.joinTodo (.inl ⟨W, h⟩)
    simp only [h, ht, mainCost, List.tail_cons, List.map_cons, List.sum_cons, cmdCost]
    omega
  | popJob w j q h hq =>
    have e := sum_update s.workers w (.got j) (workerCost (fun j => left (P.start j)) left)
    rw [h] at e
    simp only [wc_unborn, wc_start, wc_waiting, wc_got, wc_running, wc_done] at e
    simp only [hq, List.map_cons, List.sum_cons]
    omega
  | popClosed w h hq hc =>
    have e := sum_update s.workers w .done (workerCost (fun j => left (P.start j)) left)
    rw [h] at e
    simp only [wc_unborn, wc_start, wc_waiting, wc_got, wc_running, wc_done] at e
    simp only
    omega
  | popWait w h hq hc =>
    have e := sum_update s.workers w .waiting (workerCost (fun j => left (P.start j)) left)
    rw [h] at e
    simp only [wc_unborn, wc_start, wc_waiting, wc_got, wc_running, wc_done] at e
    simp only
    omega
  | begin w j h =>
    have e := sum_update s.workers w (.running (P.start j)) (workerCost (fun j => left (P.start j)) left)
    rw [h] at e
    simp only [wc_unborn, wc_start, wc_waiting, wc_got, wc_running, wc_done] at e
    simp only
    omega
  | run w r r' m h hr =>
    have e := sum_update s.workers w (.running r') (workerCost (fun j => left (P.start j)) left)
    rw [h] at e
    simp only [wc_unborn, wc_start, wc_waiting, wc_got, wc_running, wc_done] at e
    have := hleft _ _ _ _ hr
    simp only
    omega
  | finish w r m h hr =>
    have e := sum_update s.workers w .start (workerCost (fun j => left (P.start j)) left)
    rw [h] at e
    simp only [wc_unborn, wc_start, wc_waiting, wc_got, wc_running, wc_done] at e
    simp only
    omega

theorem cost_spurious (cost : J → Nat) (left : R → Nat) {s s' : Pool W J σ R} (h : Spurious s s') :
    s'.cost cost left = s.cost cost left + 1 := by
  unfold Pool.cost
  cases h with
  | wake w h =>
    have e := sum_update s.workers w .start (workerCost cost left)
    rw [h] at e
    simp only [wc_unborn, wc_start, wc_waiting, wc_got, wc_running, wc_done] at e
    simp only
    omega

/-- An execution with `n` steps and `k` spurious wake-ups. -/
inductive Run (P : JobSem J σ R) : Pool W J σ R → Nat → Nat → Pool W J σ R → Prop
  | refl (s) : Run P s 0 0 s
  | step {s n k s' s''} : Run P s n k s' → Step P s' s'' → Run P s (n + 1) k s''
  | spurious {s n k s' s''} : Run P s n k s' → Spurious s' s'' → Run P s n (k + 1) s''

theorem run_bound {P : JobSem J σ R} {left : R → Nat} (hleft : ∀ r m m' r', P.step r m = (m', some r') → left r' < left r)
    {s s' : Pool W J σ R} (I : Inv s) {n k : Nat} (h : Run P s n k s') :
    Inv s' ∧ n + s'.cost (fun j => left (P.start j)) left ≤ s.cost (fun j => left (P.start j)) left + k := by
  induction h with
  | refl => exact ⟨I, by omega⟩
  | step _ hs ih =>
    have := cost_step hleft ih.1 hs
    exact ⟨inv_step ih.1 hs, by omega⟩
  | spurious _ hs ih =>
    have := cost_spurious (fun j => left (P.start j)) left hs
    exact ⟨inv_spurious ih.1 hs, by omega⟩

end Verif.Thread
