import Verif.Thread.ParallelInv
import Verif.Thread.PoolRun

/-!
# `parallel_for`: invariants of the calls, progress and termination
-/

namespace Verif.Thread

variable {W : Nat} {V : Type}

open Finset

theorem moves_of (ws : Fin W → Computer V) (w : Fin W) (v : Computer V) {a b : WKind} (ha : (ws w).kind = a) (hb : v.kind = b) :
    Moves (cnt ws) (cnt (Function.update ws w v)) a b := by
  subst ha; subst hb; exact moves_update ws w v

theorem b2n_ite (c : Prop) [Decidable c] (b : Bool) :
    c ∧ b2n (if c then true else b) = 1 ∨ ¬ c ∧ b2n (if c then true else b) = b2n b := by
  by_cases h : c
  · left; simp [h, b2n]
  · right; simp [h]

theorem cinv_notifyAll {cap : Nat} {s : PF W V} (I : s.CInv cap) (h : s.prod = .notifyAll) :
    ({ s with workers := fun w => (s.workers w).wake, prod := .done } : PF W V).CInv cap := by
  have hp : s.prod.code = 6 := by rw [h]; rfl
  obtain ⟨I1, I2, I3, I4, I5, I6, I7, I8, I9, I10, I11, I12⟩ := I
  rw [hp] at I2 I3 I8 I9 I10
  have c1 : cnt (fun w => (s.workers w).wake) .reg = cnt s.workers .reg := by simp [cnt_wake]
  have c2 : cnt (fun w => (s.workers w).wake) .pop = cnt s.workers .pop + cnt s.workers .waiting := by simp [cnt_wake]
  have c3 : cnt (fun w => (s.workers w).wake) .waiting = 0 := by simp [cnt_wake]
  have c4 : cnt (fun w => (s.workers w).wake) .got = cnt s.workers .got := by simp [cnt_wake]
  have c5 : cnt (fun w => (s.workers w).wake) .compute = cnt s.workers .compute := by simp [cnt_wake]
  have c6 : cnt (fun w => (s.workers w).wake) .push = cnt s.workers .push := by simp [cnt_wake]
  have c7 : cnt (fun w => (s.workers w).wake) .notify = cnt s.workers .notify := by simp [cnt_wake]
  have c8 : cnt (fun w => (s.workers w).wake) .unreg = cnt s.workers .unreg := by simp [cnt_wake]
  have c9 : cnt (fun w => (s.workers w).wake) .notifyAll = cnt s.workers .notifyAll := by simp [cnt_wake]
  have c10 : cnt (fun w => (s.workers w).wake) .done = cnt s.workers .done := by simp [cnt_wake]
  constructor <;> simp only [c1, c2, c3, c4, c5, c6, c7, c8, c9, c10, Producer.code]
  · clear I2 I3 I4 I5 I6 I7 I8 I9 I10 I11 I12; omega
  · clear I1 I3 I4 I5 I6 I7 I8 I9 I10 I11 I12; omega
  · clear I1 I2 I4 I5 I6 I7 I8 I9 I10 I11 I12; omega
  · clear I1 I2 I3 I5 I6 I7 I8 I9 I10 I11 I12; omega
  · clear I1 I2 I3 I6 I7 I8 I9 I10 I11 I12; omega
  · exact I6
  · clear I1 I2 I3 I4 I5 I6 I8 I9 I10 I11 I12; omega
  · left; decide
  · left; trivial
  · right; trivial
  · exact I11
  · exact I12

theorem cinv_step {A : PFArgs V} {s s' : PF W V} (I : s.CInv (A.cap W)) (h : PFStep A s s') : s'.CInv (A.cap W) := by
  cases h with
  | pReg h =>
    have hp : s.prod.code = 0 := by rw [h]; rfl
    have hw : s.wprod = 0 := by have := I.wprod; rw [hp] at this; omega
    exact I.pReg hp (by simp [hw, b2n])
  | pMake k h hk => exact I.pMake (by rw [h]; rfl)
  | pEnd k h hk => exact I.pEnd (by rw [h]; rfl)
  | pPush k v h hq =>
    have := I.pPush (by rw [h]; rfl)
    unfold PF.CInv
    simp only [List.length_append, List.length_cons, List.length_nil]
    exact this
  | pWait k v h hq => exact I.pWait (by rw [h]; rfl) (by omega)
  | pNotifyNone k h hw =>
    refine I.pNotifyNone (by rw [h]; rfl) ?_
    by_contra hne
    obtain ⟨w, hw'⟩ := cnt_pos.1 (Nat.pos_of_ne_zero hne)
    exact hw w (kind_waiting hw')
  | pNotifyOne k w h hw => exact I.pNotifyOne (by rw [h]; rfl) (moves_of _ _ _ (by rw [hw]; rfl) rfl)
  | pUnreg h =>
    have hp : s.prod.code = 5 := by rw [h]; rfl
    have hw : s.wprod = 1 := by have := I.wprod; rw [hp] at this; omega
    exact I.pUnreg hp (by simp [hw, b2n])
  | pNotifyAll h => exact cinv_notifyAll I h
  | wReg w h =>
    have : s.rprod + 1 > 0 := by have := I.rprod; omega
    exact I.wReg (by simp only [if_pos this]; rfl) (moves_of _ _ _ (by rw [h]; rfl) rfl)
  | wPop w k v q h hq => exact I.wPop (by rw [hq]; rfl) (moves_of _ _ _ (by rw [h]; rfl) rfl)
  | wPopClosed w h hq hc => exact I.wPopClosed (by rw [hq]; rfl) (by rw [hc]; rfl) (moves_of _ _ _ (by rw [h]; rfl) rfl)
  | wWait w h hq hc => exact I.wWait (by rw [hq]; rfl) (by rw [hc]; rfl) (moves_of _ _ _ (by rw [h]; rfl) rfl)
  | wGot w k v h => exact I.wGot (code_pwake _) (moves_of _ _ _ (by rw [h]; rfl) rfl)
  | wCompute w k v h => exact I.wCompute (moves_of _ _ _ (by rw [h]; rfl) rfl)
  | wPush w k v h =>
    have := I.wPush (moves_of s.workers w .notify (by rw [h]; rfl) rfl)
    unfold PF.CInv
    simp only [List.length_append, List.length_cons, List.length_nil]
    exact this
  | wNotify w h => exact I.wNotify (code_rwake _) (moves_of _ _ _ (by rw [h]; rfl) rfl)
  | wUnreg w h => exact I.wUnreg (b2n_ite _ _) (moves_of _ _ _ (by rw [h]; rfl) rfl)
  | wNotifyAll w h => exact I.wNotifyAll (code_rwake _) (moves_of _ _ _ (by rw [h]; rfl) rfl)
  | rPop k v q h hq => exact I.rPop (by rw [hq]; rfl) (by rw [h]; rfl)
  | rPopClosed h hq hc => exact I.rPopClosed (by rw [hq]; rfl) (by rw [h]; rfl) (by rw [hc]; rfl)
  | rWait h hq hc => exact I.rWait (by rw [hq]; rfl) (by rw [h]; rfl) (by rw [hc]; rfl)
  | rRetire k v h => exact I.rRetire (by rw [h]; rfl)

theorem CInv.spuriousP {cap : Nat} {n : WKind → Nat} {wq wc : Nat} {wp : Int} {rq rc : Nat} {rp : Int} {p r : Nat}
    (I : CInv W cap n wq wc wp rq rc rp p r) (hp : p = 3) : CInv W cap n wq wc wp rq rc rp 2 r := by
  obtain ⟨I1, I2, I3, I4, I5, I6, I7, I8, I9, I10, I11, I12⟩ := I
  refine ⟨I1, ?_, ?_, I4, I5, I6, I7, ?_, ?_, ?_, I11, I12⟩
  · clear I9; omega
  · clear I9; omega
  · left; decide
  · clear I2 I3 I5 I6 I7 I8; omega
  · left; decide

theorem CInv.spuriousR {cap : Nat} {n : WKind → Nat} {wq wc : Nat} {wp : Int} {rq rc : Nat} {rp : Int} {p r : Nat}
    (I : CInv W cap n wq wc wp rq rc rp p r) : CInv W cap n wq wc wp rq rc rp p 0 := by
  obtain ⟨I1, I2, I3, I4, I5, I6, I7, I8, I9, I10, I11, I12⟩ := I
  exact ⟨I1, I2, I3, I4, I5, I6, .inl (by decide), I8, I9, I10, .inl (by decide), .inl (by decide)⟩

theorem CInv.spuriousW {cap : Nat} {n n' : WKind → Nat} {wq wc : Nat} {wp : Int} {rq rc : Nat} {rp : Int} {p r : Nat}
    (I : CInv W cap n wq wc wp rq rc rp p r) (M : Moves n n' .waiting .pop) : CInv W cap n' wq wc wp rq rc rp p r := by
  obtain ⟨I1, I2, I3, I4, I5, I6, I7, I8, I9, I10, I11, I12⟩ := I
  have m_reg : n' .reg = n .reg := M.eq .reg
  have m_pop : n' .pop = n .pop + 1 := M.eq .pop
  have m_waiting : n' .waiting + 1 = n .waiting := M.eq .waiting
  have m_got : n' .got = n .got := M.eq .got
  have m_compute : n' .compute = n .compute := M.eq .compute
  have m_push : n' .push = n .push := M.eq .push
  have m_notify : n' .notify = n .notify := M.eq .notify
  have m_unreg : n' .unreg = n .unreg := M.eq .unreg
  have m_notifyAll : n' .notifyAll = n .notifyAll := M.eq .notifyAll
  have m_done : n' .done = n .done := M.eq .done
  constructor
  · clear I2 I3 I4 I5 I6 I7 I8 I9 I10 I11 I12; omega
  · exact I2
  · exact I3
  · clear I1 I2 I3 I5 I6 I7 I8 I9 I10 I11 I12; omega
  · rw [m_notifyAll, m_done]; exact I5
  · rw [m_unreg, m_notifyAll, m_done]; exact I6
  · clear I1 I2 I3 I4 I5 I6 I8 I9 I10 I11 I12; omega
  · rw [m_got]; exact I8
  · clear I1 I2 I3 I4 I5 I6 I7 I8 I10 I11 I12; omega
  · clear I1 I2 I3 I4 I5 I6 I7 I8 I9 I11 I12; omega
  · rw [m_notify]; exact I11
  · rw [m_notifyAll]; exact I12

theorem cinv_spurious {cap : Nat} {s s' : PF W V} (I : s.CInv cap) (h : PFSpurious s s') : s'.CInv cap := by
  cases h with
  | prod k v h => exact CInv.spuriousP I (by rw [h]; rfl)
  | worker w h => exact CInv.spuriousW I (moves_of _ _ _ (by rw [h]; rfl) rfl)
  | rep h => exact CInv.spuriousR I

/-! ## The jobs -/

/-- Where the loop of the production thread is. -/
def Producer.next (size : Nat) : Producer V → Nat
  | .reg => 0
  | .make k => k
  | .push k _ => k
  | .waiting k _ => k
  | .notify k => k + 1
  | _ => size

/-- Calls of `produce` that were made. -/
def Producer.made (size : Nat) : Producer V → Nat
  | .reg => 0
  | .make k => k
  | .push k _ => k + 1
  | .waiting k _ => k + 1
  | .notify k => k + 1
  | _ => size

/-- The production thread holds the value of its index, which is below `size`. -/
def Producer.Ok (A : PFArgs V) : Producer V → Prop
  | .make k => k ≤ A.size
  | .push k v => k < A.size ∧ v = A.produce k
  | .waiting k v => k < A.size ∧ v = A.produce k
  | .notify k => k < A.size
  | _ => True

/-- The job of a compute thread, as it is going to be retired. -/
def Computer.job (f : V → V) : Computer V → Multiset (Nat × V)
  | .got k v => {(k, f v)}
  | .compute k v => {(k, f v)}
  | .push k v => {(k, v)}
  | _ => 0

/-- The job of a compute thread that is not computed. -/
def Computer.raw : Computer V → Multiset Nat
  | .got k _ => {k}
  | .compute k _ => {k}
  | _ => 0

/-- The job of the report thread. -/
def Reporter.job : Reporter V → Multiset (Nat × V)
  | .retire k v => {(k, v)}
  | _ => 0

/-- The jobs that should be retired. -/
def PFArgs.result (A : PFArgs V) (k : Nat) : Nat × V := (k, A.compute (A.produce k))

/-- Invariant of the jobs: each is in one place. -/
structure JInv (A : PFArgs V) (s : PF W V) : Prop where
  prod : s.prod.Ok A
  produced : s.produced = List.range (s.prod.made A.size)
  computed : (s.computed : Multiset Nat) + ∑ w, (s.workers w).raw + ((s.wq.map Prod.fst : List Nat) : Multiset Nat)
    = Multiset.range (s.prod.next A.size)
  retired : (s.retired : Multiset (Nat × V)) + s.rep.job + (s.rq : Multiset (Nat × V)) + ∑ w, (s.workers w).job A.compute
      + ((s.wq.map fun j => (j.1, A.compute j.2) : List (Nat × V)) : Multiset (Nat × V))
    = (Multiset.range (s.prod.next A.size)).map A.result

theorem jinv_init (A : PFArgs V) : JInv A (PF.init W V) := by
  constructor <;> simp [PF.init, Producer.Ok, Producer.made, Producer.next, Reporter.job, Computer.raw, Computer.job]

theorem next_wake (size : Nat) (p : Producer V) : p.wake.next size = p.next size := by cases p <;> rfl
theorem made_wake (size : Nat) (p : Producer V) : p.wake.made size = p.made size := by cases p <;> rfl
theorem ok_wake (A : PFArgs V) (p : Producer V) (h : p.Ok A) : p.wake.Ok A := by cases p <;> exact h
theorem job_rwake (p : Reporter V) : p.wake.job = p.job := by cases p <;> rfl
theorem job_wake (f : V → V) (p : Computer V) : p.wake.job f = p.job f := by cases p <;> rfl
theorem raw_wake (p : Computer V) : p.wake.raw = p.raw := by cases p <;> rfl

theorem csum_same {α : Type} {f : Computer V → Multiset α} (ws : Fin W → Computer V) (w : Fin W) (v : Computer V) (h : f v = f (ws w)) :
    ∑ x, f (Function.update ws w v x) = ∑ x, f (ws x) := by
  have := sum_update ws w v f
  rw [h] at this
  exact add_right_cancel this

theorem csum_new {α : Type} {f : Computer V → Multiset α} (ws : Fin W → Computer V) (w : Fin W) (v : Computer V) {a : α} (h : f (ws w) = 0) (h' : f v = {a}) :
    ∑ x, f (Function.update ws w v x) = {a} + ∑ x, f (ws x) := by
  have := sum_update ws w v f
  rw [h, h', add_zero] at this
  rw [this, add_comm]

theorem csum_old {α : Type} {f : Computer V → Multiset α} (ws : Fin W → Computer V) (w : Fin W) (v : Computer V) {a : α} (h : f (ws w) = {a}) (h' : f v = 0) :
    ∑ x, f (ws x) = {a} + ∑ x, f (Function.update ws w v x) := by
  have := sum_update ws w v f
  rw [h, h', add_zero] at this
  rw [← this, add_comm]

theorem jinv_step {A : PFArgs V} {s s' : PF W V} (I : JInv A s) (h : PFStep A s s') : JInv A s' := by
  obtain ⟨I1, I2, I3, I4⟩ := I
  cases h with
  | pReg h =>
    rw [h] at I2 I3 I4
    exact ⟨Nat.zero_le _, I2, I3, I4⟩
  | pMake k h hk =>
    rw [h] at I2 I3 I4
    refine ⟨⟨hk, rfl⟩, ?_, I3, I4⟩
    simp only [I2, Producer.made, List.range_succ]
  | pEnd k h hk =>
    rw [h] at I1 I2 I3 I4
    have : k = A.size := by simp only [Producer.Ok] at I1; omega
    subst this
    exact ⟨trivial, I2, I3, I4⟩
  | pPush k v h hq =>
    rw [h] at I1 I2 I3 I4
    simp only [Producer.Ok, Producer.made, Producer.next] at I1 I2 I3 I4
    refine ⟨I1.1, I2, ?_, ?_⟩
    · simp only [Producer.next, Multiset.range_succ, List.map_append, List.map_cons, List.map_nil]
      rw [← I3, ← Multiset.coe_add, Multiset.coe_singleton, ← Multiset.singleton_add]
      abel
    · simp only [Producer.next, Multiset.range_succ, List.map_append, List.map_cons, List.map_nil, Multiset.map_cons]
      rw [← I4, ← Multiset.coe_add, Multiset.coe_singleton, ← Multiset.singleton_add, I1.2]
      simp only [PFArgs.result]
      abel
  | pWait k v h hq =>
    rw [h] at I1 I2 I3 I4
    exact ⟨I1, I2, I3, I4⟩
  | pNotifyNone k h hw =>
    rw [h] at I1 I2 I3 I4
    exact ⟨I1, I2, I3, I4⟩
  | pNotifyOne k w h hw =>
    rw [h] at I1 I2 I3 I4
    refine ⟨I1, I2, ?_, ?_⟩
    · simp only
      rw [csum_same (f := Computer.raw) s.workers w .pop (by rw [hw]; rfl)]
      exact I3
    · simp only
      rw [csum_same (f := Computer.job A.compute) s.workers w .pop (by rw [hw]; rfl)]
      exact I4
  | pUnreg h =>
    rw [h] at I1 I2 I3 I4
    exact ⟨I1, I2, I3, I4⟩
  | pNotifyAll h =>
    rw [h] at I1 I2 I3 I4
    refine ⟨I1, I2, ?_, ?_⟩
    · simp only [raw_wake]; exact I3
    · simp only [job_wake]; exact I4
  | wReg w h =>
    refine ⟨I1, I2, ?_, ?_⟩
    · simp only
      rw [csum_same (f := Computer.raw) s.workers w .pop (by rw [h]; rfl)]
      exact I3
    · simp only
      rw [csum_same (f := Computer.job A.compute) s.workers w .pop (by rw [h]; rfl)]
      exact I4
  | wPop w k v q h hq =>
    rw [hq] at I3 I4
    refine ⟨I1, I2, ?_, ?_⟩
    · simp only
      rw [csum_new (f := Computer.raw) s.workers w (.got k v) (by rw [h]; rfl) rfl, ← I3]
      simp only [List.map_cons]
      rw [← Multiset.cons_coe, ← Multiset.singleton_add]
      abel
    · simp only
      rw [csum_new (f := Computer.job A.compute) s.workers w (.got k v) (by rw [h]; rfl) rfl, ← I4]
      simp only [List.map_cons]
      rw [← Multiset.cons_coe, ← Multiset.singleton_add]
      abel
  | wPopClosed w h hq hc =>
    refine ⟨I1, I2, ?_, ?_⟩
    · simp only
      rw [csum_same (f := Computer.raw) s.workers w .unreg (by rw [h]; rfl)]
      exact I3
    · simp only
      rw [csum_same (f := Computer.job A.compute) s.workers w .unreg (by rw [h]; rfl)]
      exact I4
  | wWait w h hq hc =>
    refine ⟨I1, I2, ?_, ?_⟩
    · simp only
      rw [csum_same (f := Computer.raw) s.workers w .waiting (by rw [h]; rfl)]
      exact I3
    · simp only
      rw [csum_same (f := Computer.job A.compute) s.workers w .waiting (by rw [h]; rfl)]
      exact I4
  | wGot w k v h =>
    refine ⟨ok_wake A _ I1, by rw [made_wake]; exact I2, ?_, ?_⟩
    · simp only [next_wake]
      rw [csum_same (f := Computer.raw) s.workers w (.compute k v) (by rw [h]; rfl)]
      exact I3
    · simp only [next_wake]
      rw [csum_same (f := Computer.job A.compute) s.workers w (.compute k v) (by rw [h]; rfl)]
      exact I4
  | wCompute w k v h =>
    refine ⟨I1, I2, ?_, ?_⟩
    · simp only
      rw [csum_old (f := Computer.raw) s.workers w (.push k (A.compute v)) (a := k) (by rw [h]; rfl) rfl] at I3
      rw [← I3, ← Multiset.coe_add, Multiset.coe_singleton]
      abel
    · simp only
      rw [csum_same (f := Computer.job A.compute) s.workers w (.push k (A.compute v)) (by rw [h]; rfl)]
      exact I4
  | wPush w k v h =>
    refine ⟨I1, I2, ?_, ?_⟩
    · simp only
      rw [csum_same (f := Computer.raw) s.workers w .notify (by rw [h]; rfl)]
      exact I3
    · simp only
      rw [csum_old (f := Computer.job A.compute) s.workers w .notify (a := (k, v)) (by rw [h]; rfl) rfl] at I4
      rw [← I4, ← Multiset.coe_add, Multiset.coe_singleton]
      abel
  | wNotify w h =>
    refine ⟨I1, I2, ?_, ?_⟩
    · simp only
      rw [csum_same (f := Computer.raw) s.workers w .pop (by rw [h]; rfl)]
      exact I3
    · simp only [job_rwake]
      rw [csum_same (f := Computer.job A.compute) s.workers w .pop (by rw [h]; rfl)]
      exact I4
  | wUnreg w h =>
    refine ⟨I1, I2, ?_, ?_⟩
    · simp only
      rw [csum_same (f := Computer.raw) s.workers w .notifyAll (by rw [h]; rfl)]
      exact I3
    · simp only
      rw [csum_same (f := Computer.job A.compute) s.workers w .notifyAll (by rw [h]; rfl)]
      exact I4
  | wNotifyAll w h =>
    refine ⟨I1, I2, ?_, ?_⟩
    · simp only
      rw [csum_same (f := Computer.raw) s.workers w .done (by rw [h]; rfl)]
      exact I3
    · simp only [job_rwake]
      rw [csum_same (f := Computer.job A.compute) s.workers w .done (by rw [h]; rfl)]
      exact I4
  | rPop k v q h hq =>
    rw [h, hq] at I4
    refine ⟨I1, I2, I3, ?_⟩
    simp only [Reporter.job] at I4 ⊢
    rw [← I4, ← Multiset.cons_coe, ← Multiset.singleton_add]
    abel
  | rPopClosed h hq hc =>
    rw [h] at I4
    exact ⟨I1, I2, I3, I4⟩
  | rWait h hq hc =>
    rw [h] at I4
    exact ⟨I1, I2, I3, I4⟩
  | rRetire k v h =>
    rw [h] at I4
    refine ⟨I1, I2, I3, ?_⟩
    simp only [Reporter.job] at I4 ⊢
    rw [← I4, ← Multiset.coe_add, Multiset.coe_singleton]
    abel

theorem jinv_spurious {A : PFArgs V} {s s' : PF W V} (I : JInv A s) (h : PFSpurious s s') : JInv A s' := by
  obtain ⟨I1, I2, I3, I4⟩ := I
  cases h with
  | prod k v h =>
    rw [h] at I1 I2 I3 I4
    exact ⟨I1, I2, I3, I4⟩
  | worker w h =>
    refine ⟨I1, I2, ?_, ?_⟩
    · simp only
      rw [csum_same (f := Computer.raw) s.workers w .pop (by rw [h]; rfl)]
      exact I3
    · simp only
      rw [csum_same (f := Computer.job A.compute) s.workers w .pop (by rw [h]; rfl)]
      exact I4
  | rep h =>
    rw [h] at I4
    exact ⟨I1, I2, I3, I4⟩

theorem pf_reach {A : PFArgs V} {s : PF W V} (h : PFReach A s) : s.CInv (A.cap W) ∧ JInv A s := by
  induction h with
  | init => exact ⟨cinv_init _, jinv_init A⟩
  | step _ hs ih => exact ⟨cinv_step ih.1 hs, jinv_step ih.2 hs⟩
  | spurious _ hs ih => exact ⟨cinv_spurious ih.1 hs, jinv_spurious ih.2 hs⟩

/-! ## Progress -/

theorem cnt_done {ws : Fin W → Computer V} (h : ∀ w, ws w = .waiting ∨ ws w = .done) {p : WKind} (h1 : p ≠ .waiting) (h2 : p ≠ .done) :
    cnt ws p = 0 := by
  by_contra hne
  obtain ⟨w, hw⟩ := cnt_pos.1 (Nat.pos_of_ne_zero hne)
  rcases h w with e | e
  · rw [e] at hw; exact h1 hw.symm
  · rw [e] at hw; exact h2 hw.symm

theorem pf_progress {A : PFArgs V} {s : PF W V} (hW : 0 < W) (I : s.CInv (A.cap W)) (hf : ¬ s.Returned) : ∃ s', PFStep A s s' := by
  by_contra hstuck
  have stuck : ∀ s', ¬ PFStep A s s' := fun s' h => hstuck ⟨s', h⟩
  have hcap : 1 ≤ A.cap W := by unfold PFArgs.cap; split_ifs <;> omega
  -- every compute thread waits or has ended
  have hw : ∀ w, s.workers w = .waiting ∨ s.workers w = .done := by
    intro w
    cases h : s.workers w with
    | reg => exact absurd (.wReg s w h) (stuck _)
    | pop =>
      cases hq : s.wq with
      | cons j q => exact absurd (.wPop s w j.1 j.2 q h hq) (stuck _)
      | nil =>
        cases hc : s.wclosed with
        | true => exact absurd (.wPopClosed s w h hq hc) (stuck _)
        | false => exact absurd (.wWait s w h hq hc) (stuck _)
    | waiting => exact .inl rfl
    | got k v => exact absurd (.wGot s w k v h) (stuck _)
    | compute k v => exact absurd (.wCompute s w k v h) (stuck _)
    | push k v => exact absurd (.wPush s w k v h) (stuck _)
    | notify => exact absurd (.wNotify s w h) (stuck _)
    | unreg => exact absurd (.wUnreg s w h) (stuck _)
    | notifyAll => exact absurd (.wNotifyAll s w h) (stuck _)
    | done => exact .inr rfl
  have n1 := cnt_done hw (p := .reg) (by decide) (by decide)
  have n2 := cnt_done hw (p := .pop) (by decide) (by decide)
  have n3 := cnt_done hw (p := .got) (by decide) (by decide)
  have n4 := cnt_done hw (p := .compute) (by decide) (by decide)
  have n5 := cnt_done hw (p := .push) (by decide) (by decide)
  have n6 := cnt_done hw (p := .notify) (by decide) (by decide)
  have n7 := cnt_done hw (p := .unreg) (by decide) (by decide)
  have n8 := cnt_done hw (p := .notifyAll) (by decide) (by decide)
  have total := I.total
  have hp : (∃ k v, s.prod = .waiting k v) ∨ s.prod = .done := by
    cases h : s.prod with
    | reg => exact absurd (.pReg s h) (stuck _)
    | make k =>
      by_cases hk : k < A.size
      · exact absurd (.pMake s k h hk) (stuck _)
      · exact absurd (.pEnd s k h hk) (stuck _)
    | push k v =>
      by_cases hq : s.wq.length < A.cap W
      · exact absurd (.pPush s k v h hq) (stuck _)
      · exact absurd (.pWait s k v h hq) (stuck _)
    | waiting k v => exact .inl ⟨k, v, rfl⟩
    | notify k =>
      by_cases hw : ∃ w, s.workers w = .waiting
      · obtain ⟨w, hw⟩ := hw
        exact absurd (.pNotifyOne s k w h hw) (stuck _)
      · exact absurd (.pNotifyNone s k h fun w hw' => hw ⟨w, hw'⟩) (stuck _)
    | unreg => exact absurd (.pUnreg s h) (stuck _)
    | notifyAll => exact absurd (.pNotifyAll s h) (stuck _)
    | done => exact .inr rfl
  have hr : s.rep = .waiting ∨ s.rep = .done := by
    cases h : s.rep with
    | pop =>
      cases hq : s.rq with
      | cons j q => exact absurd (.rPop s j.1 j.2 q h hq) (stuck _)
      | nil =>
        cases hc : s.rclosed with
        | true => exact absurd (.rPopClosed s h hq hc) (stuck _)
        | false => exact absurd (.rWait s h hq hc) (stuck _)
    | waiting => exact .inl rfl
    | retire k v => exact absurd (.rRetire s k v h) (stuck _)
    | done => exact .inr rfl
  rcases hp with ⟨k, v, hp⟩ | hp
  · have e : s.prod.code = 3 := by rw [hp]; rfl
    have a := I.prodWait
    have b := I.workWait
    have c := I.past
    have d := I.wclosed
    rw [e] at a b d
    omega
  · have e : s.prod.code = 7 := by rw [hp]; rfl
    have a := I.prodDone
    rw [e] at a
    have hdone : ∀ w, s.workers w = .done := by
      intro w
      rcases hw w with h | h
      · have : cnt s.workers .waiting > 0 := cnt_pos.2 ⟨w, by rw [h]; rfl⟩
        omega
      · exact h
    rcases hr with hr | hr
    · have e : s.rep.code = 1 := by rw [hr]; rfl
      have b := I.repWait
      have c := I.repClosed
      have d := I.rclosed
      have f := I.rprod
      rw [e] at b c
      omega
    · exact hf ⟨hp, hdone, hr⟩

/-! ## Termination -/

/-- Cost of the program points of a compute thread. -/
def Computer.cost : Computer V → Nat
  | .reg => 6 | .pop => 5 | .waiting => 4 | .got _ _ => 13 | .compute _ _ => 11 | .push _ _ => 10 | .notify => 7
  | .unreg => 3 | .notifyAll => 2 | .done => 0

/-- Cost of the program points of the production thread. -/
def Producer.cost (W size : Nat) : Producer V → Nat
  | .reg => W + 4 + size * 14
  | .make k => W + 3 + (size - k) * 14
  | .push k _ => W + 3 + (size - k - 1) * 14 + 13
  | .waiting k _ => W + 3 + (size - k - 1) * 14 + 12
  | .notify k => W + 3 + (size - k - 1) * 14 + 2
  | .unreg => W + 2
  | .notifyAll => W + 1
  | .done => 0

/-- Cost of the program points of the report thread. -/
def Reporter.cost : Reporter V → Nat
  | .pop => 2 | .waiting => 1 | .retire _ _ => 3 | .done => 0

/-- Upper bound of the number of steps. -/
def PF.cost (size : Nat) (s : PF W V) : Nat :=
  s.prod.cost W size + ∑ w, (s.workers w).cost + s.rep.cost + 9 * s.wq.length + 2 * s.rq.length

theorem pcost_wake (W size : Nat) (p : Producer V) : p.wake.cost W size ≤ p.cost W size + 1 := by
  cases p <;> simp [Producer.wake, Producer.cost]

theorem rcost_wake (p : Reporter V) : p.wake.cost ≤ p.cost + 1 := by
  cases p <;> simp [Reporter.wake, Reporter.cost]

theorem wcost_wake (ws : Fin W → Computer V) : ∑ w, (ws w).wake.cost ≤ (∑ w, (ws w).cost) + W := by
  have : ∑ w, (ws w).wake.cost ≤ ∑ w, ((ws w).cost + 1) := sum_le_sum fun w _ => by
    cases ws w <;> simp [Computer.wake, Computer.cost]
  rw [sum_add_distrib] at this
  simpa using this

theorem cost_update (ws : Fin W → Computer V) (w : Fin W) (v : Computer V) {a b : Nat} (ha : (ws w).cost = a) (hb : v.cost = b) :
    (∑ x, (Function.update ws w v x).cost) + a = (∑ x, (ws x).cost) + b := by
  subst ha; subst hb; exact sum_update ws w v Computer.cost

theorem pf_cost {A : PFArgs V} {s s' : PF W V} (I : s.prod.Ok A) (h : PFStep A s s') : s'.cost A.size < s.cost A.size := by
  unfold PF.cost
  cases h with
  | pReg h => simp only [h, Producer.cost]; omega
  | pMake k h hk =>
    simp only [h, Producer.cost]
    have : A.size - k = A.size - k - 1 + 1 := by omega
    omega
  | pEnd k h hk => simp only [h, Producer.cost]; omega
  | pPush k v h hq => simp only [h, Producer.cost, List.length_append, List.length_cons, List.length_nil]; omega
  | pWait k v h hq => simp only [h, Producer.cost]; omega
  | pNotifyNone k h hw =>
    simp only [h, Producer.cost]
    have : A.size - (k + 1) = A.size - k - 1 := by omega
    rw [this]; omega
  | pNotifyOne k w h hw =>
    have := cost_update s.workers w .pop (a := 4) (b := 5) (by rw [hw]; rfl) rfl
    simp only [h, Producer.cost]
    have : A.size - (k + 1) = A.size - k - 1 := by omega
    rw [this]; omega
  | pUnreg h => simp only [h, Producer.cost]; omega
  | pNotifyAll h =>
    have := wcost_wake s.workers
    simp only [h, Producer.cost]; omega
  | wReg w h =>
    have := cost_update s.workers w .pop (a := 6) (b := 5) (by rw [h]; rfl) rfl
    simp only; omega
  | wPop w k v q h hq =>
    have := cost_update s.workers w (.got k v) (a := 5) (b := 13) (by rw [h]; rfl) rfl
    simp only [hq, List.length_cons]; omega
  | wPopClosed w h hq hc =>
    have := cost_update s.workers w .unreg (a := 5) (b := 3) (by rw [h]; rfl) rfl
    simp only; omega
  | wWait w h hq hc =>
    have := cost_update s.workers w .waiting (a := 5) (b := 4) (by rw [h]; rfl) rfl
    simp only; omega
  | wGot w k v h =>
    have := cost_update s.workers w (.compute k v) (a := 13) (b := 11) (by rw [h]; rfl) rfl
    have := pcost_wake W A.size s.prod
    simp only; omega
  | wCompute w k v h =>
    have := cost_update s.workers w (.push k (A.compute v)) (a := 11) (b := 10) (by rw [h]; rfl) rfl
    simp only; omega
  | wPush w k v h =>
    have := cost_update s.workers w .notify (a := 10) (b := 7) (by rw [h]; rfl) rfl
    simp only [List.length_append, List.length_cons, List.length_nil]; omega
  | wNotify w h =>
    have := cost_update s.workers w .pop (a := 7) (b := 5) (by rw [h]; rfl) rfl
    have := rcost_wake s.rep
    simp only; omega
  | wUnreg w h =>
    have := cost_update s.workers w .notifyAll (a := 3) (b := 2) (by rw [h]; rfl) rfl
    simp only; omega
  | wNotifyAll w h =>
    have := cost_update s.workers w .done (a := 2) (b := 0) (by rw [h]; rfl) rfl
    have := rcost_wake s.rep
    simp only; omega
  | rPop k v q h hq => simp only [h, hq, Reporter.cost, List.length_cons]; omega
  | rPopClosed h hq hc => simp only [h, Reporter.cost]; omega
  | rWait h hq hc => simp only [h, Reporter.cost]; omega
  | rRetire k v h => simp only [h, Reporter.cost]; omega

theorem pf_cost_spurious (size : Nat) {s s' : PF W V} (h : PFSpurious s s') : s'.cost size ≤ s.cost size + 1 := by
  unfold PF.cost
  cases h with
  | prod k v h => simp only [h, Producer.cost]; omega
  | worker w h =>
    have := cost_update s.workers w .pop (a := 4) (b := 5) (by rw [h]; rfl) rfl
    simp only; omega
  | rep h => simp only [h, Reporter.cost]; omega

theorem pf_run_bound {A : PFArgs V} {s s' : PF W V} (I : JInv A s) {n k : Nat} (h : PFRun A s n k s') :
    JInv A s' ∧ n + s'.cost A.size ≤ s.cost A.size + k := by
  induction h with
  | refl => exact ⟨I, by omega⟩
  | step _ hs ih =>
    have := pf_cost ih.1.prod hs
    exact ⟨jinv_step ih.1 hs, by omega⟩
  | spurious _ hs ih =>
    have := pf_cost_spurious A.size hs
    exact ⟨jinv_spurious ih.1 hs, by omega⟩

end Verif.Thread
