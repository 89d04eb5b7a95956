import Verif.Thread.ParallelFor
import Mathlib.Algebra.Order.BigOperators.Group.Finset

/-!
# Invariants of `parallel_for`
-/

namespace Verif.Thread

variable {W : Nat} {V : Type}

open Finset

/-- Program points without data. -/
inductive WKind | reg | pop | waiting | got | compute | push | notify | unreg | notifyAll | done
deriving DecidableEq

/-- The program point of a compute thread. -/
def Computer.kind : Computer V → WKind
  | .reg => .reg | .pop => .pop | .waiting => .waiting | .got _ _ => .got | .compute _ _ => .compute | .push _ _ => .push
  | .notify => .notify | .unreg => .unreg | .notifyAll => .notifyAll | .done => .done

/-- Program points of the production thread, numbered. -/
def Producer.code : Producer V → Nat
  | .reg => 0 | .make _ => 1 | .push _ _ => 2 | .waiting _ _ => 3 | .notify _ => 4 | .unreg => 5 | .notifyAll => 6 | .done => 7

/-- Program points of the report thread, numbered. -/
def Reporter.code : Reporter V → Nat
  | .pop => 0 | .waiting => 1 | .retire _ _ => 2 | .done => 3

/-- The number of compute threads at a program point. -/
def cnt (ws : Fin W → Computer V) (p : WKind) : Nat := ∑ w, if (ws w).kind = p then 1 else 0

theorem cnt_update (ws : Fin W → Computer V) (w : Fin W) (v : Computer V) (p : WKind) :
    cnt (Function.update ws w v) p + (if (ws w).kind = p then 1 else 0) = cnt ws p + (if v.kind = p then 1 else 0) :=
  sum_update ws w v fun x => if x.kind = p then 1 else 0

/-- 1 for `true`. -/
def b2n (b : Bool) : Nat := if b then 1 else 0

/-- The control part of the invariant: the numbers of compute threads at each program point, the length, the state and
the producers of the queues, and the program points of the other two threads. -/
structure CInv (W cap : Nat) (n : WKind → Nat) (wq wc : Nat) (wp : Int) (rq rc : Nat) (rp : Int) (p r : Nat) : Prop where
  total : n .reg + n .pop + n .waiting + n .got + n .compute + n .push + n .notify + n .unreg + n .notifyAll + n .done = W
  wprod : (p = 0 ∨ 6 ≤ p) ∧ wp = 0 ∨ (1 ≤ p ∧ p ≤ 5) ∧ wp = 1
  wclosed : wc = 1 ∧ 6 ≤ p ∨ wc = 0 ∧ p ≤ 5
  rprod : rp = (n .pop + n .waiting + n .got + n .compute + n .push + n .notify + n .unreg : Nat)
  rclosed : rc = 1 ∧ rp = 0 ∧ n .notifyAll + n .done > 0 ∨ rc = 0 ∧ (rp ≠ 0 ∨ n .notifyAll + n .done = 0)
  past : n .unreg + n .notifyAll + n .done = 0 ∨ wc = 1 ∧ wq = 0
  repDone : r ≠ 3 ∨ (rq = 0 ∧ wc = 1 ∧ wq = 0 ∧ n .waiting + n .got + n .compute + n .push + n .notify = 0 ∧ n .notifyAll + n .done > 0)
  prodWait : p ≠ 3 ∨ cap ≤ wq ∨ n .got > 0
  workWait : n .waiting = 0 ∨ wq ≤ n .pop ∨ wq = n .pop + 1 ∧ p = 4
  prodDone : p ≠ 7 ∨ n .waiting = 0
  repWait : r ≠ 1 ∨ rq = 0 ∨ n .notify > 0
  repClosed : r ≠ 1 ∨ rc = 0 ∨ n .notifyAll > 0

/-- The control part of the invariant of a state. -/
def PF.CInv (cap : Nat) (s : PF W V) : Prop :=
  Verif.Thread.CInv W cap (cnt s.workers) s.wq.length (b2n s.wclosed) s.wprod s.rq.length (b2n s.rclosed) s.rprod s.prod.code s.rep.code

theorem cinv_init (cap : Nat) : (PF.init W V).CInv cap := by
  have hz : ∀ p, p ≠ .reg → cnt (fun _ : Fin W => (.reg : Computer V)) p = 0 := by
    intro p hp
    unfold cnt
    exact sum_eq_zero fun w _ => by simp [Computer.kind, Ne.symm hp]
  have hr : cnt (fun _ : Fin W => (.reg : Computer V)) .reg = W := by
    simp [cnt, Computer.kind]
  constructor <;> simp [PF.init, Producer.code, Reporter.code, hz, hr, b2n]

/-- How the counts change when one thread moves from `a` to `b`. -/
structure Moves (n n' : WKind → Nat) (a b : WKind) : Prop where
  eq : ∀ p, n' p + (if a = p then 1 else 0) = n p + (if b = p then 1 else 0)

theorem moves_update (ws : Fin W → Computer V) (w : Fin W) (v : Computer V) :
    Moves (cnt ws) (cnt (Function.update ws w v)) (ws w).kind v.kind :=
  ⟨fun p => cnt_update ws w v p⟩

/-- A predicate of control states is preserved by a change of one thread.  The equations of the counts. -/
theorem Moves.all {n n' : WKind → Nat} {a b : WKind} (h : Moves n n' a b) :
    (n' .reg + (if a = .reg then 1 else 0) = n .reg + (if b = .reg then 1 else 0)) ∧
    (n' .pop + (if a = .pop then 1 else 0) = n .pop + (if b = .pop then 1 else 0)) ∧
    (n' .waiting + (if a = .waiting then 1 else 0) = n .waiting + (if b = .waiting then 1 else 0)) ∧
    (n' .got + (if a = .got then 1 else 0) = n .got + (if b = .got then 1 else 0)) ∧
    (n' .compute + (if a = .compute then 1 else 0) = n .compute + (if b = .compute then 1 else 0)) ∧
    (n' .push + (if a = .push then 1 else 0) = n .push + (if b = .push then 1 else 0)) ∧
    (n' .notify + (if a = .notify then 1 else 0) = n .notify + (if b = .notify then 1 else 0)) ∧
    (n' .unreg + (if a = .unreg then 1 else 0) = n .unreg + (if b = .unreg then 1 else 0)) ∧
    (n' .notifyAll + (if a = .notifyAll then 1 else 0) = n .notifyAll + (if b = .notifyAll then 1 else 0)) ∧
    (n' .done + (if a = .done then 1 else 0) = n .done + (if b = .done then 1 else 0)) :=
  ⟨h.eq _, h.eq _, h.eq _, h.eq _, h.eq _, h.eq _, h.eq _, h.eq _, h.eq _, h.eq _⟩

theorem cnt_pos {ws : Fin W → Computer V} {p : WKind} : cnt ws p > 0 ↔ ∃ w, (ws w).kind = p := by
  unfold cnt
  rw [gt_iff_lt, Finset.sum_pos_iff]
  constructor
  · rintro ⟨w, _, h⟩
    refine ⟨w, ?_⟩
    by_contra hc
    simp [hc] at h
  · rintro ⟨w, h⟩
    exact ⟨w, mem_univ _, by simp [h]⟩

theorem kind_waiting {x : Computer V} (h : x.kind = .waiting) : x = .waiting := by
  cases x <;> simp [Computer.kind] at h ⊢

theorem code_pwake (p : Producer V) : p.code = 3 ∧ p.wake.code = 2 ∨ p.code ≠ 3 ∧ p.wake.code = p.code := by
  cases p <;> simp [Producer.wake, Producer.code]

theorem code_rwake (p : Reporter V) : p.code = 1 ∧ p.wake.code = 0 ∨ p.code ≠ 1 ∧ p.wake.code = p.code := by
  cases p <;> simp [Reporter.wake, Reporter.code]

theorem kind_wake (x : Computer V) : x.wake.kind = if x.kind = .waiting then .pop else x.kind := by
  cases x <;> rfl

theorem cnt_wake (ws : Fin W → Computer V) (p : WKind) :
    cnt (fun w => (ws w).wake) p = if p = .waiting then 0 else if p = .pop then cnt ws .pop + cnt ws .waiting else cnt ws p := by
  unfold cnt
  simp only [kind_wake]
  by_cases h1 : p = .waiting
  · subst h1
    rw [if_pos rfl]
    refine sum_eq_zero fun w _ => ?_
    generalize (ws w).kind = x
    cases x <;> simp
  · rw [if_neg h1]
    by_cases h2 : p = .pop
    · subst h2
      rw [if_pos rfl, ← sum_add_distrib]
      refine sum_congr rfl fun w _ => ?_
      generalize (ws w).kind = x
      cases x <;> simp
    · rw [if_neg h2]
      refine sum_congr rfl fun w _ => ?_
      generalize (ws w).kind = x
      cases x <;> simp [Ne.symm h1, Ne.symm h2]

/-! Each step on the control state. -/

section
variable {cap : Nat} {n n' : WKind → Nat} {wq wc : Nat} {wp : Int} {rq rc : Nat} {rp : Int} {p r : Nat}

theorem CInv.pReg (I : CInv W cap n wq wc wp rq rc rp p r) (hp : p = 0) {wc' : Nat} (hc : wc' = 0) :
    CInv W cap n wq wc' (wp + 1) rq rc rp 1 r := by
  obtain ⟨I1, I2, I3, I4, I5, I6, I7, I8, I9, I10, I11, I12⟩ := I
  constructor
  · clear I2 I3 I4 I5 I6 I7 I8 I9 I10 I11 I12; omega
  · clear I1 I3 I4 I5 I6 I7 I8 I9 I10 I11 I12; omega
  · clear I1 I2 I4 I5 I6 I7 I8 I9 I10 I11 I12; omega
  · clear I1 I2 I3 I5 I6 I7 I8 I9 I10 I11 I12; omega
  · clear I1 I2 I3 I6 I7 I8 I9 I10 I11 I12; omega
  · clear I1 I2 I4 I5 I7 I8 I9 I10 I11 I12; omega
  · clear I1 I2 I8 I9 I10 I11 I12; omega
  · clear I1 I2 I3 I4 I5 I6 I7 I9 I10 I11 I12; omega
  · clear I1 I2 I3 I4 I5 I6 I7 I8 I10 I11 I12; omega
  · clear I1 I2 I4 I5 I6 I7 I8 I9 I11 I12; omega
  · clear I1 I2 I3 I4 I5 I6 I7 I8 I9 I10 I12; omega
  · clear I1 I2 I3 I4 I5 I6 I7 I8 I9 I10 I11; omega

theorem CInv.pMake (I : CInv W cap n wq wc wp rq rc rp p r) (hp : p = 1) :
    CInv W cap n wq wc wp rq rc rp 2 r := by
  obtain ⟨I1, I2, I3, I4, I5, I6, I7, I8, I9, I10, I11, I12⟩ := I
  constructor
  · clear I2 I3 I4 I5 I6 I7 I8 I9 I10 I11 I12; omega
  · clear I1 I3 I4 I5 I6 I7 I8 I9 I10 I11 I12; omega
  · clear I1 I2 I4 I5 I6 I7 I8 I9 I10 I11 I12; omega
  · clear I1 I2 I3 I5 I6 I7 I8 I9 I10 I11 I12; omega
  · clear I1 I2 I3 I6 I7 I8 I9 I10 I11 I12; omega
  · clear I1 I2 I4 I5 I7 I8 I9 I10 I11 I12; omega
  · clear I1 I2 I8 I9 I10 I11 I12; omega
  · clear I1 I2 I3 I4 I5 I6 I7 I9 I10 I11 I12; omega
  · clear I1 I2 I3 I4 I5 I6 I7 I8 I10 I11 I12; omega
  · clear I1 I2 I4 I5 I6 I7 I8 I9 I11 I12; omega
  · clear I1 I2 I3 I4 I5 I6 I7 I8 I9 I10 I12; omega
  · clear I1 I2 I3 I4 I5 I6 I7 I8 I9 I10 I11; omega

theorem CInv.pEnd (I : CInv W cap n wq wc wp rq rc rp p r) (hp : p = 1) :
    CInv W cap n wq wc wp rq rc rp 5 r := by
  obtain ⟨I1, I2, I3, I4, I5, I6, I7, I8, I9, I10, I11, I12⟩ := I
  constructor
  · clear I2 I3 I4 I5 I6 I7 I8 I9 I10 I11 I12; omega
  · clear I1 I3 I4 I5 I6 I7 I8 I9 I10 I11 I12; omega
  · clear I1 I2 I4 I5 I6 I7 I8 I9 I10 I11 I12; omega
  · clear I1 I2 I3 I5 I6 I7 I8 I9 I10 I11 I12; omega
  · clear I1 I2 I3 I6 I7 I8 I9 I10 I11 I12; omega
  · clear I1 I2 I4 I5 I7 I8 I9 I10 I11 I12; omega
  · clear I1 I2 I8 I9 I10 I11 I12; omega
  · clear I1 I2 I3 I4 I5 I6 I7 I9 I10 I11 I12; omega
  · clear I1 I2 I3 I4 I5 I6 I7 I8 I10 I11 I12; omega
  · clear I1 I2 I4 I5 I6 I7 I8 I9 I11 I12; omega
  · clear I1 I2 I3 I4 I5 I6 I7 I8 I9 I10 I12; omega
  · clear I1 I2 I3 I4 I5 I6 I7 I8 I9 I10 I11; omega

theorem CInv.pPush (I : CInv W cap n wq wc wp rq rc rp p r) (hp : p = 2) :
    CInv W cap n (wq + 1) wc wp rq rc rp 4 r := by
  obtain ⟨I1, I2, I3, I4, I5, I6, I7, I8, I9, I10, I11, I12⟩ := I
  constructor
  · clear I2 I3 I4 I5 I6 I7 I8 I9 I10 I11 I12; omega
  · clear I1 I3 I4 I5 I6 I7 I8 I9 I10 I11 I12; omega
  · clear I1 I2 I4 I5 I6 I7 I8 I9 I10 I11 I12; omega
  · clear I1 I2 I3 I5 I6 I7 I8 I9 I10 I11 I12; omega
  · clear I1 I2 I3 I6 I7 I8 I9 I10 I11 I12; omega
  · clear I1 I2 I4 I5 I7 I8 I9 I10 I11 I12; omega
  · clear I1 I2 I8 I9 I10 I11 I12; omega
  · clear I1 I2 I3 I4 I5 I6 I7 I9 I10 I11 I12; omega
  · clear I1 I2 I3 I4 I5 I6 I7 I8 I10 I11 I12; omega
  · clear I1 I2 I4 I5 I6 I7 I8 I9 I11 I12; omega
  · clear I1 I2 I3 I4 I5 I6 I7 I8 I9 I10 I12; omega
  · clear I1 I2 I3 I4 I5 I6 I7 I8 I9 I10 I11; omega

theorem CInv.pWait (I : CInv W cap n wq wc wp rq rc rp p r) (hp : p = 2) (hq : cap ≤ wq) :
    CInv W cap n wq wc wp rq rc rp 3 r := by
  obtain ⟨I1, I2, I3, I4, I5, I6, I7, I8, I9, I10, I11, I12⟩ := I
  constructor
  · clear I2 I3 I4 I5 I6 I7 I8 I9 I10 I11 I12; omega
  · clear I1 I3 I4 I5 I6 I7 I8 I9 I10 I11 I12; omega
  · clear I1 I2 I4 I5 I6 I7 I8 I9 I10 I11 I12; omega
  · clear I1 I2 I3 I5 I6 I7 I8 I9 I10 I11 I12; omega
  · clear I1 I2 I3 I6 I7 I8 I9 I10 I11 I12; omega
  · clear I1 I2 I4 I5 I7 I8 I9 I10 I11 I12; omega
  · clear I1 I2 I8 I9 I10 I11 I12; omega
  · clear I1 I2 I3 I4 I5 I6 I7 I9 I10 I11 I12; omega
  · clear I1 I2 I3 I4 I5 I6 I7 I8 I10 I11 I12; omega
  · clear I1 I2 I4 I5 I6 I7 I8 I9 I11 I12; omega
  · clear I1 I2 I3 I4 I5 I6 I7 I8 I9 I10 I12; omega
  · clear I1 I2 I3 I4 I5 I6 I7 I8 I9 I10 I11; omega

theorem CInv.pNotifyNone (I : CInv W cap n wq wc wp rq rc rp p r) (hp : p = 4) (hw : n .waiting = 0) :
    CInv W cap n wq wc wp rq rc rp 1 r := by
  obtain ⟨I1, I2, I3, I4, I5, I6, I7, I8, I9, I10, I11, I12⟩ := I
  constructor
  · clear I2 I3 I4 I5 I6 I7 I8 I9 I10 I11 I12; omega
  · clear I1 I3 I4 I5 I6 I7 I8 I9 I10 I11 I12; omega
  · clear I1 I2 I4 I5 I6 I7 I8 I9 I10 I11 I12; omega
  · clear I1 I2 I3 I5 I6 I7 I8 I9 I10 I11 I12; omega
  · clear I1 I2 I3 I6 I7 I8 I9 I10 I11 I12; omega
  · clear I1 I2 I4 I5 I7 I8 I9 I10 I11 I12; omega
  · clear I1 I2 I8 I9 I10 I11 I12; omega
  · clear I1 I2 I3 I4 I5 I6 I7 I9 I10 I11 I12; omega
  · clear I1 I2 I3 I4 I5 I6 I7 I8 I10 I11 I12; omega
  · clear I1 I2 I4 I5 I6 I7 I8 I9 I11 I12; omega
  · clear I1 I2 I3 I4 I5 I6 I7 I8 I9 I10 I12; omega
  · clear I1 I2 I3 I4 I5 I6 I7 I8 I9 I10 I11; omega

theorem CInv.pNotifyOne (I : CInv W cap n wq wc wp rq rc rp p r) (hp : p = 4) (M : Moves n n' .waiting .pop) :
    CInv W cap n' wq wc wp rq rc rp 1 r := by
  obtain ⟨I1, I2, I3, I4, I5, I6, I7, I8, I9, I10, I11, I12⟩ := I
  have m_reg : n' .reg = n .reg := M.eq .reg
  have m_pop : n' .pop = n .pop + 1 := M.eq .pop
  have m_waiting : n' .waiting + 1 = n .waiting := M.eq .waiting
  have m_got : n' .got = n .got := M.eq .got
  have m_compute : n' .compute = n .compute := M.eq .compute
  have m_push : n' .push = n .push := M.eq .push
  have m_notify : n' .notify = n .notify := M.eq .notify
  have m_unreg : n' .unreg = n .unreg := M.eq .unreg
  have m_notifyAll : n' .notifyAll = n .notifyAll := M.eq .notifyAll
  have m_done : n' .done = n .done := M.eq .done
  constructor
  · clear I2 I3 I4 I5 I6 I7 I8 I9 I10 I11 I12; omega
  · clear I1 I3 I4 I5 I6 I7 I8 I9 I10 I11 I12; omega
  · clear I1 I2 I4 I5 I6 I7 I8 I9 I10 I11 I12; omega
  · clear I1 I2 I3 I5 I6 I7 I8 I9 I10 I11 I12; omega
  · clear I1 I2 I3 I6 I7 I8 I9 I10 I11 I12; omega
  · clear I1 I2 I4 I5 I7 I8 I9 I10 I11 I12; omega
  · clear I1 I2 I8 I9 I10 I11 I12; omega
  · clear I1 I2 I3 I4 I5 I6 I7 I9 I10 I11 I12; omega
  · clear I1 I2 I3 I4 I5 I6 I7 I8 I10 I11 I12; omega
  · clear I1 I2 I4 I5 I6 I7 I8 I9 I11 I12; omega
  · clear I1 I2 I3 I4 I5 I6 I7 I8 I9 I10 I12; omega
  · clear I1 I2 I3 I4 I5 I6 I7 I8 I9 I10 I11; omega

theorem CInv.pUnreg (I : CInv W cap n wq wc wp rq rc rp p r) (hp : p = 5) {wc' : Nat} (hc : wc' = 1) :
    CInv W cap n wq wc' (wp - 1) rq rc rp 6 r := by
  obtain ⟨I1, I2, I3, I4, I5, I6, I7, I8, I9, I10, I11, I12⟩ := I
  constructor
  · clear I2 I3 I4 I5 I6 I7 I8 I9 I10 I11 I12; omega
  · clear I1 I3 I4 I5 I6 I7 I8 I9 I10 I11 I12; omega
  · clear I1 I2 I4 I5 I6 I7 I8 I9 I10 I11 I12; omega
  · clear I1 I2 I3 I5 I6 I7 I8 I9 I10 I11 I12; omega
  · clear I1 I2 I3 I6 I7 I8 I9 I10 I11 I12; omega
  · clear I1 I2 I4 I5 I7 I8 I9 I10 I11 I12; omega
  · clear I1 I2 I8 I9 I10 I11 I12; omega
  · clear I1 I2 I3 I4 I5 I6 I7 I9 I10 I11 I12; omega
  · clear I1 I2 I3 I4 I5 I6 I7 I8 I10 I11 I12; omega
  · clear I1 I2 I4 I5 I6 I7 I8 I9 I11 I12; omega
  · clear I1 I2 I3 I4 I5 I6 I7 I8 I9 I10 I12; omega
  · clear I1 I2 I3 I4 I5 I6 I7 I8 I9 I10 I11; omega

theorem CInv.wReg (I : CInv W cap n wq wc wp rq rc rp p r) {rc' : Nat} (hc : rc' = 0) (M : Moves n n' .reg .pop) :
    CInv W cap n' wq wc wp rq rc' (rp + 1) p r := by
  obtain ⟨I1, I2, I3, I4, I5, I6, I7, I8, I9, I10, I11, I12⟩ := I
  have m_reg : n' .reg + 1 = n .reg := M.eq .reg
  have m_pop : n' .pop = n .pop + 1 := M.eq .pop
  have m_waiting : n' .waiting = n .waiting := M.eq .waiting
  have m_got : n' .got = n .got := M.eq .got
  have m_compute : n' .compute = n .compute := M.eq .compute
  have m_push : n' .push = n .push := M.eq .push
  have m_notify : n' .notify = n .notify := M.eq .notify
  have m_unreg : n' .unreg = n .unreg := M.eq .unreg
  have m_notifyAll : n' .notifyAll = n .notifyAll := M.eq .notifyAll
  have m_done : n' .done = n .done := M.eq .done
  constructor
  · clear I2 I3 I4 I5 I6 I7 I8 I9 I10 I11 I12; omega
  · clear I1 I3 I4 I5 I6 I7 I8 I9 I10 I11 I12; omega
  · clear I1 I2 I4 I5 I6 I7 I8 I9 I10 I11 I12; omega
  · clear I1 I2 I3 I5 I6 I7 I8 I9 I10 I11 I12; omega
  · clear I1 I2 I3 I6 I7 I8 I9 I10 I11 I12; omega
  · clear I1 I2 I4 I5 I7 I8 I9 I10 I11 I12; omega
  · clear I1 I2 I8 I9 I10 I11 I12; omega
  · clear I1 I2 I3 I4 I5 I6 I7 I9 I10 I11 I12; omega
  · clear I1 I2 I3 I4 I5 I6 I7 I8 I10 I11 I12; omega
  · clear I1 I2 I4 I5 I6 I7 I8 I9 I11 I12; omega
  · clear I1 I2 I3 I4 I5 I6 I7 I8 I9 I10 I12; omega
  · clear I1 I2 I3 I4 I5 I6 I7 I8 I9 I10 I11; omega

theorem CInv.wPop (I : CInv W cap n wq wc wp rq rc rp p r) {q : Nat} (hq : wq = q + 1) (M : Moves n n' .pop .got) :
    CInv W cap n' q wc wp rq rc rp p r := by
  obtain ⟨I1, I2, I3, I4, I5, I6, I7, I8, I9, I10, I11, I12⟩ := I
  have m_reg : n' .reg = n .reg := M.eq .reg
  have m_pop : n' .pop + 1 = n .pop := M.eq .pop
  have m_waiting : n' .waiting = n .waiting := M.eq .waiting
  have m_got : n' .got = n .got + 1 := M.eq .got
  have m_compute : n' .compute = n .compute := M.eq .compute
  have m_push : n' .push = n .push := M.eq .push
  have m_notify : n' .notify = n .notify := M.eq .notify
  have m_unreg : n' .unreg = n .unreg := M.eq .unreg
  have m_notifyAll : n' .notifyAll = n .notifyAll := M.eq .notifyAll
  have m_done : n' .done = n .done := M.eq .done
  constructor
  · clear I2 I3 I4 I5 I6 I7 I8 I9 I10 I11 I12; omega
  · clear I1 I3 I4 I5 I6 I7 I8 I9 I10 I11 I12; omega
  · clear I1 I2 I4 I5 I6 I7 I8 I9 I10 I11 I12; omega
  · clear I1 I2 I3 I5 I6 I7 I8 I9 I10 I11 I12; omega
  · clear I1 I2 I3 I6 I7 I8 I9 I10 I11 I12; omega
  · clear I1 I2 I4 I5 I7 I8 I9 I10 I11 I12; omega
  · clear I1 I2 I8 I9 I10 I11 I12; omega
  · clear I1 I2 I3 I4 I5 I6 I7 I9 I10 I11 I12; omega
  · clear I1 I2 I3 I4 I5 I6 I7 I8 I10 I11 I12; omega
  · clear I1 I2 I4 I5 I6 I7 I8 I9 I11 I12; omega
  · clear I1 I2 I3 I4 I5 I6 I7 I8 I9 I10 I12; omega
  · clear I1 I2 I3 I4 I5 I6 I7 I8 I9 I10 I11; omega

theorem CInv.wPopClosed (I : CInv W cap n wq wc wp rq rc rp p r) (hq : wq = 0) (hc : wc = 1) (M : Moves n n' .pop .unreg) :
    CInv W cap n' wq wc wp rq rc rp p r := by
  obtain ⟨I1, I2, I3, I4, I5, I6, I7, I8, I9, I10, I11, I12⟩ := I
  have m_reg : n' .reg = n .reg := M.eq .reg
  have m_pop : n' .pop + 1 = n .pop := M.eq .pop
  have m_waiting : n' .waiting = n .waiting := M.eq .waiting
  have m_got : n' .got = n .got := M.eq .got
  have m_compute : n' .compute = n .compute := M.eq .compute
  have m_push : n' .push = n .push := M.eq .push
  have m_notify : n' .notify = n .notify := M.eq .notify
  have m_unreg : n' .unreg = n .unreg + 1 := M.eq .unreg
  have m_notifyAll : n' .notifyAll = n .notifyAll := M.eq .notifyAll
  have m_done : n' .done = n .done := M.eq .done
  constructor
  · clear I2 I3 I4 I5 I6 I7 I8 I9 I10 I11 I12; omega
  · clear I1 I3 I4 I5 I6 I7 I8 I9 I10 I11 I12; omega
  · clear I1 I2 I4 I5 I6 I7 I8 I9 I10 I11 I12; omega
  · clear I1 I2 I3 I5 I6 I7 I8 I9 I10 I11 I12; omega
  · clear I1 I2 I3 I6 I7 I8 I9 I10 I11 I12; omega
  · clear I1 I2 I4 I5 I7 I8 I9 I10 I11 I12; omega
  · clear I1 I2 I8 I9 I10 I11 I12; omega
  · clear I1 I2 I3 I4 I5 I6 I7 I9 I10 I11 I12; omega
  · clear I1 I2 I3 I4 I5 I6 I7 I8 I10 I11 I12; omega
  · clear I1 I2 I4 I5 I6 I7 I8 I9 I11 I12; omega
  · clear I1 I2 I3 I4 I5 I6 I7 I8 I9 I10 I12; omega
  · clear I1 I2 I3 I4 I5 I6 I7 I8 I9 I10 I11; omega

theorem CInv.wWait (I : CInv W cap n wq wc wp rq rc rp p r) (hq : wq = 0) (hc : wc = 0) (M : Moves n n' .pop .waiting) :
    CInv W cap n' wq wc wp rq rc rp p r := by
  obtain ⟨I1, I2, I3, I4, I5, I6, I7, I8, I9, I10, I11, I12⟩ := I
  have m_reg : n' .reg = n .reg := M.eq .reg
  have m_pop : n' .pop + 1 = n .pop := M.eq .pop
  have m_waiting : n' .waiting = n .waiting + 1 := M.eq .waiting
  have m_got : n' .got = n .got := M.eq .got
  have m_compute : n' .compute = n .compute := M.eq .compute
  have m_push : n' .push = n .push := M.eq .push
  have m_notify : n' .notify = n .notify := M.eq .notify
  have m_unreg : n' .unreg = n .unreg := M.eq .unreg
  have m_notifyAll : n' .notifyAll = n .notifyAll := M.eq .notifyAll
  have m_done : n' .done = n .done := M.eq .done
  constructor
  · clear I2 I3 I4 I5 I6 I7 I8 I9 I10 I11 I12; omega
  · clear I1 I3 I4 I5 I6 I7 I8 I9 I10 I11 I12; omega
  · clear I1 I2 I4 I5 I6 I7 I8 I9 I10 I11 I12; omega
  · clear I1 I2 I3 I5 I6 I7 I8 I9 I10 I11 I12; omega
  · clear I1 I2 I3 I6 I7 I8 I9 I10 I11 I12; omega
  · clear I1 I2 I4 I5 I7 I8 I9 I10 I11 I12; omega
  · clear I1 I2 I8 I9 I10 I11 I12; omega
  · clear I1 I2 I3 I4 I5 I6 I7 I9 I10 I11 I12; omega
  · clear I1 I2 I3 I4 I5 I6 I7 I8 I10 I11 I12; omega
  · clear I1 I2 I4 I5 I6 I7 I8 I9 I11 I12; omega
  · clear I1 I2 I3 I4 I5 I6 I7 I8 I9 I10 I12; omega
  · clear I1 I2 I3 I4 I5 I6 I7 I8 I9 I10 I11; omega

theorem CInv.wGot (I : CInv W cap n wq wc wp rq rc rp p r) {p' : Nat} (hp : p = 3 ∧ p' = 2 ∨ p ≠ 3 ∧ p' = p) (M : Moves n n' .got .compute) :
    CInv W cap n' wq wc wp rq rc rp p' r := by
  obtain ⟨I1, I2, I3, I4, I5, I6, I7, I8, I9, I10, I11, I12⟩ := I
  have m_reg : n' .reg = n .reg := M.eq .reg
  have m_pop : n' .pop = n .pop := M.eq .pop
  have m_waiting : n' .waiting = n .waiting := M.eq .waiting
  have m_got : n' .got + 1 = n .got := M.eq .got
  have m_compute : n' .compute = n .compute + 1 := M.eq .compute
  have m_push : n' .push = n .push := M.eq .push
  have m_notify : n' .notify = n .notify := M.eq .notify
  have m_unreg : n' .unreg = n .unreg := M.eq .unreg
  have m_notifyAll : n' .notifyAll = n .notifyAll := M.eq .notifyAll
  have m_done : n' .done = n .done := M.eq .done
  constructor
  · clear I2 I3 I4 I5 I6 I7 I8 I9 I10 I11 I12; omega
  · clear I1 I3 I4 I5 I6 I7 I8 I9 I10 I11 I12; omega
  · clear I1 I2 I4 I5 I6 I7 I8 I9 I10 I11 I12; omega
  · clear I1 I2 I3 I5 I6 I7 I8 I9 I10 I11 I12; omega
  · clear I1 I2 I3 I6 I7 I8 I9 I10 I11 I12; omega
  · clear I1 I2 I4 I5 I7 I8 I9 I10 I11 I12; omega
  · clear I1 I2 I8 I9 I10 I11 I12; omega
  · clear I1 I2 I3 I4 I5 I6 I7 I9 I10 I11 I12; omega
  · clear I1 I2 I3 I4 I5 I6 I7 I8 I10 I11 I12; omega
  · clear I1 I2 I4 I5 I6 I7 I8 I9 I11 I12; omega
  · clear I1 I2 I3 I4 I5 I6 I7 I8 I9 I10 I12; omega
  · clear I1 I2 I3 I4 I5 I6 I7 I8 I9 I10 I11; omega

theorem CInv.wCompute (I : CInv W cap n wq wc wp rq rc rp p r) (M : Moves n n' .compute .push) :
    CInv W cap n' wq wc wp rq rc rp p r := by
  obtain ⟨I1, I2, I3, I4, I5, I6, I7, I8, I9, I10, I11, I12⟩ := I
  have m_reg : n' .reg = n .reg := M.eq .reg
  have m_pop : n' .pop = n .pop := M.eq .pop
  have m_waiting : n' .waiting = n .waiting := M.eq .waiting
  have m_got : n' .got = n .got := M.eq .got
  have m_compute : n' .compute + 1 = n .compute := M.eq .compute
  have m_push : n' .push = n .push + 1 := M.eq .push
  have m_notify : n' .notify = n .notify := M.eq .notify
  have m_unreg : n' .unreg = n .unreg := M.eq .unreg
  have m_notifyAll : n' .notifyAll = n .notifyAll := M.eq .notifyAll
  have m_done : n' .done = n .done := M.eq .done
  constructor
  · clear I2 I3 I4 I5 I6 I7 I8 I9 I10 I11 I12; omega
  · clear I1 I3 I4 I5 I6 I7 I8 I9 I10 I11 I12; omega
  · clear I1 I2 I4 I5 I6 I7 I8 I9 I10 I11 I12; omega
  · clear I1 I2 I3 I5 I6 I7 I8 I9 I10 I11 I12; omega
  · clear I1 I2 I3 I6 I7 I8 I9 I10 I11 I12; omega
  · clear I1 I2 I4 I5 I7 I8 I9 I10 I11 I12; omega
  · clear I1 I2 I8 I9 I10 I11 I12; omega
  · clear I1 I2 I3 I4 I5 I6 I7 I9 I10 I11 I12; omega
  · clear I1 I2 I3 I4 I5 I6 I7 I8 I10 I11 I12; omega
  · clear I1 I2 I4 I5 I6 I7 I8 I9 I11 I12; omega
  · clear I1 I2 I3 I4 I5 I6 I7 I8 I9 I10 I12; omega
  · clear I1 I2 I3 I4 I5 I6 I7 I8 I9 I10 I11; omega

theorem CInv.wPush (I : CInv W cap n wq wc wp rq rc rp p r) (M : Moves n n' .push .notify) :
    CInv W cap n' wq wc wp (rq + 1) rc rp p r := by
  obtain ⟨I1, I2, I3, I4, I5, I6, I7, I8, I9, I10, I11, I12⟩ := I
  have m_reg : n' .reg = n .reg := M.eq .reg
  have m_pop : n' .pop = n .pop := M.eq .pop
  have m_waiting : n' .waiting = n .waiting := M.eq .waiting
  have m_got : n' .got = n .got := M.eq .got
  have m_compute : n' .compute = n .compute := M.eq .compute
  have m_push : n' .push + 1 = n .push := M.eq .push
  have m_notify : n' .notify = n .notify + 1 := M.eq .notify
  have m_unreg : n' .unreg = n .unreg := M.eq .unreg
  have m_notifyAll : n' .notifyAll = n .notifyAll := M.eq .notifyAll
  have m_done : n' .done = n .done := M.eq .done
  constructor
  · clear I2 I3 I4 I5 I6 I7 I8 I9 I10 I11 I12; omega
  · clear I1 I3 I4 I5 I6 I7 I8 I9 I10 I11 I12; omega
  · clear I1 I2 I4 I5 I6 I7 I8 I9 I10 I11 I12; omega
  · clear I1 I2 I3 I5 I6 I7 I8 I9 I10 I11 I12; omega
  · clear I1 I2 I3 I6 I7 I8 I9 I10 I11 I12; omega
  · clear I1 I2 I4 I5 I7 I8 I9 I10 I11 I12; omega
  · clear I1 I2 I8 I9 I10 I11 I12; omega
  · clear I1 I2 I3 I4 I5 I6 I7 I9 I10 I11 I12; omega
  · clear I1 I2 I3 I4 I5 I6 I7 I8 I10 I11 I12; omega
  · clear I1 I2 I4 I5 I6 I7 I8 I9 I11 I12; omega
  · clear I1 I2 I3 I4 I5 I6 I7 I8 I9 I10 I12; omega
  · clear I1 I2 I3 I4 I5 I6 I7 I8 I9 I10 I11; omega

theorem CInv.wNotify (I : CInv W cap n wq wc wp rq rc rp p r) {r' : Nat} (hr : r = 1 ∧ r' = 0 ∨ r ≠ 1 ∧ r' = r) (M : Moves n n' .notify .pop) :
    CInv W cap n' wq wc wp rq rc rp p r' := by
  obtain ⟨I1, I2, I3, I4, I5, I6, I7, I8, I9, I10, I11, I12⟩ := I
  have m_reg : n' .reg = n .reg := M.eq .reg
  have m_pop : n' .pop = n .pop + 1 := M.eq .pop
  have m_waiting : n' .waiting = n .waiting := M.eq .waiting
  have m_got : n' .got = n .got := M.eq .got
  have m_compute : n' .compute = n .compute := M.eq .compute
  have m_push : n' .push = n .push := M.eq .push
  have m_notify : n' .notify + 1 = n .notify := M.eq .notify
  have m_unreg : n' .unreg = n .unreg := M.eq .unreg
  have m_notifyAll : n' .notifyAll = n .notifyAll := M.eq .notifyAll
  have m_done : n' .done = n .done := M.eq .done
  constructor
  · clear I2 I3 I4 I5 I6 I7 I8 I9 I10 I11 I12; omega
  · clear I1 I3 I4 I5 I6 I7 I8 I9 I10 I11 I12; omega
  · clear I1 I2 I4 I5 I6 I7 I8 I9 I10 I11 I12; omega
  · clear I1 I2 I3 I5 I6 I7 I8 I9 I10 I11 I12; omega
  · clear I1 I2 I3 I6 I7 I8 I9 I10 I11 I12; omega
  · clear I1 I2 I4 I5 I7 I8 I9 I10 I11 I12; omega
  · clear I1 I2 I8 I9 I10 I11 I12; omega
  · clear I1 I2 I3 I4 I5 I6 I7 I9 I10 I11 I12; omega
  · clear I1 I2 I3 I4 I5 I6 I7 I8 I10 I11 I12; omega
  · clear I1 I2 I4 I5 I6 I7 I8 I9 I11 I12; omega
  · clear I1 I2 I3 I4 I5 I6 I7 I8 I9 I10 I12; omega
  · clear I1 I2 I3 I4 I5 I6 I7 I8 I9 I10 I11; omega

theorem CInv.wUnreg (I : CInv W cap n wq wc wp rq rc rp p r) {rc' : Nat} (hr : rp - 1 ≤ 0 ∧ rc' = 1 ∨ ¬ rp - 1 ≤ 0 ∧ rc' = rc) (M : Moves n n' .unreg .notifyAll) :
    CInv W cap n' wq wc wp rq rc' (rp - 1) p r := by
  obtain ⟨I1, I2, I3, I4, I5, I6, I7, I8, I9, I10, I11, I12⟩ := I
  have m_reg : n' .reg = n .reg := M.eq .reg
  have m_pop : n' .pop = n .pop := M.eq .pop
  have m_waiting : n' .waiting = n .waiting := M.eq .waiting
  have m_got : n' .got = n .got := M.eq .got
  have m_compute : n' .compute = n .compute := M.eq .compute
  have m_push : n' .push = n .push := M.eq .push
  have m_notify : n' .notify = n .notify := M.eq .notify
  have m_unreg : n' .unreg + 1 = n .unreg := M.eq .unreg
  have m_notifyAll : n' .notifyAll = n .notifyAll + 1 := M.eq .notifyAll
  have m_done : n' .done = n .done := M.eq .done
  constructor
  · clear I2 I3 I4 I5 I6 I7 I8 I9 I10 I11 I12; omega
  · clear I1 I3 I4 I5 I6 I7 I8 I9 I10 I11 I12; omega
  · clear I1 I2 I4 I5 I6 I7 I8 I9 I10 I11 I12; omega
  · clear I1 I2 I3 I5 I6 I7 I8 I9 I10 I11 I12; omega
  · clear I1 I2 I3 I6 I7 I8 I9 I10 I11 I12; omega
  · clear I1 I2 I4 I5 I7 I8 I9 I10 I11 I12; omega
  · clear I1 I2 I8 I9 I10 I11 I12; omega
  · clear I1 I2 I3 I4 I5 I6 I7 I9 I10 I11 I12; omega
  · clear I1 I2 I3 I4 I5 I6 I7 I8 I10 I11 I12; omega
  · clear I1 I2 I4 I5 I6 I7 I8 I9 I11 I12; omega
  · clear I1 I2 I3 I4 I5 I6 I7 I8 I9 I10 I12; omega
  · clear I1 I2 I3 I4 I5 I6 I7 I8 I9 I10 I11; omega

theorem CInv.wNotifyAll (I : CInv W cap n wq wc wp rq rc rp p r) {r' : Nat} (hr : r = 1 ∧ r' = 0 ∨ r ≠ 1 ∧ r' = r) (M : Moves n n' .notifyAll .done) :
    CInv W cap n' wq wc wp rq rc rp p r' := by
  obtain ⟨I1, I2, I3, I4, I5, I6, I7, I8, I9, I10, I11, I12⟩ := I
  have m_reg : n' .reg = n .reg := M.eq .reg
  have m_pop : n' .pop = n .pop := M.eq .pop
  have m_waiting : n' .waiting = n .waiting := M.eq .waiting
  have m_got : n' .got = n .got := M.eq .got
  have m_compute : n' .compute = n .compute := M.eq .compute
  have m_push : n' .push = n .push := M.eq .push
  have m_notify : n' .notify = n .notify := M.eq .notify
  have m_unreg : n' .unreg = n .unreg := M.eq .unreg
  have m_notifyAll : n' .notifyAll + 1 = n .notifyAll := M.eq .notifyAll
  have m_done : n' .done = n .done + 1 := M.eq .done
  constructor
  · clear I2 I3 I4 I5 I6 I7 I8 I9 I10 I11 I12; omega
  · clear I1 I3 I4 I5 I6 I7 I8 I9 I10 I11 I12; omega
  · clear I1 I2 I4 I5 I6 I7 I8 I9 I10 I11 I12; omega
  · clear I1 I2 I3 I5 I6 I7 I8 I9 I10 I11 I12; omega
  · clear I1 I2 I3 I6 I7 I8 I9 I10 I11 I12; omega
  · clear I1 I2 I4 I5 I7 I8 I9 I10 I11 I12; omega
  · clear I1 I2 I8 I9 I10 I11 I12; omega
  · clear I1 I2 I3 I4 I5 I6 I7 I9 I10 I11 I12; omega
  · clear I1 I2 I3 I4 I5 I6 I7 I8 I10 I11 I12; omega
  · clear I1 I2 I4 I5 I6 I7 I8 I9 I11 I12; omega
  · clear I1 I2 I3 I4 I5 I6 I7 I8 I9 I10 I12; omega
  · clear I1 I2 I3 I4 I5 I6 I7 I8 I9 I10 I11; omega

theorem CInv.rPop (I : CInv W cap n wq wc wp rq rc rp p r) {q : Nat} (hq : rq = q + 1) (hr : r = 0) :
    CInv W cap n wq wc wp q rc rp p 2 := by
  obtain ⟨I1, I2, I3, I4, I5, I6, I7, I8, I9, I10, I11, I12⟩ := I
  constructor
  · clear I2 I3 I4 I5 I6 I7 I8 I9 I10 I11 I12; omega
  · clear I1 I3 I4 I5 I6 I7 I8 I9 I10 I11 I12; omega
  · clear I1 I2 I4 I5 I6 I7 I8 I9 I10 I11 I12; omega
  · clear I1 I2 I3 I5 I6 I7 I8 I9 I10 I11 I12; omega
  · clear I1 I2 I3 I6 I7 I8 I9 I10 I11 I12; omega
  · clear I1 I2 I4 I5 I7 I8 I9 I10 I11 I12; omega
  · clear I1 I2 I8 I9 I10 I11 I12; omega
  · clear I1 I2 I3 I4 I5 I6 I7 I9 I10 I11 I12; omega
  · clear I1 I2 I3 I4 I5 I6 I7 I8 I10 I11 I12; omega
  · clear I1 I2 I4 I5 I6 I7 I8 I9 I11 I12; omega
  · clear I1 I2 I3 I4 I5 I6 I7 I8 I9 I10 I12; omega
  · clear I1 I2 I3 I4 I5 I6 I7 I8 I9 I10 I11; omega

theorem CInv.rPopClosed (I : CInv W cap n wq wc wp rq rc rp p r) (hq : rq = 0) (hr : r = 0) (hc : rc = 1) :
    CInv W cap n wq wc wp rq rc rp p 3 := by
  obtain ⟨I1, I2, I3, I4, I5, I6, I7, I8, I9, I10, I11, I12⟩ := I
  constructor
  · clear I2 I3 I4 I5 I6 I7 I8 I9 I10 I11 I12; omega
  · clear I1 I3 I4 I5 I6 I7 I8 I9 I10 I11 I12; omega
  · clear I1 I2 I4 I5 I6 I7 I8 I9 I10 I11 I12; omega
  · clear I1 I2 I3 I5 I6 I7 I8 I9 I10 I11 I12; omega
  · clear I1 I2 I3 I6 I7 I8 I9 I10 I11 I12; omega
  · clear I1 I2 I4 I5 I7 I8 I9 I10 I11 I12; omega
  · clear I1 I2 I8 I9 I10 I11 I12; omega
  · clear I1 I2 I3 I4 I5 I6 I7 I9 I10 I11 I12; omega
  · clear I1 I2 I3 I4 I5 I6 I7 I8 I10 I11 I12; omega
  · clear I1 I2 I4 I5 I6 I7 I8 I9 I11 I12; omega
  · clear I1 I2 I3 I4 I5 I6 I7 I8 I9 I10 I12; omega
  · clear I1 I2 I3 I4 I5 I6 I7 I8 I9 I10 I11; omega

theorem CInv.rWait (I : CInv W cap n wq wc wp rq rc rp p r) (hq : rq = 0) (hr : r = 0) (hc : rc = 0) :
    CInv W cap n wq wc wp rq rc rp p 1 := by
  obtain ⟨I1, I2, I3, I4, I5, I6, I7, I8, I9, I10, I11, I12⟩ := I
  constructor
  · clear I2 I3 I4 I5 I6 I7 I8 I9 I10 I11 I12; omega
  · clear I1 I3 I4 I5 I6 I7 I8 I9 I10 I11 I12; omega
  · clear I1 I2 I4 I5 I6 I7 I8 I9 I10 I11 I12; omega
  · clear I1 I2 I3 I5 I6 I7 I8 I9 I10 I11 I12; omega
  · clear I1 I2 I3 I6 I7 I8 I9 I10 I11 I12; omega
  · clear I1 I2 I4 I5 I7 I8 I9 I10 I11 I12; omega
  · clear I1 I2 I8 I9 I10 I11 I12; omega
  · clear I1 I2 I3 I4 I5 I6 I7 I9 I10 I11 I12; omega
  · clear I1 I2 I3 I4 I5 I6 I7 I8 I10 I11 I12; omega
  · clear I1 I2 I4 I5 I6 I7 I8 I9 I11 I12; omega
  · clear I1 I2 I3 I4 I5 I6 I7 I8 I9 I10 I12; omega
  · clear I1 I2 I3 I4 I5 I6 I7 I8 I9 I10 I11; omega

theorem CInv.rRetire (I : CInv W cap n wq wc wp rq rc rp p r) (hr : r = 2) :
    CInv W cap n wq wc wp rq rc rp p 0 := by
  obtain ⟨I1, I2, I3, I4, I5, I6, I7, I8, I9, I10, I11, I12⟩ := I
  constructor
  · clear I2 I3 I4 I5 I6 I7 I8 I9 I10 I11 I12; omega
  · clear I1 I3 I4 I5 I6 I7 I8 I9 I10 I11 I12; omega
  · clear I1 I2 I4 I5 I6 I7 I8 I9 I10 I11 I12; omega
  · clear I1 I2 I3 I5 I6 I7 I8 I9 I10 I11 I12; omega
  · clear I1 I2 I3 I6 I7 I8 I9 I10 I11 I12; omega
  · clear I1 I2 I4 I5 I7 I8 I9 I10 I11 I12; omega
  · clear I1 I2 I8 I9 I10 I11 I12; omega
  · clear I1 I2 I3 I4 I5 I6 I7 I9 I10 I11 I12; omega
  · clear I1 I2 I3 I4 I5 I6 I7 I8 I10 I11 I12; omega
  · clear I1 I2 I4 I5 I6 I7 I8 I9 I11 I12; omega
  · clear I1 I2 I3 I4 I5 I6 I7 I8 I9 I10 I12; omega
  · clear I1 I2 I3 I4 I5 I6 I7 I8 I9 I10 I11; omega

end

end Verif.Thread
