import Verif.Thread.PropsPool

/-!
# A pool with one worker runs its jobs in the order in which they were added
-/

namespace Verif.Thread

variable {J σ R : Type}

/-- Specification.  The job runs from the local state `r` to its end, alone. -/
inductive Completes (P : JobSem J σ R) : R → σ → σ → Prop
  | last {r m m'} (h : P.step r m = (m', none)) : Completes P r m m'
  | more {r r' m m1 m'} (h : P.step r m = (m1, some r')) (h' : Completes P r' m1 m') : Completes P r m m'

/-- Specification.  The jobs run one after the other. -/
inductive Sequential (P : JobSem J σ R) : σ → List J → σ → Prop
  | nil (m) : Sequential P m [] m
  | cons {m m1 m' j js} (h : Completes P (P.start j) m m1) (h' : Sequential P m1 js m') : Sequential P m (j :: js) m'

theorem Completes.unique {P : JobSem J σ R} {r : R} {m m1 m2 : σ} (h1 : Completes P r m m1) (h2 : Completes P r m m2) : m1 = m2 := by
  induction h1 with
  | last h =>
    cases h2 with
    | last h' => rw [h] at h'; simpa using h'
    | more h' _ => rw [h] at h'; simp at h'
  | more h _ ih =>
    cases h2 with
    | last h' => rw [h] at h'; simp at h'
    | more h' h'' =>
      rw [h] at h'
      simp only [Prod.mk.injEq, Option.some.injEq] at h'
      obtain ⟨rfl, rfl⟩ := h'
      exact ih h''

theorem Sequential.unique {P : JobSem J σ R} {jobs : List J} {m m1 m2 : σ} (h1 : Sequential P m jobs m1) (h2 : Sequential P m jobs m2) : m1 = m2 := by
  induction h1 with
  | nil => cases h2; rfl
  | cons h _ ih =>
    cases h2 with
    | cons h' h'' =>
      have := h.unique h'
      subst this
      exact ih h''

/-- The jobs which the owner has yet to add. -/
def Pool.later {W : Nat} (s : Pool W J σ R) : List J := if s.joined then [] else beforeJoin s.todo

/-- `m'` is the memory after what is left to do. -/
def Pool.Rest (P : JobSem J σ R) (s : Pool 1 J σ R) (m' : σ) : Prop :=
  match s.workers 0 with
  | .got j => Sequential P s.mem (j :: (s.q ++ s.later)) m'
  | .running r => ∃ m1, Completes P r s.mem m1 ∧ Sequential P m1 (s.q ++ s.later) m'
  | .done => m' = s.mem
  | _ => Sequential P s.mem (s.q ++ s.later) m'

theorem later_done {s : Pool 1 J σ R} (I : Inv s) (h : (∃ i, s.main = .joining i) ∨ s.main = .notifyAll) : s.later = [] := by
  obtain ⟨_, t, ht⟩ := I.joinTodo h
  unfold Pool.later
  rw [ht]
  simp [beforeJoin]

theorem rest_step {P : JobSem J σ R} {s s' : Pool 1 J σ R} (I : Inv s) (h : Step P s s') {m' : σ} (hr : s'.Rest P m') : s.Rest P m' := by
  have w0 : ∀ w : Fin 1, w = 0 := fun w => Subsingleton.elim _ _
  cases h with
  | spawn i h hi =>
    obtain ⟨_, b, c⟩ := I.spawning i h
    have hi0 : i = 0 := by omega
    subst hi0
    have hu := (c 0).2 (by simp)
    unfold Pool.Rest at hr ⊢
    simpa [hu, Pool.later] using hr
  | spawned h => exact hr
  | add j t h ht =>
    cases hj : s.joined with
    | true =>
      have hd := I.joinedDone hj 0
      unfold Pool.Rest at hr ⊢
      simpa [hd] using hr
    | false =>
      unfold Pool.Rest at hr ⊢
      simp only [Pool.later, hj, ht, beforeJoin, Bool.false_eq_true, if_false, List.append_assoc, List.singleton_append] at hr ⊢
      exact hr
  | notifyNone h hw => exact hr
  | notifyOne w h hw =>
    obtain rfl := w0 w
    unfold Pool.Rest at hr ⊢
    simpa [hw, Pool.later] using hr
  | joinAgain t h ht hj =>
    have hd := I.joinedDone hj 0
    unfold Pool.Rest at hr ⊢
    simpa [hd] using hr
  | close t h ht hj => exact hr
  | notifyAll h =>
    unfold Pool.Rest at hr ⊢
    cases hw : s.workers 0 <;> simpa [hw, Worker.wake, Pool.later] using hr
  | joinOne i h hi hd => exact hr
  | joinEnd h =>
    have hd := (I.joiningDone 1 h).2 0 (by simp)
    unfold Pool.Rest at hr ⊢
    simpa [hd] using hr
  | popJob w j q h hq =>
    obtain rfl := w0 w
    unfold Pool.Rest at hr ⊢
    simpa [h, hq, Pool.later] using hr
  | popClosed w h hq hc =>
    obtain rfl := w0 w
    have hl : s.later = [] := by
      cases hj : s.joined with
      | true => simp [Pool.later, hj]
      | false =>
        by_cases h1 : (∃ i, s.main = .joining i) ∨ s.main = .notifyAll
        · exact later_done I h1
        · push Not at h1
          have := (I.openBefore hj h1.1 h1.2).1
          rw [hc] at this
          cases this
    unfold Pool.Rest at hr ⊢
    simp only [Function.update_self] at hr
    subst hr
    simp only [h, hq, hl, List.append_nil]
    exact .nil _
  | popWait w h hq hc =>
    obtain rfl := w0 w
    unfold Pool.Rest at hr ⊢
    simpa [h, hq, Pool.later] using hr
  | begin w j h =>
    obtain rfl := w0 w
    unfold Pool.Rest at hr ⊢
    simp only [Function.update_self, h] at hr ⊢
    obtain ⟨m1, h1, h2⟩ := hr
    exact .cons h1 h2
  | run w r r' m h hs =>
    obtain rfl := w0 w
    unfold Pool.Rest at hr ⊢
    simp only [Function.update_self, h] at hr ⊢
    obtain ⟨m1, h1, h2⟩ := hr
    exact ⟨m1, .more hs h1, h2⟩
  | finish w r m h hs =>
    obtain rfl := w0 w
    unfold Pool.Rest at hr ⊢
    simp only [Function.update_self, h] at hr ⊢
    exact ⟨m, .last hs, hr⟩

theorem rest_reach {P : JobSem J σ R} {prog : List (Cmd J)} {mem : σ} {s : Pool 1 J σ R} (h : Reach P prog mem s) :
    ∀ m', s.Rest P m' → Sequential P mem (beforeJoin prog) m' := by
  induction h with
  | init =>
    intro m' hr
    unfold Pool.Rest at hr
    simpa [Pool.init, Pool.later, beforeJoin_append] using hr
  | step h hs ih => exact fun m' hr => ih m' (rest_step (inv_reach h) hs hr)
  | spurious h hs ih =>
    intro m' hr
    refine ih m' ?_
    cases hs with
    | wake w hw =>
      obtain rfl : w = 0 := Subsingleton.elim _ _
      unfold Pool.Rest at hr ⊢
      simpa [hw, Pool.later] using hr

/-- When a pool with one worker has been joined, the memory is what its jobs leave when they run one after the other in the order in which they were added. -/
theorem one_worker {P : JobSem J σ R} {prog : List (Cmd J)} {mem : σ} {s : Pool 1 J σ R} (h : Reach P prog mem s) (hj : s.joined = true) :
    Sequential P mem (beforeJoin prog) s.mem := by
  refine rest_reach h s.mem ?_
  unfold Pool.Rest
  rw [(inv_reach h).joinedDone hj 0]

end Verif.Thread
