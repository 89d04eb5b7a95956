import Verif.Thread.Pool
import Mathlib.Tactic.Linarith
import Mathlib.Tactic.Abel

/-!
# Invariants of the thread pool
-/

namespace Verif.Thread

variable {W : Nat} {J σ R : Type}

open Finset

/-- Changing one element of a finite sum. -/
theorem sum_update {ι A M : Type} [Fintype ι] [DecidableEq ι] [AddCommMonoid M] (f : ι → A) (i : ι) (v : A) (g : A → M) :
    (∑ j, g (Function.update f i v j)) + g (f i) = (∑ j, g (f j)) + g v := by
  classical
  rw [← add_sum_erase univ _ (mem_univ i), ← add_sum_erase univ (fun j => g (f j)) (mem_univ i)]
  rw [Function.update_self]
  have : ∑ j ∈ univ.erase i, g (Function.update f i v j) = ∑ j ∈ univ.erase i, g (f j) :=
    sum_congr rfl fun j hj => by rw [Function.update_of_ne (ne_of_mem_erase hj)]
  rw [this]
  abel

/-- Jobs added before the first `join`. -/
def beforeJoin : List (Cmd J) → List J
  | .add j :: t => j :: beforeJoin t
  | .join :: _ => []
  | [] => []

theorem beforeJoin_append (prog : List (Cmd J)) : beforeJoin (prog ++ [.join]) = beforeJoin prog := by
  induction prog with
  | nil => rfl
  | cons c t ih => cases c <;> simp [beforeJoin, ih]

/-- The control part of the invariant. -/
structure Inv (s : Pool W J σ R) : Prop where
  spawning : ∀ i, s.main = .spawn i → i ≤ W ∧ s.joined = false ∧ ∀ w : Fin W, s.workers w = .unborn ↔ i ≤ w.val
  born : (∀ i, s.main ≠ .spawn i) → ∀ w, s.workers w ≠ .unborn
  openBefore : s.joined = false → (∀ i, s.main ≠ .joining i) → s.main ≠ .notifyAll → s.closed = false ∧ s.producers = 1
  closedAfter : s.joined = true ∨ (∃ i, s.main = .joining i) ∨ s.main = .notifyAll → s.closed = true
  noWait : s.joined = true ∨ (∃ i, s.main = .joining i) → ∀ w, s.workers w ≠ .waiting
  doneClosed : ∀ w, s.workers w = .done → s.closed = true ∧ (s.joined = false → s.q = [])
  joinedDone : s.joined = true → ∀ w, s.workers w = .done
  joiningDone : ∀ i, s.main = .joining i → i ≤ W ∧ ∀ w : Fin W, w.val < i → s.workers w = .done
  joinTodo : (∃ i, s.main = .joining i) ∨ s.main = .notifyAll → s.joined = false ∧ ∃ t, s.todo = .join :: t
  lastJoin : s.joined = false → .join ∈ s.todo

theorem inv_init (prog : List (Cmd J)) (mem : σ) : Inv (Pool.init W R prog mem) := by
  constructor <;> simp [Pool.init]

/-- A step of a worker keeps the invariant. -/
theorem inv_worker {s : Pool W J σ R} (I : Inv s) (q : List J) (m : σ) (w : Fin W) (v : Worker J R)
    (h1 : s.workers w ≠ .unborn) (h2 : s.workers w ≠ .done) (hv : v ≠ .unborn)
    (hwait : v = .waiting → s.closed = false) (hdone : v = .done → s.closed = true ∧ q = []) (hq : s.q = [] → q = []) :
    Inv { s with q := q, mem := m, workers := Function.update s.workers w v } := by
  have hu : ∀ x, Function.update s.workers w v x = .unborn → s.workers x = .unborn := by
    intro x hx
    by_cases e : x = w
    · subst e; rw [Function.update_self] at hx; exact absurd hx hv
    · rwa [Function.update_of_ne e] at hx
  have hu' : ∀ x, s.workers x = .unborn → Function.update s.workers w v x = .unborn := by
    intro x hx
    by_cases e : x = w
    · subst e; exact absurd hx h1
    · rwa [Function.update_of_ne e]
  have hd' : ∀ x, s.workers x = .done → Function.update s.workers w v x = .done := by
    intro x hx
    by_cases e : x = w
    · subst e; exact absurd hx h2
    · rwa [Function.update_of_ne e]
  constructor
  · intro i hi
    obtain ⟨a, b, c⟩ := I.spawning i hi
    exact ⟨a, b, fun x => ⟨fun hx => (c x).1 (hu x hx), fun hx => hu' x ((c x).2 hx)⟩⟩
  · intro hs x hx
    exact I.born hs x (hu x hx)
  · exact I.openBefore
  · exact I.closedAfter
  · intro hj x
    by_cases e : x = w
    · subst e
      show Function.update _ _ _ _ ≠ _
      rw [Function.update_self]
      intro hv'
      have := I.closedAfter (by tauto)
      rw [hwait hv'] at this
      cases this
    · show Function.update _ _ _ _ ≠ _
      rw [Function.update_of_ne e]
      exact I.noWait hj x
  · intro x hx
    by_cases e : x = w
    · subst e
      change Function.update _ _ _ _ = _ at hx
      rw [Function.update_self] at hx
      exact ⟨(hdone hx).1, fun _ => (hdone hx).2⟩
    · change Function.update _ _ _ _ = _ at hx
      rw [Function.update_of_ne e] at hx
      obtain ⟨a, b⟩ := I.doneClosed x hx
      exact ⟨a, fun hj => hq (b hj)⟩
  · intro hj x
    exact hd' x (I.joinedDone hj x)
  · intro i hi
    obtain ⟨a, b⟩ := I.joiningDone i hi
    exact ⟨a, fun x hx => hd' x (b x hx)⟩
  · exact I.joinTodo
  · exact I.lastJoin

theorem inv_step {P : JobSem J σ R} {s s' : Pool W J σ R} (I : Inv s) (h : Step P s s') : Inv s' := by
  cases h with
  | spawn i h hi =>
    obtain ⟨a, b, c⟩ := I.spawning i h
    have ho := I.openBefore b (by simp [h]) (by simp [h])
    constructor
    · intro i' hi'
      simp only [Main.spawn.injEq] at hi'
      subst hi'
      refine ⟨hi, b, fun x => ?_⟩
      by_cases e : x = ⟨i, hi⟩
      · subst e; simp
      · simp only [Function.update_of_ne e, c x]
        have : x.val ≠ i := fun hx => e (Fin.ext hx)
        omega
    · intro hn; exact absurd rfl (hn (i + 1))
    · intro _ _ _; exact ho
    · rintro (hj | ⟨i', hi'⟩ | hn)
      · simp only at hj; rw [b] at hj; cases hj
      · cases hi'
      · cases hn
    · rintro (hj | ⟨i', hi'⟩)
      · simp only at hj; rw [b] at hj; cases hj
      · cases hi'
    · intro x hx
      simp only at hx
      by_cases e : x = ⟨i, hi⟩
      · subst e; simp at hx
      · rw [Function.update_of_ne e] at hx
        exact I.doneClosed x hx
    · intro hj; simp only at hj; rw [b] at hj; cases hj
    · intro i' hi'; cases hi'
    · rintro (⟨i', hi'⟩ | hn)
      · cases hi'
      · cases hn
    · exact I.lastJoin
  | spawned h =>
    obtain ⟨a, b, c⟩ := I.spawning W h
    have ho := I.openBefore b (by simp [h]) (by simp [h])
    constructor
    · intro i hi; cases hi
    · intro _ x hx
      have := (c x).1 hx
      omega
    · intro _ _ _; exact ho
    · rintro (hj | ⟨i', hi'⟩ | hn)
      · simp only at hj; rw [b] at hj; cases hj
      · cases hi'
      · cases hn
    · rintro (hj | ⟨i', hi'⟩)
      · simp only at hj; rw [b] at hj; cases hj
      · cases hi'
    · exact I.doneClosed
    · exact I.joinedDone
    · intro i' hi'; cases hi'
    · rintro (⟨i', hi'⟩ | hn)
      · cases hi'
      · cases hn
    · exact I.lastJoin
  | add j t h ht =>
    have hb := I.born (by simp [h])
    constructor
    · intro i hi; cases hi
    · intro _; exact hb
    · intro hj _ _; exact I.openBefore hj (by simp [h]) (by simp [h])
    · rintro (hj | ⟨i', hi'⟩ | hn)
      · exact I.closedAfter (.inl hj)
      · cases hi'
      · cases hn
    · rintro (hj | ⟨i', hi'⟩)
      · exact I.noWait (.inl hj)
      · cases hi'
    · intro x hx
      obtain ⟨c1, c2⟩ := I.doneClosed x hx
      refine ⟨c1, fun hj => ?_⟩
      have := (I.openBefore hj (by simp [h]) (by simp [h])).1
      rw [this] at c1
      cases c1
    · exact I.joinedDone
    · intro i' hi'; cases hi'
    · rintro (⟨i', hi'⟩ | hn)
      · cases hi'
      · cases hn
    · intro hj
      have := I.lastJoin hj
      rw [ht] at this
      simpa using this
  | notifyNone h hw =>
    have hb := I.born (by simp [h])
    constructor
    · intro i hi; cases hi
    · intro _; exact hb
    · intro hj _ _; exact I.openBefore hj (by simp [h]) (by simp [h])
    · rintro (hj | ⟨i', hi'⟩ | hn)
      · exact I.closedAfter (.inl hj)
      · cases hi'
      · cases hn
    · rintro (hj | ⟨i', hi'⟩)
      · exact I.noWait (.inl hj)
      · cases hi'
    · exact I.doneClosed
    · exact I.joinedDone
    · intro i' hi'; cases hi'
    · rintro (⟨i', hi'⟩ | hn)
      · cases hi'
      · cases hn
    · exact I.lastJoin
  | notifyOne w h hw =>
    have I' := inv_worker I s.q s.mem w .start (by simp [hw]) (by simp [hw]) (by simp) (by simp) (by simp) id
    have hb := I'.born (by simp [h])
    constructor
    · intro i hi; cases hi
    · intro _; exact hb
    · intro hj _ _; exact I'.openBefore hj (by simp [h]) (by simp [h])
    · rintro (hj | ⟨i', hi'⟩ | hn)
      · exact I'.closedAfter (.inl hj)
      · cases hi'
      · cases hn
    · rintro (hj | ⟨i', hi'⟩)
      · exact I'.noWait (.inl hj)
      · cases hi'
    · exact I'.doneClosed
    · exact I'.joinedDone
    · intro i' hi'; cases hi'
    · rintro (⟨i', hi'⟩ | hn)
      · cases hi'
      · cases hn
    · exact I'.lastJoin
  | joinAgain t h ht hj =>
    constructor
    · exact I.spawning
    · exact I.born
    · exact I.openBefore
    · exact I.closedAfter
    · exact I.noWait
    · exact I.doneClosed
    · exact I.joinedDone
    · exact I.joiningDone
    · rintro (⟨i', hi'⟩ | hn)
      · simp only at hi'; rw [h] at hi'; cases hi'
      · simp only at hn; rw [h] at hn; cases hn
    · intro hj'; simp only at hj'; rw [hj] at hj'; cases hj'
  | close t h ht hj =>
    obtain ⟨o1, o2⟩ := I.openBefore hj (by simp [h]) (by simp [h])
    have hb := I.born (by simp [h])
    constructor
    · intro i hi; cases hi
    · intro _; exact hb
    · intro _ _ hn; exact absurd rfl hn
    · intro _; simp [o2]
    · rintro (hj' | ⟨i', hi'⟩)
      · simp only at hj'; rw [hj] at hj'; cases hj'
      · cases hi'
    · intro x hx
      have := (I.doneClosed x hx).1
      rw [o1] at this; cases this
    · exact I.joinedDone
    · intro i' hi'; cases hi'
    · intro _; exact ⟨hj, t, ht⟩
    · exact I.lastJoin
  | notifyAll h =>
    obtain ⟨j1, t, ht⟩ := I.joinTodo (.inr h)
    have hc := I.closedAfter (.inr (.inr h))
    have hb := I.born (by simp [h])
    constructor
    · intro i hi; cases hi
    · intro _ x hx
      have := hb x
      simp only [Worker.wake] at hx
      split at hx <;> simp_all
    · intro _ hn _; exact absurd rfl (hn 0)
    · intro _; exact hc
    · intro _ x hx
      simp only [Worker.wake] at hx
      split at hx <;> simp_all
    · intro x hx
      have hd : s.workers x = .done := by
        simp only [Worker.wake] at hx
        split at hx <;> simp_all
      exact I.doneClosed x hd
    · intro hj'; simp only at hj'; rw [j1] at hj'; cases hj'
    · intro i' hi'
      simp only [Main.joining.injEq] at hi'
      subst hi'
      exact ⟨Nat.zero_le _, fun x hx => absurd hx (Nat.not_lt_zero _)⟩
    · intro _; exact ⟨j1, t, ht⟩
    · exact I.lastJoin
  | joinOne i h hi hd =>
    obtain ⟨j1, t, ht⟩ := I.joinTodo (.inl ⟨i, h⟩)
    obtain ⟨b1, b2⟩ := I.joiningDone i h
    have hb := I.born (by simp [h])
    constructor
    · intro i hi; cases hi
    · intro _; exact hb
    · intro _ hn _; exact absurd rfl (hn (i + 1))
    · intro _; exact I.closedAfter (.inr (.inl ⟨i, h⟩))
    · intro _; exact I.noWait (.inr ⟨i, h⟩)
    · exact I.doneClosed
    · exact I.joinedDone
    · intro i' hi'
      simp only [Main.joining.injEq] at hi'
      subst hi'
      refine ⟨hi, fun x hx => ?_⟩
      by_cases e : x.val = i
      · have : x = ⟨i, hi⟩ := Fin.ext e
        rw [this]; exact hd
      · exact b2 x (by omega)
    · intro _; exact ⟨j1, t, ht⟩
    · exact I.lastJoin
  | joinEnd h =>
    obtain ⟨b1, b2⟩ := I.joiningDone W h
    have hb := I.born (by simp [h])
    constructor
    · intro i hi; cases hi
    · intro _; exact hb
    · intro hj; cases hj
    · intro _; exact I.closedAfter (.inr (.inl ⟨W, h⟩))
    · intro _; exact I.noWait (.inr ⟨W, h⟩)
    · intro x hx
      exact ⟨(I.doneClosed x hx).1, fun hj => by cases hj⟩
    · intro _ x; exact b2 x x.isLt
    · intro i' hi'; cases hi'
    · rintro (⟨i', hi'⟩ | hn)
      · cases hi'
      · cases hn
    · intro hj; cases hj
  | popJob w j q h hq =>
    exact inv_worker I q s.mem w (.got j) (by simp [h]) (by simp [h]) (by simp) (by simp) (by simp) (by simp [hq])
  | popClosed w h hq hc =>
    exact inv_worker I s.q s.mem w .done (by simp [h]) (by simp [h]) (by simp) (by simp) (fun _ => ⟨hc, hq⟩) id
  | popWait w h hq hc =>
    exact inv_worker I s.q s.mem w .waiting (by simp [h]) (by simp [h]) (by simp) (fun _ => hc) (by simp) id
  | begin w j h =>
    exact inv_worker I s.q s.mem w _ (by simp [h]) (by simp [h]) (by simp) (by simp) (by simp) id
  | run w r r' m h hr =>
    exact inv_worker I s.q m w _ (by simp [h]) (by simp [h]) (by simp) (by simp) (by simp) id
  | finish w r m h hr =>
    exact inv_worker I s.q m w .start (by simp [h]) (by simp [h]) (by simp) (by simp) (by simp) id

theorem inv_spurious {s s' : Pool W J σ R} (I : Inv s) (h : Spurious s s') : Inv s' := by
  cases h with
  | wake w h =>
    exact inv_worker I s.q s.mem w .start (by simp [h]) (by simp [h]) (by simp) (by simp) (by simp) id

theorem inv_reach {P : JobSem J σ R} {prog : List (Cmd J)} {mem : σ} {s : Pool W J σ R} (h : Reach P prog mem s) : Inv s := by
  induction h with
  | init => exact inv_init prog mem
  | step _ hs ih => exact inv_step ih hs
  | spurious _ hs ih => exact inv_spurious ih hs

end Verif.Thread
