import Verif.Kpm.PropsProgressBar

/-!
# What a program prints while progress bars are shown (C102)
-/

namespace Verif.Kpm.Progress

theorem run_append (s : Std) (a b : List Ev) : s.run (a ++ b) = s.run a >>= fun s => s.run b := by
  induction a generalizing s with
  | nil => rfl
  | cons e a ih =>
    simp only [List.cons_append, Std.run]
    cases s.step e with
    | none => rfl
    | some s' => exact ih s'

/-- The next new buffer is not the stream of the user. -/
def Std.Ok (s : Std) : Prop := 0 < s.next

/-! ## One progress bar -/

theorem run_prints (s : Std) (h : s.out ≠ 0) (ts : List String) :
    s.run (ts.map Ev.print) = some { s with text := Function.update s.text s.out (s.text s.out ++ ts) } := by
  induction ts generalizing s with
  | nil => simp [Std.run]
  | cons t ts ih =>
    simp only [List.map_cons, Std.run, Std.step, if_neg h, Option.bind_eq_bind, Option.bind_some]
    refine (ih ({ s with text := Function.update s.text s.out (s.text s.out ++ [t]) } : Std) h).trans ?_
    simp

theorem run_draws (r : Nat) (draws : List (List String)) (s : Std) (hk : s.Ok) (h : s.out ≠ 0) (ht : s.text s.out = []) :
    ∃ s', s.run (draws.flatMap fun ts => ts.map Ev.print ++ [.get r]) = some s' ∧ s'.Ok ∧ s'.out ≠ 0 ∧ s'.text s'.out = [] ∧ s'.old = s.old ∧
      s'.sent = s.sent ++ draws.flatten := by
  induction draws generalizing s with
  | nil => exact ⟨s, rfl, hk, h, ht, rfl, by simp⟩
  | cons ts draws ih =>
    obtain ⟨s', hr, hk', h', ht', ho, hs⟩ := ih { s with out := s.next, next := s.next + 1, text := Function.update (Function.update s.text s.out ts) s.next [], sent := s.sent ++ ts }
      (Nat.succ_pos _) (by unfold Std.Ok at hk; simpa using by omega) (by simp)
    refine ⟨s', ?_, hk', h', ht', by simpa using ho, by simpa using hs⟩
    rw [List.flatMap_cons, run_append, run_append, run_prints s h]
    simp only [Option.bind_eq_bind, Option.bind_some, Std.run, Std.step, if_neg h, Std.fresh, ht, List.nil_append, Function.update_self]
    exact hr

/-- **C102** (output).  A calculation which shows a progress bar, for any number of vectors except 0: everything that is printed before the bar is drawn for the last time reaches the
user once and in order, and `sys.stdout` is given back. -/
theorem C102_output (r nv : Nat) (h0 : nv ≠ 0) (h1 : nv ≠ 1) (draws : List (List String)) (s : Std) (hk : s.Ok) :
    ∃ s', s.run (barEvents r nv draws) = some s' ∧ s'.out = s.out ∧ s'.sent = s.sent ++ draws.flatten := by
  obtain ⟨s', hr, hk', h', ht', ho, hs⟩ := run_draws r draws (({ s with old := Function.update s.old r s.out } : Std).fresh.fresh)
    (by simp [Std.Ok, Std.fresh]) (by simp [Std.fresh]) (by simp [Std.fresh])
  refine ⟨{ s' with out := s.out, next := s'.next + 1, text := Function.update s'.text s'.next [] }, ?_, rfl, by rw [hs]; simp [Std.fresh]⟩
  have hn : s.next ≠ 0 := by unfold Std.Ok at hk; omega
  simp only [barEvents, if_neg h0, if_neg h1, List.cons_append, Std.run, Std.step, Option.bind_eq_bind, Option.bind_some]
  have e : ({ s with old := Function.update s.old r s.out } : Std).fresh.out ≠ 0 := hn
  rw [if_neg e]
  simp only [Option.bind_some, run_append, Option.bind_eq_bind]
  have e2 : ({ ({ s with old := Function.update s.old r s.out } : Std).fresh with
      sent := ({ s with old := Function.update s.old r s.out } : Std).fresh.sent
        ++ ({ s with old := Function.update s.old r s.out } : Std).fresh.text ({ s with old := Function.update s.old r s.out } : Std).fresh.out } : Std).fresh
      = ({ s with old := Function.update s.old r s.out } : Std).fresh.fresh := by simp [Std.fresh]
  rw [e2, hr]
  simp only [Option.bind_some, Std.run, Std.step, if_neg h', Option.bind_eq_bind, ht', List.append_nil, Std.fresh]
  rw [ho]
  simp [Std.fresh]

/-- One vector: `sys.stdout` is not touched. -/
theorem C102_output_one (r : Nat) (draws : List (List String)) (s : Std) : s.run (barEvents r 1 draws) = some s := rfl

/-- **C102** (finding).  For no vectors, `sys.stdout` is not given back: what the program prints afterwards does not reach the user. -/
theorem C102_output_lost (r : Nat) (draws : List (List String)) (s : Std) (hk : s.Ok) (ts : List String) :
    ∃ s', s.run (barEvents r 0 draws ++ ts.map Ev.print) = some s' ∧ s'.out ≠ 0 ∧ s'.sent = s.sent := by
  have hn : s.next ≠ 0 := by unfold Std.Ok at hk; omega
  have e : s.run (barEvents r 0 draws) = some ({ s with old := Function.update s.old r s.out } : Std).fresh.fresh := by
    simp [barEvents, Std.run, Std.step, Std.fresh, hn]
  refine ⟨_, by rw [run_append, e]; exact run_prints _ (by simp [Std.fresh]) ts, by simp [Std.fresh], by simp [Std.fresh]⟩

/-! ## Several progress bars -/

/-- Specification.  The events of bars other than `r`, in any order, such that each of the bars has been started before it is drawn or stopped. -/
def Started (r : Nat) : List Nat → List Ev → Prop
  | _, [] => True
  | l, .start q :: es => q ≠ r ∧ Started r (q :: l) es
  | l, .get q :: es => (q = r ∨ q ∈ l) ∧ Started r l es
  | l, .stop q :: es => (q ≠ r ∧ q ∈ l) ∧ Started r l es
  | l, .print _ :: es => Started r l es

theorem run_inside {r : Nat} (es : List Ev) (l : List Nat) (h : Started r l es) (s : Std) (hk : s.Ok) (ho : s.out ≠ 0) (hl : ∀ q ∈ l, s.old q ≠ 0) :
    ∃ s', s.run es = some s' ∧ s'.Ok ∧ s'.out ≠ 0 ∧ s'.old r = s.old r := by
  induction es generalizing l s with
  | nil => exact ⟨s, rfl, hk, ho, rfl⟩
  | cons e es ih =>
    have hn : s.next ≠ 0 := by unfold Std.Ok at hk; omega
    cases e with
    | start q =>
      obtain ⟨s', hr, h1, h2, h3⟩ := ih (q :: l) h.2 ({ s with old := Function.update s.old q s.out } : Std).fresh (Nat.succ_pos _) hn (by
        intro p hp
        by_cases hpq : p = q
        · subst hpq; simpa [Std.fresh] using ho
        · rcases List.mem_cons.1 hp with hp | hp
          · exact absurd hp hpq
          · simpa [Std.fresh, hpq] using hl p hp)
      exact ⟨s', by simpa [Std.run, Std.step] using hr, h1, h2, by rw [h3]; simp [Std.fresh, Ne.symm h.1]⟩
    | get q =>
      obtain ⟨s', hr, h1, h2, h3⟩ := ih l h.2 ({ s with sent := s.sent ++ s.text s.out } : Std).fresh (Nat.succ_pos _) hn hl
      exact ⟨s', by simpa [Std.run, Std.step, ho] using hr, h1, h2, h3⟩
    | stop q =>
      obtain ⟨s', hr, h1, h2, h3⟩ := ih l h.2 { s with out := s.old q } hk (hl q h.1.2) hl
      exact ⟨s', by simpa [Std.run, Std.step] using hr, h1, h2, h3⟩
    | print t =>
      obtain ⟨s', hr, h1, h2, h3⟩ := ih l h { s with text := Function.update s.text s.out (s.text s.out ++ [t]) } hk ho hl
      exact ⟨s', by simpa [Std.run, Std.step, ho] using hr, h1, h2, h3⟩

/-- **C102** (inside another bar).  Calculations with progress bars of their own in `parallel_for`, which shows a bar from beginning to end: however their bars overlap, no exception is
raised, and `sys.stdout` is given back in the end. -/
theorem C102_inside {r : Nat} {body : List Ev} (h : Started r [] body) (s : Std) (hk : s.Ok) :
    ∃ s', s.run (.start r :: .get r :: body ++ [.get r, .stop r]) = some s' ∧ s'.out = s.out := by
  have hn : s.next ≠ 0 := by unfold Std.Ok at hk; omega
  obtain ⟨s', hr, h1, h2, h3⟩ := run_inside (r := r) (.get r :: body ++ [.get r]) [] (by
    refine ⟨.inl rfl, ?_⟩
    have key : ∀ (es : List Ev) (l : List Nat), Started r l es → Started r l (es ++ [.get r]) := by
      intro es
      induction es with
      | nil => intro l _; exact ⟨.inl rfl, trivial⟩
      | cons e es ih => intro l hl; cases e <;> first | exact ⟨hl.1, ih _ hl.2⟩ | exact ih _ hl
    exact key body [] h) ({ s with old := Function.update s.old r s.out } : Std).fresh (Nat.succ_pos _) hn (by simp)
  refine ⟨{ s' with out := s.out }, ?_, rfl⟩
  have e : (.start r :: .get r :: body ++ [.get r, .stop r] : List Ev) = [.start r] ++ ((.get r :: body ++ [.get r]) ++ [.stop r]) := by simp
  rw [e, run_append]
  simp only [Std.run, Std.step, Option.bind_eq_bind, Option.bind_some]
  rw [run_append, hr]
  simp only [Std.run, Std.step, Option.bind_eq_bind, Option.bind_some, h3]
  simp [Std.fresh]

/-- **C102** (finding).  Two calculations in two threads of Python, each with a progress bar: if the one which started first ends first, the next line of the other raises
`AttributeError`, because `sys.stdout` has been given back and is no buffer.  (In a thread of the pool this ends the program.) -/
theorem C102_overlap (a b : Nat) (hab : a ≠ b) (ts ts' : List String) (s : Std) (hk : s.Ok) (h0 : s.out = 0) :
    s.run ([.start a, .get a, .start b, .get b] ++ ts.map Ev.print ++ [.get a, .stop a] ++ ts'.map Ev.print ++ [.get b]) = none := by
  have hn : s.next ≠ 0 := by unfold Std.Ok at hk; omega
  have prints0 : ∀ (ts : List String) (s : Std), s.out = 0 → s.run (ts.map Ev.print) = some { s with sent := s.sent ++ ts } := by
    intro ts
    induction ts with
    | nil => intro s _; simp [Std.run]
    | cons t ts ih =>
      intro s hs
      simp only [List.map_cons, Std.run, Std.step, if_pos hs, Option.bind_eq_bind, Option.bind_some]
      refine (ih ({ s with sent := s.sent ++ [t] } : Std) hs).trans ?_
      simp
  simp only [run_append, Std.run, Std.step, Option.bind_eq_bind, Option.bind_some, Std.fresh, if_neg hn, Nat.succ_ne_zero, Nat.add_eq_zero_iff, and_false, if_false]
  rw [run_prints _ (by simp)]
  simp only [Option.bind_some, Nat.add_eq_zero_iff, Nat.succ_ne_zero, and_false, if_false]
  rw [prints0 _ _ (by simp [hab, h0])]
  simp [hab, h0]

/-- The state of a program which has just been started. -/
example : (⟨0, 1, fun _ => [], fun _ => 0, []⟩ : Std).Ok := Nat.one_pos

/-- Overlapping bars inside a bar meet the hypothesis of `C102_inside`. -/
example : Started 0 [] [.start 1, .get 1, .start 2, .get 2, .print "x", .get 0, .get 1, .stop 1, .get 2, .stop 2] := by simp [Started]

example : ((⟨0, 1, fun _ => [], fun _ => 0, []⟩ : Std).run (barEvents 5 3 [["a"], [], ["b", "c"]])).map Std.sent = some ["a", "b", "c"] := by
  simp [barEvents, Std.run, Std.step, Std.fresh]

end Verif.Kpm.Progress
