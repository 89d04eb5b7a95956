import Verif.Solver.Solver

/-!
# C45: a solver returns the eigenvalues of its current model and computes them once
-/

namespace Verif.Solver

variable {E : Env}

/-- The specification: the last model given to the constructor or to `set_model`. -/
def lastModel : E.Model → List (Op E) → E.Model
  | m, [] => m
  | _, .setModel m :: rest => lastModel m rest
  | m, .clear :: rest => lastModel m rest
  | m, .solve :: rest => lastModel m rest
  | m, .eigenvalues :: rest => lastModel m rest

/-- The specification: the eigenvalues of the Hamiltonian of a model. -/
def eigOf (m : E.Model) : Res E.Eig := do
  let h ← E.ham m
  E.eig h

/-- The Hamiltonian of every model set in the history can be built. -/
def Buildable (ops : List (Op E)) : Prop := ∀ m, .setModel m ∈ ops → ∃ h, E.ham m = .ok h

/-- The strategy holds the Hamiltonian of the model, and a solution marked as solved belongs to it. -/
structure Inv (s : Solver E) : Prop where
  strategy : ∃ st h, s.strategy = some st ∧ E.ham s.model = .ok h ∧ st.ham = h
  solved : s.isSolved = true → ∃ r, eigOf s.model = .ok r ∧ s.current = some r

theorem inv_create (m : E.Model) (s : Solver E) (h : create m = .ok s) : Inv s ∧ s.model = m := by
  unfold create at h
  rcases hh : E.ham m with x | e | _
  · rw [hh] at h
    cases h
    exact ⟨⟨⟨_, x, rfl, hh, rfl⟩, by simp⟩, rfl⟩
  · rw [hh] at h
    cases h
  · rw [hh] at h
    cases h

theorem setModel_spec (s : Solver E) (m : E.Model) (h : E.Ham) (hh : E.ham m = .ok h) :
    Inv (s.setModel m).1 ∧ (s.setModel m).1.model = m ∧ (s.setModel m).2 = .ok () := by
  unfold Solver.setModel
  simp only [hh]
  rcases hb : s.strategy.bind (fun st => st.change h) with _ | st
  · exact ⟨⟨⟨_, h, rfl, hh, rfl⟩, by simp⟩, rfl, rfl⟩
  · refine ⟨⟨⟨st, h, rfl, hh, ?_⟩, by simp⟩, rfl, rfl⟩
    rcases hs : s.strategy with _ | st0
    · rw [hs] at hb
      simp at hb
    · rw [hs] at hb
      simp only [Option.bind_some, Strategy.change] at hb
      by_cases hd : @decide (E.scalar h = st0.scalar) (E.scalarEq _ _) = true
      · rw [if_pos hd] at hb
        cases hb
        rfl
      · rw [if_neg hd] at hb
        cases hb

theorem solve_spec (s : Solver E) (hi : Inv s) :
    Inv s.solve.1 ∧ s.solve.1.model = s.model ∧
      (∀ r, eigOf s.model = .ok r → s.solve.2 = .ok () ∧ s.solve.1.isSolved = true) ∧
      (∀ e, eigOf s.model = .err e → s.solve.2 = .err e) ∧
      (eigOf s.model = .ub → s.solve.2 = .ub) := by
  obtain ⟨st, h, hst, hh, hsh⟩ := hi.strategy
  have he : eigOf s.model = E.eig h := by simp [eigOf, hh]
  by_cases hs : s.isSolved = true
  · have hsv : s.solve = (s, .ok ()) := by simp [Solver.solve, hs]
    rw [hsv]
    obtain ⟨r, hr, hc⟩ := hi.solved hs
    refine ⟨hi, rfl, fun _ _ => ⟨rfl, hs⟩, ?_, ?_⟩
    · intro e h'
      rw [hr] at h'
      cases h'
    · intro h'
      rw [hr] at h'
      cases h'
  · have hs' : s.isSolved = false := by simpa using hs
    subst hsh
    rcases hg : E.eig st.ham with r | e | _
    · have hsv : s.solve =
          ({ s with strategy := some { st with result := some r, count := st.count + 1 },
                    isSolved := true }, .ok ()) := by
        simp [Solver.solve, hs', hst, Strategy.solve, hg]
      rw [hsv]
      rw [hg] at he
      refine ⟨⟨⟨_, st.ham, rfl, hh, rfl⟩, fun _ => ⟨r, he, rfl⟩⟩, rfl, fun _ _ => ⟨rfl, rfl⟩, ?_, ?_⟩
      · intro e h'
        rw [he] at h'
        cases h'
      · intro h'
        rw [he] at h'
        cases h'
    · have hsv : s.solve =
          ({ s with strategy := some { st with count := st.count + 1 } }, .err e) := by
        simp [Solver.solve, hs', hst, Strategy.solve, hg]
      rw [hsv]
      rw [hg] at he
      refine ⟨⟨⟨_, st.ham, rfl, hh, rfl⟩, fun h' => absurd h' hs⟩, rfl, ?_, ?_, ?_⟩
      · intro r' h'
        rw [he] at h'
        cases h'
      · intro e' h'
        rw [he] at h'
        cases h'
        rfl
      · intro h'
        rw [he] at h'
        cases h'
    · have hsv : s.solve =
          ({ s with strategy := some { st with count := st.count + 1 } }, .ub) := by
        simp [Solver.solve, hs', hst, Strategy.solve, hg]
      rw [hsv]
      rw [hg] at he
      refine ⟨⟨⟨_, st.ham, rfl, hh, rfl⟩, fun h' => absurd h' hs⟩, rfl, ?_, ?_, fun _ => rfl⟩
      · intro r' h'
        rw [he] at h'
        cases h'
      · intro e' h'
        rw [he] at h'
        cases h'

theorem eigenvalues_fst (s : Solver E) : s.eigenvalues.1 = s.solve.1 := by
  unfold Solver.eigenvalues
  rcases s.solve with ⟨s', u | e | _⟩ <;> rfl

theorem inv_step (s : Solver E) (hi : Inv s) (op : Op E)
    (hb : ∀ m, op = .setModel m → ∃ h, E.ham m = .ok h) :
    Inv (s.step op).1 ∧ ∀ rest, lastModel s.model (op :: rest) = lastModel (s.step op).1.model rest := by
  cases op with
  | setModel m =>
    obtain ⟨h, hh⟩ := hb m rfl
    obtain ⟨h1, h2, -⟩ := setModel_spec s m h hh
    refine ⟨h1, fun rest => ?_⟩
    simp only [lastModel, Solver.step, h2]
  | clear =>
    refine ⟨⟨hi.strategy, by simp [Solver.step, Solver.clear]⟩, fun rest => rfl⟩
  | solve =>
    obtain ⟨h1, h2, -⟩ := solve_spec s hi
    refine ⟨h1, fun rest => ?_⟩
    simp only [lastModel, Solver.step, h2]
  | eigenvalues =>
    obtain ⟨h1, h2, -⟩ := solve_spec s hi
    refine ⟨?_, fun rest => ?_⟩
    · simp only [Solver.step, eigenvalues_fst]
      exact h1
    · simp only [lastModel, Solver.step, eigenvalues_fst, h2]

theorem inv_run (ops : List (Op E)) (s : Solver E) (hi : Inv s) (hb : Buildable ops) :
    Inv (run s ops) ∧ (run s ops).model = lastModel s.model ops := by
  induction ops generalizing s with
  | nil => exact ⟨hi, rfl⟩
  | cons op rest ih =>
    obtain ⟨h1, h2⟩ := inv_step s hi op (fun m hm => hb m (by simp [hm]))
    obtain ⟨k1, k2⟩ := ih _ h1 (fun m hm => hb m (by simp [hm]))
    exact ⟨k1, by rw [h2 rest]; exact k2⟩

/-- C45 (partial).  After any history of `set_model`, `clear`, `solve` and reads, reading eigenvalues
returns those of the Hamiltonian of the last model set, and throws exactly when their computation
throws.  Not included: histories in which `set_model` threw because the Hamiltonian of the new model
cannot be built, for which the claim is false (`C45_failed_set_model_witness`). -/
theorem C45_current_partial (m : E.Model) (s : Solver E) (hs : create m = .ok s) (ops : List (Op E))
    (hb : Buildable ops) :
    (run s ops).model = lastModel m ops ∧
      (run s ops).eigenvalues.2 = (eigOf (lastModel m ops) >>= fun r => .ok (some r)) := by
  obtain ⟨hi, hm⟩ := inv_create m s hs
  obtain ⟨h1, h2⟩ := inv_run ops s hi hb
  rw [hm] at h2
  refine ⟨h2, ?_⟩
  obtain ⟨k1, k2, k3, k4, k5⟩ := solve_spec _ h1
  rw [← h2]
  unfold Solver.eigenvalues
  rcases he : eigOf (run s ops).model with r | e | _
  · obtain ⟨a, b⟩ := k3 r he
    obtain ⟨r', hr', hc⟩ := k1.solved b
    rw [k2, he] at hr'
    cases hr'
    rcases hq : (run s ops).solve with ⟨s', u⟩
    rw [hq] at a hc
    simp only at a hc
    subst a
    simp [hc]
  · have a := k4 e he
    rcases hq : (run s ops).solve with ⟨s', u⟩
    rw [hq] at a
    simp only at a
    subst a
    simp
  · have a := k5 he
    rcases hq : (run s ops).solve with ⟨s', u⟩
    rw [hq] at a
    simp only at a
    subst a
    simp

/-- Solving and reading. -/
def Op.isUse : Op E → Bool
  | .solve | .eigenvalues => true
  | _ => false

/-- C45: once solved, any number of further `solve` calls and reads computes nothing and changes
nothing. -/
theorem C45_once (s : Solver E) (hok : s.solve.2 = .ok ()) (uses : List (Op E))
    (hu : ∀ op ∈ uses, op.isUse = true) : run s.solve.1 uses = s.solve.1 := by
  have hsol : s.solve.1.isSolved = true := by
    unfold Solver.solve at hok ⊢
    by_cases hs : s.isSolved = true
    · simp [hs]
    · simp only [hs] at hok ⊢
      rcases hst : s.strategy with _ | st
      · simp [hst] at hok
      · simp only [hst] at hok ⊢
        rcases hq : st.solve with ⟨st', u | e | _⟩
        · rfl
        · simp [hq] at hok
        · simp [hq] at hok
  have key : ∀ (t : Solver E), t.isSolved = true → ∀ op : Op E, op.isUse = true → (t.step op).1 = t := by
    intro t ht op ho
    cases op <;> simp [Op.isUse] at ho
    · simp [Solver.step, Solver.solve, ht]
    · simp only [Solver.step, eigenvalues_fst]
      simp [Solver.solve, ht]
  induction uses with
  | nil => rfl
  | cons op rest ih =>
    simp only [run]
    rw [key _ hsol op (hu op (by simp))]
    exact ih (fun o ho => hu o (by simp [ho]))

/-- C45: every computation belongs to a `solve` or read of an unsolved solver; the first one after
`clear` or construction computes exactly once. -/
theorem C45_count (s : Solver E) (st : Strategy E) (hst : s.strategy = some st) :
    s.solve.1.count = s.count + (if s.isSolved then 0 else 1) ∧
      s.eigenvalues.1.count = s.count + (if s.isSolved then 0 else 1) ∧ s.clear.count = s.count ∧
      s.clear.isSolved = false := by
  have h : s.solve.1.count = s.count + (if s.isSolved then 0 else 1) := by
    unfold Solver.solve
    by_cases hs : s.isSolved = true
    · simp [hs]
    · simp only [hs, hst, Strategy.solve]
      rcases E.eig st.ham with r | e | _ <;> simp [Solver.count, hst]
  exact ⟨h, by rw [eigenvalues_fst]; exact h, rfl, rfl⟩

/-! ## Examples -/

/-- Models are numbers; 0 has no Hamiltonian; even numbers are real. -/
@[reducible] def toy : Env where
  Model := Nat
  Ham := Nat
  Scalar := Bool
  Eig := Nat
  scalarEq := inferInstance
  ham m := if m = 0 then .err .runtimeError else .ok (m * 10)
  scalar h := decide (h % 20 = 0)
  eig h := .ok (h + 1)

/-- The hypotheses of C45 are met: the models change the scalar type twice. -/
example : create (E := toy) (2 : Nat) = .ok ⟨(2 : Nat), some ⟨true, (20 : Nat), none, 0⟩, false⟩ ∧
    Buildable (E := toy) [.solve, .setModel (4 : Nat), .eigenvalues, .setModel (3 : Nat), .clear] ∧
    lastModel (E := toy) (2 : Nat) [.solve, .setModel (4 : Nat), .eigenvalues, .setModel (3 : Nat), .clear]
      = (3 : Nat) := by
  refine ⟨rfl, ?_, rfl⟩
  intro m hm
  simp at hm
  rcases hm with h | h <;> subst h <;> exact ⟨_, rfl⟩

example : Solver.solve (E := toy) ⟨(2 : Nat), some ⟨true, (20 : Nat), none, 0⟩, false⟩ =
    (⟨(2 : Nat), some ⟨true, (20 : Nat), some (21 : Nat), 1⟩, true⟩, .ok ()) := rfl

/-- C45 is false after `set_model` threw: the solver then reports the new model together with the
eigenvalues of the old one, although the new model has none. -/
theorem C45_failed_set_model_witness : ∃ (E : Env) (m m' : E.Model) (s : Solver E) (r : E.Eig),
    create m = .ok s ∧ (s.setModel m').2 = .err .runtimeError ∧ (s.setModel m').1.model = m' ∧
      eigOf m' = .err .runtimeError ∧ eigOf m = .ok r ∧
      (s.setModel m').1.eigenvalues.2 = .ok (some r) :=
  ⟨toy, (2 : Nat), (0 : Nat), _, (21 : Nat), rfl, rfl, rfl, rfl, rfl, rfl⟩

end Verif.Solver
