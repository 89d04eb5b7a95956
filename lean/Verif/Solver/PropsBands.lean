import Verif.Solver.Bands
import Verif.Solver.Props
import Mathlib.Data.List.Perm.Basic
import Mathlib.Data.List.Sort

/-!
# C77: the rows of a band structure
-/

namespace Verif.Solver

/-! ## Python solvers (LAPACK, ARPACK) -/

section python
variable {Y : PyEnv} {W : Type}

/-- What `argsort` does: a permutation which puts the values into ascending order. -/
def Sorts [LE Y.F] (argsort : List Y.F → List Nat) : Prop :=
  ∀ l, (argsort l).Perm (List.range l.length) ∧ ((argsort l).filterMap fun j => l[j]?).Pairwise (· ≤ ·)

theorem filterMap_range {α : Type} (l : List α) : (List.range l.length).filterMap (fun j => l[j]?) = l := by
  apply List.ext_getElem?
  intro i
  have : (List.range l.length).filterMap (fun j => l[j]?) = (List.range l.length).pmap (fun j (h : j < l.length) => l[j]) (by simp) := by
    have hall : ∀ (q : List Nat) (h : ∀ j ∈ q, j < l.length), q.filterMap (fun j => l[j]?) = q.pmap (fun j (h : j < l.length) => l[j]) h := by
      intro q h
      induction q with
      | nil => rfl
      | cons j q ih =>
        rw [List.filterMap_cons, List.getElem?_eq_getElem (h j (by simp))]
        simp [ih fun j hj => h j (by simp [hj])]
    exact hall _ _
  rw [this]
  by_cases hi : i < l.length
  · rw [List.getElem?_eq_getElem (by simpa using hi), List.getElem?_eq_getElem hi]
    simp
  · rw [List.getElem?_eq_none (by simpa using hi), List.getElem?_eq_none (by omega)]

/-- The eigenvalues of a row: all of the matrix, ascending. -/
def IsSpectrum [LE Y.F] (m : Y.Model) (row : List Y.F) : Prop :=
  ∃ h l, Y.ham m = .ok h ∧ Y.eig h = .ok l ∧ row.Perm (l.map (·.1)) ∧ row.Pairwise (· ≤ ·)

theorem arrange_perm [LE Y.F] (hs : Sorts Y.argsort) (l : List (Y.F × Y.V)) : (arrange Y.argsort l).Perm l := by
  have h := (hs (l.map (·.1))).1
  rw [List.length_map] at h
  have := h.filterMap (fun j => l[j]?)
  rw [filterMap_range] at this
  exact this

theorem arrange_vals [LE Y.F] (hs : Sorts Y.argsort) (l : List (Y.F × Y.V)) : ((arrange Y.argsort l).map (·.1)).Pairwise (· ≤ ·) := by
  have h := (hs (l.map (·.1))).2
  unfold arrange
  rw [List.map_filterMap]
  simpa [List.getElem?_map] using h

theorem result_unsolved (s : PySolver Y) (h : Y.Ham) (l : List (Y.F × Y.V)) (hs : s.pairs = []) (hh : Y.ham s.model = .ok h) (hl : Y.eig h = .ok l) :
    s.result = (⟨s.model, arrange Y.argsort l⟩, .ok (arrange Y.argsort l)) := by
  simp [PySolver.result, PySolver.solve, hs, hh, hl]

/-- **C77** (LAPACK and ARPACK).  Row `i` of `calc_bands` has the eigenvalues of the model at point `i`, in ascending order, whatever was calculated before; the
numbers of eigenvalues at all points must be equal (else `np.vstack` raises). -/
theorem C77_python_partial [LE Y.F] (hsort : Sorts Y.argsort) (setK : W → Y.Model → Y.Model) (hset : ∀ k k' m, setK k (setK k' m) = setK k m)
    (s : PySolver Y) (path : List W) (hne : path ≠ []) (n : Nat)
    (hok : ∀ k ∈ path, ∃ h l, Y.ham (setK k s.model) = .ok h ∧ Y.eig h = .ok l ∧ l.length = n) :
    ∃ rows, s.calcBands setK path = .ok rows ∧ rows.length = path.length ∧
      ∀ (i : Nat) (k : W), path[i]? = some k → ∃ row, rows[i]? = some row ∧ IsSpectrum (setK k s.model) row := by
  have key : ∀ (path : List W) (s : PySolver Y), (∀ k ∈ path, ∃ h l, Y.ham (setK k s.model) = .ok h ∧ Y.eig h = .ok l ∧ l.length = n) →
      ∃ s' rows, s.bandsLoop setK path = (s', .ok rows) ∧ rows.length = path.length ∧ (∀ row ∈ rows, row.length = n) ∧
        ∀ (i : Nat) (k : W), path[i]? = some k → ∃ row, rows[i]? = some row ∧ IsSpectrum (setK k s.model) row := by
    intro path
    induction path with
    | nil => intro s _; exact ⟨s, [], rfl, rfl, by simp, by simp⟩
    | cons k ks ih =>
      intro s hok
      obtain ⟨h, l, h1, h2, h3⟩ := hok k (by simp)
      have hr : (s.setWaveVector setK k).result = (⟨setK k s.model, arrange Y.argsort l⟩, .ok (arrange Y.argsort l)) :=
        result_unsolved (s.setWaveVector setK k) h l rfl h1 h2
      obtain ⟨s', rows, g1, g2, g3, g4⟩ := ih ⟨setK k s.model, arrange Y.argsort l⟩ (by
        intro k' hk'
        simp only [hset]
        exact hok k' (by simp [hk']))
      refine ⟨s', (arrange Y.argsort l).map (·.1) :: rows, ?_, by simp [g2], ?_, ?_⟩
      · simp only [PySolver.bandsLoop, hr, g1]
      · intro row hrow
        rcases List.mem_cons.1 hrow with rfl | hrow
        · rw [List.length_map, (arrange_perm hsort l).length_eq, h3]
        · exact g3 row hrow
      · intro i k' hk'
        rcases i with _ | i
        · simp only [List.getElem?_cons_zero, Option.some.injEq] at hk'
          subst hk'
          exact ⟨_, rfl, h, l, h1, h2, (arrange_perm hsort l).map _, arrange_vals hsort l⟩
        · simp only [List.getElem?_cons_succ] at hk'
          obtain ⟨row, r1, r2⟩ := g4 i k' hk'
          simp only [hset] at r2
          exact ⟨row, r1, r2⟩
  obtain ⟨s', rows, g1, g2, g3, g4⟩ := key path s hok
  refine ⟨rows, ?_, g2, g4⟩
  simp only [PySolver.calcBands, g1]
  rcases rows with _ | ⟨r, rs⟩
  · simp only [List.length_nil] at g2
    exact absurd (List.length_eq_zero_iff.1 g2.symm) hne
  · simp only [vstack]
    rw [if_pos]
    rw [List.all_eq_true]
    intro r' hr'
    rw [g3 r (by simp), g3 r' (by simp [hr'])]
    simp

/-- The model a history leads to. -/
def currentModel (setK : W → Y.Model → Y.Model) (m : Y.Model) : List (PyOp Y W) → Y.Model
  | [] => m
  | .setModel m' :: ops => currentModel setK m' ops
  | .setWaveVector k :: ops => currentModel setK (setK k m) ops
  | .clear :: ops => currentModel setK m ops
  | .result :: ops => currentModel setK m ops

/-- **C77** (histories).  After every history of calls on a new LAPACK or ARPACK solver, the results are those of the current model: all pairs of eigenvalue and eigenvector,
with ascending eigenvalues. -/
theorem C77_python_history_partial [LE Y.F] (hsort : Sorts Y.argsort) (setK : W → Y.Model → Y.Model) (m : Y.Model) (ops : List (PyOp Y W)) :
    (ops.foldl (PySolver.step setK) ⟨m, []⟩).model = currentModel setK m ops ∧
    ∀ h l, Y.ham (currentModel setK m ops) = .ok h → Y.eig h = .ok l →
      ∃ r, (ops.foldl (PySolver.step setK) ⟨m, []⟩).result.2 = .ok r ∧ r.Perm l ∧ (r.map (·.1)).Pairwise (· ≤ ·) := by
  have key : ∀ (ops : List (PyOp Y W)) (s : PySolver Y),
      (s.pairs ≠ [] → ∃ h l, Y.ham s.model = .ok h ∧ Y.eig h = .ok l ∧ s.pairs = arrange Y.argsort l) →
      (ops.foldl (PySolver.step setK) s).model = currentModel setK s.model ops ∧
      ((ops.foldl (PySolver.step setK) s).pairs ≠ [] → ∃ h l, Y.ham (currentModel setK s.model ops) = .ok h ∧ Y.eig h = .ok l ∧
        (ops.foldl (PySolver.step setK) s).pairs = arrange Y.argsort l) := by
    intro ops
    induction ops with
    | nil => intro s hs; exact ⟨rfl, hs⟩
    | cons op ops ih =>
      intro s hs
      cases op with
      | setModel m' => exact ih (s.setModel m') (fun h => absurd rfl h)
      | setWaveVector k => exact ih (s.setWaveVector setK k) (fun h => absurd rfl h)
      | clear => exact ih s.clear (fun h => absurd rfl h)
      | result =>
        have hm : s.result.1.model = s.model ∧
            (s.result.1.pairs ≠ [] → ∃ h l, Y.ham s.model = .ok h ∧ Y.eig h = .ok l ∧ s.result.1.pairs = arrange Y.argsort l) := by
          unfold PySolver.result PySolver.solve
          by_cases hp : s.pairs.length > 0
          · simp only [hp, if_true]
            exact ⟨trivial, hs⟩
          · simp only [hp, if_false]
            rcases hh : Y.ham s.model with h | e | _
            · rcases hl : Y.eig h with l | e | _
              · simp only [hl]
                exact ⟨trivial, fun _ => ⟨h, l, rfl, hl, rfl⟩⟩
              · simp only [hl]
                exact ⟨trivial, fun h0 => by rw [hh] at hs; exact hs h0⟩
              · simp only [hl]
                exact ⟨trivial, fun h0 => by rw [hh] at hs; exact hs h0⟩
            · simp only
              exact ⟨trivial, fun h0 => by rw [hh] at hs; exact hs h0⟩
            · simp only
              exact ⟨trivial, fun h0 => by rw [hh] at hs; exact hs h0⟩
        have := ih s.result.1 (by rw [hm.1]; exact hm.2)
        rw [hm.1] at this
        exact this
  obtain ⟨k1, k2⟩ := key ops ⟨m, []⟩ (fun h => absurd rfl h)
  refine ⟨k1, fun h l hh hl => ⟨arrange Y.argsort l, ?_, arrange_perm hsort l, arrange_vals hsort l⟩⟩
  generalize ops.foldl (PySolver.step setK) ⟨m, []⟩ = s at *
  by_cases hp : s.pairs = []
  · rw [result_unsolved s h l hp (by rw [k1]; exact hh) hl]
  · obtain ⟨h', l', g1, g2, g3⟩ := k2 hp
    simp only at g1 hh
    rw [hh] at g1
    simp only [Res.ok.injEq] at g1
    subst g1
    rw [hl] at g2
    simp only [Res.ok.injEq] at g2
    subst g2
    have : s.pairs.length > 0 := List.length_pos_iff.2 hp
    unfold PySolver.result PySolver.solve
    rw [if_pos this]
    simp only [g3]

end python

/-! ## C++ solvers (FEAST) -/

section cpp
variable {E : Env} {W : Type}

/-- The solver works on the Hamiltonian of model `m`. -/
structure WorksOn (m : E.Model) (s : CppSolver E) : Prop where
  strategy : ∃ st, s.base.strategy = some st ∧ E.ham m = .ok st.ham
  cur : ∀ b, s.mem.cur = some b → b < s.mem.blocks.length
  solved : s.base.isSolved = true → ∃ r b, eigOf m = .ok r ∧ s.mem.cur = some b ∧ s.mem.read b = .ok r

theorem read_store {V : Type} (a : Arrays V) (v : V) (h : ∀ b, a.cur = some b → b < a.blocks.length) :
    ∃ b, (a.store v).cur = some b ∧ b < (a.store v).blocks.length ∧ (a.store v).read b = .ok v ∧ ∀ b', a.cur = some b' → b = b' := by
  unfold Arrays.store
  rcases hc : a.cur with _ | b
  · exact ⟨a.blocks.length, rfl, by simp, by simp [Arrays.read], by simp⟩
  · have hb := h b hc
    exact ⟨b, rfl, by simpa using hb, by simp [Arrays.read, List.getElem?_set_self hb], by simp⟩

/-- Reading the eigenvalues. -/
theorem eigenvalues_spec {m : E.Model} {s : CppSolver E} (hw : WorksOn m s) {r : E.Eig} (hr : eigOf m = .ok r) :
    ∃ b, s.eigenvalues.2 = .ok b ∧ WorksOn m s.eigenvalues.1 ∧ s.eigenvalues.1.base.isSolved = true ∧ s.eigenvalues.1.mem.cur = some b ∧
      s.eigenvalues.1.mem.read b = .ok r ∧ (∀ b', s.mem.cur = some b' → b = b') := by
  obtain ⟨st, h1, h2⟩ := hw.strategy
  have he : E.eig st.ham = .ok r := by
    unfold eigOf at hr
    rw [h2] at hr
    exact hr
  by_cases hs : s.base.isSolved = true
  · obtain ⟨r', b, g1, g2, g3⟩ := hw.solved hs
    have hsolve : s.solve = (s, .ok ()) := by
      simp [CppSolver.solve, Solver.solve, hs]
    rw [hr] at g1
    simp only [Res.ok.injEq] at g1
    subst g1
    have : s.eigenvalues = (s, .ok b) := by
      simp [CppSolver.eigenvalues, hsolve, g2]
    rw [this]
    exact ⟨b, rfl, hw, hs, g2, g3, fun b' hb' => by rw [g2] at hb'; exact Option.some.inj hb'⟩
  · have hs' : s.base.isSolved = false := by simpa using hs
    obtain ⟨b, g1, g2, g3, g4⟩ := read_store s.mem r hw.cur
    have hsolve : s.solve = (⟨{ s.base with strategy := some { st with result := some r, count := st.count + 1 }, isSolved := true }, s.mem.store r⟩, .ok ()) := by
      simp [CppSolver.solve, Solver.solve, hs', h1, Strategy.solve, he, Solver.current]
    have : s.eigenvalues = (⟨{ s.base with strategy := some { st with result := some r, count := st.count + 1 }, isSolved := true }, s.mem.store r⟩, .ok b) := by
      simp [CppSolver.eigenvalues, hsolve, g1]
    rw [this]
    refine ⟨b, rfl, ⟨⟨_, rfl, h2⟩, ?_, fun _ => ⟨r, b, hr, g1, g3⟩⟩, rfl, g1, g3, g4⟩
    intro b' hb'
    simp only [g1, Option.some.injEq] at hb'
    exact hb' ▸ g2

theorem WorksOn.setWaveVector {m : E.Model} {s : CppSolver E} (hw : WorksOn m s) (setK : W → E.Model → E.Model) (k : W) :
    WorksOn m (s.setWaveVector setK k) :=
  ⟨hw.strategy, hw.cur, fun h => by simp [CppSolver.setWaveVector, CppSolver.changeModel, CppSolver.clear, Solver.clear] at h⟩

/-- **C77** (C++ solvers: false).  Whatever the path, every row of `calc_bands` has the eigenvalues of the model the solver works on: those at the wave
vector which the model had when it was given to the solver. -/
theorem C77_cpp_constant {m : E.Model} {s : CppSolver E} (hw : WorksOn m s) {r : E.Eig} (hr : eigOf m = .ok r) (setK : W → E.Model → E.Model) (path : List W) :
    s.calcBands setK path = .ok (List.replicate path.length r) := by
  have hread : ∀ (a : Arrays E.Eig) (b : Nat) (bs : List Nat), a.read b = .ok r → (∀ x ∈ bs, x = b) → readAll a bs = .ok (List.replicate bs.length r) := by
    intro a b bs hb
    induction bs with
    | nil => intro _; rfl
    | cons x bs ih =>
      intro hx
      simp [readAll, hx x (by simp), hb, ih fun y hy => hx y (by simp [hy]), List.replicate_succ]
  have key : ∀ (path : List W) (s : CppSolver E), WorksOn m s →
      ∃ s' bs, s.bandsLoop setK path = (s', .ok bs) ∧ bs.length = path.length ∧ WorksOn m s' ∧
        (∀ b, s.mem.cur = some b → s'.mem.cur = some b ∧ ((s.mem.read b = .ok r) → s'.mem.read b = .ok r)) ∧
        ∀ x ∈ bs, s'.mem.cur = some x ∧ s'.mem.read x = .ok r := by
    intro path
    induction path with
    | nil => intro s hs; exact ⟨s, [], rfl, rfl, hs, fun b hb => ⟨hb, id⟩, by simp⟩
    | cons k ks ih =>
      intro s hs
      obtain ⟨b, g1, g2, g3, g4, g5, g6⟩ := eigenvalues_spec (hs.setWaveVector setK k) hr
      rcases he : (s.setWaveVector setK k).eigenvalues with ⟨s1, q⟩
      rw [he] at g1 g2 g3 g4 g5
      simp only at g1 g2 g3 g4 g5
      subst g1
      obtain ⟨s', bs, k1, k2, k3, k4, k5⟩ := ih s1 g2
      obtain ⟨k6, k7⟩ := k4 b g4
      refine ⟨s', b :: bs, by simp [CppSolver.bandsLoop, he, k1], by simp [k2], k3, ?_, ?_⟩
      · intro b' hb'
        have := g6 b' hb'
        subst this
        exact ⟨k6, fun _ => k7 g5⟩
      · intro x hx
        rcases List.mem_cons.1 hx with rfl | hx
        · exact ⟨k6, k7 g5⟩
        · exact k5 x hx
  obtain ⟨s', bs, k1, k2, k3, k4, k5⟩ := key path s hw
  simp only [CppSolver.calcBands, k1]
  rcases bs with _ | ⟨b, bs⟩
  · simp only [List.length_nil] at k2
    simp [readAll, ← k2]
  · have hb := (k5 b (by simp))
    rw [hread s'.mem b (b :: bs) hb.2 (fun x hx => by
      have := (k5 x hx).1
      rw [hb.1] at this
      exact (Option.some.inj this).symm), k2]

/-- The model set last; changes of the model of the solver do not count. -/
def lastSet (m : E.Model) : List (CppOp E) → E.Model
  | [] => m
  | .setModel m' :: ops => lastSet m' ops
  | _ :: ops => lastSet m ops

theorem WorksOn.create {m : E.Model} {s : CppSolver E} (h : CppSolver.create m = .ok s) : WorksOn m s := by
  unfold CppSolver.create Solver.create at h
  rcases hh : E.ham m with x | e | _
  · simp only [hh, Res.ok.injEq] at h
    subst h
    exact ⟨⟨_, rfl, hh⟩, by simp, by simp⟩
  · simp [hh] at h
  · simp [hh] at h

theorem free_spec {V : Type} (a : Arrays V) : a.free.cur = none ∧ a.free.blocks.length = a.blocks.length ∧ (∀ b, a.cur = some b → a.free.read b = .ub) ∧
    ∀ b, a.read b = .ub → a.free.read b = .ub := by
  unfold Arrays.free
  rcases hc : a.cur with _ | b
  · exact ⟨hc, rfl, by simp, fun b hb => hb⟩
  · refine ⟨rfl, by simp, ?_, ?_⟩
    · intro b' hb'
      simp only [Option.some.injEq] at hb'
      subst hb'
      simp only [Arrays.read, List.getElem?_set]
      split <;> rename_i h <;> simp at h ⊢
    · intro b' hb'
      simp only [Arrays.read, List.getElem?_set] at hb' ⊢
      by_cases hbb : b = b'
      · subst hbb
        by_cases hl : b < a.blocks.length <;> simp [hl]
      · simpa [hbb] using hb'

theorem WorksOn.setModel {m m' : E.Model} {s : CppSolver E} {h : E.Ham} (hh : E.ham m' = .ok h) :
    WorksOn m' (s.setModel m').1 ∧ (s.setModel m').1.mem = s.mem.free ∧ (s.setModel m').2 = .ok () := by
  have hb : ∃ base, s.base.setModel m' = (base, .ok ()) ∧ (∃ st, base.strategy = some st ∧ st.ham = h) ∧ base.isSolved = false := by
    unfold Solver.setModel
    simp only [hh]
    rcases hst : s.base.strategy with _ | st
    · exact ⟨_, rfl, ⟨_, rfl, rfl⟩, rfl⟩
    · simp only [Option.bind]
      by_cases hc : E.scalar h = st.scalar
      · simp only [Strategy.change, hc]
        simp only [decide_true, if_true]
        exact ⟨_, rfl, ⟨_, rfl, rfl⟩, rfl⟩
      · simp only [Strategy.change, hc]
        simp only [decide_false, Bool.false_eq_true, if_false]
        exact ⟨_, rfl, ⟨_, rfl, rfl⟩, rfl⟩
  obtain ⟨base, h1, ⟨st, h2, h3⟩, h4⟩ := hb
  simp only [CppSolver.setModel, h1]
  exact ⟨⟨⟨st, h2, by rw [h3]; exact hh⟩, by simp [(free_spec s.mem).1], by simp [h4]⟩, trivial, trivial⟩

/-- Every model in the history has a Hamiltonian with eigenvalues. -/
def Solvable (m : E.Model) (ops : List (CppOp E)) : Prop := (∃ r, eigOf m = .ok r) ∧ ∀ m', .setModel m' ∈ ops → ∃ r, eigOf m' = .ok r

theorem eigOf_ham {m : E.Model} {r : E.Eig} (h : eigOf m = .ok r) : ∃ x, E.ham m = .ok x := by
  unfold eigOf at h
  rcases hx : E.ham m with x | e | _
  · exact ⟨x, rfl⟩
  · simp [hx] at h
  · simp [hx] at h

theorem WorksOn.run (ops : List (CppOp E)) : ∀ (m : E.Model) (s : CppSolver E), WorksOn m s → Solvable m ops →
    WorksOn (lastSet m ops) (s.run ops) ∧ ∃ r, eigOf (lastSet m ops) = .ok r := by
  induction ops with
  | nil => intro m s hs hv; exact ⟨hs, hv.1⟩
  | cons op ops ih =>
    intro m s hs hv
    cases op with
    | setModel m' =>
      obtain ⟨r, hr⟩ := hv.2 m' (by simp)
      obtain ⟨x, hx⟩ := eigOf_ham hr
      exact ih m' _ (WorksOn.setModel (m := m) (s := s) hx).1 ⟨⟨r, hr⟩, fun m'' h'' => hv.2 m'' (by simp [h''])⟩
    | changeModel f => exact ih m (s.changeModel f) ⟨hs.strategy, hs.cur, hs.solved⟩ ⟨hv.1, fun m'' h'' => hv.2 m'' (by simp [h''])⟩
    | clear => exact ih m s.clear ⟨hs.strategy, hs.cur, by simp [CppSolver.clear, Solver.clear]⟩ ⟨hv.1, fun m'' h'' => hv.2 m'' (by simp [h''])⟩
    | eigenvalues =>
      obtain ⟨r, hr⟩ := hv.1
      obtain ⟨b, _, g2, _⟩ := eigenvalues_spec hs hr
      exact ih m s.eigenvalues.1 g2 ⟨⟨r, hr⟩, fun m'' h'' => hv.2 m'' (by simp [h''])⟩

/-- **C77** (C++ solvers: histories).  After every history, the eigenvalues are those of the model which was set last, as it was then: changes made through
`solver.model` (or `solver.set_wave_vector`) have no effect on them, with or without `clear`. -/
theorem C77_cpp_history (m : E.Model) (s : CppSolver E) (hc : CppSolver.create m = .ok s) (ops : List (CppOp E)) (hv : Solvable m ops) :
    ∃ b, (s.run ops).eigenvalues.2 = .ok b ∧ (s.run ops).eigenvalues.1.mem.read b = eigOf (lastSet m ops) := by
  obtain ⟨h1, r, hr⟩ := WorksOn.run ops m s (WorksOn.create hc) hv
  obtain ⟨b, g1, g2, g3, g4, g5, g6⟩ := eigenvalues_spec h1 hr
  exact ⟨b, g1, by rw [g5, hr]⟩

/-- **C77** (arrays).  The array of eigenvalues that Python got keeps its values until another model is set; from then on, reading it is
undefined. -/
theorem C77_array (m : E.Model) (s : CppSolver E) (hw : WorksOn m s) (b : Nat) (hb : s.eigenvalues.2 = .ok b) (ops : List (CppOp E)) (hv : Solvable m ops) :
    ((∀ m', .setModel m' ∉ ops) → (s.eigenvalues.1.run ops).mem.read b = eigOf m) ∧
    ((∃ m', .setModel m' ∈ ops) → (s.eigenvalues.1.run ops).mem.read b = .ub) := by
  obtain ⟨r, hr⟩ := hv.1
  obtain ⟨b', g1, g2, g3, g4, g5, g6⟩ := eigenvalues_spec hw hr
  rw [hb] at g1
  simp only [Res.ok.injEq] at g1
  subst g1
  generalize s.eigenvalues.1 = t at *
  have stay : ∀ (ops : List (CppOp E)) (m : E.Model) (t : CppSolver E), WorksOn m t → Solvable m ops →
      (∀ r, eigOf m = .ok r → t.mem.cur = some b → t.mem.read b = .ok r → (∀ m', .setModel m' ∉ ops) → (t.run ops).mem.read b = .ok r) ∧
      (b < t.mem.blocks.length → t.mem.cur ≠ some b → t.mem.read b = .ub → (t.run ops).mem.read b = .ub) ∧
      (b < t.mem.blocks.length → t.mem.cur = some b → (∃ m', .setModel m' ∈ ops) → (t.run ops).mem.read b = .ub) := by
    intro ops
    induction ops with
    | nil => intro m t _ _; exact ⟨fun r _ _ h _ => h, fun _ _ h => h, by simp⟩
    | cons op ops ih =>
      intro m t ht hv
      have hv' : ∀ m'', .setModel m'' ∈ ops → ∃ r, eigOf m'' = .ok r := fun m'' h'' => hv.2 m'' (by simp [h''])
      cases op with
      | setModel m' =>
        obtain ⟨r', hr'⟩ := hv.2 m' (by simp)
        obtain ⟨x, hx⟩ := eigOf_ham hr'
        obtain ⟨k1, k2, k3⟩ := WorksOn.setModel (m := m) (s := t) hx
        obtain ⟨_, i2, i3⟩ := ih m' _ k1 ⟨⟨r', hr'⟩, hv'⟩
        obtain ⟨f1, f2, f3, f4⟩ := free_spec t.mem
        rw [k2] at i2 i3
        refine ⟨fun r _ _ _ hn => absurd (by simp) (hn m'), fun hl hne hub => ?_, fun hl hcur _ => ?_⟩
        · exact i2 (by rw [f2]; exact hl) (by rw [f1]; simp) (f4 b hub)
        · exact i2 (by rw [f2]; exact hl) (by rw [f1]; simp) (f3 b hcur)
      | changeModel f =>
        obtain ⟨i1, i2, i3⟩ := ih m (t.changeModel f) ⟨ht.strategy, ht.cur, ht.solved⟩ ⟨hv.1, hv'⟩
        exact ⟨fun r h1 h2 h3 hn => i1 r h1 h2 h3 (fun m'' h'' => hn m'' (by simp [h''])), i2, fun h1 h2 ⟨m'', h3⟩ => i3 h1 h2 ⟨m'', by simpa using h3⟩⟩
      | clear =>
        obtain ⟨i1, i2, i3⟩ := ih m t.clear ⟨ht.strategy, ht.cur, by simp [CppSolver.clear, Solver.clear]⟩ ⟨hv.1, hv'⟩
        exact ⟨fun r h1 h2 h3 hn => i1 r h1 h2 h3 (fun m'' h'' => hn m'' (by simp [h''])), i2, fun h1 h2 ⟨m'', h3⟩ => i3 h1 h2 ⟨m'', by simpa using h3⟩⟩
      | eigenvalues =>
        obtain ⟨r', hr'⟩ := hv.1
        obtain ⟨b1, e1, e2, e3, e4, e5, e6⟩ := eigenvalues_spec ht hr'
        obtain ⟨i1, i2, i3⟩ := ih m t.eigenvalues.1 e2 ⟨⟨r', hr'⟩, hv'⟩
        have hmem : t.eigenvalues.1.mem = t.mem ∨ t.eigenvalues.1.mem = t.mem.store r' := by
          obtain ⟨st, h1, h2⟩ := ht.strategy
          have he : E.eig st.ham = .ok r' := by
            unfold eigOf at hr'
            rw [h2] at hr'
            exact hr'
          by_cases hs : t.base.isSolved = true
          · left
            simp [CppSolver.eigenvalues, CppSolver.solve, Solver.solve, hs]
          · right
            have hs' : t.base.isSolved = false := by simpa using hs
            simp [CppSolver.eigenvalues, CppSolver.solve, Solver.solve, hs', h1, Strategy.solve, he, Solver.current]
        have hlen : b < t.mem.blocks.length → b < t.eigenvalues.1.mem.blocks.length := by
          intro hl
          rcases hmem with hm | hm <;> rw [hm]
          · exact hl
          · unfold Arrays.store
            split <;> simp <;> omega
        refine ⟨fun r h1 h2 h3 hn => ?_, fun hl hne hub => ?_, fun hl hcur h3 => ?_⟩
        · have hbb := e6 b h2
          subst hbb
          refine i1 r h1 e4 ?_ (fun m'' h'' => hn m'' (by simp [h'']))
          rw [hr'] at h1
          simp only [Res.ok.injEq] at h1
          rw [← h1]
          exact e5
        · have hnew : t.eigenvalues.1.mem.cur ≠ some b ∧ t.eigenvalues.1.mem.read b = .ub := by
            rcases hmem with hm | hm <;> rw [hm]
            · exact ⟨hne, hub⟩
            · unfold Arrays.store
              rcases hc : t.mem.cur with _ | c
              · refine ⟨by simp; omega, ?_⟩
                simp only [Arrays.read] at hub ⊢
                rw [List.getElem?_append_left hl]
                exact hub
              · have hcb : c ≠ b := by
                  rintro rfl
                  exact hne hc
                refine ⟨by simpa using hcb, ?_⟩
                simp only [Arrays.read] at hub ⊢
                rw [List.getElem?_set_ne hcb]
                exact hub
          exact i2 (hlen hl) hnew.1 hnew.2
        · have hbb := e6 b hcur
          subst hbb
          obtain ⟨m'', h3⟩ := h3
          exact i3 (hlen hl) e4 ⟨m'', by simpa using h3⟩
  obtain ⟨s1, _, s3⟩ := stay ops m t g2 hv
  exact ⟨fun hn => by rw [hr]; exact s1 r hr g4 g5 hn, fun he => s3 (g2.cur b g4) g4 he⟩

end cpp

/-! ## Witness and examples -/

/-- Models are wave vectors; the eigenvalue at `k` is `10 k + 1`. -/
@[reducible] def dispersive : Env where
  Model := Nat
  Ham := Nat
  Scalar := Unit
  Eig := Nat
  scalarEq := inferInstance
  ham k := .ok (10 * k)
  scalar _ := ()
  eig h := .ok (h + 1)

/-- `calc_bands` of a C++ solver along 1, 2, 3 for a model at 0: three times the eigenvalue at 0. -/
theorem C77_cpp_witness : ∃ s, CppSolver.create (E := dispersive) (0 : Nat) = .ok s ∧
    s.calcBands (fun k _ => k) [1, 2, 3] = .ok [(1 : Nat), (1 : Nat), (1 : Nat)] ∧
    [1, 2, 3].map (fun k => eigOf (E := dispersive) k) = [.ok (11 : Nat), .ok (21 : Nat), .ok (31 : Nat)] :=
  ⟨_, rfl, rfl, rfl⟩

example : ∃ s, CppSolver.create (E := dispersive) (0 : Nat) = .ok s ∧
    Solvable (E := dispersive) (0 : Nat) [.changeModel fun _ => (5 : Nat), .setModel (2 : Nat), .eigenvalues] :=
  ⟨_, rfl, ⟨_, rfl⟩, fun m' _ => ⟨_, rfl⟩⟩

/-- `argsort` by insertion. -/
def natArgsort (l : List Nat) : List Nat := (List.range l.length).insertionSort fun i j => l.getD i 0 ≤ l.getD j 0

/-- A Python solver with two eigenvalues at every point, in descending order. -/
@[reducible] def twoBands : PyEnv where
  Model := Nat
  Ham := Nat
  F := Nat
  V := Nat
  ham k := .ok k
  eig h := .ok [(h + 5, 0), (h, 1)]
  argsort := natArgsort

example : Sorts (Y := twoBands) natArgsort := by
  intro l
  have hp : (natArgsort l).Perm (List.range l.length) := List.perm_insertionSort _ _
  refine ⟨hp, ?_⟩
  haveI : Std.Total fun i j : Nat => l.getD i 0 ≤ l.getD j 0 := ⟨fun i j => Nat.le_total _ _⟩
  haveI : IsTrans Nat fun i j : Nat => l.getD i 0 ≤ l.getD j 0 := ⟨fun i j k => Nat.le_trans⟩
  have hs : (natArgsort l).Pairwise fun i j => l.getD i 0 ≤ l.getD j 0 := List.pairwise_insertionSort _ _
  rw [List.pairwise_filterMap]
  refine hs.imp ?_
  intro i j hij a ha b hb
  simp only [List.getD, ha, hb, Option.getD_some] at hij
  exact hij

example : (⟨7, [(1, 1)]⟩ : PySolver twoBands).calcBands (fun k _ => k) [1, 2] = .ok [[1, 6], [2, 7]] ∧
    (∀ k k' m : Nat, (fun (k : Nat) (_ : Nat) => k) k ((fun (k : Nat) (_ : Nat) => k) k' m) = (fun (k : Nat) (_ : Nat) => k) k m) ∧
    ∀ k ∈ [1, 2], ∃ h l, twoBands.ham k = .ok h ∧ twoBands.eig h = .ok l ∧ l.length = 2 :=
  ⟨by rfl, fun _ _ _ => rfl, fun k _ => ⟨k, _, rfl, rfl, rfl⟩⟩

end Verif.Solver
