import Verif.Kpm.Cache

/-!
# C56: the result of a KPM calculation does not depend on earlier calculations
-/

namespace Verif.Kpm.Cache

variable {E : Env}

/-- The specification: the last model given to the constructor or to `set_model`. -/
def lastModel : E.Model → List (Op E) → E.Model
  | m, [] => m
  | _, .setModel m :: rest => lastModel m rest
  | m, .compute _ :: rest => lastModel m rest

/-- The specification: construct a KPM object, calculate once. -/
def once (m : E.Model) (r : E.Request) : Res E.Out := do
  let k ← create m
  (k.compute r).2

/-- The bounds a core of Hamiltonian `h` ends up with. -/
def finalBounds (h : E.Ham) : Bounds E := (resetBounds h).compute

/-- The bounds are not computed yet or are the final ones, and the optimised matrix belongs to the
recorded indices. -/
def Inv (c : Core E) (h : E.Ham) : Prop :=
  (c.bounds = resetBounds h ∨ c.bounds = finalBounds h) ∧ c.oh.ham = h ∧
    ((c.oh.idx = ⟨[], []⟩ ∧ c.oh.opt = E.empty h) ∨
      c.oh.opt = E.optimize h c.oh.idx (E.scale (finalBounds h).min (finalBounds h).max))

theorem inv_make (h : E.Ham) : Inv (makeCore h) h :=
  ⟨Or.inl rfl, rfl, Or.inl ⟨rfl, rfl⟩⟩

/-- Computing the bounds again changes nothing. -/
theorem compute_compute (h : E.Ham) : (finalBounds h).compute = finalBounds h := by
  unfold finalBounds resetBounds
  by_cases hu : @decide (E.userBounds.1 = E.userBounds.2) (E.energyEq _ _) = true
  · rw [if_pos hu]
    have h1 : ∀ x : E.Energy, (⟨some h, x, x⟩ : Bounds E).compute =
        ⟨some h, (E.lanczos h).1, (E.lanczos h).2⟩ := by
      intro x
      have hz : @decide (x = x) (E.energyEq _ _) = true := @decide_eq_true _ (E.energyEq _ _) rfl
      exact if_pos hz
    rw [h1]
    by_cases hl : @decide ((E.lanczos h).1 = (E.lanczos h).2) (E.energyEq _ _) = true
    · exact if_pos hl
    · exact if_neg hl
  · rw [if_neg hu]
    rfl

theorem inv_bounds {c : Core E} {h : E.Ham} (hi : Inv c h) : c.bounds.compute = finalBounds h := by
  rcases hi.1 with hb | hb <;> rw [hb]
  · rfl
  · exact compute_compute h

/-- The result of a calculation as a function of the Hamiltonian alone. -/
theorem run_spec (c : Core E) (h : E.Ham) (hi : Inv c h) (q : E.Query)
    (hq : E.idx q ≠ ⟨[], []⟩) :
    Inv (c.run q).1 h ∧ (c.run q).2 =
      E.result q (E.scale (finalBounds h).min (finalBounds h).max)
        (E.optimize h (E.idx q) (E.scale (finalBounds h).min (finalBounds h).max)) := by
  unfold Core.run
  rw [inv_bounds hi]
  obtain ⟨-, h2, h3⟩ := hi
  by_cases he : c.oh.idx = E.idx q
  · simp only [OptHam.optimizeFor, if_pos he]
    rcases h3 with ⟨h3, -⟩ | h3
    · exact absurd (he.symm.trans h3) hq
    · refine ⟨⟨Or.inr rfl, h2, Or.inr h3⟩, ?_⟩
      rw [h3, he]
  · simp only [OptHam.optimizeFor, if_neg he, h2]
    exact ⟨⟨Or.inr rfl, rfl, Or.inr rfl⟩, trivial⟩

/-- The invariant of a KPM object. -/
def KInv (k : Kpm E) : Prop := ∃ h, E.ham k.model = .ok h ∧ Inv k.core h

theorem compute_spec (hq : ∀ m r q, E.prepare m r = .ok q → E.idx q ≠ ⟨[], []⟩) (k : Kpm E)
    (hi : KInv k) (r : E.Request) :
    KInv (k.compute r).1 ∧ (k.compute r).1.model = k.model ∧ (k.compute r).2 = once k.model r := by
  obtain ⟨h, hh, hi⟩ := hi
  have ho : once k.model r = ((⟨k.model, makeCore h⟩ : Kpm E).compute r).2 := by
    simp [once, create, hh]
  rw [ho]
  unfold Kpm.compute
  simp only
  rcases hp : E.prepare k.model r with q | e | _
  · obtain ⟨h1, h2⟩ := run_spec k.core h hi q (hq _ _ _ hp)
    obtain ⟨-, h4⟩ := run_spec (makeCore h) h (inv_make h) q (hq _ _ _ hp)
    exact ⟨⟨h, hh, h1⟩, rfl, by simp only [h2, h4]⟩
  · exact ⟨⟨h, hh, hi⟩, rfl, rfl⟩
  · exact ⟨⟨h, hh, hi⟩, rfl, rfl⟩

/-- C56 (partial).  After any history of calculations and changes of the model, a calculation returns
what a KPM object newly constructed with the last model would return, or throws the same exception:
bounds and optimised matrices kept from earlier calculations do not show.  No calculation may target
an empty list of indices (`C56_empty_indices_witness`), and histories in which `set_model` threw are
not included (`C56_failed_set_model_witness`). -/
theorem C56_history_partial (hq : ∀ m r q, E.prepare m r = .ok q → E.idx q ≠ ⟨[], []⟩)
    (m : E.Model) (k : Kpm E) (hk : create m = .ok k) (ops : List (Op E))
    (hb : ∀ m', .setModel m' ∈ ops → ∃ h, E.ham m' = .ok h) (r : E.Request) :
    (run k ops).model = lastModel m ops ∧ ((run k ops).compute r).2 = once (lastModel m ops) r := by
  have hi : KInv k ∧ k.model = m := by
    unfold create at hk
    rcases hh : E.ham m with h | e | _
    · rw [hh] at hk
      cases hk
      exact ⟨⟨h, hh, inv_make h⟩, rfl⟩
    · rw [hh] at hk
      cases hk
    · rw [hh] at hk
      cases hk
  clear hk
  obtain ⟨hi, hm⟩ := hi
  induction ops generalizing k m with
  | nil =>
    obtain ⟨-, -, h3⟩ := compute_spec hq k hi r
    exact ⟨hm, by rw [← hm]; exact h3⟩
  | cons op rest ih =>
    cases op with
    | setModel m' =>
      obtain ⟨h, hh⟩ := hb m' (by simp)
      have hs : (k.setModel m').1 = ⟨m', makeCore h⟩ := by simp [Kpm.setModel, hh]
      have := ih m' (k.setModel m').1 (fun x hx => hb x (by simp [hx])) (by rw [hs]; exact ⟨h, hh, inv_make h⟩)
        (by rw [hs])
      exact this
    | compute r' =>
      obtain ⟨h1, h2, -⟩ := compute_spec hq k hi r'
      exact ih m (k.compute r').1 (fun x hx => hb x (by simp [hx])) h1 (h2.trans hm)

/-! ## Examples -/

/-- Models, energies and requests are numbers; model 0 has no Hamiltonian; the result lists
everything that was used.  Request 0 targets no index. -/
@[reducible] def toy : Env where
  Model := Nat
  Ham := Nat
  Energy := Nat
  Scale := Nat
  Opt := List Nat
  Request := Nat
  Query := Nat
  Out := List Nat
  energyEq := inferInstance
  ham m := if m = 0 then .err .runtimeError else .ok m
  lanczos h := (h, h + 10)
  userBounds := (0, 0)
  zero := 0
  scale a b := a + b
  empty _ := []
  optimize h i s := h :: s :: i.src ++ i.dst
  prepare _ r := .ok r
  idx q := ⟨List.replicate q 5, List.replicate q 6⟩
  result q s o := .ok (q :: s :: o)

/-- The same with the requests shifted so that none is empty. -/
@[reducible] def toyGood : Env :=
  { toy with idx := fun q => ⟨List.replicate (q + 1) 5, List.replicate (q + 1) 6⟩, Query := Nat,
             result := fun q s o => .ok (q :: s :: o), prepare := fun _ r => .ok r }

/-- The hypotheses of C56 are met. -/
example : (∀ m r q, toyGood.prepare m r = .ok q → toyGood.idx q ≠ ⟨[], []⟩) ∧
    (∀ m', Op.setModel m' ∈ ([.compute (1 : Nat), .setModel (4 : Nat), .compute (1 : Nat)] : List (Op toyGood)) →
      ∃ h, toyGood.ham m' = .ok h) ∧
    once (E := toyGood) (4 : Nat) (1 : Nat) = .ok [1, 18, 4, 18, 5, 5, 6, 6] := by
  refine ⟨?_, ?_, rfl⟩
  · intro m r q _ h
    simp [List.replicate_succ] at h
  · intro m' h
    simp at h
    subst h
    exact ⟨_, rfl⟩

/-- C56 is false after `set_model` threw: calculations use the new model and the old Hamiltonian. -/
theorem C56_failed_set_model_witness : ∃ (E : Env) (m m' : E.Model) (k : Kpm E) (r : E.Request) (x : E.Out),
    create m = .ok k ∧ (k.setModel m').2 = .err .runtimeError ∧ (k.setModel m').1.model = m' ∧
      once m' r = .err .runtimeError ∧ ((k.setModel m').1.compute r).2 = .ok x :=
  ⟨toy, (2 : Nat), (0 : Nat), _, (1 : Nat), _, rfl, rfl, rfl, rfl, rfl⟩

/-- A calculation for no index uses the optimised matrix of a new object, which is empty, but after
another calculation it uses a matrix: its result depends on the history. -/
theorem C56_empty_indices_witness : ∃ (E : Env) (m : E.Model) (k : Kpm E) (r r0 : E.Request),
    create m = .ok k ∧ ((k.compute r).1.compute r0).2 ≠ (k.compute r0).2 :=
  ⟨toy, (2 : Nat), _, (1 : Nat), (0 : Nat), rfl, by decide⟩

end Verif.Kpm.Cache
