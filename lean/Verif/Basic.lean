/-!
# Common vocabulary of the model

`Res` separates the three ways a C++ call can end: a normal return, a thrown exception and
undefined behaviour.  Nothing here models a particular function of the repository.
-/

namespace Verif

/-- The standard exception classes thrown by the modelled code. -/
inductive Err where
  | logicError
  | runtimeError
  | outOfRange
  | invalidArgument
  | complexOverride
deriving DecidableEq, Repr

/-- Outcome of a modelled C++ call: normal return, exception, or undefined behaviour. -/
inductive Res (α : Type u) where
  | ok (a : α)
  | err (e : Err)
  | ub
deriving DecidableEq, Repr

namespace Res

/-- Sequencing: exceptions and undefined behaviour propagate. -/
def bind {α : Type u} {β : Type v} (x : Res α) (f : α → Res β) : Res β :=
  match x with
  | ok a => f a
  | err e => err e
  | ub => ub

instance : Monad Res where
  pure := Res.ok
  bind := Res.bind

/-- Did the call return normally? -/
def isOk {α : Type u} : Res α → Bool
  | ok _ => true
  | _ => false

@[simp] theorem isOk_ok {α : Type u} (a : α) : (Res.ok a).isOk = true := rfl
@[simp] theorem isOk_err {α : Type u} (e : Err) : (Res.err e : Res α).isOk = false := rfl
@[simp] theorem isOk_ub {α : Type u} : (Res.ub : Res α).isOk = false := rfl

@[simp] theorem bind_ok {α β : Type u} (a : α) (f : α → Res β) : (Res.ok a >>= f) = f a := rfl
@[simp] theorem bind_err {α β : Type u} (e : Err) (f : α → Res β) :
    ((Res.err e : Res α) >>= f) = Res.err e := rfl
@[simp] theorem bind_ub {α β : Type u} (f : α → Res β) : ((Res.ub : Res α) >>= f) = Res.ub := rfl
@[simp] theorem pure_eq {α : Type u} (a : α) : (pure a : Res α) = Res.ok a := rfl

end Res

/-- Eigen `x.segment(start, n).setConstant(v)` on an array of the same length.
Used in hamiltonian/HamiltonianModifiers.hpp:124-128, 223-229. -/
def setSegment {α : Type u} (xs : List α) (start n : Nat) (v : α) : List α :=
  xs.mapIdx fun i x => if start ≤ i ∧ i < start + n then v else x

/-- Specification vocabulary: the elements of `xs` at the positions where the mask is `true`. -/
def maskFilter {α : Type u} : List Bool → List α → List α
  | true :: ks, x :: xs => x :: maskFilter ks xs
  | false :: ks, _ :: xs => maskFilter ks xs
  | _, _ => []

@[simp] theorem length_setSegment {α : Type u} (xs : List α) (s n : Nat) (v : α) :
    (setSegment xs s n v).length = xs.length := by simp [setSegment]

@[simp] theorem maskFilter_nil_left {α : Type u} (xs : List α) : maskFilter [] xs = [] := by
  cases xs <;> rfl

@[simp] theorem maskFilter_nil_right {α : Type u} (ks : List Bool) :
    maskFilter ks ([] : List α) = [] := by
  cases ks with
  | nil => rfl
  | cons k ks => cases k <;> rfl

theorem maskFilter_append {α : Type u} (k₁ k₂ : List Bool) (x₁ x₂ : List α)
    (h : k₁.length = x₁.length) :
    maskFilter (k₁ ++ k₂) (x₁ ++ x₂) = maskFilter k₁ x₁ ++ maskFilter k₂ x₂ := by
  induction k₁ generalizing x₁ with
  | nil =>
    cases x₁ with
    | nil => simp
    | cons x xs => simp at h
  | cons k ks ih =>
    cases x₁ with
    | nil => simp at h
    | cons x xs =>
      have := ih xs (by simpa using h)
      cases k <;> simp [maskFilter, this]

theorem maskFilter_replicate {α : Type u} (ks : List Bool) (n : Nat) (v : α)
    (h : ks.length = n) :
    maskFilter ks (List.replicate n v) = List.replicate (ks.count true) v := by
  induction ks generalizing n with
  | nil => subst h; simp
  | cons k ks ih =>
    subst h
    have := ih _ rfl
    cases k <;> simp [List.replicate_succ, maskFilter, this]

/-! ## Integer cell indices -/

/-- `Index3D`: three integers (`numeric/dense.hpp`). numeric/dense.hpp:53. -/
structure Index3 where
  x : Int
  y : Int
  z : Int
deriving DecidableEq, Repr

namespace Index3
/-- The zero index. -/
def zero : Index3 := ⟨0, 0, 0⟩
/-- Componentwise sum. -/
def add (a b : Index3) : Index3 := ⟨a.x + b.x, a.y + b.y, a.z + b.z⟩
/-- Componentwise negation. -/
def neg (a : Index3) : Index3 := ⟨-a.x, -a.y, -a.z⟩
/-- Componentwise difference. -/
def sub (a b : Index3) : Index3 := ⟨a.x - b.x, a.y - b.y, a.z - b.z⟩

theorem ext_iff' (a b : Index3) : a = b ↔ a.x = b.x ∧ a.y = b.y ∧ a.z = b.z := by
  cases a; cases b; simp

@[simp] theorem neg_neg (a : Index3) : a.neg.neg = a := by
  simp [neg]

theorem neg_eq_iff (a b : Index3) : a.neg = b ↔ a = b.neg := by
  constructor
  · intro h; rw [← h, neg_neg]
  · intro h; rw [h, neg_neg]
end Index3

/-! ## Dense matrices of run-time size -/

/-- `MatrixXcd` and friends: a matrix whose size is a run-time value. numeric/dense.hpp:58. -/
structure Mat (K : Type u) where
  rows : Nat
  cols : Nat
  e : Fin rows → Fin cols → K

namespace Mat
instance {K : Type u} [DecidableEq K] : DecidableEq (Mat K) := fun ⟨r, c, e⟩ ⟨r', c', e'⟩ =>
  if hr : r = r' then
    if hc : c = c' then by
      subst hr hc
      exact decidable_of_iff (∀ i j, e i j = e' i j)
        ⟨fun h => by rw [show e = e' from funext fun i => funext fun j => h i j],
         fun h => by simp only [Mat.mk.injEq, heq_eq_eq, true_and] at h; simp [h]⟩
    else .isFalse (by simp [hc])
  else .isFalse (by simp [hr])

/-- Number of coefficients, `size()`. -/
def size {K : Type u} (m : Mat K) : Nat := m.rows * m.cols

/-- A 1x1 matrix. -/
def scalar {K : Type u} (v : K) : Mat K := ⟨1, 1, fun _ _ => v⟩
end Mat

end Verif
