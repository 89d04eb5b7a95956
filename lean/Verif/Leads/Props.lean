import Verif.Leads.Whole
import Mathlib.Data.Complex.Basic

/-!
# Properties of leads: C46, C58

Foundations, shapes and validity masks are arbitrary: `Sized` only says that every array has one
element per site, `Directed` that the specification comes from an accepted direction
(`C46_direction`), and `Meets` that the bounds of the shape and of the foundation overlap.  Without
the overlap the code reads outside of its arrays (`C46_outside_witness`).
-/

namespace Verif.Leads

open Verif.Lattice (CellSite CellHopping)
open Verif.Foundation

variable {P : Type}

/-! ## C46 -/

/-- **C46**: a lead is accepted exactly if the lattice is not one-dimensional and the direction is the
number of one of its axes (counted from one) or minus that number; it is added after the others.  The
axis and the sign of the lead are those of the direction.  Nothing else can happen. -/
theorem C46_direction (ndim : Nat) (specs : List (Spec P)) (direction : Int) (lower upper : Index3)
    (contains : P → Bool) :
    (∀ specs', attachLead ndim specs direction lower upper contains = .ok specs' ↔
      ndim ≠ 1 ∧ direction ≠ 0 ∧ -(ndim : Int) ≤ direction ∧ direction ≤ (ndim : Int) ∧
        ∃ sp, specs' = specs ++ [sp] ∧ (sp.sign = 1 ∨ sp.sign = -1) ∧ 0 ≤ sp.axis ∧ sp.axis < (ndim : Int) ∧
          direction = sp.sign * (sp.axis + 1) ∧ sp.lower = lower ∧ sp.upper = upper ∧
          sp.contains = contains) ∧
    ((∃ specs', attachLead ndim specs direction lower upper contains = .ok specs') ∨
      attachLead ndim specs direction lower upper contains = .err .logicError) := by
  have key : attachLead ndim specs direction lower upper contains =
      if ndim ≠ 1 ∧ direction ≠ 0 ∧ -(ndim : Int) ≤ direction ∧ direction ≤ (ndim : Int) then
        .ok (specs ++ [Spec.make direction lower upper contains]) else .err .logicError := by
    unfold attachLead checkDirection
    by_cases h0 : direction = 0
    · simp [h0]
    · by_cases h1 : ndim = 1
      · simp [h0, h1]
      · by_cases h2 : direction.natAbs > ndim
        · rw [if_neg (show ¬ (ndim ≠ 1 ∧ direction ≠ 0 ∧ -(ndim : Int) ≤ direction ∧ direction ≤ (ndim : Int)) by
            omega)]
          simp [h0, h1, h2]
        · rw [if_pos (show ndim ≠ 1 ∧ direction ≠ 0 ∧ -(ndim : Int) ≤ direction ∧ direction ≤ (ndim : Int) by
            omega)]
          simp [h0, h1, h2]
  have hmake : direction ≠ 0 → -(ndim : Int) ≤ direction → direction ≤ (ndim : Int) →
      ((Spec.make direction lower upper contains).sign = 1 ∨
        (Spec.make direction lower upper contains).sign = -1) ∧
      0 ≤ (Spec.make direction lower upper contains).axis ∧
      (Spec.make direction lower upper contains).axis < (ndim : Int) ∧
      direction = (Spec.make direction lower upper contains).sign *
        ((Spec.make direction lower upper contains).axis + 1) := by
    intro h0 h1 h2
    unfold Spec.make
    simp only [ne_eq, h0, not_false_eq_true, if_true]
    rcases lt_or_gt_of_ne h0 with hneg | hpos
    · have e : (direction.natAbs : Int) = -direction := by omega
      have e2 : direction.tdiv (direction.natAbs : Int) = -1 := by
        rw [e, Int.tdiv_neg, Int.tdiv_self h0]
      rw [e2, e]
      exact ⟨Or.inr rfl, by omega, by omega, by ring⟩
    · have e : (direction.natAbs : Int) = direction := by omega
      have e2 : direction.tdiv (direction.natAbs : Int) = 1 := by
        rw [e, Int.tdiv_self h0]
      rw [e2, e]
      exact ⟨Or.inl rfl, by omega, by omega, by ring⟩
  constructor
  · intro specs'
    rw [key]
    constructor
    · intro h
      split at h
      · rename_i hc
        simp only [Res.ok.injEq] at h
        subst h
        obtain ⟨m1, m2, m3, m4⟩ := hmake hc.2.1 hc.2.2.1 hc.2.2.2
        exact ⟨hc.1, hc.2.1, hc.2.2.1, hc.2.2.2, _, rfl, m1, m2, m3, m4, rfl, rfl, rfl⟩
      · simp at h
    · rintro ⟨h1, h2, h3, h4, sp, rfl, s1, s2, s3, s4, s5, s6, s7⟩
      rw [if_pos ⟨h1, h2, h3, h4⟩]
      obtain ⟨m1, m2, m3, m4⟩ := hmake h2 h3 h4
      have ha : (Spec.make direction lower upper contains).axis = sp.axis := by
        rcases s1 with e | e <;> rcases m1 with e' | e' <;> rw [e] at s4 <;> rw [e'] at m4 <;> omega
      have hsg : (Spec.make direction lower upper contains).sign = sp.sign := by
        rcases s1 with e | e <;> rcases m1 with e' | e' <;> rw [e] at s4 <;> rw [e'] at m4 <;> omega
      have : Spec.make direction lower upper contains = sp := by
        obtain ⟨a, b, c, d, e⟩ := sp
        simp only [Spec.make] at *
        subst ha hsg s5 s6 s7
        rfl
      rw [this]
  · rw [key]
    split
    · exact Or.inl ⟨_, rfl⟩
    · exact Or.inr rfl

example : attachLead (P := Unit) 2 [] (-2) Index3.zero Index3.zero (fun _ => true) =
    .ok [Spec.make (-2) Index3.zero Index3.zero (fun _ => true)] ∧
    (Spec.make (P := Unit) (-2) Index3.zero Index3.zero (fun _ => true)).axis = 1 := ⟨rfl, rfl⟩

section
variable {B : Base P} {sp : Spec P}

/-- **C46**: a lead is rejected, with an error and not otherwise, if its cross-section has no site of
the system, if its shape contains no site of the cross-section, or if one of its columns has no site of
the system to connect to. -/
theorem C46_rejected (hd : Directed sp) (hm : Meets B sp) (valid : List Bool) (hs : Sized B valid) :
    (createArea B sp valid = .err .runtimeError ↔
      (∀ l, InSection B sp l → ¬ IsOn B.d valid l) ∨ (∀ l, ¬ InLead B sp l) ∨
      ∃ l, InLead B sp l ∧ ∀ i : Int, 0 ≤ i → i < extentOf B.d sp.axis.toNat →
        ¬ IsOn B.d valid (along l sp.axis.toNat i)) ∧
    ((∃ v', createArea B sp valid = .ok v') ∨ createArea B sp valid = .err .runtimeError) := by
  obtain ⟨h1, h2, h3, h4⟩ := area_spec hd hm valid hs
  by_cases c2 : ∀ l, ¬ InLead B sp l
  · exact ⟨⟨fun _ => Or.inr (Or.inl c2), fun _ => h2 c2⟩, Or.inr (h2 c2)⟩
  · by_cases c3 : ∃ l, InLead B sp l ∧ ∀ i : Int, 0 ≤ i → i < extentOf B.d sp.axis.toNat →
        ¬ IsOn B.d valid (along l sp.axis.toNat i)
    · exact ⟨⟨fun _ => Or.inr (Or.inr c3), fun _ => h3 c3⟩, Or.inr (h3 c3)⟩
    · push Not at c2 c3
      obtain ⟨v', e, -⟩ := h4 c2 c3
      refine ⟨⟨fun h => ?_, ?_⟩, Or.inl ⟨v', e⟩⟩
      · rw [e] at h
        simp at h
      · rintro (c | c | ⟨l, hl, c⟩)
        · exact h1 c
        · exact absurd c2.choose_spec (c _)
        · obtain ⟨i, i1, i2, i3⟩ := c3 l hl
          exact absurd i3 (c i i1 i2)

/-- **C46**: exactly which sites a lead adds.  A site becomes valid if it belongs to a column of the
lead, is no further out than the outermost valid site of the cross-section, and there is no valid site
in its column at the same place or further out. -/
theorem C46_area (hd : Directed sp) (hm : Meets B sp) (valid v' : List Bool) (hs : Sized B valid)
    (hok : createArea B sp valid = .ok v') :
    v'.length = valid.length ∧
    ∀ l, InBase B l → (IsOn B.d v' l ↔ IsOn B.d valid l ∨
      (InLead B sp l ∧
        (∃ m, InSection B sp m ∧ IsOn B.d valid m ∧
          Outer sp (comp m.idx sp.axis.toNat) (comp l.idx sp.axis.toNat)) ∧
        ∀ i : Int, 0 ≤ i → i < extentOf B.d sp.axis.toNat → Outer sp i (comp l.idx sp.axis.toNat) →
          ¬ IsOn B.d valid (along l sp.axis.toNat i))) := by
  obtain ⟨-, h2, h3, h4⟩ := area_spec hd hm valid hs
  by_cases c2 : ∀ l, ¬ InLead B sp l
  · rw [h2 c2] at hok
    simp at hok
  · by_cases c3 : ∃ l, InLead B sp l ∧ ∀ i : Int, 0 ≤ i → i < extentOf B.d sp.axis.toNat →
        ¬ IsOn B.d valid (along l sp.axis.toNat i)
    · rw [h3 c3] at hok
      simp at hok
    · push Not at c2 c3
      obtain ⟨v'', e, e1, e2⟩ := h4 c2 c3
      rw [e] at hok
      simp only [Res.ok.injEq] at hok
      subst hok
      exact ⟨e1, e2⟩

/-- What an accepted lead needs. -/
theorem accepted_columns (hd : Directed sp) (hm : Meets B sp) (valid v' : List Bool) (hs : Sized B valid)
    (hok : createArea B sp valid = .ok v') :
    (∃ l, InLead B sp l) ∧ ∀ l, InLead B sp l → ∃ i : Int, 0 ≤ i ∧ i < extentOf B.d sp.axis.toNat ∧
      IsOn B.d valid (along l sp.axis.toNat i) := by
  have h := (C46_rejected hd hm valid hs).1
  rw [hok] at h
  simp only [reduceCtorEq, false_iff, not_or] at h
  obtain ⟨-, h2, h3⟩ := h
  push Not at h2 h3
  exact ⟨h2, h3⟩

/-- The layer of a lead exists if the cross-section has a valid site. -/
theorem exists_attached (hd : Directed sp) (valid : List Bool)
    (h : ∃ m, InSection B sp m ∧ IsOn B.d valid m) : ∃ i, AttachedAt B sp valid i := by
  classical
  have ha := hd.axis_lt
  have hex : ∃ n, ∃ m, InSection B sp m ∧ IsOn B.d valid m ∧ ord B sp (comp m.idx sp.axis.toNat) = n := by
    obtain ⟨m, h1, h2⟩ := h
    exact ⟨_, m, h1, h2, rfl⟩
  obtain ⟨m, m1, m2, m3⟩ := Nat.find_spec hex
  refine ⟨comp m.idx sp.axis.toNat, ⟨m, m1, m2, rfl⟩, ?_⟩
  intro m' a1 a2
  have r := m1.1.1 sp.axis.toNat ha
  have r' := a1.1.1 sp.axis.toNat ha
  rw [outer_iff B sp hd _ _ r.1 r.2 r'.1 r'.2, m3]
  exact Nat.find_min' hex ⟨m', a1, a2, rfl⟩

theorem AttachedAt.range (hd : Directed sp) {valid : List Bool} {i : Int} (h : AttachedAt B sp valid i) :
    0 ≤ i ∧ i < extentOf B.d sp.axis.toNat := by
  obtain ⟨⟨m, h1, -, h3⟩, -⟩ := h
  have := h1.1.1 sp.axis.toNat hd.axis_lt
  rwa [h3] at this

/-- **C46**: an accepted lead only adds sites, all of them in its own columns and none of them further
out than the outermost valid site of its cross-section (so the layer to which the lead attaches does not
move).  In that layer every site of the lead is valid, and from there every column of the lead is filled
without gaps, inwards up to a site which was valid before. -/
theorem C46_contiguous (hd : Directed sp) (hm : Meets B sp) (valid v' : List Bool) (hs : Sized B valid)
    (hok : createArea B sp valid = .ok v') :
    (∀ l, InBase B l → IsOn B.d valid l → IsOn B.d v' l) ∧
    (∀ l, InBase B l → IsOn B.d v' l → ¬ IsOn B.d valid l → InLead B sp l) ∧
    ∃ i, AttachedAt B sp valid i ∧ AttachedAt B sp v' i ∧
      ∀ l, InLead B sp l → comp l.idx sp.axis.toNat = i → IsOn B.d v' l ∧
        ∃ j : Int, 0 ≤ j ∧ j < extentOf B.d sp.axis.toNat ∧ Outer sp i j ∧
          IsOn B.d valid (along l sp.axis.toNat j) ∧
          ∀ k : Int, Outer sp i k → Outer sp k j → IsOn B.d v' (along l sp.axis.toNat k) := by
  classical
  have ha := hd.axis_lt
  obtain ⟨-, hv⟩ := C46_area hd hm valid v' hs hok
  obtain ⟨⟨l0, hl0⟩, hcol⟩ := accepted_columns hd hm valid v' hs hok
  have hsome : ∃ m, InSection B sp m ∧ IsOn B.d valid m := by
    obtain ⟨i, i1, i2, i3⟩ := hcol l0 hl0
    exact ⟨_, hl0.1.along ha i1 i2, i3⟩
  obtain ⟨i, hi⟩ := exists_attached hd valid hsome
  obtain ⟨⟨m0, m1, m2, m3⟩, mout⟩ := id hi
  have hir := hi.range hd
  have hgrow : ∀ l, InBase B l → IsOn B.d valid l → IsOn B.d v' l := fun l hl h => (hv l hl).mpr (Or.inl h)
  refine ⟨hgrow, ?_, i, hi, ⟨⟨m0, m1, hgrow m0 m1.1 m2, m3⟩, ?_⟩, ?_⟩
  · intro l hl h1 h2
    rcases (hv l hl).mp h1 with h | ⟨h, -⟩
    · exact absurd h h2
    · exact h
  · intro m a1 a2
    rcases (hv m a1.1).mp a2 with h | ⟨-, ⟨m', b1, b2, b3⟩, -⟩
    · exact mout m a1 h
    · have c1 := mout m' b1 b2
      have r := a1.1.1 sp.axis.toNat ha
      have r' := b1.1.1 sp.axis.toNat ha
      rw [outer_iff B sp hd _ _ hir.1 hir.2 r'.1 r'.2] at c1
      rw [outer_iff B sp hd _ _ r'.1 r'.2 r.1 r.2] at b3
      rw [outer_iff B sp hd _ _ hir.1 hir.2 r.1 r.2]
      omega
  · intro l hl hli
    -- the outermost valid site of the column
    have hex : ∃ n, ∃ j : Int, 0 ≤ j ∧ j < extentOf B.d sp.axis.toNat ∧ ord B sp j = n ∧
        IsOn B.d valid (along l sp.axis.toNat j) := by
      obtain ⟨j, j1, j2, j3⟩ := hcol l hl
      exact ⟨_, j, j1, j2, rfl, j3⟩
    obtain ⟨j, j1, j2, j3, j4⟩ := Nat.find_spec hex
    have hjmin : ∀ k : Int, 0 ≤ k → k < extentOf B.d sp.axis.toNat →
        IsOn B.d valid (along l sp.axis.toNat k) → ord B sp j ≤ ord B sp k := by
      intro k k1 k2 k3
      rw [j3]
      exact Nat.find_min' hex ⟨k, k1, k2, rfl, k3⟩
    have hij : Outer sp i j := by
      have := mout _ (hl.1.along ha j1 j2) j4
      simpa only [along, comp_setComp_self] using this
    have hfill : ∀ k : Int, Outer sp i k → Outer sp k j → IsOn B.d v' (along l sp.axis.toNat k) := by
      intro k k1 k2
      have kr : 0 ≤ k ∧ k < extentOf B.d sp.axis.toNat := by
        unfold Outer at k1 k2
        rcases hd.2.2 with e | e <;> rw [e] at k1 k2 <;> omega
      have hsec := hl.1.along ha kr.1 kr.2
      rw [hv _ hsec.1]
      by_cases hon : IsOn B.d valid (along l sp.axis.toNat k)
      · exact Or.inl hon
      · right
        refine ⟨hl.along hd kr.1 kr.2, ⟨m0, m1, m2, ?_⟩, ?_⟩
        · rw [m3]
          simpa only [along, comp_setComp_self] using k1
        · intro q q1 q2 q3 q4
          simp only [along, comp_setComp_self] at q3
          rw [along_along _ _ _ _ ha] at q4
          have := hjmin q q1 q2 q4
          rw [outer_iff B sp hd _ _ q1 q2 kr.1 kr.2] at q3
          rw [outer_iff B sp hd _ _ kr.1 kr.2 j1 j2] at k2
          -- then `k` is the index of the valid site
          have hkj : ord B sp k = ord B sp j := by omega
          have e1 := (ord_spec B sp hd k kr.1 kr.2).2
          have e2 := (ord_spec B sp hd j j1 j2).2
          rw [hkj, e2] at e1
          rw [← e1] at hon
          exact hon j4
    refine ⟨?_, j, j1, j2, hij, j4, hfill⟩
    have hself := hfill i (by unfold Outer; simp) hij
    rwa [← hli, along_self _ _ ha] at hself

/-- **C46**: attaching the same lead again changes nothing. -/
theorem C46_again (hd : Directed sp) (hm : Meets B sp) (valid v' : List Bool) (hs : Sized B valid)
    (hok : createArea B sp valid = .ok v') :
    ∃ v'', createArea B sp v' = .ok v'' ∧ ∀ l, InBase B l → (IsOn B.d v'' l ↔ IsOn B.d v' l) := by
  have ha := hd.axis_lt
  obtain ⟨hlen, hv⟩ := C46_area hd hm valid v' hs hok
  obtain ⟨hex, hcol⟩ := accepted_columns hd hm valid v' hs hok
  obtain ⟨hgrow, -, i, hi, hi', hfull⟩ := C46_contiguous hd hm valid v' hs hok
  have hir := hi.range hd
  have hs' : Sized B v' := ⟨by rw [hlen]; exact hs.1, hs.2⟩
  obtain ⟨-, -, -, h4⟩ := area_spec hd hm v' hs'
  obtain ⟨v'', e, -, hv''⟩ := h4 hex (by
    intro l hl
    obtain ⟨j, j1, j2, j3⟩ := hcol l hl
    exact ⟨j, j1, j2, hgrow _ (hl.1.along ha j1 j2).1 j3⟩)
  refine ⟨v'', e, ?_⟩
  intro l hl
  rw [hv'' l hl]
  constructor
  · rintro (h | ⟨h1, ⟨m, a1, a2, a3⟩, h3⟩)
    · exact h
    · exfalso
      have hli := (hfull (along l sp.axis.toNat i) (h1.along hd hir.1 hir.2)
        (by simp only [along, comp_setComp_self])).1
      refine h3 i hir.1 hir.2 ?_ hli
      have := hi'.2 m a1 a2
      unfold Outer at this a3 ⊢
      rcases hd.2.2 with e | e <;> rw [e] at this a3 ⊢ <;> omega
  · exact Or.inl

end

/-! ### Several leads -/

/-- Leads only add sites, in whatever order they are attached. -/
theorem createAreas_grow (B : Base P) (specs : List (Spec P))
    (hspec : ∀ sp ∈ specs, Directed sp ∧ Meets B sp) (valid vf : List Bool) (hs : Sized B valid)
    (hok : createAreas B specs valid = .ok vf) :
    Sized B vf ∧ ∀ l, InBase B l → IsOn B.d valid l → IsOn B.d vf l := by
  induction specs generalizing valid with
  | nil =>
    simp only [createAreas, Res.ok.injEq] at hok
    subst hok
    exact ⟨hs, fun _ _ h => h⟩
  | cons sp rest ih =>
    simp only [createAreas] at hok
    have h1 := hspec sp (by simp)
    rcases hc : createArea B sp valid with v' | _ | _
    · rw [hc, Res.bind_ok] at hok
      obtain ⟨hlen, -⟩ := C46_area h1.1 h1.2 valid v' hs hc
      obtain ⟨hgrow, -⟩ := C46_contiguous h1.1 h1.2 valid v' hs hc
      obtain ⟨g1, g2⟩ := ih (fun s hs' => hspec s (List.mem_cons_of_mem _ hs')) v'
        ⟨by rw [hlen]; exact hs.1, hs.2⟩ hok
      exact ⟨g1, fun l hl h => g2 l hl (hgrow l hl h)⟩
    · rw [hc] at hok
      exact absurd hok (by simp [Res.bind_err])
    · rw [hc] at hok
      exact absurd hok (by simp [Res.bind_ub])

/-- **C46**, all leads together.  Partial: it is needed that no other lead adds sites to the
cross-section of this one further out than its attachment (`hstay`); otherwise the unit cell of the
lead moves to a layer which need not be complete (`C46_order_witness`). -/
theorem C46_leads_partial (B : Base P) (pre post : List (Spec P)) (sp : Spec P)
    (hspec : ∀ s ∈ pre ++ sp :: post, Directed s ∧ Meets B s) (valid v0 vf : List Bool)
    (hs : Sized B valid) (h0 : createAreas B pre valid = .ok v0)
    (hf : createAreas B (pre ++ sp :: post) valid = .ok vf) (i : Int)
    (hi : AttachedAt B sp v0 i) (hstay : AttachedAt B sp vf i) :
    (∃ l, InLead B sp l) ∧
    ∀ l, InLead B sp l → comp l.idx sp.axis.toNat = i → IsOn B.d vf l := by
  have hpre : ∀ (v : List Bool), createAreas B (pre ++ sp :: post) v =
      (createAreas B pre v >>= fun v => createAreas B (sp :: post) v) := by
    intro v
    clear * -
    induction pre generalizing v with
    | nil => rfl
    | cons s rest ih =>
      simp only [List.cons_append, createAreas]
      rcases createArea B s v with v' | _ | _
      · simp only [Res.bind_ok]
        exact ih v'
      · rfl
      · rfl
  rw [hpre, h0, Res.bind_ok] at hf
  have hsp := hspec sp (by simp)
  obtain ⟨hs0, -⟩ := createAreas_grow B pre (fun s hs' => hspec s (by simp [hs'])) valid v0 hs h0
  simp only [createAreas] at hf
  rcases hc : createArea B sp v0 with v1 | _ | _
  · rw [hc, Res.bind_ok] at hf
    obtain ⟨hlen, -⟩ := C46_area hsp.1 hsp.2 v0 v1 hs0 hc
    obtain ⟨hex, -⟩ := accepted_columns hsp.1 hsp.2 v0 v1 hs0 hc
    obtain ⟨-, -, i', hi', -, hfull⟩ := C46_contiguous hsp.1 hsp.2 v0 v1 hs0 hc
    have hii : i' = i := by
      obtain ⟨⟨m, a1, a2, a3⟩, a4⟩ := hi
      obtain ⟨⟨n, b1, b2, b3⟩, b4⟩ := hi'
      have h1 := a4 n b1 b2
      have h2 := b4 m a1 a2
      rw [b3] at h1
      rw [a3] at h2
      unfold Outer at h1 h2
      rcases hsp.1.2.2 with e | e <;> rw [e] at h1 h2 <;> omega
    subst hii
    obtain ⟨-, hgrow⟩ := createAreas_grow B post (fun s hs' => hspec s (by simp [hs'])) v1 vf
      ⟨by rw [hlen]; exact hs0.1, hs0.2⟩ hf
    exact ⟨hex, fun l hl hli => hgrow l hl.1.1 (hfull l hl hli).1⟩
  · rw [hc] at hf
    exact absurd hf (by simp [Res.bind_err])
  · rw [hc] at hf
    exact absurd hf (by simp [Res.bind_ub])

/-! ## C58 -/

/-- **C58**: the unit cell of a lead, for every lattice, foundation and shape.  If every site of the
lead in the layer to which it attaches is valid, then the structure of the lead can be built (its
consistency check does not fail), its sites are exactly those sites, its hoppings are the hoppings of
the lattice between them, and its boundary holds the hoppings between neighbouring cells of the
lead. -/
theorem C58_structure (B : Base P) (sp : Spec P) (nhop : Nat) (hok : CellOK B.cell nhop)
    (hd : Directed sp) (hm : Meets B sp) (valid : List Bool) (hs : Sized B valid)
    (names : List (String × Nat)) (hn : nhop ≤ names.length) (shiftPos : P → P) (junk : P) (i : Int)
    (hat : AttachedAt B sp valid i) (hlead : ∃ l, InLead B sp l)
    (hfull : ∀ l, InLead B sp l → comp l.idx sp.axis.toNat = i → IsOn B.d valid l) :
    ∃ st locs, makeStructure B nhop names shiftPos junk valid sp = .ok st ∧
      IsLead B sp valid i names shiftPos st locs :=
  structure_spec B sp nhop hok hd hm valid hs names hn shiftPos junk i hat hlead hfull

/-- **C58**: after the attachment area was created the structure of a lead can always be built. -/
theorem C58_after_area (B : Base P) (sp : Spec P) (nhop : Nat) (hok : CellOK B.cell nhop)
    (hd : Directed sp) (hm : Meets B sp) (valid v' : List Bool) (hs : Sized B valid)
    (harea : createArea B sp valid = .ok v')
    (names : List (String × Nat)) (hn : nhop ≤ names.length) (shiftPos : P → P) (junk : P) :
    ∃ st locs i, makeStructure B nhop names shiftPos junk v' sp = .ok st ∧
      AttachedAt B sp valid i ∧ IsLead B sp v' i names shiftPos st locs := by
  obtain ⟨hlen, -⟩ := C46_area hd hm valid v' hs harea
  obtain ⟨hex, -⟩ := accepted_columns hd hm valid v' hs harea
  obtain ⟨-, -, i, hi, hi', hfull⟩ := C46_contiguous hd hm valid v' hs harea
  obtain ⟨st, locs, h1, h2⟩ := structure_spec B sp nhop hok hd hm v' ⟨by rw [hlen]; exact hs.1, hs.2⟩ names
    hn shiftPos junk i hi' hex (fun l hl hli => (hfull l hl hli).1)
  exact ⟨st, locs, i, h1, hi, h2⟩

/-- **C58**: the lead is a part of the system: between any two of its sites the lead and the system
have the same hoppings, in the same families and directions. -/
theorem C58_induced (B : Base P) (sp : Spec P) (nhop : Nat) (hok : CellOK B.cell nhop)
    (valid : List Bool) (hs : Sized B valid) (names : List (String × Nat)) (hn : nhop ≤ names.length)
    (shiftPos : P → P) (i : Int) (st : Structure P) (locs : List Loc)
    (hst : IsLead B sp valid i names shiftPos st locs)
    (hfull : ∀ l, InLead B sp l → comp l.idx sp.axis.toNat = i → IsOn B.d valid l)
    {Pos : Type} (pos : Nat → Pos) (junk : Pos) :
    ∃ s, populateSystem B.d B.cell nhop names valid pos junk = .ok s ∧
      ∀ (fam : Nat) mine main, st.hoppings.blocks[fam]? = some mine → s.hoppings.blocks[fam]? = some main →
        ∀ (a b : Nat) (ia ib : Nat), st.indices[a]? = some (ia : Int) → st.indices[b]? = some (ib : Int) →
          mine.count ⟨a, b⟩ = main.count ⟨ia, ib⟩ := by
  refine ⟨_, populateSystem_eq hok hs.1 names hn pos junk, ?_⟩
  intro fam mine main hmine hmain a b ia ib ha hb
  rw [hst.indices, List.getElem?_map] at ha hb
  obtain ⟨la, ha1, ha2⟩ := Option.map_eq_some_iff.mp ha
  obtain ⟨lb, hb1, hb2⟩ := Option.map_eq_some_iff.mp hb
  rw [(hst.inside fam mine hmine).1 a b la lb ha1 hb1]
  have ga := (hst.sites la).mp (List.mem_of_getElem? ha1)
  have gb := (hst.sites lb).mp (List.mem_of_getElem? hb1)
  have va := hfull la ga.1 ga.2
  have vb := hfull lb gb.1 gb.2
  have hina := ga.1.1.1
  have hinb := gb.1.1.1
  rw [inBase_iff] at hina hinb
  obtain ⟨ka, ka1, ka2, ka3⟩ := hina.flat
  obtain ⟨kb, kb1, kb2, kb3⟩ := hinb.flat
  unfold IsOn at va vb
  rw [ka2, Int.toNat_natCast] at va
  rw [kb2, Int.toNat_natCast] at vb
  simp only [List.getElem?_map] at hmain
  have hlt : fam < names.length := by
    have := (List.getElem?_eq_some_iff.1 hmine).1
    rw [hst.families.1] at this
    exact this
  rw [List.getElem?_range hlt] at hmain
  simp only [Option.map_some, Option.some.injEq] at hmain
  subst hmain
  have eia : ia = rank valid ka := by
    unfold number at ha2
    rw [ka2, Int.toNat_natCast] at ha2
    unfold rank
    exact_mod_cast ha2.symm
  have eib : ib = rank valid kb := by
    unfold number at hb2
    rw [kb2, Int.toNat_natCast] at hb2
    unfold rank
    exact_mod_cast hb2.symm
  rw [eia, eib, count_siteEntries hok hs.1 va vb fam, ka3, kb3, List.count]
  apply List.countP_congr
  intro h _
  obtain ⟨r, t, f, c⟩ := h
  simp

/-- What the coupling between neighbouring cells of a lead should be: the hoppings of the lattice from
the site `la` of the next cell to the site `lb`, those stored in the opposite direction with the adjoint
energy. -/
def coupling {K : Type} [AddCommMonoid K] [Star K] (B : Base P) (sp : Spec P) (energy : Nat → K)
    (la lb : Loc) : K :=
  (((hoppingsAt B.cell la.sub).filter fun h =>
    decide (h.rel = lb.idx.sub (la.idx.add sp.shift) ∧ h.toIdx = lb.sub)).map fun h =>
      if h.isConjugate then star (energy h.familyId) else energy h.familyId).sum

/-- The coupling found in the boundary of the lead, as `h1` is assembled from it: every stored pair
with the energy of its family (HamiltonianPair.hpp:26-29). -/
def found {K : Type} [AddCommMonoid K] (st : Structure P) (energy : Nat → K) (a b : Nat) : K :=
  ((List.range st.boundary.blocks.length).map fun fam =>
    ((st.boundary.blocks.getD fam []).count ⟨a, b⟩) • energy fam).sum

/-- Sum over a list, sorted by a key. -/
theorem sum_by_key {K α : Type} [AddCommMonoid K] (xs : List α) (key : α → Nat) (n : Nat)
    (h : ∀ x ∈ xs, key x < n) (e : Nat → K) :
    (xs.map fun x => e (key x)).sum = ((List.range n).map fun f => (xs.countP fun x => key x = f) • e f).sum := by
  induction xs with
  | nil => simp
  | cons x xs ih =>
    rw [List.map_cons, List.sum_cons, ih fun y hy => h y (List.mem_cons_of_mem _ hy)]
    have hx := h x (by simp)
    have e1 : ∀ f, (((x :: xs).countP fun y => key y = f) • e f) =
        (if key x = f then e f else 0) + (xs.countP fun y => key y = f) • e f := by
      intro f
      rw [List.countP_cons, add_smul, add_comm]
      congr 1
      by_cases hf : key x = f <;> simp [hf]
    simp only [e1]
    rw [List.sum_map_add]
    congr 1
    clear * - hx
    induction n with
    | zero => omega
    | succ n ihn =>
      rw [List.range_succ, List.map_append, List.sum_append]
      by_cases hn : key x = n
      · have : ((List.range n).map fun f => if key x = f then e f else 0).sum = 0 := by
          apply List.sum_eq_zero
          intro y hy
          obtain ⟨f, hf, rfl⟩ := List.mem_map.mp hy
          rw [List.mem_range] at hf
          rw [if_neg (by omega)]
        rw [this]
        simp [hn]
      · rw [← ihn (by omega)]
        simp [hn]

section
variable {K : Type} [AddCommMonoid K] {B : Base P} {sp : Spec P} {nhop : Nat} {valid : List Bool} {i : Int}
  {names : List (String × Nat)} {shiftPos : P → P} {st : Structure P} {locs : List Loc}

/-- The coupling found in the lead: the direction of a hopping is not taken into account. -/
theorem found_eq (hok : CellOK B.cell nhop) (hn : nhop ≤ names.length)
    (hst : IsLead B sp valid i names shiftPos st locs) (energy : Nat → K) (a b : Nat) (la lb : Loc)
    (ha : locs[a]? = some la) (hb : locs[b]? = some lb) :
    found st energy a b = (((hoppingsAt B.cell la.sub).filter fun h =>
      decide (h.rel = lb.idx.sub (la.idx.add sp.shift) ∧ h.toIdx = lb.sub)).map fun h =>
        energy h.familyId).sum := by
  unfold found
  rw [sum_by_key _ (fun h : CellHopping => h.familyId) st.boundary.blocks.length _ energy]
  · congr 1
    apply List.map_congr_left
    intro fam hfam
    rw [List.mem_range] at hfam
    have hb' : st.boundary.blocks[fam]? = some st.boundary.blocks[fam] := List.getElem?_eq_getElem hfam
    rw [List.getD_eq_getElem?_getD, hb', Option.getD_some, (hst.between fam _ hb').1 a b la lb ha hb,
      List.countP_filter]
    congr 1
    apply List.countP_congr
    intro h _
    simp only [decide_eq_true_eq, Bool.and_eq_true]
    tauto
  · intro h hh
    rw [hst.families.2]
    exact lt_of_lt_of_le (hok.target la.sub h (List.mem_filter.mp hh).1).2 hn

/-- **C58**, the coupling between neighbouring cells of a lead.  Partial: only for families whose energy
is its own adjoint.  The code takes the energy of the family for hoppings in either direction, so for
other families the coupling is wrong on one side (`C58_adjoint_witness`). -/
theorem C58_coupling_partial [StarAddMonoid K] (hok : CellOK B.cell nhop) (hn : nhop ≤ names.length)
    (hst : IsLead B sp valid i names shiftPos st locs) (energy : Nat → K)
    (hself : ∀ fam, star (energy fam) = energy fam) (a b : Nat) (la lb : Loc)
    (ha : locs[a]? = some la) (hb : locs[b]? = some lb) :
    found st energy a b = coupling B sp energy la lb := by
  rw [found_eq hok hn hst energy a b la lb ha hb]
  unfold coupling
  congr 1
  apply List.map_congr_left
  intro h _
  split
  · rw [hself]
  · rfl

/-- **C58**: no two entries of the coupling share a place, so inserting them one by one is enough. -/
theorem C58_once (hok : CellOK B.cell nhop) (hst : IsLead B sp valid i names shiftPos st locs)
    (fam : Nat) (block : List Hopping.COO) (hb : st.boundary.blocks[fam]? = some block) (a b : Nat) :
    block.count ⟨a, b⟩ ≤ 1 := by
  by_cases hmem : (⟨a, b⟩ : Hopping.COO) ∈ block
  · obtain ⟨h1, h2⟩ := (hst.between fam block hb).2 _ hmem
    rw [(hst.between fam block hb).1 a b _ _ (List.getElem?_eq_getElem h1) (List.getElem?_eq_getElem h2)]
    refine le_trans (List.countP_mono_left ?_) (hok.once locs[a].sub
      (locs[b].idx.sub (locs[a].idx.add sp.shift)) locs[b].sub)
    intro h _ hh
    simp only [decide_eq_true_eq] at hh ⊢
    exact ⟨hh.1, hh.2.1⟩
  · rw [List.count_eq_zero_of_not_mem hmem]
    omega

end

/-! ## Concrete cases -/

namespace Demo

/-- A square lattice with one family in every direction. -/
def cell : List CellSite :=
  [⟨1, 0, 0, [⟨⟨1, 0, 0⟩, 0, 0, false⟩, ⟨⟨-1, 0, 0⟩, 0, 0, true⟩,
    ⟨⟨0, 1, 0⟩, 0, 1, false⟩, ⟨⟨0, -1, 0⟩, 0, 1, true⟩]⟩]

/-- A foundation of four by seven sites. -/
def base : Base (Int × Int) :=
  ⟨Index3.zero, ⟨4, 7, 1⟩, cell,
    (List.range 7).flatMap fun y => (List.range 4).map fun x => ((x : Int), (y : Int))⟩

/-- The left edge and one more site. -/
def valid : List Bool := base.pos.map fun p => decide (p.1 = 0 ∨ p = (3, 5))

/-- A lead to the right which is two sites wide.  The bounds have the margin of `find_bounds`. -/
def one : Spec (Int × Int) := Spec.make 1 ⟨2, 0, 0⟩ ⟨6, 3, 0⟩ fun p => decide (1 ≤ p.2 ∧ p.2 ≤ 2)

/-- Another one which is three sites wide. -/
def two : Spec (Int × Int) := Spec.make 1 ⟨2, 2, 0⟩ ⟨6, 6, 0⟩ fun p => decide (3 ≤ p.2 ∧ p.2 ≤ 5)

/-- The same lead as `one`, but to the left and with its shape drawn to the left of the foundation. -/
def far : Spec (Int × Int) := Spec.make (-1) ⟨-6, 0, 0⟩ ⟨-4, 3, 0⟩ fun p => decide (1 ≤ p.2 ∧ p.2 ≤ 2)

/-- The names of the families. -/
def names : List (String × Nat) := [("x", 0), ("y", 1)]

/-- The states after `two` was attached: two rows are filled. -/
def valid' : List Bool := base.pos.map fun p => decide (p.1 = 0 ∨ p = (3, 5) ∨ p.2 = 3 ∨ p.2 = 4)

/-- What is checked of a structure. -/
def outcome {α β : Type} (f : α → β) : Res α → Option β
  | .ok a => some (f a)
  | _ => none

theorem of_outcome {α β : Type} {f : α → β} {r : Res α} {b : β} (h : outcome f r = some b) :
    ∃ a, r = .ok a ∧ f a = b := by
  rcases r with a | _ | _
  · exact ⟨a, rfl, by simpa [outcome] using h⟩
  · simp [outcome] at h
  · simp [outcome] at h

theorem area_two : createArea base two valid = .ok valid' := by decide +kernel

theorem area_one : createArea base one valid = .ok valid := by decide +kernel

theorem directed : Directed one ∧ Directed two := by
  refine ⟨⟨?_, ?_, ?_⟩, ?_, ?_, ?_⟩ <;> decide

theorem meets : Meets base one ∧ Meets base two := by
  constructor <;> intro c hc <;> rcases c with _ | _ | _ | c <;> try omega
  · exact ⟨2, by decide, by decide, by decide, by decide⟩
  · exact ⟨1, by decide, by decide, by decide, by decide⟩
  · exact ⟨0, by decide, by decide, by decide, by decide⟩
  · exact ⟨2, by decide, by decide, by decide, by decide⟩
  · exact ⟨2, by decide, by decide, by decide, by decide⟩
  · exact ⟨0, by decide, by decide, by decide, by decide⟩

theorem sized : Sized base valid := by
  constructor <;> decide +kernel

theorem cellOK : CellOK cell 2 := by
  have h0 : ∀ i h, h ∈ hoppingsAt cell i → i = 0 ∧ h ∈ hoppingsAt cell 0 := by
    intro i h hh
    rcases i with _ | i
    · exact ⟨rfl, hh⟩
    · simp [hoppingsAt, cell] at hh
  have hall : ∀ h ∈ hoppingsAt cell 0, h.toIdx < cell.length ∧ h.familyId < 2 ∧
      ¬ (h.rel = Index3.zero ∧ h.toIdx = 0) := by decide
  refine ⟨?_, ?_, ?_, ?_, ?_, ?_⟩
  · intro i h hh
    obtain ⟨-, h2⟩ := h0 i h hh
    exact ⟨(hall h h2).1, (hall h h2).2.1⟩
  · intro i j hi hj r f c
    simp only [cell, List.length_cons, List.length_nil] at hi hj
    obtain rfl : i = 0 := by omega
    obtain rfl : j = 0 := by omega
    obtain ⟨x, y, z⟩ := r
    simp only [hoppingsAt, cell, List.getElem?_cons_zero, List.count_cons, List.count_nil, beq_iff_eq,
      CellHopping.mk.injEq, Index3.mk.injEq, Index3.neg, Option.map_some, Option.getD_some]
    rcases c with _ | _ <;> simp <;> (repeat' split) <;> omega
  · intro i h hh
    obtain ⟨rfl, h2⟩ := h0 i h hh
    exact (hall h h2).2.2
  · intro i r j
    rcases i with _ | i
    · obtain ⟨x, y, z⟩ := r
      simp only [hoppingsAt, cell, List.getElem?_cons_zero, List.countP_cons, List.countP_nil,
        decide_eq_true_eq, Index3.mk.injEq, Option.map_some, Option.getD_some]
      (repeat' split) <;> omega
    · simp [hoppingsAt, cell]
  · simp [cell]
  · intro a ha b hb _
    simp only [cell, List.mem_singleton] at ha hb
    rw [ha, hb]

end Demo

/-- The hypotheses of `C46_area`, `C46_contiguous`, `C46_again` and `C58_after_area` are met by a lead
which adds sites to the system. -/
example : Directed Demo.two ∧ Meets Demo.base Demo.two ∧ Sized Demo.base Demo.valid ∧
    CellOK Demo.base.cell 2 ∧ 2 ≤ Demo.names.length ∧
    ∃ v', createArea Demo.base Demo.two Demo.valid = .ok v' ∧ v' ≠ Demo.valid :=
  ⟨Demo.directed.2, Demo.meets.2, Demo.sized, Demo.cellOK, by decide, _, Demo.area_two, by decide +kernel⟩

/-- `C46_leads_partial` applies to the second of the two leads. -/
example : ∃ v0 vf i, createAreas Demo.base [Demo.one] Demo.valid = .ok v0 ∧
    createAreas Demo.base ([Demo.one] ++ Demo.two :: []) Demo.valid = .ok vf ∧
    AttachedAt Demo.base Demo.two v0 i ∧ AttachedAt Demo.base Demo.two vf i := by
  obtain ⟨-, -, i, h1, h2, -⟩ := C46_contiguous Demo.directed.2 Demo.meets.2 Demo.valid _ Demo.sized
    Demo.area_two
  refine ⟨Demo.valid, _, i, ?_, ?_, h1, h2⟩
  · simp only [createAreas, Demo.area_one, Res.bind_ok]
  · simp only [List.singleton_append, createAreas, Demo.area_one, Demo.area_two, Res.bind_ok]

/-- **C46** is false for leads whose shape lies beside the foundation: the positions are read outside of
their array.  Nothing requires the shape of a lead to overlap the foundation. -/
theorem C46_outside_witness : createArea Demo.base Demo.far Demo.valid = .ub ∧ Directed Demo.far ∧
    (∃ l, InBase Demo.base l ∧ IsOn Demo.base.d Demo.valid l) := by
  refine ⟨by decide +kernel, ⟨by decide, by decide, by decide⟩, ⟨⟨0, 0, 0⟩, 0⟩, ?_, by
    unfold IsOn
    decide +kernel⟩
  constructor
  · intro c hc
    rcases c with _ | _ | _ | c
    · decide
    · decide
    · decide
    · omega
  · decide

/-- **C46**, **C58** are false for several leads: the second lead fills sites in the cross-section of
the first one, further out than its attachment.  Then the unit cell of the first lead consists of two
sites which do not exist in the system (index -1); alone it would be well formed. -/
theorem C46_order_witness :
    (∃ st, makeStructure Demo.base 2 Demo.names id (0, 0) Demo.valid Demo.one = .ok st ∧
      st.indices = [1, 2]) ∧
    ∃ vf st, createAreas Demo.base [Demo.one, Demo.two] Demo.valid = .ok vf ∧
      makeStructure Demo.base 2 Demo.names id (0, 0) vf Demo.one = .ok st ∧ st.indices = [-1, -1] := by
  refine ⟨Demo.of_outcome (by decide +kernel), Demo.valid', ?_⟩
  obtain ⟨st, h1, h2⟩ := Demo.of_outcome (f := Structure.indices) (b := [-1, -1])
    (r := makeStructure Demo.base 2 Demo.names id (0, 0) Demo.valid' Demo.one) (by decide +kernel)
  refine ⟨st, ?_, h1, h2⟩
  simp only [createAreas, Demo.area_one, Demo.area_two, Res.bind_ok]

/-- **C58** is false for hoppings which are not their own adjoint: the boundary of a lead to the right
holds the hoppings of the lattice to the left, but with the energy of the hopping to the right. -/
theorem C58_adjoint_witness : ∃ st locs la i, AttachedAt Demo.base Demo.one Demo.valid i ∧
    makeStructure Demo.base 2 Demo.names id (0, 0) Demo.valid Demo.one = .ok st ∧
    IsLead Demo.base Demo.one Demo.valid i Demo.names id st locs ∧ locs[0]? = some la ∧
    found st (fun _ => Complex.I) 0 0 = Complex.I ∧
    coupling Demo.base Demo.one (fun _ => Complex.I) la la = -Complex.I := by
  obtain ⟨st, locs, i, h1, h2, h3⟩ := C58_after_area Demo.base Demo.one 2 Demo.cellOK Demo.directed.1
    Demo.meets.1 Demo.valid Demo.valid Demo.sized Demo.area_one Demo.names (by decide) id (0, 0)
  obtain ⟨st', e1, e2⟩ := Demo.of_outcome (f := fun st => st.indices.length) (b := 2)
    (r := makeStructure Demo.base 2 Demo.names id (0, 0) Demo.valid Demo.one) (by decide +kernel)
  rw [h1, Res.ok.injEq] at e1
  subst e1
  rw [h3.indices, List.length_map] at e2
  have hla : locs[0]? = some locs[0] := List.getElem?_eq_getElem (by omega)
  refine ⟨st, locs, _, i, h2, h1, h3, hla, ?_, ?_⟩
  · rw [found_eq Demo.cellOK (by decide) h3 _ 0 0 _ _ hla hla]
    have hsub : locs[0].sub = 0 := by
      have := ((h3.sites _).mp (List.getElem_mem (l := locs) (n := 0) (by omega))).1.1.1.2
      simpa [Demo.base, Demo.cell] using this
    have hrel : locs[0].idx.sub (locs[0].idx.add Demo.one.shift) = ⟨-1, 0, 0⟩ := by
      have : Demo.one.shift = ⟨1, 0, 0⟩ := by decide
      rw [this]
      simp [Index3.sub, Index3.add]
    rw [hrel, hsub]
    have : ((hoppingsAt Demo.base.cell 0).filter fun h => decide (h.rel = ⟨-1, 0, 0⟩ ∧ h.toIdx = 0)) =
        [⟨⟨-1, 0, 0⟩, 0, 0, true⟩] := by decide
    rw [this]
    simp
  · unfold coupling
    have hsub : locs[0].sub = 0 := by
      have := ((h3.sites _).mp (List.getElem_mem (l := locs) (n := 0) (by omega))).1.1.1.2
      simpa [Demo.base, Demo.cell] using this
    have hrel : locs[0].idx.sub (locs[0].idx.add Demo.one.shift) = ⟨-1, 0, 0⟩ := by
      have : Demo.one.shift = ⟨1, 0, 0⟩ := by decide
      rw [this]
      simp [Index3.sub, Index3.add]
    rw [hrel, hsub]
    have : ((hoppingsAt Demo.base.cell 0).filter fun h => decide (h.rel = ⟨-1, 0, 0⟩ ∧ h.toIdx = 0)) =
        [⟨⟨-1, 0, 0⟩, 0, 0, true⟩] := by decide
    rw [this]
    simp

end Verif.Leads
