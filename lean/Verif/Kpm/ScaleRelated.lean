import Verif.Kpm.CoreLemmas

/-!
# The optimized Hamiltonian for related numbers

The search for the order of the indices does not look at the values. So two matrices with elements at the same places and related values are optimized to matrices with
elements at the same places and related values, in any arithmetic.
-/

namespace Verif.Kpm

open Verif.Numeric
open Verif.Hopping (Csr rowInsert csrInsert)
open Verif.Hamiltonian (insertAt rowAdd)

variable {K L : Type}

/-- Elements at the same places and with related values. -/
def RowRel (Q : K → L → Prop) (r : List (Nat × K)) (r' : List (Nat × L)) : Prop := List.Forall₂ (fun e e' => e.1 = e'.1 ∧ Q e.2 e'.2) r r'

/-- Elements at the same places and with related values. -/
def RowsRel (Q : K → L → Prop) (m : Csr K) (m' : Csr L) : Prop := List.Forall₂ (RowRel Q) m m'

section lists

variable {α β : Type} {R : α → β → Prop}

theorem forall₂_some {l : List α} {l' : List β} (h : List.Forall₂ R l l') {i : Nat} {b : β} (hb : l'[i]? = some b) : ∃ a, l[i]? = some a ∧ R a b := by
  induction h generalizing i with
  | nil => simp at hb
  | cons hab _ ih =>
    cases i with
    | zero =>
      simp only [List.getElem?_cons_zero, Option.some.injEq] at hb ⊢
      subst hb
      exact ⟨_, rfl, hab⟩
    | succ i =>
      simp only [List.getElem?_cons_succ] at hb ⊢
      exact ih hb

theorem forall₂_set {l : List α} {l' : List β} (h : List.Forall₂ R l l') {i : Nat} {a : α} {b : β} (hab : R a b) : List.Forall₂ R (l.set i a) (l'.set i b) := by
  induction h generalizing i with
  | nil => exact .nil
  | cons h1 h2 ih =>
    cases i with
    | zero => exact .cons hab h2
    | succ i => exact .cons h1 ih

theorem forall₂_replicate {a : α} {b : β} (hab : R a b) (c : Nat) : List.Forall₂ R (List.replicate c a) (List.replicate c b) := by
  induction c with
  | zero => exact .nil
  | succ c ih => exact .cons hab ih

theorem foldlM_rel {σ τ : Type} {S : σ → τ → Prop} {f : σ → α → Res σ} {g : τ → β → Res τ}
    (hf : ∀ s t a b, S s t → R a b → ∀ t', g t b = .ok t' → ∃ s', f s a = .ok s' ∧ S s' t') {l : List α} {l' : List β} (h : List.Forall₂ R l l') {s : σ} {t t' : τ}
    (hst : S s t) (e : l'.foldlM g t = .ok t') : ∃ s', l.foldlM f s = .ok s' ∧ S s' t' := by
  induction h generalizing s t with
  | nil =>
    rw [List.foldlM_nil, Res.pure_eq, Res.ok.injEq] at e
    subst e
    exact ⟨s, rfl, hst⟩
  | @cons a b l l' hab _ ih =>
    rw [List.foldlM_cons] at e
    cases hg : g t b with
    | ok t1 =>
      obtain ⟨s1, e1, h1⟩ := hf s t a b hst hab t1 hg
      rw [hg, Res.bind_ok] at e
      obtain ⟨s', e2, h2⟩ := ih h1 e
      exact ⟨s', by rw [List.foldlM_cons, e1, Res.bind_ok, e2], h2⟩
    | err x => rw [hg] at e; cases e
    | ub => rw [hg] at e; cases e

end lists

/-! ## Insertion -/

theorem rowInsert_rel {Q : K → L → Prop} {r : List (Nat × K)} {r' : List (Nat × L)} (h : RowRel Q r r') {c : Nat} {v : K} {w : L} (hv : Q v w) {s' : List (Nat × L)}
    (e : rowInsert c w r' = .ok s') : ∃ s, rowInsert c v r = .ok s ∧ RowRel Q s s' := by
  induction h generalizing s' with
  | nil =>
    rw [rowInsert, Res.ok.injEq] at e
    subst e
    exact ⟨_, rfl, .cons ⟨rfl, hv⟩ .nil⟩
  | @cons a b l l' hab hl ih =>
    obtain ⟨c1, v1⟩ := a
    obtain ⟨c2, v2⟩ := b
    obtain ⟨h1, h2⟩ := hab
    simp only at h1 h2
    subst h1
    rw [rowInsert] at e ⊢
    by_cases hlt : c < c1
    · rw [if_pos hlt, Res.ok.injEq] at e
      rw [if_pos hlt]
      subst e
      exact ⟨_, rfl, .cons ⟨rfl, hv⟩ (.cons ⟨rfl, h2⟩ hl)⟩
    · rw [if_neg hlt] at e ⊢
      by_cases heq : c = c1
      · rw [if_pos heq] at e
        cases e
      · rw [if_neg heq] at e ⊢
        cases hr : rowInsert c w l' with
        | ok s1 =>
          obtain ⟨s, e1, hs⟩ := ih hr
          rw [hr, Res.bind_ok, Res.pure_eq, Res.ok.injEq] at e
          subst e
          exact ⟨_, by rw [e1, Res.bind_ok, Res.pure_eq], .cons ⟨rfl, h2⟩ hs⟩
        | err x => rw [hr] at e; cases e
        | ub => rw [hr] at e; cases e

theorem insertAt_rel {Q : K → L → Prop} {m : Csr K} {m' : Csr L} (h : RowsRel Q m m') {n : Nat} {i j : Int} {v : K} {w : L} (hv : Q v w) {s' : Csr L}
    (e : insertAt n m' i j w = .ok s') : ∃ s, insertAt n m i j v = .ok s ∧ RowsRel Q s s' := by
  unfold insertAt at e ⊢
  by_cases hneg : i < 0 ∨ j < 0
  · rw [if_pos hneg] at e; cases e
  rw [if_neg hneg] at e ⊢
  unfold csrInsert at e ⊢
  by_cases hj : j.toNat < n
  · rw [if_pos hj] at e ⊢
    cases hm : m'[i.toNat]? with
    | none => rw [hm] at e; cases e
    | some r' =>
      obtain ⟨r, er, hr⟩ := forall₂_some h hm
      rw [hm] at e
      simp only at e
      rw [er]
      simp only
      cases hi : rowInsert j.toNat w r' with
      | ok q =>
        rw [hi, Res.bind_ok, Res.pure_eq, Res.ok.injEq] at e
        subst e
        obtain ⟨s, e1, hs⟩ := rowInsert_rel hr hv hi
        exact ⟨_, by rw [e1, Res.bind_ok, Res.pure_eq], forall₂_set h hs⟩
      | err x => rw [hi] at e; cases e
      | ub => rw [hi] at e; cases e
  · rw [if_neg hj] at e; cases e

theorem rowAdd_rel [Add K] [Add L] {Q Q' : K → L → Prop} {r : List (Nat × K)} {r' : List (Nat × L)} (h : RowRel Q r r') (c : Nat) {v : K} {w : L} (hQ : ∀ a b, Q a b → Q' a b)
    (hv : Q' v w) (hadd : ∀ a b, Q a b → Q' (a + v) (b + w)) : RowRel Q' (rowAdd c v r) (rowAdd c w r') := by
  induction h with
  | nil => exact .cons ⟨rfl, hv⟩ .nil
  | @cons a b l l' hab hl ih =>
    obtain ⟨c1, v1⟩ := a
    obtain ⟨c2, v2⟩ := b
    obtain ⟨h1, h2⟩ := hab
    simp only at h1 h2
    subst h1
    have hl' : RowRel Q' l l' := hl.imp fun a b hab => ⟨hab.1, hQ _ _ hab.2⟩
    unfold rowAdd
    by_cases hlt : c < c1
    · rw [if_pos hlt, if_pos hlt]
      exact .cons ⟨rfl, hv⟩ (.cons ⟨rfl, hQ _ _ h2⟩ hl')
    · rw [if_neg hlt, if_neg hlt]
      by_cases heq : c = c1
      · rw [if_pos heq, if_pos heq]
        exact .cons ⟨rfl, hadd _ _ h2⟩ hl'
      · rw [if_neg heq, if_neg heq]
        exact .cons ⟨rfl, hQ _ _ h2⟩ ih

/-! ## The search -/

/-- The variables of `create_reordered` for related matrices. -/
structure StRel (Q : K → L → Prop) (s : RoSt K) (t : RoSt L) : Prop where
  queue : s.queue = t.queue
  map : s.map = t.map
  h2 : RowsRel Q s.h2 t.h2
  diag : s.diag = t.diag
  borders : s.borders = t.borders

/-- What the arithmetic must do with related values: the value inserted for an element, for a diagonal element and for a missing diagonal element is related too. -/
structure Scaling [Mul K] [Sub K] [Neg K] [Add K] [Zero K] [Mul L] [Sub L] [Neg L] [Add L] [Zero L] (Q Q' : K → L → Prop) (invA b : K) (invA' b' : L) : Prop where
  zero : b = 0 ↔ b' = 0
  off : ∀ v w, Q v w → Q' (v * invA) (w * invA')
  diag : ∀ v w, Q v w → Q' (v * invA - b * invA) (w * invA' - b' * invA')
  missing : b' ≠ 0 → Q' (-b * invA) (-b' * invA')
  sum : ∀ v w, Q v w → Q' ((v + -b) * invA) ((w + -b') * invA')

section search

variable [Mul K] [Sub K] [Neg K] [Add K] [Zero K] [DecidableEq K] [Mul L] [Sub L] [Neg L] [Add L] [Zero L] [DecidableEq L] {Q Q' : K → L → Prop} {invA b : K} {invA' b' : L}

omit [Mul K] [Sub K] [Neg K] [Add K] [Zero K] [DecidableEq K] [Mul L] [Sub L] [Neg L] [Add L] [Zero L] [DecidableEq L] in
theorem roVisit_rel {s : RoSt K} {t t' : RoSt L} (h : StRel Q s t) {c : Nat} (e : roVisit t c = .ok t') : ∃ s', roVisit s c = .ok s' ∧ StRel Q s' t' := by
  unfold roVisit at e ⊢
  rw [h.map]
  cases hr : rd t.map c with
  | ok x =>
    rw [hr, Res.bind_ok] at e
    rw [Res.bind_ok]
    by_cases hx : x < 0
    · rw [if_pos hx, Res.ok.injEq] at e
      rw [if_pos hx]
      subst e
      exact ⟨_, rfl, ⟨by simp only [h.queue], by simp only [h.map, h.queue], h.h2, h.diag, h.borders⟩⟩
    · rw [if_neg hx, Res.ok.injEq] at e
      rw [if_neg hx]
      subst e
      exact ⟨_, rfl, h⟩
  | err x => rw [hr] at e; cases e
  | ub => rw [hr] at e; cases e

omit [DecidableEq K] [DecidableEq L] in
theorem roElem_rel (A : Scaling Q Q' invA b invA' b') {n row h2row : Nat} {s : RoSt K} {t t' : RoSt L} {a : Nat × K} {a' : Nat × L} (h : StRel Q' s t) (ha : a.1 = a'.1 ∧ Q a.2 a'.2)
    (e : roElem n invA' b' row h2row t a' = .ok t') : ∃ s', roElem n invA b row h2row s a = .ok s' ∧ StRel Q' s' t' := by
  obtain ⟨c, v⟩ := a
  obtain ⟨c', w⟩ := a'
  obtain ⟨h1, h2⟩ := ha
  simp only at h1 h2
  subst h1
  unfold roElem at e ⊢
  simp only at e ⊢
  cases hv : roVisit t c with
  | ok t1 =>
    obtain ⟨s1, e1, r1⟩ := roVisit_rel h hv
    rw [hv, Res.bind_ok] at e
    rw [e1, Res.bind_ok, r1.map]
    cases hr : rd t1.map c with
    | ok x =>
      rw [hr, Res.bind_ok] at e
      rw [Res.bind_ok]
      have hval : Q' (roValue invA b row c v) (roValue invA' b' row c w) := by
        unfold roValue
        split
        · exact A.diag _ _ h2
        · exact A.off _ _ h2
      cases hi : insertAt n t1.h2 h2row x (roValue invA' b' row c w) with
      | ok m' =>
        obtain ⟨m, e2, r2⟩ := insertAt_rel r1.h2 hval hi
        rw [hi, Res.bind_ok, Res.pure_eq, Res.ok.injEq] at e
        subst e
        rw [e2, Res.bind_ok, Res.pure_eq]
        exact ⟨_, rfl, ⟨r1.queue, rfl, r2, by simp only [r1.diag], r1.borders⟩⟩
      | err x => rw [hi] at e; cases e
      | ub => rw [hi] at e; cases e
    | err x => rw [hr] at e; cases e
    | ub => rw [hr] at e; cases e
  | err x => rw [hv] at e; cases e
  | ub => rw [hv] at e; cases e

theorem roDiag_rel (A : Scaling Q Q' invA b invA' b') {n h2row : Nat} {s : RoSt K} {t t' : RoSt L} (h : StRel Q' s t) (e : roDiag n invA' b' h2row t = .ok t') :
    ∃ s', roDiag n invA b h2row s = .ok s' ∧ StRel Q' s' t' := by
  unfold roDiag at e ⊢
  have hc : (b ≠ 0 ∧ s.diag = false) ↔ (b' ≠ 0 ∧ t.diag = false) := by rw [h.diag, Ne, Ne, not_congr A.zero]
  by_cases hb : b' ≠ 0 ∧ t.diag = false
  · rw [if_pos hb] at e
    rw [if_pos (hc.2 hb)]
    cases hi : insertAt n t.h2 h2row h2row (-b' * invA') with
    | ok m' =>
      obtain ⟨m, e2, r2⟩ := insertAt_rel h.h2 (A.missing hb.1) hi
      rw [hi, Res.bind_ok, Res.pure_eq, Res.ok.injEq] at e
      subst e
      rw [e2, Res.bind_ok, Res.pure_eq]
      exact ⟨_, rfl, ⟨h.queue, h.map, r2, h.diag, h.borders⟩⟩
    | err x => rw [hi] at e; cases e
    | ub => rw [hi] at e; cases e
  · rw [if_neg hb, Res.ok.injEq] at e
    rw [if_neg (fun x => hb (hc.1 x))]
    subst e
    exact ⟨_, rfl, h⟩

theorem roRow_rel (A : Scaling Q Q' invA b invA' b') {h : Csr K} {h' : Csr L} (hh : RowsRel Q h h') {h2row : Nat} {s : RoSt K} {t t' : RoSt L} (hst : StRel Q' s t)
    (e : roRow h' invA' b' t h2row = .ok t') : ∃ s', roRow h invA b s h2row = .ok s' ∧ StRel Q' s' t' := by
  unfold roRow at e ⊢
  rw [hst.queue, List.Forall₂.length_eq hh]
  cases hq : rd t.queue h2row with
  | ok row =>
    rw [hq, Res.bind_ok] at e
    rw [Res.bind_ok]
    cases hr : rd h' row with
    | ok es' =>
      have hr' : h'[row]? = some es' := by
        unfold rd at hr
        split at hr
        · rename_i a ha; rw [ha]; rw [Res.ok.injEq] at hr; rw [hr]
        · cases hr
      obtain ⟨es, he, hes⟩ := forall₂_some hh hr'
      have he' : rd h row = .ok es := by unfold rd; rw [he]
      rw [hr, Res.bind_ok] at e
      rw [he', Res.bind_ok]
      cases hf : es'.foldlM (roElem h'.length invA' b' row h2row) { t with diag := false } with
      | ok t1 =>
        have h0 : StRel Q' { s with queue := t.queue, diag := false } { t with diag := false } := ⟨rfl, hst.map, hst.h2, rfl, hst.borders⟩
        obtain ⟨s1, e1, r1⟩ := foldlM_rel (S := StRel Q') (R := fun (a : Nat × K) (a' : Nat × L) => a.1 = a'.1 ∧ Q a.2 a'.2) (f := roElem h'.length invA b row h2row)
          (fun s t a a' hs ha t' he => roElem_rel A hs ha he) hes h0 hf
        rw [hf, Res.bind_ok] at e
        rw [e1, Res.bind_ok]
        cases hd : roDiag h'.length invA' b' h2row t1 with
        | ok t2 =>
          obtain ⟨s2, e2, r2⟩ := roDiag_rel A r1 hd
          rw [hd, Res.bind_ok, Res.pure_eq, Res.ok.injEq] at e
          subst e
          rw [e2, Res.bind_ok, Res.pure_eq]
          refine ⟨_, rfl, ?_⟩
          unfold roBorder
          rw [r2.borders]
          split
          · exact ⟨r2.queue, r2.map, r2.h2, r2.diag, by simp only [r2.queue]⟩
          · exact r2
        | err x => rw [hd] at e; cases e
        | ub => rw [hd] at e; cases e
      | err x => rw [hf] at e; cases e
      | ub => rw [hf] at e; cases e
    | err x => rw [hr] at e; cases e
    | ub => rw [hr] at e; cases e
  | err x => rw [hq] at e; cases e
  | ub => rw [hq] at e; cases e

/-- The results of the optimization: the same indices and slices, related values. -/
structure OptRel (Q : K → L → Prop) (o : Optimized K) (o' : Optimized L) : Prop where
  h2 : RowsRel Q o.h2 o'.h2
  map : o.map = o'.map
  src : o.src = o'.src
  dest : o.dest = o'.dest
  slices : o.slices = o'.slices

theorem createReordered_rel (A : Scaling Q Q' invA b invA' b') {h : Csr K} {h' : Csr L} (hh : RowsRel Q h h') {src dest : List Nat} {o' : Optimized L}
    (e : createReordered h' invA' b' src dest = .ok o') : ∃ o, createReordered h invA b src dest = .ok o ∧ OptRel Q' o o' := by
  unfold createReordered at e ⊢
  rw [List.Forall₂.length_eq hh]
  cases h1 : rd src 0 with
  | ok first =>
    rw [h1, Res.bind_ok] at e
    rw [Res.bind_ok]
    cases h2 : wr (List.replicate h'.length (-1 : Int)) first 0 with
    | ok map =>
      rw [h2, Res.bind_ok] at e
      rw [Res.bind_ok]
      cases h3 : (List.range h'.length).foldlM (roRow h' invA' b') ⟨[first], map, List.replicate h'.length [], false, [1]⟩ with
      | ok t =>
        have h0 : StRel Q' (⟨[first], map, List.replicate h'.length [], false, [1]⟩ : RoSt K) ⟨[first], map, List.replicate h'.length [], false, [1]⟩ :=
          ⟨rfl, rfl, forall₂_replicate .nil _, rfl, rfl⟩
        have hl : List.Forall₂ (fun a b : Nat => a = b) (List.range h'.length) (List.range h'.length) := List.forall₂_refl _
        obtain ⟨s, es, rs⟩ := foldlM_rel (S := StRel Q') (f := roRow h invA b)
          (fun s t a a' hs ha t' he => by subst ha; exact roRow_rel A hh hs he) hl h0 h3
        rw [h3, Res.bind_ok] at e
        rw [es, Res.bind_ok, rs.map, rs.borders]
        cases h4 : reorderIndices t.map src with
        | ok src' =>
          rw [h4, Res.bind_ok] at e
          rw [Res.bind_ok]
          cases h5 : reorderIndices t.map dest with
          | ok dest' =>
            rw [h5, Res.bind_ok] at e
            rw [Res.bind_ok]
            cases h6 : SliceMap.make t.borders.dropLast src' dest' with
            | ok sl =>
              rw [h6, Res.bind_ok, Res.pure_eq, Res.ok.injEq] at e
              subst e
              rw [Res.bind_ok, Res.pure_eq]
              exact ⟨_, rfl, ⟨rs.h2, rfl, rfl, rfl, rfl⟩⟩
            | err x => rw [h6] at e; cases e
            | ub => rw [h6] at e; cases e
          | err x => rw [h5] at e; cases e
          | ub => rw [h5] at e; cases e
        | err x => rw [h4] at e; cases e
        | ub => rw [h4] at e; cases e
      | err x => rw [h3] at e; cases e
      | ub => rw [h3] at e; cases e
    | err x => rw [h2] at e; cases e
    | ub => rw [h2] at e; cases e
  | err x => rw [h1] at e; cases e
  | ub => rw [h1] at e; cases e

omit [DecidableEq K] [DecidableEq L] [Sub K] [Sub L] [Neg K] [Neg L] [Add K] [Add L] [Zero K] [Zero L] in
theorem scaleRows_rel {Q₁ : K → L → Prop} {m : Csr K} {m' : Csr L} (h : RowsRel Q₁ m m') (hQ : ∀ v w, Q₁ v w → Q' (v * invA) (w * invA')) :
    RowsRel Q' (m.map fun r => r.map fun e => (e.1, e.2 * invA)) (m'.map fun r => r.map fun e => (e.1, e.2 * invA')) := by
  unfold RowsRel
  rw [List.forall₂_map_left_iff, List.forall₂_map_right_iff]
  refine h.imp fun r r' hr => ?_
  unfold RowRel
  rw [List.forall₂_map_left_iff, List.forall₂_map_right_iff]
  exact hr.imp fun e e' he => ⟨he.1, hQ _ _ he.2⟩

theorem createScaled_rel (A : Scaling Q Q' invA b invA' b') {h : Csr K} {h' : Csr L} (hh : RowsRel Q h h') (src dest : List Nat) :
    OptRel Q' (createScaled h invA b src dest) (createScaled h' invA' b' src dest) := by
  unfold createScaled
  have hlen := List.Forall₂.length_eq hh
  refine ⟨?_, rfl, rfl, rfl, by simp only [hlen]⟩
  simp only
  by_cases hb : b' = 0
  · rw [if_pos hb, if_pos (A.zero.2 hb)]
    exact scaleRows_rel hh A.off
  · rw [if_neg hb, if_neg fun x => hb (A.zero.1 x)]
    refine scaleRows_rel (Q₁ := fun v w => Q' (v * invA) (w * invA')) ?_ fun _ _ hvw => hvw
    have : ∀ (k : Nat) {m : Csr K} {m' : Csr L}, RowsRel Q m m' →
        RowsRel (fun v w => Q' (v * invA) (w * invA')) ((m.zipIdx k).map fun p => rowAdd p.2 (-b) p.1) ((m'.zipIdx k).map fun p => rowAdd p.2 (-b') p.1) := by
      intro k m m' hm
      induction hm generalizing k with
      | nil => exact .nil
      | cons hr _ ih =>
        rw [List.zipIdx_cons, List.zipIdx_cons, List.map_cons, List.map_cons]
        exact .cons (rowAdd_rel hr k A.off (A.missing hb) A.sum) (ih (k + 1))
    exact this 0 hh

theorem optimizeFor_rel (A : Scaling Q Q' invA b invA' b') {h : Csr K} {h' : Csr L} (hh : RowsRel Q h h') (reorder : Bool) {src dest : List Nat} {o' : Optimized L}
    (e : optimizeFor reorder h' invA' b' src dest = .ok o') : ∃ o, optimizeFor reorder h invA b src dest = .ok o ∧ OptRel Q' o o' := by
  unfold optimizeFor at e ⊢
  cases reorder with
  | true =>
    rw [if_pos rfl] at e ⊢
    exact createReordered_rel A hh e
  | false =>
    rw [if_neg Bool.false_ne_true, Res.ok.injEq] at e
    rw [if_neg Bool.false_ne_true]
    subst e
    exact ⟨_, rfl, createScaled_rel A hh src dest⟩

end search

end Verif.Kpm
