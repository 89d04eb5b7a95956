import Verif.Lanczos.Tridiag

/-!
# The QR loop
-/

namespace Verif.Lanczos

open Verif.Numeric
open Finset

/-! ## One QR step -/

/-- The form of the matrix in the middle of a QR step, before the rotation `k`: with a bulge in row `k + 1` and column
`k - 1`. -/
def bulged (n start k : Nat) (st : Qr) (x : Nat → ℝ) : ℝ :=
  form n (ofList st.diag) (ofList st.sub) x + (if start < k then 2 * st.z * (x (k - 1) * x (k + 1)) else 0)

/-- What holds before the rotation `k` of a QR step on `start .. stop`. -/
structure Mid (n start stop k : Nat) (F : (Nat → ℝ) → ℝ) (sub : List ℝ) (st : Qr) : Prop where
  dlen : st.diag.length = n
  slen : st.sub.length = n
  out : ∀ i, (i < start ∨ stop ≤ i) → ofList st.sub i = ofList sub i
  xval : start < k → k < stop → st.x = ofList st.sub (k - 1)
  sim : Sim n F (if k < stop then bulged n start k st else form n (ofList st.diag) (ofList st.sub)) 0

theorem rotatePrev_ok {start k : Nat} (g : Givens) (z : ℝ) (sub : List ℝ) (hk : k < sub.length) :
    ∃ sub', rotatePrev start k g z sub = .ok sub' ∧ sub'.length = sub.length ∧
      ofList sub' = if start < k then Function.update (ofList sub) (k - 1) (g.c * ofList sub (k - 1) - g.s * z) else ofList sub := by
  unfold rotatePrev
  by_cases h : start < k
  · rw [if_pos h, if_pos h, rd_ofList sub (k - 1) (by omega), Res.bind_ok, wr_ok _ _ _ (by omega)]
    exact ⟨_, rfl, by simp, ofList_set _ _ _ (by omega)⟩
  · rw [if_neg h, if_neg h]
    exact ⟨_, rfl, rfl, rfl⟩

theorem rotateNext_ok {stop k : Nat} (g : Givens) (z : ℝ) (sub : List ℝ) (hk : k + 1 < stop → k + 1 < sub.length) :
    ∃ r, rotateNext stop k g z sub = .ok r ∧ r.1.length = sub.length ∧
      (ofList r.1 = if k + 1 < stop then Function.update (ofList sub) (k + 1) (g.c * ofList sub (k + 1)) else ofList sub) ∧
      (k + 1 < stop → r.2 = -g.s * ofList sub (k + 1)) := by
  unfold rotateNext
  by_cases h : k + 1 < stop
  · rw [if_pos h, if_pos h, rd_ofList sub (k + 1) (hk h), Res.bind_ok, wr_ok _ _ _ (hk h), Res.bind_ok]
    exact ⟨_, rfl, by simp, ofList_set _ _ _ (hk h), fun _ => rfl⟩
  · rw [if_neg h, if_neg h]
    exact ⟨_, rfl, rfl, rfl, fun h' => absurd h' h⟩

theorem rotate_mid {n start stop k : Nat} {F : (Nat → ℝ) → ℝ} {sub : List ℝ} {st : Qr} (h0 : start ≤ k) (h1 : k < stop)
    (h2 : stop < n) (hs : 0 < start → ofList sub (start - 1) = 0) (he : stop + 1 < n → ofList sub stop = 0)
    (hm : Mid n start stop k F sub st) : ∃ st', rotate start stop st k = .ok st' ∧ Mid n start stop (k + 1) F sub st' := by
  obtain ⟨g1, g2⟩ := makeGivens_spec st.x st.z
  have hsim := hm.sim
  rw [if_pos h1] at hsim
  unfold rotate
  generalize makeGivens st.x st.z = g at *
  simp only
  have hd := hm.dlen
  have hl := hm.slen
  rw [rd_ofList st.diag k (by omega), Res.bind_ok, rd_ofList st.sub k (by omega), Res.bind_ok,
    rd_ofList st.diag (k + 1) (by omega), Res.bind_ok, wr_ok _ _ _ (by omega), Res.bind_ok,
    wr_ok _ _ _ (by rw [List.length_set]; omega), Res.bind_ok, wr_ok _ _ _ (by omega), Res.bind_ok]
  obtain ⟨s1, e1, l1, f1⟩ := rotatePrev_ok (start := start) (k := k) g st.z
    (st.sub.set k (g.c * (g.s * ofList st.diag k + g.c * ofList st.sub k) - g.s * (g.s * ofList st.sub k + g.c * ofList st.diag (k + 1))))
    (by rw [List.length_set]; omega)
  rw [e1, Res.bind_ok]
  rw [List.length_set] at l1
  rw [ofList_set _ _ _ (by omega)] at f1
  rw [rd_ofList s1 k (by omega), Res.bind_ok]
  obtain ⟨r, e2, l2, f2, z2⟩ := rotateNext_ok (stop := stop) (k := k) g st.z s1 (by omega)
  rw [e2, Res.bind_ok]
  refine ⟨_, rfl, ?_⟩
  -- the elements of the new subdiagonal
  have vk : ofList s1 k = g.c * (g.s * ofList st.diag k + g.c * ofList st.sub k) - g.s * (g.s * ofList st.sub k + g.c * ofList st.diag (k + 1)) := by
    rw [f1]
    split_ifs with h
    · rw [Function.update_of_ne (by omega), Function.update_self]
    · rw [Function.update_self]
  have vp : start < k → ofList s1 (k - 1) = g.c * ofList st.sub (k - 1) - g.s * st.z := by
    intro h
    rw [f1, if_pos h, Function.update_self, Function.update_of_ne (by omega)]
  have vo : ∀ i, (start < k → i ≠ k - 1) → i ≠ k → ofList s1 i = ofList st.sub i := by
    intro i i1 i2
    rw [f1]
    split_ifs with h
    · rw [Function.update_of_ne (i1 h), Function.update_of_ne i2]
    · rw [Function.update_of_ne i2]
  have wk : ofList r.1 k = ofList s1 k := by
    rw [f2]
    split_ifs with h
    · rw [Function.update_of_ne (by omega)]
    · rfl
  have wo : ∀ i, (k + 1 < stop → i ≠ k + 1) → ofList r.1 i = ofList s1 i := by
    intro i hi
    rw [f2]
    split_ifs with h
    · rw [Function.update_of_ne (hi h)]
    · rfl
  have so : ∀ i, (i < start ∨ stop ≤ i) → ofList r.1 i = ofList sub i := by
    intro i hi
    rw [wo i (by omega), vo i (by omega) (by omega), hm.out i hi]
  refine ⟨by simp [hd], by simp only; omega, so, ?_, ?_⟩
  · intro _ h
    simp only [Nat.add_sub_cancel]
    exact wk.symm
  · have key := fun x => form_rot (n := n) (k := k) (c := g.c) (s := g.s) (z := if start < k then st.z else 0)
      (d := ofList st.diag) (e := ofList st.sub)
      (d' := ofList ((st.diag.set k (g.c * (g.c * ofList st.diag k - g.s * ofList st.sub k) - g.s * (g.c * ofList st.sub k - g.s * ofList st.diag (k + 1)))).set (k + 1)
        (g.s * (g.s * ofList st.diag k + g.c * ofList st.sub k) + g.c * (g.s * ofList st.sub k + g.c * ofList st.diag (k + 1)))))
      (e' := ofList r.1) (by omega)
      (by rw [ofList_set _ _ _ (by rw [List.length_set]; omega), ofList_set _ _ _ (by omega)])
      (by rw [wk, vk])
      (by
        intro k0
        by_cases hsk : start < k
        · rw [if_pos hsk]
          refine ⟨?_, by rw [wo _ (by omega), vp hsk]⟩
          rw [hm.xval hsk h1] at g2
          exact g2
        · rw [if_neg hsk]
          have : k = start := by omega
          subst this
          rw [so (k - 1) (by omega), hm.out (k - 1) (by omega), hs k0]
          simp)
      (by
        intro kn
        by_cases hks : k + 1 < stop
        · rw [f2, if_pos hks, Function.update_self, vo (k + 1) (by omega) (by omega)]
        · have : stop = k + 1 := by omega
          subst this
          rw [so (k + 1) (by omega), hm.out (k + 1) (by omega), he kn]
          simp)
      (by
        intro i i1 i2 i3
        rw [wo i (by omega), vo i (by omega) i2]) x
    have hold : ∀ x, bulged n start k st x = form n (ofList st.diag) (ofList st.sub) x +
        (if 0 < k then 2 * (if start < k then st.z else 0) * (x (k - 1) * x (k + 1)) else 0) := by
      intro x
      unfold bulged
      congr 1
      by_cases hsk : start < k
      · rw [if_pos hsk, if_pos hsk, if_pos (by omega)]
      · rw [if_neg hsk, if_neg hsk]
        simp
    have hrot : ∀ x, (if k + 1 < stop then bulged n start (k + 1)
        ⟨(st.diag.set k (g.c * (g.c * ofList st.diag k - g.s * ofList st.sub k) - g.s * (g.c * ofList st.sub k - g.s * ofList st.diag (k + 1)))).set (k + 1)
        (g.s * (g.s * ofList st.diag k + g.c * ofList st.sub k) + g.c * (g.s * ofList st.sub k + g.c * ofList st.diag (k + 1))), r.1, ofList s1 k, r.2⟩
        else form n (ofList ((st.diag.set k (g.c * (g.c * ofList st.diag k - g.s * ofList st.sub k) - g.s * (g.c * ofList st.sub k - g.s * ofList st.diag (k + 1)))).set (k + 1)
        (g.s * (g.s * ofList st.diag k + g.c * ofList st.sub k) + g.c * (g.s * ofList st.sub k + g.c * ofList st.diag (k + 1))))) (ofList r.1)) x =
        bulged n start k st (rot k g.c g.s x) := by
      intro x
      rw [hold, ← key x]
      by_cases hks : k + 1 < stop
      · rw [if_pos hks, if_pos (by omega)]
        unfold bulged
        rw [if_pos (by omega)]
        simp only [Nat.add_sub_cancel]
        rw [z2 hks, vo (k + 1) (by omega) (by omega)]
      · rw [if_neg hks]
        by_cases kn : k + 2 < n
        · have : stop = k + 1 := by omega
          subst this
          rw [if_pos kn, hm.out (k + 1) (by omega), he kn]
          simp
        · rw [if_neg kn, add_zero]
    have := hsim.trans (Sim.rotate (n := n) g1 (by omega) hrot)
    rw [add_zero] at this
    exact this

theorem rotations_mid {n start stop : Nat} {F : (Nat → ℝ) → ℝ} {sub : List ℝ} (h2 : stop < n)
    (hs : 0 < start → ofList sub (start - 1) = 0) (he : stop + 1 < n → ofList sub stop = 0) :
    ∀ (t k : Nat) (st : Qr), start ≤ k → k + t = stop → Mid n start stop k F sub st →
      ∃ st', (List.range' k t).foldlM (rotate start stop) st = .ok st' ∧ Mid n start stop stop F sub st' := by
  intro t
  induction t with
  | zero =>
    intro k st _ hk hm
    simp only [Nat.add_zero] at hk
    subst hk
    exact ⟨st, rfl, hm⟩
  | succ t ih =>
    intro k st h0 hk hm
    obtain ⟨st', e, hm'⟩ := rotate_mid h0 (by omega) h2 hs he hm
    obtain ⟨st'', e', hm''⟩ := ih (k + 1) st' (by omega) (by omega) hm'
    refine ⟨st'', ?_, hm''⟩
    rw [List.range'_succ, List.foldlM_cons, e, Res.bind_ok, e']

/-- A QR step is a rotation, and changes the subdiagonal only inside the active block. -/
theorem qrStep_spec {n start stop : Nat} {diag sub : List ℝ} (hd : diag.length = n) (hl : sub.length = n) (h1 : start < stop)
    (h2 : stop < n) (hs : 0 < start → ofList sub (start - 1) = 0) (he : stop + 1 < n → ofList sub stop = 0) :
    ∃ r, qrStep diag sub start stop = .ok r ∧ r.1.length = n ∧ r.2.length = n ∧
      (∀ i, (i < start ∨ stop ≤ i) → ofList r.2 i = ofList sub i) ∧
      Sim n (form n (ofList diag) (ofList sub)) (form n (ofList r.1) (ofList r.2)) 0 := by
  unfold qrStep
  rw [rd_ofList diag (stop - 1) (by omega), Res.bind_ok, rd_ofList diag stop (by omega), Res.bind_ok,
    rd_ofList sub (stop - 1) (by omega), Res.bind_ok]
  simp only
  rw [rd_ofList diag start (by omega), Res.bind_ok, rd_ofList sub start (by omega), Res.bind_ok]
  have hm : Mid n start stop start (form n (ofList diag) (ofList sub)) sub
      ⟨diag, sub, ofList diag start - shift (ofList diag (stop - 1)) (ofList diag stop) (ofList sub (stop - 1)), ofList sub start⟩ := by
    refine ⟨hd, hl, fun _ _ => rfl, fun h => absurd h (by omega), ?_⟩
    rw [if_pos h1]
    have : bulged n start start ⟨diag, sub, ofList diag start - shift (ofList diag (stop - 1)) (ofList diag stop) (ofList sub (stop - 1)), ofList sub start⟩ =
        form n (ofList diag) (ofList sub) := by
      funext x
      unfold bulged
      rw [if_neg (by omega), add_zero]
    rw [this]
    exact Sim.refl n _
  obtain ⟨st', e, hm'⟩ := rotations_mid h2 hs he (stop - start) start _ (Nat.le_refl _) (by omega) hm
  rw [e, Res.bind_ok]
  have sim := hm'.sim
  rw [if_neg (by omega)] at sim
  exact ⟨_, rfl, hm'.dlen, hm'.slen, hm'.out, sim⟩

end Verif.Lanczos
