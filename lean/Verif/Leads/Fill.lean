import Verif.Leads.Spec
import Verif.Foundation.Props
import Mathlib.Data.List.GetD

/-!
# Lemmas: the loops over layers
-/

namespace Verif.Leads

open Verif.Foundation

variable {P : Type}

theorem readAt_ok {α : Type} (xs : List α) (i : Int) (h0 : 0 ≤ i) (h : i.toNat < xs.length) :
    readAt xs i = .ok (xs[i.toNat]) := by
  unfold readAt
  rw [if_neg (not_lt.mpr h0), List.getElem?_eq_getElem h]

theorem readAt_bool (xs : List Bool) (i : Int) (h0 : 0 ≤ i) (h : i.toNat < xs.length) :
    readAt xs i = .ok (xs.getD i.toNat false) := by
  rw [readAt_ok xs i h0 h, List.getD_eq_getElem _ _ h]

/-- Sites whose flat index is inside the array. -/
def Inside (n : Nat) (ss : List SliceSite) : Prop :=
  ∀ s ∈ ss, 0 ≤ s.site.flat ∧ s.site.flat.toNat < n

theorem anyValid_spec (valid : List Bool) (ss : List SliceSite) (h : Inside valid.length ss) :
    anyValid valid ss = .ok (ss.any fun s => valid.getD s.site.flat.toNat false) := by
  induction ss with
  | nil => rfl
  | cons s rest ih =>
    have hs := h s (by simp)
    simp only [anyValid]
    rw [readAt_bool _ _ hs.1 hs.2, Res.bind_ok]
    rw [List.any_cons]
    by_cases hv : valid.getD s.site.flat.toNat false = true
    · rw [if_pos hv, hv, Bool.true_or]
    · rw [if_neg hv, ih fun t ht => h t (List.mem_cons_of_mem _ ht)]
      have hv' : valid.getD s.site.flat.toNat false = false := by
        cases hb : valid.getD s.site.flat.toNat false
        · rfl
        · exact absurd hb hv
      rw [hv', Bool.false_or]

theorem slicePositions_spec (pos : List P) (ss : List SliceSite) (h : Inside pos.length ss) :
    ∃ ps, slicePositions pos ss = .ok ps ∧ ps.length = ss.length ∧
      ∀ (k : Nat) s, ss[k]? = some s → ps[k]? = pos[s.site.flat.toNat]? := by
  induction ss with
  | nil => exact ⟨[], rfl, rfl, by simp⟩
  | cons s rest ih =>
    have hs := h s (by simp)
    obtain ⟨ps, h1, h2, h3⟩ := ih fun t ht => h t (List.mem_cons_of_mem _ ht)
    refine ⟨pos[s.site.flat.toNat] :: ps, ?_, by simp [h2], ?_⟩
    · simp only [slicePositions]
      rw [readAt_ok _ _ hs.1 hs.2, Res.bind_ok, h1, Res.bind_ok]
      rfl
    · intro k t ht
      cases k with
      | zero =>
        simp only [List.getElem?_cons_zero, Option.some.injEq] at ht ⊢
        subst ht
        rw [List.getElem?_eq_getElem hs.2]
      | succ k =>
        simp only [List.getElem?_cons_succ] at ht ⊢
        exact h3 k t ht

/-- The effect of filling one layer. -/
theorem fillLayer_spec (ss : List SliceSite) (v j : List Bool) (hin : Inside v.length ss)
    (hidx : ∀ s ∈ ss, s.sliceIdx < j.length) (nd1 : (ss.map (·.sliceIdx)).Nodup)
    (nd2 : (ss.map fun s => s.site.flat.toNat).Nodup) :
    ∃ v' j', fillLayer ss (v, j) = .ok (v', j') ∧ v'.length = v.length ∧ j'.length = j.length ∧
      (∀ x, v'.getD x false = true ↔ v.getD x false = true ∨
        ∃ s ∈ ss, j.getD s.sliceIdx false = true ∧ x = s.site.flat.toNat) ∧
      (∀ k, j'.getD k false = true ↔ j.getD k false = true ∧
        ∀ s ∈ ss, s.sliceIdx = k → v.getD s.site.flat.toNat false = false) := by
  induction ss generalizing v j with
  | nil => exact ⟨v, j, rfl, rfl, rfl, by simp, by simp⟩
  | cons s rest ih =>
    have hs := hin s (by simp)
    have hk := hidx s (by simp)
    simp only [List.map_cons, List.nodup_cons, List.mem_map, not_exists, not_and] at nd1 nd2
    have hread : readAt j (s.sliceIdx : Int) = .ok (j.getD s.sliceIdx false) := by
      have := readAt_bool j (s.sliceIdx : Int) (Int.natCast_nonneg _) (by simpa using hk)
      simpa using this
    have hsetv : ∀ (xs : List Bool) (i x : Nat) (b : Bool), i < xs.length →
        (xs.set i b).getD x false = if x = i then b else xs.getD x false := by
      intro xs i x b hi
      simp only [List.getD_eq_getElem?_getD, List.getElem?_set]
      by_cases hx : x = i
      · subst hx
        simp [hi]
      · simp [hx, Ne.symm hx]
    by_cases hj : j.getD s.sliceIdx false = true
    · by_cases hv : v.getD s.site.flat.toNat false = true
      · -- an existing site ends the column
        have e : fillSite (v, j) s = .ok (v, j.set s.sliceIdx false) := by
          unfold fillSite
          simp only
          rw [hread, Res.bind_ok, if_pos hj, readAt_bool _ _ hs.1 hs.2, Res.bind_ok, if_pos hv]
        obtain ⟨v', j', h1, h2, h3, h4, h5⟩ := ih v (j.set s.sliceIdx false)
          (fun t ht => hin t (List.mem_cons_of_mem _ ht))
          (fun t ht => by simpa using hidx t (List.mem_cons_of_mem _ ht)) nd1.2 nd2.2
        refine ⟨v', j', ?_, h2, by simpa using h3, ?_, ?_⟩
        · simp only [fillLayer]
          rw [e, Res.bind_ok, h1]
        · intro x
          rw [h4 x]
          constructor
          · rintro (h | ⟨t, ht, htj, hx⟩)
            · exact Or.inl h
            · rw [hsetv _ _ _ _ hk, if_neg (nd1.1 t ht)] at htj
              exact Or.inr ⟨t, List.mem_cons_of_mem _ ht, htj, hx⟩
          · rintro (h | ⟨t, ht, htj, hx⟩)
            · exact Or.inl h
            · rcases List.mem_cons.mp ht with rfl | ht
              · left
                rw [hx]
                exact hv
              · right
                refine ⟨t, ht, ?_, hx⟩
                rw [hsetv _ _ _ _ hk, if_neg (nd1.1 t ht)]
                exact htj
        · intro k
          rw [h5 k, hsetv _ _ _ _ hk]
          by_cases hks : k = s.sliceIdx
          · subst hks
            simp only [if_true, Bool.false_eq_true, false_and, false_iff, not_and]
            intro _ hall
            have := hall s (by simp) rfl
            rw [hv] at this
            exact absurd this (by simp)
          · rw [if_neg hks]
            constructor
            · rintro ⟨h, hall⟩
              refine ⟨h, fun t ht htk => ?_⟩
              rcases List.mem_cons.mp ht with rfl | ht
              · exact absurd htk.symm hks
              · exact hall t ht htk
            · rintro ⟨h, hall⟩
              exact ⟨h, fun t ht htk => hall t (List.mem_cons_of_mem _ ht) htk⟩
      · -- an empty site is filled in
        have hv' : v.getD s.site.flat.toNat false = false := by simpa using hv
        have e : fillSite (v, j) s = .ok (v.set s.site.flat.toNat true, j) := by
          unfold fillSite
          simp only
          rw [hread, Res.bind_ok, if_pos hj, readAt_bool _ _ hs.1 hs.2, Res.bind_ok, if_neg hv]
        obtain ⟨v', j', h1, h2, h3, h4, h5⟩ := ih (v.set s.site.flat.toNat true) j
          (fun t ht => by simpa using hin t (List.mem_cons_of_mem _ ht))
          (fun t ht => hidx t (List.mem_cons_of_mem _ ht)) nd1.2 nd2.2
        refine ⟨v', j', ?_, by simpa using h2, h3, ?_, ?_⟩
        · simp only [fillLayer]
          rw [e, Res.bind_ok, h1]
        · intro x
          rw [h4 x, hsetv _ _ _ _ hs.2]
          constructor
          · rintro (h | ⟨t, ht, htj, hx⟩)
            · by_cases hx : x = s.site.flat.toNat
              · exact Or.inr ⟨s, by simp, hj, hx⟩
              · rw [if_neg hx] at h
                exact Or.inl h
            · exact Or.inr ⟨t, List.mem_cons_of_mem _ ht, htj, hx⟩
          · rintro (h | ⟨t, ht, htj, hx⟩)
            · left
              by_cases hx : x = s.site.flat.toNat
              · rw [if_pos hx]
              · rw [if_neg hx]
                exact h
            · rcases List.mem_cons.mp ht with rfl | ht
              · left
                rw [if_pos hx]
              · exact Or.inr ⟨t, ht, htj, hx⟩
        · intro k
          rw [h5 k]
          have hne : ∀ t ∈ rest, (v.set s.site.flat.toNat true).getD t.site.flat.toNat false =
              v.getD t.site.flat.toNat false := by
            intro t ht
            rw [hsetv _ _ _ _ hs.2, if_neg (nd2.1 t ht)]
          constructor
          · rintro ⟨h, hall⟩
            refine ⟨h, fun t ht htk => ?_⟩
            rcases List.mem_cons.mp ht with rfl | ht
            · exact hv'
            · rw [← hne t ht]
              exact hall t ht htk
          · rintro ⟨h, hall⟩
            refine ⟨h, fun t ht htk => ?_⟩
            rw [hne t ht]
            exact hall t (List.mem_cons_of_mem _ ht) htk
    · -- not part of the lead
      have hj' : j.getD s.sliceIdx false = false := by simpa using hj
      have e : fillSite (v, j) s = .ok (v, j) := by
        unfold fillSite
        simp only
        rw [hread, Res.bind_ok, if_neg hj]
      obtain ⟨v', j', h1, h2, h3, h4, h5⟩ := ih v j
        (fun t ht => hin t (List.mem_cons_of_mem _ ht))
        (fun t ht => hidx t (List.mem_cons_of_mem _ ht)) nd1.2 nd2.2
      refine ⟨v', j', ?_, h2, h3, ?_, ?_⟩
      · simp only [fillLayer]
        rw [e, Res.bind_ok, h1]
      · intro x
        rw [h4 x]
        constructor
        · rintro (h | ⟨t, ht, htj, hx⟩)
          · exact Or.inl h
          · exact Or.inr ⟨t, List.mem_cons_of_mem _ ht, htj, hx⟩
        · rintro (h | ⟨t, ht, htj, hx⟩)
          · exact Or.inl h
          · rcases List.mem_cons.mp ht with rfl | ht
            · exact absurd htj hj
            · exact Or.inr ⟨t, ht, htj, hx⟩
      · intro k
        rw [h5 k]
        constructor
        · rintro ⟨h, hall⟩
          refine ⟨h, fun t ht htk => ?_⟩
          rcases List.mem_cons.mp ht with rfl | ht
          · subst htk
            exact absurd h hj
          · exact hall t ht htk
        · rintro ⟨h, hall⟩
          exact ⟨h, fun t ht htk => hall t (List.mem_cons_of_mem _ ht) htk⟩

theorem any_id_iff (j : List Bool) : j.any id = true ↔ ∃ k, j.getD k false = true := by
  rw [List.any_eq_true]
  constructor
  · rintro ⟨b, hb, hb'⟩
    obtain ⟨k, hk, rfl⟩ := List.mem_iff_getElem.mp hb
    exact ⟨k, by rw [List.getD_eq_getElem _ _ hk]; exact hb'⟩
  · rintro ⟨k, hk⟩
    by_cases h : k < j.length
    · rw [List.getD_eq_getElem _ _ h] at hk
      exact ⟨_, List.getElem_mem h, hk⟩
    · rw [List.getD_eq_default _ _ (by omega)] at hk
      exact absurd hk (by simp)

/-- Layers of a slice: every layer visits the same columns in the same order and no site is in two
layers. -/
structure Layers (n m T : Nat) (L : Nat → List SliceSite) : Prop where
  inside : ∀ t < T, Inside n (L t)
  idx : ∀ t < T, ∀ s ∈ L t, s.sliceIdx < m
  nodup1 : ∀ t < T, ((L t).map (·.sliceIdx)).Nodup
  nodup2 : ∀ t < T, ((L t).map fun s => s.site.flat.toNat).Nodup
  apart : ∀ t < T, ∀ t' < T, ∀ s ∈ L t, ∀ s' ∈ L t', s.site.flat.toNat = s'.site.flat.toNat → t = t'

theorem Layers.tail {n m T : Nat} {L : Nat → List SliceSite} (h : Layers n m (T + 1) L) :
    Layers n m T fun t => L (t + 1) :=
  ⟨fun t ht => h.inside (t + 1) (by omega), fun t ht => h.idx (t + 1) (by omega),
    fun t ht => h.nodup1 (t + 1) (by omega), fun t ht => h.nodup2 (t + 1) (by omega),
    fun t ht t' ht' s hs s' hs' e => by
      have := h.apart (t + 1) (by omega) (t' + 1) (by omega) s hs s' hs' e
      omega⟩

/-- The whole fill loop. -/
theorem fillLoop_spec (B : Base P) (sp : Spec P) (T : Nat) (L : Nat → List SliceSite) (fuel : Nat)
    (i : Int) (v j : List Bool) (hfuel : T < fuel) (hL : Layers v.length j.length T L)
    (hstop : i + T * sp.step = sp.stop B.d) (hgo : ∀ t < T, i + t * sp.step ≠ sp.stop B.d)
    (hlayer : ∀ t < T, layer B sp (shapeSlice B sp) (i + t * sp.step) = L t)
    (hj : ∃ k, j.getD k false = true) :
    ((∀ k, j.getD k false = true → ∃ t < T, ∃ s ∈ L t, s.sliceIdx = k ∧
        v.getD s.site.flat.toNat false = true) →
      ∃ v', fillLoop B sp fuel i (v, j) = .ok v' ∧ v'.length = v.length ∧
        ∀ x, v'.getD x false = true ↔ v.getD x false = true ∨
          ∃ t < T, ∃ s ∈ L t, x = s.site.flat.toNat ∧ j.getD s.sliceIdx false = true ∧
            ∀ t' ≤ t, ∀ s' ∈ L t', s'.sliceIdx = s.sliceIdx →
              v.getD s'.site.flat.toNat false = false) ∧
    ((∃ k, j.getD k false = true ∧ ∀ t < T, ∀ s ∈ L t, s.sliceIdx = k →
        v.getD s.site.flat.toNat false = false) →
      fillLoop B sp fuel i (v, j) = .err .runtimeError) := by
  induction T generalizing L fuel i v j with
  | zero =>
    obtain ⟨fuel, rfl⟩ : ∃ f, fuel = f + 1 := ⟨fuel - 1, by omega⟩
    have hi : i = sp.stop B.d := by simpa using hstop
    constructor
    · intro h
      obtain ⟨k, hk⟩ := hj
      obtain ⟨t, ht, _⟩ := h k hk
      omega
    · intro _
      simp only [fillLoop, if_pos hi]
  | succ T ih =>
    obtain ⟨fuel, rfl⟩ : ∃ f, fuel = f + 1 := ⟨fuel - 1, by omega⟩
    have hi : i ≠ sp.stop B.d := by simpa using hgo 0 (by omega)
    obtain ⟨v1, j1, h1, h2, h3, h4, h5⟩ := fillLayer_spec (L 0) v j (hL.inside 0 (by omega))
      (hL.idx 0 (by omega)) (hL.nodup1 0 (by omega)) (hL.nodup2 0 (by omega))
    have hl0 : layer B sp (shapeSlice B sp) i = L 0 := by
      have := hlayer 0 (by omega)
      simpa using this
    have step : fillLoop B sp (fuel + 1) i (v, j) =
        if j1.any id then fillLoop B sp fuel (i + sp.step) (v1, j1) else .ok v1 := by
      simp only [fillLoop, if_neg hi]
      rw [hl0, h1, Res.bind_ok]
    rw [step]
    -- sites of later layers are not touched by the first one
    have hsame : ∀ t < T, ∀ s ∈ L (t + 1),
        v1.getD s.site.flat.toNat false = v.getD s.site.flat.toNat false := by
      intro t ht s hs
      rw [Bool.eq_iff_iff, h4]
      constructor
      · rintro (h | ⟨s', hs', _, e⟩)
        · exact h
        · have := hL.apart (t + 1) (by omega) 0 (by omega) s hs s' hs' e
          omega
      · exact Or.inl
    by_cases hany : j1.any id = true
    · rw [if_pos hany]
      have hL' : Layers v1.length j1.length T fun t => L (t + 1) := by
        rw [h2, h3]
        exact hL.tail
      have hcalc : ∀ t : Nat, i + sp.step + t * sp.step = i + ((t + 1 : Nat) : Int) * sp.step := by
        intro t
        push_cast
        ring
      obtain ⟨r1, r2⟩ := ih (fun t => L (t + 1)) fuel (i + sp.step) v1 j1 (by omega) hL'
        (by rw [hcalc]; exact hstop) (fun t ht => by rw [hcalc]; exact hgo (t + 1) (by omega))
        (fun t ht => by rw [hcalc]; exact hlayer (t + 1) (by omega)) ((any_id_iff j1).mp hany)
      constructor
      · intro hall
        obtain ⟨v', e1, e2, e3⟩ := r1 (by
          intro k hk
          obtain ⟨hk0, hk1⟩ := (h5 k).mp hk
          obtain ⟨t, ht, s, hs, hsk, hv⟩ := hall k hk0
          cases t with
          | zero =>
            have := hk1 s hs hsk
            rw [hv] at this
            exact absurd this (by simp)
          | succ t => exact ⟨t, by omega, s, hs, hsk, by rw [hsame t (by omega) s hs]; exact hv⟩)
        refine ⟨v', e1, by rw [e2, h2], ?_⟩
        intro x
        rw [e3 x, h4 x]
        constructor
        · rintro ((h | ⟨s, hs, hsj, hx⟩) | ⟨t, ht, s, hs, hx, hsj, hcol⟩)
          · exact Or.inl h
          · by_cases hv : v.getD x false = true
            · exact Or.inl hv
            · right
              refine ⟨0, by omega, s, hs, hx, hsj, ?_⟩
              intro t' ht' s' hs' e
              obtain rfl : t' = 0 := by omega
              have : s' = s := List.inj_on_of_nodup_map (hL.nodup1 0 (by omega)) hs' hs e
              subst this
              rw [← hx]
              simpa using hv
          · right
            obtain ⟨g1, g2⟩ := (h5 _).mp hsj
            refine ⟨t + 1, by omega, s, hs, hx, g1, ?_⟩
            intro t' ht' s' hs' e
            cases t' with
            | zero => exact g2 s' hs' e
            | succ t' =>
              rw [← hsame t' (by omega) s' hs']
              exact hcol t' (by omega) s' hs' e
        · rintro (h | ⟨t, ht, s, hs, hx, hsj, hcol⟩)
          · exact Or.inl (Or.inl h)
          · cases t with
            | zero => exact Or.inl (Or.inr ⟨s, hs, hsj, hx⟩)
            | succ t =>
              right
              refine ⟨t, by omega, s, hs, hx, (h5 _).mpr ⟨hsj, fun s' hs' e => hcol 0 (by omega) s' hs' e⟩,
                ?_⟩
              intro t' ht' s' hs' e
              rw [hsame t' (by omega) s' hs']
              exact hcol (t' + 1) (by omega) s' hs' e
      · rintro ⟨k, hk, hnone⟩
        apply r2
        refine ⟨k, (h5 k).mpr ⟨hk, fun s hs e => hnone 0 (by omega) s hs e⟩, ?_⟩
        intro t ht s hs e
        rw [hsame t ht s hs]
        exact hnone (t + 1) (by omega) s hs e
    · rw [if_neg hany]
      have hnone : ∀ k, j1.getD k false = false := by
        intro k
        by_contra h
        exact hany ((any_id_iff j1).mpr ⟨k, by simpa using h⟩)
      constructor
      · intro _
        refine ⟨v1, rfl, h2, ?_⟩
        intro x
        rw [h4 x]
        constructor
        · rintro (h | ⟨s, hs, hsj, hx⟩)
          · exact Or.inl h
          · by_cases hv : v.getD x false = true
            · exact Or.inl hv
            · right
              refine ⟨0, by omega, s, hs, hx, hsj, ?_⟩
              intro t' ht' s' hs' e
              obtain rfl : t' = 0 := by omega
              have : s' = s := List.inj_on_of_nodup_map (hL.nodup1 0 (by omega)) hs' hs e
              subst this
              rw [← hx]
              simpa using hv
        · rintro (h | ⟨t, ht, s, hs, hx, hsj, hcol⟩)
          · exact Or.inl h
          · cases t with
            | zero => exact Or.inr ⟨s, hs, hsj, hx⟩
            | succ t =>
              have h' := (h5 s.sliceIdx).mpr ⟨hsj, fun s' hs' e => hcol 0 (by omega) s' hs' e⟩
              rw [hnone] at h'
              exact absurd h' (by simp)
      · rintro ⟨k, hk, hno⟩
        have h' := (h5 k).mpr ⟨hk, fun s hs e => hno 0 (by omega) s hs e⟩
        rw [hnone] at h'
        exact absurd h' (by simp)

/-- The search for the first layer with a valid site. -/
theorem seek_spec (B : Base P) (sp : Spec P) (valid : List Bool) (r : Slice3) (T : Nat)
    (L : Nat → List SliceSite) (fuel : Nat) (i : Int) (hfuel : T < fuel)
    (hin : ∀ t < T, Inside valid.length (L t))
    (hstop : i + T * sp.step = sp.stop B.d) (hgo : ∀ t < T, i + t * sp.step ≠ sp.stop B.d)
    (hlayer : ∀ t < T, layer B sp r (i + t * sp.step) = L t) :
    (seek B sp valid r fuel i = .ok none ∧
      ∀ t < T, ∀ s ∈ L t, valid.getD s.site.flat.toNat false = false) ∨
    ∃ t < T, seek B sp valid r fuel i = .ok (some (i + t * sp.step)) ∧
      (∃ s ∈ L t, valid.getD s.site.flat.toNat false = true) ∧
      ∀ t' < t, ∀ s ∈ L t', valid.getD s.site.flat.toNat false = false := by
  induction T generalizing L fuel i with
  | zero =>
    obtain ⟨fuel, rfl⟩ : ∃ f, fuel = f + 1 := ⟨fuel - 1, by omega⟩
    have hi : i = sp.stop B.d := by simpa using hstop
    left
    exact ⟨by simp only [seek, if_pos hi], by omega⟩
  | succ T ih =>
    obtain ⟨fuel, rfl⟩ : ∃ f, fuel = f + 1 := ⟨fuel - 1, by omega⟩
    have hi : i ≠ sp.stop B.d := by simpa using hgo 0 (by omega)
    have hl0 : layer B sp r i = L 0 := by
      have := hlayer 0 (by omega)
      simpa using this
    have step : seek B sp valid r (fuel + 1) i =
        if (L 0).any (fun s => valid.getD s.site.flat.toNat false) then .ok (some i)
        else seek B sp valid r fuel (i + sp.step) := by
      simp only [seek, if_neg hi]
      rw [hl0, anyValid_spec valid _ (hin 0 (by omega)), Res.bind_ok]
    rw [step]
    by_cases hany : (L 0).any (fun s => valid.getD s.site.flat.toNat false) = true
    · rw [if_pos hany]
      right
      refine ⟨0, by omega, by simp, ?_, by omega⟩
      obtain ⟨s, hs, hv⟩ := List.any_eq_true.mp hany
      exact ⟨s, hs, hv⟩
    · rw [if_neg hany]
      have h0 : ∀ s ∈ L 0, valid.getD s.site.flat.toNat false = false := by
        intro s hs
        by_contra h
        exact hany (List.any_eq_true.mpr ⟨s, hs, by simpa using h⟩)
      have hcalc : ∀ t : Nat, i + sp.step + t * sp.step = i + ((t + 1 : Nat) : Int) * sp.step := by
        intro t
        push_cast
        ring
      rcases ih (fun t => L (t + 1)) fuel (i + sp.step) (by omega)
        (fun t ht => hin (t + 1) (by omega)) (by rw [hcalc]; exact hstop)
        (fun t ht => by rw [hcalc]; exact hgo (t + 1) (by omega))
        (fun t ht => by rw [hcalc]; exact hlayer (t + 1) (by omega)) with ⟨h1, h2⟩ | ⟨t, ht, h1, h2, h3⟩
      · left
        refine ⟨h1, ?_⟩
        intro t ht s hs
        cases t with
        | zero => exact h0 s hs
        | succ t => exact h2 t (by omega) s hs
      · right
        refine ⟨t + 1, by omega, ?_, h2, ?_⟩
        · rw [h1, hcalc]
        · intro t' ht' s hs
          cases t' with
          | zero => exact h0 s hs
          | succ t' => exact h3 t' (by omega) s hs

end Verif.Leads
