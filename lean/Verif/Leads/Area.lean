import Verif.Leads.Columns

/-!
# Lemmas: the attachment area
-/

namespace Verif.Leads

open Verif.Foundation

variable {P : Type}

/-- The number of the layer at index `i`, counted from outside. -/
def ord (B : Base P) (sp : Spec P) (i : Int) : Nat :=
  if sp.step > 0 then i.toNat else ((extentOf B.d sp.axis.toNat : Int) - 1 - i).toNat

theorem Directed.axis_lt {sp : Spec P} (hd : Directed sp) : sp.axis.toNat < 3 := by
  have := hd.2.1
  have := hd.1
  omega

theorem step_cases {sp : Spec P} (hd : Directed sp) : sp.step = 1 ∧ sp.sign = -1 ∨ sp.step = -1 ∧ sp.sign = 1 := by
  unfold Spec.step
  rcases hd.2.2 with h | h <;> rw [h] <;> simp

theorem ord_spec (B : Base P) (sp : Spec P) (hd : Directed sp) (i : Int) (h0 : 0 ≤ i)
    (hi : i < extentOf B.d sp.axis.toNat) :
    ord B sp i < extentOf B.d sp.axis.toNat ∧ sp.start B.d + ord B sp i * sp.step = i := by
  unfold ord Spec.start
  rcases step_cases hd with ⟨h, _⟩ | ⟨h, _⟩
  · rw [h]
    simp only [show (1 : Int) > 0 by omega, if_true]
    omega
  · rw [h]
    simp only [show ¬ (-1 : Int) > 0 by omega, if_false]
    omega

theorem index_spec (B : Base P) (sp : Spec P) (hd : Directed sp) (t : Nat)
    (ht : t < extentOf B.d sp.axis.toNat) :
    0 ≤ sp.start B.d + t * sp.step ∧ sp.start B.d + t * sp.step < extentOf B.d sp.axis.toNat ∧
      ord B sp (sp.start B.d + t * sp.step) = t ∧ sp.start B.d + t * sp.step ≠ sp.stop B.d := by
  unfold ord Spec.start Spec.stop
  rcases step_cases hd with ⟨h, _⟩ | ⟨h, _⟩
  · rw [h]
    simp only [show (1 : Int) > 0 by omega, if_true]
    omega
  · rw [h]
    simp only [show ¬ (-1 : Int) > 0 by omega, if_false]
    omega

theorem stop_spec (B : Base P) (sp : Spec P) (hd : Directed sp) :
    sp.start B.d + (extentOf B.d sp.axis.toNat : Nat) * sp.step = sp.stop B.d := by
  unfold Spec.start Spec.stop
  rcases step_cases hd with ⟨h, _⟩ | ⟨h, _⟩
  · rw [h]
    simp only [show (1 : Int) > 0 by omega, if_true]
    omega
  · rw [h]
    simp only [show ¬ (-1 : Int) > 0 by omega, if_false]
    omega

theorem outer_iff (B : Base P) (sp : Spec P) (hd : Directed sp) (i j : Int) (hi0 : 0 ≤ i)
    (hi : i < extentOf B.d sp.axis.toNat) (hj0 : 0 ≤ j) (hj : j < extentOf B.d sp.axis.toNat) :
    Outer sp i j ↔ ord B sp i ≤ ord B sp j := by
  unfold Outer ord
  rcases step_cases hd with ⟨h, h'⟩ | ⟨h, h'⟩
  · rw [h, h']
    simp only [show (1 : Int) > 0 by omega, if_true]
    omega
  · rw [h, h']
    simp only [show ¬ (-1 : Int) > 0 by omega, if_false]
    omega

theorem isOn_iff (d : Dims) (v : List Bool) (l : Loc) :
    IsOn d v l ↔ v.getD (flatIdx d l).toNat false = true := by
  unfold IsOn
  rw [List.getD_eq_getElem?_getD]
  cases h : v[(flatIdx d l).toNat]? with
  | none => simp
  | some b => simp

/-- Everything known about the layers of a lead. -/
structure Cols (B : Base P) (sp : Spec P) (N : Nat) (base : Nat → Loc) : Prop where
  layer : ∀ i : Int, 0 ≤ i → layer B sp (shapeSlice B sp) i = (List.range N).map fun k : Nat =>
    ⟨Site.at B.d (along (base k) sp.axis.toNat i).idx (along (base k) sp.axis.toNat i).sub, k⟩
  sect : ∀ k < N, InSection B sp (base k) ∧ comp (base k).idx sp.axis.toNat = 0
  inj : ∀ k < N, ∀ k' < N, base k = base k' → k = k'
  surj : ∀ l, InSection B sp l → ∃ k < N, along (base k) sp.axis.toNat (comp l.idx sp.axis.toNat) = l
  mono : ∀ k k', k ≤ k' → (base k).sub ≤ (base k').sub

theorem cols_exist (B : Base P) (sp : Spec P) (hd : Directed sp) (hm : Meets B sp) :
    ∃ N base, Cols B sp N base := by
  obtain ⟨N, base, h1, h2, h3, h4, h5⟩ := layer_columns B sp hd hm
  exact ⟨N, base, h1, h2, h3, h4, h5⟩

variable {B : Base P} {sp : Spec P} {N : Nat} {base : Nat → Loc}

theorem Cols.mem (h : Cols B sp N base) (i : Int) (h0 : 0 ≤ i) (s : SliceSite) :
    s ∈ Leads.layer B sp (shapeSlice B sp) i ↔ ∃ k < N, s.sliceIdx = k ∧
      s.site.loc = along (base k) sp.axis.toNat i ∧
      s.site.flat = flatIdx B.d (along (base k) sp.axis.toNat i) := by
  rw [h.layer i h0, List.mem_map]
  constructor
  · rintro ⟨k, hk, rfl⟩
    exact ⟨k, List.mem_range.mp hk, rfl, rfl, rfl⟩
  · rintro ⟨k, hk, h1, h2, h3⟩
    refine ⟨k, List.mem_range.mpr hk, ?_⟩
    obtain ⟨⟨loc, fl⟩, idx⟩ := s
    simp only at h1 h2 h3
    subst h1 h2 h3
    rfl

theorem Cols.inside (h : Cols B sp N base) (hd : Directed sp) (i : Int) (h0 : 0 ≤ i)
    (hi : i < extentOf B.d sp.axis.toNat) :
    Inside (size B.d B.cell.length) (Leads.layer B sp (shapeSlice B sp) i) := by
  intro s hs
  obtain ⟨k, hk, -, -, e⟩ := (h.mem i h0 s).mp hs
  have hin := ((h.sect k hk).1.along hd.axis_lt h0 hi).1
  rw [inBase_iff] at hin
  obtain ⟨m, hm, hf, -⟩ := hin.flat
  rw [e, hf]
  simp only [Int.toNat_natCast]
  omega

/-- The layers in the order in which they are visited, starting from the `t0`-th. -/
theorem Cols.layers (h : Cols B sp N base) (hd : Directed sp) (t0 T : Nat)
    (hT : t0 + T ≤ extentOf B.d sp.axis.toNat) :
    Layers (size B.d B.cell.length) N T fun t =>
      Leads.layer B sp (shapeSlice B sp) (sp.start B.d + ((t0 + t : Nat) : Int) * sp.step) := by
  have hidx : ∀ t < T, _ := fun t ht => index_spec B sp hd (t0 + t) (by omega)
  refine ⟨?_, ?_, ?_, ?_, ?_⟩
  · intro t ht
    exact h.inside hd _ (hidx t ht).1 (hidx t ht).2.1
  · intro t ht s hs
    obtain ⟨k, hk, e, -⟩ := (h.mem _ (hidx t ht).1 s).mp hs
    omega
  · intro t ht
    rw [h.layer _ (hidx t ht).1, List.map_map]
    simp only [Function.comp_def, List.map_id']
    exact List.nodup_range
  · intro t ht
    rw [h.layer _ (hidx t ht).1, List.map_map]
    refine List.Nodup.map_on ?_ List.nodup_range
    intro k hk k' hk' e
    have hk := List.mem_range.mp hk
    have hk' := List.mem_range.mp hk'
    simp only [Function.comp_def, Site.at] at e
    have a1 := ((h.sect k hk).1.along hd.axis_lt (hidx t ht).1 (hidx t ht).2.1).1
    have a2 := ((h.sect k' hk').1.along hd.axis_lt (hidx t ht).1 (hidx t ht).2.1).1
    rw [inBase_iff] at a1 a2
    obtain ⟨m1, -, f1, -⟩ := a1.flat
    obtain ⟨m2, -, f2, -⟩ := a2.flat
    have e' : flatIdx B.d (along (base k) sp.axis.toNat (sp.start B.d + ((t0 + t : Nat) : Int) * sp.step)) =
        flatIdx B.d (along (base k') sp.axis.toNat (sp.start B.d + ((t0 + t : Nat) : Int) * sp.step)) := by
      change (flatIdx B.d (along (base k) _ _)).toNat = (flatIdx B.d (along (base k') _ _)).toNat at e
      rw [f1, f2] at e ⊢
      simpa using e
    have e2 := flatIdx_inj a1 a2 e'
    apply h.inj k hk k' hk'
    have e3 := congrArg (fun l => along l sp.axis.toNat 0) e2
    simp only [along_along _ _ _ _ hd.axis_lt] at e3
    rw [← along_self (base k) _ hd.axis_lt, ← along_self (base k') _ hd.axis_lt, (h.sect k hk).2,
      (h.sect k' hk').2]
    exact e3
  · intro t ht t' ht' s hs s' hs' e
    obtain ⟨k, hk, -, -, f1⟩ := (h.mem _ (hidx t ht).1 s).mp hs
    obtain ⟨k', hk', -, -, f2⟩ := (h.mem _ (hidx t' ht').1 s').mp hs'
    have a1 := ((h.sect k hk).1.along hd.axis_lt (hidx t ht).1 (hidx t ht).2.1).1
    have a2 := ((h.sect k' hk').1.along hd.axis_lt (hidx t' ht').1 (hidx t' ht').2.1).1
    rw [inBase_iff] at a1 a2
    obtain ⟨m1, -, g1, -⟩ := a1.flat
    obtain ⟨m2, -, g2, -⟩ := a2.flat
    rw [f1, f2] at e
    have e' : flatIdx B.d (along (base k) sp.axis.toNat (sp.start B.d + ((t0 + t : Nat) : Int) * sp.step)) =
        flatIdx B.d (along (base k') sp.axis.toNat (sp.start B.d + ((t0 + t' : Nat) : Int) * sp.step)) := by
      rw [g1, g2] at e ⊢
      simpa using e
    have e2 := flatIdx_inj a1 a2 e'
    have e3 := congrArg (fun l => comp l.idx sp.axis.toNat) e2
    simp only [along, comp_setComp_self] at e3
    have o1 := (hidx t ht).2.2.1
    have o2 := (hidx t' ht').2.2.1
    rw [e3] at o1
    omega

theorem middle_range (hd : Directed sp) (hm : Meets B sp) :
    0 ≤ middle B sp ∧ middle B sp < extentOf B.d sp.axis.toNat := by
  obtain ⟨i, h1, h2, h3, h4⟩ := hm sp.axis.toNat hd.axis_lt
  unfold middle
  omega

theorem middleSlice_eq (hd : Directed sp) (hm : Meets B sp) :
    sliceSites B.d B.cell.length (middleSlice B sp) = Leads.layer B sp (shapeSlice B sp) (middle B sp) := by
  have e : ∀ c < 3, Slice3.get (shapeSlice B sp) c =
      ⟨max (comp sp.lower c - comp B.low c) 0, min (comp sp.upper c + 1 - comp B.low c) (extentOf B.d c)⟩ := by
    intro c hc
    obtain rfl | rfl | rfl : c = 0 ∨ c = 1 ∨ c = 2 := by omega
    all_goals rfl
  unfold middleSlice Leads.layer
  simp only
  rw [e _ hd.axis_lt]
  have hm' := hm sp.axis.toNat hd.axis_lt
  obtain ⟨i, h1, h2, h3, h4⟩ := hm'
  have : (max (comp sp.lower sp.axis.toNat - comp B.low sp.axis.toNat) 0 +
      min (comp sp.upper sp.axis.toNat + 1 - comp B.low sp.axis.toNat)
        (extentOf B.d sp.axis.toNat : Int)).tdiv 2 = middle B sp := by
    unfold middle
    rw [Int.tdiv_eq_ediv_of_nonneg (by omega)]
  rw [this]

/-- A column of the lead. -/
theorem inLead_along (hd : Directed sp) {l : Loc} {i j : Int} (hi0 : 0 ≤ i)
    (hi : i < extentOf B.d sp.axis.toNat)
    (h : InLead B sp (along l sp.axis.toNat j)) : InLead B sp (along l sp.axis.toNat i) := by
  obtain ⟨h1, p, h2, h3⟩ := h
  have h4 := h1.along hd.axis_lt hi0 hi
  rw [along_along _ _ _ _ hd.axis_lt] at h2 h4
  exact ⟨h4, p, by rw [along_along _ _ _ _ hd.axis_lt]; exact h2, h3⟩

theorem InLead.along (hd : Directed sp) {l : Loc} {i : Int} (hi0 : 0 ≤ i)
    (hi : i < extentOf B.d sp.axis.toNat) (h : InLead B sp l) :
    InLead B sp (Leads.along l sp.axis.toNat i) :=
  inLead_along hd (j := comp l.idx sp.axis.toNat) hi0 hi (by rw [along_self _ _ hd.axis_lt]; exact h)

/-- The junction of a lead. -/
theorem junction_spec (h : Cols B sp N base) (hd : Directed sp) (hm : Meets B sp) (valid : List Bool)
    (hs : Sized B valid) :
    ((∀ l, InSection B sp l → ¬ IsOn B.d valid l) ∧ junction B sp valid = .err .runtimeError) ∨
    ((∃ l, InSection B sp l ∧ IsOn B.d valid l) ∧ (∀ l, ¬ InLead B sp l) ∧
      junction B sp valid = .err .runtimeError) ∨
    ∃ t0 < extentOf B.d sp.axis.toNat, ∃ jv : List Bool,
      junction B sp valid = .ok ⟨sp.start B.d + t0 * sp.step, jv⟩ ∧ jv.length = N ∧
      (∃ l, InLead B sp l) ∧
      (∀ k < N, (jv.getD k false = true ↔ InLead B sp (base k))) ∧
      (∃ l, InSection B sp l ∧ IsOn B.d valid l ∧ ord B sp (comp l.idx sp.axis.toNat) = t0) ∧
      (∀ l, InSection B sp l → IsOn B.d valid l → t0 ≤ ord B sp (comp l.idx sp.axis.toNat)) := by
  have hL := h.layers hd 0 (extentOf B.d sp.axis.toNat) (by omega)
  simp only [Nat.zero_add] at hL
  have hsite : ∀ l, InSection B sp l → IsOn B.d valid l →
      ∃ s ∈ Leads.layer B sp (shapeSlice B sp)
        (sp.start B.d + (ord B sp (comp l.idx sp.axis.toNat) : Int) * sp.step),
        valid.getD s.site.flat.toNat false = true := by
    intro l hl hv
    have hin := hl.1.1 sp.axis.toNat hd.axis_lt
    obtain ⟨k, hk, e⟩ := h.surj l hl
    have ho := ord_spec B sp hd _ hin.1 hin.2
    rw [ho.2]
    refine ⟨⟨Site.at B.d l.idx l.sub, k⟩, (h.mem _ hin.1 _).mpr ⟨k, hk, rfl, ?_, ?_⟩, ?_⟩
    · rw [e]; rfl
    · rw [e]; rfl
    · exact (isOn_iff B.d valid l).mp hv
  have hback : ∀ t < extentOf B.d sp.axis.toNat, ∀ s ∈ Leads.layer B sp (shapeSlice B sp)
      (sp.start B.d + (t : Int) * sp.step), InSection B sp s.site.loc ∧
        s.site.flat = flatIdx B.d s.site.loc ∧ ord B sp (comp s.site.loc.idx sp.axis.toNat) = t := by
    intro t ht s hs'
    have hx := index_spec B sp hd t ht
    obtain ⟨k, hk, -, e1, e2⟩ := (h.mem _ hx.1 s).mp hs'
    rw [e1, e2]
    refine ⟨(h.sect k hk).1.along hd.axis_lt hx.1 hx.2.1, rfl, ?_⟩
    simp only [along, comp_setComp_self]
    exact hx.2.2.1
  rcases seek_spec B sp valid (shapeSlice B sp) (extentOf B.d sp.axis.toNat) _
    (extentOf B.d sp.axis.toNat + 1) (sp.start B.d) (by omega)
    (fun t ht => by rw [hs.1]; exact hL.inside t ht) (stop_spec B sp hd)
    (fun t ht => (index_spec B sp hd t ht).2.2.2) (fun t ht => rfl) with ⟨h1, h2⟩ | ⟨t0, ht0, h1, h2, h3⟩
  · left
    constructor
    · intro l hl hv
      obtain ⟨s, hs', hv'⟩ := hsite l hl hv
      have hin := hl.1.1 sp.axis.toNat hd.axis_lt
      have := h2 _ (ord_spec B sp hd _ hin.1 hin.2).1 s hs'
      rw [hv'] at this
      exact absurd this (by simp)
    · unfold junction attachmentSlice
      rw [h1]
      rfl
  · right
    have hsome : ∃ l, InSection B sp l ∧ IsOn B.d valid l ∧ ord B sp (comp l.idx sp.axis.toNat) = t0 := by
      obtain ⟨s, hs', hv⟩ := h2
      obtain ⟨b1, b2, b3⟩ := hback t0 ht0 s hs'
      refine ⟨s.site.loc, b1, ?_, b3⟩
      rw [isOn_iff, ← b2]
      exact hv
    have hmid := middle_range hd hm
    obtain ⟨ps, p1, p2, p3⟩ := slicePositions_spec B.pos
      (Leads.layer B sp (shapeSlice B sp) (middle B sp))
      (by rw [hs.2]; exact h.inside hd _ hmid.1 hmid.2)
    have hlen : ps.length = N := by
      rw [p2, h.layer _ hmid.1]
      simp
    have hk : ∀ k < N, ps[k]? = B.pos[(flatIdx B.d (along (base k) sp.axis.toNat (middle B sp))).toNat]? := by
      intro k hk
      have := p3 k ⟨Site.at B.d (along (base k) sp.axis.toNat (middle B sp)).idx
        (along (base k) sp.axis.toNat (middle B sp)).sub, k⟩
        (by rw [h.layer _ hmid.1, List.getElem?_map, List.getElem?_range hk]; rfl)
      rw [this]
      rfl
    have hjv : ∀ k < N, ((ps.map sp.contains).getD k false = true ↔ InLead B sp (base k)) := by
      intro k hkN
      rw [List.getD_eq_getElem?_getD, List.getElem?_map]
      have hkl : k < ps.length := by omega
      constructor
      · intro hc
        rw [List.getElem?_eq_getElem hkl] at hc
        refine ⟨(h.sect k hkN).1, ps[k], ?_, by simpa using hc⟩
        rw [← hk k hkN, List.getElem?_eq_getElem hkl]
      · rintro ⟨-, p, hp, hc⟩
        rw [hk k hkN, hp]
        simpa using hc
    have hj : junction B sp valid = if (ps.map sp.contains).any id then
        .ok ⟨sp.start B.d + t0 * sp.step, ps.map sp.contains⟩ else .err .runtimeError := by
      unfold junction attachmentSlice
      rw [h1, Res.bind_ok, Res.bind_ok, middleSlice_eq hd hm, p1, Res.bind_ok]
    by_cases hany : (ps.map sp.contains).any id = true
    · right
      refine ⟨t0, ht0, ps.map sp.contains, ?_, by simpa using hlen, ?_, hjv, hsome, ?_⟩
      · rw [hj, if_pos hany]
      · obtain ⟨k, hkk⟩ := (any_id_iff _).mp hany
        have hkN : k < N := by
          by_contra hge
          rw [List.getD_eq_default _ _ (by simp; omega)] at hkk
          exact absurd hkk (by simp)
        exact ⟨base k, (hjv k hkN).mp hkk⟩
      · intro l hl hv
        by_contra hlt
        obtain ⟨s, hs', hv'⟩ := hsite l hl hv
        have := h3 _ (by omega) s hs'
        rw [hv'] at this
        exact absurd this (by simp)
    · left
      obtain ⟨l, hl1, hl2, -⟩ := hsome
      refine ⟨⟨l, hl1, hl2⟩, ?_, by rw [hj, if_neg hany]⟩
      intro l hl
      obtain ⟨k, hkN, e⟩ := h.surj l hl.1
      apply hany
      rw [any_id_iff]
      refine ⟨k, (hjv k hkN).mpr ?_⟩
      have hpos := middle_range hd hm
      have := hl.along hd (i := 0) le_rfl (by omega)
      rw [← e, along_along _ _ _ _ hd.axis_lt] at this
      rwa [← (h.sect k hkN).2, along_self _ _ hd.axis_lt] at this

/-- The attachment area of a lead. -/
theorem area_spec (hd : Directed sp) (hm : Meets B sp) (valid : List Bool) (hs : Sized B valid) :
    ((∀ l, InSection B sp l → ¬ IsOn B.d valid l) → createArea B sp valid = .err .runtimeError) ∧
    ((∀ l, ¬ InLead B sp l) → createArea B sp valid = .err .runtimeError) ∧
    ((∃ l, InLead B sp l ∧ ∀ i : Int, 0 ≤ i → i < extentOf B.d sp.axis.toNat →
        ¬ IsOn B.d valid (along l sp.axis.toNat i)) → createArea B sp valid = .err .runtimeError) ∧
    ((∃ l, InLead B sp l) →
      (∀ l, InLead B sp l → ∃ i : Int, 0 ≤ i ∧ i < extentOf B.d sp.axis.toNat ∧
        IsOn B.d valid (along l sp.axis.toNat i)) →
      ∃ v', createArea B sp valid = .ok v' ∧ v'.length = valid.length ∧
        ∀ l, InBase B l → (IsOn B.d v' l ↔ IsOn B.d valid l ∨
          (InLead B sp l ∧
            (∃ m, InSection B sp m ∧ IsOn B.d valid m ∧
              Outer sp (comp m.idx sp.axis.toNat) (comp l.idx sp.axis.toNat)) ∧
            ∀ i : Int, 0 ≤ i → i < extentOf B.d sp.axis.toNat → Outer sp i (comp l.idx sp.axis.toNat) →
              ¬ IsOn B.d valid (along l sp.axis.toNat i)))) := by
  obtain ⟨N, base, h⟩ := cols_exist B sp hd hm
  have ha := hd.axis_lt
  have hmid := middle_range hd hm
  have hjerr : junction B sp valid = .err .runtimeError → createArea B sp valid = .err .runtimeError := by
    intro e
    unfold createArea
    rw [e]
    rfl
  rcases junction_spec h hd hm valid hs with ⟨hnone, he⟩ | ⟨hsome, hnone, he⟩ |
    ⟨t0, ht0, jv, he, hlen, hlead, hjv, ⟨m0, hm1, hm2, hm3⟩, hmin⟩
  · refine ⟨fun _ => hjerr he, fun _ => hjerr he, fun _ => hjerr he, ?_⟩
    rintro ⟨l, hl⟩ hall
    obtain ⟨i, h0, hi, hv⟩ := hall l hl
    exact absurd hv (hnone _ (hl.1.along ha h0 hi))
  · refine ⟨fun _ => hjerr he, fun _ => hjerr he, fun _ => hjerr he, ?_⟩
    rintro ⟨l, hl⟩
    exact absurd hl (hnone l)
  · refine ⟨fun hn => absurd hm2 (hn m0 hm1), fun hn => absurd hlead.choose_spec (hn _), ?_, ?_⟩
    all_goals
      have hL := h.layers hd t0 (extentOf B.d sp.axis.toNat - t0) (by omega)
      rw [← hs.1] at hL
      rw [← hlen] at hL
      have hcast : ∀ t : Nat, sp.start B.d + t0 * sp.step + (t : Int) * sp.step =
          sp.start B.d + ((t0 + t : Nat) : Int) * sp.step := by
        intro t
        push_cast
        ring
      have hidx : ∀ t < extentOf B.d sp.axis.toNat - t0, _ := fun t ht =>
        index_spec B sp hd (t0 + t) (by omega)
      have hkN : ∀ k, jv.getD k false = true → k < N := by
        intro k hkk
        by_contra hge
        rw [List.getD_eq_default _ _ (by omega)] at hkk
        exact absurd hkk (by simp)
      -- a column of the lead by its number
      have hcol : ∀ l, InLead B sp l → ∃ k < N, jv.getD k false = true ∧
          ∀ i, along (base k) sp.axis.toNat i = along l sp.axis.toNat i := by
        intro l hl
        obtain ⟨k, hk, e⟩ := h.surj l hl.1
        have e' : ∀ i, along (base k) sp.axis.toNat i = along l sp.axis.toNat i := by
          intro i
          rw [← e, along_along _ _ _ _ ha]
        refine ⟨k, hk, (hjv k hk).mpr ?_, e'⟩
        have := hl.along hd (i := 0) le_rfl (by omega)
        rwa [← e', ← (h.sect k hk).2, along_self _ _ ha] at this
      obtain ⟨r1, r2⟩ := fillLoop_spec B sp (extentOf B.d sp.axis.toNat - t0) _
        (extentOf B.d sp.axis.toNat + 1) (sp.start B.d + t0 * sp.step) valid jv (by omega) hL
        (by
          rw [hcast, show t0 + (extentOf B.d sp.axis.toNat - t0) = extentOf B.d sp.axis.toNat by omega]
          exact stop_spec B sp hd)
        (fun t ht => by rw [hcast]; exact (hidx t ht).2.2.2) (fun t ht => by rw [hcast])
        (by
          obtain ⟨l, hl⟩ := hlead
          obtain ⟨k, -, hk, -⟩ := hcol l hl
          exact ⟨k, hk⟩)
      have hca : createArea B sp valid = fillLoop B sp (extentOf B.d sp.axis.toNat + 1)
          (sp.start B.d + t0 * sp.step) (valid, jv) := by
        unfold createArea
        rw [he, Res.bind_ok]
    · rintro ⟨l, hl, hempty⟩
      rw [hca]
      apply r2
      obtain ⟨k, hk, hk', e⟩ := hcol l hl
      refine ⟨k, hk', ?_⟩
      intro t ht s hs' hsk
      obtain ⟨k', hk'', e1, -, e3⟩ := (h.mem _ (hidx t ht).1 s).mp hs'
      obtain rfl : k' = k := by omega
      have := hempty _ (hidx t ht).1 (hidx t ht).2.1
      rw [← e, isOn_iff, ← e3] at this
      cases hb : valid.getD s.site.flat.toNat false
      · rfl
      · exact absurd hb this
    · intro _ hall
      obtain ⟨v', q1, q2, q3⟩ := r1 (by
        intro k hkk
        have hk := hkN k hkk
        have hl := (hjv k hk).mp hkk
        obtain ⟨i, hi0, hi, hv⟩ := hall _ hl
        have ho := ord_spec B sp hd i hi0 hi
        have hsec : InSection B sp (along (base k) sp.axis.toNat i) := hl.1.along ha hi0 hi
        have hge := hmin _ hsec hv
        simp only [along, comp_setComp_self] at hge
        refine ⟨ord B sp i - t0, by omega, ⟨Site.at B.d (along (base k) sp.axis.toNat i).idx
          (along (base k) sp.axis.toNat i).sub, k⟩, ?_, rfl, ?_⟩
        · rw [show t0 + (ord B sp i - t0) = ord B sp i by omega, ho.2]
          exact (h.mem _ hi0 _).mpr ⟨k, hk, rfl, rfl, rfl⟩
        · exact (isOn_iff _ _ _).mp hv)
      refine ⟨v', by rw [hca]; exact q1, q2, ?_⟩
      intro l hl
      have hlr := hl.1 sp.axis.toNat ha
      rw [isOn_iff, q3, ← isOn_iff]
      apply or_congr_right
      constructor
      · rintro ⟨t, ht, s, hs', hx, hsj, hcl⟩
        obtain ⟨k, hk, e1, e2, e3⟩ := (h.mem _ (hidx t ht).1 s).mp hs'
        have hlead' := (hjv k hk).mp (by rw [← e1]; exact hsj)
        -- the site is `l`
        have hal := (hlead'.1.along ha (hidx t ht).1 (hidx t ht).2.1).1
        have el : l = along (base k) sp.axis.toNat (sp.start B.d + ((t0 + t : Nat) : Int) * sp.step) := by
          rw [inBase_iff] at hl hal
          apply flatIdx_inj hl hal
          obtain ⟨m1, -, g1, -⟩ := hl.flat
          obtain ⟨m2, -, g2, -⟩ := hal.flat
          rw [e3] at hx
          rw [g1, g2] at hx ⊢
          simpa using hx
        have hlc : comp l.idx sp.axis.toNat = sp.start B.d + ((t0 + t : Nat) : Int) * sp.step := by
          rw [el]
          simp only [along, comp_setComp_self]
        have hlo : ord B sp (comp l.idx sp.axis.toNat) = t0 + t := by
          rw [hlc]
          exact (hidx t ht).2.2.1
        refine ⟨?_, ⟨m0, hm1, hm2, ?_⟩, ?_⟩
        · rw [el]
          exact hlead'.along hd (hidx t ht).1 (hidx t ht).2.1
        · have hr := hm1.1.1 sp.axis.toNat ha
          rw [outer_iff B sp hd _ _ hr.1 hr.2 hlr.1 hlr.2, hm3, hlo]
          omega
        · intro i hi0 hi hout hv
          rw [outer_iff B sp hd _ _ hi0 hi hlr.1 hlr.2, hlo] at hout
          have ea : along l sp.axis.toNat i = along (base k) sp.axis.toNat i := by
            rw [el, along_along _ _ _ _ ha]
          rw [ea] at hv
          have hge := hmin _ (hlead'.1.along ha hi0 hi) hv
          simp only [along, comp_setComp_self] at hge
          have hor := (ord_spec B sp hd i hi0 hi).2
          have := hcl (ord B sp i - t0) (by omega)
            ⟨Site.at B.d (along (base k) sp.axis.toNat i).idx (along (base k) sp.axis.toNat i).sub, k⟩
            (by
              rw [show t0 + (ord B sp i - t0) = ord B sp i by omega, hor]
              exact (h.mem _ hi0 _).mpr ⟨k, hk, rfl, rfl, rfl⟩) (by simpa using e1.symm)
          have hv' := (isOn_iff _ _ _).mp hv
          simp only [Site.at] at this
          change valid.getD (flatIdx B.d (along (base k) sp.axis.toNat i)).toNat false = false at this
          rw [hv'] at this
          exact absurd this (by simp)
      · rintro ⟨hl', ⟨m, hm4, hm5, hm6⟩, hclear⟩
        obtain ⟨k, hk, hkk, e⟩ := hcol l hl'
        have hr := hm4.1.1 sp.axis.toNat ha
        rw [outer_iff B sp hd _ _ hr.1 hr.2 hlr.1 hlr.2] at hm6
        have hge := hmin m hm4 hm5
        have hor := ord_spec B sp hd _ hlr.1 hlr.2
        refine ⟨ord B sp (comp l.idx sp.axis.toNat) - t0, by omega, ⟨Site.at B.d l.idx l.sub, k⟩, ?_, rfl,
          hkk, ?_⟩
        · rw [show t0 + (ord B sp (comp l.idx sp.axis.toNat) - t0) =
            ord B sp (comp l.idx sp.axis.toNat) by omega, hor.2]
          refine (h.mem _ hlr.1 _).mpr ⟨k, hk, rfl, ?_, ?_⟩ <;> rw [e, along_self _ _ ha] <;> rfl
        · intro t' ht' s' hs' es
          have hx := hidx t' (by omega)
          obtain ⟨k', hk', e1, -, e3⟩ := (h.mem _ hx.1 s').mp hs'
          obtain rfl : k' = k := by simp only at es; omega
          have := hclear _ hx.1 hx.2.1 (by
            rw [outer_iff B sp hd _ _ hx.1 hx.2.1 hlr.1 hlr.2, hx.2.2.1]
            omega)
          rw [← e, isOn_iff, ← e3] at this
          cases hb : valid.getD s'.site.flat.toNat false
          · rfl
          · exact absurd hb this

end Verif.Leads
