import Verif.Binding.Lifetime

/-!
# C76: matrices given to Python and the memory behind them
-/

namespace Verif.Binding.Lifetime

variable {P α : Type} {build : P → Res α}

/-- Does the object own matrix `b`? -/
def owns (b : Nat) (o : Obj P) : Bool := decide (o.ptr = some b)

/-- Counts are right, owned matrices exist and are those of the parameters, matrices do not change. -/
structure Inv (build : P → Res α) (w : World P α) : Prop where
  count : ∀ (b c : Nat) (a : α), w.heap[b]? = some (c, a) → c = w.objs.countP (owns b)
  owned : ∀ o ∈ w.objs, ∀ b, o.ptr = some b → ∃ c a, w.heap[b]? = some (c, a) ∧ build o.par = .ok a
  seen : ∀ v ∈ w.views, ∃ c, w.heap[v.block]? = some (c, v.seen)

theorem countP_put {objs : List (Obj P)} {i : Nat} {o : Obj P} (h : objs[i]? = some o) (o' : Obj P) (b : Nat) :
    (objs.set i o').countP (owns b) + (if o.ptr = some b then 1 else 0) = objs.countP (owns b) + (if o'.ptr = some b then 1 else 0) := by
  obtain ⟨hi, ho⟩ := List.getElem?_eq_some_iff.1 h
  have hpos : o.ptr = some b → 0 < objs.countP (owns b) := by
    intro hb
    exact List.countP_pos_iff.2 ⟨o, List.mem_of_getElem? h, by simp [owns, hb]⟩
  rw [List.countP_set hi, ho]
  simp only [owns, decide_eq_true_eq]
  by_cases hb : o.ptr = some b
  · have := hpos hb
    simp only [hb, if_true]
    omega
  · simp only [hb, if_false]
    omega

theorem getElem_inc (h : Heap α) (b b' : Nat) : (h.inc b)[b']? = (h[b']?).map fun p => if b = b' then (p.1 + 1, p.2) else p := by
  unfold Heap.inc
  rw [List.getElem?_modify]
  by_cases hb : b = b' <;> simp [hb]

theorem getElem_dec (h : Heap α) (b b' : Nat) : (h.dec b)[b']? = (h[b']?).map fun p => if b = b' then (p.1 - 1, p.2) else p := by
  unfold Heap.dec
  rw [List.getElem?_modify]
  by_cases hb : b = b' <;> simp [hb]

theorem getElem_release (h : Heap α) (q : Option Nat) (b : Nat) :
    (h.release q)[b]? = (h[b]?).map fun p => (p.1 - (if q = some b then 1 else 0), p.2) := by
  rcases q with _ | b'
  · simp [Heap.release]
  · simp only [Heap.release, getElem_dec, Option.some.injEq]
    rcases h[b]? with _ | p
    · rfl
    · by_cases hb : b' = b <;> simp [hb]

theorem getElem_acquire (h : Heap α) (q : Option Nat) (b : Nat) :
    (h.acquire q)[b]? = (h[b]?).map fun p => (p.1 + (if q = some b then 1 else 0), p.2) := by
  rcases q with _ | b'
  · simp [Heap.acquire]
  · simp only [Heap.acquire, getElem_inc, Option.some.injEq]
    rcases h[b]? with _ | p
    · rfl
    · by_cases hb : b' = b <;> simp [hb]

theorem Inv.init : Inv build (World.init : World P α) := ⟨by simp [World.init], by simp [World.init], by simp [World.init]⟩

/-- Object `i` gets the pointer `q'` in place of its own. -/
theorem Inv.change {w : World P α} (inv : Inv build w) {i : Nat} {o : Obj P} (ho : w.objs[i]? = some o) (o' : Obj P)
    (hq : ∀ b, o'.ptr = some b → ∃ c a, w.heap[b]? = some (c, a) ∧ build o'.par = .ok a) :
    Inv build (({ w with heap := (w.heap.acquire o'.ptr).release o.ptr } : World P α).put i o') := by
  refine ⟨?_, ?_, ?_⟩
  · intro b c a h
    simp only [World.put, getElem_release, getElem_acquire, Option.map_map] at h ⊢
    obtain ⟨⟨c0, a0⟩, h1, h2⟩ := Option.map_eq_some_iff.1 h
    simp only [Function.comp, Prod.mk.injEq] at h2
    have h3 := inv.count b c0 a0 h1
    have h4 := countP_put ho o' b
    omega
  · intro u hu b hb
    simp only [World.put, getElem_release, getElem_acquire, Option.map_map] at hu ⊢
    rcases List.mem_or_eq_of_mem_set hu with hu | rfl
    · obtain ⟨c, a, h1, h2⟩ := inv.owned u hu b hb
      exact ⟨_, a, by rw [h1]; rfl, h2⟩
    · obtain ⟨c, a, h1, h2⟩ := hq b hb
      exact ⟨_, a, by rw [h1]; rfl, h2⟩
  · intro v hv
    obtain ⟨c, hc⟩ := inv.seen v hv
    simp only [World.put, getElem_release, getElem_acquire, Option.map_map]
    exact ⟨_, by rw [hc]; rfl⟩

/-- A new object. -/
theorem Inv.add {w : World P α} (inv : Inv build w) (o : Obj P)
    (hq : ∀ b, o.ptr = some b → ∃ c a, w.heap[b]? = some (c, a) ∧ build o.par = .ok a) :
    Inv build { w with heap := w.heap.acquire o.ptr, objs := w.objs ++ [o] } := by
  refine ⟨?_, ?_, ?_⟩
  · intro b c a h
    simp only [getElem_acquire] at h ⊢
    obtain ⟨⟨c0, a0⟩, h1, h2⟩ := Option.map_eq_some_iff.1 h
    simp only [Prod.mk.injEq] at h2
    rw [List.countP_append, ← inv.count b c0 a0 h1]
    simp only [List.countP_cons, List.countP_nil, owns, decide_eq_true_eq]
    omega
  · intro u hu b hb
    simp only [getElem_acquire]
    rcases List.mem_append.1 hu with hu | hu
    · obtain ⟨c, a, h1, h2⟩ := inv.owned u hu b hb
      exact ⟨_, a, by rw [h1]; rfl, h2⟩
    · rw [List.mem_singleton.1 hu] at hb ⊢
      obtain ⟨c, a, h1, h2⟩ := hq b hb
      exact ⟨_, a, by rw [h1]; rfl, h2⟩
  · intro v hv
    obtain ⟨c, hc⟩ := inv.seen v hv
    simp only [getElem_acquire]
    exact ⟨_, by rw [hc]; rfl⟩

theorem usable_some {w : World P α} {i : Nat} {o : Obj P} (h : w.usable i = some o) : w.objs[i]? = some o := by
  unfold World.usable at h
  split at h
  · split at h
    · simp at h
    · rename_i h1 _
      rw [h1, ← h]
  · simp at h

theorem Inv.clear {w : World P α} (inv : Inv build w) {i : Nat} {o : Obj P} (ho : w.objs[i]? = some o) (f : P → P) :
    Inv build (w.clear i o f) :=
  inv.change ho { o with ptr := none, par := f o.par } (by simp)

theorem Inv.put {w : World P α} (inv : Inv build w) {i : Nat} {o : Obj P} (ho : w.objs[i]? = some o) (d : Bool) :
    Inv build (w.put i { o with dropped := d }) := by
  have hmem := List.mem_of_getElem? ho
  refine ⟨?_, ?_, inv.seen⟩
  · intro b c a h
    have h1 := inv.count b c a h
    have h2 := countP_put ho { o with dropped := d } b
    simp only [World.put]
    simp only at h2
    omega
  · intro u hu b hb
    rcases List.mem_or_eq_of_mem_set hu with hu | rfl
    · exact inv.owned u hu b hb
    · exact inv.owned o hmem b hb

theorem Inv.collect {w : World P α} (inv : Inv build w) (i : Nat) : Inv build (w.collect i) := by
  unfold World.collect
  split
  · split
    · rename_i ho _
      exact inv.clear ho id
    · exact inv
  · exact inv

/-- Evaluation: the object now has the matrix of its parameters; nothing else changes. -/
theorem evaluate_spec {w : World P α} (inv : Inv build w) {i : Nat} {o : Obj P} (ho : w.objs[i]? = some o) :
    Inv build (w.evaluate build i o).1 ∧ (w.evaluate build i o).1.views = w.views ∧
    (∀ j : Nat, j ≠ i → (w.evaluate build i o).1.objs[j]? = w.objs[j]?) ∧
    (∃ q, (w.evaluate build i o).1.objs[i]? = some { o with ptr := q } ∧ (∀ b, o.ptr = some b → q = some b) ∧
      ∀ b, (w.evaluate build i o).2 = .ok b → q = some b) := by
  obtain ⟨kind, par, ptr, dropped⟩ := o
  unfold World.evaluate
  rcases ptr with _ | b
  · rcases kind with _ | _
    · simp only
      rcases hb : build par with a | e | _
      · simp only
        obtain ⟨hi, _⟩ := List.getElem?_eq_some_iff.1 ho
        have hnone : ∀ u ∈ w.objs, u.ptr ≠ some w.heap.length := by
          intro u hu hu'
          obtain ⟨c, a, h1, h2⟩ := inv.owned u hu _ hu'
          rw [List.getElem?_eq_none (Nat.le_refl _)] at h1
          exact absurd h1 (by simp)
        refine ⟨⟨?_, ?_, ?_⟩, rfl, ?_, ⟨some w.heap.length, ?_, by simp, ?_⟩⟩
        · intro b c a' h
          have h4 := countP_put ho ⟨.model, par, some w.heap.length, dropped⟩ b
          simp only [World.put, Heap.alloc] at h ⊢
          simp only [reduceCtorEq, if_false] at h4
          rw [List.getElem?_append] at h
          split at h
          · rename_i hlt
            have h3 := inv.count b c a' h
            have : ¬ (some w.heap.length = some b) := by
              simp only [Option.some.injEq]
              omega
            simp only [this, if_false] at h4
            omega
          · rename_i hge
            obtain ⟨hi', he⟩ := List.getElem?_eq_some_iff.1 h
            simp only [List.length_singleton] at hi'
            have hb' : b = w.heap.length := by omega
            subst hb'
            simp only [Nat.sub_self, List.getElem_cons_zero, Prod.mk.injEq] at he
            have h0 : w.objs.countP (owns w.heap.length) = 0 := by
              rw [List.countP_eq_zero]
              intro u hu
              simp [owns, hnone u hu]
            simp only [if_true] at h4
            omega
        · intro u hu b hb'
          simp only [World.put, Heap.alloc] at hu ⊢
          rcases List.mem_or_eq_of_mem_set hu with hu | rfl
          · obtain ⟨c, a', h1, h2⟩ := inv.owned u hu b hb'
            obtain ⟨hlt, _⟩ := List.getElem?_eq_some_iff.1 h1
            exact ⟨c, a', by rw [List.getElem?_append_left hlt]; exact h1, h2⟩
          · simp only [Option.some.injEq] at hb'
            subst hb'
            exact ⟨1, a, by simp, hb⟩
        · intro v hv
          obtain ⟨c, hc⟩ := inv.seen v hv
          obtain ⟨hlt, _⟩ := List.getElem?_eq_some_iff.1 hc
          simp only [World.put, Heap.alloc]
          exact ⟨c, by rw [List.getElem?_append_left hlt]; exact hc⟩
        · intro j hj
          simp only [World.put]
          exact List.getElem?_set_ne (Ne.symm hj)
        · simp only [World.put, Heap.alloc]
          rw [List.getElem?_set_self hi]
        · intro b hb'
          simp only [Heap.alloc, Res.ok.injEq] at hb'
          rw [hb']
      · exact ⟨inv, rfl, fun _ _ => rfl, none, ho, by simp, by simp⟩
      · exact ⟨inv, rfl, fun _ _ => rfl, none, ho, by simp, by simp⟩
    · exact ⟨inv, rfl, fun _ _ => rfl, none, ho, by simp, by simp⟩
  · exact ⟨inv, rfl, fun _ _ => rfl, some b, ho, by simp, by simp⟩

theorem read_eq {w : World P α} (inv : Inv build w) {b c : Nat} {a : α} (h : w.heap[b]? = some (c, a)) :
    w.heap.read b = if w.objs.any (owns b) then .ok a else .ub := by
  have hc := inv.count b c a h
  unfold Heap.read
  rw [h]
  rcases c with _ | c
  · have : w.objs.any (owns b) = false := by
      rw [List.any_eq_false]
      exact List.countP_eq_zero.1 hc.symm
    simp [this]
  · have : w.objs.any (owns b) = true := by
      rw [List.any_eq_true]
      exact List.countP_pos_iff.1 (by omega)
    simp [this]

theorem Inv.expose {w : World P α} (inv : Inv build w) (i b : Nat) : Inv build (w.expose i b).1 := by
  unfold World.expose
  rcases hr : w.heap.read b with a | e | _
  · refine ⟨inv.count, inv.owned, ?_⟩
    intro v hv
    rcases List.mem_append.1 hv with hv | hv
    · exact inv.seen v hv
    · rw [List.mem_singleton.1 hv]
      unfold Heap.read at hr
      split at hr
      · rename_i h
        simp only [Res.ok.injEq] at hr
        subst hr
        exact ⟨_, h⟩
      · simp at hr
  · exact inv
  · exact inv

theorem Inv.step {w : World P α} (inv : Inv build w) (op : Op P) : Inv build (w.step build op).1 := by
  cases op with
  | newModel p =>
    have := inv.add ⟨.model, p, none, false⟩ (by simp)
    exact this
  | change i f =>
    simp only [World.step]
    rcases ho : w.usable i with _ | o
    · exact inv
    · simp only
      split
      · exact inv.clear (usable_some ho) f
      · exact inv
  | view i =>
    simp only [World.step]
    rcases ho : w.usable i with _ | o
    · exact inv
    · have h := (evaluate_spec inv (usable_some ho)).1
      simp only
      rcases he : w.evaluate build i o with ⟨w', b | e | _⟩ <;> rw [he] at h
      · exact h.expose i b
      · exact h
      · exact h
  | copy i =>
    simp only [World.step]
    rcases ho : w.usable i with _ | o
    · exact inv
    · exact inv.add o (fun b hb => inv.owned o (List.mem_of_getElem? (usable_some ho)) b hb)
  | hold i =>
    simp only [World.step]
    rcases ho : w.usable i with _ | o
    · exact inv
    · obtain ⟨h, _, _, q, h1, h2, h3⟩ := evaluate_spec inv (usable_some ho)
      simp only
      rcases he : w.evaluate build i o with ⟨w', b | e | _⟩ <;> rw [he] at h h1 h3
      · have hq := h3 b rfl
        subst hq
        exact h.add ⟨.holder, o.par, some b, false⟩ (fun b' hb' => h.owned _ (List.mem_of_getElem? h1) b' hb')
      · exact h
      · exact h
  | replace k i =>
    simp only [World.step]
    split
    · exact inv
    · rcases ho : w.usable i with _ | o
      · exact inv
      · obtain ⟨h, _, _, q, h1, h2, h3⟩ := evaluate_spec inv (usable_some ho)
        simp only
        rcases he : w.evaluate build i o with ⟨w', b | e | _⟩ <;> rw [he] at h h1 h3
        · have hq := h3 b rfl
          subst hq
          simp only [World.assign]
          rcases hk : w'.usable k with _ | u
          · exact h
          · exact h.change (usable_some hk) { u with ptr := some b, par := o.par }
              (fun b' hb' => h.owned _ (List.mem_of_getElem? h1) b' hb')
        · exact h
        · exact h
  | drop i =>
    simp only [World.step]
    rcases ho : w.usable i with _ | o
    · exact inv
    · exact (inv.put (usable_some ho) true).collect i
  | dropView v =>
    simp only [World.step]
    rcases hv : w.views[v]? with _ | x
    · exact inv
    · refine Inv.collect (w := { w with views := w.views.set v { x with live := false } }) ⟨inv.count, inv.owned, ?_⟩ _
      intro u hu
      rcases List.mem_or_eq_of_mem_set hu with hu | rfl
      · exact inv.seen u hu
      · exact inv.seen x (List.mem_of_getElem? hv)

theorem Inv.run {w : World P α} (inv : Inv build w) (ops : List (Op P)) : Inv build (run build w ops) := by
  induction ops generalizing w with
  | nil => exact inv
  | cons op ops ih => exact ih (inv.step op)

/-- **C76** (exactly when).  After every program, reading a matrix which Python got gives what it contained at first if some object still owns the matrix, and is
undefined otherwise.  (Arrays do not own it.) -/
theorem C76_exact (ops : List (Op P)) (v : Nat) (x : View α) (hx : (run build World.init ops).views[v]? = some x) :
    (run build World.init ops).readView v =
      if ∃ o ∈ (run build World.init ops).objs, o.ptr = some x.block then .ok x.seen else .ub := by
  have inv := (Inv.init (P := P) (α := α) (build := build)).run ops
  generalize run build World.init ops = w at *
  obtain ⟨c, hc⟩ := inv.seen x (List.mem_of_getElem? hx)
  unfold World.readView
  rw [hx]
  simp only [read_eq inv hc, List.any_eq_true, owns, decide_eq_true_eq]

/-! ## As long as the model is not changed -/

/-- View `v` is live and its parent `i` owns what it shows. -/
def Held (v i b : Nat) (a : α) (kind : Kind) (w : World P α) : Prop :=
  w.views[v]? = some ⟨b, i, a, true⟩ ∧ ∃ o, w.objs[i]? = some o ∧ o.ptr = some b ∧ o.kind = kind

theorem Held.kept {v i b : Nat} {a : α} {k : Kind} {w : World P α} (h : Held v i b a k w) : w.kept i = true := by
  obtain ⟨ha, _⟩ := h
  unfold World.kept
  rw [List.any_eq_true]
  exact ⟨_, List.mem_of_getElem? ha, by simp⟩

theorem Held.put {v i b : Nat} {a : α} {k : Kind} {w : World P α} (h : Held v i b a k w) (heap : Heap α) (j : Nat) (o' : Obj P)
    (ho' : j = i → o'.ptr = some b ∧ o'.kind = k) : Held v i b a k (({ w with heap := heap } : World P α).put j o') := by
  obtain ⟨h1, o, h2, h3, h4⟩ := h
  refine ⟨h1, ?_⟩
  by_cases hj : j = i
  · subst hj
    obtain ⟨hi, _⟩ := List.getElem?_eq_some_iff.1 h2
    exact ⟨o', by simp only [World.put]; rw [List.getElem?_set_self hi], ho' rfl⟩
  · exact ⟨o, by simp only [World.put]; rw [List.getElem?_set_ne hj]; exact h2, h3, h4⟩

theorem Held.collect {v i b : Nat} {a : α} {k : Kind} {w : World P α} (h : Held v i b a k w) (j : Nat) : Held v i b a k (w.collect j) := by
  unfold World.collect
  split
  · split
    · rename_i hc
      refine h.put _ _ _ ?_
      rintro rfl
      rw [h.kept] at hc
      simp at hc
    · exact h
  · exact h

theorem Held.append {v i b : Nat} {a : α} {k : Kind} {w : World P α} (h : Held v i b a k w) (heap : Heap α) (os : List (Obj P)) (vs : List (View α)) :
    Held v i b a k ⟨heap, w.objs ++ os, w.views ++ vs⟩ := by
  obtain ⟨h1, o, h2, h3, h4⟩ := h
  obtain ⟨hv, _⟩ := List.getElem?_eq_some_iff.1 h1
  obtain ⟨hi, _⟩ := List.getElem?_eq_some_iff.1 h2
  exact ⟨by simp only; rw [List.getElem?_append_left hv]; exact h1, o, by simp only; rw [List.getElem?_append_left hi]; exact h2, h3, h4⟩

theorem Held.evaluate {v i b : Nat} {a : α} {k : Kind} {w : World P α} (inv : Inv build w) (h : Held v i b a k w) {j : Nat} {o : Obj P} (ho : w.objs[j]? = some o) :
    Held v i b a k (w.evaluate build j o).1 := by
  obtain ⟨_, h2, h3, q, h4, h5, h6⟩ := evaluate_spec inv ho
  obtain ⟨g1, u, g2, g3, g4⟩ := h
  refine ⟨by rw [h2]; exact g1, ?_⟩
  by_cases hj : i = j
  · subst hj
    rw [g2] at ho
    simp only [Option.some.injEq] at ho
    subst ho
    exact ⟨_, h4, h5 b g3, g4⟩
  · exact ⟨u, by rw [h3 i hj]; exact g2, g3, g4⟩

/-- Calls that neither change model `i` nor let go of matrix `v`. -/
def Spares (i v : Nat) (kind : Kind) (op : Op P) : Prop := (kind = .model → ∀ f, op ≠ .change i f) ∧ op ≠ .dropView v

theorem Held.step {v i b : Nat} {a : α} {k : Kind} {w : World P α} (inv : Inv build w) (h : Held v i b a k w) (op : Op P) (hs : Spares i v k op) :
    Held v i b a k (w.step build op).1 := by
  cases op with
  | newModel p => simpa [World.step] using h.append w.heap [⟨.model, p, none, false⟩] []
  | change j f =>
    simp only [World.step]
    rcases ho : w.usable j with _ | o
    · exact h
    · simp only
      split
      · rename_i hk
        refine h.put _ _ _ ?_
        rintro rfl
        obtain ⟨_, u, g2, g3, g4⟩ := h
        rw [usable_some ho] at g2
        simp only [Option.some.injEq] at g2
        subst g2
        exact absurd rfl (hs.1 (g4.symm.trans hk) f)
      · exact h
  | view j =>
    simp only [World.step]
    rcases ho : w.usable j with _ | o
    · exact h
    · have h' := h.evaluate inv (usable_some ho)
      simp only
      rcases he : w.evaluate build j o with ⟨w', b' | e | _⟩ <;> rw [he] at h'
      · simp only [World.expose]
        rcases w'.heap.read b' with a' | e | _
        · simpa using h'.append w'.heap [] [⟨b', j, a', true⟩]
        · exact h'
        · exact h'
      · exact h'
      · exact h'
  | copy j =>
    simp only [World.step]
    rcases ho : w.usable j with _ | o
    · exact h
    · simpa using h.append (w.heap.acquire o.ptr) [o] []
  | hold j =>
    simp only [World.step]
    rcases ho : w.usable j with _ | o
    · exact h
    · have h' := h.evaluate inv (usable_some ho)
      simp only
      rcases he : w.evaluate build j o with ⟨w', b' | e | _⟩ <;> rw [he] at h'
      · simpa [World.give] using h'.append (w'.heap.inc b') [⟨.holder, o.par, some b', false⟩] []
      · exact h'
      · exact h'
  | replace j j' =>
    simp only [World.step]
    split
    · exact h
    · rename_i hkept
      have hji : j ≠ i := by
        rintro rfl
        exact hkept h.kept
      rcases ho : w.usable j' with _ | o
      · exact h
      · have h' := h.evaluate inv (usable_some ho)
        simp only
        rcases he : w.evaluate build j' o with ⟨w', b' | e | _⟩ <;> rw [he] at h'
        · simp only [World.assign]
          rcases w'.usable j with _ | u
          · exact h'
          · exact h'.put _ _ _ fun e => absurd e hji
        · exact h'
        · exact h'
  | drop j =>
    simp only [World.step]
    rcases ho : w.usable j with _ | o
    · exact h
    · refine Held.collect ?_ _
      refine h.put w.heap j { o with dropped := true } ?_
      rintro rfl
      obtain ⟨_, u, g2, g3, g4⟩ := h
      rw [usable_some ho] at g2
      simp only [Option.some.injEq] at g2
      subst g2
      exact ⟨g3, g4⟩
  | dropView u =>
    simp only [World.step]
    rcases hv : w.views[u]? with _ | x
    · exact h
    · refine Held.collect ?_ _
      obtain ⟨h1, h2⟩ := h
      refine ⟨?_, h2⟩
      have : u ≠ v := fun e => hs.2 (by rw [e])
      simp only
      rw [List.getElem?_set_ne this]
      exact h1

theorem Held.run {v i b : Nat} {a : α} {k : Kind} {w : World P α} (inv : Inv build w) (h : Held v i b a k w) (ops : List (Op P))
    (hs : ∀ op ∈ ops, Spares i v k op) : Held v i b a k (Lifetime.run build w ops) := by
  induction ops generalizing w with
  | nil => exact h
  | cons op ops ih => exact ih (inv.step op) (h.step inv op (hs op (by simp))) fun op' h' => hs op' (by simp [h'])

theorem view_spec {w : World P α} (inv : Inv build w) {i : Nat} {o : Obj P} (ho : w.usable i = some o) (hv : (w.step build (.view i)).2 = .ok ()) :
    ∃ b a, (w.step build (.view i)).1.views = w.views ++ [⟨b, i, a, true⟩] ∧ build o.par = .ok a ∧
      Held w.views.length i b a o.kind (w.step build (.view i)).1 := by
  obtain ⟨h, h2, h3, q, h4, h5, h6⟩ := evaluate_spec inv (usable_some ho)
  simp only [World.step, ho] at hv ⊢
  rcases he : w.evaluate build i o with ⟨w', b | e | _⟩ <;> rw [he] at h h2 h4 h6 <;> simp only [he] at hv ⊢
  · have hq := h6 b rfl
    subst hq
    obtain ⟨c, a, g1, g2⟩ := h.owned _ (List.mem_of_getElem? h4) b rfl
    have hr := read_eq h g1
    have hany : w'.objs.any (owns b) = true := by
      rw [List.any_eq_true]
      exact ⟨_, List.mem_of_getElem? h4, by simp [owns]⟩
    rw [hany, if_pos rfl] at hr
    dsimp only at hr h2 h4
    simp only [World.expose, hr] at hv ⊢
    refine ⟨b, a, by rw [h2], g2, ?_, _, h4, rfl, rfl⟩
    simp [h2]
  · simp at hv
  · simp at hv

/-- **C76** (partial: as long as the model is not changed).  A matrix read from an object is the one of its parameters at this time, and stays so in every program which does
not let go of it and does not change the model it came from; the model may be let go of.  For a matrix of a lead (which cannot be changed) nothing
else is needed. -/
theorem C76_valid_partial (ops : List (Op P)) (i : Nat) (o : Obj P) (ho : (run build World.init ops).usable i = some o)
    (hv : ((run build World.init ops).step build (.view i)).2 = .ok ()) (more : List (Op P))
    (hs : ∀ op ∈ more, Spares i (run build World.init ops).views.length o.kind op) :
    (run build (World.init : World P α) (ops ++ .view i :: more)).readView (run build (World.init : World P α) ops).views.length = build o.par := by
  have inv := (Inv.init (P := P) (α := α) (build := build)).run ops
  have hrun : ∀ (w : World P α) (a b : List (Op P)), run build w (a ++ b) = run build (run build w a) b := by
    intro w a b
    induction a generalizing w with
    | nil => rfl
    | cons op a ih => exact ih _
  have hex := C76_exact (build := build) (α := α) (ops ++ .view i :: more) (run build (World.init : World P α) ops).views.length
  rw [hrun] at hex ⊢
  generalize hw : run build World.init ops = w at *
  obtain ⟨b, a, h1, h2, h3⟩ := view_spec inv ho hv
  obtain ⟨h4, u, h5, h6, h7⟩ := h3.run (inv.step (.view i)) more hs
  have := hex _ h4
  rw [this, if_pos ⟨u, List.mem_of_getElem? h5, h6⟩, h2]

/-- **C76** (otherwise).  If nothing else owns the matrix, changing the model makes every further read of it undefined. -/
theorem C76_dangling (ops : List (Op P)) (v i : Nat) (x : View α) (o : Obj P) (f : P → P)
    (hx : (run build World.init ops).views[v]? = some x) (ho : (run build (World.init : World P α) ops).usable i = some o)
    (hk : o.kind = .model) (hp : o.ptr = some x.block)
    (honly : ∀ (j : Nat) (u : Obj P), (run build (World.init : World P α) ops).objs[j]? = some u → u.ptr = some x.block → j = i) :
    (run build (World.init : World P α) (ops ++ [.change i f])).readView v = .ub := by
  have hrun : ∀ (w : World P α) (a b : List (Op P)), run build w (a ++ b) = run build (run build w a) b := by
    intro w a b
    induction a generalizing w with
    | nil => rfl
    | cons op a ih => exact ih _
  have hex := C76_exact (build := build) (α := α) (ops ++ [.change i f]) v x
  rw [hrun] at hex ⊢
  generalize hw : run build World.init ops = w at *
  have hstep : run build w [.change i f] = w.clear i o f := by
    simp [run, World.step, ho, hk]
  rw [hstep] at hex ⊢
  rw [hex hx, if_neg]
  rintro ⟨u, hu, hu'⟩
  obtain ⟨j, hj⟩ := List.mem_iff_getElem?.1 hu
  obtain ⟨hi, _⟩ := List.getElem?_eq_some_iff.1 (usable_some ho)
  simp only [World.clear, World.put] at hj
  by_cases hji : i = j
  · subst hji
    rw [List.getElem?_set_self hi] at hj
    simp only [Option.some.injEq] at hj
    subst hj
    simp at hu'
  · rw [List.getElem?_set_ne hji] at hj
    exact hji (honly j u hj hu').symm

/-! ## Objects in use, and objects which nobody uses -/

/-- No live array keeps object `i` alive. -/
def Unviewed (w : World P α) (i : Nat) : Prop := ∀ x ∈ w.views, x.live = true → x.parent ≠ i

theorem kept_eq (w : World P α) (i : Nat) : w.kept i = false ↔ Unviewed w i := by
  unfold World.kept Unviewed
  rw [List.any_eq_false]
  constructor
  · intro h x hx hl hp
    exact h x hx (by simp [hl, hp])
  · intro h x hx hc
    simp only [Bool.and_eq_true, beq_iff_eq] at hc
    exact h x hx hc.1 hc.2

/-- Objects without references have no matrix. -/
def NoLeak (w : World P α) : Prop := ∀ (i : Nat) (o : Obj P), w.objs[i]? = some o → o.dropped = true → Unviewed w i → o.ptr = none

theorem usable_objs {w : World P α} {i : Nat} {o : Obj P} (h : w.usable i = some o) : w.objs[i]? = some o ∧ o.dropped = false := by
  unfold World.usable at h
  split at h
  · rename_i u hu
    split at h
    · cases h
    · rename_i hd
      rw [Option.some.injEq] at h
      subst h
      exact ⟨hu, by simpa using hd⟩
  · cases h

theorem evaluate_objs {w w' : World P α} {i : Nat} {o : Obj P} {r : Res Nat} (ho : w.objs[i]? = some o) (h : w.evaluate build i o = (w', r)) :
    w'.views = w.views ∧ ∃ q, w'.objs = w.objs.set i { o with ptr := q } := by
  unfold World.evaluate at h
  have hself : w.objs = w.objs.set i { o with ptr := o.ptr } := by
    apply List.ext_getElem?
    intro j
    rw [List.getElem?_set]
    split
    · rename_i hij
      subst hij
      rw [if_pos (List.getElem?_eq_some_iff.1 ho).1, ho]
    · rfl
  split at h
  · cases h
    exact ⟨rfl, _, hself⟩
  · split at h
    · cases h
      exact ⟨rfl, _, hself⟩
    · split at h
      · cases h
        exact ⟨rfl, _, rfl⟩
      · cases h
        exact ⟨rfl, _, hself⟩
      · cases h
        exact ⟨rfl, _, hself⟩

theorem NoLeak.of_set {w w' : World P α} (h : NoLeak w) (i : Nat) (u : Obj P) (hu : u.dropped = false) (hobjs : w'.objs = w.objs.set i u)
    (hviews : ∀ j, Unviewed w' j → Unviewed w j) : NoLeak w' := by
  intro j o hj hd hv
  rw [hobjs, List.getElem?_set] at hj
  split at hj
  · split at hj
    · cases hj
      rw [hu] at hd
      cases hd
    · cases hj
  · exact h j o hj hd (hviews j hv)

theorem NoLeak.of_append {w w' : World P α} (h : NoLeak w) (u : Obj P) (hu : u.dropped = false) (hobjs : w'.objs = w.objs ++ [u])
    (hviews : ∀ j, Unviewed w' j → Unviewed w j) : NoLeak w' := by
  intro j o hj hd hv
  rw [hobjs] at hj
  rcases Nat.lt_or_ge j w.objs.length with hlt | hge
  · rw [List.getElem?_append_left hlt] at hj
    exact h j o hj hd (hviews j hv)
  · rw [List.getElem?_append_right hge] at hj
    rcases hjj : j - w.objs.length with _ | m
    · rw [hjj] at hj
      cases hj
      rw [hu] at hd
      cases hd
    · rw [hjj] at hj
      simp at hj

theorem collect_spec (w : World P α) (p : Nat) (h : ∀ (i : Nat) (o : Obj P), i ≠ p → w.objs[i]? = some o → o.dropped = true → Unviewed w i → o.ptr = none) :
    NoLeak (w.collect p) := by
  unfold World.collect
  split
  · rename_i o ho
    split
    · rename_i hc
      intro j u hj hd hv
      unfold World.clear World.put at hj
      simp only [List.getElem?_set] at hj
      split at hj
      · split at hj
        · cases hj
          rfl
        · cases hj
      · rename_i hij
        exact h j u (Ne.symm hij) hj hd hv
    · rename_i hc
      intro j u hj hd hv
      by_cases hjp : j = p
      · subst hjp
        rw [ho] at hj
        cases hj
        rw [hd, Bool.true_and, Bool.not_eq_true'] at hc
        exact absurd ((kept_eq w j).2 hv) hc
      · exact h j u hjp hj hd hv
  · rename_i hnone
    intro j u hj hd hv
    by_cases hjp : j = p
    · subst hjp
      rw [hnone] at hj
      cases hj
    · exact h j u hjp hj hd hv

theorem NoLeak.step {w : World P α} (h : NoLeak w) (op : Op P) : NoLeak (w.step build op).1 := by
  cases op with
  | newModel p => exact h.of_append ⟨.model, p, none, false⟩ rfl rfl fun _ hv => hv
  | change i f =>
    simp only [World.step]
    split
    · rename_i o ho
      split
      · exact h.of_set i { o with ptr := none, par := f o.par } (usable_objs ho).2 rfl fun _ hv => hv
      · exact h
    · exact h
  | view i =>
    simp only [World.step]
    split
    · rename_i o ho
      split
      · rename_i w' b he
        obtain ⟨e1, q, e2⟩ := evaluate_objs (usable_objs ho).1 he
        unfold World.expose
        split
        · refine h.of_set i { o with ptr := q } (usable_objs ho).2 e2 ?_
          intro j hv x hx
          exact hv x (List.mem_append_left _ (by rw [e1]; exact hx))
        · exact h.of_set i { o with ptr := q } (usable_objs ho).2 e2 fun j hv x hx => hv x (by rw [e1]; exact hx)
        · exact h.of_set i { o with ptr := q } (usable_objs ho).2 e2 fun j hv x hx => hv x (by rw [e1]; exact hx)
      · rename_i w' b he
        obtain ⟨e1, q, e2⟩ := evaluate_objs (usable_objs ho).1 he
        exact h.of_set i { o with ptr := q } (usable_objs ho).2 e2 fun j hv x hx => hv x (by rw [e1]; exact hx)
      · rename_i w' he
        obtain ⟨e1, q, e2⟩ := evaluate_objs (usable_objs ho).1 he
        exact h.of_set i { o with ptr := q } (usable_objs ho).2 e2 fun j hv x hx => hv x (by rw [e1]; exact hx)
    · exact h
  | copy i =>
    simp only [World.step]
    split
    · rename_i o ho
      exact h.of_append o (usable_objs ho).2 rfl fun _ hv => hv
    · exact h
  | hold i =>
    simp only [World.step]
    split
    · rename_i o ho
      split
      · rename_i w' b he
        obtain ⟨e1, q, e2⟩ := evaluate_objs (usable_objs ho).1 he
        have h' : NoLeak w' := h.of_set i { o with ptr := q } (usable_objs ho).2 e2 fun j hv x hx => hv x (by rw [e1]; exact hx)
        exact h'.of_append ⟨.holder, o.par, some b, false⟩ rfl rfl fun _ hv => hv
      · rename_i w' b he
        obtain ⟨e1, q, e2⟩ := evaluate_objs (usable_objs ho).1 he
        exact h.of_set i { o with ptr := q } (usable_objs ho).2 e2 fun j hv x hx => hv x (by rw [e1]; exact hx)
      · rename_i w' he
        obtain ⟨e1, q, e2⟩ := evaluate_objs (usable_objs ho).1 he
        exact h.of_set i { o with ptr := q } (usable_objs ho).2 e2 fun j hv x hx => hv x (by rw [e1]; exact hx)
    · exact h
  | replace k i =>
    simp only [World.step]
    split
    · exact h
    · split
      · rename_i o ho
        split
        · rename_i w' b he
          obtain ⟨e1, q, e2⟩ := evaluate_objs (usable_objs ho).1 he
          have h' : NoLeak w' := h.of_set i { o with ptr := q } (usable_objs ho).2 e2 fun j hv x hx => hv x (by rw [e1]; exact hx)
          unfold World.assign
          split
          · rename_i u hu
            exact h'.of_set k { u with ptr := some b, par := o.par } (usable_objs hu).2 rfl fun _ hv => hv
          · exact h'
        · rename_i w' b he
          obtain ⟨e1, q, e2⟩ := evaluate_objs (usable_objs ho).1 he
          exact h.of_set i { o with ptr := q } (usable_objs ho).2 e2 fun j hv x hx => hv x (by rw [e1]; exact hx)
        · rename_i w' he
          obtain ⟨e1, q, e2⟩ := evaluate_objs (usable_objs ho).1 he
          exact h.of_set i { o with ptr := q } (usable_objs ho).2 e2 fun j hv x hx => hv x (by rw [e1]; exact hx)
      · exact h
  | drop i =>
    simp only [World.step]
    split
    · rename_i o ho
      apply collect_spec
      intro j u hji hj hd hv
      unfold World.put at hj
      simp only at hj
      rw [List.getElem?_set_ne (Ne.symm hji)] at hj
      exact h j u hj hd hv
    · exact h
  | dropView v =>
    simp only [World.step]
    split
    · rename_i x hx
      apply collect_spec
      intro j u hji hj hd hv
      refine h j u hj hd ?_
      intro y hy hl hp
      obtain ⟨m, hm⟩ := List.mem_iff_getElem?.1 hy
      by_cases hmv : m = v
      · subst hmv
        rw [hx] at hm
        cases hm
        exact hji hp.symm
      · refine hv y ?_ hl hp
        refine List.mem_of_getElem? (i := m) ?_
        simp only
        rw [List.getElem?_set_ne (Ne.symm hmv)]
        exact hm
    · exact h

/-- **C76** (no leaks).  After every program, an object which Python has let go of, and which no array keeps alive, owns no matrix; so a matrix is freed with the last reference to its
owners. -/
theorem C76_no_leak (ops : List (Op P)) (i : Nat) (o : Obj P) (ho : (run build (World.init : World P α) ops).objs[i]? = some o) (hd : o.dropped = true)
    (hv : ∀ x ∈ (run build (World.init : World P α) ops).views, x.live = true → x.parent ≠ i) : o.ptr = none := by
  have key : ∀ (ops : List (Op P)) (w : World P α), NoLeak w → NoLeak (run build w ops) := by
    intro ops
    induction ops with
    | nil => intro w h; exact h
    | cons op ops ih => intro w h; exact ih _ (h.step op)
  exact key ops World.init (by intro i o hi; simp [World.init] at hi) i o ho hd hv

/-- Calls which name object `i`. -/
def Op.names (i : Nat) : Op P → Prop
  | .newModel _ => False
  | .change j _ => j = i
  | .view j => j = i
  | .copy j => j = i
  | .hold j => j = i
  | .replace k j => k = i ∨ j = i
  | .drop j => j = i
  | .dropView _ => False

/-- **C76** (objects in use).  An object which Python has is not changed by calls on other objects, in particular not when other objects, or arrays of its own, are let go of. -/
theorem C76_in_use (w : World P α) (i : Nat) (o : Obj P) (ho : w.usable i = some o) (ops : List (Op P)) (hn : ∀ op ∈ ops, ¬ Op.names i op) :
    (run build w ops).usable i = some o := by
  have key : ∀ (w : World P α) (op : Op P), ¬ Op.names i op → w.usable i = some o → (w.step build op).1.usable i = some o := by
    intro w op hn ho
    obtain ⟨h1, h2⟩ := usable_objs ho
    have done : ∀ w' : World P α, w'.objs[i]? = some o → w'.usable i = some o := by
      intro w' h
      unfold World.usable
      rw [h]
      simp [h2]
    have hlt := (List.getElem?_eq_some_iff.1 h1).1
    have ev : ∀ {j : Nat} {u : Obj P} {w' : World P α} {r : Res Nat}, j ≠ i → w.usable j = some u → w.evaluate build j u = (w', r) → w'.objs[i]? = some o := by
      intro j u w' r hj hu he
      obtain ⟨-, q, e2⟩ := evaluate_objs (usable_objs hu).1 he
      rw [e2, List.getElem?_set_ne hj]
      exact h1
    have col : ∀ (w' : World P α) (p : Nat), w'.objs[i]? = some o → (w'.collect p).objs[i]? = some o := by
      intro w' p h
      unfold World.collect
      split
      · rename_i u hu
        split
        · rename_i hc
          unfold World.clear World.put
          simp only
          by_cases hpi : p = i
          · subst hpi
            rw [h] at hu
            cases hu
            rw [h2] at hc
            simp at hc
          · rw [List.getElem?_set_ne hpi]
            exact h
        · exact h
      · exact h
    apply done
    cases op with
    | newModel p => rw [← h1]; exact List.getElem?_append_left hlt
    | change j f =>
      simp only [World.step]
      split
      · split
        · unfold World.clear World.put
          simp only
          rw [List.getElem?_set_ne hn]
          exact h1
        · exact h1
      · exact h1
    | view j =>
      simp only [World.step]
      split
      · rename_i u hu
        split
        · rename_i w' b he
          unfold World.expose
          have h3 := ev hn hu he
          split <;> exact h3
        · rename_i he; exact ev hn hu he
        · rename_i he; exact ev hn hu he
      · exact h1
    | copy j =>
      simp only [World.step]
      split
      · simp only
        rw [List.getElem?_append_left hlt]
        exact h1
      · exact h1
    | hold j =>
      simp only [World.step]
      split
      · rename_i u hu
        split
        · rename_i w' b he
          have h3 := ev hn hu he
          unfold World.give
          simp only
          rw [List.getElem?_append_left (List.getElem?_eq_some_iff.1 h3).1]
          exact h3
        · rename_i he; exact ev hn hu he
        · rename_i he; exact ev hn hu he
      · exact h1
    | replace k j =>
      have hk : k ≠ i := fun h => hn (.inl h)
      have hj : j ≠ i := fun h => hn (.inr h)
      simp only [World.step]
      split
      · exact h1
      · split
        · rename_i u hu
          split
          · rename_i w' b he
            have h3 := ev hj hu he
            unfold World.assign World.put
            split
            · simp only
              rw [List.getElem?_set_ne hk]
              exact h3
            · exact h3
          · rename_i he; exact ev hj hu he
          · rename_i he; exact ev hj hu he
        · exact h1
    | drop j =>
      simp only [World.step]
      split
      · apply col
        unfold World.put
        simp only
        rw [List.getElem?_set_ne hn]
        exact h1
      · exact h1
    | dropView v =>
      simp only [World.step]
      split
      · exact col _ _ h1
      · exact h1
  induction ops generalizing w with
  | nil => exact ho
  | cons op ops ih => exact ih _ (key w op (hn op List.mem_cons_self) ho) fun op hop => hn op (List.mem_cons_of_mem _ hop)

/-! ## Witness and examples -/

/-- The hypotheses of `C76_no_leak` and `C76_in_use` are met: model 0 is dropped while its array lives and then the array is dropped, so its matrix is freed; model 1 is in use throughout. -/
example : ((run (fun p : Nat => Res.ok p) (World.init : World Nat Nat) [.newModel 3, .view 0, .newModel 4, .view 1, .drop 0]).objs.map fun o => (o.ptr, o.dropped)) = [(some 0, true), (some 1, false)]
    ∧ ((run (fun p : Nat => Res.ok p) (World.init : World Nat Nat) [.newModel 3, .view 0, .newModel 4, .view 1, .drop 0, .dropView 0]).objs.map fun o => (o.ptr, o.dropped)) = [(none, true), (some 1, false)]
    ∧ ((run (fun p : Nat => Res.ok p) (World.init : World Nat Nat) [.newModel 3, .view 0, .newModel 4, .view 1, .drop 0, .dropView 0]).views.map fun x => (x.parent, x.live)) = [(0, false), (1, true)] := by
  decide

/-- `h = model.hamiltonian; model.set_wave_vector(k); h.data`: use of freed memory. -/
theorem C76_dangling_witness :
    let w := run (P := Nat) (α := Nat) (fun k => .ok (10 * k)) World.init [.newModel 1, .view 0, .change 0 (· + 1)]
    w.readView 0 = .ub ∧ w.views.length = 1 := by
  decide

/-- The same with a solver made of the model before: the matrix stays as it was. -/
example :
    let w := run (P := Nat) (α := Nat) (fun k => .ok (10 * k)) World.init [.newModel 1, .view 0, .hold 0, .change 0 (· + 1), .view 0]
    w.readView 0 = .ok 10 ∧ w.readView 1 = .ok 20 := by
  decide

/-- A model which is let go of while its matrix is used, and a lead whose model changes: the hypotheses of `C76_valid_partial`. -/
example :
    let w := run (P := Nat) (α := Nat) (fun k => .ok (10 * k)) World.init [.newModel 1]
    (∃ o, w.usable 0 = some o) ∧ (w.step (fun k => .ok (10 * k)) (.view 0)).2 = .ok () ∧
      Spares 0 w.views.length .model (.drop 0 : Op Nat) ∧ Spares 0 w.views.length .holder (.change 0 id : Op Nat) ∧
      (run (P := Nat) (α := Nat) (fun k => .ok (10 * k)) World.init [.newModel 1, .view 0, .drop 0]).readView 0 = .ok 10 := by
  refine ⟨⟨_, rfl⟩, by decide, ⟨by simp, by simp⟩, ⟨by simp, by simp⟩, by decide⟩

/-- The hypotheses of `C76_dangling`. -/
example :
    let w := run (P := Nat) (α := Nat) (fun k => .ok (10 * k)) World.init [.newModel 1, .view 0]
    ∃ x o, w.views[0]? = some x ∧ w.usable 0 = some o ∧ o.kind = .model ∧ o.ptr = some x.block ∧ w.objs.length = 1 :=
  ⟨_, _, rfl, rfl, rfl, rfl, rfl⟩

end Verif.Binding.Lifetime
