import Verif.Thread.Sweep
import Verif.Thread.PropsParallel
import Mathlib.Data.List.Perm.Basic
import Mathlib.Data.List.Flatten
import Mathlib.Tactic.Ring
import Mathlib.Tactic.Linarith

/-!
# C78: parameter sweeps
-/

namespace Verif.Thread

/-! ## The parameters of the user's function -/

section call
variable {A : Type}

theorem mem_product {vs : List (List A)} {t : List A} (h : t ∈ product vs) :
    t.length = vs.length ∧ ∀ (i : Nat) (xs : List A), vs[i]? = some xs → ∃ a, t[i]? = some a ∧ a ∈ xs := by
  induction vs generalizing t with
  | nil =>
    simp only [product, List.mem_singleton] at h
    subst h
    exact ⟨rfl, by simp⟩
  | cons ys rest ih =>
    simp only [product, List.mem_flatMap, List.mem_map] at h
    obtain ⟨x, hx, t', ht', rfl⟩ := h
    obtain ⟨h1, h2⟩ := ih ht'
    refine ⟨by simp [h1], ?_⟩
    intro i xs hi
    rcases i with _ | i
    · simp only [List.getElem?_cons_zero, Option.some.injEq] at hi
      subst hi
      exact ⟨x, rfl, hx⟩
    · exact h2 i xs (by simpa using hi)

/-- The value a parameter without values in the call of `parallelize` has: its default (or, if there is none, the class that marks this). -/
def defaultArg (p : String × Option A) : Arg A :=
  match p.2 with
  | some a => .val a
  | none => .empty

theorem look_map_self {ps : List (String × Option A)} (hn : (ps.map (·.1)).Nodup) {p : String × Option A} (hp : p ∈ ps) :
    look (ps.map fun p => (p.1, defaultArg p)) p.1 = some (defaultArg p) := by
  induction ps with
  | nil => simp at hp
  | cons q ps ih =>
    simp only [List.map_cons, List.nodup_cons] at hn
    by_cases hq : q.1 = p.1
    · have : q = p := by
        rcases List.mem_cons.1 hp with rfl | hp
        · rfl
        · exact absurd (hq ▸ List.mem_map_of_mem hp) hn.1
      subst this
      simp [look]
    · have hp' : p ∈ ps := by
        rcases List.mem_cons.1 hp with rfl | hp
        · exact absurd rfl hq
        · exact hp
      have := ih hn.2 hp'
      simp only [look, List.map_cons, List.find?_cons] at this ⊢
      simp only [beq_eq_false_iff_ne.2 hq]
      exact this

/-- The parameters which get values in the call of `parallelize` come first. -/
def SweptFirst (params : List (String × Option A)) (kwargs : List (String × List A)) : Prop :=
  ∃ pre post, params = pre ++ post ∧ (∀ p ∈ pre, (look kwargs p.1).isSome) ∧ ∀ p ∈ post, look kwargs p.1 = none

theorem fixtures_eq (params : List (String × Option A)) (kwargs : List (String × List A)) :
    fixtures params kwargs = (params.filter fun p => (look kwargs p.1).isNone).map fun p => (p.1, defaultArg p) := rfl

theorem swept_length (params : List (String × Option A)) (kwargs : List (String × List A)) :
    (swept params kwargs).length = params.countP fun p => (look kwargs p.1).isSome := by
  unfold swept
  induction params with
  | nil => rfl
  | cons p ps ih =>
    rw [List.filterMap_cons, List.countP_cons]
    rcases h : look kwargs p.1 with _ | xs <;> simp [ih]

/-- **C78** (the call).  If the swept parameters of the user's function come first, it is called with an element of its own list for every one of these and with
the default value for every other. -/
theorem C78_call (params : List (String × Option A)) (kwargs : List (String × List A)) (hn : (params.map (·.1)).Nodup)
    (hf : SweptFirst params kwargs) (var : List A) (hv : var ∈ product (swept params kwargs)) :
    ∃ args, bindCall params var (fixtures params kwargs) = .ok args ∧ args.map (·.1) = params.map (·.1) ∧
      ∀ (i : Nat) (p : String × Option A), params[i]? = some p →
        (∀ xs, look kwargs p.1 = some xs → ∃ a ∈ xs, var[i]? = some a ∧ args[i]? = some (p.1, .val a)) ∧
        (look kwargs p.1 = none → args[i]? = some (p.1, defaultArg p)) := by
  obtain ⟨pre, post, rfl, h1, h2⟩ := hf
  obtain ⟨hl, hmem⟩ := mem_product hv
  have hpost : swept (pre ++ post) kwargs = pre.filterMap fun p => look kwargs p.1 := by
    unfold swept
    rw [List.filterMap_append, List.filterMap_eq_nil_iff.2 h2, List.append_nil]
  have hswept : ∀ (ps : List (String × Option A)), (∀ p ∈ ps, (look kwargs p.1).isSome) →
      ∀ (i : Nat) (p : String × Option A), ps[i]? = some p → (ps.filterMap fun p => look kwargs p.1)[i]? = look kwargs p.1 ∧
        (ps.filterMap fun p => look kwargs p.1).length = ps.length := by
    intro ps
    induction ps with
    | nil => intro _ i p h; simp at h
    | cons q ps ih =>
      intro hq i p hi
      obtain ⟨xs, hxs⟩ := Option.isSome_iff_exists.1 (hq q (by simp))
      rw [List.filterMap_cons, hxs]
      simp only
      have hlen : (ps.filterMap fun p => look kwargs p.1).length = ps.length := by
        have := swept_length ps kwargs
        unfold swept at this
        rw [this, List.countP_eq_length]
        exact fun p hp => hq p (by simp [hp])
      rcases i with _ | i
      · simp only [List.getElem?_cons_zero, Option.some.injEq] at hi
        subst hi
        exact ⟨by simp [hxs], by simp [hlen]⟩
      · have := ih (fun p hp => hq p (by simp [hp])) i p (by simpa using hi)
        exact ⟨by simpa using this.1, by simp [this.2]⟩
  have hlen : var.length = pre.length := by
    have g1 : pre.countP (fun p => (look kwargs p.1).isSome) = pre.length := List.countP_eq_length.2 fun p hp => h1 p hp
    have g2 : post.countP (fun p => (look kwargs p.1).isSome) = 0 := List.countP_eq_zero.2 fun p hp => by simp [h2 p hp]
    rw [hl, swept_length, List.countP_append, g1, g2]
    rfl
  have hfix : fixtures (pre ++ post) kwargs = post.map fun p => (p.1, defaultArg p) := by
    rw [fixtures_eq, List.filter_append, List.filter_eq_nil_iff.2, List.filter_eq_self.2, List.nil_append]
    · intro p hp
      simp [h2 p hp]
    · intro p hp
      obtain ⟨xs, hxs⟩ := Option.isSome_iff_exists.1 (h1 p hp)
      simp [hxs]
  rw [List.map_append, List.nodup_append] at hn
  obtain ⟨hn1, hn2, hn3⟩ := hn
  have hrest : ∀ ps : List (String × Option A), (∀ p ∈ ps, p ∈ post) → ps.mapM (byName (post.map fun p => (p.1, defaultArg p))) = some (ps.map fun p => (p.1, defaultArg p)) := by
    intro ps
    induction ps with
    | nil => intro _; rfl
    | cons q ps ih =>
      intro hp
      rw [List.mapM_cons, ih fun p h => hp p (by simp [h]), byName, look_map_self hn2 (hp q (by simp))]
      rfl
  refine ⟨pre.zipWith (fun p a => (p.1, Arg.val a)) var ++ post.map fun p => (p.1, defaultArg p), ?_, ?_, ?_⟩
  · unfold bindCall
    have hr := hrest post fun p h => h
    rw [hfix, hlen, List.take_left, List.drop_left]
    simp only [hr]
    rw [if_neg (by simp), if_neg, if_neg]
    · simp only [List.any_eq_true, List.mem_map, Bool.not_eq_true', not_exists, not_and]
      rintro _ ⟨p, hp, rfl⟩
      simp only [Bool.not_eq_false, List.any_eq_true]
      exact ⟨p, by simp [hp], by simp⟩
    · simp only [List.any_eq_true, List.mem_map, not_exists, not_and]
      rintro _ ⟨p, hp, rfl⟩ q hq
      simp only [beq_iff_eq]
      exact hn3 _ (List.mem_map_of_mem hq) _ (List.mem_map_of_mem hp)
  · rw [List.map_append, List.map_append, List.map_map]
    congr 1
    apply List.ext_getElem
    · simp [hlen]
    · intro i _ _
      simp
  · intro i p hi
    by_cases hip : i < pre.length
    · rw [List.getElem?_append_left hip] at hi
      rw [List.getElem?_append_left (by simp [hlen, hip])]
      obtain ⟨g1, g2⟩ := hswept pre h1 i p hi
      refine ⟨fun xs hxs => ?_, fun hnone => ?_⟩
      · rw [hxs, ← hpost] at g1
        obtain ⟨a, ha, hax⟩ := hmem i xs g1
        exact ⟨a, hax, ha, by rw [List.getElem?_zipWith, hi, ha]⟩
      · have := h1 p (List.mem_of_getElem? hi)
        rw [hnone] at this
        simp at this
    · have hip' : pre.length ≤ i := by omega
      rw [List.getElem?_append_right hip'] at hi
      have hpp := List.mem_of_getElem? hi
      refine ⟨fun xs hxs => by rw [h2 p hpp] at hxs; simp at hxs, fun _ => ?_⟩
      rw [List.getElem?_append_right (by simp [hlen]; omega), List.length_zipWith, hlen, Nat.min_self, List.getElem?_map, hi]
      rfl

/-- **C78** (the call, otherwise).  If another parameter stands before a swept one, the call fails (it never computes with wrong arguments). -/
theorem C78_call_fails (params : List (String × Option A)) (kwargs : List (String × List A)) (hf : ¬ SweptFirst params kwargs) (var : List A)
    (hv : var ∈ product (swept params kwargs)) : bindCall params var (fixtures params kwargs) = .err .runtimeError := by
  have hlen : var.length = params.countP fun p => (look kwargs p.1).isSome := by rw [(mem_product hv).1, swept_length]
  have : ∃ p ∈ params.take var.length, look kwargs p.1 = none := by
    by_contra hno
    simp only [not_exists, not_and] at hno
    have hpre : ∀ p ∈ params.take var.length, (look kwargs p.1).isSome := fun p hp => Option.isSome_iff_ne_none.2 (hno p hp)
    refine hf ⟨params.take var.length, params.drop var.length, (List.take_append_drop _ _).symm, hpre, ?_⟩
    have hc : params.countP (fun p => (look kwargs p.1).isSome) = (params.take var.length).countP (fun p => (look kwargs p.1).isSome) +
        (params.drop var.length).countP (fun p => (look kwargs p.1).isSome) := by
      rw [← List.countP_append, List.take_append_drop]
    rw [List.countP_eq_length.2 hpre, List.length_take, ← hlen] at hc
    have hle : var.length ≤ params.length := by rw [hlen]; exact List.countP_le_length
    have hz : (params.drop var.length).countP (fun p => (look kwargs p.1).isSome) = 0 := by omega
    intro p hp
    have := List.countP_eq_zero.1 hz p hp
    simpa using this
  obtain ⟨p, hp, hnone⟩ := this
  unfold bindCall
  by_cases h1 : params.length < var.length
  · rw [if_pos h1]
  · rw [if_neg h1, if_pos]
    rw [List.any_eq_true]
    refine ⟨(p.1, defaultArg p), ?_, ?_⟩
    · rw [fixtures_eq]
      refine List.mem_map.2 ⟨p, List.mem_filter.2 ⟨List.mem_of_mem_take hp, by simp [hnone]⟩, rfl⟩
    · rw [List.any_eq_true]
      exact ⟨p, hp, by simp⟩

end call

/-! ## The order of the sequence -/

section order
variable {A F : Type}

theorem product_length (vs : List (List A)) : (product vs).length = (vs.map List.length).prod := by
  induction vs with
  | nil => rfl
  | cons xs rest ih =>
    simp only [product, List.map_cons, List.prod_cons, List.length_flatMap, List.length_map]
    rw [← ih]
    induction xs with
    | nil => simp
    | cons x xs ihx => simp only [List.map_cons, List.sum_cons, ihx, List.length_cons]; ring

/-- Element of a list of rows of equal length. -/
theorem flatten_get {n : Nat} {rows : List (List F)} (h : ∀ r ∈ rows, r.length = n) (i e : Nat) (he : e < n) :
    rows.flatten[i * n + e]? = rows[i]?.bind fun r => r[e]? := by
  induction rows generalizing i with
  | nil => simp
  | cons r rows ih =>
    have hr := h r (by simp)
    rw [List.flatten_cons]
    rcases i with _ | i
    · rw [List.getElem?_append_left (by omega)]
      simp
    · rw [List.getElem?_append_right (by rw [hr]; nlinarith)]
      have : (i + 1) * n + e - r.length = i * n + e := by rw [hr, Nat.add_mul, Nat.one_mul]; omega
      rw [this, ih (fun r' hr' => h r' (by simp [hr']))]
      simp

/-- The indices of an array of this shape. -/
def InShape : List Nat → List Nat → Prop
  | [], [] => True
  | d :: ds, i :: is => i < d ∧ InShape ds is
  | _, _ => False

theorem flat_lt {ds is : List Nat} (h : InShape ds is) : flat ds is < ds.prod := by
  induction ds generalizing is with
  | nil =>
    rcases is with _ | ⟨i, is⟩
    · simp [flat]
    · exact absurd h (by simp [InShape])
  | cons d ds ih =>
    rcases is with _ | ⟨i, is⟩
    · exact absurd h (by simp [InShape])
    · obtain ⟨h1, h2⟩ := h
      have := ih h2
      simp only [flat, List.prod_cons]
      calc i * ds.prod + flat ds is < i * ds.prod + ds.prod := by omega
        _ = (i + 1) * ds.prod := by ring
        _ ≤ d * ds.prod := Nat.mul_le_mul_right _ h1

/-- The tuple of the values with these numbers. -/
def pick : List (List A) → List Nat → Option (List A)
  | [], [] => some []
  | xs :: rest, i :: is => do
    let x ← xs[i]?
    let t ← pick rest is
    some (x :: t)
  | _, _ => none

/-- The product has the tuple of the values number `i₁, ..., iₙ` at the position of `[i₁, ..., iₙ]` in C order. -/
theorem product_get {vs : List (List A)} {idx : List Nat} (h : InShape (vs.map List.length) idx) :
    (product vs)[flat (vs.map List.length) idx]? = pick vs idx := by
  induction vs generalizing idx with
  | nil =>
    rcases idx with _ | ⟨i, is⟩
    · rfl
    · exact absurd h (by simp [InShape])
  | cons xs rest ih =>
    rcases idx with _ | ⟨i, is⟩
    · exact absurd h (by simp [InShape])
    · obtain ⟨h1, h2⟩ := h
      have hlt := flat_lt h2
      have e : product (xs :: rest) = (xs.map fun x => (product rest).map fun t => x :: t).flatten := by
        simp only [product, List.flatMap_def]
      rw [e]
      simp only [List.map_cons, flat]
      rw [flatten_get (n := (rest.map List.length).prod) ?_ i _ hlt]
      · rw [List.getElem?_map]
        simp only [pick]
        rw [List.getElem?_eq_getElem h1]
        simp only [Option.map_some, Option.bind_some, List.getElem?_map, ih h2]
        rcases pick rest is with _ | t <;> rfl
      · intro r hr
        obtain ⟨x, _, rfl⟩ := List.mem_map.1 hr
        rw [List.length_map, product_length]

/-- **C78** (the sequence).  There is one element for every combination of the values, in the order of nested loops with the last parameter innermost; without any
combination `parallelize` raises an exception. -/
theorem C78_sequence (params : List (String × Option A)) (kwargs : List (String × List A)) :
    ((∃ xs ∈ swept params kwargs, xs = []) → sequence params kwargs = .err .invalidArgument) ∧
    ((∀ xs ∈ swept params kwargs, xs ≠ []) → ∃ seq, sequence params kwargs = .ok seq ∧ seq ≠ [] ∧
      seq.length = ((swept params kwargs).map List.length).prod ∧
      ∀ idx, InShape ((swept params kwargs).map List.length) idx → seq[flat ((swept params kwargs).map List.length) idx]? = pick (swept params kwargs) idx) := by
  have hl := product_length (swept params kwargs)
  constructor
  · rintro ⟨xs, hxs, rfl⟩
    have h0 : ((swept params kwargs).map List.length).prod = 0 := by
      rw [List.prod_eq_zero_iff]
      exact List.mem_map.2 ⟨[], hxs, rfl⟩
    rw [h0] at hl
    unfold sequence
    rw [if_pos (by rw [List.isEmpty_iff]; exact List.length_eq_zero_iff.1 hl)]
  · intro h
    have hne : product (swept params kwargs) ≠ [] := by
      intro h0
      rw [h0] at hl
      have := List.prod_eq_zero_iff.1 hl.symm
      obtain ⟨xs, hxs, h1⟩ := List.mem_map.1 this
      exact h xs hxs (List.length_eq_zero_iff.1 h1)
    refine ⟨product (swept params kwargs), ?_, hne, hl, fun idx hidx => product_get hidx⟩
    unfold sequence
    rw [if_neg (by rw [List.isEmpty_iff]; exact hne)]

theorem flat_append {ds is : List Nat} (n e : Nat) (h : InShape ds is) : flat (ds ++ [n]) (is ++ [e]) = flat ds is * n + e := by
  induction ds generalizing is with
  | nil =>
    rcases is with _ | ⟨i, is⟩
    · simp [flat]
    · exact absurd h (by simp [InShape])
  | cons d ds ih =>
    rcases is with _ | ⟨i, is⟩
    · exact absurd h (by simp [InShape])
    · simp only [List.cons_append, flat, ih h.2, List.prod_append, List.prod_cons, List.prod_nil]
      ring

end order

/-! ## All schedules -/

section loop
variable {A R S : Type} {W : Nat}

theorem get_compute (r : R) : (Deferred.new r).compute.get = some r := rfl

/-- What `retire` makes of a list of jobs with different numbers. -/
theorem retireAll_spec (makeResult : List (Option R) → S) (save : List Nat) (jobs : List (Nat × Deferred R)) (s : Sweeper R S)
    (hn : (jobs.map (·.1)).Nodup) :
    (s.retireAll makeResult save jobs).count = s.count + jobs.length ∧
    (s.retireAll makeResult save jobs).data.length = s.data.length ∧
    (∀ k d, (k, d) ∈ jobs → k < s.data.length → (s.retireAll makeResult save jobs).data[k]? = some d.get) ∧
    (∀ k, k ∉ jobs.map (·.1) → (s.retireAll makeResult save jobs).data[k]? = s.data[k]?) ∧
    (jobs ≠ [] → s.count + jobs.length ∈ save → (s.retireAll makeResult save jobs).result = some (makeResult (s.retireAll makeResult save jobs).data)) := by
  induction jobs generalizing s with
  | nil => exact ⟨rfl, rfl, by simp, fun _ _ => rfl, by simp⟩
  | cons j jobs ih =>
    simp only [List.map_cons, List.nodup_cons] at hn
    obtain ⟨i1, i2, i3, i4, i5⟩ := ih (s.retire makeResult save j.1 j.2.get) hn.2
    have e : s.retireAll makeResult save (j :: jobs) = (s.retire makeResult save j.1 j.2.get).retireAll makeResult save jobs := rfl
    rw [e]
    refine ⟨by rw [i1]; simp [Sweeper.retire]; omega, by rw [i2]; simp [Sweeper.retire], ?_, ?_, ?_⟩
    · intro k d hk hlt
      rcases List.mem_cons.1 hk with hk | hk
      · subst hk
        rw [i4 k hn.1]
        simp [Sweeper.retire, List.getElem?_set_self hlt]
      · exact i3 k d hk (by simpa [Sweeper.retire] using hlt)
    · intro k hk
      simp only [List.map_cons, List.mem_cons, not_or] at hk
      rw [i4 k hk.2]
      simp only [Sweeper.retire]
      rw [List.getElem?_set_ne (fun h => hk.1 h.symm)]
    · intro _ hsave
      by_cases hj : jobs = []
      · subst hj
        have hc : s.count + 1 ∈ save := hsave
        simp [Sweeper.retireAll, Sweeper.retire, hc]
      · refine i5 hj ?_
        simp only [Sweeper.retire]
        simpa [Nat.add_comm, Nat.add_left_comm, Nat.add_assoc] using hsave

theorem total_mem_saveSet (points : List Nat) (n : Nat) : n ∈ saveSet points n := by simp [saveSet]

/-- All jobs in any order. -/
theorem retire_perm (makeResult : List (Option R) → S) (points : List Nat) (f : A → R) (seq : List A) (hne : seq ≠ []) (jobs : List (Nat × Deferred R))
    (hp : jobs.Perm (sequentialJobs f seq)) :
    ((Sweeper.init seq.length).retireAll makeResult (saveSet points seq.length) jobs).result = some (makeResult (seq.map fun t => some (f t))) := by
  have hfst : (sequentialJobs f seq).map (·.1) = List.range seq.length := by
    apply List.ext_getElem?
    intro i
    simp only [sequentialJobs, List.map_map, List.getElem?_map, List.getElem?_zipIdx]
    by_cases hi : i < seq.length
    · rw [List.getElem?_eq_getElem hi, List.getElem?_range hi]
      simp
    · rw [List.getElem?_eq_none (by omega), List.getElem?_eq_none (by simpa using hi)]
      rfl
  have hlen : jobs.length = seq.length := by rw [hp.length_eq]; simp [sequentialJobs]
  have hn : (jobs.map (·.1)).Nodup := (hp.map _).nodup_iff.2 (by rw [hfst]; exact List.nodup_range)
  obtain ⟨_, h2, h3, _, h5⟩ := retireAll_spec makeResult (saveSet points seq.length) jobs (Sweeper.init seq.length) hn
  rw [h5]
  · congr 2
    apply List.ext_getElem?
    intro i
    by_cases hi : i < seq.length
    · rw [h3 i ((Deferred.new (f seq[i])).compute)]
      · rw [get_compute, List.getElem?_map, List.getElem?_eq_getElem hi]
        rfl
      · rw [hp.mem_iff]
        refine List.mem_map.2 ⟨(seq[i], i), ?_, rfl⟩
        rw [List.mem_zipIdx_iff_getElem?]
        simp [hi]
      · simpa [Sweeper.init] using hi
    · rw [List.getElem?_eq_none (by rw [h2]; simpa [Sweeper.init] using hi), List.getElem?_eq_none (by simpa using hi)]
  · intro h
    rw [h] at hlen
    exact hne (List.length_eq_zero_iff.1 hlen.symm)
  · simp only [Sweeper.init, Nat.zero_add, hlen]
    exact total_mem_saveSet _ _

/-- **C78** (one thread).  With one thread the result is made of the results for all elements of the sequence, in their order. -/
theorem C78_sequential (makeResult : List (Option R) → S) (points : List Nat) (f : A → R) (seq : List A) (hne : seq ≠ []) :
    ((Sweeper.init seq.length).retireAll makeResult (saveSet points seq.length) (sequentialJobs f seq)).result =
      some (makeResult (seq.map fun t => some (f t))) :=
  retire_perm makeResult points f seq hne _ (List.Perm.refl _)

/-- **C78** (all schedules).  When `parallel_for` has returned, whatever the number of threads, the size of the queue and the schedule, the result is made of the
results for all elements of the sequence, in their order. -/
theorem C78_parallel (makeResult : List (Option R) → S) (points : List Nat) (queueSize : Nat) (f : A → R) (d : R) (seq : List A) (hne : seq ≠ [])
    (s : PF W (Deferred R)) (h : PFReach (parallelArgs queueSize f d seq) s) (hr : s.Returned) :
    ((Sweeper.init seq.length).retireAll makeResult (saveSet points seq.length) s.retired).result = some (makeResult (seq.map fun t => some (f t))) := by
  obtain ⟨_, _, hp⟩ := C31_exactly_once _ s h hr
  refine retire_perm makeResult points f seq hne _ (hp.trans ?_)
  have : (List.range (parallelArgs queueSize f d seq).size).map
      (fun k => (k, (parallelArgs queueSize f d seq).compute ((parallelArgs queueSize f d seq).produce k))) = sequentialJobs f seq := by
    apply List.ext_getElem?
    intro i
    simp only [sequentialJobs, parallelArgs, List.getElem?_map, List.getElem?_zipIdx]
    by_cases hi : i < seq.length
    · rw [List.getElem?_eq_getElem hi, List.getElem?_range hi]
      simp [List.getElem?_eq_getElem hi]
    · rw [List.getElem?_eq_none (by simpa using hi), List.getElem?_eq_none (by omega)]
      rfl
  rw [this]

/-- **C78** (at any time).  The data which is saved or plotted on the way has for every element of the sequence its own result or none, and as many results as the
counter of the progress bar says. -/
theorem C78_progress (makeResult : List (Option R) → S) (save : List Nat) (queueSize : Nat) (f : A → R) (d : R) (seq : List A)
    (s : PF W (Deferred R)) (h : PFReach (parallelArgs queueSize f d seq) s) :
    let p := (Sweeper.init seq.length).retireAll makeResult save s.retired
    p.data.length = seq.length ∧ p.count = p.data.countP Option.isSome ∧
    ∀ (k : Nat) (t : A), seq[k]? = some t → p.data[k]? = some none ∨ p.data[k]? = some (some (f t)) := by
  obtain ⟨hn, hj⟩ := C31_at_most_once _ s h
  intro p
  obtain ⟨h1, h2, h3, h4, _⟩ := retireAll_spec makeResult save s.retired (Sweeper.init seq.length) hn
  have hget : ∀ (k : Nat) (x : Deferred R), (k, x) ∈ s.retired → ∃ t, seq[k]? = some t ∧ x.get = some (f t) := by
    intro k x hk
    obtain ⟨hlt, hx⟩ := hj _ hk
    simp only [parallelArgs] at hlt hx
    refine ⟨seq[k], List.getElem?_eq_getElem hlt, ?_⟩
    rw [hx, get_compute, List.getElem?_eq_getElem hlt]
    rfl
  have hdata : ∀ (k : Nat) (t : A), seq[k]? = some t →
      (k ∈ s.retired.map (·.1) ∧ p.data[k]? = some (some (f t))) ∨ (k ∉ s.retired.map (·.1) ∧ p.data[k]? = some none) := by
    intro k t hk
    have hlt : k < seq.length := (List.getElem?_eq_some_iff.1 hk).1
    by_cases hm : k ∈ s.retired.map (·.1)
    · left
      obtain ⟨⟨k', x⟩, hx, rfl⟩ := List.mem_map.1 hm
      obtain ⟨t', ht', hxt⟩ := hget k' x hx
      simp only at hk
      rw [hk] at ht'
      simp only [Option.some.injEq] at ht'
      subst ht'
      exact ⟨hm, by rw [h3 k' x hx (by simpa [Sweeper.init] using hlt), hxt]⟩
    · right
      exact ⟨hm, by rw [h4 k hm]; simp [Sweeper.init, hlt]⟩
  have hlen : p.data.length = seq.length := by rw [h2]; simp [Sweeper.init]
  refine ⟨hlen, ?_, fun k t hk => ?_⟩
  · rw [h1]
    simp only [Sweeper.init, Nat.zero_add]
    have hcount : p.data.countP Option.isSome = ((List.range seq.length).filter fun k => decide (k ∈ s.retired.map (·.1))).length := by
      have he : p.data = (List.range seq.length).map fun k => (p.data[k]?).getD none := by
        apply List.ext_getElem?
        intro i
        by_cases hi : i < seq.length
        · have hip : i < p.data.length := by omega
          rw [List.getElem?_map, List.getElem?_range hi, Option.map_some, List.getElem?_eq_getElem hip, Option.getD_some]
        · rw [List.getElem?_eq_none (by omega), List.getElem?_eq_none (by simpa using hi)]
      rw [he, List.countP_map, ← List.countP_eq_length_filter]
      apply List.countP_congr
      intro k hk
      have hlt : k < seq.length := by simpa using hk
      rw [Function.comp]
      rcases hdata k seq[k] (List.getElem?_eq_getElem hlt) with ⟨g1, g2⟩ | ⟨g1, g2⟩
      · simp only [g2, Option.getD_some, Option.isSome_some, decide_eq_true g1]
      · simp only [g2, Option.getD_some, Option.isSome_none, decide_eq_false g1]
    rw [hcount, ← List.length_map (f := Prod.fst) (as := s.retired)]
    apply List.Perm.length_eq
    rw [List.perm_ext_iff_of_nodup hn (List.nodup_range.filter _)]
    intro k
    simp only [List.mem_filter, List.mem_range, decide_eq_true_eq]
    refine ⟨fun hk => ⟨?_, hk⟩, fun hk => hk.2⟩
    obtain ⟨⟨k', x⟩, hx, rfl⟩ := List.mem_map.1 hk
    exact (hj _ hx).1
  · rcases hdata k t hk with ⟨_, g⟩ | ⟨_, g⟩
    · exact .inr g
    · exact .inl g

/-- **C78** (results on the way).  What is saved and plotted after some jobs was made of the data at the last of the save points which have been passed, and there is
nothing before the first. -/
theorem C78_saved (makeResult : List (Option R) → S) (save : List Nat) (n : Nat) (jobs : List (Nat × Deferred R)) :
    (((Sweeper.init n).retireAll makeResult save jobs).result = none ∧ ∀ c, 0 < c → c ≤ jobs.length → c ∉ save) ∨
    ∃ c, 0 < c ∧ c ≤ jobs.length ∧ c ∈ save ∧ (∀ c', c < c' → c' ≤ jobs.length → c' ∉ save) ∧
      ((Sweeper.init n).retireAll makeResult save jobs).result =
        some (makeResult ((Sweeper.init n).retireAll makeResult save (jobs.take c)).data) := by
  have hcount : ∀ (jobs : List (Nat × Deferred R)) (s : Sweeper R S),
      (s.retireAll makeResult save jobs).count = s.count + jobs.length := by
    intro jobs
    induction jobs with
    | nil => intro s; rfl
    | cons j jobs ih =>
      intro s
      have e : s.retireAll makeResult save (j :: jobs) = (s.retire makeResult save j.1 j.2.get).retireAll makeResult save jobs := rfl
      rw [e, ih, List.length_cons]
      simp only [Sweeper.retire]
      omega
  induction jobs using List.reverseRecOn with
  | nil => exact .inl ⟨rfl, fun c h0 h1 => by simp at h1; omega⟩
  | append_singleton jobs j ih =>
    have e : (Sweeper.init n).retireAll makeResult save (jobs ++ [j]) =
        ((Sweeper.init n).retireAll makeResult save jobs).retire makeResult save j.1 j.2.get := by
      unfold Sweeper.retireAll
      rw [List.foldl_append]
      rfl
    have hc := hcount jobs (Sweeper.init n)
    have hc0 : (Sweeper.init n : Sweeper R S).count = 0 := rfl
    rw [hc0, Nat.zero_add] at hc
    by_cases hs : jobs.length + 1 ∈ save
    · right
      refine ⟨jobs.length + 1, by omega, by simp, hs, ?_, ?_⟩
      · intro c' h1 h2
        rw [List.length_append, List.length_singleton] at h2
        omega
      · rw [List.take_of_length_le (by simp), e]
        simp only [Sweeper.retire, hc, if_pos hs]
    · have hr : ((Sweeper.init n).retireAll makeResult save (jobs ++ [j])).result =
          ((Sweeper.init n).retireAll makeResult save jobs).result := by
        rw [e]
        simp only [Sweeper.retire, hc, if_neg hs]
      rw [hr]
      rcases ih with ⟨i1, i2⟩ | ⟨c, i1, i2, i3, i4, i5⟩
      · left
        refine ⟨i1, fun c h0 h1 => ?_⟩
        rw [List.length_append, List.length_singleton] at h1
        rcases Nat.lt_or_ge jobs.length c with h | h
        · have : c = jobs.length + 1 := by omega
          exact this ▸ hs
        · exact i2 c h0 h
      · right
        refine ⟨c, i1, by rw [List.length_append]; omega, i3, fun c' h0 h1 => ?_, ?_⟩
        · rw [List.length_append, List.length_singleton] at h1
          rcases Nat.lt_or_ge jobs.length c' with h | h
          · have : c' = jobs.length + 1 := by omega
            exact this ▸ hs
          · exact i4 c' h0 h
        · rw [i5, List.take_append_of_le_length i2]

end loop

/-! ## Sweeps -/

section sweeps
variable {A F : Type} {W : Nat}

theorem stack_all {n : Nat} (zero : List F) (f : List A → List F) (seq : List (List A)) (hne : seq ≠ []) (hn : ∀ t ∈ seq, (f t).length = n) :
    stack zero (seq.map fun t => some (f t)) = .ok (seq.map f) := by
  unfold stack
  simp only [List.map_map, Function.comp_def, Option.getD_some]
  rcases seq with _ | ⟨t, seq⟩
  · exact absurd rfl hne
  · simp only [List.map_cons]
    rw [if_pos]
    rw [List.all_eq_true]
    intro r hr
    obtain ⟨t', ht', rfl⟩ := List.mem_map.1 hr
    rw [hn t (by simp), hn t' (by simp [ht'])]
    simp

/-- **C78** (rows).  The rows of the result of a sweep are the results of the jobs, and `zero` for those which have not been computed yet. -/
theorem C78_rows {n : Nat} (zero : List F) (data : List (Option (List F))) (hne : data ≠ []) (hz : zero.length = n)
    (hn : ∀ r, some r ∈ data → r.length = n) :
    ∃ rows, stack zero data = .ok rows ∧ rows.length = data.length ∧
      ∀ k : Nat, (data[k]? = some none → rows[k]? = some zero) ∧ ∀ r, data[k]? = some (some r) → rows[k]? = some r := by
  have hl : ∀ v ∈ data, (v.getD zero).length = n := by
    intro v hv
    rcases v with _ | r
    · exact hz
    · exact hn r hv
  refine ⟨data.map fun v => v.getD zero, ?_, by simp, fun k => ⟨fun h => ?_, fun r h => ?_⟩⟩
  · unfold stack
    rcases data with _ | ⟨v, data⟩
    · exact absurd rfl hne
    · simp only [List.map_cons]
      rw [if_pos]
      rw [List.all_eq_true]
      intro r hr
      obtain ⟨w, hw, rfl⟩ := List.mem_map.1 hr
      rw [hl v (by simp), hl w (by simp [hw])]
      simp
  · rw [List.getElem?_map, h]; rfl
  · rw [List.getElem?_map, h]; rfl

example : stack [0, 0] [some [1, 2], none, some [3, 4]] = .ok [[1, 2], [0, 0], [3, 4]] := by decide

/-- **C78** (`sweep` and `ndsweep`).  Element `[i₁, ..., iₙ, e]` of the result of a sweep over `n` lists of parameters is number `e` of what the user's function computes
for the values number `i₁, ..., iₙ`, for every schedule of the threads. -/
theorem C78_sweep (points : List Nat) (queueSize : Nat) (vs : List (List A)) (f : List A → List F) (d zero : List F) (n : Nat)
    (hvs : ∀ xs ∈ vs, xs ≠ []) (hn : ∀ t ∈ product vs, (f t).length = n)
    (s : PF W (Deferred (List F))) (h : PFReach (parallelArgs queueSize f d (product vs)) s) (hr : s.Returned) :
    ∃ rows, ((Sweeper.init (product vs).length).retireAll (stack zero) (saveSet points (product vs).length) s.retired).result = some (.ok rows) ∧
      ∀ idx, InShape (vs.map List.length) idx → ∀ e < n, ∃ t, pick vs idx = some t ∧
        ∃ x, (f t)[e]? = some x ∧ reshaped rows (vs.map List.length ++ [n]) (idx ++ [e]) = .ok x := by
  have hne : product vs ≠ [] := by
    intro h0
    have hl := product_length vs
    rw [h0] at hl
    have : 0 < (vs.map List.length).prod := by
      apply Nat.pos_of_ne_zero
      rw [Ne, List.prod_eq_zero_iff]
      intro hx
      obtain ⟨xs, hxs, hl0⟩ := List.mem_map.1 hx
      exact hvs xs hxs (List.length_eq_zero_iff.1 hl0)
    simp only [List.length_nil] at hl
    omega
  refine ⟨(product vs).map f, ?_, ?_⟩
  · rw [C78_parallel (stack zero) points queueSize f d (product vs) hne s h hr, stack_all zero f (product vs) hne hn]
  · intro idx hidx e he
    have hrows : ∀ r ∈ (product vs).map f, r.length = n := by
      intro r hr
      obtain ⟨t, ht, rfl⟩ := List.mem_map.1 hr
      exact hn t ht
    have hg := product_get hidx
    have hlt : flat (vs.map List.length) idx < (product vs).length := by rw [product_length]; exact flat_lt hidx
    rw [List.getElem?_eq_getElem hlt] at hg
    generalize ht : (product vs)[flat (vs.map List.length) idx] = t at hg
    have hmem : t ∈ product vs := ht ▸ List.getElem_mem hlt
    have hel : e < (f t).length := by rw [hn t hmem]; exact he
    refine ⟨t, hg.symm, (f t)[e], List.getElem?_eq_getElem hel, ?_⟩
    unfold reshaped
    have hsize : ((product vs).map f).flatten.length = (vs.map List.length ++ [n]).prod := by
      rw [List.length_flatten, List.map_map]
      have : (product vs).map (List.length ∘ f) = List.replicate (product vs).length n := by
        rw [List.eq_replicate_iff]
        refine ⟨by simp, ?_⟩
        intro b hb
        obtain ⟨t', ht', rfl⟩ := List.mem_map.1 hb
        exact hn t' ht'
      rw [this, List.sum_replicate, product_length]
      simp
    rw [if_neg (by simpa using hsize), flat_append n e hidx, flatten_get hrows _ e he, List.getElem?_map, List.getElem?_eq_getElem hlt, ht]
    simp [List.getElem?_eq_getElem hel]

end sweeps

/-! ## Solvers used by several jobs -/

section race
variable {V : Type} {W : Nat}

/-- **C78** (no data race).  Two compute threads never work on the same job; so if every job has its own solver object, no solver is used by two threads at the same
time. -/
theorem C78_no_race {T : Type} (A : PFArgs V) (solver : Nat → T) (hs : Function.Injective solver) (s : PF W V) (h : PFReach A s)
    (w w' : Fin W) (hw : w ≠ w') (k k' : Nat) (v v' : V) (h1 : s.workers w = .compute k v) (h2 : s.workers w' = .compute k' v') :
    solver k ≠ solver k' := by
  intro heq
  have hk := hs heq
  subst hk
  obtain ⟨-, J⟩ := pf_reach h
  have hle : (∑ w, (s.workers w).raw) ≤ Multiset.range (s.prod.next A.size) := by
    rw [← J.computed]
    exact le_trans (Multiset.le_add_left _ _) (Multiset.le_add_right _ _)
  have h2' : ({k} + {k} : Multiset Nat) ≤ ∑ w, (s.workers w).raw := by
    have : (∑ x ∈ ({w, w'} : Finset (Fin W)), (s.workers x).raw) ≤ ∑ x, (s.workers x).raw :=
      Finset.sum_le_sum_of_subset (Finset.subset_univ _)
    rw [Finset.sum_pair hw, h1, h2] at this
    exact this
  have hnd := Multiset.nodup_of_le (h2'.trans hle) (Multiset.nodup_range _)
  simp at hnd

/-- **C78** (finding).  With two or more compute threads, the first two jobs can be computed at the same time.  If both use the same solver, which is not protected by a
lock (`calc_ldos` changes its caches), this is a data race. -/
theorem C78_race (A : PFArgs V) (hA : 2 ≤ A.size) : ∃ s : PF (W + 2) V, PFReach A s ∧
    s.workers 0 = .compute 0 (A.produce 0) ∧ s.workers 1 = .compute 1 (A.produce 1) := by
  have hcap : 0 < A.cap (W + 2) := by
    unfold PFArgs.cap
    split <;> omega
  have h01 : (0 : Fin (W + 2)) ≠ 1 := by
    intro h
    have := congrArg Fin.val h
    simp at this
  have s0 : PFReach (W := W + 2) A (PF.init (W + 2) V) := .init
  have s1 := s0.step (.pReg _ rfl)
  have s2 := s1.step (.pMake _ 0 rfl (by omega))
  have s3 := s2.step (.pPush _ 0 _ rfl (by simpa [PF.init] using hcap))
  have s4 := s3.step (.pNotifyNone _ 0 rfl (by intro w; simp [PF.init]))
  have s5 := s4.step (.wReg _ 0 (by simp [PF.init]))
  have s6 := s5.step (.wPop _ 0 0 (A.produce 0) [] (by simp) (by simp [PF.init]))
  have s7 := s6.step (.wGot _ 0 0 (A.produce 0) (by simp))
  have s8 := s7.step (.pMake _ 1 (by simp [Producer.wake]) (by omega))
  have s9 := s8.step (.pPush _ 1 _ rfl (by simpa using hcap))
  have s10 := s9.step (.wReg _ 1 (by simp [PF.init, Function.update_of_ne h01.symm]))
  have s11 := s10.step (.wPop _ 1 1 (A.produce 1) [] (by simp) (by simp))
  have s12 := s11.step (.wGot _ 1 1 (A.produce 1) (by simp))
  refine ⟨_, s12, ?_, ?_⟩
  · simp [Function.update_of_ne h01]
  · simp

end race

/-! ## Examples -/

example : SweptFirst [("a", none), ("b", none), ("energy", some 7)] [("b", [3, 4]), ("a", [1, 2])] ∧
    swept [("a", none), ("b", none), ("energy", some 7)] [("b", [3, 4]), ("a", [1, 2])] = [[1, 2], [3, 4]] ∧
    sequence [("a", none), ("b", none), ("energy", some 7)] [("b", [3, 4]), ("a", [1, 2])] = .ok [[1, 3], [1, 4], [2, 3], [2, 4]] ∧
    bindCall [("a", none), ("b", none), ("energy", some 7)] [2, 3] (fixtures [("a", none), ("b", none), ("energy", some 7)] [("b", [3, 4]), ("a", [1, 2])]) =
      .ok [("a", .val 2), ("b", .val 3), ("energy", .val 7)] :=
  ⟨⟨[("a", none), ("b", none)], [("energy", some 7)], rfl, by decide, by decide⟩, by decide, by decide, by decide⟩

/-- A parameter which is not swept before one which is: the call raises an exception. -/
example : ¬ SweptFirst [("energy", some 7), ("a", none)] [("a", [1, 2])] ∧
    bindCall [("energy", some 7), ("a", none)] [1] (fixtures [("energy", some 7), ("a", none)] [("a", [1, 2])]) = .err .runtimeError := by
  refine ⟨?_, by decide⟩
  rintro ⟨pre, post, h, h1, h2⟩
  rcases pre with _ | ⟨p, pre⟩
  · have := h2 ("a", none) (by rw [List.nil_append] at h; rw [← h]; simp)
    revert this
    decide
  · rw [List.cons_append, List.cons.injEq] at h
    have := h1 p (by simp)
    rw [← h.1] at this
    revert this
    decide

/-- A misspelt name in the call of `parallelize` is ignored, and a parameter without values and default gets a class as its value. -/
theorem C78_misspelt_witness :
    swept [("angle", none), ("energy", some 7)] [("angel", [1, 2])] = [] ∧
    bindCall [("angle", none), ("energy", some 7)] [] (fixtures [("angle", none), ("energy", some 7)] [("angel", [1, 2])]) =
      .ok [("angle", .empty), ("energy", .val 7)] := by
  decide

/-- One thread and one job: an execution until the call returns. -/
theorem one_job_run {V : Type} (A : PFArgs V) (hA : A.size = 1) : ∃ s : PF 1 V, PFReach A s ∧ s.Returned ∧ s.retired = [(0, A.compute (A.produce 0))] := by
  have s0 : PFReach (W := 1) A ⟨[], false, 0, [], false, 0, .reg, fun _ => .reg, .pop, [], [], []⟩ := .init
  have s1 : PFReach (W := 1) A ⟨[], false, 1, [], false, 0, .make 0, fun _ => .reg, .pop, [], [], []⟩ := s0.step (.pReg _ rfl)
  have s2 : PFReach (W := 1) A ⟨[], false, 1, [], false, 0, .push 0 (A.produce 0), fun _ => .reg, .pop, [0], [], []⟩ :=
    s1.step (.pMake _ 0 rfl (by omega))
  have s3 : PFReach (W := 1) A ⟨[], false, 1, [], false, 1, .push 0 (A.produce 0), fun _ => .pop, .pop, [0], [], []⟩ := by
    rw [← update_one .reg .pop]; exact s2.step (.wReg _ 0 rfl)
  have s4 : PFReach (W := 1) A ⟨[], false, 1, [], false, 1, .push 0 (A.produce 0), fun _ => .waiting, .pop, [0], [], []⟩ := by
    rw [← update_one .pop .waiting]; exact s3.step (.wWait _ 0 rfl rfl rfl)
  have s5 : PFReach (W := 1) A ⟨[], false, 1, [], false, 1, .push 0 (A.produce 0), fun _ => .waiting, .waiting, [0], [], []⟩ :=
    s4.step (.rWait _ rfl rfl rfl)
  have s6 : PFReach (W := 1) A ⟨[(0, A.produce 0)], false, 1, [], false, 1, .notify 0, fun _ => .waiting, .waiting, [0], [], []⟩ :=
    s5.step (.pPush _ 0 (A.produce 0) rfl (by unfold PFArgs.cap; dsimp; split <;> omega))
  have s7 : PFReach (W := 1) A ⟨[(0, A.produce 0)], false, 1, [], false, 1, .make 1, fun _ => .pop, .waiting, [0], [], []⟩ := by
    rw [← update_one .waiting .pop]; exact s6.step (.pNotifyOne _ 0 0 rfl rfl)
  have s8 : PFReach (W := 1) A ⟨[], false, 1, [], false, 1, .make 1, fun _ => .got 0 (A.produce 0), .waiting, [0], [], []⟩ := by
    rw [← update_one .pop (.got 0 (A.produce 0))]; exact s7.step (.wPop _ 0 0 (A.produce 0) [] rfl rfl)
  have s9 : PFReach (W := 1) A ⟨[], false, 1, [], false, 1, .make 1, fun _ => .compute 0 (A.produce 0), .waiting, [0], [], []⟩ := by
    rw [← update_one (.got 0 (A.produce 0)) (.compute 0 (A.produce 0))]; exact s8.step (.wGot _ 0 0 (A.produce 0) rfl)
  have s10 : PFReach (W := 1) A ⟨[], false, 1, [], false, 1, .make 1, fun _ => .push 0 (A.compute (A.produce 0)), .waiting, [0], [0], []⟩ := by
    rw [← update_one (.compute 0 (A.produce 0)) (.push 0 (A.compute (A.produce 0)))]; exact s9.step (.wCompute _ 0 0 (A.produce 0) rfl)
  have s11 : PFReach (W := 1) A ⟨[], false, 1, [(0, A.compute (A.produce 0))], false, 1, .make 1, fun _ => .notify, .waiting, [0], [0], []⟩ := by
    rw [← update_one (.push 0 (A.compute (A.produce 0))) .notify]; exact s10.step (.wPush _ 0 0 (A.compute (A.produce 0)) rfl)
  have s12 : PFReach (W := 1) A ⟨[], false, 1, [(0, A.compute (A.produce 0))], false, 1, .make 1, fun _ => .pop, .pop, [0], [0], []⟩ := by
    rw [← update_one .notify .pop]; exact s11.step (.wNotify _ 0 rfl)
  have s13 : PFReach (W := 1) A ⟨[], false, 1, [], false, 1, .make 1, fun _ => .pop, .retire 0 (A.compute (A.produce 0)), [0], [0], []⟩ :=
    s12.step (.rPop _ 0 (A.compute (A.produce 0)) [] rfl rfl)
  have s14 : PFReach (W := 1) A ⟨[], false, 1, [], false, 1, .make 1, fun _ => .pop, .pop, [0], [0], [(0, A.compute (A.produce 0))]⟩ :=
    s13.step (.rRetire _ 0 (A.compute (A.produce 0)) rfl)
  have s15 : PFReach (W := 1) A ⟨[], false, 1, [], false, 1, .unreg, fun _ => .pop, .pop, [0], [0], [(0, A.compute (A.produce 0))]⟩ :=
    s14.step (.pEnd _ 1 rfl (by omega))
  have s16 : PFReach (W := 1) A ⟨[], true, 0, [], false, 1, .notifyAll, fun _ => .pop, .pop, [0], [0], [(0, A.compute (A.produce 0))]⟩ :=
    s15.step (.pUnreg _ rfl)
  have s17 : PFReach (W := 1) A ⟨[], true, 0, [], false, 1, .done, fun _ => .pop, .pop, [0], [0], [(0, A.compute (A.produce 0))]⟩ :=
    s16.step (.pNotifyAll _ rfl)
  have s18 : PFReach (W := 1) A ⟨[], true, 0, [], false, 1, .done, fun _ => .unreg, .pop, [0], [0], [(0, A.compute (A.produce 0))]⟩ := by
    rw [← update_one .pop .unreg]; exact s17.step (.wPopClosed _ 0 rfl rfl rfl)
  have s19 : PFReach (W := 1) A ⟨[], true, 0, [], true, 0, .done, fun _ => .notifyAll, .pop, [0], [0], [(0, A.compute (A.produce 0))]⟩ := by
    rw [← update_one .unreg .notifyAll]; exact s18.step (.wUnreg _ 0 rfl)
  have s20 : PFReach (W := 1) A ⟨[], true, 0, [], true, 0, .done, fun _ => .done, .pop, [0], [0], [(0, A.compute (A.produce 0))]⟩ := by
    rw [← update_one .notifyAll .done]; exact s19.step (.wNotifyAll _ 0 rfl)
  have s21 : PFReach (W := 1) A ⟨[], true, 0, [], true, 0, .done, fun _ => .done, .done, [0], [0], [(0, A.compute (A.produce 0))]⟩ :=
    s20.step (.rPopClosed _ rfl rfl rfl)
  exact ⟨_, s21, ⟨rfl, fun _ => rfl, rfl⟩, rfl⟩

/-- A sweep over one pair of values. -/
example : ∃ s : PF 1 (Deferred (List Nat)), PFReach (parallelArgs 0 (fun t => [t.sum, 7]) [] (product [[3], [4]])) s ∧ s.Returned ∧
    ((Sweeper.init 1).retireAll (stack [0, 0]) (saveSet [0, 0] 1) s.retired).result = some (.ok [[7, 7]]) := by
  obtain ⟨s, h1, h2, h3⟩ := one_job_run (parallelArgs 0 (fun t : List Nat => [t.sum, 7]) [] (product [[3], [4]])) rfl
  exact ⟨s, h1, h2, by rw [h3]; rfl⟩

example : (product [[1, 2], [3, 4]])[flat [2, 2] [1, 0]]? = some [2, 3] ∧ InShape [2, 2] [1, 0] ∧ pick [[1, 2], [3, 4]] [1, 0] = some [2, 3] ∧
    reshaped [[1, 2], [3, 4], [5, 6], [7, 8]] [2, 2, 2] [1, 0, 1] = .ok 6 := by
  refine ⟨by decide, by simp [InShape], by decide, by decide⟩

end Verif.Thread
