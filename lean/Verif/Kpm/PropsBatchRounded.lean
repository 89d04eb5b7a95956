import Verif.Kpm.BatchRounded
import Verif.Kpm.PropsBatch
import Verif.Kpm.FloatKernels
import Verif.Kpm.PropsFloat
import Verif.Thread.OneWorker

/-!
# Batched calculations in floating-point arithmetic: what depends on the threads and what does not (C101)
-/

namespace Verif.Kpm

open Verif.Thread

variable {M D : Type}

/-! ## Columns -/

/-- Specification.  Moments that may be those of vector `k`: computed alone, or as a column of some batch. -/
def Columns.Possible (cols : Columns M) (k : Nat) (a : M) : Prop := a = cols.one k ∨ ∃ i j, i + j = k ∧ (cols.many i)[j]? = some a

theorem give_possible {cols : Columns M} {bs : Nat} (hm : ∀ t, (cols.many t).length = bs) : cols.Give bs (fun _ => True) (fun _ => True) cols.Possible :=
  ⟨fun t _ _ => ⟨.inl rfl, trivial⟩, fun t _ _ => ⟨hm t, fun i h => .inr ⟨t, i, rfl, List.getElem?_eq_getElem h⟩, trivial⟩⟩

theorem leftCols_any {nv idx : Nat} (a : List M) (h : idx ≤ nv) : leftCols nv idx a = .ok (a.take (min a.length (nv - idx))) := by
  unfold leftCols
  by_cases hc : (nv : Int) - idx > a.length
  · simp only
    rw [if_pos hc, if_neg (by omega), Int.toNat_natCast, Nat.min_eq_left (by omega)]
  · simp only
    rw [if_neg hc, if_neg (by omega), Nat.min_eq_right (by omega)]
    congr 2
    omega

theorem setCols_any {idx : Nat} {l : List M} {x : List (Option M)} (h : idx + l.length ≤ x.length) :
    ∃ y, setCols idx l x = .ok y ∧ y.length = x.length ∧ ∀ k, y[k]? = if idx ≤ k ∧ k < idx + l.length then (l[k - idx]?).map some else x[k]? := by
  refine ⟨_, if_pos h, ?_, fun k => ?_⟩
  · simp; omega
  · by_cases h1 : k < idx
    · rw [if_neg (by omega), List.append_assoc, List.getElem?_append_left (by simp; omega), List.getElem?_take_of_lt h1]
    · by_cases h2 : k < idx + l.length
      · rw [if_pos ⟨by omega, h2⟩, List.getElem?_append_left (by simp; omega), List.getElem?_append_right (by simp; omega)]
        simp only [List.length_take, List.getElem?_map]
        rw [Nat.min_eq_left (by omega)]
      · rw [if_neg (by omega), List.getElem?_append_right (by simp; omega)]
        simp only [List.length_append, List.length_take, List.length_map, List.getElem?_drop]
        congr 1
        omega

/-- State of the concatenator after the vectors `d`. -/
def CatAny (nv : Nat) (V : Nat → M → Prop) (d : Multiset Nat) (c : Nat) (x : List (Option M)) : Prop :=
  (d = 0 ∧ c = 0) ∨ (c ≠ 0 ∧ x.length = nv ∧ ∀ k ∈ d, k < nv → ∃ a, x[k]? = some (some a) ∧ V k a)

theorem concatenates_any {bs nv N : Nat} (V : Nat → M → Prop) (hbs : 0 < bs) : CollectsAny bs nv N V concatenator (CatAny nv V) := by
  have hdata : ∀ (d : Multiset Nat) c (x : List (Option M)), CatAny nv V d c x →
      (if c = 0 then List.replicate nv none else x).length = nv ∧
      ∀ k ∈ d, k < nv → ∃ a, (if c = 0 then List.replicate nv none else x)[k]? = some (some a) ∧ V k a := by
    intro d c x hg
    rcases hg with ⟨rfl, rfl⟩ | ⟨hc, hl, hk⟩
    · simp
    · rw [if_neg hc]; exact ⟨hl, hk⟩
  constructor
  · intro d c x idx a hg ha _ hw hidx _ _
    obtain ⟨hl, hk⟩ := hdata d c x hg
    obtain ⟨y, e, hy, hyk⟩ := setCols_any (idx := idx) (l := [a]) (x := if c = 0 then List.replicate nv none else x) (by simp only [List.length_singleton]; omega)
    simp only [concatenator, e, Res.bind_ok]
    refine ⟨_, _, rfl, .inr ⟨by omega, by omega, fun k hkd hkn => ?_⟩⟩
    rw [hyk]
    simp only [List.length_singleton]
    by_cases h : idx ≤ k ∧ k < idx + 1
    · obtain rfl : k = idx := by omega
      rw [if_pos h]
      exact ⟨a, by simp, ha⟩
    · rw [if_neg h]
      rcases Multiset.mem_cons.1 hkd with rfl | hkd
      · omega
      · exact hk k hkd hkn
  · intro d c x idx a hg hla ha _ hw hidx _ _
    obtain ⟨hl, hk⟩ := hdata d c x hg
    have hidn : idx < nv := by omega
    have hlen : (a.take (min a.length (nv - idx))).length = min bs (nv - idx) := by simp [hla]
    obtain ⟨y, e, hy, hyk⟩ := setCols_any (idx := idx) (l := a.take (min a.length (nv - idx))) (x := if c = 0 then List.replicate nv none else x)
      (by rw [hlen]; have := Nat.min_le_right bs (nv - idx); omega)
    simp only [concatenator, leftCols_any a hidn.le, Res.bind_ok, e]
    have hmin : 0 < min bs (nv - idx) := lt_min hbs (by omega)
    refine ⟨_, _, rfl, .inr ⟨by rw [hlen]; omega, by omega, fun k hkd hkn => ?_⟩⟩
    rw [hyk, hlen]
    by_cases h : idx ≤ k ∧ k < idx + min bs (nv - idx)
    · rw [if_pos h]
      have hka : k - idx < a.length := by have := Nat.min_le_left bs (nv - idx); omega
      refine ⟨a[k - idx], ?_, ?_⟩
      · rw [List.getElem?_take_of_lt (by rw [hla]; omega), List.getElem?_eq_getElem hka]
        rfl
      · have := ha (k - idx) hka
        rwa [show idx + (k - idx) = k by omega] at this
    · rw [if_neg h]
      rcases Multiset.mem_add.1 hkd with hkd | hkd
      · simp only [Multiset.mem_map, Multiset.mem_range] at hkd
        obtain ⟨b, hb, rfl⟩ := hkd
        exact absurd ⟨by omega, by rcases Nat.le_total bs (nv - idx) with hh | hh <;> simp only [hh, Nat.min_eq_left, Nat.min_eq_right] <;> omega⟩ h
      · exact hk k hkd hkn

theorem columns_any {W bs nv : Nat} (hW : 0 < W) (hbs : 0 < bs) (hnv : 0 < nv) {cols : Columns M} {A : BatchJob → Prop} {I : Nat → Prop} {V : Nat → M → Prop}
    (hV : cols.Give bs A I V) (hI : I 0) (hA : ∀ j ∈ batchJobs W bs nv, A j) (s : Pool W BatchJob (Res (BatchMem (List (Option M)))) (BatchRun M))
    (h : Thread.Reach (roundedSem bs nv cols concatenator) (batchProg W bs nv) (.ok ⟨0, 0, []⟩) s) (hj : s.joined = true) :
    ∃ mem, s.mem = .ok mem ∧ mem.data.length = nv ∧ ∀ k, k < nv → ∃ a, mem.data[k]? = some (some a) ∧ V k a := by
  have hr := C32_all_jobs hW _ _ _ _ h hj
  rw [beforeJoin_batchProg] at hr
  obtain ⟨h1, h2⟩ := batchJobs_sum (threads := W) (nv := nv) hbs
  obtain ⟨mem, e, hg⟩ := rounded_all hV hI (concatenates_any V hbs) rfl (fun j hj => ⟨hA j hj, h2 j hj⟩) (.inl ⟨rfl, rfl⟩) hr
  refine ⟨mem, e, ?_⟩
  rcases hg with ⟨h0, _⟩ | ⟨_, hl, hk⟩
  · have := congrArg Multiset.card h0
    simp only [Multiset.card_range, Multiset.card_zero] at this
    omega
  · exact ⟨hl, fun k hkn => hk k (by simp only [Multiset.mem_range]; omega) hkn⟩

/-- **C101** (LDOS).  Whatever the kernels compute, for every number of worker threads, batch size, number of vectors and schedule of the threads: when the pool has been joined,
column `k` of the data holds moments of vector `k`, computed alone or as a column of a batch. -/
theorem C101_columns {W bs nv : Nat} (hW : 0 < W) (hbs : 0 < bs) (hnv : 0 < nv) (cols : Columns M) (hm : ∀ t, (cols.many t).length = bs)
    (s : Pool W BatchJob (Res (BatchMem (List (Option M)))) (BatchRun M))
    (h : Thread.Reach (roundedSem bs nv cols concatenator) (batchProg W bs nv) (.ok ⟨0, 0, []⟩) s) (hj : s.joined = true) :
    ∃ mem, s.mem = .ok mem ∧ mem.data.length = nv ∧ ∀ k, k < nv → ∃ a, mem.data[k]? = some (some a) ∧ cols.Possible k a :=
  columns_any hW hbs hnv (give_possible hm) trivial (fun _ _ => trivial) s h hj

/-- **C101** (LDOS, whole batches).  When the number of vectors is a multiple of the batch size, or the rest is large enough to be rounded up, every execution gives the same digits:
column `k` is column `k % bs` of the batch which starts at the multiple of `bs` below `k`. -/
theorem C101_batches {W bs nv : Nat} (hW : 0 < W) (hbs : 0 < bs) (hnv : 0 < nv) (cols : Columns M) (hm : ∀ t, (cols.many t).length = bs)
    (hall : nv % bs = 0 ∨ W * bs / 2 < nv % bs) (s : Pool W BatchJob (Res (BatchMem (List (Option M)))) (BatchRun M))
    (h : Thread.Reach (roundedSem bs nv cols concatenator) (batchProg W bs nv) (.ok ⟨0, 0, []⟩) s) (hj : s.joined = true) :
    ∃ mem, s.mem = .ok mem ∧ mem.data = (List.range nv).map fun k => (cols.many (k / bs * bs))[k % bs]? := by
  have hV : cols.Give bs (· = .batch) (fun t => t % bs = 0) fun k a => (cols.many (k / bs * bs))[k % bs]? = some a := by
    refine ⟨fun t _ hA => (nomatch hA), fun t ht _ => ⟨hm t, fun i hi => ?_, by simpa using ht⟩⟩
    have hib : i < bs := by rwa [hm] at hi
    have hdt : t / bs * bs = t := by have := Nat.div_add_mod t bs; rw [ht, Nat.mul_comm] at this; simpa using this
    have e1 : (t + i) / bs = t / bs := by
      conv_lhs => rw [← hdt, Nat.add_comm, Nat.add_mul_div_right _ _ hbs, Nat.div_eq_of_lt hib, Nat.zero_add]
    have e2 : (t + i) % bs = i := by
      rw [Nat.add_mod, ht, Nat.zero_add, Nat.mod_mod, Nat.mod_eq_of_lt hib]
    rw [e1, e2, hdt]
    exact List.getElem?_eq_getElem hi
  have hA : ∀ j ∈ batchJobs W bs nv, j = .batch := by
    intro j hj
    unfold batchJobs at hj
    split_ifs at hj with h'
    · exact List.eq_of_mem_replicate hj
    · have h0 : nv % bs = 0 := by omega
      rw [h0] at hj
      simp only [List.replicate_zero, List.append_nil] at hj
      exact List.eq_of_mem_replicate hj
  obtain ⟨mem, e, hl, hk⟩ := columns_any hW hbs hnv hV (Nat.zero_mod bs) hA s h hj
  refine ⟨mem, e, List.ext_getElem? fun k => ?_⟩
  by_cases hkn : k < nv
  · obtain ⟨a, h1, h2⟩ := hk k hkn
    rw [h1, List.getElem?_map, List.getElem?_range hkn, Option.map_some, h2]
  · rw [List.getElem?_eq_none (by omega), List.getElem?_eq_none (by simp; omega)]

/-- **C101** (LDOS, few vectors).  With fewer vectors than a batch has, and not rounded up, every execution gives the same digits, those of single vectors. -/
theorem C101_singles {W bs nv : Nat} (hW : 0 < W) (hnv : 0 < nv) (cols : Columns M) (hfew : nv < bs) (hdown : nv ≤ W * bs / 2)
    (s : Pool W BatchJob (Res (BatchMem (List (Option M)))) (BatchRun M))
    (h : Thread.Reach (roundedSem bs nv cols concatenator) (batchProg W bs nv) (.ok ⟨0, 0, []⟩) s) (hj : s.joined = true) :
    ∃ mem, s.mem = .ok mem ∧ mem.data = (List.range nv).map fun k => some (cols.one k) := by
  have hV : cols.Give bs (· = .single) (fun _ => True) fun k a => a = cols.one k := ⟨fun t _ _ => ⟨rfl, trivial⟩, fun t _ hA => (nomatch hA)⟩
  have hA : ∀ j ∈ batchJobs W bs nv, j = .single := by
    intro j hj
    unfold batchJobs at hj
    rw [Nat.mod_eq_of_lt hfew, Nat.div_eq_of_lt hfew, if_neg (by omega)] at hj
    simp only [List.replicate_zero, List.nil_append] at hj
    exact List.eq_of_mem_replicate hj
  obtain ⟨mem, e, hl, hk⟩ := columns_any hW (by omega) hnv hV trivial hA s h hj
  refine ⟨mem, e, List.ext_getElem? fun k => ?_⟩
  by_cases hkn : k < nv
  · obtain ⟨a, h1, h2⟩ := hk k hkn
    rw [h1, List.getElem?_map, List.getElem?_range hkn, Option.map_some, h2]
  · rw [List.getElem?_eq_none (by omega), List.getElem?_eq_none (by simp; omega)]

/-- **C101** (one thread).  With one worker thread every execution gives the same digits, for both collectors and whatever the kernels and sums compute: the memory is the one that
the jobs leave when they run one after the other, batches first. -/
theorem C101_one_thread {bs nv : Nat} (cols : Columns M) (C : Collector D M) (data : D) (s s' : Pool 1 BatchJob (Res (BatchMem D)) (BatchRun M))
    (h : Thread.Reach (roundedSem bs nv cols C) (batchProg 1 bs nv) (.ok ⟨0, 0, data⟩) s) (hj : s.joined = true)
    (h' : Thread.Reach (roundedSem bs nv cols C) (batchProg 1 bs nv) (.ok ⟨0, 0, data⟩) s') (hj' : s'.joined = true) :
    Sequential (roundedSem bs nv cols C) (.ok ⟨0, 0, data⟩) (batchJobs 1 bs nv) s.mem ∧ s.mem = s'.mem := by
  have h1 := one_worker h hj
  have h2 := one_worker h' hj'
  rw [beforeJoin_batchProg] at h1 h2
  exact ⟨h1, h1.unique h2⟩

/-- The moments that a job at position `t` delivers. -/
def JobGives (cols : Columns M) (bs : Nat) (V : Nat → M → Prop) (t : Nat) : BatchJob → Prop
  | .single => V t (cols.one t)
  | .batch => (cols.many t).length = bs ∧ ∀ i (h : i < (cols.many t).length), V (t + i) (cols.many t)[i]

theorem seq_job {bs nv N : Nat} {cols : Columns M} {V : Nat → M → Prop} {C : Collector D M} {Good : Multiset Nat → Nat → D → Prop} (hC : CollectsAny bs nv N V C Good)
    {t c : Nat} {x : D} (hg : Good (Multiset.range t) c x) {j : BatchJob} (hj : JobGives cols bs V t j) (hw : N < nv + j.width bs) (hle : t + j.width bs ≤ N)
    (hcase : t + j.width bs = N ∨ t + j.width bs < nv) {m' : Res (BatchMem D)}
    (h : Completes (roundedSem bs nv cols C) (.take j) (.ok ⟨t, c, x⟩) m') :
    ∃ c' x', m' = .ok ⟨t + j.width bs, c', x'⟩ ∧ Good (Multiset.range (t + j.width bs)) c' x' := by
  cases j with
  | single =>
    obtain ⟨c', x', e, hg'⟩ := hC.one _ _ _ t (cols.one t) hg hj (by simp) hw hle (by simpa [BatchJob.width] using hcase) (by simpa [BatchJob.width] using hle)
    refine ⟨c', x', ?_, by rw [BatchJob.width, Multiset.range_succ]; exact hg'⟩
    cases h with
    | last h => simp [roundedSem, roundedStep] at h
    | more h h' =>
      simp only [roundedSem, roundedStep, Prod.mk.injEq, Option.some.injEq] at h
      obtain ⟨rfl, rfl⟩ := h
      cases h' with
      | last h =>
        simp only [roundedSem, roundedStep, e, Res.bind_ok, Prod.mk.injEq, and_true] at h
        exact h.symm
      | more h _ => simp [roundedSem, roundedStep] at h
  | batch =>
    obtain ⟨c', x', e, hg'⟩ := hC.many _ _ _ t (cols.many t) hg hj.1 hj.2 (by simp) hw hle (by simpa [BatchJob.width] using hcase) (by simpa [BatchJob.width] using hle)
    refine ⟨c', x', ?_, ?_⟩
    · cases h with
      | last h => simp [roundedSem, roundedStep] at h
      | more h h' =>
        simp only [roundedSem, roundedStep, Prod.mk.injEq, Option.some.injEq] at h
        obtain ⟨rfl, rfl⟩ := h
        cases h' with
        | last h =>
          simp only [roundedSem, roundedStep, e, Res.bind_ok, Prod.mk.injEq, and_true] at h
          exact h.symm
        | more h _ => simp [roundedSem, roundedStep] at h
    · rw [BatchJob.width, Multiset.range_add_eq_union, ← Multiset.add_eq_union_iff_disjoint.2 (Multiset.range_disjoint_map_add _ _), add_comm]
      exact hg'

theorem seq_jobs {bs nv N : Nat} {cols : Columns M} {V : Nat → M → Prop} {C : Collector D M} {Good : Multiset Nat → Nat → D → Prop} (hC : CollectsAny bs nv N V C Good)
    (hbs : 0 < bs) (jobs : List BatchJob) : ∀ {t c : Nat} {x : D}, Good (Multiset.range t) c x → (∀ l j r, jobs = l ++ j :: r → JobGives cols bs V (t + (l.map (BatchJob.width bs)).sum) j) →
    (∀ j ∈ jobs, N < nv + j.width bs) → t + (jobs.map (BatchJob.width bs)).sum = N → ∀ {m' : Res (BatchMem D)},
    Sequential (roundedSem bs nv cols C) (.ok ⟨t, c, x⟩) jobs m' → ∃ mem, m' = .ok mem ∧ Good (Multiset.range N) mem.count mem.data := by
  induction jobs with
  | nil =>
    intro t c x hg _ _ hN m' h
    cases h
    simp only [List.map_nil, List.sum_nil, add_zero] at hN
    exact ⟨_, rfl, hN ▸ hg⟩
  | cons j js ih =>
    intro t c x hg hv hw hN m' h
    cases h with
    | cons h h' =>
      simp only [List.map_cons, List.sum_cons] at hN
      have hcase : t + j.width bs = N ∨ t + j.width bs < nv := by
        rcases js with - | ⟨k, js⟩
        · left; simpa using hN
        · have := hw k (by simp)
          simp only [List.map_cons, List.sum_cons] at hN
          right; omega
      obtain ⟨c', x', rfl, hg'⟩ := seq_job hC hg (by simpa using hv [] j js rfl) (hw j (by simp)) (by omega) hcase h
      refine ih hg' (fun l k r e => ?_) (fun k hk => hw k (by simp [hk])) (by omega) h'
      have := hv (j :: l) k r (by rw [e]; rfl)
      simpa [add_assoc] using this

/-- **C101** (LDOS, one thread).  With one worker thread, column `k` is a column of an aligned batch as far as whole batches go, and the rest are single vectors. -/
theorem C101_one_thread_columns {bs nv : Nat} (hbs : 0 < bs) (hnv : 0 < nv) (cols : Columns M) (hm : ∀ t, (cols.many t).length = bs) (hdown : nv % bs ≤ bs / 2)
    (s : Pool 1 BatchJob (Res (BatchMem (List (Option M)))) (BatchRun M))
    (h : Thread.Reach (roundedSem bs nv cols concatenator) (batchProg 1 bs nv) (.ok ⟨0, 0, []⟩) s) (hj : s.joined = true) :
    ∃ mem, s.mem = .ok mem ∧ mem.data = (List.range nv).map fun k => if k < nv / bs * bs then (cols.many (k / bs * bs))[k % bs]? else some (cols.one k) := by
  have hs := one_worker h hj
  rw [beforeJoin_batchProg] at hs
  obtain ⟨h1, h2⟩ := batchJobs_sum (threads := 1) (nv := nv) hbs
  let V : Nat → M → Prop := fun k a => (if k < nv / bs * bs then (cols.many (k / bs * bs))[k % bs]? else some (cols.one k)) = some a
  have hjobs : batchJobs 1 bs nv = List.replicate (nv / bs) .batch ++ List.replicate (nv % bs) .single := by
    unfold batchJobs
    rw [if_neg (by omega)]
  have hgive : ∀ l j r, batchJobs 1 bs nv = l ++ j :: r → JobGives cols bs V (0 + (l.map (BatchJob.width bs)).sum) j := by
    intro l j r e
    rw [hjobs] at e
    rw [Nat.zero_add]
    have hl : l = (List.replicate (nv / bs) BatchJob.batch ++ List.replicate (nv % bs) BatchJob.single).take l.length := by rw [e]; simp
    have hjl : (List.replicate (nv / bs) BatchJob.batch ++ List.replicate (nv % bs) .single)[l.length]? = some j := by rw [e]; simp
    by_cases hlt : l.length < nv / bs
    · rw [List.getElem?_append_left (by simpa using hlt), List.getElem?_replicate, if_pos hlt, Option.some.injEq] at hjl
      subst hjl
      have hsum : (l.map (BatchJob.width bs)).sum = l.length * bs := by
        conv_lhs => rw [hl]
        rw [List.take_append_of_le_length (by simpa using hlt.le), List.take_replicate, Nat.min_eq_left hlt.le]
        simp [BatchJob.width]
      rw [hsum]
      refine ⟨hm _, fun i hi => ?_⟩
      have hib : i < bs := by rwa [hm] at hi
      have hlt' : l.length * bs + i < nv / bs * bs := by
        have := Nat.mul_le_mul_right bs (show l.length + 1 ≤ nv / bs from hlt)
        rw [Nat.add_mul] at this
        omega
      have e1 : (l.length * bs + i) / bs = l.length := by
        rw [Nat.add_comm, Nat.add_mul_div_right _ _ hbs, Nat.div_eq_of_lt hib, Nat.zero_add]
      have e2 : (l.length * bs + i) % bs = i := by
        rw [Nat.add_comm, Nat.add_mul_mod_self_right, Nat.mod_eq_of_lt hib]
      show (if _ then _ else _) = _
      rw [if_pos hlt', e1, e2]
      exact List.getElem?_eq_getElem hi
    · rw [List.getElem?_append_right (by simp; omega), List.getElem?_replicate, List.length_replicate] at hjl
      split_ifs at hjl with hr
      rw [Option.some.injEq] at hjl
      subst hjl
      have hsum : (l.map (BatchJob.width bs)).sum = nv / bs * bs + (l.length - nv / bs) := by
        conv_lhs => rw [hl]
        rw [List.take_append, List.take_of_length_le (by simp; omega), List.length_replicate, List.take_replicate, Nat.min_eq_left hr.le]
        simp [BatchJob.width]
      rw [hsum]
      show (if _ then _ else _) = _
      rw [if_neg (by omega)]
  obtain ⟨mem, e, hg⟩ := seq_jobs (concatenates_any V hbs) hbs _ (show CatAny nv V (Multiset.range 0) 0 [] from .inl ⟨rfl, rfl⟩) hgive h2 (Nat.zero_add _) hs
  refine ⟨mem, e, ?_⟩
  rcases hg with ⟨h0, _⟩ | ⟨_, hl, hk⟩
  · have := congrArg Multiset.card h0
    simp only [Multiset.card_range, Multiset.card_zero] at this
    omega
  · apply List.ext_getElem?
    intro k
    by_cases hkn : k < nv
    · obtain ⟨a, e1, e2⟩ := hk k (by simp only [Multiset.mem_range]; omega) hkn
      rw [e1, List.getElem?_map, List.getElem?_range hkn, Option.map_some, ← e2]
    · rw [List.getElem?_eq_none (by omega), List.getElem?_eq_none (by simp; omega)]

theorem rounded_decreases {bs nv : Nat} (cols : Columns M) (C : Collector D M) (r : BatchRun M) (m m' : Res (BatchMem D)) (r' : BatchRun M)
    (h : (roundedSem bs nv cols C).step r m = (m', some r')) : stepsLeft r' < stepsLeft r := by
  match r, m with
  | .take .single, .ok m => simp [roundedSem, roundedStep] at h; rw [← h.2]; simp [stepsLeft]
  | .take .batch, .ok m => simp [roundedSem, roundedStep] at h; rw [← h.2]; simp [stepsLeft]
  | .take j, .err _ => simp [roundedSem, roundedStep] at h
  | .take j, .ub => simp [roundedSem, roundedStep] at h
  | .one _ _, .ok _ => simp [roundedSem, roundedStep] at h
  | .one _ _, .err _ => simp [roundedSem, roundedStep] at h
  | .one _ _, .ub => simp [roundedSem, roundedStep] at h
  | .many _ _, .ok _ => simp [roundedSem, roundedStep] at h
  | .many _ _, .err _ => simp [roundedSem, roundedStep] at h
  | .many _ _, .ub => simp [roundedSem, roundedStep] at h

/-- **C101** (some execution ends).  Every batched calculation has an execution in which the pool is joined, so that the hypotheses of the theorems above can be met for all
parameters. -/
theorem C101_can_finish {W bs nv : Nat} (cols : Columns M) (C : Collector D M) (mem : Res (BatchMem D)) :
    ∃ s, Thread.Reach (W := W) (roundedSem bs nv cols C) (batchProg W bs nv) mem s ∧ s.joined = true := by
  obtain ⟨s, hs, hf⟩ := C32_can_finish (W := W) (roundedSem bs nv cols C) stepsLeft (rounded_decreases cols C) (batchProg W bs nv) mem
  exact ⟨s, hs, C32_finished_joined _ _ _ s hs hf⟩

/-- Eight vectors in batches of four with three threads, and three vectors with two threads. -/
example : (∃ s : Pool 3 BatchJob (Res (BatchMem (List (Option Nat)))) (BatchRun Nat),
      Thread.Reach (roundedSem 4 8 ⟨fun k => k, fun k => [k, k + 1, k + 2, k + 3]⟩ concatenator) (batchProg 3 4 8) (.ok ⟨0, 0, []⟩) s ∧ s.joined = true ∧ 8 % 4 = 0) ∧
    ∃ s : Pool 2 BatchJob (Res (BatchMem (List (Option Nat)))) (BatchRun Nat),
      Thread.Reach (roundedSem 4 3 ⟨fun k => k, fun k => [k, k + 1, k + 2, k + 3]⟩ concatenator) (batchProg 2 4 3) (.ok ⟨0, 0, []⟩) s ∧ s.joined = true ∧ 3 < 4 ∧ 3 ≤ 2 * 4 / 2 := by
  obtain ⟨s, h, hj⟩ := C101_can_finish (W := 3) (bs := 4) (nv := 8) (⟨fun k => k, fun k => [k, k + 1, k + 2, k + 3]⟩ : Columns Nat) concatenator (.ok ⟨0, 0, []⟩)
  obtain ⟨s', h', hj'⟩ := C101_can_finish (W := 2) (bs := 4) (nv := 3) (⟨fun k => k, fun k => [k, k + 1, k + 2, k + 3]⟩ : Columns Nat) concatenator (.ok ⟨0, 0, []⟩)
  exact ⟨⟨s, h, hj, by decide⟩, s', h', hj', by decide, by decide⟩

/-! ## Two threads -/

/-- Two workers, three vectors, batches of two: the batch takes the first two vectors and is collected first. -/
theorem batch_first (cols : Columns M) (C : Collector D M) (data d1 d2 : D) (c1 c2 : Nat) (h1 : C.many 3 0 (cols.many 0) 0 data = .ok (c1, d1))
    (h2 : C.one 3 2 (cols.one 2) c1 d1 = .ok (c2, d2)) :
    ∃ s : Pool 2 BatchJob (Res (BatchMem D)) (BatchRun M), Thread.Reach (roundedSem 2 3 cols C) (batchProg 2 2 3) (.ok ⟨0, 0, data⟩) s ∧ s.joined = true ∧
      s.mem = .ok ⟨3, c2, d2⟩ := by
  have s0 : Thread.Reach (W := 2) (roundedSem 2 3 cols C) (batchProg 2 2 3) (.ok ⟨0, 0, data⟩) _ := .init
  have s1 := s0.step (.spawn _ 0 rfl (by decide))
  have s1 := s1.step (.spawn _ 1 rfl (by decide))
  have s2 := s1.step (.spawned _ rfl)
  have s3 := s2.step (.add _ .batch [.add .single, .join, .join] rfl rfl)
  have s4 := s3.step (.notifyNone _ rfl (fun w => by fin_cases w <;> simp))
  have s5 := s4.step (.add _ .single [.join, .join] rfl rfl)
  have s6 := s5.step (.notifyNone _ rfl (fun w => by fin_cases w <;> simp))
  have s7 := s6.step (.popJob _ 0 .batch [.single] (by simp) rfl)
  have s8 := s7.step (.popJob _ 1 .single [] (by simp) rfl)
  have s9 := s8.step (.begin _ 0 .batch (by simp))
  have s10 := s9.step (.begin _ 1 .single (by simp))
  have s11 := s10.step (.run _ 0 (.take .batch) (.many 0 (cols.many 0)) (.ok ⟨2, 0, data⟩) (by simp [roundedSem]) rfl)
  have s12 := s11.step (.run _ 1 (.take .single) (.one 2 (cols.one 2)) (.ok ⟨3, 0, data⟩) (by simp [roundedSem]) rfl)
  have s13 := s12.step (.finish _ 0 (.many 0 (cols.many 0)) (.ok ⟨3, c1, d1⟩) (by simp) (by simp [roundedSem, roundedStep, h1]))
  have s14 := s13.step (.finish _ 1 (.one 2 (cols.one 2)) (.ok ⟨3, c2, d2⟩) (by simp) (by simp [roundedSem, roundedStep, h2]))
  have s15 := s14.step (.close _ [.join] rfl rfl rfl)
  have s16 := s15.step (.notifyAll _ rfl)
  have s17 := s16.step (.popClosed _ 0 (by simp [Worker.wake]) rfl rfl)
  have s18 := s17.step (.popClosed _ 1 (by simp [Worker.wake]) rfl rfl)
  have s19 := s18.step (.joinOne _ 0 rfl (by decide) (by simp))
  have s20 := s19.step (.joinOne _ 1 rfl (by decide) (by simp))
  have s21 := s20.step (.joinEnd _ rfl)
  exact ⟨_, s21, rfl, rfl⟩

/-- The same calculation with another schedule: the single job takes the first vector and is collected first. -/
theorem single_first (cols : Columns M) (C : Collector D M) (data d1 d2 : D) (c1 c2 : Nat) (h1 : C.one 3 0 (cols.one 0) 0 data = .ok (c1, d1))
    (h2 : C.many 3 1 (cols.many 1) c1 d1 = .ok (c2, d2)) :
    ∃ s : Pool 2 BatchJob (Res (BatchMem D)) (BatchRun M), Thread.Reach (roundedSem 2 3 cols C) (batchProg 2 2 3) (.ok ⟨0, 0, data⟩) s ∧ s.joined = true ∧
      s.mem = .ok ⟨3, c2, d2⟩ := by
  have s0 : Thread.Reach (W := 2) (roundedSem 2 3 cols C) (batchProg 2 2 3) (.ok ⟨0, 0, data⟩) _ := .init
  have s1 := s0.step (.spawn _ 0 rfl (by decide))
  have s1 := s1.step (.spawn _ 1 rfl (by decide))
  have s2 := s1.step (.spawned _ rfl)
  have s3 := s2.step (.add _ .batch [.add .single, .join, .join] rfl rfl)
  have s4 := s3.step (.notifyNone _ rfl (fun w => by fin_cases w <;> simp))
  have s5 := s4.step (.add _ .single [.join, .join] rfl rfl)
  have s6 := s5.step (.notifyNone _ rfl (fun w => by fin_cases w <;> simp))
  have s7 := s6.step (.popJob _ 0 .batch [.single] (by simp) rfl)
  have s8 := s7.step (.popJob _ 1 .single [] (by simp) rfl)
  have s9 := s8.step (.begin _ 0 .batch (by simp))
  have s10 := s9.step (.begin _ 1 .single (by simp))
  have s11 := s10.step (.run _ 1 (.take .single) (.one 0 (cols.one 0)) (.ok ⟨1, 0, data⟩) (by simp [roundedSem]) rfl)
  have s12 := s11.step (.run _ 0 (.take .batch) (.many 1 (cols.many 1)) (.ok ⟨3, 0, data⟩) (by simp [roundedSem]) rfl)
  have s13 := s12.step (.finish _ 1 (.one 0 (cols.one 0)) (.ok ⟨3, c1, d1⟩) (by simp) (by simp [roundedSem, roundedStep, h1]))
  have s14 := s13.step (.finish _ 0 (.many 1 (cols.many 1)) (.ok ⟨3, c2, d2⟩) (by simp) (by simp [roundedSem, roundedStep, h2]))
  have s15 := s14.step (.close _ [.join] rfl rfl rfl)
  have s16 := s15.step (.notifyAll _ rfl)
  have s17 := s16.step (.popClosed _ 0 (by simp [Worker.wake]) rfl rfl)
  have s18 := s17.step (.popClosed _ 1 (by simp [Worker.wake]) rfl rfl)
  have s19 := s18.step (.joinOne _ 0 rfl (by decide) (by simp))
  have s20 := s19.step (.joinOne _ 1 rfl (by decide) (by simp))
  have s21 := s20.step (.joinEnd _ rfl)
  exact ⟨_, s21, rfl, rfl⟩

/-- **C101** (finding).  With two threads the same calculation of three local densities of states has two executions: in one the first two vectors are computed as a batch and the
last alone, in the other the first alone and the others as a batch.  The results differ in the digits in which the kernels differ. -/
theorem C101_ldos_depends (one : Nat → M) (a b : Nat → M) :
    ∃ s s' : Pool 2 BatchJob (Res (BatchMem (List (Option M)))) (BatchRun M),
      (Thread.Reach (roundedSem 2 3 ⟨one, fun t => [a t, b t]⟩ concatenator) (batchProg 2 2 3) (.ok ⟨0, 0, []⟩) s ∧ s.joined = true ∧
        s.mem = .ok ⟨3, 3, [some (a 0), some (b 0), some (one 2)]⟩) ∧
      (Thread.Reach (roundedSem 2 3 ⟨one, fun t => [a t, b t]⟩ concatenator) (batchProg 2 2 3) (.ok ⟨0, 0, []⟩) s' ∧ s'.joined = true ∧
        s'.mem = .ok ⟨3, 3, [some (one 0), some (a 1), some (b 1)]⟩) := by
  obtain ⟨s, hs⟩ := batch_first ⟨one, fun t => [a t, b t]⟩ concatenator [] [some (a 0), some (b 0), none] [some (a 0), some (b 0), some (one 2)] 2 3
    (by simp [concatenator, leftCols, setCols]) (by simp [concatenator, setCols])
  obtain ⟨s', hs'⟩ := single_first ⟨one, fun t => [a t, b t]⟩ concatenator [] [some (one 0), none, none] [some (one 0), some (a 1), some (b 1)] 1 3
    (by simp [concatenator, setCols]) (by simp [concatenator, leftCols, setCols])
  exact ⟨s, s', hs, hs'⟩

/-! ## Sums -/

namespace Float

/-- The order in which the columns of a batch are added up: `a.leftCols(cols).rowwise().sum()`, Moments.cpp:41. -/
inductive Tree where
  | leaf (j : Nat)
  | add (l r : Tree)

/-- The columns in a tree, Moments.cpp:41. -/
def Tree.leaves : Tree → List Nat
  | .leaf j => [j]
  | .add l r => l.leaves ++ r.leaves

/-- The rounded sum, Moments.cpp:41. -/
noncomputable def Tree.value (R : Rounding) (v : Nat → ℂ) : Tree → ℂ
  | .leaf j => v j
  | .add l r => R.add (l.value R v) (r.value R v)

/-- The rounded operations of the accumulator on arrays of moments: entry by entry.  An array of complex numbers is divided by a real number. Moments.cpp:18, 24, 41, 45. -/
noncomputable def sumOps (R : Rounding) {num : Nat} (tree : Fin num → Nat → Tree) : SumOps (Fin num → ℂ) where
  zero := fun _ => 0
  add a b := fun i => R.add (a i) (b i)
  addAll r l := fun i => R.add (r i) (if l.length = 0 then 0 else (tree i l.length).value R fun j => (l.getD j 0) i)
  div r n := fun i => ⟨R.fl ((r i).re / n), R.fl ((r i).im / n)⟩

/-- `x` is the sum `s` of numbers with the sum of sizes `S`, after at most `k` additions. -/
def SumNear (u : ℝ) (k : Nat) (x s : ℂ) (S : ℝ) : Prop := ‖x - s‖ ≤ ((1 + u) ^ k - 1) * S ∧ ‖s‖ ≤ S

theorem powSub_nonneg {u : ℝ} (hu : 0 ≤ u) (k : Nat) : 0 ≤ (1 + u) ^ k - 1 := by
  have := one_le_pow₀ (show 1 ≤ 1 + u by linarith) (n := k)
  linarith

theorem SumNear.mono {u : ℝ} (hu : 0 ≤ u) {k l : Nat} (hkl : k ≤ l) {x s : ℂ} {S : ℝ} (h : SumNear u k x s S) : SumNear u l x s S := by
  have hS : 0 ≤ S := (norm_nonneg _).trans h.2
  refine ⟨h.1.trans (mul_le_mul_of_nonneg_right ?_ hS), h.2⟩
  have := pow_le_pow_right₀ (show 1 ≤ 1 + u by linarith) hkl
  linarith

theorem SumNear.round {R : Rounding} {k : Nat} {x s : ℂ} {S : ℝ} (h : SumNear R.unit k x s S) : SumNear R.unit (k + 1) ⟨R.fl x.re, R.fl x.im⟩ s S := by
  have hu := R.unit_nonneg
  have hS : 0 ≤ S := (norm_nonneg _).trans h.2
  refine ⟨?_, h.2⟩
  have h1 := R.parts x
  have h2 : ‖x‖ ≤ S + ((1 + R.unit) ^ k - 1) * S := by
    have := norm_add_le s (x - s)
    rw [add_sub_cancel] at this
    linarith [h.1, h.2]
  have h3 := norm_add_le ((⟨R.fl x.re, R.fl x.im⟩ : ℂ) - x) (x - s)
  rw [sub_add_sub_cancel] at h3
  have h4 := mul_le_mul_of_nonneg_left h2 hu
  have h5 := h.1
  rw [pow_succ]
  linarith

theorem SumNear.sum {u : ℝ} (hu : 0 ≤ u) {k l : Nat} {x y s t : ℂ} {S T : ℝ} (h : SumNear u k x s S) (h' : SumNear u l y t T) : SumNear u (max k l) (x + y) (s + t) (S + T) := by
  have a := h.mono hu (le_max_left k l)
  have b := h'.mono hu (le_max_right k l)
  refine ⟨?_, (norm_add_le _ _).trans (add_le_add h.2 h'.2)⟩
  have e : x + y - (s + t) = (x - s) + (y - t) := by ring
  rw [e, mul_add]
  exact (norm_add_le _ _).trans (add_le_add a.1 b.1)

theorem SumNear.add {R : Rounding} {k l : Nat} {x y s t : ℂ} {S T : ℝ} (h : SumNear R.unit k x s S) (h' : SumNear R.unit l y t T) :
    SumNear R.unit (max k l + 1) (R.add x y) (s + t) (S + T) :=
  (h.sum R.unit_nonneg h').round

theorem near_self (u : ℝ) (x : ℂ) : SumNear u 0 x x ‖x‖ := ⟨by simp, le_refl _⟩

theorem SumNear.div {R : Rounding} {k n : Nat} {x s : ℂ} {S : ℝ} (h : SumNear R.unit k x s S) :
    SumNear R.unit (k + 1) ⟨R.fl (x.re / n), R.fl (x.im / n)⟩ (s / n) (S / n) := by
  have e1 : x.re / n = (x / (n : ℂ)).re := (Complex.div_natCast_re x n).symm
  have e2 : x.im / n = (x / (n : ℂ)).im := (Complex.div_natCast_im x n).symm
  rw [e1, e2]
  refine SumNear.round (x := x / (n : ℂ)) ⟨?_, ?_⟩
  · rw [← sub_div, norm_div, Complex.norm_natCast, ← mul_div_assoc]
    exact div_le_div_of_nonneg_right h.1 (Nat.cast_nonneg n)
  · rw [norm_div, Complex.norm_natCast]
    exact div_le_div_of_nonneg_right h.2 (Nat.cast_nonneg n)

theorem Tree.leaves_pos (t : Tree) : 0 < t.leaves.length := by
  induction t with
  | leaf j => simp [Tree.leaves]
  | add l r ihl ihr => simp only [Tree.leaves, List.length_append]; omega

theorem Tree.near (R : Rounding) (v : Nat → ℂ) (t : Tree) :
    SumNear R.unit (t.leaves.length - 1) (t.value R v) ((t.leaves.map v).sum) ((t.leaves.map fun j => ‖v j‖).sum) := by
  induction t with
  | leaf j => simpa [Tree.leaves, Tree.value] using near_self R.unit (v j)
  | add l r ihl ihr =>
    have := (ihl.add ihr).mono R.unit_nonneg (l := l.leaves.length + r.leaves.length - 1) (by
      have := l.leaves_pos
      have := r.leaves_pos
      omega)
    simpa [Tree.leaves, Tree.value] using this

variable {num : Nat}

theorem partSum_congr {G : Type} [AddCommGroup G] {nv : Nat} {f g : Nat → G} {d : Multiset Nat} (h : ∀ k ∈ d, f k = g k) : partSum nv f d = partSum nv g d := by
  unfold partSum
  rw [Multiset.map_congr rfl fun k hk => h k (Multiset.mem_filter.1 hk).1]

/-- State of the accumulator after the vectors `d`. -/
def AccAny (R : Rounding) (nv N : Nat) (V : Nat → (Fin num → ℂ) → Prop) (d : Multiset Nat) (c : Nat) (x : Option (Fin num → ℂ)) : Prop :=
  ∃ f : Nat → Fin num → ℂ, (∀ k ∈ d, V k (f k)) ∧
    ((d.card = N ∧ ∃ y, x = some y ∧ ∀ i, SumNear R.unit ((d.filter (· < nv)).card + 1) (y i) (partSum nv (fun k => f k i) d / nv) (partSum nv (fun k => ‖f k i‖) d / nv)) ∨
      (d.card < N ∧ c = d.card ∧ (d ≠ 0 → ∃ y, x = some y ∧ ∀ i, SumNear R.unit (d.filter (· < nv)).card (y i) (partSum nv (fun k => f k i) d) (partSum nv (fun k => ‖f k i‖) d))))

theorem accumulates_any {bs nv N : Nat} (R : Rounding) {tree : Fin num → Nat → Tree} (htree : ∀ i c, 0 < c → (tree i c).leaves.Perm (List.range c))
    (V : Nat → (Fin num → ℂ) → Prop) (hbs : 0 < bs) (hN : nv ≤ N) : CollectsAny bs nv N V (roundedAccumulator (sumOps R tree)) (AccAny R nv N V) := by
  have hu := R.unit_nonneg
  have final : ∀ {c : Nat} {d' : Multiset Nat} {f : Nat → Fin num → ℂ} {y : Fin num → ℂ}, (∀ k ∈ d', V k (f k)) → d'.card = c → (c = N ∨ c < nv) → c ≤ N →
      (∀ i, SumNear R.unit (d'.filter (· < nv)).card (y i) (partSum nv (fun k => f k i) d') (partSum nv (fun k => ‖f k i‖) d')) →
      ∃ c' x', (if c ≥ nv ∧ nv ≠ 1 then Res.ok (0, some ((sumOps R tree).div y nv)) else .ok (c, some y)) = .ok (c', x') ∧ AccAny R nv N V d' c' x' := by
    intro c d' f y hf hc hcase hle hn
    by_cases hfull : c = N
    · by_cases h1 : nv = 1
      · rw [if_neg (by simp [h1])]
        refine ⟨_, _, rfl, f, hf, .inl ⟨by omega, y, rfl, fun i => ?_⟩⟩
        have := (hn i).mono hu (Nat.le_succ _)
        simpa [h1] using this
      · rw [if_pos ⟨by omega, h1⟩]
        exact ⟨_, _, rfl, f, hf, .inl ⟨by omega, _, rfl, fun i => (hn i).div⟩⟩
    · rw [if_neg (by omega)]
      exact ⟨_, _, rfl, f, hf, .inr ⟨by omega, hc.symm, fun _ => ⟨y, rfl, hn⟩⟩⟩
  constructor
  · intro d c x idx a hg ha hnew hw hidx hcase hle
    obtain ⟨f, hf, ⟨h, _⟩ | ⟨hlt, rfl, hx⟩⟩ := hg
    · omega
    let f' : Nat → Fin num → ℂ := fun k => if k = idx then a else f k
    have hne : ∀ k ∈ d, k ≠ idx := fun k hk e => hnew (e ▸ hk)
    have hf' : ∀ k ∈ idx ::ₘ d, V k (f' k) := by
      intro k hk
      rcases Multiset.mem_cons.1 hk with rfl | hk
      · simpa [f'] using ha
      · simpa [f', hne k hk] using hf k hk
    have hsum : ∀ {G : Type} [AddCommGroup G] (g : (Fin num → ℂ) → G), partSum nv (fun k => g (f' k)) (idx ::ₘ d) = partSum nv (fun k => g (f k)) d + g a := by
      intro G _ g
      have e : partSum nv (fun k => g (f' k)) d = partSum nv (fun k => g (f k)) d := partSum_congr fun k hk => by simp [f', hne k hk]
      rw [← e]
      unfold partSum
      rw [Multiset.filter_cons_of_pos _ (by omega), Multiset.map_cons, Multiset.sum_cons, add_comm]
      simp [f']
    have hcard : ((idx ::ₘ d).filter (· < nv)).card = (d.filter (· < nv)).card + 1 := by
      rw [Multiset.filter_cons_of_pos _ (by omega), Multiset.card_cons]
    have hr : ∃ y, (if d.card = 0 then Res.ok a else getData x >>= fun r => .ok ((sumOps R tree).add r a)) = .ok y ∧
        ∀ i, SumNear R.unit ((idx ::ₘ d).filter (· < nv)).card (y i) (partSum nv (fun k => f' k i) (idx ::ₘ d)) (partSum nv (fun k => ‖f' k i‖) (idx ::ₘ d)) := by
      by_cases h0 : d = 0
      · refine ⟨a, by simp [h0], fun i => ?_⟩
        rw [hsum (fun v => v i), hsum (fun v => ‖v i‖)]
        subst h0
        simpa [partSum] using (near_self R.unit (a i)).mono hu (Nat.zero_le _)
      · obtain ⟨y, rfl, hy⟩ := hx h0
        refine ⟨_, by rw [if_neg (by simpa using h0)]; rfl, fun i => ?_⟩
        rw [hsum (fun v => v i), hsum (fun v => ‖v i‖), hcard]
        have := (hy i).add (near_self R.unit (a i))
        simpa [sumOps] using this
    obtain ⟨y, e, hy⟩ := hr
    simp only [roundedAccumulator]
    rw [e, Res.bind_ok]
    exact final hf' (by simp) hcase hle hy
  · intro d c x idx a hg hla ha hnew hw hidx hcase hle
    obtain ⟨f, hf, ⟨h, _⟩ | ⟨hlt, rfl, hx⟩⟩ := hg
    · omega
    have hidn : idx < nv := by omega
    let f' : Nat → Fin num → ℂ := fun k => if idx ≤ k ∧ k < idx + bs then a.getD (k - idx) 0 else f k
    have hout : ∀ k ∈ d, ¬ (idx ≤ k ∧ k < idx + bs) := by
      intro k hk hh
      exact hnew (k - idx) (by omega) (by rwa [show idx + (k - idx) = k by omega])
    have hin : ∀ j, j < bs → f' (idx + j) = a.getD j 0 := by
      intro j hj
      simp only [f']
      rw [if_pos ⟨by omega, by omega⟩, Nat.add_sub_cancel_left]
    have hf' : ∀ k ∈ (Multiset.range bs).map (idx + ·) + d, V k (f' k) := by
      intro k hk
      rcases Multiset.mem_add.1 hk with hk | hk
      · simp only [Multiset.mem_map, Multiset.mem_range] at hk
        obtain ⟨j, hj, rfl⟩ := hk
        rw [hin j hj, List.getD_eq_getElem _ _ (by omega)]
        exact ha j (by omega)
      · have e : f' k = f k := if_neg (hout k hk)
        rw [e]
        exact hf k hk
    have hc1 : 0 < min bs (nv - idx) := lt_min hbs (by omega)
    have hsum : ∀ {G : Type} [AddCommGroup G] (g : (Fin num → ℂ) → G), partSum nv (fun k => g (f' k)) ((Multiset.range bs).map (idx + ·) + d) =
        partSum nv (fun k => g (f k)) d + ((List.range (min bs (nv - idx))).map fun j => g (a.getD j 0)).sum := by
      intro G _ g
      have e : partSum nv (fun k => g (f' k)) d = partSum nv (fun k => g (f k)) d := partSum_congr fun k hk => by
        have e : f' k = f k := if_neg (hout k hk)
        rw [e]
      have e2 : ((List.range (min bs (nv - idx))).map fun j => g (a.getD j 0)) = (List.range (min bs (nv - idx))).map fun j => g (f' (idx + j)) := by
        refine List.map_congr_left fun j hj => ?_
        rw [hin j (by have := List.mem_range.1 hj; omega)]
      rw [← e, e2, partSum_batch nv idx bs (fun k => g (f' k)) hidn.le]
      unfold partSum
      rw [Multiset.filter_add, Multiset.map_add, Multiset.sum_add, add_comm]
    have hcard : (((Multiset.range bs).map (idx + ·) + d).filter (· < nv)).card = (d.filter (· < nv)).card + min bs (nv - idx) := by
      rw [Multiset.filter_add, Multiset.card_add, Multiset.filter_map, Multiset.card_map, add_comm]
      congr 1
      have e : (Multiset.range bs).filter ((· < nv) ∘ (idx + ·)) = Multiset.range (min bs (nv - idx)) := by
        apply Multiset.Nodup.ext (Multiset.Nodup.filter _ (Multiset.nodup_range _)) (Multiset.nodup_range _) |>.2
        intro b
        simp only [Multiset.mem_filter, Multiset.mem_range, Function.comp]
        omega
      rw [e, Multiset.card_range]
    have hr : ∃ y, (if d.card = 0 then Res.ok (sumOps R tree).zero else getData x) = .ok y ∧
        ∀ i, SumNear R.unit (d.filter (· < nv)).card (y i) (partSum nv (fun k => f k i) d) (partSum nv (fun k => ‖f k i‖) d) := by
      by_cases h0 : d = 0
      · refine ⟨(sumOps R tree).zero, by simp [h0], fun i => ?_⟩
        subst h0
        simpa [partSum, sumOps] using (near_self R.unit 0)
      · obtain ⟨y, rfl, hy⟩ := hx h0
        exact ⟨y, by rw [if_neg (by simpa using h0)]; rfl, hy⟩
    obtain ⟨y, e, hy⟩ := hr
    have hlen : (a.take (min a.length (nv - idx))).length = min bs (nv - idx) := by simp [hla]
    simp only [roundedAccumulator]
    rw [e, Res.bind_ok, leftCols_any a hidn.le, Res.bind_ok]
    rw [hla]
    rw [hla] at hlen
    refine final hf' (by simp; omega) hcase hle fun i => ?_
    rw [hsum (fun v => v i), hsum (fun v => ‖v i‖), hcard]
    simp only [sumOps]
    rw [if_neg (by omega), hlen]
    have ht := (tree i (min bs (nv - idx))).near R fun j => ((a.take (min bs (nv - idx))).getD j 0) i
    have hp := htree i _ hc1
    rw [(hp.map _).sum_eq, (hp.map _).sum_eq, hp.length_eq, List.length_range] at ht
    have hget : ∀ j ∈ List.range (min bs (nv - idx)), (a.take (min bs (nv - idx))).getD j 0 = a.getD j 0 := by
      intro j hj
      have hj := List.mem_range.1 hj
      rw [List.getD_eq_getElem?_getD, List.getD_eq_getElem?_getD, List.getElem?_take_of_lt hj]
    rw [List.map_congr_left fun j hj => by rw [hget j hj], List.map_congr_left (g := fun j => ‖a.getD j 0 i‖) fun j hj => by rw [hget j hj]] at ht
    exact ((hy i).add ht).mono hu (by omega)

/-- **C101** (DOS).  For every rounding, number of worker threads, batch size, number of vectors, order of the sums and schedule of the threads: when the pool has been joined, the
data are the average of moments of the first `nv` vectors, up to `nv + 1` roundings. -/
theorem C101_average {W bs nv : Nat} (hW : 0 < W) (hbs : 0 < bs) (hnv : 0 < nv) (R : Rounding) {tree : Fin num → Nat → Tree}
    (htree : ∀ i c, 0 < c → (tree i c).leaves.Perm (List.range c)) (cols : Columns (Fin num → ℂ)) (hm : ∀ t, (cols.many t).length = bs)
    (s : Pool W BatchJob (Res (BatchMem (Option (Fin num → ℂ)))) (BatchRun (Fin num → ℂ)))
    (h : Thread.Reach (roundedSem bs nv cols (roundedAccumulator (sumOps R tree))) (batchProg W bs nv) (.ok ⟨0, 0, none⟩) s) (hj : s.joined = true) :
    ∃ mem y, s.mem = .ok mem ∧ mem.data = some y ∧ ∃ f : Nat → Fin num → ℂ, (∀ k < nv, cols.Possible k (f k)) ∧
      ∀ i, ‖y i - (∑ k ∈ Finset.range nv, f k i) / nv‖ ≤ ((1 + R.unit) ^ (nv + 1) - 1) * ((∑ k ∈ Finset.range nv, ‖f k i‖) / nv) := by
  have hr := C32_all_jobs hW _ _ _ _ h hj
  rw [beforeJoin_batchProg] at hr
  obtain ⟨h1, h2⟩ := batchJobs_sum (threads := W) (nv := nv) hbs
  obtain ⟨mem, e, f, hf, hg⟩ := rounded_all (give_possible hm) trivial (accumulates_any R htree cols.Possible hbs h1) rfl (fun j hj => ⟨trivial, h2 j hj⟩)
    ⟨fun _ => fun _ => 0, by simp, .inr ⟨by simpa using lt_of_lt_of_le hnv h1, rfl, fun h => absurd rfl h⟩⟩ hr
  have hfil : ∀ N, nv ≤ N → (Multiset.range N).filter (· < nv) = Multiset.range nv := by
    intro N hN
    apply (Multiset.Nodup.ext (Multiset.Nodup.filter _ (Multiset.nodup_range _)) (Multiset.nodup_range _)).2
    intro a
    simp only [Multiset.mem_filter, Multiset.mem_range]
    omega
  rcases hg with ⟨_, y, hx, hy⟩ | ⟨hlt, _⟩
  · refine ⟨mem, y, e, hx, f, fun k hk => hf k (Multiset.mem_range.2 (by omega)), fun i => ?_⟩
    have := (hy i).1
    simp only [partSum, hfil _ h1, Multiset.card_range] at this
    exact this
  · simp at hlt

/-- **C101** (DOS, error).  If the moments of every vector, computed alone or in a batch, are within `ε` of exact ones that are bounded by `B`, the data are within
`ε + ((1 + u)^(nv + 1) - 1) (B + ε)` of the exact average, for every schedule of the threads. -/
theorem C101_error {W bs nv : Nat} (hW : 0 < W) (hbs : 0 < bs) (hnv : 0 < nv) (R : Rounding) {tree : Fin num → Nat → Tree}
    (htree : ∀ i c, 0 < c → (tree i c).leaves.Perm (List.range c)) (cols : Columns (Fin num → ℂ)) (hm : ∀ t, (cols.many t).length = bs)
    (s : Pool W BatchJob (Res (BatchMem (Option (Fin num → ℂ)))) (BatchRun (Fin num → ℂ)))
    (h : Thread.Reach (roundedSem bs nv cols (roundedAccumulator (sumOps R tree))) (batchProg W bs nv) (.ok ⟨0, 0, none⟩) s) (hj : s.joined = true)
    (exact : Nat → Fin num → ℂ) (ε B : ℝ) (hε : ∀ k < nv, ∀ a, cols.Possible k a → ∀ i, ‖a i - exact k i‖ ≤ ε) (hB : ∀ k < nv, ∀ i, ‖exact k i‖ ≤ B) :
    ∃ mem y, s.mem = .ok mem ∧ mem.data = some y ∧
      ∀ i, ‖y i - (∑ k ∈ Finset.range nv, exact k i) / nv‖ ≤ ε + ((1 + R.unit) ^ (nv + 1) - 1) * (B + ε) := by
  obtain ⟨mem, y, e, hx, f, hf, hy⟩ := C101_average hW hbs hnv R htree cols hm s h hj
  refine ⟨mem, y, e, hx, fun i => ?_⟩
  have hn : (0 : ℝ) < nv := Nat.cast_pos.2 hnv
  have h1 : ‖(∑ k ∈ Finset.range nv, f k i) / nv - (∑ k ∈ Finset.range nv, exact k i) / nv‖ ≤ ε := by
    rw [← sub_div, ← Finset.sum_sub_distrib, norm_div, Complex.norm_natCast, div_le_iff₀ hn]
    refine (norm_sum_le _ _).trans ?_
    refine (Finset.sum_le_sum fun k hk => hε k (Finset.mem_range.1 hk) _ (hf k (Finset.mem_range.1 hk)) i).trans ?_
    rw [Finset.sum_const, Finset.card_range, nsmul_eq_mul, mul_comm]
  have h2 : (∑ k ∈ Finset.range nv, ‖f k i‖) / nv ≤ B + ε := by
    rw [div_le_iff₀ hn]
    refine (Finset.sum_le_sum (g := fun _ => B + ε) fun k hk => ?_).trans ?_
    · have a1 := hε k (Finset.mem_range.1 hk) _ (hf k (Finset.mem_range.1 hk)) i
      have a2 := hB k (Finset.mem_range.1 hk) i
      have a3 := norm_add_le (exact k i) (f k i - exact k i)
      rw [add_sub_cancel] at a3
      linarith
    · rw [Finset.sum_const, Finset.card_range, nsmul_eq_mul, mul_comm]
  have h3 := norm_add_le (y i - (∑ k ∈ Finset.range nv, f k i) / nv) ((∑ k ∈ Finset.range nv, f k i) / nv - (∑ k ∈ Finset.range nv, exact k i) / nv)
  rw [sub_add_sub_cancel] at h3
  have h4 := mul_le_mul_of_nonneg_left h2 (powSub_nonneg R.unit_nonneg (nv + 1))
  linarith [hy i]

/-! ## Witness -/

theorem binary_small {p : Nat} {n : Nat} {x : ℝ} (q : ℤ) (e : Nat) (hn : (2 : ℝ) ^ e ≤ x) (hn' : x < 2 ^ (e + 1)) (hq : round (x / (2 : ℝ) ^ ((e : ℤ) - p + 1)) = q)
    (hx : (n : ℝ) = q * (2 : ℝ) ^ ((e : ℤ) - p + 1)) : binary p x = n := by
  have h0 : 0 < x := lt_of_lt_of_le (by positivity) hn
  rw [hx]
  refine binary_exact q e h0.ne' ?_ hq
  rw [abs_of_pos h0]
  refine le_antisymm ?_ ?_
  · have : Int.log 2 x < (e : ℤ) + 1 := by
      rw [← Int.lt_zpow_iff_log_lt (by norm_num) h0]
      exact_mod_cast hn'
    omega
  · rw [← Int.zpow_le_iff_le_log (by norm_num) h0]
    exact_mod_cast hn

/-- The vectors have one moment each, `4`, `1` and `1`, and all kernels agree. -/
noncomputable def exampleColumns : Columns (Fin 1 → ℂ) :=
  let v : Nat → Fin 1 → ℂ := fun k _ => if k = 0 then 4 else 1
  ⟨v, fun t => [v t, v (t + 1)]⟩

/-- Two columns are added. -/
def exampleTree (_ : Fin 1) : Nat → Tree
  | 0 => .leaf 0
  | 1 => .leaf 0
  | c + 2 => .add (exampleTree 0 (c + 1)) (.leaf (c + 1))

theorem exampleTree_perm (i : Fin 1) (c : Nat) (h : 0 < c) : (exampleTree i c).leaves.Perm (List.range c) := by
  obtain rfl : i = 0 := Subsingleton.elim _ _
  induction c with
  | zero => omega
  | succ c ih =>
    rcases c with - | c
    · exact List.Perm.refl _
    · rw [List.range_succ]
      exact (ih (by omega)).append_right _

theorem add_real (x y : ℝ) : (Rounding.binary 2).add x y = ((binary 2 (x + y) : ℝ) : ℂ) := by
  unfold Rounding.add
  apply Complex.ext
  · simp [Rounding.binary]
  · simp [Rounding.binary, binary_zero]

theorem b1 : binary 2 1 = 1 := by
  have := binary_small (p := 2) (n := 1) (x := 1) 2 0 (by norm_num) (by norm_num) (by norm_num [round_eq]) (by norm_num)
  simpa using this
theorem b2 : binary 2 2 = 2 := by
  have := binary_small (p := 2) (n := 2) (x := 2) 2 1 (by norm_num) (by norm_num) (by norm_num [round_eq]) (by norm_num)
  simpa using this
theorem b5 : binary 2 5 = 6 := by
  have := binary_small (p := 2) (n := 6) (x := 5) 3 2 (by norm_num) (by norm_num) (by norm_num [round_eq]) (by norm_num)
  simpa using this
theorem b6 : binary 2 6 = 6 := by
  have := binary_small (p := 2) (n := 6) (x := 6) 3 2 (by norm_num) (by norm_num) (by norm_num [round_eq]) (by norm_num)
  simpa using this
theorem b7 : binary 2 7 = 8 := by
  have := binary_small (p := 2) (n := 8) (x := 7) 4 2 (by norm_num) (by norm_num) (by norm_num [round_eq]) (by norm_num)
  simpa using this
theorem b83 : binary 2 (8 / 3) = 3 := by
  have := binary_small (p := 2) (n := 3) (x := 8 / 3) 3 1 (by norm_num) (by norm_num) (by norm_num [round_eq]) (by norm_num)
  simpa using this

/-- **C101** (finding).  The digits of a density of states depend on the schedule even when a vector has the same moments alone and in a batch: three vectors, two threads and binary
numbers of two digits; the sums are `(4 + 1) + 1` and `4 + (1 + 1)`, and the averages are `3` and `2`. -/
theorem C101_dos_depends :
    ∃ s s' : Pool 2 BatchJob (Res (BatchMem (Option (Fin 1 → ℂ)))) (BatchRun (Fin 1 → ℂ)),
      (Thread.Reach (roundedSem 2 3 exampleColumns (roundedAccumulator (sumOps (Rounding.binary 2) exampleTree))) (batchProg 2 2 3) (.ok ⟨0, 0, none⟩) s ∧ s.joined = true ∧
        s.mem = .ok ⟨3, 0, some fun _ => 3⟩) ∧
      (Thread.Reach (roundedSem 2 3 exampleColumns (roundedAccumulator (sumOps (Rounding.binary 2) exampleTree))) (batchProg 2 2 3) (.ok ⟨0, 0, none⟩) s' ∧ s'.joined = true ∧
        s'.mem = .ok ⟨3, 0, some fun _ => 2⟩) := by
  have a41 : (Rounding.binary 2).add 4 1 = 6 := by
    have := add_real 4 1
    rw [show (4 : ℝ) + 1 = 5 by norm_num, b5] at this
    exact_mod_cast this
  have a11 : (Rounding.binary 2).add 1 1 = 2 := by
    have := add_real 1 1
    rw [show (1 : ℝ) + 1 = 2 by norm_num, b2] at this
    exact_mod_cast this
  have a06 : (Rounding.binary 2).add 0 6 = 6 := by
    have := add_real 0 6
    rw [show (0 : ℝ) + 6 = 6 by norm_num, b6] at this
    exact_mod_cast this
  have a61 : (Rounding.binary 2).add 6 1 = 8 := by
    have := add_real 6 1
    rw [show (6 : ℝ) + 1 = 7 by norm_num, b7] at this
    exact_mod_cast this
  have a42 : (Rounding.binary 2).add 4 2 = 6 := by
    have := add_real 4 2
    rw [show (4 : ℝ) + 2 = 6 by norm_num, b6] at this
    exact_mod_cast this
  have d8 : (⟨(Rounding.binary 2).fl (8 / 3), (Rounding.binary 2).fl 0⟩ : ℂ) = 3 := by
    apply Complex.ext
    · simpa [Rounding.binary] using b83
    · simp [Rounding.binary, binary_zero]
  have d6 : (⟨(Rounding.binary 2).fl (6 / 3), (Rounding.binary 2).fl 0⟩ : ℂ) = 2 := by
    apply Complex.ext
    · have : (6 : ℝ) / 3 = 2 := by norm_num
      simpa [Rounding.binary, this] using b2
    · simp [Rounding.binary, binary_zero]
  obtain ⟨s, hs⟩ := batch_first exampleColumns (roundedAccumulator (sumOps (Rounding.binary 2) exampleTree)) none (some fun _ => 6) (some fun _ => 3) 2 0
    (by simp [roundedAccumulator, leftCols, exampleColumns, sumOps, exampleTree, Tree.value, a41, a06])
    (by
      simp only [roundedAccumulator, getData, exampleColumns, sumOps, Res.bind_ok]
      norm_num [a61]
      exact funext fun _ => d8)
  obtain ⟨s', hs'⟩ := single_first exampleColumns (roundedAccumulator (sumOps (Rounding.binary 2) exampleTree)) none (some fun _ => 4) (some fun _ => 2) 1 0
    (by simp [roundedAccumulator, exampleColumns])
    (by
      simp [roundedAccumulator, getData, leftCols, exampleColumns, sumOps, exampleTree, Tree.value, a11, a42]
      exact funext fun _ => d6)
  exact ⟨s, s', hs, hs'⟩

/-- The hypotheses of `C101_average` and `C101_error` are met by an execution. -/
example : ∃ s : Pool 2 BatchJob (Res (BatchMem (Option (Fin 1 → ℂ)))) (BatchRun (Fin 1 → ℂ)),
    Thread.Reach (roundedSem 2 3 exampleColumns (roundedAccumulator (sumOps (Rounding.binary 2) exampleTree))) (batchProg 2 2 3) (.ok ⟨0, 0, none⟩) s ∧ s.joined = true ∧
      (∀ t, (exampleColumns.many t).length = 2) ∧ (∀ i c, 0 < c → (exampleTree i c).leaves.Perm (List.range c)) ∧
      (∀ k < 3, ∀ a, exampleColumns.Possible k a → ∀ i, ‖a i - exampleColumns.one k i‖ ≤ 0) := by
  obtain ⟨s, -, ⟨h, hj, -⟩, -⟩ := C101_dos_depends
  refine ⟨s, h, hj, fun t => rfl, exampleTree_perm, ?_⟩
  rintro k - a (rfl | ⟨i, j, rfl, hj⟩) x
  · simp
  · have hj' : j < 2 := by
      have := (List.getElem?_eq_some_iff.1 hj).1
      simpa [exampleColumns] using this
    have hj2 : j = 0 ∨ j = 1 := by omega
    rcases hj2 with rfl | rfl
    · simp only [exampleColumns, List.getElem?_cons_zero, Option.some.injEq] at hj
      subst hj
      simp [exampleColumns]
    · simp only [exampleColumns, List.getElem?_cons_succ, List.getElem?_cons_zero, Option.some.injEq] at hj
      subst hj
      simp [exampleColumns]

end Float

end Verif.Kpm
