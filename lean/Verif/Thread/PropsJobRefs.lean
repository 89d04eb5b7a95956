import Verif.Thread.JobRefs
import Verif.Thread.PropsJobs

/-!
# The objects of the jobs of `parallel_for` live until they are retired (C104)
-/

namespace Verif.Thread

variable {W : Nat} {V : Type}

/-! ## The calls are those of `parallel_for` -/

theorem ref_pf {B : RefArgs V} {s : Refs W V} (h : RefReach B s) : PFReach B.toPFArgs s.pf := by
  induction h with
  | init => exact .init
  | step _ hs ih =>
    cases hs with
    | plain p h => exact ih.step h.step
    | spurious p h => exact ih.spurious h
    | pLoad => exact ih
    | pStore k r h hk hc => exact ih.step (.pMake _ k h hk)
    | wLoad => exact ih
    | wStore => exact ih
    | wLoad' => exact ih
    | wStore' w k r v q h hq hc => exact ih.step (.wPop _ w k v q h hq)
    | rLoad => exact ih
    | rStore => exact ih
    | rLoad' => exact ih
    | rStore' k r v q h hq hc => exact ih.step (.rPop _ k v q h hq)
    | tLoad => exact ih
    | tStore k r v h hc => exact ih.step (.rRetire _ k v h)

/-! ## Jobs of different threads are different -/

theorem nodup_all {A : PFArgs V} {s : PF W V} (h : PFReach A s) : (s.inMemory + ((s.retired.map Prod.fst : List Nat) : Multiset Nat)).Nodup := by
  rw [C104_places A s h]
  exact Multiset.nodup_range _

theorem wq_produced {A : PFArgs V} {s : PF W V} (h : PFReach A s) {k : Nat} (hk : k ∈ s.wq.map Prod.fst) : k < s.produced.length := by
  rw [← Multiset.mem_range, ← C104_places A s h]
  simp only [PF.inMemory, Multiset.mem_add, Multiset.mem_coe]
  tauto

theorem rq_produced {A : PFArgs V} {s : PF W V} (h : PFReach A s) {k : Nat} (hk : k ∈ s.rq.map Prod.fst) : k < s.produced.length := by
  rw [← Multiset.mem_range, ← C104_places A s h]
  simp only [PF.inMemory, Multiset.mem_add, Multiset.mem_coe]
  tauto

theorem rep_produced {A : PFArgs V} {s : PF W V} (h : PFReach A s) {k : Nat} (hk : k ∈ s.rep.held) : k < s.produced.length := by
  rw [← Multiset.mem_range, ← C104_places A s h]
  simp only [PF.inMemory, Multiset.mem_add, Multiset.mem_coe]
  tauto

theorem produced_size {A : PFArgs V} {s : PF W V} (h : PFReach A s) : s.produced.length ≤ A.size ∧ s.produced = List.range s.produced.length := by
  have J := (pf_reach h).2
  have h1 := J.prod
  have h2 := J.produced
  constructor
  · rw [h2, List.length_range]
    cases hp : s.prod <;> rw [hp] at h1 <;> simp only [Producer.made, Producer.Ok] at h1 ⊢ <;> omega
  · conv_lhs => rw [h2]
    rw [h2, List.length_range]

theorem make_produced {A : PFArgs V} {s : PF W V} (h : PFReach A s) {k : Nat} (hk : s.prod = .make k) : s.produced.length = k := by
  rw [(pf_reach h).2.produced, List.length_range, hk]
  rfl

theorem apart {A : PFArgs V} {s : PF W V} (h : PFReach A s) {i j : Nat} : (i ∈ s.wq.map Prod.fst → j ∈ s.rq.map Prod.fst → i ≠ j) ∧ (i ∈ s.wq.map Prod.fst → j ∈ s.rep.held → i ≠ j) ∧
    (i ∈ s.wq.map Prod.fst → j ∈ s.retired.map Prod.fst → i ≠ j) ∧ (i ∈ s.rq.map Prod.fst → j ∈ s.retired.map Prod.fst → i ≠ j) ∧
    (i ∈ s.rep.held → j ∈ s.retired.map Prod.fst → i ≠ j) := by
  have hn := nodup_all h
  unfold PF.inMemory at hn
  simp only [Multiset.nodup_add, Multiset.disjoint_left, Multiset.mem_add, Multiset.mem_coe] at hn
  obtain ⟨⟨⟨⟨-, -, -⟩, -, h1⟩, -, h2⟩, -, h3⟩ := hn
  refine ⟨fun hi hj e => ?_, fun hi hj e => ?_, fun hi hj e => ?_, fun hi hj e => ?_, fun hi hj e => ?_⟩ <;> subst e
  · exact h1 (.inl (.inr hi)) hj
  · exact h2 (.inl (.inl (.inr hi))) hj
  · exact h3 (.inl (.inl (.inl (.inr hi)))) hj
  · exact h3 (.inl (.inr hi)) hj
  · exact h3 (.inr hi) hj

/-! ## The invariant -/

/-- The reference of a copy which is not finished. -/
def extra (o : Option (Nat × Phase)) (k : Nat) : Nat :=
  match o with
  | some (k', .two) => if k' = k then 1 else 0
  | some (k', .three _) => if k' = k then 1 else 0
  | _ => 0

theorem extra_ne {o : Option (Nat × Phase)} {k : Nat} (h : ∀ ph, o ≠ some (k, ph)) : extra o k = 0 := by
  unfold extra
  split
  · rename_i k' ; rw [if_neg]; rintro rfl; exact h _ rfl
  · rename_i k' r; rw [if_neg]; rintro rfl; exact h _ rfl
  · rfl

/-- The number of references to the object of job `k` if no other job has it. -/
def Refs.expected (B : RefArgs V) (s : Refs W V) (k : Nat) : Nat :=
  B.ext (B.obj k) + (if k < s.pf.produced.length then (if k ∈ s.pf.retired.map Prod.fst then B.keeps k else 1) else 0) + extra (s.wc.map Prod.snd) k + extra s.rc k

/-- Invariant: every count is right, and the registers hold what they must hold. -/
structure RefInv (B : RefArgs V) (s : Refs W V) : Prop where
  cnt : ∀ k < B.size, s.cnt (B.obj k) = s.expected B k
  wc : ∀ w k ph, s.wc = some (w, k, ph) → s.pf.workers w = .pop ∧ (∃ v q, s.pf.wq = (k, v) :: q) ∧ ∀ r, ph = .one r ∨ ph = .three r → r = s.cnt (B.obj k)
  rc : ∀ k ph, s.rc = some (k, ph) → s.pf.rep = .pop ∧ (∃ v q, s.pf.rq = (k, v) :: q) ∧ ∀ r, ph = .one r ∨ ph = .three r → r = s.cnt (B.obj k)
  pc : ∀ r, s.pc = some r → ∃ k, s.pf.prod = .make k ∧ k < B.size ∧ r = s.cnt (B.obj k)
  tc : ∀ r, s.tc = some r → ∃ k v, s.pf.rep = .retire k v ∧ r = s.cnt (B.obj k)
  dest : ∀ k < B.size, s.destroyed.count (B.obj k) = if k ∈ s.pf.retired.map Prod.fst ∧ B.ext (B.obj k) + B.keeps k = 0 then 1 else 0
  fine : s.bad = false

theorem RefInv.see {B : RefArgs V} {s : Refs W V} (I : RefInv B s) {k : Nat} (hk : k < B.size) (hr : k ∉ s.pf.retired.map Prod.fst) : s.see (B.obj k) = false := by
  have h := I.dest k hk
  rw [if_neg (fun h => hr h.1)] at h
  unfold Refs.see
  rw [I.fine, Bool.false_or, Bool.eq_false_iff]
  intro hc
  rw [List.contains_iff_mem] at hc
  exact absurd (List.count_pos_iff.2 hc) (by omega)

/-- What a plain step leaves alone. -/
theorem plain_keeps {A : PFArgs V} {p p' : PF W V} (h : Plain A p p') :
    (∀ w k v q, p.workers w = .pop → p.wq = (k, v) :: q → p'.workers w = .pop ∧ ∃ q', p'.wq = (k, v) :: q') ∧
    (∀ k v q, p.rep = .pop → p.rq = (k, v) :: q → p'.rep = .pop ∧ ∃ q', p'.rq = (k, v) :: q') ∧
    (∀ k, p.prod = .make k → k < A.size → p'.prod = .make k) ∧ (∀ k v, p.rep = .retire k v → p'.rep = .retire k v) := by
  obtain ⟨hs, hp, ht, hw, hr⟩ := h
  have hwq : ∀ k v q, p.wq = (k, v) :: q → ∃ q', p'.wq = (k, v) :: q' := by
    intro k v q e
    rcases hw with hw | ⟨x, hw⟩ <;> rw [hw, e]
    · exact ⟨_, rfl⟩
    · exact ⟨_, rfl⟩
  have hrq : ∀ k v q, p.rq = (k, v) :: q → ∃ q', p'.rq = (k, v) :: q' := by
    intro k v q e
    rcases hr with hr | ⟨x, hr⟩ <;> rw [hr, e]
    · exact ⟨_, rfl⟩
    · exact ⟨_, rfl⟩
  have hlw : p.wq.length ≤ p'.wq.length := by rcases hw with hw | ⟨x, hw⟩ <;> rw [hw] <;> simp
  have hlr : p.rq.length ≤ p'.rq.length := by rcases hr with hr | ⟨x, hr⟩ <;> rw [hr] <;> simp
  refine ⟨fun w k v q h1 h2 => ⟨?_, hwq k v q h2⟩, fun k v q h1 h2 => ⟨?_, hrq k v q h2⟩, fun k h1 h2 => ?_, fun k v h1 => ?_⟩
  · have up : ∀ w' x, p.workers w' ≠ .pop ∨ x = .pop → Function.update p.workers w' x w = .pop := by
      intro w' x hx
      by_cases e : w = w'
      · subst e
        rcases hx with hx | rfl
        · exact absurd h1 hx
        · simp
      · rw [Function.update_of_ne e, h1]
    cases hs
    case pNotifyAll => simp only [h1, Computer.wake]
    case pNotifyOne => exact up _ _ (.inr rfl)
    case wReg => exact up _ _ (.inr rfl)
    case wNotify => exact up _ _ (.inr rfl)
    case wPop hq => exact absurd hlw (by simp [hq])
    case wPopClosed hq hc => rw [hq] at h2; cases h2
    case wWait hq hc => rw [hq] at h2; cases h2
    case wGot h => exact up _ _ (.inl (by rw [h]; simp))
    case wCompute h => exact up _ _ (.inl (by rw [h]; simp))
    case wPush h => exact up _ _ (.inl (by rw [h]; simp))
    case wUnreg h => exact up _ _ (.inl (by rw [h]; simp))
    case wNotifyAll h => exact up _ _ (.inl (by rw [h]; simp))
    all_goals exact h1
  · cases hs
    case rPop hq => exact absurd hlr (by simp [hq])
    case rRetire h => exact absurd h (by rw [h1]; simp)
    case rPopClosed hq hc => rw [hq] at h2; cases h2
    case rWait hq hc => rw [hq] at h2; cases h2
    case wNotify => simp only [h1, Reporter.wake]
    case wNotifyAll => simp only [h1, Reporter.wake]
    all_goals exact h1
  · cases hs <;> simp_all [Producer.wake] <;> omega
  · cases hs <;> simp_all [Reporter.wake]

theorem plain_inv {B : RefArgs V} {s : Refs W V} (I : RefInv B s) {p : PF W V} (h1 : p.produced = s.pf.produced) (h2 : p.retired = s.pf.retired)
    (hk : (∀ w k v q, s.pf.workers w = .pop → s.pf.wq = (k, v) :: q → p.workers w = .pop ∧ ∃ q', p.wq = (k, v) :: q') ∧
      (∀ k v q, s.pf.rep = .pop → s.pf.rq = (k, v) :: q → p.rep = .pop ∧ ∃ q', p.rq = (k, v) :: q') ∧
      (∀ k, s.pf.prod = .make k → k < B.size → p.prod = .make k) ∧ (∀ k v, s.pf.rep = .retire k v → p.rep = .retire k v)) : RefInv B { s with pf := p } := by
  obtain ⟨k1, k2, k3, k4⟩ := hk
  refine ⟨fun k hk => ?_, fun w k ph e => ?_, fun k ph e => ?_, fun r e => ?_, fun r e => ?_, fun k hk => ?_, I.fine⟩
  · have := I.cnt k hk
    unfold Refs.expected at this ⊢
    simp only [h1, h2]
    exact this
  · obtain ⟨a, ⟨v, q, b⟩, c⟩ := I.wc w k ph e
    obtain ⟨d, q', f⟩ := k1 w k v q a b
    exact ⟨d, ⟨v, q', f⟩, c⟩
  · obtain ⟨a, ⟨v, q, b⟩, c⟩ := I.rc k ph e
    obtain ⟨d, q', f⟩ := k2 k v q a b
    exact ⟨d, ⟨v, q', f⟩, c⟩
  · obtain ⟨k, a, b, c⟩ := I.pc r e
    exact ⟨k, k3 k a b, b, c⟩
  · obtain ⟨k, v, a, c⟩ := I.tc r e
    exact ⟨k, v, k4 k v a, c⟩
  · have := I.dest k hk
    simp only [h2]
    exact this

theorem spurious_keeps {A : PFArgs V} {p p' : PF W V} (h : PFSpurious p p') : p'.produced = p.produced ∧ p'.retired = p.retired ∧
    (∀ w k v q, p.workers w = .pop → p.wq = (k, v) :: q → p'.workers w = .pop ∧ ∃ q', p'.wq = (k, v) :: q') ∧
    (∀ k v q, p.rep = .pop → p.rq = (k, v) :: q → p'.rep = .pop ∧ ∃ q', p'.rq = (k, v) :: q') ∧
    (∀ k, p.prod = .make k → k < A.size → p'.prod = .make k) ∧ (∀ k v, p.rep = .retire k v → p'.rep = .retire k v) := by
  cases h with
  | prod k v h => exact ⟨rfl, rfl, fun w k v q a b => ⟨a, q, b⟩, fun k v q a b => ⟨a, q, b⟩, fun k a => absurd a (by rw [h]; simp), fun k v a => a⟩
  | worker w h =>
    refine ⟨rfl, rfl, fun w' k v q a b => ⟨?_, q, b⟩, fun k v q a b => ⟨a, q, b⟩, fun k a _ => a, fun k v a => a⟩
    by_cases e : w' = w
    · subst e; simp
    · simp only [Function.update_of_ne e, a]
  | rep h => exact ⟨rfl, rfl, fun w k v q a b => ⟨a, q, b⟩, fun k v q a b => ⟨rfl, q, b⟩, fun k a _ => a, fun k v a => absurd a (by rw [h]; simp)⟩

/-- One step of the invariant.  Every job has an object of its own. -/
theorem ref_step {B : RefArgs V} (hobj : ∀ i < B.size, ∀ j < B.size, B.obj i = B.obj j → i = j) {s s' : Refs W V} (hp : PFReach B.toPFArgs s.pf) (I : RefInv B s)
    (h : RefStep B s s') : RefInv B s' := by
  have hsize := (produced_size hp).1
  have hW : ∀ w k ph, s.wc = some (w, k, ph) → k ∈ s.pf.wq.map Prod.fst := fun w k ph e => by
    obtain ⟨-, ⟨v, q, e⟩, -⟩ := I.wc w k ph e
    rw [e]; simp
  have hR : ∀ k ph, s.rc = some (k, ph) → k ∈ s.pf.rq.map Prod.fst := fun k ph e => by
    obtain ⟨-, ⟨v, q, e⟩, -⟩ := I.rc k ph e
    rw [e]; simp
  have hT : ∀ k v, s.pf.rep = .retire k v → k ∈ s.pf.rep.held := fun k v e => by rw [e]; simp [Reporter.held]
  have other : ∀ (k0 n k : Nat), k0 < B.size → k < B.size → k ≠ k0 → (s.put (B.obj k0) n).cnt (B.obj k) = s.cnt (B.obj k) := by
    intro k0 n k h0 hk hne
    exact Function.update_of_ne (fun e => hne (hobj k hk k0 h0 e)) _ _
  have self : ∀ k0 n, (s.put (B.obj k0) n).cnt (B.obj k0) = n := fun k0 n => Function.update_self ..
  have dest : ∀ k0 n, n ≠ 0 → (s.put (B.obj k0) n).destroyed = s.destroyed := fun k0 n hn => if_neg hn
  have wNone : ∀ k, (∀ w ph, s.wc ≠ some (w, k, ph)) → extra (s.wc.map Prod.snd) k = 0 := by
    intro k hk
    refine extra_ne fun ph e => ?_
    obtain ⟨⟨w, k', ph'⟩, h1, h2⟩ := Option.map_eq_some_iff.1 e
    obtain ⟨rfl, rfl⟩ := Prod.mk.inj h2
    exact hk w _ h1
  cases h with
  | plain p h => exact plain_inv I h.produced h.retired (plain_keeps h)
  | spurious p h =>
    have := spurious_keeps (A := B.toPFArgs) h
    exact plain_inv I this.1 this.2.1 this.2.2
  | pLoad k h hk hc =>
    have hm := make_produced hp h
    have hn : k ∉ s.pf.retired.map Prod.fst := fun hr => by
      have : k < s.pf.produced.length := by
        rw [← Multiset.mem_range, ← C104_places _ _ hp]
        exact Multiset.mem_add.2 (.inr hr)
      omega
    exact ⟨I.cnt, I.wc, I.rc, fun r e => ⟨k, h, hk, (Option.some.inj e).symm⟩, I.tc, I.dest, I.see hk hn⟩
  | pStore k r h hk hc =>
    have hm := make_produced hp h
    obtain ⟨k', h', -, hr⟩ := I.pc r hc
    obtain rfl : k' = k := by rw [h] at h'; exact (Producer.make.inj h').symm
    have hwk : ∀ w k2 ph, s.wc = some (w, k2, ph) → k2 < s.pf.produced.length := fun w k2 ph e => wq_produced hp (hW w k2 ph e)
    have hrk : ∀ k2 ph, s.rc = some (k2, ph) → k2 < s.pf.produced.length := fun k2 ph e => rq_produced hp (hR k2 ph e)
    have hn : k' ∉ s.pf.retired.map Prod.fst := fun hr => by
      have : k' < s.pf.produced.length := by
        rw [← Multiset.mem_range, ← C104_places _ _ hp]
        exact Multiset.mem_add.2 (.inr hr)
      omega
    refine ⟨fun k2 hk2 => ?_, fun w k2 ph e => ?_, fun k2 ph e => ?_, fun r e => (by cases e), fun r e => ?_, fun k2 hk2 => ?_, I.fine⟩
    · have hcnt := I.cnt k2 hk2
      by_cases hne : k2 = k'
      · subst hne
        refine (self k2 _).trans ?_
        rw [hr, hcnt]
        unfold Refs.expected
        rw [if_neg (by omega)]
        simp only [List.length_append, List.length_singleton, hm]
        rw [if_pos (by omega), if_neg hn]
        show _ = _ + _ + extra (s.wc.map Prod.snd) k2 + extra s.rc k2
        omega
      · refine (other k' _ k2 hk hk2 hne).trans ?_
        rw [hcnt]
        unfold Refs.expected
        simp only [List.length_append, List.length_singleton, hm]
        show _ = _ + _ + extra (s.wc.map Prod.snd) k2 + extra s.rc k2
        by_cases h1 : k2 < k'
        · rw [if_pos h1, if_pos (show k2 < k' + 1 by omega)]
        · rw [if_neg h1, if_neg (show ¬ k2 < k' + 1 by omega)]
    · obtain ⟨a, b, c⟩ := I.wc w k2 ph e
      have := hwk w k2 ph e
      exact ⟨a, b, fun r hr => by rw [c r hr]; exact (other k' _ k2 hk (by omega) (by omega)).symm⟩
    · obtain ⟨a, b, c⟩ := I.rc k2 ph e
      have := hrk k2 ph e
      exact ⟨a, b, fun r hr => by rw [c r hr]; exact (other k' _ k2 hk (by omega) (by omega)).symm⟩
    · obtain ⟨k2, v, a, b⟩ := I.tc r e
      have := rep_produced hp (hT k2 v a)
      exact ⟨k2, v, a, by rw [b]; exact (other k' _ k2 hk (by omega) (by omega)).symm⟩
    · have := I.dest k2 hk2
      rw [← dest k' (r + 1) (by omega)] at this
      exact this
  | wLoad w k v q h hq hc =>
    have hkw : k ∈ s.pf.wq.map Prod.fst := by rw [hq]; simp
    have hk := wq_produced hp hkw
    have hn : k ∉ s.pf.retired.map Prod.fst := fun hr => (apart hp).2.2.1 hkw hr rfl
    refine ⟨fun k2 hk2 => ?_, fun w2 k2 ph e => ?_, I.rc, I.pc, I.tc, I.dest, I.see (by omega) hn⟩
    · have := I.cnt k2 hk2
      unfold Refs.expected at this ⊢
      rw [hc] at this
      exact this
    · simp only [Option.some.injEq, Prod.mk.injEq] at e
      obtain ⟨rfl, rfl, rfl⟩ := e
      refine ⟨h, ⟨v, q, hq⟩, fun r hr => ?_⟩
      rcases hr with hr | hr
      · exact (Phase.one.inj hr).symm
      · cases hr
  | wStore w k r hc =>
    obtain ⟨h, hq, hr⟩ := I.wc w k _ hc
    have hr := hr r (.inl rfl)
    have hkw := hW w k _ hc
    have hk := wq_produced hp hkw
    refine ⟨fun k2 hk2 => ?_, fun w2 k2 ph e => ?_, fun k2 ph e => ?_, fun r e => ?_, fun r e => ?_, fun k2 hk2 => ?_, I.fine⟩
    · have hcnt := I.cnt k2 hk2
      by_cases hne : k2 = k
      · subst hne
        refine (self k2 _).trans ?_
        rw [hr, hcnt]
        unfold Refs.expected
        rw [hc]
        show _ + _ + 0 + _ + 1 = _ + _ + extra (some (k2, Phase.two)) k2 + extra s.rc k2
        have : extra (some (k2, Phase.two)) k2 = 1 := by simp [extra]
        rw [this, Nat.add_right_comm]
        rfl
      · refine (other k _ k2 (by omega) hk2 hne).trans ?_
        rw [hcnt]
        unfold Refs.expected
        rw [hc]
        show _ + _ + 0 + _ = _ + _ + extra (some (k, Phase.two)) k2 + extra s.rc k2
        have : extra (some (k, Phase.two)) k2 = 0 := by simp [extra, Ne.symm hne]
        rw [this]
        rfl
    · simp only [Option.some.injEq, Prod.mk.injEq] at e
      obtain ⟨rfl, rfl, rfl⟩ := e
      exact ⟨h, hq, fun r hr => by rcases hr with hr | hr <;> cases hr⟩
    · obtain ⟨a, b, c⟩ := I.rc k2 ph e
      have hk2 := hR k2 ph e
      have := rq_produced hp hk2
      exact ⟨a, b, fun r hr => by rw [c r hr]; exact (other k _ k2 (by omega) (by omega) (Ne.symm ((apart hp).1 hkw hk2))).symm⟩
    · obtain ⟨k2, a, b, c⟩ := I.pc r e
      have := make_produced hp a
      exact ⟨k2, a, b, by rw [c]; exact (other k _ k2 (by omega) b (by omega)).symm⟩
    · obtain ⟨k2, v, a, b⟩ := I.tc r e
      have := rep_produced hp (hT k2 v a)
      exact ⟨k2, v, a, by rw [b]; exact (other k _ k2 (by omega) (by omega) (Ne.symm ((apart hp).2.1 hkw (hT k2 v a)))).symm⟩
    · have := I.dest k2 hk2
      rw [← dest k (r + 1) (by omega)] at this
      exact this
  | wLoad' w k hc =>
    obtain ⟨h, hq, hr⟩ := I.wc w k _ hc
    have hkw := hW w k _ hc
    have hk := wq_produced hp hkw
    have hn : k ∉ s.pf.retired.map Prod.fst := fun hr => (apart hp).2.2.1 hkw hr rfl
    refine ⟨fun k2 hk2 => ?_, fun w2 k2 ph e => ?_, I.rc, I.pc, I.tc, I.dest, I.see (by omega) hn⟩
    · have := I.cnt k2 hk2
      unfold Refs.expected at this ⊢
      rw [hc] at this
      exact this
    · simp only [Option.some.injEq, Prod.mk.injEq] at e
      obtain ⟨rfl, rfl, rfl⟩ := e
      refine ⟨h, hq, fun r hr => ?_⟩
      rcases hr with hr | hr
      · cases hr
      · exact (Phase.three.inj hr).symm
  | wStore' w k r v q h hq hc =>
    obtain ⟨-, -, hr⟩ := I.wc w k _ hc
    have hr := hr r (.inr rfl)
    have hkw := hW w k _ hc
    have hk := wq_produced hp hkw
    have hn : k ∉ s.pf.retired.map Prod.fst := fun hr => (apart hp).2.2.1 hkw hr rfl
    have hck := I.cnt k (by omega)
    unfold Refs.expected at hck
    rw [hc, if_pos hk, if_neg hn] at hck
    simp only [Option.map_some, extra, if_true] at hck
    refine ⟨fun k2 hk2 => ?_, fun w2 k2 ph e => (by cases e), fun k2 ph e => ?_, fun r e => ?_, fun r e => ?_, fun k2 hk2 => ?_, I.fine⟩
    · have hcnt := I.cnt k2 hk2
      by_cases hne : k2 = k
      · subst hne
        refine (self k2 _).trans ?_
        unfold Refs.expected
        simp only [if_pos hk, if_neg hn]
        show r - 1 = _ + _ + 0 + extra s.rc k2
        unfold extra
        omega
      · refine (other k _ k2 (by omega) hk2 hne).trans ?_
        rw [hcnt]
        unfold Refs.expected
        rw [hc]
        have : extra (Option.map Prod.snd (some (w, k, Phase.three r))) k2 = 0 := by simp [extra, Ne.symm hne]
        rw [this]
        rfl
    · obtain ⟨a, b, c⟩ := I.rc k2 ph e
      have hk2 := hR k2 ph e
      have := rq_produced hp hk2
      exact ⟨a, b, fun r hr => by rw [c r hr]; exact (other k _ k2 (by omega) (by omega) (Ne.symm ((apart hp).1 hkw hk2))).symm⟩
    · obtain ⟨k2, a, b, c⟩ := I.pc r e
      have := make_produced hp a
      exact ⟨k2, a, b, by rw [c]; exact (other k _ k2 (by omega) b (by omega)).symm⟩
    · obtain ⟨k2, v, a, b⟩ := I.tc r e
      have := rep_produced hp (hT k2 v a)
      exact ⟨k2, v, a, by rw [b]; exact (other k _ k2 (by omega) (by omega) (Ne.symm ((apart hp).2.1 hkw (hT k2 v a)))).symm⟩
    · have := I.dest k2 hk2
      rw [← dest k (r - 1) (by omega)] at this
      exact this
  | rLoad k v q h hq hc =>
    have hkw : k ∈ s.pf.rq.map Prod.fst := by rw [hq]; simp
    have hk := rq_produced hp hkw
    have hn : k ∉ s.pf.retired.map Prod.fst := fun hr => (apart hp).2.2.2.1 hkw hr rfl
    refine ⟨fun k2 hk2 => ?_, I.wc, fun k2 ph e => ?_, I.pc, I.tc, I.dest, I.see (by omega) hn⟩
    · have := I.cnt k2 hk2
      unfold Refs.expected at this ⊢
      rw [hc] at this
      exact this
    · obtain ⟨rfl, rfl⟩ := Prod.mk.inj (Option.some.inj e)
      refine ⟨h, ⟨v, q, hq⟩, fun r hr => ?_⟩
      rcases hr with hr | hr
      · exact (Phase.one.inj hr).symm
      · cases hr
  | rStore k r hc =>
    obtain ⟨h, hq, hr⟩ := I.rc k _ hc
    have hr := hr r (.inl rfl)
    have hkw := hR k _ hc
    have hk := rq_produced hp hkw
    refine ⟨fun k2 hk2 => ?_, fun w2 k2 ph e => ?_, fun k2 ph e => ?_, fun r e => ?_, fun r e => ?_, fun k2 hk2 => ?_, I.fine⟩
    · have hcnt := I.cnt k2 hk2
      by_cases hne : k2 = k
      · subst hne
        refine (self k2 _).trans ?_
        rw [hr, hcnt]
        unfold Refs.expected
        rw [hc]
        show _ + _ + _ + 0 + 1 = _ + _ + extra (s.wc.map Prod.snd) k2 + extra (some (k2, Phase.two)) k2
        have : extra (some (k2, Phase.two)) k2 = 1 := by simp [extra]
        rw [this]
        rfl
      · refine (other k _ k2 (by omega) hk2 hne).trans ?_
        rw [hcnt]
        unfold Refs.expected
        rw [hc]
        show _ + _ + _ + 0 = _ + _ + extra (s.wc.map Prod.snd) k2 + extra (some (k, Phase.two)) k2
        have : extra (some (k, Phase.two)) k2 = 0 := by simp [extra, Ne.symm hne]
        rw [this]
        rfl
    · obtain ⟨a, b, c⟩ := I.wc w2 k2 ph e
      have hk2 := hW w2 k2 ph e
      have := wq_produced hp hk2
      exact ⟨a, b, fun r hr => by rw [c r hr]; exact (other k _ k2 (by omega) (by omega) ((apart hp).1 hk2 hkw)).symm⟩
    · obtain ⟨rfl, rfl⟩ := Prod.mk.inj (Option.some.inj e)
      exact ⟨h, hq, fun r hr => by rcases hr with hr | hr <;> cases hr⟩
    · obtain ⟨k2, a, b, c⟩ := I.pc r e
      have := make_produced hp a
      exact ⟨k2, a, b, by rw [c]; exact (other k _ k2 (by omega) b (by omega)).symm⟩
    · obtain ⟨k2, v, a, b⟩ := I.tc r e
      exact absurd a (by rw [h]; simp)
    · have := I.dest k2 hk2
      rw [← dest k (r + 1) (by omega)] at this
      exact this
  | rLoad' k hc =>
    obtain ⟨h, hq, hr⟩ := I.rc k _ hc
    have hkw := hR k _ hc
    have hk := rq_produced hp hkw
    have hn : k ∉ s.pf.retired.map Prod.fst := fun hr => (apart hp).2.2.2.1 hkw hr rfl
    refine ⟨fun k2 hk2 => ?_, I.wc, fun k2 ph e => ?_, I.pc, I.tc, I.dest, I.see (by omega) hn⟩
    · have := I.cnt k2 hk2
      unfold Refs.expected at this ⊢
      rw [hc] at this
      exact this
    · obtain ⟨rfl, rfl⟩ := Prod.mk.inj (Option.some.inj e)
      refine ⟨h, hq, fun r hr => ?_⟩
      rcases hr with hr | hr
      · cases hr
      · exact (Phase.three.inj hr).symm
  | rStore' k r v q h hq hc =>
    obtain ⟨-, -, hr⟩ := I.rc k _ hc
    have hr := hr r (.inr rfl)
    have hkw := hR k _ hc
    have hk := rq_produced hp hkw
    have hn : k ∉ s.pf.retired.map Prod.fst := fun hr => (apart hp).2.2.2.1 hkw hr rfl
    have hck := I.cnt k (by omega)
    unfold Refs.expected at hck
    rw [hc, if_pos hk, if_neg hn] at hck
    have e3 : extra (some (k, Phase.three r)) k = 1 := by simp [extra]
    rw [e3] at hck
    refine ⟨fun k2 hk2 => ?_, fun w2 k2 ph e => ?_, fun k2 ph e => (by cases e), fun r e => ?_, fun r e => ?_, fun k2 hk2 => ?_, I.fine⟩
    · have hcnt := I.cnt k2 hk2
      by_cases hne : k2 = k
      · subst hne
        refine (self k2 _).trans ?_
        unfold Refs.expected
        simp only [if_pos hk, if_neg hn]
        show r - 1 = _ + _ + extra (s.wc.map Prod.snd) k2 + 0
        omega
      · refine (other k _ k2 (by omega) hk2 hne).trans ?_
        rw [hcnt]
        unfold Refs.expected
        rw [hc]
        have : extra (some (k, Phase.three r)) k2 = 0 := by simp [extra, Ne.symm hne]
        rw [this]
        rfl
    · obtain ⟨a, b, c⟩ := I.wc w2 k2 ph e
      have hk2 := hW w2 k2 ph e
      have := wq_produced hp hk2
      exact ⟨a, b, fun r hr => by rw [c r hr]; exact (other k _ k2 (by omega) (by omega) ((apart hp).1 hk2 hkw)).symm⟩
    · obtain ⟨k2, a, b, c⟩ := I.pc r e
      have := make_produced hp a
      exact ⟨k2, a, b, by rw [c]; exact (other k _ k2 (by omega) b (by omega)).symm⟩
    · obtain ⟨k2, v, a, b⟩ := I.tc r e
      exact absurd a (by rw [h]; simp)
    · have := I.dest k2 hk2
      rw [← dest k (r - 1) (by omega)] at this
      exact this
  | tLoad k v h hc =>
    have hkw := hT k v h
    have hk := rep_produced hp hkw
    have hn : k ∉ s.pf.retired.map Prod.fst := fun hr => (apart hp).2.2.2.2 hkw hr rfl
    exact ⟨I.cnt, I.wc, I.rc, I.pc, fun r e => ⟨k, v, h, (Option.some.inj e).symm⟩, I.dest, I.see (by omega) hn⟩
  | tStore k r v h hc =>
    obtain ⟨k', v', h', hr⟩ := I.tc r hc
    obtain ⟨rfl, rfl⟩ : k' = k ∧ v' = v := by
      rw [h] at h'
      exact ⟨(Reporter.retire.inj h').1.symm, (Reporter.retire.inj h').2.symm⟩
    have hkw := hT k' v' h
    have hk := rep_produced hp hkw
    have hn : k' ∉ s.pf.retired.map Prod.fst := fun hr => (apart hp).2.2.2.2 hkw hr rfl
    have hrc : s.rc = none := by
      cases e : s.rc with
      | none => rfl
      | some x => exact absurd (I.rc x.1 x.2 e).1 (by rw [h]; simp)
    have hwk := wNone k' fun w ph e => (apart hp).2.1 (hW w k' ph e) hkw rfl
    have hck := I.cnt k' (by omega)
    unfold Refs.expected at hck
    rw [hrc, hwk, if_pos hk, if_neg hn] at hck
    have e0 : extra none k' = 0 := rfl
    have hval : r + B.keeps k' - 1 = B.ext (B.obj k') + B.keeps k' := by omega
    refine ⟨fun k2 hk2 => ?_, fun w2 k2 ph e => ?_, fun k2 ph e => ?_, fun r e => ?_, fun r e => (by cases e), fun k2 hk2 => ?_, I.fine⟩
    · have hcnt := I.cnt k2 hk2
      by_cases hne : k2 = k'
      · subst hne
        refine (self k2 _).trans ?_
        unfold Refs.expected
        simp only [if_pos hk, List.map_append, List.map_cons, List.map_nil, List.mem_append, List.mem_singleton, or_true, if_true]
        show _ = _ + _ + extra (s.wc.map Prod.snd) k2 + extra s.rc k2
        rw [hrc, hwk]
        omega
      · refine (other k' _ k2 (by omega) hk2 hne).trans ?_
        rw [hcnt]
        unfold Refs.expected
        simp only [List.map_append, List.map_cons, List.map_nil, List.mem_append, List.mem_singleton, hne, or_false]
        rfl
    · obtain ⟨a, b, c⟩ := I.wc w2 k2 ph e
      have hk2 := hW w2 k2 ph e
      have := wq_produced hp hk2
      exact ⟨a, b, fun r hr => by rw [c r hr]; exact (other k' _ k2 (by omega) (by omega) ((apart hp).2.1 hk2 hkw)).symm⟩
    · exact absurd (show s.rc = some (k2, ph) from e) (by rw [hrc]; simp)
    · obtain ⟨k2, a, b, c⟩ := I.pc r e
      have := make_produced hp a
      exact ⟨k2, a, b, by rw [c]; exact (other k' _ k2 (by omega) b (by omega)).symm⟩
    · have hd := I.dest k2 hk2
      show (if r + B.keeps k' - 1 = 0 then s.destroyed ++ [B.obj k'] else s.destroyed).count (B.obj k2) = _
      rw [hval]
      simp only [List.map_append, List.map_cons, List.map_nil, List.mem_append, List.mem_singleton]
      by_cases hne : k2 = k'
      · subst hne
        rw [if_neg (fun x => hn x.1)] at hd
        by_cases hz : B.ext (B.obj k2) + B.keeps k2 = 0
        · simp [hz, List.count_append, hd]
        · rw [if_neg hz, if_neg (fun x => hz x.2)]
          exact hd
      · have hob : B.obj k' ≠ B.obj k2 := fun e => hne (hobj k2 hk2 k' (by omega) e.symm)
        simp only [hne, or_false]
        rw [← hd]
        split
        · rw [List.count_append, List.count_singleton]
          simp [hob]
        · rfl

theorem ref_inv {B : RefArgs V} (hobj : ∀ i < B.size, ∀ j < B.size, B.obj i = B.obj j → i = j) {s : Refs W V} (h : RefReach B s) : RefInv B s := by
  induction h with
  | init =>
    refine ⟨fun k hk => ?_, fun w k ph e => (by cases e), fun k ph e => (by cases e), fun r e => (by cases e), fun r e => (by cases e), fun k hk => ?_, rfl⟩
    · simp [Refs.init, PF.init, Refs.expected, extra]
    · simp [Refs.init, PF.init]
  | step h hs ih => exact ref_step hobj (ref_pf h) ih hs

/-! ## C104: objects -/

/-- **C104** (objects).  If `produce` returns a new object for every job, then for every schedule and every interleaving of the unprotected changes of reference counts: no count of a
destroyed object is read; as long as a job is in memory its object is alive and its count is more than the number of references Python has; and when the call has returned the
count of every object is the number of references that Python has, and the object was destroyed exactly once if there are none and not otherwise. -/
theorem C104_refs (B : RefArgs V) (hobj : ∀ i < B.size, ∀ j < B.size, B.obj i = B.obj j → i = j) (s : Refs W V) (h : RefReach B s) :
    s.bad = false ∧ (∀ k ∈ s.pf.inMemory, B.obj k ∉ s.destroyed ∧ B.ext (B.obj k) < s.cnt (B.obj k)) ∧
    (s.pf.Returned → ∀ k < B.size, s.cnt (B.obj k) = B.ext (B.obj k) + B.keeps k ∧
      s.destroyed.count (B.obj k) = if B.ext (B.obj k) + B.keeps k = 0 then 1 else 0) := by
  have I := ref_inv hobj h
  have hp := ref_pf h
  refine ⟨I.fine, fun k hk => ?_, fun hr k hk => ?_⟩
  · have hlt : k < s.pf.produced.length := by
      rw [← Multiset.mem_range, ← C104_places _ _ hp]
      exact Multiset.mem_add.2 (.inl hk)
    have hn : k ∉ s.pf.retired.map Prod.fst := fun hm => by
      have := nodup_all hp
      rw [Multiset.nodup_add] at this
      exact Multiset.disjoint_left.1 this.2.2 hk hm
    have hsz := (produced_size hp).1
    have hd := I.dest k (by omega)
    rw [if_neg (fun x => hn x.1)] at hd
    have hc := I.cnt k (by omega)
    unfold Refs.expected at hc
    rw [if_pos hlt, if_neg hn] at hc
    exact ⟨List.count_eq_zero.1 hd, by omega⟩
  · obtain ⟨e1, -, e3⟩ := C31_exactly_once _ _ hp hr
    have hm : k ∈ s.pf.retired.map Prod.fst := by
      have : (k, B.compute (B.produce k)) ∈ s.pf.retired := e3.mem_iff.2 (List.mem_map.2 ⟨k, List.mem_range.2 hk, rfl⟩)
      exact List.mem_map.2 ⟨_, this, rfl⟩
    have hw : s.wc = none := by
      cases e : s.wc with
      | none => rfl
      | some x => exact absurd (I.wc x.1 x.2.1 x.2.2 e).1 (by rw [hr.2.1]; simp)
    have hrc : s.rc = none := by
      cases e : s.rc with
      | none => rfl
      | some x => exact absurd (I.rc x.1 x.2 e).1 (by rw [hr.2.2]; simp)
    have hc := I.cnt k hk
    unfold Refs.expected at hc
    rw [hw, hrc, if_pos hm, e1, List.length_range, if_pos hk] at hc
    have hd := I.dest k hk
    simp only [hm, true_and] at hd
    exact ⟨hc, hd⟩

/-- No thread is inside a change of a reference count. -/
def Refs.Idle (s : Refs W V) : Prop := s.wc = none ∧ s.rc = none ∧ s.pc = none ∧ s.tc = none

/-- **C104** (nothing is left out).  Every state that a call of `parallel_for` can reach (`PFReach`, the executions of C31) is reached with reference counts. -/
theorem C104_lift (B : RefArgs V) (p : PF W V) (h : PFReach B.toPFArgs p) : ∃ s : Refs W V, RefReach B s ∧ s.pf = p ∧ s.Idle := by
  induction h with
  | init => exact ⟨_, .init, rfl, rfl, rfl, rfl, rfl⟩
  | spurious _ hs ih =>
    obtain ⟨s, h1, rfl, h3⟩ := ih
    exact ⟨_, h1.step (.spurious _ _ hs), rfl, h3⟩
  | step _ hs ih =>
    obtain ⟨s, h1, rfl, h2, h3, h4, h5⟩ := ih
    have plain : ∀ p, Plain B.toPFArgs s.pf p → ∃ s' : Refs W V, RefReach B s' ∧ s'.pf = p ∧ s'.Idle := fun p hp =>
      ⟨_, h1.step (.plain _ _ hp), rfl, h2, h3, h4, h5⟩
    cases hs
    case pMake k h hk => exact ⟨_, (h1.step (.pLoad _ k h hk h4)).step (.pStore _ k _ h hk rfl), rfl, h2, h3, rfl, h5⟩
    case wPop w k v q h hq =>
      exact ⟨_, (((h1.step (.wLoad _ w k v q h hq h2)).step (.wStore _ w k _ rfl)).step (.wLoad' _ w k rfl)).step (.wStore' _ w k _ v q h hq rfl), rfl, rfl, h3, h4, h5⟩
    case rPop k v q h hq =>
      exact ⟨_, (((h1.step (.rLoad _ k v q h hq h3)).step (.rStore _ k _ rfl)).step (.rLoad' _ k rfl)).step (.rStore' _ k _ v q h hq rfl), rfl, h2, rfl, h4, h5⟩
    case rRetire k v h => exact ⟨_, (h1.step (.tLoad _ k v h h5)).step (.tStore _ k _ v h rfl), rfl, h2, h3, h4, rfl⟩
    case pReg h => exact plain _ ⟨.pReg _ h, rfl, rfl, .inl rfl, .inl rfl⟩
    case pEnd k h hk => exact plain _ ⟨.pEnd _ k h hk, rfl, rfl, .inl rfl, .inl rfl⟩
    case pPush k v h hq => exact plain _ ⟨.pPush _ k v h hq, rfl, rfl, .inr ⟨_, rfl⟩, .inl rfl⟩
    case pWait k v h hq => exact plain _ ⟨.pWait _ k v h hq, rfl, rfl, .inl rfl, .inl rfl⟩
    case pNotifyNone k h hw => exact plain _ ⟨.pNotifyNone _ k h hw, rfl, rfl, .inl rfl, .inl rfl⟩
    case pNotifyOne k w h hw => exact plain _ ⟨.pNotifyOne _ k w h hw, rfl, rfl, .inl rfl, .inl rfl⟩
    case pUnreg h => exact plain _ ⟨.pUnreg _ h, rfl, rfl, .inl rfl, .inl rfl⟩
    case pNotifyAll h => exact plain _ ⟨.pNotifyAll _ h, rfl, rfl, .inl rfl, .inl rfl⟩
    case wReg w h => exact plain _ ⟨.wReg _ w h, rfl, rfl, .inl rfl, .inl rfl⟩
    case wPopClosed w h hq hc => exact plain _ ⟨.wPopClosed _ w h hq hc, rfl, rfl, .inl rfl, .inl rfl⟩
    case wWait w h hq hc => exact plain _ ⟨.wWait _ w h hq hc, rfl, rfl, .inl rfl, .inl rfl⟩
    case wGot w k v h => exact plain _ ⟨.wGot _ w k v h, rfl, rfl, .inl rfl, .inl rfl⟩
    case wCompute w k v h => exact plain _ ⟨.wCompute _ w k v h, rfl, rfl, .inl rfl, .inl rfl⟩
    case wPush w k v h => exact plain _ ⟨.wPush _ w k v h, rfl, rfl, .inl rfl, .inr ⟨_, rfl⟩⟩
    case wNotify w h => exact plain _ ⟨.wNotify _ w h, rfl, rfl, .inl rfl, .inl rfl⟩
    case wUnreg w h => exact plain _ ⟨.wUnreg _ w h, rfl, rfl, .inl rfl, .inl rfl⟩
    case wNotifyAll w h => exact plain _ ⟨.wNotifyAll _ w h, rfl, rfl, .inl rfl, .inl rfl⟩
    case rPopClosed h hq hc => exact plain _ ⟨.rPopClosed _ h hq hc, rfl, rfl, .inl rfl, .inl rfl⟩
    case rWait h hq hc => exact plain _ ⟨.rWait _ h hq hc, rfl, rfl, .inl rfl, .inl rfl⟩

theorem run_reach {A : PFArgs V} {n k : Nat} {s s' : PF W V} (hs : PFReach A s) (h : PFRun A s n k s') : PFReach A s' := by
  induction h with
  | refl => exact hs
  | step _ h ih => exact ih.step h
  | spurious _ h ih => exact ih.spurious h

/-- Some execution returns. -/
theorem some_returns (hW : 0 < W) (A : PFArgs V) : ∃ s : PF W V, PFReach A s ∧ s.Returned := by
  by_contra hno
  have : ∀ n, ∃ s : PF W V, PFRun A (PF.init W V) n 0 s := by
    intro n
    induction n with
    | zero => exact ⟨_, .refl _⟩
    | succ n ih =>
      obtain ⟨s, h⟩ := ih
      have hr := run_reach .init h
      obtain ⟨s', hs⟩ := C31_no_deadlock hW A s hr fun e => hno ⟨s, hr, e⟩
      exact ⟨s', h.step hs⟩
  obtain ⟨s, h⟩ := this (7 * W + 14 * A.size + 7)
  have := C31_terminates A _ _ s h
  omega

/-- Three jobs with objects of their own and two threads.  Python keeps a reference to the object of job 1 only: there is an execution that returns, and then the objects of the jobs
0 and 2 are destroyed. -/
example : ∃ s : Refs 2 Nat, RefReach ⟨⟨3, 0, fun k => k, fun v => v⟩, fun k => k, fun _ => 0, fun k => if k = 1 then 1 else 0⟩ s ∧ s.pf.Returned ∧
    s.cnt 0 = 0 ∧ s.cnt 1 = 1 ∧ s.cnt 2 = 0 ∧ s.destroyed.count 0 = 1 ∧ s.destroyed.count 1 = 0 ∧ s.destroyed.count 2 = 1 := by
  obtain ⟨p, h, hr⟩ := some_returns (W := 2) (by decide) (⟨3, 0, fun k => k, fun v => v⟩ : PFArgs Nat)
  obtain ⟨s, h1, rfl, -⟩ := C104_lift ⟨⟨3, 0, fun k => k, fun v => v⟩, fun k => k, fun _ => 0, fun k => if k = 1 then 1 else 0⟩ p h
  obtain ⟨-, -, e⟩ := C104_refs _ (fun i _ j _ e => e) s h1
  have e0 := e hr 0 (by decide)
  have e1 := e hr 1 (by decide)
  have e2 := e hr 2 (by decide)
  exact ⟨s, h1, hr, e0.1, e1.1, e2.1, e0.2, e1.2, e2.2⟩

/-! ## Finding: jobs with the same object -/

/-- Two jobs with the same object, to which Python has one reference all the time. -/
def sharedJobs : RefArgs Unit := ⟨⟨2, 2, fun _ => (), fun v => v⟩, fun _ => 0, fun _ => 1, fun _ => 0⟩

/-- **C104** is false without the assumption: if `produce` returns the same object twice, the object can be destroyed although Python has a reference to it all the time.  A compute
thread copies the second job while the report thread copies the first; both read the same count, and one of the two increments is lost. -/
theorem C104_shared : ∃ s : Refs 1 Unit, RefReach sharedJobs s ∧ 0 ∈ s.destroyed ∧ sharedJobs.ext 0 = 1 := by
  have s0 := RefReach.init (W := 1) (B := sharedJobs)
  have s1 := s0.step (.plain _ _ ⟨.pReg _ rfl, rfl, rfl, .inl rfl, .inl rfl⟩)
  have s2 := (s1.step (.pLoad _ 0 rfl (by decide) rfl)).step (.pStore _ 0 1 rfl (by decide) rfl)
  have s3 := s2.step (.plain _ _ ⟨.pPush _ 0 () rfl (by decide), rfl, rfl, .inr ⟨_, rfl⟩, .inl rfl⟩)
  have s4 := s3.step (.plain _ _ ⟨.pNotifyNone _ 0 rfl (fun _ h => by cases h), rfl, rfl, .inl rfl, .inl rfl⟩)
  have s5 := (s4.step (.pLoad _ 1 rfl (by decide) rfl)).step (.pStore _ 1 2 rfl (by decide) rfl)
  have s6 := s5.step (.plain _ _ ⟨.pPush _ 1 () rfl (by decide), rfl, rfl, .inr ⟨_, rfl⟩, .inl rfl⟩)
  have s7 := s6.step (.plain _ _ ⟨.wReg _ 0 rfl, rfl, rfl, .inl rfl, .inl rfl⟩)
  have s8 := (((s7.step (.wLoad _ 0 0 () _ rfl rfl rfl)).step (.wStore _ 0 0 3 rfl)).step (.wLoad' _ 0 0 rfl)).step (.wStore' _ 0 0 4 () _ rfl rfl rfl)
  have s9 := s8.step (.plain _ _ ⟨.wGot _ 0 0 () rfl, rfl, rfl, .inl rfl, .inl rfl⟩)
  have s10 := s9.step (.plain _ _ ⟨.wCompute _ 0 0 () rfl, rfl, rfl, .inl rfl, .inl rfl⟩)
  have s11 := s10.step (.plain _ _ ⟨.wPush _ 0 0 () rfl, rfl, rfl, .inl rfl, .inr ⟨_, rfl⟩⟩)
  have s12 := s11.step (.plain _ _ ⟨.wNotify _ 0 rfl, rfl, rfl, .inl rfl, .inl rfl⟩)
  have s13 := s12.step (.wLoad _ 0 1 () _ rfl rfl rfl)
  have s14 := s13.step (.rLoad _ 0 () _ rfl rfl rfl)
  have s15 := s14.step (.wStore _ 0 1 3 rfl)
  have s16 := s15.step (.rStore _ 0 3 rfl)
  have s17 := (s16.step (.wLoad' _ 0 1 rfl)).step (.wStore' _ 0 1 4 () _ rfl rfl rfl)
  have s18 := (s17.step (.rLoad' _ 0 rfl)).step (.rStore' _ 0 3 () _ rfl rfl rfl)
  have s19 := (s18.step (.tLoad _ 0 () rfl rfl)).step (.tStore _ 0 2 () rfl rfl)
  have s20 := s19.step (.plain _ _ ⟨.wGot _ 0 1 () rfl, rfl, rfl, .inl rfl, .inl rfl⟩)
  have s21 := s20.step (.plain _ _ ⟨.wCompute _ 0 1 () rfl, rfl, rfl, .inl rfl, .inl rfl⟩)
  have s22 := s21.step (.plain _ _ ⟨.wPush _ 0 1 () rfl, rfl, rfl, .inl rfl, .inr ⟨_, rfl⟩⟩)
  have s23 := (((s22.step (.rLoad _ 1 () _ rfl rfl rfl)).step (.rStore _ 1 1 rfl)).step (.rLoad' _ 1 rfl)).step (.rStore' _ 1 2 () _ rfl rfl rfl)
  have s24 := (s23.step (.tLoad _ 1 () rfl rfl)).step (.tStore _ 1 1 () rfl rfl)
  exact ⟨_, s24, List.mem_singleton.2 rfl, rfl⟩

end Verif.Thread
