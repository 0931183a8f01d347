import Verif.Pool.Steps3
/-
Properties of the tensor pool.
C40: a slot is either free or in use, never both and never twice; the count of a slot is the number of
references to it, and a slot without references is free again.
C41: the memory of two tensors in use never overlaps and lies in the pool; it changes only through
their holders.
C42: stale descriptors. C43: a new tensor is zero.
All for every schedule of any number of threads and processes, with spurious failures of the weak
compare-and-exchange and processes dying at any point, as long as no dead process's slot is reclaimed
(`Proper`). What reclaiming breaks is shown by the witnesses at the end.
-/
namespace Horus.Pool
open Horus.Ring (upd upd_same upd_ne)

/-- A state of the pool reached by proper use. -/
def Reach (c : Cfg) (s : St) : Prop := ∃ as, ProperRun c (St.init c) as ∧ s = run c (St.init c) as

/-- No operation is under way. -/
def Quiet (s : St) : Prop := ∀ t, s.thr t = .idle

/-- `l` is the free list as linked in shared memory. -/
def FreeList (s : St) (l : List Nat) : Prop := s.head.2 = l.head? ∧ chain s.slot l

theorem Reach.inv {c : Cfg} {s : St} (h : Reach c s) : Inv c s := by
  obtain ⟨as, hp, rfl⟩ := h
  exact inv_run (inv_init c) hp

/-- The free list is what one reads by following the links from the head, so it is unique. -/
theorem freeList_unique {s : St} {l l' : List Nat} (h : FreeList s l) (h' : FreeList s l') : l = l' := by
  have key : ∀ (l l' : List Nat), l.head? = l'.head? → chain s.slot l → chain s.slot l' → l = l' := by
    intro l
    induction l with
    | nil => intro l' e _ _; cases l' with
      | nil => rfl
      | cons a l' => simp at e
    | cons a l ih => intro l' e c1 c2; cases l' with
      | nil => simp at e
      | cons b l' =>
        simp at e; subst e
        rw [ih l' (c1.1.symm.trans c2.1) c1.2 c2.2]
  exact key l l' (h.1.symm.trans h'.1) h.2 h'.2

/-- C40: at every moment the free list names each slot at most once, and no slot on it is referenced or
counted. -/
theorem free_list_sound {c : Cfg} {s : St} (h : Reach c s) :
    ∃ l, FreeList s l ∧ l.Nodup ∧
      ∀ i ∈ l, i < c.slots ∧ (s.slot i).rc = 0 ∧ ∀ d ∈ s.refs, d.slot ≠ i := by
  have hi := h.inv
  refine ⟨s.stk, ⟨hi.hd, hi.chn⟩, hi.nodup, fun i hm => ?_⟩
  obtain ⟨h1, h2⟩ := (hi.free i).mp hm
  have h3 := hi.noRef i (by rw [h2]; simp)
  refine ⟨h1, ?_, h3⟩
  rw [hi.rc i, hi.freeIdle i h2, List.countP_eq_zero.mpr]
  · rfl
  · intro d hd; simp [h3 d hd]

/-- C40: when no operation is under way, the count of a slot is exactly the number of references users
hold to it. -/
theorem count_exact {c : Cfg} {s : St} (h : Reach c s) (hq : Quiet s) (i : Nat) :
    (s.slot i).rc = s.refs.countP (fun d => decide (d.slot = i)) := by
  have hi := h.inv
  have : s.busy i = [] := by
    cases hb : s.busy i with
    | nil => rfl
    | cons t l =>
      have := hi.busy t i (by rw [hb]; simp)
      rw [hq t] at this; simp [custody] at this
  rw [hi.rc i, this]; rfl

/-- C40: when no operation is under way, the free list holds exactly the slots nobody references: no
slot is lost and none is given away too early. -/
theorem no_leak {c : Cfg} {s : St} (h : Reach c s) (hq : Quiet s) :
    ∃ l, FreeList s l ∧ l.Nodup ∧ ∀ i, i ∈ l ↔ i < c.slots ∧ ∀ d ∈ s.refs, d.slot ≠ i := by
  have hi := h.inv
  refine ⟨s.stk, ⟨hi.hd, hi.chn⟩, hi.nodup, fun i => ?_⟩
  rw [hi.free i]
  constructor
  · rintro ⟨h1, h2⟩; exact ⟨h1, hi.noRef i (by rw [h2]; simp)⟩
  · rintro ⟨h1, h2⟩
    refine ⟨h1, ?_⟩
    cases ho : s.own i with
    | free => rfl
    | held t => have := hi.held i t ho; rw [hq t] at this; simp [holds] at this
    | live =>
      have h3 := (hi.live i ho).2
      rw [count_exact h hq i, List.countP_eq_zero.mpr] at h3
      · omega
      · intro d hd; simp [h2 d hd]

/-- C40: two references to the same slot are references to the same tensor: a slot is never given to a
second allocation while a reference to the first remains. -/
theorem slot_exclusive_partial {c : Cfg} {s : St} (h : Reach c s) (d d' : Desc) (hd : d ∈ s.refs) (hd' : d' ∈ s.refs)
    (e : d.slot = d'.slot) : d = d' := by
  have hi := h.inv
  obtain ⟨a1, a2⟩ := hi.refs d hd
  obtain ⟨b1, b2⟩ := hi.refs d' hd'
  obtain ⟨a3, a4⟩ := (hi.issued d a1).2 a2
  obtain ⟨b3, b4⟩ := (hi.issued d' b1).2 b2
  cases d; cases d'
  simp only at e a2 b2 a3 a4 b3 b4
  subst e
  rw [a2, a3, a4, b2, b3, b4]

/-- C41: tensors in use lie in the pool and do not overlap. -/
theorem tensors_disjoint_partial {c : Cfg} {s : St} (h : Reach c s) (d : Desc) (hd : d ∈ s.refs) :
    d.offset + d.size ≤ c.size ∧
    ∀ d' ∈ s.refs, d ≠ d' → ∀ x < d.size, ∀ y < d'.size, d.offset + x ≠ d'.offset + y := by
  have hi := h.inv
  obtain ⟨a1, a2⟩ := hi.refs d hd
  obtain ⟨a3, a4⟩ := (hi.issued d a1).2 a2
  have f1 := hi.fits d.slot
  have f2 := hi.below d.slot
  have f3 := hi.bumpLe
  refine ⟨by omega, fun d' hd' hne x hx y hy => ?_⟩
  obtain ⟨b1, b2⟩ := hi.refs d' hd'
  obtain ⟨b3, b4⟩ := (hi.issued d' b1).2 b2
  have g1 := hi.fits d'.slot
  have hs : d.slot ≠ d'.slot := fun e => hne (slot_exclusive_partial h d d' hd hd' e)
  have := hi.disj _ _ hs
  unfold apart at this
  omega

theorem stepThr_mem (c : Cfg) (s : St) (t : Nat) (ok : Bool) (x : Nat) :
    (stepThr c s t ok).mem x = s.mem x ∨
    ∃ i, s.thr t = .retZero i ∧ (s.slot i).offset ≤ x ∧ x < (s.slot i).offset + (s.slot i).size := by
  unfold stepThr
  cases hpc : s.thr t <;> dsimp only <;> (repeat' split) <;> first
    | exact Or.inl rfl
    | skip
  simp only [setThr]
  split
  · rename_i h; exact Or.inr ⟨_, rfl, h⟩
  · exact Or.inl rfl

/-- C41: nothing but a store through the same descriptor changes the bytes of a tensor in use: no other
tensor's holder, no allocation, no release elsewhere. -/
theorem contents_stable_partial {c : Cfg} {s : St} (h : Reach c s) (a : Act) (hp : Proper s a) (d : Desc) (hd : d ∈ s.refs)
    (ha : ∀ x v, a ≠ .write d x v) (x : Nat) (hx : x < d.size) :
    (step c s a).mem (d.offset + x) = s.mem (d.offset + x) := by
  have hi := h.inv
  obtain ⟨a1, a2⟩ := hi.refs d hd
  obtain ⟨a3, a4⟩ := (hi.issued d a1).2 a2
  have f1 := hi.fits d.slot
  cases a with
  | start t op =>
    unfold step; dsimp only
    split
    · cases op <;> rfl
    · rfl
  | crash p => rfl
  | step t ok =>
    unfold step; dsimp only
    split
    · rfl
    · rcases stepThr_mem c s t ok (d.offset + x) with e | ⟨i, e1, e2, e3⟩
      · exact e
      · exfalso
        have ho := (hi.holds t i (by rw [e1]; rfl)).1
        have hne : i ≠ d.slot := by
          rintro rfl; exact hi.noRef d.slot (by rw [ho]; simp) d hd rfl
        have := hi.disj _ _ hne
        have g1 := hi.fits i
        unfold apart at this
        omega
  | write d' y v =>
    unfold step; dsimp only
    split
    · rename_i hc
      show upd s.mem _ v _ = _
      rw [upd_ne]
      have hne : d ≠ d' := by rintro rfl; exact ha y v rfl
      exact (tensors_disjoint_partial h d hd).2 d' hp hne x hx y hc.2.2
    · rfl

theorem stepThr_refs (c : Cfg) (s : St) (t : Nat) (ok : Bool) (d : Desc) (hd : d ∈ s.refs) :
    d ∈ (stepThr c s t ok).refs := by
  unfold stepThr
  cases s.thr t <;> dsimp only <;> (repeat' split) <;> first
    | exact hd
    | exact List.mem_cons_of_mem _ hd
    | exact List.mem_cons_of_mem _ (List.mem_cons_of_mem _ hd)

/-- C41: a reference stays until its holder gives it up: whatever others do, the tensor stays theirs. -/
theorem reference_stays {c : Cfg} {s : St} (a : Act) (d : Desc) (hd : d ∈ s.refs)
    (h1 : ∀ t, a ≠ .start t (.release d)) (h2 : ∀ t, a ≠ .start t (.retain d)) : d ∈ (step c s a).refs := by
  cases a with
  | start t op =>
    unfold step; dsimp only
    split
    · cases op with
      | alloc r => exact hd
      | tryRetain d' => exact hd
      | release d' => exact (List.mem_erase_of_ne (by rintro rfl; exact h1 t rfl)).mpr hd
      | retain d' => exact (List.mem_erase_of_ne (by rintro rfl; exact h2 t rfl)).mpr hd
    · exact hd
  | crash p => exact hd
  | step t ok =>
    unfold step; dsimp only
    split
    · exact hd
    · exact stepThr_refs c s t ok d hd
  | write d' y v =>
    unfold step; dsimp only
    split <;> exact hd

/-- validate_descriptor (tensor_pool.rs:1385-1460), for the right pool id. -/
def validate (c : Cfg) (s : St) (d : Desc) : Bool :=
  decide (d.slot < c.slots) && (s.slot d.slot).alloc && decide ((s.slot d.slot).gen = d.gen) &&
  decide ((s.slot d.slot).offset = d.offset) && decide ((s.slot d.slot).size = d.size) &&
  decide (d.offset + d.size ≤ c.size)

/-- C42: every reference in use is current: it validates, its generation is the slot's, and the slot is
counted. -/
theorem references_current {c : Cfg} {s : St} (h : Reach c s) (d : Desc) (hd : d ∈ s.refs) :
    validate c s d = true ∧ 0 < (s.slot d.slot).rc := by
  have hi := h.inv
  obtain ⟨a1, a2⟩ := hi.refs d hd
  obtain ⟨a3, a4⟩ := (hi.issued d a1).2 a2
  have hlive : s.own d.slot = .live := by
    by_contra hn; exact hi.noRef _ hn d hd rfl
  have hb := (tensors_disjoint_partial h d hd).1
  refine ⟨?_, (hi.live _ hlive).2⟩
  simp only [validate, Bool.and_eq_true, decide_eq_true_eq]
  exact ⟨⟨⟨⟨⟨(hi.live _ hlive).1, hi.flag _ hlive⟩, a2.symm⟩, a3.symm⟩, a4.symm⟩, hb⟩

/-- C42: a descriptor that was returned once and validates now is the descriptor of the tensor that is
in the slot now, not of an earlier one: same generation, same memory. -/
theorem validated_is_current_partial {c : Cfg} {s : St} (h : Reach c s) (d : Desc) (hd : d ∈ s.issued)
    (hv : validate c s d = true) (d' : Desc) (hd' : d' ∈ s.refs) (e : d'.slot = d.slot) : d = d' := by
  have hi := h.inv
  simp only [validate, Bool.and_eq_true, decide_eq_true_eq] at hv
  obtain ⟨⟨⟨⟨⟨_, _⟩, v3⟩, v4⟩, v5⟩, _⟩ := hv
  obtain ⟨b1, b2⟩ := hi.refs d' hd'
  obtain ⟨b3, b4⟩ := (hi.issued d' b1).2 b2
  cases d; cases d'
  simp only at e v3 v4 v5 b2 b3 b4
  subst e
  rw [← v3, ← v4, ← v5, b2, b3, b4]

/-- C43: the memory of a tensor just allocated is zero, whatever was in it before. -/
theorem new_tensor_zero_partial {c : Cfg} {s : St} (h : Reach c s) (a : Act) (d : Desc)
    (ha : (step c s a).issued = d :: s.issued) (x : Nat) (hx : x < d.size) :
    (step c s a).mem (d.offset + x) = 0 := by
  have hi := h.inv
  have key : ∀ t ok, (stepThr c s t ok).issued = d :: s.issued → (stepThr c s t ok).mem (d.offset + x) = 0 := by
    intro t ok
    unfold stepThr
    cases hpc : s.thr t <;> dsimp only <;> (repeat' split) <;> first
      | (intro e; have e2 := congrArg List.length e; simp [setThr, setSlot, drop, giveBack] at e2; done)
      | skip
    rename_i r i g o
    intro e
    simp only [setThr, drop, setSlot, List.cons.injEq] at e
    obtain ⟨e, _⟩ := e
    subst e
    have hp := hi.pc t
    rw [hpc] at hp
    obtain ⟨_, ho, hs⟩ := hp
    have hh := hi.holds t i (by rw [hpc]; rfl)
    have hf := hi.fits i
    simp only at hx ⊢
    exact hi.cleanHeld i t (o + x) hh.1 (by rw [hpc]; rfl) (by omega) (by omega)
  cases a with
  | start t op =>
    exfalso
    revert ha
    unfold step; dsimp only
    split
    · cases op <;> (intro e; exact absurd (congrArg List.length e) (by simp [start, setThr, take]))
    · intro e; exact absurd (congrArg List.length e) (by simp)
  | crash p => exact absurd (congrArg List.length ha) (by simp [step])
  | write d' y v =>
    exfalso
    revert ha
    unfold step; dsimp only
    split <;> (intro e; exact absurd (congrArg List.length e) (by simp))
  | step t ok =>
    unfold step at ha ⊢
    dsimp only at ha ⊢
    split at ha
    · exact absurd (congrArg List.length ha) (by simp)
    · rename_i hd
      rw [if_neg hd]; exact key t ok ha

/-- C42: release, retain and try_retain of a descriptor whose generation is not the slot's end at once
and change nothing in the pool. -/
theorem stale_refused_partial (c : Cfg) (s : St) (t : Nat) (ok : Bool) (d : Desc) (hg : (s.slot d.slot).gen ≠ d.gen)
    (hpc : s.thr t = .relGen d ∨ s.thr t = .keepGen d ∨ s.thr t = .tryGen d) :
    let s' := stepThr c s t ok
    s'.thr t = .idle ∧ s'.head = s.head ∧ s'.slot = s.slot ∧ s'.mem = s.mem ∧ s'.bump = s.bump := by
  rcases hpc with h | h | h <;> simp only [stepThr, h, if_neg hg] <;>
    exact ⟨upd_same _ _ _, rfl, rfl, rfl, rfl⟩

end Horus.Pool
