import Verif.Pool.Props
/-
C40, the other direction: an allocation for which there is a slot and memory succeeds, and a slot whose
last reference is released goes back on the free list, when the operation runs to its end; and what
happens when slots of dead processes are reclaimed.
-/
namespace Horus.Pool
open Horus.Ring (upd upd_same upd_ne)

/-- Thread `t` runs alone for `n` steps. -/
def solo (c : Cfg) (s : St) (t n : Nat) : St := run c s (List.replicate n (.step t true))

/-- Running alone, thread `t` gets to a state with `P`. -/
def Leads (c : Cfg) (t : Nat) (s : St) (P : St → Prop) : Prop := ∃ n, P (solo c s t n)

theorem Leads.adv {c : Cfg} {s : St} {t : Nat} {P : St → Prop} (h : Leads c t (stepThr c s t true) P)
    (hd : c.pid t ∉ s.dead) : Leads c t s P := by
  obtain ⟨n, hn⟩ := h
  refine ⟨n + 1, ?_⟩
  unfold solo run at *
  rw [List.replicate_succ, List.foldl_cons]
  have e : step c s (.step t true) = stepThr c s t true := by
    show (if c.pid t ∈ s.dead then s else _) = _
    rw [if_neg hd]
  rw [e]; exact hn

theorem Leads.here {c : Cfg} {s : St} {t : Nat} {P : St → Prop} (h : P s) : Leads c t s P := ⟨0, h⟩

/-- The thread is idle again and the references are `rs`. -/
def Got (rs : List Desc) (t : Nat) (s : St) : Prop := s.refs = rs ∧ s.thr t = .idle

theorem tail_alloc {c : Cfg} {s : St} {t r i g o : Nat} (hd : c.pid t ∉ s.dead) (ht : s.thr t = .setOwner r i g o) :
    Leads c t s (Got (⟨i, g, o, r⟩ :: s.refs) t) := by
  refine Leads.adv ?_ hd
  simp only [stepThr, ht]
  refine Leads.adv ?_ hd
  simp only [stepThr, setThr, setSlot, upd_same]
  refine Leads.adv ?_ hd
  simp only [stepThr, setThr, setSlot, upd_same, drop]
  exact Leads.here ⟨rfl, upd_same _ _ _⟩

/-- C40: allocation succeeds. If the free list is not empty and either the first free slot already owns
enough memory or the pool has enough left, an allocation that runs to its end returns a tensor of the
size asked for, in the first free slot. -/
theorem alloc_succeeds (c : Cfg) (s : St) (t r i : Nat) (hd : c.pid t ∉ s.dead)
    (hi : s.thr t = .idle) (hf : s.head.2 = some i)
    (hroom : (0 < (s.slot i).cap ∧ c.roundUp r ≤ (s.slot i).cap) ∨ c.roundUp s.bump + c.roundUp r ≤ c.size) :
    ∃ n d, (solo c (step c s (.start t (.alloc r))) t n).refs = d :: s.refs ∧
      (solo c (step c s (.start t (.alloc r))) t n).thr t = .idle ∧ d.size = r ∧ d.slot = i := by
  have e0 : step c s (.start t (.alloc r)) = setThr s t (.popHead r false) := by
    show (if _ then _ else _) = _
    rw [if_pos ⟨hi, hd⟩]; rfl
  rw [e0]
  suffices H : ∃ d, d.size = r ∧ d.slot = i ∧ Leads c t (setThr s t (.popHead r false)) (Got (d :: s.refs) t) by
    obtain ⟨d, h1, h2, n, h3, h4⟩ := H
    exact ⟨n, d, h3, h4, h1, h2⟩
  have hh : s.head = (s.head.1, some i) := by rw [← hf]
  have step1 : ∀ (P : St → Prop), (∀ s1 : St, s1.thr t = .choose r i → s1.dead = s.dead → s1.refs = s.refs →
      s1.bump = s.bump → s1.slot i = { s.slot i with owner := c.pid t, alloc := true } → Leads c t s1 P) →
      Leads c t (setThr s t (.popHead r false)) P := by
    intro P hP
    refine Leads.adv ?_ hd
    simp only [stepThr, setThr, upd_same, hf]
    refine Leads.adv ?_ hd
    simp only [stepThr, setThr, upd_same]
    refine Leads.adv ?_ hd
    simp only [stepThr, setThr, upd_same]
    rw [if_pos ⟨trivial, hh⟩]
    refine Leads.adv ?_ hd
    simp only [stepThr, setThr, setSlot, upd_same]
    refine Leads.adv ?_ hd
    simp only [stepThr, setThr, setSlot, upd_same]
    exact hP _ (upd_same _ _ _) rfl rfl rfl (upd_same _ _ _)
  by_cases hc : 0 < (s.slot i).cap ∧ c.roundUp r ≤ (s.slot i).cap
  · refine ⟨⟨i, (s.slot i).gen + 1, (s.slot i).offset, r⟩, rfl, rfl, step1 _ ?_⟩
    intro s1 k1 k2 k3 k4 k5
    have hd1 : c.pid t ∉ s1.dead := by rw [k2]; exact hd
    refine Leads.adv ?_ hd1
    simp only [stepThr, k1, k5, if_pos hc]
    refine Leads.adv ?_ hd1
    simp only [stepThr, setThr, setSlot, upd_same]
    refine Leads.adv ?_ hd1
    simp only [stepThr, setThr, setSlot, upd_same, k5]
    rw [← k3]
    exact tail_alloc hd1 (upd_same _ _ _)
  · have hroom := hroom.resolve_left hc
    refine ⟨⟨i, (s.slot i).gen + 1, c.roundUp s.bump, r⟩, rfl, rfl, step1 _ ?_⟩
    intro s1 k1 k2 k3 k4 k5
    have hd1 : c.pid t ∉ s1.dead := by rw [k2]; exact hd
    refine Leads.adv ?_ hd1
    simp only [stepThr, k1, k5, if_neg hc]
    refine Leads.adv ?_ hd1
    simp only [stepThr, setThr, setSlot, upd_same, k4, if_neg (Nat.not_lt.mpr hroom)]
    refine Leads.adv ?_ hd1
    simp only [stepThr, setThr, setSlot, upd_same, k4, and_self, if_true]
    refine Leads.adv ?_ hd1
    simp only [stepThr, setThr, setSlot, upd_same, k5]
    refine Leads.adv ?_ hd1
    simp only [stepThr, setThr, setSlot, upd_same]
    rw [← k3]
    exact tail_alloc hd1 (upd_same _ _ _)

/-- C40: releasing the last reference runs to the end by itself and puts the slot on top of the free
list, scrubbed. -/
theorem release_frees {c : Cfg} {s : St} (h : Reach c s) (hq : Quiet s) (t : Nat) (d : Desc) (hd : c.pid t ∉ s.dead)
    (hm : d ∈ s.refs) (hone : s.refs.countP (fun e => decide (e.slot = d.slot)) = 1) :
    ∃ n, let s' := solo c (step c s (.start t (.release d))) t n
      s'.head.2 = some d.slot ∧ (s'.slot d.slot).rc = 0 ∧ (s'.slot d.slot).alloc = false ∧
      s'.refs = s.refs.erase d ∧ s'.thr t = .idle ∧ ∀ x < d.size, s'.mem (d.offset + x) = 0 := by
  have hrc : (s.slot d.slot).rc = 1 := by rw [count_exact h hq, hone]
  obtain ⟨a1, a2⟩ := h.inv.refs d hm
  obtain ⟨a3, a4⟩ := (h.inv.issued d a1).2 a2
  have e0 : step c s (.start t (.release d)) = setThr (take s t d) t (.relGen d) := by
    show (if _ then _ else _) = _
    rw [if_pos ⟨hq t, hd⟩]; rfl
  rw [e0]
  let P : St → Prop := fun s' => s'.head.2 = some d.slot ∧ (s'.slot d.slot).rc = 0 ∧ (s'.slot d.slot).alloc = false ∧
      s'.refs = s.refs.erase d ∧ s'.thr t = .idle ∧ ∀ x < d.size, s'.mem (d.offset + x) = 0
  show Leads c t (setThr (take s t d) t (.relGen d)) P
  have r1 : ∀ s1 : St, s1.thr t = .relGen d → (s1.slot d.slot).gen = d.gen →
      stepThr c s1 t true = setThr s1 t (.relLoad d) := by
    intro s1 k1 k2; simp only [stepThr, k1, if_pos k2]
  have r2 : ∀ s1 : St, s1.thr t = .relLoad d → (s1.slot d.slot).rc = 1 →
      stepThr c s1 t true = setThr s1 t (.relCas d 1) := by
    intro s1 k1 k2; simp only [stepThr, k1, k2, Nat.one_ne_zero, if_false]
  have r3 : ∀ s1 : St, s1.thr t = .relCas d 1 → (s1.slot d.slot).rc = 1 →
      stepThr c s1 t true = setThr { drop (setSlot s1 d.slot { s1.slot d.slot with rc := 0 }) t d.slot with
        own := upd s1.own d.slot (.held t) } t (.retZero d.slot) := by
    intro s1 k1 k2; simp only [stepThr, k1, k2, and_self, if_true]
  refine Leads.adv ?_ hd
  rw [r1]
  rotate_left
  · exact upd_same _ _ _
  · exact a2.symm
  refine Leads.adv ?_ hd
  rw [r2]
  rotate_left
  · exact upd_same _ _ _
  · exact hrc
  refine Leads.adv ?_ hd
  rw [r3]
  rotate_left
  · exact upd_same _ _ _
  · exact hrc
  refine Leads.adv ?_ hd
  simp only [stepThr, setThr, setSlot, upd_same, drop, take]
  refine Leads.adv ?_ hd
  simp only [stepThr, setThr, setSlot, upd_same]
  refine Leads.adv ?_ hd
  simp only [stepThr, setThr, setSlot, upd_same]
  refine Leads.adv ?_ hd
  simp only [stepThr, setThr, setSlot, upd_same]
  refine Leads.adv ?_ hd
  simp only [stepThr, setThr, setSlot, upd_same]
  refine Leads.adv ?_ hd
  simp only [stepThr, setThr, setSlot, upd_same, and_self, if_true, contPc]
  refine Leads.here ⟨rfl, ?_, ?_, rfl, upd_same _ _ _, ?_⟩
  · simp
  · simp
  · intro x hx
    simp only
    rw [if_pos (by omega)]

/-! ### Non-vacuity -/

/-- Two processes, three threads (0 and 1 in process 1, 2 in process 2), a pool of 2 slots and 64
bytes with alignment 16. -/
def demo : Cfg := ⟨2, 64, 16, fun t => if t < 2 then 1 else 2⟩

/-- `n` steps of thread `t`. -/
def steps (t n : Nat) : List Act := List.replicate n (.step t true)

/-- An allocation of 20 bytes by thread 0, interleaved with one of 5 bytes by thread 2 (whose first pop
loses the race); a store; a try_retain by thread 1; a release by thread 0 of one of the two references;
then the other is released and thread 2 allocates again, reusing slot and memory. -/
def demoRun : List Act :=
  [.start 0 (.alloc 20), .start 2 (.alloc 5)] ++ steps 0 2 ++ steps 2 2 ++ steps 0 11 ++ [.step 2 false] ++ steps 2 14 ++
  [.write ⟨1, 1, 0, 20⟩ 3 9, .start 1 (.tryRetain ⟨1, 1, 0, 20⟩)] ++ steps 1 4 ++
  [.start 0 (.release ⟨1, 1, 0, 20⟩)] ++ steps 0 4

/-- The second half of the demonstration run. -/
def demoMore : List Act :=
  demoRun ++ [.start 1 (.release ⟨1, 1, 0, 20⟩)] ++ steps 1 12 ++
  [.start 2 (.alloc 30), .start 1 (.tryRetain ⟨1, 1, 0, 20⟩)] ++ steps 2 14 ++ steps 1 3

example : ProperRun demo (St.init demo) demoRun ∧
    (run demo (St.init demo) demoRun).refs = [⟨0, 1, 32, 5⟩, ⟨1, 1, 0, 20⟩] ∧
    (run demo (St.init demo) demoRun).mem 3 = 9 ∧
    ((run demo (St.init demo) demoRun).slot 1).rc = 1 ∧
    [0, 1, 2].all (fun t => (run demo (St.init demo) demoRun).thr t = .idle) := by decide +kernel

example : ProperRun demo (St.init demo) demoMore ∧
    (run demo (St.init demo) demoMore).refs = [⟨1, 2, 0, 30⟩, ⟨0, 1, 32, 5⟩] ∧
    (run demo (St.init demo) demoMore).mem 3 = 0 ∧
    [0, 1, 2].all (fun t => (run demo (St.init demo) demoMore).thr t = .idle) := by decide +kernel

/-! ### What reclaiming the slots of dead processes breaks -/

/-- One slot, 16 bytes; thread 0 in process 1, thread 1 in process 2, thread 2 in process 3. -/
def one : Cfg := ⟨1, 16, 1, fun t => t + 1⟩

/-- Process 1 allocates and stores 7, process 2 takes a reference, process 1 dies, process 3 allocates. -/
def sharedThenDead : List Act :=
  [.start 0 (.alloc 4)] ++ steps 0 13 ++ [.write ⟨0, 1, 0, 4⟩ 2 7, .start 1 (.tryRetain ⟨0, 1, 0, 4⟩)] ++ steps 1 4 ++
  [.start 0 (.release ⟨0, 1, 0, 4⟩)] ++ steps 0 4 ++ [.crash 1, .start 2 (.alloc 4)] ++ steps 2 30

/-- C41 fails when the allocating process dies: process 2 holds a counted reference to the tensor
(taken with try_retain, the interface for handing tensors to other processes) and has neither released
it nor died, yet the slot and its memory are given to process 3, because the slot records only the
process that allocated it. -/
theorem reclaim_takes_shared_tensor :
    (run one (St.init one) sharedThenDead).refs = [⟨0, 3, 0, 4⟩, ⟨0, 1, 0, 4⟩] ∧
    (run one (St.init one) sharedThenDead).dead = [1] := by decide +kernel

/-- C43 fails too: process 3's new tensor contains what process 1 stored (reclaim_dead_slots does not
scrub). -/
theorem reclaimed_memory_not_zero :
    (run one (St.init one) sharedThenDead).mem 2 = 7 := by decide +kernel

/-- Thread 0 (process 1) fails to allocate 20 bytes of 16 and dies; thread 1 (process 2) takes the slot
from the free list and is about to mark it as its own when thread 2 (process 3), finding the list
empty, scans for dead owners. -/
def failedThenDead : List Act :=
  [.start 0 (.alloc 20)] ++ steps 0 12 ++ [.crash 1] ++
  [.start 1 (.alloc 4)] ++ steps 1 3 ++
  [.start 2 (.alloc 4)] ++ steps 2 30 ++ steps 1 30

/-- C40 fails after a failed allocation and a death: the failed allocation leaves the slot on the free
list marked as allocated by process 1 (tensor_pool.rs:815-818), so while process 2 is between taking
the slot and marking it, process 3 reclaims it as process 1's and is given it as well: two live
processes hold the same slot. -/
theorem failed_alloc_double_allocation :
    let s := run one (St.init one) failedThenDead
    s.dead = [1] ∧ s.refs.length = 2 ∧ s.refs.all (fun d => d.slot = 0) := by decide +kernel

/-- C40 fails at one crash point: a process that dies between taking a slot off the free list and
writing its process id (tensor_pool.rs:1636-1642) loses the slot for good: the next allocation fails
although nobody holds anything, because the scan sees no owner. -/
theorem crash_in_pop_leaks :
    let s := run one (St.init one) ([.start 0 (.alloc 4)] ++ steps 0 3 ++ [.crash 1, .start 1 (.alloc 4)] ++ steps 1 30)
    s.refs = [] ∧ s.thr 1 = .idle ∧ s.head.2 = none := by decide +kernel

/-- C42 fails in a race: release checks the generation once and then decrements whatever count the slot
has. A stale release (of a reference already given up) that passes the check just before the slot is
reused takes away the new holder's count: the slot of a tensor in use is on the free list. -/
theorem stale_release_frees_newcomer :
    let s := run one (St.init one) ([.start 0 (.alloc 4)] ++ steps 0 13 ++
      [.start 1 (.release ⟨0, 1, 0, 4⟩), .step 1 true, .start 0 (.release ⟨0, 1, 0, 4⟩)] ++ steps 0 12 ++
      [.start 2 (.alloc 4)] ++ steps 2 13 ++ steps 1 12)
    s.refs = [⟨0, 2, 0, 4⟩] ∧ (s.slot 0).rc = 0 ∧ s.head.2 = some 0 := by decide +kernel

end Horus.Pool
