import Verif.Fanout.Model
import Mathlib.Tactic.Common
import Mathlib.Data.Nat.Log
/-
Model of the claiming of fan-out endpoint slots (horus_core/src/communication/topic/shm_fanout.rs:
680-805) and of the layout of the fan-out region (464-510, 593-615, 985-1010).
Publisher and subscriber slots are claimed by the same code over separate words, so one kind is
modelled. Trusted: the operating system's contract for an exclusive file lock, namely that it is held
from a successful `try_exclusive` until it is dropped or its process dies. File-system errors (which
make the code skip a slot) are not modelled.
-/
namespace Horus.Fanout.Claim
open Horus.Fanout Horus.Ring

/-- Where a handle is in its life: between setting the bit and recording the process id
(shm_fanout.rs:764-765), in use, or in `deregister_*` (680-692) with the bit cleared, or with both
cleared and the lock about to be released. -/
inductive Phase
  | marking
  | live
  | bitCleared
  | pidCleared
deriving DecidableEq

/-- A handle: the process instance holding the slot's file lock. Source: topic/shm_fanout.rs:680-769. -/
structure Handle where
  inst : Nat
  slot : Nat
  phase : Phase
deriving DecidableEq

/-- Shared words of one endpoint kind (shm_fanout.rs:140-175) and the handles now holding file locks.
Ghost: `crashed`, the process instances that died. -/
structure St where
  bit : Nat → Bool
  owner : Nat → Nat
  handles : List Handle
  crashed : List Nat

/-- A new region: all words zero (shm_fanout.rs:486-520). -/
def St.init : St := ⟨fun _ => false, fun _ => 0, [], []⟩

/-- Actions: one slot's turn of the claim loop, one step of a handle (recording the process id, or
deregistration), the death of a process instance. Schedules over the functions of topic/shm_fanout.rs:680-769. -/
inductive Act
  | attempt (inst slot : Nat)
  | advance (inst slot : Nat)
  | crash (inst : Nat)
deriving DecidableEq

/-- FileLock::try_exclusive on a slot's lock file. `again`: whether the system grants a second lock to
the process that holds the first (the case shm_fanout.rs:752-755 guards against). -/
def granted (again : Bool) (s : St) (inst slot : Nat) : Bool :=
  s.handles.all fun h => h.slot != slot || (again && h.inst == inst)

/-- shm_fanout.rs:756-766: the guard, then the claim. -/
def wins (pid : Nat → Nat) (again : Bool) (s : St) (inst slot : Nat) : Bool :=
  granted again s inst slot && !(s.owner slot == pid inst && s.bit slot)

/-- The next step of a handle. Source: topic/shm_fanout.rs:680-769. -/
def Phase.next : Phase → Option Phase
  | .marking => some .live
  | .live => some .bitCleared
  | .bitCleared => some .pidCleared
  | .pidCleared => none

/-- The effect of a handle's step on the shared words. Source: topic/shm_fanout.rs:680-769. -/
def effect (pid : Nat → Nat) (s : St) (h : Handle) : St :=
  match h.phase with
  | .marking => { s with owner := upd s.owner h.slot (pid h.inst) }
  | .live => { s with bit := upd s.bit h.slot false }
  | .bitCleared => { s with owner := upd s.owner h.slot 0 }
  | .pidCleared => s

/-- The handle after its step (shm_fanout.rs:680-692, 764-765); it is gone when the lock is released. -/
def advanceHandle (h : Handle) : List Handle :=
  match h.phase.next with
  | some ph => [{ h with phase := ph }]
  | none => []

/-- One action. A handle's step is the step of the first handle of that process and slot.
Schedules over the functions of topic/shm_fanout.rs:680-769. -/
def step (pid : Nat → Nat) (again : Bool) (s : St) : Act → St
  | .attempt inst slot =>
    if slot < endpoints ∧ inst ∉ s.crashed ∧ wins pid again s inst slot = true then
      { s with bit := upd s.bit slot true, handles := s.handles ++ [⟨inst, slot, .marking⟩] }
    else s
  | .advance inst slot =>
    match s.handles.find? (fun h => h.inst == inst && h.slot == slot) with
    | some h => { effect pid s h with handles := advanceHandle h ++ s.handles.erase h }
    | none => s
  | .crash inst => { s with handles := s.handles.filter (fun h => h.inst != inst), crashed := inst :: s.crashed }

/-- A schedule of actions; the claim loop is shm_fanout.rs:720-769. -/
def run (pid : Nat → Nat) (again : Bool) (s : St) (as : List Act) : St := as.foldl (step pid again) s

/-- claim_endpoint_locked as a whole (shm_fanout.rs:720-769), in a state nobody changes meanwhile. -/
def claim (pid : Nat → Nat) (again : Bool) (s : St) (inst : Nat) : Option Nat :=
  (List.range endpoints).find? (wins pid again s inst)

/-! ### Exclusive slots -/

/-- Invariant of the claim protocol: no slot is held twice and the words agree with the handles.
Ghost or helper of the model of topic/shm_fanout.rs:680-769. -/
structure Inv (pid : Nat → Nat) (s : St) : Prop where
  hNodup : (s.handles.map Handle.slot).Nodup
  hRange : ∀ h ∈ s.handles, h.slot < endpoints
  hLive : ∀ h ∈ s.handles, h.phase = .live → s.bit h.slot = true ∧ s.owner h.slot = pid h.inst
  hMarking : ∀ h ∈ s.handles, h.phase = .marking → s.bit h.slot = true
  hOwner : ∀ i, s.owner i = 0 ∨ (∃ j ∈ s.crashed, s.owner i = pid j) ∨
    ∃ h ∈ s.handles, h.slot = i ∧ s.owner i = pid h.inst ∧ (h.phase = .live ∨ h.phase = .bitCleared)

theorem granted_strict {s : St} {inst slot : Nat} (h : granted false s inst slot = true) :
    ∀ x ∈ s.handles, x.slot ≠ slot := by
  intro x hx
  have := List.all_eq_true.mp h x hx
  simpa using this

theorem inv_init (pid : Nat → Nat) : Inv pid St.init :=
  ⟨List.nodup_nil, by simp [St.init], by simp [St.init], by simp [St.init], fun _ => Or.inl rfl⟩

theorem nodup_erase_map (l : List Handle) (h : Handle) (hm : h ∈ l) (hn : (l.map Handle.slot).Nodup) :
    h.slot ∉ (l.erase h).map Handle.slot ∧ ((l.erase h).map Handle.slot).Nodup := by
  induction l with
  | nil => cases hm
  | cons a l ih =>
    rw [List.map_cons, List.nodup_cons] at hn
    by_cases e : a = h
    · subst e
      rw [List.erase_cons_head]
      exact ⟨hn.1, hn.2⟩
    · have hm' : h ∈ l := by
        rcases List.mem_cons.mp hm with h' | h'
        · exact absurd h'.symm e
        · exact h'
      rw [List.erase_cons_tail (by simpa using e), List.map_cons, List.nodup_cons]
      obtain ⟨i1, i2⟩ := ih hm' hn.2
      refine ⟨?_, ?_, i2⟩
      · intro hc
        rcases List.mem_cons.mp hc with h' | h'
        · exact hn.1 (h' ▸ List.mem_map.mpr ⟨h, hm', rfl⟩)
        · exact i1 h'
      · intro hc
        obtain ⟨y, hy, hy'⟩ := List.mem_map.mp hc
        exact hn.1 (List.mem_map.mpr ⟨y, List.mem_of_mem_erase hy, hy'⟩)

theorem inv_step (pid : Nat → Nat) (s : St) (a : Act) (h : Inv pid s) : Inv pid (step pid false s a) := by
  cases a with
  | attempt inst slot =>
    unfold step
    simp only
    by_cases hw : slot < endpoints ∧ inst ∉ s.crashed ∧ wins pid false s inst slot = true
    · rw [if_pos hw]
      obtain ⟨h1, _, h2⟩ := hw
      have hg : granted false s inst slot = true := by
        unfold wins at h2; exact (Bool.and_eq_true _ _ ▸ h2).1
      have hne := granted_strict hg
      constructor
      · simp only [List.map_append, List.map_cons, List.map_nil]
        rw [List.nodup_append]
        refine ⟨h.hNodup, by simp, ?_⟩
        intro a ha b hb
        obtain ⟨x, hx, rfl⟩ := List.mem_map.mp ha
        rw [List.mem_singleton] at hb
        subst hb
        exact hne x hx
      · intro x hx
        rcases List.mem_append.mp hx with hx | hx
        · exact h.hRange x hx
        · rw [List.mem_singleton] at hx; subst hx; exact h1
      · intro x hx hp
        rcases List.mem_append.mp hx with hx | hx
        · simp only
          rw [upd_ne _ _ (hne x hx)]
          exact h.hLive x hx hp
        · rw [List.mem_singleton] at hx; subst hx; cases hp
      · intro x hx hp
        rcases List.mem_append.mp hx with hx | hx
        · simp only
          rw [upd_ne _ _ (hne x hx)]
          exact h.hMarking x hx hp
        · rw [List.mem_singleton] at hx; subst hx; exact upd_same ..
      · intro i
        rcases h.hOwner i with ho | ho | ⟨x, hx, ho⟩
        · exact Or.inl ho
        · exact Or.inr (Or.inl ho)
        · exact Or.inr (Or.inr ⟨x, List.mem_append.mpr (Or.inl hx), ho⟩)
    · rw [if_neg hw]; exact h
  | crash inst =>
    unfold step
    constructor
    · exact List.Nodup.sublist (List.Sublist.map _ List.filter_sublist) h.hNodup
    · intro x hx; exact h.hRange x (List.mem_filter.mp hx).1
    · intro x hx; exact h.hLive x (List.mem_filter.mp hx).1
    · intro x hx; exact h.hMarking x (List.mem_filter.mp hx).1
    · intro i
      rcases h.hOwner i with ho | ⟨j, hj, ho⟩ | ⟨x, hx, ho⟩
      · exact Or.inl ho
      · exact Or.inr (Or.inl ⟨j, List.mem_cons_of_mem _ hj, ho⟩)
      · by_cases e : x.inst = inst
        · exact Or.inr (Or.inl ⟨inst, List.mem_cons_self .., e ▸ ho.2.1⟩)
        · exact Or.inr (Or.inr ⟨x, List.mem_filter.mpr ⟨hx, by simpa using e⟩, ho⟩)
  | advance inst slot =>
    unfold step
    simp only
    cases hf : s.handles.find? (fun h => h.inst == inst && h.slot == slot) with
    | none => exact h
    | some x =>
      have hx : x ∈ s.handles := List.mem_of_find?_eq_some hf
      obtain ⟨e1, e2⟩ := nodup_erase_map _ _ hx h.hNodup
      have hne : ∀ y ∈ s.handles.erase x, y.slot ≠ x.slot := fun y hy e =>
        e1 (List.mem_map.mpr ⟨y, hy, e⟩)
      have hmem : ∀ y ∈ s.handles, y = x ∨ y ∈ s.handles.erase x := by
        intro y hy
        by_cases e : y = x
        · exact Or.inl e
        · exact Or.inr ((List.mem_erase_of_ne e).mpr hy)
      have hold : ∀ y ∈ s.handles.erase x, y ∈ s.handles := fun y hy => List.mem_of_mem_erase hy
      obtain ⟨xi, xs, xp⟩ := x
      simp only at e1 hne
      cases xp with
      | marking =>
        simp only [effect, advanceHandle, Phase.next, List.singleton_append]
        constructor
        · simp only [List.map_cons, List.nodup_cons]; exact ⟨e1, e2⟩
        · intro y hy
          rcases List.mem_cons.mp hy with rfl | hy
          · exact h.hRange ⟨xi, xs, .marking⟩ hx
          · exact h.hRange y (hold y hy)
        · intro y hy hp
          rcases List.mem_cons.mp hy with rfl | hy
          · exact ⟨h.hMarking ⟨xi, xs, .marking⟩ hx rfl, upd_same ..⟩
          · simp only
            rw [upd_ne _ _ (hne y hy)]
            exact h.hLive y (hold y hy) hp
        · intro y hy hp
          rcases List.mem_cons.mp hy with rfl | hy
          · cases hp
          · exact h.hMarking y (hold y hy) hp
        · intro i
          simp only
          by_cases e : i = xs
          · subst e
            rw [upd_same]
            exact Or.inr (Or.inr ⟨_, List.mem_cons_self .., rfl, rfl, by simp⟩)
          · rw [upd_ne _ _ e]
            rcases h.hOwner i with ho | ho | ⟨y, hy, ho⟩
            · exact Or.inl ho
            · exact Or.inr (Or.inl ho)
            · rcases hmem y hy with rfl | hy'
              · exact absurd ho.1.symm e
              · exact Or.inr (Or.inr ⟨y, List.mem_cons_of_mem _ hy', ho⟩)
      | live =>
        simp only [effect, advanceHandle, Phase.next, List.singleton_append]
        constructor
        · simp only [List.map_cons, List.nodup_cons]; exact ⟨e1, e2⟩
        · intro y hy
          rcases List.mem_cons.mp hy with rfl | hy
          · exact h.hRange ⟨xi, xs, .live⟩ hx
          · exact h.hRange y (hold y hy)
        · intro y hy hp
          rcases List.mem_cons.mp hy with rfl | hy
          · cases hp
          · simp only
            rw [upd_ne _ _ (hne y hy)]
            exact h.hLive y (hold y hy) hp
        · intro y hy hp
          rcases List.mem_cons.mp hy with rfl | hy
          · cases hp
          · simp only
            rw [upd_ne _ _ (hne y hy)]
            exact h.hMarking y (hold y hy) hp
        · intro i
          simp only
          rcases h.hOwner i with ho | ho | ⟨y, hy, ho⟩
          · exact Or.inl ho
          · exact Or.inr (Or.inl ho)
          · rcases hmem y hy with rfl | hy'
            · exact Or.inr (Or.inr ⟨_, List.mem_cons_self .., ho.1, ho.2.1, by simp⟩)
            · exact Or.inr (Or.inr ⟨y, List.mem_cons_of_mem _ hy', ho⟩)
      | bitCleared =>
        simp only [effect, advanceHandle, Phase.next, List.singleton_append]
        constructor
        · simp only [List.map_cons, List.nodup_cons]; exact ⟨e1, e2⟩
        · intro y hy
          rcases List.mem_cons.mp hy with rfl | hy
          · exact h.hRange ⟨xi, xs, .bitCleared⟩ hx
          · exact h.hRange y (hold y hy)
        · intro y hy hp
          rcases List.mem_cons.mp hy with rfl | hy
          · cases hp
          · simp only
            rw [upd_ne _ _ (hne y hy)]
            exact h.hLive y (hold y hy) hp
        · intro y hy hp
          rcases List.mem_cons.mp hy with rfl | hy
          · cases hp
          · exact h.hMarking y (hold y hy) hp
        · intro i
          simp only
          by_cases e : i = xs
          · subst e; rw [upd_same]; exact Or.inl rfl
          · rw [upd_ne _ _ e]
            rcases h.hOwner i with ho | ho | ⟨y, hy, ho⟩
            · exact Or.inl ho
            · exact Or.inr (Or.inl ho)
            · rcases hmem y hy with rfl | hy'
              · exact absurd ho.1.symm e
              · exact Or.inr (Or.inr ⟨y, List.mem_cons_of_mem _ hy', ho⟩)
      | pidCleared =>
        simp only [effect, advanceHandle, Phase.next, List.nil_append]
        refine ⟨e2, fun y hy => h.hRange y (hold y hy), fun y hy => h.hLive y (hold y hy),
          fun y hy => h.hMarking y (hold y hy), ?_⟩
        intro i
        rcases h.hOwner i with ho | ho | ⟨y, hy, ho⟩
        · exact Or.inl ho
        · exact Or.inr (Or.inl ho)
        · rcases hmem y hy with rfl | hy'
          · rcases ho.2.2 with h' | h' <;> cases h'
          · exact Or.inr (Or.inr ⟨y, hy', ho⟩)

theorem inv_run (pid : Nat → Nat) (as : List Act) : Inv pid (run pid false St.init as) := by
  have : ∀ (as : List Act) s, Inv pid s → Inv pid (run pid false s as) := by
    intro as
    induction as with
    | nil => intro s h; exact h
    | cons a as ih => intro s h; exact ih _ (inv_step pid s a h)
  exact this as _ (inv_init pid)

/-- C70. In every history of claims, releases and process deaths, no two handles hold the same slot,
whatever process ids the system hands out. -/
theorem slots_exclusive (pid : Nat → Nat) (as : List Act) :
    ((run pid false St.init as).handles.map Handle.slot).Nodup ∧
    ∀ h ∈ (run pid false St.init as).handles, h.slot < endpoints :=
  ⟨(inv_run pid as).hNodup, (inv_run pid as).hRange⟩

/-- C70. A handle in use is visible to the other side: its bit is set. -/
theorem live_handle_visible (pid : Nat → Nat) (as : List Act) (h : Handle)
    (hm : h ∈ (run pid false St.init as).handles) (hp : h.phase = .live) :
    (run pid false St.init as).bit h.slot = true :=
  ((inv_run pid as).hLive h hm hp).1

/-- C70. A claim never takes a slot that a handle holds, and takes the lowest slot it may take. -/
theorem claim_takes_free (pid : Nat → Nat) (s : St) (inst i : Nat) (h : claim pid false s inst = some i) :
    i < endpoints ∧ (∀ x ∈ s.handles, x.slot ≠ i) ∧
    ∀ j, j < i → (∃ x ∈ s.handles, x.slot = j) ∨ (s.owner j = pid inst ∧ s.bit j = true) := by
  unfold claim at h
  rw [List.find?_range_eq_some] at h
  obtain ⟨h1, h2, h3⟩ := h
  refine ⟨List.mem_range.mp h2, ?_, ?_⟩
  · unfold wins at h1
    exact granted_strict (Bool.and_eq_true _ _ ▸ h1).1
  · intro j hj
    have := h3 j hj
    unfold wins granted at this
    simp only [Bool.not_eq_true', Bool.and_eq_false_iff, Bool.not_eq_false', Bool.and_eq_true, beq_iff_eq] at this
    rcases this with e | e
    · left
      rw [List.all_eq_false] at e
      obtain ⟨x, hx, e⟩ := e
      exact ⟨x, hx, by simpa using e⟩
    · exact Or.inr e

/-- C70. A process whose id no dead process of this topic had is refused only when all 16 slots are
held: slots left by dead processes are taken again. -/
theorem refused_only_when_full (pid : Nat → Nat) (as : List Act) (inst : Nat) (h0 : pid inst ≠ 0)
    (hfresh : ∀ j ∈ (run pid false St.init as).crashed, pid j ≠ pid inst)
    (h : claim pid false (run pid false St.init as) inst = none) :
    ∀ i, i < endpoints → ∃ x ∈ (run pid false St.init as).handles, x.slot = i := by
  intro i hi
  have hI := inv_run pid as
  generalize run pid false St.init as = s at *
  have := (List.find?_eq_none.mp h) i (List.mem_range.mpr hi)
  unfold wins granted at this
  rw [Bool.not_eq_true] at this
  simp only [Bool.and_eq_false_iff, Bool.not_eq_false', Bool.and_eq_true, beq_iff_eq] at this
  rcases this with e | ⟨e, _⟩
  · rw [List.all_eq_false] at e
    obtain ⟨x, hx, e⟩ := e
    exact ⟨x, hx, by simpa using e⟩
  · rcases hI.hOwner i with ho | ⟨j, hj, ho⟩ | ⟨x, hx, ho⟩
    · exact absurd (e.symm.trans ho) h0
    · exact absurd (ho.symm.trans e) (hfresh j hj)
    · exact ⟨x, hx, ho.1⟩

/-- A process starts, claims the first slot open to it, uses it and dies.
Ghost or helper of the model of topic/shm_fanout.rs:680-769. -/
def claimAndDie (inst slot : Nat) : List Act := [.attempt inst slot, .advance inst slot, .crash inst]

/-- A limit: a service restarted with the same process id each time (as in a container) loses a slot at
every crash; after 16 crashes nobody holds any slot and it can still claim none. -/
theorem recycled_pid_locked_out :
    (run (fun _ => 7) false St.init ((List.range 16).flatMap fun n => claimAndDie n n)).handles = [] ∧
    claim (fun _ => 7) false (run (fun _ => 7) false St.init ((List.range 16).flatMap fun n => claimAndDie n n)) 16 = none := by
  decide +kernel

/-- Beside it: with distinct process ids the same history leaves slot 0 free. -/
example : claim (fun n => n + 1) false (run (fun n => n + 1) false St.init ((List.range 16).flatMap fun n => claimAndDie n 0)) 16 = some 0 := by
  decide +kernel

/-- A limit: on a system that grants a second lock to the same process, one handle closing while two
others of the process are opened puts both on one slot, since the closing handle erases the process id
recorded by the next owner. -/
theorem permissive_lock_shares_slot :
    (run (fun _ => 7) true St.init [.attempt 0 0, .advance 0 0, .advance 0 0, .attempt 0 0, .advance 0 0, .attempt 0 0]).handles.filter
      (fun h => h.slot == 0 && h.phase == .marking) = [⟨0, 0, .marking⟩, ⟨0, 0, .marking⟩] := by
  decide +kernel

/-- Three processes, two of them alive on distinct slots, the third dead; hypotheses of the theorems. -/
example : let s := run (fun n => n + 100) false St.init [.attempt 0 0, .advance 0 0, .attempt 1 0, .attempt 1 1, .advance 1 1, .crash 0, .attempt 2 0, .advance 2 0]
    s.handles.map Handle.slot = [0, 1] ∧ claim (fun n => n + 100) false s 3 = some 2 ∧ s.crashed = [0] := by
  decide +kernel

/-! ### Lock files -/

/-- shm_fanout.rs:788-797: the topic part of the lock file's name. -/
def lockName (topic : List Char) : List Char :=
  topic.map fun ch => if ch.isAlphanum || ch == '_' || ch == '.' || ch == '-' then ch else '_'

/-- Topics named with letters, digits, `_`, `.` and `-` only have lock files of their own. -/
theorem lock_names_distinct (a b : List Char)
    (ha : ∀ ch ∈ a, (ch.isAlphanum || ch == '_' || ch == '.' || ch == '-') = true)
    (hb : ∀ ch ∈ b, (ch.isAlphanum || ch == '_' || ch == '.' || ch == '-') = true)
    (h : lockName a = lockName b) : a = b := by
  have key : ∀ l : List Char, (∀ ch ∈ l, (ch.isAlphanum || ch == '_' || ch == '.' || ch == '-') = true) → lockName l = l := by
    intro l hl
    unfold lockName
    conv_rhs => rw [← List.map_id l]
    apply List.map_congr_left
    intro ch hc
    rw [if_pos (hl ch hc)]; rfl
  rw [key a ha, key b hb] at h
  exact h

/-- A limit: topics whose names differ only in `/` against `_` share lock files, so together they have
the endpoints of one. -/
theorem lock_names_collide : lockName "arm/left".toList = lockName "arm_left".toList ∧ "arm/left".toList ≠ "arm_left".toList := by
  decide

/-! ### Layout of the region -/

/-- usize::next_power_of_two. Source: topic/shm_fanout.rs:680-769. -/
def nextPow2 (n : Nat) : Nat := 2 ^ Nat.clog 2 n

/-- shm_fanout.rs:987-995. -/
def slotSize (typeSize : Nat) (isPod : Bool) : Nat :=
  if isPod then min (nextPow2 (max typeSize 8)) 4096 else 8192

/-- shm_fanout.rs:472, 1004. -/
def chanCap (requested : Nat) : Nat := max (nextPow2 requested) 16

/-- shm_fanout.rs:475-476, 1006. -/
def stride (slot cap : Nat) : Nat := 128 + cap * slot + cap * 8

/-- shm_fanout.rs:105, 998-1010. -/
def fileSize (typeSize : Nat) (isPod : Bool) (requested : Nat) : Nat :=
  4352 + 16 * 16 * stride (slotSize typeSize isPod) (chanCap requested)

/-- shm_fanout.rs:605-607, and the channel index pub * max_subscribers + sub of send/recv (852, 884). -/
def chanBase (slot cap p i : Nat) : Nat := 4352 + (p * 16 + i) * stride slot cap

/-- shm_fanout.rs:234-239, 257, 317: offsets inside the region. -/
def headAt (slot cap p i : Nat) : Nat := chanBase slot cap p i
/-- shm_fanout.rs:234-239: the tail word, on its own cache line. -/
def tailAt (slot cap p i : Nat) : Nat := chanBase slot cap p i + 64
/-- shm_fanout.rs:257: data slot `n`. -/
def slotAt (slot cap p i n : Nat) : Nat := chanBase slot cap p i + 128 + n * slot
/-- shm_fanout.rs:317: the version word of slot `n`. -/
def verAt (slot cap p i n : Nat) : Nat := chanBase slot cap p i + (128 + cap * slot) + n * 8

/-- A piece of the region: the word or the slot an operation touches. Source: topic/shm_fanout.rs:680-769. -/
inductive Piece
  | head (p i : Nat)
  | tail (p i : Nat)
  | slot (p i n : Nat)
  | ver (p i n : Nat)
deriving DecidableEq

/-- First byte of a piece (shm_fanout.rs:234-257, 317). -/
def Piece.lo (slot cap : Nat) : Piece → Nat
  | .head p i => headAt slot cap p i
  | .tail p i => tailAt slot cap p i
  | .slot p i n => slotAt slot cap p i n
  | .ver p i n => verAt slot cap p i n

/-- Length of a piece in bytes (shm_fanout.rs:234-257, 317). -/
def Piece.len (slot : Nat) : Piece → Nat
  | .slot _ _ _ => slot
  | _ => 8

/-- The channel a piece belongs to. Source: topic/shm_fanout.rs:680-769. -/
def Piece.chan : Piece → Nat × Nat
  | .head p i => (p, i)
  | .tail p i => (p, i)
  | .slot p i _ => (p, i)
  | .ver p i _ => (p, i)

/-- The pieces that operations touch: 16 x 16 channels (shm_fanout.rs:82), `cap` slots each. -/
def Piece.valid (cap : Nat) : Piece → Prop
  | .head p i => p < 16 ∧ i < 16
  | .tail p i => p < 16 ∧ i < 16
  | .slot p i n => p < 16 ∧ i < 16 ∧ n < cap
  | .ver p i n => p < 16 ∧ i < 16 ∧ n < cap

theorem piece_within (slot cap : Nat) (x : Piece) (h : x.valid cap) :
    chanBase slot cap x.chan.1 x.chan.2 ≤ x.lo slot cap ∧
    x.lo slot cap + x.len slot ≤ chanBase slot cap x.chan.1 x.chan.2 + stride slot cap := by
  cases x with
  | head p i => simp only [Piece.chan, Piece.lo, Piece.len, headAt, stride]; omega
  | tail p i => simp only [Piece.chan, Piece.lo, Piece.len, tailAt, stride]; omega
  | slot p i n =>
    obtain ⟨_, _, hn⟩ := h
    have := Nat.mul_le_mul_right slot (Nat.succ_le_of_lt hn)
    rw [Nat.succ_mul] at this
    simp only [Piece.chan, Piece.lo, Piece.len, slotAt, stride]; omega
  | ver p i n =>
    obtain ⟨_, _, hn⟩ := h
    simp only [Piece.chan, Piece.lo, Piece.len, verAt, stride]; omega

/-- C71. Every word and slot an operation touches lies inside the region the owner creates. -/
theorem layout_in_region (typeSize requested : Nat) (isPod : Bool) (x : Piece) (h : x.valid (chanCap requested)) :
    4352 ≤ x.lo (slotSize typeSize isPod) (chanCap requested) ∧
    x.lo (slotSize typeSize isPod) (chanCap requested) + x.len (slotSize typeSize isPod) ≤ fileSize typeSize isPod requested := by
  obtain ⟨h1, h2⟩ := piece_within (slotSize typeSize isPod) _ x h
  have hc : x.chan.1 < 16 ∧ x.chan.2 < 16 := by cases x <;> exact ⟨h.1, by first | exact h.2 | exact h.2.1⟩
  have hm := Nat.mul_le_mul_right (stride (slotSize typeSize isPod) (chanCap requested)) (show x.chan.1 * 16 + x.chan.2 + 1 ≤ 256 by omega)
  rw [Nat.succ_mul] at hm
  unfold fileSize
  simp only [chanBase] at h1 h2
  omega

/-- C71. Distinct words and slots never overlap. -/
theorem layout_disjoint (slot cap : Nat) (x y : Piece) (hx : x.valid cap) (hy : y.valid cap) (hne : x ≠ y) :
    x.lo slot cap + x.len slot ≤ y.lo slot cap ∨ y.lo slot cap + y.len slot ≤ x.lo slot cap := by
  by_cases hc : x.chan = y.chan
  · have key : ∀ a b : Nat, a < b → a * slot + slot ≤ b * slot := fun a b h => by
      have := Nat.mul_le_mul_right slot (Nat.succ_le_of_lt h); rwa [Nat.succ_mul] at this
    cases x <;> cases y <;> simp only [Piece.chan, Prod.mk.injEq] at hc <;> obtain ⟨rfl, rfl⟩ := hc <;>
      simp only [Piece.valid, Piece.lo, Piece.len, headAt, tailAt, slotAt, verAt, ne_eq, Piece.slot.injEq, Piece.ver.injEq,
        true_and, not_true_eq_false] at hx hy hne ⊢ <;>
      first
      | omega
      | (have := key _ _ hx.2.2; omega)
      | (have := key _ _ hy.2.2; omega)
      | (rcases Nat.lt_or_gt_of_ne hne with h | h
         · have := key _ _ h; omega
         · have := key _ _ h; omega)
  · obtain ⟨a1, a2⟩ := piece_within slot cap x hx
    obtain ⟨b1, b2⟩ := piece_within slot cap y hy
    have hcx : x.chan.1 < 16 ∧ x.chan.2 < 16 := by cases x <;> exact ⟨hx.1, by first | exact hx.2 | exact hx.2.1⟩
    have hcy : y.chan.1 < 16 ∧ y.chan.2 < 16 := by cases y <;> exact ⟨hy.1, by first | exact hy.2 | exact hy.2.1⟩
    have hne' : x.chan.1 * 16 + x.chan.2 ≠ y.chan.1 * 16 + y.chan.2 := by
      intro e
      exact hc (Prod.ext (by omega) (by omega))
    simp only [chanBase] at a1 a2 b1 b2
    rcases Nat.lt_or_gt_of_ne hne' with h | h
    · have := Nat.mul_le_mul_right (stride slot cap) (Nat.succ_le_of_lt h)
      rw [Nat.succ_mul] at this
      omega
    · have := Nat.mul_le_mul_right (stride slot cap) (Nat.succ_le_of_lt h)
      rw [Nat.succ_mul] at this
      omega

/-- C71. Every 8-byte word sits at an address divisible by 8. -/
theorem words_aligned (typeSize requested : Nat) (isPod : Bool) (p i n : Nat) :
    8 ∣ headAt (slotSize typeSize isPod) (chanCap requested) p i ∧
    8 ∣ tailAt (slotSize typeSize isPod) (chanCap requested) p i ∧
    8 ∣ verAt (slotSize typeSize isPod) (chanCap requested) p i n := by
  have hs : 8 ∣ slotSize typeSize isPod := by
    unfold slotSize nextPow2
    cases isPod with
    | false => exact ⟨1024, rfl⟩
    | true =>
      rw [if_pos rfl]
      have h3 : 3 ≤ Nat.clog 2 (max typeSize 8) := by
        have := Nat.clog_mono_right 2 (Nat.le_max_right typeSize 8)
        rwa [show Nat.clog 2 8 = 3 by exact Nat.clog_pow 2 3 (by omega)] at this
      have : (8 : Nat) ∣ 2 ^ Nat.clog 2 (max typeSize 8) := (show (8 : Nat) = 2 ^ 3 from rfl) ▸ Nat.pow_dvd_pow 2 h3
      rcases Nat.le_total (2 ^ Nat.clog 2 (max typeSize 8)) 4096 with h | h
      · rw [Nat.min_eq_left h]; exact this
      · rw [Nat.min_eq_right h]; exact ⟨512, rfl⟩
  obtain ⟨k, hk⟩ := hs
  generalize slotSize typeSize isPod = sz at hk
  subst hk
  have hst : 8 ∣ stride (8 * k) (chanCap requested) := by
    unfold stride
    exact ⟨16 + chanCap requested * k + chanCap requested, by rw [show chanCap requested * (8 * k) = 8 * (chanCap requested * k) by rw [Nat.mul_left_comm]]; omega⟩
  have hb : 8 ∣ chanBase (8 * k) (chanCap requested) p i := by
    unfold chanBase
    exact Nat.dvd_add ⟨544, rfl⟩ (Nat.dvd_mul_left_of_dvd hst _)
  refine ⟨hb, Nat.dvd_add hb ⟨8, rfl⟩, ?_⟩
  unfold verAt
  refine Nat.dvd_add (Nat.dvd_add hb (Nat.dvd_add ⟨16, rfl⟩ ?_)) ⟨n, Nat.mul_comm ..⟩
  exact ⟨chanCap requested * k, by rw [Nat.mul_left_comm]⟩

/-- C71. A value of up to 4096 bytes fits its slot. -/
theorem value_fits_partial (typeSize : Nat) (h : typeSize ≤ 4096) : typeSize ≤ slotSize typeSize true := by
  unfold slotSize nextPow2
  rw [if_pos rfl]
  have := Nat.le_pow_clog (b := 2) (by omega) (max typeSize 8)
  omega

/-- C71 is false for larger values: the slot is 4096 bytes, and the copy of the value runs over the
following slots. -/
theorem large_value_overruns : slotSize 4104 true < 4104 := by
  have : slotSize 4104 true ≤ 4096 := by unfold slotSize; rw [if_pos rfl]; exact Nat.min_le_right ..
  omega

/-- C71. The capacity is a power of two, at least 16 and at least the requested one. -/
theorem chanCap_spec (requested : Nat) : (∃ k, chanCap requested = 2 ^ k) ∧ 16 ≤ chanCap requested ∧ requested ≤ chanCap requested := by
  have := Nat.le_pow_clog (b := 2) (by omega) requested
  unfold chanCap nextPow2
  refine ⟨?_, Nat.le_max_right .., by omega⟩
  rcases Nat.le_total (2 ^ Nat.clog 2 requested) 16 with h | h
  · rw [Nat.max_eq_right h]; exact ⟨4, rfl⟩
  · rw [Nat.max_eq_left h]; exact ⟨_, rfl⟩

/-- A concrete layout: 24-byte values, capacity 64: slots of 32 bytes, channels of 2688 bytes. -/
example : slotSize 24 true = 32 ∧ chanCap 64 = 64 ∧ stride 32 64 = 2688 ∧ Piece.valid 64 (.slot 15 15 63) := by
  have h1 : Nat.clog 2 (max 24 8) = 5 := by
    apply Nat.le_antisymm
    · exact (Nat.clog_le_iff_le_pow (by omega)).mpr (by decide)
    · exact Nat.succ_le_of_lt ((Nat.lt_clog_iff_pow_lt (by omega)).mpr (by decide))
  have h2 : Nat.clog 2 64 = 6 := Nat.clog_pow 2 6 (by omega)
  refine ⟨?_, ?_, rfl, by decide, by decide, by decide⟩
  · unfold slotSize nextPow2; rw [h1]; rfl
  · unfold chanCap nextPow2; rw [h2]; rfl

end Horus.Fanout.Claim
