/-
How the handles of a topic follow a change of its backend.

Modelled source: horus_core/src/communication/topic/dispatch.rs (294-365 the
guards and the housekeeping after messages), mod.rs (1862-1872
`check_migration_periodic`; 1879-1986 `handle_epoch_change`, here only epoch
and backend; 1324, 1373-1380 registration), registry.rs (25-43 the epoch hint of
a process), local_state.rs:24.  Calls are atomic here; how threads interleave
while changing the backend is in `Verif/Topic/Migrate.lean`.
-/
import Verif.Topic.Migrate

namespace Horus.Follow
open Horus.Topic (Backend)

/-- `EPOCH_CHECK_INTERVAL`. Models horus_core/src/communication/topic/local_state.rs:24. -/
def interval : Nat := 4

/-- A handle: its process, and the epoch, backend and message counter it holds.

Models horus_core/src/communication/topic/local_state.rs:40-100. -/
structure Handle where
  proc : Nat
  epoch : Nat
  mode : Backend
  count : Nat
deriving DecidableEq, Repr

/-- The header, the hint of every process, the handles. -/
structure St where
  mode : Backend
  epoch : Nat
  hint : Nat → Nat
  h : Nat → Handle

def setHint (s : St) (p e : Nat) : Nat → Nat := fun x => if x = p then e else s.hint x
def setH (s : St) (i : Nat) (x : Handle) : Nat → Handle := fun j => if j = i then x else s.h j

/-- `handle_epoch_change`.

Models horus_core/src/communication/topic/mod.rs:1909-1925, 1982-1985. -/
def resync (s : St) (i : Nat) : St :=
  { s with hint := setHint s (s.h i).proc (max (s.hint (s.h i).proc) s.epoch), h := setH s i { s.h i with epoch := s.epoch, mode := s.mode } }

/-- The guard before a message.

Models horus_core/src/communication/topic/dispatch.rs:294-319. -/
def guard (s : St) (i : Nat) : St := if s.hint (s.h i).proc ≠ (s.h i).epoch then resync s i else s

/-- `check_migration_periodic`.

Models horus_core/src/communication/topic/mod.rs:1862-1872. -/
def check (s : St) (i : Nat) : St := if s.epoch ≠ (s.h i).epoch then resync s i else s

/-- The counter after a message or an empty receive.

Models horus_core/src/communication/topic/dispatch.rs:329, 348. -/
def counted (s : St) (i : Nat) : St := { s with h := setH s i { s.h i with count := (s.h i).count + 1 } }

/-- A message sent or received: guard, then every fourth time the header.

Models horus_core/src/communication/topic/dispatch.rs:327-337. -/
def message (s : St) (i : Nat) : St :=
  if ((counted (guard s i) i).h i).count % interval = 0 then check (counted (guard s i) i) i else counted (guard s i) i

/-- A receive that finds nothing: the header every time.

Models horus_core/src/communication/topic/dispatch.rs:346-351. -/
def empty (s : St) (i : Nat) : St := check (counted (guard s i) i) i

/-- What happens.  `migrate p m`: a thread of process `p` changes the backend;
`late p e`: a thread of `p` stores an epoch it read earlier as hint (the store
of registry.rs:39 does not look at what is there); `join i p`: handle `i` is
made in process `p` and registers; `half m`: a thread dies between writing the
backend and the epoch. -/
inductive Ev
  | migrate (p : Nat) (m : Backend)
  | late (p e : Nat)
  | join (i p : Nat)
  | message (i : Nat)
  | empty (i : Nat)
  | half (m : Backend)
deriving DecidableEq, Repr

/-- One event.

Models horus_core/src/communication/topic/migration.rs:122-130 and
mod.rs:1448-1455 (`migrate`), registry.rs:36-42 (`late`), mod.rs:1324-1380
(`join`, with the counter set so that the next message looks at the header). -/
def step (s : St) : Ev → St
  | .migrate p m => { s with mode := m, epoch := s.epoch + 1, hint := setHint s p (s.epoch + 1) }
  | .late p e => if e ≤ s.epoch then { s with hint := setHint s p e } else s
  | .join i p => { s with h := setH s i ⟨p, s.epoch, s.mode, interval - 1⟩ }
  | .message i => message s i
  | .empty i => empty s i
  | .half m => { s with mode := m }

def run (s : St) (es : List Ev) : St := es.foldl step s

/-- A fresh topic: no handle has joined. -/
def init : St := ⟨.unknown, 0, fun _ => 0, fun _ => ⟨0, 0, .unknown, interval - 1⟩⟩

/-- A handle is up to date. -/
def Current (s : St) (i : Nat) : Prop := (s.h i).epoch = s.epoch ∧ (s.h i).mode = s.mode

/-! ### Lemmas -/

theorem setH_self (s : St) (i : Nat) (x : Handle) : setH s i x i = x := by simp [setH]
theorem setH_ne (s : St) (i j : Nat) (x : Handle) (h : j ≠ i) : setH s i x j = s.h j := by simp [setH, h]

/-- Handles hold no epoch of the future, and who holds the present epoch holds
the present backend; hints are no epochs of the future. -/
def Inv (s : St) : Prop :=
  (∀ i, (s.h i).epoch ≤ s.epoch) ∧ (∀ i, (s.h i).epoch = s.epoch → (s.h i).mode = s.mode) ∧ ∀ p, s.hint p ≤ s.epoch

theorem inv_setH (s s' : St) (i : Nat) (x : Handle) (hs : Inv s) (hm : s'.mode = s.mode) (he : s'.epoch = s.epoch)
    (hh : s'.h = setH s i x) (hp : ∀ p, s'.hint p ≤ s'.epoch) (h1 : x.epoch ≤ s.epoch)
    (h2 : x.epoch = s.epoch → x.mode = s.mode) : Inv s' := by
  refine ⟨fun j => ?_, fun j => ?_, hp⟩
  · rw [hh, he]
    by_cases h : j = i
    · subst h; rw [setH_self]; exact h1
    · rw [setH_ne _ _ _ _ h]; exact hs.1 j
  · rw [hh, he, hm]
    by_cases h : j = i
    · subst h; rw [setH_self]; exact h2
    · rw [setH_ne _ _ _ _ h]; exact hs.2.1 j

theorem inv_resync (s : St) (i : Nat) (hs : Inv s) : Inv (resync s i) := by
  refine inv_setH s _ i _ hs rfl rfl rfl ?_ (Nat.le_refl _) (fun _ => rfl)
  intro p
  show setHint s _ _ p ≤ s.epoch
  unfold setHint
  split
  · have := hs.2.2 (s.h i).proc; omega
  · exact hs.2.2 p

theorem inv_counted (s : St) (i : Nat) (hs : Inv s) : Inv (counted s i) :=
  inv_setH s _ i _ hs rfl rfl rfl hs.2.2 (hs.1 i) (hs.2.1 i)

theorem inv_guard (s : St) (i : Nat) (hs : Inv s) : Inv (guard s i) := by
  unfold guard; split
  · exact inv_resync s i hs
  · exact hs

theorem inv_check (s : St) (i : Nat) (hs : Inv s) : Inv (check s i) := by
  unfold check; split
  · exact inv_resync s i hs
  · exact hs

theorem inv_step (s : St) (e : Ev) (he : ∀ m, e ≠ .half m) (hs : Inv s) : Inv (step s e) := by
  cases e with
  | half m => exact absurd rfl (he m)
  | migrate p m =>
    refine ⟨fun i => Nat.le_succ_of_le (hs.1 i), fun i h => ?_, fun q => ?_⟩
    · have := hs.1 i
      have h' : (s.h i).epoch = s.epoch + 1 := h
      omega
    · show setHint s p (s.epoch + 1) q ≤ s.epoch + 1
      unfold setHint
      split
      · exact Nat.le_refl _
      · exact Nat.le_succ_of_le (hs.2.2 q)
  | late p x =>
    unfold step; dsimp only
    split
    · rename_i hx
      refine ⟨hs.1, hs.2.1, fun q => ?_⟩
      show setHint s p x q ≤ s.epoch
      unfold setHint
      split
      · exact hx
      · exact hs.2.2 q
    · exact hs
  | join i p => exact inv_setH s _ i _ hs rfl rfl rfl hs.2.2 (Nat.le_refl _) (fun _ => rfl)
  | message i =>
    show Inv (message s i)
    unfold message
    split
    · exact inv_check _ i (inv_counted _ i (inv_guard s i hs))
    · exact inv_counted _ i (inv_guard s i hs)
  | empty i => exact inv_check _ i (inv_counted _ i (inv_guard s i hs))

theorem inv_init : Inv init := ⟨fun _ => Nat.le_refl _, fun _ _ => rfl, fun _ => Nat.le_refl _⟩

theorem inv_run (es : List Ev) : ∀ s, (∀ m, Ev.half m ∉ es) → Inv s → Inv (run s es) := by
  induction es with
  | nil => intro s _ hs; exact hs
  | cons e es ih =>
    intro s hn hs
    exact ih _ (fun m hm => hn m (List.mem_cons_of_mem _ hm)) (inv_step s e (fun m he => hn m (he ▸ List.mem_cons_self)) hs)

theorem resync_current (s : St) (i : Nat) : Current (resync s i) i := by
  simp [Current, resync, setH_self]

theorem resync_shared (s : St) (i : Nat) : (resync s i).epoch = s.epoch ∧ (resync s i).mode = s.mode := ⟨rfl, rfl⟩

theorem guard_shared (s : St) (i : Nat) : (guard s i).epoch = s.epoch ∧ (guard s i).mode = s.mode := by
  unfold guard; split <;> exact ⟨rfl, rfl⟩

theorem check_shared (s : St) (i : Nat) : (check s i).epoch = s.epoch ∧ (check s i).mode = s.mode := by
  unfold check; split <;> exact ⟨rfl, rfl⟩

theorem check_current (s : St) (i : Nat) (hs : Inv s) : Current (check s i) i := by
  unfold check
  split
  · exact resync_current s i
  · rename_i h
    have h' : (s.h i).epoch = s.epoch := (not_not.1 h).symm
    exact ⟨h', hs.2.1 i h'⟩

theorem guard_count (s : St) (i j : Nat) : ((guard s i).h j).count = (s.h j).count := by
  unfold guard; split
  · unfold resync setH; dsimp only; split
    · rename_i h; rw [h]
    · rfl
  · rfl

theorem check_count (s : St) (i j : Nat) : ((check s i).h j).count = (s.h j).count := by
  unfold check; split
  · unfold resync setH; dsimp only; split
    · rename_i h; rw [h]
    · rfl
  · rfl

/-! ### Theorems -/

/-- Nobody who holds the present epoch works with another backend, whatever
happened, as long as nobody died between the two writes. -/
theorem epoch_tells_mode (es : List Ev) (hn : ∀ m, Ev.half m ∉ es) (i : Nat)
    (he : ((run init es).h i).epoch = (run init es).epoch) : ((run init es).h i).mode = (run init es).mode :=
  (inv_run es init hn inv_init).2.1 i he

/-- A receive that finds nothing brings the handle up to date. -/
theorem empty_current (es : List Ev) (hn : ∀ m, Ev.half m ∉ es) (i : Nat) : Current (run init (es ++ [.empty i])) i := by
  have hI := inv_run es init hn inv_init
  have : run init (es ++ [.empty i]) = empty (run init es) i := by simp [run, step]
  rw [this]
  exact check_current _ i (inv_counted _ i (inv_guard _ i hI))

/-- The first message after joining looks at the header. -/
theorem first_message_current (es : List Ev) (hn : ∀ m, Ev.half m ∉ es) (i p : Nat) (mid : List Ev)
    (hm : ∀ m, Ev.half m ∉ mid) (hi : ∀ e ∈ mid, (∃ q m, e = .migrate q m) ∨ ∃ q x, e = .late q x) :
    Current (run init (es ++ .join i p :: mid ++ [.message i])) i := by
  have hI := inv_run (es ++ .join i p :: mid) init
    (fun m h => by
      rcases List.mem_append.1 h with h | h
      · exact hn m h
      · rcases List.mem_cons.1 h with h | h
        · exact absurd h (by simp)
        · exact hm m h) inv_init
  have hc : ∀ (mid : List Ev) (s : St), (∀ e ∈ mid, (∃ q m, e = .migrate q m) ∨ ∃ q x, e = .late q x) → (run s mid).h = s.h := by
    intro mid
    induction mid with
    | nil => intro s _; rfl
    | cons e es ih =>
      intro s h
      have h1 : (step s e).h = s.h := by
        rcases h e List.mem_cons_self with ⟨q, m, rfl⟩ | ⟨q, x, rfl⟩
        · rfl
        · unfold step; dsimp only; split <;> rfl
      exact (ih (step s e) fun e he => h e (List.mem_cons_of_mem _ he)).trans h1
  have hr : run init (es ++ .join i p :: mid) = run (step (run init es) (.join i p)) mid := by simp [run]
  have hcnt : ((run init (es ++ .join i p :: mid)).h i).count = interval - 1 := by
    rw [hr, hc mid _ hi]
    show (setH _ i _ i).count = _
    rw [setH_self]
  have he : run init (es ++ .join i p :: mid ++ [.message i]) = message (run init (es ++ .join i p :: mid)) i := by
    simp [run, step]
  rw [he]
  generalize run init (es ++ .join i p :: mid) = s at hI hcnt
  have hz : ((counted (guard s i) i).h i).count % interval = 0 := by
    show (setH _ i _ i).count % interval = 0
    rw [setH_self, guard_count, hcnt]
    show (interval - 1 + 1) % interval = 0
    decide
  unfold message
  rw [if_pos hz]
  exact check_current _ i (inv_counted _ i (inv_guard s i hI))

/-- Events other than a change leave an up-to-date handle up to date. -/
theorem current_step (s : St) (e : Ev) (i : Nat) (hI : Inv s) (hc : Current s i)
    (hm : ∀ p m, e ≠ .migrate p m) (hh : ∀ m, e ≠ .half m) : Current (step s e) i := by
  have hsame : (step s e).epoch = s.epoch ∧ (step s e).mode = s.mode := by
    cases e with
    | migrate p m => exact absurd rfl (hm p m)
    | half m => exact absurd rfl (hh m)
    | late p x => unfold step; dsimp only; split <;> exact ⟨rfl, rfl⟩
    | join j p => exact ⟨rfl, rfl⟩
    | message j =>
      show (message s j).epoch = _ ∧ (message s j).mode = _
      have hg := guard_shared s j
      unfold message
      split
      · rw [(check_shared _ j).1, (check_shared _ j).2]; exact hg
      · exact hg
    | empty j =>
      show (check _ j).epoch = _ ∧ (check _ j).mode = _
      rw [(check_shared _ j).1, (check_shared _ j).2]; exact guard_shared s j
  have hI' := inv_step s e hh hI
  have hge : (s.h i).epoch ≤ ((step s e).h i).epoch := by
    have hrs : ∀ (s : St) j, Inv s → (s.h i).epoch ≤ ((resync s j).h i).epoch := by
      intro s j hI
      show _ ≤ (setH s j _ i).epoch
      by_cases h : i = j
      · subst h; rw [setH_self]; exact hI.1 i
      · rw [setH_ne _ _ _ _ h]
    have hg : ∀ (s : St) j, Inv s → (s.h i).epoch ≤ ((guard s j).h i).epoch := by
      intro s j hI; unfold guard; split
      · exact hrs s j hI
      · exact Nat.le_refl _
    have hk : ∀ (s : St) j, Inv s → (s.h i).epoch ≤ ((check s j).h i).epoch := by
      intro s j hI; unfold check; split
      · exact hrs s j hI
      · exact Nat.le_refl _
    have hn : ∀ (s : St) j, (s.h i).epoch ≤ ((counted s j).h i).epoch := by
      intro s j
      show _ ≤ (setH s j _ i).epoch
      by_cases h : i = j
      · subst h; rw [setH_self]
      · rw [setH_ne _ _ _ _ h]
    cases e with
    | migrate p m => exact absurd rfl (hm p m)
    | half m => exact absurd rfl (hh m)
    | late p x => unfold step; dsimp only; split <;> exact Nat.le_refl _
    | join j p =>
      show _ ≤ (setH s j _ i).epoch
      by_cases h : i = j
      · subst h; rw [setH_self]; exact hI.1 i
      · rw [setH_ne _ _ _ _ h]
    | message j =>
      show _ ≤ ((message s j).h i).epoch
      have h1 := Nat.le_trans (hg s j hI) (hn (guard s j) j)
      unfold message
      split
      · exact Nat.le_trans h1 (hk _ j (inv_counted _ j (inv_guard s j hI)))
      · exact h1
    | empty j =>
      exact Nat.le_trans (Nat.le_trans (hg s j hI) (hn (guard s j) j)) (hk _ j (inv_counted _ j (inv_guard s j hI)))
  have h1 : ((step s e).h i).epoch = (step s e).epoch := by
    have := hI'.1 i
    rw [hsame.1] at this ⊢
    have := hc.1
    omega
  exact ⟨h1, hI'.2.1 i h1⟩

theorem current_run (es : List Ev) (i : Nat) : ∀ s, Inv s → Current s i →
    (∀ p m, Ev.migrate p m ∉ es) → (∀ m, Ev.half m ∉ es) → Current (run s es) i := by
  induction es with
  | nil => intro s _ hc _ _; exact hc
  | cons e es ih =>
    intro s hI hc hm hh
    refine ih _ (inv_step s e (fun m he => hh m (he ▸ List.mem_cons_self)) hI) ?_ (fun p m h => hm p m (List.mem_cons_of_mem _ h)) (fun m h => hh m (List.mem_cons_of_mem _ h))
    exact current_step s e i hI hc (fun p m he => hm p m (he ▸ List.mem_cons_self)) (fun m he => hh m (he ▸ List.mem_cons_self))

def mine (i : Nat) (e : Ev) : Bool := e = .message i || e = .empty i

/-- The counter of a handle counts its messages. -/
theorem count_run (es : List Ev) (i : Nat) : ∀ s, (∀ j p, Ev.join j p ∉ es) →
    ((run s es).h i).count = (s.h i).count + es.countP (mine i) := by
  induction es with
  | nil => intro s _; simp [run]
  | cons e es ih =>
    intro s hj
    have hs := ih (step s e) (fun j p h => hj j p (List.mem_cons_of_mem _ h))
    have he : ((step s e).h i).count = (s.h i).count + if mine i e then 1 else 0 := by
      have hcn : ∀ (s : St) j, ((counted s j).h i).count = (s.h i).count + if i = j then 1 else 0 := by
        intro s j
        show (setH s j _ i).count = _
        by_cases h : i = j
        · subst h; rw [setH_self]; simp
        · rw [setH_ne _ _ _ _ h]; simp [h]
      cases e with
      | join j p => exact absurd List.mem_cons_self (hj j p)
      | migrate p m => simp [step, mine]
      | half m => simp [step, mine]
      | late p x => unfold step; dsimp only; split <;> simp [mine]
      | message j =>
        show ((message s j).h i).count = _
        have : ((counted (guard s j) j).h i).count = (s.h i).count + if i = j then 1 else 0 := by rw [hcn, guard_count]
        have hm : (if mine i (.message j) then 1 else 0) = if i = j then 1 else 0 := by
          by_cases h : i = j
          · subst h; simp [mine]
          · simp [mine, h, Ne.symm h]
        rw [hm, ← this]
        unfold message
        split
        · rw [check_count]
        · rfl
      | empty j =>
        show ((check _ j).h i).count = _
        rw [check_count, hcn, guard_count]
        by_cases h : i = j
        · subst h; simp [mine]
        · simp [mine, h, Ne.symm h]
    show ((run (step s e) es).h i).count = _
    rw [hs, he, List.countP_cons]
    omega

/-- After a change, four messages on a handle bring it up to date, whatever else
happens short of another change; before that it may be behind. -/
theorem four_messages_current (es : List Ev) (i : Nat) : ∀ s, Inv s → (∀ p m, Ev.migrate p m ∉ es) →
    (∀ m, Ev.half m ∉ es) → (∀ j p, Ev.join j p ∉ es) →
    interval ≤ (s.h i).count % interval + es.countP (mine i) → Current (run s es) i := by
  induction es with
  | nil =>
    intro s _ _ _ _ hc
    simp only [List.countP_nil, Nat.add_zero] at hc
    have := Nat.mod_lt (s.h i).count (show interval > 0 by decide)
    omega
  | cons e es ih =>
    intro s hI hm hh hj hc
    have hI' := inv_step s e (fun m he => hh m (he ▸ List.mem_cons_self)) hI
    have hm' : ∀ p m, Ev.migrate p m ∉ es := fun p m h => hm p m (List.mem_cons_of_mem _ h)
    have hh' : ∀ m, Ev.half m ∉ es := fun m h => hh m (List.mem_cons_of_mem _ h)
    have hj' : ∀ j p, Ev.join j p ∉ es := fun j p h => hj j p (List.mem_cons_of_mem _ h)
    have hcnt := count_run [e] i s (fun j p h => hj j p (by rw [List.mem_singleton] at h; exact h ▸ List.mem_cons_self))
    have hcnt' : ((step s e).h i).count = (s.h i).count + [e].countP (mine i) := hcnt
    rw [List.countP_cons] at hc
    by_cases hmine : mine i e = true
    · simp only [List.countP_cons, List.countP_nil, hmine, if_true, Nat.zero_add] at hcnt' hc
      by_cases hz : ((s.h i).count + 1) % interval = 0
      · -- this one looks at the header
        have hcur : Current (step s e) i := by
          simp only [mine, Bool.or_eq_true, decide_eq_true_eq] at hmine
          rcases hmine with rfl | rfl
          · show Current (message s i) i
            have hz' : ((counted (guard s i) i).h i).count % interval = 0 := by
              show (setH _ i _ i).count % interval = 0
              rw [setH_self, guard_count]; exact hz
            unfold message
            rw [if_pos hz']
            exact check_current _ i (inv_counted _ i (inv_guard s i hI))
          · exact check_current _ i (inv_counted _ i (inv_guard s i hI))
        exact current_run es i _ hI' hcur hm' hh'
      · refine ih _ hI' hm' hh' hj' ?_
        rw [hcnt']
        unfold interval at *
        omega
    · simp only [List.countP_cons, List.countP_nil, hmine, Bool.false_eq_true, if_false, Nat.add_zero] at hcnt' hc
      refine ih _ hI' hm' hh' hj' ?_
      rw [hcnt']; exact hc

/-- In a process that knows of the change, one message is enough. -/
theorem told_one_message (s : St) (i : Nat) (hI : Inv s) (ht : s.hint (s.h i).proc = s.epoch) :
    Current (step s (.message i)) i := by
  have hg : Current (guard s i) i := by
    unfold guard
    split
    · exact resync_current s i
    · rename_i h
      have h' : (s.h i).epoch = s.epoch := (not_not.1 h).symm.trans ht
      exact ⟨h', hI.2.1 i h'⟩
  have hc : Current (counted (guard s i) i) i := by
    refine ⟨?_, ?_⟩
    · show (setH _ i _ i).epoch = _; rw [setH_self]; exact hg.1
    · show (setH _ i _ i).mode = _; rw [setH_self]; exact hg.2
  show Current (message s i) i
  unfold message
  split
  · exact check_current _ i (inv_counted _ i (inv_guard s i hI))
  · exact hc

/-- After its own change a process's other handles follow with their next
message. -/
theorem own_process_follows (s : St) (i : Nat) (m : Backend) (hI : Inv s) :
    Current (run s [.migrate (s.h i).proc m, .message i]) i := by
  have hI' := inv_step s (.migrate (s.h i).proc m) (by simp) hI
  refine told_one_message (step s (.migrate (s.h i).proc m)) i hI' ?_
  show setHint s _ _ _ = _
  simp [setHint, step]

/-- The situation after such a death: the header says `m`, handle `i` holds `o`
and the present epoch, and its process's hint is the present epoch. -/
def Held (m o : Backend) (i : Nat) (s : St) : Prop :=
  s.mode = m ∧ (s.h i).mode = o ∧ (s.h i).epoch = s.epoch ∧ s.hint (s.h i).proc = s.epoch

theorem held_resync {m o : Backend} {i : Nat} (s : St) (j : Nat) (hji : j ≠ i) (h : Held m o i s) : Held m o i (resync s j) := by
  have hh : (resync s j).h i = s.h i := setH_ne _ _ _ _ (Ne.symm hji)
  refine ⟨h.1, by rw [hh]; exact h.2.1, by rw [hh]; exact h.2.2.1, ?_⟩
  rw [hh]
  show setHint s _ _ (s.h i).proc = s.epoch
  unfold setHint
  split
  · rename_i hp; rw [← hp, h.2.2.2]; exact Nat.max_self _
  · exact h.2.2.2

theorem held_guard {m o : Backend} {i : Nat} (s : St) (j : Nat) (h : Held m o i s) : Held m o i (guard s j) := by
  unfold guard
  split
  · rename_i hg
    by_cases hji : j = i
    · subst hji; exact absurd (h.2.2.2.trans h.2.2.1.symm) hg
    · exact held_resync s j hji h
  · exact h

theorem held_check {m o : Backend} {i : Nat} (s : St) (j : Nat) (h : Held m o i s) : Held m o i (check s j) := by
  unfold check
  split
  · rename_i hg
    by_cases hji : j = i
    · subst hji; exact absurd h.2.2.1.symm hg
    · exact held_resync s j hji h
  · exact h

theorem held_counted {m o : Backend} {i : Nat} (s : St) (j : Nat) (h : Held m o i s) : Held m o i (counted s j) := by
  have hh : ((counted s j).h i).mode = (s.h i).mode ∧ ((counted s j).h i).epoch = (s.h i).epoch ∧ ((counted s j).h i).proc = (s.h i).proc := by
    unfold counted setH
    dsimp only
    split
    · rename_i hij; subst hij; exact ⟨rfl, rfl, rfl⟩
    · exact ⟨rfl, rfl, rfl⟩
  exact ⟨h.1, hh.1.trans h.2.1, hh.2.1.trans h.2.2.1, by rw [hh.2.2]; exact h.2.2.2⟩

/-- **Finding.**  In another process up to three messages go to the backend
that was given up. -/
theorem three_behind :
    (run init [.join 0 1, .migrate 1 .spscShm, .message 0, .migrate 2 .mpscShm, .message 0, .message 0, .message 0]).mode = .mpscShm ∧
    ((run init [.join 0 1, .migrate 1 .spscShm, .message 0, .migrate 2 .mpscShm, .message 0, .message 0, .message 0]).h 0).mode = .spscShm ∧
    Current (run init [.join 0 1, .migrate 1 .spscShm, .message 0, .migrate 2 .mpscShm, .message 0, .message 0, .message 0, .message 0]) 0 :=
  ⟨by decide +kernel, by decide +kernel, by unfold Current; decide +kernel⟩

/-- **Finding.**  When a thread dies between writing the backend and the epoch,
a handle that is up to date works on with the old backend for good: no message
and no receive, of it or of others, however many, makes it look again. -/
theorem stranded (es : List Ev) (m : Backend) (s : St) (i : Nat) (hc : Current s i)
    (ht : s.hint (s.h i).proc = s.epoch) (ha : ∀ e ∈ es, ∃ j, e = .message j ∨ e = .empty j) :
    ((run (step s (.half m)) es).h i).mode = s.mode ∧ (run (step s (.half m)) es).mode = m := by
  have key : ∀ (es : List Ev) (s' : St), (∀ e ∈ es, ∃ j, e = .message j ∨ e = .empty j) →
      Held m s.mode i s' → Held m s.mode i (run s' es) := by
    intro es
    induction es with
    | nil => intro s' _ h; exact h
    | cons e es ih =>
      intro s' ha hs'
      refine ih _ (fun e he => ha e (List.mem_cons_of_mem _ he)) ?_
      obtain ⟨j, rfl | rfl⟩ := ha _ List.mem_cons_self
      · show Held m s.mode i (message s' j)
        unfold message
        split
        · exact held_check _ j (held_counted _ j (held_guard s' j hs'))
        · exact held_counted _ j (held_guard s' j hs')
      · exact held_check _ j (held_counted _ j (held_guard s' j hs'))
  have := key es (step s (.half m)) ha ⟨rfl, hc.2, hc.1, ht⟩
  exact ⟨this.2.1, this.1⟩

/-! ### Cases -/

example : Current (run init [.join 0 1, .migrate 1 .spscShm, .message 0]) 0 ∧ (run init [.join 0 1, .migrate 1 .spscShm, .message 0]).hint 1 = 1 := by unfold Current; decide +kernel
example : ((run init [.join 0 1, .migrate 1 .spscShm, .message 0, .half .podShm, .message 0, .empty 0, .message 0]).h 0).mode = .spscShm := by decide +kernel
example : Inv init := inv_init

end Horus.Follow
