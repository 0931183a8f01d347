/-
Changing the backend of a topic while it is in use: any number of threads (of
any number of processes) try to move a topic to the backend its participants
call for, and any of them may die at any point.

Modelled source: horus_core/src/communication/topic/migration.rs (64-134,
207-217), header.rs (591-607), mod.rs (1444-1469, the stale lock).  The atomic
operations interleave; each is one event.  Not modelled: weak memory (every
access is one step of an interleaving), the spinning of `drain_in_flight`,
which observes nothing and always answers true (migration.rs:142-204), and the
bound of five attempts.
-/
import Verif.Topic.Model
import Mathlib.Tactic.Common

namespace Horus.Switch
open Horus.Topic (Backend detect)

/-- Where a thread is in `migrate_to_optimal`.

Models horus_core/src/communication/topic/migration.rs:207-210, 69-89, 95-134:
`wanted` after `detect_optimal_backend`, `differs` after the mode was read,
`free` after the lock was seen free, `locked` after it was taken, `stored`
after the mode was written, `bumped` after the epoch was increased. -/
inductive Pc
  | idle
  | wanted (m : Backend)
  | differs (m : Backend)
  | free (m : Backend)
  | locked (m : Backend)
  | stored (m : Backend)
  | bumped (m : Backend)
  | dead
deriving DecidableEq, Repr

/-- The shared header and the threads.  `stores` and `wins` record what was
written and what was reported (thread, epoch, backend); nothing reads them.

Models horus_core/src/communication/topic/header.rs:185-195. -/
structure St where
  mode : Backend
  lock : Bool
  epoch : Nat
  pubs : Nat
  subs : Nat
  pod : Bool
  pc : Nat → Pc
  stores : List Backend
  wins : List (Nat × Nat × Backend)

/-- The backend the participants call for. -/
def best (s : St) : Backend := detect s.pubs s.subs s.pod

def goTo (s : St) (i : Nat) (p : Pc) : Nat → Pc := fun x => if x = i then p else s.pc x

inductive Ev
  | topo (pubs subs : Nat)
  | start (i : Nat)
  | readMode (i : Nat)
  | readLock (i : Nat)
  | cas (i : Nat)
  | store (i : Nat)
  | bump (i : Nat)
  | unlock (i : Nat)
  | crash (i : Nat)
  | force
deriving DecidableEq, Repr

/-- One atomic operation.

Models horus_core/src/communication/topic/migration.rs:208 (`start`), 70-74
(`readMode`: NotNeeded), 76-78 (`readLock`: AlreadyInProgress), 80-82 and
header.rs:591-600 (`cas`: LockContention), 122-124 (`store`), 130 (`bump`), 86
and header.rs:604-607 (`unlock`), mod.rs:1461-1467 (`force`: a waiter writes
the lock free after five milliseconds, whoever holds it), header.rs:499-587
(`topo`: participants come and go). -/
def step (s : St) : Ev → St
  | .topo p q => { s with pubs := p, subs := q }
  | .start i => match s.pc i with
    | .idle => { s with pc := goTo s i (.wanted (best s)) }
    | _ => s
  | .readMode i => match s.pc i with
    | .wanted m => if s.mode = m then { s with pc := goTo s i .idle } else { s with pc := goTo s i (.differs m) }
    | _ => s
  | .readLock i => match s.pc i with
    | .differs m => if s.lock then { s with pc := goTo s i .idle } else { s with pc := goTo s i (.free m) }
    | _ => s
  | .cas i => match s.pc i with
    | .free m => if s.lock then { s with pc := goTo s i .idle } else { s with lock := true, pc := goTo s i (.locked m) }
    | _ => s
  | .store i => match s.pc i with
    | .locked m => { s with mode := m, stores := s.stores ++ [m], pc := goTo s i (.stored m) }
    | _ => s
  | .bump i => match s.pc i with
    | .stored m => { s with epoch := s.epoch + 1, wins := s.wins ++ [(i, s.epoch + 1, m)], pc := goTo s i (.bumped m) }
    | _ => s
  | .unlock i => match s.pc i with
    | .bumped _ => { s with lock := false, pc := goTo s i .idle }
    | _ => s
  | .crash i => { s with pc := goTo s i .dead }
  | .force => { s with lock := false }

def run (s : St) (h : List Ev) : St := h.foldl step s

/-- A fresh topic: `init`.

Models horus_core/src/communication/topic/header.rs:329-391. -/
def init (pod : Bool) : St := ⟨.unknown, false, 0, 0, 0, pod, fun _ => .idle, [], []⟩

theorem run_snoc (s : St) (h : List Ev) (e : Ev) : run s (h ++ [e]) = step (run s h) e := by simp [run]
theorem run_append (s : St) (a b : List Ev) : run s (a ++ b) = run (run s a) b := by simp [run]
theorem run_cons (s : St) (e : Ev) (b : List Ev) : run s (e :: b) = run (step s e) b := rfl

/-- A property kept by every step is kept by every run. -/
theorem run_keeps (P : St → Prop) (Q : Ev → Prop) (hstep : ∀ s e, Q e → P s → P (step s e)) (h : List Ev) :
    ∀ s, (∀ e ∈ h, Q e) → P s → P (run s h) := by
  induction h with
  | nil => intro s _ hs; exact hs
  | cons e es ih =>
    intro s hq hs
    exact ih _ (fun e he => hq e (List.mem_cons_of_mem _ he)) (hstep s e (hq e List.mem_cons_self) hs)

theorem goTo_self (s : St) (i : Nat) (p : Pc) : goTo s i p i = p := by simp [goTo]
theorem goTo_ne (s : St) (i j : Nat) (p : Pc) (h : j ≠ i) : goTo s i p j = s.pc j := by simp [goTo, h]

/-! ### One at a time -/

/-- In the part of a migration that writes. -/
def Crit : Pc → Prop
  | .locked _ => True
  | .stored _ => True
  | .bumped _ => True
  | _ => False

def Exclusive (s : St) : Prop :=
  (∀ i j, Crit (s.pc i) → Crit (s.pc j) → i = j) ∧ ∀ i, Crit (s.pc i) → s.lock = true

/-- Moving a thread within or out of the writing part, the lock untouched. -/
theorem exclusive_move (s s' : St) (i : Nat) (p : Pc) (hs : Exclusive s) (hp : s'.pc = goTo s i p)
    (hl : s'.lock = s.lock) (hc : Crit p → Crit (s.pc i)) : Exclusive s' := by
  have hb : ∀ j, Crit (s'.pc j) → Crit (s.pc j) := by
    intro j hj
    rw [hp] at hj
    by_cases h : j = i
    · subst h; rw [goTo_self] at hj; exact hc hj
    · rw [goTo_ne _ _ _ _ h] at hj; exact hj
  exact ⟨fun a b ha hb' => hs.1 a b (hb a ha) (hb b hb'), fun a ha => hl ▸ hs.2 a (hb a ha)⟩

theorem exclusive_step (s : St) (e : Ev) (he : e ≠ .force) (hs : Exclusive s) : Exclusive (step s e) := by
  cases e with
  | force => exact absurd rfl he
  | topo p q => exact hs
  | crash i => exact exclusive_move s _ i .dead hs rfl rfl (fun h => h.elim)
  | start i =>
    unfold step; dsimp only
    cases hp : s.pc i with
    | idle => exact exclusive_move s _ i (.wanted (best s)) hs rfl rfl (fun h => h.elim)
    | _ => exact hs
  | readMode i =>
    unfold step; dsimp only
    cases hp : s.pc i with
    | wanted m =>
      dsimp only
      split
      · exact exclusive_move s _ i .idle hs rfl rfl (fun h => h.elim)
      · exact exclusive_move s _ i (.differs m) hs rfl rfl (fun h => h.elim)
    | _ => exact hs
  | readLock i =>
    unfold step; dsimp only
    cases hp : s.pc i with
    | differs m =>
      dsimp only
      split
      · exact exclusive_move s _ i .idle hs rfl rfl (fun h => h.elim)
      · exact exclusive_move s _ i (.free m) hs rfl rfl (fun h => h.elim)
    | _ => exact hs
  | cas i =>
    unfold step; dsimp only
    cases hp : s.pc i with
    | free m =>
      dsimp only
      split
      · exact exclusive_move s _ i .idle hs rfl rfl (fun h => h.elim)
      · rename_i hl
        have hn : ∀ j, ¬Crit (s.pc j) := fun j hj => hl (hs.2 j hj)
        have hw : ∀ j, Crit (goTo s i (.locked m) j) → j = i := by
          intro j hj
          by_cases h : j = i
          · exact h
          · rw [goTo_ne _ _ _ _ h] at hj; exact absurd hj (hn j)
        exact ⟨fun a b ha hb => (hw a ha).trans (hw b hb).symm, fun _ _ => rfl⟩
    | _ => exact hs
  | store i =>
    unfold step; dsimp only
    cases hp : s.pc i with
    | locked m => exact exclusive_move s _ i (.stored m) hs rfl rfl (fun _ => by rw [hp]; trivial)
    | _ => exact hs
  | bump i =>
    unfold step; dsimp only
    cases hp : s.pc i with
    | stored m => exact exclusive_move s _ i (.bumped m) hs rfl rfl (fun _ => by rw [hp]; trivial)
    | _ => exact hs
  | unlock i =>
    unfold step; dsimp only
    cases hp : s.pc i with
    | bumped m =>
      have hci : Crit (s.pc i) := by rw [hp]; trivial
      have hw : ∀ j, ¬Crit (goTo s i .idle j) := by
        intro j hj
        by_cases h : j = i
        · subst h; rw [goTo_self] at hj; exact hj
        · rw [goTo_ne _ _ _ _ h] at hj; exact h (hs.1 j i hj hci)
      exact ⟨fun a b ha _ => absurd ha (hw a), fun a ha => absurd ha (hw a)⟩
    | _ => exact hs

/-- As long as no waiter breaks the lock, at most one thread is changing the
backend, wherever threads die. -/
theorem one_at_a_time (pod : Bool) (h : List Ev) (hf : Ev.force ∉ h) (i j : Nat)
    (hi : Crit ((run (init pod) h).pc i)) (hj : Crit ((run (init pod) h).pc j)) : i = j :=
  (run_keeps Exclusive (· ≠ .force) exclusive_step h (init pod) (fun _ he hc => hf (hc ▸ he))
    ⟨fun _ _ h => h.elim, fun _ h => h.elim⟩).1 i j hi hj

/-! ### What a success means -/

def Writes (s : St) : Prop := Exclusive s ∧ ∀ i m, (s.pc i = .stored m ∨ s.pc i = .bumped m) → s.mode = m

theorem writes_move (s s' : St) (i : Nat) (p : Pc) (hs : Writes s) (hx : Exclusive s') (hp : s'.pc = goTo s i p)
    (hm : s'.mode = s.mode)
    (hc : ∀ m, (p = .stored m ∨ p = .bumped m) → s.pc i = .stored m ∨ s.pc i = .bumped m) : Writes s' := by
  refine ⟨hx, fun j m hj => ?_⟩
  rw [hm]
  rw [hp] at hj
  by_cases h : j = i
  · subst h; rw [goTo_self] at hj; exact hs.2 j m (hc m hj)
  · rw [goTo_ne _ _ _ _ h] at hj; exact hs.2 j m hj

theorem writes_step (s : St) (e : Ev) (he : e ≠ .force) (hs : Writes s) : Writes (step s e) := by
  have hx := exclusive_step s e he hs.1
  revert hx
  cases e with
  | force => exact absurd rfl he
  | topo p q => exact fun hx => ⟨hx, hs.2⟩
  | crash i => exact fun hx => writes_move s _ i .dead hs hx rfl rfl (by simp)
  | start i =>
    unfold step; dsimp only
    cases hp : s.pc i with
    | idle => exact fun hx => writes_move s _ i _ hs hx rfl rfl (by simp)
    | _ => exact fun _ => hs
  | readMode i =>
    unfold step; dsimp only
    cases hp : s.pc i with
    | wanted m =>
      dsimp only
      split
      · exact fun hx => writes_move s _ i _ hs hx rfl rfl (by simp)
      · exact fun hx => writes_move s _ i _ hs hx rfl rfl (by simp)
    | _ => exact fun _ => hs
  | readLock i =>
    unfold step; dsimp only
    cases hp : s.pc i with
    | differs m =>
      dsimp only
      split
      · exact fun hx => writes_move s _ i _ hs hx rfl rfl (by simp)
      · exact fun hx => writes_move s _ i _ hs hx rfl rfl (by simp)
    | _ => exact fun _ => hs
  | cas i =>
    unfold step; dsimp only
    cases hp : s.pc i with
    | free m =>
      dsimp only
      split
      · exact fun hx => writes_move s _ i _ hs hx rfl rfl (by simp)
      · exact fun hx => writes_move s _ i _ hs hx rfl rfl (by simp)
    | _ => exact fun _ => hs
  | store i =>
    unfold step; dsimp only
    cases hp : s.pc i with
    | locked m =>
      refine fun hx => ⟨hx, fun j m' hj => ?_⟩
      have hj' : goTo s i (.stored m) j = .stored m' ∨ goTo s i (.stored m) j = .bumped m' := hj
      have hji : j = i := by
        refine hx.1 j i ?_ ?_
        · show Crit (goTo s i (.stored m) j)
          rcases hj' with h | h <;> rw [h] <;> trivial
        · show Crit (goTo s i (.stored m) i)
          rw [goTo_self]; trivial
      subst hji
      rw [goTo_self] at hj'
      show m = m'
      simpa using hj'
    | _ => exact fun _ => hs
  | bump i =>
    unfold step; dsimp only
    cases hp : s.pc i with
    | stored m => exact fun hx => writes_move s _ i _ hs hx rfl rfl (fun m' h => by rw [hp]; simpa using h)
    | _ => exact fun _ => hs
  | unlock i =>
    unfold step; dsimp only
    cases hp : s.pc i with
    | bumped m => exact fun hx => writes_move s _ i _ hs hx rfl rfl (by simp)
    | _ => exact fun _ => hs

theorem writes_init (pod : Bool) : Writes (init pod) :=
  ⟨⟨fun _ _ h => h.elim, fun _ h => h.elim⟩, by simp [init]⟩

/-- When a thread increases the epoch, and until it lets go of the lock, the
backend in force is the one it reports. -/
theorem success_in_force (pod : Bool) (h : List Ev) (hf : Ev.force ∉ h) (i : Nat) (m : Backend)
    (hp : (run (init pod) h).pc i = .stored m ∨ (run (init pod) h).pc i = .bumped m) :
    (run (init pod) h).mode = m :=
  (run_keeps Writes (· ≠ .force) writes_step h (init pod) (fun _ he hc => hf (hc ▸ he)) (writes_init pod)).2 i m hp

/-! ### Epochs -/

theorem wins_step (s : St) (e : Ev) (hs : s.wins.map (·.2.1) = List.range' 1 s.epoch) :
    (step s e).wins.map (·.2.1) = List.range' 1 (step s e).epoch := by
  cases e with
  | bump i =>
    unfold step; dsimp only
    cases hp : s.pc i with
    | stored m =>
      dsimp only
      rw [List.map_append, hs, List.range'_concat]
      simp [Nat.add_comm]
    | _ => exact hs
  | topo p q => exact hs
  | crash i => exact hs
  | force => exact hs
  | start i => unfold step; dsimp only; split <;> exact hs
  | readMode i =>
    unfold step; dsimp only
    split
    · split <;> exact hs
    · exact hs
  | readLock i =>
    unfold step; dsimp only
    split
    · split <;> exact hs
    · exact hs
  | cas i =>
    unfold step; dsimp only
    split
    · split <;> exact hs
    · exact hs
  | store i => unfold step; dsimp only; split <;> exact hs
  | unlock i => unfold step; dsimp only; split <;> exact hs

/-- The reported epochs are 1, 2, 3, … in order, each reported once, also when
locks are broken and threads die; the epoch is the number of successes. -/
theorem epochs_in_order (pod : Bool) (h : List Ev) :
    (run (init pod) h).wins.map (·.2.1) = List.range' 1 (run (init pod) h).epoch :=
  run_keeps (fun s => s.wins.map (·.2.1) = List.range' 1 s.epoch) (fun _ => True) (fun s e _ => wins_step s e) h _
    (fun _ _ => trivial) rfl

/-- Threads that have written the backend and not yet the epoch are paid for by
writes. -/
def Paid (s : St) : Prop :=
  s.mode = (s.stores.getLast?).getD .unknown ∧
  ∃ l : List Nat, l.Nodup ∧ (∀ i, i ∈ l ↔ ∃ m, s.pc i = .stored m) ∧ s.epoch + l.length ≤ s.stores.length

theorem paid_move (s s' : St) (i : Nat) (p : Pc) (hs : Paid s) (hp : s'.pc = goTo s i p)
    (h1 : s'.mode = s.mode) (h2 : s'.stores = s.stores) (h3 : s'.epoch = s.epoch) (hn : ∀ m, p ≠ .stored m) : Paid s' := by
  obtain ⟨hm, l, hl, hi, hc⟩ := hs
  refine ⟨by rw [h1, h2]; exact hm, l.erase i, hl.erase i, fun j => ?_, ?_⟩
  · rw [hp]
    by_cases h : j = i
    · subst h
      rw [goTo_self]
      constructor
      · intro hj; exact absurd rfl ((List.Nodup.mem_erase_iff hl).1 hj).1
      · rintro ⟨m, rfl⟩; exact absurd rfl (hn m)
    · rw [goTo_ne _ _ _ _ h, List.mem_erase_of_ne h]; exact hi j
  · rw [h2, h3]
    have := List.length_erase_le (a := i) (l := l)
    omega

theorem paid_step (s : St) (e : Ev) (hs : Paid s) : Paid (step s e) := by
  cases e with
  | force => exact hs
  | topo p q => exact hs
  | crash i => exact paid_move s _ i .dead hs rfl rfl rfl rfl (by simp)
  | start i =>
    unfold step; dsimp only
    split
    · exact paid_move s _ i _ hs rfl rfl rfl rfl (by simp)
    · exact hs
  | readMode i =>
    unfold step; dsimp only
    split
    · split
      · exact paid_move s _ i _ hs rfl rfl rfl rfl (by simp)
      · exact paid_move s _ i _ hs rfl rfl rfl rfl (by simp)
    · exact hs
  | readLock i =>
    unfold step; dsimp only
    split
    · split
      · exact paid_move s _ i _ hs rfl rfl rfl rfl (by simp)
      · exact paid_move s _ i _ hs rfl rfl rfl rfl (by simp)
    · exact hs
  | cas i =>
    unfold step; dsimp only
    split
    · split
      · exact paid_move s _ i _ hs rfl rfl rfl rfl (by simp)
      · exact paid_move s _ i _ hs rfl rfl rfl rfl (by simp)
    · exact hs
  | unlock i =>
    unfold step; dsimp only
    split
    · exact paid_move s _ i _ hs rfl rfl rfl rfl (by simp)
    · exact hs
  | store i =>
    unfold step; dsimp only
    cases hp : s.pc i with
    | locked m =>
      obtain ⟨hm, l, hl, hi, hc⟩ := hs
      have hni : i ∉ l := fun h => by obtain ⟨m', h'⟩ := (hi i).1 h; rw [hp] at h'; exact absurd h' (by simp)
      refine ⟨by simp, i :: l, List.nodup_cons.2 ⟨hni, hl⟩, fun j => ?_, ?_⟩
      · show j ∈ i :: l ↔ ∃ m', goTo s i (.stored m) j = .stored m'
        by_cases h : j = i
        · subst h; rw [goTo_self]; exact ⟨fun _ => ⟨m, rfl⟩, fun _ => List.mem_cons_self⟩
        · rw [goTo_ne _ _ _ _ h, List.mem_cons]
          exact ⟨fun hj => (hi j).1 (hj.resolve_left h), fun hj => Or.inr ((hi j).2 hj)⟩
      · simp only [List.length_append, List.length_cons, List.length_nil]; omega
    | _ => exact hs
  | bump i =>
    unfold step; dsimp only
    cases hp : s.pc i with
    | stored m =>
      obtain ⟨hm, l, hl, hi, hc⟩ := hs
      have hin : i ∈ l := (hi i).2 ⟨m, hp⟩
      refine ⟨hm, l.erase i, hl.erase i, fun j => ?_, ?_⟩
      · show j ∈ l.erase i ↔ ∃ m', goTo s i (.bumped m) j = .stored m'
        by_cases h : j = i
        · subst h
          rw [goTo_self]
          constructor
          · intro hj; exact absurd rfl ((List.Nodup.mem_erase_iff hl).1 hj).1
          · rintro ⟨m', h'⟩; exact absurd h' (by simp)
        · rw [goTo_ne _ _ _ _ h, List.mem_erase_of_ne h]; exact hi j
      · have := List.length_erase_of_mem hin
        have hpos := List.length_pos_of_mem hin
        show s.epoch + 1 + (l.erase i).length ≤ s.stores.length
        omega
    | _ => exact hs

theorem paid_init (pod : Bool) : Paid (init pod) := ⟨rfl, [], List.nodup_nil, by simp [init], by simp [init]⟩

theorem epoch_mono (h : List Ev) (s : St) : s.epoch ≤ (run s h).epoch := by
  induction h generalizing s with
  | nil => exact Nat.le_refl _
  | cons e es ih =>
    refine Nat.le_trans ?_ (ih (step s e))
    cases e <;> unfold step <;> dsimp only <;> (repeat' split) <;> simp

/-- Who reads the epoch and then the backend sees the backend that the change
with that number wrote, or a later one: the backend read is the `k`-th written,
for a `k` no less than the epoch read. -/
theorem mode_follows_epoch (pod : Bool) (a b : List Ev) :
    ∃ k, (run (init pod) a).epoch ≤ k ∧
      (Backend.unknown :: (run (init pod) (a ++ b)).stores)[k]? = some (run (init pod) (a ++ b)).mode ∧
      k = (run (init pod) (a ++ b)).stores.length := by
  have hP : Paid (run (init pod) (a ++ b)) :=
    run_keeps Paid (fun _ => True) (fun s e _ => paid_step s e) _ _ (fun _ _ => trivial) (paid_init pod)
  have he : (run (init pod) a).epoch ≤ (run (init pod) (a ++ b)).epoch := by rw [run_append]; exact epoch_mono b _
  obtain ⟨hm, l, -, -, hc⟩ := hP
  refine ⟨_, by omega, ?_, rfl⟩
  rw [hm]
  generalize (run (init pod) (a ++ b)).stores = l'
  rcases List.eq_nil_or_concat l' with rfl | ⟨xs, x, rfl⟩
  · rfl
  · simp

/-! ### Undisturbed changes -/

/-- Nobody dies and nobody breaks the lock. -/
def Calm (e : Ev) : Prop := e ≠ .force ∧ ∀ i, e ≠ .crash i

/-- Every write is followed by its success before the next. -/
def Paired (s : St) : Prop :=
  Exclusive s ∧ (∀ i m, s.pc i = .stored m → s.stores = s.wins.map (·.2.2) ++ [m]) ∧
  ((∀ i m, s.pc i ≠ .stored m) → s.stores = s.wins.map (·.2.2))

theorem paired_move (s s' : St) (i : Nat) (p : Pc) (hs : Paired s) (hx : Exclusive s') (hp : s'.pc = goTo s i p)
    (h1 : s'.stores = s.stores) (h2 : s'.wins = s.wins) (hn : ∀ m, p ≠ .stored m) (ho : ∀ m, s.pc i ≠ .stored m) :
    Paired s' := by
  refine ⟨hx, fun j m hj => ?_, fun hno => ?_⟩
  · rw [h1, h2]
    rw [hp] at hj
    by_cases h : j = i
    · subst h; rw [goTo_self] at hj; exact absurd hj (hn m)
    · rw [goTo_ne _ _ _ _ h] at hj; exact hs.2.1 j m hj
  · rw [h1, h2]
    refine hs.2.2 fun j m hj => ?_
    by_cases h : j = i
    · subst h; exact ho m hj
    · exact hno j m (by rw [hp, goTo_ne _ _ _ _ h]; exact hj)

theorem paired_step (s : St) (e : Ev) (he : Calm e) (hs : Paired s) : Paired (step s e) := by
  have hx := exclusive_step s e he.1 hs.1
  revert hx
  cases e with
  | force => exact absurd rfl he.1
  | crash i => exact absurd rfl (he.2 i)
  | topo p q => exact fun hx => ⟨hx, hs.2⟩
  | start i =>
    unfold step; dsimp only
    cases hp : s.pc i with
    | idle => exact fun hx => paired_move s _ i _ hs hx rfl rfl rfl (by simp) (by simp [hp])
    | _ => exact fun _ => hs
  | readMode i =>
    unfold step; dsimp only
    cases hp : s.pc i with
    | wanted m =>
      dsimp only
      split
      · exact fun hx => paired_move s _ i _ hs hx rfl rfl rfl (by simp) (by simp [hp])
      · exact fun hx => paired_move s _ i _ hs hx rfl rfl rfl (by simp) (by simp [hp])
    | _ => exact fun _ => hs
  | readLock i =>
    unfold step; dsimp only
    cases hp : s.pc i with
    | differs m =>
      dsimp only
      split
      · exact fun hx => paired_move s _ i _ hs hx rfl rfl rfl (by simp) (by simp [hp])
      · exact fun hx => paired_move s _ i _ hs hx rfl rfl rfl (by simp) (by simp [hp])
    | _ => exact fun _ => hs
  | cas i =>
    unfold step; dsimp only
    cases hp : s.pc i with
    | free m =>
      dsimp only
      split
      · exact fun hx => paired_move s _ i _ hs hx rfl rfl rfl (by simp) (by simp [hp])
      · exact fun hx => paired_move s _ i _ hs hx rfl rfl rfl (by simp) (by simp [hp])
    | _ => exact fun _ => hs
  | unlock i =>
    unfold step; dsimp only
    cases hp : s.pc i with
    | bumped m => exact fun hx => paired_move s _ i _ hs hx rfl rfl rfl (by simp) (by simp [hp])
    | _ => exact fun _ => hs
  | store i =>
    unfold step; dsimp only
    cases hp : s.pc i with
    | locked m =>
      intro hx
      have hci : Crit (s.pc i) := by rw [hp]; trivial
      have hno : ∀ j m', s.pc j ≠ .stored m' := by
        intro j m' hj
        have : j = i := hs.1.1 j i (by rw [hj]; trivial) hci
        subst this
        rw [hp] at hj; exact absurd hj (by simp)
      refine ⟨hx, fun j m' hj => ?_, fun hn => ?_⟩
      · have hj' : goTo s i (.stored m) j = .stored m' := hj
        by_cases h : j = i
        · subst h
          rw [goTo_self] at hj'
          have : m = m' := by simpa using hj'
          subst this
          show s.stores ++ [m] = s.wins.map (·.2.2) ++ [m]
          rw [hs.2.2 hno]
        · rw [goTo_ne _ _ _ _ h] at hj'; exact absurd hj' (hno j m')
      · exact absurd (goTo_self s i (.stored m)) (hn i m)
    | _ => exact fun _ => hs
  | bump i =>
    unfold step; dsimp only
    cases hp : s.pc i with
    | stored m =>
      intro hx
      have hci : Crit (s.pc i) := by rw [hp]; trivial
      refine ⟨hx, fun j m' hj => ?_, fun _ => ?_⟩
      · have hj' : goTo s i (.bumped m) j = .stored m' := hj
        by_cases h : j = i
        · subst h; rw [goTo_self] at hj'; exact absurd hj' (by simp)
        · rw [goTo_ne _ _ _ _ h] at hj'
          exact absurd (hs.1.1 j i (by rw [hj']; trivial) hci) h
      · show s.stores = (s.wins ++ [(i, s.epoch + 1, m)]).map (·.2.2)
        rw [hs.2.1 i m hp]
        simp
    | _ => exact fun _ => hs

/-- Undisturbed, the backends written are those reported, in the same order,
with at most one write whose success is still to come. -/
theorem calm_writes (pod : Bool) (h : List Ev) (hc : ∀ e ∈ h, Calm e) :
    (run (init pod) h).stores = (run (init pod) h).wins.map (·.2.2) ∨
    ∃ m, (run (init pod) h).stores = (run (init pod) h).wins.map (·.2.2) ++ [m] := by
  have hP : Paired (run (init pod) h) :=
    run_keeps Paired Calm paired_step h _ hc ⟨(writes_init pod).1, by simp [init], by simp [init]⟩
  by_cases hn : ∀ i m, (run (init pod) h).pc i ≠ .stored m
  · exact Or.inl (hP.2.2 hn)
  · push Not at hn
    obtain ⟨i, m, hi⟩ := hn
    exact Or.inr ⟨m, hP.2.1 i m hi⟩

/-- When an undisturbed topic is at rest, the backend in force is the one of the
last reported success. -/
theorem calm_rest (pod : Bool) (h : List Ev) (hc : ∀ e ∈ h, Calm e) (i k : Nat) (m : Backend)
    (hr : ∀ j, (run (init pod) h).pc j = .idle) (hw : (run (init pod) h).wins.getLast? = some (i, k, m)) :
    (run (init pod) h).mode = m ∧ (run (init pod) h).epoch = k := by
  have hP : Paired (run (init pod) h) :=
    run_keeps Paired Calm paired_step h _ hc ⟨(writes_init pod).1, by simp [init], by simp [init]⟩
  have hQ : Paid (run (init pod) h) :=
    run_keeps Paid (fun _ => True) (fun s e _ => paid_step s e) _ _ (fun _ _ => trivial) (paid_init pod)
  have hE := epochs_in_order pod h
  have hs := hP.2.2 fun j m' hj => by rw [hr j] at hj; exact absurd hj (by simp)
  constructor
  · rw [hQ.1, hs, List.getLast?_map, hw]; rfl
  · have h1 : ((run (init pod) h).wins.map (·.2.1)).getLast? = some k := by rw [List.getLast?_map, hw]; rfl
    rw [hE] at h1
    generalize (run (init pod) h).epoch = n at h1
    cases n with
    | zero => exact absurd h1 (by simp)
    | succ n => rw [List.range'_concat] at h1; simp at h1; omega

/-! ### Getting to the right backend, and staying there -/

def Target : Pc → Option Backend
  | .wanted m => some m
  | .differs m => some m
  | .free m => some m
  | .locked m => some m
  | .stored m => some m
  | .bumped m => some m
  | _ => none

def Aimed (b : Backend) (s : St) : Prop := best s = b ∧ ∀ i m, Target (s.pc i) = some m → m = b

theorem aimed_move (b : Backend) (s s' : St) (i : Nat) (p : Pc) (hs : Aimed b s) (hb : best s' = best s)
    (hp : s'.pc = goTo s i p) (ht : ∀ m, Target p = some m → m = b) : Aimed b s' := by
  refine ⟨hb.trans hs.1, fun j m hj => ?_⟩
  rw [hp] at hj
  by_cases h : j = i
  · subst h; rw [goTo_self] at hj; exact ht m hj
  · rw [goTo_ne _ _ _ _ h] at hj; exact hs.2 j m hj

/-- What a step does while everyone aims at `b`. -/
theorem aimed_step (b : Backend) (s : St) (e : Ev) (he : ∀ p q, e ≠ .topo p q) (hs : Aimed b s) :
    Aimed b (step s e) ∧ ((step s e).mode = s.mode ∨ (step s e).mode = b) := by
  have hk : ∀ i m, Target (s.pc i) = some m → ∀ m', some m = some m' → m' = b := by
    intro i m h m' h'; cases h'; exact hs.2 i m h
  cases e with
  | force => exact ⟨hs, Or.inl rfl⟩
  | topo p q => exact absurd rfl (he p q)
  | crash i => exact ⟨aimed_move b s _ i .dead hs rfl rfl (by simp [Target]), Or.inl rfl⟩
  | start i =>
    unfold step; dsimp only
    cases hp : s.pc i with
    | idle => exact ⟨aimed_move b s _ i _ hs rfl rfl (by rw [hs.1]; simp [Target]), Or.inl rfl⟩
    | _ => exact ⟨hs, Or.inl rfl⟩
  | readMode i =>
    unfold step; dsimp only
    cases hp : s.pc i with
    | wanted m =>
      dsimp only
      split
      · exact ⟨aimed_move b s _ i _ hs rfl rfl (by simp [Target]), Or.inl rfl⟩
      · exact ⟨aimed_move b s _ i _ hs rfl rfl (hk i m (by rw [hp]; rfl)), Or.inl rfl⟩
    | _ => exact ⟨hs, Or.inl rfl⟩
  | readLock i =>
    unfold step; dsimp only
    cases hp : s.pc i with
    | differs m =>
      dsimp only
      split
      · exact ⟨aimed_move b s _ i _ hs rfl rfl (by simp [Target]), Or.inl rfl⟩
      · exact ⟨aimed_move b s _ i _ hs rfl rfl (hk i m (by rw [hp]; rfl)), Or.inl rfl⟩
    | _ => exact ⟨hs, Or.inl rfl⟩
  | cas i =>
    unfold step; dsimp only
    cases hp : s.pc i with
    | free m =>
      dsimp only
      split
      · exact ⟨aimed_move b s _ i _ hs rfl rfl (by simp [Target]), Or.inl rfl⟩
      · exact ⟨aimed_move b s _ i _ hs rfl rfl (hk i m (by rw [hp]; rfl)), Or.inl rfl⟩
    | _ => exact ⟨hs, Or.inl rfl⟩
  | store i =>
    unfold step; dsimp only
    cases hp : s.pc i with
    | locked m => exact ⟨aimed_move b s _ i _ hs rfl rfl (hk i m (by rw [hp]; rfl)), Or.inr (hs.2 i m (by rw [hp]; rfl))⟩
    | _ => exact ⟨hs, Or.inl rfl⟩
  | bump i =>
    unfold step; dsimp only
    cases hp : s.pc i with
    | stored m => exact ⟨aimed_move b s _ i _ hs rfl rfl (hk i m (by rw [hp]; rfl)), Or.inl rfl⟩
    | _ => exact ⟨hs, Or.inl rfl⟩
  | unlock i =>
    unfold step; dsimp only
    cases hp : s.pc i with
    | bumped m => exact ⟨aimed_move b s _ i _ hs rfl rfl (by simp [Target]), Or.inl rfl⟩
    | _ => exact ⟨hs, Or.inl rfl⟩

/-- Nobody is under way. -/
def Rest (s : St) : Prop := ∀ i, s.pc i = .idle ∨ s.pc i = .dead

theorem rest_aimed (s : St) (h : Rest s) : Aimed (best s) s :=
  ⟨rfl, fun i m hm => by rcases h i with h | h <;> rw [h] at hm <;> exact absurd hm (by simp [Target])⟩

theorem same_topo_mode (b : Backend) (h : List Ev) : ∀ s : St, (∀ p q, Ev.topo p q ∉ h) → Aimed b s →
    Aimed b (run s h) ∧ ((run s h).mode = s.mode ∨ (run s h).mode = b) := by
  induction h with
  | nil => intro s _ hs; exact ⟨hs, Or.inl rfl⟩
  | cons e es ih =>
    intro s ht hs
    have h1 := aimed_step b s e (fun p q he => ht p q (he ▸ List.mem_cons_self)) hs
    have h2 := ih (step s e) (fun p q hm => ht p q (List.mem_cons_of_mem _ hm)) h1.1
    refine ⟨h2.1, ?_⟩
    rcases h2.2 with h | h
    · rcases h1.2 with h' | h'
      · exact Or.inl (h.trans h')
      · exact Or.inr (h.trans h')
    · exact Or.inr h

/-- From rest, while participants stay, the topic goes nowhere but to the
backend they call for, however many threads try, die or break locks. -/
theorem only_to_best (s : St) (h : List Ev) (hr : Rest s) (ht : ∀ p q, Ev.topo p q ∉ h) :
    (run s h).mode = s.mode ∨ (run s h).mode = best s :=
  (same_topo_mode (best s) h s ht (rest_aimed s hr)).2

/-- Once a topic at rest has the backend its participants call for, it stays
there and its epoch stands still for as long as participants stay. -/
theorem best_stays (s : St) (h : List Ev) (hr : Rest s) (hb : s.mode = best s) (ht : ∀ p q, Ev.topo p q ∉ h) :
    (run s h).mode = s.mode ∧ (run s h).epoch = s.epoch := by
  have key : ∀ (h : List Ev) (s' : St), (∀ p q, Ev.topo p q ∉ h) →
      (best s' = s'.mode ∧ ∀ i, s'.pc i = .idle ∨ s'.pc i = .dead ∨ s'.pc i = .wanted s'.mode) →
      (run s' h).mode = s'.mode ∧ (run s' h).epoch = s'.epoch := by
    intro h
    induction h with
    | nil => intro s' _ _; exact ⟨rfl, rfl⟩
    | cons e es ih =>
      intro s' ht' hs'
      have hstep : (step s' e).mode = s'.mode ∧ (step s' e).epoch = s'.epoch ∧ best (step s' e) = (step s' e).mode ∧
          ∀ i, (step s' e).pc i = .idle ∨ (step s' e).pc i = .dead ∨ (step s' e).pc i = .wanted (step s' e).mode := by
        have hm : ∀ i p, (p = .idle ∨ p = .dead ∨ p = .wanted s'.mode) →
            ∀ j, goTo s' i p j = .idle ∨ goTo s' i p j = .dead ∨ goTo s' i p j = .wanted s'.mode := by
          intro i p hp j
          by_cases h : j = i
          · subst h; rw [goTo_self]; exact hp
          · rw [goTo_ne _ _ _ _ h]; exact hs'.2 j
        cases e with
        | topo p q => exact absurd List.mem_cons_self (ht' p q)
        | force => exact ⟨rfl, rfl, hs'.1, hs'.2⟩
        | crash i => exact ⟨rfl, rfl, hs'.1, hm i .dead (by simp)⟩
        | start i =>
          unfold step; dsimp only
          split
          · exact ⟨rfl, rfl, hs'.1, hm i _ (by rw [hs'.1]; simp)⟩
          · exact ⟨rfl, rfl, hs'.1, hs'.2⟩
        | readMode i =>
          unfold step; dsimp only
          split
          · rename_i m hp
            have : s'.mode = m := by
              rcases hs'.2 i with h | h | h <;> rw [hp] at h
              · exact absurd h (by simp)
              · exact absurd h (by simp)
              · simpa using h.symm
            rw [if_pos this]
            exact ⟨rfl, rfl, hs'.1, hm i .idle (by simp)⟩
          · exact ⟨rfl, rfl, hs'.1, hs'.2⟩
        | _ =>
          rename_i i
          unfold step; dsimp only
          split
          · rename_i m hp
            rcases hs'.2 i with h | h | h <;> rw [hp] at h <;> exact absurd h (by simp)
          · exact ⟨rfl, rfl, hs'.1, hs'.2⟩
      have := ih (step s' e) (fun p q hm => ht' p q (List.mem_cons_of_mem _ hm)) ⟨hstep.2.2.1, hstep.2.2.2⟩
      exact ⟨this.1.trans hstep.1, this.2.trans hstep.2.1⟩
  refine key h s ht ⟨hb.symm, fun i => ?_⟩
  rcases hr i with h | h
  · exact Or.inl h
  · exact Or.inr (Or.inl h)

/-- The operations of one thread. -/
def attempt (i : Nat) : List Ev := [.start i, .readMode i, .readLock i, .cas i, .store i, .bump i, .unlock i]

/-- A thread left alone with a free lock brings the topic to the backend its
participants call for, with one new epoch if it was not there already. -/
theorem alone_succeeds (s : St) (i : Nat) (hi : s.pc i = .idle) (hl : s.lock = false) :
    (run s (attempt i)).mode = best s ∧ (run s (attempt i)).lock = false ∧ (run s (attempt i)).pc i = .idle ∧
    (run s (attempt i)).epoch = if s.mode = best s then s.epoch else s.epoch + 1 := by
  by_cases hm : s.mode = best s
  · simp [run, attempt, step, hi, hl, hm, goTo]
  · simp [run, attempt, step, hi, hl, hm, goTo]

/-- A thread that dies holding the lock stops every change until a waiter breaks
the lock. -/
theorem dead_holder_blocks (s : St) (h : List Ev) (hl : s.lock = true) (hn : ∀ i, ¬Crit (s.pc i))
    (hf : Ev.force ∉ h) : (run s h).mode = s.mode ∧ (run s h).epoch = s.epoch := by
  have key : ∀ (h : List Ev) (s' : St), Ev.force ∉ h → (s'.lock = true ∧ ∀ i, ¬Crit (s'.pc i)) →
      (run s' h).mode = s'.mode ∧ (run s' h).epoch = s'.epoch := by
    intro h
    induction h with
    | nil => intro s' _ _; exact ⟨rfl, rfl⟩
    | cons e es ih =>
      intro s' hf' hs'
      have hstep : (step s' e).mode = s'.mode ∧ (step s' e).epoch = s'.epoch ∧ (step s' e).lock = true ∧
          ∀ i, ¬Crit ((step s' e).pc i) := by
        have hm : ∀ i p, ¬Crit p → ∀ j, ¬Crit (goTo s' i p j) := by
          intro i p hp j
          by_cases h : j = i
          · subst h; rw [goTo_self]; exact hp
          · rw [goTo_ne _ _ _ _ h]; exact hs'.2 j
        cases e with
        | topo p q => exact ⟨rfl, rfl, hs'⟩
        | force => exact absurd List.mem_cons_self hf'
        | crash i => exact ⟨rfl, rfl, hs'.1, hm i .dead id⟩
        | start i =>
          unfold step; dsimp only
          split
          · exact ⟨rfl, rfl, hs'.1, hm i _ id⟩
          · exact ⟨rfl, rfl, hs'⟩
        | readMode i =>
          unfold step; dsimp only
          split
          · split
            · exact ⟨rfl, rfl, hs'.1, hm i _ id⟩
            · exact ⟨rfl, rfl, hs'.1, hm i _ id⟩
          · exact ⟨rfl, rfl, hs'⟩
        | readLock i =>
          unfold step; dsimp only
          split
          · rw [if_pos hs'.1]; exact ⟨rfl, rfl, hs'.1, hm i _ id⟩
          · exact ⟨rfl, rfl, hs'⟩
        | cas i =>
          unfold step; dsimp only
          split
          · rw [if_pos hs'.1]; exact ⟨rfl, rfl, hs'.1, hm i _ id⟩
          · exact ⟨rfl, rfl, hs'⟩
        | _ =>
          rename_i i
          unfold step; dsimp only
          split
          · rename_i m hp
            exact absurd (by rw [hp]; trivial) (hs'.2 i)
          · exact ⟨rfl, rfl, hs'⟩
      have := ih (step s' e) (fun hm => hf' (List.mem_cons_of_mem _ hm)) hstep.2.2
      exact ⟨this.1.trans hstep.1, this.2.trans hstep.2.1⟩
  exact key h s hf ⟨hl, hn⟩

/-! ### Findings -/

/-- **Finding.**  A thread that made up its mind before others joined undoes
their change: with one publisher and two receivers of a plain type, everybody
has reported success, nobody died and no lock was broken, and the topic is left
on the ring for one receiver. -/
theorem stale_target_wins : ∃ h : List Ev, (∀ e ∈ h, e ≠ .force ∧ ∀ i, e ≠ .crash i) ∧
    (∀ i, (run (init true) h).pc i = .idle) ∧ best (run (init true) h) = .podShm ∧
    (run (init true) h).mode = .spscShm ∧ (run (init true) h).wins = [(1, 1, .podShm), (0, 2, .spscShm)] := by
  refine ⟨[.topo 1 1, .start 0, .readMode 0, .readLock 0, .topo 1 2] ++ attempt 1 ++ [.cas 0, .store 0, .bump 0, .unlock 0], ?_, ?_, ?_, ?_, ?_⟩
  · intro e he
    simp only [attempt, List.cons_append, List.nil_append, List.mem_cons, List.not_mem_nil, or_false] at he
    rcases he with rfl | rfl | rfl | rfl | rfl | rfl | rfl | rfl | rfl | rfl | rfl | rfl | rfl | rfl | rfl | rfl <;> simp
  · intro i
    by_cases h0 : i = 0
    · subst h0; decide +kernel
    · by_cases h1 : i = 1
      · subst h1; decide +kernel
      · simp [run, attempt, step, init, goTo, h0, h1, best, detect]
  · decide +kernel
  · decide +kernel
  · decide +kernel

/-- **Finding.**  A thread that dies between writing the backend and the epoch
leaves the backend changed under an unchanged epoch; when the lock has been
broken the topic is in order for everybody who tries, so the epoch never moves
again for as long as participants stay. -/
theorem death_between : ∃ a : List Ev, (run (init true) a).mode ≠ (init true).mode ∧
    (run (init true) a).epoch = (init true).epoch ∧ (run (init true) a).lock = false ∧
    ∀ b : List Ev, (∀ p q, Ev.topo p q ∉ b) →
      (run (init true) (a ++ b)).mode = .spscShm ∧ (run (init true) (a ++ b)).epoch = 0 := by
  refine ⟨[.topo 1 1, .start 0, .readMode 0, .readLock 0, .cas 0, .store 0, .crash 0, .force], by decide +kernel, by decide +kernel, by decide +kernel, ?_⟩
  intro b hb
  rw [run_append]
  have h := best_stays (run (init true) [.topo 1 1, .start 0, .readMode 0, .readLock 0, .cas 0, .store 0, .crash 0, .force]) b ?_ (by decide +kernel) hb
  · rw [h.1, h.2]; decide +kernel
  · intro i
    by_cases h0 : i = 0
    · subst h0; right; decide +kernel
    · left; simp [run, step, init, goTo, h0, best, detect]

/-- **Finding.**  Breaking the lock of a live thread (a waiter does so after five
milliseconds, while the holder may drain for twenty-five) lets two threads write
at once; one reports success for a backend that is not in force. -/
theorem broken_lock_overlaps : ∃ h : List Ev, Ev.force ∈ h ∧ (∀ i, Ev.crash i ∉ h) ∧
    Crit ((run (init true) h).pc 0) ∧ Crit ((run (init true) h).pc 1) ∧
    (run (init true) (h ++ [.bump 0])).wins = [(0, 1, .spscShm)] ∧ (run (init true) (h ++ [.bump 0])).mode = .mpscShm := by
  refine ⟨[.topo 1 1, .start 0, .readMode 0, .readLock 0, .cas 0, .store 0, .force, .topo 2 1, .start 1, .readMode 1, .readLock 1, .cas 1, .store 1], by decide +kernel, ?_, ?_, ?_, by decide +kernel, by decide +kernel⟩
  · intro i; simp
  · have : (run (init true) [.topo 1 1, .start 0, .readMode 0, .readLock 0, .cas 0, .store 0, .force, .topo 2 1, .start 1, .readMode 1, .readLock 1, .cas 1, .store 1]).pc 0 = .stored .spscShm := by decide +kernel
    rw [this]; trivial
  · have : (run (init true) [.topo 1 1, .start 0, .readMode 0, .readLock 0, .cas 0, .store 0, .force, .topo 2 1, .start 1, .readMode 1, .readLock 1, .cas 1, .store 1]).pc 1 = .stored .mpscShm := by decide +kernel
    rw [this]; trivial

/-! ### Cases -/

example : (run (init true) ([.topo 1 1] ++ attempt 0 ++ [.topo 2 1] ++ attempt 1)).wins = [(0, 1, .spscShm), (1, 2, .mpscShm)] := by decide +kernel
example : Rest (init true) := fun _ => Or.inl rfl
example : Crit ((run (init true) [.topo 1 1, .start 0, .readMode 0, .readLock 0, .cas 0]).pc 0) := by
  have : (run (init true) [.topo 1 1, .start 0, .readMode 0, .readLock 0, .cas 0]).pc 0 = .locked .spscShm := by decide +kernel
  rw [this]; trivial

end Horus.Switch
