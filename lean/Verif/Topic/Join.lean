/-
Threads of several processes joining a topic at the same time: the claim of a
slot in the participant table, step by step.  (`Verif/Topic/Model.lean` has the
same function with each call taken as atomic.)

Modelled source: horus_core/src/communication/topic/header.rs (48-80 entries
and leases, 489-587 `register_role`).  Each step is one atomic operation, except
that the loads of `active`, `pid` and `thread_id_hash` (508-511), the stores of
the fields of a claimed slot (554-557) and the decrements for its former owner
(543-551) are one step each.  Counters do not wrap.
-/
import Mathlib.Tactic.Common
import Mathlib.Data.List.Basic
import Mathlib.Data.List.Nodup
import Mathlib.Data.List.Induction

namespace Horus.Join

/-- `lease_timeout_ms`. Models horus_core/src/communication/topic/header.rs:31. -/
def timeout : Nat := 5000

/-- An entry.  `who` is the thread (process and thread hash), `none` before the
first owner; `active` is 0 (free), 1 (taken) or 2 (being filled in).

Models horus_core/src/communication/topic/header.rs:48-68. -/
structure Slot where
  who : Option Nat := none
  pub : Bool := false
  sub : Bool := false
  active : Nat := 0
  lease : Nat := 0
deriving DecidableEq, Repr

/-- A role: `true` publishes. -/
abbrev Role := Bool

def Slot.bit (x : Slot) (r : Role) : Bool := if r then x.pub else x.sub
def Slot.setBit (x : Slot) (r : Role) : Slot := if r then { x with pub := true } else { x with sub := true }

/-- `is_lease_expired`. Models horus_core/src/communication/topic/header.rs:74-80. -/
def Slot.expired (x : Slot) (t : Nat) : Bool := x.lease == 0 || decide (t > x.lease)

/-- Where a thread is in `register_role`; `t` is the time it read at the start.

Models horus_core/src/communication/topic/header.rs:499-587: `look` the first
loop, `own` its `fetch_or`, `ownAdd` and `ownLease` what follows; `find` the
second loop's load of `active`, `lease` its look at the lease, `cas` the claim,
`drop`, `write`, `add` and `fin` the filling in. -/
inductive Pc
  | idle
  | look (r : Role) (t i : Nat)
  | own (r : Role) (t i : Nat)
  | ownAdd (r : Role) (t i : Nat)
  | ownLease (r : Role) (t i : Nat)
  | find (r : Role) (t i : Nat)
  | lease (r : Role) (t i : Nat)
  | cas (r : Role) (t i a : Nat)
  | drop (r : Role) (t i : Nat)
  | write (r : Role) (t i : Nat)
  | add (r : Role) (t i : Nat)
  | fin (r : Role) (i : Nat)
  | done (r : Role) (res : Option Nat)
  | dead
deriving DecidableEq, Repr

structure St where
  slot : Nat → Slot := fun _ => {}
  cnt : Role → Nat := fun _ => 0
  now : Nat := 0
  pc : Nat → Pc := fun _ => .idle

def goTo (s : St) (w : Nat) (p : Pc) : Nat → Pc := fun x => if x = w then p else s.pc x
def put (s : St) (i : Nat) (x : Slot) : Nat → Slot := fun j => if j = i then x else s.slot j
def addTo (s : St) (r : Role) : Role → Nat := fun q => if q = r then s.cnt q + 1 else s.cnt q
def less (s : St) (x : Slot) : Role → Nat := fun q => if x.bit q then s.cnt q - 1 else s.cnt q

/-- The next operation of thread `w` in a table of `n` slots.

Models horus_core/src/communication/topic/header.rs:499-587. -/
def act (n : Nat) (s : St) (w : Nat) : St :=
  match s.pc w with
  | .look r t i =>
    if i < n then
      if (s.slot i).active ≠ 0 ∧ (s.slot i).who = some w then { s with pc := goTo s w (.own r t i) }
      else { s with pc := goTo s w (.look r t (i + 1)) }
    else { s with pc := goTo s w (.find r t 0) }
  | .own r t i => { s with slot := put s i ((s.slot i).setBit r), pc := goTo s w (if (s.slot i).bit r then .ownLease r t i else .ownAdd r t i) }
  | .ownAdd r t i => { s with cnt := addTo s r, pc := goTo s w (.ownLease r t i) }
  | .ownLease r t i => { s with slot := put s i { s.slot i with lease := t + timeout }, pc := goTo s w (.done r (some i)) }
  | .find r t i =>
    if i < n then
      if (s.slot i).active = 2 then { s with pc := goTo s w (.find r t (i + 1)) }
      else if (s.slot i).active = 0 then { s with pc := goTo s w (.cas r t i 0) }
      else { s with pc := goTo s w (.lease r t i) }
    else { s with pc := goTo s w (.done r none) }
  | .lease r t i =>
    if (s.slot i).expired t then { s with pc := goTo s w (.cas r t i 1) }
    else { s with pc := goTo s w (.find r t (i + 1)) }
  | .cas r t i a =>
    if (s.slot i).active = a then { s with slot := put s i { s.slot i with active := 2 }, pc := goTo s w (if a = 0 then .write r t i else .drop r t i) }
    else { s with pc := goTo s w (.find r t (i + 1)) }
  | .drop r t i => { s with cnt := less s (s.slot i), pc := goTo s w (.write r t i) }
  | .write r t i => { s with slot := put s i { s.slot i with who := some w, pub := r, sub := !r, lease := t + timeout }, pc := goTo s w (.add r t i) }
  | .add r _ i => { s with cnt := addTo s r, pc := goTo s w (.fin r i) }
  | .fin r i => { s with slot := put s i { s.slot i with active := 1 }, pc := goTo s w (.done r (some i)) }
  | _ => s

/-- What happens: a thread begins to register, takes a step or dies; a handle
refreshes the lease of the slot it remembers; time passes. -/
inductive Ev
  | begin (w : Nat) (r : Role)
  | act (w : Nat)
  | crash (w : Nat)
  | refresh (i : Nat)
  | tick (d : Nat)
deriving DecidableEq, Repr

def begins : Pc → Bool
  | .idle => true
  | .done _ _ => true
  | _ => false

/-- One event.

Models horus_core/src/communication/topic/header.rs:500-503 (`begin`), 83-87
(`refresh`). -/
def step (n : Nat) (s : St) : Ev → St
  | .begin w r => if begins (s.pc w) then { s with pc := goTo s w (.look r s.now 0) } else s
  | .act w => act n s w
  | .crash w => { s with pc := goTo s w .dead }
  | .refresh i => { s with slot := put s i { s.slot i with lease := s.now + timeout } }
  | .tick d => { s with now := s.now + d }

def run (n : Nat) (s : St) (h : List Ev) : St := h.foldl (step n) s

theorem goTo_self (s : St) (w : Nat) (p : Pc) : goTo s w p w = p := by simp [goTo]
theorem goTo_ne (s : St) (w v : Nat) (p : Pc) (h : v ≠ w) : goTo s w p v = s.pc v := by simp [goTo, h]
theorem put_self (s : St) (i : Nat) (x : Slot) : put s i x i = x := by simp [put]
theorem put_ne (s : St) (i j : Nat) (x : Slot) (h : j ≠ i) : put s i x j = s.slot j := by simp [put, h]

/-! ### Every registration ends -/

/-- Steps still to take. -/
def left (n : Nat) : Pc → Nat
  | .look _ _ i => (n - i) + 3 * n + 8
  | .own _ _ _ => 3
  | .ownAdd _ _ _ => 2
  | .ownLease _ _ _ => 1
  | .find _ _ i => 3 * (n - i) + 6
  | .lease _ _ i => 3 * (n - i) + 5
  | .cas _ _ i _ => 3 * (n - i) + 4
  | .drop _ _ _ => 4
  | .write _ _ _ => 3
  | .add _ _ _ => 2
  | .fin _ _ => 1
  | _ => 0

/-- Loop indices stay in the table. -/
def InTable (n : Nat) : Pc → Prop
  | .lease _ _ i => i < n
  | .cas _ _ i _ => i < n
  | _ => True

theorem act_pc (n : Nat) (s : St) (w v : Nat) (h : v ≠ w) : (act n s w).pc v = s.pc v := by
  unfold act
  split
  all_goals try exact goTo_ne _ _ _ _ h
  all_goals try rfl
  all_goals (split <;> try (exact goTo_ne _ _ _ _ h))
  all_goals (split <;> try (exact goTo_ne _ _ _ _ h))
  all_goals (split <;> exact goTo_ne _ _ _ _ h)

theorem act_left (n : Nat) (s : St) (w : Nat) (hin : InTable n (s.pc w)) (h : left n (s.pc w) ≠ 0) :
    left n ((act n s w).pc w) < left n (s.pc w) ∧ InTable n ((act n s w).pc w) := by
  unfold act
  cases hp : s.pc w with
  | idle => rw [hp] at h; exact absurd rfl h
  | dead => rw [hp] at h; exact absurd rfl h
  | done r x => rw [hp] at h; exact absurd rfl h
  | look r t i =>
    dsimp only
    split
    · split
      · simp only [goTo_self, left, InTable, and_true]; omega
      · simp only [goTo_self, left, InTable, and_true]; omega
    · simp only [goTo_self, left, InTable, and_true]; omega
  | own r t i => dsimp only; rw [goTo_self]; split <;> simp only [left, InTable, and_true] <;> omega
  | find r t i =>
    dsimp only
    split
    · split
      · simp only [goTo_self, left, InTable, and_true]; omega
      · split
        · simp only [goTo_self, left, InTable, and_true]; omega
        · simp only [goTo_self, left, InTable, and_true]; omega
    · simp only [goTo_self, left, InTable, and_true]; omega
  | lease r t i =>
    rw [hp] at hin
    have hi : i < n := hin
    dsimp only
    split
    · simp only [goTo_self, left, InTable, and_true]; omega
    · simp only [goTo_self, left, InTable, and_true]; omega
  | cas r t i a =>
    rw [hp] at hin
    have hi : i < n := hin
    dsimp only
    split
    · dsimp only; rw [goTo_self]; split <;> simp only [left, InTable, and_true] <;> omega
    · simp only [goTo_self, left, InTable, and_true]; omega
  | _ => simp only [goTo_self, left, InTable, and_true]; omega

/-- A registration ends after at most `4 n + 8` operations of its own thread
(72 for the 16 slots of a topic), whatever the other threads do in between, die
or not. -/
theorem wait_free (n : Nat) (w : Nat) (h : List Ev) : ∀ s : St, InTable n (s.pc w) → (∀ r, Ev.begin w r ∉ h) →
    Ev.crash w ∉ h → left n (s.pc w) ≤ h.count (.act w) → left n ((run n s h).pc w) = 0 := by
  induction h with
  | nil => intro s _ _ _ hl; exact Nat.le_zero.1 hl
  | cons e es ih =>
    intro s hin hb hc hl
    have hb' : ∀ r, Ev.begin w r ∉ es := fun r hm => hb r (List.mem_cons_of_mem _ hm)
    have hc' : Ev.crash w ∉ es := fun hm => hc (List.mem_cons_of_mem _ hm)
    by_cases he : e = .act w
    · subst he
      rw [List.count_cons_self] at hl
      show left n ((run n (act n s w) es).pc w) = 0
      by_cases h0 : left n (s.pc w) = 0
      · have : act n s w = s := by
          unfold act
          cases hp : s.pc w with
          | idle => rfl
          | dead => rfl
          | done r x => rfl
          | _ => rw [hp] at h0; simp [left] at h0
        rw [this]
        exact ih s hin hb' hc' (by omega)
      · have := act_left n s w hin h0
        exact ih _ this.2 hb' hc' (by omega)
    · rw [List.count_cons_of_ne he] at hl
      have hp : (step n s e).pc w = s.pc w := by
        cases e with
        | begin v r =>
          unfold step; dsimp only
          split
          · have hvw : w ≠ v := fun h => hb r (h ▸ List.mem_cons_self)
            exact goTo_ne _ _ _ _ hvw
          · rfl
        | act v => exact act_pc n s v w (fun h => he (h ▸ rfl))
        | crash v => exact goTo_ne _ _ _ _ (fun h => hc (h ▸ List.mem_cons_self))
        | refresh i => rfl
        | tick d => rfl
      exact ih (step n s e) (by rw [hp]; exact hin) hb' hc' (by rw [hp]; exact hl)

/-! ### Nobody dies and no lease runs out -/

/-- Threads that have claimed a slot and not finished. -/
def claims : Pc → Option Nat
  | .write _ _ i => some i
  | .add _ _ i => some i
  | .fin _ i => some i
  | _ => none

/-- Threads at work on the slot they already own. -/
def owns : Pc → Option Nat
  | .own _ _ i => some i
  | .ownAdd _ _ i => some i
  | .ownLease _ _ i => some i
  | .done _ (some i) => some i
  | _ => none

/-- What a thread has found out so far: `k` slots do not hold it. -/
def looked (n : Nat) : Pc → Option Nat
  | .look _ _ i => some (min i n)
  | .find _ _ _ => some n
  | .lease _ _ _ => some n
  | .cas _ _ _ _ => some n
  | .write _ _ _ => some n
  | .done _ none => some n
  | _ => none

/-- `k` slots were seen taken. -/
def seen (n : Nat) : Pc → Option Nat
  | .find _ _ i => some (min i n)
  | .lease _ _ i => some i
  | .cas _ _ i _ => some i
  | .done _ none => some n
  | _ => none

/-- The increment still to come, by role. -/
def owes (r : Role) : Pc → Bool
  | .ownAdd q _ _ => q == r
  | .add q _ _ => q == r
  | _ => false

/-- The role whose bit the thread has set. -/
def holds : Pc → Option (Role × Nat)
  | .ownAdd r _ i => some (r, i)
  | .ownLease r _ i => some (r, i)
  | .add r _ i => some (r, i)
  | .fin r i => some (r, i)
  | .done r (some i) => some (r, i)
  | _ => none

def time : Pc → Option Nat
  | .look _ t _ => some t
  | .own _ t _ => some t
  | .ownAdd _ t _ => some t
  | .ownLease _ t _ => some t
  | .find _ t _ => some t
  | .lease _ t _ => some t
  | .cas _ t _ _ => some t
  | .write _ t _ => some t
  | _ => none

/-- Steps only a lease that ran out leads to. -/
def late : Pc → Prop
  | .cas _ _ _ a => a ≠ 0
  | .drop _ _ _ => True
  | _ => False

def bits (n : Nat) (f : Nat → Slot) (r : Role) : Nat := (List.range n).countP fun i => (f i).bit r

structure Inv (n : Nat) (s : St) : Prop where
  claim : ∀ w i, claims (s.pc w) = some i → i < n ∧ (s.slot i).active = 2
  alone : ∀ w v i, claims (s.pc w) = some i → claims (s.pc v) = some i → w = v
  filling : ∀ i, (s.slot i).active = 2 → ∃ w, claims (s.pc w) = some i
  free : ∀ i, (s.slot i).active = 0 → (s.slot i).who = none
  range : ∀ i, (s.slot i).active ≤ 2
  blank : ∀ i, (s.slot i).who = none → ∀ r, (s.slot i).bit r = false
  fresh : ∀ w r t i, s.pc w = .write r t i → (s.slot i).who = none
  filled : ∀ w r t i, (s.pc w = .add r t i ∨ s.pc w = .fin r i) → (s.slot i).who = some w
  own : ∀ w i, owns (s.pc w) = some i → i < n ∧ (s.slot i).active = 1 ∧ (s.slot i).who = some w
  inside : ∀ i w, (s.slot i).who = some w → i < n
  named : ∀ i, (s.slot i).active = 1 → ∃ w, (s.slot i).who = some w
  once : ∀ i j w, (s.slot i).who = some w → (s.slot j).who = some w → i = j
  absent : ∀ w k, looked n (s.pc w) = some k → ∀ j, j < k → (s.slot j).who ≠ some w
  taken : ∀ w k, seen n (s.pc w) = some k → ∀ j, j < k → (s.slot j).active ≠ 0
  index : ∀ w r t i, (∃ a, s.pc w = .cas r t i a) ∨ s.pc w = .lease r t i → i < n
  bit : ∀ w r i, holds (s.pc w) = some (r, i) → (s.slot i).bit r = true
  leaseAt : ∀ w r t i, s.pc w = .lease r t i → (s.slot i).active = 1
  noLate : ∀ w, ¬late (s.pc w)
  leases : ∀ i, (s.slot i).active = 1 → timeout ≤ (s.slot i).lease
  leases2 : ∀ w r t i, (s.pc w = .add r t i ∨ s.pc w = .fin r i) → timeout ≤ (s.slot i).lease
  times : ∀ w t, time (s.pc w) = some t → t ≤ s.now
  count : ∀ r, ∃ l : List Nat, l.Nodup ∧ (∀ w, w ∈ l ↔ owes r (s.pc w) = true) ∧ s.cnt r + l.length = bits n s.slot r


/-- A step that moves only the thread. -/
theorem inv_move (n : Nat) (s : St) (w : Nat) (p : Pc) (hs : Inv n s)
    (h1 : claims p = none) (h2 : claims (s.pc w) = none)
    (h3 : ∀ i, owns p = some i → i < n ∧ (s.slot i).active = 1 ∧ (s.slot i).who = some w)
    (h4 : ∀ k, looked n p = some k → ∀ j, j < k → (s.slot j).who ≠ some w)
    (h5 : ∀ k, seen n p = some k → ∀ j, j < k → (s.slot j).active ≠ 0)
    (h6 : ∀ r t i, (∃ a, p = .cas r t i a) ∨ p = .lease r t i → i < n)
    (h6' : ∀ r t i, p = .lease r t i → (s.slot i).active = 1) (h7 : holds p = none) (h8 : ¬late p) (h9 : ∀ t, time p = some t → t ≤ s.now)
    (h10 : ∀ r, owes r p = false) (h11 : ∀ r, owes r (s.pc w) = false) :
    Inv n { s with pc := goTo s w p } := by
  constructor <;> dsimp only
  case claim => intro v i hv; have := hs.claim v i; grind [goTo]
  case alone => intro v u i hv hu; have := hs.alone v u i; grind [goTo]
  case filling =>
    intro i hi
    obtain ⟨v, hv⟩ := hs.filling i hi
    exact ⟨v, by grind [goTo]⟩
  case free => exact hs.free
  case range => exact hs.range
  case blank => exact hs.blank
  case fresh => intro v r t i hv; have := hs.fresh v r t i; grind [goTo, claims]
  case filled => intro v r t i hv; have := hs.filled v r t i; grind [goTo, claims]
  case own => intro v i hv; have := hs.own v i; grind [goTo]
  case inside => exact hs.inside
  case named => exact hs.named
  case once => exact hs.once
  case absent => intro v k hv; have := hs.absent v k; grind [goTo]
  case taken => intro v k hv; have := hs.taken v k; grind [goTo]
  case index => intro v r t i hv; have := hs.index v r t i; have := h6 r t i; grind [goTo]
  case bit => intro v r i hv; have := hs.bit v r i; grind [goTo]
  case leaseAt => intro v r t i hv; have := hs.leaseAt v r t i; have := h6' r t i; grind [goTo]
  case noLate => intro v; have := hs.noLate v; grind [goTo]
  case leases => exact hs.leases
  case leases2 => intro v r t i hv; have := hs.leases2 v r t i; grind [goTo, claims]
  case times => intro v t hv; have := hs.times v t; grind [goTo]
  case count =>
    intro r
    obtain ⟨l, hn, hl, hc⟩ := hs.count r
    exact ⟨l, hn, fun v => by rw [hl v]; have := h10 r; have := h11 r; grind [goTo], hc⟩

theorem bits_same (n : Nat) (s : St) (i : Nat) (x : Slot) (r : Role) (h : x.bit r = (s.slot i).bit r) :
    bits n (put s i x) r = bits n s.slot r := by
  unfold bits
  refine List.countP_congr fun j _ => ?_
  by_cases hj : j = i
  · subst hj; rw [put_self, h]
  · rw [put_ne _ _ _ _ hj]

theorem bits_new (n : Nat) (s : St) (i : Nat) (x : Slot) (r : Role) (hi : i < n) (h0 : (s.slot i).bit r = false)
    (h1 : x.bit r = true) : bits n (put s i x) r = bits n s.slot r + 1 := by
  unfold bits
  induction n with
  | zero => exact absurd hi (Nat.not_lt_zero _)
  | succ n ih =>
    rw [List.range_succ, List.countP_append, List.countP_append]
    by_cases hn : i = n
    · subst hn
      have : (List.range i).countP (fun j => (put s i x j).bit r) = (List.range i).countP (fun j => (s.slot j).bit r) := by
        refine List.countP_congr fun j hj => ?_
        rw [put_ne _ _ _ _ (by have := List.mem_range.1 hj; omega)]
      rw [this]
      simp [put_self, h0, h1]
    · rw [ih (by omega)]
      have : [n].countP (fun j => (put s i x j).bit r) = [n].countP (fun j => (s.slot j).bit r) := by
        simp [put_ne _ _ _ _ (Ne.symm hn)]
      rw [this]; omega

theorem setBit_bit (x : Slot) (r q : Role) : (x.setBit r).bit q = (x.bit q || q == r) := by
  cases r <;> cases q <;> simp [Slot.setBit, Slot.bit]

theorem setBit_rest (x : Slot) (r : Role) : (x.setBit r).who = x.who ∧ (x.setBit r).active = x.active ∧ (x.setBit r).lease = x.lease := by
  cases r <;> simp [Slot.setBit]

/-- The `fetch_or` on the own entry. -/
theorem inv_own (n : Nat) (s : St) (w : Nat) (r : Role) (t i : Nat) (hs : Inv n s) (hw : s.pc w = .own r t i) :
    Inv n { s with slot := put s i ((s.slot i).setBit r), pc := goTo s w (if (s.slot i).bit r then .ownLease r t i else .ownAdd r t i) } := by
  have hO := hs.own w i (by rw [hw]; rfl)
  have hT := hs.times w t (by rw [hw]; rfl)
  obtain ⟨b1, b2, b3⟩ := setBit_rest (s.slot i) r
  have hb := fun q => setBit_bit (s.slot i) r q
  generalize (s.slot i).setBit r = x at b1 b2 b3 hb
  have pw : ∀ j, (put s i x j).who = (s.slot j).who := by intro j; by_cases h : j = i <;> grind [put]
  have pa : ∀ j, (put s i x j).active = (s.slot j).active := by intro j; by_cases h : j = i <;> grind [put]
  have pl : ∀ j, (put s i x j).lease = (s.slot j).lease := by intro j; by_cases h : j = i <;> grind [put]
  have pb : ∀ j q, (s.slot j).bit q = true → (put s i x j).bit q = true := by intro j q hq; by_cases h : j = i <;> grind [put]
  generalize hp : (if (s.slot i).bit r then Pc.ownLease r t i else .ownAdd r t i) = p
  have hpc : p = .ownLease r t i ∨ p = .ownAdd r t i := by grind
  have hbi : (put s i x i).bit r = true := by grind [put]
  constructor <;> dsimp only
  case claim => intro v j hv; rw [pa]; have := hs.claim v j; grind [goTo, claims]
  case alone => intro v u j hv hu; have := hs.alone v u j; grind [goTo, claims]
  case filling =>
    intro j hj
    rw [pa] at hj
    obtain ⟨v, hv⟩ := hs.filling j hj
    exact ⟨v, by grind [goTo, claims]⟩
  case free => intro j hj; rw [pa] at hj; rw [pw]; exact hs.free j hj
  case range => intro j; rw [pa]; exact hs.range j
  case blank =>
    intro j hj q
    rw [pw] at hj
    have hji : j ≠ i := fun h => by rw [h, hO.2.2] at hj; exact absurd hj (by simp)
    rw [put_ne _ _ _ _ hji]; exact hs.blank j hj q
  case fresh => intro v q t' j hv; rw [pw]; have := hs.fresh v q t' j; grind [goTo]
  case filled => intro v q t' j hv; rw [pw]; have := hs.filled v q t' j; grind [goTo]
  case own => intro v j hv; rw [pa, pw]; have := hs.own v j; grind [goTo, owns]
  case inside => intro j v hv; rw [pw] at hv; exact hs.inside j v hv
  case named => intro j hj; rw [pa] at hj; rw [pw]; exact hs.named j hj
  case once => intro j k v h1 h2; rw [pw] at h1 h2; exact hs.once j k v h1 h2
  case absent => intro v k hv j hj; rw [pw]; have := hs.absent v k; grind [goTo, looked]
  case taken => intro v k hv j hj; rw [pa]; have := hs.taken v k; grind [goTo, seen]
  case index => intro v q t' j hv; have := hs.index v q t' j; grind [goTo]
  case bit => intro v q j hv; have := hs.bit v q j; have := pb j q; grind [goTo, holds]
  case leaseAt => intro v q t' j hv; rw [pa]; have := hs.leaseAt v q t' j; grind [goTo]
  case noLate => intro v; have := hs.noLate v; grind [goTo, late]
  case leases => intro j hj; rw [pa] at hj; rw [pl]; exact hs.leases j hj
  case leases2 => intro v q t' j hv; rw [pl]; have := hs.leases2 v q t' j; grind [goTo]
  case times => intro v t' hv; have := hs.times v t'; grind [goTo, time]
  case count =>
    intro q
    obtain ⟨l, hn, hl, hc⟩ := hs.count q
    have hwl : w ∉ l := fun h => by have := (hl w).1 h; rw [hw] at this; simp [owes] at this
    by_cases hq : q = r ∧ (s.slot i).bit r = false
    · obtain ⟨rfl, hq⟩ := hq
      refine ⟨w :: l, List.nodup_cons.2 ⟨hwl, hn⟩, fun v => ?_, ?_⟩
      · have := hl v; grind [goTo, owes]
      · rw [bits_new n s i x q hO.1 hq (by grind)]; simp only [List.length_cons]; omega
    · refine ⟨l, hn, fun v => ?_, ?_⟩
      · have := hl v; grind [goTo, owes]
      · rw [bits_same n s i x q (by grind)]; exact hc

/-- The increment of a counter. -/
theorem inv_count (n : Nat) (s : St) (w : Nat) (r : Role) (t i : Nat) (p : Pc) (hs : Inv n s)
    (hw : (s.pc w = .ownAdd r t i ∧ p = .ownLease r t i) ∨ (s.pc w = .add r t i ∧ p = .fin r i)) :
    Inv n { s with cnt := addTo s r, pc := goTo s w p } := by
  have hc : claims p = claims (s.pc w) ∧ owns p = owns (s.pc w) ∧ looked n p = none ∧ seen n p = none ∧
      holds p = holds (s.pc w) ∧ ¬late p ∧ (∀ q, owes q p = false) ∧ (∀ q, owes q (s.pc w) = (r == q)) := by
    rcases hw with ⟨h, rfl⟩ | ⟨h, rfl⟩ <;> rw [h] <;> simp [claims, owns, looked, seen, holds, late, owes]
  obtain ⟨c1, c2, c3, c4, c5, c6, c7, c8⟩ := hc
  constructor <;> dsimp only
  case claim => intro v j hv; have := hs.claim v j; grind [goTo]
  case alone => intro v u j hv hu; have := hs.alone v u j; grind [goTo]
  case filling =>
    intro j hj
    obtain ⟨v, hv⟩ := hs.filling j hj
    exact ⟨v, by grind [goTo]⟩
  case free => exact hs.free
  case range => exact hs.range
  case blank => exact hs.blank
  case fresh => intro v q t' j hv; have := hs.fresh v q t' j; grind [goTo]
  case filled => intro v q t' j hv; have := hs.filled v q t' j; have := hs.filled v r t i; grind [goTo]
  case own => intro v j hv; have := hs.own v j; grind [goTo]
  case inside => exact hs.inside
  case named => exact hs.named
  case once => exact hs.once
  case absent => intro v k hv; have := hs.absent v k; grind [goTo]
  case taken => intro v k hv; have := hs.taken v k; grind [goTo]
  case index => intro v q t' j hv; have := hs.index v q t' j; grind [goTo]
  case bit => intro v q j hv; have := hs.bit v q j; grind [goTo]
  case leaseAt => intro v q t' j hv; have := hs.leaseAt v q t' j; grind [goTo]
  case noLate => intro v; have := hs.noLate v; grind [goTo]
  case leases => exact hs.leases
  case leases2 => intro v q t' j hv; have := hs.leases2 v q t' j; have := hs.leases2 v r t i; grind [goTo]
  case times => intro v t' hv; have := hs.times v t'; grind [goTo, time]
  case count =>
    intro q
    obtain ⟨l, hn, hl, hc⟩ := hs.count q
    by_cases hq : q = r
    · subst hq
      have hin : w ∈ l := (hl w).2 (by rw [c8]; simp)
      refine ⟨l.erase w, hn.erase w, fun v => ?_, ?_⟩
      · by_cases hv : v = w
        · subst hv
          rw [goTo_self, c7]
          exact ⟨fun h => absurd rfl ((List.Nodup.mem_erase_iff hn).1 h).1, fun h => absurd h (by simp)⟩
        · rw [goTo_ne _ _ _ _ hv, List.mem_erase_of_ne hv]; exact hl v
      · have := List.length_erase_of_mem hin
        have := List.length_pos_of_mem hin
        simp only [addTo, if_true]; omega
    · refine ⟨l, hn, fun v => ?_, ?_⟩
      · have := hl v; have := c7 q; have := c8 q; grind [goTo]
      · simp only [addTo, hq, if_false]; exact hc

/-- A lease is set, the thread moves on or not. -/
theorem inv_lease (n : Nat) (s : St) (i x : Nat) (hs : Inv n s) (hx : timeout ≤ x) :
    Inv n { s with slot := put s i { s.slot i with lease := x } } := by
  have pw : ∀ j, (put s i { s.slot i with lease := x } j).who = (s.slot j).who := by intro j; by_cases h : j = i <;> grind [put]
  have pa : ∀ j, (put s i { s.slot i with lease := x } j).active = (s.slot j).active := by intro j; by_cases h : j = i <;> grind [put]
  have pl : ∀ j, timeout ≤ (s.slot j).lease → timeout ≤ (put s i { s.slot i with lease := x } j).lease := by intro j hj; by_cases h : j = i <;> grind [put]
  have pb : ∀ j q, (put s i { s.slot i with lease := x } j).bit q = (s.slot j).bit q := by intro j q; by_cases h : j = i <;> grind [put, Slot.bit]
  constructor <;> dsimp only
  case claim => intro v j hv; rw [pa]; exact hs.claim v j hv
  case alone => exact hs.alone
  case filling => intro j hj; rw [pa] at hj; exact hs.filling j hj
  case free => intro j hj; rw [pa] at hj; rw [pw]; exact hs.free j hj
  case range => intro j; rw [pa]; exact hs.range j
  case blank => intro j hj q; rw [pw] at hj; rw [pb]; exact hs.blank j hj q
  case fresh => intro v q t' j hv; rw [pw]; exact hs.fresh v q t' j hv
  case filled => intro v q t' j hv; rw [pw]; exact hs.filled v q t' j hv
  case own => intro v j hv; rw [pa, pw]; exact hs.own v j hv
  case inside => intro j v hv; rw [pw] at hv; exact hs.inside j v hv
  case named => intro j hj; rw [pa] at hj; rw [pw]; exact hs.named j hj
  case once => intro j k v h1 h2; rw [pw] at h1 h2; exact hs.once j k v h1 h2
  case absent => intro v k hv j hj; rw [pw]; exact hs.absent v k hv j hj
  case taken => intro v k hv j hj; rw [pa]; exact hs.taken v k hv j hj
  case index => exact hs.index
  case bit => intro v q j hv; rw [pb]; exact hs.bit v q j hv
  case leaseAt => intro v q t' j hv; rw [pa]; exact hs.leaseAt v q t' j hv
  case noLate => exact hs.noLate
  case leases => intro j hj; rw [pa] at hj; exact pl j (hs.leases j hj)
  case leases2 => intro v q t' j hv; exact pl j (hs.leases2 v q t' j hv)
  case times => exact hs.times
  case count =>
    intro q
    obtain ⟨l, hn, hl, hc⟩ := hs.count q
    exact ⟨l, hn, hl, by rw [bits_same n s i _ q (by simp [Slot.bit])]; exact hc⟩

/-- The owner returns its slot. -/
theorem inv_return (n : Nat) (s : St) (w : Nat) (r : Role) (t i : Nat) (hs : Inv n s) (hw : s.pc w = .ownLease r t i) :
    Inv n { s with pc := goTo s w (.done r (some i)) } := by
  constructor <;> dsimp only
  case claim => intro v j hv; have := hs.claim v j; grind [goTo, claims]
  case alone => intro v u j hv hu; have := hs.alone v u j; grind [goTo, claims]
  case filling =>
    intro j hj
    obtain ⟨v, hv⟩ := hs.filling j hj
    exact ⟨v, by grind [goTo, claims]⟩
  case free => exact hs.free
  case range => exact hs.range
  case blank => exact hs.blank
  case fresh => intro v q t' j hv; have := hs.fresh v q t' j; grind [goTo]
  case filled => intro v q t' j hv; have := hs.filled v q t' j; grind [goTo]
  case own => intro v j hv; have := hs.own v j; grind [goTo, owns]
  case inside => exact hs.inside
  case named => exact hs.named
  case once => exact hs.once
  case absent => intro v k hv; have := hs.absent v k; grind [goTo, looked]
  case taken => intro v k hv; have := hs.taken v k; grind [goTo, seen]
  case index => intro v q t' j hv; have := hs.index v q t' j; grind [goTo]
  case bit => intro v q j hv; have := hs.bit v q j; grind [goTo, holds]
  case leaseAt => intro v q t' j hv; have := hs.leaseAt v q t' j; grind [goTo]
  case noLate => intro v; have := hs.noLate v; grind [goTo, late]
  case leases => exact hs.leases
  case leases2 => intro v q t' j hv; have := hs.leases2 v q t' j; grind [goTo]
  case times => intro v t' hv; have := hs.times v t'; grind [goTo, time]
  case count =>
    intro q
    obtain ⟨l, hn, hl, hc⟩ := hs.count q
    exact ⟨l, hn, fun v => by have := hl v; grind [goTo, owes], hc⟩

/-- The claim of a free slot. -/
theorem inv_claim (n : Nat) (s : St) (w : Nat) (r : Role) (t i : Nat) (hs : Inv n s) (hw : s.pc w = .cas r t i 0)
    (ha : (s.slot i).active = 0) :
    Inv n { s with slot := put s i { s.slot i with active := 2 }, pc := goTo s w (.write r t i) } := by
  have hi := hs.index w r t i (Or.inl ⟨0, hw⟩)
  have hno : ∀ v, claims (s.pc v) ≠ some i := fun v hv => by have := (hs.claim v i hv).2; omega
  have hnw := hs.free i ha
  have hA := hs.absent w n (by rw [hw]; rfl)
  have hT := hs.times w t (by rw [hw]; rfl)
  have pw : ∀ j, (put s i { s.slot i with active := 2 } j).who = (s.slot j).who := by intro j; by_cases h : j = i <;> grind [put]
  have pa : ∀ j, j ≠ i → (put s i { s.slot i with active := 2 } j).active = (s.slot j).active := by intro j hj; grind [put]
  have pi : (put s i { s.slot i with active := 2 } i).active = 2 := by grind [put]
  have pl : ∀ j, (put s i { s.slot i with active := 2 } j).lease = (s.slot j).lease := by intro j; by_cases h : j = i <;> grind [put]
  have pb : ∀ j q, (put s i { s.slot i with active := 2 } j).bit q = (s.slot j).bit q := by intro j q; by_cases h : j = i <;> grind [put, Slot.bit]
  constructor <;> dsimp only
  case claim => intro v j hv; have := hs.claim v j; have := pa j; grind [goTo, claims]
  case alone => intro v u j hv hu; have := hs.alone v u j; have := hno v; have := hno u; grind [goTo, claims]
  case filling =>
    intro j hj
    by_cases h : j = i
    · exact ⟨w, by grind [goTo, claims]⟩
    · rw [pa j h] at hj
      obtain ⟨v, hv⟩ := hs.filling j hj
      exact ⟨v, by grind [goTo, claims]⟩
  case free => intro j hj; have := pa j; have := hs.free j; grind
  case range => intro j; have := pa j; have := hs.range j; grind
  case blank => intro j hj q; rw [pw] at hj; rw [pb]; exact hs.blank j hj q
  case fresh => intro v q t' j hv; rw [pw]; have := hs.fresh v q t' j; grind [goTo]
  case filled => intro v q t' j hv; rw [pw]; have := hs.filled v q t' j; grind [goTo]
  case own => intro v j hv; rw [pw]; have := hs.own v j; have := pa j; grind [goTo, owns]
  case inside => intro j v hv; rw [pw] at hv; exact hs.inside j v hv
  case named => intro j hj; rw [pw]; have := pa j; have := hs.named j; grind
  case once => intro j k v h1 h2; rw [pw] at h1 h2; exact hs.once j k v h1 h2
  case absent => intro v k hv j hj; rw [pw]; have := hs.absent v k; have := hA j; grind [goTo, looked]
  case taken => intro v k hv j hj; have := hs.taken v k; have := pa j; grind [goTo, seen]
  case index => intro v q t' j hv; have := hs.index v q t' j; grind [goTo]
  case bit => intro v q j hv; rw [pb]; have := hs.bit v q j; grind [goTo, holds]
  case leaseAt => intro v q t' j hv; have := hs.leaseAt v q t' j; have := pa j; grind [goTo]
  case noLate => intro v; have := hs.noLate v; grind [goTo, late]
  case leases => intro j hj; rw [pl]; have := pa j; have := hs.leases j; grind
  case leases2 => intro v q t' j hv; rw [pl]; have := hs.leases2 v q t' j; grind [goTo]
  case times => intro v t' hv; have := hs.times v t'; grind [goTo, time]
  case count =>
    intro q
    obtain ⟨l, hn, hl, hc⟩ := hs.count q
    exact ⟨l, hn, fun v => by have := hl v; grind [goTo, owes], by rw [bits_same n s i _ q (by simp [Slot.bit])]; exact hc⟩

/-- The filling in. -/
theorem inv_write (n : Nat) (s : St) (w : Nat) (r : Role) (t i : Nat) (hs : Inv n s) (hw : s.pc w = .write r t i) :
    Inv n { s with slot := put s i { s.slot i with who := some w, pub := r, sub := !r, lease := t + timeout }, pc := goTo s w (.add r t i) } := by
  have hC := hs.claim w i (by rw [hw]; rfl)
  have hF := hs.fresh w r t i hw
  have hA := hs.absent w n (by rw [hw]; rfl)
  have hAl : ∀ v, claims (s.pc v) = some i → v = w := fun v hv => hs.alone v w i hv (by rw [hw]; rfl)
  have hB := hs.blank i hF
  have hIn := hs.inside
  generalize hx : ({ s.slot i with who := some w, pub := r, sub := !r, lease := t + timeout } : Slot) = x
  have x1 : x.who = some w := by rw [← hx]
  have x2 : x.active = (s.slot i).active := by rw [← hx]
  have x3 : timeout ≤ x.lease := by rw [← hx]; simp
  have x4 : ∀ q, x.bit q = (q == r) := by intro q; rw [← hx]; cases r <;> cases q <;> simp [Slot.bit]
  have pw : ∀ j, j ≠ i → (put s i x j).who = (s.slot j).who := by intro j hj; grind [put]
  have pwi : (put s i x i).who = some w := by grind [put]
  have pa : ∀ j, (put s i x j).active = (s.slot j).active := by intro j; by_cases h : j = i <;> grind [put]
  have pl : ∀ j, timeout ≤ (s.slot j).lease → timeout ≤ (put s i x j).lease := by intro j hj; by_cases h : j = i <;> grind [put]
  have pli : timeout ≤ (put s i x i).lease := by grind [put]
  have pb : ∀ j q, j ≠ i → (put s i x j).bit q = (s.slot j).bit q := by intro j q hj; grind [put]
  have pbi : ∀ q, (put s i x i).bit q = (q == r) := by intro q; grind [put]
  constructor <;> dsimp only
  case claim => intro v j hv; rw [pa]; have := hs.claim v j; grind [goTo, claims]
  case alone => intro v u j hv hu; have := hs.alone v u j; grind [goTo, claims]
  case filling =>
    intro j hj
    rw [pa] at hj
    obtain ⟨v, hv⟩ := hs.filling j hj
    exact ⟨v, by grind [goTo, claims]⟩
  case free => intro j hj; rw [pa] at hj; have := pw j; have := hs.free j; grind
  case range => intro j; rw [pa]; exact hs.range j
  case blank => intro j hj q; have := pw j; have := pb j q; have := hs.blank j; grind
  case fresh => intro v q t' j hv; have := hs.fresh v q t' j; have := pw j; have := hAl v; grind [goTo, claims]
  case filled => intro v q t' j hv; have := hs.filled v q t' j; have := pw j; have := hAl v; grind [goTo, claims]
  case own => intro v j hv; rw [pa]; have := hs.own v j; have := pw j; grind [goTo, owns]
  case inside => intro j v hv; have := pw j; have := hIn j v; grind
  case named => intro j hj; rw [pa] at hj; have := pw j; have := hs.named j; grind
  case once =>
    intro j k v h1 h2
    have := pw j
    have := pw k
    have := hs.once j k v
    have := hA j
    have := hA k
    have := hIn j v
    have := hIn k v
    grind
  case absent => intro v k hv j hj; have := hs.absent v k; have := pw j; grind [goTo, looked]
  case taken => intro v k hv j hj; rw [pa]; have := hs.taken v k; grind [goTo, seen]
  case index => intro v q t' j hv; have := hs.index v q t' j; grind [goTo]
  case bit => intro v q j hv; have := hs.bit v q j; have := pb j q; have := hB q; grind [goTo, holds]
  case leaseAt => intro v q t' j hv; rw [pa]; have := hs.leaseAt v q t' j; grind [goTo]
  case noLate => intro v; have := hs.noLate v; grind [goTo, late]
  case leases => intro j hj; rw [pa] at hj; exact pl j (hs.leases j hj)
  case leases2 => intro v q t' j hv; have := hs.leases2 v q t' j; have := pl j; grind [goTo]
  case times => intro v t' hv; have := hs.times v t'; grind [goTo, time]
  case count =>
    intro q
    obtain ⟨l, hn, hl, hc⟩ := hs.count q
    have hwl : w ∉ l := fun h => by have := (hl w).1 h; rw [hw] at this; simp [owes] at this
    by_cases hq : q = r
    · subst hq
      refine ⟨w :: l, List.nodup_cons.2 ⟨hwl, hn⟩, fun v => ?_, ?_⟩
      · have := hl v; grind [goTo, owes]
      · rw [bits_new n s i x q hC.1 (hB q) (by rw [x4]; simp)]; simp only [List.length_cons]; omega
    · refine ⟨l, hn, fun v => ?_, ?_⟩
      · have := hl v; grind [goTo, owes]
      · rw [bits_same n s i x q (by rw [x4, hB q]; simpa using hq)]; exact hc

/-- The slot is ready. -/
theorem inv_fin (n : Nat) (s : St) (w : Nat) (r : Role) (i : Nat) (hs : Inv n s) (hw : s.pc w = .fin r i) :
    Inv n { s with slot := put s i { s.slot i with active := 1 }, pc := goTo s w (.done r (some i)) } := by
  have hC := hs.claim w i (by rw [hw]; rfl)
  have hF := hs.filled w r 0 i (Or.inr hw)
  have hL := hs.leases2 w r 0 i (Or.inr hw)
  have hAl : ∀ v, claims (s.pc v) = some i → v = w := fun v hv => hs.alone v w i hv (by rw [hw]; rfl)
  have pw : ∀ j, (put s i { s.slot i with active := 1 } j).who = (s.slot j).who := by intro j; by_cases h : j = i <;> grind [put]
  have pa : ∀ j, j ≠ i → (put s i { s.slot i with active := 1 } j).active = (s.slot j).active := by intro j hj; grind [put]
  have pi : (put s i { s.slot i with active := 1 } i).active = 1 := by grind [put]
  have pl : ∀ j, (put s i { s.slot i with active := 1 } j).lease = (s.slot j).lease := by intro j; by_cases h : j = i <;> grind [put]
  have pb : ∀ j q, (put s i { s.slot i with active := 1 } j).bit q = (s.slot j).bit q := by intro j q; by_cases h : j = i <;> grind [put, Slot.bit]
  constructor <;> dsimp only
  case claim => intro v j hv; have := hs.claim v j; have := pa j; have := hAl v; grind [goTo, claims]
  case alone => intro v u j hv hu; have := hs.alone v u j; grind [goTo, claims]
  case filling =>
    intro j hj
    have hji : j ≠ i := fun h => by rw [h, pi] at hj; omega
    rw [pa j hji] at hj
    obtain ⟨v, hv⟩ := hs.filling j hj
    exact ⟨v, by grind [goTo, claims]⟩
  case free => intro j hj; have := pa j; have := hs.free j; grind
  case range => intro j; have := pa j; have := hs.range j; grind
  case blank => intro j hj q; rw [pw] at hj; rw [pb]; exact hs.blank j hj q
  case fresh => intro v q t' j hv; rw [pw]; have := hs.fresh v q t' j; grind [goTo]
  case filled => intro v q t' j hv; rw [pw]; have := hs.filled v q t' j; grind [goTo]
  case own => intro v j hv; rw [pw]; have := hs.own v j; have := pa j; grind [goTo, owns]
  case inside => intro j v hv; rw [pw] at hv; exact hs.inside j v hv
  case named => intro j hj; rw [pw]; have := pa j; have := hs.named j; grind
  case once => intro j k v h1 h2; rw [pw] at h1 h2; exact hs.once j k v h1 h2
  case absent => intro v k hv j hj; rw [pw]; have := hs.absent v k; grind [goTo, looked]
  case taken => intro v k hv j hj; have := hs.taken v k; have := pa j; grind [goTo, seen]
  case index => intro v q t' j hv; have := hs.index v q t' j; grind [goTo]
  case bit => intro v q j hv; rw [pb]; have := hs.bit v q j; grind [goTo, holds]
  case leaseAt => intro v q t' j hv; have := hs.leaseAt v q t' j; have := pa j; grind [goTo]
  case noLate => intro v; have := hs.noLate v; grind [goTo, late]
  case leases => intro j hj; rw [pl]; have := pa j; have := hs.leases j; grind
  case leases2 => intro v q t' j hv; rw [pl]; have := hs.leases2 v q t' j; grind [goTo]
  case times => intro v t' hv; have := hs.times v t'; grind [goTo, time]
  case count =>
    intro q
    obtain ⟨l, hn, hl, hc⟩ := hs.count q
    exact ⟨l, hn, fun v => by have := hl v; grind [goTo, owes], by rw [bits_same n s i _ q (by simp [Slot.bit])]; exact hc⟩

theorem inv_act (n : Nat) (s : St) (w : Nat) (hs : Inv n s) (hT : ∀ i, (s.slot i).active = 1 → s.now ≤ (s.slot i).lease) : Inv n (act n s w) := by
  unfold act
  cases hp : s.pc w with
  | idle => exact hs
  | dead => exact hs
  | done r x => exact hs
  | drop r t i => exact absurd (by rw [hp]; trivial) (hs.noLate w)
  | look r t i =>
    have ht := hs.times w t (by rw [hp]; rfl)
    have hA := hs.absent w (min i n) (by rw [hp]; rfl)
    dsimp only
    split
    · rename_i hi
      split
      · rename_i hf
        have h1 : (s.slot i).active = 1 := by
          by_contra hne
          have h2 : (s.slot i).active = 2 := by have := hs.range i; have := hf.1; omega
          obtain ⟨v, hv⟩ := hs.filling i h2
          have hvw : v ≠ w := fun h => by rw [h, hp] at hv; exact absurd hv (by simp [claims])
          cases hq : s.pc v with
          | write q t' j =>
            rw [hq] at hv
            have hji : j = i := by simpa [claims] using hv
            have := hs.fresh v q t' j hq
            rw [hji, hf.2] at this; exact absurd this (by simp)
          | add q t' j =>
            rw [hq] at hv
            have hji : j = i := by simpa [claims] using hv
            have := hs.filled v q t' j (Or.inl hq)
            rw [hji, hf.2] at this
            exact hvw (Option.some.inj this).symm
          | fin q j =>
            rw [hq] at hv
            have hji : j = i := by simpa [claims] using hv
            have := hs.filled v q 0 j (Or.inr hq)
            rw [hji, hf.2] at this
            exact hvw (Option.some.inj this).symm
          | _ => rw [hq] at hv; exact absurd hv (by simp [claims])
        refine inv_move n s w _ hs rfl (by rw [hp]; rfl) ?_ (by simp [looked]) (by simp [seen]) (by simp) (by simp) rfl (by simp [late]) (by simpa [time] using ht) (by simp [owes]) (by rw [hp]; simp [owes])
        intro j hj
        have hj' : i = j := by simpa [owns] using hj
        subst hj'
        exact ⟨hi, h1, hf.2⟩
      · rename_i hf
        refine inv_move n s w _ hs rfl (by rw [hp]; rfl) (by simp [owns]) ?_ (by simp [seen]) (by simp) (by simp) rfl (by simp [late]) (by simpa [time] using ht) (by simp [owes]) (by rw [hp]; simp [owes])
        intro k hk j hj
        have hk' : min (i + 1) n = k := by simpa [looked] using hk
        by_cases hji : j = i
        · subst hji
          intro hw
          exact hf ⟨fun h0 => by rw [hs.free j h0] at hw; exact absurd hw (by simp), hw⟩
        · exact hA j (by omega)
    · rename_i hi
      refine inv_move n s w _ hs rfl (by rw [hp]; rfl) (by simp [owns]) ?_ ?_ (by simp) (by simp) rfl (by simp [late]) (by simpa [time] using ht) (by simp [owes]) (by rw [hp]; simp [owes])
      · intro k hk j hj
        have hk' : n = k := by simpa [looked] using hk
        exact hA j (by omega)
      · intro k hk j hj
        have hk' : 0 = k := by simpa [seen] using hk
        omega
  | own r t i => exact inv_own n s w r t i hs hp
  | ownAdd r t i => exact inv_count n s w r t i _ hs (Or.inl ⟨hp, rfl⟩)
  | ownLease r t i =>
    exact inv_return n _ w r t i (inv_lease n s i (t + timeout) hs (Nat.le_add_left _ _)) hp
  | find r t i =>
    have ht := hs.times w t (by rw [hp]; rfl)
    have hA := hs.absent w n (by rw [hp]; rfl)
    have hS := hs.taken w (min i n) (by rw [hp]; rfl)
    have hA' : ∀ p, looked n p = some n → ∀ k, looked n p = some k → ∀ j, j < k → (s.slot j).who ≠ some w := by
      intro p h1 k h2 j hj
      rw [h1] at h2
      exact hA j (by have := Option.some.inj h2; omega)
    dsimp only
    split
    · rename_i hi
      split
      · rename_i h2
        refine inv_move n s w _ hs rfl (by rw [hp]; rfl) (by simp [owns]) (hA' _ rfl) ?_ (by simp) (by simp) rfl (by simp [late]) (by simpa [time] using ht) (by simp [owes]) (by rw [hp]; simp [owes])
        intro k hk j hj
        have hk' : min (i + 1) n = k := by simpa [seen] using hk
        by_cases hji : j = i
        · subst hji; omega
        · exact hS j (by omega)
      · split
        · refine inv_move n s w _ hs rfl (by rw [hp]; rfl) (by simp [owns]) (hA' _ rfl) ?_ ?_ (by simp) rfl (by simp [late]) (by simpa [time] using ht) (by simp [owes]) (by rw [hp]; simp [owes])
          · intro k hk j hj
            have hk' : i = k := by simpa [seen] using hk
            exact hS j (by omega)
          · intro q t' j hj
            simp only [Pc.cas.injEq, reduceCtorEq, or_false] at hj
            obtain ⟨a, -, -, rfl, -⟩ := hj
            exact hi
        · rename_i h2 h0
          refine inv_move n s w _ hs rfl (by rw [hp]; rfl) (by simp [owns]) (hA' _ rfl) ?_ ?_ ?_ rfl (by simp [late]) (by simpa [time] using ht) (by simp [owes]) (by rw [hp]; simp [owes])
          · intro k hk j hj
            have hk' : i = k := by simpa [seen] using hk
            exact hS j (by omega)
          · intro q t' j hj
            simp only [Pc.lease.injEq, reduceCtorEq, exists_false, false_or] at hj
            exact hj.2.2 ▸ hi
          · intro q t' j hj
            simp only [Pc.lease.injEq] at hj
            rw [← hj.2.2]
            have := hs.range i
            omega
    · rename_i hi
      refine inv_move n s w _ hs rfl (by rw [hp]; rfl) (by simp [owns]) (hA' _ rfl) ?_ (by simp) (by simp) rfl (by simp [late]) (by simp [time]) (by simp [owes]) (by rw [hp]; simp [owes])
      intro k hk j hj
      have hk' : n = k := by simpa [seen] using hk
      exact hS j (by omega)
  | lease r t i =>
    have ht := hs.times w t (by rw [hp]; rfl)
    have hA := hs.absent w n (by rw [hp]; rfl)
    have hS := hs.taken w i (by rw [hp]; rfl)
    have h1 := hs.leaseAt w r t i hp
    have hL := hs.leases i h1
    have hL2 := hT i h1
    have hne : (s.slot i).expired t = false := by
      simp only [Slot.expired, Bool.or_eq_false_iff, beq_eq_false_iff_ne, decide_eq_false_iff_not]
      unfold timeout at *
      omega
    dsimp only
    rw [if_neg (by rw [hne]; simp)]
    refine inv_move n s w _ hs rfl (by rw [hp]; rfl) (by simp [owns]) ?_ ?_ (by simp) (by simp) rfl (by simp [late]) (by simpa [time] using ht) (by simp [owes]) (by rw [hp]; simp [owes])
    · intro k hk j hj
      have hk' : n = k := by simpa [looked] using hk
      exact hA j (by omega)
    · intro k hk j hj
      have hk' : min (i + 1) n = k := by simpa [seen] using hk
      by_cases hji : j = i
      · subst hji; omega
      · exact hS j (by omega)
  | cas r t i a =>
    have ht := hs.times w t (by rw [hp]; rfl)
    have hA := hs.absent w n (by rw [hp]; rfl)
    have hS := hs.taken w i (by rw [hp]; rfl)
    have ha : a = 0 := by
      by_contra h
      exact hs.noLate w (by rw [hp]; exact h)
    subst ha
    dsimp only
    split
    · rename_i h0
      exact inv_claim n s w r t i hs hp h0
    · rename_i h0
      refine inv_move n s w _ hs rfl (by rw [hp]; rfl) (by simp [owns]) ?_ ?_ (by simp) (by simp) rfl (by simp [late]) (by simpa [time] using ht) (by simp [owes]) (by rw [hp]; simp [owes])
      · intro k hk j hj
        have hk' : n = k := by simpa [looked] using hk
        exact hA j (by omega)
      · intro k hk j hj
        have hk' : min (i + 1) n = k := by simpa [seen] using hk
        by_cases hji : j = i
        · subst hji; exact h0
        · exact hS j (by omega)
  | write r t i => exact inv_write n s w r t i hs hp
  | add r t i => exact inv_count n s w r t i _ hs (Or.inr ⟨hp, rfl⟩)
  | fin r i => exact inv_fin n s w r i hs hp

theorem now_mono (n : Nat) (h : List Ev) : ∀ s, s.now ≤ (run n s h).now := by
  induction h with
  | nil => intro s; exact Nat.le_refl _
  | cons e es ih =>
    intro s
    refine Nat.le_trans ?_ (ih (step n s e))
    cases e with
    | act w => show s.now ≤ (act n s w).now; cases hp : s.pc w <;> simp only [act, hp] <;> (repeat' split) <;> exact Nat.le_refl _
    | begin w r => unfold step; dsimp only; split <;> exact Nat.le_refl _
    | crash w => exact Nat.le_refl _
    | refresh i => exact Nat.le_refl _
    | tick d => exact Nat.le_add_right _ _

theorem inv_step (n : Nat) (s : St) (e : Ev) (hs : Inv n s) (hc : ∀ w, e ≠ .crash w)
    (hT : ∀ i, (s.slot i).active = 1 → s.now ≤ (s.slot i).lease) : Inv n (step n s e) := by
  cases e with
  | act w => exact inv_act n s w hs hT
  | crash w => exact absurd rfl (hc w)
  | refresh i => exact inv_lease n s i _ hs (Nat.le_add_left _ _)
  | tick d =>
    exact { hs with times := fun w t h => Nat.le_trans (hs.times w t h) (Nat.le_add_right _ _) }
  | begin w r =>
    unfold step; dsimp only
    split
    · rename_i hb
      have hpw : s.pc w = .idle ∨ ∃ q x, s.pc w = .done q x := by
        cases hp : s.pc w with
        | idle => exact Or.inl rfl
        | done q x => exact Or.inr ⟨q, x, rfl⟩
        | _ => rw [hp] at hb; exact absurd hb (by simp [begins])
      refine inv_move n s w _ hs rfl ?_ (by simp [owns]) ?_ (by simp [seen]) (by simp) (by simp) rfl (by simp [late]) (by simp [time]) (by simp [owes]) ?_
      · rcases hpw with h | ⟨q, x, h⟩ <;> rw [h] <;> rfl
      · intro k hk j hj
        have hk' : 0 = k := by simpa [looked] using hk
        omega
      · intro q
        rcases hpw with h | ⟨q, x, h⟩ <;> rw [h] <;> rfl
    · exact hs

theorem inv_start (n : Nat) : Inv n {} := by
  have hb : ∀ (m : Nat) (r : Role), bits m (fun _ => ({} : Slot)) r = 0 := by
    intro m r
    induction m with
    | zero => rfl
    | succ m ih => cases r <;> simpa [bits, Slot.bit] using ih
  constructor
  case count => intro r; exact ⟨[], List.nodup_nil, by intro w; simp [owes], (hb n r).symm⟩
  case blank => intro i _ r; cases r <;> rfl
  all_goals simp [claims, owns, looked, seen, holds, late, time]

/-! ### Theorems -/

/-- A history in which nobody dies and no slot in use has, at any moment, an
expired lease. -/
def Quiet (n : Nat) (h : List Ev) : Prop :=
  (∀ w, Ev.crash w ∉ h) ∧ ∀ p, p <+: h → ∀ i, ((run n {} p).slot i).active = 1 → (run n {} p).now ≤ ((run n {} p).slot i).lease

theorem inv_run (n : Nat) (h : List Ev) (hq : Quiet n h) : Inv n (run n {} h) := by
  induction h using List.reverseRecOn with
  | nil => exact inv_start n
  | append_singleton p e ih =>
    have hp : p <+: p ++ [e] := List.prefix_append _ _
    have hI := ih ⟨fun w hm => hq.1 w (List.mem_append_left _ hm), fun p' h' => hq.2 p' (h'.trans hp)⟩
    have : run n {} (p ++ [e]) = step n (run n {} p) e := by simp [run]
    rw [this]
    exact inv_step n _ e hI (fun w he => hq.1 w (by simp [he])) (hq.2 p hp)

/-- That is so whenever the whole history is shorter than a lease. -/
theorem short_is_quiet (n : Nat) (h : List Ev) (hc : ∀ w, Ev.crash w ∉ h) (ht : (run n {} h).now ≤ timeout) : Quiet n h := by
  induction h using List.reverseRecOn with
  | nil =>
    refine ⟨hc, fun p hp i hi => ?_⟩
    rw [List.prefix_nil.1 hp] at hi ⊢
    exact Nat.zero_le _
  | append_singleton p e ih =>
    have hrun : run n {} (p ++ [e]) = step n (run n {} p) e := by simp [run]
    have hm : (run n {} p).now ≤ (run n {} (p ++ [e])).now := by rw [hrun]; exact now_mono n [e] _
    have hq := ih (fun w hw => hc w (List.mem_append_left _ hw)) (by omega)
    refine ⟨hc, fun p' hp' i hi => ?_⟩
    rcases List.prefix_concat_iff.1 hp' with h | h
    · subst h
      have hI : Inv n (run n {} (p ++ [e])) := by
        rw [hrun]
        exact inv_step n _ e (inv_run n p hq) (fun w he => hc w (by simp [he])) (hq.2 p (List.prefix_refl _))
      exact Nat.le_trans ht (hI.leases i hi)
    · exact hq.2 p' h i hi

/-- A thread that has been told its slot holds it, in the role it asked for. -/
theorem registered_holds (n : Nat) (h : List Ev) (hq : Quiet n h) (w : Nat) (r : Role) (i : Nat)
    (hd : (run n {} h).pc w = .done r (some i)) :
    i < n ∧ ((run n {} h).slot i).active = 1 ∧ ((run n {} h).slot i).who = some w ∧ ((run n {} h).slot i).bit r = true := by
  have hI := inv_run n h hq
  have ho := hI.own w i (by rw [hd]; rfl)
  exact ⟨ho.1, ho.2.1, ho.2.2, hI.bit w r i (by rw [hd]; rfl)⟩

/-- Two threads are never given the same slot, and a thread never has two. -/
theorem slots_distinct (n : Nat) (h : List Ev) (hq : Quiet n h) (w v : Nat) (r q : Role) (i : Nat)
    (hw : (run n {} h).pc w = .done r (some i)) (hv : (run n {} h).pc v = .done q (some i)) : w = v := by
  have h1 := (registered_holds n h hq w r i hw).2.2.1
  have h2 := (registered_holds n h hq v q i hv).2.2.1
  rw [h1] at h2
  exact Option.some.inj h2

theorem one_slot_each (n : Nat) (h : List Ev) (hq : Quiet n h) (w i j : Nat)
    (hi : ((run n {} h).slot i).who = some w) (hj : ((run n {} h).slot j).who = some w) : i = j :=
  (inv_run n h hq).once i j w hi hj

/-- When nobody is registering, the counters are the numbers of slots with the
role: what the choice of the backend looks at is right. -/
theorem counters_exact (n : Nat) (h : List Ev) (hq : Quiet n h) (hr : ∀ w, begins ((run n {} h).pc w) = true) (r : Role) :
    (run n {} h).cnt r = bits n (run n {} h).slot r := by
  obtain ⟨l, -, hl, hc⟩ := (inv_run n h hq).count r
  have : l = [] := by
    rcases List.eq_nil_or_concat l with h | ⟨xs, x, rfl⟩
    · exact h
    · have := (hl x).1 (by simp)
      have hb := hr x
      cases hp : (run n {} h).pc x <;> rw [hp] at this hb <;> simp [owes, begins] at this hb
  rw [this] at hc
  exact hc

/-- At every moment the counters are behind by the registrations under way, and
never ahead. -/
theorem counters_never_ahead (n : Nat) (h : List Ev) (hq : Quiet n h) (r : Role) :
    (run n {} h).cnt r ≤ bits n (run n {} h).slot r := by
  obtain ⟨l, -, -, hc⟩ := (inv_run n h hq).count r
  omega

/-- A registration is turned down only if every slot is taken or being filled
in. -/
theorem refused_means_full (n : Nat) (h : List Ev) (hq : Quiet n h) (w : Nat) (r : Role)
    (hd : (run n {} h).pc w = .done r none) (j : Nat) (hj : j < n) : ((run n {} h).slot j).active ≠ 0 :=
  (inv_run n h hq).taken w n (by rw [hd]; rfl) j hj

/-! ### Findings -/

/-- A slot somebody was filling in when they died. -/
def Orphan (s : St) (i : Nat) : Prop :=
  (s.slot i).active = 2 ∧ ∀ w, claims (s.pc w) ≠ some i ∧ (∀ r t, s.pc w ≠ .drop r t i) ∧ ∀ r t, s.pc w ≠ .cas r t i 2

theorem orphan_step (n : Nat) (s : St) (e : Ev) (i : Nat) (h : Orphan s i) : Orphan (step n s e) i := by
  obtain ⟨ha, hw⟩ := h
  cases e with
  | act w =>
    show Orphan (act n s w) i
    have hww := hw w
    cases hp : s.pc w <;> simp only [act, hp] <;> (repeat' split) <;> refine ⟨?_, fun v => ?_⟩ <;>
      (try have hv := hw v) <;> grind [goTo, put, claims, Slot.setBit]
  | begin w r =>
    unfold step; dsimp only
    split
    · refine ⟨ha, fun v => ?_⟩
      have := hw v
      grind [goTo, claims]
    · exact ⟨ha, hw⟩
  | crash w => refine ⟨ha, fun v => ?_⟩; have := hw v; simp only [step]; grind [goTo, claims]
  | refresh j => refine ⟨?_, fun v => hw v⟩; simp only [step]; grind [put]
  | tick d => exact ⟨ha, hw⟩

/-- Finding: a process that dies while its slot is marked as being filled in
loses the slot for good. Whatever happens afterwards, and however long one
waits, nobody is given that slot (`register_role` skips it before looking at
the lease). -/
theorem orphan_forever (n : Nat) (h : List Ev) : ∀ s i, Orphan s i → ((run n s h).slot i).active = 2 := by
  induction h with
  | nil => intro s i ho; exact ho.1
  | cons e es ih => intro s i ho; exact ih _ i (orphan_step n s e i ho)

/-- Thread 1 alone, registering as a publisher in a table with one slot. -/
def joinA : List Ev := [.begin 1 true, .act 1, .act 1, .act 1, .act 1, .act 1, .act 1, .act 1]

/-- The same thread coming back as a subscriber. -/
def joinB : List Ev := [.begin 1 false, .act 1, .act 1, .act 1, .act 1]

example : (run 1 {} (joinA ++ joinB)).pc 1 = .done false (some 0) ∧ (run 1 {} (joinA ++ joinB)).cnt true = 1 ∧
    (run 1 {} (joinA ++ joinB)).cnt false = 1 ∧ (run 1 {} (joinA ++ joinB)).slot 0 = ⟨some 1, true, true, 1, 5000⟩ := by decide +kernel

/-- Thread 2 comes after the lease has run out and gets as far as having found
that out. -/
def taker : List Ev := [.begin 2 true, .act 2, .act 2, .act 2, .act 2]

/-- Finding: an owner that refreshes its lease between the look at the lease and
the claim loses the slot although it is alive and its lease is good: both
threads hold slot 0, which names the newcomer. -/
theorem refreshed_yet_taken :
    let s := run 1 {} (joinA ++ [.tick 5001] ++ taker)
    let s' := run 1 s [.refresh 0, .act 2, .act 2, .act 2, .act 2, .act 2]
    (s.slot 0).lease < s.now ∧ ((step 1 s (.refresh 0)).slot 0).expired s.now = false ∧
      s'.pc 1 = .done true (some 0) ∧ s'.pc 2 = .done true (some 0) ∧ (s'.slot 0).who = some 2 := by decide +kernel

/-- Finding: an owner that comes back for its other role while its slot is being
taken over is told it has the slot, and the subscriber it adds is never taken
out of the counter: nobody subscribes, the counter stays at one. -/
theorem counter_stays_high :
    let s := run 1 {} (joinA ++ [.tick 5001] ++ taker ++ [.act 2, .act 2] ++ joinB ++ [.act 2, .act 2, .act 2])
    s.pc 1 = .done false (some 0) ∧ s.pc 2 = .done true (some 0) ∧ s.cnt false = 1 ∧ bits 1 s.slot false = 0 := by decide +kernel

/-- Two threads that interleave, in a table of two slots. -/
def both : List Ev := [.begin 1 true, .begin 2 false, .act 1, .act 2, .act 2, .act 1, .act 1, .act 2, .act 1, .act 2,
  .act 1, .act 2, .act 2, .act 1, .act 2, .act 1, .act 2, .act 1, .act 2, .act 1, .act 2]

example : (run 2 {} both).pc 1 = .done true (some 0) ∧ (run 2 {} both).pc 2 = .done false (some 1) ∧
    (run 2 {} both).cnt true = 1 ∧ (run 2 {} both).cnt false = 1 := by decide +kernel
example : Quiet 2 both := short_is_quiet 2 both (by intro w; simp [both]) (by decide +kernel)
/-- A third thread is turned down when two hold the two slots. -/
example : (run 2 {} (both ++ .begin 3 true :: List.replicate 12 (.act 3))).pc 3 = .done true none := by decide +kernel
/-- A thread that dies after its claim leaves an orphan. -/
example : Orphan (run 1 {} [.begin 1 true, .act 1, .act 1, .act 1, .act 1, .crash 1]) 0 := by
  refine ⟨by decide +kernel, fun w => ?_⟩
  have : (run 1 {} [.begin 1 true, .act 1, .act 1, .act 1, .act 1, .crash 1]).pc w = if w = 1 then .dead else .idle := by
    by_cases h : w = 1
    · subst h; decide +kernel
    · simp [run, step, act, goTo, put, h, begins]
  rw [this]
  split <;> simp [claims]

end Horus.Join
