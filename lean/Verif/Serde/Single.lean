/-
Topics with one publisher whose messages are serialised: one subscriber, or
several that share the stream.

Modelled source: horus_core/src/communication/topic/dispatch.rs (879-1006
`send_shm_sp_serde`, 1545-1590 `recv_shm_spsc_serde`, 1672-1741
`recv_shm_spmc_serde`).  Messages are the serialised bytes, decoding is a
function that may fail.  Simplified: a send is one step (only the publisher
writes slots and the head), a receive of the single subscriber too; a receive of
one of several is three (look, claim, read).  Messages fit their slot: spilling
and growing are in `Verif/Serde`.  Positions are unbounded numbers.
-/
import Mathlib.Tactic.Common
import Mathlib.Data.List.Basic
import Mathlib.Data.List.Range
import Mathlib.Data.List.Induction
import Mathlib.Data.List.Nodup
import Mathlib.Data.Nat.ModEq

namespace Horus.Single

abbrev Bytes := List Nat

/-! ### The publisher -/

/-- The ring and the publisher's cached tail; `sent` is what was accepted
(bookkeeping).

Models horus_core/src/communication/topic/dispatch.rs:890-898. -/
structure Ring where
  slot : Nat → Bytes := fun _ => []
  head : Nat := 0
  tail : Nat := 0
  lt : Nat := 0
  sent : List Bytes := []

/-- Write the message and publish the new head.

Models horus_core/src/communication/topic/dispatch.rs:985-1005. -/
def Ring.write (n : Nat) (r : Ring) (b : Bytes) : Ring :=
  { r with slot := fun k => if k = r.head % n then b else r.slot k, head := r.head + 1, sent := r.sent ++ [b] }

/-- `send` of a ring of `n` slots; `false` when it is full.

Models horus_core/src/communication/topic/dispatch.rs:897-902. -/
def Ring.send (n : Nat) (r : Ring) (b : Bytes) : Ring × Bool :=
  if n ≤ r.head - r.lt then
    if n ≤ r.head - r.tail then ({ r with lt := r.tail }, false)
    else ({ r with lt := r.tail }.write n b, true)
  else (r.write n b, true)

/-- What holds of every ring. -/
structure Ok (n : Nat) (r : Ring) : Prop where
  pos : 0 < n
  lt : r.lt ≤ r.tail
  tail : r.tail ≤ r.head
  room : r.head ≤ r.tail + n
  len : r.head = r.sent.length
  data : ∀ k, k < r.head → r.head ≤ k + n → r.sent[k]? = some (r.slot (k % n))

theorem ok_start (n : Nat) (h : 0 < n) : Ok n {} :=
  ⟨h, Nat.le_refl _, Nat.le_refl _, by simp, rfl, by intro k hk; exact absurd hk (Nat.not_lt_zero _)⟩

theorem mod_ne {n a k : Nat} (h1 : k < a) (h2 : a < k + n) : k % n ≠ a % n := by
  intro h
  have hd : n ∣ a - k := (Nat.modEq_iff_dvd' (Nat.le_of_lt h1)).1 (show k ≡ a [MOD n] from h)
  have := Nat.le_of_dvd (by omega) hd
  omega

theorem ok_write (n : Nat) (r : Ring) (b : Bytes) (h : Ok n r) (hr : r.head < r.tail + n) : Ok n (r.write n b) := by
  refine ⟨h.pos, h.lt, Nat.le_succ_of_le h.tail, hr, by simp [Ring.write, h.len], ?_⟩
  intro k hk h2
  simp only [Ring.write] at hk h2 ⊢
  by_cases he : k = r.head
  · subst he
    rw [if_pos rfl, h.len, List.getElem?_concat_length]
  · have hlt : k < r.head := by omega
    rw [if_neg (mod_ne hlt (by omega)), List.getElem?_append_left (by rw [← h.len]; exact hlt)]
    exact h.data k hlt (by omega)

theorem ok_send (n : Nat) (r : Ring) (b : Bytes) (h : Ok n r) : Ok n (r.send n b).1 := by
  have h' : Ok n { r with lt := r.tail } := ⟨h.pos, Nat.le_refl _, h.tail, h.room, h.len, h.data⟩
  unfold Ring.send
  split
  · split
    · exact h'
    · exact ok_write n _ b h' (by dsimp only; omega)
  · exact ok_write n r b h (by have := h.lt; omega)

/-- A send is accepted exactly when the ring has room. -/
theorem send_iff (n : Nat) (r : Ring) (b : Bytes) (h : Ok n r) : (r.send n b).2 = true ↔ r.head - r.tail < n := by
  have := h.lt
  unfold Ring.send
  split
  · split
    · simp; omega
    · simp; omega
  · simp; omega

/-! ### One subscriber -/

/-- The subscriber's cached head and what it has received.

Models horus_core/src/communication/topic/dispatch.rs:1553-1561. -/
structure One (α : Type) where
  ring : Ring := {}
  lh : Nat := 0
  out : List α := []

/-- `recv`: nothing, and no step forward, when the slot cannot be decoded.

Models horus_core/src/communication/topic/dispatch.rs:1563-1589. -/
def One.recv {α : Type} (dec : Bytes → Option α) (n : Nat) (s : One α) : One α :=
  let s := if s.lh = s.ring.tail then { s with lh := s.ring.head } else s
  if s.lh = s.ring.tail then s
  else match dec (s.ring.slot (s.ring.tail % n)) with
    | none => s
    | some m => { s with ring := { s.ring with tail := s.ring.tail + 1 }, out := s.out ++ [m] }

inductive Ev
  | send (b : Bytes)
  | recv
deriving DecidableEq, Repr

def One.step {α : Type} (dec : Bytes → Option α) (n : Nat) (s : One α) : Ev → One α
  | .send b => { s with ring := (s.ring.send n b).1 }
  | .recv => s.recv dec n

def One.run {α : Type} (dec : Bytes → Option α) (n : Nat) (s : One α) (h : List Ev) : One α := h.foldl (One.step dec n) s

structure One.Inv {α : Type} (dec : Bytes → Option α) (n : Nat) (s : One α) : Prop where
  ok : Ok n s.ring
  lo : s.ring.tail ≤ s.lh
  hi : s.lh ≤ s.ring.head
  out : s.out.map some = (s.ring.sent.take s.ring.tail).map dec

theorem take_snoc {α : Type} (l : List α) (k : Nat) (x : α) (h : l[k]? = some x) : l.take (k + 1) = l.take k ++ [x] := by
  rw [List.take_add_one, h]; rfl

theorem send_tail (n : Nat) (r : Ring) (b : Bytes) : (r.send n b).1.tail = r.tail ∧ r.head ≤ (r.send n b).1.head ∧
    ((r.send n b).1.sent = r.sent ∨ (r.send n b).1.sent = r.sent ++ [b]) := by
  unfold Ring.send; split
  · split <;> simp [Ring.write]
  · simp [Ring.write]

theorem one_step {α : Type} (dec : Bytes → Option α) (n : Nat) (s : One α) (e : Ev) (h : s.Inv dec n) : (s.step dec n e).Inv dec n := by
  cases e with
  | send b =>
    obtain ⟨h1, h2, h3⟩ := send_tail n s.ring b
    refine ⟨ok_send n _ b h.ok, ?_, ?_, ?_⟩ <;> simp only [One.step]
    · rw [h1]; exact h.lo
    · exact Nat.le_trans h.hi h2
    · rw [h1, h.out]
      rcases h3 with h3 | h3 <;> rw [h3]
      rw [List.take_append_of_le_length (by rw [← h.ok.len]; exact h.ok.tail)]
  | recv =>
    simp only [One.step, One.recv]
    have key : ∀ s : One α, s.Inv dec n → (if s.lh = s.ring.tail then s else match dec (s.ring.slot (s.ring.tail % n)) with
        | none => s
        | some m => { s with ring := { s.ring with tail := s.ring.tail + 1 }, out := s.out ++ [m] } : One α).Inv dec n := by
      intro s h
      split
      · exact h
      · rename_i hne
        have hlt : s.ring.tail < s.ring.head := by have := h.lo; have := h.hi; omega
        split
        · exact h
        · rename_i m hm
          have hd := h.ok.data _ hlt h.ok.room
          refine ⟨⟨h.ok.pos, Nat.le_succ_of_le h.ok.lt, hlt, by have := h.ok.room; dsimp only; omega, h.ok.len, h.ok.data⟩, by have := h.lo; dsimp only; omega, h.hi, ?_⟩
          dsimp only
          rw [take_snoc _ _ _ hd, List.map_append, List.map_append, h.out]
          simp [hm]
    apply key
    split
    · exact ⟨h.ok, h.ok.tail, Nat.le_refl _, h.out⟩
    · exact h

theorem one_run {α : Type} (dec : Bytes → Option α) (n : Nat) (hn : 0 < n) (h : List Ev) : ((({} : One α)).run dec n h).Inv dec n := by
  induction h using List.reverseRecOn with
  | nil => exact ⟨ok_start n hn, Nat.le_refl _, Nat.le_refl _, by simp [One.run]⟩
  | append_singleton p e ih =>
    have : (({} : One α)).run dec n (p ++ [e]) = ((({} : One α)).run dec n p).step dec n e := by simp [One.run]
    rw [this]
    exact one_step dec n _ e ih

/-- One subscriber receives the accepted messages in order, each once, without
a gap, and every one it received could be decoded. -/
theorem one_in_order {α : Type} (dec : Bytes → Option α) (n : Nat) (hn : 0 < n) (h : List Ev) :
    ∃ k, ((({} : One α)).run dec n h).out.map some = (((({} : One α)).run dec n h).ring.sent.take k).map dec ∧
      k ≤ ((({} : One α)).run dec n h).ring.sent.length :=
  ⟨_, (one_run dec n hn h).out, by rw [← (one_run dec n hn h).ok.len]; exact (one_run dec n hn h).ok.tail⟩

/-- A receive delivers the next accepted message if there is one that can be
decoded. -/
theorem one_delivers {α : Type} (dec : Bytes → Option α) (n : Nat) (s : One α) (h : s.Inv dec n) (b : Bytes) (m : α)
    (hb : s.ring.sent[s.out.length]? = some b) (hm : dec b = some m) : (s.recv dec n).out = s.out ++ [m] := by
  have hl : s.out.length = s.ring.tail := by
    have := congrArg List.length h.out
    simp only [List.length_map, List.length_take, ← h.ok.len] at this
    have := h.ok.tail
    omega
  rw [hl] at hb
  have hlt : s.ring.tail < s.ring.head := by
    rw [h.ok.len]
    by_contra hc
    rw [List.getElem?_eq_none (Nat.le_of_not_lt hc)] at hb
    exact absurd hb (by simp)
  have hd := h.ok.data _ hlt h.ok.room
  rw [hb] at hd
  have hd' := Option.some.inj hd
  simp only [One.recv]
  split
  · rw [if_neg (by dsimp only; omega)]
    dsimp only
    rw [← hd', hm]
  · rw [← hd', hm]

/-- Finding: a message that cannot be decoded stops the stream for good.  Once
it is next, nothing is received any more, whatever is sent, -/
theorem one_stuck {α : Type} (dec : Bytes → Option α) (n : Nat) (s : One α) (hs : s.Inv dec n) (b : Bytes)
    (hb : s.ring.sent[s.out.length]? = some b) (hd : dec b = none) (h : List Ev) :
    (s.run dec n h).out = s.out ∧ (s.run dec n h).ring.tail = s.ring.tail := by
  have hl : s.out.length = s.ring.tail := by
    have := congrArg List.length hs.out
    simp only [List.length_map, List.length_take, ← hs.ok.len] at this
    have := hs.ok.tail
    omega
  rw [hl] at hb
  have key : ∀ (h : List Ev) (s' : One α), s'.Inv dec n → s'.out = s.out → s'.ring.tail = s.ring.tail →
      s'.ring.sent[s.ring.tail]? = some b → (s'.run dec n h).out = s.out ∧ (s'.run dec n h).ring.tail = s.ring.tail := by
    intro h
    induction h with
    | nil => intro s' _ h1 h2 _; exact ⟨h1, h2⟩
    | cons e es ih =>
      intro s' hi h1 h2 h3
      refine ih (s'.step dec n e) (one_step dec n s' e hi) ?_ ?_ ?_
      · cases e with
        | send b' => exact h1
        | recv =>
          have hlt : s'.ring.tail < s'.ring.head := by
            rw [hi.ok.len, h2]
            by_contra hc
            rw [List.getElem?_eq_none (Nat.le_of_not_lt hc)] at h3
            exact absurd h3 (by simp)
          have hd2 := hi.ok.data _ hlt hi.ok.room
          rw [h2, h3] at hd2
          have hd' := Option.some.inj hd2
          simp only [One.step, One.recv]
          split
          · rw [if_neg (by dsimp only; omega)]
            dsimp only
            rw [h2, ← hd', hd]; exact h1
          · rw [h2, ← hd', hd]; exact h1
      · cases e with
        | send b' => exact (send_tail n s'.ring b').1.trans h2
        | recv =>
          have hlt : s'.ring.tail < s'.ring.head := by
            rw [hi.ok.len, h2]
            by_contra hc
            rw [List.getElem?_eq_none (Nat.le_of_not_lt hc)] at h3
            exact absurd h3 (by simp)
          have hd2 := hi.ok.data _ hlt hi.ok.room
          rw [h2, h3] at hd2
          have hd' := Option.some.inj hd2
          simp only [One.step, One.recv]
          split
          · rw [if_neg (by dsimp only; omega)]
            dsimp only
            rw [h2, ← hd', hd]; exact h2
          · rw [h2, ← hd', hd]; exact h2
      · cases e with
        | send b' =>
          rcases (send_tail n s'.ring b').2.2 with h | h
          · simp only [One.step, h]; exact h3
          · simp only [One.step, h]
            have hlt : s.ring.tail < s'.ring.sent.length := by
              by_contra hc
              rw [List.getElem?_eq_none (Nat.le_of_not_lt hc)] at h3
              exact absurd h3 (by simp)
            rw [List.getElem?_append_left hlt]; exact h3
        | recv =>
          have : (s'.recv dec n).ring.sent = s'.ring.sent := by
            simp only [One.recv]
            split <;> split <;> (try split) <;> rfl
          simp only [One.step, this]; exact h3
  exact key h s hs rfl rfl hb

/-- and when the slots are used up every send fails: at most `n` messages are
ever accepted from the bad one on. -/
theorem one_wedged {α : Type} (dec : Bytes → Option α) (n : Nat) (s : One α) (hs : s.Inv dec n) (b : Bytes)
    (hb : s.ring.sent[s.out.length]? = some b) (hd : dec b = none) (h : List Ev) :
    (s.run dec n h).ring.sent.length ≤ s.out.length + n := by
  have hl : s.out.length = s.ring.tail := by
    have := congrArg List.length hs.out
    simp only [List.length_map, List.length_take, ← hs.ok.len] at this
    have := hs.ok.tail
    omega
  have hi : (s.run dec n h).Inv dec n := by
    have : ∀ (h : List Ev) (s : One α), s.Inv dec n → (s.run dec n h).Inv dec n := by
      intro h
      induction h with
      | nil => intro s hs; exact hs
      | cons e es ih => intro s hs; exact ih _ (one_step dec n s e hs)
    exact this h s hs
  have := hi.ok.room
  rw [(one_stuck dec n s hs b hb hd h).2, hi.ok.len] at this
  omega

/-! ### Several subscribers sharing the stream -/

/-- Where a subscriber is: it has looked at the tail `t`, or has claimed it. -/
inductive Pc
  | idle
  | looked (t : Nat)
  | claimed (t : Nat)
deriving DecidableEq, Repr

/-- Positions claimed, in order, with their claimant, and what each claimant got
(bookkeeping).

Models horus_core/src/communication/topic/dispatch.rs:1679-1692. -/
structure Many (α : Type) where
  ring : Ring := {}
  lh : Nat → Nat := fun _ => 0
  pc : Nat → Pc := fun _ => .idle
  claims : List (Nat × Nat) := []
  out : List (Nat × Nat × Option α) := []

def upd {β : Type} (f : Nat → β) (i : Nat) (x : β) : Nat → β := fun j => if j = i then x else f j

/-- Nothing to take: the distance is zero or, wrapped around, above the
capacity.

Models horus_core/src/communication/topic/dispatch.rs:1689-1692. -/
def drained (n h t : Nat) : Bool := decide (h ≤ t) || decide (n < h - t)

/-- The tail, and the head if the cached one shows nothing.

Models horus_core/src/communication/topic/dispatch.rs:1693-1700. -/
def Many.look {α : Type} (n : Nat) (s : Many α) (i : Nat) : Many α :=
  if drained n (s.lh i) s.ring.tail then
    if drained n s.ring.head s.ring.tail then { s with lh := upd s.lh i s.ring.head }
    else { s with lh := upd s.lh i s.ring.head, pc := upd s.pc i (.looked s.ring.tail) }
  else { s with pc := upd s.pc i (.looked s.ring.tail) }

/-- The weak compare-and-exchange, which may fail for no reason.

Models horus_core/src/communication/topic/dispatch.rs:1702-1711, 1739-1740. -/
def Many.claim {α : Type} (s : Many α) (i t : Nat) (spurious : Bool) : Many α :=
  if s.ring.tail = t ∧ spurious = false then
    { s with ring := { s.ring with tail := t + 1 }, pc := upd s.pc i (.claimed t), claims := s.claims ++ [(i, t)] }
  else { s with pc := upd s.pc i .idle }

/-- Reading the claimed slot: one that cannot be decoded is skipped.

Models horus_core/src/communication/topic/dispatch.rs:1712-1738. -/
def Many.read {α : Type} (dec : Bytes → Option α) (n : Nat) (s : Many α) (i t : Nat) : Many α :=
  { s with pc := upd s.pc i .idle, out := s.out ++ [(i, t, dec (s.ring.slot (t % n)))] }

inductive Act
  | send (b : Bytes)
  | go (i : Nat) (spurious : Bool)
deriving DecidableEq, Repr

def Many.step {α : Type} (dec : Bytes → Option α) (n : Nat) (s : Many α) : Act → Many α
  | .send b => { s with ring := (s.ring.send n b).1 }
  | .go i sp =>
    match s.pc i with
    | .idle => s.look n i
    | .looked t => s.claim i t sp
    | .claimed t => s.read dec n i t

def Many.run {α : Type} (dec : Bytes → Option α) (n : Nat) (s : Many α) (h : List Act) : Many α := h.foldl (Many.step dec n) s

structure Many.Inv {α : Type} (n : Nat) (s : Many α) : Prop where
  ok : Ok n s.ring
  lh : ∀ i, s.lh i ≤ s.ring.head
  looked : ∀ i t, s.pc i = .looked t → t < s.ring.head
  claims : s.claims.map (·.2) = List.range s.ring.tail
  claimed : ∀ i t, s.pc i = .claimed t → (i, t) ∈ s.claims ∧ ∀ o, (i, t, o) ∉ s.out
  reads : ∀ i t o, (i, t, o) ∈ s.out → (i, t) ∈ s.claims
  once : (s.out.map fun x => x.2.1).Nodup

theorem many_step {α : Type} (dec : Bytes → Option α) (n : Nat) (s : Many α) (a : Act) (h : s.Inv n) : (s.step dec n a).Inv n := by
  cases a with
  | send b =>
    obtain ⟨h1, h2, -⟩ := send_tail n s.ring b
    refine ⟨ok_send n _ b h.ok, fun i => Nat.le_trans (h.lh i) h2, fun i t ht => Nat.lt_of_lt_of_le (h.looked i t ht) h2, ?_, h.claimed, h.reads, h.once⟩
    simp only [Many.step, h1]; exact h.claims
  | go i sp =>
    simp only [Many.step]
    split
    · unfold Many.look drained
      split
      · rename_i h0
        split
        · refine ⟨h.ok, ?_, h.looked, h.claims, h.claimed, h.reads, h.once⟩
          intro j; have := h.lh j; grind [upd]
        · rename_i hn
          refine ⟨h.ok, ?_, ?_, h.claims, ?_, h.reads, h.once⟩
          · intro j; have := h.lh j; grind [upd]
          · intro j t hj; have := h.looked j t; grind [upd]
          · intro j t hj; have := h.claimed j t; grind [upd]
      · rename_i hn
        refine ⟨h.ok, h.lh, ?_, h.claims, ?_, h.reads, h.once⟩
        · intro j t hj; have := h.looked j t; have := h.lh i; grind [upd]
        · intro j t hj; have := h.claimed j t; grind [upd]
    · rename_i t hp
      have ht := h.looked i t hp
      unfold Many.claim
      split
      · rename_i hc
        have hfresh : ∀ j, (j, t) ∉ s.claims := by
          intro j hj
          have : t ∈ s.claims.map (·.2) := List.mem_map.2 ⟨_, hj, rfl⟩
          rw [h.claims, List.mem_range, hc.1] at this
          exact absurd this (Nat.lt_irrefl _)
        refine ⟨⟨h.ok.pos, by have := h.ok.lt; dsimp only; omega, ht, by have := h.ok.room; dsimp only; omega, h.ok.len, h.ok.data⟩, h.lh, ?_, ?_, ?_, ?_, h.once⟩
        · intro j t' hj; have := h.looked j t'; grind [upd]
        · dsimp only
          rw [List.map_append, h.claims, List.range_succ, hc.1]; rfl
        · intro j t' hj
          dsimp only at hj ⊢
          by_cases hji : j = i
          · subst hji
            simp only [upd, if_true, Pc.claimed.injEq] at hj
            subst hj
            exact ⟨List.mem_append_right _ (List.mem_singleton.2 rfl), fun o ho => hfresh _ (h.reads _ _ _ ho)⟩
          · simp only [upd, if_neg hji] at hj
            exact ⟨List.mem_append_left _ (h.claimed j t' hj).1, (h.claimed j t' hj).2⟩
        · intro j t' o ho; exact List.mem_append_left _ (h.reads j t' o ho)
      · refine ⟨h.ok, h.lh, ?_, h.claims, ?_, h.reads, h.once⟩
        · intro j t' hj; have := h.looked j t'; grind [upd]
        · intro j t' hj; have := h.claimed j t'; grind [upd]
    · rename_i t hp
      have hc := h.claimed i t hp
      refine ⟨h.ok, h.lh, ?_, h.claims, ?_, ?_, ?_⟩
      · intro j t' hj; have := h.looked j t'; simp only [Many.read] at hj ⊢; grind [upd]
      · intro j t' hj
        simp only [Many.read] at hj ⊢
        by_cases hji : j = i
        · subst hji; simp [upd] at hj
        · simp only [upd, if_neg hji] at hj
          refine ⟨(h.claimed j t' hj).1, fun o ho => ?_⟩
          rcases List.mem_append.1 ho with ho | ho
          · exact (h.claimed j t' hj).2 o ho
          · have := List.mem_singleton.1 ho
            exact hji (by simpa using congrArg (·.1) this)
      · intro j t' o ho
        simp only [Many.read] at ho
        rcases List.mem_append.1 ho with ho | ho
        · exact h.reads j t' o ho
        · have := List.mem_singleton.1 ho
          simp only [Prod.mk.injEq] at this
          rw [this.1, this.2.1]; exact hc.1
      · simp only [Many.read, List.map_append, List.map_cons, List.map_nil]
        refine List.nodup_append.2 ⟨h.once, List.nodup_singleton _, ?_⟩
        intro x hx y hy hxy
        rw [List.mem_singleton] at hy
        subst hxy; subst hy
        obtain ⟨⟨j, t', o⟩, hm, rfl⟩ := List.mem_map.1 hx
        have hr := h.reads j t' o hm
        have hnd : (s.claims.map (·.2)).Nodup := by rw [h.claims]; exact List.nodup_range
        have : (j, t') = (i, t') := List.inj_on_of_nodup_map hnd hr hc.1 rfl
        have hji : j = i := congrArg (·.1) this
        subst hji
        exact hc.2 o hm

theorem many_run {α : Type} (dec : Bytes → Option α) (n : Nat) (hn : 0 < n) (h : List Act) : ((({} : Many α)).run dec n h).Inv n := by
  induction h using List.reverseRecOn with
  | nil => exact ⟨ok_start n hn, fun _ => Nat.le_refl _, by simp [Many.run], by simp [Many.run], by simp [Many.run], by simp [Many.run], by simp [Many.run]⟩
  | append_singleton p e ih =>
    have : (({} : Many α)).run dec n (p ++ [e]) = ((({} : Many α)).run dec n p).step dec n e := by simp [Many.run]
    rw [this]
    exact many_step dec n _ e ih

/-- The accepted messages are claimed in order without a gap, each by exactly
one subscriber, and each claim is read at most once. -/
theorem many_claims {α : Type} (dec : Bytes → Option α) (n : Nat) (hn : 0 < n) (h : List Act) :
    (∃ k, k ≤ ((({} : Many α)).run dec n h).ring.sent.length ∧ ((({} : Many α)).run dec n h).claims.map (·.2) = List.range k) ∧
      (((({} : Many α)).run dec n h).out.map fun x => x.2.1).Nodup ∧
      ∀ x ∈ ((({} : Many α)).run dec n h).out, (x.1, x.2.1) ∈ ((({} : Many α)).run dec n h).claims :=
  ⟨⟨_, by rw [← (many_run dec n hn h).ok.len]; exact (many_run dec n hn h).ok.tail, (many_run dec n hn h).claims⟩,
    (many_run dec n hn h).once, fun x hx => (many_run dec n hn h).reads x.1 x.2.1 x.2.2 hx⟩

/-- A claimant that reads before the publisher has come around gets the message
it claimed. -/
theorem many_exact_partial {α : Type} (dec : Bytes → Option α) (n : Nat) (s : Many α) (h : s.Inv n) (i t : Nat) (sp : Bool)
    (hp : s.pc i = .claimed t) (hl : s.ring.sent.length ≤ t + n) :
    ∃ b, s.ring.sent[t]? = some b ∧ (s.step dec n (.go i sp)).out = s.out ++ [(i, t, dec b)] := by
  have hc := (h.claimed i t hp).1
  have ht : t < s.ring.tail := by
    have : t ∈ s.claims.map (·.2) := List.mem_map.2 ⟨_, hc, rfl⟩
    rwa [h.claims, List.mem_range] at this
  refine ⟨_, h.ok.data t (Nat.lt_of_lt_of_le ht h.ok.tail) (by rw [h.ok.len]; exact hl), ?_⟩
  simp only [Many.step, hp, Many.read]

/-- A message that cannot be decoded holds nobody up: a subscriber with nobody
else moving takes the next position in three steps, decodable or not, and is
free for the one after. -/
theorem many_goes_on {α : Type} (dec : Bytes → Option α) (n : Nat) (s : Many α) (h : s.Inv n) (i : Nat)
    (hp : s.pc i = .idle) (hne : s.ring.tail < s.ring.head) :
    (s.run dec n [.go i false, .go i false, .go i false]).ring.tail = s.ring.tail + 1 ∧
      (s.run dec n [.go i false, .go i false, .go i false]).pc i = .idle ∧
      (s.run dec n [.go i false, .go i false, .go i false]).out = s.out ++ [(i, s.ring.tail, dec (s.ring.slot (s.ring.tail % n)))] := by
  have hr := h.ok.room
  have hd : drained n s.ring.head s.ring.tail = false := by
    simp only [drained, Bool.or_eq_false_iff, decide_eq_false_iff_not]; omega
  have h1 : ∃ lh, s.look n i = { s with lh := lh, pc := upd s.pc i (.looked s.ring.tail) } := by
    unfold Many.look
    split
    · rw [if_neg (by rw [hd]; simp)]; exact ⟨_, rfl⟩
    · exact ⟨s.lh, rfl⟩
  obtain ⟨lh, h1⟩ := h1
  have e1 : s.step dec n (.go i false) = { s with lh := lh, pc := upd s.pc i (.looked s.ring.tail) } := by simp only [Many.step, hp, h1]
  simp only [Many.run, List.foldl, e1]
  simp [Many.step, upd, Many.claim, Many.read]

/-- Finding: one that is slow between its claim and its read gets a later
message, which is delivered again to the one that claims it. -/
theorem slow_claimant_gets_later :
    let s := (({} : Many Nat)).run (fun b => b.head?) 1 [.send [1], .go 0 false, .go 0 false, .send [2], .go 0 false, .go 1 false, .go 1 false, .go 1 false]
    s.ring.sent = [[1], [2]] ∧ s.out = [(0, 0, some 2), (1, 1, some 2)] := by decide +kernel

/-- A message that cannot be decoded, with one subscriber and with two. -/
example : ((({} : One Nat)).run (fun b => b.head?) 2 [.send [1], .send [], .recv, .recv, .send [2], .recv, .send [3], .recv]).out = [1] ∧
    ((({} : One Nat)).run (fun b => b.head?) 2 [.send [1], .send [], .recv, .recv, .send [2], .recv, .send [3], .recv]).ring.sent = [[1], [], [2]] := by decide +kernel
example : ((({} : Many Nat)).run (fun b => b.head?) 2 [.send [], .send [2], .go 0 false, .go 0 false, .go 0 false, .go 1 false, .go 1 false, .go 1 false]).out =
    [(0, 0, none), (1, 1, some 2)] := by decide +kernel
/-- Two that look at the same position: one gets it. -/
example : ((({} : Many Nat)).run (fun b => b.head?) 4 [.send [7], .send [8], .go 0 false, .go 1 false, .go 1 false, .go 0 false, .go 1 false]).claims = [(1, 0)] := by decide +kernel

end Horus.Single
