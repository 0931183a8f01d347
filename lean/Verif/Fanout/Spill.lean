import Mathlib.Data.List.Basic
import Mathlib.Data.List.Nodup
import Mathlib.Data.List.Perm.Subperm
/-
Large messages on topics with several subscribers in several processes. A message whose serialized form
is longer than 4096 bytes does not fit the fixed slots of such a topic: the publisher copies it once to the
topic's shared pool, sends a descriptor to every subscriber and keeps the allocation alive until the ring
has passed it. Sources: horus_core/src/communication/topic/dispatch.rs:221-249 (`spill_to_pool`), 470-492
(`read_spilled_retained`), 495-612 (`send_fanout_shm`), 616-690 (`recv_fanout_shm`);
topic/shm_fanout.rs:309-362, 903-954 (the channels); topic/mod.rs:2553-2567 (`Drop`);
topic/local_state.rs:114-125; memory/tensor_pool.rs:1007-1125 (`try_retain`, `release`).
Simplifications: an allocation has a number never used again, which stands for slot and generation
(`Horus.Pool.references_current`), and each pool operation is one transition (Verif.Pool has its concurrent
implementation); the subscribers are registered before the first send and their number does not change;
the channels are those of Verif.Fanout seen from outside: an ordered record from which a subscriber takes
one of the newest `cap` messages past the last it took; processes do not crash; messages are their bytes.
-/
namespace Horus.FanoutSpill

/-- The bytes of a serialized message. -/
abbrev Msg := List Nat

/-- `cap`: messages in a ring; `window`: allocations a publisher keeps (dispatch.rs:576,
`cached_capacity`); `slots`: slots of the pool; `threshold`: dispatch.rs:101; `inlineMax`: largest message
in a slot (shm_fanout.rs:316, slot size less 4); `subs`: number of subscribers; `desc`: the allocation that
40 bytes name when they are read as a descriptor (dispatch.rs:129-187). -/
structure Cfg where
  cap : Nat
  window : Nat
  slots : Nat
  threshold : Nat
  inlineMax : Nat
  subs : Nat
  desc : Msg → Nat

/-- What travels in a channel: the bytes, or the descriptor of an allocation (dispatch.rs:586-597). -/
inductive Item
  | inline (b : Msg)
  | spill (a : Nat)
deriving DecidableEq

/-- dispatch.rs:110 SPILL_SENTINEL, as the bytes of a little-endian machine. -/
def sentinel : Msg := [0xBE, 0xBA, 0xFE, 0xCA, 0x11, 0x59, 0xAD, 0xDE]

/-- dispatch.rs:672-677: what the subscriber takes for a descriptor. -/
def looks (b : Msg) : Bool := b.length == 40 && b.take 8 == sentinel

/-- dispatch.rs:671-685: the allocation a subscriber will look up for an item; none: the bytes are the message. -/
def target (c : Cfg) : Item → Option Nat
  | .inline b => if looks b then some (c.desc b) else none
  | .spill a => some a

/-- The bytes of an item that carries its message. -/
def bytes : Item → Msg
  | .inline b => b
  | .spill _ => []

/-- Where a publisher is: between sends; in `send` before an item is chosen; writing an item to the channels
of the subscribers in `todo`; dropped. -/
inductive Ph
  | idle
  | sending (b : Msg)
  | pushing (it : Item) (todo : List Nat)
  | closed
deriving DecidableEq

/-- Where a subscriber is: between receives; holding a descriptor of publisher `p`; having pinned an allocation;
having copied it, the pin not yet released. -/
inductive Rd
  | idle
  | found (p : Nat) (a : Nat)
  | pinned (p : Nat) (a : Nat)
  | copied (a : Nat)
deriving DecidableEq

/-- `rc`, `val`: reference count and bytes of each allocation; `next`: allocations so far; `keep`: the
keep-alives of each publisher, oldest first (local_state.rs:125); `chan p s`: everything publisher `p` has
written for subscriber `s`; `rd p s`: how far `s` has read; `ph`, `rdr`: where everyone is. Records for the
statements: `orig`: what was copied to an allocation; `own`: who made it; `spills p`: the allocations of
`p`; `accepted p`: the messages for which `send` found an item; `refused p`: those it gave back;
`got p s`: what `s` received from `p`. -/
structure St where
  rc : Nat → Nat
  val : Nat → Msg
  next : Nat
  keep : Nat → List Nat
  chan : Nat → Nat → List Item
  rd : Nat → Nat → Nat
  ph : Nat → Ph
  rdr : Nat → Rd
  orig : Nat → Msg
  own : Nat → Nat
  spills : Nat → List Nat
  accepted : Nat → List Msg
  refused : Nat → List Msg
  got : Nat → Nat → List Msg

/-- Nothing sent yet. No source: model infrastructure. -/
def init : St := { rc := fun _ => 0, val := fun _ => [], next := 0, keep := fun _ => [], chan := fun _ _ => [], rd := fun _ _ => 0, ph := fun _ => .idle, rdr := fun _ => .idle, orig := fun _ => [], own := fun _ => 0, spills := fun _ => [], accepted := fun _ => [], refused := fun _ => [], got := fun _ _ => [] }

/-- Function update. No source: model infrastructure. -/
def upd {β : Type} (f : Nat → β) (i : Nat) (v : β) : Nat → β := fun j => if j = i then v else f j

/-- Function update at a pair. No source: model infrastructure. -/
def upd2 {β : Type} (f : Nat → Nat → β) (i j : Nat) (v : β) : Nat → Nat → β := fun x y => if x = i ∧ y = j then v else f x y

/-- tensor_pool.rs:1092-1125 `release`: one reference less; the last one gives the slot back, which wipes it
(`return_slot`). -/
def release (s : St) (a : Nat) : St :=
  { s with rc := upd s.rc a (s.rc a - 1), val := if s.rc a ≤ 1 then upd s.val a [] else s.val }

/-- Allocations in use: each takes a slot (tensor_pool.rs:705-872). -/
def live (s : St) : Nat := (List.range s.next).countP fun a => decide (s.rc a ≠ 0)

/-- What an item stands for; `o`: what was copied to each allocation. -/
def content (o : Nat → Msg) : Item → Msg
  | .inline b => b
  | .spill a => o a

/-- What can happen. `ok`: whether the pool finds memory (it never does without a free slot). -/
inductive Act
  | begin (p : Nat) (b : Msg)
  | evict (p : Nat)
  | alloc (p : Nat) (ok : Bool)
  | direct (p : Nat)
  | put (p : Nat)
  | finish (p : Nat)
  | close (p : Nat)
  | take (s p k : Nat)
  | pin (s : Nat)
  | copy (s : Nat)
  | unpin (s : Nat)

/-- dispatch.rs:599-602, shm_fanout.rs:316: the bytes themselves, if they fit a slot; otherwise the send
fails and gives the message back. -/
def fallback (c : Cfg) (s : St) (p : Nat) (b : Msg) : St :=
  if b.length ≤ c.inlineMax then
    { s with ph := upd s.ph p (.pushing (.inline b) (List.range c.subs)), accepted := upd s.accepted p (s.accepted p ++ [b]) }
  else { s with ph := upd s.ph p .idle, refused := upd s.refused p (s.refused p ++ [b]) }

/-- dispatch.rs:221-249, 584-597: a new allocation with the bytes, kept alive, its descriptor to be sent. -/
def spillTo (c : Cfg) (s : St) (p : Nat) (b : Msg) : St :=
  { s with rc := upd s.rc s.next 1, val := upd s.val s.next b, orig := upd s.orig s.next b, own := upd s.own s.next p, next := s.next + 1, keep := upd s.keep p (s.keep p ++ [s.next]), spills := upd s.spills p (s.spills p ++ [s.next]), accepted := upd s.accepted p (s.accepted p ++ [b]), ph := upd s.ph p (.pushing (.spill s.next) (List.range c.subs)) }

/-- One transition; an action that does not apply changes nothing. Publisher: dispatch.rs:495-612;
`close`: mod.rs:2553-2567; subscriber: dispatch.rs:665-686, 475-492. -/
def step (c : Cfg) (s : St) : Act → St
  | .begin p b =>
    match s.ph p with
    | .idle => { s with ph := upd s.ph p (.sending b) }
    | _ => s
  | .evict p =>
    match s.ph p, s.keep p with
    | .sending b, a :: rest =>
      if c.threshold < b.length ∧ c.window ≤ (a :: rest).length then { release s a with keep := upd s.keep p rest } else s
    | _, _ => s
  | .alloc p ok =>
    match s.ph p with
    | .sending b =>
      if c.threshold < b.length ∧ (s.keep p).length < c.window then
        if ok = true ∧ live s < c.slots then spillTo c s p b else fallback c s p b
      else s
    | _ => s
  | .direct p =>
    match s.ph p with
    | .sending b => if b.length ≤ c.threshold then fallback c s p b else s
    | _ => s
  | .put p =>
    match s.ph p with
    | .pushing it (x :: todo) => { s with chan := upd2 s.chan p x (s.chan p x ++ [it]), ph := upd s.ph p (.pushing it todo) }
    | _ => s
  | .finish p =>
    match s.ph p with
    | .pushing _ [] => { s with ph := upd s.ph p .idle }
    | _ => s
  | .close p =>
    match s.ph p, s.keep p with
    | .idle, [] => { s with ph := upd s.ph p .closed }
    | .idle, a :: rest => { release s a with keep := upd s.keep p rest, ph := upd s.ph p .closed }
    | .closed, a :: rest => { release s a with keep := upd s.keep p rest }
    | _, _ => s
  | .take r p k =>
    match s.rdr r, (s.chan p r)[k]? with
    | .idle, some it =>
      if s.rd p r ≤ k ∧ (s.chan p r).length ≤ k + c.cap ∧ r < c.subs then
        match target c it with
        | none => { s with rd := upd2 s.rd p r (k + 1), got := upd2 s.got p r (s.got p r ++ [bytes it]) }
        | some a => { s with rd := upd2 s.rd p r (k + 1), rdr := upd s.rdr r (.found p a) }
      else s
    | _, _ => s
  | .pin r =>
    match s.rdr r with
    | .found p a =>
      if s.rc a = 0 then { s with rdr := upd s.rdr r .idle }
      else { s with rc := upd s.rc a (s.rc a + 1), rdr := upd s.rdr r (.pinned p a) }
    | _ => s
  | .copy r =>
    match s.rdr r with
    | .pinned p a => { s with got := upd2 s.got p r (s.got p r ++ [s.val a]), rdr := upd s.rdr r (.copied a) }
    | _ => s
  | .unpin r =>
    match s.rdr r with
    | .copied a => { release s a with rdr := upd s.rdr r .idle }
    | _ => s

/-- Any number of transitions. No source: model infrastructure. -/
def run (c : Cfg) : List Act → St → St
  | [], s => s
  | a :: as, s => run c as (step c s a)



/-- Whether a subscriber holds a pin on `a`. -/
def holds (a : Nat) : Rd → Bool
  | .pinned _ b => b = a
  | .copied b => b = a
  | _ => false

/-- Pins on `a`. -/
def pins (c : Cfg) (s : St) (a : Nat) : Nat := (List.range c.subs).countP fun r => holds a (s.rdr r)

theorem countP_upd (n r : Nat) (f : Nat → Rd) (v : Rd) (P : Rd → Bool) (hr : r < n) :
    (List.range n).countP (fun i => P (upd f r v i)) + (if P (f r) then 1 else 0) =
      (List.range n).countP (fun i => P (f i)) + (if P v then 1 else 0) := by
  induction n with
  | zero => omega
  | succ n ih =>
    rw [List.range_succ, List.countP_append, List.countP_append]
    simp only [List.countP_cons, List.countP_nil]
    by_cases h : r = n
    · subst h
      have e : (List.range r).countP (fun i => P (upd f r v i)) = (List.range r).countP (fun i => P (f i)) := by
        apply List.countP_congr
        intro i hi
        have : i ≠ r := by rw [List.mem_range] at hi; omega
        simp [upd, this]
      rw [e]
      simp [upd]
      omega
    · have e := ih (by omega)
      have e2 : upd f r v n = f n := by simp [upd, Ne.symm h]
      rw [e2]
      omega

theorem pins_upd (c : Cfg) (s : St) (r a : Nat) (v : Rd) (hr : r < c.subs) (s' : St) (hs : s'.rdr = upd s.rdr r v) :
    pins c s' a + (if holds a (s.rdr r) then 1 else 0) = pins c s a + (if holds a v then 1 else 0) := by
  unfold pins
  rw [hs]
  exact countP_upd c.subs r s.rdr v (holds a) hr

theorem pins_same (c : Cfg) (s s' : St) (a : Nat) (hs : s'.rdr = s.rdr) : pins c s' a = pins c s a := by
  unfold pins
  rw [hs]

theorem pins_pos (c : Cfg) (s : St) (r a : Nat) (hr : r < c.subs) (h : holds a (s.rdr r) = true) : 0 < pins c s a := by
  unfold pins
  rw [List.countP_pos_iff]
  exact ⟨r, List.mem_range.2 hr, h⟩

/-- The item a publisher still has to write for subscriber `x`. -/
def pend : Ph → Nat → List Item
  | .pushing it todo, x => if x ∈ todo then [it] else []
  | _, _ => []

/-- Reference counts and contents. -/
structure InvA (c : Cfg) (s : St) : Prop where
  rcEq : ∀ a, s.rc a = (s.keep (s.own a)).count a + pins c s a
  fresh : ∀ a, s.next ≤ a → s.rc a = 0
  valOk : ∀ a, s.rc a ≠ 0 → s.val a = s.orig a
  keepOwn : ∀ p a, a ∈ s.keep p → s.own a = p ∧ a < s.next
  keepNodup : ∀ p, (s.keep p).Nodup
  keepLe : ∀ p, (s.keep p).length ≤ c.window
  rdrLt : ∀ r, s.rdr r ≠ .idle → r < c.subs

theorem InvA.init (c : Cfg) : InvA c init := by
  refine ⟨?_, ?_, ?_, ?_, ?_, ?_, ?_⟩ <;> simp [FanoutSpill.init, pins, holds]

theorem InvA.release {c : Cfg} {s : St} (h : InvA c s) (p a : Nat) (rest : List Nat) (hk : s.keep p = a :: rest) (f : Nat → Ph) :
    InvA c { release s a with keep := upd s.keep p rest, ph := f } := by
  obtain ⟨h1, h2, h3, h4, h5, h6, h7⟩ := h
  have ho : s.own a = p := (h4 p a (by rw [hk]; simp)).1
  have hnd := h5 p
  rw [hk] at hnd
  have hna : a ∉ rest := (List.nodup_cons.1 hnd).1
  have hrc := h1 a
  rw [ho, hk] at hrc
  rw [List.count_cons_self] at hrc
  have hp : ∀ b, pins c { FanoutSpill.release s a with keep := upd s.keep p rest, ph := f } b = pins c s b := fun b => pins_same c _ _ b rfl
  refine ⟨?_, ?_, ?_, ?_, ?_, ?_, ?_⟩
  · intro b
    rw [hp]
    have hb := h1 b
    dsimp only [FanoutSpill.release]
    by_cases e : b = a
    · subst e
      simp only [upd, ho, if_true]
      omega
    · simp only [upd, if_neg e]
      rw [hb]
      by_cases e2 : s.own b = p
      · simp [e2, hk, List.count_cons, Ne.symm e]
      · simp [e2]
  · intro b hb
    have := h2 b hb
    dsimp only [FanoutSpill.release]
    by_cases e : b = a
    · subst e; simp [upd, this]
    · simp [upd, e, this]
  · intro b hb
    dsimp only [FanoutSpill.release] at hb ⊢
    by_cases e : b = a
    · subst e
      simp only [upd, if_true] at hb
      rw [if_neg (by omega)]
      exact h3 b (by omega)
    · simp only [upd, if_neg e] at hb
      split
      · simp only [upd, if_neg e]; exact h3 b hb
      · exact h3 b hb
  · intro q b hb
    dsimp only [FanoutSpill.release] at hb ⊢
    by_cases e : q = p
    · subst e
      simp only [upd, if_true] at hb
      exact h4 q b (by rw [hk]; exact List.mem_cons_of_mem _ hb)
    · simp only [upd, if_neg e] at hb
      exact h4 q b hb
  · intro q
    dsimp only [FanoutSpill.release]
    by_cases e : q = p
    · subst e; simp only [upd, if_true]; exact (List.nodup_cons.1 hnd).2
    · simp only [upd, if_neg e]; exact h5 q
  · intro q
    dsimp only [FanoutSpill.release]
    by_cases e : q = p
    · subst e
      simp only [upd, if_true]
      have := h6 q
      rw [hk] at this
      simp at this
      omega
    · simp only [upd, if_neg e]; exact h6 q
  · intro r hr
    exact h7 r hr

theorem InvA.spillTo {c : Cfg} {s : St} (h : InvA c s) (p : Nat) (b : Msg) (hl : (s.keep p).length < c.window) :
    InvA c (spillTo c s p b) := by
  obtain ⟨h1, h2, h3, h4, h5, h6, h7⟩ := h
  have h0 : pins c s s.next = 0 := by have := h1 s.next; have := h2 s.next (Nat.le_refl _); omega
  have hp : ∀ x, pins c (FanoutSpill.spillTo c s p b) x = pins c s x := fun x => pins_same c _ _ x rfl
  have hn : ∀ q, s.next ∉ s.keep q := fun q hq => absurd (h4 q _ hq).2 (Nat.lt_irrefl _)
  refine ⟨?_, ?_, ?_, ?_, ?_, ?_, ?_⟩
  · intro a
    rw [hp]
    have ha := h1 a
    dsimp only [FanoutSpill.spillTo]
    by_cases e : a = s.next
    · subst e; simp [upd, h0, List.count_eq_zero_of_not_mem (hn p)]
    · simp only [upd, if_neg e]
      rw [ha]
      by_cases e2 : s.own a = p
      · simp [e2, List.count_cons, Ne.symm e]
      · simp [e2]
  · intro a ha
    dsimp only [FanoutSpill.spillTo] at ha ⊢
    have : a ≠ s.next := by omega
    simp only [upd, if_neg this]
    exact h2 a (by omega)
  · intro a ha
    dsimp only [FanoutSpill.spillTo] at ha ⊢
    by_cases e : a = s.next
    · subst e; simp [upd]
    · simp only [upd, if_neg e] at ha ⊢; exact h3 a ha
  · intro q a ha
    dsimp only [FanoutSpill.spillTo] at ha ⊢
    by_cases e : q = p
    · subst e
      simp only [upd, if_true, List.mem_append, List.mem_singleton] at ha
      rcases ha with ha | ha
      · have := h4 q a ha
        have e : a ≠ s.next := by omega
        simp only [upd, if_neg e]
        exact ⟨this.1, by omega⟩
      · subst ha; simp [upd]
    · simp only [upd, if_neg e] at ha
      have := h4 q a ha
      have e : a ≠ s.next := by omega
      simp only [upd, if_neg e]
      exact ⟨this.1, by omega⟩
  · intro q
    dsimp only [FanoutSpill.spillTo]
    by_cases e : q = p
    · subst e
      simp only [upd, if_true]
      rw [List.nodup_append]
      refine ⟨h5 q, by simp, ?_⟩
      intro x hx y hy
      simp at hy
      subst hy
      intro e
      subst e
      exact hn q hx
    · simp only [upd, if_neg e]; exact h5 q
  · intro q
    dsimp only [FanoutSpill.spillTo]
    by_cases e : q = p
    · subst e; simp only [upd, if_true, List.length_append, List.length_singleton]; omega
    · simp only [upd, if_neg e]; exact h6 q
  · intro r hr
    exact h7 r hr

/-- The invariant only reads these fields. -/
theorem InvA.of_same {c : Cfg} {s s' : St} (h : InvA c s) (e1 : s'.rc = s.rc) (e2 : s'.val = s.val) (e3 : s'.next = s.next)
    (e4 : s'.keep = s.keep) (e5 : s'.orig = s.orig) (e6 : s'.own = s.own) (e7 : s'.rdr = s.rdr) : InvA c s' := by
  obtain ⟨h1, h2, h3, h4, h5, h6, h7⟩ := h
  refine ⟨?_, ?_, ?_, ?_, ?_, ?_, ?_⟩
  · intro a; rw [pins_same c s s' a e7, e1, e4, e6]; exact h1 a
  · intro a; rw [e1, e3]; exact h2 a
  · intro a; rw [e1, e2, e5]; exact h3 a
  · intro p a; rw [e4, e6, e3]; exact h4 p a
  · intro p; rw [e4]; exact h5 p
  · intro p; rw [e4]; exact h6 p
  · intro r; rw [e7]; exact h7 r

theorem InvA.fallback {c : Cfg} {s : St} (h : InvA c s) (p : Nat) (b : Msg) : InvA c (fallback c s p b) := by
  unfold FanoutSpill.fallback
  split <;> exact h.of_same rfl rfl rfl rfl rfl rfl rfl

theorem InvA.step {c : Cfg} {s : St} (h : InvA c s) (a : Act) : InvA c (step c s a) := by
  cases a with
  | begin p b =>
    dsimp only [FanoutSpill.step]
    split
    · exact h.of_same rfl rfl rfl rfl rfl rfl rfl
    · exact h
  | evict p =>
    dsimp only [FanoutSpill.step]
    split
    · rename_i b a rest hp hk
      split
      · exact h.release p a rest hk s.ph
      · exact h
    · exact h
  | alloc p ok =>
    dsimp only [FanoutSpill.step]
    split
    · split
      · rename_i hl
        split
        · exact h.spillTo p _ hl.2
        · exact h.fallback p _
      · exact h
    · exact h
  | direct p =>
    dsimp only [FanoutSpill.step]
    split
    · split
      · exact h.fallback p _
      · exact h
    · exact h
  | put p =>
    dsimp only [FanoutSpill.step]
    split
    · exact h.of_same rfl rfl rfl rfl rfl rfl rfl
    · exact h
  | finish p =>
    dsimp only [FanoutSpill.step]
    split
    · exact h.of_same rfl rfl rfl rfl rfl rfl rfl
    · exact h
  | close p =>
    dsimp only [FanoutSpill.step]
    split
    · exact h.of_same rfl rfl rfl rfl rfl rfl rfl
    · rename_i a rest hp hk
      exact h.release p a rest hk _
    · rename_i a rest hp hk
      exact h.release p a rest hk s.ph
    · exact h
  | take r p k =>
    dsimp only [FanoutSpill.step]
    split
    · rename_i it hr hi
      split
      · rename_i hc
        split
        · exact h.of_same rfl rfl rfl rfl rfl rfl rfl
        · rename_i a ht
          have hp : ∀ x, pins c { s with rd := upd2 s.rd p r (k + 1), rdr := upd s.rdr r (.found p a) } x = pins c s x := by
            intro x
            have := pins_upd c s r x (.found p a) hc.2.2 { s with rd := upd2 s.rd p r (k + 1), rdr := upd s.rdr r (.found p a) } rfl
            rw [hr] at this
            simpa [holds] using this
          obtain ⟨h1, h2, h3, h4, h5, h6, h7⟩ := h
          refine ⟨fun x => by rw [hp]; exact h1 x, h2, h3, h4, h5, h6, ?_⟩
          intro q hq
          by_cases e : q = r
          · subst e; exact hc.2.2
          · simp only [upd, if_neg e] at hq; exact h7 q hq
      · exact h
    · exact h
  | pin r =>
    dsimp only [FanoutSpill.step]
    split
    · rename_i p a hr
      obtain ⟨h1, h2, h3, h4, h5, h6, h7⟩ := h
      have hlt : r < c.subs := h7 r (by rw [hr]; simp)
      split
      · have hp : ∀ x, pins c { s with rdr := upd s.rdr r .idle } x = pins c s x := by
          intro x
          have := pins_upd c s r x .idle hlt { s with rdr := upd s.rdr r .idle } rfl
          rw [hr] at this
          simpa [holds] using this
        refine ⟨fun x => by rw [hp]; exact h1 x, h2, h3, h4, h5, h6, ?_⟩
        intro q hq
        by_cases e : q = r
        · subst e; exact hlt
        · simp only [upd, if_neg e] at hq; exact h7 q hq
      · rename_i hz
        have hp : ∀ x, pins c { s with rc := upd s.rc a (s.rc a + 1), rdr := upd s.rdr r (.pinned p a) } x = pins c s x + (if a = x then 1 else 0) := by
          intro x
          have := pins_upd c s r x (.pinned p a) hlt { s with rc := upd s.rc a (s.rc a + 1), rdr := upd s.rdr r (.pinned p a) } rfl
          rw [hr] at this
          simpa [holds] using this
        refine ⟨?_, ?_, ?_, h4, h5, h6, ?_⟩
        · intro x
          rw [hp]
          have := h1 x
          dsimp only
          by_cases e : x = a
          · subst e; simp only [upd, if_true]; omega
          · simp only [upd, if_neg e, if_neg (Ne.symm e)]; omega
        · intro x hx
          dsimp only at hx ⊢
          have := h2 x hx
          by_cases e : x = a
          · subst e; exact absurd this hz
          · simp only [upd, if_neg e]; exact this
        · intro x hx
          dsimp only at hx ⊢
          by_cases e : x = a
          · subst e; exact h3 x hz
          · simp only [upd, if_neg e] at hx; exact h3 x hx
        · intro q hq
          by_cases e : q = r
          · subst e; exact hlt
          · simp only [upd, if_neg e] at hq; exact h7 q hq
    · exact h
  | copy r =>
    dsimp only [FanoutSpill.step]
    split
    · rename_i p a hr
      obtain ⟨h1, h2, h3, h4, h5, h6, h7⟩ := h
      have hlt : r < c.subs := h7 r (by rw [hr]; simp)
      have hp : ∀ x, pins c { s with got := upd2 s.got p r (s.got p r ++ [s.val a]), rdr := upd s.rdr r (.copied a) } x = pins c s x := by
        intro x
        have := pins_upd c s r x (.copied a) hlt { s with got := upd2 s.got p r (s.got p r ++ [s.val a]), rdr := upd s.rdr r (.copied a) } rfl
        rw [hr] at this
        simpa [holds] using this
      refine ⟨fun x => by rw [hp]; exact h1 x, h2, h3, h4, h5, h6, ?_⟩
      intro q hq
      by_cases e : q = r
      · subst e; exact hlt
      · simp only [upd, if_neg e] at hq; exact h7 q hq
    · exact h
  | unpin r =>
    dsimp only [FanoutSpill.step]
    split
    · rename_i a hr
      obtain ⟨h1, h2, h3, h4, h5, h6, h7⟩ := h
      have hlt : r < c.subs := h7 r (by rw [hr]; simp)
      have hp : ∀ x, pins c { FanoutSpill.release s a with rdr := upd s.rdr r .idle } x + (if a = x then 1 else 0) = pins c s x := by
        intro x
        have := pins_upd c s r x .idle hlt { FanoutSpill.release s a with rdr := upd s.rdr r .idle } rfl
        rw [hr] at this
        simpa [holds] using this
      have hpos := pins_pos c s r a hlt (by rw [hr]; simp [holds])
      refine ⟨?_, ?_, ?_, h4, h5, h6, ?_⟩
      · intro x
        have e1 := hp x
        have e2 := h1 x
        revert e1
        generalize pins c { FanoutSpill.release s a with rdr := upd s.rdr r .idle } x = n
        intro e1
        dsimp only [FanoutSpill.release]
        by_cases e : x = a
        · subst e; simp only [upd, if_true] at e1 ⊢; omega
        · simp only [upd, if_neg e, if_neg (Ne.symm e)] at e1 ⊢; omega
      · intro x hx
        dsimp only [FanoutSpill.release] at hx ⊢
        have := h2 x hx
        by_cases e : x = a
        · subst e; simp [upd, this]
        · simp only [upd, if_neg e]; exact this
      · intro x hx
        dsimp only [FanoutSpill.release] at hx ⊢
        by_cases e : x = a
        · subst e
          simp only [upd, if_true] at hx
          rw [if_neg (by omega)]
          exact h3 x (by omega)
        · simp only [upd, if_neg e] at hx
          split
          · simp only [upd, if_neg e]; exact h3 x hx
          · exact h3 x hx
      · intro q hq
        by_cases e : q = r
        · subst e; exact hlt
        · dsimp only [FanoutSpill.release] at hq
          simp only [upd, if_neg e] at hq; exact h7 q hq
    · exact h


/-- The allocation an item points to. -/
def spillId : Item → Option Nat
  | .inline _ => none
  | .spill a => some a

/-- Channels and keep-alives. -/
structure InvB (c : Cfg) (s : St) : Prop where
  acc : ∀ p x, x < c.subs → s.accepted p = (s.chan p x ++ pend (s.ph p) x).map (content s.orig)
  spl : ∀ p x, x < c.subs → s.spills p = (s.chan p x ++ pend (s.ph p) x).filterMap spillId
  lt : ∀ p x a, Item.spill a ∈ s.chan p x ++ pend (s.ph p) x → a < s.next
  todo : ∀ p it t, s.ph p = .pushing it t → t.Nodup
  suf : ∀ p, s.ph p ≠ .closed → ∃ pre, s.spills p = pre ++ s.keep p ∧
    (pre ≠ [] → c.window ≤ (s.keep p).length + 1 ∧ ((∃ a t, s.ph p = .pushing (.spill a) t) → c.window ≤ (s.keep p).length))

theorem InvB.init (c : Cfg) : InvB c init := by
  refine ⟨?_, ?_, ?_, ?_, ?_⟩ <;> simp [FanoutSpill.init, pend]

theorem content_congr {o o' : Nat → Msg} {l : List Item} (h : ∀ a, Item.spill a ∈ l → o' a = o a) :
    l.map (content o') = l.map (content o) := by
  apply List.map_congr_left
  intro it hit
  cases it with
  | inline b => rfl
  | spill a => exact h a hit

/-- Steps that touch only fields the invariant does not read. -/
theorem InvB.of_same {c : Cfg} {s s' : St} (h : InvB c s) (e1 : s'.accepted = s.accepted) (e2 : s'.chan = s.chan)
    (e3 : s'.ph = s.ph) (e4 : s'.orig = s.orig) (e5 : s'.spills = s.spills) (e6 : s'.next = s.next)
    (e7 : s'.keep = s.keep) : InvB c s' := by
  obtain ⟨h1, h2, h3, h4, h5⟩ := h
  refine ⟨?_, ?_, ?_, ?_, ?_⟩
  · intro p x hx
    rw [e1, e2, e3, h1 p x hx]
    exact (content_congr (fun a _ => by rw [e4])).symm
  · intro p x hx; rw [e5, e2, e3]; exact h2 p x hx
  · intro p x a; rw [e2, e3, e6]; exact h3 p x a
  · intro p it t; rw [e3]; exact h4 p it t
  · intro p; rw [e3, e5, e7]; exact h5 p

/-- One publisher changes phase without an item appearing or disappearing. -/
theorem InvB.phase {c : Cfg} {s : St} (h : InvB c s) (p : Nat) (v : Ph) (hpend : ∀ x, pend v x = pend (s.ph p) x)
    (ht : ∀ it t, v = .pushing it t → t.Nodup) (hs : ∀ a t, v ≠ .pushing (.spill a) t) (hc : v ≠ .closed → s.ph p ≠ .closed) :
    InvB c { s with ph := upd s.ph p v } := by
  obtain ⟨h1, h2, h3, h4, h5⟩ := h
  have hp : ∀ q x, pend (upd s.ph p v q) x = pend (s.ph q) x := by
    intro q x
    by_cases e : q = p
    · subst e; simp only [upd, if_true]; exact hpend x
    · simp only [upd, if_neg e]
  refine ⟨?_, ?_, ?_, ?_, ?_⟩
  · intro q x hx
    dsimp only
    rw [hp, h1 q x hx]
  · intro q x hx
    dsimp only
    rw [hp]; exact h2 q x hx
  · intro q x a ha
    dsimp only at ha ⊢
    rw [hp] at ha; exact h3 q x a ha
  · intro q it t hq
    dsimp only at hq
    by_cases e : q = p
    · subst e; simp only [upd, if_true] at hq; exact ht it t hq
    · simp only [upd, if_neg e] at hq; exact h4 q it t hq
  · intro q hq
    dsimp only at hq ⊢
    by_cases e : q = p
    · subst e
      simp only [upd, if_true] at hq ⊢
      obtain ⟨pre, e1, e2⟩ := h5 q (hc hq)
      exact ⟨pre, e1, fun hn => ⟨(e2 hn).1, fun ⟨a, t, h⟩ => absurd h (hs a t)⟩⟩
    · simp only [upd, if_neg e] at hq ⊢
      exact h5 q hq

theorem InvB.fallback {c : Cfg} {s : St} (h : InvB c s) (p : Nat) (b b' : Msg) (hp : s.ph p = .sending b') : InvB c (fallback c s p b) := by
  unfold FanoutSpill.fallback
  split
  · obtain ⟨h1, h2, h3, h4, h5⟩ := h
    refine ⟨?_, ?_, ?_, ?_, ?_⟩
    · intro q x hx
      dsimp only
      by_cases e : q = p
      · subst e
        have := h1 q x hx
        rw [hp] at this
        simp only [upd, if_true, pend, List.mem_range, if_pos hx, List.map_append]
        simp only [pend, List.append_nil] at this
        rw [this]
        rfl
      · simp only [upd, if_neg e]
        exact h1 q x hx
    · intro q x hx
      dsimp only
      by_cases e : q = p
      · subst e
        have := h2 q x hx
        rw [hp] at this
        simp only [pend, List.append_nil] at this
        simp only [upd, if_true, pend, List.mem_range, if_pos hx, List.filterMap_append]
        rw [this]
        simp [spillId]
      · simp only [upd, if_neg e]
        exact h2 q x hx
    · intro q x a ha
      dsimp only at ha ⊢
      by_cases e : q = p
      · subst e
        simp only [upd, if_true, pend] at ha
        apply h3 q x a
        rw [hp]
        simp only [pend, List.append_nil]
        split at ha <;> simpa using ha
      · simp only [upd, if_neg e] at ha
        exact h3 q x a ha
    · intro q it t hq
      dsimp only at hq
      by_cases e : q = p
      · subst e
        simp only [upd, if_true, Ph.pushing.injEq] at hq
        rw [← hq.2]
        exact List.nodup_range
      · simp only [upd, if_neg e] at hq; exact h4 q it t hq
    · intro q hq
      dsimp only at hq ⊢
      by_cases e : q = p
      · subst e
        obtain ⟨pre, e1, e2⟩ := h5 q (by rw [hp]; simp)
        refine ⟨pre, e1, fun hn => ⟨(e2 hn).1, ?_⟩⟩
        rintro ⟨a, t, h⟩
        simp [upd] at h
      · simp only [upd, if_neg e] at hq ⊢
        exact h5 q hq
  · have := h.phase p .idle (by intro x; rw [hp]; rfl) (by simp) (by simp) (by rw [hp]; simp)
    exact this.of_same rfl rfl rfl rfl rfl rfl rfl

theorem InvB.spillTo {c : Cfg} {s : St} (h : InvB c s) (p : Nat) (b b' : Msg) (hp : s.ph p = .sending b')
    (hl : (s.keep p).length < c.window) : InvB c (spillTo c s p b) := by
  obtain ⟨h1, h2, h3, h4, h5⟩ := h
  have hold : ∀ q x, (s.chan q x).map (content (FanoutSpill.spillTo c s p b).orig) = (s.chan q x).map (content s.orig) := by
    intro q x
    apply content_congr
    intro a ha
    have := h3 q x a (List.mem_append_left _ ha)
    have e : a ≠ s.next := by omega
    simp [FanoutSpill.spillTo, upd, e]
  refine ⟨?_, ?_, ?_, ?_, ?_⟩
  · intro q x hx
    by_cases e : q = p
    · subst e
      have := h1 q x hx
      rw [hp] at this
      simp only [pend, List.append_nil] at this
      rw [List.map_append]
      have e1 : (FanoutSpill.spillTo c s q b).chan = s.chan := rfl
      have e2 : (FanoutSpill.spillTo c s q b).ph q = .pushing (.spill s.next) (List.range c.subs) := by simp [FanoutSpill.spillTo, upd]
      have e3 : (FanoutSpill.spillTo c s q b).accepted q = s.accepted q ++ [b] := by simp [FanoutSpill.spillTo, upd]
      rw [e1, e2, e3, hold, ← this]
      simp only [pend, List.mem_range, if_pos hx, List.map_cons, List.map_nil, content]
      simp [FanoutSpill.spillTo, upd]
    · have e1 : (FanoutSpill.spillTo c s p b).chan = s.chan := rfl
      have e2 : (FanoutSpill.spillTo c s p b).ph q = s.ph q := by simp [FanoutSpill.spillTo, upd, e]
      have e3 : (FanoutSpill.spillTo c s p b).accepted q = s.accepted q := by simp [FanoutSpill.spillTo, upd, e]
      rw [e1, e2, e3, h1 q x hx]
      apply List.map_congr_left
      intro it hit
      cases it with
      | inline b => rfl
      | spill a =>
        have := h3 q x a hit
        have e : a ≠ s.next := by omega
        simp [content, FanoutSpill.spillTo, upd, e]
  · intro q x hx
    dsimp only [FanoutSpill.spillTo]
    by_cases e : q = p
    · subst e
      have := h2 q x hx
      rw [hp] at this
      simp only [pend, List.append_nil] at this
      simp only [upd, if_true, pend, List.mem_range, if_pos hx, List.filterMap_append]
      rw [this]
      rfl
    · simp only [upd, if_neg e]
      exact h2 q x hx
  · intro q x a ha
    dsimp only [FanoutSpill.spillTo] at ha ⊢
    by_cases e : q = p
    · subst e
      simp only [upd, if_true, pend] at ha
      rw [List.mem_append] at ha
      rcases ha with ha | ha
      · have := h3 q x a (List.mem_append_left _ ha); omega
      · split at ha
        · simp at ha; omega
        · simp at ha
    · simp only [upd, if_neg e] at ha
      have := h3 q x a ha
      omega
  · intro q it t hq
    dsimp only [FanoutSpill.spillTo] at hq
    by_cases e : q = p
    · subst e
      simp only [upd, if_true, Ph.pushing.injEq] at hq
      rw [← hq.2]
      exact List.nodup_range
    · simp only [upd, if_neg e] at hq; exact h4 q it t hq
  · intro q hq
    dsimp only [FanoutSpill.spillTo] at hq ⊢
    by_cases e : q = p
    · subst e
      obtain ⟨pre, e1, e2⟩ := h5 q (by rw [hp]; simp)
      refine ⟨pre, ?_, fun hn => ?_⟩
      · simp only [upd, if_true]
        rw [e1, List.append_assoc]
      · simp only [upd, if_true, List.length_append, List.length_singleton]
        have := (e2 hn).1
        omega
    · simp only [upd, if_neg e] at hq ⊢
      exact h5 q hq

theorem InvB.step {c : Cfg} {s : St} (h : InvB c s) (a : Act) : InvB c (step c s a) := by
  cases a with
  | begin p b =>
    dsimp only [FanoutSpill.step]
    split
    · rename_i hp
      exact h.phase p _ (by intro x; rw [hp]; rfl) (by simp) (by simp) (by rw [hp]; simp)
    · exact h
  | evict p =>
    dsimp only [FanoutSpill.step]
    split
    · rename_i b a rest hp hk
      split
      · rename_i hl
        obtain ⟨h1, h2, h3, h4, h5⟩ := h
        refine ⟨?_, h2, h3, h4, ?_⟩
        · intro q x hx
          have := h1 q x hx
          refine this.trans ?_
          exact (content_congr (fun a _ => rfl)).symm
        · intro q hq
          dsimp only [FanoutSpill.release] at hq ⊢
          by_cases e : q = p
          · subst e
            obtain ⟨pre, e1, e2⟩ := h5 q hq
            rw [hk] at e1
            refine ⟨pre ++ [a], ?_, fun _ => ⟨?_, ?_⟩⟩
            · rw [e1]; simp [upd]
            · have := hl.2
              simp only [upd, if_true]
              simp only [List.length_cons] at this
              omega
            · rintro ⟨a', t, ha⟩
              rw [hp] at ha
              cases ha
          · simp only [upd, if_neg e]
            exact h5 q hq
      · exact h
    · exact h
  | alloc p ok =>
    dsimp only [FanoutSpill.step]
    split
    · rename_i b hp
      split
      · rename_i hl
        split
        · exact h.spillTo p _ _ hp hl.2
        · exact h.fallback p _ _ hp
      · exact h
    · exact h
  | direct p =>
    dsimp only [FanoutSpill.step]
    split
    · rename_i b hp
      split
      · exact h.fallback p _ _ hp
      · exact h
    · exact h
  | put p =>
    dsimp only [FanoutSpill.step]
    split
    · rename_i it x todo hp
      obtain ⟨h1, h2, h3, h4, h5⟩ := h
      have hnd := h4 p it _ hp
      have hx := (List.nodup_cons.1 hnd).1
      have key : ∀ q y, upd2 s.chan p x (s.chan p x ++ [it]) q y ++ pend (upd s.ph p (.pushing it todo) q) y = s.chan q y ++ pend (s.ph q) y := by
        intro q y
        by_cases e : q = p
        · subst e
          rw [hp]
          by_cases e2 : y = x
          · subst e2; simp [upd2, upd, pend, hx]
          · simp [upd2, upd, pend, e2]
        · simp [upd2, upd, e]
      refine ⟨?_, ?_, ?_, ?_, ?_⟩
      · intro q y hy
        dsimp only
        rw [key, h1 q y hy]
      · intro q y hy
        dsimp only
        rw [key]; exact h2 q y hy
      · intro q y a ha
        dsimp only at ha ⊢
        rw [key] at ha; exact h3 q y a ha
      · intro q it' t hq
        dsimp only at hq
        by_cases e : q = p
        · subst e
          simp only [upd, if_true, Ph.pushing.injEq] at hq
          rw [← hq.2]
          exact (List.nodup_cons.1 hnd).2
        · simp only [upd, if_neg e] at hq; exact h4 q it' t hq
      · intro q hq
        dsimp only at hq ⊢
        by_cases e : q = p
        · subst e
          obtain ⟨pre, e1, e2⟩ := h5 q (by rw [hp]; simp)
          refine ⟨pre, e1, fun hn => ⟨(e2 hn).1, ?_⟩⟩
          rintro ⟨a, t, ha⟩
          simp only [upd, if_true, Ph.pushing.injEq] at ha
          exact (e2 hn).2 ⟨a, _, by rw [hp, ha.1]⟩
        · simp only [upd, if_neg e] at hq ⊢
          exact h5 q hq
    · exact h
  | finish p =>
    dsimp only [FanoutSpill.step]
    split
    · rename_i it hp
      exact h.phase p _ (by intro x; rw [hp]; simp [pend]) (by simp) (by simp) (by rw [hp]; simp)
    · exact h
  | close p =>
    have gen : ∀ (a : Nat) (rest : List Nat) (s' : St), s.ph p = .idle ∨ s.ph p = .closed → s' = { release s a with keep := upd s.keep p rest, ph := upd s.ph p .closed } → InvB c s' := by
      intro a rest s' hp hs'
      have := h.phase p .closed (by intro x; rcases hp with hp | hp <;> rw [hp] <;> rfl) (by simp) (by simp) (by simp)
      obtain ⟨h1, h2, h3, h4, h5⟩ := this
      subst hs'
      refine ⟨?_, h2, h3, h4, ?_⟩
      · intro q x hx
        refine (h1 q x hx).trans ?_
        exact (content_congr (fun a _ => rfl)).symm
      · intro q hq
        dsimp only at hq ⊢
        by_cases e : q = p
        · subst e; simp [upd] at hq
        · have := h5 q hq
          simp only [upd, if_neg e] at this ⊢
          exact this
    dsimp only [FanoutSpill.step]
    split
    · rename_i hp hk
      exact h.phase p _ (by intro x; rw [hp]; rfl) (by simp) (by simp) (by simp)
    · rename_i a rest hp hk
      exact gen a rest _ (Or.inl hp) rfl
    · rename_i a rest hp hk
      refine gen a rest _ (Or.inr hp) ?_
      have : upd s.ph p .closed = s.ph := by
        funext q
        by_cases e : q = p
        · subst e; simp [upd, hp]
        · simp [upd, e]
      rw [this]
      rfl
    · exact h
  | take r p k =>
    dsimp only [FanoutSpill.step]
    split
    · split
      · split <;> exact h.of_same rfl rfl rfl rfl rfl rfl rfl
      · exact h
    · exact h
  | pin r =>
    dsimp only [FanoutSpill.step]
    split
    · split <;> exact h.of_same rfl rfl rfl rfl rfl rfl rfl
    · exact h
  | copy r =>
    dsimp only [FanoutSpill.step]
    split
    · exact h.of_same rfl rfl rfl rfl rfl rfl rfl
    · exact h
  | unpin r =>
    dsimp only [FanoutSpill.step]
    split
    · exact h.of_same rfl rfl rfl rfl rfl rfl rfl
    · exact h

/-- The message a subscriber is about to receive from `p`. -/
def hand (o : Nat → Msg) (p : Nat) : Rd → List Msg
  | .found q a => if q = p then [o a] else []
  | .pinned q a => if q = p then [o a] else []
  | _ => []

/-- Receiving. -/
structure InvG (s : St) : Prop where
  gotSub : ∀ p r, (s.got p r ++ hand s.orig p (s.rdr r)).Sublist (((s.chan p r).take (s.rd p r)).map (content s.orig))
  rdLe : ∀ p r, s.rd p r ≤ (s.chan p r).length
  handLt : ∀ r p a, s.rdr r = .found p a ∨ s.rdr r = .pinned p a → a < s.next
  plain : ∀ p x b, Item.inline b ∈ s.chan p x ++ pend (s.ph p) x → looks b = false
  plainS : ∀ p b, s.ph p = .sending b → looks b = false

theorem InvG.init : InvG init := by
  refine ⟨?_, ?_, ?_, ?_, ?_⟩ <;> simp [FanoutSpill.init, hand, pend]

theorem InvG.of_same {s s' : St} (h : InvG s) (e1 : s'.got = s.got) (e2 : s'.rdr = s.rdr) (e3 : s'.chan = s.chan)
    (e4 : s'.rd = s.rd) (e5 : s'.orig = s.orig) (e6 : s'.next = s.next) (e7 : s'.ph = s.ph) : InvG s' := by
  obtain ⟨h1, h2, h3, h4, h5⟩ := h
  refine ⟨?_, ?_, ?_, ?_, ?_⟩
  · intro p r
    have e : hand s'.orig p (s'.rdr r) = hand s.orig p (s.rdr r) := by rw [e2, e5]
    rw [e, e1, e3, e4, e5]
    exact h1 p r
  · intro p r; rw [e3, e4]; exact h2 p r
  · intro r p a; rw [e2, e6]; exact h3 r p a
  · intro p x b; rw [e3, e7]; exact h4 p x b
  · intro p b; rw [e7]; exact h5 p b

/-- One publisher changes phase, with no new item. -/
theorem InvG.phase {s : St} (h : InvG s) (p : Nat) (v : Ph) (hp : ∀ x it, it ∈ pend v x → it ∈ pend (s.ph p) x)
    (hv : ∀ b, v = .sending b → looks b = false) : InvG { s with ph := upd s.ph p v } := by
  obtain ⟨h1, h2, h3, h4, h5⟩ := h
  refine ⟨?_, h2, h3, ?_, ?_⟩
  · intro q r
    have := h1 q r
    dsimp only
    exact this
  · intro q x b hb
    dsimp only at hb
    by_cases e : q = p
    · subst e
      simp only [upd, if_true] at hb
      apply h4 q x b
      rw [List.mem_append] at hb ⊢
      exact hb.imp id (hp x _)
    · simp only [upd, if_neg e] at hb; exact h4 q x b hb
  · intro q b hq
    dsimp only at hq
    by_cases e : q = p
    · subst e; simp only [upd, if_true] at hq; exact hv b hq
    · simp only [upd, if_neg e] at hq; exact h5 q b hq

theorem InvG.fallback {c : Cfg} {s : St} (h : InvG s) (p : Nat) (b : Msg) (hp : s.ph p = .sending b) : InvG (fallback c s p b) := by
  unfold FanoutSpill.fallback
  split
  · have hb := h.plainS p b hp
    obtain ⟨h1, h2, h3, h4, h5⟩ := h
    refine ⟨?_, h2, h3, ?_, ?_⟩
    · intro q r
      have := h1 q r
      dsimp only
      exact this
    · intro q x b' hb'
      dsimp only at hb'
      by_cases e : q = p
      · subst e
        simp only [upd, if_true, pend] at hb'
        rw [List.mem_append] at hb'
        rcases hb' with hb' | hb'
        · exact h4 q x b' (List.mem_append_left _ hb')
        · split at hb'
          · simp at hb'; rw [hb']; exact hb
          · simp at hb'
      · simp only [upd, if_neg e] at hb'; exact h4 q x b' hb'
    · intro q b' hq
      dsimp only at hq
      by_cases e : q = p
      · subst e; simp [upd] at hq
      · simp only [upd, if_neg e] at hq; exact h5 q b' hq
  · exact (h.phase p .idle (by simp [pend]) (by simp)).of_same rfl rfl rfl rfl rfl rfl rfl

theorem InvG.spillTo {c : Cfg} {s : St} (h : InvG s) (hB : InvB c s) (p : Nat) (b : Msg) : InvG (spillTo c s p b) := by
  obtain ⟨h1, h2, h3, h4, h5⟩ := h
  refine ⟨?_, h2, ?_, ?_, ?_⟩
  · intro q r
    have := h1 q r
    have e : hand (FanoutSpill.spillTo c s p b).orig q (s.rdr r) = hand s.orig q (s.rdr r) := by
      have hl := h3 r
      unfold hand
      split
      · rename_i q' a hr
        have := hl q' a (Or.inl hr)
        have e : a ≠ s.next := by omega
        simp [FanoutSpill.spillTo, upd, e]
      · rename_i q' a hr
        have := hl q' a (Or.inr hr)
        have e : a ≠ s.next := by omega
        simp [FanoutSpill.spillTo, upd, e]
      · rfl
    have e2 : (((s.chan q r).take (s.rd q r)).map (content (FanoutSpill.spillTo c s p b).orig)) = ((s.chan q r).take (s.rd q r)).map (content s.orig) := by
      apply content_congr
      intro a ha
      have := hB.lt q r a (List.mem_append_left _ (List.mem_of_mem_take ha))
      have e : a ≠ s.next := by omega
      simp [FanoutSpill.spillTo, upd, e]
    show (s.got q r ++ hand (FanoutSpill.spillTo c s p b).orig q (s.rdr r)).Sublist (((s.chan q r).take (s.rd q r)).map (content (FanoutSpill.spillTo c s p b).orig))
    rw [e, e2]
    exact this
  · intro r q a ha
    have := h3 r q a ha
    show a < s.next + 1
    omega
  · intro q x b' hb'
    dsimp only [FanoutSpill.spillTo] at hb'
    by_cases e : q = p
    · subst e
      simp only [upd, if_true, pend] at hb'
      rw [List.mem_append] at hb'
      rcases hb' with hb' | hb'
      · exact h4 q x b' (List.mem_append_left _ hb')
      · split at hb' <;> simp at hb'
    · simp only [upd, if_neg e] at hb'; exact h4 q x b' hb'
  · intro q b' hq
    dsimp only [FanoutSpill.spillTo] at hq
    by_cases e : q = p
    · subst e; simp [upd] at hq
    · simp only [upd, if_neg e] at hq; exact h5 q b' hq

theorem take_get {α : Type} {l : List α} {k : Nat} {x : α} (h : l[k]? = some x) : l.take (k + 1) = l.take k ++ [x] := by
  rw [List.take_add_one, h]
  rfl

/-- A subscriber takes the item at `k`: what was handed out stays in order. -/
theorem took {s : St} {p r k : Nat} {it : Item} {g : List Msg} (h : g.Sublist (((s.chan p r).take (s.rd p r)).map (content s.orig)))
    (hk : s.rd p r ≤ k) (hi : (s.chan p r)[k]? = some it) :
    (g ++ [content s.orig it]).Sublist (((s.chan p r).take (k + 1)).map (content s.orig)) := by
  rw [take_get hi, List.map_append]
  apply List.Sublist.append
  · exact h.trans ((List.take_sublist_take_left hk).map _)
  · simp

theorem InvG.step {c : Cfg} {s : St} (h : InvG s) (hA : InvA c s) (hB : InvB c s) (a : Act)
    (ha : ∀ p b, a = .begin p b → looks b = false) : InvG (step c s a) := by
  cases a with
  | begin p b =>
    dsimp only [FanoutSpill.step]
    split
    · rename_i hp
      exact h.phase p _ (by simp [pend]) (by intro b' e; cases e; exact ha p b rfl)
    · exact h
  | evict p =>
    dsimp only [FanoutSpill.step]
    split
    · split
      · exact h.of_same rfl rfl rfl rfl rfl rfl rfl
      · exact h
    · exact h
  | alloc p ok =>
    dsimp only [FanoutSpill.step]
    split
    · rename_i b hp
      split
      · split
        · exact h.spillTo hB p _
        · exact h.fallback p _ hp
      · exact h
    · exact h
  | direct p =>
    dsimp only [FanoutSpill.step]
    split
    · rename_i b hp
      split
      · exact h.fallback p _ hp
      · exact h
    · exact h
  | put p =>
    dsimp only [FanoutSpill.step]
    split
    · rename_i it x todo hp
      obtain ⟨h1, h2, h3, h4, h5⟩ := h
      refine ⟨?_, ?_, h3, ?_, ?_⟩
      · intro q r
        have := h1 q r
        have e : ((upd2 s.chan p x (s.chan p x ++ [it]) q r).take (s.rd q r)) = (s.chan q r).take (s.rd q r) := by
          by_cases e : q = p ∧ r = x
          · obtain ⟨rfl, rfl⟩ := e
            simp only [upd2, and_self, if_true]
            rw [List.take_append_of_le_length (h2 q r)]
          · simp only [upd2, if_neg e]
        dsimp only
        rw [e]
        exact this
      · intro q r
        have := h2 q r
        dsimp only
        by_cases e : q = p ∧ r = x
        · obtain ⟨rfl, rfl⟩ := e
          simp only [upd2, and_self, if_true, List.length_append]
          omega
        · simp only [upd2, if_neg e]; exact this
      · intro q y b hb
        dsimp only at hb
        apply h4 q y b
        by_cases e : q = p
        · subst e
          rw [hp]
          by_cases e2 : y = x
          · subst e2
            simp only [upd2, and_self, if_true, upd, pend] at hb
            simp only [pend, List.mem_cons, true_or, if_true]
            rw [List.mem_append, List.mem_append] at hb
            rw [List.mem_append]
            rcases hb with (hb | hb) | hb
            · exact Or.inl hb
            · exact Or.inr hb
            · split at hb
              · exact Or.inr hb
              · simp at hb
          · simpa [upd2, upd, pend, e2] using hb
        · simpa [upd2, upd, e] using hb
      · intro q b hq
        dsimp only at hq
        by_cases e : q = p
        · subst e; simp [upd] at hq
        · simp only [upd, if_neg e] at hq; exact h5 q b hq
    · exact h
  | finish p =>
    dsimp only [FanoutSpill.step]
    split
    · exact h.phase p _ (by simp [pend]) (by simp)
    · exact h
  | close p =>
    dsimp only [FanoutSpill.step]
    split
    · exact h.phase p _ (by simp [pend]) (by simp)
    · exact (h.phase p .closed (by simp [pend]) (by simp)).of_same rfl rfl rfl rfl rfl rfl rfl
    · exact h.of_same rfl rfl rfl rfl rfl rfl rfl
    · exact h
  | take r p k =>
    dsimp only [FanoutSpill.step]
    split
    · rename_i it hr hi
      split
      · rename_i hc
        have hmem : it ∈ s.chan p r := List.mem_of_getElem? hi
        have hlen : k < (s.chan p r).length := by
          rw [List.getElem?_eq_some_iff] at hi; exact hi.1
        obtain ⟨h1, h2, h3, h4, h5⟩ := h
        have base := took (g := s.got p r) (by have := h1 p r; rw [hr] at this; simpa [hand] using this) hc.1 hi
        have hrd : ∀ q x, upd2 s.rd p r (k + 1) q x ≤ (s.chan q x).length := by
          intro q x
          by_cases e : q = p ∧ x = r
          · obtain ⟨rfl, rfl⟩ := e; simp only [upd2, and_self, if_true]; omega
          · simp only [upd2, if_neg e]; exact h2 q x
        split
        · rename_i ht
          have e1 : bytes it = content s.orig it := by
            cases it with
            | inline b => rfl
            | spill a => simp [target] at ht
          refine ⟨?_, hrd, h3, h4, h5⟩
          intro q x
          dsimp only
          by_cases e : q = p ∧ x = r
          · obtain ⟨rfl, rfl⟩ := e
            simp only [upd2, and_self, if_true, hr, hand, List.append_nil, e1]
            exact base
          · simp only [upd2, if_neg e]; exact h1 q x
        · rename_i a ht
          have hit : it = .spill a := by
            cases it with
            | inline b =>
              have := h4 p r b (List.mem_append_left _ hmem)
              simp [target, this] at ht
            | spill a' => simp [target] at ht; rw [ht]
          subst hit
          refine ⟨?_, hrd, ?_, h4, h5⟩
          · intro q x
            dsimp only
            by_cases e : x = r
            · subst e
              simp only [upd, if_true, hand]
              by_cases e3 : q = p
              · subst e3
                simp only [upd2, and_self, if_true]
                exact base
              · have := h1 q x
                rw [hr] at this
                simp only [if_neg (Ne.symm e3), upd2, e3, false_and, if_false, List.append_nil]
                simpa [hand] using this
            · simp only [upd, if_neg e, upd2, e, and_false, if_false]
              exact h1 q x
          · intro x q b hb
            dsimp only at hb
            by_cases e : x = r
            · subst e
              simp only [upd, if_true, Rd.found.injEq, reduceCtorEq, or_false] at hb
              rw [← hb.2]
              exact hB.lt p x a (List.mem_append_left _ hmem)
            · simp only [upd, if_neg e] at hb; exact h3 x q b hb
      · exact h
    · exact h
  | pin r =>
    dsimp only [FanoutSpill.step]
    split
    · rename_i p a hr
      obtain ⟨h1, h2, h3, h4, h5⟩ := h
      split
      · refine ⟨?_, h2, ?_, h4, h5⟩
        · intro q x
          dsimp only
          by_cases e : x = r
          · subst e
            simp only [upd, if_true, hand, List.append_nil]
            exact (List.sublist_append_left _ _).trans (h1 q x)
          · simp only [upd, if_neg e]; exact h1 q x
        · intro x q b hb
          dsimp only at hb
          by_cases e : x = r
          · subst e; simp [upd] at hb
          · simp only [upd, if_neg e] at hb; exact h3 x q b hb
      · refine ⟨?_, h2, ?_, h4, h5⟩
        · intro q x
          dsimp only
          by_cases e : x = r
          · subst e
            have := h1 q x
            rw [hr] at this
            simp only [upd, if_true, hand] at this ⊢
            exact this
          · simp only [upd, if_neg e]; exact h1 q x
        · intro x q b hb
          dsimp only at hb
          by_cases e : x = r
          · subst e
            simp only [upd, if_true, Rd.pinned.injEq, reduceCtorEq, false_or] at hb
            rw [← hb.2]
            exact h3 x p a (Or.inl hr)
          · simp only [upd, if_neg e] at hb; exact h3 x q b hb
    · exact h
  | copy r =>
    dsimp only [FanoutSpill.step]
    split
    · rename_i p a hr
      have hlt : r < c.subs := hA.rdrLt r (by rw [hr]; simp)
      have hpos := pins_pos c s r a hlt (by rw [hr]; simp [holds])
      have hval : s.val a = s.orig a := hA.valOk a (by have := hA.rcEq a; omega)
      obtain ⟨h1, h2, h3, h4, h5⟩ := h
      refine ⟨?_, h2, ?_, h4, h5⟩
      · intro q x
        dsimp only
        by_cases e : x = r
        · subst e
          have := h1 q x
          rw [hr] at this
          simp only [upd, if_true, hand, List.append_nil]
          by_cases e3 : q = p
          · subst e3
            simp only [hand, if_true] at this
            simp only [upd2, and_self, if_true, hval]
            exact this
          · simp only [hand, if_neg (Ne.symm e3), List.append_nil] at this
            simp only [upd2, e3, false_and, if_false]
            exact this
        · simp only [upd, if_neg e, upd2, e, and_false, if_false]
          exact h1 q x
      · intro x q b hb
        dsimp only at hb
        by_cases e : x = r
        · subst e; simp [upd] at hb
        · simp only [upd, if_neg e] at hb; exact h3 x q b hb
    · exact h
  | unpin r =>
    dsimp only [FanoutSpill.step]
    split
    · rename_i a hr
      obtain ⟨h1, h2, h3, h4, h5⟩ := h
      refine ⟨?_, h2, ?_, h4, h5⟩
      · intro q x
        dsimp only [FanoutSpill.release]
        by_cases e : x = r
        · subst e
          have := h1 q x
          rw [hr] at this
          simp only [upd, if_true, hand] at this ⊢
          exact this
        · simp only [upd, if_neg e]; exact h1 q x
      · intro x q b hb
        dsimp only [FanoutSpill.release] at hb
        by_cases e : x = r
        · subst e; simp [upd] at hb
        · simp only [upd, if_neg e] at hb; exact h3 x q b hb
    · exact h

theorem run_append (c : Cfg) (l m : List Act) (s : St) : run c (l ++ m) s = run c m (run c l s) := by
  induction l generalizing s with
  | nil => rfl
  | cons a l ih => exact ih _

theorem run_invAB (c : Cfg) (l : List Act) (s : St) (hA : InvA c s) (hB : InvB c s) : InvA c (run c l s) ∧ InvB c (run c l s) := by
  induction l generalizing s with
  | nil => exact ⟨hA, hB⟩
  | cons a l ih => exact ih _ (hA.step a) (hB.step a)

theorem run_invG (c : Cfg) (l : List Act) (s : St) (hA : InvA c s) (hB : InvB c s) (hG : InvG s)
    (hl : ∀ p b, Act.begin p b ∈ l → looks b = false) : InvG (run c l s) := by
  induction l generalizing s with
  | nil => exact hG
  | cons a l ih =>
    exact ih _ (hA.step a) (hB.step a) (hG.step hA hB a (fun p b e => hl p b (by rw [e]; simp))) (fun p b h => hl p b (List.mem_cons_of_mem _ h))

/-- Three slots, windows of two, rings of two, two subscribers, messages above one byte spilled, slots of
two bytes: small enough to run. -/
def tiny : Cfg := { cap := 2, window := 2, slots := 3, threshold := 1, inlineMax := 2, subs := 2, desc := fun _ => 0 }

/-- A whole send that spills. -/
def bigSend (p : Nat) (b : Msg) : List Act := [.begin p b, .evict p, .alloc p true, .put p, .put p, .finish p]

/-- A whole receive. -/
def recv (r p k : Nat) : List Act := [.take r p k, .pin r, .copy r, .unpin r]

/-- C263, part one: whatever publishers and subscribers do and in whatever order, what a subscriber receives
from a publisher is a subsequence of the messages whose send succeeded, byte for byte and in order: never a
torn or a wiped message, never another one's, never one twice. Provided no message looks like a descriptor
(`lookalike`). -/
theorem received_partial (c : Cfg) (l : List Act) (hl : ∀ p b, Act.begin p b ∈ l → looks b = false) (p r : Nat) (hr : r < c.subs) :
    ((run c l init).got p r).Sublist ((run c l init).accepted p) := by
  have hAB := run_invAB c l init (InvA.init c) (InvB.init c)
  have hG := run_invG c l init (InvA.init c) (InvB.init c) InvG.init hl
  have h1 := hG.gotSub p r
  have h2 := hAB.2.acc p r hr
  rw [h2, List.map_append]
  exact (List.sublist_append_left _ _).trans (h1.trans (((List.take_sublist _ _).map _).trans (List.sublist_append_left _ _)))

example : (run tiny (bigSend 0 [7, 8, 9] ++ bigSend 0 [1, 2] ++ recv 1 0 0 ++ recv 0 0 1 ++ recv 1 0 1) init).got 0 1 = [[7, 8, 9], [1, 2]] := by decide
example : (run tiny (bigSend 0 [7, 8, 9] ++ bigSend 0 [1, 2] ++ recv 1 0 0 ++ recv 0 0 1 ++ recv 1 0 1) init).got 0 0 = [[1, 2]] := by decide

/-- C263, part two: every message whose send succeeded was put in the channel of every subscriber, in the
order of the sends, unless that send is still busy writing it there. -/
theorem all_offered (c : Cfg) (l : List Act) (p r : Nat) (hr : r < c.subs) :
    ((run c l init).chan p r ++ pend ((run c l init).ph p) r).map (content (run c l init).orig) = (run c l init).accepted p :=
  ((run_invAB c l init (InvA.init c) (InvB.init c)).2.acc p r hr).symm

/-- C263, part three: with windows at least as large as the rings, a large message that is among the newest
`cap - 1` of a subscriber's channel is still stored whole, as long as its publisher exists: the subscriber's
attempt to pin it succeeds and it reads the bytes that were sent. -/
theorem recent_readable (c : Cfg) (l : List Act) (hw : c.cap ≤ c.window) (p r k a : Nat) (hr : r < c.subs)
    (hopen : (run c l init).ph p ≠ .closed) (hi : ((run c l init).chan p r)[k]? = some (.spill a))
    (hk : ((run c l init).chan p r).length < k + c.cap) :
    (run c l init).rc a ≠ 0 ∧ (run c l init).val a = (run c l init).orig a := by
  obtain ⟨hA, hB⟩ := run_invAB c l init (InvA.init c) (InvB.init c)
  revert hi hk hopen
  generalize run c l init = s at hA hB
  intro hopen hi hk
  suffices h : s.rc a ≠ 0 from ⟨h, hA.valOk a h⟩
  by_cases hkeep : a ∈ s.keep p
  · have ho := (hA.keepOwn p a hkeep).1
    have := hA.rcEq a
    rw [ho] at this
    have : 0 < (s.keep p).count a := List.count_pos_iff.2 hkeep
    omega
  · exfalso
    have hlen : k < (s.chan p r).length := by
      rw [List.getElem?_eq_some_iff] at hi; exact hi.1
    have hsplit : s.chan p r = (s.chan p r).take k ++ Item.spill a :: (s.chan p r).drop (k + 1) := by
      conv => lhs; rw [← List.take_append_drop k (s.chan p r)]
      rw [List.drop_eq_getElem_cons hlen]
      rw [List.getElem?_eq_some_iff] at hi
      obtain ⟨_, hi⟩ := hi
      rw [hi]
    obtain ⟨pre, e1, e2⟩ := hB.suf p hopen
    have hspl := hB.spl p r hr
    have hrest : ((s.chan p r).drop (k + 1)).length = (s.chan p r).length - (k + 1) := List.length_drop
    have hfm := List.length_filterMap_le spillId ((s.chan p r).drop (k + 1))
    rw [hsplit] at hspl
    simp only [List.filterMap_append, List.filterMap_cons, spillId, List.append_assoc, List.cons_append] at hspl
    rw [e1] at hspl
    have key : ∃ mid, (((s.chan p r).drop (k + 1)).filterMap spillId ++ (pend (s.ph p) r).filterMap spillId) = mid ++ s.keep p ∧ pre ≠ [] := by
      rcases List.append_eq_append_iff.1 hspl with ⟨as, h1, h2⟩ | ⟨bs, h1, h2⟩
      · exfalso
        apply hkeep
        rw [h2]
        simp
      · cases bs with
        | nil =>
          exfalso
          apply hkeep
          rw [List.nil_append] at h2
          rw [← h2]
          simp
        | cons x xs =>
          rw [List.cons_append] at h2
          injection h2 with h3 h4
          exact ⟨xs, h4, by rw [h1]; simp⟩
    obtain ⟨mid, hm, hpre⟩ := key
    have hm' := congrArg List.length hm
    rw [List.length_append, List.length_append] at hm'
    have e3 := e2 hpre
    have hpend : ((pend (s.ph p) r).filterMap spillId).length = 0 ∨ (((pend (s.ph p) r).filterMap spillId).length = 1 ∧ ∃ a t, s.ph p = .pushing (.spill a) t) := by
      cases hph : s.ph p with
      | pushing it t =>
        cases it with
        | inline b =>
          left
          simp only [pend]
          split <;> simp [spillId]
        | spill b =>
          by_cases hmem : r ∈ t
          · right
            exact ⟨by simp [pend, hmem, spillId], b, t, rfl⟩
          · left; simp [pend, hmem]
      | _ => left; simp [pend]
    rcases hpend with h0 | ⟨h0, h1⟩
    · have := e3.1
      omega
    · have := e3.2 h1
      omega

example : (run tiny (bigSend 0 [7, 8, 9] ++ bigSend 0 [1, 2] ++ bigSend 0 [3, 4]) init).chan 0 1 = [.spill 0, .spill 1, .spill 2] := by decide

/-- C263, part four: an allocation is in use exactly when a publisher keeps it or a subscriber is reading it. -/
theorem in_use_iff (c : Cfg) (l : List Act) (a : Nat) :
    (run c l init).rc a ≠ 0 ↔ (∃ p, a ∈ (run c l init).keep p) ∨ (∃ r, (run c l init).rdr r = .copied a ∨ ∃ p, (run c l init).rdr r = .pinned p a) := by
  obtain ⟨hA, -⟩ := run_invAB c l init (InvA.init c) (InvB.init c)
  generalize run c l init = s at hA
  have hrc := hA.rcEq a
  constructor
  · intro h
    by_cases hk : 0 < (s.keep (s.own a)).count a
    · exact Or.inl ⟨_, List.count_pos_iff.1 hk⟩
    · right
      have : 0 < pins c s a := by omega
      unfold pins at this
      rw [List.countP_pos_iff] at this
      obtain ⟨r, _, hr⟩ := this
      refine ⟨r, ?_⟩
      cases hq : s.rdr r with
      | pinned p b => rw [hq] at hr; simp [holds] at hr; subst hr; exact Or.inr ⟨p, rfl⟩
      | copied b => rw [hq] at hr; simp [holds] at hr; subst hr; exact Or.inl rfl
      | _ => rw [hq] at hr; simp [holds] at hr
  · rintro (⟨p, hp⟩ | ⟨r, hr⟩)
    · rw [(hA.keepOwn p a hp).1] at hrc
      have : 0 < (s.keep p).count a := List.count_pos_iff.2 hp
      omega
    · have : 0 < pins c s a := by
        apply pins_pos c s r a
        · apply hA.rdrLt
          rcases hr with hr | ⟨p, hr⟩ <;> rw [hr] <;> simp
        · rcases hr with hr | ⟨p, hr⟩ <;> rw [hr] <;> simp [holds]
      omega

/-- A publisher keeps at most `window` allocations. -/
theorem window_bound (c : Cfg) (l : List Act) (p : Nat) : ((run c l init).keep p).length ≤ c.window :=
  (run_invAB c l init (InvA.init c) (InvB.init c)).1.keepLe p

/-- C263, part five: nothing stays allocated once every publisher's topic has been dropped and nobody is in
the middle of a receive. -/
theorem nothing_leaks (c : Cfg) (l : List Act) (h1 : ∀ p, (run c l init).keep p = []) (h2 : ∀ r, (run c l init).rdr r = .idle) :
    live (run c l init) = 0 := by
  unfold live
  rw [List.countP_eq_zero]
  intro a _
  have := in_use_iff c l a
  simp [h1, h2] at this
  simp [this]

example : live (run tiny (bigSend 0 [7, 8, 9] ++ bigSend 1 [1, 2] ++ recv 1 0 0 ++ [.close 0, .close 1]) init) = 0 := by decide
example : live (run tiny (bigSend 0 [7, 8, 9] ++ bigSend 1 [1, 2] ++ recv 1 0 0) init) = 2 := by decide

theorem live_ge {s : St} {L : List Nat} (hn : L.Nodup) (h : ∀ a ∈ L, s.rc a ≠ 0 ∧ a < s.next) : L.length ≤ live s := by
  unfold live
  rw [List.countP_eq_length_filter]
  refine (List.subperm_of_subset hn ?_).length_le
  intro a ha
  rw [List.mem_filter]
  exact ⟨List.mem_range.2 (h a ha).2, by simpa using (h a ha).1⟩

/-- The finding: a pool filled by keep-alives stays full. If the publishers together keep as many
allocations as the pool has slots while each keeps fewer than its window, then, whatever happens short of
dropping a publisher's topic, nobody ever allocates again or gives one up. -/
theorem full_pool_stuck (c : Cfg) (l : List Act) (L : List Nat) (hn : L.Nodup) (hL : c.slots ≤ L.length)
    (hk : ∀ a ∈ L, ∃ p, a ∈ (run c l init).keep p) (hw : ∀ p, ((run c l init).keep p).length < c.window)
    (m : List Act) (hm : ∀ p, Act.close p ∉ m) :
    (run c (l ++ m) init).keep = (run c l init).keep ∧ (run c (l ++ m) init).next = (run c l init).next := by
  obtain ⟨hA, -⟩ := run_invAB c l init (InvA.init c) (InvB.init c)
  rw [run_append]
  revert hk hw
  generalize run c l init = s at hA ⊢
  intro hk hw
  induction m generalizing s with
  | nil => exact ⟨rfl, rfl⟩
  | cons a m ih =>
    have hfull : c.slots ≤ live s := by
      refine Nat.le_trans hL (live_ge hn ?_)
      intro x hx
      obtain ⟨p, hp⟩ := hk x hx
      have ho := hA.keepOwn p x hp
      have := hA.rcEq x
      rw [ho.1] at this
      have : 0 < (s.keep p).count x := List.count_pos_iff.2 hp
      exact ⟨by omega, ho.2⟩
    have hstep : (step c s a).keep = s.keep ∧ (step c s a).next = s.next := by
      cases a with
      | close p => exact absurd (List.mem_cons_self) (hm p)
      | begin p b => dsimp only [step]; split <;> exact ⟨rfl, rfl⟩
      | evict p =>
        dsimp only [step]
        split
        · rename_i hph hkp
          have := hw p
          rw [hkp] at this
          rw [if_neg (by omega)]
          exact ⟨rfl, rfl⟩
        · exact ⟨rfl, rfl⟩
      | alloc p ok =>
        dsimp only [step]
        split
        · split
          · rw [if_neg (by omega)]
            unfold fallback
            split <;> exact ⟨rfl, rfl⟩
          · exact ⟨rfl, rfl⟩
        · exact ⟨rfl, rfl⟩
      | direct p =>
        dsimp only [step]
        split
        · split
          · unfold fallback
            split <;> exact ⟨rfl, rfl⟩
          · exact ⟨rfl, rfl⟩
        · exact ⟨rfl, rfl⟩
      | put p => dsimp only [step]; split <;> exact ⟨rfl, rfl⟩
      | finish p => dsimp only [step]; split <;> exact ⟨rfl, rfl⟩
      | take r p k =>
        dsimp only [step]
        split
        · split
          · split <;> exact ⟨rfl, rfl⟩
          · exact ⟨rfl, rfl⟩
        · exact ⟨rfl, rfl⟩
      | pin r =>
        dsimp only [step]
        split
        · split <;> exact ⟨rfl, rfl⟩
        · exact ⟨rfl, rfl⟩
      | copy r => dsimp only [step]; split <;> exact ⟨rfl, rfl⟩
      | unpin r => dsimp only [step]; split <;> exact ⟨rfl, rfl⟩
    have := ih (fun p hp => hm p (List.mem_cons_of_mem _ hp)) (step c s a) (hA.step a) (by rw [hstep.1]; exact hk) (by rw [hstep.1]; exact hw)
    exact ⟨this.1.trans hstep.1, this.2.trans hstep.2⟩

/-- In that situation every send of a message that does not fit a slot fails. -/
theorem full_pool_refuses (c : Cfg) (s : St) (p : Nat) (b : Msg) (ok : Bool) (hp : s.ph p = .sending b) (hfull : c.slots ≤ live s)
    (hb : c.threshold < b.length) (hb2 : c.inlineMax < b.length) (hw : (s.keep p).length < c.window) :
    (step c s (.alloc p ok)).refused p = s.refused p ++ [b] ∧ (step c s (.alloc p ok)).chan = s.chan ∧ (step c s (.alloc p ok)).ph p = .idle := by
  dsimp only [step]
  rw [hp]
  dsimp only
  rw [if_pos ⟨hb, hw⟩, if_neg (by omega)]
  unfold fallback
  rw [if_neg (by omega)]
  exact ⟨by simp [upd], rfl, by simp [upd]⟩

/-- It is reached: three publishers with windows of two share a pool of three slots (in the code: five
publishers with windows of 256 share 1024 slots). -/
theorem full_pool_reached : (∀ a ∈ [0, 1, 2], ∃ p, a ∈ (run tiny (bigSend 0 [7, 8, 9] ++ bigSend 1 [1, 2, 3] ++ bigSend 2 [4, 5, 6]) init).keep p) ∧
    (∀ p, ((run tiny (bigSend 0 [7, 8, 9] ++ bigSend 1 [1, 2, 3] ++ bigSend 2 [4, 5, 6]) init).keep p).length < tiny.window) ∧
    (run tiny (bigSend 0 [7, 8, 9] ++ bigSend 1 [1, 2, 3] ++ bigSend 2 [4, 5, 6] ++ recv 0 0 0 ++ recv 1 0 0 ++ recv 0 1 0 ++ recv 1 1 0 ++ recv 0 2 0 ++ recv 1 2 0 ++ bigSend 0 [6, 6, 6]) init).refused 0 = [[6, 6, 6]] := by
  refine ⟨?_, ?_, by decide⟩
  · intro a ha
    simp only [List.mem_cons, List.not_mem_nil, or_false] at ha
    rcases ha with rfl | rfl | rfl
    · exact ⟨0, by decide⟩
    · exact ⟨1, by decide⟩
    · exact ⟨2, by decide⟩
  · intro p
    have : (run tiny (bigSend 0 [7, 8, 9] ++ bigSend 1 [1, 2, 3] ++ bigSend 2 [4, 5, 6]) init).keep p = if p = 2 then [2] else if p = 1 then [1] else if p = 0 then [0] else [] := by
      rfl
    rw [this]
    unfold tiny
    dsimp only
    split
    · simp
    · split
      · simp
      · split <;> simp

/-- The finding: the oldest message still in the ring is given up before the new one is known to go out; if
that send then fails, a subscriber finds the descriptor, misses, and the message is lost though nothing
replaced it. -/
theorem oldest_lost : (run { tiny with slots := 3 } (bigSend 0 [7, 8, 9] ++ bigSend 0 [1, 2, 3] ++ [.begin 0 [4, 5, 6], .evict 0, .alloc 0 false] ++ recv 0 0 0 ++ recv 0 0 1) init).got 0 0 = [[1, 2, 3]] ∧
    (run { tiny with slots := 3 } (bigSend 0 [7, 8, 9] ++ bigSend 0 [1, 2, 3] ++ [.begin 0 [4, 5, 6], .evict 0, .alloc 0 false] ++ recv 0 0 0 ++ recv 0 0 1) init).refused 0 = [[4, 5, 6]] := by
  constructor <;> decide

/-- The finding: dropping the publisher's topic takes with it the large messages nobody has read yet, though
small ones stay readable. -/
theorem drop_loses_large : (run tiny (bigSend 0 [7, 8, 9] ++ [.begin 0 [5], .direct 0, .put 0, .put 0, .finish 0, .close 0] ++ recv 0 0 0 ++ recv 0 0 1) init).got 0 0 = [[5]] := by
  decide

/-- The finding: a 40-byte message that begins with the bytes of the marker is taken for a descriptor: it is
lost, or another publisher's message is delivered in its place. -/
theorem lookalike (tail : Msg) (h : tail.length = 32) :
    target tiny (.inline (sentinel ++ tail)) = some 0 ∧
    (run { tiny with threshold := 50, inlineMax := 60 } ([.begin 1 (sentinel ++ List.replicate 32 0), .direct 1, .put 1, .put 1, .finish 1] ++ recv 0 1 0) init).got 1 0 = [] ∧
    (run { tiny with threshold := 50, inlineMax := 60 } (bigSend 0 (List.replicate 51 7) ++ [.begin 1 (sentinel ++ List.replicate 32 0), .direct 1, .put 1, .put 1, .finish 1] ++ recv 0 1 0) init).got 1 0 = [List.replicate 51 7] := by
  refine ⟨?_, by decide, by decide⟩
  have : looks (sentinel ++ tail) = true := by
    simp [looks, sentinel, h]
  simp [target, this, tiny]

end Horus.FanoutSpill
