import Verif.Handle.Wait
import Verif.Fanout.Model
/-
Looking at a topic without receiving: `has_message`, `pending_count` and `read_latest`.
Source: /repo/horus_core/src/communication/topic/mod.rs:2386-2489.
-/
namespace Horus.Handle.Peek
open Horus.Ring Horus.Handle

variable {α : Type}

/-- mod.rs:2458-2489 `pending_count`. -/
def pendingCount (s : St α) (i : Nat) : Nat :=
  let x := s.h i
  if x.role = .both then sub64 x.lh x.lt else s.hd - max s.tl x.lt

/-- mod.rs:2453-2455 `has_message`. -/
def hasMessage (s : St α) (i : Nat) : Bool := pendingCount s i > 0

/-- mod.rs:2386-2450 `read_latest` on a handle whose backend is the in-order ring: an unregistered handle
joins as a subscriber first; a send-and-receive handle reads its own counters; everybody else reads the
slot before the shared head, without looking at its ready mark. -/
def readLatest (c : Cfg) (s : St α) (i : Nat) : Option α × St α :=
  let s := if (s.h i).role = .none then ensure c s i false else s
  let x := s.h i
  if x.role = .both then (if x.lt ≥ x.lh then (none, s) else (s.data (c.idx (x.lh - 1)), s))
  else if s.hd = 0 then (none, s)
  else (s.data (c.idx (s.hd - 1)), s)

/-! ### One purpose per handle -/

/-- A single subscriber handle: `pending_count` is exactly the number of accepted messages it has not
received yet, and `has_message` says exactly whether its next `recv` returns one. -/
theorem pending_exact (c : Cfg) (prod : Nat → Bool) (j : Nat) (hj : prod j = false) (as : List (Act α))
    (ha : OneRole prod as) (ho : OneReader j as) (hb : as.length < 2 ^ 64) :
    let s := (run c (St.init α) as).2
    pendingCount s j = (published c (St.init α) as).length - (received j (run c (St.init α) as).1).length ∧
      (hasMessage s j = true ↔ (recv c s j).1 ≠ none) := by
  obtain ⟨t1, t2, t3, t4⟩ := sole_run c prod j hj as (St.init α) [] 0 (pure_init c prod) (sole_init c j) (Nat.le_refl _) ha ho (by simpa using hb)
  have hx := (sole_subscriber_exact c prod j hj as ha ho hb).2
  simp only [List.nil_append, Nat.zero_add] at t1 t2 t3
  have hp : pendingCount (run c (St.init α) as).2 j = (published c (St.init α) as).length - (received j (run c (St.init α) as).1).length := by
    unfold pendingCount
    have hhd := t1.hd
    rcases t2.rd with ⟨h1, h2, h3, h4⟩ | ⟨h1, h2, h3⟩
    · rw [if_neg (by rw [h1]; decide), hhd]
      omega
    · rw [if_neg (by rw [h1]; decide), hhd]
      omega
  dsimp only
  refine ⟨hp, ?_⟩
  unfold hasMessage
  rw [hx, hp, decide_eq_true_iff, ne_eq, List.getElem?_eq_none_iff]
  omega

/-- Non-vacuity: three messages in four slots, one received. -/
example : OneRole (fun i => i == 0) [.recv 1, .send 0 5, .send 0 6, .send 0 7, .recv 1] ∧
    OneReader 1 [.recv 1, .send 0 5, .send 0 6, .send 0 7, .recv 1] ∧
    pendingCount (run c4 (St.init Nat) [.recv 1, .send 0 5, .send 0 6, .send 0 7, .recv 1]).2 1 = 2 := by
  refine ⟨by simp [OneRole], by simp [OneReader], by decide⟩

/-- Several subscriber handles: a message that is announced is received by the next `recv`, unless this
subscriber has been overtaken by more than the ring holds. -/
theorem announced_then_served (c : Cfg) (prod : Nat → Bool) (j : Nat) (hj : prod j = false) (as : List (Act α))
    (ha : OneRole prod as) (hb : as.length < 2 ^ 64) :
    let s := (run c (St.init α) as).2
    hasMessage s j = true → s.hd ≤ nextPos c s j + c.cap → (recv c s j).1 = (published c (St.init α) as)[nextPos c s j]? ∧ (recv c s j).1 ≠ none := by
  intro s hm hw
  have hI : Pure c prod s (published c (St.init α) as) := by
    have := Wait.pure_run c prod as (St.init α) [] (pure_init c prod) ha
    simpa using this
  obtain ⟨r1, -⟩ := hI.recv j hj
  have hlt : nextPos c s j < s.hd := by
    unfold hasMessage pendingCount at hm
    have hnb : (s.h j).role ≠ .both := by rcases hI.rc j hj with h | h <;> rw [h.1] <;> decide
    dsimp only at hm
    rw [if_neg hnb, decide_eq_true_iff] at hm
    have h1 : s.tl < s.hd := by omega
    have h2 : (s.h j).lt < s.hd := by omega
    unfold nextPos ensure
    dsimp only
    split
    · exact h2
    · split
      · show ((s.setH j _).h j).lt < _
        rw [setH_h]
        have := c.cap_pos
        show s.hd - c.cap < s.hd
        omega
      · rw [setH_h]
        show max (s.h j).lt s.tl < s.hd
        omega
  have hlen := hI.hd
  rw [r1, if_pos ⟨by omega, by omega⟩]
  exact ⟨rfl, by rw [ne_eq, List.getElem?_eq_none_iff]; omega⟩

/-- Looking does not disturb: neither the published messages nor any other handle's view changes. -/
theorem peek_frame (c : Cfg) (prod : Nat → Bool) (j : Nat) (hj : prod j = false) (s : St α) (pub : List α) (hI : Pure c prod s pub) :
    Pure c prod (readLatest c s j).2 pub ∧ nextPos c (readLatest c s j).2 j = nextPos c s j := by
  have key : ∀ s', (s' = s ∨ s' = ensure c s j false) → Pure c prod s' pub ∧ nextPos c s' j = nextPos c s j := by
    intro s' h
    rcases h with h | h
    · rw [h]; exact ⟨hI, rfl⟩
    · rw [h]
      obtain ⟨h1, h2⟩ := hI.ensure_recv j hj
      refine ⟨h1, ?_⟩
      have he : ∀ x : St α, (x.h j).role = .consumer → ensure c x j false = x := by
        intro x hx
        unfold ensure
        simp [canRecv_of hx]
      unfold nextPos
      rw [he _ h2]
  unfold readLatest
  dsimp only
  apply key
  by_cases hr : (s.h j).role = .none
  · rw [if_pos hr]
    split
    · split <;> exact Or.inr rfl
    · split <;> exact Or.inr rfl
  · rw [if_neg hr]
    split
    · split <;> exact Or.inl rfl
    · split <;> exact Or.inl rfl

/-- `read_latest` returns the last message published, for a publisher and for any subscriber however much
of the topic it has received, and none exactly when nothing was published. -/
theorem latest_is_last_published (c : Cfg) (prod : Nat → Bool) (j : Nat) (as : List (Act α)) (ha : OneRole prod as) :
    let s := (run c (St.init α) as).2
    (prod j = true → (s.h j).role = .producer) → (readLatest c s j).1 = (published c (St.init α) as).getLast? := by
  intro s hprod
  have hI : Pure c prod s (published c (St.init α) as) := by
    have := Wait.pure_run c prod as (St.init α) [] (pure_init c prod) ha
    simpa using this
  generalize published c (St.init α) as = pub at hI ⊢
  have key : ∀ s' : St α, s'.hd = s.hd → s'.data = s.data → (if s'.hd = 0 then (none, s') else (s'.data (c.idx (s'.hd - 1)), s')).1 = pub.getLast? := by
    intro s' h1 h2
    rw [h1, h2, List.getLast?_eq_getElem?]
    have hl := hI.hd
    have hc := c.cap_pos
    by_cases h0 : s.hd = 0
    · rw [if_pos h0, List.getElem?_eq_none (by omega)]
    · rw [if_neg h0]
      have := (hI.win (s.hd - 1) (by omega) (by omega)).2
      dsimp only
      rw [this, hl]
  have hens : (ensure c s j false).hd = s.hd ∧ (ensure c s j false).data = s.data := by
    unfold ensure; dsimp only
    split
    · exact ⟨rfl, rfl⟩
    · split <;> exact ⟨rfl, rfl⟩
  unfold readLatest
  dsimp only
  by_cases hr : (s.h j).role = .none
  · have hj : prod j = false := by
      cases h : prod j with
      | false => rfl
      | true => rw [hprod h] at hr; cases hr
    rw [if_pos hr, if_neg (by rw [(hI.ensure_recv j hj).2]; decide)]
    exact key _ hens.1 hens.2
  · rw [if_neg hr, if_neg]
    · exact key s rfl rfl
    · intro hb
      cases h : prod j with
      | false => rcases hI.rc j h with x | x <;> rw [x.1] at hb <;> cases hb
      | true => rw [hprod h] at hb; cases hb

example : (readLatest c4 (run c4 (St.init Nat) [.recv 1, .send 0 5, .send 0 6, .recv 1, .recv 1]).2 1).1 = some 6 := by decide

/-! ### A handle alone on its topic -/

/-- The messages of a history still waiting at its end, in a queue. -/
def waiting : List α → List (Act α) → List α
  | q, [] => q
  | q, .send _ v :: as => waiting (q ++ [v]) as
  | q, .recv _ :: as => waiting q.tail as
  | q, .epoch _ :: as => waiting q as

theorem loop_lh (c : Cfg) (a : Nat) (s : St α) (q : List α) (v : α) (hI : Loop c a s q) (hb : (s.h a).lh + 1 < 2 ^ 64) (hq : q.length < c.cap) :
    ((send c s a v).h a).lh ≤ (s.h a).lh + 1 := by
  by_cases hr : (s.h a).role = .both
  · have hsub : sub64 (s.h a).lh (s.h a).lt = q.length := by
      rw [sub64_of_le (by have := hI.len; omega) (by omega), hI.len]; omega
    unfold send
    dsimp only
    rw [if_pos ⟨hr, by rw [hsub]; exact hq⟩]
    show ((s.setH a _).h a).lh ≤ _
    rw [setH_h]
  · have hhd := hI.hd
    have hen : (ensure c s a true).hd = s.hd ∧ ((ensure c s a true).h a).lh ≤ (s.h a).lh := by
      unfold ensure
      dsimp only
      split
      · exact ⟨rfl, Nat.le_refl _⟩
      · rw [if_neg (by simp)]
        exact ⟨rfl, by rw [setH_h]; exact hhd⟩
    unfold send
    dsimp only
    rw [if_neg (fun h => hr h.1), trySend, mpSend]
    dsimp only
    generalize (if sub64 (ensure c s a true).hd ((ensure c s a true).h a).lt ≥ c.cap then (ensure c s a true).tl else ((ensure c s a true).h a).lt) = lt
    split
    · show (((ensure c s a true).setH a _).h a).lh ≤ _; rw [setH_h]; show ((ensure c s a true).h a).lh ≤ _; omega
    · show (((ensure c s a true).setH a _).h a).lh ≤ _; rw [setH_h]; show (ensure c s a true).hd + 1 ≤ _; omega

theorem loop_end (c : Cfg) (a : Nat) (as : List (Act α)) (s : St α) (q : List α) (hI : Loop c a s q)
    (ha : ∀ x ∈ as, x.who = a) (hf : Fits c.cap q as) (hb : (s.h a).lh + as.length < 2 ^ 64) :
    Loop c a (run c s as).2 (waiting q as) ∧ ((run c s as).2.h a).lh < 2 ^ 64 := by
  induction as generalizing s q with
  | nil => exact ⟨hI, by simpa [run] using hb⟩
  | cons x as ih =>
    have ha' : ∀ y ∈ as, y.who = a := fun y hy => ha y (List.mem_cons_of_mem _ hy)
    have hx := ha x (List.mem_cons_self ..)
    rw [List.length_cons] at hb
    cases x with
    | send i v =>
      have hi : i = a := hx
      subst hi
      obtain ⟨hq, hf'⟩ := hf
      have hI' := loop_send c i s q v hI (by omega) hq
      have := loop_lh c i s q v hI (by omega) hq
      exact ih (send c s i v) (q ++ [v]) hI' ha' hf' (by omega)
    | recv i =>
      have hi : i = a := hx
      subst hi
      obtain ⟨h1, h2, h3⟩ := loop_recv c i s q hI (by omega)
      exact ih (recv c s i).2 q.tail h2 ha' hf (by omega)
    | epoch i =>
      have hi : i = a := hx
      subst hi
      obtain ⟨h1, h2⟩ := loop_epoch c i s q hI
      exact ih (epoch s i) q h1 ha' hf (by omega)

/-- A handle alone on its topic, whatever it has done so far (without overfilling the ring): the pending
count is the number of messages waiting, `has_message` says whether one is, and `read_latest` is the
last of the waiting ones. -/
theorem alone_peek (c : Cfg) (a : Nat) (as : List (Act α)) (ha : ∀ x ∈ as, x.who = a)
    (hf : Fits c.cap [] as) (hb : as.length < 2 ^ 64) :
    let s := (run c (St.init α) as).2
    let q := waiting [] as
    pendingCount s a = q.length ∧ (hasMessage s a = true ↔ q ≠ []) ∧ (readLatest c s a).1 = q.getLast? := by
  obtain ⟨hI, hl⟩ := loop_end c a as (St.init α) [] (loop_init c a) ha hf (by simpa [St.init] using hb)
  intro s q
  change Loop c a s q at hI
  have hlen := hI.len
  have hp : pendingCount s a = q.length := by
    unfold pendingCount
    dsimp only
    rcases hrole : (s.h a).role with _ | _ | _ | _
    · obtain ⟨h1, h2, h3, h4⟩ := hI.r0 hrole
      rw [if_neg (by decide)]; omega
    · obtain ⟨h1, h2, h3, h4⟩ := hI.r1 hrole
      rw [if_neg (by decide)]; omega
    · obtain ⟨h1, h2, h3, h4⟩ := hI.r2 hrole
      rw [if_neg (by decide)]; omega
    · rw [if_pos rfl, sub64_of_le (by omega) (by exact hl)]; omega
  refine ⟨hp, ?_, ?_⟩
  · unfold hasMessage
    rw [hp, decide_eq_true_iff, ← List.length_pos_iff]
  · rw [List.getLast?_eq_getElem?]
    have hens : (ensure c s a false).hd = s.hd := by
      unfold ensure; dsimp only
      split
      · rfl
      · split <;> rfl
    unfold readLatest
    dsimp only
    rcases hrole : (s.h a).role with _ | _ | _ | _
    · obtain ⟨h1, h2, h3, h4⟩ := hI.r0 hrole
      have hr2 : ((ensure c s a false).h a).role = .consumer := by
        unfold ensure
        dsimp only
        rw [hrole]
        rw [if_neg (by decide)]
        split
        · show ((s.setH a _).h a).role = _
          rw [setH_h]; rfl
        · rw [setH_h]; rfl
      rw [if_pos rfl, if_neg (by rw [hr2]; decide), if_pos (by rw [hens]; exact h3), List.getElem?_eq_none (by omega)]
    · obtain ⟨h1, h2, h3, h4⟩ := hI.r1 hrole
      rw [if_neg (show ¬(Role.producer = Role.none) by decide), if_neg (by rw [hrole]; decide)]
      by_cases h0 : s.hd = 0
      · rw [if_pos h0, List.getElem?_eq_none (by omega)]
      · rw [if_neg h0]
        have := hI.val (q.length - 1) (by omega)
        rw [← this, show s.hd - 1 = (s.h a).lt + (q.length - 1) by omega]
    · obtain ⟨h1, h2, h3, h4⟩ := hI.r2 hrole
      rw [if_neg (show ¬(Role.consumer = Role.none) by decide), if_neg (by rw [hrole]; decide), if_pos h3, List.getElem?_eq_none (by omega)]
    · rw [if_neg (show ¬(Role.both = Role.none) by decide), if_pos hrole]
      by_cases h0 : (s.h a).lt ≥ (s.h a).lh
      · rw [if_pos h0, List.getElem?_eq_none (by omega)]
      · rw [if_neg h0]
        have := hI.val (q.length - 1) (by omega)
        rw [← this, show (s.h a).lh - 1 = (s.h a).lt + (q.length - 1) by omega]

example : (∀ x ∈ ([.recv 0, .send 0 1, .send 0 2, .recv 0, .send 0 3] : List (Act Nat)), x.who = 0) ∧
    Fits 4 ([] : List Nat) [.recv 0, .send 0 1, .send 0 2, .recv 0, .send 0 3] ∧
    waiting ([] : List Nat) [.recv 0, .send 0 1, .send 0 2, .recv 0, .send 0 3] = [2, 3] := by
  refine ⟨by decide, by simp [Fits], rfl⟩

/-! ### Where the answers are wrong -/

/-- Finding, contrary to "always returns the latest published message regardless of the consumer's
current position": a handle that sends and receives forgets its latest message once it has received it,
while a handle that only receives keeps returning it. -/
theorem latest_forgotten :
    (readLatest c4 (run c4 (St.init Nat) [.recv 0, .send 0 1, .recv 0]).2 0).1 = none ∧
    (readLatest c4 (run c4 (St.init Nat) [.recv 1, .send 0 1, .recv 1]).2 1).1 = some 1 := by
  decide

/-- Finding: with two subscriber handles on one thread the faster one hides the slower one's messages:
the slower one is told there is no message although two wait for it and `recv` returns them. -/
theorem hidden_by_faster_reader :
    let s := (run c4 (St.init Nat) [.recv 1, .recv 2, .send 0 5, .send 0 6, .recv 1, .recv 1]).2
    hasMessage s 2 = false ∧ (run c4 s [.recv 2, .recv 2]).1.map (·.2) = [some 5, some 6] := by
  decide

/-- Finding: a subscriber that has been overtaken is told that messages wait, more than the ring can
hold, and every `recv` from then on returns none (`slow_subscriber_cut_off`). -/
theorem announced_never_served :
    let s := (run c2 (St.init Nat) (lapped ++ [.send 0 4])).2
    pendingCount s 2 = 1 ∧ (recv c2 s 2).1 = none ∧ hasMessage (recv c2 s 2).2 2 = true := by
  decide

/-- Finding: a publisher handle asked for its backlog is shown messages that have all been received: the
subscriber's position is written back only every half ring. -/
theorem publisher_overstates :
    let s := (run c4 (St.init Nat) [.recv 1, .send 0 5, .recv 1]).2
    pendingCount s 1 = 0 ∧ pendingCount s 0 = 1 := by
  decide

/-- dispatch.rs:779-797 of `send_shm_mp_pod`: the moment between the claim of a position (the head has
moved) and the write of the slot. -/
def claimed (s : St α) : St α := { s with hd := s.hd + 1 }

/-- dispatch.rs:798-812: the rest of that send. -/
def filled (c : Cfg) (s : St α) (k : Nat) (v : α) : St α :=
  { s with ready := upd s.ready (c.idx k) (k + 1), data := upd s.data (c.idx k) (some v) }

/-- The two halves make up an accepted send, as far as the shared memory goes. -/
theorem claim_fill (c : Cfg) (s : St α) (i : Nat) (v : α) (h : (trySend c s i v).1 = true) :
    let s' := filled c (claimed s) s.hd v
    (trySend c s i v).2.hd = s'.hd ∧ (trySend c s i v).2.data = s'.data ∧ (trySend c s i v).2.ready = s'.ready := by
  have he : (ensure c s i true).hd = s.hd ∧ (ensure c s i true).data = s.data ∧ (ensure c s i true).ready = s.ready := by
    unfold ensure; dsimp only; split
    · exact ⟨rfl, rfl, rfl⟩
    · rw [if_neg (by simp)]; exact ⟨rfl, rfl, rfl⟩
  unfold trySend mpSend at h ⊢
  dsimp only at h ⊢
  generalize (if sub64 (ensure c s i true).hd ((ensure c s i true).h i).lt ≥ c.cap then (ensure c s i true).tl else ((ensure c s i true).h i).lt) = lt at h ⊢
  split at h
  · cases h
  · rename_i hn
    rw [if_neg hn]
    obtain ⟨h1, h2, h3⟩ := he
    refine ⟨?_, ?_, ?_⟩
    · show (ensure c s i true).hd + 1 = _; rw [h1]; rfl
    · show upd (ensure c s i true).data _ _ = _; rw [h1, h2]; rfl
    · show upd (ensure c s i true).ready _ _ = _; rw [h1, h3]; rfl

/-- Finding: `read_latest` does not look at the ready mark. Between a publisher's claim and its write it
returns what the slot held a whole ring earlier, or a slot that was never written, instead of the
latest message. -/
theorem latest_during_a_send (c : Cfg) (prod : Nat → Bool) (j : Nat) (hj : prod j = false) (as : List (Act α)) (ha : OneRole prod as) :
    let s := (run c (St.init α) as).2
    let pub := published c (St.init α) as
    (s.h j).role = .consumer → (readLatest c (claimed s) j).1 = if c.cap ≤ pub.length then pub[pub.length - c.cap]? else s.data (c.idx pub.length) := by
  intro s pub hr
  have hI : Pure c prod s pub := by
    have := Wait.pure_run c prod as (St.init α) [] (pure_init c prod) ha
    simpa using this
  have hr' : ((claimed s).h j).role = .consumer := hr
  have hhd := hI.hd
  unfold readLatest
  dsimp only
  rw [hr', if_neg (show ¬(Role.consumer = Role.none) by decide), hr', if_neg (show ¬(Role.consumer = Role.both) by decide),
    if_neg (show (claimed s).hd ≠ 0 by show s.hd + 1 ≠ 0; omega)]
  show s.data (c.idx (s.hd + 1 - 1)) = _
  rw [Nat.add_sub_cancel, hhd]
  split
  · have hw := (hI.win (pub.length - c.cap) (by have := c.cap_pos; omega) (by omega)).2
    rw [← hw, c.idx_eq, c.idx_eq]
    congr 1
    have : pub.length = pub.length - c.cap + c.cap := by omega
    conv => lhs; rw [this]
    rw [Nat.add_mod_right]
  · rfl

/-- ... on a ring of four: five messages out, the latest is 5, and during the next send it reads as 2. -/
theorem latest_goes_back :
    let s := (run c4 (St.init Nat) [.recv 1, .send 0 1, .recv 1, .send 0 2, .recv 1, .send 0 3, .recv 1, .send 0 4, .recv 1, .send 0 5]).2
    (readLatest c4 s 1).1 = some 5 ∧ (readLatest c4 (claimed s) 1).1 = some 2 := by
  decide

/-! ### The fan-out backend -/

/-- A topic on the fan-out backend: its ring words are those of Verif.Fanout, and the header words that
`pending_count` and `read_latest` look at stay as `init` left them, because the fan-out send and
receive functions (dispatch.rs:504-700 `send_fanout_shm`, `recv_fanout_shm`; shm_fanout.rs:846-906)
never touch them. -/
structure FanTopic where
  region : Horus.Fanout.St
  hd : Nat
  tl : Nat

/-- header.rs:329-391. -/
def FanTopic.init : FanTopic := ⟨Horus.Fanout.St.init, 0, 0⟩

/-- One step of any endpoint (Verif.Fanout `step`). -/
def FanTopic.step (c : Cfg) (t : FanTopic) (a : Horus.Fanout.Act) : FanTopic := { t with region := Horus.Fanout.step c t.region a }

/-- mod.rs:2458-2489 `pending_count` of a subscriber handle, whose `local_tail` the fan-out receive does
not move either. -/
def FanTopic.pending (t : FanTopic) (localTail : Nat) : Nat := t.hd - max t.tl localTail

theorem fanout_header (c : Cfg) (as : List Horus.Fanout.Act) (t : FanTopic) :
    (as.foldl (FanTopic.step c) t).hd = t.hd ∧ (as.foldl (FanTopic.step c) t).tl = t.tl := by
  induction as generalizing t with
  | nil => exact ⟨rfl, rfl⟩
  | cons a as ih => exact ih (FanTopic.step c t a)

/-- Finding: on a topic with several publishers and several subscribers `pending_count` does not depend
on what is sent or received: it stays what it was when the topic moved to that backend, which is zero
for a topic that began there. -/
theorem fanout_never_announces (c : Cfg) (as : List Horus.Fanout.Act) (t : FanTopic) (lt : Nat) :
    (as.foldl (FanTopic.step c) t).pending lt = t.pending lt ∧ FanTopic.init.pending lt = 0 := by
  unfold FanTopic.pending
  obtain ⟨h1, h2⟩ := fanout_header c as t
  rw [h1, h2]
  exact ⟨rfl, by show 0 - _ = 0; omega⟩

/-- One subscriber joins, one publisher sends [7], and the subscriber reads. -/
def fanExchange : List Horus.Fanout.Act :=
  [.subJoin 0] ++ List.replicate 17 (.sub 0) ++ [.pubJoin 0] ++ List.replicate 9 (.pub 0 [7])

/-- Such a topic with a message waiting: nothing is announced, and receiving returns it. -/
theorem fanout_waits_unannounced :
    let t := fanExchange.foldl (FanTopic.step c2) FanTopic.init
    t.pending 0 = 0 ∧ (t.region.subs 0).received = [] ∧
      (((List.replicate 8 (Horus.Fanout.Act.sub 0)).foldl (FanTopic.step c2) t).region.subs 0).received = [(0, 0, [7])] := by
  decide +kernel

end Horus.Handle.Peek
