import Verif.Fanout.Inv
/-
C38. Fan-out topics: order, no duplicates, exact loss accounting, progress, and the limits found.
-/
namespace Horus.Fanout
open Horus.Ring

/-! ### Lists of (position, value) pairs -/

theorem sorted_sublist (log : List (List Nat)) : ∀ (l : List (Nat × List Nat)) (a : Nat),
    l.Pairwise (fun x y => x.1 < y.1) → (∀ r ∈ l, a ≤ r.1 ∧ r.1 < log.length ∧ r.2 = log.getD r.1 []) →
    (l.map (·.2)).Sublist (log.drop a) := by
  intro l
  induction l with
  | nil => intro a _ _; simp
  | cons r l ih =>
    intro a hs h
    obtain ⟨h1, h2, h3⟩ := h r (List.mem_cons_self ..)
    obtain ⟨hs1, hs2⟩ := List.pairwise_cons.mp hs
    have ih' := ih (r.1 + 1) hs2 (fun x hx => ⟨hs1 x hx, (h x (List.mem_cons_of_mem _ hx)).2⟩)
    have hd : log.drop r.1 = log[r.1] :: log.drop (r.1 + 1) := List.drop_eq_getElem_cons h2
    have hv : r.2 = log[r.1] := by
      rw [h3, List.getD_eq_getElem?_getD, List.getElem?_eq_getElem h2]; rfl
    have : (log.drop r.1).Sublist (log.drop a) := by
      have : log.drop r.1 = (log.drop a).drop (r.1 - a) := by rw [List.drop_drop]; congr 1; omega
      rw [this]; exact List.drop_sublist _ _
    apply List.Sublist.trans _ this
    rw [hd, List.map_cons, hv]
    exact ih'.cons_cons _

theorem sorted_length : ∀ (l : List (Nat × List Nat)) (a b : Nat), l.Pairwise (fun x y => x.1 < y.1) →
    (∀ r ∈ l, a ≤ r.1 ∧ r.1 < b) → l.length ≤ b - a := by
  intro l
  induction l with
  | nil => intro a b _ _; simp
  | cons r l ih =>
    intro a b hs h
    obtain ⟨h1, h2⟩ := h r (List.mem_cons_self ..)
    obtain ⟨hs1, hs2⟩ := List.pairwise_cons.mp hs
    have := ih (r.1 + 1) b hs2 (fun x hx => ⟨hs1 x hx, (h x (List.mem_cons_of_mem _ hx)).2⟩)
    simp only [List.length_cons]; omega

theorem sorted_full (log : List (List Nat)) : ∀ (l : List (Nat × List Nat)) (a b : Nat), b ≤ log.length →
    l.Pairwise (fun x y => x.1 < y.1) → (∀ r ∈ l, a ≤ r.1 ∧ r.1 < b ∧ r.2 = log.getD r.1 []) → l.length = b - a →
    l.map (·.2) = (log.drop a).take l.length := by
  intro l
  induction l with
  | nil => intro a b _ _ _ _; simp
  | cons r l ih =>
    intro a b hb hs h hl
    obtain ⟨h1, h2, h3⟩ := h r (List.mem_cons_self ..)
    obtain ⟨hs1, hs2⟩ := List.pairwise_cons.mp hs
    have hle := sorted_length l (r.1 + 1) b hs2 (fun x hx => ⟨hs1 x hx, (h x (List.mem_cons_of_mem _ hx)).2.1⟩)
    simp only [List.length_cons] at hl
    have ha : r.1 = a := by omega
    have ih' := ih (a + 1) b hb hs2 (fun x hx => ⟨by have := hs1 x hx; omega, (h x (List.mem_cons_of_mem _ hx)).2⟩) (by omega)
    have hlt : a < log.length := by omega
    have hd : log.drop a = log[a] :: log.drop (a + 1) := List.drop_eq_getElem_cons hlt
    have hv : r.2 = log[a] := by
      rw [h3, ha, List.getD_eq_getElem?_getD, List.getElem?_eq_getElem hlt]; rfl
    rw [List.map_cons, List.length_cons, hd, List.take_succ_cons, ih', hv]

/-! ### C38 -/

/-- The subscriber in slot `i` is registered and past registration. -/
def Listening (s : St) (i : Nat) : Prop := i < endpoints ∧ (s.subs i).joined = true ∧ ∀ rest, (s.subs i).pc ≠ .reset rest

theorem Listening.ready {s : St} {i : Nat} (h : Listening s i) (p : Nat) : ReadyFor (s.subs i) p := by
  unfold ReadyFor
  split
  · next rest e => exact absurd e (h.2.2 rest)
  · trivial

/-- Messages publisher slot `p` sent since subscriber `i` registered: first the one whose send was
under way at that moment, if it was also meant for `i`. -/
def sentSince (s : St) (p i : Nat) : List (List Nat) :=
  (s.subs i).inflight p ++ ((s.pubs p).started.drop ((s.subs i).since p)).map (·.1)

/-- What `recv` of subscriber `i` returned from publisher slot `p`, in order. -/
def receivedFrom (s : St) (p i : Nat) : List (List Nat) := ((s.subs i).got p).map (·.2)

/-- C38. Under every interleaving, with any number of publishers and subscribers joining, leaving and
crashing at any point: what a subscriber received from a publisher slot is a subsequence of what was
sent through that slot since it registered. So order is kept, nothing is received twice, nothing is
invented and nothing is torn. -/
theorem fanout_in_order (c : Cfg) (as : List Act) (p i : Nat) (hp : p < endpoints) (hl : Listening (run c St.init as) i) :
    (receivedFrom (run c St.init as) p i).Sublist (sentSince (run c St.init as) p i) := by
  have h := inv_run c as
  obtain ⟨a, b⟩ := h.hS p i hp hl.1 hl.2.1 (hl.ready p)
  have hC := (h.hP p i hp hl.1).hCh
  have h1 : (receivedFrom (run c St.init as) p i).Sublist
      (((run c St.init as).chan p i).log.drop ((run c St.init as).chan p i).start) := by
    apply sorted_sublist _ _ _ a.hSorted
    intro r hr
    obtain ⟨g1, g2, g3⟩ := a.hGot r hr
    have := a.hTail; have := hC.hHead
    exact ⟨g1, by omega, g3⟩
  exact (h1.trans (List.sublist_append_left _ _)).trans b.hFlow

/-- C38. Every send covers every subscriber that is registered when it starts. -/
theorem every_send_covers_subscriber (c : Cfg) (as : List Act) (p i : Nat) (hp : p < endpoints)
    (hl : Listening (run c St.init as) i) :
    ∀ call ∈ ((run c St.init as).pubs p).started.drop (((run c St.init as).subs i).since p), i ∈ call.2 :=
  ((inv_run c as).hS p i hp hl.1 hl.2.1 (hl.ready p)).2.hTo

/-- Unread messages in the channel. -/
def unread (s : St) (p i : Nat) : Nat := (s.chan p i).head - (s.chan p i).tail

/-- C38. Nothing is lost silently: as long as the publisher does not die inside a send, and between
its sends, every message sent since the subscriber registered was received, or is still unread, or
was passed over and is in the missed count. -/
theorem nothing_lost_silently (c : Cfg) (as : List Act) (p i : Nat) (hp : p < endpoints)
    (hl : Listening (run c St.init as) i) (hidle : ((run c St.init as).pubs p).pc = .idle)
    (hcr : ((run c St.init as).pubs p).crashes = ((run c St.init as).subs i).crashesAt p) :
    ∃ gap, gap ≤ ((run c St.init as).subs i).missed p ∧
      (sentSince (run c St.init as) p i).length =
        (receivedFrom (run c St.init as) p i).length + gap + unread (run c St.init as) p i := by
  have h := inv_run c as
  obtain ⟨a, b⟩ := h.hS p i hp hl.1 hl.2.1 (hl.ready p)
  have hC := (h.hP p i hp hl.1).hCh
  refine ⟨_, a.hGap, ?_⟩
  have e := b.hFlowEq hcr
  rw [hidle, pend_idle, List.append_nil] at e
  unfold sentSince receivedFrom unread
  rw [← e, List.length_drop, List.length_map, ← hC.hHead]
  have := a.hCount; have := a.hTail; have := b.hStart
  omega

/-- C38. A subscriber that never fell a ring behind (missed count 0) has received exactly the first
messages sent, without a gap. -/
theorem no_loss_prefix (c : Cfg) (as : List Act) (p i : Nat) (hp : p < endpoints)
    (hl : Listening (run c St.init as) i) (hm : ((run c St.init as).subs i).missed p = 0)
    (hcr : ((run c St.init as).pubs p).crashes = ((run c St.init as).subs i).crashesAt p) :
    receivedFrom (run c St.init as) p i <+: sentSince (run c St.init as) p i := by
  have h := inv_run c as
  obtain ⟨a, b⟩ := h.hS p i hp hl.1 hl.2.1 (hl.ready p)
  have hC := (h.hP p i hp hl.1).hCh
  have hg := a.hGap
  have hc := a.hCount
  have ht := a.hTail
  have hh := hC.hHead
  have e := sorted_full ((run c St.init as).chan p i).log _ ((run c St.init as).chan p i).start
    ((run c St.init as).chan p i).tail (by omega) a.hSorted a.hGot (by omega)
  unfold receivedFrom sentSince
  rw [← b.hFlowEq hcr, e]
  exact (List.take_prefix _ _).trans (List.prefix_append _ _)

/-! ### Progress -/

/-- `t` is reached from `s` by steps of subscriber `i` alone. -/
def Alone (c : Cfg) (i : Nat) (s t : St) : Prop := ∃ n, run c s (List.replicate n (.sub i)) = t

theorem Alone.refl (c : Cfg) (i : Nat) (s : St) : Alone c i s s := ⟨0, rfl⟩

theorem Alone.step {c : Cfg} {i : Nat} {s t : St} (hi : i < endpoints) (h : Alone c i (subStep c s i) t) : Alone c i s t := by
  obtain ⟨n, hn⟩ := h
  refine ⟨n + 1, ?_⟩
  rw [List.replicate_succ]
  show run c (Horus.Fanout.step c s (.sub i)) _ = t
  simp only [Horus.Fanout.step, if_pos hi]
  exact hn

theorem Alone.trans {c : Cfg} {i : Nat} {s t u : St} (h1 : Alone c i s t) (h2 : Alone c i t u) : Alone c i s u := by
  obtain ⟨n, rfl⟩ := h1
  obtain ⟨m, rfl⟩ := h2
  refine ⟨n + m, ?_⟩
  rw [← List.replicate_append_replicate, run, List.foldl_append]
  rfl

theorem setSub_setSub (s : St) (i : Nat) (x y : Sub) : setSub (setSub s i x) i y = setSub s i y := by
  unfold setSub
  simp only
  congr 1
  funext j
  unfold upd
  by_cases e : j = i <;> simp [e]

theorem setSub_self (s : St) (i : Nat) (x : Sub) : (setSub s i x).subs i = x := by simp [setSub]

/-- Reading the remaining words. -/
theorem read_words (c : Cfg) (i : Nat) (hi : i < endpoints) (s : St) (x : Sub) (hj : x.joined = true) (p : Nat)
    (rest : List Nat) (next att : Nat) : ∀ (k : Nat) (acc : List Nat), acc.length + k = c.width →
    ∃ acc', Alone c i (setSub s i { x with pc := .read p rest next att acc }) (setSub s i { x with pc := .recheck p rest next att acc' }) := by
  intro k
  induction k with
  | zero =>
    intro acc hk
    refine ⟨acc, Alone.step hi ?_⟩
    simp only [subStep, setSub_self, setSub_setSub, setSub_chan]
    rw [if_neg (by simp [hj]), if_neg (by omega)]
    exact Alone.refl _ _ _
  | succ k ih =>
    intro acc hk
    obtain ⟨acc', h⟩ := ih (acc ++ [(s.chan p i).slot (c.idx next) acc.length]) (by simp; omega)
    refine ⟨acc', Alone.step hi ?_⟩
    simp only [subStep, setSub_self, setSub_setSub, setSub_chan]
    rw [if_neg (by simp [hj]), if_pos (by omega)]
    exact h

/-- From the scan, with something readable in the list, one message is delivered. -/
theorem scan_delivers (c : Cfg) (i : Nat) (hi : i < endpoints) (s : St) (h : Inv c s) (x : Sub) (hj : x.joined = true)
    (htail : ∀ p, p < endpoints → (s.chan p i).tail ≤ (s.chan p i).head) :
    ∀ (rest : List Nat), (∀ p ∈ rest, p < endpoints) → (∀ p ∈ rest, (s.chan p i).dirty = false) →
    (∃ p ∈ rest, (s.chan p i).tail ≠ (s.chan p i).head) →
    ∃ t r, Alone c i (setSub s i { x with pc := .scan rest }) t ∧ (t.subs i).received = x.received ++ [r] ∧ r.1 ∈ rest ∧
      (t.subs i).pc = .idle := by
  intro rest
  induction rest with
  | nil => intro _ _ hx; obtain ⟨p, hp, _⟩ := hx; cases hp
  | cons p rest ih =>
    intro hlt hcl hx
    have hp := hlt p (List.mem_cons_self ..)
    have ht := htail p hp
    by_cases h0 : (s.chan p i).head - (s.chan p i).tail = 0
    · obtain ⟨q, hq, hne⟩ := hx
      have hq' : q ∈ rest := by
        rcases List.mem_cons.mp hq with e | e
        · subst e; exact absurd (by omega) hne
        · exact e
      obtain ⟨t, r, h1, h2, h3, h4⟩ := ih (fun q hq => hlt q (List.mem_cons_of_mem _ hq))
        (fun q hq => hcl q (List.mem_cons_of_mem _ hq)) ⟨q, hq', hne⟩
      refine ⟨t, r, ?_, h2, List.mem_cons_of_mem _ h3, h4⟩
      apply Alone.step hi
      simp only [subStep, setSub_self, setSub_setSub, setSub_chan]
      rw [if_neg (by simp [hj])]
      apply Alone.step hi
      simp only [subStep, setSub_self, setSub_setSub, setSub_chan]
      rw [if_neg (by simp [hj]), if_pos h0]
      exact h1
    · -- the position read and the counter after the head check
      have hC := (h.hP p i hp hi).hCh
      have key : ∃ next m', next < (s.chan p i).head ∧ (s.chan p i).ver (c.idx next) = (next, false) ∧
          subStep c (setSub s i { x with pc := .head p rest (s.chan p i).tail 0 }) i =
            setSub s i { x with pc := .load1 p rest next 0, missed := m' } := by
        by_cases h1 : (s.chan p i).head - (s.chan p i).tail > c.cap
        · refine ⟨(s.chan p i).head - c.cap, upd x.missed p (x.missed p + ((s.chan p i).head - c.cap - (s.chan p i).tail)), ?_, ?_, ?_⟩
          · have := c.cap_pos; omega
          · exact hC.hClean (hcl p (List.mem_cons_self ..)) _ (by omega)
          · simp only [subStep, setSub_self, setSub_setSub, setSub_chan]
            rw [if_neg (by simp [hj]), if_neg h0, if_pos h1]
        · refine ⟨(s.chan p i).tail, x.missed, by omega, ?_, ?_⟩
          · by_cases e : (s.chan p i).tail + c.cap = (s.chan p i).head
            · exact hC.hClean (hcl p (List.mem_cons_self ..)) _ e
            · exact hC.hFresh _ (by omega) (by omega)
          · simp only [subStep, setSub_self, setSub_setSub, setSub_chan]
            rw [if_neg (by simp [hj]), if_neg h0, if_neg h1]
      obtain ⟨next, m', k1, k2, k3⟩ := key
      obtain ⟨acc', hr⟩ := read_words c i hi s { x with missed := m' } hj p rest next 0 c.width [] (by simp)
      refine ⟨subStep c (setSub s i { x with pc := .recheck p rest next 0 acc', missed := m' }) i, (p, next, acc'), ?_, ?_,
        List.mem_cons_self .., ?_⟩
      · apply Alone.step hi
        have e1 : subStep c (setSub s i { x with pc := .scan (p :: rest) }) i =
            setSub s i { x with pc := .head p rest (s.chan p i).tail 0 } := by
          simp only [subStep, setSub_self, setSub_setSub, setSub_chan]
          rw [if_neg (by simp [hj])]
        rw [e1]
        apply Alone.step hi
        rw [k3]
        apply Alone.step hi
        have e2 : subStep c (setSub s i { x with pc := .load1 p rest next 0, missed := m' }) i =
            setSub s i { x with pc := .read p rest next 0 [], missed := m' } := by
          simp only [subStep, setSub_self, setSub_setSub, setSub_chan]
          rw [if_neg (by simp [hj]), if_neg (by simp [k2])]
        rw [e2]
        exact hr.trans (Alone.step hi (Alone.refl _ _ _))
      · simp only [subStep, setSub_self, setSub_chan]
        rw [if_neg (by simp [hj]), if_neg (by simp [k2])]
        simp [setSub]
      · simp only [subStep, setSub_self, setSub_chan]
        rw [if_neg (by simp [hj]), if_neg (by simp [k2])]
        simp [setSub]

theorem mem_scanOrder (a : Nat → Bool) (cur p : Nat) (hp : p < endpoints) (ha : a p = true) : p ∈ scanOrder a cur := by
  unfold scanOrder
  refine List.mem_filter.mpr ⟨List.mem_map.mpr ⟨(p + endpoints - cur % endpoints) % endpoints, ?_, ?_⟩, ha⟩
  · exact List.mem_range.mpr (Nat.mod_lt _ (by decide))
  · simp only [endpoints] at hp ⊢; omega

/-- C38. Progress: when the publishers are between sends (none of them having died inside one) and
some active publisher's channel holds an unread message, the subscriber's next `recv` returns a
message of an active publisher. -/
theorem recv_returns_pending (c : Cfg) (as : List Act) (i : Nat) (hl : Listening (run c St.init as) i)
    (hidle : ((run c St.init as).subs i).pc = .idle)
    (hqq : ∀ p, p < endpoints → ((run c St.init as).pubs p).pc = .idle ∧ ((run c St.init as).pubs p).crashes = 0)
    (hp : ∃ p, p < endpoints ∧ (run c St.init as).pubActive p = true ∧ unread (run c St.init as) p i ≠ 0) :
    ∃ n r, ((run c St.init (as ++ List.replicate n (.sub i))).subs i).received = ((run c St.init as).subs i).received ++ [r] ∧
      (run c St.init as).pubActive r.1 = true := by
  have hsplit : ∀ n, run c St.init (as ++ List.replicate n (.sub i)) = run c (run c St.init as) (List.replicate n (.sub i)) := by
    intro n; simp [run, List.foldl_append]
  have h := inv_run c as
  simp only [hsplit]
  generalize run c St.init as = s at *
  obtain ⟨hi, hj, hnr⟩ := hl
  have hready : ∀ p, ReadyFor (s.subs i) p := fun p => by unfold ReadyFor; rw [hidle]; trivial
  obtain ⟨p, hp, hpa, hpu⟩ := hp
  have htail : ∀ p, p < endpoints → (s.chan p i).tail ≤ (s.chan p i).head :=
    fun p hp => (h.hS p i hp hi hj (hready p)).1.hTail
  obtain ⟨t, r, ⟨n, h1⟩, h2, h3, h4⟩ := scan_delivers c i hi s h (s.subs i) hj htail
    (scanOrder s.pubActive (s.subs i).cursor) (scanOrder_lt _ _)
    (by
      intro q hq
      have hq' := scanOrder_lt _ _ q hq
      cases hd : (s.chan q i).dirty with
      | false => rfl
      | true =>
        have := (h.hP q i hq' hi).hDirty (hqq q hq').2 hd
        rw [(hqq q hq').1] at this
        exact this.elim)
    ⟨p, mem_scanOrder _ _ p hp hpa, by unfold unread at hpu; omega⟩
  refine ⟨n + 1, r, ?_, ?_⟩
  · rw [List.replicate_succ]
    show ((run c (step c s (.sub i)) _).subs i).received = _
    have e : step c s (.sub i) = setSub s i { s.subs i with pc := .scan (scanOrder s.pubActive (s.subs i).cursor) } := by
      simp only [step, if_pos hi, subStep]
      rw [if_neg (by simp [hj]), hidle]
    rw [e, h1, h2]
  · exact (List.mem_filter.mp h3).2

/-! ### Limits -/

/-- One message sent by publisher `p`, all steps of the call, with one subscriber registered. -/
def sendOne (p v : Nat) : List Act := List.replicate 8 (.pub p [v])

/-- Registration of a subscriber, all steps. -/
def joinAll (i : Nat) : List Act := .subJoin i :: List.replicate 17 (.sub i)

/-- Publisher 0 has sent 17 messages through a ring of 16 and stopped (or died) inside the 18th send
after marking the slot, before publishing. -/
def stuckSchedule : List Act :=
  .pubJoin 0 :: joinAll 0 ++ (List.range 17).flatMap (sendOne 0) ++ List.replicate 3 (.pub 0 [99])

/-- A limit of the missed count: while a publisher is stopped inside a send, each `recv` of a
subscriber that has been lapped returns nothing and counts the same passed-over messages again. After
17 messages, two polls count 2 missed although one message was passed over and none received. -/
theorem missed_overcounted :
    ((run ⟨4, 1⟩ St.init (stuckSchedule ++ List.replicate 72 (.sub 0))).subs 0).missed 0 = 2 ∧
    ((run ⟨4, 1⟩ St.init (stuckSchedule ++ List.replicate 72 (.sub 0))).subs 0).received = [] ∧
    ((run ⟨4, 1⟩ St.init (stuckSchedule ++ List.replicate 72 (.sub 0))).chan 0 0).log.length = 17 := by
  decide +kernel

/-- A limit on progress: after a publisher died inside a send, a subscriber that is a full ring behind
cannot read the other messages of that ring until the publisher slot is used again. -/
theorem dead_writer_blocks_ring (c : Cfg) (s : St) (i : Nat) (hi : i < endpoints)
    (honly : ∀ p, s.pubActive p = true → p < endpoints → p = 0)
    (hbehind : (s.chan 0 i).tail + c.cap ≤ (s.chan 0 i).head)
    (hdead : (s.chan 0 i).ver (c.idx ((s.chan 0 i).head - c.cap)) ≠ ((s.chan 0 i).head - c.cap, false))
    (hidle : (s.subs i).pc = .idle) (n : Nat) :
    ((run c s (List.replicate n (.sub i))).subs i).received = (s.subs i).received := by
  have key : ∀ n, ∃ pc m, run c s (List.replicate n (.sub i)) = setSub s i { s.subs i with pc := pc, missed := m } ∧
      (pc = .idle ∨ (∃ rest, pc = .scan rest ∧ ∀ q ∈ rest, q = 0) ∨
        (∃ rest next att, pc = .head 0 rest next att ∧ (∀ q ∈ rest, q = 0) ∧ next + c.cap ≤ (s.chan 0 i).head) ∨
        (∃ rest att, pc = .load1 0 rest ((s.chan 0 i).head - c.cap) att ∧ ∀ q ∈ rest, q = 0)) := by
    intro n
    induction n with
    | zero =>
      refine ⟨.idle, (s.subs i).missed, ?_, Or.inl rfl⟩
      show s = _
      unfold setSub upd
      cases s
      simp only at hidle ⊢
      congr 1
      funext j
      by_cases e : j = i
      · subst e; rw [if_pos rfl, ← hidle]
      · rw [if_neg e]
    | succ n ih =>
      obtain ⟨pc, m, he, hpc⟩ := ih
      have hrun : run c s (List.replicate (n + 1) (.sub i)) = step c (run c s (List.replicate n (.sub i))) (.sub i) := by
        rw [List.replicate_succ']; simp [run, List.foldl_append]
      rw [hrun, he]
      simp only [step, if_pos hi, subStep, setSub_self, setSub_setSub, setSub_chan]
      by_cases hj : (s.subs i).joined = false
      · rw [if_pos hj]; exact ⟨pc, m, rfl, hpc⟩
      rw [if_neg hj]
      rcases hpc with rfl | ⟨rest, rfl, hr⟩ | ⟨rest, next, att, rfl, hr, hn⟩ | ⟨rest, att, rfl, hr⟩
      · refine ⟨.scan (scanOrder s.pubActive (s.subs i).cursor), m, rfl, Or.inr (Or.inl ⟨_, rfl, ?_⟩)⟩
        intro q hq
        exact honly q (List.mem_filter.mp hq).2 (scanOrder_lt _ _ q hq)
      · cases rest with
        | nil => exact ⟨.idle, m, rfl, Or.inl rfl⟩
        | cons q rest =>
          have := hr q (List.mem_cons_self ..)
          subst this
          exact ⟨_, m, rfl, Or.inr (Or.inr (Or.inl ⟨rest, _, _, rfl, fun q hq => hr q (List.mem_cons_of_mem _ hq), hbehind⟩))⟩
      · simp only
        have := c.cap_pos
        rw [if_neg (by omega)]
        by_cases h1 : (s.chan 0 i).head - next > c.cap
        · rw [if_pos h1]
          exact ⟨_, _, rfl, Or.inr (Or.inr (Or.inr ⟨rest, att, rfl, hr⟩))⟩
        · rw [if_neg h1]
          have e : next = (s.chan 0 i).head - c.cap := by omega
          exact ⟨_, _, rfl, Or.inr (Or.inr (Or.inr ⟨rest, att, by rw [e], hr⟩))⟩
      · simp only
        rw [if_pos hdead]
        rcases retry_cases 0 rest ((s.chan 0 i).head - c.cap) att with e | e <;> rw [e]
        · exact ⟨_, m, rfl, Or.inr (Or.inr (Or.inl ⟨rest, _, _, rfl, hr, by omega⟩))⟩
        · exact ⟨_, m, rfl, Or.inr (Or.inl ⟨rest, rfl, hr⟩)⟩
  obtain ⟨pc, m, he, _⟩ := key n
  rw [he, setSub_self]

/-- The hypotheses of `dead_writer_blocks_ring` are reached: the publisher dies inside its 18th send. -/
example : let s := run ⟨4, 1⟩ St.init (stuckSchedule ++ [.pubCrash 0])
    (s.subs 0).pc = .idle ∧ (s.chan 0 0).tail + 16 ≤ (s.chan 0 0).head ∧
    (s.chan 0 0).ver (Cfg.idx ⟨4, 1⟩ ((s.chan 0 0).head - 16)) ≠ ((s.chan 0 0).head - 16, false) := by
  decide +kernel

/-- A limit on attribution: messages unread when their publisher leaves are not returned by `recv`
while the slot is free, and are returned, as the new publisher's, once the slot is taken again. -/
theorem departed_publisher_messages :
    let left := run ⟨4, 1⟩ St.init (.pubJoin 0 :: joinAll 0 ++ sendOne 0 7 ++ [.pubLeave 0] ++ List.replicate 4 (.sub 0))
    ((left.subs 0).received = [] ∧ unread left 0 0 = 1 ∧ (left.subs 0).pc = .idle) ∧
    ((run ⟨4, 1⟩ left (.pubJoin 0 :: List.replicate 7 (.sub 0))).subs 0).received = [(0, 0, [7])] := by
  decide +kernel

/-- Two publishers and two subscribers: both subscribers are listening and receive from both. -/
example : let s := run ⟨4, 1⟩ St.init ([.pubJoin 0, .pubJoin 3] ++ joinAll 0 ++ joinAll 5 ++ List.replicate 13 (.pub 0 [7]) ++ List.replicate 13 (.pub 3 [8]) ++
          List.replicate 14 (.sub 0) ++ List.replicate 7 (.sub 5))
    receivedFrom s 0 0 = [[7]] ∧ receivedFrom s 3 0 = [[8]] ∧ receivedFrom s 0 5 = [[7]] ∧ unread s 3 5 = 1 ∧
    sentSince s 3 5 = [[8]] := by
  decide +kernel

end Horus.Fanout
