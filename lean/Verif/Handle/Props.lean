import Verif.Handle.Model
/-
What the handles of Verif.Handle.Model deliver.
-/
namespace Horus.Handle
open Horus.Ring
variable {α : Type}

/-! ### Specification -/

/-- The `recv`s of handle `j` in a log. -/
def outputs (j : Nat) (l : List (Nat × Option α)) : List (Option α) := (l.filter (fun p => p.1 == j)).map (·.2)

/-- A queue of messages: what each `recv` of a history must return. -/
def fifo : List α → List (Act α) → List (Option α)
  | _, [] => []
  | q, .send _ v :: as => fifo (q ++ [v]) as
  | q, .recv _ :: as => q.head? :: fifo q.tail as
  | q, .epoch _ :: as => fifo q as

/-- No send of the history finds `cap` messages waiting in that queue. -/
def Fits (cap : Nat) : List α → List (Act α) → Prop
  | _, [] => True
  | q, .send _ v :: as => q.length < cap ∧ Fits cap (q ++ [v]) as
  | q, .recv _ :: as => Fits cap q.tail as
  | q, .epoch _ :: as => Fits cap q as

/-- In this history handle `a` never sends while it has `cap` messages of its own waiting. -/
def Room (c : Cfg) (a : Nat) (s : St α) : List (Act α) → Prop
  | [] => True
  | x :: as => (∀ v, x = .send a v → sub64 (s.h a).lh (s.h a).lt < c.cap) ∧ Room c a (step c s x).2 as

/-! ### Frame lemmas -/

theorem sub64_self (x : Nat) : sub64 x x = 0 := by unfold sub64; rw [Nat.add_sub_cancel_left, Nat.mod_self]

theorem sub64_of_le {a b : Nat} (h : b ≤ a) (ha : a < 2 ^ 64) : sub64 a b = a - b := by unfold sub64; omega

theorem setH_h (s : St α) (i : Nat) (x : Hnd) : (s.setH i x).h i = x := by simp [St.setH]

theorem setH_ne (s : St α) {i j : Nat} (x : Hnd) (h : j ≠ i) : (s.setH i x).h j = s.h j := by simp [St.setH, upd_ne _ _ h]

theorem ensure_frame (c : Cfg) (s : St α) {i j : Nat} (p : Bool) (h : j ≠ i) : (ensure c s i p).h j = s.h j := by
  unfold ensure
  dsimp only
  split
  · rfl
  split
  · exact setH_ne s _ h
  · exact setH_ne s _ h

theorem ensure_shared (c : Cfg) (s : St α) (i : Nat) (p : Bool) :
    (ensure c s i p).hd = s.hd ∧ (ensure c s i p).ready = s.ready ∧ (ensure c s i p).data = s.data := by
  unfold ensure
  dsimp only
  split
  · exact ⟨rfl, rfl, rfl⟩
  split <;> exact ⟨rfl, rfl, rfl⟩

theorem mpSend_frame (c : Cfg) (s : St α) {i j : Nat} (v : α) (h : j ≠ i) : (mpSend c s i v).2.h j = s.h j := by
  unfold mpSend
  dsimp only
  generalize (if sub64 s.hd (s.h i).lt ≥ c.cap then s.tl else (s.h i).lt) = lt
  split <;> exact setH_ne s _ h

theorem mpscRecv_frame (c : Cfg) (s : St α) {i j : Nat} (h : j ≠ i) : (mpscRecv c s i).2.h j = s.h j := by
  unfold mpscRecv
  dsimp only
  generalize (if (s.h i).lh = (s.h i).lt then s.hd else (s.h i).lh) = lh
  split
  · exact setH_ne s _ h
  split <;> exact setH_ne s _ h

theorem send_frame (c : Cfg) (s : St α) {i j : Nat} (v : α) (h : j ≠ i) : (send c s i v).h j = s.h j := by
  unfold send
  dsimp only
  split
  · exact setH_ne s _ h
  · rw [trySend, mpSend_frame c _ v h, ensure_frame c s _ h]

theorem recv_frame (c : Cfg) (s : St α) {i j : Nat} (h : j ≠ i) : (recv c s i).2.h j = s.h j := by
  unfold recv
  dsimp only
  split
  · split
    · exact setH_ne s _ h
    · rfl
  · rw [tryRecv, mpscRecv_frame c _ h, ensure_frame c s _ h]

theorem epoch_frame (s : St α) {i j : Nat} (h : j ≠ i) : (epoch s i).h j = s.h j := by
  unfold epoch
  exact setH_ne s _ h

/-- A call on one handle leaves the private state of every other handle alone. -/
theorem step_frame (c : Cfg) (s : St α) (x : Act α) {j : Nat} (h : j ≠ x.who) : (step c s x).2.h j = s.h j := by
  cases x with
  | send i v => exact send_frame c s v h
  | recv i => exact recv_frame c s h
  | epoch i => exact epoch_frame s h

theorem outputs_append (j : Nat) (l m : List (Nat × Option α)) : outputs j (l ++ m) = outputs j l ++ outputs j m := by
  simp [outputs]

theorem outputs_other (c : Cfg) (s : St α) (x : Act α) {j : Nat} (h : j ≠ x.who) : outputs j (step c s x).1 = [] := by
  cases x with
  | send i v => rfl
  | recv i =>
    have : (i == j) = false := by
      have h' : j ≠ i := h
      simp [Ne.symm h']
    simp [outputs, step, this]
  | epoch i => rfl

theorem outputs_recv (c : Cfg) (s : St α) (j : Nat) : outputs j (step c s (.recv j)).1 = [(recv c s j).1] := by
  simp [outputs, step]

/-! ### C86: a handle that sends and receives, and the rest of the topic -/

/-- A handle that has both sent and received, with nothing of its own waiting, receives nothing again,
whatever the other handles of the topic publish. -/
theorem both_deaf (c : Cfg) (a : Nat) (as : List (Act α)) (s : St α)
    (hr : (s.h a).role = .both) (he : (s.h a).lh = (s.h a).lt)
    (hs : ∀ x ∈ as, x.who = a → x = .recv a) : ∀ o ∈ outputs a (run c s as).1, o = none := by
  induction as generalizing s with
  | nil => intro o ho; simp [run, outputs] at ho
  | cons x as ih =>
    intro o ho
    have hs' : ∀ y ∈ as, y.who = a → y = .recv a := fun y hy => hs y (List.mem_cons_of_mem _ hy)
    simp only [run, outputs_append, List.mem_append] at ho
    by_cases hx : x.who = a
    · have hxe := hs x (List.mem_cons_self ..) hx
      subst hxe
      have hre : recv c s a = (none, s) := by
        unfold recv
        dsimp only
        rw [if_pos hr, he, sub64_self]
        rfl
      rw [outputs_recv, hre] at ho
      have hst : (step c s (.recv a)).2 = s := by simp [step, hre]
      rw [hst] at ho
      rcases ho with ho | ho
      · simpa using ho
      · exact ih s hr he hs' o ho
    · have hf := step_frame c s x (j := a) (fun h => hx h.symm)
      rw [outputs_other c s x (j := a) (fun h => hx h.symm)] at ho
      rcases ho with ho | ho
      · simp at ho
      · exact ih _ (by rw [hf]; exact hr) (by rw [hf]; exact he) hs' o ho

/-- While such a handle has room it writes nothing another handle looks at: the published head, the
consumed position and the ready flags stay as they were. -/
theorem both_send_shared (c : Cfg) (s : St α) (a : Nat) (v : α) (hr : (s.h a).role = .both)
    (hroom : sub64 (s.h a).lh (s.h a).lt < c.cap) :
    (send c s a v).hd = s.hd ∧ (send c s a v).tl = s.tl ∧ (send c s a v).ready = s.ready ∧
      ((send c s a v).h a).role = .both := by
  have he : send c s a v = { (s.setH a { (s.h a) with lh := (s.h a).lh + 1 }) with data := upd s.data (c.idx (s.h a).lh) (some v) } := by
    unfold send
    dsimp only
    rw [if_pos ⟨hr, hroom⟩]
  rw [he]
  refine ⟨rfl, rfl, rfl, ?_⟩
  show ((s.setH a _).h a).role = .both
  rw [setH_h]
  exact hr

theorem both_recv_shared (c : Cfg) (s : St α) (a : Nat) (hr : (s.h a).role = .both) :
    (recv c s a).2.hd = s.hd ∧ (recv c s a).2.tl = s.tl ∧ (recv c s a).2.ready = s.ready ∧
      ((recv c s a).2.h a).role = .both := by
  unfold recv
  dsimp only
  rw [if_pos hr]
  split
  · refine ⟨rfl, rfl, rfl, ?_⟩
    show ((s.setH a _).h a).role = .both
    rw [setH_h]
    exact hr
  · exact ⟨rfl, rfl, rfl, hr⟩

/-- A subscriber that has read everything published so far receives none of the messages a
send-and-receive handle publishes from then on, however long both go on. -/
theorem both_mute (c : Cfg) (a j : Nat) (hj : j ≠ a) (as : List (Act α)) (s : St α)
    (hr : (s.h a).role = .both) (hc : (s.h j).role = .consumer)
    (hlt : (s.h j).lt = s.hd) (hlh : (s.h j).lh = s.hd)
    (hs : ∀ x ∈ as, (∃ v, x = .send a v) ∨ x = .recv a ∨ x = .recv j) (hroom : Room c a s as) :
    ∀ o ∈ outputs j (run c s as).1, o = none := by
  induction as generalizing s with
  | nil => intro o ho; simp [run, outputs] at ho
  | cons x as ih =>
    intro o ho
    have hs' : ∀ y ∈ as, (∃ v, y = .send a v) ∨ y = .recv a ∨ y = .recv j := fun y hy => hs y (List.mem_cons_of_mem _ hy)
    obtain ⟨hrm, hroom'⟩ := hroom
    simp only [run, outputs_append, List.mem_append] at ho
    rcases hs x (List.mem_cons_self ..) with ⟨v, rfl⟩ | rfl | rfl
    · have hf := send_frame c s v hj
      obtain ⟨h1, h2, h3, h4⟩ := both_send_shared c s a v hr (hrm v rfl)
      rw [outputs_other c s (.send a v) (j := j) hj] at ho
      rcases ho with ho | ho
      · simp at ho
      · refine ih _ h4 ?_ ?_ ?_ hs' hroom' o ho
        · show ((send c s a v).h j).role = _; rw [hf]; exact hc
        · show ((send c s a v).h j).lt = (send c s a v).hd; rw [hf, h1]; exact hlt
        · show ((send c s a v).h j).lh = (send c s a v).hd; rw [hf, h1]; exact hlh
    · have hf := recv_frame c s hj
      obtain ⟨h1, h2, h3, h4⟩ := both_recv_shared c s a hr
      rw [outputs_other c s (.recv a) (j := j) hj] at ho
      rcases ho with ho | ho
      · simp at ho
      · refine ih _ h4 ?_ ?_ ?_ hs' hroom' o ho
        · show ((recv c s a).2.h j).role = _; rw [hf]; exact hc
        · show ((recv c s a).2.h j).lt = (recv c s a).2.hd; rw [hf, h1]; exact hlt
        · show ((recv c s a).2.h j).lh = (recv c s a).2.hd; rw [hf, h1]; exact hlh
    · have hen : ensure c s j false = s := by unfold ensure; simp [hc, Role.has, Role.canRecv]
      have hre : recv c s j = (none, s.setH j { (s.h j) with lh := s.hd }) := by
        unfold recv
        dsimp only
        rw [if_neg (by rw [hc]; decide), tryRecv, hen]
        unfold mpscRecv
        dsimp only
        rw [hlh, hlt, if_pos rfl, if_pos rfl]
      have hss : s.setH j { (s.h j) with lh := s.hd } = s := by
        have hx : ({ (s.h j) with lh := s.hd } : Hnd) = s.h j := by rw [← hlh]
        rw [hx]
        unfold St.setH
        have : upd s.h j (s.h j) = s.h := by
          funext k
          by_cases hk : k = j
          · subst hk; simp
          · exact upd_ne _ _ hk
        rw [this]
      rw [hss] at hre
      have hst : (step c s (.recv j)).2 = s := by simp [step, hre]
      rw [outputs_recv, hre] at ho
      rw [hst] at ho hroom'
      rcases ho with ho | ho
      · simpa using ho
      · exact ih s hr hc hlt hlh hs' hroom' o ho

/-! ### C87: one handle talking to itself -/

/-- What the single handle `a` of a topic has to satisfy for the queue `q` of its unread messages. -/
structure Loop (c : Cfg) (a : Nat) (s : St α) (q : List α) : Prop where
  len : (s.h a).lh = (s.h a).lt + q.length
  cap : q.length ≤ c.cap
  val : ∀ k, k < q.length → s.data (c.idx ((s.h a).lt + k)) = q[k]?
  hd : s.hd ≤ (s.h a).lh
  r0 : (s.h a).role = .none → (s.h a).lh = 0 ∧ (s.h a).lt = 0 ∧ s.hd = 0 ∧ s.tl = 0
  r1 : (s.h a).role = .producer → (s.h a).lt = 0 ∧ s.tl = 0 ∧ s.hd = (s.h a).lh ∧ ∀ k, k < q.length → s.ready (c.idx k) = k + 1
  r2 : (s.h a).role = .consumer → (s.h a).lh = 0 ∧ (s.h a).lt = 0 ∧ s.hd = 0 ∧ s.tl = 0

theorem loop_init (c : Cfg) (a : Nat) : Loop c a (St.init α) [] := by
  constructor <;> simp [St.init]

theorem getElem?_snoc_lt (q : List α) (v : α) {k : Nat} (h : k < q.length) : (q ++ [v])[k]? = q[k]? := by
  rw [List.getElem?_append_left h]

theorem getElem?_snoc_eq (q : List α) (v : α) : (q ++ [v])[q.length]? = some v := by simp

theorem tail_getElem? (q : List α) (k : Nat) : q.tail[k]? = q[k + 1]? := by
  cases q <;> simp

/-- Writing the message behind the queue keeps the queue. -/
theorem val_snoc (c : Cfg) (f : Nat → Option α) (lt : Nat) (q : List α) (v : α) (hq : q.length < c.cap)
    (hv : ∀ k, k < q.length → f (c.idx (lt + k)) = q[k]?) :
    ∀ k, k < (q ++ [v]).length → upd f (c.idx (lt + q.length)) (some v) (c.idx (lt + k)) = (q ++ [v])[k]? := by
  intro k hk
  rw [List.length_append, List.length_singleton] at hk
  rcases Nat.lt_succ_iff_lt_or_eq.mp hk with h | h
  · rw [getElem?_snoc_lt q v h, upd_ne _ _ (c.idx_ne (by omega) (by omega))]
    exact hv k h
  · subst h
    rw [upd_same, getElem?_snoc_eq]

theorem loop_send (c : Cfg) (a : Nat) (s : St α) (q : List α) (v : α) (hI : Loop c a s q)
    (hb : (s.h a).lh + 1 < 2 ^ 64) (hq : q.length < c.cap) : Loop c a (send c s a v) (q ++ [v]) := by
  have hsub : sub64 (s.h a).lh (s.h a).lt = q.length := by
    rw [sub64_of_le (by have := hI.len; omega) (by omega), hI.len]; omega
  have hl1 : (q ++ [v]).length = q.length + 1 := by simp
  by_cases hr : (s.h a).role = .both
  · have he : send c s a v = { (s.setH a { (s.h a) with lh := (s.h a).lh + 1 }) with data := upd s.data (c.idx (s.h a).lh) (some v) } := by
      unfold send
      dsimp only
      rw [if_pos ⟨hr, by rw [hsub]; exact hq⟩]
    have hh : (send c s a v).h a = { (s.h a) with lh := (s.h a).lh + 1 } := by rw [he]; exact setH_h _ _ _
    have hd : (send c s a v).data = upd s.data (c.idx ((s.h a).lt + q.length)) (some v) := by rw [he, ← hI.len]
    have hhd : (send c s a v).hd = s.hd := by rw [he]; rfl
    refine ⟨?_, ?_, ?_, ?_, ?_, ?_, ?_⟩
    · rw [hh, hl1]; have := hI.len; show (s.h a).lh + 1 = (s.h a).lt + _; omega
    · rw [hl1]; omega
    · rw [hh, hd]; exact val_snoc c s.data (s.h a).lt q v hq hI.val
    · rw [hh, hhd]; have := hI.hd; show s.hd ≤ (s.h a).lh + 1; omega
    · rw [hh]; intro h; exact absurd (h.symm.trans hr) (by decide)
    · rw [hh]; intro h; exact absurd (h.symm.trans hr) (by decide)
    · rw [hh]; intro h; exact absurd (h.symm.trans hr) (by decide)
  · -- the other roles register if necessary and use the ring
    have hst : send c s a v = (mpSend c (ensure c s a true) a v).2 := by
      unfold send
      dsimp only
      rw [if_neg (fun h => hr h.1), trySend]
    -- after `ensure`
    have hen : ∃ r, (r = .producer ∨ r = .both) ∧ (r = .producer → (s.h a).role = .none ∨ (s.h a).role = .producer) ∧
        ensure c s a true = s.setH a ⟨r, (s.h a).lh, 0⟩ ∧ (s.h a).lt = 0 ∧ s.tl = 0 ∧ s.hd = (s.h a).lh := by
      rcases hrole : (s.h a).role with _ | _ | _ | _
      · obtain ⟨h1, h2, h3, h4⟩ := hI.r0 hrole
        refine ⟨.producer, Or.inl rfl, fun _ => Or.inl rfl, ?_, h2, h4, by omega⟩
        unfold ensure
        simp [hrole, Role.has, Role.canSend, addRole, h1, h2, h3, h4]
      · obtain ⟨h1, h2, h3, h4⟩ := hI.r1 hrole
        refine ⟨.producer, Or.inl rfl, fun _ => Or.inr rfl, ?_, h1, h2, h3⟩
        have hx : (⟨.producer, (s.h a).lh, 0⟩ : Hnd) = s.h a := by rw [← hrole, ← h1]
        rw [hx]
        unfold ensure
        simp only [hrole, Role.has, Role.canSend, if_true]
        unfold St.setH
        have : upd s.h a (s.h a) = s.h := by
          funext k
          by_cases hk : k = a
          · subst hk; simp
          · exact upd_ne _ _ hk
        rw [this]
      · obtain ⟨h1, h2, h3, h4⟩ := hI.r2 hrole
        refine ⟨.both, Or.inr rfl, (fun h => nomatch h), ?_, h2, h4, by omega⟩
        unfold ensure
        simp [hrole, Role.has, Role.canSend, addRole, h1, h2, h3, h4]
      · exact absurd hrole hr
    obtain ⟨r, hrr, hrp, hen, hlt, htl, hhd⟩ := hen
    have hlen := hI.len
    rw [hlt] at hlen
    have hm : mpSend c (s.setH a ⟨r, (s.h a).lh, 0⟩) a v = (true, { (s.setH a ⟨r, s.hd + 1, 0⟩) with
        hd := s.hd + 1, ready := upd s.ready (c.idx s.hd) (s.hd + 1), data := upd s.data (c.idx s.hd) (some v) }) := by
      unfold mpSend
      dsimp only
      rw [setH_h]
      have h0 : sub64 s.hd 0 < c.cap := by rw [sub64_of_le (Nat.zero_le _) (by omega)]; omega
      have h0' : sub64 (s.setH a ⟨r, (s.h a).lh, 0⟩).hd 0 < c.cap := h0
      rw [if_neg (Nat.not_le.mpr h0')]
      rw [if_neg (Nat.not_le.mpr h0')]
      have hu : ∀ x y : Hnd, (s.setH a x).setH a y = s.setH a y := by
        intro x y
        unfold St.setH
        have : upd (upd s.h a x) a y = upd s.h a y := by
          funext k
          by_cases hk : k = a
          · subst hk; simp
          · rw [upd_ne _ _ hk, upd_ne _ _ hk, upd_ne _ _ hk]
        simp [this]
      rw [hu]
      rfl
    rw [hst, hen, hm]
    have hidx : s.hd = q.length := by omega
    refine ⟨?_, ?_, ?_, ?_, ?_, ?_, ?_⟩
    · show ((s.setH a ⟨r, s.hd + 1, 0⟩).h a).lh = ((s.setH a ⟨r, s.hd + 1, 0⟩).h a).lt + _
      rw [setH_h, hl1]; show s.hd + 1 = 0 + _; omega
    · rw [hl1]; omega
    · show ∀ k, k < (q ++ [v]).length → upd s.data (c.idx s.hd) (some v) (c.idx (((s.setH a ⟨r, s.hd + 1, 0⟩).h a).lt + k)) = _
      rw [setH_h]
      have := val_snoc c s.data 0 q v hq (fun k hk => by have := hI.val k hk; rwa [hlt] at this)
      rw [Nat.zero_add, ← hidx] at this
      exact this
    · show s.hd + 1 ≤ ((s.setH a ⟨r, s.hd + 1, 0⟩).h a).lh
      rw [setH_h]
    · show ((s.setH a ⟨r, s.hd + 1, 0⟩).h a).role = .none → _
      rw [setH_h]
      intro h
      rcases hrr with h' | h' <;> (rw [h'] at h; cases h)
    · show ((s.setH a ⟨r, s.hd + 1, 0⟩).h a).role = .producer → _
      rw [setH_h]
      intro h
      refine ⟨rfl, htl, rfl, ?_⟩
      intro k hk
      show upd s.ready (c.idx s.hd) (s.hd + 1) (c.idx k) = k + 1
      rw [hl1] at hk
      rcases Nat.lt_succ_iff_lt_or_eq.mp hk with h1 | h1
      · rw [upd_ne _ _ (c.idx_ne (by omega) (by omega))]
        rcases hrp h with hn | hp
        · have := (hI.r0 hn).1; omega
        · exact (hI.r1 hp).2.2.2 k h1
      · rw [h1, ← hidx, upd_same]
    · show ((s.setH a ⟨r, s.hd + 1, 0⟩).h a).role = .consumer → _
      rw [setH_h]
      intro h
      rcases hrr with h' | h' <;> (rw [h'] at h; cases h)

theorem head?_getElem? (q : List α) : q.head? = q[0]? := by cases q <;> rfl

theorem loop_recv (c : Cfg) (a : Nat) (s : St α) (q : List α) (hI : Loop c a s q)
    (hb : (s.h a).lh < 2 ^ 64) : (recv c s a).1 = q.head? ∧ Loop c a (recv c s a).2 q.tail ∧
      ((recv c s a).2.h a).lh ≤ (s.h a).lh := by
  have hsub : sub64 (s.h a).lh (s.h a).lt = q.length := by
    rw [sub64_of_le (by have := hI.len; omega) hb, hI.len]; omega
  have hlen := hI.len
  have htv : ∀ k, k < q.tail.length → s.data (c.idx ((s.h a).lt + 1 + k)) = q.tail[k]? := by
    intro k hk
    rw [List.length_tail] at hk
    rw [tail_getElem?, ← hI.val (k + 1) (by omega)]
    congr 2; omega
  have htc : q.tail.length ≤ c.cap := by have := hI.cap; rw [List.length_tail]; omega
  by_cases hr : (s.h a).role = .both
  · by_cases hq : q = []
    · subst hq
      have he : recv c s a = (none, s) := by
        unfold recv; dsimp only; rw [if_pos hr, hsub]; rfl
      rw [he]
      exact ⟨rfl, hI, Nat.le_refl _⟩
    · have hpos : 0 < q.length := List.length_pos_iff.mpr hq
      have he : recv c s a = (s.data (c.idx (s.h a).lt), s.setH a { (s.h a) with lt := (s.h a).lt + 1 }) := by
        unfold recv; dsimp only; rw [if_pos hr, hsub, if_pos hpos]
      rw [he]
      have hh : (s.setH a { (s.h a) with lt := (s.h a).lt + 1 }).h a = { (s.h a) with lt := (s.h a).lt + 1 } := setH_h _ _ _
      refine ⟨?_, ⟨?_, htc, ?_, ?_, ?_, ?_, ?_⟩, ?_⟩
      · rw [head?_getElem?]; have := hI.val 0 hpos; simpa using this
      · rw [hh, List.length_tail]; show (s.h a).lh = (s.h a).lt + 1 + _; omega
      · rw [hh]; exact htv
      · rw [hh]; exact hI.hd
      · rw [hh]; intro h; exact absurd (h.symm.trans hr) (by decide)
      · rw [hh]; intro h; exact absurd (h.symm.trans hr) (by decide)
      · rw [hh]; intro h; exact absurd (h.symm.trans hr) (by decide)
      · rw [hh]
  · have hre : recv c s a = mpscRecv c (ensure c s a false) a := by
      unfold recv; dsimp only; rw [if_neg hr, tryRecv]
    by_cases hp : (s.h a).role = .producer
    · obtain ⟨h1, h2, h3, h4⟩ := hI.r1 hp
      rw [h1] at hlen htv
      have hcap := hI.cap
      have hen : ensure c s a false = s.setH a ⟨.both, s.hd, 0⟩ := by
        unfold ensure
        have hs0 : ¬ (false = false ∧ sub64 s.hd 0 > c.cap) := by
          rintro ⟨_, h⟩
          rw [sub64_of_le (Nat.zero_le _) (by omega)] at h
          omega
        have hs1 : ¬ sub64 s.hd 0 > c.cap := fun h => hs0 ⟨rfl, h⟩
        simp [hp, Role.has, Role.canRecv, addRole, h1, h2, hs1]
      rw [hre, hen]
      by_cases hq : q = []
      · subst hq
        have hz : s.hd = 0 := by simpa [h3] using hlen
        have hx : mpscRecv c (s.setH a ⟨.both, s.hd, 0⟩) a = (none, (s.setH a ⟨.both, s.hd, 0⟩).setH a ⟨.both, s.hd, 0⟩) := by
          unfold mpscRecv
          dsimp only
          rw [setH_h]
          have hz' : (s.setH a ⟨.both, s.hd, 0⟩).hd = 0 := hz
          simp only [hz]
          rw [hz] at hz'
          simp [hz']
        rw [hx]
        have hh : ((s.setH a ⟨.both, s.hd, 0⟩).setH a ⟨.both, s.hd, 0⟩).h a = ⟨.both, s.hd, 0⟩ := setH_h _ _ _
        refine ⟨rfl, ⟨?_, htc, ?_, ?_, ?_, ?_, ?_⟩, ?_⟩
        · rw [hh]; simpa using hz
        · intro k hk; simp at hk
        · rw [hh]; exact Nat.le_refl _
        · rw [hh]; intro h; cases h
        · rw [hh]; intro h; cases h
        · rw [hh]; intro h; cases h
        · rw [hh]; show s.hd ≤ _; omega
      · have hpos : 0 < q.length := List.length_pos_iff.mpr hq
        have hx : mpscRecv c (s.setH a ⟨.both, s.hd, 0⟩) a = (s.data (c.idx 0),
            { ((s.setH a ⟨.both, s.hd, 0⟩).setH a ⟨.both, s.hd, 1⟩) with tl := if c.flushDue 1 then 1 else s.tl }) := by
          unfold mpscRecv
          dsimp only
          rw [setH_h]
          have hz' : (s.setH a ⟨.both, s.hd, 0⟩).hd = s.hd := rfl
          have hzr : (s.setH a ⟨.both, s.hd, 0⟩).ready = s.ready := rfl
          have hzd : (s.setH a ⟨.both, s.hd, 0⟩).data = s.data := rfl
          have hne : ¬ s.hd = 0 := by omega
          simp only [hz', hzr, hzd, if_neg hne, h4 0 hpos, ne_eq, not_true_eq_false, if_false]
          rfl
        rw [hx]
        have hh : (((s.setH a ⟨.both, s.hd, 0⟩).setH a ⟨.both, s.hd, 1⟩)).h a = ⟨.both, s.hd, 1⟩ := setH_h _ _ _
        refine ⟨?_, ⟨?_, htc, ?_, ?_, ?_, ?_, ?_⟩, ?_⟩
        · rw [head?_getElem?]; have := hI.val 0 hpos; rw [h1] at this; simpa using this
        · show ((((s.setH a ⟨.both, s.hd, 0⟩).setH a ⟨.both, s.hd, 1⟩)).h a).lh = ((((s.setH a ⟨.both, s.hd, 0⟩).setH a ⟨.both, s.hd, 1⟩)).h a).lt + _
          rw [hh, List.length_tail]; show s.hd = 1 + _; omega
        · show ∀ k, k < q.tail.length → s.data (c.idx (((((s.setH a ⟨.both, s.hd, 0⟩).setH a ⟨.both, s.hd, 1⟩)).h a).lt + k)) = _
          rw [hh]; simpa using htv
        · show s.hd ≤ ((((s.setH a ⟨.both, s.hd, 0⟩).setH a ⟨.both, s.hd, 1⟩)).h a).lh
          rw [hh]
        · show ((((s.setH a ⟨.both, s.hd, 0⟩).setH a ⟨.both, s.hd, 1⟩)).h a).role = _ → _
          rw [hh]; intro h; cases h
        · show ((((s.setH a ⟨.both, s.hd, 0⟩).setH a ⟨.both, s.hd, 1⟩)).h a).role = _ → _
          rw [hh]; intro h; cases h
        · show ((((s.setH a ⟨.both, s.hd, 0⟩).setH a ⟨.both, s.hd, 1⟩)).h a).role = _ → _
          rw [hh]; intro h; cases h
        · show ((((s.setH a ⟨.both, s.hd, 0⟩).setH a ⟨.both, s.hd, 1⟩)).h a).lh ≤ _
          rw [hh]; show s.hd ≤ _; omega
    · -- nothing was ever sent
      have hz : (s.h a).lh = 0 ∧ (s.h a).lt = 0 ∧ s.hd = 0 ∧ s.tl = 0 := by
        rcases hrole : (s.h a).role with _ | _ | _ | _
        · exact hI.r0 hrole
        · exact absurd hrole hp
        · exact hI.r2 hrole
        · exact absurd hrole hr
      obtain ⟨h1, h2, h3, h4⟩ := hz
      have hq : q = [] := by rw [← List.length_eq_zero_iff]; omega
      subst hq
      have hen : ensure c s a false = s.setH a ⟨.consumer, 0, 0⟩ := by
        rcases hrole : (s.h a).role with _ | _ | _ | _
        · unfold ensure
          have : ¬ sub64 0 0 > c.cap := by rw [sub64_self]; omega
          simp [hrole, Role.has, Role.canRecv, addRole, h2, h3, h4, this]
        · exact absurd hrole hp
        · have hx : (⟨.consumer, 0, 0⟩ : Hnd) = s.h a := by
            cases hxx : s.h a
            rw [hxx] at hrole h1 h2
            simp at hrole h1 h2
            simp [hrole, h1, h2]
          rw [hx]
          unfold ensure
          simp only [hrole, Role.has, Role.canRecv]
          unfold St.setH
          have : upd s.h a (s.h a) = s.h := by
            funext k
            by_cases hk : k = a
            · subst hk; simp
            · exact upd_ne _ _ hk
          simp [this]
        · exact absurd hrole hr
      have hx : mpscRecv c (s.setH a ⟨.consumer, 0, 0⟩) a = (none, (s.setH a ⟨.consumer, 0, 0⟩).setH a ⟨.consumer, 0, 0⟩) := by
        unfold mpscRecv
        dsimp only
        rw [setH_h]
        have hz' : (s.setH a ⟨.consumer, 0, 0⟩).hd = 0 := h3
        simp [hz']
      rw [hre, hen, hx]
      have hh : ((s.setH a ⟨.consumer, 0, 0⟩).setH a ⟨.consumer, 0, 0⟩).h a = ⟨.consumer, 0, 0⟩ := setH_h _ _ _
      refine ⟨rfl, ⟨?_, htc, ?_, ?_, ?_, ?_, ?_⟩, ?_⟩
      · rw [hh]; rfl
      · intro k hk; simp at hk
      · rw [hh]; show s.hd ≤ 0; omega
      · rw [hh]; intro h; cases h
      · rw [hh]; intro h; cases h
      · rw [hh]; intro h; exact ⟨rfl, rfl, h3, h4⟩
      · rw [hh]; show 0 ≤ _; omega

theorem loop_epoch (c : Cfg) (a : Nat) (s : St α) (q : List α) (hI : Loop c a s q) :
    Loop c a (epoch s a) q ∧ ((epoch s a).h a).lh ≤ (s.h a).lh := by
  have hlen := hI.len
  have hhd := hI.hd
  have key : ∃ tl hd, epoch s a = { (s.setH a { (s.h a) with lh := hd, lt := (s.h a).lt }) with hd := hd, tl := tl } ∧
      hd = (s.h a).lh ∧ ((s.h a).role ≠ .both → tl = s.tl ∧ hd = s.hd) := by
    rcases hrole : (s.h a).role with _ | _ | _ | _
    · obtain ⟨h1, h2, h3, h4⟩ := hI.r0 hrole
      refine ⟨s.tl, s.hd, ?_, by omega, fun _ => ⟨rfl, rfl⟩⟩
      simp [epoch, hrole, Role.canRecv, Role.canSend, Horus.Topic.resyncedTail, h2, h3]
    · obtain ⟨h1, h2, h3, h4⟩ := hI.r1 hrole
      refine ⟨s.tl, s.hd, ?_, h3, fun _ => ⟨rfl, rfl⟩⟩
      simp [epoch, hrole, Role.canRecv, Role.canSend, Horus.Topic.resyncedTail, h1, h2, h3]
    · obtain ⟨h1, h2, h3, h4⟩ := hI.r2 hrole
      refine ⟨s.tl, s.hd, ?_, by omega, fun _ => ⟨rfl, rfl⟩⟩
      simp [epoch, hrole, Role.canRecv, Role.canSend, Horus.Topic.resyncedTail, h2, h3, h4]
    · refine ⟨(s.h a).lt, (s.h a).lh, ?_, rfl, fun h => absurd rfl h⟩
      have hm : min (s.h a).lt (s.h a).lh = (s.h a).lt := by omega
      have hx : max s.hd (s.h a).lh = (s.h a).lh := by omega
      simp [epoch, hrole, Role.canRecv, Role.canSend, Horus.Topic.resyncedTail, hm, hx]
  obtain ⟨tl, hd, he, h1, h2⟩ := key
  rw [he]
  have hh : (s.setH a { (s.h a) with lh := hd, lt := (s.h a).lt }).h a = s.h a := by rw [setH_h, h1]
  refine ⟨⟨?_, hI.cap, ?_, ?_, ?_, ?_, ?_⟩, ?_⟩
  · show ((s.setH a _).h a).lh = ((s.setH a _).h a).lt + _; rw [hh]; exact hlen
  · show ∀ k, k < q.length → s.data (c.idx (((s.setH a _).h a).lt + k)) = _; rw [hh]; exact hI.val
  · show hd ≤ ((s.setH a _).h a).lh; rw [hh]; omega
  · show ((s.setH a _).h a).role = _ → ((s.setH a _).h a).lh = 0 ∧ ((s.setH a _).h a).lt = 0 ∧ hd = 0 ∧ tl = 0
    rw [hh]; intro h
    obtain ⟨e1, e2⟩ := h2 (by rw [h]; decide)
    rw [e1, e2]; exact hI.r0 h
  · show ((s.setH a _).h a).role = _ → ((s.setH a _).h a).lt = 0 ∧ tl = 0 ∧ hd = ((s.setH a _).h a).lh ∧ ∀ k, k < q.length → s.ready (c.idx k) = k + 1
    rw [hh]; intro h
    obtain ⟨e1, e2⟩ := h2 (by rw [h]; decide)
    rw [e1, e2]; exact hI.r1 h
  · show ((s.setH a _).h a).role = _ → ((s.setH a _).h a).lh = 0 ∧ ((s.setH a _).h a).lt = 0 ∧ hd = 0 ∧ tl = 0
    rw [hh]; intro h
    obtain ⟨e1, e2⟩ := h2 (by rw [h]; decide)
    rw [e1, e2]; exact hI.r2 h
  · show ((s.setH a _).h a).lh ≤ _; rw [hh]

theorem send_lh (c : Cfg) (a : Nat) (s : St α) (q : List α) (v : α) (hI : Loop c a s q)
    (hI' : Loop c a (send c s a v) (q ++ [v])) (hlt : ((send c s a v).h a).lt ≤ (s.h a).lt) :
    ((send c s a v).h a).lh ≤ (s.h a).lh + 1 := by
  have h1 := hI.len
  have h2 := hI'.len
  rw [List.length_append, List.length_singleton] at h2
  omega

theorem loop_run (c : Cfg) (a : Nat) (as : List (Act α)) (s : St α) (q : List α) (hI : Loop c a s q)
    (ha : ∀ x ∈ as, x.who = a) (hf : Fits c.cap q as) (hb : (s.h a).lh + as.length < 2 ^ 64) :
    (run c s as).1.map (·.2) = fifo q as := by
  induction as generalizing s q with
  | nil => rfl
  | cons x as ih =>
    have ha' : ∀ y ∈ as, y.who = a := fun y hy => ha y (List.mem_cons_of_mem _ hy)
    have hx := ha x (List.mem_cons_self ..)
    rw [List.length_cons] at hb
    cases x with
    | send i v =>
      have hi : i = a := hx
      subst hi
      obtain ⟨hq, hf'⟩ := hf
      have hI' := loop_send c i s q v hI (by omega) hq
      have hlt : ((send c s i v).h i).lh ≤ (s.h i).lh + 1 := by
        by_cases hr : (s.h i).role = .both
        · have hsub : sub64 (s.h i).lh (s.h i).lt = q.length := by
            rw [sub64_of_le (by have := hI.len; omega) (by omega), hI.len]; omega
          unfold send
          dsimp only
          rw [if_pos ⟨hr, by rw [hsub]; exact hq⟩]
          show ((s.setH i _).h i).lh ≤ _
          rw [setH_h]
        · refine send_lh c i s q v hI hI' ?_
          -- not in the `both` role the tail is zero before and after
          have h2 := hI'.len
          have hz : (s.h i).lt = 0 ∧ s.tl = 0 := by
            rcases hrole : (s.h i).role with _ | _ | _ | _
            · exact ⟨(hI.r0 hrole).2.1, (hI.r0 hrole).2.2.2⟩
            · exact ⟨(hI.r1 hrole).1, (hI.r1 hrole).2.1⟩
            · exact ⟨(hI.r2 hrole).2.1, (hI.r2 hrole).2.2.2⟩
            · exact absurd hrole hr
          have hen : ((ensure c s i true).h i).lt = 0 ∧ (ensure c s i true).tl = 0 := by
            unfold ensure
            dsimp only
            split
            · exact hz
            · rw [if_neg (by simp)]
              exact ⟨by rw [setH_h, hz.1, hz.2]; rfl, hz.2⟩
          unfold send
          dsimp only
          rw [if_neg (fun h => hr h.1), trySend, mpSend]
          dsimp only
          rw [hen.1, hen.2, ite_self]
          split
          · show (((ensure c s i true).setH i _).h i).lt ≤ _; rw [setH_h]; exact Nat.zero_le _
          · show (((ensure c s i true).setH i _).h i).lt ≤ _; rw [setH_h]; exact Nat.zero_le _
      exact ih (send c s i v) (q ++ [v]) hI' ha' hf' (by omega)
    | recv i =>
      have hi : i = a := hx
      subst hi
      obtain ⟨h1, h2, h3⟩ := loop_recv c i s q hI (by omega)
      show (recv c s i).1 :: (run c (recv c s i).2 as).1.map (·.2) = q.head? :: fifo q.tail as
      rw [h1, ih (recv c s i).2 q.tail h2 ha' hf (by omega)]
    | epoch i =>
      have hi : i = a := hx
      subst hi
      obtain ⟨h1, h2⟩ := loop_epoch c i s q hI
      exact ih (epoch s i) q h1 ha' hf (by omega)

/-- A handle that is alone on its topic is an exact queue over its whole life: every `recv` returns
the oldest message sent and not yet received, whatever the order of sends, receives and epoch changes,
as long as no send finds the ring full. Missing from the full claim: what happens to a send that finds
it full (`both_overflow_loses` and `both_overflow_reorders` show it goes wrong). -/
theorem loopback_fifo_partial (c : Cfg) (a : Nat) (as : List (Act α)) (ha : ∀ x ∈ as, x.who = a)
    (hf : Fits c.cap [] as) (hb : as.length < 2 ^ 64) : (run c (St.init α) as).1.map (·.2) = fifo [] as :=
  loop_run c a as (St.init α) [] (loop_init c a) ha hf (by simpa [St.init] using hb)

/-- Non-vacuity: with two slots, messages go round several times. -/
example : Fits 2 ([] : List Nat) [.recv 0, .send 0 1, .send 0 2, .recv 0, .epoch 0, .send 0 3, .recv 0, .recv 0, .recv 0] ∧
    fifo ([] : List Nat) [.recv 0, .send 0 1, .send 0 2, .recv 0, .epoch 0, .send 0 3, .recv 0, .recv 0, .recv 0] =
      [none, some 1, some 2, some 3, none] := by
  refine ⟨?_, rfl⟩
  simp [Fits]

/-- Two slots. -/
def c2 : Cfg := ⟨1, 1⟩

/-- Four slots. -/
def c4 : Cfg := ⟨2, 1⟩

/-- A send that finds the ring full does not just drop its own message: here messages 2 and 3, sent
before and waiting, are lost, and the message of the overflowing send is delivered instead. -/
theorem both_overflow_loses :
    ((run c2 (St.init Nat) [.send 0 1, .recv 0, .send 0 2, .send 0 3, .send 0 4, .recv 0, .recv 0, .recv 0]).1.map (·.2)) =
      [some 1, some 4, none, none] := by decide

/-- With four slots the same mistake also delivers the waiting messages out of order: 6, 7, 8 and 9 are
waiting when 10 is sent; what arrives is 9, 6, 7, 10. -/
theorem both_overflow_reorders :
    ((run c4 (St.init Nat) [.send 0 1, .send 0 2, .send 0 3, .recv 0, .recv 0, .recv 0, .send 0 4, .send 0 5,
      .recv 0, .recv 0, .send 0 6, .send 0 7, .send 0 8, .send 0 9, .send 0 10, .recv 0, .recv 0, .recv 0, .recv 0, .recv 0]).1.map (·.2)) =
      [some 1, some 2, some 3, some 4, some 5, some 9, some 6, some 7, some 10, none] := by decide

/-! ### C86 witnesses -/

/-- Handle 0 has sent and received; handle 1 is a subscriber of the same topic that has received that
first message too. Handle 0 then publishes twice: the subscriber gets nothing. -/
theorem both_mute_witness :
    outputs 1 (run c4 (St.init Nat) [.recv 1, .send 0 1, .recv 0, .recv 1, .send 0 2, .recv 1, .send 0 3, .recv 1]).1 =
      [none, some 1, none, none] := by decide

/-- The state of `both_mute_witness` before the sends satisfies the hypotheses of `both_mute`. -/
example : let s := (run c4 (St.init Nat) [.recv 1, .send 0 1, .recv 0, .recv 1]).2
    (s.h 0).role = .both ∧ (s.h 1).role = .consumer ∧ (s.h 1).lt = s.hd ∧ (s.h 1).lh = s.hd ∧ s.hd = 1 := by decide

/-- And the same state satisfies those of `both_deaf`: what handle 2 publishes never arrives. -/
example : let s := (run c4 (St.init Nat) [.recv 1, .send 0 1, .recv 0, .recv 1]).2
    (s.h 0).role = .both ∧ (s.h 0).lh = (s.h 0).lt ∧
      outputs 0 (run c4 s [.send 2 7, .recv 0, .send 2 8, .recv 0]).1 = [none, none] ∧
      outputs 1 (run c4 s [.send 2 7, .recv 1, .send 2 8, .recv 1]).1 = [some 7, some 8] := by decide

/-- A send-and-receive handle also destroys messages of other publishers: handle 2 publishes 7, handle
0 publishes 9 over it, and the subscriber receives 9 in the place of 7. -/
theorem both_overwrites :
    outputs 1 (run c4 (St.init Nat) [.recv 1, .send 0 1, .recv 0, .recv 1, .send 2 7, .send 0 9, .recv 1, .recv 1]).1 =
      [none, some 1, some 9, none] := by decide

/-! ### C88: a subscriber is never cut off -/

/-- A subscriber whose next message has been overwritten, or was never marked ready, receives nothing
ever again, whatever is published and whoever joins: only leaving the subscriber role or an epoch change
of this very handle could help. -/
theorem stuck_forever (c : Cfg) (j k : Nat) (as : List (Act α)) (s : St α) (hr : (s.h j).role = .consumer)
    (hk : (s.h j).lt = k) (hhd : k < s.hd) (hrd : s.ready (c.idx k) ≠ k + 1)
    (hs : ∀ x ∈ as, x.who = j → x = .recv j) : ∀ o ∈ outputs j (run c s as).1, o = none := by
  induction as generalizing s with
  | nil => intro o ho; simp [run, outputs] at ho
  | cons x as ih =>
    intro o ho
    have hs' : ∀ y ∈ as, y.who = j → y = .recv j := fun y hy => hs y (List.mem_cons_of_mem _ hy)
    simp only [run, outputs_append, List.mem_append] at ho
    by_cases hx : x.who = j
    · have hxe := hs x (List.mem_cons_self ..) hx
      subst hxe
      have hen : ensure c s j false = s := by unfold ensure; simp [hr, Role.has, Role.canRecv]
      have hre : ∃ lh, recv c s j = (none, s.setH j { (s.h j) with lh := lh }) := by
        unfold recv
        dsimp only
        rw [if_neg (by rw [hr]; decide), tryRecv, hen]
        unfold mpscRecv
        dsimp only
        rw [← hk] at hrd
        generalize (if (s.h j).lh = (s.h j).lt then s.hd else (s.h j).lh) = lh
        refine ⟨lh, ?_⟩
        by_cases h0 : lh = (s.h j).lt
        · rw [if_pos h0]
        · rw [if_neg h0, if_pos hrd]
      obtain ⟨lh, hre⟩ := hre
      have hst : (step c s (.recv j)).2 = s.setH j { (s.h j) with lh := lh } := by simp [step, hre]
      rw [outputs_recv, hre, hst] at ho
      rcases ho with ho | ho
      · simpa using ho
      · exact ih (s.setH j { (s.h j) with lh := lh }) (by rw [setH_h]; exact hr) (by rw [setH_h]; exact hk) hhd hrd hs' o ho
    · have hf := step_frame c s x (j := j) (fun h => hx h.symm)
      have hsh : s.hd ≤ (step c s x).2.hd ∧ (step c s x).2.ready (c.idx k) ≠ k + 1 := by
        have hmp : ∀ (t : St α) (i : Nat) (v : α), t.hd = s.hd → t.ready = s.ready →
            s.hd ≤ (mpSend c t i v).2.hd ∧ (mpSend c t i v).2.ready (c.idx k) ≠ k + 1 := by
          intro t i v h1 h2
          unfold mpSend
          dsimp only
          generalize (if sub64 t.hd (t.h i).lt ≥ c.cap then t.tl else (t.h i).lt) = lt
          split
          · exact ⟨by show s.hd ≤ t.hd; omega, by show t.ready _ ≠ _; rw [h2]; exact hrd⟩
          · refine ⟨by show s.hd ≤ t.hd + 1; omega, ?_⟩
            show upd t.ready (c.idx t.hd) (t.hd + 1) (c.idx k) ≠ k + 1
            by_cases he : c.idx k = c.idx t.hd
            · rw [he, upd_same]; omega
            · rw [upd_ne _ _ he, h2]; exact hrd
        cases x with
        | send i v =>
          show s.hd ≤ (send c s i v).hd ∧ (send c s i v).ready (c.idx k) ≠ k + 1
          unfold send
          dsimp only
          split
          · exact ⟨Nat.le_refl _, hrd⟩
          · obtain ⟨h1, h2, _⟩ := ensure_shared c s i true
            exact hmp _ i v h1 h2
        | recv i =>
          show s.hd ≤ (recv c s i).2.hd ∧ (recv c s i).2.ready (c.idx k) ≠ k + 1
          unfold recv
          dsimp only
          split
          · split
            · exact ⟨Nat.le_refl _, hrd⟩
            · exact ⟨Nat.le_refl _, hrd⟩
          · obtain ⟨h1, h2, _⟩ := ensure_shared c s i false
            have hm : (tryRecv c s i).2.hd = s.hd ∧ (tryRecv c s i).2.ready = s.ready := by
              rw [tryRecv, mpscRecv]
              dsimp only
              generalize (if ((ensure c s i false).h i).lh = ((ensure c s i false).h i).lt then (ensure c s i false).hd else ((ensure c s i false).h i).lh) = lh
              split
              · exact ⟨h1, h2⟩
              split
              · exact ⟨h1, h2⟩
              · exact ⟨h1, h2⟩
            rw [hm.1, hm.2]
            exact ⟨Nat.le_refl _, hrd⟩
        | epoch i =>
          show s.hd ≤ (epoch s i).hd ∧ (epoch s i).ready (c.idx k) ≠ k + 1
          unfold epoch
          dsimp only
          refine ⟨?_, hrd⟩
          split
          · exact Nat.le_max_left _ _
          · exact Nat.le_refl _
      rw [outputs_other c s x (j := j) (fun h => hx h.symm)] at ho
      rcases ho with ho | ho
      · simp at ho
      · exact ih _ (by rw [hf]; exact hr) (by rw [hf]; exact hk) (by omega) hsh.2 hs' o ho

/-- Two subscriber handles of the same thread and two slots: the publisher waits for the faster one
only, so the slower one (handle 2) loses its place after three messages. -/
def lapped : List (Act Nat) := [.recv 1, .recv 2, .send 0 1, .recv 1, .send 0 2, .recv 1, .send 0 3, .recv 1]

/-- The slower subscriber is then in the state of `stuck_forever`: it has received nothing and never
will, although it has been there from the start. -/
theorem slow_subscriber_cut_off (as : List (Act Nat)) (hs : ∀ x ∈ as, x.who = 2 → x = .recv 2) :
    outputs 2 (run c2 (St.init Nat) lapped).1 = [none] ∧
      ∀ o ∈ outputs 2 (run c2 (run c2 (St.init Nat) lapped).2 as).1, o = none := by
  refine ⟨by decide, ?_⟩
  exact stuck_forever c2 2 0 as _ (by decide) (by decide) (by decide) (by decide) hs

/-- An epoch change of a send-and-receive handle publishes positions whose slots were never marked
ready: a subscriber that was up to date is cut off, also from every later publisher. -/
def flushed : List (Act Nat) := [.recv 1, .send 0 1, .recv 0, .recv 1, .send 0 2, .epoch 0]

/-- The subscriber of `flushed` never receives anything again. -/
theorem epoch_cuts_off (as : List (Act Nat)) (hs : ∀ x ∈ as, x.who = 1 → x = .recv 1) :
    outputs 1 (run c4 (St.init Nat) flushed).1 = [none, some 1] ∧
      ∀ o ∈ outputs 1 (run c4 (run c4 (St.init Nat) flushed).2 as).1, o = none := by
  refine ⟨by decide, ?_⟩
  exact stuck_forever c4 1 1 as _ (by decide) (by decide) (by decide) (by decide) hs

end Horus.Handle
