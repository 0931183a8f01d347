import Verif.Ring.MpscProps
/-
C30: one publisher, one subscriber. topic/mod.rs:1669-1725 routes SpscShm topics through the
multi-producer send and the matching receive, so this is the ring model of `Verif.Ring.Mpsc` with a
single producer.
-/
namespace Horus.Ring.Mpsc
open Horus.Ring

/-- Only producer 0 sends. -/
def SingleProducer (as : List Act) : Prop := ∀ i m sp, Act.prod i m sp ∈ as → i = 0

/-- How far the shared tail may lag behind the subscriber. -/
def Lag (c : Cfg) (s : St) : Prop :=
  match s.cPc with
  | .flush => s.cTail = s.tail + c.flushInterval ∧ s.cTail % c.flushInterval = 0
  | _ => s.tail = s.cTail / c.flushInterval * c.flushInterval

theorem lag_cons (c : Cfg) (s : St) (h : Lag c s) : Lag c (consStep c s) := by
  have hI := c.flushInterval_pos
  unfold consStep
  unfold Lag at h
  cases hpc : s.cPc with
  | idle => rw [hpc] at h; simp only; split <;> exact h
  | reload => rw [hpc] at h; simp only; split <;> exact h
  | check => rw [hpc] at h; simp only; split <;> exact h
  | read acc =>
    rw [hpc] at h
    simp only at h ⊢
    split
    · exact h
    · unfold Lag
      simp only
      cases hd : c.flushDue (s.cTail + 1) with
      | true =>
        have := (c.flushDue_iff _).mp hd
        simp only [if_true]
        refine ⟨?_, this⟩
        have e1 := Nat.div_add_mod (s.cTail + 1) c.flushInterval
        rw [this] at e1
        have e2 : s.cTail / c.flushInterval + 1 = (s.cTail + 1) / c.flushInterval := by
          rw [Nat.succ_div_of_dvd (Nat.dvd_of_mod_eq_zero this)]
        rw [h]
        rw [← e2, Nat.mul_comm, Nat.add_mul] at e1
        omega
      | false =>
        have : ¬ (s.cTail + 1) % c.flushInterval = 0 := by
          intro hx; rw [(c.flushDue_iff _).mpr hx] at hd; cases hd
        simp only [Bool.false_eq_true, if_false]
        rw [Nat.succ_div_of_not_dvd (fun hx => this (Nat.mod_eq_zero_of_dvd hx))]
        exact h
  | flush =>
    rw [hpc] at h
    simp only at h ⊢
    unfold Lag
    simp only
    exact (Nat.div_mul_cancel (Nat.dvd_of_mod_eq_zero h.2)).symm

theorem prod_frame (c : Cfg) (s : St) (i : Nat) (m : List Nat) (sp : Bool) :
    (prodStep c s i m sp).cPc = s.cPc ∧ (prodStep c s i m sp).cTail = s.cTail ∧ (prodStep c s i m sp).tail = s.tail := by
  simp only [prodStep, loadHead, St.setP]
  repeat' split
  all_goals exact ⟨rfl, rfl, rfl⟩

theorem cons_frame (c : Cfg) (s : St) :
    (consStep c s).prods = s.prods ∧ (consStep c s).head = s.head ∧ (consStep c s).failed = s.failed := by
  unfold consStep
  simp only
  repeat' split
  all_goals exact ⟨rfl, rfl, rfl⟩

theorem lag_run (c : Cfg) (as : List Act) : Lag c (run c St.init as) := by
  have : ∀ (as : List Act) (s : St), Lag c s → Lag c (run c s as) := by
    intro as
    induction as with
    | nil => exact fun s h => h
    | cons a as ih =>
      intro s h
      apply ih
      cases a with
      | cons => exact lag_cons c s h
      | prod i m sp =>
        obtain ⟨e1, e2, e3⟩ := prod_frame c s i m sp
        simp only [step, Lag, e1, e2, e3]
        exact h
  exact this as _ (by simp [Lag, St.init])

theorem lag_le (c : Cfg) (s : St) (hl : Lag c s) : s.cTail ≤ s.tail + c.flushInterval := by
  have hI := c.flushInterval_pos
  unfold Lag at hl
  cases hp : s.cPc with
  | flush => rw [hp] at hl; simp only at hl; omega
  | _ =>
    rw [hp] at hl
    simp only at hl
    have := Nat.mod_lt s.cTail hI
    rw [hl]
    have e := Nat.div_add_mod s.cTail c.flushInterval
    rw [Nat.mul_comm] at e
    omega

/-- With a single producer, the head it loaded is the head. -/
def One (s : St) : Prop :=
  (∀ i, i ≠ 0 → (s.prods i).pc = .idle) ∧
  match (s.prods 0).pc with
  | .refresh _ h => h = s.head
  | .cas _ h => h = s.head
  | _ => True

theorem one_prod (c : Cfg) (s : St) (m : List Nat) (sp : Bool) (h : One s) : One (prodStep c s 0 m sp) := by
  obtain ⟨h1, h2⟩ := h
  have oth : ∀ (p : Prod) i, i ≠ 0 → (upd s.prods 0 p i).pc = .idle := by
    intro p i hi; rw [upd_ne _ _ hi]; exact h1 i hi
  simp only [prodStep, loadHead, St.setP]
  cases hp : (s.prods 0).pc with
  | idle =>
    simp only
    split
    · exact ⟨h1, by rw [hp]; trivial⟩
    · split <;> exact ⟨oth _, by simp⟩
  | retry m' => simp only; split <;> exact ⟨oth _, by simp⟩
  | refresh m' h' =>
    rw [hp] at h2
    simp only
    split
    · exact ⟨oth _, by simp⟩
    · exact ⟨oth _, by simpa using h2⟩
  | cas m' h' => simp only; split <;> exact ⟨oth _, by simp⟩
  | write m' q k => simp only; split <;> exact ⟨oth _, by simp⟩
  | stamp m' q => exact ⟨oth _, by simp⟩

theorem one_run (c : Cfg) (as : List Act) (hp : SingleProducer as) : One (run c St.init as) := by
  have : ∀ (as : List Act) (s : St), SingleProducer as → One s → One (run c s as) := by
    intro as
    induction as with
    | nil => exact fun s _ h => h
    | cons a as ih =>
      intro s hp h
      apply ih _ (fun i m sp hm => hp i m sp (by simp [hm]))
      cases a with
      | cons =>
        obtain ⟨e1, e2, _⟩ := cons_frame c s
        simp only [step, One, e1, e2]
        exact h
      | prod i m sp =>
        have : i = 0 := hp i m sp (by simp)
        subst this
        exact one_prod c s m sp h
  exact this as _ hp ⟨by simp [St.init], by simp [St.init]⟩

/-- Every claim is producer 0's. -/
theorem claims_zero (c : Cfg) (as : List Act) (hp : SingleProducer as) : ∀ e ∈ (run c St.init as).claimed, e.1 = 0 := by
  have : ∀ (as : List Act) (s : St), SingleProducer as → (∀ e ∈ s.claimed, e.1 = 0) →
      ∀ e ∈ (run c s as).claimed, e.1 = 0 := by
    intro as
    induction as with
    | nil => exact fun s _ h => h
    | cons a as ih =>
      intro s hp h
      apply ih _ (fun i m sp hm => hp i m sp (by simp [hm]))
      cases a with
      | cons =>
        have : (consStep c s).claimed = s.claimed := by
          unfold consStep
          simp only
          repeat' split
          all_goals rfl
        simp only [step, this]; exact h
      | prod i m sp =>
        have : i = 0 := hp i m sp (by simp)
        subst this
        simp only [step, prodStep, loadHead, St.setP]
        repeat' split
        all_goals first
          | exact h
          | (intro e he
             rcases List.mem_append.mp he with he | he
             · exact h e he
             · simp only [List.mem_singleton] at he; rw [he])
  exact this as _ hp (by simp [St.init])

/-! ### C30 -/

/-- C30. One publisher, one subscriber, any interleaving of their memory accesses: what was received
is a prefix of what was successfully sent. No loss in the middle, no duplicate, no reordering, no
torn value. -/
theorem spsc_received_prefix (c : Cfg) (as : List Act) (hp : SingleProducer as) :
    (run c St.init as).received <+: (run c St.init as).sent 0 := by
  have h := inv_run c as
  have hz := claims_zero c as hp
  generalize run c St.init as = s at h hz
  have hf : s.claimed.filter (fun e => decide (e.1 = 0)) = s.claimed := by
    apply List.filter_eq_self.mpr; intro e he; simp [hz e he]
  have hS := h.hSent 0
  rw [hf] at hS
  have hP := h.hProd 0
  have h1 := h.hHead; have h6 := h.hC; have h7 := h.hH
  rw [h.hRecv, List.map_take, ← hS]
  have hlen := congrArg List.length hS
  simp only [List.length_append, List.length_map] at hlen
  have key : s.cTail ≤ (s.sent 0).length → (s.sent 0 ++ inflight (s.prods 0).pc).take s.cTail <+: s.sent 0 := by
    intro hle
    rw [List.take_append_of_le_length hle]; exact List.take_prefix _ _
  revert hP hlen key
  cases (s.prods 0).pc with
  | write m q k => rintro ⟨d1, d2, _⟩ hlen key; simp only [inflight, List.length_singleton] at hlen; exact key (by omega)
  | stamp m q => rintro ⟨d1, d2, _⟩ hlen key; simp only [inflight, List.length_singleton] at hlen; exact key (by omega)
  | _ => intro _ hlen key; simp only [inflight, List.length_nil] at hlen; exact key (by omega)

/-- C30, the refusal half, as far as it is true: a refused `send` means at least half a ring of
accepted messages is unread (precisely capacity minus the flush interval). Missing for the full
claim: "capacity messages", false by `spsc_send_fails_early`. -/
theorem spsc_send_fails_only_half_full_partial (c : Cfg) (as : List Act) (hp : SingleProducer as) (m : List Nat) (sp : Bool)
    (hf : (step c (run c St.init as) (.prod 0 m sp)).failed 0 ≠ (run c St.init as).failed 0) :
    (run c St.init as).received.length + c.cap ≤ ((run c St.init as).sent 0).length + max (c.cap / 2) 1 := by
  have h := inv_run c as
  have hz := claims_zero c as hp
  have ho := one_run c as hp
  have hl := lag_le c _ (lag_run c as)
  generalize run c St.init as = s at h hf hz ho hl
  have hff : s.claimed.filter (fun e => decide (e.1 = 0)) = s.claimed := by
    apply List.filter_eq_self.mpr; intro e he; simp [hz e he]
  have hS := h.hSent 0
  rw [hff] at hS
  have hlen := congrArg List.length hS
  simp only [List.length_append, List.length_map] at hlen
  have h1 := h.hHead; have h5 := h.hT; have h6 := h.hC; have h7 := h.hH
  rw [h.hRecv, List.length_map, List.length_take]
  simp only [step, prodStep, loadHead, St.setP] at hf
  unfold Cfg.flushInterval at hl
  obtain ⟨_, ho2⟩ := ho
  cases hpc : (s.prods 0).pc with
  | refresh m' h' =>
    rw [hpc] at hf ho2 hlen
    simp only [inflight, List.length_nil] at hf ho2 hlen
    split at hf
    · next hfull =>
      subst ho2
      simp only [isFull, Bool.or_eq_true, decide_eq_true_eq] at hfull
      omega
    · exact absurd rfl hf
  | idle =>
    rw [hpc] at hf
    simp only at hf
    split at hf
    · exact absurd rfl hf
    · split at hf <;> exact absurd rfl hf
  | retry m' => rw [hpc] at hf; simp only at hf; split at hf <;> exact absurd rfl hf
  | cas m' h' => rw [hpc] at hf; simp only at hf; split at hf <;> exact absurd rfl hf
  | write m' q k => rw [hpc] at hf; simp only at hf; split at hf <;> exact absurd rfl hf
  | stamp m' q => rw [hpc] at hf; exact absurd rfl hf

/-- C30 as stated fails on refusals: capacity 4, four messages sent, one received and the subscriber
idle, and the next `send` is refused with only three unread, because the subscriber publishes its
position only every half ring. -/
theorem spsc_send_fails_early :
    ∃ as : List Act, SingleProducer as ∧ (run ⟨2, 1⟩ St.init as).failed 0 = 1 ∧
      ((run ⟨2, 1⟩ St.init as).sent 0).length = 4 ∧ (run ⟨2, 1⟩ St.init as).received.length = 1 ∧
      (run ⟨2, 1⟩ St.init as).cPc = .idle := by
  refine ⟨List.replicate 20 (.prod 0 [5] false) ++ List.replicate 5 .cons ++ [.prod 0 [5] false, .prod 0 [5] false], ?_, ?_⟩
  · intro i m sp hm
    simp only [List.mem_append, List.mem_replicate, List.mem_cons, List.not_mem_nil, or_false, reduceCtorEq, and_false,
      Act.prod.injEq] at hm
    omega
  · decide

/-- C30. Nothing accepted is lost: with the publisher between two sends, polling returns
everything that was sent. -/
theorem spsc_everything_sent_is_received (c : Cfg) (as : List Act) (hp : SingleProducer as)
    (hq : ((run c St.init as).prods 0).pc = .idle) :
    ∃ k, (run c (run c St.init as) (List.replicate k .cons)).received = (run c St.init as).sent 0 := by
  have h := inv_run c as
  have hz := claims_zero c as hp
  have ho := one_run c as hp
  obtain ⟨k, hk⟩ := cons_alone_drains c _ _ h (fun i => by
    by_cases hi : i = 0
    · rw [hi, hq]; rfl
    · rw [ho.1 i hi]; rfl) rfl
  refine ⟨k, ?_⟩
  have hff : (run c St.init as).claimed.filter (fun e => decide (e.1 = 0)) = (run c St.init as).claimed := by
    apply List.filter_eq_self.mpr; intro e he; simp [hz e he]
  have hS := h.hSent 0
  rw [hff, hq] at hS
  rw [hk, ← hS]; simp [inflight]

/-- Two messages sent, one read, interleaved. -/
example : let s := run ⟨2, 2⟩ St.init (List.replicate 6 (.prod 0 [1, 2] false) ++ List.replicate 3 .cons ++
      List.replicate 6 (.prod 0 [3, 4] false) ++ List.replicate 3 .cons)
    s.sent 0 = [[1, 2], [3, 4]] ∧ s.received = [[1, 2]] := by
  decide

end Horus.Ring.Mpsc
