import Verif.Ring.Spsc
/-
C30: single-producer single-consumer topics are exact FIFO.
-/
namespace Horus.Ring.Spsc
open Horus.Ring

/-- What holds in every reachable state. -/
structure Inv (c : Cfg) (s : St) : Prop where
  hHead : s.head = s.sent.length
  hP : s.pHead = s.head
  hPT : s.pTail ≤ s.tail
  hT : s.tail ≤ s.cTail
  hC : s.cTail ≤ s.cHead
  hH : s.cHead ≤ s.head
  hRoom : s.head ≤ s.pTail + c.cap
  hRecv : s.received = s.sent.take s.cTail
  hWidth : ∀ m ∈ s.sent, m.length = c.width
  hSlot : ∀ i, s.cTail ≤ i → i < s.head → ∀ k, k < c.width →
    s.slot (c.idx i) k = (s.sent.getD i []).getD k 0
  hProd : match s.pPc with
    | .idle => True
    | .refresh m => m.length = c.width
    | .write m k => m.length = c.width ∧ s.head < s.pTail + c.cap ∧ k ≤ c.width ∧
        ∀ j, j < k → s.slot (c.idx s.head) j = m.getD j 0
    | .stamp m => m.length = c.width ∧ s.head < s.pTail + c.cap ∧
        ∀ j, j < c.width → s.slot (c.idx s.head) j = m.getD j 0
    | .publish m => m.length = c.width ∧ s.head < s.pTail + c.cap ∧
        ∀ j, j < c.width → s.slot (c.idx s.head) j = m.getD j 0
  hCons : match s.cPc with
    | .read acc => s.cTail < s.cHead ∧ acc = (s.sent.getD s.cTail []).take acc.length
    | _ => True
  hLag : match s.cPc with
    | .flush => s.cTail = s.tail + c.flushInterval ∧ s.cTail % c.flushInterval = 0
    | _ => s.tail = s.cTail / c.flushInterval * c.flushInterval

theorem inv_init (c : Cfg) : Inv c St.init := by
  constructor <;> simp [St.init]

theorem getD_append_lt {α : Type} (l : List α) (x d : α) (i : Nat) (h : i < l.length) :
    (l ++ [x]).getD i d = l.getD i d := by
  simp [List.getElem?_append_left h]

theorem inv_prod (c : Cfg) (s : St) (m : List Nat) (h : Inv c s) : Inv c (prodStep c s m) := by
  have hProd := h.hProd
  have hP := h.hP
  unfold prodStep
  cases hpc : s.pPc with
  | idle =>
    simp only
    split
    · exact h
    · next hm =>
      split
      · exact { h with hProd := by simpa using hm }
      · next hr =>
        have h1 := h.hHead; have h2 := h.hRoom; have h3 := h.hP; have h4 := h.hPT; have h5 := h.hT
        have h6 := h.hC; have h7 := h.hH
        exact { h with hProd := ⟨by simpa using hm, by simp only; omega, by omega, by simp⟩ }
  | refresh m' =>
    rw [hpc] at hProd
    have h1 := h.hHead; have h2 := h.hRoom; have h3 := h.hP; have h4 := h.hPT; have h5 := h.hT
    have h6 := h.hC; have h7 := h.hH
    simp only
    split
    · exact { h with hPT := Nat.le_refl _, hRoom := by simp only; omega, hProd := trivial }
    · next hr =>
      exact { h with
        hPT := Nat.le_refl _
        hRoom := by simp only; omega
        hProd := ⟨hProd, by simp only; omega, by omega, by simp⟩ }
  | write m' k =>
    rw [hpc] at hProd
    obtain ⟨a1, a2, a3, a4⟩ := hProd
    simp only
    split
    · next hk =>
      have hs : ∀ i, s.cTail ≤ i → i < s.head → ∀ j, j < c.width →
          (upd s.slot (c.idx s.pHead) (upd (s.slot (c.idx s.pHead)) k (m'.getD k 0))) (c.idx i) j =
            (s.sent.getD i []).getD j 0 := by
        intro i hi1 hi2 j hj
        have h4 := h.hPT; have h5 := h.hT
        rw [upd_ne]
        · exact h.hSlot i hi1 hi2 j hj
        · rw [hP]; exact c.idx_ne (by omega) (by omega)
      refine { h with hSlot := hs, hProd := ⟨a1, a2, by omega, ?_⟩ }
      intro j hj
      simp only
      rw [← hP, upd_same]
      by_cases hjk : j = k
      · subst hjk; simp
      · rw [upd_ne _ _ hjk, hP]; exact a4 j (by omega)
    · exact { h with hProd := ⟨a1, a2, fun j hj => a4 j (by omega)⟩ }
  | stamp m' =>
    rw [hpc] at hProd
    exact { h with hProd := hProd }
  | publish m' =>
    rw [hpc] at hProd
    obtain ⟨a1, a2, a3⟩ := hProd
    have h1 := h.hHead; have h2 := h.hRoom; have h3 := h.hP; have h4 := h.hPT; have h5 := h.hT
    have h6 := h.hC; have h7 := h.hH
    simp only
    refine { hHead := by simp; omega, hP := rfl, hPT := h.hPT, hT := h.hT, hC := h.hC, hH := by show s.cHead ≤ s.pHead + 1; omega,
             hRoom := by simp only; omega, hRecv := ?_, hWidth := ?_, hSlot := ?_, hProd := trivial,
             hCons := ?_, hLag := h.hLag }
    · show s.received = (s.sent ++ [m']).take s.cTail
      rw [List.take_append_of_le_length (by omega)]; exact h.hRecv
    · intro x hx
      rcases List.mem_append.mp hx with hx | hx
      · exact h.hWidth x hx
      · simp only [List.mem_singleton] at hx; rw [hx]; exact a1
    · intro i hi1 hi2 k hk
      simp only at hi1 hi2 ⊢
      by_cases hi : i < s.head
      · rw [getD_append_lt _ _ _ _ (by omega)]; exact h.hSlot i hi1 hi k hk
      · have : i = s.head := by omega
        subst this
        rw [a3 k hk, h1]
        simp
    · have hc := h.hCons
      cases hcp : s.cPc with
      | read acc =>
        rw [hcp] at hc
        simp only at hc ⊢
        refine ⟨hc.1, ?_⟩
        rw [getD_append_lt _ _ _ _ (by omega)]
        exact hc.2
      | _ => trivial

theorem inv_cons (c : Cfg) (s : St) (h : Inv c s) : Inv c (consStep c s) := by
  have hCons := h.hCons
  have hLag := h.hLag
  have h1 := h.hHead; have h2 := h.hRoom; have h3 := h.hP; have h4 := h.hPT; have h5 := h.hT
  have h6 := h.hC; have h7 := h.hH
  unfold consStep
  cases hpc : s.cPc with
  | idle =>
    rw [hpc] at hLag
    simp only
    split
    · exact { h with hCons := trivial, hLag := hLag }
    · exact { h with hCons := ⟨by simp only; omega, by simp⟩, hLag := hLag }
  | reload =>
    rw [hpc] at hLag
    simp only
    split
    · exact { h with hC := by simp only; omega, hH := Nat.le_refl _, hCons := trivial, hLag := hLag }
    · exact { h with hC := by simp only; omega, hH := Nat.le_refl _, hCons := ⟨by simp only; omega, by simp⟩, hLag := hLag }
  | read acc =>
    rw [hpc] at hLag hCons
    obtain ⟨b1, b2⟩ := hCons
    have hlt : s.cTail < s.sent.length := by omega
    have hget : s.sent.getD s.cTail [] = s.sent[s.cTail] := by simp [hlt]
    have hw : (s.sent.getD s.cTail []).length = c.width := by
      rw [hget]; exact h.hWidth _ (List.getElem_mem hlt)
    simp only
    split
    · next hk =>
      refine { h with hCons := ⟨b1, ?_⟩, hLag := hLag }
      simp only
      rw [h.hSlot s.cTail (Nat.le_refl _) (by omega) _ hk, List.length_append, List.length_singleton,
        List.take_add_one, ← b2]
      congr 1
      rw [List.getD_eq_getElem?_getD, List.getElem?_eq_getElem (by omega)]
      simp
    · next hk =>
      have hacc : acc = s.sent[s.cTail] := by
        rw [b2, ← hget, List.take_of_length_le (by omega)]
      refine { h with hT := by simp only; omega, hC := by simp only; omega, hRecv := ?_, hSlot := ?_, hCons := ?_, hLag := ?_ }
      · simp only
        rw [List.take_add_one, h.hRecv, List.getElem?_eq_getElem hlt, hacc]
        rfl
      · intro i hi1 hi2; exact h.hSlot i (by simp only at hi1; omega) hi2
      · cases c.flushDue (s.cTail + 1) <;> trivial
      · have hI := c.flushInterval_pos
        simp only
        cases hd : c.flushDue (s.cTail + 1) with
        | true =>
          have := (c.flushDue_iff _).mp hd
          simp only [if_true]
          refine ⟨?_, this⟩
          have e1 := Nat.div_add_mod (s.cTail + 1) c.flushInterval
          rw [this] at e1
          have e2 : s.cTail / c.flushInterval + 1 = (s.cTail + 1) / c.flushInterval := by
            rw [Nat.succ_div_of_dvd (Nat.dvd_of_mod_eq_zero this)]
          rw [hLag]
          rw [← e2, Nat.mul_comm, Nat.add_mul] at e1
          omega
        | false =>
          have : ¬ (s.cTail + 1) % c.flushInterval = 0 := by
            intro hx; rw [(c.flushDue_iff _).mpr hx] at hd; cases hd
          simp only [Bool.false_eq_true, if_false]
          rw [Nat.succ_div_of_not_dvd (fun hx => this (Nat.mod_eq_zero_of_dvd hx))]
          exact hLag
  | flush =>
    rw [hpc] at hLag
    simp only
    refine { h with hPT := by simp only; omega, hT := Nat.le_refl _, hCons := trivial, hLag := ?_ }
    simp only
    exact (Nat.div_mul_cancel (Nat.dvd_of_mod_eq_zero hLag.2)).symm

theorem inv_step (c : Cfg) (s : St) (a : Act) (h : Inv c s) : Inv c (step c s a) := by
  cases a with
  | prod m => exact inv_prod c s m h
  | cons => exact inv_cons c s h

theorem inv_run_from (c : Cfg) (s : St) (h : Inv c s) (as : List Act) : Inv c (run c s as) := by
  induction as generalizing s with
  | nil => exact h
  | cons a as ih => exact ih _ (inv_step c s a h)

theorem inv_run (c : Cfg) (as : List Act) : Inv c (run c St.init as) := inv_run_from c _ (inv_init c) as

/-! ### C30 -/

/-- C30. Under every interleaving, what the subscriber has received is a prefix of what was
successfully sent: no loss, no duplicate, no reordering, no torn value. -/
theorem received_prefix (c : Cfg) (as : List Act) :
    (run c St.init as).received <+: (run c St.init as).sent := by
  rw [(inv_run c as).hRecv]; exact List.take_prefix _ _

/-- C30. The number of accepted and unread messages never exceeds the capacity. -/
theorem unread_bounded (c : Cfg) (as : List Act) :
    (run c St.init as).sent.length ≤ (run c St.init as).received.length + c.cap := by
  have h := inv_run c as
  have h1 := h.hHead; have h2 := h.hRoom; have h4 := h.hPT; have h5 := h.hT; have h6 := h.hC; have h7 := h.hH
  rw [h.hRecv, List.length_take]
  omega

/-- C30, the part that holds of refusals: a `send` that reports failure does so with at least
`capacity - max (capacity / 2) 1` messages unread. -/
theorem send_fails_only_half_full_partial (c : Cfg) (as : List Act) (m : List Nat)
    (hf : (step c (run c St.init as) (.prod m)).results = (run c St.init as).results ++ [false]) :
    (run c St.init as).received.length + c.cap ≤
      (run c St.init as).sent.length + max (c.cap / 2) 1 := by
  have h := inv_run c as
  generalize run c St.init as = s at h hf
  have h1 := h.hHead; have h3 := h.hP; have h5 := h.hT; have h6 := h.hC; have h7 := h.hH
  have hI := c.flushInterval_pos
  have hlag : s.cTail ≤ s.tail + c.flushInterval := by
    have hl := h.hLag
    cases hp : s.cPc with
    | flush => rw [hp] at hl; simp only at hl; omega
    | _ =>
      rw [hp] at hl
      simp only at hl
      have := Nat.mod_lt s.cTail hI
      rw [hl]
      have e := Nat.div_add_mod s.cTail c.flushInterval
      rw [Nat.mul_comm] at e
      omega
  rw [h.hRecv, List.length_take]
  unfold Cfg.flushInterval at hlag hI
  simp only [step, prodStep] at hf
  cases hp : s.pPc with
  | idle =>
    rw [hp] at hf
    simp only at hf
    split at hf
    · simp at hf
    · split at hf <;> simp at hf
  | refresh m' =>
    rw [hp] at hf
    simp only at hf
    split at hf
    · next hr => omega
    · simp at hf
  | write m' k =>
    rw [hp] at hf; simp only at hf; split at hf <;> simp at hf
  | stamp m' => rw [hp] at hf; simp at hf
  | publish m' => rw [hp] at hf; simp at hf

/-- The stronger "send fails only when `capacity` messages are unread" does not hold: the
subscriber publishes its position only every half ring, so here a ring of capacity 4 refuses a send
with three messages unread. -/
theorem send_fails_early :
    ∃ (c : Cfg) (as : List Act), c.cap = 4 ∧ (run c St.init as).results = [true, true, true, true, false] ∧
      (run c St.init as).sent.length - (run c St.init as).received.length = 3 ∧
      (run c St.init as).cPc = .idle := by
  refine ⟨⟨2, 1⟩, List.replicate 20 (.prod [5]) ++ List.replicate 4 .cons ++ [.prod [5], .prod [5]], rfl, ?_⟩
  decide

/-- Number of consumer steps still needed to drain (a bound). -/
theorem cons_alone_drains (c : Cfg) (s : St) (h : Inv c s) (n : Nat) (hn : s.sent.length - s.cTail = n) :
    ∃ k, (run c s (List.replicate k .cons)).received = s.sent ∧
      (run c s (List.replicate k .cons)).sent = s.sent := by
  -- reading out the current message takes `width - acc.length` word reads and the completion step
  have readOut : ∀ (j : Nat) (s : St) (acc : List Nat), Inv c s → s.cPc = .read acc →
      c.width - acc.length = j →
      ∃ k, (run c s (List.replicate k .cons)).cTail = s.cTail + 1 ∧
        (run c s (List.replicate k .cons)).sent = s.sent := by
    intro j
    induction j with
    | zero =>
      intro s acc hi hp hj
      refine ⟨1, ?_⟩
      have hnl : ¬ acc.length < c.width := by omega
      simp only [List.replicate_one, run, List.foldl_cons, List.foldl_nil, step, consStep, hp, if_neg hnl]
      exact ⟨trivial, trivial⟩
    | succ j ih =>
      intro s acc hi hp hj
      have hl : acc.length < c.width := by omega
      have hstep : consStep c s = { s with cPc := .read (acc ++ [s.slot (c.idx s.cTail) acc.length]) } := by
        simp only [consStep, hp, if_pos hl]
      obtain ⟨k, hk1, hk2⟩ := ih (consStep c s) (acc ++ [s.slot (c.idx s.cTail) acc.length])
        (inv_cons c s hi) (by rw [hstep]) (by simp; omega)
      refine ⟨k + 1, ?_⟩
      simp only [List.replicate_succ, run, List.foldl_cons, step]
      simp only [run] at hk1 hk2
      rw [hk1, hk2, hstep]
      exact ⟨rfl, rfl⟩
  -- one message at a time
  have one : ∀ (s : St), Inv c s → s.cTail < s.sent.length →
      ∃ k, (run c s (List.replicate k .cons)).cTail = s.cTail + 1 ∧
        (run c s (List.replicate k .cons)).sent = s.sent := by
    intro s hi hlt
    have h1 := hi.hHead
    have fromReload : ∀ s : St, Inv c s → s.cTail < s.sent.length → s.cPc = .reload →
        ∃ k, (run c s (List.replicate k .cons)).cTail = s.cTail + 1 ∧
          (run c s (List.replicate k .cons)).sent = s.sent := by
      intro s hi hlt hp
      have h1 := hi.hHead
      have hne : ¬ s.head - s.cTail = 0 := by omega
      have hstep : consStep c s = { s with cHead := s.head, cPc := .read [] } := by
        simp only [consStep, hp, if_neg hne]
      obtain ⟨k, hk1, hk2⟩ := readOut _ (consStep c s) [] (inv_cons c s hi) (by rw [hstep]) rfl
      refine ⟨k + 1, ?_⟩
      simp only [List.replicate_succ, run, List.foldl_cons, step]
      simp only [run] at hk1 hk2
      rw [hk1, hk2, hstep]
      exact ⟨rfl, rfl⟩
    have fromIdle : ∀ s : St, Inv c s → s.cTail < s.sent.length → s.cPc = .idle →
        ∃ k, (run c s (List.replicate k .cons)).cTail = s.cTail + 1 ∧
          (run c s (List.replicate k .cons)).sent = s.sent := by
      intro s hi hlt hp
      by_cases hz : s.cHead - s.cTail = 0
      · have hstep : consStep c s = { s with cPc := .reload } := by simp only [consStep, hp, if_pos hz]
        obtain ⟨k, hk1, hk2⟩ := fromReload (consStep c s) (inv_cons c s hi) (by rw [hstep]; exact hlt) (by rw [hstep])
        refine ⟨k + 1, ?_⟩
        simp only [List.replicate_succ, run, List.foldl_cons, step]
        simp only [run] at hk1 hk2
        rw [hk1, hk2, hstep]
        exact ⟨rfl, rfl⟩
      · have hstep : consStep c s = { s with cPc := .read [] } := by simp only [consStep, hp, if_neg hz]
        obtain ⟨k, hk1, hk2⟩ := readOut _ (consStep c s) [] (inv_cons c s hi) (by rw [hstep]) rfl
        refine ⟨k + 1, ?_⟩
        simp only [List.replicate_succ, run, List.foldl_cons, step]
        simp only [run] at hk1 hk2
        rw [hk1, hk2, hstep]
        exact ⟨rfl, rfl⟩
    cases hp : s.cPc with
    | idle => exact fromIdle s hi hlt hp
    | reload => exact fromReload s hi hlt hp
    | read acc => exact readOut _ s acc hi hp rfl
    | flush =>
      have hstep : consStep c s = { s with tail := s.cTail, cPc := .idle } := by simp only [consStep, hp]
      obtain ⟨k, hk1, hk2⟩ := fromIdle (consStep c s) (inv_cons c s hi) (by rw [hstep]; exact hlt) (by rw [hstep])
      refine ⟨k + 1, ?_⟩
      simp only [List.replicate_succ, run, List.foldl_cons, step]
      simp only [run] at hk1 hk2
      rw [hk1, hk2, hstep]
      exact ⟨rfl, rfl⟩
  induction n generalizing s with
  | zero =>
    refine ⟨0, ?_, rfl⟩
    simp only [List.replicate_zero, run, List.foldl_nil]
    rw [h.hRecv, List.take_of_length_le (by omega)]
  | succ n ih =>
    obtain ⟨k, hk1, hk2⟩ := one s h (by omega)
    obtain ⟨k', hk3, hk4⟩ := ih (run c s (List.replicate k .cons)) (inv_run_from c s h _) (by rw [hk1, hk2]; omega)
    refine ⟨k + k', ?_⟩
    rw [← List.replicate_append_replicate, run, List.foldl_append]
    simp only [run] at hk3 hk4 hk2
    rw [hk3, hk4, hk2]
    exact ⟨rfl, rfl⟩

/-- C30. No accepted message is ever lost: from every reachable state, whatever the producer is in
the middle of, the subscriber calling `recv` often enough has received everything accepted so far. -/
theorem everything_sent_is_received (c : Cfg) (as : List Act) :
    ∃ k, (run c (run c St.init as) (List.replicate k .cons)).received = (run c St.init as).sent := by
  obtain ⟨k, hk, _⟩ := cons_alone_drains c _ (inv_run c as) _ rfl
  exact ⟨k, hk⟩

/-- A two-word message sent and received with interleaved accesses. -/
example : (run ⟨1, 2⟩ St.init [.prod [7, 8], .cons, .prod [], .prod [], .cons, .prod [], .prod [], .prod [],
    .cons, .cons, .prod [9, 9], .cons, .prod [], .cons, .cons, .cons]).received = [[7, 8]] := by decide

end Horus.Ring.Spsc
