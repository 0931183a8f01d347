import Verif.Ring.Spmc
/-
C32: competing consumers.
-/
namespace Horus.Ring.Spmc
open Horus.Ring

/-- The producer is overwriting the slot of position `head`. -/
def PPc.busy : PPc → Bool
  | .write _ _ => true
  | .publish _ => true
  | _ => false

/-- Position `i` has been published and is not (being) overwritten. -/
def St.intact (c : Cfg) (s : St) (i : Nat) : Prop :=
  i < s.head ∧ (s.head < i + c.cap ∨ (s.head = i + c.cap ∧ s.pPc.busy = false))

/-- The invariant of the competing-consumers ring. -/
structure Inv (c : Cfg) (s : St) : Prop where
  hHead : s.head = s.sent.length
  hPT : s.pTail ≤ s.tail
  hT : s.tail ≤ s.head
  hRoom : s.head ≤ s.pTail + c.cap
  hBusy : s.pPc.busy = true → s.head < s.pTail + c.cap
  hWidth : ∀ m ∈ s.sent, m.length = c.width
  hClaims : s.claims.map Prod.snd = List.range s.tail
  hCH : ∀ i, (s.cons i).cHead ≤ s.head
  hSlot : ∀ i, s.intact c i → ∀ k, k < c.width → s.slot (c.idx i) k = (s.sent.getD i []).getD k 0
  hProd : match s.pPc with
    | .idle => True
    | .refresh m => m.length = c.width
    | .write m k => m.length = c.width ∧ k ≤ c.width ∧ ∀ j, j < k → s.slot (c.idx s.head) j = m.getD j 0
    | .publish m => m.length = c.width ∧ ∀ j, j < c.width → s.slot (c.idx s.head) j = m.getD j 0
  hCons : ∀ i, match (s.cons i).pc with
    | .read t acc => t < s.tail ∧ (i, t) ∈ s.claims ∧
        (s.intact c t → acc = (s.sent.getD t []).take acc.length)
    | .cas t _ => t < s.head
    | _ => True
  hRecv : ∀ e ∈ s.received, (e.1, e.2.1) ∈ s.claims

theorem inv_init (c : Cfg) : Inv c St.init := by
  constructor <;> simp [St.init, PPc.busy, St.intact]

theorem getD_append_lt {α : Type} (l : List α) (x d : α) (i : Nat) (h : i < l.length) :
    (l ++ [x]).getD i d = l.getD i d := by
  simp [List.getElem?_append_left h]

theorem inv_prod (c : Cfg) (s : St) (m : List Nat) (h : Inv c s) : Inv c (prodStep c s m) := by
  have hProd := h.hProd
  have h1 := h.hHead; have h2 := h.hRoom; have h3 := h.hPT; have h4 := h.hT
  have hcap := c.cap_pos
  -- changing only the producer's private state from not busy: intactness can only shrink
  have mono : ∀ (t : St), t.head = s.head → (s.pPc.busy = true → t.pPc.busy = true) →
      ∀ i, t.intact c i → s.intact c i := by
    intro t e1 e2 i hi
    rcases hi with ⟨a, b | ⟨b1, b2⟩⟩
    · exact ⟨by omega, Or.inl (by omega)⟩
    · refine ⟨by omega, Or.inr ⟨by omega, ?_⟩⟩
      cases hb : s.pPc.busy with
      | false => rfl
      | true => rw [e2 hb] at b2; cases b2
  unfold prodStep
  cases hpc : s.pPc with
  | idle =>
    simp only
    split
    · exact h
    · next hm =>
      split
      · refine { h with hBusy := by simp [PPc.busy], hSlot := ?_, hProd := by simpa using hm, hCons := ?_ }
        · exact fun i hi => h.hSlot i (mono { s with pPc := .refresh m } rfl (by simp [hpc, PPc.busy]) i hi)
        · intro i
          have := h.hCons i
          revert this
          simp only
          cases (s.cons i).pc with
          | read t acc => exact fun ⟨a, b, d⟩ => ⟨a, b, fun hi => d (mono { s with pPc := .refresh m } rfl (by simp [hpc, PPc.busy]) t hi)⟩
          | _ => exact id
      · next hr =>
        refine { h with hBusy := fun _ => by simp only; omega, hSlot := ?_, hProd := ⟨by simpa using hm, by omega, by simp⟩, hCons := ?_ }
        · exact fun i hi => h.hSlot i (mono { s with pPc := .write m 0 } rfl (by simp [hpc, PPc.busy]) i hi)
        · intro i
          have := h.hCons i
          revert this
          simp only
          cases (s.cons i).pc with
          | read t acc => exact fun ⟨a, b, d⟩ => ⟨a, b, fun hi => d (mono { s with pPc := .write m 0 } rfl (by simp [hpc, PPc.busy]) t hi)⟩
          | _ => exact id
  | refresh m' =>
    rw [hpc] at hProd
    simp only
    split
    · refine { h with hPT := Nat.le_refl _, hRoom := by simp only; omega, hBusy := by simp [PPc.busy], hSlot := ?_, hProd := trivial, hCons := ?_ }
      · exact fun i hi => h.hSlot i (mono { s with pTail := s.tail, pPc := .idle } rfl (by simp [hpc, PPc.busy]) i hi)
      · intro i
        have := h.hCons i
        revert this
        simp only
        cases (s.cons i).pc with
        | read t acc => exact fun ⟨a, b, d⟩ => ⟨a, b, fun hi => d (mono { s with pTail := s.tail, pPc := .idle } rfl (by simp [hpc, PPc.busy]) t hi)⟩
        | _ => exact id
    · next hr =>
      refine { h with hPT := Nat.le_refl _, hRoom := by simp only; omega, hBusy := fun _ => by simp only; omega, hSlot := ?_, hProd := ⟨hProd, by omega, by simp⟩, hCons := ?_ }
      · exact fun i hi => h.hSlot i (mono { s with pTail := s.tail, pPc := .write m' 0 } rfl (by simp [hpc, PPc.busy]) i hi)
      · intro i
        have := h.hCons i
        revert this
        simp only
        cases (s.cons i).pc with
        | read t acc => exact fun ⟨a, b, d⟩ => ⟨a, b, fun hi => d (mono { s with pTail := s.tail, pPc := .write m' 0 } rfl (by simp [hpc, PPc.busy]) t hi)⟩
        | _ => exact id
  | write m' k =>
    rw [hpc] at hProd
    obtain ⟨a1, a2, a3⟩ := hProd
    have hb := h.hBusy (by rw [hpc]; rfl)
    simp only
    split
    · next hk =>
      let t : St := { s with slot := upd s.slot (c.idx s.head) (upd (s.slot (c.idx s.head)) k (m'.getD k 0)), pPc := .write m' (k + 1) }
      have hm : ∀ i, t.intact c i → s.intact c i := mono t rfl (fun _ => rfl)
      have hne : ∀ i, t.intact c i → c.idx i ≠ c.idx s.head := by
        intro i hi
        rcases hi with ⟨x, y | ⟨y1, y2⟩⟩
        · exact c.idx_ne x y
        · cases y2
      refine { h with hBusy := fun _ => hb, hSlot := ?_, hProd := ⟨a1, by omega, ?_⟩, hCons := ?_ }
      · intro i hi k' hk'
        show (upd s.slot (c.idx s.head) (upd (s.slot (c.idx s.head)) k (m'.getD k 0))) (c.idx i) k' = _
        rw [upd_ne _ _ (hne i hi)]
        exact h.hSlot i (hm i hi) k' hk'
      · intro j hj
        show (upd s.slot (c.idx s.head) (upd (s.slot (c.idx s.head)) k (m'.getD k 0))) (c.idx s.head) j = _
        rw [upd_same]
        by_cases hjk : j = k
        · subst hjk; rw [upd_same]
        · rw [upd_ne _ _ hjk]; exact a3 j (by omega)
      · intro i
        have := h.hCons i
        revert this
        simp only
        cases (s.cons i).pc with
        | read q acc => exact fun ⟨a, b, d⟩ => ⟨a, b, fun hi => d (hm q hi)⟩
        | _ => exact id
    · have hm : ∀ i, St.intact c { s with pPc := .publish m' } i → s.intact c i := mono _ rfl (fun _ => rfl)
      refine { h with hBusy := fun _ => hb, hSlot := fun i hi => h.hSlot i (hm i hi), hProd := ⟨a1, fun j hj => a3 j (by omega)⟩, hCons := ?_ }
      intro i
      have := h.hCons i
      revert this
      simp only
      cases (s.cons i).pc with
      | read q acc => exact fun ⟨a, b, d⟩ => ⟨a, b, fun hi => d (hm q hi)⟩
      | _ => exact id
  | publish m' =>
    rw [hpc] at hProd
    obtain ⟨a1, a2⟩ := hProd
    have hb := h.hBusy (by rw [hpc]; rfl)
    simp only
    let t : St := { s with head := s.head + 1, pPc := .idle, sent := s.sent ++ [m'] }
    have hm : ∀ i, i < s.head → t.intact c i → s.intact c i := by
      intro i hi ht
      rcases ht with ⟨_, y | ⟨y1, _⟩⟩
      · exact ⟨hi, Or.inl (by have : s.head + 1 < i + c.cap := y; omega)⟩
      · exact ⟨hi, Or.inl (by have : s.head + 1 = i + c.cap := y1; omega)⟩
    refine { hHead := by simp; omega, hPT := h.hPT, hT := by show s.tail ≤ s.head + 1; omega,
             hRoom := by show s.head + 1 ≤ s.pTail + c.cap; omega, hBusy := by simp [PPc.busy], hWidth := ?_,
             hClaims := h.hClaims, hCH := fun i => Nat.le_succ_of_le (h.hCH i), hSlot := ?_, hProd := trivial,
             hCons := ?_, hRecv := h.hRecv }
    · intro x hx
      rcases List.mem_append.mp hx with hx | hx
      · exact h.hWidth x hx
      · simp only [List.mem_singleton] at hx; rw [hx]; exact a1
    · intro i hi k hk
      show s.slot (c.idx i) k = ((s.sent ++ [m']).getD i []).getD k 0
      by_cases hlt : i < s.head
      · rw [getD_append_lt _ _ _ _ (by omega)]
        exact h.hSlot i (hm i hlt hi) k hk
      · have : i = s.head := by have : i < s.head + 1 := hi.1; omega
        subst this
        rw [a2 k hk, h1]
        simp
    · intro i
      have := h.hCons i
      revert this
      simp only
      cases (s.cons i).pc with
      | read q acc =>
        rintro ⟨a, b, d⟩
        refine ⟨a, b, fun hi => ?_⟩
        rw [getD_append_lt _ _ _ _ (by omega)]
        exact d (hm q (by omega) hi)
      | cas q a => intro hq; exact Nat.lt_succ_of_lt hq
      | _ => exact id

/-- Changing one consumer's private state. -/
theorem inv_setC (c : Cfg) (s : St) (h : Inv c s) (i : Nat) (x : Cons) (hx : x.cHead ≤ s.head)
    (hp : match x.pc with
      | .read t acc => t < s.tail ∧ (i, t) ∈ s.claims ∧ (s.intact c t → acc = (s.sent.getD t []).take acc.length)
      | .cas t _ => t < s.head
      | _ => True) : Inv c (s.setC i x) := by
  refine { h with hCH := ?_, hCons := ?_ }
  · intro j
    by_cases hj : j = i
    · subst hj; simp only [St.setC, upd_same]; exact hx
    · simp only [St.setC, upd_ne _ _ hj]; exact h.hCH j
  · intro j
    by_cases hj : j = i
    · subst hj; simp only [St.setC, upd_same]; exact hp
    · simp only [St.setC, upd_ne _ _ hj]; exact h.hCons j

theorem inv_loadTail (c : Cfg) (s : St) (h : Inv c s) (i a : Nat) : Inv c (loadTail c s i a) := by
  have hc := h.hCH i
  unfold loadTail
  simp only
  split
  · exact inv_setC c s h i _ hc trivial
  · next hd =>
    simp only [drained, Bool.or_eq_true, decide_eq_true_eq, not_or] at hd
    exact inv_setC c s h i _ hc (by simp only; omega)

theorem inv_cons (c : Cfg) (s : St) (i : Nat) (sp : Bool) (h : Inv c s) : Inv c (consStep c s i sp) := by
  have hCi := h.hCons i
  have hc := h.hCH i
  have h1 := h.hHead
  unfold consStep
  simp only
  cases hpc : (s.cons i).pc with
  | idle => exact inv_loadTail c s h i 0
  | retry a => exact inv_loadTail c s h i a
  | reload t a =>
    simp only
    split
    · exact inv_setC c s h i _ (Nat.le_refl _) trivial
    · next hd =>
      simp only [drained, Bool.or_eq_true, decide_eq_true_eq, not_or] at hd
      exact inv_setC c s h i _ (Nat.le_refl _) (by simp only; omega)
  | cas t a =>
    rw [hpc] at hCi
    simp only at hCi ⊢
    split
    · next hcas =>
      have ht : t = s.tail := hcas.1.symm
      subst ht
      refine { hHead := h.hHead, hPT := Nat.le_succ_of_le h.hPT, hT := hCi, hRoom := h.hRoom, hBusy := h.hBusy,
               hWidth := h.hWidth, hClaims := ?_, hCH := ?_, hSlot := h.hSlot, hProd := h.hProd, hCons := ?_, hRecv := ?_ }
      · show (s.claims ++ [(i, s.tail)]).map Prod.snd = List.range (s.tail + 1)
        rw [List.map_append, h.hClaims, List.range_succ]; rfl
      · intro j
        by_cases hj : j = i
        · subst hj; simp only [St.setC, upd_same]; exact hc
        · simp only [St.setC, upd_ne _ _ hj]; exact h.hCH j
      · intro j
        by_cases hj : j = i
        · subst hj
          simp only [St.setC, upd_same]
          exact ⟨Nat.lt_succ_self _, by simp, fun _ => by simp⟩
        · simp only [St.setC, upd_ne _ _ hj]
          have := h.hCons j
          revert this
          cases (s.cons j).pc with
          | read q acc =>
            rintro ⟨b1, b2, b3⟩
            exact ⟨Nat.lt_succ_of_lt b1, List.mem_append_left _ b2, b3⟩
          | _ => exact id
      · intro e he
        exact List.mem_append_left _ (h.hRecv e he)
    · split
      · exact inv_setC c s h i _ hc trivial
      · exact inv_setC c s h i _ hc trivial
  | read t acc =>
    rw [hpc] at hCi
    simp only at hCi ⊢
    obtain ⟨b1, b2, b3⟩ := hCi
    have hT := h.hT
    split
    · next hk =>
      refine inv_setC c s h i _ hc ⟨b1, b2, fun hi => ?_⟩
      have hlt : t < s.sent.length := by omega
      have hw : (s.sent.getD t []).length = c.width := by
        have : s.sent.getD t [] = s.sent[t] := by simp [hlt]
        rw [this]; exact h.hWidth _ (List.getElem_mem hlt)
      have b3 := b3 hi
      rw [h.hSlot t hi _ hk, List.length_append, List.length_singleton, List.take_add_one, ← b3]
      congr 1
      rw [List.getD_eq_getElem?_getD, List.getElem?_eq_getElem (by omega)]
      simp
    · have h' := inv_setC c s h i ⟨(s.cons i).cHead, .idle⟩ hc trivial
      refine { h' with hRecv := ?_ }
      intro e he
      rcases List.mem_append.mp he with he | he
      · exact h.hRecv e he
      · simp only [List.mem_singleton] at he; rw [he]; exact b2

theorem inv_step (c : Cfg) (s : St) (a : Act) (h : Inv c s) : Inv c (step c s a) := by
  cases a with
  | prod m => exact inv_prod c s m h
  | cons i sp => exact inv_cons c s i sp h

theorem inv_run (c : Cfg) (as : List Act) : Inv c (run c St.init as) := by
  have gen : ∀ (s : St), Inv c s → Inv c (run c s as) := by
    induction as with
    | nil => exact fun s h => h
    | cons a as ih => exact fun s h => ih _ (inv_step c s a h)
  exact gen _ (inv_init c)

/-! ### C32 -/

/-- C32, the part that holds of positions: under every interleaving the positions claimed by all
consumers together are 0, 1, 2, … without gap or repetition, never beyond what was sent, and every
value returned belongs to a claim of that consumer. -/
theorem claims_disjoint_in_order (c : Cfg) (as : List Act) :
    (run c St.init as).claims.map Prod.snd = List.range (run c St.init as).claims.length ∧
    (run c St.init as).claims.length ≤ (run c St.init as).sent.length ∧
    ∀ e ∈ (run c St.init as).received, (e.1, e.2.1) ∈ (run c St.init as).claims := by
  have h := inv_run c as
  have hl : (run c St.init as).claims.length = (run c St.init as).tail := by
    have := congrArg List.length h.hClaims
    simpa using this
  refine ⟨by rw [hl]; exact h.hClaims, ?_, h.hRecv⟩
  rw [hl, ← h.hHead]; exact h.hT

/-- C32, the part that holds of values: a `recv` returns exactly the message of the position it
claimed, whole, provided the producer has not come round to that slot again by the time the copy
completes. -/
theorem value_exact_unless_lapped_partial (c : Cfg) (as : List Act) (i : Nat) (sp : Bool) (t : Nat)
    (v : List Nat)
    (hr : (step c (run c St.init as) (.cons i sp)).received = (run c St.init as).received ++ [(i, t, v)])
    (hl : (run c St.init as).sent.length < t + c.cap) :
    (run c St.init as).sent[t]? = some v := by
  have h := inv_run c as
  generalize run c St.init as = s at h hr hl
  have hCi := h.hCons i
  simp only [step, consStep] at hr
  cases hpc : (s.cons i).pc with
  | read q acc =>
    rw [hpc] at hr hCi
    simp only at hr hCi
    obtain ⟨b1, b2, b3⟩ := hCi
    split at hr
    · simp [St.setC] at hr
    · next hk =>
      simp only [St.setC, List.append_cancel_left_eq, List.cons.injEq, Prod.mk.injEq, true_and, and_true] at hr
      obtain ⟨rfl, rfl⟩ := hr
      have h1 := h.hHead; have hT := h.hT
      have hlt : q < s.sent.length := by omega
      have hg : s.sent.getD q [] = s.sent[q] := by simp [hlt]
      have hw : (s.sent.getD q []).length = c.width := by
        rw [hg]; exact h.hWidth _ (List.getElem_mem hlt)
      have := b3 ⟨by omega, Or.inl (by omega)⟩
      rw [List.take_of_length_le (by omega), hg] at this
      rw [List.getElem?_eq_getElem hlt, this]
  | idle =>
    rw [hpc] at hr
    simp only [loadTail, St.setC] at hr
    split at hr <;> simp at hr
  | retry a =>
    rw [hpc] at hr
    simp only [loadTail, St.setC] at hr
    split at hr <;> simp at hr
  | reload t a =>
    rw [hpc] at hr
    simp only [St.setC] at hr
    split at hr <;> simp at hr
  | cas t a =>
    rw [hpc] at hr
    simp only [St.setC] at hr
    split at hr
    · simp at hr
    · split at hr <;> simp at hr

/-- The full C32 does not hold: a consumer advances the shared tail before copying, which tells the
producer the slot is free. Capacity 1, two consumers: consumer 0 claims the first message, the
producer overwrites the slot with the second, consumer 0 copies it, and consumer 1 receives it
again. The first message is lost and the second delivered twice. -/
theorem delivered_twice :
    ∃ as : List Act, (run ⟨0, 1⟩ St.init as).sent = [[1], [2]] ∧
      (run ⟨0, 1⟩ St.init as).received = [(0, 0, [2]), (1, 1, [2])] := by
  refine ⟨List.replicate 4 (.prod [1]) ++ List.replicate 3 (.cons 0 false) ++ List.replicate 5 (.prod [2]) ++
    List.replicate 2 (.cons 0 false) ++ List.replicate 5 (.cons 1 false), ?_⟩
  decide

/-- … and the copy can be torn: half of one message, half of the next. -/
theorem torn_read :
    ∃ as : List Act, (run ⟨0, 2⟩ St.init as).received = [(0, 0, [1, 4])] := by
  refine ⟨List.replicate 5 (.prod [1, 2]) ++ List.replicate 4 (.cons 0 false) ++ List.replicate 4 (.prod [3, 4]) ++
    List.replicate 2 (.cons 0 false), ?_⟩
  decide

example : (run ⟨1, 1⟩ St.init (List.replicate 4 (.prod [1]) ++ List.replicate 5 (.cons 0 false))).received =
    [(0, 0, [1])] := by decide

end Horus.Ring.Spmc
