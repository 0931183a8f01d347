import Verif.Ring.Mpsc
/-
C31: multi-producer topics deliver every accepted message exactly once.
-/
namespace Horus.Ring.Mpsc
open Horus.Ring

/-- The message a producer has claimed a position for and not yet stamped. -/
def inflight : PPc → List (List Nat)
  | .write m _ _ => [m]
  | .stamp m _ => [m]
  | _ => []

/-- The position a producer has claimed and not yet stamped. -/
def PPc.seq? : PPc → Option Nat
  | .write _ q _ => some q
  | .stamp _ q => some q
  | _ => none

/-- What holds of producer `i` in every reachable state. -/
def PInv (c : Cfg) (s : St) (i : Nat) : PPc → Prop
  | .idle => True
  | .retry m => m.length = c.width
  | .refresh m _ => m.length = c.width
  | .cas m h => m.length = c.width ∧ h < (s.prods i).pTail + c.cap
  | .write m q k => q < s.head ∧ s.cTail ≤ q ∧ s.claimed[q]? = some (i, m) ∧ k ≤ c.width ∧
      s.ready (c.idx q) ≠ q + 1 ∧ ∀ j, j < k → s.slot (c.idx q) j = m.getD j 0
  | .stamp m q => q < s.head ∧ s.cTail ≤ q ∧ s.claimed[q]? = some (i, m) ∧
      s.ready (c.idx q) ≠ q + 1 ∧ ∀ j, j < c.width → s.slot (c.idx q) j = m.getD j 0

/-- The invariant of the multi-producer ring. -/
structure Inv (c : Cfg) (s : St) : Prop where
  hHead : s.head = s.claimed.length
  hPT : ∀ i, (s.prods i).pTail ≤ s.tail
  hT : s.tail ≤ s.cTail
  hC : s.cTail ≤ s.cHead
  hH : s.cHead ≤ s.head
  hRoom : s.head ≤ s.tail + c.cap
  hRecv : s.received = (s.claimed.take s.cTail).map Prod.snd
  hWidth : ∀ e ∈ s.claimed, e.2.length = c.width
  hReady : ∀ j, s.ready j ≤ s.head
  hSlot : ∀ q, s.cTail ≤ q → q < s.head → s.ready (c.idx q) = q + 1 → ∀ k, k < c.width →
    s.slot (c.idx q) k = ((s.claimed.getD q (0, [])).2).getD k 0
  hFly : ∀ q, s.cTail ≤ q → q < s.head → s.ready (c.idx q) ≠ q + 1 →
    ∃ i, (s.prods i).pc.seq? = some q
  hProd : ∀ i, PInv c s i (s.prods i).pc
  hSent : ∀ i, s.sent i ++ inflight (s.prods i).pc = (s.claimed.filter fun e => decide (e.1 = i)).map Prod.snd
  hCons : match s.cPc with
    | .check => s.cTail < s.cHead
    | .read acc => s.cTail < s.cHead ∧ s.ready (c.idx s.cTail) = s.cTail + 1 ∧
        acc = ((s.claimed.getD s.cTail (0, [])).2).take acc.length
    | _ => True

theorem inv_init (c : Cfg) : Inv c St.init := by
  constructor <;> simp [St.init, PInv, inflight]

theorem getD_append_lt {α : Type} (l : List α) (x d : α) (i : Nat) (h : i < l.length) :
    (l ++ [x]).getD i d = l.getD i d := by
  simp [List.getElem?_append_left h]

theorem PInv.width {c : Cfg} {s : St} (h : Inv c s) {i : Nat} {m : List Nat} {q : Nat}
    (hc : s.claimed[q]? = some (i, m)) : m.length = c.width :=
  h.hWidth (i, m) (List.mem_of_getElem? hc)

/-- Steps that only change producer `i`'s private fields keep the invariant. -/
theorem inv_setP (c : Cfg) (s : St) (h : Inv c s) (i : Nat) (p : Prod) (hp : p.pTail ≤ s.tail)
    (hseq : p.pc.seq? = (s.prods i).pc.seq?) (hin : inflight p.pc = inflight (s.prods i).pc)
    (hpi : PInv c { s with prods := upd s.prods i p } i p.pc) : Inv c (s.setP i p) := by
  refine { h with hPT := ?_, hFly := ?_, hProd := ?_, hSent := ?_ }
  · intro j
    by_cases hj : j = i
    · subst hj; simp only [St.setP, upd_same]; exact hp
    · simp only [St.setP, upd_ne _ _ hj]; exact h.hPT j
  · intro q h1 h2 h3
    obtain ⟨j, hj⟩ := h.hFly q h1 h2 h3
    refine ⟨j, ?_⟩
    by_cases hji : j = i
    · subst hji; simp only [St.setP, upd_same, hseq]; exact hj
    · simp only [St.setP, upd_ne _ _ hji]; exact hj
  · intro j
    by_cases hj : j = i
    · subst hj; simp only [St.setP, upd_same]; exact hpi
    · simp only [St.setP, upd_ne _ _ hj]
      have := h.hProd j
      revert this
      cases (s.prods j).pc <;> simp only [PInv, upd_ne _ _ hj] <;> exact id
  · intro j
    by_cases hj : j = i
    · subst hj; simp only [St.setP, upd_same, hin]; exact h.hSent j
    · simp only [St.setP, upd_ne _ _ hj]; exact h.hSent j

theorem inv_failed (c : Cfg) (s : St) (f : Nat → Nat) (h : Inv c s) : Inv c { s with failed := f } := by
  exact { hHead := h.hHead, hPT := h.hPT, hT := h.hT, hC := h.hC, hH := h.hH, hRoom := h.hRoom, hRecv := h.hRecv,
          hWidth := h.hWidth, hReady := h.hReady, hSlot := h.hSlot, hFly := h.hFly,
          hProd := fun i => by
            have := h.hProd i
            revert this
            cases hp : (s.prods i).pc <;> simp only [PInv, hp] <;> exact id
          hSent := h.hSent, hCons := h.hCons }

theorem inv_loadHead (c : Cfg) (s : St) (h : Inv c s) (i : Nat) (m : List Nat) (hm : m.length = c.width)
    (hpc : (s.prods i).pc = .idle ∨ (s.prods i).pc = .retry m) : Inv c (loadHead c s i m) := by
  unfold loadHead
  simp only
  have hs : (s.prods i).pc.seq? = none := by rcases hpc with hpc | hpc <;> rw [hpc] <;> rfl
  have hi : inflight (s.prods i).pc = [] := by rcases hpc with hpc | hpc <;> rw [hpc] <;> rfl
  split
  · exact inv_setP c s h i _ (h.hPT i) (by rw [hs]; rfl) (by rw [hi]; rfl) hm
  · next hf =>
    refine inv_setP c s h i _ (h.hPT i) (by rw [hs]; rfl) (by rw [hi]; rfl) ?_
    simp only [isFull, Bool.or_eq_true, decide_eq_true_eq, not_or] at hf
    exact ⟨hm, by simp only [upd_same]; omega⟩

theorem inv_prod (c : Cfg) (s : St) (i : Nat) (m : List Nat) (sp : Bool) (h : Inv c s) :
    Inv c (prodStep c s i m sp) := by
  have hPi := h.hProd i
  have hTi := h.hPT i
  have h1 := h.hHead; have h2 := h.hRoom; have h5 := h.hT; have h6 := h.hC; have h7 := h.hH
  unfold prodStep
  simp only
  cases hpc : (s.prods i).pc with
  | idle =>
    simp only
    split
    · exact h
    · next hm => exact inv_loadHead c s h i m (by simpa using hm) (Or.inl hpc)
  | retry m' =>
    rw [hpc] at hPi
    exact inv_loadHead c s h i m' hPi (Or.inr hpc)
  | refresh m' hd =>
    rw [hpc] at hPi
    simp only
    split
    · exact inv_failed c _ _ (inv_setP c s h i _ (Nat.le_refl _) (by rw [hpc]; rfl) (by rw [hpc]; rfl) trivial)
    · next hf =>
      refine inv_setP c s h i _ (Nat.le_refl _) (by rw [hpc]; rfl) (by rw [hpc]; rfl) ?_
      simp only [isFull, Bool.or_eq_true, decide_eq_true_eq, not_or] at hf
      exact ⟨hPi, by simp only [upd_same]; omega⟩
  | cas m' hd =>
    rw [hpc] at hPi
    obtain ⟨a1, a2⟩ := hPi
    simp only
    split
    · next hcas =>
      have hh : hd = s.head := hcas.1.symm
      subst hh
      -- the new claim
      have hnr : s.ready (c.idx s.head) ≠ s.head + 1 := by
        have := h.hReady (c.idx s.head); omega
      have hcl : ∀ q, q < s.head → (s.claimed ++ [(i, m')])[q]? = s.claimed[q]? := by
        intro q hq; rw [List.getElem?_append_left (by omega)]
      have hlast : (s.claimed ++ [(i, m')])[s.head]? = some (i, m') := by
        rw [h1]; simp
      refine { hHead := by simp [St.setP]; omega, hPT := ?_, hT := h.hT, hC := h.hC,
               hH := by show s.cHead ≤ s.head + 1; omega, hRoom := by show s.head + 1 ≤ s.tail + c.cap; omega,
               hRecv := ?_, hWidth := ?_, hReady := ?_, hSlot := ?_, hFly := ?_, hProd := ?_, hSent := ?_, hCons := ?_ }
      · intro j
        by_cases hj : j = i
        · subst hj; simp only [St.setP, upd_same]; exact hTi
        · simp only [St.setP, upd_ne _ _ hj]; exact h.hPT j
      · show s.received = ((s.claimed ++ [(i, m')]).take s.cTail).map Prod.snd
        rw [List.take_append_of_le_length (by omega)]; exact h.hRecv
      · intro e he
        rcases List.mem_append.mp he with he | he
        · exact h.hWidth e he
        · simp only [List.mem_singleton] at he; rw [he]; exact a1
      · intro j
        have := h.hReady j
        show s.ready j ≤ s.head + 1
        omega
      · intro q hq1 hq2 hq3 k hk
        have hq1 : s.cTail ≤ q := hq1
        have hq2 : q < s.head + 1 := hq2
        have hq3 : s.ready (c.idx q) = q + 1 := hq3
        have hql : q < s.head := by
          by_contra hc
          have : q = s.head := by omega
          subst this; exact hnr hq3
        show s.slot (c.idx q) k = (((s.claimed ++ [(i, m')]).getD q (0, [])).2).getD k 0
        rw [getD_append_lt _ _ _ _ (by omega)]
        exact h.hSlot q hq1 hql hq3 k hk
      · intro q hq1 hq2 hq3
        have hq1 : s.cTail ≤ q := hq1
        have hq2 : q < s.head + 1 := hq2
        have hq3 : s.ready (c.idx q) ≠ q + 1 := hq3
        by_cases hql : q < s.head
        · obtain ⟨j, hj⟩ := h.hFly q hq1 hql hq3
          refine ⟨j, ?_⟩
          have hji : j ≠ i := by intro e; subst e; rw [hpc] at hj; cases hj
          simp only [St.setP, upd_ne _ _ hji]; exact hj
        · refine ⟨i, ?_⟩
          have : q = s.head := by omega
          subst this
          simp only [St.setP, upd_same]; rfl
      · intro j
        by_cases hj : j = i
        · subst hj
          simp only [St.setP, upd_same]
          exact ⟨Nat.lt_succ_self _, by show s.cTail ≤ s.head; omega, hlast, Nat.zero_le _, hnr, by simp⟩
        · simp only [St.setP, upd_ne _ _ hj]
          have hPj := h.hProd j
          revert hPj
          cases (s.prods j).pc with
          | idle => exact id
          | retry _ => exact id
          | refresh _ _ => exact id
          | cas _ _ => simp only [PInv, upd_ne _ _ hj]; exact id
          | write mm q k =>
            rintro ⟨b1, b2, b3, b4, b5, b6⟩
            exact ⟨Nat.lt_succ_of_lt b1, b2, by rw [← b3]; exact hcl q b1, b4, b5, b6⟩
          | stamp mm q =>
            rintro ⟨b1, b2, b3, b4, b5⟩
            exact ⟨Nat.lt_succ_of_lt b1, b2, by rw [← b3]; exact hcl q b1, b4, b5⟩
      · intro j
        have hSj := h.hSent j
        show s.sent j ++ inflight ((upd s.prods i ⟨(s.prods i).pTail, .write m' s.head 0⟩) j).pc = _
        show _ = ((s.claimed ++ [(i, m')]).filter fun e => decide (e.1 = j)).map Prod.snd
        rw [List.filter_append, List.map_append, ← hSj]
        by_cases hj : j = i
        · subst hj
          rw [upd_same, hpc]
          simp [inflight]
        · rw [upd_ne _ _ hj]
          have : ¬ i = j := fun e => hj e.symm
          simp [this]
      · have hc := h.hCons
        revert hc
        show (match s.cPc with
          | .check => s.cTail < s.cHead
          | .read acc => s.cTail < s.cHead ∧ s.ready (c.idx s.cTail) = s.cTail + 1 ∧
              acc = ((s.claimed.getD s.cTail (0, [])).2).take acc.length
          | _ => True) →
          (match s.cPc with
          | .check => s.cTail < s.cHead
          | .read acc => s.cTail < s.cHead ∧ s.ready (c.idx s.cTail) = s.cTail + 1 ∧
              acc = (((s.claimed ++ [(i, m')]).getD s.cTail (0, [])).2).take acc.length
          | _ => True)
        cases s.cPc with
        | read acc =>
          rintro ⟨b1, b2, b3⟩
          refine ⟨b1, b2, ?_⟩
          rw [getD_append_lt _ _ _ _ (by omega)]; exact b3
        | check => exact id
        | _ => exact id
    · exact inv_setP c s h i _ (h.hPT i) (by rw [hpc]; rfl) (by rw [hpc]; rfl) a1
  | write m' q k =>
    rw [hpc] at hPi
    obtain ⟨a1, a2, a3, a4, a5, a6⟩ := hPi
    simp only
    split
    · next hk =>
      -- positions other than `q` live in other slots
      have hother : ∀ q', s.cTail ≤ q' → q' < s.head → q' ≠ q → c.idx q' ≠ c.idx q := by
        intro q' x1 x2 x3
        rcases Nat.lt_or_gt_of_ne x3 with x | x
        · exact c.idx_ne x (by omega)
        · exact (c.idx_ne x (by omega)).symm
      have hsl : ∀ j' k', j' ≠ c.idx q →
          (upd s.slot (c.idx q) (upd (s.slot (c.idx q)) k (m'.getD k 0))) j' k' = s.slot j' k' := by
        intro j' k' hj; rw [upd_ne _ _ hj]
      refine { hHead := h.hHead, hPT := ?_, hT := h.hT, hC := h.hC, hH := h.hH, hRoom := h.hRoom,
               hRecv := h.hRecv, hWidth := h.hWidth, hReady := h.hReady, hSlot := ?_, hFly := ?_, hProd := ?_,
               hSent := ?_, hCons := h.hCons }
      · intro j
        by_cases hj : j = i
        · subst hj; simp only [St.setP, upd_same]; exact hTi
        · simp only [St.setP, upd_ne _ _ hj]; exact h.hPT j
      · intro q' hq1 hq2 hq3 k' hk'
        have hne : q' ≠ q := by intro e; subst e; exact a5 hq3
        show (upd s.slot (c.idx q) (upd (s.slot (c.idx q)) k (m'.getD k 0))) (c.idx q') k' = _
        rw [hsl _ _ (hother q' hq1 hq2 hne)]
        exact h.hSlot q' hq1 hq2 hq3 k' hk'
      · intro q' hq1 hq2 hq3
        obtain ⟨j, hj⟩ := h.hFly q' hq1 hq2 hq3
        refine ⟨j, ?_⟩
        by_cases hji : j = i
        · subst hji; rw [hpc] at hj; simp only [St.setP, upd_same]; exact hj
        · simp only [St.setP, upd_ne _ _ hji]; exact hj
      · intro j
        by_cases hj : j = i
        · subst hj
          simp only [St.setP, upd_same]
          refine ⟨a1, a2, a3, by omega, a5, ?_⟩
          intro j' hj'
          show (upd s.slot (c.idx q) (upd (s.slot (c.idx q)) k (m'.getD k 0))) (c.idx q) j' = _
          rw [upd_same]
          by_cases e : j' = k
          · subst e; rw [upd_same]
          · rw [upd_ne _ _ e]; exact a6 j' (by omega)
        · simp only [St.setP, upd_ne _ _ hj]
          have hPj := h.hProd j
          revert hPj
          cases (s.prods j).pc with
          | idle => exact id
          | retry _ => exact id
          | refresh _ _ => exact id
          | cas _ _ => simp only [PInv, upd_ne _ _ hj]; exact id
          | write mm q' k' =>
            rintro ⟨b1, b2, b3, b4, b5, b6⟩
            have hne : q' ≠ q := by
              intro e; subst e; rw [a3] at b3; cases b3; exact hj rfl
            refine ⟨b1, b2, b3, b4, b5, fun j' hj' => ?_⟩
            show (upd s.slot (c.idx q) (upd (s.slot (c.idx q)) k (m'.getD k 0))) (c.idx q') j' = _
            rw [hsl _ _ (hother q' b2 b1 hne)]; exact b6 j' hj'
          | stamp mm q' =>
            rintro ⟨b1, b2, b3, b4, b5⟩
            have hne : q' ≠ q := by
              intro e; subst e; rw [a3] at b3; cases b3; exact hj rfl
            refine ⟨b1, b2, b3, b4, fun j' hj' => ?_⟩
            show (upd s.slot (c.idx q) (upd (s.slot (c.idx q)) k (m'.getD k 0))) (c.idx q') j' = _
            rw [hsl _ _ (hother q' b2 b1 hne)]; exact b5 j' hj'
      · intro j
        by_cases hj : j = i
        · subst hj
          have := h.hSent j
          rw [hpc] at this
          simp only [St.setP, upd_same]; exact this
        · simp only [St.setP, upd_ne _ _ hj]; exact h.hSent j
    · next hk =>
      refine inv_setP c s h i _ (h.hPT i) (by rw [hpc]; rfl) (by rw [hpc]; rfl) ?_
      exact ⟨a1, a2, a3, a5, fun j hj => a6 j (by omega)⟩
  | stamp m' q =>
    rw [hpc] at hPi
    obtain ⟨a1, a2, a3, a4, a5⟩ := hPi
    simp only
    have hother : ∀ q', s.cTail ≤ q' → q' < s.head → q' ≠ q → c.idx q' ≠ c.idx q := by
      intro q' x1 x2 x3
      rcases Nat.lt_or_gt_of_ne x3 with x | x
      · exact c.idx_ne x (by omega)
      · exact (c.idx_ne x (by omega)).symm
    have hrd : ∀ q', s.cTail ≤ q' → q' < s.head → q' ≠ q →
        (upd s.ready (c.idx q) (q + 1)) (c.idx q') = s.ready (c.idx q') := by
      intro q' x1 x2 x3; rw [upd_ne _ _ (hother q' x1 x2 x3)]
    refine { hHead := h.hHead, hPT := ?_, hT := h.hT, hC := h.hC, hH := h.hH, hRoom := h.hRoom,
             hRecv := h.hRecv, hWidth := h.hWidth, hReady := ?_, hSlot := ?_, hFly := ?_, hProd := ?_,
             hSent := ?_, hCons := ?_ }
    · intro j
      by_cases hj : j = i
      · subst hj; simp only [St.setP, upd_same]; exact hTi
      · simp only [St.setP, upd_ne _ _ hj]; exact h.hPT j
    · intro j
      show (upd s.ready (c.idx q) (q + 1)) j ≤ s.head
      by_cases hj : j = c.idx q
      · subst hj; rw [upd_same]; omega
      · rw [upd_ne _ _ hj]; exact h.hReady j
    · intro q' hq1 hq2 hq3 k' hk'
      show s.slot (c.idx q') k' = ((s.claimed.getD q' (0, [])).2).getD k' 0
      by_cases hne : q' = q
      · subst hne
        have hg : s.claimed.getD q' (0, []) = (i, m') := by rw [List.getD_eq_getElem?_getD, a3]; rfl
        rw [a5 k' hk', hg]
      · have hq3 : (upd s.ready (c.idx q) (q + 1)) (c.idx q') = q' + 1 := hq3
        rw [hrd q' hq1 hq2 hne] at hq3
        exact h.hSlot q' hq1 hq2 hq3 k' hk'
    · intro q' hq1 hq2 hq3
      have hne : q' ≠ q := by
        intro e; subst e; apply hq3
        show (upd s.ready (c.idx q') (q' + 1)) (c.idx q') = q' + 1
        rw [upd_same]
      have hq3 : (upd s.ready (c.idx q) (q + 1)) (c.idx q') ≠ q' + 1 := hq3
      rw [hrd q' hq1 hq2 hne] at hq3
      obtain ⟨j, hj⟩ := h.hFly q' hq1 hq2 hq3
      refine ⟨j, ?_⟩
      have hji : j ≠ i := by
        intro e; subst e; rw [hpc] at hj; simp only [PPc.seq?, Option.some.injEq] at hj
        exact hne hj.symm
      simp only [St.setP, upd_ne _ _ hji]; exact hj
    · intro j
      by_cases hj : j = i
      · subst hj; simp only [St.setP, upd_same]; trivial
      · simp only [St.setP, upd_ne _ _ hj]
        have hPj := h.hProd j
        revert hPj
        cases (s.prods j).pc with
        | idle => exact id
        | retry _ => exact id
        | refresh _ _ => exact id
        | cas _ _ => simp only [PInv, upd_ne _ _ hj]; exact id
        | write mm q' k' =>
          rintro ⟨b1, b2, b3, b4, b5, b6⟩
          have hne : q' ≠ q := by
            intro e; subst e; rw [a3] at b3; cases b3; exact hj rfl
          refine ⟨b1, b2, b3, b4, ?_, b6⟩
          show (upd s.ready (c.idx q) (q + 1)) (c.idx q') ≠ _
          rw [hrd q' b2 b1 hne]; exact b5
        | stamp mm q' =>
          rintro ⟨b1, b2, b3, b4, b5⟩
          have hne : q' ≠ q := by
            intro e; subst e; rw [a3] at b3; cases b3; exact hj rfl
          refine ⟨b1, b2, b3, ?_, b5⟩
          show (upd s.ready (c.idx q) (q + 1)) (c.idx q') ≠ _
          rw [hrd q' b2 b1 hne]; exact b4
    · intro j
      have hSj := h.hSent j
      by_cases hj : j = i
      · subst hj
        rw [hpc] at hSj
        simp only [St.setP, upd_same, inflight, List.append_nil]
        exact hSj
      · simp only [St.setP, upd_ne _ _ hj]; exact hSj
    · have hc := h.hCons
      revert hc
      show (match s.cPc with
        | .check => s.cTail < s.cHead
        | .read acc => s.cTail < s.cHead ∧ s.ready (c.idx s.cTail) = s.cTail + 1 ∧
            acc = ((s.claimed.getD s.cTail (0, [])).2).take acc.length
        | _ => True) →
        (match s.cPc with
        | .check => s.cTail < s.cHead
        | .read acc => s.cTail < s.cHead ∧ (upd s.ready (c.idx q) (q + 1)) (c.idx s.cTail) = s.cTail + 1 ∧
            acc = ((s.claimed.getD s.cTail (0, [])).2).take acc.length
        | _ => True)
      cases s.cPc with
      | read acc =>
        rintro ⟨b1, b2, b3⟩
        have hne : s.cTail ≠ q := by intro e; rw [e] at b2; exact a4 b2
        exact ⟨b1, by rw [hrd s.cTail (Nat.le_refl _) (by omega) hne]; exact b2, b3⟩
      | check => exact id
      | _ => exact id

theorem inv_cons (c : Cfg) (s : St) (h : Inv c s) : Inv c (consStep c s) := by
  have hCons := h.hCons
  have h1 := h.hHead; have h2 := h.hRoom; have h5 := h.hT; have h6 := h.hC; have h7 := h.hH
  -- a step that leaves the shared memory, the producers and `cTail` alone
  have keepP : ∀ (t : St), t.prods = s.prods → t.head = s.head → t.cTail = s.cTail → t.claimed = s.claimed →
      t.ready = s.ready → t.slot = s.slot → ∀ i, PInv c t i (t.prods i).pc := by
    intro t e1 e2 e3 e4 e5 e6 i
    have := h.hProd i
    rw [e1]
    revert this
    cases (s.prods i).pc <;> simp only [PInv, e1, e2, e3, e4, e5, e6] <;> exact id
  unfold consStep
  cases hpc : s.cPc with
  | idle =>
    simp only
    split
    · exact { h with hCons := trivial, hProd := keepP _ rfl rfl rfl rfl rfl rfl }
    · exact { h with hCons := by simp only; omega, hProd := keepP _ rfl rfl rfl rfl rfl rfl }
  | reload =>
    simp only
    split
    · exact { h with hC := by simp only; omega, hH := Nat.le_refl _, hCons := trivial, hProd := keepP _ rfl rfl rfl rfl rfl rfl }
    · exact { h with hC := by simp only; omega, hH := Nat.le_refl _, hCons := by simp only; omega, hProd := keepP _ rfl rfl rfl rfl rfl rfl }
  | check =>
    rw [hpc] at hCons
    simp only
    split
    · next hr => exact { h with hCons := ⟨hCons, hr, by simp⟩, hProd := keepP _ rfl rfl rfl rfl rfl rfl }
    · exact { h with hCons := trivial, hProd := keepP _ rfl rfl rfl rfl rfl rfl }
  | read acc =>
    rw [hpc] at hCons
    obtain ⟨b1, b2, b3⟩ := hCons
    have hlt : s.cTail < s.claimed.length := by omega
    have hget : s.claimed.getD s.cTail (0, []) = s.claimed[s.cTail] := by simp [hlt]
    have hw : ((s.claimed.getD s.cTail (0, [])).2).length = c.width := by
      rw [hget]; exact h.hWidth _ (List.getElem_mem hlt)
    simp only
    split
    · next hk =>
      refine { h with hCons := ⟨b1, b2, ?_⟩, hProd := keepP _ rfl rfl rfl rfl rfl rfl }
      simp only
      rw [h.hSlot s.cTail (Nat.le_refl _) (by omega) b2 _ hk, List.length_append, List.length_singleton,
        List.take_add_one, ← b3]
      congr 1
      rw [List.getD_eq_getElem?_getD, List.getElem?_eq_getElem (by omega)]
      simp
    · next hk =>
      have hacc : acc = (s.claimed[s.cTail]).2 := by
        rw [b3, ← hget, List.take_of_length_le (by omega)]
      refine { h with hT := by simp only; omega, hC := by simp only; omega, hRecv := ?_, hSlot := ?_, hFly := ?_, hProd := ?_, hCons := ?_ }
      · simp only
        rw [List.take_add_one, h.hRecv, List.getElem?_eq_getElem hlt, hacc, List.map_append]
        rfl
      · intro q hq1 hq2; exact h.hSlot q (by simp only at hq1; omega) hq2
      · intro q hq1 hq2; exact h.hFly q (by simp only at hq1; omega) hq2
      · intro i
        have := h.hProd i
        simp only
        revert this
        cases (s.prods i).pc with
        | idle => exact id
        | retry _ => exact id
        | refresh _ _ => exact id
        | cas _ _ => exact id
        | write mm q k =>
          rintro ⟨d1, d2, d3, d4, d5, d6⟩
          have : q ≠ s.cTail := by intro e; rw [e] at d5; exact d5 b2
          exact ⟨d1, by simp only; omega, d3, d4, d5, d6⟩
        | stamp mm q =>
          rintro ⟨d1, d2, d3, d4, d5⟩
          have : q ≠ s.cTail := by intro e; rw [e] at d4; exact d4 b2
          exact ⟨d1, by simp only; omega, d3, d4, d5⟩
      · cases c.flushDue (s.cTail + 1) <;> trivial
  | flush =>
    simp only
    refine { h with hPT := fun i => Nat.le_trans (h.hPT i) h.hT, hT := Nat.le_refl _, hRoom := by simp only; omega, hCons := trivial, hProd := keepP _ rfl rfl rfl rfl rfl rfl }

theorem inv_step (c : Cfg) (s : St) (a : Act) (h : Inv c s) : Inv c (step c s a) := by
  cases a with
  | prod i m sp => exact inv_prod c s i m sp h
  | cons => exact inv_cons c s h

theorem inv_run_from (c : Cfg) (s : St) (h : Inv c s) (as : List Act) : Inv c (run c s as) := by
  induction as generalizing s with
  | nil => exact h
  | cons a as ih => exact ih _ (inv_step c s a h)

theorem inv_run (c : Cfg) (as : List Act) : Inv c (run c St.init as) := inv_run_from c _ (inv_init c) as

/-! ### C31 -/

/-- C31. Under every interleaving there is one order in which the positions were claimed, such that
what was received is a prefix of it (each message whole, once, in that order), and each producer's
accepted messages appear in it exactly once and in its own order, followed at most by the one it is
still writing. -/
theorem delivered_exactly_once_in_order (c : Cfg) (as : List Act) :
    ∃ order : List (Nat × List Nat),
      (run c St.init as).received <+: order.map Prod.snd ∧
      ∀ i, ∃ pending : List (List Nat), pending.length ≤ 1 ∧
        (order.filter fun e => decide (e.1 = i)).map Prod.snd = (run c St.init as).sent i ++ pending := by
  have h := inv_run c as
  refine ⟨(run c St.init as).claimed, ?_, ?_⟩
  · rw [h.hRecv, List.map_take]; exact List.take_prefix _ _
  · intro i
    refine ⟨inflight ((run c St.init as).prods i).pc, ?_, (h.hSent i).symm⟩
    cases ((run c St.init as).prods i).pc <;> simp [inflight]

/-- C31. Nothing torn, unwritten or invented is received: every message returned is one some
producer handed to `send`, namely one it completed or is completing, whole. -/
theorem received_was_sent (c : Cfg) (as : List Act) (m : List Nat) (hm : m ∈ (run c St.init as).received) :
    ∃ i, m ∈ (run c St.init as).sent i := by
  have h := inv_run c as
  generalize run c St.init as = s at h hm
  rw [h.hRecv] at hm
  obtain ⟨e, he, rfl⟩ := List.mem_map.mp hm
  obtain ⟨q, hq1, hq2⟩ := List.mem_take_iff_getElem.mp he
  refine ⟨e.1, ?_⟩
  have hmem : e.2 ∈ s.sent e.1 ++ inflight (s.prods e.1).pc := by
    rw [h.hSent]
    apply List.mem_map.mpr
    exact ⟨e, by simp [List.mem_of_mem_take he], rfl⟩
  rcases List.mem_append.mp hmem with hx | hx
  · exact hx
  · -- still in flight: the same message may also have been completed at position q
    have hP := h.hProd e.1
    have hqc : q < s.cTail := by omega
    have hq : s.claimed[q]? = some e := by
      rw [List.getElem?_eq_getElem (by omega), hq2]
    -- split the claims at the in-flight position
    have key : ∀ (r : Nat), s.cTail ≤ r → s.claimed[r]? = some (e.1, e.2) → inflight (s.prods e.1).pc = [e.2] →
        e.2 ∈ s.sent e.1 := by
      intro r hr hcl hin
      have hS := h.hSent e.1
      rw [hin] at hS
      have hsplit : s.claimed = s.claimed.take r ++ s.claimed.drop r := (List.take_append_drop r _).symm
      have hdrop : s.claimed.drop r = (e.1, e.2) :: s.claimed.drop (r + 1) := by
        have hlt : r < s.claimed.length := by
          by_contra hc
          rw [List.getElem?_eq_none (by omega)] at hcl; cases hcl
        rw [List.drop_eq_getElem_cons hlt]
        rw [List.getElem?_eq_getElem hlt] at hcl
        rw [Option.some.inj hcl]
      rw [hsplit, hdrop, List.filter_append, List.map_append] at hS
      have h2 : ((((e.1, e.2) :: s.claimed.drop (r + 1)).filter fun x => decide (x.1 = e.1)).map Prod.snd) =
          e.2 :: (((s.claimed.drop (r + 1)).filter fun x => decide (x.1 = e.1)).map Prod.snd) := by simp
      rw [h2] at hS
      have hA : e.2 ∈ ((s.claimed.take r).filter fun x => decide (x.1 = e.1)).map Prod.snd := by
        apply List.mem_map.mpr
        refine ⟨e, ?_, rfl⟩
        simp only [List.mem_filter, decide_true, and_true]
        apply List.mem_take_iff_getElem.mpr
        exact ⟨q, by omega, hq2⟩
      have hlen := congrArg List.length hS
      simp only [List.length_append, List.length_cons, List.length_nil] at hlen
      have hpre : ((s.claimed.take r).filter fun x => decide (x.1 = e.1)).map Prod.snd <+: s.sent e.1 := by
        have h3 : ((s.claimed.take r).filter fun x => decide (x.1 = e.1)).map Prod.snd <+:
            s.sent e.1 ++ [e.2] := ⟨_, hS.symm⟩
        exact (List.prefix_append_right_inj []).mp (by
          simpa using List.prefix_of_prefix_length_le h3 (List.prefix_append _ _) (by omega))
      exact hpre.subset hA
    revert hP
    cases hpc : (s.prods e.1).pc with
    | write mm r k =>
      rintro ⟨d1, d2, d3, _⟩
      rw [hpc] at hx
      simp only [inflight, List.mem_singleton] at hx
      exact key r d2 (by rw [d3, hx]) (by rw [hpc]; simp [inflight, hx])
    | stamp mm r =>
      rintro ⟨d1, d2, d3, _⟩
      rw [hpc] at hx
      simp only [inflight, List.mem_singleton] at hx
      exact key r d2 (by rw [d3, hx]) (by rw [hpc]; simp [inflight, hx])
    | _ => rw [hpc] at hx; simp [inflight] at hx

/-- C31. The ring never holds more than `capacity` claimed, unread messages: no accepted message is
overwritten before it was read. -/
theorem unread_bounded (c : Cfg) (as : List Act) :
    (run c St.init as).claimed.length ≤ (run c St.init as).received.length + c.cap := by
  have h := inv_run c as
  have h1 := h.hHead; have h2 := h.hRoom; have h5 := h.hT; have h6 := h.hC; have h7 := h.hH
  rw [h.hRecv, List.length_map, List.length_take]
  omega

/-- From a state in which no producer is in the middle of a claimed write, the consumer alone
receives everything. -/
theorem cons_alone_drains (c : Cfg) (n : Nat) : ∀ (s : St), Inv c s →
    (∀ i, (s.prods i).pc.seq? = none) → s.claimed.length - s.cTail = n →
    ∃ k, (run c s (List.replicate k .cons)).received = s.claimed.map Prod.snd := by
  have frame : ∀ s : St, (consStep c s).prods = s.prods ∧ (consStep c s).claimed = s.claimed := by
    intro s
    unfold consStep
    simp only
    repeat' split
    all_goals exact ⟨rfl, rfl⟩
  have glue : ∀ (s : St), (∃ k, (run c (consStep c s) (List.replicate k .cons)).received =
      (consStep c s).claimed.map Prod.snd) →
      ∃ k, (run c s (List.replicate k .cons)).received = s.claimed.map Prod.snd := by
    rintro s ⟨k, hk⟩
    refine ⟨k + 1, ?_⟩
    simp only [List.replicate_succ, run, List.foldl_cons, step]
    simp only [run] at hk
    rw [hk, (frame s).2]
  induction n with
  | zero =>
    intro s h hq hn
    refine ⟨0, ?_⟩
    simp only [List.replicate_zero, run, List.foldl_nil]
    rw [h.hRecv, List.take_of_length_le (by omega)]
  | succ n ih =>
    -- reading out the current message
    have fromRead : ∀ (j : Nat) (s : St) (acc : List Nat), Inv c s → (∀ i, (s.prods i).pc.seq? = none) →
        s.claimed.length - s.cTail = n + 1 → s.cPc = .read acc → c.width - acc.length = j →
        ∃ k, (run c s (List.replicate k .cons)).received = s.claimed.map Prod.snd := by
      intro j
      induction j with
      | zero =>
        intro s acc h hq hn hp hj
        apply glue
        have hnl : ¬ acc.length < c.width := by omega
        have hstep : (consStep c s).cTail = s.cTail + 1 := by
          simp only [consStep, hp, if_neg hnl]
        apply ih _ (inv_cons c s h)
        · intro i; rw [(frame s).1]; exact hq i
        · rw [(frame s).2, hstep]; omega
      | succ j ihj =>
        intro s acc h hq hn hp hj
        apply glue
        have hl : acc.length < c.width := by omega
        have hstep : consStep c s = { s with cPc := .read (acc ++ [s.slot (c.idx s.cTail) acc.length]) } := by
          simp only [consStep, hp, if_pos hl]
        apply ihj _ (acc ++ [s.slot (c.idx s.cTail) acc.length]) (inv_cons c s h)
        · intro i; rw [(frame s).1]; exact hq i
        · rw [hstep]; exact hn
        · rw [hstep]
        · simp; omega
    have fromCheck : ∀ s : St, Inv c s → (∀ i, (s.prods i).pc.seq? = none) →
        s.claimed.length - s.cTail = n + 1 → s.cPc = .check →
        ∃ k, (run c s (List.replicate k .cons)).received = s.claimed.map Prod.snd := by
      intro s h hq hn hp
      apply glue
      have hr : s.ready (c.idx s.cTail) = s.cTail + 1 := by
        by_contra hc
        obtain ⟨i, hi⟩ := h.hFly s.cTail (Nat.le_refl _) (by have := h.hHead; omega) hc
        rw [hq i] at hi; cases hi
      have hstep : consStep c s = { s with cPc := .read [] } := by simp only [consStep, hp, if_pos hr]
      apply fromRead _ _ [] (inv_cons c s h) (fun i => by rw [(frame s).1]; exact hq i) _ _ rfl
      · rw [hstep]; exact hn
      · rw [hstep]
    have fromReload : ∀ s : St, Inv c s → (∀ i, (s.prods i).pc.seq? = none) →
        s.claimed.length - s.cTail = n + 1 → s.cPc = .reload →
        ∃ k, (run c s (List.replicate k .cons)).received = s.claimed.map Prod.snd := by
      intro s h hq hn hp
      apply glue
      have hne : ¬ s.head - s.cTail = 0 := by have := h.hHead; omega
      have hstep : consStep c s = { s with cHead := s.head, cPc := .check } := by
        simp only [consStep, hp, if_neg hne]
      apply fromCheck _ (inv_cons c s h) (fun i => by rw [(frame s).1]; exact hq i)
      · rw [hstep]; exact hn
      · rw [hstep]
    have fromIdle : ∀ s : St, Inv c s → (∀ i, (s.prods i).pc.seq? = none) →
        s.claimed.length - s.cTail = n + 1 → s.cPc = .idle →
        ∃ k, (run c s (List.replicate k .cons)).received = s.claimed.map Prod.snd := by
      intro s h hq hn hp
      apply glue
      by_cases hz : s.cHead - s.cTail = 0
      · have hstep : consStep c s = { s with cPc := .reload } := by simp only [consStep, hp, if_pos hz]
        apply fromReload _ (inv_cons c s h) (fun i => by rw [(frame s).1]; exact hq i)
        · rw [hstep]; exact hn
        · rw [hstep]
      · have hstep : consStep c s = { s with cPc := .check } := by simp only [consStep, hp, if_neg hz]
        apply fromCheck _ (inv_cons c s h) (fun i => by rw [(frame s).1]; exact hq i)
        · rw [hstep]; exact hn
        · rw [hstep]
    intro s h hq hn
    cases hp : s.cPc with
    | idle => exact fromIdle s h hq hn hp
    | reload => exact fromReload s h hq hn hp
    | check => exact fromCheck s h hq hn hp
    | read acc => exact fromRead _ s acc h hq hn hp rfl
    | flush =>
      apply glue
      have hstep : consStep c s = { s with tail := s.cTail, cPc := .idle } := by simp only [consStep, hp]
      apply fromIdle _ (inv_cons c s h) (fun i => by rw [(frame s).1]; exact hq i)
      · rw [hstep]; exact hn
      · rw [hstep]

/-- C31. Nothing accepted is lost: once every `send` in progress has returned, the subscriber
calling `recv` often enough has received, for each producer, all of its accepted messages. -/
theorem everything_sent_is_received (c : Cfg) (as : List Act)
    (hq : ∀ i, ((run c St.init as).prods i).pc = .idle) :
    ∃ k, ∃ order : List (Nat × List Nat),
      (run c (run c St.init as) (List.replicate k .cons)).received = order.map Prod.snd ∧
      ∀ i, (order.filter fun e => decide (e.1 = i)).map Prod.snd = (run c St.init as).sent i := by
  have h := inv_run c as
  obtain ⟨k, hk⟩ := cons_alone_drains c _ _ h (fun i => by rw [hq i]; rfl) rfl
  refine ⟨k, _, hk, fun i => ?_⟩
  have := h.hSent i
  rw [hq i] at this
  simpa [inflight] using this.symm

/-- A limit of C31: a producer that dies between claiming a position and stamping it blocks the
topic for good. Whatever everybody else does from then on, nothing at or after that position is
ever received, although `send` keeps returning Ok. -/
theorem crashed_producer_blocks (c : Cfg) (as : List Act) (i q : Nat)
    (hq : ((run c St.init as).prods i).pc.seq? = some q) (rest : List Act)
    (hdead : ∀ m sp, Act.prod i m sp ∉ rest) :
    (run c (run c St.init as) rest).received.length ≤ q := by
  have h := inv_run c as
  generalize run c St.init as = s at h hq
  have gen : ∀ (rest : List Act) (s : St), Inv c s → (s.prods i).pc.seq? = some q →
      (∀ m sp, Act.prod i m sp ∉ rest) → (run c s rest).received.length ≤ q := by
    intro rest
    induction rest with
    | nil =>
      intro s h hq _
      simp only [run, List.foldl_nil]
      have hP := h.hProd i
      rw [h.hRecv, List.length_map, List.length_take]
      revert hP hq
      cases (s.prods i).pc with
      | write mm r k => simp only [PPc.seq?, Option.some.injEq, PInv]; rintro rfl ⟨_, d2, _⟩; omega
      | stamp mm r => simp only [PPc.seq?, Option.some.injEq, PInv]; rintro rfl ⟨_, d2, _⟩; omega
      | _ => simp [PPc.seq?]
    | cons a rest ih =>
      intro s h hq hd
      simp only [run, List.foldl_cons]
      apply ih (step c s a) (inv_step c s a h)
      · cases a with
        | cons =>
          have : (consStep c s).prods = s.prods := by
            unfold consStep
            simp only
            repeat' split
            all_goals rfl
          simp only [step, this]; exact hq
        | prod j m sp =>
          have hji : i ≠ j := by
            intro e; subst e; exact hd m sp (by simp)
          have : (prodStep c s j m sp).prods i = s.prods i := by
            simp only [prodStep, loadHead, St.setP]
            repeat' split
            all_goals simp [upd_ne _ _ hji]
          simp only [step, this]; exact hq
      · intro m sp hx; exact hd m sp (by simp [hx])
  exact gen rest s h hq hdead

/-- Two producers and the consumer interleaved: producer 1 claims first, producer 2 finishes first,
the subscriber gets both, in claim order. -/
example : (run ⟨1, 2⟩ St.init [.prod 1 [7, 8] false, .prod 1 [] false, .prod 2 [5, 6] false, .prod 2 [] false,
    .prod 2 [] false, .prod 2 [] false, .prod 2 [] false, .prod 2 [] false, .cons, .cons, .cons,
    .prod 1 [] false, .prod 1 [] false, .prod 1 [] false, .prod 1 [] false,
    .cons, .cons, .cons, .cons, .cons, .cons, .cons, .cons, .cons, .cons, .cons, .cons]).received = [[7, 8], [5, 6]] := by
  decide

/-- `send` can be refused on an almost empty ring: with a stale head and a tail that has since
passed it, the wrapped difference looks full. Capacity 1: producer 1 reads head 1 while the ring is
full, the consumer drains, producer 2 sends and the consumer drains again; producer 1 is refused
although the ring is empty. -/
theorem spurious_full :
    ∃ as : List Act, (run ⟨0, 1⟩ St.init as).failed 1 = 1 ∧ (run ⟨0, 1⟩ St.init as).claimed.length =
      (run ⟨0, 1⟩ St.init as).received.length ∧ (run ⟨0, 1⟩ St.init as).tail = (run ⟨0, 1⟩ St.init as).head := by
  refine ⟨List.replicate 5 (.prod 2 [1] false) ++ [.prod 1 [9] false] ++ List.replicate 6 .cons ++
    List.replicate 6 (.prod 2 [2] false) ++ List.replicate 6 .cons ++ [.prod 1 [] false], ?_⟩
  decide

end Horus.Ring.Mpsc
