import Verif.Ring.Broadcast
import Mathlib.Data.List.Pairwise
/-
C33: broadcast readers.
-/
namespace Horus.Ring.Broadcast
open Horus.Ring

/-- The position the (single) producer has claimed and not yet stamped. -/
def PPc.seq? : PPc → Option Nat
  | .idle => none
  | .mark _ q => some q
  | .write _ q _ => some q
  | .stamp _ q => some q

/-- The slot `q` of the ring holds message `q` whole whenever its stamp says so. -/
def SubInv (c : Cfg) (s : St) (x : Sub) : Prop :=
  x.joined = true →
  x.start ≤ x.cTail ∧ x.cTail ≤ x.cHead ∧ x.cHead ≤ s.head ∧
  x.received.length + x.missed + x.start = x.cTail ∧
  (∀ e ∈ x.received, e.1 < x.cTail ∧ x.start ≤ e.1 ∧ s.claimed[e.1]? = some e.2) ∧
  x.received.Pairwise (fun a b => a.1 < b.1) ∧
  match x.pc with
  | .load1 => x.cTail < x.cHead
  | .lag => x.cTail < x.cHead
  | .read acc => x.cTail < x.cHead ∧ (s.prods 0).seq? ≠ some x.cTail ∧
      (s.ready (c.idx x.cTail) = (x.cTail + 1, false) → acc = (s.claimed.getD x.cTail []).take acc.length)
  | .recheck acc => x.cTail < x.cHead ∧ (s.prods 0).seq? ≠ some x.cTail ∧
      (s.ready (c.idx x.cTail) = (x.cTail + 1, false) → acc = s.claimed.getD x.cTail [])
  | _ => True

/-- The invariant, for one publisher. -/
structure Inv (c : Cfg) (s : St) : Prop where
  hHead : s.head = s.claimed.length
  hWidth : ∀ m ∈ s.claimed, m.length = c.width
  hOthers : ∀ i, i ≠ 0 → s.prods i = .idle
  hReady : ∀ j, (s.ready j).1 ≤ s.head
  hMod : ∀ j, 0 < (s.ready j).1 → c.idx ((s.ready j).1 - 1) = j
  hSlot : ∀ q, s.ready (c.idx q) = (q + 1, false) → q < s.head ∧
    ∀ k, k < c.width → s.slot (c.idx q) k = (s.claimed.getD q []).getD k 0
  hFresh : ∀ q, q < s.head → s.head ≤ q + c.cap → (s.prods 0).seq? ≠ some q → s.ready (c.idx q) = (q + 1, false)
  hProd : match s.prods 0 with
    | .idle => True
    | .mark m q => q + 1 = s.head ∧ s.claimed[q]? = some m ∧ s.ready (c.idx q) ≠ (q + 1, false)
    | .write m q k => q + 1 = s.head ∧ s.claimed[q]? = some m ∧ s.ready (c.idx q) = (q + 1, true) ∧ k ≤ c.width ∧
        ∀ j, j < k → s.slot (c.idx q) j = m.getD j 0
    | .stamp m q => q + 1 = s.head ∧ s.claimed[q]? = some m ∧ s.ready (c.idx q) = (q + 1, true) ∧
        ∀ j, j < c.width → s.slot (c.idx q) j = m.getD j 0
  hSubs : ∀ i, SubInv c s (s.subs i)

theorem inv_init (c : Cfg) : Inv c St.init := by
  constructor <;> simp [St.init, SubInv]

theorem getD_append_lt {α : Type} (l : List α) (x d : α) (i : Nat) (h : i < l.length) :
    (l ++ [x]).getD i d = l.getD i d := by
  simp [List.getElem?_append_left h]

/-- A subscriber's invariant survives a change of shared memory that appends claims, keeps or
invalidates what it is reading. -/
theorem subInv_mono (c : Cfg) (s t : St) (x : Sub) (h : SubInv c s x) (hhead : s.head ≤ t.head)
    (hlen : s.head = s.claimed.length)
    (hcl : ∀ q, q < s.head → t.claimed[q]? = s.claimed[q]?)
    (hr : ∀ q, q < s.head → (s.prods 0).seq? ≠ some q →
      (t.prods 0).seq? ≠ some q ∧ (t.ready (c.idx q) = (q + 1, false) → s.ready (c.idx q) = (q + 1, false))) :
    SubInv c t x := by
  intro hj
  obtain ⟨a1, a2, a3, a4, a5, a6, a7⟩ := h hj
  have hg : ∀ q, q < s.head → t.claimed.getD q [] = s.claimed.getD q [] := by
    intro q hq; rw [List.getD_eq_getElem?_getD, List.getD_eq_getElem?_getD, hcl q hq]
  refine ⟨a1, a2, by omega, a4, ?_, a6, ?_⟩
  · intro e he
    obtain ⟨b1, b2, b3⟩ := a5 e he
    exact ⟨b1, b2, by rw [hcl _ (by omega)]; exact b3⟩
  · revert a7
    cases x.pc with
    | read acc =>
      rintro ⟨b1, b2, b3⟩
      have := hr x.cTail (by omega) b2
      refine ⟨b1, this.1, fun hx => ?_⟩
      rw [hg _ (by omega)]; exact b3 (this.2 hx)
    | recheck acc =>
      rintro ⟨b1, b2, b3⟩
      have := hr x.cTail (by omega) b2
      refine ⟨b1, this.1, fun hx => ?_⟩
      rw [hg _ (by omega)]; exact b3 (this.2 hx)
    | _ => exact id

theorem inv_prod (c : Cfg) (s : St) (m : List Nat) (h : Inv c s) : Inv c (prodStep c s 0 m) := by
  have hProd := h.hProd
  have h1 := h.hHead
  have hcap := c.cap_pos
  unfold prodStep
  cases hpc : s.prods 0 with
  | idle =>
    simp only
    split
    · exact h
    · next hm =>
      have hnr : s.ready (c.idx s.head) ≠ (s.head + 1, false) := by
        intro e
        have := h.hReady (c.idx s.head)
        rw [e] at this; simp only at this; omega
      have hcl : ∀ q, q < s.head → (s.claimed ++ [m])[q]? = s.claimed[q]? := by
        intro q hq; rw [List.getElem?_append_left (by omega)]
      refine { hHead := by simp; omega, hWidth := ?_, hOthers := ?_, hReady := fun j => Nat.le_succ_of_le (h.hReady j),
               hMod := h.hMod, hSlot := ?_, hFresh := ?_, hProd := ?_, hSubs := ?_ }
      · intro x hx
        rcases List.mem_append.mp hx with hx | hx
        · exact h.hWidth x hx
        · simp only [List.mem_singleton] at hx; rw [hx]; simpa using hm
      · intro i hi; simp only [upd_ne _ _ hi]; exact h.hOthers i hi
      · intro q hq
        obtain ⟨b1, b2⟩ := h.hSlot q hq
        refine ⟨Nat.lt_succ_of_lt b1, fun k hk => ?_⟩
        rw [getD_append_lt _ _ _ _ (by omega)]; exact b2 k hk
      · intro q hq1 hq2 hq3
        simp only [upd_same, PPc.seq?] at hq1 hq2 hq3
        have hne : q ≠ s.head := fun e => hq3 (by rw [e])
        exact h.hFresh q (by omega) (by omega) (by rw [hpc]; simp [PPc.seq?])
      · simp only [upd_same]
        exact ⟨trivial, by rw [h1]; simp, hnr⟩
      · intro i
        refine subInv_mono c s _ _ (h.hSubs i) (Nat.le_succ _) h1 hcl ?_
        intro q hq _
        refine ⟨?_, id⟩
        simp only [upd_same, PPc.seq?, ne_eq, Option.some.injEq]
        omega
  | mark m' q =>
    rw [hpc] at hProd
    obtain ⟨a1, a2, a3⟩ := hProd
    simp only
    refine { hHead := h.hHead, hWidth := h.hWidth, hOthers := ?_, hReady := ?_, hMod := ?_, hSlot := ?_, hFresh := ?_,
             hProd := ?_, hSubs := ?_ }
    · intro i hi; simp only [upd_ne _ _ hi]; exact h.hOthers i hi
    · intro j
      by_cases hj : j = c.idx q
      · subst hj; simp only [upd_same]; omega
      · simp only [upd_ne _ _ hj]; exact h.hReady j
    · intro j
      by_cases hj : j = c.idx q
      · subst hj; simp
      · simp only [upd_ne _ _ hj]; exact h.hMod j
    · intro q' hq'
      by_cases hj : c.idx q' = c.idx q
      · simp only [hj, upd_same] at hq'; simp at hq'
      · simp only [upd_ne _ _ hj] at hq'; exact h.hSlot q' hq'
    · intro q' hq1 hq2 hq3
      simp only [upd_same, PPc.seq?, ne_eq, Option.some.injEq] at hq1 hq2 hq3
      have hne : c.idx q' ≠ c.idx q := c.idx_ne (by omega) (by omega)
      simp only [upd_ne _ _ hne]
      exact h.hFresh q' hq1 hq2 (by rw [hpc]; simpa [PPc.seq?] using hq3)
    · simp only [upd_same]
      exact ⟨a1, a2, trivial, Nat.zero_le _, by simp⟩
    · intro i
      refine subInv_mono c s _ _ (h.hSubs i) (Nat.le_refl _) h1 (fun _ _ => rfl) ?_
      intro q' hq' hs
      rw [hpc] at hs
      refine ⟨by simpa [upd_same, PPc.seq?] using hs, ?_⟩
      by_cases hj : c.idx q' = c.idx q
      · simp only [hj, upd_same]; intro hx; simp at hx
      · simp only [upd_ne _ _ hj]; exact id
  | write m' q k =>
    rw [hpc] at hProd
    obtain ⟨a1, a2, a3, a4, a5⟩ := hProd
    simp only
    split
    · next hk =>
      refine { hHead := h.hHead, hWidth := h.hWidth, hOthers := ?_, hReady := h.hReady, hMod := h.hMod, hSlot := ?_,
               hFresh := ?_, hProd := ?_, hSubs := ?_ }
      · intro i hi; simp only [upd_ne _ _ hi]; exact h.hOthers i hi
      · intro q' hq'
        have hj : c.idx q' ≠ c.idx q := by
          intro e
          simp only at hq'
          rw [e, a3] at hq'; simp at hq'
        obtain ⟨b1, b2⟩ := h.hSlot q' hq'
        refine ⟨b1, fun k' hk' => ?_⟩
        simp only [upd_ne _ _ hj]; exact b2 k' hk'
      · intro q' hq1 hq2 hq3
        simp only [upd_same] at hq3
        exact h.hFresh q' hq1 hq2 (by rw [hpc]; exact hq3)
      · simp only [upd_same]
        refine ⟨a1, a2, a3, by omega, fun j hj => ?_⟩
        by_cases e : j = k
        · subst e; simp
        · rw [upd_ne _ _ e]; exact a5 j (by omega)
      · intro i
        refine subInv_mono c s _ _ (h.hSubs i) (Nat.le_refl _) h1 (fun _ _ => rfl) ?_
        intro q' hq' hs
        rw [hpc] at hs
        exact ⟨by simpa [upd_same, PPc.seq?] using hs, id⟩
    · refine { hHead := h.hHead, hWidth := h.hWidth, hOthers := ?_, hReady := h.hReady, hMod := h.hMod, hSlot := h.hSlot,
               hFresh := ?_, hProd := ?_, hSubs := ?_ }
      · intro i hi; simp only [upd_ne _ _ hi]; exact h.hOthers i hi
      · intro q' hq1 hq2 hq3
        simp only [upd_same] at hq3
        exact h.hFresh q' hq1 hq2 (by rw [hpc]; exact hq3)
      · simp only [upd_same]
        exact ⟨a1, a2, a3, fun j hj => a5 j (by omega)⟩
      · intro i
        refine subInv_mono c s _ _ (h.hSubs i) (Nat.le_refl _) h1 (fun _ _ => rfl) ?_
        intro q' hq' hs
        rw [hpc] at hs
        exact ⟨by simpa [upd_same, PPc.seq?] using hs, id⟩
  | stamp m' q =>
    rw [hpc] at hProd
    obtain ⟨a1, a2, a3, a4⟩ := hProd
    simp only
    refine { hHead := h.hHead, hWidth := h.hWidth, hOthers := ?_, hReady := ?_, hMod := ?_, hSlot := ?_, hFresh := ?_,
             hProd := ?_, hSubs := ?_ }
    · intro i hi; simp only [upd_ne _ _ hi]; exact h.hOthers i hi
    · intro j
      by_cases hj : j = c.idx q
      · subst hj; simp only [upd_same]; omega
      · simp only [upd_ne _ _ hj]; exact h.hReady j
    · intro j
      by_cases hj : j = c.idx q
      · subst hj; simp
      · simp only [upd_ne _ _ hj]; exact h.hMod j
    · intro q' hq'
      by_cases hj : c.idx q' = c.idx q
      · simp only [hj, upd_same, Prod.mk.injEq, Nat.add_right_cancel_iff, and_true] at hq'
        subst hq'
        refine ⟨by simp only; omega, fun k hk => ?_⟩
        simp only
        rw [a4 k hk]
        have : s.claimed.getD q [] = m' := by rw [List.getD_eq_getElem?_getD, a2]; rfl
        rw [this]
      · simp only [upd_ne _ _ hj] at hq'; exact h.hSlot q' hq'
    · intro q' hq1 hq2 _
      simp only at hq1 hq2
      by_cases hqq : q' = q
      · subst hqq; simp
      · have hne : c.idx q' ≠ c.idx q := c.idx_ne (by omega) (by omega)
        simp only [upd_ne _ _ hne]
        exact h.hFresh q' hq1 hq2 (by rw [hpc]; simp [PPc.seq?]; omega)
    · simp only [upd_same]
    · intro i
      refine subInv_mono c s _ _ (h.hSubs i) (Nat.le_refl _) h1 (fun _ _ => rfl) ?_
      intro q' hq' hs
      rw [hpc] at hs
      refine ⟨by simp [upd_same, PPc.seq?], ?_⟩
      by_cases hj : c.idx q' = c.idx q
      · simp only [hj, upd_same]
        intro hx
        simp only [Prod.mk.injEq, Nat.add_right_cancel_iff, and_true] at hx
        subst hx
        exact absurd rfl hs
      · simp only [upd_ne _ _ hj]; exact id

theorem gate_cases (c : Cfg) (h t : Nat) : gate c h t = .lag ∨ gate c h t = .load1 := by
  unfold gate; split
  · exact Or.inl rfl
  · exact Or.inr rfl

/-- A subscriber's own step keeps its invariant. -/
theorem subInv_step (c : Cfg) (s : St) (x : Sub) (h : Inv c s) (hx : SubInv c s x) :
    SubInv c s (subStep c s x) := by
  have h1 := h.hHead
  intro hj
  have hj' : x.joined = true := by
    revert hj
    unfold subStep
    simp only
    repeat' split
    all_goals exact id
  obtain ⟨a1, a2, a3, a4, a5, a6, a7⟩ := hx hj'
  unfold subStep
  cases hpc : x.pc with
  | idle =>
    simp only
    split
    · exact ⟨a1, a2, a3, a4, a5, a6, trivial⟩
    · refine ⟨a1, a2, a3, a4, a5, a6, ?_⟩
      simp only
      rcases gate_cases c x.cHead x.cTail with e | e <;> rw [e] <;> simp only <;> omega
  | reload =>
    simp only
    split
    · exact ⟨a1, by simp only; omega, Nat.le_refl _, a4, a5, a6, trivial⟩
    · refine ⟨a1, by simp only; omega, Nat.le_refl _, a4, a5, a6, ?_⟩
      simp only
      rcases gate_cases c s.head x.cTail with e | e <;> rw [e] <;> simp only <;> omega
  | lag =>
    simp only
    split
    · split
      · refine ⟨by simp only; omega, by simp only; omega, Nat.le_refl _, by simp only; omega, ?_, a6, trivial⟩
        intro e he
        obtain ⟨b1, b2, b3⟩ := a5 e he
        exact ⟨by simp only; omega, b2, b3⟩
      · exact ⟨a1, a2, a3, a4, a5, a6, trivial⟩
    · exact ⟨a1, a2, a3, a4, a5, a6, trivial⟩
  | load1 =>
    rw [hpc] at a7
    simp only at a7 ⊢
    split
    · exact ⟨a1, a2, a3, a4, a5, a6, trivial⟩
    · next hw =>
      split
      · exact ⟨a1, a2, a3, a4, a5, a6, trivial⟩
      · split
        · exact ⟨a1, a2, a3, a4, a5, a6, a7⟩
        · next hlt hgt =>
          have hr : s.ready (c.idx x.cTail) = (x.cTail + 1, false) := by
            apply Prod.ext
            · simp only; omega
            · simpa using hw
          refine ⟨a1, a2, a3, a4, a5, a6, a7, ?_, fun _ => by simp⟩
          intro hs
          have hP := h.hProd
          revert hs hP
          simp only
          cases s.prods 0 with
          | idle => simp [PPc.seq?]
          | mark m q =>
            simp only [PPc.seq?, Option.some.injEq]
            rintro e ⟨_, _, d⟩
            rw [e] at d; exact d hr
          | write m q k =>
            simp only [PPc.seq?, Option.some.injEq]
            rintro e ⟨_, _, d, _⟩
            rw [e, hr] at d; simp at d
          | stamp m q =>
            simp only [PPc.seq?, Option.some.injEq]
            rintro e ⟨_, _, d, _⟩
            rw [e, hr] at d; simp at d
  | read acc =>
    rw [hpc] at a7
    simp only at a7 ⊢
    obtain ⟨b1, b2, b3⟩ := a7
    have hlt : x.cTail < s.claimed.length := by omega
    have hw : (s.claimed.getD x.cTail []).length = c.width := by
      have : s.claimed.getD x.cTail [] = s.claimed[x.cTail] := by simp [hlt]
      rw [this]; exact h.hWidth _ (List.getElem_mem hlt)
    split
    · next hk =>
      refine ⟨a1, a2, a3, a4, a5, a6, b1, b2, fun hr => ?_⟩
      have hs := (h.hSlot x.cTail hr).2 _ hk
      simp only
      rw [hs, List.length_append, List.length_singleton, List.take_add_one, ← b3 hr]
      congr 1
      rw [List.getD_eq_getElem?_getD, List.getElem?_eq_getElem (by omega)]
      simp
    · next hk =>
      refine ⟨a1, a2, a3, a4, a5, a6, b1, b2, fun hr => ?_⟩
      have := b3 hr
      rw [List.take_of_length_le (by omega)] at this
      exact this
  | recheck acc =>
    rw [hpc] at a7
    simp only at a7 ⊢
    obtain ⟨b1, b2, b3⟩ := a7
    split
    · exact ⟨a1, a2, a3, a4, a5, a6, trivial⟩
    · next hr =>
      have hr : s.ready (c.idx x.cTail) = (x.cTail + 1, false) := by
        by_contra hc; exact hr hc
      have hv := b3 hr
      refine ⟨by simp only; omega, by simp only; omega, a3, by simp; omega, ?_, ?_, trivial⟩
      · intro e he
        rcases List.mem_append.mp he with he | he
        · obtain ⟨d1, d2, d3⟩ := a5 e he
          exact ⟨by simp only; omega, d2, d3⟩
        · simp only [List.mem_singleton] at he
          subst he
          refine ⟨by simp, a1, ?_⟩
          simp only
          rw [hv, List.getD_eq_getElem?_getD, List.getElem?_eq_getElem (by omega)]
          rfl
      · apply List.pairwise_append.mpr
        refine ⟨a6, by simp, ?_⟩
        intro a ha b hb
        simp only [List.mem_singleton] at hb
        subst hb
        exact (a5 a ha).1

theorem inv_subs (c : Cfg) (s : St) (h : Inv c s) (i : Nat) (x : Sub) (hx : SubInv c s x) :
    Inv c { s with subs := upd s.subs i x } := by
  refine { h with hSubs := ?_ }
  intro j
  by_cases hj : j = i
  · subst hj; simp only [upd_same]; exact hx
  · simp only [upd_ne _ _ hj]; exact h.hSubs j

theorem inv_step (c : Cfg) (s : St) (a : Act) (ha : ∀ i m, a = .prod i m → i = 0) (h : Inv c s) :
    Inv c (step c s a) := by
  cases a with
  | prod i m =>
    have : i = 0 := ha i m rfl
    subst this
    exact inv_prod c s m h
  | sub i =>
    simp only [step]
    split
    · exact inv_subs c s h i _ (subInv_step c s _ h (h.hSubs i))
    · exact h
  | join i start =>
    simp only [step]
    split
    · next hs =>
      refine inv_subs c s h i _ ?_
      intro _
      exact ⟨Nat.le_refl _, hs.2, Nat.le_refl _, by simp, by simp, by simp, trivial⟩
    · exact h

theorem inv_run_from (c : Cfg) (as : List Act) (hp : SingleProducer as) (s : St) (h : Inv c s) : Inv c (run c s as) := by
  induction as generalizing s with
  | nil => exact h
  | cons a as ih =>
    apply ih (fun i m hm => hp i m (by simp [hm]))
    exact inv_step c s a (fun i m e => hp i m (by simp [e])) h

theorem inv_run (c : Cfg) (as : List Act) (hp : SingleProducer as) : Inv c (run c St.init as) :=
  inv_run_from c as hp _ (inv_init c)

/-! ### C33 -/

/-- C33. One publisher, any number of subscribers joining at any time, any interleaving: every value
a subscriber returns is, whole, the message published at the position it is reported for; positions
strictly increase (no duplicate, no reordering). -/
theorem broadcast_exact (c : Cfg) (as : List Act) (hp : SingleProducer as) (i : Nat) :
    (((run c St.init as).subs i).received.Pairwise fun a b => a.1 < b.1) ∧
    ∀ e ∈ ((run c St.init as).subs i).received, (run c St.init as).claimed[e.1]? = some e.2 := by
  have h := (inv_run c as hp).hSubs i
  generalize hx : (run c St.init as).subs i = x at h
  by_cases hj : x.joined = true
  · obtain ⟨_, _, _, _, a5, a6, _⟩ := h hj
    exact ⟨a6, fun e he => (a5 e he).2.2⟩
  · -- a handle that never joined has returned nothing
    have : ∀ (as : List Act) (s : St), ((s.subs i).joined = false → (s.subs i).received = []) →
        (((run c s as).subs i).joined = false → ((run c s as).subs i).received = []) := by
      intro as
      induction as with
      | nil => exact fun s h => h
      | cons a as ih =>
        intro s hs
        apply ih
        cases a with
        | prod j m =>
          have : (prodStep c s j m).subs = s.subs := by
            unfold prodStep
            repeat' split
            all_goals rfl
          simp only [step, this]; exact hs
        | sub j =>
          simp only [step]
          split
          · next hjn =>
            by_cases e : i = j
            · subst e
              simp only [upd_same]
              intro hf
              exfalso
              have : (subStep c s (s.subs i)).joined = (s.subs i).joined := by
                unfold subStep
                simp only
                repeat' split
                all_goals rfl
              rw [this, hjn] at hf; cases hf
            · simp only [upd_ne _ _ e]; exact hs
          · exact hs
        | join j st =>
          simp only [step]
          split
          · by_cases e : i = j
            · subst e; simp
            · simp only [upd_ne _ _ e]; exact hs
          · exact hs
    have hr := this as St.init (by simp [St.init]) (by rw [hx]; simpa using hj)
    rw [hx] at hr
    rw [hr]
    simp

/-- C33. `missed_count()` is exact: positions from where the subscriber joined up to its cursor are
either returned or counted as missed, and the cursor never passes what was published. -/
theorem missed_exact (c : Cfg) (as : List Act) (hp : SingleProducer as) (i : Nat)
    (hj : ((run c St.init as).subs i).joined = true) :
    ((run c St.init as).subs i).received.length + ((run c St.init as).subs i).missed +
        ((run c St.init as).subs i).start = ((run c St.init as).subs i).cTail ∧
      ((run c St.init as).subs i).cTail ≤ (run c St.init as).claimed.length := by
  have hI := inv_run c as hp
  obtain ⟨_, a2, a3, a4, _⟩ := hI.hSubs i hj
  have := hI.hHead
  exact ⟨a4, by omega⟩

/-- Steps of subscriber `i` alone. -/
theorem run_sub (c : Cfg) (s : St) (i : Nat) (hj : (s.subs i).joined = true) (k : Nat) :
    run c s (List.replicate (k + 1) (.sub i)) =
      run c { s with subs := upd s.subs i (subStep c s (s.subs i)) } (List.replicate k (.sub i)) := by
  simp only [List.replicate_succ, run, List.foldl_cons, step, hj, if_true]

/-- C33, liveness: when the publisher is quiet, a polling subscriber catches up with it. -/
theorem quiet_subscriber_catches_up (c : Cfg) (i : Nat) (n : Nat) : ∀ (s : St), Inv c s → s.prods 0 = .idle →
    (s.subs i).joined = true → s.head - (s.subs i).cTail = n →
    ∃ k, ((run c s (List.replicate k (.sub i))).subs i).cTail = s.head ∧
      (run c s (List.replicate k (.sub i))).head = s.head := by
  induction n using Nat.strongRecOn with
  | ind n ih =>
  -- one step, then any continuation
  have glue : ∀ (s : St), (s.subs i).joined = true →
      (∃ k, ((run c { s with subs := upd s.subs i (subStep c s (s.subs i)) } (List.replicate k (.sub i))).subs i).cTail = s.head ∧
        (run c { s with subs := upd s.subs i (subStep c s (s.subs i)) } (List.replicate k (.sub i))).head = s.head) →
      ∃ k, ((run c s (List.replicate k (.sub i))).subs i).cTail = s.head ∧
        (run c s (List.replicate k (.sub i))).head = s.head := by
    rintro s hj ⟨k, hk⟩
    exact ⟨k + 1, by rw [run_sub c s i hj]; exact hk⟩
  have joined_step : ∀ (s : St), (subStep c s (s.subs i)).joined = (s.subs i).joined := by
    intro s
    unfold subStep
    simp only
    repeat' split
    all_goals rfl
  have inv_sub : ∀ (s : St), Inv c s → Inv c { s with subs := upd s.subs i (subStep c s (s.subs i)) } :=
    fun s h => inv_subs c s h i _ (subInv_step c s _ h (h.hSubs i))
  -- an advance of the cursor closes the case by induction
  have adv : ∀ (s : St), Inv c s → s.prods 0 = .idle → (s.subs i).joined = true →
      s.head - (s.subs i).cTail = n → (subStep c s (s.subs i)).cTail > (s.subs i).cTail →
      (s.subs i).cTail < s.head →
      ∃ k, ((run c s (List.replicate k (.sub i))).subs i).cTail = s.head ∧
        (run c s (List.replicate k (.sub i))).head = s.head := by
    intro s h hq hj hn hgt hlt
    apply glue s hj
    have := ih (s.head - (subStep c s (s.subs i)).cTail) (by omega)
      { s with subs := upd s.subs i (subStep c s (s.subs i)) } (inv_sub s h) hq
      (by simp only [upd_same]; rw [joined_step]; exact hj) (by simp only [upd_same])
    exact this
  -- recheck
  have recheckC : ∀ (s : St) (acc : List Nat), Inv c s → s.prods 0 = .idle → (s.subs i).joined = true →
      s.head - (s.subs i).cTail = n → (s.subs i).pc = .recheck acc →
      s.ready (c.idx (s.subs i).cTail) = ((s.subs i).cTail + 1, false) →
      ∃ k, ((run c s (List.replicate k (.sub i))).subs i).cTail = s.head ∧
        (run c s (List.replicate k (.sub i))).head = s.head := by
    intro s acc h hq hj hn hp hr
    have hlt : (s.subs i).cTail < s.head := by
      have := (h.hSlot _ hr).1; exact this
    apply adv s h hq hj hn _ hlt
    simp only [subStep, hp, hr]
    simp
  have readC : ∀ (j : Nat) (s : St) (acc : List Nat), Inv c s → s.prods 0 = .idle → (s.subs i).joined = true →
      s.head - (s.subs i).cTail = n → (s.subs i).pc = .read acc → c.width - acc.length = j →
      s.ready (c.idx (s.subs i).cTail) = ((s.subs i).cTail + 1, false) →
      ∃ k, ((run c s (List.replicate k (.sub i))).subs i).cTail = s.head ∧
        (run c s (List.replicate k (.sub i))).head = s.head := by
    intro j
    induction j with
    | zero =>
      intro s acc h hq hj hn hp hw hr
      apply glue s hj
      have hst : subStep c s (s.subs i) = { s.subs i with pc := .recheck acc } := by
        have : ¬ acc.length < c.width := by omega
        simp only [subStep, hp, if_neg this]
      have := recheckC { s with subs := upd s.subs i (subStep c s (s.subs i)) } acc (inv_sub s h) hq
        (by simp only [upd_same]; rw [joined_step]; exact hj) (by simp only [upd_same, hst]; exact hn)
        (by simp only [upd_same, hst]) (by simp only [upd_same, hst]; exact hr)
      exact this
    | succ j ihj =>
      intro s acc h hq hj hn hp hw hr
      apply glue s hj
      have hst : subStep c s (s.subs i) =
          { s.subs i with pc := .read (acc ++ [s.slot (c.idx (s.subs i).cTail) acc.length]) } := by
        have : acc.length < c.width := by omega
        simp only [subStep, hp, if_pos this]
      have := ihj { s with subs := upd s.subs i (subStep c s (s.subs i)) }
        (acc ++ [s.slot (c.idx (s.subs i).cTail) acc.length]) (inv_sub s h) hq
        (by simp only [upd_same]; rw [joined_step]; exact hj) (by simp only [upd_same, hst]; exact hn)
        (by simp only [upd_same, hst]) (by simp; omega) (by simp only [upd_same, hst]; exact hr)
      exact this
  -- skipping forward
  have lagC : ∀ (s : St), Inv c s → s.prods 0 = .idle → (s.subs i).joined = true →
      s.head - (s.subs i).cTail = n → (s.subs i).pc = .lag → (s.subs i).cTail + c.cap < s.head →
      ∃ k, ((run c s (List.replicate k (.sub i))).subs i).cTail = s.head ∧
        (run c s (List.replicate k (.sub i))).head = s.head := by
    intro s h hq hj hn hp hlt
    apply adv s h hq hj hn _ (by omega)
    have e1 : s.head > c.cap := by omega
    have e2 : s.head - c.cap + c.cap / 2 > (s.subs i).cTail := by omega
    simp only [subStep, hp, if_pos e1, if_pos e2]
    exact e2
  -- looking at the slot
  have load1C : ∀ (s : St), Inv c s → s.prods 0 = .idle → (s.subs i).joined = true →
      s.head - (s.subs i).cTail = n → (s.subs i).pc = .load1 → (s.subs i).cTail < s.head →
      ∃ k, ((run c s (List.replicate k (.sub i))).subs i).cTail = s.head ∧
        (run c s (List.replicate k (.sub i))).head = s.head := by
    intro s h hq hj hn hp hlt
    apply glue s hj
    by_cases hin : s.head ≤ (s.subs i).cTail + c.cap
    · have hr := h.hFresh _ hlt hin (by rw [hq]; simp [PPc.seq?])
      have hst : subStep c s (s.subs i) = { s.subs i with pc := .read [] } := by
        simp only [subStep, hp, hr]
        simp
      have := readC _ { s with subs := upd s.subs i (subStep c s (s.subs i)) } [] (inv_sub s h) hq
        (by simp only [upd_same]; rw [joined_step]; exact hj) (by simp only [upd_same, hst]; exact hn)
        (by simp only [upd_same, hst]) rfl (by simp only [upd_same, hst]; exact hr)
      exact this
    · -- overwritten: the stamp is newer
      have hcap := c.cap_pos
      -- the latest position of the same slot
      obtain ⟨q, hq1, hq2, hq3⟩ : ∃ q, q < s.head ∧ s.head ≤ q + c.cap ∧ c.idx q = c.idx (s.subs i).cTail := by
        refine ⟨(s.subs i).cTail + (s.head - 1 - (s.subs i).cTail) / c.cap * c.cap, ?_, ?_, ?_⟩
        · have := Nat.div_mul_le_self (s.head - 1 - (s.subs i).cTail) c.cap
          omega
        · have := Nat.div_add_mod (s.head - 1 - (s.subs i).cTail) c.cap
          have := Nat.mod_lt (s.head - 1 - (s.subs i).cTail) hcap
          have e := Nat.mul_comm c.cap ((s.head - 1 - (s.subs i).cTail) / c.cap)
          omega
        · rw [c.idx_eq, c.idx_eq]
          simp
      have hr := h.hFresh q hq1 hq2 (by rw [hq]; simp [PPc.seq?])
      rw [hq3] at hr
      have hgt : q > (s.subs i).cTail := by omega
      have hst : subStep c s (s.subs i) = { s.subs i with pc := .lag } := by
        simp only [subStep, hp, hr]
        have e1 : ¬ q + 1 < (s.subs i).cTail + 1 := by omega
        have e2 : q + 1 > (s.subs i).cTail + 1 := by omega
        simp only [if_neg e1, if_pos e2, Bool.false_eq_true, if_false]
      have := lagC { s with subs := upd s.subs i (subStep c s (s.subs i)) } (inv_sub s h) hq
        (by simp only [upd_same]; rw [joined_step]; exact hj) (by simp only [upd_same, hst]; exact hn)
        (by simp only [upd_same, hst]) (by simp only [upd_same, hst]; omega)
      exact this
  -- after the head is known
  have gateC : ∀ (s : St), Inv c s → s.prods 0 = .idle → (s.subs i).joined = true →
      s.head - (s.subs i).cTail = n → (s.subs i).cTail < s.head →
      (s.subs i).pc = gate c (s.subs i).cHead (s.subs i).cTail →
      ∃ k, ((run c s (List.replicate k (.sub i))).subs i).cTail = s.head ∧
        (run c s (List.replicate k (.sub i))).head = s.head := by
    intro s h hq hj hn hlt hp
    have a3 := (h.hSubs i hj).2.2.1
    unfold gate at hp
    split at hp
    · exact lagC s h hq hj hn hp (by omega)
    · exact load1C s h hq hj hn hp hlt
  have reloadC : ∀ (s : St), Inv c s → s.prods 0 = .idle → (s.subs i).joined = true →
      s.head - (s.subs i).cTail = n → (s.subs i).cTail < s.head → (s.subs i).pc = .reload →
      ∃ k, ((run c s (List.replicate k (.sub i))).subs i).cTail = s.head ∧
        (run c s (List.replicate k (.sub i))).head = s.head := by
    intro s h hq hj hn hlt hp
    apply glue s hj
    have hne : ¬ s.head - (s.subs i).cTail = 0 := by omega
    have hst : subStep c s (s.subs i) = { s.subs i with cHead := s.head, pc := gate c s.head (s.subs i).cTail } := by
      simp only [subStep, hp, if_neg hne]
    have := gateC { s with subs := upd s.subs i (subStep c s (s.subs i)) } (inv_sub s h) hq
      (by simp only [upd_same]; rw [joined_step]; exact hj) (by simp only [upd_same, hst]; exact hn)
      (by simp only [upd_same, hst]; exact hlt) (by simp only [upd_same, hst])
    exact this
  have idleC : ∀ (s : St), Inv c s → s.prods 0 = .idle → (s.subs i).joined = true →
      s.head - (s.subs i).cTail = n → (s.subs i).cTail < s.head → (s.subs i).pc = .idle →
      ∃ k, ((run c s (List.replicate k (.sub i))).subs i).cTail = s.head ∧
        (run c s (List.replicate k (.sub i))).head = s.head := by
    intro s h hq hj hn hlt hp
    apply glue s hj
    by_cases hz : (s.subs i).cHead - (s.subs i).cTail = 0
    · have hst : subStep c s (s.subs i) = { s.subs i with pc := .reload } := by
        simp only [subStep, hp, if_pos hz]
      have := reloadC { s with subs := upd s.subs i (subStep c s (s.subs i)) } (inv_sub s h) hq
        (by simp only [upd_same]; rw [joined_step]; exact hj) (by simp only [upd_same, hst]; exact hn)
        (by simp only [upd_same, hst]; exact hlt) (by simp only [upd_same, hst])
      exact this
    · have hst : subStep c s (s.subs i) = { s.subs i with pc := gate c (s.subs i).cHead (s.subs i).cTail } := by
        simp only [subStep, hp, if_neg hz]
      have := gateC { s with subs := upd s.subs i (subStep c s (s.subs i)) } (inv_sub s h) hq
        (by simp only [upd_same]; rw [joined_step]; exact hj) (by simp only [upd_same, hst]; exact hn)
        (by simp only [upd_same, hst]; exact hlt) (by simp only [upd_same, hst])
      exact this
  -- a step that ends the call without progress leads back to the idle case
  have back : ∀ (s : St), Inv c s → s.prods 0 = .idle → (s.subs i).joined = true →
      s.head - (s.subs i).cTail = n → (s.subs i).cTail < s.head →
      (subStep c s (s.subs i)).cTail = (s.subs i).cTail → (subStep c s (s.subs i)).pc = .idle →
      ∃ k, ((run c s (List.replicate k (.sub i))).subs i).cTail = s.head ∧
        (run c s (List.replicate k (.sub i))).head = s.head := by
    intro s h hq hj hn hlt e1 e2
    apply glue s hj
    have := idleC { s with subs := upd s.subs i (subStep c s (s.subs i)) } (inv_sub s h) hq
      (by simp only [upd_same]; rw [joined_step]; exact hj) (by simp only [upd_same, e1]; exact hn)
      (by simp only [upd_same, e1]; exact hlt) (by simp only [upd_same, e2])
    exact this
  intro s h hq hj hn
  have hS := h.hSubs i hj
  by_cases hlt : (s.subs i).cTail < s.head
  · -- a copy whose slot was overwritten before
    have stale : ∀ (j : Nat) (s : St) (acc : List Nat), Inv c s → s.prods 0 = .idle → (s.subs i).joined = true →
        s.head - (s.subs i).cTail = n → (s.subs i).cTail < s.head → (s.subs i).pc = .read acc →
        c.width - acc.length = j → s.ready (c.idx (s.subs i).cTail) ≠ ((s.subs i).cTail + 1, false) →
        ∃ k, ((run c s (List.replicate k (.sub i))).subs i).cTail = s.head ∧
          (run c s (List.replicate k (.sub i))).head = s.head := by
      intro j
      induction j with
      | zero =>
        intro s acc h hq hj hn hlt hp hw hr
        apply glue s hj
        have hst : subStep c s (s.subs i) = { s.subs i with pc := .recheck acc } := by
          have : ¬ acc.length < c.width := by omega
          simp only [subStep, hp, if_neg this]
        have := back { s with subs := upd s.subs i (subStep c s (s.subs i)) } (inv_sub s h) hq
          (by simp only [upd_same]; rw [joined_step]; exact hj) (by simp only [upd_same, hst]; exact hn)
          (by simp only [upd_same, hst]; exact hlt)
          (by simp only [upd_same]; rw [hst]; simp only [subStep]; rw [if_pos hr])
          (by simp only [upd_same]; rw [hst]; simp only [subStep]; rw [if_pos hr])
        exact this
      | succ j ihj =>
        intro s acc h hq hj hn hlt hp hw hr
        apply glue s hj
        have hst : subStep c s (s.subs i) =
            { s.subs i with pc := .read (acc ++ [s.slot (c.idx (s.subs i).cTail) acc.length]) } := by
          have : acc.length < c.width := by omega
          simp only [subStep, hp, if_pos this]
        have := ihj { s with subs := upd s.subs i (subStep c s (s.subs i)) }
          (acc ++ [s.slot (c.idx (s.subs i).cTail) acc.length]) (inv_sub s h) hq
          (by simp only [upd_same]; rw [joined_step]; exact hj) (by simp only [upd_same, hst]; exact hn)
          (by simp only [upd_same, hst]; exact hlt)
          (by simp only [upd_same, hst]) (by simp; omega) (by simp only [upd_same, hst]; exact hr)
        exact this
    cases hp : (s.subs i).pc with
    | idle => exact idleC s h hq hj hn hlt hp
    | reload => exact reloadC s h hq hj hn hlt hp
    | load1 => exact load1C s h hq hj hn hp hlt
    | lag =>
      by_cases hl : (s.subs i).cTail + c.cap < s.head
      · exact lagC s h hq hj hn hp hl
      · by_cases e1 : s.head > c.cap
        · by_cases e2 : s.head - c.cap + c.cap / 2 > (s.subs i).cTail
          · apply adv s h hq hj hn _ hlt
            simp only [subStep, hp, if_pos e1, if_pos e2]
            exact e2
          · exact back s h hq hj hn hlt (by simp only [subStep, hp, if_pos e1, if_neg e2])
              (by simp only [subStep, hp, if_pos e1, if_neg e2])
        · exact back s h hq hj hn hlt (by simp only [subStep, hp, if_neg e1]) (by simp only [subStep, hp, if_neg e1])
    | read acc =>
      by_cases hr : s.ready (c.idx (s.subs i).cTail) = ((s.subs i).cTail + 1, false)
      · exact readC _ s acc h hq hj hn hp rfl hr
      · exact stale _ s acc h hq hj hn hlt hp rfl hr
    | recheck acc =>
      by_cases hr : s.ready (c.idx (s.subs i).cTail) = ((s.subs i).cTail + 1, false)
      · exact recheckC s acc h hq hj hn hp hr
      · exact back s h hq hj hn hlt (by simp only [subStep, hp, if_pos hr]) (by simp only [subStep, hp, if_pos hr])
  · refine ⟨0, ?_, rfl⟩
    simp only [List.replicate_zero, run, List.foldl_nil]
    omega

/-- C33. In every reachable state with the publisher between two sends, polling brings the
subscriber to the head. -/
theorem subscriber_reaches_head (c : Cfg) (as : List Act) (hp : SingleProducer as) (i : Nat)
    (hq : (run c St.init as).prods 0 = .idle) (hj : ((run c St.init as).subs i).joined = true) :
    ∃ k, ((run c (run c St.init as) (List.replicate k (.sub i))).subs i).cTail = (run c St.init as).claimed.length := by
  have h := inv_run c as hp
  obtain ⟨k, hk, _⟩ := quiet_subscriber_catches_up c i _ _ h hq hj rfl
  exact ⟨k, by rw [hk]; exact h.hHead⟩

/-- The single-publisher hypothesis is needed: with two publishers (mode PodShm is also chosen for
several publishers and subscribers) a publisher that is lapped mid-write leaves a slot whose stamp
matches and whose words come from two messages, and the subscriber returns it. -/
theorem two_publishers_torn :
    ∃ as : List Act, ((run ⟨0, 2⟩ St.init as).subs 7).received = [(1, [3, 2])] ∧
      (run ⟨0, 2⟩ St.init as).claimed = [[1, 2], [3, 4]] := by
  refine ⟨[.prod 0 [1, 2], .prod 0 [], .prod 0 [], .prod 1 [3, 4], .prod 1 [], .prod 1 [], .prod 1 [],
    .prod 1 [], .prod 1 [], .prod 0 [], .join 7 1, .sub 7, .sub 7, .sub 7, .sub 7, .sub 7, .sub 7], ?_⟩
  decide

/-- A subscriber overtaken by the publisher: it skips, counts, and goes on. -/
example : ((run ⟨1, 1⟩ St.init ([.join 3 0] ++ (List.replicate 20 (.prod 0 [5])) ++ List.replicate 12 (.sub 3))).subs 3).missed = 3 ∧
    ((run ⟨1, 1⟩ St.init ([.join 3 0] ++ (List.replicate 20 (.prod 0 [5])) ++ List.replicate 12 (.sub 3))).subs 3).received = [(3, [5])] := by
  decide

end Horus.Ring.Broadcast
