import Verif.Serde.Props
/-
The storage of large messages, and what goes wrong: a message that cannot be decoded, a second
subscriber handle, growth of the slot size, a send refused after its message was stored.
-/
namespace Horus.Serde
open Horus.Ring

variable {α : Type}

/-! ### Storage -/

/-- The schedules of one publisher handle. -/
def Act.By (i : Nat) : Act → Prop
  | .prep k _ _ => k = i
  | .claim k => k = i
  | _ => True

/-- No stored message was given up. -/
structure NoOrphan (c : Cfg) (i n : Nat) (s : St) : Prop where
  own : ∀ p, p < n → s.own p ≠ .orphan
  room : (s.h i).pend ≠ none → isFull c s.hd (s.h i).lt = false

theorem no_prep {c : Cfg} {i n : Nat} {s : St} (h : NoOrphan c i n s) (bs : Bytes) (ok : Bool) (hg : (prep c s i bs ok).ss = s.ss) (hpos : ∀ k, (s.h k).ss = s.ss)
    (h0 : 0 < s.ss) : NoOrphan c i n (prep c s i bs ok) := by
  revert hg
  unfold prep
  dsimp only
  generalize (if isFull c s.hd (s.h i).lt then s.tl else (s.h i).lt) = lt
  by_cases a1 : (s.h i).pend ≠ none
  · rw [if_pos a1]; intro _; exact h
  rw [if_neg a1]
  have hnone : (s.h i).pend = none := by simpa using a1
  have hpe : ∀ x, (s.setH i x).h i = x := fun x => upd_same _ _ _
  have hgr : (grow (s.setH i { s.h i with lt := lt }) i bs.length).ss ≠ s.ss := by
    unfold grow
    dsimp only
    rw [hpe]
    have := hpos i
    show max _ ((s.h i).ss * 2) ≠ _
    omega
  have h1 : NoOrphan c i n (s.setH i { s.h i with lt := lt }) := by
    refine ⟨h.own, ?_⟩
    rw [hpe]
    intro hp
    exact absurd hnone hp
  by_cases a2 : isFull c (s.setH i { s.h i with lt := lt }).hd lt = true
  · rw [if_pos a2]; intro _; exact h1
  rw [if_neg a2]
  have a2' : isFull c s.hd lt = false := by
    have a3 : ¬ isFull c s.hd lt = true := a2
    simpa using a3
  have hp : NoOrphan c i n ((s.setH i { s.h i with lt := lt }).setH i { s.h i with lt := lt, pend := some (bs, none) }) := by
    rw [setH_setH]
    refine ⟨h.own, ?_⟩
    rw [hpe]
    intro _
    exact a2'
  by_cases a3 : bs.length > spillThreshold
  · rw [if_pos a3]
    by_cases a4 : (s.h i).ss < 48
    · rw [if_pos a4]; intro _; exact h1
    rw [if_neg a4]
    cases hsp : spill (s.setH i { s.h i with lt := lt }) i bs ok with
    | none =>
      dsimp only
      by_cases a5 : bs.length > (s.h i).ss - 16
      · rw [if_pos a5]; intro e; exact absurd e hgr
      · rw [if_neg a5]; intro _; exact hp
    | some r =>
      obtain ⟨d, s'⟩ := r
      dsimp only
      intro _
      unfold spill at hsp
      split at hsp
      · rename_i p rest hfree
        simp only [Option.some.injEq, Prod.mk.injEq] at hsp
        rw [← hsp.2]
        refine ⟨?_, ?_⟩
        · intro q hq
          show upd s.own p (.pend i) q ≠ _
          by_cases hqp : q = p
          · subst hqp; rw [upd_same]; simp
          · rw [upd_ne _ _ hqp]; exact h.own q hq
        · intro _
          show isFull c s.hd ((upd (upd s.h i { s.h i with lt := lt }) i { s.h i with lt := lt, pend := some (bs, some d) } i).lt) = false
          rw [upd_same]; exact a2'
      · cases hsp
  · rw [if_neg a3]
    by_cases a5 : bs.length > (s.h i).ss - 16
    · rw [if_pos a5]; intro e; exact absurd e hgr
    · rw [if_neg a5]; intro _; exact hp

theorem no_claim {c : Cfg} {i n : Nat} {s : St} (h : NoOrphan c i n s) : NoOrphan c i n (claim c s i) := by
  unfold claim
  dsimp only
  cases hp : (s.h i).pend with
  | none => exact h
  | some r =>
    obtain ⟨bs, od⟩ := r
    dsimp only
    have hr := h.room (by rw [hp]; simp)
    have hlt : (if isFull c s.hd (s.h i).lt then s.tl else (s.h i).lt) = (s.h i).lt := by rw [hr]; rfl
    rw [hlt, if_neg (by rw [hr]; simp)]
    refine ⟨?_, ?_⟩
    · intro p hpn
      show ownTo s.own od (.msg s.hd) p ≠ _
      unfold ownTo
      cases od with
      | none => exact h.own p hpn
      | some d =>
        dsimp only
        by_cases hq : p = d.slot
        · subst hq; rw [upd_same]; simp
        · rw [upd_ne _ _ hq]; exact h.own p hpn
    · intro hq
      exfalso
      apply hq
      show (upd s.h i { s.h i with lt := (s.h i).lt, lh := s.hd + 1, pend := none } i).pend = none
      rw [upd_same]

theorem release_own (s : St) (d : Desc) (p : Nat) (h : s.own p ≠ .orphan) : (release s d).own p ≠ .orphan := by
  unfold release
  dsimp only
  split
  · exact h
  split
  · show upd s.own d.slot .free p ≠ _
    by_cases hq : p = d.slot
    · subst hq; rw [upd_same]; simp
    · rw [upd_ne _ _ hq]; exact h
  · exact h

theorem release_frame (s : St) (d : Desc) : (release s d).h = s.h ∧ (release s d).hd = s.hd := by
  unfold release
  dsimp only
  split
  · exact ⟨rfl, rfl⟩
  split <;> exact ⟨rfl, rfl⟩

theorem no_recv {c : Cfg} {dec : Bytes → Option α} {i j n : Nat} {s : St} (h : NoOrphan c i n s) (hij : i ≠ j) : NoOrphan c i n (recv c dec s j).2 := by
  have hset : ∀ (t : St) (x : Hnd), NoOrphan c i n t → NoOrphan c i n (t.setH j x) := by
    intro t x ht
    refine ⟨ht.own, ?_⟩
    show (upd t.h j x i).pend ≠ none → isFull c t.hd (upd t.h j x i).lt = false
    rw [upd_ne _ _ hij]
    exact ht.room
  unfold recv
  dsimp only
  generalize (if (s.h j).lh = (s.h j).lt then s.hd else (s.h j).lh) = lh
  have h1 := hset s { s.h j with lh := lh } h
  by_cases a1 : lh = (s.h j).lt
  · rw [if_pos a1]; exact h1
  rw [if_neg a1]
  by_cases a2 : readyAt (s.setH j { s.h j with lh := lh }).mem (c.idx (s.h j).lt * (s.h j).ss) ≠ (s.h j).lt + 1
  · rw [if_pos a2]; exact h1
  rw [if_neg a2]
  have h2 : NoOrphan c i n (readSlot dec (s.setH j { s.h j with lh := lh }) (c.idx (s.h j).lt * (s.h j).ss) (s.h j).ss).2 := by
    unfold readSlot
    split
    · exact h1
    · exact h1
    · rename_i d _
      have hf := release_frame (s.setH j { s.h j with lh := lh }) d
      refine ⟨fun p hp => release_own _ d p (h1.own p hp), ?_⟩
      dsimp only
      rw [hf.1, hf.2]
      exact h1.room
  cases hr : readSlot dec (s.setH j { s.h j with lh := lh }) (c.idx (s.h j).lt * (s.h j).ss) (s.h j).ss with
  | mk o s' =>
    rw [hr] at h2
    cases o with
    | none => exact h2
    | some v =>
      have := hset s' { s.h j with lh := lh, lt := (s.h j).lt + 1 } h2
      exact ⟨this.own, this.room⟩

theorem no_sync {c : Cfg} {i n : Nat} {s : St} (h : NoOrphan c i n s) (k : Nat) : NoOrphan c i n (sync s k) := by
  unfold sync
  dsimp only
  by_cases hp : (s.h k).pend ≠ none
  · rw [if_pos hp]; exact h
  rw [if_neg hp]
  refine ⟨h.own, ?_⟩
  show (upd s.h k _ i).pend ≠ none → isFull c s.hd (upd s.h k _ i).lt = false
  by_cases hik : i = k
  · subst hik
    rw [upd_same]
    intro hq
    exact absurd hq hp
  · rw [upd_ne _ _ hik]; exact h.room

theorem run_no_orphan (c : Cfg) (dec : Bytes → Option α) (i j s0 n : Nat) (hij : i ≠ j) (hs0 : 48 ≤ s0) (hs1 : s0 < 2 ^ 32) (hnn : n ≤ 2 ^ 32)
    (as : List Act) (hg : ∀ a ∈ as, a.Good dec j) (hb : ∀ a ∈ as, a.By i) (hss : (run c dec (St.init s0 n) as).2.ss = s0) :
    NoOrphan c i n (run c dec (St.init s0 n) as).2 := by
  induction as using List.reverseRecOn with
  | nil =>
    refine ⟨?_, ?_⟩
    · intro p hp
      show (if p < n then Own.free else Own.orphan) ≠ _
      rw [if_pos hp]; simp
    · intro h; exact absurd rfl h
  | append_singleton as a ih =>
    have hg' : ∀ b ∈ as, b.Good dec j := fun b hb => hg b (List.mem_append.mpr (Or.inl hb))
    have hb' : ∀ b ∈ as, b.By i := fun b h => hb b (List.mem_append.mpr (Or.inl h))
    have hba : a.By i := hb a (by simp)
    have hga : a.Good dec j := hg a (by simp)
    rw [run_append] at hss ⊢
    rcases run_inv c dec j s0 n hs0 hs1 hnn as hg' with ⟨h1, _⟩ | h1
    swap
    · exfalso
      have := (grown_step (c := c) (dec := dec) (by omega) h1 a).1
      have e : (step c dec (run c dec (St.init s0 n) as).2 a).2.ss = s0 := hss
      omega
    have h2 := ih hg' hb' h1.ss
    generalize hr : run c dec (St.init s0 n) as = r at *
    obtain ⟨o, s⟩ := r
    dsimp only at *
    have hss' : (step c dec s a).2.ss = s0 := hss
    show NoOrphan c i n (step c dec s a).2
    cases a with
    | prep k bs ok => cases hba; exact no_prep h2 bs ok (by rw [h1.ss]; exact hss') (fun k => by rw [h1.ss, h1.hss]) (by rw [h1.ss]; omega)
    | claim k => cases hba; exact no_claim h2
    | recv k => cases hga; exact no_recv h2 hij
    | sync k => exact no_sync h2 k

/-- One publisher, one subscriber: when everything published has been read and no send is under way,
the whole pool is free again, however many large messages have gone through it. -/
theorem storage_reclaimed (c : Cfg) (dec : Bytes → Option α) (i j s0 n : Nat) (hij : i ≠ j) (hs0 : 48 ≤ s0) (hs1 : s0 < 2 ^ 32) (hnn : n ≤ 2 ^ 32)
    (as : List Act) (hg : ∀ a ∈ as, a.Good dec j) (hb : ∀ a ∈ as, a.By i) (hss : (run c dec (St.init s0 n) as).2.ss = s0)
    (hread : (got (run c dec (St.init s0 n) as).1).length = (run c dec (St.init s0 n) as).2.pub.length)
    (hidle : ∀ k, ((run c dec (St.init s0 n) as).2.h k).pend = none) :
    (run c dec (St.init s0 n) as).2.free.Perm (List.range n) := by
  have hno := run_no_orphan c dec i j s0 n hij hs0 hs1 hnn as hg hb hss
  rcases run_inv c dec j s0 n hs0 hs1 hnn as hg with ⟨h1, h2⟩ | h1
  swap
  · have := h1.1; omega
  generalize hr : run c dec (St.init s0 n) as = r at *
  obtain ⟨o, s⟩ := r
  dsimp only at *
  have hlen : (got o).length = (s.h j).lt := by
    have := congrArg List.length h2
    simp only [List.length_map, List.length_take] at this
    rw [this, Nat.min_eq_left]
    rw [← h1.hd]; exact Nat.le_trans h1.ltlh h1.lhhd
  rw [List.perm_ext_iff_of_nodup h1.nd List.nodup_range]
  intro p
  rw [List.mem_range, ← h1.fr p]
  constructor
  · intro e
    exact h1.frn p ((h1.fr p).mp e)
  · intro hp
    cases ho : s.own p with
    | free => rfl
    | orphan => exact absurd ho (hno.own p hp)
    | msg k =>
      obtain ⟨a1, a2, _⟩ := h1.om p k ho
      have := h1.hd
      omega
    | pend k =>
      obtain ⟨b, d, a1, _⟩ := h1.op p k ho
      rw [hidle k] at a1
      cases a1

/-- In general, with any number of publishers: a pool slot that is not free holds an unread message or
the message of a send under way, byte for byte, or was given up by a refused send. -/
theorem storage_accounted (c : Cfg) (dec : Bytes → Option α) (j s0 n : Nat) (hs0 : 48 ≤ s0) (hs1 : s0 < 2 ^ 32) (hnn : n ≤ 2 ^ 32)
    (as : List Act) (hg : ∀ a ∈ as, a.Good dec j) (hss : (run c dec (St.init s0 n) as).2.ss = s0) (p : Nat)
    (hp : p ∉ (run c dec (St.init s0 n) as).2.free) :
    (∃ k b, (got (run c dec (St.init s0 n) as).1).length ≤ k ∧ (run c dec (St.init s0 n) as).2.pub[k]? = some b ∧
      ((run c dec (St.init s0 n) as).2.pool p).bytes = b) ∨
    (∃ i b d, ((run c dec (St.init s0 n) as).2.h i).pend = some (b, some d) ∧ ((run c dec (St.init s0 n) as).2.pool p).bytes = b) ∨
    (run c dec (St.init s0 n) as).2.own p = .orphan := by
  rcases run_inv c dec j s0 n hs0 hs1 hnn as hg with ⟨h1, h2⟩ | h1
  swap
  · have := h1.1; omega
  generalize hr : run c dec (St.init s0 n) as = r at *
  obtain ⟨o, s⟩ := r
  dsimp only at *
  have hlen : (got o).length = (s.h j).lt := by
    have := congrArg List.length h2
    simp only [List.length_map, List.length_take] at this
    rw [this, Nat.min_eq_left]
    rw [← h1.hd]; exact Nat.le_trans h1.ltlh h1.lhhd
  cases ho : s.own p with
  | free => exact absurd ((h1.fr p).mp ho) hp
  | orphan => exact Or.inr (Or.inr rfl)
  | msg k =>
    left
    obtain ⟨a1, a2, d, a3, a4⟩ := h1.om p k ho
    have := h1.slot k a1 a2
    unfold Holds at this
    rw [a3] at this
    obtain ⟨_, b, b1, b2, _⟩ := this
    refine ⟨k, b, by omega, b1, ?_⟩
    rw [← a4, b2]
  | pend k =>
    right; left
    obtain ⟨b, d, a1, a2⟩ := h1.op p k ho
    refine ⟨k, b, d, a1, ?_⟩
    rw [← a2, (h1.psp k b d a1).2.1]

/-! ### A message that cannot be decoded -/

/-- The next message of the subscriber, in its slot, does not decode. -/
structure Stuck (c : Cfg) (dec : Bytes → Option α) (j s0 n k : Nat) (s : St) : Prop where
  inv : Inv c (fun b => some b) j s0 n s
  at_ : (s.h j).lt = k
  lt : k < s.hd
  loc : s.loc k = none
  bad : ∃ b, s.pub[k]? = some b ∧ dec b = none

theorem stuck_recv {c : Cfg} {dec : Bytes → Option α} {j s0 n k : Nat} {s : St} (h : Stuck c dec j s0 n k s) :
    (recv c dec s j).1 = none ∧ Stuck c dec j s0 n k (recv c dec s j).2 := by
  unfold recv
  dsimp only
  generalize hlh : (if (s.h j).lh = (s.h j).lt then s.hd else (s.h j).lh) = lh
  have hb1 : (s.h j).lt ≤ lh := by
    rw [← hlh]
    by_cases hq : (s.h j).lh = (s.h j).lt
    · rw [if_pos hq]; exact Nat.le_trans h.inv.ltlh h.inv.lhhd
    · rw [if_neg hq]; exact h.inv.ltlh
  have hb2 : lh ≤ s.hd := by
    rw [← hlh]
    by_cases hq : (s.h j).lh = (s.h j).lt
    · rw [if_pos hq]
    · rw [if_neg hq]; exact h.inv.lhhd
  have h1 : Stuck c dec j s0 n k (s.setH j { s.h j with lh := lh }) := by
    refine ⟨inv_lh h.inv lh hb1 hb2, ?_, h.lt, h.loc, h.bad⟩
    show (upd s.h j _ j).lt = k
    rw [upd_same]; exact h.at_
  by_cases a1 : lh = (s.h j).lt
  · rw [if_pos a1]; exact ⟨rfl, h1⟩
  rw [if_neg a1]
  by_cases a2 : readyAt (s.setH j { s.h j with lh := lh }).mem (c.idx (s.h j).lt * (s.h j).ss) ≠ (s.h j).lt + 1
  · rw [if_pos a2]; exact ⟨rfl, h1⟩
  rw [if_neg a2]
  have hs := h.inv.slot (s.h j).lt (Nat.le_refl _) (by rw [h.at_]; exact h.lt)
  unfold Holds at hs
  rw [h.at_, h.loc] at hs
  obtain ⟨b, b1, b2⟩ := hs
  obtain ⟨b', b3, b4⟩ := h.bad
  rw [b1] at b3
  cases b3
  rw [← h.inv.hss j, ← h.at_] at b2
  rw [readSlot_bytes dec (s.setH j { s.h j with lh := lh }) _ _ b b2, b4]
  exact ⟨rfl, h1⟩

theorem prep_loc {c : Cfg} (s : St) (i : Nat) (bs : Bytes) (ok : Bool) : (prep c s i bs ok).loc = s.loc := by
  unfold prep
  dsimp only
  generalize (if isFull c s.hd (s.h i).lt then s.tl else (s.h i).lt) = lt
  by_cases a1 : (s.h i).pend ≠ none
  · rw [if_pos a1]
  rw [if_neg a1]
  by_cases a2 : isFull c (s.setH i { s.h i with lt := lt }).hd lt = true
  · rw [if_pos a2]; rfl
  rw [if_neg a2]
  by_cases a3 : bs.length > spillThreshold
  · rw [if_pos a3]
    by_cases a4 : (s.h i).ss < 48
    · rw [if_pos a4]; rfl
    rw [if_neg a4]
    cases hsp : spill (s.setH i { s.h i with lt := lt }) i bs ok with
    | none =>
      dsimp only
      by_cases a5 : bs.length > (s.h i).ss - 16
      · rw [if_pos a5]; rfl
      · rw [if_neg a5]; rfl
    | some r =>
      obtain ⟨d, s'⟩ := r
      dsimp only
      unfold spill at hsp
      split at hsp
      · simp only [Option.some.injEq, Prod.mk.injEq] at hsp
        rw [← hsp.2]
        rfl
      · cases hsp
  · rw [if_neg a3]
    by_cases a5 : bs.length > (s.h i).ss - 16
    · rw [if_pos a5]; rfl
    · rw [if_neg a5]; rfl

theorem claim_loc {c : Cfg} (s : St) (i : Nat) : (claim c s i).loc = s.loc ∨ ∃ od, (claim c s i).loc = upd s.loc s.hd od := by
  unfold claim
  dsimp only
  generalize (if isFull c s.hd (s.h i).lt then s.tl else (s.h i).lt) = lt
  cases (s.h i).pend with
  | none => exact Or.inl rfl
  | some r =>
    obtain ⟨bs, od⟩ := r
    dsimp only
    by_cases a : isFull c s.hd lt = true
    · rw [if_pos a]; exact Or.inl rfl
    · rw [if_neg a]; exact Or.inr ⟨od, rfl⟩

/-- A message that the subscriber's type cannot decode, in the slot it reads next, is never skipped: as
long as the slot size is not grown every later receive returns nothing, whatever else is published, and
the publishers have room for no more than the rest of the ring. -/
theorem undecodable_blocks (c : Cfg) (dec : Bytes → Option α) (j s0 n k : Nat) (hs0 : 48 ≤ s0) (hs1 : s0 < 2 ^ 32) (hnn : n ≤ 2 ^ 32) (s : St)
    (h : Stuck c dec j s0 n k s) (as : List Act) (hg : ∀ a ∈ as, a.Good (fun b => some b) j) (hss : (run c dec s as).2.ss = s0) :
    got (run c dec s as).1 = [] ∧ Stuck c dec j s0 n k (run c dec s as).2 ∧ (run c dec s as).2.pub.length ≤ k + c.cap := by
  have key : ∀ (as : List Act) (s : St), Stuck c dec j s0 n k s → (∀ a ∈ as, a.Good (fun b => some b) j) → (run c dec s as).2.ss = s0 →
      got (run c dec s as).1 = [] ∧ Stuck c dec j s0 n k (run c dec s as).2 := by
    intro as
    induction as with
    | nil => intro s h _ _; exact ⟨rfl, h⟩
    | cons a as ih =>
      intro s h hg hss
      have hgrow : ∀ (as : List Act) (t : St), Grown s0 t → Grown s0 (run c dec t as).2 := by
        intro as
        induction as with
        | nil => intro t ht; exact ht
        | cons b bs ih2 => intro t ht; exact ih2 _ (grown_step (by omega) ht b)
      have hns : ¬ Grown s0 (step c dec s a).2 := by
        intro hG
        have := (hgrow as _ hG).1
        have e : (run c dec (step c dec s a).2 as).2.ss = s0 := hss
        omega
      have hst : got (step c dec s a).1 = [] ∧ Stuck c dec j s0 n k (step c dec s a).2 := by
        cases a with
        | prep i bs ok =>
          have hga := hg (.prep i bs ok) (by simp)
          have hi : i ≠ j := hga.1
          refine ⟨rfl, ?_⟩
          rcases prep_grown h.inv hs0 hnn hi bs (by rfl) hga.2.2 ok with hI | hG
          · obtain ⟨e1, e2⟩ := prep_pub (c := c) s i j bs ok hi
            have e3 := prep_loc (c := c) s i bs ok
            have e4 := hI.hd
            have e5 := h.inv.hd
            have e6 := h.lt
            refine ⟨hI, e2.trans h.at_, ?_, ?_, ?_⟩
            · show k < (prep c s i bs ok).hd
              rw [e4, e1]; omega
            · show (prep c s i bs ok).loc k = none
              rw [e3]; exact h.loc
            · show ∃ b, (prep c s i bs ok).pub[k]? = some b ∧ _
              rw [e1]; exact h.bad
          · exact absurd hG hns
        | claim i =>
          have hi : i ≠ j := hg (.claim i) (by simp)
          refine ⟨rfl, ?_⟩
          have hI := inv_claim h.inv hs0 hs1 hi
          obtain ⟨⟨l, e1⟩, e2⟩ := claim_pub (c := c) s i j hi
          have e4 := hI.hd
          have e5 := h.inv.hd
          have e6 := h.lt
          refine ⟨hI, e2.trans h.at_, ?_, ?_, ?_⟩
          · show k < (claim c s i).hd
            rw [e4, e1, List.length_append]; omega
          · show (claim c s i).loc k = none
            rcases claim_loc (c := c) s i with e | ⟨od, e⟩
            · rw [e]; exact h.loc
            · rw [e, upd_ne _ _ (by omega)]; exact h.loc
          · show ∃ b, (claim c s i).pub[k]? = some b ∧ _
            rw [e1, List.getElem?_append_left (by omega)]
            exact h.bad
        | recv i =>
          have hi : i = j := hg (.recv i) (by simp)
          subst hi
          have := stuck_recv h
          refine ⟨?_, this.2⟩
          show got [(i, (recv c dec s i).1)] = []
          rw [this.1]; rfl
        | sync i =>
          refine ⟨rfl, ?_⟩
          have hI := inv_sync h.inv i
          have e1 : (sync s i).pub = s.pub ∧ (sync s i).loc = s.loc ∧ (sync s i).hd = s.hd := by
            unfold sync; dsimp only; split <;> exact ⟨rfl, rfl, rfl⟩
          have e2 : ((sync s i).h j).lt = (s.h j).lt := by
            unfold sync
            dsimp only
            split
            · rfl
            · by_cases hij : j = i
              · subst hij
                show (upd s.h j _ j).lt = _
                rw [upd_same]
                exact Nat.max_eq_left h.inv.tl
              · show (upd s.h i _ j).lt = _
                rw [upd_ne _ _ hij]
          refine ⟨hI, e2.trans h.at_, ?_, ?_, ?_⟩
          · show k < (sync s i).hd
            rw [e1.2.2]; exact h.lt
          · show (sync s i).loc k = none
            rw [e1.2.1]; exact h.loc
          · show ∃ b, (sync s i).pub[k]? = some b ∧ _
            rw [e1.1]; exact h.bad
      have := ih _ hst.2 (fun b hb => hg b (List.mem_cons_of_mem _ hb)) hss
      refine ⟨?_, this.2⟩
      show got ((step c dec s a).1 ++ _) = []
      unfold got at *
      rw [List.filterMap_append, hst.1, this.1]
      rfl
  obtain ⟨h1, h2⟩ := key as s h hg hss
  refine ⟨h1, h2, ?_⟩
  have := h2.inv.room
  rw [h2.at_, h2.inv.hd] at this
  exact this

/-- A reader whose type has no value starting with 255. -/
def demoDec (b : Bytes) : Option Bytes := if b.head? = some 255 then none else some (b.take 3)

/-- Non-vacuity: a publisher of another version of the type sends one such message. -/
example : Stuck ⟨2, 1⟩ demoDec 0 64 4 0 (run ⟨2, 1⟩ demoDec (St.init 64 4) [.prep 1 [255, 1] true, .claim 1]).2 := by
  have h := run_inv ⟨2, 1⟩ (fun b : Bytes => some b) 0 64 4 (by omega) (by omega) (by omega) [.prep 1 [255, 1] true, .claim 1]
    (by intro a ha; simp only [List.mem_cons, List.not_mem_nil, or_false] at ha; rcases ha with rfl | rfl <;> simp [Act.Good])
  rcases h with ⟨h, _⟩ | h
  · exact ⟨h, by decide +kernel, by decide +kernel, by decide +kernel, [255, 1], by decide +kernel, by decide +kernel⟩
  · exact absurd h.1 (by decide +kernel)

/-- Two good messages behind it stay where they are. -/
theorem undecodable_blocks_witness :
    got (run ⟨2, 1⟩ demoDec (St.init 64 4) ([.prep 1 [255, 1] true, .claim 1, .prep 1 [1, 2] true, .claim 1, .prep 2 [3] true, .claim 2] ++ List.replicate 5 (.recv 0))).1 = [] := by
  decide +kernel

/-- A large message. -/
def big (b : UInt8) : Bytes := b :: List.replicate 4096 7

/-- A large message that cannot be decoded is returned to the pool all the same, which wipes it: the next
receive decodes zeros and delivers a message nobody sent. -/
theorem undecodable_delivers_blank :
    got (run ⟨2, 1⟩ demoDec (St.init 64 4) [.prep 1 (big 255) true, .claim 1, .recv 0, .recv 0]).1 = [[0, 0, 0]] ∧
      (run ⟨2, 1⟩ demoDec (St.init 64 4) [.prep 1 (big 255) true, .claim 1, .recv 0, .recv 0]).2.pub.map (·.take 3) = [[255, 7, 7]] := by
  decide +kernel

/-! ### Several subscriber handles -/

/-- Once a large message has been received by one handle its bytes are zeros for everyone else. -/
theorem received_is_wiped (s : St) (d : Desc) (b : Bytes) (h : s.pool d.slot = ⟨d.gen, 1, b⟩) (h2 : d.size = b.length) :
    fetch s d = some b ∧ fetch (release s d) d = some (List.replicate b.length 0) := by
  unfold fetch release
  dsimp only
  rw [h]
  dsimp only
  rw [if_neg (by simp), if_neg (by simp), if_pos rfl, h2, List.take_length]
  simp

/-- Two handles of one thread subscribe: both are offered the large message, the second gets zeros. -/
theorem second_subscriber_gets_blank :
    (run ⟨2, 1⟩ demoDec (St.init 64 4) [.prep 1 (big 5) true, .claim 1, .recv 0, .recv 2]).1 = [(0, some [5, 7, 7]), (2, some [0, 0, 0])] := by
  decide +kernel

/-! ### Growth of the slot size -/

/-- A publisher sends a message too large for the slots (60 bytes where 48 fit): its first attempt grows
them, the second is accepted. The subscriber still uses the old size and
never sees the messages behind the first. -/
theorem growth_strands_subscriber :
    let r := run ⟨2, 1⟩ demoDec (St.init 64 4) ([.prep 1 [1] true, .claim 1, .recv 0, .prep 1 (List.replicate 60 9) true, .prep 1 (List.replicate 60 9) true, .claim 1,
      .prep 1 [2] true, .claim 1] ++ List.replicate 6 (.recv 0))
    got r.1 = [[1]] ∧ r.2.pub = [[1], List.replicate 60 9, [2]] ∧ r.2.ss = 128 := by
  decide +kernel

/-- And it takes whatever lies where its own slot would be for a message: here the inside of another
one. -/
theorem growth_delivers_forged :
    let m : Bytes := List.replicate 48 9 ++ le 8 4 ++ le 8 3 ++ [66, 66, 66]
    let r := run ⟨2, 1⟩ demoDec (St.init 64 4) ((List.replicate 3 [.prep 1 [1] true, .claim 1, .recv 0]).flatten ++
      [.prep 1 m true, .prep 1 [1] true, .claim 1, .prep 1 [1] true, .claim 1, .prep 1 m true, .claim 1, .recv 0])
    got r.1 = [[1], [1], [1], [66, 66, 66]] ∧ r.2.pub = [[1], [1], [1], [1], [1], m] := by
  decide +kernel

/-! ### A send refused after its message was stored -/

/-- A pool slot given up by a refused send is never free again. -/
theorem orphan_step {c : Cfg} {dec : Bytes → Option α} {j s0 n : Nat} {s : St} (h : Inv c dec j s0 n s) (hs0 : 48 ≤ s0)
    {p : Nat} (hp : s.own p = .orphan) {a : Act} (ha : a.Good dec j) : (step c dec s a).2.own p = .orphan := by
  cases a with
  | prep i bs ok =>
    show (prep c s i bs ok).own p = _
    unfold prep
    dsimp only
    generalize (if isFull c s.hd (s.h i).lt then s.tl else (s.h i).lt) = lt
    by_cases a1 : (s.h i).pend ≠ none
    · rw [if_pos a1]; exact hp
    rw [if_neg a1]
    by_cases a2 : isFull c (s.setH i { s.h i with lt := lt }).hd lt = true
    · rw [if_pos a2]; exact hp
    rw [if_neg a2]
    by_cases a3 : bs.length > spillThreshold
    · rw [if_pos a3]
      by_cases a4 : (s.h i).ss < 48
      · rw [if_pos a4]; exact hp
      rw [if_neg a4]
      cases hsp : spill (s.setH i { s.h i with lt := lt }) i bs ok with
      | none =>
        dsimp only
        by_cases a5 : bs.length > (s.h i).ss - 16
        · rw [if_pos a5]; exact hp
        · rw [if_neg a5]; exact hp
      | some r =>
        obtain ⟨d, s'⟩ := r
        dsimp only
        unfold spill at hsp
        split at hsp
        · rename_i q rest hfree
          simp only [Option.some.injEq, Prod.mk.injEq] at hsp
          rw [← hsp.2]
          show upd s.own q (.pend i) p = _
          have hq : s.own q = .free := (h.fr q).mpr (by have : s.free = q :: rest := hfree; rw [this]; simp)
          rw [upd_ne _ _ (by intro e; rw [e, hq] at hp; cases hp)]
          exact hp
        · cases hsp
    · rw [if_neg a3]
      by_cases a5 : bs.length > (s.h i).ss - 16
      · rw [if_pos a5]; exact hp
      · rw [if_neg a5]; exact hp
  | claim i =>
    show (claim c s i).own p = _
    unfold claim
    dsimp only
    generalize (if isFull c s.hd (s.h i).lt then s.tl else (s.h i).lt) = lt
    cases hpe : (s.h i).pend with
    | none => exact hp
    | some r =>
      obtain ⟨bs, od⟩ := r
      dsimp only
      have key : ∀ w, ownTo s.own od w p = .orphan := by
        intro w
        unfold ownTo
        cases od with
        | none => exact hp
        | some d =>
          dsimp only
          have hd := (h.psp i bs d hpe).2.2.1
          rw [upd_ne _ _ (by intro e; rw [e, hd] at hp; cases hp)]
          exact hp
      by_cases a : isFull c s.hd lt = true
      · rw [if_pos a]; exact key _
      · rw [if_neg a]; exact key _
  | recv i =>
    cases ha
    show (recv c dec s j).2.own p = _
    unfold recv
    dsimp only
    generalize hlh : (if (s.h j).lh = (s.h j).lt then s.hd else (s.h j).lh) = lh
    by_cases a1 : lh = (s.h j).lt
    · rw [if_pos a1]; exact hp
    rw [if_neg a1]
    by_cases a2 : readyAt (s.setH j { s.h j with lh := lh }).mem (c.idx (s.h j).lt * (s.h j).ss) ≠ (s.h j).lt + 1
    · rw [if_pos a2]; exact hp
    rw [if_neg a2]
    have hlt : (s.h j).lt < s.hd := by
      have h1 := h.ltlh
      have h2 := h.lhhd
      by_cases hq : (s.h j).lh = (s.h j).lt
      · rw [if_pos hq] at hlh; omega
      · rw [if_neg hq] at hlh; omega
    have hsl := h.slot (s.h j).lt (Nat.le_refl _) hlt
    unfold Holds at hsl
    rw [← h.hss j] at hsl
    have h2 : (readSlot dec (s.setH j { s.h j with lh := lh }) (c.idx (s.h j).lt * (s.h j).ss) (s.h j).ss).2.own p = .orphan := by
      cases hl : s.loc (s.h j).lt with
      | none =>
        rw [hl] at hsl
        obtain ⟨b, _, b2⟩ := hsl
        rw [readSlot_bytes dec (s.setH j { s.h j with lh := lh }) _ _ b b2]
        exact hp
      | some d =>
        rw [hl] at hsl
        obtain ⟨b1, b, _, b3, b4, b5⟩ := hsl
        rw [readSlot_spill dec (s.setH j { s.h j with lh := lh }) _ _ d b b1 b3 b5]
        show upd s.own d.slot .free p = _
        rw [upd_ne _ _ (by intro e; rw [e, b4] at hp; cases hp)]
        exact hp
    cases hr : readSlot dec (s.setH j { s.h j with lh := lh }) (c.idx (s.h j).lt * (s.h j).ss) (s.h j).ss with
    | mk o s' =>
      rw [hr] at h2
      cases o with
      | none => exact h2
      | some v => exact h2
  | sync i =>
    show (sync s i).own p = _
    unfold sync
    dsimp only
    split <;> exact hp

/-- Two publishers: both store a large message, one takes the last place in the ring, the other's send
is refused. When everything has been read the pool slot of the refused one is still not free. -/
theorem refused_send_leaks :
    let r := run ⟨0, 1⟩ demoDec (St.init 64 4) [.prep 1 (big 1) true, .prep 2 (big 2) true, .claim 1, .claim 2, .recv 0]
    got r.1 = [[1, 7, 7]] ∧ r.2.pub.length = 1 ∧ r.2.free = [0, 2, 3] ∧ r.2.own 1 = .orphan ∧ (r.2.h 1).pend = none ∧ (r.2.h 2).pend = none := by
  decide +kernel

/-- Every such refusal costs a slot: after four of them no large message can be stored. -/
theorem refused_sends_exhaust :
    let one : List Act := [.prep 1 [1] true, .prep 2 (big 2) true, .claim 1, .claim 2, .recv 0]
    let r := run ⟨0, 1⟩ demoDec (St.init 64 4) (List.replicate 4 one).flatten
    r.2.free = [] ∧ got r.1 = [[1], [1], [1], [1]] := by
  decide +kernel

/-- Non-vacuity of the order and storage theorems: small and large messages of one publisher, through a
ring of two and a pool of two, all received, pool free again. -/
example :
    let as : List Act := [.prep 1 [1, 2] true, .claim 1, .prep 1 (big 9) true, .claim 1, .recv 0, .recv 0, .prep 1 (big 8) true, .claim 1, .recv 0, .sync 0]
    let r := run ⟨1, 1⟩ demoDec (St.init 64 2) as
    got r.1 = [[1, 2], [9, 7, 7], [8, 7, 7]] ∧ r.2.ss = 64 ∧ r.2.free = [0, 1] ∧ r.2.pub.length = 3 := by
  decide +kernel

example : ∀ a ∈ ([.prep 1 [1, 2] true, .claim 1, .recv 0, .sync 0] : List Act), a.Good demoDec 0 ∧ a.By 1 := by
  intro a ha
  simp only [List.mem_cons, List.not_mem_nil, or_false] at ha
  rcases ha with rfl | rfl | rfl | rfl <;> simp [Act.Good, Act.By, demoDec]

end Horus.Serde
