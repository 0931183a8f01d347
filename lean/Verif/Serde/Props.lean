import Verif.Serde.Slot
import Mathlib.Data.List.Induction
/-
One subscriber handle of a serialized topic, any publishers: exact order, every byte, and the storage of
large messages is given back.
-/
namespace Horus.Serde
open Horus.Ring

variable {α : Type}

/-- A use of the topic in which handle `j` subscribes and the others publish, and what is published are
serialized values of the topic's type: they deserialize (and are shorter than 2^64 bytes). -/
def Act.Good (dec : Bytes → Option α) (j : Nat) : Act → Prop
  | .prep i bs _ => i ≠ j ∧ (dec bs).isSome ∧ bs.length < 2 ^ 64
  | .claim i => i ≠ j
  | .recv i => i = j
  | .sync _ => True

/-- What the subscriber got. -/
def got (o : List (Nat × Option α)) : List α := o.filterMap (·.2)

/-- What slot contents stand for message `k`. -/
def Holds (s : St) (k : Nat) (f : Found) : Prop :=
  match s.loc k with
  | none => ∃ bs, s.pub[k]? = some bs ∧ f = .bytes bs
  | some d => f = .spill d ∧ ∃ bs, s.pub[k]? = some bs ∧ s.pool d.slot = ⟨d.gen, 1, bs⟩ ∧ s.own d.slot = .msg k ∧ d.size = bs.length

/-- The invariant while the slot size is the initial one. -/
structure Inv (c : Cfg) (dec : Bytes → Option α) (j s0 n : Nat) (s : St) : Prop where
  ss : s.ss = s0
  hss : ∀ i, (s.h i).ss = s0
  hd : s.hd = s.pub.length
  ltlh : (s.h j).lt ≤ (s.h j).lh
  lhhd : (s.h j).lh ≤ s.hd
  room : s.hd ≤ (s.h j).lt + c.cap
  tl : s.tl ≤ (s.h j).lt
  plt : ∀ i, i ≠ j → (s.h i).lt ≤ s.tl
  jp : (s.h j).pend = none
  ready : ∀ k, (s.h j).lt ≤ k → k < s.hd → readyAt s.mem (c.idx k * s0) = (k + 1) % 2 ^ 64
  slot : ∀ k, (s.h j).lt ≤ k → k < s.hd → Holds s k (findIn s.mem (c.idx k * s0) s0)
  good : ∀ b ∈ s.pub, (dec b).isSome
  pgood : ∀ i bs od, (s.h i).pend = some (bs, od) → (dec bs).isSome
  pin : ∀ i bs, (s.h i).pend = some (bs, none) → bs.length ≤ s0 - 16
  psp : ∀ i bs d, (s.h i).pend = some (bs, some d) →
    d.InRange ∧ s.pool d.slot = ⟨d.gen, 1, bs⟩ ∧ s.own d.slot = .pend i ∧ d.size = bs.length
  fr : ∀ p, s.own p = .free ↔ p ∈ s.free
  nd : s.free.Nodup
  frn : ∀ p ∈ s.free, p < n
  om : ∀ p k, s.own p = .msg k → (s.h j).lt ≤ k ∧ k < s.hd ∧ ∃ d, s.loc k = some d ∧ d.slot = p
  op : ∀ p i, s.own p = .pend i → ∃ bs d, (s.h i).pend = some (bs, some d) ∧ d.slot = p
  bound : ∀ p, n ≤ p → s.own p = .orphan

theorem inv_init (c : Cfg) (dec : Bytes → Option α) (j s0 n : Nat) : Inv c dec j s0 n (St.init s0 n) where
  ss := rfl
  hss _ := rfl
  hd := rfl
  ltlh := Nat.le_refl _
  lhhd := Nat.le_refl _
  room := by simp [St.init]
  tl := Nat.le_refl _
  plt _ _ := Nat.le_refl _
  jp := rfl
  ready k _ h := by simp [St.init] at h
  slot k _ h := by simp [St.init] at h
  good b h := by simp [St.init] at h
  pgood i bs od h := by simp [St.init] at h
  pin i bs h := by simp [St.init] at h
  psp i bs d h := by simp [St.init] at h
  fr p := by simp [St.init]
  nd := by simp [St.init, List.nodup_range]
  frn p h := by simpa [St.init] using h
  om p k h := by simp only [St.init] at h; split at h <;> simp at h
  op p k h := by simp only [St.init] at h; split at h <;> simp at h
  bound p h := by simp only [St.init]; rw [if_neg (by omega)]

theorem isFull_false {c : Cfg} {h t : Nat} (e : isFull c h t = false) : t ≤ h ∧ h < t + c.cap := by
  unfold isFull at e
  simp only [Bool.or_eq_false_iff, decide_eq_false_iff_not] at e
  omega

/-- The publisher's idea of the tail only moves up to the shared one. -/
theorem inv_setlt {c : Cfg} {dec : Bytes → Option α} {j s0 n : Nat} {s : St} (h : Inv c dec j s0 n s) {i : Nat} (hi : i ≠ j)
    (lh lt : Nat) (hlt : lt ≤ s.tl) : Inv c dec j s0 n (s.setH i { s.h i with lt := lt, lh := lh }) := by
  have hj : (s.setH i { s.h i with lt := lt, lh := lh }).h j = s.h j := upd_ne _ _ (Ne.symm hi)
  have hp : ∀ k, ((s.setH i { s.h i with lt := lt, lh := lh }).h k).pend = (s.h k).pend := by
    intro k
    by_cases hk : k = i
    · subst hk; simp [St.setH]
    · simp [St.setH, upd_ne _ _ hk]
  have hs : ∀ k, ((s.setH i { s.h i with lt := lt, lh := lh }).h k).ss = (s.h k).ss := by
    intro k
    by_cases hk : k = i
    · subst hk; simp [St.setH]
    · simp [St.setH, upd_ne _ _ hk]
  refine ⟨h.ss, fun k => (hs k).trans (h.hss k), h.hd, ?_, ?_, ?_, ?_, ?_, ?_, ?_, ?_, h.good, ?_, ?_, ?_, h.fr, h.nd, h.frn, ?_, ?_, h.bound⟩
  · rw [hj]; exact h.ltlh
  · rw [hj]; exact h.lhhd
  · rw [hj]; exact h.room
  · rw [hj]; exact h.tl
  · intro k hk
    by_cases hki : k = i
    · subst hki; simpa [St.setH] using hlt
    · have : (s.setH i { s.h i with lt := lt, lh := lh }).h k = s.h k := upd_ne _ _ hki
      rw [this]; exact h.plt k hk
  · rw [hp]; exact h.jp
  · rw [hj]; exact h.ready
  · rw [hj]; exact h.slot
  · intro k bs od hk; rw [hp] at hk; exact h.pgood k bs od hk
  · intro k bs hk; rw [hp] at hk; exact h.pin k bs hk
  · intro k bs d hk; rw [hp] at hk; exact h.psp k bs d hk
  · rw [hj]; exact h.om
  · intro p k hk
    obtain ⟨bs, d, h1, h2⟩ := h.op p k hk
    exact ⟨bs, d, by rw [hp]; exact h1, h2⟩

/-- A message that needs no pool slot becomes pending. -/
theorem inv_pend {c : Cfg} {dec : Bytes → Option α} {j s0 n : Nat} {s : St} (h : Inv c dec j s0 n s) {i : Nat} (hi : i ≠ j)
    (hn : (s.h i).pend = none) (bs : Bytes) (hb : (dec bs).isSome) (hl : bs.length ≤ s0 - 16) :
    Inv c dec j s0 n (s.setH i { s.h i with pend := some (bs, none) }) := by
  have hj : (s.setH i { s.h i with pend := some (bs, none) }).h j = s.h j := upd_ne _ _ (Ne.symm hi)
  have he : (s.setH i { s.h i with pend := some (bs, none) }).h i = { s.h i with pend := some (bs, none) } := upd_same _ _ _
  have ho : ∀ k, k ≠ i → (s.setH i { s.h i with pend := some (bs, none) }).h k = s.h k := fun k hk => upd_ne _ _ hk
  refine ⟨h.ss, ?_, h.hd, ?_, ?_, ?_, ?_, ?_, ?_, ?_, ?_, h.good, ?_, ?_, ?_, h.fr, h.nd, h.frn, ?_, ?_, h.bound⟩
  · intro k
    by_cases hk : k = i
    · subst hk; rw [he]; exact h.hss k
    · rw [ho k hk]; exact h.hss k
  · rw [hj]; exact h.ltlh
  · rw [hj]; exact h.lhhd
  · rw [hj]; exact h.room
  · rw [hj]; exact h.tl
  · intro k hk
    by_cases hki : k = i
    · subst hki; rw [he]; exact h.plt k hk
    · rw [ho k hki]; exact h.plt k hk
  · rw [hj]; exact h.jp
  · rw [hj]; exact h.ready
  · rw [hj]; exact h.slot
  · intro k b od hk
    by_cases hki : k = i
    · subst hki; rw [he] at hk; simp at hk; rw [← hk.1]; exact hb
    · rw [ho k hki] at hk; exact h.pgood k b od hk
  · intro k b hk
    by_cases hki : k = i
    · subst hki; rw [he] at hk; simp at hk; rw [← hk]; exact hl
    · rw [ho k hki] at hk; exact h.pin k b hk
  · intro k b d hk
    by_cases hki : k = i
    · subst hki; rw [he] at hk; simp at hk
    · rw [ho k hki] at hk; exact h.psp k b d hk
  · rw [hj]; exact h.om
  · intro p k hk
    obtain ⟨b, d, h1, h2⟩ := h.op p k hk
    have hki : k ≠ i := by intro e; subst e; rw [hn] at h1; cases h1
    exact ⟨b, d, by rw [ho k hki]; exact h1, h2⟩

/-- A message is put into a pool slot. -/
theorem inv_spill {c : Cfg} {dec : Bytes → Option α} {j s0 n : Nat} {s : St} (h : Inv c dec j s0 n s) {i : Nat} (hi : i ≠ j)
    (hnn : n ≤ 2 ^ 32) (hn : (s.h i).pend = none) (bs : Bytes) (hb : (dec bs).isSome) (hl : bs.length < 2 ^ 64) (ok : Bool) (d : Desc) (s' : St)
    (e : spill s i bs ok = some (d, s')) : Inv c dec j s0 n (s'.setH i { s.h i with pend := some (bs, some d) }) := by
  unfold spill at e
  cases ok with
  | false => simp at e
  | true =>
  cases hf : s.free with
  | nil => rw [hf] at e; simp at e
  | cons p rest =>
  rw [hf] at e
  simp only [Option.some.injEq, Prod.mk.injEq] at e
  obtain ⟨hd, hs'⟩ := e
  have hpf : s.own p = .free := (h.fr p).mpr (by rw [hf]; simp)
  have hpn : p < n := h.frn p (by rw [hf]; simp)
  have hnd : p ∉ rest ∧ rest.Nodup := by have := h.nd; rw [hf] at this; simpa using this
  have hds : d.slot = p := by rw [← hd]
  have hdg : d.gen = ((s.pool p).gen + 1) % 2 ^ 64 := by rw [← hd]
  have hdz : d.size = bs.length := by rw [← hd]
  have hpool : s'.pool = upd s.pool p ⟨((s.pool p).gen + 1) % 2 ^ 64, 1, bs⟩ := by rw [← hs']
  have hown : s'.own = upd s.own p (.pend i) := by rw [← hs']
  have hfree : s'.free = rest := by rw [← hs']
  have hh : s'.h = s.h := by rw [← hs']
  have hhd : s'.hd = s.hd := by rw [← hs']
  have htl : s'.tl = s.tl := by rw [← hs']
  have hpub : s'.pub = s.pub := by rw [← hs']
  have hloc : s'.loc = s.loc := by rw [← hs']
  have hmem : s'.mem = s.mem := by rw [← hs']
  have hsss : s'.ss = s.ss := by rw [← hs']
  have he : (s'.setH i { s.h i with pend := some (bs, some d) }).h i = { s.h i with pend := some (bs, some d) } := upd_same _ _ _
  have ho : ∀ k, k ≠ i → (s'.setH i { s.h i with pend := some (bs, some d) }).h k = s.h k := by
    intro k hk
    have : (s'.setH i { s.h i with pend := some (bs, some d) }).h k = s'.h k := upd_ne _ _ hk
    rw [this, hh]
  have hj := ho j (Ne.symm hi)
  refine ⟨hsss.trans h.ss, ?_, ?_, ?_, ?_, ?_, ?_, ?_, ?_, ?_, ?_, ?_, ?_, ?_, ?_, ?_, ?_, ?_, ?_, ?_, ?_⟩
  · intro k
    by_cases hk : k = i
    · subst hk; rw [he]; exact h.hss k
    · rw [ho k hk]; exact h.hss k
  · show s'.hd = s'.pub.length
    rw [hhd, hpub]; exact h.hd
  · rw [hj]; exact h.ltlh
  · rw [hj]; show _ ≤ s'.hd; rw [hhd]; exact h.lhhd
  · rw [hj]; show s'.hd ≤ _; rw [hhd]; exact h.room
  · rw [hj]; show s'.tl ≤ _; rw [htl]; exact h.tl
  · intro k hk
    show _ ≤ s'.tl
    rw [htl]
    by_cases hki : k = i
    · subst hki; rw [he]; exact h.plt k hk
    · rw [ho k hki]; exact h.plt k hk
  · rw [hj]; exact h.jp
  · intro k hk1 hk2
    rw [hj] at hk1
    have hk2' : k < s'.hd := hk2
    rw [hhd] at hk2'
    show readyAt s'.mem _ = _
    rw [hmem]; exact h.ready k hk1 hk2'
  · intro k hk1 hk2
    rw [hj] at hk1
    have hk2' : k < s'.hd := hk2
    rw [hhd] at hk2'
    have := h.slot k hk1 hk2'
    unfold Holds at this ⊢
    show match s'.loc k with
      | none => ∃ b, s'.pub[k]? = some b ∧ findIn s'.mem _ _ = .bytes b
      | some d => findIn s'.mem _ _ = .spill d ∧ ∃ b, s'.pub[k]? = some b ∧ s'.pool d.slot = ⟨d.gen, 1, b⟩ ∧ s'.own d.slot = .msg k ∧ d.size = b.length
    rw [hloc, hpub, hmem, hpool, hown]
    cases hl : s.loc k with
    | none => rw [hl] at this; exact this
    | some d' =>
      rw [hl] at this
      obtain ⟨a1, b, a2, a3, a4, a5⟩ := this
      have hne : d'.slot ≠ p := by intro e; rw [e, hpf] at a4; cases a4
      exact ⟨a1, b, a2, by rw [upd_ne _ _ hne]; exact a3, by rw [upd_ne _ _ hne]; exact a4, a5⟩
  · intro b hb'
    exact h.good b (by rw [← hpub]; exact hb')
  · intro k b od hk
    by_cases hki : k = i
    · subst hki; rw [he] at hk; simp at hk; rw [← hk.1]; exact hb
    · rw [ho k hki] at hk; exact h.pgood k b od hk
  · intro k b hk
    by_cases hki : k = i
    · subst hki; rw [he] at hk; simp at hk
    · rw [ho k hki] at hk; exact h.pin k b hk
  · intro k b d' hk
    show d'.InRange ∧ s'.pool d'.slot = _ ∧ s'.own d'.slot = _ ∧ _
    rw [hpool, hown]
    by_cases hki : k = i
    · subst hki
      rw [he] at hk
      simp only [Option.some.injEq, Prod.mk.injEq] at hk
      obtain ⟨e1, e2⟩ := hk
      subst e1
      subst e2
      refine ⟨?_, ?_, ?_, hdz⟩
      · rw [← hd]
        refine ⟨by show 1 < _; omega, ?_, Nat.mod_lt _ (by omega), ?_, hl⟩
        · show p < _; omega
        · show p < _; omega
      · rw [hds, upd_same, hdg]
      · rw [hds, upd_same]
    · rw [ho k hki] at hk
      obtain ⟨a1, a2, a3, a4⟩ := h.psp k b d' hk
      have hne : d'.slot ≠ p := by intro e; rw [e, hpf] at a3; cases a3
      exact ⟨a1, by rw [upd_ne _ _ hne]; exact a2, by rw [upd_ne _ _ hne]; exact a3, a4⟩
  · intro q
    show s'.own q = .free ↔ q ∈ s'.free
    rw [hown, hfree]
    by_cases hq : q = p
    · subst hq; rw [upd_same]; simp [hnd.1]
    · rw [upd_ne _ _ hq, h.fr q, hf]; simp [hq]
  · show s'.free.Nodup
    rw [hfree]; exact hnd.2
  · intro q hq
    have hq' : q ∈ s'.free := hq
    rw [hfree] at hq'
    exact h.frn q (by rw [hf]; exact List.mem_cons_of_mem _ hq')
  · intro q k hq
    have hq' : s'.own q = .msg k := hq
    rw [hown] at hq'
    have hne : q ≠ p := by intro e; subst e; rw [upd_same] at hq'; cases hq'
    rw [upd_ne _ _ hne] at hq'
    obtain ⟨a1, a2, a3⟩ := h.om q k hq'
    rw [hj]
    exact ⟨a1, by show k < s'.hd; rw [hhd]; exact a2, by show ∃ d, s'.loc k = _ ∧ _; rw [hloc]; exact a3⟩
  · intro q k hq
    have hq' : s'.own q = .pend k := hq
    rw [hown] at hq'
    by_cases hne : q = p
    · subst hne
      rw [upd_same] at hq'
      cases hq'
      exact ⟨bs, d, by rw [he], hds⟩
    · rw [upd_ne _ _ hne] at hq'
      obtain ⟨b, d', h1, h2⟩ := h.op q k hq'
      have hki : k ≠ i := by intro e; subst e; rw [hn] at h1; cases h1
      exact ⟨b, d', by rw [ho k hki]; exact h1, h2⟩
  · intro q hq
    show s'.own q = _
    rw [hown, upd_ne _ _ (by omega)]
    exact h.bound q hq

theorem setH_setH (s : St) (i : Nat) (x y : Hnd) : (s.setH i x).setH i y = s.setH i y := by
  unfold St.setH
  simp only [St.mk.injEq, true_and, and_true]
  funext k
  by_cases h : k = i
  · subst h; simp
  · simp [upd_ne _ _ h]

/-- A send up to the claim, unless it grows the slots. -/
theorem inv_prep {c : Cfg} {dec : Bytes → Option α} {j s0 n : Nat} {s : St} (h : Inv c dec j s0 n s) (hs0 : 48 ≤ s0) (hnn : n ≤ 2 ^ 32)
    {i : Nat} (hi : i ≠ j) (bs : Bytes) (hb : (dec bs).isSome) (hl : bs.length < 2 ^ 64) (ok : Bool) :
    Inv c dec j s0 n (prep c s i bs ok) ∨ s0 < (prep c s i bs ok).ss := by
  unfold prep
  dsimp only
  by_cases hp : (s.h i).pend = none
  swap
  · rw [if_pos hp]; exact Or.inl h
  rw [if_neg (by simpa using hp)]
  generalize hlt : (if isFull c s.hd (s.h i).lt then s.tl else (s.h i).lt) = lt
  have hlt' : lt ≤ s.tl := by
    rw [← hlt]
    by_cases hf : isFull c s.hd (s.h i).lt
    · rw [if_pos hf]
    · rw [if_neg hf]; exact h.plt i hi
  have h1 := inv_setlt h hi (s.h i).lh lt hlt'
  have hpe : ((s.setH i { s.h i with lt := lt }).h i) = { s.h i with lt := lt } := upd_same _ _ _
  have hg : s0 < (grow (s.setH i { s.h i with lt := lt }) i bs.length).ss := by
    unfold grow
    dsimp only
    rw [hpe]
    have := h.hss i
    show s0 < max _ ((s.h i).ss * 2)
    omega
  have hin : bs.length ≤ s0 - 16 →
      Inv c dec j s0 n ((s.setH i { s.h i with lt := lt }).setH i { s.h i with lt := lt, pend := some (bs, none) }) := by
    intro hle
    have := inv_pend h1 hi (by rw [hpe]; exact hp) bs hb hle
    rw [hpe] at this
    exact this
  by_cases hfull : isFull c (s.setH i { s.h i with lt := lt }).hd lt = true
  · rw [if_pos hfull]; exact Or.inl h1
  rw [if_neg hfull]
  have hsi := h.hss i
  by_cases hbig : bs.length > spillThreshold
  · rw [if_pos hbig, if_neg (by omega)]
    cases hsp : spill (s.setH i { s.h i with lt := lt }) i bs ok with
    | some r =>
      obtain ⟨d, s'⟩ := r
      left
      have := inv_spill h1 hi hnn (by rw [hpe]; exact hp) bs hb hl ok d s' hsp
      rw [hpe] at this
      exact this
    | none =>
      dsimp only
      by_cases hx : bs.length > (s.h i).ss - 16
      · rw [if_pos hx]; exact Or.inr hg
      · rw [if_neg hx]; exact Or.inl (hin (by omega))
  · rw [if_neg hbig]
    by_cases hx : bs.length > (s.h i).ss - 16
    · rw [if_pos hx]; exact Or.inr hg
    · rw [if_neg hx]; exact Or.inl (hin (by omega))

/-- The claim. -/
theorem inv_claim {c : Cfg} {dec : Bytes → Option α} {j s0 n : Nat} {s : St} (h : Inv c dec j s0 n s) (hs0 : 48 ≤ s0) (hs1 : s0 < 2 ^ 32)
    {i : Nat} (hi : i ≠ j) : Inv c dec j s0 n (claim c s i) := by
  unfold claim
  dsimp only
  cases hp : (s.h i).pend with
  | none => exact h
  | some r =>
  obtain ⟨bs, od⟩ := r
  dsimp only
  generalize hlt : (if isFull c s.hd (s.h i).lt then s.tl else (s.h i).lt) = lt
  have hlt' : lt ≤ s.tl := by
    rw [← hlt]
    by_cases hf : isFull c s.hd (s.h i).lt
    · rw [if_pos hf]
    · rw [if_neg hf]; exact h.plt i hi
  have hdis : ∀ k b d, (s.h k).pend = some (b, some d) → k ≠ i → ∀ d', od = some d' → d.slot ≠ d'.slot := by
    intro k b d hk hki d' hd' e
    have a := (h.psp k b d hk).2.2.1
    have b' := (h.psp i bs d' (by rw [hp, hd'])).2.2.1
    rw [e, b'] at a
    cases a
    exact hki rfl
  have hmsg : ∀ p k, s.own p = .msg k → ∀ d', od = some d' → p ≠ d'.slot := by
    intro p k hk d' hd' e
    have b' := (h.psp i bs d' (by rw [hp, hd'])).2.2.1
    rw [e, b'] at hk
    cases hk
  have hfre : ∀ d', od = some d' → s.own d'.slot = .pend i := fun d' hd' => (h.psp i bs d' (by rw [hp, hd'])).2.2.1
  by_cases hfull : isFull c s.hd lt = true
  · rw [if_pos hfull]
    have he : (upd s.h i { s.h i with lt := lt, pend := none }) i = { s.h i with lt := lt, pend := none } := upd_same _ _ _
    have ho : ∀ k, k ≠ i → (upd s.h i { s.h i with lt := lt, pend := none }) k = s.h k := fun k hk => upd_ne _ _ hk
    have hj := ho j (Ne.symm hi)
    generalize hown : ownTo s.own od .orphan = own'
    have hown1 : ∀ p, (∀ d, od = some d → p ≠ d.slot) → own' p = s.own p := by
      intro p hpd
      rw [← hown]
      cases od with
      | none => rfl
      | some d => exact upd_ne _ _ (hpd d rfl)
    have hown2 : ∀ d, od = some d → own' d.slot = .orphan := by
      intro d hd
      rw [← hown, hd]
      exact upd_same _ _ _
    have hback : ∀ p, own' p ≠ .orphan → own' p = s.own p := by
      intro p hpo
      refine hown1 p ?_
      intro d hd e
      subst e
      exact hpo (hown2 d hd)
    refine ⟨h.ss, ?_, h.hd, ?_, ?_, ?_, ?_, ?_, ?_, ?_, ?_, h.good, ?_, ?_, ?_, ?_, h.nd, h.frn, ?_, ?_, ?_⟩
    · intro k
      show (upd s.h i _ k).ss = s0
      by_cases hk : k = i
      · subst hk; rw [he]; exact h.hss k
      · rw [ho k hk]; exact h.hss k
    · show (upd s.h i _ j).lt ≤ (upd s.h i _ j).lh; rw [hj]; exact h.ltlh
    · show (upd s.h i _ j).lh ≤ _; rw [hj]; exact h.lhhd
    · show _ ≤ (upd s.h i _ j).lt + _; rw [hj]; exact h.room
    · show _ ≤ (upd s.h i _ j).lt; rw [hj]; exact h.tl
    · intro k hk
      show (upd s.h i _ k).lt ≤ s.tl
      by_cases hki : k = i
      · subst hki; rw [he]; exact hlt'
      · rw [ho k hki]; exact h.plt k hk
    · show (upd s.h i _ j).pend = none; rw [hj]; exact h.jp
    · intro k hk1 hk2
      have hk1' : (upd s.h i { s.h i with lt := lt, pend := none } j).lt ≤ k := hk1
      rw [hj] at hk1'
      exact h.ready k hk1' hk2
    · intro k hk1 hk2
      have hk1' : (upd s.h i { s.h i with lt := lt, pend := none } j).lt ≤ k := hk1
      rw [hj] at hk1'
      have := h.slot k hk1' hk2
      unfold Holds at this ⊢
      show match s.loc k with
        | none => ∃ b, s.pub[k]? = some b ∧ findIn s.mem _ _ = .bytes b
        | some d => findIn s.mem _ _ = .spill d ∧ ∃ b, s.pub[k]? = some b ∧ s.pool d.slot = ⟨d.gen, 1, b⟩ ∧ own' d.slot = .msg k ∧ d.size = b.length
      cases hl : s.loc k with
      | none => rw [hl] at this; exact this
      | some d' =>
        rw [hl] at this
        obtain ⟨a1, b, a2, a3, a4, a5⟩ := this
        exact ⟨a1, b, a2, a3, by rw [hown1 _ (hmsg _ _ a4)]; exact a4, a5⟩
    · intro k b od' hk
      have hk' : (upd s.h i { s.h i with lt := lt, pend := none } k).pend = some (b, od') := hk
      by_cases hki : k = i
      · subst hki; rw [he] at hk'; cases hk'
      · rw [ho k hki] at hk'; exact h.pgood k b od' hk'
    · intro k b hk
      have hk' : (upd s.h i { s.h i with lt := lt, pend := none } k).pend = some (b, none) := hk
      by_cases hki : k = i
      · subst hki; rw [he] at hk'; cases hk'
      · rw [ho k hki] at hk'; exact h.pin k b hk'
    · intro k b d hk
      have hk' : (upd s.h i { s.h i with lt := lt, pend := none } k).pend = some (b, some d) := hk
      by_cases hki : k = i
      · subst hki; rw [he] at hk'; cases hk'
      · rw [ho k hki] at hk'
        obtain ⟨a1, a2, a3, a4⟩ := h.psp k b d hk'
        refine ⟨a1, a2, ?_, a4⟩
        show own' d.slot = _
        rw [hown1 _ (hdis k b d hk' hki)]; exact a3
    · intro p
      show own' p = .free ↔ p ∈ s.free
      rw [← h.fr p]
      constructor
      · intro e; rw [← hback p (by rw [e]; simp)]; exact e
      · intro e
        rw [hown1 p]
        · exact e
        · intro d hd e'; rw [e', hfre d hd] at e; cases e
    · intro p k hk
      have hk' : own' p = .msg k := hk
      rw [hback p (by rw [hk']; simp)] at hk'
      show (upd s.h i _ j).lt ≤ k ∧ _
      rw [hj]
      exact h.om p k hk'
    · intro p k hk
      have hk' : own' p = .pend k := hk
      have hpo := hback p (by rw [hk']; simp)
      rw [hpo] at hk'
      obtain ⟨b, d, h1, h2⟩ := h.op p k hk'
      have hki : k ≠ i := by
        intro e
        subst e
        rw [hp] at h1
        simp only [Option.some.injEq, Prod.mk.injEq] at h1
        have := hown2 d h1.2
        rw [h2, hpo, hk'] at this
        cases this
      exact ⟨b, d, by show (upd s.h i _ k).pend = _; rw [ho k hki]; exact h1, h2⟩
    · intro p hpn
      show own' p = _
      rw [hown1 p]
      · exact h.bound p hpn
      · intro d hd e
        have := h.bound p hpn
        rw [e, hfre d hd] at this
        cases this
  · rw [if_neg hfull]
    have hnf : isFull c s.hd lt = false := by simpa using hfull
    obtain ⟨hf1, hf2⟩ := isFull_false hnf
    have htl := h.tl
    have he : (upd s.h i { s.h i with lt := lt, lh := s.hd + 1, pend := none }) i = { s.h i with lt := lt, lh := s.hd + 1, pend := none } := upd_same _ _ _
    have ho : ∀ k, k ≠ i → (upd s.h i { s.h i with lt := lt, lh := s.hd + 1, pend := none }) k = s.h k := fun k hk => upd_ne _ _ hk
    have hj := ho j (Ne.symm hi)
    generalize hown : ownTo s.own od (.msg s.hd) = own'
    have hown1 : ∀ p, (∀ d, od = some d → p ≠ d.slot) → own' p = s.own p := by
      intro p hpd
      rw [← hown]
      cases od with
      | none => rfl
      | some d => exact upd_ne _ _ (hpd d rfl)
    have hown2 : ∀ d, od = some d → own' d.slot = .msg s.hd := by
      intro d hd
      rw [← hown, hd]
      exact upd_same _ _ _
    have hback : ∀ p, own' p ≠ .msg s.hd → own' p = s.own p := by
      intro p hpo
      refine hown1 p ?_
      intro d hd e
      subst e
      exact hpo (hown2 d hd)
    have hxs : (s.h i).ss = s0 := h.hss i
    have hblen : 8 + (bodyOf bs od).length ≤ s0 := by
      cases od with
      | none => have := h.pin i bs hp; simp [bodyOf, inlineBody_length]; omega
      | some d => simp [bodyOf, desc_length]; omega
    refine ⟨h.ss, ?_, ?_, ?_, ?_, ?_, ?_, ?_, ?_, ?_, ?_, ?_, ?_, ?_, ?_, ?_, h.nd, h.frn, ?_, ?_, ?_⟩
    · intro k
      show (upd s.h i _ k).ss = s0
      by_cases hk : k = i
      · subst hk; rw [he]; exact h.hss k
      · rw [ho k hk]; exact h.hss k
    · show s.hd + 1 = (s.pub ++ [bs]).length; rw [h.hd]; simp
    · show (upd s.h i _ j).lt ≤ (upd s.h i _ j).lh; rw [hj]; exact h.ltlh
    · show (upd s.h i _ j).lh ≤ s.hd + 1; rw [hj]; have := h.lhhd; omega
    · show s.hd + 1 ≤ (upd s.h i _ j).lt + _; rw [hj]; omega
    · show _ ≤ (upd s.h i _ j).lt; rw [hj]; exact h.tl
    · intro k hk
      show (upd s.h i _ k).lt ≤ s.tl
      by_cases hki : k = i
      · subst hki; rw [he]; exact hlt'
      · rw [ho k hki]; exact h.plt k hk
    · show (upd s.h i _ j).pend = none; rw [hj]; exact h.jp
    · intro k hk1 hk2
      have hk1' : (upd s.h i { s.h i with lt := lt, lh := s.hd + 1, pend := none } j).lt ≤ k := hk1
      rw [hj] at hk1'
      have hk2' : k < s.hd + 1 := hk2
      show readyAt (writeSlot s.mem (c.idx s.hd * (s.h i).ss) s.hd (bodyOf bs od)) (c.idx k * s0) = _
      rw [hxs]
      by_cases hkh : k = s.hd
      · subst hkh; exact readyAt_write _ _ _ _
      · rw [(slot_frame s.mem s0 (c.idx k) (c.idx s.hd) s.hd _ hblen (c.idx_ne (by omega) (by omega))).1]
        exact h.ready k hk1' (by omega)
    · intro k hk1 hk2
      have hk1' : (upd s.h i { s.h i with lt := lt, lh := s.hd + 1, pend := none } j).lt ≤ k := hk1
      rw [hj] at hk1'
      have hk2' : k < s.hd + 1 := hk2
      unfold Holds
      show match upd s.loc s.hd od k with
        | none => ∃ b, (s.pub ++ [bs])[k]? = some b ∧ findIn (writeSlot s.mem (c.idx s.hd * (s.h i).ss) s.hd (bodyOf bs od)) (c.idx k * s0) s0 = .bytes b
        | some d => findIn (writeSlot s.mem (c.idx s.hd * (s.h i).ss) s.hd (bodyOf bs od)) (c.idx k * s0) s0 = .spill d ∧
            ∃ b, (s.pub ++ [bs])[k]? = some b ∧ s.pool d.slot = ⟨d.gen, 1, b⟩ ∧ own' d.slot = .msg k ∧ d.size = b.length
      rw [hxs]
      by_cases hkh : k = s.hd
      · subst hkh
        rw [upd_same, h.hd]
        have hg : (s.pub ++ [bs])[s.pub.length]? = some bs := by simp
        cases od with
        | none => exact ⟨bs, hg, inline_roundtrip _ _ _ _ _ hs1 (h.pin i bs hp)⟩
        | some d =>
          obtain ⟨a1, a2, a3, a4⟩ := h.psp i bs d hp
          exact ⟨spill_roundtrip _ _ _ _ d a1, bs, hg, a2, by rw [← h.hd]; exact hown2 d rfl, a4⟩
      · have hk3 : k < s.hd := by omega
        rw [upd_ne _ _ hkh, (slot_frame s.mem s0 (c.idx k) (c.idx s.hd) s.hd _ hblen (c.idx_ne (by omega) (by omega))).2 hs0]
        have hg : (s.pub ++ [bs])[k]? = s.pub[k]? := List.getElem?_append_left (by rw [← h.hd]; exact hk3)
        rw [hg]
        have := h.slot k hk1' hk3
        unfold Holds at this
        cases hl : s.loc k with
        | none => rw [hl] at this; exact this
        | some d' =>
          rw [hl] at this
          obtain ⟨a1, b, a2, a3, a4, a5⟩ := this
          exact ⟨a1, b, a2, a3, by rw [hown1 _ (hmsg _ _ a4)]; exact a4, a5⟩
    · intro b hb
      have hb' : b ∈ s.pub ++ [bs] := hb
      rcases List.mem_append.mp hb' with h1 | h1
      · exact h.good b h1
      · simp at h1; subst h1; exact h.pgood i b od hp
    · intro k b od' hk
      have hk' : (upd s.h i { s.h i with lt := lt, lh := s.hd + 1, pend := none } k).pend = some (b, od') := hk
      by_cases hki : k = i
      · subst hki; rw [he] at hk'; cases hk'
      · rw [ho k hki] at hk'; exact h.pgood k b od' hk'
    · intro k b hk
      have hk' : (upd s.h i { s.h i with lt := lt, lh := s.hd + 1, pend := none } k).pend = some (b, none) := hk
      by_cases hki : k = i
      · subst hki; rw [he] at hk'; cases hk'
      · rw [ho k hki] at hk'; exact h.pin k b hk'
    · intro k b d hk
      have hk' : (upd s.h i { s.h i with lt := lt, lh := s.hd + 1, pend := none } k).pend = some (b, some d) := hk
      by_cases hki : k = i
      · subst hki; rw [he] at hk'; cases hk'
      · rw [ho k hki] at hk'
        obtain ⟨a1, a2, a3, a4⟩ := h.psp k b d hk'
        refine ⟨a1, a2, ?_, a4⟩
        show own' d.slot = _
        rw [hown1 _ (hdis k b d hk' hki)]; exact a3
    · intro p
      show own' p = .free ↔ p ∈ s.free
      rw [← h.fr p]
      constructor
      · intro e; rw [← hback p (by rw [e]; simp)]; exact e
      · intro e
        rw [hown1 p]
        · exact e
        · intro d hd e'; rw [e', hfre d hd] at e; cases e
    · intro p k hk
      have hk' : own' p = .msg k := hk
      show (upd s.h i _ j).lt ≤ k ∧ k < s.hd + 1 ∧ ∃ d, upd s.loc s.hd od k = some d ∧ d.slot = p
      rw [hj]
      by_cases hpd : ∃ d, od = some d ∧ d.slot = p
      · obtain ⟨d, hd, hdp⟩ := hpd
        have := hown2 d hd
        rw [hdp, hk'] at this
        cases this
        exact ⟨Nat.le_trans h.ltlh h.lhhd, by omega, d, by rw [upd_same, hd], hdp⟩
      · rw [hown1 p (by intro d hd e; exact hpd ⟨d, hd, e.symm⟩)] at hk'
        obtain ⟨a1, a2, d, a3, a4⟩ := h.om p k hk'
        exact ⟨a1, by omega, d, by rw [upd_ne _ _ (by omega)]; exact a3, a4⟩
    · intro p k hk
      have hk' : own' p = .pend k := hk
      have hpo := hback p (by rw [hk']; simp)
      rw [hpo] at hk'
      obtain ⟨b, d, h1, h2⟩ := h.op p k hk'
      have hki : k ≠ i := by
        intro e
        subst e
        rw [hp] at h1
        simp only [Option.some.injEq, Prod.mk.injEq] at h1
        have := hown2 d h1.2
        rw [h2, hpo, hk'] at this
        cases this
      exact ⟨b, d, by show (upd s.h i _ k).pend = _; rw [ho k hki]; exact h1, h2⟩
    · intro p hpn
      show own' p = _
      rw [hown1 p]
      · exact h.bound p hpn
      · intro d hd e
        have := h.bound p hpn
        rw [e, hfre d hd] at this
        cases this

/-- The subscriber looks at the head again. -/
theorem inv_lh {c : Cfg} {dec : Bytes → Option α} {i s0 n : Nat} {s : St} (h : Inv c dec i s0 n s) (lh : Nat)
    (h1 : (s.h i).lt ≤ lh) (h2 : lh ≤ s.hd) : Inv c dec i s0 n (s.setH i { s.h i with lh := lh }) := by
  have ho : ∀ k, k ≠ i → (upd s.h i { s.h i with lh := lh }) k = s.h k := fun k hk => upd_ne _ _ hk
  have he : (upd s.h i { s.h i with lh := lh }) i = { s.h i with lh := lh } := upd_same _ _ _
  have hl : ((upd s.h i { s.h i with lh := lh }) i).lt = (s.h i).lt := by rw [he]
  have hpe : ∀ k, ((upd s.h i { s.h i with lh := lh }) k).pend = (s.h k).pend := by
    intro k
    by_cases hk : k = i
    · subst hk; rw [he]
    · rw [ho k hk]
  refine ⟨h.ss, ?_, h.hd, ?_, ?_, ?_, ?_, ?_, ?_, ?_, ?_, h.good, ?_, ?_, ?_, h.fr, h.nd, h.frn, ?_, ?_, h.bound⟩
  · intro k
    show (upd s.h i _ k).ss = s0
    by_cases hk : k = i
    · subst hk; rw [he]; exact h.hss k
    · rw [ho k hk]; exact h.hss k
  · show (upd s.h i _ i).lt ≤ (upd s.h i _ i).lh
    rw [he]; exact h1
  · show (upd s.h i _ i).lh ≤ s.hd
    rw [he]; exact h2
  · show s.hd ≤ (upd s.h i _ i).lt + _
    rw [hl]; exact h.room
  · show s.tl ≤ (upd s.h i _ i).lt
    rw [hl]; exact h.tl
  · intro k hk
    show (upd s.h i _ k).lt ≤ _
    rw [ho k hk]; exact h.plt k hk
  · show (upd s.h i _ i).pend = none
    rw [hpe]; exact h.jp
  · intro k hk
    have hk' : (upd s.h i { s.h i with lh := lh } i).lt ≤ k := hk
    rw [hl] at hk'
    exact h.ready k hk'
  · intro k hk
    have hk' : (upd s.h i { s.h i with lh := lh } i).lt ≤ k := hk
    rw [hl] at hk'
    exact h.slot k hk'
  · intro k b od hk
    have hk' : (upd s.h i { s.h i with lh := lh } k).pend = _ := hk
    rw [hpe] at hk'
    exact h.pgood k b od hk'
  · intro k b hk
    have hk' : (upd s.h i { s.h i with lh := lh } k).pend = _ := hk
    rw [hpe] at hk'
    exact h.pin k b hk'
  · intro k b d hk
    have hk' : (upd s.h i { s.h i with lh := lh } k).pend = _ := hk
    rw [hpe] at hk'
    exact h.psp k b d hk'
  · intro p k hk
    show (upd s.h i _ i).lt ≤ k ∧ _
    rw [hl]; exact h.om p k hk
  · intro p k hk
    obtain ⟨b, d, h1, h2⟩ := h.op p k hk
    exact ⟨b, d, by show (upd s.h i _ k).pend = _; rw [hpe]; exact h1, h2⟩

/-- Re-synchronisation. -/
theorem inv_sync {c : Cfg} {dec : Bytes → Option α} {j s0 n : Nat} {s : St} (h : Inv c dec j s0 n s) (i : Nat) :
    Inv c dec j s0 n (sync s i) := by
  unfold sync
  dsimp only
  by_cases hp : (s.h i).pend = none
  swap
  · rw [if_pos hp]; exact h
  rw [if_neg (by simpa using hp)]
  have hxs : s.ss = (s.h i).ss := by rw [h.ss, h.hss]
  rw [hxs]
  by_cases hi : i = j
  · subst hi
    rw [Nat.max_eq_left h.tl]
    exact inv_lh h s.hd (Nat.le_trans h.ltlh h.lhhd) (Nat.le_refl _)
  · exact inv_setlt h hi s.hd (max (s.h i).lt s.tl) (by have := h.plt i hi; omega)

/-- The subscriber moves on, and the pool slot of the message it read, if any, is free again. -/
theorem inv_take {c : Cfg} {dec : Bytes → Option α} {j s0 n : Nat} {s : St} (h : Inv c dec j s0 n s) (hlt : (s.h j).lt < (s.h j).lh)
    (pool' : Nat → PSlot) (free' : List Nat) (own' : Nat → Own) (tl' : Nat)
    (f1 : ∀ p, s.own p ≠ .msg (s.h j).lt → own' p = s.own p ∧ pool' p = s.pool p)
    (f2 : ∀ p, s.own p = .msg (s.h j).lt → own' p = .free)
    (f3 : ∀ p, own' p = .free ↔ p ∈ free') (f4 : free'.Nodup)
    (t1 : s.tl ≤ tl') (t2 : tl' ≤ (s.h j).lt + 1) :
    Inv c dec j s0 n { (s.setH j { s.h j with lt := (s.h j).lt + 1 }) with pool := pool', free := free', own := own', tl := tl' } := by
  have ho : ∀ k, k ≠ j → (upd s.h j { s.h j with lt := (s.h j).lt + 1 }) k = s.h k := fun k hk => upd_ne _ _ hk
  have he : (upd s.h j { s.h j with lt := (s.h j).lt + 1 }) j = { s.h j with lt := (s.h j).lt + 1 } := upd_same _ _ _
  have hpe : ∀ k, ((upd s.h j { s.h j with lt := (s.h j).lt + 1 }) k).pend = (s.h k).pend := by
    intro k
    by_cases hk : k = j
    · subst hk; rw [he]
    · rw [ho k hk]
  have hl : ((upd s.h j { s.h j with lt := (s.h j).lt + 1 }) j).lt = (s.h j).lt + 1 := by rw [he]
  have hback : ∀ p, own' p ≠ .free → own' p = s.own p := by
    intro p hp
    refine (f1 p ?_).1
    intro e
    exact hp (f2 p e)
  refine ⟨h.ss, ?_, h.hd, ?_, ?_, ?_, ?_, ?_, ?_, ?_, ?_, h.good, ?_, ?_, ?_, f3, f4, ?_, ?_, ?_, ?_⟩
  · intro k
    show (upd s.h j _ k).ss = s0
    by_cases hk : k = j
    · subst hk; rw [he]; exact h.hss k
    · rw [ho k hk]; exact h.hss k
  · show (upd s.h j _ j).lt ≤ (upd s.h j _ j).lh
    rw [he]; exact hlt
  · show (upd s.h j _ j).lh ≤ s.hd
    rw [he]; exact h.lhhd
  · show s.hd ≤ (upd s.h j _ j).lt + _
    rw [hl]; have := h.room; omega
  · show tl' ≤ (upd s.h j _ j).lt
    rw [hl]; exact t2
  · intro k hk
    show (upd s.h j _ k).lt ≤ tl'
    rw [ho k hk]; exact Nat.le_trans (h.plt k hk) t1
  · show (upd s.h j _ j).pend = none
    rw [hpe]; exact h.jp
  · intro k hk
    have hk' : (upd s.h j { s.h j with lt := (s.h j).lt + 1 } j).lt ≤ k := hk
    rw [hl] at hk'
    exact h.ready k (by omega)
  · intro k hk hk2
    have hk' : (upd s.h j { s.h j with lt := (s.h j).lt + 1 } j).lt ≤ k := hk
    rw [hl] at hk'
    have := h.slot k (by omega) hk2
    unfold Holds at this ⊢
    show match s.loc k with
      | none => ∃ b, s.pub[k]? = some b ∧ findIn s.mem _ _ = .bytes b
      | some d => findIn s.mem _ _ = .spill d ∧ ∃ b, s.pub[k]? = some b ∧ pool' d.slot = ⟨d.gen, 1, b⟩ ∧ own' d.slot = .msg k ∧ d.size = b.length
    cases hl : s.loc k with
    | none => rw [hl] at this; exact this
    | some d =>
      rw [hl] at this
      obtain ⟨a1, b, a2, a3, a4, a5⟩ := this
      have hne : s.own d.slot ≠ .msg (s.h j).lt := by
        rw [a4]
        intro e
        cases e
        omega
      exact ⟨a1, b, a2, by rw [(f1 _ hne).2]; exact a3, by rw [(f1 _ hne).1]; exact a4, a5⟩
  · intro k b od hk
    have hk' : (upd s.h j { s.h j with lt := (s.h j).lt + 1 } k).pend = _ := hk
    rw [hpe] at hk'
    exact h.pgood k b od hk'
  · intro k b hk
    have hk' : (upd s.h j { s.h j with lt := (s.h j).lt + 1 } k).pend = _ := hk
    rw [hpe] at hk'
    exact h.pin k b hk'
  · intro k b d hk
    have hk' : (upd s.h j { s.h j with lt := (s.h j).lt + 1 } k).pend = _ := hk
    rw [hpe] at hk'
    obtain ⟨a1, a2, a3, a4⟩ := h.psp k b d hk'
    have hne : s.own d.slot ≠ .msg (s.h j).lt := by rw [a3]; simp
    exact ⟨a1, (f1 _ hne).2.trans a2, (f1 _ hne).1.trans a3, a4⟩
  · intro p hp
    have hp' : own' p = .free := (f3 p).mpr hp
    by_contra hpn
    have hb := h.bound p (by omega)
    have := (f1 p (by rw [hb]; simp)).1
    rw [hp', hb] at this
    cases this
  · intro p k hk
    have hk' : own' p = .msg k := hk
    have e : s.own p = .msg k := by rw [← hback p (by rw [hk']; simp)]; exact hk'
    obtain ⟨a1, a2, a3⟩ := h.om p k e
    refine ⟨?_, a2, a3⟩
    show (upd s.h j _ j).lt ≤ k
    rw [hl]
    have : k ≠ (s.h j).lt := by
      intro e'
      subst e'
      have := f2 p e
      rw [hk'] at this
      cases this
    omega
  · intro p k hk
    have hk' : own' p = .pend k := hk
    have e : s.own p = .pend k := by rw [← hback p (by rw [hk']; simp)]; exact hk'
    obtain ⟨b, d, h1, h2⟩ := h.op p k e
    exact ⟨b, d, by show (upd s.h j _ k).pend = _; rw [hpe]; exact h1, h2⟩
  · intro p hpn
    have hb := h.bound p hpn
    show own' p = _
    rw [(f1 p (by rw [hb]; simp)).1]
    exact hb

theorem readSlot_bytes (dec : Bytes → Option α) (s : St) (off ss : Nat) (b : Bytes) (h : findIn s.mem off ss = .bytes b) :
    readSlot dec s off ss = (dec b, s) := by
  unfold readSlot
  rw [h]

theorem readSlot_spill (dec : Bytes → Option α) (s : St) (off ss : Nat) (d : Desc) (b : Bytes) (h : findIn s.mem off ss = .spill d)
    (h2 : s.pool d.slot = ⟨d.gen, 1, b⟩) (h3 : d.size = b.length) :
    readSlot dec s off ss = (dec b, { s with pool := upd s.pool d.slot ⟨d.gen, 0, List.replicate b.length 0⟩, free := d.slot :: s.free, own := upd s.own d.slot .free }) := by
  unfold readSlot fetch release
  rw [h]
  dsimp only
  rw [h2]
  dsimp only
  rw [if_neg (by simp), if_neg (by simp), if_pos rfl, h3, List.take_length]
  rfl

/-- A receive: it returns the next message if it returns anything, and it returns something whenever
there is one (positions below 2^64). -/
theorem inv_recv {c : Cfg} {dec : Bytes → Option α} {j s0 n : Nat} {s : St} (h : Inv c dec j s0 n s) :
    Inv c dec j s0 n (recv c dec s j).2 ∧ (recv c dec s j).2.pub = s.pub ∧ (recv c dec s j).2.hd = s.hd ∧
      ((recv c dec s j).1 = none → ((recv c dec s j).2.h j).lt = (s.h j).lt ∧ (s.hd < 2 ^ 64 → (s.h j).lt = s.hd)) ∧
      (∀ v, (recv c dec s j).1 = some v → ((recv c dec s j).2.h j).lt = (s.h j).lt + 1 ∧
        ∃ b, s.pub[(s.h j).lt]? = some b ∧ dec b = some v) := by
  unfold recv
  dsimp only
  generalize hlh : (if (s.h j).lh = (s.h j).lt then s.hd else (s.h j).lh) = lh
  have hb1 : (s.h j).lt ≤ lh := by
    rw [← hlh]
    by_cases hq : (s.h j).lh = (s.h j).lt
    · rw [if_pos hq]; exact Nat.le_trans h.ltlh h.lhhd
    · rw [if_neg hq]; exact h.ltlh
  have hb2 : lh ≤ s.hd := by
    rw [← hlh]
    by_cases hq : (s.h j).lh = (s.h j).lt
    · rw [if_pos hq]
    · rw [if_neg hq]; exact h.lhhd
  have h1 := inv_lh h lh hb1 hb2
  have hpe : (s.setH j { s.h j with lh := lh }).h j = { s.h j with lh := lh } := upd_same _ _ _
  by_cases he : lh = (s.h j).lt
  · rw [if_pos he]
    refine ⟨h1, rfl, rfl, ?_, ?_⟩
    · intro _
      refine ⟨by rw [hpe], ?_⟩
      intro _
      by_cases hq : (s.h j).lh = (s.h j).lt
      · rw [if_pos hq] at hlh; omega
      · rw [if_neg hq] at hlh; omega
    · intro v hv; cases hv
  rw [if_neg he]
  have hlt : (s.h j).lt < lh := by omega
  by_cases hr : readyAt (s.setH j { s.h j with lh := lh }).mem (c.idx (s.h j).lt * (s.h j).ss) ≠ (s.h j).lt + 1
  · rw [if_pos hr]
    refine ⟨h1, rfl, rfl, ?_, ?_⟩
    · intro _
      refine ⟨by rw [hpe], ?_⟩
      intro hbig
      exfalso
      apply hr
      have := h.ready (s.h j).lt (Nat.le_refl _) (by omega)
      rw [h.hss j]
      show readyAt s.mem _ = _
      rw [this, Nat.mod_eq_of_lt (by omega)]
    · intro v hv; cases hv
  rw [if_neg hr]
  have hslot := h.slot (s.h j).lt (Nat.le_refl _) (by omega)
  have hlen : (s.h j).lt < s.pub.length := by rw [← h.hd]; omega
  have hget : s.pub[(s.h j).lt]? = some s.pub[(s.h j).lt] := List.getElem?_eq_getElem hlen
  obtain ⟨v, hv⟩ := Option.isSome_iff_exists.mp (h.good _ (List.getElem_mem hlen))
  have ht1 : s.tl ≤ (if c.flushDue ((s.h j).lt + 1) then (s.h j).lt + 1 else s.tl) := by
    have := h.tl
    split <;> omega
  have ht2 : (if c.flushDue ((s.h j).lt + 1) then (s.h j).lt + 1 else s.tl) ≤ (s.h j).lt + 1 := by
    have := h.tl
    split <;> omega
  unfold Holds at hslot
  rw [← h.hss j] at hslot
  cases hloc : s.loc (s.h j).lt with
  | none =>
    rw [hloc] at hslot
    obtain ⟨b, a1, a2⟩ := hslot
    rw [hget] at a1
    cases a1
    have hrs : readSlot dec (s.setH j { s.h j with lh := lh }) (c.idx (s.h j).lt * (s.h j).ss) (s.h j).ss =
        (some v, s.setH j { s.h j with lh := lh }) := by
      rw [readSlot_bytes dec (s.setH j { s.h j with lh := lh }) _ _ _ a2, hv]
    rw [hrs]
    dsimp only
    rw [setH_setH]
    have hno : ∀ p, s.own p ≠ .msg (s.h j).lt := by
      intro p hp
      obtain ⟨_, _, d, hd, _⟩ := h.om p _ hp
      rw [hloc] at hd
      cases hd
    have key := inv_take h1 (by rw [hpe]; exact hlt) s.pool s.free s.own (if c.flushDue ((s.h j).lt + 1) then (s.h j).lt + 1 else s.tl)
      (fun p _ => ⟨rfl, rfl⟩) (fun p hp => absurd (by rw [hpe] at hp; exact hp) (hno p)) h.fr h.nd ht1 (by rw [hpe]; exact ht2)
    rw [hpe, setH_setH] at key
    refine ⟨key, rfl, rfl, ?_, ?_⟩
    · intro hn; cases hn
    · intro w hw
      cases hw
      refine ⟨?_, _, hget, hv⟩
      show (upd s.h j _ j).lt = _
      rw [upd_same]
  | some d =>
    rw [hloc] at hslot
    obtain ⟨a1, b, a2, a3, a4, a5⟩ := hslot
    rw [hget] at a2
    cases a2
    generalize hb : s.pub[(s.h j).lt] = b at *
    have hrs : readSlot dec (s.setH j { s.h j with lh := lh }) (c.idx (s.h j).lt * (s.h j).ss) (s.h j).ss =
        (some v, { (s.setH j { s.h j with lh := lh }) with pool := upd s.pool d.slot ⟨d.gen, 0, List.replicate b.length 0⟩, free := d.slot :: s.free, own := upd s.own d.slot .free }) := by
      rw [readSlot_spill dec (s.setH j { s.h j with lh := lh }) _ _ d b a1 a3 a5, hv]
      rfl
    rw [hrs]
    dsimp only
    have hfr : d.slot ∉ s.free := by
      intro hm
      rw [← h.fr, a4] at hm
      cases hm
    have key := inv_take h1 (by rw [hpe]; exact hlt) (upd s.pool d.slot ⟨d.gen, 0, List.replicate b.length 0⟩) (d.slot :: s.free)
      (upd s.own d.slot .free) (if c.flushDue ((s.h j).lt + 1) then (s.h j).lt + 1 else s.tl)
      (by
        intro p hp
        rw [hpe] at hp
        have hne : p ≠ d.slot := by intro e; subst e; exact hp a4
        exact ⟨upd_ne _ _ hne, upd_ne _ _ hne⟩)
      (by
        intro p hp
        rw [hpe] at hp
        have hp' : s.own p = .msg (s.h j).lt := hp
        obtain ⟨_, _, d', hd', hs'⟩ := h.om p _ hp'
        rw [hloc] at hd'
        cases hd'
        rw [← hs', upd_same])
      (by
        intro p
        by_cases hq : p = d.slot
        · subst hq; simp
        · rw [upd_ne _ _ hq, h.fr p]; simp [hq])
      (List.nodup_cons.mpr ⟨hfr, h.nd⟩) ht1 (by rw [hpe]; exact ht2)
    rw [hpe, setH_setH] at key
    refine ⟨?_, rfl, rfl, ?_, ?_⟩
    · have e : ({ (s.setH j { s.h j with lh := lh }) with pool := upd s.pool d.slot ⟨d.gen, 0, List.replicate b.length 0⟩, free := d.slot :: s.free, own := upd s.own d.slot .free } : St).setH j { s.h j with lh := lh, lt := (s.h j).lt + 1 } =
          { (s.setH j { s.h j with lh := lh, lt := (s.h j).lt + 1 }) with pool := upd s.pool d.slot ⟨d.gen, 0, List.replicate b.length 0⟩, free := d.slot :: s.free, own := upd s.own d.slot .free } := by
        have := setH_setH s j { s.h j with lh := lh } { s.h j with lh := lh, lt := (s.h j).lt + 1 }
        unfold St.setH at this ⊢
        simp only [St.mk.injEq, true_and, and_true] at this ⊢
        exact this
      rw [e]
      exact key
    · intro hn; cases hn
    · intro w hw
      cases hw
      refine ⟨?_, _, hget, hv⟩
      show (upd (upd s.h j { s.h j with lh := lh }) j { s.h j with lh := lh, lt := (s.h j).lt + 1 } j).lt = _
      rw [upd_same]

/-! ### Histories -/

/-- The slot size has been grown (for good). -/
def Grown (s0 : Nat) (s : St) : Prop := s0 < s.ss ∧ ∀ i, s0 ≤ (s.h i).ss

theorem setH_ss (s : St) (i : Nat) (x : Hnd) (k : Nat) : ((s.setH i x).h k).ss = if k = i then x.ss else (s.h k).ss := by
  unfold St.setH
  by_cases h : k = i
  · subst h; simp
  · simp [upd_ne _ _ h, h]

theorem grown_setH {s0 : Nat} {s : St} (h : Grown s0 s) (i : Nat) (x : Hnd) (hx : s0 ≤ x.ss) : Grown s0 (s.setH i x) := by
  refine ⟨h.1, ?_⟩
  intro k
  rw [setH_ss]
  split
  · exact hx
  · exact h.2 k

theorem grown_grow {s0 : Nat} {s : St} (hs0 : 0 < s0) (h : ∀ i, s0 ≤ (s.h i).ss) (i m : Nat) : Grown s0 (grow s i m) := by
  unfold grow
  dsimp only
  have hi := h i
  constructor
  · show s0 < max _ _
    omega
  · intro k
    show s0 ≤ ((s.setH i _).h k).ss
    rw [setH_ss]
    split
    · show s0 ≤ max _ _
      omega
    · exact h k

theorem grown_prep {c : Cfg} {s0 : Nat} {s : St} (hs0 : 0 < s0) (h : Grown s0 s) (i : Nat) (bs : Bytes) (ok : Bool) : Grown s0 (prep c s i bs ok) := by
  unfold prep
  dsimp only
  generalize (if isFull c s.hd (s.h i).lt then s.tl else (s.h i).lt) = lt
  have h1 : Grown s0 (s.setH i { s.h i with lt := lt }) := grown_setH h i _ (h.2 i)
  have hg := grown_grow hs0 h1.2 i bs.length
  have hp : Grown s0 ((s.setH i { s.h i with lt := lt }).setH i { s.h i with lt := lt, pend := some (bs, none) }) := grown_setH h1 i _ (h.2 i)
  by_cases a1 : (s.h i).pend ≠ none
  · rw [if_pos a1]; exact h
  rw [if_neg a1]
  by_cases a2 : isFull c (s.setH i { s.h i with lt := lt }).hd lt = true
  · rw [if_pos a2]; exact h1
  rw [if_neg a2]
  by_cases a3 : bs.length > spillThreshold
  · rw [if_pos a3]
    by_cases a4 : (s.h i).ss < 48
    · rw [if_pos a4]; exact h1
    rw [if_neg a4]
    cases hsp : spill (s.setH i { s.h i with lt := lt }) i bs ok with
    | none =>
      dsimp only
      by_cases a5 : bs.length > (s.h i).ss - 16
      · rw [if_pos a5]; exact hg
      · rw [if_neg a5]; exact hp
    | some r =>
      obtain ⟨d, s'⟩ := r
      dsimp only
      have : Grown s0 s' := by
        unfold spill at hsp
        split at hsp
        · simp only [Option.some.injEq, Prod.mk.injEq] at hsp
          rw [← hsp.2]
          exact h1
        · cases hsp
      exact grown_setH this i _ (h.2 i)
  · rw [if_neg a3]
    by_cases a5 : bs.length > (s.h i).ss - 16
    · rw [if_pos a5]; exact hg
    · rw [if_neg a5]; exact hp

theorem grown_claim {c : Cfg} {s0 : Nat} {s : St} (h : Grown s0 s) (i : Nat) : Grown s0 (claim c s i) := by
  unfold claim
  dsimp only
  generalize (if isFull c s.hd (s.h i).lt then s.tl else (s.h i).lt) = lt
  cases (s.h i).pend with
  | none => exact h
  | some r =>
    obtain ⟨bs, od⟩ := r
    dsimp only
    by_cases a : isFull c s.hd lt = true
    · rw [if_pos a]
      exact grown_setH h i { s.h i with lt := lt, pend := none } (h.2 i)
    · rw [if_neg a]
      exact grown_setH h i { s.h i with lt := lt, lh := s.hd + 1, pend := none } (h.2 i)

theorem grown_readSlot {dec : Bytes → Option α} {s0 : Nat} {s : St} (h : Grown s0 s) (off ss : Nat) : Grown s0 (readSlot dec s off ss).2 := by
  unfold readSlot release
  split
  · exact h
  · exact h
  · dsimp only
    split
    · exact h
    split
    · exact h
    · exact h

theorem grown_recv {c : Cfg} {dec : Bytes → Option α} {s0 : Nat} {s : St} (h : Grown s0 s) (j : Nat) : Grown s0 (recv c dec s j).2 := by
  unfold recv
  dsimp only
  generalize (if (s.h j).lh = (s.h j).lt then s.hd else (s.h j).lh) = lh
  have h1 : Grown s0 (s.setH j { s.h j with lh := lh }) := grown_setH h j _ (h.2 j)
  by_cases a1 : lh = (s.h j).lt
  · rw [if_pos a1]; exact h1
  rw [if_neg a1]
  by_cases a2 : readyAt (s.setH j { s.h j with lh := lh }).mem (c.idx (s.h j).lt * (s.h j).ss) ≠ (s.h j).lt + 1
  · rw [if_pos a2]; exact h1
  rw [if_neg a2]
  have h2 := grown_readSlot (dec := dec) h1 (c.idx (s.h j).lt * (s.h j).ss) (s.h j).ss
  cases hr : readSlot dec (s.setH j { s.h j with lh := lh }) (c.idx (s.h j).lt * (s.h j).ss) (s.h j).ss with
  | mk o s' =>
    rw [hr] at h2
    cases o with
    | none => exact h2
    | some v => exact grown_setH h2 j { s.h j with lh := lh, lt := (s.h j).lt + 1 } (h.2 j)

theorem grown_sync {s0 : Nat} {s : St} (h : Grown s0 s) (i : Nat) : Grown s0 (sync s i) := by
  unfold sync
  dsimp only
  split
  · exact h
  · exact grown_setH h i _ (Nat.le_of_lt h.1)

theorem grown_step {c : Cfg} {dec : Bytes → Option α} {s0 : Nat} {s : St} (hs0 : 0 < s0) (h : Grown s0 s) (a : Act) : Grown s0 (step c dec s a).2 := by
  cases a with
  | prep i bs ok => exact grown_prep hs0 h i bs ok
  | claim i => exact grown_claim h i
  | recv j => exact grown_recv h j
  | sync i => exact grown_sync h i

theorem prep_grown {c : Cfg} {dec : Bytes → Option α} {j s0 n : Nat} {s : St} (h : Inv c dec j s0 n s) (hs0 : 48 ≤ s0) (hnn : n ≤ 2 ^ 32)
    {i : Nat} (hi : i ≠ j) (bs : Bytes) (hb : (dec bs).isSome) (hl : bs.length < 2 ^ 64) (ok : Bool) :
    Inv c dec j s0 n (prep c s i bs ok) ∨ Grown s0 (prep c s i bs ok) := by
  rcases inv_prep h hs0 hnn hi bs hb hl ok with h1 | h1
  · exact Or.inl h1
  · right
    refine ⟨h1, ?_⟩
    have hs : ∀ i, s0 ≤ (s.h i).ss := fun i => Nat.le_of_eq (h.hss i).symm
    revert h1
    unfold prep
    dsimp only
    generalize (if isFull c s.hd (s.h i).lt then s.tl else (s.h i).lt) = lt
    have hle : ∀ k, s0 ≤ ((s.setH i { s.h i with lt := lt }).h k).ss := by
      intro k
      rw [setH_ss]
      split
      · exact hs i
      · exact hs k
    have hg := (grown_grow (by omega) hle i bs.length).2
    have hp : ∀ k, s0 ≤ (((s.setH i { s.h i with lt := lt }).setH i { s.h i with lt := lt, pend := some (bs, none) }).h k).ss := by
      intro k
      rw [setH_ss]
      split
      · exact hs i
      · exact hle k
    by_cases a1 : (s.h i).pend ≠ none
    · rw [if_pos a1]; intro _; exact hs
    rw [if_neg a1]
    by_cases a2 : isFull c (s.setH i { s.h i with lt := lt }).hd lt = true
    · rw [if_pos a2]; intro _; exact hle
    rw [if_neg a2]
    by_cases a3 : bs.length > spillThreshold
    · rw [if_pos a3]
      by_cases a4 : (s.h i).ss < 48
      · rw [if_pos a4]; intro _; exact hle
      rw [if_neg a4]
      cases hsp : spill (s.setH i { s.h i with lt := lt }) i bs ok with
      | none =>
        dsimp only
        by_cases a5 : bs.length > (s.h i).ss - 16
        · rw [if_pos a5]; intro _; exact hg
        · rw [if_neg a5]; intro _; exact hp
      | some r =>
        obtain ⟨d, s'⟩ := r
        dsimp only
        have : s'.h = (s.setH i { s.h i with lt := lt }).h := by
          unfold spill at hsp
          split at hsp
          · simp only [Option.some.injEq, Prod.mk.injEq] at hsp
            rw [← hsp.2]
          · cases hsp
        intro _ k
        rw [setH_ss, this]
        split
        · exact hs i
        · exact hle k
    · rw [if_neg a3]
      by_cases a5 : bs.length > (s.h i).ss - 16
      · rw [if_pos a5]; intro _; exact hg
      · rw [if_neg a5]; intro _; exact hp

theorem run_append (c : Cfg) (dec : Bytes → Option α) (s : St) (as bs : List Act) :
    run c dec s (as ++ bs) = ((run c dec s as).1 ++ (run c dec (run c dec s as).2 bs).1, (run c dec (run c dec s as).2 bs).2) := by
  induction as generalizing s with
  | nil => simp [run]
  | cons a as ih => simp only [List.cons_append, run, ih, List.append_assoc]

theorem inv_step {c : Cfg} {dec : Bytes → Option α} {j s0 n : Nat} {s : St} (h : Inv c dec j s0 n s) (hs0 : 48 ≤ s0) (hs1 : s0 < 2 ^ 32)
    (hnn : n ≤ 2 ^ 32) {a : Act} (ha : a.Good dec j) : Inv c dec j s0 n (step c dec s a).2 ∨ Grown s0 (step c dec s a).2 := by
  cases a with
  | prep i bs ok => exact prep_grown h hs0 hnn ha.1 bs ha.2.1 ha.2.2 ok
  | claim i => exact Or.inl (inv_claim h hs0 hs1 ha)
  | recv i => cases ha; exact Or.inl (inv_recv h).1
  | sync i => exact Or.inl (inv_sync h i)

/-- What the subscriber has got is the beginning of what was published. -/
def Prefix (dec : Bytes → Option α) (j : Nat) (r : List (Nat × Option α) × St) : Prop :=
  (got r.1).map some = (r.2.pub.take (r.2.h j).lt).map dec

theorem prep_pub {c : Cfg} (s : St) (i j : Nat) (bs : Bytes) (ok : Bool) (hi : i ≠ j) :
    (prep c s i bs ok).pub = s.pub ∧ ((prep c s i bs ok).h j).lt = (s.h j).lt := by
  have hset : ∀ (t : St) (x : Hnd), ((t.setH i x).h j).lt = (t.h j).lt := by
    intro t x
    show (upd t.h i x j).lt = _
    rw [upd_ne _ _ (Ne.symm hi)]
  unfold prep
  dsimp only
  generalize (if isFull c s.hd (s.h i).lt then s.tl else (s.h i).lt) = lt
  have hg : (grow (s.setH i { s.h i with lt := lt }) i bs.length).pub = s.pub ∧
      ((grow (s.setH i { s.h i with lt := lt }) i bs.length).h j).lt = (s.h j).lt := by
    refine ⟨rfl, ?_⟩
    show (((s.setH i _).setH i _).h j).lt = _
    rw [hset, hset]
  by_cases a1 : (s.h i).pend ≠ none
  · rw [if_pos a1]; exact ⟨rfl, rfl⟩
  rw [if_neg a1]
  by_cases a2 : isFull c (s.setH i { s.h i with lt := lt }).hd lt = true
  · rw [if_pos a2]; exact ⟨rfl, hset _ _⟩
  rw [if_neg a2]
  have hp : ((s.setH i { s.h i with lt := lt }).setH i { s.h i with lt := lt, pend := some (bs, none) }).pub = s.pub ∧
      ((((s.setH i { s.h i with lt := lt }).setH i { s.h i with lt := lt, pend := some (bs, none) }).h j).lt) = (s.h j).lt :=
    ⟨rfl, by rw [hset, hset]⟩
  by_cases a3 : bs.length > spillThreshold
  · rw [if_pos a3]
    by_cases a4 : (s.h i).ss < 48
    · rw [if_pos a4]; exact ⟨rfl, hset _ _⟩
    rw [if_neg a4]
    cases hsp : spill (s.setH i { s.h i with lt := lt }) i bs ok with
    | none =>
      dsimp only
      by_cases a5 : bs.length > (s.h i).ss - 16
      · rw [if_pos a5]; exact hg
      · rw [if_neg a5]; exact hp
    | some r =>
      obtain ⟨d, s'⟩ := r
      dsimp only
      have : s'.h = (s.setH i { s.h i with lt := lt }).h ∧ s'.pub = s.pub := by
        unfold spill at hsp
        split at hsp
        · simp only [Option.some.injEq, Prod.mk.injEq] at hsp
          rw [← hsp.2]
          exact ⟨rfl, rfl⟩
        · cases hsp
      exact ⟨this.2, by rw [hset, this.1, hset]⟩
  · rw [if_neg a3]
    by_cases a5 : bs.length > (s.h i).ss - 16
    · rw [if_pos a5]; exact hg
    · rw [if_neg a5]; exact hp

theorem claim_pub {c : Cfg} (s : St) (i j : Nat) (hi : i ≠ j) :
    (∃ l, (claim c s i).pub = s.pub ++ l) ∧ ((claim c s i).h j).lt = (s.h j).lt := by
  have hset : ∀ (t : St) (x : Hnd), ((t.setH i x).h j).lt = (t.h j).lt := by
    intro t x
    show (upd t.h i x j).lt = _
    rw [upd_ne _ _ (Ne.symm hi)]
  unfold claim
  dsimp only
  generalize (if isFull c s.hd (s.h i).lt then s.tl else (s.h i).lt) = lt
  cases (s.h i).pend with
  | none => exact ⟨⟨[], by simp⟩, rfl⟩
  | some r =>
    obtain ⟨bs, od⟩ := r
    dsimp only
    by_cases a : isFull c s.hd lt = true
    · rw [if_pos a]
      exact ⟨⟨[], by simp [St.setH]⟩, hset s { s.h i with lt := lt, pend := none }⟩
    · rw [if_neg a]
      exact ⟨⟨[bs], rfl⟩, hset s { s.h i with lt := lt, lh := s.hd + 1, pend := none }⟩

theorem run_inv (c : Cfg) (dec : Bytes → Option α) (j s0 n : Nat) (hs0 : 48 ≤ s0) (hs1 : s0 < 2 ^ 32) (hnn : n ≤ 2 ^ 32)
    (as : List Act) (hg : ∀ a ∈ as, a.Good dec j) :
    (Inv c dec j s0 n (run c dec (St.init s0 n) as).2 ∧ Prefix dec j (run c dec (St.init s0 n) as)) ∨
      Grown s0 (run c dec (St.init s0 n) as).2 := by
  induction as using List.reverseRecOn with
  | nil => exact Or.inl ⟨inv_init c dec j s0 n, rfl⟩
  | append_singleton as a ih =>
    rw [run_append]
    have ha : a.Good dec j := hg a (by simp)
    rcases ih (fun b hb => hg b (List.mem_append.mpr (Or.inl hb))) with ⟨h1, h2⟩ | h1
    · generalize hr : run c dec (St.init s0 n) as = r at *
      obtain ⟨o, s⟩ := r
      dsimp only at h1 h2 ⊢
      rcases inv_step h1 hs0 hs1 hnn ha with h3 | h3
      · left
        refine ⟨h3, ?_⟩
        unfold Prefix at h2 ⊢
        show (got (o ++ (run c dec s [a]).1)).map some = (((run c dec s [a]).2.pub.take ((run c dec s [a]).2.h j).lt)).map dec
        cases a with
        | prep i bs ok =>
          obtain ⟨e1, e2⟩ := prep_pub (c := c) s i j bs ok ha.1
          show (got (o ++ ([] ++ []))).map some = ((prep c s i bs ok).pub.take ((prep c s i bs ok).h j).lt).map dec
          rw [e1, e2, List.append_nil, List.append_nil]
          exact h2
        | claim i =>
          obtain ⟨⟨l, e1⟩, e2⟩ := claim_pub (c := c) s i j ha
          show (got (o ++ ([] ++ []))).map some = ((claim c s i).pub.take ((claim c s i).h j).lt).map dec
          rw [e1, e2, List.append_nil, List.append_nil, List.take_append_of_le_length]
          · exact h2
          · rw [← h1.hd]; exact Nat.le_trans h1.ltlh h1.lhhd
        | sync i =>
          show (got (o ++ ([] ++ []))).map some = ((sync s i).pub.take ((sync s i).h j).lt).map dec
          rw [List.append_nil, List.append_nil]
          have e1 : (sync s i).pub = s.pub := by unfold sync; dsimp only; split <;> rfl
          have e2 : ((sync s i).h j).lt = (s.h j).lt := by
            unfold sync
            dsimp only
            split
            · rfl
            · by_cases hij : j = i
              · subst hij
                show (upd s.h j _ j).lt = _
                rw [upd_same]
                exact Nat.max_eq_left h1.tl
              · show (upd s.h i _ j).lt = _
                rw [upd_ne _ _ hij]
          rw [e1, e2]
          exact h2
        | recv i =>
          cases ha
          obtain ⟨_, e1, _, e2, e3⟩ := inv_recv h1
          show (got (o ++ ([(j, (recv c dec s j).1)] ++ []))).map some = ((recv c dec s j).2.pub.take ((recv c dec s j).2.h j).lt).map dec
          rw [e1]
          cases hv : (recv c dec s j).1 with
          | none =>
            rw [(e2 hv).1, ← h2]
            simp [got]
          | some v =>
            obtain ⟨e4, b, e5, e6⟩ := e3 v hv
            rw [e4, List.take_add_one, e5, List.map_append, ← h2]
            simp [got, e6]
      · exact Or.inr h3
    · right
      generalize hr : run c dec (St.init s0 n) as = r at *
      obtain ⟨o, s⟩ := r
      exact grown_step (by omega) h1 a

/-- One subscriber, any number of publishers, messages of any size (written into their slot or spilled
into the pool): as long as the slot size has not been grown, what the subscriber has received is exactly
the beginning of what was published, in order, nothing left out, nothing repeated, every message equal to
the one that was serialized. -/
theorem serde_fifo (c : Cfg) (dec : Bytes → Option α) (j s0 n : Nat) (hs0 : 48 ≤ s0) (hs1 : s0 < 2 ^ 32) (hnn : n ≤ 2 ^ 32)
    (as : List Act) (hg : ∀ a ∈ as, a.Good dec j) (hss : (run c dec (St.init s0 n) as).2.ss = s0) :
    ∃ m, m ≤ (run c dec (St.init s0 n) as).2.pub.length ∧
      (got (run c dec (St.init s0 n) as).1).map some = ((run c dec (St.init s0 n) as).2.pub.take m).map dec := by
  rcases run_inv c dec j s0 n hs0 hs1 hnn as hg with ⟨h1, h2⟩ | h1
  · exact ⟨_, by rw [← h1.hd]; exact Nat.le_trans h1.ltlh h1.lhhd, h2⟩
  · have := h1.1; omega

/-- And it gets them all: when something is unread, the next receive returns it (fewer than 2^64
messages). -/
theorem serde_progress (c : Cfg) (dec : Bytes → Option α) (j s0 n : Nat) (hs0 : 48 ≤ s0) (hs1 : s0 < 2 ^ 32) (hnn : n ≤ 2 ^ 32)
    (as : List Act) (hg : ∀ a ∈ as, a.Good dec j) (hss : (run c dec (St.init s0 n) as).2.ss = s0)
    (hl : (run c dec (St.init s0 n) as).2.pub.length < 2 ^ 64)
    (hu : (got (run c dec (St.init s0 n) as).1).length < (run c dec (St.init s0 n) as).2.pub.length) :
    ∃ v b, (run c dec (St.init s0 n) as).2.pub[(got (run c dec (St.init s0 n) as).1).length]? = some b ∧ dec b = some v ∧
      (run c dec (St.init s0 n) (as ++ [.recv j])).1 = (run c dec (St.init s0 n) as).1 ++ [(j, some v)] := by
  rcases run_inv c dec j s0 n hs0 hs1 hnn as hg with ⟨h1, h2⟩ | h1
  swap
  · have := h1.1; omega
  rw [run_append]
  generalize hr : run c dec (St.init s0 n) as = r at *
  obtain ⟨o, s⟩ := r
  dsimp only at *
  have hlen : (got o).length = (s.h j).lt := by
    have := congrArg List.length h2
    simp only [List.length_map, List.length_take] at this
    rw [this, Nat.min_eq_left]
    rw [← h1.hd]; exact Nat.le_trans h1.ltlh h1.lhhd
  obtain ⟨_, _, _, e2, e3⟩ := inv_recv h1
  cases hv : (recv c dec s j).1 with
  | none =>
    have := (e2 hv).2 (by rw [h1.hd]; exact hl)
    have := h1.hd
    omega
  | some v =>
    obtain ⟨_, b, e5, e6⟩ := e3 v hv
    refine ⟨v, b, by rw [hlen]; exact e5, e6, ?_⟩
    show o ++ ([(j, (recv c dec s j).1)] ++ []) = _
    rw [hv]; simp

end Horus.Serde
