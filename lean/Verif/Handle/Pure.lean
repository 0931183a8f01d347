import Verif.Handle.Props
/-
Handles that only send or only receive: what a subscriber gets, and exactly when it is cut off.
-/
namespace Horus.Handle
open Horus.Ring
variable {α : Type}

/-- Every handle of the history is used for one purpose: the handles of `prod` send, the others
receive, and no epoch change happens. -/
def OneRole (prod : Nat → Bool) (as : List (Act α)) : Prop :=
  ∀ x ∈ as, match x with
    | .send i _ => prod i = true
    | .recv i => prod i = false
    | .epoch _ => False

/-- The messages a history publishes, in order: those the ring accepted. -/
def published (c : Cfg) (s : St α) : List (Act α) → List α
  | [] => []
  | x :: as => (match x with
      | .send i v => if (send c s i v).hd = s.hd then [] else [v]
      | _ => []) ++ published c (step c s x).2 as

/-- What subscriber `j` was handed, without the empty polls. -/
def received (j : Nat) (l : List (Nat × Option α)) : List α := (outputs j l).filterMap id

/-- The next position subscriber `j` reads: after its first `recv` its own, before that where it joins. -/
def nextPos (c : Cfg) (s : St α) (j : Nat) : Nat := ((ensure c s j false).h j).lt

/-- The invariant of such histories; `pub` is everything published so far. -/
structure Pure (c : Cfg) (prod : Nat → Bool) (s : St α) (pub : List α) : Prop where
  hd : s.hd = pub.length
  win : ∀ k, k < s.hd → s.hd ≤ k + c.cap → s.ready (c.idx k) = k + 1 ∧ s.data (c.idx k) = pub[k]?
  rp : ∀ i, prod i = true → (s.h i).role = .none ∨ (s.h i).role = .producer
  rc : ∀ i, prod i = false → (s.h i).role = .none ∧ (s.h i).lt = 0 ∨
    (s.h i).role = .consumer ∧ (s.h i).lt ≤ (s.h i).lh ∧ (s.h i).lh ≤ s.hd
  tl : s.tl ≤ s.hd

theorem pure_init (c : Cfg) (prod : Nat → Bool) : Pure c prod (St.init α) [] := by
  constructor <;> simp [St.init]

/-- The position of the window that shares its slot with `k`. -/
theorem window_twin (cap k hd : Nat) (hc : 0 < cap) (h : k < hd) :
    ∃ m, m < hd ∧ hd ≤ m + cap ∧ k ≤ m ∧ m % cap = k % cap := by
  refine ⟨k + cap * ((hd - 1 - k) / cap), ?_, ?_, ?_, ?_⟩
  · have := Nat.mul_div_le (hd - 1 - k) cap; omega
  · have := Nat.lt_mul_div_succ (hd - 1 - k) hc
    rw [Nat.mul_add, Nat.mul_one] at this
    omega
  · omega
  · exact Nat.add_mul_mod_self_left ..

/-- A slot is marked for position `k` exactly while `k` is among the last `cap` positions. -/
theorem Pure.ready_iff {c : Cfg} {prod : Nat → Bool} {s : St α} {pub : List α} (hI : Pure c prod s pub)
    {k : Nat} (hk : k < s.hd) : s.ready (c.idx k) = k + 1 ↔ s.hd ≤ k + c.cap := by
  constructor
  · intro h
    obtain ⟨m, h1, h2, h3, h4⟩ := window_twin c.cap k s.hd c.cap_pos hk
    have he : c.idx m = c.idx k := by rw [c.idx_eq, c.idx_eq, h4]
    have := (hI.win m h1 h2).1
    rw [he, h] at this
    omega
  · intro h
    exact (hI.win k hk h).1

theorem canRecv_of {r : Role} (h : r = .consumer) : r.has false = true := by rw [h]; rfl

/-- Joining keeps the invariant and makes the handle a subscriber. -/
theorem Pure.ensure_recv {c : Cfg} {prod : Nat → Bool} {s : St α} {pub : List α} (hI : Pure c prod s pub)
    (j : Nat) (hj : prod j = false) : Pure c prod (ensure c s j false) pub ∧
      ((ensure c s j false).h j).role = .consumer := by
  rcases hI.rc j hj with ⟨h1, h2⟩ | ⟨h1, h2, h3⟩
  · have hcase : ∃ lt tl, lt ≤ s.hd ∧ tl ≤ s.hd ∧
        ensure c s j false = { (s.setH j ⟨.consumer, s.hd, lt⟩) with tl := tl } := by
      unfold ensure
      dsimp only
      rw [if_neg (by rw [h1]; decide)]
      have hr : addRole (s.h j).role false = .consumer := by rw [h1]; rfl
      rw [hr, h2, Nat.zero_max]
      have htl := hI.tl
      by_cases hx : false = false ∧ sub64 s.hd s.tl > c.cap
      · rw [if_pos hx]
        exact ⟨s.hd - c.cap, max s.tl (s.hd - c.cap), by omega, by omega, rfl⟩
      · rw [if_neg hx]
        exact ⟨s.tl, s.tl, htl, htl, rfl⟩
    obtain ⟨lt, tl, hlt, htl, he⟩ := hcase
    rw [he]
    refine ⟨⟨hI.hd, hI.win, ?_, ?_, htl⟩, ?_⟩
    · intro i hi
      have hne : i ≠ j := fun h => by rw [h, hj] at hi; cases hi
      show ((s.setH j _).h i).role = _ ∨ ((s.setH j _).h i).role = _
      rw [setH_ne s _ hne]
      exact hI.rp i hi
    · intro i hi
      show ((s.setH j ⟨.consumer, s.hd, lt⟩).h i).role = _ ∧ ((s.setH j ⟨.consumer, s.hd, lt⟩).h i).lt = 0 ∨
        ((s.setH j ⟨.consumer, s.hd, lt⟩).h i).role = _ ∧ ((s.setH j ⟨.consumer, s.hd, lt⟩).h i).lt ≤ ((s.setH j ⟨.consumer, s.hd, lt⟩).h i).lh ∧
          ((s.setH j ⟨.consumer, s.hd, lt⟩).h i).lh ≤ s.hd
      by_cases hne : i = j
      · subst hne
        rw [setH_h]
        exact Or.inr ⟨rfl, hlt, Nat.le_refl _⟩
      · rw [setH_ne s _ hne]
        exact hI.rc i hi
    · show ((s.setH j _).h j).role = _
      rw [setH_h]
  · have he : ensure c s j false = s := by unfold ensure; simp [canRecv_of h1]
    rw [he]
    exact ⟨hI, h1⟩

/-- The ring part of a receive. -/
theorem Pure.mpscRecv {c : Cfg} {prod : Nat → Bool} {s : St α} {pub : List α} (hI : Pure c prod s pub)
    (j : Nat) (hj : prod j = false) (hr : (s.h j).role = .consumer) :
    (mpscRecv c s j).1 = (if (s.h j).lt < s.hd ∧ s.hd ≤ (s.h j).lt + c.cap then pub[(s.h j).lt]? else none) ∧
      Pure c prod (mpscRecv c s j).2 pub ∧ ((mpscRecv c s j).2.h j).role = .consumer ∧
      ((mpscRecv c s j).2.h j).lt = (s.h j).lt + (if (s.h j).lt < s.hd ∧ s.hd ≤ (s.h j).lt + c.cap then 1 else 0) := by
  have hrc := hI.rc j hj
  rw [hr] at hrc
  have hb : (s.h j).lt ≤ (s.h j).lh ∧ (s.h j).lh ≤ s.hd := by
    rcases hrc with ⟨h, _⟩ | ⟨_, h⟩
    · cases h
    · exact h
  -- the cached head after the possible refresh
  have hlh : ∃ lh, (if (s.h j).lh = (s.h j).lt then s.hd else (s.h j).lh) = lh ∧ (s.h j).lt ≤ lh ∧ lh ≤ s.hd ∧
      (lh = (s.h j).lt ↔ (s.h j).lt = s.hd) := by
    by_cases h : (s.h j).lh = (s.h j).lt
    · rw [if_pos h]; exact ⟨s.hd, rfl, by omega, Nat.le_refl _, by omega⟩
    · rw [if_neg h]; exact ⟨(s.h j).lh, rfl, hb.1, hb.2, by omega⟩
  obtain ⟨lh, he, h1, h2, h3⟩ := hlh
  have keep : ∀ lt tl, lt ≤ lh → tl ≤ s.hd → Pure c prod { (s.setH j { (s.h j) with lh := lh, lt := lt }) with tl := tl } pub := by
    intro lt tl hlt htl
    refine ⟨hI.hd, hI.win, ?_, ?_, htl⟩
    · intro i hi
      have hne : i ≠ j := fun h => by rw [h, hj] at hi; cases hi
      show ((s.setH j _).h i).role = _ ∨ ((s.setH j _).h i).role = _
      rw [setH_ne s _ hne]
      exact hI.rp i hi
    · intro i hi
      show ((s.setH j { (s.h j) with lh := lh, lt := lt }).h i).role = _ ∧ ((s.setH j { (s.h j) with lh := lh, lt := lt }).h i).lt = 0 ∨
        ((s.setH j { (s.h j) with lh := lh, lt := lt }).h i).role = _ ∧ ((s.setH j { (s.h j) with lh := lh, lt := lt }).h i).lt ≤ ((s.setH j { (s.h j) with lh := lh, lt := lt }).h i).lh ∧
          ((s.setH j { (s.h j) with lh := lh, lt := lt }).h i).lh ≤ s.hd
      by_cases hne : i = j
      · subst hne
        rw [setH_h]
        exact Or.inr ⟨hr, hlt, h2⟩
      · rw [setH_ne s _ hne]
        exact hI.rc i hi
  unfold Handle.mpscRecv
  dsimp only
  rw [he]
  by_cases hx : lh = (s.h j).lt
  · have hne : ¬ ((s.h j).lt < s.hd ∧ s.hd ≤ (s.h j).lt + c.cap) := by have := h3.mp hx; omega
    rw [if_pos hx, if_neg hne, if_neg hne]
    refine ⟨rfl, keep (s.h j).lt s.tl h1 hI.tl, ?_, ?_⟩
    · show ((s.setH j _).h j).role = _; rw [setH_h]; exact hr
    · show ((s.setH j _).h j).lt = _; rw [setH_h]; rfl
  · rw [if_neg hx]
    have hlt : (s.h j).lt < s.hd := by omega
    have hri := hI.ready_iff hlt
    by_cases hw : s.hd ≤ (s.h j).lt + c.cap
    · have hcond : (s.h j).lt < s.hd ∧ s.hd ≤ (s.h j).lt + c.cap := ⟨hlt, hw⟩
      rw [if_neg (by rw [hri.mpr hw]; simp), if_pos hcond, if_pos hcond]
      refine ⟨(hI.win _ hlt hw).2, ?_, ?_, ?_⟩
      · refine keep ((s.h j).lt + 1) (if c.flushDue ((s.h j).lt + 1) then (s.h j).lt + 1 else s.tl) (by omega) ?_
        have := hI.tl
        split <;> omega
      · show ((s.setH j _).h j).role = _; rw [setH_h]; exact hr
      · show ((s.setH j _).h j).lt = _; rw [setH_h]
    · have hne : ¬ ((s.h j).lt < s.hd ∧ s.hd ≤ (s.h j).lt + c.cap) := fun h => hw h.2
      rw [if_pos (fun h => hw (hri.mp h)), if_neg hne, if_neg hne]
      refine ⟨rfl, keep (s.h j).lt s.tl h1 hI.tl, ?_, ?_⟩
      · show ((s.setH j _).h j).role = _; rw [setH_h]; exact hr
      · show ((s.setH j _).h j).lt = _; rw [setH_h]; rfl

theorem Pure.recv_eq {c : Cfg} {prod : Nat → Bool} {s : St α} {pub : List α} (hI : Pure c prod s pub)
    (j : Nat) (hj : prod j = false) : recv c s j = Handle.mpscRecv c (ensure c s j false) j := by
  unfold recv
  dsimp only
  rw [if_neg, tryRecv]
  rcases hI.rc j hj with ⟨h, _⟩ | ⟨h, _⟩ <;> (rw [h]; decide)

/-- A receive of a subscriber: the next message if there is one and it has not been overwritten,
otherwise nothing, and then the subscriber's position does not move. -/
theorem Pure.recv {c : Cfg} {prod : Nat → Bool} {s : St α} {pub : List α} (hI : Pure c prod s pub)
    (j : Nat) (hj : prod j = false) :
    (recv c s j).1 = (if nextPos c s j < pub.length ∧ pub.length ≤ nextPos c s j + c.cap then pub[nextPos c s j]? else none) ∧
      Pure c prod (recv c s j).2 pub ∧ ((Handle.recv c s j).2.h j).role = .consumer ∧
      ((Handle.recv c s j).2.h j).lt = nextPos c s j + (if nextPos c s j < pub.length ∧ pub.length ≤ nextPos c s j + c.cap then 1 else 0) := by
  obtain ⟨hE, hr⟩ := hI.ensure_recv j hj
  have hhd : (ensure c s j false).hd = pub.length := hE.hd
  have := hE.mpscRecv j hj hr
  rw [hhd] at this
  rw [hI.recv_eq j hj]
  exact this

/-- A send of a publisher publishes its message at the end or, the ring being full, nothing. -/
theorem Pure.send {c : Cfg} {prod : Nat → Bool} {s : St α} {pub : List α} (hI : Pure c prod s pub)
    (i : Nat) (v : α) (hi : prod i = true) :
    Pure c prod (send c s i v) (pub ++ (if (Handle.send c s i v).hd = s.hd then [] else [v])) := by
  have hrole := hI.rp i hi
  have hse : Handle.send c s i v = (mpSend c (ensure c s i true) i v).2 := by
    unfold Handle.send
    dsimp only
    rw [if_neg, trySend]
    rintro ⟨h, _⟩
    rw [h] at hrole
    rcases hrole with h | h <;> cases h
  obtain ⟨e1, e2, e3⟩ := ensure_shared c s i true
  have etl : (ensure c s i true).tl = s.tl := by
    unfold ensure
    dsimp only
    split
    · rfl
    · rw [if_neg (by simp)]; rfl
  have erole : ((ensure c s i true).h i).role = .producer := by
    unfold ensure
    dsimp only
    rcases hrole with h | h
    · rw [if_neg (by rw [h]; decide), if_neg (by simp), setH_h]
      show addRole _ true = _
      rw [h]; rfl
    · rw [if_pos (by rw [h]; rfl)]; exact h
  have hne : ∀ k, prod k = false → k ≠ i := fun k hk h => by rw [h, hi] at hk; cases hk
  -- the two outcomes of the ring
  have hout : (∃ x : Hnd, x.role = .producer ∧ Handle.send c s i v = (ensure c s i true).setH i x) ∨
      (∃ x : Hnd, x.role = .producer ∧ Handle.send c s i v = { ((ensure c s i true).setH i x) with
        hd := s.hd + 1, ready := upd s.ready (c.idx s.hd) (s.hd + 1), data := upd s.data (c.idx s.hd) (some v) }) := by
    rw [hse]
    unfold mpSend
    dsimp only
    rw [e1, e2, e3]
    generalize (if sub64 s.hd ((ensure c s i true).h i).lt ≥ c.cap then (ensure c s i true).tl else ((ensure c s i true).h i).lt) = lt
    split
    · exact Or.inl ⟨{ ((ensure c s i true).h i) with lt := lt }, erole, rfl⟩
    · exact Or.inr ⟨{ ((ensure c s i true).h i) with lt := lt, lh := s.hd + 1 }, erole, rfl⟩
  have hroles : ∀ (x : Hnd), x.role = .producer → ∀ k, prod k = true →
      ((((ensure c s i true).setH i x)).h k).role = .none ∨ ((((ensure c s i true).setH i x)).h k).role = .producer := by
    intro x hx k hk
    by_cases h : k = i
    · subst h; rw [setH_h]; exact Or.inr hx
    · rw [setH_ne _ _ h, ensure_frame c s _ h]; exact hI.rp k hk
  have hcons : ∀ (x : Hnd) (hd' : Nat), s.hd ≤ hd' → ∀ k, prod k = false →
      ((((ensure c s i true).setH i x)).h k).role = .none ∧ ((((ensure c s i true).setH i x)).h k).lt = 0 ∨
      ((((ensure c s i true).setH i x)).h k).role = .consumer ∧ ((((ensure c s i true).setH i x)).h k).lt ≤ ((((ensure c s i true).setH i x)).h k).lh ∧
        ((((ensure c s i true).setH i x)).h k).lh ≤ hd' := by
    intro x hd' hle k hk
    rw [setH_ne _ _ (hne k hk), ensure_frame c s _ (hne k hk)]
    rcases hI.rc k hk with h | ⟨h1, h2, h3⟩
    · exact Or.inl h
    · exact Or.inr ⟨h1, h2, by omega⟩
  rcases hout with ⟨x, hx, he⟩ | ⟨x, hx, he⟩
  · have hh : (Handle.send c s i v).hd = s.hd := by rw [he]; exact e1
    rw [if_pos hh, List.append_nil, he]
    refine ⟨?_, ?_, hroles x hx, ?_, ?_⟩
    · show (ensure c s i true).hd = _; rw [e1]; exact hI.hd
    · show ∀ k, k < (ensure c s i true).hd → (ensure c s i true).hd ≤ k + c.cap → (ensure c s i true).ready (c.idx k) = k + 1 ∧ (ensure c s i true).data (c.idx k) = _
      rw [e1, e2, e3]; exact hI.win
    · exact hcons x _ (by show s.hd ≤ (ensure c s i true).hd; rw [e1])
    · show (ensure c s i true).tl ≤ (ensure c s i true).hd; rw [etl, e1]; exact hI.tl
  · have hh : ¬ (Handle.send c s i v).hd = s.hd := by rw [he]; show ¬ s.hd + 1 = s.hd; omega
    rw [if_neg hh, he]
    have hhd := hI.hd
    refine ⟨?_, ?_, hroles x hx, hcons x _ (by show s.hd ≤ s.hd + 1; omega), ?_⟩
    · show s.hd + 1 = _; simp [hhd]
    · show ∀ k, k < s.hd + 1 → s.hd + 1 ≤ k + c.cap → upd s.ready (c.idx s.hd) (s.hd + 1) (c.idx k) = k + 1 ∧
        upd s.data (c.idx s.hd) (some v) (c.idx k) = (pub ++ [v])[k]?
      intro k hk hw
      rcases Nat.lt_succ_iff_lt_or_eq.mp hk with h | h
      · have hn := c.idx_ne (a := k) (b := s.hd) h (by omega)
        rw [upd_ne _ _ hn, upd_ne _ _ hn]
        obtain ⟨w1, w2⟩ := hI.win k h (by omega)
        exact ⟨w1, by rw [w2, getElem?_snoc_lt _ _ (by omega)]⟩
      · subst h
        rw [upd_same, upd_same]
        exact ⟨rfl, by rw [hhd, getElem?_snoc_eq]⟩
    · show (ensure c s i true).tl ≤ s.hd + 1; rw [etl]; have := hI.tl; omega

/-- What a subscriber has been handed so far: nothing before it joined, afterwards the stretch of the
published sequence from where it joined up to its position. -/
def Got (s : St α) (j : Nat) (pub got : List α) : Prop :=
  ((s.h j).role = .none ∧ got = []) ∨
    ((s.h j).role = .consumer ∧ ∃ st, st + got.length = (s.h j).lt ∧ got = (pub.drop st).take got.length)

theorem take_snoc_of (pub : List α) (st n : Nat) (v : α) (h : pub[st + n]? = some v) :
    (pub.drop st).take (n + 1) = (pub.drop st).take n ++ [v] := by
  have hx : (pub.drop st)[n]? = some v := by rw [List.getElem?_drop]; exact h
  rw [List.take_add_one, hx]
  rfl

theorem take_append_of (pub ext : List α) (st n : Nat) (h : st + n ≤ pub.length) :
    ((pub ++ ext).drop st).take n = (pub.drop st).take n := by
  rw [List.drop_append_of_le_length (by omega), List.take_append_of_le_length (by rw [List.length_drop]; omega)]

theorem stream_run (c : Cfg) (prod : Nat → Bool) (j : Nat) (hj : prod j = false) (as : List (Act α)) (s : St α)
    (pub got : List α) (hI : Pure c prod s pub) (hg : Got s j pub got) (ha : OneRole prod as) :
    Pure c prod (run c s as).2 (pub ++ published c s as) ∧
      Got (run c s as).2 j (pub ++ published c s as) (got ++ received j (run c s as).1) := by
  induction as generalizing s pub got with
  | nil => simpa [run, published, received, outputs] using ⟨hI, hg⟩
  | cons x as ih =>
    have ha' : OneRole prod as := fun y hy => ha y (List.mem_cons_of_mem _ hy)
    have hx := ha x (List.mem_cons_self ..)
    have hrec : received j (run c s (x :: as)).1 = received j (step c s x).1 ++ received j (run c (step c s x).2 as).1 := by
      unfold received
      show List.filterMap id (outputs j ((step c s x).1 ++ (run c (step c s x).2 as).1)) = _
      rw [outputs_append, List.filterMap_append]
    have hlen : ∀ st : Nat, st + got.length = (s.h j).lt → (s.h j).role = .consumer → st + got.length ≤ pub.length := by
      intro st h hr
      rcases hI.rc j hj with ⟨h1, _⟩ | ⟨_, h1, h2⟩
      · rw [hr] at h1; cases h1
      · have := hI.hd; omega
    cases x with
    | send i v =>
      have hpi : prod i = true := hx
      have hne : j ≠ i := fun h => by rw [h, hpi] at hj; cases hj
      have hI' := hI.send i v hx
      have hg' : Got (send c s i v) j (pub ++ (if (send c s i v).hd = s.hd then [] else [v])) got := by
        unfold Got
        rw [send_frame c s v hne]
        rcases hg with h | ⟨h1, st, h2, h3⟩
        · exact Or.inl h
        · refine Or.inr ⟨h1, st, h2, ?_⟩
          rw [take_append_of pub _ st _ (hlen st h2 h1)]
          exact h3
      have := ih (send c s i v) _ got hI' hg' ha'
      rw [hrec, show received j (step c s (.send i v)).1 = [] from rfl, List.nil_append]
      show Pure c prod (run c (send c s i v) as).2 (pub ++ (_ ++ published c (send c s i v) as)) ∧
        Got (run c (send c s i v) as).2 j (pub ++ (_ ++ published c (send c s i v) as)) _
      rw [← List.append_assoc]
      exact this
    | recv i =>
      have hpubs : published c s (.recv i :: as) = published c (recv c s i).2 as := by simp [published, step]
      rw [hpubs]
      by_cases hij : i = j
      · subst hij
        obtain ⟨r1, r2, r3, r4⟩ := hI.recv i hj
        have hgot : received i (step c s (.recv i)).1 = (recv c s i).1.toList := by
          unfold received
          rw [outputs_recv]
          cases (recv c s i).1 <;> rfl
        have hg' : Got (recv c s i).2 i pub (got ++ (recv c s i).1.toList) := by
          refine Or.inr ⟨r3, ?_⟩
          -- where the subscriber stands
          have hst : ∃ st, st + got.length = nextPos c s i ∧ got = (pub.drop st).take got.length := by
            rcases hg with ⟨_, h2⟩ | ⟨h1, st, h2, h3⟩
            · subst h2; exact ⟨nextPos c s i, rfl, rfl⟩
            · refine ⟨st, ?_, h3⟩
              have he : ensure c s i false = s := by unfold ensure; simp [canRecv_of h1]
              unfold nextPos
              rw [he]
              exact h2
          obtain ⟨st, h2, h3⟩ := hst
          refine ⟨st, ?_⟩
          rw [r1, r4]
          by_cases hw : nextPos c s i < pub.length ∧ pub.length ≤ nextPos c s i + c.cap
          · rw [if_pos hw, if_pos hw]
            have hsome : pub[nextPos c s i]? = some pub[nextPos c s i] := List.getElem?_eq_getElem hw.1
            rw [hsome]
            simp only [Option.toList, List.length_append, List.length_singleton]
            refine ⟨by omega, ?_⟩
            rw [take_snoc_of pub st got.length _ (by rw [h2]; exact hsome), ← h3]
          · rw [if_neg hw, if_neg hw]
            simp only [Option.toList, List.append_nil, Nat.add_zero]
            exact ⟨h2, h3⟩
        have := ih (recv c s i).2 pub _ r2 hg' ha'
        rw [hrec, hgot, ← List.append_assoc]
        exact this
      · obtain ⟨_, r2, _, _⟩ := hI.recv i hx
        have hne : j ≠ i := fun h => hij h.symm
        have hg' : Got (recv c s i).2 j pub got := by
          unfold Got
          rw [recv_frame c s hne]
          exact hg
        have := ih (recv c s i).2 pub got r2 hg' ha'
        have h0 : received j (step c s (.recv i)).1 = [] := by
          unfold received
          rw [outputs_other c s (.recv i) (j := j) hne]
          rfl
        rw [hrec, h0, List.nil_append]
        exact this
    | epoch i => exact absurd hx (by simp)

/-- Handles that keep to one role: what a subscriber receives is a stretch of the published sequence
without gap, repetition or reordering, beginning where it joined. -/
theorem subscriber_stream (c : Cfg) (prod : Nat → Bool) (j : Nat) (hj : prod j = false) (as : List (Act α))
    (ha : OneRole prod as) :
    ∃ st, received j (run c (St.init α) as).1 =
      ((published c (St.init α) as).drop st).take (received j (run c (St.init α) as).1).length := by
  have := (stream_run c prod j hj as (St.init α) [] [] (pure_init c prod) (Or.inl ⟨rfl, rfl⟩) ha).2
  rw [List.nil_append, List.nil_append] at this
  rcases this with ⟨_, h⟩ | ⟨_, st, _, h⟩
  · exact ⟨0, by rw [h]; rfl⟩
  · exact ⟨st, h⟩

/-- When the next poll of a subscriber returns a message: exactly when something it has not read has
been published and it is at most one ring behind. Together with `stuck_forever` this says what is
missing from the full claim: a subscriber that falls further behind is never served again. -/
theorem subscriber_served_partial (c : Cfg) (prod : Nat → Bool) (j : Nat) (hj : prod j = false) (as : List (Act α))
    (ha : OneRole prod as) :
    let s := (run c (St.init α) as).2
    let pub := published c (St.init α) as
    (recv c s j).1 = if nextPos c s j < pub.length ∧ pub.length ≤ nextPos c s j + c.cap then pub[nextPos c s j]? else none := by
  have := (stream_run c prod j hj as (St.init α) [] [] (pure_init c prod) (Or.inl ⟨rfl, rfl⟩) ha).1
  rw [List.nil_append] at this
  exact (this.recv j hj).1

/-- Non-vacuity: two publishers, two subscribers, one of which joins late. -/
example : OneRole (fun i => i < 2) ([.recv 2, .send 0 1, .send 1 2, .recv 2, .recv 3, .send 0 3, .recv 3, .recv 2] : List (Act Nat)) ∧
    published c4 (St.init Nat) [.recv 2, .send 0 1, .send 1 2, .recv 2, .recv 3, .send 0 3, .recv 3, .recv 2] = [1, 2, 3] ∧
    received 3 (run c4 (St.init Nat) [.recv 2, .send 0 1, .send 1 2, .recv 2, .recv 3, .send 0 3, .recv 3, .recv 2]).1 = [1, 2] := by
  refine ⟨?_, by decide, by decide⟩
  intro x hx
  simp at hx
  rcases hx with rfl | rfl | rfl | rfl | rfl | rfl | rfl | rfl <;> simp

/-- `lapped` is such a history: the subscriber cut off in `slow_subscriber_cut_off` kept to its role. -/
example : OneRole (fun i => i == 0) lapped := by
  intro x hx
  simp [lapped] at hx
  rcases hx with rfl | rfl | rfl | rfl | rfl | rfl | rfl | rfl <;> rfl

end Horus.Handle
