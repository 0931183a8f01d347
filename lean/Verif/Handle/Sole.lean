import Verif.Handle.Pure
/-
A topic with a single subscriber handle: nothing published is overwritten before it is read.
-/
namespace Horus.Handle
open Horus.Ring
variable {α : Type}

/-- Handle `j` is the only one that receives. -/
def OneReader (j : Nat) (as : List (Act α)) : Prop :=
  ∀ x ∈ as, match x with
    | .recv i => i = j
    | _ => True

/-- The invariant: the shared tail is never past the subscriber, no publisher's copy is past the tail,
and the head is at most one ring past the tail. `n` messages have been read. -/
structure Sole (c : Cfg) (j : Nat) (s : St α) (n : Nat) : Prop where
  rd : ((s.h j).role = .none ∧ (s.h j).lt = 0 ∧ s.tl = 0 ∧ n = 0) ∨ ((s.h j).role = .consumer ∧ s.tl ≤ (s.h j).lt ∧ (s.h j).lt = n)
  pr : ∀ i, i ≠ j → (s.h i).lt ≤ s.tl
  wd : s.hd ≤ s.tl + c.cap

theorem sole_init (c : Cfg) (j : Nat) : Sole c j (St.init α) 0 := by
  constructor <;> simp [St.init]

theorem sub64_le {a b : Nat} (h : b ≤ a) (ha : a < 2 ^ 64) : sub64 a b = a - b := by
  unfold sub64
  omega

theorem Sole.send {c : Cfg} {prod : Nat → Bool} {s : St α} {pub : List α} {j n : Nat} (hI : Pure c prod s pub)
    (hS : Sole c j s n) (hj : prod j = false) (i : Nat) (v : α) (hi : prod i = true) (hb : s.hd < 2 ^ 64) :
    Sole c j (send c s i v) n := by
  have hne : j ≠ i := fun h => by rw [h, hi] at hj; cases hj
  have hrole := hI.rp i hi
  have hse : Handle.send c s i v = (mpSend c (ensure c s i true) i v).2 := by
    unfold Handle.send
    dsimp only
    rw [if_neg, trySend]
    rintro ⟨h, _⟩
    rw [h] at hrole
    rcases hrole with h | h <;> cases h
  obtain ⟨e1, e2, e3⟩ := ensure_shared c s i true
  have etl : (ensure c s i true).tl = s.tl := by
    unfold ensure
    dsimp only
    split
    · rfl
    · rw [if_neg (by simp)]; rfl
  have elt : ((ensure c s i true).h i).lt ≤ s.tl := by
    have hp := hS.pr i (fun h => hne h.symm)
    unfold ensure
    dsimp only
    split
    · exact hp
    · rw [if_neg (by simp), setH_h]
      show max (s.h i).lt s.tl ≤ s.tl
      omega
  have hoth : ∀ k, k ≠ i → (Handle.send c s i v).h k = s.h k := fun k hk => send_frame c s v hk
  have htl := hI.tl
  have hw := hS.wd
  have hcap := c.cap_pos
  have key : (Handle.send c s i v).tl = s.tl ∧ ((Handle.send c s i v).h i).lt ≤ s.tl ∧
      (Handle.send c s i v).hd ≤ s.tl + c.cap := by
    rw [hse]
    unfold mpSend
    dsimp only
    rw [e1, etl]
    have hlt : (if sub64 s.hd ((ensure c s i true).h i).lt ≥ c.cap then s.tl else ((ensure c s i true).h i).lt) ≤ s.tl := by
      split
      · exact Nat.le_refl _
      · exact elt
    generalize (if sub64 s.hd ((ensure c s i true).h i).lt ≥ c.cap then s.tl else ((ensure c s i true).h i).lt) = lt at hlt ⊢
    rw [sub64_le (by omega) hb]
    by_cases hfull : s.hd - lt ≥ c.cap
    · rw [if_pos hfull]
      refine ⟨?_, ?_, ?_⟩
      · exact etl
      · rw [setH_h]; exact hlt
      · show (ensure c s i true).hd ≤ _
        rw [e1]; exact hw
    · rw [if_neg hfull]
      refine ⟨?_, ?_, ?_⟩
      · exact etl
      · show (((ensure c s i true).setH i _).h i).lt ≤ s.tl
        rw [setH_h]; exact hlt
      · show s.hd + 1 ≤ _
        omega
  refine ⟨?_, ?_, ?_⟩
  · rw [hoth j hne, key.1]
    exact hS.rd
  · intro k hk
    rw [key.1]
    by_cases h : k = i
    · subst h; exact key.2.1
    · rw [hoth k h]; exact hS.pr k hk
  · rw [key.1]; exact key.2.2

/-- Where the subscriber stands, joined or not. -/
theorem Sole.next {c : Cfg} {prod : Nat → Bool} {s : St α} {pub : List α} {j n : Nat} (hI : Pure c prod s pub)
    (hS : Sole c j s n) (hb : s.hd < 2 ^ 64) :
    nextPos c s j = n ∧ (ensure c s j false).tl = s.tl ∧ s.hd ≤ n + c.cap := by
  have hw := hS.wd
  have htl := hI.tl
  rcases hS.rd with ⟨h1, h2, h3, h4⟩ | ⟨h1, h2, h3⟩
  · have he : ensure c s j false = s.setH j ⟨addRole (s.h j).role false, s.hd, 0⟩ := by
      unfold ensure
      dsimp only
      have hm : max (s.h j).lt s.tl = 0 := by omega
      rw [if_neg (by rw [h1]; decide), hm, if_neg]
      rintro ⟨_, h⟩
      rw [sub64_le (by omega) hb] at h
      omega
    unfold nextPos
    rw [he, setH_h]
    refine ⟨h4.symm, rfl, by omega⟩
  · have he : ensure c s j false = s := by unfold ensure; simp [canRecv_of h1]
    unfold nextPos
    rw [he]
    exact ⟨h3, rfl, by omega⟩

theorem Sole.recv {c : Cfg} {prod : Nat → Bool} {s : St α} {pub : List α} {j n : Nat} (hI : Pure c prod s pub)
    (hS : Sole c j s n) (hj : prod j = false) (hb : s.hd < 2 ^ 64) :
    (recv c s j).1 = pub[n]? ∧ Sole c j (recv c s j).2 (n + (pub[n]?).toList.length) := by
  obtain ⟨n1, n2, n3⟩ := hS.next hI hb
  obtain ⟨r1, r2, r3, r4⟩ := hI.recv j hj
  have hhd := hI.hd
  rw [n1] at r1 r4
  have hv : (Handle.recv c s j).1 = pub[n]? := by
    rw [r1]
    by_cases h : n < pub.length
    · rw [if_pos ⟨h, by omega⟩]
    · rw [if_neg (fun x => h x.1), List.getElem?_eq_none (by omega)]
  have hlt : ((Handle.recv c s j).2.h j).lt = n + (pub[n]?).toList.length := by
    rw [r4]
    by_cases h : n < pub.length
    · rw [if_pos ⟨h, by omega⟩, List.getElem?_eq_getElem h]; rfl
    · rw [if_neg (fun x => h x.1), List.getElem?_eq_none (by omega)]; rfl
  have htl2 : s.tl ≤ (Handle.recv c s j).2.tl ∧ (Handle.recv c s j).2.tl ≤ ((Handle.recv c s j).2.h j).lt := by
    have hle : s.tl ≤ n := by
      rcases hS.rd with ⟨h1, h2, h3, h4⟩ | ⟨h1, h2, h3⟩ <;> omega
    have hx : ((ensure c s j false).h j).lt = n := n1
    rw [hI.recv_eq j hj]
    unfold Handle.mpscRecv
    dsimp only
    rw [hx, n2]
    generalize (if ((ensure c s j false).h j).lh = n then (ensure c s j false).hd else ((ensure c s j false).h j).lh) = lh
    split
    · rw [setH_h]
      show s.tl ≤ (ensure c s j false).tl ∧ (ensure c s j false).tl ≤ n
      rw [n2]; omega
    · split
      · rw [setH_h]
        show s.tl ≤ (ensure c s j false).tl ∧ (ensure c s j false).tl ≤ n
        rw [n2]; omega
      · show s.tl ≤ (if c.flushDue (n + 1) then n + 1 else s.tl) ∧ (if c.flushDue (n + 1) then n + 1 else s.tl) ≤ (((ensure c s j false).setH j _).h j).lt
        rw [setH_h]
        show s.tl ≤ (if c.flushDue (n + 1) then n + 1 else s.tl) ∧ (if c.flushDue (n + 1) then n + 1 else s.tl) ≤ n + 1
        split <;> omega
  have hhd2 : (Handle.recv c s j).2.hd = s.hd := by rw [r2.hd, hhd]
  refine ⟨hv, Or.inr ⟨r3, htl2.2, hlt⟩, ?_, ?_⟩
  · intro i hi
    rw [recv_frame c s hi]
    have := hS.pr i hi
    omega
  · have := hS.wd
    omega

theorem sole_run (c : Cfg) (prod : Nat → Bool) (j : Nat) (hj : prod j = false) (as : List (Act α)) (s : St α)
    (pub : List α) (n : Nat) (hI : Pure c prod s pub) (hS : Sole c j s n) (hn : n ≤ pub.length) (ha : OneRole prod as) (ho : OneReader j as)
    (hb : pub.length + as.length < 2 ^ 64) :
    Pure c prod (run c s as).2 (pub ++ published c s as) ∧
      Sole c j (run c s as).2 (n + (received j (run c s as).1).length) ∧
      n + (received j (run c s as).1).length ≤ (pub ++ published c s as).length ∧
      received j (run c s as).1 = ((pub ++ published c s as).drop n).take (received j (run c s as).1).length := by
  induction as generalizing s pub n with
  | nil => simpa [run, published, received, outputs] using ⟨hI, hS, hn⟩
  | cons x as ih =>
    have ha' : OneRole prod as := fun y hy => ha y (List.mem_cons_of_mem _ hy)
    have ho' : OneReader j as := fun y hy => ho y (List.mem_cons_of_mem _ hy)
    have hx := ha x (List.mem_cons_self ..)
    have hox := ho x (List.mem_cons_self ..)
    have hhd : s.hd < 2 ^ 64 := by have := hI.hd; simp only [List.length_cons] at hb; omega
    have hrec : received j (run c s (x :: as)).1 = received j (step c s x).1 ++ received j (run c (step c s x).2 as).1 := by
      unfold received
      show List.filterMap id (outputs j ((step c s x).1 ++ (run c (step c s x).2 as).1)) = _
      rw [outputs_append, List.filterMap_append]
    cases x with
    | send i v =>
      have hpi : prod i = true := hx
      have hI' := hI.send i v hpi
      have hS' := hS.send hI hj i v hpi hhd
      have hlen : (pub ++ (if (send c s i v).hd = s.hd then [] else [v])).length ≤ pub.length + 1 := by
        split <;> simp
      have := ih (send c s i v) _ n hI' hS' (by simp only [List.length_append]; omega) ha' ho' (by simp only [List.length_cons] at hb; omega)
      rw [hrec, show received j (step c s (.send i v)).1 = [] from rfl, List.nil_append]
      have hp : pub ++ published c s (.send i v :: as) =
          pub ++ (if (send c s i v).hd = s.hd then [] else [v]) ++ published c (send c s i v) as := by
        rw [List.append_assoc]; rfl
      rw [hp]
      exact this
    | recv i =>
      have hij : i = j := hox
      subst hij
      have hpubs : published c s (.recv i :: as) = published c (recv c s i).2 as := by simp [published, step]
      rw [hpubs]
      obtain ⟨q1, q2⟩ := hS.recv hI hj hhd
      have hI' := (hI.recv i hj).2.1
      have hgot : received i (step c s (.recv i)).1 = (pub[n]?).toList := by
        unfold received
        rw [outputs_recv, q1]
        cases pub[n]? <;> rfl
      have hle : n + (pub[n]?).toList.length ≤ pub.length := by
        by_cases h : n < pub.length
        · rw [List.getElem?_eq_getElem h]; simp only [Option.toList, List.length_singleton]; omega
        · rw [List.getElem?_eq_none (by omega)]; simpa using hn
      have := ih (recv c s i).2 pub _ hI' q2 hle ha' ho' (by simp only [List.length_cons] at hb; omega)
      rw [hrec, hgot]
      have hrun : (run c s (.recv i :: as)).2 = (run c (recv c s i).2 as).2 := rfl
      have hst : (step c s (.recv i)).2 = (recv c s i).2 := rfl
      rw [hrun, hst]
      obtain ⟨t1, t2, t3, t4⟩ := this
      refine ⟨t1, ?_, ?_, ?_⟩
      · rw [List.length_append, ← Nat.add_assoc]; exact t2
      · rw [List.length_append, ← Nat.add_assoc]; exact t3
      · by_cases h : n < pub.length
        · rw [List.getElem?_eq_getElem h] at t4 ⊢
          simp only [Option.toList, List.length_singleton, List.singleton_append] at t4 ⊢
          rw [List.drop_eq_getElem_cons (i := n) (by simp only [List.length_append]; omega), List.length_cons, List.take_succ_cons, ← t4]
          congr 1
          rw [List.getElem_append_left h]
        · rw [List.getElem?_eq_none (by omega)] at t4 ⊢
          simpa using t4
    | epoch i => exact absurd hx (by simp)

/-- A topic whose handles keep to one role and that has a single subscriber handle: the subscriber
receives exactly the accepted messages, from the first one on, in order and without a gap, and its next
receive returns the next one whenever there is one: nothing accepted is lost or overwritten, however
far publishers run ahead. -/
theorem sole_subscriber_exact (c : Cfg) (prod : Nat → Bool) (j : Nat) (hj : prod j = false) (as : List (Act α))
    (ha : OneRole prod as) (ho : OneReader j as) (hb : as.length < 2 ^ 64) :
    let s := (run c (St.init α) as).2
    let pub := published c (St.init α) as
    let got := received j (run c (St.init α) as).1
    got = pub.take got.length ∧ (recv c s j).1 = pub[got.length]? := by
  obtain ⟨t1, t2, t3, t4⟩ := sole_run c prod j hj as (St.init α) [] 0 (pure_init c prod) (sole_init c j) (Nat.le_refl _) ha ho (by simpa using hb)
  simp only [List.nil_append, Nat.zero_add, List.drop_zero] at t1 t2 t4
  refine ⟨t4, ?_⟩
  have hlen : (published c (St.init α) as).length ≤ as.length := by
    generalize St.init α = s0
    clear t1 t2 t3 t4 hb ho ha
    induction as generalizing s0 with
    | nil => simp [published]
    | cons x as ih =>
      have := ih (step c s0 x).2
      cases x with
      | send i v =>
        simp only [published, List.length_append, List.length_cons]
        have h1 : (if (send c s0 i v).hd = s0.hd then ([] : List α) else [v]).length ≤ 1 := by split <;> simp
        omega
      | recv i => simp only [published, List.length_append, List.length_cons, List.length_nil]; omega
      | epoch i => simp only [published, List.length_append, List.length_cons, List.length_nil]; omega
  exact (t2.recv t1 hj (by have := t1.hd; omega)).1

/-- Non-vacuity: a publisher fills the ring of four, is refused twice, and goes on after reads. -/
example : OneReader 1 ([.send 0 1, .send 0 2, .send 0 3, .send 0 4, .send 0 5, .recv 1, .recv 1, .recv 1, .recv 1, .send 0 6, .recv 1] : List (Act Nat)) ∧
    published c4 (St.init Nat) [.send 0 1, .send 0 2, .send 0 3, .send 0 4, .send 0 5, .recv 1, .recv 1, .recv 1, .recv 1, .send 0 6, .recv 1] = [1, 2, 3, 4, 6] ∧
    received 1 (run c4 (St.init Nat) [.send 0 1, .send 0 2, .send 0 3, .send 0 4, .send 0 5, .recv 1, .recv 1, .recv 1, .recv 1, .send 0 6, .recv 1]).1 = [1, 2, 3, 4, 6] := by
  refine ⟨?_, by decide, by decide⟩
  intro x hx
  simp at hx
  rcases hx with rfl | rfl | rfl | rfl | rfl | rfl | rfl | rfl | rfl | rfl | rfl <;> simp

end Horus.Handle
