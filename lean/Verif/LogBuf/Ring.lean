import Verif.LogBuf.Model
import Mathlib.Tactic.Common
import Mathlib.Data.List.Induction
/-
C65, the ring: which entries a read returns. C84: the drain loops.
-/
namespace Horus.LogBuf
open Horus Horus.Ring

variable {α : Type}

/-- The index and entry a writer is working on. -/
def Pc.inflight : Pc α → Option (Nat × α)
  | .idle => none
  | .claimed i e => some (i, e)
  | .marked i e => some (i, e)
  | .half i e => some (i, e)
  | .full i e => some (i, e)

/-- What the slot looks like while a writer works on it. -/
def Partly (sl : Slot α) : Pc α → Prop
  | .marked i _ => sl.seq = 2 * i + 1
  | .half i e => sl.seq = 2 * i + 1 ∧ sl.lo = some e
  | .full i e => sl.seq = 2 * i + 1 ∧ sl.lo = some e ∧ sl.hi = some e
  | _ => True

/-- Invariant of the shared ring: every slot is what its last writer left, unless a writer was overtaken. -/
structure Inv (cap : Nat) (s : St α) : Prop where
  len : s.claims.length = s.widx
  fly : ∀ t i e, (s.pc t).inflight = some (i, e) → i < s.widx ∧ s.widx ≤ i + cap ∧ s.claims[i]? = some e
  uniq : ∀ t u i e e', (s.pc t).inflight = some (i, e) → (s.pc u).inflight = some (i, e') → t = u
  part : ∀ t i e, (s.pc t).inflight = some (i, e) → Partly (s.slots (i % cap)) (s.pc t)
  done : ∀ i, i < s.widx → s.widx ≤ i + cap → (∀ t e, (s.pc t).inflight ≠ some (i, e)) →
    s.slots (i % cap) = ⟨2 * i + 2, s.claims[i]?, s.claims[i]?⟩

theorem inv_init (cap : Nat) : Inv cap ({} : St α) := by
  constructor <;> simp [Pc.inflight]

/-- No writer is overtaken by a whole ring: when an index is claimed, every index still being written
is less than a ring behind. -/
def NoLap (cap : Nat) : St α → List (Act α) → Prop
  | _, [] => True
  | s, .claim t e :: as =>
    (s.pc t = .idle → ∀ u i x, (s.pc u).inflight = some (i, x) → s.widx < i + cap) ∧ NoLap cap (step cap s (.claim t e)) as
  | s, .go t :: as => NoLap cap (step cap s (.go t)) as

theorem mod_ne {cap i j w : Nat} (hi : i < w) (hi' : w ≤ i + cap) (hj : j < w) (hj' : w ≤ j + cap) (hne : i ≠ j) :
    i % cap ≠ j % cap := by
  have aux : ∀ a b, a < b → b < a + cap → a % cap ≠ b % cap := by
    intro a b hab hlt e
    have h1 := Nat.div_add_mod a cap
    have h2 := Nat.div_add_mod b cap
    have hc : 0 < cap := by omega
    have : a / cap < b / cap ∨ b / cap ≤ a / cap := by omega
    rcases this with h | h
    · have h3 := Nat.mul_le_mul_left cap (show a / cap + 1 ≤ b / cap from h)
      rw [Nat.mul_add, Nat.mul_one] at h3
      omega
    · have h3 := Nat.mul_le_mul_left cap h
      omega
  intro e
  rcases Nat.lt_or_ge i j with h | h
  · exact aux i j h (by omega) e
  · exact aux j i (by omega) (by omega) e.symm

theorem upd_pc (f : Nat → Pc α) (t u : Nat) (q : Pc α) : upd f t q u = if u = t then q else f u := by
  by_cases e : u = t
  · subst e; simp
  · rw [upd_ne _ _ e, if_neg e]

/-- A writer moves on inside its slot. -/
theorem inv_work {cap : Nat} {s s' : St α} (h : Inv cap s) (t i : Nat) (e : α) (q : Pc α) (sl : Slot α)
    (hp : (s.pc t).inflight = some (i, e)) (hq : q.inflight = some (i, e)) (hsl : Partly sl q)
    (h1 : s'.widx = s.widx) (h2 : s'.slots = upd s.slots (i % cap) sl) (h3 : s'.pc = upd s.pc t q)
    (h4 : s'.claims = s.claims) : Inv cap s' := by
  have infl : ∀ u, (s'.pc u).inflight = (s.pc u).inflight := by
    intro u; rw [h3, upd_pc]
    by_cases e' : u = t
    · subst e'; rw [if_pos rfl, hq, hp]
    · rw [if_neg e']
  refine ⟨by rw [h1, h4]; exact h.len, ?_, ?_, ?_, ?_⟩
  · intro u j x hu; rw [infl] at hu; rw [h1, h4]; exact h.fly u j x hu
  · intro u v j x y hu hv; rw [infl] at hu hv; exact h.uniq u v j x y hu hv
  · intro u j x hu
    rw [infl] at hu
    by_cases e' : u = t
    · subst e'
      rw [hp] at hu; cases hu
      rw [h2, h3, upd_same, upd_same]; exact hsl
    · have hne : j ≠ i := by
        intro e''; subst e''
        exact e' (h.uniq u t j x e hu hp)
      obtain ⟨a1, a2, _⟩ := h.fly u j x hu
      obtain ⟨b1, b2, _⟩ := h.fly t i e hp
      rw [h2, h3, upd_ne _ _ e', upd_ne _ _ (mod_ne a1 a2 b1 b2 hne)]
      exact h.part u j x hu
  · intro j hj hj' hno
    rw [h1] at hj hj'
    have hno' : ∀ u x, (s.pc u).inflight ≠ some (j, x) := by
      intro u x; rw [← infl]; exact hno u x
    have hne : j ≠ i := by intro e''; subst e''; exact hno' t e hp
    obtain ⟨b1, b2, _⟩ := h.fly t i e hp
    rw [h2, h4, upd_ne _ _ (mod_ne hj hj' b1 b2 hne)]
    exact h.done j hj hj' hno'

theorem inv_go {cap : Nat} {s : St α} (t : Nat) (h : Inv cap s) : Inv cap (step cap s (.go t)) := by
  simp only [step]
  cases hpc : s.pc t with
  | idle => exact h
  | claimed i e =>
    exact inv_work h t i e (.marked i e) _ (by rw [hpc]; rfl) rfl (by simp [Partly]) rfl rfl rfl rfl
  | marked i e =>
    have hp := h.part t i e (by rw [hpc]; rfl)
    rw [hpc] at hp
    exact inv_work h t i e (.half i e) { s.slots (i % cap) with lo := some e } (by rw [hpc]; rfl) rfl ⟨hp, rfl⟩ rfl rfl rfl rfl
  | half i e =>
    have hp := h.part t i e (by rw [hpc]; rfl)
    rw [hpc] at hp
    exact inv_work h t i e (.full i e) { s.slots (i % cap) with hi := some e } (by rw [hpc]; rfl) rfl ⟨hp.1, hp.2, rfl⟩ rfl rfl rfl rfl
  | full i e =>
    have hp := h.part t i e (by rw [hpc]; rfl)
    rw [hpc] at hp
    have hi : (s.pc t).inflight = some (i, e) := by rw [hpc]; rfl
    obtain ⟨b1, b2, b3⟩ := h.fly t i e hi
    have infl : ∀ u j x, (upd s.pc t .idle u).inflight = some (j, x) → u ≠ t ∧ (s.pc u).inflight = some (j, x) := by
      intro u j x hu
      rw [upd_pc] at hu
      by_cases e' : u = t
      · rw [if_pos e'] at hu; cases hu
      · rw [if_neg e'] at hu; exact ⟨e', hu⟩
    refine ⟨h.len, ?_, ?_, ?_, ?_⟩
    · intro u j x hu; exact h.fly u j x (infl u j x hu).2
    · intro u v j x y hu hv; exact h.uniq u v j x y (infl u j x hu).2 (infl v j y hv).2
    · intro u j x hu
      obtain ⟨e', hu'⟩ := infl u j x hu
      have hne : j ≠ i := by intro e''; subst e''; exact e' (h.uniq u t j x e hu' hi)
      obtain ⟨a1, a2, _⟩ := h.fly u j x hu'
      simp only
      rw [upd_ne _ _ e', upd_ne _ _ (mod_ne a1 a2 b1 b2 hne)]
      exact h.part u j x hu'
    · intro j hj hj' hno
      simp only at hj hj' hno ⊢
      by_cases hne : j = i
      · subst hne
        rw [upd_same, b3, hp.2.1, hp.2.2]
      · rw [upd_ne _ _ (mod_ne hj hj' b1 b2 hne)]
        apply h.done j hj hj'
        intro u x hu
        by_cases e' : u = t
        · subst e'; rw [hi] at hu; cases hu; exact hne rfl
        · apply hno u x
          rw [upd_pc, if_neg e']; exact hu

theorem inv_claim {cap : Nat} {s : St α} (t : Nat) (e : α) (hc : 0 < cap) (h : Inv cap s)
    (hl : s.pc t = .idle → ∀ u i x, (s.pc u).inflight = some (i, x) → s.widx < i + cap) :
    Inv cap (step cap s (.claim t e)) := by
  simp only [step]
  cases hpc : s.pc t with
  | claimed i e => exact h
  | marked i e => exact h
  | half i e => exact h
  | full i e => exact h
  | idle =>
    have hl' := hl hpc
    have infl : ∀ u j x, (upd s.pc t (.claimed s.widx e) u).inflight = some (j, x) →
        (u = t ∧ j = s.widx ∧ x = e) ∨ (u ≠ t ∧ (s.pc u).inflight = some (j, x)) := by
      intro u j x hu
      rw [upd_pc] at hu
      by_cases e' : u = t
      · rw [if_pos e'] at hu
        simp only [Pc.inflight, Option.some.injEq, Prod.mk.injEq] at hu
        exact Or.inl ⟨e', hu.1.symm, hu.2.symm⟩
      · rw [if_neg e'] at hu; exact Or.inr ⟨e', hu⟩
    have hget : ∀ j, j < s.widx → (s.claims ++ [e])[j]? = s.claims[j]? := by
      intro j hj; exact List.getElem?_append_left (by rw [h.len]; exact hj)
    refine ⟨by simp [h.len], ?_, ?_, ?_, ?_⟩
    · intro u j x hu
      simp only
      rcases infl u j x hu with ⟨_, rfl, rfl⟩ | ⟨_, hu'⟩
      · refine ⟨by omega, by omega, ?_⟩
        rw [← h.len]; simp
      · obtain ⟨a1, a2, a3⟩ := h.fly u j x hu'
        have := hl' u j x hu'
        exact ⟨by omega, by omega, by rw [hget j a1]; exact a3⟩
    · intro u v j x y hu hv
      rcases infl u j x hu with ⟨rfl, rfl, _⟩ | ⟨_, hu'⟩
      · rcases infl v _ y hv with ⟨rfl, _, _⟩ | ⟨_, hv'⟩
        · rfl
        · have := (h.fly v _ y hv').1; omega
      · rcases infl v j y hv with ⟨rfl, rfl, _⟩ | ⟨_, hv'⟩
        · have := (h.fly u _ x hu').1; omega
        · exact h.uniq u v j x y hu' hv'
    · intro u j x hu
      simp only
      rcases infl u j x hu with ⟨rfl, rfl, _⟩ | ⟨e', hu'⟩
      · rw [upd_same]; trivial
      · rw [upd_ne _ _ e']; exact h.part u j x hu'
    · intro j hj hj' hno
      simp only at hj hj' hno ⊢
      by_cases hj2 : j = s.widx
      · exfalso
        apply hno t e
        rw [upd_same, hj2]; rfl
      · rw [hget j (by omega)]
        apply h.done j (by omega) (by omega)
        intro u x hu
        by_cases e' : u = t
        · subst e'; rw [hpc] at hu; cases hu
        · apply hno u x
          rw [upd_pc, if_neg e']; exact hu

theorem inv_run {cap : Nat} (hc : 0 < cap) (as : List (Act α)) (s : St α) (h : Inv cap s)
    (hl : NoLap cap s as) : Inv cap (run cap s as) := by
  unfold run
  induction as generalizing s with
  | nil => exact h
  | cons a as ih =>
    rw [List.foldl_cons]
    cases a with
    | claim t e => exact ih _ (inv_claim t e hc h hl.1) hl.2
    | go t => exact ih _ (inv_go t h) hl

/-! ### What a read returns -/

theorem filterMap_eq {β γ : Type} (f g : β → Option γ) (l : List β) (h : ∀ x ∈ l, f x = g x) : l.filterMap f = l.filterMap g := by
  induction l with
  | nil => rfl
  | cons a l ih =>
    rw [List.filterMap_cons, List.filterMap_cons, h a List.mem_cons_self, ih fun x hx => h x (List.mem_cons_of_mem _ hx)]

theorem visited_eq (cap w after : Nat) (hc : 0 < cap) :
    visited cap w after = ((List.range w).drop (max after (w - cap))).map (fun i => i % cap) := by
  unfold visited
  simp only
  apply List.ext_getElem
  · simp only [List.length_map, List.length_drop, List.length_range]
    by_cases h : w ≤ cap
    · rw [Nat.min_eq_left h]; omega
    · rw [Nat.min_eq_right (by omega)]; omega
  · intro k h1 h2
    simp only [List.getElem_map, List.getElem_drop, List.getElem_range]
    simp only [List.length_map, List.length_drop, List.length_range] at h1 h2
    by_cases h : w ≤ cap
    · rw [Nat.min_eq_left h] at h1 ⊢
      rw [if_neg (by omega), Nat.zero_add]
      congr 1
      omega
    · have hm : min w cap = cap := Nat.min_eq_right (by omega)
      rw [hm] at h1 ⊢
      rw [if_pos (by omega)]
      have : max after (w - cap) + k = (w - cap) + (min (after - (w - cap)) cap + k) := by omega
      rw [this, Nat.mod_add_mod]
      have : w + (min (after - (w - cap)) cap + k) = (w - cap + (min (after - (w - cap)) cap + k)) + cap := by omega
      rw [this, Nat.add_mod_right]

/-- The index has a writer that has not finished. -/
def Busy (s : St α) (i : Nat) : Prop := ∃ t e, (s.pc t).inflight = some (i, e)

open Classical in
/-- With unfinished writers past their first step (stopped or dead), a read returns every other
resident entry with index at least `after`, in order, and skips exactly theirs. -/
theorem read_skips_only_unfinished {cap : Nat} (hc : 0 < cap) (as : List (Act α)) (hl : NoLap cap {} as)
    (after : Nat) (hm : ∀ t i e, (run cap {} as).pc t ≠ .claimed i e) :
    getSince cap (run cap {} as) after
      = ((List.range (run cap {} as).widx).drop (max after ((run cap {} as).widx - cap))).filterMap
          (fun i => if Busy (run cap {} as) i then none else (run cap {} as).claims[i]?.map fun e => (e, e)) := by
  have h := inv_run hc as {} (inv_init cap) hl
  generalize run cap {} as = s at *
  unfold getSince
  rw [visited_eq cap _ _ hc, List.filterMap_map]
  apply filterMap_eq
  intro i hi
  have hi2 : i < s.widx ∧ s.widx ≤ i + cap := by
    have h1 := List.mem_of_mem_drop hi
    rw [List.mem_range] at h1
    obtain ⟨k, hk, hk2⟩ := List.mem_iff_getElem.mp hi
    rw [List.getElem_drop, List.getElem_range] at hk2
    omega
  simp only [Function.comp]
  by_cases hb : Busy s i
  · rw [if_pos hb]
    obtain ⟨t, e, ht⟩ := hb
    have hp := h.part t i e ht
    have hodd : (s.slots (i % cap)).seq = 2 * i + 1 := by
      cases hpc : s.pc t with
      | idle => rw [hpc] at ht; cases ht
      | claimed j x => exact absurd hpc (hm t j x)
      | marked j x => rw [hpc] at ht hp; cases ht; exact hp
      | half j x => rw [hpc] at ht hp; cases ht; exact hp.1
      | full j x => rw [hpc] at ht hp; cases ht; exact hp.1
    unfold view
    rw [hodd, if_neg (by omega), if_pos (by omega)]
  · rw [if_neg hb]
    have hd := h.done i hi2.1 hi2.2 (fun t e he => hb ⟨t, e, he⟩)
    rw [hd]
    have hlt : i < s.claims.length := by rw [h.len]; exact hi2.1
    unfold view
    simp only
    rw [if_neg (by omega), if_neg (by omega), List.getElem?_eq_getElem hlt]
    rfl

/-- With no write in progress, a read returns exactly the most recent `cap` entries with index at
least `after`, each complete, in the order they were claimed — however the writers were interleaved,
as long as none was overtaken by a whole ring. -/
theorem read_is_latest_partial {cap : Nat} (hc : 0 < cap) (as : List (Act α)) (hl : NoLap cap {} as)
    (after : Nat) (hq : ∀ t, (run cap {} as).pc t = .idle) :
    getSince cap (run cap {} as) after
      = ((run cap {} as).claims.drop (max after ((run cap {} as).claims.length - cap))).map fun e => (e, e) := by
  have h := inv_run hc as {} (inv_init cap) hl
  rw [read_skips_only_unfinished hc as hl after (by intro t i e; rw [hq]; simp)]
  generalize run cap {} as = s at *
  have hnb : ∀ i, ¬ Busy s i := by
    rintro i ⟨t, e, he⟩; rw [hq] at he; cases he
  simp only [hnb, if_false]
  rw [← h.len]
  have key : ∀ (l : List α) (d : Nat), ((List.range l.length).drop d).filterMap (fun i => l[i]?.map fun e => (e, e))
      = (l.drop d).map fun e => (e, e) := by
    intro l d
    apply List.ext_getElem?
    intro k
    have h2 : ∀ (m : List Nat) (hm : ∀ i ∈ m, i < l.length) (j : Nat),
        (m.filterMap (fun i => l[i]?.map fun e => (e, e)))[j]? = (m[j]?).bind fun i => l[i]?.map fun e => (e, e) := by
      intro m
      induction m with
      | nil => intro _ j; simp
      | cons a m ih =>
        intro hm j
        have ha : a < l.length := hm a List.mem_cons_self
        have : (fun i => l[i]?.map fun e => (e, e)) a = some (l[a], l[a]) := by
          simp [List.getElem?_eq_getElem ha]
        rw [List.filterMap_cons_some (f := fun i => l[i]?.map fun e => (e, e)) this]
        cases j with
        | zero => simp [List.getElem?_eq_getElem ha]
        | succ j =>
          rw [List.getElem?_cons_succ, List.getElem?_cons_succ]
          exact ih (fun i hi => hm i (List.mem_cons_of_mem _ hi)) j
    rw [h2 _ (by
      intro i hi
      have := List.mem_of_mem_drop hi
      simpa using this)]
    rw [List.getElem?_map, List.getElem?_drop, List.getElem?_drop]
    by_cases hk : d + k < l.length
    · rw [List.getElem?_range hk]; rfl
    · rw [List.getElem?_eq_none (by simpa using hk), List.getElem?_eq_none (by omega)]; rfl
  exact key s.claims _

/-! ### One process -/

theorem run_append (cap : Nat) (s : St α) (as bs : List (Act α)) : run cap s (as ++ bs) = run cap (run cap s as) bs := by
  unfold run; rw [List.foldl_append]

theorem push_run (cap : Nat) (s : St α) (e : α) (h : ∀ t, s.pc t = .idle) :
    (∀ t, (run cap s (pushActs e)).pc t = .idle) ∧ (run cap s (pushActs e)).claims = s.claims ++ [e] ∧
    NoLap cap s (pushActs e) := by
  have h0 := h 0
  refine ⟨?_, ?_, ?_⟩
  · intro t
    by_cases ht : t = 0
    · subst ht
      simp [run, pushActs, step, h0]
    · have := h t
      simp [run, pushActs, step, h0, upd_ne _ _ ht, this]
  · simp [run, pushActs, step, h0]
  · unfold pushActs NoLap
    refine ⟨?_, trivial⟩
    intro _ u i x hu
    rw [h u] at hu; cases hu

theorem noLap_append (cap : Nat) (as bs : List (Act α)) (s : St α) (h1 : NoLap cap s as)
    (h2 : NoLap cap (run cap s as) bs) : NoLap cap s (as ++ bs) := by
  induction as generalizing s with
  | nil => exact h2
  | cons a as ih =>
    cases a with
    | claim t e => exact ⟨h1.1, ih _ h1.2 h2⟩
    | go t => exact ih _ h1 h2

theorem pushes (cap : Nat) (es : List α) :
    (∀ t, (run cap {} (es.flatMap pushActs)).pc t = .idle) ∧ (run cap {} (es.flatMap pushActs)).claims = es ∧
    NoLap cap {} (es.flatMap pushActs) := by
  induction es using List.reverseRecOn with
  | nil => exact ⟨fun _ => rfl, rfl, trivial⟩
  | append_singleton es e ih =>
    obtain ⟨h1, h2, h3⟩ := ih
    obtain ⟨p1, p2, p3⟩ := push_run cap _ e h1
    rw [List.flatMap_append, List.flatMap_singleton, run_append]
    refine ⟨p1, by rw [p2, h2], noLap_append cap _ _ _ h3 p3⟩

/-- Users of one process, whose pushes and reads take turns: reading from index `after` returns
exactly the entries pushed from `after` on, or the last `cap` of them if there are more. -/
theorem log_keeps_latest (cap : Nat) (hc : 0 < cap) (es : List α) (after : Nat) :
    getSince cap (run cap {} (es.flatMap pushActs)) after
      = (es.drop (max after (es.length - cap))).map fun e => (e, e) := by
  obtain ⟨h1, h2, h3⟩ := pushes cap es
  rw [read_is_latest_partial hc _ h3 after h1, h2]

example : getSince 3 (run 3 {} ([10, 11, 12, 13, 14].flatMap pushActs)) 0 = [(12, 12), (13, 13), (14, 14)] ∧
    getSince 3 (run 3 {} ([10, 11, 12, 13, 14].flatMap pushActs)) 4 = [(14, 14)] := by decide

/-! ### Several processes: what can go wrong -/

/-- Between claiming its index and marking the slot, a writer's slot still holds the entry of one
ring ago: a reader takes that for the newest. -/
theorem stale_entry_read_as_newest :
    getSince 2 (run 2 {} (([10, 11].flatMap pushActs) ++ [.claim 1 12])) 2 = [(10, 10)] := by decide

/-- The slot's first bytes are copied before, its last bytes after, another process overwrites it:
the reader returns a mixture that was never logged, because it does not look at the sequence again. -/
theorem torn_read :
    let s0 := run 1 {} (pushActs 10)
    let s1 := run 1 s0 (pushActs 11)
    rstep (s1.slots 0) (rstep (s0.slots 0) (rstep (s0.slots 0) .start)) = RPc.got 10 11 := by decide

/-- A writer died half way: the first read skips its slot but marks it complete, so the next read
returns the mixture of the two entries. -/
theorem repaired_slot_is_read :
    let s := run 2 {} (([10, 11].flatMap pushActs) ++ [.claim 1 12, .go 1, .go 1])
    getSince 2 s 0 = [(11, 11)] ∧ getSince 2 (afterRead 2 s 0) 0 = [(11, 11), (12, 10)] := by decide

/-- A writer overtaken by a whole ring writes its old entry over the newest one. -/
theorem overtaken_writer_replaces_newest :
    getSince 1 (run 1 {} ([.claim 1 10] ++ pushActs 11 ++ [.go 1, .go 1, .go 1, .go 1])) 0 = [(10, 10)] := by decide

/-- Processes configured with different sizes share the index but not the slot positions: entries
are missing and out of order. -/
theorem sizes_must_agree :
    getSince 3 (run 2 {} ([10, 11, 12].flatMap pushActs)) 0 = [(12, 12), (11, 11)] := by decide

/-! ### Draining -/

/-- At every fetch the drain is at most a ring behind. -/
def KeepsUp (cap : Nat) : Drain → List DAct → Prop
  | _, [] => True
  | d, a :: as => (a = .fetch → d.n ≤ d.last + cap) ∧ KeepsUp cap (dstep cap d a) as

/-- Nothing is pushed between looking at the index and fetching. -/
def Quiet (cap : Nat) : Drain → List DAct → Prop
  | _, [] => True
  | d, a :: as => (a = .push → d.cur = none) ∧ Quiet cap (dstep cap d a) as

/-- A drain that starts at the current end. -/
def fresh (n : Nat) : Drain := ⟨n, n, none, []⟩

/-- Invariant of the drain loop: what it covered is written. -/
structure DInv (s0 : Nat) (d : Drain) : Prop where
  le : d.last ≤ d.n
  cur : ∀ c, d.cur = some c → d.last ≤ c ∧ c ≤ d.n
  covered : ∀ i, s0 ≤ i → i < d.last → i ∈ d.out
  range : ∀ i ∈ d.out, s0 ≤ i ∧ i < d.n
  start : s0 ≤ d.last

theorem mem_fetched (cap w after i : Nat) : i ∈ fetched cap w after ↔ i < w ∧ after ≤ i ∧ w ≤ i + cap := by
  unfold fetched
  rw [List.mem_iff_getElem]
  constructor
  · rintro ⟨k, hk, e⟩
    rw [List.getElem_drop, List.getElem_range] at e
    rw [List.length_drop, List.length_range] at hk
    omega
  · intro h
    refine ⟨i - max after (w - cap), ?_, ?_⟩
    · rw [List.length_drop, List.length_range]; omega
    · rw [List.getElem_drop, List.getElem_range]; omega

theorem dinv_run {cap s0 : Nat} (as : List DAct) (d : Drain) (h : DInv s0 d) (hk : KeepsUp cap d as) :
    DInv s0 (drun cap d as) := by
  unfold drun
  induction as generalizing d with
  | nil => exact h
  | cons a as ih =>
    rw [List.foldl_cons]
    apply ih _ _ hk.2
    cases a with
    | push =>
      refine ⟨by have := h.le; simp only [dstep]; omega, ?_, h.covered, ?_, h.start⟩
      · intro c hc
        have := h.cur c hc
        simp only [dstep]; omega
      · intro i hi
        have := h.range i hi
        simp only [dstep]; omega
    | look =>
      simp only [dstep]
      split
      · refine ⟨h.le, ?_, h.covered, h.range, h.start⟩
        intro c hc
        simp only [Option.some.injEq] at hc
        subst hc
        exact ⟨h.le, Nat.le_refl _⟩
      · exact h
    | fetch =>
      have hup := hk.1 rfl
      simp only [dstep]
      cases hc : d.cur with
      | none => exact h
      | some c =>
        obtain ⟨c1, c2⟩ := h.cur c hc
        refine ⟨c2, (by intro c' h'; cases h'), ?_, ?_, by have := h.start; simp only; omega⟩
        · intro i h1 h2
          simp only at h2
          simp only [List.mem_append]
          by_cases hi : i < d.last
          · exact Or.inl (h.covered i h1 hi)
          · right; rw [mem_fetched]; omega
        · intro i hi
          simp only [List.mem_append] at hi
          rcases hi with hi | hi
          · exact h.range i hi
          · rw [mem_fetched] at hi
            have := h.start
            simp only; omega

/-- A drain that never falls a ring behind writes every entry pushed since it started up to its
remembered index, and nothing else. -/
theorem drain_misses_nothing_partial (cap n : Nat) (as : List DAct) (hk : KeepsUp cap (fresh n) as) :
    (∀ i, n ≤ i → i < (drun cap (fresh n) as).last → i ∈ (drun cap (fresh n) as).out) ∧
    ∀ i ∈ (drun cap (fresh n) as).out, n ≤ i ∧ i < (drun cap (fresh n) as).n := by
  have h := dinv_run (cap := cap) (s0 := n) as (fresh n)
    ⟨Nat.le_refl _, (by intro c hc; cases hc), (by intro i h1 h2; simp only [fresh] at h2; omega),
      (by intro i hi; cases hi), Nat.le_refl _⟩ hk
  exact ⟨h.covered, h.range⟩

theorem range_drop_append (a b c : Nat) (h1 : a ≤ b) (h2 : b ≤ c) :
    (List.range b).drop a ++ (List.range c).drop b = (List.range c).drop a := by
  apply List.ext_getElem
  · simp; omega
  · intro k h3 h4
    rw [List.getElem_drop, List.getElem_range, List.getElem_append]
    split
    · rw [List.getElem_drop, List.getElem_range]
    · rename_i h5
      rw [List.length_drop, List.length_range] at h5
      rw [List.getElem_drop, List.getElem_range, List.length_drop, List.length_range]; omega

/-- If nothing is pushed between the two reads of a pass, each entry is written exactly once, in
order. Missing: pushes in that window (`drain_writes_twice`). -/
theorem drain_exactly_once_partial (cap n : Nat) (as : List DAct) (hk : KeepsUp cap (fresh n) as)
    (hq : Quiet cap (fresh n) as) :
    (drun cap (fresh n) as).out = (List.range (drun cap (fresh n) as).last).drop n := by
  have key : ∀ (as : List DAct) (d : Drain), n ≤ d.last → d.last ≤ d.n → (∀ c, d.cur = some c → c = d.n) →
      d.out = (List.range d.last).drop n → KeepsUp cap d as → Quiet cap d as →
      (drun cap d as).out = (List.range (drun cap d as).last).drop n := by
    intro as
    induction as with
    | nil => intro d _ _ _ h _ _; exact h
    | cons a as ih =>
      intro d h1 h2 h3 h4 hk hq
      unfold drun
      rw [List.foldl_cons]
      refine ih _ ?_ ?_ ?_ ?_ hk.2 hq.2
      · cases a with
        | push => exact h1
        | look => simp only [dstep]; split <;> exact h1
        | fetch =>
          simp only [dstep]
          cases hc : d.cur with
          | none => exact h1
          | some c => have := h3 c hc; simp only; omega
      · cases a with
        | push => simp only [dstep]; omega
        | look => simp only [dstep]; split <;> exact h2
        | fetch =>
          simp only [dstep]
          cases hc : d.cur with
          | none => exact h2
          | some c => have := h3 c hc; simp only; omega
      · cases a with
        | push =>
          intro c hc
          have := hq.1 rfl
          simp only [dstep] at hc
          rw [this] at hc; cases hc
        | look =>
          simp only [dstep]
          split
          · intro c hc; simp only [Option.some.injEq] at hc; exact hc.symm
          · exact h3
        | fetch =>
          simp only [dstep]
          cases hc : d.cur with
          | none => intro c h; rw [hc] at h; cases h
          | some c => intro c' h; cases h
      · cases a with
        | push => exact h4
        | look => simp only [dstep]; split <;> exact h4
        | fetch =>
          have hup := hk.1 rfl
          simp only [dstep]
          cases hc : d.cur with
          | none => exact h4
          | some c =>
            have hcn := h3 c hc
            simp only
            rw [h4, hcn]
            have : fetched cap d.n d.last = (List.range d.n).drop d.last := by
              unfold fetched
              have : max d.last (d.n - cap) = d.last := by omega
              rw [this]
            rw [this]
            exact range_drop_append n d.last d.n h1 h2
  exact key as (fresh n) (Nat.le_refl _) (Nat.le_refl _) (by intro c hc; cases hc) (by simp [fresh]) hk hq

example : drun 8 (fresh 3) [.push, .push, .look, .fetch, .push, .look, .fetch] = ⟨6, 6, none, [3, 4, 5]⟩ := by decide

/-- An entry pushed between the two reads of a pass is written twice: once now, once in the next
pass. -/
theorem drain_writes_twice : (drun 8 (fresh 0) [.push, .look, .push, .fetch, .look, .fetch]).out = [0, 1, 1] := by decide

/-- A drain more than a ring behind loses the oldest entries. -/
theorem drain_behind_loses : (drun 2 (fresh 0) [.push, .push, .push, .look, .fetch]).out = [1, 2] := by decide

/-- The drain and the ring agree on which entries a fetch returns. -/
theorem fetched_is_getSince (cap : Nat) (hc : 0 < cap) (n after : Nat) :
    getSince cap (run cap {} ((List.range n).flatMap pushActs)) after = (fetched cap n after).map fun i => (i, i) := by
  rw [log_keeps_latest cap hc]
  simp [fetched]

end Horus.LogBuf
