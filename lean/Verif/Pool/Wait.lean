import Mathlib.Tactic.Common
import Mathlib.Data.List.Induction
/-
C199: waiting for a pool slot. Models `alloc_with_timeout` and the end of `return_slot`
(horus_core/src/memory/tensor_pool.rs:898-952, 1716-1791) as threads that take their steps in any order.

Simplified: the free stack is a number of free slots and a pop or a push is one step (the stack itself is the subject of
`Verif/Pool/Model.lean`); the return counter does not wrap at 2^64; memory is sequentially consistent; allocations fail
only for want of a slot; the reclaiming of slots of dead processes is left out. Time enters as the moment at which a
call's deadline passes, which may be any.
-/
namespace Horus.PoolWait

/-- Where a thread is in `alloc_with_timeout` or in `return_slot`. Source: tensor_pool.rs:898-952, 1766-1791. -/
inductive Pc where
  /-- In neither function. -/
  | out
  /-- At the head of the loop (909). -/
  | start
  /-- The counter was read (912), the allocation is next. -/
  | snap (c : Nat)
  /-- The allocation found no slot (917), the deadline is checked next. -/
  | full (c : Nat)
  /-- About to take the mutex (935). -/
  | want (c : Nat)
  /-- Holds the mutex (937). -/
  | hold (c : Nat)
  /-- Asleep on the condition variable (945). -/
  | asleep
  /-- Notified, or the time is over; takes the mutex back (947). -/
  | woken
  /-- Returned a slot (915). -/
  | got
  /-- Returned a timeout (923). -/
  | late
  /-- The slot is back on the stack (1780), the counter is next. -/
  | pushed
  /-- The counter was incremented (1788), the mutex is next. -/
  | counted
  /-- Holds the mutex, about to notify (1790). -/
  | inside
  deriving DecidableEq, Repr

/-- The shared pool and its threads. The counter, mutex and condition variable belong to the `TensorPool` object
(`slot_return_count`, `slot_mutex`, `slot_available`), not to the shared file; the slots belong to the file.
Source: tensor_pool.rs:244-256. -/
structure St where
  free : Nat
  used : Nat := 0
  count : Nat → Nat := fun _ => 0
  mutex : Nat → Option Nat := fun _ => none
  pc : Nat → Pc := fun _ => .out
  /-- The deadline of the thread's call has passed. -/
  over : Nat → Bool := fun _ => false

/-- What may happen next. Library or environment event. -/
inductive Act where
  /-- Thread calls `alloc_with_timeout`. -/
  | call (t : Nat)
  /-- Thread returns a slot in use: `return_slot` up to its push. -/
  | give (t : Nat)
  /-- Thread takes its next step. -/
  | go (t : Nat)
  /-- The deadline of the thread's call passes. -/
  | expire (t : Nat)
  /-- A sleeping thread wakes without being notified: the time is over, or for no reason. -/
  | wake (t : Nat)
  deriving DecidableEq, Repr

/-- Write one entry of a table. Not in the code. -/
def upd {β : Type} (f : Nat → β) (t : Nat) (v : β) : Nat → β := fun u => if u = t then v else f u

/-- A thread that can begin a call. Not in the code. -/
def idle : Pc → Bool
  | .out | .got | .late => true
  | _ => false

/-- One step of a thread; `h` is the `TensorPool` object the thread uses. A thread that waits for a mutex held by
another, or that is asleep, does not move. Source: tensor_pool.rs:909-950, 1788-1790. -/
def go (h : Nat → Nat) (s : St) (t : Nat) : St :=
  match s.pc t with
  | .start => { s with pc := upd s.pc t (.snap (s.count (h t))) }
  | .snap c =>
    if 0 < s.free then { s with free := s.free - 1, used := s.used + 1, pc := upd s.pc t .got }
    else { s with pc := upd s.pc t (.full c) }
  | .full c => { s with pc := upd s.pc t (if s.over t then .late else .want c) }
  | .want c =>
    if s.mutex (h t) = none then { s with mutex := upd s.mutex (h t) (some t), pc := upd s.pc t (.hold c) } else s
  | .hold c =>
    { s with mutex := upd s.mutex (h t) none, pc := upd s.pc t (if s.count (h t) ≠ c then .start else .asleep) }
  | .woken => if s.mutex (h t) = none then { s with pc := upd s.pc t .start } else s
  | .pushed => { s with count := upd s.count (h t) (s.count (h t) + 1), pc := upd s.pc t .counted }
  | .counted =>
    if s.mutex (h t) = none then { s with mutex := upd s.mutex (h t) (some t), pc := upd s.pc t .inside } else s
  | .inside =>
    { s with mutex := upd s.mutex (h t) none, pc := upd (fun u => if s.pc u = .asleep ∧ h u = h t then .woken else s.pc u) t .out }
  | _ => s

/-- One event. Source: tensor_pool.rs:907, 1762-1780. -/
def step (h : Nat → Nat) (s : St) : Act → St
  | .call t => if idle (s.pc t) then { s with pc := upd s.pc t .start, over := upd s.over t false } else s
  | .give t =>
    if idle (s.pc t) ∧ 0 < s.used then { s with free := s.free + 1, used := s.used - 1, pc := upd s.pc t .pushed } else s
  | .go t => go h s t
  | .expire t => { s with over := upd s.over t true }
  | .wake t => if s.pc t = .asleep then { s with pc := upd s.pc t .woken } else s

/-- All events of a history. Not in the code. -/
def run (h : Nat → Nat) (s : St) (as : List Act) : St := as.foldl (step h) s

/-- A new pool of `n` slots. Source: tensor_pool.rs:300-345. -/
def fresh (n : Nat) : St := { free := n }

/-! ## Specification -/

/-- A thread that has put a slot back and has not yet notified. -/
def Returning (s : St) (u : Nat) : Prop := s.pc u = .pushed ∨ s.pc u = .counted ∨ s.pc u = .inside

/-! ## Proofs -/

@[simp] theorem upd_same {β : Type} (f : Nat → β) (t : Nat) (v : β) : upd f t v t = v := by simp [upd]

theorem upd_other {β : Type} (f : Nat → β) (t u : Nat) (v : β) (h : u ≠ t) : upd f t v u = f u := by simp [upd, h]

theorem run_snoc (h : Nat → Nat) (s : St) (as : List Act) (a : Act) : run h s (as ++ [a]) = step h (run h s as) a := by
  simp [run, List.foldl_append]

/-- No slot is lost or made up: those free and those in use are always the slots of the pool. -/
theorem slots_kept (h : Nat → Nat) (n : Nat) (as : List Act) :
    (run h (fresh n) as).free + (run h (fresh n) as).used = n := by
  induction as using List.reverseRecOn with
  | nil => rfl
  | append_singleton as a ih =>
    rw [run_snoc]
    generalize run h (fresh n) as = s at ih ⊢
    cases a with
    | call t => simp only [step]; split <;> exact ih
    | give t =>
      simp only [step]; split
      · rename_i hg; dsimp only; omega
      · exact ih
    | expire t => exact ih
    | wake t => simp only [step]; split <;> exact ih
    | go t =>
      simp only [step, go]
      cases s.pc t <;> dsimp only
      all_goals first
        | exact ih
        | (split
           · dsimp only; omega
           · exact ih)

/-- The mutex is held only inside the two short sections, by a thread of that pool object. -/
structure Lk (h : Nat → Nat) (s : St) : Prop where
  own : ∀ g t, s.mutex g = some t → h t = g ∧ ((∃ c, s.pc t = .hold c) ∨ s.pc t = .inside)
  has : ∀ t, ((∃ c, s.pc t = .hold c) ∨ s.pc t = .inside) → s.mutex (h t) = some t

theorem lk_step (h : Nat → Nat) (s : St) (a : Act) (hs : Lk h s) : Lk h (step h s a) := by
  obtain ⟨ho, hh⟩ := hs
  -- a step that moves thread `t` between places outside the sections
  have plain : ∀ (t : Nat) (q : Pc) (s' : St), s'.mutex = s.mutex → s'.pc = upd s.pc t q →
      (¬ ((∃ c, s.pc t = .hold c) ∨ s.pc t = .inside)) → (¬ ((∃ c, q = .hold c) ∨ q = .inside)) → Lk h s' := by
    intro t q s' hm hp hn hq
    constructor
    · intro g u hu
      rw [hm] at hu
      obtain ⟨h1, h2⟩ := ho g u hu
      refine ⟨h1, ?_⟩
      rw [hp]
      by_cases e : u = t
      · subst e; exact absurd h2 hn
      · rw [upd_other _ _ _ _ e]; exact h2
    · intro u hu
      rw [hp] at hu
      by_cases e : u = t
      · subst e; rw [upd_same] at hu; exact absurd hu hq
      · rw [upd_other _ _ _ _ e] at hu; rw [hm]; exact hh u hu
  have same : Lk h s := ⟨ho, hh⟩
  -- taking the mutex
  have take : ∀ (t : Nat) (q : Pc) (s' : St), s.mutex (h t) = none → s'.mutex = upd s.mutex (h t) (some t) →
      s'.pc = upd s.pc t q → ((∃ c, q = .hold c) ∨ q = .inside) → Lk h s' := by
    intro t q s' hf hm hp hq
    constructor
    · intro g u hu
      rw [hm] at hu
      by_cases e : g = h t
      · subst e; rw [upd_same] at hu; obtain rfl : t = u := by simpa using hu
        exact ⟨rfl, by rw [hp, upd_same]; exact hq⟩
      · rw [upd_other _ _ _ _ e] at hu
        obtain ⟨h1, h2⟩ := ho g u hu
        refine ⟨h1, ?_⟩
        have e2 : u ≠ t := by rintro rfl; exact e h1.symm
        rw [hp, upd_other _ _ _ _ e2]; exact h2
    · intro u hu
      rw [hp] at hu
      by_cases e : u = t
      · subst e; rw [hm, upd_same]
      · rw [upd_other _ _ _ _ e] at hu
        have h1 := hh u hu
        have e2 : h u ≠ h t := by intro e3; rw [e3, hf] at h1; cases h1
        rw [hm, upd_other _ _ _ _ e2]; exact h1
  -- giving it back
  have give : ∀ (t : Nat) (s' : St), s.mutex (h t) = some t → s'.mutex = upd s.mutex (h t) none →
      (∀ u, u ≠ t → (((∃ c, s'.pc u = .hold c) ∨ s'.pc u = .inside) ↔ ((∃ c, s.pc u = .hold c) ∨ s.pc u = .inside))) →
      (¬ ((∃ c, s'.pc t = .hold c) ∨ s'.pc t = .inside)) → Lk h s' := by
    intro t s' hf hm hp hq
    constructor
    · intro g u hu
      rw [hm] at hu
      by_cases e : g = h t
      · subst e; rw [upd_same] at hu; cases hu
      · rw [upd_other _ _ _ _ e] at hu
        obtain ⟨h1, h2⟩ := ho g u hu
        have e2 : u ≠ t := by rintro rfl; exact e h1.symm
        exact ⟨h1, (hp u e2).2 h2⟩
    · intro u hu
      by_cases e : u = t
      · subst e; exact absurd hu hq
      · have h1 := hh u ((hp u e).1 hu)
        have e2 : h u ≠ h t := by
          intro e3; rw [e3, hf] at h1; exact e (by simpa using h1.symm)
        rw [hm, upd_other _ _ _ _ e2]; exact h1
  cases a with
  | call t =>
    simp only [step]; split
    · rename_i hi
      exact plain t _ _ rfl rfl (by rintro (⟨c, e⟩ | e) <;> simp [e, idle] at hi) (by simp)
    · exact same
  | give t =>
    simp only [step]; split
    · rename_i hi
      exact plain t _ _ rfl rfl (by rintro (⟨c, e⟩ | e) <;> simp [e, idle] at hi) (by simp)
    · exact same
  | expire t => exact ⟨ho, hh⟩
  | wake t =>
    simp only [step]; split
    · rename_i hi
      exact plain t _ _ rfl rfl (by simp [hi]) (by simp)
    · exact same
  | go t =>
    simp only [step, go]
    cases hp : s.pc t <;> dsimp only
    case out => exact same
    case got => exact same
    case late => exact same
    case asleep => exact same
    case start => exact plain t _ _ rfl rfl (by simp [hp]) (by simp)
    case snap c =>
      split
      · exact plain t _ _ rfl rfl (by simp [hp]) (by simp)
      · exact plain t _ _ rfl rfl (by simp [hp]) (by simp)
    case full c => exact plain t _ _ rfl rfl (by simp [hp]) (by split <;> simp)
    case want c =>
      split
      · rename_i hm; exact take t _ _ hm rfl rfl (by simp)
      · exact same
    case hold c =>
      refine give t _ (hh t (Or.inl ⟨c, hp⟩)) rfl ?_ ?_
      · intro u e; dsimp only; rw [upd_other _ _ _ _ e]
      · dsimp only; rw [upd_same]; split <;> simp
    case woken =>
      split
      · exact plain t _ _ rfl rfl (by simp [hp]) (by simp)
      · exact same
    case pushed => exact plain t _ _ rfl rfl (by simp [hp]) (by simp)
    case counted =>
      split
      · rename_i hm; exact take t _ _ hm rfl rfl (by simp)
      · exact same
    case inside =>
      refine give t _ (hh t (Or.inr hp)) rfl ?_ ?_
      · intro u e; dsimp only; rw [upd_other _ _ _ _ e]
        by_cases hc : s.pc u = .asleep ∧ h u = h t
        · rw [if_pos hc]; simp [hc.1]
        · rw [if_neg hc]
      · dsimp only; rw [upd_same]; simp

theorem lk_run (h : Nat → Nat) (n : Nat) (as : List Act) : Lk h (run h (fresh n) as) := by
  induction as using List.reverseRecOn with
  | nil => constructor <;> simp [run, fresh]
  | append_singleton as a ih => rw [run_snoc]; exact lk_step h _ a ih

/-- A call that is in progress and not asleep can always move on, or waits for a thread that can: nothing waits for
ever for the mutex. -/
theorem never_stuck (h : Nat → Nat) (n : Nat) (as : List Act) (t : Nat)
    (hb : idle ((run h (fresh n) as).pc t) = false) (ha : (run h (fresh n) as).pc t ≠ .asleep) :
    ∃ u, h u = h t ∧ (go h (run h (fresh n) as) u).pc u ≠ (run h (fresh n) as).pc u := by
  have hl := lk_run h n as
  generalize run h (fresh n) as = s at hb ha hl ⊢
  have holder : ∀ u, ((∃ c, s.pc u = .hold c) ∨ s.pc u = .inside) → (go h s u).pc u ≠ s.pc u := by
    rintro u (⟨c, e⟩ | e)
    · simp only [go, e, upd_same]; split <;> simp
    · simp only [go, e, upd_same]; simp
  have blocked : ∀ (q : Pc), s.pc t = q → s.mutex (h t) ≠ none → ∃ u, h u = h t ∧ (go h s u).pc u ≠ s.pc u := by
    intro q _ hm
    obtain ⟨u, hu⟩ := Option.ne_none_iff_exists'.1 hm
    obtain ⟨h1, h2⟩ := hl.own _ _ hu
    exact ⟨u, h1, holder u h2⟩
  cases hp : s.pc t
  case out => simp [hp, idle] at hb
  case got => simp [hp, idle] at hb
  case late => simp [hp, idle] at hb
  case asleep => exact absurd hp ha
  case start => exact ⟨t, rfl, by simp [go, hp]⟩
  case snap c => exact ⟨t, rfl, by simp only [go, hp]; split <;> simp⟩
  case full c => exact ⟨t, rfl, by simp only [go, hp, upd_same]; split <;> simp⟩
  case want c =>
    by_cases hm : s.mutex (h t) = none
    · exact ⟨t, rfl, by simp [go, hp, hm]⟩
    · exact blocked _ hp hm
  case hold c => exact ⟨t, rfl, holder t (Or.inl ⟨c, hp⟩)⟩
  case woken =>
    by_cases hm : s.mutex (h t) = none
    · exact ⟨t, rfl, by simp [go, hp, hm]⟩
    · exact blocked _ hp hm
  case pushed => exact ⟨t, rfl, by simp [go, hp]⟩
  case counted =>
    by_cases hm : s.mutex (h t) = none
    · exact ⟨t, rfl, by simp [go, hp, hm]⟩
    · exact blocked _ hp hm
  case inside => exact ⟨t, rfl, holder t (Or.inr hp)⟩

/-- A notification wakes every thread asleep on the same pool object. -/
theorem notify_wakes (h : Nat → Nat) (s : St) (t u : Nat) (hi : s.pc u = .inside) (ha : s.pc t = .asleep) (he : h t = h u) :
    (go h s u).pc t = .woken := by
  have hne : t ≠ u := by rintro rfl; rw [hi] at ha; cases ha
  simp only [go, hi]
  rw [upd_other _ _ _ _ hne, if_pos ⟨ha, he⟩]

/-- What a thread that failed to allocate knows about later returns. Proof device. -/
def Knows (h : Nat → Nat) (s : St) (t : Nat) : Pc → Prop
  | .snap c => c ≤ s.count (h t)
  | .full c | .want c | .hold c => c ≤ s.count (h t) ∧ (s.free = 0 ∨ c < s.count (h t) ∨ ∃ u, s.pc u = .pushed)
  | .asleep => s.free = 0 ∨ ∃ u, Returning s u
  | _ => True

theorem knows_step (h : Nat → Nat) (one : ∀ t u, h t = h u) (s : St) (a : Act) (hs : ∀ t, Knows h s t (s.pc t)) :
    ∀ t, Knows h (step h s a) t ((step h s a).pc t) := by
  -- moving thread `t` from a place that is not part of a return, slots and counter unchanged or slots taken
  have move : ∀ (t : Nat) (q : Pc) (s' : St), s'.pc = upd s.pc t q → s'.count = s.count → s'.free ≤ s.free →
      (s.pc t ≠ .pushed ∧ s.pc t ≠ .counted ∧ s.pc t ≠ .inside) → Knows h s' t q → ∀ v, Knows h s' v (s'.pc v) := by
    intro t q s' hp hc hf hn hq v
    by_cases e : v = t
    · subst e; rw [hp, upd_same]; exact hq
    · rw [hp, upd_other _ _ _ _ e]
      have hv := hs v
      have keepP : (∃ u, s.pc u = .pushed) → ∃ u, s'.pc u = .pushed := by
        rintro ⟨u, hu⟩
        have : u ≠ t := by rintro rfl; exact hn.1 hu
        exact ⟨u, by rw [hp, upd_other _ _ _ _ this]; exact hu⟩
      have keepR : (∃ u, Returning s u) → ∃ u, Returning s' u := by
        rintro ⟨u, hu⟩
        have : u ≠ t := by rintro rfl; rcases hu with hu | hu | hu; exacts [hn.1 hu, hn.2.1 hu, hn.2.2 hu]
        exact ⟨u, by simp only [Returning]; rw [hp, upd_other _ _ _ _ this]; exact hu⟩
      have three : ∀ c, (c ≤ s.count (h v) ∧ (s.free = 0 ∨ c < s.count (h v) ∨ ∃ u, s.pc u = .pushed)) →
          (c ≤ s'.count (h v) ∧ (s'.free = 0 ∨ c < s'.count (h v) ∨ ∃ u, s'.pc u = .pushed)) := by
        rintro c ⟨h0, h1⟩
        rw [hc]
        refine ⟨h0, ?_⟩
        rcases h1 with h1 | h1 | h1
        · exact Or.inl (by omega)
        · exact Or.inr (Or.inl h1)
        · exact Or.inr (Or.inr (keepP h1))
      revert hv
      cases s.pc v <;> simp only [Knows] <;> intro hv
      case snap c => rw [hc]; exact hv
      case full c => exact three c hv
      case want c => exact three c hv
      case hold c => exact three c hv
      case asleep =>
        rcases hv with hv | hv
        · exact Or.inl (by omega)
        · exact Or.inr (keepR hv)
      all_goals trivial
  cases a with
  | call t =>
    simp only [step]; split
    · rename_i hi
      refine move t .start _ rfl rfl (Nat.le_refl _) ?_ trivial
      refine ⟨?_, ?_, ?_⟩ <;> intro e <;> simp [e, idle] at hi
    · exact hs
  | give t =>
    simp only [step]; split
    · rename_i hi
      intro v
      have ht : ∃ u, (upd s.pc t Pc.pushed) u = .pushed := ⟨t, upd_same _ _ _⟩
      have hr : ∃ u, Returning { s with free := s.free + 1, used := s.used - 1, pc := upd s.pc t .pushed } u := ⟨t, Or.inl (upd_same _ _ _)⟩
      by_cases e : v = t
      · subst e; simp [Knows]
      · dsimp only; rw [upd_other _ _ _ _ e]
        have hv := hs v
        revert hv
        cases s.pc v <;> simp only [Knows] <;> intro hv
        case snap c => exact hv
        case full c => exact ⟨hv.1, Or.inr (Or.inr ht)⟩
        case want c => exact ⟨hv.1, Or.inr (Or.inr ht)⟩
        case hold c => exact ⟨hv.1, Or.inr (Or.inr ht)⟩
        case asleep => exact Or.inr hr
        all_goals trivial
    · exact hs
  | expire t =>
    intro v
    have hv := hs v
    simp only [step]
    revert hv
    cases s.pc v <;> simp only [Knows, Returning] <;> exact id
  | wake t =>
    simp only [step]; split
    · rename_i hi
      exact move t .woken _ rfl rfl (Nat.le_refl _) (by simp [hi]) trivial
    · exact hs
  | go t =>
    have ht := hs t
    simp only [step, go]
    cases hp : s.pc t <;> dsimp only
    case out => exact hs
    case got => exact hs
    case late => exact hs
    case asleep => exact hs
    case start =>
      refine move t (.snap (s.count (h t))) _ rfl rfl (Nat.le_refl _) (by simp [hp]) ?_
      exact Nat.le_refl _
    case snap c =>
      rw [hp] at ht
      split
      · exact move t .got _ rfl rfl (by dsimp only; omega) (by simp [hp]) trivial
      · rename_i h0
        refine move t (.full c) _ rfl rfl (Nat.le_refl _) (by simp [hp]) ?_
        exact ⟨ht, Or.inl (by dsimp only; omega)⟩
    case full c =>
      rw [hp] at ht
      refine move t (if s.over t then .late else .want c) _ rfl rfl (Nat.le_refl _) (by simp [hp]) ?_
      split
      · trivial
      · refine ⟨ht.1, ?_⟩
        rcases ht.2 with h1 | h1 | ⟨u, h1⟩
        · exact Or.inl h1
        · exact Or.inr (Or.inl h1)
        · have : u ≠ t := by rintro rfl; rw [hp] at h1; cases h1
          exact Or.inr (Or.inr ⟨u, by dsimp only; rw [upd_other _ _ _ _ this]; exact h1⟩)
    case want c =>
      rw [hp] at ht
      split
      · refine move t (.hold c) _ rfl rfl (Nat.le_refl _) (by simp [hp]) ?_
        refine ⟨ht.1, ?_⟩
        rcases ht.2 with h1 | h1 | ⟨u, h1⟩
        · exact Or.inl h1
        · exact Or.inr (Or.inl h1)
        · have : u ≠ t := by rintro rfl; rw [hp] at h1; cases h1
          exact Or.inr (Or.inr ⟨u, by dsimp only; rw [upd_other _ _ _ _ this]; exact h1⟩)
      · exact hs
    case hold c =>
      rw [hp] at ht
      refine move t (if s.count (h t) ≠ c then .start else .asleep) _ rfl rfl (Nat.le_refl _) (by simp [hp]) ?_
      split
      · trivial
      · rename_i he
        have he : s.count (h t) = c := by simpa using he
        rcases ht.2 with h1 | h1 | ⟨u, h1⟩
        · exact Or.inl h1
        · omega
        · have : u ≠ t := by rintro rfl; rw [hp] at h1; cases h1
          exact Or.inr ⟨u, Or.inl (by dsimp only; rw [upd_other _ _ _ _ this]; exact h1)⟩
    case woken =>
      split
      · exact move t .start _ rfl rfl (Nat.le_refl _) (by simp [hp]) trivial
      · exact hs
    case pushed =>
      intro v
      have hr : ∃ u, Returning { s with count := upd s.count (h t) (s.count (h t) + 1), pc := upd s.pc t .counted } u :=
        ⟨t, Or.inr (Or.inl (upd_same _ _ _))⟩
      by_cases e : v = t
      · subst e; simp [Knows]
      · rw [upd_other _ _ _ _ e]
        have hv := hs v
        have hc : upd s.count (h t) (s.count (h t) + 1) (h v) = s.count (h v) + 1 := by rw [one v t]; simp
        revert hv
        cases s.pc v <;> simp only [Knows] <;> intro hv
        case snap c => rw [hc]; omega
        case full c => exact ⟨by rw [hc]; omega, Or.inr (Or.inl (by rw [hc]; omega))⟩
        case want c => exact ⟨by rw [hc]; omega, Or.inr (Or.inl (by rw [hc]; omega))⟩
        case hold c => exact ⟨by rw [hc]; omega, Or.inr (Or.inl (by rw [hc]; omega))⟩
        case asleep => exact Or.inr hr
        all_goals trivial
    case counted =>
      split
      · intro v
        by_cases e : v = t
        · subst e; simp [Knows]
        · dsimp only; rw [upd_other _ _ _ _ e]
          have hv := hs v
          have keepP : (∃ u, s.pc u = .pushed) → ∃ u, upd s.pc t .inside u = .pushed := by
            rintro ⟨u, hu⟩
            have : u ≠ t := by rintro rfl; rw [hp] at hu; cases hu
            exact ⟨u, by rw [upd_other _ _ _ _ this]; exact hu⟩
          have three : ∀ c, (c ≤ s.count (h v) ∧ (s.free = 0 ∨ c < s.count (h v) ∨ ∃ u, s.pc u = .pushed)) →
              (c ≤ s.count (h v) ∧ (s.free = 0 ∨ c < s.count (h v) ∨ ∃ u, upd s.pc t .inside u = .pushed)) := by
            rintro c ⟨h0, h1⟩
            exact ⟨h0, h1.imp id (Or.imp id keepP)⟩
          revert hv
          cases s.pc v <;> simp only [Knows] <;> intro hv
          case snap c => exact hv
          case full c => exact three c hv
          case want c => exact three c hv
          case hold c => exact three c hv
          case asleep => exact Or.inr ⟨t, Or.inr (Or.inr (upd_same _ _ _))⟩
          all_goals trivial
      · exact hs
    case inside =>
      intro v
      by_cases e : v = t
      · subst e; simp [Knows]
      · rw [upd_other _ _ _ _ e]
        have hv := hs v
        by_cases ha : s.pc v = .asleep
        · rw [if_pos ⟨ha, one v t⟩]; trivial
        · rw [if_neg (by simp [ha])]
          have keepP : (∃ u, s.pc u = .pushed) → ∃ u, upd (fun u => if s.pc u = .asleep ∧ h u = h t then .woken else s.pc u) t .out u = .pushed := by
            rintro ⟨u, hu⟩
            have : u ≠ t := by rintro rfl; rw [hp] at hu; cases hu
            exact ⟨u, by rw [upd_other _ _ _ _ this]; simp [hu]⟩
          have three : ∀ c, (c ≤ s.count (h v) ∧ (s.free = 0 ∨ c < s.count (h v) ∨ ∃ u, s.pc u = .pushed)) →
              (c ≤ s.count (h v) ∧ (s.free = 0 ∨ c < s.count (h v) ∨ ∃ u, upd (fun u => if s.pc u = .asleep ∧ h u = h t then .woken else s.pc u) t .out u = .pushed)) := by
            rintro c ⟨h0, h1⟩
            exact ⟨h0, h1.imp id (Or.imp id keepP)⟩
          revert hv ha
          cases s.pc v <;> simp only [Knows] <;> intro ha hv
          case snap c => exact ha
          case full c => exact three c ha
          case want c => exact three c ha
          case hold c => exact three c ha
          case asleep => exact absurd trivial hv
          all_goals trivial

theorem knows_run (h : Nat → Nat) (one : ∀ t u, h t = h u) (n : Nat) (as : List Act) :
    ∀ t, Knows h (run h (fresh n) as) t ((run h (fresh n) as).pc t) := by
  induction as using List.reverseRecOn with
  | nil => intro t; simp [run, fresh, Knows]
  | append_singleton as a ih => rw [run_snoc]; exact knows_step h one _ a ih

/-- **No wakeup is lost.** Among threads that share one pool object, whenever a call sleeps although a slot is free, the
thread that put a slot back has yet to notify, and will wake it (`notify_wakes`). So when no thread is in the middle of a
return, a call that sleeps does so because the pool is empty.

Missing: threads that use another pool object on the same shared memory (`other_object_sleeps`). -/
theorem no_lost_wakeup_partial (h : Nat → Nat) (one : ∀ t u, h t = h u) (n : Nat) (as : List Act) (t : Nat)
    (ha : (run h (fresh n) as).pc t = .asleep) (hf : 0 < (run h (fresh n) as).free) :
    ∃ u, Returning (run h (fresh n) as) u := by
  have hk := knows_run h one n as t
  rw [ha] at hk
  rcases hk with h1 | h1
  · omega
  · exact h1

/-- A call that has failed an attempt and not started another. -/
def Failed (s : St) (t : Nat) : Prop := (∃ c, s.pc t = .full c) ∨ s.pc t = .late

theorem failed_back (h : Nat → Nat) (s : St) (a : Act) (t : Nat) (hf : Failed (step h s a) t) :
    Failed s t ∨ ((∃ c, s.pc t = .snap c) ∧ s.free = 0) := by
  have same : ∀ s' : St, s'.pc t = s.pc t → Failed s' t → Failed s t := by
    intro s' e hf; simp only [Failed, e] at hf; exact hf
  cases a with
  | call u =>
    simp only [step] at hf; split at hf
    · by_cases e : t = u
      · subst e; simp [Failed] at hf
      · exact Or.inl (same _ (upd_other _ _ _ _ e) hf)
    · exact Or.inl hf
  | give u =>
    simp only [step] at hf; split at hf
    · by_cases e : t = u
      · subst e; simp [Failed] at hf
      · exact Or.inl (same _ (upd_other _ _ _ _ e) hf)
    · exact Or.inl hf
  | expire u => exact Or.inl hf
  | wake u =>
    simp only [step] at hf; split at hf
    · by_cases e : t = u
      · subst e; simp [Failed] at hf
      · exact Or.inl (same _ (upd_other _ _ _ _ e) hf)
    · exact Or.inl hf
  | go u =>
    by_cases e : t = u
    · subst e
      cases hp : s.pc t <;> simp only [step, go, hp] at hf
      case full c => exact Or.inl (Or.inl ⟨c, hp⟩)
      case late => exact Or.inl (Or.inr hp)
      case snap c =>
        split at hf
        · simp [Failed] at hf
        · exact Or.inr ⟨⟨c, rfl⟩, by omega⟩
      case out => simp [Failed, hp] at hf
      case got => simp [Failed, hp] at hf
      case asleep => simp [Failed, hp] at hf
      case start => simp [Failed] at hf
      case want c => split at hf <;> simp [Failed, hp] at hf
      case hold c => simp only [Failed, upd_same] at hf; split at hf <;> simp at hf
      case woken => split at hf <;> simp [Failed, hp] at hf
      case pushed => simp [Failed] at hf
      case counted => split at hf <;> simp [Failed, hp] at hf
      case inside => simp [Failed] at hf
    · left
      cases hp : s.pc u <;> simp only [step, go, hp] at hf
      case snap c => split at hf <;> exact same _ (upd_other _ _ _ _ e) hf
      case want c =>
        split at hf
        · exact same _ (upd_other _ _ _ _ e) hf
        · exact hf
      case woken =>
        split at hf
        · exact same _ (upd_other _ _ _ _ e) hf
        · exact hf
      case counted =>
        split at hf
        · exact same _ (upd_other _ _ _ _ e) hf
        · exact hf
      case inside =>
        simp only [Failed] at hf ⊢
        rw [upd_other _ _ _ _ e] at hf
        split at hf
        · simp at hf
        · exact hf
      all_goals first
        | exact hf
        | exact same _ (upd_other _ _ _ _ e) hf

theorem late_over (h : Nat → Nat) (n : Nat) (as : List Act) (t : Nat) (hl : (run h (fresh n) as).pc t = .late) :
    (run h (fresh n) as).over t = true := by
  induction as using List.reverseRecOn with
  | nil => simp [run, fresh] at hl
  | append_singleton as a ih =>
    rw [run_snoc] at hl ⊢
    generalize run h (fresh n) as = s at ih hl ⊢
    cases a with
    | call u =>
      simp only [step] at hl ⊢; split at hl
      · rename_i hi
        by_cases e : t = u
        · subst e; simp at hl
        · rw [if_pos hi]; dsimp only at hl ⊢; rw [upd_other _ _ _ _ e] at hl ⊢; exact ih hl
      · rename_i hi; rw [if_neg hi]; exact ih hl
    | give u =>
      simp only [step] at hl ⊢; split at hl
      · rename_i hi
        rw [if_pos hi]
        by_cases e : t = u
        · subst e; simp at hl
        · dsimp only at hl ⊢; rw [upd_other _ _ _ _ e] at hl; exact ih hl
      · rename_i hi; rw [if_neg hi]; exact ih hl
    | expire u =>
      have := ih hl
      simp only [step, upd]; split <;> simp [this]
    | wake u =>
      simp only [step] at hl ⊢; split at hl
      · rename_i hi
        rw [if_pos hi]
        by_cases e : t = u
        · subst e; simp at hl
        · dsimp only at hl ⊢; rw [upd_other _ _ _ _ e] at hl; exact ih hl
      · rename_i hi; rw [if_neg hi]; exact ih hl
    | go u =>
      have ho : (go h s u).over = s.over := by
        simp only [go]; cases s.pc u <;> dsimp only <;> split <;> rfl
      show (go h s u).over t = true
      rw [ho]
      have hl : (go h s u).pc t = .late := hl
      by_cases e : t = u
      · subst e
        cases hp : s.pc t <;> simp only [go, hp] at hl
        case late => exact ih hp
        case full c =>
          rw [upd_same] at hl; split at hl
          · assumption
          · cases hl
        case out => cases hl
        case got => cases hl
        case asleep => cases hl
        case start => simp at hl
        case snap c => split at hl <;> simp at hl
        case want c => split at hl <;> simp [hp] at hl
        case hold c => rw [upd_same] at hl; split at hl <;> cases hl
        case woken => split at hl <;> simp [hp] at hl
        case pushed => simp at hl
        case counted => split at hl <;> simp [hp] at hl
        case inside => simp at hl
      · apply ih
        cases hp : s.pc u <;> simp only [go, hp] at hl
        case snap c => split at hl <;> (dsimp only at hl; rw [upd_other _ _ _ _ e] at hl; exact hl)
        case want c =>
          split at hl
          · dsimp only at hl; rw [upd_other _ _ _ _ e] at hl; exact hl
          · exact hl
        case woken =>
          split at hl
          · dsimp only at hl; rw [upd_other _ _ _ _ e] at hl; exact hl
          · exact hl
        case counted =>
          split at hl
          · dsimp only at hl; rw [upd_other _ _ _ _ e] at hl; exact hl
          · exact hl
        case inside =>
          rw [upd_other _ _ _ _ e] at hl
          split at hl
          · cases hl
          · exact hl
        all_goals first
          | exact hl
          | (rw [upd_other _ _ _ _ e] at hl; exact hl)

/-- **A timeout is honest**: a call answers "timeout" only after its deadline, and only when its own last attempt found
the pool empty. -/
theorem timeout_honest (h : Nat → Nat) (n : Nat) (as : List Act) (t : Nat)
    (hl : (run h (fresh n) as).pc t = .late) :
    (run h (fresh n) as).over t = true ∧
    ∃ bs cs, as = bs ++ cs ∧ (∃ c, (run h (fresh n) bs).pc t = .snap c) ∧ (run h (fresh n) bs).free = 0 ∧
      ∀ k, 0 < k → k ≤ cs.length → Failed (run h (fresh n) (bs ++ cs.take k)) t := by
  refine ⟨late_over h n as t hl, ?_⟩
  have key : ∀ as : List Act, Failed (run h (fresh n) as) t →
      ∃ bs cs, as = bs ++ cs ∧ (∃ c, (run h (fresh n) bs).pc t = .snap c) ∧ (run h (fresh n) bs).free = 0 ∧
      ∀ k, 0 < k → k ≤ cs.length → Failed (run h (fresh n) (bs ++ cs.take k)) t := by
    intro as
    induction as using List.reverseRecOn with
    | nil => intro hf; simp [run, fresh, Failed] at hf
    | append_singleton as a ih =>
      intro hf
      have hf2 := hf
      rw [run_snoc] at hf2
      rcases failed_back h _ a t hf2 with h1 | ⟨h1, h2⟩
      · obtain ⟨bs, cs, e, h3, h4, h5⟩ := ih h1
        refine ⟨bs, cs ++ [a], by rw [e, List.append_assoc], h3, h4, ?_⟩
        intro k hk hk2
        by_cases hc : k ≤ cs.length
        · rw [List.take_append_of_le_length hc]; exact h5 k hk hc
        · rw [List.take_of_length_le (by simp at hk2 ⊢; omega), ← List.append_assoc, ← e]; exact hf
      · refine ⟨as, [a], rfl, h1, h2, ?_⟩
        intro k hk hk2
        have : k = 1 := by simp at hk2; omega
        subst this
        exact hf
  exact key as (Or.inr hl)

/-- The steps of one thread, one after another. -/
def goes (t n : Nat) : List Act := List.replicate n (.go t)

/-- Non-vacuity of `no_lost_wakeup_partial`: a pool of one slot, taken by thread 0; thread 1 sleeps; thread 0 puts the slot back. -/
example : let s := run (fun _ => 7) (fresh 1) ([.call 0] ++ goes 0 2 ++ [.call 1] ++ goes 1 5 ++ [.give 0])
    s.pc 1 = .asleep ∧ s.free = 1 ∧ s.pc 0 = .pushed := by decide

/-- …and is woken, and takes it. -/
example : let s := run (fun _ => 7) (fresh 1) ([.call 0] ++ goes 0 2 ++ [.call 1] ++ goes 1 5 ++ [.give 0] ++ goes 0 3 ++ goes 1 3)
    s.pc 1 = .got ∧ s.free = 0 := by decide

/-- A return between the snapshot and the sleep: the second look at the counter sees it. -/
example : let s := run (fun _ => 7) (fresh 1) ([.call 0] ++ goes 0 2 ++ [.call 1] ++ goes 1 3 ++ [.give 0] ++ goes 0 3 ++ goes 1 2)
    s.pc 1 = .start ∧ s.free = 1 := by decide

/-- Non-vacuity of `timeout_honest`. -/
example : (run (fun _ => 7) (fresh 0) ([.call 1] ++ goes 1 5 ++ [.expire 1, .wake 1] ++ goes 1 4)).pc 1 = .late := by decide

/-- **A slot put back through another pool object wakes nobody.** The counter and the condition variable are per object:
a process that returns a slot of a shared pool leaves the waiting threads of other processes asleep with a slot free,
until their own time is over. -/
theorem other_object_sleeps : let s := run id (fresh 1) ([.call 0] ++ goes 0 2 ++ [.call 1] ++ goes 1 5 ++ [.give 0] ++ goes 0 3)
    s.pc 1 = .asleep ∧ s.free = 1 ∧ ∀ u, ¬ Returning s u := by
  refine ⟨by decide, by decide, ?_⟩
  intro u
  by_cases h0 : u = 0
  · subst h0; unfold Returning; decide
  · by_cases h1 : u = 1
    · subst h1; unfold Returning; decide
    · simp [Returning, run, step, go, goes, upd, fresh, h0, h1, idle, List.replicate]

/-- …and even then a wakeup at the end of the time leads to one more attempt, which takes the slot. -/
theorem woken_tries_again (h : Nat → Nat) (s : St) (t : Nat) (hw : s.pc t = .woken) (hm : s.mutex (h t) = none) (hf : 0 < s.free) :
    (go h (go h (go h s t) t) t).pc t = .got := by
  simp [go, hw, hm, hf]

/-- The deadline of a call: `Instant::now() + timeout`, which panics when the sum does not fit. Times in seconds; an
instant holds fewer than 2^63. Source: tensor_pool.rs:907. -/
def deadline (now timeout : Nat) : Option Nat := if now + timeout < 2 ^ 63 then some (now + timeout) else none

/-- Asking to wait for the longest time there is (`Duration::MAX`) panics, whatever the clock shows. -/
theorem longest_wait_panics (now : Nat) : deadline now (2 ^ 64 - 1) = none := by
  rw [deadline, if_neg (by omega)]

/-- Any timeout up to a hundred thousand years is accepted on a machine up for as long. -/
theorem deadline_ok (now timeout : Nat) (h1 : now < 2 ^ 42) (h2 : timeout < 2 ^ 42) : deadline now timeout = some (now + timeout) := by
  rw [deadline, if_pos (by omega)]

end Horus.PoolWait
