import Mathlib.Tactic.Common
import Mathlib.Data.List.Basic

/-!
Threads and locks. A thread is the list of lock operations it performs. If every thread takes locks in the order
of a rank, a thread that is not done can go on or another can, and with finitely many threads all of them finish.

The locks are those of `parking_lot` and of the standard library: a writer waits until nobody holds the lock, a
reader until no writer holds it and possibly, but not surely, until no writer waits for it. Both readings are
covered: steps are allowed under the weaker condition, going on is only counted under the stronger.
-/

namespace Horus.Locks

variable {L : Type} [DecidableEq L]

/-- Shared or exclusive; the mutex is only ever taken exclusively. -/
inductive Mode
  | r | w
  deriving DecidableEq, Repr

/-- One lock operation. -/
inductive Op (L : Type)
  | acq (l : L) (m : Mode)
  | rel (l : L)
  deriving DecidableEq, Repr

/-- Code run while a lock is held. -/
def hold {L : Type} (l : L) (m : Mode) (p : List (Op L)) : List (Op L) := Op.acq l m :: p ++ [Op.rel l]

/-- A thread: what it holds and what it has still to do. -/
structure Th (L : Type) where
  held : List (L × Mode) := []
  todo : List (Op L) := []

/-- All the threads. -/
abbrev St (L : Type) := Nat → Th L

/-- May the lock be given, at the least: nobody holds it in a way that forbids it. -/
def free (s : St L) (l : L) : Mode → Prop
  | .w => ∀ u, ∀ m, (l, m) ∉ (s u).held
  | .r => ∀ u, (l, Mode.w) ∉ (s u).held

/-- No thread is waiting to write: only then is a reader sure to be let in (`parking_lot::RwLock`). -/
def noWriter (s : St L) (l : L) : Prop := ∀ u p, (s u).todo ≠ Op.acq l .w :: p

/-- The thread is sure to be able to go on. -/
def canGo (s : St L) (t : Nat) : Prop :=
  match (s t).todo with
  | [] => False
  | .rel _ :: _ => True
  | .acq l .w :: _ => free s l .w
  | .acq l .r :: _ => free s l .r ∧ noWriter s l

/-- A thread goes on. A reader may slip in before a waiting writer. -/
inductive Step (s : St L) (t : Nat) : St L → Prop
  | acq {l m p} (h : (s t).todo = .acq l m :: p) (hf : free s l m) :
      Step s t (fun u => if u = t then { held := (l, m) :: (s t).held, todo := p } else s u)
  | rel {l p} (h : (s t).todo = .rel l :: p) :
      Step s t (fun u => if u = t then { held := (s t).held.eraseP (·.1 = l), todo := p } else s u)

/-- Reachable by any schedule. -/
inductive Reach (s : St L) : St L → Prop
  | refl : Reach s s
  | step {a b t} (h : Reach s a) (hs : Step a t b) : Reach s b

/-- The threads before they start. -/
def begin (progs : Nat → List (Op L)) : St L := fun t => { todo := progs t }

/-! ### The order of the locks -/

/-- A lock is only taken by a thread that holds none of its rank or above, and only what is held is released. -/
def ok (rank : L → Nat) : List L → List (Op L) → Prop
  | h, [] => h = []
  | h, .acq l _ :: p => (∀ x ∈ h, rank x < rank l) ∧ ok rank (l :: h) p
  | h, .rel l :: p => l ∈ h ∧ ok rank (h.erase l) p

variable {rank : L → Nat}

/-- Code that can be run while `h` is held and leaves it so. -/
def Bal (rank : L → Nat) (h : List L) (p : List (Op L)) : Prop := ∀ q, ok rank h q → ok rank h (p ++ q)

theorem bal_nil (h : List L) : Bal rank h [] := fun _ hq => hq

theorem bal_append {h : List L} {p q : List (Op L)} (hp : Bal rank h p) (hq : Bal rank h q) : Bal rank h (p ++ q) := by
  intro r hr
  rw [List.append_assoc]
  exact hp _ (hq _ hr)

theorem bal_hold {h : List L} {l : L} {m : Mode} {p : List (Op L)} (hl : ∀ x ∈ h, rank x < rank l) (hp : Bal rank (l :: h) p) :
    Bal rank h (hold l m p) := by
  intro q hq
  simp only [hold, List.cons_append, List.append_assoc, ok]
  refine ⟨hl, hp _ ?_⟩
  simp only [List.nil_append, ok]
  exact ⟨List.mem_cons_self, by simpa using hq⟩

theorem bal_flatMap {α : Type} {h : List L} {f : α → List (Op L)} : ∀ {l : List α}, (∀ x ∈ l, Bal rank h (f x)) → Bal rank h (l.flatMap f)
  | [], _ => bal_nil h
  | a :: l, H => by
    rw [List.flatMap_cons]
    exact bal_append (H a List.mem_cons_self) (bal_flatMap fun x hx => H x (List.mem_cons_of_mem _ hx))

theorem bal_ite {h : List L} {c : Bool} {p q : List (Op L)} (hp : Bal rank h p) (hq : Bal rank h q) : Bal rank h (if c then p else q) := by
  cases c <;> simpa

/-- All that is held is below the given rank. -/
def Below (rank : L → Nat) (n : Nat) (h : List L) : Prop := ∀ x ∈ h, rank x < n

omit [DecidableEq L] in
theorem below_cons {n k : Nat} {h : List L} {l : L} (hb : Below rank n h) (hn : n ≤ k) (hl : rank l < k) : Below rank k (l :: h) := by
  intro x hx
  rcases List.mem_cons.1 hx with e | hx
  · rw [e]; exact hl
  · exact Nat.lt_of_lt_of_le (hb x hx) hn

theorem bal_lock {n : Nat} {h : List L} {l : L} {m : Mode} {p : List (Op L)} (hb : Below rank n h) (hn : n ≤ rank l)
    (hp : Below rank (rank l + 1) (l :: h) → Bal rank (l :: h) p) : Bal rank h (hold l m p) :=
  bal_hold (fun x hx => Nat.lt_of_lt_of_le (hb x hx) hn) (hp (below_cons hb (Nat.le_trans hn (Nat.le_succ _)) (Nat.lt_succ_self _)))

omit [DecidableEq L] in
theorem below_nil (n : Nat) : Below rank n ([] : List L) := fun _ hx => absurd hx List.not_mem_nil

/-- Every thread keeps to the order. -/
def Inv (rank : L → Nat) (s : St L) : Prop := ∀ t, ok rank ((s t).held.map Prod.fst) (s t).todo

theorem map_eraseP (l : L) : ∀ h : List (L × Mode), (h.eraseP (·.1 = l)).map Prod.fst = (h.map Prod.fst).erase l
  | [] => rfl
  | (k, m) :: h => by
    by_cases e : k = l
    · simp [e]
    · simp [e, map_eraseP l h]

theorem inv_step {s s' : St L} {t : Nat} (hi : Inv rank s) (h : Step s t s') : Inv rank s' := by
  cases h with
  | @acq l m p h hf =>
    intro u
    by_cases e : u = t
    · have := hi t
      rw [h] at this
      simpa [e] using this.2
    · simpa [e] using hi u
  | @rel l p h =>
    intro u
    by_cases e : u = t
    · have := hi t
      rw [h] at this
      simpa [e, map_eraseP] using this.2
    · simpa [e] using hi u

theorem inv_reach {s s' : St L} (hi : Inv rank s) (h : Reach s s') : Inv rank s' := by
  induction h with
  | refl => exact hi
  | step _ hs ih => exact inv_step ih hs

/-- Someone wants a lock of rank `n` or above, or someone can go on. -/
theorem climb {s : St L} (hi : Inv rank s) (hn : ∀ t, ¬ canGo s t) {t : Nat} {l : L} {m : Mode} {p : List (Op L)} (h : (s t).todo = .acq l m :: p) :
    ∃ u k m' q, (s u).todo = .acq k m' :: q ∧ rank l < rank k := by
  -- whoever holds the lock wants a higher one
  have holder : ∀ u m', (l, m') ∈ (s u).held → ∃ u k m' q, (s u).todo = .acq k m' :: q ∧ rank l < rank k := by
    intro u m' hu
    have hl : l ∈ (s u).held.map Prod.fst := List.mem_map.2 ⟨_, hu, rfl⟩
    have hk := hi u
    match ht : (s u).todo with
    | [] => rw [ht] at hk; rw [ok] at hk; rw [hk] at hl; exact absurd hl List.not_mem_nil
    | .rel k :: q => exact absurd (by simp [canGo, ht]) (hn u)
    | .acq k m'' :: q =>
      rw [ht] at hk
      exact ⟨u, k, m'', q, ht, hk.1 l hl⟩
  have writer : ∀ u q, (s u).todo = .acq l .w :: q → ∃ u k m' q, (s u).todo = .acq k m' :: q ∧ rank l < rank k := by
    intro u q hu
    have hb := hn u
    simp only [canGo, hu, free] at hb
    push Not at hb
    obtain ⟨v, m', hv⟩ := hb
    exact holder v m' hv
  cases m with
  | w => exact writer t p h
  | r =>
    have hb := hn t
    simp only [canGo, h] at hb
    by_cases hf : free s l .r
    · have hw : ¬ noWriter s l := fun hw => hb ⟨hf, hw⟩
      simp only [noWriter] at hw
      push Not at hw
      obtain ⟨u, q, hu⟩ := hw
      exact writer u q hu
    · simp only [free] at hf
      push Not at hf
      obtain ⟨v, hv⟩ := hf
      exact holder v .w hv

/-- If every thread keeps to the order, a thread that is not done can go on or another can. -/
theorem progress {N : Nat} (hN : ∀ l, rank l ≤ N) {progs : Nat → List (Op L)} (hp : ∀ t, ok rank [] (progs t)) {s : St L} (hr : Reach (begin progs) s)
    {t : Nat} (ht : (s t).todo ≠ []) : ∃ u, canGo s u := by
  by_contra hn
  push Not at hn
  have hi : Inv rank s := inv_reach (fun t => by simpa [begin] using hp t) hr
  have up : ∀ n : Nat, ∃ u k m q, (s u).todo = .acq k m :: q ∧ n ≤ rank k := by
    intro n
    induction n with
    | zero =>
      match h : (s t).todo with
      | [] => exact absurd h ht
      | .rel l :: q => exact absurd (by simp [canGo, h]) (hn t)
      | .acq l m :: q => exact ⟨t, l, m, q, h, Nat.zero_le _⟩
    | succ n ih =>
      obtain ⟨u, k, m, q, h, hk⟩ := ih
      obtain ⟨v, k', m', q', h', hk'⟩ := climb hi hn h
      exact ⟨v, k', m', q', h', by omega⟩
  obtain ⟨_, k, _, _, _, hk⟩ := up (N + 1)
  have := hN k
  omega

/-- A thread that can go on takes a step. -/
theorem step_of_canGo {s : St L} {t : Nat} (h : canGo s t) : ∃ s', Step s t s' := by
  simp only [canGo] at h
  match ht : (s t).todo with
  | [] => rw [ht] at h; exact h.elim
  | .rel l :: q => exact ⟨_, .rel ht⟩
  | .acq l .w :: q => rw [ht] at h; exact ⟨_, .acq ht h⟩
  | .acq l .r :: q => rw [ht] at h; exact ⟨_, .acq ht h.1⟩

/-- What the first `n` threads have still to do. -/
def left (s : St L) (n : Nat) : Nat := ((List.range n).map fun t => (s t).todo.length).sum

theorem sum_drop {n t : Nat} {f g : Nat → Nat} (ht : t < n) (h : ∀ u, u ≠ t → g u = f u) (hd : g t + 1 = f t) :
    ((List.range n).map g).sum + 1 = ((List.range n).map f).sum := by
  induction n with
  | zero => omega
  | succ n ih =>
    simp only [List.range_succ, List.map_append, List.sum_append, List.map_cons, List.map_nil, List.sum_cons, List.sum_nil]
    rcases Nat.lt_succ_iff_lt_or_eq.1 ht with h1 | h1
    · have := ih h1
      rw [h n (by omega)]
      omega
    · subst h1
      have : (List.range t).map g = (List.range t).map f := List.map_congr_left fun u hu => h u (by have := List.mem_range.1 hu; omega)
      rw [this]
      omega

theorem step_todo {s s' : St L} {t : Nat} (h : Step s t s') : (s' t).todo.length + 1 = (s t).todo.length ∧ ∀ u, u ≠ t → s' u = s u := by
  cases h with
  | acq h hf => exact ⟨by simp [h], fun u hu => by simp [hu]⟩
  | rel h => exact ⟨by simp [h], fun u hu => by simp [hu]⟩

/-- Each step of one of the threads leaves less to do: no schedule goes on for ever. -/
theorem step_left {s s' : St L} {t n : Nat} (ht : t < n) (h : Step s t s') : left s' n + 1 = left s n := by
  obtain ⟨h1, h2⟩ := step_todo h
  exact sum_drop ht (fun u hu => by rw [h2 u hu]) h1

/-- A run of the given number of steps. -/
inductive Steps (s : St L) : Nat → St L → Prop
  | refl : Steps s 0 s
  | step {n a b t} (h : Steps s n a) (hs : Step a t b) : Steps s (n + 1) b

theorem steps_reach {s s' : St L} {n : Nat} (h : Steps s n s') : Reach s s' := by
  induction h with
  | refl => exact .refl
  | step _ hs ih => exact .step ih hs

/-- With finitely many threads: every schedule comes to an end within as many steps as there are lock
operations, and when nobody can go on any more every thread is done with all locks released. -/
theorem all_finish {N : Nat} (hN : ∀ l, rank l ≤ N) {progs : Nat → List (Op L)} (hp : ∀ t, ok rank [] (progs t)) {n : Nat}
    (hn : ∀ t, n ≤ t → progs t = []) {k : Nat} {s : St L} (hr : Steps (begin progs) k s) :
    k + left s n = left (begin progs) n ∧ ((∀ t, ¬ canGo s t) → ∀ t, (s t).todo = [] ∧ (s t).held = []) := by
  have hz : ∀ {k s}, Steps (begin progs) k s → ∀ t, n ≤ t → (s t).todo = [] := by
    intro k s h
    induction h with
    | refl => intro t ht; simp [begin, hn t ht]
    | @step k a b u h hs ih =>
      intro t ht
      have ha := ih t ht
      obtain ⟨h1, h2⟩ := step_todo hs
      by_cases e : t = u
      · subst e; rw [ha] at h1; simp at h1
      · rw [h2 t e]; exact ha
  refine ⟨?_, fun hg t => ?_⟩
  · induction hr with
    | refl => omega
    | @step k a b u h hs ih =>
      have hu : u < n := by
        by_contra hu
        have := hz h u (by omega)
        have := (step_todo hs).1
        simp_all
      have := step_left hu hs
      omega
  · have ht : (s t).todo = [] := by
      by_contra ht
      obtain ⟨u, hu⟩ := progress hN hp (steps_reach hr) ht
      exact hg u hu
    have hi : Inv rank s := inv_reach (fun t => by simpa [begin] using hp t) (steps_reach hr)
    have hi := hi t
    rw [ht] at hi
    exact ⟨ht, by simpa [ok] using hi⟩

/-! ### Hangs -/

/-- Nobody is sure to go on although someone is not done. -/
def Hung (s : St L) : Prop := (∃ t, (s t).todo ≠ []) ∧ ∀ t, ¬ canGo s t

/-- Nobody can go on at all, however the locks treat readers, although someone is not done. -/
def Dead (s : St L) : Prop := (∃ t, (s t).todo ≠ []) ∧ ∀ t s', ¬ Step s t s'

/-- Let the threads named go on in turn, with only the first `n` threads looked at. -/
def freeB (n : Nat) (s : St L) (l : L) (m : Mode) : Bool :=
  (List.range n).all fun u => (s u).held.all fun x => !(x.1 == l && (m == .w || x.2 == .w))

def stepB (n : Nat) (s : St L) (t : Nat) : Option (St L) :=
  match (s t).todo with
  | [] => none
  | .acq l m :: p => if freeB n s l m then some (fun u => if u = t then { held := (l, m) :: (s t).held, todo := p } else s u) else none
  | .rel l :: p => some (fun u => if u = t then { held := (s t).held.eraseP (·.1 = l), todo := p } else s u)

def runB (n : Nat) : List Nat → St L → Option (St L)
  | [], s => some s
  | t :: ts, s => (stepB n s t).bind (runB n ts)

def goB (n : Nat) (s : St L) (t : Nat) : Bool :=
  match (s t).todo with
  | [] => false
  | .rel _ :: _ => true
  | .acq l .w :: _ => freeB n s l .w
  | .acq l .r :: _ => freeB n s l .r && (List.range n).all fun u => (s u).todo.head? != some (.acq l .w)

/-- The other threads do nothing. -/
def Only (n : Nat) (s : St L) : Prop := ∀ u, n ≤ u → (s u).held = [] ∧ (s u).todo = []

theorem freeB_iff {n : Nat} {s : St L} (ho : Only n s) {l : L} {m : Mode} : freeB n s l m = true ↔ free s l m := by
  have key : freeB n s l m = true ↔ ∀ u, u < n → ∀ x ∈ (s u).held, ¬ (x.1 = l ∧ (m = .w ∨ x.2 = .w)) := by
    simp [freeB, List.all_eq_true, imp_iff_not_or]
  rw [key]
  cases m with
  | w =>
    constructor
    · intro h u m' hm
      by_cases hu : u < n
      · exact h u hu _ hm ⟨rfl, Or.inl rfl⟩
      · rw [(ho u (by omega)).1] at hm; exact absurd hm List.not_mem_nil
    · rintro h u - ⟨k, m'⟩ hx ⟨rfl, -⟩
      exact h u m' hx
  | r =>
    constructor
    · intro h u hm
      by_cases hu : u < n
      · exact h u hu _ hm ⟨rfl, Or.inr rfl⟩
      · rw [(ho u (by omega)).1] at hm; exact absurd hm List.not_mem_nil
    · rintro h u - ⟨k, m'⟩ hx ⟨rfl, hm⟩
      simp only [reduceCtorEq, false_or] at hm
      subst hm
      exact h u hx

theorem stepB_step {n : Nat} {s s' : St L} {t : Nat} (ho : Only n s) (h : stepB n s t = some s') : Step s t s' ∧ Only n s' := by
  simp only [stepB] at h
  match ht : (s t).todo with
  | [] => simp [ht] at h
  | .acq l m :: p =>
    simp only [ht] at h
    split at h
    · next hf =>
      cases h
      refine ⟨.acq ht ((freeB_iff ho).1 hf), fun u hu => ?_⟩
      by_cases e : u = t
      · subst e; rw [(ho u hu).2] at ht; simp at ht
      · simpa [e] using ho u hu
    · simp at h
  | .rel l :: p =>
    simp only [ht] at h
    cases h
    refine ⟨.rel ht, fun u hu => ?_⟩
    by_cases e : u = t
    · subst e; rw [(ho u hu).2] at ht; simp at ht
    · simpa [e] using ho u hu

theorem runB_reach {n : Nat} {s0 : St L} : ∀ {ts : List Nat} {s s' : St L}, Only n s → Reach s0 s → runB n ts s = some s' → Reach s0 s' ∧ Only n s'
  | [], s, s', ho, hr, h => by
    simp only [runB, Option.some.injEq] at h
    subst h; exact ⟨hr, ho⟩
  | t :: ts, s, s', ho, hr, h => by
    simp only [runB, Option.bind_eq_some_iff] at h
    obtain ⟨a, ha, hb⟩ := h
    obtain ⟨h1, h2⟩ := stepB_step ho ha
    exact runB_reach h2 (hr.step h1) hb

theorem canGo_goB {n : Nat} {s : St L} (ho : Only n s) {t : Nat} (h : canGo s t) : goB n s t = true := by
  simp only [canGo] at h
  simp only [goB]
  match ht : (s t).todo with
  | [] => rw [ht] at h; exact h.elim
  | .rel l :: p => rfl
  | .acq l .w :: p => rw [ht] at h; exact (freeB_iff ho).2 h
  | .acq l .r :: p =>
    rw [ht] at h
    simp only [Bool.and_eq_true, List.all_eq_true]
    refine ⟨(freeB_iff ho).2 h.1, fun u _ => ?_⟩
    simp only [bne_iff_ne, ne_eq]
    intro e
    match hu : (s u).todo with
    | [] => simp [hu] at e
    | o :: q =>
      rw [hu] at e
      simp only [List.head?_cons, Option.some.injEq] at e
      subst e
      exact h.2 u q hu

theorem step_stepB {n : Nat} {s s' : St L} (ho : Only n s) {t : Nat} (h : Step s t s') : (stepB n s t).isSome = true := by
  cases h with
  | acq h hf => simp [stepB, h, (freeB_iff ho).2 hf]
  | rel h => simp [stepB, h]

omit [DecidableEq L] in
theorem only_start {progs : List (List (Op L))} : Only progs.length (begin fun t => progs.getD t []) := by
  intro u hu
  simp [begin, List.getElem?_eq_none hu]

/-- From a schedule found by hand to a theorem. -/
theorem hung_of {progs : List (List (Op L))} (ts : List Nat) (h : ∃ s ∈ runB progs.length ts (begin fun t => progs.getD t []),
    ((List.range progs.length).any fun t => !(s t).todo.isEmpty) = true ∧ ((List.range progs.length).all fun t => !goB progs.length s t) = true) :
    ∃ s, Reach (begin fun t => progs.getD t []) s ∧ Hung s := by
  obtain ⟨s, hs, h1, h2⟩ := h
  obtain ⟨hr, ho⟩ := runB_reach only_start .refl (Option.mem_def.1 hs)
  refine ⟨s, hr, ?_, fun t ht => ?_⟩
  · simp only [List.any_eq_true] at h1
    obtain ⟨t, _, ht⟩ := h1
    exact ⟨t, by intro e; simp [e] at ht⟩
  · by_cases hl : t < progs.length
    · have := List.all_eq_true.1 h2 t (List.mem_range.2 hl)
      rw [canGo_goB ho ht] at this
      simp at this
    · simp [canGo, (ho t (by omega)).2] at ht

theorem dead_of {progs : List (List (Op L))} (ts : List Nat) (h : ∃ s ∈ runB progs.length ts (begin fun t => progs.getD t []),
    ((List.range progs.length).any fun t => !(s t).todo.isEmpty) = true ∧ ((List.range progs.length).all fun t => !(stepB progs.length s t).isSome) = true) :
    ∃ s, Reach (begin fun t => progs.getD t []) s ∧ Dead s := by
  obtain ⟨s, hs, h1, h2⟩ := h
  obtain ⟨hr, ho⟩ := runB_reach only_start .refl (Option.mem_def.1 hs)
  refine ⟨s, hr, ?_, fun t s' ht => ?_⟩
  · simp only [List.any_eq_true] at h1
    obtain ⟨t, _, ht⟩ := h1
    exact ⟨t, by intro e; simp [e] at ht⟩
  · by_cases hl : t < progs.length
    · have := List.all_eq_true.1 h2 t (List.mem_range.2 hl)
      rw [step_stepB ho ht] at this
      simp at this
    · have := (step_todo ht).1
      rw [(ho t (by omega)).2] at this
      simp at this

/-- The same, for schedules of which only the result is looked at. -/
def deadB (progs : List (List (Op L))) (ts : List Nat) : Bool :=
  match runB progs.length ts (begin fun t => progs.getD t []) with
  | none => false
  | some s => ((List.range progs.length).any fun t => !(s t).todo.isEmpty) && ((List.range progs.length).all fun t => !(stepB progs.length s t).isSome)

def hungB (progs : List (List (Op L))) (ts : List Nat) : Bool :=
  match runB progs.length ts (begin fun t => progs.getD t []) with
  | none => false
  | some s => ((List.range progs.length).any fun t => !(s t).todo.isEmpty) && ((List.range progs.length).all fun t => !goB progs.length s t)

theorem dead_of' {progs : List (List (Op L))} (ts : List Nat) (h : deadB progs ts = true) :
    ∃ s, Reach (begin fun t => progs.getD t []) s ∧ Dead s := by
  simp only [deadB] at h
  split at h
  · simp at h
  · next s hs =>
    simp only [Bool.and_eq_true] at h
    exact dead_of ts ⟨s, hs, h⟩

theorem hung_of' {progs : List (List (Op L))} (ts : List Nat) (h : hungB progs ts = true) :
    ∃ s, Reach (begin fun t => progs.getD t []) s ∧ Hung s := by
  simp only [hungB] at h
  split at h
  · simp at h
  · next s hs =>
    simp only [Bool.and_eq_true] at h
    exact hung_of ts ⟨s, hs, h⟩

end Horus.Locks
