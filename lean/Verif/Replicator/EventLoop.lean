import Mathlib.Tactic.Common
import Mathlib.Data.List.Induction
import Mathlib.Data.List.Perm.Subperm
import Mathlib.Data.List.Nodup
/-
C200: the replicator's event loop. Models `Replicator::run` and `handle_incoming` (horus_net/src/replicator.rs:210-271)
over the edge-triggered loop of horus_net/src/event_loop/epoll.rs:118-182.

Simplified: the kernel's socket buffer is unbounded; a datagram, a timer pass and an export are one step each. The order
in which `epoll_wait` lists the sources is arbitrary. macOS's kqueue loop is not modelled.
-/
namespace Horus.NetLoop

variable {α : Type}

/-- What an event comes from. Source: horus_net/src/event_loop/mod.rs: EventSource. -/
inductive Src where
  | udp | shm | timer
  deriving DecidableEq, Repr

/-- Where the loop is: in `wait`, or with events still to handle and a number of datagrams it may still read in this
wakeup. Source: replicator.rs:211-236, 259-261. -/
inductive Pc where
  | idle
  | busy (todo : List Src) (budget : Nat)
  deriving DecidableEq, Repr

/-- The loop and the kernel objects it waits on. `edge`, `tick` and `note` say that epoll has something new to report for
the socket, the timer and the eventfd. Source: epoll.rs:20-26. -/
structure St (α : Type) where
  sock : List α := []
  edge : Bool := false
  tick : Bool := false
  note : Bool := false
  pc : Pc := .idle
  handled : List α := []
  timers : Nat := 0
  exports : Nat := 0

/-- What may happen next. -/
inductive Act (α : Type) where
  /-- A datagram arrives. -/
  | arrive (d : α)
  /-- The timer expires. -/
  | expire
  /-- The registry changes. -/
  | notify
  /-- `wait` returns, listing sources in this order. -/
  | wait (order : List Src)
  /-- The loop takes a step; a read of the socket fails with an error other than "would block" if `err`. -/
  | go (err : Bool)
  deriving DecidableEq, Repr

/-- `MAX_DATAGRAMS_PER_WAKEUP`. Source: replicator.rs:260. -/
def maxRead : Nat := 256

/-- Whether epoll reports a source. Source: epoll.rs:122-131. -/
def St.ready (s : St α) : Src → Bool
  | .udp => s.edge
  | .shm => s.note
  | .timer => s.tick

/-- `wait` returns the sources that have something new, each once, and each report is consumed (edge-triggered; the timer
and the eventfd are read). If there is none, the loop runs its timer pass. Source: epoll.rs:121-169, replicator.rs:212-235. -/
def wait (s : St α) (order : List Src) : St α :=
  let evs := order.filter s.ready
  if evs = [] then { s with timers := s.timers + 1 }
  else { s with edge := false, tick := false, note := false, pc := .busy evs maxRead }

/-- One step inside an iteration. Source: replicator.rs:224-231, 243-271. -/
def go (s : St α) (err : Bool) : St α :=
  match s.pc with
  | .idle => s
  | .busy [] _ => { s with pc := .idle }
  | .busy (.timer :: r) b => { s with timers := s.timers + 1, pc := .busy r b }
  | .busy (.shm :: r) b => { s with exports := s.exports + 1, pc := .busy r b }
  | .busy (.udp :: r) b =>
    if b = 0 ∨ err = true then { s with pc := .busy r b }
    else match s.sock with
      | [] => { s with pc := .busy r b }
      | d :: ds => { s with sock := ds, handled := s.handled ++ [d], pc := .busy (.udp :: r) (b - 1) }

/-- An order that lists every source once. -/
def Full (order : List Src) : Prop := order.Nodup ∧ order.length = 3

instance (order : List Src) : Decidable (Full order) := by unfold Full; infer_instance

/-- One event. An edge is set by every arrival. Source: epoll.rs:171-176 (`EPOLLIN | EPOLLET`). -/
def step (s : St α) : Act α → St α
  | .arrive d => { s with sock := s.sock ++ [d], edge := true }
  | .expire => { s with tick := true }
  | .notify => { s with note := true }
  | .wait order => if s.pc = .idle ∧ Full order then wait s order else s
  | .go err => go s err

/-- A history. -/
def run (s : St α) (as : List (Act α)) : St α := as.foldl step s

/-! ## Specification -/

/-- The datagrams that arrived in a history. -/
def arrivals : List (Act α) → List α
  | [] => []
  | .arrive d :: as => d :: arrivals as
  | _ :: as => arrivals as

/-- The steps the loop itself takes in a history. -/
def steps (s : St α) : List (Act α) → Nat
  | [] => 0
  | .go e :: as => (if s.pc = .idle then 0 else 1) + steps (step s (.go e)) as
  | .wait o :: as => (if s.pc = .idle ∧ Full o then 1 else 0) + steps (step s (.wait o)) as
  | a :: as => steps (step s a) as

/-- In this history no read of the socket is cut short: none fails, and none stops at the limit with a datagram left. -/
def Uncut (s : St α) : List (Act α) → Prop
  | [] => True
  | .go err :: as =>
    (∀ r b, s.pc = .busy (.udp :: r) b → err = false ∧ (b = 0 → s.sock = [])) ∧ Uncut (step s (.go err)) as
  | a :: as => Uncut (step s a) as

/-! ## Proofs -/

theorem arrivals_append (as bs : List (Act α)) : arrivals (as ++ bs) = arrivals as ++ arrivals bs := by
  induction as with
  | nil => rfl
  | cons a as ih => cases a <;> simp [arrivals, ih]

theorem run_snoc (s : St α) (as : List (Act α)) (a : Act α) : run s (as ++ [a]) = step (run s as) a := by
  simp [run, List.foldl_append]

theorem run_append (s : St α) (as bs : List (Act α)) : run s (as ++ bs) = run (run s as) bs := by
  simp [run, List.foldl_append]

/-- **Each datagram is handled at most once and in the order of arrival**, and one not handled is still in the socket. -/
theorem in_order (as : List (Act α)) : (run {} as).handled ++ (run {} as).sock = arrivals as := by
  induction as using List.reverseRecOn with
  | nil => rfl
  | append_singleton as a ih =>
    rw [run_snoc, arrivals_append, ← ih]
    generalize run ({} : St α) as = s
    cases a with
    | arrive d => simp [step, arrivals]
    | expire => simp [step, arrivals]
    | notify => simp [step, arrivals]
    | wait o =>
      simp only [step, wait, arrivals, List.append_nil]
      split
      · split <;> rfl
      · rfl
    | go err =>
      simp only [step, arrivals, List.append_nil]
      unfold go
      split <;> try rfl
      split
      · rfl
      · split
        · rfl
        · rename_i hs; simp [hs]

/-- The loop reads the socket again, or has nothing left in it. Proof device. -/
def Live (s : St α) : Prop :=
  s.sock = [] ∨ s.edge = true ∨ ∃ todo b, s.pc = .busy todo b ∧ Src.udp ∈ todo

theorem live_step (s : St α) (a : Act α) (hl : Live s)
    (hu : ∀ err, a = .go err → ∀ r b, s.pc = .busy (.udp :: r) b → err = false ∧ (b = 0 → s.sock = [])) :
    Live (step s a) := by
  cases a with
  | arrive d => exact Or.inr (Or.inl rfl)
  | expire => exact hl
  | notify => exact hl
  | wait o =>
    simp only [step]
    split
    · rename_i h
      obtain ⟨hi, hn, hlen⟩ := h
      rcases hl with h1 | h1 | ⟨t, b, h1, _⟩
      · left; simp only [wait]; split <;> exact h1
      · have hm : Src.udp ∈ o := by
          by_contra hc
          have : o ⊆ [.shm, .timer] := by
            intro x hx; cases x
            · exact absurd hx hc
            · simp
            · simp
          have := (List.Nodup.subperm hn this).length_le
          simp at this; omega
        have hf : Src.udp ∈ o.filter s.ready := by simp [hm, St.ready, h1]
        right; right
        simp only [wait]
        rw [if_neg (by intro e; rw [e] at hf; cases hf)]
        exact ⟨_, _, rfl, hf⟩
      · rw [hi] at h1; cases h1
    · exact hl
  | go err =>
    have hu := hu err rfl
    simp only [step]
    unfold go
    split
    · exact hl
    · rename_i b hp
      rcases hl with h1 | h1 | ⟨t, b', h1, h2⟩
      · exact Or.inl h1
      · exact Or.inr (Or.inl h1)
      · rw [hp] at h1; obtain ⟨rfl, rfl⟩ : ([] : List Src) = t ∧ b = b' := by simpa using h1
        cases h2
    · rename_i r b hp
      rcases hl with h1 | h1 | ⟨t, b', h1, h2⟩
      · exact Or.inl h1
      · exact Or.inr (Or.inl h1)
      · rw [hp] at h1; obtain ⟨rfl, rfl⟩ : Src.timer :: r = t ∧ b = b' := by simpa using h1
        exact Or.inr (Or.inr ⟨_, _, rfl, by simpa using h2⟩)
    · rename_i r b hp
      rcases hl with h1 | h1 | ⟨t, b', h1, h2⟩
      · exact Or.inl h1
      · exact Or.inr (Or.inl h1)
      · rw [hp] at h1; obtain ⟨rfl, rfl⟩ : Src.shm :: r = t ∧ b = b' := by simpa using h1
        exact Or.inr (Or.inr ⟨_, _, rfl, by simpa using h2⟩)
    · rename_i r b hp
      obtain ⟨he, hb⟩ := hu r b hp
      split
      · rename_i hc
        rcases hc with hc | hc
        · exact Or.inl (hb hc)
        · rw [he] at hc; cases hc
      · split
        · rename_i hs; exact Or.inl hs
        · exact Or.inr (Or.inr ⟨_, _, rfl, List.mem_cons_self⟩)

theorem live_run (as : List (Act α)) (s : St α) (hl : Live s) (hu : Uncut s as) : Live (run s as) := by
  induction as generalizing s with
  | nil => exact hl
  | cons a as ih =>
    show Live (run (step s a) as)
    cases a with
    | go err =>
      refine ih _ (live_step s _ hl ?_) hu.2
      intro e he; cases he; exact hu.1
    | arrive d => exact ih _ (live_step s _ hl (by intro e he; cases he)) hu
    | expire => exact ih _ (live_step s _ hl (by intro e he; cases he)) hu
    | notify => exact ih _ (live_step s _ hl (by intro e he; cases he)) hu
    | wait o => exact ih _ (live_step s _ hl (by intro e he; cases he)) hu

/-- **Every datagram is handled** before the loop goes back to sleep: when it waits with nothing to report, all that
arrived has been handled.

Missing: histories in which one wakeup reads its limit of datagrams, or a read fails (`left_behind`, `stays_behind`). -/
theorem all_handled_partial (as : List (Act α)) (hu : Uncut {} as) (hi : (run {} as).pc = .idle)
    (he : (run {} as).edge = false) : (run {} as).handled = arrivals as := by
  have := live_run as {} (Or.inl rfl) hu
  rcases this with h | h | ⟨_, _, h, _⟩
  · rw [← in_order as, h, List.append_nil]
  · rw [he] at h; cases h
  · rw [hi] at h; cases h

/-- Non-vacuity: two datagrams, one of which arrives during the read. -/
example : let as : List (Act Nat) := [.arrive 1, .wait [.timer, .udp, .shm], .go false, .arrive 2, .go false, .go false, .go false,
      .wait [.timer, .udp, .shm], .go false, .go false]
    (run {} as).pc = .idle ∧ (run {} as).edge = false ∧ (run {} as).handled = [1, 2] := by decide

theorem arrive_all (ds : List α) (s : St α) : run s (ds.map .arrive) = { s with sock := s.sock ++ ds, edge := s.edge || !ds.isEmpty } := by
  induction ds generalizing s with
  | nil => simp [run]
  | cons d ds ih =>
    show run (step s (.arrive d)) (ds.map .arrive) = _
    rw [ih]
    simp [step]

theorem read_n (n : Nat) (s : St α) (r : List Src) (b : Nat) (hp : s.pc = .busy (.udp :: r) b) (hb : n ≤ b) (hn : n ≤ s.sock.length) :
    run s (List.replicate n (.go false)) =
      { s with sock := s.sock.drop n, handled := s.handled ++ s.sock.take n, pc := .busy (.udp :: r) (b - n) } := by
  induction n generalizing s b with
  | zero => simp [run, ← hp]
  | succ n ih =>
    obtain ⟨d, ds, hs⟩ := List.exists_cons_of_length_pos (show 0 < s.sock.length by omega)
    rw [List.replicate_succ]
    show run (step s (.go false)) _ = _
    have hstep : step s (.go false) = { s with sock := ds, handled := s.handled ++ [d], pc := .busy (.udp :: r) (b - 1) } := by
      simp only [step, go, hp, hs]
      rw [if_neg (by simp; omega)]
    rw [hstep, ih _ (b - 1) rfl (by omega) (by simp [hs] at hn ⊢; omega)]
    simp [hs, Nat.sub_sub, Nat.add_comm]

/-- **A burst is left behind.** Whenever more than 256 datagrams are waiting at one wakeup, a history in which the
loop handles exactly 256 of them and goes back to waiting with the rest in the socket and nothing to report. -/
theorem left_behind (ds : List α) (hl : 256 < ds.length) :
    ∃ as : List (Act α), arrivals as = ds ∧ (run {} as).pc = .idle ∧ (run {} as).edge = false ∧
      (run {} as).handled = ds.take 256 ∧ (run {} as).sock = ds.drop 256 ∧ (run {} as).sock ≠ [] := by
  refine ⟨ds.map .arrive ++ ([.wait [.udp, .shm, .timer]] ++ (List.replicate 256 (.go false) ++ [.go false, .go false])), ?_⟩
  have harr : ∀ l : List α, arrivals (l.map Act.arrive) = l := by intro l; induction l <;> simp_all [arrivals]
  have hrep : ∀ n, arrivals (List.replicate n (Act.go false) : List (Act α)) = [] := by
    intro n; induction n <;> simp_all [arrivals, List.replicate_succ]
  have hne : ds.isEmpty = false := by cases ds <;> simp_all
  have h1 : run (run ({} : St α) (ds.map .arrive)) [.wait [.udp, .shm, .timer]] =
      { sock := ds, edge := false, tick := false, note := false, pc := .busy [.udp] 256, handled := [], timers := 0, exports := 0 } := by
    rw [arrive_all]
    have hf : List.filter (St.ready ({ sock := ds, edge := true } : St α)) [Src.udp, Src.shm, Src.timer] = [Src.udp] := rfl
    simp [run, step, wait, Full, hne, maxRead, hf]
  have key : run ({} : St α) (ds.map .arrive ++ ([.wait [.udp, .shm, .timer]] ++ (List.replicate 256 (.go false) ++ [.go false, .go false]))) =
      { sock := ds.drop 256, edge := false, tick := false, note := false, pc := .idle, handled := ds.take 256, timers := 0, exports := 0 } := by
    rw [run_append, run_append, h1, run_append, read_n 256 _ [] 256 rfl (Nat.le_refl _) (by dsimp only; omega)]
    rfl
  refine ⟨?_, ?_⟩
  · rw [arrivals_append, arrivals_append, arrivals_append, harr, hrep]; simp only [arrivals, List.append_nil]
  · rw [key]
    refine ⟨rfl, rfl, rfl, rfl, ?_⟩
    dsimp only
    intro e
    have := congrArg List.length e
    simp at this
    omega

/-- **…and stays behind**: until another datagram arrives, no timer, notification or number of wakeups makes the loop look
at the socket again. -/
theorem stays_behind (as : List (Act α)) (s : St α) (hi : s.pc = .idle) (he : s.edge = false) (hn : arrivals as = []) :
    (run s as).sock = s.sock ∧ (run s as).handled = s.handled := by
  have key : ∀ (as : List (Act α)) (s : St α), (∀ todo b, s.pc = .busy todo b → Src.udp ∉ todo) → s.edge = false → arrivals as = [] →
      (run s as).sock = s.sock ∧ (run s as).handled = s.handled := by
    intro as
    induction as with
    | nil => intro s _ _ _; exact ⟨rfl, rfl⟩
    | cons a as ih =>
      intro s hp he hn
      show (run (step s a) as).sock = _ ∧ (run (step s a) as).handled = _
      cases a with
      | arrive d => simp [arrivals] at hn
      | expire => exact ih _ hp he hn
      | notify => exact ih _ hp he hn
      | wait o =>
        have hn : arrivals as = [] := hn
        simp only [step]
        split
        · rename_i hc
          simp only [wait]
          split
          · exact ih _ hp he hn
          · refine ih _ ?_ rfl hn
            intro todo b e
            have e : o.filter s.ready = todo := by simpa using And.left (by simpa using e : _ ∧ _)
            rw [← e]; simp [St.ready, he]
        · exact ih _ hp he hn
      | go err =>
        have hn : arrivals as = [] := hn
        have h2 : (step s (.go err)).sock = s.sock ∧ (step s (.go err)).handled = s.handled ∧ (step s (.go err)).edge = false ∧
            (∀ todo b, (step s (.go err)).pc = .busy todo b → Src.udp ∉ todo) := by
          simp only [step]
          unfold go
          split
          · exact ⟨rfl, rfl, he, hp⟩
          · exact ⟨rfl, rfl, he, by intro t b e; cases e⟩
          · rename_i r b h
            refine ⟨rfl, rfl, he, ?_⟩
            intro t b' e
            obtain ⟨rfl, rfl⟩ : r = t ∧ b = b' := by simpa using e
            have := hp _ _ h; simpa using this
          · rename_i r b h
            refine ⟨rfl, rfl, he, ?_⟩
            intro t b' e
            obtain ⟨rfl, rfl⟩ : r = t ∧ b = b' := by simpa using e
            have := hp _ _ h; simpa using this
          · rename_i r b h
            exact absurd List.mem_cons_self (hp _ _ h)
        obtain ⟨i1, i2⟩ := ih _ h2.2.2.2 h2.2.2.1 hn
        exact ⟨i1.trans h2.1, i2.trans h2.2.1⟩
  exact key as s (by intro t b e; rw [hi] at e; cases e) he hn

/-- Steps an iteration still takes. Proof device. -/
def cost (b : Nat) : List Src → Nat
  | [] => 0
  | .udp :: r => b + 1 + cost b r
  | _ :: r => 1 + cost b r

theorem cost_mono (b b' : Nat) (h : b ≤ b') (l : List Src) : cost b l ≤ cost b' l := by
  induction l with
  | nil => exact Nat.le_refl _
  | cons x l ih => cases x <;> simp only [cost] <;> omega

theorem cost_le (b : Nat) (hb : b ≤ 256) (l : List Src) (hn : l.Nodup) : cost b l ≤ 259 := by
  have h2 : ∀ l : List Src, Src.udp ∉ l → cost b l = l.length := by
    intro l
    induction l with
    | nil => intro _; rfl
    | cons x l ih =>
      intro h
      have := ih (by simp at h; exact h.2)
      cases x
      · simp at h
      all_goals (simp only [cost, List.length_cons]; omega)
  have h3 : ∀ l : List Src, l.Nodup → cost b l ≤ l.length + b := by
    intro l
    induction l with
    | nil => intro _; simp [cost]
    | cons x l ih =>
      intro h
      rw [List.nodup_cons] at h
      have := ih h.2
      cases x
      · have := h2 l h.1
        simp only [cost, List.length_cons]; omega
      all_goals (simp only [cost, List.length_cons]; omega)
  have h4 : l.length ≤ 3 := by
    have : l ⊆ [.udp, .shm, .timer] := by intro x _; cases x <;> simp
    have := (List.Nodup.subperm hn this).length_le
    simpa using this
  have := h3 l hn
  omega

/-- At most one event per source, and the budget within its limit. Proof device. -/
def Good (s : St α) : Prop := ∀ todo b, s.pc = .busy todo b → todo.Nodup ∧ b ≤ 256

theorem good_step (s : St α) (a : Act α) (h : Good s) : Good (step s a) := by
  cases a with
  | arrive d => exact h
  | expire => exact h
  | notify => exact h
  | wait o =>
    simp only [step]; split
    · rename_i hc
      simp only [wait]; split
      · exact h
      · intro t b e
        obtain ⟨rfl, rfl⟩ : o.filter s.ready = t ∧ maxRead = b := by simpa using e
        exact ⟨hc.2.1.filter _, Nat.le_refl _⟩
    · exact h
  | go err =>
    simp only [step]
    unfold go
    split
    · exact h
    · intro t b e; cases e
    · rename_i r b hp
      intro t b' e
      obtain ⟨rfl, rfl⟩ : r = t ∧ b = b' := by simpa using e
      obtain ⟨h1, h2⟩ := h _ _ hp
      exact ⟨(List.nodup_cons.1 h1).2, h2⟩
    · rename_i r b hp
      intro t b' e
      obtain ⟨rfl, rfl⟩ : r = t ∧ b = b' := by simpa using e
      obtain ⟨h1, h2⟩ := h _ _ hp
      exact ⟨(List.nodup_cons.1 h1).2, h2⟩
    · rename_i r b hp
      obtain ⟨h1, h2⟩ := h _ _ hp
      have hr : ∀ t b', Pc.busy r b = Pc.busy t b' → t.Nodup ∧ b' ≤ 256 := by
        intro t b' e
        obtain ⟨rfl, rfl⟩ : r = t ∧ b = b' := by simpa using e
        exact ⟨(List.nodup_cons.1 h1).2, h2⟩
      split
      · exact hr
      · split
        · exact hr
        · intro t b' e
          obtain ⟨rfl, rfl⟩ : Src.udp :: r = t ∧ b - 1 = b' := by simpa using e
          exact ⟨h1, by omega⟩

theorem good_run (as : List (Act α)) : Good (run ({} : St α) as) := by
  induction as using List.reverseRecOn with
  | nil => intro t b e; cases e
  | append_singleton as a ih => rw [run_snoc]; exact good_step _ a ih

/-- The timer has expired and its pass is still to come. Proof device. -/
def Due (s : St α) : Prop := s.tick = true ∨ ∃ todo b, s.pc = .busy todo b ∧ Src.timer ∈ todo

/-- Bound on the loop's steps before the next timer pass. Proof device. -/
def bound (s : St α) : Nat :=
  match s.pc with
  | .idle => 260
  | .busy todo b => cost b todo + if Src.timer ∈ todo then 0 else 261

theorem bound_step (s : St α) (a : Act α) (hg : Good s) (hd : Due s) (ht : (step s a).timers = s.timers) :
    Due (step s a) ∧ (match a with
      | .go _ => (if s.pc = .idle then 0 else 1)
      | .wait o => (if s.pc = .idle ∧ Full o then 1 else 0)
      | _ => 0) + bound (step s a) ≤ bound s := by
  cases a with
  | arrive d => exact ⟨hd, by simp [bound, step]⟩
  | expire => exact ⟨Or.inl rfl, by simp [bound, step]⟩
  | notify => exact ⟨hd, by simp [bound, step]⟩
  | wait o =>
    by_cases hc : s.pc = .idle ∧ Full o
    · have hs : step s (.wait o) = wait s o := if_pos hc
      rw [hs] at ht ⊢
      dsimp only
      rw [if_pos hc]
      have htick : s.tick = true := by
        rcases hd with h | ⟨_, _, h, _⟩
        · exact h
        · rw [hc.1] at h; cases h
      have hm : Src.timer ∈ o := by
        by_contra hn
        have : o ⊆ [.udp, .shm] := by
          intro x hx; cases x
          · simp
          · simp
          · exact absurd hx hn
        have := (List.Nodup.subperm hc.2.1 this).length_le
        have := hc.2.2
        simp at *; omega
      have hf : Src.timer ∈ o.filter s.ready := by simp [hm, St.ready, htick]
      have hne : o.filter s.ready ≠ [] := by intro e; rw [e] at hf; cases hf
      have hw : wait s o = { s with edge := false, tick := false, note := false, pc := .busy (o.filter s.ready) maxRead } := by
        simp only [wait]; rw [if_neg hne]
      rw [hw]
      refine ⟨Or.inr ⟨_, _, rfl, hf⟩, ?_⟩
      have := cost_le maxRead (Nat.le_refl _) _ (hc.2.1.filter s.ready)
      simp only [bound, hc.1]
      rw [if_pos hf]
      omega
    · have hs : step s (.wait o) = s := if_neg hc
      rw [hs]
      dsimp only
      rw [if_neg hc]
      exact ⟨hd, by omega⟩
  | go err =>
    have hs : step s (.go err) = go s err := rfl
    rw [hs] at ht ⊢
    dsimp only
    cases hp : s.pc with
    | idle =>
      have : go s err = s := by simp [go, hp]
      rw [this]; exact ⟨hd, by simp⟩
    | busy todo b =>
      obtain ⟨hnd, hb⟩ := hg _ _ hp
      rw [if_neg (by simp)]
      have hdue : s.tick = true ∨ Src.timer ∈ todo := by
        rcases hd with h | ⟨t', b', h, h2⟩
        · exact Or.inl h
        · rw [hp] at h; obtain ⟨rfl, rfl⟩ : todo = t' ∧ b = b' := by simpa using h
          exact Or.inr h2
      have hbs : bound s = cost b todo + if Src.timer ∈ todo then 0 else 261 := by simp [bound, hp]
      rw [hbs]
      -- going on with the rest
      have rest : ∀ (x : Src) (r : List Src) (s' : St α), todo = x :: r → x ≠ .timer → s'.pc = .busy r b → s'.tick = s.tick →
          Due s' ∧ 1 + bound s' ≤ cost b todo + if Src.timer ∈ todo then 0 else 261 := by
        intro x r s' e hx h1 h2
        subst e
        have hmem : Src.timer ∈ x :: r ↔ Src.timer ∈ r := by
          simp only [List.mem_cons]
          constructor
          · rintro (h | h)
            · exact absurd h.symm hx
            · exact h
          · exact Or.inr
        refine ⟨?_, ?_⟩
        · rcases hdue with h | h
          · exact Or.inl (h2.trans h)
          · exact Or.inr ⟨r, b, h1, hmem.1 h⟩
        · have h3 : bound s' = cost b r + if Src.timer ∈ r then 0 else 261 := by simp [bound, h1]
          rw [h3]
          have h4 : cost b r + 1 ≤ cost b (x :: r) := by cases x <;> simp only [cost] <;> omega
          by_cases hm : Src.timer ∈ r
          · rw [if_pos hm, if_pos (hmem.2 hm)]; omega
          · rw [if_neg hm, if_neg (fun h => hm (hmem.1 h))]; omega
      match todo, hp, hnd, hdue, rest with
      | [], hp, hnd, hdue, rest =>
        have hg2 : go s err = { s with pc := .idle } := by simp [go, hp]
        rw [hg2]
        refine ⟨Or.inl (by simpa using hdue), by simp [bound, cost]⟩
      | .timer :: r, hp, hnd, hdue, rest =>
        have hg2 : go s err = { s with timers := s.timers + 1, pc := .busy r b } := by simp [go, hp]
        rw [hg2] at ht
        simp at ht
      | .shm :: r, hp, hnd, hdue, rest =>
        have hg2 : go s err = { s with exports := s.exports + 1, pc := .busy r b } := by simp [go, hp]
        rw [hg2]
        exact rest .shm r _ rfl (by simp) rfl rfl
      | .udp :: r, hp, hnd, hdue, rest =>
        by_cases hc : b = 0 ∨ err = true
        · have hg2 : go s err = { s with pc := .busy r b } := by simp only [go, hp]; rw [if_pos hc]
          rw [hg2]
          exact rest .udp r _ rfl (by simp) rfl rfl
        · cases hsock : s.sock with
          | nil =>
            have hg2 : go s err = { s with pc := .busy r b } := by simp only [go, hp]; rw [if_neg hc]; simp [hsock]
            rw [hg2]
            exact rest .udp r _ rfl (by simp) rfl rfl
          | cons d ds =>
            have hg2 : go s err = { s with sock := ds, handled := s.handled ++ [d], pc := .busy (.udp :: r) (b - 1) } := by
              simp only [go, hp]; rw [if_neg hc]; simp [hsock]
            rw [hg2]
            refine ⟨?_, ?_⟩
            · rcases hdue with h | h
              · exact Or.inl h
              · exact Or.inr ⟨_, _, rfl, h⟩
            · simp only [bound]
              have h5 := cost_mono (b - 1) b (by omega) r
              have hb0 : 0 < b := by omega
              simp only [cost]
              omega

/-- **The timer is not starved.** Once the timer has expired, its pass — the one that sends heartbeats, watches the peers
and repeats an emergency stop — runs within 520 steps of the loop, however many datagrams arrive meanwhile. -/
theorem timer_soon (past as : List (Act α)) (ht : (run ({} : St α) past).tick = true)
    (hn : (run (run {} past) as).timers = (run ({} : St α) past).timers) : steps (run {} past) as ≤ 520 := by
  have mono : ∀ (s : St α) (a : Act α), s.timers ≤ (step s a).timers := by
    intro s a
    cases a with
    | arrive d => exact Nat.le_refl _
    | expire => exact Nat.le_refl _
    | notify => exact Nat.le_refl _
    | wait o =>
      simp only [step]; split
      · simp only [wait]; split <;> simp
      · exact Nat.le_refl _
    | go err =>
      simp only [step]; unfold go
      split <;> try simp
      split
      · simp
      · split <;> simp
  have mono2 : ∀ (as : List (Act α)) (s : St α), s.timers ≤ (run s as).timers := by
    intro as
    induction as with
    | nil => intro s; exact Nat.le_refl _
    | cons a as ih => intro s; exact Nat.le_trans (mono s a) (ih (step s a))
  have key : ∀ (as : List (Act α)) (s : St α), Good s → Due s → (run s as).timers = s.timers → steps s as ≤ bound s := by
    intro as
    induction as with
    | nil => intro s _ _ _; exact Nat.zero_le _
    | cons a as ih =>
      intro s hg hd ht
      have ht : (run (step s a) as).timers = s.timers := ht
      have h1 := mono s a
      have h2 := mono2 as (step s a)
      have h3 : (step s a).timers = s.timers := by omega
      obtain ⟨hd', hb⟩ := bound_step s a hg hd h3
      have h4 := ih (step s a) (good_step s a hg) hd' (by omega)
      cases a <;> simp only [steps] at * <;> omega
  have hg := good_run past
  have h1 := key as _ hg (Or.inl ht) hn
  have h2 : bound (run ({} : St α) past) ≤ 520 := by
    unfold bound
    split
    · omega
    · rename_i todo b hp
      obtain ⟨h3, h4⟩ := hg _ _ hp
      have := cost_le b h4 todo h3
      split <;> omega
  omega

/-- Non-vacuity: the timer expires while the loop reads a burst. -/
example : let past : List (Act Nat) := [.arrive 1, .arrive 2, .wait [.udp, .shm, .timer], .go false, .expire]
    (run {} past).tick = true ∧ (run {} past).timers = 0 ∧
    (run (run {} past) [.go false, .go false, .go false, .wait [.udp, .shm, .timer], .go false]).timers = 1 := by decide

/-- **A wait that times out does the timer's work too**, so that it is done even where the timer is never reported. -/
theorem timeout_works (s : St α) (o : List Src) (hi : s.pc = .idle) (hf : Full o) (hu : s.edge = false) (ht : s.tick = false) (hn : s.note = false) :
    (step s (.wait o)).timers = s.timers + 1 ∧ (step s (.wait o)).pc = .idle ∧ (step s (.wait o)).sock = s.sock := by
  have he : o.filter s.ready = [] := by
    rw [List.filter_eq_nil_iff]
    intro x _
    cases x <;> simp [St.ready, hu, ht, hn]
  have hs : step s (.wait o) = wait s o := if_pos ⟨hi, hf⟩
  rw [hs]
  unfold wait
  simp only [he, if_true]
  exact ⟨trivial, hi, trivial⟩

example : (run ({} : St Nat) [.wait [.udp, .shm, .timer], .wait [.timer, .shm, .udp]]).timers = 2 := by decide

end Horus.NetLoop
