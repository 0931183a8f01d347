import Mathlib.Tactic.Common
import Mathlib.Data.List.Nodup
/-
Actions as C++ programs use them. Source: /repo/horus_cpp/src/action_ffi.rs. Every step of `action_server_process`, every call of an execute handler and
every message sent by a client is a step of its own, so that all interleavings are covered. Topics are taken to deliver in order and without loss (see
`Verif/Ring`, `Verif/Topic` for when they do); payloads are numbers.
-/
namespace Horus.CppAction

/-- action_ffi.rs:80-87. -/
inductive Status
  | pending | active | succeeded | aborted | canceled | rejected
  deriving DecidableEq

/-- A goal that was started: its thread and handle (action_ffi.rs:253-258, 515-530). `fin` is the status it finished with, `done` that the thread has ended. -/
structure Thr where
  id : Nat
  payload : Nat
  cancel : Bool
  fin : Option Status
  done : Bool
  deriving DecidableEq

/-- action_ffi.rs:123-128, with the goal it comes from. -/
inductive Ev
  | fb (n id x : Nat)
  | completed (n id : Nat) (st : Status)
  deriving DecidableEq

/-- Where `action_server_process` stands. -/
inductive Phase
  | idle
  | publish (evs : List Ev)
  | join (n id : Nat) (evs : List Ev)
  | goals (gs : List (Nat × Nat))
  | cancels (cs : List Nat)
  deriving DecidableEq

/-- A result on the topic of a client. -/
structure Res where
  pid : Nat
  n : Nat
  id : Nat
  st : Status
  deriving DecidableEq

structure St where
  phase : Phase
  goalQ : List (Nat × Nat)
  cancelQ : List Nat
  events : List Ev
  thr : Nat → Option Thr
  next : Nat
  flags : Nat → Option Nat
  joins : Nat → Option Nat
  statuses : List (Nat × Status)
  feedback : List (Nat × Nat × Nat)
  results : List Res

/-- action_ffi.rs:352-366. -/
def init : St := ⟨.idle, [], [], [], fun _ => none, 0, fun _ => none, fun _ => none, [], [], []⟩

def set {α : Type} (f : Nat → α) (k : Nat) (v : α) : Nat → α := fun x => if x = k then v else f x

/-- The two handlers: which goals are accepted (all, without an accept handler), and whether there is an execute handler. -/
structure Cfg where
  accept : Nat → Bool
  exec : Bool

/-- action_ffi.rs:52-54. -/
def pidOf (id : Nat) : Nat := id / 4294967296

/-- action_ffi.rs:45-48: the `n`-th goal of a process. -/
def nextId (pid n : Nat) : Nat := pid * 4294967296 + n % 4294967296

/-- action_ffi.rs:457-540, one goal. `spawnOk`: whether the operating system could start a thread. -/
def dispatch (c : Cfg) (s : St) (id p : Nat) (spawnOk : Bool) : St :=
  if (s.flags id).isSome then { s with statuses := s.statuses ++ [(id, .rejected)] }
  else if !c.accept p then { s with statuses := s.statuses ++ [(id, .rejected)] }
  else if !c.exec then { s with statuses := s.statuses ++ [(id, .aborted)] }
  else if spawnOk then
    { s with thr := set s.thr s.next (some ⟨id, p, false, none, false⟩), next := s.next + 1, flags := set s.flags id (some s.next), joins := set s.joins id (some s.next), statuses := s.statuses ++ [(id, .active)] }
  else { s with statuses := s.statuses ++ [(id, .active), (id, .aborted)] }

/-- action_ffi.rs:549-553, one cancellation. -/
def deliver (s : St) (id : Nat) : St :=
  match s.flags id with
  | none => s
  | some n => match s.thr n with
    | none => s
    | some t => { s with thr := set s.thr n (some { t with cancel := true }) }

/-- The next step of `action_server_process` (action_ffi.rs:419-554). Joining a thread waits for its end. -/
def proc (c : Cfg) (s : St) (spawnOk : Bool) : Option St :=
  match s.phase with
  | .idle => some { s with phase := .publish s.events, events := [] }
  | .publish (.fb n id x :: r) => some { s with phase := .publish r, feedback := s.feedback ++ [(pidOf id, n, x)] }
  | .publish (.completed n id st :: r) => some { s with phase := .join n id r, results := s.results ++ [⟨pidOf id, n, id, st⟩], statuses := s.statuses ++ [(id, st)] }
  | .publish [] => some { s with phase := .goals s.goalQ, goalQ := [] }
  | .join _ id r =>
    match s.joins id with
    | some m => match s.thr m with
      | some t => if t.done then some { s with phase := .publish r, joins := set s.joins id none, flags := set s.flags id none } else none
      | none => none
    | none => some { s with phase := .publish r, flags := set s.flags id none }
  | .goals ((id, p) :: r) => some { dispatch c s id p spawnOk with phase := .goals r }
  | .goals [] => some { s with phase := .cancels s.cancelQ, cancelQ := [] }
  | .cancels (id :: r) => some { deliver s id with phase := .cancels r }
  | .cancels [] => some { s with phase := .idle }

/-- action_ffi.rs:261-279: the first finish counts. -/
def complete (s : St) (n : Nat) (t : Thr) (st : Status) (done : Bool) : St :=
  match t.fin with
  | some _ => { s with thr := set s.thr n (some { t with done := done }) }
  | none => { s with thr := set s.thr n (some { t with fin := some st, done := done }), events := s.events ++ [.completed n t.id st] }

inductive Lbl
  | send (id p : Nat)
  | cancel (id : Nat)
  | feedback (n x : Nat)
  | finish (n : Nat) (st : Status)
  | ret (n : Nat)
  | proc (spawnOk : Bool)

/-- A step of the whole system. Threads that do not run do nothing. `succeed`, `abort` and `canceled` finish a goal (action_ffi.rs:309-321); a handler that
returns without one of them has aborted (527-528). -/
def step (c : Cfg) (s : St) : Lbl → Option St
  | .send id p => some { s with goalQ := s.goalQ ++ [(id, p)] }
  | .cancel id => some { s with cancelQ := s.cancelQ ++ [id] }
  | .feedback n x => match s.thr n with
    | some t => if t.done then none else some { s with events := s.events ++ [.fb n t.id x] }
    | none => none
  | .finish n st => match s.thr n with
    | some t => if t.done || !(st = .succeeded || st = .aborted || st = .canceled) then none else some (complete s n t st false)
    | none => none
  | .ret n => match s.thr n with
    | some t => if t.done then none else some (complete s n t .aborted true)
    | none => none
  | .proc b => proc c s b

def run (c : Cfg) (s : St) : List Lbl → Option St
  | [] => some s
  | l :: ls => match step c s l with
    | some s' => run c s' ls
    | none => none

/-- Reachable. -/
inductive Reach (c : Cfg) : St → Prop
  | init : Reach c init
  | step (s s' : St) (l : Lbl) : Reach c s → step c s l = some s' → Reach c s'

/-! ### Invariant -/

/-- Goals with a completion that has not been published yet. -/
def evDone : List Ev → List Nat
  | [] => []
  | .completed n _ _ :: r => n :: evDone r
  | .fb _ _ _ :: r => evDone r

def phEvs : Phase → List Ev
  | .publish evs => evs
  | .join _ _ evs => evs
  | _ => []

def joining : Phase → Option Nat
  | .join n _ _ => some n
  | _ => none

def allEv (s : St) : List Ev := phEvs s.phase ++ s.events

theorem evDone_append (a b : List Ev) : evDone (a ++ b) = evDone a ++ evDone b := by
  induction a with
  | nil => rfl
  | cons x r ih => cases x <;> simp [evDone, ih]

theorem mem_evDone (l : List Ev) (n : Nat) : n ∈ evDone l ↔ ∃ id st, Ev.completed n id st ∈ l := by
  induction l with
  | nil => simp [evDone]
  | cons x r ih =>
    cases x with
    | fb a b d => simp [evDone, ih]
    | completed a b d =>
      simp only [evDone, List.mem_cons, ih]
      constructor
      · rintro (rfl | ⟨id, st, h⟩)
        · exact ⟨b, d, Or.inl rfl⟩
        · exact ⟨id, st, Or.inr h⟩
      · rintro ⟨id, st, h | h⟩
        · cases h; exact Or.inl rfl
        · exact Or.inr ⟨id, st, h⟩

structure Inv (c : Cfg) (s : St) : Prop where
  fresh : ∀ n, s.next ≤ n → s.thr n = none
  same : ∀ id, s.joins id = s.flags id
  flagged : ∀ id n, s.flags id = some n → ∃ t, s.thr n = some t ∧ t.id = id
  kept : ∀ n t, s.thr n = some t → ((∀ r ∈ s.results, r.n ≠ n) ∨ joining s.phase = some n) → s.flags t.id = some n
  gone : ∀ n t, s.thr n = some t → (∃ r ∈ s.results, r.n = n) → joining s.phase ≠ some n → t.done = true
  joinIn : ∀ n id evs, s.phase = .join n id evs → (∃ t, s.thr n = some t ∧ t.id = id) ∧ ∃ r ∈ s.results, r.n = n
  nodup : (s.results.map (·.n) ++ evDone (allEv s)).Nodup
  evOk : ∀ n id st, Ev.completed n id st ∈ allEv s → ∃ t, s.thr n = some t ∧ t.id = id ∧ t.fin = some st
  resOk : ∀ r ∈ s.results, r.pid = pidOf r.id ∧ ∃ t, s.thr r.n = some t ∧ t.id = r.id ∧ t.fin = some r.st
  finIn : ∀ n t st, s.thr n = some t → t.fin = some st → (∃ r ∈ s.results, r.n = n) ∨ n ∈ evDone (allEv s)
  doneFin : ∀ n t, s.thr n = some t → t.done = true → t.fin ≠ none
  accepted : ∀ n t, s.thr n = some t → c.accept t.payload = true ∧ c.exec = true

theorem inv_init (c : Cfg) : Inv c init := by
  constructor <;> simp [init, allEv, phEvs, evDone, joining]

/-- A step that leaves threads, maps, results and completions alone. -/
theorem inv_congr (c : Cfg) (s s' : St) (h : Inv c s) (e1 : s'.thr = s.thr) (e2 : s'.next = s.next) (e3 : s'.flags = s.flags) (e4 : s'.joins = s.joins) (e5 : s'.results = s.results)
    (e6 : joining s'.phase = none) (e7 : joining s.phase = none) (e8 : evDone (allEv s') = evDone (allEv s)) (e9 : ∀ n id st, Ev.completed n id st ∈ allEv s' → Ev.completed n id st ∈ allEv s) : Inv c s' := by
  constructor
  · rw [e1, e2]; exact h.fresh
  · rw [e3, e4]; exact h.same
  · rw [e1, e3]; exact h.flagged
  · rw [e1, e3, e5, e6, ← e7]; exact h.kept
  · rw [e1, e5, e6, ← e7]; exact h.gone
  · intro n id evs hp; rw [hp] at e6; cases e6
  · rw [e5, e8]; exact h.nodup
  · rw [e1]; exact fun n id st hm => h.evOk n id st (e9 n id st hm)
  · rw [e1, e5]; exact h.resOk
  · rw [e1, e5, e8]; exact h.finIn
  · rw [e1]; exact h.doneFin
  · rw [e1]; exact h.accepted

/-- A change of the cancel flag, or the end, of one thread (not back to running, and not without a finish). -/
theorem inv_thr (c : Cfg) (s s' : St) (n : Nat) (t t' : Thr) (h : Inv c s) (ht : s.thr n = some t) (e1 : s'.thr = set s.thr n (some t')) (e2 : s'.next = s.next) (e3 : s'.flags = s.flags)
    (e4 : s'.joins = s.joins) (e5 : s'.results = s.results) (e6 : joining s'.phase = joining s.phase) (e7 : allEv s' = allEv s)
    (e8 : ∀ m id evs, s'.phase = .join m id evs → ∃ evs', s.phase = .join m id evs')
    (hid : t'.id = t.id) (hp : t'.payload = t.payload) (hf : t'.fin = t.fin) (hd : t.done = true → t'.done = true) (hd2 : t'.done = true → t.fin ≠ none) : Inv c s' := by
  have hex : ∀ (m : Nat) (u : Thr), s'.thr m = some u → ∃ u0, s.thr m = some u0 ∧ u.id = u0.id ∧ u.payload = u0.payload ∧ u.fin = u0.fin ∧ (u0.done = true → u.done = true) ∧ (u.done = true → u0.fin ≠ none ∨ u0.done = true) := by
    intro m u hu
    rw [e1] at hu
    unfold set at hu
    split at hu
    · rename_i hm
      subst hm
      cases hu
      exact ⟨t, ht, hid, hp, hf, hd, fun h => Or.inl (hd2 h)⟩
    · exact ⟨u, hu, rfl, rfl, rfl, id, fun h => Or.inr h⟩
  have hex2 : ∀ (m : Nat) (u : Thr), s.thr m = some u → ∃ u', s'.thr m = some u' ∧ u'.id = u.id ∧ u'.fin = u.fin := by
    intro m u hu
    rw [e1]
    unfold set
    split
    · rename_i hm
      subst hm
      rw [ht] at hu
      cases hu
      exact ⟨t', rfl, hid, hf⟩
    · exact ⟨u, hu, rfl, rfl⟩
  constructor
  · intro m hm
    rw [e2] at hm
    have := h.fresh m hm
    rw [e1]; unfold set
    split
    · rename_i e; subst e; rw [ht] at this; cases this
    · exact this
  · rw [e3, e4]; exact h.same
  · intro id m hm
    rw [e3] at hm
    obtain ⟨u, hu, hi⟩ := h.flagged id m hm
    obtain ⟨u', hu', hi', _⟩ := hex2 m u hu
    exact ⟨u', hu', by rw [hi', hi]⟩
  · intro m u hu hor
    obtain ⟨u0, h0, hi, _⟩ := hex m u hu
    rw [e3, hi]
    rw [e5, e6] at hor
    exact h.kept m u0 h0 hor
  · intro m u hu hr hj
    obtain ⟨u0, h0, _, _, _, hd', _⟩ := hex m u hu
    rw [e5] at hr
    rw [e6] at hj
    exact hd' (h.gone m u0 h0 hr hj)
  · intro m id evs hp'
    obtain ⟨evs', hp''⟩ := e8 m id evs hp'
    obtain ⟨⟨u, hu, hi⟩, hr⟩ := h.joinIn m id evs' hp''
    obtain ⟨u', hu', hi', _⟩ := hex2 m u hu
    exact ⟨⟨u', hu', by rw [hi', hi]⟩, by rw [e5]; exact hr⟩
  · rw [e5, e7]; exact h.nodup
  · intro m id st hm
    rw [e7] at hm
    obtain ⟨u, hu, hi, hf'⟩ := h.evOk m id st hm
    obtain ⟨u', hu', hi', hf''⟩ := hex2 m u hu
    exact ⟨u', hu', by rw [hi', hi], by rw [hf'', hf']⟩
  · intro r hr
    rw [e5] at hr
    obtain ⟨hpid, u, hu, hi, hf'⟩ := h.resOk r hr
    obtain ⟨u', hu', hi', hf''⟩ := hex2 r.n u hu
    exact ⟨hpid, u', hu', by rw [hi', hi], by rw [hf'', hf']⟩
  · intro m u st hu hst
    obtain ⟨u0, h0, _, _, hf', _⟩ := hex m u hu
    rw [e5, e7]
    exact h.finIn m u0 st h0 (by rw [← hf', hst])
  · intro m u hu hdn
    obtain ⟨u0, h0, _, _, hf', _, hd'⟩ := hex m u hu
    rw [hf']
    rcases hd' hdn with h1 | h1
    · exact h1
    · exact h.doneFin m u0 h0 h1
  · intro m u hu
    obtain ⟨u0, h0, _, hp', _⟩ := hex m u hu
    rw [hp']
    exact h.accepted m u0 h0

theorem inv_complete (c : Cfg) (s : St) (n : Nat) (t : Thr) (st : Status) (done : Bool) (h : Inv c s) (ht : s.thr n = some t) (hd : t.done = false) : Inv c (complete s n t st done) := by
  unfold complete
  split
  · rename_i x hf
    exact inv_thr c s _ n t { t with done := done } h ht rfl rfl rfl rfl rfl rfl rfl (fun m id evs e => ⟨evs, e⟩) rfl rfl rfl (by intro e; rw [hd] at e; cases e) (by intro _; rw [hf]; simp)
  · rename_i hf
    have hnot : n ∉ s.results.map (·.n) ++ evDone (allEv s) := by
      intro hm
      rcases List.mem_append.1 hm with hm | hm
      · obtain ⟨r, hr, he⟩ := List.mem_map.1 hm
        obtain ⟨_, u, hu, _, hfu⟩ := h.resOk r hr
        rw [he, ht] at hu; cases hu; rw [hf] at hfu; cases hfu
      · obtain ⟨id, st', hm⟩ := (mem_evDone _ _).1 hm
        obtain ⟨u, hu, _, hfu⟩ := h.evOk n id st' hm
        rw [ht] at hu; cases hu; rw [hf] at hfu; cases hfu
    have hall : phEvs s.phase ++ (s.events ++ [Ev.completed n t.id st]) = allEv s ++ [Ev.completed n t.id st] := by unfold allEv; rw [List.append_assoc]
    have hset : ∀ m u, set s.thr n (some { t with fin := some st, done := done }) m = some u → (m = n ∧ u = { t with fin := some st, done := done }) ∨ (m ≠ n ∧ s.thr m = some u) := by
      intro m u hu
      unfold set at hu
      split at hu
      · exact Or.inl ⟨by assumption, by cases hu; rfl⟩
      · exact Or.inr ⟨by assumption, hu⟩
    have hset2 : ∀ m u, s.thr m = some u → ∃ u', set s.thr n (some { t with fin := some st, done := done }) m = some u' ∧ u'.id = u.id ∧ (m ≠ n → u' = u) := by
      intro m u hu
      unfold set
      split
      · rename_i e; subst e; rw [ht] at hu; cases hu; exact ⟨_, rfl, rfl, fun h => absurd rfl h⟩
      · exact ⟨u, hu, rfl, fun _ => rfl⟩
    have hev : evDone (allEv s ++ [Ev.completed n t.id st]) = evDone (allEv s) ++ [n] := by rw [evDone_append]; rfl
    constructor
    · intro m hm
      dsimp only at hm ⊢
      have := h.fresh m hm
      unfold set
      split
      · rename_i e; subst e; rw [ht] at this; cases this
      · exact this
    · exact h.same
    · intro id m hm
      obtain ⟨u, hu, hi⟩ := h.flagged id m hm
      obtain ⟨u', hu', hi', _⟩ := hset2 m u hu
      exact ⟨u', hu', by rw [hi', hi]⟩
    · intro m u hu hor
      rcases hset m u hu with ⟨rfl, rfl⟩ | ⟨_, hu⟩
      · exact h.kept m t ht hor
      · exact h.kept m u hu hor
    · intro m u hu hr hj
      rcases hset m u hu with ⟨rfl, rfl⟩ | ⟨_, hu⟩
      · exact absurd (List.mem_append.2 (Or.inl (List.mem_map.2 hr))) hnot
      · exact h.gone m u hu hr hj
    · intro m id evs hp
      obtain ⟨⟨u, hu, hi⟩, hr⟩ := h.joinIn m id evs hp
      obtain ⟨u', hu', hi', _⟩ := hset2 m u hu
      exact ⟨⟨u', hu', by rw [hi', hi]⟩, hr⟩
    · unfold allEv
      dsimp only
      rw [hall, hev, ← List.append_assoc, List.nodup_append]
      refine ⟨h.nodup, by simp, fun a ha b hb => ?_⟩
      simp only [List.mem_singleton] at hb
      rintro rfl
      exact hnot (hb ▸ ha)
    · intro m id st' hm
      unfold allEv at hm
      dsimp only at hm
      rw [hall] at hm
      rcases List.mem_append.1 hm with hm1 | hm
      · obtain ⟨u, hu, hi, hfu⟩ := h.evOk m id st' hm1
        obtain ⟨u', hu', hi', he⟩ := hset2 m u hu
        have hne : m ≠ n := by
          rintro rfl
          exact hnot (List.mem_append.2 (Or.inr ((mem_evDone _ _).2 ⟨id, st', hm1⟩)))
        exact ⟨u', hu', by rw [hi', hi], by rw [he hne, hfu]⟩
      · simp only [List.mem_singleton, Ev.completed.injEq] at hm
        obtain ⟨rfl, rfl, rfl⟩ := hm
        exact ⟨{ t with fin := some st', done := done }, by dsimp only; unfold set; rw [if_pos rfl], rfl, rfl⟩
    · intro r hr
      obtain ⟨hpid, u, hu, hi, hfu⟩ := h.resOk r hr
      obtain ⟨u', hu', hi', he⟩ := hset2 r.n u hu
      have hne : r.n ≠ n := by
        intro e
        exact hnot (List.mem_append.2 (Or.inl (List.mem_map.2 ⟨r, hr, e⟩)))
      exact ⟨hpid, u', hu', by rw [hi', hi], by rw [he hne, hfu]⟩
    · intro m u st' hu hst
      unfold allEv
      dsimp only
      rw [hall, hev]
      rcases hset m u hu with ⟨rfl, rfl⟩ | ⟨_, hu⟩
      · right; simp
      · rcases h.finIn m u st' hu hst with h1 | h1
        · exact Or.inl h1
        · right; simp [h1]
    · intro m u hu hdn
      rcases hset m u hu with ⟨rfl, rfl⟩ | ⟨_, hu⟩
      · simp
      · exact h.doneFin m u hu hdn
    · intro m u hu
      rcases hset m u hu with ⟨rfl, rfl⟩ | ⟨_, hu⟩
      · exact h.accepted m t ht
      · exact h.accepted m u hu

theorem inv_deliver (c : Cfg) (s : St) (id : Nat) (ph : Phase) (h : Inv c s) (hj : joining s.phase = none) (hj' : joining ph = none) (he : phEvs ph = phEvs s.phase) : Inv c { deliver s id with phase := ph } := by
  have hno : ∀ m i evs, ph = .join m i evs → ∃ evs', s.phase = .join m i evs' := by
    intro m i evs hp; rw [hp] at hj'; cases hj'
  have hsame : Inv c { s with phase := ph } :=
    inv_congr c s _ h rfl rfl rfl rfl rfl hj' hj (by unfold allEv; dsimp only; rw [he]) (by unfold allEv; dsimp only; rw [he]; exact fun _ _ _ h => h)
  unfold deliver
  split
  · exact hsame
  · rename_i n hn
    obtain ⟨t, ht, hti⟩ := h.flagged id n hn
    rw [ht]
    dsimp only
    exact inv_thr c s _ n t { t with cancel := true } h ht rfl rfl rfl rfl rfl (by dsimp only; rw [hj, hj']) (by unfold allEv; dsimp only; rw [he]) hno rfl rfl rfl (fun h => h) (fun hd => h.doneFin n t ht hd)

theorem inv_dispatch (c : Cfg) (s : St) (id p : Nat) (b : Bool) (gs gs' : List (Nat × Nat)) (h : Inv c s) (hp : s.phase = .goals gs) : Inv c { dispatch c s id p b with phase := .goals gs' } := by
  have hj : joining s.phase = none := by rw [hp]; rfl
  have hph : phEvs s.phase = [] := by rw [hp]; rfl
  have hall : allEv s = s.events := by unfold allEv; rw [hph]; rfl
  have plain : ∀ st, Inv c { s with phase := .goals gs', statuses := st } := fun st =>
    inv_congr c s _ h rfl rfl rfl rfl rfl rfl hj (by rw [hall]; rfl) (by rw [hall]; exact fun _ _ _ h => h)
  unfold dispatch
  split
  · exact plain _
  · rename_i hfl
    split
    · exact plain _
    · rename_i hac
      split
      · exact plain _
      · rename_i hex
        split
        · have hfr := h.fresh s.next (Nat.le_refl _)
          have hnf : s.flags id = none := by cases hx : s.flags id with | none => rfl | some y => simp [hx] at hfl
          have hset : ∀ m u, set s.thr s.next (some (⟨id, p, false, none, false⟩ : Thr)) m = some u → (m = s.next ∧ u = ⟨id, p, false, none, false⟩) ∨ (m ≠ s.next ∧ s.thr m = some u) := by
            intro m u hu
            unfold set at hu
            split at hu
            · exact Or.inl ⟨by assumption, by cases hu; rfl⟩
            · exact Or.inr ⟨by assumption, hu⟩
          have hset2 : ∀ m u, s.thr m = some u → set s.thr s.next (some (⟨id, p, false, none, false⟩ : Thr)) m = some u := by
            intro m u hu
            unfold set
            rw [if_neg]
            · exact hu
            · rintro rfl; rw [hfr] at hu; cases hu
          have hresn : ∀ r ∈ s.results, r.n ≠ s.next := by
            intro r hr e
            obtain ⟨_, u, hu, _⟩ := h.resOk r hr
            rw [e, hfr] at hu; cases hu
          constructor
          · intro m hm
            dsimp only at hm ⊢
            unfold set
            rw [if_neg (by omega)]
            exact h.fresh m (by omega)
          · intro i
            dsimp only
            unfold set
            split
            · rfl
            · exact h.same i
          · intro i m hm
            dsimp only at hm ⊢
            unfold set at hm
            split at hm
            · rename_i e; subst e; cases hm; exact ⟨_, by unfold set; rw [if_pos rfl], rfl⟩
            · obtain ⟨u, hu, hi⟩ := h.flagged i m hm
              exact ⟨u, hset2 m u hu, hi⟩
          · intro m u hu hor
            dsimp only at hu hor ⊢
            rcases hset m u hu with ⟨rfl, rfl⟩ | ⟨_, hu⟩
            · unfold set; rw [if_pos rfl]
            · have := h.kept m u hu (by rw [hj]; exact hor)
              unfold set
              rw [if_neg]
              · exact this
              · intro e; rw [e, hnf] at this; cases this
          · intro m u hu hr hjn
            dsimp only at hu hr hjn ⊢
            rcases hset m u hu with ⟨rfl, rfl⟩ | ⟨_, hu⟩
            · obtain ⟨r, hr, e⟩ := hr
              exact absurd e (hresn r hr)
            · exact h.gone m u hu hr (by rw [hj]; simp)
          · intro m i evs hp'; cases hp'
          · have := h.nodup; rw [hall] at this; exact this
          · intro m i st hm
            have hm' : Ev.completed m i st ∈ allEv s := by rw [hall]; exact hm
            obtain ⟨u, hu, hi⟩ := h.evOk m i st hm'
            exact ⟨u, hset2 m u hu, hi⟩
          · intro r hr
            obtain ⟨hpid, u, hu, hi⟩ := h.resOk r hr
            exact ⟨hpid, u, hset2 r.n u hu, hi⟩
          · intro m u st hu hst
            dsimp only at hu
            rcases hset m u hu with ⟨rfl, rfl⟩ | ⟨_, hu⟩
            · cases hst
            · have := h.finIn m u st hu hst
              rw [hall] at this
              exact this
          · intro m u hu hd
            dsimp only at hu
            rcases hset m u hu with ⟨rfl, rfl⟩ | ⟨_, hu⟩
            · cases hd
            · exact h.doneFin m u hu hd
          · intro m u hu
            dsimp only at hu
            rcases hset m u hu with ⟨rfl, rfl⟩ | ⟨_, hu⟩
            · exact ⟨by simpa using hac, by simpa using hex⟩
            · exact h.accepted m u hu
        · exact plain _

theorem inv_proc (c : Cfg) (s s' : St) (b : Bool) (h : Inv c s) (hs : proc c s b = some s') : Inv c s' := by
  unfold proc at hs
  split at hs
  · -- begin
    rename_i hp
    cases hs
    exact inv_congr c s _ h rfl rfl rfl rfl rfl rfl (by rw [hp]; rfl) (by simp [allEv, phEvs, hp]) (by simp [allEv, phEvs, hp])
  · rename_i n id x r hp
    cases hs
    exact inv_congr c s _ h rfl rfl rfl rfl rfl rfl (by rw [hp]; rfl) (by simp [allEv, phEvs, hp, evDone]) (by intro m i st; simp only [allEv, phEvs, hp, List.cons_append, List.mem_cons]; exact fun h => Or.inr h)
  · -- a completion is published
    rename_i n id st r hp
    cases hs
    have hall : allEv s = Ev.completed n id st :: (r ++ s.events) := by simp [allEv, phEvs, hp]
    have hj : joining s.phase = none := by rw [hp]; rfl
    obtain ⟨t, ht, hti, htf⟩ := h.evOk n id st (by rw [hall]; simp)
    have hnd := h.nodup
    rw [hall] at hnd
    have hnr : n ∉ s.results.map (·.n) := by
      intro hm
      exact (List.nodup_append.1 hnd).2.2 n hm n (by simp [evDone]) rfl
    constructor
    · exact h.fresh
    · exact h.same
    · exact h.flagged
    · intro m u hu hor
      dsimp only at hu hor ⊢
      by_cases e : m = n
      · subst e
        exact h.kept m u hu (Or.inl fun r' hr' e' => hnr (List.mem_map.2 ⟨r', hr', e'⟩))
      · refine h.kept m u hu (Or.inl fun r' hr' e' => ?_)
        rcases hor with h1 | h1
        · exact h1 r' (List.mem_append.2 (Or.inl hr')) e'
        · simp only [joining, Option.some.injEq] at h1; exact e h1.symm
    · intro m u hu hr hjn
      dsimp only at hu hr hjn ⊢
      obtain ⟨r', hr', e'⟩ := hr
      rcases List.mem_append.1 hr' with hr' | hr'
      · exact h.gone m u hu ⟨r', hr', e'⟩ (by rw [hj]; simp)
      · simp only [List.mem_singleton] at hr'
        subst hr'
        simp only [joining] at hjn
        exact absurd (by rw [← e']) hjn
    · intro m i evs hp'
      simp only [Phase.join.injEq] at hp'
      obtain ⟨rfl, rfl, rfl⟩ := hp'
      exact ⟨⟨t, ht, hti⟩, ⟨pidOf id, n, id, st⟩, by simp, rfl⟩
    · dsimp only [allEv, phEvs]
      rw [List.map_append, List.append_assoc]
      have e : evDone (Ev.completed n id st :: (r ++ s.events)) = n :: evDone (r ++ s.events) := rfl
      rw [e] at hnd
      exact hnd
    · intro m i st' hm
      exact h.evOk m i st' (by rw [hall]; exact List.mem_cons.2 (Or.inr hm))
    · intro r' hr'
      rcases List.mem_append.1 hr' with hr' | hr'
      · exact h.resOk r' hr'
      · simp only [List.mem_singleton] at hr'
        subst hr'
        exact ⟨rfl, t, ht, hti, htf⟩
    · intro m u st' hu hst
      rcases h.finIn m u st' hu hst with h1 | h1
      · obtain ⟨r', hr', e'⟩ := h1
        exact Or.inl ⟨r', List.mem_append.2 (Or.inl hr'), e'⟩
      · rw [hall] at h1
        simp only [evDone, List.mem_cons] at h1
        rcases h1 with rfl | h1
        · exact Or.inl ⟨⟨pidOf id, m, id, st⟩, by simp, rfl⟩
        · exact Or.inr h1
    · exact h.doneFin
    · exact h.accepted
  · rename_i hp
    cases hs
    exact inv_congr c s _ h rfl rfl rfl rfl rfl rfl (by rw [hp]; rfl) (by simp [allEv, phEvs, hp]) (by simp [allEv, phEvs, hp])
  · -- join
    rename_i n id r hp
    obtain ⟨⟨t, ht, hti⟩, hres⟩ := h.joinIn n id r hp
    have hfl : s.flags id = some n := by rw [← hti]; exact h.kept n t ht (Or.inr (by rw [hp]; rfl))
    have hjo : s.joins id = some n := by rw [h.same]; exact hfl
    rw [hjo] at hs
    dsimp only at hs
    rw [ht] at hs
    dsimp only at hs
    split at hs
    · rename_i hd
      cases hs
      have hall : allEv s = r ++ s.events := by simp [allEv, phEvs, hp]
      constructor
      · exact h.fresh
      · intro i
        dsimp only [set]
        split
        · rfl
        · exact h.same i
      · intro i m hm
        dsimp only [set] at hm
        split at hm
        · cases hm
        · exact h.flagged i m hm
      · intro m u hu hor
        dsimp only at hu hor ⊢
        rcases hor with h1 | h1
        · have := h.kept m u hu (Or.inl h1)
          have hne : m ≠ n := by
            rintro rfl
            obtain ⟨r', hr', e'⟩ := hres
            exact h1 r' hr' e'
          unfold set
          rw [if_neg]
          · exact this
          · intro e; rw [e, hfl] at this; cases this; exact hne rfl
        · cases h1
      · intro m u hu hr _
        dsimp only at hu hr ⊢
        by_cases e : m = n
        · subst e; rw [ht] at hu; cases hu; exact hd
        · exact h.gone m u hu hr (by rw [hp]; simp only [joining, ne_eq, Option.some.injEq]; exact fun h => e h.symm)
      · intro m i evs hp'; cases hp'
      · have := h.nodup; rw [hall] at this; exact this
      · intro m i st hm; exact h.evOk m i st (by rw [hall]; exact hm)
      · exact h.resOk
      · intro m u st hu hst
        have := h.finIn m u st hu hst
        rw [hall] at this
        exact this
      · exact h.doneFin
      · exact h.accepted
    · cases hs
  · rename_i id p r hp
    cases hs
    exact inv_dispatch c s id p b _ r h hp
  · rename_i hp
    cases hs
    exact inv_congr c s _ h rfl rfl rfl rfl rfl rfl (by rw [hp]; rfl) (by simp [allEv, phEvs, hp]) (by simp [allEv, phEvs, hp])
  · rename_i id r hp
    cases hs
    exact inv_deliver c s id _ h (by rw [hp]; rfl) rfl (by rw [hp]; rfl)
  · rename_i hp
    cases hs
    exact inv_congr c s _ h rfl rfl rfl rfl rfl rfl (by rw [hp]; rfl) (by simp [allEv, phEvs, hp]) (by simp [allEv, phEvs, hp])

/-- A step that changes only the queues or adds feedback. -/
theorem inv_queue (c : Cfg) (s s' : St) (h : Inv c s) (e1 : s'.thr = s.thr) (e2 : s'.next = s.next) (e3 : s'.flags = s.flags) (e4 : s'.joins = s.joins) (e5 : s'.results = s.results)
    (e6 : s'.phase = s.phase) (e8 : evDone (allEv s') = evDone (allEv s)) (e9 : ∀ n id st, Ev.completed n id st ∈ allEv s' → Ev.completed n id st ∈ allEv s) : Inv c s' := by
  constructor
  · rw [e1, e2]; exact h.fresh
  · rw [e3, e4]; exact h.same
  · rw [e1, e3]; exact h.flagged
  · rw [e1, e3, e5, e6]; exact h.kept
  · rw [e1, e5, e6]; exact h.gone
  · rw [e1, e5, e6]; exact h.joinIn
  · rw [e5, e8]; exact h.nodup
  · rw [e1]; exact fun n id st hm => h.evOk n id st (e9 n id st hm)
  · rw [e1, e5]; exact h.resOk
  · rw [e1, e5, e8]; exact h.finIn
  · rw [e1]; exact h.doneFin
  · rw [e1]; exact h.accepted

theorem inv_step (c : Cfg) (s s' : St) (l : Lbl) (h : Inv c s) (hs : step c s l = some s') : Inv c s' := by
  cases l with
  | send id p => cases hs; exact inv_queue c s _ h rfl rfl rfl rfl rfl rfl rfl (fun _ _ _ h => h)
  | cancel id => cases hs; exact inv_queue c s _ h rfl rfl rfl rfl rfl rfl rfl (fun _ _ _ h => h)
  | feedback n x =>
    simp only [step] at hs
    split at hs
    · split at hs
      · cases hs
      · cases hs
        refine inv_queue c s _ h rfl rfl rfl rfl rfl rfl ?_ ?_
        · simp [allEv, evDone_append, evDone]
        · intro n id st; simp [allEv]
    · cases hs
  | finish n st =>
    simp only [step] at hs
    split at hs
    · rename_i t ht
      split at hs
      · cases hs
      · rename_i hd
        cases hs
        simp only [Bool.or_eq_true, not_or, Bool.not_eq_true] at hd
        exact inv_complete c s n t st false h ht hd.1
    · cases hs
  | ret n =>
    simp only [step] at hs
    split at hs
    · rename_i t ht
      split at hs
      · cases hs
      · rename_i hd
        cases hs
        exact inv_complete c s n t .aborted true h ht (by simpa using hd)
    · cases hs
  | proc b => exact inv_proc c s s' b h hs

theorem inv_reach (c : Cfg) (s : St) (h : Reach c s) : Inv c s := by
  induction h with
  | init => exact inv_init c
  | step s s' l _ hs ih => exact inv_step c s s' l ih hs

theorem reach_run (c : Cfg) (s s' : St) (ls : List Lbl) (h : Reach c s) (hr : run c s ls = some s') : Reach c s' := by
  induction ls generalizing s with
  | nil => cases hr; exact h
  | cons l ls ih =>
    unfold run at hr
    split at hr
    · rename_i s1 hs1
      exact ih s1 (Reach.step s s1 l h hs1) hr
    · cases hr

/-! ### What holds -/

/-- **A goal gets one result at most**, whatever its handler does. -/
theorem one_result (c : Cfg) (s : St) (h : Reach c s) : (s.results.map (·.n)).Nodup :=
  (List.nodup_append.1 (inv_reach c s h).nodup).1

/-- **It is the result of that goal, with the status it first finished with, on the topic of the client that sent it.** -/
theorem right_result (c : Cfg) (s : St) (h : Reach c s) (r : Res) (hr : r ∈ s.results) : r.pid = pidOf r.id ∧ ∃ t, s.thr r.n = some t ∧ t.id = r.id ∧ t.fin = some r.st :=
  (inv_reach c s h).resOk r hr

/-- **No result is lost**: when the server has nothing left to do, each goal that finished has its result. -/
theorem result_published (c : Cfg) (s : St) (h : Reach c s) (hi : s.phase = .idle) (he : s.events = []) (n : Nat) (t : Thr) (ht : s.thr n = some t) (st : Status) (hf : t.fin = some st) :
    ⟨pidOf t.id, n, t.id, st⟩ ∈ s.results := by
  have inv := inv_reach c s h
  rcases inv.finIn n t st ht hf with ⟨r, hr, e⟩ | h1
  · obtain ⟨hp, u, hu, hi', hf'⟩ := inv.resOk r hr
    rw [e, ht] at hu
    cases hu
    rw [hf] at hf'
    cases hf'
    obtain ⟨a, b, d, f⟩ := r
    simp only at e hi' hp
    subst e hi' hp
    exact hr
  · simp [allEv, hi, he, phEvs, evDone] at h1

/-- **A handler that returns without finishing has finished**: a thread that has ended has a status. -/
theorem ended_finished (c : Cfg) (s : St) (h : Reach c s) (n : Nat) (t : Thr) (ht : s.thr n = some t) (hd : t.done = true) : ∃ st, t.fin = some st :=
  Option.ne_none_iff_exists'.1 ((inv_reach c s h).doneFin n t ht hd)

/-- **Every running goal is known under its id**, for cancelling it and for waiting for it at shutdown. -/
theorem running_known (c : Cfg) (s : St) (h : Reach c s) (n : Nat) (t : Thr) (ht : s.thr n = some t) (hd : t.done = false) : s.flags t.id = some n ∧ s.joins t.id = some n := by
  have inv := inv_reach c s h
  have : s.flags t.id = some n := by
    refine inv.kept n t ht ?_
    by_cases hj : joining s.phase = some n
    · exact Or.inr hj
    · refine Or.inl fun r hr e => ?_
      have := inv.gone n t ht ⟨r, hr, e⟩ hj
      rw [hd] at this; cases this
  exact ⟨this, by rw [inv.same]; exact this⟩

/-- **No two running goals share an id.** -/
theorem running_distinct (c : Cfg) (s : St) (h : Reach c s) (n m : Nat) (t u : Thr) (ht : s.thr n = some t) (hu : s.thr m = some u) (hd : t.done = false) (hd' : u.done = false) (e : t.id = u.id) : n = m := by
  have h1 := (running_known c s h n t ht hd).1
  have h2 := (running_known c s h m u hu hd').1
  rw [e, h2] at h1
  cases h1; rfl

/-- **Only accepted goals run.** -/
theorem run_accepted (c : Cfg) (s : St) (h : Reach c s) (n : Nat) (t : Thr) (ht : s.thr n = some t) : c.accept t.payload = true ∧ c.exec = true :=
  (inv_reach c s h).accepted n t ht

/-- **A cancellation reaches the running goal with that id, and no other.** -/
theorem cancel_reaches (c : Cfg) (s : St) (h : Reach c s) (id : Nat) (n : Nat) (t : Thr) (ht : s.thr n = some t) (hd : t.done = false) :
    (deliver s id).thr n = some (if t.id = id then { t with cancel := true } else t) := by
  have hk := (running_known c s h n t ht hd).1
  have inv := inv_reach c s h
  unfold deliver
  split
  · rename_i hf
    rw [if_neg (by intro e; rw [e, hf] at hk; cases hk)]
    exact ht
  · rename_i m hm
    obtain ⟨u, hu, hui⟩ := inv.flagged id m hm
    rw [hu]
    dsimp only
    unfold set
    by_cases e : n = m
    · subst e
      rw [if_pos rfl]
      rw [ht] at hu
      cases hu
      rw [if_pos hui]
    · rw [if_neg e, if_neg]
      · exact ht
      · intro e'; rw [e', hm] at hk; cases hk; exact e rfl

/-- What a cancellation that has been sent is doing. -/
def CancelSeen (s : St) (n id : Nat) : Prop :=
  (∃ t, s.thr n = some t ∧ t.id = id ∧ (t.cancel = true ∨ t.done = true)) ∨ ((∃ t, s.thr n = some t ∧ t.id = id) ∧ (id ∈ s.cancelQ ∨ ∃ cs, s.phase = .cancels cs ∧ id ∈ cs))

theorem thr_mono_complete (s : St) (m : Nat) (u : Thr) (st : Status) (d : Bool) (hu : s.thr m = some u) (hud : u.done = false) (n : Nat) (t : Thr) (ht : s.thr n = some t) :
    ∃ t', (complete s m u st d).thr n = some t' ∧ t'.id = t.id ∧ t'.cancel = t.cancel ∧ (t.done = true → t'.done = true) := by
  by_cases e : n = m
  · subst e
    rw [hu] at ht
    cases ht
    unfold complete
    split
    · exact ⟨{ u with done := d }, by dsimp only [set]; rw [if_pos rfl], rfl, rfl, by intro h; rw [hud] at h; cases h⟩
    · exact ⟨{ u with fin := some st, done := d }, by dsimp only [set]; rw [if_pos rfl], rfl, rfl, by intro h; rw [hud] at h; cases h⟩
  · unfold complete
    split <;> exact ⟨t, by dsimp only [set]; rw [if_neg e]; exact ht, rfl, rfl, id⟩

theorem deliver_mono (s : St) (i n : Nat) (t : Thr) (ht : s.thr n = some t) : ∃ t', (deliver s i).thr n = some t' ∧ t'.id = t.id ∧ (t.cancel = true → t'.cancel = true) ∧ t'.done = t.done := by
  unfold deliver
  split
  · exact ⟨t, ht, rfl, id, rfl⟩
  · rename_i m _
    split
    · exact ⟨t, ht, rfl, id, rfl⟩
    · rename_i u hu
      dsimp only [set]
      by_cases e : n = m
      · subst e
        rw [hu] at ht; cases ht
        exact ⟨{ t with cancel := true }, by rw [if_pos rfl], rfl, fun _ => rfl, rfl⟩
      · exact ⟨t, by rw [if_neg e]; exact ht, rfl, id, rfl⟩

theorem cancelSeen_step (c : Cfg) (s s' : St) (l : Lbl) (h : Reach c s) (n id : Nat) (hc : CancelSeen s n id) (hs : step c s l = some s') : CancelSeen s' n id := by
  have key : ∀ s1 : St, (∀ t, s.thr n = some t → ∃ t', s1.thr n = some t' ∧ t'.id = t.id ∧ (t.cancel = true → t'.cancel = true) ∧ (t.done = true → t'.done = true)) →
      (∀ i ∈ s.cancelQ, i ∈ s1.cancelQ) → (∀ cs, s.phase = .cancels cs → s1.phase = .cancels cs) → CancelSeen s1 n id := by
    intro s1 h1 h2 h3
    rcases hc with ⟨t, ht, hi, hcd⟩ | ⟨⟨t, ht, hi⟩, hq⟩
    · obtain ⟨t', ht', hi', hc', hd'⟩ := h1 t ht
      exact Or.inl ⟨t', ht', by rw [hi', hi], hcd.imp hc' hd'⟩
    · obtain ⟨t', ht', hi', hc', hd'⟩ := h1 t ht
      refine Or.inr ⟨⟨t', ht', by rw [hi', hi]⟩, ?_⟩
      rcases hq with hq | ⟨cs, hp, hm⟩
      · exact Or.inl (h2 id hq)
      · exact Or.inr ⟨cs, h3 cs hp, hm⟩
  have idk : ∀ t, s.thr n = some t → ∃ t', s.thr n = some t' ∧ t'.id = t.id ∧ (t.cancel = true → t'.cancel = true) ∧ (t.done = true → t'.done = true) := fun t ht => ⟨t, ht, rfl, fun h => h, fun h => h⟩
  cases l with
  | send i p => cases hs; exact key _ idk (fun _ h => h) (fun _ h => h)
  | cancel i => cases hs; exact key _ idk (fun _ h => List.mem_append.2 (Or.inl h)) (fun _ h => h)
  | feedback m x =>
    simp only [step] at hs
    split at hs
    · split at hs
      · cases hs
      · cases hs; exact key _ idk (fun _ h => h) (fun _ h => h)
    · cases hs
  | finish m st =>
    simp only [step] at hs
    split at hs
    · rename_i u hu
      split at hs
      · cases hs
      · rename_i hd
        simp only [Bool.or_eq_true, not_or, Bool.not_eq_true] at hd
        cases hs
        refine key _ (fun t ht => ?_) ?_ ?_
        · obtain ⟨t', a, b, d, e⟩ := thr_mono_complete s m u st false hu hd.1 n t ht
          exact ⟨t', a, b, by rw [d]; exact fun h => h, e⟩
        · unfold complete; split <;> exact fun _ h => h
        · unfold complete; split <;> exact fun _ h => h
    · cases hs
  | ret m =>
    simp only [step] at hs
    split at hs
    · rename_i u hu
      split at hs
      · cases hs
      · rename_i hd
        cases hs
        refine key _ (fun t ht => ?_) ?_ ?_
        · obtain ⟨t', a, b, d, e⟩ := thr_mono_complete s m u .aborted true hu (by simpa using hd) n t ht
          exact ⟨t', a, b, by rw [d]; exact fun h => h, e⟩
        · unfold complete; split <;> exact fun _ h => h
        · unfold complete; split <;> exact fun _ h => h
    · cases hs
  | proc b =>
    simp only [step] at hs
    unfold proc at hs
    split at hs
    · rename_i hp; cases hs; exact key _ idk (fun _ h => h) (fun cs h => by rw [hp] at h; cases h)
    · rename_i hp; cases hs; exact key _ idk (fun _ h => h) (fun cs h => by rw [hp] at h; cases h)
    · rename_i hp; cases hs; exact key _ idk (fun _ h => h) (fun cs h => by rw [hp] at h; cases h)
    · rename_i hp; cases hs; exact key _ idk (fun _ h => h) (fun cs h => by rw [hp] at h; cases h)
    · rename_i hp
      split at hs
      · split at hs
        · split at hs
          · cases hs; exact key _ idk (fun _ h => h) (fun cs h => by rw [hp] at h; cases h)
          · cases hs
        · cases hs
      · cases hs; exact key _ idk (fun _ h => h) (fun cs h => by rw [hp] at h; cases h)
    · rename_i i p r hp
      cases hs
      refine key _ (fun t ht => ⟨t, ?_, rfl, fun h => h, fun h => h⟩) ?_ (fun cs h => by rw [hp] at h; cases h)
      · have hfr := (inv_reach c s h).fresh s.next (Nat.le_refl _)
        have hne : n ≠ s.next := by rintro rfl; rw [hfr] at ht; cases ht
        unfold dispatch
        split
        · exact ht
        · split
          · exact ht
          · split
            · exact ht
            · split
              · dsimp only [set]; rw [if_neg hne]; exact ht
              · exact ht
      · intro j hj
        unfold dispatch
        split
        · exact hj
        · split
          · exact hj
          · split
            · exact hj
            · split <;> exact hj
    · rename_i hp
      cases hs
      rcases hc with h1 | ⟨h1, h2 | ⟨cs, h2, _⟩⟩
      · exact Or.inl h1
      · exact Or.inr ⟨h1, Or.inr ⟨s.cancelQ, rfl, h2⟩⟩
      · rw [hp] at h2; cases h2
    · rename_i i r hp
      cases hs
      have hcq : (deliver s i).cancelQ = s.cancelQ := by unfold deliver; split <;> [rfl; (split <;> rfl)]
      rcases hc with ⟨t, ht, hi, hcd⟩ | ⟨⟨t, ht, hi⟩, h2 | ⟨cs, h2, h3⟩⟩
      · obtain ⟨t', a, b, d, e⟩ := deliver_mono s i n t ht
        exact Or.inl ⟨t', a, by rw [b, hi], hcd.imp d (by rw [e]; exact fun h => h)⟩
      · obtain ⟨t', a, b, d, e⟩ := deliver_mono s i n t ht
        exact Or.inr ⟨⟨t', a, by rw [b, hi]⟩, Or.inl (by dsimp only; rw [hcq]; exact h2)⟩
      · rw [hp] at h2
        cases h2
        obtain ⟨t', a, b, d, e⟩ := deliver_mono s i n t ht
        by_cases hd : t.done = true
        · exact Or.inl ⟨t', a, by rw [b, hi], Or.inr (by rw [e]; exact hd)⟩
        · rcases List.mem_cons.1 h3 with rfl | h3
          · have := cancel_reaches c s h id n t ht (by simpa using hd)
            rw [if_pos hi] at this
            exact Or.inl ⟨_, this, hi, Or.inl rfl⟩
          · exact Or.inr ⟨⟨t', a, by rw [b, hi]⟩, Or.inr ⟨r, rfl, h3⟩⟩
    · rename_i hp
      cases hs
      rcases hc with h1 | ⟨h1, h2 | ⟨cs, h2, h3⟩⟩
      · exact Or.inl h1
      · exact Or.inr ⟨h1, Or.inl h2⟩
      · rw [hp] at h2; cases h2; cases h3

/-- **A goal cancelled while it runs learns of it**: from any state where goal `n` runs, whatever happens after its cancellation is sent, once the server has
taken the cancellations there are, the goal has been told or has ended. -/
theorem cancel_after_start_partial (c : Cfg) (s s' : St) (h : Reach c s) (n : Nat) (t : Thr) (ht : s.thr n = some t) (ls : List Lbl) (hr : run c s (.cancel t.id :: ls) = some s') (hi : s'.phase = .idle) (hq : s'.cancelQ = []) :
    ∃ t', s'.thr n = some t' ∧ t'.id = t.id ∧ (t'.cancel = true ∨ t'.done = true) := by
  have go : ∀ (ls : List Lbl) (s1 : St), Reach c s1 → CancelSeen s1 n t.id → run c s1 ls = some s' → CancelSeen s' n t.id := by
    intro ls
    induction ls with
    | nil => intro s1 _ h1 h2; cases h2; exact h1
    | cons l ls ih =>
      intro s1 hr1 h1 h2
      unfold run at h2
      split at h2
      · rename_i s2 hs2
        exact ih s2 (Reach.step s1 s2 l hr1 hs2) (cancelSeen_step c s1 s2 l hr1 n t.id h1 hs2) h2
      · cases h2
  simp only [run, step] at hr
  have := go ls _ (Reach.step s _ (.cancel t.id) h rfl) (Or.inr ⟨⟨t, ht, rfl⟩, Or.inl (by simp)⟩) hr
  rcases this with h1 | ⟨_, h1 | ⟨cs, h1, _⟩⟩
  · exact h1
  · rw [hq] at h1; cases h1
  · rw [hi] at h1; cases h1

/-! ### Goal ids -/

theorem id_pid (pid n : Nat) : pidOf (nextId pid n) = pid := by
  unfold pidOf nextId; omega

/-- **Goals of different processes never share an id, and those of one process not within the first 2^32.** -/
theorem ids_distinct (p q n m : Nat) (hn : n < 4294967296) (hm : m < 4294967296) (h : nextId p n = nextId q m) : p = q ∧ n = m := by
  unfold nextId at h; omega

/-! ### Shutdown (action_ffi.rs:564-578) -/

/-- The server tells every goal it knows to stop, then waits for the threads it knows. -/
def drop (s : St) : St := { s with thr := fun n => (s.thr n).map fun t => if s.flags t.id = some n then { t with cancel := true } else t }

def waitsFor (s : St) (n : Nat) : Prop := ∃ id, s.joins id = some n

/-- **No goal outlives its server**: all that run are told, and are waited for. -/
theorem shutdown_all (c : Cfg) (s : St) (h : Reach c s) (n : Nat) (t : Thr) (ht : s.thr n = some t) (hd : t.done = false) : (drop s).thr n = some { t with cancel := true } ∧ waitsFor (drop s) n := by
  obtain ⟨h1, h2⟩ := running_known c s h n t ht hd
  refine ⟨?_, t.id, h2⟩
  unfold drop
  dsimp only
  rw [ht]
  simp [h1]

/-! ### The client -/

/-- action_ffi.rs:218-230. The results on the client's topic; the answer and what is left on the topic. -/
def poll (q : List (Nat × Status)) (g : Nat) : Option Status × List (Nat × Status) :=
  match q with
  | [] => (none, [])
  | (id, st) :: r => if id = g then (some st, r) else poll r g

/-- **The answer is the first result for that goal.** -/
theorem poll_iff (q : List (Nat × Status)) (g : Nat) (st : Status) : (poll q g).1 = some st ↔ ∃ pre post, q = pre ++ (g, st) :: post ∧ ∀ x ∈ pre, x.1 ≠ g := by
  induction q with
  | nil => simp [poll]
  | cons x r ih =>
    obtain ⟨id, s⟩ := x
    unfold poll
    split
    · rename_i e
      subst e
      constructor
      · intro h; cases h; exact ⟨[], r, rfl, by simp⟩
      · rintro ⟨pre, post, he, hp⟩
        cases pre with
        | nil => simp at he; rw [he.1]
        | cons y ys => simp at he; have := hp y (by simp); rw [← he.1] at this; exact absurd rfl this
    · rename_i hne
      rw [ih]
      constructor
      · rintro ⟨pre, post, he, hp⟩
        exact ⟨(id, s) :: pre, post, by rw [he]; rfl, by intro x hx; rcases List.mem_cons.1 hx with rfl | hx; exacts [hne, hp x hx]⟩
      · rintro ⟨pre, post, he, hp⟩
        cases pre with
        | nil => simp at he; exact absurd he.1.1 hne
        | cons y ys => simp at he; exact ⟨ys, post, he.2, fun x hx => hp x (by simp [hx])⟩

/-! ### Disagreements -/

def acceptAll : Cfg := ⟨fun _ => true, true⟩

/-- The server is done with its events and has taken the (empty) list of goals when a client sends goal 7 and cancels it; then the server goes on, and starts
over. -/
def lost : List Lbl :=
  [.proc true, .proc true, .send 7 1, .cancel 7, .proc true, .proc true, .proc true, .proc true, .proc true, .proc true, .proc true, .proc true]

/-- **Disagreement: a cancellation can be lost.** Goals are collected before cancellations; a goal and its cancellation that arrive in between are seen in
the wrong order: the cancellation is for no goal, and the goal then runs and is never told. -/
theorem cancel_lost : ∃ s t, run acceptAll init lost = some s ∧ s.phase = .idle ∧ s.goalQ = [] ∧ s.cancelQ = [] ∧ s.thr 0 = some t ∧ t.id = 7 ∧ t.cancel = false ∧ t.done = false :=
  ⟨_, _, rfl, rfl, rfl, rfl, rfl, rfl, rfl, rfl⟩

/-- Goals that were never started have no result. -/
theorem unstarted_no_result (c : Cfg) (s : St) (h : Reach c s) (id : Nat) (hn : ∀ n t, s.thr n = some t → t.id ≠ id) (r : Res) (hr : r ∈ s.results) : r.id ≠ id := by
  obtain ⟨_, t, ht, hi, _⟩ := right_result c s h r hr
  rw [← hi]
  exact hn _ t ht

/-- **Disagreement: a client never learns that its goal was rejected**, or that there is no execute handler: no such server ever publishes a result, and
results are all a client reads. -/
theorem rejected_unreported (c : Cfg) (hc : (∀ p, c.accept p = false) ∨ c.exec = false) (s : St) (h : Reach c s) (g : Nat) : s.results = [] ∧ (poll (s.results.map fun r => (r.id, r.st)) g).1 = none := by
  have : s.results = [] := by
    cases hr : s.results with
    | nil => rfl
    | cons r rs =>
      exfalso
      obtain ⟨_, t, ht, _⟩ := right_result c s h r (by rw [hr]; simp)
      obtain ⟨h1, h2⟩ := run_accepted c s h _ t ht
      rcases hc with hc | hc
      · rw [hc] at h1; cases h1
      · rw [hc] at h2; cases h2
  rw [this]
  exact ⟨rfl, rfl⟩

/-- **Disagreement: asking for one result throws away another.** With goals 7 and 8 finished in the order 8, 7, asking for 7 loses the result of 8. -/
theorem poll_discards (q : List (Nat × Status)) (g k : Nat) (st st' : Status) (hk : k ≠ g) (hq : ∀ x ∈ q, x.1 ≠ k) : (poll ((k, st) :: (g, st') :: q) g).1 = some st' ∧ (poll (poll ((k, st) :: (g, st') :: q) g).2 k).1 = none := by
  have : poll ((k, st) :: (g, st') :: q) g = (some st', q) := by simp [poll, hk]
  rw [this]
  refine ⟨rfl, ?_⟩
  cases hp : (poll q k).1 with
  | none => rfl
  | some s =>
    obtain ⟨pre, post, he, _⟩ := (poll_iff q k s).1 hp
    exact absurd rfl (hq (k, s) (by rw [he]; simp))

/-- **Disagreement: a handler that goes on after finishing stops the server.** While it runs, nothing is published, started or cancelled. -/
theorem finish_blocks (c : Cfg) (s : St) (h : Reach c s) (n id : Nat) (evs : List Ev) (hp : s.phase = .join n id evs) (t : Thr) (ht : s.thr n = some t) (hd : t.done = false) (b : Bool) : step c s (.proc b) = none := by
  obtain ⟨⟨u, hu, hui⟩, _⟩ := (inv_reach c s h).joinIn n id evs hp
  rw [ht] at hu
  cases hu
  have := (running_known c s h n t ht hd).2
  rw [hui] at this
  simp only [step]
  unfold proc
  rw [hp]
  dsimp only
  rw [this]
  dsimp only
  rw [ht]
  simp [hd]

/-- Goal 7 succeeds and goes on; goal 8 runs and is cancelled; the server waits for goal 7. -/
example : ∃ s t u, run acceptAll init [.send 7 1, .send 8 1, .proc true, .proc true, .proc true, .proc true, .proc true, .proc true, .finish 0 .succeeded, .proc true, .proc true, .cancel 8] = some s ∧
    s.phase = .join 0 7 [] ∧ s.thr 0 = some t ∧ t.done = false ∧ s.thr 1 = some u ∧ u.cancel = false := ⟨_, _, _, rfl, rfl, rfl, rfl, rfl, rfl⟩

/-- **Disagreement: a goal that is running when its server is destroyed gets no result**, though its handler finishes. -/
theorem shutdown_no_result (s : St) : (drop s).results = s.results := rfl

/-- Two goals of two clients, one finishing, one returning without: each client has its result. -/
example : (run acceptAll init [.send (nextId 5 1) 1, .send (nextId 6 1) 2, .proc true, .proc true, .proc true, .proc true, .proc true, .proc true,
    .finish 0 .succeeded, .finish 0 .aborted, .ret 0, .ret 1, .proc true, .proc true, .proc true, .proc true, .proc true]).map (·.results) =
    some [⟨5, 0, nextId 5 1, .succeeded⟩, ⟨6, 1, nextId 6 1, .aborted⟩] := by decide +kernel
/-- An id in flight is not accepted a second time. -/
example : (run acceptAll init [.send 7 1, .send 7 2, .proc true, .proc true, .proc true, .proc true]).map (·.statuses) = some [(7, .active), (7, .rejected)] := by decide +kernel

end Horus.CppAction
