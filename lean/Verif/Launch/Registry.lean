/-
Model of the sessions of `horus launch`: horus_manager/src/commands/launch.rs, the file of a session, `--status`,
`--stop` and finding the schedulers of the launched processes.

Files are written and removed in one step each (launch.rs:240-258 renames into place; C152 is about that). What a
launch does with its processes is in Verif/Launch/Watch.lean.
-/
namespace Horus.LaunchReg

/-! ### Sessions -/

/-- The directory of session files (launch.rs:231-238), by session name, with the `launcher_pid` in each; the launches
that run, by process, with their session (launch.rs:391-395); the other processes that run; the process numbers given
out so far (for the histories below only). -/
structure World where
  dir : String → Option Nat
  live : Nat → Option String
  other : Nat → Bool
  used : Nat → Bool

/-- Nothing has run (launch.rs:231). -/
def World.empty : World := ⟨fun _ => none, fun _ => none, fun _ => false, fun _ => false⟩

/-- `ProcessHandle::is_alive` (horus_sys/src/process/mod.rs:53-76): any process with that number. -/
def World.alive (w : World) (p : Nat) : Bool := (w.live p).isSome || w.other p

/-- What can happen. `start`: launch.rs:536-560; `refresh`: the loop writes the file again (launch.rs:800);
`finish`: launch.rs:883; `crash`: the launcher is killed; `status`: launch.rs:274-300; `spawn`, `exit`: another process. -/
inductive Step where
  | start (p : Nat) (n : String)
  | refresh (p : Nat)
  | finish (p : Nat)
  | crash (p : Nat)
  | status
  | spawn (p : Nat)
  | exit (p : Nat)

/-- Function update. Used for the directory and the processes of launch.rs:231-268. -/
def upd {β γ : Type} [DecidableEq β] (f : β → γ) (a : β) (v : γ) : β → γ := fun x => if x = a then v else f x

/-- One step (launch.rs:240-300, 536-560, 800, 883). -/
def World.step (w : World) : Step → World
  | .start p n => { w with dir := upd w.dir n (some p), live := upd w.live p (some n), used := upd w.used p true }
  | .refresh p => match w.live p with
    | some n => { w with dir := upd w.dir n (some p) }
    | none => w
  | .finish p => match w.live p with
    | some n => { w with dir := upd w.dir n none, live := upd w.live p none }
    | none => w
  | .crash p => { w with live := upd w.live p none }
  | .status => { w with dir := fun n => (w.dir n).filter w.alive }
  | .spawn p => { w with other := upd w.other p true, used := upd w.used p true }
  | .exit p => { w with other := upd w.other p false }

/-- A history (launch.rs:240-300, 536-560, 800, 883). -/
def World.run (w : World) (l : List Step) : World := l.foldl World.step w

/-- Session `n` of launcher `p` is in the list of `--status` (`read_all`, launch.rs:274-300). -/
def World.shows (w : World) (n : String) (p : Nat) : Bool := w.dir n == some p && w.alive p

/-- `stop_launch_session` (launch.rs:961-1000): `none` is the error that there is no such session; else the command is
sent, to the launcher the file names or to nobody, and success is reported. -/
def World.stop (w : World) (n : String) : Option Nat := w.dir n

/-! ### Schedulers of the launched processes -/

/-- What `NodePresence::read_all` says of a node (launch.rs:306, 330-336). -/
structure Presence where
  pid : Nat
  node : String
  sched : Option String
deriving DecidableEq

/-- `LaunchProcessEntry` (launch.rs:212-227). -/
structure Proc where
  name : String
  pid : Nat
  sched : Option String
  topic : Option String
  nodes : List String
deriving DecidableEq

/-- One process in `discover_schedulers` (launch.rs:322-356). `known` are the files of the scheduler directory. -/
def discover1 (all : List Presence) (known : List String) (e : Proc) : Proc :=
  if e.sched.isSome then e
  else
    match all.filter (fun p => p.pid = e.pid) with
    | m :: ms =>
      let e := match m.sched with
        | some s => { e with sched := some s, topic := some ("horus.ctl." ++ s) }
        | none => e
      { e with nodes := (m :: ms).map Presence.node }
    | [] =>
      if known.contains e.name then
        { e with sched := some e.name, topic := some ("horus.ctl." ++ e.name), nodes := (all.filter fun p => p.sched = some e.name).map Presence.node }
      else e

/-- `discover_schedulers` (launch.rs:304-358). -/
def discover (all : List Presence) (known : List String) (es : List Proc) : List Proc := es.map (discover1 all known)

/-! ### Specification and theorems -/

/-- What the property supposes of a step: numbers of processes are not given out twice, and no two launches that run
at the same time have the same session name. -/
def Ok (w : World) : Step → Prop
  | .start p n => w.used p = false ∧ ∀ q, w.live q ≠ some n
  | .spawn p => w.used p = false
  | _ => True

/-- Histories of such steps. -/
inductive Legal : World → List Step → Prop
  | nil (w) : Legal w []
  | cons {w s l} : Ok w s → Legal (w.step s) l → Legal w (s :: l)

structure Inv (w : World) : Prop where
  filed : ∀ p n, w.live p = some n → w.dir n = some p
  dirUsed : ∀ n p, w.dir n = some p → w.used p = true
  liveUsed : ∀ p n, w.live p = some n → w.used p = true
  otherUsed : ∀ p, w.other p = true → w.used p = true
  apart : ∀ n p, w.dir n = some p → w.other p = false
  own : ∀ n p m, w.dir n = some p → w.live p = some m → n = m

theorem inv_empty : Inv World.empty := ⟨by simp [World.empty], by simp [World.empty], by simp [World.empty], by simp [World.empty], by simp [World.empty], by simp [World.empty]⟩

theorem inv_step {w : World} (h : Inv w) (s : Step) (hs : Ok w s) : Inv (w.step s) := by
  obtain ⟨h1, h2, h3, h4, h5, h6⟩ := h
  cases s with
  | start p n =>
    obtain ⟨a, b⟩ := hs
    simp only [World.step]
    refine ⟨?_, ?_, ?_, ?_, ?_, ?_⟩ <;> simp only [upd] <;> grind
  | refresh p =>
    simp only [World.step]
    cases hl : w.live p with
    | none => exact ⟨h1, h2, h3, h4, h5, h6⟩
    | some n =>
      have := h1 p n hl
      refine ⟨?_, ?_, ?_, ?_, ?_, ?_⟩ <;> simp only [upd] <;> grind
  | finish p =>
    simp only [World.step]
    cases hl : w.live p with
    | none => exact ⟨h1, h2, h3, h4, h5, h6⟩
    | some n =>
      have := h1 p n hl
      refine ⟨?_, ?_, ?_, ?_, ?_, ?_⟩ <;> simp only [upd] <;> grind
  | crash p => simp only [World.step]; refine ⟨?_, ?_, ?_, ?_, ?_, ?_⟩ <;> simp only [upd] <;> grind
  | status =>
    simp only [World.step]
    refine ⟨?_, ?_, ?_, ?_, ?_, ?_⟩ <;> simp only [Option.filter_eq_some_iff, World.alive] <;> grind
  | spawn p => simp only [World.step]; simp only [Ok] at hs; refine ⟨?_, ?_, ?_, ?_, ?_, ?_⟩ <;> simp only [upd] <;> grind
  | exit p => simp only [World.step]; refine ⟨?_, ?_, ?_, ?_, ?_, ?_⟩ <;> simp only [upd] <;> grind

theorem inv_run (l : List Step) : ∀ (w : World), Inv w → Legal w l → Inv (w.run l) := by
  induction l with
  | nil => exact fun w h _ => h
  | cons s l ih =>
    intro w h hl
    cases hl with
    | cons a b => exact ih _ (inv_step h s a) b

/-- C294: while no two running launches share a session name, `--status` lists exactly the launches that run, whatever
started, ended or was killed before. -/
theorem status_exact_partial (l : List Step) (hl : Legal World.empty l) (n : String) (p : Nat) :
    (World.empty.run l).shows n p = true ↔ (World.empty.run l).live p = some n := by
  obtain ⟨h1, h2, h3, h4, h5, h6⟩ := inv_run l _ inv_empty hl
  simp only [World.shows, Bool.and_eq_true, beq_iff_eq, World.alive, Bool.or_eq_true]
  constructor
  · rintro ⟨a, b | b⟩
    · obtain ⟨m, hm⟩ := Option.isSome_iff_exists.1 b
      rw [hm, h6 n p m a hm]
    · rw [h5 n p a] at b; exact absurd b (by simp)
  · intro h; exact ⟨h1 p n h, .inl (by rw [h]; rfl)⟩

/-- C294: then `--stop` reaches every launch that runs. -/
theorem stop_reaches_partial (l : List Step) (hl : Legal World.empty l) (n : String) (p : Nat)
    (h : (World.empty.run l).live p = some n) : (World.empty.run l).stop n = some p :=
  (inv_run l _ inv_empty hl).filed p n h

/-- C294: right after a `--status`, `--stop` reports success exactly for the launches that run. -/
theorem stop_after_status (l : List Step) (hl : Legal World.empty l) (n : String) (p : Nat) :
    (World.empty.run (l ++ [.status])).stop n = some p ↔ (World.empty.run l).live p = some n := by
  rw [← status_exact_partial l hl n p]
  simp [World.run, World.step, World.stop, World.shows, Option.filter_eq_some_iff]

/-- C294: in every state, `--status` shows no launch whose process is gone, and forgets those. -/
theorem status_sound (w : World) (n : String) (p : Nat) :
    (w.shows n p = true → w.alive p = true) ∧ ((w.step .status).dir n = some p ↔ w.shows n p = true) := by
  simp [World.shows, World.step, Option.filter_eq_some_iff]

/-- C294, a disagreement: `--stop` reports that the command was sent when the launcher is dead, and nobody gets it. -/
theorem stop_dead (l : List Step) (hl : Legal World.empty l) (p : Nat) (n : String) (h : (World.empty.run l).live p = some n) :
    (World.empty.run (l ++ [.crash p])).stop n = some p ∧ (World.empty.run (l ++ [.crash p])).alive p = false := by
  have hi := inv_run l _ inv_empty hl
  have := hi.filed p n h
  simp [World.run, World.step, World.stop, World.alive, upd] at this ⊢
  exact ⟨this, hi.apart n p (hi.filed p n h)⟩

/-- C294, a disagreement: after a `--status` the session of a launcher that was killed is unknown to `--stop`, though
the processes it launched may run on. -/
theorem killed_unknown (l : List Step) (hl : Legal World.empty l) (p : Nat) (n : String) (h : (World.empty.run l).live p = some n) :
    (World.empty.run (l ++ [.crash p, .status])).stop n = none := by
  have hi := inv_run l _ inv_empty hl
  have h1 := hi.filed p n h
  have h2 := hi.apart n p h1
  have e : World.empty.run (l ++ [.crash p, .status]) = ((World.empty.run l).step (.crash p)).step .status := by simp [World.run]
  rw [e]
  simp [World.stop, World.step, World.alive, upd, h1, h2, Option.filter]

/-- C294, a disagreement: two launches of files with the same name, `p` then `q`: only `q` is listed; when `q` ends the
file is removed, and `p`, still running, is neither listed nor known to `--stop` until it writes its file again. -/
theorem same_name (p q : Nat) (n : String) (hpq : p ≠ q) :
    let w2 := World.empty.run [.start p n, .start q n]
    let w3 := w2.step (.finish q)
    w2.live p = some n ∧ w2.shows n p = false ∧ w3.live p = some n ∧ w3.shows n p = false ∧ w3.stop n = none ∧
    (w3.step (.refresh p)).shows n p = true := by
  have hqp : q ≠ p := Ne.symm hpq
  simp [World.run, World.step, World.shows, World.stop, World.empty, upd, World.alive, hpq, hqp]

/-- C294, a disagreement: a process that got the number of a launcher that was killed makes its session look running. -/
theorem number_reused (p : Nat) (n : String) :
    let w := World.empty.run [.start p n, .crash p, .spawn p]
    w.shows n p = true ∧ w.live p = none := by
  simp [World.run, World.step, World.shows, World.empty, upd, World.alive]

/-- C294: a process gets a scheduler exactly if a node of its own says so first, or no node is known of the process and
a scheduler has the process's name. -/
theorem discover_iff (all : List Presence) (known : List String) (e : Proc) (he : e.sched = none) (s : String) :
    (discover1 all known e).sched = some s ↔
      (∃ before m after, all = before ++ m :: after ∧ (∀ p ∈ before, p.pid ≠ e.pid) ∧ m.pid = e.pid ∧ m.sched = some s) ∨
      ((∀ p ∈ all, p.pid ≠ e.pid) ∧ e.name ∈ known ∧ s = e.name) := by
  unfold discover1
  rw [he]
  simp only [Option.isSome_none, Bool.false_eq_true, if_false]
  cases hf : all.filter (fun p => p.pid = e.pid) with
  | nil =>
    have hn : ∀ p ∈ all, p.pid ≠ e.pid := by
      intro p hp hh
      have : p ∈ all.filter (fun p => p.pid = e.pid) := List.mem_filter.2 ⟨hp, by simpa using hh⟩
      rw [hf] at this; simp at this
    have hno : ¬ ∃ before m after, all = before ++ m :: after ∧ (∀ p ∈ before, p.pid ≠ e.pid) ∧ m.pid = e.pid ∧ m.sched = some s := by
      rintro ⟨b, m, a, rfl, _, hm, _⟩
      exact hn m (by simp) hm
    simp only [hno, false_or]
    by_cases hk : e.name ∈ known
    · simp [hk, eq_comm]; intro _; exact hn
    · simp [hk, he]
  | cons m ms =>
    obtain ⟨b, a, hall, hb, hm, hms⟩ := List.filter_eq_cons_iff.1 hf
    have hm' : m.pid = e.pid := by simpa using hm
    have hb' : ∀ p ∈ b, p.pid ≠ e.pid := fun p hp => by simpa using hb p hp
    have hne : ¬ ∀ p ∈ all, p.pid ≠ e.pid := fun h => h m (by rw [hall]; simp) hm'
    simp only [hne, false_and, or_false]
    have huniq : ∀ b' m' a', all = b' ++ m' :: a' → (∀ p ∈ b', p.pid ≠ e.pid) → m'.pid = e.pid → m' = m := by
      intro b' m' a' h1 h2 h3
      have : all.filter (fun p => p.pid = e.pid) = m' :: a'.filter (fun p => p.pid = e.pid) :=
        List.filter_eq_cons_iff.2 ⟨b', a', h1, fun p hp => by simpa using h2 p hp, by simpa using h3, rfl⟩
      rw [hf] at this
      exact (List.cons.inj this).1.symm
    constructor
    · intro h
      refine ⟨b, m, a, hall, hb', hm', ?_⟩
      cases hs : m.sched with
      | none => simp [hs, he] at h
      | some x => simpa [hs] using h
    · rintro ⟨b', m', a', h1, h2, h3, h4⟩
      rw [huniq b' m' a' h1 h2 h3] at h4
      simp [h4]

/-- C294: the commands for a process go to the control topic of the scheduler it was given. -/
theorem discover_topic (all : List Presence) (known : List String) (e : Proc) (he : e.topic = e.sched.map ("horus.ctl." ++ ·)) :
    (discover1 all known e).topic = (discover1 all known e).sched.map ("horus.ctl." ++ ·) ∧
    (discover1 all known e).name = e.name ∧ (discover1 all known e).pid = e.pid := by
  unfold discover1
  split
  · exact ⟨he, rfl, rfl⟩
  · split
    · next m ms _ =>
      cases hs : m.sched with
      | none => exact ⟨he, rfl, rfl⟩
      | some x => exact ⟨rfl, rfl, rfl⟩
    · split
      · exact ⟨rfl, rfl, rfl⟩
      · exact ⟨he, rfl, rfl⟩

/-- C294: the nodes listed for a launched process are, in order, those whose presence records carry its number. -/
theorem discover_nodes (all : List Presence) (known : List String) (e : Proc) (he : e.sched = none) (h : ∃ p ∈ all, p.pid = e.pid) :
    (discover1 all known e).nodes = (all.filter fun p => p.pid = e.pid).map Presence.node := by
  unfold discover1
  rw [he]
  simp only [Option.isSome_none, Bool.false_eq_true, if_false]
  cases hf : all.filter (fun p => p.pid = e.pid) with
  | nil =>
    obtain ⟨p, hp, hh⟩ := h
    have : p ∈ all.filter (fun p => p.pid = e.pid) := List.mem_filter.2 ⟨hp, by simpa using hh⟩
    rw [hf] at this; simp at this
  | cons m ms => rfl

example : (discover1 [⟨3, "cam", none⟩, ⟨4, "arm", some "s"⟩, ⟨3, "lidar", some "s"⟩] [] ⟨"p", 3, none, none, []⟩).nodes = ["cam", "lidar"] := by decide +kernel

/-- C294, a disagreement: a launched process that is no node yet is given the scheduler of another process that has its
name, and a stop of the launch shuts that one down. -/
theorem foreign_scheduler (n : String) (p q : Nat) (hpq : q ≠ p) :
    discover1 [⟨q, n, some n⟩] [n] ⟨n, p, none, none, []⟩ = ⟨n, p, some n, some ("horus.ctl." ++ n), [n]⟩ := by
  simp [discover1, hpq]

/-- C294, a disagreement: once found, the scheduler and the nodes of a process are never looked at again, so after a
restart under another number the session lists the old nodes. -/
theorem restart_stale (all : List Presence) (known : List String) (e : Proc) (s : String) (h : e.sched = some s) (q : Nat) :
    discover1 all known { e with pid := q } = { e with pid := q } := by
  simp [discover1, h]

/-! ### Examples -/

/-- Two launches, one of which is killed, and a status. -/
example : Legal World.empty [.start 10 "arm", .start 11 "base", .crash 10, .status, .refresh 11] ∧
    (World.empty.run [.start 10 "arm", .start 11 "base", .crash 10, .status, .refresh 11]).shows "base" 11 = true ∧
    (World.empty.run [.start 10 "arm", .start 11 "base", .crash 10, .status, .refresh 11]).shows "arm" 10 = false := by
  refine ⟨?_, by decide +kernel, by decide +kernel⟩
  refine .cons ⟨rfl, fun q => by simp [World.empty]⟩ (.cons ⟨rfl, fun q => ?_⟩ (.cons trivial (.cons trivial (.cons trivial (.nil _)))))
  simp only [World.step, upd, World.empty]
  by_cases h : q = 10 <;> simp [h]

/-- A process with two nodes. -/
example : discover1 [⟨7, "imu", some "main"⟩, ⟨8, "cam", some "eye"⟩, ⟨7, "ekf", some "main"⟩] ["eye", "main"] ⟨"nav", 7, none, none, []⟩
    = ⟨"nav", 7, some "main", some "horus.ctl.main", ["imu", "ekf"]⟩ := by decide +kernel

end Horus.LaunchReg
