import Verif.Common.Locks

/-!
The interpreter lock and the locks of the Python bindings (horus_py/src/scheduler.rs, node.rs, topic.rs,
drivers.rs): whether Python threads, scheduler threads and node callbacks can hang each other. The interpreter lock
(GIL) is a lock like the others; `py.detach` gives it up for the time of a closure and `Python::attach` takes it.

Every method is the list of lock operations it performs, in order, with the Python code it runs inlined.

Simplifications: a panic while a lock is held is left out; what the core scheduler does besides calling its nodes
takes no lock of the bindings; the threads of the core scheduler are threads of their own, and the wait of `run` for
them, during which it holds nothing, is left out.
-/

namespace Horus.PyGil
open Horus.Locks

/-! ### Model -/

/-- The interpreter lock; `inner` and `removed_nodes` of a scheduler (scheduler.rs:609-615); the `CoreNodeInfo` of a
node (node.rs, scheduler.rs:88); a topic (topic.rs:163); the classes registered as drivers (drivers.rs:16-17); the
log buffer (horus_core/src/core/log_buffer.rs:172). -/
inductive Lock
  | gil
  | sched (s : Nat)
  | removed (s : Nat)
  | node (n : Nat)
  | topic (t : Nat)
  | drivers
  | log
  deriving DecidableEq, Repr

/-- `py.detach`: run without the interpreter lock. -/
def detach (p : List (Op Lock)) : List (Op Lock) := Op.rel .gil :: p ++ [Op.acq .gil .w]

/-- `Python::attach` on a thread that does not have the interpreter lock. -/
def attach (p : List (Op Lock)) : List (Op Lock) := hold .gil .w p

/-- `send` (topic.rs:171-196, 475-476, 602-603): POD and generic messages take the topic to write, pool-backed ones to
read. The logging that follows is Python code of its own, see `logIpc`. -/
def sendOps (t : Nat) (m : Mode) : List (Op Lock) := detach (hold (.topic t) m [])

/-- `recv`, `read_latest` (topic.rs:205-209, 649-743, 1239). -/
def recvOps (t : Nat) : List (Op Lock) := detach (hold (.topic t) .r [])

/-- `stats`, `backend_type` (topic.rs:84-87, 796-1050, 1059-1150): the topic is read with the interpreter lock held. -/
def lookOps (t : Nat) : List (Op Lock) := hold (.topic t) .r []

/-- The getters and setters of `NodeInfo` (node.rs:106-187). -/
def infoOps (n : Nat) : List (Op Lock) := hold (.node n) .w []

/-- `log_pub`, `log_sub` (node.rs:190-240): the log is written with the node locked. -/
def logIpc (n : Nat) : List (Op Lock) := hold (.node n) .w (hold .log .w [])

/-- `log_info`, `log_debug`; `log_warning`, `log_error` also count (node.rs:117-142). -/
def hlog (n : Nat) (counts : Bool) : List (Op Lock) := hold .log .w [] ++ if counts then infoOps n else []

/-- `add`, `set_node_rate`, `get_node_info`, `stop_recording`, `set_tick_budget`, … (scheduler.rs:704, 894, 1055-1360). -/
def askOps (s : Nat) : List (Op Lock) := hold (.sched s) .w []

/-- `get_node_count`, `has_node`, `get_node_names` (scheduler.rs:1014-1052): nothing more is locked while it runs. -/
def namesOps (s : Nat) (running : Bool) : List (Op Lock) := hold (.sched s) .w (if running then [] else hold (.removed s) .w [])

/-- `get_node_stats`, `get_all_nodes` (scheduler.rs:960-976, 995-1011): dictionaries are made with the locks held;
`gc` is the Python code run by a garbage collection that the making of a dictionary triggers, if any. -/
def dictOps (s : Nat) (all : Bool) (gc : List (Op Lock)) : List (Op Lock) :=
  hold (.sched s) .w (if all then hold (.removed s) .w gc else gc)

/-- `__setstate__` (scheduler.rs:1386-1387). -/
def setstateOps (s : Nat) : List (Op Lock) := hold (.sched s) .w [] ++ hold (.removed s) .w []

/-- `hardware.register` (drivers.rs:97-102): the object registered before under the name is dropped while the lock is
held; `fin` is the Python code that its finalizer runs, if any. -/
def registerOps (fin : List (Op Lock)) : List (Op Lock) := hold .drivers .w fin

/-- `hardware.load` (drivers.rs:62-91): each class is looked up, then made; `mk` is the Python code of the class. -/
def loadOps (mks : List (List (Op Lock))) : List (Op Lock) := mks.flatMap fun mk => hold .drivers .w [] ++ mk

/-- `init`, `shutdown`, `enter_safe_state` of a Python node (scheduler.rs:125-163, 276-328). -/
def hookOps (cb : List (Op Lock)) : List (Op Lock) := attach cb

/-- `tick` of a Python node (scheduler.rs:166-256): the node is locked for a moment before and, if the callback did not
raise, after it. -/
def tickOps (n : Nat) (cb : List (Op Lock)) (raised : Bool) : List (Op Lock) :=
  attach (infoOps n ++ cb ++ if raised then [] else infoOps n)

/-- What a scheduler thread calls. -/
inductive Cb
  | tick (n : Nat) (cb : List (Op Lock)) (raised : Bool)
  | hook (cb : List (Op Lock))

def Cb.ops : Cb → List (Op Lock)
  | .tick n cb raised => tickOps n cb raised
  | .hook cb => hookOps cb

def Cb.code : Cb → List (Op Lock)
  | .tick _ cb _ => cb
  | .hook cb => cb

/-- `run`, `run_for`, `tick`, `tick_once`, `tick_for` (scheduler.rs:745-774, 905-950); `none` if the scheduler is already
running, which is an error. -/
def runOps (s : Nat) : Option (List Cb) → List (Op Lock)
  | none => hold (.sched s) .w []
  | some cbs => hold (.sched s) .w [] ++ detach (cbs.flatMap Cb.ops) ++ hold (.sched s) .w []

/-- What Python code may do, holding the interpreter lock, as long as finalizers do not run while a binding holds one
of its locks. Python code may call `run` in a callback, and any of the callbacks may do all of this in turn. -/
inductive Code : List (Op Lock) → Prop
  | nil : Code []
  | seq {p q} : Code p → Code q → Code (p ++ q)
  /-- the interpreter lets another thread go on, or the thread sleeps or waits for input -/
  | switch : Code (detach [])
  | send (t m) : Code (sendOps t m)
  | recv (t) : Code (recvOps t)
  | look (t) : Code (lookOps t)
  | info (n) : Code (infoOps n)
  | logIpc (n) : Code (logIpc n)
  | hlog (n c) : Code (hlog n c)
  | ask (s) : Code (askOps s)
  | names (s r) : Code (namesOps s r)
  | dict (s a) : Code (dictOps s a [])
  | setstate (s) : Code (setstateOps s)
  | register : Code (registerOps [])
  | load {mks} (h : ∀ p ∈ mks, Code p) : Code (loadOps mks)
  | refused (s) : Code (runOps s none)
  | run (s) {cbs} (h : ∀ c ∈ cbs, Code c.code) : Code (runOps s (some cbs))

/-- The threads of the process: those that run Python code, and those of the core scheduler. -/
inductive Thread : List (Op Lock) → Prop
  | python {p} (h : Code p) : Thread (attach p)
  | native {cbs : List Cb} (h : ∀ c ∈ cbs, Code c.code) : Thread (cbs.flatMap Cb.ops)

/-! ### The order -/

def rank : Lock → Nat
  | .gil => 0
  | .sched _ => 1
  | .removed _ => 2
  | .node _ => 3
  | .topic _ => 3
  | .drivers => 3
  | .log => 4

theorem rank_le (l : Lock) : rank l ≤ 4 := by cases l <;> simp [rank]

theorem below_gil : Below rank 1 [Lock.gil] := below_cons (below_nil 0) (Nat.zero_le _) (by simp [rank])

theorem bal_one {n : Nat} {h : List Lock} {l : Lock} {m : Mode} (hb : Below rank n h) (hn : n ≤ rank l) : Bal rank h (hold l m []) :=
  bal_lock hb hn fun _ => bal_nil _

theorem bal_gil {l : Lock} {m : Mode} (hl : l ≠ .gil) : Bal rank [.gil] (hold l m []) :=
  bal_one below_gil (by cases l <;> simp_all [rank])

theorem bal_detach {p : List (Op Lock)} (hp : Bal rank [] p) : Bal rank [.gil] (detach p) := by
  intro q hq
  simp only [detach, List.cons_append, List.append_assoc, ok, List.mem_singleton, true_and]
  refine hp _ ?_
  simp only [List.nil_append, ok]
  exact ⟨fun x hx => absurd hx List.not_mem_nil, hq⟩

theorem bal_attach {p : List (Op Lock)} (hp : Bal rank [.gil] p) : Bal rank [] (attach p) :=
  bal_hold (fun _ hx => absurd hx List.not_mem_nil) hp

theorem bal_cb {c : Cb} (h : Bal rank [.gil] c.code) : Bal rank [] c.ops := by
  cases c with
  | hook cb => exact bal_attach h
  | tick n cb raised =>
    refine bal_attach (bal_append (bal_append (bal_gil (by simp)) h) ?_)
    cases raised
    · exact bal_gil (by simp)
    · exact bal_nil _

theorem bal_code {p : List (Op Lock)} (h : Code p) : Bal rank [.gil] p := by
  induction h with
  | nil => exact bal_nil _
  | seq _ _ ih1 ih2 => exact bal_append ih1 ih2
  | switch => exact bal_detach (bal_nil _)
  | send t m => exact bal_detach (bal_one (below_nil 0) (Nat.zero_le _))
  | recv t => exact bal_detach (bal_one (below_nil 0) (Nat.zero_le _))
  | look t => exact bal_gil (by simp)
  | info n => exact bal_gil (by simp)
  | logIpc n => exact bal_lock below_gil (by simp [rank]) fun hc => bal_one hc (by simp [rank])
  | hlog n c =>
    refine bal_append (bal_gil (by simp)) ?_
    cases c
    · exact bal_nil _
    · exact bal_gil (by simp)
  | ask s => exact bal_gil (by simp)
  | names s r =>
    refine bal_lock below_gil (by simp [rank]) fun hc => ?_
    cases r
    · exact bal_one hc (by simp [rank])
    · exact bal_nil _
  | dict s a =>
    refine bal_lock below_gil (by simp [rank]) fun hc => ?_
    cases a
    · exact bal_nil _
    · exact bal_one hc (by simp [rank])
  | setstate s => exact bal_append (bal_gil (by simp)) (bal_gil (by simp))
  | register => exact bal_gil (by simp)
  | load _ ih => exact bal_flatMap fun p hp => bal_append (bal_gil (by simp)) (ih p hp)
  | refused s => exact bal_gil (by simp)
  | run s _ ih => exact bal_append (bal_append (bal_gil (by simp)) (bal_detach (bal_flatMap fun c hc => bal_cb (ih c hc)))) (bal_gil (by simp))

theorem thread_ok {p : List (Op Lock)} (h : Thread p) : ok rank [] p := by
  cases h with
  | python h => simpa using bal_attach (bal_code h) [] rfl
  | native h => simpa using bal_flatMap (rank := rank) (h := []) (f := Cb.ops) (fun c hc => bal_cb (bal_code (h c hc))) [] rfl

/-! ### Nobody hangs -/

/-- However many Python and scheduler threads there are, whatever they call, callbacks within callbacks included, and
however they are scheduled: a thread that is not done can go on, or another can. -/
theorem some_thread_goes_on {progs : Nat → List (Op Lock)} (hp : ∀ t, Thread (progs t)) {s : St Lock} (hr : Reach (begin progs) s)
    {t : Nat} (ht : (s t).todo ≠ []) : ∃ u, canGo s u := progress rank_le (fun t => thread_ok (hp t)) hr ht

/-- With finitely many threads every schedule comes to an end, and then every call has returned and every lock is
released. -/
theorem every_call_returns {progs : Nat → List (Op Lock)} {n : Nat} (hp : ∀ t, Thread (progs t)) (hn : ∀ t, n ≤ t → progs t = [])
    {k : Nat} {s : St Lock} (hr : Steps (begin progs) k s) :
    k + left s n = left (begin progs) n ∧ ((∀ t, ¬ canGo s t) → ∀ t, (s t).todo = [] ∧ (s t).held = []) :=
  all_finish rank_le (fun t => thread_ok (hp t)) hn hr

/-- Whoever waits for the interpreter lock, on entering a callback or on coming back from a blocking call, holds
none of the locks of the bindings. -/
theorem waits_for_gil_with_nothing {progs : Nat → List (Op Lock)} (hp : ∀ t, Thread (progs t)) {s : St Lock} (hr : Reach (begin progs) s)
    {t : Nat} {m : Mode} {p : List (Op Lock)} (h : (s t).todo = .acq .gil m :: p) : (s t).held = [] := by
  have hi : Inv rank s := inv_reach (fun t => by simpa [begin] using thread_ok (hp t)) hr
  have := hi t
  rw [h] at this
  cases e : (s t).held with
  | nil => rfl
  | cons x l =>
    have := this.1 x.1 (by simp [e])
    simp [rank] at this

/-! ### Finalizers -/

/-- `get_all_nodes` on one thread and `has_node` on another: if making the dictionaries starts a garbage collection
that runs a finalizer written in Python, and the interpreter lets the other thread go on, both wait for ever. -/
theorem finalizer_in_listing_hangs :
    ∃ s, Reach (begin fun t => [attach (dictOps 0 true (detach [])), attach (namesOps 0 false)].getD t []) s ∧ Dead s :=
  dead_of' [0, 0, 0, 0, 1] (by decide +kernel)

/-- Registering a class under a name again, when what was registered has a finalizer that registers something, hangs
its own thread. -/
theorem finalizer_in_register_hangs :
    ∃ s, Reach (begin fun t => [attach (registerOps (registerOps []))].getD t []) s ∧ Dead s :=
  dead_of' [0, 0] (by decide +kernel)

/-- Two Python threads and a scheduler thread; a node that sends, logs and calls `run` while it runs. -/
example : ∀ t, Thread ([attach (runOps 0 (some [.hook (infoOps 3), .tick 3 (sendOps 1 .w ++ logIpc 3 ++ runOps 0 none) false])),
    attach (namesOps 0 true ++ (lookOps 1 ++ dictOps 0 true []) ++ loadOps [registerOps []]),
    [Cb.tick 4 (recvOps 1 ++ hlog 4 true) true].flatMap Cb.ops].getD t []) := by
  intro t
  match t with
  | 0 =>
    refine .python (.run 0 fun c hc => ?_)
    simp only [List.mem_cons, List.not_mem_nil, or_false] at hc
    rcases hc with rfl | rfl
    · exact .info 3
    · exact .seq (.seq (.send 1 .w) (.logIpc 3)) (.refused 0)
  | 1 => exact .python (.seq (.seq (.names 0 true) (.seq (.look 1) (.dict 0 true))) (.load fun p hp => by cases List.mem_singleton.1 hp; exact .register))
  | 2 => exact .native fun c hc => by cases List.mem_singleton.1 hc; exact .seq (.recv 1) (.hlog 4 true)
  | t + 3 => exact .native (cbs := []) fun c hc => absurd hc List.not_mem_nil

end Horus.PyGil
