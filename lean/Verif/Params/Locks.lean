import Verif.Common.Locks

/-!
The locks of the runtime parameters (horus_core/src/params.rs): which methods a change callback may call, and
whether any number of threads sharing the parameters can hang each other. Every method is the list of lock
operations it performs, in order, with the callbacks inlined; what depends on data is a parameter.

Simplification: a panic while a lock is held (which poisons it) is left out, and files take no lock.
-/

namespace Horus.ParamLocks
open Horus.Locks

/-! ### Model -/

/-- The four locks of `RuntimeParams` (params.rs:78-89). -/
inductive Lock
  | params | metadata | versions | callbacks
  deriving DecidableEq, Repr

/-- How far a checked write gets. -/
inductive Upto
  /-- read-only or invalid (params.rs:264-274, 371-379) -/
  | refused
  /-- a callback says no (params.rs:283-292), or the version does not match (params.rs:382-389) -/
  | rejected
  | written
  deriving DecidableEq, Repr

/-- The methods that run no callback. -/
inductive Basic
  /-- `get`, `get_typed`, `get_or`, `get_all`, `list_keys`, `has`, `save_to_disk` (params.rs:222-257, 312-330, 577-592) -/
  | look
  /-- `remove`, `load_from_disk` (params.rs:333-335, 595-605) -/
  | replace
  /-- `get_metadata` (params.rs:347-349) -/
  | metadata
  /-- `get_version` (params.rs:352-358) -/
  | version
  /-- `set_with_version` (params.rs:362-405): the versions stay locked while the value is written -/
  | setVersioned (u : Upto)
  deriving DecidableEq, Repr

/-- What a method that runs no callback does. -/
def Basic.ops : Basic → List (Op Lock)
  | .look => hold .params .r []
  | .replace => hold .params .w []
  | .metadata => hold .metadata .r []
  | .version => hold .versions .r []
  | .setVersioned .refused => hold .metadata .r []
  | .setVersioned .rejected => hold .metadata .r [] ++ hold .versions .w []
  | .setVersioned .written => hold .metadata .r [] ++ hold .versions .w (hold .params .r [] ++ hold .params .w [])

/-- Calls made one after another. -/
def many (bs : List Basic) : List (Op Lock) := bs.flatMap Basic.ops

/-- `set` (params.rs:260-309); `cbs` are the callbacks that run, the last of which may say no. -/
def setOps (u : Upto) (cbs : List (List (Op Lock))) : List (Op Lock) :=
  match u with
  | .refused => hold .metadata .r []
  | .rejected => hold .metadata .r [] ++ hold .params .r [] ++ hold .callbacks .r cbs.flatten
  | .written => hold .metadata .r [] ++ hold .params .r [] ++ hold .callbacks .r cbs.flatten ++ hold .params .w [] ++ hold .versions .w []

/-- The methods. -/
inductive Call
  | basic (b : Basic)
  | set (u : Upto) (cbs : List (List (Op Lock)))
  /-- `reset` (params.rs:338-344): empties the parameters and sets the defaults one by one -/
  | reset (sets : List (Upto × List (List (Op Lock))))
  /-- `on_change` (params.rs:205-209) -/
  | onChange

/-- What a method does. -/
def Call.ops : Call → List (Op Lock)
  | .basic b => b.ops
  | .set u cbs => setOps u cbs
  | .reset sets => hold .params .w [] ++ sets.flatMap fun x => setOps x.1 x.2
  | .onChange => hold .callbacks .w []

/-- The threads before they start: each makes some calls, one after another. -/
def start (calls : Nat → List Call) : St Lock := begin fun t => (calls t).flatMap Call.ops

/-! ### What callbacks may do -/

/-- Everything but `set`, `reset` and `on_change`. -/
def Mild (p : List (Op Lock)) : Prop := ∃ bs : List Basic, p = many bs

/-- The callbacks a call runs keep to that. -/
def Call.Good : Call → Prop
  | .basic _ => True
  | .set _ cbs => ∀ p ∈ cbs, Mild p
  | .reset sets => ∀ x ∈ sets, ∀ p ∈ x.2, Mild p
  | .onChange => True

/-! ### The order -/

def rank : Lock → Nat
  | .callbacks => 0
  | .metadata => 1
  | .versions => 2
  | .params => 3

theorem rank_le (l : Lock) : rank l ≤ 3 := by cases l <;> simp [rank]

theorem bal_one {n : Nat} {h : List Lock} {l : Lock} {m : Mode} (hb : Below rank n h) (hn : n ≤ rank l) : Bal rank h (hold l m []) :=
  bal_lock hb hn fun _ => bal_nil _

theorem bal_basic {h : List Lock} (hb : Below rank 1 h) (b : Basic) : Bal rank h b.ops := by
  cases b with
  | look => exact bal_one hb (by simp [rank])
  | replace => exact bal_one hb (by simp [rank])
  | metadata => exact bal_one hb (by simp [rank])
  | version => exact bal_one hb (by simp [rank])
  | setVersioned u =>
    cases u with
    | refused => exact bal_one hb (by simp [rank])
    | rejected => exact bal_append (bal_one hb (by simp [rank])) (bal_one hb (by simp [rank]))
    | written =>
      exact bal_append (bal_one hb (by simp [rank])) (bal_lock hb (by simp [rank]) fun hc =>
        bal_append (bal_one hc (by simp [rank])) (bal_one hc (by simp [rank])))

theorem bal_cbs {h : List Lock} (hb : Below rank 1 h) {cbs : List (List (Op Lock))} (hm : ∀ p ∈ cbs, Mild p) : Bal rank h cbs.flatten := by
  have : Bal rank h (cbs.flatMap id) := bal_flatMap fun p hp => by
    obtain ⟨bs, e⟩ := hm p hp
    rw [id, e]
    exact bal_flatMap fun b _ => bal_basic hb b
  simpa [List.flatMap_id] using this

theorem bal_set {u : Upto} {cbs : List (List (Op Lock))} (hm : ∀ p ∈ cbs, Mild p) : Bal rank [] (setOps u cbs) := by
  have one : ∀ l m, Bal rank [] (hold l m []) := fun l m => bal_one (below_nil 0) (Nat.zero_le _)
  have cb : Bal rank [] (hold .callbacks .r cbs.flatten) := bal_lock (below_nil 0) (Nat.zero_le _) fun hc => bal_cbs hc hm
  cases u with
  | refused => exact one _ _
  | rejected => exact bal_append (bal_append (one _ _) (one _ _)) cb
  | written => exact bal_append (bal_append (bal_append (bal_append (one _ _) (one _ _)) cb) (one _ _)) (one _ _)

theorem bal_call {c : Call} (hc : c.Good) : Bal rank [] c.ops := by
  cases c with
  | basic b => exact bal_basic (below_nil 1) b
  | set u cbs => exact bal_set hc
  | reset sets => exact bal_append (bal_one (below_nil 0) (Nat.zero_le _)) (bal_flatMap fun x hx => bal_set (hc x hx))
  | onChange => exact bal_one (below_nil 0) (Nat.zero_le _)

theorem calls_ok {calls : Nat → List Call} (hc : ∀ t, ∀ c ∈ calls t, c.Good) (t : Nat) : ok rank [] ((calls t).flatMap Call.ops) := by
  simpa using bal_flatMap (rank := rank) (h := []) (f := Call.ops) (l := calls t) (fun c hx => bal_call (hc t c hx)) [] rfl

/-- As long as change callbacks only make the calls they may, however many threads share the parameters, whatever
they call and however they are scheduled: a thread that is not done can go on, or another can. -/
theorem some_thread_goes_on {calls : Nat → List Call} (hc : ∀ t, ∀ c ∈ calls t, c.Good) {s : St Lock} (hr : Reach (start calls) s)
    {t : Nat} (ht : (s t).todo ≠ []) : ∃ u, canGo s u := progress rank_le (calls_ok hc) hr ht

/-- With finitely many threads every schedule comes to an end, and then every call has returned and every lock is
released. -/
theorem every_call_returns {calls : Nat → List Call} {n : Nat} (hc : ∀ t, ∀ c ∈ calls t, c.Good) (hn : ∀ t, n ≤ t → calls t = [])
    {k : Nat} {s : St Lock} (hr : Steps (start calls) k s) :
    k + left s n = left (start calls) n ∧ ((∀ t, ¬ canGo s t) → ∀ t, (s t).todo = [] ∧ (s t).held = []) :=
  all_finish rank_le (calls_ok hc) (fun t ht => by simp [hn t ht]) hr

/-! ### Callbacks that hang -/

theorem start_list (calls : List (List Call)) :
    (start fun t => calls.getD t []) = begin fun t => (calls.map fun cs => cs.flatMap Call.ops).getD t [] := by
  funext t
  by_cases h : t < calls.length <;> simp [start, begin, h]

/-- A callback that registers a callback hangs its own thread. -/
theorem callback_registers_hangs :
    ∃ s, Reach (start fun t => [[Call.set .written [Call.onChange.ops]]].getD t []) s ∧ Dead s := by
  rw [start_list]
  exact dead_of' (List.replicate 5 0) (by decide +kernel)

/-- A callback that sets a parameter hangs when another thread is just registering a callback. -/
theorem callback_sets_hangs :
    ∃ s, Reach (start fun t => [[Call.set .written [Call.ops (.set .written [])]], [Call.onChange]].getD t []) s ∧ Hung s := by
  rw [start_list]
  exact hung_of' (List.replicate 9 0) (by decide +kernel)

/-- Two threads and callbacks that do as much as they may. -/
example : ∀ t, ∀ c ∈ [[Call.set .written [many [.look, .setVersioned .written], many [.replace, .version]], Call.onChange],
    [Call.reset [(.written, [many [.look]]), (.rejected, [many [.metadata]])], Call.basic (.setVersioned .rejected)]].getD t [], c.Good := by
  intro t c hc
  match t with
  | 0 =>
    simp only [List.getD_cons_zero, List.mem_cons, List.not_mem_nil, or_false] at hc
    rcases hc with rfl | rfl
    · intro p hp
      simp only [List.mem_cons, List.not_mem_nil, or_false] at hp
      rcases hp with rfl | rfl <;> exact ⟨_, rfl⟩
    · trivial
  | 1 =>
    simp only [List.getD_cons_succ, List.getD_cons_zero, List.mem_cons, List.not_mem_nil, or_false] at hc
    rcases hc with rfl | rfl
    · intro x hx
      simp only [List.mem_cons, List.not_mem_nil, or_false] at hx
      rcases hx with rfl | rfl <;> (intro p hp; cases List.mem_singleton.1 hp; exact ⟨_, rfl⟩)
    · trivial
  | t + 2 => simp at hc

end Horus.ParamLocks
