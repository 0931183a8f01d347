import Verif.Launch.Order
/-
`horus launch`: the loop that watches the started processes, restarts them and stops them, and the shutdown.
Source: /repo/horus_manager/src/commands/launch.rs:452-508 (entries), 535-557 (session file), 607-800 (the loop),
803-884 (shutdown), 1003-1009 (should_restart_node). Times are milliseconds. Processes are numbers; when a process
ends, and with which result, is decided by the environment, and so is whether a spawn works. What the launched
processes start themselves is not modelled.
-/
namespace Horus.Launch.Watch

/-- The `restart` field of a node; any other text counts as "never" (launch.rs:1003-1009). -/
inductive Policy
  | always
  | onFailure
  | never
deriving DecidableEq

/-- launch.rs:1003-1009 `should_restart_node`; `ok` is `status.success()`. -/
def should (p : Policy) (ok : Bool) : Bool :=
  match p with
  | .always => true
  | .onFailure => !ok
  | .never => false

/-- launch.rs:15-19 constants. -/
def MAX_RESTARTS : Nat := 10
def INITIAL_BACKOFF : Nat := 100
def MAX_BACKOFF : Nat := 10000

/-- launch.rs:22-31 ProcessEntry: name, restart policy (in the node), restart count, next back-off, child. -/
structure Entry where
  name : Nat
  policy : Policy
  restarts : Nat
  backoff : Nat
  pid : Nat
deriving DecidableEq

/-- One restart: the node, the new process, the time waited, and how the old process had ended. -/
structure Restart where
  name : Nat
  pid : Nat
  waited : Nat
  prevOk : Bool
deriving DecidableEq

/-- The world: how each process ended (`none`: it runs), the next unused process, the restarts so far, the total
time slept in back-off, the processes sent SIGTERM. -/
structure World where
  status : Nat → Option Bool
  next : Nat
  log : List Restart
  slept : Nat
  termed : List Nat

/-- A row of the session file (launch.rs:546-556): name, process, restart count. -/
structure Row where
  name : Nat
  pid : Nat
  restarts : Nat
deriving DecidableEq

structure St where
  w : World
  entries : List Entry
  session : List Row
  running : Bool

/-- launch.rs:123-134 LaunchControlCommand. -/
inductive Cmd
  | stop (name : Nat)
  | restart (name : Nat)
  | stopAll
deriving DecidableEq

/-- What the environment does just before an entry is looked at: processes end; and whether a spawn would work. -/
structure Env where
  exits : List (Nat × Bool)
  spawnOk : Bool

/-- Processes end; an ended process stays ended. -/
def World.exit (w : World) (x : Nat × Bool) : World :=
  { w with status := fun p => if p = x.1 ∧ w.status p = none then some x.2 else w.status p }

def World.exits (w : World) (xs : List (Nat × Bool)) : World := xs.foldl World.exit w

/-- launch.rs:647-649: set the policy of the first entry of that name. -/
def setAlways (k : Nat) : List Entry → List Entry
  | [] => []
  | e :: es => if e.name = k then { e with policy := .always } :: es else e :: setAlways k es

/-- launch.rs:611-665: one control command. The message to the node's own scheduler is not modelled (a process may
end at any time anyway). -/
def applyCmd (s : St) : Cmd → St
  | .stop k =>
    if s.session.any (·.name == k) then
      match s.entries.find? (·.name == k) with
      | some e => { s with w := { s.w with termed := s.w.termed ++ [e.pid] } }
      | none => s
    else s
  | .restart k =>
    match s.entries.find? (·.name == k) with
    | some e => { s with entries := setAlways k s.entries, w := { s.w with termed := s.w.termed ++ [e.pid] } }
    | none => s
  | .stopAll => { s with running := false }

/-- launch.rs:696-783: one entry. `none` means it is put on the list of stopped ones and removed after the pass. -/
def checkEntry (v : Env) (e : Entry) (w0 : World) : Option Entry × World :=
  let w := w0.exits v.exits
  match w.status e.pid with
  | none => (some e, w)
  | some ok =>
    if should e.policy ok = true ∧ e.restarts < MAX_RESTARTS then
      let w1 := { w with slept := w.slept + e.backoff }
      if v.spawnOk then
        (some { e with restarts := e.restarts + 1, backoff := min (e.backoff * 2) MAX_BACKOFF, pid := w1.next },
          { w1 with status := fun p => if p = w1.next then none else w1.status p, next := w1.next + 1, log := w1.log ++ [⟨e.name, w1.next, e.backoff, ok⟩] })
      else (none, w1)
    else (none, w)

/-- launch.rs:694-789: all entries, in order, then the stopped ones removed. -/
def checkAll (v : Nat → Env) : Nat → List Entry → World → List Entry × World
  | _, [], w => ([], w)
  | i, e :: es, w =>
    let (o, w1) := checkEntry (v i) e w
    let (es', w2) := checkAll v (i + 1) es w1
    (o.toList ++ es', w2)

/-- launch.rs:792-797: entry i of the processes that are left is written into row i of the session. -/
def updateRows : List Row → List Entry → List Row
  | [], _ => []
  | rs, [] => rs
  | r :: rs, e :: es => { r with pid := e.pid, restarts := e.restarts } :: updateRows rs es

/-- One pass: the commands waiting on the control topic, the message waiting on the e-stop topic (its `engaged`
field), what the environment does. -/
structure Iter where
  cmds : List Cmd
  estop : Option Bool
  env : Nat → Env
  interrupt : Bool

/-- launch.rs:607-800: one pass of the loop. An e-stop message, whatever it says, breaks before the processes are
looked at (668-691); `stopAll` only clears the flag read at the head of the loop; an empty list breaks. Ctrl-C
(`interrupt`) clears the flag at some point of the pass. -/
def iter (s : St) (i : Iter) : St :=
  if s.running = false then s
  else
    let s := i.cmds.foldl applyCmd s
    if i.estop.isSome then { s with running := false }
    else
      let (es, w) := checkAll i.env 0 s.entries s.w
      { w := w, entries := es, session := updateRows s.session es,
        running := s.running && !es.isEmpty && !i.interrupt }

def run (s : St) (is : List Iter) : St := is.foldl iter s

/-- The entries and the session file made from what was started (launch.rs:486-508, 535-557). -/
def entriesOf (pol : Nat → Policy) : Nat → List Node → List Entry
  | _, [] => []
  | p, n :: ns => ⟨n.name, pol n.name, 0, INITIAL_BACKOFF, p⟩ :: entriesOf pol (p + 1) ns

def init (pol : Nat → Policy) (started : List Node) : St :=
  let es := entriesOf pol 0 started
  { w := ⟨fun _ => none, es.length, [], 0, []⟩, entries := es, session := es.map fun e => ⟨e.name, e.pid, 0⟩, running := true }

/-- SIGTERM to every listed process that runs (launch.rs:836-845). -/
def termAll (es : List Entry) (w : World) : World :=
  { w with termed := w.termed ++ (es.filter fun e => w.status e.pid == none).map Entry.pid }

/-- SIGKILL to every listed process that runs, and waiting for it (launch.rs:851-863): it has ended, badly. -/
def killAll (es : List Entry) (w : World) : World :=
  { w with status := fun p => if w.status p = none ∧ (∃ e ∈ es, e.pid = p) then some false else w.status p }

/-- launch.rs:803-863: graceful shutdown and two seconds, SIGTERM and up to three, SIGKILL, wait. -/
def shutdown (x1 x2 : List (Nat × Bool)) (s : St) : World :=
  killAll s.entries ((termAll s.entries (s.w.exits x1)).exits x2)

/-! ### Specification -/

/-- A process that was started and has not ended. -/
def Live (w : World) (p : Nat) : Prop := p < w.next ∧ w.status p = none

/-- What each policy allows, given how the process ended. -/
def Allowed : Policy → Bool → Prop
  | .always, _ => True
  | .onFailure, ok => ok = false
  | .never, _ => False

/-- The waiting times before the restarts of one node, oldest first. -/
def waits (k : Nat) (l : List Restart) : List Nat := (l.filter fun r => r.name == k).map Restart.waited

/-- The waiting time before restart number `j + 1`: 100 ms, doubled each time, at most 10 s. -/
def wait (j : Nat) : Nat := min (100 * 2 ^ j) 10000

/-! ### The invariant -/

structure Inv (es : List Entry) (w : World) : Prop where
  nodup : (es.map Entry.name).Nodup
  live : ∀ p, Live w p → ∃ e ∈ es, e.pid = p
  known : ∀ e ∈ es, e.pid < w.next
  count : ∀ e ∈ es, (waits e.name w.log).length = e.restarts ∧ e.backoff = wait e.restarts
  all : ∀ k, waits k w.log = (List.range (waits k w.log).length).map wait ∧ (waits k w.log).length ≤ 10

theorem wait_succ (j : Nat) : wait (j + 1) = min (wait j * 2) 10000 := by
  unfold wait
  rw [Nat.pow_succ]
  omega

theorem exits_fields (w : World) (xs : List (Nat × Bool)) :
    (w.exits xs).next = w.next ∧ (w.exits xs).log = w.log ∧ (w.exits xs).slept = w.slept ∧
    (∀ p b, w.status p = some b → (w.exits xs).status p = some b) ∧ (∀ p, (w.exits xs).status p = none → w.status p = none) := by
  induction xs generalizing w with
  | nil => exact ⟨rfl, rfl, rfl, fun _ _ h => h, fun _ h => h⟩
  | cons x xs ih =>
    obtain ⟨a, b, c, d, e⟩ := ih (w.exit x)
    have hst : ∀ p, (w.exit x).status p = if p = x.1 ∧ w.status p = none then some x.2 else w.status p := fun _ => rfl
    refine ⟨a, b, c, ?_, ?_⟩
    · intro p b h
      refine d p b ?_
      rw [hst, if_neg (by rw [h]; simp), h]
    · intro p h
      have := e p h
      rw [hst] at this
      split_ifs at this with h1
      exact this

theorem inv_exits {es : List Entry} {w : World} (h : Inv es w) (xs : List (Nat × Bool)) : Inv es (w.exits xs) := by
  obtain ⟨a, b, _, _, e⟩ := exits_fields w xs
  refine ⟨h.nodup, ?_, ?_, ?_, ?_⟩
  · rintro p ⟨h1, h2⟩
    exact h.live p ⟨a ▸ h1, e p h2⟩
  · rw [a]; exact h.known
  · rw [b]; exact h.count
  · rw [b]; exact h.all

theorem waits_append (k : Nat) (l : List Restart) (r : Restart) :
    waits k (l ++ [r]) = waits k l ++ if r.name = k then [r.waited] else [] := by
  unfold waits
  rw [List.filter_append, List.map_append]
  by_cases h : r.name = k <;> simp [h]

/-- One entry looked at keeps the invariant. -/
theorem inv_checkEntry {pre post : List Entry} {e : Entry} {w : World} (v : Env) (h : Inv (pre ++ e :: post) w) :
    Inv (pre ++ (checkEntry v e w).1.toList ++ post) (checkEntry v e w).2 := by
  have h := inv_exits h v.exits
  unfold checkEntry
  dsimp only
  generalize w.exits v.exits = w at h ⊢
  have hdrop : ∀ ok, w.status e.pid = some ok → ∀ sl, Inv (pre ++ post) { w with slept := sl } := by
    intro ok hs sl
    refine ⟨?_, ?_, ?_, ?_, h.all⟩
    · have := h.nodup
      rw [List.map_append, List.map_cons] at this
      rw [List.map_append]
      exact this.sublist (List.Sublist.append_left (List.sublist_cons_self _ _) _)
    · intro p hp
      obtain ⟨x, hx, hxp⟩ := h.live p hp
      refine ⟨x, ?_, hxp⟩
      rcases List.mem_append.mp hx with hx | hx
      · exact List.mem_append_left _ hx
      · rcases List.mem_cons.mp hx with hx | hx
        · exfalso
          have h2 : w.status p = none := hp.2
          rw [← hxp, hx, hs] at h2
          cases h2
        · exact List.mem_append_right _ hx
    · intro x hx
      refine h.known x ?_
      rcases List.mem_append.mp hx with hx | hx
      · exact List.mem_append_left _ hx
      · exact List.mem_append_right _ (List.mem_cons_of_mem _ hx)
    · intro x hx
      refine h.count x ?_
      rcases List.mem_append.mp hx with hx | hx
      · exact List.mem_append_left _ hx
      · exact List.mem_append_right _ (List.mem_cons_of_mem _ hx)
  cases hs : w.status e.pid with
  | none =>
    dsimp only
    rw [Option.toList_some, List.append_assoc, List.singleton_append]
    exact h
  | some ok =>
    dsimp only
    by_cases hc : should e.policy ok = true ∧ e.restarts < MAX_RESTARTS
    · rw [if_pos hc]
      cases hv : v.spawnOk with
      | false =>
        simp only [Bool.false_eq_true, if_false, Option.toList_none, List.append_nil]
        exact hdrop ok hs _
      | true =>
        simp only [if_true, Option.toList_some]
        rw [List.append_assoc, List.singleton_append]
        have hmem : ∀ x : Entry, x ∈ pre ∨ x ∈ post → x ∈ pre ++ e :: post := by
          rintro x (hx | hx)
          · exact List.mem_append_left _ hx
          · exact List.mem_append_right _ (List.mem_cons_of_mem _ hx)
        have hne : ∀ x : Entry, x ∈ pre ∨ x ∈ post → x.name ≠ e.name := by
          intro x hx heq
          have := h.nodup
          rw [List.map_append, List.map_cons, List.nodup_append] at this
          obtain ⟨_, h2, h3⟩ := this
          rcases hx with hx | hx
          · exact h3 x.name (List.mem_map_of_mem hx) e.name List.mem_cons_self heq
          · exact (List.nodup_cons.mp h2).1 (heq ▸ List.mem_map_of_mem hx)
        have hsplit : ∀ (x y : Entry), x ∈ pre ++ y :: post → (x ∈ pre ∨ x ∈ post) ∨ x = y := by
          intro x y hx
          rcases List.mem_append.mp hx with hx | hx
          · exact .inl (.inl hx)
          · rcases List.mem_cons.mp hx with hx | hx
            · exact .inr hx
            · exact .inl (.inr hx)
        have he := h.count e (by simp)
        refine ⟨?_, ?_, ?_, ?_, ?_⟩
        · have := h.nodup
          rw [List.map_append, List.map_cons] at this ⊢
          exact this
        · rintro p ⟨hp1, hp2⟩
          dsimp only at hp1 hp2
          by_cases hpn : p = w.next
          · exact ⟨_, List.mem_append_right _ List.mem_cons_self, hpn.symm⟩
          · rw [if_neg hpn] at hp2
            obtain ⟨x, hx, hxp⟩ := h.live p ⟨by omega, hp2⟩
            rcases hsplit x e hx with (hx | hx) | hx
            · exact ⟨x, List.mem_append_left _ hx, hxp⟩
            · exact ⟨x, List.mem_append_right _ (List.mem_cons_of_mem _ hx), hxp⟩
            · rw [← hxp, hx, hs] at hp2
              cases hp2
        · intro x hx
          dsimp only
          rcases hsplit x _ hx with hx | hx
          · have := h.known x (hmem x hx); omega
          · rw [hx]; dsimp only; omega
        · intro x hx
          dsimp only
          rcases hsplit x _ hx with hx | hx
          · rw [waits_append, if_neg (fun hh => hne x hx hh.symm), List.append_nil]
            exact h.count x (hmem x hx)
          · rw [hx]
            dsimp only
            rw [waits_append, if_pos rfl, List.length_append, he.1]
            refine ⟨rfl, ?_⟩
            rw [wait_succ, he.2]
            rfl
        · intro k
          dsimp only
          rw [waits_append]
          by_cases hk : e.name = k
          · rw [if_pos hk]
            have ha := h.all k
            rw [← hk] at ha ⊢
            rw [List.length_append, List.length_singleton, List.range_succ, List.map_append, ← ha.1]
            refine ⟨?_, ?_⟩
            · rw [he.1, he.2]; rfl
            · rw [he.1]; exact hc.2
          · rw [if_neg hk, List.append_nil]
            exact h.all k
    · rw [if_neg hc]
      simp only [Option.toList_none, List.append_nil]
      exact hdrop ok hs w.slept

theorem inv_checkAll (v : Nat → Env) : ∀ (es : List Entry) (i : Nat) (pre : List Entry) (w : World), Inv (pre ++ es) w →
    Inv (pre ++ (checkAll v i es w).1) (checkAll v i es w).2 := by
  intro es
  induction es with
  | nil => intro i pre w h; exact h
  | cons e es ih =>
    intro i pre w h
    have h1 := inv_checkEntry (v i) h
    have h2 := ih (i + 1) _ _ h1
    unfold checkAll
    dsimp only
    rw [← List.append_assoc]
    exact h2

theorem setAlways_map (k : Nat) (es : List Entry) {α : Type} (f : Entry → α) (hf : ∀ e p, f { e with policy := p } = f e) :
    (setAlways k es).map f = es.map f := by
  induction es with
  | nil => rfl
  | cons e es ih =>
    unfold setAlways
    split_ifs
    · rw [List.map_cons, List.map_cons, hf]
    · rw [List.map_cons, List.map_cons, ih]

/-- The parts of an entry the invariant speaks about. -/
theorem inv_of_map {es es' : List Entry} {w w' : World}
    (hm : es'.map (fun e => (e.name, e.restarts, e.backoff, e.pid)) = es.map (fun e => (e.name, e.restarts, e.backoff, e.pid)))
    (h1 : w'.status = w.status) (h2 : w'.next = w.next) (h3 : w'.log = w.log) (h : Inv es w) : Inv es' w' := by
  have hto : ∀ e ∈ es', ∃ x ∈ es, x.name = e.name ∧ x.restarts = e.restarts ∧ x.backoff = e.backoff ∧ x.pid = e.pid := by
    intro e he
    have : (fun e : Entry => (e.name, e.restarts, e.backoff, e.pid)) e ∈ es.map (fun e => (e.name, e.restarts, e.backoff, e.pid)) := by
      rw [← hm]; exact List.mem_map_of_mem he
    obtain ⟨x, hx, e1⟩ := List.mem_map.mp this
    simp only [Prod.mk.injEq] at e1
    exact ⟨x, hx, e1⟩
  have hfrom : ∀ e ∈ es, ∃ x ∈ es', x.pid = e.pid := by
    intro e he
    have : (fun e : Entry => (e.name, e.restarts, e.backoff, e.pid)) e ∈ es'.map (fun e => (e.name, e.restarts, e.backoff, e.pid)) := by
      rw [hm]; exact List.mem_map_of_mem he
    obtain ⟨x, hx, e1⟩ := List.mem_map.mp this
    simp only [Prod.mk.injEq] at e1
    exact ⟨x, hx, e1.2.2.2⟩
  refine ⟨?_, ?_, ?_, ?_, ?_⟩
  · have : es'.map Entry.name = es.map Entry.name := by
      have := congrArg (List.map Prod.fst) hm
      simpa [List.map_map, Function.comp_def] using this
    rw [this]; exact h.nodup
  · rintro p ⟨a, b⟩
    rw [h2] at a
    rw [h1] at b
    obtain ⟨e, he, hp⟩ := h.live p ⟨a, b⟩
    obtain ⟨x, hx, hxp⟩ := hfrom e he
    exact ⟨x, hx, hxp.trans hp⟩
  · intro e he
    obtain ⟨x, hx, _, _, _, d⟩ := hto e he
    rw [h2, ← d]; exact h.known x hx
  · intro e he
    obtain ⟨x, hx, a, b, c, _⟩ := hto e he
    rw [h3, ← a, ← b, ← c]; exact h.count x hx
  · rw [h3]; exact h.all

theorem inv_applyCmd {s : St} (c : Cmd) (h : Inv s.entries s.w) : Inv (applyCmd s c).entries (applyCmd s c).w := by
  cases c with
  | stop k =>
    unfold applyCmd
    dsimp only
    split_ifs
    · split
      · exact inv_of_map (es := s.entries) (w := s.w) rfl rfl rfl rfl h
      · exact h
    · exact h
  | restart k =>
    unfold applyCmd
    dsimp only
    split
    · exact inv_of_map (w := s.w) (setAlways_map k s.entries _ fun _ _ => rfl) rfl rfl rfl h
    · exact h
  | stopAll => exact h

theorem inv_cmds (cs : List Cmd) : ∀ s : St, Inv s.entries s.w → Inv (cs.foldl applyCmd s).entries (cs.foldl applyCmd s).w := by
  induction cs with
  | nil => intro s h; exact h
  | cons c cs ih => intro s h; exact ih _ (inv_applyCmd c h)

theorem inv_iter {s : St} (i : Iter) (h : Inv s.entries s.w) : Inv (iter s i).entries (iter s i).w := by
  unfold iter
  by_cases h1 : s.running = false
  · rw [if_pos h1]; exact h
  · have hc := inv_cmds i.cmds s h
    rw [if_neg h1]
    dsimp only
    by_cases h2 : i.estop.isSome = true
    · rw [if_pos h2]; exact hc
    · rw [if_neg h2]; exact inv_checkAll i.env _ 0 [] _ hc

theorem inv_run (is : List Iter) : ∀ s : St, Inv s.entries s.w → Inv (run s is).entries (run s is).w := by
  induction is with
  | nil => intro s h; exact h
  | cons i is ih => intro s h; exact ih _ (inv_iter i h)

theorem entriesOf_names (pol : Nat → Policy) : ∀ (ns : List Node) (p : Nat), (entriesOf pol p ns).map Entry.name = ns.map Node.name := by
  intro ns
  induction ns with
  | nil => intro p; rfl
  | cons n ns ih => intro p; simp only [entriesOf, List.map_cons, ih]

theorem entriesOf_length (pol : Nat → Policy) (ns : List Node) (p : Nat) : (entriesOf pol p ns).length = ns.length := by
  have := congrArg List.length (entriesOf_names pol ns p)
  simpa using this

theorem entriesOf_mem (pol : Nat → Policy) : ∀ (ns : List Node) (p : Nat),
    (∀ e ∈ entriesOf pol p ns, e.restarts = 0 ∧ e.backoff = 100 ∧ e.policy = pol e.name ∧ p ≤ e.pid ∧ e.pid < p + ns.length) ∧
    (∀ q, p ≤ q → q < p + ns.length → ∃ e ∈ entriesOf pol p ns, e.pid = q) := by
  intro ns
  induction ns with
  | nil => intro p; exact ⟨by simp [entriesOf], by intro q h1 h2; simp at h2; omega⟩
  | cons n ns ih =>
    intro p
    obtain ⟨a, b⟩ := ih (p + 1)
    constructor
    · intro e he
      rcases List.mem_cons.mp he with he | he
      · rw [he]; simp [INITIAL_BACKOFF]
      · obtain ⟨h1, h2, h3, h4, h5⟩ := a e he
        rw [List.length_cons]
        exact ⟨h1, h2, h3, by omega, by omega⟩
    · intro q h1 h2
      rw [List.length_cons] at h2
      by_cases h : q = p
      · exact ⟨_, List.mem_cons_self, h.symm⟩
      · obtain ⟨e, he, hp⟩ := b q (by omega) (by omega)
        exact ⟨e, List.mem_cons_of_mem _ he, hp⟩

theorem inv_init (pol : Nat → Policy) (ns : List Node) (hd : (ns.map Node.name).Nodup) :
    Inv (init pol ns).entries (init pol ns).w := by
  obtain ⟨a, b⟩ := entriesOf_mem pol ns 0
  have hl := entriesOf_length pol ns 0
  refine ⟨by rw [show (init pol ns).entries = entriesOf pol 0 ns from rfl, entriesOf_names]; exact hd, ?_, ?_, ?_, ?_⟩
  · rintro p ⟨h1, _⟩
    have h1 : p < (entriesOf pol 0 ns).length := h1
    exact b p (by omega) (by omega)
  · intro e he
    show e.pid < (entriesOf pol 0 ns).length
    have := a e he
    omega
  · intro e he
    obtain ⟨h1, h2, _⟩ := a e he
    exact ⟨h1.symm, by rw [h2, h1]; decide⟩
  · intro k
    exact ⟨rfl, Nat.zero_le _⟩

/-! ### Theorems -/

/-- What `horus launch` hands to the loop has distinct names, whatever the file. -/
theorem started_distinct {spawns : Node → Bool} {nodes started : List Node} (h : launch spawns nodes = some (.up started)) :
    (started.map Node.name).Nodup := by
  unfold launch at h
  cases hs : sort nodes with
  | cycle => rw [hs] at h; cases h
  | fuel => rw [hs] at h; cases h
  | ok r =>
    rw [hs] at h
    have := startAll_spec spawns r [] (by intro p n q e; simp at e)
    rw [Option.some.inj h] at this
    rw [this.1, List.nil_append]
    exact (sort_ok hs).1.nodup

/-- **Nothing survives the shutdown.** However the loop went and whatever the processes do with the signals, after
the shutdown no process that `horus launch` started is running. -/
theorem shutdown_leaves_none {spawns : Node → Bool} {nodes started : List Node} (h : launch spawns nodes = some (.up started))
    (pol : Nat → Policy) (is : List Iter) (x1 x2 : List (Nat × Bool)) (p : Nat) :
    ¬ Live (shutdown x1 x2 (run (init pol started) is)) p := by
  have hi := inv_run is _ (inv_init pol started (started_distinct h))
  generalize run (init pol started) is = s at hi
  have h1 := inv_exits hi x1
  have h2 : Inv s.entries (termAll s.entries (s.w.exits x1)) := inv_of_map (w := s.w.exits x1) rfl rfl rfl rfl h1
  have h3 := inv_exits h2 x2
  unfold shutdown
  generalize (termAll s.entries (s.w.exits x1)).exits x2 = w at h3
  rintro ⟨a, b⟩
  unfold killAll at a b
  dsimp only at a b
  split_ifs at b with hc
  exact hc ⟨b, h3.live p ⟨a, b⟩⟩

/-- **Asked before killed.** A process that still runs after the first grace period has been sent SIGTERM before anything is killed. -/
theorem asked_before_killed {spawns : Node → Bool} {nodes started : List Node} (h : launch spawns nodes = some (.up started))
    (pol : Nat → Policy) (is : List Iter) (x1 x2 : List (Nat × Bool)) (p : Nat) (hp : Live ((run (init pol started) is).w.exits x1) p) :
    p ∈ (shutdown x1 x2 (run (init pol started) is)).termed := by
  have hi := inv_run is _ (inv_init pol started (started_distinct h))
  generalize run (init pol started) is = s at hi hp
  obtain ⟨e, he, hep⟩ := (inv_exits hi x1).live p hp
  have ht : ∀ (xs : List (Nat × Bool)) (w : World), (w.exits xs).termed = w.termed := by
    intro xs
    induction xs with
    | nil => intro w; rfl
    | cons x xs ih => intro w; exact ih (w.exit x)
  show p ∈ ((termAll s.entries (s.w.exits x1)).exits x2).termed
  rw [ht]
  refine List.mem_append_right _ (List.mem_map.2 ⟨e, List.mem_filter.2 ⟨he, ?_⟩, hep⟩)
  rw [hep, hp.2]
  rfl

/-- **While the loop runs, every running process is known to it**, so that it is stopped or restarted in time. -/
theorem running_known {spawns : Node → Bool} {nodes started : List Node} (h : launch spawns nodes = some (.up started))
    (pol : Nat → Policy) (is : List Iter) (p : Nat) (hp : Live (run (init pol started) is).w p) :
    ∃ e ∈ (run (init pol started) is).entries, e.pid = p :=
  (inv_run is _ (inv_init pol started (started_distinct h))).live p hp

/-- **Restarts are bounded and spaced out.** A node is restarted at most 10 times in a launch, the first time after
100 ms, then after twice the last time, at most 10 s. -/
theorem restarts_bounded {spawns : Node → Bool} {nodes started : List Node} (h : launch spawns nodes = some (.up started))
    (pol : Nat → Policy) (is : List Iter) (k : Nat) :
    ∃ n ≤ 10, waits k (run (init pol started) is).w.log = (List.range n).map wait :=
  ⟨_, ((inv_run is _ (inv_init pol started (started_distinct h))).all k).2, ((inv_run is _ (inv_init pol started (started_distinct h))).all k).1⟩

/-! ### The restart policy -/

structure PInv (k : Nat) (p : Policy) (es : List Entry) (w : World) : Prop where
  pol : ∀ e ∈ es, e.name = k → e.policy = p
  log : ∀ r ∈ w.log, r.name = k → Allowed p r.prevOk

theorem should_allowed (p : Policy) (ok : Bool) : should p ok = true ↔ Allowed p ok := by
  cases p <;> cases ok <;> simp [should, Allowed]

theorem pinv_checkAll (k : Nat) (p : Policy) (v : Nat → Env) : ∀ (es : List Entry) (i : Nat) (w : World), PInv k p es w →
    PInv k p (checkAll v i es w).1 (checkAll v i es w).2 := by
  intro es
  induction es with
  | nil => intro i w h; exact h
  | cons e es ih =>
    intro i w h
    have hone : (∀ x ∈ (checkEntry (v i) e w).1, x.name = k → x.policy = p) ∧ ∀ r ∈ (checkEntry (v i) e w).2.log, r.name = k → Allowed p r.prevOk := by
      have hlog : ∀ r ∈ (w.exits (v i).exits).log, r.name = k → Allowed p r.prevOk := by
        rw [(exits_fields w _).2.1]; exact h.log
      have hp := h.pol e List.mem_cons_self
      unfold checkEntry
      dsimp only
      generalize w.exits (v i).exits = w at hlog
      cases hs : w.status e.pid with
      | none => exact ⟨by simpa using hp, hlog⟩
      | some ok =>
        dsimp only
        by_cases hc : should e.policy ok = true ∧ e.restarts < MAX_RESTARTS
        · rw [if_pos hc]
          cases (v i).spawnOk with
          | false => exact ⟨by simp, hlog⟩
          | true =>
            simp only [if_true]
            refine ⟨by simpa using hp, ?_⟩
            intro r hr hk
            rcases List.mem_append.mp hr with hr | hr
            · exact hlog r hr hk
            · rw [List.mem_singleton.mp hr] at hk ⊢
              rw [← hp hk]
              exact (should_allowed _ _).mp hc.1
        · rw [if_neg hc]; exact ⟨by simp, hlog⟩
    have h2 := ih (i + 1) (checkEntry (v i) e w).2 ⟨fun x hx => h.pol x (List.mem_cons_of_mem _ hx), hone.2⟩
    unfold checkAll
    dsimp only
    refine ⟨?_, h2.log⟩
    intro x hx
    rcases List.mem_append.mp hx with hx | hx
    · exact hone.1 x (by simpa using hx)
    · exact h2.pol x hx

theorem setAlways_other (k j : Nat) (hjk : j ≠ k) : ∀ (es : List Entry) (x : Entry), x ∈ setAlways j es → x.name = k → x ∈ es := by
  intro es
  induction es with
  | nil => intro x h _; exact h
  | cons e es ih =>
    intro x hx hk
    unfold setAlways at hx
    split_ifs at hx with h1
    · rcases List.mem_cons.mp hx with hx | hx
      · rw [hx] at hk; exact absurd (h1.symm.trans hk) hjk
      · exact List.mem_cons_of_mem _ hx
    · rcases List.mem_cons.mp hx with hx | hx
      · rw [hx]; exact List.mem_cons_self
      · exact List.mem_cons_of_mem _ (ih x hx hk)

theorem pinv_cmds (k : Nat) (p : Policy) (cs : List Cmd) : ∀ s : St, Cmd.restart k ∉ cs → PInv k p s.entries s.w →
    PInv k p (cs.foldl applyCmd s).entries (cs.foldl applyCmd s).w := by
  induction cs with
  | nil => intro s _ h; exact h
  | cons c cs ih =>
    intro s hc h
    rw [List.mem_cons, not_or] at hc
    refine ih _ hc.2 ?_
    cases c with
    | stop j =>
      unfold applyCmd
      dsimp only
      split_ifs
      · split
        · exact ⟨h.pol, h.log⟩
        · exact h
      · exact h
    | restart j =>
      unfold applyCmd
      dsimp only
      split
      · refine ⟨fun e he hk => h.pol e (setAlways_other k j (fun e => hc.1 (e ▸ rfl)) _ e he hk) hk, h.log⟩
      · exact h
    | stopAll => exact ⟨h.pol, h.log⟩

/-- **The restart policy is kept** as long as nobody asks for a restart of the node: "never" is never restarted,
"on-failure" only after it failed. -/
theorem policy_kept_partial (pol : Nat → Policy) (started : List Node) (is : List Iter) (k : Nat)
    (hk : ∀ i ∈ is, Cmd.restart k ∉ i.cmds) : ∀ r ∈ (run (init pol started) is).w.log, r.name = k → Allowed (pol k) r.prevOk := by
  have h0 : PInv k (pol k) (init pol started).entries (init pol started).w :=
    ⟨fun e he hn => by rw [((entriesOf_mem pol started 0).1 e he).2.2.1, hn], by intro r hr; exact absurd hr (by simp [init])⟩
  generalize init pol started = s at h0
  have : ∀ (is : List Iter), (∀ i ∈ is, Cmd.restart k ∉ i.cmds) → ∀ s, PInv k (pol k) s.entries s.w → PInv k (pol k) (run s is).entries (run s is).w := by
    intro is
    induction is with
    | nil => intro _ s h; exact h
    | cons i is ih =>
      intro hk s h
      refine ih (fun x hx => hk x (List.mem_cons_of_mem _ hx)) _ ?_
      unfold iter
      by_cases h1 : s.running = false
      · rw [if_pos h1]; exact h
      · have hc := pinv_cmds k (pol k) i.cmds s (hk i List.mem_cons_self) h
        rw [if_neg h1]
        dsimp only
        by_cases h2 : i.estop.isSome = true
        · rw [if_pos h2]; exact ⟨hc.pol, hc.log⟩
        · rw [if_neg h2]; exact pinv_checkAll k (pol k) i.env _ 0 _ hc
  exact (this is hk s h0).log

/-! ### One pass -/

theorem checkEntry_world (v : Env) (e : Entry) (w : World) :
    w.next ≤ (checkEntry v e w).2.next ∧ ∀ p b, p < w.next → w.status p = some b → (checkEntry v e w).2.status p = some b := by
  obtain ⟨a, _, _, d, _⟩ := exits_fields w v.exits
  have hd : ∀ p b, p < (w.exits v.exits).next → w.status p = some b → (w.exits v.exits).status p = some b := fun p b _ => d p b
  rw [← a]
  unfold checkEntry
  dsimp only
  generalize w.exits v.exits = w1 at hd
  split
  · exact ⟨Nat.le_refl _, hd⟩
  · split_ifs
    · refine ⟨Nat.le_succ _, fun p b hp hb => ?_⟩
      dsimp only
      rw [if_neg (by omega)]
      exact hd p b hp hb
    · exact ⟨Nat.le_refl _, hd⟩
    · exact ⟨Nat.le_refl _, hd⟩

theorem checkAll_world (v : Nat → Env) : ∀ (es : List Entry) (i : Nat) (w : World),
    w.next ≤ (checkAll v i es w).2.next ∧ ∀ p b, p < w.next → w.status p = some b → (checkAll v i es w).2.status p = some b := by
  intro es
  induction es with
  | nil => intro i w; exact ⟨Nat.le_refl _, fun _ _ _ h => h⟩
  | cons e es ih =>
    intro i w
    obtain ⟨a, b⟩ := checkEntry_world (v i) e w
    obtain ⟨c, d⟩ := ih (i + 1) (checkEntry (v i) e w).2
    exact ⟨Nat.le_trans a c, fun p x hp hx => d p x (by omega) (b p x hp hx)⟩

theorem checkAll_names (v : Nat → Env) : ∀ (es : List Entry) (i : Nat) (w : World) (x : Entry), x ∈ (checkAll v i es w).1 →
    ∃ e ∈ es, e.name = x.name ∧ e.policy = x.policy := by
  intro es
  induction es with
  | nil => intro i w x h; simp [checkAll] at h
  | cons e es ih =>
    intro i w x hx
    unfold checkAll at hx
    dsimp only at hx
    rcases List.mem_append.mp hx with hx | hx
    · refine ⟨e, List.mem_cons_self, ?_⟩
      unfold checkEntry at hx
      dsimp only at hx
      split at hx
      · simp only [Option.toList_some, List.mem_singleton] at hx
        rw [hx]; exact ⟨rfl, rfl⟩
      · split_ifs at hx
        · simp only [Option.toList_some, List.mem_singleton] at hx
          rw [hx]; exact ⟨rfl, rfl⟩
        · simp at hx
        · simp at hx
    · obtain ⟨y, hy, h⟩ := ih _ _ x hx
      exact ⟨y, List.mem_cons_of_mem _ hy, h⟩

/-- What one pass does to one node. -/
theorem checkAll_one (v : Nat → Env) (hv : ∀ i, (v i).spawnOk = true) : ∀ (es : List Entry) (i : Nat) (w : World) (e : Entry) (ok : Bool),
    (es.map Entry.name).Nodup → e ∈ es → e.pid < w.next → w.status e.pid = some ok →
    (should e.policy ok = true → e.restarts < 10 →
      ∃ x ∈ (checkAll v i es w).1, x.name = e.name ∧ w.next ≤ x.pid ∧ x.restarts = e.restarts + 1) ∧
    (¬ (should e.policy ok = true ∧ e.restarts < 10) → ∀ x ∈ (checkAll v i es w).1, x.name ≠ e.name) := by
  intro es
  induction es with
  | nil => intro i w e ok _ h; simp at h
  | cons a es ih =>
    intro i w e ok hd he hp hs
    rw [List.map_cons, List.nodup_cons] at hd
    unfold checkAll
    dsimp only
    rcases List.mem_cons.mp he with he | he
    · subst he
      obtain ⟨hn, _, _, hst, _⟩ := exits_fields w (v i).exits
      have hs' := hst _ _ hs
      constructor
      · intro h1 h2
        have hc : should e.policy ok = true ∧ e.restarts < MAX_RESTARTS := ⟨h1, h2⟩
        refine ⟨{ e with restarts := e.restarts + 1, backoff := min (e.backoff * 2) MAX_BACKOFF, pid := (w.exits (v i).exits).next }, ?_, rfl, ?_, rfl⟩
        · refine List.mem_append_left _ ?_
          unfold checkEntry
          dsimp only
          rw [hs']
          dsimp only
          rw [if_pos hc, if_pos (hv i)]
          simp
        · dsimp only
          exact Nat.le_of_eq hn.symm
      · intro h x hx
        rcases List.mem_append.mp hx with hx | hx
        · unfold checkEntry at hx
          dsimp only at hx
          rw [hs'] at hx
          dsimp only at hx
          rw [if_neg (show ¬ (should e.policy ok = true ∧ e.restarts < MAX_RESTARTS) from h)] at hx
          simp at hx
        · obtain ⟨y, hy, hyn, _⟩ := checkAll_names v es _ _ x hx
          intro hh
          exact hd.1 (by rw [← hh, ← hyn]; exact List.mem_map_of_mem hy)
    · obtain ⟨h1, h2⟩ := checkEntry_world (v i) a w
      obtain ⟨g1, g2⟩ := ih (i + 1) (checkEntry (v i) a w).2 e ok hd.2 he (by omega) (h2 _ _ hp hs)
      constructor
      · intro c1 c2
        obtain ⟨x, hx, e1, e2, e3⟩ := g1 c1 c2
        exact ⟨x, List.mem_append_right _ hx, e1, by omega, e3⟩
      · intro hc x hx
        rcases List.mem_append.mp hx with hx | hx
        · have : x ∈ (checkAll v i [a] w).1 := by
            unfold checkAll
            dsimp only
            exact List.mem_append_left _ hx
          obtain ⟨y, hy, hyn, _⟩ := checkAll_names v [a] _ _ x this
          rw [List.mem_singleton.mp hy] at hyn
          intro hh
          exact hd.1 (by rw [hyn, hh]; exact List.mem_map_of_mem he)
        · exact g2 hc x hx

/-- **A process that ended is dealt with in the next pass.** If its policy asks for it, fewer than 10 restarts were
made and spawning works, a new process of the node is running from now on; otherwise the node is given up. -/
theorem ended_is_handled {spawns : Node → Bool} {nodes started : List Node} (h : launch spawns nodes = some (.up started))
    (pol : Nat → Policy) (is : List Iter) (i : Iter) (hi : i.cmds = [] ∧ i.estop = none) (hv : ∀ n, (i.env n).spawnOk = true)
    (s : St) (hs : s = run (init pol started) is) (hr : s.running = true) (e : Entry) (he : e ∈ s.entries) (ok : Bool)
    (hok : s.w.status e.pid = some ok) :
    (Allowed e.policy ok → e.restarts < 10 →
      ∃ x ∈ (iter s i).entries, x.name = e.name ∧ s.w.next ≤ x.pid ∧ x.restarts = e.restarts + 1) ∧
    (¬ (Allowed e.policy ok ∧ e.restarts < 10) → ∀ x ∈ (iter s i).entries, x.name ≠ e.name) := by
  have hinv : Inv s.entries s.w := hs ▸ inv_run is _ (inv_init pol started (started_distinct h))
  have hent : (iter s i).entries = (checkAll i.env 0 s.entries s.w).1 := by
    unfold iter
    rw [if_neg (by rw [hr]; simp), hi.1, hi.2]
    simp
  rw [hent, ← should_allowed]
  exact checkAll_one i.env hv s.entries 0 s.w e ok hinv.nodup he (hinv.known e he) hok

/-- **An emergency stop ends the loop at once**: no process is restarted any more, and what follows is the shutdown. -/
theorem estop_ends_loop (s : St) (i : Iter) (more : List Iter) (b : Bool) (he : i.estop = some b) (hr : s.running = true) :
    (run s (i :: more)).running = false ∧ (run s (i :: more)).w.log = s.w.log := by
  have hcl : ∀ (cs : List Cmd) (s : St), (cs.foldl applyCmd s).w.log = s.w.log := by
    intro cs
    induction cs with
    | nil => intro s; rfl
    | cons c cs ih =>
      intro s
      rw [List.foldl_cons, ih]
      cases c with
      | stop k =>
        unfold applyCmd
        dsimp only
        split_ifs
        · split <;> rfl
        · rfl
      | restart k =>
        unfold applyCmd
        dsimp only
        split <;> rfl
      | stopAll => rfl
  have hdone : ∀ (is : List Iter) (s : St), s.running = false → run s is = s := by
    intro is
    induction is with
    | nil => intro s _; rfl
    | cons i is ih =>
      intro s h
      have : iter s i = s := by unfold iter; rw [if_pos h]
      unfold run at ih ⊢
      rw [List.foldl_cons, this]
      exact ih s h
  have h1 : iter s i = { i.cmds.foldl applyCmd s with running := false } := by
    unfold iter
    rw [if_neg (by rw [hr]; simp)]
    dsimp only
    rw [he]
    rfl
  have h2 : run s (i :: more) = run (iter s i) more := rfl
  rw [h2, h1, hdone more _ rfl]
  exact ⟨rfl, hcl _ _⟩

/-- After StopAll the loop ends with the pass. -/
theorem stopAll_ends_loop (s : St) (i : Iter) (hr : s.running = true) (hc : Cmd.stopAll ∈ i.cmds) : (iter s i).running = false := by
  have hcl : ∀ (cs : List Cmd) (s : St), (s.running = false ∨ Cmd.stopAll ∈ cs) → (cs.foldl applyCmd s).running = false := by
    intro cs
    induction cs with
    | nil =>
      intro s h
      rcases h with h | h
      · exact h
      · simp at h
    | cons c cs ih =>
      intro s h
      rw [List.foldl_cons]
      refine ih _ ?_
      cases c with
      | stop k =>
        rcases h with h | h
        · left
          unfold applyCmd
          dsimp only
          split_ifs
          · split <;> exact h
          · exact h
        · right; simpa using h
      | restart k =>
        rcases h with h | h
        · left
          unfold applyCmd
          dsimp only
          split <;> exact h
        · right; simpa using h
      | stopAll => left; rfl
  have h := hcl i.cmds s (.inr hc)
  unfold iter
  rw [if_neg (by rw [hr]; simp)]
  dsimp only
  split_ifs
  · rfl
  · dsimp only
    rw [h]; rfl

/-- **Ctrl-C ends the loop** after the pass in which it comes. -/
theorem interrupt_ends_loop (s : St) (i : Iter) (hi : i.interrupt = true) : (iter s i).running = false := by
  unfold iter
  split_ifs with hr h2
  · exact hr
  · rfl
  · dsimp only
    rw [hi]
    simp

/-! ### What goes wrong -/

def calm : Nat → Env := fun _ => ⟨[], true⟩
/-- Before the first entry is looked at, process `p` ends. -/
def ends (p : Nat) (ok : Bool) : Nat → Env := fun i => if i = 0 then ⟨[(p, ok)], true⟩ else ⟨[], true⟩
def quiet : Iter := ⟨[], none, calm, false⟩

/-- **Stopping a node does not stop it.** StopNode sends SIGTERM; the process then ends, and a node with the policy
"always" is started again in the same pass, however it ended; with "on-failure" it is if it ended by the signal. -/
theorem stopped_node_restarts :
    let s := init (fun _ => .always) [⟨7, [], 0⟩]
    let t := run s [⟨[.stop 7], none, ends 0 true, false⟩]
    t.w.termed = [0] ∧ t.entries.map Entry.pid = [1] ∧ t.w.status 1 = none ∧ t.running = true ∧
    (let f := run (init (fun _ => .onFailure) [⟨7, [], 0⟩]) [⟨[.stop 7], none, ends 0 false, false⟩]
     f.entries.map Entry.pid = [1] ∧ f.running = true) := by decide

/-- **A restart asked for once changes the policy for good**: a "never" node that was restarted by command is started
again after it has completed its work. -/
theorem restart_changes_policy :
    let s := run (init (fun _ => .never) [⟨7, [], 0⟩]) [⟨[.restart 7], none, ends 0 false, false⟩, ⟨[], none, ends 1 true, false⟩]
    s.entries.map Entry.pid = [2] ∧ s.w.log.map Restart.prevOk = [false, true] := by decide

/-- **A restart command can end the node**: commanded restarts count against the limit, so after ten restarts a
RestartNode stops a healthy node for good. -/
theorem restart_command_gives_up :
    let crashes := [0, 2, 3, 4, 5, 6, 7, 8, 9, 10].map fun p => (⟨[], none, ends p false, false⟩ : Iter)
    let s := run (init (fun _ => .onFailure) [⟨7, [], 0⟩, ⟨8, [], 0⟩]) crashes
    let t := iter s ⟨[.restart 7], none, ends 11 true, false⟩
    s.entries.map (fun e => (e.name, e.pid)) = [(7, 11), (8, 1)] ∧ s.w.status 11 = none ∧ t.entries.map Entry.name = [8] ∧ t.running = true := by decide +kernel

/-- **The session file names the wrong process.** When a node has completed, the rows are filled from the shorter list
by position: the completed node is shown with another node's process, as running. -/
theorem session_wrong_process :
    let s := run (init (fun _ => .never) [⟨7, [], 0⟩, ⟨8, [], 0⟩]) [⟨[], none, ends 0 true, false⟩]
    s.entries.map (fun e => (e.name, e.pid)) = [(8, 1)] ∧ s.session.map (fun r => (r.name, r.pid)) = [(7, 1), (8, 1)] := by decide

/-- The rows are right as long as no node has been given up. -/
theorem session_right_partial {rs : List Row} {es : List Entry} (h : rs.map Row.name = es.map Entry.name) :
    (updateRows rs es).map (fun r => (r.name, r.pid, r.restarts)) = es.map fun e => (e.name, e.pid, e.restarts) := by
  induction rs generalizing es with
  | nil =>
    cases es with
    | nil => rfl
    | cons e es => simp at h
  | cons r rs ih =>
    cases es with
    | nil => simp at h
    | cons e es =>
      simp only [List.map_cons, List.cons.injEq] at h
      simp only [updateRows, List.map_cons, ih h.2, h.1]

/-- **Releasing an emergency stop stops everything.** Only the presence of a message is tested, so the message that
says the stop is over shuts the robot down just like the one that says it is engaged. -/
theorem release_shuts_down (s : St) (i : Iter) : iter s { i with estop := some false } = iter s { i with estop := some true } := rfl

/-- **StopAll still restarts.** The flag is read only at the head of the loop, so a node that ended is waited for and
started again in the pass that handles StopAll, to be shut down right after. -/
theorem stopAll_restarts_first :
    let s := run (init (fun _ => .always) [⟨7, [], 0⟩]) [⟨[.stopAll], none, ends 0 false, false⟩]
    s.w.log.length = 1 ∧ s.running = false := by decide

/-- **An emergency stop waits for the back-off of every crashed node.** The loop sleeps inside the pass; with `n` nodes
that have crashed seven times already, one pass sleeps `n` times 10 s before the e-stop topic is read again. -/
theorem estop_waits_for_backoff (n : Nat) (w : World) (i : Nat) (hw : ∀ p < n, w.status p = some false) (hn : n ≤ w.next) :
    (checkAll calm i ((List.range n).map fun k => ⟨k, .onFailure, 7, MAX_BACKOFF, k⟩) w).2.slept = w.slept + n * 10000 := by
  have : ∀ (ps : List Nat) (i : Nat) (w : World), (∀ p ∈ ps, p < w.next ∧ w.status p = some false) →
      (checkAll calm i (ps.map fun k => ⟨k, .onFailure, 7, MAX_BACKOFF, k⟩) w).2.slept = w.slept + ps.length * 10000 := by
    intro ps
    induction ps with
    | nil => intro i w _; simp [checkAll]
    | cons p ps ih =>
      intro i w h
      have hp := h p List.mem_cons_self
      rw [List.map_cons]
      unfold checkAll
      dsimp only
      rw [ih]
      · have : (checkEntry (calm i) ⟨p, .onFailure, 7, MAX_BACKOFF, p⟩ w).2.slept = w.slept + 10000 := by
          unfold checkEntry
          dsimp only [calm, World.exits, List.foldl_nil]
          rw [hp.2]
          dsimp only
          rw [if_pos (by decide)]
          simp [MAX_BACKOFF]
        rw [this, List.length_cons]
        omega
      · intro q hq
        obtain ⟨a, b⟩ := checkEntry_world (calm i) ⟨p, .onFailure, 7, MAX_BACKOFF, p⟩ w
        have := h q (List.mem_cons_of_mem _ hq)
        exact ⟨by omega, b q _ this.1 this.2⟩
  have h := this (List.range n) i w (by
    intro p hp
    have := List.mem_range.mp hp
    exact ⟨by omega, hw p this⟩)
  rw [List.length_range] at h
  exact h

/-- And never more than 10 s per node. -/
theorem pass_sleep_bounded {spawns : Node → Bool} {nodes started : List Node} (h : launch spawns nodes = some (.up started))
    (pol : Nat → Policy) (is : List Iter) (v : Nat → Env) (s : St) (hs : s = run (init pol started) is) :
    (checkAll v 0 s.entries s.w).2.slept ≤ s.w.slept + s.entries.length * 10000 := by
  have hinv : Inv s.entries s.w := hs ▸ inv_run is _ (inv_init pol started (started_distinct h))
  have hb : ∀ e ∈ s.entries, e.backoff ≤ 10000 := by
    intro e he
    rw [(hinv.count e he).2]
    unfold wait
    omega
  generalize s.entries = es at hb
  generalize s.w = w
  have : ∀ (es : List Entry) (i : Nat) (w : World), (∀ e ∈ es, e.backoff ≤ 10000) → (checkAll v i es w).2.slept ≤ w.slept + es.length * 10000 := by
    intro es
    induction es with
    | nil => intro i w _; simp [checkAll]
    | cons e es ih =>
      intro i w hb
      have h1 := ih (i + 1) (checkEntry (v i) e w).2 fun x hx => hb x (List.mem_cons_of_mem _ hx)
      have h2 : (checkEntry (v i) e w).2.slept ≤ w.slept + 10000 := by
        have he := hb e List.mem_cons_self
        have hx := (exits_fields w (v i).exits).2.2.1
        unfold checkEntry
        dsimp only
        split
        · rw [hx]; omega
        · split_ifs
          · dsimp only; rw [hx]; omega
          · dsimp only; rw [hx]; omega
          · rw [hx]; omega
      unfold checkAll
      dsimp only
      rw [List.length_cons]
      omega
  exact this es 0 w hb

/-! ### Non-vacuity -/

example : launch (fun _ => true) [⟨7, [], 0⟩, ⟨8, [7], 0⟩] = some (.up [⟨7, [], 0⟩, ⟨8, [7], 0⟩]) := by decide

/-- A crash, a restart after 100 ms, a second one after 200 ms; the other node keeps running. -/
example :
    let s := run (init (fun k => if k = 7 then .onFailure else .never) [⟨7, [], 0⟩, ⟨8, [7], 0⟩]) [quiet, ⟨[], none, ends 0 false, false⟩, ⟨[], none, ends 2 false, false⟩]
    s.entries.map (fun e => (e.name, e.pid, e.restarts)) = [(7, 3, 2), (8, 1, 0)] ∧ waits 7 s.w.log = [100, 200] ∧ s.running = true := by decide

example : (List.range 10).map wait = [100, 200, 400, 800, 1600, 3200, 6400, 10000, 10000, 10000] := by decide

end Horus.Launch.Watch
