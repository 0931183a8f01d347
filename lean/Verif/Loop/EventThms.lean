import Verif.Loop.Event

/-!
C109 event-driven nodes, C110 stale subscriptions.
-/

namespace Horus.Event

/-! ### C109 -/

/-- Does this step notify the watcher registered under `node` and `topic`? -/
def hits (node topic : String) : Act → Bool
  | .publish t .send _ => t == topic || t == node
  | .notify n => n == topic || n == node
  | _ => false

/-- A step that neither stops the scheduler nor registers another node under one of the two names. -/
def Quiet (node topic : String) (a : Act) : Prop :=
  (∀ n t, a = .start n t → n ≠ node ∧ n ≠ topic ∧ t ≠ node ∧ t ≠ topic) ∧
    (∀ w o c, a = .poll w o c → c = none)

/-- Invariant of watcher `w`, registered as (`node`, `topic`), after `k` notifications. -/
structure Owns (s : Sys) (w k : Nat) (node topic : String) : Prop where
  running : s.running = true
  lt : w < s.ws.length
  regN : s.reg.get node = some w
  regT : s.reg.get topic = some w
  reg : ∀ n v, s.reg.get n = some v → v < s.ws.length
  only : ∀ n, s.reg.get n = some w → n = node ∨ n = topic
  gen : s.gen w = k
  tick : ∃ x, s.ws[w]? = some x ∧ x.ticks = x.seen ∧ x.seen ≤ k

theorem notify_owns {s : Sys} {w k node topic} (h : Owns s w k node topic) (name) :
    Owns (s.notify name) w (k + if (name == topic || name == node) = true then 1 else 0) node topic := by
  unfold Sys.notify
  cases hg : s.reg.get name with
  | none =>
    have hne : ¬ (name == topic || name == node) = true := by
      intro c
      simp only [Bool.or_eq_true, beq_iff_eq] at c
      rcases c with rfl | rfl
      · rw [h.regT] at hg; cases hg
      · rw [h.regN] at hg; cases hg
    rw [if_neg hne]; exact h
  | some v =>
    by_cases hv : v = w
    · subst hv
      have hc : (name == topic || name == node) = true := by
        rcases h.only name hg with e | e <;> simp [e]
      rw [if_pos hc]
      obtain ⟨x, h1, h2, h3⟩ := h.tick
      exact ⟨h.running, h.lt, h.regN, h.regT, h.reg, h.only, by simp [h.gen], x, h1, h2, by omega⟩
    · have hne : ¬ (name == topic || name == node) = true := by
        intro c
        simp only [Bool.or_eq_true, beq_iff_eq] at c
        rcases c with rfl | rfl
        · rw [h.regT] at hg; injection hg with hg; exact hv hg.symm
        · rw [h.regN] at hg; injection hg with hg; exact hv hg.symm
      rw [if_neg hne]
      refine ⟨h.running, h.lt, h.regN, h.regT, h.reg, h.only, ?_, h.tick⟩
      simp only [if_neg (fun e => hv (Eq.symm e))]; exact h.gen

theorem owns_step {s : Sys} {w k node topic} (h : Owns s w k node topic) {a : Act} (ha : Quiet node topic a) :
    Owns (step s a) w (k + if hits node topic a = true then 1 else 0) node topic := by
  cases a with
  | start n t =>
    obtain ⟨h1, h2, h3, h4⟩ := ha.1 n t rfl
    have hnl : w ≠ s.ws.length := Nat.ne_of_lt h.lt
    have hget : ∀ m, ((s.reg.set n s.ws.length).set t s.ws.length).get m =
        if t = m then some s.ws.length else if n = m then some s.ws.length else s.reg.get m := by
      intro m; rw [Map.get_set, Map.get_set]
    refine ⟨h.running, ?_, ?_, ?_, ?_, ?_, ?_, ?_⟩
    · simp only [step, List.length_append]; exact Nat.lt_succ_of_lt h.lt
    · simp only [step]; rw [hget, if_neg h3, if_neg h1]; exact h.regN
    · simp only [step]; rw [hget, if_neg h4, if_neg h2]; exact h.regT
    · intro m v hv
      simp only [step] at hv ⊢
      rw [hget] at hv
      rw [List.length_append, List.length_singleton]
      split_ifs at hv
      · injection hv with hv; omega
      · injection hv with hv; omega
      · exact Nat.lt_succ_of_lt (h.reg m v hv)
    · intro m hm
      simp only [step] at hm
      rw [hget] at hm
      split_ifs at hm
      · injection hm with hm; exact absurd hm.symm hnl
      · injection hm with hm; exact absurd hm.symm hnl
      · exact h.only m hm
    · simp only [step, hits]; rw [if_neg hnl]; simpa using h.gen
    · obtain ⟨x, e1, e2, e3⟩ := h.tick
      refine ⟨x, ?_, e2, by simp [hits]; exact e3⟩
      simp only [step]; rw [List.getElem?_append_left h.lt]; exact e1
  | publish t api ok =>
    have base : Owns { s with delivered := fun t' => if t' = t ∧ ok = true then s.delivered t' + 1 else s.delivered t' } w k node topic :=
      ⟨h.running, h.lt, h.regN, h.regT, h.reg, h.only, h.gen, h.tick⟩
    cases api with
    | send =>
      have base2 : Owns { s with
          delivered := fun t' => if t' = t ∧ ok = true then s.delivered t' + 1 else s.delivered t',
          total := fun t' => if t' = t then s.total t' + 1 else s.total t' } w k node topic :=
        ⟨h.running, h.lt, h.regN, h.regT, h.reg, h.only, h.gen, h.tick⟩
      exact notify_owns base2 t
    | trySend => simpa [step, hits] using base
    | sendBlocking => simpa [step, hits] using base
  | notify n => exact notify_owns h n
  | poll v o c =>
    have hc : c = none := ha.2 v o c rfl
    subst hc
    simp only [step, if_pos h.running, hits]
    cases hv : s.ws[v]? with
    | none => simpa using h
    | some x =>
      refine ⟨rfl, by simpa using h.lt, h.regN, h.regT, by simpa using h.reg, h.only, by simpa using h.gen, ?_⟩
      obtain ⟨y, e1, e2, e3⟩ := h.tick
      by_cases c : v = w
      · subst c
        rw [e1] at hv; injection hv with hv; subst hv
        refine ⟨_, List.getElem?_set_self h.lt, ?_⟩
        have hg := h.gen
        suffices hh : (pollWatcher (s.gen v) o none y).ticks = (pollWatcher (s.gen v) o none y).seen ∧
            (pollWatcher (s.gen v) o none y).seen ≤ k from hh
        cases o with
        | false => exact ⟨e2, e3⟩
        | true =>
          unfold pollWatcher
          simp only [if_true]
          by_cases c2 : 0 < s.gen v - y.seen
          · rw [if_pos c2]; exact ⟨by simp only; omega, by simp only; omega⟩
          · rw [if_neg c2]; exact ⟨e2, e3⟩
      · refine ⟨y, ?_, e2, by simpa using e3⟩
        simp only; rw [List.getElem?_set_ne c]; exact e1

theorem owns_run {s : Sys} {w k node topic} (h : Owns s w k node topic) (as : List Act)
    (ha : ∀ a ∈ as, Quiet node topic a) :
    Owns (run s as) w (k + as.countP (hits node topic)) node topic := by
  induction as generalizing s k with
  | nil => exact h
  | cons a as ih =>
    have := ih (owns_step h (ha a List.mem_cons_self)) (fun b hb => ha b (List.mem_cons_of_mem _ hb))
    rw [List.countP_cons]
    have e : k + (List.countP (hits node topic) as + if hits node topic a = true then 1 else 0) =
        (k + if hits node topic a = true then 1 else 0) + List.countP (hits node topic) as := by omega
    rw [e]; exact this

/-- A state in which no registry entry points past the watchers. -/
def Wf (s : Sys) : Prop := s.running = true ∧ ∀ n v, s.reg.get n = some v → v < s.ws.length

/-- Ticks run by watcher `w`. -/
def ticksOf (s : Sys) (w : Nat) : Option Nat := (s.ws[w]?).map (·.ticks)

/-- C109, partial: an event node gets exactly one tick per `send` on its topic (or direct
notification) since it started, for every interleaving with other nodes, with its own polling and
with any time it was held back by its gates; nothing is lost and nothing is doubled. The number of
ticks never exceeds the notifications and reaches them at the node's next unobstructed pass. Missing
from the full claim ("one tick per message"): topics shared by several event nodes and the other
publishing calls, where it is false. -/
theorem one_tick_per_send_partial (s : Sys) (hs : Wf s) (node topic : String) (as : List Act)
    (ha : ∀ a ∈ as, Quiet node topic a) :
    let w := s.ws.length
    (∃ t, ticksOf (run (step s (.start node topic)) as) w = some t ∧ t ≤ as.countP (hits node topic)) ∧
      ticksOf (run (step s (.start node topic)) (as ++ [.poll w true none])) w = some (as.countP (hits node topic)) := by
  intro w
  have h0 : Owns (step s (.start node topic)) w 0 node topic := by
    have hget : ∀ m, ((s.reg.set node s.ws.length).set topic s.ws.length).get m =
        if topic = m then some s.ws.length else if node = m then some s.ws.length else s.reg.get m := by
      intro m; rw [Map.get_set, Map.get_set]
    refine ⟨hs.1, ?_, ?_, ?_, ?_, ?_, ?_, ?_⟩
    · simp [step, w]
    · simp only [step]; rw [hget, if_pos (rfl : node = node)]; split_ifs <;> rfl
    · simp only [step]; rw [hget, if_pos rfl]
    · intro m v hv
      simp only [step] at hv ⊢
      rw [hget] at hv
      rw [List.length_append, List.length_singleton]
      split_ifs at hv
      · injection hv with hv; omega
      · injection hv with hv; omega
      · exact Nat.lt_succ_of_lt (hs.2 m v hv)
    · intro m hm
      simp only [step] at hm
      rw [hget] at hm
      split_ifs at hm with c1 c2
      · exact .inr c1.symm
      · exact .inl c2.symm
      · exact absurd (hs.2 m _ hm) (Nat.lt_irrefl _)
    · simp [step, w]
    · exact ⟨{}, by simp [step, w], rfl, Nat.le_refl _⟩
  have h1 := owns_run h0 as ha
  rw [Nat.zero_add] at h1
  obtain ⟨x, e1, e2, e3⟩ := h1.tick
  refine ⟨⟨x.ticks, by unfold ticksOf; rw [e1]; rfl, by omega⟩, ?_⟩
  have er : run (step s (.start node topic)) (as ++ [.poll w true none]) =
      step (run (step s (.start node topic)) as) (.poll w true none) := by
    unfold run; rw [List.foldl_append]; rfl
  rw [er]
  have ep : ∀ u : Sys, u.running = true → u.ws[w]? = some x → step u (.poll w true none) =
      { u with ws := u.ws.set w (pollWatcher (u.gen w) true none x), running := true } := by
    intro u hu hx
    simp only [step, if_pos hu, hx]; rfl
  rw [ep _ h1.running e1]
  unfold ticksOf
  simp only
  rw [List.getElem?_set_self h1.lt]
  simp only [Option.map_some, Option.some.injEq]
  have hg := h1.gen
  unfold pollWatcher
  simp only [if_true]
  split_ifs with c
  · simp only; omega
  · omega

/-- The hypotheses are met: a node held back by its gates while three messages arrive catches up. -/
example : Wf {} ∧ ticksOf (run (step {} (.start "planner" "scan"))
    [.publish "scan" .send true, .poll 0 false none, .publish "scan" .send true, .start "other" "odom",
      .publish "odom" .send true, .publish "scan" .send true, .poll 0 true none]) 0 = some 3 := by
  refine ⟨⟨rfl, fun n v h => by cases h⟩, by decide⟩

theorem publish_pair (n : Nat) (s : Sys) (h : s.reg = [("a", 0), ("t", 1), ("b", 1)]) (hw : s.ws = [{}, {}])
    (hr : s.running = true) :
    (run s (List.replicate n (.publish "t" .send true))).reg = s.reg ∧
    (run s (List.replicate n (.publish "t" .send true))).ws = s.ws ∧
    (run s (List.replicate n (.publish "t" .send true))).running = true ∧
    (run s (List.replicate n (.publish "t" .send true))).gen 0 = s.gen 0 ∧
    (run s (List.replicate n (.publish "t" .send true))).gen 1 = s.gen 1 + n ∧
    (run s (List.replicate n (.publish "t" .send true))).delivered "t" = s.delivered "t" + n := by
  induction n generalizing s with
  | zero => exact ⟨rfl, rfl, hr, rfl, rfl, rfl⟩
  | succ n ih =>
    have e : step s (.publish "t" .send true) = { s with
        delivered := fun t => if t = "t" ∧ true = true then s.delivered t + 1 else s.delivered t,
        total := fun t => if t = "t" then s.total t + 1 else s.total t,
        gen := fun i => if i = 1 then s.gen i + 1 else s.gen i } := by
      simp only [step, Sys.notify, h]; rfl
    have := ih (step s (.publish "t" .send true)) (by rw [e]; exact h) (by rw [e]; exact hw) (by rw [e]; exact hr)
    rw [List.replicate_succ]
    show (run (step s (.publish "t" .send true)) _).reg = _ ∧ (run (step s (.publish "t" .send true)) _).ws = _ ∧
      (run (step s (.publish "t" .send true)) _).running = _ ∧ (run (step s (.publish "t" .send true)) _).gen 0 = _ ∧
      (run (step s (.publish "t" .send true)) _).gen 1 = _ ∧ (run (step s (.publish "t" .send true)) _).delivered "t" = _
    obtain ⟨a, b, c, d, f, g⟩ := this
    rw [e] at a b c d f g
    rw [e]
    refine ⟨a, b, c, by rw [d]; rfl, ?_, ?_⟩
    · rw [f]; simp only [if_true]; omega
    · rw [g]; simp only [and_self, if_true]; omega

/-- C109 fails when two event nodes share a topic: the registry keeps one notifier per topic name, so
of `n` messages the node started first gets none and the other all `n`. -/
theorem second_event_node_steals_topic (n : Nat) :
    let s := run {} ([.start "a" "t", .start "b" "t"] ++ List.replicate n (.publish "t" .send true) ++
      [.poll 0 true none, .poll 1 true none])
    s.delivered "t" = n ∧ ticksOf s 0 = some 0 ∧ ticksOf s 1 = some n := by
  have key := publish_pair n (run {} [.start "a" "t", .start "b" "t"]) (by decide) (by decide) (by decide)
  have e : run {} ([Act.start "a" "t", .start "b" "t"] ++ List.replicate n (.publish "t" .send true) ++
      [.poll 0 true none, .poll 1 true none]) =
      step (step (run (run {} [.start "a" "t", .start "b" "t"]) (List.replicate n (.publish "t" .send true))) (.poll 0 true none)) (.poll 1 true none) := by
    unfold run; rw [List.foldl_append, List.foldl_append]; rfl
  simp only [e]
  obtain ⟨-, k2, k3, k4, k5, k6⟩ := key
  generalize run (run {} [.start "a" "t", .start "b" "t"]) (List.replicate n (.publish "t" .send true)) = u at *
  have hws : u.ws = [{}, {}] := by rw [k2]; decide
  have g0 : u.gen 0 = 0 := by rw [k4]; decide
  have g1 : u.gen 1 = n := by rw [k5]; simp [run, step]
  have e1 : step u (.poll 0 true none) = u := by
    simp only [step, if_pos k3, hws]
    have : pollWatcher (u.gen 0) true none ({} : Watcher) = {} := by rw [g0]; rfl
    simp only [List.getElem?_cons_zero, this]
    cases u; simp_all
  rw [e1]
  refine ⟨?_, ?_, ?_⟩
  · simp only [step, if_pos k3, hws, List.getElem?_cons_succ, List.getElem?_cons_zero]
    rw [k6]; simp [run, step]
  · simp only [step, if_pos k3, hws, List.getElem?_cons_succ, List.getElem?_cons_zero, ticksOf]
    rfl
  · simp only [step, if_pos k3, hws, List.getElem?_cons_succ, List.getElem?_cons_zero, ticksOf, g1]
    unfold pollWatcher
    cases n with
    | zero => rfl
    | succ n => simp

/-- C109 fails for the other publishing calls: messages that arrive by `send_blocking` or
`try_send` never trigger the node, in any number. -/
theorem blocking_send_never_triggers (s : Sys) (t : String) (api : Api) (h : api ≠ .send) (ok : Bool) (n : Nat) :
    (run s (List.replicate n (.publish t api ok))).gen = s.gen ∧
      (run s (List.replicate n (.publish t api ok))).total = s.total ∧
      (run s (List.replicate n (.publish t api ok))).delivered t = s.delivered t + if ok then n else 0 := by
  induction n generalizing s with
  | zero => refine ⟨rfl, rfl, ?_⟩; cases ok <;> rfl
  | succ n ih =>
    have e : step s (.publish t api ok) = { s with delivered := fun t' => if t' = t ∧ ok = true then s.delivered t' + 1 else s.delivered t' } := by
      cases api with
      | send => exact absurd rfl h
      | trySend => rfl
      | sendBlocking => rfl
    rw [List.replicate_succ]
    show (run (step s (.publish t api ok)) _).gen = _ ∧ (run (step s (.publish t api ok)) _).total = _ ∧
      (run (step s (.publish t api ok)) _).delivered t = _
    obtain ⟨a, b, c⟩ := ih (step s (.publish t api ok))
    rw [a, b, c, e]
    refine ⟨rfl, rfl, ?_⟩
    cases ok <;> simp; omega

/-- And a `send` whose message was dropped does trigger a tick. -/
theorem dropped_send_triggers :
    let s := run {} [.start "a" "t", .publish "t" .send false, .poll 0 true none]
    s.delivered "t" = 0 ∧ ticksOf s 0 = some 1 := by decide

/-! ### C110 -/

theorem refresh_last (f : Fresh) (now obs) : f.last ≤ (f.refresh now obs).last := by
  unfold Fresh.refresh
  cases obs with
  | none => exact Nat.le_refl _
  | some t =>
    cases f.prev with
    | none => exact Nat.le_refl _
    | some p => simp only; split_ifs <;> simp only <;> omega

theorem refresh_timeout (f : Fresh) (now obs) : (f.refresh now obs).timeout = f.timeout := by
  unfold Fresh.refresh
  cases obs with
  | none => rfl
  | some t =>
    cases f.prev with
    | none => rfl
    | some p => simp only; split_ifs <;> rfl

theorem checks_last (f : Fresh) (cs) : f.last ≤ (f.checks cs).last ∧ (f.checks cs).timeout = f.timeout := by
  induction cs generalizing f with
  | nil => exact ⟨Nat.le_refl _, rfl⟩
  | cons c cs ih =>
    obtain ⟨now, obs⟩ := c
    have h := ih (f.check now obs).1
    have h1 : f.last ≤ (f.check now obs).1.last := refresh_last f now obs
    have h2 : (f.check now obs).1.timeout = f.timeout := refresh_timeout f now obs
    exact ⟨Nat.le_trans h1 h.1, h.2.trans h2⟩

/-- C110, no false alarm: once a check has seen the topic's counter move, no check made within the
timeout after it reports the topic stale, whatever the checks in between saw and however the clock
was adjusted between them. -/
theorem no_false_alarm_partial (f : Fresh) (p t now : Nat) (hp : f.prev = some p) (ht : t ≠ p)
    (cs : List (Nat × Option Nat)) (now' : Nat) (obs : Option Nat) (hw : now' ≤ now + f.timeout) :
    (((f.check now (some t)).1.checks cs).check now' obs).2 = false := by
  have h1 : now ≤ (f.check now (some t)).1.last := by
    show now ≤ (f.refresh now (some t)).last
    unfold Fresh.refresh
    rw [hp]; simp only [if_pos ht]; omega
  have h2 := checks_last (f.check now (some t)).1 cs
  have h3 := refresh_last ((f.check now (some t)).1.checks cs) now' obs
  have h4 : (f.check now (some t)).1.timeout = f.timeout := refresh_timeout f now (some t)
  show Fresh.stale _ now' = false
  unfold Fresh.stale
  rw [refresh_timeout, h2.2, h4]
  simp only [decide_eq_false_iff_not]
  omega

theorem refresh_same {f : Fresh} {p now : Nat} (hp : f.prev = some p) (obs : Option Nat)
    (ho : obs = none ∨ obs = some p) : f.refresh now obs = f := by
  unfold Fresh.refresh
  rcases ho with rfl | rfl
  · rfl
  · simp only [hp]; rw [if_neg (by simp)]; cases f; simp_all

/-- C110, detection: if the counter has not moved since some check, the first check later than the
timeout after the last movement reports the topic stale. -/
theorem quiet_topic_detected (f : Fresh) (p : Nat) (hp : f.prev = some p) (cs : List (Nat × Option Nat))
    (hq : ∀ c ∈ cs, c.2 = none ∨ c.2 = some p) (now : Nat) (obs : Option Nat) (ho : obs = none ∨ obs = some p) :
    ((f.checks cs).check now obs).2 = true ↔ f.last + f.timeout < now := by
  have h : f.checks cs = f := by
    induction cs with
    | nil => rfl
    | cons c cs ih =>
      obtain ⟨n, o⟩ := c
      have : (f.check n o).1 = f := refresh_same hp o (hq (n, o) List.mem_cons_self)
      show (f.check n o).1.checks cs = f
      rw [this]; exact ih (fun d hd => hq d (List.mem_cons_of_mem _ hd))
  rw [h]
  show Fresh.stale (f.refresh now obs) now = true ↔ _
  rw [refresh_same hp obs ho]
  unfold Fresh.stale
  rw [decide_eq_true_iff]; omega

/-- C110, detection after a message: a check at `now` sees the counter move to `t`; if it then stays
there, a later check reports the topic stale exactly when it comes more than the timeout after `now`
(after the next free nanosecond, when the clock has not advanced since the previous movement). -/
theorem quiet_after_message_detected (f : Fresh) (p t now : Nat) (hp : f.prev = some p) (ht : t ≠ p)
    (cs : List (Nat × Option Nat)) (hq : ∀ c ∈ cs, c.2 = none ∨ c.2 = some t)
    (later : Nat) (obs : Option Nat) (ho : obs = none ∨ obs = some t) :
    (((f.check now (some t)).1.checks cs).check later obs).2 = true ↔
      max now (f.last + 1) + f.timeout < later := by
  have e : (f.check now (some t)).1 = { f with prev := some t, last := max now (f.last + 1) } := by
    simp only [Fresh.check, Fresh.refresh, hp]; rw [if_pos ht]
  rw [e]
  exact quiet_topic_detected { f with prev := some t, last := max now (f.last + 1) } t rfl cs hq later obs ho

/-- The hypotheses are met: counter 7 → 8 at 1000, two quiet checks, then stale at 1101. -/
example : ((({ timeout := 100, policy := .stop, last := 900, prev := some 7 } : Fresh).check 1000 (some 8)).1.checks
    [(1050, some 8), (1090, none)]).check 1101 (some 8) =
      ({ timeout := 100, policy := .stop, last := 1000, prev := some 8 }, true) := by decide

/-- With a clock that moves forward between checks, the recorded time never runs ahead of the clock,
so detection is never later than one timeout after the check that saw the last message. -/
theorem last_not_ahead (f : Fresh) (t0 : Nat) (h0 : f.last ≤ t0) (cs : List (Nat × Option Nat))
    (hm : List.Pairwise (· < ·) (t0 :: cs.map (·.1))) :
    (f.checks cs).last ≤ (cs.map (·.1)).getLastD t0 := by
  induction cs generalizing f t0 with
  | nil => exact h0
  | cons c cs ih =>
    obtain ⟨now, obs⟩ := c
    rw [List.map_cons, List.pairwise_cons] at hm
    have hlt : t0 < now := hm.1 now List.mem_cons_self
    have h1 : (f.check now obs).1.last ≤ now := by
      show (f.refresh now obs).last ≤ now
      unfold Fresh.refresh
      cases obs with
      | none => simp only; omega
      | some t =>
        cases f.prev with
        | none => simp only; omega
        | some p => simp only; split_ifs <;> simp only <;> omega
    have := ih (f.check now obs).1 now h1 hm.2
    show ((f.check now obs).1.checks cs).last ≤ _
    rw [List.map_cons, List.getLastD_cons]; exact this

/-- A topic that never appears is reported stale once the timeout since `build()` has passed. -/
theorem absent_topic_detected (f : Fresh) (now : Nat) : (f.check now none).2 = true ↔ f.last + f.timeout < now := by
  show Fresh.stale _ now = true ↔ _
  unfold Fresh.stale Fresh.refresh
  rw [decide_eq_true_iff]; simp only; omega

/-- C110 fails for the first observation: a node built at time 0 with a 100 ms timeout whose first
check happens after 150 ms reports a topic stale that has carried 150 messages by then. -/
theorem first_check_false_alarm :
    (({ timeout := 100, policy := .stop, last := 0 } : Fresh).check 150 (some 150)).2 = true := by decide

/-- C110 fails for messages published by `send_blocking`/`try_send`: they do not move the counter, so
a subscription to a topic that carries nothing else is reported stale although messages keep
arriving. -/
theorem blocking_publisher_reported_stale (s : Sys) (t : String) (n : Nat) (f : Fresh)
    (hf : f.prev = some (s.total t)) (now : Nat) (hn : f.last + f.timeout < now) :
    let s' := run s (List.replicate n (.publish t .sendBlocking true))
    s'.delivered t = s.delivered t + n ∧ (f.check now (some (s'.total t))).2 = true := by
  obtain ⟨-, h2, h3⟩ := blocking_send_never_triggers s t .sendBlocking (by simp) true n
  refine ⟨by rw [h3]; rfl, ?_⟩
  rw [h2]
  have := (quiet_topic_detected f (s.total t) hf [] (fun c h => by cases h) now (some (s.total t)) (.inr rfl)).mpr hn
  exact this

/-- The hypotheses are met: last message seen at 1000, timeout 100, next check at 1200. -/
example : ({ timeout := 100, policy := .stop, last := 1000, prev := some 7 } : Fresh).prev = some (({ total := fun _ => 7 } : Sys).total "cmd") ∧
    1000 + 100 < 1200 := ⟨rfl, by decide⟩

/-- Several subscriptions: the action taken after a tick is that of the first stale subscription
whose policy is not `Warn`. -/
theorem checkAll_action (now : Nat) (fs : List (Fresh × Option Nat)) :
    (checkAll now fs).2.2 = ((fs.filter fun x => (x.1.check now x.2).2 && decide (x.1.policy ≠ .warn)).head?).map (·.1.policy) := by
  induction fs with
  | nil => rfl
  | cons x fs ih =>
    obtain ⟨f, obs⟩ := x
    unfold checkAll
    simp only
    cases hs : (f.check now obs).2 with
    | false => simp [hs, ih]
    | true =>
      cases hp : f.policy <;> simp [hs, hp, ih]

/-- Hence a stale `Stop` subscription does stop the node when no stale `SafeState` subscription was
declared before it. -/
theorem stale_stop_stops_partial (now : Nat) (pre post : List (Fresh × Option Nat)) (f : Fresh) (obs)
    (hs : (f.check now obs).2 = true) (hp : f.policy = .stop)
    (hpre : ∀ x ∈ pre, (x.1.check now x.2).2 = true → x.1.policy ≠ .safeState) :
    (checkAll now (pre ++ (f, obs) :: post)).2.2 = some .stop := by
  rw [checkAll_action, List.filter_append, List.filter_cons]
  have : ((f.check now obs).2 && decide (f.policy ≠ .warn)) = true := by simp [hs, hp]
  rw [if_pos this]
  cases hl : pre.filter (fun x => (x.1.check now x.2).2 && decide (x.1.policy ≠ .warn)) with
  | nil => simp [hp]
  | cons y ys =>
    have hy : y ∈ pre.filter (fun x => (x.1.check now x.2).2 && decide (x.1.policy ≠ .warn)) := by rw [hl]; exact List.mem_cons_self
    obtain ⟨h1, h2⟩ := List.mem_filter.mp hy
    simp only [Bool.and_eq_true, decide_eq_true_eq] at h2
    have h3 := hpre y h1 h2.1
    have : y.1.policy = .stop := by
      cases hy' : y.1.policy with
      | warn => exact absurd hy' h2.2
      | safeState => exact absurd hy' h3
      | stop => rfl
    simp [this]

/-- It does not when one was: the `Stop` subscription is masked, and is not even looked at. -/
theorem stale_stop_masked :
    (checkAll 500 [({ timeout := 100, policy := .safeState, last := 0, prev := some 1 }, some 1),
      ({ timeout := 100, policy := .stop, last := 0, prev := some 1 }, some 1)]).2.2 = some .safeState := by decide

end Horus.Event
