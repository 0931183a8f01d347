import Verif.Actions.Cap
/-
Properties of the action server (C60, C61, C78, C79).
-/
namespace Horus.Actions
open Horus

/-! ### Specification vocabulary -/

/-- Goals that are executing and that the server has not given up on. -/
def executing (s : Server) : Nat := (s.active.filter fun p => p.2.abandoned = false).length

theorem executing_eq (s : Server) : executing s = occupied s := by
  unfold executing occupied
  rw [List.countP_eq_length_filter]
  congr 1
  apply List.filter_congr
  intro p _
  cases p.2.abandoned <;> rfl

/-- A tick at time `now` in which threads can be spawned and cancels are accepted. -/
def tk (now : Nat) (goals : List Req) (cancels : List Nat := []) : Act :=
  .tick { env := ⟨now, fun _ => true⟩, goals := goals, cancels := cancels, cancelOk := fun _ => true }

/-- A valid goal. -/
def goal (id prio : Nat) : Req := ⟨id, prio, true⟩

/-- The server's default configuration: one goal at a time, new goals preempt (types.rs). -/
def defaultCfg : Config := { max := some 1, policy := .preemptOld, timeout := none, hasExec := true }

/-! ### C60: the concurrency limit -/

/-- Under RejectNew and Queue the number of executing goals never exceeds the limit. -/
theorem limit_kept {cfg : Config} {s : Server} {m : Nat} (h : Reach cfg s) (hm : cfg.max = some m)
    (hp : cfg.policy = .rejectNew ∨ ∃ n, cfg.policy = .queue n) : executing s ≤ m := by
  rw [executing_eq]; exact (reach_cap h).hard m hm hp

/-- The queue never exceeds its size, and is empty under every other policy. -/
theorem queue_bounded {cfg : Config} {s : Server} (h : Reach cfg s) :
    (∀ n, cfg.policy = .queue n → s.queue.length ≤ n) ∧
    ((∀ n, cfg.policy ≠ .queue n) → s.queue = []) :=
  ⟨(reach_cap h).qlen, (reach_cap h).qnone⟩

/-- Under PreemptOld, without a goal timeout, at most one goal beyond the limit executes, and then
a preempted goal is still winding down. Missing: servers with a goal timeout
(`preempt_limit_exceeded`). -/
theorem preempt_limit_partial {cfg : Config} {s : Server} {m : Nat} (h : Reach cfg s)
    (hm : cfg.max = some m) (hp : cfg.policy = .preemptOld) (ht : cfg.timeout = none) :
    executing s ≤ m + 1 ∧ (m < executing s → ∃ p ∈ s.active, p.2.preempt = true) := by
  rw [executing_eq]
  have := (reach_cap h).soft m hm hp ht
  refine ⟨by omega, fun hlt => ?_⟩
  have : 0 < pendingPre s := by omega
  simpa [pendingPre] using this

/-- One goal at a time, new goals preempt, goals time out after ten time units. -/
def timedCfg : Config := { max := some 1, policy := .preemptOld, timeout := some 10, hasExec := true }

/-- Two goals ignore their timeout, two more arrive, the first ends, another arrives. -/
def overrun : List Act :=
  [tk 1 [goal 1 0], tk 12 [], tk 30 [], tk 31 [goal 2 0], tk 42 [], tk 60 [],
   tk 61 [goal 3 0], tk 62 [goal 4 0], .finish 1 .canceled, tk 63 [goal 5 0]]

/-- With a goal timeout PreemptOld does not keep its limit: three goals execute at once on a server
configured for one. -/
theorem preempt_limit_exceeded :
    ∃ s, run timedCfg overrun init = some s ∧ executing s = 3 := by
  refine ⟨(run timedCfg overrun init).get (by decide), by simp, by decide⟩

theorem occupied_accept_new (env : Env) (cfg : Config) (r : Req) (s : Server)
    (hs : env.spawn r.id = true) (hn : s.active.has r.id = false) :
    ∃ g : GState, g.prio = r.prio ∧ (accept env cfg r s).active = s.active ++ [(r.id, g)] ∧
      occupied (accept env cfg r s) = occupied s + 1 := by
  have hnone : s.active.get r.id = none := by simpa [Map.has] using hn
  refine ⟨⟨r.prio, false, false, env.now, false, false⟩, rfl, ?_⟩
  have hset := set_absent s.active r.id ⟨r.prio, false, false, env.now, false, false⟩ hnone
  have ha : (accept env cfg r s).active = s.active ++ [(r.id, ⟨r.prio, false, false, env.now, false, false⟩)] := by
    unfold accept
    simp only [hn, Bool.false_eq_true, if_false, hs, if_true, publish]
    split <;> simp only [hset]
  refine ⟨ha, ?_⟩
  unfold occupied
  rw [ha, List.countP_append]
  simp

/-- One goal at a time, more urgent goals preempt. -/
def prioCfg : Config := { max := some 1, policy := .priority, timeout := none, hasExec := true }

/-- Under the Priority policy nothing bounds the number of executing goals: a goal of low priority
that does not stop lets every more urgent goal in. -/
theorem priority_unbounded (n : Nat) : ∃ s, Reach prioCfg s ∧ n < executing s := by
  let env : Env := ⟨0, fun _ => true⟩
  have key : ∀ n : Nat, ∃ s, ((List.range n).map fun k => goal (k + 2) 0).foldl
        (fun s r => handleGoal env prioCfg r s) (handleGoal env prioCfg (goal 1 1) init) = s ∧
      occupied s = n + 1 ∧ (∃ p ∈ s.active, 1 ≤ p.2.prio) ∧ ∀ k ∈ s.active.keys, k < n + 2 := by
    intro n
    induction n with
    | zero => exact ⟨_, rfl, by decide, by decide, by decide⟩
    | succ n ih =>
      obtain ⟨s, he, ho, hp, hk⟩ := ih
      refine ⟨_, rfl, ?_⟩
      rw [List.range_succ, List.map_append, List.foldl_append, he]
      simp only [List.map_cons, List.map_nil, List.foldl_cons, List.foldl_nil]
      unfold handleGoal
      simp only [goal, if_true]
      generalize hs1 : ({ s with received := s.received + 1, got := s.got ++ [n + 2] } : Server) = s1
      have ha : s1.active = s.active := by rw [← hs1]
      have ho1 : occupied s1 = n + 1 := by unfold occupied; rw [ha]; exact ho
      have hf : full prioCfg s1 = true := by
        rw [full_iff]; exact ⟨1, rfl, by omega⟩
      have hadm : ∃ v, admit prioCfg ⟨n + 2, 0, true⟩ s1 = (.accept, preempt v s1) := by
        unfold admit
        rw [if_neg (by rw [hf]; simp)]
        obtain ⟨p, hpm, hpp⟩ := hp
        rw [← ha] at hpm
        cases hl : lowest s1 with
        | none =>
          exfalso
          unfold lowest at hl
          simp only [Option.map_eq_none_iff] at hl
          cases hact : s1.active with
          | nil => rw [hact] at hpm; cases hpm
          | cons x l =>
            rw [hact] at hl
            unfold maxBy at hl
            split at hl
            · cases hl
            · split at hl <;> cases hl
        | some vp =>
          obtain ⟨v, q⟩ := vp
          obtain ⟨g, _, _, hmax⟩ := lowest_mem hl
          have := hmax p hpm
          refine ⟨v, ?_⟩
          simp only [prioCfg, hl]
          rw [if_pos (by omega)]
      obtain ⟨v, hadm⟩ := hadm
      rw [hadm]
      simp only
      have hkeys : (preempt v s1).active.keys = s.active.keys := by
        unfold preempt; rw [keys_modify, ha]
      have hnot : (preempt v s1).active.has (n + 2) = false := by
        have : ¬ (preempt v s1).active.has (n + 2) = true := by
          rw [has_iff, hkeys]
          intro hc; have := hk _ hc; omega
        simpa using this
      obtain ⟨g, hgp, hact, hocc⟩ := occupied_accept_new env prioCfg ⟨n + 2, 0, true⟩ (preempt v s1) rfl hnot
      refine ⟨by rw [hocc, occupied_preempt, ho1], ?_, ?_⟩
      · obtain ⟨p, hpm, hpp⟩ := hp
        refine ⟨(p.1, if p.1 = v then { p.2 with preempt := true } else p.2), ?_, ?_⟩
        · rw [hact]
          apply List.mem_append_left
          simp only [preempt, modify, List.mem_map]
          exact ⟨p, ha ▸ hpm, rfl⟩
        · by_cases e : p.1 = v <;> simp [e, hpp]
      · intro k hkm
        rw [hact] at hkm
        simp only [Map.keys, List.map_append, List.mem_append, List.map_cons, List.map_nil, List.mem_singleton] at hkm
        rcases hkm with hkm | rfl
        · have : k ∈ s.active.keys := by rw [← hkeys]; exact hkm
          have := hk _ this; omega
        · omega
  obtain ⟨s, he, ho, _⟩ := key n
  refine ⟨s, ⟨[.tick ⟨env, goal 1 1 :: (List.range n).map fun k => goal (k + 2) 0, [], fun _ => true⟩], ?_⟩, ?_⟩
  · simp only [run, step, tick, drain, init, List.foldl_nil, List.foldl_cons, List.foldlM_nil]
    have : (({} : Server)) = init := rfl
    rw [show ({ ({} : Server) with events := [] } : Server) = init from rfl, he]
    rfl
  · rw [executing_eq, ho]; omega

example : Reach defaultCfg ((run defaultCfg [tk 1 [goal 7 3], tk 2 [goal 8 1]] init).get (by decide)) :=
  ⟨[tk 1 [goal 7 3], tk 2 [goal 8 1]], by simp⟩

/-! ### Who is preempted -/

/-- At capacity under PreemptOld an admitted goal displaces a goal that has been running longest,
and nobody else is touched. -/
theorem preempts_oldest {cfg : Config} {r : Req} {s s' : Server} {m : Nat} (hm : cfg.max = some m)
    (hfull : m ≤ executing s) (hp : cfg.policy = .preemptOld) (h : admit cfg r s = (.accept, s')) :
    ∃ v g, (v, g) ∈ s.active ∧ (∀ p ∈ s.active, g.started ≤ p.2.started) ∧
      s' = preempt v s ∧ ∀ p ∈ s.active, p.2.preempt = false := by
  have hf : full cfg s = true := (full_iff cfg s).mpr ⟨m, hm, by rw [← executing_eq]; exact hfull⟩
  unfold admit at h
  rw [if_neg (by rw [hf]; simp)] at h
  simp only [hp] at h
  by_cases hpp : 0 < pendingPre s
  · rw [if_pos hpp] at h; simp at h
  · rw [if_neg hpp] at h
    cases ho : oldest s with
    | none => simp [ho] at h
    | some v =>
      rw [ho] at h
      simp only [Prod.mk.injEq, true_and] at h
      obtain ⟨g, hg, hle⟩ := oldest_mem ho
      refine ⟨v, g, hg, hle, h.symm, ?_⟩
      intro p hpm
      have h0 : pendingPre s = 0 := by omega
      have := List.countP_eq_zero.mp h0 p hpm
      simpa using this

/-- At capacity under Priority a goal is admitted only if it is strictly more urgent than the least
urgent executing goal, which is the one displaced. -/
theorem preempts_least_urgent {cfg : Config} {r : Req} {s s' : Server} {m : Nat}
    (hm : cfg.max = some m) (hfull : m ≤ executing s) (hp : cfg.policy = .priority)
    (h : admit cfg r s = (.accept, s')) :
    ∃ v g, (v, g) ∈ s.active ∧ (∀ p ∈ s.active, p.2.prio ≤ g.prio) ∧ r.prio < g.prio ∧
      s' = preempt v s := by
  have hf : full cfg s = true := (full_iff cfg s).mpr ⟨m, hm, by rw [← executing_eq]; exact hfull⟩
  unfold admit at h
  rw [if_neg (by rw [hf]; simp)] at h
  simp only [hp] at h
  cases ho : lowest s with
  | none => simp [ho] at h
  | some vp =>
    obtain ⟨v, p⟩ := vp
    rw [ho] at h
    simp only at h
    by_cases hlt : r.prio < p
    · rw [if_pos hlt] at h
      simp only [Prod.mk.injEq, true_and] at h
      obtain ⟨g, hg, rfl, hle⟩ := lowest_mem ho
      exact ⟨v, g, hg, hle, hlt, h.symm⟩
    · rw [if_neg hlt] at h; simp at h

/-- Below capacity every valid goal with a fresh id starts, and is reported active. -/
theorem free_slot_starts {cfg : Config} {env : Env} {r : Req} {s : Server} (hv : r.valid = true)
    (hfree : ∀ m, cfg.max = some m → executing s < m) (hn : r.id ∉ s.active.keys)
    (hs : env.spawn r.id = true) :
    ∃ g, (handleGoal env cfg r s).active = s.active ++ [(r.id, g)] ∧
      (handleGoal env cfg r s).out = s.out ++ [Pub.status r.id .active] ∧
      (cfg.hasExec = true → (handleGoal env cfg r s).running = s.running ++ [r.id]) := by
  have hf : full cfg s = false := by
    cases hc : full cfg s with
    | false => rfl
    | true =>
      obtain ⟨m, hm, hle⟩ := (full_iff cfg s).mp hc
      have := hfree m hm
      rw [executing_eq] at this; omega
  have hnh : s.active.has r.id = false := by
    have : ¬ s.active.has r.id = true := by rw [has_iff]; exact hn
    simpa using this
  have hnone : s.active.get r.id = none := by simpa [Map.has] using hnh
  have hf1 : full cfg { s with received := s.received + 1, got := s.got ++ [r.id] } = false := hf
  have hset := set_absent s.active r.id ⟨r.prio, false, false, env.now, false, false⟩ hnone
  refine ⟨⟨r.prio, false, false, env.now, false, false⟩, ?_⟩
  unfold handleGoal admit
  simp only [hv, if_true, hf1]
  unfold accept
  simp only [hnh, Bool.false_eq_true, if_false, hs, if_true, publish]
  split
  · exact ⟨hset, rfl, fun _ => rfl⟩
  · rename_i he; exact ⟨hset, rfl, fun h => absurd h he⟩

/-- Through the JSON gateway a priority is reduced modulo 256, so asking for 256 — beyond the least
urgent — yields the most urgent priority there is. -/
theorem gateway_priority_wraps : gatewayPrio (some 255) = 255 ∧ gatewayPrio (some 256) = 0 := by
  decide

/-- Priorities in range pass unchanged. -/
theorem gateway_priority_exact (p : Nat) (h : p < 256) : gatewayPrio (some p) = p :=
  Nat.mod_eq_of_lt h

/-! ### C61: one terminal status per goal -/

/-- Every request is accounted for: it has a terminal status, or executes, or waits. A terminal
status beyond that belongs to a goal that ended after the server had given it up. -/
theorem books_balance {cfg : Config} {s : Server} (h : Reach cfg s) (id : Nat) :
    submitted s id + s.late.count id = terminals s id + live s id + waiting s id :=
  (reach_good h).acct id

/-- Without a goal timeout each request gets at most one terminal status, and exactly one unless it
is still executing or waiting. Missing: servers with a goal timeout (`two_terminals`). -/
theorem one_terminal_partial {cfg : Config} {s : Server} (h : Reach cfg s) (ht : cfg.timeout = none)
    (id : Nat) : submitted s id = terminals s id + live s id + waiting s id := by
  have := books_balance h id
  rw [((reach_good h).noTimeout ht).1] at this
  simpa using this

/-- With a goal timeout, a goal that ends after being given up is reported twice. -/
theorem two_terminals : ∃ s, run timedCfg [tk 1 [goal 1 0], tk 12 [], tk 30 [], .finish 1 .succeeded, tk 40 []] init = some s ∧
    submitted s 1 = 1 ∧ s.out = [.status 1 .active, .status 1 .aborted, .result 1 .succeeded, .status 1 .succeeded] := by
  refine ⟨(run timedCfg [tk 1 [goal 1 0], tk 12 [], tk 30 [], .finish 1 .succeeded, tk 40 []] init).get (by decide), by simp, by decide, by decide⟩

/-- No id is active twice, and no two threads work for one id. -/
theorem one_thread_per_goal {cfg : Config} {s : Server} (h : Reach cfg s) :
    s.active.keys.Nodup ∧ s.running.Nodup ∧ ∀ id ∈ s.running, id ∈ s.active.keys := by
  have hg := reach_good h
  have hle : ∀ id, s.running.count id ≤ s.active.keys.count id := by
    intro id
    have := hg.thr id
    split at this <;> omega
  refine ⟨hg.ok, ?_, ?_⟩
  · rw [List.nodup_iff_count_le_one]
    intro id
    have h1 := hle id
    have h2 := List.nodup_iff_count_le_one.mp hg.ok id
    omega
  · intro id hid
    have h1 := hle id
    have h2 := List.count_pos_iff.mpr hid
    exact List.count_pos_iff.mp (by omega)

theorem count_diff_sub (b a : List Nat) (i : Nat) : (a.diff b).count i = a.count i - b.count i := by
  induction b generalizing a with
  | nil => simp
  | cons x b ih =>
    rw [List.diff_cons, ih, List.count_cons]
    by_cases e : x = i
    · subst e; rw [List.count_erase_self]; simp; omega
    · rw [List.count_erase_of_ne (Ne.symm e)]; simp [e]

/-- Stopping the server waits for every goal thread: none is ever detached. -/
theorem stop_joins_all {cfg : Config} {s : Server} (h : Reach cfg s) : (stop s).running = [] := by
  have hg := reach_good h
  have : (s.running.diff s.threads) = [] := by
    have hc : ∀ id, (s.running.diff s.threads).count id = 0 := by
      intro id
      rw [count_diff_sub]
      have := hg.hand id
      omega
    rw [List.eq_nil_iff_forall_not_mem]
    intro a ha
    have := List.count_pos_iff.mpr ha
    have := hc a
    omega
  exact this

/-- Goals in flight when the server stops get no terminal status. -/
theorem stop_loses_goal : ∃ s, Reach defaultCfg s ∧ submitted (stop s) 7 = 1 ∧
    terminals (stop s) 7 = 0 ∧ live (stop s) 7 = 0 ∧ waiting (stop s) 7 = 0 := by
  refine ⟨(run defaultCfg [tk 1 [goal 7 3], .finish 7 .succeeded] init).get (by decide),
    ⟨[tk 1 [goal 7 3], .finish 7 .succeeded], by simp⟩, by decide, by decide, by decide, by decide⟩

/-- The metrics add up: goals accepted, plus queued goals cancelled before they ran, are the
finished goals plus those in the table. -/
theorem metrics_balance {cfg : Config} {s : Server} (h : Reach cfg s) :
    s.accepted + s.qcan = s.succeeded + s.aborted + s.canceled + s.preempted + s.active.length ∧
    s.received = s.got.length :=
  ⟨(reach_good h).met, (reach_good h).recv⟩

/-- A second request under the id of an executing goal is refused and leaves that goal alone. -/
theorem duplicate_refused {cfg : Config} {env : Env} {r : Req} {s : Server} (hd : r.id ∈ s.active.keys) :
    accept env cfg r s = publish r.id .rejected s := by
  unfold accept
  rw [if_pos ((has_iff _ _).mpr hd)]

/-- But when the server is at capacity under PreemptOld, a duplicate first preempts a goal and is
then refused: a goal is stopped for nothing. -/
theorem duplicate_preempts : ∃ s, run defaultCfg [tk 1 [goal 7 3], tk 2 [goal 7 3]] init = some s ∧
    s.out = [.status 7 .active, .status 7 .rejected] ∧ s.active.map (fun p => (p.1, p.2.preempt)) = [(7, true)] := by
  refine ⟨(run defaultCfg [tk 1 [goal 7 3], tk 2 [goal 7 3]] init).get (by decide), by simp, by decide, by decide⟩

/-- With a goal timeout, a preempted goal that never ends makes the server refuse every later goal
although no goal is executing: the pending preemption is never forgotten. -/
theorem refuses_forever {s : Server} {env : Env} {r : Req} {cfg : Config} {m : Nat}
    (hm : cfg.max = some m) (hfull : m ≤ executing s) (hp : cfg.policy = .preemptOld)
    (hpre : ∃ p ∈ s.active, p.2.preempt = true) (hv : r.valid = true) :
    (handleGoal env cfg r s).out = s.out ++ [Pub.status r.id .rejected] ∧
    (handleGoal env cfg r s).active = s.active := by
  have hf : full cfg { s with received := s.received + 1, got := s.got ++ [r.id] } = true :=
    (full_iff cfg _).mpr ⟨m, hm, by rw [executing_eq] at hfull; exact hfull⟩
  have hpp : 0 < pendingPre { s with received := s.received + 1, got := s.got ++ [r.id] } := by
    simpa [pendingPre] using hpre
  unfold handleGoal admit
  simp only [hv, if_true, hf, Bool.true_eq_false, if_false, hp, hpp]
  exact ⟨rfl, rfl⟩

example : ∃ s, run timedCfg [tk 1 [goal 1 0], tk 2 [goal 2 0], tk 13 [], tk 30 [], .finish 2 .succeeded, tk 31 [goal 3 0]] init = some s ∧
    executing s = 1 ∧ ∃ p ∈ s.active, p.2.preempt = true := by
  refine ⟨(run timedCfg [tk 1 [goal 1 0], tk 2 [goal 2 0], tk 13 [], tk 30 [], .finish 2 .succeeded, tk 31 [goal 3 0]] init).get (by decide), by simp, by decide, by decide⟩

/-! ### C78: queued goals start as soon as a slot is free -/

/-- Without a goal timeout a goal waits only while every slot is taken. Missing: servers with a
goal timeout (`queue_stuck`). -/
theorem queued_only_when_full_partial {cfg : Config} {s : Server} (h : Reach cfg s)
    (ht : cfg.timeout = none) (hq : s.queue ≠ []) : ∃ m, cfg.max = some m ∧ m ≤ executing s := by
  rcases (reach_cap h).idle ht with e | e
  · exact absurd e hq
  · rw [executing_eq]; exact (full_iff cfg s).mp e

/-- One goal at a time, two may wait, goals time out. -/
def queueCfg : Config := { max := some 1, policy := .queue 2, timeout := some 10, hasExec := true }

/-- Goal 1 runs, goal 2 waits, goal 1 is given up at its timeout. -/
def stuckState : Server :=
  (run queueCfg [tk 1 [goal 1 0], tk 2 [goal 2 0], tk 13 [], tk 30 []] init).get (by decide)

theorem idle_ticks (n : Nat) : ∀ now, run queueCfg (List.replicate n (tk now [])) stuckState = some stuckState := by
  induction n with
  | zero => intro now; rfl
  | succ n ih =>
    intro now
    rw [List.replicate_succ]
    have : step queueCfg (tk now []) stuckState = some stuckState := by
      have he : stuckState.events = [] := by decide
      simp only [step, tk, tick, drain, he, List.foldl_nil, List.foldlM_nil]
      have e1 : ({ stuckState with events := [] } : Server) = stuckState := by
        rw [← he]
      rw [e1]
      change some (checkTimeouts queueCfg now stuckState) = some stuckState
      congr 1
    simp only [run, this, Option.bind_some]
    exact ih now

/-- With a goal timeout a waiting goal is not started when a goal is given up: the slot is free, the
goal waits, and any number of further ticks leaves it waiting. -/
theorem queue_stuck : Reach queueCfg stuckState ∧ executing stuckState = 0 ∧
    stuckState.queue = [goal 2 0] ∧
    ∀ n now, run queueCfg (List.replicate n (tk now [])) stuckState = some stuckState := by
  refine ⟨⟨[tk 1 [goal 1 0], tk 2 [goal 2 0], tk 13 [], tk 30 []], by simp [stuckState]⟩, by decide, by decide, ?_⟩
  intro n now; exact idle_ticks n now

/-- A later goal then overtakes the waiting one. -/
theorem queue_overtaken : ∃ s, run queueCfg [tk 40 [goal 3 0]] stuckState = some s ∧
    s.queue = [goal 2 0] ∧ s.running = [1, 3] := by
  refine ⟨(run queueCfg [tk 40 [goal 3 0]] stuckState).get (by decide), by simp, by decide, by decide⟩

/-- Queued goals start in the order they arrived: a loop over the queue starts a prefix. -/
theorem queue_fifo (env : Env) (cfg : Config) (q : List Req) (s : Server) :
    ∃ n, (processQueueFrom env cfg q s).queue = q.drop n ∧
      processQueueFrom env cfg q s = { (q.take n).foldl (fun s r => accept env cfg r s) s with queue := q.drop n } := by
  induction q generalizing s with
  | nil => exact ⟨0, rfl, rfl⟩
  | cons r q ih =>
    unfold processQueueFrom
    split
    · exact ⟨0, rfl, rfl⟩
    · obtain ⟨n, h1, h2⟩ := ih (accept env cfg r s)
      exact ⟨n + 1, by simpa using h1, by simpa using h2⟩

/-! ### C79: goal timeouts -/

/-- Whatever a tick does, a goal it leaves given up either was so before, or had been asked to stop
in an earlier tick and is over twice its timeout. -/
theorem given_up_only_after_warning (t now : Nat) (g : GState) (h : (timeoutOne t now g).abandoned = true) :
    g.abandoned = true ∨ (g.signalled = true ∧ 2 * t < now - g.started) := by
  unfold timeoutOne at h
  by_cases ha : g.abandoned = true
  · exact Or.inl ha
  · rw [if_neg ha] at h
    by_cases hs : g.signalled = false
    · rw [if_pos hs] at h
      split at h
      · exact absurd h ha
      · exact absurd h ha
    · rw [if_neg hs] at h
      split at h
      · exact Or.inr ⟨by simpa using hs, by assumption⟩
      · exact absurd h ha

/-- In every reachable state a goal that was given up had been asked to stop. -/
def Warned (s : Server) : Prop :=
  ∀ p ∈ s.active, (p.2.abandoned = true → p.2.signalled = true) ∧ (p.2.signalled = true → p.2.cancel = true)

theorem warned_accept (env : Env) (cfg : Config) (r : Req) (s : Server) (h : Warned s) :
    Warned (accept env cfg r s) := by
  unfold accept
  by_cases hh : s.active.has r.id = true
  · rw [if_pos hh]; exact h
  · rw [if_neg hh]
    have hn : s.active.get r.id = none := by simpa [Map.has] using hh
    generalize hg : (GState.mk r.prio false false env.now false false) = g
    have hset := set_absent s.active r.id g hn
    have h2 : ∀ p ∈ s.active.set r.id g, (p.2.abandoned = true → p.2.signalled = true) ∧ (p.2.signalled = true → p.2.cancel = true) := by
      intro p hp
      rw [hset] at hp
      simp only [List.mem_append, List.mem_singleton] at hp
      rcases hp with hp | rfl
      · exact h p hp
      · rw [← hg]; simp
    unfold Warned
    simp only [publish]
    split
    · split
      · exact h2
      · intro p hp; exact h2 p (List.mem_of_mem_filter hp)
    · exact h2

theorem warned_queue (env : Env) (cfg : Config) (q : List Req) (s : Server) (h : Warned s) :
    Warned (processQueueFrom env cfg q s) := by
  induction q generalizing s with
  | nil => exact h
  | cons r q ih =>
    unfold processQueueFrom
    split
    · exact h
    · exact ih _ (warned_accept env cfg r s h)

theorem warned_modify (s : Server) (id : Nat) (f : GState → GState) (h : Warned s)
    (hf : ∀ g, (f g).abandoned = g.abandoned ∧ (f g).signalled = g.signalled ∧ (g.cancel = true → (f g).cancel = true)) :
    Warned { s with active := modify s.active id f } := by
  intro p hp
  simp only [modify, List.mem_map] at hp
  obtain ⟨q, hq, rfl⟩ := hp
  have := h q hq
  by_cases e : q.1 = id
  · simp only [e, if_true]
    obtain ⟨h1, h2, h3⟩ := hf q.2
    rw [h1, h2]
    exact ⟨this.1, fun x => h3 (this.2 x)⟩
  · simp only [e, if_false]; exact this

theorem warned_preempt (s : Server) (id : Nat) (h : Warned s) : Warned (preempt id s) :=
  warned_modify s id (fun g => { g with preempt := true }) h fun _ => ⟨rfl, rfl, fun x => x⟩

theorem warned_goal (env : Env) (cfg : Config) (r : Req) (s : Server) (h : Warned s) :
    Warned (handleGoal env cfg r s) := by
  unfold handleGoal
  simp only
  generalize hs1 : ({ s with received := s.received + 1, got := s.got ++ [r.id] } : Server) = s1
  have h1 : Warned s1 := by rw [← hs1]; exact h
  split
  · have h2 : Warned (admit cfg r s1).2 := by
      unfold admit
      split
      · exact h1
      · cases cfg.policy with
        | rejectNew => exact h1
        | preemptOld =>
          simp only
          split
          · exact h1
          · split
            · exact warned_preempt _ _ h1
            · exact h1
        | priority =>
          simp only
          split
          · split
            · exact warned_preempt _ _ h1
            · exact h1
          · exact h1
        | queue n =>
          simp only
          split <;> exact h1
    generalize hadm : admit cfg r s1 = x at h2
    obtain ⟨a, s2⟩ := x
    cases a with
    | accept => exact warned_accept env cfg r s2 h2
    | queued => exact h2
    | reject => exact h2
  · exact h1

theorem warned_drainOne (env : Env) (cfg : Config) (e : Ev) (s : Server) (h : Warned s) :
    Warned (drainOne env cfg s e) := by
  cases e with
  | feedback id v => exact h
  | completed id o =>
    apply warned_queue
    intro p hp; exact h p (List.mem_of_mem_filter hp)
  | panicked id =>
    apply warned_queue
    intro p hp; exact h p (List.mem_of_mem_filter hp)

theorem warned_drain (env : Env) (cfg : Config) (s : Server) (h : Warned s) :
    Warned (drain env cfg s) := by
  unfold drain
  have : ∀ (l : List Ev) (s : Server), Warned s → Warned (l.foldl (drainOne env cfg) s) := by
    intro l
    induction l with
    | nil => intro s h; exact h
    | cons e l ih => intro s h; exact ih _ (warned_drainOne env cfg e s h)
  exact this _ _ h

theorem warned_cancelOne (ok : Nat → Bool) (id : Nat) (s : Server) (h : Warned s) :
    Warned (cancelOne ok id s) := by
  unfold cancelOne
  split
  · split <;> exact h
  · split
    · split
      · exact warned_modify s id (fun g => { g with cancel := true }) h fun _ => ⟨rfl, rfl, fun _ => rfl⟩
      · exact h
    · exact h

theorem warned_timeouts (cfg : Config) (now : Nat) (s : Server) (h : Warned s) :
    Warned (checkTimeouts cfg now s) := by
  unfold checkTimeouts
  cases cfg.timeout with
  | none => exact h
  | some t =>
    intro p hp
    simp only [List.mem_map] at hp
    obtain ⟨q, hq, rfl⟩ := hp
    have := h q hq
    simp only
    unfold timeoutOne
    split
    · exact this
    · split
      · split
        · simp
        · exact this
      · rename_i hs
        have hs' : q.2.signalled = true := by simpa using hs
        split
        · simp [hs', this.2 hs']
        · exact this

theorem reach_warned {cfg : Config} {s : Server} (h : Reach cfg s) : Warned s := by
  obtain ⟨as, ha⟩ := h
  have hstep : ∀ a s s', Warned s → step cfg a s = some s' → Warned s' := by
    intro a s s' h hs
    cases a with
    | tick i =>
      exact tick_ind Warned hs (warned_drain _ _ _ h) (fun r s hs => warned_goal _ _ r s hs)
        (fun id s hs => warned_cancelOne _ id s hs) (fun s hs => warned_timeouts _ _ s hs)
    | feedback id v => simp only [step] at hs; cases hs; split <;> exact h
    | finish id o => simp only [step] at hs; cases hs; split <;> exact h
    | panic id => simp only [step] at hs; cases hs; split <;> exact h
    | rehash m =>
      simp only [step] at hs; cases hs
      split
      · rename_i hp; intro p hpm; exact h p (hp.mem_iff.mp hpm)
      · exact h
  have : ∀ (as : List Act) (s s' : Server), Warned s → run cfg as s = some s' → Warned s' := by
    intro as
    induction as with
    | nil => intro s s' h hr; cases hr; exact h
    | cons a as ih =>
      intro s s' h hr
      simp only [run] at hr
      cases hs : step cfg a s with
      | none => simp [hs] at hr
      | some s1 =>
        simp only [hs, Option.bind_some] at hr
        exact ih s1 s' (hstep a s s1 h hs) hr
  exact this as init s (by intro p hp; cases hp) ha

/-- A goal the server has given up on was asked to stop before, in every history. -/
theorem given_up_was_asked {cfg : Config} {s : Server} (h : Reach cfg s) (id : Nat) (g : GState)
    (hm : (id, g) ∈ s.active) (ha : g.abandoned = true) : g.cancel = true :=
  ((reach_warned h) (id, g) hm).2 (((reach_warned h) (id, g) hm).1 ha)

/-- A goal that overruns is asked to stop at the first check after its timeout and given up at the
first check after twice its timeout, whatever else happened to its flags. -/
theorem overrun_is_bounded (t n1 n2 : Nat) (g : GState) (h1 : t < n1 - g.started)
    (h2 : 2 * t < n2 - g.started) (ha : g.abandoned = false) :
    (timeoutOne t n1 g).signalled = true ∧ (timeoutOne t n2 (timeoutOne t n1 g)).abandoned = true := by
  by_cases hs : g.signalled = false
  · have e : timeoutOne t n1 g = { g with cancel := true, signalled := true } := by
      unfold timeoutOne; simp [ha, hs, h1]
    rw [e]
    refine ⟨rfl, ?_⟩
    unfold timeoutOne
    simp [ha, h2]
  · have hs' : g.signalled = true := by simpa using hs
    by_cases h3 : 2 * t < n1 - g.started
    · have e : timeoutOne t n1 g = { g with abandoned := true } := by
        unfold timeoutOne; simp [ha, hs', h3]
      rw [e]
      refine ⟨hs', ?_⟩
      unfold timeoutOne; simp
    · have e : timeoutOne t n1 g = g := by
        unfold timeoutOne; simp [ha, hs', h3]
      rw [e]
      refine ⟨hs', ?_⟩
      unfold timeoutOne; simp [ha, hs', h2]

/-- A goal within its timeout is left alone. -/
theorem in_time_untouched (t now : Nat) (g : GState) (h : now - g.started ≤ t)
    : timeoutOne t now g = g := by
  unfold timeoutOne
  split
  · rfl
  · split
    · rw [if_neg (by omega)]
    · rw [if_neg (by omega)]

end Horus.Actions
