import Mathlib.Data.Rat.Defs
import Mathlib.Algebra.Order.Field.Rat
import Mathlib.Tactic.Common
import Mathlib.Tactic.FieldSimp
import Mathlib.Tactic.Ring
import Mathlib.Data.List.Induction
/-
What a node's tick counters and health say, and who honours a safing request. Sources: /repo/horus_core/src/core/node.rs:399-487,
scheduling/rt_executor.rs:192-600, 758-790; compute_executor.rs:122-200, 304-420; async_executor.rs:123-160, 258-360; event_executor.rs:124-316;
scheduler/mod.rs:3215-3400, 4360-4367, 4478-4580, 4976-5034; primitives.rs:24-68, 369; types.rs:830-885.
-/
namespace Horus.Account

/-- The five ways a node is run. -/
inductive Class where
  | main | rt | compute | asyncIo | event
deriving DecidableEq

/-- scheduling/types.rs `NodeHealthState`. -/
inductive Health where
  | healthy | warning | unhealthy | isolated
deriving DecidableEq

/-- core/node.rs:285-345, 152-175: the counters of a node's context. `started` is `tick_start_time.is_some()`; times in milliseconds, exact;
`mn = none` is `f64::MAX`. -/
structure Ctx where
  total : Nat
  ok : Nat
  failed : Nat
  consec : Nat
  started : Bool
  avg : ℚ
  mn : Option ℚ
  mx : ℚ

/-- core/node.rs:330-345. -/
def Ctx.new : Ctx := ⟨0, 0, 0, 0, false, 0, none, 0⟩

/-- core/node.rs:399-404. -/
def Ctx.start (c : Ctx) : Ctx := { c with started := true }

/-- core/node.rs:412-452 `record_tick`. -/
def Ctx.tick (c : Ctx) (d : ℚ) : Ctx :=
  if c.started then
    { total := c.total + 1, ok := c.ok + 1, failed := c.failed, consec := 0, started := false, avg := (c.avg * c.ok + d) / (c.ok + 1), mn := match c.mn with | none => some d | some m => some (if d < m then d else m), mx := if d > c.mx then d else c.mx }
  else { c with consec := 0 }

/-- core/node.rs:459-487 `record_tick_failure`. -/
def Ctx.fail (c : Ctx) : Ctx := { c with total := c.total + 1, failed := c.failed + 1, consec := c.consec + 1, started := false }

/-- primitives.rs:369. -/
def FAILURES : Nat := 3

/-- A node as the counters see it. -/
structure Node where
  ctx : Ctx
  health : Health

/-- The check behind a failure (rt_executor.rs:557-566, compute_executor.rs:371-380, async_executor.rs:326-335, event_executor.rs:260-271). -/
def Node.mark (n : Node) : Node := if n.ctx.consec ≥ FAILURES then { n with health := .unhealthy } else n

/-- One tick of duration `d` (`bad`: it panicked), counted the way the class does it. The main thread: scheduler/mod.rs:4367, 4541-4566, 5007-5008
(a clean tick turns `Warning` into `Healthy`; failures are not looked at). Real-time: rt_executor.rs:241, 494-566. Compute: 178, 330-380.
Async: 172, 285-335. Event: event_executor.rs:216-271: there is no `start_tick`, and `record_tick` runs for failed ticks too. What the failure
policy and the degradation ladder do is left out. -/
def Node.step (k : Class) (n : Node) (t : ℚ × Bool) : Node :=
  match k with
  | .main =>
    if t.2 then { n with ctx := n.ctx.start.fail }
    else { ctx := n.ctx.start.tick t.1, health := if n.health = .warning then .healthy else n.health }
  | .rt | .compute | .asyncIo =>
    if t.2 then Node.mark { n with ctx := n.ctx.start.fail } else { n with ctx := n.ctx.start.tick t.1 }
  | .event =>
    if t.2 then Node.mark { n with ctx := (n.ctx.tick t.1).fail } else { n with ctx := n.ctx.tick t.1 }

/-- A node run for a history of ticks. -/
def run (k : Class) (h : List (ℚ × Bool)) : Node := h.foldl (Node.step k) ⟨.new, .healthy⟩

/-! ### Specification -/

def bads (h : List (ℚ × Bool)) : Nat := (h.filter fun t => t.2).length
def goods (h : List (ℚ × Bool)) : List ℚ := (h.filter fun t => !t.2).map (·.1)

theorem run_snoc (k : Class) (h : List (ℚ × Bool)) (t : ℚ × Bool) : run k (h ++ [t]) = (run k h).step k t := by
  unfold run
  rw [List.foldl_append]
  rfl

theorem bads_snoc (h : List (ℚ × Bool)) (t : ℚ × Bool) : bads (h ++ [t]) = bads h + if t.2 then 1 else 0 := by
  unfold bads
  rw [List.filter_append, List.length_append]
  cases ht : t.2 <;> simp [ht]

theorem goods_snoc (h : List (ℚ × Bool)) (t : ℚ × Bool) : goods (h ++ [t]) = goods h ++ if t.2 then [] else [t.1] := by
  unfold goods
  rw [List.filter_append, List.map_append]
  cases ht : t.2 <;> simp [ht]

theorem start_tick (c : Ctx) (d : ℚ) : c.start.tick d = ⟨c.total + 1, c.ok + 1, c.failed, 0, false, (c.avg * c.ok + d) / (c.ok + 1), match c.mn with | none => some d | some m => some (if d < m then d else m), if d > c.mx then d else c.mx⟩ := rfl

theorem mark_ctx (n : Node) : n.mark.ctx = n.ctx := by unfold Node.mark; split <;> rfl

/-- **The counters are right** for nodes of every class but event: every tick counts once, as a success or a failure; the mean, the shortest
and the longest are those of the successful ticks. -/
theorem counters (k : Class) (hk : k ≠ .event) (h : List (ℚ × Bool)) (hpos : ∀ t ∈ h, 0 ≤ t.1) :
    (run k h).ctx.total = h.length ∧ (run k h).ctx.failed = bads h ∧ (run k h).ctx.ok = (goods h).length ∧
    (run k h).ctx.avg * (goods h).length = (goods h).sum ∧
    ((goods h = [] → (run k h).ctx.mn = none ∧ (run k h).ctx.mx = 0) ∧
     (goods h ≠ [] → (∃ m, (run k h).ctx.mn = some m ∧ m ∈ goods h ∧ ∀ d ∈ goods h, m ≤ d) ∧ (∃ d ∈ goods h, (run k h).ctx.mx ≤ d) ∧ ∀ d ∈ goods h, d ≤ (run k h).ctx.mx)) := by
  induction h using List.reverseRecOn with
  | nil => refine ⟨rfl, rfl, rfl, ?_, fun _ => ⟨rfl, rfl⟩, fun hc => absurd rfl hc⟩; simp [goods]
  | append_singleton h t ih =>
    obtain ⟨i1, i2, i3, i4, i5, i6⟩ := ih (fun x hx => hpos x (List.mem_append_left _ hx))
    have ht0 : 0 ≤ t.1 := hpos t (by simp)
    have hctx : ((run k h).step k t).ctx = if t.2 then (run k h).ctx.start.fail else (run k h).ctx.start.tick t.1 := by
      cases k <;> first | exact absurd rfl hk | (unfold Node.step; dsimp only; split <;> first | rfl | exact mark_ctx _)
    rw [run_snoc, hctx, bads_snoc, goods_snoc, List.length_append]
    cases hb : t.2
    · simp only [Bool.false_eq_true, if_false]
      rw [start_tick]
      generalize (run k h).ctx = c at i1 i2 i3 i4 i5 i6 ⊢
      dsimp only
      refine ⟨by rw [i1]; rfl, by rw [i2]; rfl, by rw [i3, List.length_append]; rfl, ?_, ?_, ?_⟩
      · rw [List.length_append, List.sum_append, ← i4, i3]
        have : ((goods h).length : ℚ) + 1 ≠ 0 := by exact_mod_cast Nat.succ_ne_zero (goods h).length
        push_cast
        simp only [List.length_singleton, List.sum_singleton, Nat.cast_one]
        field_simp
      · intro hc
        simp at hc
      · intro _
        by_cases hg : goods h = []
        · obtain ⟨a, b⟩ := i5 hg
          simp only [hg, a, b]
          refine ⟨⟨t.1, rfl, by simp, by simp⟩, ⟨t.1, by simp, ?_⟩, ?_⟩
          · split
            · exact le_refl _
            · exact ht0
          · intro d hd
            simp only [List.nil_append, List.mem_singleton] at hd
            subst hd
            split
            · exact le_refl _
            · rename_i hn; exact not_lt.1 hn
        · obtain ⟨⟨m, hm, hmem, hle⟩, ⟨d0, hd0, hmx⟩, hup⟩ := i6 hg
          rw [hm]
          dsimp only
          refine ⟨?_, ?_, ?_⟩
          · by_cases hlt : t.1 < m
            · rw [if_pos hlt]
              refine ⟨t.1, rfl, by simp, ?_⟩
              intro d hd
              rcases List.mem_append.1 hd with hd | hd
              · exact le_trans hlt.le (hle d hd)
              · simp only [List.mem_singleton] at hd; exact le_of_eq hd.symm
            · rw [if_neg hlt]
              refine ⟨m, rfl, List.mem_append_left _ hmem, ?_⟩
              intro d hd
              rcases List.mem_append.1 hd with hd | hd
              · exact hle d hd
              · simp only [List.mem_singleton] at hd; rw [hd]; exact not_lt.1 hlt
          · by_cases hgt : t.1 > c.mx
            · rw [if_pos hgt]; exact ⟨t.1, by simp, le_refl _⟩
            · rw [if_neg hgt]; exact ⟨d0, List.mem_append_left _ hd0, hmx⟩
          · intro d hd
            by_cases hgt : t.1 > c.mx
            · rw [if_pos hgt]
              rcases List.mem_append.1 hd with hd | hd
              · exact le_trans (hup d hd) hgt.le
              · simp only [List.mem_singleton] at hd; exact le_of_eq hd
            · rw [if_neg hgt]
              rcases List.mem_append.1 hd with hd | hd
              · exact hup d hd
              · simp only [List.mem_singleton] at hd; rw [hd]; exact not_lt.1 hgt
    · simp only [if_true, List.append_nil]
      exact ⟨by rw [← i1]; rfl, by rw [← i2]; rfl, i3, i4, i5, i6⟩

/-- **Event nodes count their failures only.** Whatever the history, `successful_ticks` is 0 and `total_ticks` is the number of panics. -/
theorem event_counts_failures (h : List (ℚ × Bool)) : (run .event h).ctx.total = bads h ∧ (run .event h).ctx.failed = bads h ∧ (run .event h).ctx.ok = 0 ∧
    (run .event h).ctx.started = false := by
  induction h using List.reverseRecOn with
  | nil => exact ⟨rfl, rfl, rfl, rfl⟩
  | append_singleton h t ih =>
    obtain ⟨i1, i2, i3, i4⟩ := ih
    rw [run_snoc, bads_snoc]
    have hT : (run .event h).ctx.tick t.1 = { (run .event h).ctx with consec := 0 } := by unfold Ctx.tick; rw [if_neg (by rw [i4]; decide)]
    unfold Node.step
    dsimp only
    rw [hT]
    cases hb : t.2
    · simp only [Bool.false_eq_true, if_false]
      exact ⟨i1, i2, i3, i4⟩
    · simp only [if_true, mark_ctx]
      exact ⟨by rw [← i1]; rfl, by rw [← i2]; rfl, i3, rfl⟩

/-- The last `n` ticks all panicked. -/
def EndsBad (n : Nat) (h : List (ℚ × Bool)) : Prop := ∃ pre post, h = pre ++ post ∧ post.length = n ∧ ∀ t ∈ post, t.2 = true

/-- Three panics in a row at some point. -/
def ThreeInARow (h : List (ℚ × Bool)) : Prop := ∃ pre a b c post, h = pre ++ [a, b, c] ++ post ∧ a.2 = true ∧ b.2 = true ∧ c.2 = true

theorem endsBad_succ (n : Nat) (h : List (ℚ × Bool)) (t : ℚ × Bool) : EndsBad (n + 1) (h ++ [t]) ↔ t.2 = true ∧ EndsBad n h := by
  constructor
  · rintro ⟨pre, post, he, hl, hb⟩
    rcases List.eq_nil_or_concat post with h0 | ⟨p, x, hp⟩
    · subst h0; simp at hl
    · subst hp
      rw [List.concat_eq_append, ← List.append_assoc] at he
      obtain ⟨e1, e2⟩ := List.append_inj' he rfl
      injection e2 with e2 _
      subst e2
      refine ⟨hb t (by simp), pre, p, e1, by simpa using hl, fun u hu => hb u (by simp [hu])⟩
  · rintro ⟨ht, pre, post, he, hl, hb⟩
    subst he
    refine ⟨pre, post ++ [t], by rw [List.append_assoc], by rw [List.length_append, hl]; rfl, ?_⟩
    intro u hu
    rcases List.mem_append.1 hu with hu | hu
    · exact hb u hu
    · rw [List.mem_singleton.1 hu]; exact ht

theorem endsBad_mono (n m : Nat) (h : List (ℚ × Bool)) (hnm : m ≤ n) (he : EndsBad n h) : EndsBad m h := by
  obtain ⟨pre, post, h1, h2, h3⟩ := he
  refine ⟨pre ++ post.take (n - m), post.drop (n - m), ?_, ?_, fun t ht => h3 t (List.mem_of_mem_drop ht)⟩
  · rw [h1, List.append_assoc, List.take_append_drop]
  · rw [List.length_drop]; omega

/-- The counter of failures in a row. -/
theorem consec_spec (k : Class) (hk : k ≠ .event) (h : List (ℚ × Bool)) (n : Nat) : n ≤ (run k h).ctx.consec ↔ EndsBad n h := by
  induction h using List.reverseRecOn generalizing n with
  | nil =>
    show n ≤ 0 ↔ _
    constructor
    · intro hn
      exact ⟨[], [], rfl, by simp; omega, by simp⟩
    · rintro ⟨pre, post, he, hl, _⟩
      have := congrArg List.length he
      rw [List.length_append, hl] at this
      simp at this
      omega
  | append_singleton h t ih =>
    have hctx : ((run k h).step k t).ctx = if t.2 then (run k h).ctx.start.fail else (run k h).ctx.start.tick t.1 := by
      cases k <;> first | exact absurd rfl hk | (unfold Node.step; dsimp only; split <;> first | rfl | exact mark_ctx _)
    rw [run_snoc, hctx]
    cases n with
    | zero => exact ⟨fun _ => ⟨h ++ [t], [], by simp, rfl, by simp⟩, fun _ => Nat.zero_le _⟩
    | succ n =>
      rw [endsBad_succ]
      cases hb : t.2
      · simp only [Bool.false_eq_true, if_false, false_and, iff_false]
        have : ((run k h).ctx.start.tick t.1).consec = 0 := by unfold Ctx.tick; split <;> rfl
        rw [this]
        omega
      · simp only [if_true, true_and]
        rw [← ih n]
        show n + 1 ≤ (run k h).ctx.consec + 1 ↔ _
        omega

theorem three_snoc (h : List (ℚ × Bool)) (t : ℚ × Bool) : ThreeInARow (h ++ [t]) ↔ ThreeInARow h ∨ EndsBad 3 (h ++ [t]) := by
  constructor
  · rintro ⟨pre, a, b, c, post, he, ha, hb, hc⟩
    rcases List.eq_nil_or_concat post with h0 | ⟨p, x, hp⟩
    · subst h0
      right
      refine ⟨pre, [a, b, c], by rw [he, List.append_nil], rfl, ?_⟩
      intro u hu
      simp only [List.mem_cons, List.not_mem_nil, or_false] at hu
      rcases hu with rfl | rfl | rfl <;> assumption
    · subst hp
      rw [List.concat_eq_append, ← List.append_assoc] at he
      obtain ⟨e1, _⟩ := List.append_inj' he rfl
      exact Or.inl ⟨pre, a, b, c, p, e1, ha, hb, hc⟩
  · rintro (⟨pre, a, b, c, post, he, ha, hb, hc⟩ | ⟨pre, post, he, hl, hall⟩)
    · exact ⟨pre, a, b, c, post ++ [t], by rw [he]; simp, ha, hb, hc⟩
    · match post, hl with
      | [a, b, c], _ => exact ⟨pre, a, b, c, [], by rw [he, List.append_nil], hall a (by simp), hall b (by simp), hall c (by simp)⟩

/-- **Sustained failure shows** for real-time, compute and async nodes: the node is marked unhealthy exactly when three ticks in a row have
panicked at some point. -/
theorem unhealthy_iff (k : Class) (hk : k = .rt ∨ k = .compute ∨ k = .asyncIo) (h : List (ℚ × Bool)) :
    ((run k h).health = .unhealthy ↔ ThreeInARow h) ∧ ((run k h).health = .healthy ∨ (run k h).health = .unhealthy) := by
  have hke : k ≠ .event := by rcases hk with rfl | rfl | rfl <;> decide
  induction h using List.reverseRecOn with
  | nil =>
    refine ⟨⟨fun hc => absurd (show Health.healthy = .unhealthy from hc) (by decide), ?_⟩, Or.inl rfl⟩
    rintro ⟨pre, a, b, c, post, he, _⟩
    have := congrArg List.length he
    simp at this
  | append_singleton h t ih =>
    have hstep : ∀ n : Node, n.step k t = if t.2 then Node.mark { n with ctx := n.ctx.start.fail } else { n with ctx := n.ctx.start.tick t.1 } := by
      intro n; rcases hk with rfl | rfl | rfl <;> rfl
    have hc := consec_spec k hke (h ++ [t]) 3
    rw [run_snoc] at hc
    rw [three_snoc, run_snoc, ← hc, hstep]
    cases hb : t.2
    · simp only [Bool.false_eq_true, if_false]
      have : ((run k h).ctx.start.tick t.1).consec = 0 := by unfold Ctx.tick; split <;> rfl
      rw [this]
      refine ⟨?_, ih.2⟩
      rw [ih.1]
      simp
    · simp only [if_true]
      rw [mark_ctx]
      unfold Node.mark FAILURES
      dsimp only
      by_cases h3 : 3 ≤ (run k h).ctx.start.fail.consec
      · rw [if_pos h3]
        exact ⟨⟨fun _ => Or.inr h3, fun _ => rfl⟩, Or.inr rfl⟩
      · rw [if_neg h3]
        refine ⟨?_, ih.2⟩
        dsimp only
        rw [ih.1]
        simp [h3]

/-- **An event node that panics on every tick stays healthy.** Each panic follows its own `record_tick`, so the run of failures is never longer
than one. -/
theorem event_never_unhealthy (h : List (ℚ × Bool)) : (run .event h).health = .healthy ∧ (run .event h).ctx.consec ≤ 1 := by
  induction h using List.reverseRecOn with
  | nil => exact ⟨rfl, Nat.zero_le _⟩
  | append_singleton h t ih =>
    rw [run_snoc]
    have h0 : ((run .event h).ctx.tick t.1).consec = 0 := by unfold Ctx.tick; split <;> rfl
    unfold Node.step
    dsimp only
    cases hb : t.2
    · simp only [Bool.false_eq_true, if_false]
      exact ⟨ih.1, by rw [h0]; omega⟩
    · simp only [if_true]
      have h1 : ((run .event h).ctx.tick t.1).fail.consec = 1 := by show ((run .event h).ctx.tick t.1).consec + 1 = 1; rw [h0]
      unfold Node.mark FAILURES
      dsimp only
      rw [if_neg (by rw [h1]; decide)]
      exact ⟨ih.1, le_of_eq h1⟩

/-- **A main-thread node that panics on every tick stays healthy**: no number of failures is looked at there. -/
theorem main_never_unhealthy (h : List (ℚ × Bool)) : (run .main h).health = .healthy := by
  induction h using List.reverseRecOn with
  | nil => rfl
  | append_singleton h t ih =>
    rw [run_snoc]
    unfold Node.step
    dsimp only
    split
    · exact ih
    · dsimp only; rw [ih]; rfl

/-- **Once unhealthy, always unhealthy**: on an executor no number of good ticks takes the mark away. -/
theorem mark_stays (k : Class) (hk : k = .rt ∨ k = .compute ∨ k = .asyncIo) (h g : List (ℚ × Bool)) (hu : (run k h).health = .unhealthy) :
    (run k (h ++ g)).health = .unhealthy := by
  rw [(unhealthy_iff k hk _).1] at hu ⊢
  obtain ⟨pre, a, b, c, post, he, ha, hb, hc⟩ := hu
  exact ⟨pre, a, b, c, post ++ g, by rw [he]; simp, ha, hb, hc⟩

example : (run .compute [(1, true), (2, true), (3, true), (1, false)]).health = .unhealthy := by decide +kernel
example : (run .compute [(1, true), (2, true), (3, false), (1, true)]).health = .healthy := by decide +kernel
example : (run .event [(1, true), (2, true), (3, true), (4, true)]).health = .healthy := by decide +kernel
example : (run .rt [(1, false), (3, false), (7, true)]).ctx.avg = 2 := by decide +kernel

/-! ### The watchdog ladder's marks -/

/-- safety_monitor.rs `WatchdogSeverity` (without `Ok`). -/
inductive Sev where
  | warning | expired | critical
deriving DecidableEq

/-- scheduler/mod.rs:3250-3303 and 3364-3390: one rung; the second part says whether safing is called or requested. -/
def rung (cur : Health) : Sev → Health × Bool
  | .warning => (if cur = .healthy then .warning else cur, false)
  | .expired => (if cur ≠ .unhealthy ∧ cur ≠ .isolated then .unhealthy else cur, false)
  | .critical => if cur ≠ .isolated then (.isolated, true) else (cur, false)

/-- What happens to a main-thread node's health: the ladder, and ticks that end well while the degradation ladder has nothing to undo. -/
inductive Ev where
  | ladder (s : Sev)
  | good
deriving DecidableEq

/-- scheduler/mod.rs:3250-3303, 4556-4566. -/
def ev (h : Health) : Ev → Health
  | .ladder s => (rung h s).1
  | .good => if h = .warning then .healthy else h

def Health.rank : Health → Nat
  | .healthy => 0
  | .warning => 1
  | .unhealthy => 2
  | .isolated => 3

/-- The ladder only climbs. -/
theorem rung_climbs (h : Health) (s : Sev) : h.rank ≤ (rung h s).1.rank := by cases h <;> cases s <;> decide

/-- Safing is asked for exactly when the node becomes isolated, so at most once. -/
theorem safing_once (h : Health) (s : Sev) : (rung h s).2 = true ↔ h ≠ .isolated ∧ (rung h s).1 = .isolated := by cases h <;> cases s <;> decide

/-- **A warning clears with the next good tick; an expired watchdog does not.** From `Unhealthy` on, good ticks change nothing: the probe tick
every hundred cycles cannot bring such a node back. -/
theorem unhealthy_absorbs (es : List Ev) (h : Health) (hr : 2 ≤ h.rank) : 2 ≤ (es.foldl ev h).rank := by
  induction es generalizing h with
  | nil => exact hr
  | cons e es ih =>
    apply ih
    cases e with
    | ladder s => exact le_trans hr (rung_climbs h s)
    | good => cases h <;> first | exact absurd hr (by decide) | exact hr

example : [Ev.ladder .warning, .good].foldl ev .healthy = .healthy := rfl
example : [Ev.ladder .expired, .good, .good].foldl ev .healthy = .unhealthy := rfl

/-! ### Safing requests -/

/-- A node on an executor, as far as safing goes. -/
structure Owned where
  initialized : Bool
  stopped : Bool
  paused : Bool
  allowed : Bool
  due : Bool
  shed : Bool
  requested : Bool
  safed : Nat
  panics : Bool
deriving DecidableEq

/-- primitives.rs:36-68 `honor_safe_state_request`: takes the request, calls `enter_safe_state`; a panic in it stops the node. -/
def honor (o : Owned) : Owned :=
  if o.requested then
    if o.panics then { o with requested := false, stopped := true } else { o with requested := false, safed := o.safed + 1 }
  else o

/-- compute_executor.rs:127-152: is the node ready? -/
def Owned.ready (o : Owned) : Bool := o.initialized && !o.stopped && !o.paused && o.allowed && o.due && !o.shed

/-- The safing part of one pass of an executor: rt_executor.rs:764-772, compute_executor.rs:154-168, async_executor.rs:131-133,
event_executor.rs:158-162 (one node). -/
def pass (k : Class) (os : List Owned) : List Owned :=
  match k with
  | .rt => os.map fun o => if !o.initialized || o.stopped then o else honor o
  | .compute => if os.any Owned.ready then os.map honor else os
  | .asyncIo | .event => os.map honor
  | .main => os

/-- The node is safed, or could not be and is stopped. -/
def Safed (before after : Owned) : Prop := after.requested = false ∧ (before.panics = false → after.safed = before.safed + 1) ∧ (before.panics = true → after.stopped = true)

theorem honor_safed (o : Owned) (h : o.requested = true) : Safed o (honor o) := by
  unfold honor Safed
  rw [if_pos h]
  cases hp : o.panics <;> simp

/-- **Async and event executors honour every request on the next pass**, whatever state the node is in. -/
theorem async_honours (k : Class) (hk : k = .asyncIo ∨ k = .event) (os : List Owned) (i : Nat) (hi : i < os.length) (h : os[i].requested = true) :
    ∃ o', (pass k os)[i]? = some o' ∧ Safed os[i] o' := by
  refine ⟨honor os[i], ?_, honor_safed _ h⟩
  rcases hk with rfl | rfl <;> (unfold pass; dsimp only; rw [List.getElem?_map, List.getElem?_eq_getElem hi]; rfl)

/-- The real-time executor honours the requests of its initialised nodes that are not stopped. -/
theorem rt_honours (os : List Owned) (i : Nat) (hi : i < os.length) (h : os[i].requested = true) (h1 : os[i].initialized = true) (h2 : os[i].stopped = false) :
    ∃ o', (pass .rt os)[i]? = some o' ∧ Safed os[i] o' := by
  refine ⟨honor os[i], ?_, honor_safed _ h⟩
  unfold pass
  dsimp only
  rw [List.getElem?_map, List.getElem?_eq_getElem hi]
  simp [h1, h2]

/-- **The compute pool honours a request exactly when some node of the pool is ready to tick in that pass.** -/
theorem compute_honours_iff (os : List Owned) (i : Nat) (hi : i < os.length) (h : os[i].requested = true) :
    (∃ o', (pass .compute os)[i]? = some o' ∧ Safed os[i] o') ↔ ∃ o ∈ os, o.ready = true := by
  unfold pass
  dsimp only
  by_cases hr : os.any Owned.ready = true
  · rw [if_pos hr]
    refine ⟨fun _ => List.any_eq_true.1 hr, fun _ => ⟨honor os[i], ?_, honor_safed _ h⟩⟩
    rw [List.getElem?_map, List.getElem?_eq_getElem hi]
    rfl
  · rw [if_neg hr]
    constructor
    · rintro ⟨o', ho, hs⟩
      rw [List.getElem?_eq_getElem hi] at ho
      injection ho with ho
      subst ho
      rw [hs.1] at h
      cases h
    · intro hc
      exact absurd (List.any_eq_true.2 hc) hr

/-- **A compute pool whose only node does not tick never safes it**, however many passes it makes: a node in its failure cool-down. -/
theorem compute_request_lost : ∃ o : Owned, o.requested = true ∧ o.initialized = true ∧ o.stopped = false ∧ ∀ n, ((pass .compute)^[n]) [o] = [o] := by
  refine ⟨⟨true, false, false, false, true, false, true, 0, false⟩, rfl, rfl, rfl, fun n => ?_⟩
  induction n with
  | zero => rfl
  | succ n ih => rw [Function.iterate_succ_apply]; exact ih

end Horus.Account
