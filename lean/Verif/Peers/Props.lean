import Verif.Peers.Model
import Mathlib.Tactic.Common
import Mathlib.Data.List.Nodup
import Mathlib.Data.List.Induction
/-
Properties C17 (link supervision) and C18 (peer table), and the bound on per-peer state.
-/
namespace Horus.Peers

/-! ### Histories of the heartbeat manager -/

/-- What can happen to the heartbeat manager, with the clock reading. -/
inductive Ev
  | add (p : PeerId) (addr : Nat) (t : Nat)
  | remove (p : PeerId) (t : Nat)
  | recv (p : PeerId) (t : Nat)
  | tick (t : Nat)

/-- The clock reading of an event. -/
def Ev.time : Ev → Nat
  | .add _ _ t | .remove _ t | .recv _ t | .tick t => t

/-- One event through the heartbeat manager (heartbeat.rs `add_peer`, `remove_peer`, `on_heartbeat_received`, `tick`). -/
def Heartbeat.apply (h : Heartbeat) : Ev → Heartbeat
  | .add p a t => h.addPeer p a t
  | .remove p _ => h.removePeer p
  | .recv p t => h.onReceived p t
  | .tick t => (h.tick t).1

/-- State after a history. -/
def Heartbeat.run (h : Heartbeat) (evs : List Ev) : Heartbeat := evs.foldl Heartbeat.apply h

/-- Peers reported as lost by a check at `now`. -/
def Heartbeat.reports (h : Heartbeat) (now : Nat) : List PeerId := (h.tick now).2

/-- The clock readings of a history do not decrease. -/
def Clock (evs : List Ev) : Prop := evs.Pairwise fun a b => a.time ≤ b.time

theorem apply_cfg (h : Heartbeat) (e : Ev) :
    (h.apply e).interval = h.interval ∧ (h.apply e).threshold = h.threshold := by
  cases e with
  | add p a t => simp only [Heartbeat.apply, Heartbeat.addPeer]; split <;> simp
  | remove p t => simp [Heartbeat.apply, Heartbeat.removePeer]
  | recv p t => simp only [Heartbeat.apply, Heartbeat.onReceived]; split <;> simp
  | tick t => simp [Heartbeat.apply, Heartbeat.tick]

theorem run_cfg (evs : List Ev) (h : Heartbeat) :
    (h.run evs).interval = h.interval ∧ (h.run evs).threshold = h.threshold := by
  induction evs generalizing h with
  | nil => exact ⟨rfl, rfl⟩
  | cons e evs ih =>
    obtain ⟨a, b⟩ := ih (h.apply e)
    obtain ⟨c, d⟩ := apply_cfg h e
    exact ⟨a.trans c, b.trans d⟩

theorem apply_ok (h : Heartbeat) (hk : Map.Ok h.peers) (e : Ev) : Map.Ok (h.apply e).peers := by
  cases e with
  | add p a t =>
    simp only [Heartbeat.apply, Heartbeat.addPeer]
    split
    · exact hk
    · exact hk.set _ _
  | remove p t => exact hk.del _
  | recv p t =>
    simp only [Heartbeat.apply, Heartbeat.onReceived]
    split
    · exact hk.set _ _
    · exact hk
  | tick t =>
    exact Map.Ok.mapVal hk fun s => (s.tick h.interval h.threshold t).1

theorem run_ok (evs : List Ev) (h : Heartbeat) (hk : Map.Ok h.peers) : Map.Ok (h.run evs).peers := by
  induction evs generalizing h with
  | nil => exact hk
  | cons e evs ih => exact ih _ (apply_ok h hk e)

theorem get_tick (h : Heartbeat) (t : Nat) (p : PeerId) :
    Map.get (h.tick t).1.peers p = (Map.get h.peers p).map fun s => (s.tick h.interval h.threshold t).1 :=
  Map.get_mapVal h.peers (fun s => (s.tick h.interval h.threshold t).1) p

/-- The per-peer effect of one event. -/
theorem get_apply (h : Heartbeat) (e : Ev) (p : PeerId) :
    Map.get (h.apply e).peers p =
      (match e with
       | .add q a t =>
         if q = p ∧ Map.get h.peers p = none then
           some { addr := a, lastSent := t - h.interval, lastReceived := t, missedCount := 0, firstSeen := t, everReceived := false, linkAlive := true, actionFired := false }
         else Map.get h.peers p
       | .remove q _ => if q = p then none else Map.get h.peers p
       | .recv q t => if q = p then (Map.get h.peers p).map fun s => s.received t else Map.get h.peers p
       | .tick t => (Map.get h.peers p).map fun s => (s.tick h.interval h.threshold t).1) := by
  cases e with
  | add q a t =>
    simp only [Heartbeat.apply, Heartbeat.addPeer]
    cases hg : Map.get h.peers q with
    | none =>
      simp only [Map.get_set]
      by_cases e : q = p
      · subst e; simp [hg]
      · simp [e]
    | some s =>
      by_cases e : q = p
      · subst e; simp [hg]
      · simp [e]
  | remove q t => simp [Heartbeat.apply, Heartbeat.removePeer, Map.get_del]
  | recv q t =>
    simp only [Heartbeat.apply, Heartbeat.onReceived]
    cases hg : Map.get h.peers q with
    | none =>
      by_cases e : q = p
      · subst e; simp [hg]
      · simp [e]
    | some s =>
      simp only [Map.get_set]
      by_cases e : q = p
      · subst e; simp [hg]
      · simp [e]
  | tick t => exact get_tick h t p

/-! #### one peer -/

theorem tick_fields (i th : Nat) (s : HbState) (t : Nat) :
    (s.tick i th t).1.lastReceived = s.lastReceived ∧ (s.tick i th t).1.firstSeen = s.firstSeen ∧
    (s.tick i th t).1.everReceived = s.everReceived := by
  unfold HbState.tick
  by_cases h1 : t - s.lastSent ≥ i <;> simp only [h1, decide_true, decide_false, if_true, Bool.false_eq_true, if_false] <;>
    split <;> (try split) <;> simp

/-- When exactly a check reports a peer. -/
theorem tick_report_iff (i th : Nat) (s : HbState) (t : Nat) :
    (s.tick i th t).2.2 = true ↔
      s.introduced t = true ∧ expectedCount i (t - s.lastReceived) ≥ th ∧ s.linkAlive = true ∧
        s.actionFired = false := by
  unfold HbState.tick
  by_cases h1 : t - s.lastSent ≥ i <;> simp only [h1, decide_true, decide_false, if_true, Bool.false_eq_true, if_false] <;>
    simp only [HbState.introduced] <;>
    by_cases h2 : (s.everReceived || decide (t - s.firstSeen > GRACE)) = true <;>
    by_cases h3 : expectedCount i (t - s.lastReceived) ≥ th <;>
    cases h4 : s.linkAlive <;> cases h5 : s.actionFired <;> simp [h2, h3, h4, h5]

/-- Alive afterwards iff alive before and not declared dead. -/
theorem tick_alive (i th : Nat) (s : HbState) (t : Nat) :
    (s.tick i th t).1.linkAlive =
      (s.linkAlive && !(s.introduced t && decide (expectedCount i (t - s.lastReceived) ≥ th))) := by
  unfold HbState.tick
  by_cases h1 : t - s.lastSent ≥ i <;> simp only [h1, decide_true, decide_false, if_true, Bool.false_eq_true, if_false] <;>
    simp only [HbState.introduced] <;>
    by_cases h2 : (s.everReceived || decide (t - s.firstSeen > GRACE)) = true <;>
    by_cases h3 : expectedCount i (t - s.lastReceived) ≥ th <;>
    cases h4 : s.linkAlive <;> cases h5 : s.actionFired <;> simp [h2, h3, h4, h5]

theorem tick_fired (i th : Nat) (s : HbState) (t : Nat) :
    (s.tick i th t).1.actionFired =
      (s.actionFired || (s.linkAlive && (s.introduced t && decide (expectedCount i (t - s.lastReceived) ≥ th)))) := by
  unfold HbState.tick
  by_cases h1 : t - s.lastSent ≥ i <;> simp only [h1, decide_true, decide_false, if_true, Bool.false_eq_true, if_false] <;>
    simp only [HbState.introduced] <;>
    by_cases h2 : (s.everReceived || decide (t - s.firstSeen > GRACE)) = true <;>
    by_cases h3 : expectedCount i (t - s.lastReceived) ≥ th <;>
    cases h4 : s.linkAlive <;> cases h5 : s.actionFired <;> simp [h2, h3, h4, h5]

theorem mem_reports (h : Heartbeat) (hk : Map.Ok h.peers) (t : Nat) (p : PeerId) :
    p ∈ h.reports t ↔ ∃ s, Map.get h.peers p = some s ∧ (s.tick h.interval h.threshold t).2.2 = true :=
  Map.mem_filter_keys hk (fun s => (s.tick h.interval h.threshold t).2.2) p

/-- A peer appears at most once in the report of one check. -/
theorem reports_nodup (h : Heartbeat) (hk : Map.Ok h.peers) (t : Nat) : (h.reports t).Nodup := by
  have := hk.filter (fun x => (x.2.tick h.interval h.threshold t).2.2)
  exact this

/-! ### C17 -/

/-- Invariant: for a tracked peer, every heartbeat received so far is no later than the recorded
one, and "alive" and "already reported" exclude each other. -/
def Inv (h : Heartbeat) (evs : List Ev) : Prop :=
  ∀ p s, Map.get h.peers p = some s →
    (∀ t, Ev.recv p t ∈ evs → t ≤ s.lastReceived) ∧ (s.actionFired = !s.linkAlive) ∧
    s.lastReceived ≥ s.firstSeen

theorem inv_apply (h : Heartbeat) (evs : List Ev) (e : Ev) (hi : Inv h evs)
    (hc : ∀ e' ∈ evs, e'.time ≤ e.time)
    (hl : ∀ p s, Map.get h.peers p = some s → s.firstSeen ≤ e.time) :
    Inv (h.apply e) (evs ++ [e]) := by
  intro p s hs
  rw [get_apply] at hs
  cases e with
  | add q a t =>
    simp only at hs
    by_cases hq : q = p ∧ Map.get h.peers p = none
    · rw [if_pos hq] at hs
      simp only [Option.some.injEq] at hs
      subst hs
      refine ⟨?_, rfl, Nat.le_refl _⟩
      intro t' ht'
      simp only [List.mem_append, List.mem_singleton, reduceCtorEq, or_false] at ht'
      exact hc _ ht'
    · rw [if_neg hq] at hs
      obtain ⟨h1, h2, h3⟩ := hi p s hs
      refine ⟨?_, h2, h3⟩
      intro t' ht'
      simp only [List.mem_append, List.mem_singleton, reduceCtorEq, or_false] at ht'
      exact h1 _ ht'
  | remove q t =>
    simp only at hs
    by_cases hq : q = p
    · simp [hq] at hs
    · rw [if_neg hq] at hs
      obtain ⟨h1, h2, h3⟩ := hi p s hs
      refine ⟨?_, h2, h3⟩
      intro t' ht'
      simp only [List.mem_append, List.mem_singleton, reduceCtorEq, or_false] at ht'
      exact h1 _ ht'
  | recv q t =>
    simp only at hs
    by_cases hq : q = p
    · subst hq
      simp only [if_true, Option.map_eq_some_iff] at hs
      obtain ⟨s0, hs0, rfl⟩ := hs
      have hl0 := hl q s0 hs0
      obtain ⟨h1, h2, h3⟩ := hi q s0 hs0
      have e1 : (s0.received t).lastReceived = t := by
        simp only [HbState.received]; split <;> rfl
      have e2 : (s0.received t).firstSeen = s0.firstSeen := by
        simp only [HbState.received]; split <;> rfl
      refine ⟨?_, ?_, ?_⟩
      · intro t' ht'
        rw [e1]
        simp only [List.mem_append, List.mem_singleton, Ev.recv.injEq, true_and] at ht'
        rcases ht' with h | h
        · exact hc _ h
        · omega
      · simp only [HbState.received]
        cases ha : s0.linkAlive <;> simp [ha] at h2 ⊢ <;> exact h2
      · rw [e1, e2]; exact hl0
    · rw [if_neg hq] at hs
      obtain ⟨h1, h2, h3⟩ := hi p s hs
      refine ⟨?_, h2, h3⟩
      intro t' ht'
      simp only [List.mem_append, List.mem_singleton, Ev.recv.injEq] at ht'
      rcases ht' with h | h
      · exact h1 _ h
      · exact absurd h.1.symm hq
  | tick t =>
    simp only [Option.map_eq_some_iff] at hs
    obtain ⟨s0, hs0, rfl⟩ := hs
    obtain ⟨h1, h2, h3⟩ := hi p s0 hs0
    obtain ⟨f1, f2, f3⟩ := tick_fields h.interval h.threshold s0 t
    refine ⟨?_, ?_, by rw [f1, f2]; exact h3⟩
    · intro t' ht'
      rw [f1]
      simp only [List.mem_append, List.mem_singleton, reduceCtorEq, or_false] at ht'
      exact h1 _ ht'
    · rw [tick_fired, tick_alive, h2]
      cases s0.linkAlive <;> simp

/-- All recorded first-seen instants come from the history. -/
theorem firstSeen_le (evs : List Ev) (iv th T : Nat) (hT : ∀ e ∈ evs, e.time ≤ T) :
    ∀ p s, Map.get ((Heartbeat.new iv th).run evs).peers p = some s → s.firstSeen ≤ T := by
  induction evs using List.reverseRecOn with
  | nil => intro p s hs; simp [Heartbeat.run, Heartbeat.new] at hs
  | append_singleton evs e ih =>
    intro p s hs
    have ih := ih (fun e' he' => hT e' (by simp [he']))
    simp only [Heartbeat.run, List.foldl_append, List.foldl_cons, List.foldl_nil] at hs ih
    rw [get_apply] at hs
    cases e with
    | add q a t =>
      simp only at hs
      split at hs
      · simp only [Option.some.injEq] at hs; subst hs; exact hT (.add q a t) (by simp)
      · exact ih p s hs
    | remove q t =>
      simp only at hs
      split at hs
      · simp at hs
      · exact ih p s hs
    | recv q t =>
      simp only at hs
      split at hs
      · simp only [Option.map_eq_some_iff] at hs
        obtain ⟨s0, hs0, rfl⟩ := hs
        have : (s0.received t).firstSeen = s0.firstSeen := by simp only [HbState.received]; split <;> rfl
        rw [this]; exact ih p s0 hs0
      · exact ih p s hs
    | tick t =>
      simp only [Option.map_eq_some_iff] at hs
      obtain ⟨s0, hs0, rfl⟩ := hs
      rw [(tick_fields _ _ s0 t).2.1]; exact ih p s0 hs0

theorem inv_run (iv th : Nat) (evs : List Ev) (hc : Clock evs) :
    Inv ((Heartbeat.new iv th).run evs) evs := by
  induction evs using List.reverseRecOn with
  | nil => intro p s hs; simp [Heartbeat.run, Heartbeat.new] at hs
  | append_singleton evs e ih =>
    rw [Clock, List.pairwise_append] at hc
    have hle : ∀ e' ∈ evs, e'.time ≤ e.time := fun e' he' => hc.2.2 e' he' e (by simp)
    have := inv_apply _ evs e (ih hc.1) hle (firstSeen_le evs iv th e.time hle)
    simpa [Heartbeat.run] using this

/-- **C17 (no false alarm).** With a threshold of at least 2, whatever the history: if a check at
time `t` reports peer `p`, then every heartbeat ever received from `p` is at least
`threshold × interval` old. So a peer whose heartbeats keep arriving more often than that is never
declared dead. -/
theorem no_false_alarm (iv th : Nat) (evs : List Ev) (hc : Clock evs) (hth : 2 ≤ th)
    (t : Nat) (p : PeerId) (hr : p ∈ ((Heartbeat.new iv th).run evs).reports t)
    (t' : Nat) (h' : Ev.recv p t' ∈ evs) : t' + th * iv ≤ t := by
  rw [mem_reports _ (run_ok evs _ Map.Ok.nil)] at hr
  obtain ⟨s, hs, hrep⟩ := hr
  obtain ⟨c1, c2⟩ := run_cfg evs (Heartbeat.new iv th)
  rw [c1, c2, tick_report_iff] at hrep
  have hle := (inv_run iv th evs hc p s hs).1 t' h'
  have he := hrep.2.1
  unfold expectedCount at he
  simp only [Heartbeat.new] at he
  have h1 : th ≤ max ((t - s.lastReceived) / max iv 1) 1 := Nat.le_trans he (Nat.mod_le _ _)
  have h2 : th ≤ (t - s.lastReceived) / max iv 1 := by omega
  have h3 : th * max iv 1 ≤ t - s.lastReceived := (Nat.le_div_iff_mul_le (by omega)).mp h2
  have h4 : th * iv ≤ th * max iv 1 := Nat.mul_le_mul_left _ (by omega)
  by_cases hz : th * iv = 0
  · have : 0 < th * max iv 1 := Nat.mul_pos (by omega) (by omega)
    omega
  · omega

/-- The full statement "for every threshold" is false: with the (configurable) threshold 1 a peer
that was heard in this very instant is declared lost by the next check, because an elapsed time
below one interval still counts as one missed heartbeat. -/
theorem threshold_one_false_alarm (iv : Nat) (p : PeerId) (a t : Nat) :
    p ∈ ((Heartbeat.new iv 1).run [.add p a t, .recv p t]).reports t := by
  rw [mem_reports _ (run_ok _ _ Map.Ok.nil)]
  refine ⟨_, by simp [Heartbeat.run, Heartbeat.apply, Heartbeat.addPeer, Heartbeat.onReceived, Heartbeat.new, HbState.received]; rfl, ?_⟩
  rw [tick_report_iff]
  simp [HbState.introduced, Heartbeat.run, Heartbeat.apply, Heartbeat.addPeer,
    Heartbeat.onReceived, Heartbeat.new, expectedCount]

/-- A freshly discovered peer that never spoke is given the discovery grace: it is not reported
within 2 s of being added. -/
theorem grace_respected (iv th : Nat) (evs : List Ev) (t : Nat) (p : PeerId)
    (hnever : ∀ t', Ev.recv p t' ∉ evs)
    (hr : p ∈ ((Heartbeat.new iv th).run evs).reports t) :
    ∃ a t0, Ev.add p a t0 ∈ evs ∧ t0 + GRACE < t := by
  have key : ∀ evs : List Ev, (∀ t', Ev.recv p t' ∉ evs) → ∀ s,
      Map.get ((Heartbeat.new iv th).run evs).peers p = some s →
      s.everReceived = false ∧ ∃ a, Ev.add p a s.firstSeen ∈ evs := by
    intro evs
    induction evs using List.reverseRecOn with
    | nil => intro _ s hs; simp [Heartbeat.run, Heartbeat.new] at hs
    | append_singleton evs e ih =>
      intro hn s hs
      have ih := ih (fun t' h => hn t' (by simp [h]))
      simp only [Heartbeat.run, List.foldl_append, List.foldl_cons, List.foldl_nil] at hs ih
      rw [get_apply] at hs
      cases e with
      | add q a t =>
        simp only at hs
        split at hs
        · rename_i hq
          simp only [Option.some.injEq] at hs; subst hs
          refine ⟨rfl, a, ?_⟩
          simp [hq.1]
        · obtain ⟨h1, a', h2⟩ := ih s hs
          exact ⟨h1, a', by simp [h2]⟩
      | remove q t =>
        simp only at hs
        split at hs
        · simp at hs
        · obtain ⟨h1, a', h2⟩ := ih s hs
          exact ⟨h1, a', by simp [h2]⟩
      | recv q t =>
        simp only at hs
        split at hs
        · rename_i hq; subst hq; exact absurd (by simp) (hn t)
        · obtain ⟨h1, a', h2⟩ := ih s hs
          exact ⟨h1, a', by simp [h2]⟩
      | tick t =>
        simp only [Option.map_eq_some_iff] at hs
        obtain ⟨s0, hs0, rfl⟩ := hs
        obtain ⟨h1, a', h2⟩ := ih s0 hs0
        obtain ⟨f1, f2, f3⟩ := tick_fields ((evs.foldl Heartbeat.apply (Heartbeat.new iv th)).interval)
          ((evs.foldl Heartbeat.apply (Heartbeat.new iv th)).threshold) s0 t
        rw [f3, f2]
        exact ⟨h1, a', by simp [h2]⟩
  rw [mem_reports _ (run_ok evs _ Map.Ok.nil)] at hr
  obtain ⟨s, hs, hrep⟩ := hr
  rw [tick_report_iff] at hrep
  obtain ⟨h1, a, h2⟩ := key evs hnever s hs
  refine ⟨a, s.firstSeen, h2, ?_⟩
  have := hrep.1
  simp only [HbState.introduced, h1, Bool.false_or, decide_eq_true_eq] at this
  omega

/-- Events that leave peer `p`'s clock alone: anything but a heartbeat from `p` or its removal. -/
def Silent (p : PeerId) : Ev → Prop
  | .recv q _ => q ≠ p
  | .remove q _ => q ≠ p
  | _ => True

theorem silent_run (p : PeerId) (evs : List Ev) (hs : ∀ e ∈ evs, Silent p e) :
    ∀ (h : Heartbeat) (s : HbState), Map.get h.peers p = some s →
      ∃ s', Map.get (h.run evs).peers p = some s' ∧ s'.lastReceived = s.lastReceived ∧
        s'.firstSeen = s.firstSeen ∧ s'.everReceived = s.everReceived ∧
        (s.linkAlive = false → s'.linkAlive = false) ∧
        ((∀ t, Ev.tick t ∈ evs → ¬ (s.introduced t = true ∧
            expectedCount h.interval (t - s.lastReceived) ≥ h.threshold)) →
          s'.linkAlive = s.linkAlive ∧ s'.actionFired = s.actionFired) := by
  induction evs with
  | nil => intro h s hg; exact ⟨s, hg, rfl, rfl, rfl, id, fun _ => ⟨rfl, rfl⟩⟩
  | cons e evs ih =>
    intro h s hg
    have he := hs e (by simp)
    have hrest := fun e' he' => hs e' (List.mem_cons_of_mem e he')
    obtain ⟨c1, c2⟩ := apply_cfg h e
    have hstep : ∃ s1, Map.get (h.apply e).peers p = some s1 ∧ s1.lastReceived = s.lastReceived ∧
        s1.firstSeen = s.firstSeen ∧ s1.everReceived = s.everReceived ∧
        (s.linkAlive = false → s1.linkAlive = false) ∧
        ((∀ t, Ev.tick t = e → ¬ (s.introduced t = true ∧
            expectedCount h.interval (t - s.lastReceived) ≥ h.threshold)) →
          s1.linkAlive = s.linkAlive ∧ s1.actionFired = s.actionFired) := by
      rw [get_apply]
      cases e with
      | add q a t => exact ⟨s, by simp [hg], rfl, rfl, rfl, id, fun _ => ⟨rfl, rfl⟩⟩
      | remove q t =>
        have : ¬ q = p := he
        exact ⟨s, by simp [this, hg], rfl, rfl, rfl, id, fun _ => ⟨rfl, rfl⟩⟩
      | recv q t =>
        have : ¬ q = p := he
        exact ⟨s, by simp [this, hg], rfl, rfl, rfl, id, fun _ => ⟨rfl, rfl⟩⟩
      | tick t =>
        obtain ⟨f1, f2, f3⟩ := tick_fields h.interval h.threshold s t
        refine ⟨_, by simp only [hg, Option.map_some], f1, f2, f3, ?_, ?_⟩
        · intro hd; rw [tick_alive, hd]; rfl
        · intro hq
          have := hq t rfl
          rw [tick_alive, tick_fired]
          have hb : (s.introduced t && decide (expectedCount h.interval (t - s.lastReceived) ≥ h.threshold)) = false := by
            rw [← Bool.not_eq_true]; simpa using this
          rw [hb]
          simp
    obtain ⟨s1, g1, a1, a2, a3, a4, a5⟩ := hstep
    obtain ⟨s', g', b1, b2, b3, b4, b5⟩ := ih hrest (h.apply e) s1 g1
    refine ⟨s', g', b1.trans a1, b2.trans a2, b3.trans a3, fun hd => b4 (a4 hd), ?_⟩
    intro hq
    have q1 := a5 (fun t ht => hq t (by simp [ht]))
    have q2 := b5 (fun t ht => by
      have := hq t (List.mem_cons_of_mem _ ht)
      rw [c1, c2]
      simp only [HbState.introduced] at this ⊢
      rw [a1, a2, a3]; exact this)
    exact ⟨q2.1.trans q1.1, q2.2.trans q1.2⟩

theorem run_append (h : Heartbeat) (a b : List Ev) : h.run (a ++ b) = (h.run a).run b := by
  simp [Heartbeat.run, List.foldl_append]

/-- **C17 (reported once).** After a check reported `p`, no later check reports it again until a
heartbeat from `p` arrives (or `p` is removed by discovery and starts afresh). -/
theorem reported_once (iv th : Nat) (pre mid : List Ev) (t t2 : Nat) (p : PeerId)
    (hr : p ∈ ((Heartbeat.new iv th).run pre).reports t) (hs : ∀ e ∈ mid, Silent p e) :
    p ∉ ((Heartbeat.new iv th).run (pre ++ .tick t :: mid)).reports t2 := by
  rw [mem_reports _ (run_ok _ _ Map.Ok.nil)] at hr
  obtain ⟨s, hg, hrep⟩ := hr
  rw [tick_report_iff] at hrep
  have hdead : (s.tick ((Heartbeat.new iv th).run pre).interval ((Heartbeat.new iv th).run pre).threshold t).1.linkAlive = false := by
    rw [tick_alive, hrep.1]
    simp [hrep.2.1]
  have hg2 : Map.get (((Heartbeat.new iv th).run pre).apply (.tick t)).peers p = some _ :=
    (get_tick _ t p).trans (by rw [hg]; rfl)
  obtain ⟨s', g', -, -, -, b4, -⟩ := silent_run p mid hs _ _ hg2
  rw [mem_reports _ (run_ok _ _ Map.Ok.nil)]
  rintro ⟨s2, hs2, hrep2⟩
  rw [tick_report_iff] at hrep2
  have e : (Heartbeat.new iv th).run (pre ++ .tick t :: mid) =
      (((Heartbeat.new iv th).run pre).apply (.tick t)).run mid := by
    simp [Heartbeat.run, List.foldl_append]
  rw [e, g'] at hs2
  simp only [Option.some.injEq] at hs2
  subst hs2
  have := b4 hdead
  rw [this] at hrep2
  exact absurd hrep2.2.2.1 (by simp)

/-- **C17 (prompt detection).** A tracked peer that spoke at `t0` and has been silent since is
reported by the first check made `threshold × interval` or more after `t0` (and before the u32
counter of missed intervals wraps, 2^32 intervals later). -/
theorem silent_peer_detected (iv th : Nat) (pre mid : List Ev) (hc : Clock (pre ++ [.recv p t0]))
    (hiv : 0 < iv) (hth : 2 ≤ th) (hth2 : th < 2 ^ 32) (t : Nat)
    (htracked : (Map.get ((Heartbeat.new iv th).run pre).peers p).isSome)
    (hs : ∀ e ∈ mid, Silent p e)
    (hearly : ∀ t', Ev.tick t' ∈ mid → t0 ≤ t' ∧ t' < t0 + th * iv)
    (hlate : t0 + th * iv ≤ t) (hwrap : t < t0 + 2 ^ 32 * iv) :
    p ∈ ((Heartbeat.new iv th).run (pre ++ .recv p t0 :: mid)).reports t := by
  obtain ⟨s, hg⟩ := Option.isSome_iff_exists.mp htracked
  have hinv := inv_run iv th (pre ++ [.recv p t0]) hc
  obtain ⟨c1, c2⟩ := run_cfg (pre ++ [.recv p t0]) (Heartbeat.new iv th)
  have e0 : (Heartbeat.new iv th).run (pre ++ [.recv p t0]) =
      ((Heartbeat.new iv th).run pre).apply (.recv p t0) := by
    simp [Heartbeat.run, List.foldl_append]
  have hg1 : Map.get ((Heartbeat.new iv th).run (pre ++ [.recv p t0])).peers p = some (s.received t0) := by
    rw [e0, get_apply]; simp [hg]
  have r1 : (s.received t0).lastReceived = t0 := by simp only [HbState.received]; split <;> rfl
  have r2 : (s.received t0).everReceived = true := by simp only [HbState.received]; split <;> rfl
  have r3 : (s.received t0).linkAlive = true := by
    simp only [HbState.received]; cases h : s.linkAlive <;> simp
  have r4 : (s.received t0).actionFired = false := by
    have := (hinv p _ hg1).2.1
    rw [r3] at this; simpa using this
  have hquiet : ∀ t', Ev.tick t' ∈ mid → ¬ ((s.received t0).introduced t' = true ∧
      expectedCount ((Heartbeat.new iv th).run (pre ++ [.recv p t0])).interval (t' - (s.received t0).lastReceived)
        ≥ ((Heartbeat.new iv th).run (pre ++ [.recv p t0])).threshold) := by
    intro t' ht' ⟨_, he⟩
    obtain ⟨_, hlt⟩ := hearly t' ht'
    rw [r1, c1, c2] at he
    simp only [Heartbeat.new, expectedCount] at he
    have h2 : (t' - t0) / max iv 1 < th := by
      rw [Nat.max_eq_left (by omega : 1 ≤ iv), Nat.div_lt_iff_lt_mul hiv]; omega
    have h1 : th ≤ max ((t' - t0) / max iv 1) 1 := Nat.le_trans he (Nat.mod_le _ _)
    omega
  obtain ⟨s', g', b1, b2, b3, _, b5⟩ := silent_run p mid hs _ _ hg1
  obtain ⟨l1, l2⟩ := b5 hquiet
  have e : (Heartbeat.new iv th).run (pre ++ .recv p t0 :: mid) =
      ((Heartbeat.new iv th).run (pre ++ [.recv p t0])).run mid := by
    rw [← run_append]; simp
  rw [mem_reports _ (run_ok _ _ Map.Ok.nil), e]
  refine ⟨s', g', ?_⟩
  rw [tick_report_iff]
  obtain ⟨d1, d2⟩ := run_cfg mid ((Heartbeat.new iv th).run (pre ++ [.recv p t0]))
  rw [d1, d2, c1, c2]
  refine ⟨by simp [HbState.introduced, b3, r2], ?_, by rw [l1, r3], by rw [l2, r4]⟩
  simp only [Heartbeat.new, expectedCount]
  rw [b1, r1, Nat.max_eq_left (by omega : 1 ≤ iv)]
  have hlo : th ≤ (t - t0) / iv := (Nat.le_div_iff_mul_le hiv).mpr (by omega)
  have hhi : (t - t0) / iv < 2 ^ 32 := by
    rw [Nat.div_lt_iff_lt_mul hiv]; omega
  rw [Nat.max_eq_left (by omega), Nat.mod_eq_of_lt hhi]
  exact hlo

/-- Concrete history meeting the hypotheses: 50 ms interval, threshold 3, last heard at 1 s,
silent since, checks at 1.1 s (quiet) and 1.15 s (reports). -/
example : 7 ∈ ((Heartbeat.new 50000000 3).run
      ([.add 7 0 0] ++ .recv 7 1000000000 :: [.tick 1100000000])).reports 1150000000 :=
  silent_peer_detected 50000000 3 [.add 7 0 0] [.tick 1100000000]
    (by simp [Clock, Ev.time]) (by decide) (by decide) (by decide) 1150000000 (by decide)
    (by simp [Silent]) (by simp) (by decide) (by decide)

/-- ... and the next check is quiet again. -/
example : 7 ∉ ((Heartbeat.new 50000000 3).run
      ([.add 7 0 0, .recv 7 1000000000] ++ .tick 1150000000 :: [.tick 1200000000])).reports 1300000000 :=
  reported_once 50000000 3 _ _ _ _ 7 (by decide) (by simp [Silent])

/-! ### C18: the peer table -/

/-- What can happen to the peer table (peer.rs `update_peer`, `check_liveness`, `remove_dead`). -/
inductive PEv
  | announce (a : Announcement) (t : Nat)
  | check (t : Nat)
  | purge

/-- One event through the peer table. -/
def PeerTable.apply (T : PeerTable) : PEv → PeerTable
  | .announce a t => T.updatePeer a t
  | .check t => (T.checkLiveness t).1
  | .purge => T.removeDead

/-- State after a history. -/
def PeerTable.run (T : PeerTable) (evs : List PEv) : PeerTable := evs.foldl PeerTable.apply T

theorem victim_spec (m : Map PeerId PeerInfo) :
    (∀ v i, victim m = some (v, i) → (v, i) ∈ m ∧ i.alive = false ∧
      ∀ q j, (q, j) ∈ m → j.alive = false → i.lastSeen ≤ j.lastSeen) ∧
    (victim m = none ↔ ∀ q j, (q, j) ∈ m → j.alive = true) := by
  induction m with
  | nil => simp [victim]
  | cons x m ih =>
    obtain ⟨p, i⟩ := x
    obtain ⟨ih1, ih2⟩ := ih
    unfold victim
    cases ha : i.alive with
    | true =>
      simp only [if_true]
      refine ⟨?_, ?_⟩
      · intro v j hv
        obtain ⟨a, b, c⟩ := ih1 v j hv
        refine ⟨List.mem_cons_of_mem _ a, b, ?_⟩
        intro q k hk hd
        rcases List.mem_cons.mp hk with e | e
        · simp only [Prod.mk.injEq] at e; rw [e.2, ha] at hd; simp at hd
        · exact c q k e hd
      · rw [ih2]
        constructor
        · intro h q j hj
          rcases List.mem_cons.mp hj with e | e
          · simp only [Prod.mk.injEq] at e; rw [e.2, ha]
          · exact h q j e
        · intro h q j hj; exact h q j (List.mem_cons_of_mem _ hj)
    | false =>
      simp only [Bool.false_eq_true, if_false]
      cases hv : victim m with
      | none =>
        have hall := ih2.mp hv
        simp only [Option.some.injEq, Prod.mk.injEq, reduceCtorEq, false_iff]
        refine ⟨?_, ?_⟩
        · rintro v j ⟨rfl, rfl⟩
          refine ⟨by simp, ha, ?_⟩
          intro q k hk hd
          rcases List.mem_cons.mp hk with e | e
          · simp only [Prod.mk.injEq] at e; rw [e.2]; exact Nat.le_refl _
          · rw [hall q k e] at hd; simp at hd
        · intro h
          have := h p i (by simp)
          rw [ha] at this; simp at this
      | some qj =>
        obtain ⟨q, j⟩ := qj
        obtain ⟨m1, m2, m3⟩ := ih1 q j hv
        simp only
        refine ⟨?_, ?_⟩
        · intro v k hk
          split at hk
          · rename_i hle
            simp only [Option.some.injEq, Prod.mk.injEq] at hk
            obtain ⟨rfl, rfl⟩ := hk
            refine ⟨by simp, ha, ?_⟩
            intro q' k' hk' hd'
            rcases List.mem_cons.mp hk' with e | e
            · simp only [Prod.mk.injEq] at e; rw [e.2]; exact Nat.le_refl _
            · exact Nat.le_trans hle (m3 q' k' e hd')
          · rename_i hle
            simp only [Option.some.injEq, Prod.mk.injEq] at hk
            obtain ⟨rfl, rfl⟩ := hk
            refine ⟨List.mem_cons_of_mem _ m1, m2, ?_⟩
            intro q' k' hk' hd'
            rcases List.mem_cons.mp hk' with e | e
            · simp only [Prod.mk.injEq] at e; rw [e.2]; omega
            · exact m3 q' k' e hd'
        · constructor
          · intro h; split at h <;> simp at h
          · intro h
            have := h p i (by simp)
            rw [ha] at this; simp at this

theorem papply_ok (T : PeerTable) (hk : Map.Ok T.peers) (e : PEv) : Map.Ok (T.apply e).peers := by
  cases e with
  | announce a t =>
    simp only [PeerTable.apply, PeerTable.updatePeer]
    split
    · exact hk.set _ _
    · split
      · split
        · exact (hk.del _).set _ _
        · exact hk
      · exact hk.set _ _
  | check t => exact Map.Ok.mapVal hk fun i => if i.stale T.timeout t then { i with alive := false } else i
  | purge => exact hk.filter _

theorem prun_ok (evs : List PEv) (T : PeerTable) (hk : Map.Ok T.peers) : Map.Ok (T.run evs).peers := by
  induction evs generalizing T with
  | nil => exact hk
  | cons e evs ih => exact ih _ (papply_ok T hk e)

/-- **C18 (bounded).** Whatever is announced, by however many forged ids, the table never holds
more than 256 peers. -/
theorem peer_table_bounded (miss : Nat) (evs : List PEv) :
    ((PeerTable.mk miss []).run evs).peers.length ≤ 256 := by
  have key : ∀ (evs : List PEv) (T : PeerTable), T.peers.length ≤ 256 → (T.run evs).peers.length ≤ 256 := by
    intro evs
    induction evs with
    | nil => intro T h; exact h
    | cons e evs ih =>
      intro T h
      apply ih
      cases e with
      | announce a t =>
        simp only [PeerTable.apply, PeerTable.updatePeer]
        cases hg : Map.get T.peers a.peerId with
        | some i => simp only [Map.length_set, hg]; simpa using h
        | none =>
          simp only
          split
          · cases hv : victim T.peers with
            | none => exact h
            | some vi =>
              obtain ⟨v, i⟩ := vi
              simp only
              obtain ⟨hm, _, _⟩ := (victim_spec T.peers).1 v i hv
              have hkey : (Map.get T.peers v).isSome := by
                rw [← Map.mem_keys_iff]; exact List.mem_map.mpr ⟨_, hm, rfl⟩
              have hlt := Map.length_del_lt T.peers v hkey
              rw [Map.length_set]
              split <;> omega
          · rename_i hlen
            simp only [MAX_PEERS] at hlen
            rw [Map.length_set]
            split <;> omega
      | check t => simpa [PeerTable.apply, PeerTable.checkLiveness] using h
      | purge => exact Nat.le_trans (List.length_filter_le _ _) h
  exact key evs _ (by simp)

/-- **C18 (one announcement).** An announcement never touches another peer that is alive: that
peer's entry is exactly what it was. -/
theorem announce_keeps_live (T : PeerTable) (hk : Map.Ok T.peers) (a : Announcement) (t : Nat)
    (q : PeerId) (i : PeerInfo) (hq : Map.get T.peers q = some i) (hal : i.alive = true)
    (hne : q ≠ a.peerId) : Map.get (T.updatePeer a t).peers q = some i := by
  unfold PeerTable.updatePeer
  have hne' : a.peerId ≠ q := fun e => hne e.symm
  split
  · rw [Map.get_set_ne _ _ hne']; exact hq
  · split
    · cases hv : victim T.peers with
      | none => exact hq
      | some vi =>
        obtain ⟨v, j⟩ := vi
        obtain ⟨hm, hd, _⟩ := (victim_spec T.peers).1 v j hv
        have : v ≠ q := by
          rintro rfl
          have := Map.get_of_mem hk hm
          rw [hq] at this
          simp only [Option.some.injEq] at this
          rw [← this, hal] at hd
          simp at hd
        simp only
        rw [Map.get_set_ne _ _ hne', Map.get_del_ne _ this]; exact hq
    · rw [Map.get_set_ne _ _ hne']; exact hq

/-- **C18 (a new host is refused only when 256 live peers fill the table, and displaces only the
longest-dead one).** -/
theorem newcomer_admitted_iff (T : PeerTable) (hk : Map.Ok T.peers) (a : Announcement) (t : Nat)
    (hnew : Map.get T.peers a.peerId = none) :
    (Map.get (T.updatePeer a t).peers a.peerId = some (a.info t) ↔
      (T.peers.length < 256 ∨ ∃ q i, Map.get T.peers q = some i ∧ i.alive = false)) ∧
    (∀ q i, Map.get T.peers q = some i → Map.get (T.updatePeer a t).peers q = none →
      i.alive = false ∧ ∀ q' i', Map.get T.peers q' = some i' → i'.alive = false → i.lastSeen ≤ i'.lastSeen) := by
  have hmem : ∀ q i, Map.get T.peers q = some i ↔ (q, i) ∈ T.peers :=
    fun q i => ⟨Map.mem_of_get, Map.get_of_mem hk⟩
  unfold PeerTable.updatePeer
  rw [hnew]
  simp only
  by_cases hlen : T.peers.length ≥ MAX_PEERS
  · rw [if_pos hlen]
    cases hv : victim T.peers with
    | none =>
      have hall := (victim_spec T.peers).2.mp hv
      simp only [hnew, reduceCtorEq, false_iff, not_or]
      refine ⟨⟨by simp only [MAX_PEERS] at hlen; omega, ?_⟩, ?_⟩
      · rintro ⟨q, i, h1, h2⟩
        rw [hall q i ((hmem q i).mp h1)] at h2; simp at h2
      · intro q i h1 h2; rw [h1] at h2; simp at h2
    | some vi =>
      obtain ⟨v, j⟩ := vi
      obtain ⟨hm, hd, hmin⟩ := (victim_spec T.peers).1 v j hv
      simp only [Map.get_set_self, true_iff]
      refine ⟨Or.inr ⟨v, j, (hmem v j).mpr hm, hd⟩, ?_⟩
      intro q i h1 h2
      have hqa : a.peerId ≠ q := by rintro rfl; rw [hnew] at h1; simp at h1
      rw [Map.get_set_ne _ _ hqa, Map.get_del] at h2
      split at h2
      · rename_i e; subst e
        rw [(hmem v j).mpr hm] at h1
        simp only [Option.some.injEq] at h1
        subst h1
        exact ⟨hd, fun q' i' h3 h4 => hmin q' i' ((hmem q' i').mp h3) h4⟩
      · rw [h1] at h2; simp at h2
  · rw [if_neg hlen]
    simp only [Map.get_set_self, true_iff]
    refine ⟨Or.inl (by simp only [MAX_PEERS] at hlen; omega), ?_⟩
    intro q i h1 h2
    have hqa : a.peerId ≠ q := by rintro rfl; rw [hnew] at h1; simp at h1
    rw [Map.get_set_ne _ _ hqa, h1] at h2; simp at h2

/-- A known peer's announcement is always taken, however full the table. -/
theorem known_peer_updated (T : PeerTable) (a : Announcement) (t : Nat)
    (h : (Map.get T.peers a.peerId).isSome) :
    Map.get (T.updatePeer a t).peers a.peerId = some (a.info t) := by
  obtain ⟨i, hi⟩ := Option.isSome_iff_exists.mp h
  simp [PeerTable.updatePeer, hi]

/-- **C18 (history).** A peer that got into the table at `t0` is still there, alive and unchanged,
after any further announcements from other ids, purges, and checks made within the timeout: no
flood of forged announcements evicts it. -/
theorem live_peer_never_evicted (T : PeerTable) (hk : Map.Ok T.peers) (q : PeerId) (i : PeerInfo)
    (evs : List PEv) (hq : Map.get T.peers q = some i) (hal : i.alive = true)
    (hann : ∀ a t, PEv.announce a t ∈ evs → a.peerId ≠ q)
    (hchk : ∀ t, PEv.check t ∈ evs → t ≤ i.lastSeen + T.missThreshold * 1000000000) :
    Map.get (T.run evs).peers q = some i := by
  induction evs generalizing T with
  | nil => exact hq
  | cons e evs ih =>
    have hm : (T.apply e).missThreshold = T.missThreshold := by
      cases e with
      | announce a t =>
        simp only [PeerTable.apply, PeerTable.updatePeer]
        split
        · rfl
        · split
          · split <;> rfl
          · rfl
      | check t => rfl
      | purge => rfl
    refine ih (T.apply e) (papply_ok T hk e) ?_ (fun a t h => hann a t (List.mem_cons_of_mem _ h))
      (fun t h => by rw [hm]; exact hchk t (List.mem_cons_of_mem _ h))
    cases e with
    | announce a t =>
      exact announce_keeps_live T hk a t q i hq hal (fun e => hann a t (by simp) e.symm)
    | check t =>
      have := hchk t (by simp)
      have hg := Map.get_mapVal T.peers (fun i => if i.stale T.timeout t then { i with alive := false } else i) q
      simp only [PeerTable.apply, PeerTable.checkLiveness]
      rw [hg, hq]
      have hns : i.stale T.timeout t = false := by
        have hn : ¬ (t - i.lastSeen > T.missThreshold * 1000000000) := by omega
        unfold PeerInfo.stale PeerTable.timeout
        rw [decide_eq_false hn, Bool.and_false]
      simp [hns]
    | purge =>
      simp only [PeerTable.apply, PeerTable.removeDead]
      rw [Map.get_filter hk (fun x => x.2.alive), hq]
      simp [Option.filter, hal]

/-- Liveness check: reports exactly the live peers not heard of for longer than the timeout, marks
exactly those dead, and a purge removes exactly the dead. -/
theorem liveness_exact (T : PeerTable) (hk : Map.Ok T.peers) (t : Nat) (q : PeerId) :
    (q ∈ (T.checkLiveness t).2 ↔ ∃ i, Map.get T.peers q = some i ∧ i.alive = true ∧
      i.lastSeen + T.missThreshold * 1000000000 < t) ∧
    (Map.get (T.checkLiveness t).1.removeDead.peers q =
      if q ∈ (T.checkLiveness t).2 then none
      else (Map.get T.peers q).filter fun i => i.alive) := by
  have h1 : q ∈ (T.checkLiveness t).2 ↔ ∃ i, Map.get T.peers q = some i ∧ i.stale T.timeout t = true :=
    Map.mem_filter_keys hk (fun i => i.stale T.timeout t) q
  have hst : ∀ i : PeerInfo, i.stale T.timeout t = true ↔ i.alive = true ∧
      i.lastSeen + T.missThreshold * 1000000000 < t := by
    intro i
    unfold PeerInfo.stale PeerTable.timeout
    rw [Bool.and_eq_true, decide_eq_true_iff]
    constructor
    · rintro ⟨a, b⟩; exact ⟨a, by omega⟩
    · rintro ⟨a, b⟩; exact ⟨a, by omega⟩
  refine ⟨by rw [h1]; simp only [hst], ?_⟩
  have hk2 : Map.Ok (T.checkLiveness t).1.peers := papply_ok T hk (.check t)
  simp only [PeerTable.removeDead]
  rw [Map.get_filter hk2 (fun x => x.2.alive)]
  have hg := Map.get_mapVal T.peers (fun i => if i.stale T.timeout t then { i with alive := false } else i) q
  have hg' : Map.get (T.checkLiveness t).1.peers q =
      (Map.get T.peers q).map (fun i => if i.stale T.timeout t then { i with alive := false } else i) := hg
  rw [hg']
  cases hq : Map.get T.peers q with
  | none => simp [Option.filter]
  | some i =>
    have hin : q ∈ (T.checkLiveness t).2 ↔ i.stale T.timeout t = true := by
      rw [h1, hq]; simp
    by_cases hs : i.stale T.timeout t = true
    · rw [if_pos (hin.mpr hs)]
      simp [hs, Option.filter]
    · rw [if_neg (fun e => hs (hin.mp e))]
      simp [hs, Option.filter]

/-- Data goes exactly to the live peers that announced a subscription to the topic. -/
theorem subscribers_exact (T : PeerTable) (topic : Bytes) (q : PeerId) (i : PeerInfo) :
    ((q, i) ∈ T.subscribersOf topic ↔
      (q, i) ∈ T.peers ∧ i.alive = true ∧ ∃ role th, (topic, role, th) ∈ i.topics ∧ (role = 2 ∨ role = 3)) ∧
    (T.hasRemoteSubscribers topic = true ↔ T.subscribersOf topic ≠ []) := by
  constructor
  · simp only [PeerTable.subscribersOf, List.mem_filter, Bool.and_eq_true, List.any_eq_true,
      decide_eq_true_eq, Bool.or_eq_true, beq_iff_eq]
    constructor
    · rintro ⟨h1, h2, ⟨n, role, th⟩, h3, rfl, h4⟩; exact ⟨h1, h2, role, th, h3, h4⟩
    · rintro ⟨h1, h2, role, th, h3, h4⟩; exact ⟨h1, h2, (topic, role, th), h3, rfl, h4⟩
  · simp only [PeerTable.hasRemoteSubscribers, PeerTable.subscribersOf, ne_eq,
      List.filter_eq_nil_iff, List.any_eq_true]
    push Not
    rfl

/-- The limit of C18: ids are not authenticated, so an announcement carrying a live peer's own id
redirects that peer's traffic to whatever address it came from. -/
theorem forged_id_redirects (T : PeerTable) (q : PeerId) (i : PeerInfo) (evil port t : Nat)
    (hq : Map.get T.peers q = some i) :
    Map.get (T.updatePeer ⟨q, evil, port, i.topics⟩ t).peers q =
      some { i with addr := evil, dataPort := port, lastSeen := t, alive := true } := by
  simp [PeerTable.updatePeer, hq, Announcement.info]

/-- A table with one live peer, met by the hypotheses above. -/
def demoTable : PeerTable := (PeerTable.mk 3 []).run [.announce ⟨5, 1, 9000, [([105], 2, 0)]⟩ 100]

example : Map.get demoTable.peers 5 = some ⟨1, 9000, [([105], 2, 0)], 100, true⟩ ∧
    Map.get (demoTable.run [.announce ⟨6, 2, 9, []⟩ 200, .check 3000000100, .purge]).peers 5
      = some ⟨1, 9000, [([105], 2, 0)], 100, true⟩ ∧
    Map.get (demoTable.run [.check 3000000101, .purge]).peers 5 = none := by decide

/-! ### Per-peer state is not bounded on the heartbeat side

`replicator.rs` registers every announced id with the heartbeat manager, also when the full peer
table refused it. -/

/-- Feed the node a sequence of announcements. -/
def Node.announceAll (n : Node) (as : List Announcement) (t : Nat) : Node :=
  as.foldl (fun n a => n.onAnnouncement a t) n

theorem announceAll_hb_length (as : List Announcement) (t : Nat) :
    ∀ (n : Node), (as.map Announcement.peerId).Nodup →
      (∀ a ∈ as, Map.get n.hb.peers a.peerId = none) →
      (n.announceAll as t).hb.peers.length = n.hb.peers.length + as.length := by
  induction as with
  | nil => intro n _ _; rfl
  | cons a as ih =>
    intro n hn hf
    simp only [List.map_cons, List.nodup_cons] at hn
    have hnone := hf a (by simp)
    have h1 : (n.onAnnouncement a t).hb.peers.length = n.hb.peers.length + 1 := by
      simp only [Node.onAnnouncement, Heartbeat.addPeer, hnone]
      rw [Map.length_set, hnone]; rfl
    have h2 : ∀ b ∈ as, Map.get (n.onAnnouncement a t).hb.peers b.peerId = none := by
      intro b hb
      simp only [Node.onAnnouncement, Heartbeat.addPeer, hnone]
      have hne : a.peerId ≠ b.peerId := by
        intro e; exact hn.1 (e ▸ List.mem_map.mpr ⟨b, hb, rfl⟩)
      rw [Map.get_set_ne _ _ hne]
      exact hf b (List.mem_cons_of_mem _ hb)
    have := ih (n.onAnnouncement a t) hn.2 h2
    simp only [Node.announceAll, List.foldl_cons] at this ⊢
    rw [this, h1]
    simp; omega

/-- **Disagreement (memory bound under attack).** For every `N`, one host can make the heartbeat
manager track `N` peers with `N` announcements, although the peer table stays within 256. -/
theorem heartbeat_table_unbounded (iv th miss N : Nat) :
    ∃ as : List Announcement, as.length = N ∧
      ((Node.mk (PeerTable.mk miss []) (Heartbeat.new iv th)).announceAll as 0).hb.peers.length = N := by
  refine ⟨(List.range N).map fun k => ⟨k, 0, 0, []⟩, by simp, ?_⟩
  rw [announceAll_hb_length]
  · simp [Heartbeat.new]
  · simp only [List.map_map]
    have : (Announcement.peerId ∘ fun k => (⟨k, 0, 0, []⟩ : Announcement)) = id := rfl
    rw [this]; simpa using List.nodup_range
  · intro a _; simp [Heartbeat.new]

/-- ... and the phantom peers are then reported lost: an announced id that never speaks is reported
by a check more than 2 s later, so with `on_link_lost = stop` one forged announcement stops the robot. -/
theorem phantom_peer_reported (iv th : Nat) (p a t0 t : Nat) (hiv : 0 < iv)
    (h1 : t0 + GRACE < t) (h2 : t0 + th * iv ≤ t) (h3 : t < t0 + 2 ^ 32 * iv) :
    p ∈ ((Heartbeat.new iv th).run [.add p a t0]).reports t := by
  rw [mem_reports _ (run_ok _ _ Map.Ok.nil)]
  refine ⟨_, by simp [Heartbeat.run, Heartbeat.apply, Heartbeat.addPeer, Heartbeat.new]; rfl, ?_⟩
  rw [tick_report_iff]
  have hlo : th ≤ (t - t0) / iv := (Nat.le_div_iff_mul_le hiv).mpr (by omega)
  have hhi : (t - t0) / iv < 2 ^ 32 := by rw [Nat.div_lt_iff_lt_mul hiv]; omega
  have hg : t - t0 > GRACE := by omega
  refine ⟨by simp [HbState.introduced]; omega, ?_, rfl, rfl⟩
  simp only [Heartbeat.run, List.foldl_cons, List.foldl_nil, Heartbeat.apply, Heartbeat.addPeer,
    Heartbeat.new, Map.get_nil, expectedCount]
  rw [Nat.max_eq_left (by omega : 1 ≤ iv), Nat.mod_eq_of_lt (by omega)]
  omega

example : 9 ∈ ((Heartbeat.new 50000000 3).run [.add 9 1 0]).reports 2000000001 :=
  phantom_peer_reported _ _ _ _ _ _ (by decide) (by decide) (by decide) (by decide)

/-- The discovery timer forgets a peer not heard of for longer than the timeout everywhere: in the peer
table and in link supervision; every other peer's supervision is untouched. -/
theorem discovery_timer_exact (n : Node) (hk : Map.Ok n.table.peers) (t : Nat) (q : PeerId) :
    let gone := ∃ i, Map.get n.table.peers q = some i ∧ i.alive = true ∧
      i.lastSeen + n.table.missThreshold * 1000000000 < t
    (gone → Map.get (n.onDiscoveryTimer t).table.peers q = none ∧ Map.get (n.onDiscoveryTimer t).hb.peers q = none) ∧
    (¬ gone → Map.get (n.onDiscoveryTimer t).hb.peers q = Map.get n.hb.peers q) := by
  intro gone
  obtain ⟨h1, h2⟩ := liveness_exact n.table hk t q
  have hf : ∀ (l : List PeerId) (h : Heartbeat),
      Map.get (l.foldl Heartbeat.removePeer h).peers q = if q ∈ l then none else Map.get h.peers q := by
    intro l
    induction l with
    | nil => intro h; simp
    | cons p l ih =>
      intro h
      rw [List.foldl_cons, ih]
      by_cases e : p = q
      · subst e; simp [Heartbeat.removePeer]
      · have : q ≠ p := fun h => e h.symm
        simp only [List.mem_cons, this, false_or]
        split
        · rfl
        · exact Map.get_del_ne _ e
  constructor
  · intro hg
    have hm := h1.2 hg
    have hne : (n.table.checkLiveness t).2 ≠ [] := fun e => by rw [e] at hm; simp at hm
    unfold Node.onDiscoveryTimer
    simp only [if_neg hne]
    exact ⟨by rw [h2, if_pos hm], by rw [hf, if_pos hm]⟩
  · intro hg
    have hm : q ∉ (n.table.checkLiveness t).2 := fun h => hg (h1.1 h)
    unfold Node.onDiscoveryTimer
    simp only
    split
    · rfl
    · rw [hf, if_neg hm]

end Horus.Peers
