import Verif.Optimize.Lemmas
/-
C20 delta optimizer, C21 fusion, C22 prediction and priorities, C23 flow control.
-/
namespace Horus.Optimize
open Spec

/-! ## C20 -/

/-- C20 (sender half). After any history, what is made of the next payload `x` of a topic:
it is dropped only if it equals the previous payload of that topic, and otherwise it is sent as it
is or as a delta from which, with the previous payload, `x` is recovered exactly. -/
theorem delta_lossless (k : Nat) (hist : List (Nat × Bytes)) (t : Nat) (x : Bytes) :
    match (((Delta.new k).run hist).1.step t x).2 with
    | none => lastHanded hist t = some x
    | some y => y = x ∨ ∃ p, lastHanded hist t = some p ∧ p.length = x.length ∧ p ≠ x ∧
        applyDelta p y = some x ∧ 4 * y.length < 3 * x.length := by
  have hlast := Delta.run_last k hist t
  generalize ((Delta.new k).run hist).1 = d at hlast ⊢
  by_cases hk : (Map.get d.since t).getD 0 + 1 ≥ d.interval ∨ Map.get d.lastSent t = none
  · have : (d.step t x).2 = some x := by simp only [Delta.step, if_pos hk]
    rw [this]; exact Or.inl rfl
  · cases hp : Map.get d.lastSent t with
    | none => exact absurd (Or.inr hp) hk
    | some p =>
      rw [hp] at hlast hk
      by_cases he : p = x
      · have : (d.step t x).2 = none := by simp only [Delta.step, hp, if_neg hk, if_pos he]
        rw [this]; simp [← hlast, he]
      · by_cases hlt : (computeDelta p x).length < x.length * 3 / 4
        · have : (d.step t x).2 = some (computeDelta p x) := by
            simp only [Delta.step, hp, if_neg hk, if_neg he, if_pos hlt]
          rw [this]
          right
          have hlen : p.length = x.length := by
            by_contra hc
            rw [computeDelta, if_pos hc] at hlt
            omega
          refine ⟨p, hlast.symm, hlen, he, ?_, by omega⟩
          unfold computeDelta at hlt ⊢
          rw [if_neg (by simp [hlen])] at hlt ⊢
          cases hg : deltaGo 0 p x with
          | none => rw [hg] at hlt; simp at hlt; omega
          | some r =>
            have := deltaGo_apply p.length 0 p x [] r (Nat.le_refl _) hlen rfl hg
            simpa using this
        · have : (d.step t x).2 = some x := by
            simp only [Delta.step, hp, if_neg hk, if_neg he, if_neg hlt]
          rw [this]; exact Or.inl rfl

/-- C20 (keyframes). In any stretch of traffic holding `max k 1` messages of a topic, at least one
of them is sent in full, whatever the history before and however the topics interleave. In
particular an unchanging payload is dropped at most `k - 1` times in a row. -/
theorem keyframe_every_interval (k : Nat) (hist seg : List (Nat × Bytes)) (t : Nat)
    (hc : max k 1 ≤ countTopic seg t) :
    ∃ x, ((t, x), some x) ∈ seg.zip (((Delta.new k).run hist).1.run seg).2 := by
  rcases Delta.run_cnt ((Delta.new k).run hist).1 t seg with h | ⟨_, h2⟩
  · exact h
  · have := h2 (by omega)
    rw [Delta.run_interval] at this
    simp only [Delta.new] at this
    omega

/-- The first message of a topic is always sent in full. -/
theorem first_message_full (k : Nat) (hist : List (Nat × Bytes)) (t : Nat) (x : Bytes)
    (h : ∀ m ∈ hist, m.1 ≠ t) : (((Delta.new k).run hist).1.step t x).2 = some x := by
  have hlast := Delta.run_last k hist t
  have hn : lastHanded hist t = none := by
    have : hist.filter (fun m => decide (m.1 = t)) = [] := by simpa using h
    simp [lastHanded, this]
  unfold Delta.step
  simp only
  rw [if_pos (Or.inr (by rw [hlast, hn]))]

/-- The full C20 does not hold: the receiving side (`on_incoming`) leaves the payload alone, so every
message sent as a delta is delivered as bytes that are not the published payload. -/
theorem delta_delivered_wrong (k : Nat) (hist : List (Nat × Bytes)) (t : Nat) (x y : Bytes)
    (hs : (((Delta.new k).run hist).1.step t x).2 = some y) (hd : y ≠ x) :
    Delta.onIncoming y ≠ x ∧ (Delta.onIncoming y).length < x.length := by
  have := delta_lossless k hist t x
  rw [hs] at this
  rcases this with h | ⟨p, _, _, _, _, h5⟩
  · exact absurd h hd
  · exact ⟨hd, by unfold Delta.onIncoming; omega⟩

/-- … and this happens on ordinary traffic: one changed byte in eight. -/
theorem delta_corrupts_delivery :
    ((((Delta.new 100).run [(7, [0,0,0,0,0,0,0,0])]).1.step 7 [1,0,0,0,0,0,0,0]).2).map Delta.onIncoming =
      some [0, 0, 1, 0, 1] := by decide +kernel

/-- Even with a receiver that applies deltas, losing one packet is not mere staleness: the payload
rebuilt from the next delta was never published. -/
theorem lost_delta_tears :
    ∃ x0 x1 x2 d2 r : Bytes, (((Delta.new 100).run [(7, x0), (7, x1)]).1.step 7 x2).2 = some d2 ∧
      d2 ≠ x2 ∧ applyDelta x0 d2 = some r ∧ r ∉ [x0, x1, x2] := by
  refine ⟨[0,0,0,0,0,0,0,0], [1,0,0,0,0,0,0,0], [1,0,0,0,0,0,0,1], [7,0,1,0,1], [0,0,0,0,0,0,0,1],
    by decide +kernel, by decide, ?_, by decide⟩
  have := applyDelta_region [0,0,0,0,0,0,0,0] [1] [] 7 (by omega) (by decide) (by decide)
  have e : le 2 7 ++ (le 2 [(1 : UInt8)].length ++ ([1] ++ [])) = [7,0,1,0,1] := by decide
  rw [e] at this
  rw [this, applyDelta]
  decide

example : (((Delta.new 100).run [(7, [0,0,0,0,0,0,0,0])]).1.step 7 [0,0,0,0,0,0,0,0]).2 = none := by
  decide +kernel

example : max 3 1 ≤ countTopic [(7, [1]), (8, [2]), (7, [1]), (7, [1])] 7 := by decide

/-! ## C21 -/

/-- C21. Over any history of calls, everything handed in comes out exactly once and in order, apart
from a suffix still waiting in the buffer. -/
theorem fusion_conserves (w : Nat) (calls : List FCall) :
    ((Fusion.new w).run calls).2 ++ ((Fusion.new w).run calls).1.buffer =
      (calls.map FCall.input).flatten := by
  have gen : ∀ (f : Fusion), (f.run calls).2 ++ (f.run calls).1.buffer =
      f.buffer ++ (calls.map FCall.input).flatten := by
    induction calls with
    | nil => intro f; simp [Fusion.run]
    | cons c cs ih =>
      intro f
      simp only [Fusion.run, List.map_cons, List.flatten_cons]
      rw [List.append_assoc, ih, ← List.append_assoc, Fusion.call_conserve, List.append_assoc]
  simpa [Fusion.new] using gen (Fusion.new w)

/-- C21. A call that brings a message once the window has run out empties the buffer. -/
theorem fusion_flushes_when_due (f : Fusion) (msgs : List Msg) (now s : Nat) (hm : msgs ≠ [])
    (hs : f.start = some s) (hd : f.window ≤ now - s) :
    (f.onOutgoing msgs now).2 = f.buffer ++ msgs ∧ (f.onOutgoing msgs now).1.buffer = [] := by
  simp [Fusion.onOutgoing, hm, hs, hd]

/-- Anything buffered has a running window, so the theorem above applies to every reachable state
with something in the buffer. -/
theorem fusion_buffered_has_window (w : Nat) (calls : List FCall) :
    ((Fusion.new w).run calls).1.buffer ≠ [] → ((Fusion.new w).run calls).1.start ≠ none := by
  have gen : ∀ (f : Fusion), (f.buffer ≠ [] → f.start ≠ none) →
      ((f.run calls).1.buffer ≠ [] → (f.run calls).1.start ≠ none) := by
    induction calls with
    | nil => intro f h; exact h
    | cons c cs ih =>
      intro f h
      simp only [Fusion.run]
      apply ih
      cases c with
      | flush => simp [Fusion.call, Fusion.flush]
      | out ms t =>
        simp only [Fusion.call, Fusion.onOutgoing]
        split
        · exact h
        · split
          · simp
          · next hs => split <;> simp [hs]
  exact gen _ (by simp [Fusion.new])

/-- The full C21 (nothing waits longer than the window) does not hold: a call without messages never
releases anything, so a message with no successor stays buffered for ever. -/
theorem fusion_last_message_stuck (w : Nat) (m : Msg) (t0 : Nat) (times : List Nat) :
    ((Fusion.new w).run (.out [m] t0 :: times.map fun t => .out [] t)).2 = [] ∧
      ((Fusion.new w).run (.out [m] t0 :: times.map fun t => .out [] t)).1.buffer = [m] := by
  have idle : ∀ (ts : List Nat) (f : Fusion), (f.run (ts.map fun t => FCall.out [] t)) = (f, []) := by
    intro ts
    induction ts with
    | nil => intro f; rfl
    | cons t ts ih =>
      intro f
      simp [Fusion.run, Fusion.call, Fusion.onOutgoing, ih]
  simp [Fusion.run, Fusion.call, Fusion.onOutgoing, Fusion.new, idle]

example : ((Fusion.new 500).run [.out [⟨1, [1], false, 0⟩] 0, .out [⟨1, [2], false, 1⟩] 100,
    .out [⟨1, [3], false, 2⟩] 600]).2 =
    [⟨1, [1], false, 0⟩, ⟨1, [2], false, 1⟩, ⟨1, [3], false, 2⟩] := by decide

/-! ## C22 -/

/-- C22. Whatever the prediction test answers, among any 101 messages of a topic at least one is
sent: no topic is silenced for more than 100 messages. -/
theorem predict_bounded_silence (small : Int → Int → Bool) (hist seg : List (Nat × Bytes)) (t : Nat)
    (hc : 101 ≤ countTopic seg t) :
    ∃ x, ((t, x), true) ∈ seg.zip (Predict.run small (Predict.run small [] hist).1 seg).2 := by
  have h0 := Predict.cnt_le small [] t (by simp [Predict.cnt, Map.get, PState.init]) hist
  rcases Predict.run_cnt small _ t h0 seg with h | h1
  · exact h
  · have h2 := Predict.cnt_le small _ t h0 seg
    omega

/-- C22. The first five messages of a topic are always sent. -/
theorem predict_cold_start (small : Int → Int → Bool) (hist : List (Nat × Bytes)) (t : Nat) (x : Bytes)
    (h : countTopic hist t < 5) : (Predict.step small (Predict.run small [] hist).1 t x).2 = true := by
  have hs := Predict.run_seen small hist t
  unfold Predict.step PState.step
  simp only
  rw [if_pos]
  unfold Predict.seen at hs
  rw [hs]
  omega

/-- C22. A message is withheld only when the prediction made from the topic's previous payload
passes the error test. -/
theorem predict_suppresses_only_predicted (small : Int → Int → Bool) (p : Predict) (t : Nat) (x : Bytes)
    (h : (Predict.step small p t x).2 = false) :
    ∃ s, Map.get p t = some s ∧ s.prev.length = x.length ∧
      small (predError s.prev s.velocity x).1 (predError s.prev s.velocity x).2 = true := by
  unfold Predict.step PState.step at h
  simp only at h
  cases hg : Map.get p t with
  | none => rw [hg] at h; simp [PState.init] at h
  | some s =>
    rw [hg] at h
    simp only [Option.getD_some] at h
    refine ⟨s, rfl, ?_⟩
    split at h
    · cases h
    · split at h
      · cases h
      · split at h
        · cases h
        · next hl =>
          split at h
          · next hsm => exact ⟨by omega, hsm⟩
          · cases h

/-- C22. Whatever the optimizers do to the rest, the Immediate messages of a batch leave first, all
of them, unchanged and in order. -/
theorem immediate_first_unchanged (opts : List (List Msg → List Msg)) (msgs : List Msg) (h : opts ≠ []) :
    ∃ rest, processOutgoing opts msgs = (msgs.filter fun m => m.immediate) ++ rest ∧
      rest = opts.foldl (fun r f => f r) (msgs.filter fun m => !m.immediate) := by
  exact ⟨_, by simp only [processOutgoing, if_neg h], rfl⟩

/-- C22. No Immediate message is ever lost, whatever the chain. -/
theorem immediate_never_dropped (opts : List (List Msg → List Msg)) (msgs : List Msg) (m : Msg)
    (hm : m ∈ msgs) (hi : m.immediate = true) : m ∈ processOutgoing opts msgs := by
  by_cases h : opts = []
  · simp [processOutgoing, h, hm]
  · obtain ⟨rest, hr, _⟩ := immediate_first_unchanged opts msgs h
    rw [hr]
    simp [hm, hi]

/-- With no optimizer configured the batch is untouched. -/
theorem empty_chain_identity (msgs : List Msg) : processOutgoing [] msgs = msgs := rfl

example : (Predict.run (fun e _ => e == 0) [] (List.replicate 6 (1, [9]))).2 =
    [true, true, true, true, true, false] := by decide

/-! ## C23 -/

/-- The table of tracked pairs never exceeds 4096 entries, whatever the peers send. -/
theorem flow_table_bounded (evs : List (Nat × Nat × Nat × Nat)) :
    (evs.foldl (fun f e => Flow.onReceived f e.1 e.2.1 e.2.2.1 e.2.2.2) ([] : Flow)).length ≤ 4096 := by
  have gen : ∀ (f : Flow), f.length ≤ 4096 →
      (evs.foldl (fun f e => Flow.onReceived f e.1 e.2.1 e.2.2.1 e.2.2.2) f).length ≤ 4096 := by
    induction evs with
    | nil => intro f h; exact h
    | cons e evs ih =>
      intro f h
      simp only [List.foldl_cons]
      apply ih
      unfold Flow.onReceived
      split
      · next s hs =>
        rw [Map.length_set, hs]; simpa using h
      · next hn =>
        simp only
        split
        · rw [Map.length_set, hn]; simp; omega
        · simp [Map.set]
  exact gen [] (by simp)

/-- A pair from which nothing was received, or without loss, is never throttled. -/
theorem no_loss_no_throttle (f : Flow) (peer topic : Nat)
    (h : ∀ s, Map.get f (peer, topic) = some s → s.gaps = 0) : f.shouldSend peer topic = true := by
  unfold Flow.shouldSend
  split
  · rfl
  · next s hs =>
    have := h s hs
    have hr : s.rate = .full := by
      unfold RecvState.rate
      split
      · rfl
      · rw [if_pos (by omega)]
    rw [hr]

/-- A pair is throttled only after loss of at least one percent in the current window. -/
theorem throttled_only_after_loss (f : Flow) (peer topic : Nat) (h : f.shouldSend peer topic = false) :
    ∃ s, Map.get f (peer, topic) = some s ∧ 0 < s.total ∧ s.total ≤ 100 * s.gaps := by
  unfold Flow.shouldSend at h
  split at h
  · cases h
  · next s hs =>
    refine ⟨s, hs, ?_⟩
    by_contra hc
    have hr : s.rate = .full := by
      unfold RecvState.rate
      by_cases h0 : s.total = 0
      · rw [if_pos h0]
      · rw [if_neg h0, if_pos (by omega)]
    rw [hr] at h
    cases h

/-- Receptions from a pair within one window, one after the other. -/
def RecvState.receivedAll (s : RecvState) : List (Nat × Nat) → RecvState
  | [] => s
  | (seq, now) :: r => (s.received seq now).receivedAll r

theorem received_total (s : RecvState) (seq now : Nat) (h : now - s.windowStart < 1000000000) :
    (s.received seq now).total = (s.total + 1) % 2 ^ 32 ∧
      (s.received seq now).windowStart = s.windowStart := by
  have hn : ¬ now - s.windowStart ≥ 1000000000 := by omega
  simp only [RecvState.received, if_neg hn]
  repeat' split
  all_goals exact ⟨rfl, rfl⟩

/-- C23, the part that holds: while the peer keeps sending within a window, one of every 100
receptions leaves a state in which sending is permitted, whatever the loss. -/
theorem send_permitted_while_receiving_partial (s : RecvState) (evs : List (Nat × Nat))
    (hlen : evs.length = 100) (hw : ∀ e ∈ evs, e.2 - s.windowStart < 1000000000)
    (hov : s.total + 100 < 2 ^ 32) (peer topic : Nat) :
    ∃ i, i ≤ 100 ∧ Flow.shouldSend [((peer, topic), s.receivedAll (evs.take i))] peer topic = true := by
  have key : ∀ (l : List (Nat × Nat)) (s : RecvState), (∀ e ∈ l, e.2 - s.windowStart < 1000000000) →
      s.total + l.length < 2 ^ 32 → (s.receivedAll l).total = s.total + l.length := by
    intro l
    induction l with
    | nil => intro s _ _; rfl
    | cons e l ih =>
      intro s hw ho
      obtain ⟨q, n⟩ := e
      have h1 := received_total s q n (hw (q, n) (by simp))
      simp only [List.length_cons] at ho
      simp only [RecvState.receivedAll]
      rw [ih _ (fun e he => by rw [h1.2]; exact hw e (by simp [he])) (by rw [h1.1]; omega), h1.1]
      simp only [List.length_cons]
      omega
  refine ⟨100 - s.total % 100, by omega, ?_⟩
  have ht := key (evs.take (100 - s.total % 100)) s (fun e he => hw e (List.mem_of_mem_take he))
    (by simp; omega)
  rw [List.length_take, hlen] at ht
  have hm : (s.receivedAll (evs.take (100 - s.total % 100))).total % 100 = 0 := by rw [ht]; omega
  have hg : Map.get [((peer, topic), s.receivedAll (evs.take (100 - s.total % 100)))] (peer, topic) =
      some (s.receivedAll (evs.take (100 - s.total % 100))) := by simp [Map.get]
  unfold Flow.shouldSend
  rw [hg]
  generalize s.receivedAll (evs.take (100 - s.total % 100)) = q at hm
  cases hq : q.rate <;> simp only [hq, decide_eq_true_eq] <;> omega

/-- The full C23 (throttling slows a topic down but never stops it) does not hold: the decision
depends only on what was received from the peer and asking does not change it, so a pair whose
counter is not on a multiple stays refused for every later attempt until the peer sends again.
Here: one ordinary reception, one with a gap of four, then silence. -/
theorem throttled_for_ever :
    ∃ evs : List (Nat × Nat × Nat × Nat), ∀ attempts : Nat, ∀ i < attempts,
      (List.replicate attempts ((evs.foldl (fun f e => Flow.onReceived f e.1 e.2.1 e.2.2.1 e.2.2.2)
        ([] : Flow)).shouldSend 1 2))[i]? = some false := by
  refine ⟨[(1, 2, 10, 0), (1, 2, 15, 1)], ?_⟩
  intro n i hi
  rw [List.getElem?_replicate, if_pos hi]
  decide

/-- The gap counter is a u32 that a peer can overflow with a few packets: after more than four
billion missed sequence numbers in one window the release build's estimate is back at zero loss (the
debug build panics on the addition). -/
theorem gap_counter_wraps :
    ((⟨0, 0, 1, 0⟩ : RecvState).receivedAll [(2147483647, 1), (4294967293, 1), (4294967295, 1), (0, 1)]).gaps
        = 4294967292 ∧
      ((⟨0, 0, 1, 0⟩ : RecvState).receivedAll
        [(2147483647, 1), (4294967293, 1), (4294967295, 1), (0, 1), (5, 1)]).gaps = 0 := by
  decide

example : Flow.shouldSend [((1, 2), ⟨15, 4, 2, 0⟩)] 1 2 = false := by decide
example : Flow.shouldSend [((1, 2), ⟨15, 4, 100, 0⟩)] 1 2 = true := by decide

/-- The share of sends a level lets through is set by the loss in the window: everything below 1 %, a half
below 5 %, a quarter below 20 %, a hundredth above (loss `gaps / total`, in exact arithmetic). -/
theorem rate_exact (s : RecvState) (peer topic : Nat) (ht : 0 < s.total) :
    (100 * s.gaps < s.total → Flow.shouldSend [((peer, topic), s)] peer topic = true) ∧
    (s.total ≤ 100 * s.gaps → 100 * s.gaps < 5 * s.total →
      (Flow.shouldSend [((peer, topic), s)] peer topic = true ↔ 2 ∣ s.total)) ∧
    (5 * s.total ≤ 100 * s.gaps → 100 * s.gaps < 20 * s.total →
      (Flow.shouldSend [((peer, topic), s)] peer topic = true ↔ 4 ∣ s.total)) ∧
    (20 * s.total ≤ 100 * s.gaps →
      (Flow.shouldSend [((peer, topic), s)] peer topic = true ↔ 100 ∣ s.total)) := by
  have hg : Map.get [((peer, topic), s)] (peer, topic) = some s := by simp [Map.get]
  have h0 : s.total ≠ 0 := by omega
  unfold Flow.shouldSend
  rw [hg]
  refine ⟨fun h => ?_, fun h h' => ?_, fun h h' => ?_, fun h => ?_⟩
  · have hr : s.rate = .full := by
      unfold RecvState.rate; rw [if_neg h0, if_pos (by omega)]
    simp only [hr]
  · have hr : s.rate = .half := by
      unfold RecvState.rate; rw [if_neg h0, if_neg (by omega), if_pos (by omega)]
    simp only [hr, decide_eq_true_eq]; omega
  · have hr : s.rate = .quarter := by
      unfold RecvState.rate; rw [if_neg h0, if_neg (by omega), if_neg (by omega), if_pos (by omega)]
    simp only [hr, decide_eq_true_eq]; omega
  · have hr : s.rate = .keyframeOnly := by
      unfold RecvState.rate; rw [if_neg h0, if_neg (by omega), if_neg (by omega), if_neg (by omega)]
    simp only [hr, decide_eq_true_eq]; omega

example : (20 : Nat) * 7 ≤ 100 * 3 := by decide

/-- The loss is that of the current second: a reception after the window ended starts a new one in which
only the gap before this very message counts. -/
theorem window_restarts (s : RecvState) (seq now : Nat) (h : s.windowStart + 1000000000 ≤ now) :
    (s.received seq now).total = 1 ∧ (s.received seq now).windowStart = now ∧
    ((s.received seq now).gaps = 0 ∨ (s.received seq now).gaps = (seq + 2 ^ 32 - (s.lastSequence + 1) % 2 ^ 32) % 2 ^ 32) ∧
    (seq = (s.lastSequence + 1) % 2 ^ 32 → (s.received seq now).gaps = 0) := by
  have hn : now - s.windowStart ≥ 1000000000 := by omega
  have key : (s.received seq now).total = 1 ∧ (s.received seq now).windowStart = now ∧
      (s.received seq now).gaps = if seq > (s.lastSequence + 1) % 2 ^ 32 ∧
        (seq + 2 ^ 32 - (s.lastSequence + 1) % 2 ^ 32) % 2 ^ 32 < 2147483647 then
          (seq + 2 ^ 32 - (s.lastSequence + 1) % 2 ^ 32) % 2 ^ 32 else 0 := by
    simp only [RecvState.received, if_pos hn]
    by_cases hc : seq > (s.lastSequence + 1) % 2 ^ 32 ∧ (seq + 2 ^ 32 - (s.lastSequence + 1) % 2 ^ 32) % 2 ^ 32 < 2147483647
    · simp only [if_pos hc]
      split <;> exact ⟨rfl, rfl, by simp⟩
    · simp only [if_neg hc]
      split <;> exact ⟨rfl, rfl, rfl⟩
  obtain ⟨k1, k2, k3⟩ := key
  refine ⟨k1, k2, ?_, ?_⟩
  · rw [k3]; split
    · exact .inr rfl
    · exact .inl rfl
  · intro e
    rw [k3, if_neg]
    omega

end Horus.Optimize
