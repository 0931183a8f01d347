import Verif.Common.Bytes
import Verif.Common.Map
/-
Model of horus_net/src/optimize/{mod,delta,fusion,predict}.rs and horus_net/src/flow_control.rs.
Metrics counters are not modelled.
-/
namespace Horus.Optimize

/-- wire.rs `OutMessage`: topic hash, payload, whether the priority is Immediate; every other field
(sequence, timestamp, encoding, ...) is carried unchanged in `extra`. -/
structure Msg where
  topic : Nat
  payload : Bytes
  immediate : Bool
  extra : Nat
deriving DecidableEq

/-! ### Chain -/

/-- optimize/mod.rs:77-101 `process_outgoing`. An optimizer (in its current state) is any function
on the message list. -/
def processOutgoing (opts : List (List Msg → List Msg)) (msgs : List Msg) : List Msg :=
  if opts = [] then msgs
  else
    let immediate := msgs.filter fun m => m.immediate
    let rest := msgs.filter fun m => !m.immediate
    let rest := opts.foldl (fun r f => f r) rest
    immediate ++ rest

/-! ### Delta -/

/-- delta.rs:146-149: length of the run of differing bytes at the front. -/
def diffRun : Bytes → Bytes → Nat
  | o :: os, n :: ns => if o = n then 0 else diffRun os ns + 1
  | _, _ => 0

theorem diffRun_le (o n : Bytes) : diffRun o n ≤ o.length := by
  induction o generalizing n with
  | nil => simp [diffRun]
  | cons a o ih =>
    cases n with
    | nil => simp [diffRun]
    | cons b n =>
      simp only [diffRun]
      split
      · simp
      · have := ih n; simp; omega

/-- delta.rs:133-160, the scanning loop at position `i` with the remaining bytes of both payloads;
`none` = "too large for u16 encoding", where the caller returns the full payload. -/
def deltaGo (i : Nat) (old new : Bytes) : Option Bytes :=
  match h : old, new with
  | o :: os, n :: ns =>
    if o = n then deltaGo (i + 1) os ns
    else
      let k := diffRun os ns + 1
      if i > 65535 ∨ k > 65535 then none
      else
        (deltaGo (i + k) (os.drop (k - 1)) (ns.drop (k - 1))).map fun rest =>
          le 2 i ++ (le 2 k ++ ((n :: ns).take k ++ rest))
  | _, _ => some []
termination_by old.length
decreasing_by
  all_goals (simp; try omega)

/-- delta.rs:128-161 `compute_delta`. -/
def computeDelta (old new : Bytes) : Bytes :=
  if old.length ≠ new.length then new
  else (deltaGo 0 old new).getD new

/-- delta.rs:20-30 `DeltaOptimizer`. -/
structure Delta where
  lastSent : Map Nat Bytes
  since : Map Nat Nat
  interval : Nat

/-- delta.rs:49-54 `with_keyframe_interval`. -/
def Delta.new (interval : Nat) : Delta := ⟨[], [], interval⟩

/-- delta.rs:68-108, the closure of `retain_mut` for one message: new state and the payload kept
(`none` = dropped). -/
def Delta.step (d : Delta) (topic : Nat) (payload : Bytes) : Delta × Option Bytes :=
  let since := (Map.get d.since topic).getD 0 + 1
  if since ≥ d.interval ∨ Map.get d.lastSent topic = none then
    ({ d with since := Map.set d.since topic 0, lastSent := Map.set d.lastSent topic payload }, some payload)
  else
    let d := { d with since := Map.set d.since topic since }
    match Map.get d.lastSent topic with
    | some prev =>
      if prev = payload then (d, none)
      else
        let delta := computeDelta prev payload
        if delta.length < payload.length * 3 / 4 then
          ({ d with lastSent := Map.set d.lastSent topic payload }, some delta)
        else ({ d with lastSent := Map.set d.lastSent topic payload }, some payload)
    | none => ({ d with lastSent := Map.set d.lastSent topic payload }, some payload)

/-- delta.rs:111-116 `on_incoming`: does nothing. -/
def Delta.onIncoming (payload : Bytes) : Bytes := payload

/-- A history of (topic, payload) handed to the sender's delta optimizer, with what is kept of
each. Schedules over the functions of optimize/{delta,fusion,predict}.rs. -/
def Delta.run (d : Delta) : List (Nat × Bytes) → Delta × List (Option Bytes)
  | [] => (d, [])
  | (t, x) :: rest =>
    let r := d.step t x
    let q := Delta.run r.1 rest
    (q.1, r.2 :: q.2)

/-! ### Fusion -/

/-- fusion.rs:19-27 `FusionOptimizer`. -/
structure Fusion where
  window : Nat
  buffer : List Msg
  start : Option Nat

/-- fusion.rs:36-54 `new`, `with_window`: nothing buffered. -/
def Fusion.new (window : Nat) : Fusion := ⟨window, [], none⟩

/-- fusion.rs:64-94 `on_outgoing` at clock reading `now`; returns what is left in `messages`. -/
def Fusion.onOutgoing (f : Fusion) (msgs : List Msg) (now : Nat) : Fusion × List Msg :=
  if msgs = [] then (f, [])
  else
    match f.start with
    | none => ({ f with start := some now, buffer := f.buffer ++ msgs }, [])
    | some s =>
      let buf := f.buffer ++ msgs
      if now - s ≥ f.window then ({ f with buffer := [], start := none }, buf)
      else ({ f with buffer := buf }, [])

/-- fusion.rs:108-114 `flush`. -/
def Fusion.flush (f : Fusion) : Fusion × List Msg := ({ f with start := none, buffer := [] }, f.buffer)

/-- Calls made to the fusion optimizer. Schedules over the functions of optimize/{delta,fusion,predict}.rs. -/
inductive FCall
  | out (msgs : List Msg) (now : Nat)
  | flush

/-- One call (fusion.rs:64-94, 108-114). -/
def Fusion.call (f : Fusion) : FCall → Fusion × List Msg
  | .out ms t => f.onOutgoing ms t
  | .flush => f.flush

/-- All calls, concatenating what comes out. Schedules over the functions of optimize/{delta,fusion,predict}.rs. -/
def Fusion.run (f : Fusion) : List FCall → Fusion × List Msg
  | [] => (f, [])
  | c :: cs =>
    let r := f.call c
    let q := Fusion.run r.1 cs
    (q.1, r.2 ++ q.2)

/-! ### Predict -/

/-- predict.rs:21-30 `TopicState`; the velocity estimate is a difference of bytes, exact in f64. -/
structure PState where
  prev : Bytes
  velocity : List Int
  suppressCount : Nat
  totalSeen : Nat

/-- predict.rs:93-98: per-byte difference. -/
def velocityOf (prev payload : Bytes) : List Int :=
  (prev.zip payload).map fun (a, b) => (b.toNat : Int) - (a.toNat : Int)

/-- predict.rs:122-130: squared prediction error and squared magnitude. -/
def predError (prev : Bytes) (vel : List Int) (payload : Bytes) : Int × Int :=
  (((prev.zip vel).zip payload).map (fun ((a, v), b) =>
      ((b.toNat : Int) - (a.toNat + v)) * ((b.toNat : Int) - (a.toNat + v)))).sum
  |> fun e => (e, (payload.map fun b => (b.toNat : Int) * b.toNat).sum)

/-- predict.rs:76-165, the closure for one message. `small e m` is the floating-point test
`normalized_error < threshold`. `total_seen` is a u32 that wraps (release build). Returns whether
the message is kept. -/
def PState.step (small : Int → Int → Bool) (s : PState) (payload : Bytes) : PState × Bool :=
  let seen := (s.totalSeen + 1) % 2 ^ 32
  let s := { s with totalSeen := seen }
  if seen ≤ 5 then
    let vel := if s.prev ≠ [] ∧ s.prev.length = payload.length then velocityOf s.prev payload else s.velocity
    ({ s with velocity := vel, prev := payload, suppressCount := 0 }, true)
  else if s.suppressCount ≥ 100 then
    ({ s with prev := payload, suppressCount := 0 }, true)
  else if s.prev.length ≠ payload.length ∨ s.velocity.length ≠ payload.length then
    ({ s with prev := payload, velocity := [], suppressCount := 0 }, true)
  else
    let em := predError s.prev s.velocity payload
    let vel := velocityOf s.prev payload
    if small em.1 em.2 then
      ({ s with velocity := vel, prev := payload, suppressCount := s.suppressCount + 1 }, false)
    else
      ({ s with velocity := vel, prev := payload, suppressCount := 0 }, true)

/-- predict.rs:80-85: initial state of a topic. -/
def PState.init : PState := ⟨[], [], 0, 0⟩

/-- predict.rs: the state per topic (a HashMap keyed by the topic hash). -/
abbrev Predict := Map Nat PState

/-- One message through the predictor. Schedules over the functions of optimize/{delta,fusion,predict}.rs. -/
def Predict.step (small : Int → Int → Bool) (p : Predict) (topic : Nat) (payload : Bytes) : Predict × Bool :=
  let s := (Map.get p topic).getD PState.init
  let r := s.step small payload
  (Map.set p topic r.1, r.2)

/-- A history of (topic, payload); result: kept or suppressed, per message.
Schedules over the functions of optimize/{delta,fusion,predict}.rs. -/
def Predict.run (small : Int → Int → Bool) (p : Predict) : List (Nat × Bytes) → Predict × List Bool
  | [] => (p, [])
  | (t, x) :: rest =>
    let r := Predict.step small p t x
    let q := Predict.run small r.1 rest
    (q.1, r.2 :: q.2)

/-! ### Flow control -/

/-- flow_control.rs:16-25 `SendRate`. -/
inductive SendRate | full | half | quarter | keyframeOnly
deriving DecidableEq

/-- flow_control.rs:43-48 `RecvState` (u32 counters, wrapping in release builds). -/
structure RecvState where
  lastSequence : Nat
  gaps : Nat
  total : Nat
  windowStart : Nat

/-- flow_control.rs:28-39 and 60-66 `from_loss(loss_rate())`, with the f32 quotient compared
exactly: `gaps / total < 1 %`, `< 5 %`, `< 20 %`. -/
def RecvState.rate (s : RecvState) : SendRate :=
  if s.total = 0 then .full
  else if s.gaps * 100 < s.total then .full
  else if s.gaps * 20 < s.total then .half
  else if s.gaps * 5 < s.total then .quarter
  else .keyframeOnly

/-- flow_control.rs:94-115: update of a tracked pair. -/
def RecvState.received (s : RecvState) (seq now : Nat) : RecvState :=
  let s := if now - s.windowStart ≥ 1000000000 then { s with gaps := 0, total := 0, windowStart := now } else s
  let s := { s with total := (s.total + 1) % 2 ^ 32 }
  let expected := (s.lastSequence + 1) % 2 ^ 32
  let s :=
    if seq > expected ∧ (seq + 2 ^ 32 - expected) % 2 ^ 32 < 2147483647 then
      { s with gaps := (s.gaps + (seq + 2 ^ 32 - expected) % 2 ^ 32) % 2 ^ 32 }
    else s
  if seq > s.lastSequence ∨ (s.lastSequence + 2 ^ 32 - seq) % 2 ^ 32 > 2147483647 then
    { s with lastSequence := seq }
  else s

/-- flow_control.rs:70-79. -/
abbrev Flow := Map (Nat × Nat) RecvState

/-- flow_control.rs:90-119 `on_received`; a full table (4096, netfilter.rs:316-335 `enforce_key_cap`)
is cleared first. -/
def Flow.onReceived (f : Flow) (peer topic seq now : Nat) : Flow :=
  match Map.get f (peer, topic) with
  | some s => Map.set f (peer, topic) (s.received seq now)
  | none =>
    let f := if f.length < 4096 then f else []
    Map.set f (peer, topic) ⟨seq, 0, 1, now⟩

/-- flow_control.rs:144-157 `should_send` (a `&self` method: it changes nothing). -/
def Flow.shouldSend (f : Flow) (peer topic : Nat) : Bool :=
  match Map.get f (peer, topic) with
  | none => true
  | some s =>
    match s.rate with
    | .full => true
    | .half => s.total % 2 = 0
    | .quarter => s.total % 4 = 0
    | .keyframeOnly => s.total % 100 = 0

end Horus.Optimize
