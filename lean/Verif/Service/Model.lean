import Verif.Ring.Common
/-
Model of services (horus_core/src/services/{client,server,types}.rs).

Modelled: request and client ids, the typed path of the server loop (handler outcome, response
routing, the cache of per-client response topics), blocking calls, pending calls, retries, and the
claim step of the JSON gateway.
Not modelled: the topics' internals (a topic is a queue from which entries may be lost at any
time, since a full ring drops), time (a timeout is a caller that stops polling), payload types.
Simplified: a response topic's name is represented by the client id it ends in; which names the
topic layer refuses is a parameter.
-/
namespace Horus.Service
open Horus.Ring

/-- `next_request_id` / `next_client_id` (client.rs 43-63): process id in the high half, counter in
the low half. -/
def makeId (pid n : Nat) : Nat := (pid <<< 32) ||| (n &&& 0xFFFFFFFF)

/-- ServiceRequest (types.rs 79-96). -/
structure Req where
  id : Nat
  payload : Nat
  topic : Option Nat
  deriving DecidableEq, Repr

/-- ServiceResponse (types.rs 99-110). -/
structure Resp where
  id : Nat
  ok : Bool
  payload : Option Nat
  error : Option Nat
  deriving DecidableEq, Repr

/-- What the user's handler does with a payload: answers, refuses, or panics.
Source: services/{client,server,types}.rs. -/
inductive Outcome where
  | value (v : Nat) | fail (e : Nat) | panic
  deriving DecidableEq, Repr

/-- The text sent for a panicking handler (server.rs 324-329). -/
def panicText : Nat := 0

/-- Response for an outcome (server.rs 317-330, types.rs 112-134). -/
def respond (id : Nat) : Outcome → Resp
  | .value v => ⟨id, true, some v, none⟩
  | .fail e => ⟨id, false, none, some e⟩
  | .panic => ⟨id, false, none, some panicText⟩

/-- MAX_CLIENT_RESPONSE_TOPICS (server.rs 213). -/
def maxTopics : Nat := 64

/-- Everything shared, and the ghosts `sent` (requests issued through the client API), `handled`
(requests executed with their outcome) and `returned` (topic, request id, response given to a
caller). `ctr`, `cctr` are the per-process counters. Ghost or helper of the model of services/{client,server,types}.rs. -/
structure St where
  reqs : List Req := []
  resp : Nat → List Resp := fun _ => []
  shared : List Resp := []
  cache : List Nat := []
  ctr : Nat → Nat := fun _ => 1
  cctr : Nat → Nat := fun _ => 1
  clients : List (Nat × Nat) := []
  sent : List Req := []
  handled : List (Req × Outcome) := []
  returned : List (Nat × Nat × Resp) := []

/-- Fresh system: counters start at 1 (client.rs 41, 54). -/
def init : St := {}

/-- Routing of a response (server.rs 334-391); `nameOk` says whether the topic layer accepts the
name. -/
def route (nameOk : Nat → Bool) (r : Resp) (topic : Option Nat) (s : St) : St :=
  match topic with
  | none => { s with shared := s.shared ++ [r] }
  | some t =>
    let s :=
      if t ∉ s.cache ∧ maxTopics ≤ s.cache.length then s
      else if t ∉ s.cache then
        if nameOk t then { s with cache := s.cache ++ [t] } else s
      else s
    if t ∈ s.cache then { s with resp := upd s.resp t (s.resp t ++ [r]) } else s

/-- One iteration of the request loop (server.rs 304-391) with the handler's outcome `o`. -/
def serve (nameOk : Nat → Bool) (o : Outcome) (s : St) : St :=
  match s.reqs with
  | [] => s
  | q :: rest =>
    route nameOk (respond q.id o) q.topic { s with reqs := rest, handled := s.handled ++ [(q, o)] }

/-- Remove the element at position `i` (a message lost by a full ring). Source: services/{client,server,types}.rs. -/
def lose {α : Type} (l : List α) (i : Nat) : List α := l.eraseIdx i

/-- What can happen. Schedules over the functions of services/{client,server,types}.rs. -/
inductive Act where
  /-- process `p` creates a client (client.rs 95-117). -/
  | newClient (p : Nat)
  /-- a client with response topic `t` in process `p` sends a request (client.rs 124-131, 346-352). -/
  | call (p t payload : Nat)
  /-- the server handles the next request. -/
  | serve (o : Outcome)
  /-- a caller waiting for `id` on topic `t` polls once (client.rs 140-153, 268-281). -/
  | poll (t id : Nat)
  | loseReq (i : Nat)
  | loseResp (t i : Nat)

/-- One step; `pid` maps a process to its process id.
Schedules over the functions of services/{client,server,types}.rs. -/
def step (pid : Nat → Nat) (nameOk : Nat → Bool) (s : St) : Act → St
  | .newClient p =>
    { s with cctr := upd s.cctr p (s.cctr p + 1), clients := s.clients ++ [(p, makeId (pid p) (s.cctr p))] }
  | .call p t payload =>
    if (p, t) ∈ s.clients then
      let q : Req := ⟨makeId (pid p) (s.ctr p), payload, some t⟩
      { s with ctr := upd s.ctr p (s.ctr p + 1), reqs := s.reqs ++ [q], sent := s.sent ++ [q] }
    else s
  | .serve o => serve nameOk o s
  | .poll t id =>
    match s.resp t with
    | [] => s
    | r :: rest =>
      let s := { s with resp := upd s.resp t rest }
      if r.id = id then { s with returned := s.returned ++ [(t, id, r)] } else s
  | .loseReq i => { s with reqs := lose s.reqs i }
  | .loseResp t i => { s with resp := upd s.resp t (lose (s.resp t) i) }

/-- A history. Schedules over the functions of services/{client,server,types}.rs. -/
def run (pid : Nat → Nat) (nameOk : Nat → Bool) (s : St) (as : List Act) : St :=
  as.foldl (step pid nameOk) s

/-- Result of one attempt as seen by a caller (types.rs 138-151). -/
inductive CallResult where
  | ok (v : Nat) | timeout | failed (e : Nat) | noServer | transport
  deriving DecidableEq, Repr

/-- `ServiceError::is_transient` (types.rs 161-163). -/
def CallResult.transient : CallResult → Bool
  | .timeout => true
  | .transport => true
  | _ => false

/-- Interpretation of a matching response (client.rs 142-151). `noPayload` and `unknown` stand for
the two fixed texts. -/
def interpret (noPayload unknown : Nat) (r : Resp) : CallResult :=
  if r.ok then
    match r.payload with
    | some v => .ok v
    | none => .failed noPayload
  else .failed (r.error.getD unknown)

/-- `call_resilient_with` (client.rs 196-221): the result and the number of attempts made, when the
`k`-th attempt gives `res k`. `left` is the number of retries left. -/
def resilient (res : Nat → CallResult) : Nat → Nat → CallResult × Nat
  | k, 0 => (res k, k + 1)
  | k, left + 1 =>
    match res k with
    | .ok v => (.ok v, k + 1)
    | e => if e.transient then resilient res (k + 1) left else (e, k + 1)

/-- JSON gateway (server.rs 232-262): several servers may see a request file; each reads it, and
executes it only if its own `remove_file` succeeded. `present` is whether the file exists, `seen`
the servers that have read it, `ran` those that executed it. -/
structure Gate where
  present : Bool := true
  seen : List Nat := []
  ran : List Nat := []
  deriving DecidableEq, Repr

/-- Steps of a server on one request file: read it (needs the file), or remove and execute.
Schedules over the functions of services/{client,server,types}.rs. -/
inductive GAct where
  | read (srv : Nat) | claim (srv : Nat)

/-- One step on a request file (server.rs 233-241). -/
def gstep (g : Gate) : GAct → Gate
  | .read v => if g.present then { g with seen := g.seen ++ [v] } else g
  | .claim v =>
    if v ∈ g.seen then
      if g.present then { g with present := false, seen := g.seen.erase v, ran := g.ran ++ [v] }
      else { g with seen := g.seen.erase v }
    else g

/-- `name.starts_with("{svc}.request.") && name.ends_with(".json")` (server.rs 228-230). -/
def gatewayTakes (svc name : List Char) : Bool :=
  (svc ++ ['.', 'r', 'e', 'q', 'u', 'e', 's', 't', '.']).isPrefixOf name
    && ['.', 'j', 's', 'o', 'n'].isSuffixOf name

/-- File name the CLI writes for a request to `svc` (`{svc}.request.{id}.json`).
Source: services/{client,server,types}.rs. -/
def gatewayFile (svc id : List Char) : List Char :=
  svc ++ ['.', 'r', 'e', 'q', 'u', 'e', 's', 't', '.'] ++ id ++ ['.', 'j', 's', 'o', 'n']

end Horus.Service
