import Mathlib.Tactic.Common
import Mathlib.Data.List.Nodup
/-
Services as C++ programs use them. Source: /repo/horus_cpp/src/service_ffi.rs, types_ffi.rs:60-92, c_api.rs:1303-1329, 1384-1392. One process with any
number of clients of one service, and its server; topics deliver in order and without loss. The response topic is per process
(service_ffi.rs:73-74), so its clients share it; a response is received by one of them.
-/
namespace Horus.CppService

/-- types_ffi.rs:69-92: at most 3968 bytes. The message keeps the bytes, padded with zeros, and their number. -/
structure Wire where
  data : List Nat
  len : Nat
  id : Nat

def fromJson (bytes : List Nat) (id : Nat) : Option Wire :=
  if bytes.length > 3968 then none else some ⟨bytes ++ List.replicate (3968 - bytes.length) 0, bytes.length, id⟩

/-- `utf8`: whether bytes are text. -/
def toJson (utf8 : List Nat → Bool) (w : Wire) : Option (List Nat) :=
  if w.len > 3968 then none else if utf8 (w.data.take w.len) then some (w.data.take w.len) else none

/-- c_api.rs:1384-1392, 1319-1325: what is in the buffer before the final zero. -/
def writeCstr (bytes : List Nat) (cap : Nat) : List Nat := bytes.take (min bytes.length (cap - 1))

/-- **Text of up to 3968 bytes arrives, all of it, in the C++ program's buffer of 4096; longer text is refused.** -/
theorem wire_exact (utf8 : List Nat → Bool) (b : List Nat) (id : Nat) (hu : utf8 b = true) :
    (b.length ≤ 3968 → ∃ w, fromJson b id = some w ∧ w.id = id ∧ toJson utf8 w = some b ∧ writeCstr b 4096 = b) ∧ (3968 < b.length → fromJson b id = none) := by
  constructor
  · intro h
    refine ⟨_, by unfold fromJson; rw [if_neg (by omega)], rfl, ?_, ?_⟩
    · unfold toJson
      dsimp only
      rw [if_neg (by omega), List.take_left, if_pos hu]
    · unfold writeCstr
      rw [show min b.length (4096 - 1) = b.length by omega, List.take_length]
  · intro h
    unfold fromJson
    rw [if_pos h]

/-- A buffer is never overrun. -/
theorem cstr_fits (b : List Nat) (cap : Nat) (h : 0 < cap) : (writeCstr b cap).length + 1 ≤ cap ∧ writeCstr b cap <+: b := by
  unfold writeCstr
  exact ⟨by rw [List.length_take]; omega, List.take_prefix _ _⟩

/-- A request handler: given the request, whether it claims success, and what it wrote with the length it reports. -/
abbrev Handler := List Nat → Bool × List Nat

def null : List Nat := [110, 117, 108, 108]

/-- service_ffi.rs:177-196. -/
def respond (h : Handler) (req : List Nat) : List Nat :=
  let r := h req
  if r.1 && r.2.length ≤ 3968 then r.2 else null

/-! ### Calls -/

structure St where
  cnt : Nat → Nat
  reqs : List (Nat × List Nat)
  resps : List (Nat × List Nat)
  waiting : Nat → Option (Nat × List Nat)
  /-- Ghost: all requests ever sent. -/
  sent : List (Nat × List Nat)
  /-- Ghost: the calls that returned a response: client, request, response. -/
  out : List (Nat × List Nat × List Nat)

/-- service_ffi.rs:79: each client counts from one. -/
def init : St := ⟨fun _ => 1, [], [], fun _ => none, [], []⟩

/-- service_ffi.rs:42-45. -/
def reqId (pid n : Nat) : Nat := pid * 4294967296 + n % 4294967296

inductive Lbl
  | call (k : Nat) (req : List Nat)
  | serve
  | poll (k : Nat)
  | timeout (k : Nat)

def set {α : Type} (f : Nat → α) (k : Nat) (v : α) : Nat → α := fun x => if x = k then v else f x

/-- `call`: service_ffi.rs:104-122; `serve`: 214-249, one request; `poll`: 128-133, one response; `timeout`: 135-140. -/
def step (h : Handler) (pid : Nat) (s : St) : Lbl → Option St
  | .call k req => match s.waiting k with
    | some _ => none
    | none =>
      let id := reqId pid (s.cnt k)
      if req.length > 3968 then some { s with cnt := set s.cnt k (s.cnt k + 1) }
      else some { s with cnt := set s.cnt k (s.cnt k + 1), reqs := s.reqs ++ [(id, req)], waiting := set s.waiting k (some (id, req)), sent := s.sent ++ [(id, req)] }
  | .serve => match s.reqs with
    | [] => none
    | (id, req) :: r => some { s with reqs := r, resps := s.resps ++ [(id, respond h req)] }
  | .poll k => match s.waiting k, s.resps with
    | some (id, req), (id', resp) :: r =>
      if id' = id then some { s with resps := r, waiting := set s.waiting k none, out := s.out ++ [(k, req, resp)] } else some { s with resps := r }
    | _, _ => none
  | .timeout k => match s.waiting k with
    | some _ => some { s with waiting := set s.waiting k none }
    | none => none

inductive Reach (h : Handler) (pid : Nat) : St → Prop
  | init : Reach h pid init
  | step (s s' : St) (l : Lbl) : Reach h pid s → step h pid s l = some s' → Reach h pid s'

def run (h : Handler) (pid : Nat) (s : St) : List Lbl → Option St
  | [] => some s
  | l :: ls => match step h pid s l with
    | some s' => run h pid s' ls
    | none => none

/-- All responses answer a request that was sent under their id, as do all answers given to a call. -/
structure Inv (h : Handler) (s : St) : Prop where
  reqs : ∀ x ∈ s.reqs, x ∈ s.sent
  resps : ∀ x ∈ s.resps, ∃ req, (x.1, req) ∈ s.sent ∧ x.2 = respond h req
  waiting : ∀ k x, s.waiting k = some x → x ∈ s.sent
  out : ∀ x ∈ s.out, ∃ id req', (id, x.2.1) ∈ s.sent ∧ (id, req') ∈ s.sent ∧ x.2.2 = respond h req'

theorem inv_reach (h : Handler) (pid : Nat) (s : St) (hr : Reach h pid s) : Inv h s := by
  induction hr with
  | init => constructor <;> simp [init]
  | step s s' l _ hs ih =>
    cases l with
    | call k req =>
      simp only [step] at hs
      split at hs
      · cases hs
      · split at hs
        · cases hs
          exact ⟨ih.reqs, ih.resps, ih.waiting, ih.out⟩
        · cases hs
          constructor
          · intro x hx
            rcases List.mem_append.1 hx with hx | hx
            · exact List.mem_append.2 (Or.inl (ih.reqs x hx))
            · exact List.mem_append.2 (Or.inr hx)
          · intro x hx
            obtain ⟨r, h1, h2⟩ := ih.resps x hx
            exact ⟨r, List.mem_append.2 (Or.inl h1), h2⟩
          · intro j x hx
            dsimp only [set] at hx
            split at hx
            · cases hx; simp
            · exact List.mem_append.2 (Or.inl (ih.waiting j x hx))
          · intro x hx
            obtain ⟨id, r', h1, h2, h3⟩ := ih.out x hx
            exact ⟨id, r', List.mem_append.2 (Or.inl h1), List.mem_append.2 (Or.inl h2), h3⟩
    | serve =>
      simp only [step] at hs
      split at hs
      · cases hs
      · rename_i id req r hq
        cases hs
        refine ⟨fun x hx => ih.reqs x (by rw [hq]; exact List.mem_cons.2 (Or.inr hx)), fun x hx => ?_, ih.waiting, ih.out⟩
        rcases List.mem_append.1 hx with hx | hx
        · exact ih.resps x hx
        · simp only [List.mem_singleton] at hx
          subst hx
          exact ⟨req, ih.reqs _ (by rw [hq]; simp), rfl⟩
    | poll k =>
      simp only [step] at hs
      split at hs
      · rename_i id req id' resp r hw hq
        have hsub : ∀ x ∈ r, x ∈ s.resps := fun x hx => by rw [hq]; exact List.mem_cons.2 (Or.inr hx)
        split at hs
        · rename_i e
          cases hs
          refine ⟨ih.reqs, fun x hx => ih.resps x (hsub x hx), fun j x hx => ?_, fun x hx => ?_⟩
          · dsimp only [set] at hx
            split at hx
            · cases hx
            · exact ih.waiting j x hx
          · rcases List.mem_append.1 hx with hx | hx
            · exact ih.out x hx
            · simp only [List.mem_singleton] at hx
              subst hx
              obtain ⟨req', h1, h2⟩ := ih.resps (id', resp) (by rw [hq]; simp)
              exact ⟨id, req', ih.waiting k _ hw, by rw [← e]; exact h1, h2⟩
        · cases hs
          exact ⟨ih.reqs, fun x hx => ih.resps x (hsub x hx), ih.waiting, ih.out⟩
      · cases hs
    | timeout k =>
      simp only [step] at hs
      split at hs
      · cases hs
        refine ⟨ih.reqs, ih.resps, fun j x hx => ?_, ih.out⟩
        dsimp only [set] at hx
        split at hx
        · cases hx
        · exact ih.waiting j x hx
      · cases hs

/-- Only client `k` has called so far. -/
inductive ReachOne (h : Handler) (pid k : Nat) : St → Prop
  | init : ReachOne h pid k init
  | step (s s' : St) (l : Lbl) : ReachOne h pid k s → (∀ j req, l = .call j req → j = k) → step h pid s l = some s' → ReachOne h pid k s'

theorem one_reach (h : Handler) (pid k : Nat) (s : St) (hr : ReachOne h pid k s) : Reach h pid s := by
  induction hr with
  | init => exact .init
  | step s s' l _ _ hs ih => exact .step s s' l ih hs

theorem one_ids (h : Handler) (pid k : Nat) (s : St) (hr : ReachOne h pid k s) (hb : s.cnt k ≤ 4294967296) :
    1 ≤ s.cnt k ∧ (∀ x ∈ s.sent, ∃ n, n < s.cnt k ∧ x.1 = pid * 4294967296 + n) ∧ (s.sent.map (·.1)).Nodup := by
  induction hr with
  | init => simp [init]
  | step s s' l _ hl hs ih =>
    cases l with
    | call j req =>
      have hj := hl j req rfl
      subst hj
      simp only [step] at hs
      split at hs
      · cases hs
      · split at hs
        · cases hs
          simp only [set, if_true] at hb ⊢
          obtain ⟨h1, h2, h3⟩ := ih (by omega)
          exact ⟨by omega, fun x hx => by obtain ⟨n, hn, e⟩ := h2 x hx; exact ⟨n, by omega, e⟩, h3⟩
        · cases hs
          simp only [set, if_true] at hb ⊢
          obtain ⟨h1, h2, h3⟩ := ih (by omega)
          have hid : reqId pid (s.cnt j) = pid * 4294967296 + s.cnt j := by
            unfold reqId; rw [Nat.mod_eq_of_lt (by omega)]
          refine ⟨by omega, fun x hx => ?_, ?_⟩
          · rcases List.mem_append.1 hx with hx | hx
            · obtain ⟨n, hn, e⟩ := h2 x hx; exact ⟨n, by omega, e⟩
            · simp only [List.mem_singleton] at hx
              subst hx
              exact ⟨s.cnt j, by omega, hid⟩
          · rw [List.map_append, List.nodup_append]
            refine ⟨h3, by simp, fun a ha b hb' => ?_⟩
            simp only [List.map_cons, List.map_nil, List.mem_singleton] at hb'
            subst hb'
            obtain ⟨x, hx, rfl⟩ := List.mem_map.1 ha
            obtain ⟨n, hn, e⟩ := h2 x hx
            rw [e, hid]
            omega
    | serve =>
      simp only [step] at hs
      split at hs
      · cases hs
      · cases hs; exact ih hb
    | poll j =>
      simp only [step] at hs
      split at hs
      · split at hs <;> (cases hs; exact ih hb)
      · cases hs
    | timeout j =>
      simp only [step] at hs
      split at hs
      · cases hs; exact ih hb
      · cases hs

theorem nodup_fst (l : List (Nat × List Nat)) (h : (l.map (·.1)).Nodup) (a : Nat) (b c : List Nat) (hb : (a, b) ∈ l) (hc : (a, c) ∈ l) : b = c := by
  induction l with
  | nil => cases hb
  | cons x r ih =>
    rw [List.map_cons, List.nodup_cons] at h
    rcases List.mem_cons.1 hb with hb | hb <;> rcases List.mem_cons.1 hc with hc | hc
    · rw [← hb] at hc; cases hc; rfl
    · exact absurd (List.mem_map.2 ⟨_, hc, by rw [← hb]⟩) h.1
    · exact absurd (List.mem_map.2 ⟨_, hb, by rw [← hc]⟩) h.1
    · exact ih h.2 hb hc

/-- **With one client of the service in the process, every call that returns has the answer to its own request**, also after calls that timed out. -/
theorem own_answer_partial (h : Handler) (pid k : Nat) (s : St) (hr : ReachOne h pid k s) (hb : s.cnt k ≤ 4294967296) (j : Nat) (req resp : List Nat) (ho : (j, req, resp) ∈ s.out) : resp = respond h req := by
  obtain ⟨id, req', h1, h2, h3⟩ := (inv_reach h pid s (one_reach h pid k s hr)).out _ ho
  obtain ⟨_, _, hn⟩ := one_ids h pid k s hr hb
  dsimp only at h1 h3
  rw [h3, nodup_fst s.sent hn id _ _ h1 h2]

/-- A handler that returns the request. -/
def echo : Handler := fun r => (true, r)

/-- A call that timed out, then another: it gets its own answer and not the late one. -/
example : (run echo 9 init [.call 0 [1], .timeout 0, .serve, .call 0 [2], .serve, .poll 0, .poll 0]).map (·.out) = some [(0, [2], [2])] := by decide +kernel

/-- **Disagreement: with two clients of a service in one process, one gets the other's answer.** Each counts its requests from one, so their ids are the
same. Here the first gives up waiting, and the second receives the answer to the first's request. -/
theorem other_answer : (run echo 9 init [.call 0 [1], .timeout 0, .serve, .call 1 [2], .poll 1]).map (·.out) = some [(1, [2], [1])] := by decide +kernel

/-- **Disagreement: two clients of a service in one process can lose an answer**: each may receive, and throw away, what the other waits for. -/
theorem answer_taken : (run echo 9 init [.call 0 [1], .serve, .poll 0, .call 0 [2], .call 1 [3], .serve, .poll 1]).map (fun s => (s.resps, s.waiting 0)) =
    some ([], some (reqId 9 2, [2])) := by decide +kernel

/-- **Disagreement: a handler that fails answers.** The caller receives the text `null` as a success, where the header promises no response. -/
theorem failure_answers (h : Handler) (req : List Nat) (hf : (h req).1 = false ∨ 3968 < (h req).2.length) : respond h req = null := by
  unfold respond
  dsimp only
  rw [if_neg]
  rcases hf with hf | hf
  · simp [hf]
  · simp only [Bool.and_eq_true, decide_eq_true_eq]; omega

/-- A handler that succeeds within its buffer has its answer sent, and it fits a message. -/
theorem success_answers (h : Handler) (req : List Nat) (hs : (h req).1 = true) (hl : (h req).2.length ≤ 3968) : respond h req = (h req).2 ∧ (fromJson (respond h req) 0).isSome := by
  have : respond h req = (h req).2 := by unfold respond; simp [hs, hl]
  rw [this]
  exact ⟨rfl, by unfold fromJson; rw [if_neg (by omega)]; rfl⟩

end Horus.CppService
