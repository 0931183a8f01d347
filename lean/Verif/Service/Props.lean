import Verif.Service.Model
import Mathlib.Data.List.Nodup
import Mathlib.Data.Nat.Bitwise
/-
C63: a service caller gets its own answer; C80: every client of a service is answered.
-/
namespace Horus.Service
open Horus.Ring

theorem makeId_eq (pid n : Nat) : makeId pid n = pid * 2 ^ 32 + n % 2 ^ 32 := by
  unfold makeId
  have h1 : n &&& 0xFFFFFFFF = n % 2 ^ 32 := Nat.and_two_pow_sub_one_eq_mod n 32
  have h2 : n % 2 ^ 32 < 2 ^ 32 := Nat.mod_lt _ (by decide)
  rw [h1, ← Nat.shiftLeft_add_eq_or_of_lt h2, Nat.shiftLeft_eq]

/-- Ids of different processes, or of one process less than 2³² calls apart, differ. -/
theorem makeId_inj {p q n m : Nat} (h : makeId p n = makeId q m) (hn : n < 2 ^ 32) (hm : m < 2 ^ 32) :
    p = q ∧ n = m := by
  rw [makeId_eq, makeId_eq, Nat.mod_eq_of_lt hn, Nat.mod_eq_of_lt hm] at h
  omega

/-- Ids fit the 64-bit field when the process id fits 32 bits. -/
theorem makeId_lt {p n : Nat} (hp : p < 2 ^ 32) : makeId p n < 2 ^ 64 := by
  rw [makeId_eq]
  have : n % 2 ^ 32 < 2 ^ 32 := Nat.mod_lt _ (by decide)
  omega

/-- The counter wraps: one process reuses an id after 2³² calls. -/
theorem makeId_wraps (p n : Nat) : makeId p (n + 2 ^ 32) = makeId p n := by
  rw [makeId_eq, makeId_eq]; omega

/-! ### Invariant -/

/-- `r` answers an executed request that named topic `t`. -/
def Answers (s : St) (t : Nat) (r : Resp) : Prop :=
  ∃ q o, (q, o) ∈ s.handled ∧ q.topic = some t ∧ r = respond q.id o

/-- Invariant of the service: request ids are distinct and every response belongs to a handled request. -/
structure Inv (pid : Nat → Nat) (s : St) : Prop where
  ids : ∃ keys : List (Nat × Nat), keys.Nodup ∧ s.sent.map Req.id = keys.map (fun k => makeId (pid k.1) k.2) ∧
    ∀ k ∈ keys, k.2 < s.ctr k.1
  flow : (s.handled.map Prod.fst ++ s.reqs).Sublist s.sent
  resp : ∀ t, ∀ r ∈ s.resp t, Answers s t r
  ret : ∀ x ∈ s.returned, x.2.2.id = x.2.1 ∧ Answers s x.1 x.2.2
  cache : s.cache.length ≤ maxTopics

theorem inv_init (pid : Nat → Nat) : Inv pid init := by
  refine ⟨⟨[], List.nodup_nil, rfl, by simp⟩, by simp [init], by simp [init], by simp [init], by simp [init]⟩

theorem answers_mono {s s' : St} {t : Nat} {r : Resp} (h : Answers s t r)
    (hh : ∀ x ∈ s.handled, x ∈ s'.handled) : Answers s' t r := by
  obtain ⟨q, o, h1, h2, h3⟩ := h
  exact ⟨q, o, hh _ h1, h2, h3⟩

theorem respond_id (id : Nat) (o : Outcome) : (respond id o).id = id := by cases o <;> rfl

/-- What routing changes. -/
theorem route_frame (nameOk : Nat → Bool) (r : Resp) (tp : Option Nat) (s : St) :
    (route nameOk r tp s).reqs = s.reqs ∧ (route nameOk r tp s).handled = s.handled ∧
    (route nameOk r tp s).sent = s.sent ∧ (route nameOk r tp s).ctr = s.ctr ∧
    (route nameOk r tp s).returned = s.returned ∧ (route nameOk r tp s).clients = s.clients ∧
    (route nameOk r tp s).cctr = s.cctr := by
  unfold route
  cases tp with
  | none => simp
  | some t =>
    simp only
    split
    · split <;> simp
    · split
      · split
        · split <;> simp
        · simp
      · split <;> simp

theorem route_resp (nameOk : Nat → Bool) (r : Resp) (tp : Option Nat) (s : St) (t : Nat) :
    (route nameOk r tp s).resp t = s.resp t ∨
      (tp = some t ∧ (route nameOk r tp s).resp t = s.resp t ++ [r]) := by
  unfold route
  cases tp with
  | none => left; rfl
  | some u =>
    simp only
    have key : ∀ s2 : St, s2.resp = s.resp →
        (if u ∈ s2.cache then { s2 with resp := upd s2.resp u (s2.resp u ++ [r]) } else s2).resp t = s.resp t ∨
        (some u = some t ∧ (if u ∈ s2.cache then { s2 with resp := upd s2.resp u (s2.resp u ++ [r]) } else s2).resp t = s.resp t ++ [r]) := by
      intro s2 h2
      split
      · by_cases e : t = u
        · subst e; right; exact ⟨rfl, by simp [h2]⟩
        · left; simp only; rw [upd_ne _ _ e, h2]
      · left; rw [h2]
    apply key
    split
    · rfl
    · split
      · split <;> rfl
      · rfl

theorem route_cache (nameOk : Nat → Bool) (r : Resp) (tp : Option Nat) (s : St)
    (h : s.cache.length ≤ maxTopics) : (route nameOk r tp s).cache.length ≤ maxTopics := by
  unfold route
  cases tp with
  | none => exact h
  | some t =>
    simp only
    by_cases h1 : t ∈ s.cache
    · simp [h1, h]
    · by_cases h2 : maxTopics ≤ s.cache.length
      · simp [h1, h2, h]
      · by_cases h3 : nameOk t = true
        · simp [h1, h2, h3]; omega
        · simp [h1, h2, h3, h]

theorem inv_step {pid : Nat → Nat} {nameOk : Nat → Bool} {s : St} (a : Act) (h : Inv pid s) :
    Inv pid (step pid nameOk s a) := by
  cases a with
  | newClient p => exact ⟨h.ids, h.flow, h.resp, h.ret, h.cache⟩
  | call p t payload =>
    simp only [step]
    split
    · refine ⟨?_, ?_, h.resp, h.ret, h.cache⟩
      · obtain ⟨keys, hn, he, hlt⟩ := h.ids
        refine ⟨keys ++ [(p, s.ctr p)], ?_, ?_, ?_⟩
        · rw [List.nodup_append]
          refine ⟨hn, by simp, ?_⟩
          intro a ha b hb
          rw [List.mem_singleton] at hb
          subst hb
          intro e; subst e
          have := hlt _ ha
          simp at this
        · simp [he]
        · intro k hk
          simp only [List.mem_append, List.mem_singleton] at hk
          rcases hk with hk | rfl
          · have := hlt k hk
            by_cases e : k.1 = p
            · simp only [e, upd_same]
              rw [e] at this; omega
            · simp only; rw [upd_ne _ _ e]; exact this
          · simp
      · have := h.flow
        simp only
        rw [← List.append_assoc]
        exact this.append (List.Sublist.refl _)
    · exact h
  | serve o =>
    simp only [step, serve]
    cases hr : s.reqs with
    | nil => exact h
    | cons q rest =>
      simp only
      generalize hs1 : ({ s with reqs := rest, handled := s.handled ++ [(q, o)] } : St) = s1
      obtain ⟨f1, f2, f3, f4, f5, f6, f7⟩ := route_frame nameOk (respond q.id o) q.topic s1
      have hh : ∀ x ∈ s.handled, x ∈ (route nameOk (respond q.id o) q.topic s1).handled := by
        intro x hx; rw [f2, ← hs1]; exact List.mem_append_left _ hx
      have hnew : (q, o) ∈ (route nameOk (respond q.id o) q.topic s1).handled := by
        rw [f2, ← hs1]; simp
      refine ⟨?_, ?_, ?_, ?_, ?_⟩
      · rw [f3, f4, ← hs1]; exact h.ids
      · rw [f1, f2, f3, ← hs1]
        have := h.flow
        rw [hr] at this
        simpa using this
      · intro t r hrm
        rcases route_resp nameOk (respond q.id o) q.topic s1 t with e | ⟨e1, e2⟩
        · rw [e, ← hs1] at hrm
          exact answers_mono (h.resp t r hrm) hh
        · rw [e2, ← hs1] at hrm
          simp only [List.mem_append, List.mem_singleton] at hrm
          rcases hrm with hrm | rfl
          · exact answers_mono (h.resp t r hrm) hh
          · exact ⟨q, o, hnew, e1, rfl⟩
      · intro x hx
        rw [f5, ← hs1] at hx
        exact ⟨(h.ret x hx).1, answers_mono (h.ret x hx).2 hh⟩
      · exact route_cache _ _ _ _ (by rw [← hs1]; exact h.cache)
  | poll t id =>
    simp only [step]
    cases hr : s.resp t with
    | nil => exact h
    | cons r rest =>
      simp only
      have hresp : ∀ u, ∀ x ∈ upd s.resp t rest u, Answers s u x := by
        intro u x hx
        by_cases e : u = t
        · subst e
          rw [upd_same] at hx
          exact h.resp u x (by rw [hr]; exact List.mem_cons_of_mem _ hx)
        · rw [upd_ne _ _ e] at hx; exact h.resp u x hx
      split
      · rename_i hid
        refine ⟨h.ids, h.flow, hresp, ?_, h.cache⟩
        intro x hx
        simp only [List.mem_append, List.mem_singleton] at hx
        rcases hx with hx | rfl
        · exact h.ret x hx
        · exact ⟨hid, h.resp t r (by rw [hr]; exact List.mem_cons_self)⟩
      · exact ⟨h.ids, h.flow, hresp, h.ret, h.cache⟩
  | loseReq i =>
    refine ⟨h.ids, ?_, h.resp, h.ret, h.cache⟩
    exact ((List.Sublist.refl _).append (List.eraseIdx_sublist _ _)).trans h.flow
  | loseResp t i =>
    refine ⟨h.ids, h.flow, ?_, h.ret, h.cache⟩
    intro u x hx
    simp only [step] at hx
    by_cases e : u = t
    · subst e
      rw [upd_same] at hx
      exact h.resp u x ((List.eraseIdx_sublist _ _).subset hx)
    · rw [upd_ne _ _ e] at hx; exact h.resp u x hx

theorem inv_run (pid : Nat → Nat) (nameOk : Nat → Bool) (as : List Act) (s : St) (h : Inv pid s) :
    Inv pid (run pid nameOk s as) := by
  unfold run
  induction as generalizing s with
  | nil => exact h
  | cons a as ih => exact ih _ (inv_step a h)

/-- The ids in use do not collide: distinct processes have distinct 32-bit process ids, and no
process has made 2³² calls. -/
def NoCollision (pid : Nat → Nat) (s : St) : Prop :=
  (∀ p q, pid p = pid q → p = q) ∧ ∀ p, s.ctr p ≤ 2 ^ 32

theorem sent_unique {pid : Nat → Nat} {s : St} (h : Inv pid s) (hc : NoCollision pid s) :
    (s.sent.map Req.id).Nodup := by
  obtain ⟨keys, hn, he, hlt⟩ := h.ids
  rw [he]
  apply List.Nodup.map_on _ hn
  intro x hx y hy e
  have h1 := hlt x hx
  have h2 := hlt y hy
  have h3 := hc.2 x.1
  have h4 := hc.2 y.1
  obtain ⟨e1, e2⟩ := makeId_inj e (by omega) (by omega)
  exact Prod.ext (hc.1 _ _ e1) e2

/-- A caller is given only the response the handler produced for its own request: same id, same
payload. Missing: process ids shared by two processes (`shared_pid_wrong_answer`). -/
theorem own_answer_partial (pid : Nat → Nat) (nameOk : Nat → Bool) (as : List Act)
    (hc : NoCollision pid (run pid nameOk init as)) (t : Nat) (q : Req) (r : Resp)
    (hq : q ∈ (run pid nameOk init as).sent)
    (hr : (t, q.id, r) ∈ (run pid nameOk init as).returned) :
    ∃ o, (q, o) ∈ (run pid nameOk init as).handled ∧ q.topic = some t ∧ r = respond q.id o := by
  have h := inv_run pid nameOk as init (inv_init pid)
  obtain ⟨h1, q', o, h2, h3, h4⟩ := h.ret _ hr
  have hmem : q' ∈ (run pid nameOk init as).sent :=
    h.flow.subset (List.mem_append_left _ (List.mem_map.mpr ⟨_, h2, rfl⟩))
  have hid : q'.id = q.id := by
    simp only at h1 h4
    rw [h4, respond_id] at h1; exact h1
  have : q' = q := List.inj_on_of_nodup_map (sent_unique h hc) hmem hq hid
  subst this
  exact ⟨o, h2, h3, h4⟩

/-- Each request is executed at most once, and only requests that were sent are executed. -/
theorem at_most_once_partial (pid : Nat → Nat) (nameOk : Nat → Bool) (as : List Act)
    (hc : NoCollision pid (run pid nameOk init as)) :
    ((run pid nameOk init as).handled.map fun x => x.1.id).Nodup ∧
    ∀ x ∈ (run pid nameOk init as).handled, x.1 ∈ (run pid nameOk init as).sent := by
  have h := inv_run pid nameOk as init (inv_init pid)
  constructor
  · have h1 := sent_unique h hc
    have h2 : ((run pid nameOk init as).handled.map Prod.fst).Sublist (run pid nameOk init as).sent :=
      (List.sublist_append_left _ _).trans h.flow
    have h3 := (h2.map Req.id).nodup h1
    rw [List.map_map] at h3
    exact h3
  · intro x hx
    exact h.flow.subset (List.mem_append_left _ (List.mem_map.mpr ⟨_, hx, rfl⟩))

/-- Requests are executed in the order they were sent, without repetition, whatever was lost: the
executed ones form a subsequence of the sent ones, even if ids collide. -/
theorem executed_in_order (pid : Nat → Nat) (nameOk : Nat → Bool) (as : List Act) :
    ((run pid nameOk init as).handled.map Prod.fst).Sublist (run pid nameOk init as).sent :=
  (List.sublist_append_left _ _).trans (inv_run pid nameOk as init (inv_init pid)).flow

/-- A concrete history in which a caller is answered. -/
def hello : List Act :=
  [.newClient 3, .call 3 (makeId 7 1) 20, .serve (.value 21), .poll (makeId 7 1) (makeId 7 1)]

example : (run (fun _ => 7) (fun _ => true) init hello).returned
    = [(makeId 7 1, makeId 7 1, ⟨makeId 7 1, true, some 21, none⟩)] := by decide

/-- Two processes with the same process id (two containers sharing memory, or a process id used
again) share the response topic and the request ids: the second is given the first one's answer. -/
theorem shared_pid_wrong_answer :
    let s := run (fun _ => 1) (fun _ => true) init
      [.newClient 0, .newClient 1, .call 0 (makeId 1 1) 100, .call 1 (makeId 1 1) 200,
       .serve (.value 101), .poll (makeId 1 1) (makeId 1 1)]
    s.sent = [⟨makeId 1 1, 100, some (makeId 1 1)⟩, ⟨makeId 1 1, 200, some (makeId 1 1)⟩] ∧
    s.returned = [(makeId 1 1, makeId 1 1, ⟨makeId 1 1, true, some 101, none⟩)] ∧
    s.handled.map (fun x => x.1.payload) = [100] := by
  decide

/-! ### Isolation -/

/-- Handling a request — whatever the handler does, whatever topic it names — leaves every other
topic's responses as they were, and the server goes on with the remaining requests. -/
theorem others_unaffected (nameOk : Nat → Bool) (o : Outcome) (s : St) (q : Req) (rest : List Req)
    (hr : s.reqs = q :: rest) :
    (serve nameOk o s).reqs = rest ∧ ∀ t, q.topic ≠ some t → (serve nameOk o s).resp t = s.resp t := by
  unfold serve
  rw [hr]
  simp only
  refine ⟨(route_frame nameOk _ _ _).1, ?_⟩
  intro t ht
  rcases route_resp nameOk (respond q.id o) q.topic { s with reqs := rest, handled := s.handled ++ [(q, o)] } t with e | ⟨e, _⟩
  · exact e
  · exact absurd e ht

/-- The server keeps at most 64 client topics. -/
theorem cache_bounded (pid : Nat → Nat) (nameOk : Nat → Bool) (as : List Act) :
    (run pid nameOk init as).cache.length ≤ 64 :=
  (inv_run pid nameOk as init (inv_init pid)).cache

/-- A client whose topic is cached, or can be, gets its response appended to its topic. -/
theorem answer_is_delivered (nameOk : Nat → Bool) (o : Outcome) (s : St) (q : Req) (rest : List Req)
    (t : Nat) (hr : s.reqs = q :: rest) (ht : q.topic = some t)
    (hok : t ∈ s.cache ∨ (s.cache.length < 64 ∧ nameOk t = true)) :
    (serve nameOk o s).resp t = s.resp t ++ [respond q.id o] := by
  unfold serve
  rw [hr]
  simp only
  rw [ht]
  unfold route
  simp only
  by_cases h1 : t ∈ s.cache
  · simp [h1]
  · rcases hok with h | ⟨h2, h3⟩
    · exact absurd h h1
    · have h4 : ¬ maxTopics ≤ s.cache.length := by unfold maxTopics; omega
      simp [h1, h4, h3]

/-! ### The caller's side -/

/-- A blocking caller finds its response however many older ones are ahead of it. -/
theorem poll_finds (pid : Nat → Nat) (nameOk : Nat → Bool) (s : St) (t id : Nat) (old rest : List Resp)
    (r : Resp) (h : s.resp t = old ++ r :: rest) (hold : ∀ x ∈ old, x.id ≠ id) (hr : r.id = id) :
    (run pid nameOk s (List.replicate (old.length + 1) (Act.poll t id))).returned
      = s.returned ++ [(t, id, r)] := by
  induction old generalizing s with
  | nil =>
    simp only [List.nil_append] at h
    simp [run, step, h, hr]
  | cons x old ih =>
    rw [List.length_cons, List.replicate_succ]
    unfold run
    rw [List.foldl_cons]
    have hx : x.id ≠ id := hold x List.mem_cons_self
    have hstep : step pid nameOk s (.poll t id) = { s with resp := upd s.resp t (old ++ r :: rest) } := by
      simp only [List.cons_append] at h
      simp [step, h, hx]
    rw [hstep]
    have := ih { s with resp := upd s.resp t (old ++ r :: rest) } (by simp)
      (fun y hy => hold y (List.mem_cons_of_mem _ hy))
    exact this

/-- A response of its own is always understood: a value becomes a value, a refusal or panic an
error. -/
theorem interpret_respond (a b id : Nat) (o : Outcome) :
    interpret a b (respond id o) = match o with
      | .value v => CallResult.ok v
      | .fail e => CallResult.failed e
      | .panic => CallResult.failed panicText := by
  cases o <;> rfl

/-- Two calls outstanding on one asynchronous client: checking the second discards the first one's
response, which is then lost for good. -/
theorem pending_call_loses_answer :
    let t := makeId 7 1
    let s := run (fun _ => 7) (fun _ => true) init
      [.newClient 0, .call 0 t 1, .call 0 t 2, .serve (.value 11), .serve (.value 12),
       .poll t (makeId 7 2), .poll t (makeId 7 2)]
    s.handled.map (fun x => x.1.id) = [makeId 7 1, makeId 7 2] ∧
    s.returned.map (fun x => x.2.1) = [makeId 7 2] ∧ s.resp t = [] := by
  decide

/-! ### Retries -/

/-- A resilient call makes at least one attempt and at most one more than its retries; it reports
the result of its last attempt; every earlier attempt ended in a transient error; and it stops early
only on success or a permanent error. -/
theorem resilient_spec (res : Nat → CallResult) (k left : Nat) :
    let out := resilient res k left
    k < out.2 ∧ out.2 ≤ k + left + 1 ∧ out.1 = res (out.2 - 1) ∧
    (∀ j, k ≤ j → j + 1 < out.2 → (res j).transient = true) ∧
    (out.2 < k + left + 1 → out.1.transient = false) := by
  induction left generalizing k with
  | zero =>
    simp only [resilient]
    refine ⟨by omega, by omega, by simp, ?_, by omega⟩
    intro j h1 h2; omega
  | succ n ih =>
    have hrec := ih (k + 1)
    have hgo : (res k).transient = true → resilient res k (n + 1) = resilient res (k + 1) n := by
      intro ht
      rw [resilient]
      cases hk : res k <;> rw [hk] at ht <;> simp_all [CallResult.transient]
    have hstop : (res k).transient = false → resilient res k (n + 1) = (res k, k + 1) := by
      intro ht
      rw [resilient]
      cases hk : res k <;> rw [hk] at ht <;> simp_all [CallResult.transient]
    cases ht : (res k).transient with
    | true =>
      rw [hgo ht]
      simp only at hrec ⊢
      obtain ⟨a, b, c, d, e⟩ := hrec
      refine ⟨by omega, by omega, c, ?_, fun h => e (by omega)⟩
      intro j h1 h2
      by_cases e1 : j = k
      · rw [e1]; exact ht
      · exact d j (by omega) h2
    | false =>
      rw [hstop ht]
      refine ⟨by simp, by simp, by simp, ?_, fun _ => ht⟩
      intro j h1 h2; simp at h2; omega

/-- Which errors are worth another attempt: a timeout and a failure of the transport, and nothing else
(a handler that refused is not asked again). -/
theorem transient_iff (r : CallResult) : r.transient = true ↔ r = .timeout ∨ r = .transport := by
  cases r <;> simp [CallResult.transient]

example : resilient (fun k => if k = 2 then .ok 5 else .timeout) 0 3 = (.ok 5, 3) := by decide

/-- Each attempt of a resilient call is a request of its own, so a handler slower than the timeout
runs once per attempt. -/
theorem retry_executes_again :
    let t := makeId 7 1
    let s := run (fun _ => 7) (fun _ => true) init
      [.newClient 0, .call 0 t 5, .call 0 t 5, .serve (.value 6), .serve (.value 6)]
    s.handled.map (fun x => x.1.payload) = [5, 5] := by
  decide

/-! ### C80: every client is answered -/

/-- Once 64 client topics are cached the cache never changes. -/
theorem cache_stays (pid : Nat → Nat) (nameOk : Nat → Bool) (s : St) (a : Act)
    (h : 64 ≤ s.cache.length) : (step pid nameOk s a).cache = s.cache := by
  have hm : maxTopics ≤ s.cache.length := h
  cases a with
  | newClient p => rfl
  | call p t x => simp only [step]; split <;> rfl
  | serve o =>
    simp only [step, serve]
    cases hr : s.reqs with
    | nil => rfl
    | cons q rest =>
      simp only [route]
      cases q.topic with
      | none => rfl
      | some t =>
        simp only
        by_cases ht : t ∈ s.cache <;> simp [ht, hm]
  | poll t id =>
    simp only [step]
    split
    · rfl
    · split <;> rfl
  | loseReq i => rfl
  | loseResp t i => rfl

/-- A client whose topic is not among the first 64 is never answered: whatever happens afterwards,
nothing is ever put on its topic, although its requests are executed. -/
theorem late_client_never_answered (pid : Nat → Nat) (nameOk : Nat → Bool) (as : List Act) (s : St)
    (t : Nat) (h : 64 ≤ s.cache.length) (ht : t ∉ s.cache) (he : s.resp t = []) :
    (run pid nameOk s as).resp t = [] := by
  unfold run
  induction as generalizing s with
  | nil => exact he
  | cons a as ih =>
    rw [List.foldl_cons]
    have hc := cache_stays pid nameOk s a h
    apply ih
    · rw [hc]; exact h
    · rw [hc]; exact ht
    · have hm : maxTopics ≤ s.cache.length := h
      cases a with
      | newClient p => exact he
      | call p u x => simp only [step]; split <;> exact he
      | serve o =>
        simp only [step, serve]
        cases hr : s.reqs with
        | nil => exact he
        | cons q rest =>
          simp only [route]
          cases q.topic with
          | none => exact he
          | some u =>
            simp only
            by_cases hu : u ∈ s.cache
            · have hut : t ≠ u := fun e => ht (e ▸ hu)
              simp only [hu, not_true_eq_false, false_and, if_false, if_true]
              rw [upd_ne _ _ hut]; exact he
            · simp [hu, hm, he]
      | poll u id =>
        simp only [step]
        cases hr : s.resp u with
        | nil => exact he
        | cons r rest =>
          have hut : t ≠ u := by intro e; subst e; rw [he] at hr; cases hr
          simp only
          split
          · simp only; rw [upd_ne _ _ hut]; exact he
          · simp only; rw [upd_ne _ _ hut]; exact he
      | loseReq i => exact he
      | loseResp u i =>
        simp only [step]
        by_cases e : t = u
        · subst e; rw [upd_same, he]; rfl
        · rw [upd_ne _ _ e]; exact he

/-- One client after the other makes one call and is served. -/
def manyClients (n : Nat) : List Act :=
  (List.range n).flatMap fun k => [.newClient 0, .call 0 (makeId 7 (k + 1)) 5, .serve (.value 6)]

/-- The situation is reached in ordinary use: 64 clients over the server's lifetime, and the 65th
is executed but not answered. -/
theorem sixty_fifth_client_unanswered :
    let s := run (fun _ => 7) (fun _ => true) init (manyClients 65)
    s.cache.length = 64 ∧ s.handled.length = 65 ∧ s.resp (makeId 7 65) = [] ∧ s.resp (makeId 7 64) ≠ [] := by
  decide +kernel

/-- Before the cache is full every client with an acceptable name is answered. -/
theorem early_client_answered_partial (nameOk : Nat → Bool) (o : Outcome) (s : St) (q : Req)
    (rest : List Req) (t : Nat) (hr : s.reqs = q :: rest) (ht : q.topic = some t)
    (hn : nameOk t = true) (hlen : s.cache.length < 64) :
    respond q.id o ∈ (serve nameOk o s).resp t := by
  rw [answer_is_delivered nameOk o s q rest t hr ht (Or.inr ⟨hlen, hn⟩)]
  simp

/-! ### The JSON gateway -/

/-- However many servers watch the directory, a request file is executed at most once. -/
theorem gateway_at_most_once (as : List GAct) : (as.foldl gstep {}).ran.length ≤ 1 := by
  have : ∀ (as : List GAct) (g : Gate), g.ran.length + (if g.present then 1 else 0) ≤ 1 →
      (as.foldl gstep g).ran.length + (if (as.foldl gstep g).present then 1 else 0) ≤ 1 := by
    intro as
    induction as with
    | nil => intro g h; exact h
    | cons a as ih =>
      intro g h
      rw [List.foldl_cons]
      apply ih
      cases a with
      | read v =>
        obtain ⟨pr, seen, ran⟩ := g
        cases pr <;> simpa [gstep] using h
      | claim v =>
        obtain ⟨pr, seen, ran⟩ := g
        by_cases hv : v ∈ seen <;> cases pr <;> simp [gstep, hv] at h ⊢ <;> simp [h]
  have h := this as {} (by decide)
  omega

/-- A request that is read and claimed is executed. -/
theorem gateway_executes (v : Nat) : ([GAct.read v, GAct.claim v].foldl gstep {}).ran = [v] := by
  simp [gstep]

/-- Every request file of a service is taken by it. -/
theorem gateway_takes_own (svc id : List Char) : gatewayTakes svc (gatewayFile svc id) = true := by
  unfold gatewayTakes gatewayFile
  simp only [Bool.and_eq_true, List.isPrefixOf_iff_prefix, List.isSuffixOf_iff_suffix]
  refine ⟨?_, ?_⟩
  · rw [List.append_assoc]; exact List.prefix_append _ _
  · exact List.suffix_append _ _

/-- It also takes the files of a service whose name extends its own with `.request.`. -/
theorem gateway_takes_others :
    gatewayTakes ['a'] (gatewayFile ['a', '.', 'r', 'e', 'q', 'u', 'e', 's', 't', '.', 'b'] ['1']) = true := by
  decide

end Horus.Service
