import Mathlib.Tactic.Common
import Mathlib.Data.List.Nodup
/-
`horus service call`: the file gateway between the command line and the servers of one service. Callers and servers are separate processes
that share a directory; every file operation is a transition of its own, any number of calls and of servers run at the same time, and a
caller or a server can be killed anywhere.
Sources: /repo/horus_manager/src/commands/service.rs:359-535 (`call_service`), /repo/horus_core/src/services/server.rs:224-307
(`run_server_loop`, the gateway part), /repo/horus_sys/src/shm/mod.rs:418-430 (`write_shm_file_new`).
Simplifications: one service, so that a file is known by the number in its name (which files a service takes for its own:
`Horus.Service.gatewayTakes`); a file that is still being written is one that does not parse (a strict beginning of a JSON object is not
JSON); removing the two files after a response was read is one transition; file operations fail only for the reasons written here.
-/
namespace Horus.Gateway

set_option linter.unusedVariables false
set_option linter.unusedTactic false
set_option linter.unreachableTactic false

variable {P R : Type}

/-! ### Model -/

/-- A file in the gateway's directory: what its writer is putting in it, who writes it, whether all of it is there, and when it was last
written. mod.rs:418-430: created first, then filled. -/
structure File (α : Type) where
  val : α
  by_ : Nat
  whole : Bool
  at_ : Nat

/-- How a call ended (service.rs:498-535; a file of that name was there: 451-457). -/
inductive Outcome (R : Type)
  | reply (r : R)
  | timeout
  | cancelled
  | refused
deriving DecidableEq

/-- Where a caller is. `polled` has the data of the response file (`none`: it does not parse); `closing` still has to drop its
`GatewayCleanup`. Source: service.rs:451-535. -/
inductive CPc (R : Type)
  | idle
  | made
  | waiting
  | polled (d : Option R)
  | closing (o : Outcome R)
  | done (o : Outcome R)
  | dead
deriving DecidableEq

/-- Where a server is with the request it is working on. Source: server.rs:243-281. -/
inductive SPc (P R : Type)
  | idle
  | got (x : Nat) (d : Option P)
  | claimed (x : Nat) (p : P)
  | ran (x : Nat) (r : R)
  | writing (x : Nat)
  | dead
deriving DecidableEq

/-- The directory, the processes and the clock (seconds). Ghost: `claims` the numbers of the requests taken, `ran` the executions of the
handler with their answers, `torn` the requests taken without having been read whole, `bad` the ones whose payload the service cannot
take, `fell` the ones held by a server that was killed.
Ghost or helper of the model of service.rs, server.rs. -/
structure St (P R : Type) where
  req : Nat → Option (File P)
  res : Nat → Option (File R)
  cl : Nat → CPc R
  sv : Nat → SPc P R
  clock : Nat
  claims : List Nat
  ran : List (Nat × P × R)
  torn : List Nat
  bad : List Nat
  fell : List Nat

/-- An empty directory. Source: service.rs, server.rs. -/
def St.init : St P R := ⟨fun _ => none, fun _ => none, fun _ => .idle, fun _ => .idle, 0, [], [], [], [], []⟩

/-- A changed entry. Ghost or helper of the model of service.rs, server.rs. -/
def upd {α : Type} (f : Nat → α) (i : Nat) (x : α) : Nat → α := fun j => if j = i then x else f j

/-- What the callers ask: the number of each call and its payload, and which payloads are of the service's request type
(`serde_json::from_value`, server.rs:253). -/
structure World (P : Type) where
  id : Nat → Nat
  pay : Nat → P
  conv : P → Bool

/-- What is read from a file (service.rs:512, server.rs:244): all of it or something that does not parse. -/
def File.read {α : Type} (f : File α) : Option α := if f.whole then some f.val else none

/-- What can happen. `out` is what the handler answers this time (a value, its error, or that it panicked: server.rs:258-271).
Schedules over the functions of service.rs, server.rs. -/
inductive Act (R : Type)
  | make (i : Nat)
  | fill (i : Nat)
  | poll (i : Nat)
  | take (i : Nat)
  | leave (i : Nat) (cancel : Bool)
  | close (i : Nat)
  | killC (i : Nat)
  | get (v x : Nat)
  | claim (v : Nat)
  | run (v : Nat) (out : R)
  | create (v : Nat)
  | finish (v : Nat)
  | sweep (v : Nat)
  | killS (v : Nat)
  | pass (n : Nat)

/-- service.rs:451: the request file is created, never over another. -/
def make (w : World P) (s : St P R) (i : Nat) : St P R :=
  match s.cl i, s.req (w.id i) with
  | .idle, none => { s with req := upd s.req (w.id i) (some ⟨w.pay i, i, false, s.clock⟩), cl := upd s.cl i .made }
  | .idle, some _ => { s with cl := upd s.cl i (.done .refused) }
  | _, _ => s

/-- mod.rs:428-429: the bytes are there. -/
def fill (w : World P) (s : St P R) (i : Nat) : St P R :=
  match s.cl i with
  | .made =>
    match s.req (w.id i) with
    | some f => if f.by_ = i then { s with req := upd s.req (w.id i) (some { f with whole := true, at_ := s.clock }), cl := upd s.cl i .waiting }
      else { s with cl := upd s.cl i .waiting }
    | none => { s with cl := upd s.cl i .waiting }
  | _ => s

/-- service.rs:512: is there a response? -/
def poll (w : World P) (s : St P R) (i : Nat) : St P R :=
  match s.cl i, s.res (w.id i) with
  | .waiting, some f => { s with cl := upd s.cl i (.polled f.read) }
  | _, _ => s

/-- service.rs:513-532: both files are removed, then the data is looked at. -/
def take (w : World P) (s : St P R) (i : Nat) : St P R :=
  match s.cl i with
  | .polled (some r) => { s with res := upd s.res (w.id i) none, req := upd s.req (w.id i) none, cl := upd s.cl i (.closing (.reply r)) }
  | .polled none => { s with res := upd s.res (w.id i) none, req := upd s.req (w.id i) none, cl := upd s.cl i .waiting }
  | _ => s

/-- service.rs:494-510: interrupted, or out of time. -/
def leave (w : World P) (s : St P R) (i : Nat) (cancel : Bool) : St P R :=
  match s.cl i with
  | .waiting => { s with req := upd s.req (w.id i) none, cl := upd s.cl i (.closing (if cancel then .cancelled else .timeout)) }
  | _ => s

/-- service.rs:469-475 `GatewayCleanup::drop`. -/
def close (w : World P) (s : St P R) (i : Nat) : St P R :=
  match s.cl i with
  | .closing o => { s with req := upd s.req (w.id i) none, res := upd s.res (w.id i) none, cl := upd s.cl i (.done o) }
  | _ => s

/-- server.rs:244-246: a request file from the listing is read. -/
def get (s : St P R) (v x : Nat) : St P R :=
  match s.sv v, s.req x with
  | .idle, some f => { s with sv := upd s.sv v (.got x f.read) }
  | _, _ => s

/-- server.rs:249-253: the file is removed by the one that may go on with it; what does not parse or is not a request of this service is
dropped. -/
def claim (w : World P) (s : St P R) (v : Nat) : St P R :=
  match s.sv v with
  | .got x d =>
    match s.req x with
    | none => { s with sv := upd s.sv v .idle }
    | some _ =>
      match d with
      | none => { s with req := upd s.req x none, sv := upd s.sv v .idle, claims := x :: s.claims, torn := x :: s.torn }
      | some p =>
        if w.conv p then { s with req := upd s.req x none, sv := upd s.sv v (.claimed x p), claims := x :: s.claims }
        else { s with req := upd s.req x none, sv := upd s.sv v .idle, claims := x :: s.claims, bad := x :: s.bad }
  | _ => s

/-- server.rs:254-271: the handler. -/
def runH (s : St P R) (v : Nat) (out : R) : St P R :=
  match s.sv v with
  | .claimed x p => { s with sv := upd s.sv v (.ran x out), ran := (x, p, out) :: s.ran }
  | _ => s

/-- server.rs:272-276: the response file is created, never over another. -/
def create (s : St P R) (v : Nat) : St P R :=
  match s.sv v with
  | .ran x r =>
    match s.res x with
    | none => { s with res := upd s.res x (some ⟨r, v, false, s.clock⟩), sv := upd s.sv v (.writing x) }
    | some _ => { s with sv := upd s.sv v .idle }
  | _ => s

/-- mod.rs:428-429: its bytes are there. -/
def finish (s : St P R) (v : Nat) : St P R :=
  match s.sv v with
  | .writing x =>
    match s.res x with
    | some f => if f.by_ = v then { s with res := upd s.res x (some { f with whole := true, at_ := s.clock }), sv := upd s.sv v .idle }
      else { s with sv := upd s.sv v .idle }
    | none => { s with sv := upd s.sv v .idle }
  | _ => s

/-- server.rs:285-306: responses nobody collected for 120 seconds. -/
def sweep (s : St P R) (v : Nat) : St P R :=
  match s.sv v with
  | .idle => { s with res := fun x => match s.res x with
      | some f => if f.at_ + 120 ≤ s.clock then none else some f
      | none => none }
  | _ => s

/-- A server is killed. Ghost: what it held is noted. Schedules over the functions of service.rs, server.rs. -/
def killS (s : St P R) (v : Nat) : St P R :=
  match s.sv v with
  | .claimed x _ => { s with sv := upd s.sv v .dead, fell := x :: s.fell }
  | _ => { s with sv := upd s.sv v .dead }

/-- One transition. Schedules over the functions of service.rs, server.rs. -/
def step (w : World P) (s : St P R) : Act R → St P R
  | .make i => make w s i
  | .fill i => fill w s i
  | .poll i => poll w s i
  | .take i => take w s i
  | .leave i c => leave w s i c
  | .close i => close w s i
  | .killC i => { s with cl := upd s.cl i .dead }
  | .get v x => get s v x
  | .claim v => claim w s v
  | .run v out => runH s v out
  | .create v => create s v
  | .finish v => finish s v
  | .sweep v => sweep s v
  | .killS v => killS s v
  | .pass n => { s with clock := s.clock + n }

/-- A history. Schedules over the functions of service.rs, server.rs. -/
def run (w : World P) (s : St P R) (as : List (Act R)) : St P R := as.foldl (step w) s

/-! ### Specification -/

/-- Every call has a number of its own (service.rs:391-395: the process number and the nanoseconds of the clock). -/
def Distinct (w : World P) : Prop := ∀ i j, w.id i = w.id j → i = j

/-- The handler ran for call `i`, on its payload, and answered `r`. -/
def Answered (w : World P) (s : St P R) (i : Nat) (r : R) : Prop := (w.id i, w.pay i, r) ∈ s.ran

/-- How often the handler ran for call `i`. -/
def times (w : World P) (s : St P R) (i : Nat) : Nat := (s.ran.filter fun e => e.1 == w.id i).length

/-! ### The invariant -/

def SPc.holds : SPc P R → Option Nat
  | .claimed x _ => some x
  | .ran x _ => some x
  | .writing x => some x
  | _ => none

/-- Before the response file is created. -/
def SPc.early : SPc P R → Option Nat
  | .claimed x _ => some x
  | .ran x _ => some x
  | _ => none

/-- The answer a caller has. -/
def CPc.ans : CPc R → Option R
  | .polled (some r) => some r
  | .closing (.reply r) => some r
  | .done (.reply r) => some r
  | _ => none

def CPc.over : CPc R → Bool
  | .closing .refused => false
  | .closing _ => true
  | .done .refused => false
  | .done _ => true
  | _ => false

def CPc.replied : CPc R → Bool
  | .closing (.reply _) => true
  | .done (.reply _) => true
  | _ => false

structure Inv (w : World P) (s : St P R) : Prop where
  reqf : ∀ x f, s.req x = some f → x ∉ s.claims ∧ w.id f.by_ = x ∧ f.val = w.pay f.by_ ∧ s.cl f.by_ ≠ .idle
  clm : ∀ i, w.id i ∈ s.claims → s.cl i ≠ .idle
  nd : s.claims.Nodup
  got : ∀ v x p, s.sv v = .got x (some p) → ∃ i, w.id i = x ∧ w.pay i = p
  hold : ∀ v x, (s.sv v).holds = some x → x ∈ s.claims
  one : ∀ v v' x, (s.sv v).holds = some x → (s.sv v').holds = some x → v = v'
  cld : ∀ v x p, s.sv v = .claimed x p → (∃ i, w.id i = x ∧ w.pay i = p) ∧ w.conv p = true ∧ x ∉ s.ran.map (·.1)
  rnd : (s.ran.map (·.1)).Nodup
  rcl : ∀ x ∈ s.ran.map (·.1), x ∈ s.claims
  rpay : ∀ e ∈ s.ran, (∃ i, w.id i = e.1 ∧ w.pay i = e.2.1) ∧ w.conv e.2.1 = true
  sran : ∀ v x r, s.sv v = .ran x r → ∃ p, (x, p, r) ∈ s.ran
  resf : ∀ x f, s.res x = some f → (∃ p, (x, p, f.val) ∈ s.ran) ∧ ∀ v, (s.sv v).early ≠ some x
  ans : ∀ i r, (s.cl i).ans = some r → (∃ p, (w.id i, p, r) ∈ s.ran) ∧ ∀ v, (s.sv v).early ≠ some (w.id i)
  rep : ∀ i, (s.cl i).replied = true → s.res (w.id i) = none
  over : ∀ i, (s.cl i).over = true → s.req (w.id i) = none
  why : ∀ x ∈ s.claims, x ∈ s.torn ∨ x ∈ s.bad ∨ x ∈ s.fell ∨ x ∈ s.ran.map (·.1) ∨ ∃ v p, s.sv v = .claimed x p
  badp : ∀ x ∈ s.bad, ∃ i, w.id i = x ∧ w.conv (w.pay i) = false

theorem inv_init (w : World P) : Inv w (St.init : St P R) := by
  constructor <;> simp [St.init, SPc.holds, SPc.early, CPc.ans, CPc.replied, CPc.over]

theorem upd_same {α : Type} (f : Nat → α) (i : Nat) (x : α) : upd f i x i = x := by simp [upd]

theorem upd_ne {α : Type} (f : Nat → α) (i j : Nat) (x : α) (h : j ≠ i) : upd f i x j = f j := by simp [upd, h]

theorem early_holds (c : SPc P R) (x : Nat) (h : c.early = some x) : c.holds = some x := by
  cases c <;> simp_all [SPc.early, SPc.holds]

theorem replied_ans (c : CPc R) (h : c.replied = true) : ∃ r, c.ans = some r := by
  cases c with
  | closing o => cases o <;> simp_all [CPc.replied, CPc.ans]
  | done o => cases o <;> simp_all [CPc.replied, CPc.ans]
  | _ => simp [CPc.replied] at h

/-- A claimed request stays with its server while another's place changes. -/
theorem why_step {sv : Nat → SPc P R} {v : Nat} {y : SPc P R} {x : Nat} (h : ∃ v' p, sv v' = .claimed x p) (hv : ∀ p, sv v ≠ .claimed x p) :
    ∃ v' p, upd sv v y v' = .claimed x p := by
  obtain ⟨v', p, h⟩ := h
  refine ⟨v', p, ?_⟩
  rw [upd_ne]
  · exact h
  · rintro rfl
    exact hv p h

theorem why_new {sv : Nat → SPc P R} {v x : Nat} {p : P} : ∃ v' p', upd sv v (.claimed x p) v' = .claimed x p' := ⟨v, p, upd_same _ _ _⟩

theorem inv_make (w : World P) (hd : Distinct w) (s : St P R) (h : Inv w s) (i : Nat) : Inv w (make w s i) := by
  unfold make
  repeat' split
  all_goals first
    | exact h
    | (obtain ⟨a1, a2, a3, a4, a5, a6, a7, a8, a9, a10, a11, a12, a13, a14, a15, a16, a17⟩ := h
       constructor <;> dsimp only
       all_goals first
         | grind [upd, CPc.ans, CPc.replied, CPc.over, SPc.holds, SPc.early, Distinct, File.read, CPc, SPc, Outcome, early_holds, replied_ans])

theorem inv_fill (w : World P) (hd : Distinct w) (s : St P R) (h : Inv w s) (i : Nat) : Inv w (fill w s i) := by
  unfold fill
  repeat' split
  all_goals first
    | exact h
    | (obtain ⟨a1, a2, a3, a4, a5, a6, a7, a8, a9, a10, a11, a12, a13, a14, a15, a16, a17⟩ := h
       constructor <;> dsimp only
       all_goals first
         | grind [upd, CPc.ans, CPc.replied, CPc.over, SPc.holds, SPc.early, Distinct, File.read, CPc, SPc, Outcome, early_holds, replied_ans])

theorem inv_poll (w : World P) (hd : Distinct w) (s : St P R) (h : Inv w s) (i : Nat) : Inv w (poll w s i) := by
  unfold poll
  repeat' split
  all_goals first
    | exact h
    | (obtain ⟨a1, a2, a3, a4, a5, a6, a7, a8, a9, a10, a11, a12, a13, a14, a15, a16, a17⟩ := h
       constructor <;> dsimp only
       all_goals first
         | grind [upd, CPc.ans, CPc.replied, CPc.over, SPc.holds, SPc.early, Distinct, File.read, CPc, SPc, Outcome, early_holds, replied_ans]
         | (intro i' r hr
            by_cases e : i' = i
            · subst e
              rw [upd_same] at hr
              rename_i f _ hf
              have : f.val = r := by
                unfold File.read at hr
                split at hr <;> simp_all [CPc.ans]
              subst this
              exact a12 _ _ hf
            · rw [upd_ne _ _ _ _ e] at hr
              exact a13 i' r hr))

theorem inv_take (w : World P) (hd : Distinct w) (s : St P R) (h : Inv w s) (i : Nat) : Inv w (take w s i) := by
  unfold take
  repeat' split
  all_goals first
    | exact h
    | (obtain ⟨a1, a2, a3, a4, a5, a6, a7, a8, a9, a10, a11, a12, a13, a14, a15, a16, a17⟩ := h
       constructor <;> dsimp only
       all_goals first
         | grind [upd, CPc.ans, CPc.replied, CPc.over, SPc.holds, SPc.early, Distinct, File.read, CPc, SPc, Outcome, early_holds, replied_ans])

theorem inv_leave (w : World P) (hd : Distinct w) (s : St P R) (h : Inv w s) (i : Nat) (c : Bool) : Inv w (leave w s i c) := by
  unfold leave
  repeat' split
  all_goals first
    | exact h
    | (obtain ⟨a1, a2, a3, a4, a5, a6, a7, a8, a9, a10, a11, a12, a13, a14, a15, a16, a17⟩ := h
       constructor <;> dsimp only
       all_goals first
         | grind [upd, CPc.ans, CPc.replied, CPc.over, SPc.holds, SPc.early, Distinct, File.read, CPc, SPc, Outcome, early_holds, replied_ans])

theorem inv_close (w : World P) (hd : Distinct w) (s : St P R) (h : Inv w s) (i : Nat) : Inv w (close w s i) := by
  unfold close
  repeat' split
  all_goals first
    | exact h
    | (obtain ⟨a1, a2, a3, a4, a5, a6, a7, a8, a9, a10, a11, a12, a13, a14, a15, a16, a17⟩ := h
       constructor <;> dsimp only
       all_goals first
         | grind [upd, CPc.ans, CPc.replied, CPc.over, SPc.holds, SPc.early, Distinct, File.read, CPc, SPc, Outcome, early_holds, replied_ans])

theorem inv_get (w : World P) (hd : Distinct w) (s : St P R) (h : Inv w s) (v x : Nat) : Inv w (get s v x) := by
  unfold get
  repeat' split
  all_goals first
    | exact h
    | (obtain ⟨a1, a2, a3, a4, a5, a6, a7, a8, a9, a10, a11, a12, a13, a14, a15, a16, a17⟩ := h
       constructor <;> dsimp only
       all_goals first
         | grind [upd, CPc.ans, CPc.replied, CPc.over, SPc.holds, SPc.early, Distinct, File.read, CPc, SPc, Outcome, early_holds, replied_ans]
         | (intro x' hx'
            by_cases hc : x' ∈ s.claims
            · rcases a16 x' hc with h | h | h | h | h
              · grind
              · grind
              · grind
              · grind
              · by_cases hv : ∃ p, s.sv v = .claimed x' p
                · grind
                · exact Or.inr (Or.inr (Or.inr (Or.inr (why_step h (by grind)))))
            · first
                | exact absurd hx' hc
                | (rcases List.mem_cons.mp hx' with rfl | h2
                   · first
                     | exact Or.inr (Or.inr (Or.inr (Or.inr why_new)))
                     | grind
                   · exact absurd h2 hc)))

set_option maxHeartbeats 1000000 in
theorem inv_claim (w : World P) (hd : Distinct w) (s : St P R) (h : Inv w s) (v : Nat) : Inv w (claim w s v) := by
  unfold claim
  repeat' split
  all_goals first
    | exact h
    | (obtain ⟨a1, a2, a3, a4, a5, a6, a7, a8, a9, a10, a11, a12, a13, a14, a15, a16, a17⟩ := h
       constructor <;> dsimp only
       all_goals first
         | grind [upd, CPc.ans, CPc.replied, CPc.over, SPc.holds, SPc.early, Distinct, File.read, CPc, SPc, Outcome, early_holds, replied_ans]
         | (intro x' hx'
            by_cases hc : x' ∈ s.claims
            · rcases a16 x' hc with h | h | h | h | h
              · grind
              · grind
              · grind
              · grind
              · by_cases hv : ∃ p, s.sv v = .claimed x' p
                · grind
                · exact Or.inr (Or.inr (Or.inr (Or.inr (why_step h (by grind)))))
            · first
                | exact absurd hx' hc
                | (rcases List.mem_cons.mp hx' with rfl | h2
                   · first
                     | exact Or.inr (Or.inr (Or.inr (Or.inr why_new)))
                     | grind
                   · exact absurd h2 hc)))

theorem inv_runH (w : World P) (hd : Distinct w) (s : St P R) (h : Inv w s) (v : Nat) (out : R) : Inv w (runH s v out) := by
  unfold runH
  repeat' split
  all_goals first
    | exact h
    | (obtain ⟨a1, a2, a3, a4, a5, a6, a7, a8, a9, a10, a11, a12, a13, a14, a15, a16, a17⟩ := h
       constructor <;> dsimp only
       all_goals first
         | grind [upd, CPc.ans, CPc.replied, CPc.over, SPc.holds, SPc.early, Distinct, File.read, CPc, SPc, Outcome, early_holds, replied_ans]
         | (intro x' hx'
            by_cases hc : x' ∈ s.claims
            · rcases a16 x' hc with h | h | h | h | h
              · grind
              · grind
              · grind
              · grind
              · by_cases hv : ∃ p, s.sv v = .claimed x' p
                · grind
                · exact Or.inr (Or.inr (Or.inr (Or.inr (why_step h (by grind)))))
            · first
                | exact absurd hx' hc
                | (rcases List.mem_cons.mp hx' with rfl | h2
                   · first
                     | exact Or.inr (Or.inr (Or.inr (Or.inr why_new)))
                     | grind
                   · exact absurd h2 hc)))

theorem inv_create (w : World P) (hd : Distinct w) (s : St P R) (h : Inv w s) (v : Nat) : Inv w (create s v) := by
  unfold create
  repeat' split
  all_goals first
    | exact h
    | (obtain ⟨a1, a2, a3, a4, a5, a6, a7, a8, a9, a10, a11, a12, a13, a14, a15, a16, a17⟩ := h
       constructor <;> dsimp only
       all_goals first
         | grind [upd, CPc.ans, CPc.replied, CPc.over, SPc.holds, SPc.early, Distinct, File.read, CPc, SPc, Outcome, early_holds, replied_ans]
         | (rename_i x0 r0 hv _ hn
            intro x' f hf
            by_cases e : x' = x0
            · subst e
              rw [upd_same] at hf
              cases hf
              refine ⟨a11 _ _ _ hv, fun v' hv' => ?_⟩
              by_cases e2 : v' = v
              · subst e2
                rw [upd_same] at hv'
                simp [SPc.early] at hv'
              · rw [upd_ne _ _ _ _ e2] at hv'
                exact e2 (a6 v' v x' (early_holds _ _ hv') (by rw [hv]; rfl))
            · rw [upd_ne _ _ _ _ e] at hf
              refine ⟨(a12 _ _ hf).1, fun v' hv' => ?_⟩
              by_cases e2 : v' = v
              · subst e2
                rw [upd_same] at hv'
                simp [SPc.early] at hv'
              · rw [upd_ne _ _ _ _ e2] at hv'
                exact (a12 _ _ hf).2 v' hv')
         | (rename_i x0 r0 hv _ hn
            intro i' hi
            by_cases e : w.id i' = x0
            · obtain ⟨r, hr⟩ := replied_ans _ hi
              exact absurd (by rw [hv, e]; rfl) ((a13 i' r hr).2 v)
            · rw [upd_ne _ _ _ _ e]
              exact a14 i' hi)
         | (intro x' hx'
            by_cases hc : x' ∈ s.claims
            · rcases a16 x' hc with h | h | h | h | h
              · grind
              · grind
              · grind
              · grind
              · by_cases hv : ∃ p, s.sv v = .claimed x' p
                · grind
                · exact Or.inr (Or.inr (Or.inr (Or.inr (why_step h (by grind)))))
            · first
                | exact absurd hx' hc
                | (rcases List.mem_cons.mp hx' with rfl | h2
                   · first
                     | exact Or.inr (Or.inr (Or.inr (Or.inr why_new)))
                     | grind
                   · exact absurd h2 hc)))

theorem inv_finish (w : World P) (hd : Distinct w) (s : St P R) (h : Inv w s) (v : Nat) : Inv w (finish s v) := by
  unfold finish
  repeat' split
  all_goals first
    | exact h
    | (obtain ⟨a1, a2, a3, a4, a5, a6, a7, a8, a9, a10, a11, a12, a13, a14, a15, a16, a17⟩ := h
       constructor <;> dsimp only
       all_goals first
         | grind [upd, CPc.ans, CPc.replied, CPc.over, SPc.holds, SPc.early, Distinct, File.read, CPc, SPc, Outcome, early_holds, replied_ans]
         | (intro x' hx'
            by_cases hc : x' ∈ s.claims
            · rcases a16 x' hc with h | h | h | h | h
              · grind
              · grind
              · grind
              · grind
              · by_cases hv : ∃ p, s.sv v = .claimed x' p
                · grind
                · exact Or.inr (Or.inr (Or.inr (Or.inr (why_step h (by grind)))))
            · first
                | exact absurd hx' hc
                | (rcases List.mem_cons.mp hx' with rfl | h2
                   · first
                     | exact Or.inr (Or.inr (Or.inr (Or.inr why_new)))
                     | grind
                   · exact absurd h2 hc)))

theorem inv_sweep (w : World P) (hd : Distinct w) (s : St P R) (h : Inv w s) (v : Nat) : Inv w (sweep s v) := by
  unfold sweep
  repeat' split
  all_goals first
    | exact h
    | (obtain ⟨a1, a2, a3, a4, a5, a6, a7, a8, a9, a10, a11, a12, a13, a14, a15, a16, a17⟩ := h
       constructor <;> dsimp only
       all_goals first
         | grind [upd, CPc.ans, CPc.replied, CPc.over, SPc.holds, SPc.early, Distinct, File.read, CPc, SPc, Outcome, early_holds, replied_ans]
         | (intro x' hx'
            by_cases hc : x' ∈ s.claims
            · rcases a16 x' hc with h | h | h | h | h
              · grind
              · grind
              · grind
              · grind
              · by_cases hv : ∃ p, s.sv v = .claimed x' p
                · grind
                · exact Or.inr (Or.inr (Or.inr (Or.inr (why_step h (by grind)))))
            · first
                | exact absurd hx' hc
                | (rcases List.mem_cons.mp hx' with rfl | h2
                   · first
                     | exact Or.inr (Or.inr (Or.inr (Or.inr why_new)))
                     | grind
                   · exact absurd h2 hc)))

theorem inv_killS (w : World P) (hd : Distinct w) (s : St P R) (h : Inv w s) (v : Nat) : Inv w (killS s v) := by
  unfold killS
  repeat' split
  all_goals first
    | exact h
    | (obtain ⟨a1, a2, a3, a4, a5, a6, a7, a8, a9, a10, a11, a12, a13, a14, a15, a16, a17⟩ := h
       constructor <;> dsimp only
       all_goals first
         | grind [upd, CPc.ans, CPc.replied, CPc.over, SPc.holds, SPc.early, Distinct, File.read, CPc, SPc, Outcome, early_holds, replied_ans]
         | (intro x' hx'
            by_cases hc : x' ∈ s.claims
            · rcases a16 x' hc with h | h | h | h | h
              · grind
              · grind
              · grind
              · grind
              · by_cases hv : ∃ p, s.sv v = .claimed x' p
                · grind
                · exact Or.inr (Or.inr (Or.inr (Or.inr (why_step h (by grind)))))
            · first
                | exact absurd hx' hc
                | (rcases List.mem_cons.mp hx' with rfl | h2
                   · first
                     | exact Or.inr (Or.inr (Or.inr (Or.inr why_new)))
                     | grind
                   · exact absurd h2 hc)))

theorem inv_step (w : World P) (hd : Distinct w) (s : St P R) (h : Inv w s) (a : Act R) : Inv w (step w s a) := by
  cases a with
  | make i => exact inv_make w hd s h i
  | fill i => exact inv_fill w hd s h i
  | poll i => exact inv_poll w hd s h i
  | take i => exact inv_take w hd s h i
  | leave i c => exact inv_leave w hd s h i c
  | close i => exact inv_close w hd s h i
  | killC i =>
    obtain ⟨a1, a2, a3, a4, a5, a6, a7, a8, a9, a10, a11, a12, a13, a14, a15, a16, a17⟩ := h
    constructor <;> dsimp only [step] <;> grind [upd, CPc.ans, CPc.replied, CPc.over]
  | get v x => exact inv_get w hd s h v x
  | claim v => exact inv_claim w hd s h v
  | run v out => exact inv_runH w hd s h v out
  | create v => exact inv_create w hd s h v
  | finish v => exact inv_finish w hd s h v
  | sweep v => exact inv_sweep w hd s h v
  | killS v => exact inv_killS w hd s h v
  | pass n => exact ⟨h.reqf, h.clm, h.nd, h.got, h.hold, h.one, h.cld, h.rnd, h.rcl, h.rpay, h.sran, h.resf, h.ans, h.rep, h.over, h.why, h.badp⟩

theorem inv_run (w : World P) (hd : Distinct w) (s : St P R) (h : Inv w s) (as : List (Act R)) : Inv w (run w s as) := by
  induction as generalizing s with
  | nil => exact h
  | cons a as ih => exact ih _ (inv_step w hd s h a)

theorem reach (w : World P) (hd : Distinct w) (as : List (Act R)) : Inv w (run w St.init as) := inv_run w hd _ (inv_init w) as

/-! ### What a caller can rely on -/

/-- **A caller that is given an answer is given the answer to its own call**: the handler ran, on exactly the payload this caller sent,
and this is what it answered. However many callers and servers there are, and whoever was killed. -/
theorem reply_is_own (w : World P) (hd : Distinct w) (as : List (Act R)) (i : Nat) (r : R)
    (h : (run w St.init as).cl i = .done (.reply r)) : Answered w (run w St.init as) i r := by
  have inv := reach (R := R) w hd as
  obtain ⟨p, hp⟩ := (inv.ans i r (by rw [h]; rfl)).1
  obtain ⟨j, hj, hpay⟩ := (inv.rpay _ hp).1
  have : j = i := hd j i hj
  subst this
  unfold Answered
  rw [hpay]
  exact hp

/-- **A request is executed at most once**, whatever number of servers of the service look at the directory. -/
theorem at_most_once (w : World P) (hd : Distinct w) (as : List (Act R)) (i : Nat) : times w (run w St.init as) i ≤ 1 := by
  have inv := reach (R := R) w hd as
  have h := inv.rnd
  unfold times
  generalize (run w St.init as).ran = l at h
  have : (l.filter fun e => e.1 == w.id i).length = ((l.map (·.1)).filter fun x => x == w.id i).length := by
    rw [List.filter_map, List.length_map]
    rfl
  rw [this, ← List.count_eq_length_filter]
  exact List.nodup_iff_count_le_one.mp h _

/-- **Nothing is executed that nobody asked for**: every execution is of some call's payload, one of the service's request type. -/
theorem only_asked (w : World P) (hd : Distinct w) (as : List (Act R)) (e : Nat × P × R) (he : e ∈ (run w St.init as).ran) :
    ∃ i, e.1 = w.id i ∧ e.2.1 = w.pay i ∧ w.conv e.2.1 = true ∧ (run w St.init as).cl i ≠ .idle := by
  have inv := reach (R := R) w hd as
  obtain ⟨⟨i, h1, h2⟩, h3⟩ := inv.rpay e he
  refine ⟨i, h1.symm, h2.symm, h3, inv.clm i ?_⟩
  rw [h1]
  exact inv.rcl _ (List.mem_map.mpr ⟨e, he, rfl⟩)

/-- **A payload of another type is never answered**: not even with an error. -/
theorem bad_payload_silent (w : World P) (hd : Distinct w) (as : List (Act R)) (i : Nat) (h : w.conv (w.pay i) = false) (r : R) :
    (run w St.init as).cl i ≠ .done (.reply r) := by
  intro h1
  have h2 := reply_is_own w hd as i r h1
  have := ((reach (R := R) w hd as).rpay _ h2).2
  rw [h] at this
  cases this

/-- **A call that has been given up before a server took it is never executed**, whatever happens afterwards. -/
theorem given_up_never_runs (w : World P) (hd : Distinct w) (as bs : List (Act R)) (i : Nat)
    (h1 : ((run w St.init as).cl i).over = true) (h2 : w.id i ∉ (run w St.init as).claims) :
    times w (run w St.init (as ++ bs)) i = 0 := by
  have key : ∀ (s : St P R), Inv w s → (s.cl i).over = true ∨ s.cl i = .dead ∧ s.req (w.id i) = none → w.id i ∉ s.claims →
      ∀ bs, w.id i ∉ (run w s bs).claims := by
    intro s hs h1 h2 bs
    induction bs generalizing s with
    | nil => exact h2
    | cons b bs ih =>
      have hs' := inv_step w hd s hs b
      have hr : s.req (w.id i) = none := by
        rcases h1 with h1 | h1
        · exact hs.over i h1
        · exact h1.2
      have hno : ∀ j, w.id j = w.id i → j = i := fun j => hd j i
      have hni : s.cl i ≠ .idle := by
        rcases h1 with h1 | h1
        · intro h; rw [h] at h1; cases h1
        · rw [h1.1]; simp
      have hst : (((step w s b).cl i).over = true ∨ (step w s b).cl i = .dead ∧ (step w s b).req (w.id i) = none) ∧ w.id i ∉ (step w s b).claims := by
        cases b with
        | make j => dsimp only [step]; unfold make; split <;> grind [upd, CPc.over]
        | fill j => dsimp only [step]; unfold fill; (repeat' split) <;> grind [upd, CPc.over]
        | poll j => dsimp only [step]; unfold poll; split <;> grind [upd, CPc.over]
        | take j => dsimp only [step]; unfold take; split <;> grind [upd, CPc.over]
        | leave j c => dsimp only [step]; unfold leave; split <;> grind [upd, CPc.over]
        | close j => dsimp only [step]; unfold close; split <;> grind [upd, CPc.over]
        | killC j => dsimp only [step]; grind [upd, CPc.over]
        | get v x => dsimp only [step]; unfold get; split <;> grind
        | claim v => dsimp only [step]; unfold claim; (repeat' split) <;> grind [upd]
        | run v out => dsimp only [step]; unfold runH; split <;> grind
        | create v => dsimp only [step]; unfold create; (repeat' split) <;> grind
        | finish v => dsimp only [step]; unfold finish; (repeat' split) <;> grind
        | sweep v => dsimp only [step]; unfold sweep; split <;> grind
        | killS v => dsimp only [step]; unfold killS; split <;> grind
        | pass n => exact ⟨h1, h2⟩
      exact ih _ hs' hst.1 hst.2
  have inv := reach (R := R) w hd as
  have h3 := key _ inv (Or.inl h1) h2 bs
  have h4 : run w St.init (as ++ bs) = run w (run w St.init as) bs := by simp [run]
  rw [← h4] at h3
  have inv' := reach (R := R) w hd (as ++ bs)
  unfold times
  rw [List.length_eq_zero_iff, List.filter_eq_nil_iff]
  intro e he h5
  refine h3 ?_
  have : e.1 = w.id i := by simpa using h5
  rw [← this]
  exact inv'.rcl _ (List.mem_map.mpr ⟨e, he, rfl⟩)

/-- **The caller's files are gone when it has ended**: the request always, and the response when it had one. -/
theorem cleaned_up (w : World P) (hd : Distinct w) (as : List (Act R)) (i : Nat) (o : Outcome R)
    (h : (run w St.init as).cl i = .done o) (ho : o ≠ .refused) :
    (run w St.init as).req (w.id i) = none ∧ ((∃ r, o = .reply r) → (run w St.init as).res (w.id i) = none) := by
  have inv := reach (R := R) w hd as
  refine ⟨inv.over i ?_, ?_⟩
  · rw [h]; cases o <;> first | rfl | exact absurd rfl ho
  · rintro ⟨r, rfl⟩
    exact inv.rep i (by rw [h]; rfl)

/-- **Why a request a server took was not executed**: it was read before it was all there, its payload is not of the service's type, the
server was killed, or the server is still at it. -/
theorem taken_not_run (w : World P) (hd : Distinct w) (as : List (Act R)) (i : Nat) (h1 : w.id i ∈ (run w St.init as).claims)
    (h2 : times w (run w St.init as) i = 0) :
    w.id i ∈ (run w St.init as).torn ∨ w.conv (w.pay i) = false ∨ w.id i ∈ (run w St.init as).fell ∨
      ∃ v, (run w St.init as).sv v = .claimed (w.id i) (w.pay i) := by
  have inv := reach (R := R) w hd as
  rcases inv.why _ h1 with h | h | h | h | ⟨v, p, h⟩
  · exact Or.inl h
  · obtain ⟨j, hj, hc⟩ := inv.badp _ h
    rw [hd j i hj] at hc
    exact Or.inr (Or.inl hc)
  · exact Or.inr (Or.inr (Or.inl h))
  · obtain ⟨e, he, hx⟩ := List.mem_map.mp h
    unfold times at h2
    rw [List.length_eq_zero_iff, List.filter_eq_nil_iff] at h2
    exact absurd (by simpa using hx) (h2 e he)
  · obtain ⟨⟨j, hj, hp⟩, _⟩ := inv.cld v _ p h
    rw [hd j i hj] at hp
    exact Or.inr (Or.inr (Or.inr ⟨v, by rw [hp]; exact h⟩))

/-- **A complete request that nobody has taken yet is answered**, with what the handler says, as soon as a free server and the caller
each take their turns. -/
theorem answered (w : World P) (hd : Distinct w) (as : List (Act R)) (i v : Nat) (r : R) (f : File P)
    (hw : (run w St.init as).cl i = .waiting) (hf : (run w St.init as).req (w.id i) = some f) (hwh : f.whole = true)
    (hv : (run w St.init as).sv v = .idle) (hc : w.conv (w.pay i) = true) (hr : (run w St.init as).res (w.id i) = none) :
    (run w St.init (as ++ [.get v (w.id i), .claim v, .run v r, .create v, .finish v, .poll i, .take i, .close i])).cl i = .done (.reply r) := by
  have inv := reach (R := R) w hd as
  obtain ⟨-, h2, h3, -⟩ := inv.reqf _ _ hf
  rw [hd _ _ h2] at h3
  have h4 : run w St.init (as ++ [.get v (w.id i), .claim v, .run v r, .create v, .finish v, .poll i, .take i, .close i]) =
      run w (run w St.init as) [.get v (w.id i), .claim v, .run v r, .create v, .finish v, .poll i, .take i, .close i] := by simp [run]
  rw [h4]
  generalize run w St.init as = s at *
  have e1 : step w s (.get v (w.id i)) = { s with sv := upd s.sv v (.got (w.id i) (some (w.pay i))) } := by
    simp [step, get, hv, hf, File.read, hwh, h3]
  have e2 : step w { s with sv := upd s.sv v (.got (w.id i) (some (w.pay i))) } (.claim v) =
      { s with req := upd s.req (w.id i) none, sv := upd (upd s.sv v (.got (w.id i) (some (w.pay i)))) v (.claimed (w.id i) (w.pay i)), claims := w.id i :: s.claims } := by
    simp [step, claim, upd_same, hf, hc]
  simp only [run, List.foldl_cons, List.foldl_nil, e1, e2]
  simp [step, runH, create, finish, poll, take, close, upd, hr, hw, File.read]

/-- The sweep takes the responses that have been lying there for two minutes and no others, and no request. -/
theorem sweep_exact (s : St P R) (v x : Nat) (h : s.sv v = .idle) :
    (sweep s v).req = s.req ∧ ((sweep s v).res x = none ↔ ∀ f, s.res x = some f → f.at_ + 120 ≤ s.clock) := by
  unfold sweep
  rw [h]
  refine ⟨rfl, ?_⟩
  dsimp only
  cases hr : s.res x with
  | none => simp
  | some f =>
    dsimp only
    split
    · simpa
    · simp only [reduceCtorEq, Option.some.injEq, forall_eq', false_iff]
      assumption

/-! ### What it cannot rely on -/

/-- Two calls, of payloads 7 and 9, both of the right type. -/
def demo : World Nat := ⟨fun i => i + 100, fun i => if i = 0 then 7 else 9, fun _ => true⟩

theorem demo_distinct : Distinct demo := fun i j h => by simpa [demo] using h

/-- A call that is answered, with two servers after the same request. -/
example : let s := run (R := Nat) demo St.init [.make 0, .fill 0, .get 0 100, .get 1 100, .claim 1, .claim 0, .run 1 49, .create 1, .finish 1,
      .poll 0, .take 0, .close 0]
    s.cl 0 = .done (.reply 49) ∧ times demo s 0 = 1 ∧ Answered demo s 0 49 := by
  unfold Answered
  decide +kernel

/-- **A server that looks while the request is being written takes it away unread**: the call, whose request was in order, ends with "timed
out", and nothing was executed. -/
theorem read_too_early : let s := run (R := Nat) demo St.init [.make 0, .get 0 100, .claim 0, .fill 0, .leave 0 false, .close 0]
    s.cl 0 = .done .timeout ∧ times demo s 0 = 0 ∧ s.sv 0 = .idle ∧ 100 ∈ s.claims := by
  decide +kernel

/-- **The caller does the same with a response**: it was executed, the answer was written, and the caller reports a timeout. -/
theorem answer_thrown_away : let s := run (R := Nat) demo St.init [.make 0, .fill 0, .get 0 100, .claim 0, .run 0 49, .create 0, .poll 0, .take 0,
      .finish 0, .poll 0, .leave 0 false, .close 0]
    s.cl 0 = .done .timeout ∧ times demo s 0 = 1 ∧ (s.res 100).isNone ∧ s.sv 0 = .idle := by
  decide +kernel

/-- **"Timed out" does not mean "not executed"**, and the answer of a call that was given up stays behind for two minutes. -/
theorem executed_after_timeout : let s := run (R := Nat) demo St.init [.make 0, .fill 0, .get 0 100, .claim 0, .leave 0 false, .close 0, .run 0 49,
      .create 0, .finish 0]
    s.cl 0 = .done .timeout ∧ times demo s 0 = 1 ∧ (s.res 100).isSome ∧ ((step demo (step demo s (.pass 119)) (.sweep 0)).res 100).isSome ∧
      ((step demo (step demo s (.pass 120)) (.sweep 0)).res 100).isNone := by
  decide +kernel

/-- **Two calls with the same number** (process numbers are not unique between containers that share the directory) **can get each other's
answer.** -/
theorem same_number : let w : World Nat := ⟨fun _ => 100, fun i => if i = 0 then 7 else 9, fun _ => true⟩
    let s := run (R := Nat) w St.init [.make 0, .fill 0, .get 0 100, .claim 0, .make 1, .fill 1, .run 0 49, .create 0, .finish 0, .poll 1, .take 1, .close 1]
    s.cl 1 = .done (.reply 49) ∧ s.ran = [(100, 7, 49)] ∧ w.pay 1 = 9 := by
  decide +kernel

/-- A call that was given up in time, as the theorem about it asks. -/
example : let s := run (R := Nat) demo St.init [.make 0, .fill 0, .get 0 100, .leave 0 false]
    (s.cl 0).over = true ∧ 100 ∉ s.claims ∧ s.sv 0 = .got 100 (some 7) := by
  decide +kernel

end Horus.Gateway
