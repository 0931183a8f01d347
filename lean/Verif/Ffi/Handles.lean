/-!
# The C++ objects and the Rust handles they own

`horus_cpp/include/horus/{action,service,params,transform}.hpp`, `topic.hpp`, `scheduler.hpp` and
`impl/scheduler_impl.hpp`: each C++ object holds a raw pointer (a *handle*) obtained from a
`horus_*_new` function, passes it to the C functions, and gives it back to `horus_*_destroy`.

What is modelled: which handle each live C++ object holds, and the sequence of C calls that receive a
handle.  Handles are numbered in the order they were made, so a number is never reused (the allocator
may reuse an address; a call on a freed number is a call on freed memory).  C++ objects are named by
variables.  What the C functions do with the handle is not modelled here.
-/

namespace Horus.Handles

/-- A C call that receives or returns a handle.  `cancel c g` is `horus_action_client_cancel(c, g)`
(action.hpp:104, 145); `wild` is a read of a C++ object that no longer exists (scheduler_impl.hpp:377,
`sched_->inner_`). -/
inductive Call
  | make (h : Nat)
  | makeBuilder (h : Nat)
  | use (h : Nat)
  | free (h : Nat)
  | cancel (client goal : Nat)
  | wild
  deriving DecidableEq, Repr

/-- A live C++ object.  `own k h`: one of the move-only wrappers with a single `handle_`/`inner_`
pointer, `k` its class (0 is `Scheduler`): scheduler.hpp:139, action.hpp:173, 223 and the service,
params, transform and topic wrappers.  `goal h c`: `GoalHandle` (action.hpp:106-110).
`builder s h`: `NodeBuilder` with `sched_` pointing at the C++ object in variable `s`
(scheduler.hpp:184-190). -/
inductive Obj
  | own (kind : Nat) (h : Option Nat)
  | goal (h client : Option Nat)
  | builder (sched : Nat) (h : Option Nat)
  deriving DecidableEq, Repr

/-- The handle an object holds. -/
def Obj.h : Obj → Option Nat
  | .own _ h => h
  | .goal h _ => h
  | .builder _ h => h

/-- The program: variables, the next handle number, and the C calls made, newest first. -/
structure St where
  obj : Nat → Option Obj
  next : Nat
  trace : List Call

def St.new : St := ⟨fun _ => none, 0, []⟩

def upd (f : Nat → Option Obj) (v : Nat) (o : Option Obj) : Nat → Option Obj := fun x => if x = v then o else f x

/-- What a C++ program can do with the objects. -/
inductive Op
  /-- construct a wrapper; `ok` is whether `horus_*_new` returned a handle -/
  | construct (v kind : Nat) (ok : Bool)
  /-- `T w(std::move(v))` -/
  | move (v w : Nat)
  /-- `w = std::move(v)` -/
  | assign (w v : Nat)
  /-- the object goes out of scope -/
  | drop (v : Nat)
  /-- any other method of the object -/
  | method (v : Nat)
  /-- `auto w = v.send_goal(json)`; `ok` is whether the goal was sent -/
  | sendGoal (v w : Nat) (ok : Bool)
  /-- `v.cancel()` on a goal handle -/
  | cancelGoal (v : Nat)
  /-- `auto w = v.add(name)` -/
  | addNode (v w : Nat)
  /-- `auto w = v` on a builder -/
  | copyBuilder (v w : Nat)
  /-- `v.build()`; `full` is whether the 32 callback slots are used up -/
  | build (v : Nat) (full : Bool)

/-- The calls of `if (handle_) f(handle_)` and of a C function that returns at once on null. -/
def call (f : Nat → Call) : Option Nat → List Call → List Call
  | none, t => t
  | some h, t => f h :: t

/-- `GoalHandle::id()` (action.hpp:100): the goal's id, 0 without a handle.  `gid` gives the id the
Rust side put behind each handle (c_api.rs:1526-1532). -/
def idOf (gid : Nat → Nat) : Option Nat → Nat
  | none => 0
  | some h => gid h

/-- One step of the program.  `none`: the step does not type-check (a variable that is not in scope,
or of another class, or a name already taken).
* `construct`: the constructors; only `Scheduler()` throws on null (scheduler_impl.hpp:19-21; action.hpp:117-118, 180-181).
* `move`: the move constructors (scheduler_impl.hpp:27-29; action.hpp:89, 126, 189): the source keeps
  a null handle, and a `GoalHandle` source keeps its `client_`.
* `assign`: the move assignments (scheduler_impl.hpp:31-38; action.hpp:90-93, 127-130, 190-193).
* `drop`: the destructors (scheduler_impl.hpp:23-25; action.hpp:86, 123, 186); `NodeBuilder` has none.
* `method`: every other method passes the handle, or does nothing without one.
* `sendGoal`: action.hpp:136-138 with c_api.rs:1432-1448 (null on a null client or an error).
* `cancelGoal`: action.hpp:104.
* `addNode`: scheduler_impl.hpp:86-88, 162-167.
* `copyBuilder`: `NodeBuilder` declares no copy or move operation (scheduler.hpp:148-191), so both copy `inner_`.
* `build`: scheduler_impl.hpp:353-382 with c_api.rs:196-209: too many nodes throws first; a null
  builder or scheduler is refused and nothing is freed; otherwise the builder is consumed. -/
def step (gid : Nat → Nat) (s : St) : Op → Option St
  | .construct v kind ok =>
    if s.obj v = none then
      if ok then some ⟨upd s.obj v (some (.own kind (some s.next))), s.next + 1, .make s.next :: s.trace⟩
      else if kind = 0 then some s
      else some { s with obj := upd s.obj v (some (.own kind none)) }
    else none
  | .move v w =>
    if s.obj w = none then
      match s.obj v with
      | some (.own k h) => some { s with obj := upd (upd s.obj w (some (.own k h))) v (some (.own k none)) }
      | some (.goal h c) => some { s with obj := upd (upd s.obj w (some (.goal h c))) v (some (.goal none c)) }
      | _ => none
    else none
  | .assign w v =>
    match s.obj w, s.obj v with
    | some (.own k h), some (.own k' h') =>
      if k ≠ k' then none
      else if w = v then some s
      else some ⟨upd (upd s.obj w (some (.own k h'))) v (some (.own k none)), s.next, call .free h s.trace⟩
    | some (.goal h _), some (.goal h' c') =>
      if w = v then some s
      else some ⟨upd (upd s.obj w (some (.goal h' c'))) v (some (.goal none c')), s.next, call .free h s.trace⟩
    | _, _ => none
  | .drop v =>
    match s.obj v with
    | some (.own _ h) => some ⟨upd s.obj v none, s.next, call .free h s.trace⟩
    | some (.goal h _) => some ⟨upd s.obj v none, s.next, call .free h s.trace⟩
    | some (.builder _ _) => some { s with obj := upd s.obj v none }
    | none => none
  | .method v =>
    match s.obj v with
    | some o => some { s with trace := call .use o.h s.trace }
    | none => none
  | .sendGoal v w ok =>
    if s.obj w = none then
      match s.obj v with
      | some (.own _ (some c)) =>
        if ok then some ⟨upd s.obj w (some (.goal (some s.next) (some c))), s.next + 1, .make s.next :: .use c :: s.trace⟩
        else some ⟨upd s.obj w (some (.goal none (some c))), s.next, .use c :: s.trace⟩
      | some (.own _ none) => some { s with obj := upd s.obj w (some (.goal none none)) }
      | _ => none
    else none
  | .cancelGoal v =>
    match s.obj v with
    | some (.goal h c) => some { s with trace := call (fun c => .cancel c (idOf gid h)) c (call .use h s.trace) }
    | _ => none
  | .addNode v w =>
    if s.obj w = none then
      match s.obj v with
      | some (.own 0 _) => some ⟨upd s.obj w (some (.builder v (some s.next))), s.next + 1, .makeBuilder s.next :: s.trace⟩
      | _ => none
    else none
  | .copyBuilder v w =>
    if s.obj w = none then
      match s.obj v with
      | some (.builder sc h) => some { s with obj := upd s.obj w (some (.builder sc h)) }
      | _ => none
    else none
  | .build v full =>
    match s.obj v with
    | some (.builder sc h) =>
      if full then some s
      else
        match s.obj sc with
        | some (.own _ sh) =>
          match h, sh with
          | some b, some q => some ⟨upd s.obj v (some (.builder sc none)), s.next, .free b :: .use q :: s.trace⟩
          | _, _ => some { s with obj := upd s.obj v (some (.builder sc none)) }
        | _ => some { s with trace := .wild :: s.trace }
    | _ => none

/-- A whole program. -/
def run (gid : Nat → Nat) (s : St) : List Op → Option St
  | [] => some s
  | o :: os => (step gid s o).bind fun s' => run gid s' os

/-! ## Specification -/

/-- The handle has been handed out and not given back. -/
def Live (t : List Call) (h : Nat) : Prop := (Call.make h ∈ t ∨ Call.makeBuilder h ∈ t) ∧ Call.free h ∉ t

/-- A call is in order after the calls `t`. -/
def OkAfter (t : List Call) : Call → Prop
  | .make h => Call.make h ∉ t ∧ Call.makeBuilder h ∉ t
  | .makeBuilder h => Call.make h ∉ t ∧ Call.makeBuilder h ∉ t
  | .use h => Live t h
  | .free h => Live t h
  | .cancel c _ => Live t c
  | .wild => False

/-- Every call was in order: no handle is used or freed before it is made or after it is freed. -/
def Sound : List Call → Prop
  | [] => True
  | c :: t => OkAfter t c ∧ Sound t

/-- What a program must keep to: cancel a goal only while the client that sent it exists, build a node
only while the scheduler object it was added to exists, and do not copy a builder. -/
def Careful (s : St) : Op → Prop
  | .cancelGoal v => ∀ h c, s.obj v = some (.goal h (some c)) → ∃ w k, s.obj w = some (.own k (some c))
  | .build v _ => ∀ sc h, s.obj v = some (.builder sc h) → ∃ k q, s.obj sc = some (.own k q)
  | .copyBuilder _ _ => False
  | _ => True

/-- The states such a program reaches. -/
inductive Reach (gid : Nat → Nat) : St → Prop
  | start : Reach gid .new
  | next (s s' : St) (o : Op) : Reach gid s → Careful s o → step gid s o = some s' → Reach gid s'

/-! ## The invariant -/

/-- The handle in each variable. -/
def hold (f : Nat → Option Obj) : Nat → Option Nat := fun v => (f v).bind Obj.h

theorem hold_upd (f : Nat → Option Obj) (v : Nat) (o : Option Obj) : hold (upd f v o) = fun x => if x = v then o.bind Obj.h else hold f x := by
  funext x; simp only [hold, upd]; split <;> rfl

structure InvH (g : Nat → Option Nat) (n : Nat) (t : List Call) : Prop where
  sound : Sound t
  fresh : ∀ h, Call.make h ∈ t ∨ Call.makeBuilder h ∈ t → h < n
  freed : ∀ h, Call.free h ∈ t → Call.make h ∈ t ∨ Call.makeBuilder h ∈ t
  held : ∀ v h, g v = some h → Live t h
  one : ∀ v w h, g v = some h → g w = some h → v = w
  kept : ∀ h, Call.make h ∈ t → Call.free h ∈ t ∨ ∃ v, g v = some h
  apart : ∀ h, Call.makeBuilder h ∈ t → Call.make h ∉ t

structure Inv (s : St) : Prop where
  main : InvH (hold s.obj) s.next s.trace
  builders : ∀ v sc h, s.obj v = some (.builder sc (some h)) → Call.makeBuilder h ∈ s.trace

theorem inv_new : Inv .new := by
  constructor
  · constructor <;> simp [St.new, Sound, hold]
  · simp [St.new]

/-- A use of a live handle. -/
theorem h_use {g : Nat → Option Nat} {n : Nat} {t : List Call} (h : InvH g n t) (q : Option Nat) (hq : ∀ x, q = some x → Live t x) (f : Nat → Call) (hf : ∀ x t, Live t x → OkAfter t (f x)) (n1 : ∀ x y, f x ≠ .make y) (n2 : ∀ x y, f x ≠ .makeBuilder y) (n3 : ∀ x y, f x ≠ .free y) : InvH g n (call f q t) := by
  cases q with
  | none => exact h
  | some x =>
    obtain ⟨a1, a2, a3, a4, a5, a6, a7⟩ := h
    have hx := hq x rfl
    have m1 : ∀ y, Call.make y ∈ f x :: t ↔ Call.make y ∈ t := fun y => by simp [Ne.symm (n1 x y)]
    have m2 : ∀ y, Call.makeBuilder y ∈ f x :: t ↔ Call.makeBuilder y ∈ t := fun y => by simp [Ne.symm (n2 x y)]
    have m3 : ∀ y, Call.free y ∈ f x :: t ↔ Call.free y ∈ t := fun y => by simp [Ne.symm (n3 x y)]
    refine ⟨⟨hf x _ hx, a1⟩, ?_, ?_, ?_, a5, ?_, ?_⟩ <;> simp only [call, Live, m1, m2, m3]
    · exact a2
    · exact a3
    · exact a4
    · exact a6
    · exact a7

/-- A new handle goes into a variable that holds none. -/
theorem h_make {g : Nat → Option Nat} {n : Nat} {t : List Call} (h : InvH g n t) (v : Nat) (hv : g v = none) : InvH (fun x => if x = v then some n else g x) (n + 1) (.make n :: t) := by
  obtain ⟨a1, a2, a3, a4, a5, a6, a7⟩ := h
  have k1 : Call.make n ∉ t := fun hm => Nat.lt_irrefl _ (a2 n (Or.inl hm))
  have k2 : Call.makeBuilder n ∉ t := fun hm => Nat.lt_irrefl _ (a2 n (Or.inr hm))
  have k3 : Call.free n ∉ t := fun hm => (a3 n hm).elim k1 k2
  refine ⟨⟨⟨k1, k2⟩, a1⟩, ?_, ?_, ?_, ?_, ?_, ?_⟩
  · grind
  · grind
  · grind [Live]
  · grind [Live]
  · intro y hy
    by_cases hyn : y = n
    · right; exact ⟨v, by simp [hyn]⟩
    · rcases a6 y (by simpa [hyn] using hy) with h1 | ⟨w, h1⟩
      · left; simp [h1]
      · right; exact ⟨w, by grind⟩
  · grind

theorem h_makeBuilder {g : Nat → Option Nat} {n : Nat} {t : List Call} (h : InvH g n t) (v : Nat) (hv : g v = none) : InvH (fun x => if x = v then some n else g x) (n + 1) (.makeBuilder n :: t) := by
  obtain ⟨a1, a2, a3, a4, a5, a6, a7⟩ := h
  have k1 : Call.make n ∉ t := fun hm => Nat.lt_irrefl _ (a2 n (Or.inl hm))
  have k2 : Call.makeBuilder n ∉ t := fun hm => Nat.lt_irrefl _ (a2 n (Or.inr hm))
  have k3 : Call.free n ∉ t := fun hm => (a3 n hm).elim k1 k2
  refine ⟨⟨⟨k1, k2⟩, a1⟩, ?_, ?_, ?_, ?_, ?_, ?_⟩
  · grind
  · grind
  · grind [Live]
  · grind [Live]
  · intro y hy
    rcases a6 y (by simpa using hy) with h1 | ⟨w, h1⟩
    · left; simp [h1]
    · right; exact ⟨w, by grind⟩
  · grind

/-- The handle moves to a variable that holds none. -/
theorem h_move {g : Nat → Option Nat} {n : Nat} {t : List Call} (h : InvH g n t) (v w : Nat) (hw : g w = none) : InvH (fun x => if x = v then none else if x = w then g v else g x) n t := by
  obtain ⟨a1, a2, a3, a4, a5, a6, a7⟩ := h
  refine ⟨a1, a2, a3, ?_, ?_, ?_, a7⟩
  · grind
  · grind
  · intro y hy
    rcases a6 y hy with h1 | ⟨u, h1⟩
    · exact Or.inl h1
    · right
      by_cases hu : u = v
      · exact ⟨w, by grind⟩
      · exact ⟨u, by grind⟩

/-- The handle in a variable is given back. -/
theorem h_free {g : Nat → Option Nat} {n : Nat} {t : List Call} (h : InvH g n t) (v : Nat) : InvH (fun x => if x = v then none else g x) n (call .free (g v) t) := by
  obtain ⟨a1, a2, a3, a4, a5, a6, a7⟩ := h
  cases hv : g v with
  | none =>
    have : (fun x => if x = v then none else g x) = g := by funext x; grind
    rw [this]; exact ⟨a1, a2, a3, a4, a5, a6, a7⟩
  | some q =>
    have hq := a4 v q hv
    refine ⟨⟨hq, a1⟩, ?_, ?_, ?_, ?_, ?_, ?_⟩ <;> try dsimp only [call]
    · grind
    · grind [Live]
    · grind [Live]
    · grind
    · intro y hy
      by_cases hyq : y = q
      · left; simp [hyq]
      · rcases a6 y (by simpa using hy) with h1 | ⟨u, h1⟩
        · left; simp [h1]
        · right; exact ⟨u, by grind⟩
    · grind

/-- A builder's handle is forgotten. -/
theorem h_lose {g : Nat → Option Nat} {n : Nat} {t : List Call} (h : InvH g n t) (v : Nat) (hb : ∀ q, g v = some q → Call.makeBuilder q ∈ t) : InvH (fun x => if x = v then none else g x) n t := by
  obtain ⟨a1, a2, a3, a4, a5, a6, a7⟩ := h
  refine ⟨a1, a2, a3, ?_, ?_, ?_, a7⟩
  · grind
  · grind
  · intro y hy
    rcases a6 y hy with h1 | ⟨u, h1⟩
    · exact Or.inl h1
    · right; exact ⟨u, by grind⟩

/-- Same handles, same invariant. -/
theorem h_same {g g' : Nat → Option Nat} {n : Nat} {t : List Call} (h : InvH g n t) (e : g' = g) : InvH g' n t := e ▸ h

theorem mem_call (f : Nat → Call) (q : Option Nat) (t : List Call) (c : Call) (h : c ∈ t) : c ∈ call f q t := by
  cases q with
  | none => exact h
  | some x => exact List.mem_cons_of_mem _ h

theorem inv_step (gid : Nat → Nat) (s s' : St) (o : Op) (h : Inv s) (hc : Careful s o) (hs : step gid s o = some s') : Inv s' := by
  obtain ⟨m, bl⟩ := h
  cases o with
  | construct v k ok =>
    simp only [step] at hs
    split at hs
    · rename_i hv
      have gv : hold s.obj v = none := by simp [hold, hv]
      split at hs
      · injection hs with hs; subst hs
        refine ⟨?_, ?_⟩ <;> dsimp only
        · rw [hold_upd]; exact h_make m v gv
        · grind [upd]
      · split at hs
        · injection hs with hs; subst hs; exact ⟨m, bl⟩
        · injection hs with hs; subst hs
          refine ⟨?_, ?_⟩ <;> dsimp only
          · refine h_same m ?_
            rw [hold_upd]; funext x; dsimp only [Option.bind, Obj.h]; split
            · rename_i e; rw [e, gv]
            · rfl
          · grind [upd]
    · simp at hs
  | move v w =>
    simp only [step] at hs
    split at hs
    · rename_i hw
      have gw : hold s.obj w = none := by simp [hold, hw]
      split at hs
      · rename_i k q hv
        have gv : hold s.obj v = q := by simp [hold, hv, Obj.h]
        injection hs with hs; subst hs
        refine ⟨?_, ?_⟩ <;> dsimp only
        · refine h_same (h_move m v w gw) ?_
          rw [hold_upd, hold_upd, gv]; rfl
        · grind [upd]
      · rename_i q c hv
        have gv : hold s.obj v = q := by simp [hold, hv, Obj.h]
        injection hs with hs; subst hs
        refine ⟨?_, ?_⟩ <;> dsimp only
        · refine h_same (h_move m v w gw) ?_
          rw [hold_upd, hold_upd, gv]; rfl
        · grind [upd]
      · simp at hs
    · simp at hs
  | assign w v =>
    simp only [step] at hs
    split at hs
    · rename_i k q k' q' hw hv
      have gw : hold s.obj w = q := by simp [hold, hw, Obj.h]
      have gv : hold s.obj v = q' := by simp [hold, hv, Obj.h]
      split at hs
      · simp at hs
      · split at hs
        · injection hs with hs; subst hs; exact ⟨m, bl⟩
        · rename_i hne
          injection hs with hs; subst hs
          refine ⟨?_, ?_⟩ <;> dsimp only
          · have := h_move (h_free m w) v w (by simp)
            rw [gw] at this
            refine h_same this ?_
            rw [hold_upd, hold_upd]; funext x; dsimp only [Option.bind, Obj.h]; grind
          · intro u sc y hu
            exact mem_call _ _ _ _ (bl u sc y (by grind [upd]))
    · rename_i q c q' c' hw hv
      have gw : hold s.obj w = q := by simp [hold, hw, Obj.h]
      have gv : hold s.obj v = q' := by simp [hold, hv, Obj.h]
      split at hs
      · injection hs with hs; subst hs; exact ⟨m, bl⟩
      · rename_i hne
        injection hs with hs; subst hs
        refine ⟨?_, ?_⟩ <;> dsimp only
        · have := h_move (h_free m w) v w (by simp)
          rw [gw] at this
          refine h_same this ?_
          rw [hold_upd, hold_upd]; funext x; dsimp only [Option.bind, Obj.h]; grind
        · intro u sc y hu
          exact mem_call _ _ _ _ (bl u sc y (by grind [upd]))
    · simp at hs
  | drop v =>
    simp only [step] at hs
    split at hs
    · rename_i k q hv
      have gv : hold s.obj v = q := by simp [hold, hv, Obj.h]
      injection hs with hs; subst hs
      refine ⟨?_, ?_⟩ <;> dsimp only
      · have := h_free m v
        rw [gv] at this
        rw [hold_upd]; exact this
      · intro u sc y hu
        exact mem_call _ _ _ _ (bl u sc y (by grind [upd]))
    · rename_i q c hv
      have gv : hold s.obj v = q := by simp [hold, hv, Obj.h]
      injection hs with hs; subst hs
      refine ⟨?_, ?_⟩ <;> dsimp only
      · have := h_free m v
        rw [gv] at this
        rw [hold_upd]; exact this
      · intro u sc y hu
        exact mem_call _ _ _ _ (bl u sc y (by grind [upd]))
    · rename_i sc b hv
      have gv : hold s.obj v = b := by simp [hold, hv, Obj.h]
      injection hs with hs; subst hs
      refine ⟨?_, ?_⟩ <;> dsimp only
      · rw [hold_upd]; exact h_lose m v (fun q hq => bl v sc q (by rw [hv, ← gv, hq]))
      · grind [upd]
    · simp at hs
  | method v =>
    simp only [step] at hs
    split at hs
    · rename_i o hv
      injection hs with hs; subst hs
      exact ⟨h_use m o.h (fun x hx => m.held v x (by simp [hold, hv, hx])) .use (fun x t hx => hx) (by simp) (by simp) (by simp), fun u sc y hu => mem_call _ _ _ _ (bl u sc y hu)⟩
    · simp at hs
  | sendGoal v w ok =>
    simp only [step] at hs
    split at hs
    · rename_i hw
      have gw : hold s.obj w = none := by simp [hold, hw]
      split at hs
      · rename_i k c hv
        have m2 := h_use m (some c) (fun x hx => m.held v x (by simp [hold, hv, Obj.h, hx])) .use (fun x t hx => hx) (by simp) (by simp) (by simp)
        split at hs
        · injection hs with hs; subst hs
          refine ⟨?_, ?_⟩ <;> dsimp only
          · rw [hold_upd]; exact h_make m2 w gw
          · grind [upd]
        · injection hs with hs; subst hs
          refine ⟨?_, ?_⟩ <;> dsimp only
          · refine h_same m2 ?_
            rw [hold_upd]; funext x; dsimp only [Option.bind, Obj.h]; grind
          · grind [upd]
      · injection hs with hs; subst hs
        refine ⟨?_, ?_⟩ <;> dsimp only
        · refine h_same m ?_
          rw [hold_upd]; funext x; dsimp only [Option.bind, Obj.h]; grind
        · grind [upd]
      · simp at hs
    · simp at hs
  | cancelGoal v =>
    simp only [step] at hs
    split at hs
    · rename_i q c hv
      injection hs with hs; subst hs
      have m2 := h_use m q (fun x hx => m.held v x (by simp [hold, hv, Obj.h, hx])) .use (fun x t hx => hx) (by simp) (by simp) (by simp)
      refine ⟨h_use m2 c ?_ (fun c => .cancel c (idOf gid q)) (fun x t hx => hx) (by simp) (by simp) (by simp), fun u sc y hu => mem_call _ _ _ _ (mem_call _ _ _ _ (bl u sc y hu))⟩
      rintro x rfl
      obtain ⟨w, k, hw⟩ := hc q x hv
      exact m2.held w x (by simp [hold, hw, Obj.h])
    · simp at hs
  | addNode v w =>
    simp only [step] at hs
    split at hs
    · rename_i hw
      have gw : hold s.obj w = none := by simp [hold, hw]
      split at hs
      · injection hs with hs; subst hs
        refine ⟨?_, ?_⟩ <;> dsimp only
        · rw [hold_upd]; exact h_makeBuilder m w gw
        · grind [upd]
      · simp at hs
    · simp at hs
  | copyBuilder v w => exact hc.elim
  | build v full =>
    simp only [step] at hs
    split at hs
    · rename_i sc b hv
      have gv : hold s.obj v = b := by simp [hold, hv, Obj.h]
      split at hs
      · injection hs with hs; subst hs; exact ⟨m, bl⟩
      · split at hs
        · rename_i k q hsc
          split at hs
          · rename_i b' q'
            injection hs with hs; subst hs
            have m2 := h_use m (some q') (fun x hx => m.held sc x (by simp [hold, hsc, Obj.h, hx])) .use (fun x t hx => hx) (by simp) (by simp) (by simp)
            have m3 := h_free m2 v
            rw [gv] at m3
            refine ⟨?_, ?_⟩ <;> dsimp only
            · rw [hold_upd]; exact m3
            · grind [upd]
          · injection hs with hs; subst hs
            refine ⟨?_, ?_⟩ <;> dsimp only
            · rw [hold_upd]; exact h_lose m v (fun q hq => bl v sc q (by rw [hv, ← gv, hq]))
            · grind [upd]
        · rename_i hno
          obtain ⟨k, q, hq⟩ := hc sc b hv
          exact absurd hq (hno k q)
    · simp at hs

theorem inv_reach (gid : Nat → Nat) (s : St) (h : Reach gid s) : Inv s := by
  induction h with
  | start => exact inv_new
  | next s s' o _ hc hs ih => exact inv_step gid s s' o ih hc hs

/-! ## Theorems -/

theorem sound_split (q : List Call) (c : Call) (p : List Call) (h : Sound (q ++ c :: p)) : OkAfter p c := by
  induction q with
  | nil => exact h.1
  | cons _ q ih => exact ih h.2

/-- **C254.** In a careful program, whatever it constructs, moves, assigns, drops and calls, no C
function ever receives a handle that was not handed out or was already given back. -/
theorem no_use_after_free_partial (gid : Nat → Nat) (s : St) (h : Reach gid s) (q p : List Call) (c : Call) (ht : s.trace = q ++ c :: p) : OkAfter p c :=
  sound_split q c p (ht ▸ (inv_reach gid s h).main.sound)

theorem free_count (t : List Call) (h : Sound t) (x : Nat) : t.count (.free x) ≤ 1 := by
  induction t with
  | nil => simp
  | cons c t ih =>
    have ih := ih h.2
    by_cases e : c = .free x
    · subst e
      have : Call.free x ∉ t := h.1.2
      rw [List.count_cons_self, List.count_eq_zero.mpr this]; simp
    · rw [List.count_cons_of_ne e]; exact ih

/-- **C254.** No handle is given back twice. -/
theorem freed_once_partial (gid : Nat → Nat) (s : St) (h : Reach gid s) (x : Nat) : s.trace.count (.free x) ≤ 1 :=
  free_count _ (inv_reach gid s h).main.sound x

/-- **C254.** A handle made for a wrapper (not a builder) is given back exactly when no object holds it
any more: it is either still held by exactly one variable, or freed once. -/
theorem held_or_freed_partial (gid : Nat → Nat) (s : St) (h : Reach gid s) (x : Nat) (hm : Call.make x ∈ s.trace) : (s.trace.count (.free x) = 1 ∧ ∀ v o, s.obj v = some o → o.h ≠ some x) ∨ (s.trace.count (.free x) = 0 ∧ ∃ v o, s.obj v = some o ∧ o.h = some x ∧ ∀ w p, s.obj w = some p → p.h = some x → w = v) := by
  have i := (inv_reach gid s h).main
  rcases i.kept x hm with h1 | ⟨v, hv⟩
  · left
    refine ⟨?_, ?_⟩
    · have := free_count _ i.sound x
      have := List.count_pos_iff.mpr h1
      omega
    · intro v o hv ho
      exact (i.held v x (by simp [hold, hv, ho])).2 h1
  · right
    refine ⟨List.count_eq_zero.mpr (i.held v x hv).2, ?_⟩
    simp only [hold, Option.bind_eq_some_iff] at hv
    obtain ⟨o, ho, hx⟩ := hv
    exact ⟨v, o, ho, hx, fun w p hp hpx => i.one w v x (by simp [hold, hp, hpx]) (by simp [hold, ho, hx])⟩

/-- **C254.** When every object has gone out of scope, every wrapper's handle has been given back once. -/
theorem nothing_left_partial (gid : Nat → Nat) (s : St) (h : Reach gid s) (he : ∀ v, s.obj v = none) (x : Nat) (hm : Call.make x ∈ s.trace) : s.trace.count (.free x) = 1 := by
  rcases held_or_freed_partial gid s h x hm with h1 | ⟨_, v, o, hv, _⟩
  · exact h1.1
  · rw [he v] at hv; cases hv

/-- **C254.** Moving a client does not disturb its goals: cancelling still reaches the same client,
with the goal's own id. -/
theorem cancel_after_move (gid : Nat → Nat) (s s1 s2 : St) (v w g k c hg : Nat) (hv : s.obj v = some (.own k (some c))) (hgo : s.obj g = some (.goal (some hg) (some c))) (h1 : step gid s (.move v w) = some s1) (h2 : step gid s1 (.cancelGoal g) = some s2) : s2.trace = .cancel c (gid hg) :: .use hg :: s.trace ∧ s1.obj w = some (.own k (some c)) := by
  simp only [step, hv] at h1
  split at h1
  · rename_i hw
    injection h1 with h1; subst h1
    have e1 : g ≠ v := by rintro rfl; rw [hv] at hgo; cases hgo
    have e2 : g ≠ w := by rintro rfl; rw [hw] at hgo; cases hgo
    have e3 : w ≠ v := by rintro rfl; rw [hv] at hw; cases hw
    simp only [step, upd, if_neg e1, if_neg e2, hgo] at h2
    injection h2 with h2; subst h2
    exact ⟨rfl, by simp [upd, e3]⟩
  · simp at h1

/-! ## What goes wrong -/

/-- **C254.** A goal handle that was moved from still sends a cancel: for goal id 0. -/
theorem moved_goal_cancels_zero (gid : Nat → Nat) (s s1 s2 : St) (v w c : Nat) (q : Option Nat) (hv : s.obj v = some (.goal q (some c))) (h1 : step gid s (.move v w) = some s1) (h2 : step gid s1 (.cancelGoal v) = some s2) : s2.trace = .cancel c 0 :: s.trace := by
  simp only [step, hv] at h1
  split at h1
  · injection h1 with h1; subst h1
    simp [step, upd, call, idOf] at h2
    subst h2; rfl
  · simp at h1

/-- **C254.** So does the handle of a goal that could not be sent. -/
theorem failed_goal_cancels_zero (gid : Nat → Nat) (s s1 s2 : St) (v w k c : Nat) (hv : s.obj v = some (.own k (some c))) (h1 : step gid s (.sendGoal v w false) = some s1) (h2 : step gid s1 (.cancelGoal w) = some s2) : s2.trace = .cancel c 0 :: .use c :: s.trace := by
  simp only [step, hv] at h1
  split at h1
  · simp at h1; subst h1
    simp [step, upd, call, idOf] at h2
    subst h2; rfl
  · simp at h1

/-- **C254.** A goal handle that outlives its client uses freed memory when cancelled. -/
theorem cancel_dangles (gid : Nat → Nat) : ∃ s, run gid .new [.construct 0 1 true, .sendGoal 0 1 true, .drop 0, .cancelGoal 1] = some s ∧ ¬ Sound s.trace := by
  refine ⟨_, rfl, ?_⟩
  simp [Sound, OkAfter, Live, call]

/-- **C254.** A copied builder that is built twice frees its handle twice. -/
theorem copied_builder_twice (gid : Nat → Nat) : ∃ s, run gid .new [.construct 0 0 true, .addNode 0 1, .copyBuilder 1 2, .build 1 false, .build 2 false] = some s ∧ s.trace.count (.free 1) = 2 := by
  refine ⟨_, rfl, ?_⟩
  decide

/-- **C254.** A builder that is dropped without a successful `build` is never given back. -/
theorem dropped_builder_leaks (gid : Nat → Nat) (s s' : St) (v sc h : Nat) (hr : Reach gid s) (hv : s.obj v = some (.builder sc (some h))) (hs : step gid s (.drop v) = some s') : Call.makeBuilder h ∈ s'.trace ∧ Call.free h ∉ s'.trace ∧ ∀ w o, s'.obj w = some o → o.h ≠ some h := by
  have i := inv_reach gid s hr
  have hl := i.main.held v h (by simp [hold, hv, Obj.h])
  simp only [step, hv] at hs
  injection hs with hs; subst hs
  refine ⟨i.builders v sc h hv, hl.2, ?_⟩
  intro w o hw ho
  by_cases e : w = v
  · simp [upd, e] at hw
  · simp only [upd, if_neg e] at hw
    exact e (i.main.one w v h (by simp [hold, hw, ho]) (by simp [hold, hv, Obj.h]))

/-- **C254.** Building after the scheduler was moved away gives nothing back and registers nothing. -/
theorem build_after_move (gid : Nat → Nat) (s s1 s2 : St) (v w b : Nat) (h q : Option Nat) (hv : s.obj v = some (.own 0 q)) (hb : s.obj b = some (.builder v h)) (h1 : step gid s (.move v w) = some s1) (h2 : step gid s1 (.build b false) = some s2) : s2.trace = s.trace ∧ s2.obj b = some (.builder v none) := by
  simp only [step, hv] at h1
  split at h1
  · rename_i hw
    injection h1 with h1; subst h1
    have e1 : b ≠ v := by rintro rfl; rw [hv] at hb; cases hb
    have e2 : b ≠ w := by rintro rfl; rw [hw] at hb; cases hb
    simp only [step, upd, if_neg e1, if_neg e2, hb] at h2
    cases h <;> simp at h2 <;> subst h2 <;> simp [upd]
  · simp at h1

/-! ## Concrete cases -/

/-- A program that moves a client and cancels its goal is careful all the way. -/
example : ∃ s, Reach id s ∧ s.trace = [.free 1, .free 0, .cancel 0 1, .use 1, .make 1, .use 0, .make 0] ∧ ∀ v, s.obj v = none := by
  refine ⟨_, .next _ _ (.drop 1) (.next _ _ (.drop 2) (.next _ _ (.drop 0) (.next _ _ (.cancelGoal 1) (.next _ _ (.move 0 2) (.next _ _ (.sendGoal 0 1 true) (.next _ _ (.construct 0 1 true) .start trivial rfl) trivial rfl) trivial rfl) ?_ rfl) trivial rfl) trivial rfl) trivial rfl, ?_, ?_⟩
  · intro h c hv
    simp [upd, St.new] at hv
    obtain ⟨rfl, rfl⟩ := hv
    exact ⟨2, 1, by simp [upd, St.new]⟩
  · rfl
  · intro v; dsimp only [upd, St.new]; grind

/-- Two schedulers, one assigned over the other: each is destroyed once. -/
example : (run id .new [.construct 0 0 true, .construct 1 0 true, .assign 0 1, .method 1, .method 0, .drop 1, .drop 0]).map (·.trace) = some [.free 1, .use 1, .free 0, .make 1, .make 0] := by decide

/-- A node added and built. -/
example : (run id .new [.construct 0 0 true, .addNode 0 1, .method 1, .build 1 false, .build 1 false]).map (·.trace) = some [.free 1, .use 0, .use 1, .makeBuilder 1, .make 0] := by decide

end Horus.Handles
