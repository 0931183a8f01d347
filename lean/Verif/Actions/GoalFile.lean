import Mathlib.Tactic.Common
import Mathlib.Data.List.Nodup
/-
`horus action send-goal`: the file through which the command line hands goals to the servers of one action. Every file operation is a
transition of its own; any number of senders and of servers, any of which can be killed anywhere.
Sources: /repo/horus_manager/src/commands/action.rs:512-523 (`send_goal`), /repo/horus_core/src/actions/server.rs:1278-1313 (`tick`, the
gateway part), /repo/horus_sys/src/shm/mod.rs:418-430 (`write_shm_file_new`).
Simplifications: one action; a file still being written is one that does not parse; a server removes the file and handles the goal in one
transition (nothing else of the gateway happens between the two in its tick); the polling interval is the schedule.
-/
namespace Horus.GoalFile

/-! ### Model -/

/-- Where a sender is. `sent`: it has printed "Goal sent" (action.rs:523); `failed`: the file could not be created (520-522). -/
inductive CPc
  | idle
  | cleared
  | made
  | sent
  | failed
  | dead
deriving DecidableEq

/-- Where a server is: `got` has the data of the file, of the goal of this sender or something that does not parse.
Source: server.rs:1284-1287. -/
inductive SPc
  | idle
  | got (d : Option Nat)
  | dead
deriving DecidableEq

/-- The one file of the action: whose goal is in it, and whether all of it is there. Ghost: `handled` which server handled whose goal;
`replaced` goals removed by another sender; `unread` goals removed by a server that had read another; `torn` goals removed by a server that
had read them too early; `bad` goals whose payload the action cannot take; `fell` goals in the hands of a server that was killed.
Ghost or helper of the model of action.rs, server.rs. -/
structure St where
  file : Option (Nat × Bool)
  cl : Nat → CPc
  sv : Nat → SPc
  handled : List (Nat × Nat)
  replaced : List Nat
  unread : List Nat
  torn : List Nat
  bad : List Nat
  fell : List Nat

/-- Nothing sent yet. Source: action.rs, server.rs. -/
def St.init : St := ⟨none, fun _ => .idle, fun _ => .idle, [], [], [], [], [], []⟩

/-- A changed entry. Ghost or helper of the model of action.rs, server.rs. -/
def upd {α : Type} (f : Nat → α) (i : Nat) (x : α) : Nat → α := fun j => if j = i then x else f j

/-- What can happen. Schedules over the functions of action.rs, server.rs. -/
inductive Act
  | unlink (i : Nat)
  | make (i : Nat)
  | fill (i : Nat)
  | killC (i : Nat)
  | get (v : Nat)
  | drop (v : Nat)
  | killS (v : Nat)

/-- action.rs:519: whatever goal is there goes. -/
def unlink (s : St) (i : Nat) : St :=
  match s.cl i with
  | .idle => { s with file := none, cl := upd s.cl i .cleared, replaced := (s.file.map (·.1)).toList ++ s.replaced }
  | _ => s

/-- action.rs:520: created, never over another. -/
def make (s : St) (i : Nat) : St :=
  match s.cl i, s.file with
  | .cleared, none => { s with file := some (i, false), cl := upd s.cl i .made }
  | .cleared, some _ => { s with cl := upd s.cl i .failed }
  | _, _ => s

/-- mod.rs:428-429, action.rs:523: the bytes are in the file that was created, whether or not it is still in the directory. -/
def fill (s : St) (i : Nat) : St :=
  match s.cl i with
  | .made => { s with file := if s.file = some (i, false) then some (i, true) else s.file, cl := upd s.cl i .sent }
  | _ => s

/-- server.rs:1286. -/
def get (s : St) (v : Nat) : St :=
  match s.sv v, s.file with
  | .idle, some f => { s with sv := upd s.sv v (.got (if f.2 then some f.1 else none)) }
  | _, _ => s

/-- server.rs:1287-1311: the file is removed, whichever it is by now and whether or not that succeeds; then the goal that was read is
handled, if it is one. -/
def drop (conv : Nat → Bool) (s : St) (v : Nat) : St :=
  match s.sv v with
  | .got d =>
    let was := (s.file.map (·.1)).toList
    let s' := { s with file := none, sv := upd s.sv v .idle }
    match d with
    | none => { s' with torn := was ++ s.torn }
    | some i =>
      if conv i then { s' with handled := (v, i) :: s.handled, unread := was.filter (· ≠ i) ++ s.unread }
      else { s' with bad := i :: s.bad, unread := was.filter (· ≠ i) ++ s.unread }
  | _ => s

/-- A server is killed. Ghost: what it held is noted. Schedules over the functions of action.rs, server.rs. -/
def killS (s : St) (v : Nat) : St :=
  match s.sv v with
  | .got (some i) => { s with sv := upd s.sv v .dead, fell := i :: s.fell }
  | _ => { s with sv := upd s.sv v .dead }

/-- One transition; `conv i`: is the payload of sender `i` a goal of this action (server.rs:1299-1300)?
Schedules over the functions of action.rs, server.rs. -/
def step (conv : Nat → Bool) (s : St) : Act → St
  | .unlink i => unlink s i
  | .make i => make s i
  | .fill i => fill s i
  | .killC i => { s with cl := upd s.cl i .dead }
  | .get v => get s v
  | .drop v => drop conv s v
  | .killS v => killS s v

/-- A history. Schedules over the functions of action.rs, server.rs. -/
def run (conv : Nat → Bool) (s : St) (as : List Act) : St := as.foldl (step conv) s

/-! ### The invariant -/

theorem upd_same {α : Type} (f : Nat → α) (i : Nat) (x : α) : upd f i x i = x := by simp [upd]

theorem upd_ne {α : Type} (f : Nat → α) (i j : Nat) (x : α) (h : j ≠ i) : upd f i x j = f j := by simp [upd, h]

structure Inv (conv : Nat → Bool) (s : St) : Prop where
  file : ∀ i b, s.file = some (i, b) → s.cl i = .made ∧ b = false ∨ s.cl i = .sent ∧ b = true ∨ s.cl i = .dead
  gone : ∀ v i, (v, i) ∈ s.handled → (∀ b, s.file ≠ some (i, b)) ∧ s.sv v ≠ .got (some i) ∧ (s.cl i = .sent ∨ s.cl i = .dead) ∧ conv i = true
  got : ∀ v i, s.sv v = .got (some i) → s.cl i = .sent ∨ s.cl i = .dead
  nd : s.handled.Nodup
  bad : ∀ i ∈ s.bad, conv i = false
  why : ∀ i, s.cl i = .sent → s.file = some (i, true) ∨ (∃ v, (v, i) ∈ s.handled) ∨ i ∈ s.replaced ∨ i ∈ s.unread ∨ i ∈ s.torn ∨ i ∈ s.bad ∨ i ∈ s.fell ∨
    ∃ v, s.sv v = .got (some i)
  made : ∀ i, s.cl i = .made → s.file = some (i, false) ∨ i ∈ s.replaced ∨ i ∈ s.unread ∨ i ∈ s.torn

theorem inv_init (conv : Nat → Bool) : Inv conv St.init := by
  constructor <;> simp [St.init]

theorem got_step {sv : Nat → SPc} {v i : Nat} {y : SPc} (h : ∃ v', sv v' = .got (some i)) (hv : sv v ≠ .got (some i)) :
    ∃ v', upd sv v y v' = .got (some i) := by
  obtain ⟨v', h⟩ := h
  refine ⟨v', ?_⟩
  rw [upd_ne]
  · exact h
  · rintro rfl
    exact hv h

theorem inv_step (conv : Nat → Bool) (s : St) (h : Inv conv s) (a : Act) : Inv conv (step conv s a) := by
  obtain ⟨a1, a2, a3, a4, a5, a6, a7⟩ := h
  cases a with
  | unlink i =>
    dsimp only [step]; unfold unlink; split
    · constructor <;> dsimp only <;> grind [upd]
    · exact ⟨a1, a2, a3, a4, a5, a6, a7⟩
  | make i =>
    dsimp only [step]; unfold make; split
    · constructor <;> dsimp only <;> grind [upd]
    · constructor <;> dsimp only <;> grind [upd]
    · exact ⟨a1, a2, a3, a4, a5, a6, a7⟩
  | fill i =>
    dsimp only [step]; unfold fill; split
    · constructor <;> dsimp only <;> grind [upd]
    · exact ⟨a1, a2, a3, a4, a5, a6, a7⟩
  | killC i =>
    dsimp only [step]
    constructor <;> dsimp only <;> grind [upd]
  | get v =>
    dsimp only [step]; unfold get; split
    · rename_i f h1 h2
      constructor <;> dsimp only
      · exact a1
      · grind [upd]
      · grind [upd]
      · exact a4
      · exact a5
      · intro i hi
        rcases a6 i hi with h | h | h | h | h | h | h | h
        iterate 7 grind
        exact Or.inr (Or.inr (Or.inr (Or.inr (Or.inr (Or.inr (Or.inr (got_step h (by rw [h1]; simp))))))))
      · exact a7
    · exact ⟨a1, a2, a3, a4, a5, a6, a7⟩
  | drop v =>
    dsimp only [step]; unfold drop; split
    · rename_i d h1
      dsimp only
      split
      · constructor <;> dsimp only
        · grind
        · grind [upd]
        · grind [upd]
        · exact a4
        · exact a5
        · intro i hi
          rcases a6 i hi with h | h | h | h | h | h | h | h
          iterate 7 grind
          exact Or.inr (Or.inr (Or.inr (Or.inr (Or.inr (Or.inr (Or.inr (got_step h (by rw [h1]; simp))))))))
        · grind
      · rename_i k
        split
        · constructor <;> dsimp only
          · grind
          · grind [upd]
          · grind [upd]
          · grind
          · exact a5
          · intro i hi
            rcases a6 i hi with h | h | h | h | h | h | h | h
            iterate 7 grind
            by_cases e : i = k
            · subst e; exact Or.inr (Or.inl ⟨v, by simp⟩)
            · exact Or.inr (Or.inr (Or.inr (Or.inr (Or.inr (Or.inr (Or.inr (got_step h (by rw [h1]; grind))))))))
          · grind
        · constructor <;> dsimp only
          · grind
          · grind [upd]
          · grind [upd]
          · exact a4
          · grind
          · intro i hi
            rcases a6 i hi with h | h | h | h | h | h | h | h
            iterate 7 grind
            by_cases e : i = k
            · grind
            · exact Or.inr (Or.inr (Or.inr (Or.inr (Or.inr (Or.inr (Or.inr (got_step h (by rw [h1]; grind))))))))
          · grind
    · exact ⟨a1, a2, a3, a4, a5, a6, a7⟩
  | killS v =>
    dsimp only [step]; unfold killS; split
    · rename_i k h1
      constructor <;> dsimp only
      · exact a1
      · grind [upd]
      · grind [upd]
      · exact a4
      · exact a5
      · intro i hi
        rcases a6 i hi with h | h | h | h | h | h | h | h
        iterate 7 grind
        by_cases e : i = k
        · grind
        · exact Or.inr (Or.inr (Or.inr (Or.inr (Or.inr (Or.inr (Or.inr (got_step h (by rw [h1]; grind))))))))
      · exact a7
    · rename_i h1
      constructor <;> dsimp only
      · exact a1
      · grind [upd]
      · grind [upd]
      · exact a4
      · exact a5
      · intro i hi
        rcases a6 i hi with h | h | h | h | h | h | h | h
        iterate 7 grind
        exact Or.inr (Or.inr (Or.inr (Or.inr (Or.inr (Or.inr (Or.inr (got_step h (h1 i))))))))
      · exact a7

theorem reach (conv : Nat → Bool) (as : List Act) : Inv conv (run conv St.init as) := by
  have : ∀ s, Inv conv s → Inv conv (run conv s as) := by
    induction as with
    | nil => exact fun s h => h
    | cons a as ih => exact fun s h => ih _ (inv_step conv s h a)
  exact this _ (inv_init conv)

/-! ### What a sender can rely on -/

/-- **Only goals that were sent are handled, whole and of the action's type.** -/
theorem handled_sent (conv : Nat → Bool) (as : List Act) (v i : Nat) (h : (v, i) ∈ (run conv St.init as).handled) :
    conv i = true ∧ ((run conv St.init as).cl i = .sent ∨ (run conv St.init as).cl i = .dead) :=
  ⟨((reach conv as).gone v i h).2.2.2, ((reach conv as).gone v i h).2.2.1⟩

/-- **No server handles the same goal twice.** -/
theorem once_per_server (conv : Nat → Bool) (as : List Act) (v i : Nat) : (run conv St.init as).handled.count (v, i) ≤ 1 :=
  List.nodup_iff_count_le_one.mp (reach conv as).nd _

/-- The servers that act in a history. -/
def Only (v : Nat) : Act → Prop
  | .get u => u = v
  | .drop u => u = v
  | _ => True

/-- **With one server, every goal is handled at most once.** -/
theorem once_with_one (conv : Nat → Bool) (as : List Act) (v i : Nat) (h : ∀ a ∈ as, Only v a) :
    ((run conv St.init as).handled.filter fun e => e.2 == i).length ≤ 1 := by
  have key : ∀ (as : List Act) (s : St), (∀ a ∈ as, Only v a) → (∀ e ∈ s.handled, e.1 = v) → ∀ e ∈ (run conv s as).handled, e.1 = v := by
    intro as
    induction as with
    | nil => exact fun s _ h => h
    | cons a as ih =>
      intro s ha hs
      refine ih _ (fun b hb => ha b (List.mem_cons_of_mem _ hb)) ?_
      have ho := ha a (by simp)
      cases a with
      | unlink i => dsimp only [step]; unfold unlink; split <;> exact hs
      | make i => dsimp only [step]; unfold make; split <;> exact hs
      | fill i => dsimp only [step]; unfold fill; split <;> exact hs
      | killC i => exact hs
      | get u => dsimp only [step]; unfold get; split <;> exact hs
      | drop u =>
        have hu : u = v := ho
        dsimp only [step]; unfold drop; split
        · dsimp only
          split
          · exact hs
          · split
            · intro e he
              rcases List.mem_cons.mp he with rfl | he
              · exact hu
              · exact hs e he
            · exact hs
        · exact hs
      | killS u => dsimp only [step]; unfold killS; split <;> exact hs
  have hv := key as St.init h (by simp [St.init])
  have hnd := (reach conv as).nd
  generalize (run conv St.init as).handled = l at hv hnd
  have : l.filter (fun e => e.2 == i) = l.filter (fun e => e == (v, i)) := by
    apply List.filter_congr
    intro e he
    have := hv e he
    obtain ⟨a, b⟩ := e
    dsimp only at this
    subst this
    simp
  rw [this, ← List.count_eq_length_filter]
  exact List.nodup_iff_count_le_one.mp hnd _

/-- **A goal that is there when a server looks, and that nobody touches until it has removed it, is handled.** -/
theorem handled_if_left (conv : Nat → Bool) (as : List Act) (v i : Nat) (hf : (run conv St.init as).file = some (i, true))
    (hv : (run conv St.init as).sv v = .idle) (hc : conv i = true) :
    (run conv St.init (as ++ [.get v, .drop v])).handled = (v, i) :: (run conv St.init as).handled ∧
      (run conv St.init (as ++ [.get v, .drop v])).file = none := by
  have h4 : run conv St.init (as ++ [.get v, .drop v]) = run conv (run conv St.init as) [.get v, .drop v] := by simp [run]
  rw [h4]
  generalize run conv St.init as = s at *
  simp [run, step, get, drop, hv, hf, upd, hc]

/-- **Every goal that was sent is still there, or was handled, or one of these happened to it**: another sender removed it; a server that
had read an earlier one removed it unread; a server had read it before it was all there; its payload is not a goal of the action; the
server that had read it was killed, or is about to handle it. -/
theorem sent_fate (conv : Nat → Bool) (as : List Act) (i : Nat) (h : (run conv St.init as).cl i = .sent) :
    (run conv St.init as).file = some (i, true) ∨ (∃ v, (v, i) ∈ (run conv St.init as).handled) ∨ i ∈ (run conv St.init as).replaced ∨
      i ∈ (run conv St.init as).unread ∨ i ∈ (run conv St.init as).torn ∨ conv i = false ∨ i ∈ (run conv St.init as).fell ∨
      ∃ v, (run conv St.init as).sv v = .got (some i) := by
  have inv := reach conv as
  rcases inv.why i h with h | h | h | h | h | h | h | h
  · exact Or.inl h
  · exact Or.inr (Or.inl h)
  · exact Or.inr (Or.inr (Or.inl h))
  · exact Or.inr (Or.inr (Or.inr (Or.inl h)))
  · exact Or.inr (Or.inr (Or.inr (Or.inr (Or.inl h))))
  · exact Or.inr (Or.inr (Or.inr (Or.inr (Or.inr (Or.inl (inv.bad i h))))))
  · exact Or.inr (Or.inr (Or.inr (Or.inr (Or.inr (Or.inr (Or.inl h))))))
  · exact Or.inr (Or.inr (Or.inr (Or.inr (Or.inr (Or.inr (Or.inr h))))))

/-! ### What it cannot rely on -/

/-- Two goals sent with the server looking in between: both are handled. -/
example : (run (fun _ => true) St.init [.unlink 0, .make 0, .fill 0, .get 0, .drop 0, .unlink 1, .make 1, .fill 1, .get 0, .drop 0]).handled = [(0, 1), (0, 0)] := by
  decide +kernel

/-- **The second of two goals sent between two looks of the server removes the first**; both senders were told "Goal sent". -/
theorem overwritten : let s := run (fun _ => true) St.init [.unlink 0, .make 0, .fill 0, .unlink 1, .make 1, .fill 1, .get 0, .drop 0]
    s.cl 0 = .sent ∧ s.cl 1 = .sent ∧ s.handled = [(0, 1)] ∧ s.file = none := by
  decide +kernel

/-- **A goal sent while the server is between reading the last one and removing it is removed unread.** -/
theorem removed_unread : let s := run (fun _ => true) St.init [.unlink 0, .make 0, .fill 0, .get 0, .unlink 1, .make 1, .fill 1, .drop 0]
    s.cl 1 = .sent ∧ s.handled = [(0, 0)] ∧ s.file = none ∧ s.sv 0 = .idle := by
  decide +kernel

/-- **A server that looks too early removes the goal without having read it.** -/
theorem read_too_early : let s := run (fun _ => true) St.init [.unlink 0, .make 0, .get 0, .drop 0, .fill 0]
    s.cl 0 = .sent ∧ s.handled = [] ∧ s.file = none := by
  decide +kernel

/-- **Two servers of the action both execute the goal** (unlike requests of a service, it is not claimed). -/
theorem executed_twice : let s := run (fun _ => true) St.init [.unlink 0, .make 0, .fill 0, .get 0, .get 1, .drop 0, .drop 1]
    s.handled = [(1, 0), (0, 0)] := by
  decide +kernel

end Horus.GoalFile
