import Mathlib.Data.List.Basic
import Mathlib.Tactic.Common
/-!
C212: running several tools or programs at once.

Source: /repo/horus_manager/src/run_with_prefix.rs:70-284 (fmt, lint, doc), commands/run/mod.rs:586-765 (`horus run` with several files), dispatch.rs:682-693.
Simplifications: the order in which lines of different programs are mixed is left out; Unix exit statuses.
-/

namespace Horus.Prefixed

/-! ### Model -/

/-- How a process ends: with an exit code, or by a signal. -/
inductive Status
  | code (c : Fin 256)
  | signal (s : Fin 64) (h : 0 < s.val)
  deriving DecidableEq

/-- `ExitStatus::success`. -/
def Status.success : Status → Bool
  | .code c => decide (c.val = 0)
  | .signal _ _ => false

/-- run_with_prefix.rs:249-262. -/
def exitCode : Status → Nat
  | .code c => c.val
  | .signal s _ => 128 + s.val

/-- What happens to one command. -/
inductive Fate
  | unstarted
  | ended (s : Status)
  deriving DecidableEq

/-- run_with_prefix.rs:108-118, 170-179, 222, 307-318: a command that cannot be started counts as one that
exited with 1. -/
def result : Fate → Status
  | .unstarted => .code 1
  | .ended s => s

/-- `Iterator::max().unwrap_or(0)`. -/
def maxOr0 (l : List Nat) : Nat := l.foldl Nat.max 0

/-- run_with_prefix.rs:77-89, 234-240, 265-267, then `std::process::exit` in fmt.rs:89-91, lint.rs:122-124,
doc.rs:67-69: the exit code of `horus fmt`, `horus lint`, `horus doc`. -/
def toolsExit (fs : List Fate) : Nat :=
  let rs := fs.map result
  if rs.all Status.success then 0 else maxOr0 (rs.map exitCode)

/-- run/mod.rs:609-765: `horus run` with several files. `stopped` means the user pressed Ctrl+C before
any of the programs ended. The result is whether the command fails. -/
def runFails (fs : List Fate) (stopped : Bool) : Bool :=
  if stopped then false
  else
    let worst := maxOr0 (fs.map fun f => match f with
      | .unstarted => 0
      | .ended (.code c) => c.val
      | .ended (.signal _ _) => 1)
    decide (worst ≠ 0)

/-- A line of output: text, or bytes that are no UTF-8. -/
inductive Line
  | text (s : List Char)
  | bytes
  deriving DecidableEq

/-- run_with_prefix.rs:194-206, run/mod.rs:627-634: lines are passed on until one that is no text. -/
def shown (label : List Char) (ls : List Line) : List (List Char) :=
  (ls.takeWhile fun l => match l with | .text _ => true | .bytes => false).filterMap fun l => match l with | .text s => some (label ++ ' ' :: s) | .bytes => none

/-- Does the program still have someone reading its output after these lines? The reader ends, and the
pipe is closed, with the first line that is no text. -/
def stillRead (ls : List Line) : Bool := ls.all fun l => match l with | .text _ => true | .bytes => false

/-! ### Proofs -/

theorem le_foldl (l : List Nat) (a : Nat) : a ≤ l.foldl Nat.max a ∧ ∀ x ∈ l, x ≤ l.foldl Nat.max a := by
  induction l generalizing a with
  | nil => simp
  | cons b l ih =>
    obtain ⟨h1, h2⟩ := ih (Nat.max a b)
    refine ⟨Nat.le_trans (Nat.le_max_left a b) h1, fun x hx => ?_⟩
    rcases List.mem_cons.1 hx with rfl | hx
    · exact Nat.le_trans (Nat.le_max_right a x) h1
    · exact h2 x hx

theorem foldl_mem (l : List Nat) (a : Nat) : l.foldl Nat.max a = a ∨ l.foldl Nat.max a ∈ l := by
  induction l generalizing a with
  | nil => simp
  | cons b l ih =>
    rw [List.foldl_cons]
    rcases ih (Nat.max a b) with h | h
    · rw [h]
      rcases Nat.le_total a b with hab | hab
      · right; rw [show Nat.max a b = b from Nat.max_eq_right hab]; simp
      · left; exact Nat.max_eq_left hab
    · right; exact List.mem_cons_of_mem _ h

theorem max_zero (l : List Nat) : maxOr0 l = 0 ↔ ∀ x ∈ l, x = 0 := by
  unfold maxOr0
  constructor
  · intro h x hx; have := (le_foldl l 0).2 x hx; omega
  · intro h
    rcases foldl_mem l 0 with h1 | h1
    · exact h1
    · exact h _ h1

theorem exitCode_zero (s : Status) : exitCode s = 0 ↔ s.success = true := by
  cases s with
  | code c => simp [exitCode, Status.success]
  | signal s h => simp [exitCode, Status.success]

/-- C212. `horus fmt`, `lint` and `doc` succeed exactly if every tool was started and succeeded: a tool
that is missing, fails, or is killed by a signal makes them fail. -/
theorem tools_succeed_iff (fs : List Fate) : toolsExit fs = 0 ↔ ∀ f ∈ fs, f = .ended (.code 0) := by
  have key : ∀ f, (result f).success = true ↔ f = .ended (.code 0) := by
    intro f
    cases f with
    | unstarted => simp [result, Status.success]
    | ended s =>
      cases s with
      | code c =>
        simp only [result, Status.success, decide_eq_true_eq]
        constructor
        · intro h; have : c = 0 := Fin.ext h
          rw [this]
        · intro h; cases h; rfl
      | signal s h => simp [result, Status.success]
  unfold toolsExit
  dsimp only
  by_cases h : (fs.map result).all Status.success = true
  · rw [if_pos h]
    simp only [true_iff]
    intro f hf
    exact (key f).1 (List.all_eq_true.1 h _ (List.mem_map_of_mem hf))
  · rw [if_neg h]
    constructor
    · intro h0
      rw [max_zero] at h0
      exact absurd (List.all_eq_true.2 fun s hs => (exitCode_zero s).1 (h0 _ (List.mem_map_of_mem hs))) h
    · intro hall
      exact absurd (List.all_eq_true.2 fun s hs => by obtain ⟨f, hf, rfl⟩ := List.mem_map.1 hs; exact (key f).2 (hall f hf)) h

/-- C212. When they fail, the exit code is the highest of the tools', a signal counting as 128 and its
number, and a tool that could not be started as 1. -/
theorem tools_worst (fs : List Fate) (h : toolsExit fs ≠ 0) :
    (∃ f ∈ fs, exitCode (result f) = toolsExit fs) ∧ ∀ f ∈ fs, exitCode (result f) ≤ toolsExit fs := by
  unfold toolsExit at *
  dsimp only at *
  by_cases hs : (fs.map result).all Status.success = true
  · rw [if_pos hs] at h; exact absurd rfl h
  · rw [if_neg hs] at h ⊢
    refine ⟨?_, fun f hf => ?_⟩
    · rcases foldl_mem ((fs.map result).map exitCode) 0 with h1 | h1
      · exact absurd h1 h
      · obtain ⟨s, hs1, hs2⟩ := List.mem_map.1 h1
        obtain ⟨f, hf, rfl⟩ := List.mem_map.1 hs1
        exact ⟨f, hf, hs2⟩
    · exact (le_foldl _ 0).2 _ (List.mem_map_of_mem (List.mem_map_of_mem hf))

/-- C212, `horus run` with several files (partial): unless it is stopped, it fails exactly if a program
that was started did not succeed. What is missing: a program that could not be started. -/
theorem run_fails_partial (fs : List Fate) : runFails fs false = true ↔ ∃ s, Fate.ended s ∈ fs ∧ s.success = false := by
  unfold runFails
  simp only [Bool.false_eq_true, if_false, decide_eq_true_eq]
  rw [ne_eq, max_zero]
  constructor
  · intro h
    by_contra hn
    apply h
    intro x hx
    obtain ⟨f, hf, rfl⟩ := List.mem_map.1 hx
    cases f with
    | unstarted => rfl
    | ended s =>
      have : s.success = true := by
        by_contra hs; exact hn ⟨s, hf, by simpa using hs⟩
      cases s with
      | code c => simpa [Status.success] using this
      | signal s h => simp [Status.success] at this
  · rintro ⟨s, hs, hf⟩ h
    have := h _ (List.mem_map_of_mem hs)
    cases s with
    | code c => simp [Status.success] at hf; exact hf (Fin.ext this)
    | signal s h => simp at this

/-- Disagreement. `horus run` with several files succeeds although none of them could be started. -/
theorem unstarted_succeeds (n : Nat) : runFails (List.replicate n .unstarted) false = false := by
  have := run_fails_partial (List.replicate n .unstarted)
  by_contra h
  obtain ⟨s, hs, _⟩ := this.1 (by simpa using h)
  simpa using List.eq_of_mem_replicate hs

theorem shown_cons (label s : List Char) (ls : List Line) : shown label (.text s :: ls) = (label ++ ' ' :: s) :: shown label ls := by
  unfold shown
  rw [List.takeWhile_cons_of_pos rfl, List.filterMap_cons]

/-- C212. A program that writes text has every line passed on, in order, behind its label. -/
theorem text_shown (label : List Char) (ss : List (List Char)) : shown label (ss.map .text) = ss.map fun s => label ++ ' ' :: s := by
  induction ss with
  | nil => rfl
  | cons s ss ih =>
    rw [List.map_cons, shown_cons, ih]; rfl

/-- C212. Never is a line shown that was not written, nor in another order. -/
theorem shown_written (label : List Char) (ls : List Line) : ∃ ss : List (List Char), ss.map Line.text <+: ls ∧ shown label ls = ss.map fun s => label ++ ' ' :: s := by
  induction ls with
  | nil => exact ⟨[], List.nil_prefix, rfl⟩
  | cons l ls ih =>
    cases l with
    | text s =>
      obtain ⟨ss, h1, h2⟩ := ih
      refine ⟨s :: ss, ?_, ?_⟩
      · rw [List.map_cons]; exact List.cons_prefix_cons.2 ⟨rfl, h1⟩
      · rw [shown_cons, h2]; rfl
    | bytes => exact ⟨[], List.nil_prefix, rfl⟩

/-- Disagreement. After one line that is no UTF-8 nothing a program writes is shown, and nobody reads
its output any more, so that its next write fails. -/
theorem bytes_cut_off (label : List Char) (ss : List (List Char)) (rest : List Line) :
    shown label (ss.map .text ++ .bytes :: rest) = shown label (ss.map .text) ∧ stillRead (ss.map .text ++ .bytes :: rest) = false := by
  constructor
  · rw [text_shown]
    induction ss with
    | nil => rfl
    | cons s ss ih =>
      rw [List.map_cons, List.cons_append, shown_cons, ih]; rfl
  · simp [stillRead]

/-- Non-vacuity: three tools of which one is killed, one fails. -/
example : toolsExit [.ended (.code 0), .ended (.signal 11 (by decide)), .ended (.code 2)] = 139 := by decide
example : toolsExit [.ended (.code 0), .ended (.code 0)] = 0 := by decide
example : runFails [.ended (.code 0), .ended (.signal 9 (by decide))] false = true := by decide

end Horus.Prefixed
