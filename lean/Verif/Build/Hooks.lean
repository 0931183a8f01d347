import Mathlib.Data.List.Basic
import Mathlib.Tactic.Common
/-
The `[hooks]` section of `horus.toml`. Source: /repo/horus_manager/src/commands/hooks.rs, main.rs:2197-2207, 2298-2308 (`horus run`), 2329-2340,
2369-2379 (`horus build`), 2486-2534 (`horus test`), fmt.rs:89-91 and lint.rs:122-124 (a failing tool ends the process).
-/
namespace Horus.Hooks

/-- How a piece of work ends: well, with an error that is passed up, or by `std::process::exit`. -/
inductive Res
  | ok
  | err (e : Nat)
  | exit (code : Nat)
  deriving DecidableEq

/-- What each hook would do. `script n` is `none` if `[scripts]` has no such entry. -/
structure Env where
  fmt : Res
  lint : Res
  check : Res
  script : String → Option Res

/-- hooks.rs:25-43. The error of an unknown hook is number 0. -/
def hook (v : Env) (h : String) : Res :=
  if h = "fmt" then v.fmt
  else if h = "lint" then v.lint
  else if h = "check" then .ok
  else (v.script h).getD (.err 0)

/-- hooks.rs:23-44: the hooks that were started, and the result. -/
def hooks (v : Env) : List String → List String × Res
  | [] => ([], .ok)
  | h :: hs =>
    match hook v h with
    | .ok => (h :: (hooks v hs).1, (hooks v hs).2)
    | r => ([h], r)

/-- Something that happened. -/
inductive Step
  | pre (h : String)
  | body
  | post (h : String)
  deriving DecidableEq

/-- One command: the hooks as read before and after it (`none` if the manifest cannot be read then), what the command itself does. -/
structure Cmd where
  noHooks : Bool
  preH : Option (List String)
  postH : Option (List String)
  body : Res

/-- hooks.rs:59-81. -/
def teardown (v : Env) (hs : List String) (result : Res) : List String × Res :=
  ((hooks v hs).1, match (hooks v hs).2, result with | .ok, r => r | .exit c, _ => .exit c | .err e, .ok => .err e | .err _, r => r)

def preOf (c : Cmd) : List String := if c.noHooks then [] else c.preH.getD []
def postOf (c : Cmd) : List String := if c.noHooks then [] else c.postH.getD []

/-- `horus run` and `horus build`. -/
def runCmd (v : Env) (c : Cmd) : List Step × Res :=
  match hooks v (preOf c) with
  | (ran, .ok) =>
    match c.body with
    | .exit k => (ran.map .pre ++ [.body], .exit k)
    | b => (ran.map .pre ++ [.body] ++ (teardown v (postOf c) b).1.map .post, (teardown v (postOf c) b).2)
  | (ran, r) => (ran.map .pre, r)

/-- `horus test`: one manifest for both; the hooks behind come only after success. -/
def testCmd (v : Env) (c : Cmd) : List Step × Res :=
  match hooks v (preOf c) with
  | (ran, .ok) =>
    match c.body with
    | .ok => (ran.map .pre ++ [.body] ++ (hooks v (preOf { c with preH := c.postH })).1.map .post, (hooks v (preOf { c with preH := c.postH })).2)
    | b => (ran.map .pre ++ [.body], b)
  | (ran, r) => (ran.map .pre, r)

theorem hooks_ok_iff (v : Env) (hs : List String) : (hooks v hs).2 = .ok ↔ ∀ h ∈ hs, hook v h = .ok := by
  induction hs with
  | nil => simp [hooks]
  | cons h hs ih =>
    unfold hooks
    cases hh : hook v h <;> simp [hh, ih]

theorem hooks_ran (v : Env) (hs : List String) : (hooks v hs).1 <+: hs ∧ ((hooks v hs).2 = .ok → (hooks v hs).1 = hs) := by
  induction hs with
  | nil => simp [hooks]
  | cons h hs ih =>
    unfold hooks
    cases hh : hook v h with
    | ok =>
      refine ⟨?_, fun h2 => ?_⟩
      · obtain ⟨t, ht⟩ := ih.1
        exact ⟨t, by simp [ht]⟩
      · simp only at h2 ⊢; rw [ih.2 h2]
    | err e => exact ⟨⟨hs, rfl⟩, fun h2 => by cases h2⟩
    | exit e => exact ⟨⟨hs, rfl⟩, fun h2 => by cases h2⟩

/-- **The hooks in front decide**: the command starts exactly if every hook in front of it succeeds, and then all of them have run, in order. -/
theorem pre_gate (v : Env) (c : Cmd) : (Step.body ∈ (runCmd v c).1 ↔ ∀ h ∈ preOf c, hook v h = .ok) ∧
    ((∀ h ∈ preOf c, hook v h = .ok) → (preOf c).map Step.pre ++ [.body] <+: (runCmd v c).1) := by
  have hr := hooks_ran v (preOf c)
  have ho := hooks_ok_iff v (preOf c)
  unfold runCmd
  cases hh : hooks v (preOf c) with
  | mk ran r =>
    rw [hh] at hr ho
    cases r with
    | ok =>
      have hall := ho.1 rfl
      have hran : ran = preOf c := hr.2 rfl
      subst hran
      constructor
      · refine ⟨fun _ => hall, fun _ => ?_⟩
        cases c.body <;> simp
      · intro _
        cases c.body with
        | exit k => exact List.prefix_refl _
        | ok => exact List.prefix_append _ _
        | err e => exact List.prefix_append _ _
    | err e =>
      have hn : ¬ ∀ h ∈ preOf c, hook v h = .ok := fun h => by have := ho.2 h; cases this
      exact ⟨⟨fun h => by simp at h, fun h => absurd h hn⟩, fun h => absurd h hn⟩
    | exit e =>
      have hn : ¬ ∀ h ∈ preOf c, hook v h = .ok := fun h => by have := ho.2 h; cases this
      exact ⟨⟨fun h => by simp at h, fun h => absurd h hn⟩, fun h => absurd h hn⟩

/-- **Teardown follows the command whether it succeeded or failed**, and the command's own error is the one reported, as long as no hook ends
the process. -/
theorem teardown_partial (v : Env) (c : Cmd) (hp : ∀ h ∈ preOf c, hook v h = .ok) (hb : ∀ k, c.body ≠ .exit k) (hx : ∀ h ∈ postOf c, ∀ k, hook v h ≠ .exit k) :
    (∀ h, (postOf c).head? = some h → Step.post h ∈ (runCmd v c).1) ∧
    ((∀ h ∈ postOf c, hook v h = .ok) → (runCmd v c).1 = (preOf c).map Step.pre ++ [.body] ++ (postOf c).map Step.post ∧ (runCmd v c).2 = c.body) ∧
    (∀ e, c.body = .err e → (runCmd v c).2 = .err e) ∧
    (c.body = .ok → ((runCmd v c).2 = .ok ↔ ∀ h ∈ postOf c, hook v h = .ok)) := by
  have hpre : hooks v (preOf c) = (preOf c, .ok) := by
    have h1 := (hooks_ok_iff v (preOf c)).2 hp
    have h2 := (hooks_ran v (preOf c)).2 h1
    exact Prod.ext h2 h1
  have hrun : runCmd v c = ((preOf c).map Step.pre ++ [.body] ++ (teardown v (postOf c) c.body).1.map .post, (teardown v (postOf c) c.body).2) := by
    unfold runCmd
    rw [hpre]
    cases hbo : c.body with
    | exit k => exact absurd hbo (hb k)
    | ok => rfl
    | err e => rfl
  have hnx : ∀ hs : List String, (∀ h ∈ hs, ∀ k, hook v h ≠ .exit k) → ∀ k, (hooks v hs).2 ≠ .exit k := by
    intro hs
    induction hs with
    | nil => intro _ k h; simp [hooks] at h
    | cons a hs ih =>
      intro h k
      unfold hooks
      cases hh : hook v a with
      | ok => exact ih (fun x hx => h x (List.mem_cons_of_mem _ hx)) k
      | err e => simp
      | exit e => exact absurd hh (h a (by simp) e)
  have hnx' := hnx _ hx
  rw [hrun]
  refine ⟨fun h hh => ?_, fun hall => ?_, fun e he => ?_, fun hok => ?_⟩
  · cases hpo : postOf c with
    | nil => rw [hpo] at hh; cases hh
    | cons a as =>
      rw [hpo] at hh
      injection hh with hh
      subst hh
      have : a ∈ (hooks v (a :: as)).1 := by
        unfold hooks
        cases hook v a <;> simp
      simp [teardown, this]
  · have h1 := (hooks_ok_iff v (postOf c)).2 hall
    have h2 := (hooks_ran v (postOf c)).2 h1
    simp [teardown, h1, h2]
  · show (teardown v (postOf c) c.body).2 = _
    rw [he]
    unfold teardown
    cases hh : (hooks v (postOf c)).2 with
    | ok => rfl
    | err _ => rfl
    | exit k => exact absurd hh (hnx' k)
  · rw [← hooks_ok_iff]
    show (teardown v (postOf c) c.body).2 = _ ↔ _
    rw [hok]
    unfold teardown
    cases hh : (hooks v (postOf c)).2 <;> simp

/-- **Disagreement: a `check` hook never stops anything**, whatever it finds. -/
theorem check_ignored (v : Env) (r : Res) (hs : List String) : hooks { v with check := r } hs = hooks v hs := by
  have : hook { v with check := r } = hook v := by funext h; rfl
  induction hs with
  | nil => rfl
  | cons h hs ih => unfold hooks; rw [this, ih]

/-- **Disagreement: a `lint` or `fmt` hook that fails ends the process on the spot**: the rest of the teardown does not run, and the error of the
command is lost. -/
theorem lint_masks (v : Env) (k e : Nat) (rest : List String) (h : v.lint = .exit k) : runCmd v ⟨false, some [], some ("lint" :: rest), .err e⟩ = ([.body, .post "lint"], .exit k) := by
  have hl : hook v "lint" = .exit k := by unfold hook; rw [if_neg (by decide), if_pos rfl, h]
  simp [runCmd, preOf, postOf, hooks, teardown, hl]

/-- Disagreement: a failing hook in front skips the teardown too, so what an earlier hook in front has powered up stays up. -/
theorem failed_pre_no_teardown (v : Env) (c : Cmd) (h : String) : (∃ x ∈ preOf c, hook v x ≠ .ok) → Step.post h ∉ (runCmd v c).1 := by
  rintro ⟨x, hx, hne⟩ hm
  have hn : (hooks v (preOf c)).2 ≠ .ok := fun h => hne ((hooks_ok_iff v _).1 h x hx)
  unfold runCmd at hm
  cases hh : hooks v (preOf c) with
  | mk ran r =>
    rw [hh] at hm hn
    cases r with
    | ok => exact hn rfl
    | err e => simp at hm
    | exit e => simp at hm

/-- A teardown hook that fails skips the ones behind it. -/
theorem failed_teardown_skips (v : Env) (a b : String) (e : Nat) (r : Res) (hr : ∀ k, r ≠ .exit k) (ha : hook v a = .err e) (hab : a ≠ b) : Step.post b ∉ (runCmd v ⟨false, some [], some [a, b], r⟩).1 := by
  cases r with
  | exit k => exact absurd rfl (hr k)
  | ok => simp [runCmd, preOf, postOf, hooks, teardown, ha, hab.symm]
  | err e => simp [runCmd, preOf, postOf, hooks, teardown, ha, hab.symm]

/-- **Disagreement: `post_test` does not run if a test fails.** -/
theorem failed_test_no_teardown (v : Env) (c : Cmd) (h : String) (hb : c.body ≠ .ok) : Step.post h ∉ (testCmd v c).1 := by
  intro hm
  unfold testCmd at hm
  cases hh : hooks v (preOf c) with
  | mk ran r =>
    rw [hh] at hm
    cases r with
    | ok =>
      cases hbo : c.body with
      | ok => exact hb hbo
      | err e => rw [hbo] at hm; simp at hm
      | exit e => rw [hbo] at hm; simp at hm
    | err e => simp at hm
    | exit e => simp at hm

/-- Disagreement: if the manifest cannot be read, the command runs without its hooks and says nothing. -/
theorem unreadable_skips (v : Env) (b : Res) : runCmd v ⟨false, none, none, b⟩ = ([.body], b) := by
  cases b <;> simp [runCmd, preOf, postOf, hooks, teardown]

/-- With `--no-hooks` only the command itself runs. -/
theorem no_hooks (v : Env) (c : Cmd) (h : c.noHooks = true) : runCmd v c = ([.body], c.body) ∧ testCmd v c = ([.body], c.body) := by
  obtain ⟨n, p, q, b⟩ := c
  dsimp only at h
  subst h
  cases b <;> simp [runCmd, testCmd, preOf, postOf, hooks, teardown]

/-- A hook that is no built-in and no script of the manifest is an error, so the command does not start. -/
theorem unknown_stops (v : Env) (c : Cmd) (h : String) (hm : h ∈ preOf c) (hb : h ∉ ["fmt", "lint", "check"]) (hs : v.script h = none) :
    Step.body ∉ (runCmd v c).1 ∧ (runCmd v c).2 ≠ .ok := by
  have hh : hook v h ≠ .ok := by
    simp only [List.mem_cons, List.not_mem_nil, or_false, not_or] at hb
    unfold hook
    rw [if_neg hb.1, if_neg hb.2.1, if_neg hb.2.2, hs]
    intro e; cases e
  refine ⟨fun hx => hh (((pre_gate v c).1.1 hx) h hm), ?_⟩
  have hn : (hooks v (preOf c)).2 ≠ .ok := fun e => hh ((hooks_ok_iff v _).1 e h hm)
  unfold runCmd
  cases hk : hooks v (preOf c) with
  | mk ran r =>
    rw [hk] at hn
    cases r with
    | ok => exact absurd rfl hn
    | err e => intro e; cases e
    | exit k => intro e; cases e

/-- A bench: `power_up` before, `park` after, both scripts; linting fails. -/
def bench : Env := ⟨.ok, .exit 2, .err 7, fun n => if n = "power_up" ∨ n = "park" then some .ok else none⟩

example : runCmd bench ⟨false, some ["check", "power_up"], some ["park"], .err 9⟩ = ([.pre "check", .pre "power_up", .body, .post "park"], .err 9) := by decide
example : runCmd bench ⟨false, some ["power_up", "lint"], some ["park"], .ok⟩ = ([.pre "power_up", .pre "lint"], .exit 2) := by decide
example : runCmd bench ⟨false, some ["power_up"], some ["lint", "park"], .err 9⟩ = ([.pre "power_up", .body, .post "lint"], .exit 2) := by decide
example : testCmd bench ⟨false, some [], some ["park"], .err 1⟩ = ([.body], .err 1) := by decide
example : (∀ h ∈ preOf ⟨false, some ["power_up"], some ["park"], .err 9⟩, hook bench h = .ok) ∧ ∀ h ∈ postOf ⟨false, some ["power_up"], some ["park"], .err 9⟩, ∀ k, hook bench h ≠ .exit k := by
  constructor
  · decide
  · intro h hm k
    have : h = "park" := by simpa [postOf] using hm
    subst this
    have : hook bench "park" = .ok := by decide
    rw [this]
    exact fun h => nomatch h

example : runCmd bench ⟨true, some ["lint"], some ["park"], .ok⟩ = ([.body], .ok) := (no_hooks _ _ rfl).1
example : "calibrate" ∉ ["fmt", "lint", "check"] ∧ bench.script "calibrate" = none := by decide

end Horus.Hooks
