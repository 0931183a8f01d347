/-
The link `compile_commands.json` in the root of a C++ project: horus_manager/src/commands/run/run_cpp.rs 531-543, called after every
build (run_cpp.rs:215).

Paths are names; whether making the link works is a parameter, and a run may be killed between the two steps.
-/
namespace Horus.CompileCommands

/-- What is at the root: a file with its text, a directory, or a link to a path. -/
inductive Root where
  | file (text : String)
  | dir
  | link (to : String)
deriving DecidableEq

/-- A build: the path of the data base in the build directory, whether cmake wrote it, whether the link can be made (it can
only if nothing is there), and whether the run is killed before. -/
structure Build where
  path : String
  written : Bool
  canLink : Bool
  killed : Bool
deriving DecidableEq

/-- `fs::remove_file` (library function): files and links are removed, a directory is not. -/
def remove : Option Root → Option Root
  | some .dir => some .dir
  | _ => none

/-- `symlink_compile_commands` (run_cpp.rs:531-543). -/
def step (r : Option Root) (b : Build) : Option Root :=
  if b.written then
    let r := remove r
    if b.killed then r
    else if b.canLink ∧ r = none then some (.link b.path) else r
  else r

/-- The root after a history of builds. -/
def after (r : Option Root) (l : List Build) : Option Root := l.foldl step r

/-! ### Theorems -/

/-- C300: a directory of that name is never removed or replaced. -/
theorem dir_kept (l : List Build) : after (some .dir) l = some .dir := by
  unfold after
  induction l with
  | nil => rfl
  | cons b l ih =>
    rw [List.foldl_cons]
    have : step (some .dir) b = some .dir := by simp [step, remove]
    rw [this, ih]

/-- C300: after any history of builds, what is at the root is what was there before, or nothing, or a link to the data base
that one of the builds wrote. -/
theorem after_cases (r : Option Root) (l : List Build) :
    after r l = r ∨ after r l = none ∨ ∃ b ∈ l, b.written = true ∧ after r l = some (.link b.path) := by
  induction l generalizing r with
  | nil => exact .inl rfl
  | cons b l ih =>
    show after (step r b) l = r ∨ after (step r b) l = none ∨ _
    have hs : step r b = r ∨ step r b = none ∨ (b.written = true ∧ step r b = some (.link b.path)) := by
      unfold step
      cases hw : b.written with
      | false => exact .inl rfl
      | true =>
        have hr : remove r = r ∨ remove r = none := by
          rcases r with _ | (_ | _ | _) <;> simp [remove]
        simp only [if_true]
        split
        · rcases hr with h | h
          · exact .inl h
          · exact .inr (.inl h)
        · split
          · exact .inr (.inr ⟨trivial, rfl⟩)
          · rcases hr with h | h
            · exact .inl h
            · exact .inr (.inl h)
    rcases ih (step r b) with h | h | ⟨c, hc, hw, h⟩
    · rcases hs with h' | h' | ⟨hw, h'⟩
      · exact .inl (h.trans h')
      · exact .inr (.inl (h.trans h'))
      · exact .inr (.inr ⟨b, by simp, hw, h.trans h'⟩)
    · exact .inr (.inl h)
    · exact .inr (.inr ⟨c, by simp [hc], hw, h⟩)

/-- C300: after a build that wrote the data base and could make the link, the root links to it, whatever was there but a
directory and whatever the builds before did; builds that write none leave it. -/
theorem last_link (r : Option Root) (hr : r ≠ some .dir) (l m : List Build) (b : Build) (hw : b.written = true) (hc : b.canLink = true)
    (hk : b.killed = false) (hm : ∀ c ∈ m, c.written = false) : after r (l ++ b :: m) = some (.link b.path) := by
  have hd : ∀ (l : List Build) (r : Option Root), r ≠ some .dir → after r l ≠ some .dir := by
    intro l
    induction l with
    | nil => exact fun r h => h
    | cons c l ih =>
      intro r h
      refine ih (step r c) ?_
      have hr : remove r = none := by
        rcases r with _ | (_ | _ | _) <;> simp_all [remove]
      unfold step
      rw [hr]
      cases c.written <;> cases c.killed <;> cases c.canLink <;> simp [h]
  have hq : ∀ (m : List Build) (r : Option Root), (∀ c ∈ m, c.written = false) → after r m = r := by
    intro m
    induction m with
    | nil => exact fun r _ => rfl
    | cons c m ih =>
      intro r h
      have : step r c = r := by simp [step, h c (by simp)]
      show after (step r c) m = r
      rw [this]
      exact ih r fun d hd => h d (by simp [hd])
  have : after r (l ++ b :: m) = after (step (after r l) b) m := by simp [after]
  rw [this, hq m _ hm]
  have h1 := hd l r hr
  have hrem : remove (after r l) = none := by
    revert h1
    generalize after r l = x
    intro h1
    rcases x with _ | (_ | _ | _) <;> simp_all [remove]
  unfold step
  rw [hrem]
  simp [hw, hc, hk]

/-- C300: a project whose builds write no data base keeps its own file. -/
theorem own_kept_partial (t : String) (l : List Build) (h : ∀ b ∈ l, b.written = false) : after (some (.file t)) l = some (.file t) := by
  unfold after
  induction l with
  | nil => rfl
  | cons b l ih =>
    rw [List.foldl_cons]
    have : step (some (.file t)) b = some (.file t) := by simp [step, h b (by simp)]
    rw [this]
    exact ih fun c hc => h c (by simp [hc])

/-- C300, a disagreement: a `compile_commands.json` of the project's own is lost at the first build that writes a data base,
for good, whatever is built later. -/
theorem own_lost (t u : String) (l m : List Build) (b : Build) (hw : b.written = true) : after (some (.file t)) (l ++ b :: m) ≠ some (.file u) := by
  have hn : ∀ (m : List Build) (r : Option Root), (∀ u, r ≠ some (.file u)) → ∀ u, after r m ≠ some (.file u) := by
    intro m r h u e
    rcases after_cases r m with h' | h' | ⟨c, _, _, h'⟩ <;> rw [h'] at e
    · exact h u e
    · cases e
    · cases e
  have hs : ∀ r u, step r b ≠ some (.file u) := by
    intro r u
    unfold step
    rw [hw]
    rcases r with _ | (_ | _ | _) <;> cases b.killed <;> cases b.canLink <;> simp [remove]
  have : after (some (.file t)) (l ++ b :: m) = after (step (after (some (.file t)) l) b) m := by simp [after]
  rw [this]
  exact hn m _ (hs _) u

/-- C300, a disagreement: if the link cannot be made, or the run is killed between, not even the former link is left. -/
theorem link_lost (p : String) (b : Build) (hw : b.written = true) (h : b.canLink = false ∨ b.killed = true) : after (some (.link p)) [b] = none := by
  rcases h with h | h
  · simp [after, step, hw, h, remove]
  · simp [after, step, hw, h, remove]

/-! ### Examples -/

example : after none [⟨"b/cc.json", true, true, false⟩, ⟨"b/cc.json", false, true, false⟩] = some (.link "b/cc.json") := by decide +kernel
example : after (some (.file "[]")) [⟨"b/cc.json", false, true, false⟩, ⟨"b/cc.json", true, true, false⟩] = some (.link "b/cc.json") := by decide +kernel

end Horus.CompileCommands
