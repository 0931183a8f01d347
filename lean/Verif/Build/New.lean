/-
`horus new`: which names it takes, what it writes and where, and whether
`horus check` takes the result.

Modelled source: horus_manager/src/commands/new.rs (13-139 the command, 276-341
directories and .gitignore, 345-365 .clang-format, 409-522 the manifests, 525-644
Rust sources, 650-687 names, 702-760 Python, 762-822 C++),
horus_manager/src/main.rs (2116-2156 flags), horus_manager/src/manifest.rs
(1231-1321 `validate`, for the manifests written here, whose version and edition
are constants that pass).  Simplified: file contents are named, not spelled out;
the generated `.horus/Cargo.toml` and the list of workspaces in the home
directory, both best effort, are left out; a file system operation fails only
when a file is where a directory is needed or the other way round.
-/
import Mathlib.Tactic.Common
import Mathlib.Data.List.Basic
import Mathlib.Data.List.Infix

namespace Horus.New

abbrev Text := List Char

/-! ### Names -/

/-- Length in bytes, as `len()`. -/
def bytes (s : Text) : Nat := (s.map fun c => c.utf8Size).sum

/-- Whether byte `k` starts a character, so that `&s[..k]` is a string and not a
panic. -/
def boundary : Text → Nat → Bool
  | _, 0 => true
  | [], _ + 1 => false
  | c :: cs, k + 1 => decide (c.utf8Size ≤ k + 1) && boundary cs (k + 1 - c.utf8Size)

inductive Verdict | ok | refused | panics
deriving DecidableEq, Repr

/-- Models horus_manager/src/commands/new.rs:674. -/
def nameChar (c : Char) : Bool := c.isAlphanum || c = '-' || c = '_'

/-- `validate_project_name`. Models horus_manager/src/commands/new.rs:646-687. -/
def projectName (s : Text) : Verdict :=
  match s with
  | [] => .refused
  | c :: cs =>
    if 64 < bytes (c :: cs) then (if boundary (c :: cs) 20 then .refused else .panics)
    else if !(c.isAlpha || c = '_') then .refused
    else if (c :: cs).all nameChar then .ok else .refused

/-- Models horus_manager/src/manifest.rs:1284-1287. -/
def reserved : List Text :=
  ["horus", "core", "std", "lib", "test", "main", "admin", "api", "root", "system", "internal", "config", "setup", "install"].map String.toList

/-- Models horus_manager/src/manifest.rs:1268-1276. -/
def manifestChar (c : Char) : Bool := c.isLower || c.isDigit || c = '-' || c = '_' || c = '@' || c = '/'

/-- Whether `validate` takes a manifest of that name that is not a virtual
workspace. Models horus_manager/src/manifest.rs:1253-1292. -/
def checks (s : Text) : Bool :=
  !s.isEmpty && decide (2 ≤ bytes s) && decide (bytes s ≤ 64) && s.all manifestChar && !(reserved.contains s)

/-! ### Files -/

abbrev Path := List Text

/-- What a file holds: the templates, or something of the user's. -/
inductive Data
  | manifest (name : Text) (workspace lib : Bool)
  | gitignore (lang : Text) | clangFormat
  | mainRs (useMacro : Bool) | libRs (name : Text) | mainPy (node : Text) | mainCpp (name : Text)
  | user (b : Text)
deriving DecidableEq, Repr

inductive Node
  | dir
  | file (d : Data)
deriving DecidableEq, Repr

abbrev Fs := Path → Option Node

def isFile (f : Fs) (p : Path) : Bool := match f p with | some (.file _) => true | _ => false

inductive Op
  | mkdir (p : Path)
  | write (p : Path) (d : Data)
deriving DecidableEq, Repr

/-- `create_dir_all` and `write`. -/
def Op.run (f : Fs) : Op → Option Fs
  | .mkdir p => if p.inits.any (isFile f) then none else some fun q => if q.isPrefixOf p then some .dir else f q
  | .write p d =>
    if f p = some .dir ∨ f p.dropLast ≠ some .dir then none else some fun q => if q = p then some (.file d) else f q

/-- One after the other until one fails. -/
def exec : List Op → Fs → Fs × Bool
  | [], f => (f, true)
  | o :: os, f => match o.run f with
    | none => (f, false)
    | some g => exec os g

inductive Lang | rust | python | cpp
deriving DecidableEq, Repr

def Lang.text : Lang → Text
  | .rust => ['r'] | .python => ['p'] | .cpp => ['c']

def tHorus : Text := ['.','h']
def tIgnore : Text := ['.','g']
def tClang : Text := ['.','c']
def tToml : Text := ['h','.','t']
def tSrc : Text := ['s','r','c']
def tCrates : Text := ['c','r']
def tMainRs : Text := ['m','.','r']
def tLibRs : Text := ['l','.','r']
def tMainPy : Text := ['m','.','p']
def tMainCpp : Text := ['m','.','c']

/-- The entry point. Models horus_manager/src/commands/new.rs:525-532, 640-643,
702-707, 752-759, 816-819. -/
def mainOps (d : Path) (name : Text) (l : Lang) (useMacro : Bool) : List Op :=
  match l with
  | .rust => [.mkdir (d ++ [tSrc]), .write (d ++ [tSrc, tMainRs]) (.mainRs useMacro)]
  | .python => [.write (d ++ [tMainPy]) (.mainPy (name.map (fun c => if c = '-' then '_' else c) ++ "_controller".toList))]
  | .cpp => [.mkdir (d ++ [tSrc]), .write (d ++ [tSrc, tMainCpp]) (.mainCpp name)]

/-- What is done in both modes first. Models
horus_manager/src/commands/new.rs:66, 73-76, 108-112, 276-341. -/
def common (root : Path) (l : Lang) : List Op :=
  [.mkdir root, .mkdir (root ++ [tHorus]), .write (root ++ [tIgnore]) (.gitignore l.text)] ++
  (if l = .cpp then [.write (root ++ [tClang]) .clangFormat] else [])

/-- All that is done, in order. Models horus_manager/src/commands/new.rs:66-139. -/
def plan (parent : Path) (name : Text) (l : Lang) (useMacro workspace lib : Bool) : List Op :=
  let root := parent ++ [name]
  if workspace then
    common root l ++ [.write (root ++ [tToml]) (.manifest name true false), .mkdir (root ++ [tCrates, name]),
      .write (root ++ [tCrates, name, tToml]) (.manifest name false false)] ++ mainOps (root ++ [tCrates, name]) name l useMacro
  else
    common root l ++ [.write (root ++ [tToml]) (.manifest name false lib)] ++
    (if lib ∧ l = .rust then [.mkdir (root ++ [tSrc]), .write (root ++ [tSrc, tLibRs]) (.libRs name)]
     else mainOps root name l useMacro)

/-- The command. Models horus_manager/src/commands/new.rs:13-139. -/
def create (parent : Path) (name : Text) (l : Lang) (useMacro workspace lib : Bool) (f : Fs) : Fs × Bool :=
  match projectName name with
  | .ok => exec (plan parent name l useMacro workspace lib) f
  | _ => (f, false)

/-- The flags. Models horus_manager/src/main.rs:2132-2140 and, when no flag says,
horus_manager/src/commands/new.rs:206-217 (not asking). -/
def langOf (python cpp rust useMacro workspace : Bool) : Lang :=
  if python then .python else if cpp then .cpp else if rust || useMacro || workspace then .rust else .rust

/-- **The language is the one whose flag is given**, and Rust if none is; the command line accepts at most one of the flags of
the languages, and `--macro` only for Rust (main.rs:143-154). -/
theorem lang_exact (python cpp rust useMacro workspace : Bool) (h : ¬ (python = true ∧ cpp = true)) :
    (langOf python cpp rust useMacro workspace = .python ↔ python = true) ∧ (langOf python cpp rust useMacro workspace = .cpp ↔ cpp = true) ∧
      (langOf python cpp rust useMacro workspace = .rust ↔ python = false ∧ cpp = false) := by
  revert h
  cases python <;> cases cpp <;> cases rust <;> cases useMacro <;> cases workspace <;> decide

/-! ### Names: theorems -/

theorem alphanum_cases (c : Char) : c.isAlphanum = (c.isUpper || c.isLower || c.isDigit) := by
  simp [Char.isAlphanum, Char.isAlpha, Bool.or_comm]

/-- A name that is taken is a plain file name: not empty, at most 64 bytes, no
separator, no dot at all, beginning with a letter or an underscore. -/
theorem taken_name (s : Text) (h : projectName s = .ok) :
    s ≠ [] ∧ bytes s ≤ 64 ∧ (∀ c ∈ s, c ≠ '/' ∧ c ≠ '\\' ∧ c ≠ '.' ∧ c ≠ '@') ∧ ∃ c, s.head? = some c ∧ (c.isAlpha = true ∨ c = '_') := by
  unfold projectName at h
  split at h
  · simp at h
  · rename_i c cs
    split at h
    · split at h <;> simp at h
    · rename_i hb
      split at h
      · simp at h
      · rename_i hc
        split at h
        · rename_i ha
          refine ⟨by simp, Nat.le_of_not_lt hb, ?_, c, rfl, by
            cases hA : c.isAlpha <;> simp [hA] at hc ⊢
            exact hc⟩
          intro x hx
          have := List.all_eq_true.1 ha x hx
          refine ⟨?_, ?_, ?_, ?_⟩ <;> rintro rfl <;> exact absurd this (by decide)
        · simp at h

theorem upper_not (c : Char) (h : c.isUpper = true) : c.isLower = false ∧ c.isDigit = false ∧ c ≠ '-' ∧ c ≠ '_' ∧ c ≠ '@' ∧ c ≠ '/' := by
  simp only [Char.isUpper, decide_eq_true_eq, ge_iff_le] at h
  have h1 : (65 : Nat) ≤ c.toNat := by simpa using UInt32.le_iff_toNat_le.1 h.1
  have h2 : c.toNat ≤ 90 := by simpa using UInt32.le_iff_toNat_le.1 h.2
  refine ⟨?_, ?_, ?_, ?_, ?_, ?_⟩
  · simp only [Char.isLower, Bool.and_eq_false_iff, decide_eq_false_iff_not, ge_iff_le]
    left; intro hh; have := UInt32.le_iff_toNat_le.1 hh; simp at this; omega
  · simp only [Char.isDigit, Bool.and_eq_false_iff, decide_eq_false_iff_not, ge_iff_le]
    right; intro hh; have := UInt32.le_iff_toNat_le.1 hh; simp at this; omega
  all_goals rintro rfl; revert h1 h2; decide

/-- Exactly which new projects pass `horus check`: names of at least two bytes
without capital letters that are not reserved. -/
theorem checks_iff (s : Text) (h : projectName s = .ok) :
    checks s = true ↔ 2 ≤ bytes s ∧ (∀ c ∈ s, c.isUpper = false) ∧ s ∉ reserved := by
  obtain ⟨h1, h2, h3, -⟩ := taken_name s h
  have hn : ∀ c ∈ s, nameChar c = true := by
    unfold projectName at h
    split at h
    · simp at h
    · split at h
      · split at h <;> simp at h
      · split at h
        · simp at h
        · split at h
          · rename_i ha; exact List.all_eq_true.1 ha
          · simp at h
  have hc : s.all manifestChar = true ↔ ∀ c ∈ s, c.isUpper = false := by
    rw [List.all_eq_true]
    refine forall_congr' fun c => forall_congr' fun hm => ?_
    have hx := hn c hm
    constructor
    · intro hk
      by_contra hu
      obtain ⟨a, b, d, e, f, g⟩ := upper_not c (by simpa using hu)
      simp [manifestChar, a, b, d, e, f, g] at hk
    · intro hu
      simp only [nameChar, alphanum_cases, hu, Bool.false_or, Bool.or_eq_true, decide_eq_true_eq] at hx
      simp only [manifestChar, Bool.or_eq_true, decide_eq_true_eq]
      tauto
  simp only [checks, Bool.and_eq_true, decide_eq_true_eq, hc, Bool.not_eq_true', List.isEmpty_eq_false_iff, List.contains_eq_mem, decide_eq_false_iff_not]
  tauto

/-- Findings: names `horus new` takes and `horus check` refuses. -/
theorem taken_but_refused : (projectName "MyRobot".toList = .ok ∧ checks "MyRobot".toList = false) ∧
    (projectName "a".toList = .ok ∧ checks "a".toList = false) ∧ (projectName "test".toList = .ok ∧ checks "test".toList = false) := by decide +kernel

/-- Finding: a long name with other than ASCII letters ends in a panic instead of
the message. -/
theorem long_name_panics : projectName ('a' :: List.replicate 40 'é') = .panics ∧ projectName (List.replicate 65 'a') = .refused := by decide +kernel

/-! ### Files: theorems -/

/-- The files an operation list writes. -/
def targets : List Op → List Path
  | [] => []
  | .mkdir _ :: os => targets os
  | .write p _ :: os => p :: targets os

theorem targets_append (a b : List Op) : targets (a ++ b) = targets a ++ targets b := by
  induction a with
  | nil => rfl
  | cons o os ih => cases o <;> simp [targets, ih]

theorem run_keeps (f g : Fs) (o : Op) (h : o.run f = some g) (q : Path) (d : Data) (hf : f q = some (.file d))
    (hn : ∀ d', o ≠ .write q d') : g q = some (.file d) := by
  cases o with
  | mkdir p =>
    simp only [Op.run] at h
    split at h
    · simp at h
    · rename_i hany
      have h := Option.some.inj h
      subst h
      dsimp only
      rw [if_neg, hf]
      intro hp
      refine hany (List.any_eq_true.2 ⟨q, (List.mem_inits q p).2 (List.isPrefixOf_iff_prefix.1 hp), ?_⟩)
      simp [isFile, hf]
  | write p d' =>
    simp only [Op.run] at h
    split at h
    · simp at h
    · have h := Option.some.inj h
      subst h
      dsimp only
      rw [if_neg, hf]
      rintro rfl
      exact hn d' rfl

theorem exec_keeps (os : List Op) : ∀ (f : Fs) (q : Path) (d : Data), f q = some (.file d) → q ∉ targets os → (exec os f).1 q = some (.file d) := by
  induction os with
  | nil => intro f q d h _; exact h
  | cons o os ih =>
    intro f q d h hn
    simp only [exec]
    split
    · exact h
    · rename_i g hg
      refine ih g q d (run_keeps f g o hg q d h ?_) ?_
      · rintro d' rfl; exact hn (by simp [targets])
      · intro hm; apply hn; cases o <;> simp [targets, hm]

theorem exec_writes (os : List Op) : ∀ (f : Fs) (p : Path) (d : Data), (exec os f).2 = true → (targets os).Nodup → Op.write p d ∈ os →
    (exec os f).1 p = some (.file d) := by
  induction os with
  | nil => intro f p d _ _ h; exact absurd h List.not_mem_nil
  | cons o os ih =>
    intro f p d hok hn hm
    simp only [exec] at hok ⊢
    split at hok
    · simp at hok
    · rename_i g hg
      rcases List.mem_cons.1 hm with hm | hm
      · subst hm
        refine exec_keeps os g p d ?_ (List.nodup_cons.1 hn).1
        simp only [Op.run] at hg
        split at hg
        · simp at hg
        · have hg := Option.some.inj hg
          subst hg
          simp
      · refine ih g p d hok ?_ hm
        cases o with
        | mkdir _ => exact hn
        | write _ _ => exact (List.nodup_cons.1 hn).2

/-- The paths an operation list is about. -/
def paths : List Op → List Path
  | [] => []
  | .mkdir p :: os => p :: paths os
  | .write p _ :: os => p :: paths os

theorem paths_append (a b : List Op) : paths (a ++ b) = paths a ++ paths b := by
  induction a with
  | nil => rfl
  | cons o os ih => cases o <;> simp [paths, ih]

theorem exec_frame (r : Path) (os : List Op) : ∀ (f : Fs), (∀ p ∈ paths os, r <+: p) → ∀ q, ¬ r <+: q → ¬ q <+: r → (exec os f).1 q = f q := by
  induction os with
  | nil => intro f _ q _ _; rfl
  | cons o os ih =>
    intro f hp q h1 h2
    simp only [exec]
    split
    · rfl
    · rename_i g hg
      have hos : ∀ p ∈ paths os, r <+: p := fun p hm => hp p (by cases o <;> simp [paths, hm])
      rw [ih g hos q h1 h2]
      cases o with
      | mkdir p =>
        have hr : r <+: p := hp p (by simp [paths])
        simp only [Op.run] at hg
        split at hg
        · simp at hg
        · have hg := Option.some.inj hg
          subst hg
          dsimp only
          rw [if_neg]
          intro hq
          have hq := List.isPrefixOf_iff_prefix.1 hq
          rcases List.prefix_or_prefix_of_prefix hq hr with h | h
          · exact h2 h
          · exact h1 h
      | write p d =>
        have hr : r <+: p := hp p (by simp [paths])
        simp only [Op.run] at hg
        split at hg
        · simp at hg
        · have hg := Option.some.inj hg
          subst hg
          dsimp only
          rw [if_neg]
          rintro rfl
          exact h1 hr

/-- Nothing in the list gets in the way of what follows: `D` are the directories
made so far, `W` the files written. -/
def Fine (D W : List Path) : List Op → Prop
  | [] => True
  | .mkdir p :: os => (∀ w ∈ W, ¬ w <+: p) ∧ Fine (p :: D) W os
  | .write p _ :: os => (∀ d ∈ D, ¬ p <+: d) ∧ (∃ d ∈ D, p.dropLast <+: d) ∧ Fine D (p :: W) os

theorem fine_ok (f0 : Fs) (os : List Op) : ∀ (D W : List Path) (f : Fs), Fine D W os →
    (∀ p, Op.mkdir p ∈ os → ∀ q, q <+: p → isFile f0 q = false) → (∀ p d, Op.write p d ∈ os → f0 p ≠ some .dir) →
    (∀ q, isFile f q = true → q ∈ W ∨ isFile f0 q = true) → (∀ q, f q = some .dir → (∃ d ∈ D, q <+: d) ∨ f0 q = some .dir) →
    (∀ d ∈ D, ∀ q, q <+: d → f q = some .dir) → (exec os f).2 = true := by
  induction os with
  | nil => intros; rfl
  | cons o os ih =>
    intro D W f hF hm hw hfile hdir hD
    cases o with
    | mkdir p =>
      have hnone : p.inits.any (isFile f) = false := by
        rw [List.any_eq_false]
        intro q hq
        rw [List.mem_inits] at hq
        intro hc
        rcases hfile q hc with h | h
        · exact hF.1 q h hq
        · rw [hm p List.mem_cons_self q hq] at h; exact absurd h (by simp)
      simp only [exec, Op.run, hnone, Bool.false_eq_true, if_false]
      refine ih (p :: D) W _ hF.2 (fun p' h => hm p' (List.mem_cons_of_mem _ h)) (fun p' d h => hw p' d (List.mem_cons_of_mem _ h)) ?_ ?_ ?_
      · intro q hq
        simp only [isFile] at hq
        split at hq
        · rename_i x hx
          split at hx
          · simp at hx
          · exact hfile q (by simp [isFile, hx])
        · simp at hq
      · intro q hq
        split at hq
        · rename_i hp; exact Or.inl ⟨p, List.mem_cons_self, List.isPrefixOf_iff_prefix.1 hp⟩
        · rcases hdir q hq with ⟨d, h1, h2⟩ | h
          · exact Or.inl ⟨d, List.mem_cons_of_mem _ h1, h2⟩
          · exact Or.inr h
      · intro d hd q hq
        rcases List.mem_cons.1 hd with h | h
        · subst h; rw [if_pos (List.isPrefixOf_iff_prefix.2 hq)]
        · rw [hD d h q hq]; split <;> rfl
    | write p x =>
      obtain ⟨h1, ⟨d, hd, hpd⟩, h3⟩ := hF
      have hnot : ¬ (f p = some .dir ∨ f p.dropLast ≠ some .dir) := by
        rintro (h | h)
        · rcases hdir p h with ⟨d', h4, h5⟩ | h4
          · exact h1 d' h4 h5
          · exact hw p x List.mem_cons_self h4
        · exact h (hD d hd _ hpd)
      simp only [exec, Op.run, if_neg hnot]
      refine ih D (p :: W) _ h3 (fun p' h => hm p' (List.mem_cons_of_mem _ h)) (fun p' d h => hw p' d (List.mem_cons_of_mem _ h)) ?_ ?_ ?_
      · intro q hq
        by_cases hqp : q = p
        · subst hqp; exact Or.inl List.mem_cons_self
        · have : isFile f q = true := by simpa [isFile, hqp] using hq
          rcases hfile q this with h | h
          · exact Or.inl (List.mem_cons_of_mem _ h)
          · exact Or.inr h
      · intro q hq
        split at hq
        · simp at hq
        · exact hdir q hq
      · intro d' hd' q hq
        rw [if_neg, hD d' hd' q hq]
        rintro rfl
        exact h1 d' hd' hq

/-! ### The plan -/

theorem plan_under (parent : Path) (name : Text) (l : Lang) (m w b : Bool) : ∀ p ∈ paths (plan parent name l m w b), parent ++ [name] <+: p := by
  cases l <;> cases w <;> cases b <;> simp [plan, common, mainOps, paths]

theorem plan_nodup (parent : Path) (name : Text) (l : Lang) (m w b : Bool) : (targets (plan parent name l m w b)).Nodup := by
  cases l <;> cases w <;> cases b <;> simp [plan, common, mainOps, targets, tHorus, tIgnore, tClang, tToml, tSrc, tCrates, tMainRs, tLibRs, tMainPy, tMainCpp]

theorem plan_fine (parent : Path) (name : Text) (l : Lang) (m w b : Bool) : Fine [] [] (plan parent name l m w b) := by
  cases l <;> cases w <;> cases b <;> simp [plan, common, mainOps, Fine, tHorus, tIgnore, tClang, tToml, tSrc, tCrates, tMainRs, tLibRs, tMainPy, tMainCpp]

/-- Nothing is in the way of a new project: no file where a directory is
needed, no directory where a file is written. -/
def Clear (f : Fs) (os : List Op) : Prop :=
  (∀ p, Op.mkdir p ∈ os → ∀ q, q <+: p → isFile f q = false) ∧ ∀ p d, Op.write p d ∈ os → f p ≠ some .dir

/-- With a good name and nothing in the way the command succeeds. -/
theorem succeeds (parent : Path) (name : Text) (l : Lang) (m w b : Bool) (f : Fs) (hn : projectName name = .ok)
    (hc : Clear f (plan parent name l m w b)) : (create parent name l m w b f).2 = true := by
  simp only [create, hn]
  exact fine_ok f _ [] [] f (plan_fine parent name l m w b) hc.1 hc.2 (fun q h => Or.inr h) (fun q h => Or.inr h) (by simp)

/-- A directory that does not exist yet, in a place where one can be made, is
clear. -/
theorem fresh_clear (parent : Path) (name : Text) (l : Lang) (m w b : Bool) (f : Fs)
    (h1 : ∀ q, q <+: parent → isFile f q = false) (h2 : ∀ q, parent ++ [name] <+: q → f q = none) : Clear f (plan parent name l m w b) := by
  have hu := plan_under parent name l m w b
  have hin : ∀ (os : List Op) p, Op.mkdir p ∈ os → p ∈ paths os := by
    intro os
    induction os with
    | nil => intro p h; exact absurd h List.not_mem_nil
    | cons o os ih =>
      intro p h
      rcases List.mem_cons.1 h with h' | h'
      · subst h'; simp [paths]
      · have := ih p h'
        cases o <;> simp [paths, this]
  have hin2 : ∀ (os : List Op) p d, Op.write p d ∈ os → p ∈ paths os := by
    intro os
    induction os with
    | nil => intro p d h; exact absurd h List.not_mem_nil
    | cons o os ih =>
      intro p d h
      rcases List.mem_cons.1 h with h' | h'
      · subst h'; simp [paths]
      · have := ih p d h'
        cases o <;> simp [paths, this]
  refine ⟨fun p hp q hq => ?_, fun p d hp => ?_⟩
  · have hr := hu p (hin _ p hp)
    rcases List.prefix_or_prefix_of_prefix hq hr with h | h
    · rcases List.prefix_concat_iff.1 h with h | h
      · subst h; simp [isFile, h2 _ (List.prefix_refl _)]
      · exact h1 q h
    · simp [isFile, h2 q h]
  · rw [h2 p (hu p (hin2 _ p d hp))]; simp

/-- What is there afterwards: every file of the plan, with its template. -/
theorem all_written (parent : Path) (name : Text) (l : Lang) (m w b : Bool) (f : Fs) (hs : (create parent name l m w b f).2 = true)
    (p : Path) (d : Data) (hp : Op.write p d ∈ plan parent name l m w b) : (create parent name l m w b f).1 p = some (.file d) := by
  unfold create at hs ⊢
  split at hs
  · exact exec_writes _ f p d hs (plan_nodup parent name l m w b) hp
  · simp at hs

/-- In particular the manifest, which carries the name, and an entry point in
the language asked for. -/
theorem manifest_and_entry (parent : Path) (name : Text) (l : Lang) (m : Bool) (f : Fs) (hs : (create parent name l m false false f).2 = true) :
    (create parent name l m false false f).1 (parent ++ [name, tToml]) = some (.file (.manifest name false false)) ∧
      match l with
      | .rust => (create parent name l m false false f).1 (parent ++ [name, tSrc, tMainRs]) = some (.file (.mainRs m))
      | .python => ∃ node, (create parent name l m false false f).1 (parent ++ [name, tMainPy]) = some (.file (.mainPy node))
      | .cpp => (create parent name l m false false f).1 (parent ++ [name, tSrc, tMainCpp]) = some (.file (.mainCpp name)) := by
  refine ⟨all_written parent name l m false false f hs _ _ ?_, ?_⟩
  · cases l <;> simp [plan, common, mainOps]
  · cases l
    · exact all_written parent name .rust m false false f hs _ _ (by simp [plan, common, mainOps])
    · exact ⟨_, all_written parent name .python m false false f hs (parent ++ [name, tMainPy]) (.mainPy _) (by simp [plan, common, mainOps]; rfl)⟩
    · exact all_written parent name .cpp m false false f hs _ _ (by simp [plan, common, mainOps])

/-- A workspace has its own manifest and that of its first member. -/
theorem workspace_manifests (parent : Path) (name : Text) (l : Lang) (m b : Bool) (f : Fs) (hs : (create parent name l m true b f).2 = true) :
    (create parent name l m true b f).1 (parent ++ [name, tToml]) = some (.file (.manifest name true false)) ∧
      (create parent name l m true b f).1 (parent ++ [name, tCrates, name, tToml]) = some (.file (.manifest name false false)) :=
  ⟨all_written parent name l m true b f hs _ _ (by cases l <;> simp [plan, common, mainOps]),
    all_written parent name l m true b f hs _ _ (by cases l <;> simp [plan, common, mainOps])⟩

/-- Whether it succeeds, fails half way or refuses the name, nothing outside the
project's directory changes, except that missing directories above it are made. -/
theorem outside_untouched (parent : Path) (name : Text) (l : Lang) (m w b : Bool) (f : Fs) (q : Path)
    (h1 : ¬ parent ++ [name] <+: q) (h2 : ¬ q <+: parent) : (create parent name l m w b f).1 q = f q := by
  unfold create
  split
  · refine exec_frame (parent ++ [name]) _ f (plan_under parent name l m w b) q h1 ?_
    intro h
    rcases List.prefix_concat_iff.1 h with h | h
    · subst h; exact h1 (List.prefix_refl _)
    · exact h2 h
  · rfl

/-- A file that is not one of the plan's is never touched, inside or outside. -/
theorem other_files_kept (parent : Path) (name : Text) (l : Lang) (m w b : Bool) (f : Fs) (q : Path) (d : Data)
    (hf : f q = some (.file d)) (hq : q ∉ targets (plan parent name l m w b)) : (create parent name l m w b f).1 q = some (.file d) := by
  unfold create
  split
  · exact exec_keeps _ f q d hf hq
  · exact hf

/-- Finding: it does not ask whether the project exists. In a project already
there it succeeds and the user's manifest and entry point are replaced by the
templates, whatever they held. -/
theorem overwrites (parent : Path) (name : Text) (m : Bool) (f : Fs) (b1 b2 : Text) (hn : projectName name = .ok)
    (hd : ∀ q, q <+: parent ++ [name, tSrc] → f q = some .dir) (hh : isFile f (parent ++ [name, tHorus]) = false)
    (hg : f (parent ++ [name, tIgnore]) ≠ some .dir) (h1 : f (parent ++ [name, tToml]) = some (.file (.user b1)))
    (h2 : f (parent ++ [name, tSrc, tMainRs]) = some (.file (.user b2))) :
    (create parent name .rust m false false f).2 = true ∧
      (create parent name .rust m false false f).1 (parent ++ [name, tToml]) = some (.file (.manifest name false false)) ∧
      (create parent name .rust m false false f).1 (parent ++ [name, tSrc, tMainRs]) = some (.file (.mainRs m)) := by
  have hs : (create parent name .rust m false false f).2 = true := by
    refine succeeds parent name .rust m false false f hn ⟨?_, ?_⟩
    · have hroot : ∀ q, q <+: parent ++ [name] → isFile f q = false := by
        intro q hq
        have : parent ++ [name] <+: parent ++ [name, tSrc] := by simp
        simp [isFile, hd q (hq.trans this)]
      intro p hp q hq
      simp only [plan, common, mainOps, Bool.false_eq_true, if_false, false_and, reduceCtorEq, List.append_nil, List.append_assoc, List.cons_append, List.nil_append, List.mem_cons, Op.mkdir.injEq, List.not_mem_nil, or_false, false_or] at hp
      rcases hp with rfl | rfl | rfl
      · exact hroot q hq
      · have : parent ++ [name, tHorus] = (parent ++ [name]) ++ [tHorus] := by simp
        rw [this] at hq
        rcases List.prefix_concat_iff.1 hq with h | h
        · rw [h, ← this]; exact hh
        · exact hroot q h
      · simp [isFile, hd q hq]
    · intro p d hp
      simp only [plan, common, mainOps, Bool.false_eq_true, if_false, false_and, reduceCtorEq, List.append_nil, List.append_assoc, List.cons_append, List.nil_append, List.mem_cons, Op.write.injEq, List.not_mem_nil, or_false, false_or] at hp
      rcases hp with ⟨rfl, -⟩ | ⟨rfl, -⟩ | ⟨rfl, -⟩
      · exact hg
      · rw [h1]; simp
      · rw [h2]; simp
  exact ⟨hs, (manifest_and_entry parent name .rust m f hs).1, (manifest_and_entry parent name .rust m f hs).2⟩

/-- Finding: `--lib` says nothing in a workspace, and with Python or C++ gives a
manifest that says library beside a program's entry point. -/
theorem lib_flag (parent : Path) (name : Text) (l : Lang) (m : Bool) :
    plan parent name l m true true = plan parent name l m true false ∧
    (l ≠ .rust → plan parent name l m false true = common (parent ++ [name]) l ++ [.write (parent ++ [name, tToml]) (.manifest name false true)] ++ mainOps (parent ++ [name]) name l m) := by
  refine ⟨by simp [plan], fun h => ?_⟩
  cases l
  · exact absurd rfl h
  · simp [plan]
  · simp [plan]

/-- Finding: a failure half way leaves what was written: with a file named
`src`, the manifest is there and the entry point is not. -/
theorem half_made : let f : Fs := fun q => if q = [] then some .dir else if q = [['a'], tSrc] then some (.file (.user [])) else if q = [['a']] then some .dir else none
    (create [] ['a'] .rust false false false f).2 = false ∧ (create [] ['a'] .rust false false false f).1 [['a'], tToml] = some (.file (.manifest ['a'] false false)) := by decide +kernel

/-- An empty home directory. -/
def home : Fs := fun q => if q = [] then some .dir else none

example : Clear home (plan [] "my_robot".toList .rust false false false) := by
  refine fresh_clear [] _ .rust false false false home ?_ ?_
  · intro q h; rw [List.prefix_nil.1 h]; rfl
  · intro q h
    have : q ≠ [] := by rintro rfl; simp at h
    simp [home, this]
example : projectName "my_robot".toList = .ok ∧ checks "my_robot".toList = true := by decide +kernel
example : (create [] "my_robot".toList .python false false false home).2 = true ∧
    (create [] "my-robot".toList .python false false false home).1 ["my-robot".toList, tMainPy] = some (.file (.mainPy "my_robot_controller".toList)) := by decide +kernel

end Horus.New
