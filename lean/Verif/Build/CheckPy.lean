import Verif.Build.Imports
/-
The check of a Python program's packages by `horus check`: horus_manager/src/commands/check.rs 1211-1245, 1302-1412.

White space and letters are simplified as in Verif/Build/Imports.lean, whose text functions and description of import
statements are used here. What pip and the directory of cargo programs answer are parameters.
-/
namespace Horus.CheckPy
open Horus.Imports

/-- The standard modules the check knows (check.rs:1365-1406). -/
def std : List Text :=
  ["os", "sys", "re", "json", "math", "time", "datetime", "collections", "itertools", "functools", "pathlib", "typing", "abc", "io", "logging", "argparse", "subprocess", "threading", "multiprocessing", "queue", "socket", "http", "urllib", "email", "xml", "html", "random", "string", "unittest", "pytest", "asyncio", "concurrent", "pickle", "copy", "enum", "dataclasses", "contextlib", "warnings", "traceback", "pdb", "timeit"].map String.toList

/-- `split(',').next()` (library function), used in check.rs:1345-1347. -/
def toComma (s : Text) : Text := s.takeWhile (· != ',')

/-- What one line adds (check.rs:1331-1362). -/
def lineMod (line : Text) : Option Text :=
  let l := trim line
  if l = [] ∨ l.head? = some '#' then none
  else if kwImport.isPrefixOf l then
    let m := trim (toComma (root ((word1 (l.drop 7)).getD [])))
    if m = [] then none else some m
  else if kwFrom.isPrefixOf l then
    match word1 (l.drop 5) with
    | some w => if root w = [] then none else some (root w)
    | none => none
  else none

/-- The loop over the lines (check.rs:1330-1363): a name is added once. -/
def collect (acc : List Text) : List Text → List Text
  | [] => acc
  | l :: ls => match lineMod l with
    | some n => collect (if acc.contains n then acc else acc ++ [n]) ls
    | none => collect acc ls

/-- `parse_python_imports` (check.rs:1326-1412). -/
def imports (ls : List Text) : List Text :=
  (collect [] ls).filter fun m => !std.contains m && m != "horus".toList

/-- `check_system_package_exists` (check.rs:1302-1323): `pip show`, else a program of that name among cargo's. -/
def exists_ (pip bin : Text → Bool) (n : Text) : Bool := pip n || bin n

/-- The packages reported missing (check.rs:1218-1223); the check fails if there are any (check.rs:1225-1234). -/
def missing (pip bin : Text → Bool) (ls : List Text) : List Text := (imports ls).filter fun n => !exists_ pip bin n

/-! ### Specification -/

/-- A line of a program: an import of one or more modules, a `from` import, or something else. -/
inductive Stmt where
  | imp (pad : Text) (m : Module) (ms : List Module)
  | frm (pad : Text) (m : Module) (names : Text)
  | other (line : Text)

/-- Its text. -/
def Stmt.text : Stmt → Text
  | .imp pad m ms => pad ++ ("import ".toList ++ listing (m :: ms))
  | .frm pad m names => pad ++ ("from ".toList ++ (m.path ++ (" import ".toList ++ names)))
  | .other l => l

/-- The statements are what they say. -/
def Stmt.WF : Stmt → Prop
  | .imp pad m ms => (∀ c ∈ pad, white c = true) ∧ m.WF ∧ ∀ x ∈ ms, x.WF
  | .frm pad m names => (∀ c ∈ pad, white c = true) ∧ m.WF ∧ names ≠ [] ∧ ∀ c, names.getLast? = some c → white c = false
  | .other l => ¬ kwImport <+: trim l ∧ ¬ kwFrom <+: trim l

/-- The packages a statement needs. -/
def Stmt.needs : Stmt → List Text
  | .imp _ m ms => (m :: ms).map Module.head
  | .frm _ m _ => [m.head]
  | .other _ => []

/-! ### Theorems -/

theorem collect_mem (ls : List Text) : ∀ (acc : List Text) (n : Text), n ∈ collect acc ls ↔ n ∈ acc ∨ ∃ l ∈ ls, lineMod l = some n := by
  induction ls with
  | nil => intro acc n; simp [collect]
  | cons l ls ih =>
    intro acc n
    rw [collect]
    cases h : lineMod l with
    | none => simp [ih, h]
    | some x =>
      simp only [ih]
      by_cases hx : acc.contains x = true
      · rw [if_pos hx]
        have hx' : x ∈ acc := by simpa using hx
        constructor
        · rintro (h1 | h1)
          · exact .inl h1
          · exact .inr (by obtain ⟨y, a, b⟩ := h1; exact ⟨y, by simp [a], b⟩)
        · rintro (h1 | ⟨y, a, b⟩)
          · exact .inl h1
          · rcases List.mem_cons.1 a with rfl | a
            · rw [h] at b; cases b; exact .inl hx'
            · exact .inr ⟨y, a, b⟩
      · rw [if_neg hx]
        constructor
        · rintro (h1 | ⟨y, a, b⟩)
          · rcases List.mem_append.1 h1 with h1 | h1
            · exact .inl h1
            · simp at h1; subst h1; exact .inr ⟨l, by simp, h⟩
          · exact .inr ⟨y, by simp [a], b⟩
        · rintro (h1 | ⟨y, a, b⟩)
          · exact .inl (by simp [h1])
          · rcases List.mem_cons.1 a with rfl | a
            · rw [h] at b; cases b; exact .inl (by simp)
            · exact .inr ⟨y, a, b⟩

theorem collect_nodup (ls : List Text) : ∀ acc : List Text, acc.Nodup → (collect acc ls).Nodup := by
  induction ls with
  | nil => exact fun acc h => h
  | cons l ls ih =>
    intro acc h
    rw [collect]
    cases lineMod l with
    | none => exact ih acc h
    | some x =>
      dsimp only
      split
      · exact ih acc h
      · next hx =>
        refine ih _ (List.nodup_append.2 ⟨h, by simp, ?_⟩)
        intro a ha b hb hab
        simp at hb
        subst hb
        subst hab
        exact hx (by simpa using ha)

/-- C295: the names looked up are those some line gives, each once, without `horus` and the standard modules known. -/
theorem imports_iff (ls : List Text) (n : Text) :
    (n ∈ imports ls ↔ (∃ l ∈ ls, lineMod l = some n) ∧ n ∉ std ∧ n ≠ "horus".toList) ∧ (imports ls).Nodup := by
  refine ⟨?_, (collect_nodup ls [] (by simp)).filter _⟩
  unfold imports
  rw [List.mem_filter, collect_mem]
  generalize "horus".toList = h
  simp

theorem trim_line (pad s : Text) (hp : ∀ c ∈ pad, white c = true) (x : Char) (hx : s.head? = some x) (hxw : white x = false)
    (hl : ∀ c, s.getLast? = some c → white c = false) : trim (pad ++ s) = s := by
  have := trim_pads pad s [] hp (by simp) (fun c hc => by rw [hx] at hc; cases hc; exact hxw) hl (by rintro rfl; cases hx)
  simpa using this

/-- C295: a statement `import a, b, c` gives the first name of the first module, and no other. -/
theorem import_first (pad : Text) (hp : ∀ c ∈ pad, white c = true) (m : Module) (ms : List Module) (hm : m.WF) (hms : ∀ x ∈ ms, x.WF) :
    lineMod (pad ++ ("import ".toList ++ listing (m :: ms))) = some m.head := by
  have hall : ∀ x ∈ m :: ms, x.WF := by intro x hx; rcases List.mem_cons.1 hx with rfl | hx; exact hm; exact hms x hx
  obtain ⟨h1, h2⟩ := listing_ends (m :: ms) hall (by simp)
  have htrim : trim (pad ++ (kwImport ++ listing (m :: ms))) = kwImport ++ listing (m :: ms) := by
    refine trim_line pad _ hp 'i' rfl rfl ?_
    intro c hc
    rw [List.getLast?_append] at hc
    cases hg : (listing (m :: ms)).getLast? with
    | none => exact absurd (List.getLast?_eq_none_iff.1 hg) h1
    | some d => rw [hg] at hc; cases hc; exact h2 c hg
  have htrim' : trim (pad ++ ("import ".toList ++ listing (m :: ms))) = kwImport ++ listing (m :: ms) := htrim
  have e1 : ¬ (kwImport ++ listing (m :: ms) = [] ∨ (kwImport ++ listing (m :: ms)).head? = some '#') := by
    rintro (e | e)
    · cases e
    · revert e; show some 'i' = _ → _; decide
  have e2 : kwImport.isPrefixOf (kwImport ++ listing (m :: ms)) = true := List.isPrefixOf_iff_prefix.2 (List.prefix_append _ _)
  have e3 : (kwImport ++ listing (m :: ms)).drop 7 = listing (m :: ms) := List.drop_left' (by decide)
  have hpw : ∀ c ∈ m.path, white c = false := fun c hc => (path_chars m hm c hc).1
  have hid := ident_plain hm.head
  -- the first word is the path, perhaps with a comma
  have hword : word1 (listing (m :: ms)) = some m.path ∨ word1 (listing (m :: ms)) = some (m.path ++ [',']) := by
    cases hr : m.rename with
    | some r =>
      left
      obtain ⟨rest, hl⟩ : ∃ rest, listing (m :: ms) = m.text ++ rest := by
        cases ms with
        | nil => exact ⟨[], by simp [listing]⟩
        | cons a t => exact ⟨',' :: ' ' :: listing (a :: t), by simp [listing]⟩
      have := word1_pad [] m.path ((" as ".toList ++ r) ++ rest) (by simp) hpw (path_ne m hm) (fun c hc => by cases hc; rfl)
      rw [hl]
      simpa [Module.text, hr] using this
    | none =>
      cases ms with
      | nil =>
        left
        have := word1_pad [] m.path [] (by simp) hpw (path_ne m hm) (by simp)
        simpa [listing, Module.text, hr] using this
      | cons a t =>
        right
        have := word1_pad [] (m.path ++ [',']) (' ' :: listing (a :: t)) (by simp)
          (fun c hc => by rcases List.mem_append.1 hc with h | h; exact hpw c h; simp at h; subst h; rfl) (by simp)
          (fun c hc => by cases hc; rfl)
        simpa [listing, Module.text, hr] using this
  have hroot : toComma (root m.path) = m.head ∧ toComma (root (m.path ++ [','])) = m.head := by
    have hc1 : toComma m.head = m.head := by
      have := takeWhile_stop (· != ',') m.head [] (fun c hc => by simpa using (hid c hc).2.2.1) (by simp)
      simpa [toComma] using this
    refine ⟨by rw [root_path m hm, hc1], ?_⟩
    cases ht : m.tail with
    | nil =>
      have hpe : m.path = m.head := by simp [Module.path, ht]
      rw [hpe]
      have hr : root (m.head ++ [',']) = m.head ++ [','] := by
        have := takeWhile_stop (· != '.') (m.head ++ [',']) [] (fun c hc => by
          rcases List.mem_append.1 hc with h | h
          · simpa using (hid c h).2.1
          · simp at h; subst h; rfl) (by simp)
        simpa [root] using this
      rw [hr]
      exact takeWhile_stop (· != ',') m.head [','] (fun c hc => by simpa using (hid c hc).2.2.1) (fun c hc => by cases hc; rfl)
    | cons a t =>
      have hpe : m.path ++ [','] = m.head ++ ('.' :: (a ++ t.flatMap (fun t => '.' :: t)) ++ [',']) := by simp [Module.path, ht]
      rw [hpe]
      have hr : root (m.head ++ ('.' :: (a ++ t.flatMap (fun t => '.' :: t)) ++ [','])) = m.head :=
        takeWhile_stop (· != '.') m.head _ (fun c hc => by simpa using (hid c hc).2.1) (fun c hc => by cases hc; rfl)
      rw [hr, hc1]
  have htr : trim m.head = m.head := by
    have := trim_pads [] m.head [] (by simp) (by simp) (fun c hc => (hid c (List.mem_of_head? hc)).1) (fun c hc => (hid c (List.mem_of_getLast? hc)).1) hm.head.1
    simpa using this
  unfold lineMod
  dsimp only
  rw [htrim', if_neg e1, if_pos e2, e3]
  rcases hword with h | h
  · rw [h, Option.getD_some, hroot.1, htr, if_neg hm.head.1]
  · rw [h, Option.getD_some, hroot.2, htr, if_neg hm.head.1]

/-- C295: a `from` statement gives the first name of its module. -/
theorem from_first (pad : Text) (hp : ∀ c ∈ pad, white c = true) (m : Module) (hm : m.WF) (names : Text) (hn0 : names ≠ [])
    (hn : ∀ c, names.getLast? = some c → white c = false) :
    lineMod (pad ++ ("from ".toList ++ (m.path ++ (" import ".toList ++ names)))) = some m.head := by
  have htrim : trim (pad ++ (kwFrom ++ (m.path ++ (kwMid ++ names)))) = kwFrom ++ (m.path ++ (kwMid ++ names)) := by
    refine trim_line pad _ hp 'f' rfl rfl ?_
    intro c hc
    have : kwFrom ++ (m.path ++ (kwMid ++ names)) = (kwFrom ++ m.path ++ kwMid) ++ names := by simp
    rw [this, List.getLast?_append] at hc
    cases hg : names.getLast? with
    | none => exact absurd (List.getLast?_eq_none_iff.1 hg) hn0
    | some d => rw [hg] at hc; cases hc; exact hn c hg
  have htrim' : trim (pad ++ ("from ".toList ++ (m.path ++ (" import ".toList ++ names)))) = kwFrom ++ (m.path ++ (kwMid ++ names)) := htrim
  have e1 : ¬ (kwFrom ++ (m.path ++ (kwMid ++ names)) = [] ∨ (kwFrom ++ (m.path ++ (kwMid ++ names))).head? = some '#') := by
    rintro (e | e)
    · cases e
    · revert e; show some 'f' = _ → _; decide
  have e2 : kwImport.isPrefixOf (kwFrom ++ (m.path ++ (kwMid ++ names))) = false := rfl
  have e3 : kwFrom.isPrefixOf (kwFrom ++ (m.path ++ (kwMid ++ names))) = true := List.isPrefixOf_iff_prefix.2 (List.prefix_append _ _)
  have e4 : (kwFrom ++ (m.path ++ (kwMid ++ names))).drop 5 = m.path ++ (kwMid ++ names) := List.drop_left' (by decide)
  have hw : word1 (m.path ++ (kwMid ++ names)) = some m.path := by
    have := word1_pad [] m.path (kwMid ++ names) (by simp) (fun c hc => (path_chars m hm c hc).1) (path_ne m hm) (fun c hc => by cases hc; rfl)
    simpa using this
  unfold lineMod
  dsimp only
  rw [htrim', if_neg e1, e2, if_neg (by decide), if_pos e3, e4, hw]
  dsimp only
  rw [root_path m hm, if_neg hm.head.1]

theorem other_none (l : Text) (h : Stmt.WF (.other l)) : lineMod l = none := by
  obtain ⟨h1, h2⟩ := h
  unfold lineMod
  dsimp only
  split
  · rfl
  · rw [if_neg (fun e => h1 (List.isPrefixOf_iff_prefix.1 e)), if_neg (fun e => h2 (List.isPrefixOf_iff_prefix.1 e))]

/-- C295: in a program whose `import` statements name one module each, exactly the packages needed that are neither
known as standard nor installed are reported. -/
theorem missing_partial (pip bin : Text → Bool) (prog : List Stmt) (hw : ∀ s ∈ prog, s.WF)
    (h1 : ∀ pad m ms, Stmt.imp pad m ms ∈ prog → ms = []) (n : Text) :
    n ∈ missing pip bin (prog.map Stmt.text) ↔
      (∃ s ∈ prog, n ∈ s.needs) ∧ n ∉ std ∧ n ≠ "horus".toList ∧ pip n = false ∧ bin n = false := by
  have key : (∃ l ∈ prog.map Stmt.text, lineMod l = some n) ↔ ∃ s ∈ prog, n ∈ s.needs := by
    constructor
    · rintro ⟨l, hl, he⟩
      obtain ⟨s, hs, rfl⟩ := List.mem_map.1 hl
      refine ⟨s, hs, ?_⟩
      have hwf := hw s hs
      cases s with
      | imp pad m ms =>
        rw [Stmt.text, import_first pad hwf.1 m ms hwf.2.1 hwf.2.2] at he
        cases he; simp [Stmt.needs]
      | frm pad m names =>
        rw [Stmt.text, from_first pad hwf.1 m hwf.2.1 names hwf.2.2.1 hwf.2.2.2] at he
        cases he; simp [Stmt.needs]
      | other l => rw [Stmt.text, other_none l hwf] at he; cases he
    · rintro ⟨s, hs, hn⟩
      refine ⟨s.text, List.mem_map.2 ⟨s, hs, rfl⟩, ?_⟩
      have hwf := hw s hs
      cases s with
      | imp pad m ms =>
        have := h1 pad m ms hs
        subst this
        rw [Stmt.text, import_first pad hwf.1 m [] hwf.2.1 hwf.2.2]
        simp [Stmt.needs] at hn; rw [hn]
      | frm pad m names =>
        rw [Stmt.text, from_first pad hwf.1 m hwf.2.1 names hwf.2.2.1 hwf.2.2.2]
        simp [Stmt.needs] at hn; rw [hn]
      | other l => simp [Stmt.needs] at hn
  unfold missing
  rw [List.mem_filter, (imports_iff _ n).1, key]
  simp only [exists_, Bool.not_eq_true', Bool.or_eq_false_iff]
  constructor
  · rintro ⟨⟨a, b, c⟩, d, e⟩; exact ⟨a, b, c, d, e⟩
  · rintro ⟨a, b, c, d, e⟩; exact ⟨⟨a, b, c⟩, d, e⟩

/-- C295, a disagreement: of the modules of one `import` statement only the first is looked at; whatever the others
are and whether they are installed, the check does not report them, though `horus run` installs them. -/
theorem rest_unseen (pip bin : Text → Bool) (m b : Module) (hm : m.WF) (hb : b.WF) (hne : b.head ≠ m.head) (hs : stdlib.contains b.head = false) :
    b.head ∉ missing pip bin ["import ".toList ++ listing [m, b]] ∧ b.head ∈ importsOf ("import ".toList ++ listing [m, b]) := by
  constructor
  · unfold missing
    rw [List.mem_filter, (imports_iff _ _).1]
    rintro ⟨⟨⟨l, hl, he⟩, _⟩, _⟩
    simp only [List.mem_singleton] at hl
    subst hl
    have := import_first [] (by simp) m [b] hm (by simpa using hb)
    rw [List.nil_append] at this
    rw [this] at he
    exact hne (Option.some.inj he).symm
  · have := import_exact [] [] (by simp) (by simp) [m, b] (by intro x hx; rcases List.mem_cons.1 hx with rfl | hx; exact hm; simp at hx; subst hx; exact hb) (by simp)
    rw [List.nil_append, List.append_nil] at this
    rw [this]
    simp only [List.mem_map, List.mem_filter]
    exact ⟨b, ⟨by simp, by rw [hs]; rfl⟩, rfl⟩

/-- C295, a disagreement: many modules of the standard library are not among those known, so a program that uses them
is reported to lack a package. -/
theorem library_missing (n : Text) (hn : n ∈ ["struct", "signal", "shutil", "glob", "tempfile", "csv", "hashlib", "uuid", "ctypes", "inspect", "heapq", "bisect", "select", "platform"].map String.toList) :
    n ∈ missing (fun _ => false) (fun _ => false) ["import ".toList ++ n] := by
  revert n; decide +kernel

/-- C295, a disagreement: a program among cargo's that has the package's name counts as the package. -/
theorem program_counts (pip bin : Text → Bool) (ls : List Text) (n : Text) (h : bin n = true) : n ∉ missing pip bin ls := by
  simp [missing, exists_, h]

/-- C295, a disagreement: a line of a text that begins with `import` is taken for a statement. -/
theorem prose_missing : missing (fun _ => false) (fun _ => false) ["\"\"\"".toList, "  from time to time".toList, "  import data, then train".toList, "\"\"\"".toList] = ["data".toList] := by
  decide +kernel

/-! ### Examples -/

example : missing (fun n => n == "numpy".toList) (fun _ => false)
    ["import numpy as np".toList, "import os".toList, "# import torch".toList, "from cv2.aruco import detect".toList, "import horus".toList, "import cv2".toList]
    = ["cv2".toList] := by decide +kernel

example : Stmt.WF (.imp [] ⟨"numpy".toList, [], some "np".toList⟩ []) :=
  ⟨by simp, ⟨⟨by decide, by decide +kernel⟩, by simp, by intro r hr; cases hr; exact ⟨by decide, by decide +kernel⟩⟩, by simp⟩

end Horus.CheckPy
