import Mathlib.Tactic.Common
/-
What `horus run` installs for a program: horus_manager/src/commands/run/deps.rs (reading of imports
and of requirement texts) and horus_manager/src/commands/run/install.rs 70-190 (the shared cache).

Modelled: the text functions, line by line; the choice of the cache directory and whether it is
installed into or reused.
Simplified: white space is blank, tab, carriage return and line feed; letters and digits are the
ASCII ones. The answers of the system's package detection and the user's choices are left out, as are
pip and cargo themselves.
-/
namespace Horus.Imports

abbrev Text := List Char

/-- White space (library function). -/
def white (c : Char) : Bool := c == ' ' || c == '\t' || c == '\r' || c == '\n'

/-- `str::trim` (library function). -/
def trim (s : Text) : Text := ((s.dropWhile white).reverse.dropWhile white).reverse

/-- `str::split` on one character (library function). -/
def splitC (c : Char) : Text → List Text
  | [] => [[]]
  | x :: t => if x = c then [] :: splitC c t else match splitC c t with
    | [] => [[x]]
    | p :: ps => (x :: p) :: ps

/-- `split_whitespace().next()` (library function). -/
def word1 (s : Text) : Option Text :=
  match (s.dropWhile white).takeWhile (!white ·) with
  | [] => none
  | w => some w

/-- `split('.').next()` (library function). -/
def root (s : Text) : Text := s.takeWhile (· != '.')

/-- The text before the first occurrence of a pattern: `split(pat).next()` (library function). -/
def before (pat : Text) : Text → Text
  | [] => []
  | c :: t => if pat.isPrefixOf (c :: t) then [] else c :: before pat t

/-- `is_stdlib_package` (deps.rs 297-339). -/
def stdlib : List Text :=
  ["os", "sys", "re", "json", "time", "datetime", "math", "random", "collections", "itertools", "functools", "pathlib", "typing", "asyncio", "threading", "multiprocessing", "subprocess", "logging", "argparse", "configparser", "io", "pickle", "csv", "xml", "html", "http", "urllib", "socket", "email", "base64", "hashlib", "hmac", "secrets", "uuid", "dataclasses", "enum", "abc", "contextlib"].map String.toList

/-- The characters of a package name (deps.rs 288). -/
def nameChar (c : Char) : Bool := c.isAlphanum || c == '_' || c == '-'

/-- `keep_package` (deps.rs 281-294). -/
def keep (n : Text) : Option Text :=
  if n = [] ∨ n.head? = some '.' ∨ stdlib.contains n = true then none
  else if n.all nameChar then some n else none

def kwImport : Text := "import ".toList
def kwFrom : Text := "from ".toList
def kwMid : Text := " import ".toList

/-- One part of an `import` line (deps.rs 259-262). -/
def item (s : Text) : Option Text := (word1 s).bind fun w => keep (root w)

/-- `parse_all_python_imports` (deps.rs 246-274). Trimming a part before taking its first word
changes nothing and is left out. -/
def importsOf (line : Text) : List Text :=
  let l := trim line
  if l.head? = some '#' then []
  else if kwImport.isPrefixOf l then (splitC ',' (l.drop 7)).filterMap item
  else if kwFrom.isPrefixOf l then (keep (root (trim (before kwMid (l.drop 5))))).toList
  else []

/-- `parse_rust_import` (deps.rs 207-231); only the `use` form. -/
def rustUse (line : Text) : Option Text :=
  let l := trim line
  if "use ".toList.isPrefixOf l then
    let p := ((before "::".toList (l.drop 4)).reverse.dropWhile (· == ';')).reverse
    if "horus".toList.isPrefixOf p then some p else none
  else none

/-- `PipPackage` (deps.rs 12-15). -/
structure Pip where
  name : Text
  version : Option Text
  deriving DecidableEq, Repr

/-- `str::find` of a pattern: the text before it and the text from it on (library function). -/
def find (pat : Text) : Text → Option (Text × Text)
  | [] => if pat.isPrefixOf [] then some ([], []) else none
  | c :: t => if pat.isPrefixOf (c :: t) then some ([], c :: t) else (find pat t).map fun p => (c :: p.1, p.2)

/-- The operators in the order they are looked for (deps.rs 41). -/
def operators : List Text := [">=", "<=", "==", "~=", ">", "<", "!="].map String.toList

/-- The operator loop (deps.rs 42-54). -/
def byOperator (s : Text) : List Text → Pip
  | [] => ⟨s, none⟩
  | op :: ops => match find op s with
    | some (a, b) => ⟨trim a, some (trim b)⟩
    | none => byOperator s ops

/-- `PipPackage::from_string` (deps.rs 18-55). -/
def parsePip (s : Text) : Pip :=
  match find ['@'] (trim s) with
  | some (a, b) => ⟨trim a, if trim (b.drop 1) = [] then none else some ("==".toList ++ trim (b.drop 1))⟩
  | none => byOperator (trim s) operators

/-- `requirement_string` (deps.rs 57-62). -/
def Pip.requirement (p : Pip) : Text := p.name ++ p.version.getD []

/-- `str::replace` of a pattern of two characters by nothing (library function). -/
def remove2 (a b : Char) : Text → Text
  | x :: y :: t => if x = a ∧ y = b then remove2 a b t else x :: remove2 a b (y :: t)
  | l => l

/-- The version part of the cache directory (install.rs 71-81). -/
def versionStr (p : Pip) : Text :=
  match p.version with
  | none => "latest".toList
  | some v => ((remove2 '~' '=' (remove2 '=' '=' (remove2 '>' '=' v))).filter (· != '>')).filter (· != '<')

/-- The directory in the shared cache (install.rs 84). -/
def cacheDir (p : Pip) : Text := "pypi_".toList ++ p.name ++ '@' :: versionStr p

/-- Installing one package (install.rs 84-170): the cache maps each directory to the requirement pip
was given for it; the result is the requirement whose files are linked. -/
def install (cache : List (Text × Text)) (p : Pip) : List (Text × Text) × Text :=
  match cache.find? (·.1 == cacheDir p) with
  | some e => (cache, e.2)
  | none => ((cacheDir p, p.requirement) :: cache, p.requirement)

/-! ### Specification -/

/-- A Python identifier of ASCII characters. -/
def Ident (n : Text) : Prop := n ≠ [] ∧ ∀ c ∈ n, c.isAlphanum = true ∨ c = '_'

/-- One imported module: `head.tail…`, perhaps renamed. -/
structure Module where
  head : Text
  tail : List Text
  rename : Option Text

/-- Its text: the path with dots, and ` as ` a new name. -/
def Module.path (m : Module) : Text := m.head ++ m.tail.flatMap (fun t => '.' :: t)
def Module.text (m : Module) : Text := m.path ++ match m.rename with | some r => " as ".toList ++ r | none => []

/-- All names in it are identifiers. -/
structure Module.WF (m : Module) : Prop where
  head : Ident m.head
  tail : ∀ t ∈ m.tail, Ident t
  rename : ∀ r, m.rename = some r → Ident r

/-- The modules of an import statement, separated by a comma and a blank. -/
def listing : List Module → Text
  | [] => []
  | [m] => m.text
  | m :: ms => m.text ++ ',' :: ' ' :: listing ms

/-! ### Proofs: texts -/

theorem ident_plain {n : Text} (h : Ident n) : ∀ c ∈ n, white c = false ∧ c ≠ '.' ∧ c ≠ ',' ∧ c ≠ '#' ∧ nameChar c = true := by
  intro c hc
  have key : ∀ d : Char, d.isAlphanum = false → d ≠ '_' → c ≠ d := by
    rintro d h1 h2 rfl
    rcases h.2 c hc with e | e
    · rw [h1] at e; cases e
    · exact h2 e
  refine ⟨?_, key '.' (by decide) (by decide), key ',' (by decide) (by decide), key '#' (by decide) (by decide), ?_⟩
  · have a := key ' ' (by decide) (by decide)
    have b := key '\t' (by decide) (by decide)
    have d := key '\r' (by decide) (by decide)
    have e := key '\n' (by decide) (by decide)
    simp [white, a, b, d, e]
  · unfold nameChar
    rcases h.2 c hc with e | e
    · simp [e]
    · simp [e]

theorem drop_white (p s : Text) (hp : ∀ c ∈ p, white c = true) (hs : ∀ c, s.head? = some c → white c = false) : (p ++ s).dropWhile white = s := by
  induction p with
  | nil =>
    cases s with
    | nil => rfl
    | cons c t => rw [List.nil_append, List.dropWhile_cons, hs c rfl]; rfl
  | cons c p ih =>
    rw [List.cons_append, List.dropWhile_cons, hp c (by simp), if_pos rfl]
    exact ih fun x hx => hp x (by simp [hx])

theorem trim_pads (p s q : Text) (hp : ∀ c ∈ p, white c = true) (hq : ∀ c ∈ q, white c = true) (h1 : ∀ c, s.head? = some c → white c = false)
    (h2 : ∀ c, s.getLast? = some c → white c = false) (hne : s ≠ []) : trim (p ++ s ++ q) = s := by
  unfold trim
  have e1 : (p ++ s ++ q).dropWhile white = s ++ q := by
    rw [List.append_assoc]
    refine drop_white p (s ++ q) hp ?_
    cases s with
    | nil => exact absurd rfl hne
    | cons a t => exact fun c hc => h1 c hc
  rw [e1, List.reverse_append, drop_white q.reverse s.reverse (fun c hc => hq c (by simpa using hc)) (fun c hc => h2 c (by rwa [List.head?_reverse] at hc)), List.reverse_reverse]

theorem takeWhile_stop (p : Char → Bool) (a b : Text) (h : ∀ c ∈ a, p c = true) (hb : ∀ c, b.head? = some c → p c = false) : (a ++ b).takeWhile p = a := by
  induction a with
  | nil =>
    cases b with
    | nil => rfl
    | cons c t => rw [List.nil_append, List.takeWhile_cons, hb c rfl]; rfl
  | cons c a ih =>
    rw [List.cons_append, List.takeWhile_cons, h c (by simp), if_pos rfl, ih fun x hx => h x (by simp [hx])]

theorem word1_pad (p w r : Text) (hp : ∀ c ∈ p, white c = true) (hw : ∀ c ∈ w, white c = false) (hne : w ≠ []) (hr : ∀ c, r.head? = some c → white c = true) :
    word1 (p ++ (w ++ r)) = some w := by
  unfold word1
  rw [drop_white p (w ++ r) hp, takeWhile_stop _ w r (fun c hc => by simp [hw c hc]) (fun c hc => by simp [hr c hc])]
  · cases w with
    | nil => exact absurd rfl hne
    | cons a t => rfl
  · cases w with
    | nil => exact absurd rfl hne
    | cons a t => exact fun c hc => hw c (by cases hc; simp)

theorem splitC_free (c : Char) (s : Text) (h : c ∉ s) : splitC c s = [s] := by
  induction s with
  | nil => rfl
  | cons x t ih =>
    rw [splitC, if_neg (fun e => h (by simp [e])), ih (fun e => h (by simp [e]))]

theorem splitC_cons (c : Char) (s r : Text) (h : c ∉ s) : splitC c (s ++ c :: r) = s :: splitC c r := by
  induction s with
  | nil => rw [List.nil_append, splitC, if_pos rfl]
  | cons x t ih =>
    rw [List.cons_append, splitC, if_neg (fun e => h (by simp [e])), ih (fun e => h (by simp [e]))]

theorem keep_ident (n : Text) (h : Ident n) : keep n = if stdlib.contains n = true then none else some n := by
  unfold keep
  have h1 : n ≠ [] := h.1
  have h2 : n.head? ≠ some '.' := by
    intro e
    cases n with
    | nil => cases e
    | cons a t => cases e; exact (ident_plain h '.' (by simp)).2.1 rfl
  have h3 : n.all nameChar = true := by rw [List.all_eq_true]; exact fun c hc => (ident_plain h c hc).2.2.2.2
  by_cases hs : stdlib.contains n = true
  · rw [if_pos (.inr (.inr hs)), if_pos hs]
  · rw [if_neg (by rintro (e | e | e); exact h1 e; exact h2 e; exact hs e), if_pos h3, if_neg hs]

theorem path_chars (m : Module) (h : m.WF) : ∀ c ∈ m.path, white c = false ∧ c ≠ ',' ∧ c ≠ '#' := by
  intro c hc
  unfold Module.path at hc
  rcases List.mem_append.1 hc with hc | hc
  · have := ident_plain h.head c hc; exact ⟨this.1, this.2.2.1, this.2.2.2.1⟩
  · obtain ⟨t, ht, hc⟩ := List.mem_flatMap.1 hc
    rcases List.mem_cons.1 hc with rfl | hc
    · exact ⟨rfl, by decide, by decide⟩
    · have := ident_plain (h.tail t ht) c hc; exact ⟨this.1, this.2.2.1, this.2.2.2.1⟩

theorem root_path (m : Module) (h : m.WF) : root m.path = m.head := by
  unfold root Module.path
  refine takeWhile_stop _ _ _ (fun c hc => by simpa using (ident_plain h.head c hc).2.1) ?_
  intro c hc
  cases ht : m.tail with
  | nil => rw [ht] at hc; cases hc
  | cons a t => rw [ht] at hc; cases hc; rfl

theorem path_ne (m : Module) (h : m.WF) : m.path ≠ [] := by
  unfold Module.path
  intro e
  exact h.head.1 (List.append_eq_nil_iff.1 e).1

theorem text_no_comma (m : Module) (h : m.WF) : ',' ∉ m.text := by
  unfold Module.text
  intro hc
  rcases List.mem_append.1 hc with hc | hc
  · exact (path_chars m h ',' hc).2.1 rfl
  · cases hr : m.rename with
    | none => rw [hr] at hc; cases hc
    | some r =>
      rw [hr] at hc
      rcases List.mem_append.1 hc with hc | hc
      · exact absurd hc (by decide)
      · exact (ident_plain (h.rename r hr) ',' hc).2.2.1 rfl

/-- What one module contributes: its first name, unless it is a known standard module. -/
def wanted (m : Module) : Option Text := if stdlib.contains m.head = true then none else some m.head

theorem item_text (p : Text) (hp : ∀ c ∈ p, white c = true) (m : Module) (h : m.WF) : item (p ++ m.text) = wanted m := by
  unfold item Module.text
  rw [word1_pad p m.path _ hp (fun c hc => (path_chars m h c hc).1) (path_ne m h)]
  · rw [Option.bind_some, root_path m h, keep_ident _ h.head]; rfl
  · intro c hc
    cases hr : m.rename with
    | none => rw [hr] at hc; cases hc
    | some r => rw [hr] at hc; cases hc; rfl

theorem listing_items (ms : List Module) (hm : ∀ m ∈ ms, m.WF) (hne : ms ≠ []) (p : Text) (hp : ∀ c ∈ p, white c = true) :
    (splitC ',' (p ++ listing ms)).filterMap item = ms.filterMap wanted := by
  have hpc : ',' ∉ p := fun h => by have := hp _ h; revert this; decide
  induction ms generalizing p with
  | nil => exact absurd rfl hne
  | cons m t ih =>
    have hw := hm m (by simp)
    cases t with
    | nil =>
      have : ',' ∉ p ++ m.text := fun h => (List.mem_append.1 h).elim hpc (text_no_comma m hw)
      show (splitC ',' (p ++ m.text)).filterMap item = _
      rw [splitC_free _ _ this]
      simp only [List.filterMap_cons, item_text p hp m hw, List.filterMap_nil]
    | cons m' t' =>
      have : ',' ∉ p ++ m.text := fun h => (List.mem_append.1 h).elim hpc (text_no_comma m hw)
      have hl : p ++ listing (m :: m' :: t') = (p ++ m.text) ++ ',' :: ([' '] ++ listing (m' :: t')) := by
        show p ++ (m.text ++ ',' :: ' ' :: listing (m' :: t')) = _
        simp
      rw [hl, splitC_cons _ _ _ this]
      have hih := ih (fun x hx => hm x (by simp [hx])) (by simp) [' '] (by decide) (by decide)
      rw [List.filterMap_cons, List.filterMap_cons, item_text p hp m hw, hih]

theorem listing_ends (ms : List Module) (hm : ∀ m ∈ ms, m.WF) (hne : ms ≠ []) : listing ms ≠ [] ∧ ∀ c, (listing ms).getLast? = some c → white c = false := by
  induction ms with
  | nil => exact absurd rfl hne
  | cons m t ih =>
    have hw := hm m (by simp)
    have hlast : ∀ c, m.text.getLast? = some c → white c = false := by
      intro c hc
      unfold Module.text at hc
      cases hr : m.rename with
      | none => rw [hr] at hc; dsimp only at hc; rw [List.append_nil] at hc; exact (path_chars m hw c (List.mem_of_getLast? hc)).1
      | some r =>
        rw [hr] at hc
        dsimp only at hc
        have hi := hw.rename r hr
        rw [← List.append_assoc, List.getLast?_append] at hc
        cases hl : r.getLast? with
        | none => exact absurd (List.getLast?_eq_none_iff.1 hl) hi.1
        | some d => rw [hl] at hc; cases hc; exact (ident_plain hi c (List.mem_of_getLast? hl)).1
    have hne' : m.text ≠ [] := fun e => path_ne m hw (List.append_eq_nil_iff.1 e).1
    cases t with
    | nil => exact ⟨hne', hlast⟩
    | cons m' t' =>
      obtain ⟨h1, h2⟩ := ih (fun x hx => hm x (by simp [hx])) (by simp)
      have hl : listing (m :: m' :: t') = (m.text ++ [',', ' ']) ++ listing (m' :: t') := by
        show m.text ++ ',' :: ' ' :: listing (m' :: t') = _
        simp
      rw [hl]
      refine ⟨by simp [h1], ?_⟩
      intro c hc
      rw [List.getLast?_append] at hc
      cases hg : (listing (m' :: t')).getLast? with
      | none => exact absurd (List.getLast?_eq_none_iff.1 hg) h1
      | some d => rw [hg] at hc; cases hc; exact h2 c hg

/-! ### Imports -/

/-- **An import statement on one line, of whatever modules, dotted, renamed or several, with any
indentation, asks for the first name of each module, except the standard modules the program
knows.** -/
theorem import_exact (pad tail : Text) (hp : ∀ c ∈ pad, white c = true) (ht : ∀ c ∈ tail, white c = true) (ms : List Module) (hm : ∀ m ∈ ms, m.WF) (hne : ms ≠ []) :
    importsOf (pad ++ ("import ".toList ++ listing ms) ++ tail) = (ms.filter fun m => !stdlib.contains m.head).map (·.head) := by
  obtain ⟨h1, h2⟩ := listing_ends ms hm hne
  have htrim : trim (pad ++ (kwImport ++ listing ms) ++ tail) = kwImport ++ listing ms := by
    refine trim_pads pad _ tail hp ht ?_ ?_ (by simp [kwImport])
    · intro c hc; cases hc; rfl
    · intro c hc
      rw [List.getLast?_append] at hc
      cases hg : (listing ms).getLast? with
      | none => exact absurd (List.getLast?_eq_none_iff.1 hg) h1
      | some d => rw [hg] at hc; cases hc; exact h2 c hg
  unfold importsOf
  have htrim' : trim (pad ++ ("import ".toList ++ listing ms) ++ tail) = kwImport ++ listing ms := htrim
  dsimp only
  rw [htrim']
  have e1 : (kwImport ++ listing ms).head? ≠ some '#' := by
    show some 'i' ≠ _; decide
  have e2 : kwImport.isPrefixOf (kwImport ++ listing ms) = true := List.isPrefixOf_iff_prefix.2 (List.prefix_append _ _)
  have e3 : (kwImport ++ listing ms).drop 7 = listing ms := List.drop_left' (by decide)
  rw [if_neg e1, if_pos e2, e3]
  have := listing_items ms hm hne [] (by simp)
  rw [List.nil_append] at this
  rw [this]
  clear this e3 e2 e1 htrim' htrim h1 h2 hm hne
  induction ms with
  | nil => rfl
  | cons m t ih =>
    rw [List.filterMap_cons, List.filter_cons, ih]
    unfold wanted
    by_cases hs : stdlib.contains m.head = true
    · rw [if_pos hs, hs]; rfl
    · have : stdlib.contains m.head = false := by simpa using hs
      rw [if_neg hs, this]; rfl

theorem before_spec (pat a b : Text) (h : ∀ i, i < a.length → pat.isPrefixOf ((a ++ (pat ++ b)).drop i) = false) : before pat (a ++ (pat ++ b)) = a := by
  induction a with
  | nil =>
    have hp : pat.isPrefixOf (pat ++ b) = true := List.isPrefixOf_iff_prefix.2 (List.prefix_append _ _)
    cases hpb : pat ++ b with
    | nil => rw [List.nil_append]; rfl
    | cons c t => rw [List.nil_append, before, ← hpb, if_pos hp]
  | cons c a ih =>
    have h0 := h 0 (by simp)
    rw [List.drop_zero] at h0
    rw [List.cons_append] at h0 ⊢
    rw [before, h0]
    simp only [Bool.false_eq_true, if_false]
    rw [ih]
    intro i hi
    have := h (i + 1) (by simpa using hi)
    simpa using this

/-- **A `from` statement asks for the first name of its module, unless it is a known standard
module.** -/
theorem from_exact (pad : Text) (hp : ∀ c ∈ pad, white c = true) (m : Module) (hm : m.WF) (names : Text) (hn : ∀ c, names.getLast? = some c → white c = false) (hn0 : names ≠ []) :
    importsOf (pad ++ ("from ".toList ++ (m.path ++ (" import ".toList ++ names)))) = if stdlib.contains m.head = true then [] else [m.head] := by
  have htrim : trim (pad ++ (kwFrom ++ (m.path ++ (kwMid ++ names)))) = kwFrom ++ (m.path ++ (kwMid ++ names)) := by
    have := trim_pads pad (kwFrom ++ (m.path ++ (kwMid ++ names))) [] hp (by simp) ?_ ?_ (by simp [kwFrom])
    · simpa using this
    · intro c hc; cases hc; rfl
    · intro c hc
      have : kwFrom ++ (m.path ++ (kwMid ++ names)) = (kwFrom ++ m.path ++ kwMid) ++ names := by simp
      rw [this, List.getLast?_append] at hc
      cases hg : names.getLast? with
      | none => exact absurd (List.getLast?_eq_none_iff.1 hg) hn0
      | some d => rw [hg] at hc; cases hc; exact hn c hg
  unfold importsOf
  have htrim' : trim (pad ++ ("from ".toList ++ (m.path ++ (" import ".toList ++ names)))) = kwFrom ++ (m.path ++ (kwMid ++ names)) := htrim
  dsimp only
  rw [htrim']
  have e1 : (kwFrom ++ (m.path ++ (kwMid ++ names))).head? ≠ some '#' := by show some 'f' ≠ _; decide
  have e2 : kwImport.isPrefixOf (kwFrom ++ (m.path ++ (kwMid ++ names))) = false := rfl
  have e3 : kwFrom.isPrefixOf (kwFrom ++ (m.path ++ (kwMid ++ names))) = true := List.isPrefixOf_iff_prefix.2 (List.prefix_append _ _)
  have e4 : (kwFrom ++ (m.path ++ (kwMid ++ names))).drop 5 = m.path ++ (kwMid ++ names) := List.drop_left' (by decide)
  rw [if_neg e1, e2, if_neg (by decide), if_pos e3, e4, before_spec]
  · have ht : trim m.path = m.path := by
      have := trim_pads [] m.path [] (by simp) (by simp) (fun c hc => (path_chars m hm c (List.mem_of_head? hc)).1) (fun c hc => (path_chars m hm c (List.mem_of_getLast? hc)).1) (path_ne m hm)
      simpa using this
    rw [ht, root_path m hm, keep_ident _ hm.head]
    split <;> rfl
  · intro i hi
    rw [List.drop_append_of_le_length (by omega)]
    cases hd : m.path.drop i with
    | nil => have := congrArg List.length hd; simp at this; omega
    | cons c t =>
      have hc : c ∈ m.path := List.mem_of_mem_drop (by rw [hd]; simp)
      have hw := (path_chars m hm c hc).1
      rw [List.cons_append]
      have : ¬ (' ' = c) := by rintro rfl; revert hw; decide
      show (kwMid.isPrefixOf (c :: _)) = false
      have hk : kwMid = ' ' :: "import ".toList := rfl
      rw [hk, List.isPrefixOf]
      simp [this]

/-- Relative imports ask for nothing. -/
theorem relative_none (rest : Text) (h : ∀ c, rest.getLast? = some c → white c = false) : importsOf ("from .".toList ++ rest) = [] := by
  have htrim : trim ("from .".toList ++ rest) = "from .".toList ++ rest := by
    have := trim_pads [] ("from .".toList ++ rest) [] (by simp) (by simp) ?_ ?_ (by simp)
    · simpa using this
    · intro c hc; cases hc; rfl
    · intro c hc
      rw [List.getLast?_append] at hc
      cases hg : rest.getLast? with
      | none => rw [hg] at hc; cases hc; rfl
      | some d => rw [hg] at hc; cases hc; exact h c hg
  unfold importsOf
  rw [htrim]
  dsimp only
  have e1 : ("from .".toList ++ rest).head? ≠ some '#' := by show some 'f' ≠ _; decide
  have e2 : kwImport.isPrefixOf ("from .".toList ++ rest) = false := rfl
  have e3 : kwFrom.isPrefixOf ("from .".toList ++ rest) = true := rfl
  have e4 : ("from .".toList ++ rest).drop 5 = '.' :: rest := rfl
  rw [if_neg e1, e2, if_neg (by decide), if_pos e3, e4, before]
  have e5 : kwMid.isPrefixOf ('.' :: rest) = false := rfl
  rw [e5, if_neg (by decide)]
  have e6 : ∀ s, root (trim ('.' :: s)) = [] := by
    intro s
    unfold trim
    rw [List.dropWhile_cons, if_neg (by decide), List.reverse_cons]
    have : ∀ l : Text, ∃ l', (l ++ ['.']).dropWhile white = l' ++ ['.'] := by
      intro l
      induction l with
      | nil => exact ⟨[], rfl⟩
      | cons a l ih =>
        rw [List.cons_append, List.dropWhile_cons]
        split
        · exact ih
        · exact ⟨a :: l, rfl⟩
    obtain ⟨l', hl⟩ := this s.reverse
    rw [hl, List.reverse_append]
    rfl
  rw [e6]
  rfl

/-- **Disagreement: most of Python's own library is taken for packages to install.** The list of
standard modules has 38 names. -/
theorem library_installed : ∀ n ∈ ["struct", "copy", "queue", "signal", "shutil", "string", "tempfile", "traceback", "glob", "inspect", "warnings", "ctypes", "decimal", "heapq", "statistics", "unittest", "sqlite3", "select", "ssl", "zlib", "gzip", "platform", "operator", "types", "weakref", "importlib"],
    importsOf ("import " ++ n).toList = [n.toList] := by decide +kernel

/-- **Disagreement: so is the language's own `__future__`.** -/
theorem future_installed : importsOf "from __future__ import annotations".toList = ["__future__".toList] := by decide +kernel

/-- **Disagreement: what follows a comma in a comment is asked for as well.** -/
theorem comment_installed : importsOf "import numpy  # fast, stable".toList = ["numpy".toList, "stable".toList] := by decide +kernel

/-- **Disagreement: so are the words of a text line that begins with "import".** -/
theorem prose_installed : importsOf "    import data, then train the model".toList = ["data".toList, "then".toList] := by decide +kernel

/-- **Disagreement: two statements on one line give nothing**, nor does an import after a colon. -/
theorem second_statement_lost : importsOf "import numpy; import scipy".toList = [] ∧ importsOf "try: import numpy".toList = [] := by decide +kernel

/-- **Only crates of the framework are taken from Rust sources**: whatever the line, what is taken begins with `horus`. -/
theorem rust_only_horus (line p : Text) (h : rustUse line = some p) : "horus".toList <+: p := by
  unfold rustUse at h
  dsimp only at h
  split at h
  · split at h
    · rename_i hp
      cases h
      exact List.isPrefixOf_iff_prefix.1 hp
    · cases h
  · cases h

example : rustUse "use serde::Deserialize;".toList = none := by decide +kernel

/-- **Disagreement: a renamed crate is asked for under its whole text.** -/
theorem rename_in_name : rustUse "use horus_library as lib;".toList = some "horus_library as lib".toList ∧ rustUse "use horus_library::Twist;".toList = some "horus_library".toList := by decide +kernel

/-! ### Requirements -/

theorem find_spec (pat s a b : Text) (h : find pat s = some (a, b)) : s = a ++ b ∧ pat <+: b := by
  induction s generalizing a b with
  | nil =>
    unfold find at h
    split at h
    · next hp => cases h; exact ⟨rfl, List.isPrefixOf_iff_prefix.1 hp⟩
    · cases h
  | cons c t ih =>
    unfold find at h
    split at h
    · next hp => cases h; exact ⟨rfl, List.isPrefixOf_iff_prefix.1 hp⟩
    · obtain ⟨⟨x, y⟩, hxy, e⟩ := Option.map_eq_some_iff.1 h
      cases e
      obtain ⟨h1, h2⟩ := ih x y hxy
      exact ⟨by rw [h1]; rfl, h2⟩

theorem find_none (pat s : Text) (hp : pat ≠ []) (c : Char) (hc : c ∈ pat) (hs : c ∉ s) : find pat s = none := by
  have np : ∀ t : Text, c ∉ t → pat.isPrefixOf t = false := by
    intro t ht
    cases hq : pat.isPrefixOf t with
    | false => rfl
    | true => exact absurd ((List.isPrefixOf_iff_prefix.1 hq).subset hc) ht
  induction s with
  | nil => unfold find; rw [np [] (by simp)]; rfl
  | cons x t ih => unfold find; rw [np _ hs, if_neg (by decide), ih (fun e => hs (by simp [e]))]; rfl

theorem find_first (pat a b : Text) (x : Char) (p' : Text) (hp : pat = x :: p') (ha : x ∉ a) (hb : pat.isPrefixOf b = true) : find pat (a ++ b) = some (a, b) := by
  induction a with
  | nil =>
    cases b with
    | nil => rw [hp] at hb; cases hb
    | cons c t => rw [List.nil_append, find, if_pos hb]
  | cons c a ih =>
    have : pat.isPrefixOf (c :: (a ++ b)) = false := by
      rw [hp, List.isPrefixOf]
      have : ¬ x = c := fun e => ha (by simp [e])
      simp [this]
    rw [List.cons_append, find, this, if_neg (by decide), ih (fun e => ha (by simp [e]))]
    rfl

theorem takeWhile_all (p : Char → Bool) (s : Text) : ∀ c ∈ s.takeWhile p, p c = true := by
  induction s with
  | nil => intro c hc; cases hc
  | cons x t ih =>
    intro c hc
    rw [List.takeWhile_cons] at hc
    split at hc
    · next hx => rcases List.mem_cons.1 hc with rfl | hc; exact hx; exact ih c hc
    · cases hc

theorem find_eqeq (ver : Text) (h : '=' ∉ ver) : find ['=', '='] ('=' :: ver) = none := by
  have hn : ['=', '='].isPrefixOf ('=' :: ver) = false := by
    cases ver with
    | nil => rfl
    | cons y t =>
      have : ¬ '=' = y := fun e => h (e ▸ List.mem_cons_self)
      simp [List.isPrefixOf, this]
  rw [find, hn, if_neg (by decide), find_none ['=', '='] ver (by simp) '=' (by simp) h]
  rfl

theorem trim_parts (s : Text) : ∃ p q, s = p ++ trim s ++ q ∧ (∀ c ∈ p, white c = true) ∧ ∀ c ∈ q, white c = true := by
  refine ⟨s.takeWhile white, ((s.dropWhile white).reverse.takeWhile white).reverse, ?_, ?_, ?_⟩
  · unfold trim
    rw [List.append_assoc, ← List.reverse_append, List.takeWhile_append_dropWhile, List.reverse_reverse, List.takeWhile_append_dropWhile]
  · intro c hc; exact takeWhile_all _ _ c hc
  · intro c hc; exact takeWhile_all _ _ c (List.mem_reverse.1 hc)

/-- A text without its white space. -/
def bare (s : Text) : Text := s.filter (!white ·)

theorem bare_trim (s : Text) : bare (trim s) = bare s := by
  obtain ⟨p, q, h, hp, hq⟩ := trim_parts s
  have e : ∀ l : Text, (∀ c ∈ l, white c = true) → bare l = [] := by
    intro l hl
    unfold bare
    rw [List.filter_eq_nil_iff]
    intro c hc; simp [hl c hc]
  conv_rhs => rw [h]
  unfold bare at e ⊢
  rw [List.filter_append, List.filter_append, e p hp, e q hq, List.nil_append, List.append_nil]

theorem bare_append (a b : Text) : bare (a ++ b) = bare a ++ bare b := List.filter_append _ _

/-- **What pip is given is what was written**, but for white space, unless it has an `@`. -/
theorem requirement_same (s : Text) (h : '@' ∉ s) : bare (parsePip s).requirement = bare s := by
  have ha : '@' ∉ trim s := by
    obtain ⟨p, q, e, _, _⟩ := trim_parts s
    intro hc
    exact h (by rw [e]; simp [hc])
  unfold parsePip
  rw [find_none ['@'] (trim s) (by simp) '@' (by simp) ha]
  dsimp only
  rw [← bare_trim s]
  generalize trim s = t
  generalize operators = ops
  induction ops with
  | nil => simp [byOperator, Pip.requirement]
  | cons op ops ih =>
    unfold byOperator
    cases hf : find op t with
    | none => exact ih
    | some ab =>
      obtain ⟨a, b⟩ := ab
      dsimp only
      unfold Pip.requirement
      rw [Option.getD_some, bare_append, bare_trim, bare_trim, ← bare_append, ← (find_spec op t a b hf).1]

/-- The characters operators are made of, `@`, and white space. -/
def special (c : Char) : Bool := c == '>' || c == '<' || c == '=' || c == '~' || c == '!' || c == '@' || white c

theorem trim_id (s : Text) (h : ∀ c ∈ s, white c = false) : trim s = s := by
  by_cases hs : s = []
  · subst hs; rfl
  · have := trim_pads [] s [] (by simp) (by simp) (fun c hc => h c (List.mem_of_head? hc)) (fun c hc => h c (List.mem_of_getLast? hc)) hs
    simpa using this

theorem not_special {c : Char} (h : special c = false) : c ≠ '>' ∧ c ≠ '<' ∧ c ≠ '=' ∧ c ≠ '~' ∧ c ≠ '!' ∧ c ≠ '@' ∧ white c = false := by
  unfold special at h
  simp only [Bool.or_eq_false_iff, beq_eq_false_iff_ne, ne_eq] at h
  tauto

/-- **A name with one constraint is read as that name and that constraint.**

Missing: several constraints (`second_constraint_in_name`). -/
theorem pip_one_partial (name ver op : Text) (hop : op ∈ operators) (hn : ∀ c ∈ name, special c = false) (hv : ∀ c ∈ ver, special c = false) :
    parsePip (name ++ (op ++ ver)) = ⟨name, some (op ++ ver)⟩ := by
  have hopc : ∀ c ∈ op, c ≠ '@' ∧ white c = false := by
    have : ∀ o ∈ operators, ∀ c ∈ o, c ≠ '@' ∧ white c = false := by decide
    exact this op hop
  have hw1 : ∀ c ∈ name, white c = false := fun c hc => (not_special (hn c hc)).2.2.2.2.2.2
  have hw2 : ∀ c ∈ op ++ ver, white c = false := fun c hc => (List.mem_append.1 hc).elim (fun h => (hopc c h).2) (fun h => (not_special (hv c h)).2.2.2.2.2.2)
  have hat : '@' ∉ name ++ (op ++ ver) := by
    intro hc
    rcases List.mem_append.1 hc with h | h
    · exact (not_special (hn _ h)).2.2.2.2.2.1 rfl
    · rcases List.mem_append.1 h with h | h
      · exact (hopc _ h).1 rfl
      · exact (not_special (hv _ h)).2.2.2.2.2.1 rfl
  have ht : trim (name ++ (op ++ ver)) = name ++ (op ++ ver) := trim_id _ fun c hc => (List.mem_append.1 hc).elim (hw1 c) (hw2 c)
  unfold parsePip
  rw [ht, find_none ['@'] _ (by simp) '@' (by simp) hat]
  dsimp only
  have out : ∀ c, c ∉ op → special c = true → c ∉ name ++ (op ++ ver) := by
    intro c h1 h2 hc
    rcases List.mem_append.1 hc with h | h
    · rw [hn c h] at h2; cases h2
    · rcases List.mem_append.1 h with h | h
      · exact h1 h
      · rw [hv c h] at h2; cases h2
  have no : ∀ (pat : Text) (c : Char), c ∈ pat → c ∉ op → special c = true → find pat (name ++ (op ++ ver)) = none := by
    intro pat c h1 h2 h3
    exact find_none pat _ (by rintro rfl; cases h1) c h1 (out c h2 h3)
  have fin : ∀ (x : Char) (p' : Text), op = x :: p' → special x = true → find op (name ++ (op ++ ver)) = some (name, op ++ ver) := by
    intro x p' e hx
    exact find_first op name (op ++ ver) x p' e (fun h => by rw [hn x h] at hx; cases hx) (List.isPrefixOf_iff_prefix.2 (List.prefix_append _ _))
  have done : find op (name ++ (op ++ ver)) = some (name, op ++ ver) → ∀ ops, byOperator (name ++ (op ++ ver)) (op :: ops) = ⟨name, some (op ++ ver)⟩ := by
    intro hf ops
    unfold byOperator
    rw [hf]
    dsimp only
    rw [trim_id _ hw1, trim_id _ hw2]
  have skip : ∀ pat ops, find pat (name ++ (op ++ ver)) = none → byOperator (name ++ (op ++ ver)) (pat :: ops) = byOperator (name ++ (op ++ ver)) ops := by
    intro pat ops h
    conv_lhs => unfold byOperator
    rw [h]
  have hops : operators = [['>', '='], ['<', '='], ['=', '='], ['~', '='], ['>'], ['<'], ['!', '=']] := rfl
  rw [hops]
  rw [hops] at hop
  simp only [List.mem_cons, List.not_mem_nil, or_false] at hop
  have f := fun (x : Char) (p' : Text) (e : op = x :: p') (hx : special x = true) => done (fin x p' e hx)
  rcases hop with e | e | e | e | e | e | e
  · have := f '>' ['='] e (by decide); rw [← e]; exact this _
  · have := f '<' ['='] e (by decide)
    rw [skip _ _ (no ['>', '='] '>' (by decide) (by rw [e]; decide) (by decide)), ← e]; exact this _
  · have := f '=' ['='] e (by decide)
    rw [skip _ _ (no ['>', '='] '>' (by decide) (by rw [e]; decide) (by decide)), skip _ _ (no ['<', '='] '<' (by decide) (by rw [e]; decide) (by decide)), ← e]; exact this _
  · have := f '~' ['='] e (by decide)
    rw [skip _ _ (no ['>', '='] '>' (by decide) (by rw [e]; decide) (by decide)), skip _ _ (no ['<', '='] '<' (by decide) (by rw [e]; decide) (by decide))]
    have h2 : find ['=', '='] (name ++ (op ++ ver)) = none := by
      rw [e]
      have hne : ∀ n : Text, (∀ c ∈ n, special c = false) → ∀ r, (∀ a b, find ['=', '='] r = some (a, b) → False) → find ['=', '='] (n ++ r) = none := by
        intro n hn' r hr
        induction n with
        | nil =>
          cases hq : find ['=', '='] r with
          | none => exact hq
          | some ab => exact (hr ab.1 ab.2 hq).elim
        | cons c n ih =>
          have hc : ¬ '=' = c := fun e => by have := hn' c (by simp); rw [← e] at this; revert this; decide
          rw [List.cons_append, find, List.isPrefixOf]
          simp [hc, ih fun x hx => hn' x (by simp [hx])]
      refine hne name hn _ ?_
      intro a b hq
      have hv0 : '=' ∉ ver := fun h => by have := hv _ h; revert this; decide
      have hq' : find ['=', '='] ('~' :: '=' :: ver) = none := by
        rw [find]
        have := find_eqeq ver hv0
        rw [this]
        simp
      have hq2 : find ['=', '='] (['~', '='] ++ ver) = some (a, b) := hq
      rw [show ['~', '='] ++ ver = '~' :: '=' :: ver from rfl, hq'] at hq2
      cases hq2
    rw [skip _ _ h2, ← e]; exact this _
  · have := f '>' [] e (by decide)
    rw [skip _ _ (no ['>', '='] '=' (by decide) (by rw [e]; decide) (by decide)), skip _ _ (no ['<', '='] '<' (by decide) (by rw [e]; decide) (by decide)),
      skip _ _ (no ['=', '='] '=' (by decide) (by rw [e]; decide) (by decide)), skip _ _ (no ['~', '='] '~' (by decide) (by rw [e]; decide) (by decide)), ← e]; exact this _
  · have := f '<' [] e (by decide)
    rw [skip _ _ (no ['>', '='] '=' (by decide) (by rw [e]; decide) (by decide)), skip _ _ (no ['<', '='] '=' (by decide) (by rw [e]; decide) (by decide)),
      skip _ _ (no ['=', '='] '=' (by decide) (by rw [e]; decide) (by decide)), skip _ _ (no ['~', '='] '~' (by decide) (by rw [e]; decide) (by decide)),
      skip _ _ (no ['>'] '>' (by decide) (by rw [e]; decide) (by decide)), ← e]; exact this _
  · have := f '!' ['='] e (by decide)
    have h2 : find ['=', '='] (name ++ (op ++ ver)) = none := by
      rw [e]
      have hne : ∀ n : Text, (∀ c ∈ n, special c = false) → ∀ r, find ['=', '='] r = none → find ['=', '='] (n ++ r) = none := by
        intro n hn' r hr
        induction n with
        | nil => exact hr
        | cons c n ih =>
          have hc : ¬ '=' = c := fun e => by have := hn' c (by simp); rw [← e] at this; revert this; decide
          rw [List.cons_append, find, List.isPrefixOf]
          simp [hc, ih fun x hx => hn' x (by simp [hx])]
      refine hne name hn _ ?_
      have hv0 : '=' ∉ ver := fun h => by have := hv _ h; revert this; decide
      show find ['=', '='] ('!' :: '=' :: ver) = none
      have := find_eqeq ver hv0
      rw [find, this]
      simp
    rw [skip _ _ (no ['>', '='] '>' (by decide) (by rw [e]; decide) (by decide)), skip _ _ (no ['<', '='] '<' (by decide) (by rw [e]; decide) (by decide)), skip _ _ h2,
      skip _ _ (no ['~', '='] '~' (by decide) (by rw [e]; decide) (by decide)), skip _ _ (no ['>'] '>' (by decide) (by rw [e]; decide) (by decide)),
      skip _ _ (no ['<'] '<' (by decide) (by rw [e]; decide) (by decide)), ← e]; exact this _

/-- **Disagreement: operators are looked for in a fixed order, not from the left**, so that with two
constraints the first may end up in the name. -/
theorem second_constraint_in_name : parsePip "numpy<2,>=1".toList = ⟨"numpy<2,".toList, some ">=1".toList⟩ ∧ parsePip "numpy>=1,<2".toList = ⟨"numpy".toList, some ">=1,<2".toList⟩ := by decide +kernel

/-- **Disagreement: an address after `@` is taken for a version.** -/
theorem address_as_version : (parsePip "pkg @ https://x/pkg.whl".toList).requirement = "pkg==https://x/pkg.whl".toList := by decide +kernel

theorem remove2_free (a b : Char) (s : Text) (h : b ∉ s) : remove2 a b s = s := by
  induction s with
  | nil => rfl
  | cons x t ih =>
    cases t with
    | nil => rfl
    | cons y t =>
      rw [remove2, if_neg (fun e => h (by simp [e.2])), ih (fun e => h (by simp only [List.mem_cons] at e ⊢; exact .inr e))]

theorem filter_free (c : Char) (s : Text) (h : c ∉ s) : s.filter (· != c) = s := by
  rw [List.filter_eq_self]
  intro x hx
  have : x ≠ c := fun e => h (e ▸ hx)
  simpa using this

/-- **Disagreement: opposite requirements share one directory of the cache**: `>=`, `==`, `~=`, `>` and
`<` with the same version all do. -/
theorem cache_shared (name ver op : Text) (hop : op ∈ [">=", "==", "~=", ">", "<"].map String.toList) (hv : ∀ c ∈ ver, special c = false) :
    cacheDir ⟨name, some (op ++ ver)⟩ = "pypi_".toList ++ name ++ '@' :: ver := by
  have h1 : '=' ∉ ver := fun h => by have := hv _ h; revert this; decide
  have h2 : '>' ∉ ver := fun h => by have := hv _ h; revert this; decide
  have h3 : '<' ∉ ver := fun h => by have := hv _ h; revert this; decide
  have r : ∀ a, remove2 a '=' ver = ver := fun a => remove2_free a '=' ver h1
  have f1 := filter_free '>' ver h2
  have f2 := filter_free '<' ver h3
  have key : versionStr ⟨name, some (op ++ ver)⟩ = ver := by
    have hops : op ∈ [['>', '='], ['=', '='], ['~', '='], ['>'], ['<']] := hop
    simp only [List.mem_cons, List.not_mem_nil, or_false] at hops
    unfold versionStr
    dsimp only
    have one : ∀ (x a : Char), remove2 a '=' (x :: ver) = x :: ver ∨ '=' ∈ (x :: ver) := by
      intro x a
      by_cases h : '=' ∈ (x :: ver)
      · exact .inr h
      · exact .inl (remove2_free _ _ _ h)
    have onlyv : ∀ (x : Char), x ≠ '=' → '=' ∉ (x :: ver) := by
      intro x hx h
      rcases List.mem_cons.1 h with e | e
      · exact hx e.symm
      · exact h1 e
    have two : ∀ (x a : Char), x ≠ a → a ≠ '=' → x ≠ '=' → remove2 a '=' (x :: '=' :: ver) = x :: '=' :: ver := by
      intro x a hxa ha hx
      rw [remove2, if_neg (fun e => hxa e.1)]
      cases ver with
      | nil => rfl
      | cons y t => rw [remove2, if_neg (fun e => ha e.1.symm), remove2_free _ _ _ h1]
    have eqs : ∀ a, a ≠ '=' → remove2 a '=' ('=' :: '=' :: ver) = '=' :: '=' :: ver := by
      intro a ha
      rw [remove2, if_neg (fun e => ha e.1.symm)]
      cases ver with
      | nil => rfl
      | cons y t => rw [remove2, if_neg (fun e => ha e.1.symm), remove2_free _ _ _ h1]
    have tilde : remove2 '=' '=' ('~' :: '=' :: ver) = '~' :: '=' :: ver := by
      rw [remove2, if_neg (by decide)]
      cases ver with
      | nil => rfl
      | cons y t => rw [remove2, if_neg (fun e => h1 (by rw [e.2]; exact List.mem_cons_self)), remove2_free _ _ _ h1]
    rcases hops with e | e | e | e | e <;> subst e
    · show ((remove2 '~' '=' (remove2 '=' '=' (remove2 '>' '=' ('>' :: '=' :: ver)))).filter (· != '>')).filter (· != '<') = ver
      rw [remove2, if_pos ⟨rfl, rfl⟩, r, r, r, f1, f2]
    · show ((remove2 '~' '=' (remove2 '=' '=' (remove2 '>' '=' ('=' :: '=' :: ver)))).filter (· != '>')).filter (· != '<') = ver
      rw [eqs '>' (by decide), remove2, if_pos ⟨rfl, rfl⟩, r, r, f1, f2]
    · show ((remove2 '~' '=' (remove2 '=' '=' (remove2 '>' '=' ('~' :: '=' :: ver)))).filter (· != '>')).filter (· != '<') = ver
      rw [two '~' '>' (by decide) (by decide) (by decide), tilde, remove2, if_pos ⟨rfl, rfl⟩, r, f1, f2]
    · show ((remove2 '~' '=' (remove2 '=' '=' (remove2 '>' '=' ('>' :: ver)))).filter (· != '>')).filter (· != '<') = ver
      rw [remove2_free _ _ _ (onlyv '>' (by decide)), remove2_free _ _ _ (onlyv '>' (by decide)), remove2_free _ _ _ (onlyv '>' (by decide))]
      simp only [List.filter_cons, bne_self_eq_false, Bool.false_eq_true, if_false, f1, f2]
    · show ((remove2 '~' '=' (remove2 '=' '=' (remove2 '>' '=' ('<' :: ver)))).filter (· != '>')).filter (· != '<') = ver
      rw [remove2_free _ _ _ (onlyv '<' (by decide)), remove2_free _ _ _ (onlyv '<' (by decide)), remove2_free _ _ _ (onlyv '<' (by decide))]
      have : (('<' :: ver).filter (· != '>')) = '<' :: ver := by rw [List.filter_cons, if_pos (by decide), f1]
      rw [this, List.filter_cons, if_neg (by decide), f2]
  unfold cacheDir
  rw [key]

/-- **A package not yet in the cache is installed as required**, and the next project asking for the
same gets the same files. -/
theorem install_fresh (cache : List (Text × Text)) (p : Pip) (h : ∀ e ∈ cache, e.1 ≠ cacheDir p) :
    (install cache p).2 = p.requirement ∧ (install (install cache p).1 p).2 = p.requirement := by
  have hf : cache.find? (·.1 == cacheDir p) = none := by
    rw [List.find?_eq_none]
    intro e he
    simpa using h e he
  unfold install
  rw [hf]
  dsimp only
  refine ⟨rfl, ?_⟩
  rw [List.find?_cons_of_pos (by simp)]

/-- **Disagreement: a project gets the version it excludes.** Once one project has installed
`name>=v`, every project asking for `name<v` is given those files. -/
theorem excluded_given (cache : List (Text × Text)) (name ver : Text) (hv : ∀ c ∈ ver, special c = false)
    (h : ∀ e ∈ cache, e.1 ≠ "pypi_".toList ++ name ++ '@' :: ver) :
    (install (install cache ⟨name, some (">=".toList ++ ver)⟩).1 ⟨name, some ("<".toList ++ ver)⟩).2 = name ++ (">=".toList ++ ver) := by
  have d1 := cache_shared name ver ">=".toList (by decide) hv
  have d2 := cache_shared name ver "<".toList (by decide) hv
  have hf : cache.find? (·.1 == cacheDir ⟨name, some (">=".toList ++ ver)⟩) = none := by
    rw [List.find?_eq_none]
    intro e he
    rw [d1]
    simpa using h e he
  unfold install
  rw [hf]
  dsimp only
  rw [List.find?_cons_of_pos (by rw [d1, d2]; simp)]
  rfl

/-! ### The hypotheses are met -/

example : (⟨"numpy".toList, ["linalg".toList], some "la".toList⟩ : Module).WF := by
  refine ⟨by unfold Ident; decide, ?_, ?_⟩
  · intro t ht; simp only [List.mem_singleton] at ht; subst ht; unfold Ident; decide
  · intro r hr; cases hr; unfold Ident; decide

example : importsOf "    import numpy.linalg as la, os, scipy".toList = ["numpy".toList, "scipy".toList] := by decide +kernel
example : importsOf "from cv2.aruco import Board".toList = ["cv2".toList] := by decide +kernel
example : parsePip " flask ~= 2.3 ".toList = ⟨"flask".toList, some "~= 2.3".toList⟩ := by decide +kernel
example : (install (install [] (parsePip "numpy>=2".toList)).1 (parsePip "numpy<2".toList)).2 = "numpy>=2".toList := by decide +kernel

end Horus.Imports
