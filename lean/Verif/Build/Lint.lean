import Mathlib.Data.List.Basic
import Mathlib.Data.List.Sort
import Mathlib.Data.String.Basic
import Mathlib.Tactic.Common
import Mathlib.Tactic.FinCases
import Verif.Util.Similar
/-
Keys of `horus.toml` that nothing reads. Source: /repo/horus_manager/src/manifest_lint.rs:41-356 and, for what the manifest
does read, /repo/horus_manager/src/manifest.rs:183-268, 276-300, 375-386, 393-450, 491-503, 546-558, 576-615, 923-951, 969-981.
The TOML library is not modelled: a table is the list of its keys, each with the keys of its value when that is a table.
-/
namespace Horus.Lint

abbrev Str := List Char

/-! ### The model -/

/-- manifest_lint.rs:44-61 `KNOWN_TOP_LEVEL`. -/
def knownTop : List Str := ["package", "workspace", "robot", "dependencies", "dev-dependencies", "sim-dependencies", "hardware", "drivers", "sim-drivers", "scripts", "ignore", "enable", "cpp", "rust", "hooks", "network"].map String.toList

/-- manifest_lint.rs:66-79 `KNOWN_PACKAGE`. -/
def knownPackage : List Str := ["name", "version", "description", "authors", "license", "edition", "repository", "package-type", "categories", "standard", "rust_edition", "type"].map String.toList

/-- manifest_lint.rs:82 `KNOWN_CPP`. -/
def knownCpp : List Str := ["compiler", "cmake_args", "toolchain"].map String.toList

/-- manifest_lint.rs:90-98 `KNOWN_RUST`. -/
def knownRust : List Str := ["edition", "features", "profile", "patch", "build-dependencies", "lints", "target"].map String.toList

/-- manifest_lint.rs:101-108 `KNOWN_HOOKS`. -/
def knownHooks : List Str := ["pre_run", "post_run", "pre_build", "post_build", "pre_test", "post_test"].map String.toList

/-- manifest_lint.rs:117-155 `KNOWN_NON_FIELDS`: the names; their texts are left out. -/
def nonFields : List Str := ["language", "languages", "build", "main", "entry", "nodes", "topics", "features", "dependencies-dev", "devDependencies"].map String.toList

/-- manifest_lint.rs:237-242: the sections that are looked into. -/
def sections : List (Str × List Str) :=
  [("package".toList, knownPackage), ("cpp".toList, knownCpp), ("rust".toList, knownRust), ("hooks".toList, knownHooks)]

/-- manifest_lint.rs:334-356 `levenshtein`: the loop of horus_core/src/utils.rs (`Similar.rows`), with rows of one entry per
character. -/
def levenshtein (a b : Str) : Nat :=
  if a = [] then b.length
  else if b = [] then a.length
  else (Similar.rows b 0 a (List.range (b.length + 1)) (List.replicate (b.length + 1) 0)).getD b.length 0

/-- manifest_lint.rs:316-320: how far a suggestion may be, by the length of the key in bytes. -/
def maxDistance (key : Str) : Nat := if Similar.blen key ≤ 3 then 1 else if Similar.blen key ≤ 7 then 2 else 3

/-- `min_by_key(|(k, d)| (*d, k.len()))`: the first of the least (manifest_lint.rs:326). -/
def firstMin : List (Str × Nat) → Option (Str × Nat)
  | [] => none
  | x :: xs => match firstMin xs with
    | none => some x
    | some y => if x.2 < y.2 ∨ x.2 = y.2 ∧ Similar.blen x.1 ≤ Similar.blen y.1 then some x else some y

/-- manifest_lint.rs:315-328 `suggest`. -/
def suggest (key : Str) (known : List Str) : Option Str :=
  (firstMin ((known.map fun k => (k, levenshtein key k)).filter fun p => decide (p.2 ≤ maxDistance key))).map Prod.fst

/-- `str::trim` (manifest_lint.rs:272, 279, 294), for the blanks of ASCII. -/
def trim (s : Str) : Str := ((s.dropWhile Char.isWhitespace).reverse.dropWhile Char.isWhitespace).reverse

/-- `trim_matches('"')`. -/
def unquote (s : Str) : Str := ((s.dropWhile (· = '"')).reverse.dropWhile (· = '"')).reverse

/-- manifest_lint.rs:276-280: the name in a section line. -/
def header (line : Str) : Str := trim (unquote (((line.dropWhile (· = '[')).reverse.dropWhile (· = ']')).reverse))

/-- manifest_lint.rs:293-294: the line, trimmed, is `key = …`. -/
def assigns (key line : Str) : Bool := decide ('=' ∈ line) && decide (unquote (trim (line.takeWhile (· ≠ '='))) = key)

/-- A line, trimmed, that begins with a bracket (manifest_lint.rs:274). -/
def opens (line : Str) : Bool := decide (line.head? = some '[')

/-- manifest_lint.rs:268-300 `locate`: `i` is the number of lines passed. -/
def scan (key : Str) (section_ : Option Str) : Bool → Nat → List Str → Nat
  | _, _, [] => 0
  | ins, i, raw :: ls =>
    if opens (trim raw) then match section_ with
      | some want => scan key section_ (decide (header (trim raw) = want)) (i + 1) ls
      | none => if trim raw = '[' :: key ++ [']'] ∨ trim raw = '[' :: '[' :: key ++ [']', ']'] then i + 1 else scan key section_ ins (i + 1) ls
    else if ins = false then scan key section_ ins (i + 1) ls
    else if assigns key (trim raw) then i + 1
    else scan key section_ ins (i + 1) ls

def locate (ls : List Str) (key : Str) (section_ : Option Str) : Nat := scan key section_ section_.isNone 0 ls

/-- manifest_lint.rs:159-168 `UnknownKey`; `explained` is that there is a text for it. -/
structure Unknown where
  path : Str
  line : Nat
  suggestion : Option Str
  explained : Bool

/-- A table: its keys, and the keys of each value that is a table. -/
abbrev Table := List (Str × Option (List Str))

/-- manifest_lint.rs:223-232. -/
def topUnknown (ls : List Str) (t : Table) : List Unknown :=
  (t.map Prod.fst).filterMap fun k => if k ∈ knownTop then none else some ⟨k, locate ls k none, suggest k knownTop, decide (k ∈ nonFields)⟩

/-- manifest_lint.rs:243-255, for one section. -/
def subUnknown (ls : List Str) (sec : Str) (known : List Str) (keys : List Str) : List Unknown :=
  keys.filterMap fun k => if k ∈ known then none else some ⟨sec ++ '.' :: k, locate ls k (some sec), suggest k known, decide (k ∈ nonFields)⟩

/-- `table.get(section).and_then(|v| v.as_table())`. -/
def subKeys (t : Table) (sec : Str) : List Str := ((t.lookup sec).join).getD []

/-- The order of the report (manifest_lint.rs:258). -/
def le (a b : Unknown) : Bool := decide (a.line < b.line ∨ a.line = b.line ∧ String.ofList a.path ≤ String.ofList b.path)

/-- manifest_lint.rs:211-260 `find_unknown_keys`, for a file that parses. -/
def find (ls : List Str) (t : Table) : List Unknown :=
  (topUnknown ls t ++ sections.flatMap fun s => subUnknown ls s.1 s.2 (subKeys t s.1)).mergeSort le

/-! ### Specification: what the manifest reads -/

/-- manifest.rs:183-268 `HorusManifest`: its fields, as serde names them. -/
def topFields : List Str := ["package", "workspace", "robot", "dependencies", "dev-dependencies", "sim-dependencies", "hardware", "drivers", "sim-drivers", "scripts", "ignore", "enable", "cpp", "rust", "hooks", "network"].map String.toList

/-- The sections that are structures with fixed fields: manifest.rs:393-450, 546-558, 576-615, 923-951, 969-981, 375-386,
491-503, 276-300. -/
def fieldsOf : List (Str × List Str) :=
  [("package".toList, ["name", "version", "description", "authors", "license", "edition", "repository", "package-type", "categories", "standard", "rust_edition", "type"].map String.toList),
   ("cpp".toList, ["compiler", "cmake_args", "toolchain"].map String.toList),
   ("rust".toList, ["edition", "features", "profile", "patch", "build-dependencies", "lints", "target"].map String.toList),
   ("hooks".toList, ["pre_run", "pre_build", "pre_test", "post_test", "post_run", "post_build"].map String.toList),
   ("ignore".toList, ["files", "directories", "packages"].map String.toList),
   ("robot".toList, ["name", "description", "simulator"].map String.toList),
   ("workspace".toList, ["members", "exclude", "dependencies"].map String.toList),
   ("network".toList, ["enabled", "import", "deny_export", "secret", "optimize", "safety"].map String.toList)]

/-! ### C214: what is reported -/

theorem mem_top (ls : List Str) (t : Table) (u : Unknown) :
    u ∈ topUnknown ls t ↔ ∃ k ∈ t.map Prod.fst, k ∉ knownTop ∧ u = ⟨k, locate ls k none, suggest k knownTop, decide (k ∈ nonFields)⟩ := by
  unfold topUnknown
  rw [List.mem_filterMap]
  constructor
  · rintro ⟨k, hk, h⟩
    by_cases hm : k ∈ knownTop
    · rw [if_pos hm] at h; cases h
    · rw [if_neg hm] at h; cases h; exact ⟨k, hk, hm, rfl⟩
  · rintro ⟨k, hk, hm, rfl⟩
    exact ⟨k, hk, by rw [if_neg hm]⟩

theorem mem_sub (ls : List Str) (sec : Str) (known keys : List Str) (u : Unknown) :
    u ∈ subUnknown ls sec known keys ↔ ∃ k ∈ keys, k ∉ known ∧ u = ⟨sec ++ '.' :: k, locate ls k (some sec), suggest k known, decide (k ∈ nonFields)⟩ := by
  unfold subUnknown
  rw [List.mem_filterMap]
  constructor
  · rintro ⟨k, hk, h⟩
    by_cases hm : k ∈ known
    · rw [if_pos hm] at h; cases h
    · rw [if_neg hm] at h; cases h; exact ⟨k, hk, hm, rfl⟩
  · rintro ⟨k, hk, hm, rfl⟩
    exact ⟨k, hk, by rw [if_neg hm]⟩

/-- The lists kept by hand are what the manifest reads, for the top level and the four sections looked into. -/
theorem lists_honest : knownTop = topFields ∧
    ∀ s ∈ sections, ∃ fs, (s.1, fs) ∈ fieldsOf ∧ ∀ k, k ∈ s.2 ↔ k ∈ fs := by
  refine ⟨rfl, ?_⟩
  intro s hs
  fin_cases hs
  · exact ⟨knownPackage, by decide, fun _ => Iff.rfl⟩
  · exact ⟨knownCpp, by decide, fun _ => Iff.rfl⟩
  · exact ⟨knownRust, by decide, fun _ => Iff.rfl⟩
  · refine ⟨["pre_run", "pre_build", "pre_test", "post_test", "post_run", "post_build"].map String.toList, by decide, fun k => ?_⟩
    exact (show knownHooks.Perm _ by decide).mem_iff

/-- Reported at the top level are exactly the keys no field has; in a section looked into, exactly the keys that section
has no field for. -/
theorem reported_exact (ls : List Str) (t : Table) (path : Str) :
    (∃ u ∈ find ls t, u.path = path) ↔
      (∃ k ∈ t.map Prod.fst, k ∉ topFields ∧ path = k) ∨
      (∃ sec known, (sec, known) ∈ sections ∧ ∃ k ∈ subKeys t sec, k ∉ known ∧ path = sec ++ '.' :: k) := by
  unfold find
  simp only [List.mem_mergeSort, List.mem_append, List.mem_flatMap, mem_top, mem_sub]
  constructor
  · rintro ⟨u, h, rfl⟩
    rcases h with ⟨k, hk, hm, rfl⟩ | ⟨s, hs, k, hk, hm, rfl⟩
    · exact Or.inl ⟨k, hk, hm, rfl⟩
    · exact Or.inr ⟨s.1, s.2, hs, k, hk, hm, rfl⟩
  · rintro (⟨k, hk, hm, rfl⟩ | ⟨sec, known, hs, k, hk, hm, rfl⟩)
    · exact ⟨_, Or.inl ⟨path, hk, hm, rfl⟩, rfl⟩
    · exact ⟨_, Or.inr ⟨(sec, known), hs, k, hk, hm, rfl⟩, rfl⟩

/-- A file in which every key is read gives no report. -/
theorem clean_silent (ls : List Str) (t : Table) (h : ∀ k ∈ t.map Prod.fst, k ∈ topFields)
    (hs : ∀ s ∈ sections, ∀ k ∈ subKeys t s.1, k ∈ s.2) : find ls t = [] := by
  cases hf : find ls t with
  | nil => rfl
  | cons u us =>
    exfalso
    rcases (reported_exact ls t u.path).mp ⟨u, by rw [hf]; exact List.mem_cons_self, rfl⟩ with ⟨k, hk, hm, _⟩ | ⟨sec, known, hsec, k, hk, hm, _⟩
    · exact hm (h k hk)
    · exact hm (hs _ hsec k hk)

/-- The report is in the order of the lines. -/
theorem report_sorted (ls : List Str) (t : Table) : (find ls t).Pairwise (fun a b => a.line ≤ b.line) := by
  have h : (find ls t).Pairwise (fun a b => le a b = true) := by
    refine List.pairwise_mergeSort ?_ ?_ _
    · intro a b c h1 h2
      unfold le at *
      rw [decide_eq_true_eq] at *
      rcases h1 with h1 | ⟨h1, h1'⟩ <;> rcases h2 with h2 | ⟨h2, h2'⟩
      · left; omega
      · left; omega
      · left; omega
      · exact Or.inr ⟨by omega, le_trans h1' h2'⟩
    · intro a b
      unfold le
      rw [Bool.or_eq_true, decide_eq_true_eq, decide_eq_true_eq]
      rcases Nat.lt_trichotomy a.line b.line with h | h | h
      · exact Or.inl (Or.inl h)
      · rcases le_total (String.ofList a.path) (String.ofList b.path) with h' | h'
        · exact Or.inl (Or.inr ⟨h, h'⟩)
        · exact Or.inr (Or.inr ⟨h.symm, h'⟩)
      · exact Or.inr (Or.inl h)
  refine h.imp ?_
  intro a b hab
  unfold le at hab
  rw [decide_eq_true_eq] at hab
  rcases hab with h | h <;> omega

/-- Four sections with fixed fields are not looked into: nothing in them is ever reported. -/
theorem sections_unchecked (ls : List Str) (t : Table) (sec k : Str)
    (hsec : sec ∈ ["ignore", "robot", "workspace", "network"].map String.toList) (hno : (sec ++ '.' :: k) ∉ t.map Prod.fst) :
    ¬ ∃ u ∈ find ls t, u.path = sec ++ '.' :: k := by
  rw [reported_exact]
  rintro (⟨k', hk, _, e⟩ | ⟨sec', known, hs, k', _, _, e⟩)
  · exact hno (e ▸ hk)
  · have dotless : ∀ (a b x y : Str), '.' ∉ a → '.' ∉ b → a ++ '.' :: x = b ++ '.' :: y → a = b := by
      intro a
      induction a with
      | nil =>
        intro b x y _ hb h
        cases b with
        | nil => rfl
        | cons c b => simp only [List.nil_append, List.cons_append, List.cons.injEq] at h; exact absurd (by rw [h.1]; exact List.mem_cons_self) hb
      | cons c a ih =>
        intro b x y ha hb h
        cases b with
        | nil => simp only [List.nil_append, List.cons_append, List.cons.injEq] at h; exact absurd (by rw [← h.1]; exact List.mem_cons_self) ha
        | cons d b =>
          simp only [List.cons_append, List.cons.injEq] at h
          rw [h.1, ih b x y (fun m => ha (List.mem_cons_of_mem _ m)) (fun m => hb (List.mem_cons_of_mem _ m)) h.2]
    have h1 : '.' ∉ sec := by
      fin_cases hsec <;> decide
    have h2 : '.' ∉ sec' ∧ sec' ∉ ["ignore", "robot", "workspace", "network"].map String.toList := by
      have : sec' ∈ sections.map Prod.fst := List.mem_map.mpr ⟨_, hs, rfl⟩
      have hall : ∀ s ∈ sections.map Prod.fst, '.' ∉ s ∧ s ∉ ["ignore", "robot", "workspace", "network"].map String.toList := by decide
      exact hall sec' this
    have := dotless _ _ _ _ h1 h2.1 e
    exact h2.2 (this ▸ hsec)

/-- So a misspelt list of ignored folders is dropped without a word. -/
theorem misspelt_ignored : "dirs".toList ∉ ["files", "directories", "packages"].map String.toList ∧
    find ["[ignore]".toList, "dirs = [\"old\"]".toList] [("ignore".toList, some ["dirs".toList])] = [] :=
  ⟨by decide, clean_silent _ _ (by decide) (by decide)⟩

/-! ### C214: the suggestion -/

theorem levenshtein_exact (a b : Str) : Similar.IsDistance (levenshtein a b) a b := by
  have h : levenshtein a b = Similar.lev a b := by
    unfold levenshtein
    by_cases h1 : a = []
    · rw [if_pos h1, h1, Similar.lev_nil_left]
    · rw [if_neg h1]
      by_cases h2 : b = []
      · rw [if_pos h2, h2, Similar.lev_nil_right]
      · rw [if_neg h2]
        have hr : List.range (b.length + 1) = Similar.entries [] [] b := by
          rw [Similar.entries_nil, List.range_eq_range']; rfl
        have := Similar.rows_entries b a [] (List.replicate (b.length + 1) 0) (by simp)
        rw [List.length_nil, ← hr] at this
        rw [this, Similar.entries_last, List.append_nil, List.append_nil, Similar.lev_reverse]
  rw [h]
  exact Similar.lev_isDistance a b

theorem firstMin_none {l : List (Str × Nat)} (h : firstMin l = none) : l = [] := by
  cases l with
  | nil => rfl
  | cons x xs =>
    unfold firstMin at h
    split at h
    · cases h
    · split_ifs at h

theorem firstMin_some : ∀ {l : List (Str × Nat)} {m : Str × Nat}, firstMin l = some m →
    m ∈ l ∧ ∀ x ∈ l, m.2 < x.2 ∨ m.2 = x.2 ∧ Similar.blen m.1 ≤ Similar.blen x.1 := by
  intro l
  induction l with
  | nil => intro m h; cases h
  | cons x xs ih =>
    intro m h
    unfold firstMin at h
    cases hf : firstMin xs with
    | none =>
      rw [hf] at h
      cases h
      rw [firstMin_none hf]
      simp
    | some y =>
      rw [hf] at h
      dsimp only at h
      obtain ⟨hy, hmin⟩ := ih hf
      by_cases hc : x.2 < y.2 ∨ x.2 = y.2 ∧ Similar.blen x.1 ≤ Similar.blen y.1
      · rw [if_pos hc] at h
        cases h
        refine ⟨List.mem_cons_self, fun z hz => ?_⟩
        rcases List.mem_cons.mp hz with hz | hz
        · rw [hz]; right; omega
        · have := hmin z hz; omega
      · rw [if_neg hc] at h
        cases h
        refine ⟨List.mem_cons_of_mem _ hy, fun z hz => ?_⟩
        rcases List.mem_cons.mp hz with hz | hz
        · rw [hz]; omega
        · exact hmin z hz

/-- "Did you mean" names a key that exists, within the permitted number of edits, and none is nearer. -/
theorem suggestion_nearest (key : Str) (known : List Str) (s : Str) (h : suggest key known = some s) :
    s ∈ known ∧ ∃ d, Similar.IsDistance d key s ∧ d ≤ maxDistance key ∧
      ∀ k ∈ known, ∀ e, Similar.IsDistance e key k → d < e ∨ d = e ∧ Similar.blen s ≤ Similar.blen k := by
  unfold suggest at h
  rw [Option.map_eq_some_iff] at h
  obtain ⟨m, hm, rfl⟩ := h
  obtain ⟨h1, h2⟩ := firstMin_some hm
  rw [List.mem_filter, List.mem_map] at h1
  obtain ⟨⟨k, hk, rfl⟩, hd⟩ := h1
  refine ⟨hk, _, levenshtein_exact key k, by simpa using hd, ?_⟩
  intro k' hk' e he
  have hee := Similar.isDistance_unique he (levenshtein_exact key k')
  by_cases hle : e ≤ maxDistance key
  · have := h2 (k', levenshtein key k') (List.mem_filter.mpr ⟨List.mem_map.mpr ⟨k', hk', rfl⟩, by rw [decide_eq_true_eq, ← hee]; exact hle⟩)
    rw [hee]; exact this
  · have : levenshtein key k ≤ maxDistance key := by simpa using hd
    left; omega

/-- There is a suggestion whenever some key is near enough. -/
theorem suggestion_found (key : Str) (known : List Str) (k : Str) (hk : k ∈ known) (d : Nat) (hd : Similar.IsDistance d key k)
    (hle : d ≤ maxDistance key) : ∃ s, suggest key known = some s := by
  unfold suggest
  cases hf : firstMin ((known.map fun k => (k, levenshtein key k)).filter fun p => decide (p.2 ≤ maxDistance key)) with
  | some m => exact ⟨_, rfl⟩
  | none =>
    have hn := firstMin_none hf
    have : (k, levenshtein key k) ∈ (known.map fun k => (k, levenshtein key k)).filter fun p => decide (p.2 ≤ maxDistance key) :=
      List.mem_filter.mpr ⟨List.mem_map.mpr ⟨k, hk, rfl⟩, by
        rw [decide_eq_true_eq, ← Similar.isDistance_unique hd (levenshtein_exact key k)]; exact hle⟩
    rw [hn] at this
    cases this

/-- How near is near enough: one edit for keys of up to three bytes, two up to seven, three for longer ones. -/
theorem suggestion_iff (key : Str) (known : List Str) :
    (∃ s, suggest key known = some s) ↔
      ∃ k ∈ known, ∃ d, Similar.IsDistance d key k ∧ (d ≤ 1 ∨ d = 2 ∧ 4 ≤ Similar.blen key ∨ d = 3 ∧ 8 ≤ Similar.blen key) := by
  have hm : ∀ d, d ≤ maxDistance key ↔ (d ≤ 1 ∨ d = 2 ∧ 4 ≤ Similar.blen key ∨ d = 3 ∧ 8 ≤ Similar.blen key) := by
    intro d
    unfold maxDistance
    by_cases h1 : Similar.blen key ≤ 3
    · rw [if_pos h1]; omega
    · by_cases h2 : Similar.blen key ≤ 7
      · rw [if_neg h1, if_pos h2]; omega
      · rw [if_neg h1, if_neg h2]; omega
  constructor
  · rintro ⟨s, h⟩
    obtain ⟨h1, d, h2, h3, -⟩ := suggestion_nearest key known s h
    exact ⟨s, h1, d, h2, (hm d).1 h3⟩
  · rintro ⟨k, hk, d, hd, h⟩
    exact suggestion_found key known k hk d hd ((hm d).2 h)

/-! ### C214: the line -/

/-- A line given is one where the key is assigned or, at the top level, that is its section line; for a key of a section,
the section's line is above with no other section line between. -/
theorem located (key : Str) (sec : Option Str) : ∀ (ls : List Str) (ins : Bool) (i n : Nat), scan key sec ins i ls = n → n ≠ 0 →
    ∃ pre raw post, ls = pre ++ raw :: post ∧ n = i + pre.length + 1 ∧
      (opens (trim raw) = false ∧ assigns key (trim raw) = true ∨
        sec = none ∧ (trim raw = '[' :: key ++ [']'] ∨ trim raw = '[' :: '[' :: key ++ [']', ']'])) ∧
      (∀ want, sec = some want →
        (ins = true ∧ ∀ l ∈ pre, opens (trim l) = false) ∨
        ∃ a h b, pre = a ++ h :: b ∧ opens (trim h) = true ∧ header (trim h) = want ∧ ∀ l ∈ b, opens (trim l) = false) := by
  intro ls
  induction ls with
  | nil => intro ins i n h hn; unfold scan at h; exact absurd h.symm hn
  | cons raw ls ih =>
    intro ins i n h hn
    unfold scan at h
    by_cases ho : opens (trim raw) = true
    · rw [if_pos ho] at h
      cases hsec : sec with
      | none =>
        rw [hsec] at h ih
        dsimp only at h
        by_cases hm : trim raw = '[' :: key ++ [']'] ∨ trim raw = '[' :: '[' :: key ++ [']', ']']
        · rw [if_pos hm] at h
          exact ⟨[], raw, ls, rfl, by simpa using h.symm, Or.inr ⟨rfl, hm⟩, fun w hw => nomatch hw⟩
        · rw [if_neg hm] at h
          obtain ⟨pre, r, post, h1, h2, h3, _⟩ := ih _ _ _ h hn
          exact ⟨raw :: pre, r, post, by rw [h1]; rfl, by rw [h2, List.length_cons]; omega, h3, fun w hw => nomatch hw⟩
      | some want =>
        rw [hsec] at h ih
        dsimp only at h
        obtain ⟨pre, r, post, h1, h2, h3, h4⟩ := ih _ _ _ h hn
        refine ⟨raw :: pre, r, post, by rw [h1]; rfl, by rw [h2, List.length_cons]; omega, h3, ?_⟩
        intro w hw
        cases hw
        rcases h4 want rfl with ⟨hi, hb⟩ | ⟨a, hh, b, e, h5, h6, h7⟩
        · rw [decide_eq_true_eq] at hi
          exact Or.inr ⟨[], raw, pre, rfl, ho, hi, hb⟩
        · exact Or.inr ⟨raw :: a, hh, b, by rw [e]; rfl, h5, h6, h7⟩
    · rw [if_neg ho] at h
      have ho' : opens (trim raw) = false := by simpa using ho
      have step : ∀ (h : scan key sec ins (i + 1) ls = n), ∃ pre r post, raw :: ls = pre ++ r :: post ∧ n = i + pre.length + 1 ∧
          (opens (trim r) = false ∧ assigns key (trim r) = true ∨
            sec = none ∧ (trim r = '[' :: key ++ [']'] ∨ trim r = '[' :: '[' :: key ++ [']', ']'])) ∧
          (∀ want, sec = some want →
            (ins = true ∧ ∀ l ∈ pre, opens (trim l) = false) ∨
            ∃ a h b, pre = a ++ h :: b ∧ opens (trim h) = true ∧ header (trim h) = want ∧ ∀ l ∈ b, opens (trim l) = false) := by
        intro h
        obtain ⟨pre, r, post, h1, h2, h3, h4⟩ := ih _ _ _ h hn
        refine ⟨raw :: pre, r, post, by rw [h1]; rfl, by rw [h2, List.length_cons]; omega, h3, ?_⟩
        intro w hw
        rcases h4 w hw with ⟨hi, hb⟩ | ⟨a, hh, b, e, h5, h6, h7⟩
        · refine Or.inl ⟨hi, fun l hl => ?_⟩
          rcases List.mem_cons.mp hl with e | hl
          · rw [e]; exact ho'
          · exact hb l hl
        · exact Or.inr ⟨raw :: a, hh, b, by rw [e]; rfl, h5, h6, h7⟩
      by_cases hi : ins = false
      · rw [if_pos hi] at h
        exact step h
      · rw [if_neg hi] at h
        by_cases ha : assigns key (trim raw) = true
        · rw [if_pos ha] at h
          exact ⟨[], raw, ls, rfl, by simpa using h.symm, Or.inl ⟨ho', ha⟩, fun w _ => Or.inl ⟨by simpa using hi, fun l hl => nomatch hl⟩⟩
        · rw [if_neg ha] at h
          exact step h

theorem line_of_section (ls : List Str) (key want : Str) (n : Nat) (h : locate ls key (some want) = n + 1) :
    ∃ a hd b raw post, ls = a ++ hd :: b ++ raw :: post ∧ n = a.length + 1 + b.length ∧
      opens (trim hd) = true ∧ header (trim hd) = want ∧ (∀ l ∈ b, opens (trim l) = false) ∧
      opens (trim raw) = false ∧ assigns key (trim raw) = true := by
  obtain ⟨pre, raw, post, h1, h2, h3, h4⟩ := located key (some want) ls _ 0 (n + 1) h (by omega)
  rcases h4 want rfl with ⟨hf, _⟩ | ⟨a, hd, b, e, h5, h6, h7⟩
  · cases hf
  · rcases h3 with h3 | ⟨hn, _⟩
    · refine ⟨a, hd, b, raw, post, by rw [h1, e], ?_, h5, h6, h7, h3.1, h3.2⟩
      rw [e, List.length_append, List.length_cons] at h2
      omega
    · cases hn

/-- A key assigned on a line of its own under its section's line is found. -/
theorem line_found (key want : Str) (hd raw : Str) (b post : List Str) (h1 : opens (trim hd) = true) (h2 : header (trim hd) = want)
    (h3 : ∀ l ∈ b, opens (trim l) = false) (h4 : opens (trim raw) = false) (h5 : assigns key (trim raw) = true) :
    ∀ (a : List Str) (ins : Bool) (i : Nat), scan key (some want) ins i (a ++ hd :: b ++ raw :: post) ≠ 0 := by
  have tail : ∀ (b : List Str) (i : Nat), (∀ l ∈ b, opens (trim l) = false) → scan key (some want) true i (b ++ raw :: post) ≠ 0 := by
    intro b
    induction b with
    | nil =>
      intro i _
      rw [List.nil_append]; unfold scan
      rw [if_neg (by rw [h4]; simp), if_neg (by simp), if_pos h5]; omega
    | cons x b ih =>
      intro i hb
      rw [List.cons_append]; unfold scan
      rw [if_neg (by rw [hb x List.mem_cons_self]; simp), if_neg (by simp)]
      split_ifs
      · omega
      · exact ih _ fun l hl => hb l (List.mem_cons_of_mem _ hl)
  intro a
  induction a with
  | nil =>
    intro ins i
    rw [List.nil_append, List.cons_append]; unfold scan
    rw [if_pos h1]
    dsimp only
    rw [h2, decide_eq_true rfl]
    exact tail b _ h3
  | cons x a ih =>
    intro ins i
    rw [List.cons_append, List.cons_append]; unfold scan
    by_cases ho : opens (trim x) = true
    · rw [if_pos ho]; exact ih _ _
    · rw [if_neg ho]
      by_cases hi : ins = false
      · rw [if_pos hi]; exact ih _ _
      · rw [if_neg hi]
        by_cases ha : assigns key (trim x) = true
        · rw [if_pos ha]; omega
        · rw [if_neg ha]; exact ih _ _

/-- The line of an unknown section is wrong when some section above it has an entry of that name. -/
theorem section_line_wrong : locate ["[dependencies]".toList, "sensors = \"1\"".toList, "".toList, "[sensors]".toList] "sensors".toList none = 2 := by
  decide

/-- A comment after the section line hides the lines of its keys. -/
theorem comment_hides_line : locate ["[package] # the robot".toList, "langauge = \"rust\"".toList] "langauge".toList (some "package".toList) = 0 := by
  decide

/-! ### The hypotheses are met -/

example : locate ["[package]".toList, "name = \"a\"".toList, "langauge = \"rust\"".toList] "langauge".toList (some "package".toList) = 3 := by decide
example : (find ["[package]".toList, "verion = \"1\"".toList] [("package".toList, some ["verion".toList])]).map Unknown.path = ["package.verion".toList] := by decide +kernel
example : suggest "verion".toList knownPackage = some "version".toList := by decide +kernel
example : "dirs".toList ∉ ["files", "directories", "packages"].map String.toList ∧ "ignore.dirs".toList ∉ ["ignore".toList] := by decide

end Horus.Lint
