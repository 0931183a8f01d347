import Mathlib.Data.List.Basic
import Mathlib.Data.List.Infix
import Mathlib.Data.List.TakeWhile
import Mathlib.Tactic.Common
/-
Which files `horus run` leaves out, and which one it picks. Source: /repo/horus_manager/src/commands/run/features.rs:35-110
(IgnorePatterns, glob_match) and /repo/horus_manager/src/commands/run/mod.rs:766-891 (resolve_execution_target,
resolve_glob_pattern, auto_detect_main_file). A path is its text; the file system is what the functions are told about it.
-/
namespace Horus.Ignore

abbrev Str := List Char

/-! ### The model -/

/-- `text[pos..].find(part)` followed by `pos += found_pos + part.len()` (features.rs:92-93): what is left of the text
after the first occurrence, or nothing when there is none. -/
def afterFirst (part : Str) : Str → Option Str
  | [] => if part = [] then some [] else none
  | c :: t => if part <+: c :: t then some ((c :: t).drop part.length) else afterFirst part t

/-- `str::contains`. -/
def contains (part text : Str) : Bool := (afterFirst part text).isSome

/-- `pattern.split('*')` (features.rs:77). -/
def splitStar : Str → List Str
  | [] => [[]]
  | c :: s => if c = '*' then [] :: splitStar s else match splitStar s with
    | [] => [[c]]
    | p :: ps => (c :: p) :: ps

/-- features.rs:67-72: the part after the only `**/` of the pattern; a pattern with several is treated as one without. -/
def doubleStar (pat : Str) : Option Str :=
  match afterFirst ['*', '*', '/'] pat with
  | none => none
  | some suf => if contains ['*', '*', '/'] suf then none else some suf

/-- features.rs:82-97: the loop over the parts; `first` is `i == 0`, the text is `text[pos..]`. -/
def walk : Bool → List Str → Str → Option Str
  | _, [], rest => some rest
  | first, p :: ps, rest =>
    if p = [] then walk false ps rest
    else if first = true ∧ ¬ p <+: rest then none
    else match afterFirst p rest with
      | none => none
      | some r => walk false ps r

/-- features.rs:65-110 `glob_match`. -/
def globMatch (pat text : Str) : Bool :=
  match doubleStar pat with
  | some suf => contains suf text || decide (suf <:+ text)
  | none =>
    if '*' ∈ pat then
      match walk true (splitStar pat) text with
      | none => false
      | some r => decide (pat.getLast? = some '*') || decide (r = [])
    else decide (text = pat) || decide (pat <:+ text)

/-- features.rs:29-33 `IgnorePatterns`; packages are not used for files. -/
structure Patterns where
  files : List Str
  directories : List Str

/-- `trim_end_matches('/')` (features.rs:42). -/
def trimSlash (d : Str) : Str := (d.reverse.dropWhile (· = '/')).reverse

/-- features.rs:37-56 `should_ignore_file`. -/
def ignored (p : Patterns) (path : Str) : Bool :=
  p.directories.any (fun d => contains (trimSlash d) path) || p.files.any (fun f => globMatch f path)

/-- mod.rs:844-851: the names looked for first, in order. -/
def candidates : List Str :=
  ["main.rs".toList, "main.py".toList, "main.cpp".toList, "src/main.rs".toList, "src/main.py".toList, "src/main.cpp".toList]

/-- mod.rs:838-889 `auto_detect_main_file`. `there` is `Path::exists`, `entries` the names `read_dir(".")` gives, in its
order, and `code` says whether a name has one of the five extensions. `DirEntry::path` of an entry of `.` is `./name`. -/
def autoDetect (p : Patterns) (there : Str → Bool) (code : Str → Bool) (entries : List Str) : Option Str :=
  match candidates.find? (fun c => there c && !ignored p c) with
  | some c => some c
  | none => match entries.filter (fun e => code e && !ignored p ('.' :: '/' :: e)) with
    | [e] => some ('.' :: '/' :: e)
    | _ => none

/-- mod.rs:60ff `ExecutionTarget`. -/
inductive Target
  | file (p : Str)
  | directory (p : Str)
  | manifest (p : Str)
  | multiple (ps : List Str)

/-- mod.rs:766-796 `resolve_execution_target` with mod.rs:798-836 `resolve_glob_pattern`. `globbed` are the paths the
glob library lists for the text; `isManifest` says that the file name is `horus.toml` or `Cargo.toml`. -/
def resolve (p : Patterns) (isFile isDir isManifest code : Str → Bool) (globbed : Str → List Str) (input : Str) : Option Target :=
  if '*' ∈ input ∨ '?' ∈ input ∨ '[' ∈ input then
    match (globbed input).filter (fun f => isFile f && !ignored p f && code f) with
    | [] => none
    | [f] => some (.file f)
    | fs => some (.multiple fs)
  else if isFile input then (if isManifest input then some (.manifest input) else some (.file input))
  else if isDir input then some (.directory input)
  else none

/-! ### Specification -/

/-- What a pattern with `*` means: a star stands for any run of characters, everything else for itself. -/
inductive Glob : Str → Str → Prop
  | nil : Glob [] []
  | lit (c : Char) {p t : Str} : c ≠ '*' → Glob p t → Glob (c :: p) (c :: t)
  | star (skip : Str) {p t : Str} : Glob p t → Glob ('*' :: p) (skip ++ t)

/-! ### Occurrences -/

theorem afterFirst_some {part : Str} : ∀ {text r : Str}, afterFirst part text = some r → ∃ skip, text = skip ++ part ++ r := by
  intro text
  induction text with
  | nil =>
    intro r h
    unfold afterFirst at h
    split_ifs at h with hp
    cases h; subst hp; exact ⟨[], rfl⟩
  | cons c t ih =>
    intro r h
    unfold afterFirst at h
    split_ifs at h with hp
    · cases h
      obtain ⟨y, hy⟩ := hp
      refine ⟨[], ?_⟩
      rw [← hy, List.drop_left]; simp
    · obtain ⟨s, hs⟩ := ih h
      exact ⟨c :: s, by rw [hs]; simp⟩

/-- The first occurrence is no later than any other. -/
theorem afterFirst_of (part x y : Str) : ∃ z, afterFirst part (x ++ (part ++ y)) = some (z ++ y) := by
  induction x with
  | nil =>
    rw [List.nil_append]
    cases h : part ++ y with
    | nil =>
      obtain ⟨h1, h2⟩ := List.append_eq_nil_iff.mp h
      subst h1; subst h2
      exact ⟨[], rfl⟩
    | cons c t =>
      refine ⟨[], ?_⟩
      unfold afterFirst
      rw [if_pos (h ▸ List.prefix_append part y), ← h, List.drop_left]; rfl
  | cons c x ih =>
    rw [List.cons_append]
    unfold afterFirst
    split_ifs with hp
    · obtain ⟨w, hw⟩ := hp
      have hlen : y.length ≤ w.length := by
        have := congrArg List.length hw
        simp at this; omega
      have hsuf : y <:+ w := by
        have h1 : y <:+ part ++ w := by rw [hw]; exact ⟨c :: x ++ part, by simp⟩
        exact List.suffix_of_suffix_length_le h1 (List.suffix_append part w) hlen
      obtain ⟨z, hz⟩ := hsuf
      refine ⟨z, ?_⟩
      rw [← hw, List.drop_left, hz]
    · exact ih

theorem contains_iff (part text : Str) : contains part text = true ↔ part <:+: text := by
  unfold contains
  constructor
  · intro h
    obtain ⟨r, hr⟩ := Option.isSome_iff_exists.mp h
    obtain ⟨s, hs⟩ := afterFirst_some hr
    exact ⟨s, r, hs.symm⟩
  · rintro ⟨s, r, h⟩
    obtain ⟨z, hz⟩ := afterFirst_of part s r
    rw [← h, List.append_assoc, hz]; rfl

/-! ### Splitting at stars -/

/-- `*p1*p2…*pk`. -/
def starred (ps : List Str) : Str := ps.flatMap ('*' :: ·)

theorem splitStar_spec (pat : Str) : ∃ p ps, splitStar pat = p :: ps ∧ pat = p ++ starred ps ∧ '*' ∉ p ∧ ∀ q ∈ ps, '*' ∉ q := by
  induction pat with
  | nil => exact ⟨[], [], rfl, rfl, by simp, by simp⟩
  | cons c s ih =>
    obtain ⟨p, ps, h1, h2, h3, h4⟩ := ih
    unfold splitStar
    by_cases hc : c = '*'
    · rw [if_pos hc, h1]
      refine ⟨[], p :: ps, rfl, ?_, by simp, ?_⟩
      · rw [hc, h2]; simp [starred]
      · intro q hq
        rcases List.mem_cons.mp hq with h | h
        · rw [h]; exact h3
        · exact h4 q h
    · rw [if_neg hc, h1]
      refine ⟨c :: p, ps, rfl, ?_, ?_, h4⟩
      · rw [h2]; simp
      · simp only [List.mem_cons, not_or]
        exact ⟨fun h => hc h.symm, h3⟩

theorem Glob.lits {p q t : Str} (hp : '*' ∉ p) (h : Glob q t) : Glob (p ++ q) (p ++ t) := by
  induction p with
  | nil => exact h
  | cons c p ih =>
    rw [List.mem_cons, not_or] at hp
    exact .lit c (fun e => hp.1 e.symm) (ih hp.2)

theorem Glob.lits_inv {p q t : Str} (hp : '*' ∉ p) (h : Glob (p ++ q) t) : ∃ u, t = p ++ u ∧ Glob q u := by
  induction p generalizing t with
  | nil => exact ⟨t, rfl, h⟩
  | cons c p ih =>
    rw [List.mem_cons, not_or] at hp
    rw [List.cons_append] at h
    cases h with
    | lit _ _ h =>
      obtain ⟨u, hu, hg⟩ := ih hp.2 h
      exact ⟨u, by rw [hu]; rfl, hg⟩
    | star skip h => exact absurd rfl hp.1

theorem walk_sound : ∀ (ps : List Str) (rest r : Str), (∀ q ∈ ps, '*' ∉ q) → walk false ps rest = some r →
    ∃ m, rest = m ++ r ∧ Glob (starred ps) m := by
  intro ps
  induction ps with
  | nil =>
    intro rest r _ h
    unfold walk at h
    cases h
    exact ⟨[], rfl, .nil⟩
  | cons p ps ih =>
    intro rest r hq h
    have hq' : ∀ q ∈ ps, '*' ∉ q := fun q h => hq q (List.mem_cons_of_mem _ h)
    have hp : '*' ∉ p := hq p List.mem_cons_self
    unfold walk at h
    by_cases hnil : p = []
    · rw [if_pos hnil] at h
      obtain ⟨m, h1, h2⟩ := ih rest r hq' h
      refine ⟨m, h1, ?_⟩
      rw [hnil]
      exact Glob.star [] h2
    · rw [if_neg hnil, if_neg (by simp)] at h
      cases ha : afterFirst p rest with
      | none => rw [ha] at h; cases h
      | some r1 =>
        rw [ha] at h
        obtain ⟨m, h1, h2⟩ := ih r1 r hq' h
        obtain ⟨s, hs⟩ := afterFirst_some ha
        refine ⟨s ++ (p ++ m), ?_, ?_⟩
        · rw [hs, h1]; simp
        · exact Glob.star s (Glob.lits hp h2)

theorem walk_complete : ∀ (ps : List Str) (pre m post : Str), (∀ q ∈ ps, '*' ∉ q) → Glob (starred ps) m →
    ∃ r, walk false ps (pre ++ (m ++ post)) = some r := by
  intro ps
  induction ps with
  | nil => intro pre m post _ _; exact ⟨_, rfl⟩
  | cons p ps ih =>
    intro pre m post hq hg
    have hq' : ∀ q ∈ ps, '*' ∉ q := fun q h => hq q (List.mem_cons_of_mem _ h)
    have hp : '*' ∉ p := hq p List.mem_cons_self
    have hg' : Glob ('*' :: (p ++ starred ps)) m := hg
    obtain ⟨skip, t, hm, hg2⟩ : ∃ skip t, m = skip ++ t ∧ Glob (p ++ starred ps) t := by
      cases hg' with
      | lit _ h _ => exact absurd rfl h
      | star skip h => exact ⟨skip, _, rfl, h⟩
    obtain ⟨u, hu, hg3⟩ := Glob.lits_inv hp hg2
    unfold walk
    by_cases hnil : p = []
    · rw [if_pos hnil]
      obtain ⟨r, hr⟩ := ih (pre ++ skip) u post hq' hg3
      refine ⟨r, ?_⟩
      rw [← hr, hm, hu, hnil]; simp
    · rw [if_neg hnil, if_neg (by simp)]
      obtain ⟨z, hz⟩ := afterFirst_of p (pre ++ skip) (u ++ post)
      have e : pre ++ (m ++ post) = pre ++ skip ++ (p ++ (u ++ post)) := by rw [hm, hu]; simp
      rw [e, hz]
      obtain ⟨r, hr⟩ := ih z u post hq' hg3
      exact ⟨r, hr⟩

theorem Glob.extend {p t : Str} (h : Glob p t) (hl : p.getLast? = some '*') (r : Str) : Glob p (t ++ r) := by
  induction h with
  | nil => cases hl
  | @lit c p t hc h ih =>
    cases p with
    | nil => rw [List.getLast?_singleton] at hl; exact absurd (Option.some.inj hl) hc
    | cons d p => exact .lit c hc (ih (by rw [List.getLast?_cons_cons] at hl; exact hl))
  | @star skip p t h ih =>
    cases p with
    | nil =>
      cases h
      have := Glob.star (skip ++ r) Glob.nil
      rw [List.append_nil] at this ⊢
      exact this
    | cons d p =>
      rw [List.append_assoc]
      exact .star skip (ih (by rw [List.getLast?_cons_cons] at hl; exact hl))

theorem walk_first {p : Str} {ps : List Str} {text r : Str} (h : walk true (p :: ps) text = some r) :
    ∃ u, text = p ++ u ∧ walk false ps u = some r := by
  unfold walk at h
  by_cases hnil : p = []
  · rw [if_pos hnil] at h; exact ⟨text, by rw [hnil]; rfl, h⟩
  · rw [if_neg hnil] at h
    by_cases hp : p <+: text
    · rw [if_neg (by simp [hp])] at h
      obtain ⟨u, hu⟩ := hp
      refine ⟨u, hu.symm, ?_⟩
      cases text with
      | nil => simp at hu; exact absurd hu.1 hnil
      | cons c t =>
        unfold afterFirst at h
        rw [if_pos ⟨u, hu⟩, ← hu, List.drop_left] at h
        exact h
    · rw [if_pos ⟨rfl, hp⟩] at h; cases h

theorem walk_first_of {p : Str} {ps : List Str} {u : Str} : walk true (p :: ps) (p ++ u) = walk false ps u := by
  rw [walk]
  by_cases hnil : p = []
  · rw [if_pos hnil, hnil]; rfl
  · rw [if_neg hnil, if_neg (by simp)]
    cases p with
    | nil => exact absurd rfl hnil
    | cons c t =>
      rw [List.cons_append]
      unfold afterFirst
      rw [if_pos (show c :: t <+: c :: (t ++ u) from List.prefix_append (c :: t) u)]
      show walk false ps (((c :: t) ++ u).drop (c :: t).length) = _
      rw [List.drop_left]

/-! ### C213: what the patterns leave out -/

/-- A pattern with stars and without `**/` leaves out only what it describes. -/
theorem star_sound (pat text : Str) (hd : doubleStar pat = none) (hs : '*' ∈ pat) (h : globMatch pat text = true) : Glob pat text := by
  obtain ⟨p, ps, h1, h2, h3, h4⟩ := splitStar_spec pat
  unfold globMatch at h
  rw [hd] at h
  dsimp only at h
  rw [if_pos hs, h1] at h
  cases hw : walk true (p :: ps) text with
  | none => rw [hw] at h; cases h
  | some r =>
    rw [hw] at h
    obtain ⟨u, hu, hw'⟩ := walk_first hw
    obtain ⟨m, hm, hg⟩ := walk_sound ps u r h4 hw'
    have hg' : Glob pat (p ++ m) := by rw [h2]; exact Glob.lits h3 hg
    rw [hu, hm]
    rw [Bool.or_eq_true, decide_eq_true_eq, decide_eq_true_eq] at h
    rcases h with h | h
    · rw [← List.append_assoc]; exact hg'.extend h r
    · rw [h, List.append_nil]; exact hg'

/-- A pattern that ends in a star leaves out everything it describes. -/
theorem trailing_star_exact (pat text : Str) (hd : doubleStar pat = none) (hl : pat.getLast? = some '*') :
    globMatch pat text = true ↔ Glob pat text := by
  have hs : '*' ∈ pat := List.mem_of_getLast? hl
  refine ⟨star_sound pat text hd hs, fun hg => ?_⟩
  obtain ⟨p, ps, h1, h2, h3, h4⟩ := splitStar_spec pat
  rw [h2] at hg
  obtain ⟨u, hu, hg'⟩ := Glob.lits_inv h3 hg
  obtain ⟨r, hr⟩ := walk_complete ps [] u [] h4 hg'
  rw [List.nil_append, List.append_nil] at hr
  unfold globMatch
  rw [hd]
  dsimp only
  rw [if_pos hs, h1, hu, walk_first_of, hr, hl]
  simp

theorem splitStar_plain {b : Str} (hb : '*' ∉ b) : splitStar b = [b] := by
  induction b with
  | nil => rfl
  | cons c b ih =>
    rw [List.mem_cons, not_or] at hb
    unfold splitStar
    rw [if_neg (fun h => hb.1 h.symm), ih hb.2]

theorem splitStar_one {a b : Str} (ha : '*' ∉ a) (hb : '*' ∉ b) : splitStar (a ++ '*' :: b) = [a, b] := by
  induction a with
  | nil => rw [List.nil_append]; unfold splitStar; rw [if_pos rfl, splitStar_plain hb]
  | cons c a ih =>
    rw [List.mem_cons, not_or] at ha
    rw [List.cons_append]
    unfold splitStar
    rw [if_neg (fun h => ha.1 h.symm), ih ha.2]

/-- A pattern with one star, not at its end, leaves out exactly the paths in which the text after the star first occurs
at the very end. A path in which it also occurs earlier is described by the pattern and not left out. -/
theorem one_star_exact (a b text : Str) (ha : '*' ∉ a) (hb : '*' ∉ b) (hne : b ≠ []) (hd : doubleStar (a ++ '*' :: b) = none) :
    globMatch (a ++ '*' :: b) text = true ↔ ∃ u, text = a ++ u ∧ afterFirst b u = some [] := by
  have hs : '*' ∈ a ++ '*' :: b := by simp
  have hl : (a ++ '*' :: b).getLast? ≠ some '*' := by
    rw [List.getLast?_append]
    cases b with
    | nil => exact absurd rfl hne
    | cons c b =>
      rw [List.getLast?_cons_cons]
      intro h
      have : (c :: b).getLast? = some '*' := by
        cases h' : (c :: b).getLast? with
        | none => rw [List.getLast?_eq_none_iff] at h'; cases h'
        | some x => rw [h'] at h; exact h
      exact hb (List.mem_of_getLast? this)
  unfold globMatch
  rw [hd]
  dsimp only
  rw [if_pos hs, splitStar_one ha hb]
  have hw1 : ∀ u, walk false [b] u = afterFirst b u := by
    intro u
    unfold walk
    rw [if_neg hne, if_neg (by simp)]
    cases afterFirst b u <;> rfl
  constructor
  · intro h
    cases hw : walk true [a, b] text with
    | none => rw [hw] at h; cases h
    | some r =>
      rw [hw] at h
      obtain ⟨u, hu, hw'⟩ := walk_first hw
      rw [hw1] at hw'
      rw [Bool.or_eq_true, decide_eq_true_eq, decide_eq_true_eq] at h
      rcases h with h | h
      · exact absurd h hl
      · exact ⟨u, hu, h ▸ hw'⟩
  · rintro ⟨u, hu, h⟩
    rw [hu, walk_first_of, hw1, h]
    simp

/-- `*.py` misses a file of a folder whose name has `.py` in it. -/
theorem star_missed : Glob "*.py".toList "robot.python/main.py".toList ∧ globMatch "*.py".toList "robot.python/main.py".toList = false :=
  ⟨Glob.star "robot.python/main".toList (Glob.lits (p := ".py".toList) (q := []) (t := []) (by decide) .nil), by decide⟩

/-- A pattern with one `**/` is taken for the text after it, wherever that occurs: what stands before is forgotten, a
star after it is a plain character. -/
theorem double_star_exact (pat suf text : Str) (hd : doubleStar pat = some suf) : globMatch pat text = true ↔ suf <:+: text := by
  unfold globMatch
  rw [hd]
  dsimp only
  rw [Bool.or_eq_true, contains_iff, decide_eq_true_eq]
  exact ⟨fun h => h.elim id List.IsSuffix.isInfix, Or.inl⟩

theorem double_star_wrong :
    globMatch "**/*.log".toList "logs/debug.log".toList = false ∧
    globMatch "src/gen/**/util.py".toList "drivers/my_util.pyx".toList = true := by decide

/-- A pattern without a star leaves out every path ending in it. -/
theorem plain_exact (pat text : Str) (h : '*' ∉ pat) : globMatch pat text = true ↔ pat <:+ text := by
  have hd : doubleStar pat = none := by
    unfold doubleStar
    cases ha : afterFirst ['*', '*', '/'] pat with
    | none => rfl
    | some r =>
      obtain ⟨s, hs⟩ := afterFirst_some ha
      exact absurd (by rw [hs]; simp) h
  unfold globMatch
  rw [hd]
  dsimp only
  rw [if_neg h, Bool.or_eq_true, decide_eq_true_eq, decide_eq_true_eq]
  refine ⟨fun h => h.elim (fun e => e ▸ List.suffix_refl _) id, Or.inr⟩

theorem trimSlash_spec (d : Str) : ∃ n, d = trimSlash d ++ List.replicate n '/' := by
  refine ⟨(d.reverse.takeWhile (· = '/')).length, ?_⟩
  have h := List.takeWhile_append_dropWhile (p := (· = '/')) (l := d.reverse)
  have h' := congrArg List.reverse h
  rw [List.reverse_append, List.reverse_reverse] at h'
  unfold trimSlash
  rw [← h']
  congr 1
  · simp
  · have : ∀ l : Str, (∀ x ∈ l, x = '/') → l.reverse = List.replicate l.length '/' := by
      intro l hl
      rw [List.eq_replicate_iff]
      exact ⟨by simp, fun b hb => hl b (List.mem_reverse.mp hb)⟩
    rw [h']
    exact this _ (fun x hx => by have := List.mem_takeWhile_imp hx; simpa using this)

/-- A file under an ignored directory is left out; but so is any file whose path has that text in it at all. -/
theorem directory_exact (d path : Str) : ignored ⟨[], [d]⟩ path = true ↔ trimSlash d <:+: path := by
  unfold ignored
  simp [contains_iff]

theorem directory_inside (p : Patterns) (d pre name : Str) (hd : d ∈ p.directories) : ignored p (pre ++ d ++ '/' :: name) = true := by
  unfold ignored
  rw [Bool.or_eq_true]
  refine Or.inl (List.any_eq_true.mpr ⟨d, hd, ?_⟩)
  rw [contains_iff]
  obtain ⟨n, hn⟩ := trimSlash_spec d
  refine ⟨pre, List.replicate n '/' ++ '/' :: name, ?_⟩
  conv_rhs => rw [hn]
  simp

theorem wrongly_ignored :
    ignored ⟨[], ["test/".toList]⟩ "src/latest.py".toList = true ∧ ignored ⟨["main.py".toList], []⟩ "domain.py".toList = true ∧
    ∀ path, ignored ⟨[], ["/".toList]⟩ path = true := by
  refine ⟨by decide, by decide, fun path => ?_⟩
  unfold ignored
  rw [Bool.or_eq_true]
  refine Or.inl (List.any_eq_true.mpr ⟨"/".toList, by simp, ?_⟩)
  rw [contains_iff]
  exact List.nil_infix

/-! ### C213: what is run -/

/-- The main file is the first of the six names that is there and not left out; failing all of them, the only code file
of the folder that is not left out. -/
theorem detect_exact (p : Patterns) (there code : Str → Bool) (entries : List Str) (f : Str) :
    autoDetect p there code entries = some f ↔
      (∃ before after, candidates = before ++ f :: after ∧ there f = true ∧ ignored p f = false ∧
        ∀ c ∈ before, there c = false ∨ ignored p c = true) ∨
      ((∀ c ∈ candidates, there c = false ∨ ignored p c = true) ∧
        ∃ e, f = '.' :: '/' :: e ∧ entries.filter (fun e => code e && !ignored p ('.' :: '/' :: e)) = [e]) := by
  unfold autoDetect
  cases hf : candidates.find? (fun c => there c && !ignored p c) with
  | some c =>
    dsimp only
    have hf' := hf
    rw [List.find?_eq_some_iff_append] at hf'
    obtain ⟨hc, before, after, hsplit, hbefore⟩ := hf'
    have hc' : there c = true ∧ ignored p c = false := by simpa using hc
    constructor
    · intro h
      cases h
      refine Or.inl ⟨before, after, hsplit, hc'.1, hc'.2, fun x hx => ?_⟩
      have := hbefore x hx
      cases h1 : there x with
      | false => exact Or.inl rfl
      | true => rw [h1] at this; right; simpa using this
    · rintro (⟨b', a', hs', h1, h2, h3⟩ | ⟨h, _⟩)
      · have : candidates.find? (fun c => there c && !ignored p c) = some f := by
          rw [List.find?_eq_some_iff_append]
          refine ⟨by simp [h1, h2], b', a', hs', fun x hx => ?_⟩
          rcases h3 x hx with h | h <;> simp [h]
        rw [hf] at this
        exact this
      · have hm : c ∈ candidates := by rw [hsplit]; simp
        rcases h c hm with h | h
        · rw [h] at hc'; cases hc'.1
        · rw [h] at hc'; cases hc'.2
  | none =>
    dsimp only
    rw [List.find?_eq_none] at hf
    have hall : ∀ c ∈ candidates, there c = false ∨ ignored p c = true := by
      intro c hc
      have := hf c hc
      cases h1 : there c with
      | false => exact Or.inl rfl
      | true => rw [h1] at this; right; simpa using this
    constructor
    · intro h
      refine Or.inr ⟨hall, ?_⟩
      split at h
      · rename_i e he
        cases h
        exact ⟨e, rfl, he⟩
      · cases h
    · rintro (⟨b', a', hs', h1, h2, _⟩ | ⟨_, e, he, hfl⟩)
      · have hm : f ∈ candidates := by rw [hs']; simp
        rcases hall f hm with h | h
        · rw [h] at h1; cases h1
        · rw [h] at h2; cases h2
      · rw [hfl, he]

/-- The order in which the folder is listed does not matter. -/
theorem detect_perm (p : Patterns) (there code : Str → Bool) (es es' : List Str) (h : es.Perm es') :
    autoDetect p there code es = autoDetect p there code es' := by
  unfold autoDetect
  cases candidates.find? (fun c => there c && !ignored p c) with
  | some c => rfl
  | none =>
    dsimp only
    have hp := h.filter (fun e => code e && !ignored p ('.' :: '/' :: e))
    generalize es.filter (fun e => code e && !ignored p ('.' :: '/' :: e)) = l at hp ⊢
    generalize es'.filter (fun e => code e && !ignored p ('.' :: '/' :: e)) = l' at hp ⊢
    match l, l', hp with
    | [], [], _ => rfl
    | [a], [b], hp => have := List.singleton_perm_singleton.mp hp; rw [this]
    | _ :: _ :: _, _ :: _ :: _, _ => rfl
    | [], _ :: _, hp => exact absurd hp.length_eq (by simp)
    | _ :: _, [], hp => exact absurd hp.length_eq (by simp)
    | [_], _ :: _ :: _, hp => exact absurd hp.length_eq (by simp)
    | _ :: _ :: _, [_], hp => exact absurd hp.length_eq (by simp)

/-- A pattern that begins with the name's first character cannot leave out a file found by listing the folder: the path
tested is `./name`. -/
theorem listed_not_ignored (p : Patterns) (e : Str) (hd : p.directories = [])
    (hf : ∀ f ∈ p.files, doubleStar f = none ∧ '*' ∈ f ∧ ∃ c, f.head? = some c ∧ c ≠ '*' ∧ c ≠ '.') :
    ignored p ('.' :: '/' :: e) = false := by
  unfold ignored
  rw [hd, Bool.or_eq_false_iff]
  refine ⟨rfl, ?_⟩
  rw [List.any_eq_false]
  intro f hm h
  obtain ⟨h1, h2, c, hc, h3, h4⟩ := hf f hm
  have hg := star_sound f _ h1 h2 h
  cases f with
  | nil => cases hc
  | cons d f =>
    cases hc
    generalize ht : '.' :: '/' :: e = t at hg
    cases hg with
    | lit _ _ _ => cases ht; exact h4 rfl
    | star _ _ => exact h3 rfl

theorem ignored_file_run : ignored ⟨["test_*.py".toList], []⟩ "test_arm.py".toList = true ∧
    autoDetect ⟨["test_*.py".toList], []⟩ (fun _ => false) (fun _ => true) ["test_arm.py".toList] = some "./test_arm.py".toList := by decide

/-- A text with a glob character stands for what the library lists: the files among it, with a code extension and not
left out, in that order. -/
theorem glob_targets (p : Patterns) (isFile isDir isManifest code : Str → Bool) (globbed : Str → List Str) (input : Str)
    (hg : '*' ∈ input ∨ '?' ∈ input ∨ '[' ∈ input) (f : Str) :
    (resolve p isFile isDir isManifest code globbed input = some (.file f) ∨
      ∃ fs, resolve p isFile isDir isManifest code globbed input = some (.multiple fs) ∧ f ∈ fs) ↔
    f ∈ globbed input ∧ isFile f = true ∧ ignored p f = false ∧ code f = true := by
  have hm : f ∈ (globbed input).filter (fun f => isFile f && !ignored p f && code f) ↔
      f ∈ globbed input ∧ isFile f = true ∧ ignored p f = false ∧ code f = true := by
    rw [List.mem_filter]; simp [and_assoc]
  rw [← hm]
  unfold resolve
  rw [if_pos hg]
  generalize (globbed input).filter (fun f => isFile f && !ignored p f && code f) = l
  match l with
  | [] => simp
  | [g] => simp [eq_comm]
  | a :: b :: l => simp

/-- A file whose own name has such a character is not looked at. -/
theorem bracket_file_lost (p : Patterns) (isFile isDir isManifest code : Str → Bool) (globbed : Str → List Str) (input : Str)
    (hg : '*' ∈ input ∨ '?' ∈ input ∨ '[' ∈ input) (hl : globbed input = []) :
    resolve p isFile isDir isManifest code globbed input = none := by
  unfold resolve
  rw [if_pos hg, hl]; rfl

/-- Any other text is the file or the folder of that name; the patterns do not apply. -/
theorem named_target (p : Patterns) (isFile isDir isManifest code : Str → Bool) (globbed : Str → List Str) (input : Str)
    (hg : ¬ ('*' ∈ input ∨ '?' ∈ input ∨ '[' ∈ input)) (hf : isFile input = true) (hm : isManifest input = false) :
    resolve p isFile isDir isManifest code globbed input = some (.file input) := by
  unfold resolve
  rw [if_neg hg, if_pos hf, hm]; rfl

/-! ### The hypotheses are met -/

example : doubleStar "test_*".toList = none ∧ "test_*".toList.getLast? = some '*' ∧ globMatch "test_*".toList "test_arm.py".toList = true := by decide
example : doubleStar ("test_".toList ++ '*' :: ".py".toList) = none ∧ '*' ∉ "test_".toList ∧ ".py".toList ≠ [] ∧
    globMatch "test_*.py".toList "test_arm.py".toList = true ∧ globMatch "test_*.py".toList "test_arm.pyx.py".toList = false := by decide
example : doubleStar "**/gen".toList = some "gen".toList := by decide
example : '*' ∈ "nodes/*.py".toList ∧ '[' ∈ "arm[1].py".toList := by decide
example : autoDetect ⟨[], []⟩ (fun f => f = "main.py".toList) (fun _ => true) [] = some "main.py".toList := by decide

end Horus.Ignore
