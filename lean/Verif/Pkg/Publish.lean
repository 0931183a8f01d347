import Mathlib.Tactic.Common
import Mathlib.Data.List.Infix
/-!
What `horus publish` sends.

Specification: the archive holds every file of the project that is not excluded, as it is, except that the `[patch]` sections of the
top-level `Cargo.toml` are left out; it holds no file under an excluded name, nothing named in `.horusignore`, and nothing that is named
like a secret; otherwise nothing is sent.

Source: /repo/horus_manager/src/registry/publish.rs:61-199 (`strip_cargo_patch_sections`, `should_exclude`, `load_horusignore`), 385-494.

Simplifications: a project is the list of its entries; a path is the list of its components, none empty and none holding a slash; file
contents are lists of lines; read errors, the upload itself and the manifest checks are left out.
-/
namespace Horus.Publish

abbrev Text := List Char

/-- A path below the project's directory. -/
abbrev Path := List Text

/-- `DEFAULT_EXCLUDES` (publish.rs:100-112). -/
def defaults : List Text := [".git", "target", ".horus", "node_modules", "__pycache__", ".env", ".venv", "venv", ".tox", ".mypy_cache", ".pytest_cache"].map String.toList

/-- `SECRET_PATTERNS` (publish.rs:115-126). -/
def secrets : List Text :=
  [".env", ".env.local", ".env.production", ".env.development", "signing_key", "id_rsa", "id_ed25519", "id_ecdsa", "credentials.json", ".aws"].map String.toList

/-- `Path::extension` of a file name. -/
def ext (n : Text) : Option Text :=
  match n.reverse.dropWhile (· ≠ '.') with
  | [] => none
  | _ :: b => if b = [] then none else some (n.reverse.takeWhile (· ≠ '.')).reverse

/-- One line of `.horusignore` against one component (publish.rs:152-164). -/
def ignores (p n : Text) : Bool :=
  n == p || (match p with | '*' :: '.' :: e => ext n == some e | _ => false)

/-- publish.rs:136-165. -/
def badName (ign : List Text) (n : Text) : Bool := defaults.contains n || ".env".toList.isPrefixOf n || ign.any (ignores · n)

/-- publish.rs:168-179. -/
def keyName (n : Text) : Bool := secrets.contains n || ".pem".toList.isSuffixOf n || ".key".toList.isSuffixOf n || ".p12".toList.isSuffixOf n

/-- `should_exclude` (publish.rs:129-182). `root` is the last component of the directory that was given, if it has one: it is the file name
of the directory itself. -/
def excluded (ign : List Text) (root : Option Text) (p : Path) : Bool :=
  p.any (badName ign) || (match p.getLast? with | some n => keyName n | none => match root with | some n => keyName n | none => false)

/-- `filter_entry` (publish.rs:397-401): an entry is visited if neither it nor a directory above it is excluded. -/
def visited (ign : List Text) (root : Option Text) (p : Path) : Bool := p.inits.all fun q => !excluded ign root q

/-- What is at a path. A link is given with what it leads to. -/
inductive Kind
  | file (lines : List Text)
  | dir
  | linkFile (lines : List Text)
  | linkDir
  | broken
  deriving DecidableEq, Repr

/-! ### Cargo.toml -/

/-- `trim` at the front of a line, for blanks and tabs. -/
def trimL (l : Text) : Text := l.dropWhile fun c => c = ' ' || c = '\t'

/-- A line that begins with `[` (publish.rs:81). -/
def opens (l : Text) : Bool := "[".toList.isPrefixOf (trimL l)

/-- A line that begins with `[patch` (publish.rs:81). -/
def opensPatch (l : Text) : Bool := "[patch".toList.isPrefixOf (trimL l)

/-- publish.rs:75. -/
def isPatch (l : Text) : Bool := "[patch.".toList.isPrefixOf (trimL l) || "[patch]".toList.isPrefixOf (trimL l)

/-- publish.rs:71-89. -/
def stripGo : Bool → List Text → List Text
  | _, [] => []
  | s, l :: t =>
    if isPatch l then stripGo true t
    else if s && opens l && !opensPatch l then l :: stripGo false t
    else if s then stripGo true t
    else l :: stripGo false t

/-- publish.rs:91-94: empty lines at the end go, except an only line. -/
def dropEnd (ls : List Text) : List Text :=
  match ls.reverse.dropWhile (· = []) with
  | [] => ls.take 1
  | r => r.reverse

/-- `strip_cargo_patch_sections` (publish.rs:67-97). -/
def strip (ls : List Text) : List Text := dropEnd (stripGo false ls)

/-! ### The archive -/

/-- An entry of the archive. -/
inductive Item
  | file (p : Path) (lines : List Text)
  | dir (p : Path)
  deriving DecidableEq, Repr

/-- publish.rs:402-445. -/
def pack (p : Path) : Kind → Option Item
  | .file c => some (.file p (if p = ["Cargo.toml".toList] then strip c else c))
  | .linkFile c => some (.file p (if p = ["Cargo.toml".toList] then strip c else c))
  | .dir => some (.dir p)
  | .linkDir => some (.dir p)
  | .broken => none

/-- The archive of a project (publish.rs:397-446). -/
def archive (ign : List Text) (root : Option Text) (tree : List (Path × Kind)) : List Item :=
  if excluded ign root [] then []
  else tree.filterMap fun e => if e.1 ≠ [] ∧ visited ign root e.1 then pack e.1 e.2 else none

/-- The scan after packing (publish.rs:458-476). -/
def suspicious (n : Text) : Bool := (secrets.any fun s => n == s || (s ++ ['.']).isPrefixOf n) || ".pem".toList.isSuffixOf n || ".key".toList.isSuffixOf n || ".p12".toList.isSuffixOf n

def Item.suspect : Item → Bool
  | .file p _ => match p.getLast? with | some n => suspicious n | none => false
  | .dir _ => false

/-- What is sent and what stays in the directory for temporary files (publish.rs:456-494). -/
structure Outcome where
  sent : Option (List Item)
  left : Option (List Item)
  deriving DecidableEq, Repr

/-- `publish`, from packing to sending. -/
def publish (ign : List Text) (root : Option Text) (tree : List (Path × Kind)) : Outcome :=
  let a := archive ign root tree
  if a.any Item.suspect then { sent := none, left := some a } else { sent := some a, left := none }

/-! ### Specification -/

/-- No component of the path may be packed: a default exclude, something that begins with `.env`, a secret's name, or a line of
`.horusignore` — the name itself, or `*.` and the name's extension. -/
def Clean (ign : List Text) (n : Text) : Prop :=
  n ∉ defaults ∧ ¬ ".env".toList <+: n ∧ n ∉ secrets ∧ ¬ ".pem".toList <:+ n ∧ ¬ ".key".toList <:+ n ∧ ¬ ".p12".toList <:+ n ∧
  n ∉ ign ∧ ∀ e, '*' :: '.' :: e ∈ ign → ext n ≠ some e

/-- The header a line stands under: the last line up to it that begins with `[`. -/
def under (ls : List Text) (i : Nat) : Option Text := ((ls.take (i + 1)).filter fun l => opens l).getLast?

/-- The lines that do not stand under a patch header. -/
def others (ls : List Text) : List Text := (ls.zipIdx.filter fun p => match under ls p.2 with | some h => !isPatch h | none => true).map (·.1)

/-! ### Proofs -/

theorem badName_iff (ign : List Text) (n : Text) :
    (badName ign n = false ∧ keyName n = false) ↔ Clean ign n := by
  unfold badName keyName Clean
  have hpre : ∀ a b : Text, a.isPrefixOf b = false ↔ ¬ a <+: b := fun a b => by rw [← Bool.not_eq_true, List.isPrefixOf_iff_prefix]
  have hsuf : ∀ a b : Text, a.isSuffixOf b = false ↔ ¬ a <:+ b := fun a b => by rw [← Bool.not_eq_true, List.isSuffixOf_iff_suffix]
  simp only [Bool.or_eq_false_iff, List.any_eq_false, List.contains_eq_mem, decide_eq_false_iff_not, hpre, hsuf]
  constructor
  · rintro ⟨⟨⟨h1, h2⟩, h3⟩, ⟨⟨h4, h5⟩, h6⟩, h7⟩
    refine ⟨h1, h2, h4, h5, h6, h7, ?_, ?_⟩
    · intro h
      have := h3 n h
      unfold ignores at this
      simp at this
    · intro e he hx
      have := h3 _ he
      unfold ignores at this
      simp [hx] at this
  · rintro ⟨h1, h2, h4, h5, h6, h7, h8, h9⟩
    refine ⟨⟨⟨h1, h2⟩, ?_⟩, ⟨⟨h4, h5⟩, h6⟩, h7⟩
    intro p hp hi
    unfold ignores at hi
    rw [Bool.or_eq_true] at hi
    rcases hi with hi | hi
    · exact h8 (by rw [beq_iff_eq] at hi; exact hi ▸ hp)
    · split at hi
      · rename_i e
        rw [beq_iff_eq] at hi
        exact h9 e hp hi
      · cases hi

theorem visited_iff (ign : List Text) (root : Option Text) (p : Path) (hr : excluded ign root [] = false) :
    visited ign root p = true ↔ ∀ n ∈ p, Clean ign n := by
  unfold visited
  rw [List.all_eq_true]
  simp only [List.mem_inits, Bool.not_eq_true']
  constructor
  · intro h n hn
    obtain ⟨a, b, rfl⟩ := List.append_of_mem hn
    have h1 := h (a ++ [n]) ⟨b, by simp⟩
    unfold excluded at h1
    rw [List.getLast?_concat] at h1
    simp only [Bool.or_eq_false_iff, List.any_eq_false] at h1
    exact (badName_iff ign n).1 ⟨by simpa using h1.1 n (by simp), h1.2⟩
  · intro h q hq
    obtain ⟨r, rfl⟩ := hq
    rcases List.eq_nil_or_concat' q with rfl | ⟨q', n, rfl⟩
    · exact hr
    · unfold excluded
      rw [List.getLast?_concat]
      simp only [Bool.or_eq_false_iff, List.any_eq_false]
      refine ⟨fun x hx => ?_, ?_⟩
      · have := ((badName_iff ign x).2 (h x (by simp at hx ⊢; tauto))).1
        simp [this]
      · exact ((badName_iff ign n).2 (h n (by simp))).2

theorem mem_archive (ign : List Text) (root : Option Text) (tree : List (Path × Kind)) (hr : excluded ign root [] = false) (x : Item) :
    x ∈ archive ign root tree ↔ ∃ p k, (p, k) ∈ tree ∧ p ≠ [] ∧ (∀ n ∈ p, Clean ign n) ∧ pack p k = some x := by
  unfold archive
  rw [if_neg (by simp [hr]), List.mem_filterMap]
  constructor
  · rintro ⟨⟨p, k⟩, hm, hx⟩
    split at hx
    · rename_i hc
      exact ⟨p, k, hm, hc.1, (visited_iff ign root p hr).1 hc.2, hx⟩
    · cases hx
  · rintro ⟨p, k, hm, hp, hc, hx⟩
    refine ⟨(p, k), hm, ?_⟩
    rw [if_pos ⟨hp, (visited_iff ign root p hr).2 hc⟩]
    exact hx

/-- The path of an item. -/
def Item.path : Item → Path
  | .file p _ => p
  | .dir p => p

theorem pack_path (p : Path) (k : Kind) (x : Item) (h : pack p k = some x) : x.path = p := by
  cases k <;> simp only [pack, Option.some.injEq, reduceCtorEq] at h <;> subst h <;> rfl

/-- **Nothing excluded is sent**: no part of the path of anything sent is an excluded name, matches `.horusignore`, or is named like a secret;
and no file sent is named like a secret with an ending. -/
theorem sent_clean (ign : List Text) (root : Option Text) (tree : List (Path × Kind)) (a : List Item) (h : (publish ign root tree).sent = some a) :
    ∀ x ∈ a, (∀ n ∈ x.path, Clean ign n) ∧ (∀ p c, x = .file p c → ∀ n, p.getLast? = some n → ∀ s ∈ secrets, ¬ s ++ ['.'] <+: n) := by
  unfold publish at h
  dsimp only at h
  split at h
  · cases h
  · rename_i hs
    cases h
    intro x hx
    constructor
    · by_cases hr : excluded ign root [] = false
      · obtain ⟨p, k, _, _, hc, hp⟩ := (mem_archive ign root tree hr x).1 hx
        rw [pack_path p k x hp]
        exact hc
      · unfold archive at hx
        rw [if_pos (by simpa using hr)] at hx
        cases hx
    · rintro p c rfl n hn s hs' hpre
      rw [List.any_eq_true] at hs
      refine hs ⟨_, hx, ?_⟩
      unfold Item.suspect
      dsimp only
      rw [hn]
      dsimp only
      unfold suspicious
      simp only [Bool.or_eq_true, List.any_eq_true]
      exact Or.inl (Or.inl (Or.inl ⟨s, hs', Or.inr (List.isPrefixOf_iff_prefix.2 hpre)⟩))

/-- **Every other file is sent as it is**, if anything is sent: each file of the project whose path is clean, with its contents, except that the
top-level `Cargo.toml` goes without its patch sections; and nothing is sent that is not at that path of the project.

Missing: a project directory that is itself named like a secret (`named_like_key`). -/
theorem sent_exact_partial (ign : List Text) (root : Option Text) (tree : List (Path × Kind)) (a : List Item) (h : (publish ign root tree).sent = some a)
    (hr : excluded ign root [] = false) :
    (∀ p c, (p, Kind.file c) ∈ tree → p ≠ [] → (∀ n ∈ p, Clean ign n) → p ≠ ["Cargo.toml".toList] → .file p c ∈ a) ∧
    (∀ c, (["Cargo.toml".toList], Kind.file c) ∈ tree → Clean ign "Cargo.toml".toList → .file ["Cargo.toml".toList] (strip c) ∈ a) ∧
    (∀ p c, .file p c ∈ a → ∃ c', ((p, Kind.file c') ∈ tree ∨ (p, Kind.linkFile c') ∈ tree) ∧ (c = c' ∨ p = ["Cargo.toml".toList] ∧ c = strip c')) := by
  unfold publish at h
  dsimp only at h
  split at h
  · cases h
  · cases h
    refine ⟨?_, ?_, ?_⟩
    · intro p c hm hp hc hne
      refine (mem_archive ign root tree hr _).2 ⟨p, _, hm, hp, hc, ?_⟩
      simp only [pack, if_neg hne]
    · intro c hm hc
      refine (mem_archive ign root tree hr _).2 ⟨_, _, hm, by simp, by simpa using hc, ?_⟩
      simp only [pack, if_true]
    · intro p c hm
      obtain ⟨p', k, hm', _, _, hp⟩ := (mem_archive ign root tree hr _).1 hm
      cases k with
      | file c' =>
        simp only [pack, Option.some.injEq, Item.file.injEq] at hp
        obtain ⟨rfl, rfl⟩ := hp
        refine ⟨c', Or.inl hm', ?_⟩
        split
        · rename_i h; exact Or.inr ⟨h, rfl⟩
        · exact Or.inl rfl
      | linkFile c' =>
        simp only [pack, Option.some.injEq, Item.file.injEq] at hp
        obtain ⟨rfl, rfl⟩ := hp
        refine ⟨c', Or.inr hm', ?_⟩
        split
        · rename_i h; exact Or.inr ⟨h, rfl⟩
        · exact Or.inl rfl
      | dir => simp [pack] at hp
      | linkDir => simp [pack] at hp
      | broken => simp [pack] at hp

/-- **Directories are sent too**, a linked one as an empty directory; what a link to nothing stands for is not. -/
theorem dirs_sent (ign : List Text) (root : Option Text) (tree : List (Path × Kind)) (a : List Item) (h : (publish ign root tree).sent = some a)
    (hr : excluded ign root [] = false) (p : Path) :
    .dir p ∈ a ↔ ((p, Kind.dir) ∈ tree ∨ (p, Kind.linkDir) ∈ tree) ∧ p ≠ [] ∧ ∀ n ∈ p, Clean ign n := by
  unfold publish at h
  dsimp only at h
  split at h
  · cases h
  · cases h
    rw [mem_archive ign root tree hr]
    constructor
    · rintro ⟨q, k, hm, hp, hc, hx⟩
      cases k <;> simp only [pack, Option.some.injEq, Item.dir.injEq, reduceCtorEq] at hx <;> subst hx
      · exact ⟨Or.inl hm, hp, hc⟩
      · exact ⟨Or.inr hm, hp, hc⟩
    · rintro ⟨hm | hm, hp, hc⟩
      · exact ⟨p, _, hm, hp, hc, rfl⟩
      · exact ⟨p, _, hm, hp, hc, rfl⟩

example : (publish [] none [(["data".toList], .linkDir), (["x".toList], .broken)]).sent = some [.dir ["data".toList]] := by decide +kernel

/-- Non-vacuity: sources go, secrets and ignored files do not. -/
example : (publish ["*.bin".toList] none [([], .dir), (["src".toList], .dir), (["src".toList, "a.rs".toList], .file ["x".toList]),
    (["w.bin".toList], .file []), ([".env.test".toList], .file []), (["k".toList, "id_rsa".toList], .file [])]).sent =
    some [.dir ["src".toList], .file ["src".toList, "a.rs".toList] ["x".toList]] := by decide +kernel

/-- **Disagreement: a link to a file is sent as the file it leads to**, wherever that is and whatever it is called. -/
theorem link_sent (c : List Text) : (publish [] none [(["cfg".toList], .linkFile c)]).sent = some [.file ["cfg".toList] c] := by
  have h : visited [] none ["cfg".toList] = true := by decide +kernel
  have h2 : archive [] none [(["cfg".toList], .linkFile c)] = [.file ["cfg".toList] c] := by
    unfold archive
    rw [if_neg (by decide)]
    simp only [List.filterMap_cons, List.filterMap_nil]
    rw [if_pos ⟨by simp, h⟩]
    simp only [pack]
    rw [if_neg (by decide)]
  unfold publish
  rw [h2]
  have h3 : Item.suspect (.file ["cfg".toList] c) = false := by
    show suspicious "cfg".toList = false
    decide +kernel
  simp only [List.any_cons, List.any_nil, h3, Bool.or_false, Bool.false_eq_true, if_false]

theorem ext_no_dot (n e : Text) (h : ext n = some e) : '.' ∉ e := by
  unfold ext at h
  split at h
  · cases h
  · split at h
    · cases h
    · cases h
      rw [List.mem_reverse]
      intro hm
      have := List.all_takeWhile (p := fun c : Char => decide (c ≠ '.')) (l := n.reverse)
      rw [List.all_eq_true] at this
      simpa using this _ hm

theorem ext_sub (n e : Text) (h : ext n = some e) : ∀ c ∈ e, c ∈ n := by
  unfold ext at h
  split at h
  · cases h
  · split at h
    · cases h
    · cases h
      intro c hc
      rw [List.mem_reverse] at hc
      exact List.mem_reverse.1 ((List.takeWhile_sublist _).subset hc)

/-- **Disagreement: lines of `.horusignore` with a slash do nothing** — `secrets/`, `/keys`, `data/maps` — since names hold none. -/
theorem slash_ignored (p n : Text) (hp : '/' ∈ p) (hn : '/' ∉ n) : ignores p n = false := by
  unfold ignores
  have h1 : (n == p) = false := by rw [beq_eq_false_iff_ne]; rintro rfl; exact hn hp
  rw [h1, Bool.false_or]
  split
  · rename_i e
    rw [beq_eq_false_iff_ne]
    intro h
    refine hn (ext_sub n e h _ ?_)
    simpa using hp
  · rfl

/-- **Disagreement: neither do endings with two dots** — `*.tar.gz` matches no file, except one of that very name. -/
theorem double_ending_ignored (e n : Text) (he : '.' ∈ e) (hn : n ≠ '*' :: '.' :: e) : ignores ('*' :: '.' :: e) n = false := by
  unfold ignores
  have h1 : (n == '*' :: '.' :: e) = false := by rw [beq_eq_false_iff_ne]; exact hn
  rw [h1, Bool.false_or]
  simp only [beq_eq_false_iff_ne]
  intro h
  exact ext_no_dot n e h he

/-- **Disagreement: a project whose directory, given by name, is called like a key is published empty.** -/
theorem named_like_key (tree : List (Path × Kind)) : publish [] (some "robot.key".toList) tree = { sent := some [], left := none } := by
  have : archive [] (some "robot.key".toList) tree = [] := by
    unfold archive
    rw [if_pos (by decide +kernel)]
  unfold publish
  rw [this]
  rfl

/-- **Disagreement: when the scan refuses to publish, the archive with the suspicious file is left** in the directory for temporary files. -/
theorem refused_left (ign : List Text) (root : Option Text) (tree : List (Path × Kind)) (h : (publish ign root tree).sent = none) :
    ∃ a, (publish ign root tree).left = some a ∧ ∃ x ∈ a, x.suspect = true := by
  unfold publish at h ⊢
  dsimp only at h
  split at h
  · rename_i hs
    rw [if_pos hs]
    rw [List.any_eq_true] at hs
    exact ⟨_, rfl, hs⟩
  · cases h

example : (publish [] none [(["id_rsa.old".toList], .file ["k".toList])]).sent = none := by decide +kernel

/-! #### Cargo.toml -/

/-- The state of `stripGo` after some lines: under a patch header or not. Proof device. -/
def patchState (s : Bool) (ls : List Text) : Bool := match (ls.filter fun l => opens l).getLast? with | some h => isPatch h | none => s

theorem patch_header (l : Text) (h : isPatch l = true) : opens l = true := by
  unfold opens
  unfold isPatch at h
  rw [Bool.or_eq_true] at h
  rcases h with h | h <;>
  · rw [List.isPrefixOf_iff_prefix] at h ⊢
    obtain ⟨t, ht⟩ := h
    rw [← ht]
    exact ⟨_, rfl⟩

theorem stripGo_eq (s : Bool) (ls : List Text) (hp : ∀ l ∈ ls, opensPatch l = true → isPatch l = true) :
    stripGo s ls = (ls.zipIdx.filter fun p => !patchState s (ls.take (p.2 + 1))).map (·.1) := by
  induction ls generalizing s with
  | nil => rfl
  | cons l t ih =>
    have ih' := fun s => ih s fun x hx => hp x (List.mem_cons_of_mem _ hx)
    have hl := hp l List.mem_cons_self
    have shift : ∀ s', (∀ r : List Text, patchState s (l :: r) = patchState s' r) →
        ((l :: t).zipIdx.filter fun p => !patchState s ((l :: t).take (p.2 + 1))).map (·.1) =
          (if patchState s [l] then [] else [l]) ++ stripGo s' t := by
      intro s' hs
      rw [ih' s', List.zipIdx_cons, List.filter_cons]
      have hz : (t.zipIdx (0 + 1)).filter (fun p => !patchState s ((l :: t).take (p.2 + 1))) =
          (t.zipIdx.filter fun p => !patchState s' (t.take (p.2 + 1))).map fun p => (p.1, p.2 + 1) := by
        rw [List.zipIdx_succ, List.filter_map]
        congr 1
        refine List.filter_congr fun p _ => ?_
        show (!patchState s ((l :: t).take (p.2 + 1 + 1))) = _
        rw [List.take_succ_cons, hs]
      rw [hz]
      have h0 : ((l :: t).take (0 + 1)) = [l] := rfl
      dsimp only
      rw [h0]
      cases patchState s [l] <;> simp [List.map_map, Function.comp_def]
    rw [stripGo]
    by_cases h1 : isPatch l = true
    · rw [if_pos h1, shift true]
      · have : patchState s [l] = true := by
          unfold patchState
          simp [patch_header l h1, h1]
        rw [if_pos this, List.nil_append]
      · intro r
        unfold patchState
        rw [List.filter_cons, if_pos (patch_header l h1), List.getLast?_cons]
        cases hx : (r.filter fun l => opens l).getLast? <;> simp [h1]
    · rw [if_neg h1]
      by_cases h2 : opens l = true
      · have h3 : opensPatch l = false := by
          rw [← Bool.not_eq_true]; exact fun h => h1 (hl h)
        have hst : patchState s [l] = false := by
          unfold patchState
          simp [h2, h1]
        rw [shift false]
        · rw [hst, h2, h3]
          cases s <;> rfl
        · intro r
          unfold patchState
          rw [List.filter_cons, if_pos h2, List.getLast?_cons]
          cases hx : (r.filter fun l => opens l).getLast? <;> simp [h1]
      · have hst : patchState s [l] = s := by
          unfold patchState
          simp [h2]
        rw [shift s]
        · rw [hst]
          have h2' : opens l = false := by simpa using h2
          cases s
          · rw [if_neg (by simp), if_neg (by simp), if_neg (by simp)]; rfl
          · rw [if_neg (by rw [h2']; simp), if_pos rfl, if_pos rfl]; rfl
        · intro r
          unfold patchState
          rw [List.filter_cons, if_neg h2]

theorem dropEnd_prefix (ls : List Text) : dropEnd ls <+: ls := by
  unfold dropEnd
  split
  · exact List.take_prefix _ _
  · rename_i r hr
    have h1 : ls.reverse.dropWhile (fun x => decide (x = [])) <:+ ls.reverse := List.dropWhile_suffix _
    have := List.reverse_prefix.2 h1
    rw [List.reverse_reverse] at this
    exact this

theorem dropEnd_rest (ls : List Text) : ∀ l ∈ ls.drop (dropEnd ls).length, l = [] := by
  have hall : ∀ l ∈ ls.reverse.takeWhile (fun x => decide (x = [])), l = [] := by
    have := List.all_takeWhile (p := fun x : Text => decide (x = [])) (l := ls.reverse)
    rw [List.all_eq_true] at this
    intro l hl
    simpa using this l hl
  have hsplit := List.takeWhile_append_dropWhile (p := fun x : Text => decide (x = [])) (l := ls.reverse)
  unfold dropEnd
  split
  · rename_i h
    rw [h, List.append_nil] at hsplit
    intro l hl
    exact hall l (by rw [hsplit]; exact List.mem_reverse.2 (List.mem_of_mem_drop hl))
  · rename_i r hr
    have h2 : ls = (ls.reverse.dropWhile fun x => decide (x = [])).reverse ++ (ls.reverse.takeWhile fun x => decide (x = [])).reverse := by
      rw [← List.reverse_append, hsplit, List.reverse_reverse]
    intro l hl
    have h3 : ls.drop ((ls.reverse.dropWhile fun x => decide (x = [])).reverse).length = (ls.reverse.takeWhile fun x => decide (x = [])).reverse := by
      conv_lhs => arg 2; rw [h2]
      rw [List.drop_left]
    rw [h3] at hl
    exact hall l (List.mem_reverse.1 hl)

/-- **`Cargo.toml` is sent without its patch sections and otherwise line by line as it is**, but for empty lines at its end.

Missing: files with a header that begins with `[patch` and is none (`patchwork_dropped`), and patch headers written otherwise
(`spaced_patch_kept`). -/
theorem strip_exact_partial (ls : List Text) (hp : ∀ l ∈ ls, opensPatch l = true → isPatch l = true) :
    ∃ blank, others ls = strip ls ++ blank ∧ ∀ l ∈ blank, l = [] := by
  have h : stripGo false ls = others ls := by
    rw [stripGo_eq false ls hp]
    unfold others under patchState
    congr 1
    refine List.filter_congr fun p _ => ?_
    cases ((ls.take (p.2 + 1)).filter fun l => opens l).getLast? <;> rfl
  refine ⟨(others ls).drop (strip ls).length, ?_, ?_⟩
  · have := dropEnd_prefix (stripGo false ls)
    rw [h] at this
    unfold strip
    rw [h]
    obtain ⟨t, ht⟩ := this
    conv_lhs => rw [← ht]
    congr 1
    conv_rhs => arg 2; rw [← ht]
    rw [List.drop_left]
  · unfold strip
    rw [h]
    exact dropEnd_rest _

/-- **No patch header is sent**, in the way they are usually written. -/
theorem no_patch_header (ls : List Text) : ∀ l ∈ strip ls, isPatch l = false := by
  have key : ∀ (s : Bool) (ls : List Text), ∀ l ∈ stripGo s ls, isPatch l = false := by
    intro s ls
    induction ls generalizing s with
    | nil => intro l hl; cases hl
    | cons x t ih =>
      intro l hl
      rw [stripGo] at hl
      split at hl
      · exact ih _ l hl
      · rename_i hx
        split at hl
        · rcases List.mem_cons.1 hl with rfl | hl
          · simpa using hx
          · exact ih _ l hl
        · split at hl
          · exact ih _ l hl
          · rcases List.mem_cons.1 hl with rfl | hl
            · simpa using hx
            · exact ih _ l hl
  intro l hl
  exact key _ _ l ((dropEnd_prefix _).subset hl)

example : strip (["[package]", "name = \"a\"", "[patch.crates-io]", "b = { path = \"../b\" }", "[features]", "x = []"].map String.toList) =
    ["[package]", "name = \"a\"", "[features]", "x = []"].map String.toList := by decide +kernel

/-- **Disagreement: a patch section whose header is written with a blank, as TOML allows, is sent.** -/
theorem spaced_patch_kept : strip (["[ patch.crates-io ]", "b = { path = \"../b\" }"].map String.toList) = ["[ patch.crates-io ]", "b = { path = \"../b\" }"].map String.toList := by
  decide +kernel

/-- A section whose name only begins with `patch` is dropped if it follows a patch section, and kept elsewhere. -/
theorem patchwork_dropped : strip (["[patch.crates-io]", "[patches]", "x = 1"].map String.toList) = [] ∧
    strip (["[patches]", "x = 1"].map String.toList) = ["[patches]", "x = 1"].map String.toList := by
  constructor <;> decide +kernel

end Horus.Publish
