/-
Unpacking a downloaded package into a temporary directory.

Modelled source: horus_manager/src/registry/install.rs (727-791 and, the same
code again, 1126-1194).
-/
import Mathlib.Tactic.Common

namespace Horus.Pkg.Extract

/-! ### Model -/

/-- A path component other than the leading root.  Models
`std::path::Component` on Unix; names are numbers. -/
inductive Comp where
  | cur
  | up
  | name (n : Nat)
  deriving DecidableEq

/-- A path as written: whether it begins at the root, and its components.
Models `std::path::Path`. -/
structure Path where
  abs : Bool
  comps : List Comp
  deriving DecidableEq

/-- What a name refers to.  A symbolic link holds its target as written. -/
inductive Node where
  | dir
  | file (c : Nat)
  | link (t : Path)
  deriving DecidableEq

/-- A file system: what is at each absolute path, given as the list of names
from the root. -/
abbrev Fs := List Nat → Option Node

/-- Follow a path from directory `d`, through symbolic links, to a directory.
`none` when a component is missing or is not a directory, or after too many
steps (the kernel's limit on links).

Models path resolution by the operating system. -/
def walk (fs : Fs) : Nat → List Nat → List Comp → Option (List Nat)
  | _, d, [] => some d
  | 0, _, _ :: _ => none
  | k + 1, d, .cur :: cs => walk fs k d cs
  | k + 1, d, .up :: cs => walk fs k d.dropLast cs
  | k + 1, d, .name n :: cs => match fs (d ++ [n]) with
    | some .dir => walk fs k (d ++ [n]) cs
    | some (.link t) => walk fs k (if t.abs then [] else d) (t.comps ++ cs)
    | _ => none

/-- What an archive entry is.  A link entry may lack its target.  Hard links
carry the contents they would refer to.  `other` is any type the extraction
library ignores. -/
inductive Kind where
  | file (c : Nat)
  | dir
  | symlink (t : Option Path)
  | hardlink (t : Option Path) (c : Nat)
  | other
  deriving DecidableEq

/-- An archive entry: its path, whether the path holds a NUL, and its kind. -/
structure Entry where
  path : Path
  nul : Bool
  kind : Kind
  deriving DecidableEq

/-- The link target of an entry, if it is a link and has one.  Models
horus_manager/src/registry/install.rs:754-758. -/
def linkTarget : Kind → Option Path
  | .symlink t => t
  | .hardlink t _ => t
  | _ => none

/-- A link target the installer refuses.  Models the check at
horus_manager/src/registry/install.rs:759-764. -/
def unsafeTarget (t : Path) : Bool := t.abs || t.comps.contains .up

/-- The destination: the extraction directory joined with the path without its
`.` components; joining an absolute path would replace the directory.  Models
horus_manager/src/registry/install.rs:776-781. -/
def dest (r : List Nat) (e : Entry) : List Comp :=
  if e.path.abs then e.path.comps.filter (· ≠ .cur) else r.map .name ++ e.path.comps.filter (· ≠ .cur)

/-- Whether an entry is unpacked rather than skipped.  Models the checks at
horus_manager/src/registry/install.rs:733-788. -/
def accepted (r : List Nat) (e : Entry) : Bool :=
  !e.nul && !e.path.abs && !e.path.comps.contains .up &&
    (match linkTarget e.kind with
      | some t => !unsafeTarget t
      | none => true) &&
    (r.map Comp.name).isPrefixOf (dest r e)

/-- Set what is at a path. -/
def put (fs : Fs) (p : List Nat) (n : Node) : Fs := fun q => if q = p then some n else fs q

/-- Put an entry's object at a resolved place.  A file or a symbolic link
replaces a file or link of that name, and does not follow it; a directory is
created unless there is one (possibly behind a link).  `none` is an error.

Models what `tar::Entry::unpack` does at a destination (called at
horus_manager/src/registry/install.rs:790); modes, owners and times are not
modelled, and a hard link is modelled as a file with the contents given in
the entry. -/
def place (fs : Fs) (k : Nat) (parent : List Nat) (n : Nat) : Kind → Option Fs
  | .file c => match fs (parent ++ [n]) with
    | some .dir => none
    | _ => some (put fs (parent ++ [n]) (.file c))
  | .dir => match fs (parent ++ [n]) with
    | none => some (put fs (parent ++ [n]) .dir)
    | some .dir => some fs
    | some (.link _) => match walk fs k parent [.name n] with
      | some _ => some fs
      | none => none
    | some (.file _) => none
  | .symlink (some t) => match fs (parent ++ [n]) with
    | some .dir => none
    | _ => some (put fs (parent ++ [n]) (.link t))
  | .symlink none => none
  | .hardlink (some _) c => match fs (parent ++ [n]) with
    | none => some (put fs (parent ++ [n]) (.file c))
    | _ => none
  | .hardlink none _ => none
  | .other => some fs

/-- Unpack one entry at its destination.  An entry for the extraction
directory itself goes through its own name in its parent.

Models `entry.unpack(&dest)` at horus_manager/src/registry/install.rs:790. -/
def unpack (fs : Fs) (k : Nat) (d : List Comp) (kind : Kind) : Option Fs :=
  match d.getLast? with
  | some (.name n) => match walk fs k [] d.dropLast with
    | some parent => place fs k parent n kind
    | none => none
  | _ => none

/-- Extract an archive.  A refused entry is skipped; an error stops the
extraction, and what is there stays.

Models the loop at horus_manager/src/registry/install.rs:728-791. -/
def extract (k : Nat) (r : List Nat) : List Entry → Fs → Fs
  | [], fs => fs
  | e :: es, fs =>
    if accepted r e then
      match unpack fs k (dest r e) e.kind with
      | some fs' => extract k r es fs'
      | none => fs
    else extract k r es fs

/-! ### Confinement -/

/-- The extraction directory as the installer finds it: every directory on the
way to it is a real one, and it is empty. -/
structure Fresh (r : List Nat) (fs : Fs) : Prop where
  way : ∀ q, q <+: r → fs q = some .dir
  empty : ∀ q, r <+: q → q ≠ r → fs q = none

/-- A relative path without `..`. -/
def Plain (t : List Comp) : Prop := Comp.up ∉ t

/-- The invariant: the way to the directory is unchanged and every link inside
it has a relative target without `..`. -/
structure Inv (r : List Nat) (fs : Fs) : Prop where
  way : ∀ q, q <+: r → fs q = some .dir
  links : ∀ q t, r <+: q → fs q = some (.link t) → t.abs = false ∧ Plain t.comps

theorem prefix_snoc {r d : List Nat} (n : Nat) (h : r <+: d) : r <+: d ++ [n] := h.trans (List.prefix_append d [n])

/-- Following a plain path from inside the directory stays inside. -/
theorem walk_inside {r : List Nat} {fs : Fs} (hi : Inv r fs) : ∀ (k : Nat) (d : List Nat) (cs : List Comp) (d' : List Nat),
    r <+: d → Plain cs → walk fs k d cs = some d' → r <+: d' := by
  intro k
  induction k with
  | zero =>
    intro d cs d' hd hp h
    cases cs with
    | nil => cases h; exact hd
    | cons c cs => cases h
  | succ k ih =>
    intro d cs d' hd hp h
    cases cs with
    | nil => cases h; exact hd
    | cons c cs =>
      have hp' : Plain cs := fun hx => hp (List.mem_cons_of_mem _ hx)
      cases c with
      | up => exact absurd List.mem_cons_self hp
      | cur => exact ih d cs d' hd hp' h
      | name n =>
        rw [walk] at h
        split at h
        · exact ih _ cs d' (prefix_snoc n hd) hp' h
        · rename_i t ht
          obtain ⟨ha, hl⟩ := hi.links _ _ (prefix_snoc n hd) ht
          rw [ha] at h
          refine ih d (t.comps ++ cs) d' hd ?_ h
          intro hx
          rcases List.mem_append.1 hx with hx | hx
          · exact hl hx
          · exact hp' hx
        · cases h

/-- Following the directory's own path and then a plain one ends inside. -/
theorem walk_dest {r : List Nat} {fs : Fs} (hi : Inv r fs) : ∀ (k : Nat) (s d : List Nat) (cs : List Comp) (d' : List Nat),
    d ++ s = r → Plain cs → walk fs k d (s.map .name ++ cs) = some d' → r <+: d' := by
  intro k s
  induction s generalizing k with
  | nil =>
    intro d cs d' hd hp h
    rw [List.append_nil] at hd
    exact walk_inside hi k d cs d' (hd ▸ List.prefix_rfl) hp h
  | cons n s ih =>
    intro d cs d' hd hp h
    cases k with
    | zero => cases h
    | succ k =>
      have hw : fs (d ++ [n]) = some .dir := hi.way _ ⟨s, by rw [List.append_assoc]; exact hd⟩
      rw [List.map_cons, List.cons_append, walk, hw] at h
      exact ih k (d ++ [n]) cs d' (by rw [List.append_assoc]; exact hd) hp h

/-- Walking down real directories arrives where it should. -/
theorem walk_way {r : List Nat} {fs : Fs} (hi : Inv r fs) : ∀ (k : Nat) (s d d' : List Nat),
    d ++ s <+: r → walk fs k d (s.map .name) = some d' → d' = d ++ s := by
  intro k s
  induction s generalizing k with
  | nil => intro d d' _ h; cases k <;> (cases h; simp)
  | cons n s ih =>
    intro d d' hd h
    cases k with
    | zero => cases h
    | succ k =>
      have hp : d ++ [n] ++ s <+: r := by rw [List.append_assoc]; exact hd
      have hw : fs (d ++ [n]) = some .dir := hi.way _ ((List.prefix_append _ s).trans hp)
      rw [List.map_cons, walk, hw] at h
      rw [ih k (d ++ [n]) d' hp h, List.append_assoc]
      rfl

theorem accepted_spec {r : List Nat} {e : Entry} (h : accepted r e = true) :
    e.path.abs = false ∧ Plain (e.path.comps.filter (· ≠ .cur)) ∧
      (∀ t, linkTarget e.kind = some t → t.abs = false ∧ Plain t.comps) := by
  unfold accepted at h
  simp only [Bool.and_eq_true, Bool.not_eq_true'] at h
  obtain ⟨⟨⟨⟨_, h1⟩, h2⟩, h3⟩, _⟩ := h
  refine ⟨h1, ?_, ?_⟩
  · intro hx
    have := (List.mem_filter.1 hx).1
    simp at h2
    exact h2 this
  · intro t ht
    rw [ht] at h3
    simp [unsafeTarget] at h3
    exact h3

/-- Putting something strictly inside keeps the invariant and what is
outside. -/
theorem put_inside {r q : List Nat} {fs : Fs} {n : Node} (hi : Inv r fs) (hq : r <+: q) (hne : q ≠ r)
    (hn : ∀ t, n = .link t → t.abs = false ∧ Plain t.comps) :
    Inv r (put fs q n) ∧ ∀ p, ¬ r <+: p → put fs q n p = fs p := by
  refine ⟨⟨?_, ?_⟩, ?_⟩
  · intro p hp
    have : p ≠ q := by
      rintro rfl
      exact hne (hp.eq_of_length_le hq.length_le)
    rw [put, if_neg this]
    exact hi.way p hp
  · intro p t hp h
    unfold put at h
    split at h
    · exact hn t (Option.some.inj h)
    · exact hi.links p t hp h
  · intro p hp
    have : p ≠ q := by
      rintro rfl
      exact hp hq
    rw [put, if_neg this]

/-- Placing an accepted entry strictly inside. -/
theorem place_inside {r parent : List Nat} {fs fs' : Fs} {k n : Nat} {kind : Kind} (hi : Inv r fs) (hq : r <+: parent)
    (hl : ∀ t, linkTarget kind = some t → t.abs = false ∧ Plain t.comps) (h : place fs k parent n kind = some fs') :
    Inv r fs' ∧ ∀ p, ¬ r <+: p → fs' p = fs p := by
  have hq' := prefix_snoc n hq
  have hne : parent ++ [n] ≠ r := by
    intro e
    have h1 := hq.length_le
    have h2 := congrArg List.length e
    simp at h2
    omega
  cases kind with
  | file c =>
    simp only [place] at h
    split at h
    · cases h
    · cases h; exact put_inside hi hq' hne (by rintro t ⟨⟩)
  | dir =>
    simp only [place] at h
    split at h
    · cases h; exact put_inside hi hq' hne (by rintro t ⟨⟩)
    · cases h; exact ⟨hi, fun _ _ => rfl⟩
    · split at h
      · cases h; exact ⟨hi, fun _ _ => rfl⟩
      · cases h
    · cases h
  | symlink t =>
    cases t with
    | none => cases h
    | some t =>
      simp only [place] at h
      split at h
      · cases h
      · cases h
        refine put_inside hi hq' hne ?_
        rintro t' ⟨⟩
        exact hl t rfl
  | hardlink t c =>
    cases t with
    | none => cases h
    | some t =>
      simp only [place] at h
      split at h
      · cases h; exact put_inside hi hq' hne (by rintro t ⟨⟩)
      · cases h
  | other => cases h; exact ⟨hi, fun _ _ => rfl⟩

/-- Placing anything on a directory that is there changes nothing. -/
theorem place_on_dir {parent : List Nat} {fs fs' : Fs} {k n : Nat} {kind : Kind} (hd : fs (parent ++ [n]) = some .dir)
    (h : place fs k parent n kind = some fs') : fs' = fs := by
  cases kind with
  | file c => simp [place, hd] at h
  | dir => simp [place, hd] at h; exact h.symm
  | symlink t => cases t <;> simp [place, hd] at h
  | hardlink t c => cases t <;> simp [place, hd] at h
  | other => cases h; rfl

theorem unpack_inside {r : List Nat} {fs fs' : Fs} {k : Nat} {e : Entry} (hi : Inv r fs) (ha : accepted r e = true)
    (h : unpack fs k (dest r e) e.kind = some fs') : Inv r fs' ∧ ∀ p, ¬ r <+: p → fs' p = fs p := by
  obtain ⟨h1, h2, h3⟩ := accepted_spec ha
  have hd : dest r e = r.map .name ++ e.path.comps.filter (· ≠ .cur) := by rw [dest, h1]; rfl
  rw [hd] at h
  generalize hcs : e.path.comps.filter (· ≠ .cur) = cs at h h2
  unfold unpack at h
  split at h
  · rename_i n hn
    split at h
    · rename_i parent hw
      rcases List.eq_nil_or_concat cs with hc | ⟨cs', c, hc⟩
      · -- the entry is the extraction directory itself
        subst hc
        rw [List.append_nil] at hn hw
        rcases List.eq_nil_or_concat r with hr | ⟨r', m, hr⟩
        · subst hr; cases hn
        · rw [List.concat_eq_append] at hr
          rw [hr, List.map_append, List.map_singleton] at hn hw
          rw [List.getLast?_concat] at hn
          cases hn
          rw [List.dropLast_concat] at hw
          have hp : parent = r' := by
            have := walk_way hi k r' [] parent (by rw [hr]; simp) hw
            simpa using this
          subst hp
          have := place_on_dir (by rw [← hr]; exact hi.way r List.prefix_rfl) h
          subst this
          exact ⟨hi, fun _ _ => rfl⟩
      · rw [List.concat_eq_append] at hc
        rw [hc, ← List.append_assoc, List.dropLast_concat] at hw
        have hin := walk_dest hi k r [] cs' parent (by simp) (fun hx => h2 (by rw [hc]; exact List.mem_append_left _ hx)) hw
        exact place_inside hi hin h3 h
    · cases h
  · cases h

theorem extract_inv {r : List Nat} (k : Nat) : ∀ (es : List Entry) (fs : Fs), Inv r fs →
    Inv r (extract k r es fs) ∧ ∀ p, ¬ r <+: p → extract k r es fs p = fs p := by
  intro es
  induction es with
  | nil => intro fs hi; exact ⟨hi, fun _ _ => rfl⟩
  | cons e es ih =>
    intro fs hi
    by_cases ha : accepted r e = true
    · cases hu : unpack fs k (dest r e) e.kind with
      | none =>
        have hx : extract k r (e :: es) fs = fs := by simp only [extract, if_pos ha, hu]
        rw [hx]; exact ⟨hi, fun _ _ => rfl⟩
      | some fs' =>
        have hx : extract k r (e :: es) fs = extract k r es fs' := by simp only [extract, if_pos ha, hu]
        rw [hx]
        obtain ⟨i1, i2⟩ := unpack_inside hi ha hu
        obtain ⟨j1, j2⟩ := ih fs' i1
        exact ⟨j1, fun p hp => (j2 p hp).trans (i2 p hp)⟩
    · have hx : extract k r (e :: es) fs = extract k r es fs := by simp only [extract, if_neg ha]
      rw [hx]; exact ih fs hi

theorem fresh_inv {r : List Nat} {fs : Fs} (h : Fresh r fs) : Inv r fs := by
  refine ⟨h.way, ?_⟩
  intro q t hq hl
  by_cases e : q = r
  · subst e; rw [h.way _ List.prefix_rfl] at hl; cases hl
  · rw [h.empty q hq e] at hl; cases hl

/-- **Unpacking a package touches nothing outside its directory.**  Whatever
the archive holds (paths with `..`, absolute paths, links made first and
written through afterwards, entries repeated in any order), everything that is
not below the extraction directory is as it was, and so is the way to it. -/
theorem extraction_confined {r : List Nat} {fs : Fs} (k : Nat) (es : List Entry) (h : Fresh r fs) :
    (∀ p, ¬ r <+: p → extract k r es fs p = fs p) ∧ ∀ q, q <+: r → extract k r es fs q = some .dir :=
  ⟨(extract_inv k es fs (fresh_inv h)).2, (extract_inv k es fs (fresh_inv h)).1.way⟩

/-- **Reading the unpacked package reads nothing outside its directory**: any
path without `..` followed from the directory, through whatever links the
archive made, leads to a place below it. -/
theorem unpacked_links_inside {r : List Nat} {fs : Fs} (k j : Nat) (es : List Entry) (h : Fresh r fs) (cs : List Comp)
    (d : List Nat) (hu : Comp.up ∉ cs) (hw : walk (extract k r es fs) j r cs = some d) : r <+: d :=
  walk_inside (extract_inv k es fs (fresh_inv h)).1 j r cs d List.prefix_rfl hu hw

/-- A harmless file is unpacked: an entry that is a regular file at the top of
the directory with a plain name ends up there with its contents, if the
archive has nothing else. -/
theorem plain_file_unpacked {r : List Nat} {fs : Fs} (h : Fresh r fs) (n c k : Nat) (hk : r.length ≤ k) :
    extract k r [⟨⟨false, [.name n]⟩, false, .file c⟩] fs (r ++ [n]) = some (.file c) := by
  have hw : ∀ (j : Nat) (s d : List Nat), d ++ s = r → s.length ≤ j → walk fs j d (s.map .name) = some r := by
    intro j s
    induction s generalizing j with
    | nil => intro d hd _; rw [List.append_nil] at hd; subst hd; cases j <;> rfl
    | cons m s ih =>
      intro d hd hl
      cases j with
      | zero => simp at hl
      | succ j =>
        have hx : fs (d ++ [m]) = some .dir := h.way _ ⟨s, by rw [List.append_assoc]; exact hd⟩
        rw [List.map_cons, walk, hx]
        exact ih j (d ++ [m]) (by rw [List.append_assoc]; exact hd) (by simp at hl; omega)
  have hd : dest r ⟨⟨false, [.name n]⟩, false, .file c⟩ = r.map .name ++ [.name n] := by simp [dest]
  have ha : accepted r ⟨⟨false, [.name n]⟩, false, .file c⟩ = true := by
    simp [accepted, hd, linkTarget, List.isPrefixOf_iff_prefix]
  have he : fs (r ++ [n]) = none := h.empty _ (List.prefix_append _ _) (by simp)
  have hu : unpack fs k (dest r ⟨⟨false, [.name n]⟩, false, .file c⟩) (.file c) = some (put fs (r ++ [n]) (.file c)) := by
    simp [unpack, hd, hw k r [] rfl hk, place, he]
  simp [extract, ha, hu, put]

/-- The extraction directory `/1/2` beside a secret `/9`. -/
def home : Fs := fun p => if p = [] ∨ p = [1] ∨ p = [1, 2] then some .dir else if p = [9] then some (.file 42) else none

theorem home_fresh : Fresh [1, 2] home := by
  refine ⟨?_, ?_⟩
  · intro q hq
    obtain ⟨s, hs⟩ := hq
    match q, hs with
    | [], _ => rfl
    | [a], hs => cases hs; rfl
    | [a, b], hs => cases hs; rfl
    | a :: b :: c :: q, hs => cases hs
  · intro q hq hne
    obtain ⟨s, rfl⟩ := hq
    cases s with
    | nil => exact absurd rfl hne
    | cons x s => simp [home]

/-- Non-vacuity: an archive with a directory 5, a link 6 to it, a file written
through the link, and entries that try to escape by `..`, by an absolute path
and by a link to `..`. -/
example :
    let es : List Entry := [⟨⟨false, [.name 5]⟩, false, .dir⟩, ⟨⟨false, [.name 6]⟩, false, .symlink (some ⟨false, [.cur, .name 5]⟩)⟩,
      ⟨⟨false, [.name 6, .name 7]⟩, false, .file 70⟩, ⟨⟨false, [.up, .up, .name 9]⟩, false, .file 0⟩, ⟨⟨true, [.name 9]⟩, false, .file 0⟩,
      ⟨⟨false, [.name 8]⟩, false, .symlink (some ⟨false, [.up, .up]⟩)⟩, ⟨⟨false, [.name 4]⟩, false, .symlink (some ⟨true, []⟩)⟩]
    extract 40 [1, 2] es home [1, 2, 5, 7] = some (.file 70) ∧ extract 40 [1, 2] es home [9] = some (.file 42) ∧
      extract 40 [1, 2] es home [1, 2, 8] = none ∧ extract 40 [1, 2] es home [1, 2, 4] = none := by decide +kernel

end Horus.Pkg.Extract
