import Mathlib.Data.List.Basic
import Mathlib.Tactic.Common
/-!
# `horus add` and `horus remove`

Code modelled: horus_manager/src/main.rs:1983-1988 (`split_name_version`), 2755-2790 (`horus add`),
2987-2996 (`horus remove`); horus_manager/src/commands/pkg.rs:1042-1361 (`run_add_dep`), 2485-2579
(`run_remove_dep`); horus_manager/src/manifest.rs:1531-1591 (`upsert_manifest_entry`,
`remove_manifest_entry`).

A manifest is its four sections of named entries, each written as a table, as an inline table, or not at all.
Simplifications: a plain version text is an entry with only a version; comments and the rest of the file are
not represented (the editing library keeps them); after lower-casing the `--source` flag is given as the
source it names. The source resolver (C211), the existence of paths, the name in a path's manifest and the
outcome of the installation (C258) are parameters. Not modelled: `--driver`, regeneration of build files,
running apt.
-/

namespace Horus.AddDep

abbrev Text := List Char

inductive Src where
  | registry
  | crates
  | pypi
  | path
  | git
  | system
  deriving DecidableEq, Repr

/-- An entry; `extra` stands for branch, tag, optional and the other keys. -/
structure Dep where
  version : Option Text := none
  source : Option Src := none
  features : List Text := []
  path : Option Text := none
  git : Option Text := none
  extra : Nat := 0
  deriving DecidableEq, Repr

inductive Sect where
  | table (l : List (Text × Dep))
  | inline (l : List (Text × Dep))
  deriving DecidableEq, Repr

inductive Sec where
  | deps
  | dev
  | drivers
  | hardware
  deriving DecidableEq, Repr

abbrev Doc := Sec → Option Sect

def setSec (d : Doc) (s : Sec) (v : Sect) : Doc := fun t => if t = s then some v else d t

/-- What reading the manifest gives for a section: the form makes no difference. -/
def entries (d : Doc) (s : Sec) : List (Text × Dep) :=
  match d s with
  | none => []
  | some (.table l) => l
  | some (.inline l) => l

def get (l : List (Text × Dep)) (k : Text) : Option Dep := (l.find? fun e => decide (e.1 = k)).map (·.2)

/-- main.rs:1983-1988: the first `@`. -/
def split (input : Text) (flag : Option Text) : Text × Option Text :=
  if '@' ∈ input then (input.takeWhile (· ≠ '@'), some ((input.dropWhile (· ≠ '@')).drop 1)) else (input, flag)

def https : Text := ['h', 't', 't', 'p', 's', ':', '/', '/']
def gitUrl : Text := ['g', 'i', 't', ':', '/', '/']

/-- pkg.rs:1053-1085 when the flag is absent or known. -/
def source (resolve : Text → Src) (flag : Option Src) (p : Text) : Src :=
  match flag with
  | some s => s
  | none =>
    if '/' ∈ p ∨ p.head? = some '.' ∨ p.head? = some '~' then .path
    else if https <+: p ∨ gitUrl <+: p then .git
    else resolve p

/-- pkg.rs:1131-1136: the last part of the URL without `.git`. -/
def stem (g : Text → Text) (p : Text) : Text := g ((p.reverse.takeWhile (· ≠ '/')).reverse)

/-- The entry and its name (pkg.rs:1097-1222). -/
def entry (g pathName : Text → Text) (s : Src) (p : Text) (ver : Option Text) (feats : List Text) : Text × Dep :=
  match s with
  | .path => (pathName p, { source := some .path, features := feats, path := some p })
  | .git => (stem g p, { source := some .git, features := feats, git := some p })
  | .registry => (p, { version := some (ver.getD ['*']), features := feats })
  | s => (p, { version := some (ver.getD ['*']), source := some s, features := feats })

/-- An entry replaced where it is, or added at the end. -/
def put (k : Text) (v : Dep) : List (Text × Dep) → List (Text × Dep)
  | [] => [(k, v)]
  | e :: l => if e.1 = k then (k, v) :: l else e :: put k v l

/-- manifest.rs:1531-1566. -/
def upsert (d : Doc) (s : Sec) (k : Text) (v : Dep) : Option Doc :=
  match d s with
  | none => some (setSec d s (.table [(k, v)]))
  | some (.table l) => some (setSec d s (.table (put k v l)))
  | some (.inline _) => none

/-- The world outside the manifest. -/
structure Env where
  resolve : Text → Src
  exists' : Text → Bool
  pathName : Text → Text
  gitName : Text → Text
  install : Text → Option Text → Bool

/-- pkg.rs:1042-1361: the manifest afterwards and whether the command succeeded. -/
def add (w : Env) (d : Doc) (input : Text) (ver : Option Text) (flag : Option Src) (feats : List Text) (dev : Bool) : Doc × Bool :=
  let (p, v) := split input ver
  let s := source w.resolve flag p
  if s = .path ∧ w.exists' p = false then (d, false)
  else
    let (k, e) := entry w.gitName w.pathName s p v feats
    match upsert d (if dev then .dev else .deps) k e with
    | none => (d, false)
    | some d' => (d', if s = .registry then w.install p v else true)

/-- manifest.rs:1574-1591: only sections written as tables. -/
def eraseIn (k : Text) : Option Sect → Option Sect
  | some (.table l) => some (.table (l.filter fun e => decide (e.1 ≠ k)))
  | x => x

/-- pkg.rs:2485-2579: the manifest afterwards and whether it says "Removed". -/
def remove (d : Doc) (k : Text) : Doc × Bool :=
  if (get (entries d .deps) k).isSome ∨ (get (entries d .dev) k).isSome ∨ (get (entries d .drivers) k).isSome then
    (fun s => if s = .hardware then d s else eraseIn k (d s), true)
  else (d, false)

/-! ## Editing -/

theorem get_put (k : Text) (v : Dep) (l : List (Text × Dep)) (x : Text) : get (put k v l) x = if x = k then some v else get l x := by
  induction l with
  | nil =>
    by_cases h : x = k
    · simp [put, get, h]
    · simp [put, get, h, Ne.symm h]
  | cons e l ih =>
    unfold put
    by_cases he : e.1 = k
    · rw [if_pos he]
      by_cases h : x = k
      · simp [get, h]
      · have h1 : k ≠ x := fun e => h e.symm
        have h2 : e.1 ≠ x := he ▸ h1
        simp [get, h, h1, h2]
    · rw [if_neg he]
      by_cases hx : e.1 = x
      · have : x ≠ k := hx ▸ he
        simp [get, hx, this]
      · have e1 : ∀ m, get (e :: m) x = get m x := by intro m; simp [get, hx]
        rw [e1, e1, ih]

theorem keys_put (k : Text) (v : Dep) (l : List (Text × Dep)) : (put k v l).map (·.1) = if k ∈ l.map (·.1) then l.map (·.1) else l.map (·.1) ++ [k] := by
  induction l with
  | nil => simp [put]
  | cons e l ih =>
    unfold put
    by_cases he : e.1 = k
    · simp [he]
    · rw [if_neg he, List.map_cons, ih]
      have : k ≠ e.1 := fun h => he h.symm
      by_cases hk : k ∈ l.map (·.1)
      · simp only [List.map_cons, List.mem_cons, hk, or_true, if_true]
      · simp only [List.map_cons, List.mem_cons, this, hk, or_self, if_false, List.cons_append]

/-- Whenever `horus add` writes: the entry asked for is in the section asked for, no other entry of it is
changed, moved or dropped, and no other section is touched. -/
theorem upsert_exact (d d' : Doc) (s : Sec) (k : Text) (v : Dep) (h : upsert d s k v = some d') :
    (∀ x, get (entries d' s) x = if x = k then some v else get (entries d s) x) ∧
    (entries d' s).map (·.1) = (if k ∈ (entries d s).map (·.1) then (entries d s).map (·.1) else (entries d s).map (·.1) ++ [k]) ∧
    ∀ t, t ≠ s → d' t = d t := by
  unfold upsert at h
  split at h
  · rename_i hs
    cases h
    refine ⟨fun x => ?_, ?_, fun t ht => by simp [setSec, ht]⟩
    · simp only [entries, setSec, if_pos, hs]
      exact get_put k v [] x
    · simp [entries, setSec, hs]
  · rename_i l hs
    cases h
    refine ⟨fun x => ?_, ?_, fun t ht => by simp [setSec, ht]⟩
    · simp only [entries, setSec, if_pos, hs]
      exact get_put k v l x
    · simp only [entries, setSec, if_pos, hs]
      exact keys_put k v l
  · cases h

/-- A section written inline cannot be added to; the manifest stays as it was. -/
theorem inline_add_refused (w : Env) (d : Doc) (input : Text) (ver : Option Text) (flag : Option Src) (feats : List Text) (dev : Bool) (l : List (Text × Dep)) (h : d (if dev then .dev else .deps) = some (.inline l)) : add w d input ver flag feats dev = (d, false) := by
  unfold add
  dsimp only
  split
  · rfl
  · have : ∀ k e, upsert d (if dev then .dev else .deps) k e = none := by intro k e; simp [upsert, h]
    rw [this]

/-- What a successful `horus add name` with an explicit source other than a path or a URL leaves. -/
theorem add_exact (w : Env) (d d' : Doc) (input : Text) (ver : Option Text) (s : Src) (feats : List Text) (dev : Bool) (hs : s = .crates ∨ s = .pypi ∨ s = .system) (h : add w d input ver (some s) feats dev = (d', true)) :
    upsert d (if dev then .dev else .deps) (split input ver).1 { version := some ((split input ver).2.getD ['*']), source := some s, features := feats } = some d' := by
  unfold add at h
  dsimp only [source] at h
  rw [if_neg (by rintro ⟨h, -⟩; rcases hs with rfl | rfl | rfl <;> cases h)] at h
  have he : entry w.gitName w.pathName s (split input ver).1 (split input ver).2 feats = ((split input ver).1, { version := some ((split input ver).2.getD ['*']), source := some s, features := feats }) := by
    rcases hs with rfl | rfl | rfl <;> rfl
  rw [he] at h
  dsimp only at h
  split at h
  · simp at h
  · rename_i d'' hu; simp only [Prod.mk.injEq] at h; rw [hu, h.1]

/-- What a successful `horus add` of a directory leaves: it exists, and its entry has the path and the features. -/
theorem add_path_exact (w : Env) (d d' : Doc) (input : Text) (ver : Option Text) (feats : List Text) (dev : Bool) (h : add w d input ver (some .path) feats dev = (d', true)) :
    w.exists' (split input ver).1 = true ∧ upsert d (if dev then .dev else .deps) (w.pathName (split input ver).1) { source := some .path, features := feats, path := some (split input ver).1 } = some d' := by
  unfold add at h
  dsimp only [source] at h
  split at h
  · simp at h
  · rename_i hx
    simp only [true_and, Bool.not_eq_false] at hx
    refine ⟨hx, ?_⟩
    dsimp only [entry] at h
    split at h
    · simp at h
    · rename_i d'' hu; simp only [Prod.mk.injEq] at h; rw [hu, h.1]

/-- What a successful `horus add` of a repository leaves: its address and the features. -/
theorem add_git_exact (w : Env) (d d' : Doc) (input : Text) (ver : Option Text) (feats : List Text) (dev : Bool) (h : add w d input ver (some .git) feats dev = (d', true)) :
    upsert d (if dev then .dev else .deps) (stem w.gitName (split input ver).1) { source := some .git, features := feats, git := some (split input ver).1 } = some d' := by
  unfold add at h
  dsimp only [source] at h
  rw [if_neg (by rintro ⟨h, -⟩; cases h)] at h
  dsimp only [entry] at h
  split at h
  · simp at h
  · rename_i d'' hu; simp only [Prod.mk.injEq] at h; rw [hu, h.1]

theorem get_filter (k x : Text) (l : List (Text × Dep)) : get (l.filter fun e => decide (e.1 ≠ k)) x = if x = k then none else get l x := by
  induction l with
  | nil => simp [get]
  | cons e l ih =>
    by_cases he : e.1 = k
    · rw [List.filter_cons_of_neg (by simp [he]), ih]
      by_cases h : x = k
      · simp [h]
      · have : e.1 ≠ x := by rw [he]; exact fun e => h e.symm
        simp [h, get, this]
    · rw [List.filter_cons_of_pos (by simp [he])]
      by_cases hx : e.1 = x
      · have : x ≠ k := hx ▸ he
        simp [get, hx, this]
      · have e1 : ∀ m, get (e :: m) x = get m x := by intro m; simp [get, hx]
        rw [e1, e1, ih]

/-- When the three sections are written as tables `horus remove` takes the name out of all of them and leaves
every other entry and section. -/
theorem remove_exact_partial (d : Doc) (k : Text) (ht : ∀ s l, s ≠ .hardware → d s ≠ some (.inline l)) (s : Sec) (hs : s ≠ .hardware) (x : Text) :
    get (entries (remove d k).1 s) x = (if x = k then none else get (entries d s) x) ∧ (remove d k).1 .hardware = d .hardware := by
  unfold remove
  split
  · refine ⟨?_, by simp⟩
    simp only [entries, hs, if_false]
    cases h : d s with
    | none => simp [eraseIn, get]
    | some c =>
      cases c with
      | table l => simp only [eraseIn]; exact get_filter k x l
      | inline l => exact absurd h (ht s l hs)
  · rename_i hn
    simp only [not_or, Bool.not_eq_true, Option.isSome_eq_false_iff, Option.isNone_iff_eq_none] at hn
    refine ⟨?_, rfl⟩
    split
    · rename_i e; subst e
      cases s with
      | deps => exact hn.1
      | dev => exact hn.2.1
      | drivers => exact hn.2.2
      | hardware => exact absurd rfl hs
    · rfl

/-- Adding a new name to a section that is there and removing it restores the manifest. -/
theorem add_remove (d d' : Doc) (s : Sec) (k : Text) (v : Dep) (l : List (Text × Dep)) (hs : s ≠ .hardware) (hl : d s = some (.table l)) (hk : ∀ t m, d t = some (.table m) → ∀ e ∈ m, e.1 ≠ k) (h : upsert d s k v = some d') : (remove d' k).1 = d := by
  have hput : ∀ m : List (Text × Dep), (∀ e ∈ m, e.1 ≠ k) → (put k v m).filter (fun e => decide (e.1 ≠ k)) = m := by
    intro m
    induction m with
    | nil => simp [put]
    | cons e m ih =>
      intro hm
      unfold put
      rw [if_neg (hm e (by simp)), List.filter_cons_of_pos (by simp [hm e (by simp)]), ih fun e he => hm e (by simp [he])]
  have hself : ∀ m : List (Text × Dep), (∀ e ∈ m, e.1 ≠ k) → m.filter (fun e => decide (e.1 ≠ k)) = m := fun m hm => List.filter_eq_self.2 fun e he => by simp [hm e he]
  have hx := (upsert_exact d d' s k v h).1 k
  simp only [upsert, hl, Option.some.injEq] at h
  rw [if_pos rfl] at hx
  unfold remove
  rw [if_pos (by cases s with
    | deps => left; rw [hx]; rfl
    | dev => right; left; rw [hx]; rfl
    | drivers => right; right; rw [hx]; rfl
    | hardware => exact absurd rfl hs)]
  funext t
  dsimp only
  rw [← h]
  by_cases ht : t = s
  · subst ht
    rw [if_neg hs]
    simp only [setSec, if_pos, eraseIn]
    rw [hput l (hk _ _ hl), hl]
  · simp only [setSec, ht, if_false]
    split
    · rfl
    · cases hd : d t with
      | none => rfl
      | some c =>
        cases c with
        | table m => simp only [eraseIn]; rw [hself m (hk _ _ hd)]
        | inline m => rfl

/-! ## What goes wrong -/

/-- A dependency in a section written inline is reported as removed and stays. -/
theorem inline_remove_nothing (d : Doc) (k : Text) (l : List (Text × Dep)) (h : d .deps = some (.inline l)) (hk : (get l k).isSome = true) : (remove d k).2 = true ∧ (remove d k).1 .deps = d .deps := by
  have : (get (entries d .deps) k).isSome = true := by simp [entries, h, hk]
  unfold remove
  rw [if_pos (Or.inl this)]
  simp [eraseIn, h]

/-- An entry of `[hardware]` cannot be removed. -/
theorem hardware_stays (d : Doc) (k : Text) : (remove d k).1 .hardware = d .hardware := by
  unfold remove
  split <;> simp

/-- A URL is never taken as one: every URL has a `/` and is taken as a path. -/
theorem url_is_path (resolve : Text → Src) (p : Text) (h : https <+: p ∨ gitUrl <+: p) : source resolve none p = .path := by
  have : '/' ∈ p := by
    rcases h with ⟨t, rfl⟩ | ⟨t, rfl⟩
    · simp [https]
    · simp [gitUrl]
  simp [source, this]

theorem git_needs_flag (resolve : Text → Src) (hr : ∀ p, resolve p ≠ .git) (p : Text) : source resolve none p ≠ .git := by
  unfold source
  split
  · rename_i h; cases h
  · split
    · simp
    · rename_i h
      rw [if_neg]
      · exact hr p
      · intro hu
        apply h
        left
        rcases hu with ⟨t, rfl⟩ | ⟨t, rfl⟩
        · simp [https]
        · simp [gitUrl]

/-- `name@version` is taken apart at the first `@`, and wins over the flag. -/
theorem split_version (n v : Text) (flag : Option Text) (h : '@' ∉ n) : split (n ++ '@' :: v) flag = (n, some v) := by
  have ht : (n ++ '@' :: v).takeWhile (fun c => decide (c ≠ '@')) = n := by
    rw [List.takeWhile_append_of_pos (fun c hc => by simp only [decide_eq_true_eq]; rintro rfl; exact h hc)]; simp
  have hd : (n ++ '@' :: v).dropWhile (fun c => decide (c ≠ '@')) = '@' :: v := by
    rw [List.dropWhile_append_of_pos (fun c hc => by simp only [decide_eq_true_eq]; rintro rfl; exact h hc)]; simp
  unfold split
  rw [if_pos (by simp), ht, hd]
  rfl

theorem split_plain (n : Text) (flag : Option Text) (h : '@' ∉ n) : split n flag = (n, flag) := by simp [split, h]

/-- A scoped name `@org/package` gives the empty name, with the rest as its version. -/
theorem scoped_is_empty (rest : Text) (flag : Option Text) : split ('@' :: rest) flag = ([], some rest) := split_version [] rest flag (by simp)

/-- Adding it writes an entry with the empty name into the manifest. -/
theorem scoped_written (w : Env) (d : Doc) (rest : Text) (hr : w.resolve [] = .registry) (l : List (Text × Dep)) (hd : d .deps = some (.table l)) :
    get (entries (add w d ('@' :: rest) none none [] false).1 .deps) [] = some { version := some rest } := by
  unfold add
  rw [scoped_is_empty]
  have hs : source w.resolve none [] = .registry := by simp [source, hr, https, gitUrl]
  dsimp only
  rw [hs, if_neg (by simp)]
  simp only [entry, upsert, hd, Bool.false_eq_true, if_false]
  simp only [entries, setSec, if_pos]
  rw [get_put, if_pos rfl]
  rfl

/-- A package that could not be installed is in the manifest all the same. -/
theorem failed_install_written (w : Env) (d : Doc) (n : Text) (l : List (Text × Dep)) (hd : d .deps = some (.table l)) (hn : '@' ∉ n) (hi : ∀ v, w.install n v = false) :
    (add w d n none (some .registry) [] false).2 = false ∧ get (entries (add w d n none (some .registry) [] false).1 .deps) n = some { version := some ['*'] } := by
  unfold add
  rw [split_plain n none hn]
  dsimp only [source]
  rw [if_neg (by simp)]
  simp only [entry, upsert, hd, Bool.false_eq_true, if_false, if_true, hi, true_and]
  simp only [entries, setSec, if_pos]
  rw [get_put, if_pos rfl]
  rfl

/-- Changing the version drops the features and everything else the entry had. -/
theorem update_drops (w : Env) (d d' : Doc) (n v : Text) (hn : '@' ∉ n) (s : Src) (hs : s = .crates ∨ s = .pypi ∨ s = .system) (h : add w d (n ++ '@' :: v) none (some s) [] false = (d', true)) : get (entries d' .deps) n = some { version := some v, source := some s } := by
  have := add_exact w d d' _ _ s [] false hs h
  rw [split_version n v none hn] at this
  have := (upsert_exact _ _ _ _ _ this).1 n
  rw [if_pos rfl] at this
  exact this

/-- A name can be in both sections: adding it to one does not take it out of the other. -/
theorem both_sections (d d' : Doc) (k : Text) (v e : Dep) (h : get (entries d .deps) k = some e) (hu : upsert d .dev k v = some d') : get (entries d' .deps) k = some e ∧ get (entries d' .dev) k = some v := by
  obtain ⟨h1, -, h3⟩ := upsert_exact d d' .dev k v hu
  refine ⟨?_, by rw [h1]; simp⟩
  have : d' .deps = d .deps := h3 _ (by decide)
  unfold entries at h ⊢
  rw [this]; exact h

/-! ## A concrete case -/

def start : Doc := fun | .deps => some (.table [(['a'], {}), (['b'], { version := some ['1'] })]) | _ => none
def env : Env := ⟨fun _ => .registry, fun _ => true, id, id, fun _ _ => true⟩

example : (add env start ['b', '@', '2'] none (some .crates) [] false).1 .deps = some (.table [(['a'], {}), (['b'], { version := some ['2'], source := some .crates })]) := by decide
example : (remove start ['a']).1 .deps = some (.table [(['b'], { version := some ['1'] })]) := by decide
example : add env start https none none [] false |>.2 := by decide

end Horus.AddDep
