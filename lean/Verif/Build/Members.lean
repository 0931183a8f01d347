import Mathlib.Data.List.Basic
import Mathlib.Data.List.Nodup
import Mathlib.Data.List.Infix
import Mathlib.Data.List.Induction
import Mathlib.Tactic.Common

/-!
# Building a workspace

A `horus.toml` with `[workspace]` names member directories; `generate_workspace` and
`generate_member_cargo` (`horus_manager/src/cargo_gen.rs:926-1281`) write `.horus/Cargo.toml` and one
manifest per member, and `execute_workspace` (`horus_manager/src/commands/run/mod.rs:263-316`) builds and
runs. Members are found by `resolve_workspace_members` (`horus_manager/src/manifest.rs:1341-1389`);
`resolve_workspace_dep` (1394-1429) says what inheriting a dependency means.

A table of a generated file is the list of its entries; TOML refuses a table with a name twice and a key
with other characters than letters, digits, `_` and `-` unless it is quoted, which the generator never
does. Directories are lists of names from the root. Not modelled: the text of versions and URLs (a quote
in one), `[patch]`, editions, what cargo does beyond reading the tables, the installation of missing
registry packages (`installed` is the outcome).
-/

namespace Horus.Members

/-- Text. -/
abbrev Text := List Char

/-- A directory, from the root. -/
abbrev Dir := List Text

/-- `DepSource` (manifest.rs:631-647). -/
inductive Src | registry | cratesIo | pypi | system | path | git
deriving DecidableEq, Repr

/-- `DetailedDependency` (manifest.rs:667-723), without what only other languages read. -/
structure Det where
  version : Option Text := none
  source : Option Src := none
  features : List Text := []
  optional : Bool := false
  path : Option Text := none
  git : Option Text := none
  branch : Option Text := none
  tag : Option Text := none
  rev : Option Text := none
  workspace : Bool := false
deriving DecidableEq

/-- `DependencyValue` (manifest.rs:752-759). -/
inductive Dep
  | simple (v : Text)
  | det (d : Det)
deriving DecidableEq

/-- `effective_source` (manifest.rs:730-741, 771-776). -/
def Dep.src : Dep → Src
  | .simple _ => .registry
  | .det d => d.source.getD (if d.path.isSome then .path else if d.git.isSome then .git else .registry)

/-- An entry of a cargo dependency table; `x = "1"` and `x = { version = "1" }` mean the same, and so do
`x.workspace = true` and `x = { workspace = true }`. -/
structure Line where
  version : Option Text := none
  features : List Text := []
  optional : Bool := false
  path : Option (List Text) := none
  git : Option Text := none
  branch : Option Text := none
  tag : Option Text := none
  rev : Option Text := none
  ws : Bool := false
deriving DecidableEq

/-- A table. -/
abbrev Table (α : Type) := List (Text × α)

/-- The entry of a name. -/
def get {α : Type} (t : Table α) (n : Text) : Option α := (t.find? fun x => decide (x.1 = n)).map (·.2)

/-- `TargetType` (manifest.rs:475-480). -/
inductive Target | bin | lib | both
deriving DecidableEq

/-- What is read of a `horus.toml` (manifest.rs:183-268). -/
structure Manifest where
  name : Text
  target : Target := .bin
  deps : Table Dep := []
  dev : Table Dep := []
  enable : List Text := []

/-- A workspace member: its directory and manifest. -/
structure Member where
  dir : Dir
  man : Manifest

/-! ### Members -/

/-- The file system as member resolution sees it. `glob` gives the matches of a pattern in order, or
nothing for an invalid pattern; `exclude` compiles an exclusion; `load` reads a `horus.toml`. -/
structure Disk where
  glob : Text → Option (List Dir)
  isDir : Dir → Bool
  hasToml : Dir → Bool
  exclude : Text → Option (Dir → Bool)
  load : Dir → Option Manifest

/-- Is the directory excluded (manifest.rs:1372-1376)? An invalid exclusion excludes nothing. -/
def excluded (k : Disk) (excl : List Text) (d : Dir) : Bool :=
  excl.any fun e => match k.exclude e with | some p => p d | none => false

/-- Is the directory a member (manifest.rs:1358-1379)? -/
def wanted (k : Disk) (excl : List Text) (d : Dir) : Bool := k.isDir d && k.hasToml d && !excluded k excl d

/-- The matches of one pattern (manifest.rs:1353-1385). -/
def takeDirs (k : Disk) (excl : List Text) : List Dir → List Member → Option (List Member)
  | [], acc => some acc
  | d :: ds, acc =>
    if wanted k excl d then
      if d ∈ acc.map (·.dir) then takeDirs k excl ds acc
      else match k.load d with
        | some m => takeDirs k excl ds (acc ++ [⟨d, m⟩])
        | none => none
    else takeDirs k excl ds acc

/-- `resolve_workspace_members` (manifest.rs:1341-1389). -/
def resolve (k : Disk) (excl : List Text) : List Text → List Member → Option (List Member)
  | [], acc => some acc
  | p :: ps, acc =>
    match k.glob p with
    | none => none
    | some ds => match takeDirs k excl ds acc with
      | none => none
      | some acc => resolve k excl ps acc

/-! ### Files -/

/-- `sanitize_cargo_name` (cargo_gen.rs:793-806). -/
def clean (n : Text) : Text := n.map fun c => if c.isAlphanum || c = '_' || c = '-' then c else '_'

/-- The path from a directory to another (`pathdiff`, cargo_gen.rs:757-791), both canonical. -/
def diff : Dir → Dir → List Text
  | t :: ts, b :: bs => if t = b then diff ts bs else (b :: bs).map (fun _ => ['.', '.']) ++ (t :: ts)
  | ts, bs => bs.map (fun _ => ['.', '.']) ++ ts

/-- An empty difference is written `.` (cargo_gen.rs:786-788). -/
def rel (t b : Dir) : List Text := if diff t b = [] then [['.']] else diff t b

/-- Following a relative path. -/
def walk : Dir → List Text → Dir
  | d, [] => d
  | d, c :: cs => walk (if c = ['.', '.'] then d.dropLast else if c = ['.'] then d else d ++ [c]) cs

/-- Facts the generator looks up: the packages installed in `.horus/packages`, the sources the resolver is
sure of, the HORUS crates present in the source tree and where, the directory a path written in a manifest
of a directory leads to, which files exist, and whether the environment asks for the network. -/
structure Env where
  installed : Text → Bool
  known : Text → Option Src
  horus : List (Text × List Text)
  «at» : Dir → Text → Dir
  file : Dir → Text → Bool
  net : Bool

/-- cargo_gen.rs:558-570. -/
def srcOf (v : Env) (n : Text) (d : Dep) : Src :=
  match d.src with
  | .registry => (v.known n).getD .registry
  | s => s

/-- A dependency of the root table (`write_deps_section`, cargo_gen.rs:546-620, with 695-742), written from
the directory `.horus` of the project `p`. -/
def rootLine (v : Env) (p : Dir) (n : Text) (d : Dep) : Option Line :=
  match srcOf v n d, d with
  | .cratesIo, .simple x => some { version := some x }
  | .cratesIo, .det d => some { version := some (d.version.getD ['*']), features := d.features, optional := d.optional }
  | .path, .det d => d.path.map fun x => { path := some (rel (v.at p x) (p ++ [['.', 'h', 'o', 'r', 'u', 's']])) }
  | .git, .det d => some { git := some (d.git.getD []), branch := d.branch, tag := d.tag, rev := d.rev }
  | .registry, _ => if v.installed n then some { path := some [['p', 'a', 'c', 'k', 'a', 'g', 'e', 's'], n] } else none
  | _, _ => none

/-- `serde`. -/
def serde : Text := ['s', 'e', 'r', 'd', 'e']

/-- `[workspace.dependencies]` (cargo_gen.rs:998-1034): the HORUS crates that exist, `serde`, the declared
ones. -/
def rootTable (v : Env) (p : Dir) (deps : Table Dep) : Table Line :=
  (v.horus.map fun h => (h.1, { path := some h.2 })) ++ [(serde, { version := some ['1'], features := [['d', 'e', 'r', 'i', 'v', 'e']] })] ++
  deps.filterMap fun x => (rootLine v p x.1 x.2).map fun l => (x.1, l)

/-- `write_single_dep` (cargo_gen.rs:1202-1254). -/
def single : Dep → Line
  | .simple x => { version := some x }
  | .det d => match d.git with
    | some g => { git := some g, branch := d.branch, tag := d.tag, rev := d.rev, features := d.features, optional := d.optional }
    | none => { version := some (d.version.getD ['*']), features := d.features, optional := d.optional }

/-- The build directory of a member. -/
def home (p : Dir) (n : Text) : Dir := p ++ [['.', 'h', 'o', 'r', 'u', 's'], clean n]

/-- Where a path dependency leads in the generated file (cargo_gen.rs:1170-1188, 1257-1281): to the build
directory of the first member with that directory, else to the directory itself. -/
def goal (v : Env) (p : Dir) (ms : List Member) (m : Member) (x : Text) : Dir :=
  match ms.find? fun o => decide (o.dir = v.at m.dir x) with
  | some o => home p o.man.name
  | none => v.at m.dir x

/-- One dependency of a member (cargo_gen.rs:1141-1193). -/
def memberLine (v : Env) (p : Dir) (ms : List Member) (m : Member) (d : Dep) : Option Line :=
  if d.src = .pypi ∨ d.src = .system then none
  else match d with
    | .simple x => some (single (.simple x))
    | .det d =>
      if d.workspace then some { ws := true, features := d.features }
      else match d.path with
        | some x => some { path := some (rel (goal v p ms m x) (home p m.man.name)) }
        | none => some (single (.det d))

/-- The three HORUS crates of a member (cargo_gen.rs:1131-1133). -/
def core : List Text := [['h', 'o', 'r', 'u', 's'], ['h', 'o', 'r', 'u', 's', '_', 'c', 'o', 'r', 'e'], ['h', 'o', 'r', 'u', 's', '_', 'm', 'a', 'c', 'r', 'o', 's']]

/-- `[dependencies]` of a member (cargo_gen.rs:1127-1194). -/
def memberTable (v : Env) (p : Dir) (ms : List Member) (m : Member) : Table Line :=
  (core.map fun n => (n, { ws := true })) ++ (if (get m.man.deps serde).isSome then [] else [(serde, { ws := true })]) ++
  m.man.deps.filterMap fun x => (memberLine v p ms m x.2).map fun l => (x.1, l)

/-- The targets of a member (cargo_gen.rs:1102-1124): library and program. -/
def targets (v : Env) (m : Member) : Bool × Bool :=
  ((decide (m.man.target ≠ .bin)) && v.file m.dir ['l', 'i', 'b'], (decide (m.man.target ≠ .lib)) && (v.file m.dir ['m', 'a', 'i', 'n'] || v.file m.dir ['r', 'o', 'o', 't']))

/-- What is written (cargo_gen.rs:947-1079): the list of members, the shared table and, by build
directory, the manifests; a later member in the same directory overwrites. -/
structure Out where
  members : List Text
  shared : Table Line
  files : List (Text × Member)

/-- `generate_workspace`. The root manifest's own package, development dependencies and `enable` have no
part in it. -/
def generate (v : Env) (p : Dir) (_root : Manifest) (deps : Table Dep) (ms : List Member) : Out :=
  ⟨ms.map fun m => clean m.man.name, rootTable v p deps, ms.map fun m => (clean m.man.name, m)⟩

/-- The member whose manifest is in a build directory in the end. -/
def Out.manifest (o : Out) (n : Text) : Option Member := (o.files.reverse.find? fun x => decide (x.1 = n)).map (·.2)

/-- A key that TOML takes unquoted. -/
def bare (n : Text) : Bool := !n.isEmpty && n.all fun c => c.isAlphanum || c = '_' || c = '-'

/-- Cargo accepts the table: no name twice, keys readable. -/
def Accepts (t : Table Line) : Prop := (t.map (·.1)).Nodup ∧ ∀ x ∈ t, bare x.1 = true

/-- Cargo accepts the shared table: moreover, nothing in it may be optional. -/
def AcceptsShared (t : Table Line) : Prop := Accepts t ∧ ∀ x ∈ t, x.2.optional = false

/-- What a line of a member means to cargo: itself, or the inherited line with the features of both; an
inherited name that the root table does not have is an error. -/
def means (root : Table Line) (n : Text) (l : Line) : Option Line :=
  if l.ws then (get root n).map fun r => { r with features := r.features ++ l.features, optional := l.optional }
  else some l

/-- `resolve_workspace_dep` (manifest.rs:1394-1429): what inheriting is documented to mean. -/
def inherit (deps : Table Dep) (n : Text) (d : Det) : Option Dep :=
  match get deps n with
  | none => none
  | some w =>
    if d.features = [] then some w
    else match w with
      | .simple x => some (.det { version := some x, features := d.features })
      | .det e => some (.det { e with features := d.features.foldl (fun fs f => if f ∈ fs then fs else fs ++ [f]) e.features })

/-! ### Theorems: members -/

theorem takeDirs_spec (k : Disk) (excl : List Text) (ds : List Dir) : ∀ acc out, takeDirs k excl ds acc = some out →
    (acc.map (·.dir)).Nodup → (out.map (·.dir)).Nodup ∧ acc <+: out ∧ (∀ m ∈ out, m ∈ acc ∨ (m.dir ∈ ds ∧ wanted k excl m.dir = true ∧ k.load m.dir = some m.man)) ∧
    ∀ d ∈ ds, wanted k excl d = true → d ∈ out.map (·.dir) := by
  induction ds with
  | nil => intro acc out h hn; cases h; exact ⟨hn, List.prefix_rfl, fun m hm => Or.inl hm, by simp⟩
  | cons d ds ih =>
    intro acc out h hn
    rw [takeDirs] at h
    split at h
    · rename_i hw
      split at h
      · rename_i hm
        obtain ⟨h1, h2, h3, h4⟩ := ih acc out h hn
        refine ⟨h1, h2, fun m hm' => ?_, fun e he hwe => ?_⟩
        · rcases h3 m hm' with hh | ⟨ha, hb⟩
          · exact Or.inl hh
          · exact Or.inr ⟨List.mem_cons_of_mem _ ha, hb⟩
        · rcases List.mem_cons.1 he with rfl | he
          · exact (h2.map _).subset hm
          · exact h4 e he hwe
      · rename_i hm
        cases hl : k.load d with
        | none => rw [hl] at h; cases h
        | some m =>
          rw [hl] at h
          have hn' : ((acc ++ [(⟨d, m⟩ : Member)]).map (·.dir)).Nodup := by
            rw [List.map_append, List.nodup_append]
            refine ⟨hn, by simp, ?_⟩
            intro a ha b hb hab
            simp only [List.map_cons, List.map_nil, List.mem_singleton] at hb
            subst hb; subst hab; exact hm ha
          obtain ⟨h1, h2, h3, h4⟩ := ih _ out h hn'
          have hin : (⟨d, m⟩ : Member) ∈ out := h2.subset (by simp)
          refine ⟨h1, (List.prefix_append _ _).trans h2, fun m' hm' => ?_, fun e he hwe => ?_⟩
          · rcases h3 m' hm' with hh | ⟨ha, hb⟩
            · rcases List.mem_append.1 hh with hh | hh
              · exact Or.inl hh
              · rw [List.mem_singleton] at hh
                subst hh
                exact Or.inr ⟨List.mem_cons_self, hw, hl⟩
            · exact Or.inr ⟨List.mem_cons_of_mem _ ha, hb⟩
          · rcases List.mem_cons.1 he with rfl | he
            · exact List.mem_map.2 ⟨_, hin, rfl⟩
            · exact h4 e he hwe
    · rename_i hw
      obtain ⟨h1, h2, h3, h4⟩ := ih acc out h hn
      refine ⟨h1, h2, fun m hm' => ?_, fun e he hwe => ?_⟩
      · rcases h3 m hm' with hh | ⟨ha, hb⟩
        · exact Or.inl hh
        · exact Or.inr ⟨List.mem_cons_of_mem _ ha, hb⟩
      · rcases List.mem_cons.1 he with rfl | he
        · exact absurd hwe hw
        · exact h4 e he hwe

theorem resolve_spec (k : Disk) (excl : List Text) (ps : List Text) : ∀ acc out, resolve k excl ps acc = some out →
    (acc.map (·.dir)).Nodup → (out.map (·.dir)).Nodup ∧ acc <+: out ∧ (∀ m ∈ out, m ∈ acc ∨ ((∃ p ∈ ps, ∃ ds, k.glob p = some ds ∧ m.dir ∈ ds) ∧ wanted k excl m.dir = true ∧ k.load m.dir = some m.man)) ∧
    ∀ p ∈ ps, ∃ ds, k.glob p = some ds ∧ ∀ d ∈ ds, wanted k excl d = true → d ∈ out.map (·.dir) := by
  induction ps with
  | nil => intro acc out h hn; cases h; exact ⟨hn, List.prefix_rfl, fun m hm => Or.inl hm, by simp⟩
  | cons p ps ih =>
    intro acc out h hn
    rw [resolve] at h
    cases hg : k.glob p with
    | none => rw [hg] at h; cases h
    | some ds =>
      rw [hg] at h
      dsimp only at h
      cases ht : takeDirs k excl ds acc with
      | none => rw [ht] at h; cases h
      | some acc' =>
        rw [ht] at h
        dsimp only at h
        obtain ⟨a1, a2, a3, a4⟩ := takeDirs_spec k excl ds acc acc' ht hn
        obtain ⟨b1, b2, b3, b4⟩ := ih acc' out h a1
        refine ⟨b1, a2.trans b2, fun m hm => ?_, fun q hq => ?_⟩
        · rcases b3 m hm with hh | ⟨⟨q, hq, hd⟩, hr⟩
          · rcases a3 m hh with hh | ⟨hd, hr⟩
            · exact Or.inl hh
            · exact Or.inr ⟨⟨p, List.mem_cons_self, ds, hg, hd⟩, hr⟩
          · exact Or.inr ⟨⟨q, List.mem_cons_of_mem _ hq, hd⟩, hr⟩
        · rcases List.mem_cons.1 hq with rfl | hq
          · exact ⟨ds, hg, fun d hd hw => (b2.map _).subset (a4 d hd hw)⟩
          · exact b4 q hq

/-- **The members** are exactly the directories that a pattern matches, that have a `horus.toml` and that
no exclusion matches, each once, with the manifest found there. -/
theorem members_exact (k : Disk) (pats excl : List Text) (out : List Member) (h : resolve k excl pats [] = some out) :
    (out.map (·.dir)).Nodup ∧ (∀ m ∈ out, k.load m.dir = some m.man) ∧
    ∀ d, d ∈ out.map (·.dir) ↔ (∃ p ∈ pats, ∃ ds, k.glob p = some ds ∧ d ∈ ds) ∧ k.isDir d = true ∧ k.hasToml d = true ∧ ∀ e ∈ excl, ∀ f, k.exclude e = some f → f d = false := by
  obtain ⟨h1, _, h3, h4⟩ := resolve_spec k excl pats [] out h (by simp)
  have hw : ∀ d, wanted k excl d = true ↔ k.isDir d = true ∧ k.hasToml d = true ∧ ∀ e ∈ excl, ∀ f, k.exclude e = some f → f d = false := by
    intro d
    unfold wanted excluded
    simp only [Bool.and_eq_true, Bool.not_eq_true', List.any_eq_false, and_assoc]
    refine and_congr_right fun _ => and_congr_right fun _ => forall_congr' fun e => forall_congr' fun he => ?_
    cases k.exclude e <;> simp
  refine ⟨h1, fun m hm => ?_, fun d => ?_⟩
  · rcases h3 m hm with hh | ⟨_, _, hl⟩
    · cases hh
    · exact hl
  · constructor
    · intro hd
      obtain ⟨m, hm, rfl⟩ := List.mem_map.1 hd
      rcases h3 m hm with hh | ⟨hp, hwm, _⟩
      · cases hh
      · exact ⟨hp, (hw _).1 hwm⟩
    · rintro ⟨⟨p, hp, ds, hg, hd⟩, hr⟩
      obtain ⟨ds', hg', h'⟩ := h4 p hp
      rw [hg] at hg'
      cases hg'
      exact h' d hd ((hw d).2 hr)

/-- **Finding: an exclusion with a mistake in the pattern excludes nothing**, silently. -/
theorem bad_exclusion_ignored (k : Disk) (excl : List Text) (e : Text) (he : k.exclude e = none) (d : Dir) : wanted k (e :: excl) d = wanted k excl d := by
  unfold wanted excluded
  rw [List.any_cons, he, Bool.false_or]

/-! ### Theorems: paths -/

theorem walk_append (d : Dir) (xs ys : List Text) : walk d (xs ++ ys) = walk (walk d xs) ys := by
  induction xs generalizing d with
  | nil => rfl
  | cons x xs ih => rw [List.cons_append, walk, walk, ih]

theorem walk_up (d bs : Dir) : walk (d ++ bs) (bs.map fun _ => ['.', '.']) = d := by
  induction bs using List.reverseRecOn with
  | nil => simp [walk]
  | append_singleton bs b ih =>
    have : ((bs ++ [b]).map fun _ => (['.', '.'] : Text)) = ['.', '.'] :: bs.map fun _ => ['.', '.'] := by
      rw [List.map_append]
      simp only [List.map_const', List.length_cons, List.length_nil, List.replicate_succ]
      exact (List.replicate_succ' ..).symm.trans (by simp [List.replicate_succ])
    rw [this, walk, if_pos rfl, ← List.append_assoc, List.dropLast_concat, ih]

theorem walk_down (d ts : Dir) (h : ∀ t ∈ ts, t ≠ ['.'] ∧ t ≠ ['.', '.']) : walk d ts = d ++ ts := by
  induction ts generalizing d with
  | nil => simp [walk]
  | cons t ts ih =>
    have ht := h t List.mem_cons_self
    rw [walk, if_neg ht.2, if_neg ht.1, ih _ fun x hx => h x (List.mem_cons_of_mem _ hx)]
    simp

theorem walk_diff (t b : Dir) (h : ∀ x ∈ t, x ≠ ['.'] ∧ x ≠ ['.', '.']) : ∀ d : Dir, walk (d ++ b) (diff t b) = d ++ t := by
  fun_induction diff t b with
  | case1 ts t bs ih =>
    intro d
    have := ih (fun x hx => h x (List.mem_cons_of_mem _ hx)) (List.append d [t])
    have e : ∀ r : List Text, (List.append d [t] : Dir) ++ r = d ++ (t :: r) := by intro r; exact (List.append_assoc d [t] r)
    rw [e, e] at this
    exact this
  | case2 t ts b bs hne =>
    intro d
    rw [walk_append, walk_up, walk_down _ _ h]
  | case3 ts bs hne =>
    intro d
    rw [walk_append, walk_up, walk_down _ _ h]

/-- **A written path leads where it should**: from any directory, the relative path to any directory ends
there. -/
theorem rel_leads (t b : Dir) (h : ∀ x ∈ t, x ≠ ['.'] ∧ x ≠ ['.', '.']) : walk b (rel t b) = t := by
  have := walk_diff t b h []
  rw [List.nil_append, List.nil_append] at this
  unfold rel
  split
  · rename_i he; rw [he] at this; rw [← this]; rfl
  · exact this

/-! ### Theorems: tables -/

theorem get_of_mem {α : Type} (t : Table α) (hv : (t.map (·.1)).Nodup) (n : Text) (a : α) (h : (n, a) ∈ t) : get t n = some a := by
  induction t with
  | nil => cases h
  | cons x t ih =>
    unfold get
    rw [List.find?_cons]
    rw [List.map_cons, List.nodup_cons] at hv
    rcases List.mem_cons.1 h with rfl | h
    · simp
    · have : x.1 ≠ n := by
        rintro rfl
        exact hv.1 (List.mem_map.2 ⟨_, h, rfl⟩)
      simp only [this, decide_false]
      exact ih hv.2 h

theorem mem_of_get {α : Type} (t : Table α) (n : Text) (a : α) (h : get t n = some a) : (n, a) ∈ t := by
  unfold get at h
  obtain ⟨x, hx, rfl⟩ := Option.map_eq_some_iff.1 h
  have h1 := List.find?_some hx
  have h2 := List.mem_of_find?_eq_some hx
  simp only [decide_eq_true_eq] at h1
  rw [← h1]; exact h2

/-- What cargo reads for a dependency of a member, if it accepts the file. -/
theorem get_member (v : Env) (p : Dir) (ms : List Member) (m : Member) (n : Text) (d : Dep) (l : Line) (ha : Accepts (memberTable v p ms m))
    (hd : get m.man.deps n = some d) (hl : memberLine v p ms m d = some l) : get (memberTable v p ms m) n = some l := by
  refine get_of_mem _ ha.1 n l ?_
  unfold memberTable
  refine List.mem_append.2 (Or.inr (List.mem_filterMap.2 ⟨(n, d), mem_of_get _ _ _ hd, ?_⟩))
  dsimp only
  rw [hl]; rfl

/-- What cargo reads for a shared dependency. -/
theorem get_root (v : Env) (p : Dir) (deps : Table Dep) (n : Text) (d : Dep) (l : Line) (ha : Accepts (rootTable v p deps))
    (hd : get deps n = some d) (hl : rootLine v p n d = some l) : get (rootTable v p deps) n = some l := by
  refine get_of_mem _ ha.1 n l ?_
  unfold rootTable
  refine List.mem_append.2 (Or.inr (List.mem_filterMap.2 ⟨(n, d), mem_of_get _ _ _ hd, ?_⟩))
  dsimp only
  rw [hl]; rfl

/-- **A crates.io dependency of a member** reaches cargo with its version, features and optional mark. -/
theorem crates_kept_partial (v : Env) (p : Dir) (ms : List Member) (m : Member) (n : Text) (d : Det) (ha : Accepts (memberTable v p ms m)) (hd : get m.man.deps n = some (.det d))
    (hs : d.source = some .cratesIo) (hp : d.path = none) (hg : d.git = none) (hw : d.workspace = false) :
    ∃ l, get (memberTable v p ms m) n = some l ∧ l.version = some (d.version.getD ['*']) ∧ l.features = d.features ∧ l.optional = d.optional ∧ l.path = none ∧ l.git = none ∧ l.ws = false := by
  refine ⟨_, get_member v p ms m n _ { version := some (d.version.getD ['*']), features := d.features, optional := d.optional } ha hd ?_, rfl, rfl, rfl, rfl, rfl, rfl⟩
  simp [memberLine, Dep.src, hs, hp, hg, hw, single]

/-- **A git dependency of a member** reaches cargo with its address, branch, tag, revision, features and
optional mark. -/
theorem git_kept_partial (v : Env) (p : Dir) (ms : List Member) (m : Member) (n : Text) (d : Det) (u : Text) (ha : Accepts (memberTable v p ms m)) (hd : get m.man.deps n = some (.det d))
    (hs : d.source = none ∨ d.source = some .git) (hp : d.path = none) (hg : d.git = some u) (hw : d.workspace = false) :
    ∃ l, get (memberTable v p ms m) n = some l ∧ l.git = some u ∧ l.branch = d.branch ∧ l.tag = d.tag ∧ l.rev = d.rev ∧ l.features = d.features ∧ l.optional = d.optional ∧ l.path = none ∧ l.version = none ∧ l.ws = false := by
  refine ⟨_, get_member v p ms m n _ { git := some u, branch := d.branch, tag := d.tag, rev := d.rev, features := d.features, optional := d.optional } ha hd ?_, rfl, rfl, rfl, rfl, rfl, rfl, rfl, rfl, rfl⟩
  rcases hs with hs | hs <;> simp [memberLine, Dep.src, hs, hp, hg, hw, single]

/-- **A path dependency of a member** leads, from the generated file, to the directory it names, or to the
build directory of the member that lives there. -/
theorem path_kept_partial (v : Env) (p : Dir) (ms : List Member) (m : Member) (n x : Text) (d : Det) (ha : Accepts (memberTable v p ms m)) (hd : get m.man.deps n = some (.det d))
    (hs : d.source = none ∨ d.source = some .path) (hp : d.path = some x) (hw : d.workspace = false) (hdup : (ms.map (·.dir)).Nodup)
    (hc : ∀ c ∈ v.at m.dir x, c ≠ ['.'] ∧ c ≠ ['.', '.']) (hc' : ∀ o ∈ ms, ∀ c ∈ home p o.man.name, c ≠ ['.'] ∧ c ≠ ['.', '.']) :
    ∃ l c, get (memberTable v p ms m) n = some l ∧ l.path = some c ∧ (∀ o ∈ ms, o.dir = v.at m.dir x → walk (home p m.man.name) c = home p o.man.name) ∧
      ((∀ o ∈ ms, o.dir ≠ v.at m.dir x) → walk (home p m.man.name) c = v.at m.dir x) := by
  refine ⟨_, _, get_member v p ms m n _ { path := some (rel (goal v p ms m x) (home p m.man.name)) } ha hd ?_, rfl, fun o ho hod => ?_, fun hno => ?_⟩
  · rcases hs with hs | hs <;> simp [memberLine, Dep.src, hs, hp, hw]
  · have hf : ms.find? (fun o => decide (o.dir = v.at m.dir x)) = some o := by
      cases hf : ms.find? (fun o => decide (o.dir = v.at m.dir x)) with
      | none => exact absurd (by simpa using hod) (List.find?_eq_none.1 hf o ho)
      | some q =>
        have hq := List.find?_some hf
        simp only [decide_eq_true_eq] at hq
        have hqm := List.mem_of_find?_eq_some hf
        rw [List.inj_on_of_nodup_map hdup hqm ho (hq.trans hod.symm)]
    have hg : goal v p ms m x = home p o.man.name := by unfold goal; rw [hf]
    rw [hg]
    exact rel_leads _ _ (hc' o ho)
  · have hg : goal v p ms m x = v.at m.dir x := by
      unfold goal
      rw [List.find?_eq_none.2 fun o ho => by simpa using hno o ho]
    rw [hg]
    exact rel_leads _ _ hc

theorem mem_addAll (fs gs : List Text) (f : Text) : f ∈ fs.foldl (fun acc f => if f ∈ acc then acc else acc ++ [f]) gs ↔ f ∈ gs ∨ f ∈ fs := by
  induction fs generalizing gs with
  | nil => simp
  | cons a fs ih =>
    rw [List.foldl_cons, ih]
    split
    · rename_i h
      simp only [List.mem_cons]
      constructor
      · tauto
      · rintro (h' | rfl | h') <;> tauto
    · simp only [List.mem_append, List.mem_cons]; tauto

/-- **Inheriting** a shared crates.io dependency means what `resolve_workspace_dep` says: the shared version,
and the features of both. -/
theorem inherit_exact_partial (v : Env) (p : Dir) (ms : List Member) (m : Member) (deps : Table Dep) (n : Text) (w : Dep) (d : Det)
    (hr : Accepts (rootTable v p deps)) (ha : Accepts (memberTable v p ms m)) (hd : get m.man.deps n = some (.det d)) (hw : d.workspace = true) (hs : d.source = none) (hwd : get deps n = some w) (hk : srcOf v n w = .cratesIo) :
    ∃ l r e s, get (memberTable v p ms m) n = some l ∧ means (rootTable v p deps) n l = some r ∧ inherit deps n d = some e ∧ rootLine v p n e = some s ∧
      r.version = s.version ∧ (∀ f, f ∈ r.features ↔ f ∈ s.features) ∧ r.path = none ∧ r.git = none := by
  have hl : memberLine v p ms m (.det d) = some { ws := true, features := d.features } := by
    have : ¬ ((Dep.det d).src = .pypi ∨ (Dep.det d).src = .system) := by
      simp only [Dep.src, hs, Option.getD_none]
      split
      · decide
      · split <;> decide
    simp only [memberLine, if_neg this, hw, if_true]
  have hgm := get_member v p ms m n _ _ ha hd hl
  cases w with
  | simple x =>
    have hk' : (v.known n).getD .registry = .cratesIo := hk
    have hrl : rootLine v p n (.simple x) = some { version := some x } := by simp only [rootLine, hk]
    have hgr := get_root v p deps n _ _ hr hwd hrl
    have hme : means (rootTable v p deps) n { ws := true, features := d.features } = some { version := some x, features := [] ++ d.features, optional := false } := by
      simp only [means, if_true, hgr]; rfl
    by_cases hf : d.features = []
    · exact ⟨_, _, .simple x, _, hgm, hme, by simp only [inherit, hwd, if_pos hf], hrl, rfl, fun f => by simp [hf], rfl, rfl⟩
    · have : srcOf v n (.det { version := some x, features := d.features }) = .cratesIo := hk'
      exact ⟨_, _, .det { version := some x, features := d.features }, { version := some x, features := d.features }, hgm, hme, by simp only [inherit, hwd, if_neg hf], by simp only [rootLine, this]; rfl, rfl, fun f => by simp, rfl, rfl⟩
  | det e =>
    have hrl : rootLine v p n (.det e) = some { version := some (e.version.getD ['*']), features := e.features, optional := e.optional } := by simp only [rootLine, hk]
    have hgr := get_root v p deps n _ _ hr hwd hrl
    have hme : means (rootTable v p deps) n { ws := true, features := d.features } = some { version := some (e.version.getD ['*']), features := e.features ++ d.features, optional := false } := by
      simp only [means, if_true, hgr]; rfl
    by_cases hf : d.features = []
    · exact ⟨_, _, .det e, _, hgm, hme, by simp only [inherit, hwd, if_pos hf], hrl, rfl, fun f => by simp [hf], rfl, rfl⟩
    · have : srcOf v n (.det { e with features := d.features.foldl (fun fs f => if f ∈ fs then fs else fs ++ [f]) e.features }) = .cratesIo := hk
      exact ⟨_, _, .det { e with features := d.features.foldl (fun fs f => if f ∈ fs then fs else fs ++ [f]) e.features }, { version := some (e.version.getD ['*']), features := d.features.foldl (fun fs f => if f ∈ fs then fs else fs ++ [f]) e.features, optional := e.optional }, hgm, hme,
        by simp only [inherit, hwd, if_neg hf], by simp only [rootLine, this], rfl, fun f => by rw [mem_addAll]; exact List.mem_append, rfl, rfl⟩

/-- **Python and system dependencies stay out of a member's file.** -/
theorem other_languages_out (v : Env) (p : Dir) (ms : List Member) (m : Member) (n : Text) (d : Dep) (hd : d.src = .pypi ∨ d.src = .system) (hn : n ∉ core) (hse : n ≠ serde)
    (hdup : (m.man.deps.map (·.1)).Nodup) (hg : get m.man.deps n = some d) : ∀ l, (n, l) ∉ memberTable v p ms m := by
  intro l hl
  unfold memberTable at hl
  rcases List.mem_append.1 hl with hl | hl
  · rcases List.mem_append.1 hl with hl | hl
    · obtain ⟨c, hc, he⟩ := List.mem_map.1 hl
      cases he; exact hn hc
    · split at hl
      · cases hl
      · rw [List.mem_singleton] at hl; exact hse (Prod.mk.inj hl).1
  · obtain ⟨⟨a, e⟩, hx, he⟩ := List.mem_filterMap.1 hl
    obtain ⟨l', hl', he'⟩ := Option.map_eq_some_iff.1 he
    have ha : a = n := (Prod.mk.inj he').1
    subst ha
    have := get_of_mem _ hdup a e hx
    rw [hg] at this
    cases this
    simp only [memberLine, if_pos hd] at hl'
    cases hl'

/-- **Finding: a HORUS registry package of a member is taken from crates.io.** A plain `name = "version"`
(and any dependency without a source) is a registry package: the shared table points it at the installed
package. In a member's own table the same entry is a crates.io requirement, so whoever owns that name
there supplies the code. -/
theorem registry_from_crates_io (v : Env) (p : Dir) (ms : List Member) (m : Member) (n x : Text) (hi : v.installed n = true) (hk : v.known n = none) :
    (Dep.simple x).src = .registry ∧ rootLine v p n (.simple x) = some { path := some [['p', 'a', 'c', 'k', 'a', 'g', 'e', 's'], n] } ∧
    memberLine v p ms m (.simple x) = some { version := some x } := by
  refine ⟨rfl, ?_, rfl⟩
  simp [rootLine, srcOf, Dep.src, hk, hi]

/-- **Finding: sharing `serde` breaks the workspace.** The generator writes its own `serde` into the shared
table without looking; a declared one makes the name occur twice and cargo refuses the file. -/
theorem shared_serde_refused (v : Env) (p : Dir) (deps : Table Dep) (d : Det) (hd : get deps serde = some (.det d)) (hs : d.source = some .cratesIo) : ¬ Accepts (rootTable v p deps) := by
  intro ha
  have hnd := ha.1
  unfold rootTable at hnd
  rw [List.map_append, List.nodup_append] at hnd
  refine hnd.2.2 serde (by simp) serde ?_ rfl
  refine List.mem_map.2 ⟨(serde, ({ version := some (d.version.getD ['*']), features := d.features, optional := d.optional } : Line)), List.mem_filterMap.2 ⟨(serde, .det d), mem_of_get _ _ _ hd, ?_⟩, rfl⟩
  simp [rootLine, srcOf, Dep.src, hs]

/-- **Finding: a shared dependency marked optional breaks it too**: the mark is written into the shared table,
where cargo does not allow it. -/
theorem shared_optional_refused (v : Env) (p : Dir) (deps : Table Dep) (n : Text) (d : Det) (hd : get deps n = some (.det d)) (hs : d.source = some .cratesIo) (ho : d.optional = true) : ¬ AcceptsShared (rootTable v p deps) := by
  intro ha
  have h1 := get_root v p deps n (.det d) { version := some (d.version.getD ['*']), features := d.features, optional := d.optional } ha.1 hd (by simp [rootLine, srcOf, Dep.src, hs])
  have := ha.2 _ (mem_of_get _ _ _ h1)
  rw [ho] at this
  cases this

/-- **Finding: so does a member that declares `horus`, `horus_core` or `horus_macros` itself.** -/
theorem member_horus_refused (v : Env) (p : Dir) (ms : List Member) (m : Member) (n : Text) (d : Dep) (hn : n ∈ core) (hd : get m.man.deps n = some d) (hs : ¬ (d.src = .pypi ∨ d.src = .system)) : ¬ Accepts (memberTable v p ms m) := by
  intro ha
  have hl : ∃ l, memberLine v p ms m d = some l := by
    cases d with
    | simple x => exact ⟨_, rfl⟩
    | det d =>
      simp only [memberLine, if_neg hs]
      split
      · exact ⟨_, rfl⟩
      · cases d.path <;> exact ⟨_, rfl⟩
  obtain ⟨l, hl⟩ := hl
  have hnd := ha.1
  unfold memberTable at hnd
  rw [List.map_append, List.nodup_append] at hnd
  refine hnd.2.2 n ?_ n ?_ rfl
  · rw [List.map_append, List.mem_append]
    left
    simpa using hn
  · refine List.mem_map.2 ⟨(n, l), List.mem_filterMap.2 ⟨(n, d), mem_of_get _ _ _ hd, ?_⟩, rfl⟩
    rw [hl]; rfl

/-- **Finding: a scoped name breaks the file**: `@org/pkg` is a valid package name and written unquoted. -/
theorem scoped_refused (v : Env) (p : Dir) (ms : List Member) (m : Member) (n : Text) (d : Dep) (l : Line) (hd : get m.man.deps n = some d) (hl : memberLine v p ms m d = some l) (hb : '@' ∈ n ∨ '/' ∈ n) : ¬ Accepts (memberTable v p ms m) := by
  intro ha
  have hm : (n, l) ∈ memberTable v p ms m := mem_of_get _ _ _ (get_member v p ms m n d l ha hd hl)
  have := ha.2 _ hm
  simp only [bare, Bool.and_eq_true, List.all_eq_true] at this
  rcases hb with hb | hb
  · exact absurd (this.2 _ hb) (by decide)
  · exact absurd (this.2 _ hb) (by decide)

/-- **Finding: a shared Python dependency breaks the Rust build.** `workspace = true` in a member says
nothing about the language, so the member inherits from cargo's shared table a name that is not there;
likewise a registry package that is not installed. Nothing checks this when the files are written. -/
theorem inherited_missing (v : Env) (p : Dir) (ms : List Member) (m : Member) (deps : Table Dep) (n : Text) (w : Dep) (d : Det)
    (hdup : (deps.map (·.1)).Nodup) (hwd : get deps n = some w) (hw' : srcOf v n w = .pypi ∨ srcOf v n w = .system ∨ (srcOf v n w = .registry ∧ v.installed n = false))
    (hh : n ∉ v.horus.map (·.1)) (hse : n ≠ serde) (hw : d.workspace = true) (hs : d.source = none) :
    ∃ l, memberLine v p ms m (.det d) = some l ∧ means (rootTable v p deps) n l = none := by
  refine ⟨{ ws := true, features := d.features }, ?_, ?_⟩
  · have : ¬ ((Dep.det d).src = .pypi ∨ (Dep.det d).src = .system) := by
      simp only [Dep.src, hs, Option.getD_none]
      split
      · decide
      · split <;> decide
    simp only [memberLine, if_neg this, hw, if_true]
  · have hrl : rootLine v p n w = none := by
      rcases hw' with h | h | ⟨h, hi⟩
      · cases w <;> simp only [rootLine, h]
      · cases w <;> simp only [rootLine, h]
      · cases w <;> simp [rootLine, h, hi]
    have : get (rootTable v p deps) n = none := by
      cases hg : get (rootTable v p deps) n with
      | none => rfl
      | some l =>
        have hm := mem_of_get _ _ _ hg
        unfold rootTable at hm
        rcases List.mem_append.1 hm with hm | hm
        · rcases List.mem_append.1 hm with hm | hm
          · obtain ⟨x, hx, he⟩ := List.mem_map.1 hm
            exact absurd (List.mem_map.2 ⟨x, hx, (Prod.mk.inj he).1⟩) hh
          · rw [List.mem_singleton] at hm; exact absurd (Prod.mk.inj hm).1 hse
        · obtain ⟨⟨a, e⟩, hx, he⟩ := List.mem_filterMap.1 hm
          obtain ⟨l', hl', he'⟩ := Option.map_eq_some_iff.1 he
          have ha : a = n := (Prod.mk.inj he').1
          subst ha
          have := get_of_mem _ hdup a e hx
          rw [hwd] at this
          cases this
          rw [hrl] at hl'
          cases hl'
    simp only [means, if_true, this]; rfl

/-- **Finding: what is dropped.** An inherited dependency loses its optional mark, a path dependency its
features and optional mark. -/
theorem marks_dropped (v : Env) (p : Dir) (ms : List Member) (m : Member) (x : Text) (fs : List Text) (o : Bool) :
    memberLine v p ms m (.det { workspace := true, features := fs, optional := o }) = some { ws := true, features := fs } ∧
    memberLine v p ms m (.det { path := some x, features := fs, optional := o }) = memberLine v p ms m (.det { path := some x }) := ⟨rfl, rfl⟩

/-- **Finding: the network is never built in.** In a single package `enable = ["net"]` or `--net` puts a
feature on the `horus` crate (cargo_gen.rs:273-311, 333-360); the shared table of a workspace does not
depend on either. -/
theorem net_ignored (v : Env) (p : Dir) (root : Manifest) (deps : Table Dep) (ms : List Member) (e : List Text) (b : Bool) :
    (generate { v with net := b } p { root with enable := e } deps ms).shared = (generate v p root deps ms).shared := by
  have : ∀ n d, rootLine { v with net := b } p n d = rootLine v p n d := by
    intro n d; cases d <;> rfl
  simp only [generate, rootTable, this]

/-! ### Theorems: directories and running -/

/-- **Each member has its own build directory** if the names stay different when cleaned. -/
theorem own_directory_partial (v : Env) (p : Dir) (root : Manifest) (deps : Table Dep) (ms : List Member) (hn : (ms.map fun m => clean m.man.name).Nodup) (m : Member) (hm : m ∈ ms) :
    clean m.man.name ∈ (generate v p root deps ms).members ∧ (generate v p root deps ms).manifest (clean m.man.name) = some m := by
  refine ⟨List.mem_map.2 ⟨m, hm, rfl⟩, ?_⟩
  unfold Out.manifest generate
  dsimp only
  have := get_of_mem (ms.map fun m => (clean m.man.name, m)).reverse (by rw [List.map_reverse, List.nodup_reverse, List.map_map]; exact hn) (clean m.man.name) m (by simpa using hm)
  exact this

/-- **Finding: two members can share a directory**, and the later one replaces the earlier: `a/b` and `a_b`
are valid names with one cleaned form. -/
theorem member_replaced (v : Env) (p : Dir) (root : Manifest) (deps : Table Dep) (a b : Member) (h : clean a.man.name = clean b.man.name) :
    (generate v p root deps [a, b]).manifest (clean a.man.name) = some b := by
  simp [Out.manifest, generate, h]

/-- The two names. -/
example : clean ['a', '/', 'b'] = clean ['a', '_', 'b'] := by decide

/-- **Finding: a package in the root of the workspace is not built**: the members listed are those of the
patterns, whatever the root manifest says. -/
theorem root_package_left_out (v : Env) (p : Dir) (root : Manifest) (deps : Table Dep) (ms : List Member) (h : ∀ m ∈ ms, clean m.man.name ≠ clean root.name) :
    clean root.name ∉ (generate v p root deps ms).members := by
  intro hm
  obtain ⟨m, hm, he⟩ := List.mem_map.1 hm
  exact h m hm he

/-- The members a build compiles: one, or all (run/mod.rs:287-293). -/
def chosen (ms : List Member) : Option Text → List Member
  | some n => ms.filter fun m => decide (clean m.man.name = n)
  | none => ms

/-- **A member's library is built exactly if its source is there and the member is a library or both; its
program exactly if a main source is there and the member is a program or both.** -/
theorem targets_exact (v : Env) (m : Member) :
    ((targets v m).1 = true ↔ (m.man.target = .lib ∨ m.man.target = .both) ∧ v.file m.dir ['l', 'i', 'b'] = true) ∧
      ((targets v m).2 = true ↔ (m.man.target = .bin ∨ m.man.target = .both) ∧ (v.file m.dir ['m', 'a', 'i', 'n'] = true ∨ v.file m.dir ['r', 'o', 'o', 't'] = true)) := by
  unfold targets
  cases m.man.target <;> simp

/-- `execute_workspace` (run/mod.rs:263-316): what is on disk afterwards, the program that was started, and
whether the command reports success. `bins`: programs that earlier builds left; `ok`: the member compiles
and has a target. Cargo refuses `-p` with a name it does not have. -/
def execute (v : Env) (ms : List Member) (ok : Text → Bool) (bins : List Text) (pkg : Option Text) : List Text × Option Text × Bool :=
  let c := chosen ms pkg
  if (pkg.isSome && c.isEmpty) || !(c.all fun m => ok (clean m.man.name)) then (bins, none, false)
  else
    let bins := bins ++ (c.filter fun m => (targets v m).2).map fun m => clean m.man.name
    match pkg with
    | some n => (bins, if n ∈ bins then some n else none, true)
    | none => (bins, none, true)

/-- **`horus run -p member`** starts that member's program whenever the build succeeds and the member has
one. -/
theorem run_member (v : Env) (ms : List Member) (ok : Text → Bool) (bins : List Text) (m : Member) (hm : m ∈ ms) (hp : (targets v m).2 = true) (hs : (execute v ms ok bins (some (clean m.man.name))).2.2 = true) :
    (execute v ms ok bins (some (clean m.man.name))).2.1 = some (clean m.man.name) := by
  unfold execute at hs ⊢
  dsimp only at hs ⊢
  split
  · rename_i h; rw [if_pos h] at hs; cases hs
  · dsimp only
    rw [if_pos]
    refine List.mem_append.2 (Or.inr (List.mem_map.2 ⟨m, List.mem_filter.2 ⟨?_, hp⟩, rfl⟩))
    exact List.mem_filter.2 ⟨hm, by simp⟩

/-- **A failed build runs nothing.** -/
theorem failed_runs_nothing (v : Env) (ms : List Member) (ok : Text → Bool) (bins : List Text) (pkg : Option Text) (h : (execute v ms ok bins pkg).2.2 = false) : (execute v ms ok bins pkg).2.1 = none := by
  unfold execute at h ⊢
  dsimp only at h ⊢
  split
  · rfl
  · rename_i hc
    rw [if_neg hc] at h
    cases pkg <;> cases h

/-- **Finding: `horus run` in a workspace runs nothing** and reports success, unless a member is named. -/
theorem plain_run_runs_nothing (v : Env) (ms : List Member) (ok : Text → Bool) (bins : List Text) (h : ∀ m ∈ ms, ok (clean m.man.name) = true) :
    (execute v ms ok bins none).2 = (none, true) := by
  unfold execute
  dsimp only [chosen]
  rw [if_neg]
  simpa using h

/-- **Finding: naming a library reports success and runs nothing; and if an earlier version of that member
was a program, the old program is started.** -/
theorem library_run (v : Env) (ms : List Member) (ok : Text → Bool) (bins : List Text) (m : Member) (hm : m ∈ ms) (hd : ∀ o ∈ ms, clean o.man.name = clean m.man.name → (targets v o).2 = false) (h : ok (clean m.man.name) = true) :
    (execute v ms ok bins (some (clean m.man.name))).2 = (if clean m.man.name ∈ bins then some (clean m.man.name) else none, true) := by
  have hf : ((chosen ms (some (clean m.man.name))).filter fun m => (targets v m).2) = [] := by
    rw [List.filter_eq_nil_iff]
    intro o ho
    obtain ⟨h1, h2⟩ := List.mem_filter.1 ho
    simp [hd o h1 (by simpa using h2)]
  unfold execute
  dsimp only
  rw [if_neg, hf]
  · simp
  · simp only [Bool.or_eq_true, Bool.and_eq_true, Option.isSome_some, true_and, List.isEmpty_iff, Bool.not_eq_true', not_or, Bool.not_eq_false]
    refine ⟨?_, ?_⟩
    · intro he
      have : m ∈ chosen ms (some (clean m.man.name)) := List.mem_filter.2 ⟨hm, by simp⟩
      rw [he] at this; cases this
    · rw [List.all_eq_true]
      intro o ho
      have := (List.mem_filter.1 ho).2
      simp only [decide_eq_true_eq] at this
      rw [this]; exact h

/-! ### A concrete workspace -/

/-- Facts of the example. -/
def exEnv : Env := ⟨fun _ => false, fun _ => none, [(['h', 'o', 'r', 'u', 's'], [['s']])], fun d x => if x = ['u'] then [['w'], ['b']] else d, fun _ f => decide (f = ['m', 'a', 'i', 'n']), false⟩
/-- A member that uses the other, a crate and an inherited crate. -/
def exA : Member := ⟨[['w'], ['a']], { name := ['a'], deps := [(['b'], .det { path := some ['u'] }), (['l', 'o', 'g'], .det { version := some ['1'], source := some .cratesIo }), (['r'], .det { workspace := true, features := [['f']] })] }⟩
/-- The other. -/
def exB : Member := ⟨[['w'], ['b']], { name := ['b'] }⟩

example : Accepts (memberTable exEnv [['w']] [exA, exB] exA) := by unfold Accepts; decide +kernel
example : Accepts (rootTable exEnv [['w']] [(['r'], .det { version := some ['2'], source := some .cratesIo, features := [['g']] })]) := by unfold Accepts; decide +kernel
example : get (memberTable exEnv [['w']] [exA, exB] exA) ['b'] = some { path := some [['.', '.'], ['b']] } := by decide +kernel
example : (execute exEnv [exA, exB] (fun _ => true) [] (some ['a'])).2 = (some ['a'], true) := by decide +kernel

end Horus.Members
