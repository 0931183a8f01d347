import Mathlib.Data.List.Basic
import Mathlib.Data.List.Nodup
import Mathlib.Data.List.Lookmap
import Mathlib.Tactic.Common
/-
`horus cargo ARGS`: `.horus/Cargo.toml` is written from `horus.toml`, cargo runs on it, and what cargo changed is taken back into `horus.toml`.
Sources: /repo/horus_manager/src/commands/proxy.rs:91-199, native_sync.rs, cargo_gen.rs:35-155 (single package), 546-742, commands/migrate.rs:172-326,
manifest.rs:625-805. A table in a file is a list of entries; TOML refuses a table in which a name occurs twice.
-/
namespace Horus.NativeSync

/-- manifest.rs:631-647. -/
inductive Src | registry | cratesIo | pypi | system | path | git
  deriving DecidableEq, Repr

/-- manifest.rs:667-723; `apt`, `cmake_package`, `lang` and `workspace` are left out: cargo's side never sees them. -/
structure Det where
  version : Option String := none
  source : Option Src := none
  features : List String := []
  optional : Bool := false
  path : Option String := none
  git : Option String := none
  branch : Option String := none
  tag : Option String := none
  rev : Option String := none
  deriving DecidableEq, Repr

/-- manifest.rs:752-759. -/
inductive Dep | simple (v : String) | det (d : Det)
  deriving DecidableEq, Repr

/-- manifest.rs:730-741, 771-776. -/
def Dep.src : Dep → Src
  | .simple _ => .registry
  | .det d => d.source.getD (if d.path.isSome then .path else if d.git.isSome then .git else .registry)

/-- manifest.rs:763-768. -/
def Dep.version : Dep → Option String
  | .simple v => some v
  | .det d => d.version

/-- manifest.rs:779-784. -/
def Dep.features : Dep → List String
  | .simple _ => []
  | .det d => d.features

/-- An entry of cargo's `[dependencies]`; `x = "1"` and `x = { version = "1" }` mean the same. -/
structure Line where
  version : Option String := none
  features : List String := []
  optional : Bool := false
  path : Option String := none
  git : Option String := none
  branch : Option String := none
  tag : Option String := none
  rev : Option String := none
  deriving DecidableEq, Repr

abbrev Table (α : Type) := List (String × α)

def get {α : Type} (t : Table α) (n : String) : Option α := t.lookup n

/-- migrate.rs:203-326. -/
def extract (l : Line) : Dep :=
  .det ⟨l.version, some (if l.path.isSome then .path else if l.git.isSome then .git else .cratesIo), l.features, l.optional, l.path, l.git, l.branch, l.tag, l.rev⟩

/-- What else decides about the generated file: the well-known names (`source_resolver`, high confidence only), the registry packages that are
installed, the path of a directory as seen from `.horus` (cargo_gen.rs:744-791), the entries for HORUS itself (333-372), the crate of generated messages
(319-331), the entries for drivers (163-230), and the names native_sync.rs:313-328 takes for drivers. -/
structure Env where
  known : String → Option Src
  installed : String → Bool
  rel : String → String
  horus : Table Line
  msgs : Option (String × String)
  drivers : Table Line
  driverNames : List String

/-- native_sync.rs:46-57. -/
def internal (n : String) : Bool := n ∈ ["horus", "horus_core", "horus_library", "horus_macros", "horus_sys", "horus-py", "horus-robotics"]

def skip (v : Env) (n : String) : Bool := internal n || decide (n ∈ v.driverNames)

/-- cargo_gen.rs:557-571. -/
def srcOf (v : Env) (n : String) (d : Dep) : Src :=
  match d.src with
  | .registry => (v.known n).getD .registry
  | s => s

/-- cargo_gen.rs:572-612, 695-742. -/
def write (v : Env) (n : String) (d : Dep) : Option Line :=
  match srcOf v n d, d with
  | .cratesIo, .simple x => some { version := some x }
  | .cratesIo, .det d => some { version := some (d.version.getD "*"), features := d.features, optional := d.optional }
  | .path, .det d => d.path.map fun p => { path := some (v.rel p) }
  | .git, .det d => some { git := some (d.git.getD ""), branch := d.branch, tag := d.tag, rev := d.rev }
  | .registry, _ => if v.installed n then some { path := some ("packages/" ++ n) } else none
  | _, _ => none

/-- cargo_gen.rs:251-259. -/
def implicit (man : Table Dep) : Table Line :=
  if (get man "serde").isNone then [("serde", { version := some "1", features := ["derive"] })] else []

/-- cargo_gen.rs:319-331. -/
def msgsLine (v : Env) : Table Line := v.msgs.toList.map fun m => (m.1, { path := some m.2 })

def userLines (v : Env) (man : Table Dep) : Table Line := man.filterMap fun x => (write v x.1 x.2).map fun l => (x.1, l)

/-- cargo_gen.rs:103-127: `[dependencies]`. -/
def gen (v : Env) (man : Table Dep) : Table Line := v.horus ++ implicit man ++ msgsLine v ++ userLines v man ++ v.drivers

/-- A table that cargo accepts. -/
def Valid {α : Type} (t : Table α) : Prop := (t.map Prod.fst).Nodup

/-- native_sync.rs:278-307; the features are compared as sorted lists. -/
def same (a b : Dep) : Bool :=
  decide (a.version = b.version) && decide (a.src = b.src) && decide (a.features.mergeSort (fun x y => decide (x ≤ y)) = b.features.mergeSort (fun x y => decide (x ≤ y))) &&
  match a, b with
  | .det x, .det y => decide (x.optional = y.optional) && decide (x.path = y.path) && decide (x.git = y.git) && decide (x.branch = y.branch) && decide (x.tag = y.tag) && decide (x.rev = y.rev)
  | _, _ => true

/-- native_sync.rs:169-177, for cargo. -/
def belongs (d : Dep) : Bool := decide (d.src = .cratesIo) || decide (d.src = .path) || decide (d.src = .git)

/-- native_sync.rs:137-189. -/
def sync (v : Env) (native man : Table Dep) : Table Dep :=
  (man.filterMap fun x => if skip v x.1 then some x else match get native x.1 with
    | some d => some (x.1, if same x.2 d then x.2 else d)
    | none => if belongs x.2 then none else some x) ++
  native.filter fun x => !skip v x.1 && (get man x.1).isNone

/-- migrate.rs:191-232. -/
def read (file : Table Line) : Table Dep := (file.filter fun x => !internal x.1).map fun x => (x.1, extract x.2)

structure Manifest where
  deps : Table Dep
  dev : Table Dep

/-- What cargo left behind. -/
structure File where
  deps : Table Line
  dev : Table Line
  deriving DecidableEq

/-- proxy.rs:185-189: `include_dev` is `false`. -/
def generated (v : Env) (m : Manifest) : File := ⟨gen v m.deps, []⟩

/-- proxy.rs:92-176: `now` is `horus.toml` after cargo has run, read again. The comparison by SHA-256 is one by content. -/
def cycle (v : Env) (before now : Manifest) (after : File) : Manifest :=
  if after = generated v before then now else ⟨sync v (read after.deps) now.deps, sync v (read after.dev) now.dev⟩

/-! ### Lists as tables -/

theorem get_cons {α : Type} (x : String × α) (t : Table α) (n : String) : get (x :: t) n = if n = x.1 then some x.2 else get t n := by
  unfold get
  rw [List.lookup_cons]
  by_cases h : n = x.1
  · simp [h]
  · simp [h, beq_eq_false_iff_ne.2 h]

theorem get_none {α : Type} (t : Table α) (n : String) : get t n = none ↔ n ∉ t.map Prod.fst := by
  induction t with
  | nil => simp [get]
  | cons x t ih =>
    rw [get_cons]
    by_cases h : n = x.1
    · simp [h]
    · rw [if_neg h, ih]; simp [h]

theorem get_append {α : Type} (s t : Table α) (n : String) : get (s ++ t) n = (get s n).or (get t n) := by
  induction s with
  | nil => simp [get]
  | cons x s ih =>
    rw [List.cons_append, get_cons, get_cons, ih]
    by_cases h : n = x.1 <;> simp [h]

theorem get_mem {α : Type} (t : Table α) (n : String) (a : α) (h : get t n = some a) : (n, a) ∈ t := by
  induction t with
  | nil => cases h
  | cons x t ih =>
    rw [get_cons] at h
    by_cases hx : n = x.1
    · rw [if_pos hx] at h; injection h with h; subst hx h; simp
    · rw [if_neg hx] at h; exact List.mem_cons_of_mem _ (ih h)

theorem get_of_mem {α : Type} (t : Table α) (hv : Valid t) (n : String) (a : α) (h : (n, a) ∈ t) : get t n = some a := by
  induction t with
  | nil => cases h
  | cons x t ih =>
    unfold Valid at hv
    rw [List.map_cons, List.nodup_cons] at hv
    rw [get_cons]
    rcases List.mem_cons.1 h with h | h
    · subst h; simp
    · have : n ≠ x.1 := fun e => hv.1 (e ▸ List.mem_map.2 ⟨_, h, rfl⟩)
      rw [if_neg this]; exact ih hv.2 h

theorem get_filter {α : Type} (p : String → Bool) (t : Table α) (n : String) : get (t.filter fun x => p x.1) n = if p n then get t n else none := by
  induction t with
  | nil => simp [get]
  | cons x t ih =>
    rw [List.filter_cons]
    by_cases hx : p x.1 = true
    · rw [if_pos hx, get_cons, get_cons, ih]
      by_cases hn : n = x.1
      · rw [if_pos hn, if_pos hn, hn, if_pos hx]
      · rw [if_neg hn, if_neg hn]
    · rw [if_neg hx, ih, get_cons]
      by_cases hn : n = x.1
      · rw [hn, if_neg hx, if_neg hx]
      · rw [if_neg hn]

theorem get_map {α β : Type} (f : α → β) (t : Table α) (n : String) : get (t.map fun x => (x.1, f x.2)) n = (get t n).map f := by
  induction t with
  | nil => simp [get]
  | cons x t ih =>
    rw [List.map_cons, get_cons, get_cons, ih]
    by_cases hn : n = x.1 <;> simp [hn]

/-- A table mapped entry by entry, each name going to itself or being dropped. -/
theorem get_filterMap {α β : Type} (f : String → α → Option β) (t : Table α) (hv : Valid t) (n : String) :
    get (t.filterMap fun x => (f x.1 x.2).map fun b => (x.1, b)) n = (get t n).bind (f n) := by
  induction t with
  | nil => simp [get]
  | cons x t ih =>
    unfold Valid at hv
    rw [List.map_cons, List.nodup_cons] at hv
    rw [List.filterMap_cons, get_cons]
    by_cases hn : n = x.1
    · rw [if_pos hn, Option.bind_some]
      cases hf : f x.1 x.2 with
      | none =>
        simp only [Option.map_none]
        rw [ih hv.2, hn, hf, (get_none t x.1).2 hv.1]; rfl
      | some b => simp only [Option.map_some]; rw [get_cons, if_pos hn, hn, hf]
    · rw [if_neg hn]
      cases hf : f x.1 x.2 with
      | none => simp only [Option.map_none]; exact ih hv.2
      | some b => simp only [Option.map_some]; rw [get_cons, if_neg hn]; exact ih hv.2

theorem valid_filterMap {α β : Type} (f : String → α → Option β) (t : Table α) (hv : Valid t) : Valid (t.filterMap fun x => (f x.1 x.2).map fun b => (x.1, b)) := by
  unfold Valid at *
  induction t with
  | nil => simp
  | cons x t ih =>
    rw [List.map_cons, List.nodup_cons] at hv
    rw [List.filterMap_cons]
    cases hf : f x.1 x.2 with
    | none => simp only [Option.map_none]; exact ih hv.2
    | some b =>
      simp only [Option.map_some]
      rw [List.map_cons, List.nodup_cons]
      refine ⟨fun h => hv.1 ?_, ih hv.2⟩
      rw [List.mem_map] at h ⊢
      obtain ⟨y, hy, he⟩ := h
      rw [List.mem_filterMap] at hy
      obtain ⟨z, hz, hm⟩ := hy
      refine ⟨z, hz, ?_⟩
      cases hfz : f z.1 z.2 with
      | none => rw [hfz] at hm; cases hm
      | some c => rw [hfz] at hm; injection hm with hm; rw [← he, ← hm]

/-! ### Taking the file back -/

/-- Specification of the entry for one name: `m` in `horus.toml`, `f` in cargo's file. -/
def back (skipped : Bool) (m f : Option Dep) : Option Dep :=
  if skipped then m else match m, f with
  | some e, some d => some (if same e d then e else d)
  | none, some d => some d
  | some e, none => if belongs e then none else some e
  | none, none => none

theorem sync_eq (v : Env) (native man : Table Dep) : sync v native man =
    (man.filterMap fun x => ((fun n e => back (skip v n) (some e) (get native n)) x.1 x.2).map fun b => (x.1, b)) ++ native.filter fun x => (fun n => !skip v n && (get man n).isNone) x.1 := by
  unfold sync
  congr 1
  apply List.filterMap_congr
  intro x _
  unfold back
  by_cases hs : skip v x.1 = true
  · simp [hs]
  · simp only [hs]
    cases get native x.1 with
    | some d => simp
    | none => by_cases hb : belongs x.2 = true <;> simp [hb]

/-- **Each name is treated on its own**: the entry after the sync depends on the entry before and on cargo's entry, nothing else. -/
theorem sync_spec (v : Env) (native man : Table Dep) (hm : Valid man) (n : String) : get (sync v native man) n = back (skip v n) (get man n) (get native n) := by
  rw [sync_eq, get_append, get_filterMap (fun n e => back (skip v n) (some e) (get native n)) man hm, get_filter (fun n => !skip v n && (get man n).isNone)]
  cases hmn : get man n with
  | none =>
    unfold back
    cases skip v n <;> simp
    cases get native n <;> rfl
  | some e => simp

theorem sync_valid (v : Env) (native man : Table Dep) (hm : Valid man) (hn : Valid native) : Valid (sync v native man) := by
  rw [sync_eq]
  unfold Valid
  rw [List.map_append, List.nodup_append]
  refine ⟨valid_filterMap (fun n e => back (skip v n) (some e) (get native n)) man hm, (show Valid native from hn).sublist (List.filter_sublist.map _), ?_⟩
  rintro a ha b hb rfl
  rw [List.mem_map] at ha hb
  obtain ⟨x, hx, rfl⟩ := ha
  obtain ⟨y, hy, he⟩ := hb
  rw [List.mem_filter] at hy
  rw [List.mem_filterMap] at hx
  obtain ⟨z, hz, hzx⟩ := hx
  have hzn : z.1 = x.1 := by
    dsimp only at hzx
    cases hb : back (skip v z.1) (some z.2) (get native z.1) with
    | none => rw [hb] at hzx; cases hzx
    | some c => rw [hb] at hzx; injection hzx with hzx; rw [← hzx]
  have := hy.2
  rw [Bool.and_eq_true, Option.isNone_iff_eq_none, get_none] at this
  exact this.2 (List.mem_map.2 ⟨z, hz, by rw [hzn, he]⟩)

theorem get_read (file : Table Line) (n : String) : get (read file) n = if internal n then none else (get file n).map extract := by
  unfold read
  rw [get_map extract (file.filter fun x => !internal x.1) n, get_filter (fun n => !internal n)]
  by_cases h : internal n = true <;> simp [h]

/-- **What cargo added or changed is in `horus.toml` afterwards**, up to fields that say the same; **what it removed is gone.** -/
theorem change_taken (v : Env) (before now : Manifest) (after : File) (hm : Valid now.deps) (hc : after ≠ generated v before) (n : String) (hs : skip v n = false) :
    (∀ l, get after.deps n = some l → ∃ d, get (cycle v before now after).deps n = some d ∧ (d = extract l ∨ same d (extract l) = true)) ∧
    (get after.deps n = none → ∀ e, get now.deps n = some e → belongs e = true → get (cycle v before now after).deps n = none) := by
  have hi : internal n = false := by
    unfold skip at hs
    rw [Bool.or_eq_false_iff] at hs
    exact hs.1
  unfold cycle
  rw [if_neg hc]
  dsimp only
  rw [sync_spec v _ _ hm, hs, get_read, hi]
  constructor
  · intro l hl
    simp only [Bool.false_eq_true, if_false]
    rw [hl]
    cases hn : get now.deps n with
    | none => exact ⟨_, rfl, Or.inl rfl⟩
    | some e =>
      simp only [back, Option.map_some, Bool.false_eq_true, if_false]
      by_cases h : same e (extract l) = true
      · exact ⟨e, by rw [if_pos h], Or.inr h⟩
      · exact ⟨_, by rw [if_neg h], Or.inl rfl⟩
  · intro hl e he hb
    simp [back, hl, he, hb]

/-- A cargo command that changes nothing in its file changes nothing in `horus.toml`. -/
theorem no_change (v : Env) (before now : Manifest) : cycle v before now (generated v before) = now := by
  unfold cycle; rw [if_pos rfl]

/-- HORUS's own crates and the drivers' are never touched. -/
theorem internal_kept (v : Env) (before now : Manifest) (after : File) (hm : Valid now.deps) (n : String) (hs : skip v n = true) : get (cycle v before now after).deps n = get now.deps n := by
  unfold cycle
  split
  · rfl
  · dsimp only
    rw [sync_spec v _ _ hm, hs]
    rfl

/-- **Dependencies of other languages stay**: what is not cargo's, and not in cargo's file. -/
theorem other_languages_kept (v : Env) (before now : Manifest) (after : File) (hm : Valid now.deps) (n : String) (e : Dep) (he : get now.deps n = some e) (hb : belongs e = false)
    (hf : get after.deps n = none) : get (cycle v before now after).deps n = some e := by
  unfold cycle
  split
  · exact he
  · dsimp only
    rw [sync_spec v _ _ hm, get_read, hf, he]
    cases skip v n <;> cases internal n <;> simp [back, hb]

/-! ### What cargo left alone -/

/-- Dependencies that come back as they went: from crates.io with a version and no other fields, or from git without version, features or the optional flag. -/
def Plain (d : Det) : Prop :=
  (d.source = some .cratesIo ∧ (∃ x, d.version = some x) ∧ d.path = none ∧ d.git = none ∧ d.branch = none ∧ d.tag = none ∧ d.rev = none) ∨
  (d.source = some .git ∧ d.version = none ∧ d.features = [] ∧ d.optional = false ∧ d.path = none ∧ ∃ u, d.git = some u)

theorem plain_round_trip (v : Env) (n : String) (d : Det) (h : Plain d) : ∃ l, write v n (.det d) = some l ∧ extract l = .det d := by
  obtain ⟨ver, source, features, optional, path, git, branch, tag, rev⟩ := d
  rcases h with ⟨h1, ⟨x, h2⟩, h3, h4, h5, h6, h7⟩ | ⟨h1, h2, h3, h4, h5, u, h6⟩
  · simp only at h1 h2 h3 h4 h5 h6 h7
    subst h1 h2 h3 h4 h5 h6 h7
    exact ⟨_, rfl, rfl⟩
  · simp only at h1 h2 h3 h4 h5 h6
    subst h1 h2 h3 h4 h5 h6
    exact ⟨_, rfl, rfl⟩

/-- What counts as a change: everything a dependency says but the order of its features. -/
theorem same_iff (x y : Det) : same (.det x) (.det y) = true ↔ x.version = y.version ∧ Dep.src (.det x) = Dep.src (.det y) ∧ x.features.Perm y.features ∧ x.optional = y.optional ∧
    x.path = y.path ∧ x.git = y.git ∧ x.branch = y.branch ∧ x.tag = y.tag ∧ x.rev = y.rev := by
  have hf : (x.features.mergeSort (fun a b => decide (a ≤ b)) = y.features.mergeSort (fun a b => decide (a ≤ b))) ↔ x.features.Perm y.features := by
    have tr : ∀ a b c : String, decide (a ≤ b) = true → decide (b ≤ c) = true → decide (a ≤ c) = true := by
      intro a b c h1 h2
      simp only [decide_eq_true_eq] at *
      exact String.le_trans h1 h2
    have tot : ∀ a b : String, (decide (a ≤ b) || decide (b ≤ a)) = true := by
      intro a b
      rcases String.le_total a b with h | h <;> simp [h]
    constructor
    · intro h
      exact ((List.mergeSort_perm x.features (fun a b => decide (a ≤ b))).symm.trans (List.Perm.of_eq h)).trans (List.mergeSort_perm y.features _)
    · intro h
      have hp := ((List.mergeSort_perm x.features (fun a b => decide (a ≤ b))).trans h).trans (List.mergeSort_perm y.features (fun a b => decide (a ≤ b))).symm
      refine List.Perm.eq_of_pairwise ?_ (List.pairwise_mergeSort tr tot x.features) (List.pairwise_mergeSort tr tot y.features) hp
      intro a b _ _ h1 h2
      simp only [decide_eq_true_eq] at h1 h2
      exact String.le_antisymm h1 h2
  unfold same
  simp only [Bool.and_eq_true, decide_eq_true_eq]
  have hv : (Dep.det x).version = (Dep.det y).version ↔ x.version = y.version := Iff.rfl
  have hf' : ((Dep.det x).features.mergeSort (fun a b => decide (a ≤ b)) = (Dep.det y).features.mergeSort (fun a b => decide (a ≤ b))) ↔ x.features.Perm y.features := hf
  rw [hv, hf']
  tauto

theorem same_refl (d : Dep) : same d d = true := by
  unfold same
  cases d <;> simp

theorem gen_user (v : Env) (man : Table Dep) (hm : Valid man) (hg : Valid (gen v man)) (n : String) (d : Dep) (l : Line) (hd : get man n = some d) (hw : write v n d = some l) :
    get (gen v man) n = some l := by
  apply get_of_mem _ hg
  unfold gen
  have hu : (n, l) ∈ userLines v man := by
    unfold userLines
    rw [List.mem_filterMap]
    exact ⟨(n, d), get_mem _ _ _ hd, by simp [hw]⟩
  simp [hu]

/-- **What cargo left alone stays as it was**, for plain dependencies; for the others see below. -/
theorem left_alone_kept_partial (v : Env) (m : Manifest) (after : File) (hm : Valid m.deps) (hg : Valid (gen v m.deps)) (n : String) (d : Det) (hd : get m.deps n = some (.det d)) (hp : Plain d)
    (hl : get after.deps n = get (gen v m.deps) n) : get (cycle v m m after).deps n = some (.det d) := by
  obtain ⟨l, hw, hx⟩ := plain_round_trip v n d hp
  have hf := gen_user v m.deps hm hg n _ l hd hw
  unfold cycle
  split
  · exact hd
  · dsimp only
    rw [sync_spec v _ _ hm, get_read, hl, hf, hd]
    cases hs : skip v n
    · have hi : internal n = false := by
        unfold skip at hs; rw [Bool.or_eq_false_iff] at hs; exact hs.1
      simp [back, hi, hx, same_refl]
    · simp [back]

/-! ### Disagreements -/

/-- **Disagreement: any change by cargo deletes the development dependencies.** The generated file has no `[dev-dependencies]`, so after `horus cargo add x`
every one from crates.io, a path or git counts as removed. -/
theorem dev_lost (v : Env) (before now : Manifest) (after : File) (hm : Valid now.dev) (hc : after ≠ generated v before) (hd : after.dev = []) (n : String) (e : Dep)
    (he : get now.dev n = some e) (hb : belongs e = true) (hs : skip v n = false) : get (cycle v before now after).dev n = none := by
  unfold cycle
  rw [if_neg hc]
  dsimp only
  rw [sync_spec v _ _ hm, get_read, hd, he, hs]
  have : (get ([] : Table Line) n) = none := rfl
  rw [this]
  cases internal n <;> simp [back, hb]

/-- **Disagreement: a path dependency that cargo left alone is moved.** Its path comes back as seen from `.horus`, and the next file has it shifted once
more: `lib` becomes `../lib`, and then `../../lib`. -/
theorem path_moved (v : Env) (m : Manifest) (after : File) (hm : Valid m.deps) (hg : Valid (gen v m.deps)) (n p : String) (hd : get m.deps n = some (.det { path := some p }))
    (hr : v.rel p ≠ p) (hs : skip v n = false) (hl : get after.deps n = get (gen v m.deps) n) (hc : after ≠ generated v m) :
    ∃ d, get (cycle v m m after).deps n = some d ∧ write v n d = some { path := some (v.rel (v.rel p)) } := by
  have hw : write v n (.det { path := some p }) = some { path := some (v.rel p) } := rfl
  have hf := gen_user v m.deps hm hg n _ _ hd hw
  have hi : internal n = false := by
    unfold skip at hs; rw [Bool.or_eq_false_iff] at hs; exact hs.1
  refine ⟨extract { path := some (v.rel p) }, ?_, rfl⟩
  unfold cycle
  rw [if_neg hc]
  dsimp only
  rw [sync_spec v _ _ hm, get_read, hl, hf, hd, hs, hi]
  have : same (.det { path := some p }) (extract { path := some (v.rel p) }) = false := by
    unfold same extract
    simp [hr.symm]
  simp [back, this]

/-- **Disagreement: an installed registry package turns into a path that does not exist**: `packages/NAME` is right as seen from `.horus`, wrong in `horus.toml`. -/
theorem registry_becomes_path (v : Env) (m : Manifest) (after : File) (hm : Valid m.deps) (hg : Valid (gen v m.deps)) (n x : String) (hd : get m.deps n = some (.simple x))
    (hk : v.known n = none) (hin : v.installed n = true) (hs : skip v n = false) (hl : get after.deps n = get (gen v m.deps) n) (hc : after ≠ generated v m) :
    ∃ d, get (cycle v m m after).deps n = some d ∧ d.src = .path ∧ write v n d = some { path := some (v.rel ("packages/" ++ n)) } := by
  have hw : write v n (.simple x) = some { path := some ("packages/" ++ n) } := by simp [write, srcOf, Dep.src, hk, hin]
  have hf := gen_user v m.deps hm hg n _ _ hd hw
  have hi : internal n = false := by
    unfold skip at hs; rw [Bool.or_eq_false_iff] at hs; exact hs.1
  refine ⟨extract { path := some ("packages/" ++ n) }, ?_, rfl, rfl⟩
  unfold cycle
  rw [if_neg hc]
  dsimp only
  rw [sync_spec v _ _ hm, get_read, hl, hf, hd, hs, hi]
  have : same (.simple x) (extract { path := some ("packages/" ++ n) }) = false := by simp [same, Dep.version, extract]
  simp [back, this]

/-- Disagreement: a git or path dependency loses its features and its optional flag in the generated file, whether or not anything is synced. -/
theorem git_features_dropped (v : Env) (n u : String) (fs : List String) (o : Bool) : write v n (.det { git := some u, features := fs, optional := o }) = write v n (.det { git := some u }) ∧
    ∀ p, write v n (.det { path := some p, features := fs, optional := o }) = write v n (.det { path := some p }) := ⟨rfl, fun _ => rfl⟩

/-- **Disagreement: after the sync of a project with generated messages cargo refuses the file.** The crate of messages, which HORUS itself had put into the
file, is taken for the user's, and from then on it is written twice. -/
theorem msgs_twice (v : Env) (m : Manifest) (after : File) (hm : Valid m.deps) (x p : String) (hv : v.msgs = some (x, p)) (hx : get m.deps x = none) (hs : skip v x = false)
    (hl : get after.deps x = some { path := some p }) (hc : after ≠ generated v m) : ¬ Valid (gen v (cycle v m m after).deps) := by
  have hi : internal x = false := by
    unfold skip at hs; rw [Bool.or_eq_false_iff] at hs; exact hs.1
  have hg : get (cycle v m m after).deps x = some (extract { path := some p }) := by
    unfold cycle
    rw [if_neg hc]
    dsimp only
    rw [sync_spec v _ _ hm, get_read, hl, hx, hs, hi]
    simp [back]
  have hu : x ∈ (userLines v (cycle v m m after).deps).map Prod.fst := by
    rw [List.mem_map]
    refine ⟨(x, { path := some (v.rel p) }), ?_, rfl⟩
    unfold userLines
    rw [List.mem_filterMap]
    exact ⟨_, get_mem _ _ _ hg, rfl⟩
  have hq : x ∈ (msgsLine v).map Prod.fst := by simp [msgsLine, hv]
  unfold Valid gen
  intro h
  rw [List.map_append, List.map_append, List.nodup_append] at h
  have h2 := h.1
  rw [List.nodup_append] at h2
  refine h2.2.2 x ?_ x hu rfl
  rw [List.map_append]
  exact List.mem_append_right _ hq

/-- Disagreement: `serde`, which HORUS had put into the file, becomes the user's with the first sync. -/
theorem serde_adopted (v : Env) (m : Manifest) (after : File) (hm : Valid m.deps) (hx : get m.deps "serde" = none) (hs : skip v "serde" = false) (l : Line) (hl : get after.deps "serde" = some l)
    (hc : after ≠ generated v m) : get (cycle v m m after).deps "serde" = some (extract l) := by
  unfold cycle
  rw [if_neg hc]
  dsimp only
  rw [sync_spec v _ _ hm, get_read, hl, hx, hs]
  simp [back, show internal "serde" = false by decide]

/-- **Disagreement: what someone else added to `horus.toml` while cargo ran is removed.** The file is read again for that reason, but what is not in cargo's
file, written before, counts as removed by cargo. -/
theorem concurrent_add_lost (v : Env) (before now : Manifest) (after : File) (hm : Valid now.deps) (n : String) (e : Dep) (he : get now.deps n = some e) (hb : belongs e = true) (hs : skip v n = false)
    (hl : get after.deps n = none) (hc : after ≠ generated v before) : get (cycle v before now after).deps n = none :=
  (change_taken v before now after hm hc n hs).2 hl e he hb

/-! An everyday case of each: a project with a plain dependency, a path, a package from the registry and a development dependency; cargo adds `rand`. -/
def exEnv : Env := ⟨fun _ => none, fun n => n == "nav", fun p => "../" ++ p, [("horus", { path := some "/opt/horus/horus" })], some ("app_msgs", "/p/.horus/generated/msgs"), [], []⟩
def exMan : Manifest := ⟨[("lib", .det { path := some "lib" }), ("log", .det { version := some "0.4", source := some .cratesIo }), ("nav", .simple "1.0")], [("mock", .det { version := some "2", source := some .cratesIo })]⟩
def exAfter : File := ⟨gen exEnv exMan.deps ++ [("rand", { version := some "0.8" })], []⟩

example : Valid exMan.deps ∧ Valid (gen exEnv exMan.deps) := by unfold Valid; decide
example : exAfter ≠ generated exEnv exMan := by decide
example : ((cycle exEnv exMan exMan exAfter).deps.map Prod.fst) = ["lib", "log", "nav", "serde", "app_msgs", "rand"] ∧ (cycle exEnv exMan exMan exAfter).dev = [] := by decide +kernel
example : get (cycle exEnv exMan exMan exAfter).deps "log" = some (.det { version := some "0.4", source := some .cratesIo }) := by decide +kernel
example : ¬ Valid (gen exEnv (cycle exEnv exMan exMan exAfter).deps) := by unfold Valid; decide +kernel

end Horus.NativeSync
