/-!
# Which binary an installed package may register as a command

Code modelled: horus_manager/src/commands/pkg.rs:25-164 (`detect_plugin_metadata`), 178-331 (the two
manifest readers), 348-380 (`resolve_within_package`), 382-397 (`find_binary`), 617-655 (the check and the
checksum of `register_plugin_after_install`); horus_manager/src/plugins/registry.rs:393-398
(`calculate_checksum`).

A file system is a map from absolute paths to files, directories and symbolic links. Resolving a path
follows links as the system does. Not modelled: parsing of TOML (the tables are given as records of the
fields the code reads), permissions other than the executable bit, files that change between two calls.
-/

namespace Horus.PluginBin

abbrev Text := List Char
/-- An absolute path as its components. -/
abbrev Path := List Text

def up : Text := ['.', '.']

inductive Entry where
  | dir
  | file (exec : Bool) (content : Nat)
  | link (abs : Bool) (target : Path)
  deriving DecidableEq, Repr

abbrev Fs := Path → Option Entry

/-- `canonicalize`: follow the components from a directory already resolved. The system gives up after a
number of links, here after a number of steps. -/
def walk (fs : Fs) : Nat → Path → Path → Option Path
  | _, cur, [] => some cur
  | 0, _, _ :: _ => none
  | n + 1, cur, c :: cs =>
    if c = up then walk fs n cur.dropLast cs
    else match fs (cur ++ [c]) with
      | none => none
      | some .dir => walk fs n (cur ++ [c]) cs
      | some (.file _ _) => if cs = [] then some (cur ++ [c]) else none
      | some (.link abs t) => walk fs n (if abs then [] else cur) (t ++ cs)

/-- `Path::canonicalize` of an absolute path. -/
def canon (fs : Fs) (fuel : Nat) (p : Path) : Option Path := walk fs fuel [] p

/-- The components of a relative path given as text: empty ones and `.` vanish. -/
def comps (s : Text) : Path := (s.splitOn '/').filter fun c => c ≠ [] ∧ c ≠ ['.']

/-- pkg.rs:348-380. -/
def within (fs : Fs) (fuel : Nat) (pkg : Path) (rel : Text) : Option Path :=
  if rel.head? = some '/' then none
  else if up ∈ comps rel then none
  else match canon fs fuel (pkg ++ comps rel), canon fs fuel pkg with
    | some r, some root => if root <+: r then some (pkg ++ comps rel) else none
    | _, _ => some (pkg ++ comps rel)

/-- `exists` and `is_executable`: what the path leads to has an executable bit; a directory has it too
(horus_sys `is_executable` looks at the mode only). -/
def runnable (fs : Fs) (fuel : Nat) (p : Path) : Bool :=
  match (canon fs fuel p).bind fs with
  | some .dir => true
  | some (.file x _) => x
  | _ => false

def sBin : Text := ['b', 'i', 'n', '/']
def sRelease : Text := ['t', 'a', 'r', 'g', 'e', 't', '/', 'r', 'e', 'l', 'e', 'a', 's', 'e', '/']
def sDebug : Text := ['t', 'a', 'r', 'g', 'e', 't', '/', 'd', 'e', 'b', 'u', 'g', '/']
def sHorus : Text := ['h', 'o', 'r', 'u', 's', '-']

/-- pkg.rs:382-397. -/
def findBinary (fs : Fs) (fuel : Nat) (pkg : Path) (name : Text) : Option Path :=
  ([within fs fuel pkg (sBin ++ name), within fs fuel pkg (sRelease ++ name), within fs fuel pkg (sDebug ++ name), within fs fuel pkg name].filterMap id).find? (runnable fs fuel)

/-- What the package's own files say: the `[plugin]` table of horus.toml (`some none` when it lacks a
command or a binary), the `[package.metadata.horus]` table of Cargo.toml, the names in `bin/` in directory
order, and the name and first binary of Cargo.toml. -/
structure Pkg where
  plugin : Option (Option (Text × Text))
  cargo : Option (Option (Text × Option Text))
  bin : List Text
  crate : Option (Text × Option Text)

/-- pkg.rs:69-97: the first executable `horus-…` in `bin/`. -/
def fromBin (fs : Fs) (fuel : Nat) (pkg : Path) : List Text → Option (Text × Path)
  | [] => none
  | n :: l => if sHorus <+: n ∧ runnable fs fuel (pkg ++ [['b', 'i', 'n'], n]) then some (n.drop 6, pkg ++ [['b', 'i', 'n'], n]) else fromBin fs fuel pkg l

/-- pkg.rs:99-160: a crate named `horus-…`. -/
def fromCrate (fs : Fs) (fuel : Nat) (pkg : Path) : Option (Text × Option Text) → Option (Text × Path)
  | none => none
  | some (name, bin) => if sHorus <+: name then (findBinary fs fuel pkg (bin.getD (name.drop 6))).map fun b => (bin.getD (name.drop 6), b) else none

/-- pkg.rs:25-164. -/
def detect (fs : Fs) (fuel : Nat) (pkg : Path) (m : Pkg) : Option (Text × Path) :=
  match m.plugin with
  | some none => none
  | some (some (cmd, rel)) => (within fs fuel pkg rel).map fun b => (cmd, b)
  | none => match m.cargo with
    | some none => none
    | some (some (cmd, bin)) => (findBinary fs fuel pkg (bin.getD (sHorus ++ cmd))).map fun b => (cmd, b)
    | none => match fromBin fs fuel pkg m.bin with
      | some r => some r
      | none => fromCrate fs fuel pkg m.crate

/-- Reading a file: only a file can be read. -/
def read (fs : Fs) (fuel : Nat) (p : Path) : Option Nat :=
  match (canon fs fuel p).bind fs with
  | some (.file _ c) => some c
  | _ => none

inductive Outcome where
  | notPlugin
  | refused
  | unreadable
  | registered (cmd : Text) (binary : Path) (sum : Nat)
  deriving DecidableEq, Repr

/-- pkg.rs:634-643: the second check, just before the checksum is taken. -/
def inside (fs : Fs) (fuel : Nat) (pkg b : Path) : Bool :=
  match canon fs fuel b, canon fs fuel pkg with
  | some r, some root => decide (root <+: r)
  | _, _ => true

/-- pkg.rs:617-655: `H` is the checksum. -/
def register (H : Nat → Nat) (fs : Fs) (fuel : Nat) (pkg : Path) (m : Pkg) : Outcome :=
  match detect fs fuel pkg m with
  | none => .notPlugin
  | some (cmd, b) =>
    if inside fs fuel pkg b then match read fs fuel b with
      | some c => .registered cmd b (H c)
      | none => .unreadable
    else .refused

/-! ## Resolving -/

theorem walk_prefix (fs : Fs) : ∀ (n : Nat) (cur a b r : Path), walk fs n cur (a ++ b) = some r → ∃ m, walk fs n cur a = some m := by
  intro n
  induction n with
  | zero =>
    intro cur a b r h
    cases a with
    | nil => exact ⟨cur, by simp [walk]⟩
    | cons c a => simp [walk] at h
  | succ n ih =>
    intro cur a b r h
    cases a with
    | nil => exact ⟨cur, by simp [walk]⟩
    | cons c a =>
      simp only [List.cons_append, walk] at h ⊢
      split at h
      · rename_i hc; rw [if_pos hc]; exact ih _ _ _ _ h
      · rename_i hc
        rw [if_neg hc]
        cases hf : fs (cur ++ [c]) with
        | none => rw [hf] at h; simp at h
        | some e =>
          rw [hf] at h
          cases e with
          | dir => exact ih _ _ _ _ h
          | file x k =>
            dsimp only at h ⊢
            split at h
            · rename_i e; rw [List.append_eq_nil_iff] at e; exact ⟨cur ++ [c], by rw [if_pos e.1]⟩
            · simp at h
          | link abs t =>
            dsimp only at h ⊢
            rw [← List.append_assoc] at h
            exact ih _ _ _ _ h

theorem detect_below {fs : Fs} {fuel : Nat} {pkg : Path} {m : Pkg} {cmd : Text} {b : Path} (h : detect fs fuel pkg m = some (cmd, b)) : pkg <+: b := by
  have hw : ∀ rel p, within fs fuel pkg rel = some p → pkg <+: p := by
    intro rel p h
    unfold within at h
    split at h
    · simp at h
    · split at h
      · simp at h
      · split at h
        · split at h
          · cases h; exact List.prefix_append _ _
          · simp at h
        · cases h; exact List.prefix_append _ _
  have hf : ∀ name p, findBinary fs fuel pkg name = some p → pkg <+: p := by
    intro name p h
    have := List.mem_of_find?_eq_some h
    simp only [List.mem_filterMap, id_eq, exists_eq_right, List.mem_cons, List.not_mem_nil, or_false] at this
    rcases this with h | h | h | h <;> exact hw _ _ h.symm
  have hb : ∀ l r, fromBin fs fuel pkg l = some r → pkg <+: r.2 := by
    intro l r
    induction l with
    | nil => simp [fromBin]
    | cons n l ih =>
      simp only [fromBin]
      split
      · intro h; cases h; exact List.prefix_append _ _
      · exact ih
  unfold detect at h
  split at h
  · simp at h
  · simp only [Option.map_eq_some_iff, Prod.mk.injEq] at h
    obtain ⟨p, h, -, rfl⟩ := h
    exact hw _ _ h
  · split at h
    · simp at h
    · simp only [Option.map_eq_some_iff, Prod.mk.injEq] at h
      obtain ⟨p, h, -, rfl⟩ := h
      exact hf _ _ h
    · split at h
      · rename_i r hr; cases h; exact hb _ _ hr
      · unfold fromCrate at h
        split at h
        · simp at h
        · split at h
          · simp only [Option.map_eq_some_iff, Prod.mk.injEq] at h
            obtain ⟨p, h, -, rfl⟩ := h
            exact hf _ _ h
          · simp at h

/-- Whatever a package's files say and whatever links it contains: what is registered, and whose checksum is
recorded, is a file that really lies in the package's real directory. -/
theorem registered_inside {H : Nat → Nat} {fs : Fs} {fuel : Nat} {pkg : Path} {m : Pkg} {cmd : Text} {b : Path} {sum : Nat} (h : register H fs fuel pkg m = .registered cmd b sum) :
    ∃ root real x c, canon fs fuel pkg = some root ∧ canon fs fuel b = some real ∧ root <+: real ∧ fs real = some (.file x c) ∧ sum = H c := by
  unfold register at h
  split at h
  · simp at h
  · rename_i cmd' b' hd
    split at h
    · rename_i hin
      split at h
      · rename_i c hr
        cases h
        unfold read at hr
        cases hc : canon fs fuel b with
        | none => rw [hc] at hr; simp at hr
        | some real =>
          rw [hc, Option.bind_some] at hr
          obtain ⟨rest, e⟩ := detect_below hd
          obtain ⟨root, hroot⟩ := walk_prefix fs fuel [] pkg rest real (by rw [e]; exact hc)
          have hroot' : canon fs fuel pkg = some root := hroot
          rw [inside, hc, hroot'] at hin
          dsimp only at hin
          split at hr
          · rename_i x k hk
            cases hr
            exact ⟨root, real, x, c, hroot', rfl, of_decide_eq_true hin, hk, rfl⟩
          · simp at hr
      · simp at h
    · simp at h

/-- An absolute path, or one with `..`, in the `[plugin]` table makes the package no plugin, whatever else it
contains. -/
theorem escape_refused (H : Nat → Nat) (fs : Fs) (fuel : Nat) (pkg : Path) (m : Pkg) (cmd rel : Text) (hm : m.plugin = some (some (cmd, rel))) (he : rel.head? = some '/' ∨ up ∈ comps rel) : register H fs fuel pkg m = .notPlugin := by
  have hw : within fs fuel pkg rel = none := by
    unfold within
    split
    · rfl
    · rename_i hn
      rw [if_pos (he.resolve_left hn)]
  simp [register, detect, hm, hw]

/-- A link in the package that leads out of it is refused. -/
theorem link_refused (H : Nat → Nat) (fs : Fs) (fuel : Nat) (pkg root real : Path) (m : Pkg) (hr : canon fs fuel pkg = some root) (cmd : Text) (b : Path) (hd : detect fs fuel pkg m = some (cmd, b)) (hb : canon fs fuel b = some real) (ho : ¬ root <+: real) : register H fs fuel pkg m = .refused := by
  simp [register, inside, hd, hr, hb, ho]

/-- A package whose table names a plain file of its own, with no links on the way, is registered under the
command it names. -/
theorem own_accepted (H : Nat → Nat) (fs : Fs) (fuel : Nat) (pkg : Path) (m : Pkg) (cmd rel : Text) (x : Bool) (c : Nat) (hm : m.plugin = some (some (cmd, rel))) (h1 : rel.head? ≠ some '/') (h2 : up ∉ comps rel) (h3 : canon fs fuel pkg = some pkg) (h4 : canon fs fuel (pkg ++ comps rel) = some (pkg ++ comps rel)) (h5 : fs (pkg ++ comps rel) = some (.file x c)) : register H fs fuel pkg m = .registered cmd (pkg ++ comps rel) (H c) := by
  have hw : within fs fuel pkg rel = some (pkg ++ comps rel) := by
    unfold within
    rw [if_neg h1, if_neg h2, h4, h3]
    simp
  have hd : detect fs fuel pkg m = some (cmd, pkg ++ comps rel) := by simp [detect, hm, hw]
  unfold register
  rw [hd]
  dsimp only
  rw [inside, h3, h4]
  simp [read, h4, h5]

/-! ## What resolving does -/

/-- Directories all the way. -/
def Solid (fs : Fs) (cur : Path) : Path → Prop
  | [] => True
  | [c] => c ≠ up ∧ ∃ e, fs (cur ++ [c]) = some e ∧ ∀ a t, e ≠ .link a t
  | c :: cs => c ≠ up ∧ fs (cur ++ [c]) = some .dir ∧ Solid fs (cur ++ [c]) cs

/-- A path through plain directories is its own real path. -/
theorem solid_real (fs : Fs) : ∀ (p cur : Path) (n : Nat), p.length ≤ n → Solid fs cur p → walk fs n cur p = some (cur ++ p) := by
  intro p
  induction p with
  | nil => intro cur n _ _; simp [walk]
  | cons c cs ih =>
    intro cur n hn hs
    obtain ⟨n, rfl⟩ : ∃ k, n = k + 1 := ⟨n - 1, by simp at hn; omega⟩
    cases cs with
    | nil =>
      obtain ⟨h1, e, h2, h3⟩ := hs
      rw [walk, if_neg h1, h2]
      cases e with
      | dir => simp [walk]
      | file x k => simp
      | link a t => exact absurd rfl (h3 a t)
    | cons d ds =>
      obtain ⟨h1, h2, h3⟩ := hs
      rw [walk, if_neg h1, h2]
      dsimp only
      rw [ih _ n (by simp at hn ⊢; omega) h3]
      simp

/-- **What is found can be run**: what the search returns leads to a file with its executable bit set, or to
a directory. -/
theorem found_executable (fs : Fs) (fuel : Nat) (pkg : Path) (name : Text) (b : Path) (h : findBinary fs fuel pkg name = some b) :
    ∃ r, canon fs fuel b = some r ∧ (fs r = some .dir ∨ ∃ c, fs r = some (.file true c)) := by
  have hr := List.find?_some h
  unfold runnable at hr
  cases hc : canon fs fuel b with
  | none => rw [hc] at hr; cases hr
  | some r =>
    rw [hc] at hr
    refine ⟨r, rfl, ?_⟩
    rw [Option.bind_some] at hr
    revert hr
    cases fs r with
    | none => intro hr; cases hr
    | some e =>
      cases e with
      | dir => intro _; exact Or.inl rfl
      | file x c => intro hr; cases x with
        | true => exact Or.inr ⟨c, rfl⟩
        | false => cases hr
      | link a t => intro hr; cases hr

/-! ## A directory counts as executable -/

/-- A directory with the binary's name in an earlier place hides the binary: the registration fails. -/
theorem directory_hides (H : Nat → Nat) (fs : Fs) (fuel : Nat) (pkg : Path) (m : Pkg) (cmd : Text) (hp : m.plugin = none) (hc : m.cargo = some (some (cmd, none))) (d : Path) (hd : canon fs fuel (pkg ++ comps (sBin ++ (sHorus ++ cmd))) = some d) (hf : fs d = some .dir) (hu : up ∉ comps (sBin ++ (sHorus ++ cmd))) (hr : canon fs fuel pkg = some pkg) (hi : pkg <+: d) : register H fs fuel pkg m = .unreadable := by
  have hw : within fs fuel pkg (sBin ++ (sHorus ++ cmd)) = some (pkg ++ comps (sBin ++ (sHorus ++ cmd))) := by
    unfold within
    rw [if_neg (by simp [sBin]), if_neg hu, hd, hr]
    simp [hi]
  have hfb : findBinary fs fuel pkg (sHorus ++ cmd) = some (pkg ++ comps (sBin ++ (sHorus ++ cmd))) := by
    unfold findBinary
    rw [hw]
    simp [runnable, hd, hf]
  have hdet : detect fs fuel pkg m = some (cmd, pkg ++ comps (sBin ++ (sHorus ++ cmd))) := by simp [detect, hp, hc, hfb]
  unfold register
  rw [hdet]
  dsimp only
  rw [inside, hd, hr]
  simp [read, hd, hf, hi]

/-! ## Concrete cases -/

/-- A package at `/p` with a file `t`, a link `e` that leads out and a link `i` that stays in. -/
def demo : Fs := fun p =>
  if p = [['p']] then some .dir
  else if p = [['p'], ['t']] then some (.file true 7)
  else if p = [['p'], ['e']] then some (.link true [['u'], ['c']])
  else if p = [['p'], ['i']] then some (.link false [['t']])
  else if p = [['u']] then some .dir
  else if p = [['u'], ['c']] then some (.file true 9)
  else none

def manifest (rel : Text) : Pkg := ⟨some (some (['x'], rel)), none, [], none⟩

example : register id demo 9 [['p']] (manifest ['t']) = .registered ['x'] [['p'], ['t']] 7 := by decide +kernel
example : register id demo 9 [['p']] (manifest ['i']) = .registered ['x'] [['p'], ['i']] 7 := by decide +kernel
example : register id demo 9 [['p']] (manifest ['e']) = .notPlugin := by decide +kernel
example : register id demo 9 [['p']] (manifest ['/', 'u', '/', 'c']) = .notPlugin := by decide +kernel
example : register id demo 9 [['p']] (manifest ['.', '.', '/', 'u', '/', 'c']) = .notPlugin := by decide +kernel
example : Solid demo [] [['p'], ['t']] := ⟨by decide, by decide, by decide, .file true 7, by decide, by simp⟩

end Horus.PluginBin
