import Verif.Util.ShellRc
import Mathlib.Data.List.Nodup
import Mathlib.Tactic.Common
/-!
C238: `horus run` runs the program that the current sources give.

Sources: /repo/horus_manager/src/commands/run/run_rust.rs:26-40, 92-107, 409-672, 674-948, 950-969, run/mod.rs:410-490,
527-560, cargo_gen.rs:68-97, 232-238, 744-805, build_dirs.rs:51-85.
Simplifications: paths are lists of names; a source file is given by its revision, `none` if it is missing or
does not compile; the profile is a name; the text of the generated `Cargo.toml` is its list of programs.
What is assumed of cargo is in `cargoBuild`: it refuses equal names and broken sources, and otherwise puts
every program of the manifest under the target directory and touches nothing else there.
-/

namespace Horus.RunBin

open Horus.ShellRc (lines)

/-! ### Model -/

abbrev Name := List Char
abbrev Path := List Name

/-- A compiled program: the source file and the revision it was compiled from. -/
structure Exe where
  src : Path
  rev : Nat
  deriving DecidableEq, Repr

/-- The disk: the programs on it, and the revision of every source file that compiles. -/
structure World where
  bins : Path → Option Exe
  text : Path → Option Nat

/-- build_dirs.rs:51-61: the exported `CARGO_TARGET_DIR`, absolute or not, or `.horus/target`. -/
def targetDir (env : Option (Bool × Path)) (proj : Path) : Path :=
  match env with
  | some (true, p) => p
  | some (false, p) => proj ++ p
  | none => proj ++ [".horus".toList, "target".toList]

/-- build_dirs.rs:63-66. -/
def binaryPath (env : Option (Bool × Path)) (proj : Path) (profile name : Name) : Path :=
  targetDir env proj ++ [profile, name]

/-- cargo_gen.rs:796-805. -/
def sanitize (n : Name) : Name := n.map fun c => if c.isAlphanum || c == '_' || c == '-' then c else '_'

/-- `Path::file_stem` of a name: what precedes the last dot, the whole if that would be nothing. -/
def stemOf (n : Name) : Name :=
  if n.contains '.' then
    let s := ((n.reverse.dropWhile (· != '.')).drop 1).reverse
    if s = [] then n else s
  else n

def stem (p : Path) : Name := stemOf (p.getLast?.getD "node".toList)

/-- cargo_gen.rs:764-768: remove the common beginning. -/
def strip : Path → Path → Path × Path
  | t :: ts, b :: bs => if t = b then strip ts bs else (t :: ts, b :: bs)
  | ts, bs => (ts, bs)

/-- cargo_gen.rs:744-791: the path of a file as seen from a directory. -/
def pathdiff (target base : Path) : Path :=
  let (t, b) := strip target base
  let r := b.map (fun _ => "..".toList) ++ t
  if r = [] then [".".toList] else r

/-- How cargo reads a path in a manifest that lies in `base`. -/
def resolve (base : Path) : Path → Path
  | [] => base
  | c :: cs => if c = "..".toList then resolve base.dropLast cs else if c = ".".toList then resolve base cs else resolve (base ++ [c]) cs

def horusDir (proj : Path) : Path := proj ++ [".horus".toList]

/-- cargo_gen.rs:68-97, 232-238: the programs of the generated `Cargo.toml`. (The case without files is not used
by `horus run` on files.) -/
def genBins (pkg : Name) (proj : Path) (files : List Path) : List (Name × Path) :=
  match files with
  | [f] => [(sanitize pkg, pathdiff f (horusDir proj))]
  | fs => fs.map fun f => (sanitize (stem f), pathdiff f (horusDir proj))

/-- The programs of a manifest in `mdir` with the files they are made from. -/
def sources (mdir : Path) (bins : List (Name × Path)) : List (Name × Path) := bins.map fun b => (b.1, resolve mdir b.2)

/-- `cargo build` with this target directory (assumed). -/
def cargoBuild (w : World) (mdir tdir : Path) (profile : Name) (bins : List (Name × Path)) : Option World :=
  let srcs := sources mdir bins
  if (srcs.map Prod.fst).Nodup ∧ srcs.all (fun b => (w.text b.2).isSome) then
    some { w with bins := fun p => match srcs.find? (fun b => decide (tdir ++ [profile, b.1] = p)) with
      | some b => (w.text b.2).map (Exe.mk b.2)
      | none => w.bins p }
  else none

/-- What comes of starting a program. -/
inductive Res
  | buildFailed
  | notFound
  | noDirectory
  | ran (e : Exe) (args : List Name)
  | interpreted (args : List Name)
  deriving DecidableEq

def exec (w : World) (p : Path) (args : List Name) : Res :=
  match w.bins p with
  | some e => .ran e args
  | none => .notFound

/-- run_rust.rs:836-938: `horus run FILE` in a project without a `Cargo.toml` of its own. `pkg` is the name in
`horus.toml`, or `horus-project` (92-118). -/
def runFile (w : World) (env : Option (Bool × Path)) (proj : Path) (profile pkg : Name) (file : Path) (args : List Name) : Res :=
  match cargoBuild w (horusDir proj) (targetDir env proj) profile (genBins pkg proj [file]) with
  | none => .buildFailed
  | some w' => exec w' (binaryPath env proj profile (sanitize pkg)) args

/-- run_rust.rs:516-637: the Rust files among several; one result each. -/
def runBatch (w : World) (env : Option (Bool × Path)) (proj : Path) (profile : Name) (files : List Path) (args : List Name) : List Res :=
  match cargoBuild w (horusDir proj) (targetDir env proj) profile (genBins "horus-multi-node".toList proj files) with
  | none => [.buildFailed]
  | some w' => files.map fun f => exec w' (binaryPath env proj profile (sanitize (stem f))) args

/-- run_rust.rs:26-40, 697-711: a Python file among several. -/
def runPython (file : Name) (args : List Name) : Res :=
  let override := [file]
  .interpreted (if override ≠ [] then override else args)

/-- A project with its own `Cargo.toml`: its text and the programs cargo finds in it, relative to it. -/
structure Crate where
  toml : List Char
  bins : List (Name × Path)

/-- `str::trim_matches`. -/
def trimC (c : Char) (s : Name) : Name := ((s.dropWhile (· == c)).reverse.dropWhile (· == c)).reverse

/-- `str::strip_prefix`. -/
def stripPrefix : List Char → List Char → Option (List Char)
  | [], s => some s
  | p :: ps, c :: s => if p = c then stripPrefix ps s else none
  | _ :: _, [] => none

def namePrefix : List Char := "name = ".toList

/-- run_rust.rs:950-969. -/
def projectName (toml : List Char) (dir : Path) : Name :=
  match (lines toml).findSome? (stripPrefix namePrefix) with
  | some rest => trimC '\'' (trimC '"' rest)
  | none => dir.getLast?.getD "main".toList

/-- run_rust.rs:752-834: `horus run FILE` in a project with its own `Cargo.toml`. -/
def runRoot (w : World) (env : Option (Bool × Path)) (proj : Path) (profile : Name) (c : Crate) (_file : Path) (args : List Name) : Res :=
  match cargoBuild w proj (targetDir env proj) profile c.bins with
  | none => .buildFailed
  | some w' => exec w' (binaryPath env proj profile (projectName c.toml proj)) args

/-- run_rust.rs:409-513: `horus run PATH/Cargo.toml` once in its directory. (Dependencies installed.) -/
def runManifest (w : World) (env : Option (Bool × Path)) (proj : Path) (profile : Name) (c : Crate) (clean : Bool) (args : List Name) : Res :=
  let binary := proj ++ ["target".toList, profile, projectName c.toml proj]
  if (w.bins binary).isNone || clean then
    match cargoBuild w proj (targetDir env proj) profile c.bins with
    | none => .buildFailed
    | some w' => exec w' binary args
  else exec w binary args

/-- run_rust.rs:416-421, mod.rs:468-477: the directory of a manifest given by a relative path, which is entered
first; entering the empty path fails. -/
def enter (cwd rel : Path) : Option Path :=
  let d := rel.dropLast
  if d = [] then none else some (cwd ++ d)

/-- The whole of `horus run Cargo.toml`. -/
def runManifestAt (w : World) (env : Option (Bool × Path)) (cwd rel : Path) (profile : Name) (c : Crate) (clean : Bool) (args : List Name) : Res :=
  match enter cwd rel with
  | none => .noDirectory
  | some d => runManifest w env d profile c clean args

/-! ### Specification -/

/-- The program that the current state of the file gives, run with these arguments. -/
def Current (w : World) (file : Path) (args : List Name) (r : Res) : Prop :=
  ∃ n, w.text file = some n ∧ r = .ran ⟨file, n⟩ args

/-- A path without `.` and `..`. -/
def Plain (p : Path) : Prop := ∀ c ∈ p, c ≠ "..".toList ∧ c ≠ ".".toList

/-! ### Proofs -/

theorem resolve_ups (base : Path) (b t : Path) : resolve (base ++ b) (b.map (fun _ => "..".toList) ++ t) = resolve base t := by
  induction b using List.reverseRecOn generalizing t with
  | nil => simp
  | append_singleton b x ih =>
    rw [show (b ++ [x]).map (fun _ => "..".toList) ++ t = "..".toList :: (b.map (fun _ => "..".toList) ++ t) by
      clear ih
      induction b with
      | nil => rfl
      | cons y b ih => simp only [List.cons_append, List.map_cons, List.cons.injEq, true_and]; exact ih]
    rw [resolve, if_pos rfl, ← List.append_assoc, List.dropLast_concat]
    exact ih t

theorem resolve_down (base t : Path) (h : Plain t) : resolve base t = base ++ t := by
  induction t generalizing base with
  | nil => simp [resolve]
  | cons c t ih =>
    have hc := h c (List.mem_cons_self ..)
    rw [resolve, if_neg hc.1, if_neg hc.2, ih _ (fun d hd => h d (List.mem_cons_of_mem _ hd))]
    simp

theorem strip_spec (t b : Path) : ∃ p, t = p ++ (strip t b).1 ∧ b = p ++ (strip t b).2 := by
  induction t generalizing b with
  | nil => exact ⟨[], by simp [strip], by simp [strip]⟩
  | cons x t ih =>
    cases b with
    | nil => exact ⟨[], by simp [strip], by simp [strip]⟩
    | cons y b =>
      rw [strip]
      by_cases h : x = y
      · rw [if_pos h]
        obtain ⟨p, h1, h2⟩ := ih b
        exact ⟨x :: p, by rw [List.cons_append, ← h1], by rw [List.cons_append, ← h2, h]⟩
      · rw [if_neg h]
        exact ⟨[], rfl, rfl⟩

/-- C238. The relative path written into the generated manifest leads back to the file, from any directory. -/
theorem path_leads_back (file base : Path) (h : Plain file) : resolve base (pathdiff file base) = file := by
  obtain ⟨p, h1, h2⟩ := strip_spec file base
  have hp : Plain (strip file base).1 := fun c hc => h c (by rw [h1]; exact List.mem_append_right _ hc)
  unfold pathdiff
  dsimp only
  by_cases he : (strip file base).2.map (fun _ => "..".toList) ++ (strip file base).1 = []
  · rw [if_pos he]
    obtain ⟨e1, e2⟩ := List.append_eq_nil_iff.1 he
    have e1' : (strip file base).2 = [] := List.map_eq_nil_iff.1 e1
    rw [e2, List.append_nil] at h1
    rw [e1', List.append_nil] at h2
    rw [resolve, if_neg (by decide), if_pos rfl, resolve, h1, h2]
  · rw [if_neg he]
    conv_lhs => rw [h2]
    rw [show (strip file (p ++ (strip file base).2)) = strip file base by rw [← h2], resolve_ups, resolve_down _ _ hp, ← h1]

theorem bins_after (w w' : World) (mdir tdir : Path) (profile : Name) (bins : List (Name × Path)) (h : cargoBuild w mdir tdir profile bins = some w')
    (n : Name) (f : Path) (hm : (n, f) ∈ sources mdir bins) : ∃ k, w.text f = some k ∧ w'.bins (tdir ++ [profile, n]) = some ⟨f, k⟩ := by
  unfold cargoBuild at h
  dsimp only at h
  by_cases hc : ((sources mdir bins).map Prod.fst).Nodup ∧ (sources mdir bins).all (fun b => (w.text b.2).isSome)
  · rw [if_pos hc] at h
    cases h
    dsimp only
    have ht : (w.text f).isSome := by
      have := List.all_eq_true.1 hc.2 _ hm
      exact this
    obtain ⟨k, hk⟩ := Option.isSome_iff_exists.1 ht
    refine ⟨k, hk, ?_⟩
    have hf : (sources mdir bins).find? (fun b => decide (tdir ++ [profile, b.1] = tdir ++ [profile, n])) = some (n, f) := by
      have hn := hc.1
      clear hc
      generalize sources mdir bins = l at hm hn ⊢
      induction l with
      | nil => simp at hm
      | cons b l ih =>
        rw [List.map_cons, List.nodup_cons] at hn
        rw [List.find?_cons]
        by_cases hb : b.1 = n
        · have : b = (n, f) := by
            rcases List.mem_cons.1 hm with hx | hx
            · exact hx.symm
            · exact absurd (List.mem_map_of_mem (f := Prod.fst) hx) (by rw [← hb]; exact hn.1)
          rw [this]; simp
        · have hb' : decide (tdir ++ [profile, b.1] = tdir ++ [profile, n]) = false := by
            simpa using hb
          rw [hb']
          refine ih ?_ hn.2
          rcases List.mem_cons.1 hm with hx | hx
          · exact absurd (by rw [← hx]) hb
          · exact hx
    rw [hf]
    simp [hk]
  · rw [if_neg hc] at h; cases h

theorem bins_other (w w' : World) (mdir tdir : Path) (profile : Name) (bins : List (Name × Path)) (h : cargoBuild w mdir tdir profile bins = some w')
    (p : Path) (hp : ∀ b ∈ sources mdir bins, tdir ++ [profile, b.1] ≠ p) : w'.bins p = w.bins p := by
  unfold cargoBuild at h
  dsimp only at h
  by_cases hc : ((sources mdir bins).map Prod.fst).Nodup ∧ (sources mdir bins).all (fun b => (w.text b.2).isSome)
  · rw [if_pos hc] at h
    cases h
    dsimp only
    rw [List.find?_eq_none.2 (fun b hb => by simpa using hp b hb)]
  · rw [if_neg hc] at h; cases h

/-- The build fails exactly if two programs get the same name or a source is missing or broken. -/
theorem build_fails_iff (w : World) (mdir tdir : Path) (profile : Name) (bins : List (Name × Path)) :
    cargoBuild w mdir tdir profile bins = none ↔ ¬ ((sources mdir bins).map Prod.fst).Nodup ∨ ∃ b ∈ sources mdir bins, w.text b.2 = none := by
  unfold cargoBuild
  dsimp only
  by_cases hc : ((sources mdir bins).map Prod.fst).Nodup ∧ (sources mdir bins).all (fun b => (w.text b.2).isSome)
  · rw [if_pos hc]
    refine iff_of_false (by simp) ?_
    rintro (h | ⟨b, hb, h⟩)
    · exact h hc.1
    · have := List.all_eq_true.1 hc.2 b hb
      rw [h] at this; exact absurd this (by decide)
  · rw [if_neg hc]
    refine iff_of_true rfl ?_
    by_contra hn
    rw [not_or, not_not] at hn
    refine hc ⟨hn.1, List.all_eq_true.2 fun b hb => ?_⟩
    cases hx : w.text b.2 with
    | none => exact absurd ⟨b, hb, hx⟩ hn.2
    | some _ => rfl

/-- C238. `horus run FILE`, in a project without a `Cargo.toml` of its own, runs what the current state of that
file gives, with the user's arguments: for every target directory, whatever is on the disk from earlier builds. -/
theorem run_file_current (w : World) (env : Option (Bool × Path)) (proj : Path) (profile pkg : Name) (file : Path) (args : List Name)
    (hf : Plain file) (k : Nat) (hk : w.text file = some k) : Current w file args (runFile w env proj profile pkg file args) := by
  refine ⟨k, hk, ?_⟩
  have hs : sources (horusDir proj) (genBins pkg proj [file]) = [(sanitize pkg, file)] := by
    simp [sources, genBins, path_leads_back file _ hf]
  unfold runFile
  cases hb : cargoBuild w (horusDir proj) (targetDir env proj) profile (genBins pkg proj [file]) with
  | none =>
    rcases (build_fails_iff ..).1 hb with h | ⟨b, hb', h⟩
    · rw [hs] at h; simp at h
    · rw [hs] at hb'
      rw [List.mem_singleton.1 hb', hk] at h
      cases h
  | some w' =>
    obtain ⟨k', h1, h2⟩ := bins_after w w' _ _ _ _ hb (sanitize pkg) file (by rw [hs]; exact List.mem_singleton.2 rfl)
    dsimp only
    rw [hk] at h1
    cases h1
    unfold exec binaryPath
    rw [h2]

/-- C238. A file that is missing or does not compile is never replaced by an older program. -/
theorem run_file_broken (w : World) (env : Option (Bool × Path)) (proj : Path) (profile pkg : Name) (file : Path) (args : List Name)
    (hf : Plain file) (hk : w.text file = none) : runFile w env proj profile pkg file args = .buildFailed := by
  have hs : sources (horusDir proj) (genBins pkg proj [file]) = [(sanitize pkg, file)] := by
    simp [sources, genBins, path_leads_back file _ hf]
  unfold runFile
  rw [(build_fails_iff ..).2 (Or.inr ⟨(sanitize pkg, file), by rw [hs]; exact List.mem_singleton.2 rfl, hk⟩)]

theorem sources_many (proj : Path) (pkg : Name) (files : List Path) (h2 : 2 ≤ files.length) (hf : ∀ f ∈ files, Plain f) :
    sources (horusDir proj) (genBins pkg proj files) = files.map fun f => (sanitize (stem f), f) := by
  have : genBins pkg proj files = files.map fun f => (sanitize (stem f), pathdiff f (horusDir proj)) := by
    match files, h2 with
    | a :: b :: l, _ => rfl
  rw [this, sources, List.map_map]
  refine List.map_congr_left fun f hm => ?_
  simp only [Function.comp, path_leads_back f _ (hf f hm)]

/-- C238. Several Rust files of different names: each process is what the current state of its file gives, with
the user's arguments.
Missing from the full claim: a single Rust file next to files of other languages (`mixed_run_stale`), equal
names (`same_stem_fails`). -/
theorem run_many_current_partial (w : World) (env : Option (Bool × Path)) (proj : Path) (profile : Name) (files : List Path) (args : List Name)
    (h2 : 2 ≤ files.length) (hf : ∀ f ∈ files, Plain f) (hn : (files.map fun f => sanitize (stem f)).Nodup) (hk : ∀ f ∈ files, (w.text f).isSome) :
    List.Forall₂ (fun f r => Current w f args r) files (runBatch w env proj profile files args) := by
  have hs := sources_many proj "horus-multi-node".toList files h2 hf
  unfold runBatch
  cases hb : cargoBuild w (horusDir proj) (targetDir env proj) profile (genBins "horus-multi-node".toList proj files) with
  | none =>
    exfalso
    rcases (build_fails_iff ..).1 hb with h | ⟨b, hb', h⟩
    · rw [hs, List.map_map] at h; exact h hn
    · rw [hs] at hb'
      obtain ⟨f, hm, rfl⟩ := List.mem_map.1 hb'
      have := hk f hm
      dsimp only at h
      rw [h] at this; exact absurd this (by decide)
  | some w' =>
    dsimp only
    rw [List.forall₂_map_right_iff]
    refine List.forall₂_same.2 fun f hm => ?_
    obtain ⟨k, h1, h3⟩ := bins_after w w' _ _ _ _ hb (sanitize (stem f)) f (by rw [hs]; exact List.mem_map_of_mem (f := fun f => (sanitize (stem f), f)) hm)
    refine ⟨k, h1, ?_⟩
    unfold exec binaryPath
    rw [h3]

/-- C238. Of two files with the same name in different directories (or names that differ only in characters
cargo does not take), none is run. -/
theorem same_stem_fails (w : World) (env : Option (Bool × Path)) (proj : Path) (profile : Name) (files : List Path) (args : List Name)
    (hf : ∀ f ∈ files, Plain f) (h2 : 2 ≤ files.length) (hn : ¬ (files.map fun f => sanitize (stem f)).Nodup) :
    runBatch w env proj profile files args = [.buildFailed] := by
  unfold runBatch
  rw [(build_fails_iff ..).2 (Or.inl (by rw [sources_many _ _ _ h2 hf, List.map_map]; exact hn))]

/-- C238 fails: one Rust file next to files of other languages is built as `horus-multi-node`, and the program
looked up is the one of the file's name: what runs is what an earlier build left there, or nothing. -/
theorem mixed_run_stale (w : World) (env : Option (Bool × Path)) (proj : Path) (profile : Name) (file : Path) (args : List Name) (k : Nat)
    (hf : Plain file) (hk : w.text file = some k) (hs : sanitize (stem file) ≠ "horus-multi-node".toList) :
    runBatch w env proj profile [file] args = [exec w (binaryPath env proj profile (sanitize (stem file))) args] := by
  have hs' : sources (horusDir proj) (genBins "horus-multi-node".toList proj [file]) = [("horus-multi-node".toList, file)] := by
    have : sanitize "horus-multi-node".toList = "horus-multi-node".toList := by decide
    simp only [sources, genBins, List.map_cons, List.map_nil, path_leads_back file _ hf, this]
  unfold runBatch
  cases hb : cargoBuild w (horusDir proj) (targetDir env proj) profile (genBins "horus-multi-node".toList proj [file]) with
  | none =>
    rcases (build_fails_iff ..).1 hb with h | ⟨b, hb', h⟩
    · rw [hs'] at h; exact absurd (List.nodup_singleton _) h
    · rw [hs'] at hb'
      rw [List.mem_singleton.1 hb', hk] at h
      cases h
  | some w' =>
    dsimp only
    rw [List.map_cons, List.map_nil]
    unfold exec
    rw [bins_other w w' _ _ _ _ hb]
    intro b hb'
    rw [hs'] at hb'
    rw [List.mem_singleton.1 hb']
    intro he
    unfold binaryPath at he
    have := List.append_cancel_left he
    simp only [List.cons.injEq, and_true, true_and] at this
    exact hs this.symm

/-- C238 fails: a Python file among several is never given the user's arguments. -/
theorem python_args_lost (file : Name) (args : List Name) : runPython file args = .interpreted [file] := rfl

/-- C238 fails: with a `Cargo.toml` in the directory, the file named by the user plays no part. -/
theorem file_ignored (w : World) (env : Option (Bool × Path)) (proj : Path) (profile : Name) (c : Crate) (f g : Path) (args : List Name) :
    runRoot w env proj profile c f args = runRoot w env proj profile c g args := rfl

/-- C238. There, the program run is the current one if the name read from `Cargo.toml` is that of a program.
Missing from the full claim: other names (`wrong_name`). -/
theorem run_root_current_partial (w : World) (env : Option (Bool × Path)) (proj : Path) (profile : Name) (c : Crate) (f : Path) (args : List Name)
    (src : Path) (hm : (projectName c.toml proj, src) ∈ sources proj c.bins) (hb : runRoot w env proj profile c f args ≠ .buildFailed) :
    Current w src args (runRoot w env proj profile c f args) := by
  unfold runRoot at hb ⊢
  cases h : cargoBuild w proj (targetDir env proj) profile c.bins with
  | none => rw [h] at hb; exact absurd rfl hb
  | some w' =>
    obtain ⟨k, h1, h2⟩ := bins_after w w' _ _ _ _ h _ src hm
    refine ⟨k, h1, ?_⟩
    dsimp only
    unfold exec binaryPath
    rw [h2]

/-- C238 fails: `horus run PATH/Cargo.toml` builds into HORUS's target directory and runs from `target`. Unless
the two are the same, it runs what was in `target` before, or nothing: never what it has just built. -/
theorem manifest_runs_old (w : World) (env : Option (Bool × Path)) (proj : Path) (profile : Name) (c : Crate) (clean : Bool) (args : List Name)
    (he : targetDir env proj ≠ proj ++ ["target".toList]) (hb : runManifest w env proj profile c clean args ≠ .buildFailed) :
    runManifest w env proj profile c clean args = exec w (proj ++ ["target".toList, profile, projectName c.toml proj]) args := by
  unfold runManifest at hb ⊢
  dsimp only at hb ⊢
  by_cases hc : ((w.bins (proj ++ ["target".toList, profile, projectName c.toml proj])).isNone || clean) = true
  · rw [if_pos hc] at hb ⊢
    cases h : cargoBuild w proj (targetDir env proj) profile c.bins with
    | none => rw [h] at hb; exact absurd rfl hb
    | some w' =>
      dsimp only
      unfold exec
      rw [bins_other w w' _ _ _ _ h]
      intro b _ hq
      refine he ?_
      have hq' : (targetDir env proj) ++ [profile, b.1] = (proj ++ ["target".toList]) ++ [profile, projectName c.toml proj] := by
        rw [hq]; simp
      exact (List.append_inj' hq' rfl).1
  · rw [if_neg hc]

/-- **Built programs stay in the project unless an absolute directory is exported.** -/
theorem target_inside (env : Option (Bool × Path)) (proj : Path) (profile name : Name) (h : ∀ p, env ≠ some (true, p)) :
    proj <+: binaryPath env proj profile name := by
  unfold binaryPath targetDir
  match env, h with
  | none, _ => exact ⟨_, (List.append_assoc _ _ _).symm⟩
  | some (false, p), _ => exact ⟨_, (List.append_assoc _ _ _).symm⟩
  | some (true, p), h => exact absurd rfl (h p)

/-- **An exported directory is where the programs go.** -/
theorem target_exported (p proj : Path) (profile name : Name) :
    binaryPath (some (true, p)) proj profile name = p ++ [profile, name] ∧ binaryPath (some (false, p)) proj profile name = proj ++ p ++ [profile, name] := ⟨rfl, rfl⟩

/-- Without an exported `CARGO_TARGET_DIR` the two are never the same. -/
theorem target_differs (proj : Path) : targetDir none proj ≠ proj ++ ["target".toList] := by
  intro h
  have := congrArg List.length h
  simp [targetDir] at this

/-- C238 fails: even with the two directories the same, an existing program is not rebuilt. -/
theorem manifest_not_rebuilt (w : World) (env : Option (Bool × Path)) (proj : Path) (profile : Name) (c : Crate) (args : List Name) (e : Exe)
    (h : w.bins (proj ++ ["target".toList, profile, projectName c.toml proj]) = some e) :
    runManifest w env proj profile c false args = .ran e args := by
  unfold runManifest exec
  dsimp only
  rw [h]
  rfl

/-- C238 fails: `horus run Cargo.toml` and `horus run horus.toml`, without a directory, always fail. -/
theorem bare_manifest_fails (w : World) (env : Option (Bool × Path)) (cwd : Path) (n : Name) (profile : Name) (c : Crate) (clean : Bool) (args : List Name) :
    runManifestAt w env cwd [n] profile c clean args = .noDirectory := rfl

theorem strip_prefix_self (p s : List Char) : stripPrefix p (p ++ s) = some s := by
  induction p with
  | nil => rfl
  | cons c p ih => simp only [List.cons_append, stripPrefix, if_true, ih]

theorem strip_prefix_iff (p l s : List Char) : stripPrefix p l = some s ↔ l = p ++ s := by
  constructor
  · intro h
    induction p generalizing l with
    | nil => simpa [stripPrefix] using h
    | cons c p ih =>
      cases l with
      | nil => simp [stripPrefix] at h
      | cons d l =>
        rw [stripPrefix] at h
        by_cases e : c = d
        · rw [if_pos e] at h; rw [List.cons_append, ← ih l h, e]
        · rw [if_neg e] at h; cases h
  · rintro rfl; exact strip_prefix_self p s

theorem trim_none (c : Char) (s : Name) (h : c ∉ s) : trimC c s = s := by
  have hd : ∀ l : Name, c ∉ l → l.dropWhile (· == c) = l := by
    intro l hl
    cases l with
    | nil => rfl
    | cons d l =>
      rw [List.dropWhile_cons, if_neg]
      have : d ≠ c := fun e => hl (by rw [e]; exact List.mem_cons_self ..)
      simpa using this
  unfold trimC
  rw [hd s h, hd s.reverse (by simpa using h), List.reverse_reverse]

theorem trim_quoted (c : Char) (s : Name) (h : c ∉ s) : trimC c (c :: s ++ [c]) = s := by
  have hd : ∀ l : Name, c ∉ l → l.dropWhile (· == c) = l := by
    intro l hl
    cases l with
    | nil => rfl
    | cons d l =>
      rw [List.dropWhile_cons, if_neg]
      have : d ≠ c := fun e => hl (by rw [e]; exact List.mem_cons_self ..)
      simpa using this
  unfold trimC
  rw [List.cons_append, List.dropWhile_cons, if_pos (by simp)]
  cases s with
  | nil => simp
  | cons d s =>
    have h1 : (d :: s ++ [c]).dropWhile (· == c) = d :: s ++ [c] := by
      rw [List.cons_append, List.dropWhile_cons, if_neg]
      have : d ≠ c := fun e => h (by rw [e]; exact List.mem_cons_self ..)
      simpa using this
    rw [h1, List.reverse_append, List.reverse_singleton, List.singleton_append, List.dropWhile_cons, if_pos (by simp), hd _ (by simpa [and_comm] using h), List.reverse_reverse]

theorem find_first (ls : List (List Char)) (pre post : List (List Char)) (rest : List Char) (he : ls = pre ++ (namePrefix ++ rest) :: post)
    (hp : ∀ l ∈ pre, ∀ s, l ≠ namePrefix ++ s) : ls.findSome? (stripPrefix namePrefix) = some rest := by
  subst he
  induction pre with
  | nil => rw [List.nil_append, List.findSome?_cons, strip_prefix_self]
  | cons a pre ih =>
    rw [List.cons_append, List.findSome?_cons]
    cases h : stripPrefix namePrefix a with
    | none => exact ih (fun l hl => hp l (List.mem_cons_of_mem _ hl))
    | some s => exact absurd ((strip_prefix_iff ..).1 h) (hp a (List.mem_cons_self ..) s)

/-- C238. The name of the project is the quoted text of the first line that begins with `name = `, if the line
ends with the quotation mark.
Missing from the full claim: that this line is the package's, and other ways to write it (`wrong_name`). -/
theorem project_name_partial (toml : List Char) (dir : Path) (pre post : List (List Char)) (n : Name)
    (hl : lines toml = pre ++ (namePrefix ++ ('"' :: n ++ ['"'])) :: post) (hp : ∀ l ∈ pre, ∀ s, l ≠ namePrefix ++ s) (hq : '"' ∉ n) (hq' : '\'' ∉ n) :
    projectName toml dir = n := by
  unfold projectName
  rw [find_first _ pre post _ hl hp]
  dsimp only
  rw [trim_quoted _ _ hq, trim_none _ _ hq']

/-- C238 fails: a comment behind the name becomes part of it; a program's table before the package's gives the
name; a name written without blanks is not seen, and the directory's is taken. -/
theorem wrong_name :
    projectName "[package]\nname = \"arm\" # ours\n".toList ["d".toList] = "arm\" # ours".toList ∧
      projectName "[[bin]]\nname = \"tool\"\npath = \"t.rs\"\n[package]\nname = \"arm\"\n".toList ["d".toList] = "tool".toList ∧
      projectName "[package]\nname=\"arm\"\n".toList ["d".toList] = "d".toList := by
  decide +kernel

/-! ### Non-vacuity -/

def exProj : Path := ["home".toList, "bot".toList]
def exFile (s : String) : Path := exProj ++ ["src".toList, s.toList]
/-- Two sources at revision 7, and an old `drive` under the target directory and under `target`. -/
def exWorld : World where
  bins := fun p => if p = binaryPath none exProj "debug".toList "drive".toList then some ⟨exFile "drive.rs", 3⟩ else if p = exProj ++ ["target".toList, "debug".toList, "drive".toList] then some ⟨exFile "drive.rs", 2⟩ else none
  text := fun p => if p = exFile "drive.rs" ∨ p = exFile "arm.rs" then some 7 else none

theorem exPlain (s : String) (h : s.toList ≠ "..".toList ∧ s.toList ≠ ".".toList) : Plain (exFile s) := by
  intro c hc
  simp only [exFile, exProj, List.cons_append, List.nil_append, List.mem_cons, List.not_mem_nil, or_false] at hc
  rcases hc with rfl | rfl | rfl | rfl
  · decide
  · decide
  · decide
  · exact h

example : Current exWorld (exFile "drive.rs") ["--fast".toList] (runFile exWorld none exProj "debug".toList "drive".toList (exFile "drive.rs") ["--fast".toList]) :=
  run_file_current _ _ _ _ _ _ _ (exPlain _ (by decide)) 7 (by decide +kernel)

example : runBatch exWorld none exProj "debug".toList [exFile "drive.rs", exFile "arm.rs"] [] = [.ran ⟨exFile "drive.rs", 7⟩ [], .ran ⟨exFile "arm.rs", 7⟩ []] := by decide +kernel

/-- Next to a Python file, the same Rust file is run at the old revision. -/
example : runBatch exWorld none exProj "debug".toList [exFile "drive.rs"] [] = [.ran ⟨exFile "drive.rs", 3⟩ []] := by decide +kernel

def exCrate : Crate := ⟨"[package]\nname = \"drive\"\n".toList, [("drive".toList, ["src".toList, "drive.rs".toList])]⟩

example : runRoot exWorld none exProj "debug".toList exCrate (exFile "arm.rs") [] = .ran ⟨exFile "drive.rs", 7⟩ [] := by decide +kernel

example : runManifest exWorld none exProj "debug".toList exCrate false [] = .ran ⟨exFile "drive.rs", 2⟩ [] := by decide +kernel

/-- Even with `--clean`. (The `target` that is cleaned is the one where `horus` was called.) -/
example : runManifest exWorld none exProj "debug".toList exCrate true [] = .ran ⟨exFile "drive.rs", 2⟩ [] := by decide +kernel

example : projectName exCrate.toml exProj = "drive".toList :=
  project_name_partial _ _ ["[package]".toList] [] _ (by decide +kernel) (by intro l hl s; rw [List.mem_singleton.1 hl]; intro h; exact absurd (congrArg (fun l => l.head?) h) (by simp [namePrefix])) (by decide) (by decide)

end Horus.RunBin
