/-
Building an installed package from source: horus_manager/src/registry/helpers.rs 1014-1212.

For the build a file `.cargo/config.toml` is written that points cargo to the local source of the horus crates; it is
removed afterwards. A run may be killed between any two steps, and writing may fail. Paths are lists of names. Failing
to remove the file (which is only logged) is left out, and so is what cargo does.
-/
namespace Horus.Precompile

/-- A `config.toml`: the package's own, an empty file whose writing failed, or a written one with its overrides. -/
inductive Config where
  | own (text : String)
  | empty
  | injected (overrides : List (String × List String))
deriving DecidableEq

/-- The part of a package's directory the build touches: whether `.cargo` is there, the file, and other files in it. -/
structure Dir where
  cargo : Bool
  config : Option Config
  others : List String
deriving DecidableEq

/-- A file lies in a directory that is there. -/
def Dir.WF (d : Dir) : Prop := d.cargo = false → d.config = none ∧ d.others = []

/-- What the run finds: the keys of `[dependencies]` (none if Cargo.toml cannot be read), the directory of the horus
source, and which directories exist. -/
structure Env where
  deps : List String
  source : Option (List String)
  isDir : List String → Bool

/-- `cargo_toml_has_horus_deps` (helpers.rs:1014-1032). -/
def hasDeps (e : Env) : Bool := e.deps.contains "horus_core" || e.deps.contains "horus_library" || e.deps.contains "horus_macros"

/-- The directory of the crates (helpers.rs:1073-1081). -/
def base (src : List String) : List String :=
  if [".horus", "cache"].isSuffixOf src then src ++ ["horus@0.1.0"] else src

/-- The overrides written (helpers.rs:1083-1108). -/
def overrides (e : Env) (src : List String) : List (String × List String) :=
  (["horus_core", "horus_library", "horus_macros"].filter fun c => e.isDir (base src ++ [c])).map fun c => (c, base src ++ [c])

/-- One effect on the directory; `fs::write` creates the file and fills it. -/
inductive Op where
  | mkdir
  | create
  | fill (l : List (String × List String))
  | build
  | rmFile
  | rmDir
deriving DecidableEq

/-- What it does; `remove_dir` removes only an empty directory (helpers.rs:1110-1111, 1122-1132). -/
def Dir.op (d : Dir) : Op → Dir
  | .mkdir => { d with cargo := true }
  | .create => { d with config := some .empty }
  | .fill l => { d with config := some (.injected l) }
  | .build => d
  | .rmFile => { d with config := none }
  | .rmDir => if d.config = none ∧ d.others = [] then { d with cargo := false } else d

/-- All of them in turn. -/
def Dir.exec (d : Dir) (l : List Op) : Dir := l.foldl Dir.op d

/-- Where writing fails, if it does. -/
inductive Fault where
  | ok
  | mkdir
  | create
  | fill
deriving DecidableEq

/-- `precompile_package` up to the copying of the results (helpers.rs:1040-1179): the effects in order. The file is
removed only if the injection returned success. -/
def plan (d : Dir) (e : Env) (f : Fault) : List Op :=
  if hasDeps e = false then [.build]
  else if d.config.isSome then [.build]
  else match e.source with
    | none => [.build]
    | some src => match f with
      | .mkdir => [.build]
      | .create => [.mkdir, .build]
      | .fill => [.mkdir, .create, .build]
      | .ok => [.mkdir, .create, .fill (overrides e src), .build, .rmFile, .rmDir]

/-- One run: complete, or killed after `n` effects. -/
structure Run where
  env : Env
  fault : Fault
  killed : Option Nat

/-- The directory after a run. -/
def Dir.run (d : Dir) (r : Run) : Dir :=
  match r.killed with
  | none => d.exec (plan d r.env r.fault)
  | some n => d.exec ((plan d r.env r.fault).take n)

/-- The directory after a history of runs. -/
def Dir.runs (d : Dir) (l : List Run) : Dir := l.foldl Dir.run d

/-- The file cargo finds when a run builds. -/
def seen (d : Dir) (r : Run) : Option Config := (d.exec ((plan d r.env r.fault).takeWhile (· ≠ .build))).config

/-- A file of `target/release`. -/
structure Built where
  name : List Char
  isFile : Bool
  exec : Bool
deriving DecidableEq

/-- The programs copied to `bin` (helpers.rs:1182-1212). -/
def programs (l : List Built) : List Built :=
  l.filter fun b => b.isFile && ((!b.name.contains '.' || ".exe".toList.isSuffixOf b.name) && b.exec)

/-! ### Theorems -/

/-- C296: a `config.toml` that is there when a run begins is what cargo sees, and neither the file nor the directory is
changed, whatever fails and wherever the run is killed. -/
theorem own_kept (d : Dir) (t : Config) (h : d.config = some t) (r : Run) : d.run r = d ∧ seen d r = some t := by
  have hp : plan d r.env r.fault = [.build] := by
    unfold plan
    split
    · rfl
    · rw [h]; rfl
  constructor
  · unfold Dir.run
    rw [hp]
    cases r.killed with
    | none => rfl
    | some n => cases n <;> simp [Dir.exec, Dir.op]
  · unfold seen
    rw [hp]
    simpa [Dir.exec] using h

/-- C296: so it is after every history of runs. -/
theorem own_forever (d : Dir) (t : Config) (h : d.config = some t) (l : List Run) : d.runs l = d := by
  unfold Dir.runs
  induction l with
  | nil => rfl
  | cons r l ih => rw [List.foldl_cons, (own_kept d t h r).1, ih]

theorem plan_ok (d : Dir) (e : Env) : plan d e .ok = [.build] ∨
    d.config = none ∧ ∃ l, plan d e .ok = [.mkdir, .create, .fill l, .build, .rmFile, .rmDir] := by
  unfold plan
  split
  · exact .inl rfl
  · split
    · exact .inl rfl
    · next h =>
      split
      · exact .inl rfl
      · exact .inr ⟨by simpa using h, _, rfl⟩

/-- C296: runs that are neither killed nor fail to write leave the directory as it was, unless it held an empty
`.cargo`. -/
theorem clean_partial (d : Dir) (hw : d.WF) (hne : d.cargo = true → d.config ≠ none ∨ d.others ≠ []) (l : List Run)
    (hl : ∀ r ∈ l, r.fault = .ok ∧ r.killed = none) : d.runs l = d := by
  unfold Dir.runs
  induction l with
  | nil => rfl
  | cons r l ih =>
    have h1 : d.run r = d := by
      obtain ⟨hf, hk⟩ := hl r (by simp)
      unfold Dir.run
      rw [hk, hf]
      dsimp only
      rcases plan_ok d r.env with hp | ⟨hc, l, hp⟩
      · rw [hp]; rfl
      · rw [hp]
        rcases d with ⟨g, c, o⟩
        dsimp only at hc
        subst hc
        cases g with
        | false =>
          have := (hw rfl).2
          dsimp only at this
          subst this
          rfl
        | true =>
          have := hne rfl
          have ho : o ≠ [] := by simpa using this
          simp [Dir.exec, Dir.op, ho]
    rw [List.foldl_cons, h1]
    exact ih (fun r hr => hl r (by simp [hr]))

/-- C296: cargo sees overrides exactly if the package depends on one of the three crates, has no file of its own and
the horus source is found; they then name those of the three crates whose directories exist there. -/
theorem build_sees (d : Dir) (hd : d.config = none) (e : Env) (k : Option Nat) (c : String) (p : List String) :
    (∃ l, seen d ⟨e, .ok, k⟩ = some (.injected l) ∧ (c, p) ∈ l) ↔
      (∃ x ∈ e.deps, x = "horus_core" ∨ x = "horus_library" ∨ x = "horus_macros") ∧
      ∃ src, e.source = some src ∧ p = base src ++ [c] ∧ e.isDir p = true ∧ (c = "horus_core" ∨ c = "horus_library" ∨ c = "horus_macros") := by
  have hdeps : hasDeps e = true ↔ ∃ x ∈ e.deps, x = "horus_core" ∨ x = "horus_library" ∨ x = "horus_macros" := by
    simp only [hasDeps, Bool.or_eq_true, List.contains_iff_mem]
    constructor
    · rintro ((h | h) | h)
      · exact ⟨_, h, by simp⟩
      · exact ⟨_, h, by simp⟩
      · exact ⟨_, h, by simp⟩
    · rintro ⟨x, h, rfl | rfl | rfl⟩
      · simp [h]
      · simp [h]
      · simp [h]
  rw [← hdeps]
  unfold seen plan
  cases hh : hasDeps e with
  | false => simp [Dir.exec, hd]
  | true =>
    cases hs : e.source with
    | none => simp [Dir.exec, hd]
    | some src =>
      simp only [hd, Dir.exec, Option.isSome_none, Bool.false_eq_true, if_false, Bool.true_eq_false]
      simp [Dir.op, overrides]
      constructor
      · rintro ⟨a, ⟨b, b'⟩, rfl, rfl⟩; exact ⟨rfl, b', b⟩
      · rintro ⟨rfl, b, a⟩; exact ⟨c, ⟨a, b⟩, rfl, rfl⟩

/-- C296: whatever happens, a file that was not there before is never taken for the package's own text, and other files
in `.cargo` stay. -/
theorem never_own (d : Dir) (l : List Run) (t : String) (h : (d.runs l).config = some (.own t)) : d.config = some (.own t) := by
  have op1 : ∀ (d : Dir) (o : Op), (d.op o).config = some (.own t) → d.config = some (.own t) := by
    intro d o ho
    cases o with
    | rmDir =>
      simp only [Dir.op] at ho
      split at ho
      · exact ho
      · exact ho
    | mkdir => exact ho
    | build => exact ho
    | _ => simp [Dir.op] at ho
  have ops : ∀ (o : List Op) (d : Dir), (d.exec o).config = some (.own t) → d.config = some (.own t) := by
    intro o
    induction o with
    | nil => exact fun d h => h
    | cons a o ih => intro d h; exact op1 d a (ih _ h)
  induction l generalizing d with
  | nil => exact h
  | cons r l ih =>
    have := ih (d.run r) h
    unfold Dir.run at this
    cases hk : r.killed with
    | none => rw [hk] at this; exact ops _ _ this
    | some n => rw [hk] at this; exact ops _ _ this

theorem others_kept (d : Dir) (l : List Run) : (d.runs l).others = d.others := by
  have op1 : ∀ (d : Dir) (o : Op), (d.op o).others = d.others := by
    intro d o
    cases o with
    | rmDir =>
      simp only [Dir.op]
      split <;> rfl
    | _ => rfl
  have ops : ∀ (o : List Op) (d : Dir), (d.exec o).others = d.others := by
    intro o
    induction o with
    | nil => exact fun d => rfl
    | cons a o ih => intro d; exact (ih _).trans (op1 d a)
  induction l generalizing d with
  | nil => rfl
  | cons r l ih =>
    refine (ih (d.run r)).trans ?_
    unfold Dir.run
    cases r.killed <;> exact ops _ _

/-- C296, a disagreement: if a run is killed while cargo builds, its overrides stay; every later run takes them for the
package's own file and builds with them, wherever the horus source is by then, and none removes them. -/
theorem killed_stays (d : Dir) (hd : d.config = none) (e : Env) (hdeps : hasDeps e = true) (src : List String) (hs : e.source = some src)
    (n : Nat) (hn : n = 3 ∨ n = 4) (l : List Run) (r : Run) :
    ((d.run ⟨e, .ok, some n⟩).runs l).config = some (.injected (overrides e src)) ∧
    seen ((d.run ⟨e, .ok, some n⟩).runs l) r = some (.injected (overrides e src)) := by
  have h1 : (d.run ⟨e, .ok, some n⟩).config = some (.injected (overrides e src)) := by
    unfold Dir.run plan
    rw [hdeps, hd, hs]
    rcases hn with rfl | rfl <;> rfl
  have h2 := own_forever _ _ h1 l
  rw [h2]
  exact ⟨h1, (own_kept _ _ h1 r).2⟩

/-- C296, a disagreement: if the file cannot be filled (a full disk), an empty one stays for good, and every later build
goes without overrides. -/
theorem half_written (d : Dir) (hd : d.config = none) (e : Env) (hdeps : hasDeps e = true) (src : List String) (hs : e.source = some src)
    (l : List Run) (r : Run) : seen ((d.run ⟨e, .fill, none⟩).runs l) r = some .empty := by
  have h1 : (d.run ⟨e, .fill, none⟩).config = some .empty := by
    unfold Dir.run plan
    rw [hdeps, hd, hs]
    rfl
  rw [own_forever _ _ h1 l]
  exact (own_kept _ _ h1 r).2

/-- C296: if the directory cannot be made nothing changes; if the file cannot be created the directory stays (a
disagreement: it was made for the file). Cargo sees no file in both cases. -/
theorem no_file (d : Dir) (hd : d.config = none) (e : Env) (hdeps : hasDeps e = true) (src : List String) (hs : e.source = some src) :
    d.run ⟨e, .mkdir, none⟩ = d ∧ seen d ⟨e, .mkdir, none⟩ = none ∧
    d.run ⟨e, .create, none⟩ = { d with cargo := true } ∧ seen d ⟨e, .create, none⟩ = none := by
  rcases d with ⟨g, c, o⟩
  dsimp only at hd
  subst hd
  simp [Dir.run, seen, plan, hdeps, hs, Dir.exec, Dir.op]

/-- C296: whatever is found and whatever fails, the package is built, once. -/
theorem builds_once (d : Dir) (e : Env) (f : Fault) : (plan d e f).count .build = 1 := by
  unfold plan
  split
  · rfl
  · split
    · rfl
    · split
      · rfl
      · cases f <;> rfl

/-- C296, a disagreement: in a cache of horus the crates are looked for under version 0.1.0 only; with any other version
no override is written, though the source was found. -/
theorem cache_version (e : Env) (pre : List String) (h : ∀ c, e.isDir (pre ++ [".horus", "cache", "horus@0.1.0", c]) = false) :
    overrides e (pre ++ [".horus", "cache"]) = [] := by
  have hb : base (pre ++ [".horus", "cache"]) = pre ++ [".horus", "cache", "horus@0.1.0"] := by
    unfold base
    rw [if_pos (List.isSuffixOf_iff_suffix.2 (List.suffix_append _ _))]
    simp
  unfold overrides
  rw [hb]
  simp [h]

/-- C296, a disagreement: a package that depends on the crate `horus` alone gets no overrides. -/
theorem horus_alone (d : Dir) (e : Env) (h : e.deps = ["horus"]) (f : Fault) : plan d e f = [.build] := by
  have : hasDeps e = false := by rw [hasDeps, h]; decide
  simp [plan, this]

/-- C296, a disagreement: an empty `.cargo` that the package had is removed. -/
theorem empty_removed (e : Env) (hdeps : hasDeps e = true) (src : List String) (hs : e.source = some src) :
    Dir.run ⟨true, none, []⟩ ⟨e, .ok, none⟩ = ⟨false, none, []⟩ := by
  unfold Dir.run plan
  rw [hdeps, hs]
  rfl

/-- C296: the programs copied are the executable files without a dot in their names, or ending in `.exe`. -/
theorem programs_iff (l : List Built) (b : Built) :
    b ∈ programs l ↔ b ∈ l ∧ b.isFile = true ∧ b.exec = true ∧ ('.' ∉ b.name ∨ ∃ s, b.name = s ++ ".exe".toList) := by
  unfold programs
  rw [List.mem_filter]
  generalize ".exe".toList = x
  have hx : x.isSuffixOf b.name = true ↔ ∃ s, b.name = s ++ x := by
    rw [List.isSuffixOf_iff_suffix]
    constructor
    · rintro ⟨s, h⟩; exact ⟨s, h.symm⟩
    · rintro ⟨s, h⟩; exact ⟨s, h.symm⟩
  simp only [Bool.and_eq_true, Bool.or_eq_true, Bool.not_eq_true', List.contains_eq_mem, decide_eq_false_iff_not, hx]
  constructor
  · rintro ⟨a, b, c, d⟩; exact ⟨a, b, d, c⟩
  · rintro ⟨a, b, d, c⟩; exact ⟨a, b, c, d⟩

/-! ### Examples -/

/-- An environment with the source in a home directory. -/
def env1 : Env := ⟨["serde", "horus_core"], some ["home", "horus"], fun p => p = ["home", "horus", "horus_core"]⟩

example : seen ⟨false, none, []⟩ ⟨env1, .ok, none⟩ = some (.injected [("horus_core", ["home", "horus", "horus_core"])]) := by decide +kernel
example : Dir.run ⟨false, none, []⟩ ⟨env1, .ok, none⟩ = ⟨false, none, []⟩ := by decide +kernel
example : (Dir.run ⟨false, none, []⟩ ⟨env1, .ok, some 3⟩).config = some (.injected [("horus_core", ["home", "horus", "horus_core"])]) := by decide +kernel
example : Dir.run ⟨true, none, ["audit.toml"]⟩ ⟨env1, .ok, none⟩ = ⟨true, none, ["audit.toml"]⟩ := by decide +kernel
example : hasDeps env1 = true ∧ env1.source = some ["home", "horus"] := by decide +kernel
example : Dir.WF ⟨true, none, ["audit.toml"]⟩ := by intro h; cases h
example : (programs [⟨"arm".toList, true, true⟩, ⟨"arm.d".toList, true, false⟩, ⟨"libarm.so".toList, true, true⟩, ⟨"deps".toList, false, true⟩]).length = 1 := by decide +kernel

end Horus.Precompile
