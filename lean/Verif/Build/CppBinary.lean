/-
Which program `horus run` starts after building a C++ project: horus_manager/src/commands/run/run_cpp.rs 29-36, 218-219,
476-513, and `is_executable` (horus_sys/src/fs/mod.rs 258-272, Unix).

The build directory is one for all builds. cmake is a parameter: a build writes the program of the target either at the top
of the build directory (generators with one configuration) or below `Debug` or `Release` (generators with several).
Every program carries the number of the build that wrote it.
-/
namespace Horus.CppBinary

abbrev Text := List Char

/-- An entry of a directory. -/
structure Entry where
  isFile : Bool
  exec : Bool
  build : Nat
deriving DecidableEq

/-- A place in the build directory. -/
inductive Place where
  | top (n : Text)
  | debug (n : Text)
  | release (n : Text)
deriving DecidableEq

/-- The build directory: its entries, and the order in which the entries at the top are listed. -/
structure Dir where
  at_ : Place → Option Entry
  order : List Text

/-- The name of the target: hyphens become underscores (run_cpp.rs:478). -/
def target (project : Text) : Text := project.map fun c => if c = '-' then '_' else c

/-- `candidate.exists() && is_executable(candidate)` (run_cpp.rs:488; horus_sys/src/fs/mod.rs:258-266): a directory that can be
entered has the permission too. -/
def runnable (d : Dir) (p : Place) : Bool := match d.at_ p with | some e => e.exec | none => false

/-- Files the fallback passes over (run_cpp.rs:500-501). -/
def internal (n : Text) : Bool := ['c', 'm', 'a', 'k', 'e'].isPrefixOf n || ['C', 'M', 'a', 'k', 'e'].isPrefixOf n

/-- The entries the fallback takes (run_cpp.rs:497-503). -/
def fallbackOk (d : Dir) (n : Text) : Bool :=
  match d.at_ (.top n) with
  | some e => e.isFile && e.exec && !internal n
  | none => false

/-- `find_cpp_binary` (run_cpp.rs:476-513). -/
def find (d : Dir) (project : Text) : Option Place :=
  let t := target project
  if runnable d (.top t) then some (.top t)
  else if runnable d (.debug t) then some (.debug t)
  else if runnable d (.release t) then some (.release t)
  else (d.order.find? (fallbackOk d)).map Place.top

/-- A build: `--release` or not, and whether the generator has several configurations. -/
structure Build where
  project : Text
  release : Bool
  multi : Bool

/-- Where cmake writes the program (parameter of the model; the build directory is run_cpp.rs:34). -/
def Build.place (b : Build) : Place :=
  if b.multi then (if b.release then .release (target b.project) else .debug (target b.project)) else .top (target b.project)

/-- The directory after build number `k`. -/
def Dir.build (d : Dir) (k : Nat) (b : Build) : Dir :=
  { at_ := fun p => if p = b.place then some ⟨true, true, k⟩ else d.at_ p
    order := match b.place with | .top n => if d.order.contains n then d.order else d.order ++ [n] | _ => d.order }

/-- The directory after a history of builds, numbered from `k`. -/
def Dir.builds (d : Dir) (k : Nat) : List Build → Dir
  | [] => d
  | b :: l => (d.build k b).builds (k + 1) l

/-! ### Theorems -/

theorem builds_snoc (d : Dir) (k : Nat) (l : List Build) (b : Build) : d.builds k (l ++ [b]) = (d.builds k l).build (k + l.length) b := by
  induction l generalizing d k with
  | nil => rfl
  | cons a l ih =>
    rw [List.cons_append, Dir.builds, Dir.builds, ih, List.length_cons]
    congr 1
    omega

/-- C298: after any history of builds, of any projects and with any generators, a build with a generator of one
configuration is followed by a run of the program it wrote, whatever else lies in the build directory. -/
theorem last_run_partial (d : Dir) (k : Nat) (l : List Build) (b : Build) (hb : b.multi = false) :
    ∃ p, find (d.builds k (l ++ [b])) b.project = some p ∧
      (d.builds k (l ++ [b])).at_ p = some ⟨true, true, k + l.length⟩ := by
  have hp : b.place = .top (target b.project) := by simp [Build.place, hb]
  rw [builds_snoc]
  refine ⟨b.place, ?_, by simp [Dir.build]⟩
  simp [find, runnable, Dir.build, hp]

/-- C298: so it is with several configurations if nothing of the target's name is at the top and, for a release, nothing
of that name was built for debugging. -/
theorem last_run_multi_partial (d : Dir) (k : Nat) (l : List Build) (b : Build) (hb : b.multi = true)
    (ht : (d.builds k l).at_ (.top (target b.project)) = none)
    (hd : b.release = true → (d.builds k l).at_ (.debug (target b.project)) = none) :
    ∃ p, find (d.builds k (l ++ [b])) b.project = some p ∧
      (d.builds k (l ++ [b])).at_ p = some ⟨true, true, k + l.length⟩ := by
  rw [builds_snoc]
  refine ⟨b.place, ?_, by simp [Dir.build]⟩
  cases hr : b.release with
  | false =>
    have hp : b.place = .debug (target b.project) := by simp [Build.place, hb, hr]
    simp [find, runnable, Dir.build, hp, ht]
  | true =>
    have hp : b.place = .release (target b.project) := by simp [Build.place, hb, hr]
    simp [find, runnable, Dir.build, hp, ht, hd hr]

/-- C298: what is started is there and has the permission to run; nothing is found exactly if neither the target nor any
other program at the top is there. -/
theorem find_sound (d : Dir) (project : Text) :
    (∀ p, find d project = some p → ∃ e, d.at_ p = some e ∧ e.exec = true) ∧
    (find d project = none ↔
      (∀ p ∈ [Place.top (target project), .debug (target project), .release (target project)], ∀ e, d.at_ p = some e → e.exec = false) ∧
      ∀ n ∈ d.order, ∀ e, d.at_ (.top n) = some e → e.isFile = true → e.exec = true → internal n = true) := by
  have hr : ∀ p, runnable d p = true ↔ ∃ e, d.at_ p = some e ∧ e.exec = true := by
    intro p; unfold runnable; cases d.at_ p <;> simp
  have hr' : ∀ p, runnable d p = false ↔ ∀ e, d.at_ p = some e → e.exec = false := by
    intro p; unfold runnable; cases d.at_ p <;> simp
  have hf : ∀ n, fallbackOk d n = true → ∃ e, d.at_ (.top n) = some e ∧ e.exec = true := by
    intro n; unfold fallbackOk; cases d.at_ (.top n) <;> simp_all
  have hf' : ∀ n, fallbackOk d n = false ↔ ∀ e, d.at_ (.top n) = some e → e.isFile = true → e.exec = true → internal n = true := by
    intro n; unfold fallbackOk
    cases d.at_ (.top n) with
    | none => simp
    | some e => cases h1 : e.isFile <;> cases h2 : e.exec <;> simp [h1, h2]
  constructor
  · intro p h
    unfold find at h
    dsimp only at h
    split at h
    · next h1 => cases h; exact (hr _).1 h1
    · split at h
      · next h1 => cases h; exact (hr _).1 h1
      · split at h
        · next h1 => cases h; exact (hr _).1 h1
        · cases ho : d.order.find? (fallbackOk d) with
          | none => rw [ho] at h; cases h
          | some n => rw [ho] at h; cases h; exact hf n (List.find?_some ho)
  · simp only [List.forall_mem_cons, List.not_mem_nil, false_implies, implies_true, and_true, ← hr', ← hf']
    unfold find
    dsimp only
    cases runnable d (.top (target project)) <;> cases runnable d (.debug (target project)) <;>
      cases runnable d (.release (target project)) <;> simp

/-- C298, a disagreement: with a generator of several configurations, once a project was built for debugging, a release
build runs the old debugging program, however often and whatever of it is built for release. -/
theorem stale_debug (d : Dir) (k : Nat) (project : Text) (ht : d.at_ (.top (target project)) = none) (n : Nat) :
    find (d.builds k (⟨project, false, true⟩ :: List.replicate n ⟨project, true, true⟩)) project = some (.debug (target project)) ∧
    (d.builds k (⟨project, false, true⟩ :: List.replicate n ⟨project, true, true⟩)).at_ (.debug (target project)) = some ⟨true, true, k⟩ := by
  have key : ∀ (n : Nat) (d : Dir) (j : Nat), (d.builds j (List.replicate n ⟨project, true, true⟩)).at_ (.top (target project)) = d.at_ (.top (target project)) ∧
      (d.builds j (List.replicate n ⟨project, true, true⟩)).at_ (.debug (target project)) = d.at_ (.debug (target project)) := by
    intro n
    induction n with
    | zero => exact fun d j => ⟨rfl, rfl⟩
    | succ n ih =>
      intro d j
      rw [List.replicate_succ, Dir.builds]
      obtain ⟨a, b⟩ := ih (d.build j ⟨project, true, true⟩) (j + 1)
      rw [a, b]
      simp [Dir.build, Build.place]
  rw [Dir.builds]
  obtain ⟨a, b⟩ := key n (d.build k ⟨project, false, true⟩) (k + 1)
  have a' : (d.build k ⟨project, false, true⟩).at_ (.top (target project)) = none := by simpa [Dir.build, Build.place] using ht
  have b' : (d.build k ⟨project, false, true⟩).at_ (.debug (target project)) = some ⟨true, true, k⟩ := by simp [Dir.build, Build.place]
  rw [a'] at a
  rw [b'] at b
  exact ⟨by simp [find, runnable, a, b], b⟩

/-- C298, a disagreement: a directory of the target's name at the top, as cmake makes for a subdirectory of the sources,
is taken for the program. -/
theorem directory_run (d : Dir) (project : Text) (k : Nat) (h : d.at_ (.top (target project)) = some ⟨false, true, k⟩) :
    find d project = some (.top (target project)) ∧ ∃ e, d.at_ (.top (target project)) = some e ∧ e.isFile = false :=
  ⟨by simp [find, runnable, h], _, h, rfl⟩

/-- C298, a disagreement: if the target is not where it is looked for, the first other program listed at the top is
started, such as the one of the project's former name or a shared library. -/
theorem other_started (d : Dir) (project n : Text) (rest : List Text) (k : Nat) (ho : d.order = n :: rest)
    (h : d.at_ (.top n) = some ⟨true, true, k⟩) (hi : internal n = false)
    (hn : ∀ p ∈ [Place.top (target project), .debug (target project), .release (target project)], d.at_ p = none) :
    find d project = some (.top n) := by
  simp only [List.forall_mem_cons] at hn
  obtain ⟨h1, h2, h3, _⟩ := hn
  simp [find, runnable, h1, h2, h3, ho, fallbackOk, h, hi]

/-- C298, a disagreement: projects whose names differ only in hyphens and underscores have one program. -/
theorem names_meet : target "my-arm".toList = target "my_arm".toList := by decide +kernel

/-- C298: names without hyphens are kept. -/
theorem target_plain (p : Text) (h : '-' ∉ p) : target p = p := by
  unfold target
  induction p with
  | nil => rfl
  | cons c p ih =>
    rw [List.map_cons, ih (fun hm => h (by simp [hm])), if_neg (fun e => h (by simp [e]))]

/-- C298: the files passed over are those whose names begin with `cmake` or `CMake`. -/
theorem internal_iff (n : Text) : internal n = true ↔ ∃ s, n = "cmake".toList ++ s ∨ n = "CMake".toList ++ s := by
  simp only [internal, Bool.or_eq_true, List.isPrefixOf_iff_prefix]
  constructor
  · rintro (⟨s, h⟩ | ⟨s, h⟩)
    · exact ⟨s, .inl h.symm⟩
    · exact ⟨s, .inr h.symm⟩
  · rintro ⟨s, h | h⟩
    · exact .inl ⟨s, h.symm⟩
    · exact .inr ⟨s, h.symm⟩

/-! ### Examples -/

/-- An empty build directory. -/
def empty : Dir := ⟨fun _ => none, []⟩

example : find (empty.builds 0 [⟨"my-arm".toList, false, false⟩, ⟨"my-arm".toList, true, false⟩]) "my-arm".toList = some (.top "my_arm".toList) := by decide +kernel
example : ((empty.builds 0 [⟨"arm".toList, false, false⟩, ⟨"arm".toList, true, false⟩]).at_ (.top "arm".toList)) = some ⟨true, true, 1⟩ := by decide +kernel
example : find (empty.builds 0 [⟨"old".toList, false, false⟩]) "new".toList = some (.top "old".toList) := by decide +kernel
example : find empty "arm".toList = none := by decide +kernel
example : internal "cmake_install".toList = true ∧ internal "CMakeCache".toList = true ∧ internal "arm".toList = false := by decide +kernel

end Horus.CppBinary
