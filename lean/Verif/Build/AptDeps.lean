/-
System packages `horus run` and `horus build` install for a C++ project: horus_manager/src/commands/run/run_cpp.rs 550-662 and
horus_manager/src/cmake_gen.rs 111-118, 530-537.

The table of known libraries, the state of the system's packages, the environment variable and the line typed (with
surrounding white space removed; none if it cannot be read) are parameters. Letters are ASCII. That `dpkg -l NAME` also
succeeds for a package that was removed but not purged is an assumption about dpkg.
-/
namespace Horus.AptDeps

abbrev Text := List Char

/-- A dependency: a version alone, or a table (the fields that matter here). -/
inductive Dep where
  | simple
  | detailed (cpp system cmake : Bool) (apt : Option Text)
deriving DecidableEq

/-- The state of a package on the system. -/
inductive State where
  | absent
  | installed
  | removed
deriving DecidableEq

/-- `apt_package_for` (cmake_gen.rs:530-537). -/
def aptFor (known : Text → Option Text) (name : Text) : Dep → Option Text
  | .detailed _ _ _ (some a) => some a
  | _ => known name

/-- Whether the dependency is looked at (run_cpp.rs:568-578). -/
def isCpp (known : Text → Option Text) (name : Text) : Dep → Bool
  | .detailed cpp system cmake _ => cpp || system || cmake
  | .simple => (known name).isSome

/-- `check_dpkg_installed` (run_cpp.rs:665-673). -/
def dpkg (sys : Text → State) (a : Text) : Bool := sys a ≠ .absent

/-- The missing packages (run_cpp.rs:558-588), in the order of the manifest. -/
def missing (known : Text → Option Text) (sys : Text → State) (deps : List (Text × Dep)) : List Text :=
  deps.filterMap fun (n, d) =>
    match aptFor known n d with
    | none => none
    | some a => if isCpp known n d && !dpkg sys a then some a else none

/-- Lower case. -/
def lower (s : Text) : Text := s.map Char.toLower

/-- `HORUS_AUTO_INSTALL` (run_cpp.rs:606-608). -/
def auto : Option Text → Bool
  | none => false
  | some v => v = ['1'] ∨ lower v = ['t', 'r', 'u', 'e'] ∨ lower v = ['y', 'e', 's']

/-- The answer to the question (run_cpp.rs:621-623). -/
def accepted : Option Text → Bool
  | none => false
  | some s => lower s = ['y'] ∨ lower s = ['y', 'e', 's']

/-- `ensure_system_deps` (run_cpp.rs:550-662): the packages given to `sudo apt install -y`, if it is called. The build goes on
in every case. -/
def sudo (known : Text → Option Text) (sys : Text → State) (deps : List (Text × Dep)) (env typed : Option Text) : Option (List Text) :=
  let m := missing known sys deps
  if m = [] then none
  else if auto env || accepted typed then some m
  else none

/-! ### Theorems -/

/-- C299: the packages found missing are those that a dependency looked at asks for and dpkg does not know. -/
theorem missing_iff (known : Text → Option Text) (sys : Text → State) (deps : List (Text × Dep)) (a : Text) :
    a ∈ missing known sys deps ↔
      sys a = .absent ∧
      ((∃ n, (n, Dep.simple) ∈ deps ∧ known n = some a) ∨
       ∃ n cpp system cmake apt, (n, Dep.detailed cpp system cmake apt) ∈ deps ∧ (cpp = true ∨ system = true ∨ cmake = true) ∧
         (apt = some a ∨ apt = none ∧ known n = some a)) := by
  unfold missing
  rw [List.mem_filterMap]
  constructor
  · rintro ⟨⟨n, d⟩, hd, h⟩
    dsimp only at h
    cases hk : aptFor known n d with
    | none => rw [hk] at h; cases h
    | some x =>
      rw [hk] at h
      dsimp only at h
      split at h
      · next hc =>
        cases h
        simp only [Bool.and_eq_true, Bool.not_eq_true', dpkg, decide_eq_false_iff_not, ne_eq, Decidable.not_not] at hc
        refine ⟨hc.2, ?_⟩
        cases d with
        | simple => exact .inl ⟨n, hd, hk⟩
        | detailed cpp system cmake apt =>
          refine .inr ⟨n, cpp, system, cmake, apt, hd, by simpa [isCpp, or_assoc] using hc.1, ?_⟩
          cases apt with
          | none => exact .inr ⟨rfl, hk⟩
          | some y => exact .inl hk
      · cases h
  · rintro ⟨hs, h⟩
    have hs' : dpkg sys a = false := by simp [dpkg, hs]
    rcases h with ⟨n, hd, hk⟩ | ⟨n, cpp, system, cmake, apt, hd, hc, ha⟩
    · exact ⟨_, hd, by simp [aptFor, hk, isCpp, hs']⟩
    · refine ⟨_, hd, ?_⟩
      have hc' : isCpp known n (.detailed cpp system cmake apt) = true := by simpa [isCpp, or_assoc] using hc
      have hk : aptFor known n (.detailed cpp system cmake apt) = some a := by
        rcases ha with rfl | ⟨rfl, h⟩
        · rfl
        · exact h
      dsimp only
      rw [hk]
      simp [hc', hs']

/-- C299: packages are installed exactly if some are missing and the user agreed, by the variable or by answering `y` or
`yes`; then it is the missing ones, and no others. -/
theorem sudo_iff (known : Text → Option Text) (sys : Text → State) (deps : List (Text × Dep)) (env typed : Option Text) (l : List Text) :
    sudo known sys deps env typed = some l ↔
      l = missing known sys deps ∧ l ≠ [] ∧
      ((∃ v, env = some v ∧ (v = ['1'] ∨ lower v = ['t', 'r', 'u', 'e'] ∨ lower v = ['y', 'e', 's'])) ∨
       ∃ s, typed = some s ∧ (lower s = ['y'] ∨ lower s = ['y', 'e', 's'])) := by
  have ha : auto env = true ↔ ∃ v, env = some v ∧ (v = ['1'] ∨ lower v = ['t', 'r', 'u', 'e'] ∨ lower v = ['y', 'e', 's']) := by
    cases env <;> simp [auto]
  have hb : accepted typed = true ↔ ∃ s, typed = some s ∧ (lower s = ['y'] ∨ lower s = ['y', 'e', 's']) := by
    cases typed <;> simp [accepted]
  rw [← ha, ← hb]
  unfold sudo
  dsimp only
  by_cases hm : missing known sys deps = []
  · rw [if_pos hm]
    constructor
    · intro h; cases h
    · rintro ⟨rfl, h, _⟩; exact absurd hm h
  · rw [if_neg hm]
    simp only [Bool.or_eq_true]
    split
    · next h =>
      constructor
      · intro e; cases e; exact ⟨rfl, hm, h⟩
      · rintro ⟨rfl, _, _⟩; rfl
    · next h =>
      constructor
      · intro e; cases e
      · rintro ⟨_, _, h'⟩; exact absurd h' h

/-- C299: without the variable, no input (a script, a container) installs nothing. -/
theorem silent_none (known : Text → Option Text) (sys : Text → State) (deps : List (Text × Dep)) (typed : Option Text)
    (h : typed = none ∨ typed = some []) : sudo known sys deps none typed = none := by
  unfold sudo
  rcases h with rfl | rfl <;> simp [auto, accepted, lower]

/-- C299: a dependency that dpkg knows installed is never installed again. -/
theorem installed_kept (known : Text → Option Text) (sys : Text → State) (deps : List (Text × Dep)) (env typed : Option Text) (l : List Text)
    (h : sudo known sys deps env typed = some l) (a : Text) (ha : sys a = .installed) : a ∉ l := by
  obtain ⟨rfl, _, _⟩ := (sudo_iff known sys deps env typed l).1 h
  intro hm
  have := ((missing_iff known sys deps a).1 hm).1
  rw [ha] at this
  cases this

/-- C299, a disagreement: a known library given as a table, without a mark that it is C++, is not looked at, though the
same library given by a version alone is. -/
theorem table_skipped (known : Text → Option Text) (sys : Text → State) (n a : Text) (apt : Option Text) (hk : known n = some a) (ha : sys a = .absent) :
    missing known sys [(n, .detailed false false false apt)] = [] ∧ missing known sys [(n, .simple)] = [a] := by
  constructor
  · cases apt <;> simp [missing, aptFor, isCpp, hk]
  · simp [missing, aptFor, isCpp, hk, dpkg, ha]

/-- C299, a disagreement: a package that was removed but not purged counts as installed. -/
theorem removed_counts (known : Text → Option Text) (sys : Text → State) (deps : List (Text × Dep)) (a : Text) (h : sys a = .removed) :
    a ∉ missing known sys deps := by
  intro hm
  have := ((missing_iff known sys deps a).1 hm).1
  rw [h] at this
  cases this

/-! ### Examples -/

/-- A part of the table (cmake_gen.rs:35-107). -/
def known1 (n : Text) : Option Text :=
  if n = "eigen".toList then some "libeigen3-dev".toList else if n = "opencv".toList then some "libopencv-dev".toList else none

example : sudo known1 (fun a => if a = "libeigen3-dev".toList then .installed else .absent)
    [("eigen".toList, .simple), ("opencv".toList, .simple), ("serde".toList, .simple), ("foo".toList, .detailed true false false (some "libfoo-dev".toList))]
    none (some "Y".toList) = some ["libopencv-dev".toList, "libfoo-dev".toList] := by decide +kernel
example : sudo known1 (fun _ => .absent) [("eigen".toList, .simple)] none (some "n".toList) = none := by decide +kernel
example : sudo known1 (fun _ => .absent) [("eigen".toList, .simple)] (some "TRUE".toList) none = some ["libeigen3-dev".toList] := by decide +kernel

end Horus.AptDeps
