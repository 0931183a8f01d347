import Mathlib.Data.List.Basic
import Mathlib.Data.List.Infix
import Mathlib.Tactic.Common

/-!
# Running cargo and cmake through horus

`horus cargo ARGS` and `horus cmake ARGS` (`horus_manager/src/commands/proxy.rs:217-287`, 598-669) run the
real tool with the user's arguments, turned to the files generated below `.horus`. The project is found by
`find_project_root` (22-34), the tool by `find_real_tool` (62-89).

What the tools do with their arguments is a small specification of its own (`cargoManifest`, `cmakeBuild`,
`cmakeSource`, `cmakeScript`), from their manuals. Not modelled: generation of the files and the way
back into `horus.toml` (C186), environment variables given to the tool, exit codes.
-/

namespace Horus.Proxy

/-- Text. -/
abbrev Text := List Char

/-- A directory, innermost name first, so that its parents are its tails. -/
abbrev Dir := List Text

/-! ## The project -/

/-- `find_project_root` (22-34): at most `fuel` directories are looked at, beginning with the given one. -/
def findRoot (has : Dir → Bool) : Nat → Dir → Option Dir
  | 0, _ => none
  | _ + 1, [] => if has [] then some [] else none
  | fuel + 1, x :: p => if has (x :: p) then some (x :: p) else findRoot has fuel p

/-- With the limit of the code. -/
def root (has : Dir → Bool) (d : Dir) : Option Dir := findRoot has 10 d

/-- **The project is the nearest directory with a `horus.toml`**, at most nine levels up. -/
theorem root_nearest (has : Dir → Bool) (n : Nat) (d r : Dir) :
    findRoot has n d = some r ↔ ∃ i, i < n ∧ i ≤ d.length ∧ d.drop i = r ∧ has r = true ∧ ∀ j < i, has (d.drop j) = false := by
  induction n generalizing d with
  | zero => simp [findRoot]
  | succ n ih =>
    have hit : has d = true → (some d = some r ↔ ∃ i, i < n + 1 ∧ i ≤ d.length ∧ d.drop i = r ∧ has r = true ∧ ∀ j < i, has (d.drop j) = false) := by
      intro h
      constructor
      · rintro ⟨⟩; exact ⟨0, by omega, by omega, rfl, h, by omega⟩
      · rintro ⟨i, -, -, hr, -, hj⟩
        cases i with
        | zero => rw [← hr]; rfl
        | succ i => have := hj 0 (by omega); rw [List.drop_zero, h] at this; cases this
    cases d with
    | nil =>
      rw [findRoot]
      by_cases h : has [] = true
      · rw [if_pos h]; exact hit h
      · rw [if_neg h]
        simp only [false_iff, reduceCtorEq]
        rintro ⟨i, -, -, rfl, hh, -⟩
        rw [List.drop_nil] at hh
        exact h hh
    | cons x p =>
      rw [findRoot]
      by_cases h : has (x :: p) = true
      · rw [if_pos h]; exact hit h
      · rw [if_neg h, ih]
        constructor
        · rintro ⟨i, h1, h2, h3, h4, h5⟩
          refine ⟨i + 1, by omega, by simp only [List.length_cons]; omega, h3, h4, fun j hj => ?_⟩
          cases j with
          | zero => exact Bool.eq_false_iff.2 h
          | succ j => exact h5 j (by omega)
        · rintro ⟨i, h1, h2, h3, h4, h5⟩
          cases i with
          | zero => rw [List.drop_zero] at h3; rw [h3] at h; exact absurd h4 h
          | succ i =>
            refine ⟨i, by omega, by simp only [List.length_cons] at h2; omega, h3, h4, fun j hj => ?_⟩
            exact h5 (j + 1) (by omega)

/-- Ten directories below its root, a project is not seen: the tool gets its arguments as they are. -/
theorem deep_unseen (has : Dir → Bool) (d : Dir) (h : ∀ j < 10, has (d.drop j) = false) : root has d = none := by
  cases hr : root has d with
  | none => rfl
  | some r =>
    obtain ⟨i, h1, -, h3, h4, -⟩ := (root_nearest has 10 d r).1 hr
    rw [← h3, h i h1] at h4
    cases h4

/-! ## The tool -/

/-- A place on the search path: does the tool exist there, and the last name of the file it leads to when that
can be told. -/
structure Place where
  dir : Text
  exists' : Bool
  resolved : Option Text
deriving DecidableEq, Repr

/-- `horus`. -/
def horusName : Text := ['h','o','r','u','s']

/-- `find_real_tool` (62-89): the override if it exists, else the first place that has it and does not lead to
a file called `horus`. -/
def findTool (override : Option (Text × Bool)) (path : List Place) : Option Text :=
  match override with
  | some (p, true) => some p
  | _ => (path.find? fun c => c.exists' && decide (c.resolved ≠ some horusName)).map Place.dir

/-- **The real tool is found**: without an override, the first place of the search path that has it and is not
horus itself. -/
theorem tool_first (path : List Place) (t : Text) :
    findTool none path = some t ↔ ∃ l c r, path = l ++ c :: r ∧ c.dir = t ∧ c.exists' = true ∧ c.resolved ≠ some horusName ∧ ∀ x ∈ l, x.exists' = false ∨ x.resolved = some horusName := by
  unfold findTool
  rw [Option.map_eq_some_iff]
  constructor
  · rintro ⟨c, hc, rfl⟩
    rw [List.find?_eq_some_iff_append] at hc
    obtain ⟨hp, l, r, rfl, hl⟩ := hc
    rw [Bool.and_eq_true, decide_eq_true_eq] at hp
    refine ⟨l, c, r, rfl, rfl, hp.1, hp.2, fun x hx => ?_⟩
    have := hl x hx
    rw [Bool.not_eq_true', Bool.and_eq_false_iff, decide_eq_false_iff_not, not_not] at this
    exact this
  · rintro ⟨l, c, r, rfl, rfl, h1, h2, h3⟩
    refine ⟨c, ?_, rfl⟩
    rw [List.find?_eq_some_iff_append]
    refine ⟨by rw [h1, decide_eq_true h2]; rfl, l, r, rfl, fun x hx => ?_⟩
    rw [Bool.not_eq_true', Bool.and_eq_false_iff, decide_eq_false_iff_not, not_not]
    exact h3 x hx

/-- A copy of horus under the tool's name, or an override naming it, is taken for the tool. -/
theorem copy_is_tool (d : Text) (t : Text) (ht : t ≠ horusName) (rest : List Place) :
    findTool none (⟨d, true, some t⟩ :: rest) = some d ∧ findTool (some (horusName, true)) rest = some horusName := by
  refine ⟨?_, rfl⟩
  rw [tool_first]
  exact ⟨[], ⟨d, true, some t⟩, rest, rfl, rfl, rfl, fun h => ht (Option.some.inj h), fun _ h => absurd h List.not_mem_nil⟩

/-! ## cargo -/

/-- `--manifest-path`. -/
def mp : Text := ['-','-','m','a','n','i','f','e','s','t','-','p','a','t','h']

/-- `--`. -/
def dashes : Text := ['-','-']

/-- `CARGO_NO_MANIFEST_PATH` (46-59), without the toolchains that the `+` rule covers. -/
def globals : List Text :=
  [['i','n','s','t','a','l','l'], ['u','n','i','n','s','t','a','l','l'], ['l','o','g','i','n'], ['l','o','g','o','u','t'], ['s','e','a','r','c','h'], ['h','e','l','p'], ['v','e','r','s','i','o','n'], ['n','e','w'], ['i','n','i','t']]

/-- `is_cargo_global_command` (202-212). -/
def isGlobal (s : Text) : Bool := s.head? == some '+' || s.head? == some '-' || globals.contains s

/-- The arguments cargo is given (237-253); `m` is `.horus/Cargo.toml` of the project. -/
def cargoArgs (m : Text) (args : List Text) : List Text :=
  match args with
  | [] => []
  | sub :: rest => if isGlobal sub || args.any (mp.isPrefixOf ·) then args else sub :: mp :: m :: rest

/-- The manifest a cargo command line names, as cargo reads it: the option's value, as the next word or behind
`=`, of an option before the `--` that begins the program's arguments. `none`: the manifest at or above
the working directory. -/
def cargoManifest : List Text → Option Text
  | [] => none
  | x :: r =>
    if x = dashes then none
    else if x = mp then r.head?
    else if (mp ++ ['=']).isPrefixOf x then some (x.drop (mp.length + 1))
    else cargoManifest r

/-- **cargo gets the user's arguments**: all of them, in order, with at most the option for the manifest added
behind the subcommand. -/
theorem cargo_args_kept (m : Text) (args : List Text) :
    cargoArgs m args = args ∨ ∃ sub rest, args = sub :: rest ∧ cargoArgs m args = sub :: mp :: m :: rest := by
  cases args with
  | nil => exact Or.inl rfl
  | cons sub rest =>
    unfold cargoArgs
    dsimp only
    split
    · exact Or.inl rfl
    · exact Or.inr ⟨sub, rest, rfl, rfl⟩

/-- **cargo works on the project** whenever the first word is a command that takes a manifest and no word begins
with `--manifest-path`. -/
theorem cargo_on_project (m sub : Text) (rest : List Text) (hs : isGlobal sub = false) (hd : sub ≠ dashes) (hn : ∀ a ∈ sub :: rest, ¬ mp <+: a) :
    cargoManifest (cargoArgs m (sub :: rest)) = some m := by
  have e : cargoArgs m (sub :: rest) = sub :: mp :: m :: rest := by
    unfold cargoArgs
    dsimp only
    rw [if_neg]
    rw [hs, Bool.false_or, List.any_eq_true]
    rintro ⟨x, hx, hp⟩
    exact hn x hx (List.isPrefixOf_iff_prefix.1 hp)
  have h1 : ¬ mp <+: sub := hn sub List.mem_cons_self
  rw [e, cargoManifest, if_neg hd, if_neg (by rintro rfl; exact h1 (List.prefix_refl _)), if_neg (by intro h; exact h1 ((List.prefix_append _ _).trans (List.isPrefixOf_iff_prefix.1 h)))]
  rw [cargoManifest, if_neg (by decide), if_pos rfl, List.head?_cons]

/-- A manifest the user names is the one used. -/
theorem cargo_own_manifest (m : Text) (pre rest : List Text) (v : Text) (h : ∀ a ∈ pre, a ≠ dashes ∧ ¬ mp <+: a) :
    cargoManifest (cargoArgs m (pre ++ mp :: v :: rest)) = some v := by
  have e : cargoArgs m (pre ++ mp :: v :: rest) = pre ++ mp :: v :: rest := by
    have hany : (pre ++ mp :: v :: rest).any (mp.isPrefixOf ·) = true := by
      rw [List.any_eq_true]
      exact ⟨mp, List.mem_append_right _ List.mem_cons_self, by decide⟩
    unfold cargoArgs
    cases hp : pre ++ mp :: v :: rest with
    | nil => rfl
    | cons x l => dsimp only; rw [hp] at hany; rw [hany, Bool.or_true, if_pos rfl]
  rw [e]
  clear e
  induction pre with
  | nil => rw [List.nil_append, cargoManifest, if_neg (by decide), if_pos rfl, List.head?_cons]
  | cons a pre ih =>
    obtain ⟨h1, h2⟩ := h a List.mem_cons_self
    rw [List.cons_append, cargoManifest, if_neg h1, if_neg (by rintro rfl; exact h2 (List.prefix_refl _)), if_neg (by intro h'; exact h2 ((List.prefix_append _ _).trans (List.isPrefixOf_iff_prefix.1 h')))]
    exact ih (fun x hx => h x (List.mem_cons_of_mem _ hx))

/-- **A toolchain or an option before the command loses the project**: `horus cargo +nightly build`,
`horus cargo -v build` run cargo where the user stands. -/
theorem leading_word_loses (m x : Text) (rest : List Text) (hx : x.head? = some '+' ∨ x.head? = some '-') : cargoArgs m (x :: rest) = x :: rest := by
  unfold cargoArgs
  dsimp only
  rw [if_pos]
  rw [Bool.or_eq_true]
  left
  unfold isGlobal
  rcases hx with h | h <;> rw [h] <;> rfl

/-- **A program's own argument loses the project**: behind `--`, `--manifest-path` is for the program, and cargo is
given no manifest. -/
theorem program_argument_loses (m sub : Text) (a b : List Text) (hs : sub ≠ dashes ∧ ¬ mp <+: sub) (ha : ∀ x ∈ a, x ≠ dashes ∧ ¬ mp <+: x) :
    cargoManifest (cargoArgs m (sub :: a ++ dashes :: mp :: b)) = none := by
  have e : cargoArgs m (sub :: a ++ dashes :: mp :: b) = sub :: a ++ dashes :: mp :: b := by
    unfold cargoArgs
    rw [List.cons_append]
    dsimp only
    rw [if_pos]
    rw [Bool.or_eq_true]
    right
    rw [List.any_eq_true]
    exact ⟨mp, List.mem_cons_of_mem _ (List.mem_append_right _ (List.mem_cons_of_mem _ List.mem_cons_self)), by decide⟩
  rw [e]
  have g : ∀ l : List Text, (∀ x ∈ l, x ≠ dashes ∧ ¬ mp <+: x) → cargoManifest (l ++ dashes :: mp :: b) = none := by
    intro l hl
    induction l with
    | nil => rw [List.nil_append, cargoManifest, if_pos rfl]
    | cons y l ih =>
      obtain ⟨h1, h2⟩ := hl y List.mem_cons_self
      rw [List.cons_append, cargoManifest, if_neg h1, if_neg (by rintro rfl; exact h2 (List.prefix_refl _)), if_neg (by intro h'; exact h2 ((List.prefix_append _ _).trans (List.isPrefixOf_iff_prefix.1 h')))]
      exact ih (fun x hx => hl x (List.mem_cons_of_mem _ hx))
  exact g (sub :: a) (fun x hx => by rcases List.mem_cons.1 hx with rfl | hx; · exact hs
                                     · exact ha x hx)

/-- Every other command gets the option, also those cargo knows no such option for. -/
theorem other_commands_get_it (m sub : Text) (hs : isGlobal sub = false) (hn : ¬ mp <+: sub) : cargoArgs m [sub] = [sub, mp, m] := by
  unfold cargoArgs
  dsimp only
  rw [if_neg]
  rw [hs, Bool.false_or, List.any_eq_true]
  rintro ⟨x, hx, hp⟩
  rw [List.mem_singleton] at hx
  rw [hx] at hp
  exact hn (List.isPrefixOf_iff_prefix.1 hp)

/-! ## cmake -/

/-- `.`, `-S`, `-B`, `-P`. -/
def dot : Text := ['.']
def fS : Text := ['-','S']
def fB : Text := ['-','B']
def fP : Text := ['-','P']

/-- `is_cmake_mode_invocation` (598-609). -/
def modes : List Text :=
  [['-','E'], fP, ['-','-','b','u','i','l','d'], ['-','-','i','n','s','t','a','l','l'], ['-','-','o','p','e','n'], ['-','-','f','i','n','d','-','p','a','c','k','a','g','e'], ['-','-','s','y','s','t','e','m','-','i','n','f','o','r','m','a','t','i','o','n']]

/-- Whether a `.` with this word before it is taken for the source directory (644-655). -/
def asSource (prev : Option Text) : Bool :=
  match prev with
  | none => true
  | some p => decide (p = fS) || p.head? != some '-'

/-- The rewriting (636-655), `h` being `.horus` of the project: word by word, with the word before. (The code
changes the list in place; the word before may be one already changed, which begins with no `-` either
way.) -/
def rewrite (h : Text) : Option Text → List Text → List Text
  | _, [] => []
  | prev, x :: r =>
    let y := if x = dot ∧ asSource prev = true then h else x
    y :: rewrite h (some y) r

/-- The first word names another mode (608). -/
def isMode : List Text → Bool
  | [] => false
  | a :: _ => modes.contains a

/-- The arguments cmake is given (611-668); `b` is `.horus/cpp-build`. -/
def cmakeArgs (h b : Text) (args : List Text) : List Text :=
  if isMode args then args
  else if args.contains fB then rewrite h none args
  else rewrite h none args ++ [fB, b]

/-- The build directory as cmake reads it: `-B D` or `-BD`, the last one counting. -/
def cmakeBuild : List Text → Option Text
  | [] => none
  | x :: r =>
    (match cmakeBuild r with
     | some d => some d
     | none => if x = fB then r.head? else if fB.isPrefixOf x then some (x.drop 2) else none)

/-- Whether cmake runs a script instead of configuring: `-P` anywhere. -/
def cmakeScript (args : List Text) : Bool := args.contains fP

theorem rewrite_length (h : Text) (p : Option Text) (l : List Text) : (rewrite h p l).length = l.length := by
  induction l generalizing p with
  | nil => rfl
  | cons x r ih => rw [rewrite]; simp only [List.length_cons, ih]

/-- **cmake gets the user's words**: each is passed on as it is, but for a `.` taken for the source directory. -/
theorem cmake_words (h : Text) (hh : h.head? ≠ some '-') (hS : h ≠ fS) (l : List Text) (i : Nat) (hi : i < l.length) :
    (rewrite h none l)[i]? = some (if l[i] = dot ∧ (i = 0 ∨ ∃ p, l[i - 1]? = some p ∧ (p = fS ∨ p.head? ≠ some '-')) then h else l[i]) := by
  have g : ∀ (l : List Text) (prev orig : Option Text), (asSource prev = asSource orig) → ∀ i (hi : i < l.length),
      (rewrite h prev l)[i]? = some (if l[i] = dot ∧ asSource ((orig :: l.map some)[i]?.join) = true then h else l[i]) := by
    intro l
    induction l with
    | nil => intro _ _ _ i hi; exact absurd hi (Nat.not_lt_zero _)
    | cons x r ih =>
      intro prev orig hpo i hi
      rw [rewrite]
      cases i with
      | zero =>
        simp only [List.getElem?_cons_zero, List.getElem_cons_zero, Option.join_some]
        rw [hpo]
      | succ i =>
        rw [List.getElem?_cons_succ, List.getElem_cons_succ]
        rw [ih _ (some x) _ i (by simpa using hi)]
        · rw [List.map_cons, List.getElem?_cons_succ]
        · split
          · rename_i hx
            unfold asSource
            dsimp only
            rw [decide_eq_false hS, Bool.false_or, show (h.head? != some '-') = true from by simpa using hh, hx.1]
            decide
          · rfl
  rw [g l none none rfl i hi]
  congr 1
  have : (asSource ((none :: l.map some)[i]?.join) = true) ↔ (i = 0 ∨ ∃ p, l[i - 1]? = some p ∧ (p = fS ∨ p.head? ≠ some '-')) := by
    cases i with
    | zero => simp [asSource]
    | succ i =>
      rw [List.getElem?_cons_succ, List.getElem?_map, List.getElem?_eq_getElem (by omega)]
      simp [asSource, List.getElem?_eq_getElem (show i < l.length by omega)]
  simp only [this]

/-- Behind the user's words at most the build directory is added. -/
theorem cmake_added (h b : Text) (args : List Text) :
    cmakeArgs h b args = args ∨ cmakeArgs h b args = rewrite h none args ∨ cmakeArgs h b args = rewrite h none args ++ [fB, b] := by
  unfold cmakeArgs
  split
  · exact Or.inl rfl
  · split
    · exact Or.inr (Or.inl rfl)
    · exact Or.inr (Or.inr rfl)

/-- Another mode of cmake, named by the first word, is left alone. -/
theorem cmake_mode_kept (h b a : Text) (rest : List Text) (ha : a ∈ modes) : cmakeArgs h b (a :: rest) = a :: rest := by
  unfold cmakeArgs
  rw [if_pos (show isMode (a :: rest) = true from List.contains_iff_mem.2 ha)]

theorem build_last (l : List Text) (b : Text) (hb : ¬ fB <+: b) : cmakeBuild (l ++ [fB, b]) = some b := by
  have base : cmakeBuild [fB, b] = some b := by
    have e : cmakeBuild [b] = none := by
      rw [cmakeBuild, cmakeBuild]
      dsimp only
      rw [if_neg (by rintro rfl; exact hb (List.prefix_refl _)), if_neg (by intro h; exact hb (List.isPrefixOf_iff_prefix.1 h))]
    rw [cmakeBuild, e]
    dsimp only
    rw [if_pos rfl]
    rfl
  induction l with
  | nil => exact base
  | cons x l ih => rw [List.cons_append, cmakeBuild, ih]

/-- **Without a build directory the project's is used.** -/
theorem cmake_default_build (h b : Text) (args : List Text) (hm : ∀ a, args.head? = some a → a ∉ modes) (hB : fB ∉ args) (hb : ¬ fB <+: b) :
    cmakeBuild (cmakeArgs h b args) = some b := by
  have e : cmakeArgs h b args = rewrite h none args ++ [fB, b] := by
    unfold cmakeArgs
    rw [if_neg, if_neg (by rw [List.contains_iff_mem]; exact hB)]
    cases args with
    | nil => decide
    | cons a r => rw [isMode, List.contains_iff_mem]; exact hm a rfl
  rw [e]
  exact build_last _ b hb

/-- **A build directory written `-Bdir` is overridden** by the project's. -/
theorem joined_build_overridden (h b d : Text) (hd : d ≠ []) (hb : ¬ fB <+: b) :
    cmakeBuild [fB ++ d] = some d ∧ cmakeBuild (cmakeArgs h b [fB ++ d]) = some b := by
  have hne : fB ++ d ≠ fB := by intro h'; exact hd (by simpa using h')
  refine ⟨?_, cmake_default_build h b _ ?_ ?_ hb⟩
  · rw [cmakeBuild, cmakeBuild]
    dsimp only
    rw [if_neg hne, if_pos (List.isPrefixOf_iff_prefix.2 (List.prefix_append _ _))]
    rfl
  · intro a ha hm
    simp only [List.head?_cons, Option.some.injEq] at ha
    subst ha
    simp [modes, fB, fP] at hm
  · rw [List.mem_singleton]; exact fun h' => hne h'.symm

/-- **A `.` behind an option is not turned to the project**: `horus cmake -DX=1 .` configures the user's directory,
not `.horus`. -/
theorem dot_after_option (h b o : Text) (ho : o.head? = some '-') (hS : o ≠ fS) (hB : o ≠ fB) (hm : o ∉ modes) :
    cmakeArgs h b [o, dot] = [o, dot, fB, b] := by
  have hod : o ≠ dot := by rintro rfl; exact absurd ho (by decide)
  unfold cmakeArgs
  rw [if_neg (by rw [isMode, List.contains_iff_mem]; exact hm), if_neg (by
    rw [List.contains_iff_mem, List.mem_cons, List.mem_singleton]
    rintro (h' | h'); · exact hB h'.symm
    · exact absurd h' (by decide))]
  rw [rewrite, rewrite, rewrite]
  rw [if_neg (by rintro ⟨h', -⟩; exact hod h'), if_neg (by
    rintro ⟨-, h'⟩
    unfold asSource at h'
    dsimp only at h'
    rw [decide_eq_false hS, ho] at h'
    revert h'; decide)]
  rfl

/-- **A script with definitions before it gets a build directory**: the definitions of a script must stand before
`-P`, and then the mode is not seen. -/
theorem script_after_definition (h b o s : Text) (hm : o ∉ modes) (hB : fB ∉ [o, fP, s]) :
    cmakeScript [o, fP, s] = true ∧ ∃ l, cmakeArgs h b [o, fP, s] = l ++ [fB, b] := by
  refine ⟨by simp [cmakeScript], rewrite h none [o, fP, s], ?_⟩
  unfold cmakeArgs
  rw [if_neg (by rw [isMode, List.contains_iff_mem]; exact hm), if_neg (by rw [List.contains_iff_mem]; exact hB)]

/-! ## Concrete cases -/

/-- `run`, `build`, a manifest. -/
def wRun : Text := ['r','u','n']
def theM : Text := ['/','p','/','C']
example : cargoArgs theM [wRun, ['-','-','b','i','n'], ['a']] = [wRun, mp, theM, ['-','-','b','i','n'], ['a']] := by decide +kernel
example : cargoManifest (cargoArgs theM [wRun, ['-','-','b','i','n'], ['a']]) = some theM := by decide +kernel
example : cargoArgs theM [['+','n'], wRun] = [['+','n'], wRun] := by decide +kernel
example : cargoManifest (cargoArgs theM [wRun, dashes, mp, ['x']]) = none := by decide +kernel
example : cargoManifest (cargoArgs theM [wRun, mp ++ ['=','x']]) = some ['x'] := by decide +kernel
example : isGlobal ['y','a','n','k'] = false ∧ ¬ mp <+: ['y','a','n','k'] := by decide +kernel
example : cmakeArgs ['/','h'] ['/','b'] [dot] = [['/','h'], fB, ['/','b']] := by decide +kernel
example : cmakeArgs ['/','h'] ['/','b'] [fS, dot, fB, dot] = [fS, ['/','h'], fB, dot] := by decide +kernel
example : cmakeArgs ['/','h'] ['/','b'] [['-','D','x'], dot] = [['-','D','x'], dot, fB, ['/','b']] := by decide +kernel
example : cmakeArgs ['/','h'] ['/','b'] [['-','E'], ['e'], dot] = [['-','E'], ['e'], dot] := by decide +kernel
example : findTool none [⟨['a'], false, none⟩, ⟨['b'], true, some horusName⟩, ⟨['c'], true, some ['c','a','r','g','o']⟩] = some ['c'] := by decide +kernel
example : root (fun d => decide (d = [['p']])) [['s'], ['q'], ['p']] = some [['p']] := by decide +kernel
example : root (fun d => decide (d = [])) (List.replicate 10 ['s']) = none := by decide +kernel

end Horus.Proxy
