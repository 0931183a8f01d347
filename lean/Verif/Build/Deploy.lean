import Mathlib.Data.List.Basic
import Mathlib.Data.List.Infix
import Mathlib.Tactic.Common
/-
`horus deploy`. Source: /repo/horus_manager/src/commands/deploy.rs. What the programs it calls do (cargo, rsync, ssh) is an input; rsync's
exclude patterns are modelled from its manual. Quoting is in `Verif/Util/Shell.lean`.
-/
namespace Horus.Deploy

/-! ### Settings -/

inductive Arch
  | aarch64 | armv7 | x86 | native
  deriving DecidableEq

def lower (s : String) : List Char := s.toList.map Char.toLower

/-- deploy.rs:53-61 (ASCII lower case). -/
def Arch.fromStr (s : String) : Option Arch :=
  if lower s ∈ ["aarch64", "arm64", "jetson", "pi4", "pi5"].map String.toList then some .aarch64
  else if lower s ∈ ["armv7", "arm", "pi3", "pi2"].map String.toList then some .armv7
  else if lower s ∈ ["x86_64", "x64", "amd64", "intel"].map String.toList then some .x86
  else if lower s ∈ ["native", "host", "local"].map String.toList then some .native
  else none

def hasAny (h : List Char) (ps : List String) : Bool := ps.any fun p => decide (p.toList <:+: h)

/-- deploy.rs:597-614. -/
def guess (host : String) : Arch :=
  if hasAny (lower host) ["jetson", "nano", "xavier", "orin", "pi4", "pi5", "raspberry"] then .aarch64
  else if hasAny (lower host) ["pi3", "pi2"] then .armv7
  else .aarch64

/-- An entry of `.horus/deploy.yaml` (deploy.rs:21-28). -/
structure Entry where
  host : String
  arch : Option String
  dir : Option String
  port : Option Nat
  identity : Option String

/-- The command line (deploy.rs:165-174); `port` is 22 if it is not given. -/
structure Args where
  target : String
  dir : Option String
  arch : Option String
  port : Nat
  identity : Option String
  runAfter : Bool
  dry : Bool

structure Config where
  host : String
  dir : String
  arch : Arch
  port : Nat
  identity : Option String
  deriving DecidableEq

/-- deploy.rs:122-155, 472-504. `yaml` is the lookup in the file. -/
def settings (yaml : String → Option Entry) (a : Args) : Config :=
  let r : Entry := if a.target.toList.contains '@' then ⟨a.target, none, none, none, none⟩ else (yaml a.target).getD ⟨a.target, none, none, none, none⟩
  ⟨r.host, (a.dir.or r.dir).getD "~/horus_deploy", (((a.arch.or r.arch).bind Arch.fromStr).getD (guess r.host)), if a.port ≠ 22 then a.port else r.port.getD 22, a.identity.or r.identity⟩

/-- **What is on the command line wins over the file, and the file over the defaults**, for a known architecture and a port other than 22. -/
theorem settings_spec_partial (yaml : String → Option Entry) (a : Args) (e : Entry) (hat : '@' ∉ a.target.toList) (he : yaml a.target = some e) :
    (settings yaml a).host = e.host ∧
    (∀ d, a.dir = some d → (settings yaml a).dir = d) ∧ (a.dir = none → ∀ d, e.dir = some d → (settings yaml a).dir = d) ∧ (a.dir = none → e.dir = none → (settings yaml a).dir = "~/horus_deploy") ∧
    (∀ s x, a.arch = some s → Arch.fromStr s = some x → (settings yaml a).arch = x) ∧ (a.arch = none → ∀ s x, e.arch = some s → Arch.fromStr s = some x → (settings yaml a).arch = x) ∧
    (a.port ≠ 22 → (settings yaml a).port = a.port) ∧ (a.port = 22 → (settings yaml a).port = e.port.getD 22) ∧
    (∀ i, a.identity = some i → (settings yaml a).identity = some i) ∧ (a.identity = none → (settings yaml a).identity = e.identity) := by
  have hc : a.target.toList.contains '@' = false := by simpa using hat
  unfold settings
  rw [hc, he]
  simp only [Bool.false_eq_true, if_false, Option.getD_some]
  refine ⟨trivial, fun d h => by simp [h], fun h d h' => by simp [h, h'], fun h h' => by simp [h, h'], fun s x h h' => by simp [h, h'], fun h s x h1 h2 => by simp [h, h1, h2],
    fun h => if_pos h, fun h => by simp [h], fun i h => by simp [h], fun h => by simp [h]⟩

/-- A target with `@` is taken as it is. -/
theorem direct_host (yaml : String → Option Entry) (a : Args) (h : '@' ∈ a.target.toList) : (settings yaml a).host = a.target ∧ (settings yaml a).port = a.port := by
  have hc : a.target.toList.contains '@' = true := by simpa using h
  unfold settings
  rw [hc]
  simp only [if_true]
  refine ⟨trivial, ?_⟩
  split
  · rfl
  · rename_i h; simp only [ne_eq, Decidable.not_not] at h; simp [h]

/-- **Disagreement: `--port 22` cannot be asked for** where the file names another port. -/
theorem port22_ignored (yaml : String → Option Entry) (a : Args) (e : Entry) (p : Nat) (hat : '@' ∉ a.target.toList) (he : yaml a.target = some e) (hp : e.port = some p) (h : a.port = 22) :
    (settings yaml a).port = p := by
  rw [(settings_spec_partial yaml a e hat he).2.2.2.2.2.2.2.1 h, hp]; rfl

/-- **Disagreement: an architecture that is not known is not refused** but guessed from the host's name; without a hint there it is ARM64. -/
theorem unknown_arch_guessed (yaml : String → Option Entry) (a : Args) (s : String) (ha : a.arch = some s) (hs : Arch.fromStr s = none) :
    (settings yaml a).arch = guess (settings yaml a).host := by
  simp [settings, ha, hs]

example : Arch.fromStr "x86-64" = none ∧ guess "me@nuc" = .aarch64 ∧ Arch.fromStr "ARM64" = some .aarch64 := by decide

/-! ### The steps -/

inductive Eff
  | build | files | binary | run
  deriving DecidableEq

/-- What happens when it is tried: does the build succeed, is there an rsync, what is answered to the question, do the transfers succeed, is there
a binary to transfer, how does the program end (`none`: by a signal). -/
structure World where
  buildOk : Bool
  rsync : Bool
  yes : Bool
  filesOk : Bool
  hasBinary : Bool
  binaryOk : Bool
  exitCode : Option Nat

/-- deploy.rs:794-873, 890-943: what was done, and whether it counts as success. -/
def sync (w : World) : List Eff × Bool :=
  if !w.rsync then ([], false)
  else if !w.yes then ([], true)
  else if !w.filesOk then ([.files], false)
  else if !w.hasBinary then ([.files], true)
  else ([.files, .binary], w.binaryOk)

/-- deploy.rs:996-1098. -/
def runOk (w : World) : Bool := w.exitCode == some 0 || w.exitCode == some 130 || w.exitCode == none

/-- deploy.rs:460-562. -/
def deploy (dry runAfter : Bool) (w : World) : List Eff × Bool :=
  if dry then ([], true)
  else if !w.buildOk then ([.build], false)
  else
    match sync w with
    | (es, false) => (.build :: es, false)
    | (es, true) => if runAfter then (.build :: es ++ [.run], runOk w) else (.build :: es, true)

/-- A dry run does nothing. -/
theorem dry_nothing (r : Bool) (w : World) : (deploy true r w).1 = [] := rfl

/-- **Nothing is copied without a yes**, and nothing if the build failed. -/
theorem copied_only_if (d r : Bool) (w : World) (h : Eff.files ∈ (deploy d r w).1 ∨ Eff.binary ∈ (deploy d r w).1) : d = false ∧ w.buildOk = true ∧ w.yes = true := by
  obtain ⟨b, rs, y, f, hb, bo, x⟩ := w
  revert h
  cases d <;> cases r <;> cases b <;> cases rs <;> cases y <;> cases f <;> cases hb <;> cases bo <;> simp [deploy, sync]

/-- **If it says that the deployment is complete and the question was answered with yes**, everything was built, copied and, if asked for, started, in
that order. -/
theorem complete_partial (r : Bool) (w : World) (hy : w.yes = true) (h : (deploy false r w).2 = true) :
    (deploy false r w).1 = [.build, .files] ++ (if w.hasBinary then [.binary] else []) ++ (if r then [.run] else []) ∧ w.buildOk = true ∧ w.filesOk = true ∧
      (w.hasBinary = true → w.binaryOk = true) := by
  obtain ⟨b, rs, y, f, hb, bo, x⟩ := w
  revert h hy
  cases r <;> cases b <;> cases rs <;> cases y <;> cases f <;> cases hb <;> cases bo <;> simp [deploy, sync]

/-- Nothing follows a step that failed. -/
theorem stops_at_failure (r : Bool) (w : World) : (w.buildOk = false → (deploy false r w).1 = [.build]) ∧ (w.filesOk = false → w.yes = true → Eff.run ∉ (deploy false r w).1) ∧
    (w.hasBinary = true → w.binaryOk = false → w.yes = true → w.filesOk = true → Eff.run ∉ (deploy false r w).1) := by
  obtain ⟨b, rs, y, f, hb, bo, x⟩ := w
  cases r <;> cases b <;> cases rs <;> cases y <;> cases f <;> cases hb <;> cases bo <;> simp [deploy, sync]

/-- **Disagreement: answering no does not cancel.** Nothing is copied, but with `--run` the program that was on the robot before is started, and the
command says that the deployment is complete. -/
theorem no_still_runs (w : World) (hb : w.buildOk = true) (hr : w.rsync = true) (hn : w.yes = false) :
    deploy false true w = ([.build, .run], runOk w) ∧ deploy false false w = ([.build], true) := by
  simp [deploy, sync, hb, hr, hn]

/-- A program that is killed by a signal counts as success. -/
theorem killed_is_success (w : World) (h : w.exitCode = none) : runOk w = true := by simp [runOk, h]

/-! ### Several robots -/

/-- deploy.rs:249-390 for more than one target: is the first build good, is the first question answered with yes, and each robot's world. -/
def fleet (dry runAfter buildOk yes : Bool) (ws : List World) : List (List Eff) × Bool :=
  if !dry && !buildOk then ([], false)
  else if !dry && !yes then ([], true)
  else (ws.map fun w => (deploy dry runAfter w).1, ws.all fun w => (deploy dry runAfter w).2)

/-- **A robot that cannot be reached does not stop the others, and success means that each succeeded.** -/
theorem fleet_each (r : Bool) (ws : List World) : (fleet false r true true ws).1 = ws.map (fun w => (deploy false r w).1) ∧
    ((fleet false r true true ws).2 = true ↔ ∀ w ∈ ws, (deploy false r w).2 = true) := by
  simp [fleet]

/-- No robot is touched if the first build fails or the question is answered with no. -/
theorem fleet_gate (r b y : Bool) (ws : List World) (h : b = false ∨ y = false) : (fleet false r b y ws).1 = [] := by
  rcases h with rfl | rfl <;> cases r <;> simp [fleet] <;> (try cases b <;> simp)

/-- **Disagreement: the question is asked again for every robot**, and a no there is counted as a success. -/
theorem fleet_no_counts (ws : List World) (h : ∀ w ∈ ws, w.buildOk = true ∧ w.rsync = true ∧ w.yes = false) :
    (fleet false false true true ws).2 = true ∧ ∀ es ∈ (fleet false false true true ws).1, Eff.files ∉ es := by
  refine ⟨(fleet_each false ws).2.2 fun w hw => ?_, fun es hes => ?_⟩
  · obtain ⟨h1, h2, h3⟩ := h w hw
    rw [(no_still_runs w h1 h2 h3).2]
  · rw [(fleet_each false ws).1, List.mem_map] at hes
    obtain ⟨w, hw, rfl⟩ := hes
    obtain ⟨h1, h2, h3⟩ := h w hw
    rw [(no_still_runs w h1 h2 h3).2]
    decide

example : deploy false true ⟨true, true, true, true, true, true, some 0⟩ = ([.build, .files, .binary, .run], true) := by decide
example : deploy false true ⟨true, true, false, true, true, true, some 0⟩ = ([.build, .run], true) := by decide
example : (fleet false false true true [⟨true, true, true, false, true, true, none⟩, ⟨true, true, true, true, true, true, none⟩]) = ([[.build, .files], [.build, .files, .binary]], false) := by decide

/-! ### The binary -/

/-- A place for the binary: below `.horus/target` or `target`, in the directory of a target triple or not. The profile and the name are the same in
all of them. -/
structure Place where
  horus : Bool
  triple : Bool
  deriving DecidableEq

/-- deploy.rs:949-993; `cross`: the architecture has a triple. -/
def places (cross : Bool) : List Place :=
  (if cross then [⟨true, true⟩] else []) ++ [⟨true, false⟩] ++ (if cross then [⟨false, true⟩] else []) ++ [⟨false, false⟩]

def locate (cross : Bool) (there : Place → Bool) : Option Place := (places cross).find? there

/-- deploy.rs:701-721 with cargo's defaults: where this build puts the binary. `generated`: `.horus/Cargo.toml` is there. -/
def builtAt (generated cross : Bool) : Place := ⟨generated, cross⟩

/-- **The binary that was just built is the one that is sent**, in a project whose manifest HORUS generated. -/
theorem sends_built_partial (cross : Bool) (there : Place → Bool) (h : there (builtAt true cross) = true) : locate cross there = some (builtAt true cross) := by
  cases cross <;> simp [locate, places, builtAt, List.find?] at h ⊢ <;> simp [h]

/-- In a project with its own `Cargo.toml` this holds exactly if nothing is left below `.horus/target`. -/
theorem sends_built_iff (cross : Bool) (there : Place → Bool) (h : there (builtAt false cross) = true) :
    locate cross there = some (builtAt false cross) ↔ there ⟨true, false⟩ = false ∧ (cross = true → there ⟨true, true⟩ = false) := by
  cases cross <;> simp [builtAt] at h <;> simp [locate, places, builtAt, List.find?]
  · cases h1 : there ⟨true, false⟩ <;> simp [h]
  · cases h1 : there ⟨true, false⟩ <;> cases h2 : there ⟨true, true⟩ <;> simp [h]

/-- **Disagreement: the developer's own binary is sent to the robot.** In a project with its own `Cargo.toml`, `horus run` builds below `.horus/target`,
`horus deploy` below `target/TRIPLE`; the former, built for another processor, is sent. -/
theorem host_binary_sent (there : Place → Bool) (h1 : there ⟨true, true⟩ = false) (h2 : there ⟨true, false⟩ = true) : locate true there = some ⟨true, false⟩ ∧ builtAt false true ≠ ⟨true, false⟩ := by
  simp [locate, places, builtAt, List.find?, h1, h2]

example : locate true (fun p => p == ⟨true, false⟩ || p == ⟨false, true⟩) = some ⟨true, false⟩ := by decide

/-! ### What is not sent -/

/-- rsync's wildcards, as far as they are used: `*` stands for any characters but a slash (names have none). -/
def glob : List Char → List Char → Bool
  | [], [] => true
  | [], _ :: _ => false
  | p :: ps, s =>
    if p = '*' then s.tails.any fun t => glob ps t
    else match s with
      | [] => false
      | c :: cs => p = c && glob ps cs

/-- A pattern: the components between its slashes. Without a leading slash it is matched against the end of a path. -/
abbrev Pat := List String

def matchesAll : Pat → List String → Bool
  | [], [] => true
  | p :: ps, c :: cs => glob p.toList c.toList && matchesAll ps cs
  | _, _ => false

def matchesPat (p : Pat) (path : List String) : Bool := p.length ≤ path.length && matchesAll p (path.drop (path.length - p.length))

/-- deploy.rs:433-458. -/
def excludes : List Pat :=
  [["target"], [".git"], ["node_modules"], ["__pycache__"], ["*.pyc"], [".horus", "deploy.yaml"], [".env"], [".env.*"], ["id_rsa"], ["id_ed25519"], ["*.pem"], ["*.key"],
    [".horus", "cpp-build", "CMakeCache.txt"], [".horus", "cpp-build", "CMakeFiles"]]

/-- A file is sent if neither it nor a directory on the way to it is excluded. -/
def sent (path : List String) : Bool := path.inits.all fun q => q.isEmpty || !excludes.any fun p => matchesPat p q

theorem glob_lit (p s : List Char) (h : '*' ∉ p) : glob p s = true ↔ s = p := by
  induction p generalizing s with
  | nil => cases s <;> simp [glob]
  | cons a p ih =>
    have ha : a ≠ '*' := fun e => h (by simp [e])
    have hp : '*' ∉ p := fun e => h (List.mem_cons_of_mem _ e)
    unfold glob
    rw [if_neg ha]
    cases s with
    | nil => simp
    | cons c s =>
      simp only [Bool.and_eq_true, decide_eq_true_eq, ih s hp, List.cons.injEq]
      exact ⟨fun h => ⟨h.1.symm, h.2⟩, fun h => ⟨h.1.symm, h.2⟩⟩

theorem glob_star (s : List Char) : glob ['*'] s = true := by
  unfold glob
  rw [if_pos rfl, List.any_eq_true]
  exact ⟨[], (List.mem_tails _ _).2 (List.nil_suffix), rfl⟩

theorem glob_suffix (p s : List Char) (h : '*' ∉ p) : glob ('*' :: p) s = true ↔ p <:+ s := by
  unfold glob
  rw [if_pos rfl, List.any_eq_true]
  constructor
  · rintro ⟨t, ht, hg⟩
    rw [glob_lit p t h] at hg
    subst hg
    exact (List.mem_tails _ _).1 ht
  · intro hs
    exact ⟨p, (List.mem_tails _ _).2 hs, (glob_lit p p h).2 rfl⟩

theorem glob_prefix (p s : List Char) (h : '*' ∉ p) : glob (p ++ ['*']) s = true ↔ p <+: s := by
  induction p generalizing s with
  | nil => simp [glob_star]
  | cons a p ih =>
    have ha : a ≠ '*' := fun e => h (by simp [e])
    have hp : '*' ∉ p := fun e => h (List.mem_cons_of_mem _ e)
    show glob (a :: (p ++ ['*'])) s = true ↔ _
    unfold glob
    rw [if_neg ha]
    cases s with
    | nil => simp
    | cons c s => simp [ih s hp, List.cons_prefix_cons]

/-- Specification: a name that is kept back wherever it stands. -/
def Secret (c : String) : Prop :=
  c ∈ ["target", ".git", "node_modules", "__pycache__", ".env", "id_rsa", "id_ed25519"] ∨ ".pyc".toList <:+ c.toList ∨ ".pem".toList <:+ c.toList ∨ ".key".toList <:+ c.toList ∨ ".env.".toList <+: c.toList

theorem str_glob (p c : String) (h : '*' ∉ p.toList) : glob p.toList c.toList = true ↔ c = p := by
  rw [glob_lit _ _ h]
  exact String.toList_inj

theorem one_pat (p : String) (path : List String) (c : String) : matchesPat [p] (path ++ [c]) = glob p.toList c.toList := by
  simp [matchesPat, matchesAll]

theorem secret_excluded (path : List String) (c : String) (h : Secret c) : (excludes.any fun p => matchesPat p (path ++ [c])) = true := by
  rw [List.any_eq_true]
  rcases h with h | h | h | h | h
  · simp only [List.mem_cons, List.not_mem_nil, or_false] at h
    rcases h with rfl | rfl | rfl | rfl | rfl | rfl | rfl
    · exact ⟨["target"], by decide, by rw [one_pat]; decide⟩
    · exact ⟨[".git"], by decide, by rw [one_pat]; decide⟩
    · exact ⟨["node_modules"], by decide, by rw [one_pat]; decide⟩
    · exact ⟨["__pycache__"], by decide, by rw [one_pat]; decide⟩
    · exact ⟨[".env"], by decide, by rw [one_pat]; decide⟩
    · exact ⟨["id_rsa"], by decide, by rw [one_pat]; decide⟩
    · exact ⟨["id_ed25519"], by decide, by rw [one_pat]; decide⟩
  · exact ⟨["*.pyc"], by decide, by rw [one_pat]; exact (glob_suffix ".pyc".toList _ (by decide)).2 h⟩
  · exact ⟨["*.pem"], by decide, by rw [one_pat]; exact (glob_suffix ".pem".toList _ (by decide)).2 h⟩
  · exact ⟨["*.key"], by decide, by rw [one_pat]; exact (glob_suffix ".key".toList _ (by decide)).2 h⟩
  · exact ⟨[".env.*"], by decide, by rw [one_pat]; exact (glob_prefix ".env.".toList _ (by decide)).2 h⟩

/-- **Secrets stay at home**: no file is sent whose path has a component that is kept back, at any depth, nor the list of robots. -/
theorem secrets_kept (path : List String) : ((∃ c ∈ path, Secret c) → sent path = false) ∧ ([".horus", "deploy.yaml"] <:+: path → sent path = false) := by
  constructor
  · rintro ⟨c, hc, hs⟩
    obtain ⟨a, b, rfl⟩ := List.append_of_mem hc
    unfold sent
    rw [List.all_eq_false]
    refine ⟨a ++ [c], (List.mem_inits _ _).2 ⟨b, by simp⟩, ?_⟩
    rw [secret_excluded a c hs]
    simp
  · rintro ⟨a, b, rfl⟩
    unfold sent
    rw [List.all_eq_false]
    refine ⟨a ++ [".horus", "deploy.yaml"], (List.mem_inits _ _).2 ⟨b, by simp⟩, ?_⟩
    have : (excludes.any fun p => matchesPat p (a ++ [".horus", "deploy.yaml"])) = true := by
      rw [List.any_eq_true]
      refine ⟨[".horus", "deploy.yaml"], by decide, ?_⟩
      have e : matchesAll [".horus", "deploy.yaml"] [".horus", "deploy.yaml"] = true := by decide
      simp [matchesPat, e]
    rw [this]
    simp

theorem not_excluded (path : List String) (c : String) (hs : ¬ Secret c) (hd : c ≠ "deploy.yaml") (hc : c ≠ "CMakeCache.txt") (hf : c ≠ "CMakeFiles") :
    (excludes.any fun p => matchesPat p (path ++ [c])) = false := by
  unfold Secret at hs
  simp only [List.mem_cons, List.not_mem_nil, or_false, not_or] at hs
  obtain ⟨⟨h1, h2, h3, h4, h5, h6, h7⟩, h8, h9, h10, h11⟩ := hs
  have one : ∀ p : String, '*' ∉ p.toList → c ≠ p → matchesPat [p] (path ++ [c]) = false := by
    intro p hp hne
    rw [one_pat, Bool.eq_false_iff]
    exact fun h => hne ((str_glob p c hp).1 h)
  have g8 : matchesPat ["*.pyc"] (path ++ [c]) = false := by rw [one_pat, Bool.eq_false_iff]; exact fun h => h8 ((glob_suffix ".pyc".toList _ (by decide)).1 h)
  have g9 : matchesPat ["*.pem"] (path ++ [c]) = false := by rw [one_pat, Bool.eq_false_iff]; exact fun h => h9 ((glob_suffix ".pem".toList _ (by decide)).1 h)
  have g10 : matchesPat ["*.key"] (path ++ [c]) = false := by rw [one_pat, Bool.eq_false_iff]; exact fun h => h10 ((glob_suffix ".key".toList _ (by decide)).1 h)
  have g11 : matchesPat [".env.*"] (path ++ [c]) = false := by rw [one_pat, Bool.eq_false_iff]; exact fun h => h11 ((glob_prefix ".env.".toList _ (by decide)).1 h)
  have all_last : ∀ (p : Pat) (q : List String), matchesAll p q = true → p.length = q.length ∧ ∀ i (h1 : i < p.length) (h2 : i < q.length), glob p[i].toList q[i].toList = true := by
    intro p
    induction p with
    | nil => intro q h; cases q <;> simp [matchesAll] at h ⊢
    | cons a p ih =>
      intro q h
      cases q with
      | nil => simp [matchesAll] at h
      | cons b q =>
        simp only [matchesAll, Bool.and_eq_true] at h
        obtain ⟨hl, hi⟩ := ih q h.2
        refine ⟨by simp [hl], fun i h1 h2 => ?_⟩
        cases i with
        | zero => exact h.1
        | succ i => simpa using hi i (by simpa using h1) (by simpa using h2)
  have many : ∀ (p : Pat) (l : String), p ≠ [] → p.getLast? = some l → '*' ∉ l.toList → c ≠ l → matchesPat p (path ++ [c]) = false := by
    intro p l hp hl hst hne
    rw [Bool.eq_false_iff]
    intro hm
    unfold matchesPat at hm
    simp only [Bool.and_eq_true, decide_eq_true_eq] at hm
    obtain ⟨hlen, hm⟩ := hm
    obtain ⟨h1, h2⟩ := all_last _ _ hm
    have hpl : 0 < p.length := List.length_pos_iff.2 hp
    have := h2 (p.length - 1) (by omega) (by omega)
    have e1 : p[p.length - 1]'(by omega) = l := by
      rw [List.getLast?_eq_getElem?] at hl
      rw [List.getElem?_eq_getElem (by omega)] at hl
      injection hl
    rw [e1, str_glob _ _ hst] at this
    apply hne
    rw [← this]
    rw [List.getElem_drop]
    have e2 : (path ++ [c]).length - p.length + (p.length - 1) = path.length := by
      simp only [List.length_append, List.length_cons, List.length_nil] at hlen ⊢
      omega
    simp only [e2]
    simp
  simp only [excludes, List.any_cons, List.any_nil, Bool.or_false, Bool.or_eq_false_iff]
  exact ⟨one _ (by decide) h1, one _ (by decide) h2, one _ (by decide) h3, one _ (by decide) h4, g8, many _ "deploy.yaml" (by decide) (by decide) (by decide) hd, one _ (by decide) h5, g11,
    one _ (by decide) h6, one _ (by decide) h7, g9, g10, many _ "CMakeCache.txt" (by decide) (by decide) (by decide) hc, many _ "CMakeFiles" (by decide) (by decide) (by decide) hf⟩

/-- **Everything else is sent.** -/
theorem rest_sent (path : List String) (h : ∀ c ∈ path, ¬ Secret c ∧ c ≠ "deploy.yaml" ∧ c ≠ "CMakeCache.txt" ∧ c ≠ "CMakeFiles") : sent path = true := by
  unfold sent
  rw [List.all_eq_true]
  intro q hq
  rw [List.mem_inits] at hq
  rcases List.eq_nil_or_concat q with rfl | ⟨q', c, rfl⟩
  · rfl
  · have hc := h c (hq.subset (by simp))
    rw [List.concat_eq_append] at *
    rw [not_excluded q' c hc.1 hc.2.1 hc.2.2.1 hc.2.2.2]
    simp

/-- **Disagreements**: a source directory called `target` never reaches the robot; other private keys do. -/
theorem source_target_dropped (f : String) : sent ["src", "target", f] = false ∧ sent ["keys", "id_ecdsa"] = true := by
  refine ⟨(secrets_kept _).1 ⟨"target", by simp, Or.inl (by decide)⟩, rest_sent _ ?_⟩
  intro c hc
  simp only [List.mem_cons, List.not_mem_nil, or_false] at hc
  rcases hc with rfl | rfl <;> refine ⟨?_, by decide, by decide, by decide⟩ <;> unfold Secret <;> decide

example : sent [".horus", "deploy.yaml"] = false ∧ sent ["src", "main.py"] = true ∧ sent ["certs", "robot.pem"] = false ∧ sent [".env.local"] = false ∧ sent [".horus", "target", "release", "app"] = false := by decide

end Horus.Deploy
