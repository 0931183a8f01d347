/-!
# Installing a PyPI package: the recorded version and the pyproject.toml entry

`horus_manager/src/registry/install.rs` (`install_from_pypi`) and `registry/helpers.rs`
(`detect_pypi_installed_version`, `add_dep_to_pyproject_toml`).  Texts are lists of characters.
Letter case is folded for ASCII only (`to_lowercase` also folds other scripts, which package names do not use).
-/

namespace Horus.PyPi

abbrev Txt := List Char

/-- `ends_with`/`starts_with`. -/
def startsWith (t p : Txt) : Bool := p.isPrefixOf t
def endsWith (t p : Txt) : Bool := p.isSuffixOf t

def distInfo : Txt := ['.', 'd', 'i', 's', 't', '-', 'i', 'n', 'f', 'o']

/-- `trim_end_matches(".dist-info")`: strips the ending again and again (helpers.rs:666). -/
def trimEnd (n : Nat) (t : Txt) : Txt :=
  match n with
  | 0 => t
  | n + 1 => if endsWith t distInfo then trimEnd n (t.take (t.length - distInfo.length)) else t

/-- `replace("-", "_").replace(".", "_").to_lowercase()` (helpers.rs:669-676). -/
def norm (t : Txt) : Txt := t.map fun c => if c = '-' ∨ c = '.' then '_' else c.toLower

/-- `rsplitn(2, '-')` with two parts: what follows the last `-` (helpers.rs:681-684). -/
def afterLastDash (t : Txt) : Option Txt := if '-' ∈ t then some (t.reverse.takeWhile (· ≠ '-')).reverse else none

/-- The version read from one directory name, if it is taken (helpers.rs:662-686). -/
def versionIn (pkg dir : Txt) : Option Txt :=
  if endsWith dir distInfo then
    let w := trimEnd dir.length dir
    if startsWith (norm w) (norm pkg) then afterLastDash w else none
  else none

/-- `detect_pypi_installed_version` over the directory entries in the order the system lists them
(helpers.rs:652-692). -/
def detect (pkg : Txt) (dirs : List Txt) : Option Txt := dirs.findSome? (versionIn pkg)

/-- A distribution as pip installs it; pip writes the directory `name-version.dist-info`, with `-` in the
name escaped to `_`. -/
structure Dist where
  name : Txt
  version : Txt
  deriving DecidableEq

def Dist.dir (d : Dist) : Txt := d.name ++ '-' :: d.version ++ distInfo

/-- Names and versions as they appear there: neither contains a dash, and a version starts with a digit. -/
def Dist.Ok (d : Dist) : Prop := '-' ∉ d.name ∧ '-' ∉ d.version ∧ ∃ c r, d.version = c :: r ∧ c.isDigit

/-! ## The recorded version -/

theorem endsWith_append (a b : Txt) : endsWith (a ++ b) b = true := by
  simp [endsWith, List.isSuffixOf_iff_suffix]

theorem last_dash (a v : Txt) (h : '-' ∉ v) : afterLastDash (a ++ '-' :: v) = some v := by
  have key : ∀ w : Txt, '-' ∉ w → ((w ++ '-' :: a.reverse).takeWhile (· ≠ '-')) = w := by
    intro w hw
    induction w with
    | nil => simp
    | cons x w ih =>
      have hx : x ≠ '-' := by intro e; apply hw; simp [e]
      have := ih (by intro hm; apply hw; simp [hm])
      simp only [List.cons_append, List.takeWhile_cons, hx, ne_eq, not_false_eq_true, decide_true, if_true]
      rw [this]
  have hr : (a ++ '-' :: v).reverse = v.reverse ++ '-' :: a.reverse := by simp
  have hm : '-' ∈ a ++ '-' :: v := by simp
  rw [afterLastDash, if_pos hm, hr, key _ (by simpa using h), List.reverse_reverse]

theorem trim_dir (d : Dist) (h : d.Ok) : trimEnd d.dir.length d.dir = d.name ++ '-' :: d.version := by
  have e : d.dir = (d.name ++ '-' :: d.version) ++ distInfo := rfl
  generalize hw : d.name ++ '-' :: d.version = w at e ⊢
  have hl : d.dir.length = (w.length + 9) + 1 := by rw [e, List.length_append]; rfl
  have ht : d.dir.take (d.dir.length - distInfo.length) = w := by
    rw [e, List.length_append, Nat.add_sub_cancel, List.take_left]
  rw [hl, trimEnd, if_pos (by rw [e]; exact endsWith_append _ _), ht, trimEnd, if_neg]
  intro he
  simp only [endsWith, List.isSuffixOf_iff_suffix] at he
  obtain ⟨p, hp⟩ := he
  obtain ⟨_, h2, c, r, hv, hc⟩ := h
  have h1 : afterLastDash w = some ['i', 'n', 'f', 'o'] := by
    rw [← hp]
    have : p ++ distInfo = (p ++ ['.', 'd', 'i', 's', 't']) ++ '-' :: ['i', 'n', 'f', 'o'] := by simp [distInfo]
    rw [this]
    exact last_dash _ _ (by decide)
  rw [← hw, last_dash _ _ h2, hv] at h1
  injection h1 with h1
  injection h1 with h1 _
  rw [h1] at hc
  exact absurd hc (by decide)

/-- What one `.dist-info` directory contributes. -/
theorem version_in (pkg : Txt) (d : Dist) (h : d.Ok) : versionIn pkg d.dir = if norm pkg <+: norm (d.name ++ '-' :: d.version) then some d.version else none := by
  have he : endsWith d.dir distInfo = true := endsWith_append _ _
  simp only [versionIn, he, if_true, trim_dir d h, startsWith, List.isPrefixOf_iff_prefix, last_dash _ _ h.2.1]

/-- **C256.** The version recorded is that of the first distribution, in directory order, whose name and
version together start with the package's name. -/
theorem detect_exact (pkg : Txt) (ds : List Dist) (h : ∀ d ∈ ds, d.Ok) : detect pkg (ds.map Dist.dir) = (ds.find? fun d => decide (norm pkg <+: norm (d.name ++ '-' :: d.version))).map (·.version) := by
  induction ds with
  | nil => rfl
  | cons d ds ih =>
    have ih := ih fun x hx => h x (List.mem_cons_of_mem _ hx)
    simp only [detect] at ih
    simp only [detect, List.map_cons, List.findSome?_cons, version_in pkg d (h d (List.mem_cons_self ..)), List.find?_cons]
    by_cases hp : norm pkg <+: norm (d.name ++ '-' :: d.version)
    · simp [hp]
    · simp [hp, ih]

/-- Other directories (the code itself, `bin`, …) are ignored. -/
theorem others_ignored (pkg : Txt) (x : Txt) (hx : endsWith x distInfo = false) (l : List Txt) : detect pkg (x :: l) = detect pkg l := by
  simp [detect, versionIn, hx]

theorem norm_append (a b : Txt) : norm (a ++ b) = norm a ++ norm b := by simp [norm]

/-- **C256.** The package's own version is recorded when no distribution installed with it has a name and
version that start with the package's name. -/
theorem own_version_partial (pkg : Txt) (ds : List Dist) (h : ∀ d ∈ ds, d.Ok) (d : Dist) (hd : d ∈ ds) (hn : norm d.name = norm pkg) (ho : ∀ e ∈ ds, norm pkg <+: norm (e.name ++ '-' :: e.version) → e = d) : detect pkg (ds.map Dist.dir) = some d.version := by
  rw [detect_exact pkg ds h]
  have hp : norm pkg <+: norm (d.name ++ '-' :: d.version) := by
    rw [norm_append, hn]; exact List.prefix_append _ _
  cases hf : ds.find? fun d => decide (norm pkg <+: norm (d.name ++ '-' :: d.version)) with
  | none =>
    rw [List.find?_eq_none] at hf
    exact absurd hp (by simpa using hf d hd)
  | some e =>
    have := ho e (List.mem_of_find?_eq_some hf) (by simpa using List.find?_some hf)
    rw [this]; rfl

/-- **C256.** A package without dependencies is always recorded at its own version. -/
theorem alone_partial (d : Dist) (h : d.Ok) (pkg : Txt) (hn : norm d.name = norm pkg) : detect pkg [d.dir] = some d.version :=
  own_version_partial pkg [d] (by simpa using h) d (by simp) hn (by simp)

def jupyter : Dist := ⟨['j','u','p','y','t','e','r'], ['1','.','1','.','1']⟩
def jupyterCore : Dist := ⟨['j','u','p','y','t','e','r','_','c','o','r','e'], ['5','.','7','.','2']⟩

theorem jupyter_ok : jupyter.Ok ∧ jupyterCore.Ok := ⟨⟨by decide, by decide, _, _, rfl, by decide⟩, ⟨by decide, by decide, _, _, rfl, by decide⟩⟩

/-- **C256.** Installing `jupyter`, whose dependency `jupyter_core` is listed first, records the
dependency's version. -/
theorem dependency_version : detect jupyter.name [jupyterCore.dir, jupyter.dir] = some jupyterCore.version ∧ jupyterCore.version ≠ jupyter.version := by decide +kernel

/-! ## The entry in pyproject.toml -/

/-- `version.starts_with(...)` and `contains(',')` (helpers.rs:511-517). -/
def isSpecifier (v : Txt) : Bool := startsWith v ['>', '='] || startsWith v ['=', '='] || startsWith v ['<', '='] || startsWith v ['!', '='] || startsWith v ['~', '='] || decide (',' ∈ v)

/-- The dependency text (helpers.rs:509-522). -/
def depText (name v : Txt) : Txt :=
  if v = ['l','a','t','e','s','t'] ∨ v = [] then name
  else if isSpecifier v then name ++ v
  else name ++ '=' :: '=' :: v

/-- `!c.is_alphanumeric() && c != '-' && c != '_'` ends a name (helpers.rs:535). -/
def nameChar (c : Char) : Bool := c.isAlphanum || c = '-' || c = '_'

def existingName (s : Txt) : Txt := s.takeWhile nameChar

def lower (t : Txt) : Txt := t.map Char.toLower

/-- The `[project]` table: its `dependencies`, which may be missing or something other than an array;
array items that are not strings are `none` (helpers.rs:524-556). -/
inductive Deps
  | missing
  | other
  | array (items : List (Option Txt))
  deriving DecidableEq

def present (items : List (Option Txt)) (name : Txt) : Bool := items.any fun i => match i with | some s => decide (lower (existingName s) = lower name) | none => false

/-- `add_dep_to_pyproject_toml` on a parsed file; `none` is a file without `[project]` (helpers.rs:493-561). -/
def addDep (project : Option Deps) (name v : Txt) : Option Deps :=
  match project with
  | none => none
  | some (.array items) => if present items name then some (.array items) else some (.array (items ++ [some (depText name v)]))
  | some _ => some (.array [some (depText name v)])

/-- **C256.** Existing entries are kept, in order; at most one entry is added, at the end. -/
theorem entries_kept (items : List (Option Txt)) (name v : Txt) : addDep (some (.array items)) name v = some (.array items) ∨ addDep (some (.array items)) name v = some (.array (items ++ [some (depText name v)])) := by
  simp only [addDep]; split
  · exact Or.inl rfl
  · exact Or.inr rfl

/-- No version, or the latest, is the bare name. -/
theorem unpinned (name v : Txt) (h : v = [] ∨ v = ['l','a','t','e','s','t']) : depText name v = name := by
  unfold depText
  rw [if_pos h.symm]

/-- **C256.** A plain version is pinned exactly; `latest` leaves the version open; an operator is kept. -/
theorem pinned (name : Txt) (v : Txt) (hv : isSpecifier v = false) (hne : v ≠ []) (hl : v ≠ ['l','a','t','e','s','t']) : depText name v = name ++ '=' :: '=' :: v := by
  simp [depText, hv, hne, hl]

/-- **C256.** The version pip reported is always pinned with `==`. -/
theorem reported_pinned (name : Txt) (d : Dist) (h : d.Ok) (hc : ',' ∉ d.version) : depText name d.version = name ++ '=' :: '=' :: d.version := by
  obtain ⟨_, _, c, r, hv, hd⟩ := h
  have k : ∀ x : Char, x.isDigit = false → x ≠ c := by rintro x hx rfl; rw [hd] at hx; cases hx
  apply pinned
  · rw [hv] at hc
    simp only [isSpecifier, hv, startsWith, List.isPrefixOf_cons₂, hc, decide_false, Bool.or_false]
    simp [k '>' (by decide), k '=' (by decide), k '<' (by decide), k '!' (by decide), k '~' (by decide)]
  · simp [hv]
  · rw [hv]; intro e; injection e with e _; exact k 'l' (by decide) e.symm

theorem takeWhile_append_stop (a : Txt) (b : Txt) (ha : ∀ c ∈ a, nameChar c = true) (hb : ∀ c r, b = c :: r → nameChar c = false) : (a ++ b).takeWhile nameChar = a := by
  induction a with
  | nil =>
    cases b with
    | nil => rfl
    | cons c r => simp [hb c r rfl]
  | cons x a ih =>
    simp only [List.cons_append, List.takeWhile_cons, ha x (List.mem_cons_self ..), if_true]
    rw [ih fun c hc => ha c (List.mem_cons_of_mem _ hc)]

/-- **C256.** Adding a package whose name has only letters, digits, dashes and underscores a second time,
at any version and in any letter case, changes nothing. -/
theorem added_once_partial (p : Option Deps) (name name' v v' : Txt) (hn : ∀ c ∈ name, nameChar c = true) (hc : lower name' = lower name) (hv : ∀ c r, v = c :: r → ',' ∈ v → nameChar c = false) : addDep (addDep p name v) name' v' = addDep p name v := by
  have he : existingName (depText name v) = name := by
    unfold existingName depText
    split
    · have := takeWhile_append_stop name [] hn (by simp)
      simpa using this
    · split
      · rename_i hs
        refine takeWhile_append_stop name v hn ?_
        intro c r e
        by_cases hcomma : ',' ∈ v
        · exact hv c r e hcomma
        · subst e
          simp only [isSpecifier, hcomma, decide_false, Bool.or_false, startsWith, List.isPrefixOf_cons₂, Bool.or_eq_true, Bool.and_eq_true, beq_iff_eq] at hs
          rcases hs with (((h | h) | h) | h) | h <;> rw [← h.1] <;> decide
      · exact takeWhile_append_stop name _ hn (by intro c r e; injection e with e _; rw [← e]; decide)
  have hp : ∀ items : List (Option Txt), present (items ++ [some (depText name v)]) name' = true := by
    intro items
    simp [present, he, hc]
  cases p with
  | none => rfl
  | some d =>
    cases d with
    | missing =>
      have hp0 : present [some (depText name v)] name' = true := hp []
      simp [addDep, hp0]
    | other =>
      have hp0 : present [some (depText name v)] name' = true := hp []
      simp [addDep, hp0]
    | array items =>
      by_cases h : present items name = true
      · have : present items name' = true := by rw [← h]; simp [present, hc]
        simp [addDep, this, h]
      · simp [addDep, h, hp]

/-- **C256.** A name with a dot is never recognised: every installation adds another entry. -/
theorem dotted_added_again (items : List (Option Txt)) (a b v : Txt) (ha : ∀ i ∈ items, ∀ s, i = some s → lower (existingName s) ≠ lower (a ++ '.' :: b)) (w : Txt) (hav : ∀ c ∈ a, nameChar c = true) : addDep (addDep (some (.array items)) (a ++ '.' :: b) v) (a ++ '.' :: b) w = some (.array (items ++ [some (depText (a ++ '.' :: b) v), some (depText (a ++ '.' :: b) w)])) := by
  have h1 : ∀ t : Txt, existingName (a ++ '.' :: b ++ t) = a := by
    intro t
    rw [List.append_assoc, List.cons_append]
    exact takeWhile_append_stop a _ hav (by intro c r e; injection e with e _; rw [← e]; decide)
  have h2 : existingName (depText (a ++ '.' :: b) v) = a := by
    unfold depText
    split
    · have := h1 []; simpa using this
    · split
      · exact h1 v
      · exact h1 _
  have h3 : lower a ≠ lower (a ++ '.' :: b) := by
    intro e
    have := congrArg List.length e
    simp [lower] at this
  have p1 : present items (a ++ '.' :: b) = false := by
    simp only [present, List.any_eq_false]
    intro i hi
    cases i with
    | none => simp
    | some s => simpa using ha _ hi s rfl
  have p2 : present (items ++ [some (depText (a ++ '.' :: b) v)]) (a ++ '.' :: b) = false := by
    have hsplit : present (items ++ [some (depText (a ++ '.' :: b) v)]) (a ++ '.' :: b) = (present items (a ++ '.' :: b) || decide (lower (existingName (depText (a ++ '.' :: b) v)) = lower (a ++ '.' :: b))) := by
      simp [present]
    rw [hsplit, p1, h2]; simpa using h3
  simp only [addDep, p1, p2, if_false, Bool.false_eq_true, List.append_assoc, List.cons_append, List.nil_append]

/-- **C256.** An entry for the package keeps the version it had, whatever version was just installed. -/
theorem old_pin_stays (items : List (Option Txt)) (name v : Txt) (h : present items name = true) : addDep (some (.array items)) name v = some (.array items) := by
  simp [addDep, h]

/-- **C256.** A requirement such as `>1.0` or `^1` is written as a pin of that text, which is no version. -/
theorem operator_pinned : depText ['a'] ['>', '1'] = ['a', '=', '=', '>', '1'] ∧ depText ['a'] ['<', '5'] = ['a', '=', '=', '<', '5'] ∧ depText ['a'] ['^', '1'] = ['a', '=', '=', '^', '1'] := by decide

/-- **C256.** `dependencies` that is not an array is replaced. -/
theorem other_replaced (name v : Txt) : addDep (some .other) name v = some (.array [some (depText name v)]) := rfl

/-! ## Concrete cases -/

example : detect jupyter.name [jupyter.dir, jupyterCore.dir] = some jupyter.version := by decide +kernel
example : detect ['N','u','m','-','P','y'] [['n','u','m','p','y'], ['n','u','m','_','p','y','-','2','.','0'] ++ distInfo] = some ['2','.','0'] := by decide +kernel
example : addDep (some (.array [some ['n','u','m','p','y','>','=','1']])) ['N','u','m','P','y'] ['2'] = some (.array [some ['n','u','m','p','y','>','=','1']]) := by decide +kernel
example : addDep (some .missing) ['a','-','b'] ['2','.','0'] = some (.array [some ['a','-','b','=','=','2','.','0']]) ∧ addDep none ['a'] ['1'] = none := by decide +kernel

end Horus.PyPi
