import Mathlib.Tactic.Common
import Mathlib.Data.List.Basic
import Mathlib.Data.List.TakeWhile
/-
Reading the dependencies a package declares: `DependencySpec::parse` and the answers of the registry. Source:
/repo/horus_manager/src/dependency_resolver.rs:54-184, /repo/horus_manager/src/registry/helpers.rs:1694-1777. Texts are lists of
characters. The grammar of version requirements belongs to the `semver` crate and is a parameter: `vparse` reads a requirement, `star` is
the requirement that any version meets. Reading a package's directory when the registry does not answer (helpers.rs:1778-1794) is left out.
-/
namespace Horus.DepSpec

abbrev Txt := List Char

/-- `DependencySource`, the kinds a text can name (dependency_resolver.rs:18-36). -/
inductive Src where
  | registry
  | pip (pkg : Txt)
  | crates
  deriving DecidableEq, Repr

/-- `DependencySpec` (dependency_resolver.rs:38-46); `target` is always `None` here. -/
structure Spec (R : Type) where
  name : Txt
  req : R
  src : Src
  deriving DecidableEq, Repr

variable {R : Type}

/-- `"latest"` and `"*"` are any version, the rest goes to the parser (dependency_resolver.rs:94-99, 123-129, 161-167). -/
def constraint (star : R) (vparse : Txt → Option R) (c : Txt) : Option R :=
  if c = "latest".toList ∨ c = "*".toList then some star else vparse c

/-- `find('@')`: what comes before the first `@`, and what comes after it (dependency_resolver.rs:89-91). -/
def cut (s : Txt) : Txt × Option Txt :=
  match s.dropWhile (· ≠ '@') with
  | [] => (s, none)
  | _ :: r => (s.takeWhile (· ≠ '@'), some r)

/-- `strip_prefix` (dependency_resolver.rs:57, 62). -/
def strip (p s : Txt) : Option Txt := if p.isPrefixOf s then some (s.drop p.length) else none

/-- What comes before the first `:features=` (dependency_resolver.rs:154-158). -/
def beforeFeatures : Txt → Txt
  | [] => []
  | c :: s => if ":features=".toList.isPrefixOf (c :: s) then [] else c :: beforeFeatures s

/-- The name and the requirement of a text, or nothing if the requirement is not read. -/
def nameReq (star : R) (vparse : Txt → Option R) (s : Txt) : Option (Txt × R) :=
  match cut s with
  | (n, none) => some (n, star)
  | (n, some c) => (constraint star vparse c).map fun r => (n, r)

/-- `parse_pip_spec` (dependency_resolver.rs:117-148). -/
def parsePip (star : R) (vparse : Txt → Option R) (s : Txt) : Option (Spec R) := (nameReq star vparse s).map fun p => ⟨p.1, p.2, .pip p.1⟩

/-- `parse_cargo_spec` (dependency_resolver.rs:151-184). -/
def parseCargo (star : R) (vparse : Txt → Option R) (s : Txt) : Option (Spec R) :=
  (nameReq star vparse (beforeFeatures s)).map fun p => ⟨p.1, p.2, .crates⟩

/-- The requirement of `horus_py`: one that cannot be read is any version (dependency_resolver.rs:68-77). -/
def pyReq (star : R) (vparse : Txt → Option R) (s : Txt) : R :=
  match cut s with
  | (_, none) => star
  | (_, some c) => (constraint star vparse c).getD star

/-- `DependencySpec::parse` (dependency_resolver.rs:55-114). -/
def parse (star : R) (vparse : Txt → Option R) (s : Txt) : Option (Spec R) :=
  match strip "pip:".toList s with
  | some p => parsePip star vparse p
  | none =>
    match strip "cargo:".toList s with
    | some p => parseCargo star vparse p
    | none =>
      if s = "horus_py".toList ∨ "horus_py@".toList.isPrefixOf s then some ⟨"horus_py".toList, pyReq star vparse s, .pip "horus-robotics".toList⟩
      else (nameReq star vparse s).map fun p => ⟨p.1, p.2, .registry⟩

/-- A dependency as the registry gives it (helpers.rs:1706-1712). -/
structure Dep where
  name : Txt
  req : Option Txt
  type : Option Txt
  deriving DecidableEq, Repr

/-- The text made of a dependency (helpers.rs:1721-1725, 1764-1768). -/
def Dep.text (d : Dep) : Txt :=
  match d.req with
  | some r => d.name ++ '@' :: r
  | none => d.name

/-- The answer of the dependencies endpoint (helpers.rs:1714-1730): dependencies needed at run time only. -/
def readNew (star : R) (vparse : Txt → Option R) (l : List Dep) : List (Spec R) :=
  (l.filter fun d => d.type.getD "runtime".toList = "runtime".toList).filterMap fun d => parse star vparse d.text

/-- The answer of the metadata endpoint (helpers.rs:1755-1774). -/
def readOld (star : R) (vparse : Txt → Option R) (l : List Dep) : List (Spec R) := l.filterMap fun d => parse star vparse d.text

/-! ### Specification -/

/-- A name of the registry's own: no scope, no prefix for another source, and not the Python bindings. -/
def Plain (n : Txt) : Prop := '@' ∉ n ∧ ¬ "pip:".toList <+: n ∧ ¬ "cargo:".toList <+: n ∧ n ≠ "horus_py".toList

/-- The requirement a dependency states, when it can be read. -/
def Dep.asks (star : R) (vparse : Txt → Option R) (d : Dep) : Option R :=
  match d.req with
  | some c => constraint star vparse c
  | none => some star

/-! ### Theorems -/

theorem cut_plain (n : Txt) (h : '@' ∉ n) : cut n = (n, none) := by
  have : n.dropWhile (· ≠ '@') = [] := by
    rw [List.dropWhile_eq_nil_iff]; intro x hx; simp; rintro rfl; exact h hx
  simp only [cut, this]

theorem cut_at (n c : Txt) (h : '@' ∉ n) : cut (n ++ '@' :: c) = (n, some c) := by
  have hall : ∀ x ∈ n, (decide (x ≠ '@')) = true := by intro x hx; simp; rintro rfl; exact h hx
  have d : (n ++ '@' :: c).dropWhile (· ≠ '@') = '@' :: c := by
    rw [List.dropWhile_append_of_pos hall]; simp
  have t : (n ++ '@' :: c).takeWhile (· ≠ '@') = n := by
    rw [List.takeWhile_append_of_pos hall]; simp
  simp only [cut, d, t]

theorem prefix_at (p n c : Txt) (hp : '@' ∉ p) : p <+: n ++ '@' :: c ↔ p <+: n := by
  induction p generalizing n with
  | nil => simp
  | cons a p ih =>
    simp only [List.mem_cons, not_or] at hp
    cases n with
    | nil =>
      simp only [List.nil_append, List.prefix_nil, reduceCtorEq, iff_false]
      intro h
      rw [List.cons_prefix_cons] at h
      exact hp.1 h.1.symm
    | cons b n => rw [List.cons_append, List.cons_prefix_cons, List.cons_prefix_cons, ih n hp.2]

theorem strip_none (p s : Txt) (h : ¬ p <+: s) : strip p s = none := by
  unfold strip; rw [if_neg]; rwa [List.isPrefixOf_iff_prefix]

theorem not_py (n c : Txt) (hn : '@' ∉ n) (h : n ≠ "horus_py".toList) : ¬ "horus_py@".toList <+: n ++ '@' :: c := by
  intro ⟨t, ht⟩
  apply h
  have e : "horus_py@".toList ++ t = "horus_py".toList ++ '@' :: t := rfl
  rw [e] at ht
  have h1 := cut_at n c hn
  rw [← ht, cut_at _ _ (by decide)] at h1
  exact (congrArg Prod.fst h1).symm

/-- **A dependency of the registry is read as it stands**: its own name, and the requirement it states; one whose requirement cannot be read
gives nothing. -/
theorem plain_read (star : R) (vparse : Txt → Option R) (d : Dep) (h : Plain d.name) :
    parse star vparse d.text = (d.asks star vparse).map fun r => ⟨d.name, r, .registry⟩ := by
  obtain ⟨n, q, t⟩ := d
  obtain ⟨h1, h2, h3, h4⟩ := h
  dsimp only at h1 h2 h3 h4
  cases q with
  | none =>
    have h5 : ¬ "horus_py@".toList <+: n := fun h => h1 (h.subset (by decide))
    simp only [Dep.text, Dep.asks, parse, strip_none _ _ h2, strip_none _ _ h3, nameReq, cut_plain n h1]
    rw [if_neg (by rw [not_or]; exact ⟨h4, by rwa [List.isPrefixOf_iff_prefix]⟩)]
    rfl
  | some c =>
    have h2' : ¬ "pip:".toList <+: n ++ '@' :: c := by rwa [prefix_at _ _ _ (by decide)]
    have h3' : ¬ "cargo:".toList <+: n ++ '@' :: c := by rwa [prefix_at _ _ _ (by decide)]
    have h5 : n ++ '@' :: c ≠ "horus_py".toList := by
      intro h
      have : '@' ∈ "horus_py".toList := by rw [← h]; simp
      revert this; decide
    simp only [Dep.text, Dep.asks, parse, strip_none _ _ h2', strip_none _ _ h3', nameReq, cut_at n c h1]
    rw [if_neg (by rw [not_or]; exact ⟨h5, by rw [List.isPrefixOf_iff_prefix]; exact not_py n c h1 h4⟩), Option.map_map]
    rfl

/-- One whose requirement is `latest` or a star takes any version, and so does one without a requirement. -/
theorem latest_any (star : R) (vparse : Txt → Option R) (d : Dep) (h : Plain d.name)
    (hq : d.req = none ∨ d.req = some "latest".toList ∨ d.req = some ['*']) : parse star vparse d.text = some ⟨d.name, star, .registry⟩ := by
  rw [plain_read star vparse d h]
  rcases hq with hq | hq | hq <;> (unfold Dep.asks; rw [hq]; rfl)

/-- **All dependencies are read, in their order**, when their names are the registry's own and their requirements can be read: those for run
time, and no others. -/
theorem all_read_partial (star : R) (vparse : Txt → Option R) (f : Txt → R) (l : List Dep) (h : ∀ d ∈ l, Plain d.name ∧ ∀ c, d.req = some c → constraint star vparse c = some (f c)) :
    readNew star vparse l = (l.filter fun d => d.type = none ∨ d.type = some "runtime".toList).map fun d => ⟨d.name, (d.req.map f).getD star, .registry⟩ := by
  unfold readNew
  have e : (l.filter fun d => d.type.getD "runtime".toList = "runtime".toList) = l.filter fun d => d.type = none ∨ d.type = some "runtime".toList := by
    refine List.filter_congr fun d _ => ?_
    cases d.type <;> simp
  rw [e]
  have hl : ∀ d ∈ l.filter fun d => d.type = none ∨ d.type = some "runtime".toList, Plain d.name ∧ ∀ c, d.req = some c → constraint star vparse c = some (f c) :=
    fun d hd => h d (List.mem_filter.1 hd).1
  generalize (l.filter fun d => d.type = none ∨ d.type = some "runtime".toList) = m at hl
  induction m with
  | nil => rfl
  | cons d m ih =>
    obtain ⟨hp, hr⟩ := hl d List.mem_cons_self
    have : parse star vparse d.text = some ⟨d.name, (d.req.map f).getD star, .registry⟩ := by
      rw [plain_read star vparse d hp, Dep.asks]
      cases hq : d.req with
      | none => rfl
      | some c => simp [hr c hq]
    rw [List.filterMap_cons, this, List.map_cons, ih fun d hd => hl d (List.mem_cons_of_mem _ hd)]

/-- **A scoped dependency is forgotten.** A dependency on a package `@org/name` gives nothing, with or without a requirement: the first `@` is
taken for the one before the requirement. (No requirement holds a `/`.) -/
theorem scoped_forgotten (star : R) (vparse : Txt → Option R) (hv : ∀ c, '/' ∈ c → vparse c = none) (n : Txt) (hs : '/' ∈ n) (q t : Option Txt) :
    parse star vparse (Dep.text ⟨'@' :: n, q, t⟩) = none := by
  have key : ∀ s : Txt, '/' ∈ s → parse star vparse ('@' :: s) = none := by
    intro s hs
    have hc : cut ('@' :: s) = ([], some s) := rfl
    have h1 : strip "pip:".toList ('@' :: s) = none := by simp [strip]
    have h2 : strip "cargo:".toList ('@' :: s) = none := by simp [strip]
    have h3 : ¬ ('@' :: s = "horus_py".toList ∨ "horus_py@".toList.isPrefixOf ('@' :: s)) := by simp
    have h4 : constraint star vparse s = none := by
      unfold constraint
      rw [if_neg, hv s hs]
      rintro (rfl | rfl) <;> revert hs <;> decide
    simp only [parse, h1, h2, if_neg h3, nameReq, hc, h4, Option.map_none]
  cases q with
  | none => exact key n hs
  | some c => exact key (n ++ '@' :: c) (by simp [hs])

/-- **The rest is read as if it were not there**: a forgotten dependency is no error. -/
theorem forgotten_silent (star : R) (vparse : Txt → Option R) (a b : List Dep) (d : Dep) (h : parse star vparse d.text = none) :
    readNew star vparse (a ++ d :: b) = readNew star vparse (a ++ b) ∧ readOld star vparse (a ++ d :: b) = readOld star vparse (a ++ b) := by
  constructor
  · unfold readNew
    rw [List.filter_append, List.filter_append, List.filter_cons, List.filterMap_append, List.filterMap_append]
    split
    · rw [List.filterMap_cons, h]
    · rfl
  · unfold readOld
    rw [List.filterMap_append, List.filterMap_append, List.filterMap_cons, h]

/-- A requirement that cannot be read makes the dependency forgotten. -/
theorem unread_forgotten (star : R) (vparse : Txt → Option R) (n c : Txt) (t : Option Txt) (h : Plain n) (hc : constraint star vparse c = none) :
    parse star vparse (Dep.text ⟨n, some c, t⟩) = none := by
  rw [plain_read star vparse _ h, Dep.asks]; simp [hc]

/-- **For the Python bindings a requirement that cannot be read is any version.** -/
theorem py_any (star : R) (vparse : Txt → Option R) (c : Txt) (t : Option Txt) :
    parse star vparse (Dep.text ⟨"horus_py".toList, some c, t⟩) =
      some ⟨"horus_py".toList, (constraint star vparse c).getD star, .pip "horus-robotics".toList⟩ := by
  have hc : cut ("horus_py".toList ++ '@' :: c) = ("horus_py".toList, some c) := cut_at _ _ (by decide)
  have h1 : strip "pip:".toList ("horus_py".toList ++ '@' :: c) = none := by simp [strip]
  have h2 : strip "cargo:".toList ("horus_py".toList ++ '@' :: c) = none := by simp [strip]
  have h3 : "horus_py@".toList.isPrefixOf ("horus_py".toList ++ '@' :: c) := by simp
  show parse star vparse ("horus_py".toList ++ '@' :: c) = _
  unfold parse
  generalize "horus_py".toList ++ '@' :: c = s at *
  rw [h1]
  dsimp only
  rw [h2]
  dsimp only
  rw [if_pos (Or.inr h3), pyReq, hc]

/-- **A Python dependency is read as one**: `pip:` and the package. -/
theorem pip_read (star : R) (vparse : Txt → Option R) (n : Txt) (q t : Option Txt) (h : '@' ∉ n) :
    parse star vparse (Dep.text ⟨"pip:".toList ++ n, q, t⟩) = ((Dep.mk n q t).asks star vparse).map fun r => ⟨n, r, .pip n⟩ := by
  cases q with
  | none =>
    have h1 : strip "pip:".toList ("pip:".toList ++ n) = some n := by simp [strip]
    simp only [Dep.text, parse, h1, parsePip, nameReq, cut_plain n h, Dep.asks, Option.map_some]
  | some c =>
    have h1 : strip "pip:".toList ("pip:".toList ++ n ++ '@' :: c) = some (n ++ '@' :: c) := by simp [strip]
    simp only [Dep.text, parse, h1, parsePip, nameReq, cut_at n c h, Dep.asks, Option.map_map]
    rfl

theorem before_none (s : Txt) (h : ':' ∉ s) : beforeFeatures s = s := by
  induction s with
  | nil => rfl
  | cons a s ih =>
    simp only [List.mem_cons, not_or] at h
    rw [beforeFeatures, if_neg, ih h.2]
    rw [List.isPrefixOf_iff_prefix]
    intro hp
    exact h.1 (List.cons_prefix_cons.1 hp).1

theorem before_append (s x : Txt) (h : ':' ∉ s) : beforeFeatures (s ++ (":features=".toList ++ x)) = s := by
  induction s with
  | nil => simp [beforeFeatures]
  | cons a s ih =>
    simp only [List.mem_cons, not_or] at h
    rw [List.cons_append, beforeFeatures, if_neg, ih h.2]
    rw [List.isPrefixOf_iff_prefix]
    intro hp
    exact h.1 (List.cons_prefix_cons.1 hp).1

/-- **The features asked of a crate are dropped.** -/
theorem features_dropped (star : R) (vparse : Txt → Option R) (s x : Txt) (h : ':' ∉ s) :
    parse star vparse ("cargo:".toList ++ (s ++ (":features=".toList ++ x))) = parse star vparse ("cargo:".toList ++ s) := by
  have h1 : ∀ y : Txt, strip "pip:".toList ("cargo:".toList ++ y) = none := fun y => by simp [strip]
  have h2 : ∀ y : Txt, strip "cargo:".toList ("cargo:".toList ++ y) = some y := fun y => by simp [strip]
  unfold parse
  rw [h1, h1]
  dsimp only
  rw [h2, h2]
  dsimp only
  rw [parseCargo, parseCargo, before_append s x h, before_none s h]

/-- **A crate is read as one**: `cargo:` and the crate. -/
theorem cargo_read (star : R) (vparse : Txt → Option R) (n : Txt) (q t : Option Txt) (h : '@' ∉ n) (h' : ':' ∉ n) (hq : ∀ c, q = some c → ':' ∉ c) :
    parse star vparse (Dep.text ⟨"cargo:".toList ++ n, q, t⟩) = ((Dep.mk n q t).asks star vparse).map fun r => ⟨n, r, .crates⟩ := by
  have h1 : ∀ y : Txt, strip "pip:".toList ("cargo:".toList ++ y) = none := fun y => by simp [strip]
  have h2 : ∀ y : Txt, strip "cargo:".toList ("cargo:".toList ++ y) = some y := fun y => by simp [strip]
  cases q with
  | none =>
    show parse star vparse ("cargo:".toList ++ n) = _
    unfold parse
    rw [h1]
    dsimp only
    rw [h2]
    dsimp only
    rw [parseCargo, before_none n h', nameReq, cut_plain n h]
    rfl
  | some c =>
    show parse star vparse ("cargo:".toList ++ n ++ '@' :: c) = _
    rw [List.append_assoc]
    unfold parse
    rw [h1]
    dsimp only
    rw [h2]
    dsimp only
    have hc := hq c rfl
    rw [parseCargo, before_none _ (by simp [h', hc]), nameReq, cut_at n c h]
    simp only [Dep.asks, Option.map_map]
    rfl

/-- **An older registry's answer brings in what is needed for development too**; the newer one's does not. -/
theorem old_brings_all (star : R) (vparse : Txt → Option R) (d : Dep) (h : Plain d.name) (hq : d.req = none) (ht : d.type = some "dev".toList) :
    readOld star vparse [d] = [⟨d.name, star, .registry⟩] ∧ readNew star vparse [d] = [] := by
  constructor
  · simp only [readOld, List.filterMap_cons, plain_read star vparse d h, Dep.asks, hq, Option.map_some, List.filterMap_nil]
  · have : (d.type.getD "runtime".toList = "runtime".toList) = False := by rw [ht]; simp
    simp [readNew, ht]

/-! ### Cases -/

/-- A parser for the cases: digits and dots only. -/
def digits (c : Txt) : Option Txt := if c.all (fun x => x.isDigit || x == '.') then some c else none

example : parse [] digits "lidar@1.2".toList = some ⟨"lidar".toList, "1.2".toList, .registry⟩ := by decide
example : Plain "lidar".toList := ⟨by decide, by decide, by decide, by decide⟩
example : parse [] digits "@acme/lidar@1.2".toList = none ∧ parse [] digits "@acme/lidar".toList = none := by decide
example : parse [] digits "horus_py@==1.2".toList = some ⟨"horus_py".toList, [], .pip "horus-robotics".toList⟩ := by decide
example : readNew [] digits [⟨"@acme/lidar".toList, some "1.2".toList, none⟩, ⟨"motor".toList, none, none⟩] = [⟨"motor".toList, [], .registry⟩] := by decide

end Horus.DepSpec
