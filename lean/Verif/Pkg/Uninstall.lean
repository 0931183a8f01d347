/-!
# Installing and uninstalling plugins

Code modelled: horus_manager/src/commands/plugin.rs:497-547 (`run_remove`, the `horus uninstall` command,
main.rs:2978-2985), horus_manager/src/commands/pkg.rs:657-749 (registry entry and link of
`register_plugin_after_install`), 752-794 (`unregister_plugin`), 1426-1672 (`run_remove` with `global`),
1675-1720 (`remove_from_horus_toml`, `remove_from_horus_lock`).

The state is the user's registry of commands, the links in the user's bin directory, the names in the
package cache in directory order, and the dependencies and lock file of the directory the command runs in.
Not modelled: tracking files of packages from other sources, input and output errors other than a failing
link.
-/

namespace Horus.Uninstall

abbrev Text := List Char

structure St where
  /-- Active commands, each with the package it belongs to. -/
  plugins : Text → Option Text
  disabled : Text → Option Text
  links : Text → Option Text
  /-- Directories in the cache. -/
  cache : List Text
  deps : List Text
  lock : List Text

def set (f : Text → Option Text) (k : Text) (v : Option Text) : Text → Option Text := fun x => if x = k then v else f x

def sHorus : Text := ['h', 'o', 'r', 'u', 's', '-']

/-- plugin.rs:533: `strip_prefix("horus-")` or the name itself. -/
def cmdOf (pkg : Text) : Text := if sHorus <+: pkg then pkg.drop 6 else pkg

/-- The package a cache directory belongs to by its name. -/
def named (pkg d : Text) : Bool := d = pkg ∨ (pkg ++ ['@']) <+: d

/-- pkg.rs:752-794, globally: the link, then the entry. -/
def unregister (st : St) (cmd : Text) : St := { st with links := set st.links cmd none, plugins := set st.plugins cmd none }

/-- pkg.rs:1426-1672 with `global`, after the question was answered with yes. The flag is success. -/
def removeFiles (st : St) (pkg : Text) : St × Bool :=
  match st.cache.find? (named pkg) with
  | none => (st, false)
  | some d => ({ st with cache := st.cache.erase d, deps := st.deps.filter (· ≠ pkg), lock := st.lock.filter (· ≠ pkg) }, true)

/-- plugin.rs:497-547: unregister first, then ask, then remove. -/
def uninstall (st : St) (pkg : Text) (yes : Bool) : St × Bool :=
  let st := unregister st (cmdOf pkg)
  if yes then removeFiles st pkg else (st, true)

/-- pkg.rs:657-749, globally: entry, old link away, new link; when the link fails the entry is taken back.
`plugin::run_install` runs it after the package is in the cache as `name@version`. -/
def install (st : St) (pkg ver cmd : Text) (linkOk : Bool) : St :=
  let st := { st with cache := (pkg ++ '@' :: ver) :: st.cache }
  if linkOk then { st with plugins := set st.plugins cmd (some pkg), disabled := set st.disabled cmd none, links := set st.links cmd (some pkg) }
  else { st with plugins := set st.plugins cmd none, disabled := set st.disabled cmd none, links := set st.links cmd none }

/-! ## What uninstalling does -/

theorem set_same (f : Text → Option Text) (k : Text) (v : Option Text) : set f k v k = v := by simp [set]
theorem set_other (f : Text → Option Text) {k x : Text} (v : Option Text) (h : x ≠ k) : set f k v x = f x := by simp [set, h]

/-- After a successful uninstallation of a package of which one version is cached, no directory of it is in
the cache and every other is. -/
theorem files_gone_partial (st : St) (pkg : Text) (h : (st.cache.filter (named pkg)).length = 1) :
    (uninstall st pkg true).2 = true ∧ (uninstall st pkg true).1.cache = st.cache.filter fun d => !named pkg d := by
  have key : ∀ l : List Text, (l.filter (named pkg)).length = 1 → ∃ d, l.find? (named pkg) = some d ∧ l.erase d = l.filter fun d => !named pkg d := by
    intro l
    induction l with
    | nil => simp
    | cons a l ih =>
      intro h
      cases ha : named pkg a with
      | true =>
        refine ⟨a, by simp [ha], ?_⟩
        rw [List.filter_cons_of_pos ha] at h
        have hn : l.filter (named pkg) = [] := List.eq_nil_of_length_eq_zero (by simpa using h)
        rw [List.erase_cons_head, List.filter_cons_of_neg (by simp [ha])]
        rw [List.filter_eq_nil_iff] at hn
        exact (List.filter_eq_self.2 fun x hx => by simp [hn x hx]).symm
      | false =>
        rw [List.filter_cons_of_neg (by simp [ha])] at h
        obtain ⟨d, h1, h2⟩ := ih h
        refine ⟨d, by rw [List.find?_cons_of_neg (by simp [ha]), h1], ?_⟩
        have hd : named pkg d = true := List.find?_some h1
        rw [List.erase_cons_tail (by simp only [beq_iff_eq]; rintro rfl; rw [ha] at hd; cases hd), h2, List.filter_cons_of_pos (by simp [ha])]
  obtain ⟨d, h1, h2⟩ := key st.cache h
  simp [uninstall, removeFiles, unregister, h1, h2]

/-- The command with the package's own name is unregistered and unlinked, and no other command is touched. -/
theorem only_own_command (st : St) (pkg : Text) (yes : Bool) :
    (uninstall st pkg yes).1.plugins (cmdOf pkg) = none ∧ (uninstall st pkg yes).1.links (cmdOf pkg) = none ∧
    ∀ c, c ≠ cmdOf pkg → (uninstall st pkg yes).1.plugins c = st.plugins c ∧ (uninstall st pkg yes).1.links c = st.links c := by
  have h : (uninstall st pkg yes).1.plugins = set st.plugins (cmdOf pkg) none ∧ (uninstall st pkg yes).1.links = set st.links (cmdOf pkg) none := by
    unfold uninstall removeFiles
    cases yes
    · exact ⟨rfl, rfl⟩
    · simp only [if_pos]
      split <;> exact ⟨rfl, rfl⟩
  rw [h.1, h.2]
  exact ⟨set_same _ _ _, set_same _ _ _, fun c hc => ⟨set_other _ _ hc, set_other _ _ hc⟩⟩

theorem named_self (pkg ver : Text) : named pkg (pkg ++ '@' :: ver) = true := by
  simp only [named, decide_eq_true_eq]
  exact Or.inr ⟨ver, by simp⟩

/-- Installing, when the link can be made, registers, links and enables the command, adds the package to the
cache and touches no other command. -/
theorem install_exact (st : St) (pkg ver cmd : Text) :
    (install st pkg ver cmd true).plugins cmd = some pkg ∧ (install st pkg ver cmd true).links cmd = some pkg ∧ (install st pkg ver cmd true).disabled cmd = none ∧
    (install st pkg ver cmd true).cache = (pkg ++ '@' :: ver) :: st.cache ∧ (install st pkg ver cmd true).deps = st.deps ∧ (install st pkg ver cmd true).lock = st.lock ∧
    ∀ c, c ≠ cmd → (install st pkg ver cmd true).plugins c = st.plugins c ∧ (install st pkg ver cmd true).links c = st.links c ∧ (install st pkg ver cmd true).disabled c = st.disabled c :=
  ⟨set_same _ _ _, set_same _ _ _, set_same _ _ _, rfl, rfl, rfl, fun _ hc => ⟨set_other _ _ hc, set_other _ _ hc, set_other _ _ hc⟩⟩

/-- Installing a package that names its command by the convention and uninstalling it again leaves the user's
commands, links and cache as they were, if neither it nor its command was there. -/
theorem install_uninstall (st : St) (pkg ver : Text) (hc : ∀ d ∈ st.cache, named pkg d = false) (hp : st.plugins (cmdOf pkg) = none) (hl : st.links (cmdOf pkg) = none) (hd : st.disabled (cmdOf pkg) = none) (hdep : pkg ∉ st.deps) (hlock : pkg ∉ st.lock) :
    uninstall (install st pkg ver (cmdOf pkg) true) pkg true = (st, true) := by
  have hn := named_self pkg ver
  have e1 : set (set st.plugins (cmdOf pkg) (some pkg)) (cmdOf pkg) none = st.plugins := by
    funext x; by_cases e : x = cmdOf pkg
    · simp [set, e, hp]
    · simp [set, e]
  have e2 : set (set st.links (cmdOf pkg) (some pkg)) (cmdOf pkg) none = st.links := by
    funext x; by_cases e : x = cmdOf pkg
    · simp [set, e, hl]
    · simp [set, e]
  have e3 : set st.disabled (cmdOf pkg) none = st.disabled := by
    funext x; by_cases e : x = cmdOf pkg
    · simp [set, e, hd]
    · simp [set, e]
  have e4 : st.deps.filter (· ≠ pkg) = st.deps := List.filter_eq_self.2 fun x hx => by simp only [decide_eq_true_eq]; rintro rfl; exact hdep hx
  have e5 : st.lock.filter (· ≠ pkg) = st.lock := List.filter_eq_self.2 fun x hx => by simp only [decide_eq_true_eq]; rintro rfl; exact hlock hx
  simp only [uninstall, install, if_pos, removeFiles, unregister, List.find?_cons_of_pos, hn, List.erase_cons_head, e1, e2, e3, e4, e5]

/-! ## What it does that it should not, and what it leaves -/

/-- Answering no keeps the package and removes its command. -/
theorem refusal_unregisters (st : St) (pkg : Text) (h : st.plugins (cmdOf pkg) = some pkg) :
    (uninstall st pkg false).1.cache = st.cache ∧ (uninstall st pkg false).1.plugins (cmdOf pkg) = none ∧ st.plugins (cmdOf pkg) ≠ none :=
  ⟨rfl, (only_own_command st pkg false).1, by rw [h]; simp⟩

/-- So does a name that is not in the cache at all, together with an error. -/
theorem missing_unregisters (st : St) (pkg : Text) (h : ∀ d ∈ st.cache, named pkg d = false) :
    uninstall st pkg true = (unregister st (cmdOf pkg), false) := by
  have : st.cache.find? (named pkg) = none := List.find?_eq_none.2 fun d hd => by simp [h d hd]
  simp [uninstall, removeFiles, unregister, this]

/-- A command with another name than the package's stays registered and linked. -/
theorem other_name_stays (st : St) (pkg ver cmd : Text) (h : cmd ≠ cmdOf pkg) :
    (uninstall (install st pkg ver cmd true) pkg true).1.plugins cmd = some pkg ∧ (uninstall (install st pkg ver cmd true) pkg true).1.links cmd = some pkg := by
  have := (only_own_command (install st pkg ver cmd true) pkg true).2.2 cmd h
  rw [this.1, this.2]
  simp [install, set]

/-- A command of another package that has the name is removed instead. -/
theorem wrong_package_hit (st : St) (pkg other : Text) (_h : other ≠ pkg) (_hp : st.plugins (cmdOf pkg) = some other) : (uninstall st pkg true).1.plugins (cmdOf pkg) = none := (only_own_command st pkg true).1

/-- A disabled command stays on record, to be enabled again with no binary. -/
theorem disabled_stays (st : St) (pkg : Text) (yes : Bool) : (uninstall st pkg yes).1.disabled = st.disabled := by
  unfold uninstall removeFiles
  cases yes
  · rfl
  · simp only [if_pos]
    split <;> rfl

/-- Of several versions in the cache only the first listed goes. -/
theorem second_version_stays (st : St) (pkg v w : Text) (rest : List Text) (h : st.cache = (pkg ++ '@' :: v) :: (pkg ++ '@' :: w) :: rest) : (uninstall st pkg true).1.cache = (pkg ++ '@' :: w) :: rest := by
  simp [uninstall, removeFiles, unregister, h, named_self]

/-- Uninstalling a plugin for the user also takes it out of the dependencies and the lock file of whatever
project the command is run in. -/
theorem project_edited (st : St) (pkg d : Text) (hd : d ∈ st.cache) (hn : named pkg d = true) :
    (uninstall st pkg true).1.deps = st.deps.filter (· ≠ pkg) ∧ (uninstall st pkg true).1.lock = st.lock.filter (· ≠ pkg) := by
  cases hf : st.cache.find? (named pkg) with
  | none => rw [List.find?_eq_none] at hf; exact absurd hn (hf d hd)
  | some x => simp [uninstall, removeFiles, unregister, hf]

/-- A command that was another package's passes to the one installed last. -/
theorem takeover (st : St) (pkg ver cmd : Text) : (install st pkg ver cmd true).plugins cmd = some pkg := by simp [install, set]

/-- When the link cannot be made, the command is lost to the package that had it. -/
theorem failed_link_drops (st : St) (pkg ver cmd other : Text) (_h : st.plugins cmd = some other) : (install st pkg ver cmd false).plugins cmd = none ∧ (install st pkg ver cmd false).links cmd = none := by simp [install, set]

/-! ## A concrete case -/

def start : St := ⟨fun _ => none, fun _ => none, fun _ => none, [['z', '@', '1']], [['d']], []⟩
def foo : Text := ['h', 'o', 'r', 'u', 's', '-', 'f', 'o', 'o']

example : cmdOf foo = ['f', 'o', 'o'] := by decide
example : cmdOf ['f', 'o', 'o'] = ['f', 'o', 'o'] := by decide
example : (install start foo ['1'] ['f', 'o', 'o'] true).cache = [foo ++ ['@', '1'], ['z', '@', '1']] := by decide
example : uninstall (install start foo ['1'] ['f', 'o', 'o'] true) foo true = (start, true) :=
  install_uninstall start foo ['1'] (by decide) rfl rfl rfl (by decide) (by decide)
example : named ['f', 'o'] ['f', 'o', 'o', '@', '1'] = false := by decide

end Horus.Uninstall
