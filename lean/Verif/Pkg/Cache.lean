import Mathlib.Tactic.Common
/-
Cleaning the shared package cache: horus_manager/src/commands/cache.rs `run_clean` (141-243).

Modelled: which directories of the cache are held to be in use, which are removed, and what is
reported. The list of workspaces is the registered ones (horus_manager/src/workspace.rs 26-45: none if
the registry file is missing).
Simplified: sizes are left out; an entry that cannot be listed is as if absent.
-/
namespace Horus.Cache

abbrev Text := List Char

/-- An entry of a workspace's `.horus/packages`: its name, and the last part of the link's target if it
is a link. -/
structure Entry where
  name : Text
  target : Option Text := none
  deriving DecidableEq, Repr

/-- A workspace's package directory: `none` if it is missing or cannot be read. -/
abbrev Packages := Option (List Entry)

/-- An entry of the cache: its name, whether it is a directory, and whether removing it works. -/
structure Cached where
  name : Text
  isDir : Bool := true
  removable : Bool := true
  deriving DecidableEq, Repr

/-- The name without its version: `split('@').next()` (cache.rs 178, 193). -/
def base (n : Text) : Text := n.takeWhile (· != '@')

/-- The cache entry a package refers to (cache.rs 167-176). -/
def Entry.refers (e : Entry) : Text := e.target.getD e.name

/-- `used_packages` (cache.rs 159-183). -/
def used (registered : List Packages) : List Text := registered.flatMap fun p => (p.getD []).map fun e => base e.refers

/-- `to_remove` (cache.rs 186-202). -/
def unused (registered : List Packages) (cache : List Cached) : List Cached :=
  cache.filter fun c => c.isDir && !(used registered).contains (base c.name)

/-- The cache afterwards, and the number reported as removed (cache.rs 204-241). -/
def clean (dry : Bool) (registered : List Packages) (cache : List Cached) : List Cached × Nat :=
  if unused registered cache = [] then (cache, 0)
  else if dry then (cache, 0)
  else (cache.filter fun c => !((unused registered cache).contains c && c.removable), (unused registered cache).length)

/-! ### Specification -/

/-- A workspace uses a cache entry: one of its packages refers to it. -/
def Uses (p : Packages) (c : Cached) : Prop := ∃ l, p = some l ∧ ∃ e ∈ l, e.refers = c.name

/-- Some package has the same name, whatever the version. -/
def Named (p : Packages) (c : Cached) : Prop := ∃ l, p = some l ∧ ∃ e ∈ l, base e.refers = base c.name

/-! ### Proofs -/

theorem mem_used (registered : List Packages) (n : Text) : n ∈ used registered ↔ ∃ p ∈ registered, ∃ l, p = some l ∧ ∃ e ∈ l, base e.refers = n := by
  unfold used
  simp only [List.mem_flatMap, List.mem_map]
  constructor
  · rintro ⟨p, hp, e, he, rfl⟩
    cases p with
    | none => cases he
    | some l => exact ⟨some l, hp, l, rfl, e, he, rfl⟩
  · rintro ⟨p, hp, l, rfl, e, he, rfl⟩
    exact ⟨some l, hp, e, he, rfl⟩

theorem mem_unused (registered : List Packages) (cache : List Cached) (c : Cached) :
    c ∈ unused registered cache ↔ c ∈ cache ∧ c.isDir = true ∧ ∀ p ∈ registered, ¬ Named p c := by
  unfold unused
  rw [List.mem_filter]
  simp only [Bool.and_eq_true, Bool.not_eq_true', List.contains_eq_mem, decide_eq_false_iff_not, mem_used]
  refine and_congr_right fun _ => and_congr_right fun _ => ?_
  constructor
  · rintro h p hp ⟨l, hl, e, he, hb⟩; exact h ⟨p, hp, l, hl, e, he, hb⟩
  · rintro h ⟨p, hp, l, hl, e, he, hb⟩; exact h p hp ⟨l, hl, e, he, hb⟩

/-- **Cleaning removes exactly the cached packages of which no registered workspace that can be read
has any version**, as far as they can be removed; a dry run removes nothing. -/
theorem clean_exact (dry : Bool) (registered : List Packages) (cache : List Cached) (c : Cached) :
    c ∈ (clean dry registered cache).1 ↔ c ∈ cache ∧ (dry = true ∨ c.isDir = false ∨ c.removable = false ∨ ∃ p ∈ registered, Named p c) := by
  have hm := mem_unused registered cache c
  have alt : (c.isDir = true ∧ ∀ p ∈ registered, ¬ Named p c) ∨ (c.isDir = false ∨ ∃ p ∈ registered, Named p c) := by
    by_cases h : ∃ p ∈ registered, Named p c
    · exact .inr (.inr h)
    · cases hd : c.isDir
      · exact .inr (.inl rfl)
      · exact .inl ⟨rfl, fun p hp hn => h ⟨p, hp, hn⟩⟩
  unfold clean
  by_cases hu : unused registered cache = []
  · rw [if_pos hu]
    refine ⟨fun hc => ⟨hc, ?_⟩, fun h => h.1⟩
    rcases alt with a | a
    · have : c ∈ unused registered cache := hm.2 ⟨hc, a⟩
      rw [hu] at this; cases this
    · rcases a with a | a
      · exact .inr (.inl a)
      · exact .inr (.inr (.inr a))
  · rw [if_neg hu]
    cases dry with
    | true => exact ⟨fun hc => ⟨hc, .inl rfl⟩, fun h => h.1⟩
    | false =>
      rw [if_neg (by decide)]
      dsimp only
      rw [List.mem_filter]
      refine and_congr_right fun hc => ?_
      simp only [Bool.not_eq_true', Bool.and_eq_false_iff, List.contains_eq_mem, decide_eq_false_iff_not, hm]
      constructor
      · rintro (h | h)
        · rcases alt with a | a
          · exact absurd ⟨hc, a⟩ h
          · rcases a with a | a
            · exact .inr (.inl a)
            · exact .inr (.inr (.inr a))
        · exact .inr (.inr (.inl h))
      · rintro (h | h | h | ⟨p, hp, hn⟩)
        · cases h
        · exact .inl fun x => by rw [h] at x; exact absurd x.2.1 (by decide)
        · exact .inr h
        · exact .inl fun x => x.2.2 p hp hn

/-- **A package a registered workspace uses stays.**

Missing: workspaces that are not registered (`unregistered_removed`) and those whose directory cannot
be read (`unreadable_removed`). -/
theorem used_kept_partial (dry : Bool) (registered : List Packages) (cache : List Cached) (c : Cached) (hc : c ∈ cache) (p : Packages) (hp : p ∈ registered) (hu : Uses p c) :
    c ∈ (clean dry registered cache).1 := by
  obtain ⟨l, rfl, e, he, hb⟩ := hu
  exact (clean_exact dry registered cache c).2 ⟨hc, .inr (.inr (.inr ⟨some l, hp, l, rfl, e, he, by rw [hb]⟩))⟩

/-- Nothing appears in the cache. -/
theorem nothing_added (dry : Bool) (registered : List Packages) (cache : List Cached) : ∀ c ∈ (clean dry registered cache).1, c ∈ cache :=
  fun c hc => ((clean_exact dry registered cache c).1 hc).1

/-- **Disagreement: a package used by a workspace that is not registered is removed**, which leaves its
link dangling; without a registry file everything is removed. -/
theorem unregistered_removed (p : Packages) (c : Cached) (_ : Uses p c) (hd : c.isDir = true) (hr : c.removable = true) (cache : List Cached) : c ∉ (clean false [] cache).1 := by
  intro h
  rcases ((clean_exact false [] cache c).1 h).2 with e | e | e | ⟨_, e, _⟩
  · cases e
  · rw [hd] at e; cases e
  · rw [hr] at e; cases e
  · cases e

/-- **Disagreement: a workspace whose package directory cannot be read at the moment counts as using
nothing.** -/
theorem unreadable_removed (c : Cached) (hd : c.isDir = true) (hr : c.removable = true) (cache : List Cached) : c ∉ (clean false [none] cache).1 := by
  intro h
  rcases ((clean_exact false [none] cache c).1 h).2 with e | e | e | ⟨p, e, l, hl, _⟩
  · cases e
  · rw [hd] at e; cases e
  · rw [hr] at e; cases e
  · rw [List.mem_singleton] at e; rw [e] at hl; cases hl

/-- **Disagreement: a package installed for all (`--global`), not linked from any workspace, is
removed**; so are plugins. -/
theorem global_removed (registered : List Packages) (cache : List Cached) (c : Cached) (hn : ∀ p ∈ registered, ¬ Named p c) (hd : c.isDir = true) (hr : c.removable = true) :
    c ∉ (clean false registered cache).1 := by
  intro h
  rcases ((clean_exact false registered cache c).1 h).2 with e | e | e | ⟨p, hp, e⟩
  · cases e
  · rw [hd] at e; cases e
  · rw [hr] at e; cases e
  · exact hn p hp e

/-- **Disagreement: old versions are never freed**: one version in use keeps all of them. -/
theorem old_version_kept (dry : Bool) (registered : List Packages) (cache : List Cached) (a b : Text) (ha : '@' ∉ a) (l : List Entry) (hl : some l ∈ registered) (e : Entry) (he : e ∈ l)
    (h : e.refers = a ++ '@' :: b) (v : Text) (c : Cached) (hc : c ∈ cache) (hv : c.name = a ++ '@' :: v) : c ∈ (clean dry registered cache).1 := by
  have hb : ∀ w : Text, base (a ++ '@' :: w) = a := by
    intro w
    unfold base
    clear h hv
    induction a with
    | nil => rfl
    | cons x t ih =>
      have : x ≠ '@' := fun e => ha (by simp [e])
      rw [List.cons_append, List.takeWhile_cons]
      simp [this, ih fun e => ha (by simp [e])]
  refine (clean_exact dry registered cache c).2 ⟨hc, .inr (.inr (.inr ⟨some l, hl, l, rfl, e, he, ?_⟩))⟩
  rw [h, hv, hb, hb]

/-- **Disagreement: packages that could not be removed are reported as removed.** -/
theorem reported_removed (registered : List Packages) (cache : List Cached) (h : ∀ c ∈ cache, c.removable = false) : (clean false registered cache).1 = cache ∧ (clean false registered cache).2 = (unused registered cache).length := by
  unfold clean
  by_cases hu : unused registered cache = []
  · rw [if_pos hu, hu]; exact ⟨rfl, rfl⟩
  · rw [if_neg hu, if_neg (by decide)]
    refine ⟨?_, rfl⟩
    dsimp only
    rw [List.filter_eq_self]
    intro c hc
    simp [h c hc]

/-! ### The hypotheses are met -/

/-- A cache of three packages, one used. -/
def sample : List Cached := [⟨"lidar@1.0.0".toList, true, true⟩, ⟨"lidar@2.0.0".toList, true, true⟩, ⟨"arm@1.0.0".toList, true, true⟩]

example : (clean false [some [⟨"lidar".toList, some "lidar@2.0.0".toList⟩]] sample).1 = sample.take 2 := by decide
example : Uses (some [⟨"lidar".toList, some "lidar@2.0.0".toList⟩]) ⟨"lidar@2.0.0".toList, true, true⟩ := ⟨_, rfl, ⟨"lidar".toList, some "lidar@2.0.0".toList⟩, List.mem_singleton_self _, rfl⟩
example : (clean false [] sample).1 = [] ∧ (clean true [] sample).1 = sample := by decide
example : (clean false [] [⟨"x@1".toList, true, false⟩]) = ([⟨"x@1".toList, true, false⟩], 1) := by decide

end Horus.Cache
