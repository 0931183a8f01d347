import Mathlib.Tactic.Common
import Mathlib.Data.List.Nodup
/-
Model of the changes to a project's `Cargo.toml` when a driver package is installed: the features and crates it requires.

Sources: /repo/horus_manager/src/registry/helpers.rs 72-224 (`add_features_to_cargo_toml`) and 446-490
(`add_cargo_deps_to_cargo_toml`), /repo/horus_manager/src/registry/install.rs 1327-1383.

The document is its `[dependencies]` section, if there is one, as a list of entries in their order; a key is there at most
once (`toml_edit`). What is outside that section is not touched by either function and is left out. In an entry, the
version and the features are kept and the other keys are one opaque value.
-/
namespace Horus.CargoEdit

abbrev Text := List Char

/-- An entry of `[dependencies]` (helpers.rs 93-154): a version, a table (inline or not) with its version, its features
and its other keys, or anything else. -/
inductive Dep
  | version (v : Text)
  | table (v : Option Text) (features : Option (List Text)) (others : List (Text × Text))
  | other
  deriving DecidableEq, Repr

abbrev Deps := List (Text × Dep)

def get (ds : Deps) (n : Text) : Option Dep := (ds.find? fun e => decide (e.1 = n)).map (·.2)

/-- Assignment to a key that is there, or a new entry at the end (`toml_edit`). -/
def set (ds : Deps) (n : Text) (d : Dep) : Deps :=
  if (get ds n).isSome then ds.map (fun e => if e.1 = n then (n, d) else e) else ds ++ [(n, d)]

/-- The features with those added that were not there (helpers.rs 118-126). -/
def merged (old new : List Text) : List Text := old ++ new.filter fun f => !old.contains f

/-- One entry with the features added (helpers.rs 93-155, 158-215); `none`: it is neither a version nor a table. -/
def withFeatures (new : List Text) : Dep → Option Dep
  | .version v => some (.table (some v) (some new) [])
  | .table v fs o => some (.table v (some (merged (fs.getD []) new)) o)
  | .other => none

def library : Text := "horus_library".toList
def horus : Text := "horus".toList

/-- What a change to the file ends with. -/
inductive Result
  | failed
  | written (d : Option Deps)
  | unchanged
  deriving DecidableEq, Repr

/-- `add_features_to_cargo_toml` (helpers.rs 73-224); the file, if there is one, with its section, if there is one. -/
def addFeatures (file : Option (Option Deps)) (new : List Text) : Result :=
  match file with
  | none => .failed
  | some none => .failed
  | some (some ds) =>
    match get ds library with
    | some d => match withFeatures new d with | some d' => .written (some (set ds library d')) | none => .failed
    | none =>
      match get ds horus with
      | some d => match withFeatures new d with | some d' => .written (some (set ds horus d')) | none => .written (some ds)
      | none => .unchanged

/-- `str::trim` (library); `ws` is `char::is_whitespace`. -/
def trim (ws : Char → Bool) (s : Text) : Text := ((s.dropWhile ws).reverse.dropWhile ws).reverse

/-- `split_once('@')` and the trimming (helpers.rs 471-475). -/
def spec (ws : Char → Bool) (s : Text) : Text × Option Text :=
  if s.contains '@' then (trim ws (s.takeWhile (· != '@')), some (trim ws ((s.dropWhile (· != '@')).drop 1))) else (trim ws s, none)

/-- One crate (helpers.rs 469-485). -/
def addOne (ws : Char → Bool) (ds : Deps) (s : Text) : Deps :=
  let e := spec ws s
  if (get ds e.1).isSome then ds else set ds e.1 (.version (e.2.getD "*".toList))

/-- `add_cargo_deps_to_cargo_toml` (helpers.rs 448-490): the section is made if it is not there. -/
def addCrates (ws : Char → Bool) (file : Option (Option Deps)) (crates : List Text) : Result :=
  match file with
  | none => .failed
  | some ds => .written (some (crates.foldl (addOne ws) (ds.getD [])))

/-- What the user is told about the features (install.rs 1336-1352). -/
def toldAdded (r : Result) : Bool := match r with | .failed => false | _ => true

/-! ### Specification -/

def featuresOf : Dep → List Text
  | .table _ fs _ => fs.getD []
  | _ => []

def versionOf : Dep → Option Text
  | .version v => some v
  | .table v _ _ => v
  | .other => none

/-! ### Proofs -/

theorem get_set_self (ds : Deps) (n : Text) (d : Dep) : get (set ds n d) n = some d := by
  unfold set
  split
  · rename_i h
    unfold get at h ⊢
    induction ds with
    | nil => cases h
    | cons e ds ih =>
      by_cases he : e.1 = n
      · simp [List.find?_cons, he]
      · simp only [List.map_cons, if_neg he]
        rw [List.find?_cons_of_neg (by simp [he])] at h ⊢
        exact ih h
  · rename_i h
    unfold get at h ⊢
    rw [List.find?_append]
    cases hf : ds.find? (fun e => decide (e.1 = n)) with
    | none => simp
    | some x => rw [hf] at h; exact absurd rfl h

theorem get_set_ne (ds : Deps) (n m : Text) (d : Dep) (h : m ≠ n) : get (set ds n d) m = get ds m := by
  unfold set
  split
  · rename_i hsome
    clear hsome
    unfold get
    induction ds with
    | nil => rfl
    | cons e ds ih =>
      by_cases he : e.1 = n
      · simp only [List.map_cons, if_pos he]
        rw [List.find?_cons_of_neg (by simpa using Ne.symm h), List.find?_cons_of_neg (by simpa [he] using Ne.symm h)]
        exact ih
      · simp only [List.map_cons, if_neg he, List.find?_cons]
        split
        · rfl
        · exact ih
  · unfold get
    rw [List.find?_append]
    cases ds.find? (fun e => decide (e.1 = m)) with
    | some x => rfl
    | none => simp [Ne.symm h]

theorem keys_set (ds : Deps) (n : Text) (d : Dep) (h : (ds.map (·.1)).Nodup) : ((set ds n d).map (·.1)).Nodup := by
  unfold set
  split
  · have : (ds.map fun e => if e.1 = n then (n, d) else e).map (·.1) = ds.map (·.1) := by
      rw [List.map_map]
      apply List.map_congr_left
      intro e _
      simp only [Function.comp]
      split
      · rename_i he; exact he.symm
      · rfl
    rw [this]; exact h
  · rename_i hn
    rw [List.map_append, List.nodup_append]
    refine ⟨h, by simp, ?_⟩
    intro a ha b hb e
    simp only [List.map_cons, List.map_nil, List.mem_singleton] at hb
    subst hb; subst e
    obtain ⟨x, hx, he⟩ := List.mem_map.1 ha
    apply hn
    unfold get
    rw [Option.isSome_map, List.find?_isSome]
    exact ⟨x, hx, by simpa using he⟩

theorem mem_merged (old new : List Text) (f : Text) : f ∈ merged old new ↔ f ∈ old ∨ f ∈ new := by
  unfold merged
  rw [List.mem_append, List.mem_filter]
  by_cases h : f ∈ old <;> simp [h]

theorem merged_prefix (old new : List Text) : old <+: merged old new := ⟨_, rfl⟩

/-- What the features end up as, in the entry that is changed. -/
theorem with_features {new : List Text} {d d' : Dep} (h : withFeatures new d = some d') :
    (∀ f, f ∈ featuresOf d' ↔ f ∈ featuresOf d ∨ f ∈ new) ∧ featuresOf d <+: featuresOf d' ∧ versionOf d' = versionOf d := by
  cases d with
  | version v =>
    simp only [withFeatures, Option.some.injEq] at h
    subst h
    exact ⟨by simp [featuresOf], by simp [featuresOf], rfl⟩
  | table v fs o =>
    simp only [withFeatures, Option.some.injEq] at h
    subst h
    exact ⟨fun f => by simpa [featuresOf] using mem_merged _ _ f, by simpa [featuresOf] using merged_prefix _ _, rfl⟩
  | other => cases h

/-- **The features a driver needs are added to those there were, and nothing else is changed**: in whichever entry is
changed, the old features stay in front, exactly the new ones are added, the version is the same, and every other entry
is as it was. -/
theorem features_exact (ds : Deps) (new : List Text) (r : Deps) (h : addFeatures (some (some ds)) new = .written (some r)) :
    ∃ n, (n = library ∨ n = horus ∧ get ds library = none) ∧ (∀ m, m ≠ n → get r m = get ds m) ∧
      ∃ d d', get ds n = some d ∧ get r n = some d' ∧
        (d = .other ∧ n = horus ∧ r = ds ∨
          (∀ f, f ∈ featuresOf d' ↔ f ∈ featuresOf d ∨ f ∈ new) ∧ featuresOf d <+: featuresOf d' ∧ versionOf d' = versionOf d) := by
  unfold addFeatures at h
  dsimp only at h
  cases hl : get ds library with
  | some d =>
    rw [hl] at h
    dsimp only at h
    cases hw : withFeatures new d with
    | none => rw [hw] at h; cases h
    | some d' =>
      rw [hw] at h
      simp only [Result.written.injEq, Option.some.injEq] at h
      subst h
      exact ⟨library, Or.inl rfl, fun m hm => get_set_ne _ _ _ _ hm, d, d', hl, get_set_self _ _ _, Or.inr (with_features hw)⟩
  | none =>
    rw [hl] at h
    dsimp only at h
    cases hh : get ds horus with
    | none => rw [hh] at h; cases h
    | some d =>
      rw [hh] at h
      dsimp only at h
      cases hw : withFeatures new d with
      | none =>
        rw [hw] at h
        simp only [Result.written.injEq, Option.some.injEq] at h
        subst h
        cases d with
        | version v => cases hw
        | table v fs o => cases hw
        | other => exact ⟨horus, Or.inr ⟨rfl, rfl⟩, fun _ _ => rfl, .other, .other, hh, hh, Or.inl ⟨rfl, rfl, rfl⟩⟩
      | some d' =>
        rw [hw] at h
        simp only [Result.written.injEq, Option.some.injEq] at h
        subst h
        exact ⟨horus, Or.inr ⟨rfl, rfl⟩, fun m hm => get_set_ne _ _ _ _ hm, d, d', hh, get_set_self _ _ _, Or.inr (with_features hw)⟩

/-- The other keys of a table are kept. -/
theorem others_kept (v : Option Text) (fs : Option (List Text)) (o : List (Text × Text)) (new : List Text) :
    ∃ fs', withFeatures new (.table v fs o) = some (.table v fs' o) := ⟨_, rfl⟩

/-- **Adding the same features again changes nothing**, once they are there. -/
theorem features_again (ds : Deps) (new : List Text) (r : Deps) (h : addFeatures (some (some ds)) new = .written (some r)) (hk : (ds.map (·.1)).Nodup) :
    addFeatures (some (some r)) new = .written (some r) := by
  have hm : ∀ old, merged (merged old new) new = merged old new := by
    intro old
    conv_lhs => unfold merged
    have : (new.filter fun f => !(old ++ new.filter fun f => !old.contains f).contains f) = [] := by
      rw [List.filter_eq_nil_iff]
      intro f hf
      have := (mem_merged old new f).2 (Or.inr hf)
      unfold merged at this
      simp only [List.mem_append, List.mem_filter] at this
      simp only [List.contains_eq_mem, List.mem_append, List.mem_filter, Bool.not_eq_true', decide_eq_false_iff_not, not_not] at this ⊢
      exact this
    rw [this, List.append_nil]; rfl
  have hs0 : ∀ new : List Text, merged new new = new := by
    intro new
    unfold merged
    have : (new.filter fun f => !new.contains f) = [] := by
      rw [List.filter_eq_nil_iff]; intro f hf; simpa using hf
    rw [this, List.append_nil]
  have hsame : ∀ d d', withFeatures new d = some d' → withFeatures new d' = some d' := by
    intro d d' hw
    cases d with
    | version v =>
      simp only [withFeatures, Option.some.injEq] at hw; subst hw
      simp [withFeatures, hs0]
    | table v fs o =>
      simp only [withFeatures, Option.some.injEq] at hw; subst hw
      simp [withFeatures, hm]
    | other => cases hw
  have hset : ∀ n d', get r n = some d' → (r.map (·.1)).Nodup → set r n d' = r := by
    intro n d' hg hnd
    unfold set
    rw [hg, if_pos (by rfl)]
    unfold get at hg
    clear h hk
    induction r with
    | nil => rfl
    | cons e r ih =>
      rw [List.map_cons, List.nodup_cons] at hnd
      by_cases he : e.1 = n
      · rw [List.find?_cons_of_pos (by simpa using he)] at hg
        simp only [Option.map_some, Option.some.injEq] at hg
        rw [List.map_cons, if_pos he, ← hg, ← he]
        congr 1
        conv_rhs => rw [← List.map_id r]
        apply List.map_congr_left
        intro x hx
        rw [if_neg]; · rfl
        intro hxe
        exact hnd.1 (List.mem_map.2 ⟨x, hx, hxe⟩)
      · rw [List.find?_cons_of_neg (by simpa using he)] at hg
        rw [List.map_cons, if_neg he, ih hg hnd.2]
  unfold addFeatures at h
  dsimp only at h
  cases hl : get ds library with
  | some d =>
    rw [hl] at h
    dsimp only at h
    cases hw : withFeatures new d with
    | none => rw [hw] at h; cases h
    | some d' =>
      rw [hw] at h
      simp only [Result.written.injEq, Option.some.injEq] at h
      have hg : get r library = some d' := by rw [← h]; exact get_set_self _ _ _
      have hnd : (r.map (·.1)).Nodup := by rw [← h]; exact keys_set _ _ _ hk
      unfold addFeatures
      simp only [hg, hsame d d' hw, hset _ _ hg hnd]
  | none =>
    rw [hl] at h
    dsimp only at h
    cases hh : get ds horus with
    | none => rw [hh] at h; cases h
    | some d =>
      rw [hh] at h
      dsimp only at h
      cases hw : withFeatures new d with
      | none =>
        rw [hw] at h
        simp only [Result.written.injEq, Option.some.injEq] at h
        subst h
        unfold addFeatures
        simp only [hl, hh, hw]
      | some d' =>
        rw [hw] at h
        simp only [Result.written.injEq, Option.some.injEq] at h
        have hg : get r horus = some d' := by rw [← h]; exact get_set_self _ _ _
        have hg' : get r library = none := by rw [← h, get_set_ne _ _ _ _ (by decide)]; exact hl
        have hnd : (r.map (·.1)).Nodup := by rw [← h]; exact keys_set _ _ _ hk
        unfold addFeatures
        simp only [hg', hg, hsame d d' hw, hset _ _ hg hnd]

/-- **A crate that is already required is never changed**, whatever version a driver asks for. -/
theorem crates_kept (ws : Char → Bool) (crates : List Text) (ds : Deps) (n : Text) (d : Dep) (h : get ds n = some d) :
    ∃ r, addCrates ws (some (some ds)) crates = .written (some r) ∧ get r n = some d := by
  refine ⟨_, rfl, ?_⟩
  simp only [Option.getD_some]
  induction crates generalizing ds with
  | nil => exact h
  | cons c cs ih =>
    rw [List.foldl_cons]
    apply ih
    unfold addOne
    dsimp only
    split
    · exact h
    · rename_i hn
      rw [get_set_ne _ _ _ _ (by rintro rfl; rw [h] at hn; exact hn rfl)]
      exact h

theorem crates_get (ws : Char → Bool) (crates : List Text) (ds : Deps) (n : Text) (h : get ds n = none) :
    get (crates.foldl (addOne ws) ds) n = ((crates.find? fun c => decide ((spec ws c).1 = n)).map fun c => .version ((spec ws c).2.getD "*".toList)) := by
  induction crates generalizing ds with
  | nil => simpa using h
  | cons c cs ih =>
    rw [List.foldl_cons]
    by_cases hc : (spec ws c).1 = n
    · rw [List.find?_cons_of_pos (by simpa using hc)]
      have hg : get (addOne ws ds c) n = some (.version ((spec ws c).2.getD "*".toList)) := by
        unfold addOne
        dsimp only
        rw [hc, h, if_neg (by decide)]
        exact get_set_self _ _ _
      obtain ⟨r, hr, hgr⟩ := crates_kept ws cs _ n _ hg
      simp only [addCrates, Option.getD_some, Result.written.injEq, Option.some.injEq] at hr
      rw [hr]; exact hgr
    · rw [List.find?_cons_of_neg (by simpa using hc)]
      apply ih
      unfold addOne
      dsimp only
      split
      · exact h
      · rw [get_set_ne _ _ _ _ (Ne.symm hc)]; exact h

/-- **Exactly the crates a driver asks for are added**, each with the version in its first mention, `*` without one; an
entry that is neither there nor asked for is not made. -/
theorem crates_exact (ws : Char → Bool) (crates : List Text) (ds : Option Deps) (n : Text) (h : get (ds.getD []) n = none) :
    ∃ r, addCrates ws (some ds) crates = .written (some r) ∧
      ((∀ c ∈ crates, (spec ws c).1 ≠ n) → get r n = none) ∧
      (∀ a c b, crates = a ++ c :: b → (∀ x ∈ a, (spec ws x).1 ≠ n) → (spec ws c).1 = n → get r n = some (.version ((spec ws c).2.getD "*".toList))) := by
  refine ⟨_, rfl, ?_, ?_⟩
  · intro hc
    rw [crates_get ws crates _ n h, List.find?_eq_none.2 (by intro x hx; simpa using hc x hx)]
    rfl
  · rintro a c b rfl ha hc
    rw [crates_get ws _ _ n h, List.find?_append, List.find?_eq_none.2 (by intro x hx; simpa using ha x hx)]
    rw [Option.none_or, List.find?_cons_of_pos (by simpa using hc)]
    rfl

/-- Non-vacuity. -/
example : addFeatures (some (some [("serde".toList, .version "1".toList), (library, .version "0.1".toList)])) ["camera".toList] =
    .written (some [("serde".toList, .version "1".toList), (library, .table (some "0.1".toList) (some ["camera".toList]) [])]) := by decide +kernel

example : addFeatures (some (some [(library, .table (some "0.1".toList) (some ["gps".toList]) [("path".toList, "../x".toList)])])) ["camera".toList, "gps".toList] =
    .written (some [(library, .table (some "0.1".toList) (some ["gps".toList, "camera".toList]) [("path".toList, "../x".toList)])]) := by decide +kernel

example : addCrates Char.isWhitespace (some none) ["serialport@4.2".toList, "nmea".toList, "serialport@5".toList] =
    .written (some [("serialport".toList, .version "4.2".toList), ("nmea".toList, .version "*".toList)]) := by decide +kernel

/-- **Disagreement: "Added features" is said although none was**: without an entry for the framework, or with one that is
neither a version nor a table, the file is as before and the user is told the features were added. -/
theorem told_but_not_added (ds : Deps) (new : List Text) (hl : get ds library = none) :
    (get ds horus = none → addFeatures (some (some ds)) new = .unchanged ∧ toldAdded (addFeatures (some (some ds)) new) = true) ∧
    (get ds horus = some .other → addFeatures (some (some ds)) new = .written (some ds) ∧ toldAdded (addFeatures (some (some ds)) new) = true) := by
  constructor <;> intro hh <;> simp [addFeatures, hl, hh, withFeatures, toldAdded]

/-- **Disagreement: with both crates required, only `horus_library` gets the features**, though the project may only use
`horus`. -/
theorem horus_passed_over (ds : Deps) (new : List Text) (d : Dep) (hl : get ds library = some d) (r : Deps)
    (h : addFeatures (some (some ds)) new = .written (some r)) : get r horus = get ds horus := by
  obtain ⟨n, hn, hother, _⟩ := features_exact ds new r h
  rcases hn with rfl | ⟨_, hc⟩
  · exact hother _ (by decide)
  · rw [hl] at hc; cases hc

/-- **Disagreement: a feature named twice is written twice** unless it was there before. -/
theorem twice_written (f : Text) (v : Text) : withFeatures [f, f] (.version v) = some (.table (some v) (some [f, f]) []) := rfl

/-- **Disagreement: a mention without a name makes an entry without one**, which `cargo` refuses: from then on the
project cannot be built. -/
theorem nameless_entry (ds : Deps) (v : Text) (h : get ds [] = none) (hv : trim Char.isWhitespace v = v) :
    ∃ r, addCrates Char.isWhitespace (some (some ds)) ['@' :: v] = .written (some r) ∧ get r [] = some (.version v) := by
  refine ⟨_, rfl, ?_⟩
  have hs : spec Char.isWhitespace ('@' :: v) = ([], some v) := by
    simp [spec, List.takeWhile_cons, List.dropWhile_cons, hv]
    rfl
  simp only [Option.getD_some, List.foldl_cons, List.foldl_nil, addOne, hs, h]
  rw [if_neg (by decide)]
  exact get_set_self _ _ _

end Horus.CargoEdit
