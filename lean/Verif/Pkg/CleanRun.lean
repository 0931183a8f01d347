import Verif.Pkg.Clean
/-
`horus clean` as a whole: which of its parts run, in what order, what an error does, what a dry run announces and what
`--json` prints. Source: /repo/horus_manager/src/commands/clean.rs:13-153 (`run_clean`), 166-210, 243-430, 433-466, 469-493,
496-524; cli_output.rs:16-61 (which output a quiet run drops). The namespaces are those of `Verif.Pkg.Clean`.
-/
namespace Horus.CleanRun
open Horus

/-- What can be removed: `target/`, `.horus/target/`, `.horus/cpp-build/`, a `__pycache__` directory, a namespace, the
cache of the user. -/
inductive Item
  | target | horusTarget | cpp | pyc (p : List String) | ns (d : List Char) | cache
  deriving DecidableEq

/-- What the command finds. `locked`: a build holds the lock (build_dirs.rs:94-117). `stuck`: the directory cannot be
removed. `pyc`: the directories of bytecode that are found. -/
structure World where
  present : Item → Bool
  locked : Item → Bool
  stuck : Item → Bool
  pyc : List (List String)
  m : Clean.Machine
  current : List Char

/-- What a part does: the directories it removes, those it announces, whether it writes lines to the standard output with
`println!` (which a quiet run does not drop), whether it found something to do, and whether it ends without error. -/
structure Out where
  removed : List Item := []
  named : List Item := []
  text : Bool := false
  changed : Bool := false
  ok : Bool := true
  deriving DecidableEq

/-- The `?` between the parts. -/
def Out.andThen (a b : Out) : Out :=
  if a.ok then { removed := a.removed ++ b.removed, named := a.named ++ b.named, text := a.text || b.text, changed := a.changed || b.changed, ok := b.ok } else a

/-- One directory that must be removable. -/
def whole (w : World) (dry : Bool) (i : Item) : Out :=
  if dry then { named := [i], changed := true }
  else if w.stuck i then { named := [i], ok := false }
  else { removed := [i], named := [i], changed := true }

/-- One turn of the loop in `clean_build_cache` (clean.rs:169-203). -/
def build (w : World) (dry : Bool) (i : Item) : Out := if !w.present i || w.locked i then {} else whole w dry i

/-- `clean_cpp_build` (clean.rs:469-493). -/
def cppBuild (w : World) (dry : Bool) : Out := if w.present .cpp then whole w dry .cpp else {}

/-- `clean_pycache` (clean.rs:496-524): failures are not noticed. -/
def pycache (w : World) (dry : Bool) : Out :=
  if w.pyc.isEmpty then {}
  else { removed := if dry then [] else (w.pyc.filter fun p => !w.stuck (.pyc p)).map .pyc, named := w.pyc.map .pyc, changed := true }

/-- `clean_shared_memory` (clean.rs:243-430): as soon as there is a namespace, a table is printed. -/
def memory (w : World) (dry force allNs : Bool) : Out where
  removed := (Clean.gone w.m w.current dry force allNs).map .ns
  named := (Clean.sweep w.m w.current false force allNs).1.map .ns
  text := !(Clean.listing w.m).isEmpty
  changed := (Clean.sweep w.m w.current dry force allNs).2

/-- `clean_horus_cache` (clean.rs:433-466): prints in each case. -/
def userCache (w : World) (dry : Bool) : Out :=
  { text := true : Out }.andThen (if w.present .cache then whole w dry .cache else {})

/-- The parts in their order (clean.rs:85-99 and 112-136 are the same sequence). -/
def parts (w : World) (shm all dry force allNs : Bool) : Out :=
  let on := fun (b : Bool) (o : Out) => if b then o else {}
  (on (!shm || all) (((build w dry .target).andThen (build w dry .horusTarget)))).andThen <|
  (on (!shm || all) (cppBuild w dry)).andThen <|
  (on (!shm || all) (pycache w dry)).andThen <|
  (on (shm || all) (memory w dry force allNs)).andThen <|
  (on all (userCache w dry))

/-- The document that `--json` prints (clean.rs:21-78): its items. -/
def listed (w : World) (shm all : Bool) : List Item :=
  (if !shm || all then [Item.target, .horusTarget, .cpp].filter w.present else []) ++
  (if shm || all then (Clean.listing w.m).map .ns else []) ++
  (if all then [Item.cache].filter w.present else [])

/-- `run_clean` (clean.rs:13-153): what is printed as a document, if any, and what the parts do. -/
def run (w : World) (shm all dry force allNs json : Bool) : Option (List Item) × Out :=
  if json then (some (listed w shm all), if dry then {} else parts w shm all false force allNs)
  else (none, parts w shm all dry force allNs)

/-! ### Specification -/

/-- What `horus clean` is meant to remove. -/
def Goes (w : World) (shm all force allNs : Bool) : Item → Prop
  | .target => (shm = false ∨ all = true) ∧ w.present .target = true ∧ w.locked .target = false
  | .horusTarget => (shm = false ∨ all = true) ∧ w.present .horusTarget = true ∧ w.locked .horusTarget = false
  | .cpp => (shm = false ∨ all = true) ∧ w.present .cpp = true
  | .pyc p => (shm = false ∨ all = true) ∧ p ∈ w.pyc ∧ w.stuck (.pyc p) = false
  | .ns d => (shm = true ∨ all = true) ∧ d ∈ Clean.gone w.m w.current false force allNs
  | .cache => all = true ∧ w.present .cache = true

/-- Nothing is in the way of a removal. -/
def Clear (w : World) : Prop := (∀ i, w.stuck i = false) ∧ ∀ d, w.m.stuck d = false

/-! ### Proofs -/

theorem ok_andThen (a b : Out) : (a.andThen b).ok = true ↔ a.ok = true ∧ b.ok = true := by
  unfold Out.andThen
  cases h : a.ok <;> simp [h]

theorem removed_andThen (a b : Out) (h : a.ok = true) : (a.andThen b).removed = a.removed ++ b.removed := by simp [Out.andThen, h]
theorem named_andThen (a b : Out) (h : a.ok = true) : (a.andThen b).named = a.named ++ b.named := by simp [Out.andThen, h]
theorem text_andThen (a b : Out) (h : a.ok = true) : (a.andThen b).text = (a.text || b.text) := by simp [Out.andThen, h]
theorem changed_andThen (a b : Out) (h : a.ok = true) : (a.andThen b).changed = (a.changed || b.changed) := by simp [Out.andThen, h]

theorem mem_build (w : World) (i j : Item) (h : (build w false i).ok = true) : j ∈ (build w false i).removed ↔ j = i ∧ w.present i = true ∧ w.locked i = false := by
  unfold build at h ⊢
  split
  · rename_i hc
    simp only [Bool.or_eq_true, Bool.not_eq_true'] at hc
    constructor
    · intro hm; cases hm
    · rintro ⟨-, h1, h2⟩
      rcases hc with hc | hc
      · rw [h1] at hc; cases hc
      · rw [h2] at hc; cases hc
  · rename_i hc
    rw [if_neg hc] at h
    unfold whole at h ⊢
    simp only [Bool.false_eq_true, if_false] at h ⊢
    split at h
    · cases h
    · rename_i hs
      rw [if_neg hs]
      simp only [Bool.or_eq_true, Bool.not_eq_true', not_or, Bool.not_eq_false, Bool.not_eq_true] at hc
      simp [hc]

/-- The parts after one another, when none fails. -/
theorem parts_ok (w : World) (shm all dry force allNs : Bool) (h : (parts w shm all dry force allNs).ok = true) :
    (parts w shm all dry force allNs).removed =
      (if !shm || all then (build w dry .target).removed ++ (build w dry .horusTarget).removed ++ (cppBuild w dry).removed ++ (pycache w dry).removed else []) ++
      (if shm || all then (memory w dry force allNs).removed else []) ++ (if all then (userCache w dry).removed else []) := by
  unfold parts at h ⊢
  dsimp only at h ⊢
  simp only [ok_andThen] at h
  obtain ⟨h1, h2, h3, h4, h5⟩ := h
  rw [removed_andThen _ _ h1, removed_andThen _ _ h2, removed_andThen _ _ h3, removed_andThen _ _ h4]
  by_cases hb : (!shm || all) = true
  · rw [if_pos hb] at h1 h2 h3
    have := (ok_andThen _ _).1 h1
    simp only [if_pos hb, removed_andThen _ _ this.1]
    split <;> split <;> simp
  · simp only [if_neg hb]
    split <;> split <;> simp

/-- **A `horus clean` that ends without error has removed exactly what it is meant to remove**: without `--shm` the build
directories that no build holds, and the bytecode; with `--shm` the namespaces; with `--all` both and the cache. With
`--json` the same. -/
theorem removed_exact (w : World) (shm all force allNs json : Bool) (i : Item) (h : (run w shm all false force allNs json).2.ok = true) :
    i ∈ (run w shm all false force allNs json).2.removed ↔ Goes w shm all force allNs i := by
  have hr : (run w shm all false force allNs json).2 = parts w shm all false force allNs := by cases json <;> rfl
  rw [hr] at h ⊢
  have hp := parts_ok w shm all false force allNs h
  have hb : (!shm || all) = true → (build w false .target).ok = true ∧ (build w false .horusTarget).ok = true ∧ (cppBuild w false).ok = true := by
    intro hb
    unfold parts at h
    dsimp only at h
    simp only [ok_andThen, if_pos hb] at h
    exact ⟨h.1.1, h.1.2, h.2.1⟩
  have hc : all = true → (userCache w false).ok = true := by
    intro hb
    unfold parts at h
    dsimp only at h
    simp only [ok_andThen, if_pos hb] at h
    exact h.2.2.2.2
  have hcpp : (cppBuild w false).ok = true → (i ∈ (cppBuild w false).removed ↔ i = .cpp ∧ w.present .cpp = true) := by
    intro ho
    unfold cppBuild whole at ho ⊢
    simp only [Bool.false_eq_true, if_false] at ho ⊢
    split at ho
    · split at ho
      · cases ho
      · rename_i h1 h2; simp [h1, h2]
    · rename_i h1; simp [h1]
  have hcache : (userCache w false).ok = true → (i ∈ (userCache w false).removed ↔ i = .cache ∧ w.present .cache = true) := by
    intro ho
    unfold userCache whole at ho ⊢
    simp only [Bool.false_eq_true, if_false] at ho ⊢
    rw [removed_andThen _ _ rfl]
    rw [ok_andThen] at ho
    have ho := ho.2
    split at ho
    · split at ho
      · cases ho
      · rename_i h1 h2; simp [h1, h2]
    · rename_i h1; simp [h1]
  have hpyc : i ∈ (pycache w false).removed ↔ ∃ p, i = .pyc p ∧ p ∈ w.pyc ∧ w.stuck (.pyc p) = false := by
    unfold pycache
    split
    · rename_i he
      rw [List.isEmpty_iff] at he
      simp [he]
    · simp only [Bool.false_eq_true, if_false, List.mem_map, List.mem_filter, Bool.not_eq_true']
      constructor
      · rintro ⟨p, hp, rfl⟩; exact ⟨p, rfl, hp⟩
      · rintro ⟨p, rfl, hp⟩; exact ⟨p, hp, rfl⟩
  have hmem : i ∈ (memory w false force allNs).removed ↔ ∃ d, i = .ns d ∧ d ∈ Clean.gone w.m w.current false force allNs := by
    simp only [memory, List.mem_map]
    constructor
    · rintro ⟨d, hd, rfl⟩; exact ⟨d, rfl, hd⟩
    · rintro ⟨d, rfl, hd⟩; exact ⟨d, hd, rfl⟩
  rw [hp]
  simp only [List.mem_append]
  have e1 : (!shm || all) = true ↔ (shm = false ∨ all = true) := by simp
  have e2 : (shm || all) = true ↔ (shm = true ∨ all = true) := by simp
  have g1 : (i ∈ (if !shm || all then (build w false .target).removed ++ (build w false .horusTarget).removed ++ (cppBuild w false).removed ++ (pycache w false).removed else [])) ↔
      (shm = false ∨ all = true) ∧ ((i = .target ∧ w.present .target = true ∧ w.locked .target = false) ∨ (i = .horusTarget ∧ w.present .horusTarget = true ∧ w.locked .horusTarget = false) ∨
        (i = .cpp ∧ w.present .cpp = true) ∨ ∃ p, i = .pyc p ∧ p ∈ w.pyc ∧ w.stuck (.pyc p) = false) := by
    split
    · rename_i hx
      obtain ⟨b1, b2, b3⟩ := hb hx
      simp only [List.mem_append, mem_build w .target i b1, mem_build w .horusTarget i b2, hcpp b3, hpyc]
      rw [and_iff_right (e1.1 hx)]
      simp only [or_assoc]
    · rename_i hx
      have := mt e1.2 hx
      constructor
      · intro hm; cases hm
      · rintro ⟨hm, -⟩; exact absurd hm this
  have g2 : (i ∈ (if shm || all then (memory w false force allNs).removed else [])) ↔ (shm = true ∨ all = true) ∧ ∃ d, i = .ns d ∧ d ∈ Clean.gone w.m w.current false force allNs := by
    split
    · rename_i hx; rw [hmem, and_iff_right (e2.1 hx)]
    · rename_i hx
      have := mt e2.2 hx
      constructor
      · intro hm; cases hm
      · rintro ⟨hm, -⟩; exact absurd hm this
  have g3 : (i ∈ (if all then (userCache w false).removed else [])) ↔ all = true ∧ i = .cache ∧ w.present .cache = true := by
    split
    · rename_i hx; rw [hcache (hc hx), and_iff_right hx]
    · rename_i hx
      constructor
      · intro hm; cases hm
      · rintro ⟨hm, -⟩; exact absurd hm hx
  rw [g1, g2, g3]
  cases i <;> simp [Goes]

/-- **`--json` removes the same, with the same end.** -/
theorem json_same (w : World) (shm all force allNs : Bool) : (run w shm all false force allNs true).2 = (run w shm all false force allNs false).2 := rfl

/-- **A dry run removes nothing and does not fail.** -/
theorem dry_harmless (w : World) (shm all force allNs json : Bool) : (run w shm all true force allNs json).2.removed = [] ∧ (run w shm all true force allNs json).2.ok = true := by
  have hs : Clean.gone w.m w.current true force allNs = [] := by
    unfold Clean.gone Clean.sweep
    dsimp only
    repeat' split
    all_goals first | rfl | simp_all
  have hw : ∀ i, (build w true i).ok = true ∧ (build w true i).removed = [] := by
    intro i; unfold build whole; split <;> exact ⟨rfl, rfl⟩
  have hc : (cppBuild w true).ok = true ∧ (cppBuild w true).removed = [] := by unfold cppBuild whole; split <;> exact ⟨rfl, rfl⟩
  have hp : (pycache w true).ok = true ∧ (pycache w true).removed = [] := by unfold pycache; split <;> exact ⟨rfl, rfl⟩
  have hu : (userCache w true).ok = true ∧ (userCache w true).removed = [] := by
    cases h : w.present .cache <;> simp [userCache, whole, Out.andThen, h]
  have hm : (memory w true force allNs).ok = true ∧ (memory w true force allNs).removed = [] := ⟨rfl, by simp [memory, hs]⟩
  cases json
  · have hok : (parts w shm all true force allNs).ok = true := by
      unfold parts
      dsimp only
      simp only [ok_andThen]
      refine ⟨?_, ?_, ?_, ?_, ?_⟩ <;> split <;> simp [ok_andThen, hw, hc, hp, hu, hm]
    refine ⟨?_, hok⟩
    show (parts w shm all true force allNs).removed = []
    rw [parts_ok _ _ _ _ _ _ hok]
    simp [hw, hc, hp, hu, hm]
  · exact ⟨rfl, rfl⟩

/-- **An error ends the command**: if `target/` cannot be removed, nothing is, also of what comes later. -/
theorem stuck_stops (w : World) (shm all force allNs json : Bool) (hb : shm = false ∨ all = true) (hp : w.present .target = true) (hl : w.locked .target = false) (hs : w.stuck .target = true) :
    (run w shm all false force allNs json).2.removed = [] ∧ (run w shm all false force allNs json).2.ok = false := by
  have hr : (run w shm all false force allNs json).2 = parts w shm all false force allNs := by cases json <;> rfl
  have hb : (!shm || all) = true := by simpa using hb
  have h1 : build w false .target = { named := [.target], ok := false } := by simp [build, whole, hp, hl, hs]
  rw [hr]
  unfold parts
  dsimp only
  rw [if_pos hb, h1]
  exact ⟨rfl, rfl⟩

/-- What a part announces in a dry run is what it removes, if nothing is in the way. -/
def Honest (d r : Out) : Prop := d.named = r.removed ∧ d.ok = true ∧ r.ok = true ∧ d.changed = r.changed

theorem honest_then {a b c d : Out} (h : Honest a b) (h' : Honest c d) : Honest (a.andThen c) (b.andThen d) :=
  ⟨by rw [named_andThen _ _ h.2.1, removed_andThen _ _ h.2.2.1, h.1, h'.1], (ok_andThen _ _).2 ⟨h.2.1, h'.2.1⟩, (ok_andThen _ _).2 ⟨h.2.2.1, h'.2.2.1⟩,
    by rw [changed_andThen _ _ h.2.1, changed_andThen _ _ h.2.2.1, h.2.2.2, h'.2.2.2]⟩

theorem honest_skip : Honest {} {} := ⟨rfl, rfl, rfl, rfl⟩

/-- **A dry run announces exactly what the command then removes**, when every directory can be removed: the same directories, and
"nothing to clean" in the same cases. -/
theorem dry_honest (w : World) (shm all force allNs : Bool) (hc : Clear w) :
    (run w shm all true force allNs false).2.named = (run w shm all false force allNs false).2.removed ∧
      (run w shm all true force allNs false).2.changed = (run w shm all false force allNs false).2.changed := by
  have hw : ∀ i, Honest (whole w true i) (whole w false i) := by
    intro i; unfold whole; simp [hc.1 i, Honest]
  have hb : ∀ i, Honest (build w true i) (build w false i) := by
    intro i; unfold build; split
    · exact honest_skip
    · exact hw i
  have hcpp : Honest (cppBuild w true) (cppBuild w false) := by
    unfold cppBuild; split
    · exact hw _
    · exact honest_skip
  have hpy : Honest (pycache w true) (pycache w false) := by
    unfold pycache; split
    · exact honest_skip
    · refine ⟨?_, rfl, rfl, rfl⟩
      simp [hc.1]
  have hm : Honest (memory w true force allNs) (memory w false force allNs) := by
    refine ⟨?_, rfl, rfl, ?_⟩
    · simp [memory, Clean.gone, hc.2]
    · simp only [memory]
      unfold Clean.sweep
      dsimp only
      repeat' split
      all_goals rfl
  have hu : Honest (userCache w true) (userCache w false) := by
    unfold userCache
    refine honest_then ⟨rfl, rfl, rfl, rfl⟩ ?_
    split
    · exact hw _
    · exact honest_skip
  have : Honest (parts w shm all true force allNs) (parts w shm all false force allNs) := by
    unfold parts
    dsimp only
    refine honest_then ?_ (honest_then ?_ (honest_then ?_ (honest_then ?_ ?_))) <;> split <;> first | exact honest_skip | skip
    · exact honest_then (hb _) (hb _)
    · exact hcpp
    · exact hpy
    · exact hm
    · exact hu
  exact ⟨this.1, this.2.2.2⟩

/-- **What `--json` lists contains what is removed, except bytecode directories.** The full property, that the document lists
exactly what is removed, is false: see the three findings below. -/
theorem json_lists_partial (w : World) (shm all force allNs : Bool) (i : Item) (hi : ∀ p, i ≠ .pyc p) (h : (run w shm all false force allNs true).2.ok = true)
    (hr : i ∈ (run w shm all false force allNs true).2.removed) : ∃ l, (run w shm all false force allNs true).1 = some l ∧ i ∈ l := by
  refine ⟨_, rfl, ?_⟩
  have hg := (removed_exact w shm all force allNs true i h).1 hr
  unfold listed
  simp only [List.mem_append]
  cases i with
  | target => left; left; rw [if_pos (by simpa using hg.1)]; simp [hg.2.1]
  | horusTarget => left; left; rw [if_pos (by simpa using hg.1)]; simp [hg.2.1]
  | cpp => left; left; rw [if_pos (by simpa using hg.1)]; simp [hg.2]
  | pyc p => exact absurd rfl (hi p)
  | ns d =>
    left; right
    rw [if_pos (by simpa using hg.1)]
    refine List.mem_map.2 ⟨d, ?_, rfl⟩
    have hd := (List.mem_filter.1 hg.2).1
    unfold Clean.sweep at hd
    dsimp only at hd
    split at hd
    · cases hd
    · split at hd
      · cases hd
      · split at hd
        · cases hd
        · simp only [Bool.false_eq_true, if_false] at hd
          unfold Clean.toRemove at hd
          split at hd
          · exact hd
          · exact (List.mem_filter.1 hd).1
  | cache => right; rw [if_pos hg.1]; simp [hg.2]

/-- **Finding: `--json` lists a build directory that a running build holds**, and leaves it. -/
theorem locked_listed (w : World) (shm all force allNs : Bool) (hb : shm = false ∨ all = true) (hp : w.present .target = true) (hl : w.locked .target = true)
    (h : (run w shm all false force allNs true).2.ok = true) : (∃ l, (run w shm all false force allNs true).1 = some l ∧ .target ∈ l) ∧ .target ∉ (run w shm all false force allNs true).2.removed := by
  refine ⟨⟨_, rfl, ?_⟩, fun hm => ?_⟩
  · unfold listed
    rw [if_pos (show (!shm || all) = true by simpa using hb)]
    simp [hp]
  · have := ((removed_exact w shm all force allNs true .target h).1 hm).2.2
    rw [hl] at this; cases this

/-- **Finding: `--json` never lists the bytecode directories it removes.** -/
theorem bytecode_unlisted (w : World) (shm all force allNs : Bool) (p : List String) : ∀ l, (run w shm all false force allNs true).1 = some l → .pyc p ∉ l := by
  intro l hl hm
  injection hl with hl
  subst hl
  unfold listed at hm
  simp only [List.mem_append] at hm
  rcases hm with (hm | hm) | hm <;> split at hm <;> simp at hm

/-- **Finding: `--json --shm` lists namespaces of running robots like the stale ones**, although it leaves them. -/
theorem live_listed (w : World) (all : Bool) (d : List Char) (hd : Clean.Listed w.m d) (hl : ¬ Clean.Dead w.m d) (h : (run w true all false false false true).2.ok = true) :
    (∃ l, (run w true all false false false true).1 = some l ∧ .ns d ∈ l) ∧ .ns d ∉ (run w true all false false false true).2.removed := by
  refine ⟨⟨_, rfl, ?_⟩, fun hm => ?_⟩
  · unfold listed
    simp [(Clean.mem_listing _ _).2 hd]
  · have := ((removed_exact w true all false false true (.ns d) h).1 hm).2
    have := (Clean.clean_spec w.m w.current false d).1 this
    simp_all

/-- **Finding: with `--json` the document is not alone on the standard output** as soon as `--all` is given, or `--shm` and there
is a namespace: the parts for the memory and the cache print their lines although the run is quiet. -/
theorem json_alone_iff (w : World) (shm all force allNs : Bool) (h : (run w shm all false force allNs true).2.ok = true) :
    (run w shm all false force allNs true).2.text = false ↔ all = false ∧ (shm = true → ∀ d, ¬ Clean.Listed w.m d) := by
  have hw : ∀ i, (whole w false i).text = false := by intro i; unfold whole; repeat' split
                                                      all_goals rfl
  have hb : ∀ i, (build w false i).text = false := by intro i; unfold build; split; rfl; exact hw i
  have hc : (cppBuild w false).text = false := by unfold cppBuild; split; exact hw _; rfl
  have hp : (pycache w false).text = false := by unfold pycache; split <;> rfl
  have hu : (userCache w false).text = true := by unfold userCache; rw [text_andThen _ _ rfl]; rfl
  have hl : (Clean.listing w.m).isEmpty = true ↔ ∀ d, ¬ Clean.Listed w.m d := by
    rw [List.isEmpty_iff, List.eq_nil_iff_forall_not_mem]
    exact forall_congr' fun d => not_congr (Clean.mem_listing _ _)
  change (parts w shm all false force allNs).text = false ↔ _
  change (parts w shm all false force allNs).ok = true at h
  unfold parts at h ⊢
  dsimp only at h ⊢
  simp only [ok_andThen] at h
  obtain ⟨h1, h2, h3, h4, h5⟩ := h
  rw [text_andThen _ _ h1, text_andThen _ _ h2, text_andThen _ _ h3, text_andThen _ _ h4]
  have t1 : (if (!shm || all) = true then (build w false .target).andThen (build w false .horusTarget) else {}).text = false := by
    split
    · rename_i hx
      rw [if_pos hx, ok_andThen] at h1
      rw [text_andThen _ _ h1.1, hb, hb]; rfl
    · rfl
  have t2 : (if (!shm || all) = true then cppBuild w false else {}).text = false := by split; exact hc; rfl
  have t3 : (if (!shm || all) = true then pycache w false else {}).text = false := by split; exact hp; rfl
  rw [t1, t2, t3]
  simp only [Bool.false_or, Bool.or_eq_false_iff, ← hl]
  cases all <;> cases shm <;> simp [hu, memory]

/-- **With `--json --dry-run` it is alone.** -/
theorem json_dry_alone (w : World) (shm all force allNs : Bool) : (run w shm all true force allNs true).2.text = false := rfl

/-- A project with both build directories, of which one is in use, some bytecode, and a machine with two namespaces. -/
def shop : World where
  present := fun i => i ≠ .cpp
  locked := fun i => i = .target
  stuck := fun _ => false
  pyc := [["src", "__pycache__"]]
  m := Clean.box
  current := "arm".toList

example : (run shop false false false false false true) = (some [.target, .horusTarget], { removed := [.horusTarget, .pyc ["src", "__pycache__"]], named := [.horusTarget, .pyc ["src", "__pycache__"]], changed := true }) := by decide +kernel
example : (run shop true true false false false true).2.text = true ∧ (run shop true true false false false true).2.ok = true := by decide +kernel
example : Clear shop := ⟨fun _ => rfl, fun _ => rfl⟩
example : (run { shop with locked := fun _ => false, stuck := fun i => i = .target } true true false true true false).2.removed = [] := (stuck_stops _ _ _ _ _ _ (Or.inr rfl) rfl rfl rfl).1
example : (run shop true false false false false true).2.removed = [.ns "horus_sid4242_uid1000".toList] := by decide +kernel

end Horus.CleanRun
