import Verif.Region.Names
/-
`horus clean`. Source: /repo/horus_manager/src/commands/clean.rs, /repo/horus_sys/src/shm/mod.rs:970-1012 (`list_all_horus_namespaces`),
/repo/horus_manager/src/build_dirs.rs:94-117 (`is_locked`).
-/
namespace Horus.Clean
open Horus.Names

/-- The directory with the namespaces: what is in it (name, is it a directory), which numbers are live processes, and which directories
cannot be removed. -/
structure Machine where
  entries : List (List Char × Bool)
  pids : Int → Bool
  stuck : List Char → Bool

/-- shm/mod.rs:995-1000: only the names of sessions are ever taken for dead. -/
def alive (m : Machine) (d : List Char) : Bool :=
  match parseSid d with
  | some (sid, _) => sessionAlive m.pids sid
  | none => true

/-- shm/mod.rs:970-1012. -/
def listing (m : Machine) : List (List Char) := (m.entries.filter fun e => "horus_".toList.isPrefixOf e.1 && e.2).map (·.1)

/-- clean.rs:227-240. -/
def toRemove (m : Machine) (current : List Char) (force all : Bool) : List (List Char) :=
  if all then listing m else (listing m).filter fun d => !alive m d || (force && d == dirName current)

/-- clean.rs:243-430: the directories that are given to `remove_dir_all`, and the answer. Printing is left out. -/
def sweep (m : Machine) (current : List Char) (dry force all : Bool) : List (List Char) × Bool :=
  if (listing m).isEmpty then ([], false)
  else if ((listing m).filter fun d => !alive m d).isEmpty && !force then ([], false)
  else
    let r := toRemove m current force all
    if r.isEmpty then ([], false)
    else if dry then ([], true)
    else (r, true)

/-- The directories that are gone afterwards (one that cannot be removed is reported and passed over, 398-418). -/
def gone (m : Machine) (current : List Char) (dry force all : Bool) : List (List Char) := (sweep m current dry force all).1.filter fun d => !m.stuck d

/-- Specification: a namespace directory of this machine. -/
def Listed (m : Machine) (d : List Char) : Prop := (d, true) ∈ m.entries ∧ "horus_".toList <+: d

/-- Specification: the directory of a session whose leader is no longer there. -/
def Dead (m : Machine) (d : List Char) : Prop := ∃ sid uid, parseSid d = some (sid, uid) ∧ (sid ≤ 0 ∨ m.pids sid = false)

theorem mem_listing (m : Machine) (d : List Char) : d ∈ listing m ↔ Listed m d := by
  unfold listing Listed
  simp only [List.mem_map, List.mem_filter, Bool.and_eq_true, List.isPrefixOf_iff_prefix, Prod.exists]
  constructor
  · rintro ⟨a, b, ⟨h1, h2, h3⟩, rfl⟩
    subst h3
    exact ⟨h1, h2⟩
  · rintro ⟨h1, h2⟩
    exact ⟨d, true, ⟨h1, h2, rfl⟩, rfl⟩

theorem alive_false (m : Machine) (d : List Char) : alive m d = false ↔ Dead m d := by
  unfold alive Dead
  cases h : parseSid d with
  | none => simp
  | some x =>
    obtain ⟨s, u⟩ := x
    simp only [sessionAlive, Option.some.injEq, Prod.mk.injEq]
    constructor
    · intro h1
      by_cases hs : s ≤ 0
      · exact ⟨s, u, ⟨rfl, rfl⟩, Or.inl hs⟩
      · rw [if_neg hs] at h1; exact ⟨s, u, ⟨rfl, rfl⟩, Or.inr h1⟩
    · rintro ⟨s', u', ⟨rfl, rfl⟩, h1⟩
      by_cases hs : s ≤ 0
      · rw [if_pos hs]
      · rw [if_neg hs]; exact h1.resolve_left hs

/-- **Without `--all-namespaces` exactly the dead namespaces go, and with `--force` the caller's own as well**, whatever else is there. -/
theorem clean_spec (m : Machine) (current : List Char) (force : Bool) (d : List Char) :
    d ∈ gone m current false force false ↔ Listed m d ∧ m.stuck d = false ∧ (Dead m d ∨ (force = true ∧ d = dirName current)) := by
  have key : d ∈ toRemove m current force false ↔ Listed m d ∧ (Dead m d ∨ (force = true ∧ d = dirName current)) := by
    unfold toRemove
    rw [if_neg (by decide), List.mem_filter, mem_listing]
    simp [alive_false]
  have hs : (sweep m current false force false).1 = toRemove m current force false := by
    unfold sweep
    split
    · rename_i h
      have h0 : listing m = [] := List.isEmpty_iff.1 h
      simp [toRemove, h0]
    · split
      · rename_i h1 h
        simp only [Bool.and_eq_true, List.isEmpty_iff, Bool.not_eq_true'] at h
        obtain ⟨h2, h3⟩ := h
        unfold toRemove
        rw [h3]
        simpa using h2.symm
      · dsimp only
        split
        · rename_i h; exact (List.isEmpty_iff.1 h).symm
        · rfl
  unfold gone
  rw [List.mem_filter, hs, key]
  simp [and_comm, and_assoc]

/-- **A live namespace of another process is never touched** without `--all-namespaces`, whatever else is given. -/
theorem live_others_kept (m : Machine) (current : List Char) (dry force : Bool) (d : List Char) (hl : ¬ Dead m d) (ho : d ≠ dirName current) :
    d ∉ gone m current dry force false := by
  cases dry
  · rw [clean_spec]; rintro ⟨_, _, h | h⟩
    · exact hl h
    · exact ho h.2
  · intro h
    unfold gone sweep at h
    rw [List.mem_filter] at h
    obtain ⟨h, _⟩ := h
    split at h
    · cases h
    · split at h
      · cases h
      · dsimp only at h
        split at h <;> cases h

/-- A namespace with a name of the user's own is never taken for dead. -/
theorem named_never_dead (m : Machine) (ns : List Char) (h : ¬ "sid".toList <+: ns) : ¬ Dead m (dirName ns) := by
  rintro ⟨s, u, h1, _⟩
  unfold parseSid at h1
  rw [if_neg] at h1
  · cases h1
  · intro hp
    apply h
    have e : "horus_sid".toList = "horus_".toList ++ "sid".toList := by decide
    rw [e, dirName, List.prefix_append_right_inj] at hp
    exact hp

/-- **`--dry-run` removes nothing**, and says "would clean" exactly if the real run would ask for something to be removed. -/
theorem dry_run_harmless (m : Machine) (current : List Char) (force all : Bool) :
    gone m current true force all = [] ∧ ((sweep m current true force all).2 = true ↔ (sweep m current false force all).1 ≠ []) := by
  constructor
  · unfold gone sweep
    split
    · rfl
    · split
      · rfl
      · dsimp only; split <;> rfl
  · unfold sweep
    split
    · simp
    · split
      · simp
      · dsimp only
        split
        · simp
        · rename_i h; simpa [List.isEmpty_iff] using h

theorem toRemove_all (m : Machine) (current : List Char) (force : Bool) : toRemove m current force true = listing m := rfl

/-- With both flags every namespace that can be removed goes. -/
theorem all_force (m : Machine) (current : List Char) (d : List Char) : d ∈ gone m current false true true ↔ Listed m d ∧ m.stuck d = false := by
  unfold gone
  rw [List.mem_filter]
  have hs : (sweep m current false true true).1 = listing m := by
    unfold sweep
    split
    · rename_i h; exact (List.isEmpty_iff.1 h).symm
    · rename_i h
      rw [if_neg (by simp)]
      dsimp only
      rw [if_neg (show ¬ (toRemove m current true true).isEmpty = true from h)]
      rfl
  rw [hs, mem_listing]
  simp

/-- **Disagreement: `--all-namespaces` depends on an unrelated namespace.** Without `--force` it removes everything, live namespaces of others
included, if some namespace is dead, and nothing if none is. -/
theorem all_without_force (m : Machine) (current : List Char) (d : List Char) :
    d ∈ gone m current false false true ↔ Listed m d ∧ m.stuck d = false ∧ ∃ x, Listed m x ∧ Dead m x := by
  unfold gone
  rw [List.mem_filter]
  by_cases hx : ∃ x, Listed m x ∧ Dead m x
  · have hs : (sweep m current false false true).1 = listing m := by
      obtain ⟨x, hx1, hx2⟩ := hx
      have hm : x ∈ (listing m).filter fun d => !alive m d := by
        rw [List.mem_filter, mem_listing]; exact ⟨hx1, by simp [alive_false, hx2]⟩
      unfold sweep
      split
      · rename_i h; exact (List.isEmpty_iff.1 h).symm
      · rename_i h0
        rw [if_neg]
        · dsimp only
          rw [if_neg (show ¬ (toRemove m current false true).isEmpty = true from h0)]
          rfl
        · intro h
          simp only [Bool.and_eq_true, List.isEmpty_iff] at h
          rw [h.1] at hm; cases hm
    rw [hs, mem_listing]
    simp [hx]
  · have hs : (sweep m current false false true).1 = [] := by
      unfold sweep
      split
      · rfl
      · rw [if_pos]
        simp only [Bool.and_eq_true, List.isEmpty_iff, Bool.not_false, and_true]
        rw [List.filter_eq_nil_iff]
        intro a ha hb
        exact hx ⟨a, (mem_listing m a).1 ha, (alive_false m a).1 (by simpa using hb)⟩
    rw [hs]
    constructor
    · rintro ⟨h, _⟩; cases h
    · rintro ⟨_, _, h⟩; exact absurd h hx

/-- **Disagreement: a plain `horus clean --shm` removes the caller's own namespace** if the session's leader is gone (a shell that was left
with `nohup` or `disown`), though the sweep at start-up spares it (`Horus.Names.own_namespace_stays`). -/
theorem own_removed_without_force (m : Machine) (current : List Char) (h : Listed m (dirName current)) (hd : Dead m (dirName current)) (hs : m.stuck (dirName current) = false) :
    dirName current ∈ gone m current false false false := (clean_spec _ _ _ _).2 ⟨h, hs, Or.inl hd⟩

/-- Two sessions and a named namespace; 4242 has ended. -/
def box : Machine := ⟨[("horus_sid4242_uid1000".toList, true), ("horus_sid77_uid1000".toList, true), ("horus_arm".toList, true), ("pulse-shm".toList, true)], fun p => p == 77, fun _ => false⟩

example : gone box "arm".toList false false false = ["horus_sid4242_uid1000".toList] := by decide
example : gone box "arm".toList false true false = ["horus_sid4242_uid1000".toList, "horus_arm".toList] := by decide
example : gone { box with pids := fun _ => true } "arm".toList false false true = [] := by decide
example : gone box "arm".toList false false true = ["horus_sid4242_uid1000".toList, "horus_sid77_uid1000".toList, "horus_arm".toList] := by decide
example : Dead box "horus_sid4242_uid1000".toList := ⟨4242, 1000, by decide, Or.inr (by decide)⟩
example : dirName "sid4242_uid1000".toList ∈ gone box "sid4242_uid1000".toList false false false := by decide

/-! ### Build caches -/

/-- A build directory: is it there, which profiles hold cargo's lock, can it be removed. -/
structure Cache where
  present : Bool
  lockedProfiles : List String
  stuck : Bool

/-- build_dirs.rs:94-117: only two profiles are looked at. -/
def isLocked (c : Cache) : Bool := ["debug", "release"].any fun p => c.lockedProfiles.contains p

/-- clean.rs:166-210: the directories afterwards; an error ends the command. -/
def cleanBuild (dry : Bool) : List Cache → Except Unit (List Cache)
  | [] => .ok []
  | c :: cs =>
    if !c.present || isLocked c || dry then (cleanBuild dry cs).map (c :: ·)
    else if c.stuck then .error ()
    else (cleanBuild dry cs).map ({ c with present := false } :: ·)

/-- **A build that holds the lock keeps its files**, and so does everything in a dry run. -/
theorem locked_kept (dry : Bool) (cs cs' : List Cache) (h : cleanBuild dry cs = .ok cs') :
    cs'.length = cs.length ∧ ∀ i (hi : i < cs.length) (hi' : i < cs'.length), (cs'[i].present = true ↔ cs[i].present = true ∧ (isLocked cs[i] = true ∨ dry = true)) := by
  induction cs generalizing cs' with
  | nil =>
    injection h with h; subst h
    exact ⟨rfl, fun i hi => absurd hi (Nat.not_lt_zero _)⟩
  | cons c cs ih =>
    unfold cleanBuild at h
    cases hr : cleanBuild dry cs with
    | error e =>
      rw [hr] at h
      split at h
      · cases h
      · split at h <;> cases h
    | ok r =>
      rw [hr] at h
      obtain ⟨hl, hs⟩ := ih r hr
      split at h
      · rename_i hc
        injection h with h; subst h
        refine ⟨by simp [hl], fun i hi hi' => ?_⟩
        cases i with
        | zero =>
          simp only [List.getElem_cons_zero]
          simp only [Bool.or_eq_true, Bool.not_eq_true'] at hc
          constructor
          · intro hp
            refine ⟨hp, ?_⟩
            rcases hc with (hc | hc) | hc
            · rw [hp] at hc; cases hc
            · exact Or.inl hc
            · exact Or.inr hc
          · exact fun h => h.1
        | succ i => simpa using hs i (by simpa using hi) (by simpa using hi')
      · split at h
        · cases h
        · rename_i hc _
          injection h with h; subst h
          refine ⟨by simp [hl], fun i hi hi' => ?_⟩
          cases i with
          | zero =>
            simp only [List.getElem_cons_zero]
            simp only [Bool.or_eq_true, Bool.not_eq_true', not_or] at hc
            constructor
            · intro hp; cases hp
            · rintro ⟨_, h | h⟩
              · exact absurd h hc.1.2
              · exact absurd h hc.2
          | succ i => simpa using hs i (by simpa using hi) (by simpa using hi')

/-- **Disagreement: a build of another profile, or for another target, loses its files**: its lock is elsewhere and is not looked at. -/
theorem other_profile_removed (p : String) (h : p ≠ "debug") (h' : p ≠ "release") : cleanBuild false [⟨true, [p], false⟩] = .ok [⟨false, [p], false⟩] := by
  have hl : isLocked ⟨true, [p], false⟩ = false := by simp [isLocked, h.symm, h'.symm]
  simp [cleanBuild, hl, Except.map]

example : cleanBuild false [⟨true, ["release"], false⟩, ⟨true, [], false⟩] = .ok [⟨true, ["release"], false⟩, ⟨false, [], false⟩] := rfl
example : cleanBuild false [⟨true, ["aarch64-unknown-linux-gnu/release"], false⟩] = .ok [⟨false, ["aarch64-unknown-linux-gnu/release"], false⟩] := other_profile_removed _ (by decide) (by decide)

/-! ### `__pycache__` directories -/

/-- What `read_dir` finds: files, and directories with their entries; `link` if it is reached through a symbolic link. -/
inductive Entry
  | file (name : String)
  | dir (name : String) (link : Bool) (es : List Entry)

/-- clean.rs:536. -/
def skipped (n : String) : Bool := n == "target" || n == ".horus" || n == ".git"

mutual
/-- clean.rs:527-548 for one entry: `is_dir` follows links. -/
def findOne : Entry → List (List String)
  | .file _ => []
  | .dir n _ es => if skipped n then [] else if n == "__pycache__" then [[n]] else (findAll es).map (n :: ·)
/-- clean.rs:527-548: the paths, from the directory on. -/
def findAll : List Entry → List (List String)
  | [] => []
  | e :: es => findOne e ++ findAll es
end

/-- Specification: `p` leads from the entries `es` to a directory called `__pycache__`, through directories that are not skipped; `out` if a
link was followed on the way to it. -/
inductive Leads : List Entry → List String → Bool → Prop
  | here (es : List Entry) (l : Bool) (sub : List Entry) (h : Entry.dir "__pycache__" l sub ∈ es) : Leads es ["__pycache__"] false
  | down (es : List Entry) (n : String) (l : Bool) (sub : List Entry) (p : List String) (o : Bool) (h : Entry.dir n l sub ∈ es)
      (hs : n ≠ "target" ∧ n ≠ ".horus" ∧ n ≠ ".git" ∧ n ≠ "__pycache__") (ht : Leads sub p o) : Leads es (n :: p) (l || o)

theorem mem_findAll (es : List Entry) (p : List String) : p ∈ findAll es ↔ ∃ e ∈ es, p ∈ findOne e := by
  induction es with
  | nil => simp [findAll]
  | cons e es ih => simp [findAll, ih]

theorem skipped_iff (n : String) : skipped n = false ↔ n ≠ "target" ∧ n ≠ ".horus" ∧ n ≠ ".git" := by
  simp [skipped]; tauto

theorem find_sound : ∀ (k : Nat) (es : List Entry) (p : List String), sizeOf es ≤ k → p ∈ findAll es → ∃ o, Leads es p o := by
  intro k
  induction k with
  | zero =>
    intro es p hk
    cases es with
    | nil => intro h; simp [findAll] at h
    | cons e es => simp at hk
  | succ k ih =>
    intro es p hk hp
    rw [mem_findAll] at hp
    obtain ⟨e, he, hp⟩ := hp
    cases e with
    | file n => simp [findOne] at hp
    | dir n l sub =>
      unfold findOne at hp
      split at hp
      · cases hp
      · rename_i hs
        split at hp
        · rename_i hn
          have hn' : n = "__pycache__" := by simpa using hn
          subst hn'
          simp only [List.mem_singleton] at hp
          subst hp
          exact ⟨false, .here _ _ _ he⟩
        · rename_i hn
          rw [List.mem_map] at hp
          obtain ⟨q, hq, rfl⟩ := hp
          have h1 := List.sizeOf_lt_of_mem he
          have h2 : sizeOf sub < sizeOf (Entry.dir n l sub) := by simp
          obtain ⟨o, ho⟩ := ih sub q (by omega) hq
          have hsk := (skipped_iff n).1 (by simpa using hs)
          exact ⟨l || o, .down _ _ _ _ _ _ he ⟨hsk.1, hsk.2.1, hsk.2.2, by simpa using hn⟩ ho⟩

/-- **Exactly the `__pycache__` directories that can be reached without going through a build, `.horus` or `.git` directory, or through another
`__pycache__`, are removed**, for every tree. -/
theorem pycache_spec (es : List Entry) (p : List String) : p ∈ findAll es ↔ ∃ o, Leads es p o := by
  constructor
  · exact find_sound _ es p (Nat.le_refl _)
  · rintro ⟨o, h⟩
    induction h with
    | here es l sub h =>
      rw [mem_findAll]
      refine ⟨_, h, ?_⟩
      unfold findOne
      rw [if_neg (by decide), if_pos (by decide)]
      exact List.mem_singleton.2 rfl
    | down es n l sub p o h hs _ ih =>
      rw [mem_findAll]
      refine ⟨_, h, ?_⟩
      unfold findOne
      rw [if_neg, if_neg]
      · exact List.mem_map.2 ⟨p, ih, rfl⟩
      · simpa using hs.2.2.2
      · rw [Bool.not_eq_true]; exact (skipped_iff n).2 ⟨hs.1, hs.2.1, hs.2.2.1⟩

/-- Whatever is removed is called `__pycache__`. -/
theorem pycache_only (es : List Entry) (p : List String) (h : p ∈ findAll es) : p.getLast? = some "__pycache__" := by
  obtain ⟨o, h⟩ := (pycache_spec es p).1 h
  induction h with
  | here => rfl
  | down es n l sub p o h hs ht ih =>
    have ih' := ih ((pycache_spec sub p).2 ⟨o, ht⟩)
    cases p with
    | nil => cases ih'
    | cons a p => rw [List.getLast?_cons_cons]; exact ih'

/-- **Disagreement: links are followed**, so directories outside the project are removed: with a link `sdk` to a directory elsewhere, the
`__pycache__` in that directory goes. -/
theorem outside_removed (sub : List Entry) (l : Bool) (es : List Entry) (h : Entry.dir "__pycache__" l es ∈ sub) :
    ["sdk", "__pycache__"] ∈ findAll [.dir "sdk" true sub] ∧ Leads [.dir "sdk" true sub] ["sdk", "__pycache__"] true := by
  have hl : Leads [.dir "sdk" true sub] ["sdk", "__pycache__"] true :=
    .down _ _ true sub _ false (List.mem_singleton.2 rfl) (by decide) (.here _ l es h)
  exact ⟨(pycache_spec _ _).2 ⟨_, hl⟩, hl⟩

example : findAll [.dir "src" false [.dir "__pycache__" false [.file "a.pyc"], .dir "nav" false [.dir "__pycache__" false []]], .dir "target" false [.dir "__pycache__" false []], .file "x"]
    = [["src", "__pycache__"], ["src", "nav", "__pycache__"]] := by decide

end Horus.Clean
