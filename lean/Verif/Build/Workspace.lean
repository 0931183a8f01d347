import Mathlib.Data.List.Basic
import Mathlib.Data.List.Infix
import Mathlib.Data.List.Induction
import Mathlib.Tactic.Common
/-
Finding and remembering workspaces. Source: /repo/horus_manager/src/workspace.rs, /repo/horus_manager/src/build_dirs.rs:51-66.
A directory is the list of the names on the way to it, the innermost first; `[]` is the root of the file system.
-/
namespace Horus.Workspace

abbrev Path := List String

/-- workspace.rs:103-130: `mark d` says that `d` has a `.horus` or a `horus.toml` in it. -/
def climb (mark : Path → Bool) : Nat → Path → Option Path
  | 0, _ => none
  | n + 1, d => if mark d then some d else match d with | [] => none | _ :: up => climb mark n up

def findRoot (mark : Path → Bool) (d : Path) : Option Path := climb mark 10 d

/-- Specification: `r` is the nearest marked directory at or above `d`. -/
def Nearest (mark : Path → Bool) (d r : Path) : Prop := r <:+ d ∧ mark r = true ∧ ∀ q, q <:+ d → mark q = true → q.length ≤ r.length

theorem climb_spec (mark : Path → Bool) (n : Nat) (d r : Path) : climb mark n d = some r ↔ Nearest mark d r ∧ d.length < r.length + n := by
  induction n generalizing d with
  | zero =>
    constructor
    · intro h; cases h
    · rintro ⟨⟨h, _⟩, h2⟩; have := h.length_le; omega
  | succ n ih =>
    unfold climb
    by_cases hm : mark d = true
    · rw [if_pos hm]
      constructor
      · intro h
        injection h with h
        subst h
        exact ⟨⟨List.suffix_refl _, hm, fun q hq _ => hq.length_le⟩, by omega⟩
      · rintro ⟨⟨h1, _, h3⟩, _⟩
        have := h3 d (List.suffix_refl _) hm
        have := h1.length_le
        rw [h1.eq_of_length (by omega)]
    · rw [if_neg hm]
      cases d with
      | nil =>
        constructor
        · intro h; cases h
        · rintro ⟨⟨h1, h2, _⟩, _⟩
          rw [List.suffix_nil] at h1
          subst h1
          exact absurd h2 hm
      | cons a up =>
        dsimp only
        rw [ih up]
        have hsuf : ∀ q : Path, mark q = true → (q <:+ a :: up ↔ q <:+ up) := by
          intro q hq
          rw [List.suffix_cons_iff]
          constructor
          · rintro (h | h)
            · subst h; exact absurd hq hm
            · exact h
          · exact Or.inr
        constructor
        · rintro ⟨⟨h1, h2, h3⟩, h4⟩
          exact ⟨⟨(hsuf r h2).2 h1, h2, fun q hq hm' => h3 q ((hsuf q hm').1 hq) hm'⟩, by simp; omega⟩
        · rintro ⟨⟨h1, h2, h3⟩, h4⟩
          exact ⟨⟨(hsuf r h2).1 h1, h2, fun q hq hm' => h3 q ((hsuf q hm').2 hq) hm'⟩, by simp at h4; omega⟩

/-- **The workspace is the nearest marked directory**, and is found from at most nine levels below it. -/
theorem root_spec (mark : Path → Bool) (d r : Path) : findRoot mark d = some r ↔ Nearest mark d r ∧ d.length ≤ r.length + 9 := by
  unfold findRoot
  rw [climb_spec]
  constructor
  · rintro ⟨h1, h2⟩; exact ⟨h1, by omega⟩
  · rintro ⟨h1, h2⟩; exact ⟨h1, by omega⟩

/-- **Disagreement: from ten levels down the workspace is not found**, and the command behaves as if it were outside one. -/
theorem deep_not_found (mark : Path → Bool) (d r : Path) (h : Nearest mark d r) (hd : r.length + 10 ≤ d.length) : findRoot mark d = none := by
  cases hf : findRoot mark d with
  | none => rfl
  | some r' =>
    obtain ⟨⟨h1, h2, h3⟩, h4⟩ := (root_spec mark d r').1 hf
    have h5 := h.2.2 r' h1 h2
    omega

/-- **Disagreement: the home directory looks like a workspace.** Reading the list of workspaces creates `~/.horus` (workspace.rs:67-71), which is also a
workspace's mark: from then on every unmarked directory below home belongs to the "workspace" home, and packages go there without a question. -/
theorem home_is_workspace (mark : Path → Bool) (home sub : Path) (hh : mark home = true) (hs : ∀ q, q <:+ sub ++ home → home.length < q.length → mark q = false) (hl : sub.length ≤ 9) :
    findRoot mark (sub ++ home) = some home := by
  rw [root_spec]
  refine ⟨⟨List.suffix_append _ _, hh, fun q hq hm => ?_⟩, by simp; omega⟩
  by_contra hlt
  have := hs q hq (by omega)
  rw [hm] at this
  cases this

example : findRoot (fun d => d == ["proj", "me", "home"] || d == ["me", "home"]) ["src", "proj", "me", "home"] = some ["proj", "me", "home"] := by decide
example : findRoot (fun d => d == ["me", "home"]) ["tmp", "me", "home"] = some ["me", "home"] := by decide
example : findRoot (fun d => d == ["proj"]) ["j", "i", "h", "g", "f", "e", "d", "c", "b", "a", "proj"] = none := by decide

/-! ### The list of workspaces -/

/-- workspace.rs:12-18, without the times. -/
structure Ws where
  name : String
  path : Path
  deriving DecidableEq

/-- workspace.rs:73-87. -/
def add (l : List Ws) (w : Ws) : List Ws := (l.filter fun x => x.path ≠ w.path) ++ [w]

/-- workspace.rs:97-99. -/
def findByName (l : List Ws) (n : String) : Option Ws := l.find? fun w => w.name == n

theorem mem_add (l : List Ws) (v w : Ws) : w ∈ add l v ↔ (w ∈ l ∧ decide (w.path ≠ v.path) = true) ∨ w = v := by
  unfold add
  rw [List.mem_append, List.mem_filter, List.mem_singleton]

/-- **One entry for each directory, the latest**, after any registrations. -/
theorem registry_latest (ws : List Ws) : ((ws.foldl add []).map Ws.path).Nodup ∧
    ∀ w, w ∈ ws.foldl add [] ↔ ∃ a b, ws = a ++ w :: b ∧ ∀ x ∈ b, x.path ≠ w.path := by
  induction ws using List.reverseRecOn with
  | nil => simp
  | append_singleton ws v ih =>
    rw [List.foldl_append]
    simp only [List.foldl_cons, List.foldl_nil]
    constructor
    · rw [show ∀ l, add l v = (l.filter fun x => x.path ≠ v.path) ++ [v] from fun _ => rfl]
      rw [List.map_append, List.nodup_append]
      refine ⟨ih.1.sublist (List.filter_sublist.map _), by simp, ?_⟩
      intro a ha b hb
      simp only [List.map_cons, List.map_nil, List.mem_singleton] at hb
      subst hb
      rw [List.mem_map] at ha
      obtain ⟨x, hx, rfl⟩ := ha
      rw [List.mem_filter] at hx
      simpa using hx.2
    · intro w
      rw [mem_add, ih.2]
      constructor
      · rintro (⟨⟨a, b, h1, h2⟩, h3⟩ | rfl)
        · refine ⟨a, b ++ [v], by simp [h1], fun x hx => ?_⟩
          rw [List.mem_append, List.mem_singleton] at hx
          rcases hx with hx | rfl
          · exact h2 x hx
          · intro e; simp [e] at h3
        · exact ⟨ws, [], by simp, by simp⟩
      · rintro ⟨a, b, h1, h2⟩
        rcases List.eq_nil_or_concat b with rfl | ⟨b', y, rfl⟩
        · right
          have := List.append_inj' h1 (by simp)
          simpa using this.2.symm
        · left
          rw [List.concat_eq_append, ← List.cons_append, ← List.append_assoc] at h1
          have := List.append_inj' h1 (by simp)
          have hv : v = y := by simpa using this.2
          subst hv
          refine ⟨⟨a, b', this.1, fun x hx => h2 x (by simp [hx])⟩, ?_⟩
          have := h2 v (by simp)
          simpa using fun e => this e.symm

/-- Two processes that register at the same time: both read, then both write (workspace.rs:26-65 has no lock). -/
theorem lost_registration (l : List Ws) (a b : Ws) (hp : a.path ≠ b.path) (ha : a ∉ l) : a ∉ add l b := by
  unfold add
  rw [List.mem_append, List.mem_filter]
  rintro (h | h)
  · exact ha h.1
  · rw [List.mem_singleton] at h; exact hp (by rw [h])

/-- Of two workspaces with the same name only the one registered first can be found by name. -/
theorem same_name_hidden (a b : Ws) (h : a.name = b.name) (hp : a.path ≠ b.path) : findByName (add (add [] a) b) b.name = some a := by
  simp [add, findByName, hp, h]

/-! ### Nested workspaces -/

inductive Dir
  | mk (name : String) (ws : Bool) (sub : List Dir)

/-- workspace.rs:416-428. -/
def skip (n : String) : Bool := (n.toList.head? == some '.' && n != ".horus") || n == "target" || n == "node_modules" || n == ".git" || n == "build"

/-- workspace.rs:397-452, `k` levels. -/
def scan : Nat → List Dir → List (List String)
  | 0, _ => []
  | k + 1, ds => ds.flatMap fun d => match d with | .mk n ws sub => if skip n then [] else if ws then [[n]] else (scan k sub).map (n :: ·)

/-- Specification: `p` leads to a workspace through directories that are neither skipped nor workspaces. -/
inductive Nested : List Dir → List String → Prop
  | here (ds : List Dir) (n : String) (sub : List Dir) (h : Dir.mk n true sub ∈ ds) (hs : skip n = false) : Nested ds [n]
  | down (ds : List Dir) (n : String) (sub : List Dir) (p : List String) (h : Dir.mk n false sub ∈ ds) (hs : skip n = false) (ht : Nested sub p) : Nested ds (n :: p)

theorem scan_spec (k : Nat) (ds : List Dir) (p : List String) : p ∈ scan k ds ↔ Nested ds p ∧ p.length ≤ k := by
  induction k generalizing ds p with
  | zero =>
    constructor
    · intro h; cases h
    · rintro ⟨h, hl⟩
      cases h <;> simp at hl
  | succ k ih =>
    unfold scan
    rw [List.mem_flatMap]
    constructor
    · rintro ⟨⟨n, ws, sub⟩, hd, hp⟩
      dsimp only at hp
      split at hp
      · cases hp
      · rename_i hs
        split at hp
        · rename_i hw
          subst hw
          rw [List.mem_singleton] at hp
          subst hp
          exact ⟨.here _ _ _ hd (by simpa using hs), by simp⟩
        · rename_i hw
          rw [List.mem_map] at hp
          obtain ⟨q, hq, rfl⟩ := hp
          obtain ⟨h1, h2⟩ := (ih sub q).1 hq
          have hw' : ws = false := by simpa using hw
          subst hw'
          exact ⟨.down _ _ _ _ hd (by simpa using hs) h1, by simp; omega⟩
    · rintro ⟨h, hl⟩
      cases h with
      | here _ n sub hd hs => exact ⟨_, hd, by simp [hs]⟩
      | down _ n sub q hd hs ht =>
        refine ⟨_, hd, ?_⟩
        simp only [hs, Bool.false_eq_true, if_false]
        exact List.mem_map.2 ⟨q, (ih sub q).2 ⟨ht, by simp at hl; omega⟩, rfl⟩

/-- **The monitor finds exactly the workspaces at most four levels down** that are not inside another one. -/
theorem nested_found (ds : List Dir) (p : List String) : p ∈ scan 4 ds ↔ Nested ds p ∧ p.length ≤ 4 := scan_spec 4 ds p

example : scan 4 [.mk "arm" true [.mk "inner" true []], .mk "lib" false [.mk "nav" true []], .mk "build" false [.mk "x" true []]] = [["arm"], ["lib", "nav"]] := by decide

/-! ### Where the build goes -/

/-- build_dirs.rs:51-61: the directory given to cargo and the one in which the binary is looked for are this one function; `env` is
`CARGO_TARGET_DIR`: whether it is absolute, and its names. -/
def targetDir (env : Option (Bool × Path)) (project : Path) : Path :=
  match env with
  | some (true, p) => p
  | some (false, p) => p ++ project
  | none => "target" :: ".horus" :: project

/-- build_dirs.rs:64-66. -/
def binaryPath (env : Option (Bool × Path)) (project : Path) (profile name : String) : Path := name :: profile :: targetDir env project

/-- **Without `CARGO_TARGET_DIR`, or with a relative one, two projects never share a binary.** -/
theorem binaries_apart (env : Option (Bool × Path)) (he : ∀ p, env ≠ some (true, p)) (p q : Path) (pr pr' n n' : String) (h : binaryPath env p pr n = binaryPath env q pr' n') : p = q ∧ pr = pr' ∧ n = n' := by
  unfold binaryPath at h
  simp only [List.cons.injEq] at h
  obtain ⟨h1, h2, h3⟩ := h
  refine ⟨?_, h2, h1⟩
  cases env with
  | none => simpa [targetDir] using h3
  | some x =>
    obtain ⟨b, t⟩ := x
    cases b with
    | true => exact absurd rfl (he t)
    | false => simpa [targetDir] using h3

/-- With an absolute one, projects whose binaries have the same name overwrite each other's (stated in the code's own comment). -/
theorem shared_target_collides (t p q : Path) (pr n : String) : binaryPath (some (true, t)) p pr n = binaryPath (some (true, t)) q pr n := rfl

end Horus.Workspace
