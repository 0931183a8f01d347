import Mathlib.Data.List.Nodup
import Mathlib.Data.List.Perm.Basic
import Mathlib.Tactic.Common

/-!
Which plugins are listed, found and verified: horus_manager/src/plugins/resolver.rs (87-190, 263-321),
plugins/registry.rs (333-372), commands/pkg.rs (885-993) and the filter of `horus search`
(commands/plugin.rs:10-41, 77-93).

Simplifications: commands are numbers in the order of their names, byte strings and checksums are numbers, the
hash map of a registry is the list of its entries in the order in which it happens to be walked, and a file that
exists can be read.
-/

namespace Horus.Pkg.PluginList

/-! ### Model -/

/-- A registered plugin (registry.rs:61-96): where its binary is and the checksum recorded. -/
structure Entry where
  binary : Nat
  checksum : Nat
  deriving DecidableEq, Repr

/-- A registry (registry.rs:18-45), without the disabled plugins, which are kept apart. -/
structure Reg where
  plugins : List (Nat × Entry)
  inherit : Bool := true

inductive Scope
  | global | project
  deriving DecidableEq, Repr

/-- `get_plugin` (registry.rs:333-335). -/
def get (r : Reg) (c : Nat) : Option Entry := (r.plugins.find? (·.1 == c)).map Prod.snd

/-- `resolve_with_scope` (resolver.rs:87-105). -/
def resolve (g : Reg) (p : Option Reg) (c : Nat) : Option (Entry × Scope) :=
  match p with
  | none => (get g c).map fun e => (e, .global)
  | some r =>
    match get r c with
    | some e => some (e, .project)
    | none => if r.inherit then (get g c).map fun e => (e, .global) else none

/-- The names of a registry, in the order of the walk (registry.rs:343-345). -/
def names (r : Reg) : List Nat := r.plugins.map Prod.fst

/-- Names are added unless they are there (resolver.rs:141-145). -/
def addNew (cs : List Nat) (c : Nat) : List Nat := if cs.contains c then cs else cs ++ [c]

/-- `all_commands` (resolver.rs:131-150). -/
def allCommands (g : Reg) (p : Option Reg) : List Nat :=
  let cs := match p with
    | none => names g
    | some r => (names r).foldl addNew (names g)
  cs.mergeSort (fun a b => decide (a ≤ b))

/-- One line of the list (resolver.rs:333-345). -/
structure Row where
  command : Nat
  entry : Entry
  scope : Scope
  overridden : Bool
  deriving DecidableEq, Repr

/-- The line of a plugin that nothing overrides so far (resolver.rs:157-164). -/
def row (s : Scope) (x : Nat × Entry) : Row := { command := x.1, entry := x.2, scope := s, overridden := false }

/-- Mark the first line of that command (resolver.rs:174-176). -/
def mark (c : Nat) : List Row → List Row
  | [] => []
  | x :: l => if x.command = c then { x with overridden := true } :: l else x :: mark c l

/-- One plugin of the project is added (resolver.rs:168-185). -/
def addRow (g : Reg) (l : List Row) (x : Nat × Entry) : List Row :=
  (if (get g x.1).isSome then mark x.1 l else l) ++ [row .project x]

/-- `all_plugins` (resolver.rs:153-190). -/
def allPlugins (g : Reg) (p : Option Reg) : List Row :=
  let l := g.plugins.map (row .global)
  let l := match p with
    | none => l
    | some r => r.plugins.foldl (addRow g) l
  l.mergeSort (fun a b => decide (a.command ≤ b.command))

/-- What verifying finds (resolver.rs:357-363). -/
inductive Status
  | valid | mismatch | error
  deriving DecidableEq, Repr

/-- `verify_plugin` (registry.rs:353-372); `files` is the content of the file at a path. -/
def verifyOne (H : Nat → Nat) (files : Nat → Option Nat) (r : Reg) (c : Nat) : Status :=
  match get r c with
  | none => .error
  | some e =>
    match files e.binary with
    | none => .error
    | some b => if H b = e.checksum then .valid else .mismatch

/-- `verify_all` (resolver.rs:263-321). -/
def verifyAll (H : Nat → Nat) (files : Nat → Option Nat) (g : Reg) (p : Option Reg) : List (Nat × Scope × Status) :=
  ((names g).map fun c => (c, .global, verifyOne H files g c)) ++
  match p with
  | none => []
  | some r => (names r).map fun c => (c, .project, verifyOne H files r c)

/-- Whether a result is looked at (commands/pkg.rs:892, 937-942). -/
def selected (name : Option Nat) (c : Nat) : Bool :=
  match name with
  | none => true
  | some n => c == n

/-- `horus verify [plugin] [--json]` (commands/pkg.rs:885-993): whether it succeeds. -/
def verifyCmd (H : Nat → Nat) (files : Nat → Option Nat) (g : Reg) (p : Option Reg) (name : Option Nat) (json : Bool) : Bool :=
  let rs := verifyAll H files g p
  let sel := fun (x : Nat × Scope × Status) => selected name x.1
  if json then (rs.filter sel).all fun x => x.2.2 == .valid
  else if rs.isEmpty then true
  else rs.foldl (fun ok x => if sel x then (if x.2.2 = .valid then ok else false) else ok) true

/-! ### Finding -/

/-- The commands of a registry are the keys of a map. -/
def Reg.Ok (r : Reg) : Prop := (names r).Nodup

/-- Registered under the name in that scope. -/
def Has (g : Reg) (p : Option Reg) (c : Nat) (e : Entry) : Scope → Prop
  | .global => (c, e) ∈ g.plugins
  | .project => ∃ r, p = some r ∧ (c, e) ∈ r.plugins

theorem get_iff {r : Reg} (hr : r.Ok) {c : Nat} {e : Entry} : get r c = some e ↔ (c, e) ∈ r.plugins := by
  simp only [get, Option.map_eq_some_iff]
  constructor
  · rintro ⟨x, hx, rfl⟩
    have h1 := List.mem_of_find?_eq_some hx
    have h2 := List.find?_some hx
    simp only [beq_iff_eq] at h2
    rw [← h2]
    exact h1
  · intro h
    match hf : r.plugins.find? (·.1 == c) with
    | none =>
      have := List.find?_eq_none.1 hf (c, e) h
      simp at this
    | some x =>
      have h1 := List.mem_of_find?_eq_some hf
      have h2 := List.find?_some hf
      simp only [beq_iff_eq] at h2
      have : x = (c, e) := List.inj_on_of_nodup_map hr h1 h h2
      exact ⟨x, by simpa using hf, by rw [this]⟩

theorem get_none {r : Reg} {c : Nat} : get r c = none ↔ c ∉ names r := by
  simp only [get, Option.map_eq_none_iff, List.find?_eq_none, names, List.mem_map, not_exists, not_and]
  constructor
  · intro h x hx e
    exact h x hx (by simpa using e)
  · intro h x hx e
    exact h x hx (by simpa using e)

/-- A plugin is found iff it is registered and nothing is in the way: in the project, or globally with no project
that has its own or does not inherit. -/
theorem resolve_iff {g : Reg} {p : Option Reg} (hg : g.Ok) (hp : ∀ r ∈ p, r.Ok) {c : Nat} {e : Entry} {s : Scope} :
    resolve g p c = some (e, s) ↔ Has g p c e s ∧ (s = .global → ∀ r ∈ p, c ∉ names r ∧ r.inherit = true) := by
  cases p with
  | none =>
    cases s <;> simp [resolve, Has, get_iff hg]
  | some r =>
    have hr := hp r rfl
    simp only [resolve]
    match hc : get r c with
    | some x =>
      have hx := (get_iff hr).1 hc
      have hn : c ∈ names r := List.mem_map.2 ⟨_, hx, rfl⟩
      cases s with
      | global => simp [hn]
      | project =>
        simp only [Option.some.injEq, Prod.mk.injEq, and_true, Has, reduceCtorEq, false_implies]
        constructor
        · rintro rfl; exact ⟨r, rfl, hx⟩
        · rintro ⟨r', e', h'⟩
          cases e'
          have := (get_iff hr).2 h'
          rw [hc] at this
          exact Option.some.inj this
    | none =>
      have hn := get_none.1 hc
      cases s with
      | global =>
        by_cases hi : r.inherit = true
        · simp [hi, hn, Has, get_iff hg]
        · simp [hi]
      | project =>
        have : ¬ ∃ r', some r = some r' ∧ (c, e) ∈ r'.plugins := by
          rintro ⟨r', e', h'⟩
          cases e'
          exact hn (List.mem_map.2 ⟨_, h', rfl⟩)
        simp only [Has, this, false_and, iff_false]
        by_cases hi : r.inherit = true <;> simp [hi]

/-! ### The names listed -/

theorem mem_foldl_addNew {c : Nat} : ∀ {ns cs : List Nat}, c ∈ ns.foldl addNew cs ↔ c ∈ cs ∨ c ∈ ns
  | [], cs => by simp
  | n :: ns, cs => by
    rw [List.foldl_cons, mem_foldl_addNew, addNew]
    by_cases h : n ∈ cs
    · simp only [List.contains_iff_mem, h, if_true, List.mem_cons]
      constructor
      · rintro (a | a)
        · exact Or.inl a
        · exact Or.inr (Or.inr a)
      · rintro (a | rfl | a)
        · exact Or.inl a
        · exact Or.inl h
        · exact Or.inr a
    · simp only [List.contains_iff_mem, h, if_false, List.mem_append, List.mem_cons, List.not_mem_nil, false_or, or_assoc]

theorem nodup_foldl_addNew : ∀ {ns cs : List Nat}, cs.Nodup → (ns.foldl addNew cs).Nodup
  | [], _, h => h
  | n :: ns, cs, h => by
    rw [List.foldl_cons]
    refine nodup_foldl_addNew ?_
    simp only [addNew]
    by_cases hn : n ∈ cs
    · simpa [hn] using h
    · simp only [List.contains_iff_mem, hn, if_false]
      exact List.nodup_append.2 ⟨h, by simp, fun a ha b hb e => hn (by rw [List.mem_singleton] at hb; rw [← hb, ← e]; exact ha)⟩

/-- Exactly the registered names are listed. -/
theorem listed_iff {g : Reg} {p : Option Reg} {c : Nat} : c ∈ allCommands g p ↔ c ∈ names g ∨ ∃ r ∈ p, c ∈ names r := by
  cases p with
  | none => simp [allCommands, List.mem_mergeSort]
  | some r => simp [allCommands, List.mem_mergeSort, mem_foldl_addNew]

/-- Each name is listed once, in order. -/
theorem listed_once {g : Reg} {p : Option Reg} (hg : g.Ok) : (allCommands g p).Nodup ∧ (allCommands g p).Pairwise (· ≤ ·) := by
  refine ⟨?_, ?_⟩
  · simp only [allCommands]
    refine (List.mergeSort_perm _ _).nodup_iff.2 ?_
    cases p with
    | none => exact hg
    | some r => exact nodup_foldl_addNew hg
  · have := List.pairwise_mergeSort (le := fun (a b : Nat) => decide (a ≤ b)) (by simpa using fun a b c => Nat.le_trans) (by simpa using Nat.le_total)
      (match p with | none => names g | some r => (names r).foldl addNew (names g))
    simpa [allCommands] using this

/-- Whatever is found is listed. -/
theorem found_listed {g : Reg} {p : Option Reg} (hg : g.Ok) (hp : ∀ r ∈ p, r.Ok) {c : Nat} {x : Entry × Scope} (h : resolve g p c = some x) :
    c ∈ allCommands g p := by
  rw [listed_iff]
  have := ((resolve_iff (e := x.1) (s := x.2) hg hp).1 h).1
  match hs : x.2, this with
  | .global, h => exact Or.inl (List.mem_map.2 ⟨_, h, rfl⟩)
  | .project, ⟨r, e, h⟩ => exact Or.inr ⟨r, e, List.mem_map.2 ⟨_, h, rfl⟩⟩

/-- Whatever is listed is found, if the project inherits. -/
theorem listed_found_partial {g : Reg} {p : Option Reg} (hi : ∀ r ∈ p, r.inherit = true) {c : Nat} (h : c ∈ allCommands g p) :
    ∃ x, resolve g p c = some x := by
  rw [listed_iff] at h
  have hsome : ∀ {r : Reg}, c ∈ names r → ∃ e, get r c = some e := fun {r} hc => by
    match hg : get r c with
    | some e => exact ⟨e, rfl⟩
    | none => exact absurd hc (get_none.1 hg)
  cases p with
  | none =>
    rcases h with h | ⟨_, h, _⟩
    · obtain ⟨e, he⟩ := hsome h
      exact ⟨(e, .global), by simp [resolve, he]⟩
    · simp at h
  | some r =>
    simp only [resolve]
    match hc : get r c with
    | some e => exact ⟨_, rfl⟩
    | none =>
      have hn := get_none.1 hc
      rcases h with h | ⟨r', hr', h⟩
      · obtain ⟨e, he⟩ := hsome h
        exact ⟨(e, .global), by simp [hi r rfl, he]⟩
      · cases hr'; exact absurd h hn

/-- A project that does not inherit still lists the global plugins, which are not found. -/
theorem listed_not_found {g : Reg} {r : Reg} (hi : r.inherit = false) {c : Nat} (hc : c ∈ names g) (hn : c ∉ names r) :
    c ∈ allCommands g (some r) ∧ resolve g (some r) c = none :=
  ⟨listed_iff.2 (Or.inl hc), by simp [resolve, get_none.2 hn, hi]⟩

/-! ### The lines listed -/

theorem mem_mark {c k : Nat} {e : Entry} {s : Scope} {o : Bool} : ∀ {l : List Row}, (l.map Row.command).Nodup →
    (⟨k, e, s, o⟩ ∈ mark c l ↔ if k = c then o = true ∧ ∃ b, ⟨k, e, s, b⟩ ∈ l else ⟨k, e, s, o⟩ ∈ l)
  | [], _ => by simp [mark]
  | ⟨k', e', s', o'⟩ :: l, h => by
    have ih := mem_mark (c := c) (k := k) (e := e) (s := s) (o := o) (List.nodup_cons.1 h).2
    have hm : ∀ x ∈ l, x.command ≠ k' := fun x hx hk => (List.nodup_cons.1 h).1 (List.mem_map.2 ⟨x, hx, hk⟩)
    have hm : k = k' → ∀ b, (⟨k, e, s, b⟩ : Row) ∉ l := fun hk b hb => hm _ hb hk
    simp only [mark]
    by_cases hy : k' = c
    · subst hy
      by_cases hk : k = k'
      · subst hk
        simp only [if_true, List.mem_cons, hm rfl, or_false, Row.mk.injEq, true_and]
        constructor
        · rintro ⟨rfl, rfl, rfl⟩; exact ⟨rfl, o', rfl, rfl, rfl⟩
        · rintro ⟨rfl, b, rfl, rfl, _⟩; exact ⟨rfl, rfl, rfl⟩
      · simp [hk]
    · simp only [hy, if_false, List.mem_cons, ih]
      by_cases hk : k = c
      · subst hk
        simp [Ne.symm hy]
      · simp [hk]

theorem mark_command {c : Nat} : ∀ {l : List Row}, (mark c l).map Row.command = l.map Row.command
  | [] => rfl
  | y :: l => by
    by_cases hy : y.command = c
    · simp [mark, hy]
    · simp [mark, hy, mark_command]

/-- After the first `ys` plugins of the project: the global lines, the overridden ones marked, then those of the project. -/
theorem fold_rows {g : Reg} (hg : g.Ok) : ∀ {xs ys : List (Nat × Entry)}, ((ys ++ xs).map Prod.fst).Nodup → ∀ {A : List Row},
    A.map Row.command = names g →
    (∀ x : Row, x ∈ A ↔ (x.scope = .global ∧ (x.command, x.entry) ∈ g.plugins ∧ (x.overridden = true ↔ x.command ∈ ys.map Prod.fst))) →
    ∃ B : List Row, xs.foldl (addRow g) (A ++ ys.map (row .project)) = B ++ (ys ++ xs).map (row .project) ∧ B.map Row.command = names g ∧
      ∀ x : Row, x ∈ B ↔ (x.scope = .global ∧ (x.command, x.entry) ∈ g.plugins ∧ (x.overridden = true ↔ x.command ∈ (ys ++ xs).map Prod.fst))
  | [], ys, _, A, hA, hm => ⟨A, by simp, hA, by simpa using hm⟩
  | z :: xs, ys, hn, A, hA, hm => by
    have hz : z.1 ∉ ys.map Prod.fst := by
      intro h
      have := (List.nodup_append.1 (by simpa using hn : (ys.map Prod.fst ++ z.1 :: xs.map Prod.fst).Nodup)).2.2 z.1 h z.1 List.mem_cons_self
      exact this rfl
    have mark_append : ∀ {l m : List Row}, z.1 ∈ l.map Row.command → mark z.1 (l ++ m) = mark z.1 l ++ m := by
      intro l
      induction l with
      | nil => intro m h; simp at h
      | cons y l ih =>
        intro m h
        by_cases hy : y.command = z.1
        · simp [mark, hy]
        · have : z.1 ∈ l.map Row.command := by
            rcases List.mem_cons.1 h with e | h
            · exact absurd e.symm hy
            · exact h
          simp [mark, hy, ih this]
    have hlist : ys ++ z :: xs = (ys ++ [z]) ++ xs := by simp
    rw [List.foldl_cons, hlist]
    have hn' : (((ys ++ [z]) ++ xs).map Prod.fst).Nodup := by rw [← hlist]; exact hn
    by_cases hs : z.1 ∈ names g
    · have hsome : (get g z.1).isSome = true := by
        match h : get g z.1 with
        | some _ => rfl
        | none => exact absurd hs (get_none.1 h)
      have e1 : addRow g (A ++ ys.map (row .project)) z = mark z.1 A ++ (ys ++ [z]).map (row .project) := by
        simp only [addRow, hsome, if_true, List.map_append, List.map_cons, List.map_nil]
        rw [mark_append (by rw [hA]; exact hs), List.append_assoc]
      rw [e1]
      refine fold_rows hg hn' (by rw [mark_command, hA]) fun x => ?_
      have hAn : (A.map Row.command).Nodup := by rw [hA]; exact hg
      rw [mem_mark hAn]
      by_cases hx : x.command = z.1
      · simp only [hx, if_true, List.map_append, List.mem_append, List.map_cons, List.map_nil, List.mem_singleton, or_true, iff_true]
        constructor
        · rintro ⟨ho, b, hb⟩
          obtain ⟨h1, h2, _⟩ := (hm _).1 hb
          exact ⟨h1, by simpa [hx] using h2, ho⟩
        · rintro ⟨h1, h2, ho⟩
          refine ⟨ho, false, (hm _).2 ⟨h1, by simpa [hx] using h2, ?_⟩⟩
          simpa [hx] using hz
      · simp only [hx, if_false, hm x, List.map_append, List.mem_append, List.map_cons, List.map_nil, List.mem_singleton, or_false]
    · have hnone : (get g z.1).isSome = false := by rw [get_none.2 hs]; rfl
      have e1 : addRow g (A ++ ys.map (row .project)) z = A ++ (ys ++ [z]).map (row .project) := by
        simp [addRow, hnone]
      rw [e1]
      refine fold_rows hg hn' hA fun x => ?_
      rw [hm x]
      refine and_congr_right fun _ => and_congr_right fun h2 => ?_
      have hx : x.command ≠ z.1 := fun e => hs (e ▸ List.mem_map.2 ⟨_, h2, rfl⟩)
      simp [hx]

/-- Every registered plugin has a line and no other; a global one is marked exactly if the project has its own. -/
theorem line_iff {g : Reg} {p : Option Reg} (hg : g.Ok) (hp : ∀ r ∈ p, r.Ok) {x : Row} :
    x ∈ allPlugins g p ↔ Has g p x.command x.entry x.scope ∧ (x.overridden = true ↔ x.scope = .global ∧ ∃ r ∈ p, x.command ∈ names r) := by
  have base : ∀ x : Row, x ∈ g.plugins.map (row .global) ↔ (x.scope = .global ∧ (x.command, x.entry) ∈ g.plugins ∧ (x.overridden = true ↔ x.command ∈ ([] : List (Nat × Entry)).map Prod.fst)) := by
    intro x
    simp only [List.mem_map, row, List.map_nil, List.not_mem_nil, iff_false, Bool.not_eq_true]
    constructor
    · rintro ⟨y, hy, rfl⟩; exact ⟨rfl, hy, rfl⟩
    · rintro ⟨h1, h2, h3⟩
      exact ⟨_, h2, by cases x; simp_all⟩
  simp only [allPlugins, List.mem_mergeSort]
  cases p with
  | none =>
    rw [base]
    cases hs : x.scope <;> simp [Has]
  | some r =>
    have hr := hp r rfl
    obtain ⟨B, e, _, hB⟩ := fold_rows hg (xs := r.plugins) (ys := []) (by simpa [Reg.Ok, names] using hr) (A := g.plugins.map (row .global)) (by simp [names, row]) base
    simp only [List.map_nil, List.append_nil, List.nil_append] at e hB
    simp only [e]
    rw [List.mem_append, hB]
    cases hs : x.scope with
    | global =>
      simp only [Has, true_and, Option.mem_some_iff, exists_eq_left', names, List.mem_map (f := row .project)]
      constructor
      · rintro (h | ⟨y, _, rfl⟩)
        · exact h
        · simp [row] at hs
      · exact Or.inl
    | project =>
      simp only [Has, reduceCtorEq, false_and, false_or, iff_false, Bool.not_eq_true, Option.some.injEq, exists_eq_left', List.mem_map (f := row .project)]
      constructor
      · rintro ⟨y, hy, rfl⟩; exact ⟨hy, rfl⟩
      · rintro ⟨h1, h2⟩
        exact ⟨_, h1, by cases x; simp_all [row]⟩

/-- If the project inherits, the lines not marked are exactly what is found. -/
theorem line_is_found_partial {g : Reg} {p : Option Reg} (hg : g.Ok) (hp : ∀ r ∈ p, r.Ok) (hi : ∀ r ∈ p, r.inherit = true) {c : Nat} {e : Entry} {s : Scope} :
    { command := c, entry := e, scope := s, overridden := false } ∈ allPlugins g p ↔ resolve g p c = some (e, s) := by
  rw [line_iff hg hp, resolve_iff hg hp]
  refine and_congr_right fun _ => ?_
  simp only [Bool.false_eq_true, false_iff, not_and, not_exists]
  exact imp_congr_right fun _ => forall_congr' fun r => ⟨fun h hr => ⟨h hr, hi r hr⟩, fun h hr => (h hr).1⟩

/-! ### Verifying -/

/-- The binary is there and has the checksum recorded. -/
def Sound (H : Nat → Nat) (files : Nat → Option Nat) (e : Entry) : Prop := ∃ b, files e.binary = some b ∧ H b = e.checksum

theorem verifyOne_valid {H : Nat → Nat} {files : Nat → Option Nat} {r : Reg} (hr : r.Ok) {c : Nat} {e : Entry} (h : (c, e) ∈ r.plugins) :
    verifyOne H files r c = .valid ↔ Sound H files e := by
  rw [verifyOne, (get_iff hr).2 h]
  simp only [Sound]
  match hf : files e.binary with
  | none => simp
  | some b => by_cases hb : H b = e.checksum <;> simp [hb]

theorem foldl_ok {α : Type} (sel ok : α → Bool) : ∀ (l : List α) (b : Bool),
    l.foldl (fun b x => if sel x then (if ok x = true then b else false) else b) b = (b && (l.filter sel).all ok)
  | [], b => by simp
  | x :: l, b => by
    rw [List.foldl_cons, foldl_ok]
    by_cases hs : sel x
    · by_cases ho : ok x = true
      · simp [hs, ho]
      · simp [hs, ho]
    · simp [hs]

/-- The verdict is the same with `--json`. -/
theorem json_same (H : Nat → Nat) (files : Nat → Option Nat) (g : Reg) (p : Option Reg) (name : Option Nat) :
    verifyCmd H files g p name true = verifyCmd H files g p name false := by
  have e : ∀ s : Status, (s = .valid) = ((s == .valid) = true) := by simp
  simp only [verifyCmd, if_true, Bool.false_eq_true, if_false, e, foldl_ok, Bool.true_and]
  by_cases h : (verifyAll H files g p).isEmpty = true
  · simp [List.isEmpty_iff.1 h]
  · simp only [h, Bool.false_eq_true, if_false]

/-- Verifying succeeds exactly if every registered plugin, or every one of the name given, has its binary with the
checksum recorded. -/
theorem verify_iff {H : Nat → Nat} {files : Nat → Option Nat} {g : Reg} {p : Option Reg} (hg : g.Ok) (hp : ∀ r ∈ p, r.Ok) {name : Option Nat} {json : Bool} :
    verifyCmd H files g p name json = true ↔ ∀ c e s, Has g p c e s → (∀ n ∈ name, c = n) → Sound H files e := by
  have hj : verifyCmd H files g p name json = verifyCmd H files g p name true := by cases json <;> simp [json_same]
  rw [hj]
  simp only [verifyCmd, if_true, List.all_eq_true, List.mem_filter, beq_iff_eq, verifyAll]
  have hsel : ∀ c : Nat, selected name c = true ↔ ∀ n ∈ name, c = n := by
    intro c; cases name <;> simp [selected]
  constructor
  · intro h c e s hh hc
    cases s with
    | global =>
      have hm : (c, e) ∈ g.plugins := hh
      exact (verifyOne_valid hg hm).1 (h (c, .global, verifyOne H files g c)
        ⟨List.mem_append.2 (Or.inl (List.mem_map.2 ⟨c, List.mem_map.2 ⟨_, hm, rfl⟩, rfl⟩)), (hsel c).2 hc⟩)
    | project =>
      obtain ⟨r, rfl, hm⟩ := hh
      exact (verifyOne_valid (hp r rfl) hm).1 (h (c, .project, verifyOne H files r c)
        ⟨List.mem_append.2 (Or.inr (List.mem_map.2 ⟨c, List.mem_map.2 ⟨_, hm, rfl⟩, rfl⟩)), (hsel c).2 hc⟩)
  · rintro h x ⟨hx, hc⟩
    rcases List.mem_append.1 hx with hx | hx
    · obtain ⟨c, hm, rfl⟩ := List.mem_map.1 hx
      obtain ⟨y, hy, rfl⟩ := List.mem_map.1 hm
      exact (verifyOne_valid hg hy).2 (h _ _ .global hy ((hsel _).1 hc))
    · cases p with
      | none => simp at hx
      | some r =>
        obtain ⟨c, hm, rfl⟩ := List.mem_map.1 hx
        obtain ⟨y, hy, rfl⟩ := List.mem_map.1 hm
        exact (verifyOne_valid (hp r rfl) hy).2 (h _ _ .project ⟨r, rfl, hy⟩ ((hsel _).1 hc))

/-- Verifying a plugin that is not installed, or is disabled, succeeds. -/
theorem unknown_verified {H : Nat → Nat} {files : Nat → Option Nat} {g : Reg} {p : Option Reg} (hg : g.Ok) (hp : ∀ r ∈ p, r.Ok) {n : Nat} {json : Bool}
    (h1 : n ∉ names g) (h2 : ∀ r ∈ p, n ∉ names r) : verifyCmd H files g p (some n) json = true := by
  rw [verify_iff hg hp]
  intro c e s hh hc
  have hc := hc n rfl
  subst hc
  cases s with
  | global => exact absurd (List.mem_map.2 ⟨_, hh, rfl⟩) h1
  | project =>
    obtain ⟨r, hr, hm⟩ := hh
    exact absurd (List.mem_map.2 ⟨_, hm, rfl⟩) (h2 r hr)

/-! ### Searching -/

/-- The filter of the search (commands/plugin.rs:24-41); `hit` is whether the text is found in a plugin, `known` the
category a name stands for, if any (`parse_category`, commands/plugin.rs:77-93). -/
def search {α : Type} (hit : α → Bool) (cat : α → Nat) (known : Nat → Option Nat) (category : Option Nat) (all : List α) : List α :=
  let f := category.bind known
  all.filter fun p => hit p && (match f with | none => true | some k => cat p == k)

/-- With a category that is known, or none, exactly the plugins found that are of it, in order. -/
theorem search_mem {α : Type} {hit : α → Bool} {cat : α → Nat} {known : Nat → Option Nat} {category : Option Nat} (hk : ∀ c ∈ category, (known c).isSome) {all : List α} {x : α} :
    x ∈ search hit cat known category all ↔ x ∈ all ∧ hit x = true ∧ ∀ c ∈ category, known c = some (cat x) := by
  cases category with
  | none => simp [search]
  | some c =>
    obtain ⟨k, hk⟩ := Option.isSome_iff_exists.1 (hk c rfl)
    simp only [search, Option.bind_some, hk, List.mem_filter, Bool.and_eq_true, beq_iff_eq, Option.mem_some_iff, forall_eq', Option.some.injEq]
    rw [eq_comm (a := k)]

/-- With a category that is not known the category is ignored: plugins of every category are found. -/
theorem search_unknown {α : Type} {hit : α → Bool} {cat : α → Nat} {known : Nat → Option Nat} {c : Nat} (hk : known c = none) {all : List α} :
    search hit cat known (some c) all = all.filter hit := by
  simp [search, hk]

/-- A global plugin overridden by the project, one that is not, and one of the project alone. -/
example : [(7, { binary := 3, checksum := 13 }), (5, { binary := 4, checksum := 14 })].foldl
    (addRow { plugins := [(7, { binary := 1, checksum := 11 }), (3, { binary := 2, checksum := 12 })] })
    ([(7, { binary := 1, checksum := 11 }), (3, { binary := 2, checksum := 12 })].map (row .global)) =
    [⟨7, ⟨1, 11⟩, .global, true⟩, ⟨3, ⟨2, 12⟩, .global, false⟩, ⟨7, ⟨3, 13⟩, .project, false⟩, ⟨5, ⟨4, 14⟩, .project, false⟩] := by decide +kernel

example : ({ plugins := [(7, { binary := 1, checksum := 11 }), (3, { binary := 2, checksum := 12 })] } : Reg).Ok := by simp [Reg.Ok, names]

end Horus.Pkg.PluginList
