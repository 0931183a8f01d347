/-
The lockfile `horus.lock`: pins, staleness, and what the commands do to it.

Modelled source: horus_manager/src/lockfile.rs (150-224, 274-279),
horus_manager/src/commands/run/install.rs (328-396, 824-850),
horus_manager/src/main.rs (2382-2444) and
horus_manager/src/commands/pkg.rs (1701-1722).
-/
import Mathlib.Data.List.Induction
import Mathlib.Data.List.Sort
import Mathlib.Order.Defs.LinearOrder
import Mathlib.Tactic.Common

namespace Horus.Pkg.Lock

/-! ### Model -/

variable {κ : Type} [LinearOrder κ]

/-- One pinned package.

Models `LockedPackage` at horus_manager/src/lockfile.rs:125-141.
Simplified: names and sources are elements of any linear order `κ` (Rust
strings compared bytewise are one), versions and checksums are `String`s that
are only stored. -/
structure Pkg (κ : Type) where
  name : κ
  source : κ
  version : String
  checksum : Option String
  deriving DecidableEq

/-- The comparison used to keep the list sorted: by source, then by name.

Models the `sort_by` closure at horus_manager/src/lockfile.rs:221-222. -/
def keyLe (a b : Pkg κ) : Prop := a.source < b.source ∨ (a.source = b.source ∧ a.name ≤ b.name)

instance : DecidableRel (keyLe (κ := κ)) := fun a b => by unfold keyLe; infer_instance

/-- Overwrite the version and checksum of the first entry with this name and
source, or append a new entry at the end.

Models the update-or-push at horus_manager/src/lockfile.rs:205-219. -/
def upsert (n s : κ) (v : String) (c : Option String) : List (Pkg κ) → List (Pkg κ)
  | [] => [⟨n, s, v, c⟩]
  | p :: r => if p.name = n ∧ p.source = s then { p with version := v, checksum := c } :: r else p :: upsert n s v c r

/-- Add or update a pin and sort.

Models `HorusLockfile::pin` at horus_manager/src/lockfile.rs:203-223.  Rust's
`sort_by` is stable, and so is insertion sort. -/
def pin (n s : κ) (v : String) (c : Option String) (l : List (Pkg κ)) : List (Pkg κ) :=
  (upsert n s v c l).insertionSort keyLe

/-- The pin of a package, if any.

Models the lookup of `get_pinned` at horus_manager/src/lockfile.rs:235-240
(with the checksum kept as well). -/
def get (l : List (Pkg κ)) (n s : κ) : Option (String × Option String) :=
  (l.find? (fun p => decide (p.name = n ∧ p.source = s))).map (fun p => (p.version, p.checksum))

/-- Drop every pin of a package, whatever its source.

Models the `retain` of `remove_from_horus_lock` at
horus_manager/src/commands/pkg.rs:1715-1716. -/
def removeName (n : κ) (l : List (Pkg κ)) : List (Pkg κ) := l.filter (fun p => decide (p.name ≠ n))

/-! ### Pins -/

theorem keyLe_total (a b : Pkg κ) : keyLe a b ∨ keyLe b a := by
  unfold keyLe
  rcases lt_trichotomy a.source b.source with h | h | h
  · exact Or.inl (Or.inl h)
  · rcases le_total a.name b.name with h' | h'
    · exact Or.inl (Or.inr ⟨h, h'⟩)
    · exact Or.inr (Or.inr ⟨h.symm, h'⟩)
  · exact Or.inr (Or.inl h)

theorem keyLe_trans {a b c : Pkg κ} (h : keyLe a b) (h' : keyLe b c) : keyLe a c := by
  unfold keyLe at *
  rcases h with h | ⟨h, h1⟩ <;> rcases h' with h' | ⟨h', h2⟩
  · exact Or.inl (h.trans h')
  · exact Or.inl (h' ▸ h)
  · exact Or.inl (h ▸ h')
  · exact Or.inr ⟨h.trans h', h1.trans h2⟩

theorem keyLe_antisymm {a b : Pkg κ} (h : keyLe a b) (h' : keyLe b a) : a.name = b.name ∧ a.source = b.source := by
  unfold keyLe at *
  rcases h with h | ⟨h, h1⟩ <;> rcases h' with h' | ⟨h', h2⟩
  · exact absurd (h.trans h') (lt_irrefl _)
  · exact absurd (h' ▸ h) (lt_irrefl _)
  · exact absurd (h ▸ h') (lt_irrefl _)
  · exact ⟨le_antisymm h1 h2, h⟩

instance : Std.Total (keyLe (κ := κ)) := ⟨keyLe_total⟩
instance : IsTrans (Pkg κ) keyLe := ⟨fun _ _ _ => keyLe_trans⟩

/-- Sorting keeps the entries of one key in their order. -/
theorem find_orderedInsert (n s : κ) (a : Pkg κ) (l : List (Pkg κ)) :
    (l.orderedInsert keyLe a).find? (fun p => decide (p.name = n ∧ p.source = s)) =
      (a :: l).find? (fun p => decide (p.name = n ∧ p.source = s)) := by
  induction l with
  | nil => rfl
  | cons b r ih =>
    rw [List.orderedInsert_cons]
    split
    · rfl
    · rename_i hab
      rw [List.find?_cons, ih]
      by_cases hb : b.name = n ∧ b.source = s
      · have ha : ¬ (a.name = n ∧ a.source = s) := by
          rintro ⟨h1, h2⟩
          exact hab (Or.inr ⟨h2.trans hb.2.symm, le_of_eq (h1.trans hb.1.symm)⟩)
        simp [List.find?_cons, hb, ha]
      · simp [List.find?_cons, hb]

theorem find_sort (n s : κ) (l : List (Pkg κ)) :
    (l.insertionSort keyLe).find? (fun p => decide (p.name = n ∧ p.source = s)) =
      l.find? (fun p => decide (p.name = n ∧ p.source = s)) := by
  induction l with
  | nil => rfl
  | cons a r ih =>
    rw [List.insertionSort_cons, find_orderedInsert, List.find?_cons, List.find?_cons, ih]

theorem find_upsert (n s n' s' : κ) (v : String) (c : Option String) (l : List (Pkg κ)) :
    get (upsert n s v c l) n' s' = if n' = n ∧ s' = s then some (v, c) else get l n' s' := by
  unfold get
  induction l with
  | nil =>
    unfold upsert
    by_cases h : n' = n ∧ s' = s
    · simp [h.1, h.2]
    · have : ¬ (n = n' ∧ s = s') := fun x => h ⟨x.1.symm, x.2.symm⟩
      simp [List.find?_cons, h, this]
  | cons p r ih =>
    rw [upsert]
    by_cases hp : p.name = n ∧ p.source = s
    · rw [if_pos hp]
      by_cases h : n' = n ∧ s' = s
      · simp [h.1, h.2, hp.1, hp.2]
      · have : ¬ (n = n' ∧ s = s') := fun x => h ⟨x.1.symm, x.2.symm⟩
        simp [List.find?_cons, hp.1, hp.2, h, this]
    · rw [if_neg hp, List.find?_cons, List.find?_cons]
      by_cases hq : p.name = n' ∧ p.source = s'
      · have : ¬ (n' = n ∧ s' = s) := fun x => hp ⟨hq.1.trans x.1, hq.2.trans x.2⟩
        simp [hq, this]
      · simp only [hq, decide_false, ih]

/-- Specification: after pinning, a lookup gives the new pin for that package
and source, and what it gave before for every other. -/
theorem get_pin (n s n' s' : κ) (v : String) (c : Option String) (l : List (Pkg κ)) :
    get (pin n s v c l) n' s' = if n' = n ∧ s' = s then some (v, c) else get l n' s' := by
  rw [← find_upsert]
  unfold pin get
  rw [find_sort]

/-- Removing a package removes all its pins and no other. -/
theorem get_remove (n n' s' : κ) (l : List (Pkg κ)) :
    get (removeName n l) n' s' = if n' = n then none else get l n' s' := by
  unfold get removeName
  induction l with
  | nil => simp
  | cons p r ih =>
    by_cases hp : p.name = n
    · rw [List.filter_cons_of_neg (by simp [hp]), ih, List.find?_cons]
      by_cases h : n' = n
      · simp [h]
      · have : ¬ (p.name = n' ∧ p.source = s') := fun x => h (x.1.symm.trans hp)
        simp [h, this]
    · rw [List.filter_cons_of_pos (by simp [hp]), List.find?_cons, List.find?_cons]
      by_cases hq : p.name = n' ∧ p.source = s'
      · have : n' ≠ n := fun x => hp (hq.1.trans x)
        simp [hq, this]
      · simp only [hq, decide_false, ih]

/-- The list is in its canonical form: sorted by source and name, one entry
for each. -/
def Canonical (l : List (Pkg κ)) : Prop :=
  l.Pairwise (fun a b => a.source < b.source ∨ (a.source = b.source ∧ a.name < b.name))

theorem strict_of {a b : Pkg κ} (h : keyLe a b) (h' : ¬ (a.name = b.name ∧ a.source = b.source)) :
    a.source < b.source ∨ (a.source = b.source ∧ a.name < b.name) := by
  rcases h with h | ⟨h1, h2⟩
  · exact Or.inl h
  · exact Or.inr ⟨h1, lt_of_le_of_ne h2 (fun x => h' ⟨x, h1⟩)⟩

theorem strict_ne {a b : Pkg κ} (h : a.source < b.source ∨ (a.source = b.source ∧ a.name < b.name)) :
    ¬ (a.name = b.name ∧ a.source = b.source) := by
  rintro ⟨h1, h2⟩
  rcases h with h | ⟨_, h⟩
  · exact absurd (h2 ▸ h) (lt_irrefl _)
  · exact absurd (h1 ▸ h) (lt_irrefl _)

/-- No two entries share name and source. -/
def UniqueKeys (l : List (Pkg κ)) : Prop := l.Pairwise (fun a b => ¬ (a.name = b.name ∧ a.source = b.source))

theorem mem_upsert {n s : κ} {v : String} {c : Option String} {l : List (Pkg κ)} {q : Pkg κ}
    (h : q ∈ upsert n s v c l) : (q.name = n ∧ q.source = s) ∨ q ∈ l := by
  induction l with
  | nil =>
    rw [upsert, List.mem_singleton] at h
    exact Or.inl ⟨by rw [h], by rw [h]⟩
  | cons p r ih =>
    rw [upsert] at h
    split at h
    · rename_i hp
      rcases List.mem_cons.1 h with h | h
      · exact Or.inl ⟨by rw [h]; exact hp.1, by rw [h]; exact hp.2⟩
      · exact Or.inr (List.mem_cons_of_mem _ h)
    · rcases List.mem_cons.1 h with h | h
      · exact Or.inr (by rw [h]; exact List.mem_cons_self)
      · exact (ih h).imp id (List.mem_cons_of_mem _)

theorem unique_upsert {n s : κ} {v : String} {c : Option String} {l : List (Pkg κ)} (h : UniqueKeys l) :
    UniqueKeys (upsert n s v c l) := by
  induction l with
  | nil => exact List.pairwise_singleton _ _
  | cons p r ih =>
    have h0 := List.pairwise_cons.1 h
    rw [upsert]
    split
    · exact List.pairwise_cons.2 ⟨fun q hq => h0.1 q hq, h0.2⟩
    · rename_i hp
      refine List.pairwise_cons.2 ⟨fun q hq => ?_, ih h0.2⟩
      rcases mem_upsert hq with hq | hq
      · exact fun x => hp ⟨x.1.trans hq.1, x.2.trans hq.2⟩
      · exact h0.1 q hq

theorem canonical_unique {l : List (Pkg κ)} (h : Canonical l) : UniqueKeys l := h.imp (fun h => strict_ne h)

theorem unique_sort {l : List (Pkg κ)} (h : UniqueKeys l) : Canonical (l.insertionSort keyLe) := by
  have hu : UniqueKeys (l.insertionSort keyLe) :=
    ((List.perm_insertionSort keyLe l).pairwise_iff (fun h x => h ⟨x.1.symm, x.2.symm⟩)).2 h
  exact ((List.pairwise_insertionSort keyLe l).and hu).imp (fun h => strict_of h.1 h.2)

/-- Pinning keeps the canonical form. -/
theorem pin_canonical (n s : κ) (v : String) (c : Option String) {l : List (Pkg κ)} (h : Canonical l) :
    Canonical (pin n s v c l) := unique_sort (unique_upsert (canonical_unique h))

theorem remove_canonical (n : κ) {l : List (Pkg κ)} (h : Canonical l) : Canonical (removeName n l) :=
  h.sublist List.filter_sublist

/-- The pin operations of a program run. -/
inductive Op (κ : Type) where
  | pin (n s : κ) (v : String) (c : Option String)
  | remove (n : κ)

/-- Apply a history of pin operations to a list of pins.  Not a function of
the code: it composes `pin` and `removeName`. -/
def run : List (Op κ) → List (Pkg κ) → List (Pkg κ)
  | [], l => l
  | .pin n s v c :: r, l => run r (pin n s v c l)
  | .remove n :: r, l => run r (removeName n l)

/-- Specification: the pin a history leaves for a package and source, reading
the history from its newest operation. -/
def wanted (n s : κ) : List (Op κ) → Option (String × Option String)
  | [] => none
  | .pin n' s' v c :: r => if n = n' ∧ s = s' then some (v, c) else wanted n s r
  | .remove n' :: r => if n = n' then none else wanted n s r

theorem run_append (a b : List (Op κ)) (l : List (Pkg κ)) : run (a ++ b) l = run b (run a l) := by
  induction a generalizing l with
  | nil => rfl
  | cons o r ih => cases o <;> exact ih _

/-- After any history, the lookup gives the newest pin that was not removed
since. -/
theorem get_run (ops : List (Op κ)) (n s : κ) : get (run ops []) n s = wanted n s ops.reverse := by
  induction ops using List.reverseRecOn with
  | nil => rfl
  | append_singleton r o ih =>
    rw [run_append, List.reverse_append, List.reverse_singleton, List.singleton_append]
    cases o with
    | pin n' s' v c =>
      show get (pin n' s' v c (run r [])) n s = _
      rw [get_pin, ih]; rfl
    | remove n' =>
      show get (removeName n' (run r [])) n s = _
      rw [get_remove, ih]; rfl

/-- After any history, the list is in canonical form. -/
theorem run_canonical (ops : List (Op κ)) : Canonical (run ops []) := by
  induction ops using List.reverseRecOn with
  | nil => exact List.Pairwise.nil
  | append_singleton r o ih =>
    rw [run_append]
    cases o with
    | pin n s v c => exact pin_canonical n s v c ih
    | remove n => exact remove_canonical n ih

theorem get_of_mem {l : List (Pkg κ)} (h : UniqueKeys l) {p : Pkg κ} (hp : p ∈ l) :
    get l p.name p.source = some (p.version, p.checksum) := by
  unfold get
  induction l with
  | nil => cases hp
  | cons a r ih =>
    have h0 := List.pairwise_cons.1 h
    rw [List.find?_cons]
    rcases List.mem_cons.1 hp with hp | hp
    · subst hp; simp
    · have := h0.1 p hp
      simp only [this, decide_false]
      exact ih h0.2 hp

theorem mem_of_get {l : List (Pkg κ)} {n s : κ} {v : String} {c : Option String} (h : get l n s = some (v, c)) :
    (⟨n, s, v, c⟩ : Pkg κ) ∈ l := by
  unfold get at h
  obtain ⟨p, hp, hv⟩ := Option.map_eq_some_iff.1 h
  have h1 := List.find?_some hp
  have h2 := List.mem_of_find?_eq_some hp
  simp only [decide_eq_true_eq] at h1
  obtain ⟨h3, h4⟩ := Prod.mk.inj hv
  rw [← h1.1, ← h1.2, ← h3, ← h4]
  exact h2

/-- Two canonical lists with the same lookups are the same list. -/
theorem canonical_ext {l l' : List (Pkg κ)} (h : Canonical l) (h' : Canonical l') (hg : ∀ n s, get l n s = get l' n s) :
    l = l' := by
  have hm : ∀ p, p ∈ l ↔ p ∈ l' := by
    intro p
    constructor
    · intro hp
      have := get_of_mem (canonical_unique h) hp
      rw [hg] at this
      exact mem_of_get this
    · intro hp
      have := get_of_mem (canonical_unique h') hp
      rw [← hg] at this
      exact mem_of_get this
  have hn : ∀ {l : List (Pkg κ)}, Canonical l → l.Nodup := fun {l} h => List.Pairwise.imp (fun {a b} h (e : a = b) => strict_ne h ⟨by rw [e], by rw [e]⟩) h
  have hp : l.Perm l' := (List.perm_ext_iff_of_nodup (hn h) (hn h')).2 hm
  refine hp.eq_of_pairwise ?_ h h'
  intro a b _ _ h1 h2
  exfalso
  rcases h1 with h1 | ⟨e1, h1⟩ <;> rcases h2 with h2 | ⟨e2, h2⟩
  · exact lt_irrefl _ (h1.trans h2)
  · exact lt_irrefl _ (e2 ▸ h1)
  · exact lt_irrefl _ (e1 ▸ h2)
  · exact lt_irrefl _ (h1.trans h2)

/-- **Reproducible order.**  Two histories that leave the same pins leave the
same list, whatever order the pins were added in. -/
theorem same_pins_same_file (a b : List (Op κ)) (h : ∀ n s, wanted n s a.reverse = wanted n s b.reverse) :
    run a [] = run b [] :=
  canonical_ext (run_canonical a) (run_canonical b) (fun n s => by rw [get_run, get_run, h])

example : run [.pin 2 1 "a" none, .pin 1 1 "b" none, .pin 2 0 "c" none, .pin 2 1 "d" none] [] =
    [(⟨2, 0, "c", none⟩ : Pkg Nat), ⟨1, 1, "b", none⟩, ⟨2, 1, "d", none⟩] := by decide +kernel
example : run [.pin 2 1 "a" none, .pin 1 1 "b" none, .remove 2] [] = [(⟨1, 1, "b", none⟩ : Pkg Nat)] := by decide +kernel

/-! ### Staleness -/

/-- The lines hashed for the staleness check, joined with newlines.

Models `sorted_deps.join("\n")` at
horus_manager/src/commands/run/install.rs:354.  Bytes are numbers; 10 is the
newline. -/
def join : List (List Nat) → List Nat
  | [] => []
  | [x] => x
  | x :: y :: r => x ++ 10 :: join (y :: r)

/-- Bytewise order of strings.  Models `Ord for str` as used by
`sort_unstable` at horus_manager/src/commands/run/install.rs:353. -/
def strLe : List Nat → List Nat → Bool
  | [], _ => true
  | _ :: _, [] => false
  | a :: r, b :: s => if a < b then true else if b < a then false else strLe r s

/-- The text whose hash is recorded: the manifest, a newline, and the sorted
imported dependencies.

Models horus_manager/src/commands/run/install.rs:343-355. -/
def hashInput (toml : List Nat) (deps : List (List Nat)) : List Nat :=
  toml ++ 10 :: join (deps.insertionSort (fun a b => strLe a b = true))

/-- Whether the recorded hash differs from the current one.

Models `is_stale` at horus_manager/src/lockfile.rs:195-200. -/
def isStale {η : Type} [DecidableEq η] (recorded : Option η) (current : η) : Bool :=
  match recorded with
  | some h => decide (h ≠ current)
  | none => true

theorem strLe_refl (a : List Nat) : strLe a a = true := by
  induction a with
  | nil => rfl
  | cons x r ih => simp [strLe, ih]

theorem strLe_total (a b : List Nat) : strLe a b = true ∨ strLe b a = true := by
  induction a generalizing b with
  | nil => exact Or.inl rfl
  | cons x r ih =>
    cases b with
    | nil => exact Or.inr rfl
    | cons y s =>
      rcases lt_trichotomy x y with h | h | h
      · simp [strLe, h]
      · subst h; simpa [strLe] using ih s
      · simp [strLe, h]

theorem strLe_antisymm (a b : List Nat) (h : strLe a b = true) (h' : strLe b a = true) : a = b := by
  induction a generalizing b with
  | nil =>
    cases b with
    | nil => rfl
    | cons y s => simp [strLe] at h'
  | cons x r ih =>
    cases b with
    | nil => simp [strLe] at h
    | cons y s =>
      rcases lt_trichotomy x y with hl | hl | hl
      · have : ¬ y < x := by omega
        simp [strLe, hl, this] at h'
      · subst hl
        simp [strLe] at h h'
        rw [ih s h h']
      · have : ¬ x < y := by omega
        simp [strLe, hl, this] at h

theorem strLe_trans (a b c : List Nat) (h : strLe a b = true) (h' : strLe b c = true) : strLe a c = true := by
  induction a generalizing b c with
  | nil => rfl
  | cons x r ih =>
    cases b with
    | nil => simp [strLe] at h
    | cons y s =>
      cases c with
      | nil => simp [strLe] at h'
      | cons z t =>
        simp only [strLe] at *
        split at h
        · split at h'
          · rw [if_pos (by omega)]
          · split at h'
            · cases h'
            · rw [if_pos (by omega)]
        · split at h
          · cases h
          · split at h'
            · rw [if_pos (by omega)]
            · split at h'
              · cases h'
              · rw [if_neg (by omega), if_neg (by omega)]; exact ih s t h h'

instance : Std.Total (fun a b => strLe a b = true) := ⟨strLe_total⟩
instance : IsTrans (List Nat) (fun a b => strLe a b = true) := ⟨strLe_trans⟩

/-- **The set of dependencies is what counts.**  The hashed text does not
depend on the order in which the dependency set is enumerated. -/
theorem hash_order_irrelevant (toml : List Nat) {a b : List (List Nat)} (h : a.Perm b) : hashInput toml a = hashInput toml b := by
  have : a.insertionSort (fun a b => strLe a b = true) = b.insertionSort (fun a b => strLe a b = true) := by
    refine List.Perm.eq_of_pairwise (le := fun a b => strLe a b = true) ?_ (List.pairwise_insertionSort _ _) (List.pairwise_insertionSort _ _) ?_
    · intro x y _ _ h1 h2; exact strLe_antisymm x y h1 h2
    · exact (List.perm_insertionSort _ _).trans (h.trans (List.perm_insertionSort _ _).symm)
  unfold hashInput
  rw [this]

theorem split_nl : ∀ (x y r s : List Nat), 10 ∉ x → 10 ∉ y → x ++ 10 :: r = y ++ 10 :: s → x = y ∧ r = s
  | [], [], r, s, _, _, h => by simpa using h
  | [], y :: ys, r, s, _, hy, h => by
      simp only [List.nil_append, List.cons_append, List.cons.injEq] at h
      exact absurd (by rw [h.1]; exact List.mem_cons_self) hy
  | x :: xs, [], r, s, hx, _, h => by
      simp only [List.nil_append, List.cons_append, List.cons.injEq] at h
      exact absurd (by rw [h.1]; exact List.mem_cons_self) hx
  | x :: xs, y :: ys, r, s, hx, hy, h => by
      simp only [List.cons_append, List.cons.injEq] at h
      obtain ⟨h1, h2⟩ := split_nl xs ys r s (fun h => hx (List.mem_cons_of_mem _ h)) (fun h => hy (List.mem_cons_of_mem _ h)) h.2
      exact ⟨by rw [h.1, h1], h2⟩

theorem join_inj : ∀ (a b : List (List Nat)), (∀ x ∈ a, x ≠ [] ∧ 10 ∉ x) → (∀ x ∈ b, x ≠ [] ∧ 10 ∉ x) → join a = join b → a = b
  | [], [], _, _, _ => rfl
  | [], [y], _, hb, h => absurd h.symm (hb y (by simp)).1
  | [], y :: z :: s, _, _, h => by simp [join] at h
  | [x], [], ha, _, h => absurd h (ha x (by simp)).1
  | x :: x' :: r, [], _, _, h => by simp [join] at h
  | [x], [y], _, _, h => by simp only [join] at h; rw [h]
  | [x], y :: z :: s, ha, _, h => by
      simp only [join] at h
      exact absurd (by rw [h]; simp) (ha x (by simp)).2
  | x :: x' :: r, [y], _, hb, h => by
      simp only [join] at h
      exact absurd (by rw [← h]; simp) (hb y (by simp)).2
  | x :: x' :: r, y :: y' :: s, ha, hb, h => by
      simp only [join] at h
      obtain ⟨h1, h2⟩ := split_nl x y _ _ (ha x (by simp)).2 (hb y (by simp)).2 h
      rw [h1, join_inj (x' :: r) (y' :: s) (fun q hq => ha q (List.mem_cons_of_mem _ hq)) (fun q hq => hb q (List.mem_cons_of_mem _ hq)) h2]

/-- **A new import is noticed.**  With the manifest unchanged, two different
dependency sets (names are non-empty and hold no newline) give different
hashed texts. -/
theorem new_import_noticed_partial (toml : List Nat) (a b : List (List Nat)) (ha : ∀ x ∈ a, x ≠ [] ∧ 10 ∉ x)
    (hb : ∀ x ∈ b, x ≠ [] ∧ 10 ∉ x) (h : hashInput toml a = hashInput toml b) : a.Perm b := by
  unfold hashInput at h
  have h1 : join (a.insertionSort (fun a b => strLe a b = true)) = join (b.insertionSort (fun a b => strLe a b = true)) := by
    have := List.append_cancel_left h
    exact (List.cons.inj this).2
  have h2 := join_inj _ _ (fun x hx => ha x ((List.mem_insertionSort _).1 hx)) (fun x hx => hb x ((List.mem_insertionSort _).1 hx)) h1
  exact (List.perm_insertionSort _ a).symm.trans (h2 ▸ List.perm_insertionSort _ b)

/-- **Finding.**  In general the hashed text does not determine the manifest
and the dependencies: a manifest ending in a line `b` with one import `c`
hashes like the shorter manifest with imports `b` and `c`. -/
theorem hash_text_ambiguous : hashInput [97, 10, 98] [[99]] = hashInput [97] [[98], [99]] := by decide +kernel

/-! ### The file and the commands -/

/-- The parsed file.

Models `HorusLockfile` at horus_manager/src/lockfile.rs:97-122.  Simplified:
toolchain pins, features and system dependencies are kept as opaque values. -/
structure File (κ η : Type) where
  version : Nat
  hash : Option η
  toolchain : Option Nat
  features : List Nat
  packages : List (Pkg κ)
  system : List Nat

/-- What is at `horus.lock`: nothing, something that does not parse, or a
file. -/
inductive Disk (κ η : Type) where
  | absent
  | garbage
  | file (f : File κ η)

/-- A blank lockfile.  Models `HorusLockfile::new` at
horus_manager/src/lockfile.rs:151-160. -/
def blank {η : Type} : File κ η := ⟨4, none, none, [], [], []⟩

/-- Load the lockfile: anything unreadable or older than version 3 is an
error.  Models `load_from` at horus_manager/src/lockfile.rs:163-178. -/
def load {η : Type} : Disk κ η → Option (File κ η)
  | .absent => none
  | .garbage => none
  | .file f => if f.version ≥ 3 then some f else none

/-- `horus lock`: load or start afresh, set the toolchain, save.

Models horus_manager/src/main.rs:2419-2437. -/
def lockCmd {η : Type} (tc : Nat) (d : Disk κ η) : Disk κ η := .file { (load d).getD blank with toolchain := some tc }

/-- The write after a successful resolution: load or start afresh, set the
hash, save.

Models `write_lockfile` at horus_manager/src/commands/run/install.rs:828-850. -/
def writeHash {η : Type} (h : η) (d : Disk κ η) : Disk κ η := .file { (load d).getD blank with hash := some h }

/-- `horus remove`: drop the package's pins; saved only if something was
dropped.

Models `remove_from_horus_lock` at
horus_manager/src/commands/pkg.rs:1702-1722. -/
def removeCmd {η : Type} (n : κ) (d : Disk κ η) : Disk κ η :=
  match load d with
  | none => d
  | some f => if (removeName n f.packages).length < f.packages.length then .file { f with packages := removeName n f.packages } else d

/-- Whether the lockfile loads and records the current hash.

Models the check at horus_manager/src/commands/run/install.rs:358-371. -/
def current {η : Type} [DecidableEq η] (cur : η) (d : Disk κ η) : Bool :=
  match load d with
  | some f => !isStale f.hash cur
  | none => false

/-- A run or build: skip everything if the recorded hash is current, otherwise
resolve and record it.  `resolve` says whether resolution succeeded.  The first
result says whether the dependencies were (re)installed, the second is the
lockfile afterwards; `none` is an error.

Models `resolve_dependencies_with_context` at
horus_manager/src/commands/run/install.rs:328-396. -/
def buildCmd {η : Type} [DecidableEq η] (cur : η) (resolve : Bool) (d : Disk κ η) : Option (Bool × Disk κ η) :=
  if current cur d then some (false, d) else if resolve then some (true, writeHash cur d) else none

theorem current_iff {η : Type} [DecidableEq η] (cur : η) (d : Disk κ η) :
    current cur d = true ↔ ∃ f, load d = some f ∧ f.hash = some cur := by
  unfold current
  cases load d with
  | none => simp
  | some f =>
    unfold isStale
    cases hf : f.hash with
    | none => simp [hf]
    | some h => simp [hf]

theorem load_file {η : Type} (f : File κ η) (h : f.version ≥ 3) : load (.file f) = some f := by
  show (if f.version ≥ 3 then some f else none) = some f
  rw [if_pos h]

theorem load_version {η : Type} {d : Disk κ η} {f : File κ η} (h : load d = some f) : f.version ≥ 3 := by
  cases d with
  | absent => cases h
  | garbage => cases h
  | file g =>
    have h' : (if g.version ≥ 3 then some g else none) = some f := h
    by_cases hv : g.version ≥ 3
    · rw [if_pos hv] at h'; cases h'; exact hv
    · rw [if_neg hv] at h'; cases h'

theorem load_getD_version {η : Type} (d : Disk κ η) : ((load d).getD blank).version ≥ 3 := by
  cases h : load d with
  | none => exact (by decide : 4 ≥ 3)
  | some f => exact load_version h

/-- **A readable lockfile keeps its pins.**  Neither `horus lock` nor a build
touches the package pins, the features or the system dependencies of a
lockfile that loads. -/
theorem pins_kept {η : Type} [DecidableEq η] (d : Disk κ η) (f : File κ η) (h : load d = some f) (tc : Nat) (cur : η) :
    (∃ g, lockCmd tc d = .file g ∧ g.packages = f.packages ∧ g.features = f.features ∧ g.system = f.system ∧ g.hash = f.hash) ∧
    (∀ r d', buildCmd cur true d = some (r, d') → ∃ g, load d' = some g ∧ g.packages = f.packages ∧ g.features = f.features ∧ g.system = f.system ∧ g.toolchain = f.toolchain) := by
  refine ⟨⟨_, rfl, by rw [h]; exact ⟨rfl, rfl, rfl, rfl⟩⟩, ?_⟩
  intro r d' hb
  unfold buildCmd at hb
  by_cases hc : current cur d = true
  · rw [if_pos hc] at hb
    simp only [Option.some.injEq, Prod.mk.injEq] at hb
    rw [← hb.2]
    exact ⟨f, h, rfl, rfl, rfl, rfl⟩
  · rw [if_neg hc, if_pos rfl] at hb
    simp only [Option.some.injEq, Prod.mk.injEq] at hb
    rw [← hb.2, writeHash, h]
    exact ⟨{ f with hash := some cur }, load_file _ (show f.version ≥ 3 from load_version h), rfl, rfl, rfl, rfl⟩

/-- **A skipped build is a current one, and a build leaves the lock current.**
Dependencies are skipped exactly when the lockfile loads and records the
current hash; after a successful build the next one with the same hash
skips. -/
theorem build_skips_iff {η : Type} [DecidableEq η] (cur : η) (res : Bool) (d : Disk κ η) :
    ((∃ d', buildCmd cur res d = some (false, d')) ↔ ∃ f, load d = some f ∧ f.hash = some cur) ∧
    (∀ r d', buildCmd cur res d = some (r, d') → ∃ f, load d' = some f ∧ f.hash = some cur) := by
  constructor
  · rw [← current_iff]
    unfold buildCmd
    by_cases hc : current cur d = true
    · rw [if_pos hc]; exact ⟨fun _ => hc, fun _ => ⟨d, rfl⟩⟩
    · rw [if_neg hc]
      refine ⟨?_, fun h => absurd h hc⟩
      rintro ⟨d', h⟩
      cases res <;> simp at h
  · intro r d' h
    unfold buildCmd at h
    by_cases hc : current cur d = true
    · rw [if_pos hc] at h
      simp only [Option.some.injEq, Prod.mk.injEq] at h
      rw [← h.2]
      exact (current_iff cur d).1 hc
    · rw [if_neg hc] at h
      cases res with
      | false => simp at h
      | true =>
        rw [if_pos rfl] at h
        simp only [Option.some.injEq, Prod.mk.injEq] at h
        rw [← h.2]
        exact ⟨_, load_file _ (load_getD_version d), rfl⟩

example : (buildCmd (κ := Nat) 7 true .absent).map (·.1) = some true := by decide +kernel
example : ((buildCmd (κ := Nat) 7 true .absent).bind (fun x => buildCmd 7 true x.2)).map (·.1) = some false := by decide +kernel
example : ((buildCmd (κ := Nat) 7 true .absent).bind (fun x => buildCmd 8 true x.2)).map (·.1) = some true := by decide +kernel

/-- The commands a user can run on a lockfile. -/
inductive Cmd (κ η : Type) where
  | lock (tc : Nat)
  | build (cur : η) (ok : Bool)
  | remove (n : κ)

/-- Run a command.  Dispatches to the commands above; a failing build leaves
the file as it is. -/
def exec {η : Type} [DecidableEq η] (d : Disk κ η) : Cmd κ η → Disk κ η
  | .lock tc => lockCmd tc d
  | .build cur ok => match buildCmd cur ok d with
    | some (_, d') => d'
    | none => d
  | .remove n => removeCmd n d

/-- The pins on disk. -/
def pinsOf {η : Type} (d : Disk κ η) : List (Pkg κ) := match load d with
  | some f => f.packages
  | none => []

/-- **Finding.**  No command ever adds a package pin: whatever commands are
run on a project without a lockfile, the lockfile holds no package.  (`horus
lock` is described as pinning all dependency versions.) -/
theorem nothing_ever_pinned {η : Type} [DecidableEq η] (cs : List (Cmd κ η)) : pinsOf (cs.foldl exec .absent) = [] := by
  suffices H : ∀ (cs : List (Cmd κ η)) (d : Disk κ η), pinsOf d = [] → pinsOf (cs.foldl exec d) = [] from H cs .absent rfl
  intro cs
  induction cs with
  | nil => exact fun d h => h
  | cons c r ih =>
    intro d h
    refine ih _ ?_
    have hl : ∀ f, load d = some f → f.packages = [] := by
      intro f hf; unfold pinsOf at h; rw [hf] at h; exact h
    have hw : ∀ (g : File κ η), g.version ≥ 3 → g.packages = ((load d).getD blank).packages → pinsOf (.file g) = [] := by
      intro g hv hb
      unfold pinsOf
      rw [load_file g hv]
      show g.packages = []
      rw [hb]
      cases hd : load d with
      | none => rfl
      | some f => exact hl f hd
    cases c with
    | lock tc => exact hw _ (load_getD_version d) rfl
    | build cur ok =>
      show pinsOf (match buildCmd cur ok d with | some (_, d') => d' | none => d) = []
      cases hb : buildCmd cur ok d with
      | none => exact h
      | some x =>
        obtain ⟨r, d'⟩ := x
        show pinsOf d' = []
        unfold buildCmd at hb
        by_cases hc : current cur d = true
        · rw [if_pos hc] at hb
          simp only [Option.some.injEq, Prod.mk.injEq] at hb
          rw [← hb.2]; exact h
        · rw [if_neg hc] at hb
          cases ok with
          | false => simp at hb
          | true =>
            rw [if_pos rfl] at hb
            simp only [Option.some.injEq, Prod.mk.injEq] at hb
            rw [← hb.2]; exact hw _ (load_getD_version d) rfl
    | remove n =>
      show pinsOf (removeCmd n d) = []
      unfold removeCmd
      cases hd : load d with
      | none => exact h
      | some f =>
        dsimp only
        rw [hl f hd]
        exact h

/-- **Finding.**  A lockfile that does not load — a merge conflict, an older
schema — is replaced by a blank one on the next build, and its pins are
gone. -/
theorem unreadable_replaced : ∃ (f : File Nat Nat) (d' : Disk Nat Nat), f.packages = [⟨1, 1, "1.0", none⟩] ∧
    buildCmd 7 true (.file f) = some (true, d') ∧ load d' = some ⟨4, some 7, none, [], [], []⟩ := by
  exact ⟨⟨2, none, none, [], [⟨1, 1, "1.0", none⟩], []⟩, _, rfl, rfl, rfl⟩

/-- **Finding.**  A version-3 lockfile stays version 3 when it is rewritten
(the loader's message says it is upgraded). -/
theorem old_schema_kept : ∃ d' : Disk Nat Nat, buildCmd 7 true (.file ⟨3, none, none, [], [], []⟩) = some (true, d') ∧
    load d' = some ⟨3, some 7, none, [], [], []⟩ := ⟨_, rfl, rfl⟩

end Horus.Pkg.Lock
