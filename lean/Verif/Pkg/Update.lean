/-!
# Updating installed packages

`horus_manager/src/registry/helpers.rs:1805-1960` (`update_packages`) with the part of
`install_from_registry` that decides where a package goes (`registry/install.rs:684-709, 799-803, 840-880`).

Package names and versions are numbers (versions in their order).  A well-formed installation is
assumed: the metadata in the directory for `n` names `n` and its version.  An installation that fails
changes nothing (what a crash inside one leaves is the subject of `Verif/Pkg/Install.lean`).
-/

namespace Horus.Update

/-- What stands in `.horus/packages/<name>`: a directory with the version and the source in its
metadata (0 is the HORUS registry, others are PyPI and crates.io), or a link into the global cache. -/
inductive Loc
  | dir (version source : Nat)
  | link (version : Nat)
  deriving DecidableEq, Repr

/-- The workspace's packages and the global cache directories `name@version`. -/
structure Disk where
  loc : Nat → Option Loc
  glob : List (Nat × Nat)

/-- `check_global_versions` (helpers.rs:29-70). -/
def hasGlobal (d : Disk) (n : Nat) : Bool := d.glob.any (·.1 = n)

def put (d : Disk) (n : Nat) (l : Option Loc) : Disk := { d with loc := fun x => if x = n then l else d.loc x }

def addGlob (d : Disk) (k : Nat × Nat) : Disk := { d with glob := if k ∈ d.glob then d.glob else d.glob ++ [k] }

/-- Where `install_from_registry` puts version `v` of `n` (install.rs:684-709, 799-803, 840-880): into
the global cache with a link when asked to or when some version is already there, else into the workspace. -/
def install (globalTarget : Bool) (d : Disk) (n v : Nat) : Disk :=
  if globalTarget || hasGlobal d n then put (addGlob d (n, v)) n (some (.link v)) else put d n (some (.dir v 0))

/-- Where the outdated copy was found. -/
inductive Place
  | loc (n : Nat)
  | glob (n v : Nat)
  deriving DecidableEq, Repr

structure Upd where
  name : Nat
  old : Nat
  new : Nat
  place : Place
  deriving DecidableEq, Repr

/-- The version in the metadata of a workspace entry; a link shows the metadata of its target (helpers.rs:1845-1862). -/
def seen (d : Disk) (n : Nat) : Option Nat :=
  match d.loc n with
  | some (.dir v _) => some v
  | some (.link v) => if (n, v) ∈ d.glob then some v else none
  | none => none

/-- The request: one package or all, and what the registry answers (`none`: no answer). -/
structure Req where
  only : Option Nat
  global : Bool
  dry : Bool
  latest : Nat → Option Nat
  /-- whether installing this package works -/
  works : Nat → Bool

def wanted (r : Req) (n : Nat) : Bool := match r.only with | none => true | some m => m = n

/-- One entry's update, if there is one (helpers.rs:1868-1905). -/
def check (r : Req) (n v : Nat) (p : Place) : Option Upd :=
  if wanted r n then
    match r.latest n with
    | some w => if v < w then some ⟨n, v, w, p⟩ else none
    | none => none
  else none

/-- The scan (helpers.rs:1811-1905): the workspace unless `--global`, then the global cache.  `locals`
is the listing of the workspace directory. -/
def scan (r : Req) (locals : List Nat) (d : Disk) : List Upd :=
  (if r.global then [] else locals.filterMap fun n => (seen d n).bind fun v => check r n v (.loc n)) ++ d.glob.filterMap fun k => check r k.1 k.2 (.glob k.1 k.2)

/-- `remove_dir_all(old_path)`; on a link it removes the link (helpers.rs:1944-1946). -/
def remove (d : Disk) : Place → Disk
  | .loc n => put d n none
  | .glob n v => { d with glob := d.glob.filter (· ≠ (n, v)) }

/-- One update: install, then remove the old path (helpers.rs:1930-1955). -/
def one (r : Req) (d : Disk) (u : Upd) : Disk := if r.works u.name then remove (install r.global d u.name u.new) u.place else d

/-- `update_packages`. -/
def update (r : Req) (locals : List Nat) (d : Disk) : Disk := if r.dry then d else (scan r locals d).foldl (one r) d

/-! ## What is updated -/

/-- **C257.** Exactly the outdated packages are updated: those asked for, whose newest version in the
registry is later than the installed one. -/
theorem scan_exact (r : Req) (locals : List Nat) (d : Disk) (u : Upd) : u ∈ scan r locals d ↔ (∀ m, r.only = some m → u.name = m) ∧ r.latest u.name = some u.new ∧ u.old < u.new ∧ ((r.global = false ∧ u.name ∈ locals ∧ seen d u.name = some u.old ∧ u.place = .loc u.name) ∨ ((u.name, u.old) ∈ d.glob ∧ u.place = .glob u.name u.old)) := by
  have hw : ∀ n, wanted r n = true ↔ ∀ m, r.only = some m → n = m := by
    intro n
    unfold wanted
    split
    · rename_i h; simp [h]
    · rename_i m h; simp [h, eq_comm]
  have hc : ∀ n v p, check r n v p = some u ↔ (∀ m, r.only = some m → n = m) ∧ r.latest n = some u.new ∧ v < u.new ∧ u = ⟨n, v, u.new, p⟩ := by
    intro n v p
    rw [← hw n]
    simp only [check]
    by_cases hwn : wanted r n = true
    · simp only [hwn, if_true, true_and]
      split
      · rename_i w hl
        rw [hl]
        split
        · rename_i h
          constructor
          · intro e; injection e with e; subst e; simp [h]
          · rintro ⟨e1, _, e⟩; injection e1 with e1; rw [e, e1]
        · rename_i h
          constructor
          · intro e; simp at e
          · rintro ⟨e1, h', _⟩; injection e1 with e1; rw [e1] at h; exact absurd h' h
      · rename_i hl
        simp [hl]
    · simp [hwn]
  have h1 : (∃ n ∈ locals, (seen d n).bind (fun v => check r n v (.loc n)) = some u) ↔ (∀ m, r.only = some m → u.name = m) ∧ r.latest u.name = some u.new ∧ u.old < u.new ∧ u.name ∈ locals ∧ seen d u.name = some u.old ∧ u.place = .loc u.name := by
    constructor
    · rintro ⟨n, hn, hb⟩
      rw [Option.bind_eq_some_iff] at hb
      obtain ⟨v, hv, hb⟩ := hb
      rw [hc] at hb
      obtain ⟨a, b, c, e⟩ := hb
      have e1 : u.name = n := by rw [e]
      have e2 : u.old = v := by rw [e]
      have e3 : u.place = .loc n := by rw [e]
      rw [e1, e2, e3]; exact ⟨a, b, c, hn, hv, rfl⟩
    · rintro ⟨a, b, c, hn, hv, e⟩
      refine ⟨u.name, hn, ?_⟩
      rw [hv]
      show check r u.name u.old (.loc u.name) = some u
      rw [hc]
      refine ⟨a, b, c, ?_⟩
      rw [← e]
  have h2 : (∃ k ∈ d.glob, check r k.1 k.2 (.glob k.1 k.2) = some u) ↔ (∀ m, r.only = some m → u.name = m) ∧ r.latest u.name = some u.new ∧ u.old < u.new ∧ (u.name, u.old) ∈ d.glob ∧ u.place = .glob u.name u.old := by
    constructor
    · rintro ⟨⟨n, v⟩, hn, hb⟩
      rw [hc] at hb
      obtain ⟨a, b, c, e⟩ := hb
      have e1 : u.name = n := by rw [e]
      have e2 : u.old = v := by rw [e]
      have e3 : u.place = .glob n v := by rw [e]
      rw [e1, e2, e3]; exact ⟨a, b, c, hn, rfl⟩
    · rintro ⟨a, b, c, hn, e⟩
      refine ⟨(u.name, u.old), hn, ?_⟩
      show check r u.name u.old (.glob u.name u.old) = some u
      rw [hc]
      refine ⟨a, b, c, ?_⟩
      rw [← e]
  simp only [scan, List.mem_append, List.mem_filterMap, h2]
  cases hg : r.global with
  | true => simp
  | false =>
    simp only [Bool.false_eq_true, if_false, List.mem_filterMap, h1]
    constructor
    · rintro (⟨a, b, c, e, f, g⟩ | ⟨a, b, c, e⟩)
      · exact ⟨a, b, c, Or.inl ⟨trivial, e, f, g⟩⟩
      · exact ⟨a, b, c, Or.inr e⟩
    · rintro ⟨a, b, c, ⟨_, e, f, g⟩ | e⟩
      · exact Or.inl ⟨a, b, c, e, f, g⟩
      · exact Or.inr ⟨a, b, c, e⟩

/-- **C257.** A dry run changes nothing. -/
theorem dry_nothing (r : Req) (locals : List Nat) (d : Disk) (h : r.dry = true) : update r locals d = d := by simp [update, h]

/-- **C257.** With nothing outdated nothing changes. -/
theorem current_nothing (r : Req) (locals : List Nat) (d : Disk) (h : scan r locals d = []) : update r locals d = d := by
  simp [update, h]

/-! ## The global cache -/

theorem mem_addGlob (d : Disk) (k x : Nat × Nat) : x ∈ (addGlob d k).glob ↔ x = k ∨ x ∈ d.glob := by
  simp only [addGlob]
  split
  · rename_i h
    constructor
    · exact Or.inr
    · rintro (rfl | h')
      · exact h
      · exact h'
  · simp [or_comm]

/-- The global cache after a series of updates of copies found there. -/
theorem glob_after (r : Req) (ups : List Upd) : ∀ d : Disk, (∀ u ∈ ups, r.works u.name = true ∧ u.place = .glob u.name u.old ∧ r.latest u.name = some u.new ∧ u.old < u.new ∧ (u.name, u.old) ∈ d.glob) → (ups.map fun u => (u.name, u.old)).Nodup →
    ∀ x : Nat × Nat, x ∈ (ups.foldl (one r) d).glob ↔ (∃ u ∈ ups, x = (u.name, u.new)) ∨ (x ∈ d.glob ∧ ∀ u ∈ ups, x ≠ (u.name, u.old)) := by
  induction ups with
  | nil => intro d _ _ x; simp
  | cons u ups ih =>
    intro d h hn x
    obtain ⟨hw, hp, hl, hlt, hm⟩ := h u (List.mem_cons_self ..)
    have hg : hasGlobal d u.name = true := by
      simp only [hasGlobal, List.any_eq_true]; exact ⟨_, hm, by simp⟩
    have hone : ∀ y : Nat × Nat, y ∈ (one r d u).glob ↔ (y = (u.name, u.new) ∨ y ∈ d.glob) ∧ y ≠ (u.name, u.old) := by
      intro y
      simp only [one, hw, if_true, hp, remove, install, hg, Bool.or_true, put, List.mem_filter, mem_addGlob, ne_eq, decide_not, Bool.not_eq_true', decide_eq_false_iff_not]
    simp only [List.map_cons, List.nodup_cons] at hn
    have hne : ∀ w ∈ ups, (w.name, w.old) ≠ (u.name, u.old) := fun w hw' e => hn.1 (List.mem_map.mpr ⟨w, hw', e⟩)
    rw [List.foldl_cons, ih (one r d u) ?_ hn.2 x, hone]
    · have hnew : ∀ w ∈ ups, (u.name, u.new) ≠ (w.name, w.old) := by
        intro w hw' e
        obtain ⟨_, _, hl', hlt', _⟩ := h w (List.mem_cons_of_mem _ hw')
        injection e with e1 e2
        rw [← e1, hl] at hl'
        injection hl' with hl'
        omega
      have hself : (u.name, u.new) ≠ (u.name, u.old) := by intro e; injection e; omega
      constructor
      · rintro (⟨w, hw', e⟩ | ⟨⟨hx | hx, hxo⟩, ha⟩)
        · exact Or.inl ⟨w, List.mem_cons_of_mem _ hw', e⟩
        · exact Or.inl ⟨u, List.mem_cons_self .., hx⟩
        · refine Or.inr ⟨hx, ?_⟩
          intro w hw'
          rcases List.mem_cons.mp hw' with rfl | hw'
          · exact hxo
          · exact ha w hw'
      · rintro (⟨w, hw', e⟩ | ⟨hx, ha⟩)
        · rcases List.mem_cons.mp hw' with rfl | hw'
          · right
            refine ⟨⟨Or.inl e, by rw [e]; exact hself⟩, fun w hw'' => by rw [e]; exact hnew w hw''⟩
          · exact Or.inl ⟨w, hw', e⟩
        · exact Or.inr ⟨⟨Or.inr hx, ha u (List.mem_cons_self ..)⟩, fun w hw' => ha w (List.mem_cons_of_mem _ hw')⟩
    · intro w hw'
      obtain ⟨a, b, c, e, f⟩ := h w (List.mem_cons_of_mem _ hw')
      exact ⟨a, b, c, e, (hone _).mpr ⟨Or.inr f, hne w hw'⟩⟩

/-- **C257.** `horus update --global`, when every installation works: the cache then holds exactly the
newest version of every outdated package in place of the old ones, and all other packages as before. -/
theorem global_update_partial (r : Req) (locals : List Nat) (d : Disk) (hg : r.global = true) (hd : r.dry = false) (hw : ∀ n, r.works n = true) (hn : d.glob.Nodup) (x : Nat × Nat) :
    x ∈ (update r locals d).glob ↔ (∃ u ∈ scan r locals d, x = (u.name, u.new)) ∨ (x ∈ d.glob ∧ ∀ u ∈ scan r locals d, x ≠ (u.name, u.old)) := by
  have hs : ∀ u ∈ scan r locals d, r.works u.name = true ∧ u.place = .glob u.name u.old ∧ r.latest u.name = some u.new ∧ u.old < u.new ∧ (u.name, u.old) ∈ d.glob := by
    intro u hu
    rw [scan_exact] at hu
    obtain ⟨_, b, c, e⟩ := hu
    rcases e with ⟨e, _⟩ | ⟨e, f⟩
    · rw [hg] at e; cases e
    · exact ⟨hw _, f, b, c, e⟩
  have hnd : ((scan r locals d).map fun u => (u.name, u.old)).Nodup := by
    have hsub : ((scan r locals d).map fun u => (u.name, u.old)).Sublist d.glob := by
      have e0 : scan r locals d = d.glob.filterMap fun k => check r k.1 k.2 (.glob k.1 k.2) := by simp [scan, hg]
      rw [e0]
      generalize d.glob = l
      induction l with
      | nil => simp
      | cons k l ih =>
        simp only [List.filterMap_cons]
        split
        · exact ih.cons k
        · rename_i u hu
          have : (u.name, u.old) = k := by
            simp only [check] at hu
            split at hu
            · split at hu
              · split at hu
                · injection hu with hu; rw [← hu]
                · simp at hu
              · simp at hu
            · simp at hu
          rw [List.map_cons, this]
          exact ih.cons_cons k
    exact hn.sublist hsub
  simp only [update, hd, Bool.false_eq_true, if_false]
  exact glob_after r _ d hs hnd x

/-! ## The workspace -/

theorem one_loc (r : Req) (d : Disk) (u : Upd) (n : Nat) (h : u.name ≠ n) (hp : u.place ≠ .loc n) : (one r d u).loc n = d.loc n := by
  simp only [one]
  split
  · cases hpl : u.place with
    | loc m =>
      have : n ≠ m := by rintro rfl; exact hp hpl
      simp only [remove, put, if_neg this]
      simp only [install]; split <;> simp [put, addGlob, Ne.symm h]
    | glob m v =>
      simp only [remove]
      simp only [install]; split <;> simp [put, addGlob, Ne.symm h]
  · rfl

theorem one_hasGlobal (r : Req) (d : Disk) (u : Upd) (n : Nat) (hr : r.global = false) (h : hasGlobal d n = false) : hasGlobal (one r d u) n = false := by
  have key : ∀ k : Nat × Nat, k ∈ (one r d u).glob → k.1 ≠ n := by
    intro k hk e
    have hd : ∀ k ∈ d.glob, k.1 ≠ n := by
      intro k hk e
      have : hasGlobal d n = true := by simp only [hasGlobal, List.any_eq_true]; exact ⟨k, hk, by simp [e]⟩
      rw [h] at this; cases this
    simp only [one] at hk
    split at hk
    · have : k ∈ (install r.global d u.name u.new).glob := by
        cases hpl : u.place with
        | loc m => rw [hpl] at hk; exact hk
        | glob m v => rw [hpl] at hk; exact (List.mem_filter.mp hk).1
      simp only [install, hr, Bool.false_or] at this
      split at this
      · rename_i hg
        rw [show (put (addGlob d (u.name, u.new)) u.name (some (Loc.link u.new))).glob = (addGlob d (u.name, u.new)).glob from rfl, mem_addGlob] at this
        rcases this with rfl | hk'
        · simp only at e
          rw [e] at hg; rw [hg] at h; cases h
        · exact hd k hk' e
      · exact hd k this e
    · exact hd k hk e
  cases hh : hasGlobal (one r d u) n with
  | false => rfl
  | true =>
    simp only [hasGlobal, List.any_eq_true] at hh
    obtain ⟨k, hk, e⟩ := hh
    exact absurd (by simpa using e) (key k hk)

/-- **C257.** An outdated package that stands only in the workspace is lost by a successful update: the
new version is installed at the same path, and then that path is removed as the old one. -/
theorem workspace_package_lost (r : Req) (locals : List Nat) (d : Disk) (n v s w : Nat) (hr : r.global = false) (hd : r.dry = false) (hn : n ∈ locals) (hl : d.loc n = some (.dir v s)) (hg : hasGlobal d n = false) (ho : ∀ m, r.only = some m → n = m) (hw : r.latest n = some w) (hlt : v < w) (hk : r.works n = true) : (update r locals d).loc n = none ∧ hasGlobal (update r locals d) n = false := by
  have hmem : (⟨n, v, w, .loc n⟩ : Upd) ∈ scan r locals d := by
    rw [scan_exact]
    exact ⟨ho, hw, hlt, Or.inl ⟨hr, hn, by simp [seen, hl], rfl⟩⟩
  have hall : ∀ u ∈ scan r locals d, u.name = n → u.place = .loc n := by
    intro u hu e
    rw [scan_exact] at hu
    rcases hu.2.2.2 with h | h
    · rw [h.2.2.2, e]
    · have : hasGlobal d n = true := by simp only [hasGlobal, List.any_eq_true]; exact ⟨_, h.1, by simp [e]⟩
      rw [hg] at this; cases this
  have hplace : ∀ u ∈ scan r locals d, u.place = .loc n → u.name = n := by
    intro u hu e
    rw [scan_exact] at hu
    rcases hu.2.2.2 with h | h
    · rw [h.2.2.2] at e; injection e
    · rw [h.2] at e; cases e
  simp only [update, hd, Bool.false_eq_true, if_false]
  generalize scan r locals d = l at hmem hall hplace
  clear hl hn hlt
  -- afterwards nothing brings it back
  have gone : ∀ (l : List Upd) (d : Disk), (∀ u ∈ l, u.name = n → u.place = .loc n) → (∀ u ∈ l, u.place = .loc n → u.name = n) → hasGlobal d n = false → d.loc n = none → (l.foldl (one r) d).loc n = none ∧ hasGlobal (l.foldl (one r) d) n = false := by
    intro l
    induction l with
    | nil => intro d _ _ h1 h2; exact ⟨h2, h1⟩
    | cons u l ih =>
      intro d ha hb h1 h2
      rw [List.foldl_cons]
      refine ih _ (fun w hw => ha w (List.mem_cons_of_mem _ hw)) (fun w hw => hb w (List.mem_cons_of_mem _ hw)) (one_hasGlobal r d u n hr h1) ?_
      by_cases e : u.name = n
      · simp only [one, ha u (List.mem_cons_self ..) e]
        split
        · simp [remove, put]
        · exact h2
      · rw [one_loc r d u n e (fun hp => e (hb u (List.mem_cons_self ..) hp))]; exact h2
  have main : ∀ (l : List Upd) (d : Disk), (∀ u ∈ l, u.name = n → u.place = .loc n) → (∀ u ∈ l, u.place = .loc n → u.name = n) → hasGlobal d n = false → (⟨n, v, w, .loc n⟩ : Upd) ∈ l → (l.foldl (one r) d).loc n = none ∧ hasGlobal (l.foldl (one r) d) n = false := by
    intro l
    induction l with
    | nil => intro d _ _ _ h; cases h
    | cons u l ih =>
      intro d ha hb h1 h2
      rw [List.foldl_cons]
      by_cases e : u.name = n
      · refine gone l _ (fun w hw => ha w (List.mem_cons_of_mem _ hw)) (fun w hw => hb w (List.mem_cons_of_mem _ hw)) (one_hasGlobal r d u n hr h1) ?_
        simp [one, ha u (List.mem_cons_self ..) e, e, hk, remove, put]
      · refine ih _ (fun w hw => ha w (List.mem_cons_of_mem _ hw)) (fun w hw => hb w (List.mem_cons_of_mem _ hw)) (one_hasGlobal r d u n hr h1) ?_
        rcases List.mem_cons.mp h2 with h2 | h2
        · rw [← h2] at e; exact absurd rfl e
        · exact h2
  exact main l d hall hplace hg hmem

/-- What the last successful update of a copy in the global cache leaves in the workspace. -/
theorem link_after (r : Req) (n w : Nat) (hk : r.works n = true) (l : List Upd) : ∀ d : Disk, (∀ u ∈ l, ∃ a b, u.place = .glob a b) → (∀ u ∈ l, u.name = n → u.new = w ∧ u.place = .glob n u.old ∧ u.old ≠ w) → (hasGlobal d n = true) → (d.loc n = some (.link w) ∧ (n, w) ∈ d.glob ∨ ∃ u ∈ l, u.name = n) → (∀ u ∈ l, ∀ a b, u.place = .glob a b → a = u.name) → (l.foldl (one r) d).loc n = some (.link w) ∧ (n, w) ∈ (l.foldl (one r) d).glob := by
  induction l with
  | nil =>
    intro d _ _ _ h _
    rcases h with h | ⟨u, hu, _⟩
    · exact h
    · cases hu
  | cons u l ih =>
    intro d h1 h2 h3 h4 h5
    rw [List.foldl_cons]
    have t1 : ∀ u ∈ l, ∃ a b, u.place = .glob a b := fun w hw => h1 w (List.mem_cons_of_mem _ hw)
    have t2 : ∀ u ∈ l, u.name = n → u.new = w ∧ u.place = .glob n u.old ∧ u.old ≠ w := fun w hw => h2 w (List.mem_cons_of_mem _ hw)
    have t5 : ∀ u ∈ l, ∀ a b, u.place = .glob a b → a = u.name := fun w hw => h5 w (List.mem_cons_of_mem _ hw)
    by_cases e : u.name = n
    · obtain ⟨e1, e2, e3⟩ := h2 u (List.mem_cons_self ..) e
      have hl : (one r d u).loc n = some (.link w) := by
        simp [one, e, hk, e2, remove, install, h3, put, e1]
      have hg : (n, w) ∈ (one r d u).glob := by
        simp only [one, e, hk, if_true, e2, remove, install, h3, Bool.or_true, put, List.mem_filter, e1, mem_addGlob]
        simp [Ne.symm e3]
      refine ih _ t1 t2 ?_ (Or.inl ⟨hl, hg⟩) t5
      simp only [hasGlobal, List.any_eq_true]; exact ⟨_, hg, by simp⟩
    · obtain ⟨a, b, hp⟩ := h1 u (List.mem_cons_self ..)
      have ha : a ≠ n := by rw [h5 u (List.mem_cons_self ..) a b hp]; exact e
      have hloc : (one r d u).loc n = d.loc n := one_loc r d u n e (by rw [hp]; simp)
      have hglob : ∀ x, (n, x) ∈ (one r d u).glob ↔ (n, x) ∈ d.glob := by
        intro x
        simp only [one]
        split
        · rw [hp]
          simp only [remove, List.mem_filter]
          have hxa : decide ((n, x) ≠ (a, b)) = true := decide_eq_true (by intro e'; injection e' with e'; exact ha e'.symm)
          simp only [hxa, and_true, install]
          split
          · rw [show (put (addGlob d (u.name, u.new)) u.name (some (Loc.link u.new))).glob = (addGlob d (u.name, u.new)).glob from rfl, mem_addGlob]
            constructor
            · rintro (h | h)
              · injection h with h; exact absurd h.symm e
              · exact h
            · exact Or.inr
          · exact Iff.rfl
        · exact Iff.rfl
      refine ih _ t1 t2 ?_ ?_ t5
      · simp only [hasGlobal, List.any_eq_true] at h3 ⊢
        obtain ⟨⟨m, x⟩, hk', he⟩ := h3
        simp only [decide_eq_true_eq] at he
        subst he
        exact ⟨_, (hglob x).mpr hk', by simp⟩
      · rcases h4 with ⟨h4, h6⟩ | ⟨u', hu', e'⟩
        · exact Or.inl ⟨hloc.trans h4, (hglob w).mpr h6⟩
        · rcases List.mem_cons.mp hu' with rfl | hu'
          · exact absurd e' e
          · exact Or.inr ⟨u', hu', e'⟩

/-- Updates of copies in the workspace remove nothing from the cache. -/
theorem glob_kept (r : Req) (k : Nat × Nat) (l : List Upd) : ∀ d : Disk, (∀ u ∈ l, ∃ n, u.place = .loc n) → k ∈ d.glob → k ∈ (l.foldl (one r) d).glob := by
  induction l with
  | nil => intro d _ h; exact h
  | cons u l ih =>
    intro d h hk
    rw [List.foldl_cons]
    refine ih _ (fun w hw => h w (List.mem_cons_of_mem _ hw)) ?_
    obtain ⟨n, hp⟩ := h u (List.mem_cons_self ..)
    simp only [one]
    split
    · rw [hp]
      show k ∈ (install r.global d u.name u.new).glob
      simp only [install]
      split
      · exact (mem_addGlob ..).mpr (Or.inr hk)
      · exact hk
    · exact hk

/-- **C257.** An outdated package that stands in the global cache ends up linked at its newest version
in the workspace, with that version in the cache. -/
theorem cached_package_updated (r : Req) (locals : List Nat) (d : Disk) (n v w : Nat) (hd : r.dry = false) (hg : (n, v) ∈ d.glob) (ho : ∀ m, r.only = some m → n = m) (hw : r.latest n = some w) (hlt : v < w) (hk : r.works n = true) : (update r locals d).loc n = some (.link w) ∧ (n, w) ∈ (update r locals d).glob := by
  have hs : ∀ u ∈ (d.glob.filterMap fun k => check r k.1 k.2 (.glob k.1 k.2)), u.place = .glob u.name u.old ∧ r.latest u.name = some u.new ∧ u.old < u.new := by
    intro u hu
    rw [List.mem_filterMap] at hu
    obtain ⟨k, _, hu⟩ := hu
    simp only [check] at hu
    split at hu
    · split at hu
      · rename_i hl
        split at hu
        · rename_i hlt'
          injection hu with hu; subst hu; exact ⟨rfl, hl, hlt'⟩
        · simp at hu
      · simp at hu
    · simp at hu
  have hmem : (⟨n, v, w, .glob n v⟩ : Upd) ∈ (d.glob.filterMap fun k => check r k.1 k.2 (.glob k.1 k.2)) := by
    have := (scan_exact { r with global := true } locals d ⟨n, v, w, .glob n v⟩).mpr ⟨ho, hw, hlt, Or.inr ⟨hg, rfl⟩⟩
    simpa [scan, check, wanted] using this
  simp only [update, hd, Bool.false_eq_true, if_false, scan, List.foldl_append]
  generalize hd' : List.foldl (one r) d (if r.global = true then [] else locals.filterMap fun n => (seen d n).bind fun v => check r n v (.loc n)) = d'
  have hg' : (n, v) ∈ d'.glob := by
    rw [← hd']
    refine glob_kept r (n, v) _ d ?_ hg
    intro u hu
    split at hu
    · cases hu
    · rw [List.mem_filterMap] at hu
      obtain ⟨m, _, hu⟩ := hu
      rw [Option.bind_eq_some_iff] at hu
      obtain ⟨x, _, hu⟩ := hu
      simp only [check] at hu
      split at hu
      · split at hu
        · split at hu
          · injection hu with hu; subst hu; exact ⟨m, rfl⟩
          · simp at hu
        · simp at hu
      · simp at hu
  refine link_after r n w hk _ d' ?_ ?_ ?_ ?_ ?_
  · intro u hu; exact ⟨_, _, (hs u hu).1⟩
  · intro u hu e
    obtain ⟨a, b, c⟩ := hs u hu
    rw [e, hw] at b
    injection b with b
    refine ⟨b.symm, by rw [a, e], by omega⟩
  · simp only [hasGlobal, List.any_eq_true]; exact ⟨_, hg', by simp⟩
  · right; exact ⟨_, hmem, rfl⟩
  · intro u hu a b hp
    rw [(hs u hu).1] at hp; injection hp with hp; exact hp.symm

/-- **C257.** The source in the metadata is not looked at: a package from PyPI is replaced by the
registry's package of the same name. -/
theorem source_ignored (r : Req) (locals : List Nat) (d : Disk) (n v s s' : Nat) (hl : d.loc n = some (.dir v s)) : scan r locals (put d n (some (.dir v s'))) = scan r locals d := by
  have : ∀ m, seen (put d n (some (.dir v s'))) m = seen d m := by
    intro m
    by_cases e : m = n
    · simp [seen, put, e, hl]
    · cases hx : d.loc m with
      | none => simp [seen, put, e, hx]
      | some l => cases l <;> simp [seen, put, e, hx] <;> rfl
  simp only [scan, this]
  rfl

/-! ## Concrete cases -/

def req : Req := ⟨none, false, false, fun _ => some 5, fun _ => true⟩

/-- Package 1 stands in the workspace only; 2 is linked from the cache; 3 is current. -/
def disk : Disk := ⟨fun n => if n = 1 then some (.dir 3 0) else if n = 2 then some (.link 4) else if n = 3 then some (.dir 5 0) else none, [(2, 4)]⟩

example : (update req [1, 2, 3] disk).loc 1 = none ∧ (update req [1, 2, 3] disk).loc 2 = some (.link 5) ∧ (update req [1, 2, 3] disk).loc 3 = some (.dir 5 0) ∧ (update req [1, 2, 3] disk).glob = [(2, 5)] := by decide

example : (scan req [1, 2, 3] disk).map (fun u => (u.name, u.old, u.new)) = [(1, 3, 5), (2, 4, 5), (2, 4, 5)] := by decide

example : (update { req with global := true } [1, 2, 3] disk).glob = [(2, 5)] ∧ (update { req with global := true } [1, 2, 3] disk).loc 1 = some (.dir 3 0) := by decide

end Horus.Update
