/-
Putting an unpacked package into place: the copy, the staging directory and
the swap.

Modelled source: horus_manager/src/registry/install.rs (793-840 and, the same
code again, 1197-1240), horus_manager/src/registry/helpers.rs (563-649).
-/
import Mathlib.Tactic.Common
import Verif.Pkg.Extract

namespace Horus.Pkg.Install

/-! ### Copying the unpacked tree -/

/-- A directory entry.  A link is given by the place it leads to after all
links are followed, `none` if it leads nowhere. -/
inductive Ent where
  | file
  | dir
  | link (real : Option (List Nat))
  deriving DecidableEq

/-- A tree on disk: the listing of each directory, and which places are
directories. -/
structure Tree where
  ls : List Nat → List (Nat × Ent)
  isDir : List Nat → Bool

/-- All results, or `none` if one is missing. -/
def collect {α β : Type} (f : α → Option (List β)) : List α → Option (List β)
  | [] => some []
  | a :: as => match f a, collect f as with
    | some x, some y => some (x ++ y)
    | _, _ => none

/-- `copy_dir_all_inner`: the list of (destination, source) of the files
copied.  A link inside the tree is copied as what it leads to; links leaving
it and links to nowhere are skipped.  `none`: not done at this depth.

Models horus_manager/src/registry/helpers.rs:569-610. -/
def copyDir (t : Tree) (root : List Nat) : Nat → List Nat → List Nat → Option (List (List Nat × List Nat))
  | 0, _, _ => none
  | k + 1, src, dst => collect (fun e : Nat × Ent => match e.2 with
      | .file => some [(dst ++ [e.1], src ++ [e.1])]
      | .dir => copyDir t root k (src ++ [e.1]) (dst ++ [e.1])
      | .link none => some []
      | .link (some p) =>
        if root.isPrefixOf p then
          if t.isDir p then copyDir t root k p (dst ++ [e.1]) else some [(dst ++ [e.1], p)]
        else some []) (t.ls src)

/-- Specification: seen from directory `src`, through the tree's own links, the
file `s` is at the relative path `rel`. -/
inductive At (t : Tree) (root : List Nat) : List Nat → List Nat → List Nat → Prop
  | file {src n} (h : (n, Ent.file) ∈ t.ls src) : At t root src [n] (src ++ [n])
  | linked {src n p} (h : (n, Ent.link (some p)) ∈ t.ls src) (hr : root <+: p) (hd : t.isDir p = false) : At t root src [n] p
  | dir {src n rel s} (h : (n, Ent.dir) ∈ t.ls src) (ha : At t root (src ++ [n]) rel s) : At t root src (n :: rel) s
  | through {src n p rel s} (h : (n, Ent.link (some p)) ∈ t.ls src) (hr : root <+: p) (hd : t.isDir p = true) (ha : At t root p rel s) :
      At t root src (n :: rel) s

theorem collect_mem {α β : Type} {f : α → Option (List β)} {l : List α} {r : List β} (h : collect f l = some r) (b : β) :
    b ∈ r ↔ ∃ a ∈ l, ∃ x, f a = some x ∧ b ∈ x := by
  induction l generalizing r with
  | nil => cases h; simp
  | cons a as ih =>
    rw [collect] at h
    cases hf : f a with
    | none => rw [hf] at h; cases h
    | some x =>
      cases hc : collect f as with
      | none => rw [hf, hc] at h; cases h
      | some y =>
        rw [hf, hc] at h
        cases h
        rw [List.mem_append, ih hc]
        constructor
        · rintro (hb | ⟨a', ha', x', hx', hb⟩)
          · exact ⟨a, List.mem_cons_self, x, hf, hb⟩
          · exact ⟨a', List.mem_cons_of_mem _ ha', x', hx', hb⟩
        · rintro ⟨a', ha', x', hx', hb⟩
          rcases List.mem_cons.1 ha' with e | ha'
          · subst e; rw [hf] at hx'; cases hx'; exact .inl hb
          · exact .inr ⟨a', ha', x', hx', hb⟩

theorem collect_some {α β : Type} {f : α → Option (List β)} {l : List α} (h : ∀ a ∈ l, ∃ x, f a = some x) : ∃ r, collect f l = some r := by
  induction l with
  | nil => exact ⟨[], rfl⟩
  | cons a as ih =>
    obtain ⟨x, hx⟩ := h a List.mem_cons_self
    obtain ⟨y, hy⟩ := ih (fun b hb => h b (List.mem_cons_of_mem _ hb))
    exact ⟨x ++ y, by rw [collect, hx, hy]⟩

theorem collect_none {α β : Type} {f : α → Option (List β)} {l : List α} {a : α} (ha : a ∈ l) (h : f a = none) : collect f l = none := by
  induction l with
  | nil => cases ha
  | cons b bs ih =>
    rw [collect]
    rcases List.mem_cons.1 ha with e | ha
    · subst e; rw [h]
    · rw [ih ha]; cases f b <;> rfl

/-- **The copy is complete and adds nothing.**  When copying ends, the files
written are exactly those the tree shows, each at its relative path. -/
theorem copy_exact (t : Tree) (root : List Nat) : ∀ (k : Nat) (src dst : List Nat) (l : List (List Nat × List Nat)),
    copyDir t root k src dst = some l → ∀ d s, (d, s) ∈ l ↔ ∃ rel, d = dst ++ rel ∧ At t root src rel s := by
  intro k
  induction k with
  | zero => intro src dst l h; cases h
  | succ k ih =>
    intro src dst l h d s
    rw [copyDir] at h
    rw [collect_mem h]
    constructor
    · rintro ⟨⟨n, e⟩, hm, x, hx, hb⟩
      cases e with
      | file =>
        cases hx
        simp only [List.mem_singleton, Prod.mk.injEq] at hb
        exact ⟨[n], hb.1, hb.2 ▸ At.file hm⟩
      | dir =>
        obtain ⟨rel, e1, e2⟩ := (ih _ _ x hx d s).1 hb
        exact ⟨n :: rel, by rw [e1, List.append_assoc]; rfl, At.dir hm e2⟩
      | link p =>
        cases p with
        | none => cases hx; cases hb
        | some p =>
          dsimp only at hx
          by_cases hr : root.isPrefixOf p = true
          · rw [if_pos hr] at hx
            rw [List.isPrefixOf_iff_prefix] at hr
            by_cases hd : t.isDir p = true
            · rw [if_pos hd] at hx
              obtain ⟨rel, e1, e2⟩ := (ih _ _ x hx d s).1 hb
              exact ⟨n :: rel, by rw [e1, List.append_assoc]; rfl, At.through hm hr hd e2⟩
            · rw [if_neg hd] at hx
              cases hx
              simp only [List.mem_singleton, Prod.mk.injEq] at hb
              exact ⟨[n], hb.1, hb.2 ▸ At.linked hm hr (by simpa using hd)⟩
          · rw [if_neg hr] at hx; cases hx; cases hb
    · rintro ⟨rel, rfl, ha⟩
      have whole : ∀ (f : Nat × Ent → Option (List (List Nat × List Nat))), collect f (t.ls src) = some l → ∀ a ∈ t.ls src, ∃ x, f a = some x := by
        intro f h a ha
        cases hx : f a with
        | none => rw [collect_none ha hx] at h; cases h
        | some x => exact ⟨x, rfl⟩
      cases ha with
      | file hm => exact ⟨_, hm, _, rfl, List.mem_singleton.2 rfl⟩
      | linked hm hr hd =>
        refine ⟨_, hm, [(dst ++ [_], s)], ?_, List.mem_singleton.2 rfl⟩
        dsimp only
        rw [if_pos (List.isPrefixOf_iff_prefix.2 hr), hd]
        rfl
      | dir hm ha =>
        rename_i n rel
        obtain ⟨x, hx⟩ := whole _ h _ hm
        refine ⟨_, hm, x, hx, ?_⟩
        dsimp only at hx
        exact (ih _ _ x hx _ _).2 ⟨rel, by rw [List.append_assoc]; rfl, ha⟩
      | through hm hr hd ha =>
        rename_i n p rel
        obtain ⟨x, hx⟩ := whole _ h _ hm
        refine ⟨_, hm, x, hx, ?_⟩
        dsimp only at hx
        rw [if_pos (List.isPrefixOf_iff_prefix.2 hr), if_pos hd] at hx
        exact (ih _ _ x hx _ _).2 ⟨rel, by rw [List.append_assoc]; rfl, ha⟩

/-- **Only files of the package are copied**: every source is below the
unpacked tree, whatever links the tree holds. -/
theorem copy_reads_inside (t : Tree) (root dst : List Nat) (k : Nat) (l : List (List Nat × List Nat)) (h : copyDir t root k root dst = some l)
    (d s : List Nat) (hm : (d, s) ∈ l) : root <+: s := by
  have key : ∀ {src rel s}, At t root src rel s → root <+: src → root <+: s := by
    intro src rel s ha
    induction ha with
    | file h => intro hs; exact hs.trans (List.prefix_append _ _)
    | linked h hr hd => intro _; exact hr
    | dir h ha ih => intro hs; exact ih (hs.trans (List.prefix_append _ _))
    | through h hr hd ha ih => intro _; exact ih hr
  obtain ⟨rel, _, ha⟩ := (copy_exact t root k root dst l h d s).1 hm
  exact key ha List.prefix_rfl

/-- **Copying ends** for a tree in which going into a directory, by name or
through a link, always brings a measure down.  Full statement: for every tree
the extraction can make; see `self_link_never_ends`. -/
theorem copy_ends_partial (t : Tree) (root : List Nat) (rank : List Nat → Nat)
    (hd : ∀ p n, (n, Ent.dir) ∈ t.ls p → rank (p ++ [n]) < rank p)
    (hl : ∀ p n q, (n, Ent.link (some q)) ∈ t.ls p → t.isDir q = true → rank q < rank p) :
    ∀ (k : Nat) (src dst : List Nat), rank src < k → ∃ l, copyDir t root k src dst = some l := by
  intro k
  induction k with
  | zero => intro src dst h; omega
  | succ k ih =>
    intro src dst h
    rw [copyDir]
    apply collect_some
    rintro ⟨n, e⟩ hm
    cases e with
    | file => exact ⟨_, rfl⟩
    | dir =>
      have := hd src n hm
      dsimp only
      exact ih _ _ (by omega)
    | link p =>
      cases p with
      | none => exact ⟨_, rfl⟩
      | some p =>
        dsimp only
        by_cases hr : root.isPrefixOf p = true
        · rw [if_pos hr]
          by_cases hp : t.isDir p = true
          · rw [if_pos hp]
            have := hl src n p hm hp
            exact ih _ _ (by omega)
          · rw [if_neg hp]; exact ⟨_, rfl⟩
        · rw [if_neg hr]; exact ⟨_, rfl⟩

/-- Finding: a package holding a link to the directory the link is in is
copied into itself without end: no depth suffices. -/
theorem self_link_never_ends (t : Tree) (root p : List Nat) (n : Nat) (hp : root <+: p) (hd : t.isDir p = true)
    (hl : (n, Ent.link (some p)) ∈ t.ls p) : ∀ (k : Nat) (dst : List Nat), copyDir t root k p dst = none := by
  intro k
  induction k with
  | zero => intro dst; rfl
  | succ k ih =>
    intro dst
    rw [copyDir]
    refine collect_none hl ?_
    dsimp only
    rw [if_pos (List.isPrefixOf_iff_prefix.2 hp), if_pos hd]
    exact ih _

/-- And such a package is unpacked as it is: a link 6 to `.` passes the checks
of the extraction. -/
theorem self_link_is_unpacked :
    Extract.extract 40 [1, 2] [⟨⟨false, [.name 6]⟩, false, .symlink (some ⟨false, [.cur]⟩)⟩] Extract.home [1, 2, 6] = some (.link ⟨false, [.cur]⟩) := by
  decide +kernel

/-- Non-vacuity: a directory 5 with a file 7, and a link 6 to it. -/
example :
    let t : Tree := ⟨fun p => if p = [1] then [(5, .dir), (6, .link (some [1, 5])), (8, .link (some [9])), (4, .link none)] else if p = [1, 5] then [(7, .file)] else [],
      fun p => p = [1] ∨ p = [1, 5]⟩
    copyDir t [1] 3 [1] [2] = some [([2, 5, 7], [1, 5, 7]), ([2, 6, 7], [1, 5, 7])] := by decide +kernel

/-! ### Names of the directories -/

/-- The text before the last dot, if there is a dot. -/
def beforeDot (s : List Nat) : Option (List Nat) :=
  match s.reverse.dropWhile (· ≠ 46) with
  | [] => none
  | _ :: r => some r.reverse

/-- The stem of a file name: up to the last dot, unless that is the first
character.  Models `Path::file_stem` for names other than `..`. -/
def stem (s : List Nat) : List Nat :=
  match beforeDot s with
  | some (c :: cs) => c :: cs
  | _ => s

/-- `.staging`. -/
def ext : List Nat := [46, 115, 116, 97, 103, 105, 110, 103]

/-- The name of the staging directory: `with_extension("staging")`.  Models
horus_manager/src/registry/install.rs:811. -/
def stagingName (s : List Nat) : List Nat := stem s ++ ext

/-- The name of the package directory in the global cache.  Models
horus_manager/src/registry/install.rs:803-807. -/
def globalName (name version : List Nat) : List Nat := name ++ [64] ++ version

theorem dropWhile_append_dot (a r : List Nat) (h : 46 ∉ a) : (a ++ 46 :: r).dropWhile (· ≠ 46) = 46 :: r := by
  induction a with
  | nil => simp
  | cons c cs ih =>
    have : c ≠ 46 := fun e => h (e ▸ List.mem_cons_self)
    rw [List.cons_append, List.dropWhile_cons, if_pos (by simpa using this)]
    exact ih (fun hm => h (List.mem_cons_of_mem _ hm))

theorem beforeDot_append (a b : List Nat) (h : 46 ∉ b) : beforeDot (a ++ 46 :: b) = some a := by
  unfold beforeDot
  have e : (a ++ 46 :: b).reverse = b.reverse ++ 46 :: a.reverse := by simp
  rw [e, dropWhile_append_dot _ _ (by simpa using h)]
  simp

/-- Finding: all versions of a package that differ after the last dot share
one staging directory. -/
theorem versions_share_staging (name v a b : List Nat) (ha : 46 ∉ a) (hb : 46 ∉ b) :
    stagingName (globalName name (v ++ 46 :: a)) = stagingName (globalName name (v ++ 46 :: b)) := by
  have e : ∀ x, globalName name (v ++ 46 :: x) = (name ++ [64] ++ v) ++ 46 :: x := by
    intro x; simp [globalName]
  unfold stagingName stem
  rw [e, e, beforeDot_append _ _ ha, beforeDot_append _ _ hb]
  cases hc : name ++ [64] ++ v with
  | nil => simp at hc
  | cons x xs => rfl

/-- Finding: a package whose version ends in `.staging` is its own staging
directory. -/
theorem own_staging (name v : List Nat) : stagingName (globalName name (v ++ ext)) = globalName name (v ++ ext) := by
  have e : globalName name (v ++ ext) = (name ++ [64] ++ v) ++ 46 :: [115, 116, 97, 103, 105, 110, 103] := by simp [globalName, ext]
  unfold stagingName stem
  rw [e, beforeDot_append _ _ (by decide)]
  cases hc : name ++ [64] ++ v with
  | nil => simp at hc
  | cons x xs => rfl

/-- Names in the same directory that never share a staging directory with
another package: names without a dot. -/
theorem plain_staging_distinct (a b : List Nat) (ha : 46 ∉ a) (hb : 46 ∉ b) (h : stagingName a = stagingName b) : a = b := by
  have key : ∀ s : List Nat, 46 ∉ s → stem s = s := by
    intro s hs
    unfold stem beforeDot
    have : s.reverse.dropWhile (· ≠ 46) = [] := by
      have go : ∀ r : List Nat, 46 ∉ r → r.dropWhile (· ≠ 46) = [] := by
        intro r
        induction r with
        | nil => intro _; rfl
        | cons c cs ih =>
          intro hr
          have hc : c ≠ 46 := fun e => hr (e ▸ List.mem_cons_self)
          rw [List.dropWhile_cons, if_pos (by simpa using hc)]
          exact ih (fun hm => hr (List.mem_cons_of_mem _ hm))
      exact go _ (fun hm => hs (List.mem_reverse.1 hm))
    rw [this]
  unfold stagingName at h
  rw [key a ha, key b hb] at h
  exact List.append_cancel_right h

/-- The components of a path text. -/
def comps : List Nat → List (List Nat)
  | [] => [[]]
  | c :: cs =>
    if c = 47 then [] :: comps cs
    else match comps cs with
      | [] => [[c]]
      | x :: xs => (c :: x) :: xs

theorem comps_plain (s : List Nat) (h : 47 ∉ s) : comps s = [s] := by
  induction s with
  | nil => rfl
  | cons c cs ih =>
    have hc : c ≠ 47 := fun e => h (e ▸ List.mem_cons_self)
    rw [comps, if_neg hc, ih (fun hm => h (List.mem_cons_of_mem _ hm))]

/-- A path text followed lexically from a directory: empty components and `.`
stay, `..` goes up. -/
def follow (base : List (List Nat)) : List (List Nat) → List (List Nat)
  | [] => base
  | c :: cs => follow (if c = [] ∨ c = [46] then base else if c = [46, 46] then base.dropLast else base ++ [c]) cs

/-- Finding: a package asked for without a version names the version itself,
and the name is not checked: version `/../../x` of `ab` is put two levels up,
after removing what is there. -/
theorem version_escapes :
    follow [[104], [99]] (comps (globalName [97, 98] [47, 46, 46, 47, 46, 46, 47, 120])) = [[104], [120]] := by decide +kernel

/-- A version without `/` keeps the package directory directly in the cache.
Full statement: for every version a package may claim; see
`version_escapes`. -/
theorem package_dir_in_cache_partial (base : List (List Nat)) (name version : List Nat) (hn : 47 ∉ name) (hv : 47 ∉ version) :
    follow base (comps (globalName name version)) = base ++ [globalName name version] := by
  have h47 : 47 ∉ globalName name version := by simp [globalName, hn, hv]
  have hc : comps (globalName name version) = [globalName name version] := comps_plain _ h47
  have h64 : 64 ∈ globalName name version := by simp [globalName]
  have n1 : globalName name version ≠ [] := by intro e; rw [e] at h64; cases h64
  have n2 : globalName name version ≠ [46] := by intro e; rw [e] at h64; simp at h64
  have n3 : globalName name version ≠ [46, 46] := by intro e; rw [e] at h64; simp at h64
  rw [hc]
  simp [follow, n1, n2, n3]

/-! ### The swap -/

/-- The files of a directory: name and contents. -/
abbrev Dir := List (Nat × Nat)

/-- What is on disk: for each directory name, its files if it exists. -/
abbrev Disk := List Nat → Option Dir

/-- One operation on the disk. -/
inductive Op where
  | drop (n : List Nat)
  | mk (n : List Nat)
  | put (n : List Nat) (f : Nat × Nat)
  | unlink (n : List Nat) (f : Nat × Nat)
  | rename (a b : List Nat)
  deriving DecidableEq

/-- Replace what a name refers to. -/
def set (d : Disk) (n : List Nat) (v : Option Dir) : Disk := fun m => if m = n then v else d m

/-- The effect of an operation; one that cannot be done has none.  `rename`
does not replace a directory that is not empty. -/
def exec (d : Disk) : Op → Disk
  | .drop n => set d n none
  | .mk n => match d n with
    | some _ => d
    | none => set d n (some [])
  | .put n f => match d n with
    | some l => set d n (some (l ++ [f]))
    | none => d
  | .unlink n f => match d n with
    | some l => set d n (some (l.erase f))
    | none => d
  | .rename a b => match d a, d b with
    | some l, none => set (set d a none) b (some l)
    | some l, some [] => set (set d a none) b (some l)
    | _, _ => d

/-- Everything the installer does on disk once the package is unpacked: clear
and make the staging directory, copy, remove the installed package file by
file, rename, write the metadata.

Models horus_manager/src/registry/install.rs:809-840. -/
def program (staging final : List Nat) (src : Dir) (info : Nat × Nat) (old : Option Dir) : List Op :=
  [.drop staging, .mk staging] ++ src.map (.put staging) ++
    (match old with
      | none => []
      | some o => o.map (.unlink final) ++ [.drop final]) ++
    [.rename staging final, .put final info]

/-- Run operations. -/
def runOps (d : Disk) (ops : List Op) : Disk := ops.foldl exec d

/-- The names an operation looks at or changes. -/
def names : Op → List (List Nat)
  | .drop n => [n]
  | .mk n => [n]
  | .put n _ => [n]
  | .unlink n _ => [n]
  | .rename a b => [a, b]

theorem runOps_append (d : Disk) (a b : List Op) : runOps d (a ++ b) = runOps (runOps d a) b := List.foldl_append

theorem set_same (d : Disk) (n : List Nat) (v : Option Dir) : set d n v n = v := by simp [set]

theorem set_ne (d : Disk) {n m : List Nat} (v : Option Dir) (h : m ≠ n) : set d n v m = d m := by simp [set, h]

theorem exec_frame (d : Disk) (op : Op) (n : List Nat) (h : n ∉ names op) : exec d op n = d n := by
  cases op with
  | drop m => simp [names] at h; simp [exec, set_ne _ _ h]
  | mk m => simp [names] at h; simp only [exec]; cases d m <;> simp [set_ne _ _ h]
  | put m f => simp [names] at h; simp only [exec]; cases d m <;> simp [set_ne _ _ h]
  | unlink m f => simp [names] at h; simp only [exec]; cases d m <;> simp [set_ne _ _ h]
  | rename a b =>
    simp [names] at h
    simp only [exec]
    rcases d a with _ | x <;> rcases d b with _ | (_ | ⟨y, ys⟩) <;> simp [set_ne _ _ h.1, set_ne _ _ h.2]

theorem runOps_frame (ops : List Op) (n : List Nat) : ∀ (d : Disk), (∀ op ∈ ops, n ∉ names op) → runOps d ops n = d n := by
  induction ops with
  | nil => intro d _; rfl
  | cons op ops ih =>
    intro d h
    show runOps (exec d op) ops n = d n
    rw [ih _ (fun o ho => h o (List.mem_cons_of_mem _ ho)), exec_frame _ _ _ (h op List.mem_cons_self)]

theorem puts_run (staging : List Nat) : ∀ (fs : Dir) (d : Disk) (l : Dir), d staging = some l → runOps d (fs.map (.put staging)) staging = some (l ++ fs) := by
  intro fs
  induction fs with
  | nil => intro d l h; simpa [runOps] using h
  | cons f fs ih =>
    intro d l h
    show runOps (exec d (.put staging f)) (fs.map (.put staging)) staging = _
    rw [ih _ (l ++ [f]) (by simp [exec, h, set_same])]
    simp

theorem unlinks_run (final : List Nat) : ∀ (o : Dir) (d : Disk), d final = some o → runOps d (o.map (.unlink final)) final = some [] := by
  intro o
  induction o with
  | nil => intro d h; simpa [runOps] using h
  | cons f fs ih =>
    intro d h
    show runOps (exec d (.unlink final f)) (fs.map (.unlink final)) final = _
    exact ih _ (by simp [exec, h, set_same])

/-- Removing the first files of a directory one by one. -/
theorem unlinks_prefix (final : List Nat) : ∀ (o : Dir) (j : Nat) (d : Disk), d final = some o →
    runOps d ((o.map (.unlink final)).take j) final = some (o.drop j) := by
  intro o
  induction o with
  | nil => intro j d h; simpa [runOps] using h
  | cons f fs ih =>
    intro j d h
    cases j with
    | zero => simpa [runOps] using h
    | succ j =>
      show runOps (exec d (.unlink final f)) ((fs.map (.unlink final)).take j) final = _
      exact ih j _ (by simp [exec, h, set_same])

/-- The disk after the copy: the staging directory holds the package, the rest
is as before. -/
theorem staged (staging : List Nat) (src : Dir) (d : Disk) :
    runOps d ([.drop staging, .mk staging] ++ src.map (.put staging)) staging = some src := by
  rw [runOps_append]
  have h0 : runOps d [.drop staging, .mk staging] staging = some [] := by
    simp [runOps, exec, set_same]
  rw [puts_run staging src _ [] h0]
  rfl

/-- **Never a half-copied package.**  Stopped after any number of operations,
the package's directory is missing, holds what is left of the old package,
holds the whole new package, or holds it with its metadata; and a run to the
end installs it.  The staging directory must be another one. -/
theorem swap_crash_points (staging final : List Nat) (src : Dir) (info : Nat × Nat) (d : Disk) (k : Nat) (hne : staging ≠ final) :
    let now := runOps d ((program staging final src info (d final)).take k) final
    (now = none ∨ (∃ o j, d final = some o ∧ now = some (o.drop j)) ∨ now = some src ∨ now = some (src ++ [info])) ∧
      runOps d (program staging final src info (d final)) final = some (src ++ [info]) := by
  have hne' : final ≠ staging := fun e => hne e.symm
  have frame : ∀ ops : List Op, (∀ op ∈ ops, op ∈ [Op.drop staging, .mk staging] ++ src.map (.put staging)) → runOps d ops final = d final := by
    intro ops h
    refine runOps_frame ops final d ?_
    intro op ho
    have := h op ho
    simp only [List.mem_append, List.mem_cons, List.not_mem_nil, or_false, List.mem_map] at this
    rcases this with (rfl | rfl) | ⟨f, _, rfl⟩ <;> simpa [names] using hne'
  have tail : ∀ (d1 : Disk), d1 staging = some src → d1 final = none → ∀ j,
      (runOps d1 ([Op.rename staging final, .put final info].take j) final = none ∨
        runOps d1 ([Op.rename staging final, .put final info].take j) final = some src ∨
        runOps d1 ([Op.rename staging final, .put final info].take j) final = some (src ++ [info])) ∧
      runOps d1 [Op.rename staging final, .put final info] final = some (src ++ [info]) := by
    intro d1 h1 h2 j
    have r1 : exec d1 (.rename staging final) final = some src := by simp [exec, h1, h2, set_same]
    have r2 : exec (exec d1 (.rename staging final)) (.put final info) final = some (src ++ [info]) := by
      simp only [exec] at r1 ⊢
      rw [r1]
      simp [set_same]
    refine ⟨?_, by simpa [runOps] using r2⟩
    match j with
    | 0 => left; simpa [runOps] using h2
    | 1 => right; left; simpa [runOps] using r1
    | j + 2 => right; right; simpa [runOps] using r2
  have hst := staged staging src d
  have hfin := frame ([.drop staging, .mk staging] ++ src.map (.put staging)) (fun _ h => h)
  generalize hA : ([Op.drop staging, .mk staging] ++ src.map (.put staging)) = A at hst hfin frame
  have hprog : ∀ old, program staging final src info old = A ++ ((match old with
      | none => []
      | some o => o.map (.unlink final) ++ [.drop final]) ++ [.rename staging final, .put final info]) := by
    intro old; rw [← hA]; simp [program]
  cases ho : d final with
  | none =>
    rw [hprog]
    dsimp only [List.nil_append]
    rw [ho] at hfin
    refine ⟨?_, by rw [runOps_append]; exact (tail _ hst hfin 0).2⟩
    rw [List.take_append, runOps_append]
    by_cases hk : k ≤ A.length
    · have : k - A.length = 0 := by omega
      rw [this]
      left
      show runOps d (A.take k) final = none
      rw [frame _ (fun op h => List.mem_of_mem_take h), ho]
    · rw [List.take_of_length_le (by omega)]
      rcases (tail _ hst hfin (k - A.length)).1 with h | h | h
      · exact .inl h
      · exact .inr (.inr (.inl h))
      · exact .inr (.inr (.inr h))
  | some o =>
    rw [ho] at hfin
    have hlen : (o.map (Op.unlink final)).length = o.length := by simp
    -- the disk once the old package is gone
    have hfr : ∀ ops : List Op, (∀ op ∈ ops, op ∈ o.map (Op.unlink final) ++ [Op.drop final]) → ∀ d1 : Disk, runOps d1 ops staging = d1 staging := by
      intro ops h d1
      refine runOps_frame ops staging d1 ?_
      intro op hm
      have := h op hm
      simp only [List.mem_append, List.mem_map, List.mem_singleton] at this
      rcases this with ⟨f, _, rfl⟩ | rfl <;> simpa [names] using hne
    have g1 : runOps (runOps d A) (o.map (Op.unlink final) ++ [Op.drop final]) staging = some src := by
      rw [hfr _ (fun _ h => h), hst]
    have g2 : runOps (runOps d A) (o.map (Op.unlink final) ++ [Op.drop final]) final = none := by
      rw [runOps_append]; simp [runOps, exec, set_same]
    rw [hprog]
    dsimp only
    constructor
    · rw [List.take_append, runOps_append]
      by_cases hk : k ≤ A.length
      · have : k - A.length = 0 := by omega
        rw [this]
        right; left
        refine ⟨o, 0, rfl, ?_⟩
        show runOps d (A.take k) final = some o
        rw [frame _ (fun op h => List.mem_of_mem_take h), ho]
      · rw [List.take_of_length_le (show A.length ≤ k by omega)]
        generalize k - A.length = j
        rw [List.take_append, runOps_append]
        by_cases hj : j ≤ (o.map (Op.unlink final) ++ [Op.drop final]).length
        · have : j - (o.map (Op.unlink final) ++ [Op.drop final]).length = 0 := by omega
          rw [this]
          show (runOps (runOps d A) ((o.map (Op.unlink final) ++ [Op.drop final]).take j) final = none ∨ _)
          by_cases hj' : j ≤ o.length
          · right; left
            refine ⟨o, j, rfl, ?_⟩
            rw [List.take_append_of_le_length (by rw [hlen]; exact hj')]
            exact unlinks_prefix final o j _ hfin
          · left
            rw [List.take_of_length_le (by simp; omega)]
            exact g2
        · rw [List.take_of_length_le (by omega)]
          rcases (tail _ g1 g2 (j - (o.map (Op.unlink final) ++ [Op.drop final]).length)).1 with h | h | h
          · exact .inl h
          · exact .inr (.inr (.inl h))
          · exact .inr (.inr (.inr h))
    · rw [runOps_append, runOps_append]
      exact (tail _ g1 g2 0).2

/-- Finding: the swap is not atomic.  Reinstalling over any package there is a
moment when a crash leaves no package at all, neither old nor new. -/
theorem crash_loses_package (staging final : List Nat) (src : Dir) (info : Nat × Nat) (d : Disk) (o : Dir) (ho : d final = some o) :
    ∃ k, runOps d ((program staging final src info (d final)).take k) final = none := by
  refine ⟨2 + src.length + (o.length + 1), ?_⟩
  rw [ho]
  have e : program staging final src info (some o) =
      (([Op.drop staging, .mk staging] ++ src.map (.put staging)) ++ o.map (.unlink final)) ++ [.drop final] ++ [.rename staging final, .put final info] := by
    simp [program]
  rw [e, List.take_append_of_le_length (by simp; omega), List.take_of_length_le (by simp; omega), runOps_append]
  simp [runOps, exec, set_same]

/-- Finding: and one when a package of two or more files is there in part. -/
theorem crash_leaves_half (staging final : List Nat) (src : Dir) (info : Nat × Nat) (d : Disk) (f : Nat × Nat) (o : Dir) (hne : staging ≠ final)
    (ho : d final = some (f :: o)) : ∃ k, runOps d ((program staging final src info (d final)).take k) final = some o := by
  refine ⟨2 + src.length + 1, ?_⟩
  rw [ho]
  have e : program staging final src info (some (f :: o)) =
      (([Op.drop staging, .mk staging] ++ src.map (.put staging)) ++ [.unlink final f]) ++ (o.map (.unlink final) ++ [.drop final, .rename staging final, .put final info]) := by
    simp [program]
  rw [e, List.take_append_of_le_length (by simp; omega), List.take_of_length_le (by simp; omega), runOps_append]
  have hf : runOps d ([Op.drop staging, .mk staging] ++ src.map (.put staging)) final = some (f :: o) := by
    rw [runOps_frame _ final d, ho]
    intro op hm
    simp only [List.mem_append, List.mem_cons, List.not_mem_nil, or_false, List.mem_map] at hm
    rcases hm with (rfl | rfl) | ⟨x, _, rfl⟩ <;> simpa [names] using fun e => hne e.symm
  show exec (runOps d _) (.unlink final f) final = some o
  simp only [exec]
  rw [hf]
  simp [set_same]

/-! ### Two installations at once -/

/-- `l` is an interleaving of `a` and `b`. -/
inductive Mix : List Op → List Op → List Op → Prop
  | done : Mix [] [] []
  | left {x a b l} (h : Mix a b l) : Mix (x :: a) b (x :: l)
  | right {x a b l} (h : Mix a b l) : Mix a (x :: b) (x :: l)

theorem exec_local (op : Op) (d d' : Disk) (N : List Nat → Prop) (hn : ∀ n ∈ names op, N n) (h : ∀ n, N n → d n = d' n) :
    ∀ n, N n → exec d op n = exec d' op n := by
  intro n hN
  have setc : ∀ (m : List Nat) (v : Option Dir) (e e' : Disk), (e n = e' n) → set e m v n = set e' m v n := by
    intro m v e e' he
    unfold set
    split
    · rfl
    · exact he
  cases op with
  | drop m => exact setc _ _ _ _ (h n hN)
  | mk m =>
    have hm := h m (hn m (by simp [names]))
    simp only [exec, hm]
    cases d' m with
    | some x => exact h n hN
    | none => exact setc _ _ _ _ (h n hN)
  | put m f =>
    have hm := h m (hn m (by simp [names]))
    simp only [exec, hm]
    cases d' m with
    | some x => exact setc _ _ _ _ (h n hN)
    | none => exact h n hN
  | unlink m f =>
    have hm := h m (hn m (by simp [names]))
    simp only [exec, hm]
    cases d' m with
    | some x => exact setc _ _ _ _ (h n hN)
    | none => exact h n hN
  | rename a b =>
    have ha := h a (hn a (by simp [names]))
    have hb := h b (hn b (by simp [names]))
    simp only [exec, ha, hb]
    rcases d' a with _ | x <;> rcases d' b with _ | (_ | ⟨y, ys⟩) <;>
      first
        | exact h n hN
        | exact setc _ _ _ _ (setc _ _ _ _ (h n hN))

/-- **Installations of packages with their own directories do not disturb each
other**: in every interleaving, what is under the names the first one uses is
what it would be had the first one run alone. -/
theorem installs_independent {a b l : List Op} (hm : Mix a b l) (N : List Nat → Prop) (ha : ∀ op ∈ a, ∀ n ∈ names op, N n)
    (hb : ∀ op ∈ b, ∀ n ∈ names op, ¬ N n) : ∀ (d d' : Disk), (∀ n, N n → d n = d' n) → ∀ n, N n → runOps d l n = runOps d' a n := by
  induction hm with
  | done => intro d d' h n hN; exact h n hN
  | left hm ih =>
    intro d d' h n hN
    exact ih (fun o ho => ha o (List.mem_cons_of_mem _ ho)) hb _ _ (exec_local _ d d' N (ha _ List.mem_cons_self) h) n hN
  | right hm ih =>
    intro d d' h n hN
    refine ih ha (fun o ho => hb o (List.mem_cons_of_mem _ ho)) _ _ ?_ n hN
    intro m hN'
    rw [exec_frame _ _ _ (fun hc => hb _ List.mem_cons_self m hc hN'), h m hN']

/-- What installing into a fresh pair of directories leaves, whatever another
installation with other directories does meanwhile. -/
theorem undisturbed_install {s f s' f' : List Nat} {src src' : Dir} {i i' : Nat × Nat} {old' : Option Dir} {l : List Op} (d : Disk)
    (hne : s ≠ f) (h1 : s' ≠ s) (h2 : s' ≠ f) (h3 : f' ≠ s) (h4 : f' ≠ f)
    (hm : Mix (program s f src i (d f)) (program s' f' src' i' old') l) : runOps d l f = some (src ++ [i]) := by
  have hn : ∀ (a b : List Nat) (src : Dir) (i : Nat × Nat) (old : Option Dir), ∀ op ∈ program a b src i old, ∀ n ∈ names op, n = a ∨ n = b := by
    intro a b src i old op ho n hn
    unfold program at ho
    cases old <;>
      simp only [List.mem_append, List.mem_cons, List.not_mem_nil, or_false, List.mem_map, false_or] at ho
    · rcases ho with ((rfl | rfl) | ⟨x, _, rfl⟩) | (rfl | rfl) <;> simp [names] at hn <;> tauto
    · rcases ho with (((rfl | rfl) | ⟨x, _, rfl⟩) | (⟨x, _, rfl⟩ | rfl)) | (rfl | rfl) <;> simp [names] at hn <;> tauto
  have := installs_independent hm (fun n => n = s ∨ n = f) (hn s f src i (d f)) (by
    intro op ho n hn' hc
    rcases hn s' f' src' i' old' op ho n hn' with rfl | rfl <;> rcases hc with e | e <;> contradiction) d d (fun _ _ => rfl) f (.inr rfl)
  rw [this]
  exact (swap_crash_points s f src i d 0 hne).2

/-- Finding: two versions installed at once share the staging directory (see
`versions_share_staging`) and one ends up with the other's files: the first
installation runs to its end without an error, and its package is file 20 of
the other one and only its own second file. -/
theorem shared_staging_mixes :
    let S := stagingName (globalName [112] [49, 46, 50, 46, 51])
    let A := globalName [112] [49, 46, 50, 46, 51]
    let B := globalName [112] [49, 46, 50, 46, 52]
    S = stagingName B ∧
    ∃ l, Mix (program S A [(1, 10), (2, 11)] (0, 0) none) ((program S B [(1, 20), (2, 21)] (0, 0) none).take 3) l ∧
      runOps (fun _ => none) l A = some [(1, 20), (2, 11), (0, 0)] := by
  refine ⟨by decide +kernel, ?_⟩
  refine ⟨_, .left (.left (.left (.right (.right (.right (.left (.left (.left .done)))))))), ?_⟩
  decide +kernel

/-- Non-vacuity: reinstalling `[(1, 10)]` over `[(1, 5), (2, 6)]`, all crash
points. -/
example :
    let d : Disk := fun n => if n = [1] then some [(1, 5), (2, 6)] else none
    (List.range 9).map (fun k => runOps d ((program [2] [1] [(1, 10)] (0, 0) (d [1])).take k) [1]) =
      [some [(1, 5), (2, 6)], some [(1, 5), (2, 6)], some [(1, 5), (2, 6)], some [(1, 5), (2, 6)], some [(2, 6)], some [], none, some [(1, 10)], some [(1, 10), (0, 0)]] := by
  decide +kernel

end Horus.Pkg.Install
