import Mathlib.Order.Basic
import Mathlib.Data.List.Sort
import Mathlib.Data.List.Dedup
import Mathlib.Data.List.MinMax
import Mathlib.Tactic.Common
/-
The package dependency resolver.
Source: /repo/horus_manager/src/dependency_resolver.rs:196-368 (used by registry/install.rs:1970-2015).
Names, version requirements and versions are values of types `N`, `R`, `V`; two requirements are taken
to be the same when they print the same, which is what the code compares (line 233; a name cannot
contain the separating '@', line 89). The registry is an arbitrary `Provider`. Versions are totally
ordered (semver's `Ord`).
-/
namespace Horus.Pkg

variable {N R V : Type} [LinearOrder N] [DecidableEq R] [LinearOrder V]

/-- dependency_resolver.rs:188-194 `PackageProvider`; `none` stands for an `Err`. `sat r v` is
semver's `VersionReq::matches`. -/
structure Provider (N R V : Type) where
  versions : N → Option (List V)
  deps : N → V → Option (List (N × R))
  sat : R → V → Bool

/-- dependency_resolver.rs:239-243: the requirements recorded for a package. -/
def reqsOf (l : List (N × R)) (n : N) : List R := (l.filter (fun d => d.1 = n)).map (·.2)

/-- dependency_resolver.rs:353-368 `find_best_version_with_requirements`: of the versions that satisfy
everything, sorted, the last. -/
def best (p : Provider N R V) (rs : List R) (vs : List V) : Option V :=
  ((vs.filter fun v => rs.all fun r => p.sat r v).insertionSort (· ≤ ·)).getLast?

/-- dependency_resolver.rs:245-256: the dependencies of the version that looks best now. -/
def expand (p : Provider N R V) (l : List (N × R)) (n : N) : List (N × R) :=
  match p.versions n with
  | none => []
  | some vs =>
    match best p (reqsOf l n) vs with
    | none => []
    | some v => (p.deps n v).getD []

/-- dependency_resolver.rs:229-257: breadth-first collection. `l` is what has been recorded, in order;
it is at the same time the set `visited`. The loop has no bound in the code; here the number of rounds
is given, and `none` means that it ran out. -/
def bfs (p : Provider N R V) : Nat → List (N × R) → List (N × R) → Option (List (N × R))
  | _, [], l => some l
  | 0, _ :: _, _ => none
  | f + 1, d :: q, l => if d ∈ l then bfs p f q l else bfs p f (q ++ expand p (l ++ [d]) d.1) (l ++ [d])

/-- dependency_resolver.rs:301-346 `resolve_package` on a fresh resolver: no versions or none that fits is an
error. -/
def choose (p : Provider N R V) (l : List (N × R)) (n : N) : Option V :=
  match p.versions n with
  | none => none
  | some [] => none
  | some (v :: vs) => best p (reqsOf l n) (v :: vs)

/-- dependency_resolver.rs:266-298: every package in the order of the hash map (`order`, arbitrary), the first
failure ends it; the result is sorted by name. -/
def resolveAll (p : Provider N R V) (l : List (N × R)) (order : List N) : Option (List (N × V)) :=
  (order.mapM fun n => (choose p l n).map fun v => (n, v)).map fun xs => xs.insertionSort fun a b => a.1 ≤ b.1

/-- dependency_resolver.rs:213-299 `resolve`. -/
def resolve (p : Provider N R V) (fuel : Nat) (hash : List (N × R) → List N) (roots : List (N × R)) : Option (List (N × V)) :=
  match bfs p fuel roots [] with
  | none => none
  | some l => resolveAll p l (hash l)

/-! ### Specification -/

/-- A hash map is walked in some order that has every key once. -/
def HashOrder (hash : List (N × R) → List N) : Prop := ∀ l, (hash l).Nodup ∧ ∀ n, n ∈ hash l ↔ ∃ r, (n, r) ∈ l

/-- `res` answers the requirement `(n, r)`: it has a version of `n` that satisfies `r`. -/
def Answers (p : Provider N R V) (res : List (N × V)) (d : N × R) : Prop := ∃ v, (d.1, v) ∈ res ∧ p.sat d.2 v = true

/-- A set of packages that can be installed together: one version per name, each on offer, and the
dependencies of each answered. -/
structure Installable (p : Provider N R V) (res : List (N × V)) : Prop where
  one : ∀ n v w, (n, v) ∈ res → (n, w) ∈ res → v = w
  offered : ∀ n v, (n, v) ∈ res → ∃ vs, p.versions n = some vs ∧ v ∈ vs
  closed : ∀ n v ds, (n, v) ∈ res → p.deps n v = some ds → ∀ d ∈ ds, Answers p res d

/-! ### The best version -/

theorem mem_best {p : Provider N R V} {rs : List R} {vs : List V} {v : V} (h : best p rs vs = some v) :
    v ∈ vs ∧ (∀ r ∈ rs, p.sat r v = true) ∧ ∀ w ∈ vs, (∀ r ∈ rs, p.sat r w = true) → w ≤ v := by
  unfold best at h
  set xs := vs.filter fun v => rs.all fun r => p.sat r v with hxs
  have hs : (xs.insertionSort (· ≤ ·)).Pairwise (· ≤ ·) := List.pairwise_insertionSort (· ≤ ·) xs
  have hm : ∀ w, w ∈ xs.insertionSort (· ≤ ·) ↔ w ∈ xs := fun w => List.mem_insertionSort (· ≤ ·)
  obtain ⟨ys, hy⟩ := List.getLast?_eq_some_iff.mp h
  have hv : v ∈ xs := (hm v).mp (by rw [hy]; simp)
  rw [hxs, List.mem_filter, List.all_eq_true] at hv
  refine ⟨hv.1, hv.2, fun w hw hr => ?_⟩
  have hw' : w ∈ xs := by rw [hxs, List.mem_filter, List.all_eq_true]; exact ⟨hw, hr⟩
  have hw2 := (hm w).mpr hw'
  rw [hy] at hw2 hs
  rcases List.mem_append.mp hw2 with h1 | h1
  · exact (List.pairwise_append.mp hs).2.2 w h1 v (List.mem_singleton_self v)
  · rw [List.mem_singleton.mp h1]

theorem best_none {p : Provider N R V} {rs : List R} {vs : List V} :
    best p rs vs = none ↔ ∀ v ∈ vs, ∃ r ∈ rs, p.sat r v = false := by
  unfold best
  rw [List.getLast?_eq_none_iff]
  have h1 : ∀ xs : List V, xs.insertionSort (· ≤ ·) = [] ↔ xs = [] := fun xs => by
    rw [← List.length_eq_zero_iff, List.length_insertionSort, List.length_eq_zero_iff]
  rw [h1, List.filter_eq_nil_iff]
  constructor
  · intro h v hv
    have := h v hv
    rw [List.all_eq_true] at this
    push Not at this
    obtain ⟨r, hr, hs⟩ := this
    exact ⟨r, hr, by simpa using hs⟩
  · intro h v hv hall
    obtain ⟨r, hr, hs⟩ := h v hv
    rw [List.all_eq_true] at hall
    rw [hall r hr] at hs
    cases hs

/-! ### The collection -/

theorem mem_reqsOf {l : List (N × R)} {n : N} {r : R} : r ∈ reqsOf l n ↔ (n, r) ∈ l := by
  unfold reqsOf
  rw [List.mem_map]
  constructor
  · rintro ⟨⟨a, b⟩, h, rfl⟩
    rw [List.mem_filter] at h
    have : a = n := by simpa using h.2
    rw [← this]; exact h.1
  · intro h
    exact ⟨(n, r), by rw [List.mem_filter]; exact ⟨h, by simp⟩, rfl⟩

theorem reqsOf_other {l : List (N × R)} {d : N × R} {n : N} (h : d.1 ≠ n) : reqsOf (l ++ [d]) n = reqsOf l n := by
  unfold reqsOf
  rw [List.filter_append, List.filter_cons_of_neg (by simpa using h)]
  simp

theorem expand_other (p : Provider N R V) {l : List (N × R)} {d : N × R} {n : N} (h : d.1 ≠ n) : expand p (l ++ [d]) n = expand p l n := by
  unfold expand
  rw [reqsOf_other h]

/-- What holds of the collection at any time: everything recorded has been expanded with all the
requirements known so far; what is missing is in the queue. -/
structure Coll (p : Provider N R V) (roots q l : List (N × R)) : Prop where
  roots : ∀ d ∈ roots, d ∈ l ∨ d ∈ q
  exp : ∀ n r, (n, r) ∈ l → ∀ d ∈ expand p l n, d ∈ l ∨ d ∈ q

theorem coll_bfs (p : Provider N R V) (roots : List (N × R)) (f : Nat) (q l l' : List (N × R)) (hI : Coll p roots q l)
    (h : bfs p f q l = some l') : Coll p roots [] l' := by
  induction f generalizing q l with
  | zero =>
    cases q with
    | nil => cases h; exact hI
    | cons d q => cases h
  | succ f ih =>
    cases q with
    | nil => cases h; exact hI
    | cons d q =>
      unfold bfs at h
      split at h
      · rename_i hd
        refine ih q l ⟨fun e he => ?_, fun n r hn e he => ?_⟩ h
        · rcases hI.roots e he with h1 | h1
          · exact Or.inl h1
          · rcases List.mem_cons.mp h1 with h2 | h2
            · exact Or.inl (by rw [h2]; exact hd)
            · exact Or.inr h2
        · rcases hI.exp n r hn e he with h1 | h1
          · exact Or.inl h1
          · rcases List.mem_cons.mp h1 with h2 | h2
            · exact Or.inl (by rw [h2]; exact hd)
            · exact Or.inr h2
      · refine ih _ _ ⟨fun e he => ?_, fun n r hn e he => ?_⟩ h
        · rcases hI.roots e he with h1 | h1
          · exact Or.inl (List.mem_append_left _ h1)
          · rcases List.mem_cons.mp h1 with h2 | h2
            · exact Or.inl (by rw [h2]; simp)
            · exact Or.inr (List.mem_append_left _ h2)
        · by_cases hx : d.1 = n
          · subst hx
            exact Or.inr (List.mem_append_right _ he)
          · rw [expand_other p hx] at he
            have hn' : (n, r) ∈ l := by
              rcases List.mem_append.mp hn with h1 | h1
              · exact h1
              · rw [List.mem_singleton] at h1
                exact absurd (by rw [← h1]) hx
            rcases hI.exp n r hn' e he with h1 | h1
            · exact Or.inl (List.mem_append_left _ h1)
            · rcases List.mem_cons.mp h1 with h2 | h2
              · exact Or.inl (by rw [h2]; simp)
              · exact Or.inr (List.mem_append_left _ h2)

/-! ### The result -/

theorem mapM_some {α β : Type} (f : α → Option β) (xs : List α) (ys : List β) :
    xs.mapM f = some ys ↔ xs.map f = ys.map some := by
  induction xs generalizing ys with
  | nil => cases ys <;> simp
  | cons x xs ih =>
    rw [List.mapM_cons]
    cases hx : f x with
    | none => cases ys <;> simp [hx]
    | some y =>
      cases hm : xs.mapM f with
      | none =>
        cases ys with
        | nil => simp [hx, hm]
        | cons z zs =>
          have := ih zs
          rw [hm] at this
          simp only [reduceCtorEq, false_iff] at this
          simp [hx, hm, this]
      | some ws =>
        cases ys with
        | nil => simp [hx, hm]
        | cons z zs =>
          have := ih zs
          rw [hm] at this
          simp only [Option.some.injEq] at this
          simp [hx, hm, this]

theorem mem_resolveAll {p : Provider N R V} {l : List (N × R)} {order : List N} {res : List (N × V)}
    (h : resolveAll p l order = some res) (n : N) (v : V) :
    (n, v) ∈ res ↔ n ∈ order ∧ choose p l n = some v := by
  unfold resolveAll at h
  rw [Option.map_eq_some_iff] at h
  obtain ⟨xs, hx, rfl⟩ := h
  rw [mapM_some] at hx
  rw [List.mem_insertionSort]
  constructor
  · intro hm
    have : some (n, v) ∈ xs.map some := List.mem_map.mpr ⟨_, hm, rfl⟩
    rw [← hx, List.mem_map] at this
    obtain ⟨m, hm1, hm2⟩ := this
    rw [Option.map_eq_some_iff] at hm2
    obtain ⟨w, hw1, hw2⟩ := hm2
    cases hw2
    exact ⟨hm1, hw1⟩
  · rintro ⟨h1, h2⟩
    have : some (n, v) ∈ order.map fun n => (choose p l n).map fun v => (n, v) := List.mem_map.mpr ⟨n, h1, by rw [h2]; rfl⟩
    rw [hx, List.mem_map] at this
    obtain ⟨y, hy, hy2⟩ := this
    cases hy2
    exact hy

theorem choose_some {p : Provider N R V} {l : List (N × R)} {n : N} {v : V} (h : choose p l n = some v) :
    ∃ vs, p.versions n = some vs ∧ best p (reqsOf l n) vs = some v := by
  unfold choose at h
  split at h
  · cases h
  · cases h
  · rename_i w ws hw
    exact ⟨w :: ws, hw, h⟩

/-- The heart of the matter: a successful resolution answers every root requirement and is installable:
one version per package, all on offer, and the dependencies of each chosen version (where the registry
could name them) are answered by the result. -/
theorem resolved_is_installable (p : Provider N R V) (fuel : Nat) (hash : List (N × R) → List N) (hh : HashOrder hash)
    (roots : List (N × R)) (res : List (N × V)) (h : resolve p fuel hash roots = some res) :
    (∀ d ∈ roots, Answers p res d) ∧ Installable p res := by
  unfold resolve at h
  split at h
  · cases h
  · rename_i l hl
    have hc := coll_bfs p roots fuel roots [] l ⟨fun d hd => Or.inr hd, fun n r hn => by cases hn⟩ hl
    have hroots : ∀ d ∈ roots, d ∈ l := fun d hd => (hc.roots d hd).resolve_right (by simp)
    have hexp : ∀ n r, (n, r) ∈ l → ∀ d ∈ expand p l n, d ∈ l := fun n r hn d hd => (hc.exp n r hn d hd).resolve_right (by simp)
    -- every recorded requirement is answered
    have hans : ∀ d ∈ l, Answers p res d := by
      intro d hd
      have hx : d.1 ∈ hash l := ((hh l).2 d.1).mpr ⟨d.2, hd⟩
      -- the package was resolved, otherwise the whole call had failed
      have : ∃ v, choose p l d.1 = some v := by
        unfold resolveAll at h
        rw [Option.map_eq_some_iff] at h
        obtain ⟨xs, hxs, -⟩ := h
        rw [mapM_some] at hxs
        have : ((choose p l d.1).map fun v => (d.1, v)) ∈ xs.map some := by
          rw [← hxs]; exact List.mem_map.mpr ⟨d.1, hx, rfl⟩
        rw [List.mem_map] at this
        obtain ⟨y, -, hy⟩ := this
        cases hcx : choose p l d.1 with
        | none => rw [hcx] at hy; cases hy
        | some v => exact ⟨v, rfl⟩
      obtain ⟨v, hv⟩ := this
      obtain ⟨vs, -, hb⟩ := choose_some hv
      exact ⟨v, (mem_resolveAll h d.1 v).mpr ⟨hx, hv⟩, (mem_best hb).2.1 d.2 (mem_reqsOf.mpr hd)⟩
    refine ⟨fun d hd => hans d (hroots d hd), ?_, ?_, ?_⟩
    · intro n v w h1 h2
      have e1 := ((mem_resolveAll h n v).mp h1).2
      have e2 := ((mem_resolveAll h n w).mp h2).2
      rw [e1] at e2
      cases e2
      rfl
    · intro n v h1
      obtain ⟨vs, hvs, hb⟩ := choose_some ((mem_resolveAll h n v).mp h1).2
      exact ⟨vs, hvs, (mem_best hb).1⟩
    · intro n v ds h1 hds d hd
      obtain ⟨ho, hcv⟩ := (mem_resolveAll h n v).mp h1
      obtain ⟨r, hr⟩ := ((hh l).2 n).mp ho
      obtain ⟨vs, hvs, hb⟩ := choose_some hcv
      apply hans
      apply hexp n r hr
      unfold expand
      rw [hvs]
      dsimp only
      rw [hb]
      dsimp only
      rw [hds]
      exact hd

/-- The result is sorted by name, has each name once and, for each package, the highest version on
offer that meets all the requirements recorded on it. -/
theorem resolved_highest (p : Provider N R V) (fuel : Nat) (hash : List (N × R) → List N) (hh : HashOrder hash)
    (roots l : List (N × R)) (res : List (N × V)) (hl : bfs p fuel roots [] = some l) (h : resolve p fuel hash roots = some res) :
    res.Pairwise (fun a b => a.1 < b.1) ∧
    ∀ n v, (n, v) ∈ res → (∀ r, (n, r) ∈ l → p.sat r v = true) ∧
      ∀ vs, p.versions n = some vs → ∀ w ∈ vs, (∀ r, (n, r) ∈ l → p.sat r w = true) → w ≤ v := by
  unfold resolve at h
  rw [hl] at h
  dsimp only at h
  refine ⟨?_, fun n v hm => ?_⟩
  · unfold resolveAll at h
    rw [Option.map_eq_some_iff] at h
    obtain ⟨xs, hx, rfl⟩ := h
    rw [mapM_some] at hx
    have hn : (xs.map (·.1)) = hash l := by
      have : (xs.map some).map (fun o => o.map (·.1)) = ((hash l).map fun n => (choose p l n).map fun v => (n, v)).map (fun o => o.map (·.1)) := by rw [hx]
      rw [List.map_map, List.map_map] at this
      have h2 : (xs.map (·.1)).map some = (hash l).map fun n => (choose p l n).map fun _ => n := by
        rw [List.map_map]
        simpa [Function.comp_def] using this
      -- every entry of the right side is `some n`
      have h3 : ∀ n ∈ hash l, ((choose p l n).map fun _ => n) = some n := by
        intro n hn
        have : ((choose p l n).map fun _ => n) ∈ (xs.map (·.1)).map some := by
          rw [h2]; exact List.mem_map.mpr ⟨n, hn, rfl⟩
        rw [List.mem_map] at this
        obtain ⟨y, -, hy⟩ := this
        cases hc : choose p l n with
        | none => rw [hc] at hy; cases hy
        | some v => rfl
      rw [List.map_congr_left h3] at h2
      exact List.map_injective_iff.mpr (Option.some_injective _) h2
    have hsort := List.pairwise_insertionSort (fun a b : N × V => a.1 ≤ b.1) xs
    have hnod : ((xs.insertionSort fun a b => a.1 ≤ b.1).map (·.1)).Nodup :=
      (List.Perm.map (·.1) (List.perm_insertionSort (fun a b : N × V => a.1 ≤ b.1) xs)).nodup_iff.mpr (by rw [hn]; exact (hh l).1)
    rw [List.nodup_iff_pairwise_ne, List.pairwise_map] at hnod
    exact hsort.imp₂ (fun a b h1 h2 => lt_of_le_of_ne h1 h2) hnod
  · obtain ⟨ho, hcv⟩ := (mem_resolveAll h n v).mp hm
    obtain ⟨vs, hvs, hb⟩ := choose_some hcv
    obtain ⟨b1, b2, b3⟩ := mem_best hb
    refine ⟨fun r hr => b2 r (mem_reqsOf.mpr hr), fun vs' hvs' w hw hr => ?_⟩
    rw [hvs] at hvs'
    cases hvs'
    exact b3 w hw (fun r hrr => hr r (mem_reqsOf.mp hrr))

/-- Resolution fails exactly when some package that was reached has no version that meets all the
requirements recorded on it. -/
theorem fails_iff (p : Provider N R V) (fuel : Nat) (hash : List (N × R) → List N) (hh : HashOrder hash)
    (roots l : List (N × R)) (hl : bfs p fuel roots [] = some l) :
    resolve p fuel hash roots = none ↔
      ∃ n, (∃ r, (n, r) ∈ l) ∧ ∀ vs, p.versions n = some vs → ∀ v ∈ vs, ∃ r, (n, r) ∈ l ∧ p.sat r v = false := by
  have hch : ∀ n, choose p l n = none ↔ ∀ vs, p.versions n = some vs → ∀ v ∈ vs, ∃ r, (n, r) ∈ l ∧ p.sat r v = false := by
    intro n
    unfold choose
    split
    · rename_i hv; rw [hv]; simp
    · rename_i hv; rw [hv]; simp
    · rename_i w ws hv
      rw [best_none, hv]
      constructor
      · intro h vs hvs v hvm
        cases hvs
        obtain ⟨r, hr, hs⟩ := h v hvm
        exact ⟨r, mem_reqsOf.mp hr, hs⟩
      · intro h v hvm
        obtain ⟨r, hr, hs⟩ := h _ rfl v hvm
        exact ⟨r, mem_reqsOf.mpr hr, hs⟩
  unfold resolve
  rw [hl]
  dsimp only
  unfold resolveAll
  rw [Option.map_eq_none_iff]
  have key : ∀ order : List N, (order.mapM fun n => (choose p l n).map fun v => (n, v)) = none ↔ ∃ n ∈ order, choose p l n = none := by
    intro order
    induction order with
    | nil => simp
    | cons a as ih =>
      rw [List.mapM_cons]
      cases ha : choose p l a with
      | none => simp [ha]
      | some v =>
        cases hm : (as.mapM fun n => (choose p l n).map fun v => (n, v)) with
        | none =>
          obtain ⟨n, h1, h2⟩ := ih.mp hm
          simp only [Option.map_some, Option.bind_eq_bind, Option.bind_some, Option.bind_none, true_iff]
          exact ⟨n, List.mem_cons_of_mem _ h1, h2⟩
        | some ys =>
          have hno : ¬ ∃ n ∈ as, choose p l n = none := fun hx => by rw [ih.mpr hx] at hm; cases hm
          simp only [Option.map_some, Option.bind_eq_bind, Option.bind_some, Option.pure_def, reduceCtorEq, false_iff]
          rintro ⟨n, h1, h2⟩
          rcases List.mem_cons.mp h1 with h3 | h3
          · rw [h3, ha] at h2; cases h2
          · exact hno ⟨n, h3, h2⟩
  rw [key]
  constructor
  · rintro ⟨n, h1, h2⟩
    exact ⟨n, ((hh l).2 n).mp h1, (hch n).mp h2⟩
  · rintro ⟨n, h1, h2⟩
    exact ⟨n, ((hh l).2 n).mpr h1, (hch n).mpr h2⟩

/-- The order in which the hash map is walked does not matter. -/
theorem order_irrelevant (p : Provider N R V) (fuel : Nat) (h1 h2 : List (N × R) → List N) (hh1 : HashOrder h1) (hh2 : HashOrder h2)
    (roots : List (N × R)) : resolve p fuel h1 roots = resolve p fuel h2 roots := by
  cases hl : bfs p fuel roots [] with
  | none => unfold resolve; rw [hl]
  | some l =>
    cases e1 : resolve p fuel h1 roots with
    | none =>
      have := (fails_iff p fuel h1 hh1 roots l hl).mp e1
      exact ((fails_iff p fuel h2 hh2 roots l hl).mpr this).symm
    | some r1 =>
      cases e2 : resolve p fuel h2 roots with
      | none =>
        have := (fails_iff p fuel h2 hh2 roots l hl).mp e2
        rw [(fails_iff p fuel h1 hh1 roots l hl).mpr this] at e1
        cases e1
      | some r2 =>
        have s1 := (resolved_highest p fuel h1 hh1 roots l r1 hl e1).1
        have s2 := (resolved_highest p fuel h2 hh2 roots l r2 hl e2).1
        have m1 : resolveAll p l (h1 l) = some r1 := by have := e1; unfold resolve at this; rw [hl] at this; exact this
        have m2 : resolveAll p l (h2 l) = some r2 := by have := e2; unfold resolve at this; rw [hl] at this; exact this
        have hperm : r1.Perm r2 := by
          have n1 : r1.Nodup := s1.imp (fun {a b} h hab => by rw [hab] at h; exact lt_irrefl _ h)
          have n2 : r2.Nodup := s2.imp (fun {a b} h hab => by rw [hab] at h; exact lt_irrefl _ h)
          rw [List.perm_ext_iff_of_nodup n1 n2]
          rintro ⟨n, v⟩
          rw [mem_resolveAll m1, mem_resolveAll m2, (hh1 l).2, (hh2 l).2]
        rw [hperm.eq_of_pairwise (fun a b _ _ h1 h2 => absurd h2 (not_lt.mpr h1.le)) s1 s2]

/-! ### It ends -/

theorem bfs_ends (p : Provider N R V) (U : List (N × R)) (hU : ∀ l n, (∀ d ∈ l, d ∈ U) → ∀ d ∈ expand p l n, d ∈ U)
    (k : Nat) (q l : List (N × R)) (hk : (U.filter fun d => d ∉ l).length ≤ k) (hq : ∀ d ∈ q, d ∈ U) (hl : ∀ d ∈ l, d ∈ U) :
    ∃ f, bfs p f q l ≠ none := by
  induction k generalizing q l with
  | zero =>
    -- everything known has been recorded: the queue is only drained
    induction q with
    | nil => exact ⟨0, by simp [bfs]⟩
    | cons d q ih =>
      obtain ⟨f, hf⟩ := ih (fun e he => hq e (List.mem_cons_of_mem _ he))
      refine ⟨f + 1, ?_⟩
      have hd : d ∈ l := by
        by_contra hn
        have : d ∈ U.filter fun d => d ∉ l := List.mem_filter.mpr ⟨hq d (List.mem_cons_self ..), by simpa using hn⟩
        rw [List.length_eq_zero_iff.mp (Nat.le_zero.mp hk)] at this
        cases this
      unfold bfs
      rw [if_pos hd]
      exact hf
  | succ k ih =>
    induction q with
    | nil => exact ⟨0, by simp [bfs]⟩
    | cons d q ihq =>
      by_cases hd : d ∈ l
      · obtain ⟨f, hf⟩ := ihq (fun e he => hq e (List.mem_cons_of_mem _ he))
        refine ⟨f + 1, ?_⟩
        unfold bfs
        rw [if_pos hd]
        exact hf
      · have hdU := hq d (List.mem_cons_self ..)
        have hl' : ∀ e ∈ l ++ [d], e ∈ U := fun e he => by
          rcases List.mem_append.mp he with h | h
          · exact hl e h
          · rw [List.mem_singleton.mp h]; exact hdU
        have hlt : (U.filter fun e => e ∉ l ++ [d]).length < (U.filter fun e => e ∉ l).length := by
          have hsub : (U.filter fun e => e ∉ l ++ [d]) = (U.filter fun e => e ∉ l).filter fun e => e ≠ d := by
            rw [List.filter_filter]
            apply List.filter_congr
            intro e _
            simp [not_or, and_comm]
          rw [hsub]
          apply List.length_filter_lt_length_iff_exists.mpr
          exact ⟨d, List.mem_filter.mpr ⟨hdU, by simpa using hd⟩, by simp⟩
        obtain ⟨f, hf⟩ := ih (q ++ expand p (l ++ [d]) d.1) (l ++ [d]) (by omega)
          (fun e he => by
            rcases List.mem_append.mp he with h | h
            · exact hq e (List.mem_cons_of_mem _ h)
            · exact hU _ _ hl' e h) hl'
        refine ⟨f + 1, ?_⟩
        unfold bfs
        rw [if_neg hd]
        exact hf

/-- Resolution ends, also with circular dependencies, whenever the registry knows only finitely many
different requirements: `U` holds the roots and every dependency of every version. -/
theorem resolution_ends (p : Provider N R V) (U roots : List (N × R)) (hr : ∀ d ∈ roots, d ∈ U)
    (hU : ∀ n v ds, p.deps n v = some ds → ∀ d ∈ ds, d ∈ U) : ∃ f l, bfs p f roots [] = some l := by
  obtain ⟨f, hf⟩ := bfs_ends p U (fun l n _ d hd => by
    unfold expand at hd
    split at hd
    · cases hd
    · split at hd
      · cases hd
      · rename_i v _
        cases hds : p.deps n v with
        | none => rw [hds] at hd; cases hd
        | some ds => rw [hds] at hd; exact hU n v ds hds d hd) _ roots [] (Nat.le_refl _) hr (by simp)
  cases h : bfs p f roots [] with
  | none => exact absurd h hf
  | some l => exact ⟨f, l, h⟩

/-! ### A small registry, and what goes wrong -/

/-- Requirements of the examples: any version, or a version below a bound. -/
inductive Req | any | below (v : Nat)
deriving DecidableEq, Repr

/-- Examples only: matching. -/
def Req.sat : Req → Nat → Bool
  | .any, _ => true
  | .below b, v => v < b

/-- A hash order for the examples. -/
def names (l : List (Nat × Req)) : List Nat := (l.map (·.1)).dedup

theorem names_hash : HashOrder names := by
  intro l
  refine ⟨List.nodup_dedup _, fun n => ?_⟩
  unfold names
  rw [List.mem_dedup, List.mem_map]
  constructor
  · rintro ⟨⟨a, b⟩, h, rfl⟩; exact ⟨b, h⟩
  · rintro ⟨r, h⟩; exact ⟨_, h, rfl⟩

/-- Package 1 has versions 1 and 2; version 2 needs package 3; package 2 needs package 1 below 2, in
its only version; 1 and 2 depend on each other in a circle. -/
def reg : Provider Nat Req Nat :=
  ⟨fun n => if n = 1 then some [1, 2] else if n = 2 then some [1] else if n = 3 then some [5] else none,
   fun n v => if n = 1 ∧ v = 2 then some [(3, .any), (2, .any)] else if n = 1 then some [(2, .any)]
     else if n = 2 then some [(1, .below 2)] else some [],
   Req.sat⟩

/-- Non-vacuity, and the first finding: package 3 is installed although only version 2 of package 1
needs it and version 1 is chosen: requirements of versions that were given up on way stay. -/
theorem unneeded_package :
    resolve reg 20 names [(1, .any), (2, .any)] = some [(1, 1), (2, 1), (3, 5)] ∧
    Installable reg [(1, 1), (2, 1)] := by
  refine ⟨by decide, ⟨?_, ?_, ?_⟩⟩
  · intro n v w h1 h2; simp at h1 h2; omega
  · intro n v h
    simp at h
    rcases h with ⟨rfl, rfl⟩ | ⟨rfl, rfl⟩
    · exact ⟨[1, 2], rfl, by simp⟩
    · exact ⟨[1], rfl, by simp⟩
  · intro n v ds h hd d hm
    simp at h
    rcases h with ⟨rfl, rfl⟩ | ⟨rfl, rfl⟩
    · cases hd
      simp at hm
      subst hm
      exact ⟨1, by simp, rfl⟩
    · cases hd
      simp at hm
      subst hm
      exact ⟨1, by simp, rfl⟩

/-- The same registry, but package 3 is not to be had. -/
def reg' : Provider Nat Req Nat := { reg with versions := fun n => if n = 3 then none else reg.versions n }

/-- Finding: resolution fails although there is a solution. Here the requirement of a version that was
given up cannot be met; `Installable` shows the set that would have worked. -/
theorem solvable_refused :
    resolve reg' 20 names [(1, .any), (2, .any)] = none ∧
    Installable reg' [(1, 1), (2, 1)] ∧ Answers reg' [(1, 1), (2, 1)] (1, .any) ∧ Answers reg' [(1, 1), (2, 1)] (2, .any) := by
  refine ⟨by decide, ⟨?_, ?_, ?_⟩, ⟨1, by simp, rfl⟩, ⟨1, by simp, rfl⟩⟩
  · intro n v w h1 h2; simp at h1 h2; omega
  · intro n v h
    simp at h
    rcases h with ⟨rfl, rfl⟩ | ⟨rfl, rfl⟩
    · exact ⟨[1, 2], rfl, by simp⟩
    · exact ⟨[1], rfl, by simp⟩
  · intro n v ds h hd d hm
    simp at h
    rcases h with ⟨rfl, rfl⟩ | ⟨rfl, rfl⟩
    · cases hd
      simp at hm
      subst hm
      exact ⟨1, by simp, rfl⟩
    · cases hd
      simp at hm
      subst hm
      exact ⟨1, by simp, rfl⟩

/-- A registry whose dependency list cannot be read for package 1. -/
def regBroken : Provider Nat Req Nat := ⟨fun n => if n = 1 then some [1] else none, fun _ _ => none, Req.sat⟩

/-- Finding: if the dependency list of a version cannot be read, it counts as empty and the resolution
is reported as a success. -/
theorem unreadable_deps_ignored : resolve regBroken 5 names [(1, .any)] = some [(1, 1)] := by decide

/-- If nothing was given up on the way — every package looked at has one version only — success and
failure are right: a failure means that no installable set answers the roots (provided the registry can
name all dependencies). Missing from the full claim: packages with a choice (`solvable_refused`). -/
theorem refusal_justified_partial (p : Provider N R V) (fuel : Nat) (hash : List (N × R) → List N) (hh : HashOrder hash)
    (roots l : List (N × R)) (hl : bfs p fuel roots [] = some l) (hone : ∀ n, ∃ v, p.versions n = some [v] ∨ p.versions n = none)
    (hfail : resolve p fuel hash roots = none) (res : List (N × V)) (hI : Installable p res) (hdeps : ∀ n v, p.deps n v ≠ none) :
    ¬ ∀ d ∈ roots, Answers p res d := by
  intro hroots
  -- everything recorded is answered by `res`
  have hall : ∀ (f : Nat) (q l l' : List (N × R)), (∀ d ∈ q, Answers p res d) → (∀ d ∈ l, Answers p res d) →
      bfs p f q l = some l' → ∀ d ∈ l', Answers p res d := by
    intro f
    induction f with
    | zero =>
      intro q l l' hq hl h
      cases q with
      | nil => cases h; exact hl
      | cons d q => cases h
    | succ f ih =>
      intro q l l' hq hl h
      cases q with
      | nil => cases h; exact hl
      | cons d q =>
        unfold bfs at h
        split at h
        · exact ih q l l' (fun e he => hq e (List.mem_cons_of_mem _ he)) hl h
        · have hd := hq d (List.mem_cons_self ..)
          refine ih _ _ l' (fun e he => ?_) (fun e he => ?_) h
          · rcases List.mem_append.mp he with h1 | h1
            · exact hq e (List.mem_cons_of_mem _ h1)
            · -- a dependency of the only version
              unfold expand at h1
              split at h1
              · cases h1
              · rename_i vs hvs
                split at h1
                · cases h1
                · rename_i v hv
                  obtain ⟨w, hw, -⟩ := hd
                  obtain ⟨vs', hvs', hwm⟩ := hI.offered d.1 w hw
                  obtain ⟨u, hu | hu⟩ := hone d.1
                  · rw [hu] at hvs hvs'
                    cases hvs; cases hvs'
                    have h2 : w = u := by simpa using hwm
                    have h3 : v = u := by simpa using (mem_best hv).1
                    rw [h3] at h1
                    rw [h2] at hw
                    cases hds : p.deps d.1 u with
                    | none => exact absurd hds (hdeps _ _)
                    | some ds =>
                      rw [hds] at h1
                      exact hI.closed d.1 u ds hw hds e h1
                  · rw [hu] at hvs; cases hvs
          · rcases List.mem_append.mp he with h1 | h1
            · exact hl e h1
            · rw [List.mem_singleton.mp h1]; exact hd
  obtain ⟨n, ⟨r, hr⟩, hno⟩ := (fails_iff p fuel hash hh roots l hl).mp hfail
  have hans := hall fuel roots [] l hroots (by simp) hl
  obtain ⟨v, hv, -⟩ := hans (n, r) hr
  obtain ⟨vs, hvs, hvm⟩ := hI.offered n v hv
  obtain ⟨r', hr', hbad⟩ := hno vs hvs v hvm
  obtain ⟨w, hw, hsat⟩ := hans (n, r') hr'
  rw [hI.one n w v hw hv] at hsat
  rw [hsat] at hbad
  cases hbad

/-- Non-vacuity of the last theorem: two packages with one version each that exclude each other. -/
example : resolve (⟨fun _ => some [3], fun n _ => if n = 1 then some [(2, Req.below 3)] else some [], Req.sat⟩ : Provider Nat Req Nat)
    10 names [(1, .any)] = none := by decide

end Horus.Pkg
