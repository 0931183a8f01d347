/-!
# Installing a package together with its dependencies

`horus_manager/src/registry/install.rs:917-929` (a package is put in place and then its dependencies are
installed), `:1970-2119` (`install_dependencies`) and `:306-345` (`install_dependency_spec`, registry
dependencies), `registry/helpers.rs:33-70` (`check_global_version_satisfies`).

Names and versions are numbers.  Installing into a workspace is modelled; every dependency comes from the
HORUS registry.  A download that fails changes nothing.  Build metadata and cache directories without a
version are not modelled.  The resolver is a parameter (its own properties are in `Verif/Pkg/Resolve.lean`).
-/

namespace Horus.DepInstall

/-- A dependency as `extract_package_dependencies` reads it (helpers.rs:948-1012). `here` is the result of
the platform filter (install.rs:1976-1985). -/
structure Dep where
  name : Nat
  req : Nat → Bool
  star : Bool
  here : Bool

/-- The registry and the resolver: which versions can be downloaded, the newest one, the list the
registry offers (`none`: cannot be reached), what a package's manifest asks for, and the resolver. -/
structure World where
  offers : Nat → Nat → Bool
  latest : Nat → Option Nat
  versions : Nat → Option (List Nat)
  deps : Nat → Nat → List Dep
  resolve : List Dep → Option (List (Nat × Nat))

/-- The workspace (`.horus/packages/<name>`, a directory or a link, by version) and the global cache. -/
structure St where
  loc : Nat → Option Nat
  glob : List (Nat × Nat)

def St.put (s : St) (n v : Nat) : St := { s with loc := fun x => if x = n then some v else s.loc x }

/-- install.rs:684-709, 799-880: into the cache with a link when the cache has some version, else into the
workspace; the workspace then has `v` either way. -/
def place (s : St) (n v : Nat) : St :=
  if s.glob.any (·.1 = n) then { s.put n v with glob := if (n, v) ∈ s.glob then s.glob else s.glob ++ [(n, v)] } else s.put n v

/-- `?` in Rust: an error leaves what was done so far. `out` is not a result of the program: it says that
the model's recursion bound was too small. -/
inductive R
  | ok (s : St)
  | err (s : St)
  | out

/-- A `for` loop whose body may fail. -/
def loop {α : Type} (f : St → α → R) : St → List α → R
  | s, [] => .ok s
  | s, a :: l => match f s a with
    | .ok s' => loop f s' l
    | .err s' => .err s'
    | .out => .out

/-- install.rs:2036-2116: one resolved dependency. `exists()` decides, the version is not looked at. -/
def step (inst : St → Nat → Nat → R) (s : St) (d : Nat × Nat) : R :=
  match s.loc d.1 with
  | some _ => .ok s
  | none => if d ∈ s.glob then .ok (s.put d.1 d.2) else inst s d.1 d.2

/-- install.rs:314-341: the version for a registry dependency when the resolver failed; the versions come
sorted (helpers.rs:1630, 1683). -/
def pick (w : World) (d : Dep) : Option Nat :=
  if d.star then w.latest d.name else
    match w.versions d.name with
    | some (v :: vs) => ((v :: vs).filter fun x => d.req x).getLast?
    | _ => w.latest d.name

/-- install.rs:2009-2034: one dependency when the resolver failed. -/
def plain (w : World) (inst : St → Nat → Nat → R) (s : St) (d : Dep) : R :=
  match s.loc d.name with
  | some _ => .ok s
  | none => match pick w d with
    | some v => inst s d.name v
    | none => .err s

/-- `install_dependencies` (install.rs:1970-2119). -/
def all (w : World) (inst : St → Nat → Nat → R) (s : St) (ds : List Dep) : R :=
  match w.resolve (ds.filter (·.here)) with
  | some l => loop (step inst) s l
  | none => loop (plain w inst) s (ds.filter (·.here))

/-- `install_from_registry` (install.rs:399-941): put the package in place, then its dependencies. -/
def install (w : World) : Nat → St → Nat → Nat → R
  | 0, _, _, _ => .out
  | f + 1, s, n, v =>
    if w.offers n v then (if w.deps n v = [] then .ok (place s n v) else all w (install w f) (place s n v) (w.deps n v)) else .err s

/-! ## Specification -/

/-- Everything the packages in the workspace ask for on this platform is in the workspace. -/
def Complete (w : World) (s : St) : Prop := ∀ n v, s.loc n = some v → ∀ d ∈ w.deps n v, d.here = true → s.loc d.name ≠ none

/-- What is required of the resolver (proved of it in `Verif/Pkg/Resolve.lean`, `resolved_is_installable`):
the answer has every package asked for, and everything the chosen versions ask for. -/
structure Resolver (w : World) : Prop where
  roots : ∀ ds l, w.resolve ds = some l → ∀ d ∈ ds, ∃ v, (d.name, v) ∈ l
  closed : ∀ ds l, w.resolve ds = some l → ∀ n v, (n, v) ∈ l → ∀ d ∈ w.deps n v, d.here = true → ∃ u, (d.name, u) ∈ l

/-! ## Proofs -/

/-- Packages that were there stay at their version. -/
def Grows (s s' : St) : Prop := ∀ n v, s.loc n = some v → s'.loc n = some v

theorem Grows.trans {a b c : St} (h : Grows a b) (k : Grows b c) : Grows a c := fun n v e => k n v (h n v e)

theorem Grows.present {a b : St} (h : Grows a b) {n : Nat} (k : a.loc n ≠ none) : b.loc n ≠ none := by
  cases e : a.loc n with
  | none => exact absurd e k
  | some v => simp [h n v e]

theorem place_loc (s : St) (n v m : Nat) : (place s n v).loc m = if m = n then some v else s.loc m := by
  unfold place; split <;> simp [St.put]

/-- Everything is complete except the packages in `P`. -/
def But (w : World) (P : Nat → Nat → Prop) (s : St) : Prop := ∀ n v, s.loc n = some v → P n v ∨ ∀ d ∈ w.deps n v, d.here = true → s.loc d.name ≠ none

/-- What one recursive call gives. -/
def Good (w : World) (inst : St → Nat → Nat → R) : Prop :=
  ∀ s n v s', inst s n v = .ok s' → (∀ m u, m ≠ n → s.loc m = some u → s'.loc m = some u) ∧ s'.loc n = some v ∧ ∀ P, But w P s → But w P s'

theorem But.put {w : World} {P : Nat → Nat → Prop} {s s' : St} (h : But w P s) (n v : Nat) (hl : ∀ m, s'.loc m = if m = n then some v else s.loc m) (hp : P n v) : But w P s' := by
  intro m u e
  rw [hl] at e
  by_cases hm : m = n
  · rw [if_pos hm] at e; cases e; exact Or.inl (hm ▸ hp)
  · rw [if_neg hm] at e
    rcases h m u e with a | a
    · exact Or.inl a
    · refine Or.inr fun d hd hh => ?_
      rw [hl]; split
      · simp
      · exact a d hd hh

theorem Good.grows {w : World} {inst : St → Nat → Nat → R} (hi : Good w inst) {s : St} {n v : Nat} {s' : St} (h : inst s n v = .ok s') (hn : s.loc n = none) : Grows s s' := by
  intro m u e
  exact (hi s n v s' h).1 m u (fun hm => by rw [hm, hn] at e; cases e) e

theorem loop_step {w : World} {inst : St → Nat → Nat → R} (hi : Good w inst) (l : List (Nat × Nat)) : ∀ s s', loop (step inst) s l = .ok s' →
    Grows s s' ∧ (∀ x ∈ l, s'.loc x.1 ≠ none) ∧ ∀ P, (∀ x ∈ l, P x.1 x.2) → But w P s → But w P s' := by
  induction l with
  | nil => intro s s' h; simp only [loop, R.ok.injEq] at h; subst h; exact ⟨fun _ _ h => h, by simp, fun _ _ h => h⟩
  | cons x l ih =>
    intro s s' h
    simp only [loop] at h
    have one : ∃ s1, step inst s x = .ok s1 ∧ loop (step inst) s1 l = .ok s' := by
      cases e : step inst s x with
      | ok s1 => rw [e] at h; exact ⟨s1, rfl, h⟩
      | err s1 => rw [e] at h; cases h
      | out => rw [e] at h; cases h
    obtain ⟨s1, h1, h2⟩ := one
    obtain ⟨g, a, b⟩ := ih s1 s' h2
    have k : Grows s s1 ∧ s1.loc x.1 ≠ none ∧ ∀ P, P x.1 x.2 → But w P s → But w P s1 := by
      unfold step at h1
      cases hs : s.loc x.1 with
      | some u => rw [hs] at h1; simp only [R.ok.injEq] at h1; subst h1; exact ⟨fun _ _ h => h, by simp [hs], fun _ _ h => h⟩
      | none =>
        rw [hs] at h1; dsimp only at h1
        split at h1
        · simp only [R.ok.injEq] at h1; subst h1
          refine ⟨fun n v e => ?_, by simp [St.put], fun P hp hb => hb.put x.1 x.2 (fun _ => rfl) hp⟩
          simp only [St.put]; split
          · rename_i hn; rw [hn, hs] at e; cases e
          · exact e
        · exact ⟨hi.grows h1 hs, by simp [(hi _ _ _ _ h1).2.1], fun P _ hb => (hi _ _ _ _ h1).2.2 P hb⟩
    refine ⟨k.1.trans g, fun y hy => ?_, fun P hp hb => b P (fun y hy => hp y (by simp [hy])) (k.2.2 P (hp x (by simp)) hb)⟩
    rcases List.mem_cons.mp hy with rfl | hy
    · exact g.present k.2.1
    · exact a y hy

theorem loop_plain {w : World} {inst : St → Nat → Nat → R} (hi : Good w inst) (l : List Dep) : ∀ s s', loop (plain w inst) s l = .ok s' →
    Grows s s' ∧ (∀ x ∈ l, s'.loc x.name ≠ none) ∧ ∀ P, But w P s → But w P s' := by
  induction l with
  | nil => intro s s' h; simp only [loop, R.ok.injEq] at h; subst h; exact ⟨fun _ _ h => h, by simp, fun _ h => h⟩
  | cons x l ih =>
    intro s s' h
    simp only [loop] at h
    have one : ∃ s1, plain w inst s x = .ok s1 ∧ loop (plain w inst) s1 l = .ok s' := by
      cases e : plain w inst s x with
      | ok s1 => rw [e] at h; exact ⟨s1, rfl, h⟩
      | err s1 => rw [e] at h; cases h
      | out => rw [e] at h; cases h
    obtain ⟨s1, h1, h2⟩ := one
    obtain ⟨g, a, b⟩ := ih s1 s' h2
    have k : Grows s s1 ∧ s1.loc x.name ≠ none ∧ ∀ P, But w P s → But w P s1 := by
      unfold plain at h1
      cases hs : s.loc x.name with
      | some u => rw [hs] at h1; simp only [R.ok.injEq] at h1; subst h1; exact ⟨fun _ _ h => h, by simp [hs], fun _ h => h⟩
      | none =>
        rw [hs] at h1; dsimp only at h1
        cases hp : pick w x with
        | none => rw [hp] at h1; cases h1
        | some v => rw [hp] at h1; dsimp only at h1; exact ⟨hi.grows h1 hs, by simp [(hi _ _ _ _ h1).2.1], fun P hb => (hi _ _ _ _ h1).2.2 P hb⟩
    refine ⟨k.1.trans g, fun y hy => ?_, fun P hb => b P (k.2.2 P hb)⟩
    rcases List.mem_cons.mp hy with rfl | hy
    · exact g.present k.2.1
    · exact a y hy

theorem all_good {w : World} (hr : Resolver w) {inst : St → Nat → Nat → R} (hi : Good w inst) (ds : List Dep) (s s' : St) (h : all w inst s ds = .ok s') :
    Grows s s' ∧ (∀ d ∈ ds, d.here = true → s'.loc d.name ≠ none) ∧ ∀ P, But w P s → But w P s' := by
  unfold all at h
  cases e : w.resolve (ds.filter (·.here)) with
  | none =>
    rw [e] at h; dsimp only at h
    obtain ⟨g, a, b⟩ := loop_plain hi _ s s' h
    exact ⟨g, fun d hd hh => a d (by simp [hd, hh]), b⟩
  | some l =>
    rw [e] at h; dsimp only at h
    obtain ⟨g, a, b⟩ := loop_step hi l s s' h
    refine ⟨g, fun d hd hh => ?_, fun P hb => ?_⟩
    · obtain ⟨v, hv⟩ := hr.roots _ _ e d (by simp [hd, hh]); exact a _ hv
    · have := b (fun n v => P n v ∨ (n, v) ∈ l) (fun x hx => Or.inr hx) (fun n v e => (hb n v e).imp Or.inl id)
      intro n v hn
      rcases this n v hn with (hp | hl) | hc
      · exact Or.inl hp
      · refine Or.inr fun d hd hh => ?_
        obtain ⟨u, hu⟩ := hr.closed _ _ e n v hl d hd hh
        exact a _ hu
      · exact Or.inr hc

theorem install_good {w : World} (hr : Resolver w) (f : Nat) : Good w (install w f) := by
  induction f with
  | zero => intro s n v s' h; cases h
  | succ f ih =>
    intro s n v s' h
    rw [install] at h
    split at h
    · split at h
      · rename_i hd
        simp only [R.ok.injEq] at h; subst h
        refine ⟨fun m u hm e => by rw [place_loc, if_neg hm]; exact e, by rw [place_loc, if_pos rfl], fun P hb => ?_⟩
        have := (show But w (fun a b => P a b ∨ (a = n ∧ b = v)) s from fun a b e => (hb a b e).imp Or.inl id).put n v (place_loc s n v) (Or.inr ⟨rfl, rfl⟩)
        intro a b e
        rcases this a b e with (hp | ⟨rfl, rfl⟩) | hc
        · exact Or.inl hp
        · right; intro d hd'; rw [hd] at hd'; cases hd'
        · exact Or.inr hc
      · obtain ⟨g, a, b⟩ := all_good hr ih _ _ _ h
        refine ⟨fun m u hm e => g m u (by rw [place_loc, if_neg hm]; exact e), g n v (by rw [place_loc, if_pos rfl]), fun P hb => ?_⟩
        have := (show But w (fun a b => P a b ∨ (a = n ∧ b = v)) s from fun a b e => (hb a b e).imp Or.inl id).put n v (place_loc s n v) (Or.inr ⟨rfl, rfl⟩)
        have := b _ this
        intro x y e
        rcases this x y e with (hp | ⟨rfl, rfl⟩) | hc
        · exact Or.inl hp
        · exact Or.inr a
        · exact Or.inr hc
    · cases h

/-- After a successful installation the package is there at the version asked for, every other package
that was there keeps its version, and everything any package in the workspace asks for is there. -/
theorem installs_everything {w : World} (hr : Resolver w) (f : Nat) (s : St) (n v : Nat) (s' : St) (h : install w f s n v = .ok s') (hc : Complete w s) :
    s'.loc n = some v ∧ (∀ m u, m ≠ n → s.loc m = some u → s'.loc m = some u) ∧ Complete w s' := by
  obtain ⟨a, b, c⟩ := install_good hr f s n v s' h
  refine ⟨b, a, fun m u e => ?_⟩
  rcases c (fun _ _ => False) (fun m u e => Or.inr (hc m u e)) m u e with h | h
  · exact h.elim
  · exact h

/-! ### Nothing but what was asked for -/

/-- Asked for: the package itself, what a chosen version's manifest leads the resolver to choose, and the
plain choice when the resolver fails. -/
inductive Asked (w : World) (n v : Nat) : Nat → Nat → Prop
  | self : Asked w n v n v
  | resolved {m u : Nat} (l : List (Nat × Nat)) (a b : Nat) : Asked w n v m u → w.resolve ((w.deps m u).filter (·.here)) = some l → (a, b) ∈ l → Asked w n v a b
  | plain {m u : Nat} (d : Dep) (b : Nat) : Asked w n v m u → w.resolve ((w.deps m u).filter (·.here)) = none → d ∈ w.deps m u → d.here = true → pick w d = some b → Asked w n v d.name b

theorem Asked.trans {w : World} {n v m u a b : Nat} (h : Asked w n v m u) (k : Asked w m u a b) : Asked w n v a b := by
  induction k with
  | self => exact h
  | resolved l a b _ hl hm ih => exact .resolved l a b ih hl hm
  | plain d b _ hl hd hh hp ih => exact .plain d b ih hl hd hh hp

def R.St? : R → Option St
  | .ok s => some s
  | .err s => some s
  | .out => none

theorem loop_only {α : Type} (f : St → α → R) (Q : Nat → Nat → Prop) (l : List α) (hf : ∀ s, ∀ a ∈ l, ∀ s', (f s a).St? = some s' → ∀ m u, s'.loc m = some u → s.loc m = some u ∨ Q m u) : ∀ s s', (loop f s l).St? = some s' → ∀ m u, s'.loc m = some u → s.loc m = some u ∨ Q m u := by
  induction l with
  | nil => intro s s' h m u e; simp only [loop, R.St?, Option.some.injEq] at h; subst h; exact Or.inl e
  | cons a l ih =>
    intro s s' h m u e
    simp only [loop] at h
    cases h1 : f s a with
    | ok s1 =>
      rw [h1] at h; dsimp only at h
      rcases ih (fun s x hx => hf s x (by simp [hx])) s1 s' h m u e with k | k
      · exact hf s a (by simp) s1 (by rw [h1]; rfl) m u k
      · exact Or.inr k
    | err s1 => rw [h1] at h; dsimp only at h; exact hf s a (by simp) s' (by rw [h1]; exact h) m u e
    | out => rw [h1] at h; cases h

/-- Whether it succeeds or fails, an installation puts nothing into the workspace that was not asked for. -/
theorem only_asked (w : World) (f : Nat) : ∀ (s : St) (n v : Nat) (s' : St), (install w f s n v).St? = some s' → ∀ m u, s'.loc m = some u → s.loc m = some u ∨ Asked w n v m u := by
  induction f with
  | zero => intro s n v s' h; cases h
  | succ f ih =>
    intro s n v s' h m u e
    have hpl : ∀ m u, (place s n v).loc m = some u → s.loc m = some u ∨ Asked w n v m u := by
      intro m u e; rw [place_loc] at e; split at e
      · rename_i hm; cases e; subst hm; exact Or.inr .self
      · exact Or.inl e
    rw [install] at h
    split at h
    · split at h
      · simp only [R.St?, Option.some.injEq] at h; subst h; exact hpl m u e
      · unfold all at h
        have h2 : (place s n v).loc m = some u ∨ Asked w n v m u := by
          cases hr : w.resolve ((w.deps n v).filter (·.here)) with
          | some l =>
            rw [hr] at h; dsimp only at h
            refine loop_only _ (Asked w n v) l ?_ _ s' h m u e
            intro s a ha s' hs m u e
            have hA : Asked w n v a.1 a.2 := .resolved l a.1 a.2 .self hr ha
            unfold step at hs
            cases hl : s.loc a.1 with
            | some y => rw [hl] at hs; simp only [R.St?, Option.some.injEq] at hs; subst hs; exact Or.inl e
            | none =>
              rw [hl] at hs; dsimp only at hs
              split at hs
              · simp only [R.St?, Option.some.injEq] at hs; subst hs
                simp only [St.put] at e; split at e
                · rename_i hm; cases e; subst hm; exact Or.inr hA
                · exact Or.inl e
              · exact (ih s _ _ s' hs m u e).imp id hA.trans
          | none =>
            rw [hr] at h; dsimp only at h
            refine loop_only _ (Asked w n v) _ ?_ _ s' h m u e
            intro s d hd s' hs m u e
            simp only [List.mem_filter] at hd
            unfold plain at hs
            cases hl : s.loc d.name with
            | some y => rw [hl] at hs; simp only [R.St?, Option.some.injEq] at hs; subst hs; exact Or.inl e
            | none =>
              rw [hl] at hs; dsimp only at hs
              cases hp : pick w d with
              | none => rw [hp] at hs; simp only [R.St?, Option.some.injEq] at hs; subst hs; exact Or.inl e
              | some b => rw [hp] at hs; dsimp only at hs; exact (ih s _ _ s' hs m u e).imp id (Asked.trans (.plain d b .self hr hd.1 hd.2 hp))
        rcases h2 with h2 | h2
        · exact hpl m u h2
        · exact Or.inr h2
    · simp only [R.St?, Option.some.injEq] at h; subst h; exact Or.inl e

/-! ### It ends, also with cyclic dependencies -/

def absent (U : List Nat) (s : St) : Nat := (U.filter fun n => s.loc n = none).length

theorem absent_le {U : List Nat} {s s' : St} (h : ∀ n, s.loc n ≠ none → s'.loc n ≠ none) : absent U s' ≤ absent U s := by
  unfold absent
  induction U with
  | nil => simp
  | cons a U ih =>
    simp only [List.filter_cons]
    by_cases h1 : s.loc a = none
    · simp only [h1, decide_true, if_true]; split <;> simp <;> omega
    · simp [h1, h a h1, ih]

theorem absent_lt {U : List Nat} {s s' : St} (h : ∀ n, s.loc n ≠ none → s'.loc n ≠ none) {n : Nat} (hn : n ∈ U) (h1 : s.loc n = none) (h2 : s'.loc n ≠ none) : absent U s' < absent U s := by
  induction U with
  | nil => cases hn
  | cons a U ih =>
    have hle := absent_le (U := U) h
    unfold absent at *
    simp only [List.filter_cons]
    by_cases ha : a = n
    · subst ha; simp [h1, h2]; omega
    · have := ih (by rcases List.mem_cons.mp hn with h | h; exact absurd h.symm ha; exact h)
      by_cases h3 : s.loc a = none
      · simp only [h3, decide_true, if_true]; split <;> simp <;> omega
      · simp [h3, h a h3]; exact this

/-- Presence only grows, whatever the outcome. -/
theorem keeps (w : World) (f : Nat) : ∀ (s : St) (n v : Nat) (s' : St), (install w f s n v).St? = some s' → ∀ m, s.loc m ≠ none → s'.loc m ≠ none := by
  have hloop : ∀ {α : Type} (g : St → α → R) (l : List α), (∀ s a s', (g s a).St? = some s' → ∀ m, s.loc m ≠ none → s'.loc m ≠ none) → ∀ s s', (loop g s l).St? = some s' → ∀ m, s.loc m ≠ none → s'.loc m ≠ none := by
    intro α g l hg
    induction l with
    | nil => intro s s' h m e; simp only [loop, R.St?, Option.some.injEq] at h; subst h; exact e
    | cons a l ih =>
      intro s s' h m e
      simp only [loop] at h
      cases h1 : g s a with
      | ok s1 => rw [h1] at h; exact ih s1 s' h m (hg s a s1 (by rw [h1]; rfl) m e)
      | err s1 => rw [h1] at h; exact hg s a s' (by rw [h1]; exact h) m e
      | out => rw [h1] at h; cases h
  induction f with
  | zero => intro s n v s' h; cases h
  | succ f ih =>
    intro s n v s' h m e
    have hp : (place s n v).loc m ≠ none := by rw [place_loc]; split <;> simp [e]
    rw [install] at h
    split at h
    · split at h
      · simp only [R.St?, Option.some.injEq] at h; subst h; exact hp
      · unfold all at h
        split at h
        · refine hloop _ _ ?_ _ s' h m hp
          intro s a s' hs m e
          unfold step at hs
          split at hs
          · simp only [R.St?, Option.some.injEq] at hs; subst hs; exact e
          · split at hs
            · simp only [R.St?, Option.some.injEq] at hs; subst hs; simp only [St.put]; split <;> simp [e]
            · exact ih _ _ _ _ hs m e
        · refine hloop _ _ ?_ _ s' h m hp
          intro s a s' hs m e
          unfold plain at hs
          split at hs
          · simp only [R.St?, Option.some.injEq] at hs; subst hs; exact e
          · split at hs
            · exact ih _ _ _ _ hs m e
            · simp only [R.St?, Option.some.injEq] at hs; subst hs; exact e
    · simp only [R.St?, Option.some.injEq] at h; subst h; exact e

/-- Installing ends: with finitely many packages `U` reachable, a recursion as deep as the number of
packages not yet there is enough, whatever cycles the manifests contain. -/
theorem ends (w : World) (U : List Nat) (hres : ∀ ds l, w.resolve ds = some l → ∀ x ∈ l, x.1 ∈ U) (hdep : ∀ n v, ∀ d ∈ w.deps n v, d.name ∈ U) (f : Nat) : ∀ (s : St) (n v : Nat), absent U (place s n v) < f → install w f s n v ≠ .out := by
  induction f with
  | zero => intro s n v h; omega
  | succ f ih =>
    intro s n v h
    have hloop : ∀ {α : Type} (g : St → α → R) (l : List α), (∀ s, absent U s ≤ f → ∀ a ∈ l, g s a ≠ .out ∧ ∀ s', g s a = .ok s' → absent U s' ≤ f) → ∀ s, absent U s ≤ f → loop g s l ≠ .out := by
      intro α g l
      induction l with
      | nil => intro _ s _; simp [loop]
      | cons a l ihl =>
        intro hg s hs
        obtain ⟨h1, h2⟩ := hg s hs a (by simp)
        simp only [loop]
        cases e : g s a with
        | ok s1 => exact ihl (fun s hs x hx => hg s hs x (by simp [hx])) s1 (h2 s1 e)
        | err s1 => simp
        | out => exact absurd e h1
    have hrec : ∀ s, absent U s ≤ f → ∀ n v, n ∈ U → s.loc n = none → install w f s n v ≠ .out ∧ ∀ s', install w f s n v = .ok s' → absent U s' ≤ f := by
      intro s hs n v hn hl
      refine ⟨ih s n v (Nat.lt_of_lt_of_le (absent_lt (fun m hm => by rw [place_loc]; split <;> simp [hm]) hn hl (by simp [place_loc])) hs), fun s' h' => ?_⟩
      exact Nat.le_trans (absent_le fun m hm => keeps w f s n v s' (by rw [h']; rfl) m hm) hs
    rw [install]
    split
    · split
      · simp
      · unfold all
        split
        · rename_i l hl
          refine hloop _ l ?_ _ (by omega)
          intro s hs a ha
          unfold step
          split
          · simp [hs]
          · rename_i hn
            split
            · refine ⟨by simp, fun s' h' => ?_⟩
              simp only [R.ok.injEq] at h'; subst h'
              exact Nat.le_trans (absent_le fun m hm => by simp only [St.put]; split <;> simp [hm]) hs
            · exact hrec s hs _ _ (hres _ _ hl a ha) hn
        · refine hloop _ _ ?_ _ (by omega)
          intro s hs a ha
          unfold plain
          split
          · simp [hs]
          · rename_i hn
            split
            · exact hrec s hs _ _ (hdep _ _ a (List.mem_filter.mp ha).1) hn
            · simp
    · simp

/-! ### What is not ensured -/

/-- A package that is in the workspace counts as installed whatever version the resolver chose. -/
theorem present_counts (inst : St → Nat → Nat → R) (s : St) (n v u : Nat) (h : s.loc n = some u) : step inst s (n, v) = .ok s := by
  simp [step, h]

/-- Package 1 wants 2 (any) and 3 below 2; package 2 wants 3 (any). Versions of 3 are 1 and 2. -/
def below2 : Dep := ⟨3, fun v => decide (v < 2), false, true⟩
def any (n : Nat) : Dep := ⟨n, fun _ => true, true, true⟩

/-- A registry whose resolver answers correctly: with the bound, version 1 of package 3; without it, 2. -/
def pinned : World :=
  ⟨fun n v => decide (n = 1 ∧ v = 1) || decide (n = 2 ∧ v = 1) || decide (n = 3 ∧ (v = 1 ∨ v = 2)), fun n => if n = 3 then some 2 else some 1, fun n => if n = 3 then some [1, 2] else some [1],
   fun n _ => if n = 1 then [any 2, below2] else if n = 2 then [any 3] else [],
   fun ds => if ds.all fun d => decide (d.name = 2 ∨ d.name = 3) then
       (if ds.all fun d => decide (d.name = 2) || d.req 2 then some ((if ds.any fun d => decide (d.name = 2) then [(2, 1)] else []) ++ [(3, 2)])
        else some ((if ds.any fun d => decide (d.name = 2) then [(2, 1)] else []) ++ [(3, 1)]))
     else none⟩

def empty : St := ⟨fun _ => none, []⟩

/-- The resolver chose version 1 of package 3 for package 1, but installing package 2 first brings
version 2, which is then taken for version 1: package 1 has a dependency it excludes. -/
theorem bound_broken : ∃ s', install pinned 5 empty 1 1 = .ok s' ∧ s'.loc 3 = some 2 ∧ below2 ∈ pinned.deps 1 1 ∧ below2.req 2 = false ∧ pinned.resolve ((pinned.deps 1 1).filter (·.here)) = some [(2, 1), (3, 1)] :=
  ⟨_, rfl, by decide, by simp [pinned], by decide, by simp [pinned, any, below2]⟩

/-- A dependency that cannot be installed leaves the package in the workspace without it, and the next
installation that needs the package takes it as installed. -/
theorem half_installed_stays (w : World) (f : Nat) (s : St) (n v : Nat) (d : Dep) (ho : w.offers n v = true) (hd : w.deps n v = [d]) (hh : d.here = true) (hn : d.name ≠ n) (ha : s.loc d.name = none) (hr : w.resolve [d] = none) (hp : pick w d = none) (inst : St → Nat → Nat → R) (u : Nat) :
    ∃ s', install w (f + 1) s n v = .err s' ∧ s'.loc n = some v ∧ s'.loc d.name = none ∧ step inst s' (n, u) = .ok s' := by
  refine ⟨place s n v, ?_, by simp [place_loc], by simp [place_loc, hn, ha], by simp [step, place_loc]⟩
  have : (place s n v).loc d.name = none := by simp [place_loc, hn, ha]
  simp [install, ho, hd, all, hh, hr, loop, plain, this, hp]

/-- With the registry out of reach a bound is dropped: the newest version is asked for. -/
theorem unreachable_unbounded (w : World) (d : Dep) (h : w.versions d.name = none) : pick w d = w.latest d.name := by
  simp [pick, h]

/-- With a list of versions, the plain choice meets the bound and is the last in the list to do so. -/
theorem pick_meets (w : World) (d : Dep) (vs : List Nat) (v : Nat) (hs : d.star = false) (hv : w.versions d.name = some vs) (hne : vs ≠ []) (h : pick w d = some v) : v ∈ vs ∧ d.req v = true ∧ ∀ u ∈ vs, d.req u = true → vs.Pairwise (· < ·) → u ≤ v := by
  obtain ⟨a, l, rfl⟩ := List.exists_cons_of_ne_nil hne
  simp only [pick, hs, hv, Bool.false_eq_true, if_false] at h
  have hm := List.mem_of_getLast? h
  simp only [List.mem_filter] at hm
  refine ⟨hm.1, hm.2, fun u hu hq hp => ?_⟩
  have hp' := List.Pairwise.filter (fun x => d.req x) hp
  obtain ⟨ys, hys⟩ := List.getLast?_eq_some_iff.mp h
  have hu' : u ∈ (a :: l).filter fun x => d.req x := by simp only [List.mem_filter]; exact ⟨hu, hq⟩
  rw [hys] at hp' hu'
  rcases List.mem_append.mp hu' with k | k
  · exact Nat.le_of_lt ((List.pairwise_append.mp hp').2.2 u k v (by simp))
  · simp only [List.mem_singleton] at k; omega

/-- The example's resolver meets what is required of a resolver, so the theorems apply to it. -/
theorem pinned_resolver : Resolver pinned := by
  constructor
  · intro ds l h d hd
    simp only [pinned] at h
    split at h
    · rename_i ha
      have := List.all_eq_true.mp ha d hd
      simp only [decide_eq_true_eq] at this
      have h2 : d.name = 2 → (ds.any fun d => decide (d.name = 2)) = true := fun h => List.any_eq_true.mpr ⟨d, hd, by simp [h]⟩
      split at h <;> simp only [Option.some.injEq] at h <;> subst h <;> rcases this with e | e
      · exact ⟨1, by simp [h2 e, e]⟩
      · exact ⟨2, by simp [e]⟩
      · exact ⟨1, by simp [h2 e, e]⟩
      · exact ⟨1, by simp [e]⟩
    · cases h
  · intro ds l h n v hm d hd _
    have hn : n = 2 ∨ n = 3 := by
      simp only [pinned] at h
      split at h
      · split at h <;> simp only [Option.some.injEq] at h <;> subst h <;> simp only [List.mem_append, List.mem_singleton] at hm <;> rcases hm with hm | hm
        · split at hm
          · simp only [List.mem_singleton, Prod.mk.injEq] at hm; exact Or.inl hm.1
          · cases hm
        · simp only [Prod.mk.injEq] at hm; exact Or.inr hm.1
        · split at hm
          · simp only [List.mem_singleton, Prod.mk.injEq] at hm; exact Or.inl hm.1
          · cases hm
        · simp only [Prod.mk.injEq] at hm; exact Or.inr hm.1
      · cases h
    rcases hn with rfl | rfl
    · have : d = any 3 := by simpa [pinned] using hd
      subst this
      simp only [pinned] at h
      split at h
      · split at h <;> simp only [Option.some.injEq] at h <;> subst h
        · exact ⟨2, by simp [any]⟩
        · exact ⟨1, by simp [any]⟩
      · cases h
    · simp [pinned] at hd

example : Complete pinned empty := by intro n v h; cases h
example : (install pinned 5 empty 2 1) = .ok (place (place empty 2 1) 3 2) := rfl

end Horus.DepInstall
