import Verif.Msg.Model
import Mathlib.Order.Bounds.Defs
import Mathlib.Algebra.Order.Group.Nat
import Mathlib.Data.Nat.Bitwise

/-!
C117: the sizes, alignments and offsets that `horus msg gen` asserts are those of the C rules, and the
printer of `horus topic echo` uses the same ones.
-/

namespace Horus.Msg

/-! ### Specification: the C layout rules

`CTy D t s a`: a value of type `t` takes `s` bytes and starts at a multiple of `a`; `D` gives the fields
of every struct. `CFields D fs c os e a`: with the fields before `fs` ending at `c`, the fields `fs` start
at the offsets `os`, the last one ends at `e` and the strictest alignment among them is `a`. Each field
is placed at the first suitable offset. -/

/-- The struct definitions in force. -/
abbrev Defs := Str → Option (List Field)

/-- `o` is the first multiple of `a` at or after `c`. -/
def FirstAligned (c a o : Nat) : Prop := IsLeast {x | c ≤ x ∧ a ∣ x} o

/-- How many bytes a number type takes, read off its name: `bool` one, the others as many bits as the
number in the name. -/
def width : Str → Nat
  | ['b', 'o', 'o', 'l'] => 1
  | _ :: ds => ds.foldl (fun n c => 10 * n + (c.toNat - '0'.toNat)) 0 / 8
  | [] => 0

mutual
inductive CTy (D : Defs) : Ty → Nat → Nat → Prop
  | prim (p : Prim) : CTy D (.prim p) (width p.rust) (width p.rust)
  | arr {t s a} (n : Nat) (h : CTy D t s a) : CTy D (.arr t n) (s * n) a
  | ref {r fs os e a s} (hd : D r = some fs) (hf : CFields D fs 0 os e a) (hs : FirstAligned e a s) : CTy D (.ref r) s a
inductive CFields (D : Defs) : List Field → Nat → List Nat → Nat → Nat → Prop
  | nil (c : Nat) : CFields D [] c [] c 1
  | cons {f fs c o os s a e A} (ht : CTy D f.ty s a) (ho : FirstAligned c a o) (hr : CFields D fs (o + s) os e A) :
      CFields D (f :: fs) c (o :: os) e (max a A)
end

/-- The definitions of a package. -/
def defs (pkg : List MsgDef) : Defs := fun r => (pkg.find? fun m => m.name == r).map (·.fields)

/-! ### rounding -/

theorem firstAligned_unique {c a o o' : Nat} (h : FirstAligned c a o) (h' : FirstAligned c a o') : o = o' :=
  Nat.le_antisymm (h.2 h'.1) (h'.2 h.1)

theorem firstAligned_ceil {n a : Nat} (ha : 0 < a) : FirstAligned n a ((n + a - 1) - (n + a - 1) % a) := by
  have hm := Nat.mod_lt (n + a - 1) ha
  have hd := Nat.mod_add_div (n + a - 1) a
  refine ⟨⟨by omega, ?_⟩, ?_⟩
  · exact ⟨(n + a - 1) / a, by omega⟩
  · rintro x ⟨hx, ⟨k, rfl⟩⟩
    have h1 : (n + a - 1) / a ≤ k := by
      rw [Nat.div_le_iff_le_mul_add_pred ha]; omega
    have h2 := Nat.mul_le_mul_left a h1
    omega

theorem roundUp_spec (n k : Nat) : FirstAligned n (2 ^ k) (roundUp n (2 ^ k)) := by
  unfold roundUp
  rw [Nat.and_two_pow_sub_one_eq_mod]
  exact firstAligned_ceil (Nat.two_pow_pos k)

/-! ### the generator -/

theorem size_width (p : Prim) : p.size = width p.rust := by cases p <;> rfl

theorem prim_pow (p : Prim) : ∃ k, p.size = 2 ^ k := by
  cases p <;> first | exact ⟨0, rfl⟩ | exact ⟨1, rfl⟩ | exact ⟨2, rfl⟩ | exact ⟨3, rfl⟩

/-- What the environment must say: every entry is the C layout of the struct. -/
def EnvOk (D : Defs) (env : Env) : Prop := ∀ r s a, env r = some (s, a) → CTy D (.ref r) s a ∧ ∃ k, a = 2 ^ k

theorem sizeAlign_spec {D : Defs} {env : Env} (he : EnvOk D env) {t : Ty} {s a : Nat} (h : sizeAlign env t = .ok (s, a)) :
    CTy D t s a ∧ ∃ k, a = 2 ^ k := by
  induction t generalizing s a with
  | prim p => cases h; exact ⟨by rw [size_width]; exact .prim p, prim_pow p⟩
  | arr t n ih =>
    unfold sizeAlign at h
    cases hx : sizeAlign env t with
    | error e => rw [hx] at h; cases h
    | ok x =>
      obtain ⟨s', a'⟩ := x
      rw [hx] at h
      cases h
      obtain ⟨h1, h2⟩ := ih hx
      exact ⟨.arr n h1, h2⟩
  | ref r =>
    unfold sizeAlign at h
    cases hx : env r with
    | none => rw [hx] at h; cases h
    | some x => rw [hx] at h; cases h; exact he r s a hx

theorem max_pow {a b : Nat} (ha : ∃ k, a = 2 ^ k) (hb : ∃ k, b = 2 ^ k) : ∃ k, max a b = 2 ^ k := by
  rcases Nat.le_total a b with h | h
  · rw [Nat.max_eq_right h]; exact hb
  · rw [Nat.max_eq_left h]; exact ha

theorem place_spec {D : Defs} {env : Env} (he : EnvOk D env) (fs : List Field) {c A u : Nat} {r}
    (hA : ∃ k, A = 2 ^ k) (h : place env c A u fs = .ok r) :
    ∃ B, CFields D fs c (r.1.map (·.1)) r.2.1 B ∧ r.2.2.1 = max A B ∧ (∃ k, B = 2 ^ k) ∧
      r.2.2.2 = u + (r.1.map (·.2.1)).sum ∧
      List.Forall₂ (fun f x => CTy D f.ty x.2.1 x.2.2) fs r.1 := by
  induction fs generalizing c A u r with
  | nil =>
    cases h
    obtain ⟨k, rfl⟩ := hA
    exact ⟨1, .nil c, by simp; exact Nat.two_pow_pos k, ⟨0, rfl⟩, by simp, .nil⟩
  | cons f fs ih =>
    unfold place at h
    cases hx : sizeAlign env f.ty with
    | error e => rw [hx] at h; cases h
    | ok x =>
      obtain ⟨s, a⟩ := x
      rw [hx] at h
      simp only [bind, Except.bind] at h
      cases hy : place env (roundUp c a + s) (max A a) (u + s) fs with
      | error e => rw [hy] at h; cases h
      | ok y =>
        rw [hy] at h
        cases h
        obtain ⟨ht, hk⟩ := sizeAlign_spec he hx
        obtain ⟨B, h1, h2, h3, h4, h5⟩ := ih (max_pow hA hk) hy
        obtain ⟨k, rfl⟩ := hk
        refine ⟨max (2 ^ k) B, .cons ht (roundUp_spec c k) h1, ?_, max_pow ⟨k, rfl⟩ h3, ?_, .cons ht h5⟩
        · rw [h2, Nat.max_assoc]
        · rw [h4]; simp [Nat.add_assoc]

theorem compute_spec {D : Defs} {env : Env} (he : EnvOk D env) {m : MsgDef} {l : Layout} (h : compute env m = .ok l) :
    ∃ e, CFields D m.fields 0 (l.fields.map (·.1)) e l.align ∧ FirstAligned e l.align l.size ∧
      l.padding = l.size - (l.fields.map (·.2.1)).sum ∧ (∃ k, l.align = 2 ^ k) ∧
      List.Forall₂ (fun f x => CTy D f.ty x.2.1 x.2.2) m.fields l.fields := by
  unfold compute at h
  cases hx : place env 0 1 0 m.fields with
  | error e => rw [hx] at h; cases h
  | ok r =>
    rw [hx] at h
    cases h
    obtain ⟨B, h1, h2, h3, h4, h5⟩ := place_spec he m.fields ⟨0, rfl⟩ hx
    have hB : r.2.2.1 = B := by
      obtain ⟨k, rfl⟩ := h3
      rw [h2]; exact Nat.max_eq_right (Nat.two_pow_pos k)
    refine ⟨r.2.1, ?_, ?_, ?_, ?_, h5⟩
    · rw [hB]; exact h1
    · obtain ⟨k, rfl⟩ := h3
      rw [hB]; exact roundUp_spec r.2.1 k
    · show _ = _ - _
      rw [h4]; simp
    · rw [hB]; exact h3

/-- The layout that the C rules give a message of a package. -/
structure IsCLayout (D : Defs) (m : MsgDef) (l : Layout) : Prop where
  /-- the fields are where the C rules put them, and the size is the end rounded up -/
  offsets : ∃ e, CFields D m.fields 0 (l.fields.map (·.1)) e l.align ∧ FirstAligned e l.align l.size
  /-- each field has the size and alignment of its type -/
  sizes : List.Forall₂ (fun f x => CTy D f.ty x.2.1 x.2.2) m.fields l.fields
  /-- the padding reported is what the fields do not use -/
  pad : l.padding + (l.fields.map (·.2.1)).sum = l.size

theorem cfields_room {D : Defs} {fs : List Field} {c : Nat} {xs : List (Nat × Nat × Nat)} {e a : Nat}
    (h : CFields D fs c (xs.map (·.1)) e a) (hx : List.Forall₂ (fun f x => CTy D f.ty x.2.1 x.2.2) fs xs)
    (hu : ∀ t s a s' a', CTy D t s a → CTy D t s' a' → s = s' ∧ a = a') :
    c + (xs.map (·.2.1)).sum ≤ e := by
  induction hx generalizing c a with
  | nil => cases h; simp
  | @cons f x fs xs h1 h2 ih =>
    cases h with
    | cons ht ho hr =>
      have := ih hr
      have e1 := (hu _ _ _ _ _ h1 ht).1
      have := ho.1.1
      simp only [List.map_cons, List.sum_cons]
      omega

/-- The C rules give one answer. -/
theorem cty_unique {D : Defs} {t : Ty} {s a : Nat} (h : CTy D t s a) : ∀ s' a', CTy D t s' a' → s = s' ∧ a = a' := by
  refine CTy.rec (motive_1 := fun t s a _ => ∀ s' a', CTy D t s' a' → s = s' ∧ a = a')
    (motive_2 := fun fs c os e a _ => ∀ os' e' a', CFields D fs c os' e' a' → os = os' ∧ e = e' ∧ a = a')
    ?_ ?_ ?_ ?_ ?_ h
  · rintro p s' a' ⟨⟩; exact ⟨rfl, rfl⟩
  · intro t s a n _ ih s' a' h'
    cases h' with
    | arr n h2 => obtain ⟨rfl, rfl⟩ := ih _ _ h2; exact ⟨rfl, rfl⟩
  · intro r fs os e a s hd _ hs ih s' a' h'
    cases h' with
    | ref hd' hf' hs' =>
      rw [hd] at hd'
      cases hd'
      obtain ⟨rfl, rfl, rfl⟩ := ih _ _ _ hf'
      exact ⟨firstAligned_unique hs hs', rfl⟩
  · intro c os' e' a' h'
    cases h'
    exact ⟨rfl, rfl, rfl⟩
  · intro f fs c o os s a e A _ ho _ ih1 ih2 os' e' a' h'
    cases h' with
    | cons ht' ho' hr' =>
      obtain ⟨rfl, rfl⟩ := ih1 _ _ ht'
      have := firstAligned_unique ho ho'
      subst this
      obtain ⟨rfl, rfl, rfl⟩ := ih2 _ _ _ hr'
      exact ⟨rfl, rfl, rfl⟩

theorem compute_isC {D : Defs} {env : Env} (he : EnvOk D env) {m : MsgDef} {l : Layout} (h : compute env m = .ok l) :
    IsCLayout D m l ∧ ∃ k, l.align = 2 ^ k := by
  obtain ⟨e, h1, h2, h3, h4, h5⟩ := compute_spec he h
  refine ⟨⟨⟨e, h1, h2⟩, h5, ?_⟩, h4⟩
  have := cfields_room h1 h5 (fun t s a s' a' x y => cty_unique x s' a' y)
  have := h2.1.1
  omega

theorem layouts_spec {pkg : List MsgDef} (hnd : (pkg.map (·.name)).Nodup) (pre ms : List MsgDef) (hp : pkg = pre ++ ms)
    {env : Env} (he : EnvOk (defs pkg) env) {ls : List Layout} (h : layouts env ms = .ok ls) :
    List.Forall₂ (IsCLayout (defs pkg)) ms ls := by
  induction ms generalizing pre env ls with
  | nil => cases h; exact .nil
  | cons m ms ih =>
    unfold layouts at h
    cases hx : compute env m with
    | error e => rw [hx] at h; cases h
    | ok l =>
      rw [hx] at h
      simp only [bind, Except.bind] at h
      cases hy : layouts (fun r => if r = m.name then some (l.size, l.align) else env r) ms with
      | error e => rw [hy] at h; cases h
      | ok ls' =>
        rw [hy] at h
        cases h
        obtain ⟨hc, hk⟩ := compute_isC he hx
        refine .cons hc (ih (pre ++ [m]) (by simp [hp]) ?_ hy)
        intro r s a hr
        replace hr : (if r = m.name then some (l.size, l.align) else env r) = some (s, a) := hr
        by_cases e : r = m.name
        · rw [if_pos e] at hr
          cases hr
          refine ⟨?_, hk⟩
          obtain ⟨e', h1, h2⟩ := hc.offsets
          refine .ref (fs := m.fields) ?_ h1 h2
          have hmem : m ∈ pkg := by rw [hp]; simp
          unfold defs
          have : pkg.find? (fun m' => m'.name == r) = some m := by
            rw [List.find?_eq_some_iff_append]
            refine ⟨by simp [e], pre, ms, hp, ?_⟩
            intro x hxp
            have hne : x.name ≠ m.name := by
              rw [hp, List.map_append, List.nodup_append] at hnd
              intro ex
              exact hnd.2.2 x.name (List.mem_map_of_mem hxp) m.name (by simp) ex
            simp [e, hne]
          rw [this]; rfl
        · rw [if_neg e] at hr
          exact he r s a hr

/-- C117. When `horus msg gen` accepts a package, the size, alignment and offsets it asserts for every
message, in every language, are those the C rules give, for messages nested in any way. -/
theorem generated_layout_is_c {pkg : List MsgDef} {ls : List Layout} (h : generate pkg = .ok ls) :
    List.Forall₂ (IsCLayout (defs pkg)) pkg ls := by
  unfold generate at h
  split_ifs at h with h1 h2
  exact layouts_spec h1 [] pkg rfl (fun r s a hr => by cases hr) h

/-! ### what the C rules guarantee -/

/-- In a C layout the fields are in order, do not overlap, are aligned, and lie inside the message;
the size is a multiple of the alignment, so arrays of the message are aligned too. -/
theorem fields_disjoint {D : Defs} {m : MsgDef} {l : Layout} (h : IsCLayout D m l) :
    l.fields.Pairwise (fun x y => x.1 + x.2.1 ≤ y.1) ∧
      (∀ x ∈ l.fields, x.1 + x.2.1 ≤ l.size ∧ x.2.2 ∣ x.1) ∧ l.align ∣ l.size := by
  obtain ⟨⟨e, h1, h2⟩, h3, -⟩ := h
  have key : ∀ (fs : List Field) (xs : List (Nat × Nat × Nat)) (c e a : Nat),
      List.Forall₂ (fun f x => CTy D f.ty x.2.1 x.2.2) fs xs → CFields D fs c (xs.map (·.1)) e a →
      xs.Pairwise (fun x y => x.1 + x.2.1 ≤ y.1) ∧ (∀ x ∈ xs, c ≤ x.1 ∧ x.1 + x.2.1 ≤ e ∧ x.2.2 ∣ x.1) ∧ c ≤ e := by
    intro fs xs c e a hx
    induction hx generalizing c a with
    | nil => intro h; cases h; simp
    | @cons f x fs xs h1 h2 ih =>
      intro h
      cases h with
      | cons ht ho hr =>
        obtain ⟨i1, i2, i3⟩ := ih _ _ hr
        obtain ⟨rfl, rfl⟩ := cty_unique h1 _ _ ht
        have hc := ho.1.1
        refine ⟨List.pairwise_cons.mpr ⟨fun y hy => (i2 y hy).1, i1⟩, ?_, by omega⟩
        intro y hy
        rcases List.mem_cons.mp hy with rfl | hy
        · exact ⟨hc, by omega, ho.1.2⟩
        · obtain ⟨j1, j2, j3⟩ := i2 y hy
          exact ⟨by omega, j2, j3⟩
  obtain ⟨k1, k2, k3⟩ := key _ _ _ _ _ h3 h1
  refine ⟨k1, fun x hx => ⟨?_, (k2 x hx).2.2⟩, h2.1.2⟩
  have := (k2 x hx).2.1
  have := h2.1.1
  omega

/-- A package the generator refuses is one that names a message twice, or uses a name that is not
declared before the message using it. -/
theorem layouts_error {env : Env} {pkg : List MsgDef} {r : Str} (h : layouts env pkg = .error r) :
    ∃ pre m post, pkg = pre ++ m :: post ∧ (∃ f ∈ m.fields, r ∈ f.ty.refs) ∧ r ∉ pre.map (·.name) ∧ env r = none := by
  have hs : ∀ (env : Env) (t : Ty) (r : Str), sizeAlign env t = .error r → r ∈ t.refs ∧ env r = none := by
    intro env t r
    induction t with
    | prim p => intro h; cases h
    | arr t n ih =>
      intro h
      unfold sizeAlign at h
      cases hx : sizeAlign env t with
      | error e => rw [hx] at h; cases h; exact ih hx
      | ok x => rw [hx] at h; cases h
    | ref q =>
      intro h
      unfold sizeAlign at h
      cases hx : env q with
      | none => rw [hx] at h; cases h; exact ⟨List.mem_singleton.mpr rfl, hx⟩
      | some x => rw [hx] at h; cases h
  have hp : ∀ (env : Env) (fs : List Field) (c A u : Nat) (r : Str), place env c A u fs = .error r →
      (∃ f ∈ fs, r ∈ f.ty.refs) ∧ env r = none := by
    intro env fs
    induction fs with
    | nil => intro c A u r h; cases h
    | cons f fs ih =>
      intro c A u r h
      unfold place at h
      cases hx : sizeAlign env f.ty with
      | error e =>
        rw [hx] at h; cases h
        obtain ⟨i1, i2⟩ := hs env f.ty _ hx
        exact ⟨⟨f, List.mem_cons_self, i1⟩, i2⟩
      | ok x =>
        rw [hx] at h
        simp only [bind, Except.bind] at h
        cases hy : place env (roundUp c x.2 + x.1) (max A x.2) (u + x.1) fs with
        | error e =>
          rw [hy] at h; cases h
          obtain ⟨⟨g, hg, i1⟩, i2⟩ := ih _ _ _ _ hy
          exact ⟨⟨g, List.mem_cons_of_mem _ hg, i1⟩, i2⟩
        | ok y => rw [hy] at h; cases h
  induction pkg generalizing env with
  | nil => cases h
  | cons m ms ih =>
    unfold layouts at h
    cases hx : compute env m with
    | error e =>
      rw [hx] at h; cases h
      unfold compute at hx
      cases hy : place env 0 1 0 m.fields with
      | error e' =>
        rw [hy] at hx; cases hx
        obtain ⟨i1, i2⟩ := hp _ _ _ _ _ _ hy
        exact ⟨[], m, ms, rfl, i1, by simp, i2⟩
      | ok y => rw [hy] at hx; cases hx
    | ok l =>
      rw [hx] at h
      simp only [bind, Except.bind] at h
      cases hy : layouts (fun r => if r = m.name then some (l.size, l.align) else env r) ms with
      | ok ls => rw [hy] at h; cases h
      | error e =>
        rw [hy] at h; cases h
        obtain ⟨pre, m', post, i1, i2, i3, i4⟩ := ih hy
        have hne : r ≠ m.name := by
          intro e; rw [if_pos e] at i4; cases i4
        rw [if_neg hne] at i4
        exact ⟨m :: pre, m', post, by rw [i1]; rfl, i2, by simp [hne, i3], i4⟩

/-- C117, acceptance: a package with distinct names in which every message only uses messages declared
before it is accepted. -/
theorem ordered_package_accepted (pkg : List MsgDef) (hnd : (pkg.map (·.name)).Nodup)
    (ho : ∀ pre m post, pkg = pre ++ m :: post → ∀ f ∈ m.fields, ∀ r ∈ f.ty.refs, r ∈ pre.map (·.name)) :
    ∃ ls, generate pkg = .ok ls := by
  unfold generate
  have h2 : ∀ m ∈ pkg, ∀ f ∈ m.fields, ∀ r ∈ f.ty.refs, r ∈ pkg.map (·.name) := by
    intro m hm f hf r hr
    obtain ⟨pre, post, e⟩ := List.append_of_mem hm
    have := ho pre m post e f hf r hr
    rw [e, List.map_append]
    exact List.mem_append_left _ this
  rw [if_neg (by simpa using hnd), if_neg (not_not.mpr h2)]
  cases h : layouts (fun _ => none) pkg with
  | ok ls => exact ⟨ls, rfl⟩
  | error r =>
    obtain ⟨pre, m, post, e, ⟨f, hf, hr⟩, hn, -⟩ := layouts_error h
    exact absurd (ho pre m post e f hf r hr) hn

/-- The hypotheses are met by a nested package: `Point { x: f32, tag: u8 }` is 8 bytes, and
`Path { n: u16, pts: [Point; 3], t: u64 }` puts its fields at 0, 4 and 32, with 6 bytes of padding of its
own. -/
example : generate [⟨['P'], [⟨['x'], .prim .f32⟩, ⟨['g'], .prim .u8⟩], none⟩,
      ⟨['Q'], [⟨['n'], .prim .u16⟩, ⟨['p'], .arr (.ref ['P']) 3⟩, ⟨['t'], .prim .u64⟩], none⟩] =
    .ok [⟨[(0, 4, 4), (4, 1, 1)], 8, 4, 3⟩, ⟨[(0, 2, 2), (4, 24, 4), (32, 8, 8)], 40, 8, 6⟩] := by
  decide +kernel

end Horus.Msg
