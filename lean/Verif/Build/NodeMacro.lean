import Mathlib.Data.List.Basic
import Mathlib.Data.List.Nodup
import Mathlib.Data.List.Perm.Basic
import Mathlib.Tactic

/-!
# The `node!` macro and the names nodes get

`horus_macros/src/node.rs`, `horus_core/src/core/node.rs` (the `Node` trait).  Expressions, types and bodies are
opaque texts; the Rust grammar below the section level is not modelled.
-/

namespace Horus.NodeMacro

abbrev Text := List Char

/-- One line of a `pub` or `sub` section (node.rs:10-16). -/
structure TopicF where
  name : Text
  ty : Text
  topic : Text
  deriving DecidableEq, Repr

/-- One line of a `data` section (node.rs:19-24). -/
structure DataF where
  name : Text
  ty : Text
  dflt : Option Text
  deriving DecidableEq, Repr

/-- The sections as written (node.rs:105-190). -/
inductive Sec
  | name (s : Text)
  | pub (fs : List TopicF)
  | sub (fs : List TopicF)
  | data (fs : List DataF)
  | tick (b : Text)
  | init (b : Text)
  | shutdown (b : Text)
  | methods (ms : List Text)
  | rate
  | unknown (s : Text)
  deriving DecidableEq, Repr

/-- Which section it is, its keyword. -/
inductive Kind
  | name | pub | sub | data | tick | init | shutdown | methods | other
  deriving DecidableEq, Repr

def Sec.kind : Sec → Kind
  | .name _ => .name
  | .pub _ => .pub
  | .sub _ => .sub
  | .data _ => .data
  | .tick _ => .tick
  | .init _ => .init
  | .shutdown _ => .shutdown
  | .methods _ => .methods
  | .rate => .other
  | .unknown _ => .other

/-- The sections read so far (node.rs:96-103). -/
structure Acc where
  name : Option Text := none
  pub : Option (List TopicF) := none
  sub : Option (List TopicF) := none
  data : Option (List DataF) := none
  tick : Option Text := none
  init : Option Text := none
  shutdown : Option Text := none
  methods : Option (List Text) := none
  deriving DecidableEq, Repr

/-- One turn of the loop (node.rs:105-190): a repeated section, `rate` and an unknown word are errors. -/
def step (a : Acc) : Sec → Option Acc
  | .name v => if a.name.isSome then none else some { a with name := some v }
  | .pub v => if a.pub.isSome then none else some { a with pub := some v }
  | .sub v => if a.sub.isSome then none else some { a with sub := some v }
  | .data v => if a.data.isSome then none else some { a with data := some v }
  | .tick v => if a.tick.isSome then none else some { a with tick := some v }
  | .init v => if a.init.isSome then none else some { a with init := some v }
  | .shutdown v => if a.shutdown.isSome then none else some { a with shutdown := some v }
  | .methods v => if a.methods.isSome then none else some { a with methods := some v }
  | .rate => none
  | .unknown _ => none

def readAll : Acc → List Sec → Option Acc
  | a, [] => some a
  | a, s :: r => (step a s).bind fun b => readAll b r

/-- `NodeDef::parse` (node.rs:88-209): `tick` is required. -/
def parse (secs : List Sec) : Option Acc := (readAll {} secs).bind fun a => if a.tick.isSome then some a else none

/-! ## Specification: which definitions are accepted, and what is recorded -/

/-- What the accepted definition says. -/
def Says (a : Acc) : Sec → Prop
  | .name v => a.name = some v
  | .pub v => a.pub = some v
  | .sub v => a.sub = some v
  | .data v => a.data = some v
  | .tick v => a.tick = some v
  | .init v => a.init = some v
  | .shutdown v => a.shutdown = some v
  | .methods v => a.methods = some v
  | .rate => False
  | .unknown _ => False

theorem step_some (a b : Acc) (s : Sec) (h : step a s = some b) :
    s.kind ≠ .other ∧ (∀ t, Says a t → t.kind ≠ s.kind) ∧ ∀ t, Says b t ↔ Says a t ∨ t = s := by
  cases s <;> simp only [step] at h <;> first | (cases h; done) | skip
  all_goals
    split at h
    · exact absurd h (by simp)
    · next hn =>
      have hb := Option.some.inj h
      subst hb
      refine ⟨by simp [Sec.kind], ?_, ?_⟩
      · intro t ht
        cases t <;> simp_all [Says, Sec.kind]
      · intro t
        cases t <;> simp_all [Says] <;> exact eq_comm

theorem step_none (a : Acc) (s : Sec) (h : step a s = none) : s.kind = .other ∨ ∃ t, Says a t ∧ t.kind = s.kind := by
  cases s <;> simp only [step] at h <;> first | (left; rfl) | skip
  all_goals
    split at h
    · next hs =>
      right
      obtain ⟨v, hv⟩ := Option.isSome_iff_exists.mp hs
      first
        | exact ⟨.name v, hv, rfl⟩
        | exact ⟨.pub v, hv, rfl⟩
        | exact ⟨.sub v, hv, rfl⟩
        | exact ⟨.data v, hv, rfl⟩
        | exact ⟨.tick v, hv, rfl⟩
        | exact ⟨.init v, hv, rfl⟩
        | exact ⟨.shutdown v, hv, rfl⟩
        | exact ⟨.methods v, hv, rfl⟩
    · exact absurd h (by simp)

theorem readAll_says (secs : List Sec) (a b : Acc) (h : readAll a secs = some b) : ∀ t, Says b t ↔ Says a t ∨ t ∈ secs := by
  induction secs generalizing a with
  | nil =>
    intro t
    have := Option.some.inj h
    subst this
    simp
  | cons s r ih =>
    intro t
    unfold readAll at h
    cases hs : step a s with
    | none => rw [hs] at h; exact absurd h (by simp)
    | some c =>
      rw [hs] at h
      rw [ih c h t, (step_some a c s hs).2.2 t, List.mem_cons, or_assoc]

theorem readAll_iff (secs : List Sec) (a : Acc) :
    (readAll a secs).isSome ↔ (∀ s ∈ secs, s.kind ≠ .other) ∧ (secs.map Sec.kind).Nodup ∧ ∀ s ∈ secs, ∀ t, Says a t → t.kind ≠ s.kind := by
  induction secs generalizing a with
  | nil => simp [readAll]
  | cons s r ih =>
    unfold readAll
    cases hs : step a s with
    | none =>
      simp only [Option.bind_none, Option.isSome_none, Bool.false_eq_true, false_iff]
      rintro ⟨h1, _, h3⟩
      rcases step_none a s hs with h | ⟨t, ht, he⟩
      · exact h1 s (List.mem_cons_self ..) h
      · exact h3 s (List.mem_cons_self ..) t ht he
    | some c =>
      have hc := step_some a c s hs
      rw [Option.bind_some, ih c, List.map_cons, List.nodup_cons]
      constructor
      · rintro ⟨h1, h2, h3⟩
        refine ⟨?_, ⟨?_, h2⟩, ?_⟩
        · intro x hx
          rcases List.mem_cons.mp hx with e | hx
          · rw [e]; exact hc.1
          · exact h1 x hx
        · intro hm
          obtain ⟨x, hx, he⟩ := List.mem_map.mp hm
          exact h3 x hx s ((hc.2.2 s).mpr (Or.inr rfl)) he.symm
        · intro x hx t ht
          rcases List.mem_cons.mp hx with e | hx
          · rw [e]; exact hc.2.1 t ht
          · exact h3 x hx t ((hc.2.2 t).mpr (Or.inl ht))
      · rintro ⟨h1, ⟨h2, h3⟩, h4⟩
        refine ⟨fun x hx => h1 x (List.mem_cons_of_mem _ hx), h3, ?_⟩
        intro x hx t ht
        rcases (hc.2.2 t).mp ht with ht | e
        · exact h4 x (List.mem_cons_of_mem _ hx) t ht
        · rw [e]
          intro he
          exact h2 (List.mem_map.mpr ⟨x, hx, he.symm⟩)

/-- **A definition is accepted exactly when every section is known, none is written twice, and one of them is `tick`.** -/
theorem accepted_iff (secs : List Sec) :
    (parse secs).isSome ↔ (∀ s ∈ secs, s.kind ≠ .other) ∧ (secs.map Sec.kind).Nodup ∧ ∃ b, Sec.tick b ∈ secs := by
  have hr := readAll_iff secs {}
  have hz : ∀ s ∈ secs, ∀ t, Says {} t → t.kind ≠ s.kind := by
    intro s _ t ht
    cases t <;> simp [Says] at ht
  unfold parse
  cases h : readAll {} secs with
  | none =>
    rw [h] at hr
    simp only [Option.bind_none, Option.isSome_none, Bool.false_eq_true, false_iff]
    rintro ⟨h1, h2, _⟩
    exact absurd (hr.mpr ⟨h1, h2, hz⟩) (by simp)
  | some a =>
    rw [h] at hr
    have hk := hr.mp rfl
    have hs := readAll_says secs {} a h
    rw [Option.bind_some]
    cases ht : a.tick with
    | none =>
      simp only [Option.isSome_none, Bool.false_eq_true, if_false, false_iff]
      rintro ⟨_, _, b, hb⟩
      have := (hs (.tick b)).mpr (Or.inr hb)
      simp [Says, ht] at this
    | some b =>
      simp only [Option.isSome_some, if_true, true_iff]
      refine ⟨hk.1, hk.2.1, b, ?_⟩
      rcases (hs (.tick b)).mp ht with h0 | h0
      · simp [Says] at h0
      · exact h0

/-- **What is recorded is what was written, section by section.** -/
theorem recorded_iff (secs : List Sec) (a : Acc) (h : parse secs = some a) (t : Sec) : Says a t ↔ t ∈ secs := by
  unfold parse at h
  cases hr : readAll {} secs with
  | none => rw [hr] at h; exact absurd h (by simp)
  | some b =>
    rw [hr, Option.bind_some] at h
    have hb : b = a := by
      by_cases ht : b.tick.isSome
      · rw [if_pos ht] at h; exact Option.some.inj h
      · rw [if_neg ht] at h; exact absurd h (by simp)
    subst hb
    rw [readAll_says secs {} b hr t]
    constructor
    · rintro (h0 | h0)
      · cases t <;> simp [Says] at h0
      · exact h0
    · exact Or.inr

theorem opt_eq_of {α : Type} (a b : Option α) (h : ∀ v, a = some v ↔ b = some v) : a = b := by
  cases a with
  | none => cases b with
    | none => rfl
    | some v => exact (h v).mpr rfl
  | some v => exact ((h v).mp rfl).symm

theorem says_determines (a b : Acc) (h : ∀ t, Says a t ↔ Says b t) : a = b := by
  obtain ⟨a1, a2, a3, a4, a5, a6, a7, a8⟩ := a
  obtain ⟨b1, b2, b3, b4, b5, b6, b7, b8⟩ := b
  have e1 := opt_eq_of a1 b1 fun v => h (.name v)
  have e2 := opt_eq_of a2 b2 fun v => h (.pub v)
  have e3 := opt_eq_of a3 b3 fun v => h (.sub v)
  have e4 := opt_eq_of a4 b4 fun v => h (.data v)
  have e5 := opt_eq_of a5 b5 fun v => h (.tick v)
  have e6 := opt_eq_of a6 b6 fun v => h (.init v)
  have e7 := opt_eq_of a7 b7 fun v => h (.shutdown v)
  have e8 := opt_eq_of a8 b8 fun v => h (.methods v)
  subst e1 e2 e3 e4 e5 e6 e7 e8
  rfl

/-- **The order of the sections does not matter.** -/
theorem order_irrelevant (s t : List Sec) (h : s.Perm t) : parse s = parse t := by
  have hi : (parse s).isSome ↔ (parse t).isSome := by
    rw [accepted_iff, accepted_iff]
    have e2 : (s.map Sec.kind).Nodup ↔ (t.map Sec.kind).Nodup := (h.map _).nodup_iff
    simp only [e2, h.mem_iff]
  cases hs : parse s with
  | none =>
    rw [hs] at hi
    cases ht : parse t with
    | none => rfl
    | some b => rw [ht] at hi; exact absurd (hi.mpr rfl) (by simp)
  | some a =>
    rw [hs] at hi
    cases ht : parse t with
    | none => rw [ht] at hi; exact absurd (hi.mp rfl) (by simp)
    | some b =>
      congr 1
      apply says_determines
      intro x
      rw [recorded_iff s a hs, recorded_iff t b ht, h.mem_iff]

/-! ## What is generated -/

/-- A field's type in the generated struct (node.rs:402-436). -/
inductive FTy
  | topic (ty : Text)
  | plain (ty : Text)
  deriving DecidableEq, Repr

/-- A field's initial value in `new()` (node.rs:438-480). -/
inductive Ini
  | topic (expr : Text)
  | expr (e : Text)
  | dflt
  deriving DecidableEq, Repr

/-- The methods of the `Node` trait the scheduler calls (core/node.rs:614-709). -/
inductive Method
  | tick | init | shutdown | enterSafeState | isSafeState | onError
  deriving DecidableEq, Repr

structure Out where
  nodeName : Text
  fields : List (Text × FTy)
  inits : List (Text × Ini)
  impls : List (Method × Text)
  inherent : List Text
  pubs : Option (List (Text × Text))
  subs : Option (List (Text × Text))
  deriving DecidableEq, Repr

/-- `to_snake_case` (node.rs:610-630), for ASCII identifiers. -/
def snakeGo : Bool → Bool → Text → Text
  | _, _, [] => []
  | first, prev, c :: r =>
    if c.isUpper then (if !first && !prev then '_' :: c.toLower :: snakeGo false true r else c.toLower :: snakeGo false true r)
    else c :: snakeGo false false r

def snake (s : Text) : Text := snakeGo true false s

/-- `impl_node_macro` (node.rs:388-607). -/
def expand (struct : Text) (a : Acc) : Out :=
  let ps := a.pub.getD []
  let ss := a.sub.getD []
  let ds := a.data.getD []
  { nodeName := a.name.getD (snake struct)
    fields := ps.map (fun f => (f.name, .topic f.ty)) ++ ss.map (fun f => (f.name, .topic f.ty)) ++ ds.map (fun f => (f.name, .plain f.ty))
    inits := ps.map (fun f => (f.name, .topic f.topic)) ++ ss.map (fun f => (f.name, .topic f.topic)) ++
      ds.map (fun f => (f.name, match f.dflt with | some e => .expr e | none => .dflt))
    impls := (a.tick.map fun b => (Method.tick, b)).toList ++ (a.init.map fun b => (Method.init, b)).toList ++ (a.shutdown.map fun b => (Method.shutdown, b)).toList
    inherent := ["new".toList] ++ (if a.pub.isSome then ["publishers".toList] else []) ++ (if a.sub.isSome then ["subscribers".toList] else []) ++ a.methods.getD []
    pubs := a.pub.map fun l => l.map fun f => (f.topic, f.ty)
    subs := a.sub.map fun l => l.map fun f => (f.topic, f.ty) }

/-- What a call through the trait runs: the generated body, or the trait's default. -/
def call (o : Out) (m : Method) : Option Text := (o.impls.find? fun p => decide (p.1 = m)).map Prod.snd

/-- **The constructor sets every field of the struct, each once and in order.** -/
theorem constructor_complete (n : Text) (a : Acc) : (expand n a).inits.map Prod.fst = (expand n a).fields.map Prod.fst := by
  unfold expand
  simp [List.map_append, List.map_map, Function.comp_def]

/-- **Every topic written in a `pub` or `sub` section is a field of that type, made with that topic text, and there are no other topic fields.** -/
theorem topics_iff (n : Text) (secs : List Sec) (a : Acc) (h : parse secs = some a) (f t : Text) :
    ((f, FTy.topic t) ∈ (expand n a).fields ↔ ∃ e l, (Sec.pub l ∈ secs ∨ Sec.sub l ∈ secs) ∧ ⟨f, t, e⟩ ∈ l) ∧
    ∀ e, (f, Ini.topic e) ∈ (expand n a).inits ↔ ∃ t l, (Sec.pub l ∈ secs ∨ Sec.sub l ∈ secs) ∧ ⟨f, t, e⟩ ∈ l := by
  have hp : ∀ x : TopicF, x ∈ a.pub.getD [] ↔ ∃ l, Sec.pub l ∈ secs ∧ x ∈ l := by
    intro x
    cases hx : a.pub with
    | none =>
      simp only [Option.getD_none, List.not_mem_nil, false_iff, not_exists, not_and]
      intro l hl
      have := (recorded_iff secs a h (.pub l)).mpr hl
      simp [Says, hx] at this
    | some l =>
      have hl := (recorded_iff secs a h (.pub l)).mp hx
      simp only [Option.getD_some]
      constructor
      · exact fun hm => ⟨l, hl, hm⟩
      · rintro ⟨l', hl', hm⟩
        have := (recorded_iff secs a h (.pub l')).mpr hl'
        simp only [Says, hx, Option.some.injEq] at this
        rw [this]; exact hm
  have hs : ∀ x : TopicF, x ∈ a.sub.getD [] ↔ ∃ l, Sec.sub l ∈ secs ∧ x ∈ l := by
    intro x
    cases hx : a.sub with
    | none =>
      simp only [Option.getD_none, List.not_mem_nil, false_iff, not_exists, not_and]
      intro l hl
      have := (recorded_iff secs a h (.sub l)).mpr hl
      simp [Says, hx] at this
    | some l =>
      have hl := (recorded_iff secs a h (.sub l)).mp hx
      simp only [Option.getD_some]
      constructor
      · exact fun hm => ⟨l, hl, hm⟩
      · rintro ⟨l', hl', hm⟩
        have := (recorded_iff secs a h (.sub l')).mpr hl'
        simp only [Says, hx, Option.some.injEq] at this
        rw [this]; exact hm
  have key : ∀ x : TopicF, (x ∈ a.pub.getD [] ∨ x ∈ a.sub.getD []) ↔ ∃ l, (Sec.pub l ∈ secs ∨ Sec.sub l ∈ secs) ∧ x ∈ l := by
    intro x
    rw [hp, hs]
    constructor
    · rintro (⟨l, h1, h2⟩ | ⟨l, h1, h2⟩)
      · exact ⟨l, Or.inl h1, h2⟩
      · exact ⟨l, Or.inr h1, h2⟩
    · rintro ⟨l, h1 | h1, h2⟩
      · exact Or.inl ⟨l, h1, h2⟩
      · exact Or.inr ⟨l, h1, h2⟩
  constructor
  · unfold expand
    simp only [List.mem_append, List.mem_map, Prod.mk.injEq]
    constructor
    · rintro ((⟨x, hx, h1, h2⟩ | ⟨x, hx, h1, h2⟩) | ⟨x, _, _, h2⟩)
      · injection h2 with h2
        exact ⟨x.topic, by subst h1 h2; exact (key x).mp (Or.inl hx)⟩
      · injection h2 with h2
        exact ⟨x.topic, by subst h1 h2; exact (key x).mp (Or.inr hx)⟩
      · exact absurd h2 (by simp)
    · rintro ⟨e, hx⟩
      rcases (key _).mpr hx with hx | hx
      · exact Or.inl (Or.inl ⟨_, hx, rfl, rfl⟩)
      · exact Or.inl (Or.inr ⟨_, hx, rfl, rfl⟩)
  · intro e
    unfold expand
    simp only [List.mem_append, List.mem_map, Prod.mk.injEq]
    constructor
    · rintro ((⟨x, hx, h1, h2⟩ | ⟨x, hx, h1, h2⟩) | ⟨x, _, _, h2⟩)
      · injection h2 with h2
        exact ⟨x.ty, by subst h1 h2; exact (key x).mp (Or.inl hx)⟩
      · injection h2 with h2
        exact ⟨x.ty, by subst h1 h2; exact (key x).mp (Or.inr hx)⟩
      · exfalso
        revert h2
        cases x.dflt <;> simp
    · rintro ⟨t', hx⟩
      rcases (key _).mpr hx with hx | hx
      · exact Or.inl (Or.inl ⟨_, hx, rfl, rfl⟩)
      · exact Or.inl (Or.inr ⟨_, hx, rfl, rfl⟩)

/-- **The scheduler runs the bodies written for `tick`, `init` and `shutdown`, and the default where none was written.** -/
theorem bodies (n : Text) (secs : List Sec) (a : Acc) (h : parse secs = some a) (b : Text) :
    (call (expand n a) .tick = some b ↔ Sec.tick b ∈ secs) ∧ (call (expand n a) .init = some b ↔ Sec.init b ∈ secs) ∧
      (call (expand n a) .shutdown = some b ↔ Sec.shutdown b ∈ secs) := by
  rw [← recorded_iff secs a h, ← recorded_iff secs a h, ← recorded_iff secs a h]
  unfold call expand Says
  cases a.tick <;> cases a.init <;> cases a.shutdown <;> simp

/-- **A node made with the macro has no safe state of its own: whatever is written, going to safe state does nothing and asking whether it is safe
gets the default "yes".** -/
theorem no_safe_state (n : Text) (a : Acc) : call (expand n a) .enterSafeState = none ∧ call (expand n a) .isSafeState = none ∧ call (expand n a) .onError = none := by
  unfold call expand
  cases a.tick <;> cases a.init <;> cases a.shutdown <;> simp

def safeName : Text := "enter_safe_state".toList

/-- A method of that name in an `impl` section is accepted, but it is a method of the struct, which the scheduler does not call. -/
theorem written_safe_state_unused :
    ∃ secs a, Sec.methods [safeName] ∈ secs ∧ parse secs = some a ∧ safeName ∈ (expand "Arm".toList a).inherent ∧ call (expand "Arm".toList a) .enterSafeState = none := by
  refine ⟨[.tick [], .methods [safeName]], { tick := some [], methods := some [safeName] }, by simp, by decide, by decide, by decide⟩

/-- The listed publishers and subscribers are those written, in order. -/
theorem metadata (n : Text) (secs : List Sec) (a : Acc) (h : parse secs = some a) (l : List TopicF) :
    (Sec.pub l ∈ secs → (expand n a).pubs = some (l.map fun f => (f.topic, f.ty))) ∧ (Sec.sub l ∈ secs → (expand n a).subs = some (l.map fun f => (f.topic, f.ty))) := by
  constructor
  · intro hl
    have := (recorded_iff secs a h _).mpr hl
    have e : a.pub = some l := this
    show a.pub.map _ = _
    rw [e]
    rfl
  · intro hl
    have := (recorded_iff secs a h _).mpr hl
    have e : a.sub = some l := this
    show a.sub.map _ = _
    rw [e]
    rfl

/-- An explicit name is used as it is; otherwise the struct's name in snake case. -/
theorem node_name (n : Text) (secs : List Sec) (a : Acc) (h : parse secs = some a) :
    (∀ v, Sec.name v ∈ secs → (expand n a).nodeName = v) ∧ ((∀ v, Sec.name v ∉ secs) → (expand n a).nodeName = snake n) := by
  constructor
  · intro v hv
    have := (recorded_iff secs a h _).mpr hv
    have e : a.name = some v := this
    show a.name.getD _ = _
    rw [e]
    rfl
  · intro hv
    cases hn : a.name with
    | none =>
      show a.name.getD _ = _
      rw [hn]
      rfl
    | some v => exact absurd ((recorded_iff secs a h (.name v)).mp hn) (hv v)

/-! ## Names -/

theorem upper_range {c : Char} (h : c.isUpper = true) : 65 ≤ c.toNat ∧ c.toNat ≤ 90 := by
  unfold Char.isUpper at h
  simp only [ge_iff_le, decide_eq_true_eq] at h
  exact ⟨h.1, h.2⟩

theorem upper_cases {c : Char} (h : c.isUpper = true) : c ∈ "ABCDEFGHIJKLMNOPQRSTUVWXYZ".toList := by
  have hr := upper_range h
  have hc : c = Char.ofNat c.toNat := (Char.ofNat_toNat c).symm
  generalize c.toNat = k at hr hc
  subst hc
  obtain ⟨h1, h2⟩ := hr
  interval_cases k <;> decide

theorem upper_facts {c : Char} (h : c.isUpper = true) : c.toLower.toUpper = c ∧ c.toLower ≠ '_' ∧ c.toLower.isUpper = false := by
  have key : ∀ c ∈ "ABCDEFGHIJKLMNOPQRSTUVWXYZ".toList, c.toLower.toUpper = c ∧ c.toLower ≠ '_' ∧ c.toLower.isUpper = false := by decide
  exact key c (upper_cases h)

theorem lower_of_not_upper {c : Char} (h : c.isUpper = false) : c.toLower = c := by
  unfold Char.toLower
  unfold Char.isUpper at h
  split
  · next hc =>
    exfalso
    simp only [ge_iff_le, decide_eq_false_iff_not] at h
    exact h hc
  · rfl

theorem snakeGo_no_upper (f p : Bool) (s : Text) : ∀ c ∈ snakeGo f p s, c.isUpper = false := by
  induction s generalizing f p with
  | nil => simp [snakeGo]
  | cons c r ih =>
    intro x hx
    unfold snakeGo at hx
    by_cases hc : c.isUpper = true
    · rw [if_pos hc] at hx
      split at hx
      · rcases List.mem_cons.mp hx with e | hx
        · rw [e]; rfl
        · rcases List.mem_cons.mp hx with e | hx
          · rw [e]; exact (upper_facts hc).2.2
          · exact ih _ _ x hx
      · rcases List.mem_cons.mp hx with e | hx
        · rw [e]; exact (upper_facts hc).2.2
        · exact ih _ _ x hx
    · rw [if_neg hc] at hx
      rcases List.mem_cons.mp hx with e | hx
      · rw [e]; simpa using hc
      · exact ih _ _ x hx

/-- **A generated name has no capital letters.** -/
theorem snake_no_upper (s : Text) : ∀ c ∈ snake s, c.isUpper = false := snakeGo_no_upper _ _ _

theorem snakeGo_letters (f p : Bool) (s : Text) : (snakeGo f p s).filter (· != '_') = (s.filter (· != '_')).map Char.toLower := by
  induction s generalizing f p with
  | nil => rfl
  | cons c r ih =>
    unfold snakeGo
    by_cases hc : c.isUpper = true
    · have hu := upper_facts hc
      have hn : (c != '_') = true := by
        have : c ≠ '_' := by intro e; rw [e] at hc; exact absurd hc (by decide)
        simpa using this
      have hl : (c.toLower != '_') = true := by simpa using hu.2.1
      rw [if_pos hc]
      split
      · rw [List.filter_cons_of_neg (by simp), List.filter_cons_of_pos (p := (· != '_')) hl, List.filter_cons_of_pos (p := (· != '_')) hn, List.map_cons, ih]
      · rw [List.filter_cons_of_pos (p := (· != '_')) hl, List.filter_cons_of_pos (p := (· != '_')) hn, List.map_cons, ih]
    · rw [if_neg hc]
      have hc' : c.isUpper = false := by simpa using hc
      by_cases hn : (c != '_') = true
      · rw [List.filter_cons_of_pos (p := (· != '_')) hn, List.filter_cons_of_pos (p := (· != '_')) hn, List.map_cons, ih, lower_of_not_upper hc']
      · rw [List.filter_cons_of_neg (p := (· != '_')) hn, List.filter_cons_of_neg (p := (· != '_')) hn, ih]

/-- **It has the same letters, in lower case; only underscores are added.** -/
theorem snake_letters (s : Text) : (snake s).filter (· != '_') = (s.filter (· != '_')).map Char.toLower := snakeGo_letters _ _ _

theorem snakeGo_id (f p : Bool) (s : Text) (h : ∀ c ∈ s, c.isUpper = false) : snakeGo f p s = s := by
  induction s generalizing f p with
  | nil => rfl
  | cons c r ih =>
    unfold snakeGo
    rw [if_neg (by simp [h c (List.mem_cons_self ..)]), ih _ _ (fun x hx => h x (List.mem_cons_of_mem _ hx))]

/-- A name already in snake case stays. -/
theorem snake_idem (s : Text) : snake (snake s) = snake s := snakeGo_id _ _ _ (snake_no_upper s)

/-- Words starting with one capital each, no underscores. -/
inductive Camel : Bool → Text → Prop
  | nil (p) : Camel p []
  | upper (c r) : c.isUpper = true → Camel true r → Camel false (c :: r)
  | lower (p c r) : c.isUpper = false → c ≠ '_' → Camel false r → Camel p (c :: r)

def unsnake : Bool → Text → Text
  | _, [] => []
  | b, c :: r => if c = '_' then unsnake true r else (if b then c.toUpper else c) :: unsnake false r

theorem unsnake_snakeGo (p : Bool) (s : Text) (h : Camel p s) : unsnake false (snakeGo false p s) = s := by
  induction h with
  | nil p => rfl
  | upper c r hc hr ih =>
    have hu := upper_facts hc
    simp [snakeGo, hc, unsnake, hu.1, hu.2.1, ih]
  | lower p c r hc hn hr ih =>
    simp [snakeGo, hc, unsnake, hn, ih]

/-- **Structs named in proper camel case get different node names.** -/
theorem camel_distinct (c d : Char) (r s : Text) (hc : c.isUpper = true) (hd : d.isUpper = true) (hr : Camel true r) (hs : Camel true s)
    (h : snake (c :: r) = snake (d :: s)) : c :: r = d :: s := by
  have hcu := upper_facts hc
  have hdu := upper_facts hd
  unfold snake at h
  simp only [snakeGo, hc, hd, if_true, Bool.not_true, Bool.false_and, Bool.false_eq_true, if_false, List.cons.injEq] at h
  have e1 : c = d := by rw [← hcu.1, h.1, hdu.1]
  have e2 : r = s := by rw [← unsnake_snakeGo true r hr, h.2, unsnake_snakeGo true s hs]
  rw [e1, e2]

/-- **Acronyms break that: `HTTPNode` and `Httpnode`, or `IMUNode` and `Imunode`, are the same node name.** -/
theorem acronyms_collide : snake "HTTPNode".toList = snake "Httpnode".toList ∧ snake "IMUNode".toList = "imunode".toList ∧ "HTTPNode".toList ≠ "Httpnode".toList := by
  decide

example : snake "MotorDriver".toList = "motor_driver".toList ∧ Camel true "otorDriver".toList := by
  refine ⟨by decide, ?_⟩
  repeat first
    | exact Camel.nil _
    | apply Camel.lower _ _ _ (by decide) (by decide)
    | apply Camel.upper _ _ (by decide)

/-! ### The default name of a node written without the macro -/

/-- A type as `std::any::type_name` prints it: a path, or a path with arguments, of which the earlier ones are opaque texts. -/
inductive TyP
  | plain (path : List Text)
  | app (path : List Text) (before : List Text) (last : TyP)

def sep : Text := [':', ':']

def join (d : Text) : List Text → Text
  | [] => []
  | [x] => x
  | x :: r => x ++ (d ++ join d r)

def TyP.text : TyP → Text
  | .plain p => join sep p
  | .app p pre last => join sep p ++ ('<' :: (pre.flatMap (fun a => a ++ [',', ' ']) ++ (last.text ++ ['>'])))

/-- What follows the last `::`, if there is one (`rfind`, core/node.rs:621-624). -/
def rcut : Text → Option Text
  | [] => none
  | c :: s => (rcut s).or (if c = ':' ∧ s.head? = some ':' then some (s.drop 1) else none)

/-- `Node::name` by default (core/node.rs:619-625). -/
def defaultName (t : TyP) : Text := (rcut t.text).getD t.text

/-- A text with no colon in it. -/
def Flat (s : Text) : Prop := ':' ∉ s

theorem rcut_flat (s : Text) (h : Flat s) : rcut s = none := by
  induction s with
  | nil => rfl
  | cons c r ih =>
    unfold rcut
    have hc : c ≠ ':' := fun e => h (by rw [e]; exact List.mem_cons_self ..)
    rw [ih (fun e => h (List.mem_cons_of_mem _ e)), if_neg (fun e => hc e.1)]
    rfl

theorem rcut_append (x y : Text) (h : Flat y) : rcut (x ++ (sep ++ y)) = some y := by
  induction x with
  | nil =>
    have h1 : rcut (':' :: y) = none := by
      unfold rcut
      rw [rcut_flat y h, if_neg]
      · rfl
      · rintro ⟨_, e⟩
        exact h (List.mem_of_mem_head? (by rw [e]; rfl))
    show rcut (':' :: ':' :: y) = some y
    unfold rcut
    rw [h1]
    simp
  | cons c r ih =>
    show rcut (c :: (r ++ (sep ++ y))) = some y
    unfold rcut
    rw [ih]
    rfl

theorem join_last (d : Text) (p : List Text) (x : Text) (hp : p ≠ []) : join d (p ++ [x]) = join d p ++ (d ++ x) := by
  induction p with
  | nil => exact absurd rfl hp
  | cons a r ih =>
    cases r with
    | nil => rfl
    | cons b t =>
      show a ++ (d ++ join d ((b :: t) ++ [x])) = (a ++ (d ++ join d (b :: t))) ++ (d ++ x)
      rw [ih (by simp)]
      simp [List.append_assoc]

/-- **A node type without arguments is named by the last part of its path.** -/
theorem default_plain (p : List Text) (n : Text) (h : Flat n) : defaultName (.plain (p ++ [n])) = n := by
  unfold defaultName
  by_cases hp : p = []
  · subst hp
    have : (TyP.plain ([] ++ [n])).text = n := rfl
    rw [this, rcut_flat n h]
    rfl
  · have : (TyP.plain (p ++ [n])).text = join sep p ++ (sep ++ n) := join_last sep p n hp
    rw [this, rcut_append _ _ h]
    rfl

/-- **A generic node is named after its last argument, not after itself: whatever its own path, the name is that argument's last part and a `>`.** -/
theorem default_generic (own before p : List Text) (n : Text) (hp : p ≠ []) (h : Flat n) :
    defaultName (.app own before (.plain (p ++ [n]))) = n ++ ['>'] := by
  have hf : Flat (n ++ ['>']) := by
    intro e
    rcases List.mem_append.mp e with e | e
    · exact h e
    · simp at e
  have : (TyP.app own before (.plain (p ++ [n]))).text =
      (join sep own ++ ('<' :: (before.flatMap (fun a => a ++ [',', ' ']) ++ join sep p))) ++ (sep ++ (n ++ ['>'])) := by
    simp only [TyP.text]
    rw [join_last sep p n hp]
    simp [List.append_assoc]
  unfold defaultName
  rw [this, rcut_append _ _ hf]
  rfl

/-- So two different generic nodes over the same type are given the same name. -/
theorem generics_collide (own own' p : List Text) (n : Text) (hp : p ≠ []) (h : Flat n) :
    defaultName (.app own [] (.plain (p ++ [n]))) = defaultName (.app own' [] (.plain (p ++ [n]))) := by
  rw [default_generic own [] p n hp h, default_generic own' [] p n hp h]

example : defaultName (.app ["robot".toList, "Driver".toList] [] (.plain ["robot".toList, "Left".toList])) = "Left>".toList :=
  default_generic _ _ ["robot".toList] "Left".toList (by simp) (by unfold Flat; decide)

example : (parse [.pub [⟨"cmd".toList, "CmdVel".toList, "\"cmd\"".toList⟩], .tick []]).isSome = true ∧ (parse [.tick [], .tick []]) = none ∧ (parse [.rate, .tick []]) = none ∧ parse [.init []] = none := by
  decide

end Horus.NodeMacro
