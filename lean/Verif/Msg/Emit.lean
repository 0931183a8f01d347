import Verif.Msg.Parse
import Mathlib.Data.List.Nodup
import Mathlib.Data.List.Basic
import Mathlib.Tactic.IntervalCases

/-!
The bindings `horus msg gen` writes for a package of messages.

Specification: each message gets C functions, C++ classes and constants of its own.  No two of them may have
the same name, in one package or in two packages linked into one program; and what the generator accepts
must be valid in the languages it is written in.
-/

namespace Horus.Msg

/-! ### Model -/

/-- All characters after the first (emit_ffi.rs:28-37): a capital becomes an underscore and the small
letter. -/
def snakeTail (s : Str) : Str := s.flatMap fun c => if c.isUpper then ['_', c.toLower] else [c]

/-- `snake` (/repo/horus_manager/src/msgspec/emit_ffi.rs:26-39). -/
def snake : Str → Str
  | [] => []
  | c :: r => c.toLower :: snakeTail r

/-- `pkg.name.replace('-', "_")` (emit_ffi.rs:44). -/
def under (p : Str) : Str := p.map fun c => if c = '-' then '_' else c

/-- `symbol` (/repo/horus_manager/src/msgspec/emit_ffi.rs:41-47). -/
def symbol (pkg name : Str) : Str := "horus_gen_".toList ++ under pkg ++ '_' :: snake name

/-- The endings of the functions of a message (emit_ffi.rs:129-233). -/
def endings : List Str :=
  ["_publisher_new", "_publisher_send", "_publisher_free", "_subscriber_new", "_subscriber_recv",
    "_subscriber_free"].map String.toList

/-- All `#[no_mangle]` functions of a package (/repo/horus_manager/src/msgspec/emit_ffi.rs:110-235). -/
def functions (pkg : Str) (ms : List MsgDef) : List Str :=
  ms.flatMap fun m => endings.map (symbol pkg m.name ++ ·)

/-- `to_uppercase` on the letters of an identifier. -/
def upperName (s : Str) : Str := s.map Char.toUpper

/-- The names a message puts into the C++ namespace, each as a stem and an ending: the struct, the constant
of its hash, the constant of its topic (/repo/horus_manager/src/msgspec/emit_cpp.rs:52, 120-136), and the two
classes (/repo/horus_manager/src/msgspec/emit_ffi.rs:272-331). -/
def cppParts (m : MsgDef) : List (Str × Str) :=
  [(m.name, []), (m.name, "Publisher".toList), (m.name, "Subscriber".toList), (upperName m.name, "_LAYOUT_HASH".toList)] ++
    (match m.topic with | some _ => [(upperName m.name, "_TOPIC".toList)] | none => [])

/-- The names themselves. -/
def cppNames (m : MsgDef) : List Str := (cppParts m).map fun p => p.1 ++ p.2

/-- The members of the C++ struct: the fields, and two accessors for every `bool` field
(/repo/horus_manager/src/msgspec/emit_cpp.rs:53-89). -/
def cppMembers (m : MsgDef) : List Str :=
  m.fields.map (·.name) ++
    ((m.fields.filter fun f => decide (f.ty = .prim .bool)).map fun f => f.name ++ "_is_set".toList) ++
    ((m.fields.filter fun f => decide (f.ty = .prim .bool)).map fun f => "set_".toList ++ f.name)

/-- The line of a field in the Rust struct (/repo/horus_manager/src/msgspec/emit_rust.rs:85-89). -/
def rustField (f : Field) : Str := "    pub ".toList ++ f.name ++ ':' :: ' ' :: renderRust f.ty ++ [',', '\n']

/-- The words Rust does not allow as a field name (language reference; strict and reserved keywords). -/
def rustKeywords : List Str :=
  ["as", "break", "const", "continue", "crate", "else", "enum", "extern", "false", "fn", "for", "if", "impl", "in",
    "let", "loop", "match", "mod", "move", "mut", "pub", "ref", "return", "self", "Self", "static", "struct", "super",
    "trait", "true", "type", "unsafe", "use", "where", "while", "async", "await", "dyn", "abstract", "become", "box",
    "do", "final", "macro", "override", "priv", "typeof", "unsized", "virtual", "yield", "try"].map String.toList

/-- Types that derive `serde::Serialize` (/repo/horus_manager/src/msgspec/emit_rust.rs:77-79): serde covers
arrays of at most 32 elements; a reference is written as an empty text and is no type. -/
def rustType : Ty → Bool
  | .prim _ => true
  | .arr t n => rustType t && decide (n ≤ 32)
  | .ref _ => false

/-- The generated Rust struct is valid. -/
def rustValid (m : MsgDef) : Bool :=
  m.fields.all fun f => rustType f.ty && !rustKeywords.contains f.name

/-! ### C functions -/

theorem lower_inj {a b : Char} (ha : a.isUpper = true) (hb : b.isUpper = true) (h : a.toLower = b.toLower) : a = b := by
  have key : ∀ n : Nat, 65 ≤ n → n ≤ 90 → (Char.ofNat n).toLower = Char.ofNat (n + 32) := by
    intro n h1 h2
    interval_cases n <;> rfl
  have val : ∀ c : Char, c.isUpper = true → 65 ≤ c.toNat ∧ c.toNat ≤ 90 := by
    intro c hc
    simp only [Char.isUpper, decide_eq_true_eq] at hc
    exact ⟨hc.1, hc.2⟩
  have inj : ∀ n m : Nat, 97 ≤ n → n ≤ 122 → 97 ≤ m → m ≤ 122 → Char.ofNat n = Char.ofNat m → n = m := by
    intro n m h1 h2 h3 h4 e
    have := congrArg Char.toNat e
    have hv : ∀ k : Nat, 97 ≤ k → k ≤ 122 → (Char.ofNat k).toNat = k := by
      intro k h1 h2; interval_cases k <;> rfl
    rw [hv n h1 h2, hv m h3 h4] at this
    exact this
  have h1 := val a ha
  have h2 := val b hb
  rw [← Char.ofNat_toNat a, ← Char.ofNat_toNat b, key _ h1.1 h1.2, key _ h2.1 h2.2] at h
  have := inj _ _ (by omega) (by omega) (by omega) (by omega) h
  rw [← Char.ofNat_toNat a, ← Char.ofNat_toNat b, show a.toNat = b.toNat by omega]

theorem snakeTail_inj : ∀ s t : Str, '_' ∉ s → '_' ∉ t → snakeTail s = snakeTail t → s = t := by
  intro s
  induction s with
  | nil =>
    intro t _ ht h
    cases t with
    | nil => rfl
    | cons c r =>
      exfalso
      unfold snakeTail at h
      rw [List.flatMap_cons] at h
      by_cases hc : c.isUpper = true
      · rw [if_pos hc] at h; exact nomatch h
      · rw [if_neg hc] at h; exact nomatch h
  | cons a s ih =>
    intro t hs ht h
    cases t with
    | nil =>
      exfalso
      unfold snakeTail at h
      rw [List.flatMap_cons] at h
      by_cases hc : a.isUpper = true
      · rw [if_pos hc] at h; exact nomatch h
      · rw [if_neg hc] at h; exact nomatch h
    | cons b t =>
      have hs' : '_' ∉ s := fun hx => hs (List.mem_cons_of_mem _ hx)
      have ht' : '_' ∉ t := fun hx => ht (List.mem_cons_of_mem _ hx)
      have ha' : a ≠ '_' := fun hx => hs (hx ▸ List.mem_cons_self ..)
      have hb' : b ≠ '_' := fun hx => ht (hx ▸ List.mem_cons_self ..)
      have h0 : (if a.isUpper then ['_', a.toLower] else [a]) ++ snakeTail s =
          (if b.isUpper then ['_', b.toLower] else [b]) ++ snakeTail t := h
      by_cases ha : a.isUpper = true <;> by_cases hb : b.isUpper = true
      · rw [if_pos ha, if_pos hb] at h0
        simp only [List.cons_append, List.nil_append, List.cons.injEq, true_and] at h0
        rw [lower_inj ha hb h0.1, ih t hs' ht' h0.2]
      · rw [if_pos ha, if_neg hb] at h0
        simp only [List.cons_append, List.nil_append, List.cons.injEq] at h0
        exact absurd h0.1.symm hb'
      · rw [if_neg ha, if_pos hb] at h0
        simp only [List.cons_append, List.nil_append, List.cons.injEq] at h0
        exact absurd h0.1 ha'
      · rw [if_neg ha, if_neg hb] at h0
        simp only [List.cons_append, List.nil_append, List.cons.injEq] at h0
        rw [h0.1, ih t hs' ht' h0.2]

theorem snake_inj (s t : Str) (hs : s.head?.any Char.isUpper = true) (ht : t.head?.any Char.isUpper = true)
    (us : '_' ∉ s) (ut : '_' ∉ t) (h : snake s = snake t) : s = t := by
  cases s with
  | nil => simp at hs
  | cons a s =>
    cases t with
    | nil => simp at ht
    | cons b t =>
      simp only [snake, List.cons.injEq] at h
      simp only [List.head?_cons, Option.any_some] at hs ht
      rw [lower_inj hs ht h.1, snakeTail_inj s t (fun hx => us (List.mem_cons_of_mem _ hx))
        (fun hx => ut (List.mem_cons_of_mem _ hx)) h.2]

theorem ending_of (L : List Str) (hL : ∀ s ∈ L, ∀ t ∈ L, s <:+ t → s = t) (a b s t : Str) (hs : s ∈ L) (ht : t ∈ L)
    (h : a ++ s = b ++ t) : s = t ∧ a = b := by
  have h1 : s <:+ a ++ s := List.suffix_append _ _
  have h2 : t <:+ a ++ s := h ▸ List.suffix_append _ _
  have hst : s = t := by
    rcases Nat.le_total s.length t.length with hl | hl
    · exact hL s hs t ht (List.suffix_of_suffix_length_le h1 h2 hl)
    · exact (hL t ht s hs (List.suffix_of_suffix_length_le h2 h1 hl)).symm
  subst hst
  exact ⟨rfl, List.append_cancel_right h⟩

/-- **The C functions of a package have different names**, if no message name has an underscore. -/
theorem functions_distinct_partial (pkg : Str) (ms : List MsgDef) (hn : (ms.map (·.name)).Nodup)
    (hu : ∀ m ∈ ms, m.name.head?.any Char.isUpper = true) (hc : ∀ m ∈ ms, '_' ∉ m.name) :
    (functions pkg ms).Nodup := by
  unfold functions
  rw [List.nodup_flatMap]
  have hL : ∀ s ∈ endings, ∀ t ∈ endings, s <:+ t → s = t := by decide
  refine ⟨?_, ?_⟩
  · intro m _
    refine List.Nodup.map_on ?_ (by decide)
    intro x _ y _ h
    exact List.append_cancel_left h
  · have hp : ms.Pairwise (fun a b => a.name ≠ b.name) := by
      rw [List.Nodup, List.pairwise_map] at hn; exact hn
    refine List.Pairwise.imp_of_mem ?_ hp
    intro a b ha hb hab
    show List.Disjoint _ _
    intro x hx hy
    rw [List.mem_map] at hx hy
    obtain ⟨s, hs, rfl⟩ := hx
    obtain ⟨t, ht, he⟩ := hy
    have h1 := (ending_of endings hL _ _ _ _ ht hs he).2
    unfold symbol at h1
    have h2 := List.append_cancel_left (List.append_assoc _ _ _ ▸ h1)
    have h3 : snake b.name = snake a.name := by simpa using h2
    exact hab (snake_inj _ _ (hu b hb) (hu a ha) (hc b hb) (hc a ha) h3).symm

/-- The hypotheses are met. -/
example : (functions "robot-arm".toList [⟨"JointState".toList, [], none⟩, ⟨"IMUReading".toList, [], none⟩]).length = 12 ∧
    symbol "robot-arm".toList "IMUReading".toList = "horus_gen_robot_arm_i_m_u_reading".toList := by decide +kernel

/-- **Two accepted messages can have the same C functions**: `ArmState` and `Arm_state` are different names in
one package, and every function of the one has the name of the other's. -/
theorem underscore_collides (pkg : Str) :
    parseToks [.ident "ArmState".toList, .punct '{', .ident "x".toList, .punct ':', .ident "u8".toList, .punct '}',
      .ident "Arm_state".toList, .punct '{', .ident "x".toList, .punct ':', .ident "f64".toList, .punct '}'] =
      some [⟨"ArmState".toList, [⟨"x".toList, .prim .u8⟩], none⟩, ⟨"Arm_state".toList, [⟨"x".toList, .prim .f64⟩], none⟩] ∧
    symbol pkg "ArmState".toList = symbol pkg "Arm_state".toList := by
  refine ⟨by decide +kernel, ?_⟩
  unfold symbol
  rw [show snake "ArmState".toList = snake "Arm_state".toList by decide]

/-- **Two packages in one program can collide**: the prefix with the package name is there so that they
cannot, but message `ArmState` of package `robot` and message `State` of package `robot-arm` have the same
functions. -/
theorem packages_collide : symbol "robot".toList "ArmState".toList = symbol "robot-arm".toList "State".toList := by
  decide

theorem under_length (p : Str) : (under p).length = p.length := by unfold under; rw [List.length_map]

/-- Packages whose names have the same length collide only when the names differ in `-` and `_` alone. -/
theorem packages_same_length (p q : Str) (hl : p.length = q.length) (m n : Str) (h : symbol p m = symbol q n) :
    under p = under q ∧ snake m = snake n := by
  unfold symbol at h
  rw [List.append_assoc, List.append_assoc] at h
  have h1 := List.append_cancel_left h
  have h2 := List.append_inj h1 (by rw [under_length, under_length, hl])
  exact ⟨h2.1, (List.cons.inj h2.2).2⟩

/-! ### C++ names -/

/-- The endings the generator adds. -/
def cppEndings : List Str := ["Publisher", "Subscriber", "_LAYOUT_HASH", "_TOPIC"].map String.toList

theorem parts_mem (m : MsgDef) (p : Str × Str) (h : p ∈ cppParts m) :
    (p = (m.name, [])) ∨ (p.2 ∈ cppEndings ∧ ((p.1 = m.name ∧ (p.2 = "Publisher".toList ∨ p.2 = "Subscriber".toList)) ∨
      (p.1 = upperName m.name ∧ (p.2 = "_LAYOUT_HASH".toList ∨ p.2 = "_TOPIC".toList)))) := by
  unfold cppParts at h
  rw [List.mem_append] at h
  rcases h with h | h
  · simp only [List.mem_cons, List.not_mem_nil, or_false] at h
    rcases h with h | h | h | h
    · exact .inl h
    · subst h; exact .inr ⟨show "Publisher".toList ∈ cppEndings by decide, .inl ⟨rfl, .inl rfl⟩⟩
    · subst h; exact .inr ⟨show "Subscriber".toList ∈ cppEndings by decide, .inl ⟨rfl, .inr rfl⟩⟩
    · subst h; exact .inr ⟨show "_LAYOUT_HASH".toList ∈ cppEndings by decide, .inr ⟨rfl, .inl rfl⟩⟩
  · cases ht : m.topic with
    | none => rw [ht] at h; exact absurd h (List.not_mem_nil)
    | some s =>
      rw [ht] at h
      simp only [List.mem_singleton] at h
      subst h
      exact .inr ⟨show "_TOPIC".toList ∈ cppEndings by decide, .inr ⟨rfl, .inr rfl⟩⟩

/-- **The C++ names of a package are different**, if no message is named like a generated class or constant
and no two names differ in case alone. -/
theorem cpp_names_distinct_partial (ms : List MsgDef) (hn : (ms.map fun m => upperName m.name).Nodup)
    (he : ∀ m ∈ ms, ∀ e ∈ cppEndings, ¬ e <:+ m.name) : (ms.flatMap cppNames).Nodup := by
  have hL : ∀ s ∈ cppEndings, ∀ t ∈ cppEndings, s <:+ t → s = t := by decide
  -- equal names come from equal endings and messages
  have key : ∀ a ∈ ms, ∀ b ∈ ms, ∀ p ∈ cppParts a, ∀ q ∈ cppParts b, p.1 ++ p.2 = q.1 ++ q.2 →
      p.2 = q.2 ∧ upperName a.name = upperName b.name := by
    intro a ha b hb p hp q hq h
    rcases parts_mem a p hp with h1 | ⟨h1, h1'⟩
    · subst h1
      rcases parts_mem b q hq with h2 | ⟨h2, _⟩
      · subst h2
        refine ⟨rfl, ?_⟩
        have : a.name = b.name := by simpa using h
        rw [this]
      · exact absurd (by have h' : a.name = q.1 ++ q.2 := by simpa using h
                         rw [h']; exact List.suffix_append _ _) (he a ha q.2 h2)
    · rcases parts_mem b q hq with h2 | ⟨h2, h2'⟩
      · subst h2
        exact absurd (by have h' : p.1 ++ p.2 = b.name := by simpa using h
                         rw [← h']; exact List.suffix_append _ _) (he b hb p.2 h1)
      · obtain ⟨e1, e2⟩ := ending_of cppEndings hL _ _ _ _ h1 h2 h
        refine ⟨e1, ?_⟩
        rcases h1' with ⟨f1, g1⟩ | ⟨f1, g1⟩ <;> rcases h2' with ⟨f2, g2⟩ | ⟨f2, g2⟩
        · rw [← f1, ← f2, e2]
        · exfalso
          rw [e1] at g1
          rcases g1 with g1 | g1 <;> rcases g2 with g2 | g2 <;> rw [g1] at g2 <;> exact absurd g2 (by decide)
        · exfalso
          rw [e1] at g1
          rcases g1 with g1 | g1 <;> rcases g2 with g2 | g2 <;> rw [g1] at g2 <;> exact absurd g2 (by decide)
        · rw [← f1, ← f2, e2]
  rw [List.nodup_flatMap]
  refine ⟨?_, ?_⟩
  · intro m hm
    unfold cppNames
    have hinj : ∀ p ∈ cppParts m, ∀ q ∈ cppParts m, p.1 ++ p.2 = q.1 ++ q.2 → p = q := by
      intro p hp q hq h
      have e := (key m hm m hm p hp q hq h).1
      rw [e] at h
      exact Prod.ext (List.append_cancel_right h) e
    refine List.Nodup.map_on hinj ?_
    have : ((cppParts m).map Prod.snd).Nodup := by
      unfold cppParts
      cases m.topic with
      | none => simp only [List.append_nil, List.map_cons, List.map_nil]; decide
      | some s => simp only [List.cons_append, List.nil_append, List.map_cons, List.map_nil]; decide
    exact List.Nodup.of_map _ this
  · have hp : ms.Pairwise (fun a b => upperName a.name ≠ upperName b.name) := by
      rw [List.Nodup, List.pairwise_map] at hn; exact hn
    refine List.Pairwise.imp_of_mem ?_ hp
    intro a b ha hb hab
    show List.Disjoint _ _
    intro x hx hy
    unfold cppNames at hx hy
    rw [List.mem_map] at hx hy
    obtain ⟨p, hp, rfl⟩ := hx
    obtain ⟨q, hq, h⟩ := hy
    exact hab (key b hb a ha q hq p hp h).2.symm

example : ([⟨"Pose".toList, [], some "p".toList⟩, ⟨"Scan".toList, [], none⟩] : List MsgDef).flatMap cppNames =
    ["Pose", "PosePublisher", "PoseSubscriber", "POSE_LAYOUT_HASH", "POSE_TOPIC", "Scan", "ScanPublisher",
      "ScanSubscriber", "SCAN_LAYOUT_HASH"].map String.toList := by decide +kernel

/-- **A message can have the name of another's class**: `Foo` and `FooPublisher` are accepted together and the
header defines `FooPublisher` twice; `Foo` and `FOO` define one constant twice. -/
theorem class_name_collides :
    (generate [⟨"Foo".toList, [⟨"x".toList, .prim .u8⟩], none⟩, ⟨"FooPublisher".toList, [⟨"x".toList, .prim .u8⟩], none⟩]).isOk = true ∧
    "FooPublisher".toList ∈ cppNames ⟨"Foo".toList, [⟨"x".toList, .prim .u8⟩], none⟩ ∧
    "FooPublisher".toList ∈ cppNames ⟨"FooPublisher".toList, [⟨"x".toList, .prim .u8⟩], none⟩ ∧
    "FOO_LAYOUT_HASH".toList ∈ cppNames ⟨"Foo".toList, [], none⟩ ∧ "FOO_LAYOUT_HASH".toList ∈ cppNames ⟨"FOO".toList, [], none⟩ := by
  decide +kernel

theorem set_not_is_set (a b : Str) (ha : ¬ "set".toList <+: a) (h : a ++ "_is_set".toList = "set_".toList ++ b) : False := by
  match a, h with
  | [], h => exact absurd h (by simp)
  | [x], h => simp at h
  | [x, y], h => simp at h
  | x :: y :: z :: r, h =>
    apply ha
    simp at h
    obtain ⟨rfl, rfl, rfl, _⟩ := h
    exact ⟨r, rfl⟩

/-- **The members of the C++ struct are different**, if no field name begins with `set` or ends in
`_is_set`. -/
theorem members_distinct_partial (m : MsgDef) (hn : (m.fields.map (·.name)).Nodup)
    (h1 : ∀ f ∈ m.fields, ¬ "set".toList <+: f.name) (h2 : ∀ f ∈ m.fields, ¬ "_is_set".toList <:+ f.name) :
    (cppMembers m).Nodup := by
  unfold cppMembers
  have hf : ((m.fields.filter fun f => decide (f.ty = .prim .bool)).map (·.name)).Nodup :=
    (List.filter_sublist.map _).nodup hn
  have hmem : ∀ f ∈ m.fields.filter (fun f => decide (f.ty = .prim .bool)), f ∈ m.fields := fun f h => (List.mem_filter.mp h).1
  rw [List.nodup_append, List.nodup_append]
  refine ⟨⟨hn, ?_, ?_⟩, ?_, ?_⟩
  · have : (m.fields.filter fun f => decide (f.ty = .prim .bool)).map (fun f => f.name ++ "_is_set".toList) =
        ((m.fields.filter fun f => decide (f.ty = .prim .bool)).map (·.name)).map (· ++ "_is_set".toList) := by
      rw [List.map_map]; rfl
    rw [this]
    exact hf.map (fun a b h => List.append_cancel_right h)
  · intro x hx y hy e
    rw [List.mem_map] at hx hy
    obtain ⟨f, hf1, rfl⟩ := hx
    obtain ⟨g, hg, rfl⟩ := hy
    exact h2 f hf1 (e ▸ List.suffix_append _ _)
  · have : (m.fields.filter fun f => decide (f.ty = .prim .bool)).map (fun f => "set_".toList ++ f.name) =
        ((m.fields.filter fun f => decide (f.ty = .prim .bool)).map (·.name)).map ("set_".toList ++ ·) := by
      rw [List.map_map]; rfl
    rw [this]
    exact hf.map (fun a b h => List.append_cancel_left h)
  · intro x hx y hy e
    rw [List.mem_map] at hy
    obtain ⟨g, hg, rfl⟩ := hy
    rw [List.mem_append, List.mem_map, List.mem_map] at hx
    rcases hx with ⟨f, hf1, rfl⟩ | ⟨f, hf1, rfl⟩
    · exact h1 f hf1 ⟨'_' :: g.name, e.symm⟩
    · exact set_not_is_set _ _ (h1 f (hmem f hf1)) e

example : cppMembers ⟨"M".toList, [⟨"armed".toList, .prim .bool⟩, ⟨"v".toList, .prim .f32⟩], none⟩ =
    ["armed", "v", "armed_is_set", "set_armed"].map String.toList := by decide

/-- **An accessor can have the name of a field, or of another accessor.** -/
theorem accessor_collides :
    ¬ (cppMembers ⟨"M".toList, [⟨"armed".toList, .prim .bool⟩, ⟨"set_armed".toList, .prim .u8⟩], none⟩).Nodup ∧
    ¬ (cppMembers ⟨"M".toList, [⟨"set".toList, .prim .bool⟩, ⟨"is_set".toList, .prim .bool⟩], none⟩).Nodup := by
  decide

/-! ### Validity of what is written -/

/-- **A field named by a Rust keyword is accepted** by the parser and the layout pass, and the struct written
for it is no Rust. -/
theorem keyword_accepted :
    parseToks [.ident "Robot".toList, .punct '{', .ident "type".toList, .punct ':', .ident "u8".toList, .punct '}'] =
      some [⟨"Robot".toList, [⟨"type".toList, .prim .u8⟩], none⟩] ∧
    (generate [⟨"Robot".toList, [⟨"type".toList, .prim .u8⟩], none⟩]).isOk = true ∧
    rustValid ⟨"Robot".toList, [⟨"type".toList, .prim .u8⟩], none⟩ = false := by decide +kernel

/-- **Arrays of more than 32 elements are accepted**, and described as an ordinary thing to write, but the
struct written for them does not compile. -/
theorem long_array_accepted (n : Nat) (hn : 32 < n) (name f : Str) :
    (generate [⟨name, [⟨f, .arr (.prim .f32) n⟩], none⟩]).isOk = true ∧
      rustValid ⟨name, [⟨f, .arr (.prim .f32) n⟩], none⟩ = false := by
  refine ⟨?_, ?_⟩
  · unfold generate
    rw [if_neg (by simp), if_neg (by simp [Ty.refs])]
    rfl
  · simp [rustValid, rustType, hn]

/-- **A field of a declared message type is written without its type**: wherever the generator accepts a
reference to another message, the Rust line has nothing between the colon and the comma. -/
theorem nested_type_missing (r f : Str) : rustField ⟨f, .ref r⟩ = "    pub ".toList ++ f ++ [':', ' ', ',', '\n'] := by
  unfold rustField renderRust
  simp

/-- A package with a nested message is accepted. -/
example : (generate [⟨"P".toList, [⟨"x".toList, .prim .f64⟩], none⟩, ⟨"Q".toList, [⟨"p".toList, .ref "P".toList⟩], none⟩]).isOk = true ∧
    rustValid ⟨"Q".toList, [⟨"p".toList, .ref "P".toList⟩], none⟩ = false := by decide +kernel

/-- **And the layout hash does not see it**: two messages that differ only in which message a field is have
the same canonical text, whatever their sizes. -/
theorem nested_hash_blind (name f a b : Str) (pre post : List Field) (topic : Option Str) :
    canonical ⟨name, pre ++ ⟨f, .ref a⟩ :: post, topic⟩ = canonical ⟨name, pre ++ ⟨f, .ref b⟩ :: post, topic⟩ := by
  simp [canonical, renderRust]

end Horus.Msg
