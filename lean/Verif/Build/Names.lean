import Mathlib.Data.List.Nodup
import Mathlib.Data.List.Induction
import Mathlib.Tactic.Common
/-
Model of node names: escaping on registration, the duplicate check, and the check made before a
presence file is written.

Source: horus_core/src/core/presence.rs:266-310 (`escape_control_chars`, `validate_node_name`), 419-421
(`presence_path`); horus_core/src/scheduling/scheduler/mod.rs:1757-1784 (`add_configured_internal`),
2131-2146 (`tick_once`; `run` has the same refusal).

A name is its list of characters. `char::is_control` is the Unicode category Cc: U+0000–U+001F and
U+007F–U+009F.
-/
namespace Horus.Names

/-- `c.is_control() || ('\u{80}'..='\u{9f}').contains(&c)` (presence.rs:271, 277). -/
def isCtl (c : Char) : Bool := c.toNat < 0x20 || (0x7f ≤ c.toNat && c.toNat ≤ 0x9f) || (0x80 ≤ c.toNat && c.toNat ≤ 0x9f)

/-- A lower-case hexadecimal digit (`{:x}`). Source: presence.rs:279. -/
def hexDigit (n : Nat) : Char := if n < 10 then Char.ofNat (0x30 + n) else Char.ofNat (0x61 + (n - 10))

/-- `write!(out, "\\x{:02x}", c as u32)` for a code below 256 (presence.rs:279). -/
def esc (c : Char) : List Char := ['\\', 'x', hexDigit (c.toNat / 16), hexDigit (c.toNat % 16)]

/-- `escape_control_chars` (presence.rs:266-285). -/
def escape (s : List Char) : List Char :=
  if s.any isCtl then s.flatMap fun c => if isCtl c then esc c else [c] else s

/-- The names of the registered nodes and the recorded duplicate (scheduler/mod.rs:1782-1784, 1820). -/
structure Sched where
  names : List (List Char)
  dup : Option (List Char)

/-- Adding a node (scheduler/mod.rs:1757-1784). -/
def add (s : Sched) (name : List Char) : Sched :=
  let n := escape name
  { names := s.names ++ [n], dup := if n ∈ s.names then some n else s.dup }

/-- A scheduler with these nodes added in turn; it refuses to tick when `dup` is set
(scheduler/mod.rs:2133-2146). -/
def addAll (names : List (List Char)) : Sched := names.foldl add ⟨[], none⟩

/-- The bytes allowed in a presence file name (presence.rs:302). The source looks at bytes, which for
these ASCII characters is the same as looking at characters. -/
def okChar (c : Char) : Bool :=
  ('a' ≤ c ∧ c ≤ 'z') || ('A' ≤ c ∧ c ≤ 'Z') || ('0' ≤ c ∧ c ≤ '9') || c = '_' || c = '-' || c = '.'

/-- Two dots in a row (`name.contains("..")`, presence.rs:297). -/
def dotdot : List Char → Bool
  | '.' :: '.' :: _ => true
  | _ :: cs => dotdot cs
  | [] => false

/-- `validate_node_name` (presence.rs:287-310). The length limit is in bytes; a name with a multi-byte
character is refused anyway. -/
def valid (name : List Char) : Bool :=
  !name.isEmpty && !(255 < name.length) && !dotdot name && name.all okChar

/-- The name of the presence file (presence.rs:419-421). -/
def fileName (name : List Char) : List Char := name ++ ".json".toList

/-! ### Proofs -/

/-- `c` is a control character: U+0000–U+001F or U+007F–U+009F. -/
def Control (c : Char) : Prop := c.toNat ≤ 31 ∨ (127 ≤ c.toNat ∧ c.toNat ≤ 159)

theorem isCtl_iff (c : Char) : isCtl c = true ↔ Control c := by
  unfold isCtl Control
  simp only [Bool.or_eq_true, Bool.and_eq_true, decide_eq_true_eq]
  omega

theorem hexDigit_val (n : Nat) (h : n < 16) : hexDigit n ∈ "0123456789abcdef".toList ∧ "0123456789abcdef".toList[n]? = some (hexDigit n) := by
  have : ∀ m < 16, hexDigit m ∈ "0123456789abcdef".toList ∧ "0123456789abcdef".toList[m]? = some (hexDigit m) := by decide
  exact this n h

theorem hexDigit_inj {a b : Nat} (ha : a < 16) (hb : b < 16) (h : hexDigit a = hexDigit b) : a = b := by
  have : ∀ a < 16, ∀ b < 16, hexDigit a = hexDigit b → a = b := by decide
  exact this a ha b hb h

theorem hexDigit_clean (n : Nat) (h : n < 16) : ¬ Control (hexDigit n) := by
  have : ∀ m < 16, isCtl (hexDigit m) = false := by decide
  rw [← isCtl_iff, this n h]; simp

theorem ctl_lt (c : Char) (h : isCtl c = true) : c.toNat < 256 := by
  have := (isCtl_iff c).1 h
  unfold Control at this; omega

/-- One formula for both branches. -/
theorem escape_eq (s : List Char) : escape s = s.flatMap fun c => if isCtl c then esc c else [c] := by
  unfold escape
  by_cases h : s.any isCtl
  · rw [if_pos h]
  · rw [if_neg h]
    have h2 : ∀ c ∈ s, isCtl c = false := by
      intro c hc
      by_contra hne
      exact h (List.any_eq_true.2 ⟨c, hc, by simpa using hne⟩)
    clear h
    induction s with
    | nil => rfl
    | cons c cs ih =>
      rw [List.flatMap_cons, ← ih fun d hd => h2 d (List.mem_cons_of_mem _ hd), h2 c (List.mem_cons_self ..)]
      rfl

/-- A stored name contains no control character. -/
theorem escape_clean (s : List Char) (c : Char) (h : c ∈ escape s) : ¬ Control c := by
  rw [escape_eq, List.mem_flatMap] at h
  obtain ⟨d, _, hc⟩ := h
  by_cases hd : isCtl d
  · rw [if_pos hd] at hc
    have hlt := ctl_lt d hd
    simp only [esc, List.mem_cons, List.not_mem_nil, or_false] at hc
    rcases hc with rfl | rfl | rfl | rfl
    · unfold Control; decide
    · unfold Control; decide
    · exact hexDigit_clean _ (by omega)
    · exact hexDigit_clean _ (by omega)
  · rw [if_neg hd] at hc
    simp at hc
    subst hc
    rw [← isCtl_iff]; exact hd

/-- A name is stored unchanged exactly when it contains no control character. -/
theorem escape_id_iff (s : List Char) : escape s = s ↔ ∀ c ∈ s, ¬ Control c := by
  constructor
  · intro h c hc
    exact escape_clean s c (by rw [h]; exact hc)
  · intro h
    unfold escape
    rw [if_neg]
    rw [List.any_eq_true]
    rintro ⟨c, hc, h2⟩
    exact h c hc ((isCtl_iff c).1 h2)

theorem escape_idem (s : List Char) : escape (escape s) = escape s :=
  (escape_id_iff _).2 (escape_clean s)

/-- Two different names without a backslash are stored under different names. -/
theorem escape_injective_partial {s t : List Char} (hs : '\\' ∉ s) (ht : '\\' ∉ t) (h : escape s = escape t) :
    s = t := by
  rw [escape_eq, escape_eq] at h
  induction s generalizing t with
  | nil =>
    cases t with
    | nil => rfl
    | cons d ds =>
      rw [List.flatMap_cons] at h
      by_cases hd : isCtl d <;> simp [hd, esc] at h
  | cons c cs ih =>
    cases t with
    | nil =>
      rw [List.flatMap_cons] at h
      by_cases hc : isCtl c <;> simp [hc, esc] at h
    | cons d ds =>
      rw [List.flatMap_cons, List.flatMap_cons] at h
      simp only [List.mem_cons, not_or] at hs ht
      by_cases hc : isCtl c <;> by_cases hd : isCtl d
      · rw [if_pos hc, if_pos hd] at h
        simp only [esc, List.cons_append, List.nil_append, List.cons.injEq, true_and] at h
        obtain ⟨h1, h2, h3⟩ := h
        have l1 := ctl_lt c hc
        have l2 := ctl_lt d hd
        have e1 := hexDigit_inj (by omega) (by omega) h1
        have e2 := hexDigit_inj (by omega) (by omega) h2
        have e : c.toNat = d.toNat := by omega
        have e3 : c = d := by
          apply Char.ext
          apply UInt32.toNat_inj.1
          exact e
        rw [e3, ih hs.2 ht.2 h3]
      · rw [if_pos hc, if_neg hd] at h
        simp [esc] at h
        exact absurd h.1 ht.1
      · rw [if_neg hc, if_pos hd] at h
        simp [esc] at h
        exact absurd h.1.symm hs.1
      · rw [if_neg hc, if_neg hd] at h
        simp at h
        rw [h.1, ih hs.2 ht.2 h.2]

theorem addAll_snoc (names : List (List Char)) (n : List Char) : addAll (names ++ [n]) = add (addAll names) n := by
  simp [addAll, List.foldl_append]

theorem addAll_names (names : List (List Char)) : (addAll names).names = names.map escape := by
  induction names using List.reverseRecOn with
  | nil => rfl
  | append_singleton ns n ih => rw [addAll_snoc]; simp [add, ih]

/-- The scheduler refuses to run exactly when two of the added nodes are stored under the same name. -/
theorem refused_iff (names : List (List Char)) :
    (addAll names).dup ≠ none ↔ ∃ i j, i < j ∧ j < names.length ∧ escape (names.getD i []) = escape (names.getD j []) := by
  have key : (addAll names).dup = none ↔ (names.map escape).Nodup := by
    induction names using List.reverseRecOn with
    | nil => simp [addAll]
    | append_singleton ns n ih =>
      rw [addAll_snoc]
      unfold add
      dsimp only
      rw [addAll_names, List.map_append, List.nodup_append]
      by_cases hm : escape n ∈ ns.map escape
      · rw [if_pos hm]
        constructor
        · intro h; simp at h
        · rintro ⟨_, _, h⟩; exact absurd rfl (h _ hm _ (by simp))
      · rw [if_neg hm, ih]
        constructor
        · intro h
          refine ⟨h, by simp, ?_⟩
          intro a ha b hb
          simp at hb
          subst hb
          rintro rfl
          exact hm ha
        · exact fun h => h.1
  rw [ne_eq, key, List.nodup_iff_pairwise_ne, List.pairwise_iff_getElem]
  push Not
  constructor
  · rintro ⟨i, j, h1, h2, h3, h4⟩
    simp at h1 h2 h4
    exact ⟨i, j, h3, h2, by simp [h1, h2, h4]⟩
  · rintro ⟨i, j, h1, h2, h3⟩
    have h0 : i < names.length := by omega
    refine ⟨i, j, by simpa using h0, by simpa using h2, h1, ?_⟩
    simpa [h0, h2] using h3

/-- Nodes with distinct clean names are never refused, and nodes with equal names always are. -/
theorem clean_names {names : List (List Char)} (h : ∀ n ∈ names, ∀ c ∈ n, ¬ Control c) :
    (addAll names).dup = none ↔ names.Nodup := by
  have e : ∀ n ∈ names, escape n = n := fun n hn => (escape_id_iff n).2 (h n hn)
  have hr := refused_iff names
  constructor
  · intro hd
    rw [List.nodup_iff_pairwise_ne, List.pairwise_iff_getElem]
    intro i j h1 h2 h3 h4
    refine absurd hd (hr.2 ⟨i, j, h3, h2, ?_⟩)
    simp [h1, h2, h4]
  · intro hn
    by_contra hd
    obtain ⟨i, j, h1, h2, h3⟩ := hr.1 hd
    have h0 : i < names.length := by omega
    have hi : names.getD i [] ∈ names := by simp [h0]
    have hj : names.getD j [] ∈ names := by simp [h2]
    rw [e _ hi, e _ hj] at h3
    have := hn.getElem_inj_iff (i := i) (j := j) (hi := h0) (hj := h2)
    simp [h0, h2] at h3
    have := this.1 h3
    omega

/-- The code's gap: a name with a line break and a name that spells the escape out are different names
and are refused as duplicates. -/
theorem distinct_names_refused :
    ∃ a b : List Char, a ≠ b ∧ escape a = escape b ∧ (addAll [a, b]).dup ≠ none :=
  ⟨['a', '\n'], ['a', '\\', 'x', '0', 'a'], by decide, by decide, by decide⟩

theorem okChar_iff (c : Char) : okChar c = true ↔
    (('a' ≤ c ∧ c ≤ 'z') ∨ ('A' ≤ c ∧ c ≤ 'Z') ∨ ('0' ≤ c ∧ c ≤ '9') ∨ c = '_' ∨ c = '-' ∨ c = '.') := by
  unfold okChar
  simp [or_assoc]

theorem dotdot_iff (s : List Char) : dotdot s = true ↔ ∃ a b, s = a ++ '.' :: '.' :: b := by
  fun_induction dotdot s with
  | case1 cs => simp; exact ⟨[], cs, rfl⟩
  | case2 c cs h ih =>
    rw [ih]
    constructor
    · rintro ⟨a, b, rfl⟩; exact ⟨c :: a, b, rfl⟩
    · rintro ⟨a, b, e⟩
      cases a with
      | nil =>
        simp at e
        obtain ⟨rfl, rfl⟩ := e
        exact (h b rfl rfl).elim
      | cons x xs =>
        simp at e
        exact ⟨xs, b, e.2⟩
  | case3 => simp

/-- The names for which a presence file is written. -/
theorem valid_iff (s : List Char) : valid s = true ↔
    s ≠ [] ∧ s.length ≤ 255 ∧ (∀ c ∈ s, okChar c = true) ∧ ¬ ∃ a b, s = a ++ '.' :: '.' :: b := by
  unfold valid
  rw [← dotdot_iff]
  simp only [Bool.and_eq_true, Bool.not_eq_true', decide_eq_false_iff_not, List.all_eq_true, Nat.not_lt]
  cases s <;> simp [and_assoc, and_comm]

/-- Presence files of valid names stay in their directory: the file name has no separator and is not a
dot name; distinct names have distinct files; and the stored name is the given one. -/
theorem valid_file {s : List Char} (h : valid s = true) :
    '/' ∉ fileName s ∧ fileName s ≠ ['.'] ∧ fileName s ≠ ['.', '.'] ∧ '\x00' ∉ fileName s ∧ escape s = s := by
  obtain ⟨h1, _, h3, _⟩ := (valid_iff s).1 h
  have hns : ∀ c ∈ fileName s, c ≠ '/' ∧ c ≠ '\x00' := by
    intro c hc
    unfold fileName at hc
    rcases List.mem_append.1 hc with hc | hc
    · have := h3 c hc
      constructor <;> (rintro rfl; revert this; decide)
    · have : ∀ c ∈ ".json".toList, c ≠ '/' ∧ c ≠ '\x00' := by decide
      exact this c hc
  refine ⟨fun h => (hns _ h).1 rfl, ?_, ?_, fun h => (hns _ h).2 rfl, ?_⟩
  · intro e
    have := congrArg List.length e
    simp [fileName] at this
  · intro e
    have := congrArg List.length e
    simp [fileName] at this
  · rw [escape_id_iff]
    intro c hc hctl
    have h4 := (okChar_iff c).1 (h3 c hc)
    unfold Control at hctl
    rcases h4 with ⟨a, b⟩ | ⟨a, b⟩ | ⟨a, b⟩ | rfl | rfl | rfl
    · have a' : (97 : Nat) ≤ c.toNat := a
      have b' : c.toNat ≤ 122 := b
      omega
    · have a' : (65 : Nat) ≤ c.toNat := a
      have b' : c.toNat ≤ 90 := b
      omega
    · have a' : (48 : Nat) ≤ c.toNat := a
      have b' : c.toNat ≤ 57 := b
      omega
    all_goals revert hctl; decide

theorem fileName_inj {s t : List Char} (h : fileName s = fileName t) : s = t :=
  List.append_cancel_right h

example : valid "front_lidar-2.raw".toList = true ∧ valid "a/b".toList = false ∧ valid "a..b".toList = false ∧
    valid [] = false ∧ escape "arm\n\x1b[31m".toList = "arm\\x0a\\x1b[31m".toList := by decide

end Horus.Names
