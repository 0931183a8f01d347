/-
What a downloaded package must pass before it is unpacked, and under which
names packages are kept.

Modelled source: horus_manager/src/registry/install.rs (73-113, 583-676,
1043-1098), horus_manager/src/paths.rs (73-88),
horus_manager/src/registry/mod.rs (127-271).
-/
import Mathlib.Tactic.Common

namespace Horus.Pkg.Verify

/-! ### Names -/

/-- A lower-case ASCII letter. -/
def lower (c : Nat) : Bool := 97 ≤ c && c ≤ 122

/-- An ASCII digit. -/
def digit (c : Nat) : Bool := 48 ≤ c && c ≤ 57

/-- `validate_name_segment`: begins with a lower-case letter (an empty segment
passes) and has only lower-case letters, digits, `-` and `_`.  Characters are
their code points.

Models horus_manager/src/registry/mod.rs:229-252. -/
def segmentOk (s : List Nat) : Bool :=
  (match s with
    | [] => true
    | c :: _ => lower c) &&
  s.all fun c => lower c || digit c || c == 45 || c == 95

/-- `split_once('/')`. -/
def splitSlash : List Nat → Option (List Nat × List Nat)
  | [] => none
  | c :: cs => if c = 47 then some ([], cs) else (splitSlash cs).map fun p => (c :: p.1, p.2)

/-- The name contains `..` or a backslash. -/
def pathChars : List Nat → Bool
  | [] => false
  | c :: cs => c == 92 || (c == 46 && cs.head? = some 46) || pathChars cs

/-- `validate_package_name`, with the list of reserved names as a parameter.
Lengths are counted in characters; the source counts bytes, which is the same
for the names it accepts.

Models horus_manager/src/registry/mod.rs:127-190. -/
def nameOk (reserved : List (List Nat)) (s : List Nat) : Bool :=
  match s with
  | 64 :: rest =>
    decide (4 ≤ s.length) && decide (s.length ≤ 128) &&
      match splitSlash rest with
      | none => false
      | some (org, pkg) =>
        decide (2 ≤ org.length) && decide (org.length ≤ 64) && segmentOk org &&
          (decide (2 ≤ pkg.length) && decide (pkg.length ≤ 64) && segmentOk pkg) &&
          (!reserved.contains org && !reserved.contains pkg)
  | _ => decide (2 ≤ s.length) && decide (s.length ≤ 64) && segmentOk s && !pathChars s && !reserved.contains s

/-- `package_name_to_path`: `@` is dropped and `/` becomes two underscores.
Models horus_manager/src/registry/mod.rs:269-271. -/
def toPath (s : List Nat) : List Nat := s.flatMap fun c => if c = 64 then [] else if c = 47 then [95, 95] else [c]

/-- `url_encode_package_name`.  The source replaces one character at a time,
`%` first; no later replacement touches what an earlier one produced, so it is
the same as encoding each character once.

Models horus_manager/src/registry/mod.rs:256-263. -/
def urlEncode (s : List Nat) : List Nat := s.flatMap fun c =>
  if c = 37 then [37, 50, 53] else if c = 64 then [37, 52, 48] else if c = 47 then [37, 50, 70]
  else if c = 32 then [37, 50, 48] else if c = 35 then [37, 50, 51] else if c = 63 then [37, 51, 70] else [c]

/-- A safe file name: not empty, `.` or `..`, without `/` or NUL. -/
def SafeName (s : List Nat) : Prop := s ≠ [] ∧ s ≠ [46] ∧ s ≠ [46, 46] ∧ 47 ∉ s ∧ 0 ∉ s

theorem split_spec {s a b : List Nat} (h : splitSlash s = some (a, b)) : s = a ++ 47 :: b := by
  induction s generalizing a with
  | nil => cases h
  | cons c cs ih =>
    rw [splitSlash] at h
    by_cases hc : c = 47
    · rw [if_pos hc] at h; cases h; rw [hc]; rfl
    · rw [if_neg hc] at h
      cases hs : splitSlash cs with
      | none => rw [hs] at h; cases h
      | some p =>
        rw [hs] at h
        obtain ⟨p1, p2⟩ := p
        cases h
        rw [ih hs]
        rfl

theorem segment_chars {s : List Nat} (h : segmentOk s = true) (c : Nat) (hc : c ∈ s) : c ≠ 46 ∧ c ≠ 47 ∧ c ≠ 64 ∧ c ≠ 0 := by
  unfold segmentOk at h
  simp only [Bool.and_eq_true, List.all_eq_true] at h
  have := h.2 c hc
  simp [lower, digit] at this
  omega

theorem toPath_segment {s : List Nat} (h : ∀ c ∈ s, c ≠ 47 ∧ c ≠ 64) : toPath s = s := by
  induction s with
  | nil => rfl
  | cons c cs ih =>
    have h1 := h c List.mem_cons_self
    have h2 := ih (fun x hx => h x (List.mem_cons_of_mem _ hx))
    unfold toPath at h2 ⊢
    rw [List.flatMap_cons, h2]
    simp [h1.1, h1.2]

theorem toPath_append (a b : List Nat) : toPath (a ++ b) = toPath a ++ toPath b := List.flatMap_append

/-- What a registered name looks like: a segment, or `@`, a segment, `/` and a
segment, segments having at least two characters. -/
theorem nameOk_shape {reserved : List (List Nat)} {s : List Nat} (h : nameOk reserved s = true) :
    (segmentOk s = true ∧ 2 ≤ s.length ∧ toPath s = s) ∨
      ∃ org pkg, s = 64 :: (org ++ 47 :: pkg) ∧ segmentOk org = true ∧ segmentOk pkg = true ∧ 2 ≤ org.length ∧ 2 ≤ pkg.length ∧
        toPath s = org ++ [95, 95] ++ pkg := by
  unfold nameOk at h
  split at h
  · rename_i rest
    right
    simp only [Bool.and_eq_true] at h
    cases hs : splitSlash rest with
    | none => rw [hs] at h; simp at h
    | some p =>
      obtain ⟨org, pkg⟩ := p
      rw [hs] at h
      simp only [Bool.and_eq_true, decide_eq_true_eq] at h
      obtain ⟨_, ⟨⟨⟨h1, _⟩, h2⟩, ⟨h3, _⟩, h4⟩, _⟩ := h
      have e := split_spec hs
      refine ⟨org, pkg, by rw [e], h2, h4, h1, h3, ?_⟩
      have t1 := toPath_segment (fun c hc => ⟨(segment_chars h2 c hc).2.1, (segment_chars h2 c hc).2.2.1⟩)
      have t2 := toPath_segment (fun c hc => ⟨(segment_chars h4 c hc).2.1, (segment_chars h4 c hc).2.2.1⟩)
      rw [e]
      show toPath ([64] ++ (org ++ ([47] ++ pkg))) = _
      rw [toPath_append, toPath_append, toPath_append, t1, t2]
      simp [toPath]
  · left
    simp only [Bool.and_eq_true, decide_eq_true_eq] at h
    obtain ⟨⟨⟨⟨h1, _⟩, h2⟩, _⟩, _⟩ := h
    exact ⟨h2, h1, toPath_segment fun c hc => ⟨(segment_chars h2 c hc).2.1, (segment_chars h2 c hc).2.2.1⟩⟩

/-- **A registered name is kept under one safe file name.**  Whatever name the
rules accept, the directory it is kept in is a single path component that is
neither `.` nor `..`. -/
theorem registered_name_safe {reserved : List (List Nat)} {s : List Nat} (h : nameOk reserved s = true) : SafeName (toPath s) := by
  have seg : ∀ t : List Nat, 2 ≤ t.length → (∀ c ∈ t, c ≠ 46 ∧ c ≠ 47 ∧ c ≠ 0) → SafeName t := by
    intro t hl hc
    refine ⟨?_, ?_, ?_, fun hm => (hc _ hm).2.1 rfl, fun hm => (hc _ hm).2.2 rfl⟩
    · rintro rfl; simp at hl
    · rintro rfl; simp at hl
    · rintro rfl; exact (hc 46 List.mem_cons_self).1 rfl
  rcases nameOk_shape h with ⟨h1, h2, h3⟩ | ⟨org, pkg, _, h1, h2, h3, h4, h5⟩
  · rw [h3]
    exact seg s h2 fun c hc => ⟨(segment_chars h1 c hc).1, (segment_chars h1 c hc).2.1, (segment_chars h1 c hc).2.2.2⟩
  · rw [h5]
    refine seg _ (by simp; omega) ?_
    intro c hc
    rcases List.mem_append.1 hc with hc | hc
    · rcases List.mem_append.1 hc with hc | hc
      · exact ⟨(segment_chars h1 c hc).1, (segment_chars h1 c hc).2.1, (segment_chars h1 c hc).2.2.2⟩
      · simp at hc; omega
    · exact ⟨(segment_chars h2 c hc).1, (segment_chars h2 c hc).2.1, (segment_chars h2 c hc).2.2.2⟩

/-- The text has two underscores in a row. -/
def hasDouble : List Nat → Bool
  | 95 :: 95 :: _ => true
  | _ :: cs => hasDouble cs
  | [] => false

theorem hasDouble_append {a b : List Nat} : hasDouble (a ++ 95 :: 95 :: b) = true := by
  induction a with
  | nil => rfl
  | cons c cs ih =>
    rw [List.cons_append]
    unfold hasDouble
    split
    · rfl
    · rename_i heq; cases heq; exact ih
    · rename_i heq; cases heq

theorem segment_head {s : List Nat} (h : segmentOk s = true) : s.head? ≠ some 95 := by
  cases s with
  | nil => simp
  | cons c cs =>
    simp only [segmentOk, Bool.and_eq_true] at h
    simp [lower] at h
    simp
    omega

/-- If the part before the separator has no double underscore, the separator
is found again. -/
theorem separator_unique {a b c d : List Nat} (ha : hasDouble a = false) (hc : hasDouble c = false) (hb : b.head? ≠ some 95)
    (hd : d.head? ≠ some 95) (h : a ++ 95 :: 95 :: b = c ++ 95 :: 95 :: d) : a = c ∧ b = d := by
  induction a generalizing c with
  | nil =>
    cases c with
    | nil => simp at h; exact ⟨rfl, h⟩
    | cons x xs =>
      simp only [List.nil_append, List.cons_append, List.cons.injEq] at h
      obtain ⟨rfl, h⟩ := h
      cases xs with
      | nil =>
        simp only [List.nil_append, List.cons.injEq] at h
        rw [h.2] at hb
        simp at hb
      | cons y ys =>
        simp only [List.cons_append, List.cons.injEq] at h
        obtain ⟨rfl, _⟩ := h
        simp [hasDouble] at hc
  | cons x xs ih =>
    cases c with
    | nil =>
      simp only [List.nil_append, List.cons_append, List.cons.injEq] at h
      obtain ⟨rfl, h⟩ := h
      cases xs with
      | nil =>
        simp only [List.nil_append, List.cons.injEq] at h
        rw [← h.2] at hd
        simp at hd
      | cons y ys =>
        simp only [List.cons_append, List.cons.injEq] at h
        obtain ⟨rfl, _⟩ := h
        simp [hasDouble] at ha
    | cons y ys =>
      simp only [List.cons_append, List.cons.injEq] at h
      obtain ⟨rfl, h⟩ := h
      have tl : ∀ (z : Nat) (zs : List Nat), hasDouble (z :: zs) = false → hasDouble zs = false := by
        intro z zs hz
        unfold hasDouble at hz
        split at hz
        · cases hz
        · rename_i heq; cases heq; exact hz
        · rename_i heq; cases heq
      obtain ⟨e1, e2⟩ := ih (tl _ _ ha) (tl _ _ hc) h
      exact ⟨by rw [e1], e2⟩

/-- The organisation of a scoped name has no double underscore, and an
unscoped name has none. -/
def Unambiguous (s : List Nat) : Prop := ∀ org pkg, s = 64 :: (org ++ 47 :: pkg) → 47 ∉ org → hasDouble org = false

/-- **Different packages are kept in different directories**, as long as no
unscoped name and no organisation has two underscores in a row.  Full
statement: without that condition; see `names_collide`. -/
theorem directories_distinct_partial {reserved : List (List Nat)} {s t : List Nat} (hs : nameOk reserved s = true) (ht : nameOk reserved t = true)
    (us : Unambiguous s) (ut : Unambiguous t) (ns : s.head? ≠ some 64 → hasDouble s = false) (nt : t.head? ≠ some 64 → hasDouble t = false)
    (h : toPath s = toPath t) : s = t := by
  rcases nameOk_shape hs with ⟨h1, _, h3⟩ | ⟨org, pkg, e, o1, p1, _, _, h5⟩
  · have n1 : s.head? ≠ some 64 := by
      cases s with
      | nil => simp
      | cons c cs => simp; exact (segment_chars h1 c List.mem_cons_self).2.2.1
    rcases nameOk_shape ht with ⟨g1, _, g3⟩ | ⟨org', pkg', e', o2, p2, _, _, g5⟩
    · rw [← h3, h, g3]
    · rw [h3, g5] at h
      have := ns n1
      rw [h, List.append_assoc] at this
      exact absurd (hasDouble_append (a := org') (b := pkg')) (by rw [List.cons_append, List.cons_append, List.nil_append] at this; rw [this]; simp)
  · rcases nameOk_shape ht with ⟨g1, _, g3⟩ | ⟨org', pkg', e', o2, p2, _, _, g5⟩
    · have n1 : t.head? ≠ some 64 := by
        cases t with
        | nil => simp
        | cons c cs => simp; exact (segment_chars g1 c List.mem_cons_self).2.2.1
      rw [h5, g3] at h
      have := nt n1
      rw [← h, List.append_assoc] at this
      exact absurd (hasDouble_append (a := org) (b := pkg)) (by rw [List.cons_append, List.cons_append, List.nil_append] at this; rw [this]; simp)
    · rw [h5, g5, List.append_assoc, List.append_assoc] at h
      have h47 : ∀ {o : List Nat}, segmentOk o = true → 47 ∉ o := fun ho hm => (segment_chars ho 47 hm).2.1 rfl
      obtain ⟨a, b⟩ := separator_unique (us org pkg e (h47 o1)) (ut org' pkg' e' (h47 o2)) (segment_head p1) (segment_head p2) h
      rw [e, e', a, b]

/-- Finding: two registered packages are kept in the same directory.
`@ab/cd` and `ab__cd`; `@ab__cd/ef` and `@ab/cd__ef`. -/
theorem names_collide :
    (nameOk [] [64, 97, 98, 47, 99, 100] = true ∧ nameOk [] [97, 98, 95, 95, 99, 100] = true ∧
      toPath [64, 97, 98, 47, 99, 100] = toPath [97, 98, 95, 95, 99, 100]) ∧
    (nameOk [] [64, 97, 98, 95, 95, 99, 100, 47, 101, 102] = true ∧ nameOk [] [64, 97, 98, 47, 99, 100, 95, 95, 101, 102] = true ∧
      toPath [64, 97, 98, 95, 95, 99, 100, 47, 101, 102] = toPath [64, 97, 98, 47, 99, 100, 95, 95, 101, 102]) := by decide +kernel

/-- Finding: the rules are applied when publishing, not when installing, and
the name `@..` is kept in the directory above. -/
theorem unchecked_name_escapes : nameOk [] [64, 46, 46] = false ∧ toPath [64, 46, 46] = [46, 46] ∧ ¬ SafeName (toPath [64, 46, 46]) := by
  refine ⟨by decide +kernel, by decide +kernel, fun h => h.2.2.1 (by decide +kernel)⟩

/-- **A package name stays one segment of the address**: the encoded name has
no `/`, `?`, `#`, blank or `@`, whatever the name. -/
theorem url_one_segment (s : List Nat) : 47 ∉ urlEncode s ∧ 63 ∉ urlEncode s ∧ 35 ∉ urlEncode s ∧ 32 ∉ urlEncode s ∧ 64 ∉ urlEncode s := by
  have key : ∀ c, c ∈ urlEncode s → c ≠ 47 ∧ c ≠ 63 ∧ c ≠ 35 ∧ c ≠ 32 ∧ c ≠ 64 := by
    intro c hc
    obtain ⟨x, _, hx⟩ := List.mem_flatMap.1 hc
    split_ifs at hx <;> simp at hx <;> omega
  exact ⟨fun h => (key _ h).1 rfl, fun h => (key _ h).2.1 rfl, fun h => (key _ h).2.2.1 rfl, fun h => (key _ h).2.2.2.1 rfl, fun h => (key _ h).2.2.2.2 rfl⟩

/-- A hexadecimal digit, upper case. -/
def hexVal (c : Nat) : Nat := if c < 65 then c - 48 else c - 55

/-- What a server does with an encoded name. -/
def urlDecode : List Nat → List Nat
  | [] => []
  | 37 :: a :: b :: cs => (hexVal a * 16 + hexVal b) :: urlDecode cs
  | c :: cs => c :: urlDecode cs

/-- **The server sees the name that was asked for.** -/
theorem url_decodes (s : List Nat) : urlDecode (urlEncode s) = s := by
  induction s with
  | nil => rfl
  | cons c s ih =>
    have hc : urlEncode (c :: s) = urlEncode [c] ++ urlEncode s := by simp [urlEncode]
    rw [hc]
    by_cases h1 : c = 37
    · subst h1; show (37 : Nat) :: urlDecode (urlEncode s) = _; rw [ih]
    by_cases h2 : c = 64
    · subst h2; show (64 : Nat) :: urlDecode (urlEncode s) = _; rw [ih]
    by_cases h3 : c = 47
    · subst h3; show (47 : Nat) :: urlDecode (urlEncode s) = _; rw [ih]
    by_cases h4 : c = 32
    · subst h4; show (32 : Nat) :: urlDecode (urlEncode s) = _; rw [ih]
    by_cases h5 : c = 35
    · subst h5; show (35 : Nat) :: urlDecode (urlEncode s) = _; rw [ih]
    by_cases h6 : c = 63
    · subst h6; show (63 : Nat) :: urlDecode (urlEncode s) = _; rw [ih]
    have he : urlEncode [c] = [c] := by simp [urlEncode, h1, h2, h3, h4, h5, h6]
    rw [he, List.singleton_append, urlDecode, ih]
    intro a b cs h
    exact absurd h h1

/-- **Different names have different addresses.** -/
theorem url_distinct (s t : List Nat) (h : urlEncode s = urlEncode t) : s = t := by
  rw [← url_decodes s, h, url_decodes]

/-! ### Keys and verification -/

/-- `publisher_key_path`: the name under which the publisher's key is looked
for; `none` if the name is not a bare file name.  `owner` is tried first.
Both calls in the installer pass no owner.

Models horus_manager/src/paths.rs:73-88. -/
def bare (s : List Nat) : Bool := !s.isEmpty && !s.contains 47 && !pathChars s

/-- See `bare`; `onFile` says which `<name>.pub` exist and what key they hold. -/
def keyFor {K : Type} (onFile : List Nat → Option K) (name : List Nat) (owner : Option (List Nat)) : Option K :=
  match owner.bind fun o => if bare o then onFile o else none with
  | some k => some k
  | none => if bare name then onFile name else none

/-- What the server sends: the bytes, the signature header if any, and the
checksum it states (`none`: the request failed or had none, or an empty
one). -/
structure Served (B S C : Type) where
  bytes : B
  signature : Option S
  checksum : Option C

/-- The outcome of the checks before unpacking. -/
inductive Verdict where
  | install
  | badSignature
  | noChecksum
  | badChecksum
  deriving DecidableEq

/-- The checks on a source package: the signature, then the checksum.
`valid k b s` says whether signature `s` of `b` verifies against key `k`; an
unreadable key or signature counts as not valid.

Models horus_manager/src/registry/install.rs:583-676 with
`verify_against_publisher_key` (73-113). -/
def checkSource {B S C K : Type} [DecidableEq C] (hash : B → C) (valid : K → B → S → Bool) (onFile : List Nat → Option K)
    (name : List Nat) (d : Served B S C) : Verdict :=
  let sig : Bool := match d.signature with
    | some s => match keyFor onFile name none with
      | some k => valid k d.bytes s
      | none => true
    | none => true
  if !sig then .badSignature
  else match d.checksum with
    | none => .noChecksum
    | some c => if c ≠ hash d.bytes then .badChecksum else .install

/-- The checks on a pre-built binary: the checksum, then the signature.

Models horus_manager/src/registry/install.rs:1043-1098. -/
def checkBinary {B S C K : Type} [DecidableEq C] (hash : B → C) (valid : K → B → S → Bool) (onFile : List Nat → Option K)
    (name : List Nat) (d : Served B S C) : Verdict :=
  match d.checksum with
  | none => .noChecksum
  | some c =>
    if c ≠ hash d.bytes then .badChecksum
    else match d.signature with
      | some s => match keyFor onFile name none with
        | some k => if valid k d.bytes s then .install else .badSignature
        | none => .install
      | none => .install

section
variable {B S C K : Type} [DecidableEq C] (hash : B → C) (valid : K → B → S → Bool) (onFile : List Nat → Option K)

/-- **What it takes to be installed.**  A package is unpacked exactly when the
server states the checksum of what it sent and, if it sent a signature and the
publisher's key is on file under the package's name, the signature is valid.
The same for binaries. -/
theorem installed_iff (name : List Nat) (d : Served B S C) :
    (checkSource hash valid onFile name d = .install ↔ d.checksum = some (hash d.bytes) ∧
      ∀ s k, d.signature = some s → bare name = true → onFile name = some k → valid k d.bytes s = true) ∧
    (checkBinary hash valid onFile name d = .install ↔ d.checksum = some (hash d.bytes) ∧
      ∀ s k, d.signature = some s → bare name = true → onFile name = some k → valid k d.bytes s = true) := by
  have hk : keyFor onFile name none = if bare name = true then onFile name else none := by
    unfold keyFor; rfl
  constructor
  · unfold checkSource
    rw [hk]
    cases hs : d.signature with
    | none =>
      cases hc : d.checksum with
      | none => simp
      | some c => by_cases e : c = hash d.bytes <;> simp [e]
    | some s =>
      by_cases hb : bare name = true
      · cases ho : onFile name with
        | none =>
          cases hc : d.checksum with
          | none => simp [hb]
          | some c => by_cases e : c = hash d.bytes <;> simp [e, hb]
        | some k =>
          cases hv : valid k d.bytes s <;> cases hc : d.checksum with
          | none => simp [hb, hv]
          | some c => by_cases e : c = hash d.bytes <;> simp [e, hb, hv]
      · cases hc : d.checksum with
        | none => simp [hb]
        | some c => by_cases e : c = hash d.bytes <;> simp [e, hb]
  · unfold checkBinary
    rw [hk]
    cases hc : d.checksum with
    | none => simp
    | some c =>
      by_cases e : c = hash d.bytes
      · cases hs : d.signature with
        | none => simp [e]
        | some s =>
          by_cases hb : bare name = true
          · cases ho : onFile name with
            | none => simp [e, hb]
            | some k => cases hv : valid k d.bytes s <;> simp [e, hb, hv]
          · simp [e, hb]
      · simp [e]

/-- **A damaged download is never installed**: bytes whose checksum is not the
one stated are refused on both paths, whatever the signature. -/
theorem damaged_refused (name : List Nat) (d : Served B S C) (h : d.checksum ≠ some (hash d.bytes)) :
    checkSource hash valid onFile name d ≠ .install ∧ checkBinary hash valid onFile name d ≠ .install :=
  ⟨fun e => h ((installed_iff hash valid onFile name d).1.1 e).1, fun e => h ((installed_iff hash valid onFile name d).2.1 e).1⟩

/-- **A forged signature is refused** when the publisher's key is on file under
the package's name.  Full statement: with the key on file nothing but what its
owner signed is installed; see `stripped_signature_installs` and
`scoped_never_verified`. -/
theorem forged_refused_partial (name : List Nat) (d : Served B S C) (s : S) (k : K) (hb : bare name = true) (ho : onFile name = some k)
    (hs : d.signature = some s) (hv : valid k d.bytes s = false) :
    checkSource hash valid onFile name d ≠ .install ∧ checkBinary hash valid onFile name d ≠ .install := by
  constructor
  · intro e
    have := ((installed_iff hash valid onFile name d).1.1 e).2 s k hs hb ho
    rw [hv] at this; cases this
  · intro e
    have := ((installed_iff hash valid onFile name d).2.1 e).2 s k hs hb ho
    rw [hv] at this; cases this

/-- Finding: leaving the signature out defeats it.  With the publisher's key
on file, any bytes sent without a signature and with their own checksum are
installed. -/
theorem stripped_signature_installs (name : List Nat) (b : B) :
    checkSource hash valid onFile name ⟨b, none, some (hash b)⟩ = .install ∧ checkBinary hash valid onFile name ⟨b, none, some (hash b)⟩ = .install := by
  constructor <;> simp [checkSource, checkBinary]

/-- Finding: the signature of a scoped package is never checked.  Its name has
a `/`, so no key is ever found for it, whatever is on file: any signature
passes. -/
theorem scoped_never_verified (reserved : List (List Nat)) (name : List Nat) (hn : nameOk reserved name = true) (hs : name.head? = some 64) (b : B) (s : S) :
    checkSource hash valid onFile name ⟨b, some s, some (hash b)⟩ = .install ∧ checkBinary hash valid onFile name ⟨b, some s, some (hash b)⟩ = .install := by
  have hb : bare name = false := by
    rcases nameOk_shape hn with ⟨h1, h2, _⟩ | ⟨org, pkg, e, _⟩
    · cases name with
      | nil => cases hs
      | cons c cs =>
        cases hs
        exact absurd rfl (segment_chars h1 64 List.mem_cons_self).2.2.1
    · rw [e]; simp [bare]
  have hc : ∀ s' k, (some s = some s') → bare name = true → onFile name = some k → valid k b s' = true := by
    intro s' k _ h; rw [hb] at h; cases h
  exact ⟨(installed_iff hash valid onFile name ⟨b, some s, some (hash b)⟩).1.2 ⟨rfl, hc⟩, (installed_iff hash valid onFile name ⟨b, some s, some (hash b)⟩).2.2 ⟨rfl, hc⟩⟩

/-- **A key is only read from inside the key directory**: a name or owner with
a `/`, a backslash or `..` finds no key. -/
theorem key_names_bare (name : List Nat) (owner : Option (List Nat)) (k : K) (h : keyFor onFile name owner = some k) :
    ∃ n, (n = name ∨ owner = some n) ∧ onFile n = some k ∧ n ≠ [] ∧ 47 ∉ n ∧ 92 ∉ n := by
  have key : ∀ n, bare n = true → n ≠ [] ∧ 47 ∉ n ∧ 92 ∉ n := by
    intro n hn
    simp only [bare, Bool.and_eq_true, Bool.not_eq_true'] at hn
    obtain ⟨⟨h1, h2⟩, h3⟩ := hn
    refine ⟨by rintro rfl; simp at h1, by simpa using h2, ?_⟩
    clear h1 h2
    induction n with
    | nil => simp
    | cons c cs ih =>
      simp only [pathChars, Bool.or_eq_false_iff] at h3
      intro hm
      rcases List.mem_cons.1 hm with e | hm
      · subst e; simp at h3
      · exact ih h3.2 hm
  unfold keyFor at h
  split at h
  · rename_i k' hk
    cases h
    cases owner with
    | none => cases hk
    | some o =>
      simp only [Option.bind_some] at hk
      split at hk
      · rename_i hb
        exact ⟨o, .inr rfl, hk, key o hb⟩
      · cases hk
  · split at h
    · rename_i hb
      exact ⟨name, .inl rfl, h, key name hb⟩
    · cases h

end

/-- Non-vacuity: the checksum of a package is its length and the key 7 signs
with `bytes ++ [7]`; an unscoped package with a good and a bad signature. -/
example :
    let onFile : List Nat → Option Nat := fun n => if n = [97, 98] then some 7 else none
    let valid : Nat → List Nat → List Nat → Bool := fun k b s => s = b ++ [k]
    checkSource List.length valid onFile [97, 98] ⟨[1, 2], some [1, 2, 7], some 2⟩ = .install ∧
      checkSource List.length valid onFile [97, 98] ⟨[1, 2], some [1, 2, 8], some 2⟩ = .badSignature ∧
      checkBinary List.length valid onFile [97, 98] ⟨[1, 2], some [1, 2, 8], some 2⟩ = .badSignature ∧
      checkSource List.length valid onFile [97, 98] ⟨[1, 2], none, some 3⟩ = .badChecksum ∧
      checkBinary List.length valid onFile [97, 98] ⟨[1, 2], none, none⟩ = .noChecksum ∧
      nameOk [] [64, 97, 98, 47, 99, 100] = true ∧ nameOk [[97, 98]] [97, 98] = false ∧ nameOk [] [97, 66] = false := by decide +kernel

end Horus.Pkg.Verify
