import Mathlib.Data.List.Basic
import Mathlib.Data.List.Intervals
/-
Values given as text to `horus record replay --override`, and the CSV and hexadecimal text written by
`horus record export`.
Sources: /repo/horus_manager/src/commands/record.rs:376-395, 407-416, 590-612, 624-664.
Simplifications: text is a list of characters; reading an integer or a float from text is an arbitrary
function; the order in which a snapshot's outputs are written (that of a hash map) is the order of the
list.
-/
namespace Horus.RecordExport

abbrev Text := List Char

/-- `char::len_utf8`. -/
def utf8Len (c : Char) : Nat := if c.toNat < 128 then 1 else if c.toNat < 2048 then 2 else if c.toNat < 65536 then 3 else 4

/-- `str::len`. -/
def byteLen (s : Text) : Nat := (s.map utf8Len).sum

/-- `char::is_whitespace`, the ASCII part. (Simplification: other white space counts as ordinary text.) -/
def white (c : Char) : Bool := decide (c = ' ' ∨ c = '\t' ∨ c = '\n' ∨ c = '\r' ∨ c = '\x0b' ∨ c = '\x0c')

/-- `str::trim`. -/
def trim (s : Text) : Text := ((s.dropWhile white).reverse.dropWhile white).reverse

/-- The value of a hexadecimal digit, either case. -/
def hexVal (c : Char) : Option Nat :=
  if '0' ≤ c ∧ c ≤ '9' then some (c.toNat - 48)
  else if 'a' ≤ c ∧ c ≤ 'f' then some (c.toNat - 87)
  else if 'A' ≤ c ∧ c ≤ 'F' then some (c.toNat - 55)
  else none

/-- `u8::from_str_radix` on a text of two ASCII characters: a leading plus sign is allowed. -/
def radix16 (c d : Char) : Option Nat :=
  if c = '+' then hexVal d
  else match hexVal c, hexVal d with
    | some a, some b => some (16 * a + b)
    | _, _ => none

/-- The outcome of reading hexadecimal text. -/
inductive Res (α : Type)
  | ok (a : α)
  | err
  | panic
deriving DecidableEq

/-- record.rs:412-415: pairs of bytes one after another, stopping at the first error. Cutting the text
inside a character panics. -/
def pairs : Text → Res (List Nat)
  | [] => .ok []
  | c :: rest =>
    if utf8Len c = 2 then .err
    else if utf8Len c = 1 then
      match rest with
      | d :: rest' =>
        if utf8Len d = 1 then
          match radix16 c d with
          | none => .err
          | some b => match pairs rest' with
            | .ok l => .ok (b :: l)
            | .err => .err
            | .panic => .panic
        else .panic
      | [] => .panic
    else .panic

/-- record.rs:407-416 `parse_hex_string`. -/
def parseHex (s : Text) : Res (List Nat) := if byteLen (trim s) % 2 ≠ 0 then .err else pairs (trim s)

/-- UTF-8 encoding and number reading, as the code uses them. -/
structure Lib where
  utf8 : Text → List Nat
  i64 : Text → Option (List Nat)
  f64 : Text → Option (List Nat)

/-- record.rs:376-395: the bytes of an override; `none` is a panic. -/
def override (L : Lib) (s : Text) : Option (List Nat) :=
  match s with
  | '0' :: 'x' :: hex => match parseHex hex with
    | .ok b => some b
    | .err => some (L.utf8 s)
    | .panic => none
  | _ => match L.i64 s with
    | some b => some b
    | none => match L.f64 s with
      | some b => some b
      | none => some (L.utf8 s)

/-- One hexadecimal digit, lower case. -/
def hexDigit (n : Nat) : Char := if n < 10 then Char.ofNat (48 + n) else Char.ofNat (87 + n)

/-- record.rs:597-598, 643: `{:02x}` of each byte. -/
def hexOf : List Nat → Text
  | [] => []
  | b :: t => hexDigit (b / 16) :: hexDigit (b % 16) :: hexOf t

/-- record.rs:649, 653-661: a quoted field, inner quotes doubled. -/
def quote (s : Text) : Text := '"' :: (s.flatMap fun c => if c = '"' then ['"', '"'] else [c]) ++ ['"']

/-- record.rs:639-646: one output. -/
def item (kv : Text × List Nat) : Text := kv.1 ++ '=' :: hexOf kv.2

/-- record.rs:649: the outputs, joined with semicolons. -/
def outputsText : List (Text × List Nat) → Text
  | [] => []
  | [kv] => item kv
  | kv :: t => item kv ++ ';' :: outputsText t

/-- What a row of the CSV file is made of. -/
structure Row where
  name : Text
  id : Text
  tick : Nat
  time : Nat
  inputs : Nat
  outputs : List (Text × List Nat)

def num (n : Nat) : Text := Nat.toDigits 10 n

/-- record.rs:650-662: one row with its line end. -/
def Row.text (r : Row) : Text :=
  quote r.name ++ ',' :: (quote r.id ++ ',' :: (num r.tick ++ ',' :: (num r.time ++ ',' :: (num r.inputs ++ ',' ::
    (num r.outputs.length ++ ',' :: (quote (outputsText r.outputs) ++ ['\n']))))))

/-- The rows of a file after its header. -/
def fileText (rs : List Row) : Text := rs.flatMap Row.text

/- Specification: how a CSV reader reads a file. -/

/-- The inside of a quoted field: a doubled quote is a quote, a single one ends the field. -/
def unquote : Text → Option (Text × Text)
  | '"' :: '"' :: rest => (unquote rest).map fun p => ('"' :: p.1, p.2)
  | '"' :: rest => some ([], rest)
  | c :: rest => (unquote rest).map fun p => (c :: p.1, p.2)
  | [] => none

/-- One field up to the comma or line end that closes it: quoted or plain. -/
def field (s : Text) : Option (Text × Text) :=
  match s with
  | '"' :: rest => unquote rest
  | _ => some (s.takeWhile (fun c => c ≠ ',' ∧ c ≠ '\n'), s.dropWhile (fun c => c ≠ ',' ∧ c ≠ '\n'))

/-- The fields of a row, at most `n` of them, and the rest of the file. -/
def fields : Nat → Text → Option (List Text × Text)
  | 0, _ => none
  | n + 1, s => match field s with
    | none => none
    | some (f, ',' :: rest) => (fields n rest).map fun p => (f :: p.1, p.2)
    | some (f, '\n' :: rest) => some ([f], rest)
    | some _ => none

/-- The fields the row should have. -/
def Row.fields (r : Row) : List Text :=
  [r.name, r.id, num r.tick, num r.time, num r.inputs, num r.outputs.length, outputsText r.outputs]

/- Proofs. -/

theorem unquote_quote (s rest : Text) (h : ∀ t, rest ≠ '"' :: t) :
    unquote ((s.flatMap fun c => if c = '"' then ['"', '"'] else [c]) ++ '"' :: rest) = some (s, rest) := by
  induction s with
  | nil =>
    simp only [List.flatMap_nil, List.nil_append]
    cases rest with
    | nil => rfl
    | cons c t =>
      have : c ≠ '"' := fun e => h t (by rw [e])
      unfold unquote
      split
      · rename_i e; injection e with _ e; injection e with e _; exact absurd e this
      · rename_i e; injection e with _ e; rw [e]
      · rename_i h1 e; injection e with e _; exact absurd e.symm h1
      · rename_i e; cases e
  | cons c t ih =>
    rw [List.flatMap_cons, List.append_assoc]
    by_cases hc : c = '"'
    · subst hc
      rw [if_pos rfl]
      simp only [List.cons_append, List.nil_append]
      rw [unquote, ih]; rfl
    · rw [if_neg hc]
      simp only [List.cons_append, List.nil_append]
      rw [unquote, ih]
      · rfl
      · intro r e _; exact hc e
      · intro e; exact hc e

theorem field_quote (s rest : Text) (h : ∀ t, rest ≠ '"' :: t) : field (quote s ++ rest) = some (s, rest) := by
  unfold quote field
  simp only [List.cons_append, List.append_assoc, List.nil_append]
  exact unquote_quote s rest h

theorem num_clean (n : Nat) : ∀ c ∈ num n, c.isDigit = true := fun _ hc => Nat.isDigit_of_mem_toDigits (by omega) (by omega) hc

theorem field_num (n : Nat) (rest : Text) : field (num n ++ ',' :: rest) = some (num n, ',' :: rest) := by
  have hc : ∀ c ∈ num n, (decide (c ≠ ',' ∧ c ≠ '\n')) = true := by
    intro c hc
    have := num_clean n c hc
    apply decide_eq_true
    constructor <;> (rintro rfl; exact absurd this (by decide))
  have hne : num n ≠ [] := Nat.toDigits_ne_nil
  unfold field
  split
  · rename_i r e
    cases hn : num n with
    | nil => exact absurd hn hne
    | cons c t =>
      rw [hn] at e
      injection e with e _
      have := num_clean n c (by rw [hn]; exact List.mem_cons_self)
      rw [e] at this
      exact absurd this (by decide)
  · rw [List.takeWhile_append_of_pos hc, List.dropWhile_append_of_pos hc]
    simp

theorem fields_comma (n : Nat) (s f rest : Text) (h : field s = some (f, ',' :: rest)) :
    fields (n + 1) s = (fields n rest).map fun p => (f :: p.1, p.2) := by simp only [fields, h]

theorem fields_line (n : Nat) (s f rest : Text) (h : field s = some (f, '\n' :: rest)) :
    fields (n + 1) s = some ([f], rest) := by simp only [fields, h]

/-- C204. Reading a row back gives exactly its fields and leaves the rest of the file, whatever
characters (commas, quotes, line ends) the names contain. -/
theorem row_read (r : Row) (rest : Text) : fields 7 (r.text ++ rest) = some (r.fields, rest) := by
  unfold Row.text Row.fields
  simp only [List.append_assoc, List.cons_append, List.nil_append]
  rw [fields_comma _ _ _ _ (field_quote _ _ (by intro t h; cases h)), fields_comma _ _ _ _ (field_quote _ _ (by intro t h; cases h)),
    fields_comma _ _ _ _ (field_num _ _), fields_comma _ _ _ _ (field_num _ _), fields_comma _ _ _ _ (field_num _ _),
    fields_comma _ _ _ _ (field_num _ _), fields_line _ _ _ _ (field_quote _ _ (by intro t h; cases h))]
  rfl

/-- All rows of a text, reading at most `n`. -/
def readAll : Nat → Text → Option (List (List Text))
  | _, [] => some []
  | 0, _ => none
  | n + 1, s => match fields 7 s with
    | none => none
    | some (f, rest) => (readAll n rest).map fun l => f :: l

/-- C204. Reading the file back gives every row, in order. -/
theorem file_read (rs : List Row) : readAll rs.length (fileText rs) = some (rs.map Row.fields) := by
  induction rs with
  | nil => rfl
  | cons r t ih =>
    have e : fileText (r :: t) = r.text ++ fileText t := rfl
    rw [e, List.length_cons]
    have hne : ∃ c l, r.text ++ fileText t = c :: l := ⟨'"', _, rfl⟩
    obtain ⟨c, l, hcl⟩ := hne
    have : readAll (t.length + 1) (r.text ++ fileText t) =
        match fields 7 (r.text ++ fileText t) with
        | none => none
        | some (f, rest) => (readAll t.length rest).map fun l => f :: l := by
      rw [hcl]; rfl
    rw [this, row_read]
    dsimp only
    rw [ih]; rfl

theorem hexDigit_val : ∀ n < 16, hexVal (hexDigit n) = some n ∧ utf8Len (hexDigit n) = 1 ∧ hexDigit n ≠ '+' ∧
    white (hexDigit n) = false ∧ hexDigit n ≠ ';' ∧ hexDigit n ≠ '=' := by decide

theorem hexOf_mem {l : List Nat} (hl : ∀ b ∈ l, b < 256) {c : Char} (hc : c ∈ hexOf l) : ∃ n < 16, c = hexDigit n := by
  induction l with
  | nil => simp [hexOf] at hc
  | cons b t ih =>
    rw [hexOf, List.mem_cons, List.mem_cons] at hc
    have hb := hl b List.mem_cons_self
    rcases hc with rfl | rfl | hc
    · exact ⟨_, by omega, rfl⟩
    · exact ⟨_, by omega, rfl⟩
    · exact ih (fun x hx => hl x (List.mem_cons_of_mem _ hx)) hc

theorem trim_id {s : Text} (h : ∀ c ∈ s, white c = false) : trim s = s := by
  have key : ∀ t : Text, (∀ c ∈ t, white c = false) → t.dropWhile white = t := by
    intro t ht
    cases t with
    | nil => rfl
    | cons c r => rw [List.dropWhile_cons_of_neg (by rw [ht c List.mem_cons_self]; simp)]
  unfold trim
  rw [key s h, key _ (fun c hc => h c (by simpa using hc)), List.reverse_reverse]

theorem pairs_hex (l : List Nat) (hl : ∀ b ∈ l, b < 256) : pairs (hexOf l) = .ok l := by
  induction l with
  | nil => rfl
  | cons b t ih =>
    have hb := hl b List.mem_cons_self
    have h1 := hexDigit_val (b / 16) (by omega)
    have h2 := hexDigit_val (b % 16) (by omega)
    rw [hexOf, pairs, if_neg (by rw [h1.2.1]; omega), if_pos h1.2.1]
    try dsimp only
    rw [if_pos h2.2.1]
    have hr : radix16 (hexDigit (b / 16)) (hexDigit (b % 16)) = some b := by
      rw [radix16, if_neg h1.2.2.1, h1.1, h2.1]
      dsimp only
      congr 1; omega
    rw [hr, ih fun x hx => hl x (List.mem_cons_of_mem _ hx)]

theorem byteLen_hex (l : List Nat) (hl : ∀ b ∈ l, b < 256) : byteLen (hexOf l) = 2 * l.length := by
  induction l with
  | nil => rfl
  | cons b t ih =>
    have hb := hl b List.mem_cons_self
    have h1 := hexDigit_val (b / 16) (by omega)
    have h2 := hexDigit_val (b % 16) (by omega)
    have := ih fun x hx => hl x (List.mem_cons_of_mem _ hx)
    unfold byteLen at *
    rw [hexOf, List.map_cons, List.map_cons, List.sum_cons, List.sum_cons, this, h1.2.1, h2.2.1, List.length_cons]
    omega

/-- C204. The text the exporter writes for a value, given back as an override with `0x` in front, is
that value: every byte string can be recorded, exported and replayed. -/
theorem export_override (L : Lib) (l : List Nat) (hl : ∀ b ∈ l, b < 256) : override L ('0' :: 'x' :: hexOf l) = some l := by
  have hw : trim (hexOf l) = hexOf l := trim_id fun c hc => by
    obtain ⟨n, hn, rfl⟩ := hexOf_mem hl hc
    exact (hexDigit_val n hn).2.2.2.1
  have : parseHex (hexOf l) = .ok l := by
    rw [parseHex, hw, byteLen_hex l hl, if_neg (by omega), pairs_hex l hl]
  simp only [override, this]

/-- C204 (finding). A plus sign passes as a digit: `0x+f` is the byte 15. -/
theorem plus_accepted (L : Lib) : override L "0x+f".toList = some [15] := by rfl

/-- C204 (finding). A letter outside ASCII at an odd place crashes the command instead of being taken
as plain text. -/
theorem letter_panics (L : Lib) : override L "0x1é1".toList = none := by rfl

/-- C204. Text that does not begin with `0x` is an integer if it reads as one, else a floating-point number if it reads as one, else
its own bytes; text that begins with `0x` but is not hexadecimal is its own bytes, whatever it would read as. -/
theorem override_reads (L : Lib) (s : Text) :
    ((∀ r, s ≠ '0' :: 'x' :: r) →
      (∀ b, L.i64 s = some b → override L s = some b) ∧ (∀ b, L.i64 s = none → L.f64 s = some b → override L s = some b) ∧
      (L.i64 s = none → L.f64 s = none → override L s = some (L.utf8 s))) ∧
    (∀ r, s = '0' :: 'x' :: r → parseHex r = .err → override L s = some (L.utf8 s)) := by
  constructor
  · intro h
    have key : override L s = match L.i64 s with | some b => some b | none => match L.f64 s with | some b => some b | none => some (L.utf8 s) := by
      unfold override
      split
      · rename_i r; exact absurd rfl (h r)
      · rfl
    rw [key]
    refine ⟨fun b e => by rw [e], fun b e f => by rw [e, f], fun e f => by rw [e, f]⟩
  · rintro r rfl h
    simp only [override, h]

example : parseHex "0g".toList = .err := by rfl

/-- C204. ASCII overrides never crash. -/
theorem ascii_no_panic_partial (L : Lib) (s : Text) (h : ∀ c ∈ s, utf8Len c = 1) : override L s ≠ none := by
  have hp : ∀ n (t : Text), t.length ≤ n → (∀ c ∈ t, utf8Len c = 1) → byteLen t % 2 = 0 → pairs t ≠ .panic := by
    intro n
    induction n with
    | zero =>
      intro t hl _ _
      have : t = [] := List.length_eq_zero_iff.1 (by omega)
      subst this; simp [pairs]
    | succ n ih =>
      intro t hl ha he
      cases t with
      | nil => simp [pairs]
      | cons c r =>
        have hc := ha c List.mem_cons_self
        cases r with
        | nil => simp [byteLen, hc] at he
        | cons d r' =>
          have hd := ha d (by simp)
          rw [pairs, if_neg (by omega), if_pos hc]
          try dsimp only
          rw [if_pos hd]
          have := ih r' (by simp at hl; omega) (fun x hx => ha x (by simp [hx]))
            (by simp only [byteLen, List.map_cons, List.sum_cons, hc, hd] at he ⊢; omega)
          split
          · simp
          · split <;> simp_all
  have hsub : ∀ t : Text, ∀ c ∈ trim t, c ∈ t := by
    intro t c hc
    unfold trim at hc
    rw [List.mem_reverse] at hc
    have h1 := (List.dropWhile_sublist white).subset hc
    rw [List.mem_reverse] at h1
    exact (List.dropWhile_sublist white).subset h1
  unfold override
  split
  · rename_i hex
    have : parseHex hex ≠ .panic := by
      unfold parseHex
      split
      · simp
      · rename_i h2
        exact hp _ _ (Nat.le_refl _) (fun c hc => h c (by simp [hsub _ c hc])) (by omega)
    split <;> simp_all
  · split
    · simp
    · split <;> simp

/-- C204. Topics whose names hold no semicolon: the outputs column determines the outputs. What is
missing: topic names with a semicolon. -/
theorem outputs_told_partial (a b : List (Text × List Nat))
    (ha : ∀ kv ∈ a, ';' ∉ kv.1 ∧ ∀ x ∈ kv.2, x < 256) (hb : ∀ kv ∈ b, ';' ∉ kv.1 ∧ ∀ x ∈ kv.2, x < 256)
    (h : outputsText a = outputsText b) : a = b := by
  -- no semicolon in an item, and it is not empty
  have clean : ∀ kv : Text × List Nat, ';' ∉ kv.1 → (∀ x ∈ kv.2, x < 256) → ';' ∉ item kv := by
    intro kv h1 h2 hm
    rw [item, List.mem_append, List.mem_cons] at hm
    rcases hm with hm | hm | hm
    · exact h1 hm
    · exact absurd hm (by decide)
    · obtain ⟨n, hn, e⟩ := hexOf_mem h2 hm
      exact (hexDigit_val n hn).2.2.2.2.1 e.symm
  have hexInj : ∀ x y : List Nat, (∀ b ∈ x, b < 256) → (∀ b ∈ y, b < 256) → hexOf x = hexOf y → x = y := by
    intro x y hx hy e
    have h1 := pairs_hex x hx
    rw [e, pairs_hex y hy] at h1
    cases h1; rfl
  have itemInj : ∀ x y : Text × List Nat, (∀ b ∈ x.2, b < 256) → (∀ b ∈ y.2, b < 256) → item x = item y → x = y := by
    intro x y hx hy e
    have tail : ∀ z : Text × List Nat, (∀ b ∈ z.2, b < 256) → (item z).reverse.takeWhile (fun c => decide (c ≠ '=')) = (hexOf z.2).reverse := by
      intro z hz
      unfold item
      rw [List.reverse_append, List.reverse_cons, List.append_assoc, List.takeWhile_append_of_pos]
      · simp
      · intro c hc
        obtain ⟨n, hn, e⟩ := hexOf_mem hz (by simpa using hc)
        rw [e]; simpa using (hexDigit_val n hn).2.2.2.2.2
    have e1 := tail x hx
    rw [e, tail y hy] at e1
    have e2 : y.2 = x.2 := hexInj _ _ hy hx (List.reverse_injective e1)
    unfold item at e
    rw [e2] at e
    have e3 := List.append_cancel_right e
    exact Prod.ext e3 e2.symm
  have cut : ∀ (s : Text) (r1 : Text), ';' ∉ s → (s ++ ';' :: r1).takeWhile (fun c => decide (c ≠ ';')) = s ∧ (s ++ ';' :: r1).dropWhile (fun c => decide (c ≠ ';')) = ';' :: r1 := by
    intro s r1 hs
    have hc : ∀ c ∈ s, decide (c ≠ ';') = true := by
      intro c hc
      have : c ≠ ';' := fun e => hs (e ▸ hc)
      simpa using this
    rw [List.takeWhile_append_of_pos hc, List.dropWhile_append_of_pos hc]
    simp
  have nonempty : ∀ kv : Text × List Nat, item kv ≠ [] := by intro kv; simp [item]
  induction a generalizing b with
  | nil =>
    cases b with
    | nil => rfl
    | cons kv t =>
      exfalso
      cases t with
      | nil => exact nonempty kv h.symm
      | cons kv2 t2 => simp [outputsText] at h
  | cons x t ih =>
    have hx := ha x List.mem_cons_self
    cases b with
    | nil =>
      exfalso
      cases t with
      | nil => exact nonempty x h
      | cons kv2 t2 => simp [outputsText] at h
    | cons y u =>
      have hy := hb y List.mem_cons_self
      have cx := clean x hx.1 hx.2
      have cy := clean y hy.1 hy.2
      cases t with
      | nil =>
        cases u with
        | nil => rw [itemInj x y hx.2 hy.2 h]
        | cons y2 u2 =>
          exfalso
          rw [outputsText, outputsText] at h
          · exact cx (by rw [h]; simp)
          · simp
      | cons x2 t2 =>
        cases u with
        | nil =>
          exfalso
          have h' : item x ++ ';' :: outputsText (x2 :: t2) = item y := h
          exact cy (by rw [← h']; simp)
        | cons y2 u2 =>
          have h' : item x ++ ';' :: outputsText (x2 :: t2) = item y ++ ';' :: outputsText (y2 :: u2) := h
          have e1 := (cut _ (outputsText (x2 :: t2)) cx).1
          rw [h', (cut _ _ cy).1] at e1
          have e2 := (cut _ (outputsText (x2 :: t2)) cx).2
          rw [h', (cut _ _ cy).2] at e2
          injection e2 with _ e2
          have := ih (y2 :: u2) (fun kv hk => ha kv (List.mem_cons_of_mem _ hk)) (fun kv hk => hb kv (List.mem_cons_of_mem _ hk)) e2.symm
          rw [itemInj x y hx.2 hy.2 e1.symm, this]

/-- C204 (finding). A topic name with a semicolon: two different snapshots with the same number of
outputs give the same row. -/
theorem semicolon_ambiguous :
    outputsText [("a=00;b".toList, [1]), ("c".toList, [2])] = outputsText [("a".toList, [0]), ("b=01;c".toList, [2])] := by
  decide +kernel

/-- Non-vacuity. -/
example : fields 7 ((⟨"a,\"b".toList, "n\n1".toList, 10, 2, 0, [("t".toList, [255, 16])]⟩ : Row).text) =
    some (["a,\"b".toList, "n\n1".toList, "10".toList, "2".toList, "0".toList, "1".toList, "t=ff10".toList], []) := by
  decide +kernel

example (L : Lib) : override L "0xff10".toList = some [255, 16] := by rfl

end Horus.RecordExport
