/-
`horus msg list`, `info` and `hash` look for the standard messages in Rust source text, line by line:
horus_manager/src/commands/msg.rs:508-755.

Text is a list of characters and a file a list of lines.  The documentation kept with a message and with
a field, the module and the file name are left out: they take part in no hash.  `is_uppercase` and
`is_whitespace` are taken on ASCII.  `brace_count` is a usize; the release build wraps below zero, and as the
code only asks whether it is zero an integer stands for it (a debug build would panic instead).
`Msg/Model.lean` models `parse_field` on fields already taken apart; here it works on the text of the line.
-/
namespace Horus.MsgScan

abbrev Str := List Char

/-- `str::trim` (used at msg.rs:515, 525, 541, 565, 599, 629): leading and trailing white space goes. -/
def trim (s : Str) : Str := ((s.dropWhile Char.isWhitespace).reverse.dropWhile Char.isWhitespace).reverse

/-- `str::trim_start_matches` with a text (msg.rs:617, 645): the text is taken off the front while it is
there; the first argument bounds the number of turns and the callers give the length. -/
def stripAll (pat : Str) : Nat → Str → Str
  | 0, s => s
  | n + 1, s => if pat.isPrefixOf s then stripAll pat n (s.drop pat.length) else s

/-- The first piece of `str::split("//")` (msg.rs:668-671). -/
def uncomment : Str → Str
  | [] => []
  | c :: s => if c = '/' ∧ s.head? = some '/' then [] else c :: uncomment s

/-- `str::contains` with a text (msg.rs:677). -/
def has (pat : Str) : Str → Bool
  | [] => pat.isPrefixOf []
  | c :: s => pat.isPrefixOf (c :: s) || has pat s

/-- `trim_end_matches(',')` (msg.rs:673). -/
def noCommas (s : Str) : Str := (s.reverse.dropWhile (· = ',')).reverse

/-- `extract_struct_name` (msg.rs:616-625). -/
def structName (line : Str) : Option Str :=
  let rest := trim (stripAll "pub struct ".toList line.length line)
  let name := rest.takeWhile fun c => !(c = '<' || c = '{' || c = '(' || c.isWhitespace)
  match name with
  | [] => none
  | c :: _ => if c.isUpper then some name else none

/-- The lines that `parse_field` passes over (msg.rs:631-642). -/
def skipped (line : Str) : Bool :=
  line.isEmpty || "//".toList.isPrefixOf line || "#[".toList.isPrefixOf line || line == ['{'] || line == ['}'] ||
  "pub fn".toList.isPrefixOf line || "fn ".toList.isPrefixOf line || "impl".toList.isPrefixOf line

/-- `parse_field` (msg.rs:628-692): the name and the type of the field on a line. -/
def parseField (line0 : Str) : Option (Str × Str) :=
  let line := trim line0
  if skipped line then none else
  let line := stripAll "pub ".toList line.length line
  if !line.contains ':' then none else
  let name := trim (line.takeWhile (· ≠ ':'))
  let ty := trim (noCommas (trim (uncomment ((line.dropWhile (· ≠ ':')).drop 1))))
  if has "->".toList ty || has "fn(".toList ty then none else
  if name.head? = some '_' then none else some (name, ty)

/-- The loop over the lines of a struct (msg.rs:561-594): the fields found, and the lines from where it
stopped. -/
def fields : List Str → Bool → Int → List (Str × Str) × List Str
  | [], _, _ => ([], [])
  | l :: ls, ins, b =>
    if ins || b == 0 then
      let t := trim l
      let ins1 := ins || t.contains '{'
      let b1 := b + (t.count '{' : Int)
      let b2 := b1 - (t.count '}' : Int)
      if t.contains '}' && b2 == 0 then ([], l :: ls)
      else
        let r := fields ls ins1 b2
        match parseField t with
        | some f => (f :: r.1, r.2)
        | none => r
    else ([], l :: ls)

structure Msg where
  name : Str
  fields : List (Str × Str)
deriving DecidableEq

/-- A line that holds a public struct (msg.rs:541). -/
def isStruct (l : Str) : Bool := "pub struct ".toList.isPrefixOf (trim l)

/-- A line at which the search for a struct begins (msg.rs:518). -/
def isHead (l : Str) : Bool := isStruct l || "#[derive".toList.isPrefixOf (trim l)

/-- The lines from the first struct on (msg.rs:537-543). -/
def fromStruct : List Str → List Str
  | [] => []
  | l :: ls => if isStruct l then l :: ls else fromStruct ls

/-- `parse_messages_from_source` (msg.rs:508-613); the first argument bounds the number of turns, of which
each takes at least a line. -/
def scanN : Nat → List Str → List Msg
  | 0, _ => []
  | _ + 1, [] => []
  | n + 1, l :: ls =>
    if isHead l then
      match fromStruct (l :: ls) with
      | [] => scanN n ls
      | s :: rest =>
        match structName (trim s) with
        | none => scanN n ls
        | some name =>
          if (trim s).getLast? = some ';' || (trim s).contains '(' then ⟨name, []⟩ :: scanN n rest
          else
            let open0 := (trim s).contains '{'
            let r := fields rest open0 (if open0 then 1 else 0)
            ⟨name, r.1⟩ :: scanN n r.2
    else scanN n ls

/-- The whole file (msg.rs:508-613). -/
def scan (ls : List Str) : List Msg := scanN ls.length ls

/-- `canonical_message_form` (msg.rs:700-709). -/
def canonical (m : Msg) : Str := m.fields.foldl (fun acc f => acc ++ '|' :: f.1 ++ ':' :: f.2) m.name

/-- The bytes of a text. -/
def bytes (s : Str) : List UInt8 := (String.ofList s).toUTF8.toList

/-- One byte (msg.rs:715-716). -/
def mix (h : UInt32) (b : UInt8) : UInt32 := (h ^^^ b.toUInt32) * 16777619

/-- `fnv1a` of the command (msg.rs:712-719). -/
def fnv1a (bs : List UInt8) : UInt32 := bs.foldl mix 2166136261

/-- The number `horus msg hash` prints, before it is written in hexadecimal (msg.rs:739-750). -/
def cliHash (m : Msg) : UInt32 := fnv1a (bytes (canonical m))

/-- One byte (horus_core/src/communication/topic/mod.rs:498-499). -/
def constMix (h : UInt32) (b : UInt8) : UInt32 := (h ^^^ b.toUInt32) * 16777619

/-- The loop of `const_fnv1a` (horus_core/src/communication/topic/mod.rs:494-503), with what is done for each byte
and the number of bytes left. -/
def constLoop (f : UInt32 → UInt8 → UInt32) (bs : List UInt8) : Nat → Nat → UInt32 → UInt32
  | 0, _, h => h
  | n + 1, i, h => match bs[i]? with
    | some b => constLoop f bs n (i + 1) (f h b)
    | none => h

/-- `LAYOUT_HASH` of the `message!` macro (horus_core/src/communication/macros.rs:222-227, 301-306) for a
message of that name with those fields; `stringify!` gives the text of the type as rustc prints it. -/
def layoutHash (name : Str) (fs : List (Str × Str)) : UInt32 :=
  let text := name ++ fs.flatMap fun f => '|' :: (f.1 ++ ':' :: f.2)
  let bs := bytes text
  constLoop constMix bs bs.length 0 2166136261

/-! ### How messages are written -/

/-- What a name in Rust source looks like here: letters, digits and underscores. -/
def word (s : Str) : Prop := s ≠ [] ∧ ∀ c ∈ s, c.isAlphanum = true ∨ c = '_'

/-- A line of a struct's body. -/
inductive Line where
  /-- `pub name: type,` with a comment after it or none -/
  | field (indent : Nat) (name ty : Str) (comment : Option Str)
  /-- a comment, documentation -/
  | note (indent : Nat) (text : Str)
  /-- an attribute -/
  | attr (indent : Nat) (text : Str)
  | blank
deriving DecidableEq

def spaces (n : Nat) : Str := List.replicate n ' '

def tailOf : Option Str → Str
  | none => []
  | some c => ' ' :: '/' :: '/' :: c

def showLine : Line → Str
  | .field i f t c => spaces i ++ ("pub ".toList ++ (f ++ ':' :: ' ' :: (t ++ ',' :: tailOf c)))
  | .note i s => spaces i ++ '/' :: '/' :: s
  | .attr i s => spaces i ++ '#' :: '[' :: s
  | .blank => []

def fieldOf : Line → Option (Str × Str)
  | .field _ f t _ => some (f, t)
  | _ => none

/-- No braces in a text. -/
def flat (s : Str) : Prop := '{' ∉ s ∧ '}' ∉ s

/-- A written type: no white space or comma at its ends, no comment, no function. -/
def plainType (t : Str) : Prop :=
  t ≠ [] ∧ trim t = t ∧ t.getLast? ≠ some ',' ∧ '/' ∉ t ∧ has "->".toList t = false ∧ has "fn(".toList t = false ∧ flat t

def goodLine : Line → Prop
  | .field _ f t c => word f ∧ f.head? ≠ some '_' ∧ ¬ "fn".toList <+: f ∧ plainType t ∧ ∀ s ∈ c, flat s
  | .note _ s => flat s
  | .attr _ s => flat s
  | .blank => True

/-- What a source file holds: a line that begins no struct, or a struct with its attributes before it. -/
inductive Item where
  | other (line : Str)
  | struct (attrs : List Str) (name : Str) (body : List Line)

def showItem : Item → List Str
  | .other l => [l]
  | .struct as n b => as ++ ("pub struct ".toList ++ (n ++ [' ', '{'])) :: (b.map showLine ++ [['}']])

def goodItem : Item → Prop
  | .other l => isHead l = false
  | .struct as n b => (∀ a ∈ as, isStruct a = false) ∧ word n ∧ n.head?.any Char.isUpper = true ∧ ∀ l ∈ b, goodLine l

def msgOf : Item → Option Msg
  | .other _ => none
  | .struct _ n b => some ⟨n, b.filterMap fieldOf⟩

/-! ### Trimming -/

def trimEnd (s : Str) : Str := (s.reverse.dropWhile Char.isWhitespace).reverse

theorem dropSpaces (i : Nat) (s : Str) : (spaces i ++ s).dropWhile Char.isWhitespace = s.dropWhile Char.isWhitespace := by
  induction i with
  | zero => rfl
  | succ n ih => unfold spaces at ih ⊢; rw [List.replicate_succ, List.cons_append, List.dropWhile_cons_of_pos (by decide)]; exact ih

theorem trimEnd_append (a b : Str) (y : Char) (hy : a.getLast? = some y) (hw : y.isWhitespace = false) : trimEnd (a ++ b) = a ++ trimEnd b := by
  unfold trimEnd
  rw [List.reverse_append, List.dropWhile_append]
  obtain ⟨r, rfl⟩ := List.getLast?_eq_some_iff.1 hy
  have : (r ++ [y]).reverse.dropWhile Char.isWhitespace = (r ++ [y]).reverse := by
    rw [List.reverse_append]; simp [hw]
  rw [this]
  split
  · rename_i h
    simp only [List.isEmpty_iff] at h
    rw [h]; simp
  · simp

theorem trim_mid (i : Nat) (a b : Str) (x y : Char) (hx : a.head? = some x) (hxw : x.isWhitespace = false) (hy : a.getLast? = some y)
    (hw : y.isWhitespace = false) : trim (spaces i ++ (a ++ b)) = a ++ trimEnd b := by
  unfold trim
  rw [dropSpaces]
  have : (a ++ b).dropWhile Char.isWhitespace = a ++ b := by
    cases a with
    | nil => simp at hx
    | cons c a =>
      simp only [List.head?_cons, Option.some.injEq] at hx
      subst hx
      rw [List.cons_append, List.dropWhile_cons_of_neg (by simp [hxw])]
  rw [this]
  exact trimEnd_append a b y hy hw

theorem mem_trim {c : Char} {s : Str} (h : c ∈ trim s) : c ∈ s := by
  unfold trim at h
  rw [List.mem_reverse] at h
  have h := (List.dropWhile_sublist _).mem h
  rw [List.mem_reverse] at h
  exact (List.dropWhile_sublist _).mem h

theorem dropWhile_head (s : Str) (c : Char) (h : (s.dropWhile Char.isWhitespace).head? = some c) : c.isWhitespace = false := by
  induction s with
  | nil => simp at h
  | cons d s ih =>
    rw [List.dropWhile_cons] at h
    split at h
    · exact ih h
    · rename_i hd
      simp only [List.head?_cons, Option.some.injEq] at h
      subst h
      simpa using hd

theorem dropWhile_self (s : Str) (h : ∀ c, s.head? = some c → c.isWhitespace = false) : s.dropWhile Char.isWhitespace = s := by
  cases s with
  | nil => rfl
  | cons c s => rw [List.dropWhile_cons_of_neg (by simp [h c rfl])]

theorem trim_ends (s : Str) (c : Char) : ((trim s).head? = some c → c.isWhitespace = false) ∧ ((trim s).getLast? = some c → c.isWhitespace = false) := by
  unfold trim
  constructor
  · intro h
    rw [List.head?_reverse] at h
    have hs : (List.dropWhile Char.isWhitespace (s.dropWhile Char.isWhitespace).reverse) <:+ (s.dropWhile Char.isWhitespace).reverse := List.dropWhile_suffix _
    obtain ⟨p, hp⟩ := hs
    have hl : (s.dropWhile Char.isWhitespace).reverse.getLast? = some c := by
      rw [← hp, List.getLast?_append, h]; rfl
    rw [List.getLast?_reverse] at hl
    exact dropWhile_head _ _ hl
  · intro h
    rw [List.getLast?_reverse] at h
    exact dropWhile_head _ _ h

theorem trim_self (s : Str) (h1 : ∀ c, s.head? = some c → c.isWhitespace = false) (h2 : ∀ c, s.getLast? = some c → c.isWhitespace = false) : trim s = s := by
  unfold trim
  rw [dropWhile_self s h1, dropWhile_self s.reverse (by intro c hc; rw [List.head?_reverse] at hc; exact h2 c hc), List.reverse_reverse]

theorem trim_trim (s : Str) : trim (trim s) = trim s := trim_self _ (fun c => (trim_ends s c).1) (fun c => (trim_ends s c).2)

/-! ### A line of a struct -/

theorem word_chars {f : Str} (h : word f) (c : Char) (hc : c ∈ f) : c.isWhitespace = false ∧ c ≠ ':' ∧ c ≠ '(' ∧ c ≠ '{' ∧ c ≠ '<' ∧ c ≠ ' ' := by
  rcases h.2 c hc with h | h
  · refine ⟨?_, ?_, ?_, ?_, ?_, ?_⟩
    · refine Bool.eq_false_iff.2 fun hn => ?_
      simp only [Char.isWhitespace, Bool.or_eq_true, decide_eq_true_eq] at hn
      rcases hn with ((hn | hn) | hn) | hn <;> (subst hn; exact absurd h (by decide))
    all_goals (intro hn; subst hn; exact absurd h (by decide))
  · subst h; decide

theorem word_trim {f : Str} (h : word f) : trim f = f :=
  trim_self _ (fun c hc => (word_chars h c (List.mem_of_mem_head? (by rw [hc]; rfl))).1) (fun c hc => (word_chars h c (List.mem_of_mem_getLast? (by rw [hc]; rfl))).1)

theorem stripAll_none (pat s : Str) (n : Nat) (h : pat.isPrefixOf s = false) : stripAll pat n s = s := by
  cases n with
  | zero => rfl
  | succ n => unfold stripAll; simp [h]

theorem not_pub {f : Str} (hw : word f) (z : Str) : "pub ".toList.isPrefixOf (f ++ ':' :: z) = false := by
  have hc := fun c hc => (word_chars hw c hc).2.2.2.2.2
  have he : "pub ".toList = ['p', 'u', 'b', ' '] := rfl
  rw [he]
  rcases f with _ | ⟨a, _ | ⟨b, _ | ⟨c, _ | ⟨d, f⟩⟩⟩⟩ <;> simp [List.isPrefixOf]
  intro _ _ _ hd
  exact absurd hd.symm (hc d (by simp))

theorem not_fn {f : Str} (h : ¬ "fn".toList <+: f) (z : Str) : "pub fn".toList.isPrefixOf ("pub ".toList ++ (f ++ ':' :: z)) = false := by
  have he : "pub fn".toList = ['p', 'u', 'b', ' ', 'f', 'n'] := rfl
  have hp : "pub ".toList = ['p', 'u', 'b', ' '] := rfl
  have hf : "fn".toList = ['f', 'n'] := rfl
  rw [he, hp]
  rw [hf] at h
  rcases f with _ | ⟨a, _ | ⟨b, f⟩⟩ <;> simp [List.isPrefixOf] at h ⊢
  intro h1 h2
  exact h h1 h2

theorem uncomment_append (a b : Str) (h : '/' ∉ a) : uncomment (a ++ b) = a ++ uncomment b := by
  induction a with
  | nil => rfl
  | cons c a ih =>
    simp only [List.mem_cons, not_or] at h
    rw [List.cons_append, uncomment, if_neg (by intro hc; exact h.1 hc.1.symm), ih h.2]
    rfl

theorem takeTo (f z : Str) (h : ':' ∉ f) : (f ++ ':' :: z).takeWhile (· ≠ ':') = f ∧ (f ++ ':' :: z).dropWhile (· ≠ ':') = ':' :: z := by
  induction f with
  | nil => simp
  | cons c f ih =>
    simp only [List.mem_cons, not_or] at h
    have := ih h.2
    have hc : c ≠ ':' := fun e => h.1 e.symm
    simp [hc] at this ⊢
    exact this

theorem type_ends {t : Str} (h : plainType t) : ∃ x y, t.head? = some x ∧ x.isWhitespace = false ∧ t.getLast? = some y ∧ y.isWhitespace = false := by
  obtain ⟨hne, ht, _⟩ := h
  cases hh : t.head? with
  | none => simp at hh; exact absurd hh hne
  | some x =>
    cases hl : t.getLast? with
    | none => simp at hl; exact absurd hl hne
    | some y =>
      refine ⟨x, y, rfl, ?_, rfl, ?_⟩
      · exact (trim_ends t x).1 (by rw [ht]; exact hh)
      · exact (trim_ends t y).2 (by rw [ht]; exact hl)

theorem noCommas_one (t : Str) (h : t.getLast? ≠ some ',') : noCommas (t ++ [',']) = t := by
  unfold noCommas
  rw [List.reverse_append]
  simp only [List.reverse_cons, List.reverse_nil, List.nil_append, List.singleton_append]
  rw [List.dropWhile_cons_of_pos (by decide)]
  have : t.reverse.dropWhile (· = ',') = t.reverse := by
    rw [← List.head?_reverse] at h
    cases hr : t.reverse with
    | nil => rfl
    | cons c r =>
      rw [hr] at h
      rw [List.dropWhile_cons_of_neg]
      simpa using h
  rw [this, List.reverse_reverse]

/-- What is left behind the comma once the line is trimmed. -/
theorem parse_core (f t r : Str) (hr : r = [] ∨ ∃ c, r = ' ' :: '/' :: '/' :: c) (hf : word f) (hu : f.head? ≠ some '_')
    (hn : ¬ "fn".toList <+: f) (ht : plainType t) (l : Str)
    (hl : trim l = "pub ".toList ++ (f ++ ':' :: ' ' :: (t ++ ',' :: r))) : parseField (trim l) = some (f, t) := by
  have hcol : ':' ∉ f := fun h => (word_chars hf _ h).2.1 rfl
  have hsk : skipped (trim l) = false := by
    rw [hl]
    have h1 := not_fn hn (' ' :: (t ++ ',' :: r))
    unfold skipped
    rw [h1]
    have hp : "pub ".toList = ['p', 'u', 'b', ' '] := rfl
    rw [hp]
    simp [List.isPrefixOf]
  have hst : stripAll "pub ".toList (trim l).length (trim l) = f ++ ':' :: ' ' :: (t ++ ',' :: r) := by
    rw [hl, List.length_append]
    have : ("pub ".toList.length + (f ++ ':' :: ' ' :: (t ++ ',' :: r)).length) = (3 + (f ++ ':' :: ' ' :: (t ++ ',' :: r)).length) + 1 := by
      have : "pub ".toList.length = 4 := rfl
      omega
    rw [this, stripAll, if_pos (List.isPrefixOf_iff_prefix.2 (List.prefix_append _ _)), List.drop_left]
    exact stripAll_none _ _ _ (not_pub hf _)
  obtain ⟨x, y, hx, hxw, hy, hyw⟩ := type_ends ht
  have hty : trim (noCommas (trim (uncomment (' ' :: (t ++ ',' :: r))))) = t := by
    have h1 : uncomment (' ' :: (t ++ ',' :: r)) = spaces 1 ++ ((t ++ [',']) ++ uncomment r) := by
      have : ' ' :: (t ++ ',' :: r) = (' ' :: (t ++ [','])) ++ r := by simp
      rw [this, uncomment_append _ _ (by simp; exact ht.2.2.2.1)]
      rfl
    have h2 : trimEnd (uncomment r) = [] := by
      rcases hr with rfl | ⟨c, rfl⟩
      · rfl
      · have : uncomment (' ' :: '/' :: '/' :: c) = [' '] := by simp [uncomment]
        rw [this]; decide
    rw [h1, trim_mid 1 (t ++ [',']) _ x ',' (by cases t <;> simp_all) hxw (by simp) (by decide), h2, List.append_nil, noCommas_one _ ht.2.2.1]
    exact ht.2.1
  unfold parseField
  simp only [trim_trim, hsk, hst, (takeTo f _ hcol).1, (takeTo f _ hcol).2, word_trim hf, List.drop_succ_cons, List.drop_zero, hty,
    ht.2.2.2.2.1, ht.2.2.2.2.2.1, hu, if_false, Bool.false_eq_true, Bool.or_self]
  simp

theorem showLine_read (l : Line) (h : goodLine l) : parseField (trim (showLine l)) = fieldOf l := by
  cases l with
  | field i f t c =>
    obtain ⟨hf, hu, hn, ht, hc⟩ := h
    have hp : "pub ".toList = ['p', 'u', 'b', ' '] := rfl
    cases c with
    | none =>
      refine parse_core f t [] (Or.inl rfl) hf hu hn ht _ ?_
      have := trim_mid i ("pub ".toList ++ (f ++ ':' :: ' ' :: (t ++ [',']))) [] 'p' ',' (by rw [hp]; rfl) (by decide) (by rw [hp]; simp [List.getLast?_cons, List.getLast?_append]) (by decide)
      simpa [showLine, tailOf, trimEnd] using this
    | some c =>
      refine parse_core f t (' ' :: '/' :: '/' :: trimEnd c) (Or.inr ⟨_, rfl⟩) hf hu hn ht _ ?_
      have := trim_mid i ("pub ".toList ++ (f ++ ':' :: ' ' :: (t ++ [',', ' ', '/', '/']))) c 'p' '/' (by rw [hp]; rfl) (by decide) (by rw [hp]; simp [List.getLast?_cons, List.getLast?_append]) (by decide)
      simpa [showLine, tailOf] using this
  | note i s =>
    have := trim_mid i ['/', '/'] s '/' '/' rfl (by decide) rfl (by decide)
    simp only [showLine]
    have h2 : spaces i ++ '/' :: '/' :: s = spaces i ++ (['/', '/'] ++ s) := rfl
    rw [h2, this]
    unfold parseField
    have h3 : trim (['/', '/'] ++ trimEnd s) = ['/', '/'] ++ trimEnd s := by rw [← this, trim_trim]
    have h4 : skipped (['/', '/'] ++ trimEnd s) = true := by simp [skipped, List.isPrefixOf]
    rw [h3]; dsimp only; rw [h4]; rfl
  | attr i s =>
    have := trim_mid i ['#', '['] s '#' '[' rfl (by decide) rfl (by decide)
    simp only [showLine]
    have h2 : spaces i ++ '#' :: '[' :: s = spaces i ++ (['#', '['] ++ s) := rfl
    rw [h2, this]
    unfold parseField
    have h3 : trim (['#', '['] ++ trimEnd s) = ['#', '['] ++ trimEnd s := by rw [← this, trim_trim]
    have h4 : skipped (['#', '['] ++ trimEnd s) = true := by simp [skipped, List.isPrefixOf]
    rw [h3]; dsimp only; rw [h4]; rfl
  | blank => rfl

theorem showLine_flat (l : Line) (h : goodLine l) : flat (showLine l) := by
  have hs : ∀ i, flat (spaces i) := fun i => by constructor <;> (unfold spaces; intro h; have := List.eq_of_mem_replicate h; exact absurd this (by decide))
  cases l with
  | field i f t c =>
    obtain ⟨hf, _, _, ht, hc⟩ := h
    have hfl : flat f := ⟨fun h => (word_chars hf _ h).2.2.2.1 rfl, fun h => by rcases hf.2 _ h with h | h <;> exact absurd h (by decide)⟩
    have htl : flat (tailOf c) := by
      cases c with
      | none => constructor <;> simp [tailOf]
      | some c => have := hc c rfl; constructor <;> simp [tailOf, this.1, this.2]
    have hp : "pub ".toList = ['p', 'u', 'b', ' '] := rfl
    have h1 := hs i
    have h2 := ht.2.2.2.2.2.2
    unfold flat at *
    constructor <;> (simp only [showLine, hp]; simp; grind)
  | note i s => have h1 := hs i; unfold goodLine flat at *; constructor <;> simp [showLine, h1, h]
  | attr i s => have h1 := hs i; unfold goodLine flat at *; constructor <;> simp [showLine, h1, h]
  | blank => constructor <;> simp [showLine]

theorem fields_read (b : List Line) (rest : List Str) (h : ∀ l ∈ b, goodLine l) :
    fields (b.map showLine ++ ['}'] :: rest) true 1 = (b.filterMap fieldOf, ['}'] :: rest) := by
  induction b with
  | nil => simp [fields, trim]
  | cons l b ih =>
    have hf := showLine_flat l (h l (by simp))
    have h1 : (trim (showLine l)).contains '}' = false := by simp; exact fun hm => hf.2 (mem_trim hm)
    have h2 : (trim (showLine l)).count '}' = 0 := List.count_eq_zero.2 fun hm => hf.2 (mem_trim hm)
    have h3 : (trim (showLine l)).count '{' = 0 := List.count_eq_zero.2 fun hm => hf.1 (mem_trim hm)
    rw [List.map_cons, List.cons_append, fields]
    simp only [Bool.true_or, if_true, h1, Bool.false_and, Bool.false_eq_true, if_false, h2, h3, showLine_read l (h l (by simp))]
    have := ih fun l hl => h l (by simp [hl])
    simp only [Int.natCast_zero, Int.add_zero, Int.sub_zero, this]
    cases hl : fieldOf l <;> simp [hl]

/-! ### A file -/

def headLine (n : Str) : Str := "pub struct ".toList ++ (n ++ [' ', '{'])

theorem not_struct {n : Str} (hu : n.head?.any Char.isUpper = true) (z : Str) : "pub struct ".toList.isPrefixOf (n ++ z) = false := by
  have he : "pub struct ".toList = 'p' :: "ub struct ".toList := rfl
  rw [he]
  cases n with
  | nil => simp at hu
  | cons c n =>
    simp only [List.head?_cons, Option.any_some] at hu
    rw [List.cons_append, List.isPrefixOf]
    have : ('p' == c) = false := by
      simp only [beq_eq_false_iff_ne]
      rintro rfl
      exact absurd hu (by decide)
    rw [this]; rfl

theorem head_facts (n : Str) (hw : word n) (hu : n.head?.any Char.isUpper = true) :
    trim (headLine n) = headLine n ∧ isStruct (headLine n) = true ∧ structName (headLine n) = some n ∧
    (headLine n).getLast? = some '{' ∧ (headLine n).contains '(' = false ∧ (headLine n).contains '{' = true := by
  have hp : "pub struct ".toList = ['p', 'u', 'b', ' ', 's', 't', 'r', 'u', 'c', 't', ' '] := rfl
  have hl : (headLine n).getLast? = some '{' := by unfold headLine; rw [List.getLast?_append, List.getLast?_append]; rfl
  have ht : trim (headLine n) = headLine n :=
    trim_self _ (by intro c hc; unfold headLine at hc; rw [hp] at hc; simp at hc; subst hc; decide) (by intro c hc; rw [hl] at hc; simp at hc; subst hc; decide)
  refine ⟨ht, ?_, ?_, hl, ?_, ?_⟩
  · unfold isStruct
    rw [ht]
    exact List.isPrefixOf_iff_prefix.2 (List.prefix_append _ _)
  · have h1 : stripAll "pub struct ".toList (headLine n).length (headLine n) = n ++ [' ', '{'] := by
      unfold headLine
      rw [List.length_append]
      have : "pub struct ".toList.length + (n ++ [' ', '{']).length = (10 + (n ++ [' ', '{']).length) + 1 := by
        have : "pub struct ".toList.length = 11 := rfl
        omega
      rw [this, stripAll, if_pos (List.isPrefixOf_iff_prefix.2 (List.prefix_append _ _)), List.drop_left]
      exact stripAll_none _ _ _ (not_struct hu _)
    have h2 : trim (n ++ [' ', '{']) = n ++ [' ', '{'] := by
      refine trim_self _ ?_ ?_
      · intro c hc
        cases n with
        | nil => simp at hu
        | cons d n => simp at hc; subst hc; exact (word_chars hw d (by simp)).1
      · intro c hc; simp [List.getLast?_append] at hc; subst hc; decide
    have h3 : (n ++ [' ', '{']).takeWhile (fun c => !(c = '<' || c = '{' || c = '(' || c.isWhitespace)) = n := by
      rw [List.takeWhile_append_of_pos]
      · simp
      · intro c hc
        obtain ⟨a, _, b, d, e, _⟩ := word_chars hw c hc
        simp [a, b, d, e]
    unfold structName
    rw [h1, h2]
    dsimp only
    rw [h3]
    cases n with
    | nil => simp at hu
    | cons c n => simp at hu; simp [hu]
  · unfold headLine
    rw [hp]
    simp
    exact fun h => (word_chars hw _ h).2.2.1 rfl
  · unfold headLine; simp

theorem fromStruct_attrs (as : List Str) (h : ∀ a ∈ as, isStruct a = false) (l : Str) (hl : isStruct l = true) (x : List Str) : fromStruct (as ++ l :: x) = l :: x := by
  induction as with
  | nil => simp [fromStruct, hl]
  | cons a as ih => rw [List.cons_append, fromStruct, h a (by simp)]; simpa using ih fun b hb => h b (by simp [hb])

theorem scan_struct (as : List Str) (h : ∀ a ∈ as, isStruct a = false) (n : Str) (hw : word n) (hu : n.head?.any Char.isUpper = true) (b : List Line)
    (hb : ∀ l ∈ b, goodLine l) (rest : List Str) (k : Nat) (hk : (as ++ headLine n :: (b.map showLine ++ ['}'] :: rest)).length ≤ k) :
    ∃ j, (['}'] :: rest).length ≤ j ∧ scanN k (as ++ headLine n :: (b.map showLine ++ ['}'] :: rest)) = ⟨n, b.filterMap fieldOf⟩ :: scanN j (['}'] :: rest) := by
  obtain ⟨h1, h2, h3, h4, h5, h6⟩ := head_facts n hw hu
  have main : ∀ (k : Nat) (l : Str) (ls : List Str), isHead l = true → fromStruct (l :: ls) = headLine n :: (b.map showLine ++ ['}'] :: rest) →
      scanN (k + 1) (l :: ls) = ⟨n, b.filterMap fieldOf⟩ :: scanN k (['}'] :: rest) := by
    intro k l ls hh hf
    rw [scanN, if_pos hh, hf]
    dsimp only
    rw [h1, h3]
    dsimp only
    rw [h4, h5, h6]
    simp only [if_true, fields_read b rest hb]
    simp
  induction as generalizing k with
  | nil =>
    cases k with
    | zero => simp at hk
    | succ k =>
      refine ⟨k, by simp at hk ⊢; omega, main k _ _ (by unfold isHead; rw [h2]; rfl) (by simp [fromStruct, h2])⟩
  | cons a as ih =>
    cases k with
    | zero => simp at hk
    | succ k =>
      cases hh : isHead a with
      | true =>
        refine ⟨k, by simp at hk ⊢; omega, ?_⟩
        exact main k a _ hh (fromStruct_attrs (a :: as) h _ h2 _)
      | false =>
        obtain ⟨j, hj, e⟩ := ih (fun x hx => h x (by simp [hx])) k (by simpa using hk)
        refine ⟨j, hj, ?_⟩
        rw [List.cons_append, scanN, hh]
        simpa using e

theorem scanN_file (items : List Item) (h : ∀ i ∈ items, goodItem i) (k : Nat) (hk : (items.flatMap showItem).length ≤ k) :
    scanN k (items.flatMap showItem) = items.filterMap msgOf := by
  induction items generalizing k with
  | nil => cases k <;> rfl
  | cons i items ih =>
    have ih := ih fun j hj => h j (by simp [hj])
    have hi := h i (by simp)
    cases i with
    | other l =>
      simp only [List.flatMap_cons, showItem, List.singleton_append, List.filterMap_cons, msgOf] at hk ⊢
      cases k with
      | zero => simp at hk
      | succ k =>
        have hl : isHead l = false := hi
        rw [scanN, hl]
        simp only [Bool.false_eq_true, if_false]
        exact ih k (by simpa using hk)
    | struct as n b =>
      obtain ⟨ha, hw, hu, hb⟩ := hi
      have he : showItem (.struct as n b) ++ items.flatMap showItem = as ++ headLine n :: (b.map showLine ++ ['}'] :: items.flatMap showItem) := by
        unfold showItem headLine
        generalize "pub struct ".toList = p
        simp
      rw [List.flatMap_cons, he] at hk ⊢
      obtain ⟨j, hj, e⟩ := scan_struct as ha n hw hu b hb _ k hk
      rw [e]
      simp only [List.filterMap_cons, msgOf]
      cases j with
      | zero => simp at hj
      | succ j =>
        rw [scanN]
        have : isHead ['}'] = false := by decide
        rw [this]
        simp only [Bool.false_eq_true, if_false]
        rw [ih j (by simpa using hj)]

/-- In a file written in the usual way, with one line to a field, every public struct is found, in order and with
all its fields, and nothing else. -/
theorem found_partial (items : List Item) (h : ∀ i ∈ items, goodItem i) : scan (items.flatMap showItem) = items.filterMap msgOf :=
  scanN_file items h _ (Nat.le_refl _)

theorem constLoop_fold (f : UInt32 → UInt8 → UInt32) (bs : List UInt8) : ∀ (n i : Nat) (h : UInt32), i + n = bs.length →
    constLoop f bs n i h = (bs.drop i).foldl f h := by
  intro n
  induction n with
  | zero => intro i h hi; rw [List.drop_of_length_le (by omega)]; rfl
  | succ n ih =>
    intro i h hi
    have : bs[i]? = some (bs[i]'(by omega)) := List.getElem?_eq_getElem _
    rw [constLoop, this, List.drop_eq_getElem_cons (i := i) (by omega), List.foldl_cons]
    exact ih (i + 1) _ (by omega)

theorem mix_same : mix = constMix := by unfold mix constMix; rfl

theorem canonical_text (m : Msg) : canonical m = m.name ++ m.fields.flatMap fun f => '|' :: (f.1 ++ ':' :: f.2) := by
  unfold canonical
  generalize m.name = a
  induction m.fields generalizing a with
  | nil => simp
  | cons f l ih => rw [List.foldl_cons, ih]; simp

/-- The number the command works out is the one compiled into the program for the same name and fields. -/
theorem hash_same (m : Msg) : cliHash m = layoutHash m.name m.fields := by
  unfold layoutHash cliHash fnv1a
  rw [canonical_text]
  dsimp only
  rw [constLoop_fold _ _ _ 0 _ (by simp), List.drop_zero, mix_same]

/-- So for a struct written in the usual way the number shown is the one the running program compares. -/
theorem hash_right_partial (items : List Item) (h : ∀ i ∈ items, goodItem i) (as : List Str) (n : Str) (b : List Line) (hi : Item.struct as n b ∈ items) :
    ∃ m ∈ scan (items.flatMap showItem), m.name = n ∧ cliHash m = layoutHash n (b.filterMap fieldOf) := by
  rw [found_partial items h]
  refine ⟨⟨n, b.filterMap fieldOf⟩, ?_, rfl, hash_same _⟩
  exact List.mem_filterMap.2 ⟨_, hi, rfl⟩

/-! ### What is missed -/

theorem scanN_none (k : Nat) (ls : List Str) (h : ∀ l ∈ ls, isStruct l = false) : scanN k ls = [] := by
  have hf : ∀ ls : List Str, (∀ l ∈ ls, isStruct l = false) → fromStruct ls = [] := by
    intro ls
    induction ls with
    | nil => intro _; rfl
    | cons l ls ih => intro h; rw [fromStruct, h l (by simp)]; simpa using ih fun x hx => h x (by simp [hx])
  induction k generalizing ls with
  | zero => cases ls <;> rfl
  | succ k ih =>
    cases ls with
    | nil => rfl
    | cons l ls =>
      rw [scanN, hf _ h]
      have := ih ls fun x hx => h x (by simp [hx])
      simp [this]

/-- A message declared with the `message!` macro, which has no `pub struct` in it, is never found. -/
theorem macro_unseen (ls : List Str) (h : ∀ l ∈ ls, isStruct l = false) : scan ls = [] := scanN_none _ _ h

/-- C289, a disagreement: a field whose name begins with an underscore is left out, and so of the hash as well. -/
theorem hidden_lost (i : Nat) (z : Str) : parseField (spaces i ++ ("pub _".toList ++ z)) = none := by
  have hp : "pub _".toList = ['p', 'u', 'b', ' ', '_'] := rfl
  have ht : trim (spaces i ++ ("pub _".toList ++ z)) = "pub ".toList ++ '_' :: trimEnd z := by
    rw [trim_mid i "pub _".toList z 'p' '_' (by rw [hp]; rfl) (by decide) (by rw [hp]; rfl) (by decide), hp]; rfl
  have hst : stripAll "pub ".toList (trim (spaces i ++ ("pub _".toList ++ z))).length (trim (spaces i ++ ("pub _".toList ++ z))) = '_' :: trimEnd z := by
    rw [ht, List.length_append]
    have : ("pub ".toList.length + ('_' :: trimEnd z).length) = (3 + ('_' :: trimEnd z).length) + 1 := by
      have : "pub ".toList.length = 4 := rfl
      omega
    rw [this, stripAll, if_pos (List.isPrefixOf_iff_prefix.2 (List.prefix_append _ _)), List.drop_left]
    exact stripAll_none _ _ _ rfl
  have hname : (trim (('_' :: trimEnd z).takeWhile (· ≠ ':'))).head? = some '_' := by
    have h1 : ('_' :: trimEnd z).takeWhile (· ≠ ':') = spaces 0 ++ (['_'] ++ (trimEnd z).takeWhile (· ≠ ':')) := by
      rw [List.takeWhile_cons]; simp [spaces]
    rw [h1, trim_mid 0 ['_'] _ '_' '_' rfl (by decide) rfl (by decide)]
    rfl
  unfold parseField
  dsimp only
  rw [hst]
  split
  · rfl
  · split
    · rfl
    · split
      · rfl
      · rfl

/-- C289: white space between the name and the colon makes no difference. -/
theorem spaced_name (i k : Nat) (f t : Str) (hf : word f) (hpub : f ≠ ['p', 'u', 'b']) (hu : f.head? ≠ some '_')
    (hn : ¬ "fn".toList <+: f) (ht : plainType t) :
    parseField (spaces i ++ ("pub ".toList ++ (f ++ (spaces k ++ ':' :: ' ' :: (t ++ [',']))))) = some (f, t) := by
  have hp : "pub ".toList = ['p', 'u', 'b', ' '] := rfl
  have hfn : "fn".toList = ['f', 'n'] := rfl
  generalize hz : ' ' :: (t ++ [',']) = z
  have hspace : ∃ c cs, spaces k ++ ':' :: z = c :: cs ∧ (c = ' ' ∨ c = ':') := by
    cases k with
    | zero => exact ⟨':', z, rfl, .inr rfl⟩
    | succ k => exact ⟨' ', spaces k ++ ':' :: z, rfl, .inl rfl⟩
  have hl : trim (spaces i ++ ("pub ".toList ++ (f ++ (spaces k ++ ':' :: z)))) = "pub ".toList ++ (f ++ (spaces k ++ ':' :: z)) := by
    have := trim_mid i ("pub ".toList ++ (f ++ (spaces k ++ ':' :: z))) [] 'p' ',' (by rw [hp]; rfl) (by decide)
      (by rw [hp, ← hz]; simp [List.getLast?_cons, List.getLast?_append]) (by decide)
    simpa [trimEnd] using this
  have hne : f ≠ [] := hf.1
  obtain ⟨c, cs, hcs, hc⟩ := hspace
  have hnopub : "pub ".toList.isPrefixOf (f ++ (spaces k ++ ':' :: z)) = false := by
    rw [hcs, hp]
    have hsp : ' ' ∉ f := fun h => (word_chars hf _ h).2.2.2.2.2 rfl
    rcases f with _ | ⟨a, _ | ⟨b, _ | ⟨d, _ | ⟨e, f⟩⟩⟩⟩
    · exact absurd rfl hne
    · rcases hc with rfl | rfl <;> simp [List.isPrefixOf]
    · rcases hc with rfl | rfl <;> simp [List.isPrefixOf]
    · simp [List.isPrefixOf]; intro h1 h2 h3; exact absurd (by rw [← h1, ← h2, ← h3]) hpub
    · simp [List.isPrefixOf]; intro _ _ _ h4; rw [← h4] at hsp; simp at hsp
  have hnofn : "pub fn".toList.isPrefixOf ("pub ".toList ++ (f ++ (spaces k ++ ':' :: z))) = false := by
    rw [hcs, hp]
    have e : "pub fn".toList = ['p', 'u', 'b', ' ', 'f', 'n'] := rfl
    rw [e]
    rw [hfn] at hn
    rcases f with _ | ⟨a, _ | ⟨b, f⟩⟩
    · exact absurd rfl hne
    · rcases hc with rfl | rfl <;> simp [List.isPrefixOf]
    · simp [List.isPrefixOf]
      intro h1 h2
      exact hn (by rw [← h1, ← h2]; simp)
  have hsk : skipped ("pub ".toList ++ (f ++ (spaces k ++ ':' :: z))) = false := by
    unfold skipped
    rw [hnofn, hp]
    simp [List.isPrefixOf]
  have hst : stripAll "pub ".toList ("pub ".toList ++ (f ++ (spaces k ++ ':' :: z))).length ("pub ".toList ++ (f ++ (spaces k ++ ':' :: z)))
      = f ++ (spaces k ++ ':' :: z) := by
    rw [List.length_append]
    have : ("pub ".toList.length + (f ++ (spaces k ++ ':' :: z)).length) = (3 + (f ++ (spaces k ++ ':' :: z)).length) + 1 := by
      have : "pub ".toList.length = 4 := rfl
      omega
    rw [this, stripAll, if_pos (List.isPrefixOf_iff_prefix.2 (List.prefix_append _ _)), List.drop_left]
    exact stripAll_none _ _ _ hnopub
  have hcol : ':' ∉ f ++ spaces k := by
    intro h
    rcases List.mem_append.1 h with h | h
    · exact (word_chars hf _ h).2.1 rfl
    · have := List.eq_of_mem_replicate h; exact absurd this (by decide)
  have hassoc : f ++ (spaces k ++ ':' :: z) = (f ++ spaces k) ++ ':' :: z := by simp
  have hname : trim (f ++ spaces k) = f := by
    obtain ⟨x, hx⟩ : ∃ x, f.head? = some x := by cases f <;> simp_all
    obtain ⟨y, hy⟩ : ∃ y, f.getLast? = some y := ⟨f.getLast hne, List.getLast?_eq_some_getLast hne⟩
    have := trim_mid 0 f (spaces k) x y hx (word_chars hf _ (List.mem_of_mem_head? hx)).1 hy (word_chars hf _ (List.mem_of_getLast? hy)).1
    have e : trimEnd (spaces k) = [] := by
      unfold trimEnd spaces
      rw [List.reverse_replicate]
      have : ∀ k : Nat, (List.replicate k ' ').dropWhile Char.isWhitespace = [] := by
        intro k; induction k with
        | zero => rfl
        | succ k ih => rw [List.replicate_succ, List.dropWhile_cons_of_pos (by decide), ih]
      rw [this]; rfl
    rw [e, List.append_nil] at this
    simpa [spaces] using this
  obtain ⟨x, y, hx, hxw, hy, hyw⟩ := type_ends ht
  have hty : trim (noCommas (trim (uncomment z))) = t := by
    have h1 : uncomment z = spaces 1 ++ ((t ++ [',']) ++ []) := by
      have : z = (' ' :: (t ++ [','])) ++ [] := by rw [← hz]; simp
      rw [this, uncomment_append _ _ (by simp; exact ht.2.2.2.1)]
      rfl
    rw [h1, trim_mid 1 (t ++ [',']) _ x ',' (by cases t <;> simp_all) hxw (by simp) (by decide)]
    have e : trimEnd ([] : Str) = [] := rfl
    rw [e, List.append_nil, noCommas_one _ ht.2.2.1]
    exact ht.2.1
  unfold parseField
  simp only [hl, hsk, hst]
  rw [hassoc]
  simp only [(takeTo (f ++ spaces k) _ hcol).1, (takeTo (f ++ spaces k) _ hcol).2, hname, List.drop_succ_cons, List.drop_zero, hty,
    ht.2.2.2.2.1, ht.2.2.2.2.2.1, hu, if_false, Bool.false_eq_true, Bool.or_self]
  simp

/-- C289: braces inside a line that close again do not end the struct: its field is found and reading goes on. -/
theorem inner_braces (l : Str) (ls : List Str) (b : Int) (hb : b ≠ 0) (h : (trim l).count '{' = (trim l).count '}') :
    fields (l :: ls) true b = ((parseField (trim l)).toList ++ (fields ls true b).1, (fields ls true b).2) := by
  rw [fields]
  have e : b + ((trim l).count '{' : Int) - ((trim l).count '}' : Int) = b := by rw [h]; omega
  simp only [Bool.true_or, if_true, e]
  have h0 : (b == 0) = false := by simpa using hb
  simp only [h0, Bool.and_false, Bool.false_eq_true, if_false]
  cases parseField (trim l) <;> rfl

/-- A public field whose name begins with `fn` is passed over, whatever its type. -/
theorem fn_field_lost (i : Nat) (s : Str) : parseField (spaces i ++ ("pub fn".toList ++ s)) = none := by
  have h1 := trim_mid i "pub fn".toList s 'p' 'n' rfl (by decide) rfl (by decide)
  unfold parseField
  rw [h1]
  dsimp only
  have : skipped ("pub fn".toList ++ trimEnd s) = true := by
    have : "pub fn".toList.isPrefixOf ("pub fn".toList ++ trimEnd s) = true := List.isPrefixOf_iff_prefix.2 (List.prefix_append _ _)
    unfold skipped
    rw [this]; simp
  rw [this]; rfl

def lines (l : List String) : List Str := l.map String.toList

theorem fn_changes_hash :
    scan (lines ["pub struct Servo {", "    pub id: u8,", "    pub fn_code: u16,", "}"]) = [⟨"Servo".toList, [("id".toList, "u8".toList)]⟩] := by
  decide +kernel

/-- A struct on one line takes over the fields of the next struct, which is itself not found. -/
theorem one_line_swallows :
    scan (lines ["pub struct A { pub x: u8 }", "pub struct B {", "    pub y: u16,", "}"]) = [⟨"A".toList, [("y".toList, "u16".toList)]⟩] := by
  decide +kernel

/-- A closing brace in a comment ends the fields. -/
theorem brace_in_comment :
    scan (lines ["pub struct A {", "    pub x: u8,", "    /// as in }", "    pub y: u16,", "}"]) = [⟨"A".toList, [("x".toList, "u8".toList)]⟩] := by
  decide +kernel

/-- A struct without fields is found under a name with the semicolon in it. -/
theorem unit_misnamed : scan (lines ["pub struct Stop;"]) = [⟨"Stop;".toList, []⟩] := by decide +kernel

/-- An example file: a comment, and a message with documentation, an attribute and a comment behind a field. -/
def sample : List Item :=
  [.other "//! Motion".toList, .struct ["/// Speed".toList, "#[derive(Clone)]".toList, "#[repr(C)]".toList] "CmdVel".toList
    [.note 4 "/ m/s".toList, .field 4 "linear".toList "f32".toList (some " forward".toList), .blank, .attr 4 "serde(default)]".toList,
      .field 4 "cov".toList "[f32; 9]".toList none]]

example : ∀ i ∈ sample, goodItem i := by
  intro i hi
  simp only [sample, List.mem_cons, List.not_mem_nil, or_false] at hi
  rcases hi with rfl | rfl
  · show isHead _ = false
    decide +kernel
  · refine ⟨by decide +kernel, ⟨by decide, by decide +kernel⟩, by decide +kernel, ?_⟩
    intro l hl
    simp only [List.mem_cons, List.not_mem_nil, or_false] at hl
    rcases hl with rfl | rfl | rfl | rfl | rfl
    · exact ⟨by decide, by decide⟩
    · exact ⟨⟨by decide, by decide +kernel⟩, by decide, by decide, ⟨by decide, by decide +kernel, by decide, by decide, by decide +kernel, by decide +kernel, by decide, by decide⟩, by
        intro s hs; simp at hs; subst hs; exact ⟨by decide, by decide⟩⟩
    · trivial
    · exact ⟨by decide, by decide⟩
    · exact ⟨⟨by decide, by decide +kernel⟩, by decide, by decide, ⟨by decide, by decide +kernel, by decide, by decide, by decide +kernel, by decide +kernel, by decide, by decide⟩, by
        intro s hs; simp at hs⟩

example : scan (sample.flatMap showItem) = [⟨"CmdVel".toList, [("linear".toList, "f32".toList), ("cov".toList, "[f32; 9]".toList)]⟩] := by
  decide +kernel

example : scan (lines ["message! {", "    #[derive(PartialEq)]", "    JointState {", "        position: f64,", "    }", "}"]) = [] := by
  refine macro_unseen _ ?_
  decide +kernel

example : parseField "    pub speed : f32,".toList = some ("speed".toList, "f32".toList) ∧ parseField "    pub _pad: u8,".toList = none ∧
    scan (lines ["pub struct Scan {", "    pub r: [f32; { 3 }],", "    pub n: u8,", "}"]) = [⟨"Scan".toList, [("r".toList, "[f32; { 3 }]".toList), ("n".toList, "u8".toList)]⟩] := by decide +kernel

end Horus.MsgScan
