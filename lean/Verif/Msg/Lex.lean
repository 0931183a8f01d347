import Verif.Msg.Parse
import Mathlib.Data.List.TakeWhile
/-!
C207: the `.hmsg` tokenizer accepts exactly the lexical grammar, and every token and diagnostic carries
its place in the file.

Source: /repo/horus_manager/src/msgspec/parse.rs:50-243.
Simplifications: the file is a list of characters where the code reads bytes, so a letter outside ASCII
gives one diagnostic instead of one for each of its bytes, and columns count characters; the text of
diagnostics is left out.
-/

namespace Horus.Msg.Lex

/-! ### Model -/

/-- `u8::is_ascii_whitespace`. -/
def isWs (c : Char) : Bool := decide (c = ' ' ∨ c = '\t' ∨ c = '\n' ∨ c = '\r' ∨ c = '\x0c')

/-- `is_ascii_digit`. -/
def isDig (c : Char) : Bool := decide ('0' ≤ c ∧ c ≤ '9')

/-- `is_ascii_alphabetic() || b == b'_'` (parse.rs:142). -/
def idStart (c : Char) : Bool := decide (('a' ≤ c ∧ c ≤ 'z') ∨ ('A' ≤ c ∧ c ≤ 'Z') ∨ c = '_')

/-- parse.rs:144: what continues an identifier. -/
def idChar (c : Char) : Bool := idStart c || isDig c

/-- parse.rs:158: what continues a number. -/
def numChar (c : Char) : Bool := isDig c || decide (c = '_')

/-- parse.rs:206-222. -/
def puncts : List Char := ['{', '}', '[', ']', ':', ',', ';', '=', '#', '<', '>', '&', '(', ')']

/-- The value of the digits of a number, underscores left out (parse.rs:161-162). -/
def numVal (s : Str) : Nat := (s.filter fun c => c ≠ '_').foldl (fun n c => 10 * n + (c.toNat - 48)) 0

/-- `str::trim` on a doc comment (parse.rs:130-132). (Simplification: only ASCII white space.) -/
def trim (s : Str) : Str := ((s.dropWhile isWs).reverse.dropWhile isWs).reverse

/-- What one round of the loop finds. -/
inductive Out
  | skip
  | tok (t : Tok)
  | bad
  deriving DecidableEq

/-- Up to the end of the line. -/
def toEol (s : Str) : Str := s.takeWhile fun c => c ≠ '\n'

/-- The inside of a string (parse.rs:185-193). -/
def strBody (s : Str) : Str := s.takeWhile fun c => c ≠ '"' ∧ c ≠ '\n'

/-- parse.rs:92-235: one round at character `c` with `r` after it: how many characters are taken, and
what they are. -/
def scan (c : Char) (r : Str) : Nat × Out :=
  if isWs c then (1, .skip)
  else if c = '#' ∧ r.head? ≠ some '[' then (1 + (toEol r).length, .skip)
  else if c = '/' ∧ r.head? = some '/' then
    if (r.drop 1).head? = some '/' then (3 + (toEol (r.drop 2)).length, .tok (.doc (trim (toEol (r.drop 2)))))
    else (2 + (toEol (r.drop 1)).length, .skip)
  else if idStart c then (((c :: r).takeWhile idChar).length, .tok (.ident ((c :: r).takeWhile idChar)))
  else if isDig c then
    (((c :: r).takeWhile numChar).length,
      if numVal ((c :: r).takeWhile numChar) < 2 ^ 64 then .tok (.int (numVal ((c :: r).takeWhile numChar))) else .bad)
  else if c = '"' then
    if (r.drop (strBody r).length).head? = some '"' then (2 + (strBody r).length, .tok (.str (strBody r)))
    else (1 + (strBody r).length, .bad)
  else if c ∈ puncts then (1, .tok (.punct c))
  else (1, .bad)

/-- parse.rs:69-79 `bump`: line and column after a character. -/
def bump (p : Nat × Nat) (c : Char) : Nat × Nat := if c = '\n' then (p.1 + 1, 1) else (p.1, p.2 + 1)

/-- The loop (parse.rs:94-235): what is found, with line and column. The number bounds the rounds; each
takes at least one character, so the length of the text is enough. -/
def loop : Nat → Str → Nat × Nat → List (Out × Nat × Nat)
  | 0, _, _ => []
  | _ + 1, [], _ => []
  | k + 1, c :: r, p =>
    ((scan c r).2, p) :: loop k ((c :: r).drop (scan c r).1) (((c :: r).take (scan c r).1).foldl bump p)

/-- All rounds over a file. -/
def rounds (s : Str) : List (Out × Nat × Nat) := loop s.length s (1, 1)

/-- parse.rs:90-243 `tokenize`: tokens with their places, or the places of the errors. -/
def tokenize (s : Str) : Except (List (Nat × Nat)) (List (Tok × Nat × Nat)) :=
  let errs := (rounds s).filterMap fun x => if x.1 = .bad then some x.2 else none
  if errs = [] then .ok ((rounds s).filterMap fun x => match x.1 with | .tok t => some (t, x.2) | _ => none)
  else .error errs

/-- The tokens of a file without their places; `none` when there is an error. -/
def lex (s : Str) : Option (List Tok) :=
  match tokenize s with
  | .ok l => some (l.map Prod.fst)
  | .error _ => none

/-! ### Specification -/

/-- A comment ends at the end of the line or of the file. -/
def LineEnd (r : Str) : Prop := r = [] ∨ r.head? = some '\n'

/-- `r` does not start with a character of this kind. -/
def NotNext (p : Char → Bool) (r : Str) : Prop := ∀ c, r.head? = some c → p c = false

/-- The lexical grammar: which token lists a text stands for. -/
inductive Source : Str → List Tok → Prop
  | nil : Source [] []
  | ws {c r ts} (h : isWs c = true) (hr : Source r ts) : Source (c :: r) ts
  | hash {t r ts} (h : '\n' ∉ t) (hb : t.head? ≠ some '[') (he : LineEnd r) (hr : Source r ts) : Source ('#' :: (t ++ r)) ts
  | line {t r ts} (h : '\n' ∉ t) (hb : t.head? ≠ some '/') (he : LineEnd r) (hr : Source r ts) : Source ('/' :: '/' :: (t ++ r)) ts
  | doc {t r ts} (h : '\n' ∉ t) (he : LineEnd r) (hr : Source r ts) : Source ('/' :: '/' :: '/' :: (t ++ r)) (.doc (trim t) :: ts)
  | ident {c s r ts} (hc : idStart c = true) (hs : ∀ x ∈ s, idChar x = true) (he : NotNext idChar r) (hr : Source r ts) :
      Source ((c :: s) ++ r) (.ident (c :: s) :: ts)
  | int {c s r ts} (hc : isDig c = true) (hs : ∀ x ∈ s, numChar x = true) (he : NotNext numChar r) (hv : numVal (c :: s) < 2 ^ 64) (hr : Source r ts) :
      Source ((c :: s) ++ r) (.int (numVal (c :: s)) :: ts)
  | str {s r ts} (hs : '"' ∉ s ∧ '\n' ∉ s) (hr : Source r ts) : Source ('"' :: (s ++ '"' :: r)) (.str s :: ts)
  | punct {c r ts} (hc : c ∈ puncts) (hh : c = '#' → r.head? = some '[') (hr : Source r ts) : Source (c :: r) (.punct c :: ts)

/-- Line and column of the place after `pre`: lines count from one, columns restart after each line
end. -/
def place (pre : Str) : Nat × Nat := (1 + pre.count '\n', 1 + (pre.reverse.takeWhile fun c => c ≠ '\n').length)

/-- How a token begins in the text. -/
def Begins : Tok → Str → Prop
  | .ident n, s => n <+: s
  | .int _, s => ∃ c r, s = c :: r ∧ isDig c = true
  | .str t, s => ('"' :: t ++ ['"']) <+: s
  | .doc _, s => ['/', '/', '/'] <+: s
  | .punct c, s => [c] <+: s

/-! ### Proofs -/

theorem take_eol_append {t r : Str} (h : '\n' ∉ t) (he : LineEnd r) : toEol (t ++ r) = t := by
  unfold toEol
  rw [List.takeWhile_append_of_pos (by intro c hc; have : c ≠ '\n' := fun e => h (e ▸ hc); simpa using this)]
  rcases he with rfl | he
  · simp
  · cases r with
    | nil => simp
    | cons c r => simp at he; subst he; simp

theorem takeWhile_split {p : Char → Bool} {t r : Str} (h : ∀ x ∈ t, p x = true) (he : NotNext p r) : (t ++ r).takeWhile p = t := by
  rw [List.takeWhile_append_of_pos h]
  cases r with
  | nil => simp
  | cons c r => rw [List.takeWhile_cons_of_neg (by rw [he c rfl]; simp)]; simp

theorem strBody_append {s r : Str} (h : '"' ∉ s ∧ '\n' ∉ s) : strBody (s ++ '"' :: r) = s := by
  unfold strBody
  rw [List.takeWhile_append_of_pos]
  · simp
  · intro c hc
    have h1 : c ≠ '"' := fun e => h.1 (e ▸ hc)
    have h2 : c ≠ '\n' := fun e => h.2 (e ▸ hc)
    simp [h1, h2]

/-- Every round takes at least one character. -/
theorem scan_pos (c : Char) (r : Str) : 0 < (scan c r).1 := by
  unfold scan
  split
  · simp
  split
  · simp; omega
  split
  · split <;> (simp; omega)
  split
  · rename_i h; rw [List.takeWhile_cons_of_pos (by simp [idChar, h])]; simp
  split
  · rename_i h; rw [List.takeWhile_cons_of_pos (by simp [numChar, h])]; simp
  split
  · split <;> (simp; omega)
  split <;> simp

/-- More rounds than characters change nothing. -/
theorem loop_enough (k : Nat) (s : Str) (p : Nat × Nat) (h : s.length ≤ k) : loop k s p = loop s.length s p := by
  induction k using Nat.strongRecOn generalizing s p with
  | _ k ih =>
    cases s with
    | nil => cases k <;> rfl
    | cons c r =>
      cases k with
      | zero => simp at h
      | succ k =>
        rw [List.length_cons, loop, loop]
        have hp := scan_pos c r
        have hl : ((c :: r).drop (scan c r).1).length ≤ r.length := by rw [List.length_drop, List.length_cons]; omega
        rw [ih k (by omega) _ _ (by simp at h; omega)]
        by_cases hk : r.length < k + 1
        · rw [ih r.length hk _ _ hl]
        · simp at h; omega

theorem loop_cons (c : Char) (r : Str) (p : Nat × Nat) :
    loop (c :: r).length (c :: r) p = ((scan c r).2, p) ::
      loop ((c :: r).drop (scan c r).1).length ((c :: r).drop (scan c r).1) (((c :: r).take (scan c r).1).foldl bump p) := by
  rw [List.length_cons, loop]
  have hp := scan_pos c r
  rw [loop_enough r.length _ _ (by rw [List.length_drop, List.length_cons]; omega)]

/-- The tokens of the rounds, `none` if there is an error. -/
def collect : List (Out × Nat × Nat) → Option (List Tok)
  | [] => some []
  | x :: l =>
    match x.1 with
    | .bad => none
    | .skip => collect l
    | .tok t => (collect l).map (t :: ·)

/-- The tokens from a place on, `none` if there is an error. -/
def toksFrom (s : Str) (p : Nat × Nat) : Option (List Tok) := collect (loop s.length s p)

theorem collect_eq (l : List (Out × Nat × Nat)) :
    (if l.filterMap (fun x => if x.1 = .bad then some x.2 else none) = [] then
      some ((l.filterMap fun x => match x.1 with | .tok t => some (t, x.2) | _ => none).map Prod.fst) else none) = collect l := by
  induction l with
  | nil => rfl
  | cons x l ih =>
    obtain ⟨o, p⟩ := x
    rw [collect, ← ih]
    cases o with
    | bad => simp
    | skip =>
      simp only [List.filterMap_cons, reduceCtorEq, if_false]
    | tok t =>
      simp only [List.filterMap_cons, reduceCtorEq, if_false]
      generalize l.filterMap (fun x : Out × Nat × Nat => if x.1 = .bad then some x.2 else none) = e
      cases e <;> simp

theorem lex_eq (s : Str) : lex s = toksFrom s (1, 1) := by
  unfold toksFrom
  rw [← collect_eq]
  unfold lex tokenize rounds
  dsimp only
  generalize (loop s.length s (1, 1)).filterMap (fun x : Out × Nat × Nat => if x.1 = .bad then some x.2 else none) = e
  cases e <;> simp

theorem toks_nil (p : Nat × Nat) : toksFrom [] p = some [] := rfl

theorem toks_cons (c : Char) (r : Str) (p : Nat × Nat) :
    toksFrom (c :: r) p =
      match (scan c r).2 with
      | .bad => none
      | .skip => toksFrom ((c :: r).drop (scan c r).1) (((c :: r).take (scan c r).1).foldl bump p)
      | .tok t => (toksFrom ((c :: r).drop (scan c r).1) (((c :: r).take (scan c r).1).foldl bump p)).map (t :: ·) := by
  unfold toksFrom
  rw [loop_cons, collect]

/-- The place does not matter for the tokens. -/
theorem toks_place (s : Str) (p q : Nat × Nat) : toksFrom s p = toksFrom s q := by
  induction hn : s.length using Nat.strongRecOn generalizing s p q with
  | _ n ih =>
    cases s with
    | nil => rfl
    | cons c r =>
      rw [toks_cons, toks_cons]
      have hp := scan_pos c r
      rw [ih _ (by rw [← hn, List.length_drop, List.length_cons]; omega) ((c :: r).drop (scan c r).1) _ (((c :: r).take (scan c r).1).foldl bump q) rfl]

theorem ws_not (c : Char) (h : isWs c = true) : c ≠ '#' ∧ c ≠ '/' ∧ c ≠ '"' := by
  unfold isWs at h
  have := of_decide_eq_true h
  rcases this with rfl | rfl | rfl | rfl | rfl <;> decide

theorem char_lt {a b : Char} (h : a ≤ b) : a.toNat ≤ b.toNat := h

theorem idStart_not {c : Char} (h : idStart c = true) : isWs c = false ∧ c ≠ '#' ∧ c ≠ '/' := by
  have h' := of_decide_eq_true h
  refine ⟨?_, ?_, ?_⟩
  · cases hw : isWs c with
    | false => rfl
    | true =>
      exfalso
      have := of_decide_eq_true hw
      rcases this with rfl | rfl | rfl | rfl | rfl <;> revert h <;> decide
  · rintro rfl; revert h; decide
  · rintro rfl; revert h; decide

theorem isDig_not {c : Char} (h : isDig c = true) : isWs c = false ∧ c ≠ '#' ∧ c ≠ '/' ∧ idStart c = false ∧ c ≠ '"' := by
  have h' := of_decide_eq_true h
  have l1 := char_lt h'.1
  have l2 := char_lt h'.2
  have e0 : '0'.toNat = 48 := rfl
  have e9 : '9'.toNat = 57 := rfl
  refine ⟨?_, ?_, ?_, ?_, ?_⟩
  · cases hw : isWs c with
    | false => rfl
    | true =>
      exfalso
      have := of_decide_eq_true hw
      rcases this with rfl | rfl | rfl | rfl | rfl <;> revert h <;> decide
  · rintro rfl; revert h; decide
  · rintro rfl; revert h; decide
  · cases hs : idStart c with
    | false => rfl
    | true =>
      exfalso
      have := of_decide_eq_true hs
      rcases this with ⟨a, _⟩ | ⟨a, _⟩ | rfl
      · have := char_lt a
        have ea : 'a'.toNat = 97 := rfl
        omega
      · have := char_lt a
        have ea : 'A'.toNat = 65 := rfl
        omega
      · revert h; decide
  · rintro rfl; revert h; decide

theorem puncts_not {c : Char} (h : c ∈ puncts) : isWs c = false ∧ c ≠ '/' ∧ idStart c = false ∧ isDig c = false ∧ c ≠ '"' := by
  revert c; decide

/-- The grammar's texts are tokenized as the grammar says. -/
theorem lex_of_source {s : Str} {ts : List Tok} (h : Source s ts) : ∀ p, toksFrom s p = some ts := by
  induction h with
  | nil => intro p; rfl
  | @ws c r ts h _ ih =>
    intro p
    have e : scan c r = (1, .skip) := by unfold scan; rw [if_pos h]
    rw [toks_cons, e]
    exact ih _
  | @hash t r ts h hb he _ ih =>
    intro p
    have hh : (t ++ r).head? ≠ some '[' := by
      cases t with
      | nil =>
        rcases he with rfl | he
        · simp
        · rw [List.nil_append, he]; simp
      | cons a t => simpa using hb
    have e : scan '#' (t ++ r) = (1 + t.length, .skip) := by
      unfold scan
      rw [if_neg (by decide), if_pos ⟨rfl, hh⟩, take_eol_append h he]
    rw [toks_cons, e]
    dsimp only
    have : List.drop (1 + t.length) ('#' :: (t ++ r)) = r := by rw [Nat.add_comm, List.drop_succ_cons, List.drop_left]
    rw [this]
    exact ih _
  | @line t r ts h hb he _ ih =>
    intro p
    have hh : (t ++ r).head? ≠ some '/' := by
      cases t with
      | nil =>
        rcases he with rfl | he
        · simp
        · rw [List.nil_append, he]; simp
      | cons a t => simpa using hb
    have e : scan '/' ('/' :: (t ++ r)) = (2 + t.length, .skip) := by
      unfold scan
      rw [if_neg (by decide), if_neg (by simp), if_pos ⟨rfl, rfl⟩, if_neg (by simpa using hh)]
      simp only [List.drop_succ_cons, List.drop_zero]
      rw [take_eol_append h he]
    rw [toks_cons, e]
    dsimp only
    have : List.drop (2 + t.length) ('/' :: '/' :: (t ++ r)) = r := by
      rw [show 2 + t.length = t.length + 1 + 1 by omega, List.drop_succ_cons, List.drop_succ_cons, List.drop_left]
    rw [this]
    exact ih _
  | @doc t r ts h he _ ih =>
    intro p
    have e : scan '/' ('/' :: '/' :: (t ++ r)) = (3 + t.length, .tok (.doc (trim t))) := by
      unfold scan
      rw [if_neg (by decide), if_neg (by simp), if_pos ⟨rfl, rfl⟩, if_pos (by simp)]
      simp only [List.drop_succ_cons, List.drop_zero]
      rw [take_eol_append h he]
    rw [toks_cons, e]
    dsimp only
    have : List.drop (3 + t.length) ('/' :: '/' :: '/' :: (t ++ r)) = r := by
      rw [show 3 + t.length = t.length + 1 + 1 + 1 by omega, List.drop_succ_cons, List.drop_succ_cons, List.drop_succ_cons, List.drop_left]
    rw [this, ih]; rfl
  | @ident c s r ts hc hs he _ ih =>
    intro p
    have hn := idStart_not hc
    have ht : (c :: (s ++ r)).takeWhile idChar = c :: s := by
      have := takeWhile_split (t := c :: s) (r := r) (p := idChar)
        (by intro x hx; rcases List.mem_cons.1 hx with rfl | hx; · simp [idChar, hc]
            · exact hs x hx) he
      exact this
    have e : scan c (s ++ r) = ((c :: s).length, .tok (.ident (c :: s))) := by
      unfold scan
      rw [if_neg (by rw [hn.1]; simp), if_neg (by simp [hn.2.1]), if_neg (by simp [hn.2.2]), if_pos hc, ht]
    rw [List.cons_append, toks_cons, e]
    dsimp only
    rw [← List.cons_append, List.drop_left, ih]; rfl
  | @int c s r ts hc hs he hv _ ih =>
    intro p
    have hn := isDig_not hc
    have ht : (c :: (s ++ r)).takeWhile numChar = c :: s := by
      have := takeWhile_split (t := c :: s) (r := r) (p := numChar)
        (by intro x hx; rcases List.mem_cons.1 hx with rfl | hx; · simp [numChar, hc]
            · exact hs x hx) he
      exact this
    have e : scan c (s ++ r) = ((c :: s).length, .tok (.int (numVal (c :: s)))) := by
      unfold scan
      rw [if_neg (by rw [hn.1]; simp), if_neg (by simp [hn.2.1]), if_neg (by simp [hn.2.2.1]), if_neg (by rw [hn.2.2.2.1]; simp), if_pos hc, ht, if_pos hv]
    rw [List.cons_append, toks_cons, e]
    dsimp only
    rw [← List.cons_append, List.drop_left, ih]; rfl
  | @str s r ts hs _ ih =>
    intro p
    have hb := strBody_append (r := r) hs
    have e : scan '"' (s ++ '"' :: r) = (2 + s.length, .tok (.str s)) := by
      unfold scan
      rw [if_neg (by decide), if_neg (by simp), if_neg (by simp), if_neg (by decide), if_neg (by decide), if_pos rfl, hb, List.drop_left,
        if_pos (by simp)]
    rw [toks_cons, e]
    dsimp only
    have : List.drop (2 + s.length) ('"' :: (s ++ '"' :: r)) = r := by
      rw [show 2 + s.length = s.length + 1 + 1 by omega, List.drop_succ_cons]
      rw [show s ++ '"' :: r = (s ++ ['"']) ++ r by simp]
      rw [List.drop_left' (by simp)]
    rw [this, ih]; rfl
  | @punct c r ts hc hh _ ih =>
    intro p
    have hn := puncts_not hc
    have e : scan c r = (1, .tok (.punct c)) := by
      unfold scan
      rw [if_neg (by rw [hn.1]; simp), if_neg (by rintro ⟨a, b⟩; exact b (hh a)), if_neg (by simp [hn.2.1]), if_neg (by rw [hn.2.2.1]; simp),
        if_neg (by rw [hn.2.2.2.1]; simp), if_neg hn.2.2.2.2, if_pos hc]
    rw [toks_cons, e]
    dsimp only
    rw [List.drop_one, List.tail_cons, ih]; rfl

theorem drop_while (p : Char → Bool) (s : Str) : s.drop (s.takeWhile p).length = s.dropWhile p := by
  induction s with
  | nil => rfl
  | cons c s ih => by_cases h : p c = true <;> simp [h, ih]

theorem eol_split (s : Str) : ∃ t r, s = t ++ r ∧ t = toEol s ∧ '\n' ∉ t ∧ LineEnd r ∧ s.drop (toEol s).length = r := by
  refine ⟨toEol s, s.dropWhile fun c => c ≠ '\n', ?_, rfl, ?_, ?_, ?_⟩
  · exact (List.takeWhile_append_dropWhile).symm
  · intro h
    have := List.mem_takeWhile_imp h
    simp at this
  · cases hd : s.dropWhile (fun c => c ≠ '\n') with
    | nil => exact Or.inl rfl
    | cons a b =>
      right
      have := List.head_dropWhile_not (p := fun c : Char => c ≠ '\n') (l := s) (by rw [hd]; simp)
      simp only [hd, List.head_cons] at this
      simpa using this
  · exact drop_while _ s

theorem while_split (p : Char → Bool) (s : Str) :
    s = s.takeWhile p ++ s.drop (s.takeWhile p).length ∧ NotNext p (s.drop (s.takeWhile p).length) ∧ ∀ x ∈ s.takeWhile p, p x = true := by
  rw [drop_while]
  refine ⟨(List.takeWhile_append_dropWhile).symm, ?_, fun x hx => List.mem_takeWhile_imp hx⟩
  intro c hc
  cases he : s.dropWhile p with
  | nil => rw [he] at hc; simp at hc
  | cons a b =>
    have := List.head_dropWhile_not (p := p) (l := s) (by rw [he]; simp)
    simp only [he, List.head_cons] at this
    rw [he] at hc
    simp at hc
    rw [← hc]; exact this

/-- What is tokenized without errors is a text of the grammar. -/
theorem source_of_lex {s : Str} {ts : List Tok} {p : Nat × Nat} (h : toksFrom s p = some ts) : Source s ts := by
  induction hn : s.length using Nat.strongRecOn generalizing s ts p with
  | _ n ih =>
    cases s with
    | nil => rw [toks_nil] at h; cases h; exact .nil
    | cons c r =>
      rw [toks_cons] at h
      have hlen : ((c :: r).drop (scan c r).1).length < n := by
        have := scan_pos c r
        rw [← hn, List.length_drop, List.length_cons]; omega
      unfold scan at h hlen
      by_cases h1 : isWs c = true
      · rw [if_pos h1] at h hlen
        exact .ws h1 (ih _ hlen h rfl)
      rw [if_neg h1] at h hlen
      by_cases h2 : c = '#' ∧ r.head? ≠ some '['
      · rw [if_pos h2] at h hlen
        dsimp only at h hlen
        obtain ⟨t, r', e1, e2, e3, e4, e5⟩ := eol_split r
        have hd : List.drop (1 + (toEol r).length) (c :: r) = r' := by rw [Nat.add_comm, List.drop_succ_cons, e5]
        rw [hd] at h hlen
        have := ih _ hlen h rfl
        rw [h2.1, e1]
        refine .hash e3 ?_ e4 this
        cases ht : t with
        | nil => simp
        | cons a b => have := h2.2; rw [e1, ht] at this; simpa using this
      rw [if_neg h2] at h hlen
      by_cases h3 : c = '/' ∧ r.head? = some '/'
      · rw [if_pos h3] at h hlen
        obtain ⟨rfl, h3⟩ := h3
        cases r with
        | nil => simp at h3
        | cons c2 r =>
          simp only [List.head?_cons, Option.some.injEq] at h3
          subst h3
          simp only [List.drop_succ_cons, List.drop_zero] at h hlen
          by_cases h4 : r.head? = some '/'
          · rw [if_pos h4] at h hlen
            cases r with
            | nil => simp at h4
            | cons c3 r =>
              simp only [List.head?_cons, Option.some.injEq] at h4
              subst h4
              simp only [List.drop_succ_cons, List.drop_zero] at h hlen
              obtain ⟨t, r', e1, e2, e3, e4, e5⟩ := eol_split r
              have hd : List.drop (3 + (toEol r).length) ('/' :: '/' :: '/' :: r) = r' := by
                rw [show 3 + (toEol r).length = (toEol r).length + 1 + 1 + 1 by omega, List.drop_succ_cons, List.drop_succ_cons, List.drop_succ_cons, e5]
              rw [hd] at h hlen
              rw [Option.map_eq_some_iff] at h
              obtain ⟨ts', h5, rfl⟩ := h
              have := ih _ hlen h5 rfl
              rw [← e2, e1]
              exact .doc e3 e4 this
          · rw [if_neg h4] at h hlen
            dsimp only at h hlen
            obtain ⟨t, r', e1, e2, e3, e4, e5⟩ := eol_split r
            have hd : List.drop (2 + (toEol r).length) ('/' :: '/' :: r) = r' := by
              rw [show 2 + (toEol r).length = (toEol r).length + 1 + 1 by omega, List.drop_succ_cons, List.drop_succ_cons, e5]
            rw [hd] at h hlen
            have := ih _ hlen h rfl
            rw [e1]
            refine .line e3 ?_ e4 this
            cases ht : t with
            | nil => simp
            | cons a b => have := h4; rw [e1, ht] at this; simpa using this
      rw [if_neg h3] at h hlen
      by_cases h4 : idStart c = true
      · rw [if_pos h4] at h hlen
        dsimp only at h hlen
        obtain ⟨w1, w2, w3⟩ := while_split idChar (c :: r)
        rw [Option.map_eq_some_iff] at h
        obtain ⟨ts', h5, rfl⟩ := h
        have := ih _ hlen h5 rfl
        have hc : (c :: r).takeWhile idChar = c :: r.takeWhile idChar := List.takeWhile_cons_of_pos (by simp [idChar, h4])
        rw [hc] at w1 w2 w3 this ⊢
        rw [w1]
        have hd : (c :: r.takeWhile idChar ++ List.drop (c :: r.takeWhile idChar).length (c :: r)) = (c :: r.takeWhile idChar) ++ List.drop (c :: r.takeWhile idChar).length (c :: r) := rfl
        rw [hd]
        exact .ident h4 (fun x hx => w3 x (List.mem_cons_of_mem _ hx)) w2 this
      rw [if_neg h4] at h hlen
      by_cases h5 : isDig c = true
      · rw [if_pos h5] at h hlen
        dsimp only at h hlen
        obtain ⟨w1, w2, w3⟩ := while_split numChar (c :: r)
        by_cases hv : numVal ((c :: r).takeWhile numChar) < 2 ^ 64
        · rw [if_pos hv] at h
          dsimp only at h
          rw [Option.map_eq_some_iff] at h
          obtain ⟨ts', h6, rfl⟩ := h
          have := ih _ hlen h6 rfl
          have hc : (c :: r).takeWhile numChar = c :: r.takeWhile numChar := List.takeWhile_cons_of_pos (by simp [numChar, h5])
          rw [hc] at w1 w2 w3 this hv ⊢
          rw [w1]
          exact .int h5 (fun x hx => w3 x (List.mem_cons_of_mem _ hx)) w2 hv this
        · rw [if_neg hv] at h; cases h
      rw [if_neg h5] at h hlen
      by_cases h6 : c = '"'
      · rw [if_pos h6] at h hlen
        subst h6
        by_cases h7 : (r.drop (strBody r).length).head? = some '"'
        · rw [if_pos h7] at h hlen
          dsimp only at h hlen
          obtain ⟨w1, w2, w3⟩ := while_split (fun c => decide (c ≠ '"' ∧ c ≠ '\n')) r
          have hb : r.takeWhile (fun c => decide (c ≠ '"' ∧ c ≠ '\n')) = strBody r := rfl
          rw [hb] at w1 w2 w3
          cases hr : r.drop (strBody r).length with
          | nil => rw [hr] at h7; simp at h7
          | cons q r' =>
            rw [hr] at h7 w1
            simp only [List.head?_cons, Option.some.injEq] at h7
            subst h7
            have hd : List.drop (2 + (strBody r).length) ('"' :: r) = r' := by
              rw [show 2 + (strBody r).length = (strBody r).length + 1 + 1 by omega, List.drop_succ_cons, ← List.drop_drop, hr]; rfl
            rw [hd] at h hlen
            rw [Option.map_eq_some_iff] at h
            obtain ⟨ts', h8, rfl⟩ := h
            have := ih _ hlen h8 rfl
            generalize strBody r = b at w1 w3
            rw [w1]
            refine .str ⟨fun hm => ?_, fun hm => ?_⟩ this
            · have := w3 _ hm; simp at this
            · have := w3 _ hm; simp at this
        · rw [if_neg h7] at h; cases h
      rw [if_neg h6] at h hlen
      by_cases h7 : c ∈ puncts
      · rw [if_pos h7] at h hlen
        dsimp only at h hlen
        rw [Option.map_eq_some_iff] at h
        obtain ⟨ts', h8, rfl⟩ := h
        refine .punct h7 ?_ (ih _ hlen h8 rfl)
        intro e
        by_contra hb
        exact h2 ⟨e, hb⟩
      · rw [if_neg h7] at h; cases h

/-- C207. The tokenizer accepts exactly the texts of the lexical grammar, with exactly the grammar's
tokens. -/
theorem lex_iff (s : Str) (ts : List Tok) : lex s = some ts ↔ Source s ts := by
  rw [lex_eq]
  exact ⟨source_of_lex, fun h => lex_of_source h _⟩

/-- C207. A text stands for at most one list of tokens. -/
theorem source_unique {s : Str} {a b : List Tok} (ha : Source s a) (hb : Source s b) : a = b := by
  have h1 := (lex_iff s a).2 ha
  rw [(lex_iff s b).2 hb] at h1
  exact (Option.some.inj h1).symm

theorem bump_place (pre w : Str) : w.foldl bump (place pre) = place (pre ++ w) := by
  induction w generalizing pre with
  | nil => simp
  | cons c t ih =>
    have : bump (place pre) c = place (pre ++ [c]) := by
      unfold bump place
      by_cases h : c = '\n'
      · subst h; rw [if_pos rfl]; simp; omega
      · rw [if_neg h]
        simp only [List.reverse_append, List.reverse_cons, List.reverse_nil, List.nil_append, List.cons_append, List.count_append]
        rw [List.takeWhile_cons_of_pos (by simpa using h), List.length_cons, List.count_cons_of_ne (by simpa using h)]
        simp; omega
    rw [List.foldl_cons, this, ih]; simp

theorem scan_begins (c : Char) (r : Str) (t : Tok) (h : (scan c r).2 = .tok t) : Begins t (c :: r) := by
  unfold scan at h
  split at h
  · cases h
  split at h
  · cases h
  split at h
  · rename_i h3
    split at h
    · rename_i h4
      cases h
      obtain ⟨rfl, h3⟩ := h3
      cases r with
      | nil => simp at h3
      | cons c2 r =>
        simp at h3; subst h3
        cases r with
        | nil => simp at h4
        | cons c3 r => simp at h4; subst h4; exact ⟨r, rfl⟩
    · cases h
  split at h
  · cases h
    exact List.takeWhile_prefix _
  split at h
  · rename_i hd
    dsimp only at h
    split at h
    · cases h; exact ⟨c, r, rfl, hd⟩
    · cases h
  split at h
  · rename_i h6
    split at h
    · rename_i h7
      cases h
      subst h6
      cases hr : r.drop (strBody r).length with
      | nil => rw [hr] at h7; simp at h7
      | cons q r' =>
        rw [hr] at h7
        simp at h7; subst h7
        refine ⟨r', ?_⟩
        have : strBody r ++ r.drop (strBody r).length = r := by
          have := (while_split (fun c => decide (c ≠ '"' ∧ c ≠ '\n')) r).1
          exact this.symm
        rw [hr] at this
        conv_rhs => rw [← this]
        simp
    · cases h
  split at h
  · cases h; exact ⟨r, rfl⟩
  · cases h

/-- C207. Every token and every diagnostic carries the line and column at which it stands in the file:
the text before has that many line ends, and the token begins right there. -/
theorem places_right (s : Str) : ∀ x ∈ rounds s, ∃ pre post, s = pre ++ post ∧ post ≠ [] ∧ x.2 = place pre ∧ ∀ t, x.1 = .tok t → Begins t post := by
  have key : ∀ (n : Nat) (pre post : Str), post.length ≤ n → ∀ x ∈ loop post.length post (place pre),
      ∃ pre' post', pre ++ post = pre' ++ post' ∧ post' ≠ [] ∧ x.2 = place pre' ∧ ∀ t, x.1 = .tok t → Begins t post' := by
    intro n
    induction n with
    | zero =>
      intro pre post hn x hx
      have : post = [] := List.length_eq_zero_iff.1 (by omega)
      subst this; simp [loop] at hx
    | succ n ih =>
      intro pre post hn x hx
      cases post with
      | nil => simp [loop] at hx
      | cons c r =>
        rw [loop_cons, List.mem_cons] at hx
        rcases hx with rfl | hx
        · exact ⟨pre, c :: r, rfl, by simp, rfl, fun t ht => scan_begins c r t ht⟩
        · rw [bump_place] at hx
          have hp := scan_pos c r
          obtain ⟨a, b, h1, h2⟩ := ih _ _ (by rw [List.length_drop, List.length_cons]; simp at hn; omega) x hx
          refine ⟨a, b, ?_, h2⟩
          rw [← h1, List.append_assoc, List.take_append_drop]
  have h0 : place ([] : Str) = (1, 1) := rfl
  intro x hx
  unfold rounds at hx
  rw [← h0] at hx
  obtain ⟨a, b, h1, h2⟩ := key _ [] s (Nat.le_refl _) x hx
  exact ⟨a, b, by simpa using h1, h2⟩

/-- C207. From text to messages: a text whose tokens form a file of the message grammar is read as
those messages. -/
theorem text_to_messages {s : Str} {ts : List Tok} {ms : List MsgDef} (hs : Source s ts) (hf : FileG ms ts) :
    (lex s).bind parseToks = some ms := by
  rw [(lex_iff s ts).2 hs]
  exact wellformed_file_parsed hf

/-- Finding: four slashes still make a doc comment (in Rust they make a plain one), and a digit string
directly followed by letters is two tokens rather than an error. -/
theorem slashes_and_digits : lex "//// x".toList = some [.doc "/ x".toList] ∧ lex "12ab".toList = some [.int 12, .ident ['a', 'b']] := by
  constructor <;> decide +kernel

/-- Non-vacuity: a message with a comment, a doc comment, an attribute and an array, from text to
tokens, with the places of the first tokens. -/
example : lex "# x\n/// Hi \n#[topic = \"a\"]\nP { v: [f32; 1_0] }".toList =
    some [.doc ['H', 'i'], .punct '#', .punct '[', .ident "topic".toList, .punct '=', .str ['a'], .punct ']', .ident ['P'], .punct '{',
      .ident ['v'], .punct ':', .punct '[', .ident "f32".toList, .punct ';', .int 10, .punct ']', .punct '}'] := by
  decide +kernel

example : (match tokenize "A {\n  ?\n".toList with | .error l => some l | .ok _ => none) = some [(2, 3)] := by decide +kernel

end Horus.Msg.Lex
