import Mathlib.Data.List.Dedup
import Mathlib.Data.List.Infix
import Verif.Build.Imports
/-
Comparing a project's API with a saved one: horus_manager/src/commands/doc_extract_diff.rs, and the exit
code of `horus doc --extract --diff`: doc_extract.rs 852-862.

Modelled: the identity of a symbol, its signature text, what is added, removed and changed, which changes
count as breaking, and the exit code.
Simplified: a map of symbols is the list of them, the last of equal keys counting; `deprecated` notes and
topics (which never count as breaking) are left out; a text whose last `}` comes before its first `{`
(a panic in the code) has no contents.
-/
namespace Horus.ApiDiff
open Horus.Imports (Text find splitC trim white splitC_free splitC_cons trim_pads trim_id)

/-- Symbols (doc_extract.rs 57-67, 171-310), with what their kinds hold. -/
inductive Sym
  | function (name sig : Text)
  | struct (name : Text) (fields : List (Text × Text)) (methods : List Text)
  | enum (name : Text) (variants : List (Text × List Text))
  | trait (name : Text) (required : List (Text × Text)) (provided : List Text)
  | typeAlias (name target : Text)
  | constant (name type : Text)
  | message (name : Text) (fields : List (Text × Text))
  | service (name : Text) (request response : List (Text × Text))
  | action (name : Text) (goal feedback result : List (Text × Text))
  deriving DecidableEq, Repr

inductive Kind
  | function | struct | enum | trait | typeAlias | constant | message | service | action
  deriving DecidableEq, Repr

/-- `symbol_kind_str` (doc_extract_diff.rs 70-82). -/
def Sym.kind : Sym → Kind
  | .function .. => .function
  | .struct .. => .struct
  | .enum .. => .enum
  | .trait .. => .trait
  | .typeAlias .. => .typeAlias
  | .constant .. => .constant
  | .message .. => .message
  | .service .. => .service
  | .action .. => .action

/-- `SymbolDoc::name`. -/
def Sym.name : Sym → Text
  | .function n _ => n
  | .struct n _ _ => n
  | .enum n _ => n
  | .trait n _ _ => n
  | .typeAlias n _ => n
  | .constant n _ => n
  | .message n _ => n
  | .service n _ _ => n
  | .action n _ _ _ => n

/-- `join(", ")`. -/
def join : List Text → Text
  | [] => []
  | [x] => x
  | x :: r => x ++ (',' :: ' ' :: join r)

def field (f : Text × Text) : Text := f.1 ++ (':' :: ' ' :: f.2)

/-- `word name { body }`. -/
def braced (word name body : Text) : Text := word ++ (name ++ (' ' :: '{' :: ' ' :: (body ++ [' ', '}'])))

/-- `symbol_signature` (doc_extract_diff.rs 84-116). -/
def Sym.signature : Sym → Text
  | .function _ s => s
  | .struct n fs _ => braced "struct ".toList n (join (fs.map field))
  | .enum n vs => braced "enum ".toList n (join (vs.map Prod.fst))
  | .trait n ms _ => braced "trait ".toList n (join (ms.map Prod.fst))
  | .typeAlias n t => "type ".toList ++ n ++ " = ".toList ++ t
  | .constant n t => "const ".toList ++ n ++ ": ".toList ++ t
  | .message n fs => braced "message ".toList n (join (fs.map field))
  | .service n _ _ => "service ".toList ++ n
  | .action n _ _ _ => "action ".toList ++ n

/-- A source file: its directory, its name without the extension, and its symbols. -/
structure Module where
  dir : Text
  stem : Text
  symbols : List Sym

/-- `SymbolKey` (doc_extract_diff.rs 59-60). -/
abbrev Key := Text × Text × Kind

/-- The map's insertions, in order (doc_extract_diff.rs 118-143). -/
def entries (doc : List Module) : List (Key × Sym) := doc.flatMap fun m => m.symbols.map fun s => ((m.stem, s.name, s.kind), s)

/-- The map: the last insertion counts. -/
def look (doc : List Module) (k : Key) : Option Sym := ((entries doc).reverse.find? fun e => e.1 = k).map Prod.snd

/-- `str::contains`. -/
def holds (n s : Text) : Bool := s.tails.any fun t => n.isPrefixOf t

/-- `extract_brace_contents` (doc_extract_diff.rs 363-370). -/
def contents (s : Text) : Text := match find ['{'] s with
  | none => []
  | some (_, r) => trim (((r.drop 1).reverse.dropWhile (· != '}')).drop 1).reverse

/-- The part before the first colon, trimmed (294). -/
def beforeColon (s : Text) : Text := trim (s.takeWhile (· != ':'))

/-- The number of nonempty parts (317-324). -/
def parts (s : Text) : Nat := ((splitC ',' s).filter fun p => trim p ≠ []).length

/-- `detect_breaking_signature_change` (doc_extract_diff.rs 269-329). For functions the tests of
parameters and return type are all implied by the last one. -/
def breaking (kind : Kind) (old new : Text) : Bool := match kind with
  | .function => decide (old ≠ new)
  | .struct => (splitC ',' (contents old)).any fun f => decide (beforeColon f ≠ []) && !holds (beforeColon f) (contents new)
  | .enum => (splitC ',' (contents old)).any fun v => decide (trim v ≠ []) && !holds (trim v) (contents new)
  | .trait => decide (parts (contents old) < parts (contents new))
  | _ => false

/-- What is said of a symbol of the saved API. -/
inductive Verdict
  | same | removed | changed (isBreaking : Bool)
  deriving DecidableEq, Repr

/-- The comparison of one key (doc_extract_diff.rs 171-212). -/
def verdict (base cur : List Module) (k : Key) : Option Verdict := match look base k with
  | none => none
  | some old => match look cur k with
    | none => some .removed
    | some new => some (if old.signature = new.signature then .same else .changed (breaking old.kind old.signature new.signature))

/-- The keys of a map. -/
def keys (doc : List Module) : List Key := ((entries doc).map Prod.fst).dedup

/-- `breaking_changes`. -/
def breakingCount (base cur : List Module) : Nat :=
  (keys base).countP fun k => decide (verdict base cur k = some .removed ∨ verdict base cur k = some (.changed true))

/-- "No API changes detected." (383-391; topics and notes aside). -/
def quiet (base cur : List Module) : Bool :=
  (keys base).all (fun k => verdict base cur k = some .same) && (keys cur).all fun k => (look base k).isSome

/-- The exit code is 1 (doc_extract.rs 859-862). -/
def fails (base cur : List Module) : Bool := decide (0 < breakingCount base cur)

/-! ### Specification -/

/-- The symbol is in a file of that name (in whatever directory). -/
def Has (doc : List Module) (stem : Text) (s : Sym) : Prop := ∃ m ∈ doc, m.stem = stem ∧ s ∈ m.symbols

/-- No two symbols share file name, name and kind. -/
def Distinct (doc : List Module) : Prop := ((entries doc).map Prod.fst).Nodup

/-- A name: not empty, without white space, comma and colon. -/
def Ident (n : Text) : Prop := n ≠ [] ∧ ∀ c ∈ n, white c = false ∧ c ≠ ',' ∧ c ≠ ':'

/-- A type's text: not empty, no white space at its end. -/
def TypeText (t : Text) : Prop := t ≠ [] ∧ ∀ c, t.getLast? = some c → white c = false

/-! ### Proofs: the map -/

theorem mem_entries (doc : List Module) (k : Key) (s : Sym) : (k, s) ∈ entries doc ↔ k.2 = (s.name, s.kind) ∧ Has doc k.1 s := by
  unfold entries Has
  rw [List.mem_flatMap]
  constructor
  · rintro ⟨m, hm, h⟩
    obtain ⟨s', hs', e⟩ := List.mem_map.1 h
    injection e with e1 e2
    subst e2
    rw [← e1]
    exact ⟨rfl, m, hm, rfl, hs'⟩
  · rintro ⟨h, m, hm, hk, hs⟩
    refine ⟨m, hm, List.mem_map.2 ⟨s, hs, ?_⟩⟩
    obtain ⟨a, b⟩ := k
    dsimp only at h hk
    rw [h, hk]

theorem look_none (doc : List Module) (k : Key) : look doc k = none ↔ ∀ s, (k, s) ∉ entries doc := by
  unfold look
  rw [Option.map_eq_none_iff, List.find?_eq_none]
  constructor
  · intro h s hs
    exact h (k, s) (List.mem_reverse.2 hs) (by simp)
  · intro h e he
    have : e.1 ≠ k := fun hk => h e.2 (by rw [← hk]; exact List.mem_reverse.1 he)
    simpa using this

theorem look_some (doc : List Module) (k : Key) (s : Sym) (h : look doc k = some s) : (k, s) ∈ entries doc := by
  unfold look at h
  obtain ⟨e, he, rfl⟩ := Option.map_eq_some_iff.1 h
  have := List.find?_some he
  rw [decide_eq_true_eq] at this
  rw [← this]
  exact List.mem_reverse.1 (List.mem_of_find?_eq_some he)

theorem look_of_mem (doc : List Module) (hd : Distinct doc) (k : Key) (s : Sym) (h : (k, s) ∈ entries doc) : look doc k = some s := by
  cases hl : look doc k with
  | none => exact absurd h ((look_none doc k).1 hl s)
  | some s' =>
    have h' := look_some doc k s' hl
    have := List.inj_on_of_nodup_map hd h h' rfl
    injection this with _ this
    rw [this]

theorem mem_keys (doc : List Module) (k : Key) : k ∈ keys doc ↔ ∃ s, (k, s) ∈ entries doc := by
  unfold keys
  rw [List.mem_dedup, List.mem_map]
  constructor
  · rintro ⟨⟨k', s⟩, h, rfl⟩; exact ⟨s, h⟩
  · rintro ⟨s, h⟩; exact ⟨(k, s), h, rfl⟩

theorem fails_iff (base cur : List Module) : fails base cur = true ↔ ∃ k ∈ keys base, verdict base cur k = some .removed ∨ verdict base cur k = some (.changed true) := by
  unfold fails breakingCount
  rw [decide_eq_true_eq, List.countP_pos_iff]
  simp

/-- **A symbol that no file of that name has any more makes the command fail.** -/
theorem removed_fails (base cur : List Module) (stem : Text) (s : Sym) (hb : Has base stem s)
    (hc : ∀ s', Has cur stem s' → s'.name = s.name → s'.kind ≠ s.kind) : fails base cur = true := by
  rw [fails_iff]
  have hm : ((stem, s.name, s.kind), s) ∈ entries base := (mem_entries _ _ _).2 ⟨rfl, hb⟩
  refine ⟨(stem, s.name, s.kind), (mem_keys _ _).2 ⟨s, hm⟩, Or.inl ?_⟩
  have hl : look cur (stem, s.name, s.kind) = none := by
    rw [look_none]
    intro s' h'
    obtain ⟨e, h2⟩ := (mem_entries _ _ _).1 h'
    injection e with e1 e2
    exact hc s' h2 e1.symm e2.symm
  unfold verdict
  cases hb' : look base (stem, s.name, s.kind) with
  | none => exact absurd hm ((look_none _ _).1 hb' s)
  | some o => dsimp only; rw [hl]

/-- What makes the command fail, for APIs without symbols of the same file name, name and kind: a symbol
that is gone, or one whose change counts as breaking. -/
theorem fails_exact_partial (base cur : List Module) (h1 : Distinct base) (h2 : Distinct cur) :
    fails base cur = true ↔ ∃ stem s, Has base stem s ∧ ((∀ s', Has cur stem s' → s'.name = s.name → s'.kind ≠ s.kind) ∨
      ∃ s', Has cur stem s' ∧ s'.name = s.name ∧ s'.kind = s.kind ∧ s.signature ≠ s'.signature ∧ breaking s.kind s.signature s'.signature = true) := by
  constructor
  · intro h
    obtain ⟨k, hk, hv⟩ := (fails_iff _ _).1 h
    obtain ⟨s, hs⟩ := (mem_keys _ _).1 hk
    obtain ⟨e, hb⟩ := (mem_entries _ _ _).1 hs
    refine ⟨k.1, s, hb, ?_⟩
    have hl := look_of_mem base h1 k s hs
    unfold verdict at hv
    rw [hl] at hv
    dsimp only at hv
    cases hc : look cur k with
    | none =>
      left
      intro s' hs' hn hkd
      exact (look_none cur k).1 hc s' ((mem_entries _ _ _).2 ⟨by rw [hn, hkd]; exact e, hs'⟩)
    | some s' =>
      rw [hc] at hv
      dsimp only at hv
      obtain ⟨e', hc'⟩ := (mem_entries _ _ _).1 (look_some cur k s' hc)
      rw [e] at e'
      injection e' with e1 e2
      right
      by_cases hsig : s.signature = s'.signature
      · rw [if_pos hsig] at hv; rcases hv with hv | hv <;> cases hv
      · rw [if_neg hsig] at hv
        refine ⟨s', hc', e1.symm, e2.symm, hsig, ?_⟩
        rcases hv with hv | hv
        · cases hv
        · injection hv with hv; injection hv
  · rintro ⟨stem, s, hb, hc | ⟨s', hc, hn, hk, hsig, hbr⟩⟩
    · exact removed_fails base cur stem s hb hc
    · rw [fails_iff]
      have hm : ((stem, s.name, s.kind), s) ∈ entries base := (mem_entries _ _ _).2 ⟨rfl, hb⟩
      have hm' : ((stem, s.name, s.kind), s') ∈ entries cur := (mem_entries _ _ _).2 ⟨by rw [hn, hk], hc⟩
      refine ⟨(stem, s.name, s.kind), (mem_keys _ _).2 ⟨s, hm⟩, Or.inr ?_⟩
      unfold verdict
      rw [look_of_mem base h1 _ s hm, look_of_mem cur h2 _ s' hm']
      dsimp only
      rw [if_neg hsig, hbr]

/-- **An API compared with itself shows no changes and passes.** -/
theorem same_quiet (base : List Module) : quiet base base = true ∧ fails base base = false := by
  have hv : ∀ k ∈ keys base, verdict base base k = some .same ∧ (look base k).isSome = true := by
    intro k hk
    obtain ⟨s, hs⟩ := (mem_keys _ _).1 hk
    cases hl : look base k with
    | none => exact absurd hs ((look_none _ _).1 hl s)
    | some o => unfold verdict; rw [hl]; dsimp only; rw [if_pos rfl]; exact ⟨rfl, rfl⟩
  constructor
  · unfold quiet
    rw [Bool.and_eq_true, List.all_eq_true, List.all_eq_true]
    exact ⟨fun k hk => by simpa using (hv k hk).1, fun k hk => (hv k hk).2⟩
  · cases hf : fails base base with
    | false => rfl
    | true =>
      obtain ⟨k, hk, h⟩ := (fails_iff _ _).1 hf
      rw [(hv k hk).1] at h
      rcases h with h | h <;> cases h

/-! ### Proofs: signatures -/

theorem holds_iff (n s : Text) : holds n s = true ↔ n <:+: s := by
  unfold holds
  rw [List.any_eq_true]
  constructor
  · rintro ⟨t, ht, h⟩
    exact (List.isPrefixOf_iff_prefix.1 h).isInfix.trans ((List.mem_tails t s).1 ht).isInfix
  · rintro ⟨a, b, h⟩
    exact ⟨n ++ b, (List.mem_tails _ _).2 ⟨a, by rw [← h]; simp⟩, List.isPrefixOf_iff_prefix.2 (List.prefix_append _ _)⟩

theorem contents_braced (word name body : Text) (hw : '{' ∉ word) (hn : '{' ∉ name) : contents (braced word name body) = trim (' ' :: (body ++ [' '])) := by
  unfold contents braced
  have e : word ++ (name ++ (' ' :: '{' :: ' ' :: (body ++ [' ', '}']))) = (word ++ (name ++ [' '])) ++ '{' :: (' ' :: (body ++ [' ', '}'])) := by simp
  rw [e, Horus.Imports.find_first ['{'] (word ++ (name ++ [' '])) ('{' :: (' ' :: (body ++ [' ', '}']))) '{' [] rfl (by simp [hw, hn]) (by simp [List.isPrefixOf])]
  dsimp only
  have e2 : ('{' :: (' ' :: (body ++ [' ', '}']))).drop 1 = ' ' :: (body ++ [' ']) ++ ['}'] := by simp
  rw [e2, List.reverse_append, List.reverse_singleton, List.singleton_append, List.dropWhile_cons, if_neg (by decide), List.drop_one, List.tail_cons, List.reverse_reverse]

theorem trim_body (body : Text) (h1 : ∀ c, body.head? = some c → white c = false) (h2 : ∀ c, body.getLast? = some c → white c = false) : trim (' ' :: (body ++ [' '])) = body := by
  by_cases hb : body = []
  · subst hb; decide
  · have := trim_pads [' '] body [' '] (by decide) (by decide) h1 h2 hb
    simpa using this

theorem splitC_append (c : Char) (a b : Text) : splitC c (a ++ c :: b) = splitC c a ++ splitC c b := by
  induction a with
  | nil => rw [List.nil_append]; show splitC c (c :: b) = [] :: splitC c b; rw [splitC]; exact if_pos rfl
  | cons x a ih =>
    rw [List.cons_append, splitC, splitC]
    by_cases hx : x = c
    · rw [if_pos hx, if_pos hx, ih]; rfl
    · rw [if_neg hx, if_neg hx, ih]
      cases hs : splitC c a with
      | nil =>
        exfalso
        cases a with
        | nil => simp [splitC] at hs
        | cons y a => rw [splitC] at hs; split at hs <;> [cases hs; (split at hs <;> cases hs)]
      | cons p ps => rfl

theorem splitC_head (c : Char) (b : Text) : b.takeWhile (· != c) ∈ splitC c b := by
  induction b with
  | nil => simp [splitC]
  | cons x b ih =>
    rw [splitC]
    by_cases hx : x = c
    · rw [if_pos hx, List.takeWhile_cons, if_neg (by simp [hx])]; simp
    · rw [if_neg hx, List.takeWhile_cons, if_pos (by simp [hx])]
      have hh : ∀ t : Text, (splitC c t).head? = some (t.takeWhile (· != c)) := by
        intro t
        induction t with
        | nil => rfl
        | cons y t ih2 =>
          rw [splitC]
          by_cases hy : y = c
          · rw [if_pos hy, List.takeWhile_cons, if_neg (by simp [hy])]; rfl
          · rw [if_neg hy, List.takeWhile_cons, if_pos (by simp [hy])]
            cases hs : splitC c t with
            | nil => rw [hs] at ih2; cases ih2
            | cons p ps => rw [hs] at ih2; injection ih2 with ih2; rw [← ih2]; rfl
      have := hh b
      cases hs : splitC c b with
      | nil => rw [hs] at this; cases this
      | cons p ps => rw [hs] at this; injection this with this; rw [← this]; simp

/-- Where a part stands in a joined text. -/
theorem join_part (ps : List Text) (x : Text) (hx : x ∈ ps) : ∃ r, (r = [] ∨ ∃ r', r = ',' :: r') ∧ (join ps = x ++ r ∨ ∃ a, join ps = a ++ ',' :: (' ' :: (x ++ r))) := by
  induction ps with
  | nil => cases hx
  | cons p t ih =>
    cases t with
    | nil =>
      rw [List.mem_singleton] at hx
      subst hx
      exact ⟨[], Or.inl rfl, Or.inl (by simp [join])⟩
    | cons q t =>
      have e : join (p :: q :: t) = p ++ ',' :: (' ' :: join (q :: t)) := rfl
      rcases List.mem_cons.1 hx with rfl | hx
      · exact ⟨_, Or.inr ⟨_, rfl⟩, Or.inl e⟩
      · obtain ⟨r, hr, h | ⟨a, h⟩⟩ := ih hx
        · exact ⟨r, hr, Or.inr ⟨p, by rw [e, h]⟩⟩
        · exact ⟨r, hr, Or.inr ⟨p ++ ',' :: ' ' :: a, by rw [e, h]; simp⟩⟩

/-- Each part of a joined text begins a piece of it, perhaps after a blank. -/
theorem join_piece (ps : List Text) (x : Text) (hx : x ∈ ps) : ∃ sp, (sp = [] ∨ sp = [' ']) ∧ ∃ r, (r = [] ∨ ∃ r', r = ',' :: r') ∧ (sp ++ (x ++ r)).takeWhile (· != ',') ∈ splitC ',' (join ps) := by
  obtain ⟨r, hr, h | ⟨a, h⟩⟩ := join_part ps x hx
  · exact ⟨[], Or.inl rfl, r, hr, by rw [h]; exact splitC_head ',' _⟩
  · refine ⟨[' '], Or.inr rfl, r, hr, ?_⟩
    rw [h, splitC_append]
    exact List.mem_append_right _ (splitC_head ',' (' ' :: (x ++ r)))

theorem join_head (p : Text) (t : List Text) (hp : p ≠ []) : (join (p :: t)).head? = p.head? := by
  cases p with
  | nil => exact absurd rfl hp
  | cons c p => cases t <;> rfl

theorem join_last (ps : List Text) (h : ∀ p ∈ ps, p ≠ []) : (join ps).getLast? = ps.getLast?.bind List.getLast? := by
  induction ps with
  | nil => rfl
  | cons p t ih =>
    cases t with
    | nil => simp [join]
    | cons q t =>
      have e : join (p :: q :: t) = p ++ ',' :: (' ' :: join (q :: t)) := rfl
      have hj : join (q :: t) ≠ [] := by
        intro hj
        have h1 := join_head q t (h q (by simp))
        rw [hj] at h1
        cases q with
        | nil => exact h [] (by simp) rfl
        | cons c q => cases h1
      have e2 : p ++ ',' :: (' ' :: join (q :: t)) = (p ++ [',', ' ']) ++ join (q :: t) := by simp
      rw [e, e2, List.getLast?_append_of_ne_nil _ hj, ih (fun x hx => h x (by simp [hx])), List.getLast?_cons_cons]

/-- The texts of the parts begin and end without white space: the contents are the joined text. -/
theorem contents_join (word name : Text) (ps : List Text) (hw : '{' ∉ word) (hn : '{' ∉ name)
    (hp : ∀ p ∈ ps, p ≠ [] ∧ (∀ c, p.head? = some c → white c = false) ∧ ∀ c, p.getLast? = some c → white c = false) :
    contents (braced word name (join ps)) = join ps := by
  rw [contents_braced word name _ hw hn]
  apply trim_body
  · intro c hc
    cases ps with
    | nil => cases hc
    | cons p t =>
      rw [join_head p t (hp p (by simp)).1] at hc
      exact (hp p (by simp)).2.1 c hc
  · intro c hc
    rw [join_last ps (fun p h => (hp p h).1)] at hc
    obtain ⟨p, h1, h2⟩ := Option.bind_eq_some_iff.1 hc
    exact (hp p (List.mem_of_getLast? h1)).2.2 c h2

theorem ident_ends (n : Text) (h : Ident n) : n ≠ [] ∧ (∀ c, n.head? = some c → white c = false) ∧ ∀ c, n.getLast? = some c → white c = false :=
  ⟨h.1, fun c hc => (h.2 c (List.mem_of_head? hc)).1, fun c hc => (h.2 c (List.mem_of_getLast? hc)).1⟩

theorem field_ends (f : Text × Text) (h1 : Ident f.1) (h2 : TypeText f.2) : field f ≠ [] ∧ (∀ c, (field f).head? = some c → white c = false) ∧ ∀ c, (field f).getLast? = some c → white c = false := by
  obtain ⟨n, t⟩ := f
  dsimp only at h1 h2
  have e : field (n, t) = (n ++ [':', ' ']) ++ t := by simp [field]
  refine ⟨by simp [field], ?_, ?_⟩
  · intro c hc
    cases n with
    | nil => exact absurd rfl h1.1
    | cons a n => exact (ident_ends _ h1).2.1 c hc
  · intro c hc
    rw [e, List.getLast?_append_of_ne_nil _ h2.1] at hc
    exact h2.2 c hc

theorem takeWhile_stop (c : Char) (a b : Text) (h : ∀ x ∈ a, x ≠ c) : (a ++ c :: b).takeWhile (· != c) = a := by
  induction a with
  | nil => simp
  | cons x a ih =>
    rw [List.cons_append, List.takeWhile_cons, if_pos (by simpa using h x (by simp)), ih (fun y hy => h y (by simp [hy]))]

theorem takeWhile_all (c : Char) (a : Text) (h : ∀ x ∈ a, x ≠ c) : a.takeWhile (· != c) = a := by
  induction a with
  | nil => rfl
  | cons x a ih => rw [List.takeWhile_cons, if_pos (by simpa using h x (by simp)), ih (fun y hy => h y (by simp [hy]))]

theorem takeWhile_into (c : Char) (a b : Text) (h : ∀ x ∈ a, x ≠ c) : (a ++ b).takeWhile (· != c) = a ++ b.takeWhile (· != c) := by
  induction a with
  | nil => rfl
  | cons x a ih =>
    rw [List.cons_append, List.takeWhile_cons, if_pos (by simpa using h x (by simp)), ih (fun y hy => h y (by simp [hy])), List.cons_append]

theorem trim_lead (sp n : Text) (hs : sp = [] ∨ sp = [' ']) (h : Ident n) : trim (sp ++ n) = n := by
  have := trim_pads sp n [] (by rcases hs with rfl | rfl <;> decide) (by simp) (ident_ends n h).2.1 (ident_ends n h).2.2 h.1
  simpa using this

/-- **A field that is gone from a struct is a breaking change**, when its name is no part of the text of
the fields that are left. -/
theorem field_removed_partial (n : Text) (old new : List (Text × Text)) (m m' : List Text) (f : Text × Text) (hn : '{' ∉ n)
    (ho : ∀ f ∈ old, Ident f.1 ∧ TypeText f.2) (hw : ∀ f ∈ new, Ident f.1 ∧ TypeText f.2) (hf : f ∈ old)
    (hg : ¬ f.1 <:+: join (new.map field)) : breaking .struct (Sym.struct n old m).signature (Sym.struct n new m').signature = true := by
  have ends : ∀ l : List (Text × Text), (∀ f ∈ l, Ident f.1 ∧ TypeText f.2) → contents (braced "struct ".toList n (join (l.map field))) = join (l.map field) := by
    intro l hl
    refine contents_join _ _ _ (by decide) hn ?_
    intro p hp
    obtain ⟨g, hg, rfl⟩ := List.mem_map.1 hp
    exact field_ends g (hl g hg).1 (hl g hg).2
  show List.any _ _ = true
  rw [List.any_eq_true]
  show ∃ x ∈ splitC ',' (contents (braced _ n (join (old.map field)))), (decide (beforeColon x ≠ []) && !holds (beforeColon x) (contents (braced _ n (join (new.map field))))) = true
  rw [ends old ho, ends new hw]
  obtain ⟨sp, hsp, r, -, hmem⟩ := join_piece (old.map field) (field f) (List.mem_map.2 ⟨f, hf, rfl⟩)
  refine ⟨_, hmem, ?_⟩
  have hid := (ho f hf).1
  have hb : beforeColon ((sp ++ (field f ++ r)).takeWhile (· != ',')) = f.1 := by
    have e : sp ++ (field f ++ r) = (sp ++ f.1 ++ [':']) ++ (' ' :: (f.2 ++ r)) := by simp [field]
    have hc : ∀ x ∈ sp ++ f.1 ++ [':'], x ≠ ',' := by
      intro x hx
      simp only [List.mem_append, List.mem_singleton] at hx
      rcases hx with (hx | hx) | hx
      · rcases hsp with rfl | rfl
        · cases hx
        · rw [List.mem_singleton] at hx; rw [hx]; decide
      · exact (hid.2 x hx).2.1
      · rw [hx]; decide
    rw [e, takeWhile_into ',' _ _ hc]
    unfold beforeColon
    rw [List.append_assoc, List.singleton_append, takeWhile_stop ':' (sp ++ f.1) _ ?_, trim_lead sp f.1 hsp hid]
    intro x hx
    rcases List.mem_append.1 hx with hx | hx
    · rcases hsp with rfl | rfl
      · cases hx
      · rw [List.mem_singleton] at hx; rw [hx]; decide
    · exact (hid.2 x hx).2.2
  rw [hb, Bool.and_eq_true, decide_eq_true_eq, Bool.not_eq_true']
  refine ⟨hid.1, ?_⟩
  cases hh : holds f.1 (join (new.map field)) with
  | false => rfl
  | true => exact absurd ((holds_iff _ _).1 hh) hg

theorem names_ends (l : List Text) (hl : ∀ v ∈ l, Ident v) : ∀ p ∈ l, p ≠ [] ∧ (∀ c, p.head? = some c → white c = false) ∧ ∀ c, p.getLast? = some c → white c = false :=
  fun p hp => ident_ends p (hl p hp)

theorem join_pieces (p : Text) (t : List Text) (hl : ∀ v ∈ p :: t, Ident v) : splitC ',' (join (p :: t)) = p :: t.map (' ' :: ·) := by
  induction t generalizing p with
  | nil => exact splitC_free ',' p (fun h => (((hl p (by simp)).2 ',' h).2.1 rfl))
  | cons q t ih =>
    have e : join (p :: q :: t) = p ++ ',' :: (' ' :: join (q :: t)) := rfl
    rw [e, splitC_append, splitC_free ',' p (fun h => (((hl p (by simp)).2 ',' h).2.1 rfl)), splitC, if_neg (by decide), ih q (fun v hv => hl v (by simp [hv]))]
    rfl

/-- **Enum changes: breaking exactly when the name of some old variant is no part of the text of the
new ones' names.** -/
theorem variant_removed_partial (n : Text) (old new : List (Text × List Text)) (hn : '{' ∉ n)
    (ho : ∀ v ∈ old, Ident v.1) (hw : ∀ v ∈ new, Ident v.1) :
    breaking .enum (Sym.enum n old).signature (Sym.enum n new).signature = true ↔ ∃ v ∈ old, ¬ v.1 <:+: join (new.map Prod.fst) := by
  have ho' : ∀ v ∈ old.map Prod.fst, Ident v := fun v hv => by obtain ⟨w, hw, rfl⟩ := List.mem_map.1 hv; exact ho w hw
  have hw' : ∀ v ∈ new.map Prod.fst, Ident v := fun v hv => by obtain ⟨w, hw2, rfl⟩ := List.mem_map.1 hv; exact hw w hw2
  have c1 : contents (Sym.enum n old).signature = join (old.map Prod.fst) := contents_join _ _ _ (by decide) hn (names_ends _ ho')
  have c2 : contents (Sym.enum n new).signature = join (new.map Prod.fst) := contents_join _ _ _ (by decide) hn (names_ends _ hw')
  have key : (∃ v ∈ old, ¬ v.1 <:+: join (new.map Prod.fst)) ↔ ∃ v ∈ old.map Prod.fst, ¬ v <:+: join (new.map Prod.fst) := by
    constructor
    · rintro ⟨v, hv, h⟩; exact ⟨v.1, List.mem_map.2 ⟨v, hv, rfl⟩, h⟩
    · rintro ⟨v, hv, h⟩; obtain ⟨w, hw, rfl⟩ := List.mem_map.1 hv; exact ⟨w, hw, h⟩
  rw [key]
  show List.any _ _ = true ↔ _
  rw [List.any_eq_true, c1, c2]
  generalize join (new.map Prod.fst) = nt
  revert ho'
  generalize old.map Prod.fst = l
  intro hl
  have one : ∀ sp v : Text, (sp = [] ∨ sp = [' ']) → Ident v → ((decide (trim (sp ++ v) ≠ []) && !holds (trim (sp ++ v)) nt) = true ↔ ¬ v <:+: nt) := by
    intro sp v hsp hv
    rw [trim_lead sp v hsp hv, Bool.and_eq_true, decide_eq_true_eq, Bool.not_eq_true', ← holds_iff, Bool.not_eq_true]
    exact ⟨fun h => h.2, fun h => ⟨hv.1, h⟩⟩
  cases l with
  | nil => simp [join, splitC, trim, Horus.Imports.trim]; try decide
  | cons p t =>
    rw [join_pieces p t hl]
    constructor
    · rintro ⟨x, hx, h⟩
      rcases List.mem_cons.1 hx with rfl | hx
      · exact ⟨x, by simp, (one [] x (Or.inl rfl) (hl x (by simp))).1 h⟩
      · obtain ⟨v, hv, rfl⟩ := List.mem_map.1 hx
        exact ⟨v, by simp [hv], (one [' '] v (Or.inr rfl) (hl v (by simp [hv]))).1 h⟩
    · rintro ⟨v, hv, h⟩
      rcases List.mem_cons.1 hv with rfl | hv
      · exact ⟨v, by simp, (one [] v (Or.inl rfl) (hl v (by simp))).2 h⟩
      · exact ⟨' ' :: v, List.mem_cons_of_mem _ (List.mem_map.2 ⟨v, hv, rfl⟩), (one [' '] v (Or.inr rfl) (hl v (by simp [hv]))).2 h⟩

theorem parts_join (l : List Text) (hl : ∀ v ∈ l, Ident v) : parts (join l) = l.length := by
  cases l with
  | nil => decide
  | cons p t =>
    unfold parts
    rw [join_pieces p t hl, List.filter_eq_self.2]
    · simp
    · intro x hx
      rw [decide_eq_true_eq]
      rcases List.mem_cons.1 hx with rfl | hx
      · have := trim_lead [] x (Or.inl rfl) (hl x (by simp))
        rw [List.nil_append] at this
        rw [this]; exact (hl x (by simp)).1
      · obtain ⟨v, hv, rfl⟩ := List.mem_map.1 hx
        have := trim_lead [' '] v (Or.inr rfl) (hl v (by simp [hv]))
        rw [List.singleton_append] at this
        rw [this]; exact (hl v (by simp [hv])).1

/-- **Trait changes: breaking exactly when there are more required methods than before.** -/
theorem trait_more_partial (n : Text) (old new : List (Text × Text)) (p p' : List Text) (hn : '{' ∉ n)
    (ho : ∀ v ∈ old, Ident v.1) (hw : ∀ v ∈ new, Ident v.1) :
    breaking .trait (Sym.trait n old p).signature (Sym.trait n new p').signature = true ↔ old.length < new.length := by
  have ho' : ∀ v ∈ old.map Prod.fst, Ident v := fun v hv => by obtain ⟨w, hw, rfl⟩ := List.mem_map.1 hv; exact ho w hw
  have hw' : ∀ v ∈ new.map Prod.fst, Ident v := fun v hv => by obtain ⟨w, hw2, rfl⟩ := List.mem_map.1 hv; exact hw w hw2
  have c1 : contents (Sym.trait n old p).signature = join (old.map Prod.fst) := contents_join _ _ _ (by decide) hn (names_ends _ ho')
  have c2 : contents (Sym.trait n new p').signature = join (new.map Prod.fst) := contents_join _ _ _ (by decide) hn (names_ends _ hw')
  show decide (parts _ < parts _) = true ↔ _
  rw [decide_eq_true_eq, c1, c2, parts_join _ ho', parts_join _ hw', List.length_map, List.length_map]

/-- **Any change of a function's signature makes the command fail.** -/
theorem function_changed_fails (base cur : List Module) (h1 : Distinct base) (h2 : Distinct cur) (stem n a b : Text)
    (hb : Has base stem (.function n a)) (hc : Has cur stem (.function n b)) (h : a ≠ b) : fails base cur = true :=
  (fails_exact_partial base cur h1 h2).2 ⟨stem, _, hb, Or.inr ⟨_, hc, rfl, rfl, h, by show decide (a ≠ b) = true; simpa using h⟩⟩

/-! ### Where the comparison is silent -/

/-- Two files of the same name in different directories. -/
def nav (s : List Sym) : Module := ⟨"src/nav".toList, "mod".toList, s⟩
def arm (s : List Sym) : Module := ⟨"src/arm".toList, "mod".toList, s⟩
def init (a : Text) : Sym := .function "init".toList a

/-- **A function removed from one `mod.rs` goes unnoticed while another `mod.rs` has one of that name**:
no changes are reported at all. -/
theorem same_stem_hides :
    quiet [nav [init "fn init(p: Path)".toList], arm [init "fn init()".toList]] [nav [], arm [init "fn init()".toList]] = true ∧
    fails [nav [init "fn init(p: Path)".toList], arm [init "fn init()".toList]] [nav [], arm [init "fn init()".toList]] = false := by decide

/-- Whatever a change does to a struct's methods, to the payloads of an enum's variants, to the
signatures of a trait's required methods and to its provided ones, to the fields of a service or of an
action, **the signatures compared are the same**. -/
theorem not_looked_at (n : Text) (fs : List (Text × Text)) (m m' : List Text) (vs vs' : List (Text × List Text)) (hv : vs.map Prod.fst = vs'.map Prod.fst)
    (rs rs' : List (Text × Text)) (hr : rs.map Prod.fst = rs'.map Prod.fst) (a b c a' b' c' : List (Text × Text)) :
    (Sym.struct n fs m).signature = (Sym.struct n fs m').signature ∧ (Sym.enum n vs).signature = (Sym.enum n vs').signature ∧
    (Sym.trait n rs m).signature = (Sym.trait n rs' m').signature ∧ (Sym.service n a b).signature = (Sym.service n a' b').signature ∧
    (Sym.action n a b c).signature = (Sym.action n a' b' c').signature := by
  refine ⟨rfl, ?_, ?_, rfl, rfl⟩
  · show braced _ _ _ = braced _ _ _; rw [hv]
  · show braced _ _ _ = braced _ _ _; rw [hr]

/-- **No change of a message, a type alias or a constant counts as breaking**, whatever fields are
removed or types changed. -/
theorem never_breaking (old new : Text) : breaking .message old new = false ∧ breaking .typeAlias old new = false ∧ breaking .constant old new = false := ⟨rfl, rfl, rfl⟩

/-- Removing `id` where `width` stays, changing a field's type, and replacing a required method are
changes that do not count as breaking. -/
theorem missed_breaking :
    breaking .struct (Sym.struct "Box".toList [("id".toList, "u32".toList), ("width".toList, "f32".toList)] []).signature (Sym.struct "Box".toList [("width".toList, "f32".toList)] []).signature = false ∧
    breaking .struct (Sym.struct "Box".toList [("width".toList, "f32".toList)] []).signature (Sym.struct "Box".toList [("width".toList, "String".toList)] []).signature = false ∧
    breaking .enum (Sym.enum "Mode".toList [("Stop".toList, []), ("StopNow".toList, [])]).signature (Sym.enum "Mode".toList [("StopNow".toList, [])]).signature = false ∧
    breaking .trait (Sym.trait "Node".toList [("tick".toList, [])] []).signature (Sym.trait "Node".toList [("step".toList, [])] []).signature = false := by decide +kernel

/-! ### Examples -/

example : fails [nav [init "fn init()".toList]] [nav []] = true :=
  removed_fails _ _ "mod".toList (init "fn init()".toList) ⟨_, List.mem_singleton.2 rfl, rfl, List.mem_singleton.2 rfl⟩ (by rintro s ⟨m, hm, -, hs⟩; simp at hm; subst hm; simp [nav] at hs)

example : fails [nav [init "fn init()".toList]] [nav [init "fn init(x: u8)".toList]] = true :=
  function_changed_fails _ _ (by simp [Distinct, entries, nav]) (by simp [Distinct, entries, nav]) "mod".toList "init".toList _ _
    ⟨_, List.mem_singleton.2 rfl, rfl, List.mem_singleton.2 rfl⟩ ⟨_, List.mem_singleton.2 rfl, rfl, List.mem_singleton.2 rfl⟩ (by decide)

/-- A removed field whose name does not occur in what is left, the type of the other holding a comma. -/
example : breaking .struct (Sym.struct "Box".toList [("id".toList, "u32".toList), ("m".toList, "Map<K, V>".toList)] []).signature (Sym.struct "Box".toList [("m".toList, "Map<K, V>".toList)] []).signature = true :=
  field_removed_partial "Box".toList _ _ [] [] ("id".toList, "u32".toList) (by decide)
    (by intro f hf; simp only [List.mem_cons, List.not_mem_nil, or_false] at hf; rcases hf with rfl | rfl <;> exact ⟨⟨by decide, by decide⟩, by decide, by intro c hc; injection hc with hc; subst hc; decide⟩)
    (by intro f hf; simp only [List.mem_cons, List.not_mem_nil, or_false] at hf; subst hf; exact ⟨⟨by decide, by decide⟩, by decide, by intro c hc; injection hc with hc; subst hc; decide⟩)
    (by simp) (by rw [← holds_iff]; decide)

end Horus.ApiDiff
